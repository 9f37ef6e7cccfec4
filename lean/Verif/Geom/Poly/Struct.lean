import Mathlib.Tactic.FieldSimp
import Mathlib.Data.List.Perm.Basic
import Verif.Geom.Poly.Wind
import Verif.Geom.Poly.Cycle

/-
The edges of the polygons `cutToHalfSpace` gives: the edges of the polygon cut to the half-plane, and edges along the cutline.
-/

namespace Verif.Geom.Poly

variable {K : Type} [Field K] [LinearOrder K] [IsStrictOrderedRing K]

/-- The part of an edge in the half-plane (no part that only touches the cutline). -/
def clip (n : Pt K) (H : K) (e : Pt K × Pt K) : List (Pt K × Pt K) :=
  if dot n e.1 < H then
    if dot n e.2 ≤ H then [e] else [(e.1, cutEdge e.1 e.2 n H)]
  else if dot n e.2 < H then [(if dot n e.1 = H then e.1 else cutEdge e.1 e.2 n H, e.2)] else []

/-- The part of `clip` whose last point is emitted with the last vertex of the edge. -/
def clipEnd (n : Pt K) (H : K) (a b : Pt K) : List (Pt K × Pt K) :=
  if dot n b < H ∨ (dot n a < H ∧ dot n b = H) then [(if dot n a ≤ H then a else cutEdge a b n H, b)] else []

/-- The part of `clip` emitted with the first vertex of the edge. -/
def clipStart (n : Pt K) (H : K) (a b : Pt K) : List (Pt K × Pt K) :=
  if dot n a < H ∧ H < dot n b then [(a, cutEdge a b n H)] else []

omit [Field K] [IsStrictOrderedRing K] in
theorem tri (x y : K) : (x < y ∧ x ≤ y ∧ x ≠ y ∧ y ≠ x ∧ ¬ y < x ∧ ¬ y ≤ x) ∨ x = y ∨ (y < x ∧ y ≤ x ∧ x ≠ y ∧ y ≠ x ∧ ¬ x < y ∧ ¬ x ≤ y) := by
  rcases lt_trichotomy x y with h | h | h
  · exact Or.inl ⟨h, h.le, h.ne, h.ne', h.not_gt, not_le.2 h⟩
  · exact Or.inr (Or.inl h)
  · exact Or.inr (Or.inr ⟨h, h.le, h.ne', h.ne, h.not_gt, not_le.2 h⟩)

theorem clip_split (n : Pt K) (H : K) (e : Pt K × Pt K) : clip n H e = clipEnd n H e.1 e.2 ++ clipStart n H e.1 e.2 := by
  obtain ⟨a, b⟩ := e
  unfold clip clipEnd clipStart
  rcases tri (dot n a) H with h | h | h <;> rcases tri (dot n b) H with h' | h' | h' <;> simp [h, h']

/-- After a point, an edge to the next point is due, unless the point is an outward one. -/
def st (x : CutPt K) : Option (Pt K) := if x.tag = some true then none else some x.pt

/-- The edges along a list of points. -/
def scan : Option (Pt K) → List (CutPt K) → List (Pt K × Pt K)
  | _, [] => []
  | none, x :: E => scan (st x) E
  | some p, x :: E => (p, x.pt) :: scan (st x) E

def fin : Option (Pt K) → List (CutPt K) → Option (Pt K)
  | s, [] => s
  | _, x :: E => fin (st x) E

/-- A point is an inward one exactly if no edge to it is due. -/
def Alt : Option (Pt K) → List (CutPt K) → Prop
  | _, [] => True
  | s, x :: E => (s = none ↔ x.tag = some false) ∧ Alt (st x) E

omit [IsStrictOrderedRing K] in
theorem scan_append (s : Option (Pt K)) (A B : List (CutPt K)) : scan s (A ++ B) = scan s A ++ scan (fin s A) B := by
  induction A generalizing s with
  | nil => simp [scan, fin]
  | cons x t ih => cases s <;> simp [scan, fin, ih]

omit [IsStrictOrderedRing K] in
theorem fin_append (s : Option (Pt K)) (A B : List (CutPt K)) : fin s (A ++ B) = fin (fin s A) B := by
  induction A generalizing s with
  | nil => rfl
  | cons x t ih => simp [fin, ih]

omit [IsStrictOrderedRing K] in
theorem alt_append (s : Option (Pt K)) (A B : List (CutPt K)) : Alt s (A ++ B) ↔ Alt s A ∧ Alt (fin s A) B := by
  induction A generalizing s with
  | nil => simp [Alt, fin]
  | cons x t ih => simp [Alt, fin, ih, and_assoc]

/-- The edge that is due on the way from `a` to `b`. -/
def due (n : Pt K) (H : K) (a b : Pt K) : Option (Pt K) :=
  if dot n b < H ∨ (dot n a < H ∧ dot n b = H) then some (if dot n a ≤ H then a else cutEdge a b n H) else none

theorem emit_scan (n : Pt K) (H : K) (a b c : Pt K) :
    scan (due n H a b) (emit n H a b c) = clipEnd n H a b ++ clipStart n H b c
    ∧ fin (due n H a b) (emit n H a b c) = due n H b c ∧ Alt (due n H a b) (emit n H a b c) := by
  unfold emit due clipEnd clipStart
  rcases tri (dot n a) H with h | h | h <;> rcases tri (dot n b) H with h' | h' | h' <;>
    rcases tri (dot n c) H with h'' | h'' | h'' <;> simp [h, h', h'', scan, fin, Alt, st]

/-- The index before `v` in a cycle of `N`. -/
def pred (N v : Nat) : Nat := if v = 0 then N - 1 else v - 1

theorem pred_rot (N i : Nat) (h : i < N) : pred N ((i + 1) % N) = i := by
  unfold pred
  by_cases h1 : i + 1 < N
  · rw [Nat.mod_eq_of_lt h1, if_neg (by omega)]; rfl
  · have : i + 1 = N := by omega
    rw [this, Nat.mod_self, if_pos rfl]; omega

theorem flatMap_rot {α : Type} (N : Nat) (g : Nat → List α) :
    ((List.range N).flatMap g).Perm ((List.range N).flatMap fun i => g ((i + 1) % N)) := by
  have := ((range_rot N).flatMap_right g).symm
  rwa [List.flatMap_map] at this

theorem emitAll_prefix (n : Pt K) (H : K) (l : List (Pt K)) (m : Nat) (hm : m ≤ l.length) :
    let E := (List.range m).flatMap fun v => emit n H (vert l (pred l.length v)) (vert l v) (vert l ((v + 1) % l.length))
    let s0 := due n H (vert l (l.length - 1)) (vert l 0)
    scan s0 E = ((List.range m).flatMap fun v => clipEnd n H (vert l (pred l.length v)) (vert l v)
        ++ clipStart n H (vert l v) (vert l ((v + 1) % l.length)))
    ∧ fin s0 E = due n H (vert l (pred l.length m)) (vert l (m % l.length)) ∧ Alt s0 E := by
  induction m with
  | zero => simp [scan, fin, Alt, pred]
  | succ m ih =>
    obtain ⟨h1, h2, h3⟩ := ih (by omega)
    have hm' : m % l.length = m := Nat.mod_eq_of_lt (by omega)
    rw [hm'] at h2
    have h4 := emit_scan n H (vert l (pred l.length m)) (vert l m) (vert l ((m + 1) % l.length))
    dsimp only at *
    rw [List.range_succ, List.flatMap_append, List.flatMap_append, scan_append, fin_append, alt_append, h1, h2]
    simp only [List.flatMap_cons, List.flatMap_nil, List.append_nil]
    refine ⟨by rw [h4.1], ?_, h3, h4.2.2⟩
    rw [h4.2.1]
    rfl

theorem emitAll_scan (n : Pt K) (H : K) (l : List (Pt K)) (hl : l ≠ []) :
    let s0 := due n H (vert l (l.length - 1)) (vert l 0)
    (scan s0 (emitAll n H l)).Perm ((edges l).flatMap (clip n H)) ∧ fin s0 (emitAll n H l) = s0 ∧ Alt s0 (emitAll n H l) := by
  have hpos := List.length_pos_iff.2 hl
  obtain ⟨h1, h2, h3⟩ := emitAll_prefix n H l l.length le_rfl
  refine ⟨?_, ?_, h3⟩
  · have e : scan (due n H (vert l (l.length - 1)) (vert l 0)) (emitAll n H l) = _ := h1
    rw [e]
    refine (List.flatMap_append_perm _ _ _).symm.trans ?_
    have e2 : (edges l).flatMap (clip n H) = (List.range l.length).flatMap fun v =>
        clipEnd n H (vert l v) (vert l ((v + 1) % l.length)) ++ clipStart n H (vert l v) (vert l ((v + 1) % l.length)) := by
      unfold edges
      rw [List.flatMap_map]
      refine List.flatMap_congr fun v _ => ?_
      rw [clip_split]
    rw [e2]
    refine List.Perm.trans ?_ (List.flatMap_append_perm _ _ _)
    refine List.Perm.append_right _ ?_
    refine (flatMap_rot _ _).trans (List.Perm.of_eq ?_)
    refine List.flatMap_congr fun v hv => ?_
    rw [pred_rot _ _ (List.mem_range.1 hv)]
  · have e : fin (due n H (vert l (l.length - 1)) (vert l 0)) (emitAll n H l) = _ := h2
    rw [e, Nat.mod_self, pred, if_neg (by omega)]

/-- Point `i` of a list. -/
def cp (E : List (CutPt K)) (i : Nat) : CutPt K := E.getD i ⟨(0, 0), none⟩

/-- The edge from a due point, if any. -/
def dueTo (s : Option (Pt K)) (x : Pt K) : List (Pt K × Pt K) :=
  match s with
  | none => []
  | some p => [(p, x)]

omit [IsStrictOrderedRing K] in
theorem scan_index (s : Option (Pt K)) (E : List (CutPt K)) :
    scan s E = (List.range E.length).flatMap (fun i => dueTo (if i = 0 then s else st (cp E (i - 1))) (cp E i).pt)
    ∧ (Alt s E → ∀ i, i < E.length → ((if i = 0 then s else st (cp E (i - 1))) = none ↔ (cp E i).tag = some false))
    ∧ fin s E = if E.length = 0 then s else st (cp E (E.length - 1)) := by
  induction E generalizing s with
  | nil => exact ⟨rfl, fun _ i hi => absurd hi (by simp), rfl⟩
  | cons x t ih =>
    obtain ⟨h1, h2, h3⟩ := ih (st x)
    refine ⟨?_, ?_, ?_⟩
    · have e : scan s (x :: t) = dueTo s x.pt ++ scan (st x) t := by cases s <;> rfl
      rw [e, h1, List.length_cons, List.range_succ_eq_map, List.flatMap_cons, List.flatMap_map]
      congr 1
      refine List.flatMap_congr fun i _ => ?_
      rw [if_neg (show ¬ i.succ = 0 by omega)]
      have e2 : cp (x :: t) i.succ = cp t i := rfl
      rw [e2]
      congr 1
      cases i with
      | zero => rfl
      | succ i => rfl
    · intro ha i hi
      cases i with
      | zero => exact ha.1
      | succ i =>
        have h4 := h2 ha.2 i (by simpa using hi)
        rw [if_neg (show ¬ i + 1 = 0 by omega)]
        have e2 : cp (x :: t) (i + 1) = cp t i := rfl
        rw [e2, ← h4]
        cases i with
        | zero => rfl
        | succ i => rfl
    · rw [if_neg (by simp)]
      show fin (st x) t = _
      rw [h3]
      cases t with
      | nil => rfl
      | cons y t => rfl

/-- What is known about the points emitted for a polygon. -/
structure Good (n : Pt K) (H : K) (l : List (Pt K)) (E : List (CutPt K)) : Prop where
  /-- the edges from points that are not outward ones are the edges of the polygon in the half-plane -/
  kept : ((List.range E.length).flatMap fun i =>
    if (cp E i).tag = some true then [] else [((cp E i).pt, (cp E ((i + 1) % E.length)).pt)]).Perm ((edges l).flatMap (clip n H))
  /-- what follows an outward point is an inward one, and only then -/
  alt : ∀ i, i < E.length → ((cp E i).tag = some true ↔ (cp E ((i + 1) % E.length)).tag = some false)

theorem emitAll_good (n : Pt K) (H : K) (l : List (Pt K)) (hl : l ≠ []) : Good n H l (emitAll n H l) := by
  obtain ⟨h1, h2, h3⟩ := emitAll_scan n H l hl
  obtain ⟨i1, i2, i3⟩ := scan_index (due n H (vert l (l.length - 1)) (vert l 0)) (emitAll n H l)
  rw [h2] at i3
  have i2 := i2 h3
  set E := emitAll n H l
  set s := due n H (vert l (l.length - 1)) (vert l 0)
  by_cases hE : E.length = 0
  · refine ⟨?_, fun i hi => by omega⟩
    rw [i1, hE] at h1
    rw [hE]
    simpa using h1
  · rw [if_neg hE] at i3
    have e : ∀ i, (if i = 0 then s else st (cp E (i - 1))) = st (cp E (pred E.length i)) := by
      intro i
      by_cases hi : i = 0
      · rw [if_pos hi, i3, pred, if_pos hi]
      · rw [if_neg hi, pred, if_neg hi]
    have est : ∀ x : CutPt K, st x = none ↔ x.tag = some true := by
      intro x
      unfold st
      by_cases h : x.tag = some true
      · simp [h]
      · simp [h]
    refine ⟨?_, ?_⟩
    · refine List.Perm.trans ?_ h1
      rw [i1]
      refine List.Perm.symm ((flatMap_rot _ _).trans (List.Perm.of_eq ?_))
      refine List.flatMap_congr fun i hi => ?_
      rw [e, pred_rot _ _ (List.mem_range.1 hi)]
      by_cases h : (cp E i).tag = some true
      · rw [if_pos h, (est _).2 h]; rfl
      · rw [if_neg h, st, if_neg h]; rfl
    · intro i hi
      have := i2 ((i + 1) % E.length) (Nat.mod_lt _ (by omega))
      rw [e, pred_rot _ _ hi, est] at this
      exact this

end Verif.Geom.Poly
