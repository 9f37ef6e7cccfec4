import Verif.Cache.Refine
import Mathlib.Algebra.BigOperators.Group.List.Basic
import Mathlib.Data.List.Perm.Subperm
/-!
Helper lemmas: the invariant of the sequentially (call-level) interleaved cache and its preservation.
-/
namespace VW.Cache

variable {Val : Type}

/-- Size of a line (0 if there is no such line). -/
def lineSize (s : State Val) (x : Id) : Nat := ((s.lines x).map Line.size).getD 0

/-- Invariant. `a = some i` while line `i` is being allocated (in the valid list, not yet loaded). -/
structure Inv (s : State Val) (V I : List Id) (a : Option Id) : Prop where
  rep : Rep s.lists V I
  heapDom : ∀ x, (s.lists.heap x).isSome ↔ x ∈ V ++ I
  lineDom : ∀ x, (s.lines x).isSome ↔ x ∈ V ++ I
  bound : ∀ x ∈ V ++ I, x < s.nextId
  val : ∀ x l, s.lines x = some l → a ≠ some x → (x ∈ V ↔ (l.value.isSome ∨ l.excl = true))
  excl : ∀ x l, s.lines x = some l → l.excl = true → l.value = none ∧ l.shared = 0 ∧
    ∃ k, l.genCount = k + 1 ∧ l.generate k = none
  shared : ∀ x l, s.lines x = some l → 0 < l.shared → l.value.isSome
  gen : ∀ x l v, s.lines x = some l → l.value = some v →
    ∃ k, l.genCount = k + 1 ∧ l.generate k = some v
  size : s.size = (V.map (lineSize s)).sum
  alloc : ∀ i, a = some i → i ∈ V ∧ ∃ l, s.lines i = some l ∧ l.value = none ∧ l.excl = false ∧ l.shared = 0

theorem Inv.init (m : Nat) : Inv (State.init m : State Val) [] [] none := by
  constructor <;> simp [State.init]
  constructor <;> simp [Seg]

theorem lineSize_upd {s : State Val} {lines : Id → Option (Line Val)} {x y : Id} {l l' : Line Val}
    (h : s.lines x = some l) (hl : lines = upd s.lines x (some l')) (e : l'.size = l.size)
    (t : State Val) (ht : t.lines = lines) : lineSize t y = lineSize s y := by
  unfold lineSize
  rw [ht, hl]
  by_cases hy : y = x
  · subst hy; simp [h, e]
  · rw [upd_ne hy]

theorem sum_mid (A B : List Id) (c : Id) (f : Id → Nat) :
    ((A ++ c :: B).map f).sum = f c + ((A ++ B).map f).sum := by
  simp; omega

theorem unload_spec {s : State Val} {A B I : List Id} {c : Id} {l : Line Val} {v : Val} {a : Option Id}
    (h : Inv s (A ++ c :: B) I a) (hl : s.lines c = some l) (hv : l.value = some v)
    (hs : l.shared = 0) (he : l.excl = false) (ha : a ≠ some c) :
    ∃ s', unload s c l = some s' ∧ Inv s' (A ++ B) (c :: I) a ∧
      s'.lines = upd s.lines c (some { l with value := none }) ∧ s'.size + l.size = s.size ∧
      s'.maxSize = s.maxSize ∧ s'.nextId = s.nextId := by
  obtain ⟨ls, e1, r1, d1⟩ := invalidate_valid s.lists h.rep
  have hsz : s.size = l.size + ((A ++ B).map (lineSize s)).sum := by
    rw [h.size, sum_mid]; simp [lineSize, hl]
  have nlt : ¬ s.size < l.size := by omega
  have memiff : ∀ x, x ∈ (A ++ B) ++ c :: I ↔ x ∈ (A ++ c :: B) ++ I := by
    intro x; simp; tauto
  have cn : c ∉ A ++ B := mid_not_mem (List.nodup_append.1 h.rep.nodup).1
  refine ⟨{ (s.setLine c { l with value := none }) with lists := ls, size := s.size - l.size },
    by simp only [unload, e1, nlt, if_false], ?_, rfl, ?_, rfl, rfl⟩
  · constructor
    · exact r1
    · intro x; rw [memiff, ← h.heapDom]; simp only; rw [d1 x]
    · intro x; rw [memiff, ← h.lineDom]
      simp only [State.setLine]
      by_cases hx : x = c
      · subst hx; simp [hl]
      · rw [upd_ne hx]
    · intro x hx; exact h.bound x ((memiff x).1 hx)
    · intro x l' hl' hax
      simp only [State.setLine] at hl'
      by_cases hx : x = c
      · subst hx; simp at hl'; subst hl'; simp [he]; simpa using cn
      · rw [upd_ne hx] at hl'
        rw [← h.val x l' hl' hax]; simp [hx]
    · intro x l' hl' hex
      simp only [State.setLine] at hl'
      by_cases hx : x = c
      · subst hx; simp at hl'; subst hl'; simp at hex; simp [hex] at he
      · rw [upd_ne hx] at hl'
        exact h.excl x l' hl' hex
    · intro x l' hl' hex
      simp only [State.setLine] at hl'
      by_cases hx : x = c
      · subst hx; simp at hl'; subst hl'; simp at hex; omega
      · rw [upd_ne hx] at hl'
        exact h.shared x l' hl' hex
    · intro x l' v' hl' hex
      simp only [State.setLine] at hl'
      by_cases hx : x = c
      · subst hx; simp at hl'; subst hl'; simp at hex
      · rw [upd_ne hx] at hl'
        exact h.gen x l' v' hl' hex
    · have : (A ++ B).map (lineSize s) = (A ++ B).map (lineSize
          { (s.setLine c { l with value := none }) with lists := ls, size := s.size - l.size }) := by
        apply List.map_congr_left
        intro x _
        exact (lineSize_upd (l' := { l with value := none }) hl rfl rfl _ rfl).symm
      rw [← this]; simp only; omega
    · intro i hi
      obtain ⟨m1, l', m2, m3⟩ := h.alloc i hi
      have hx : i ≠ c := by rintro rfl; exact ha hi
      refine ⟨by simp [hx] at m1 ⊢; exact m1, l', ?_, m3⟩
      simp only [State.setLine]; rw [upd_ne hx]; exact m2
  · simp only; omega

theorem tryInvalidate_pinned {s : State Val} {c : Id} {l : Line Val} (hl : s.lines c = some l)
    (hp : l.pinned) : tryInvalidate s c = some (s, false) := by
  have : l.shared > 0 ∨ l.excl := hp
  simp [tryInvalidate, hl, this]

/-- A line in the valid list which nobody holds (and which is not being allocated) is loaded. -/
theorem Inv.loaded {s : State Val} {V I : List Id} {a : Option Id} (h : Inv s V I a) {c : Id}
    (hc : c ∈ V) (ha : a ≠ some c) {l : Line Val} (hl : s.lines c = some l) (hp : ¬ l.pinned) :
    ∃ v, l.value = some v := by
  have := (h.val c l hl ha).1 hc
  rcases this with h1 | h1
  · exact Option.isSome_iff_exists.1 h1
  · exact absurd (Or.inr h1) hp

theorem Inv.line {s : State Val} {V I : List Id} {a : Option Id} (h : Inv s V I a) {c : Id}
    (hc : c ∈ V ++ I) : ∃ l, s.lines c = some l :=
  Option.isSome_iff_exists.1 ((h.lineDom c).2 hc)

/-- What eviction may do to the lines: unload lines nobody holds. -/
def EvFrame (s s' : State Val) : Prop :=
  s'.maxSize = s.maxSize ∧ s'.nextId = s.nextId ∧
  ∀ x, s'.lines x = s.lines x ∨
    ∃ l, s.lines x = some l ∧ ¬ l.pinned ∧ l.value.isSome ∧ s'.lines x = some { l with value := none }

theorem EvFrame.refl (s : State Val) : EvFrame s s := ⟨rfl, rfl, fun _ => Or.inl rfl⟩

theorem EvFrame.trans {a b c : State Val} (h : EvFrame a b) (k : EvFrame b c) : EvFrame a c := by
  refine ⟨k.1.trans h.1, k.2.1.trans h.2.1, fun x => ?_⟩
  rcases k.2.2 x with e | ⟨l, e1, e2, e3, e4⟩
  · rw [e]; exact h.2.2 x
  · rcases h.2.2 x with e | ⟨l', f1, f2, f3, f4⟩
    · exact Or.inr ⟨l, by rw [← e]; exact e1, e2, e3, e4⟩
    · rw [f4] at e1; cases e1; simp at e3

theorem unload_frame {s s' : State Val} {c : Id} {l : Line Val} (hl : s.lines c = some l)
    (hv : l.value.isSome) (hp : ¬ l.pinned)
    (h1 : s'.lines = upd s.lines c (some { l with value := none }))
    (h2 : s'.maxSize = s.maxSize) (h3 : s'.nextId = s.nextId) : EvFrame s s' := by
  refine ⟨h2, h3, fun x => ?_⟩
  by_cases hx : x = c
  · subst hx; right; exact ⟨l, hl, hp, hv, by rw [h1]; simp⟩
  · left; rw [h1, upd_ne hx]

/-- Specification of the eviction loop. `W` is the valid list without the line being allocated (which
is at its head); the part `Q` of it was already visited and is held by somebody. -/
theorem evict_spec {i : Id} (fuel : Nat) :
    ∀ (s : State Val) (P Q I : List Id), Inv s (i :: (P ++ Q)) I (some i) →
      (∀ x ∈ Q, ∃ l, s.lines x = some l ∧ l.pinned) →
      (P ++ Q).length * (s.nextId + 1) + P.length < fuel →
      ∃ s' W' I', evict i fuel s ((i :: P).getLast?) = some s' ∧
        Inv s' (i :: W') I' (some i) ∧ EvFrame s s' ∧ W'.Sublist (P ++ Q) ∧
        (s'.size ≤ s'.maxSize ∨ ∀ x ∈ W', ∃ l, s'.lines x = some l ∧ l.pinned) ∧
        (∀ e ∈ P ++ Q, e ∉ W' → ∀ x ∈ W', (∃ l, s'.lines x = some l ∧ ¬ l.pinned) →
          Before (P ++ Q) x e) ∧
        (W' ≠ P ++ Q → ∃ e ∈ P ++ Q, e ∉ W' ∧ s.maxSize < s'.size + lineSize s e) := by
  induction fuel with
  | zero => intro s P Q I _ _ h; omega
  | succ fuel ih =>
    intro s P Q I h hQ hf
    unfold evict
    by_cases hsz : s.size ≤ s.maxSize
    · simp only [hsz, if_true]
      exact ⟨s, P ++ Q, I, rfl, h, EvFrame.refl s, List.Sublist.refl _, Or.inl hsz,
        fun e h1 h2 => absurd h1 h2, fun h => absurd rfl h⟩
    simp only [hsz, if_false]
    rcases List.eq_nil_or_concat P with rfl | ⟨P', c, rfl⟩
    · simp only [List.getLast?_singleton, if_true]
      refine ⟨s, Q, I, rfl, by simpa using h, EvFrame.refl s, List.Sublist.refl _, Or.inr hQ,
        fun e h1 h2 => absurd h1 h2, fun h => absurd rfl h⟩
    rw [List.concat_eq_append] at *
    have hlast : (i :: (P' ++ [c])).getLast? = some c := by simp [List.getLast?_cons]
    have nd := (List.nodup_append.1 h.rep.nodup).1
    have hci : c ≠ i := by
      rintro rfl
      simp at nd
    simp only [hlast, hci, if_false]
    have hcV : c ∈ i :: (P' ++ [c] ++ Q) := by simp
    obtain ⟨l, hl⟩ := h.line (c := c) (by simp)
    have hac : (some i : Option Id) ≠ some c := by simpa using hci.symm
    by_cases hp : l.pinned
    · rw [tryInvalidate_pinned hl hp]
      have hseg : s.lists.heap c = some ⟨((i :: P').getLast?), Q.head?⟩ := by
        have := h.rep.segV
        have e : i :: (P' ++ [c] ++ Q) = (i :: P') ++ c :: Q := by simp
        rw [e] at this
        exact seg_at this
      simp only [hseg]
      obtain ⟨s', W', I', g1, g2, g3, g4, g5, g6, g7⟩ := ih s P' (c :: Q) I (by simpa using h)
        (by
          intro x hx
          rcases List.mem_cons.1 hx with rfl | hx
          · exact ⟨l, hl, hp⟩
          · exact hQ x hx)
        (by
          have e1 : (P' ++ c :: Q).length = (P' ++ [c] ++ Q).length := by simp
          rw [e1]
          simp only [List.length_append, List.length_cons, List.length_nil] at hf ⊢
          omega)
      have e : P' ++ [c] ++ Q = P' ++ c :: Q := by simp
      rw [e]
      exact ⟨s', W', I', g1, g2, g3, g4, g5, g6, g7⟩
    · obtain ⟨v, hv⟩ := h.loaded hcV hac hl hp
      have hs0 : l.shared = 0 := by
        by_contra hh; exact hp (Or.inl (by omega))
      have he0 : l.excl = false := by
        by_contra hh; exact hp (Or.inr (by simpa using hh))
      obtain ⟨s1, u1, u2, u3, u4, u5, u6⟩ := unload_spec (A := i :: P') (B := Q) (c := c)
        (by simpa using h) hl hv hs0 he0 hac
      have ht : tryInvalidate s c = some (s1, true) := by
        simp [tryInvalidate, hl, hs0, he0, hv, u1]
      simp only [ht]
      have hlv : s1.lists.lastValid = (i :: (P' ++ Q)).getLast? := by
        rw [u2.rep.lv]; rfl
      rw [hlv]
      obtain ⟨s', W', I', g1, g2, g3, g4, g5, g6, g7⟩ := ih s1 (P' ++ Q) [] (c :: I)
        (by simpa using u2) (by simp)
        (by
          rw [u6]
          have hb : (P' ++ Q).length ≤ s.nextId := by
            have hnd : (P' ++ Q).Nodup := by
              have := (List.nodup_append.1 u2.rep.nodup).1
              simp only [List.cons_append, List.nodup_cons] at this; exact this.2
            have hsub : (P' ++ Q) ⊆ List.range s.nextId := by
              intro x hx
              rw [List.mem_range, ← u6]
              exact u2.bound x (by simp at hx ⊢; tauto)
            have := (hnd.subperm hsub).length_le
            simpa using this
          simp only [List.length_append, List.length_cons, List.length_nil, Nat.add_zero] at hf hb ⊢
          rw [show P'.length + (0 + 1) + Q.length = (P'.length + Q.length) + 1 by omega,
            Nat.add_mul] at hf
          omega)
      simp only [List.append_nil] at g4 g6 g7
      have cn : c ∉ P' ++ Q := by
        have hh : (i :: P' ++ c :: Q).Nodup := by simpa using nd
        have := mid_not_mem hh
        simp at this ⊢; tauto
      have hsub : (P' ++ Q).Sublist (P' ++ [c] ++ Q) := by
        simp
      refine ⟨s', W', I', g1, g2, (unload_frame hl (by simp [hv]) hp u3 u5 u6).trans g3,
        g4.trans hsub, g5, ?_, ?_⟩
      · intro e he1 he2 x hx hxp
        by_cases hec : e = c
        · subst hec
          -- x in W' ⊆ P' ++ Q; unpinned so not in Q
          have hx2 := g4.subset hx
          rcases List.mem_append.1 hx2 with hxP | hxQ
          · obtain ⟨X, Y, rfl⟩ := List.append_of_mem hxP
            exact ⟨X, Y, Q, by simp⟩
          · exfalso
            obtain ⟨l', k1, k2⟩ := hQ x hxQ
            obtain ⟨l'', k3, k4⟩ := hxp
            have hxc : x ≠ e := by rintro rfl; exact cn hx2
            have : s'.lines x = s1.lines x ∨ ∃ l, s1.lines x = some l ∧ ¬ l.pinned ∧ l.value.isSome ∧
              s'.lines x = some { l with value := none } := g3.2.2 x
            rw [u3, upd_ne hxc, k1] at this
            rcases this with h' | ⟨l3, h1, h2, _⟩
            · rw [h'] at k3; cases k3; exact k4 k2
            · cases h1; exact h2 k2
        · have : e ∈ P' ++ Q := by simp at he1 ⊢; tauto
          obtain ⟨X, Y, Z, hXYZ⟩ := g6 e this he2 x hx hxp
          -- insert c into the decomposition
          have hpair : [x, e].Sublist (P' ++ [c] ++ Q) := by
            refine List.Sublist.trans ?_ hsub
            rw [hXYZ]
            have : [x, e].Sublist (x :: (Y ++ e :: Z)) := by simp
            exact this.trans (List.sublist_append_right X _)
          generalize P' ++ [c] ++ Q = L at hpair
          clear hXYZ
          induction L with
          | nil => simp at hpair
          | cons a L ihL =>
            rcases List.sublist_cons_iff.1 hpair with h1 | ⟨r, hr, h1⟩
            · obtain ⟨A, B, C, hh⟩ := ihL h1
              exact ⟨a :: A, B, C, by simp [hh]⟩
            · simp at hr
              obtain ⟨rfl, rfl⟩ := hr
              simp at h1
              obtain ⟨B, C, rfl⟩ := List.append_of_mem h1
              exact ⟨[], B, C, rfl⟩
      · intro _
        by_cases hW : W' = P' ++ Q
        · refine ⟨c, by simp, by rw [hW]; exact cn, ?_⟩
          -- nothing more evicted, so s'.size = s1.size
          have hs' : s'.size = s1.size := by
            rw [g2.size, u2.size, hW]
            congr 1
            apply List.map_congr_left
            intro x _
            unfold lineSize
            rcases g3.2.2 x with e | ⟨l', e1, _, _, e4⟩
            · rw [e]
            · rw [e1, e4]; rfl
          have : lineSize s c = l.size := by simp [lineSize, hl]
          rw [this, hs']
          omega
        · obtain ⟨e, k1, k2, k3⟩ := g7 hW
          refine ⟨e, by simp at k1 ⊢; tauto, k2, ?_⟩
          rw [u5] at k3
          have : lineSize s1 e = lineSize s e := lineSize_upd hl u3 rfl _ rfl
          rw [this] at k3; exact k3

end VW.Cache
