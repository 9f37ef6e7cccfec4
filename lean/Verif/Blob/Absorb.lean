import Verif.Blob.Threaded
import Verif.Blob.Props
/-
`absorb` joins the pixels of two blobs.
-/
namespace VW.Blob
open VW.Grassfire (Pos before)

/-! ### Rows -/

/-- Runs that are not empty, in order. -/
def SortedRow (r : List (Int × Int)) : Prop := r.Pairwise (fun s t => s.2 ≤ t.1) ∧ ∀ s ∈ r, s.1 < s.2

/-- A column of a row. -/
def inRow (r : List (Int × Int)) (x : Int) : Prop := ∃ s ∈ r, s.1 ≤ x ∧ x < s.2

theorem SortedRow.nil : SortedRow [] := ⟨List.Pairwise.nil, by simp⟩

theorem inRow_nil {x : Int} : ¬ inRow [] x := by simp [inRow]

theorem sortedRow_cons {s : Int × Int} {r : List (Int × Int)} :
    SortedRow (s :: r) ↔ s.1 < s.2 ∧ (∀ t ∈ r, s.2 ≤ t.1) ∧ SortedRow r := by
  unfold SortedRow
  simp only [List.pairwise_cons, List.mem_cons, forall_eq_or_imp]
  tauto

theorem inRow_cons {s : Int × Int} {r : List (Int × Int)} {x : Int} :
    inRow (s :: r) x ↔ (s.1 ≤ x ∧ x < s.2) ∨ inRow r x := by simp [inRow]

theorem insertAfter_spec (v : Int × Int) (hv : v.1 < v.2) (s : Int × Int) (r : List (Int × Int)) (h : SortedRow (s :: r))
    (hd : ∀ x, v.1 ≤ x → x < v.2 → ¬ inRow (s :: r) x) (hs : s.2 ≤ v.1) :
    ∃ r', insertAfter v (s :: r) = .ok r' ∧ SortedRow r' ∧ ∀ t, t ∈ r' ↔ t = v ∨ t ∈ s :: r := by
  induction r generalizing s with
  | nil =>
    refine ⟨[s, v], ?_, ?_, ?_⟩
    · simp [insertAfter, hs]
    · rw [sortedRow_cons] at h ⊢
      refine ⟨h.1, by simpa using hs, ?_⟩
      rw [sortedRow_cons]
      exact ⟨hv, by simp, .nil⟩
    · intro t; simp; tauto
  | cons u r ih =>
    rw [sortedRow_cons] at h
    obtain ⟨h1, h2, h3⟩ := h
    have hu := h2 u (by simp)
    have hur := (sortedRow_cons.1 h3).1
    unfold insertAfter
    by_cases hc : v.1 ≥ s.2 ∧ v.2 ≤ u.1
    · rw [if_pos hc]
      refine ⟨_, rfl, ?_, ?_⟩
      · rw [sortedRow_cons]
        refine ⟨h1, ?_, ?_⟩
        · intro t ht
          rcases List.mem_cons.1 ht with rfl | ht
          · exact hs
          · exact h2 t ht
        · rw [sortedRow_cons]
          refine ⟨hv, ?_, h3⟩
          intro t ht
          rcases List.mem_cons.1 ht with rfl | ht
          · exact hc.2
          · have := (sortedRow_cons.1 h3).2.1 t ht; omega
      · intro t; simp; tauto
    · rw [if_neg hc]
      have hu' : u.2 ≤ v.1 := by
        by_contra hcon
        by_cases hb : v.2 ≤ u.1
        · exact hc ⟨hs, hb⟩
        · have a1 := hd (max v.1 u.1) (by omega) (by omega)
          apply a1
          rw [inRow_cons, inRow_cons]
          right; left; omega
      obtain ⟨r', e, g1, g2⟩ := ih u h3 (fun x a b c => hd x a b (by rw [inRow_cons]; exact Or.inr c)) hu'
      rw [e]
      refine ⟨s :: r', rfl, ?_, ?_⟩
      · rw [sortedRow_cons]
        refine ⟨h1, ?_, g1⟩
        intro t ht
        rcases (g2 t).1 ht with rfl | ht
        · omega
        · exact h2 t ht
      · intro t
        simp only [List.mem_cons, g2] at *
        tauto

theorem insertRun_spec (v : Int × Int) (hv : v.1 < v.2) (r : List (Int × Int)) (h : SortedRow r)
    (hd : ∀ x, v.1 ≤ x → x < v.2 → ¬ inRow r x) :
    ∃ r', insertRun r v = .ok r' ∧ SortedRow r' ∧ ∀ t, t ∈ r' ↔ t = v ∨ t ∈ r := by
  cases r with
  | nil =>
    refine ⟨[v], rfl, ?_, by simp⟩
    rw [sortedRow_cons]; exact ⟨hv, by simp, .nil⟩
  | cons s r =>
    unfold insertRun
    dsimp only
    have hh := sortedRow_cons.1 h
    by_cases hc : v.2 ≤ s.1
    · rw [if_pos hc]
      refine ⟨_, rfl, ?_, by simp⟩
      rw [sortedRow_cons]
      refine ⟨hv, ?_, h⟩
      intro t ht
      rcases List.mem_cons.1 ht with rfl | ht
      · exact hc
      · have := hh.2.1 t ht; omega
    · rw [if_neg hc]
      refine insertAfter_spec v hv s r h hd ?_
      by_contra hcon
      apply hd (max v.1 s.1) (by omega) (by omega)
      rw [inRow_cons]; left; omega

theorem inRow_of_mem {r r' : List (Int × Int)} {v : Int × Int} (h : ∀ t, t ∈ r' ↔ t = v ∨ t ∈ r) (x : Int) :
    inRow r' x ↔ inRow r x ∨ (v.1 ≤ x ∧ x < v.2) := by
  unfold inRow
  constructor
  · rintro ⟨s, hs, hx⟩
    rcases (h s).1 hs with rfl | hs
    · exact Or.inr hx
    · exact Or.inl ⟨s, hs, hx⟩
  · rintro (⟨s, hs, hx⟩ | hx)
    · exact ⟨s, (h s).2 (Or.inr hs), hx⟩
    · exact ⟨v, (h v).2 (Or.inl rfl), hx⟩

/-- Inserting all runs of a row. -/
theorem insertRow_spec (w : List (Int × Int)) (hw : SortedRow w) (r : List (Int × Int)) (h : SortedRow r)
    (hd : ∀ x, inRow w x → ¬ inRow r x) :
    ∃ r', w.foldlM insertRun r = .ok r' ∧ SortedRow r' ∧ ∀ x, inRow r' x ↔ inRow r x ∨ inRow w x := by
  induction w generalizing r with
  | nil => exact ⟨r, rfl, h, fun x => by simp [inRow_nil]⟩
  | cons v w ih =>
    rw [sortedRow_cons] at hw
    obtain ⟨r1, e1, g1, g2⟩ := insertRun_spec v hw.1 r h (fun x a b => hd x (by rw [inRow_cons]; exact Or.inl ⟨a, b⟩))
    have g3 := inRow_of_mem g2
    obtain ⟨r2, e2, g4, g5⟩ := ih hw.2.2 r1 g1 (by
      intro x hx
      rw [g3]
      rintro (hx' | hx')
      · exact hd x (by rw [inRow_cons]; exact Or.inr hx) hx'
      · obtain ⟨t, ht, a, b⟩ := hx
        have := hw.2.1 t ht; omega)
    refine ⟨r2, ?_, g4, ?_⟩
    · rw [List.foldlM_cons, e1]; exact e2
    · intro x; rw [g5, g3, inRow_cons]; tauto

theorem inRow_moved {dx : Int} {r : List (Int × Int)} {x : Int} : inRow (moved dx r) x ↔ inRow r (x - dx) := by
  unfold inRow moved
  simp only [List.mem_map]
  constructor
  · rintro ⟨s, ⟨t, ht, rfl⟩, hx⟩; exact ⟨t, ht, by dsimp only at hx; omega⟩
  · rintro ⟨t, ht, hx⟩; exact ⟨_, ⟨t, ht, rfl⟩, by dsimp only; omega⟩

theorem sortedRow_moved {dx : Int} {r : List (Int × Int)} (h : SortedRow r) : SortedRow (moved dx r) := by
  unfold moved
  refine ⟨?_, ?_⟩
  · rw [List.pairwise_map]
    exact h.1.imp (fun h => by dsimp only; omega)
  · intro s hs
    obtain ⟨t, ht, rfl⟩ := List.mem_map.1 hs
    have := h.2 t ht
    dsimp only; omega

theorem joinRuns_spec (r : List (Int × Int)) (h : SortedRow r) :
    SortedRow (joinRuns r) ∧ (∀ x, inRow (joinRuns r) x ↔ inRow r x) ∧ (joinRuns r).head?.map Prod.fst = r.head?.map Prod.fst := by
  match r, h with
  | [], h => rw [joinRuns]; exact ⟨h, by simp, rfl⟩
  | [s], h => rw [joinRuns]; exact ⟨h, by simp, rfl⟩
  | s :: t :: rest, h =>
    rw [joinRuns]
    have h1 := sortedRow_cons.1 h
    have h2 := sortedRow_cons.1 h1.2.2
    have hst := h1.2.1 t (by simp)
    by_cases hc : t.1 = s.2
    · rw [if_pos hc]
      have hs : SortedRow ((s.1, t.2) :: rest) := by
        rw [sortedRow_cons]
        exact ⟨by dsimp only; omega, h2.2.1, h2.2.2⟩
      obtain ⟨g1, g2, g3⟩ := joinRuns_spec ((s.1, t.2) :: rest) hs
      refine ⟨g1, ?_, by rw [g3]; rfl⟩
      intro x
      rw [g2, inRow_cons, inRow_cons, inRow_cons]
      dsimp only
      constructor
      · rintro (h | h)
        · by_cases hx : x < s.2
          · left; omega
          · right; left; omega
        · tauto
      · rintro (h | h | h)
        · left; omega
        · left; omega
        · tauto
    · rw [if_neg hc]
      obtain ⟨g1, g2, g3⟩ := joinRuns_spec (t :: rest) h1.2.2
      refine ⟨?_, ?_, rfl⟩
      · rw [sortedRow_cons]
        refine ⟨h1.1, ?_, g1⟩
        intro u hu
        -- a run that starts left of s.2 would put a column there
        by_contra hcon
        have hu' := g1.2 u hu
        have : inRow (joinRuns (t :: rest)) (max u.1 (min (s.2 - 1) (u.2 - 1))) := ⟨u, hu, by omega, by omega⟩
        rw [g2] at this
        obtain ⟨w, hw, a, b⟩ := this
        have := h1.2.1 w hw
        omega
      · intro x; rw [inRow_cons, inRow_cons, g2]
termination_by r.length

/-! ### Rows of a blob -/

/-- The row at a height. -/
def rowAt (b : Compressed) (y : Int) : List (Int × Int) := if b.minY ≤ y then b.rows.getD (y - b.minY).toNat [] else []

theorem rowAt_nil {b : Compressed} {y : Int} (h : y < b.minY ∨ b.minY + b.rows.length ≤ y) : rowAt b y = [] := by
  unfold rowAt
  by_cases hc : b.minY ≤ y
  · rw [if_pos hc, List.getD_eq_getElem?_getD, List.getElem?_eq_none (by omega)]; rfl
  · rw [if_neg hc]

theorem rowAt_get {b : Compressed} {i : Nat} (h : i < b.rows.length) : rowAt b (b.minY + i) = b.rows[i] := by
  unfold rowAt
  rw [if_pos (by omega)]
  have : (b.minY + (i : Int) - b.minY).toNat = i := by omega
  rw [this, List.getD_eq_getElem?_getD, List.getElem?_eq_getElem h]; rfl

theorem mem_decompress' {b : Compressed} {p : Pos} : p ∈ decompress b ↔ inRow (rowAt b p.2) (p.1 - b.minX) := by
  rw [mem_decompress]
  constructor
  · rintro ⟨i, hi, s, hs, e1, e2, e3⟩
    rw [e1, rowAt_get hi]
    exact ⟨s, hs, by omega, by omega⟩
  · rintro ⟨s, hs, e1, e2⟩
    by_cases hc : p.2 < b.minY ∨ b.minY + b.rows.length ≤ p.2
    · rw [rowAt_nil hc] at hs; cases hs
    · have hi : (p.2 - b.minY).toNat < b.rows.length := by omega
      refine ⟨(p.2 - b.minY).toNat, hi, s, ?_, by omega, by omega, by omega⟩
      have := rowAt_get hi
      rw [show b.minY + ((p.2 - b.minY).toNat : Int) = p.2 by omega] at this
      rw [← this]; exact hs

/-- A blob made of sorted rows, its first and last row with pixels. -/
structure Good (b : Compressed) : Prop where
  rows : ∀ r ∈ b.rows, SortedRow r
  first : ∃ p ∈ decompress b, p.2 = b.minY
  last : ∃ p ∈ decompress b, p.2 = b.minY + b.rows.length - 1

theorem Good.rowAt {b : Compressed} (h : Good b) (y : Int) : SortedRow (rowAt b y) := by
  by_cases hc : y < b.minY ∨ b.minY + b.rows.length ≤ y
  · rw [rowAt_nil hc]; exact .nil
  · have hi : (y - b.minY).toNat < b.rows.length := by omega
    have := rowAt_get hi
    rw [show b.minY + ((y - b.minY).toNat : Int) = y by omega] at this
    rw [this]; exact h.rows _ (List.getElem_mem hi)

theorem Good.ne_nil {b : Compressed} (h : Good b) : b.rows ≠ [] := by
  obtain ⟨p, hp, _⟩ := h.first
  rw [mem_decompress] at hp
  obtain ⟨i, hi, _⟩ := hp
  intro e; rw [e] at hi; simp at hi

/-- The left side is where the leftmost runs start, and no row is without runs. -/
structure Tight (b : Compressed) : Prop where
  row : ∀ r ∈ b.rows, r ≠ []
  start : ∀ r ∈ b.rows, ∀ s ∈ r, 0 ≤ s.1
  left : ∃ r ∈ b.rows, ∃ s ∈ r, s.1 = 0

/-- All rows of a list, the first at height y, have the property. -/
def RowsGood (G : Int → List (Int × Int) → Prop) (y : Int) (rows : List (List (Int × Int))) : Prop :=
  ∀ i, (h : i < rows.length) → G (y + i) rows[i]

theorem rowsGood_append {G : Int → List (Int × Int) → Prop} {y : Int} {a b : List (List (Int × Int))}
    (ha : RowsGood G y a) (hb : RowsGood G (y + a.length) b) : RowsGood G y (a ++ b) := by
  intro i hi
  by_cases h : i < a.length
  · rw [List.getElem_append_left h]; exact ha i h
  · rw [List.getElem_append_right (by omega)]
    have := hb (i - a.length) (by simp at hi; omega)
    rw [show y + (a.length : Int) + ((i - a.length : Nat) : Int) = y + i by omega] at this
    exact this

theorem mergeRows_spec {b v : Compressed} {G : Int → List (Int × Int) → Prop}
    (hG : ∀ m, (hm : m < b.rows.length) → ∃ r, mergeRow b v m b.rows[m] = .ok r ∧ G (b.minY + m) r) :
    ∃ rows, mergeRows b v 0 b.rows = .ok rows ∧ rows.length = b.rows.length ∧ RowsGood G b.minY rows := by
  have key : ∀ (rs pre : List (List (Int × Int))), b.rows = pre ++ rs →
      ∃ rows, mergeRows b v pre.length rs = .ok rows ∧ rows.length = rs.length ∧ RowsGood G (b.minY + pre.length) rows := by
    intro rs
    induction rs with
    | nil => intro pre _; exact ⟨[], rfl, rfl, fun i hi => by simp at hi⟩
    | cons r rs ih =>
      intro pre e
      obtain ⟨r', e1, g1⟩ := hG pre.length (by rw [e]; simp)
      have er : b.rows[pre.length]'(by rw [e]; simp) = r := by simp [e]
      rw [er] at e1
      obtain ⟨rows, e2, g2, g3⟩ := ih (pre ++ [r]) (by rw [e]; simp)
      rw [show (pre ++ [r]).length = pre.length + 1 by simp] at e2 g3
      refine ⟨r' :: rows, ?_, by simp [g2], ?_⟩
      · unfold mergeRows
        rw [e1]
        change (do let rs' ← mergeRows b v (pre.length + 1) rs; Except.ok (r' :: rs')) = _
        rw [e2]; rfl
      · intro i hi
        cases i with
        | zero => simpa using g1
        | succ i =>
          have := g3 i (by simpa using hi)
          rw [show b.minY + ((pre.length + 1 : Nat) : Int) + (i : Int) = b.minY + (pre.length : Int) + ((i + 1 : Nat) : Int) by push_cast; omega] at this
          simpa using this
  obtain ⟨rows, e, h1, h2⟩ := key b.rows [] rfl
  exact ⟨rows, by simpa using e, h1, by simpa using h2⟩

theorem lowest_some (z : Int) (rows : List (List (Int × Int))) (h : ∃ r ∈ rows, r ≠ []) : ∃ low, lowest (some z) rows = .ok low := by
  induction rows with
  | nil => simp at h
  | cons r rs ih =>
    cases r with
    | nil =>
      unfold lowest
      apply ih
      obtain ⟨r, hr, hne⟩ := h
      rcases List.mem_cons.1 hr with rfl | hr
      · exact absurd rfl hne
      · exact ⟨r, hr, hne⟩
    | cons s t =>
      unfold lowest
      generalize s.1 = low
      clear ih h
      induction rs generalizing low with
      | nil => exact ⟨low, rfl⟩
      | cons r rs ih =>
        have : ∃ f, front (some z) r = .ok f := by
          cases r with
          | nil => exact ⟨z, rfl⟩
          | cons s t => exact ⟨s.1, rfl⟩
        obtain ⟨f, e⟩ := this
        rw [List.foldlM_cons, e]
        exact ih _

theorem lowest_full (z : Option Int) (rows : List (List (Int × Int))) (hne : rows ≠ []) (h : ∀ r ∈ rows, r ≠ [])
    (hs : ∀ r ∈ rows, SortedRow r) :
    ∃ low, lowest z rows = .ok low ∧ (∀ r ∈ rows, ∀ s ∈ r, low ≤ s.1) ∧ ∃ r ∈ rows, r.head?.map Prod.fst = some low := by
  have hmin : ∀ (s : Int × Int) t, SortedRow (s :: t) → ∀ u ∈ s :: t, s.1 ≤ u.1 := by
    intro s t h u hu
    rw [sortedRow_cons] at h
    rcases List.mem_cons.1 hu with rfl | hu
    · omega
    · have := h.2.1 u hu; omega
  have key : ∀ (rs : List (List (Int × Int))) (low : Int), (∀ r ∈ rs, r ≠ []) → (∀ r ∈ rs, SortedRow r) →
      ∃ l, rs.foldlM (fun low r => (front z r).map (fun f => if f < low then f else low)) low = .ok l ∧ l ≤ low ∧
        (∀ r ∈ rs, ∀ s ∈ r, l ≤ s.1) ∧ (l = low ∨ ∃ r ∈ rs, r.head?.map Prod.fst = some l) := by
    intro rs
    induction rs with
    | nil => intro low _ _; exact ⟨low, rfl, Int.le_refl _, by simp, Or.inl rfl⟩
    | cons r rs ih =>
      intro low h1 h2
      cases r with
      | nil => exact absurd rfl (h1 [] (by simp))
      | cons s t =>
        obtain ⟨l, e, g1, g2, g3⟩ := ih (if s.1 < low then s.1 else low) (fun r hr => h1 r (List.mem_cons_of_mem _ hr))
          (fun r hr => h2 r (List.mem_cons_of_mem _ hr))
        have hm := hmin s t (h2 _ (by simp))
        refine ⟨l, ?_, ?_, ?_, ?_⟩
        · rw [List.foldlM_cons]; exact e
        · by_cases hc : s.1 < low
          · rw [if_pos hc] at g1; omega
          · rw [if_neg hc] at g1; omega
        · intro r hr u hu
          rcases List.mem_cons.1 hr with rfl | hr
          · have := hm u hu
            by_cases hc : s.1 < low
            · rw [if_pos hc] at g1; omega
            · rw [if_neg hc] at g1; omega
          · exact g2 r hr u hu
        · rcases g3 with g3 | ⟨r, hr, g3⟩
          · by_cases hc : s.1 < low
            · rw [if_pos hc] at g3; exact Or.inr ⟨s :: t, by simp, by simp [g3]⟩
            · rw [if_neg hc] at g3; exact Or.inl g3
          · exact Or.inr ⟨r, List.mem_cons_of_mem _ hr, g3⟩
  cases rows with
  | nil => exact absurd rfl hne
  | cons r rs =>
    cases r with
    | nil => exact absurd rfl (h [] (by simp))
    | cons s t =>
      obtain ⟨l, e, g1, g2, g3⟩ := key rs s.1 (fun r hr => h r (List.mem_cons_of_mem _ hr)) (fun r hr => hs r (List.mem_cons_of_mem _ hr))
      refine ⟨l, e, ?_, ?_⟩
      · intro r hr u hu
        rcases List.mem_cons.1 hr with rfl | hr
        · have := hmin s t (hs _ (by simp)) u hu; omega
        · exact g2 r hr u hu
      · rcases g3 with g3 | ⟨r, hr, g3⟩
        · exact ⟨s :: t, by simp, by simp [g3]⟩
        · exact ⟨r, List.mem_cons_of_mem _ hr, g3⟩

/-- The end of `absorb`: shifting to the left side and joining runs. -/
def finish (minX minY : Int) (rows : List (List (Int × Int))) (low : Int) : Compressed :=
  { minX := minX + low, minY := minY, rows := (rows.map (·.map (fun s => (s.1 - low, s.2 - low)))).map joinRuns }

theorem finish_spec (minX minY : Int) (rows : List (List (Int × Int))) (low : Int) (hs : ∀ r ∈ rows, SortedRow r) :
    (∀ r ∈ (finish minX minY rows low).rows, SortedRow r) ∧
    (∀ p, p ∈ decompress (finish minX minY rows low) ↔ p ∈ decompress ⟨minX, minY, rows⟩) := by
  have hsub : ∀ r : List (Int × Int), r.map (fun s => (s.1 - low, s.2 - low)) = moved (-low) r := fun r => rfl
  constructor
  · intro r hr
    unfold finish at hr
    dsimp only at hr
    obtain ⟨r1, h1, rfl⟩ := List.mem_map.1 hr
    obtain ⟨r2, h2, rfl⟩ := List.mem_map.1 h1
    rw [hsub]
    exact (joinRuns_spec _ (sortedRow_moved (hs r2 h2))).1
  · intro p
    rw [mem_decompress', mem_decompress']
    have e : rowAt (finish minX minY rows low) p.2 = joinRuns (moved (-low) (rowAt ⟨minX, minY, rows⟩ p.2)) := by
      have hjn : joinRuns (moved (-low) []) = [] := by unfold moved; simp [joinRuns]
      by_cases hc : p.2 < minY ∨ minY + rows.length ≤ p.2
      · rw [rowAt_nil (b := ⟨minX, minY, rows⟩) hc, rowAt_nil (by simpa [finish] using hc), hjn]
      · have hi : (p.2 - minY).toNat < rows.length := by omega
        have e1 := rowAt_get (b := ⟨minX, minY, rows⟩) (i := (p.2 - minY).toNat) hi
        have e2 := rowAt_get (b := finish minX minY rows low) (i := (p.2 - minY).toNat) (by simpa [finish] using hi)
        have e3 : minY + ((p.2 - minY).toNat : Int) = p.2 := by omega
        change rowAt ⟨minX, minY, rows⟩ (minY + ((p.2 - minY).toNat : Int)) = _ at e1
        change rowAt (finish minX minY rows low) (minY + ((p.2 - minY).toNat : Int)) = _ at e2
        rw [e3] at e1 e2
        rw [e1, e2]
        simp [finish, hsub]
    have hrow : SortedRow (rowAt ⟨minX, minY, rows⟩ p.2) := by
      by_cases hc : p.2 < minY ∨ minY + rows.length ≤ p.2
      · rw [rowAt_nil (b := ⟨minX, minY, rows⟩) hc]; exact .nil
      · have hi : (p.2 - minY).toNat < rows.length := by omega
        have e1 := rowAt_get (b := ⟨minX, minY, rows⟩) (i := (p.2 - minY).toNat) hi
        change rowAt ⟨minX, minY, rows⟩ (minY + ((p.2 - minY).toNat : Int)) = _ at e1
        rw [show minY + ((p.2 - minY).toNat : Int) = p.2 by omega] at e1
        rw [e1]; exact hs _ (List.getElem_mem hi)
    rw [e, (joinRuns_spec _ (sortedRow_moved hrow)).2.1, inRow_moved]
    have : p.1 - (finish minX minY rows low).minX - -low = p.1 - minX := by simp only [finish]; omega
    rw [this]

theorem finish_tight (minX minY : Int) (rows : List (List (Int × Int))) (low : Int) (hs : ∀ r ∈ rows, SortedRow r)
    (hne : ∀ r ∈ rows, r ≠ []) (h1 : ∀ r ∈ rows, ∀ s ∈ r, low ≤ s.1) (h2 : ∃ r ∈ rows, r.head?.map Prod.fst = some low) :
    Tight (finish minX minY rows low) := by
  have hsub : ∀ r : List (Int × Int), r.map (fun s => (s.1 - low, s.2 - low)) = moved (-low) r := fun r => rfl
  refine ⟨?_, ?_, ?_⟩
  · intro r hr e
    unfold finish at hr
    dsimp only at hr
    obtain ⟨r1, k1, rfl⟩ := List.mem_map.1 hr
    obtain ⟨r2, k2, rfl⟩ := List.mem_map.1 k1
    rw [hsub] at e
    have := (joinRuns_spec _ (sortedRow_moved (dx := -low) (hs r2 k2))).2.2
    rw [e] at this
    cases r2 with
    | nil => exact hne _ k2 rfl
    | cons s t => simp [moved] at this
  · intro r hr s hsm
    unfold finish at hr
    dsimp only at hr
    obtain ⟨r1, k1, rfl⟩ := List.mem_map.1 hr
    obtain ⟨r2, k2, rfl⟩ := List.mem_map.1 k1
    rw [hsub] at hsm
    obtain ⟨g1, g2, _⟩ := joinRuns_spec _ (sortedRow_moved (dx := -low) (hs r2 k2))
    have hx : inRow (joinRuns (moved (-low) r2)) s.1 := ⟨s, hsm, by omega, g1.2 s hsm⟩
    rw [g2, inRow_moved] at hx
    obtain ⟨u, hu, a, _⟩ := hx
    have := h1 r2 k2 u hu
    omega
  · obtain ⟨r, hr, e⟩ := h2
    have g := (joinRuns_spec _ (sortedRow_moved (dx := -low) (hs r hr))).2.2
    have e' : (moved (-low) r).head?.map Prod.fst = some 0 := by
      cases r with
      | nil => simp at e
      | cons s t => simp at e; simp [moved]; omega
    rw [e'] at g
    refine ⟨joinRuns (moved (-low) r), ?_, ?_⟩
    · unfold finish
      dsimp only
      exact List.mem_map.2 ⟨_, List.mem_map.2 ⟨r, hr, rfl⟩, rfl⟩
    · cases hj : joinRuns (moved (-low) r) with
      | nil => rw [hj] at g; simp at g
      | cons s t => rw [hj] at g; exact ⟨s, by simp, by simpa using g⟩

/-- The rows after lines 197-360 of BlobIndex.cc. -/
theorem absorb_rows {b v : Compressed} (hb : Good b) (hv : Good v) (hd : ∀ p ∈ decompress v, p ∉ decompress b) :
    ∃ rows, ∃ minY : Int,
      minY = min b.minY v.minY ∧ minY + rows.length = max (b.minY + b.rows.length) (v.minY + v.rows.length) ∧
      (∀ z, absorb z b v = (lowest z rows).map (finish b.minX minY rows)) ∧
      (∀ r ∈ rows, SortedRow r) ∧ (∀ p, p ∈ decompress ⟨b.minX, minY, rows⟩ ↔ p ∈ decompress b ∨ p ∈ decompress v) := by
  let G : Int → List (Int × Int) → Prop := fun y r => SortedRow r ∧
    ∀ x, inRow r x ↔ inRow (rowAt b y) x ∨ inRow (rowAt v y) (x - (v.minX - b.minX))
  have hdis : ∀ y x, inRow (rowAt v y) (x - (v.minX - b.minX)) → ¬ inRow (rowAt b y) x := by
    intro y x h1 h2
    apply hd (x + b.minX, y)
    · rw [mem_decompress']; dsimp only
      rw [show x + b.minX - v.minX = x - (v.minX - b.minX) by omega]; exact h1
    · rw [mem_decompress']; dsimp only
      rw [show x + b.minX - b.minX = x by omega]; exact h2
  have onlyV : ∀ y, (y < b.minY ∨ b.minY + b.rows.length ≤ y) → G y (moved (v.minX - b.minX) (rowAt v y)) := by
    intro y hy
    refine ⟨sortedRow_moved (hv.rowAt y), fun x => ?_⟩
    rw [rowAt_nil hy, inRow_moved]
    simp [inRow_nil]
  have hmerge := mergeRows_spec (b := b) (v := v) (G := G) (by
    intro m hm
    have eb := rowAt_get hm
    unfold mergeRow
    dsimp only
    by_cases hc : 0 ≤ (m : Int) - (v.minY - b.minY) ∧ (m : Int) - (v.minY - b.minY) < v.rows.length
    · rw [if_pos hc]
      have ev : rowAt v (b.minY + m) = v.rows.getD ((m : Int) - (v.minY - b.minY)).toNat [] := by
        unfold rowAt
        rw [if_pos (by omega)]
        congr 1
        omega
      rw [← ev]
      obtain ⟨r, e, g1, g2⟩ := insertRow_spec (moved (v.minX - b.minX) (rowAt v (b.minY + m))) (sortedRow_moved (hv.rowAt _))
        b.rows[m] (hb.rows _ (List.getElem_mem hm)) (by
          intro x hx
          rw [inRow_moved] at hx
          rw [← eb]; exact hdis _ x hx)
      refine ⟨r, e, g1, fun x => ?_⟩
      rw [g2, inRow_moved, eb]
    · rw [if_neg hc]
      refine ⟨_, rfl, hb.rows _ (List.getElem_mem hm), fun x => ?_⟩
      rw [eb, rowAt_nil (b := v) (by omega)]
      simp [inRow_nil])
  obtain ⟨rows1, e1, l1, g1⟩ := hmerge
  have hvlen : 0 < v.rows.length := List.length_pos_iff.2 hv.ne_nil
  have hblen : 0 < b.rows.length := List.length_pos_iff.2 hb.ne_nil
  -- the rows above
  obtain ⟨rows2, y2, ey2, e2, l2, g2⟩ : ∃ rows2, ∃ y2 : Int, y2 = min b.minY v.minY ∧
      (if v.minY < b.minY then (topRows b v ++ rows1, v.minY) else (rows1, b.minY)) = (rows2, y2) ∧
      y2 + rows2.length = b.minY + b.rows.length ∧ RowsGood G y2 rows2 := by
    by_cases hc : v.minY < b.minY
    · refine ⟨topRows b v ++ rows1, v.minY, by omega, by rw [if_pos hc], ?_, ?_⟩
      · simp [topRows, l1]; omega
      · have hl : (topRows b v).length = (b.minY - v.minY).toNat := by simp [topRows]
        refine rowsGood_append ?_ (by rw [hl, show v.minY + ((b.minY - v.minY).toNat : Int) = b.minY by omega]; exact g1)
        intro i hi
        rw [hl] at hi
        have : (topRows b v)[i]'(by rw [hl]; exact hi) = moved (v.minX - b.minX) (rowAt v (v.minY + i)) := by
          unfold topRows
          simp only [List.getElem_map, List.getElem_range]
          by_cases hlt : i < v.rows.length
          · rw [if_pos hlt, rowAt_get hlt, List.getD_eq_getElem?_getD, List.getElem?_eq_getElem hlt]; rfl
          · rw [if_neg hlt, rowAt_nil (by omega)]; rfl
        rw [this]
        exact onlyV _ (by omega)
    · exact ⟨rows1, b.minY, by omega, by rw [if_neg hc], by rw [l1], g1⟩
  -- the rows below
  obtain ⟨rows3, e3, l3, g3⟩ : ∃ rows3,
      (if (v.rows.length : Int) + v.minY > y2 + rows2.length then rows2 ++ bottomRows (v.minX - b.minX) y2 rows2.length v else rows2) = rows3 ∧
      y2 + rows3.length = max (b.minY + b.rows.length) (v.minY + v.rows.length) ∧ RowsGood G y2 rows3 := by
    by_cases hc : (v.rows.length : Int) + v.minY > y2 + rows2.length
    · refine ⟨_, if_pos hc, ?_, ?_⟩
      · simp [bottomRows]; omega
      · refine rowsGood_append g2 ?_
        intro i hi
        simp only [bottomRows, List.length_map, List.length_range] at hi
        have : (bottomRows (v.minX - b.minX) y2 rows2.length v)[i]'(by simpa [bottomRows] using hi) =
            moved (v.minX - b.minX) (rowAt v (y2 + rows2.length + i)) := by
          unfold bottomRows
          simp only [List.getElem_map, List.getElem_range]
          by_cases hlt : (rows2.length : Int) + y2 - v.minY + i < 0
          · rw [if_pos hlt, rowAt_nil (by omega)]; rfl
          · rw [if_neg hlt]
            unfold rowAt
            rw [if_pos (by omega)]
            congr 2
            omega
        rw [this]
        exact onlyV _ (by omega)
    · exact ⟨rows2, if_neg hc, by omega, g2⟩
  refine ⟨rows3, y2, ey2, l3, ?_, ?_, ?_⟩
  · intro z
    unfold absorb
    have : ¬ b.rows.isEmpty = true := by simpa using hb.ne_nil
    rw [if_neg this, e1]
    simp only [bind, Except.bind, e2, e3]
    cases lowest z rows3 <;> rfl
  · intro r hr
    obtain ⟨i, hi, rfl⟩ := List.getElem_of_mem hr
    exact (g3 i hi).1
  · intro p
    have hrow : inRow (rowAt ⟨b.minX, y2, rows3⟩ p.2) (p.1 - b.minX) ↔
        inRow (rowAt b p.2) (p.1 - b.minX) ∨ inRow (rowAt v p.2) (p.1 - b.minX - (v.minX - b.minX)) := by
      by_cases hc : p.2 < y2 ∨ y2 + rows3.length ≤ p.2
      · rw [rowAt_nil (b := ⟨b.minX, y2, rows3⟩) hc, rowAt_nil (b := b) (by omega), rowAt_nil (b := v) (by omega)]
        simp [inRow_nil]
      · have hi : (p.2 - y2).toNat < rows3.length := by omega
        have e4 := rowAt_get (b := ⟨b.minX, y2, rows3⟩) (i := (p.2 - y2).toNat) hi
        change rowAt ⟨b.minX, y2, rows3⟩ (y2 + ((p.2 - y2).toNat : Int)) = _ at e4
        have e5 : y2 + ((p.2 - y2).toNat : Int) = p.2 := by omega
        have := (g3 _ hi).2 (p.1 - b.minX)
        rw [e5] at e4 this
        rw [e4]
        exact this
    rw [mem_decompress', mem_decompress', mem_decompress']
    dsimp only
    rw [hrow, show p.1 - b.minX - (v.minX - b.minX) = p.1 - v.minX by omega]

theorem mem_minmax {b : Compressed} {p : Pos} (h : p ∈ decompress b) : b.minY ≤ p.2 ∧ p.2 < b.minY + b.rows.length := by
  rw [mem_decompress] at h
  obtain ⟨i, hi, _, _, e, _⟩ := h
  omega

/-- **absorb**: whatever `front()` of a row without runs yields, the pixels are those of both blobs; when no row is without
runs the left side is right as well. -/
theorem absorb_spec (z : Int) {b v : Compressed} (hb : Good b) (hv : Good v) (hd : ∀ p ∈ decompress v, p ∉ decompress b) :
    ∃ b', absorb (some z) b v = .ok b' ∧ Good b' ∧ (∀ p, p ∈ decompress b' ↔ p ∈ decompress b ∨ p ∈ decompress v) ∧
      ((∀ r ∈ b'.rows, r ≠ []) → Tight b') := by
  obtain ⟨rows, minY, h1, h2, h3, h4, h5⟩ := absorb_rows hb hv hd
  have hne : ∃ r ∈ rows, r ≠ [] := by
    obtain ⟨p, hp, _⟩ := hb.first
    have := (h5 p).2 (Or.inl hp)
    rw [mem_decompress] at this
    obtain ⟨i, hi, s, hs, _⟩ := this
    exact ⟨_, List.getElem_mem hi, List.ne_nil_of_mem hs⟩
  obtain ⟨low, e⟩ := lowest_some z rows hne
  obtain ⟨f1, f2⟩ := finish_spec b.minX minY rows low h4
  have hlen : (finish b.minX minY rows low).rows.length = rows.length := by simp [finish]
  refine ⟨finish b.minX minY rows low, by rw [h3, e]; rfl, ⟨f1, ?_, ?_⟩, fun p => by rw [f2, h5], ?_⟩
  · change ∃ p ∈ decompress (finish b.minX minY rows low), p.2 = minY
    obtain ⟨p, hp, e1⟩ := hb.first
    obtain ⟨q, hq, e2⟩ := hv.first
    by_cases hc : b.minY ≤ v.minY
    · exact ⟨p, by rw [f2, h5]; exact Or.inl hp, by omega⟩
    · exact ⟨q, by rw [f2, h5]; exact Or.inr hq, by omega⟩
  · rw [hlen]
    change ∃ p ∈ decompress (finish b.minX minY rows low), p.2 = minY + (rows.length : Int) - 1
    obtain ⟨p, hp, e1⟩ := hb.last
    obtain ⟨q, hq, e2⟩ := hv.last
    by_cases hc : b.minY + b.rows.length ≥ v.minY + v.rows.length
    · exact ⟨p, by rw [f2, h5]; exact Or.inl hp, by omega⟩
    · exact ⟨q, by rw [f2, h5]; exact Or.inr hq, by omega⟩
  · intro hfull
    have hr : ∀ r ∈ rows, r ≠ [] := by
      intro r hr e
      obtain ⟨i, hi, e'⟩ := List.getElem_of_mem hr
      have := hfull ((finish b.minX minY rows low).rows[i]'(by rw [hlen]; exact hi)) (List.getElem_mem _)
      apply this
      simp [finish, e', e, joinRuns]
    have hrn : rows ≠ [] := by
      obtain ⟨r, hr, _⟩ := hne
      exact List.ne_nil_of_mem hr
    obtain ⟨low', e', k1, k2⟩ := lowest_full (some z) rows hrn hr h4
    rw [e] at e'
    cases e'
    exact finish_tight b.minX minY rows low h4 hr k1 k2

/-- When some row stays without runs, `absorb` reads the front of an empty list. -/
theorem absorb_gap_ub {b v : Compressed} (hb : Good b) (hv : Good v) (hd : ∀ p ∈ decompress v, p ∉ decompress b)
    (y : Int) (h1 : min b.minY v.minY < y) (h2 : y < max (b.minY + b.rows.length) (v.minY + v.rows.length))
    (hgap : ∀ p, p.2 = y → p ∉ decompress b ∧ p ∉ decompress v) : absorb none b v = .error .ub := by
  obtain ⟨rows, minY, e1, e2, h3, h4, h5⟩ := absorb_rows hb hv hd
  have hi : (y - minY).toNat < rows.length := by omega
  have hgapRow : rows[(y - minY).toNat] = [] := by
    by_contra hne
    obtain ⟨s, hs⟩ := List.exists_mem_of_ne_nil _ hne
    have hs' := (h4 _ (List.getElem_mem hi)).2 s hs
    have hm : ((b.minX + s.1, y) : Pos) ∈ decompress ⟨b.minX, minY, rows⟩ := by
      rw [mem_decompress]
      exact ⟨_, hi, s, hs, by dsimp only; omega, by dsimp only; omega, by dsimp only; omega⟩
    rw [h5] at hm
    have := hgap (b.minX + s.1, y) rfl
    tauto
  have hfirst : ∃ s t rs, rows = (s :: t) :: rs := by
    have hlen : 0 < rows.length := by omega
    have : rows[0] ≠ [] := by
      have hp : ∃ p, (p ∈ decompress b ∨ p ∈ decompress v) ∧ p.2 = minY := by
        obtain ⟨p, hp, ep⟩ := hb.first
        obtain ⟨q, hq, eq⟩ := hv.first
        by_cases hc : b.minY ≤ v.minY
        · exact ⟨p, Or.inl hp, by omega⟩
        · exact ⟨q, Or.inr hq, by omega⟩
      obtain ⟨p, hp, ep⟩ := hp
      rw [← h5, mem_decompress] at hp
      obtain ⟨i, hi, s, hs, e, _⟩ := hp
      have : i = 0 := by dsimp only at e; omega
      subst this
      exact List.ne_nil_of_mem hs
    cases rows with
    | nil => simp at hlen
    | cons r rs =>
      cases r with
      | nil => simp at this
      | cons s t => exact ⟨s, t, rs, rfl⟩
  rw [h3]
  obtain ⟨s, t, rs, rfl⟩ := hfirst
  have hmem : [] ∈ rs := by
    have : (y - minY).toNat = (y - minY).toNat - 1 + 1 := by omega
    have hg : ((s :: t) :: rs)[(y - minY).toNat - 1 + 1]'(by omega) = [] := by
      rw [← hgapRow]; congr 1; omega
    rw [List.getElem_cons_succ] at hg
    rw [← hg]; exact List.getElem_mem _
  unfold lowest
  have key : ∀ (rs : List (List (Int × Int))) (low : Int), [] ∈ rs →
      rs.foldlM (fun low r => (front none r).map (fun f => if f < low then f else low)) low = Except.error Err.ub := by
    intro rs
    induction rs with
    | nil => intro low h; cases h
    | cons r rs ih =>
      intro low h
      rw [List.foldlM_cons]
      cases r with
      | nil => rfl
      | cons s t =>
        rcases List.mem_cons.1 h with h | h
        · cases h
        · exact ih _ h
  rw [key rs s.1 hmem]; rfl

end VW.Blob
