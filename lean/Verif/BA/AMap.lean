import Mathlib.Order.Defs.LinearOrder
import Mathlib.Order.Basic
import Mathlib.Data.List.Sort

/-
`std::map`: a list of entries with strictly ascending keys.  Iteration is in the order of the list, `size()` is its
length, `m[k] = v` is `set`, `m.find(k)` is `find`.  (Standard library; not code of /repo.)
-/

namespace Verif.BA

/-- The entries of a map in the order of iteration. -/
abbrev AMap (K V : Type) := List (K × V)

namespace AMap

variable {K V : Type} [LinearOrder K]

/-- `m.find(k)`. -/
def find : AMap K V → K → Option V
  | [], _ => none
  | e :: m, k => if e.1 = k then some e.2 else find m k

/-- `m[k] = v`. -/
def set : AMap K V → K → V → AMap K V
  | [], k, v => [(k, v)]
  | e :: m, k, v => if k < e.1 then (k, v) :: e :: m else if e.1 = k then (k, v) :: m else e :: set m k v

/-- The keys in order. -/
def keys (m : AMap K V) : List K := m.map Prod.fst

/-- Keys strictly ascending. -/
def Ok (m : AMap K V) : Prop := m.Pairwise (fun a b => a.1 < b.1)

theorem ok_nil : Ok ([] : AMap K V) := List.Pairwise.nil

theorem find_nil (k : K) : find ([] : AMap K V) k = none := rfl

theorem mem_set {m : AMap K V} {k : K} {v : V} {e : K × V} (he : e ∈ set m k v) : e = (k, v) ∨ e ∈ m := by
  induction m with
  | nil => exact Or.inl (by simpa [set] using he)
  | cons d m ih =>
    unfold set at he
    split_ifs at he
    · rcases List.mem_cons.1 he with he | he
      · exact Or.inl he
      · exact Or.inr he
    · rcases List.mem_cons.1 he with he | he
      · exact Or.inl he
      · exact Or.inr (List.mem_cons_of_mem _ he)
    · rcases List.mem_cons.1 he with he | he
      · exact Or.inr (by rw [he]; exact List.mem_cons_self)
      · rcases ih he with h | h
        · exact Or.inl h
        · exact Or.inr (List.mem_cons_of_mem _ h)

theorem Ok.set {m : AMap K V} (hm : Ok m) (k : K) (v : V) : Ok (set m k v) := by
  induction m with
  | nil => exact List.pairwise_singleton _ _
  | cons d m ih =>
    have hm' := List.pairwise_cons.1 hm
    unfold AMap.set
    split_ifs with h1 h2
    · refine List.pairwise_cons.2 ⟨?_, hm⟩
      intro e he
      rcases List.mem_cons.1 he with rfl | he
      · exact h1
      · exact lt_trans h1 (hm'.1 e he)
    · refine List.pairwise_cons.2 ⟨?_, hm'.2⟩
      intro e he
      have := hm'.1 e he
      rw [h2] at this
      exact this
    · refine List.pairwise_cons.2 ⟨?_, ih hm'.2⟩
      intro e he
      rcases mem_set he with rfl | he
      · exact lt_of_le_of_ne (not_lt.1 h1) h2
      · exact hm'.1 e he

theorem find_none_of_lt {m : AMap K V} {k : K} (h : ∀ e ∈ m, k < e.1) : find m k = none := by
  induction m with
  | nil => rfl
  | cons d m ih =>
    unfold find
    rw [if_neg (ne_of_gt (h d List.mem_cons_self)), ih (fun e he => h e (List.mem_cons_of_mem _ he))]

theorem find_set {m : AMap K V} (hm : Ok m) (k : K) (v : V) (k' : K) :
    find (set m k v) k' = if k = k' then some v else find m k' := by
  induction m with
  | nil => simp [set, find]
  | cons d m ih =>
    have hm' := List.pairwise_cons.1 hm
    unfold AMap.set
    split_ifs with h1 h2 h3 h4 h5
    · simp [find, h2]
    · simp [find, h2]
    · simp [find, h4]
    · simp only [find, if_neg h4]
      rw [h3, if_neg h4]
    · have : d.1 ≠ k' := by rw [← h5]; exact h3
      simp only [find, if_neg this]
      rw [ih hm'.2, if_pos h5]
    · simp only [find]
      rw [ih hm'.2, if_neg h5]

theorem find_mem {m : AMap K V} {k : K} {v : V} (h : find m k = some v) : (k, v) ∈ m := by
  induction m with
  | nil => cases h
  | cons d m ih =>
    unfold find at h
    split_ifs at h with h1
    · cases h
      rw [← h1]
      exact List.mem_cons_self
    · exact List.mem_cons_of_mem _ (ih h)

theorem find_of_mem {m : AMap K V} (hm : Ok m) {k : K} {v : V} (h : (k, v) ∈ m) : find m k = some v := by
  induction m with
  | nil => cases h
  | cons d m ih =>
    have hm' := List.pairwise_cons.1 hm
    unfold find
    rcases List.mem_cons.1 h with h | h
    · rw [← h, if_pos rfl]
    · rw [if_neg (ne_of_lt (hm'.1 _ h)), ih hm'.2 h]

theorem mem_iff {m : AMap K V} (hm : Ok m) {k : K} {v : V} : (k, v) ∈ m ↔ find m k = some v :=
  ⟨find_of_mem hm, find_mem⟩

theorem mem_keys {m : AMap K V} {k : K} : k ∈ keys m ↔ ∃ v, find m k = some v := by
  unfold keys
  induction m with
  | nil => simp [find]
  | cons d m ih =>
    simp only [List.map_cons, List.mem_cons, find]
    split_ifs with h
    · simp [h]
    · rw [ih]
      constructor
      · rintro (h' | h')
        · exact absurd h'.symm h
        · exact h'
      · exact Or.inr

theorem length_set {m : AMap K V} (hm : Ok m) (k : K) (v : V) :
    (set m k v).length = if find m k = none then m.length + 1 else m.length := by
  induction m with
  | nil => simp [set, find]
  | cons d m ih =>
    have hm' := List.pairwise_cons.1 hm
    unfold AMap.set find
    by_cases h1 : k < d.1
    · rw [if_pos h1, if_neg (ne_of_gt h1), find_none_of_lt (fun e he => lt_trans h1 (hm'.1 e he)), if_pos rfl]
      rfl
    · rw [if_neg h1]
      by_cases h2 : d.1 = k
      · rw [if_pos h2, if_pos h2, if_neg (by simp)]
        rfl
      · rw [if_neg h2, if_neg h2, List.length_cons, ih hm'.2]
        split_ifs <;> rfl

/-- Two maps with the same values are equal. -/
theorem ext {m n : AMap K V} (hm : Ok m) (hn : Ok n) (h : ∀ k, find m k = find n k) : m = n := by
  induction m generalizing n with
  | nil =>
    cases n with
    | nil => rfl
    | cons e n =>
      have := h e.1
      simp [find] at this
  | cons d m ih =>
    have hm' := List.pairwise_cons.1 hm
    cases n with
    | nil =>
      have := h d.1
      simp [find] at this
    | cons e n =>
      have hn' := List.pairwise_cons.1 hn
      have hde : d.1 = e.1 := by
        rcases lt_trichotomy d.1 e.1 with hlt | heq | hgt
        · exfalso
          have := h d.1
          rw [find_none_of_lt (m := e :: n) (by
            intro x hx
            rcases List.mem_cons.1 hx with rfl | hx
            · exact hlt
            · exact lt_trans hlt (hn'.1 x hx))] at this
          simp [find] at this
        · exact heq
        · exfalso
          have := h e.1
          rw [find_none_of_lt (m := d :: m) (by
            intro x hx
            rcases List.mem_cons.1 hx with rfl | hx
            · exact hgt
            · exact lt_trans hgt (hm'.1 x hx))] at this
          simp [find] at this
      have h2 : d.2 = e.2 := by
        have := h d.1
        simpa [find, hde] using this
      have hd : d = e := Prod.ext hde h2
      subst hd
      congr 1
      refine ih hm'.2 hn'.2 (fun k => ?_)
      by_cases hk : d.1 = k
      · rw [find_none_of_lt (m := m) (fun x hx => hk ▸ hm'.1 x hx),
          find_none_of_lt (m := n) (fun x hx => hk ▸ hn'.1 x hx)]
      · have := h k
        simpa [find, hk] using this

theorem Ok.keys_sorted {m : AMap K V} (hm : Ok m) : (keys m).Pairwise (· < ·) := by
  unfold keys
  rw [List.pairwise_map]
  exact hm

end AMap

end Verif.BA
