import Verif.Stereo.SGMPath
import Mathlib.Data.List.Perm.Subperm
import Mathlib.Algebra.BigOperators.Group.List.Basic
import Mathlib.Algebra.Order.BigOperators.Group.List

/-! The lines of each direction cover the image once; the accumulated costs are the sums over the eight directions, whatever the order of
the work. -/

namespace VW.SGM

/-! ### Specification -/

/-- A pixel of the image. -/
def inImage (w h : Int) (q : Pt) : Prop := 0 ≤ q.1 ∧ q.1 < w ∧ 0 ≤ q.2 ∧ q.2 < h

/-- The pixels of one task. -/
def linePixels (w h : Int) (d : Dir) (s : Pt) : List Pt := (List.range (lineLength w h d s)).map (along d s)

/-- The pixels of all tasks of a direction. -/
def dirPixels (w h : Int) (d : Dir) : List Pt := (starts w h d).flatMap (linePixels w h d)

/-- The pixels row after row. -/
def rowMajor (w h : Int) : List Pt := (List.range h.toNat).flatMap fun (r : Nat) => (List.range w.toNat).map fun (c : Nat) => ((c : Int), (r : Int))

/-! ### Lines -/

theorem good_iff (w h : Int) (q : Pt) : good w h q = true ↔ inImage w h q := by
  unfold good inImage
  simp only [Bool.and_eq_true, decide_eq_true_eq]
  constructor
  · rintro ⟨⟨⟨a, b⟩, c⟩, e⟩; exact ⟨a, c, b, e⟩
  · rintro ⟨a, c, b, e⟩; exact ⟨⟨⟨a, b⟩, c⟩, e⟩

/-- The image is convex: a line that is in it at the start and after `k` steps is in it in between. -/
theorem between (w h : Int) (d : Dir) (s : Pt) (j k : Nat) (hjk : j ≤ k) (h0 : inImage w h s) (hk : inImage w h (along d s k)) :
    inImage w h (along d s j) := by
  unfold inImage along at *
  cases d <;> dsimp only [Dir.step] at * <;> omega

/-- A line leaves the image after fewer steps than it has columns or rows. -/
theorem along_lt (w h : Int) (d : Dir) (s : Pt) (k : Nat) (h0 : inImage w h s) (hk : inImage w h (along d s k)) :
    (k : Int) < w ∨ (k : Int) < h := by
  unfold inImage along at *
  cases d <;> dsimp only [Dir.step] at * <;> omega

theorem lineLength_spec (w h : Int) (d : Dir) (s : Pt) (h0 : inImage w h s) (k : Nat) :
    k < lineLength w h d s ↔ inImage w h (along d s k) := by
  have hw : ¬ inImage w h (along d s (w.toNat + h.toNat)) := by
    intro hk
    have h1 := along_lt w h d s _ h0 hk
    unfold inImage at h0
    omega
  unfold lineLength
  rcases hf : (List.range (w.toNat + h.toNat + 1)).find? fun k => !good w h (along d s k) with _ | n
  · exfalso
    rw [List.find?_eq_none] at hf
    have := hf (w.toNat + h.toNat) (by simp)
    simp only [Bool.not_eq_true', Bool.not_eq_false] at this
    exact hw ((good_iff _ _ _).1 this)
  · rw [Option.getD_some]
    have hn : n < w.toNat + h.toNat + 1 := by
      have := List.mem_of_find?_eq_some hf
      simpa using this
    rw [List.find?_range_eq_some] at hf
    obtain ⟨h1, _, h2⟩ := hf
    simp only [Bool.not_eq_true', Bool.not_not] at h1 h2
    constructor
    · intro hk
      exact (good_iff _ _ _).1 (h2 k hk)
    · intro hk
      by_contra hc
      have := between w h d s n k (by omega) h0 hk
      rw [← good_iff, h1] at this
      exact absurd this (by simp)

theorem starts_spec (w h : Int) (d : Dir) (s : Pt) : s ∈ starts w h d ↔
    match d with
    | .B => 0 ≤ s.1 ∧ s.1 < w ∧ s.2 = 0
    | .T => 0 ≤ s.1 ∧ s.1 < w ∧ s.2 = h - 1
    | .R => 0 ≤ s.2 ∧ s.2 < h ∧ s.1 = 0
    | .L => 0 ≤ s.2 ∧ s.2 < h ∧ s.1 = w - 1
    | .BR => (0 ≤ s.1 ∧ s.1 < w ∧ s.2 = 0) ∨ (1 ≤ s.2 ∧ s.2 < h ∧ s.1 = 0)
    | .BL => (0 ≤ s.1 ∧ s.1 < w ∧ s.2 = 0) ∨ (1 ≤ s.2 ∧ s.2 < h ∧ s.1 = w - 1)
    | .TR => (0 ≤ s.1 ∧ s.1 < w ∧ s.2 = h - 1) ∨ (0 ≤ s.2 ∧ s.2 < h - 1 ∧ s.1 = 0)
    | .TL => (0 ≤ s.1 ∧ s.1 < w ∧ s.2 = h - 1) ∨ (0 ≤ s.2 ∧ s.2 < h - 1 ∧ s.1 = w - 1) := by
  obtain ⟨x, y⟩ := s
  have e1 : ∀ (n : Int) (z : Int), (∃ i, i < n.toNat ∧ (i : Int) = z) ↔ 0 ≤ z ∧ z < n := by
    intro n z
    constructor
    · rintro ⟨i, hi, rfl⟩; omega
    · rintro ⟨h1, h2⟩; exact ⟨z.toNat, by omega, by omega⟩
  have e2 : ∀ (n : Int) (z : Int), (∃ i, (1 ≤ i ∧ i < 1 + (n.toNat - 1)) ∧ (i : Int) = z) ↔ 1 ≤ z ∧ z < n := by
    intro n z
    constructor
    · rintro ⟨i, hi, rfl⟩; omega
    · rintro ⟨h1, h2⟩; exact ⟨z.toNat, by omega, by omega⟩
  have e3 : ∀ (n : Int) (z : Int), (∃ i, i < n.toNat - 1 ∧ (i : Int) = z) ↔ 0 ≤ z ∧ z < n - 1 := by
    intro n z
    constructor
    · rintro ⟨i, hi, rfl⟩; omega
    · rintro ⟨h1, h2⟩; exact ⟨z.toNat, by omega, by omega⟩
  have split : ∀ (Q : Nat → Prop) (a b : Int), (∃ i, Q i ∧ (i : Int) = a ∧ b = y) ↔ (∃ i, Q i ∧ (i : Int) = a) ∧ b = y := by
    intro Q a b
    constructor
    · rintro ⟨i, h1, h2, h3⟩; exact ⟨⟨i, h1, h2⟩, h3⟩
    · rintro ⟨⟨i, h1, h2⟩, h3⟩; exact ⟨i, h1, h2, h3⟩
  have split' : ∀ (Q : Nat → Prop) (a b : Int), (∃ i, Q i ∧ b = x ∧ (i : Int) = a) ↔ (∃ i, Q i ∧ (i : Int) = a) ∧ b = x := by
    intro Q a b
    constructor
    · rintro ⟨i, h1, h2, h3⟩; exact ⟨⟨i, h1, h3⟩, h2⟩
    · rintro ⟨⟨i, h1, h2⟩, h3⟩; exact ⟨i, h1, h3, h2⟩
  cases d <;> simp only [starts, List.mem_map, List.mem_range, List.mem_range'_1, List.mem_append, Prod.mk.injEq, split, split', e1, e2, e3] <;> omega

theorem starts_in (w h : Int) (hw : 0 < w) (hh : 0 < h) (d : Dir) (s : Pt) (hs : s ∈ starts w h d) : inImage w h s := by
  rw [starts_spec] at hs
  unfold inImage
  cases d <;> dsimp only at hs <;> omega

/-- Every pixel is on a line of every direction. -/
theorem on_line (w h : Int) (d : Dir) (q : Pt) (hq : inImage w h q) : ∃ s k, s ∈ starts w h d ∧ along d s k = q := by
  obtain ⟨x, y⟩ := q
  unfold inImage at hq
  dsimp only at hq
  cases d
  case TL =>
    refine ⟨(x + (min (w - 1 - x) (h - 1 - y)).toNat, y + (min (w - 1 - x) (h - 1 - y)).toNat), (min (w - 1 - x) (h - 1 - y)).toNat, ?_, ?_⟩
    · rw [starts_spec]; dsimp only; omega
    · unfold along; ext <;> dsimp only [Dir.step] <;> omega
  case T =>
    refine ⟨(x, h - 1), (h - 1 - y).toNat, ?_, ?_⟩
    · rw [starts_spec]; dsimp only; omega
    · unfold along; ext <;> dsimp only [Dir.step] <;> omega
  case TR =>
    refine ⟨(x - (min x (h - 1 - y)).toNat, y + (min x (h - 1 - y)).toNat), (min x (h - 1 - y)).toNat, ?_, ?_⟩
    · rw [starts_spec]; dsimp only; omega
    · unfold along; ext <;> dsimp only [Dir.step] <;> omega
  case L =>
    refine ⟨(w - 1, y), (w - 1 - x).toNat, ?_, ?_⟩
    · rw [starts_spec]; dsimp only; omega
    · unfold along; ext <;> dsimp only [Dir.step] <;> omega
  case R =>
    refine ⟨(0, y), x.toNat, ?_, ?_⟩
    · rw [starts_spec]; dsimp only; omega
    · unfold along; ext <;> dsimp only [Dir.step] <;> omega
  case BL =>
    refine ⟨(x + (min (w - 1 - x) y).toNat, y - (min (w - 1 - x) y).toNat), (min (w - 1 - x) y).toNat, ?_, ?_⟩
    · rw [starts_spec]; dsimp only; omega
    · unfold along; ext <;> dsimp only [Dir.step] <;> omega
  case B =>
    refine ⟨(x, 0), y.toNat, ?_, ?_⟩
    · rw [starts_spec]; dsimp only; omega
    · unfold along; ext <;> dsimp only [Dir.step] <;> omega
  case BR =>
    refine ⟨(x - (min x y).toNat, y - (min x y).toNat), (min x y).toNat, ?_, ?_⟩
    · rw [starts_spec]; dsimp only; omega
    · unfold along; ext <;> dsimp only [Dir.step] <;> omega

/-- … and on one only, at one place. -/
theorem on_one_line (w h : Int) (hw : 0 < w) (hh : 0 < h) (d : Dir) (s t : Pt) (k l : Nat) (hs : s ∈ starts w h d) (ht : t ∈ starts w h d)
    (he : along d s k = along d t l) : s = t ∧ k = l := by
  have h1 := starts_in w h hw hh d s hs
  have h2 := starts_in w h hw hh d t ht
  rw [starts_spec] at hs ht
  obtain ⟨sx, sy⟩ := s
  obtain ⟨tx, ty⟩ := t
  unfold along inImage at *
  simp only [Prod.mk.injEq] at *
  cases d <;> dsimp only [Dir.step] at * <;> omega

theorem starts_nodup (w h : Int) (d : Dir) : (starts w h d).Nodup := by
  have inj1 : ∀ c : Int, Function.Injective fun (i : Nat) => ((i : Int), c) := by
    intro c a b hab
    simp only [Prod.mk.injEq] at hab
    omega
  have inj2 : ∀ c : Int, Function.Injective fun (i : Nat) => (c, (i : Int)) := by
    intro c a b hab
    simp only [Prod.mk.injEq] at hab
    omega
  cases d <;> simp only [starts]
  case B => exact List.Nodup.map (inj1 _) List.nodup_range
  case T => exact List.Nodup.map (inj1 _) List.nodup_range
  case R => exact List.Nodup.map (inj2 _) List.nodup_range
  case L => exact List.Nodup.map (inj2 _) List.nodup_range
  all_goals
    rw [List.nodup_append]
    refine ⟨List.Nodup.map (inj1 _) List.nodup_range, ?_, ?_⟩
    · first
        | exact List.Nodup.map (inj2 _) List.nodup_range
        | exact List.Nodup.map (inj2 _) List.nodup_range'
    · intro a ha b hb hab
      subst hab
      simp only [List.mem_map, List.mem_range, List.mem_range'_1] at ha hb
      obtain ⟨i, hi, rfl⟩ := ha
      obtain ⟨j, hj, hb⟩ := hb
      simp only [Prod.mk.injEq] at hb
      omega

/-- **No pixel is touched by two tasks of a direction**, nor twice by one. -/
theorem dirPixels_nodup (w h : Int) (hw : 0 < w) (hh : 0 < h) (d : Dir) : (dirPixels w h d).Nodup := by
  unfold dirPixels linePixels
  rw [List.nodup_flatMap]
  constructor
  · intro s hs
    refine List.Nodup.map_on ?_ List.nodup_range
    intro a _ b _ hab
    exact (on_one_line w h hw hh d s s a b hs hs hab).2
  · refine List.Pairwise.imp_of_mem ?_ (starts_nodup w h d)
    intro s t hs ht hst x hx hy
    simp only [List.mem_map] at hx hy
    obtain ⟨a, _, rfl⟩ := hx
    obtain ⟨b, _, hb⟩ := hy
    exact hst (on_one_line w h hw hh d t s b a ht hs hb).1.symm

/-- **Every pixel is touched by a task of each direction, and nothing else is.** -/
theorem mem_dirPixels (w h : Int) (d : Dir) (q : Pt) (hw : 0 < w) (hh : 0 < h) : q ∈ dirPixels w h d ↔ inImage w h q := by
  unfold dirPixels linePixels
  simp only [List.mem_flatMap, List.mem_map, List.mem_range]
  constructor
  · rintro ⟨s, hs, k, hk, rfl⟩
    exact (lineLength_spec w h d s (starts_in w h hw hh d s hs) k).1 hk
  · intro hq
    obtain ⟨s, k, hs, rfl⟩ := on_line w h d q hq
    exact ⟨s, hs, k, (lineLength_spec w h d s (starts_in w h hw hh d s hs) k).2 hq, rfl⟩

theorem mem_rowMajor (w h : Int) (q : Pt) : q ∈ rowMajor w h ↔ inImage w h q := by
  unfold rowMajor inImage
  simp only [List.mem_flatMap, List.mem_map, List.mem_range]
  constructor
  · rintro ⟨r, hr, c, hc, rfl⟩
    dsimp only
    omega
  · rintro ⟨h1, h2, h3, h4⟩
    exact ⟨q.2.toNat, by omega, q.1.toNat, by omega, by ext <;> dsimp only <;> omega⟩

theorem rowMajor_nodup (w h : Int) : (rowMajor w h).Nodup := by
  unfold rowMajor
  rw [List.nodup_flatMap]
  constructor
  · intro j _
    refine List.Nodup.map ?_ List.nodup_range
    intro a c hac
    simp only [Prod.mk.injEq] at hac
    omega
  · refine List.Pairwise.imp_of_mem ?_ List.nodup_range
    intro a c _ _ hac x hx hy
    simp only [List.mem_map] at hx hy
    obtain ⟨i, _, rfl⟩ := hx
    obtain ⟨i', _, hxy⟩ := hy
    simp only [Prod.mk.injEq] at hxy
    omega

theorem dirPixels_perm (w h : Int) (hw : 0 < w) (hh : 0 < h) (d : Dir) : (dirPixels w h d).Perm (rowMajor w h) := by
  rw [List.perm_ext_iff_of_nodup (dirPixels_nodup w h hw hh d) (rowMajor_nodup w h)]
  intro q
  rw [mem_dirPixels w h d q hw hh, mem_rowMajor]

/-! ### Accumulation -/

/-- The sum of the additions to one place. -/
def sumAt (q : Pt) (i : Nat) (l : List Add) : Nat := (l.map fun a => if q = a.pixel ∧ i = a.index then a.value else 0).sum

theorem fold_add (l : List Add) (m : Accum) (q : Pt) (i : Nat) (hm : m q i < 65536) : (l.foldl Accum.add m) q i = u16 (m q i + sumAt q i l) := by
  induction l generalizing m with
  | nil => simp only [List.foldl_nil, sumAt, List.map_nil, List.sum_nil, u16]; omega
  | cons a l ih =>
    have hs : sumAt q i (a :: l) = (if q = a.pixel ∧ i = a.index then a.value else 0) + sumAt q i l := by
      unfold sumAt
      rw [List.map_cons, List.sum_cons]
    rw [List.foldl_cons, hs]
    by_cases h : q = a.pixel ∧ i = a.index
    · have e : (m.add a) q i = u16 (m q i + a.value) := by unfold Accum.add; rw [if_pos h]
      rw [ih _ (by rw [e]; unfold u16; omega), e, if_pos h]
      unfold u16
      omega
    · have e : (m.add a) q i = m q i := by unfold Accum.add; rw [if_neg h]
      rw [ih _ (by rw [e]; exact hm), e, if_neg h, Nat.zero_add]

theorem sumAt_append (q : Pt) (i : Nat) (l l' : List Add) : sumAt q i (l ++ l') = sumAt q i l + sumAt q i l' := by
  unfold sumAt
  rw [List.map_append, List.sum_append]

theorem sumAt_flatMap {α : Type} (q : Pt) (i : Nat) (l : List α) (f : α → List Add) : sumAt q i (l.flatMap f) = (l.map fun x => sumAt q i (f x)).sum := by
  induction l with
  | nil => rfl
  | cons x l ih => rw [List.flatMap_cons, sumAt_append, ih, List.map_cons, List.sum_cons]

theorem sumAt_perm (q : Pt) (i : Nat) {l l' : List Add} (h : l.Perm l') : sumAt q i l = sumAt q i l' := (h.map _).sum_nat

theorem sum_single {α : Type} (l : List α) (hn : l.Nodup) (x : α) (hx : x ∈ l) (f : α → Nat) (h0 : ∀ y ∈ l, y ≠ x → f y = 0) : (l.map f).sum = f x := by
  induction l with
  | nil => cases hx
  | cons y l ih =>
    rw [List.map_cons, List.sum_cons]
    rw [List.nodup_cons] at hn
    by_cases hxy : y = x
    · subst hxy
      have : (l.map f).sum = 0 := by
        rw [List.sum_eq_zero_iff]
        intro z hz
        rw [List.mem_map] at hz
        obtain ⟨w, hw, rfl⟩ := hz
        exact h0 w (by simp [hw]) (fun e => hn.1 (e ▸ hw))
      omega
    · have hx' : x ∈ l := by
        rw [List.mem_cons] at hx
        rcases hx with h | h
        · exact absurd h.symm hxy
        · exact h
      rw [ih hn.2 hx' (fun z hz hne => h0 z (by simp [hz]) hne), h0 y (by simp) hxy, Nat.zero_add]

/-- The additions of one direction to a place come from the one task whose line has the pixel. -/
theorem sumAt_dir (M : Matcher) (hw : 0 < M.width) (hh : 0 < M.height) (d : Dir) (s : Pt) (k i : Nat) (hs : s ∈ starts M.width M.height d)
    (hk : k < lineLength M.width M.height d s) (hi : i < (M.range (along d s k)).num.toNat) :
    sumAt (along d s k) i ((starts M.width M.height d).flatMap fun s => taskAdds M d s) = at' (pass M d s k).1 i := by
  rw [sumAt_flatMap]
  rw [sum_single _ (starts_nodup _ _ _) s hs]
  · unfold taskAdds
    rw [sumAt_flatMap, sum_single _ List.nodup_range k (by simpa using hk)]
    · unfold sumAt
      rw [List.map_map, sum_single _ List.nodup_range i (by simpa using hi)]
      · simp
      · intro j _ hj
        simp only [Function.comp]
        rw [if_neg (fun hc => hj hc.2.symm)]
    · intro k' _ hk'
      unfold sumAt
      rw [List.map_map, List.sum_eq_zero_iff]
      intro x hx
      rw [List.mem_map] at hx
      obtain ⟨j, _, rfl⟩ := hx
      simp only [Function.comp]
      rw [if_neg]
      rintro ⟨hc, _⟩
      exact hk' (on_one_line _ _ hw hh d s s k' k hs hs hc.symm).2
  · intro t ht hts
    unfold taskAdds
    rw [sumAt_flatMap, List.sum_eq_zero_iff]
    intro x hx
    rw [List.mem_map] at hx
    obtain ⟨k', _, rfl⟩ := hx
    unfold sumAt
    rw [List.map_map, List.sum_eq_zero_iff]
    intro x hx
    rw [List.mem_map] at hx
    obtain ⟨j, _, rfl⟩ := hx
    simp only [Function.comp]
    rw [if_neg]
    rintro ⟨hc, _⟩
    exact hts (on_one_line _ _ hw hh d t s k' k ht hs hc.symm).1

/-- **The accumulated cost is the sum of the path costs of the eight directions**, in whatever order the additions of the tasks happen; it
does not overflow if p2 is at most 7936. -/
theorem accum_sum (M : Matcher) (hM : M.Ok) (hw : 0 < M.width) (hh : 0 < M.height) (hp : M.P.p2 ≤ 7936) (l : List Add) (hl : l.Perm (allAdds M))
    (q : Pt) (hq : inImage M.width M.height q) : ∃ (s : Dir → Pt) (k : Dir → Nat),
      (∀ d, s d ∈ starts M.width M.height d ∧ along d (s d) (k d) = q) ∧
      ∀ e, (M.range q).has e → (l.foldl Accum.add fun _ _ => 0) q ((M.range q).disps.idxOf e) =
        (dirs.map fun d => pathCost M d (s d) (k d) e).sum := by
  have hex : ∀ d, ∃ p : Pt × Nat, p.1 ∈ starts M.width M.height d ∧ along d p.1 p.2 = q := by
    intro d
    obtain ⟨s, k, h1, h2⟩ := on_line M.width M.height d q hq
    exact ⟨(s, k), h1, h2⟩
  choose p hp1 using hex
  refine ⟨fun d => (p d).1, fun d => (p d).2, hp1, ?_⟩
  intro e he
  have hidx : (M.range q).disps.idxOf e < (M.range q).disps.length := List.idxOf_lt_length_of_mem ((mem_disps _ e).2 he)
  have hnum := disps_le_num (M.range q)
  rw [fold_add l _ q _ (by decide), sumAt_perm _ _ hl]
  unfold allAdds
  rw [sumAt_flatMap, Nat.zero_add]
  have hterm : ∀ d, sumAt q ((M.range q).disps.idxOf e) ((starts M.width M.height d).flatMap fun s => taskAdds M d s) =
      pathCost M d (p d).1 (p d).2 e := by
    intro d
    obtain ⟨h1, h2⟩ := hp1 d
    have hk : (p d).2 < lineLength M.width M.height d (p d).1 :=
      (lineLength_spec _ _ d _ (starts_in _ _ hw hh d _ h1) _).2 (by rw [h2]; exact hq)
    have := sumAt_dir M hw hh d (p d).1 (p d).2 ((M.range q).disps.idxOf e) h1 hk (by rw [h2]; omega)
    rw [h2] at this
    rw [this]
    unfold pathCost costOf at'
    rw [h2]
  simp only [hterm]
  have hb : ∀ d, pathCost M d (p d).1 (p d).2 e ≤ 255 + M.P.p2 := by
    intro d
    have := (pathCost_bound M hM d (p d).1 (p d).2 e (by rw [(hp1 d).2]; exact he)).2.2
    rw [bad_eq _ hM.params] at this
    exact this
  simp only [dirs, List.map_cons, List.map_nil, List.sum_cons, List.sum_nil]
  have := hb .B; have := hb .T; have := hb .R; have := hb .L
  have := hb .BR; have := hb .BL; have := hb .TR; have := hb .TL
  unfold u16
  omega

/-! ### Buffers -/

theorem bufferStarts_fold (nums : List Int) : nums.foldl (fun (st : List Int × Int) n => (st.1 ++ [st.2], st.2 + n)) ([], 0) =
    ((List.range nums.length).map fun i => (nums.take i).sum, nums.sum) := by
  induction nums using List.reverseRecOn with
  | nil => rfl
  | append_singleton L x ih =>
    rw [List.foldl_append, ih]
    simp only [List.foldl_cons, List.foldl_nil, List.length_append, List.length_singleton, List.range_succ, List.map_append, List.map_cons,
      List.map_nil, List.sum_append, List.sum_cons, List.sum_nil, Int.add_zero]
    congr 1
    congr 1
    · apply List.map_congr_left
      intro i hi
      rw [List.mem_range] at hi
      rw [List.take_append_of_le_length (by omega)]
    · rw [List.take_append_of_le_length (by omega), List.take_length]

theorem sum_nonneg' (l : List Int) (h : ∀ n ∈ l, 0 ≤ n) : 0 ≤ l.sum := by
  induction l with
  | nil => simp
  | cons x l ih =>
    rw [List.sum_cons]
    have := h x (by simp)
    have := ih (fun n hn => h n (by simp [hn]))
    omega

/-- **The vectors of the pixels do not overlap and lie in the buffer.** -/
theorem buffer_disjoint (nums : List Int) (h0 : ∀ n ∈ nums, 0 ≤ n) (i j : Nat) (hij : i < j) (hj : j < nums.length) :
    let r := bufferStarts nums
    r.1.length = nums.length ∧ 0 ≤ r.1.getD i 0 ∧ r.1.getD i 0 + nums.getD i 0 ≤ r.1.getD j 0 ∧ r.1.getD j 0 + nums.getD j 0 ≤ r.2 := by
  intro r
  have hr : r = ((List.range nums.length).map fun i => (nums.take i).sum, if nums.sum < 6 then 6 else nums.sum) := by
    show bufferStarts nums = _
    unfold bufferStarts
    rw [bufferStarts_fold]
  have g : ∀ k, k < nums.length → r.1.getD k 0 = (nums.take k).sum := by
    intro k hk
    rw [hr]
    simp [List.getD_eq_getElem?_getD, hk]
  have hstep : ∀ k (hk : k < nums.length), (nums.take (k + 1)).sum = (nums.take k).sum + nums.getD k 0 := by
    intro k hk
    rw [List.take_succ_eq_append_getElem hk, List.sum_append, List.getD_eq_getElem?_getD, List.getElem?_eq_getElem hk]
    simp
  have hmono : ∀ a b, a ≤ b → (nums.take a).sum ≤ (nums.take b).sum := by
    intro a b hab
    have : nums.take b = nums.take a ++ (nums.drop a).take (b - a) := by
      have := List.take_add (l := nums) (i := a) (j := b - a)
      rw [← this]
      congr 1
      omega
    rw [this, List.sum_append]
    have := sum_nonneg' ((nums.drop a).take (b - a)) (fun n hn => h0 n (List.mem_of_mem_drop (List.mem_of_mem_take hn)))
    omega
  refine ⟨by rw [hr]; simp, ?_, ?_, ?_⟩
  · rw [g i (by omega)]
    exact sum_nonneg' _ (fun n hn => h0 n (List.mem_of_mem_take hn))
  · rw [g i (by omega), g j hj, ← hstep i (by omega)]
    exact hmono _ _ (by omega)
  · rw [g j hj, ← hstep j hj]
    have h1 := hmono (j + 1) nums.length (by omega)
    rw [List.take_length] at h1
    rw [hr]
    dsimp only
    split <;> omega

/-- **A line always fits the line buffer**: `Ran out of memory in the small buffer` is never thrown. -/
theorem line_fits (M : Matcher) (hin : ∀ q, (M.range q).inside M.P) (hwf : ∀ q, 0 ≤ (M.range q).x1 - (M.range q).x0 + 1 ∧ 0 ≤ (M.range q).y1 - (M.range q).y0 + 1)
    (hw : 0 < M.width) (hh : 0 < M.height) (d : Dir) (s : Pt) (hs : s ∈ starts M.width M.height d) :
    ((linePixels M.width M.height d s).map fun q => (M.range q).num).sum ≤
      oneBufSize M.width.toNat M.height.toNat (M.P.numX * M.P.numY).toNat
        (bufferStarts ((rowMajor M.width M.height).map fun q => (M.range q).num)).2.toNat := by
  have hnn : ∀ q, 0 ≤ (M.range q).num := by
    intro q
    unfold Range.num
    exact Int.mul_nonneg (hwf q).1 (hwf q).2
  have h0 := starts_in _ _ hw hh d s hs
  -- against the whole image
  have hsub : (linePixels M.width M.height d s).Subperm (rowMajor M.width M.height) := by
    have hnd : (linePixels M.width M.height d s).Nodup := by
      unfold linePixels
      refine List.Nodup.map_on ?_ List.nodup_range
      intro a _ b _ hab
      exact (on_one_line _ _ hw hh d s s a b hs hs hab).2
    refine List.subperm_of_subset hnd ?_
    intro q hq
    unfold linePixels at hq
    rw [List.mem_map] at hq
    obtain ⟨k, hk, rfl⟩ := hq
    rw [List.mem_range] at hk
    rw [mem_rowMajor]
    exact (lineLength_spec _ _ d s h0 k).1 hk
  have hall : ((linePixels M.width M.height d s).map fun q => (M.range q).num).sum ≤ ((rowMajor M.width M.height).map fun q => (M.range q).num).sum := by
    obtain ⟨l, hl, hlsub⟩ := hsub
    rw [← (hl.map fun q => (M.range q).num).sum_eq]
    exact (hlsub.map _).sum_le_sum (by
      intro x hx
      rw [List.mem_map] at hx
      obtain ⟨q, _, rfl⟩ := hx
      exact hnn q)
  -- against the longest line
  have hnum : ∀ q, (M.range q).num ≤ ((M.P.numX * M.P.numY).toNat : Int) := by
    intro q
    by_cases he : ∃ e, (M.range q).has e
    · obtain ⟨e, he⟩ := he
      have hw' := hwf q
      unfold Range.has at he
      have h1 := hin q ((M.range q).x0, (M.range q).y0) (by unfold Range.has; dsimp only; omega)
      have h2 := hin q ((M.range q).x1, (M.range q).y1) (by unfold Range.has; dsimp only; omega)
      dsimp only at h1 h2
      unfold Range.num Params.numX Params.numY
      have : ((M.range q).x1 - (M.range q).x0 + 1) * ((M.range q).y1 - (M.range q).y0 + 1) ≤
          (M.P.maxX - M.P.minX + 1) * (M.P.maxY - M.P.minY + 1) := Int.mul_le_mul (by omega) (by omega) (by omega) (by omega)
      omega
    · have hw' := hwf q
      have : (M.range q).x1 - (M.range q).x0 + 1 = 0 ∨ (M.range q).y1 - (M.range q).y0 + 1 = 0 := by
        by_contra hc
        rw [not_or] at hc
        exact he ⟨((M.range q).x0, (M.range q).y0), by unfold Range.has; dsimp only; omega⟩
      unfold Range.num
      rcases this with h | h <;> rw [h] <;> simp
  have hlen : lineLength M.width M.height d s ≤ Nat.sqrt (M.width.toNat * M.width.toNat + M.height.toNat * M.height.toNat) + 1 := by
    by_contra hc
    set r := Nat.sqrt (M.width.toNat * M.width.toNat + M.height.toNat * M.height.toNat) with hr
    have hin' := (lineLength_spec _ _ d s h0 (r + 1)).1 (by omega)
    have h2 := along_lt _ _ d s (r + 1) h0 hin'
    have h3 : M.width.toNat ≤ r := by
      rw [hr, Nat.le_sqrt]
      omega
    have h4 : M.height.toNat ≤ r := by
      rw [hr, Nat.le_sqrt]
      omega
    omega
  have hline : ((linePixels M.width M.height d s).map fun q => (M.range q).num).sum ≤
      (((Nat.sqrt (M.width.toNat * M.width.toNat + M.height.toNat * M.height.toNat) + 1) * (M.P.numX * M.P.numY).toNat : Nat) : Int) := by
    have h1 : ∀ l : List Pt, (l.map fun q => (M.range q).num).sum ≤ ((l.length * (M.P.numX * M.P.numY).toNat : Nat) : Int) := by
      intro l
      induction l with
      | nil => simp
      | cons x l ih =>
        rw [List.map_cons, List.sum_cons, List.length_cons, Nat.succ_mul]
        have := hnum x
        push_cast at *
        omega
    refine le_trans (h1 _) ?_
    have : (linePixels M.width M.height d s).length = lineLength M.width M.height d s := by unfold linePixels; simp
    rw [this]
    exact_mod_cast Nat.mul_le_mul_right _ hlen
  have hmain : ((rowMajor M.width M.height).map fun q => (M.range q).num).sum ≤
      ((bufferStarts ((rowMajor M.width M.height).map fun q => (M.range q).num)).2.toNat : Int) := by
    unfold bufferStarts
    rw [bufferStarts_fold]
    dsimp only
    split <;> omega
  unfold oneBufSize
  dsimp only
  split <;> omega

end VW.SGM
