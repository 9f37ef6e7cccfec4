import Verif.Colormap.Model
import Mathlib.Tactic.Linarith
import Mathlib.Tactic.FieldSimp
import Mathlib.Tactic.Ring
import Mathlib.Data.List.Induction
/-
C174: colour maps.
-/
namespace VW.Colormap

/-- The entries are in ascending order of keys. -/
def Sorted (m : List Entry) : Prop := m.Pairwise fun a b => a.1 < b.1

theorem sorted_unique {m : List Entry} (h : Sorted m) {a b : Entry} (ha : a ∈ m) (hb : b ∈ m) (e : a.1 = b.1) : a = b := by
  induction m with
  | nil => exact absurd ha List.not_mem_nil
  | cons x l ih =>
    obtain ⟨h1, h2⟩ := List.pairwise_cons.mp h
    rcases List.mem_cons.mp ha with ha | ha <;> rcases List.mem_cons.mp hb with hb | hb
    · rw [ha, hb]
    · have := h1 b hb; rw [ha] at e; linarith
    · have := h1 a ha; rw [hb] at e; linarith
    · exact ih h2 ha hb

theorem bounds_spec (val : ℚ) (m : List Entry) (h : Sorted m) (prev : Option Entry) :
    (((bounds val prev m).1 = prev ∧ ∀ e ∈ m, val < e.1) ∨
      ∃ b ∈ m, (bounds val prev m).1 = some b ∧ b.1 ≤ val ∧ ∀ e ∈ m, e.1 ≤ val → e.1 ≤ b.1) ∧
    (((bounds val prev m).2 = none ∧ ∀ e ∈ m, e.1 ≤ val) ∨
      ∃ t ∈ m, (bounds val prev m).2 = some t ∧ val < t.1 ∧ ∀ e ∈ m, val < e.1 → t.1 ≤ e.1) := by
  induction m generalizing prev with
  | nil => exact ⟨Or.inl ⟨rfl, fun e he => absurd he List.not_mem_nil⟩, Or.inl ⟨rfl, fun e he => absurd he List.not_mem_nil⟩⟩
  | cons x l ih =>
    obtain ⟨h1, h2⟩ := List.pairwise_cons.mp h
    rw [bounds]
    by_cases hx : val < x.1
    · rw [if_pos hx]
      refine ⟨Or.inl ⟨rfl, ?_⟩, Or.inr ⟨x, List.mem_cons_self, rfl, hx, ?_⟩⟩
      · intro e he
        rcases List.mem_cons.mp he with rfl | he
        · exact hx
        · exact lt_trans hx (h1 e he)
      · intro e he _
        rcases List.mem_cons.mp he with rfl | he
        · exact le_refl _
        · exact (h1 e he).le
    · rw [if_neg hx]
      have hx' := not_lt.mp hx
      obtain ⟨hb, ht⟩ := ih h2 (some x)
      constructor
      · right
        rcases hb with ⟨e1, e2⟩ | ⟨b, hb1, hb2, hb3, hb4⟩
        · refine ⟨x, List.mem_cons_self, e1, hx', ?_⟩
          intro e he hle
          rcases List.mem_cons.mp he with rfl | he
          · exact le_refl _
          · exact absurd hle (not_le.mpr (e2 e he))
        · refine ⟨b, List.mem_cons_of_mem _ hb1, hb2, hb3, ?_⟩
          intro e he hle
          rcases List.mem_cons.mp he with rfl | he
          · exact (h1 b hb1).le
          · exact hb4 e he hle
      · rcases ht with ⟨e1, e2⟩ | ⟨t, ht1, ht2, ht3, ht4⟩
        · left
          refine ⟨e1, ?_⟩
          intro e he
          rcases List.mem_cons.mp he with rfl | he
          · exact hx'
          · exact e2 e he
        · right
          refine ⟨t, List.mem_cons_of_mem _ ht1, ht2, ht3, ?_⟩
          intro e he hlt
          rcases List.mem_cons.mp he with rfl | he
          · exact absurd hlt hx
          · exact ht4 e he hlt

theorem round_near (q : ℚ) : |(round q : ℚ) - q| ≤ 1 / 2 := by
  unfold round
  rw [abs_le]
  by_cases h : 0 ≤ q
  · rw [if_pos h]
    have a := Int.floor_le (q + 1 / 2)
    have b := Int.lt_floor_add_one (q + 1 / 2)
    constructor <;> linarith
  · rw [if_neg h]
    have a := Int.le_ceil (q - 1 / 2)
    have b := Int.ceil_lt_add_one (q - 1 / 2)
    constructor <;> linarith

/-- Rounding stays between integers. -/
theorem round_between (q : ℚ) (a b : Int) (ha : (a : ℚ) ≤ q) (hb : q ≤ b) : a ≤ round q ∧ round q ≤ b := by
  have h := abs_le.mp (round_near q)
  constructor
  · by_contra hc
    have : (round q : ℚ) + 1 ≤ a := by exact_mod_cast (by omega : round q + 1 ≤ a)
    linarith [h.1]
  · by_contra hc
    have : (b : ℚ) + 1 ≤ round q := by exact_mod_cast (by omega : b + 1 ≤ round q)
    linarith [h.2]

theorem clamp_spec (v : ℚ) : 0 ≤ clamp v ∧ clamp v ≤ 1 ∧ (0 ≤ v → v ≤ 1 → clamp v = v) ∧ (v ≤ 0 → clamp v = 0) ∧
    (1 ≤ v → clamp v = 1) := by
  unfold clamp
  dsimp only
  by_cases h1 : v > 1
  · rw [if_pos h1, if_neg (by norm_num)]
    exact ⟨by norm_num, le_refl _, fun _ h => by linarith, fun h => by linarith, fun _ => rfl⟩
  · rw [if_neg h1]
    have h1' := not_lt.mp h1
    by_cases h0 : v < 0
    · rw [if_pos h0]
      exact ⟨le_refl _, by norm_num, fun h => by linarith, fun _ => rfl, fun h => by linarith⟩
    · rw [if_neg h0]
      exact ⟨not_lt.mp h0, h1', fun _ _ => rfl, fun h => le_antisymm h (not_lt.mp h0), fun h => le_antisymm h1' h⟩

/-- **C174 (colours)**: for every map and value, with the value moved into [0, 1]: the colour of a key is that of its entry;
between two keys it is within a half of the straight line between their colours, and between them; above the last key it is
that of the last; and there is a colour exactly if some key is not above the value. -/
theorem colorAt_spec (m : List Entry) (h : Sorted m) (v : ℚ) :
    (colorAt m v = none ↔ ∀ e ∈ m, clamp v < e.1) ∧
    (∀ c, (clamp v, c) ∈ m → colorAt m v = some c) ∧
    (∀ b ∈ m, ∀ t ∈ m, b.1 ≤ clamp v → clamp v < t.1 → (∀ e ∈ m, e.1 ≤ b.1 ∨ t.1 ≤ e.1) →
      ∃ x, colorAt m v = some x ∧
        |(x : ℚ) - (b.2 + (clamp v - b.1) / (t.1 - b.1) * (t.2 - b.2))| ≤ 1 / 2 ∧ min b.2 t.2 ≤ x ∧ x ≤ max b.2 t.2) ∧
    (∀ b ∈ m, (∀ e ∈ m, e.1 ≤ b.1) → b.1 ≤ clamp v → colorAt m v = some b.2) := by
  obtain ⟨hb, ht⟩ := bounds_spec (clamp v) m h none
  unfold colorAt
  dsimp only
  generalize clamp v = val at *
  generalize bounds val none m = bt at *
  obtain ⟨bo, tp⟩ := bt
  dsimp only at hb ht
  rcases hb with ⟨rfl, hall⟩ | ⟨b, hb1, rfl, hb3, hb4⟩
  · dsimp only
    refine ⟨⟨fun _ => hall, fun _ => rfl⟩, ?_, ?_, ?_⟩
    · intro c hc; exact absurd (hall _ hc) (lt_irrefl _)
    · intro b hb _ _ hle; exact absurd (hall b hb) (not_lt.mpr hle)
    · intro b hb _ hle; exact absurd (hall b hb) (not_lt.mpr hle)
  · rcases ht with ⟨rfl, hall⟩ | ⟨t, ht1, rfl, ht3, ht4⟩
    · dsimp only
      refine ⟨⟨fun h => absurd h (by simp), fun h => absurd (h b hb1) (not_lt.mpr hb3)⟩, ?_, ?_, ?_⟩
      · intro c hc
        have e : val = b.1 := le_antisymm (hb4 _ hc (le_refl _)) hb3
        have := sorted_unique h hc hb1 e
        rw [← this]
      · intro _ _ t ht _ hlt; exact absurd hlt (not_lt.mpr (hall t ht))
      · intro b' hb' hmax _
        have := sorted_unique h hb1 hb' (le_antisymm (hmax b hb1) (hb4 b' hb' (hall b' hb')))
        rw [this]
    · dsimp only
      refine ⟨⟨fun h => absurd h (by simp), fun h => absurd (h b hb1) (not_lt.mpr hb3)⟩, ?_, ?_, ?_⟩
      · intro c hc
        have e : val = b.1 := le_antisymm (hb4 _ hc (le_refl _)) hb3
        have := sorted_unique h hc hb1 e
        have hz : (val - b.1) / (t.1 - b.1) * ((t.2 : ℚ) - b.2) = 0 := by rw [e, sub_self, zero_div, zero_mul]
        have hr : round 0 = 0 := by
          have := round_between 0 0 0 (by norm_num) (by norm_num); omega
        rw [hz, hr, ← this, add_zero]
      · intro b' hb' t' ht' h1 h2 h3
        have eb : b' = b := by
          refine sorted_unique h hb' hb1 (le_antisymm (hb4 b' hb' h1) ?_)
          rcases h3 b hb1 with h | h
          · exact h
          · linarith
        have et : t' = t := by
          refine sorted_unique h ht' ht1 (le_antisymm ?_ (ht4 t' ht' h2))
          rcases h3 t ht1 with h | h
          · linarith
          · exact h
        subst eb et
        refine ⟨_, rfl, ?_, ?_⟩
        · have := round_near ((val - b'.1) / (t'.1 - b'.1) * ((t'.2 : ℚ) - b'.2))
          push_cast
          rwa [show ((b'.2 : ℚ) + round ((val - b'.1) / (t'.1 - b'.1) * ((t'.2 : ℚ) - b'.2))) -
            (b'.2 + (val - b'.1) / (t'.1 - b'.1) * ((t'.2 : ℚ) - b'.2)) =
            round ((val - b'.1) / (t'.1 - b'.1) * ((t'.2 : ℚ) - b'.2)) - (val - b'.1) / (t'.1 - b'.1) * ((t'.2 : ℚ) - b'.2) by
            ring]
        · have hd : 0 < t'.1 - b'.1 := by linarith
          have r0 : 0 ≤ (val - b'.1) / (t'.1 - b'.1) := div_nonneg (by linarith) hd.le
          have r1 : (val - b'.1) / (t'.1 - b'.1) ≤ 1 := by rw [div_le_one hd]; linarith
          generalize (val - b'.1) / (t'.1 - b'.1) = r at r0 r1
          rcases le_total b'.2 t'.2 with hc | hc
          · have hcq : (b'.2 : ℚ) ≤ t'.2 := by exact_mod_cast hc
            have := round_between (r * ((t'.2 : ℚ) - b'.2)) 0 (t'.2 - b'.2) (by push_cast; nlinarith) (by push_cast; nlinarith)
            rw [min_eq_left hc, max_eq_right hc]; omega
          · have hcq : (t'.2 : ℚ) ≤ b'.2 := by exact_mod_cast hc
            have := round_between (r * ((t'.2 : ℚ) - b'.2)) (t'.2 - b'.2) 0 (by push_cast; nlinarith) (by push_cast; nlinarith)
            rw [min_eq_right hc, max_eq_left hc]; omega
      · intro b' _ hmax hle
        have := hmax t ht1
        linarith

theorem mem_assign (k : ℚ) (c : Int) (m : List Entry) (h : Sorted m) :
    Sorted (assign k c m) ∧ ∀ e : Entry, e ∈ assign k c m ↔ (e = (k, c) ∨ (e ∈ m ∧ e.1 ≠ k)) := by
  induction m with
  | nil =>
    refine ⟨List.pairwise_singleton _ _, fun e => ?_⟩
    simp [assign]
  | cons x l ih =>
    obtain ⟨h1, h2⟩ := List.pairwise_cons.mp h
    obtain ⟨s, hm⟩ := ih h2
    rw [assign]
    by_cases a : k < x.1
    · rw [if_pos a]
      refine ⟨List.pairwise_cons.mpr ⟨?_, h⟩, fun e => ?_⟩
      · intro e he
        rcases List.mem_cons.mp he with rfl | he
        · exact a
        · exact lt_trans a (h1 e he)
      · rw [List.mem_cons]
        constructor
        · rintro (he | he)
          · exact Or.inl he
          · refine Or.inr ⟨he, ?_⟩
            rcases List.mem_cons.mp he with rfl | he
            · exact ne_of_gt a
            · exact ne_of_gt (lt_trans a (h1 e he))
        · rintro (he | he)
          · exact Or.inl he
          · exact Or.inr he.1
    · rw [if_neg a]
      by_cases b : k = x.1
      · rw [if_pos b]
        refine ⟨List.pairwise_cons.mpr ⟨fun e he => by rw [b]; exact h1 e he, h2⟩, fun e => ?_⟩
        rw [List.mem_cons, List.mem_cons]
        constructor
        · rintro (he | he)
          · exact Or.inl he
          · exact Or.inr ⟨Or.inr he, by rw [b]; exact ne_of_gt (h1 e he)⟩
        · rintro (he | ⟨rfl | he, hne⟩)
          · exact Or.inl he
          · exact absurd b.symm hne
          · exact Or.inr he
      · rw [if_neg b]
        have a' : x.1 < k := lt_of_le_of_ne (not_lt.mp a) (Ne.symm b)
        refine ⟨List.pairwise_cons.mpr ⟨?_, s⟩, fun e => ?_⟩
        · intro e he
          rcases (hm e).mp he with rfl | he
          · exact a'
          · exact h1 e he.1
        · rw [List.mem_cons, List.mem_cons, hm]
          constructor
          · rintro (rfl | he | he)
            · exact Or.inr ⟨Or.inl rfl, ne_of_lt a'⟩
            · exact Or.inl he
            · exact Or.inr ⟨Or.inr he.1, he.2⟩
          · rintro (he | ⟨he | he, hne⟩)
            · exact Or.inr (Or.inl he)
            · exact Or.inl he
            · exact Or.inr (Or.inr ⟨he, hne⟩)

theorem minVal_spec (dmax : ℚ) (lut : List (Key × Int)) :
    (∀ p ∈ lut, minVal dmax lut ≤ p.1.atof) ∧ (minVal dmax lut = dmax ∨ ∃ p ∈ lut, minVal dmax lut = p.1.atof) := by
  unfold minVal
  induction lut using List.reverseRecOn with
  | nil => exact ⟨fun p hp => absurd hp List.not_mem_nil, Or.inl rfl⟩
  | append_singleton l x ih =>
    rw [List.foldl_append, List.foldl_cons, List.foldl_nil]
    generalize l.foldl (fun m p => min m p.1.atof) dmax = s at *
    constructor
    · intro p hp
      rcases List.mem_append.mp hp with hp | hp
      · exact le_trans (min_le_left _ _) (ih.1 p hp)
      · rw [List.mem_singleton.mp hp]; exact min_le_right _ _
    · rcases le_total s x.1.atof with h | h
      · rw [min_eq_left h]
        rcases ih.2 with e | ⟨p, hp, e⟩
        · exact Or.inl e
        · exact Or.inr ⟨p, List.mem_append.mpr (Or.inl hp), e⟩
      · rw [min_eq_right h]; exact Or.inr ⟨x, List.mem_append.mpr (Or.inr List.mem_cons_self), rfl⟩

theorem maxVal_spec (dmax : ℚ) (lut : List (Key × Int)) :
    (∀ p ∈ lut, p.1.atof ≤ maxVal dmax lut) ∧ (maxVal dmax lut = -dmax ∨ ∃ p ∈ lut, maxVal dmax lut = p.1.atof) := by
  unfold maxVal
  induction lut using List.reverseRecOn with
  | nil => exact ⟨fun p hp => absurd hp List.not_mem_nil, Or.inl rfl⟩
  | append_singleton l x ih =>
    rw [List.foldl_append, List.foldl_cons, List.foldl_nil]
    generalize l.foldl (fun m p => max m p.1.atof) (-dmax) = s at *
    constructor
    · intro p hp
      rcases List.mem_append.mp hp with hp | hp
      · exact le_trans (ih.1 p hp) (le_max_left _ _)
      · rw [List.mem_singleton.mp hp]; exact le_max_right _ _
    · rcases le_total x.1.atof s with h | h
      · rw [max_eq_left h]
        rcases ih.2 with e | ⟨p, hp, e⟩
        · exact Or.inl e
        · exact Or.inr ⟨p, List.mem_append.mpr (Or.inl hp), e⟩
      · rw [max_eq_right h]; exact Or.inr ⟨x, List.mem_append.mpr (Or.inr List.mem_cons_self), rfl⟩

/-- The lines of plain numbers `ks`. -/
def plain (ks : List (ℚ × Int)) : List (Key × Int) := ks.map fun p => (Key.num p.1, p.2)

/-- **C174 (files of numbers)**: for every list of lines with plain numbers, among them a least key `lo` and a greatest one
`hi` that differ, the map has for every line an entry at (key - lo) / (hi - lo), and no others; of lines with the same key the
last counts. So the least key is at 0 and the greatest at 1, and every value has a colour. -/
theorem populate_spec_partial (dmax : ℚ) (ks : List (ℚ × Int)) (hd : ∀ p ∈ ks, -dmax < p.1 ∧ p.1 < dmax) (lo hi : ℚ) (cl ch : Int)
    (hl : (lo, cl) ∈ ks) (hh : (hi, ch) ∈ ks) (hlo : ∀ p ∈ ks, lo ≤ p.1) (hhi : ∀ p ∈ ks, p.1 ≤ hi) (hne : lo < hi) :
    ∃ m, populate dmax (plain ks) = some m ∧ Sorted m ∧
      (∀ e : Entry, e ∈ m ↔ ∃ pre k post, ks = pre ++ (k, e.2) :: post ∧ e.1 = (k - lo) / (hi - lo) ∧ ∀ p ∈ post, p.1 ≠ k) ∧
      ∀ v, ∃ x, colorAt m v = some x := by
  have hmin : minVal dmax (plain ks) = lo := by
    obtain ⟨h1, h2⟩ := minVal_spec dmax (plain ks)
    have a : minVal dmax (plain ks) ≤ lo := h1 (Key.num lo, cl) (List.mem_map.mpr ⟨(lo, cl), hl, rfl⟩)
    rcases h2 with e | ⟨p, hp, e⟩
    · have := (hd _ hl).2; rw [e] at a; dsimp only at this; linarith
    · obtain ⟨q, hq, rfl⟩ := List.mem_map.mp hp
      rw [e] at a ⊢
      exact le_antisymm a (hlo q hq)
  have hmax : maxVal dmax (plain ks) = hi := by
    obtain ⟨h1, h2⟩ := maxVal_spec dmax (plain ks)
    have a : hi ≤ maxVal dmax (plain ks) := h1 (Key.num hi, ch) (List.mem_map.mpr ⟨(hi, ch), hh, rfl⟩)
    rcases h2 with e | ⟨p, hp, e⟩
    · have := (hd _ hh).1; rw [e] at a; dsimp only at this; linarith
    · obtain ⟨q, hq, rfl⟩ := List.mem_map.mp hp
      rw [e] at a ⊢
      exact le_antisymm (hhi q hq) a
  have hpos : 0 < hi - lo := by linarith
  have hinj : ∀ a b : ℚ, (a - lo) / (hi - lo) = (b - lo) / (hi - lo) ↔ a = b := by
    intro a b
    constructor
    · intro h; rw [div_left_inj' (ne_of_gt hpos)] at h; linarith
    · intro h; rw [h]
  have key : ∀ ls : List (ℚ × Int), ∃ m, (plain ls).foldl (addLine lo hi) (some []) = some m ∧ Sorted m ∧
      ∀ e : Entry, e ∈ m ↔ ∃ pre k post, ls = pre ++ (k, e.2) :: post ∧ e.1 = (k - lo) / (hi - lo) ∧ ∀ p ∈ post, p.1 ≠ k := by
    intro ls
    induction ls using List.reverseRecOn with
    | nil => exact ⟨[], rfl, List.Pairwise.nil, fun e => by simp⟩
    | append_singleton l x ih =>
      obtain ⟨m, e1, s, hm⟩ := ih
      obtain ⟨s', hm'⟩ := mem_assign ((x.1 - lo) / (hi - lo)) x.2 m s
      refine ⟨_, ?_, s', ?_⟩
      · unfold plain at e1 ⊢
        rw [List.map_append, List.foldl_append, e1]
        simp only [List.map_cons, List.map_nil, List.foldl_cons, List.foldl_nil, addLine]
        rw [if_neg (ne_of_gt hpos)]; rfl
      · intro e
        rw [hm', hm]
        constructor
        · rintro (rfl | ⟨⟨pre, k, post, h1, h2, h3⟩, hne⟩)
          · exact ⟨l, x.1, [], rfl, rfl, fun p hp => absurd hp List.not_mem_nil⟩
          · refine ⟨pre, k, post ++ [x], by rw [h1]; simp, h2, ?_⟩
            intro p hp
            rcases List.mem_append.mp hp with hp | hp
            · exact h3 p hp
            · rw [List.mem_singleton.mp hp]
              intro hc
              exact hne (by rw [h2]; exact (hinj _ _).mpr hc.symm)
        · rintro ⟨pre, k, post, h1, h2, h3⟩
          rcases List.eq_nil_or_concat post with rfl | ⟨post', y, rfl⟩
          · have h := List.append_inj' h1 rfl
            have hx : x = (k, e.2) := (List.cons.inj h.2).1
            left
            rw [hx]
            exact Prod.ext h2 rfl
          · right
            rw [List.concat_eq_append] at h1 h3
            rw [show pre ++ (k, e.2) :: (post' ++ [y]) = (pre ++ (k, e.2) :: post') ++ [y] by simp] at h1
            have h := List.append_inj' h1 rfl
            have hx : x = y := (List.cons.inj h.2).1
            refine ⟨⟨pre, k, post', h.1, h2, fun p hp => h3 p (List.mem_append.mpr (Or.inl hp))⟩, ?_⟩
            rw [h2]
            intro hc
            have := (hinj _ _).mp hc
            exact h3 y (List.mem_append.mpr (Or.inr List.mem_cons_self)) (by rw [← hx]; exact this.symm)
  obtain ⟨m, e1, s, hm⟩ := key ks
  refine ⟨m, by unfold populate; rw [hmin, hmax]; exact e1, s, hm, ?_⟩
  intro v
  have h0 : ∃ c, ((0 : ℚ), c) ∈ m := by
    -- the last line with the least key
    have : ∀ ls : List (ℚ × Int), (∃ c, (lo, c) ∈ ls) → ∃ pre c post, ls = pre ++ (lo, c) :: post ∧ ∀ p ∈ post, p.1 ≠ lo := by
      intro ls
      induction ls with
      | nil => rintro ⟨c, hc⟩; exact absurd hc List.not_mem_nil
      | cons y l ih =>
        rintro ⟨c, hc⟩
        by_cases hl : ∃ c, (lo, c) ∈ l
        · obtain ⟨pre, c', post, h1, h2⟩ := ih hl
          exact ⟨y :: pre, c', post, by rw [h1]; rfl, h2⟩
        · rcases List.mem_cons.mp hc with rfl | hc
          · refine ⟨[], c, l, rfl, ?_⟩
            intro p hp e
            exact hl ⟨p.2, by rw [← e]; exact hp⟩
          · exact absurd ⟨c, hc⟩ hl
    obtain ⟨pre, c, post, h1, h2⟩ := this ks ⟨cl, hl⟩
    exact ⟨c, (hm _).mpr ⟨pre, lo, post, h1, by simp, h2⟩⟩
  obtain ⟨c, hc⟩ := h0
  cases hx : colorAt m v with
  | some x => exact ⟨x, rfl⟩
  | none =>
    have := ((colorAt_spec m s v).1.mp hx) _ hc
    have h := (clamp_spec v).1
    dsimp only at this
    linarith

/-- **Discrepancy**: a map whose first key is above 0, as a file of percentages may give, has no colour for lower values: the
code steps before its first entry. -/
theorem below_first : populate 1000 [(.pct 10, 0), (.pct 90, 255)] = some [(1 / 10, 0), (9 / 10, 255)] ∧
    colorAt [(1 / 10, 0), (9 / 10, 255)] (1 / 20) = none := by
  constructor <;> decide +kernel

/-- **Discrepancy**: plain numbers that are all equal, as in a file of one line, give a division by 0. -/
theorem one_key (dmax k : ℚ) (c : Int) (hk : -dmax < k ∧ k < dmax) : populate dmax [(.num k, c)] = none := by
  have h1 : minVal dmax [(.num k, c)] = k := by
    simp only [minVal, List.foldl_cons, List.foldl_nil, Key.atof]; exact min_eq_right hk.2.le
  have h2 : maxVal dmax [(.num k, c)] = k := by
    simp only [maxVal, List.foldl_cons, List.foldl_nil, Key.atof]; exact max_eq_right hk.1.le
  unfold populate
  rw [h1, h2, List.foldl_cons, List.foldl_nil, addLine]
  simp

/-- **Discrepancy**: a line that is skipped for its key still counts as key 0 for the least or greatest key: with keys 100 and
200 and a line "nv", the key 100 is put at 1/2 and the map has no colour below. -/
theorem skipped_counts : populate 1000 [(.bad 0, 9), (.num 100, 1), (.num 200, 2)] = some [(1 / 2, 1), (1, 2)] := by
  decide +kernel

/-- **Discrepancy**: the last line of a file is lost if it has no end of line. -/
theorem last_line_lost (blank : List Char → Bool) (file line : List Char) (hl : '\n' ∉ line) (hf : file = [] ∨ file.getLast? = some '\n') :
    lutLines blank [] (file ++ line) = lutLines blank [] file := by
  have tail : ∀ (line cur : List Char), '\n' ∉ line → lutLines blank cur line = [] := by
    intro line
    induction line with
    | nil => intro cur _; rfl
    | cons c cs ih =>
      intro cur h
      rw [lutLines, if_neg (fun e => h (by rw [e]; exact List.mem_cons_self))]
      exact ih _ (fun e => h (List.mem_cons_of_mem _ e))
  have key : ∀ (file cur : List Char), file.getLast? = some '\n' → lutLines blank cur (file ++ line) = lutLines blank cur file := by
    intro file
    induction file with
    | nil => intro cur h; simp at h
    | cons c cs ih =>
      intro cur h
      rw [List.cons_append, lutLines, lutLines]
      cases cs with
      | nil =>
        have hc : c = '\n' := by simpa using h
        rw [if_pos hc, if_pos hc, List.nil_append, tail line [] hl]; rfl
      | cons d ds =>
        have h' : (d :: ds).getLast? = some '\n' := by rw [← h]; rfl
        rw [ih [] h', ih (cur ++ [c]) h']
  rcases hf with rfl | hf
  · rw [List.nil_append, tail line [] hl]; rfl
  · exact key file [] hf

/-- The hypotheses are met: a map with three keys, and a value between two of them. -/
example : populate 100000 (plain [(2000, 200), (1000, 0), (1500, 50)]) = some [(0, 0), (1 / 2, 50), (1, 200)] ∧
    colorAt [(0, 0), (1 / 2, 50), (1, 200)] (3 / 4) = some 125 := by
  constructor <;> decide +kernel

example : Sorted [(0, 0), (1 / 2, 50), (1, 200)] := by
  unfold Sorted
  simp only [List.pairwise_cons, List.mem_cons, List.not_mem_nil, or_false]
  refine ⟨?_, ?_, by simp, List.Pairwise.nil⟩
  · rintro e (rfl | rfl) <;> norm_num
  · rintro e rfl; norm_num

end VW.Colormap
