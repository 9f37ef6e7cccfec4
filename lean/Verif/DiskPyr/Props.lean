import Verif.DiskPyr.Model
import Verif.Stats.Brackets
import Verif.Composite.Props
import Mathlib.Data.List.GetD
import Mathlib.Tactic.Linarith
import Mathlib.Tactic.ByContra
import Mathlib.Tactic.Ring
import Mathlib.Tactic.FieldSimp
import Mathlib.Tactic.Positivity
import Mathlib.Algebra.Order.Field.Basic
/-
Properties C147 (levels of a pyramid on disk), C148 (clip at a scale), C149 (approximate bounds).
-/
namespace VW.DiskPyr
open VW.Composite (Box crop_has empty_iff empty_false)

/-! ### C147: levels -/

/-- The size after `k` levels. -/
def sizeAt (s c : Nat) : Nat → Nat
  | 0 => c
  | k + 1 => nextSize (sizeAt s c k) s

theorem nextSize_le {c s : Nat} (hs : 2 ≤ s) : 2 * nextSize c s ≤ c + 1 := by
  unfold nextSize
  have h := Nat.div_mul_le_self (2 * c + s) (2 * s)
  generalize (2 * c + s) / (2 * s) = n at h ⊢
  by_contra hc
  have h1 : c + 2 ≤ 2 * n := by omega
  have h2 : n * (2 * s) = 2 * n * s := by ring
  have h3 : (c + 2) * s ≤ 2 * n * s := Nat.mul_le_mul_right _ h1
  have h4 : (c + 1) * 2 ≤ (c + 1) * s := Nat.mul_le_mul_left _ hs
  nlinarith

theorem nextSize_lt {c s : Nat} (hs : 2 ≤ s) (hc : 2 ≤ c) : nextSize c s < c := by
  have := nextSize_le (c := c) hs; omega

/-- The loop ends: with a limit of at least one pixel as many turns as there are columns and rows are enough. -/
theorem loop_ends {s limit : Nat} (hs : 2 ≤ s) (hl : 1 ≤ limit) : ∀ (fuel c r scale : Nat), c + r < fuel →
    ∃ l, loop fuel s limit c r scale = some l := by
  intro fuel
  induction fuel with
  | zero => intro c r _ h; omega
  | succ fuel ih =>
    intro c r scale h
    unfold loop
    by_cases hc : c * r > limit
    · rw [if_pos hc]
      have h1 : 1 ≤ c := by rcases Nat.eq_zero_or_pos c with h | h; subst h; simp at hc; exact h
      have h2 : 1 ≤ r := by rcases Nat.eq_zero_or_pos r with h | h; subst h; simp at hc; exact h
      have hbig : 2 ≤ c ∨ 2 ≤ r := by
        by_contra hn
        have e1 : c = 1 := by omega
        have e2 : r = 1 := by omega
        subst e1 e2; omega
      have a := nextSize_le (c := c) hs
      have b := nextSize_le (c := r) hs
      obtain ⟨l, hl⟩ := ih (nextSize c s) (nextSize r s) (scale * s) (by omega)
      exact ⟨_, by rw [hl]; rfl⟩
    · rw [if_neg hc]; exact ⟨_, rfl⟩

/-- The levels of a pyramid with factor `s` over an image of `c` by `r` pixels, beginning at `scale`. -/
structure IsPyramid (s limit c r scale : Nat) (l : List Level) : Prop where
  nonempty : 0 < l.length
  level : ∀ k (h : k < l.length), l[k] = { cols := sizeAt s c k, rows := sizeAt s r k, scale := scale * s ^ k }
  large : ∀ k (h : k < l.length), k + 1 < l.length → limit < (l[k]).cols * (l[k]).rows
  small : ∀ (h : l.length - 1 < l.length), (l[l.length - 1]).cols * (l[l.length - 1]).rows ≤ limit

theorem sizeAt_next (s c k : Nat) : sizeAt s (nextSize c s) k = sizeAt s c (k + 1) := by
  induction k with
  | zero => rfl
  | succ k ih => show nextSize (sizeAt s (nextSize c s) k) s = nextSize (sizeAt s c (k + 1)) s; rw [ih]

theorem loop_spec {s limit : Nat} : ∀ (fuel c r scale : Nat) (l : List Level), loop fuel s limit c r scale = some l →
    IsPyramid s limit c r scale l := by
  intro fuel
  induction fuel with
  | zero => intro c r scale l h; simp [loop] at h
  | succ fuel ih =>
    intro c r scale l h
    unfold loop at h
    by_cases hc : c * r > limit
    · rw [if_pos hc, Option.map_eq_some_iff] at h
      obtain ⟨l', h', rfl⟩ := h
      have := ih _ _ _ _ h'
      obtain ⟨h1, h2, h3, h4⟩ := this
      refine ⟨by simp, ?_, ?_, ?_⟩
      · intro k hk
        cases k with
        | zero => simp [sizeAt]
        | succ k =>
          simp only [List.length_cons] at hk
          rw [List.getElem_cons_succ, h2 k (by omega), sizeAt_next, sizeAt_next, pow_succ]
          congr 1
          ring
      · intro k hk hk2
        cases k with
        | zero => exact hc
        | succ k =>
          simp only [List.length_cons] at hk hk2
          rw [List.getElem_cons_succ]
          exact h3 k (by omega) (by omega)
      · intro hk
        simp only [List.length_cons, Nat.add_sub_cancel]
        have e : l'.length = (l'.length - 1) + 1 := by omega
        have : ∀ (j : Nat) (hj : j < ({ cols := c, rows := r, scale := scale } :: l').length), j = (l'.length - 1) + 1 →
            (({ cols := c, rows := r, scale := scale } :: l')[j]).cols * (({ cols := c, rows := r, scale := scale } :: l')[j]).rows ≤ limit := by
          rintro j hj rfl
          rw [List.getElem_cons_succ]
          exact h4 (by omega)
        exact this _ _ e
    · rw [if_neg hc] at h
      obtain rfl := Option.some.inj h
      refine ⟨by simp, ?_, ?_, ?_⟩
      · intro k hk
        simp only [List.length_singleton] at hk
        have : k = 0 := by omega
        subst this
        simp [sizeAt]
      · intro k hk hk2
        simp at hk2
      · intro _
        simpa using hc

/-- C147: for every image and every valid choice of factor and limit the pyramid is made: level 0 is the image, the
scales are the powers of the factor, every level but the last has more pixels than the limit, and the last has not. -/
theorem make_spec {s limit c r fuel : Nat} (hs : 2 ≤ s) (hl : 4 ≤ limit) (hf : c + r < fuel) :
    ∃ l, make fuel s limit c r = .levels l ∧ IsPyramid s limit c r 1 l := by
  obtain ⟨l, h⟩ := loop_ends (limit := limit) hs (by omega) fuel c r 1 hf
  refine ⟨l, ?_, loop_spec _ _ _ _ _ h⟩
  unfold make
  rw [if_neg (Nat.not_lt.2 hs), if_neg (Nat.not_lt.2 hl), h]

/-- C147: a factor below 2 or a limit below 4 is refused. -/
theorem make_refuses (fuel s limit c r : Nat) (h : s < 2 ∨ limit < 4) : make fuel s limit c r = .argumentErr := by
  unfold make
  by_cases h1 : s < 2
  · rw [if_pos h1]
  · rw [if_neg h1, if_pos (by omega)]

theorem nextSize_near {c s : Nat} (hs : 2 ≤ s) : |((nextSize c s : Nat) : Rat) - (c : Rat) / s| ≤ 1 / 2 := by
  have hs0 : (0 : Rat) < s := by exact_mod_cast (by omega : 0 < s)
  have h1 := Nat.div_mul_le_self (2 * c + s) (2 * s)
  have h2 := Nat.lt_div_mul_add (a := 2 * c + s) (b := 2 * s) (by omega)
  unfold nextSize
  generalize (2 * c + s) / (2 * s) = n at h1 h2 ⊢
  have h1' : (n : Rat) * (2 * s) ≤ 2 * c + s := by exact_mod_cast h1
  have h2' : (2 * c + s : Rat) < n * (2 * s) + 2 * s := by exact_mod_cast h2
  rw [abs_le]
  constructor
  · rw [le_sub_iff_add_le, ← sub_nonneg]
    have : (n : Rat) - (-(1 / 2) + c / s) = (n * (2 * s) + s - 2 * c) / (2 * s) := by field_simp; ring
    rw [this]
    exact div_nonneg (by linarith) (by linarith)
  · rw [sub_le_iff_le_add, ← sub_nonneg]
    have : (1 / 2 : Rat) + c / s - n = (s + 2 * c - n * (2 * s)) / (2 * s) := by field_simp
    rw [this]
    exact div_nonneg (by linarith) (by linarith)

/-- C147: the size of every level is that of the image divided by the scale, up to less than one pixel. -/
theorem size_near {c s : Nat} (hs : 2 ≤ s) (k : Nat) : |((sizeAt s c k : Nat) : Rat) - (c : Rat) / (s : Rat) ^ k| < 1 := by
  have hs2 : (2 : Rat) ≤ s := by exact_mod_cast hs
  have hs0 : (0 : Rat) < s := by linarith
  induction k with
  | zero => simp [sizeAt]
  | succ k ih =>
    have h1 := nextSize_near (c := sizeAt s c k) hs
    show |((nextSize (sizeAt s c k) s : Nat) : Rat) - (c : Rat) / (s : Rat) ^ (k + 1)| < 1
    have e : ((nextSize (sizeAt s c k) s : Nat) : Rat) - (c : Rat) / (s : Rat) ^ (k + 1) =
        (((nextSize (sizeAt s c k) s : Nat) : Rat) - (sizeAt s c k : Nat) / s) + (((sizeAt s c k : Nat) : Rat) - c / (s : Rat) ^ k) / s := by
      rw [pow_succ]; field_simp; ring
    rw [e]
    have h2 : |(((sizeAt s c k : Nat) : Rat) - c / (s : Rat) ^ k) / s| < 1 / 2 := by
      rw [abs_div, abs_of_pos hs0, div_lt_iff₀ hs0]
      linarith
    refine lt_of_le_of_lt (abs_add_le _ _) ?_
    linarith

/-- C147: with factor 2 no level is empty. -/
theorem size_pos {c : Nat} (hc : 1 ≤ c) (k : Nat) : 1 ≤ sizeAt 2 c k := by
  induction k with
  | zero => exact hc
  | succ k ih =>
    show 1 ≤ nextSize (sizeAt 2 c k) 2
    unfold nextSize
    omega

/-- C147: with a greater factor a narrow image gives a level without columns. -/
theorem empty_level {s limit r : Nat} (hs : 3 ≤ s) (hl : 4 ≤ limit) (hr : limit < r) :
    ∃ l, make (r + 2) s limit 1 r = .levels l ∧ ∃ h : 1 < l.length, (l[1]).cols = 0 := by
  obtain ⟨l, h, hp⟩ := make_spec (s := s) (limit := limit) (c := 1) (r := r) (fuel := r + 2) (by omega) hl (by omega)
  have hlen : 1 < l.length := by
    by_contra hc
    have hn := hp.nonempty
    have e : l.length - 1 = 0 := by omega
    have := hp.small (by omega)
    rw [hp.level (l.length - 1) (by omega), e] at this
    simp [sizeAt] at this
    omega
  refine ⟨l, h, hlen, ?_⟩
  rw [hp.level 1 hlen]
  simp only [sizeAt, nextSize]
  exact Nat.div_eq_of_lt (by omega)

example : loop 100 2 16 37 10 1 = some [⟨37, 10, 1⟩, ⟨19, 5, 2⟩, ⟨10, 3, 4⟩, ⟨5, 2, 8⟩] := by decide +kernel

/-- C147: a file on disk is used again exactly if it exists, opens, is not older than the image, and has the asked size,
if one was asked. -/
theorem overwrite_iff (t : Int) (out : Option File) (cols rows : Int) :
    overwriteIfNoGood t out cols rows = false ↔
      ∃ f, out = some f ∧ f.opens = true ∧ t ≤ f.time ∧ (0 ≤ cols → 0 ≤ rows → f.cols = cols ∧ f.rows = rows) := by
  unfold overwriteIfNoGood
  cases out with
  | none => simp
  | some f =>
    simp only [Option.some.injEq, exists_eq_left']
    cases ho : f.opens
    · simp
    · by_cases ht : f.time < t
      · simp [ht]
      · simp only [not_true, if_false, ht, true_and]
        by_cases hc : cols ≥ 0 ∧ rows ≥ 0
        · rw [if_pos hc]
          by_cases he : f.cols = cols ∧ f.rows = rows
          · rw [if_pos he]; simp [he, not_lt.1 ht]
          · rw [if_neg he]
            simp only [Bool.true_eq_false, false_iff, not_and]
            intro _ hh
            exact he (hh hc.1 hc.2)
        · rw [if_neg hc]
          simp only [true_iff]
          exact ⟨not_lt.1 ht, fun a b => absurd ⟨a, b⟩ hc⟩

/-! ### C148: level and region of a clip -/

theorem levelFrom_spec (scales : List Nat) (sub : Rat) (hinc : scales.Pairwise (· < ·)) : ∀ (fuel level : Nat),
    scales.length ≤ level + fuel → level < scales.length →
    (level = 0 ∨ ((scales.getD level 0 : Nat) : Rat) ≤ sub) →
    levelFrom scales sub fuel level < scales.length ∧
    (levelFrom scales sub fuel level = 0 ∨ ((scales.getD (levelFrom scales sub fuel level) 0 : Nat) : Rat) ≤ sub) ∧
    ∀ j < scales.length, ((scales.getD j 0 : Nat) : Rat) ≤ sub → j ≤ levelFrom scales sub fuel level := by
  intro fuel
  induction fuel with
  | zero => intro level h1 h2; omega
  | succ fuel ih =>
    intro level h1 h2 h3
    unfold levelFrom
    by_cases h4 : level + 1 ≥ scales.length
    · rw [if_pos h4]
      exact ⟨h2, h3, fun j hj _ => by omega⟩
    · rw [if_neg h4]
      by_cases h5 : ((scales.getD (level + 1) 0 : Nat) : Rat) > sub
      · rw [if_pos h5]
        refine ⟨h2, h3, fun j hj hs => ?_⟩
        by_contra hc
        have hle : scales.getD (level + 1) 0 ≤ scales.getD j 0 := by
          rw [List.getD_eq_getElem _ _ (by omega), List.getD_eq_getElem _ _ hj]
          rcases Nat.lt_or_ge (level + 1) j with h | h
          · exact Nat.le_of_lt (List.pairwise_iff_getElem.1 hinc _ _ _ _ h)
          · have : level + 1 = j := by omega
            subst this; exact le_refl _
        have : ((scales.getD (level + 1) 0 : Nat) : Rat) ≤ ((scales.getD j 0 : Nat) : Rat) := by exact_mod_cast hle
        linarith
      · rw [if_neg h5]
        exact ih (level + 1) (by omega) (by omega) (Or.inr (not_lt.1 h5))

/-- C148: the level chosen for a scale is the coarsest one whose scale is not greater, or level 0 if there is none. -/
theorem pyramidLevel_spec (scales : List Nat) (sub : Rat) (hinc : scales.Pairwise (· < ·)) (hne : scales ≠ []) :
    pyramidLevel scales sub < scales.length ∧
    (pyramidLevel scales sub = 0 ∨ ((scales.getD (pyramidLevel scales sub) 0 : Nat) : Rat) ≤ sub) ∧
    ∀ j < scales.length, ((scales.getD j 0 : Nat) : Rat) ≤ sub → j ≤ pyramidLevel scales sub :=
  levelFrom_spec scales sub hinc _ 0 (by omega) (List.length_pos_iff.2 hne) (Or.inl rfl)

theorem scales_increase {s limit c r : Nat} {l : List Level} (hs : 2 ≤ s) (hp : IsPyramid s limit c r 1 l) :
    (l.map (fun x => x.scale)).Pairwise (· < ·) := by
  rw [List.pairwise_iff_getElem]
  intro i j hi hj hij
  rw [List.length_map] at hi hj
  rw [List.getElem_map, List.getElem_map, hp.level i hi, hp.level j hj]
  simp only [Nat.one_mul]
  exact Nat.pow_lt_pow_right (by omega) hij

/-- What a clip is: level, scale, and the box of pixels of the level. -/
theorem getClip_eq {s limit c r : Nat} {l : List Level} (hs : 2 ≤ s) (hp : IsPyramid s limit c r 1 l) (sub : Rat) (region : Box) :
    ∃ k, ∃ _ : k < l.length, k = pyramidLevel (l.map (fun x => x.scale)) sub ∧
      getClip l sub region = some (k, s ^ k,
        (divBox (region.crop ⟨0, 0, c, r⟩) (s ^ k)).crop ⟨0, 0, sizeAt s c k, sizeAt s r k⟩) := by
  have hn := hp.nonempty
  have hk := (pyramidLevel_spec (l.map (fun x => x.scale)) sub (scales_increase hs hp) (by
    intro h; rw [List.map_eq_nil_iff] at h; rw [h] at hn; simp at hn)).1
  rw [List.length_map] at hk
  refine ⟨_, hk, rfl, ?_⟩
  unfold getClip
  rw [if_neg (by omega)]
  simp only
  rw [List.getElem?_eq_getElem hn, List.getElem?_eq_getElem hk]
  rw [hp.level _ hn, hp.level _ hk]
  simp [sizeAt, Level.box]

/-- C148: a clip is taken from a pyramid at the coarsest scale not above the one asked for (at least 1); its box lies in
the level. -/
theorem clip_scale {s limit c r : Nat} {l : List Level} (hs : 2 ≤ s) (hp : IsPyramid s limit c r 1 l) (sub : Rat) (hsub : 1 ≤ sub)
    (region : Box) :
    ∃ k scale box, getClip l sub region = some (k, scale, box) ∧ k < l.length ∧ scale = s ^ k ∧ (scale : Rat) ≤ sub ∧
      (∀ j < l.length, ((s ^ j : Nat) : Rat) ≤ sub → j ≤ k) ∧
      ∀ u, box.Has u → 0 ≤ u.1 ∧ u.1 < sizeAt s c k ∧ 0 ≤ u.2 ∧ u.2 < sizeAt s r k := by
  obtain ⟨k, hk, ek, h⟩ := getClip_eq hs hp sub region
  have hn := hp.nonempty
  have hspec := pyramidLevel_spec (l.map (fun x => x.scale)) sub (scales_increase hs hp) (by
    intro h; rw [List.map_eq_nil_iff] at h; rw [h] at hn; simp at hn)
  have hget : ∀ j < l.length, (l.map (fun x => x.scale)).getD j 0 = s ^ j := by
    intro j hj
    rw [List.getD_eq_getElem _ _ (by rw [List.length_map]; exact hj), List.getElem_map, hp.level j hj]
    simp
  rw [← ek] at hspec
  refine ⟨k, _, _, h, hk, rfl, ?_, ?_, ?_⟩
  · rcases hspec.2.1 with h0 | h1
    · subst h0; simpa using hsub
    · rw [hget k hk] at h1; exact h1
  · intro j hj hle
    apply hspec.2.2 j (by rw [List.length_map]; exact hj)
    rw [hget j hj]; exact hle
  · intro u hu
    have := ((crop_has _ _ _).1 hu).2
    exact this

theorem tdiv_lt {x : Int} (h : 0 ≤ x) (s : Nat) : x.tdiv s = x / s := Int.tdiv_eq_ediv_of_nonneg h

/-- C148: a pixel of the level is in the clip exactly if, of the full resolution pixels it stands for, the last column
and the last row are in the region (cropped to the image). -/
theorem clip_pixels {s limit c r : Nat} {l : List Level} (hs : 2 ≤ s) (hp : IsPyramid s limit c r 1 l) (sub : Rat) (region : Box)
    (hreg : (region.crop ⟨0, 0, c, r⟩).empty = false) :
    ∃ k box, getClip l sub region = some (k, s ^ k, box) ∧
      ∀ u : Int × Int, box.Has u ↔
        (0 ≤ u.1 ∧ u.1 < sizeAt s c k ∧ 0 ≤ u.2 ∧ u.2 < sizeAt s r k) ∧
        (region.crop ⟨0, 0, c, r⟩).Has ((u.1 + 1) * ((s ^ k : Nat) : Int) - 1, (u.2 + 1) * ((s ^ k : Nat) : Int) - 1) := by
  obtain ⟨k, hk, ek, h⟩ := getClip_eq hs hp sub region
  refine ⟨k, _, h, ?_⟩
  intro u
  rw [crop_has]
  generalize hR : region.crop ⟨0, 0, c, r⟩ = R at hreg ⊢
  have hR0 : 0 ≤ R.x0 ∧ 0 ≤ R.y0 := by
    rw [← hR]; unfold Box.crop; simp only; split_ifs <;> omega
  have hne := empty_false.1 hreg
  have hS : 0 < ((s ^ k : Nat) : Int) := by
    have : 0 < s ^ k := Nat.pow_pos (by omega)
    exact_mod_cast this
  unfold divBox
  simp only [hreg, Bool.false_eq_true, if_false]
  rw [tdiv_lt hR0.1, tdiv_lt hR0.2, tdiv_lt (by omega), tdiv_lt (by omega)]
  generalize ((s ^ k : Nat) : Int) = S at hS ⊢
  have lo : ∀ a v : Int, a / S ≤ v ↔ a ≤ (v + 1) * S - 1 := by
    intro a v
    rw [← Int.lt_add_one_iff, Int.ediv_lt_iff_lt_mul hS]
    omega
  have hi : ∀ a v : Int, v < a / S ↔ (v + 1) * S - 1 < a := by
    intro a v
    rw [← Int.add_one_le_iff, Int.le_ediv_iff_mul_le hS]
    omega
  unfold Box.Has
  simp only [lo, hi]
  tauto

/-- C148: a region whose sides are multiples of the scale is clipped whole: every pixel of the region that the level
has stands in the clip. -/
theorem clip_aligned {s limit c r : Nat} {l : List Level} (hs : 2 ≤ s) (hp : IsPyramid s limit c r 1 l) (sub : Rat) (region : Box)
    (hreg : (region.crop ⟨0, 0, c, r⟩).empty = false) :
    ∃ k box, getClip l sub region = some (k, s ^ k, box) ∧
      (((s ^ k : Nat) : Int) ∣ (region.crop ⟨0, 0, c, r⟩).x1 → ((s ^ k : Nat) : Int) ∣ (region.crop ⟨0, 0, c, r⟩).y1 →
        ∀ q : Int × Int, (region.crop ⟨0, 0, c, r⟩).Has q → q.1 / ((s ^ k : Nat) : Int) < sizeAt s c k → q.2 / ((s ^ k : Nat) : Int) < sizeAt s r k →
          box.Has (q.1 / ((s ^ k : Nat) : Int), q.2 / ((s ^ k : Nat) : Int))) := by
  obtain ⟨k, box, h, hu⟩ := clip_pixels hs hp sub region hreg
  refine ⟨k, box, h, ?_⟩
  intro hd1 hd2 q hq hc hr
  rw [hu]
  generalize hR : region.crop ⟨0, 0, c, r⟩ = R at *
  have hR0 : 0 ≤ R.x0 ∧ 0 ≤ R.y0 := by
    rw [← hR]; unfold Box.crop; simp only; split_ifs <;> omega
  have hS : 0 < ((s ^ k : Nat) : Int) := by
    have : 0 < s ^ k := Nat.pow_pos (by omega)
    exact_mod_cast this
  unfold Box.Has at *
  generalize ((s ^ k : Nat) : Int) = S at hS hd1 hd2 hc hr ⊢
  have key : ∀ x b : Int, S ∣ b → x < b → (x / S + 1) * S - 1 < b := by
    rintro x b ⟨m, rfl⟩ hx
    have : x / S < m := by rw [Int.ediv_lt_iff_lt_mul hS]; linarith [mul_comm S m]
    have : (x / S + 1) * S ≤ m * S := mul_le_mul_of_nonneg_right (by omega) (by omega)
    rw [mul_comm S m]; omega
  have low : ∀ x a : Int, a ≤ x → a ≤ (x / S + 1) * S - 1 := by
    intro x a hax
    have := Int.lt_ediv_add_one_mul_self x hS
    omega
  have n1 : 0 ≤ q.1 / S := Int.ediv_nonneg (by omega) (by omega)
  have n2 : 0 ≤ q.2 / S := Int.ediv_nonneg (by omega) (by omega)
  exact ⟨⟨n1, hc, n2, hr⟩, low _ _ hq.1, key _ _ hd1 hq.2.1, low _ _ hq.2.2.1, key _ _ hd2 hq.2.2.2⟩

/-- C148: but a clip may miss pixels of the region, and be empty though the region is not. -/
theorem clip_misses : ∃ (l : List Level) (region : Box), IsPyramid 2 4 8 8 1 l ∧ (region.crop ⟨0, 0, 8, 8⟩).empty = false ∧
    ∃ box, getClip l 2 region = some (1, 2, box) ∧ ∀ u, ¬ box.Has u := by
  refine ⟨[⟨8, 8, 1⟩, ⟨4, 4, 2⟩, ⟨2, 2, 4⟩], ⟨2, 2, 3, 8⟩, loop_spec 100 8 8 1 _ (by decide +kernel), by decide +kernel,
    ⟨1, 1, 1, 4⟩, by decide +kernel, ?_⟩
  intro u hu
  unfold Box.Has at hu
  simp only at hu
  omega

example : IsPyramid 2 16 37 10 1 [⟨37, 10, 1⟩, ⟨19, 5, 2⟩, ⟨10, 3, 4⟩, ⟨5, 2, 8⟩] ∧
    getClip [⟨37, 10, 1⟩, ⟨19, 5, 2⟩, ⟨10, 3, 4⟩, ⟨5, 2, 8⟩] 5 ⟨-3, 4, 30, 20⟩ = some (2, 4, ⟨0, 1, 7, 2⟩) :=
  ⟨loop_spec 100 37 10 1 _ (by decide +kernel), by decide +kernel⟩

/-! ### C149: approximate bounds -/

theorem steps_mem {n d i : Nat} (hd : 0 < d) : i ∈ steps n d ↔ d ∣ i ∧ i < n := by
  unfold steps
  rw [List.mem_map]
  constructor
  · rintro ⟨k, hk, rfl⟩
    rw [List.mem_range] at hk
    refine ⟨Dvd.intro_left _ rfl, ?_⟩
    have h1 : (k + 1) * d ≤ n + d - 1 := by
      calc (k + 1) * d ≤ ((n + d - 1) / d) * d := Nat.mul_le_mul_right _ hk
        _ ≤ _ := Nat.div_mul_le_self _ _
    rw [Nat.add_mul] at h1
    omega
  · rintro ⟨⟨k, rfl⟩, hk⟩
    refine ⟨k, ?_, Nat.mul_comm _ _⟩
    rw [List.mem_range, Nat.lt_iff_add_one_le, Nat.le_div_iff_mul_le hd, Nat.add_mul, Nat.mul_comm k d]
    omega

theorem delta_pos (n : Nat) : 0 < delta n := by unfold delta; omega

/-- C149: along each side at most 250 samples are taken. -/
theorem steps_few (n : Nat) : (steps n (delta n)).length ≤ 250 := by
  unfold steps
  rw [List.length_map, List.length_range]
  have hd := delta_pos n
  have h1 : (n : Rat) ≤ 250 * delta n := by
    have a : ((n : Rat) / 250) ≤ ⌈(n : Rat) / 250⌉ := Int.le_ceil _
    have b : (⌈(n : Rat) / 250⌉ : Rat) ≤ ((delta n : Nat) : Rat) := by
      have : ⌈(n : Rat) / 250⌉ ≤ ((delta n : Nat) : Int) := by unfold delta; omega
      exact_mod_cast this
    have c : (n : Rat) = 250 * (n / 250) := by ring
    linarith
  have h2 : n ≤ 250 * delta n := by exact_mod_cast h1
  rw [Nat.div_le_iff_le_mul_add_pred hd]
  have : delta n * 250 = 250 * delta n := Nat.mul_comm _ _
  omega

/-- C149: the values used are the pixels, at every `delta`-th column and row, that are numbers, are not nodata and are
in the valid range. -/
theorem samples_mem (img : Nat → Nat → Option Rat) (cols rows : Nat) (nodata : Option Rat) (valid : Option (Rat × Rat)) (v : Rat) :
    v ∈ samples img cols rows nodata valid ↔
      (∃ c r, c < cols ∧ r < rows ∧ delta cols ∣ c ∧ delta rows ∣ r ∧ img c r = some v) ∧
      (∀ x, nodata = some x → v ≠ x) ∧ (∀ lo hi, valid = some (lo, hi) → lo ≤ v ∧ v ≤ hi) := by
  have ha : accept nodata valid v = true ↔ (∀ x, nodata = some x → v ≠ x) ∧ (∀ lo hi, valid = some (lo, hi) → lo ≤ v ∧ v ≤ hi) := by
    unfold accept
    rw [Bool.and_eq_true]
    apply and_congr
    · cases nodata <;> simp
    · rcases valid with _ | ⟨a, b⟩
      · simp
      · simp only [Bool.not_eq_true', Bool.or_eq_false_iff, decide_eq_false_iff_not, not_lt, Option.some.injEq, Prod.mk.injEq]
        constructor
        · rintro h lo hi ⟨rfl, rfl⟩; exact h
        · intro h; exact h a b ⟨rfl, rfl⟩
  rw [← ha]
  unfold samples
  simp only [List.mem_flatMap, List.mem_filterMap, steps_mem (delta_pos _)]
  constructor
  · rintro ⟨c, ⟨hc1, hc2⟩, r, ⟨hr1, hr2⟩, h⟩
    cases hi : img c r with
    | none => simp [hi] at h
    | some w =>
      rw [hi] at h
      simp only at h
      by_cases hw : accept nodata valid w = true
      · rw [if_pos hw] at h
        obtain rfl := Option.some.inj h
        exact ⟨⟨c, r, hc2, hr2, hc1, hr1, hi⟩, hw⟩
      · rw [if_neg hw] at h; cases h
  · rintro ⟨⟨c, r, hc, hr, hc1, hr1, hi⟩, hw⟩
    refine ⟨c, ⟨hc1, hc⟩, r, ⟨hr1, hr⟩, ?_⟩
    rw [hi]
    simp [hw]

theorem sort_ends {vals : List Rat} (hne : vals ≠ []) :
    (∀ x ∈ vals, (Stats.sort vals).getD 0 0 ≤ x) ∧ (Stats.sort vals).getD 0 0 ∈ vals ∧
    (∀ x ∈ vals, x ≤ (Stats.sort vals).getD ((Stats.sort vals).length - 1) 0) ∧
    (Stats.sort vals).getD ((Stats.sort vals).length - 1) 0 ∈ vals := by
  have hl := Stats.sort_length vals
  have hp : 0 < vals.length := List.length_pos_iff.2 hne
  rw [List.getD_eq_getElem _ _ (by omega), List.getD_eq_getElem _ _ (by omega)]
  refine ⟨?_, (Stats.sort_perm vals).mem_iff.1 (List.getElem_mem _), ?_, (Stats.sort_perm vals).mem_iff.1 (List.getElem_mem _)⟩
  · intro x hx
    obtain ⟨i, hi, rfl⟩ := List.getElem_of_mem ((Stats.sort_perm vals).mem_iff.2 hx)
    exact Stats.sort_le (Nat.zero_le _) hi
  · intro x hx
    obtain ⟨i, hi, rfl⟩ := List.getElem_of_mem ((Stats.sort_perm vals).mem_iff.2 hx)
    exact Stats.sort_le (by omega) (by omega)

/-- C149: the bounds are those of all numbers exactly if there are no values; else the lower one is below the upper one,
at most 1% of the values and a half lie below, as many above, and, unless all values between them are equal and the
bounds are one off, the bounds do not exceed the values. -/
theorem bounds_spec (vals : List Rat) :
    (boundsOf vals = none ↔ vals = []) ∧
    ∀ b e, boundsOf vals = some (b, e) →
      b < e ∧
      (vals.countP (fun x => decide (x < b)) : Rat) ≤ (vals.length : Rat) / 100 + 1 / 2 ∧
      (vals.countP (fun x => decide (e < x)) : Rat) ≤ (vals.length : Rat) / 100 + 1 / 2 ∧
      (((∃ x ∈ vals, x ≤ b) ∧ ∃ x ∈ vals, e ≤ x) ∨ (b + 1 ∈ vals ∧ e = b + 2)) := by
  by_cases hne : vals = []
  · subst hne
    exact ⟨by simp [boundsOf], by intro b e h; simp [boundsOf] at h⟩
  have hs := sort_ends hne
  obtain ⟨s1, s2, s3, s4⟩ := hs
  have hq : ∃ q1 ∈ vals, ∃ q3 ∈ vals, q1 ≤ q3 ∧ (Stats.findOutlierBrackets vals (1 / 100) 4).b ≤ q1 ∧
      q3 ≤ (Stats.findOutlierBrackets vals (1 / 100) 4).e ∧
      (vals.countP (fun x => decide (x < q1)) : Rat) ≤ (vals.length : Rat) / 100 + 1 / 2 ∧
      (vals.countP (fun x => decide (q3 < x)) : Rat) ≤ (vals.length : Rat) / 100 + 1 / 2 := by
    by_cases hl : 4 ≤ vals.length
    · obtain ⟨q1, h1, q3, h3, hle, c1, _, c3, _, _, eb, ee, _⟩ :=
        Stats.outlier_brackets vals (p := 1 / 100) (f := 4) (by norm_num) (by norm_num) (by norm_num) hl
      refine ⟨q1, h1, q3, h3, hle, ?_, ?_, by linarith, by linarith⟩
      · rw [eb]; linarith
      · rw [ee]; linarith
    · obtain ⟨_, hb, hb', he, he'⟩ := Stats.outlier_brackets_few vals (1 / 100) 4 hne (by omega)
      refine ⟨_, hb, _, he, hb' _ he, le_refl _, le_refl _, ?_, ?_⟩
      · have : vals.countP (fun x => decide (x < (Stats.findOutlierBrackets vals (1 / 100) 4).b)) = 0 := by
          rw [List.countP_eq_zero]; intro x hx; simpa using hb' x hx
        rw [this]; simp only [Nat.cast_zero]; positivity
      · have : vals.countP (fun x => decide ((Stats.findOutlierBrackets vals (1 / 100) 4).e < x)) = 0 := by
          rw [List.countP_eq_zero]; intro x hx; simpa using he' x hx
        rw [this]; simp only [Nat.cast_zero]; positivity
  obtain ⟨q1, m1, q3, m3, hle, hb, he, c1, c3⟩ := hq
  unfold boundsOf
  rw [if_neg hne]
  simp only
  generalize Stats.findOutlierBrackets vals (1 / 100) 4 = k at hb he ⊢
  generalize (Stats.sort vals).getD 0 0 = lo at s1 s2 ⊢
  generalize (Stats.sort vals).getD ((Stats.sort vals).length - 1) 0 = hi at s3 s4 ⊢
  have hB : max k.b lo ≤ q1 := max_le hb (s1 q1 m1)
  have hE : q3 ≤ min k.e hi := le_min he (s3 q3 m3)
  have mono1 : ∀ t : Rat, t ≤ q1 → (vals.countP (fun x => decide (x < t)) : Rat) ≤ (vals.length : Rat) / 100 + 1 / 2 := by
    intro t ht
    have : vals.countP (fun x => decide (x < t)) ≤ vals.countP (fun x => decide (x < q1)) := by
      apply List.countP_mono_left
      intro x _ h
      rw [decide_eq_true_eq] at h ⊢
      linarith
    have : (vals.countP (fun x => decide (x < t)) : Rat) ≤ vals.countP (fun x => decide (x < q1)) := by exact_mod_cast this
    linarith
  have mono3 : ∀ t : Rat, q3 ≤ t → (vals.countP (fun x => decide (t < x)) : Rat) ≤ (vals.length : Rat) / 100 + 1 / 2 := by
    intro t ht
    have : vals.countP (fun x => decide (t < x)) ≤ vals.countP (fun x => decide (q3 < x)) := by
      apply List.countP_mono_left
      intro x _ h
      rw [decide_eq_true_eq] at h ⊢
      linarith
    have : (vals.countP (fun x => decide (t < x)) : Rat) ≤ vals.countP (fun x => decide (q3 < x)) := by exact_mod_cast this
    linarith
  by_cases hbe : max k.b lo = min k.e hi
  · rw [if_pos hbe]
    refine ⟨by simp [hne], ?_⟩
    intro b e h
    obtain ⟨rfl, rfl⟩ := Prod.mk.inj (Option.some.inj h)
    refine ⟨by rw [hbe]; linarith, mono1 _ (by linarith), mono3 _ (by linarith), Or.inr ⟨?_, by rw [hbe]; ring⟩⟩
    have : max k.b lo = q1 := le_antisymm hB (by rw [hbe]; linarith)
    rw [sub_add_cancel, this]; exact m1
  · rw [if_neg hbe]
    refine ⟨by simp [hne], ?_⟩
    intro b e h
    obtain ⟨rfl, rfl⟩ := Prod.mk.inj (Option.some.inj h)
    refine ⟨lt_of_le_of_ne (by linarith) hbe, mono1 _ hB, mono3 _ hE, Or.inl ⟨⟨lo, s2, le_max_right _ _⟩, ⟨hi, s4, min_le_right _ _⟩⟩⟩

example : boundsOf [7, 1, 5] = some (1, 7) ∧ boundsOf [3, 3] = some (2, 4) := by
  have h : Stats.sort ([7, 1, 5] : List ℚ) = [1, 5, 7] := Stats.sort_eq (by decide +kernel) (by decide +kernel)
  have h2 : Stats.sort ([3, 3] : List ℚ) = [3, 3] := Stats.sort_eq (by decide +kernel) (by decide +kernel)
  constructor
  · unfold boundsOf Stats.findOutlierBrackets
    rw [h]
    norm_num
    intro hh; cases hh
  · unfold boundsOf Stats.findOutlierBrackets
    rw [h2]
    norm_num
    intro hh; cases hh

example : (1 : ℚ) ∈ samples (fun c r => if c = r then none else some (c : ℚ)) 3 3 (some 0) (some (-1, 1)) :=
  (samples_mem _ _ _ _ _ _).2 ⟨⟨1, 0, by decide, by decide, ⟨1, by simp [delta]; norm_num [Int.ceil_eq_iff]⟩, ⟨0, by simp⟩, by simp⟩,
    by intro x h; cases h; norm_num, by intro lo hi h; cases h; norm_num⟩

end VW.DiskPyr
