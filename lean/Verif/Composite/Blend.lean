import Verif.Composite.Props
/-
Property C146: boxes and sources of a blended patch.
-/
namespace VW.Composite

/-! ### Specification -/

/-- In one direction: the pixel `s` of the source takes part in pixel `u` of level `l`, when every level is the one
below smoothed with a kernel of three pixels and with every second pixel kept. -/
inductive Feeds1 : Nat → Int → Int → Prop
  | base (u : Int) : Feeds1 0 u u
  | step {l : Nat} {s t u : Int} : 2 * u - 1 ≤ t → t ≤ 2 * u + 1 → Feeds1 l s t → Feeds1 (l + 1) s u

/-! ### Proofs -/

theorem half_eq {x : Int} (h : 0 ≤ x) : half x = x / 2 := by unfold half; exact Int.tdiv_eq_ediv_of_nonneg h

theorem tmod_eq {x : Int} (h : 0 ≤ x) : x.tmod 2 = x % 2 := Int.tmod_eq_emod_of_nonneg h

/-- The patch begins at or after (0, 0) and is not empty. -/
def Good (b : Box) : Prop := 0 ≤ b.x0 ∧ 0 ≤ b.y0 ∧ b.x0 < b.x1 ∧ b.y0 < b.y1

theorem nextBox_eq {b : Box} (h : Good b) : nextBox b = ⟨b.x0 / 2, b.y0 / 2, b.x1 / 2 + 1, b.y1 / 2 + 1⟩ := by
  obtain ⟨h1, h2, h3, h4⟩ := h
  have he : b.empty = false := by rw [empty_false]; omega
  unfold nextBox Box.width Box.height
  simp only [he, Bool.false_eq_true, if_false]
  rw [tmod_eq h1, tmod_eq h2, half_eq h1, half_eq h2, half_eq (by omega), half_eq (by omega)]
  congr 1 <;> omega

theorem nextBox_good {b : Box} (h : Good b) : Good (nextBox b) := by
  rw [nextBox_eq h]; unfold Good at *; simp only; omega

theorem levelBox_good {b : Box} (h : Good b) (l : Nat) : Good (levelBox b l) := by
  induction l with
  | zero => exact h
  | succ l ih => exact nextBox_good ih

/-- C146: the box of every level holds all that is needed to enlarge it to the box of the level below: the pixel at
half the coordinates, and its right or lower neighbour at an odd coordinate. -/
theorem levels_suffice {b : Box} (h : Good b) (l : Nat) (q : Pos) (hq : (levelBox b l).Has q) :
    (levelBox b (l + 1)).Has (q.1 / 2, q.2 / 2) ∧
    (q.1 % 2 = 1 → (levelBox b (l + 1)).Has (q.1 / 2 + 1, q.2 / 2)) ∧
    (q.2 % 2 = 1 → (levelBox b (l + 1)).Has (q.1 / 2, q.2 / 2 + 1)) ∧
    (q.1 % 2 = 1 → q.2 % 2 = 1 → (levelBox b (l + 1)).Has (q.1 / 2 + 1, q.2 / 2 + 1)) := by
  show (nextBox (levelBox b l)).Has _ ∧ _ ∧ _ ∧ _
  have e : levelBox b (l + 1) = nextBox (levelBox b l) := rfl
  rw [e, nextBox_eq (levelBox_good h l)]
  unfold Box.Has at *
  simp only
  omega

/-- C146: cropping the enlarged level to the level below stays inside it (ImageComposite.h:530-533). -/
theorem crop_inside {b : Box} (h : Good b) (l : Nat) :
    0 ≤ (levelBox b l).x0 - 2 * (levelBox b (l + 1)).x0 ∧
    (levelBox b l).x0 - 2 * (levelBox b (l + 1)).x0 + (levelBox b l).width ≤ 2 * (levelBox b (l + 1)).width ∧
    0 ≤ (levelBox b l).y0 - 2 * (levelBox b (l + 1)).y0 ∧
    (levelBox b l).y0 - 2 * (levelBox b (l + 1)).y0 + (levelBox b l).height ≤ 2 * (levelBox b (l + 1)).height := by
  have g := levelBox_good h l
  have g' := levelBox_good h (l + 1)
  have e : levelBox b (l + 1) = nextBox (levelBox b l) := rfl
  have he : (levelBox b l).empty = false := by rw [empty_false]; exact ⟨g.2.2.1, g.2.2.2⟩
  have he' : (levelBox b (l + 1)).empty = false := by rw [empty_false]; exact ⟨g'.2.2.1, g'.2.2.2⟩
  unfold Box.width Box.height
  simp only [he, he', Bool.false_eq_true, if_false]
  rw [e, nextBox_eq g]
  unfold Good at g
  simp only
  omega

theorem padDown_succ (b : Box) (l : Nat) (h : Good b) : padDown b (l + 1) = padDown (nextBox b) l := by
  rw [nextBox_eq h]
  unfold padDown
  have h' := h
  unfold Good at h'
  rw [half_eq (by omega), half_eq (by omega), half_eq (by omega), half_eq (by omega)]
  cases l <;> rfl

theorem levelBox_succ' (b : Box) (l : Nat) : levelBox b (l + 1) = levelBox (nextBox b) l := by
  induction l with
  | zero => rfl
  | succ l ih =>
    show nextBox (levelBox b (l + 1)) = nextBox (levelBox (nextBox b) l)
    rw [ih]

theorem padDown_eq (l : Nat) : ∀ b : Box, Good b → padDown b l = levelBox b l := by
  induction l with
  | zero => intro b _; rfl
  | succ l ih =>
    intro b h
    rw [padDown_succ b l h, ih _ (nextBox_good h), levelBox_succ']

/-- One turn of the second loop. -/
def up (b : Box) : Box := { x0 := 2 * b.x0 - 1, y0 := 2 * b.y0 - 1, x1 := 2 * b.x1, y1 := 2 * b.y1 }

theorem padUp_succ (b : Box) (l : Nat) : padUp b (l + 1) = padUp (up b) l := rfl

/-- Subset of boxes, corner by corner. -/
def Le (b c : Box) : Prop := c.x0 ≤ b.x0 ∧ c.y0 ≤ b.y0 ∧ b.x1 ≤ c.x1 ∧ b.y1 ≤ c.y1

theorem padUp_mono (l : Nat) : ∀ b c : Box, Le b c → Le (padUp b l) (padUp c l) := by
  induction l with
  | zero => intro b c h; exact h
  | succ l ih =>
    intro b c h
    rw [padUp_succ, padUp_succ]
    apply ih
    unfold Le up at *
    simp only
    omega

theorem padUp_add (m n : Nat) : ∀ b : Box, padUp b (m + n) = padUp (padUp b m) n := by
  induction m with
  | zero => intro b; rw [Nat.zero_add]; rfl
  | succ m ih =>
    intro b
    rw [show m + 1 + n = (m + n) + 1 by omega, padUp_succ, ih]
    rfl

theorem level_le_up {b : Box} (h : Good b) (l : Nat) : Le (levelBox b l) (up (levelBox b (l + 1))) := by
  have g := levelBox_good h l
  have e : levelBox b (l + 1) = nextBox (levelBox b l) := rfl
  rw [e, nextBox_eq g]
  unfold Le up
  unfold Good at g
  simp only
  omega

theorem level_le {b : Box} (h : Good b) (l : Nat) : ∀ k : Nat, Le (levelBox b l) (padUp (levelBox b (l + k)) k) := by
  intro k
  induction k with
  | zero => exact ⟨le_refl _, le_refl _, le_refl _, le_refl _⟩
  | succ k ih =>
    rw [padUp_succ]
    have a := padUp_mono k _ _ (level_le_up h (l + k))
    have b' := ih
    unfold Le at *
    rw [show l + (k + 1) = l + k + 1 by omega]
    omega

theorem feeds_x {l : Nat} {s u : Int} (hf : Feeds1 l s u) : ∀ b : Box, b.x0 ≤ u → u < b.x1 →
    (padUp b l).x0 ≤ s ∧ s < (padUp b l).x1 := by
  induction hf with
  | base u => intro b h1 h2; exact ⟨h1, h2⟩
  | step h1 h2 _ ih =>
    intro b h3 h4
    rw [padUp_succ]
    exact ih (up b) (by unfold up; simp only; omega) (by unfold up; simp only; omega)

theorem feeds_y {l : Nat} {s u : Int} (hf : Feeds1 l s u) : ∀ b : Box, b.y0 ≤ u → u < b.y1 →
    (padUp b l).y0 ≤ s ∧ s < (padUp b l).y1 := by
  induction hf with
  | base u => intro b h1 h2; exact ⟨h1, h2⟩
  | step h1 h2 _ ih =>
    intro b h3 h4
    rw [padUp_succ]
    exact ih (up b) (by unfold up; simp only; omega) (by unfold up; simp only; omega)

/-- C146: every source with a pixel that takes part, by smoothing, in a pixel of some level of the patch is taken into
account. -/
theorem listed_of_feeds {patch : Box} (h : Good patch) (levels l : Nat) (hl : l < levels) (b : Box) (s u : Pos)
    (hu : (levelBox patch l).Has u) (hs : b.Has s) (hx : Feeds1 l s.1 u.1) (hy : Feeds1 l s.2 u.2) :
    listed patch levels b = true := by
  unfold listed padded
  rw [padDown_eq _ _ h]
  apply intersects_of_has (q := s) ?_ hs
  have e : levels - 1 = (levels - 1 - l) + l := by omega
  have a := level_le h l (levels - 1 - l)
  rw [show l + (levels - 1 - l) = levels - 1 by omega] at a
  rw [show padUp (levelBox patch (levels - 1)) (levels - 1) =
    padUp (padUp (levelBox patch (levels - 1)) (levels - 1 - l)) l by rw [← padUp_add, ← e]]
  unfold Le at a
  unfold Box.Has at hu ⊢
  have hx' := feeds_x hx (padUp (levelBox patch (levels - 1)) (levels - 1 - l)) (by omega) (by omega)
  have hy' := feeds_y hy (padUp (levelBox patch (levels - 1)) (levels - 1 - l)) (by omega) (by omega)
  exact ⟨hx'.1, hx'.2, hy'.1, hy'.2⟩

/-- C146: in particular every source that meets the patch. -/
theorem listed_of_meets {patch : Box} (h : Good patch) (levels : Nat) (hl : 0 < levels) (b : Box) (q : Pos)
    (hq : patch.Has q) (hb : b.Has q) : listed patch levels b = true :=
  listed_of_feeds h levels 0 hl b q q hq hb (Feeds1.base _) (Feeds1.base _)

/-! ### Reduction of an image -/

/-- An image whose box lies in the whole, of `cols` by `rows` pixels. -/
def Positioned.Ok (p : Positioned) : Prop :=
  0 ≤ p.box.x0 ∧ 0 ≤ p.box.y0 ∧ p.box.x0 < p.box.x1 ∧ p.box.y0 < p.box.y1 ∧ p.box.x1 ≤ p.cols ∧ p.box.y1 ≤ p.rows

/-- The smoothed image at a place of the whole. -/
def Positioned.smoothAt (p : Positioned) (x y : Int) : Rat := p.smooth (x - p.box.x0) (y - p.box.y0)

theorem borders {lo hi total : Int} (h0 : 0 ≤ lo) (h1 : lo < hi) (h2 : hi ≤ total) :
    borderLow lo = min (1 + (lo + 1) % 2) lo ∧
    borderHigh lo (hi - lo) total = min (1 + (hi - lo + min (1 + (lo + 1) % 2) lo + 1) % 2) (total - hi) := by
  have a : borderLow lo = min (1 + (lo + 1) % 2) lo := by unfold borderLow; rw [tmod_eq (by omega)]
  refine ⟨a, ?_⟩
  unfold borderHigh
  rw [a, tmod_eq (by omega)]
  congr 1
  ring

/-- C146: at half the size, a pixel whose kernel touches the image is in the box of the reduced image, and has the
smoothed value of the image at twice its coordinates. -/
theorem reduce_spec (p : Positioned) (h : p.Ok) (u : Pos) (hu0 : 0 ≤ u.1 ∧ 0 ≤ u.2) (hu1 : 2 * u.1 < p.cols ∧ 2 * u.2 < p.rows)
    (hx : p.box.x0 ≤ 2 * u.1 + 1 ∧ 2 * u.1 - 1 < p.box.x1) (hy : p.box.y0 ≤ 2 * u.2 + 1 ∧ 2 * u.2 - 1 < p.box.y1) :
    p.reduce.box.Has u ∧
    p.reduce.at' (u.1 - p.reduce.box.x0, u.2 - p.reduce.box.y0) = p.smoothAt (2 * u.1) (2 * u.2) := by
  obtain ⟨h1, h2, h3, h4, h5, h6⟩ := h
  have he : p.box.empty = false := by rw [empty_false]; omega
  obtain ⟨bx, bx'⟩ := borders h1 h3 h5
  obtain ⟨by1, by'⟩ := borders h2 h4 h6
  unfold Positioned.reduce Positioned.smoothAt Box.Has Box.width Box.height
  simp only [he, Bool.false_eq_true, if_false, bx, by1, bx', by']
  generalize hl : min (1 + (p.box.x0 + 1) % 2) p.box.x0 = left
  generalize ht : min (1 + (p.box.y0 + 1) % 2) p.box.y0 = top
  generalize hr : min (1 + (p.box.x1 - p.box.x0 + left + 1) % 2) (p.cols - p.box.x1) = right
  generalize hb : min (1 + (p.box.y1 - p.box.y0 + top + 1) % 2) (p.rows - p.box.y1) = bottom
  rw [half_eq (x := p.box.x0 - left) (by omega), half_eq (x := p.box.y0 - top) (by omega),
    half_eq (x := p.box.x1 - p.box.x0 + left + right + 1) (by omega),
    half_eq (x := p.box.y1 - p.box.y0 + top + bottom + 1) (by omega),
    half_eq (x := p.box.x1 - p.box.x0 + left + right - 1) (by omega),
    half_eq (x := p.box.y1 - p.box.y0 + top + bottom - 1) (by omega)]
  refine ⟨by omega, ?_⟩
  congr 1 <;> omega

/-- C146: the smoothed image is 0 where the kernel does not touch the image. -/
theorem smooth_outside (p : Positioned) (h : p.Ok) (x y : Int)
    (ho : x + 1 < p.box.x0 ∨ p.box.x1 ≤ x - 1 ∨ y + 1 < p.box.y0 ∨ p.box.y1 ≤ y - 1) : p.smoothAt x y = 0 := by
  obtain ⟨h1, h2, h3, h4, h5, h6⟩ := h
  have he : p.box.empty = false := by rw [empty_false]; omega
  have key : ∀ a b : Int, x - p.box.x0 - 1 ≤ a → a ≤ x - p.box.x0 + 1 → y - p.box.y0 - 1 ≤ b → b ≤ y - p.box.y0 + 1 →
      p.get a b = 0 := by
    intro a b k1 k2 k3 k4
    unfold Positioned.get Box.width Box.height
    simp only [he, Bool.false_eq_true, if_false]
    rw [if_neg (by omega)]
  unfold Positioned.smoothAt Positioned.smooth
  simp only
  rw [key _ _ (by omega) (by omega) (by omega) (by omega), key _ _ (by omega) (by omega) (by omega) (by omega),
    key _ _ (by omega) (by omega) (by omega) (by omega), key _ _ (by omega) (by omega) (by omega) (by omega),
    key _ _ (by omega) (by omega) (by omega) (by omega), key _ _ (by omega) (by omega) (by omega) (by omega),
    key _ _ (by omega) (by omega) (by omega) (by omega), key _ _ (by omega) (by omega) (by omega) (by omega),
    key _ _ (by omega) (by omega) (by omega) (by omega)]
  norm_num

/-- An opaque mask over a box. -/
def full (cols rows : Int) (b : Box) : Positioned := { cols := cols, rows := rows, box := b, at' := fun _ => 1 }

example : (full 16 8 ⟨3, 2, 6, 8⟩).Ok ∧ (full 16 8 ⟨3, 2, 6, 8⟩).reduce.box = ⟨1, 0, 5, 5⟩ ∧
    (full 16 8 ⟨3, 2, 6, 8⟩).reduce.at' (2, 1) = 3/16 := by
  refine ⟨by unfold Positioned.Ok full; simp, by decide +kernel, by decide +kernel⟩

/-- C146: the reduced image is not the smoothed image everywhere in its box: its last column repeats the one before. -/
theorem last_column_repeated : ∃ (p : Positioned) (u : Pos), p.Ok ∧ p.reduce.box.Has u ∧ 2 * u.1 < p.cols ∧ 2 * u.2 < p.rows ∧
    p.smoothAt (2 * u.1) (2 * u.2) = 0 ∧ p.reduce.at' (u.1 - p.reduce.box.x0, u.2 - p.reduce.box.y0) = 1/4 :=
  ⟨full 16 8 ⟨0, 0, 6, 8⟩, (4, 2), by unfold Positioned.Ok full; simp, by decide +kernel, by decide +kernel,
    by decide +kernel, by decide +kernel, by decide +kernel⟩

/-- C146: so a source that is left out may have had a part in the patch, and what a pixel gets depends on the patch that
was asked for: for two sources side by side, opaque, the sum of masks at the same pixel of the same level is 1 in one
patch and 5/4 in another. -/
theorem blend_depends_on_patch : ∃ (srcs : List Positioned) (p1 p2 : Box) (q : Pos),
    (∀ s ∈ srcs, s.Ok) ∧ Good p1 ∧ Good p2 ∧ (levelBox p1 1).Has q ∧ (levelBox p2 1).Has q ∧
    maskSum srcs 2 p1 1 q = 1 ∧ maskSum srcs 2 p2 1 q = 5/4 :=
  ⟨[full 16 8 ⟨0, 0, 6, 8⟩, full 16 8 ⟨6, 0, 16, 8⟩], ⟨8, 0, 16, 8⟩, ⟨0, 0, 16, 8⟩, (4, 2), by
    intro s hs
    rcases List.mem_cons.1 hs with rfl | hs
    · unfold Positioned.Ok full; simp
    · rw [List.mem_singleton.1 hs]; unfold Positioned.Ok full; simp, by unfold Good; simp, by unfold Good; simp,
    by decide +kernel, by decide +kernel, by decide +kernel, by decide +kernel⟩

/-- C146: in the part of a patch that it covers a source adds its own pixels at their places, elsewhere nothing; the sum of the masks is
the sum of these over the sources of the patch. -/
theorem maskSum_spec (srcs : List Positioned) (levels : Nat) (patch : Box) (l : Nat) (q : Pos) (hq : (levelBox patch l).Has q) :
    maskSum srcs levels patch l q = ((srcs.filter (fun s => listed patch levels s.box)).map (fun s =>
      if (maskLevel s l).box.Has q then (maskLevel s l).at' (q.1 - (maskLevel s l).box.x0, q.2 - (maskLevel s l).box.y0) else 0)).sum := by
  unfold maskSum
  congr 1
  apply List.map_congr_left
  intro s _
  unfold Positioned.part
  obtain ⟨h1, h2, h3, h4⟩ := hq
  have e : ((maskLevel s l).box.crop (levelBox patch l)).x0 ≤ q.1 ∧ q.1 < ((maskLevel s l).box.crop (levelBox patch l)).x1 ∧
      ((maskLevel s l).box.crop (levelBox patch l)).y0 ≤ q.2 ∧ q.2 < ((maskLevel s l).box.crop (levelBox patch l)).y1 ↔
      (maskLevel s l).box.Has q := by
    unfold Box.crop Box.Has
    dsimp only
    constructor
    · rintro ⟨a, b, c, d⟩
      refine ⟨?_, ?_, ?_, ?_⟩
      · split at a <;> omega
      · split at b <;> omega
      · split at c <;> omega
      · split at d <;> omega
    · rintro ⟨a, b, c, d⟩
      refine ⟨?_, ?_, ?_, ?_⟩ <;> split <;> omega
  dsimp only
  by_cases h : (maskLevel s l).box.Has q
  · rw [if_pos (e.2 h), if_pos h]
  · rw [if_neg (fun k => h (e.1 k)), if_neg h]

/-! ### Trimming -/

/-- C146: the alpha the patch is trimmed to is the greatest among the sources that cover the place, 0 if none does. -/
theorem alphaAt_spec (srcs : List Positioned) (patch : Box) (q : Pos) (hq : patch.Has q) :
    0 ≤ alphaAt srcs patch q ∧
    (∀ s ∈ srcs, s.box.Has q → s.at' (q.1 - s.box.x0, q.2 - s.box.y0) ≤ alphaAt srcs patch q) ∧
    (alphaAt srcs patch q = 0 ∨ ∃ s ∈ srcs, s.box.Has q ∧ alphaAt srcs patch q = s.at' (q.1 - s.box.x0, q.2 - s.box.y0)) := by
  unfold alphaAt
  induction srcs using List.reverseRecOn with
  | nil => simp
  | append_singleton l s ih =>
    rw [List.foldl_append, List.foldl_cons, List.foldl_nil]
    generalize hA : List.foldl _ (0 : Rat) l = A at ih ⊢
    obtain ⟨i1, i2, i3⟩ := ih
    have hstep : (if patch.intersects s.box then
        (if (patch.crop s.box).x0 ≤ q.1 ∧ q.1 < (patch.crop s.box).x1 ∧ (patch.crop s.box).y0 ≤ q.2 ∧ q.2 < (patch.crop s.box).y1 then
          (if s.at' (q.1 - s.box.x0, q.2 - s.box.y0) > A then s.at' (q.1 - s.box.x0, q.2 - s.box.y0) else A)
        else A) else A) = if s.box.Has q ∧ s.at' (q.1 - s.box.x0, q.2 - s.box.y0) > A then s.at' (q.1 - s.box.x0, q.2 - s.box.y0) else A := by
      by_cases hb : s.box.Has q
      · rw [if_pos (intersects_of_has hq hb)]
        have hs : (patch.crop s.box).Has q := (crop_has _ _ _).2 ⟨hq, hb⟩
        unfold Box.Has at hs
        rw [if_pos hs]
        simp only [hb, true_and]
      · have hs : ¬ (patch.crop s.box).Has q := fun h => hb ((crop_has _ _ _).1 h).2
        unfold Box.Has at hs
        rw [if_neg hs]
        simp only [hb, false_and, if_false, ite_self]
    simp only at hstep ⊢
    rw [hstep]
    by_cases hc : s.box.Has q ∧ s.at' (q.1 - s.box.x0, q.2 - s.box.y0) > A
    · rw [if_pos hc]
      refine ⟨by linarith [hc.2], ?_, Or.inr ⟨s, by simp, hc.1, rfl⟩⟩
      intro r hr hh
      rcases List.mem_append.1 hr with h | h
      · linarith [i2 r h hh, hc.2]
      · rw [List.mem_singleton.1 h]
    · rw [if_neg hc]
      refine ⟨i1, ?_, ?_⟩
      · intro r hr hh
        rcases List.mem_append.1 hr with h | h
        · exact i2 r h hh
        · rw [List.mem_singleton.1 h] at hh ⊢
          by_contra hk
          exact hc ⟨hh, not_le.1 hk⟩
      · rcases i3 with h | ⟨r, hr, hh, e⟩
        · exact Or.inl h
        · exact Or.inr ⟨r, by simp [hr], hh, e⟩

example : Good ⟨5, 2, 12, 9⟩ ∧ levelBox ⟨5, 2, 12, 9⟩ 2 = ⟨1, 0, 4, 3⟩ ∧ padded ⟨5, 2, 12, 9⟩ 3 = ⟨1, -3, 16, 12⟩ := by
  refine ⟨by unfold Good; simp, by decide +kernel, by decide +kernel⟩

end VW.Composite
