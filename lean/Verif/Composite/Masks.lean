import Verif.Composite.Props
/-
Property C144: the masks of `generate_masks` share out the places of the mosaic among the sources.
-/
namespace VW.Composite

/-! ### Specification -/

/-- The distance of source `p` at a place of the mosaic. -/
def strength (bs : Nat → Box) (fire : Nat → Pos → Int) (p : Nat) (g : Pos) : Int := fire p (g.1 - (bs p).x0, g.2 - (bs p).y0)

/-- Source `p`, among the first `n`, owns the place `g` of the mosaic: it covers it with a positive distance, no source
that covers it has a greater one, and those with the same were inserted earlier. -/
def Owner (bs : Nat → Box) (fire : Nat → Pos → Int) (n : Nat) (p : Nat) (g : Pos) : Prop :=
  p < n ∧ (bs p).Has g ∧ 0 < strength bs fire p g ∧
  ∀ p2 < n, p2 ≠ p → (bs p2).Has g →
    strength bs fire p2 g < strength bs fire p g ∨ (strength bs fire p2 g = strength bs fire p g ∧ p2 < p)

/-! ### Proofs -/

/-- The local place of a place of the mosaic. -/
def loc (b : Box) (g : Pos) : Pos := (g.1 - b.x0, g.2 - b.y0)

theorem maskStep_eq (bs : Nat → Box) (fire : Nat → Pos → Int) (p1 p2 : Nat) (m : Pos → Int) (g : Pos)
    (hne : p1 ≠ p2) (h1 : (bs p1).Has g) (h2 : (bs p2).empty = false) :
    maskStep bs fire p1 m p2 (loc (bs p1) g) =
      if (bs p2).Has g ∧ (strength bs fire p2 g > m (loc (bs p1) g) ∨
          (strength bs fire p2 g = m (loc (bs p1) g) ∧ p2 > p1)) then 0 else m (loc (bs p1) g) := by
  have he1 : (bs p1).empty = false := by
    rw [← Bool.not_eq_true, empty_iff]; exact fun h => h g h1
  have e : ∀ c : Pos, (c.1 - (bs p1).x0 - ((bs p2).x0 - (bs p1).x0), c.2 - (bs p1).y0 - ((bs p2).y0 - (bs p1).y0)) =
      (c.1 - (bs p2).x0, c.2 - (bs p2).y0) := by
    intro c; congr 1 <;> ring
  unfold maskStep
  rw [if_neg hne]
  simp only [Box.width, Box.height, he1, h2, Bool.false_eq_true, if_false, loc, e, strength]
  have he2 := empty_false.1 h2
  unfold Box.Has at h1
  by_cases hg : (bs p2).Has g
  · have hg' := hg
    unfold Box.Has at hg'
    rw [if_pos (by omega)]
    simp only [hg, true_and]
    rw [if_pos (by omega), e g]
  · simp only [hg, false_and, if_false]
    unfold Box.Has at hg
    by_cases hd : ¬((bs p2).x0 - (bs p1).x0 ≥ (bs p1).x1 - (bs p1).x0 ∨ (bs p2).y0 - (bs p1).y0 ≥ (bs p1).y1 - (bs p1).y0 ∨
          -((bs p2).x0 - (bs p1).x0) ≥ (bs p2).x1 - (bs p2).x0 ∨ -((bs p2).y0 - (bs p1).y0) ≥ (bs p2).y1 - (bs p2).y0)
    · rw [if_pos hd]
      simp only
      rw [if_neg (by omega)]
    · rw [if_neg hd]

/-- The place is lost to `p2`. -/
def Loses (bs : Nat → Box) (fire : Nat → Pos → Int) (p1 : Nat) (g : Pos) (p2 : Nat) : Prop :=
  p2 ≠ p1 ∧ (bs p2).Has g ∧ (strength bs fire p2 g > strength bs fire p1 g ∨
    (strength bs fire p2 g = strength bs fire p1 g ∧ p2 > p1))

theorem fold_mask (bs : Nat → Box) (fire : Nat → Pos → Int) (p1 : Nat) (g : Pos) (h1 : (bs p1).Has g) (l : List Nat)
    (hb : ∀ p ∈ l, (bs p).empty = false) :
    ((∀ p ∈ l, ¬ Loses bs fire p1 g p) ∧ l.foldl (maskStep bs fire p1) (fire p1) (loc (bs p1) g) = strength bs fire p1 g) ∨
    ((∃ p ∈ l, Loses bs fire p1 g p) ∧ l.foldl (maskStep bs fire p1) (fire p1) (loc (bs p1) g) = 0) := by
  induction l using List.reverseRecOn with
  | nil => left; exact ⟨by simp, rfl⟩
  | append_singleton l p ih =>
    rw [List.foldl_append, List.foldl_cons, List.foldl_nil]
    have ih := ih (fun q hq => hb q (by simp [hq]))
    by_cases he : p1 = p
    · have hself : ¬ Loses bs fire p1 g p := fun h => h.1 he.symm
      have e0 : ∀ m, maskStep bs fire p1 m p = m := fun m => by unfold maskStep; rw [if_pos he]
      rw [e0]
      rcases ih with ⟨a, b⟩ | ⟨⟨r, hr, a⟩, b⟩
      · left
        refine ⟨?_, b⟩
        intro q hq
        rcases List.mem_append.1 hq with h | h
        · exact a q h
        · rw [List.mem_singleton.1 h]; exact hself
      · right; exact ⟨⟨r, by simp [hr], a⟩, b⟩
    · rw [maskStep_eq bs fire p1 p _ g he h1 (hb p (by simp))]
      rcases ih with ⟨a, b⟩ | ⟨⟨r, hr, a⟩, b⟩
      · rw [b]
        by_cases hc : (bs p).Has g ∧ (strength bs fire p g > strength bs fire p1 g ∨
          (strength bs fire p g = strength bs fire p1 g ∧ p > p1))
        · right
          rw [if_pos hc]
          exact ⟨⟨p, by simp, fun h => he h.symm, hc⟩, rfl⟩
        · left
          rw [if_neg hc]
          refine ⟨?_, rfl⟩
          intro q hq
          rcases List.mem_append.1 hq with h | h
          · exact a q h
          · rw [List.mem_singleton.1 h]; exact fun hl => hc hl.2
      · right
        refine ⟨⟨r, by simp [hr], a⟩, ?_⟩
        rw [b]
        split_ifs <;> rfl

/-- C144: the mask of a source is 1 exactly at the places it owns, and 0 elsewhere on the source. -/
theorem mask_iff (bs : Nat → Box) (fire : Nat → Pos → Int) (n p1 : Nat) (hp : p1 < n) (g : Pos) (h1 : (bs p1).Has g)
    (hb : ∀ p < n, (bs p).empty = false) :
    (mask bs fire n p1 (g.1 - (bs p1).x0, g.2 - (bs p1).y0) = 1 ↔ Owner bs fire n p1 g) ∧
    (mask bs fire n p1 (g.1 - (bs p1).x0, g.2 - (bs p1).y0) = 0 ↔ ¬ Owner bs fire n p1 g) := by
  have key : (List.range n).foldl (maskStep bs fire p1) (fire p1) (loc (bs p1) g) > 0 ↔ Owner bs fire n p1 g := by
    rcases fold_mask bs fire p1 g h1 (List.range n) (fun p h => hb p (List.mem_range.1 h)) with ⟨a, b⟩ | ⟨⟨r, hr, a⟩, b⟩
    · rw [b]
      constructor
      · intro h
        refine ⟨hp, h1, h, fun p2 h2 hne hh => ?_⟩
        have := a p2 (List.mem_range.2 h2)
        unfold Loses at this
        by_contra hc
        apply this
        refine ⟨hne, hh, ?_⟩
        omega
      · exact fun h => h.2.2.1
    · rw [b]
      constructor
      · intro h; exact absurd h (lt_irrefl _)
      · intro h
        have := h.2.2.2 r (List.mem_range.1 hr) a.1 a.2.1
        have h3 := a.2.2
        omega
  change (List.range n).foldl (maskStep bs fire p1) (fire p1) (g.1 - (bs p1).x0, g.2 - (bs p1).y0) > 0 ↔ _ at key
  unfold mask
  by_cases ho : Owner bs fire n p1 g
  · rw [if_pos (key.2 ho)]; simp [ho]
  · rw [if_neg (fun h => ho (key.1 h))]; simp [ho]

/-- Two sources do not own the same place. -/
theorem owner_unique {bs : Nat → Box} {fire : Nat → Pos → Int} {n p q : Nat} {g : Pos} (hp : Owner bs fire n p g)
    (hq : Owner bs fire n q g) : p = q := by
  by_contra hne
  have h1 := hp.2.2.2 q hq.1 (fun h => hne h.symm) hq.2.1
  have h2 := hq.2.2.2 p hp.1 hne hp.2.1
  omega

/-- C144: a place of the mosaic where some source has a positive distance belongs to exactly one mask, and one where
none has belongs to no mask. -/
theorem masks_partition (bs : Nat → Box) (fire : Nat → Pos → Int) (n : Nat) (g : Pos)
    (hb : ∀ p < n, (bs p).empty = false) :
    ((∃ p < n, (bs p).Has g ∧ 0 < strength bs fire p g) →
      ∃! p, p < n ∧ (bs p).Has g ∧ mask bs fire n p (g.1 - (bs p).x0, g.2 - (bs p).y0) = 1) ∧
    ((∀ p < n, (bs p).Has g → ¬ 0 < strength bs fire p g) →
      ∀ p < n, (bs p).Has g → mask bs fire n p (g.1 - (bs p).x0, g.2 - (bs p).y0) = 0) := by
  constructor
  · rintro ⟨p0, hp0, hh0, hs0⟩
    have hex : ∃ p, Owner bs fire n p g := by
      let S := (Finset.range n).filter (fun p => (bs p).Has g)
      have hS : S.Nonempty := ⟨p0, by simp [S, hp0, hh0]⟩
      obtain ⟨p1, hm1, hmax⟩ := Finset.exists_max_image S (fun p => strength bs fire p g) hS
      let T := S.filter (fun p => strength bs fire p g = strength bs fire p1 g)
      have hT : T.Nonempty := ⟨p1, by simp [T, hm1]⟩
      obtain ⟨p, hm, hmaxT⟩ := Finset.exists_max_image T (fun p => p) hT
      have hmT : p ∈ S ∧ strength bs fire p g = strength bs fire p1 g := by simpa [T] using hm
      have hmS : p < n ∧ (bs p).Has g := by simpa [S] using hmT.1
      refine ⟨p, hmS.1, hmS.2, ?_, ?_⟩
      · have := hmax p0 (by simp [S, hp0, hh0])
        omega
      · intro p2 h2 hne hh
        have a := hmax p2 (by simp [S, h2, hh])
        by_cases he : strength bs fire p2 g = strength bs fire p1 g
        · have b := hmaxT p2 (by simp [T, S, h2, hh, he])
          omega
        · omega
    obtain ⟨p, ho⟩ := hex
    refine ⟨p, ⟨ho.1, ho.2.1, (mask_iff bs fire n p ho.1 g ho.2.1 hb).1.2 ho⟩, ?_⟩
    rintro q ⟨hq, hh, hm⟩
    exact owner_unique ((mask_iff bs fire n q hq g hh hb).1.1 hm) ho
  · intro h p hp hh
    rw [(mask_iff bs fire n p hp g hh hb).2]
    exact fun ho => h p hp hh ho.2.2.1

theorem width_toNat {b : Box} (h : b.empty = false) : (b.width.toNat : Int) = b.x1 - b.x0 ∧ (b.height.toNat : Int) = b.y1 - b.y0 := by
  have := empty_false.1 h
  unfold Box.width Box.height
  simp only [h, Bool.false_eq_true, if_false]
  omega

/-- The distance is positive exactly where the source is not transparent, if the source has at least two columns and
two rows. -/
theorem fire_pos (b : Box) (alpha : Pos → Rat) (hx : b.x0 + 2 ≤ b.x1) (hy : b.y0 + 2 ≤ b.y1) (g : Pos) (hg : b.Has g) :
    0 < fireOf b alpha (g.1 - b.x0, g.2 - b.y0) ↔ alpha (g.1 - b.x0, g.2 - b.y0) ≠ 0 := by
  have he : b.empty = false := by rw [empty_false]; omega
  obtain ⟨w, h⟩ := width_toNat he
  unfold Box.Has at hg
  have hin : Grassfire.inImage b.width.toNat b.height.toNat (g.1 - b.x0, g.2 - b.y0) := by
    unfold Grassfire.inImage; simp only; omega
  have := Grassfire.grassfire_spec (fun p => decide (alpha p = 0)) b.width.toNat b.height.toNat (by omega) (by omega) _ hin
  unfold fireOf
  obtain ⟨h1, q, hq, h2⟩ := this
  constructor
  · intro hpos ha
    have := h1 (g.1 - b.x0, g.2 - b.y0) (Or.inr (by simp [ha]))
    rw [Grassfire.dist_self] at this
    omega
  · intro ha
    have hne : (g.1 - b.x0, g.2 - b.y0) ≠ q := by
      intro hc
      rcases hq with hq | hq
      · rw [← hc] at hq; exact hq hin
      · rw [← hc] at hq; simp at hq; exact ha hq
    have := Grassfire.dist_pos hne
    omega

/-- C144: for sources of at least two columns and rows, each place of the mosaic where some source is not transparent
is in the mask of exactly one source, which is one that is not transparent there. -/
theorem masks_of_alphas (bs : Nat → Box) (alpha : Nat → Pos → Rat) (n : Nat) (g : Pos)
    (hb : ∀ p < n, (bs p).x0 + 2 ≤ (bs p).x1 ∧ (bs p).y0 + 2 ≤ (bs p).y1)
    (hc : ∃ p < n, (bs p).Has g ∧ alpha p (g.1 - (bs p).x0, g.2 - (bs p).y0) ≠ 0) :
    ∃! p, p < n ∧ (bs p).Has g ∧
      mask bs (fun p => fireOf (bs p) (alpha p)) n p (g.1 - (bs p).x0, g.2 - (bs p).y0) = 1 ∧
      alpha p (g.1 - (bs p).x0, g.2 - (bs p).y0) ≠ 0 := by
  have hb' : ∀ p < n, (bs p).empty = false := by
    intro p hp; rw [empty_false]; have := hb p hp; omega
  obtain ⟨p0, hp0, hh0, ha0⟩ := hc
  have := (masks_partition bs (fun p => fireOf (bs p) (alpha p)) n g hb').1
    ⟨p0, hp0, hh0, (fire_pos (bs p0) (alpha p0) (hb p0 hp0).1 (hb p0 hp0).2 g hh0).2 ha0⟩
  obtain ⟨p, ⟨h1, h2, h3⟩, hu⟩ := this
  have ho := ((mask_iff bs _ n p h1 g h2 hb').1.1 h3)
  refine ⟨p, ⟨h1, h2, h3, ?_⟩, ?_⟩
  · exact (fire_pos (bs p) (alpha p) (hb p h1).1 (hb p h1).2 g h2).1 ho.2.2.1
  · rintro q ⟨a, b, c, _⟩; exact hu q ⟨a, b, c⟩

/-- C144: a source of one column or one row gets an empty mask, wherever it is and whatever its alphas. -/
theorem thin_source_lost (bs : Nat → Box) (alpha : Nat → Pos → Rat) (n p : Nat) (hp : p < n) (g : Pos)
    (hb : ∀ p < n, (bs p).empty = false) (hg : (bs p).Has g) (ht : (bs p).x1 = (bs p).x0 + 1 ∨ (bs p).y1 = (bs p).y0 + 1) :
    mask bs (fun p => fireOf (bs p) (alpha p)) n p (g.1 - (bs p).x0, g.2 - (bs p).y0) = 0 := by
  rw [(mask_iff bs _ n p hp g hg hb).2]
  intro ho
  have h0 := ho.2.2.1
  obtain ⟨w, h⟩ := width_toNat (hb p hp)
  unfold strength fireOf at h0
  simp only at h0
  rw [Grassfire.grassfire_thin _ _ _ (by omega)] at h0
  exact lt_irrefl _ h0

/-- Three overlapping opaque sources: the deepest one has the place, of two equally deep the later one. -/
example :
    let bs := fun p : Nat => if p = 0 then (⟨0, 0, 4, 4⟩ : Box) else if p = 1 then ⟨2, 0, 6, 4⟩ else ⟨0, 1, 4, 5⟩
    let m := fun p (x y : Int) => mask bs (fun p => fireOf (bs p) (fun _ => 1)) 3 p (x - (bs p).x0, y - (bs p).y0)
    m 0 2 1 = 1 ∧ m 1 2 1 = 0 ∧ m 1 3 1 = 1 ∧ m 0 3 1 = 0 ∧ m 0 1 2 = 0 ∧ m 2 1 2 = 1 := by
  decide +kernel

end VW.Composite
