import Verif.Surface.Fill
import Mathlib.Tactic.Linarith
/-
C171: the two-threshold fill.
-/
namespace VW.Surface

/-- The four neighbours above and to the left. -/
def Before (n p : Px) : Prop := (n.2 = p.2 - 1 ∧ (n.1 = p.1 - 1 ∨ n.1 = p.1 ∨ n.1 = p.1 + 1)) ∨ (n.2 = p.2 ∧ n.1 = p.1 - 1)

/-- One of the eight neighbours. -/
def Near (n p : Px) : Prop := n ≠ p ∧ |n.1 - p.1| ≤ 1 ∧ |n.2 - p.2| ≤ 1

/-- What a flood fill gives: the pixels above the high threshold, and those above the low threshold with a filled neighbour. -/
inductive Flood (t : Tile) : Px → Prop
  | seed {p} : t.has p = true → t.val p > t.high → Flood t p
  | grow {p n} : t.has p = true → t.val p > t.low → Near n p → Flood t n → Flood t p

/-- Filled by a way that goes only right, or down (also askew), from a pixel above the high threshold. -/
inductive Down (t : Tile) : Px → Prop
  | seed {p} : t.has p = true → t.val p > t.high → Down t p
  | grow {p n} : t.has p = true → t.val p > t.low → Before n p → Down t n → Down t p

/-- Filled by such a way, and then one that goes only left, or up. -/
inductive DownUp (t : Tile) : Px → Prop
  | down {p} : Down t p → DownUp t p
  | grow {p n} : t.has p = true → t.val p > t.low → Before p n → DownUp t n → DownUp t p

theorem near_iff (n p : Px) : Near n p ↔ Before n p ∨ Before p n := by
  obtain ⟨a, b⟩ := n
  obtain ⟨c, d⟩ := p
  unfold Near Before
  simp only [ne_eq, Prod.mk.injEq, abs_le]
  omega

theorem Down.has {t : Tile} {p : Px} (h : Down t p) : t.has p = true := by cases h <;> assumption
theorem DownUp.has {t : Tile} {p : Px} (h : DownUp t p) : t.has p = true := by
  cases h with
  | down h => exact h.has
  | grow h => exact h

/-- `b` comes before `a` from left to right and top to bottom. -/
def Raster (b a : Px) : Prop := b.2 < a.2 ∨ (b.2 = a.2 ∧ b.1 < a.1)

theorem before_raster {n p : Px} (h : Before n p) : Raster n p := by
  unfold Before at h; unfold Raster; omega

theorem raster_irrefl {p : Px} : ¬ Raster p p := by unfold Raster; omega
theorem raster_asymm {p q : Px} (h : Raster p q) : ¬ Raster q p := by unfold Raster at *; omega

theorem mem_order1 (t : Tile) (p : Px) : p ∈ order1 t ↔ t.has p = true := by
  obtain ⟨c, r⟩ := p
  unfold order1 Tile.has
  simp only [List.mem_flatMap, List.mem_range, List.mem_map, Prod.mk.injEq, Bool.and_eq_true, decide_eq_true_eq]
  constructor
  · rintro ⟨r', hr, c', hc, rfl, rfl⟩; omega
  · rintro ⟨⟨⟨h1, h2⟩, h3⟩, h4⟩
    exact ⟨r.toNat, by omega, c.toNat, by omega, by omega, by omega⟩

theorem mem_order2 (t : Tile) (p : Px) : p ∈ order2 t ↔ t.has p = true := by
  rw [← mem_order1]
  unfold order1 order2
  simp only [List.mem_flatMap, List.mem_reverse, List.mem_map]

theorem order1_sorted (t : Tile) : (order1 t).Pairwise Raster := by
  unfold order1
  rw [List.pairwise_flatMap]
  constructor
  · intro r _
    rw [List.pairwise_map]
    exact List.Pairwise.imp (fun h => Or.inr ⟨rfl, by dsimp only; omega⟩) List.pairwise_lt_range
  · refine List.Pairwise.imp ?_ List.pairwise_lt_range
    intro a b hab x hx y hy
    obtain ⟨c, _, rfl⟩ := List.mem_map.mp hx
    obtain ⟨d, _, rfl⟩ := List.mem_map.mp hy
    exact Or.inl (by dsimp only; omega)

theorem order2_sorted (t : Tile) : (order2 t).Pairwise fun a b => Raster b a := by
  unfold order2
  rw [List.pairwise_flatMap]
  constructor
  · intro r _
    rw [List.pairwise_map, List.pairwise_reverse]
    exact List.Pairwise.imp (fun h => Or.inr ⟨rfl, by dsimp only; omega⟩) List.pairwise_lt_range
  · rw [List.pairwise_reverse]
    refine List.Pairwise.imp ?_ List.pairwise_lt_range
    intro a b hab x hx y hy
    obtain ⟨c, _, rfl⟩ := List.mem_map.mp hx
    obtain ⟨d, _, rfl⟩ := List.mem_map.mp hy
    exact Or.inl (by dsimp only; omega)

theorem put_self (out : Px → Nat) (p : Px) (x : Nat) : put out p x p = x := if_pos rfl
theorem put_ne (out : Px → Nat) {p q : Px} (x : Nat) (h : q ≠ p) : put out p x q = out q := if_neg h

/-- The test of the first pass. -/
theorem test1 (t : Tile) (out : Px → Nat) (p : Px) :
    (t.wrap out (p.1 - 1, p.2 - 1) > 0 ∨ t.wrap out (p.1, p.2 - 1) > 0 ∨ t.wrap out (p.1 + 1, p.2 - 1) > 0 ∨
      t.wrap out (p.1 - 1, p.2) > 0) ↔ ∃ n, Before n p ∧ t.has n = true ∧ out n > 0 := by
  have hw : ∀ n, t.wrap out n > 0 ↔ t.has n = true ∧ out n > 0 := by
    intro n; unfold Tile.wrap
    by_cases h : t.has n = true
    · rw [if_pos h]; simp [h]
    · rw [if_neg h]; simp [h]
  rw [hw, hw, hw, hw]
  constructor
  · rintro (h | h | h | h)
    · exact ⟨(p.1 - 1, p.2 - 1), by unfold Before; dsimp only; omega, h⟩
    · exact ⟨(p.1, p.2 - 1), by unfold Before; dsimp only; omega, h⟩
    · exact ⟨(p.1 + 1, p.2 - 1), by unfold Before; dsimp only; omega, h⟩
    · exact ⟨(p.1 - 1, p.2), by unfold Before; dsimp only; omega, h⟩
  · rintro ⟨⟨a, b⟩, hb, h⟩
    unfold Before at hb
    dsimp only at hb
    rcases hb with ⟨rfl, rfl | rfl | rfl⟩ | ⟨rfl, rfl⟩
    · exact Or.inl h
    · exact Or.inr (Or.inl h)
    · exact Or.inr (Or.inr (Or.inl h))
    · exact Or.inr (Or.inr (Or.inr h))

/-- The test of the second pass. -/
theorem test2 (t : Tile) (out : Px → Nat) (p : Px) :
    (t.wrap out (p.1 + 1, p.2 + 1) > 0 ∨ t.wrap out (p.1, p.2 + 1) > 0 ∨ t.wrap out (p.1 - 1, p.2 + 1) > 0 ∨
      t.wrap out (p.1 + 1, p.2) > 0) ↔ ∃ n, Before p n ∧ t.has n = true ∧ out n > 0 := by
  have hw : ∀ n, t.wrap out n > 0 ↔ t.has n = true ∧ out n > 0 := by
    intro n; unfold Tile.wrap
    by_cases h : t.has n = true
    · rw [if_pos h]; simp [h]
    · rw [if_neg h]; simp [h]
  rw [hw, hw, hw, hw]
  constructor
  · rintro (h | h | h | h)
    · exact ⟨(p.1 + 1, p.2 + 1), by unfold Before; dsimp only; omega, h⟩
    · exact ⟨(p.1, p.2 + 1), by unfold Before; dsimp only; omega, h⟩
    · exact ⟨(p.1 - 1, p.2 + 1), by unfold Before; dsimp only; omega, h⟩
    · exact ⟨(p.1 + 1, p.2), by unfold Before; dsimp only; omega, h⟩
  · rintro ⟨⟨a, b⟩, hb, h⟩
    unfold Before at hb
    dsimp only at hb
    have hb' : (a = p.1 + 1 ∧ b = p.2 + 1) ∨ (a = p.1 ∧ b = p.2 + 1) ∨ (a = p.1 - 1 ∧ b = p.2 + 1) ∨
        (a = p.1 + 1 ∧ b = p.2) := by omega
    rcases hb' with ⟨rfl, rfl⟩ | ⟨rfl, rfl⟩ | ⟨rfl, rfl⟩ | ⟨rfl, rfl⟩
    · exact Or.inl h
    · exact Or.inr (Or.inl h)
    · exact Or.inr (Or.inr (Or.inl h))
    · exact Or.inr (Or.inr (Or.inr h))

theorem step1_ne (t : Tile) (out : Px → Nat) {p q : Px} (h : q ≠ p) : step1 t out p q = out q := by
  unfold step1; split <;> exact put_ne _ _ h

theorem step2_ne (t : Tile) (out : Px → Nat) {p q : Px} (h : q ≠ p) : step2 t out p q = out q := by
  unfold step2; split
  · rfl
  · split
    · exact put_ne _ _ h
    · rfl

theorem fold_ne (f : (Px → Nat) → Px → Px → Nat) (hf : ∀ out p q, q ≠ p → f out p q = out q) (l : List Px) (out : Px → Nat)
    (q : Px) (hq : q ∉ l) : l.foldl f out q = out q := by
  induction l generalizing out with
  | nil => rfl
  | cons p l ih =>
    rw [List.foldl_cons, ih _ (fun h => hq (List.mem_cons_of_mem _ h)), hf _ _ _ (fun h => hq (by rw [h]; exact List.mem_cons_self))]

/-- The values are the two output values, with 0 for false. -/
structure Usual (t : Tile) : Prop where
  zero : t.outFalse = 0
  pos : 0 < t.outTrue

theorem pass1_iff (t : Tile) (hu : Usual t) (p : Px) :
    (pass1 t p > 0 ↔ Down t p) ∧ (pass1 t p = 0 ∨ pass1 t p = t.outTrue) := by
  have hz := hu.zero
  have hp := hu.pos
  have key : ∀ (l : List Px) (out : Px → Nat), l.Pairwise Raster → (∀ q ∈ l, t.has q = true) →
      (∀ q, t.has q = true → q ∉ l → ∀ x ∈ l, Raster q x) →
      (∀ q, q ∉ l → (out q > 0 ↔ Down t q) ∧ (out q = 0 ∨ out q = t.outTrue)) →
      ∀ q, (l.foldl (step1 t) out q > 0 ↔ Down t q) ∧ (l.foldl (step1 t) out q = 0 ∨ l.foldl (step1 t) out q = t.outTrue) := by
    intro l
    induction l with
    | nil => intro out _ _ _ h q; exact h q List.not_mem_nil
    | cons x l ih =>
      intro out hs hin hrest hout q
      rw [List.foldl_cons]
      have hs' := List.pairwise_cons.mp hs
      refine ih _ hs'.2 (fun y hy => hin y (List.mem_cons_of_mem _ hy)) ?_ ?_ q
      · intro y hy hyl z hz
        by_cases e : y = x
        · rw [e]; exact hs'.1 z hz
        · exact hrest y hy (fun h => by rcases List.mem_cons.mp h with h | h; exacts [e h, hyl h]) z (List.mem_cons_of_mem _ hz)
      · intro y hyl
        by_cases e : y = x
        · subst e
          have hD : Down t y ↔ t.val y > t.high ∨ (t.val y > t.low ∧ ∃ n, Before n y ∧ t.has n = true ∧ out n > 0) := by
            have hn : ∀ n, Before n y → n ∉ y :: l := by
              intro n hb hm
              have hr := before_raster hb
              rcases List.mem_cons.mp hm with h | h
              · rw [h] at hr; exact raster_irrefl hr
              · exact raster_asymm hr (hs'.1 n h)
            constructor
            · intro h
              cases h with
              | seed h1 h2 => exact Or.inl h2
              | @grow _ n h1 h2 h3 h4 => exact Or.inr ⟨h2, n, h3, h4.has, ((hout n (hn n h3)).1).mpr h4⟩
            · rintro (h | ⟨h, n, h1, h2, h3⟩)
              · exact Down.seed (hin y List.mem_cons_self) h
              · exact Down.grow (hin y List.mem_cons_self) h h1 (((hout n (hn n h1)).1).mp h3)
          unfold step1
          rw [← test1] at hD
          by_cases hd : Down t y
          · rw [if_pos (hD.mp hd), put_self]; exact ⟨⟨fun _ => hd, fun _ => hp⟩, Or.inr rfl⟩
          · rw [if_neg (fun h => hd (hD.mpr h)), put_self, hz]
            exact ⟨⟨fun h => absurd h (Nat.lt_irrefl 0), fun h => absurd h hd⟩, Or.inl rfl⟩
        · rw [step1_ne t out e]
          exact hout y (fun h => by rcases List.mem_cons.mp h with h | h; exacts [e h, hyl h])
  refine key (order1 t) _ (order1_sorted t) (fun q hq => (mem_order1 t q).mp hq) ?_ ?_ p
  · intro q hq hn; exact absurd ((mem_order1 t q).mpr hq) hn
  · intro q hq
    exact ⟨⟨fun h => absurd h (Nat.lt_irrefl 0), fun h => absurd ((mem_order1 t q).mpr h.has) hq⟩, Or.inl rfl⟩

/-- **C171 (what is filled)**: for every image, the pixels marked true are exactly those that a way from a pixel above the high
threshold reaches, first going right or down, then left or up, through pixels above the low threshold; all others are false. -/
theorem fill_iff (t : Tile) (hu : Usual t) (p : Px) :
    (fill t p = t.outTrue ↔ DownUp t p) ∧ (fill t p = t.outFalse ↔ ¬ DownUp t p) := by
  have hz := hu.zero
  have hp := hu.pos
  have key : ∀ (l : List Px) (out : Px → Nat), l.Pairwise (fun a b => Raster b a) → (∀ q ∈ l, t.has q = true) →
      (∀ q ∈ l, (out q > 0 ↔ Down t q) ∧ (out q = 0 ∨ out q = t.outTrue)) →
      (∀ q, q ∉ l → (out q > 0 ↔ DownUp t q) ∧ (out q = 0 ∨ out q = t.outTrue)) →
      ∀ q, (l.foldl (step2 t) out q > 0 ↔ DownUp t q) ∧
        (l.foldl (step2 t) out q = 0 ∨ l.foldl (step2 t) out q = t.outTrue) := by
    intro l
    induction l with
    | nil => intro out _ _ _ h q; exact h q List.not_mem_nil
    | cons x l ih =>
      intro out hs hin hnot hout q
      rw [List.foldl_cons]
      have hs' := List.pairwise_cons.mp hs
      have hxl : x ∉ l := fun h => raster_irrefl (hs'.1 x h)
      refine ih _ hs'.2 (fun y hy => hin y (List.mem_cons_of_mem _ hy)) ?_ ?_ q
      · intro y hy
        rw [step2_ne t out (fun e => hxl (by rw [← e]; exact hy))]
        exact hnot y (List.mem_cons_of_mem _ hy)
      · intro y hyl
        by_cases e : y = x
        · subst e
          have h0 := hnot y List.mem_cons_self
          have hn : ∀ n, Before y n → n ∉ y :: l := by
            intro n hb hm
            have hr := before_raster hb
            rcases List.mem_cons.mp hm with h | h
            · rw [h] at hr; exact raster_irrefl hr
            · exact raster_asymm hr (hs'.1 n h)
          unfold step2
          by_cases hd : out y = t.outTrue
          · rw [if_pos hd]
            exact ⟨⟨fun _ => DownUp.down (h0.1.mp (by omega)), fun _ => by omega⟩, Or.inr hd⟩
          · rw [if_neg hd]
            have h00 : out y = 0 := by rcases h0.2 with h | h; exacts [h, absurd h hd]
            have hnd : ¬ Down t y := fun h => by have := h0.1.mpr h; omega
            have hD : DownUp t y ↔ (t.val y > t.low ∧ ∃ n, Before y n ∧ t.has n = true ∧ out n > 0) := by
              constructor
              · intro h
                cases h with
                | down h => exact absurd h hnd
                | @grow _ n h1 h2 h3 h4 => exact ⟨h2, n, h3, h4.has, ((hout n (hn n h3)).1).mpr h4⟩
              · rintro ⟨h, n, h1, h2, h3⟩
                exact DownUp.grow (hin y List.mem_cons_self) h h1 (((hout n (hn n h1)).1).mp h3)
            rw [← test2] at hD
            by_cases hdu : DownUp t y
            · rw [if_pos (hD.mp hdu), put_self]; exact ⟨⟨fun _ => hdu, fun _ => hp⟩, Or.inr rfl⟩
            · rw [if_neg (fun h => hdu (hD.mpr h))]; exact ⟨⟨fun h => by omega, fun h => absurd h hdu⟩, Or.inl h00⟩
        · rw [step2_ne t out e]
          exact hout y (fun h => by rcases List.mem_cons.mp h with h | h; exacts [e h, hyl h])
  have h := key (order2 t) (pass1 t) (order2_sorted t) (fun q hq => (mem_order2 t q).mp hq)
    (fun q _ => pass1_iff t hu q) (fun q hq => by
      have hnh : ¬ t.has q = true := fun h => hq ((mem_order2 t q).mpr h)
      have h1 := pass1_iff t hu q
      exact ⟨⟨fun h => DownUp.down (h1.1.mp h), fun h => absurd h.has hnh⟩, h1.2⟩) p
  change (fill t p > 0 ↔ DownUp t p) ∧ (fill t p = 0 ∨ fill t p = t.outTrue) at h
  rw [hz, ← h.1]
  rcases h.2 with e | e <;> rw [e] <;> omega

/-- **C171 (nothing else)**: every pixel marked true is one of the flood fill, and every pixel above the high threshold is
marked. -/
theorem fill_sound_partial (t : Tile) (hu : Usual t) (p : Px) :
    (fill t p = t.outTrue → Flood t p) ∧ (t.has p = true → t.val p > t.high → fill t p = t.outTrue) := by
  have h1 : ∀ p, Down t p → Flood t p := by
    intro p h
    induction h with
    | seed h1 h2 => exact Flood.seed h1 h2
    | grow h1 h2 h3 _ ih => exact Flood.grow h1 h2 ((near_iff _ _).mpr (Or.inl h3)) ih
  have h2 : ∀ p, DownUp t p → Flood t p := by
    intro p h
    induction h with
    | down h => exact h1 _ h
    | grow h1 h2 h3 _ ih => exact Flood.grow h1 h2 ((near_iff _ _).mpr (Or.inr h3)) ih
  exact ⟨fun h => h2 p ((fill_iff t hu p).1.mp h), fun h h' => (fill_iff t hu p).1.mpr (DownUp.down (Down.seed h h'))⟩

/-- A tile of three columns and two rows: the middle of the lower row is too low, its right end is a seed. -/
def arch : Tile where
  w := 3
  h := 2
  val p := if p = (1, 1) then 0 else if p = (2, 1) then 10 else 3
  low := 1
  high := 5
  outFalse := 0
  outTrue := 1

example : Usual arch := ⟨rfl, by decide⟩

/-- **Discrepancy**: it is no flood fill: a way that goes up and then down again is not followed. -/
theorem not_flood : Usual arch ∧ Flood arch (0, 1) ∧ fill arch (0, 1) = arch.outFalse ∧ fill arch (1, 0) = arch.outTrue := by
  refine ⟨⟨rfl, by decide⟩, ?_, by decide +kernel, by decide +kernel⟩
  refine Flood.grow (n := (1, 0)) (by decide) (by decide +kernel) ⟨by decide, by decide, by decide⟩ ?_
  refine Flood.grow (n := (2, 1)) (by decide) (by decide +kernel) ⟨by decide, by decide, by decide⟩ ?_
  exact Flood.seed (by decide) (by decide +kernel)

/-- **Discrepancy**: with a value for false other than 0, pixels are marked without any pixel above the high threshold. -/
theorem false_not_zero : fill ⟨2, 1, fun _ => 3, 1, 5, 1, 2⟩ (1, 0) = 2 := by decide +kernel

/-- Two images with the same size, thresholds and output values, and values equal up to a move by `o`: what is filled in the
second is filled in the first. -/
theorem downUp_move {s t : Tile} (o : Px) (hlow : s.low = t.low) (hhigh : s.high = t.high)
    (hhas : ∀ p, s.has p = true → t.has (p.1 + o.1, p.2 + o.2) = true) (hval : ∀ p, s.val p = t.val (p.1 + o.1, p.2 + o.2)) :
    ∀ p, DownUp s p → DownUp t (p.1 + o.1, p.2 + o.2) := by
  have hB : ∀ n p : Px, Before n p → Before (n.1 + o.1, n.2 + o.2) (p.1 + o.1, p.2 + o.2) := by
    intro n p h; unfold Before at *; dsimp only; omega
  have hD : ∀ p, Down s p → Down t (p.1 + o.1, p.2 + o.2) := by
    intro p h
    induction h with
    | seed h1 h2 => exact Down.seed (hhas _ h1) (by rw [← hval, ← hhigh]; exact h2)
    | grow h1 h2 h3 _ ih => exact Down.grow (hhas _ h1) (by rw [← hval, ← hlow]; exact h2) (hB _ _ h3) ih
  intro p h
  induction h with
  | down h => exact DownUp.down (hD _ h)
  | grow h1 h2 h3 _ ih => exact DownUp.grow (hhas _ h1) (by rw [← hval, ← hlow]; exact h2) (hB _ _ h3) ih

/-- **C171 (blocks)**: a pixel marked true when a block of the image is made, for every block and expansion, is marked true
when the whole image is made at once: blocks only lose pixels. -/
theorem block_sound (m : Image) (hu : Usual m) (e x0 y0 x1 y1 : Int) (p : Px)
    (h : blockAt m e x0 y0 x1 y1 p = m.outTrue) : fill m p = m.outTrue := by
  have hu' : Usual (blockTile m e x0 y0 x1 y1).2 := ⟨hu.zero, hu.pos⟩
  have h1 := (fill_iff _ hu' _).1.mp h
  have h2 := downUp_move (s := (blockTile m e x0 y0 x1 y1).2) (t := m) (blockTile m e x0 y0 x1 y1).1 rfl rfl (by
    intro q hq
    unfold Tile.has blockTile at *
    simp only [Bool.and_eq_true, decide_eq_true_eq] at hq ⊢
    omega) (fun q => rfl) _ h1
  refine (fill_iff m hu p).1.mpr ?_
  have e : ((p.1 - (blockTile m e x0 y0 x1 y1).1.1) + (blockTile m e x0 y0 x1 y1).1.1,
      (p.2 - (blockTile m e x0 y0 x1 y1).1.2) + (blockTile m e x0 y0 x1 y1).1.2) = p := by
    ext <;> dsimp only <;> omega
  rwa [e] at h2

/-- A row of four pixels above the low threshold with a seed at its left. -/
def row : Tile := ⟨4, 1, fun p => if p.1 = 0 then 10 else 3, 1, 5, 0, 1⟩

/-- **Discrepancy**: … and they do lose some: the result depends on how the image is cut into blocks, unless the expansion
covers the image. -/
theorem block_loses : Usual row ∧ blockAt row 1 3 0 4 1 (3, 0) = 0 ∧ blockAt row 1 0 0 4 1 (3, 0) = 1 :=
  ⟨⟨rfl, by decide⟩, by decide +kernel, by decide +kernel⟩

end VW.Surface
