import Mathlib.Data.List.Basic
import Mathlib.Data.List.Range
import Mathlib.Tactic.ByContra
/-
Model of `grassfire`, src/vw/Image/Grassfire.h:66-206, and property C50.

Pixels are at integer places; the source is the predicate "is zero". The output has integers that do not overflow (the
default output is int32). The accessors are places, the loops folds over the places in the order of the loops.
-/
namespace VW.Grassfire

abbrev Pos := Int × Int

/-! ### Model -/

/-- Writing a pixel. -/
def set (d : Pos → Int) (p : Pos) (v : Int) : Pos → Int := fun q => if q = p then v else d q

/-- A loop over places, each of which gets a value computed from the image so far. -/
def scan (f : Pos → (Pos → Int) → Int) (ps : List Pos) (d : Pos → Int) : Pos → Int :=
  ps.foldl (fun d p => set d p (f p d)) d

/-- Columns c0..c1-1 of rows r0..r1-1, row by row. -/
def raster (c0 c1 r0 r1 : Nat) : List Pos :=
  (List.range' r0 (r1 - r0)).flatMap (fun (r : Nat) => (List.range' c0 (c1 - c0)).map (fun (c : Nat) => ((c : Int), (r : Int))))

/-- Places of the first or last row or column. -/
def isEdge (W H : Nat) (p : Pos) : Bool := p.1 == 0 || p.1 == (W : Int) - 1 || p.2 == 0 || p.2 == (H : Int) - 1

/-- First pass, Grassfire.h:86-131: the first and last row and the first and last pixel of a row get 0 or 1. (The
separate loops of the code, in the same order of places, are here one.) -/
def first (zero : Pos → Bool) (W H : Nat) (p : Pos) (d : Pos → Int) : Int :=
  if zero p then 0
  else if isEdge W H p then 1
  else 1 + min (d (p.1 - 1, p.2)) (d (p.1, p.2 - 1))

/-- Second pass, Grassfire.h:134-150, over the inner pixels, backwards. -/
def second (p : Pos) (d : Pos → Int) : Int :=
  if d p ≠ 0 then
    let m := min (d (p.1 + 1, p.2)) (d (p.1, p.2 + 1))
    if m < d p then m + 1 else d p
  else d p

/-- First pass when borders are ignored, Grassfire.h:157-189. -/
def firstI (zero : Pos → Bool) (init : Int) (p : Pos) (d : Pos → Int) : Int :=
  if zero p then 0
  else if p.2 > 0 then
    (if p.1 > 0 then min (d (p.1 - 1, p.2)) (d (p.1, p.2 - 1)) + 1 else min init (d (p.1, p.2 - 1) + 1))
  else
    (if p.1 > 0 then min init (d (p.1 - 1, p.2) + 1) else init)

/-- Second pass when borders are ignored, Grassfire.h:192-215 (there row and col count down to 1). -/
def secondI (W H : Nat) (init : Int) (p : Pos) (d : Pos → Int) : Int :=
  if d p ≠ 0 then
    let m := d p
    let m := if p.1 + 1 < W then min m (d (p.1 + 1, p.2) + 1) else m
    let m := if p.2 + 1 < H then min m (d (p.1, p.2 + 1) + 1) else m
    if m > init then init else m
  else d p

/-- `grassfire`, Grassfire.h:66-206. -/
def grassfire (zero : Pos → Bool) (W H : Nat) (ignoreBorders : Bool) : Pos → Int :=
  if W ≤ 1 ∨ H ≤ 1 then fun _ => 0
  else if ¬ ignoreBorders then
    let d := scan (first zero W H) (raster 0 W 0 H) (fun _ => 0)
    scan second (raster 1 (W - 1) 1 (H - 1)).reverse d
  else
    let init : Int := (W : Int) + H
    let d := scan (firstI zero init) (raster 0 W 0 H) (fun _ => 0)
    scan (secondI W H init) (raster 0 W 0 H).reverse d

/-! ### Specification -/

/-- Manhattan distance. -/
def dist (p q : Pos) : Nat := (p.1 - q.1).natAbs + (p.2 - q.2).natAbs

/-- A place of the image. -/
def inImage (W H : Nat) (p : Pos) : Prop := 0 ≤ p.1 ∧ p.1 < W ∧ 0 ≤ p.2 ∧ p.2 < H

instance (W H p) : Decidable (inImage W H p) := inferInstanceAs (Decidable (_ ∧ _))

/-- Zero places when all around the image is zero. -/
def zeroOrOutside (zero : Pos → Bool) (W H : Nat) (q : Pos) : Prop := ¬ inImage W H q ∨ zero q = true

/-- Zero places of the image. -/
def zeroInside (zero : Pos → Bool) (W H : Nat) (q : Pos) : Prop := inImage W H q ∧ zero q = true

/-- v is the distance from p to the nearest place of Z. -/
def IsDistance (Z : Pos → Prop) (p : Pos) (v : Int) : Prop := (∀ q, Z q → v ≤ dist p q) ∧ ∃ q, Z q ∧ v = dist p q

/-! ### Scans -/

theorem scan_snoc (f : Pos → (Pos → Int) → Int) (ps : List Pos) (p : Pos) (d : Pos → Int) :
    scan f (ps ++ [p]) d = set (scan f ps d) p (f p (scan f ps d)) := by
  unfold scan; rw [List.foldl_append]; rfl

theorem scan_other (f : Pos → (Pos → Int) → Int) (ps : List Pos) (d : Pos → Int) (q : Pos) (hq : q ∉ ps) :
    scan f ps d q = d q := by
  induction ps using List.reverseRecOn with
  | nil => rfl
  | append_singleton ps p ih =>
    rw [scan_snoc]
    simp only [List.mem_append, List.mem_singleton, not_or] at hq
    unfold set; rw [if_neg hq.2]; exact ih hq.1

/-- What holds of each value written, given what holds of those written before, holds at the end. -/
theorem scan_inv {f : Pos → (Pos → Int) → Int} {P : Pos → Int → Prop} {d0 : Pos → Int} (ps : List Pos)
    (hnd : ps.Nodup)
    (h : ∀ a p b, ps = a ++ p :: b → ∀ d : Pos → Int, (∀ q ∈ a, P q (d q)) → (∀ q, q ∉ a → d q = d0 q) → P p (f p d)) :
    ∀ p ∈ ps, P p (scan f ps d0 p) := by
  have key : ∀ (as bs : List Pos), ps = as ++ bs → ∀ p ∈ as, P p (scan f as d0 p) := by
    intro as
    induction as using List.reverseRecOn with
    | nil => intro bs _ p hp; simp at hp
    | append_singleton as x ih =>
      intro bs e p hp
      have e' : ps = as ++ x :: bs := by rw [e]; simp
      have hi := ih (x :: bs) e'
      rw [scan_snoc]
      have hx : x ∉ as := by
        rw [e'] at hnd
        intro hx
        exact (List.nodup_append.1 hnd).2.2 x hx x (by simp) rfl
      unfold set
      split
      · rename_i hpx; subst hpx
        exact h as p bs e' _ hi (fun q hq => scan_other f as d0 q hq)
      · rename_i hpx
        rcases List.mem_append.1 hp with hp | hp
        · exact hi p hp
        · simp at hp; exact absurd hp hpx
  exact key ps [] (by simp)

/-- Row by row order. -/
def before (p q : Pos) : Prop := p.2 < q.2 ∨ (p.2 = q.2 ∧ p.1 < q.1)

theorem mem_raster {c0 c1 r0 r1 : Nat} {p : Pos} :
    p ∈ raster c0 c1 r0 r1 ↔ (c0 : Int) ≤ p.1 ∧ p.1 < c1 ∧ (r0 : Int) ≤ p.2 ∧ p.2 < r1 := by
  unfold raster
  simp only [List.mem_flatMap, List.mem_map, List.mem_range'_1]
  constructor
  · rintro ⟨r, hr, c, hc, rfl⟩; dsimp only; omega
  · rintro ⟨h1, h2, h3, h4⟩
    refine ⟨p.2.toNat, by omega, p.1.toNat, by omega, ?_⟩
    apply Prod.ext <;> dsimp only <;> omega

theorem raster_sorted (c0 c1 r0 r1 : Nat) : (raster c0 c1 r0 r1).Pairwise before := by
  unfold raster
  rw [List.pairwise_flatMap]
  constructor
  · intro r _
    rw [List.pairwise_map]
    exact (List.pairwise_lt_range' (s := c0) (n := c1 - c0) (step := 1)).imp (fun h => Or.inr ⟨rfl, by dsimp only; omega⟩)
  · refine (List.pairwise_lt_range' (s := r0) (n := r1 - r0) (step := 1)).imp (fun h => ?_)
    intro p hp q hq
    obtain ⟨c, _, rfl⟩ := List.mem_map.1 hp
    obtain ⟨c', _, rfl⟩ := List.mem_map.1 hq
    exact Or.inl (by dsimp only; omega)

theorem before_irrefl (p : Pos) : ¬ before p p := by unfold before; omega

theorem raster_nodup (c0 c1 r0 r1 : Nat) : (raster c0 c1 r0 r1).Nodup :=
  (raster_sorted c0 c1 r0 r1).imp (fun {p q} (h : before p q) (e : p = q) => before_irrefl q (e ▸ h))

/-- In a list sorted by R, what comes before p by R is in the part before p. -/
theorem mem_prefix {R : Pos → Pos → Prop} (asymm : ∀ x y, R x y → ¬ R y x) {ps a b : List Pos} {p q : Pos}
    (hs : ps.Pairwise R) (e : ps = a ++ p :: b) (hq : q ∈ ps) (h : R q p) : q ∈ a := by
  rw [e] at hq hs
  rcases List.mem_append.1 hq with hq | hq
  · exact hq
  · have hp := (List.pairwise_append.1 hs).2.1
    rcases List.mem_cons.1 hq with rfl | hq
    · exact absurd h (asymm _ _ h)
    · exact absurd h (asymm _ _ ((List.pairwise_cons.1 hp).1 q hq))

theorem not_mem_prefix {ps a b : List Pos} {p : Pos} (hn : ps.Nodup) (e : ps = a ++ p :: b) : p ∉ a := by
  rw [e] at hn
  intro hp
  exact (List.nodup_append.1 hn).2.2 p hp p (by simp) rfl

theorem before_asymm (x y : Pos) : before x y → ¬ before y x := by unfold before; omega

/-! ### With borders -/

/-- After the first pass: an upper bound by the zeros up and to the left (all zeros for the edge), a lower bound. -/
def Pass1 (Z : Pos → Prop) (E : Pos → Prop) (p : Pos) (v : Int) : Prop :=
  (∀ q, Z q → (q.1 ≤ p.1 ∧ q.2 ≤ p.2) ∨ E p → v ≤ dist p q) ∧ (∃ q, Z q ∧ dist p q ≤ v)

theorem dist_pos {p q : Pos} (h : p ≠ q) : 1 ≤ dist p q := by
  unfold dist
  by_contra hc
  exact h (Prod.ext (by omega) (by omega))

theorem dist_self (p : Pos) : dist p p = 0 := by unfold dist; omega

theorem first_pass (zero : Pos → Bool) (W H : Nat) (p : Pos) (hp : inImage W H p) :
    Pass1 (zeroOrOutside zero W H) (fun p => isEdge W H p = true) p
      (scan (first zero W H) (raster 0 W 0 H) (fun _ => 0) p) := by
  have hmem : ∀ q, q ∈ raster 0 W 0 H ↔ inImage W H q := by
    intro q; rw [mem_raster]; unfold inImage; simp
  refine scan_inv (P := Pass1 (zeroOrOutside zero W H) (fun p => isEdge W H p = true)) _ (raster_nodup 0 W 0 H) ?_ p
    ((hmem p).2 hp)
  clear hp p
  intro a p b e d ha _
  have hp : inImage W H p := (hmem p).1 (by rw [e]; simp)
  unfold first
  by_cases hz : zero p = true
  · rw [if_pos hz]
    exact ⟨fun q _ _ => by omega, p, Or.inr hz, by rw [dist_self]; omega⟩
  · rw [if_neg hz]
    have hzp : ∀ q, zeroOrOutside zero W H q → p ≠ q := by
      rintro q (h | h) rfl
      · exact h hp
      · exact hz h
    by_cases he : isEdge W H p = true
    · rw [if_pos he]
      refine ⟨fun q hq _ => by have := dist_pos (hzp q hq); omega, ?_⟩
      simp only [isEdge, Bool.or_eq_true, beq_iff_eq] at he
      unfold inImage at hp
      rcases he with ((he | he) | he) | he
      · exact ⟨(p.1 - 1, p.2), Or.inl (by unfold inImage; dsimp only; omega), by unfold dist; dsimp only; omega⟩
      · exact ⟨(p.1 + 1, p.2), Or.inl (by unfold inImage; dsimp only; omega), by unfold dist; dsimp only; omega⟩
      · exact ⟨(p.1, p.2 - 1), Or.inl (by unfold inImage; dsimp only; omega), by unfold dist; dsimp only; omega⟩
      · exact ⟨(p.1, p.2 + 1), Or.inl (by unfold inImage; dsimp only; omega), by unfold dist; dsimp only; omega⟩
    · rw [if_neg he]
      have he' := he
      simp only [isEdge, Bool.or_eq_true, beq_iff_eq, not_or] at he'
      unfold inImage at hp
      have hl : Pass1 (zeroOrOutside zero W H) (fun p => isEdge W H p = true) (p.1 - 1, p.2) (d (p.1 - 1, p.2)) :=
        ha _ (mem_prefix before_asymm (raster_sorted 0 W 0 H) e ((hmem _).2 (by unfold inImage; dsimp only; omega))
          (Or.inr ⟨rfl, by dsimp only; omega⟩))
      have hu : Pass1 (zeroOrOutside zero W H) (fun p => isEdge W H p = true) (p.1, p.2 - 1) (d (p.1, p.2 - 1)) :=
        ha _ (mem_prefix before_asymm (raster_sorted 0 W 0 H) e ((hmem _).2 (by unfold inImage; dsimp only; omega))
          (Or.inl (by dsimp only; omega)))
      constructor
      · rintro q hq (hq' | hq')
        · have hne := hzp q hq
          by_cases h1 : q.1 < p.1
          · have := hl.1 q hq (Or.inl (by dsimp only; omega))
            unfold dist at *; dsimp only at *; omega
          · have h2 : q.2 < p.2 := by
              rcases Int.lt_or_eq_of_le hq'.2 with h | h
              · exact h
              · exact absurd (Prod.ext (by omega) h.symm) hne
            have := hu.1 q hq (Or.inl (by dsimp only; omega))
            unfold dist at *; dsimp only at *; omega
        · exact absurd hq' he
      · rcases Int.le_total (d (p.1 - 1, p.2)) (d (p.1, p.2 - 1)) with h | h
        · obtain ⟨q, hq, hqd⟩ := hl.2
          refine ⟨q, hq, ?_⟩
          rw [Int.min_eq_left h]
          unfold dist at *; dsimp only at *; omega
        · obtain ⟨q, hq, hqd⟩ := hu.2
          refine ⟨q, hq, ?_⟩
          rw [Int.min_eq_right h]
          unfold dist at *; dsimp only at *; omega

/-- **C50 (grassfire)**: for every image of at least two rows and columns, every pixel gets its Manhattan distance to
the nearest zero pixel or place outside of the image. -/
theorem grassfire_spec (zero : Pos → Bool) (W H : Nat) (hW : 2 ≤ W) (hH : 2 ≤ H) (p : Pos) (hp : inImage W H p) :
    IsDistance (zeroOrOutside zero W H) p (grassfire zero W H false p) := by
  have e : grassfire zero W H false = scan second (raster 1 (W - 1) 1 (H - 1)).reverse
      (scan (first zero W H) (raster 0 W 0 H) (fun _ => 0)) := by
    unfold grassfire; rw [if_neg (by omega)]; simp
  rw [e]
  have h1 := first_pass zero W H
  generalize scan (first zero W H) (raster 0 W 0 H) (fun _ => 0) = d0 at *
  have hmem : ∀ q, q ∈ (raster 1 (W - 1) 1 (H - 1)).reverse ↔ inImage W H q ∧ ¬ isEdge W H q = true := by
    intro q
    rw [List.mem_reverse, mem_raster]
    unfold inImage
    simp only [isEdge, Bool.or_eq_true, beq_iff_eq, not_or]
    omega
  -- what both kinds of pixels satisfy in the end
  have conv : ∀ (p : Pos) (v : Int), (∀ q, zeroOrOutside zero W H q → v ≤ dist p q) ∧ (∃ q, zeroOrOutside zero W H q ∧ dist p q ≤ v) →
      IsDistance (zeroOrOutside zero W H) p v := by
    rintro p v ⟨h, q, hq, hqd⟩
    exact ⟨h, q, hq, by have := h q hq; omega⟩
  apply conv
  have hnd : (raster 1 (W - 1) 1 (H - 1)).reverse.Nodup := List.pairwise_reverse.2 ((raster_nodup _ _ _ _).imp Ne.symm)
  have hsorted : (raster 1 (W - 1) 1 (H - 1)).reverse.Pairwise (fun x y => before y x) :=
    List.pairwise_reverse.2 (raster_sorted _ _ _ _)
  by_cases hedge : isEdge W H p = true
  · rw [scan_other _ _ _ _ (by rw [hmem]; exact fun h => h.2 hedge)]
    exact ⟨fun q hq => (h1 p hp).1 q hq (Or.inr hedge), (h1 p hp).2⟩
  · refine scan_inv (P := fun p v => (∀ q, zeroOrOutside zero W H q → v ≤ dist p q) ∧
      (∃ q, zeroOrOutside zero W H q ∧ dist p q ≤ v)) _ hnd ?_ p ((hmem p).2 ⟨hp, hedge⟩)
    clear hedge hp p
    intro a p b es d ha hd
    obtain ⟨hp, hedge⟩ := (hmem p).1 (by rw [es]; simp)
    have hdp : d p = d0 p := hd p (not_mem_prefix hnd es)
    have hself := h1 p hp
    rw [← hdp] at hself
    -- the two neighbours are done
    have done : ∀ q, inImage W H q → before p q →
        (∀ z, zeroOrOutside zero W H z → d q ≤ dist q z) ∧ (∃ z, zeroOrOutside zero W H z ∧ dist q z ≤ d q) := by
      intro q hq hbef
      by_cases he : isEdge W H q = true
      · have hqa : q ∉ a := by
          intro hqa
          exact ((hmem q).1 (by rw [es]; simp [hqa])).2 he
        rw [hd q hqa]
        exact ⟨fun z hz => (h1 q hq).1 z hz (Or.inr he), (h1 q hq).2⟩
      · exact ha q (mem_prefix (R := fun x y => before y x) (fun x y h => before_asymm _ _ h) hsorted es
          ((hmem q).2 ⟨hq, he⟩) hbef)
    simp only [isEdge, Bool.or_eq_true, beq_iff_eq, not_or] at hedge
    unfold inImage at hp
    have hr := done (p.1 + 1, p.2) (by unfold inImage; dsimp only; omega) (Or.inr ⟨rfl, by dsimp only; omega⟩)
    have hb := done (p.1, p.2 + 1) (by unfold inImage; dsimp only; omega) (Or.inl (by dsimp only; omega))
    obtain ⟨hr1, zr, hzr, hr2⟩ := hr
    obtain ⟨hb1, zb, hzb, hb2⟩ := hb
    obtain ⟨hs1, zs, hzs, hs2⟩ := hself
    unfold second
    by_cases h0 : d p ≠ 0
    · rw [if_pos h0]
      dsimp only
      constructor
      · intro q hq
        by_cases hle : q.1 ≤ p.1 ∧ q.2 ≤ p.2
        · have := hs1 q hq (Or.inl hle)
          split <;> omega
        · by_cases hc : p.1 < q.1
          · have := hr1 q hq
            have e1 : dist (p.1 + 1, p.2) q + 1 = dist p q := by unfold dist; dsimp only; omega
            split <;> omega
          · have := hb1 q hq
            have e1 : dist (p.1, p.2 + 1) q + 1 = dist p q := by unfold dist; dsimp only; omega
            split <;> omega
      · split
        · rcases Int.le_total (d (p.1 + 1, p.2)) (d (p.1, p.2 + 1)) with h | h
          · refine ⟨zr, hzr, ?_⟩
            rw [Int.min_eq_left h]; unfold dist at *; dsimp only at *; omega
          · refine ⟨zb, hzb, ?_⟩
            rw [Int.min_eq_right h]; unfold dist at *; dsimp only at *; omega
        · exact ⟨zs, hzs, hs2⟩
    · rw [if_neg h0]
      have h0 : d p = 0 := by omega
      exact ⟨fun q _ => by omega, zs, hzs, hs2⟩

/-! ### Without borders -/

/-- After the first pass. -/
def Pass1I (Z : Pos → Prop) (init : Int) (p : Pos) (v : Int) : Prop :=
  (∀ q, Z q → q.1 ≤ p.1 ∧ q.2 ≤ p.2 → v ≤ dist p q) ∧ (init ≤ v ∨ ∃ q, Z q ∧ dist p q ≤ v)

theorem first_passI (zero : Pos → Bool) (W H : Nat) (p : Pos) (hp : inImage W H p) :
    Pass1I (zeroInside zero W H) ((W : Int) + H) p
      (scan (firstI zero ((W : Int) + H)) (raster 0 W 0 H) (fun _ => 0) p) := by
  have hmem : ∀ q, q ∈ raster 0 W 0 H ↔ inImage W H q := by
    intro q; rw [mem_raster]; unfold inImage; simp
  refine scan_inv (P := Pass1I (zeroInside zero W H) ((W : Int) + H)) _ (raster_nodup 0 W 0 H) ?_ p ((hmem p).2 hp)
  clear hp p
  intro a p b e d ha _
  have hp : inImage W H p := (hmem p).1 (by rw [e]; simp)
  unfold firstI
  by_cases hz : zero p = true
  · rw [if_pos hz]
    exact ⟨fun q _ _ => by omega, Or.inr ⟨p, ⟨hp, hz⟩, by rw [dist_self]; omega⟩⟩
  · rw [if_neg hz]
    have hzp : ∀ q, zeroInside zero W H q → p ≠ q := by
      rintro q ⟨_, h⟩ rfl
      exact hz h
    unfold inImage at hp
    have hl : 0 < p.1 → Pass1I (zeroInside zero W H) ((W : Int) + H) (p.1 - 1, p.2) (d (p.1 - 1, p.2)) := fun h =>
      ha _ (mem_prefix before_asymm (raster_sorted 0 W 0 H) e ((hmem _).2 (by unfold inImage; dsimp only; omega))
        (Or.inr ⟨rfl, by dsimp only; omega⟩))
    have hu : 0 < p.2 → Pass1I (zeroInside zero W H) ((W : Int) + H) (p.1, p.2 - 1) (d (p.1, p.2 - 1)) := fun h =>
      ha _ (mem_prefix before_asymm (raster_sorted 0 W 0 H) e ((hmem _).2 (by unfold inImage; dsimp only; omega))
        (Or.inl (by dsimp only; omega)))
    -- a zero up-left is seen through a neighbour
    have key : ∀ q, zeroInside zero W H q → q.1 ≤ p.1 ∧ q.2 ≤ p.2 →
        (0 < p.1 ∧ q.1 < p.1) ∨ (0 < p.2 ∧ q.1 = p.1 ∧ q.2 < p.2) := by
      intro q hq hle
      have hne := hzp q hq
      have hqi := hq.1
      unfold inImage at hqi
      by_cases h1 : q.1 < p.1
      · exact Or.inl ⟨by omega, h1⟩
      · have : q.2 ≠ p.2 := fun h => hne (Prod.ext (by omega) h.symm)
        exact Or.inr ⟨by omega, by omega, by omega⟩
    have viaL : ∀ (h : 0 < p.1) q, zeroInside zero W H q → q.1 < p.1 → q.2 ≤ p.2 → d (p.1 - 1, p.2) + 1 ≤ dist p q := by
      intro h q hq h1 h2
      have := (hl h).1 q hq ⟨by dsimp only; omega, by dsimp only; omega⟩
      unfold dist at *; dsimp only at *; omega
    have viaU : ∀ (h : 0 < p.2) q, zeroInside zero W H q → q.1 ≤ p.1 → q.2 < p.2 → d (p.1, p.2 - 1) + 1 ≤ dist p q := by
      intro h q hq h1 h2
      have := (hu h).1 q hq ⟨by dsimp only; omega, by dsimp only; omega⟩
      unfold dist at *; dsimp only at *; omega
    have lowL : 0 < p.1 → ((W : Int) + H ≤ d (p.1 - 1, p.2) + 1 ∨ ∃ q, zeroInside zero W H q ∧ dist p q ≤ d (p.1 - 1, p.2) + 1) := by
      intro h
      rcases (hl h).2 with h | ⟨q, hq, hd⟩
      · left; omega
      · right; refine ⟨q, hq, ?_⟩; unfold dist at *; dsimp only at *; omega
    have lowU : 0 < p.2 → ((W : Int) + H ≤ d (p.1, p.2 - 1) + 1 ∨ ∃ q, zeroInside zero W H q ∧ dist p q ≤ d (p.1, p.2 - 1) + 1) := by
      intro h
      rcases (hu h).2 with h | ⟨q, hq, hd⟩
      · left; omega
      · right; refine ⟨q, hq, ?_⟩; unfold dist at *; dsimp only at *; omega
    by_cases hr : p.2 > 0
    · by_cases hc : p.1 > 0
      · rw [if_pos hr, if_pos hc]
        constructor
        · intro q hq hle
          rcases key q hq hle with ⟨_, h⟩ | ⟨_, h1, h2⟩
          · have := viaL hc q hq h hle.2; omega
          · have := viaU hr q hq (by omega) h2; omega
        · rcases Int.le_total (d (p.1 - 1, p.2)) (d (p.1, p.2 - 1)) with h | h
          · rw [Int.min_eq_left h]; exact lowL hc
          · rw [Int.min_eq_right h]; exact lowU hr
      · rw [if_pos hr, if_neg hc]
        constructor
        · intro q hq hle
          rcases key q hq hle with ⟨h, _⟩ | ⟨_, h1, h2⟩
          · omega
          · have := viaU hr q hq (by omega) h2; omega
        · rcases Int.le_total ((W : Int) + H) (d (p.1, p.2 - 1) + 1) with h | h
          · rw [Int.min_eq_left h]; exact Or.inl (Int.le_refl _)
          · rw [Int.min_eq_right h]; exact lowU hr
    · by_cases hc : p.1 > 0
      · rw [if_neg hr, if_pos hc]
        constructor
        · intro q hq hle
          rcases key q hq hle with ⟨_, h⟩ | ⟨h, _⟩
          · have := viaL hc q hq h hle.2; omega
          · omega
        · rcases Int.le_total ((W : Int) + H) (d (p.1 - 1, p.2) + 1) with h | h
          · rw [Int.min_eq_left h]; exact Or.inl (Int.le_refl _)
          · rw [Int.min_eq_right h]; exact lowL hc
      · rw [if_neg hr, if_neg hc]
        constructor
        · intro q hq hle
          rcases key q hq hle with ⟨h, _⟩ | ⟨h, _⟩ <;> omega
        · exact Or.inl (Int.le_refl _)

/-- **C50 (grassfire, borders ignored)**: with at least one zero pixel every pixel gets its distance to the nearest
one; with none, every pixel gets the number of rows plus columns. -/
theorem grassfire_ignore_spec (zero : Pos → Bool) (W H : Nat) (hW : 2 ≤ W) (hH : 2 ≤ H) (p : Pos) (hp : inImage W H p) :
    ((∃ q, zeroInside zero W H q) → IsDistance (zeroInside zero W H) p (grassfire zero W H true p)) ∧
    ((¬ ∃ q, zeroInside zero W H q) → grassfire zero W H true p = W + H) := by
  have e : grassfire zero W H true = scan (secondI W H ((W : Int) + H)) (raster 0 W 0 H).reverse
      (scan (firstI zero ((W : Int) + H)) (raster 0 W 0 H) (fun _ => 0)) := by
    unfold grassfire; rw [if_neg (by omega)]; simp
  have main : (∀ q, zeroInside zero W H q → grassfire zero W H true p ≤ dist p q) ∧ grassfire zero W H true p ≤ W + H ∧
      (grassfire zero W H true p = W + H ∨ ∃ q, zeroInside zero W H q ∧ dist p q ≤ grassfire zero W H true p) := by
    rw [e]
    have h1 := first_passI zero W H
    generalize scan (firstI zero ((W : Int) + H)) (raster 0 W 0 H) (fun _ => 0) = d0 at *
    have hmem : ∀ q, q ∈ (raster 0 W 0 H).reverse ↔ inImage W H q := by
      intro q; rw [List.mem_reverse, mem_raster]; unfold inImage; simp
    have hnd : (raster 0 W 0 H).reverse.Nodup := List.pairwise_reverse.2 ((raster_nodup _ _ _ _).imp Ne.symm)
    have hsorted : (raster 0 W 0 H).reverse.Pairwise (fun x y => before y x) :=
      List.pairwise_reverse.2 (raster_sorted _ _ _ _)
    refine scan_inv (P := fun p v => (∀ q, zeroInside zero W H q → v ≤ dist p q) ∧ v ≤ W + H ∧
      (v = W + H ∨ ∃ q, zeroInside zero W H q ∧ dist p q ≤ v)) _ hnd ?_ p ((hmem p).2 hp)
    clear hp p
    intro a p b es d ha hd
    have hp := (hmem p).1 (by rw [es]; simp)
    have hdp : d p = d0 p := hd p (not_mem_prefix hnd es)
    have hself := h1 p hp
    rw [← hdp] at hself
    have done : ∀ q, inImage W H q → before p q → _ := fun q hq hbef =>
      ha q (mem_prefix (R := fun x y => before y x) (fun x y h => before_asymm _ _ h) hsorted es ((hmem q).2 hq) hbef)
    have hp' := hp
    unfold inImage at hp
    have hr := fun h : p.1 + 1 < W => done (p.1 + 1, p.2) (by unfold inImage; dsimp only; omega) (Or.inr ⟨rfl, by dsimp only; omega⟩)
    have hb := fun h : p.2 + 1 < H => done (p.1, p.2 + 1) (by unfold inImage; dsimp only; omega) (Or.inl (by dsimp only; omega))
    unfold secondI
    by_cases h0 : d p ≠ 0
    · rw [if_pos h0]
      dsimp only
      -- the value before the cap
      obtain ⟨m, hm⟩ : ∃ m, m = (if p.2 + 1 < (H : Int) then
          min (if p.1 + 1 < (W : Int) then min (d p) (d (p.1 + 1, p.2) + 1) else d p) (d (p.1, p.2 + 1) + 1)
          else (if p.1 + 1 < (W : Int) then min (d p) (d (p.1 + 1, p.2) + 1) else d p)) := ⟨_, rfl⟩
      rw [← hm]
      have mle : m ≤ d p ∧ (p.1 + 1 < W → m ≤ d (p.1 + 1, p.2) + 1) ∧ (p.2 + 1 < H → m ≤ d (p.1, p.2 + 1) + 1) := by
        rw [hm]
        split <;> split <;> omega
      have mcase : m = d p ∨ (p.1 + 1 < (W : Int) ∧ m = d (p.1 + 1, p.2) + 1) ∨ (p.2 + 1 < (H : Int) ∧ m = d (p.1, p.2 + 1) + 1) := by
        rw [hm]
        split <;> split <;> omega
      have up : ∀ q, zeroInside zero W H q → m ≤ dist p q := by
        intro q hq
        have hqi := hq.1
        unfold inImage at hqi
        by_cases hle : q.1 ≤ p.1 ∧ q.2 ≤ p.2
        · have := hself.1 q hq hle; omega
        · by_cases hc : p.1 < q.1
          · have hlt : p.1 + 1 < W := by omega
            have := (hr hlt).1 q hq
            have e1 : dist (p.1 + 1, p.2) q + 1 = dist p q := by unfold dist; dsimp only; omega
            have := mle.2.1 hlt
            omega
          · have hlt : p.2 + 1 < H := by omega
            have := (hb hlt).1 q hq
            have e1 : dist (p.1, p.2 + 1) q + 1 = dist p q := by unfold dist; dsimp only; omega
            have := mle.2.2 hlt
            omega
      have low : (W : Int) + H ≤ m ∨ ∃ q, zeroInside zero W H q ∧ dist p q ≤ m := by
        rcases mcase with h | ⟨hlt, h⟩ | ⟨hlt, h⟩
        · rw [h]; exact hself.2
        · rcases (hr hlt).2.2 with h2 | ⟨q, hq, hqd⟩
          · left; omega
          · right; refine ⟨q, hq, ?_⟩; rw [h]; unfold dist at *; dsimp only at *; omega
        · rcases (hb hlt).2.2 with h2 | ⟨q, hq, hqd⟩
          · left; omega
          · right; refine ⟨q, hq, ?_⟩; rw [h]; unfold dist at *; dsimp only at *; omega
      by_cases hcap : m > (W : Int) + H
      · rw [if_pos hcap]
        refine ⟨fun q hq => ?_, Int.le_refl _, Or.inl rfl⟩
        have := up q hq; omega
      · rw [if_neg hcap]
        refine ⟨up, by omega, ?_⟩
        rcases low with h | h
        · left; omega
        · exact Or.inr h
    · rw [if_neg h0]
      have h0 : d p = 0 := by omega
      refine ⟨fun q _ => by omega, by omega, ?_⟩
      rcases hself.2 with h | h
      · omega
      · exact Or.inr h
  obtain ⟨m1, m2, m3⟩ := main
  constructor
  · rintro ⟨z, hz⟩
    refine ⟨m1, ?_⟩
    rcases m3 with h | ⟨q, hq, hqd⟩
    · exfalso
      have := m1 z hz
      have hz1 := hz.1
      unfold inImage at hz1 hp
      rw [h] at this
      unfold dist at this
      omega
    · exact ⟨q, hq, by have := m1 q hq; omega⟩
  · intro hno
    rcases m3 with h | ⟨q, hq, _⟩
    · exact h
    · exact absurd ⟨q, hq⟩ hno

/-- Images of one row or one column are all 0, although a pixel that is not zero is at distance 1 from the outside. -/
theorem grassfire_thin (zero : Pos → Bool) (W H : Nat) (h : W ≤ 1 ∨ H ≤ 1) (b : Bool) (p : Pos) : grassfire zero W H b p = 0 := by
  unfold grassfire; rw [if_pos h]

/-- A case: 5 by 4 pixels, zero only at (1,1). -/
example : let z : Pos → Bool := fun p => p == (1, 1)
    (List.range 4).map (fun r => (List.range 5).map (fun c => grassfire z 5 4 true ((c : Int), (r : Int)))) =
      [[2, 1, 2, 3, 4], [1, 0, 1, 2, 3], [2, 1, 2, 3, 4], [3, 2, 3, 4, 5]] ∧
    (List.range 4).map (fun r => (List.range 5).map (fun c => grassfire z 5 4 false ((c : Int), (r : Int)))) =
      [[1, 1, 1, 1, 1], [1, 0, 1, 2, 1], [1, 1, 2, 2, 1], [1, 1, 1, 1, 1]] := by decide +kernel

end VW.Grassfire
