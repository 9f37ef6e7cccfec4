import Verif.Composite.Model
import Mathlib.Data.List.Lemmas
import Mathlib.Data.Finset.Max
import Mathlib.Algebra.BigOperators.Group.Finset.Basic
import Mathlib.Algebra.BigOperators.Ring.List
import Mathlib.Data.Rat.Floor
import Mathlib.Tactic.Linarith
import Mathlib.Tactic.ByContra
import Mathlib.Tactic.Ring
import Mathlib.Tactic.FinCases
/-
Properties C143 (extent of a mosaic), C144 (masks), C145 (draft mode) and C146 (sources of a blended patch).
-/
namespace VW.Composite

/-! ### Specification -/

/-- The place is in the box. -/
def Box.Has (b : Box) (q : Pos) : Prop := b.x0 ≤ q.1 ∧ q.1 < b.x1 ∧ b.y0 ≤ q.2 ∧ q.2 < b.y1

instance (b : Box) (q : Pos) : Decidable (b.Has q) := inferInstanceAs (Decidable (_ ∧ _))

theorem empty_false {b : Box} : b.empty = false ↔ b.x0 < b.x1 ∧ b.y0 < b.y1 := by
  unfold Box.empty; simp

theorem empty_iff (b : Box) : b.empty = true ↔ ∀ q, ¬ b.Has q := by
  constructor
  · intro h q hq
    unfold Box.empty at h; unfold Box.Has at hq
    simp only [Bool.or_eq_true, decide_eq_true_eq] at h
    omega
  · intro h
    by_contra hc
    rw [Bool.not_eq_true, empty_false] at hc
    exact h (b.x0, b.y0) ⟨le_refl _, hc.1, le_refl _, hc.2⟩

theorem crop_has (b c : Box) (q : Pos) : (b.crop c).Has q ↔ b.Has q ∧ c.Has q := by
  unfold Box.crop Box.Has
  simp only
  split_ifs <;> omega

theorem intersects_of_has {b c : Box} {q : Pos} (hb : b.Has q) (hc : c.Has q) : b.intersects c = true := by
  unfold Box.intersects; unfold Box.Has at hb hc
  simp only [Bool.not_eq_true', Bool.or_eq_false_iff, decide_eq_false_iff_not]
  omega

/-- Two boxes that are not empty intersect iff they share a place. -/
theorem intersects_iff {b c : Box} (hb : b.empty = false) (hc : c.empty = false) :
    b.intersects c = true ↔ ∃ q, b.Has q ∧ c.Has q := by
  constructor
  · intro h
    rw [empty_false] at hb hc
    unfold Box.intersects at h
    simp only [Bool.not_eq_true', Bool.or_eq_false_iff, decide_eq_false_iff_not] at h
    exact ⟨(max b.x0 c.x0, max b.y0 c.y0), by unfold Box.Has; constructor <;> simp only <;> omega⟩
  · rintro ⟨q, h1, h2⟩
    exact intersects_of_has h1 h2

/-! ### C143: extent -/

/-- What a user inserts: an image of `W` by `H` pixels with its upper left corner at (x, y). -/
structure Placed (P : Type) where
  W : Nat
  H : Nat
  img : Pos → P
  x : Int
  y : Int

/-- The images inserted one after the other in a new composite. -/
def build {P : Type} (v d : Box) (ps : List (Placed P)) : Comp P :=
  ps.foldl (fun c p => c.insert p.W p.H p.img p.x p.y) { items := [], view := v, data := d }

/-- `b` is the least box with all the images. -/
structure Least {P : Type} (ps : List (Placed P)) (b : Box) : Prop where
  covers : ∀ p ∈ ps, b.x0 ≤ p.x ∧ b.y0 ≤ p.y ∧ p.x + p.W ≤ b.x1 ∧ p.y + p.H ≤ b.y1
  left : ∃ p ∈ ps, b.x0 = p.x
  top : ∃ p ∈ ps, b.y0 = p.y
  right : ∃ p ∈ ps, b.x1 = p.x + p.W
  bottom : ∃ p ∈ ps, b.y1 = p.y + p.H

def Placed.box {P : Type} (p : Placed P) : Box := { x0 := p.x, y0 := p.y, x1 := p.x + p.W, y1 := p.y + p.H }

theorem back_placed {P : Type} (p : Placed P) (h : 0 < p.W ∧ 0 < p.H) (v : Pos) :
    p.box.back v = ⟨p.x - v.1, p.y - v.2, p.x - v.1 + p.W, p.y - v.2 + p.H⟩ := by
  have : p.box.empty = false := by rw [empty_false]; unfold Placed.box; simp only; omega
  unfold Box.back
  rw [if_neg (by simp [this])]
  show (⟨p.x - v.1, p.y - v.2, p.x + p.W - v.1, p.y + p.H - v.2⟩ : Box) = _
  congr 1 <;> ring

/-- C143: the sources are the inserted images in order at their places, and view and data are the least box that
covers them. -/
theorem build_spec {P : Type} (v d : Box) (ps : List (Placed P)) (hp : ∀ p ∈ ps, 0 < p.W ∧ 0 < p.H) :
    (build v d ps).items = ps.map (fun p => { box := p.box, at' := p.img }) ∧
    (ps ≠ [] → Least ps (build v d ps).view ∧ (build v d ps).data = (build v d ps).view) := by
  induction ps using List.reverseRecOn with
  | nil => exact ⟨rfl, fun h => absurd rfl h⟩
  | append_singleton l p ih =>
    obtain ⟨hi, hl⟩ := ih (fun p h => hp p (by simp [h]))
    have hP := hp p (by simp)
    have e : build v d (l ++ [p]) = (build v d l).insert p.W p.H p.img p.x p.y := by
      unfold build; rw [List.foldl_append]; rfl
    have eb : (⟨p.x, p.y, p.x + p.W, p.y + p.H⟩ : Box).empty = false := by rw [empty_false]; simp only; omega
    rw [e]
    unfold Comp.insert
    simp only [hi, List.length_append, List.length_map, List.length_cons, List.length_nil]
    by_cases h0 : l = []
    · subst h0
      refine ⟨by simp [Placed.box], fun _ => ⟨?_, by simp⟩⟩
      simp only [List.length_nil, List.nil_append]
      constructor <;> simp
    · have hne : ¬ (l.length + (0 + 1) = 1) := by
        have := List.length_pos_of_ne_nil h0; omega
      rw [if_neg hne]
      obtain ⟨hL, hd⟩ := hl h0
      refine ⟨by simp [Placed.box], fun _ => ⟨?_, ?_⟩⟩
      · simp only [Box.grow, eb, Bool.false_eq_true, if_false]
        constructor
        · intro r hr
          rcases List.mem_append.1 hr with h | h
          · have := hL.covers r h; simp only; omega
          · rw [List.mem_singleton.1 h]; simp only; omega
        · obtain ⟨r, hr, er⟩ := hL.left
          simp only
          rcases le_total (build v d l).view.x0 p.x with h | h
          · exact ⟨r, by simp [hr], by omega⟩
          · exact ⟨p, by simp, by omega⟩
        · obtain ⟨r, hr, er⟩ := hL.top
          simp only
          rcases le_total (build v d l).view.y0 p.y with h | h
          · exact ⟨r, by simp [hr], by omega⟩
          · exact ⟨p, by simp, by omega⟩
        · obtain ⟨r, hr, er⟩ := hL.right
          simp only
          rcases le_total (build v d l).view.x1 (p.x + p.W) with h | h
          · exact ⟨p, by simp, by omega⟩
          · exact ⟨r, by simp [hr], by omega⟩
        · obtain ⟨r, hr, er⟩ := hL.bottom
          simp only
          rcases le_total (build v d l).view.y1 (p.y + p.H) with h | h
          · exact ⟨p, by simp, by omega⟩
          · exact ⟨r, by simp [hr], by omega⟩
      · simp only [hd]

/-- C143: after `prepare` every source lies inside the mosaic of `cols` by `rows` pixels, at its place relative to the
upper left corner of the least box, and that many columns and rows are needed. -/
theorem prepare_spec {P : Type} (v d : Box) (ps : List (Placed P)) (hp : ∀ p ∈ ps, 0 < p.W ∧ 0 < p.H) (hne : ps ≠ []) :
    ∃ b : Box, Least ps b ∧ (build v d ps).prepare.view = b ∧
      (build v d ps).prepare.cols = b.x1 - b.x0 ∧ (build v d ps).prepare.rows = b.y1 - b.y0 ∧
      (build v d ps).prepare.items = ps.map (fun p =>
        { box := { x0 := p.x - b.x0, y0 := p.y - b.y0, x1 := p.x - b.x0 + p.W, y1 := p.y - b.y0 + p.H }, at' := p.img }) ∧
      (build v d ps).prepare.data = { x0 := 0, y0 := 0, x1 := b.x1 - b.x0, y1 := b.y1 - b.y0 } ∧
      ∀ i ∈ (build v d ps).prepare.items, 0 ≤ i.box.x0 ∧ 0 ≤ i.box.y0 ∧
        i.box.x1 ≤ (build v d ps).prepare.cols ∧ i.box.y1 ≤ (build v d ps).prepare.rows := by
  obtain ⟨hi, hl⟩ := build_spec v d ps hp
  obtain ⟨hL, hd⟩ := hl hne
  have hemp : (build v d ps).view.empty = false := by
    rw [empty_false]
    obtain ⟨p, hm, e⟩ := hL.left
    have h1 := hL.covers p hm
    have h2 := hp p hm
    omega
  have hitems : (build v d ps).prepare.items = ps.map (fun p =>
        { box := { x0 := p.x - (build v d ps).view.x0, y0 := p.y - (build v d ps).view.y0,
                   x1 := p.x - (build v d ps).view.x0 + p.W, y1 := p.y - (build v d ps).view.y0 + p.H }, at' := p.img }) := by
    unfold Comp.prepare
    simp only [hi, List.map_map]
    apply List.map_congr_left
    intro p hm
    have h2 := hp p hm
    simp only [Function.comp]
    rw [back_placed p h2]
  have hc : (build v d ps).prepare.cols = (build v d ps).view.x1 - (build v d ps).view.x0 := by
    unfold Comp.cols Comp.prepare Box.width; simp [hemp]
  have hr : (build v d ps).prepare.rows = (build v d ps).view.y1 - (build v d ps).view.y0 := by
    unfold Comp.rows Comp.prepare Box.height; simp [hemp]
  refine ⟨(build v d ps).view, hL, rfl, hc, hr, hitems, ?_, ?_⟩
  · unfold Comp.prepare Box.back; simp [hd, hemp]
  · rw [hc, hr, hitems]
    intro i him
    obtain ⟨p, hm, rfl⟩ := List.mem_map.1 him
    have := hL.covers p hm
    simp only
    omega

/-- C143: with a box given to `prepare`, that box is the mosaic, and the sources keep their place relative to it. -/
theorem prepareIn_spec {P : Type} (v d : Box) (ps : List (Placed P)) (hp : ∀ p ∈ ps, 0 < p.W ∧ 0 < p.H) (t : Box)
    (ht : t.empty = false) :
    ((build v d ps).prepareIn t).cols = t.x1 - t.x0 ∧ ((build v d ps).prepareIn t).rows = t.y1 - t.y0 ∧
    ((build v d ps).prepareIn t).items = ps.map (fun p =>
        { box := { x0 := p.x - t.x0, y0 := p.y - t.y0, x1 := p.x - t.x0 + p.W, y1 := p.y - t.y0 + p.H }, at' := p.img }) := by
  obtain ⟨hi, _⟩ := build_spec v d ps hp
  refine ⟨?_, ?_, ?_⟩
  · unfold Comp.prepareIn Comp.prepare Comp.cols Box.width; simp [ht]
  · unfold Comp.prepareIn Comp.prepare Comp.rows Box.height; simp [ht]
  · unfold Comp.prepareIn Comp.prepare
    simp only [hi, List.map_map]
    apply List.map_congr_left
    intro p hm
    have h2 := hp p hm
    simp only [Function.comp]
    rw [back_placed p h2]

theorem prepare_items {P : Type} (c : Comp P) :
    c.prepare.items = c.items.map (fun i => { box := i.box.back (c.view.x0, c.view.y0), at' := i.at' }) := rfl

/-- C143: `prepare` is not to be called twice: whenever the mosaic does not begin at (0, 0) the second call moves the
sources out of place. -/
theorem prepare_twice {P : Type} (v d : Box) (ps : List (Placed P)) (hp : ∀ p ∈ ps, 0 < p.W ∧ 0 < p.H) (hne : ps ≠ []) :
    ((build v d ps).prepare.prepare.items.map (fun i => i.box) = (build v d ps).prepare.items.map (fun i => i.box)) ↔
      (build v d ps).view.x0 = 0 ∧ (build v d ps).view.y0 = 0 := by
  obtain ⟨b, hL, e1, e2, e3, e4, e5, e6⟩ := prepare_spec v d ps hp hne
  have e1' : (build v d ps).view = b := e1
  have hback : ∀ p ∈ ps, (⟨p.x - b.x0, p.y - b.y0, p.x - b.x0 + p.W, p.y - b.y0 + p.H⟩ : Box).back (b.x0, b.y0) =
      ⟨p.x - b.x0 - b.x0, p.y - b.y0 - b.y0, p.x - b.x0 - b.x0 + p.W, p.y - b.y0 - b.y0 + p.H⟩ := by
    intro p hm
    exact back_placed (⟨p.W, p.H, p.img, p.x - b.x0, p.y - b.y0⟩ : Placed P) (hp p hm) _
  rw [prepare_items (build v d ps).prepare, e1, e4, e1']
  simp only [List.map_map]
  constructor
  · intro h
    obtain ⟨p, hm, _⟩ := hL.left
    have := List.map_inj_left.1 h p hm
    simp only [Function.comp, hback p hm, Box.mk.injEq] at this
    omega
  · rintro ⟨h1, h2⟩
    apply List.map_congr_left
    intro p hm
    simp only [Function.comp, hback p hm, Box.mk.injEq]
    omega

example : (build (P := Unit) ⟨0, 0, 0, 0⟩ ⟨0, 0, 0, 0⟩ [⟨8, 8, fun _ => (), 3, -2⟩, ⟨8, 8, fun _ => (), -1, 0⟩]).prepare.items.map
      (fun i => i.box) = [⟨4, 0, 12, 8⟩, ⟨0, 2, 8, 10⟩] ∧
    (build (P := Unit) ⟨0, 0, 0, 0⟩ ⟨0, 0, 0, 0⟩ [⟨8, 8, fun _ => (), 3, -2⟩, ⟨8, 8, fun _ => (), -1, 0⟩]).prepare.cols = 12 := by
  decide +kernel

/-- C143: a box that meets no source is reported empty; one that meets a source is not, if the source says so. -/
theorem sparseCheck_iff {P : Type} (c : Comp P) (sparse : Nat → Box → Bool) (q : Box) :
    c.sparseCheck sparse q = true ↔
      ∃ (n : Nat) (i : Item P), c.items[n]? = some i ∧ (∃ r, i.box.Has r ∧ q.Has r) ∧
        sparse n ((i.box.crop q).back (i.box.x0, i.box.y0)) = true := by
  unfold Comp.sparseCheck
  rw [List.any_eq_true]
  have hne : ∀ b : Box, (!b.empty) = true ↔ ∃ r, b.Has r := by
    intro b
    have := empty_iff b
    by_cases h : b.empty = true
    · have h2 := this.1 h
      simp [h, h2]
    · have h2 : ¬ ∀ q, ¬ b.Has q := fun hh => h (this.2 hh)
      simp only [Bool.not_eq_true'] 
      constructor
      · intro _; by_contra hc; exact h2 (fun r hr => hc ⟨r, hr⟩)
      · intro _; simpa using h
  constructor
  · rintro ⟨⟨i, n⟩, hm, h⟩
    simp only [Bool.and_eq_true, hne] at h
    obtain ⟨⟨r, hr⟩, hs⟩ := h
    rw [crop_has] at hr
    exact ⟨n, i, (List.mk_mem_zipIdx_iff_getElem?.1 hm), ⟨r, hr⟩, hs⟩
  · rintro ⟨n, i, hi, ⟨r, hr⟩, hs⟩
    refine ⟨(i, n), List.mk_mem_zipIdx_iff_getElem?.2 hi, ?_⟩
    simp only [Bool.and_eq_true, hne]
    exact ⟨⟨r, (crop_has _ _ _).2 hr⟩, hs⟩

end VW.Composite
