import Verif.Composite.Props
/-
Property C145: patches of the mosaic in draft mode.
-/
namespace VW.Composite

/-! ### Specification -/

/-- One pixel over another: without alpha the upper one replaces the lower one, with alpha (premultiplied) it lets the
lower one through to the extent that it is transparent. -/
def over {κ : Type} (alpha : Option κ) (below above : Px κ) : Px κ :=
  match alpha with
  | some a => fun k => below k * (1 - above a) + above k
  | none => above

/-- The pixels of the sources that cover a place, in the order of insertion. -/
def pixelsAt {κ : Type} (items : List (Item (Px κ))) (g : Pos) : List (Px κ) :=
  (items.filter (fun i => decide (i.box.Has g))).map (fun i => i.at' (g.1 - i.box.x0, g.2 - i.box.y0))

/-- These pixels laid over each other on black. -/
def stack {κ : Type} (alpha : Option κ) (ps : List (Px κ)) : Px κ := ps.foldl (over alpha) (fun _ => 0)

/-! ### Proofs -/

theorem addto_eq {κ : Type} (alpha : Option κ) (patch b : Box) (img : Pos → Px κ) (dest : Pos → Px κ) (g : Pos)
    (hg : patch.Has g) :
    addto alpha b img patch.width patch.height patch.x0 patch.y0 true dest (g.1 - patch.x0, g.2 - patch.y0) =
      if b.Has g then over alpha (dest (g.1 - patch.x0, g.2 - patch.y0)) (img (g.1 - b.x0, g.2 - b.y0))
      else dest (g.1 - patch.x0, g.2 - patch.y0) := by
  have hpe : patch.empty = false := by rw [← Bool.not_eq_true, empty_iff]; exact fun h => h g hg
  have hbox : ({ x0 := patch.x0, y0 := patch.y0, x1 := patch.x0 + patch.width, y1 := patch.y0 + patch.height } : Box) = patch := by
    unfold Box.width Box.height
    simp only [hpe, Bool.false_eq_true, if_false]
    rcases patch with ⟨a, b, c, d⟩
    simp
  unfold addto
  rw [hbox]
  by_cases hb : b.Has g
  · have hs : (b.crop patch).Has g := (crop_has _ _ _).2 ⟨hb, hg⟩
    have hse : (b.crop patch).empty = false := by rw [← Bool.not_eq_true, empty_iff]; exact fun h => h g hs
    simp only [hse, Bool.false_eq_true, if_false, hb, if_true, sub_add_cancel]
    unfold Box.Has at hs
    rw [if_pos hs]
    unfold over
    cases alpha <;> simp
  · simp only [hb, if_false]
    by_cases hse : (b.crop patch).empty = true
    · simp [hse]
    · have hs : ¬ (b.crop patch).Has g := fun h => hb ((crop_has _ _ _).1 h).1
      simp only [hse, Bool.false_eq_true, if_false, sub_add_cancel]
      unfold Box.Has at hs
      rw [if_neg hs]

theorem draftStep_eq {κ : Type} (alpha : Option κ) (patch : Box) (dest : Pos → Px κ) (i : Item (Px κ)) (g : Pos)
    (hg : patch.Has g) :
    draftStep alpha patch dest i (g.1 - patch.x0, g.2 - patch.y0) =
      if i.box.Has g then over alpha (dest (g.1 - patch.x0, g.2 - patch.y0)) (i.at' (g.1 - i.box.x0, g.2 - i.box.y0))
      else dest (g.1 - patch.x0, g.2 - patch.y0) := by
  unfold draftStep
  by_cases hi : patch.intersects i.box = true
  · rw [if_pos hi]
    rw [addto_eq alpha patch _ _ dest g hg]
    by_cases hb : i.box.Has g
    · rw [if_pos ((crop_has _ _ _).2 ⟨hg, hb⟩), if_pos hb]
      simp only
      rw [show g.1 - (patch.crop i.box).x0 + ((patch.crop i.box).x0 - i.box.x0) = g.1 - i.box.x0 by ring,
        show g.2 - (patch.crop i.box).y0 + ((patch.crop i.box).y0 - i.box.y0) = g.2 - i.box.y0 by ring]
    · rw [if_neg (fun h => hb ((crop_has _ _ _).1 h).2), if_neg hb]
  · rw [if_neg hi, if_neg]
    intro hb
    exact hi (intersects_of_has hg hb)

/-- C145: a pixel of a patch is the pixels of the sources that cover its place, each laid over those inserted before,
on black. It does not depend on which patch was asked for. -/
theorem draft_spec {κ : Type} (c : Comp (Px κ)) (alpha : Option κ) (patch : Box) (g : Pos) (hg : patch.Has g) :
    c.draftPatch alpha patch (g.1 - patch.x0, g.2 - patch.y0) = stack alpha (pixelsAt c.items g) := by
  unfold Comp.draftPatch stack pixelsAt
  induction c.items using List.reverseRecOn with
  | nil => rfl
  | append_singleton l i ih =>
    rw [List.foldl_append, List.foldl_cons, List.foldl_nil, draftStep_eq alpha patch _ i g hg, ih]
    by_cases hb : i.box.Has g
    · rw [if_pos hb, List.filter_append, List.map_append, List.foldl_append]
      simp [hb]
    · rw [if_neg hb, List.filter_append, List.map_append, List.foldl_append]
      simp [hb]

/-- C145: two patches agree where they overlap. -/
theorem draft_patches_agree {κ : Type} (c : Comp (Px κ)) (alpha : Option κ) (p1 p2 : Box) (g : Pos) (h1 : p1.Has g)
    (h2 : p2.Has g) :
    c.draftPatch alpha p1 (g.1 - p1.x0, g.2 - p1.y0) = c.draftPatch alpha p2 (g.1 - p2.x0, g.2 - p2.y0) := by
  rw [draft_spec c alpha p1 g h1, draft_spec c alpha p2 g h2]

/-- C145: access by pixel gives what patches give. -/
theorem draftAt_spec {κ : Type} (c : Comp (Px κ)) (alpha : Option κ) (x y : Int) :
    c.draftAt alpha x y = stack alpha (pixelsAt c.items (x, y)) := by
  have := draft_spec c alpha ⟨x, y, x + 1, y + 1⟩ (x, y) (by unfold Box.Has; simp)
  simp only [sub_self] at this
  exact this

/-- C145: without alpha the last inserted source that covers the place shows. -/
theorem stack_opaque {κ : Type} (ps : List (Px κ)) : stack none ps = ps.getLast?.getD (fun _ => 0) := by
  unfold stack
  induction ps using List.reverseRecOn with
  | nil => rfl
  | append_singleton l p ih => rw [List.foldl_append]; simp [over]

/-- C145: nothing inserted before shows through a pixel that is opaque. -/
theorem stack_hides {κ : Type} (a : κ) (l r : List (Px κ)) (p : Px κ) (hp : p a = 1) :
    stack (some a) (l ++ p :: r) = stack (some a) (p :: r) := by
  unfold stack
  rw [List.foldl_append, List.foldl_cons, List.foldl_cons]
  congr 1
  funext k
  simp [over, hp]

/-- C145: and a pixel that is fully transparent, all of whose channels are 0, changes nothing. -/
theorem stack_transparent {κ : Type} (a : κ) (l r : List (Px κ)) :
    stack (some a) (l ++ (fun _ => 0) :: r) = stack (some a) (l ++ r) := by
  unfold stack
  rw [List.foldl_append, List.foldl_cons, List.foldl_append]
  congr 1
  funext k
  simp [over]

theorem fold_alpha {κ : Type} (a : κ) (ps : List (Px κ)) :
    1 - stack (some a) ps a = (ps.map (fun p => 1 - p a)).prod := by
  unfold stack
  induction ps using List.reverseRecOn with
  | nil => simp
  | append_singleton l p ih =>
    rw [List.foldl_append, List.map_append, List.prod_append, ← ih]
    simp only [List.foldl_cons, List.foldl_nil, over, List.map_cons, List.map_nil, List.prod_cons, List.prod_nil]
    ring

/-- C145: what is left transparent is the product of what the sources leave transparent; alphas between 0 and 1 give
an alpha between 0 and 1. -/
theorem stack_alpha {κ : Type} (a : κ) (ps : List (Px κ)) :
    1 - stack (some a) ps a = (ps.map (fun p => 1 - p a)).prod ∧
    ((∀ p ∈ ps, 0 ≤ p a ∧ p a ≤ 1) → 0 ≤ stack (some a) ps a ∧ stack (some a) ps a ≤ 1 ∧
      ∀ p ∈ ps, p a ≤ stack (some a) ps a) := by
  refine ⟨fold_alpha a ps, fun h => ?_⟩
  have e := fold_alpha a ps
  have key : ∀ qs : List (Px κ), (∀ p ∈ qs, 0 ≤ p a ∧ p a ≤ 1) →
      0 ≤ (qs.map (fun p => 1 - p a)).prod ∧ (qs.map (fun p => 1 - p a)).prod ≤ 1 ∧
        ∀ p ∈ qs, (qs.map (fun p => 1 - p a)).prod ≤ 1 - p a := by
    intro qs
    induction qs with
    | nil => intro _; simp
    | cons q qs ih =>
      intro hq
      obtain ⟨h0, h1, h2⟩ := ih (fun p hp => hq p (by simp [hp]))
      obtain ⟨q0, q1⟩ := hq q (by simp)
      rw [List.map_cons, List.prod_cons]
      refine ⟨mul_nonneg (by linarith) h0, ?_, ?_⟩
      · nlinarith
      · intro p hp
        rcases List.mem_cons.1 hp with rfl | hp
        · nlinarith
        · have := h2 p hp
          nlinarith
  obtain ⟨h0, h1, h2⟩ := key ps h
  refine ⟨by linarith, by linarith, fun p hp => ?_⟩
  have := h2 p hp
  linarith

/-- C145: where the check for sparseness (every source answering yes) says no, the patch is black and transparent. -/
theorem sparse_black {κ : Type} (c : Comp (Px κ)) (alpha : Option κ) (patch : Box) (g : Pos) (hg : patch.Has g)
    (h : c.sparseCheck (fun _ _ => true) patch = false) :
    c.draftPatch alpha patch (g.1 - patch.x0, g.2 - patch.y0) = fun _ => 0 := by
  rw [draft_spec c alpha patch g hg]
  have : pixelsAt c.items g = [] := by
    unfold pixelsAt
    rw [List.map_eq_nil_iff, List.filter_eq_nil_iff]
    intro i hi hd
    rw [decide_eq_true_eq] at hd
    obtain ⟨n, hn⟩ := List.getElem?_of_mem hi
    have := (sparseCheck_iff c (fun _ _ => true) patch).2 ⟨n, i, hn, ⟨g, hd, hg⟩, rfl⟩
    rw [h] at this
    exact Bool.false_ne_true this
  rw [this]
  rfl

/-- The example of the project's test: two images of 8 by 8, at (3, 0) and at (0, 0). -/
example :
    let c := (build ⟨0, 0, 0, 0⟩ ⟨0, 0, 0, 0⟩ [⟨8, 8, fun _ _ => 2, 3, 0⟩, ⟨8, 8, fun _ _ => 3, 0, 0⟩] : Comp (Px Unit)).prepare
    c.draftAt none 7 5 () = 3 ∧ c.draftAt none 8 5 () = 2 ∧ c.draftPatch none ⟨4, 4, 12, 8⟩ (4, 0) () = 2 ∧
    c.draftAt none 11 0 () = 0 ∧ c.cols = 11 := by
  decide +kernel

/-- With alpha (channel `true`): half of one source shows through the other. -/
example :
    let c := (build ⟨0, 0, 0, 0⟩ ⟨0, 0, 0, 0⟩ [⟨2, 2, fun _ _ => 1, 0, 0⟩, ⟨2, 2, fun _ b => if b then 1/2 else 0, 1, 0⟩] : Comp (Px Bool)).prepare
    c.draftAt (some true) 0 0 false = 1 ∧ c.draftAt (some true) 1 0 false = 1/2 ∧ c.draftAt (some true) 1 0 true = 1 ∧
    c.draftAt (some true) 2 0 true = 1/2 := by
  decide +kernel

end VW.Composite
