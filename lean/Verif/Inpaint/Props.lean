import Verif.Inpaint.Model
import Verif.Blob.Props
import Verif.Sparse.Props
import Mathlib.Tactic.Linarith
import Mathlib.Tactic.NormNum
import Mathlib.Tactic.Ring

/-! Filling of blobs (C140). -/

namespace VW.Inpaint
open VW.Blob (Compressed decompress boundingBox intersects WF Ordered boundingBox_spec intersects_iff)
open VW.Grassfire (Pos grassfire raster grassfire_spec inImage IsDistance zeroOrOutside mem_raster)
open VW.Sparse (View patchAt absorbAll absorbAll_spec)

/-! ### Specification -/

/-- The blob is at least one pixel away from the left and top edges, and at least two from the right and bottom ones. -/
def Inner (img : Img) (b : Compressed) : Prop :=
  ∀ p ∈ decompress b, 1 ≤ p.1 ∧ p.1 + 2 < img.w ∧ 1 ≤ p.2 ∧ p.2 + 2 < img.h

/-- The value that a pixel of a blob gets, from the image alone. -/
def newValue (img : Img) (grass : Bool) (dflt : ℚ) (b : Compressed) (x y : Int) : ℚ :=
  fill img.px b (blobBox b).expand grass dflt (x - (blobBox b).expand.x0, y - (blobBox b).expand.y0)

/-- The place is in the box. -/
def In (t : Box) (x y : Int) : Prop := t.x0 ≤ x ∧ x < t.x1 ∧ t.y0 ≤ y ∧ y < t.y1

/-! ### Boxes -/

theorem blobBox_spec (b : Compressed) (h : WF b) :
    (∀ p ∈ decompress b, In (blobBox b) p.1 p.2) ∧ (∃ p ∈ decompress b, p.1 = (blobBox b).x0) ∧ (∃ p ∈ decompress b, p.1 = (blobBox b).x1 - 1) ∧
      (∃ p ∈ decompress b, p.2 = (blobBox b).y0) ∧ (∃ p ∈ decompress b, p.2 = (blobBox b).y1 - 1) :=
  boundingBox_spec b h _ _ _ _ rfl

theorem inner_iff (img : Img) (b : Compressed) (h : WF b) :
    Inner img b ↔ ¬ ((blobBox b).expand.x0 < 0 ∨ (blobBox b).expand.y0 < 0 ∨ (blobBox b).expand.x1 ≥ img.w ∨ (blobBox b).expand.y1 ≥ img.h) := by
  obtain ⟨h0, ⟨p1, m1, e1⟩, ⟨p2, m2, e2⟩, ⟨p3, m3, e3⟩, ⟨p4, m4, e4⟩⟩ := blobBox_spec b h
  unfold Inner Box.expand
  simp only
  constructor
  · intro hi
    have a1 := hi p1 m1; have a2 := hi p2 m2; have a3 := hi p3 m3; have a4 := hi p4 m4
    omega
  · intro hn p hp
    have := h0 p hp
    unfold In at this
    omega

theorem touches_of_mem (t : Box) (b : Compressed) (h : WF b) (ho : Ordered b) (p : Pos) (hp : p ∈ decompress b) (hi : In t p.1 p.2) :
    touches t b = true := by
  have h0 := (blobBox_spec b h).1 p hp
  unfold In at h0 hi
  unfold touches
  simp only [Bool.and_eq_true, Bool.not_eq_true', Bool.or_eq_false_iff, decide_eq_false_iff_not]
  refine ⟨by omega, ?_⟩
  rw [intersects_iff b h ho]
  exact ⟨p, hp, p, hp, rfl, by omega, by omega, by omega, by omega⟩

theorem grow_foldl (bs : List Compressed) (t : Box) :
    (∀ x y, In t x y → In (bs.foldl (fun a b => a.grow (blobBox b)) t) x y) ∧
    (∀ b ∈ bs, (bs.foldl (fun a b => a.grow (blobBox b)) t).x0 ≤ (blobBox b).x0 ∧ (bs.foldl (fun a b => a.grow (blobBox b)) t).y0 ≤ (blobBox b).y0 ∧
      (blobBox b).x1 ≤ (bs.foldl (fun a b => a.grow (blobBox b)) t).x1 ∧ (blobBox b).y1 ≤ (bs.foldl (fun a b => a.grow (blobBox b)) t).y1) := by
  have mono : ∀ (bs : List Compressed) (t : Box), (bs.foldl (fun a b => a.grow (blobBox b)) t).x0 ≤ t.x0 ∧
      (bs.foldl (fun a b => a.grow (blobBox b)) t).y0 ≤ t.y0 ∧ t.x1 ≤ (bs.foldl (fun a b => a.grow (blobBox b)) t).x1 ∧
      t.y1 ≤ (bs.foldl (fun a b => a.grow (blobBox b)) t).y1 := by
    intro bs
    induction bs with
    | nil => intro t; simp
    | cons b bs ih =>
      intro t
      have := ih (t.grow (blobBox b))
      simp only [List.foldl_cons]
      unfold Box.grow at this ⊢
      simp only at this ⊢
      omega
  refine ⟨fun x y h => ?_, ?_⟩
  · have := mono bs t
    unfold In at *; omega
  · induction bs generalizing t with
    | nil => simp
    | cons c bs ih =>
      intro b hb
      simp only [List.foldl_cons]
      rcases List.mem_cons.1 hb with rfl | hb
      · have := mono bs (t.grow (blobBox b))
        unfold Box.grow at this ⊢
        simp only at this ⊢
        omega
      · exact ih _ b hb

/-! ### Patches -/

theorem mem_holes {b : Compressed} {bb : Box} {q : Pos} : q ∈ holes b bb ↔ (q.1 + bb.x0, q.2 + bb.y0) ∈ decompress b := by
  unfold holes
  rw [List.mem_map]
  constructor
  · rintro ⟨p, hp, rfl⟩
    simpa using hp
  · intro h
    exact ⟨_, h, by simp⟩

theorem patchRows_at (hs : List Pos) (W H : Nat) (d : Pos → ℚ) (x0 : Int) (y0 : Nat) (i : Int) (j : Nat) :
    patchAt x0 y0 (patchRows hs W H d) i j =
      if (x0 ≤ i ∧ i < x0 + W ∧ y0 ≤ j ∧ j < y0 + H) ∧ (i - x0, (j : Int) - y0) ∈ hs then some (d (i - x0, (j : Int) - y0)) else none := by
  unfold patchAt patchRows
  by_cases h : x0 ≤ i ∧ y0 ≤ j
  · rw [if_pos h]
    by_cases hj : j - y0 < H
    · rw [List.getD_eq_getElem?_getD, List.getElem?_map, List.getElem?_range hj]
      simp only [Option.map_some, Option.getD_some]
      by_cases hi : (i - x0).toNat < W
      · rw [List.getElem?_map, List.getElem?_range hi]
        have e1 : (((i - x0).toNat : Nat) : Int) = i - x0 := by omega
        have e2 : ((j - y0 : Nat) : Int) = (j : Int) - y0 := by omega
        simp only [Option.map_some, Option.join_some, e1, e2]
        unfold mask
        by_cases hm : (i - x0, (j : Int) - y0) ∈ hs
        · rw [if_pos hm, if_neg (by decide), if_pos ⟨by omega, hm⟩]
        · rw [if_neg hm, if_pos rfl, if_neg (fun hc => hm hc.2)]
      · rw [List.getElem?_eq_none (by simpa using hi), if_neg (by omega)]; rfl
    · have e : ((List.range H).map (fun j : Nat => (List.range W).map (fun i : Nat =>
          if mask hs ((i : Int), (j : Int)) = 0 then none else some (d ((i : Int), (j : Int)))))).getD (j - y0) [] = [] := by
        rw [List.getD_eq_getElem?_getD, List.getElem?_eq_none (by simpa using hj)]; rfl
      rw [e, if_neg (by omega)]; rfl
  · rw [if_neg h, if_neg (by omega)]

/-- What a task gives. -/
theorem task_spec (img : Img) (view : Int → Int → ℚ) (grass : Bool) (dflt : ℚ) (b : Compressed) (h : WF b) :
    (¬ Inner img b → task img.w img.h view grass dflt b = none) ∧
    (Inner img b → ∃ p, task img.w img.h view grass dflt b = some p ∧ ∀ (i : Int) (j : Nat), patchAt p.1 p.2.1 p.2.2 i j =
      if (i, (j : Int)) ∈ decompress b then some (fill view b (blobBox b).expand grass dflt (i - (blobBox b).expand.x0, (j : Int) - (blobBox b).expand.y0))
      else none) := by
  refine ⟨fun hn => ?_, fun hi => ?_⟩
  · rw [inner_iff img b h, not_not] at hn
    unfold task
    simp only
    rw [if_pos hn]
  · rw [inner_iff img b h] at hi
    unfold task
    simp only
    rw [if_neg hi]
    refine ⟨_, rfl, fun i j => ?_⟩
    simp only
    rw [patchRows_at]
    have hy : (((blobBox b).expand.y0.toNat : Nat) : Int) = (blobBox b).expand.y0 := by omega
    rw [hy]
    by_cases hm : (i, (j : Int)) ∈ decompress b
    · rw [if_pos hm, if_pos]
      have := (blobBox_spec b h).1 _ hm
      unfold In at this
      unfold Box.expand at hy hi ⊢
      simp only at this hy hi ⊢
      refine ⟨by omega, ?_⟩
      rw [mem_holes]
      simpa using hm
    · rw [if_neg hm, if_neg]
      rintro ⟨_, hc⟩
      rw [mem_holes] at hc
      simp at hc
      exact hm hc

theorem run_eq (w h : Int) (view : Int → Int → ℚ) (grass : Bool) (dflt : ℚ) (bs : List Compressed) (v : View ℚ) :
    run w h view grass dflt v bs = absorbAll v (bs.filterMap (task w h view grass dflt)) := by
  induction bs generalizing v with
  | nil => rfl
  | cons b t ih =>
    unfold run
    cases hb : task w h view grass dflt b with
    | none => rw [List.filterMap_cons_none hb]; exact ih v
    | some p =>
      rw [List.filterMap_cons_some hb]
      unfold absorbAll
      simp only
      cases v.absorb p.1 p.2.1 p.2.2 with
      | none => rfl
      | some v' => exact ih v'

/-- The filled patch depends on the pixels of the box only. -/
theorem fill_congr (f g : Int → Int → ℚ) (b : Compressed) (bb : Box) (grass : Bool) (dflt : ℚ) (h : ∀ x y, In bb x y → f x y = g x y) :
    fill f b bb grass dflt = fill g b bb grass dflt := by
  have hc : cropped f bb = cropped g bb := by
    funext p
    unfold cropped
    by_cases hp : 0 ≤ p.1 ∧ p.1 < bb.x1 - bb.x0 ∧ 0 ≤ p.2 ∧ p.2 < bb.y1 - bb.y0
    · rw [if_pos hp, if_pos hp]
      exact h _ _ (by unfold In; omega)
    · rw [if_neg hp, if_neg hp]
  unfold fill
  rw [hc]

/-- C140: what a tile of an image with some blobs shows. There is no exception; a pixel of no blob is that of the image; a pixel of a blob near an
edge is that of the image; any other one has the value computed from the image and the blob alone, whatever the tile. -/
theorem prerasterize_spec (img : Img) (bs : List Compressed) (hw : ∀ b ∈ bs, WF b ∧ Ordered b)
    (hd : bs.Pairwise (fun b c => ∀ p, ¬ (p ∈ decompress b ∧ p ∈ decompress c))) (grass : Bool) (dflt : ℚ) (t : Box) (junk : Int → Int → ℚ) :
    ∃ v, prerasterize img bs grass dflt t junk = some v ∧ ∀ (x : Int) (y : Nat), In t x y → 0 ≤ x ∧ x < img.w ∧ (y : Int) < img.h →
      ((∀ b ∈ bs, (x, (y : Int)) ∉ decompress b) → v.pixel x y = img.px x y) ∧
      (∀ b ∈ bs, (x, (y : Int)) ∈ decompress b → ¬ Inner img b → v.pixel x y = img.px x y) ∧
      (∀ b ∈ bs, (x, (y : Int)) ∈ decompress b → Inner img b → v.pixel x y = newValue img grass dflt b x y) := by
  have hdd : ∀ b ∈ bs, ∀ c ∈ bs, ∀ p, p ∈ decompress b → p ∈ decompress c → b = c := by
    intro b hb c hc p hp hq
    by_contra hne
    have : ∀ l : List Compressed, l.Pairwise (fun b c => ∀ p, ¬ (p ∈ decompress b ∧ p ∈ decompress c)) → b ∈ l → c ∈ l → False := by
      intro l
      induction l with
      | nil => intro _ h; cases h
      | cons a t ih =>
        intro hl h1 h2
        obtain ⟨l1, l2⟩ := List.pairwise_cons.1 hl
        rcases List.mem_cons.1 h1 with e1 | h1 <;> rcases List.mem_cons.1 h2 with e2 | h2
        · exact hne (e1.trans e2.symm)
        · exact l1 c h2 p ⟨e1 ▸ hp, hq⟩
        · exact l1 b h1 p ⟨e2 ▸ hq, hp⟩
        · exact ih l2 h1 h2
    exact this bs hd hb hc
  unfold prerasterize
  simp only
  set hit := bs.filter (touches t) with hhit
  set view := copied img (expanded img t hit) junk with hview
  rw [run_eq]
  have hsub : ∀ b ∈ hit, b ∈ bs := fun b hb => (List.mem_filter.1 hb).1
  have hpw : (hit.filterMap (task img.w img.h view grass dflt)).Pairwise
      (fun p q => ∀ i j, ¬ ((patchAt p.1 p.2.1 p.2.2 i j).isSome ∧ (patchAt q.1 q.2.1 q.2.2 i j).isSome)) := by
    rw [List.pairwise_filterMap]
    have h1 : hit.Pairwise (fun b c => ∀ p, ¬ (p ∈ decompress b ∧ p ∈ decompress c)) := hd.sublist List.filter_sublist
    refine h1.imp_of_mem (fun {b c} hb hc hbc p hp q hq i j hij => ?_)
    obtain ⟨b1, b2⟩ := task_spec img view grass dflt b (hw b (hsub b hb)).1
    obtain ⟨c1, c2⟩ := task_spec img view grass dflt c (hw c (hsub c hc)).1
    by_cases ib : Inner img b
    · by_cases ic : Inner img c
      · obtain ⟨p', ep, hp'⟩ := b2 ib
        obtain ⟨q', eq, hq'⟩ := c2 ic
        have e1 : p' = p := by rw [ep] at hp; exact Option.some.inj hp
        have e2 : q' = q := by rw [eq] at hq; exact Option.some.inj hq
        subst e1 e2
        rw [hp', hq'] at hij
        by_cases m1 : (i, (j : Int)) ∈ decompress b
        · by_cases m2 : (i, (j : Int)) ∈ decompress c
          · exact hbc _ ⟨m1, m2⟩
          · rw [if_neg m2] at hij; simp at hij
        · rw [if_neg m1] at hij; simp at hij
      · rw [c1 ic] at hq; cases hq
    · rw [b1 ib] at hp; cases hp
  obtain ⟨v, ev, v1, v2⟩ := absorbAll_spec img.h.toNat view _ hpw
  refine ⟨v, ev, fun x y hin him => ?_⟩
  obtain ⟨g1, g2⟩ := grow_foldl hit t
  have hvx : view x y = img.px x y := by
    rw [hview]; unfold copied expanded Box.crop Box.expand
    have := g1 x y hin
    unfold In at this
    rw [if_pos (by simp only; omega)]
  have none_of : (∀ b ∈ hit, (x, (y : Int)) ∈ decompress b → ¬ Inner img b) → v.pixel x y = img.px x y := by
    intro hno
    rw [v2 x y, hvx]
    intro p hp
    obtain ⟨b, hb, e⟩ := List.mem_filterMap.1 hp
    obtain ⟨b1, b2⟩ := task_spec img view grass dflt b (hw b (hsub b hb)).1
    by_cases ib : Inner img b
    · obtain ⟨p', ep, hp'⟩ := b2 ib
      have e1 : p' = p := by rw [ep] at e; exact Option.some.inj e
      subst e1
      rw [hp', if_neg (fun hm => hno b hb hm ib)]
    · rw [b1 ib] at e; cases e
  refine ⟨fun h => none_of (fun b hb hm => absurd hm (h b (hsub b hb))), fun b hb hm hn => none_of (fun c hc hcm => ?_), fun b hb hm hi => ?_⟩
  · rw [← hdd b hb c (hsub c hc) _ hm hcm]; exact hn
  · have hbh : b ∈ hit := by
      rw [hhit, List.mem_filter]
      exact ⟨hb, touches_of_mem t b (hw b hb).1 (hw b hb).2 _ hm hin⟩
    obtain ⟨p, ep, hp⟩ := (task_spec img view grass dflt b (hw b hb).1).2 hi
    rw [v1 p (List.mem_filterMap.2 ⟨b, hbh, ep⟩) x y _ (by rw [hp, if_pos hm])]
    unfold newValue
    rw [fill_congr view img.px b _ grass dflt]
    intro c r hcr
    rw [inner_iff img b (hw b hb).1] at hi
    have := g2 b hbh
    unfold In Box.expand at hcr
    unfold Box.expand at hi
    simp only at hcr hi
    rw [hview]; unfold copied expanded Box.crop Box.expand
    rw [if_pos (by simp only; omega)]

/-! ### Values -/

theorem foldl_set_const (ps : List Pos) (c : ℚ) (d : Pos → ℚ) (q : Pos) :
    ps.foldl (fun d p => set d p c) d q = if q ∈ ps then c else d q := by
  induction ps generalizing d with
  | nil => simp
  | cons p t ih =>
    rw [List.foldl_cons, ih]
    by_cases h : q ∈ t
    · rw [if_pos h, if_pos (by simp [h])]
    · rw [if_neg h]
      unfold set
      by_cases e : q = p
      · rw [if_pos e, if_pos (by simp [e])]
      · rw [if_neg e, if_neg (by simp [e, h])]

/-- C140: without grassfire the pixels of a blob get the given value. -/
theorem newValue_default (img : Img) (dflt : ℚ) (b : Compressed) (x y : Int) (h : (x, y) ∈ decompress b) :
    newValue img false dflt b x y = dflt := by
  unfold newValue fill
  simp only [Bool.false_eq_true, if_false]
  rw [foldl_set_const, if_pos]
  rw [mem_holes]; simpa using h

theorem around_bounds (d : Pos → ℚ) (l : Pos) (lo hi : ℚ) (h : ∀ q : Pos, |q.1 - l.1| ≤ 1 → |q.2 - l.2| ≤ 1 → lo ≤ d q ∧ d q ≤ hi) :
    lo ≤ around d l ∧ around d l ≤ hi := by
  unfold around
  have a1 := h (l.1 - 1, l.2 - 1) (by simp) (by simp)
  have a2 := h (l.1, l.2 - 1) (by simp) (by simp)
  have a3 := h (l.1 + 1, l.2 - 1) (by simp) (by simp)
  have a4 := h (l.1 - 1, l.2) (by simp) (by simp)
  have a5 := h (l.1 + 1, l.2) (by simp) (by simp)
  have a6 := h (l.1 - 1, l.2 + 1) (by simp) (by simp)
  have a7 := h (l.1, l.2 + 1) (by simp) (by simp)
  have a8 := h (l.1 + 1, l.2 + 1) (by simp) (by simp)
  constructor <;> linarith [a1.1, a1.2, a2.1, a2.2, a3.1, a3.2, a4.1, a4.2, a5.1, a5.2, a6.1, a6.2, a7.1, a7.2, a8.1, a8.2]

/-- Rounds over places inside of a box keep the bounds of the box, and all other places. -/
theorem sweeps_bounds (ps : List Pos) (W H : Int) (hps : ∀ p ∈ ps, 1 ≤ p.1 ∧ p.1 + 1 < W ∧ 1 ≤ p.2 ∧ p.2 + 1 < H) (lo hi : ℚ) (n : Nat) (d : Pos → ℚ)
    (hd : ∀ q : Pos, 0 ≤ q.1 ∧ q.1 < W ∧ 0 ≤ q.2 ∧ q.2 < H → lo ≤ d q ∧ d q ≤ hi) (q : Pos) (hq : 0 ≤ q.1 ∧ q.1 < W ∧ 0 ≤ q.2 ∧ q.2 < H) :
    lo ≤ sweeps ps n d q ∧ sweeps ps n d q ≤ hi := by
  have one : ∀ (l : List Pos) (d : Pos → ℚ), (∀ p ∈ l, 1 ≤ p.1 ∧ p.1 + 1 < W ∧ 1 ≤ p.2 ∧ p.2 + 1 < H) →
      (∀ q : Pos, 0 ≤ q.1 ∧ q.1 < W ∧ 0 ≤ q.2 ∧ q.2 < H → lo ≤ d q ∧ d q ≤ hi) →
      ∀ q : Pos, 0 ≤ q.1 ∧ q.1 < W ∧ 0 ≤ q.2 ∧ q.2 < H → lo ≤ sweep l d q ∧ sweep l d q ≤ hi := by
    intro l
    induction l with
    | nil => exact fun d _ hd => hd
    | cons p t ih =>
      intro d hl hd
      refine ih (set d p (around d p)) (fun p hp => hl p (by simp [hp])) (fun q hq => ?_)
      unfold set
      by_cases e : q = p
      · rw [if_pos e]
        refine around_bounds d p lo hi (fun r h1 h2 => hd r ?_)
        have := hl p (by simp)
        rw [abs_le] at h1 h2
        omega
      · rw [if_neg e]; exact hd q hq
  induction n generalizing d with
  | zero => exact hd q hq
  | succ n ih => exact ih (sweep ps d) (one ps d hps hd)

theorem mem_processingOrder {dist : Pos → Int} {W H m : Nat} {p : Pos} :
    p ∈ processingOrder dist W H m ↔ inImage W H p ∧ 1 ≤ dist p ∧ dist p ≤ m := by
  unfold processingOrder inImage
  simp only [List.mem_flatMap, List.mem_filter, List.mem_map, List.mem_range, List.mem_range'_1, decide_eq_true_eq]
  constructor
  · rintro ⟨d, hd, i, hi, ⟨j, hj, rfl⟩, e⟩
    simp only
    omega
  · rintro ⟨⟨h1, h2, h3, h4⟩, h5, h6⟩
    exact ⟨(dist p).toNat, by omega, p.1.toNat, by omega, ⟨p.2.toNat, by omega, by ext <;> simp <;> omega⟩, by omega⟩

theorem le_maxDistance (dist : Pos → Int) (W H : Nat) (p : Pos) (hp : inImage W H p) : dist p ≤ maxDistance dist W H := by
  have G : ∀ (l : List Pos) (m : Int), m ≤ l.foldl (fun m p => max m (dist p)) m ∧ ∀ q ∈ l, dist q ≤ l.foldl (fun m p => max m (dist p)) m := by
    intro l
    induction l with
    | nil => intro m; simp
    | cons a t ih =>
      intro m
      obtain ⟨i1, i2⟩ := ih (max m (dist a))
      refine ⟨by rw [List.foldl_cons]; omega, fun q hq => ?_⟩
      rw [List.foldl_cons]
      rcases List.mem_cons.1 hq with rfl | hq
      · omega
      · exact i2 q hq
  have hm : p ∈ raster 0 W 0 H := by
    rw [mem_raster]; unfold inImage at hp; omega
  have := (G (raster 0 W 0 H) 0).2 p hm
  unfold maxDistance
  omega

/-- The pixels that are processed are exactly those of the hole. -/
theorem processed_iff (b : Compressed) (h : WF b) (p : Pos) :
    p ∈ processingOrder (grassfire (fun p => decide (mask (holes b (blobBox b).expand) p = 0)) ((blobBox b).expand.x1 - (blobBox b).expand.x0).toNat
        ((blobBox b).expand.y1 - (blobBox b).expand.y0).toNat false) ((blobBox b).expand.x1 - (blobBox b).expand.x0).toNat
        ((blobBox b).expand.y1 - (blobBox b).expand.y0).toNat
        (maxDistance (grassfire (fun p => decide (mask (holes b (blobBox b).expand) p = 0)) ((blobBox b).expand.x1 - (blobBox b).expand.x0).toNat
          ((blobBox b).expand.y1 - (blobBox b).expand.y0).toNat false) ((blobBox b).expand.x1 - (blobBox b).expand.x0).toNat
          ((blobBox b).expand.y1 - (blobBox b).expand.y0).toNat) ↔
      (p.1 + (blobBox b).expand.x0, p.2 + (blobBox b).expand.y0) ∈ decompress b := by
  obtain ⟨h0, ⟨q, hq, -⟩, -⟩ := blobBox_spec b h
  have hq' := h0 q hq
  unfold In at hq'
  rw [mem_processingOrder, ← mem_holes]
  have hsz : 2 ≤ ((blobBox b).expand.x1 - (blobBox b).expand.x0).toNat ∧ 2 ≤ ((blobBox b).expand.y1 - (blobBox b).expand.y0).toNat := by
    unfold Box.expand; simp only; omega
  constructor
  · rintro ⟨hin, h1, -⟩
    obtain ⟨s1, -⟩ := grassfire_spec (fun p => decide (mask (holes b (blobBox b).expand) p = 0)) _ _ hsz.1 hsz.2 p hin
    by_contra hn
    have := s1 p (Or.inr (by unfold mask; simp [hn]))
    rw [VW.Grassfire.dist_self] at this
    simp at this
    omega
  · intro hp
    have hp' := h0 _ (mem_holes.1 hp)
    have hin : inImage ((blobBox b).expand.x1 - (blobBox b).expand.x0).toNat ((blobBox b).expand.y1 - (blobBox b).expand.y0).toNat p := by
      unfold inImage
      unfold In at hp'
      unfold Box.expand at hp' ⊢
      simp only at hp' ⊢
      omega
    refine ⟨hin, ?_, le_maxDistance _ _ _ p hin⟩
    obtain ⟨-, z, hz, e⟩ := grassfire_spec (fun p => decide (mask (holes b (blobBox b).expand) p = 0)) _ _ hsz.1 hsz.2 p hin
    rw [e]
    have hne : p ≠ z := by
      rintro rfl
      rcases hz with hz | hz
      · exact hz hin
      · unfold mask at hz; simp [hp] at hz
    have := VW.Grassfire.dist_pos hne
    omega

/-- C140: with grassfire the pixels of a blob get values between bounds of the pixels of its box and the row and column around it (those of the
hole itself included). -/
theorem newValue_bounds (img : Img) (dflt : ℚ) (b : Compressed) (h : WF b) (lo hi : ℚ)
    (hb : ∀ x y, In (blobBox b).expand x y → lo ≤ img.px x y ∧ img.px x y ≤ hi) (x y : Int) (hm : (x, y) ∈ decompress b) :
    lo ≤ newValue img true dflt b x y ∧ newValue img true dflt b x y ≤ hi := by
  obtain ⟨h0, -⟩ := blobBox_spec b h
  unfold newValue fill
  simp only [if_true]
  refine sweeps_bounds _ ((blobBox b).expand.x1 - (blobBox b).expand.x0) ((blobBox b).expand.y1 - (blobBox b).expand.y0) (fun p hp => ?_) lo hi _ _
    (fun q hq => ?_) _ ?_
  · rw [processed_iff b h] at hp
    have := h0 _ hp
    unfold In at this
    unfold Box.expand at this ⊢
    simp only at this ⊢
    omega
  · unfold cropped
    rw [if_pos (by omega)]
    exact hb _ _ (by unfold In; omega)
  · have := h0 _ hm
    unfold In at this
    unfold Box.expand
    simp only at this ⊢
    omega

/-! ### Cases -/

/-- A blob of one pixel. -/
def dot (x y : Int) : Compressed := ⟨x, y, [[(0, 1)]]⟩

theorem dot_wf (x y : Int) (h : 0 ≤ x) : WF (dot x y) ∧ Ordered (dot x y) := by
  refine ⟨⟨h, by simp [dot], by simp [dot], by simp [dot], ⟨[(0, 1)], by simp [dot], (0, 1), by simp, rfl⟩⟩, ?_⟩
  unfold Ordered dot; simp

theorem dot_pixels (x y : Int) : decompress (dot x y) = [(x, y)] := by
  simp [decompress, dot, VW.Blob.rowsPlaces, VW.Blob.rowPlaces, VW.Blob.runPlaces]

theorem dot_box (x y : Int) : (blobBox (dot x y)).expand = ⟨x - 1, y - 1, x + 2, y + 2⟩ := by
  simp [blobBox, boundingBox, dot, Box.expand]; omega

/-- The rounds over one pixel all give the same. -/
theorem sweeps_one (p : Pos) (n : Nat) (d : Pos → ℚ) : sweeps [p] (n + 1) d p = around d p := by
  have A : ∀ (d : Pos → ℚ) (v : ℚ), around (set d p v) p = around d p := by
    intro d v
    unfold around set
    simp [Prod.ext_iff]
  have B : ∀ (n : Nat) (d : Pos → ℚ), d p = around d p → sweeps [p] n d p = around d p := by
    intro n
    induction n with
    | zero => exact fun d h => h
    | succ n ih =>
      intro d h
      show sweeps [p] n (set d p (around d p)) p = _
      rw [ih, A]
      rw [A]; simp [set]
  show sweeps [p] n (set d p (around d p)) p = _
  rw [B, A]
  rw [A]; simp [set]

/-- C140: a hole of one pixel gets the weighted mean of its eight neighbours, whatever was in it. -/
theorem newValue_dot (img : Img) (dflt : ℚ) (x y : Int) :
    newValue img true dflt (dot x y) x y =
      176765 / 1000000 * (img.px (x - 1) (y - 1) + img.px (x + 1) (y - 1) + img.px (x - 1) (y + 1) + img.px (x + 1) (y + 1)) +
      73235 / 1000000 * (img.px x (y - 1) + img.px (x - 1) y + img.px (x + 1) y + img.px x (y + 1)) := by
  have hh : holes (dot x y) (⟨x - 1, y - 1, x + 2, y + 2⟩ : Box) = [((1 : Int), (1 : Int))] := by
    unfold holes; rw [dot_pixels]; simp
  have e1 : (x + 2 - (x - 1)).toNat = 3 := by omega
  have e2 : (y + 2 - (y - 1)).toNat = 3 := by omega
  have g : processingOrder (grassfire (fun p => decide (mask [((1 : Int), (1 : Int))] p = 0)) 3 3 false) 3 3
      (maxDistance (grassfire (fun p => decide (mask [((1 : Int), (1 : Int))] p = 0)) 3 3 false) 3 3) = [((1 : Int), (1 : Int))] ∧
      maxDistance (grassfire (fun p => decide (mask [((1 : Int), (1 : Int))] p = 0)) 3 3 false) 3 3 = 1 := by decide +kernel
  unfold newValue
  rw [dot_box]
  unfold fill
  simp only [hh, e1, e2, if_true, g.1]
  rw [g.2]
  have e3 : (x - (x - 1), y - (y - 1)) = ((1 : Int), (1 : Int)) := by ext <;> simp
  rw [e3, sweeps_one]
  unfold around cropped
  simp only
  have f1 : x + 2 - (x - 1) = 3 := by omega
  have f2 : y + 2 - (y - 1) = 3 := by omega
  have f3 : (1 : Int) + (x - 1) = x := by omega
  have f4 : (1 : Int) + (y - 1) = y := by omega
  have f5 : (2 : Int) + (x - 1) = x + 1 := by omega
  have f6 : (2 : Int) + (y - 1) = y + 1 := by omega
  simp [f1, f2, f3, f4, f5, f6]
  ring

/-- **Refuted (C140).** A hole that does not touch the edge of the image is not always filled: the last column but one and the last row but one
count as edge, though not the second ones. Here a hole of one pixel in an image of 5 columns and rows. -/
theorem right_edge_not_filled :
    ∃ img : Img, img.w = 5 ∧ img.h = 5 ∧
      (∃ v, prerasterize img [dot 3 2] false 9 ⟨0, 0, 5, 5⟩ (fun _ _ => 0) = some v ∧ v.pixel 3 2 = 1) ∧
      (∃ v, prerasterize img [dot 1 2] false 9 ⟨0, 0, 5, 5⟩ (fun _ _ => 0) = some v ∧ v.pixel 1 2 = 9) := by
  refine ⟨⟨5, 5, fun _ _ => 1⟩, rfl, rfl, ?_, ?_⟩
  · obtain ⟨v, e, hv⟩ := prerasterize_spec ⟨5, 5, fun _ _ => 1⟩ [dot 3 2] (by simpa using dot_wf 3 2 (by decide)) (by simp) false 9 ⟨0, 0, 5, 5⟩
      (fun _ _ => 0)
    refine ⟨v, e, (hv 3 2 (by unfold In; decide) (by decide)).2.1 (dot 3 2) (by simp) (by rw [dot_pixels]; simp) ?_⟩
    intro h
    have := h (3, 2) (by rw [dot_pixels]; simp)
    simp at this
  · obtain ⟨v, e, hv⟩ := prerasterize_spec ⟨5, 5, fun _ _ => 1⟩ [dot 1 2] (by simpa using dot_wf 1 2 (by decide)) (by simp) false 9 ⟨0, 0, 5, 5⟩
      (fun _ _ => 0)
    refine ⟨v, e, ?_⟩
    rw [(hv 1 2 (by unfold In; decide) (by decide)).2.2 (dot 1 2) (by simp) (by rw [dot_pixels]; simp) ?_]
    · exact newValue_default _ _ _ _ _ (by rw [dot_pixels]; simp)
    · intro p hp
      rw [dot_pixels] at hp
      simp at hp
      subst hp
      simp

/-- A hole of two pixels. -/
def pair : Compressed := ⟨1, 1, [[(0, 2)]]⟩

/-- **Refuted (C140).** Filled values depend on what was stored in the hole: around a hole of two pixels all is 0, yet it is not filled with 0 (the
rounds only come close to it). -/
theorem hole_values_matter : newValue ⟨6, 6, fun x y => if y = 1 ∧ x = 2 then 1 else 0⟩ true 0 pair 1 1 ≠ 0 ∧
    newValue ⟨6, 6, fun x y => if y = 1 ∧ x = 2 then 1 else 0⟩ true 0 pair 1 1 < 1 / 10 ^ 20 := by decide +kernel

example : (prerasterize ⟨6, 6, fun x y => (x : ℚ) + 10 * y⟩ [dot 1 1, dot 3 3] true 0 ⟨0, 0, 3, 4⟩ (fun _ _ => 0)).map
    (fun v => [v.pixel 1 1, v.pixel 2 2, v.pixel 1 2]) = some [11, 22, 21] := by decide +kernel

end VW.Inpaint
