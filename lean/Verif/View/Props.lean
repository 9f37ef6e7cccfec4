import Verif.View.Model
import Verif.Edge.Props
import Mathlib.Tactic.Ring
import Mathlib.Tactic.Linarith
/-
Property C47: what a view shows does not depend on how it is read.

`v.eval x y` is the pixel read directly.  The theorems say that accessors, `prerasterize` and `rasterize` give
the same pixels, for every view expression built from the modelled views.
-/
namespace VW.View
open VW.Block (Rect)
open VW.Edge (Mode has_iff)

variable {α : Type} [CommRing α]

/-! ### Accessors -/

theorem advance_advance (a : Acc α) (x y x' y' : Int) :
    (a.advance x y).advance x' y' = a.advance (x + x') (y + y') := by
  induction a generalizing x y x' y' with
  | ptr data n rs k => simp only [Acc.advance]; congr 1; ring
  | proc v c r => simp only [Acc.advance]; congr 1 <;> ring
  | transpose a ih => simp only [Acc.advance, ih]
  | rot180 a ih => simp only [Acc.advance, ih, Int.neg_add]
  | rot90cw a ih => simp only [Acc.advance, ih, Int.neg_add]
  | rot90ccw a ih => simp only [Acc.advance, ih, Int.neg_add]
  | flipV a ih => simp only [Acc.advance, ih, Int.neg_add]
  | subsample a xd yd ih => simp only [Acc.advance, ih, Int.mul_add]
  | unary f a ih => simp only [Acc.advance, ih]
  | binary f a b ih1 ih2 => simp only [Acc.advance, ih1, ih2]

theorem advance_zero (a : Acc α) : a.advance 0 0 = a := by
  induction a with
  | ptr data n rs k => simp [Acc.advance]
  | proc v c r => simp [Acc.advance]
  | transpose a ih => simp only [Acc.advance, ih]
  | rot180 a ih => simp only [Acc.advance, Int.neg_zero, ih]
  | rot90cw a ih => simp only [Acc.advance, Int.neg_zero, ih]
  | rot90ccw a ih => simp only [Acc.advance, Int.neg_zero, ih]
  | flipV a ih => simp only [Acc.advance, Int.neg_zero, ih]
  | subsample a xd yd ih => simp only [Acc.advance, Int.mul_zero, ih]
  | unary f a ih => simp only [Acc.advance, ih]
  | binary f a b ih1 ih2 => simp only [Acc.advance, ih1, ih2]

/-- The displacement of a unit move. -/
def Move.dx : Move → Int
  | .nextCol => 1
  | .prevCol => -1
  | _ => 0
def Move.dy : Move → Int
  | .nextRow => 1
  | .prevRow => -1
  | _ => 0

/-- A unit move of any accessor is the corresponding `advance`. -/
theorem move_eq_advance (a : Acc α) (m : Move) : a.move m = a.advance m.dx m.dy := by
  induction a generalizing m with
  | ptr data n rs k => cases m <;> simp only [Acc.move, Acc.advance, Move.dx, Move.dy] <;> congr 1 <;> ring
  | proc v c r => cases m <;> simp only [Acc.move, Acc.advance, Move.dx, Move.dy] <;> congr 1 <;> ring
  | transpose a ih => cases m <;> simp [Acc.move, Acc.advance, Move.dx, Move.dy, ih]
  | rot180 a ih => cases m <;> simp [Acc.move, Acc.advance, Move.dx, Move.dy, ih]
  | rot90cw a ih => cases m <;> simp [Acc.move, Acc.advance, Move.dx, Move.dy, ih]
  | rot90ccw a ih => cases m <;> simp [Acc.move, Acc.advance, Move.dx, Move.dy, ih]
  | flipV a ih => cases m <;> simp [Acc.move, Acc.advance, Move.dx, Move.dy, ih]
  | subsample a xd yd ih => cases m <;> simp [Acc.move, Acc.advance, Move.dx, Move.dy]
  | unary f a ih => simp only [Acc.move, Acc.advance, ih]
  | binary f a b ih1 ih2 => simp only [Acc.move, Acc.advance, ih1, ih2]

theorem moves_eq_advance (a : Acc α) (m : Move) (n : Nat) :
    a.moves m n = a.advance (n * m.dx) (n * m.dy) := by
  induction n with
  | zero => simp [Acc.moves, advance_zero]
  | succ n ih =>
    rw [Acc.moves, ih, move_eq_advance, advance_advance]
    congr 1 <;> push_cast <;> ring

/-- An index inside a `w` by `h` block. -/
theorem flat_bounds {w h i j : Int} (h1 : 0 ≤ i) (h2 : i < w) (h3 : 0 ≤ j) (h4 : j < h) :
    0 ≤ i + j * w ∧ i + j * w < w * h := by
  have a : 0 ≤ j * w := Int.mul_nonneg h3 (by omega)
  have b : j * w ≤ (h - 1) * w := Int.mul_le_mul_of_nonneg_right (by omega) (by omega)
  have c : (h - 1) * w = w * h - w := by ring
  omega

/-- **C47 (accessors)**: an accessor moved to (x,y) shows the pixel a direct read shows. -/
theorem accessor_reads (v : View α) (x y : Int) {p : α} (h : v.eval x y = some p) :
    (v.origin.advance x y).deref = some p := by
  induction v generalizing x y p with
  | mem w hh data =>
    simp only [View.eval] at h
    split at h
    · rename_i hb
      have := flat_bounds hb.1 hb.2.1 hb.2.2.1 hb.2.2.2
      simp only [View.origin, Acc.advance, Acc.deref]
      rw [show (0 : Int) + (x + y * w) = x + y * w by omega, if_pos this]
      exact h
    · cases h
  | lazy w hh px => simpa [View.origin, Acc.advance, Acc.deref] using h
  | index w hh f => simpa [View.origin, Acc.advance, Acc.deref] using h
  | crop c ci cj di dj ih =>
    simp only [View.origin]
    rw [advance_advance]
    exact ih _ _ h
  | transpose c ih => simp only [View.origin, Acc.advance, Acc.deref]; exact ih _ _ h
  | rot180 c ih =>
    simp only [View.origin, Acc.advance, Acc.deref]; rw [advance_advance]
    exact ih _ _ h
  | rot90cw c ih =>
    simp only [View.origin, Acc.advance, Acc.deref]; rw [advance_advance]
    simp only [View.eval] at h
    rw [show (0 : Int) + y = y by omega]
    exact ih _ _ h
  | rot90ccw c ih =>
    simp only [View.origin, Acc.advance, Acc.deref]; rw [advance_advance]
    simp only [View.eval] at h
    rw [show (0 : Int) + x = x by omega]
    exact ih _ _ h
  | flipV c ih =>
    simp only [View.origin, Acc.advance, Acc.deref]; rw [advance_advance]
    simp only [View.eval] at h
    rw [show (0 : Int) + x = x by omega]
    exact ih _ _ h
  | subsample c xd yd ih => simp only [View.origin, Acc.advance, Acc.deref]; exact ih _ _ h
  | unary f c ih =>
    simp only [View.eval, Option.map_eq_some_iff] at h
    obtain ⟨a, ha, rfl⟩ := h
    simp only [View.origin, Acc.advance, Acc.deref, ih _ _ ha, Option.map_some]
  | binary f c d ih1 ih2 =>
    simp only [View.eval, Option.bind_eq_some_iff, Option.map_eq_some_iff] at h
    obtain ⟨a, ha, b, hb, rfl⟩ := h
    simp only [View.origin, Acc.advance, Acc.deref, ih1 _ _ ha, ih2 _ _ hb, Option.map_some, Option.bind_some]
  | edge m xo yo w hh c ih => simpa [View.origin, Acc.advance, Acc.deref] using h

/-- **C47 (rasterize loops)**: the pixel the loops of `rasterize` store at (i,j) is the one at
(min.x+i, min.y+j). -/
theorem raster_reads (v : View α) (b : Rect) (i j : Nat) {p : α} (h : v.eval (b.x0 + i) (b.y0 + j) = some p) :
    v.raster b i j = some p := by
  unfold View.raster
  rw [moves_eq_advance, moves_eq_advance, advance_advance, advance_advance]
  have e1 : b.x0 + ((j : Int) * Move.nextRow.dx + (i : Int) * Move.nextCol.dx) = b.x0 + i := by
    simp [Move.dx]
  have e2 : b.y0 + ((j : Int) * Move.nextRow.dy + (i : Int) * Move.nextCol.dy) = b.y0 + j := by
    simp [Move.dy]
  rw [e1, e2]
  exact accessor_reads v _ _ h

/-! ### Proper views -/

/-- Every pixel inside the bounds of the view can be read. -/
def View.Complete (v : View α) : Prop :=
  ∀ x y, 0 ≤ x → x < v.cols → 0 ≤ y → y < v.rows → ∃ p, v.eval x y = some p

/-- What the constructors check, and: memory images are initialised; a subsampling factor is positive
and **the same in x and y** (see `subsample_reads_outside`, `subsample_requests_outside`); an edge-extended image can be read
everywhere in its bounds and is not too small for the mode (C27). Crops may reach outside. -/
def View.Proper : View α → Prop
  | .mem w h data => ∀ k, 0 ≤ k → k < w * h → ∃ p, data k = some p
  | .lazy _ _ _ => True
  | .index _ _ _ => True
  | .crop c _ _ _ _ => c.Proper
  | .transpose c => c.Proper
  | .rot180 c => c.Proper
  | .rot90cw c => c.Proper
  | .rot90ccw c => c.Proper
  | .flipV c => c.Proper
  | .subsample c xd yd => c.Proper ∧ 0 < xd ∧ xd = yd
  | .unary _ c => c.Proper
  | .binary _ c d => c.Proper ∧ d.Proper ∧ c.size = d.size
  | .edge m _ _ _ _ c => c.Proper ∧ c.Complete ∧ m.minSize ≤ c.cols ∧ m.minSize ≤ c.rows

/-- The columns and rows at which a proper view can be read. -/
def View.dom : View α → (Int → Prop) × (Int → Prop)
  | .mem w h _ => (fun x => 0 ≤ x ∧ x < w, fun y => 0 ≤ y ∧ y < h)
  | .lazy w h _ => (fun x => 0 ≤ x ∧ x < w, fun y => 0 ≤ y ∧ y < h)
  | .index _ _ _ => (fun _ => True, fun _ => True)
  | .crop c ci cj _ _ => (fun x => c.dom.1 (ci + x), fun y => c.dom.2 (cj + y))
  | .transpose c => (fun x => c.dom.2 x, fun y => c.dom.1 y)
  | .rot180 c => (fun x => c.dom.1 (c.cols - 1 - x), fun y => c.dom.2 (c.rows - 1 - y))
  | .rot90cw c => (fun x => c.dom.2 (c.rows - 1 - x), fun y => c.dom.1 y)
  | .rot90ccw c => (fun x => c.dom.2 x, fun y => c.dom.1 (c.cols - 1 - y))
  | .flipV c => (fun x => c.dom.1 x, fun y => c.dom.2 (c.rows - 1 - y))
  | .subsample c xd yd => (fun x => c.dom.1 (xd * x), fun y => c.dom.2 (yd * y))
  | .unary _ c => c.dom
  | .binary _ c d => (fun x => c.dom.1 x ∧ d.dom.1 x, fun y => c.dom.2 y ∧ d.dom.2 y)
  | .edge _ _ _ _ _ _ => (fun _ => True, fun _ => True)

/-- Between two readable columns every column is readable; the same for rows. -/
theorem dom_between (v : View α) (h : v.Proper) :
    (∀ a b c, a ≤ b → b ≤ c → v.dom.1 a → v.dom.1 c → v.dom.1 b) ∧
    (∀ a b c, a ≤ b → b ≤ c → v.dom.2 a → v.dom.2 c → v.dom.2 b) := by
  induction v with
  | mem w hh data => simp only [View.dom]; constructor <;> intros <;> omega
  | lazy w hh px => simp only [View.dom]; constructor <;> intros <;> omega
  | index w hh f => simp [View.dom]
  | crop c ci cj di dj ih =>
    obtain ⟨i1, i2⟩ := ih h
    simp only [View.dom]
    exact ⟨fun a b c h1 h2 => i1 _ _ _ (by omega) (by omega), fun a b c h1 h2 => i2 _ _ _ (by omega) (by omega)⟩
  | transpose c ih => obtain ⟨i1, i2⟩ := ih h; exact ⟨i2, i1⟩
  | rot180 c ih =>
    obtain ⟨i1, i2⟩ := ih h
    simp only [View.dom]
    exact ⟨fun a b c h1 h2 p q => i1 _ _ _ (by omega) (by omega) q p,
      fun a b c h1 h2 p q => i2 _ _ _ (by omega) (by omega) q p⟩
  | rot90cw c ih =>
    obtain ⟨i1, i2⟩ := ih h
    simp only [View.dom]
    exact ⟨fun a b c h1 h2 p q => i2 _ _ _ (by omega) (by omega) q p, i1⟩
  | rot90ccw c ih =>
    obtain ⟨i1, i2⟩ := ih h
    simp only [View.dom]
    exact ⟨i2, fun a b c h1 h2 p q => i1 _ _ _ (by omega) (by omega) q p⟩
  | flipV c ih =>
    obtain ⟨i1, i2⟩ := ih h
    simp only [View.dom]
    exact ⟨i1, fun a b c h1 h2 p q => i2 _ _ _ (by omega) (by omega) q p⟩
  | subsample c xd yd ih =>
    obtain ⟨i1, i2⟩ := ih h.1
    obtain ⟨_, h1, rfl⟩ := h
    simp only [View.dom]
    exact ⟨fun a b c g1 g2 => i1 _ _ _ (Int.mul_le_mul_of_nonneg_left g1 (by omega)) (Int.mul_le_mul_of_nonneg_left g2 (by omega)),
      fun a b c g1 g2 => i2 _ _ _ (Int.mul_le_mul_of_nonneg_left g1 (by omega)) (Int.mul_le_mul_of_nonneg_left g2 (by omega))⟩
  | unary f c ih => exact ih h
  | binary f c d ih1 ih2 =>
    obtain ⟨i1, i2⟩ := ih1 h.1
    obtain ⟨j1, j2⟩ := ih2 h.2.1
    simp only [View.dom]
    exact ⟨fun a b c g1 g2 p q => ⟨i1 _ _ _ g1 g2 p.1 q.1, j1 _ _ _ g1 g2 p.2 q.2⟩,
      fun a b c g1 g2 p q => ⟨i2 _ _ _ g1 g2 p.1 q.1, j2 _ _ _ g1 g2 p.2 q.2⟩⟩
  | edge m xo yo w hh c ih => simp [View.dom]

/-- A mode that can read an image can read any image that has the same pixels and more. -/
theorem mode_mono (m : Mode α) {cols rows : Int} {f g : Int → Int → Option α}
    (hfg : ∀ x y p, f x y = some p → g x y = some p) (i j : Int) {p : α}
    (h : m.eval ⟨cols, rows, f⟩ i j = some p) : m.eval ⟨cols, rows, g⟩ i j = some p := by
  have bm : ∀ {β : Type} (x y : Int) (k k' : α → Option β) (q : β),
      (∀ a q, k a = some q → k' a = some q) → (f x y).bind k = some q → (g x y).bind k' = some q := by
    intro β x y k k' q hk hq
    obtain ⟨a, ha, hb⟩ := Option.bind_eq_some_iff.1 hq
    rw [hfg _ _ _ ha]; exact hk _ _ hb
  cases m with
  | zero =>
    simp only [Mode.eval] at h ⊢
    split at h
    · rename_i hc; rw [if_pos hc]; exact hfg _ _ _ h
    · rename_i hc; rw [if_neg hc]; exact h
  | value v =>
    simp only [Mode.eval] at h ⊢
    split at h
    · rename_i hc; rw [if_pos hc]; exact hfg _ _ _ h
    · rename_i hc; rw [if_neg hc]; exact h
  | constant => simp only [Mode.eval] at h ⊢; exact hfg _ _ _ h
  | periodic =>
    simp only [Mode.eval, Option.bind_eq_bind, Option.bind_eq_some_iff] at h ⊢
    obtain ⟨a, ha, b, hb, hv⟩ := h
    exact ⟨a, ha, b, hb, hfg _ _ _ hv⟩
  | cylindrical =>
    simp only [Mode.eval, Option.bind_eq_bind, Option.bind_eq_some_iff] at h ⊢
    obtain ⟨a, ha, hv⟩ := h
    exact ⟨a, ha, hfg _ _ _ hv⟩
  | reflect =>
    simp only [Mode.eval, Option.bind_eq_bind, Option.bind_eq_some_iff] at h ⊢
    obtain ⟨a, ha, b, hb, hv⟩ := h
    exact ⟨a, ha, b, hb, hfg _ _ _ hv⟩
  | linear =>
    simp only [Mode.eval, Option.bind_eq_bind] at h ⊢
    split at h <;> rename_i c1
    · simp only [if_pos c1]
      split at h <;> rename_i c2
      · simp only [if_pos c2]
        refine bm _ _ _ _ _ ?_ h; intro a q ha
        refine bm _ _ _ _ _ ?_ ha; intro a q ha
        refine bm _ _ _ _ _ ?_ ha; intro a q ha
        refine bm _ _ _ _ _ ?_ ha; intro a q ha
        refine bm _ _ _ _ _ ?_ ha; intro a q ha
        exact ha
      · simp only [if_neg c2]
        split at h <;> rename_i c3
        · simp only [if_pos c3]
          refine bm _ _ _ _ _ ?_ h; intro a q ha
          refine bm _ _ _ _ _ ?_ ha; intro a q ha
          refine bm _ _ _ _ _ ?_ ha; intro a q ha
          refine bm _ _ _ _ _ ?_ ha; intro a q ha
          refine bm _ _ _ _ _ ?_ ha; intro a q ha
          exact ha
        · simp only [if_neg c3]
          refine bm _ _ _ _ _ ?_ h; intro a q ha
          refine bm _ _ _ _ _ ?_ ha; intro a q ha
          refine bm _ _ _ _ _ ?_ ha; intro a q ha
          exact ha
    · simp only [if_neg c1]
      split at h <;> rename_i c2
      · simp only [if_pos c2]
        split at h <;> rename_i c3
        · simp only [if_pos c3]
          refine bm _ _ _ _ _ ?_ h; intro a q ha
          refine bm _ _ _ _ _ ?_ ha; intro a q ha
          refine bm _ _ _ _ _ ?_ ha; intro a q ha
          refine bm _ _ _ _ _ ?_ ha; intro a q ha
          refine bm _ _ _ _ _ ?_ ha; intro a q ha
          exact ha
        · simp only [if_neg c3]
          split at h <;> rename_i c4
          · simp only [if_pos c4]
            refine bm _ _ _ _ _ ?_ h; intro a q ha
            refine bm _ _ _ _ _ ?_ ha; intro a q ha
            refine bm _ _ _ _ _ ?_ ha; intro a q ha
            refine bm _ _ _ _ _ ?_ ha; intro a q ha
            refine bm _ _ _ _ _ ?_ ha; intro a q ha
            exact ha
          · simp only [if_neg c4]
            refine bm _ _ _ _ _ ?_ h; intro a q ha
            refine bm _ _ _ _ _ ?_ ha; intro a q ha
            refine bm _ _ _ _ _ ?_ ha; intro a q ha
            exact ha
      · simp only [if_neg c2]
        split at h <;> rename_i c3
        · simp only [if_pos c3]
          refine bm _ _ _ _ _ ?_ h; intro a q ha
          refine bm _ _ _ _ _ ?_ ha; intro a q ha
          refine bm _ _ _ _ _ ?_ ha; intro a q ha
          exact ha
        · simp only [if_neg c3]
          split at h <;> rename_i c4
          · simp only [if_pos c4]
            refine bm _ _ _ _ _ ?_ h; intro a q ha
            refine bm _ _ _ _ _ ?_ ha; intro a q ha
            refine bm _ _ _ _ _ ?_ ha; intro a q ha
            exact ha
          · simp only [if_neg c4]; exact hfg _ _ _ h

/-- An edge-extended complete image can be read everywhere. -/
theorem edge_total (m : Mode α) {c : View α} (hc : c.Complete) (h1 : m.minSize ≤ c.cols) (h2 : m.minSize ≤ c.rows)
    (i j : Int) : ∃ p, m.eval ⟨c.cols, c.rows, fun x y => c.eval x y⟩ i j = some p := by
  let f : Int → Int → Option α := fun x y =>
    if 0 ≤ x ∧ x < c.cols ∧ 0 ≤ y ∧ y < c.rows then some ((c.eval x y).getD 0) else none
  have key := Edge.prerasterize_total_partial (px := fun x y => (c.eval x y).getD 0)
    ⟨⟨c.cols, c.rows, f⟩, 0, 0, m⟩ (fun _ _ => rfl) h1 h2 ⟨i, j, i + 1, j + 1⟩ (i := i) (j := j)
    (has_iff.2 ⟨by simp, by simp, by simp, by simp⟩)
  obtain ⟨p, hp⟩ := key
  rw [Edge.prerasterize_read_partial ⟨⟨c.cols, c.rows, f⟩, 0, 0, m⟩ h1 h2 ⟨i, j, i + 1, j + 1⟩ (i := i) (j := j)
    (has_iff.2 ⟨by simp, by simp, by simp, by simp⟩)] at hp
  simp only [Edge.EView.read, Int.add_zero] at hp
  refine ⟨p, mode_mono m (fun x y q hq => ?_) i j hp⟩
  simp only [f] at hq
  split at hq
  · rename_i hb
    obtain ⟨r, hr⟩ := hc x y hb.1 hb.2.1 hb.2.2.1 hb.2.2.2
    rw [hr] at hq ⊢; exact hq
  · cases hq

/-- Where a proper view can be read. -/
theorem readable_iff (v : View α) (h : v.Proper) (x y : Int) :
    (∃ p, v.eval x y = some p) ↔ v.dom.1 x ∧ v.dom.2 y := by
  induction v generalizing x y with
  | mem w hh data =>
    simp only [View.eval, View.dom]
    by_cases hb : 0 ≤ x ∧ x < w ∧ 0 ≤ y ∧ y < hh
    · rw [if_pos hb]
      have := flat_bounds hb.1 hb.2.1 hb.2.2.1 hb.2.2.2
      exact ⟨fun _ => ⟨⟨hb.1, hb.2.1⟩, hb.2.2⟩, fun _ => h _ this.1 this.2⟩
    · rw [if_neg hb]
      constructor
      · rintro ⟨p, hp⟩; cases hp
      · rintro ⟨⟨a, b⟩, c, d⟩; exact absurd ⟨a, b, c, d⟩ hb
  | lazy w hh px =>
    simp only [View.eval, View.dom]
    by_cases hb : 0 ≤ x ∧ x < w ∧ 0 ≤ y ∧ y < hh
    · rw [if_pos hb]; exact ⟨fun _ => ⟨⟨hb.1, hb.2.1⟩, hb.2.2⟩, fun _ => ⟨_, rfl⟩⟩
    · rw [if_neg hb]
      constructor
      · rintro ⟨p, hp⟩; cases hp
      · rintro ⟨⟨a, b⟩, c, d⟩; exact absurd ⟨a, b, c, d⟩ hb
  | index w hh f => simp [View.eval, View.dom]
  | crop c ci cj di dj ih => exact ih h _ _
  | transpose c ih => simp only [View.eval, View.dom]; rw [ih h, and_comm]
  | rot180 c ih => exact ih h _ _
  | rot90cw c ih => simp only [View.eval, View.dom]; rw [ih h, and_comm]
  | rot90ccw c ih => simp only [View.eval, View.dom]; rw [ih h, and_comm]
  | flipV c ih => exact ih h _ _
  | subsample c xd yd ih => exact ih h.1 _ _
  | unary f c ih =>
    simp only [View.dom]
    rw [← ih h]
    simp only [View.eval, Option.map_eq_some_iff]
    constructor
    · rintro ⟨p, a, ha, _⟩; exact ⟨a, ha⟩
    · rintro ⟨a, ha⟩; exact ⟨_, a, ha, rfl⟩
  | binary f c d ih1 ih2 =>
    have i1 := ih1 h.1 x y
    have i2 := ih2 h.2.1 x y
    simp only [View.dom, View.eval, Option.bind_eq_some_iff, Option.map_eq_some_iff]
    constructor
    · rintro ⟨p, a, ha, b, hb, _⟩
      have j1 := i1.1 ⟨a, ha⟩
      have j2 := i2.1 ⟨b, hb⟩
      exact ⟨⟨j1.1, j2.1⟩, j1.2, j2.2⟩
    · rintro ⟨⟨a, b⟩, c, d⟩
      obtain ⟨p, hp⟩ := i1.2 ⟨a, c⟩
      obtain ⟨q, hq⟩ := i2.2 ⟨b, d⟩
      exact ⟨_, p, hp, q, hq, rfl⟩
  | edge m xo yo w hh c ih =>
    simp only [View.dom, View.eval, and_self, iff_true]
    exact edge_total m h.2.1 h.2.2.1 h.2.2.2 _ _

/-! ### prerasterize -/

theorem boxAt_has {x y w h X Y : Int} :
    (boxAt x y w h).has X Y = true ↔ x ≤ X ∧ y ≤ Y ∧ X < x + w ∧ Y < y + h := by
  rw [has_iff]; rfl

theorem box_cases (b : Rect) : (b.empty = true ∧ b.width = 0 ∧ b.height = 0 ∧ (b.x1 ≤ b.x0 ∨ b.y1 ≤ b.y0)) ∨
    (b.empty = false ∧ b.x0 < b.x1 ∧ b.y0 < b.y1 ∧ b.width = b.x1 - b.x0 ∧ b.height = b.y1 - b.y0) := by
  by_cases h : b.empty = true
  · left; obtain ⟨e1, e2⟩ := size_empty h
    refine ⟨h, e1, e2, ?_⟩; simp [Rect.empty] at h; omega
  · right; have h := Bool.eq_false_iff.2 h
    obtain ⟨e1, e2⟩ := size_of h
    have := empty_iff.1 h
    exact ⟨h, this.1, this.2, e1, e2⟩

theorem shift_has {b : Rect} {x y X Y : Int} : (shift b x y).has X Y = true ↔ b.has (X - x) (Y - y) = true := by
  unfold shift
  rcases box_cases b with ⟨h, _, _, e⟩ | ⟨h, e1, e2, _, _⟩
  · rw [if_pos h, has_iff, has_iff]; omega
  · rw [if_neg (by simp [h]), has_iff, has_iff]; dsimp only; omega

/-- The source box of any request lies in the image (also for empty requests). -/
theorem source_in_image (m : Mode α) {cols rows : Int} (hc : m.minSize ≤ cols) (hr : m.minSize ≤ rows) (b : Rect)
    {x y : Int} (h : (m.sourceBBox cols rows b).has x y = true) : 0 ≤ x ∧ x < cols ∧ 0 ≤ y ∧ y < rows := by
  have c1 : ∀ {n : Int}, 1 ≤ n → ∀ lo hi, 0 ≤ (Edge.constSrc n lo hi).1 ∧ (Edge.constSrc n lo hi).2 ≤ n := by
    intro n hn lo hi; unfold Edge.constSrc; dsimp only
    constructor <;> split <;> (try split) <;> omega
  have c2 : ∀ {n : Int}, 1 ≤ n → ∀ lo hi w, 0 ≤ (Edge.periodSrc n lo hi w).1 ∧ (Edge.periodSrc n lo hi w).2 ≤ n := by
    intro n hn lo hi w; unfold Edge.periodSrc
    simp only [Edge.vwMod_eq (show 0 < n by omega)]
    have := Int.emod_nonneg lo (show n ≠ 0 by omega)
    have := Int.emod_lt_of_pos (hi - 1) (show 0 < n by omega)
    split
    · exact ⟨by simp, by simp⟩
    · split
      · exact ⟨by simp, by simp⟩
      · dsimp only; omega
  have c3 : ∀ {n : Int}, 2 ≤ n → ∀ lo hi w, 0 ≤ (Edge.reflectSrc n lo hi w).1 ∧ (Edge.reflectSrc n lo hi w).2 ≤ n := by
    intro n hn lo hi w; unfold Edge.reflectSrc
    simp only [Edge.vwMod_eq (show 0 < 2 * n - 2 by omega)]
    have := Int.emod_nonneg lo (show 2 * n - 2 ≠ 0 by omega)
    have := Int.emod_lt_of_pos lo (show 0 < 2 * n - 2 by omega)
    have := Int.emod_nonneg (hi - 1) (show 2 * n - 2 ≠ 0 by omega)
    have := Int.emod_lt_of_pos (hi - 1) (show 0 < 2 * n - 2 by omega)
    generalize lo % (2 * n - 2) = a at *
    generalize (hi - 1) % (2 * n - 2) = b at *
    split
    · exact ⟨by simp, by simp⟩
    · split
      · dsimp only; omega
      · split
        · dsimp only; omega
        · split <;> dsimp only <;> omega
  have c4 : ∀ {n : Int}, 2 ≤ n → ∀ lo hi, 0 ≤ (Edge.linearSrc n lo hi).1 ∧ (Edge.linearSrc n lo hi).2 ≤ n := by
    intro n hn lo hi; unfold Edge.linearSrc; dsimp only
    by_cases a : lo < 0 <;> by_cases b : hi > n <;> simp only [a, b, if_true, if_false] <;> omega
  cases m with
  | zero => have := (Edge.crop_has.1 h).2; simp only [has_iff] at this; omega
  | value v => have := (Edge.crop_has.1 h).2; simp only [has_iff] at this; omega
  | constant =>
    simp only [Mode.sourceBBox, has_iff] at h
    have a := c1 hc b.x0 b.x1; have b := c1 hr b.y0 b.y1; omega
  | periodic =>
    simp only [Mode.sourceBBox, has_iff] at h
    have a := c2 hc b.x0 b.x1 b.width; have b := c2 hr b.y0 b.y1 b.height; omega
  | cylindrical =>
    simp only [Mode.sourceBBox, has_iff] at h
    have a := c2 hc b.x0 b.x1 b.width; have b := c1 hr b.y0 b.y1; omega
  | reflect =>
    simp only [Mode.sourceBBox, has_iff] at h
    have a := c3 hc b.x0 b.x1 b.width; have b := c3 hr b.y0 b.y1 b.height; omega
  | linear =>
    simp only [Mode.sourceBBox, has_iff] at h
    have a := c4 hc b.x0 b.x1; have b := c4 hr b.y0 b.y1; omega

/-- What `prerasterize` must achieve. -/
def View.PreOk (v : View α) (b : Rect) : Prop :=
  ∃ v', v.pre b = some v' ∧ v'.size = v.size ∧ ∀ x y, b.has x y = true → v'.eval x y = v.eval x y

/-- The filling loop of the subsampling view. `done` are the boxes already rasterized. -/
theorem fillLoop_ok {c : View α} {xd : Int} {bbox : Rect} (hne : bbox.empty = false)
    (l : List Rect)
    (hin : ∀ b ∈ l, b.empty = false ∧ bbox.x0 ≤ b.x0 ∧ b.x1 ≤ bbox.x1 ∧ bbox.y0 ≤ b.y0 ∧ b.y1 ≤ bbox.y1)
    (hpre : ∀ b ∈ l, c.PreOk (boxAt (xd * b.x0) (xd * b.y0) (xd * (b.width - 1) + 1) (xd * (b.height - 1) + 1)))
    (hrd : ∀ x y, bbox.has x y = true → ∃ p, c.eval (xd * x) (xd * y) = some p) (hxd : 0 < xd)
    (data : Int → Option α) :
    ∃ data', fillLoop (fun r => c.pre r) xd xd bbox l data = some data' ∧
      ∀ x y, bbox.has x y = true →
        ((∃ b ∈ l, b.has x y = true) ∨ data ((x - bbox.x0) + (y - bbox.y0) * bbox.width) = c.eval (xd * x) (xd * y)) →
        data' ((x - bbox.x0) + (y - bbox.y0) * bbox.width) = c.eval (xd * x) (xd * y) := by
  induction l generalizing data with
  | nil =>
    refine ⟨data, rfl, fun x y _ h => ?_⟩
    rcases h with ⟨b, hb, _⟩ | h
    · cases hb
    · exact h
  | cons b l ih =>
    obtain ⟨c', hc', _, hev⟩ := hpre b (List.mem_cons_self ..)
    obtain ⟨hbe, b1, b2, b3, b4⟩ := hin b (List.mem_cons_self ..)
    have hw : ∀ x y, bbox.has x y = true → b.has x y = true →
        fillBuf (.subsample c' xd xd) bbox b data ((x - bbox.x0) + (y - bbox.y0) * bbox.width)
          = c.eval (xd * x) (xd * y) := by
      intro x y hx hb
      obtain ⟨ew, eh⟩ := size_of hbe
      obtain ⟨fw, fh⟩ := size_of hne
      have hx' := has_iff.1 hx
      have hb' := has_iff.1 hb
      have m1 : ((x - bbox.x0) + (y - bbox.y0) * bbox.width) % bbox.width = x - bbox.x0 := by
        rw [Int.add_mul_emod_self_right]; exact Int.emod_eq_of_lt (by omega) (by omega)
      have m2 : ((x - bbox.x0) + (y - bbox.y0) * bbox.width) / bbox.width = y - bbox.y0 := by
        rw [Int.add_mul_ediv_right _ _ (by omega), Int.ediv_eq_zero_of_lt (by omega) (by omega)]; omega
      unfold fillBuf
      simp only [m1, m2]
      rw [if_pos (by omega)]
      obtain ⟨p, hp⟩ := hrd x y hx
      rw [hp]
      refine raster_reads _ _ _ _ ?_
      rw [Int.toNat_of_nonneg (by omega), Int.toNat_of_nonneg (by omega)]
      rw [show b.x0 + (x - bbox.x0 - (b.x0 - bbox.x0)) = x by omega,
        show b.y0 + (y - bbox.y0 - (b.y0 - bbox.y0)) = y by omega]
      simp only [View.eval]
      rw [hev, hp]
      rw [boxAt_has, ew, eh]
      have n1 := Int.mul_le_mul_of_nonneg_left hb'.1 (show 0 ≤ xd by omega)
      have n2 := Int.mul_le_mul_of_nonneg_left hb'.2.1 (show 0 ≤ xd by omega)
      have n3 := Int.mul_le_mul_of_nonneg_left (show x ≤ b.x1 - 1 by omega) (show 0 ≤ xd by omega)
      have n4 := Int.mul_le_mul_of_nonneg_left (show y ≤ b.y1 - 1 by omega) (show 0 ≤ xd by omega)
      have q1 : xd * b.x0 + (xd * (b.x1 - b.x0 - 1) + 1) = xd * (b.x1 - 1) + 1 := by ring
      have q2 : xd * b.y0 + (xd * (b.y1 - b.y0 - 1) + 1) = xd * (b.y1 - 1) + 1 := by ring
      rw [q1, q2]
      exact ⟨n1, n2, by omega, by omega⟩
    obtain ⟨data', hd, hval⟩ := ih (fun b hb => hin b (List.mem_cons_of_mem _ hb))
      (fun b hb => hpre b (List.mem_cons_of_mem _ hb)) (fillBuf (.subsample c' xd xd) bbox b data)
    refine ⟨data', ?_, fun x y hx h => hval x y hx ?_⟩
    · simp only [fillLoop, hc', Option.bind_eq_bind, Option.bind_some]; exact hd
    · by_cases hb : b.has x y = true
      · exact Or.inr (hw x y hx hb)
      · rcases h with ⟨d, hd, hdx⟩ | h
        · rcases List.mem_cons.1 hd with rfl | hd
          · exact absurd hdx hb
          · exact Or.inl ⟨d, hd, hdx⟩
        · right
          rw [← h]
          obtain ⟨ew, eh⟩ := size_of hbe
          obtain ⟨fw, fh⟩ := size_of hne
          have hx' := has_iff.1 hx
          have m1 : ((x - bbox.x0) + (y - bbox.y0) * bbox.width) % bbox.width = x - bbox.x0 := by
            rw [Int.add_mul_emod_self_right]; exact Int.emod_eq_of_lt (by omega) (by omega)
          have m2 : ((x - bbox.x0) + (y - bbox.y0) * bbox.width) / bbox.width = y - bbox.y0 := by
            rw [Int.add_mul_ediv_right _ _ (by omega), Int.ediv_eq_zero_of_lt (by omega) (by omega)]; omega
          unfold fillBuf
          simp only [m1, m2]
          rw [if_neg]
          rw [has_iff] at hb
          omega

/-- Reading a crop of a buffer laid over the box `b` (what disk images and subsampled views return). -/
theorem buffer_read {w h : Int} {b : Rect} {data : Int → Option α} {x y : Int} (hb : b.has x y = true) :
    (View.crop (.mem b.width b.height data) (-b.x0) (-b.y0) w h).eval x y
      = data ((x - b.x0) + (y - b.y0) * b.width) := by
  have hne : b.empty = false := Edge.not_empty_of_has hb
  obtain ⟨ew, eh⟩ := size_of hne
  have hb' := has_iff.1 hb
  simp only [View.eval]
  rw [if_pos (by omega), show -b.x0 + x = x - b.x0 by omega, show -b.y0 + y = y - b.y0 by omega]

theorem pre_ok (v : View α) (h : v.Proper) (b : Rect)
    (hb : ∀ x y, b.has x y = true → v.dom.1 x ∧ v.dom.2 y) : v.PreOk b := by
  induction v generalizing b with
  | mem w hh data => exact ⟨_, rfl, rfl, fun _ _ _ => rfl⟩
  | lazy w hh px =>
    simp only [View.dom] at hb
    have ha : b.empty = true ∨ (0 ≤ b.x0 ∧ b.x1 ≤ w ∧ 0 ≤ b.y0 ∧ b.y1 ≤ hh) := by
      rcases box_cases b with ⟨e, _⟩ | ⟨_, e1, e2, _⟩
      · exact Or.inl e
      · right
        have p := hb b.x0 b.y0 (has_iff.2 ⟨by omega, by omega, by omega, by omega⟩)
        have q := hb (b.x1 - 1) (b.y1 - 1) (has_iff.2 ⟨by omega, by omega, by omega, by omega⟩)
        omega
    refine ⟨.crop (.mem b.width b.height fun k => some (px (b.x0 + k % b.width) (b.y0 + k / b.width)))
        (-b.x0) (-b.y0) w hh, by rw [View.pre, if_pos ha], rfl, fun x y hx => ?_⟩
    rw [buffer_read hx]
    obtain ⟨ew, eh⟩ := size_of (Edge.not_empty_of_has hx)
    have hx' := has_iff.1 hx
    have hi := hb x y hx
    simp only [View.eval]
    rw [if_pos (by omega), Int.add_mul_emod_self_right, Int.emod_eq_of_lt (by omega) (by omega),
      Int.add_mul_ediv_right _ _ (by omega), Int.ediv_eq_zero_of_lt (by omega) (by omega)]
    congr 2 <;> omega
  | index w hh f => exact ⟨_, rfl, rfl, fun _ _ _ => rfl⟩
  | crop c ci cj di dj ih =>
    obtain ⟨c', e, es, ev⟩ := ih h (shift b ci cj) (fun x y hx => by
      have := hb _ _ (shift_has.1 hx)
      simp only [View.dom] at this
      rwa [show ci + (x - ci) = x by omega, show cj + (y - cj) = y by omega] at this)
    refine ⟨.crop c' ci cj di dj, by simp [View.pre, e], rfl, fun x y hx => ?_⟩
    simp only [View.eval]
    refine ev _ _ (shift_has.2 ?_)
    rwa [show ci + x - ci = x by omega, show cj + y - cj = y by omega]
  | transpose c ih =>
    have bc := box_cases b
    have hbx : ∀ x y, (boxAt b.y0 b.x0 b.height b.width).has x y = true ↔ b.has y x = true := by
      intro x y; rw [boxAt_has, has_iff]; omega
    obtain ⟨c', e, es, ev⟩ := ih h _ (fun x y hx => (hb _ _ ((hbx x y).1 hx)).symm)
    refine ⟨.transpose c', by simp [View.pre, e], by simp [View.size, es], fun x y hx => ?_⟩
    simp only [View.eval]
    exact ev _ _ ((hbx _ _).2 hx)
  | rot180 c ih =>
    have bc := box_cases b
    have hbx : ∀ x y, (boxAt (c.cols - b.x1) (c.rows - b.y1) b.width b.height).has x y = true
        ↔ b.has (c.cols - 1 - x) (c.rows - 1 - y) = true := by
      intro x y; rw [boxAt_has, has_iff]; omega
    obtain ⟨c', e, es, ev⟩ := ih h _ (fun x y hx => by
      have := hb _ _ ((hbx x y).1 hx)
      simp only [View.dom] at this
      rwa [show c.cols - 1 - (c.cols - 1 - x) = x by omega, show c.rows - 1 - (c.rows - 1 - y) = y by omega] at this)
    refine ⟨.rot180 c', by simp [View.pre, e], es, fun x y hx => ?_⟩
    simp only [View.eval, View.cols, View.rows, es]
    refine ev _ _ ((hbx _ _).2 ?_)
    simp only [View.cols, View.rows]
    rwa [show c.size.1 - 1 - (c.size.1 - 1 - x) = x by omega, show c.size.2 - 1 - (c.size.2 - 1 - y) = y by omega]
  | rot90cw c ih =>
    have bc := box_cases b
    have hbx : ∀ x y, (boxAt b.y0 (c.rows - b.x1) b.height b.width).has x y = true
        ↔ b.has (c.rows - 1 - y) x = true := by
      intro x y; rw [boxAt_has, has_iff]; omega
    obtain ⟨c', e, es, ev⟩ := ih h _ (fun x y hx => by
      have := hb _ _ ((hbx x y).1 hx)
      simp only [View.dom] at this
      rw [show c.rows - 1 - (c.rows - 1 - y) = y by omega] at this
      exact this.symm)
    refine ⟨.rot90cw c', by simp [View.pre, e], by simp [View.size, es], fun x y hx => ?_⟩
    simp only [View.eval, View.rows, es]
    refine ev _ _ ((hbx _ _).2 ?_)
    simp only [View.rows]
    rwa [show c.size.2 - 1 - (c.size.2 - 1 - x) = x by omega]
  | rot90ccw c ih =>
    have bc := box_cases b
    have hbx : ∀ x y, (boxAt (c.cols - b.y1) b.x0 b.height b.width).has x y = true
        ↔ b.has y (c.cols - 1 - x) = true := by
      intro x y; rw [boxAt_has, has_iff]; omega
    obtain ⟨c', e, es, ev⟩ := ih h _ (fun x y hx => by
      have := hb _ _ ((hbx x y).1 hx)
      simp only [View.dom] at this
      rw [show c.cols - 1 - (c.cols - 1 - x) = x by omega] at this
      exact this.symm)
    refine ⟨.rot90ccw c', by simp [View.pre, e], by simp [View.size, es], fun x y hx => ?_⟩
    simp only [View.eval, View.cols, es]
    refine ev _ _ ((hbx _ _).2 ?_)
    simp only [View.cols]
    rwa [show c.size.1 - 1 - (c.size.1 - 1 - y) = y by omega]
  | flipV c ih =>
    have bc := box_cases b
    have hbx : ∀ x y, (boxAt b.x0 (c.rows - b.y1) b.width b.height).has x y = true
        ↔ b.has x (c.rows - 1 - y) = true := by
      intro x y; rw [boxAt_has, has_iff]; omega
    obtain ⟨c', e, es, ev⟩ := ih h _ (fun x y hx => by
      have := hb _ _ ((hbx x y).1 hx)
      simp only [View.dom] at this
      rwa [show c.rows - 1 - (c.rows - 1 - y) = y by omega] at this)
    refine ⟨.flipV c', by simp [View.pre, e], es, fun x y hx => ?_⟩
    simp only [View.eval, View.rows, es]
    refine ev _ _ ((hbx _ _).2 ?_)
    simp only [View.rows]
    rwa [show c.size.2 - 1 - (c.size.2 - 1 - y) = y by omega]
  | subsample c xd yd ih =>
    obtain ⟨hc, hxd, rfl⟩ := h
    have bt := dom_between c hc
    by_cases hne : b.empty = true
    · obtain ⟨e1, e2⟩ := size_empty hne
      refine ⟨.crop (.mem b.width b.height fun _ => none) (-b.x0) (-b.y0)
        (1 + (c.cols - 1).tdiv xd) (1 + (c.rows - 1).tdiv xd), ?_, rfl, fun x y hx => ?_⟩
      · simp only [View.pre, e1, e2, subdivide]
        rw [segs_stop (le_refl _)]; rfl
      · rw [Edge.not_empty_of_has hx] at hne; cases hne
    · have hne := Bool.eq_false_iff.2 hne
      have hw : 0 < max 2 (b.width.tdiv xd) := by omega
      have hh : 0 < max 2 (b.height.tdiv xd) := by omega
      have hin := fun d (hd : d ∈ subdivide b (max 2 (b.width.tdiv xd)) (max 2 (b.height.tdiv xd)) true false) =>
        subdivide_inside b hw hh true hd
      obtain ⟨data, hd, hv⟩ := fillLoop_ok (c := c) (xd := xd) hne
        (subdivide b (max 2 (b.width.tdiv xd)) (max 2 (b.height.tdiv xd)) true false)
        (fun d hd => by have := hin d hd; exact ⟨this.1, this.2.1, this.2.2.1, this.2.2.2.1, this.2.2.2.2.1⟩)
        (fun d hd => by
          have hi := hin d hd
          obtain ⟨ew, eh⟩ := size_of hi.1
          have de := empty_iff.1 hi.1
          refine ih hc _ (fun x y hx => ?_)
          rw [boxAt_has, ew, eh] at hx
          have q1 : xd * d.x0 + (xd * (d.x1 - d.x0 - 1) + 1) = xd * (d.x1 - 1) + 1 := by ring
          have q2 : xd * d.y0 + (xd * (d.y1 - d.y0 - 1) + 1) = xd * (d.y1 - 1) + 1 := by ring
          rw [q1, q2] at hx
          have p := hb d.x0 d.y0 (has_iff.2 ⟨by omega, by omega, by omega, by omega⟩)
          have q := hb (d.x1 - 1) (d.y1 - 1) (has_iff.2 ⟨by omega, by omega, by omega, by omega⟩)
          exact ⟨bt.1 _ _ _ hx.1 (by omega) p.1 q.1, bt.2 _ _ _ hx.2.1 (by omega) p.2 q.2⟩)
        (fun x y hx => (readable_iff c hc _ _).2 (hb x y hx)) hxd (fun _ => none)
      refine ⟨.crop (.mem b.width b.height data) (-b.x0) (-b.y0)
        (1 + (c.cols - 1).tdiv xd) (1 + (c.rows - 1).tdiv xd), ?_, rfl, fun x y hx => ?_⟩
      · simp only [View.pre, Option.bind_eq_bind]
        rw [hd]; rfl
      · rw [buffer_read hx, hv x y hx]
        · rfl
        · left
          have := subdivide_partition b hw hh x y
          rw [if_pos hx] at this
          obtain ⟨d, hd, hdx⟩ := List.countP_pos_iff.1 (show 0 < times _ x y by rw [this]; omega)
          exact ⟨d, hd, hdx⟩
  | unary f c ih =>
    obtain ⟨c', e, es, ev⟩ := ih h b hb
    refine ⟨.unary f c', by simp [View.pre, e], es, fun x y hx => ?_⟩
    simp only [View.eval, ev x y hx]
  | binary f c d ih1 ih2 =>
    obtain ⟨c', e, es, ev⟩ := ih1 h.1 b (fun x y hx => by have := hb x y hx; exact ⟨this.1.1, this.2.1⟩)
    obtain ⟨d', e', es', ev'⟩ := ih2 h.2.1 b (fun x y hx => by have := hb x y hx; exact ⟨this.1.2, this.2.2⟩)
    refine ⟨.binary f c' d', ?_, es, fun x y hx => ?_⟩
    · simp only [View.pre, e, e', Option.bind_eq_bind, Option.bind_some]
      rw [if_pos (by rw [es, es', h.2.2])]; rfl
    · simp only [View.eval, ev x y hx, ev' x y hx]
  | edge m xo yo w hh c ih =>
    obtain ⟨hc, hco, m1, m2⟩ := h
    have key : ∀ s : Rect, (∀ x y, s.has x y = true ↔ (m.sourceBBox c.cols c.rows (shift b xo yo)).has x y = true) →
        ∃ c', c.pre s = some c' ∧ (View.edge m xo yo w hh c').size = (View.edge m xo yo w hh c).size ∧
          ∀ x y, b.has x y = true → (View.edge m xo yo w hh c').eval x y = (View.edge m xo yo w hh c).eval x y := by
      intro s hs
      obtain ⟨c', e, es, ev⟩ := ih hc s (fun x y hx => by
        have := source_in_image m m1 m2 _ ((hs x y).1 hx)
        exact (readable_iff c hc x y).1 (hco x y this.1 this.2.1 this.2.2.1 this.2.2.2))
      refine ⟨c', e, rfl, fun x y hx => ?_⟩
      simp only [View.eval, View.cols, View.rows, es]
      obtain ⟨p, hp⟩ := edge_total m hco m1 m2 (x + xo) (y + yo)
      have hsh : (shift b xo yo).has (x + xo) (y + yo) = true := shift_has.2 (by
        rwa [show x + xo - xo = x by omega, show y + yo - yo = y by omega])
      have en := Edge.sourceBBox_enough_partial m ⟨c.cols, c.rows, fun x y => c.eval x y⟩ m1 m2 (shift b xo yo) hsh
      rw [hp] at en
      simp only [View.cols, View.rows] at hp
      rw [hp]
      refine mode_mono m (fun X Y q hq => ?_) _ _ en
      simp only at hq
      split at hq
      · rename_i hX
        rw [ev X Y ((hs X Y).2 hX)]; exact hq
      · cases hq
    by_cases he : (m.sourceBBox c.cols c.rows (shift b xo yo)).empty = true
    · obtain ⟨c', e, h1, h2⟩ := key ⟨0, 0, 0, 0⟩ (fun x y => by
        constructor
        · intro hx; rw [has_iff] at hx; simp only at hx; omega
        · intro hx; rw [Edge.not_empty_of_has hx] at he; cases he)
      refine ⟨.edge m xo yo w hh c', ?_, h1, h2⟩
      simp only [View.pre, he, if_true, e, Option.bind_eq_bind, Option.bind_some]; rfl
    · obtain ⟨c', e, h1, h2⟩ := key _ (fun x y => Iff.rfl)
      refine ⟨.edge m xo yo w hh c', ?_, h1, h2⟩
      simp only [View.pre, he, e, Option.bind_eq_bind, Option.bind_some]; simp [e]

/-- **C47 (prerasterize)**: if every pixel of the box can be read, prerasterizing succeeds and shows the same
pixels in the box.  Partial: subsampling factors must be equal (see `View.Proper`). -/
theorem prerasterize_transparent_partial (v : View α) (h : v.Proper) (b : Rect)
    (hb : ∀ x y, b.has x y = true → ∃ p, v.eval x y = some p) :
    ∃ v', v.pre b = some v' ∧ v'.cols = v.cols ∧ v'.rows = v.rows ∧
      ∀ x y, b.has x y = true → v'.eval x y = v.eval x y := by
  obtain ⟨v', e, es, ev⟩ := pre_ok v h b (fun x y hx => (readable_iff v h x y).1 (hb x y hx))
  exact ⟨v', e, by simp [View.cols, es], by simp [View.rows, es], ev⟩

/-- **C47 (rasterize)**: rasterizing a box of readable pixels fills the destination with exactly them. -/
theorem rasterize_transparent_partial (v : View α) (h : v.Proper) (b : Rect)
    (hb : ∀ x y, b.has x y = true → ∃ p, v.eval x y = some p) :
    ∃ img, v.rasterize b = some img ∧
      ∀ i j : Nat, b.x0 + i < b.x1 → b.y0 + j < b.y1 → img i j = v.eval (b.x0 + i) (b.y0 + j) := by
  obtain ⟨v', e, _, _, ev⟩ := prerasterize_transparent_partial v h b hb
  refine ⟨v'.raster b, by simp [View.rasterize, e], fun i j hi hj => ?_⟩
  have hx : b.has (b.x0 + i) (b.y0 + j) = true := has_iff.2 ⟨by omega, by omega, hi, hj⟩
  obtain ⟨p, hp⟩ := hb _ _ hx
  rw [hp]
  exact raster_reads v' b i j (by rw [ev _ _ hx, hp])

/-- Crops stay inside their child, and only images with pixels are subsampled. -/
def View.Inside : View α → Prop
  | .crop c ci cj di dj => c.Inside ∧ 0 ≤ ci ∧ ci + di ≤ c.cols ∧ 0 ≤ cj ∧ cj + dj ≤ c.rows
  | .transpose c => c.Inside
  | .rot180 c => c.Inside
  | .rot90cw c => c.Inside
  | .rot90ccw c => c.Inside
  | .flipV c => c.Inside
  | .subsample c _ _ => c.Inside ∧ 0 < c.cols ∧ 0 < c.rows
  | .unary _ c => c.Inside
  | .binary _ c d => c.Inside ∧ d.Inside
  | _ => True

theorem sub_bound {n d x : Int} (hd : 0 < d) (hn : 0 < n) (h0 : 0 ≤ x) (h : x < 1 + (n - 1).tdiv d) :
    0 ≤ d * x ∧ d * x < n := by
  rw [Int.tdiv_eq_ediv_of_nonneg (by omega)] at h
  have a := Int.mul_ediv_self_le (x := n - 1) (k := d) (by omega)
  have b := Int.mul_le_mul_of_nonneg_left (show x ≤ (n - 1) / d by omega) (show 0 ≤ d by omega)
  exact ⟨Int.mul_nonneg (by omega) h0, by omega⟩

/-- A proper view whose crops stay inside shows a pixel everywhere in its bounds: no read leaves any image. -/
theorem complete_of_inside (v : View α) (h : v.Proper) (hi : v.Inside) : v.Complete := by
  induction v with
  | mem w hh data =>
    intro x y h1 h2 h3 h4
    exact (readable_iff _ h x y).2 ⟨⟨h1, h2⟩, h3, h4⟩
  | lazy w hh px =>
    intro x y h1 h2 h3 h4
    exact (readable_iff _ h x y).2 ⟨⟨h1, h2⟩, h3, h4⟩
  | index w hh f => intro x y _ _ _ _; exact ⟨_, rfl⟩
  | crop c ci cj di dj ih =>
    obtain ⟨i1, i2, i3, i4, i5⟩ := hi
    intro x y h1 h2 h3 h4
    simp only [View.cols, View.rows, View.size] at h2 h4
    exact ih h i1 _ _ (by omega) (by omega) (by omega) (by omega)
  | transpose c ih => intro x y h1 h2 h3 h4; exact ih h hi y x h3 h4 h1 h2
  | rot180 c ih =>
    intro x y h1 h2 h3 h4
    simp only [View.cols, View.rows, View.size] at h2 h4
    exact ih h hi _ _ (by simp only [View.cols]; omega) (by simp only [View.cols]; omega)
      (by simp only [View.rows]; omega) (by simp only [View.rows]; omega)
  | rot90cw c ih =>
    intro x y h1 h2 h3 h4
    simp only [View.cols, View.rows, View.size] at h2 h4
    exact ih h hi _ _ h3 h4 (by simp only [View.rows]; omega) (by simp only [View.rows]; omega)
  | rot90ccw c ih =>
    intro x y h1 h2 h3 h4
    simp only [View.cols, View.rows, View.size] at h2 h4
    exact ih h hi _ _ (by simp only [View.cols]; omega) (by simp only [View.cols]; omega) h1 h2
  | flipV c ih =>
    intro x y h1 h2 h3 h4
    simp only [View.cols, View.rows, View.size] at h2 h4
    exact ih h hi _ _ h1 h2 (by simp only [View.rows]; omega) (by simp only [View.rows]; omega)
  | subsample c xd yd ih =>
    obtain ⟨hc, hxd, rfl⟩ := h
    intro x y h1 h2 h3 h4
    simp only [View.cols, View.rows, View.size] at h2 h4
    have a := sub_bound hxd hi.2.1 h1 h2
    have b := sub_bound hxd hi.2.2 h3 h4
    exact ih hc hi.1 _ _ a.1 a.2 b.1 b.2
  | unary f c ih =>
    intro x y h1 h2 h3 h4
    obtain ⟨p, hp⟩ := ih h hi x y h1 h2 h3 h4
    exact ⟨f p, by simp [View.eval, hp]⟩
  | binary f c d ih1 ih2 =>
    intro x y h1 h2 h3 h4
    obtain ⟨p, hp⟩ := ih1 h.1 hi.1 x y h1 h2 h3 h4
    have e := h.2.2
    simp only [View.cols, View.rows, View.size] at h2 h4
    rw [e] at h2 h4
    obtain ⟨q, hq⟩ := ih2 h.2.1 hi.2 x y h1 h2 h3 h4
    exact ⟨f p q, by simp [View.eval, hp, hq]⟩
  | edge m xo yo w hh c ih =>
    intro x y _ _ _ _
    exact edge_total m h.2.1 h.2.2.1 h.2.2.2 _ _

/-- **C47**: rasterizing any box inside the bounds of such a view gives a defined pixel at every place, the
one a direct read gives. -/
theorem rasterize_inside_partial (v : View α) (h : v.Proper) (hi : v.Inside) (b : Rect)
    (hb : 0 ≤ b.x0 ∧ b.x1 ≤ v.cols ∧ 0 ≤ b.y0 ∧ b.y1 ≤ v.rows) :
    ∃ img, v.rasterize b = some img ∧ ∀ i j : Nat, b.x0 + i < b.x1 → b.y0 + j < b.y1 →
      ∃ p, img i j = some p ∧ v.eval (b.x0 + i) (b.y0 + j) = some p := by
  have hc := complete_of_inside v h hi
  obtain ⟨img, e, hv⟩ := rasterize_transparent_partial v h b (fun x y hx => by
    have := has_iff.1 hx; exact hc x y (by omega) (by omega) (by omega) (by omega))
  refine ⟨img, e, fun i j h1 h2 => ?_⟩
  obtain ⟨p, hp⟩ := hc (b.x0 + i) (b.y0 + j) (by omega) (by omega) (by omega) (by omega)
  exact ⟨p, by rw [hv i j h1 h2, hp], hp⟩

/-! ### Unequal subsampling factors -/

/-- A 1 by 3 disk image subsampled by 1 in x and 2 in y: all pixels can be read directly, but the
prerasterized child lacks the last row (the height of the child box uses the x factor), so the loop of
`rasterize` reads outside its buffer. -/
theorem subsample_reads_outside :
    let v : View Int := .subsample (.lazy 1 3 fun x y => 10 * x + y) 1 2
    v.cols = 1 ∧ v.rows = 2 ∧ v.eval 0 1 = some 2 ∧
      (v.rasterize ⟨0, 0, 1, 2⟩).map (fun img => (img 0 0, img 0 1)) = some (some 0, none) := by
  decide +kernel

/-- A 1 by 2 disk image subsampled by 2 in x and 1 in y: all pixels can be read directly, but rasterizing
asks the disk image for three rows, which throws. -/
theorem subsample_requests_outside :
    let v : View Int := .subsample (.lazy 1 2 fun x y => 10 * x + y) 2 1
    v.cols = 1 ∧ v.rows = 2 ∧ v.eval 0 1 = some 1 ∧ (v.rasterize ⟨0, 0, 1, 2⟩).isNone := by
  decide +kernel

/-! ### Laws of the spatial views -/

/-- **C47 (geometry)**: what each spatial view shows, in terms of its child's pixels, and the group laws. -/
theorem transpose_transpose (v : View α) (x y : Int) :
    (View.transpose (.transpose v)).eval x y = v.eval x y ∧ (View.transpose (.transpose v)).size = v.size := ⟨rfl, rfl⟩

theorem rot180_rot180 (v : View α) (x y : Int) :
    (View.rot180 (.rot180 v)).eval x y = v.eval x y ∧ (View.rot180 (.rot180 v)).size = v.size := by
  refine ⟨?_, rfl⟩
  simp only [View.eval, View.cols, View.rows, View.size]
  congr 1 <;> omega

theorem flipV_flipV (v : View α) (x y : Int) :
    (View.flipV (.flipV v)).eval x y = v.eval x y ∧ (View.flipV (.flipV v)).size = v.size := by
  refine ⟨?_, rfl⟩
  simp only [View.eval, View.rows, View.size]
  congr 1; omega

theorem rot90cw_rot90ccw (v : View α) (x y : Int) :
    (View.rot90cw (.rot90ccw v)).eval x y = v.eval x y ∧ (View.rot90ccw (.rot90cw v)).eval x y = v.eval x y := by
  constructor
  · simp only [View.eval, View.rows, View.cols, View.size]; congr 1; omega
  · simp only [View.eval, View.rows, View.cols, View.size]; congr 1; omega

theorem rot90cw_twice (v : View α) (x y : Int) :
    (View.rot90cw (.rot90cw v)).eval x y = (View.rot180 v).eval x y ∧
    (View.rot90ccw (.rot90ccw v)).eval x y = (View.rot180 v).eval x y := ⟨rfl, rfl⟩

/-- Transposing and flipping is a quarter turn: the clockwise one turns the left column into the top row. -/
theorem rot90cw_is_flip_transpose (v : View α) (x y : Int) :
    (View.rot90cw v).eval x y = (View.transpose (.flipV v)).eval x y := rfl

theorem crop_crop (v : View α) (a b w h c d w' h' x y : Int) :
    (View.crop (.crop v a b w h) c d w' h').eval x y = (View.crop v (a + c) (b + d) w' h').eval x y := by
  simp only [View.eval]; congr 1 <;> omega

theorem subsample_subsample (v : View α) (a b c d x y : Int) :
    (View.subsample (.subsample v a b) c d).eval x y = (View.subsample v (a * c) (b * d)).eval x y := by
  simp only [View.eval]; congr 1 <;> ring

/-- The top row of an image, seen from the turned image: `rotate_90_cw` puts pixel (x,y) at (rows-1-y, x). -/
theorem rot90cw_moves (v : View α) (x y : Int) : (View.rot90cw v).eval (v.rows - 1 - y) x = v.eval x y := by
  simp only [View.eval]; congr 1; omega

theorem rot90ccw_moves (v : View α) (x y : Int) : (View.rot90ccw v).eval y (v.cols - 1 - x) = v.eval x y := by
  simp only [View.eval]; congr 1; omega

/-! ### Non-vacuity -/

/-- A nested example: crop outside of a periodically extended, rotated, subsampled disk image plus a memory image. -/
def exView : View Int :=
  .binary (· + ·)
    (.crop (.edge .periodic 0 0 3 2 (.rot90cw (.subsample (.lazy 4 5 fun x y => 10 * x + y) 2 2))) (-1) (-1) 2 2)
    (.mem 2 2 fun k => some (100 * k))

example : exView.eval 1 1 = some 304 ∧ (exView.rasterize ⟨0, 0, 2, 2⟩).map (fun i => [i 0 0, i 1 0, i 0 1, i 1 1])
    = some [exView.eval 0 0, exView.eval 1 0, exView.eval 0 1, exView.eval 1 1] := by
  decide +kernel

example : exView.Proper ∧ exView.Complete := by
  have hl : (View.rot90cw (.subsample (.lazy 4 5 fun x y => 10 * x + y) 2 2) : View Int).Proper := by
    simp [View.Proper]
  have hp : exView.Proper := by
    refine ⟨⟨hl, complete_of_inside _ hl (by simp [View.Inside, View.cols, View.rows, View.size]), by decide, by decide⟩,
      fun k _ _ => ⟨_, rfl⟩, by decide⟩
  refine ⟨hp, fun x y h1 h2 h3 h4 => (readable_iff _ hp _ _).2 ?_⟩
  simp only [exView, View.cols, View.rows, View.size] at h2 h4
  exact ⟨⟨trivial, h1, h2⟩, trivial, h3, h4⟩

end VW.View
