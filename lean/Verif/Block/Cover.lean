import Verif.Block.Model
import Mathlib.Tactic.Ring
import Mathlib.Tactic.Linarith
import Mathlib.Tactic.ByContra
/-! C24, C25: the block processor. -/
namespace VW.Block

theorem roundDown_spec (v m : Int) (hm : 0 < m) :
    roundDown v m ≤ v ∧ v < roundDown v m + m ∧ ∃ q, roundDown v m = q * m := by
  unfold roundDown
  by_cases hv : v ≥ 0
  · rw [if_pos hv, Int.tmod_eq_emod_of_nonneg hv]
    have h1 := Int.emod_nonneg v hm.ne'
    have h2 := Int.emod_lt_of_pos v hm
    have h3 := Int.mul_ediv_add_emod v m
    refine ⟨by omega, by omega, v / m, ?_⟩
    rw [mul_comm]; linarith
  · rw [if_neg hv, Int.tmod_eq_emod_of_nonneg (by omega)]
    have h1 := Int.emod_nonneg (-v - 1) hm.ne'
    have h2 := Int.emod_lt_of_pos (-v - 1) hm
    have h3 := Int.mul_ediv_add_emod (-v - 1) m
    refine ⟨by omega, by omega, -((-v - 1) / m) - 1, ?_⟩
    have : m * ((-v - 1) / m) = ((-v - 1) / m) * m := mul_comm _ _
    have e : (-((-v - 1) / m) - 1) * m = -(((-v - 1) / m) * m) - m := by ring
    rw [e]; omega

theorem has_iff (r : Rect) (x y : Int) :
    r.has x y = true ↔ r.x0 ≤ x ∧ r.y0 ≤ y ∧ x < r.x1 ∧ y < r.y1 := by
  simp [Rect.has, and_assoc]

theorem crop_has (a b : Rect) (x y : Int) :
    (a.crop b).has x y = true ↔ a.has x y = true ∧ b.has x y = true := by
  simp only [has_iff, Rect.crop]
  split <;> split <;> split <;> split <;> omega

/-- What every cursor reached by `advance` looks like. -/
structure CursorOk (total : Rect) (bs : Size) (i : Info) : Prop where
  tot : i.total = total
  bsz : i.bs = bs
  x1 : i.block.x1 = i.block.x0 + bs.x
  y1 : i.block.y1 = i.block.y0 + bs.y
  gx : ∃ q, i.block.x0 = q * bs.x
  gy : ∃ q, i.block.y0 = q * bs.y
  lox : roundDown total.x0 bs.x ≤ i.block.x0
  loy : roundDown total.y0 bs.y ≤ i.block.y0
  hix : total.x0 < total.x1 → i.block.x0 < total.x1

theorem start_ok (total : Rect) (bs : Size) (hx : 0 < bs.x) (hy : 0 < bs.y) :
    CursorOk total bs (Info.start total bs) := by
  obtain ⟨h0, _, q1, h1⟩ := roundDown_spec total.x0 bs.x hx
  obtain ⟨_, _, q2, h2⟩ := roundDown_spec total.y0 bs.y hy
  exact ⟨rfl, rfl, rfl, rfl, ⟨q1, h1⟩, ⟨q2, h2⟩, le_refl _, le_refl _, fun h => by
    simp only [Info.start]; omega⟩

theorem advance_ok {total : Rect} {bs : Size} (hx : 0 < bs.x) (hy : 0 < bs.y) {i : Info}
    (h : CursorOk total bs i) : CursorOk total bs i.advance := by
  obtain ⟨q1, h1⟩ := h.gx
  obtain ⟨q2, h2⟩ := h.gy
  obtain ⟨_, _, q3, h3⟩ := roundDown_spec total.x0 bs.x hx
  have h5 := h.lox
  have h6 := h.loy
  have e1 := h.bsz
  have e2 := h.tot
  unfold Info.advance
  simp only [e1, e2]
  split
  · refine ⟨rfl, rfl, rfl, rfl, ⟨q3, h3⟩, ⟨q2 + 1, ?_⟩, le_refl _, ?_, ?_⟩
    · simp only [h2]; ring
    · simp only []; omega
    · simp only []; omega
  · refine ⟨rfl, rfl, rfl, h.y1, ⟨q1 + 1, ?_⟩, ⟨q2, h2⟩, ?_, h6, ?_⟩
    · simp only [h1]; ring
    · simp only []; omega
    · simp only []; omega

/-- The pixels before the cursor. -/
def before (i : Info) (x y : Int) : Prop :=
  y < i.block.y0 ∨ (y < i.block.y1 ∧ x < i.block.x0)

instance (i : Info) (x y : Int) : Decidable (before i x y) := by unfold before; infer_instance

theorem before_start {total : Rect} {bs : Size} (hx : 0 < bs.x) (hy : 0 < bs.y) {x y : Int}
    (ht : total.has x y = true) : ¬ before (Info.start total bs) x y := by
  have h1 := roundDown_spec total.x0 bs.x hx
  have h2 := roundDown_spec total.y0 bs.y hy
  rw [has_iff] at ht
  unfold before Info.start
  simp only []
  omega

theorem before_advance {total : Rect} {bs : Size} (hx : 0 < bs.x) (hy : 0 < bs.y) {i : Info}
    (h : CursorOk total bs i) {x y : Int} (ht : total.has x y = true) :
    (before i.advance x y ↔ before i x y ∨ i.bbox.has x y = true) ∧
    ¬ (before i x y ∧ i.bbox.has x y = true) := by
  have h1 := roundDown_spec total.x0 bs.x hx
  have h3 := h.x1
  have h4 := h.y1
  have h5 := h.lox
  have e1 := h.bsz
  have e2 := h.tot
  have hb : i.bbox.has x y = true ↔
      i.block.x0 ≤ x ∧ i.block.y0 ≤ y ∧ x < i.block.x1 ∧ y < i.block.y1 := by
    unfold Info.bbox
    rw [crop_has, e2, has_iff]
    simp [ht]
  rw [hb]
  rw [has_iff] at ht
  unfold before Info.advance
  simp only [e1, e2]
  obtain ⟨ha, hb', _⟩ := h1
  have h2 := hy
  split <;> simp only [] <;> omega

theorem before_complete {total : Rect} {bs : Size} {i : Info}
    (h : CursorOk total bs i) (hc : i.complete = true) {x y : Int} (ht : total.has x y = true) :
    before i x y := by
  have e2 := h.tot
  rw [has_iff] at ht
  simp only [Info.complete, decide_eq_true_eq, e2] at hc
  unfold before
  omega

/-- How many of the boxes contain the pixel. -/
def hits (l : List Rect) (x y : Int) : Nat := l.countP (fun b => b.has x y)

theorem hits_cons (b : Rect) (l : List Rect) (x y : Int) :
    hits (b :: l) x y = hits l x y + (if b.has x y = true then 1 else 0) := by
  simp [hits, List.countP_cons]

theorem hits_append (l m : List Rect) (x y : Int) :
    hits (l ++ m) x y = hits l x y + hits m x y := by
  simp [hits, List.countP_append]

theorem hits_le_mem {l : List Rect} {b : Rect} (h : b ∈ l) {x y : Int} (hb : b.has x y = true) :
    0 < hits l x y := List.countP_pos_iff.2 ⟨b, h, hb⟩

structure PInv (total : Rect) (bs : Size) (threads : Nat) (s : PState) : Prop where
  cursor : CursorOk total bs s.info
  count : ∀ x y, hits s.running x y + hits s.finished x y =
    if total.has x y = true ∧ before s.info x y then 1 else 0
  threads : s.idle + s.running.length + s.stopped = threads
  stopped : 0 < s.stopped → s.info.complete = true
  cell : ∀ b ∈ s.running ++ s.finished, ∃ qx qy, qx * bs.x ≤ b.x0 ∧ b.x1 ≤ qx * bs.x + bs.x ∧
    qy * bs.y ≤ b.y0 ∧ b.y1 ≤ qy * bs.y + bs.y
  inside : ∀ b ∈ s.running ++ s.finished, total.x0 ≤ b.x0 ∧ total.y0 ≤ b.y0 ∧ b.x1 ≤ total.x1 ∧
    b.y1 ≤ total.y1
  solid : total.empty = false → ∀ b ∈ s.running ++ s.finished, b.empty = false

theorem pstep_inv {total : Rect} {bs : Size} {n : Nat} (hx : 0 < bs.x) (hy : 0 < bs.y)
    {s s' : PState} (k : PInv total bs n s) (st : PStep s s') : PInv total bs n s' := by
  cases st with
  | grab hi hc =>
    refine ⟨advance_ok hx hy k.cursor, ?_, ?_, ?_, ?_, ?_, ?_⟩
    · intro x y
      have := k.count x y
      simp only [hits_cons]
      by_cases ht : total.has x y = true
      · have hb := before_advance hx hy k.cursor ht
        by_cases h1 : before s.info x y <;> by_cases h2 : s.info.bbox.has x y = true <;>
          simp only [ht, h1, h2, hb.1, true_and, or_true, true_or, or_self, or_false, false_or, if_true, if_false, Bool.false_eq_true] at this ⊢
        · exact absurd ⟨h1, h2⟩ hb.2
        all_goals omega
      · have h2 : ¬ s.info.bbox.has x y = true := by
          unfold Info.bbox
          rw [crop_has, k.cursor.tot]
          exact fun h => ht h.2
        simp only [ht, h2, false_and, if_false, Bool.false_eq_true] at this ⊢
        omega
    · have := k.threads
      simp only [List.length_cons]; omega
    · intro h
      have := k.stopped h
      rw [this] at hc; cases hc
    · intro b hb
      simp only [List.cons_append, List.mem_cons] at hb
      rcases hb with rfl | hb
      · obtain ⟨q1, h1⟩ := k.cursor.gx
        obtain ⟨q2, h2⟩ := k.cursor.gy
        have h3 := k.cursor.x1
        have h4 := k.cursor.y1
        refine ⟨q1, q2, ?_⟩
        rw [← h1, ← h2]
        unfold Info.bbox Rect.crop
        simp only []
        split <;> split <;> split <;> split <;> omega
      · exact k.cell b hb
    · intro b hb
      simp only [List.cons_append, List.mem_cons] at hb
      rcases hb with rfl | hb
      · have e2 := k.cursor.tot
        unfold Info.bbox Rect.crop
        rw [e2]
        simp only []
        split <;> split <;> split <;> split <;> omega
      · exact k.inside b hb
    · intro he b hb
      simp only [List.cons_append, List.mem_cons] at hb
      rcases hb with rfl | hb
      · have e2 := k.cursor.tot
        have h3 := k.cursor.x1
        have h4 := k.cursor.y1
        have h5 := k.cursor.lox
        have h6 := k.cursor.loy
        have h7 := k.cursor.hix
        obtain ⟨h8, h9, _⟩ := roundDown_spec total.x0 bs.x hx
        obtain ⟨h10, h11, _⟩ := roundDown_spec total.y0 bs.y hy
        simp only [Info.complete, decide_eq_false_iff_not, e2] at hc
        simp only [Rect.empty, Bool.or_eq_false_iff, decide_eq_false_iff_not] at he ⊢
        unfold Info.bbox Rect.crop
        rw [e2]
        simp only []
        constructor <;> split <;> split <;> omega
      · exact k.solid he b hb
  | stop hi hc =>
    refine ⟨k.cursor, k.count, ?_, fun _ => hc, k.cell, k.inside, k.solid⟩
    have := k.threads
    simp only []; omega
  | @finish l1 b l2 hr =>
    have hmem : ∀ c, c ∈ l1 ++ l2 ++ b :: s.finished → c ∈ s.running ++ s.finished := by
      intro c hc
      rw [hr]
      simp only [List.mem_append, List.mem_cons] at hc ⊢
      rcases hc with (h | h) | h | h
      · exact .inl (.inl h)
      · exact .inl (.inr (.inr h))
      · exact .inl (.inr (.inl h))
      · exact .inr h
    refine ⟨k.cursor, ?_, ?_, k.stopped, fun c hc => k.cell c (hmem c hc),
      fun c hc => k.inside c (hmem c hc), fun he c hc => k.solid he c (hmem c hc)⟩
    · intro x y
      have := k.count x y
      rw [hr] at this
      simp only [hits_append, hits_cons] at this ⊢
      omega
    · have := k.threads
      rw [hr] at this
      simp only [List.length_append, List.length_cons] at this ⊢
      omega

theorem preach_inv {total : Rect} {bs : Size} {n : Nat} (hx : 0 < bs.x) (hy : 0 < bs.y)
    {s : PState} (h : PReach total bs n s) : PInv total bs n s := by
  induction h with
  | init =>
    refine ⟨start_ok total bs hx hy, ?_, ?_, ?_, ?_, ?_, ?_⟩
    · intro x y
      by_cases ht : total.has x y = true
      · simp [PState.start, hits, before_start hx hy ht]
      · simp [PState.start, hits, ht]
    · simp [PState.start]
    · simp [PState.start]
    · simp [PState.start]
    · simp [PState.start]
    · simp [PState.start]
  | step _ st ih => exact pstep_inv hx hy ih st

/-! ### C24 -/

/-- C24 (safety, at every moment of every schedule): the boxes the functor has been called on lie inside
the requested box, and no pixel is in two of them (counting repetitions). -/
theorem blocks_disjoint_inside {total : Rect} {bs : Size} {n : Nat} (hx : 0 < bs.x) (hy : 0 < bs.y)
    {s : PState} (h : PReach total bs n s) :
    (∀ b ∈ s.running ++ s.finished, ∀ x y, b.has x y = true → total.has x y = true) ∧
    ∀ x y, hits (s.running ++ s.finished) x y ≤ 1 := by
  have k := preach_inv hx hy h
  constructor
  · intro b hb x y hxy
    have := k.inside b hb
    rw [has_iff] at *
    omega
  · intro x y
    rw [hits_append, k.count x y]
    split <;> omega

/-- C24 (exact cover): when the call returns, every pixel of the requested box was in exactly one of
the boxes processed, and no other pixel in any. Empty, inverted and negative boxes included. -/
theorem blocks_cover {total : Rect} {bs : Size} {n : Nat} (hx : 0 < bs.x) (hy : 0 < bs.y) (hn : 0 < n)
    {s : PState} (h : PReach total bs n s) (hj : s.joined) (x y : Int) :
    hits s.finished x y = if total.has x y = true then 1 else 0 := by
  have k := preach_inv hx hy h
  obtain ⟨h1, h2⟩ := hj
  have h3 := k.threads
  rw [h1, h2] at h3
  have hc := k.stopped (by simp at h3; omega)
  have := k.count x y
  rw [h2] at this
  by_cases ht : total.has x y = true
  · simp only [ht, before_complete k.cursor hc ht, true_and, if_true] at this ⊢
    simpa [hits] using this
  · simp only [ht, false_and, if_false] at this ⊢
    simpa [hits] using this

/-- Work left for the cursor. -/
def cursorLeft (i : Info) : Nat :=
  (i.total.y1 - i.block.y0).toNat * ((i.total.x1 - roundDown i.total.x0 i.bs.x).toNat + 1) +
    (i.total.x1 - i.block.x0).toNat

def measure (s : PState) : Nat := 3 * cursorLeft s.info + 2 * s.running.length + s.idle

theorem cursorLeft_advance {total : Rect} {bs : Size} (hx : 0 < bs.x) (hy : 0 < bs.y) {i : Info}
    (h : CursorOk total bs i) (hc : i.complete = false) : cursorLeft i.advance < cursorLeft i := by
  have e1 := h.bsz
  have e2 := h.tot
  have h5 := h.lox
  simp only [Info.complete, decide_eq_false_iff_not, e2] at hc
  unfold cursorLeft Info.advance
  simp only [e1, e2]
  by_cases hge : i.block.x0 + bs.x ≥ total.x1
  · rw [if_pos hge]
    simp only [e1, e2]
    clear hge
    generalize roundDown total.x0 bs.x = r at *
    obtain ⟨a, ha⟩ : ∃ a, (total.x1 - r).toNat = a := ⟨_, rfl⟩
    obtain ⟨p, hp⟩ : ∃ p, (total.y1 - i.block.y0).toNat = p + 1 :=
      ⟨(total.y1 - i.block.y0).toNat - 1, by omega⟩
    have hq : (total.y1 - (i.block.y0 + bs.y)).toNat ≤ p := by omega
    rw [ha, hp]
    have := Nat.mul_le_mul_right (a + 1) hq
    have e : (p + 1) * (a + 1) = p * (a + 1) + (a + 1) := by ring
    rw [e]
    generalize (total.y1 - (i.block.y0 + bs.y)).toNat * (a + 1) = u at *
    generalize p * (a + 1) = w at *
    omega
  · rw [if_neg hge]
    simp only [e1, e2]
    apply Nat.add_lt_add_left
    omega

/-- C24 (termination): every step of every thread uses up one unit of a bound fixed by the arguments,
and as long as not all threads have returned some thread can take a step (provided the functor
returns). So every schedule reaches the joined state. -/
theorem blocks_terminate {total : Rect} {bs : Size} {n : Nat} (hx : 0 < bs.x) (hy : 0 < bs.y)
    {s : PState} (h : PReach total bs n s) :
    (∀ s', PStep s s' → measure s' < measure s) ∧ (¬ s.joined → ∃ s', PStep s s') := by
  have k := preach_inv hx hy h
  constructor
  · intro s' st
    cases st with
    | grab hi hc =>
      have := cursorLeft_advance hx hy k.cursor hc
      simp only [measure, List.length_cons]; omega
    | stop hi hc => simp only [measure]; omega
    | finish hr =>
      simp only [measure, hr, List.length_append, List.length_cons]; omega
  · intro hj
    by_cases hi : 0 < s.idle
    · cases hc : s.info.complete
      · exact ⟨_, .grab hi hc⟩
      · exact ⟨_, .stop hi hc⟩
    · rcases hr : s.running with _ | ⟨b, l⟩
      · exact absurd ⟨by omega, hr⟩ hj
      · exact ⟨_, .finish (l1 := []) hr⟩

/-- Any schedule, continued long enough, returns: from every reachable state a joined state is reached
whatever choices are made, in at most `measure` steps. -/
theorem blocks_returns {total : Rect} {bs : Size} {n : Nat} (hx : 0 < bs.x) (hy : 0 < bs.y)
    {s : PState} (h : PReach total bs n s) (f : Nat → PState) (h0 : f 0 = s)
    (hs : ∀ t, PStep (f t) (f (t + 1)) ∨ ((f t).joined ∧ f (t + 1) = f t)) :
    (f (measure s)).joined := by
  have key : ∀ t, PReach total bs n (f t) ∧ ((f t).joined ∨ measure (f t) + t ≤ measure s) := by
    intro t
    induction t with
    | zero => rw [h0]; exact ⟨h, .inr (le_refl _)⟩
    | succ t ih =>
      rcases hs t with st | ⟨hj, e⟩
      · refine ⟨.step ih.1 st, ?_⟩
        rcases ih.2 with hj | hm
        · exfalso
          obtain ⟨hj1, hj2⟩ := hj
          generalize f t = a at *
          generalize f (t + 1) = a' at *
          cases st with
          | grab hi _ => omega
          | stop hi _ => omega
          | finish hr => rw [hr] at hj2; simp at hj2
        · have := (blocks_terminate hx hy ih.1).1 _ st
          right; omega
      · rw [e]; exact ⟨ih.1, .inl hj⟩
  obtain ⟨hr, hj | hm⟩ := key (measure s)
  · exact hj
  · have h0 : measure (f (measure s)) = 0 := by omega
    generalize f (measure s) = a at *
    simp only [measure] at h0
    refine ⟨by omega, ?_⟩
    have : a.running.length = 0 := by omega
    exact List.length_eq_zero_iff.1 this

/-! ### C25 -/

/-- C25: every box given to the functor lies in one cell of the block grid anchored at the origin. -/
theorem block_in_one_cell {total : Rect} {bs : Size} {n : Nat} (hx : 0 < bs.x) (hy : 0 < bs.y)
    {s : PState} (h : PReach total bs n s) {b : Rect} (hb : b ∈ s.running ++ s.finished) :
    ∃ qx qy : Int, ∀ x y, b.has x y = true →
      qx * bs.x ≤ x ∧ x < (qx + 1) * bs.x ∧ qy * bs.y ≤ y ∧ y < (qy + 1) * bs.y := by
  obtain ⟨qx, qy, h1, h2, h3, h4⟩ := (preach_inv hx hy h).cell b hb
  refine ⟨qx, qy, fun x y hxy => ?_⟩
  rw [has_iff] at hxy
  have e1 : (qx + 1) * bs.x = qx * bs.x + bs.x := by ring
  have e2 : (qy + 1) * bs.y = qy * bs.y + bs.y := by ring
  rw [e1, e2]; omega

/-- Truncated division of a coordinate in grid cell `q ≥ 0`. -/
theorem tdiv_cell {v m q : Int} (hm : 0 < m) (hv : 0 ≤ v) (h1 : q * m ≤ v) (h2 : v < q * m + m) :
    v.tdiv m = q := by
  rw [Int.tdiv_eq_ediv_of_nonneg hv]
  have h3 := Int.ediv_mul_le v hm.ne'
  have h4 := Int.lt_ediv_add_one_mul_self v hm
  have h5 : v / m < q + 1 := by
    by_contra hc
    have : (q + 1) * m ≤ (v / m) * m := Int.mul_le_mul_of_nonneg_right (by omega) hm.le
    have e : (q + 1) * m = q * m + m := by ring
    omega
  have h6 : q < v / m + 1 := by
    by_contra hc
    have : (v / m + 1) * m ≤ q * m := Int.mul_le_mul_of_nonneg_right (by omega) hm.le
    omega
  omega

/-- The cell of an in-image coordinate is inside the table. -/
theorem cell_in_table {v m n : Int} (hm : 0 < m) (h0 : 0 ≤ v) (h1 : v < n) :
    0 ≤ v.tdiv m ∧ v.tdiv m < (n - 1).tdiv m + 1 ∧ v.tdiv m * m ≤ v ∧ v < v.tdiv m * m + m := by
  rw [Int.tdiv_eq_ediv_of_nonneg h0, Int.tdiv_eq_ediv_of_nonneg (by omega)]
  have h3 := Int.ediv_mul_le v hm.ne'
  have h4 := Int.lt_ediv_add_one_mul_self v hm
  have h5 := Int.ediv_nonneg h0 hm.le
  have h6 : v / m ≤ (n - 1) / m := Int.ediv_le_ediv hm (by omega)
  have e : (v / m + 1) * m = (v / m) * m + m := by ring
  omega

/-- C25: for a request within an image of `cols × rows` pixels, the block index computed from the
corner of every non-empty box given to the functor is inside the block table, and the box lies inside
the box of that block. -/
theorem block_index_right {α : Type} (c : Child α) (mg : Manager)
    (hx : 0 < mg.bs.x) (hy : 0 < mg.bs.y)
    (hW : mg.W = (c.cols - 1).tdiv mg.bs.x + 1) (hH : mg.H = (c.rows - 1).tdiv mg.bs.y + 1)
    {total : Rect} {n : Nat} (ht : ∀ x y, total.has x y = true → 0 ≤ x ∧ x < c.cols ∧ 0 ≤ y ∧ y < c.rows)
    {s : PState} (h : PReach total mg.bs n s) {b : Rect} (hb : b ∈ s.running ++ s.finished)
    (he : b.empty = false) :
    let i := mg.blockIndex b.x0 b.y0
    (0 ≤ i.1 ∧ i.1 < mg.W ∧ 0 ≤ i.2 ∧ i.2 < mg.H) ∧
    (∀ x y, b.has x y = true → mg.blockIndex x y = i ∧ (cellBox c mg.bs i.1 i.2).has x y = true) := by
  obtain ⟨qx, qy, h1, h2, h3, h4⟩ := (preach_inv hx hy h).cell b hb
  have hi := (preach_inv hx hy h).inside b hb
  simp only [Rect.empty, Bool.or_eq_false_iff, decide_eq_false_iff_not] at he
  have hb0 : b.has b.x0 b.y0 = true := by rw [has_iff]; omega
  have htot : ∀ x y, b.has x y = true → 0 ≤ x ∧ x < c.cols ∧ 0 ≤ y ∧ y < c.rows := by
    intro x y hxy
    refine ht x y ?_
    rw [has_iff] at *; omega
  have h0 := htot _ _ hb0
  have ex : ∀ x y, b.has x y = true → x.tdiv mg.bs.x = qx ∧ y.tdiv mg.bs.y = qy := by
    intro x y hxy
    have h5 := htot x y hxy
    rw [has_iff] at hxy
    exact ⟨tdiv_cell hx (by omega) (by omega) (by omega), tdiv_cell hy (by omega) (by omega) (by omega)⟩
  have c1 := cell_in_table hx h0.1 h0.2.1
  have c2 := cell_in_table hy h0.2.2.1 h0.2.2.2
  have e0 := ex _ _ hb0
  simp only [Manager.blockIndex, hW, hH]
  refine ⟨⟨c1.1, c1.2.1, c2.1, c2.2.1⟩, fun x y hxy => ?_⟩
  have e1 := ex _ _ hxy
  have h5 := htot x y hxy
  refine ⟨by rw [e1.1, e1.2, e0.1, e0.2], ?_⟩
  unfold cellBox
  rw [crop_has, has_iff, has_iff, e0.1, e0.2]
  rw [has_iff] at hxy
  simp only []
  omega

/-- A request of width zero at the right edge of an image passes on a box whose block index is outside
the table (the cached view throws ArgumentErr), since only the rows are checked for completeness:
image of 4×4 pixels, blocks of 2×2, request x = 4, width 0, height 2. -/
theorem empty_width_index_out_of_range :
    ∃ s, PReach ⟨4, 0, 4, 2⟩ ⟨2, 2⟩ 1 s ∧ ∃ b ∈ s.running, b.x0.tdiv 2 = 2 ∧ ((4 : Int) - 1).tdiv 2 + 1 = 2 := by
  refine ⟨_, .step .init (.grab (by decide) (by decide)), ?_⟩
  exact ⟨_, List.mem_cons_self, by decide, by decide⟩

/-! ### Non-vacuity: a 3-pixel-wide negative-origin request split over two blocks by one thread -/

example : ∃ s, PReach ⟨-1, 0, 2, 1⟩ ⟨2, 2⟩ 1 s ∧ s.joined ∧ s.finished = [⟨0, 0, 2, 1⟩, ⟨-1, 0, 0, 1⟩] := by
  have r := PReach.init (total := ⟨-1, 0, 2, 1⟩) (bs := ⟨2, 2⟩) (threads := 1)
  have r := r.step (.grab (by decide) (by decide))
  have r := r.step (.finish (l1 := []) rfl)
  have r := r.step (.grab (by decide) (by decide))
  have r := r.step (.finish (l1 := []) rfl)
  have r := r.step (.stop (by decide) (by decide))
  exact ⟨_, r, ⟨rfl, rfl⟩, rfl⟩

end VW.Block
