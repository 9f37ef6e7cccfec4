import Verif.Blob.Label
import Verif.Blob.Comp
import Verif.Blob.Rle
/-
Property C52: blobs are the 8-connected components of the valid pixels.
-/
namespace VW.Blob
open VW.Grassfire (Pos raster inImage before mem_raster raster_sorted)
open VW.Graph

/-- Along a chain of neighbours no row is skipped. -/
theorem Linked.rows {V : Pos → Prop} {p q : Pos} (h : Linked V p q) (t : Int) (h1 : p.2 ≤ t) (h2 : t ≤ q.2) :
    ∃ m, Linked V p m ∧ m.2 = t := by
  induction h with
  | refl hv => exact ⟨p, .refl hv, by omega⟩
  | step hpq hv hn ih =>
    rename_i q r
    unfold near at hn
    by_cases h : t ≤ q.2
    · exact ih h
    · exact ⟨r, hpq.step hv hn, by omega⟩

theorem classes (valid : Pos → Bool) {W H : Nat} (hW : 1 ≤ W) (hH : 1 ≤ H) :
    (∀ p q, Valid valid W H p → Valid valid W H q →
      (component (label valid W H).count (label valid W H).edges ((label valid W H).lab p) =
        component (label valid W H).count (label valid W H).edges ((label valid W H).lab q) ↔ Linked (Valid valid W H) p q)) ∧
    Classes (label valid W H).lab (component (label valid W H).count (label valid W H).edges) W H
      ((reps (label valid W H).count (label valid W H).edges).length - 1) := by
  have hz := label_zero valid (W := W) hH
  have hlt := label_lt valid (W := W) hH
  have hcc : ∀ p q, Valid valid W H p → Valid valid W H q →
      (component (label valid W H).count (label valid W H).edges ((label valid W H).lab p) =
        component (label valid W H).count (label valid W H).edges ((label valid W H).lab q) ↔ Linked (Valid valid W H) p q) :=
    fun p q hp hq => (component_eq (hlt p) (hlt q)).trans (label_conn valid hH p q hp hq)
  refine ⟨hcc, ?_, ?_, ?_, ?_⟩
  · intro p hp
    have h0 : 0 < (label valid W H).count := by have := hlt p; omega
    have h1 := component_lt (es := (label valid W H).edges) (hlt p)
    constructor
    · by_contra hc
      have e : component (label valid W H).count (label valid W H).edges ((label valid W H).lab p) =
          component (label valid W H).count (label valid W H).edges 0 := by rw [component_zero h0]; omega
      rw [component_eq (hlt p) h0] at e
      rcases label_conn_field valid hH e with h | h
      · exact hp h
      · exact h.2.1 rfl
    · omega
  · exact fun p hp => ((hz p).1 hp).1
  · intro x y h1 h2
    rw [hz] at h1 h2
    exact (hcc _ _ h1 h2).2 (Linked.single h1 h2 (by unfold near; dsimp only; omega))
  · intro p q t hp hq e h1 h2
    rw [hz] at hp hq
    obtain ⟨m, hm, e'⟩ := ((hcc p q hp hq).1 e).rows t (by omega) (by omega)
    exact ⟨m, (hz m).2 hm.right, ((hcc p m hp hm.right).2 hm).symm, e'⟩

/-- **C52**: for every image with at least one pixel the constructor ends without an exception; the blobs are exactly the
8-connected components of the valid pixels: every blob lists, row by row and without repetition, at least one pixel;
the pixels listed are the valid ones; two pixels are in the same blob iff they are linked. -/
theorem blobIndex_spec (valid : Pos → Bool) {W H : Nat} (hW : 1 ≤ W) (hH : 1 ≤ H) :
    ∃ ix, blobIndex valid W H = .ok ix ∧
      (∀ b ∈ ix.blobs, decompress b ≠ [] ∧ (decompress b).Pairwise before) ∧
      (∀ p, (∃ b ∈ ix.blobs, p ∈ decompress b) ↔ Valid valid W H p) ∧
      (∀ (i j : Nat) bi bj, ix.blobs[i]? = some bi → ix.blobs[j]? = some bj → ∀ p ∈ decompress bi, ∀ q ∈ decompress bj,
        (i = j ↔ Linked (Valid valid W H) p q)) ∧
      (∀ p, ix.image p ≠ 0 ↔ Valid valid W H p) ∧
      (∀ p q, ix.image p ≠ 0 → ix.image p = ix.image q → Linked (Valid valid W H) p q) ∧
      (∀ b ∈ ix.blobs, WF b) := by
  obtain ⟨hcc, hC⟩ := classes valid hW hH
  obtain ⟨bs, e, hlen, hbs⟩ := scan_all hC H
  have hz := label_zero valid (W := W) hH
  refine ⟨⟨(label valid W H).lab, bs⟩, ?_, ?_, ?_, ?_, hz, ?_, ?_⟩
  · unfold blobIndex
    rw [if_neg (by omega)]
    dsimp only
    rw [e]; rfl
  all_goals dsimp only
  · intro b hb
    obtain ⟨k, hk⟩ := List.getElem?_of_mem hb
    obtain ⟨_, h2⟩ := hbs k b hk
    have hklt : k < bs.length := by
      by_contra hc
      rw [List.getElem?_eq_none (by omega)] at hk
      cases hk
    have hkr : k + 1 < (reps (label valid W H).count (label valid W H).edges).length := by omega
    obtain ⟨v, hv, ev⟩ := component_surj hkr
    have hv0 : v ≠ 0 := by
      rintro rfl
      rw [component_zero hv] at ev; omega
    obtain ⟨p, hp, ep⟩ := label_used valid hH v hv0 hv
    rw [h2]
    constructor
    · apply List.ne_nil_of_mem (a := p)
      rw [List.mem_filter, cls_iff, mem_raster]
      refine ⟨by have := hp.1; unfold inImage at this; push_cast; omega, (hz p).2 hp, by rw [ep]; exact ev⟩
    · exact (raster_sorted _ _ _ _).filter _
  · intro p
    constructor
    · rintro ⟨b, hb, hp⟩
      obtain ⟨k, hk⟩ := List.getElem?_of_mem hb
      rw [(hbs k b hk).2, List.mem_filter, cls_iff] at hp
      exact (hz p).1 hp.2.1
    · intro hp
      have hl := (hz p).2 hp
      have hr := hC.range p hl
      have hlt : component (label valid W H).count (label valid W H).edges ((label valid W H).lab p) - 1 < bs.length := by omega
      refine ⟨_, List.getElem_mem hlt, ?_⟩
      rw [(hbs _ _ (List.getElem?_eq_getElem hlt)).2, List.mem_filter, cls_iff, mem_raster]
      exact ⟨by have := hp.1; unfold inImage at this; push_cast; omega, hl, by omega⟩
  · intro i j bi bj hi hj p hp q hq
    rw [(hbs _ _ hi).2, List.mem_filter, cls_iff] at hp
    rw [(hbs _ _ hj).2, List.mem_filter, cls_iff] at hq
    rw [← hcc p q ((hz p).1 hp.2.1) ((hz q).1 hq.2.1), hp.2.2, hq.2.2]
    omega
  · intro p q hp e
    exact label_same valid hH p q ((hz p).1 hp) ((hz q).1 (e ▸ hp)) e
  · intro b hb
    obtain ⟨k, hk⟩ := List.getElem?_of_mem hb
    rcases (hbs k b hk).1 with h | h
    · exfalso
      have hklt : k < bs.length := by
        by_contra hc
        rw [List.getElem?_eq_none (by omega)] at hk
        cases hk
      obtain ⟨v, hv, ev⟩ := component_surj (es := (label valid W H).edges) (n := (label valid W H).count) (k := k + 1) (by omega)
      have hv0 : v ≠ 0 := by
        rintro rfl
        rw [component_zero hv] at ev; omega
      obtain ⟨p, hp, ep⟩ := label_used valid hH v hv0 hv
      have hm : p ∈ decompress b := by
        rw [(hbs k b hk).2, List.mem_filter, cls_iff, mem_raster]
        exact ⟨by have := hp.1; unfold inImage at this; push_cast; omega, (hz p).2 hp, by rw [ep]; exact ev⟩
      rw [h] at hm
      simp [decompress, rowsPlaces, Compressed.empty] at hm
    · exact h

/-- A picture from text. -/
def picture (rows : List String) (p : Pos) : Bool :=
  0 ≤ p.1 && 0 ≤ p.2 && (((rows[p.2.toNat]?).getD "").toList[p.1.toNat]?).getD ' ' == '#'

/-- Two blobs; the first is a "U" that gets two provisional labels, joined at its bottom. -/
def sample : Pos → Bool := picture ["#.#..#", "#.#...", ".#..##"]

/-- What the blobs of the picture list. -/
example : (blobIndex sample 6 3).map (fun ix => ix.blobs.map decompress) =
    .ok [[(0,0), (2,0), (0,1), (2,1), (1,2)], [(5,0)], [(4,2), (5,2)]] := by decide +kernel

/-- The label image returned by `blob_index` keeps the provisional labels: two pixels of one blob can have different
labels, so its labels are not those of the blobs (nor consecutive). -/
theorem image_labels_not_blobs : ∃ ix, blobIndex sample 6 3 = .ok ix ∧ Linked (Valid sample 6 3) (0, 0) (2, 0) ∧
    ix.image (0, 0) = 1 ∧ ix.image (2, 0) = 2 ∧ ix.image (5, 0) = 3 ∧ ix.image (5, 2) = 4 ∧ ix.blobs.length = 3 := by
  obtain ⟨ix, e, _⟩ := blobIndex_spec sample (W := 6) (H := 3) (by omega) (by omega)
  have h : (blobIndex sample 6 3).map (fun ix => (ix.image (0, 0), ix.image (2, 0), ix.image (5, 0), ix.image (5, 2), ix.blobs.length)) =
      .ok (1, 2, 3, 4, 3) := by decide +kernel
  rw [e] at h
  simp only [Except.map, Except.ok.injEq, Prod.mk.injEq] at h
  refine ⟨ix, e, ?_, h⟩
  have v : ∀ p : Pos, (0 ≤ p.1 ∧ p.1 < (6 : Nat) ∧ 0 ≤ p.2 ∧ p.2 < (3 : Nat)) ∧ sample p = true → Valid sample 6 3 p := fun p h => h
  exact ((((Linked.refl (v (0, 0) (by decide +kernel))).step (v (0, 1) (by decide +kernel)) (by decide)).step
    (v (1, 2) (by decide +kernel)) (by decide)).step (v (2, 1) (by decide +kernel)) (by decide)).step
    (v (2, 0) (by decide +kernel)) (by decide)

/-! ### size, bounding_box, intersects -/

theorem runPlaces_length {y x0 x1 : Int} (h : x0 ≤ x1) : ((runPlaces y x0 x1).length : Int) = x1 - x0 := by
  unfold runPlaces; simp; omega

/-- **C52 (size)**: the size of a blob is the number of its pixels. -/
theorem size_spec (b : Compressed) (h : WF b) : size b = (decompress b).length := by
  have hrun := h.run
  unfold size decompress
  generalize b.rows = rs at hrun
  generalize b.minY = y
  induction rs generalizing y with
  | nil => simp [rowsPlaces]
  | cons r rs ih =>
    simp only [List.map_cons, List.sum_cons, rowsPlaces, List.length_append, Int.natCast_add]
    rw [ih (fun t ht => hrun t (List.mem_cons_of_mem _ ht)) (y + 1)]
    congr 1
    have hr := hrun r (by simp)
    clear ih hrun
    induction r with
    | nil => simp [rowPlaces]
    | cons s r ih =>
      have := ih (fun s hs => hr s (List.mem_cons_of_mem _ hs))
      have hs := hr s (by simp)
      simp only [rowPlaces, List.flatMap_cons, List.length_append, Int.natCast_add, List.map_cons, List.sum_cons] at this ⊢
      rw [this, runPlaces_length (by omega)]
      omega

theorem foldMax (l : List (Int × Int)) (m : Int) :
    (m ≤ l.foldl (fun m s => if s.2 > m then s.2 else m) m) ∧
    (∀ s ∈ l, s.2 ≤ l.foldl (fun m s => if s.2 > m then s.2 else m) m) ∧
    (l.foldl (fun m s => if s.2 > m then s.2 else m) m = m ∨ ∃ s ∈ l, s.2 = l.foldl (fun m s => if s.2 > m then s.2 else m) m) := by
  induction l generalizing m with
  | nil => simp
  | cons t l ih =>
    simp only [List.foldl_cons]
    obtain ⟨h1, h2, h3⟩ := ih (if t.2 > m then t.2 else m)
    generalize l.foldl (fun m s => if s.2 > m then s.2 else m) (if t.2 > m then t.2 else m) = z at *
    by_cases ht : t.2 > m
    · rw [if_pos ht] at h1 h3
      refine ⟨by omega, ?_, Or.inr ?_⟩
      · intro s hs; rcases List.mem_cons.1 hs with rfl | hs
        · exact h1
        · exact h2 s hs
      · rcases h3 with h3 | ⟨s, hs, h⟩
        · exact ⟨t, by simp, h3.symm⟩
        · exact ⟨s, List.mem_cons_of_mem _ hs, h⟩
    · rw [if_neg ht] at h1 h3
      refine ⟨h1, ?_, ?_⟩
      · intro s hs; rcases List.mem_cons.1 hs with rfl | hs
        · omega
        · exact h2 s hs
      · rcases h3 with h3 | ⟨s, hs, h⟩
        · exact Or.inl h3
        · exact Or.inr ⟨s, List.mem_cons_of_mem _ hs, h⟩

theorem foldMax2 (l : List (List (Int × Int))) (m : Int) :
    (m ≤ l.foldl (fun m r => r.foldl (fun m s => if s.2 > m then s.2 else m) m) m) ∧
    (∀ r ∈ l, ∀ s ∈ r, s.2 ≤ l.foldl (fun m r => r.foldl (fun m s => if s.2 > m then s.2 else m) m) m) ∧
    (l.foldl (fun m r => r.foldl (fun m s => if s.2 > m then s.2 else m) m) m = m ∨
      ∃ r ∈ l, ∃ s ∈ r, s.2 = l.foldl (fun m r => r.foldl (fun m s => if s.2 > m then s.2 else m) m) m) := by
  induction l generalizing m with
  | nil => simp
  | cons t l ih =>
    simp only [List.foldl_cons]
    obtain ⟨g1, g2, g3⟩ := foldMax t m
    obtain ⟨h1, h2, h3⟩ := ih (t.foldl (fun m s => if s.2 > m then s.2 else m) m)
    generalize t.foldl (fun m s => if s.2 > m then s.2 else m) m = w at *
    generalize l.foldl (fun m r => r.foldl (fun m s => if s.2 > m then s.2 else m) m) w = z at *
    refine ⟨by omega, ?_, ?_⟩
    · intro r hr s hs
      rcases List.mem_cons.1 hr with rfl | hr
      · have := g2 s hs; omega
      · exact h2 r hr s hs
    · rcases h3 with h3 | ⟨r, hr, h⟩
      · rcases g3 with g3 | ⟨s, hs, h⟩
        · left; omega
        · exact Or.inr ⟨t, by simp, s, hs, by omega⟩
      · exact Or.inr ⟨r, List.mem_cons_of_mem _ hr, h⟩

/-- **C52 (bounding_box)**: the bounding box of a blob is the smallest box with its pixels: they are all inside, and each
side is touched by one. -/
theorem boundingBox_spec (b : Compressed) (h : WF b) (x0 y0 x1 y1 : Int) (e : boundingBox b = (x0, y0, x1, y1)) :
    (∀ p ∈ decompress b, x0 ≤ p.1 ∧ p.1 < x1 ∧ y0 ≤ p.2 ∧ p.2 < y1) ∧
    (∃ p ∈ decompress b, p.1 = x0) ∧ (∃ p ∈ decompress b, p.1 = x1 - 1) ∧
    (∃ p ∈ decompress b, p.2 = y0) ∧ (∃ p ∈ decompress b, p.2 = y1 - 1) := by
  unfold boundingBox at e
  dsimp only at e
  obtain ⟨h1, h2, h3⟩ := foldMax2 b.rows 0
  generalize b.rows.foldl (fun m r => r.foldl (fun m s => if s.2 > m then s.2 else m) m) 0 = z at *
  simp only [Prod.mk.injEq] at e
  obtain ⟨rfl, rfl, rfl, rfl⟩ := e
  have hpos : 0 < b.rows.length := List.length_pos_iff.2 h.rows
  have pix : ∀ r ∈ b.rows, ∀ s ∈ r, ∃ i : Nat, (b.minX + s.1, b.minY + (i : Int)) ∈ decompress b ∧ (b.minX + s.2 - 1, b.minY + (i : Int)) ∈ decompress b := by
    intro r hr s hs
    obtain ⟨i, hi, rfl⟩ := List.getElem_of_mem hr
    have := h.run _ hr s hs
    refine ⟨i, ?_, ?_⟩ <;> rw [mem_decompress] <;> exact ⟨i, hi, s, hs, rfl, by dsimp only; omega, by dsimp only; omega⟩
  have row : ∀ i, (hi : i < b.rows.length) → ∃ p ∈ decompress b, p.2 = b.minY + i := by
    intro i hi
    obtain ⟨s, hs⟩ := List.exists_mem_of_ne_nil _ (h.row _ (List.getElem_mem hi))
    have := h.run _ (List.getElem_mem hi) s hs
    refine ⟨(b.minX + s.1, b.minY + i), ?_, rfl⟩
    rw [mem_decompress]
    exact ⟨i, hi, s, hs, rfl, by dsimp only; omega, by dsimp only; omega⟩
  refine ⟨?_, ?_, ?_, ?_, ?_⟩
  · intro p hp
    rw [mem_decompress] at hp
    obtain ⟨i, hi, s, hs, e1, e2, e3⟩ := hp
    have := h.run _ (List.getElem_mem hi) s hs
    have := h2 _ (List.getElem_mem hi) s hs
    omega
  · obtain ⟨r, hr, s, hs, e⟩ := h.left
    obtain ⟨i, h, _⟩ := pix r hr s hs
    exact ⟨_, h, by dsimp only; omega⟩
  · rcases h3 with h3 | ⟨r, hr, s, hs, e⟩
    · obtain ⟨r, hr, s, hs, e⟩ := h.left
      have := h.run r hr s hs
      have := h2 r hr s hs
      omega
    · obtain ⟨i, _, h⟩ := pix r hr s hs
      exact ⟨_, h, by dsimp only; omega⟩
  · obtain ⟨p, hp, e⟩ := row 0 hpos
    exact ⟨p, hp, by rw [e]; simp⟩
  · obtain ⟨p, hp, e⟩ := row (b.rows.length - 1) (by omega)
    exact ⟨p, hp, by rw [e]; omega⟩

example : ∃ ix, blobIndex sample 6 3 = .ok ix ∧ ∃ b ∈ ix.blobs, WF b ∧ boundingBox b = (0, 0, 3, 3) ∧ size b = 5 := by
  obtain ⟨ix, e, _, _, _, _, _, h⟩ := blobIndex_spec sample (W := 6) (H := 3) (by omega) (by omega)
  have h' : (blobIndex sample 6 3).map (fun ix => (ix.blobs.head?).map (fun b => (boundingBox b, size b))) =
      .ok (some ((0, 0, 3, 3), 5)) := by decide +kernel
  rw [e] at h'
  simp only [Except.map, Except.ok.injEq, Option.map_eq_some_iff, Prod.mk.injEq] at h'
  obtain ⟨b, hb, h1, h2⟩ := h'
  exact ⟨ix, e, b, List.mem_of_mem_head? hb, h _ (List.mem_of_mem_head? hb), h1, h2⟩

/-- Runs in order, without overlap: what `intersects` takes for granted ("assumed to be ordered"). -/
def Ordered (b : Compressed) : Prop := ∀ r ∈ b.rows, r.Pairwise (fun s t => s.2 ≤ t.1)

/-- Sorted pixels come from ordered runs. -/
theorem ordered_of_sorted (b : Compressed) (h : WF b) (hs : (decompress b).Pairwise before) : Ordered b := by
  have hrun := h.run
  unfold decompress at hs
  unfold Ordered
  generalize b.rows = rs at *
  generalize b.minY = y at *
  induction rs generalizing y with
  | nil => intro r hr; cases hr
  | cons t rs ih =>
    simp only [rowsPlaces] at hs
    obtain ⟨h1, h2, _⟩ := List.pairwise_append.1 hs
    intro r hr
    rcases List.mem_cons.1 hr with rfl | hr
    · unfold rowPlaces at h1
      rw [List.pairwise_flatMap] at h1
      refine h1.2.imp_of_mem ?_
      intro s u hsm hum hb
      have a1 := hrun r (by simp) s hsm
      have a2 := hrun r (by simp) u hum
      have := hb (b.minX + s.2 - 1, y) (by rw [mem_runPlaces]; dsimp only; omega) (b.minX + u.1, y)
        (by rw [mem_runPlaces]; dsimp only; omega)
      unfold before at this
      dsimp only at this
      omega
    · exact ih (fun r hr => hrun r (List.mem_cons_of_mem _ hr)) (y + 1) h2 r hr

/-- The first and the last run of a row. -/
theorem row_ends {r : List (Int × Int)} (ho : r.Pairwise (fun s t => s.2 ≤ t.1)) (hr : ∀ s ∈ r, s.1 < s.2) (hne : r ≠ []) :
    ∃ f l, r.head? = some f ∧ r.getLast? = some l ∧ f ∈ r ∧ l ∈ r ∧ ∀ s ∈ r, f.1 ≤ s.1 ∧ s.2 ≤ l.2 := by
  obtain ⟨l, el⟩ : ∃ l, r.getLast? = some l := ⟨_, List.getLast?_eq_some_getLast hne⟩
  obtain ⟨f, ef⟩ : ∃ f, r.head? = some f := ⟨_, List.head?_eq_some_head hne⟩
  refine ⟨f, l, ef, el, List.mem_of_mem_head? ef, List.mem_of_mem_getLast? el, ?_⟩
  intro s hs
  constructor
  · cases r with
    | nil => cases hs
    | cons g t =>
      simp at ef; subst ef
      rcases List.mem_cons.1 hs with rfl | hs'
      · omega
      · have := (List.pairwise_cons.1 ho).1 s hs'
        have := hr g (by simp)
        omega
  · obtain ⟨t, rfl⟩ := List.getLast?_eq_some_iff.1 el
    rcases List.mem_append.1 hs with hs' | hs'
    · have := (List.pairwise_append.1 ho).2.2 s hs' l (by simp)
      have := hr l (by simp)
      omega
    · simp at hs'; subst hs'; omega

theorem rowsIntersect_iff (m x0 y0 x1 y1 : Int) (rs : List (List (Int × Int))) (y : Int) :
    rowsIntersect m x0 y0 x1 y1 y rs = true ↔ ∃ i, ∃ h : i < rs.length, rowIntersects m (y + i) x0 y0 x1 y1 rs[i] = true := by
  induction rs generalizing y with
  | nil => simp [rowsIntersect]
  | cons r rs ih =>
    simp only [rowsIntersect, Bool.or_eq_true, ih]
    constructor
    · rintro (h | ⟨i, hi, h⟩)
      · exact ⟨0, by simp, by simpa using h⟩
      · refine ⟨i + 1, by simpa using hi, ?_⟩
        have : y + ((i + 1 : Nat) : Int) = y + 1 + i := by push_cast; omega
        rw [this]; simpa using h
    · rintro ⟨i, hi, h⟩
      cases i with
      | zero => left; simpa using h
      | succ i =>
        right
        refine ⟨i, by simpa using hi, ?_⟩
        have : y + ((i + 1 : Nat) : Int) = y + 1 + i := by push_cast; omega
        rw [this] at h; simpa using h

/-- **C52 (intersects)**: a box intersects a blob iff in a row of the box the blob has a pixel left of the right side and
a pixel right of the left side of the box (not necessarily the same). -/
theorem intersects_iff (b : Compressed) (h : WF b) (ho : Ordered b) (x0 y0 x1 y1 : Int) :
    intersects b x0 y0 x1 y1 = true ↔ ∃ p ∈ decompress b, ∃ q ∈ decompress b, p.2 = q.2 ∧ y0 ≤ p.2 ∧ p.2 < y1 ∧
      p.1 < x1 ∧ x0 ≤ q.1 := by
  unfold intersects
  constructor
  · intro hi
    by_cases hc : y1 ≤ b.minY ∨ y0 ≥ b.minY + b.rows.length
    · rw [if_pos hc] at hi; cases hi
    · rw [if_neg hc, rowsIntersect_iff] at hi
      obtain ⟨i, hi, e⟩ := hi
      have hrow := List.getElem_mem hi
      obtain ⟨f, l, ef, el, hf, hl, _⟩ := row_ends (ho _ hrow) (fun s hs => (h.run _ hrow s hs).2) (h.row _ hrow)
      have rf := h.run _ hrow f hf
      have rl := h.run _ hrow l hl
      unfold rowIntersects at e
      rw [ef, el] at e
      simp at e
      refine ⟨(b.minX + f.1, b.minY + i), ?_, (b.minX + l.2 - 1, b.minY + i), ?_, rfl, by dsimp only; omega, by dsimp only; omega,
        by dsimp only; omega, by dsimp only; omega⟩ <;> rw [mem_decompress]
      · exact ⟨i, hi, f, hf, rfl, by dsimp only; omega, by dsimp only; omega⟩
      · exact ⟨i, hi, l, hl, rfl, by dsimp only; omega, by dsimp only; omega⟩
  · rintro ⟨p, hp, q, hq, e, h1, h2, h3, h4⟩
    rw [mem_decompress] at hp hq
    obtain ⟨i, hi, s, hs, p1, p2, p3⟩ := hp
    obtain ⟨j, hj, t, ht, q1, q2, q3⟩ := hq
    have hij : j = i := by omega
    subst hij
    rw [if_neg (by omega), rowsIntersect_iff]
    have hrow := List.getElem_mem hi
    obtain ⟨f, l, ef, el, hf, hl, hall⟩ := row_ends (ho _ hrow) (fun s hs => (h.run _ hrow s hs).2) (h.row _ hrow)
    have a1 := hall s hs
    have a2 := hall t ht
    refine ⟨j, hi, ?_⟩
    unfold rowIntersects
    rw [ef, el]
    simp
    omega

/-- **C52 (queries)**: for all blobs that the constructor makes, `size`, `bounding_box` and `intersects` say what they
should of the pixels (`intersects` says yes too often, see below). -/
theorem blobIndex_queries (valid : Pos → Bool) {W H : Nat} (hW : 1 ≤ W) (hH : 1 ≤ H) (ix : Index)
    (e : blobIndex valid W H = .ok ix) (b : Compressed) (hb : b ∈ ix.blobs) :
    size b = (decompress b).length ∧
    (∀ x0 y0 x1 y1, boundingBox b = (x0, y0, x1, y1) →
      (∀ p ∈ decompress b, x0 ≤ p.1 ∧ p.1 < x1 ∧ y0 ≤ p.2 ∧ p.2 < y1) ∧
      (∃ p ∈ decompress b, p.1 = x0) ∧ (∃ p ∈ decompress b, p.1 = x1 - 1) ∧
      (∃ p ∈ decompress b, p.2 = y0) ∧ (∃ p ∈ decompress b, p.2 = y1 - 1)) ∧
    (∀ x0 y0 x1 y1, intersects b x0 y0 x1 y1 = true ↔ ∃ p ∈ decompress b, ∃ q ∈ decompress b, p.2 = q.2 ∧ y0 ≤ p.2 ∧ p.2 < y1 ∧
      p.1 < x1 ∧ x0 ≤ q.1) := by
  obtain ⟨ix', e', h1, _, _, _, _, h2⟩ := blobIndex_spec valid hW hH
  rw [e] at e'
  cases e'
  have hw := h2 b hb
  exact ⟨size_spec b hw, fun x0 y0 x1 y1 => boundingBox_spec b hw x0 y0 x1 y1,
    fun x0 y0 x1 y1 => intersects_iff b hw (ordered_of_sorted b hw (h1 b hb).2) x0 y0 x1 y1⟩

/-- The converse fails: in every row only the hull of the runs is tested, so a box in the gap of a "U" intersects it. -/
theorem intersects_gap_refuted : ∃ b, WF b ∧ Ordered b ∧ intersects b 1 0 2 1 = true ∧
    ¬ ∃ p ∈ decompress b, (1 ≤ p.1 ∧ p.1 < 2) ∧ (0 ≤ p.2 ∧ p.2 < 1) := by
  refine ⟨⟨0, 0, [[(0, 1), (2, 3)], [(0, 3)]]⟩, ⟨by decide, by decide, by decide, by decide, by decide⟩, ?_, by decide, by decide⟩
  unfold Ordered; decide

end VW.Blob
