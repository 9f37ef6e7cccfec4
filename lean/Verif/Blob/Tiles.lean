import Verif.Blob.Joins
import Mathlib.Data.List.Perm.Basic
/-
The blobs of the tiles, in whatever order the tiles are done, are parts of the components (C53).
-/
namespace VW.Blob
open VW.Grassfire (Pos raster inImage before)
open VW.Block (Rect)
open VW.View (segs times subdivide subdivide_partition)

/-! ### One tile -/

/-- A blob at another place. -/
def place (dx dy : Int) (b : Compressed) : Compressed := { b with minX := b.minX + dx, minY := b.minY + dy }

theorem mem_place {dx dy : Int} {b : Compressed} {p : Pos} :
    p ∈ decompress (place dx dy b) ↔ (p.1 - dx, p.2 - dy) ∈ decompress b := by
  rw [mem_decompress, mem_decompress]
  unfold place
  dsimp only
  constructor
  · rintro ⟨i, hi, s, hs, e1, e2, e3⟩; exact ⟨i, hi, s, hs, by omega, by omega, by omega⟩
  · rintro ⟨i, hi, s, hs, e1, e2, e3⟩; exact ⟨i, hi, s, hs, by omega, by omega, by omega⟩

theorem Linked.map {V V' : Pos → Prop} {f : Pos → Pos} (hV : ∀ p, V p → V' (f p)) (hn : ∀ p q, near p q → near (f p) (f q))
    {p q : Pos} (h : Linked V p q) : Linked V' (f p) (f q) := by
  induction h with
  | refl hv => exact .refl (hV _ hv)
  | step _ hv hnr ih => exact ih.step (hV _ hv) (hn _ _ hnr)

theorem wf_place {dx dy : Int} {b : Compressed} (h : WF b) (hx : 0 ≤ dx) : WF (place dx dy b) := by
  obtain ⟨h1, h2, h3, h4, h5⟩ := h
  exact ⟨by unfold place; dsimp only; omega, h2, h3, h4, h5⟩

/-- The blobs of a tile inside the image. -/
theorem tileBlobs_spec (valid : Pos → Bool) {W H : Nat} {r : Rect} (h1 : r.x0 < r.x1) (h2 : r.y0 < r.y1)
    (h3 : 0 ≤ r.x0) (h4 : r.x1 ≤ W) (h5 : 0 ≤ r.y0) (h6 : r.y1 ≤ H) :
    ∃ l, tileBlobs valid r = .ok l ∧ (∀ b ∈ l, WF b ∧ Ordered b) ∧
      (∀ p, (∃ b ∈ l, p ∈ decompress b) ↔ Valid valid W H p ∧ r.has p.1 p.2 = true) ∧
      (∀ b ∈ l, ∀ p ∈ decompress b, ∀ q ∈ decompress b, Linked (Valid valid W H) p q) ∧
      l.Pairwise (fun b c => ∀ p ∈ decompress b, ∀ q ∈ decompress c, ¬ near p q) := by
  have hW : 1 ≤ (r.x1 - r.x0).toNat := by omega
  have hH : 1 ≤ (r.y1 - r.y0).toNat := by omega
  obtain ⟨ix, e, a1, a2, a3, _, _, a6⟩ := blobIndex_spec (fun p => valid (p.1 + r.x0, p.2 + r.y0)) hW hH
  have hval : ∀ p : Pos, Valid (fun p => valid (p.1 + r.x0, p.2 + r.y0)) (r.x1 - r.x0).toNat (r.y1 - r.y0).toNat (p.1 - r.x0, p.2 - r.y0) ↔
      Valid valid W H p ∧ r.has p.1 p.2 = true := by
    intro p
    unfold Valid inImage
    dsimp only
    have e1 : p.1 - r.x0 + r.x0 = p.1 := by omega
    have e2 : p.2 - r.y0 + r.y0 = p.2 := by omega
    rw [e1, e2]
    simp only [Rect.has, Bool.and_eq_true, decide_eq_true_eq]
    constructor
    · rintro ⟨h, hv⟩; exact ⟨⟨by omega, hv⟩, by omega⟩
    · rintro ⟨⟨h, hv⟩, h'⟩; exact ⟨by omega, hv⟩
  have hup : ∀ p, Valid (fun p => valid (p.1 + r.x0, p.2 + r.y0)) (r.x1 - r.x0).toNat (r.y1 - r.y0).toNat p →
      Valid valid W H (p.1 + r.x0, p.2 + r.y0) := by
    intro p hp
    have := (hval (p.1 + r.x0, p.2 + r.y0)).1
    dsimp only at this
    rw [show p.1 + r.x0 - r.x0 = p.1 by omega, show p.2 + r.y0 - r.y0 = p.2 by omega] at this
    exact (this hp).1
  refine ⟨ix.blobs.map (place r.x0 r.y0), ?_, ?_, ?_, ?_, ?_⟩
  · unfold tileBlobs; rw [e]; rfl
  · intro b hb
    obtain ⟨b, hb', rfl⟩ := List.mem_map.1 hb
    clear hb; rename' hb' => hb
    exact ⟨wf_place (a6 b hb) h3, ordered_of_sorted b (a6 b hb) (a1 b hb).2⟩
  · intro p
    rw [← hval, ← a2]
    constructor
    · rintro ⟨b, hb, hp⟩
      obtain ⟨b, hb', rfl⟩ := List.mem_map.1 hb
      clear hb; rename' hb' => hb
      exact ⟨b, hb, mem_place.1 hp⟩
    · rintro ⟨b, hb, hp⟩
      exact ⟨_, List.mem_map_of_mem hb, mem_place.2 hp⟩
  · intro b hb p hp q hq
    obtain ⟨b, hb', rfl⟩ := List.mem_map.1 hb
    clear hb; rename' hb' => hb
    rw [mem_place] at hp hq
    obtain ⟨k, hk⟩ := List.getElem?_of_mem hb
    have := ((a3 k k b b hk hk _ hp _ hq).1 rfl).map (V' := Valid valid W H) (f := fun p => (p.1 + r.x0, p.2 + r.y0)) hup
      (fun p q h => by unfold near at *; dsimp only; omega)
    dsimp only at this
    rwa [show p.1 - r.x0 + r.x0 = p.1 by omega, show p.2 - r.y0 + r.y0 = p.2 by omega,
      show q.1 - r.x0 + r.x0 = q.1 by omega, show q.2 - r.y0 + r.y0 = q.2 by omega] at this
  · rw [List.pairwise_map, List.pairwise_iff_getElem]
    intro i j hi hj hij p hp q hq hn
    rw [mem_place] at hp hq
    have vp := (a2 _).1 ⟨_, List.getElem_mem hi, hp⟩
    have vq := (a2 _).1 ⟨_, List.getElem_mem hj, hq⟩
    have := (a3 i j _ _ (List.getElem?_eq_getElem hi) (List.getElem?_eq_getElem hj) _ hp _ hq).2
      (Linked.single vp vq (by unfold near at *; dsimp only; omega))
    omega

/-! ### All tiles -/

theorem segs_dvd {n bs : Int} (hb : 0 < bs) (off : Int) {s : Int × Int} (h : s ∈ segs n bs true false off) : bs ∣ s.1 - off := by
  by_cases h0 : off < n
  · rw [segs, dif_pos ⟨h0, hb⟩] at h
    simp only [Bool.true_eq_false, Bool.false_eq_true, if_false] at h
    have ih := segs_dvd (n := n) hb (off + bs) (s := s)
    have step : s ∈ segs n bs true false (off + bs) → bs ∣ s.1 - off := by
      intro h
      have := Int.dvd_add (ih h) (Int.dvd_refl bs)
      rwa [show s.1 - (off + bs) + bs = s.1 - off by omega] at this
    split at h
    · rcases List.mem_cons.1 h with rfl | h
      · dsimp only; rw [Int.sub_self]; exact Int.dvd_zero _
      · exact step h
    · rcases List.mem_cons.1 h with rfl | h
      · dsimp only; rw [Int.sub_self]; exact Int.dvd_zero _
      · exact step h
  · rw [VW.View.segs_stop (by omega)] at h; cases h
termination_by (n - off).toNat
decreasing_by omega

/-- The place of a tile. -/
theorem tile_at {W H t : Nat} (ht : 0 < t) {r : Rect} (h : r ∈ tiles W H t) :
    r.x0 < r.x1 ∧ r.y0 < r.y1 ∧ 0 ≤ r.x0 ∧ r.x1 ≤ W ∧ 0 ≤ r.y0 ∧ r.y1 ≤ H ∧
      ∀ p : Pos, r.has p.1 p.2 = true → (t : Int) * (p.1 / t) = r.x0 ∧ (t : Int) * (p.2 / t) = r.y0 := by
  have ht' : (0 : Int) < t := by omega
  have hin := VW.View.subdivide_inside ⟨0, 0, W, H⟩ ht' ht' true h
  have he := VW.View.empty_iff.1 hin.1
  refine ⟨he.1, he.2, hin.2.1, hin.2.2.1, hin.2.2.2.1, hin.2.2.2.2.1, ?_⟩
  intro p hp
  simp only [Rect.has, Bool.and_eq_true, decide_eq_true_eq] at hp
  have hd : (t : Int) ∣ r.x0 ∧ (t : Int) ∣ r.y0 := by
    unfold tiles subdivide at h
    obtain ⟨j, hj, h⟩ := List.mem_flatMap.1 h
    obtain ⟨i, hi, rfl⟩ := List.mem_map.1 h
    have := segs_dvd ht' 0 hj
    have := segs_dvd ht' 0 hi
    dsimp only
    have e0 : ∀ x : Int, x + 0 = x - 0 := fun x => by omega
    exact ⟨e0 i.1 ▸ ‹(t : Int) ∣ i.1 - 0›, e0 j.1 ▸ ‹(t : Int) ∣ j.1 - 0›⟩
  have key : ∀ {x x0 : Int}, (t : Int) ∣ x0 → x0 ≤ x → x < x0 + t → (t : Int) * (x / t) = x0 := by
    intro x x0 ⟨k, hk⟩ h1 h2
    subst hk
    have : x = t * k + (x - t * k) := by omega
    rw [this, Int.mul_add_ediv_left _ _ (by omega : (t : Int) ≠ 0), Int.ediv_eq_zero_of_lt (by omega) (by omega), Int.add_zero]
  exact ⟨key hd.1 (by omega) (by omega), key hd.2 (by omega) (by omega)⟩

theorem pairwise_of_countP {α β : Type} (f : β → α → Bool) (l : List α) (h : ∀ p, l.countP (f p) ≤ 1) :
    l.Pairwise (fun a b => ∀ p, ¬ (f p a = true ∧ f p b = true)) := by
  induction l with
  | nil => exact .nil
  | cons a l ih =>
    rw [List.pairwise_cons]
    refine ⟨?_, ih (fun p => ?_)⟩
    · intro b hb p ⟨ha, hbp⟩
      have := h p
      rw [List.countP_cons_of_pos ha] at this
      have hpos : 0 < l.countP (f p) := List.countP_pos_iff.2 ⟨b, hb, hbp⟩
      omega
    · have := h p
      rw [List.countP_cons] at this
      omega

/-- The blobs of a tile, without the outcome. -/
def blobsOf (valid : Pos → Bool) (r : Rect) : List Compressed := match tileBlobs valid r with | .ok l => l | .error _ => []

theorem mapM_ok {α β : Type} (f : α → Except Err β) (g : α → β) (l : List α) (h : ∀ a ∈ l, f a = .ok (g a)) :
    l.mapM f = .ok (l.map g) := by
  induction l with
  | nil => rfl
  | cons a l ih =>
    rw [List.mapM_cons, h a (by simp), ih (fun b hb => h b (List.mem_cons_of_mem _ hb))]
    rfl

/-- Whatever the order of the tiles: no exception, and parts of components. -/
theorem tiles_parts (valid : Pos → Bool) {W H t : Nat} (ht : 0 < t) {order : List Rect} (ho : order.Perm (tiles W H t)) :
    order.mapM (tileBlobs valid) = .ok (order.map (blobsOf valid)) ∧
    Parts (Valid valid W H) W H t (order.map (blobsOf valid)).flatten := by
  have spec : ∀ r ∈ order, tileBlobs valid r = .ok (blobsOf valid r) ∧ (∀ b ∈ blobsOf valid r, WF b ∧ Ordered b) ∧
      (∀ p, (∃ b ∈ blobsOf valid r, p ∈ decompress b) ↔ Valid valid W H p ∧ r.has p.1 p.2 = true) ∧
      (∀ b ∈ blobsOf valid r, ∀ p ∈ decompress b, ∀ q ∈ decompress b, Linked (Valid valid W H) p q) ∧
      (blobsOf valid r).Pairwise (fun b c => ∀ p ∈ decompress b, ∀ q ∈ decompress c, ¬ near p q) := by
    intro r hr
    obtain ⟨a1, a2, a3, a4, a5, a6, _⟩ := tile_at ht (ho.mem_iff.1 hr)
    obtain ⟨l, e, h⟩ := tileBlobs_spec valid a1 a2 a3 a4 a5 a6
    have : blobsOf valid r = l := by unfold blobsOf; rw [e]
    rw [this]
    exact ⟨e, h⟩
  have ht' : (0 : Int) < t := by omega
  have hcount : ∀ p : Pos, order.countP (fun r => r.has p.1 p.2) = if Rect.has ⟨0, 0, W, H⟩ p.1 p.2 then 1 else 0 := by
    intro p
    rw [ho.countP_eq]
    exact subdivide_partition ⟨0, 0, W, H⟩ ht' ht' p.1 p.2
  have hdisj := pairwise_of_countP (fun (p : Pos) (r : Rect) => r.has p.1 p.2) order (fun p => by rw [hcount]; split <;> omega)
  refine ⟨mapM_ok _ _ _ (fun r hr => (spec r hr).1), ?_⟩
  have hmem : ∀ b, b ∈ (order.map (blobsOf valid)).flatten ↔ ∃ r ∈ order, b ∈ blobsOf valid r := by
    intro b; simp [List.mem_flatten]
  have hhas : ∀ r ∈ order, ∀ b ∈ blobsOf valid r, ∀ p ∈ decompress b, r.has p.1 p.2 = true :=
    fun r hr b hb p hp => (((spec r hr).2.2.1 p).1 ⟨b, hb, hp⟩).2
  have himg : ∀ p, Valid valid W H p → 0 ≤ p.1 ∧ p.1 < W ∧ 0 ≤ p.2 ∧ p.2 < H := fun p hp => hp.1
  refine ⟨?_, ?_, ?_, ?_, ?_, ?_, himg⟩
  · intro b hb
    obtain ⟨r, hr, hb⟩ := (hmem b).1 hb
    exact ((spec r hr).2.1 b hb).1
  · intro b hb
    obtain ⟨r, hr, hb⟩ := (hmem b).1 hb
    exact ((spec r hr).2.1 b hb).2
  · intro p
    constructor
    · intro hp
      have hpos : 0 < order.countP (fun r => r.has p.1 p.2) := by
        rw [hcount, if_pos]
        · omega
        · have := himg p hp
          simp only [Rect.has, Bool.and_eq_true, decide_eq_true_eq]; omega
      obtain ⟨r, hr, hh⟩ := List.countP_pos_iff.1 hpos
      obtain ⟨b, hb, hpb⟩ := ((spec r hr).2.2.1 p).2 ⟨hp, hh⟩
      exact ⟨b, (hmem b).2 ⟨r, hr, hb⟩, hpb⟩
    · rintro ⟨b, hb, hp⟩
      obtain ⟨r, hr, hb⟩ := (hmem b).1 hb
      exact (((spec r hr).2.2.1 p).1 ⟨b, hb, hp⟩).1
  · intro b hb
    obtain ⟨r, hr, hb⟩ := (hmem b).1 hb
    exact (spec r hr).2.2.2.1 b hb
  · intro b hb p hp q hq
    obtain ⟨r, hr, hb⟩ := (hmem b).1 hb
    have at' := (tile_at ht (ho.mem_iff.1 hr)).2.2.2.2.2.2
    obtain ⟨p1, p2⟩ := at' p (hhas r hr b hb p hp)
    obtain ⟨q1, q2⟩ := at' q (hhas r hr b hb q hq)
    exact ⟨Int.eq_of_mul_eq_mul_left (by omega : (t : Int) ≠ 0) (p1.trans q1.symm),
      Int.eq_of_mul_eq_mul_left (by omega : (t : Int) ≠ 0) (p2.trans q2.symm)⟩
  · have hpw : (order.map (blobsOf valid)).flatten.Pairwise (fun b c => ∀ p ∈ decompress b, ∀ q ∈ decompress c,
        near p q → ¬ (p.1 / (t : Int) = q.1 / t ∧ p.2 / (t : Int) = q.2 / t)) := by
      rw [List.pairwise_flatten]
      constructor
      · intro l hl
        obtain ⟨r, hr, rfl⟩ := List.mem_map.1 hl
        exact (spec r hr).2.2.2.2.imp (fun h p hp q hq hn => absurd hn (h p hp q hq))
      · rw [List.pairwise_map]
        refine hdisj.imp_of_mem ?_
        intro r r' hr hr' hd b hb c hc p hp q hq _ hcell
        obtain ⟨a1, a2, _, _, _, _, at1⟩ := tile_at ht (ho.mem_iff.1 hr)
        obtain ⟨c1, c2, _, _, _, _, at2⟩ := tile_at ht (ho.mem_iff.1 hr')
        obtain ⟨p1, p2⟩ := at1 p (hhas r hr b hb p hp)
        obtain ⟨q1, q2⟩ := at2 q (hhas r' hr' c hc q hq)
        rw [hcell.1] at p1
        rw [hcell.2] at p2
        apply hd (r.x0, r.y0)
        simp only [Rect.has, Bool.and_eq_true, decide_eq_true_eq]
        omega
    intro i j hi hj hij p hp q hq
    have hsame : near p q → ¬ (p.1 / (t : Int) = q.1 / t ∧ p.2 / (t : Int) = q.2 / t) := by
      rw [List.pairwise_iff_getElem] at hpw
      rcases Nat.lt_or_gt_of_ne hij with h | h
      · exact hpw i j hi hj h p hp q hq
      · intro hn hc
        exact hpw j i hj hi h q hq p hp (near_symm hn) ⟨hc.1.symm, hc.2.symm⟩
    refine ⟨?_, hsame⟩
    rintro rfl
    exact hsame (by unfold near; omega) ⟨rfl, rfl⟩

end VW.Blob
