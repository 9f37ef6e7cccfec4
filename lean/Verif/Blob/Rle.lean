import Verif.Blob.Model
import Mathlib.Tactic.ByContra
/-
The second pass: the blobs list, row by row, the pixels of the components.
-/
namespace VW.Blob
open VW.Grassfire (Pos raster inImage before mem_raster raster_sorted)

theorem mem_runPlaces {y x0 x1 : Int} {p : Pos} : p ∈ runPlaces y x0 x1 ↔ p.2 = y ∧ x0 ≤ p.1 ∧ p.1 < x1 := by
  unfold runPlaces
  simp only [List.mem_map, List.mem_range]
  constructor
  · rintro ⟨c, hc, rfl⟩; dsimp only; omega
  · rintro ⟨h1, h2, h3⟩
    exact ⟨(p.1 - x0).toNat, by omega, Prod.ext (by dsimp only; omega) (by dsimp only; omega)⟩

theorem runPlaces_snoc {y x0 x1 : Int} (h : x0 ≤ x1) : runPlaces y x0 (x1 + 1) = runPlaces y x0 x1 ++ [(x1, y)] := by
  unfold runPlaces
  have e : (x1 + 1 - x0).toNat = (x1 - x0).toNat + 1 := by omega
  rw [e, List.range_succ, List.map_append]
  simp only [List.map_cons, List.map_nil]
  have : x0 + ((x1 - x0).toNat : Int) = x1 := by omega
  rw [this]

theorem runPlaces_nil {y x : Int} : runPlaces y x x = [] := by simp [runPlaces]

theorem rowsPlaces_append (m : Int) (rs ts : List (List (Int × Int))) (y : Int) :
    rowsPlaces m y (rs ++ ts) = rowsPlaces m y rs ++ rowsPlaces m (y + rs.length) ts := by
  induction rs generalizing y with
  | nil => simp [rowsPlaces]
  | cons r rs ih =>
    simp only [List.cons_append, rowsPlaces, List.length_cons]
    rw [ih, List.append_assoc]
    congr 3
    push_cast; omega

theorem rowPlaces_append (m y : Int) (r t : List (Int × Int)) :
    rowPlaces m y (r ++ t) = rowPlaces m y r ++ rowPlaces m y t := by
  simp [rowPlaces]

theorem rowPlaces_one (m y : Int) (s : Int × Int) : rowPlaces m y [s] = runPlaces y (m + s.1) (m + s.2) := by
  simp [rowPlaces]

theorem shift_rows (m v : Int) (rs : List (List (Int × Int))) (y : Int) :
    rowsPlaces (m + v) y (rs.map (·.map (fun s => (s.1 - v, s.2 - v)))) = rowsPlaces m y rs := by
  induction rs generalizing y with
  | nil => rfl
  | cons r rs ih =>
    simp only [List.map_cons, rowsPlaces, ih]
    congr 1
    simp only [rowPlaces, List.flatMap_map]
    congr 1
    funext s
    have e1 : m + v + (s.1 - v) = m + s.1 := by omega
    have e2 : m + v + (s.2 - v) = m + s.2 := by omega
    rw [e1, e2]

theorem decompress_shiftX (b : Compressed) (v : Int) : decompress (shiftX b v) = decompress b := by
  unfold decompress shiftX; exact shift_rows _ _ _ _

/-- The shape of a blob with at least one pixel. -/
structure WF (b : Compressed) : Prop where
  minX : 0 ≤ b.minX
  rows : b.rows ≠ []
  row : ∀ r ∈ b.rows, r ≠ []
  run : ∀ r ∈ b.rows, ∀ s ∈ r, 0 ≤ s.1 ∧ s.1 < s.2
  left : ∃ r ∈ b.rows, ∃ s ∈ r, s.1 = 0

theorem mem_rowsPlaces {m y : Int} {rs : List (List (Int × Int))} {p : Pos} :
    p ∈ rowsPlaces m y rs ↔ ∃ i, ∃ h : i < rs.length, ∃ s ∈ rs[i], p.2 = y + i ∧ m + s.1 ≤ p.1 ∧ p.1 < m + s.2 := by
  induction rs generalizing y with
  | nil => simp [rowsPlaces]
  | cons r rs ih =>
    simp only [rowsPlaces, List.mem_append, ih, rowPlaces, List.mem_flatMap, mem_runPlaces]
    constructor
    · rintro (⟨s, hs, h⟩ | ⟨i, hi, s, hs, h⟩)
      · exact ⟨0, by simp, s, by simpa using hs, by simpa using h⟩
      · exact ⟨i + 1, by simpa using hi, s, by simpa using hs, by push_cast; omega⟩
    · rintro ⟨i, hi, s, hs, h⟩
      cases i with
      | zero => exact Or.inl ⟨s, by simpa using hs, by simpa using h⟩
      | succ i => exact Or.inr ⟨i, by simpa using hi, s, by simpa using hs, by push_cast at h; omega⟩

theorem mem_decompress {b : Compressed} {p : Pos} : p ∈ decompress b ↔
    ∃ i, ∃ h : i < b.rows.length, ∃ s ∈ b.rows[i], p.2 = b.minY + i ∧ b.minX + s.1 ≤ p.1 ∧ p.1 < b.minX + s.2 := mem_rowsPlaces

/-- Appending a run. -/
theorem push_spec {b : Compressed} {rs : List (List (Int × Int))} {r : List (Int × Int)} {x w : Int}
    (hx : 0 ≤ x) (hw : 0 < w) (hmin : 0 ≤ b.minX)
    (hrow : ∀ t ∈ rs, t ≠ []) (hrun : ∀ t ∈ rs ++ [r], ∀ s ∈ t, 0 ≤ s.1 ∧ s.1 < s.2) (hleft : ∃ t ∈ rs ++ [r], ∃ s ∈ t, s.1 = 0) :
    decompress (push b rs r x w) = rowsPlaces b.minX b.minY (rs ++ [r]) ++ runPlaces (b.minY + rs.length) x (x + w) ∧
    WF (push b rs r x w) ∧ (push b rs r x w).minY = b.minY ∧ (push b rs r x w).rows.length = rs.length + 1 := by
  have hd : rowsPlaces b.minX b.minY (rs ++ [r ++ [(x - b.minX, x - b.minX + w)]]) =
      rowsPlaces b.minX b.minY (rs ++ [r]) ++ runPlaces (b.minY + rs.length) x (x + w) := by
    rw [rowsPlaces_append, rowsPlaces_append, List.append_assoc]
    simp only [rowsPlaces, List.append_nil]
    rw [rowPlaces_append, rowPlaces_one]
    have e1 : b.minX + (x - b.minX) = x := by omega
    have e2 : b.minX + (x - b.minX + w) = x + w := by omega
    dsimp only
    rw [e1, e2]
  unfold push
  dsimp only
  by_cases h : b.minX > x
  · rw [if_pos h]
    refine ⟨?_, ?_, rfl, by simp [shiftX]⟩
    · rw [decompress_shiftX]; exact hd
    · refine ⟨by unfold shiftX; dsimp only; omega, by simp [shiftX], ?_, ?_, ?_⟩
      · intro t ht
        simp only [shiftX, List.mem_map] at ht
        obtain ⟨t', ht', rfl⟩ := ht
        intro e
        rw [List.map_eq_nil_iff] at e
        rcases List.mem_append.1 ht' with h | h
        · exact hrow t' h e
        · simp at h; rw [h] at e; simp at e
      · intro t ht s hs
        simp only [shiftX, List.mem_map] at ht
        obtain ⟨t', ht', rfl⟩ := ht
        obtain ⟨s', hs', rfl⟩ := List.mem_map.1 hs
        dsimp only
        rcases List.mem_append.1 ht' with h | h
        · have := hrun t' (List.mem_append_left _ h) s' hs'; omega
        · simp at h; subst h
          rcases List.mem_append.1 hs' with h | h
          · have := hrun r (by simp) s' h; omega
          · simp at h; subst h; dsimp only; omega
      · refine ⟨(r ++ [(x - b.minX, x - b.minX + w)]).map (fun s => (s.1 - (x - b.minX), s.2 - (x - b.minX))), ?_,
          ((x - b.minX) - (x - b.minX), x - b.minX + w - (x - b.minX)), ?_, by dsimp only; omega⟩
        · simp [shiftX]
        · simp
  · rw [if_neg h]
    refine ⟨hd, ⟨hmin, by simp, ?_, ?_, ?_⟩, rfl, by simp⟩
    · intro t ht
      rcases List.mem_append.1 ht with h | h
      · exact hrow t h
      · simp at h; rw [h]; simp
    · intro t ht s hs
      rcases List.mem_append.1 ht with h' | h'
      · exact hrun t (List.mem_append_left _ h') s hs
      · simp at h'; subst h'
        rcases List.mem_append.1 hs with h' | h'
        · exact hrun r (by simp) s h'
        · simp at h'; subst h'; dsimp only; omega
    · obtain ⟨t, ht, s, hs, e⟩ := hleft
      rcases List.mem_append.1 ht with h' | h'
      · exact ⟨t, List.mem_append_left _ h', s, hs, e⟩
      · simp at h'; subst h'
        exact ⟨t ++ [(x - b.minX, x - b.minX + w)], by simp, s, List.mem_append_left _ hs, e⟩

/-- The last run of a blob. -/
theorem WF.last {b : Compressed} (h : WF b) : ∃ rs r t s, b.rows = rs ++ [r] ∧ r = t ++ [s] := by
  obtain ⟨rs, r, e⟩ : ∃ rs r, b.rows = rs ++ [r] := ⟨_, _, (List.dropLast_append_getLast h.rows).symm⟩
  have hr : r ≠ [] := h.row r (by rw [e]; simp)
  exact ⟨rs, r, _, _, e, (List.dropLast_append_getLast hr).symm⟩

/-- `add_row` in order appends the places of the run. -/
theorem addRow_spec {b : Compressed} {x y w : Int} (hx : 0 ≤ x) (hw : 0 < w) (hb : b = .empty ∨ WF b)
    (hbef : ∀ p ∈ decompress b, before p (x, y)) (hcont : WF b → y ≤ b.minY + b.rows.length) :
    ∃ b', addRow b x y w = .ok b' ∧ decompress b' = decompress b ++ runPlaces y x (x + w) ∧ WF b' := by
  rcases hb with rfl | hb
  · refine ⟨⟨x, y, [[(0, w)]]⟩, rfl, ?_, ?_⟩
    · simp [decompress, rowsPlaces, rowPlaces, Compressed.empty]
    · exact ⟨hx, by simp, by simp, by simp; exact hw, by simp⟩
  · obtain ⟨rs, r, t, s, e, er⟩ := hb.last
    have hlen : b.rows.length = rs.length + 1 := by rw [e]; simp
    have hc := hcont hb
    have hs : s ∈ r := by rw [er]; simp
    have hr : r ∈ b.rows := by rw [e]; simp
    have hsr := hb.run r hr s hs
    have hlast : (b.minX + s.1, b.minY + rs.length) ∈ decompress b := by
      rw [mem_decompress]
      refine ⟨rs.length, by omega, s, ?_, rfl, by dsimp only; omega, by dsimp only; omega⟩
      simpa [e] using hs
    have hbl := hbef _ hlast
    unfold before at hbl
    dsimp only at hbl
    unfold addRow
    have hm := hb.minX
    rw [if_neg (by omega), if_neg (by omega)]
    by_cases hy : y = b.minY + b.rows.length
    · rw [if_pos hy]
      obtain ⟨p1, p2, _, _⟩ := push_spec (b := b) (rs := b.rows) (r := []) hx hw hm hb.row
        (by intro t ht; rcases List.mem_append.1 ht with h | h
            · exact hb.run t h
            · simp at h; subst h; simp)
        (by obtain ⟨t, ht, h⟩ := hb.left; exact ⟨t, List.mem_append_left _ ht, h⟩)
      refine ⟨_, rfl, ?_, p2⟩
      rw [p1, rowsPlaces_append, ← hy]
      simp [decompress, rowsPlaces, rowPlaces]
    · rw [if_neg hy]
      have hg : b.rows.getLast? = some r := by rw [e]; simp
      have hg' : r.getLast? = some s := by rw [er]; simp
      rw [hg]; dsimp only; rw [hg']; dsimp only
      rw [if_neg (by omega)]
      have hdl : b.rows.dropLast = rs := by rw [e]; simp
      rw [hdl]
      obtain ⟨p1, p2, _, _⟩ := push_spec (b := b) (rs := rs) (r := r) hx hw hm
        (fun t ht => hb.row t (by rw [e]; exact List.mem_append_left _ ht)) (by rw [← e]; exact hb.run) (by rw [← e]; exact hb.left)
      refine ⟨_, rfl, ?_, p2⟩
      rw [p1, ← e]
      have : b.minY + (rs.length : Int) = y := by omega
      rw [this]; rfl

/-! ### The loops -/

/-- What the second pass needs of the labels and components: n blobs. -/
structure Classes (lab : Pos → Nat) (comp : Nat → Nat) (W H n : Nat) : Prop where
  range : ∀ p, lab p ≠ 0 → 1 ≤ comp (lab p) ∧ comp (lab p) ≤ n
  img : ∀ p, lab p ≠ 0 → inImage W H p
  adj : ∀ x y, lab (x, y) ≠ 0 → lab (x + 1, y) ≠ 0 → comp (lab (x, y)) = comp (lab (x + 1, y))
  cont : ∀ p q t, lab p ≠ 0 → lab q ≠ 0 → comp (lab p) = comp (lab q) → p.2 < t → t < q.2 →
    ∃ m, lab m ≠ 0 ∧ comp (lab m) = comp (lab p) ∧ m.2 = t

/-- The pixels of the k-th blob (from 0). -/
def cls (lab : Pos → Nat) (comp : Nat → Nat) (k : Nat) (p : Pos) : Bool := lab p ≠ 0 && comp (lab p) == k + 1

theorem cls_iff {lab : Pos → Nat} {comp : Nat → Nat} {k : Nat} {p : Pos} :
    cls lab comp k p = true ↔ lab p ≠ 0 ∧ comp (lab p) = k + 1 := by simp [cls]

/-- The places visited before the place (c, r). -/
def done (W r c : Nat) : List Pos := raster 0 W 0 r ++ runPlaces r 0 c

theorem raster_succ (W r : Nat) : raster 0 W 0 (r + 1) = raster 0 W 0 r ++ runPlaces r 0 W := by
  unfold raster
  simp only [Nat.sub_zero]
  rw [List.range'_1_concat, List.flatMap_append]
  congr 1
  simp only [List.flatMap_cons, List.flatMap_nil, List.append_nil, runPlaces]
  simp [List.range_eq_range']

theorem done_succ (W r c : Nat) : done W r (c + 1) = done W r c ++ [((c : Int), (r : Int))] := by
  unfold done
  push_cast
  rw [runPlaces_snoc (by omega), List.append_assoc]

theorem mem_done {W r c : Nat} {p : Pos} : p ∈ done W r c ↔
    0 ≤ p.1 ∧ 0 ≤ p.2 ∧ ((p.2 < r ∧ p.1 < W) ∨ (p.2 = r ∧ p.1 < c)) := by
  unfold done
  rw [List.mem_append, mem_raster, mem_runPlaces]
  push_cast
  omega

theorem done_sorted {W r c : Nat} (hc : c ≤ W) : (done W r c).Pairwise before := by
  have h := raster_sorted 0 W 0 (r + 1)
  rw [raster_succ] at h
  have e : runPlaces r 0 W = runPlaces r 0 c ++ (runPlaces r 0 W).drop c := by
    conv_lhs => rw [← List.take_append_drop c (runPlaces r 0 W)]
    congr 1
    unfold runPlaces
    rw [← List.map_take, List.take_range]
    congr 2
    omega
  rw [e, ← List.append_assoc] at h
  exact (List.pairwise_append.1 h).1

structure PixInv (lab : Pos → Nat) (comp : Nat → Nat) (W n r c : Nat) (s : Scan) : Prop where
  len : s.blobs.length = n
  blob : ∀ k b, s.blobs[k]? = some b → (b = .empty ∨ WF b) ∧
    decompress b ++ (if s.building ∧ s.index = k + 1 then runPlaces r s.start c else []) = (done W r c).filter (cls lab comp k)
  cur : s.building → 0 ≤ s.start ∧ s.start < c ∧ lab ((c : Int) - 1, r) ≠ 0 ∧ comp (lab ((c : Int) - 1, r)) = s.index

variable {lab : Pos → Nat} {comp : Nat → Nat} {W H n : Nat}

/-- Ending a run. -/
theorem close (hC : Classes lab comp W H n) {r c : Nat} {s : Scan} (hc : c ≤ W) (h : PixInv lab comp W n r c s)
    (hb : s.building = true) :
    ∃ bs, addTo s.blobs s.index s.start r (c - s.start) = .ok bs ∧
      PixInv lab comp W n r c { s with blobs := bs, building := false } := by
  obtain ⟨h1, h2, h3, h4⟩ := h.cur hb
  have hr := hC.range _ h3
  rw [h4] at hr
  have hlt : s.index - 1 < s.blobs.length := by rw [h.len]; omega
  obtain ⟨b, hbk⟩ : ∃ b, s.blobs[s.index - 1]? = some b := ⟨_, List.getElem?_eq_getElem hlt⟩
  obtain ⟨hwf, hdec⟩ := h.blob _ _ hbk
  rw [if_pos ⟨hb, by omega⟩] at hdec
  have hsort : ((done W r c).filter (cls lab comp (s.index - 1))).Pairwise before := (done_sorted hc).filter _
  have hstart : (s.start, (r : Int)) ∈ runPlaces r s.start c := by rw [mem_runPlaces]; dsimp only; omega
  have hbef : ∀ p ∈ decompress b, before p (s.start, (r : Int)) := by
    intro p hp
    rw [← hdec] at hsort
    exact (List.pairwise_append.1 hsort).2.2 p hp _ hstart
  have hmemf : ∀ p, p ∈ decompress b ∨ p ∈ runPlaces r s.start c ↔ p ∈ done W r c ∧ cls lab comp (s.index - 1) p = true := by
    intro p; rw [← List.mem_append, hdec, List.mem_filter]
  have hcont : WF b → (r : Int) ≤ b.minY + b.rows.length := by
    intro hw
    by_contra hcon
    obtain ⟨rs, t, u, v, e, et⟩ := hw.last
    have hlen : b.rows.length = rs.length + 1 := by rw [e]; simp
    have hv : v ∈ t := by rw [et]; simp
    have hvr := hw.run t (by rw [e]; simp) v hv
    have hlast : (b.minX + v.1, b.minY + rs.length) ∈ decompress b := by
      rw [mem_decompress]
      refine ⟨rs.length, by omega, v, ?_, rfl, by dsimp only; omega, by dsimp only; omega⟩
      simpa [e] using hv
    have c1 := ((hmemf _).1 (Or.inl hlast)).2
    have c2 := ((hmemf _).1 (Or.inr hstart)).2
    rw [cls_iff] at c1 c2
    obtain ⟨m, m1, m2, m3⟩ := hC.cont _ _ (b.minY + b.rows.length) c1.1 c2.1 (c1.2.trans c2.2.symm)
      (by dsimp only; omega) (by dsimp only; omega)
    have himg := hC.img m m1
    unfold inImage at himg
    have hm : m ∈ decompress b ∨ m ∈ runPlaces r s.start c := by
      rw [hmemf, mem_done, cls_iff]
      refine ⟨⟨by omega, by omega, Or.inl ⟨by omega, by omega⟩⟩, m1, by rw [m2, c1.2]⟩
    rcases hm with hm | hm
    · rw [mem_decompress] at hm
      obtain ⟨i, hi, _, _, h, _⟩ := hm
      omega
    · rw [mem_runPlaces] at hm; omega
  obtain ⟨b', ha, hd, hw⟩ := addRow_spec h1 (w := c - s.start) (by omega) hwf hbef hcont
  have e : s.start + ((c : Int) - s.start) = c := by omega
  rw [e, hdec] at hd
  refine ⟨s.blobs.set (s.index - 1) b', ?_, ?_⟩
  · unfold addTo
    rw [if_neg (by omega), hbk]
    dsimp only
    rw [ha]; rfl
  · refine ⟨by simp [h.len], ?_, by intro hf; cases hf⟩
    intro k b0 hk
    dsimp only at hk ⊢
    have hfalse : ¬ (false = true ∧ s.index = k + 1) := by simp
    rw [if_neg hfalse, List.append_nil]
    by_cases hki : s.index - 1 = k
    · subst hki
      rw [List.getElem?_set_self hlt] at hk
      cases hk
      exact ⟨Or.inr hw, hd⟩
    · rw [List.getElem?_set_ne hki] at hk
      obtain ⟨g1, g2⟩ := h.blob k b0 hk
      refine ⟨g1, ?_⟩
      rw [if_neg (by omega), List.append_nil] at g2
      exact g2

theorem pixel_step (hC : Classes lab comp W H n) {r c : Nat} {s : Scan} (hc : c < W) (h : PixInv lab comp W n r c s) :
    ∃ s', scanPixel lab comp r s c = .ok s' ∧ PixInv lab comp W n r (c + 1) s' := by
  unfold scanPixel
  have hcast : (((c + 1 : Nat) : Int) - 1) = c := by push_cast; omega
  by_cases hl : lab ((c : Int), (r : Int)) ≠ 0
  · rw [if_pos hl]
    have hcls : ∀ k, (done W r (c + 1)).filter (cls lab comp k) = (done W r c).filter (cls lab comp k) ++
        (if comp (lab ((c : Int), (r : Int))) = k + 1 then [((c : Int), (r : Int))] else []) := by
      intro k
      rw [done_succ, List.filter_append]
      congr 1
      by_cases hk : comp (lab ((c : Int), (r : Int))) = k + 1
      · rw [if_pos hk, List.filter_cons_of_pos (cls_iff.2 ⟨hl, hk⟩)]; rfl
      · rw [if_neg hk, List.filter_cons_of_neg (fun hx => hk (cls_iff.1 hx).2)]; rfl
    by_cases hb : s.building = true
    · obtain ⟨h1, h2, h3, h4⟩ := h.cur hb
      have heq : s.index = comp (lab ((c : Int), (r : Int))) := by
        rw [← h4]
        have := hC.adj ((c : Int) - 1) r h3 (by rw [show (c : Int) - 1 + 1 = c by omega]; exact hl)
        rw [show (c : Int) - 1 + 1 = c by omega] at this
        exact this
      rw [if_neg (by simp [heq]), if_neg (by simp [hb])]
      refine ⟨s, rfl, h.len, ?_, ?_⟩
      · intro k b hk
        obtain ⟨g1, g2⟩ := h.blob k b hk
        refine ⟨g1, ?_⟩
        rw [hcls, ← g2, ← heq]
        by_cases hk' : s.index = k + 1
        · rw [if_pos ⟨hb, hk'⟩, if_pos ⟨hb, hk'⟩, if_pos hk', List.append_assoc]
          push_cast
          rw [runPlaces_snoc (by omega)]
        · rw [if_neg (by tauto), if_neg (by tauto), if_neg hk']; simp
      · intro _
        rw [hcast]
        refine ⟨h1, by push_cast; omega, hl, heq.symm⟩
    · have hb' : s.building = false := by simpa using hb
      rw [if_neg (by simp [hb']), if_pos (by simp [hb'])]
      refine ⟨_, rfl, h.len, ?_, ?_⟩
      · intro k b hk
        obtain ⟨g1, g2⟩ := h.blob k b hk
        refine ⟨g1, ?_⟩
        rw [if_neg (by simp [hb'])] at g2
        rw [hcls, ← g2, List.append_nil]
        dsimp only
        congr 1
        by_cases hk' : comp (lab ((c : Int), (r : Int))) = k + 1
        · rw [if_pos ⟨rfl, hk'⟩, if_pos hk']
          push_cast
          rw [runPlaces_snoc (by omega), runPlaces_nil]; rfl
        · rw [if_neg (by tauto), if_neg hk']
      · intro _
        dsimp only
        rw [hcast]
        exact ⟨by omega, by push_cast; omega, hl, rfl⟩
  · rw [if_neg hl]
    have hcls : ∀ k, (done W r (c + 1)).filter (cls lab comp k) = (done W r c).filter (cls lab comp k) := by
      intro k
      rw [done_succ, List.filter_append, List.filter_cons_of_neg (fun hx => hl (cls_iff.1 hx).1)]
      simp
    have adv : ∀ s : Scan, s.building = false → PixInv lab comp W n r c s → PixInv lab comp W n r (c + 1) s := by
      intro s hs h
      refine ⟨h.len, ?_, by rw [hs]; intro hf; cases hf⟩
      intro k b hk
      obtain ⟨g1, g2⟩ := h.blob k b hk
      refine ⟨g1, ?_⟩
      rw [if_neg (by simp [hs])] at g2 ⊢
      rw [hcls, g2]
    by_cases hb : s.building = true
    · rw [if_pos hb]
      obtain ⟨bs, e, hi⟩ := close hC (by omega) h hb
      rw [e]
      exact ⟨_, rfl, adv _ rfl hi⟩
    · rw [if_neg hb]
      exact ⟨s, rfl, adv s (by simpa using hb) h⟩

/-- Blobs after the rows before r. -/
def RowInv (lab : Pos → Nat) (comp : Nat → Nat) (W n r : Nat) (bs : List Compressed) : Prop :=
  bs.length = n ∧ ∀ k b, bs[k]? = some b → (b = .empty ∨ WF b) ∧ decompress b = (raster 0 W 0 r).filter (cls lab comp k)

theorem row_step (hC : Classes lab comp W H n) {r : Nat} {bs : List Compressed} (h : RowInv lab comp W n r bs) :
    ∃ bs', scanRow lab comp W bs r = .ok bs' ∧ RowInv lab comp W n (r + 1) bs' := by
  have h0 : PixInv lab comp W n r 0 { blobs := bs, building := false, start := 0, index := 0 } := by
    refine ⟨h.1, ?_, by intro hf; cases hf⟩
    intro k b hk
    obtain ⟨g1, g2⟩ := h.2 k b hk
    refine ⟨g1, ?_⟩
    dsimp only
    rw [if_neg (by simp), List.append_nil, g2]
    unfold done
    simp [runPlaces]
  have key : ∀ m, m ≤ W → ∃ s, (List.range m).foldlM (scanPixel lab comp r)
      { blobs := bs, building := false, start := 0, index := 0 } = .ok s ∧ PixInv lab comp W n r m s := by
    intro m
    induction m with
    | zero => exact fun _ => ⟨_, rfl, h0⟩
    | succ m ih =>
      intro hm
      obtain ⟨s, e, hi⟩ := ih (by omega)
      obtain ⟨s', e', hi'⟩ := pixel_step hC (by omega) hi
      refine ⟨s', ?_, hi'⟩
      rw [List.range_succ, List.foldlM_append, e]
      change List.foldlM (scanPixel lab comp r) s [m] = _
      rw [List.foldlM_cons, e']; rfl
  obtain ⟨s, e, hi⟩ := key W (Nat.le_refl _)
  have fin : ∀ s : Scan, s.building = false → PixInv lab comp W n r W s → RowInv lab comp W n (r + 1) s.blobs := by
    intro s hs h
    refine ⟨h.len, fun k b hk => ?_⟩
    obtain ⟨g1, g2⟩ := h.blob k b hk
    refine ⟨g1, ?_⟩
    rw [if_neg (by simp [hs]), List.append_nil] at g2
    rw [g2, raster_succ]; rfl
  unfold scanRow
  rw [e]
  change ∃ bs', (if s.building then addTo s.blobs s.index s.start r (W - s.start) else .ok s.blobs) = Except.ok bs' ∧ _
  by_cases hb : s.building = true
  · rw [if_pos hb]
    obtain ⟨bs', e', hi'⟩ := close hC (Nat.le_refl _) hi hb
    exact ⟨bs', e', fin _ rfl hi'⟩
  · rw [if_neg hb]
    exact ⟨_, rfl, fin s (by simpa using hb) hi⟩

theorem scan_all (hC : Classes lab comp W H n) (m : Nat) :
    ∃ bs, (List.range m).foldlM (scanRow lab comp W) (List.replicate n Compressed.empty) = .ok bs ∧ RowInv lab comp W n m bs := by
  induction m with
  | zero =>
    refine ⟨_, rfl, by simp, ?_⟩
    intro k b hk
    have : b = .empty := by
      have := List.mem_of_getElem? hk
      exact (List.mem_replicate.1 this).2
    subst this
    exact ⟨Or.inl rfl, by simp [decompress, rowsPlaces, Compressed.empty, raster]⟩
  | succ m ih =>
    obtain ⟨bs, e, hi⟩ := ih
    obtain ⟨bs', e', hi'⟩ := row_step hC hi
    refine ⟨bs', ?_, hi'⟩
    rw [List.range_succ, List.foldlM_append, e]
    change List.foldlM (scanRow lab comp W) bs [m] = _
    rw [List.foldlM_cons, e']; rfl

end VW.Blob
