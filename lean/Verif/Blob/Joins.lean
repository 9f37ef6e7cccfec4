import Verif.Blob.Absorb
/-
The graph of `consolidate`: the blobs of tiles that are parts of one component are connected.
-/
namespace VW.Blob
open VW.Grassfire (Pos before)
open VW.Graph

theorem onRight_iff (lx : Int) (r : Compressed) (rows : List (List (Int × Int))) (k : Int) :
    onRight lx r rows k = true ↔ ∃ i, ∃ h : i < rows.length,
      touches lx rows[i] r (k + i) = true ∨ touches lx rows[i] r (k + i + 1) = true ∨ touches lx rows[i] r (k + i + 2) = true := by
  have tlt : ∀ row m, touches lx row r m = true → m < r.rows.length := by
    intro row m h; simp [touches] at h; omega
  induction rows generalizing k with
  | nil => simp [onRight]
  | cons row rows ih =>
    unfold onRight
    by_cases hk : k < r.rows.length
    · rw [if_pos hk]
      simp only [Bool.or_eq_true, ih]
      constructor
      · rintro (((h | h) | h) | ⟨i, hi, h⟩)
        · exact ⟨0, by simp, Or.inl (by simpa using h)⟩
        · exact ⟨0, by simp, Or.inr (Or.inl (by simpa using h))⟩
        · exact ⟨0, by simp, Or.inr (Or.inr (by simpa using h))⟩
        · refine ⟨i + 1, by simpa using hi, ?_⟩
          rw [show k + ((i + 1 : Nat) : Int) = k + 1 + i by push_cast; omega]
          simpa using h
      · rintro ⟨i, hi, h⟩
        cases i with
        | zero => left; simp at h; tauto
        | succ i =>
          right
          refine ⟨i, by simpa using hi, ?_⟩
          rw [show k + ((i + 1 : Nat) : Int) = k + 1 + i by push_cast; omega] at h
          simpa using h
    · rw [if_neg hk]
      constructor
      · intro h; cases h
      · rintro ⟨i, hi, h⟩
        rcases h with h | h | h <;> have := tlt _ _ h <;> omega

/-- What `touches` means for ordered rows. -/
theorem touches_iff {l r : Compressed} (hl : WF l) (ol : Ordered l) (hr : WF r) (or : Ordered r) {i : Nat} (hi : i < l.rows.length) (k : Int) :
    touches l.minX l.rows[i] r k = true ↔ 0 ≤ k ∧ ∃ hk : k.toNat < r.rows.length, ∃ e ∈ l.rows[i], ∃ s ∈ r.rows[k.toNat],
      (∀ u ∈ l.rows[i], u.2 ≤ e.2) ∧ (∀ u ∈ r.rows[k.toNat], s.1 ≤ u.1) ∧ e.2 + l.minX = s.1 + r.minX := by
  have hrow := List.getElem_mem hi
  obtain ⟨f, e, ef, ee, hf, he, hall⟩ := row_ends (ol _ hrow) (fun s hs => (hl.run _ hrow s hs).2) (hl.row _ hrow)
  unfold touches
  constructor
  · intro h
    simp only [Bool.and_eq_true, decide_eq_true_eq] at h
    obtain ⟨⟨h1, h2⟩, h3⟩ := h
    have hk : k.toNat < r.rows.length := by omega
    have hrow' := List.getElem_mem hk
    obtain ⟨f', e', ef', ee', hf', he', hall'⟩ := row_ends (or _ hrow') (fun s hs => (hr.run _ hrow' s hs).2) (hr.row _ hrow')
    rw [ee, List.getD_eq_getElem?_getD, List.getElem?_eq_getElem hk] at h3
    simp only [Option.getD_some, ef'] at h3
    exact ⟨h1, hk, e, he, f', hf', fun u hu => (hall u hu).2, fun u hu => (hall' u hu).1, by simpa using h3⟩
  · rintro ⟨h1, hk, e2, he2, s, hs, g1, g2, g3⟩
    have hrow' := List.getElem_mem hk
    obtain ⟨f', e', ef', ee', hf', he', hall'⟩ := row_ends (or _ hrow') (fun s hs => (hr.run _ hrow' s hs).2) (hr.row _ hrow')
    have a1 := (hall e2 he2).2
    have a2 := g1 e he
    have a3 := (hall' s hs).1
    have a4 := g2 f' hf'
    rw [ee, List.getD_eq_getElem?_getD, List.getElem?_eq_getElem hk]
    simp only [Option.getD_some, ef', Bool.and_eq_true, decide_eq_true_eq, beq_iff_eq]
    omega

/-- `is_on_right` is only true of blobs with pixels side by side. -/
theorem isOnRight_sound {l r : Compressed} (hl : WF l) (ol : Ordered l) (hr : WF r) (or : Ordered r) (h : isOnRight l r = true) :
    ∃ p ∈ decompress l, ∃ q ∈ decompress r, near p q := by
  unfold isOnRight at h
  rw [onRight_iff] at h
  obtain ⟨i, hi, h⟩ := h
  have : ∃ k : Int, (k - (l.minY - r.minY - 1 + i) = 0 ∨ k - (l.minY - r.minY - 1 + i) = 1 ∨ k - (l.minY - r.minY - 1 + i) = 2) ∧
      touches l.minX l.rows[i] r k = true := by
    rcases h with h | h | h
    · exact ⟨_, Or.inl (by omega), h⟩
    · exact ⟨_, Or.inr (Or.inl (by omega)), h⟩
    · exact ⟨_, Or.inr (Or.inr (by omega)), h⟩
  obtain ⟨k, hk, ht⟩ := this
  rw [touches_iff hl ol hr or hi] at ht
  obtain ⟨h0, hk', e, he, s, hs, _, _, g⟩ := ht
  have a1 := hl.run _ (List.getElem_mem hi) e he
  have a2 := hr.run _ (List.getElem_mem hk') s hs
  refine ⟨(l.minX + e.2 - 1, l.minY + i), ?_, (r.minX + s.1, r.minY + (k.toNat : Int)), ?_, ?_⟩
  · rw [mem_decompress]; exact ⟨i, hi, e, he, rfl, by dsimp only; omega, by dsimp only; omega⟩
  · rw [mem_decompress]; exact ⟨_, hk', s, hs, rfl, by dsimp only; omega, by dsimp only; omega⟩
  · unfold near; dsimp only; omega

/-- And it is true when pixels on both sides of a line touch. -/
theorem isOnRight_complete {l r : Compressed} (hl : WF l) (ol : Ordered l) (hr : WF r) (or : Ordered r) (X : Int)
    (h1 : ∀ p ∈ decompress l, p.1 < X) (h2 : ∀ p ∈ decompress r, X ≤ p.1) {p q : Pos} (hp : p ∈ decompress l) (hq : q ∈ decompress r)
    (hn : near p q) : isOnRight l r = true := by
  have hpX := h1 p hp
  have hqX := h2 q hq
  unfold near at hn
  rw [mem_decompress] at hp hq
  obtain ⟨i, hi, s, hs, p1, p2, p3⟩ := hp
  obtain ⟨k, hk, t, ht, q1, q2, q3⟩ := hq
  have hrow := List.getElem_mem hi
  have hrow' := List.getElem_mem hk
  obtain ⟨f, e, ef, ee, hf, he, hall⟩ := row_ends (ol _ hrow) (fun s hs => (hl.run _ hrow s hs).2) (hl.row _ hrow)
  obtain ⟨f', e', ef', ee', hf', he', hall'⟩ := row_ends (or _ hrow') (fun s hs => (hr.run _ hrow' s hs).2) (hr.row _ hrow')
  have a1 := (hall s hs).2
  have a2 := (hall' t ht).1
  have r1 := hl.run _ hrow e he
  have r2 := hr.run _ hrow' f' hf'
  have b1 := h1 (l.minX + e.2 - 1, l.minY + i) (by rw [mem_decompress]; exact ⟨i, hi, e, he, rfl, by dsimp only; omega, by dsimp only; omega⟩)
  have b2 := h2 (r.minX + f'.1, r.minY + k) (by rw [mem_decompress]; exact ⟨k, hk, f', hf', rfl, by dsimp only; omega, by dsimp only; omega⟩)
  dsimp only at b1 b2
  have ht : touches l.minX l.rows[i] r (k : Int) = true := by
    rw [touches_iff hl ol hr or hi]
    refine ⟨by omega, by simpa using hk, e, he, f', by simpa using hf', fun u hu => (hall u hu).2, ?_, by omega⟩
    intro u hu
    exact (hall' u (by simpa using hu)).1
  unfold isOnRight
  rw [onRight_iff]
  refine ⟨i, hi, ?_⟩
  have : (k : Int) = l.minY - r.minY - 1 + i ∨ (k : Int) = l.minY - r.minY - 1 + i + 1 ∨ (k : Int) = l.minY - r.minY - 1 + i + 2 := by omega
  rcases this with e | e | e <;> rw [← e] <;> tauto

theorem isOnBottom_sound {u d : Compressed} (hu : WF u) (hd : WF d) (h : isOnBottom u d = true) :
    ∃ p ∈ decompress u, ∃ q ∈ decompress d, near p q := by
  unfold isOnBottom at h
  by_cases hc : d.minY ≠ u.minY + u.rows.length
  · rw [if_pos hc] at h; cases h
  · rw [if_neg hc] at h
    have hlu : 0 < u.rows.length := List.length_pos_iff.2 hu.rows
    have hld : 0 < d.rows.length := List.length_pos_iff.2 hd.rows
    rw [List.getLast?_eq_getElem?, List.getElem?_eq_getElem (by omega), List.head?_eq_getElem?, List.getElem?_eq_getElem hld] at h
    simp only [Option.getD_some, List.any_eq_true, Bool.and_eq_true, decide_eq_true_eq] at h
    obtain ⟨t, ht, s, hs, g1, g2⟩ := h
    have rt := hu.run _ (List.getElem_mem _) t ht
    have rs := hd.run _ (List.getElem_mem _) s hs
    have mu : ∀ x, t.1 + u.minX ≤ x → x < t.2 + u.minX → (x, u.minY + ((u.rows.length - 1 : Nat) : Int)) ∈ decompress u := by
      intro x h1 h2
      rw [mem_decompress]
      exact ⟨u.rows.length - 1, by omega, t, ht, rfl, by dsimp only; omega, by dsimp only; omega⟩
    have md : ∀ x, s.1 + d.minX ≤ x → x < s.2 + d.minX → (x, d.minY + ((0 : Nat) : Int)) ∈ decompress d := by
      intro x h1 h2
      rw [mem_decompress]
      exact ⟨0, hld, s, hs, rfl, by dsimp only; omega, by dsimp only; omega⟩
    by_cases c1 : t.2 + u.minX - 1 < s.1 + d.minX
    · refine ⟨_, mu (t.2 + u.minX - 1) (by omega) (by omega), _, md (s.1 + d.minX) (by omega) (by omega), ?_⟩
      unfold near; dsimp only; omega
    · by_cases c2 : s.2 + d.minX - 1 < t.1 + u.minX
      · refine ⟨_, mu (t.1 + u.minX) (by omega) (by omega), _, md (s.2 + d.minX - 1) (by omega) (by omega), ?_⟩
        unfold near; dsimp only; omega
      · refine ⟨_, mu (max (t.1 + u.minX) (s.1 + d.minX)) (by omega) (by omega), _, md (max (t.1 + u.minX) (s.1 + d.minX)) (by omega) (by omega), ?_⟩
        unfold near; dsimp only; omega

theorem isOnBottom_complete {u d : Compressed} (Y : Int) (hY1 : u.minY + u.rows.length ≤ Y) (hY2 : Y ≤ d.minY)
    {p q : Pos} (hp : p ∈ decompress u) (hq : q ∈ decompress d) (hn : near p q) : isOnBottom u d = true := by
  unfold near at hn
  rw [mem_decompress] at hp hq
  obtain ⟨i, hi, s, hs, p1, p2, p3⟩ := hp
  obtain ⟨k, hk, t, ht, q1, q2, q3⟩ := hq
  have ei : i = u.rows.length - 1 := by omega
  have ek : k = 0 := by omega
  subst ei; subst ek
  unfold isOnBottom
  rw [if_neg (by omega), List.getLast?_eq_getElem?, List.getElem?_eq_getElem (by omega), List.head?_eq_getElem?, List.getElem?_eq_getElem hk]
  simp only [Option.getD_some, List.any_eq_true, Bool.and_eq_true, decide_eq_true_eq]
  exact ⟨s, hs, t, ht, by omega, by omega⟩

/-! ### The parts -/

/-- Blobs of tiles of size t. -/
structure Parts (V : Pos → Prop) (W H t : Nat) (bs : List Compressed) : Prop where
  wf : ∀ b ∈ bs, WF b
  ord : ∀ b ∈ bs, Ordered b
  cover : ∀ p, V p ↔ ∃ b ∈ bs, p ∈ decompress b
  link : ∀ b ∈ bs, ∀ p ∈ decompress b, ∀ q ∈ decompress b, Linked V p q
  cell : ∀ b ∈ bs, ∀ p ∈ decompress b, ∀ q ∈ decompress b, p.1 / (t : Int) = q.1 / t ∧ p.2 / (t : Int) = q.2 / t
  diff : ∀ i j (hi : i < bs.length) (hj : j < bs.length), i ≠ j → ∀ p ∈ decompress bs[i], ∀ q ∈ decompress bs[j],
    p ≠ q ∧ (near p q → ¬ (p.1 / (t : Int) = q.1 / t ∧ p.2 / (t : Int) = q.2 / t))
  img : ∀ p, V p → 0 ≤ p.1 ∧ p.1 < W ∧ 0 ≤ p.2 ∧ p.2 < H

theorem mem_divisions {size t : Nat} (ht : 0 < t) {a : Int} (ha : 0 < a) (h : t * a < size) : (t : Int) * a ∈ divisions size t := by
  unfold divisions
  rw [List.mem_map]
  obtain ⟨m, rfl⟩ : ∃ m : Nat, a = (m : Int) + 1 := ⟨(a - 1).toNat, by omega⟩
  refine ⟨m, ?_, rfl⟩
  rw [List.mem_range]
  have h' : t * (m + 1) < size := by exact_mod_cast h
  have : m + 2 ≤ (size + t - 1) / t := by
    rw [Nat.le_div_iff_mul_le ht]
    have e : (m + 2) * t = t * (m + 1) + t := by
      rw [Nat.add_mul, Nat.mul_add, Nat.mul_comm m t]; omega
    omega
  omega

theorem box_spec {b : Compressed} (h : WF b) :
    (∀ p ∈ decompress b, (boxOf b).x0 ≤ p.1 ∧ p.1 < (boxOf b).x1 ∧ (boxOf b).y0 ≤ p.2 ∧ p.2 < (boxOf b).y1) ∧
    (∃ p ∈ decompress b, p.1 = (boxOf b).x0) ∧ (∃ p ∈ decompress b, p.1 = (boxOf b).x1 - 1) ∧
    (∃ p ∈ decompress b, p.2 = (boxOf b).y0) ∧ (∃ p ∈ decompress b, p.2 = (boxOf b).y1 - 1) ∧
    (boxOf b).y0 = b.minY ∧ (boxOf b).y1 = b.minY + b.rows.length := by
  obtain ⟨h1, h2, h3, h4, h5⟩ := boundingBox_spec b h _ _ _ _ rfl
  exact ⟨h1, h2, h3, h4, h5, rfl, rfl⟩

variable {V : Pos → Prop} {W H t : Nat} {bs : List Compressed}

theorem getD_get {i : Nat} (hi : i < bs.length) : bs.getD i .empty = bs[i] := by
  rw [List.getD_eq_getElem?_getD, List.getElem?_eq_getElem hi]; rfl

/-- Edges join blobs with pixels side by side (or are the last, which joins a blob to itself). -/
theorem joins_sound (hP : Parts V W H t bs) {i j : Nat} (h : (i, j) ∈ joins bs W H t) :
    i = j ∨ ∃ hi : i < bs.length, ∃ hj : j < bs.length, ∃ p ∈ decompress bs[i], ∃ q ∈ decompress bs[j], near p q := by
  unfold joins at h
  rcases List.mem_cons.1 h with h | h
  · simp only [Prod.mk.injEq] at h
    left; omega
  · right
    rcases List.mem_append.1 h with h | h
    · obtain ⟨x, _, h⟩ := List.mem_flatMap.1 h
      unfold xEdges at h
      obtain ⟨l, hl, h⟩ := List.mem_flatMap.1 h
      obtain ⟨r, hr, h⟩ := List.mem_map.1 h
      rw [List.mem_filter, List.mem_range] at hl
      rw [List.mem_filter, List.mem_filter, List.mem_range] at hr
      simp only [Prod.mk.injEq] at h
      obtain ⟨rfl, rfl⟩ := h
      have hon := hr.2
      simp only [Bool.and_eq_true] at hon
      have hon := hon.2
      rw [getD_get hl.1, getD_get hr.1.1] at hon
      exact ⟨hl.1, hr.1.1, isOnRight_sound (hP.wf _ (List.getElem_mem _)) (hP.ord _ (List.getElem_mem _))
        (hP.wf _ (List.getElem_mem _)) (hP.ord _ (List.getElem_mem _)) hon⟩
    · obtain ⟨x, _, h⟩ := List.mem_flatMap.1 h
      unfold yEdges at h
      obtain ⟨l, hl, h⟩ := List.mem_flatMap.1 h
      obtain ⟨r, hr, h⟩ := List.mem_map.1 h
      rw [List.mem_filter, List.mem_range] at hl
      rw [List.mem_filter, List.mem_filter, List.mem_range] at hr
      simp only [Prod.mk.injEq] at h
      obtain ⟨rfl, rfl⟩ := h
      have hon := hr.2
      simp only [Bool.and_eq_true] at hon
      have hon := hon.2
      rw [getD_get hl.1, getD_get hr.1.1] at hon
      exact ⟨hl.1, hr.1.1, isOnBottom_sound (hP.wf _ (List.getElem_mem _)) (hP.wf _ (List.getElem_mem _)) hon⟩

theorem cell_step {t : Nat} (ht : 0 < t) {a c : Int} (h : a / (t : Int) ≠ c / t) (hac : c = a + 1) : c = t * (c / t) := by
  have ht' : (0 : Int) < t := by omega
  have h1 := Int.mul_ediv_add_emod c t
  have h2 := Int.mul_ediv_add_emod a t
  have h3 := Int.emod_nonneg c (by omega : (t : Int) ≠ 0)
  have h5 := Int.emod_nonneg a (by omega : (t : Int) ≠ 0)
  have h6 := Int.emod_lt_of_pos a ht'
  have h4 := Int.emod_lt_of_pos c ht'
  by_contra hne
  apply h
  have hpos : 1 ≤ c % (t : Int) := by omega
  have : a = t * (c / t) + (c % t - 1) := by omega
  have e2 : a / (t : Int) = c / t := by
    generalize hk : c / (t : Int) = k at *
    generalize hm : c % (t : Int) = m at *
    subst this
    rw [Int.mul_add_ediv_left _ _ (by omega : (t : Int) ≠ 0), Int.ediv_eq_zero_of_lt (by omega) (by omega)]
    omega
  exact e2

theorem joins_x (hP : Parts V W H t bs) (ht : 0 < t) {i j : Nat} (hi : i < bs.length) (hj : j < bs.length)
    {p q : Pos} (hp : p ∈ decompress bs[i]) (hq : q ∈ decompress bs[j]) (hn : near p q) (hx : q.1 = p.1 + 1)
    (hc : p.1 / (t : Int) ≠ q.1 / t) : (i, j) ∈ joins bs W H t := by
  have hX := cell_step ht hc hx
  have ht' : (0 : Int) < t := by omega
  have vp := hP.img p ((hP.cover p).2 ⟨_, List.getElem_mem hi, hp⟩)
  have vq := hP.img q ((hP.cover q).2 ⟨_, List.getElem_mem hj, hq⟩)
  have wi := hP.wf _ (List.getElem_mem hi)
  have wj := hP.wf _ (List.getElem_mem hj)
  have left : ∀ p' ∈ decompress bs[i], p'.1 < q.1 := by
    intro p' hp'
    have e := (hP.cell _ (List.getElem_mem hi) p hp p' hp').1
    by_contra hcon
    have h1 : q.1 / (t : Int) ≤ p'.1 / t := Int.ediv_le_ediv ht' (by omega)
    have h2 : p.1 / (t : Int) ≤ q.1 / t := Int.ediv_le_ediv ht' (by omega)
    omega
  have right : ∀ q' ∈ decompress bs[j], q.1 ≤ q'.1 := by
    intro q' hq'
    have e := (hP.cell _ (List.getElem_mem hj) q hq q' hq').1
    have h1 := Int.mul_ediv_add_emod q'.1 t
    have h3 := Int.emod_nonneg q'.1 (by omega : (t : Int) ≠ 0)
    rw [← e] at h1
    omega
  obtain ⟨b1, b2, b3, b4, b5, _⟩ := box_spec wi
  obtain ⟨c1, c2, c3, c4, c5, _⟩ := box_spec wj
  have e1 : (boxOf bs[i]).x1 = q.1 := by
    obtain ⟨p', hp', e⟩ := b3
    have := left p' hp'
    have := b1 p hp
    omega
  have e2 : (boxOf bs[j]).x0 = q.1 := by
    obtain ⟨q', hq', e⟩ := c2
    have := right q' hq'
    have := c1 q hq
    omega
  have e3 : (boxOf bs[j]).x1 ≠ q.1 := by have := c1 q hq; omega
  unfold joins
  apply List.mem_cons_of_mem
  apply List.mem_append_left
  rw [List.mem_flatMap]
  refine ⟨q.1, ?_, ?_⟩
  · rw [hX]
    apply mem_divisions ht
    · by_contra hcon
      have : (t : Int) * (q.1 / t) ≤ 0 := Int.mul_nonpos_of_nonneg_of_nonpos (by omega) (by omega)
      omega
    · omega
  · unfold xEdges
    dsimp only
    rw [List.mem_flatMap]
    refine ⟨i, ?_, ?_⟩
    · rw [List.mem_filter, List.mem_range, getD_get hi]
      exact ⟨hi, by simpa using e1⟩
    · rw [List.mem_map]
      refine ⟨j, ?_, rfl⟩
      rw [List.mem_filter, List.mem_filter, List.mem_range]
      simp only [getD_get hi, getD_get hj]
      have f1 := b1 p hp
      have f2 := c1 q hq
      unfold near at hn
      refine ⟨⟨hj, by simp [e2, e3]⟩, ?_⟩
      simp only [Bool.and_eq_true, decide_eq_true_eq]
      exact ⟨⟨by omega, by omega⟩, isOnRight_complete wi (hP.ord _ (List.getElem_mem _)) wj (hP.ord _ (List.getElem_mem _)) q.1
        left right hp hq hn⟩

theorem joins_y (hP : Parts V W H t bs) (ht : 0 < t) {i j : Nat} (hi : i < bs.length) (hj : j < bs.length)
    {p q : Pos} (hp : p ∈ decompress bs[i]) (hq : q ∈ decompress bs[j]) (hn : near p q) (hy : q.2 = p.2 + 1)
    (hc : p.2 / (t : Int) ≠ q.2 / t) : (i, j) ∈ joins bs W H t := by
  have hY := cell_step ht hc hy
  have ht' : (0 : Int) < t := by omega
  have vp := hP.img p ((hP.cover p).2 ⟨_, List.getElem_mem hi, hp⟩)
  have vq := hP.img q ((hP.cover q).2 ⟨_, List.getElem_mem hj, hq⟩)
  have wi := hP.wf _ (List.getElem_mem hi)
  have wj := hP.wf _ (List.getElem_mem hj)
  have up : ∀ p' ∈ decompress bs[i], p'.2 < q.2 := by
    intro p' hp'
    have e := (hP.cell _ (List.getElem_mem hi) p hp p' hp').2
    by_contra hcon
    have h1 : q.2 / (t : Int) ≤ p'.2 / t := Int.ediv_le_ediv ht' (by omega)
    have h2 : p.2 / (t : Int) ≤ q.2 / t := Int.ediv_le_ediv ht' (by omega)
    omega
  have down : ∀ q' ∈ decompress bs[j], q.2 ≤ q'.2 := by
    intro q' hq'
    have e := (hP.cell _ (List.getElem_mem hj) q hq q' hq').2
    have h1 := Int.mul_ediv_add_emod q'.2 t
    have h3 := Int.emod_nonneg q'.2 (by omega : (t : Int) ≠ 0)
    rw [← e] at h1
    omega
  obtain ⟨b1, b2, b3, b4, b5, b6, b7⟩ := box_spec wi
  obtain ⟨c1, c2, c3, c4, c5, c6, c7⟩ := box_spec wj
  have e1 : (boxOf bs[i]).y1 = q.2 := by
    obtain ⟨p', hp', e⟩ := b5
    have := up p' hp'
    have := b1 p hp
    omega
  have e2 : (boxOf bs[j]).y0 = q.2 := by
    obtain ⟨q', hq', e⟩ := c4
    have := down q' hq'
    have := c1 q hq
    omega
  have e3 : (boxOf bs[j]).y1 ≠ q.2 := by have := c1 q hq; omega
  unfold joins
  apply List.mem_cons_of_mem
  apply List.mem_append_right
  rw [List.mem_flatMap]
  refine ⟨q.2, ?_, ?_⟩
  · rw [hY]
    apply mem_divisions ht
    · by_contra hcon
      have : (t : Int) * (q.2 / t) ≤ 0 := Int.mul_nonpos_of_nonneg_of_nonpos (by omega) (by omega)
      omega
    · omega
  · unfold yEdges
    dsimp only
    rw [List.mem_flatMap]
    refine ⟨i, ?_, ?_⟩
    · rw [List.mem_filter, List.mem_range, getD_get hi]
      exact ⟨hi, by simpa using e1⟩
    · rw [List.mem_map]
      refine ⟨j, ?_, rfl⟩
      rw [List.mem_filter, List.mem_filter, List.mem_range]
      simp only [getD_get hi, getD_get hj]
      have f1 := b1 p hp
      have f2 := c1 q hq
      have hn' := hn
      unfold near at hn'
      refine ⟨⟨hj, by simp [e2, e3]⟩, ?_⟩
      simp only [Bool.and_eq_true, decide_eq_true_eq]
      exact ⟨⟨by omega, by omega⟩, isOnBottom_complete q.2 (by omega) (by omega) hp hq hn⟩

/-- Blobs with pixels side by side are joined. -/
theorem joins_complete (hP : Parts V W H t bs) (ht : 0 < t) {i j : Nat} (hi : i < bs.length) (hj : j < bs.length)
    {p q : Pos} (hp : p ∈ decompress bs[i]) (hq : q ∈ decompress bs[j]) (hn : near p q) : Conn (joins bs W H t) i j := by
  by_cases hij : i = j
  · subst hij; exact .refl _ _
  · have hd := (hP.diff i j hi hj hij p hp q hq).2 hn
    by_cases hx : p.1 / (t : Int) = q.1 / t
    · have hy : p.2 / (t : Int) ≠ q.2 / t := fun e => hd ⟨hx, e⟩
      have hne : p.2 ≠ q.2 := by intro e; rw [e] at hy; exact hy rfl
      have hn' := hn
      unfold near at hn'
      by_cases hlt : p.2 < q.2
      · exact .of_mem (joins_y hP ht hi hj hp hq hn (by omega) hy)
      · exact (Conn.of_mem (joins_y hP ht hj hi hq hp (near_symm hn) (by omega) (Ne.symm hy))).symm
    · have hne : p.1 ≠ q.1 := by intro e; rw [e] at hx; exact hx rfl
      have hn' := hn
      unfold near at hn'
      by_cases hlt : p.1 < q.1
      · exact .of_mem (joins_x hP ht hi hj hp hq hn (by omega) hx)
      · exact (Conn.of_mem (joins_x hP ht hj hi hq hp (near_symm hn) (by omega) (Ne.symm hx))).symm

/-- Blobs are connected iff their pixels are linked. -/
theorem joins_conn (hP : Parts V W H t bs) (ht : 0 < t) {i j : Nat} (hi : i < bs.length) (hj : j < bs.length)
    {p q : Pos} (hp : p ∈ decompress bs[i]) (hq : q ∈ decompress bs[j]) : Conn (joins bs W H t) i j ↔ Linked V p q := by
  have vof : ∀ {k : Nat} (hk : k < bs.length) {r : Pos}, r ∈ decompress bs[k] → V r :=
    fun {_} hk {r} hr => (hP.cover r).2 ⟨_, List.getElem_mem hk, hr⟩
  constructor
  · intro g
    have key : ∀ x y, Conn (joins bs W H t) x y → x = y ∨ ∃ hx : x < bs.length, ∃ hy : y < bs.length,
        ∃ p ∈ decompress bs[x], ∃ q ∈ decompress bs[y], Linked V p q := by
      intro x y g
      induction g with
      | rel x y k =>
        rcases joins_sound hP k with e | ⟨hx, hy, p, hp, q, hq, hn⟩
        · exact Or.inl e
        · exact Or.inr ⟨hx, hy, p, hp, q, hq, Linked.single (vof hx hp) (vof hy hq) hn⟩
      | refl x => exact Or.inl rfl
      | symm x y _ ih =>
        rcases ih with e | ⟨hx, hy, p, hp, q, hq, hl⟩
        · exact Or.inl e.symm
        · exact Or.inr ⟨hy, hx, q, hq, p, hp, hl.symm⟩
      | trans x y z _ _ ih1 ih2 =>
        rcases ih1 with rfl | ⟨hx, hy, p, hp, q, hq, hl⟩
        · exact ih2
        · rcases ih2 with rfl | ⟨hy', hz, p', hp', q', hq', hl'⟩
          · exact Or.inr ⟨hx, hy, p, hp, q, hq, hl⟩
          · exact Or.inr ⟨hx, hz, p, hp, q', hq', (hl.trans (hP.link _ (List.getElem_mem hy) q hq p' hp')).trans hl'⟩
    rcases key i j g with rfl | ⟨_, _, p', hp', q', hq', hl⟩
    · exact hP.link _ (List.getElem_mem hi) p hp q hq
    · exact ((hP.link _ (List.getElem_mem hi) p hp p' hp').trans hl).trans (hP.link _ (List.getElem_mem hj) q' hq' q hq)
  · intro g
    induction g generalizing j with
    | refl _ =>
      by_cases hij : i = j
      · subst hij; exact .refl _ _
      · exact absurd rfl (hP.diff i j hi hj hij p hp p hq).1
    | step hpq hr hn ih =>
      rename_i q r
      obtain ⟨b, hb, hqb⟩ := (hP.cover q).1 hpq.right
      obtain ⟨k, hk, rfl⟩ := List.getElem_of_mem hb
      exact (ih hk hqb).trans (joins_complete hP ht hk hj hqb hq hn)

end VW.Blob
