import Verif.Stereo.SGM
import Mathlib.Data.List.Nodup

/-! One step along a path of semi-global matching: what `evaluate_path` computes. -/

namespace VW.SGM

/-! ### Specification -/

/-- The cost of a disparity in a packed vector of costs of a pixel with the given search range. -/
def costOf (b : Range) (v : List Nat) (d : Pt) : Nat := v.getD (b.disps.idxOf d) 0

/-- A disparity lies in a search range. -/
def Range.has (b : Range) (d : Pt) : Prop := b.x0 ≤ d.1 ∧ d.1 ≤ b.x1 ∧ b.y0 ≤ d.2 ∧ d.2 ≤ b.y1

instance (b : Range) (d : Pt) : Decidable (b.has d) := by unfold Range.has; infer_instance

/-- Two disparities are equal or differ by one, in columns or rows or both. -/
def close (a b : Pt) : Prop := (a.1 - b.1).natAbs ≤ 1 ∧ (a.2 - b.2).natAbs ≤ 1

instance (a b : Pt) : Decidable (close a b) := by unfold close; infer_instance

/-- The penalty of a change of disparity from one pixel to the next. -/
def penalty (p1 jump : Nat) (a b : Pt) : Nat := if a = b then 0 else if close a b then p1 else jump

/-- The search range of a pixel lies in the search range of the whole image. -/
def Range.inside (b : Range) (P : Params) : Prop := ∀ d, b.has d → P.minX ≤ d.1 ∧ d.1 ≤ P.maxX ∧ P.minY ≤ d.2 ∧ d.2 ≤ P.maxY

/-- The penalties are in order and small enough for `uint16`. -/
def Params.ok (P : Params) : Prop := P.p1 ≤ P.p2 ∧ 2 * P.p2 + 510 < 65536

/-! ### Lists -/

theorem getElem?_flatMap_const {α β : Type} (f : α → List β) (m : Nat) (l : List α) (hf : ∀ x ∈ l, (f x).length = m) (j i : Nat) (hi : i < m) :
    (l.flatMap f)[j * m + i]? = l[j]?.bind fun x => (f x)[i]? := by
  induction l generalizing j with
  | nil => simp
  | cons x l ih =>
    have hx : (f x).length = m := hf x (by simp)
    rw [List.flatMap_cons]
    cases j with
    | zero =>
      rw [List.getElem?_append_left (by simp [hx]; omega)]
      simp
    | succ j =>
      rw [List.getElem?_append_right (by rw [hx, Nat.succ_mul]; omega), hx]
      have : (j + 1) * m + i - m = j * m + i := by rw [Nat.succ_mul]; omega
      rw [this, ih (fun y hy => hf y (by simp [hy])) j]
      simp

theorem mem_disps (b : Range) (d : Pt) : d ∈ b.disps ↔ b.has d := by
  unfold Range.disps Range.has Range.height Range.width
  simp only [List.mem_flatMap, List.mem_map, List.mem_range]
  constructor
  · rintro ⟨j, hj, i, hi, rfl⟩
    dsimp only
    omega
  · rintro ⟨h1, h2, h3, h4⟩
    refine ⟨(d.2 - b.y0).toNat, by omega, (d.1 - b.x0).toNat, by omega, ?_⟩
    ext <;> dsimp only <;> omega

theorem disps_nodup (b : Range) : b.disps.Nodup := by
  unfold Range.disps
  rw [List.nodup_flatMap]
  constructor
  · intro j _
    refine List.Nodup.map ?_ List.nodup_range
    intro a c h
    simp only [Prod.mk.injEq] at h
    omega
  · refine List.Pairwise.imp_of_mem ?_ List.nodup_range
    intro a c _ _ hac x hx hy
    simp only [List.mem_map] at hx hy
    obtain ⟨i, _, rfl⟩ := hx
    obtain ⟨i', _, h⟩ := hy
    simp only [Prod.mk.injEq] at h
    omega

theorem fulls_eq (P : Params) (b : Range) : b.fulls P = b.disps.map fun d => P.disp d.1 d.2 := by
  unfold Range.fulls Range.disps
  rw [List.map_flatMap]
  congr 1
  funext j
  rw [List.map_map]
  congr 1
  funext i
  simp only [Function.comp, Params.disp]
  omega

/-- Disparities of the whole search range have different places in the buffer. -/
theorem disp_inj (P : Params) {a b : Pt} (ha : P.minX ≤ a.1 ∧ a.1 ≤ P.maxX) (hb : P.minX ≤ b.1 ∧ b.1 ≤ P.maxX)
    (h : P.disp a.1 a.2 = P.disp b.1 b.2) : a = b := by
  unfold Params.disp at h
  have hn : P.numX = P.maxX - P.minX + 1 := rfl
  have key : (a.2 - b.2) * P.numX = b.1 - a.1 := by
    have : (a.2 - b.2) * P.numX = (a.2 - P.minY) * P.numX - (b.2 - P.minY) * P.numX := by
      rw [← Int.sub_mul]; congr 1; omega
    omega
  have h2 : a.2 = b.2 := by
    rcases Int.lt_trichotomy a.2 b.2 with hlt | heq | hgt
    · have : (a.2 - b.2) * P.numX ≤ (-1) * P.numX := Int.mul_le_mul_of_nonneg_right (by omega) (by omega)
      omega
    · exact heq
    · have : 1 * P.numX ≤ (a.2 - b.2) * P.numX := Int.mul_le_mul_of_nonneg_right (by omega) (by omega)
      omega
  rw [h2] at key
  ext
  · simp at key; omega
  · exact h2

theorem costOf_getElem (b : Range) (v : List Nat) (i : Nat) (hi : i < b.disps.length) : costOf b v b.disps[i] = at' v i := by
  unfold costOf at'
  rw [(disps_nodup b).idxOf_getElem i hi]

/-! ### Putting the previous costs into the buffer -/

theorem insert_fold (prior : List Nat) (L : List Int) (hn : L.Nodup) (buf : Buf) (bad : Nat) :
    let st := L.zipIdx.foldl
      (fun (st : Buf × Nat) (e : Int × Nat) => (st.1.set e.1 (at' prior e.2), if at' prior e.2 < st.2 then at' prior e.2 else st.2)) (buf, bad)
    (∀ i (hi : i < L.length), st.1 L[i] = at' prior i) ∧ (∀ a, a ∉ L → st.1 a = buf a) ∧
      st.2 ≤ bad ∧ (∀ i, i < L.length → st.2 ≤ at' prior i) ∧ (st.2 = bad ∨ ∃ i, i < L.length ∧ st.2 = at' prior i) := by
  induction L using List.reverseRecOn with
  | nil => simp
  | append_singleton L x ih =>
    have hn' := hn
    rw [List.nodup_append] at hn
    obtain ⟨hL, _, hx⟩ := hn
    have hx : x ∉ L := fun h => hx x h x (by simp) rfl
    obtain ⟨i1, i2, i3, i4, i5⟩ := ih hL
    rw [List.zipIdx_append, List.foldl_append]
    simp only [List.zipIdx_cons, List.zipIdx_nil, List.foldl_cons, List.foldl_nil, Nat.zero_add]
    set st := L.zipIdx.foldl
      (fun (st : Buf × Nat) (e : Int × Nat) => (st.1.set e.1 (at' prior e.2), if at' prior e.2 < st.2 then at' prior e.2 else st.2)) (buf, bad)
    refine ⟨?_, ?_, ?_, ?_, ?_⟩
    · intro i hi
      rw [List.length_append, List.length_singleton] at hi
      by_cases h : i < L.length
      · rw [List.getElem_append_left h]
        have : L[i] ≠ x := fun e => hx (e ▸ List.getElem_mem h)
        unfold Buf.set
        rw [if_neg this]
        exact i1 i h
      · have : i = L.length := by omega
        subst this
        simp [Buf.set]
    · intro a ha
      rw [List.mem_append, List.mem_singleton] at ha
      have : a ≠ x := fun e => ha (Or.inr e)
      unfold Buf.set
      rw [if_neg this]
      exact i2 a (fun h => ha (Or.inl h))
    · split <;> omega
    · intro i hi
      rw [List.length_append, List.length_singleton] at hi
      by_cases h : i < L.length
      · have := i4 i h
        split <;> omega
      · have : i = L.length := by omega
        subst this
        split <;> omega
    · split
      · exact Or.inr ⟨L.length, by simp, rfl⟩
      · rcases i5 with h | ⟨i, hi, h⟩
        · exact Or.inl h
        · exact Or.inr ⟨i, by simp; omega, h⟩

theorem insert_spec (P : Params) (b : Range) (hb : b.inside P) (prior : List Nat) (buf : Buf) :
    let st := insertPrior P b prior buf
    (∀ d, b.has d → st.1 (P.disp d.1 d.2) = costOf b prior d) ∧
    (∀ d : Pt, P.minX ≤ d.1 → d.1 ≤ P.maxX → ¬ b.has d → st.1 (P.disp d.1 d.2) = buf (P.disp d.1 d.2)) ∧
    st.2 ≤ P.bad ∧ (∀ d, b.has d → st.2 ≤ costOf b prior d) ∧ (st.2 = P.bad ∨ ∃ d, b.has d ∧ st.2 = costOf b prior d) := by
  intro st
  have hnd : (b.fulls P).Nodup := by
    rw [fulls_eq]
    refine List.Nodup.map_on ?_ (disps_nodup b)
    intro x hx y hy h
    have h1 := hb x ((mem_disps b x).1 hx)
    have h2 := hb y ((mem_disps b y).1 hy)
    exact disp_inj P ⟨h1.1, h1.2.1⟩ ⟨h2.1, h2.2.1⟩ h
  have hlen : (b.fulls P).length = b.disps.length := by rw [fulls_eq, List.length_map]
  obtain ⟨i1, i2, i3, i4, i5⟩ := insert_fold prior (b.fulls P) hnd buf P.bad
  have hst : st = insertPrior P b prior buf := rfl
  unfold insertPrior at hst
  rw [← hst] at i1 i2 i3 i4 i5
  refine ⟨?_, ?_, i3, ?_, ?_⟩
  · intro d hd
    obtain ⟨i, hi, rfl⟩ := List.getElem_of_mem ((mem_disps b d).2 hd)
    rw [costOf_getElem]
    have := i1 i (by omega)
    simpa [fulls_eq] using this
  · intro d h1 h2 hd
    apply i2
    rw [fulls_eq, List.mem_map]
    rintro ⟨d', hd', h⟩
    have hd' := (mem_disps b d').1 hd'
    have h3 := hb d' hd'
    exact hd (disp_inj P ⟨h3.1, h3.2.1⟩ ⟨h1, h2⟩ h ▸ hd')
  · intro d hd
    obtain ⟨i, hi, rfl⟩ := List.getElem_of_mem ((mem_disps b d).2 hd)
    rw [costOf_getElem]
    exact i4 i (by omega)
  · rcases i5 with h | ⟨i, hi, h⟩
    · exact Or.inl h
    · refine Or.inr ⟨b.disps[i]'(by omega), (mem_disps b _).1 (List.getElem_mem _), ?_⟩
      rw [costOf_getElem, h]

/-- The buffer is put back. -/
theorem restore_spec (P : Params) (b : Range) (prior : List Nat) :
    (b.fulls P).foldl (fun (m : Buf) a => m.set a P.bad) (insertPrior P b prior fun _ => P.bad).1 = fun _ => P.bad := by
  have h1 : ∀ (L : List Int) (m : Buf) (a : Int), (m a = P.bad ∨ a ∈ L) → (L.foldl (fun (m : Buf) a => m.set a P.bad) m) a = P.bad := by
    intro L
    induction L with
    | nil => intro m a h; simpa using h
    | cons x L ih =>
      intro m a h
      rw [List.foldl_cons]
      apply ih
      by_cases hx : a = x
      · left; simp [Buf.set, hx]
      · rcases h with h | h
        · left; simp [Buf.set, hx, h]
        · right; simpa [hx] using h
  have h2 : ∀ (L : List (Int × Nat)) (st : Buf × Nat) (a : Int), a ∉ L.map Prod.fst → st.1 a = P.bad →
      (L.foldl (fun (st : Buf × Nat) (e : Int × Nat) =>
        (st.1.set e.1 (at' prior e.2), if at' prior e.2 < st.2 then at' prior e.2 else st.2)) st).1 a = P.bad := by
    intro L
    induction L with
    | nil => intro st a _ h; simpa using h
    | cons x L ih =>
      intro st a ha h
      rw [List.foldl_cons]
      simp only [List.map_cons, List.mem_cons, not_or] at ha
      apply ih _ _ ha.2
      simp [Buf.set, ha.1, h]
  funext a
  apply h1
  by_cases ha : a ∈ b.fulls P
  · exact Or.inr ha
  · left
    unfold insertPrior
    apply h2
    · rw [List.zipIdx_map_fst]; exact ha
    · rfl

/-! ### The table of neighbours -/

/-- The `k`-th neighbour in the table. -/
def nbr (P : Params) (d : Pt) : Nat → Pt
  | 0 => (d.1, less P.minY d.2)
  | 1 => (less P.minX d.1, d.2)
  | 2 => (more P.maxX d.1, d.2)
  | 3 => (d.1, more P.maxY d.2)
  | 4 => (less P.minX d.1, less P.minY d.2)
  | 5 => (more P.maxX d.1, less P.minY d.2)
  | 6 => (less P.minX d.1, more P.maxY d.2)
  | _ => (more P.maxX d.1, more P.maxY d.2)

theorem lookup_spec (P : Params) (d : Pt) (h : P.minX ≤ d.1 ∧ d.1 ≤ P.maxX ∧ P.minY ≤ d.2 ∧ d.2 ≤ P.maxY) (k : Nat) (hk : k < 8) :
    P.adjacent.getD ((P.disp d.1 d.2 * 8).toNat + k) 0 = P.disp (nbr P d k).1 (nbr P d k).2 := by
  obtain ⟨h1, h2, h3, h4⟩ := h
  have hnx : P.numX = P.maxX - P.minX + 1 := rfl
  have hny : P.numY = P.maxY - P.minY + 1 := rfl
  obtain ⟨j, hj⟩ : ∃ j : Nat, d.2 = P.minY + (j : Int) := ⟨(d.2 - P.minY).toNat, by omega⟩
  obtain ⟨i, hi⟩ : ∃ i : Nat, d.1 = P.minX + (i : Int) := ⟨(d.1 - P.minX).toNat, by omega⟩
  have e : (P.disp d.1 d.2 * 8).toNat + k = j * (P.numX.toNat * 8) + (i * 8 + k) := by
    have : P.disp d.1 d.2 = ((j * P.numX.toNat + i : Nat) : Int) := by
      unfold Params.disp
      push_cast
      rw [Int.toNat_of_nonneg (by omega), hi, hj]
      have e1 : P.minY + (j : Int) - P.minY = j := by omega
      rw [e1]
      omega
    rw [this, ← Nat.mul_assoc]
    generalize j * P.numX.toNat = z
    omega
  have hi8 : i * 8 + k < P.numX.toNat * 8 := by omega
  rw [List.getD_eq_getElem?_getD, e]
  unfold Params.adjacent
  rw [getElem?_flatMap_const _ (P.numX.toNat * 8) _ (by
    intro x _
    rw [List.length_flatMap]
    simp [Nat.mul_comm]) j _ hi8]
  rw [List.getElem?_range (by omega), Option.bind_some]
  rw [getElem?_flatMap_const _ 8 _ (by intro x _; rfl) i k hk]
  rw [List.getElem?_range (by omega), Option.bind_some]
  rw [← hi, ← hj]
  have hc : k = 0 ∨ k = 1 ∨ k = 2 ∨ k = 3 ∨ k = 4 ∨ k = 5 ∨ k = 6 ∨ k = 7 := by omega
  rcases hc with rfl | rfl | rfl | rfl | rfl | rfl | rfl | rfl <;> rfl

theorem nbr_global (P : Params) (d : Pt) (h : P.minX ≤ d.1 ∧ d.1 ≤ P.maxX ∧ P.minY ≤ d.2 ∧ d.2 ≤ P.maxY) (k : Nat) :
    P.minX ≤ (nbr P d k).1 ∧ (nbr P d k).1 ≤ P.maxX ∧ P.minY ≤ (nbr P d k).2 ∧ (nbr P d k).2 ≤ P.maxY := by
  unfold nbr less more
  split <;> dsimp only <;> (repeat' split) <;> omega

theorem nbr_close (P : Params) (d : Pt) (k : Nat) : close (nbr P d k) d := by
  unfold nbr less more close
  split <;> dsimp only <;> (repeat' split) <;> omega

/-- Every other disparity of the search range that differs by one is in the table. -/
theorem nbr_all (P : Params) (d e : Pt) (he : P.minX ≤ e.1 ∧ e.1 ≤ P.maxX ∧ P.minY ≤ e.2 ∧ e.2 ≤ P.maxY) (hc : close e d) (hn : e ≠ d) :
    ∃ k, k < 8 ∧ nbr P d k = e := by
  obtain ⟨dx, dy⟩ := d
  obtain ⟨ex, ey⟩ := e
  unfold close at hc
  dsimp only at he hc
  have hx : ex = dx - 1 ∨ ex = dx ∨ ex = dx + 1 := by omega
  have hy : ey = dy - 1 ∨ ey = dy ∨ ey = dy + 1 := by omega
  have l1 : ∀ lo v : Int, lo ≤ v - 1 → less lo v = v - 1 := by intro lo v h; unfold less; rw [if_neg (by omega)]
  have m1 : ∀ hi v : Int, v + 1 ≤ hi → more hi v = v + 1 := by intro lo v h; unfold more; rw [if_neg (by omega)]
  rcases hx with rfl | rfl | rfl <;> rcases hy with rfl | rfl | rfl
  · exact ⟨4, by omega, by simp only [nbr]; rw [l1 _ _ (by omega), l1 _ _ (by omega)]⟩
  · exact ⟨1, by omega, by simp only [nbr]; rw [l1 _ _ (by omega)]⟩
  · exact ⟨6, by omega, by simp only [nbr]; rw [l1 _ _ (by omega), m1 _ _ (by omega)]⟩
  · exact ⟨0, by omega, by simp only [nbr]; rw [l1 _ _ (by omega)]⟩
  · exact absurd rfl hn
  · exact ⟨3, by omega, by simp only [nbr]; rw [m1 _ _ (by omega)]⟩
  · exact ⟨5, by omega, by simp only [nbr]; rw [l1 _ _ (by omega), m1 _ _ (by omega)]⟩
  · exact ⟨2, by omega, by simp only [nbr]; rw [m1 _ _ (by omega)]⟩
  · exact ⟨7, by omega, by simp only [nbr]; rw [m1 _ _ (by omega), m1 _ _ (by omega)]⟩

/-! ### One step -/

theorem p2Mod_bounds (P : Params) (g : Nat) (h : P.p1 ≤ P.p2) : P.p1 ≤ P.p2Mod g ∧ P.p2Mod g ≤ P.p2 := by
  unfold Params.p2Mod
  dsimp only
  have : P.p2 / g ≤ P.p2 := Nat.div_le_self _ _
  repeat' split
  all_goals omega

theorem bad_eq (P : Params) (h : P.ok) : P.bad = 255 + P.p2 := by
  unfold Params.bad u16
  obtain ⟨_, h⟩ := h
  omega

theorem min_pick (f : Nat → Nat) (a n : Nat) (h : ∃ k, k < n ∧ a = f k) : ∃ k, k < n + 1 ∧ min a (f n) = f k := by
  obtain ⟨k, hk, h⟩ := h
  rcases Nat.le_total a (f n) with h1 | h1
  · exact ⟨k, by omega, by rw [Nat.min_eq_left h1, h]⟩
  · exact ⟨n, by omega, Nat.min_eq_right h1⟩

theorem min8 (f : Nat → Nat) : ∃ a, (∀ k, k < 8 → a ≤ f k) ∧ (∃ k, k < 8 ∧ a = f k) ∧
    a = min (min (min (min (min (min (min (f 0) (f 1)) (f 2)) (f 3)) (f 4)) (f 5)) (f 6)) (f 7) ∧
    min (min (min (f 0) (f 1)) (min (f 2) (f 3))) (min (min (f 4) (f 5)) (min (f 6) (f 7))) = a := by
  refine ⟨_, ?_, ?_, rfl, ?_⟩
  · intro k hk
    have hc : k = 0 ∨ k = 1 ∨ k = 2 ∨ k = 3 ∨ k = 4 ∨ k = 5 ∨ k = 6 ∨ k = 7 := by omega
    rcases hc with rfl | rfl | rfl | rfl | rfl | rfl | rfl | rfl <;> simp only [min_le_iff, le_refl, true_or, or_true]
  · exact min_pick f _ 7 (min_pick f _ 6 (min_pick f _ 5 (min_pick f _ 4 (min_pick f _ 3 (min_pick f _ 2 (min_pick f _ 1
      ⟨0, by omega, rfl⟩))))))
  · simp only [min_assoc]

/-- One disparity: both versions compute the same, in terms of the buffer. -/
theorem combine_spec (P : Params) (hP : P.ok) (buf : Buf) (mp p2m loc : Nat) (d : Pt)
    (hd : P.minX ≤ d.1 ∧ d.1 ≤ P.maxX ∧ P.minY ≤ d.2 ∧ d.2 ≤ P.maxY)
    (hb : ∀ a, buf a ≤ P.bad) (hmp : mp ≤ P.bad) (hp2 : p2m ≤ P.p2) (hl : loc ≤ 255)
    (hmb : ∀ e : Pt, P.minX ≤ e.1 ∧ e.1 ≤ P.maxX ∧ P.minY ≤ e.2 ∧ e.2 ≤ P.maxY → mp ≤ buf (P.disp e.1 e.2)) :
    ∃ low, (low ≤ buf (P.disp d.1 d.2) ∧ (∀ k, k < 8 → low ≤ buf (P.disp (nbr P d k).1 (nbr P d k).2) + P.p1) ∧ low ≤ mp + p2m) ∧
      (low = buf (P.disp d.1 d.2) ∨ (∃ k, k < 8 ∧ low = buf (P.disp (nbr P d k).1 (nbr P d k).2) + P.p1) ∨ low = mp + p2m) ∧
      mp ≤ low ∧ combineWrap P buf mp p2m loc (P.disp d.1 d.2) + mp = loc + low ∧ combineSat P buf mp p2m loc (P.disp d.1 d.2) + mp = loc + low := by
  have hbad := bad_eq P hP
  obtain ⟨hp, hq⟩ := hP
  unfold combineWrap combineSat
  dsimp only
  rw [lookup_spec P d hd 0 (by omega), lookup_spec P d hd 1 (by omega), lookup_spec P d hd 2 (by omega), lookup_spec P d hd 3 (by omega),
    lookup_spec P d hd 4 (by omega), lookup_spec P d hd 5 (by omega), lookup_spec P d hd 6 (by omega), lookup_spec P d hd 7 (by omega)]
  have hB : ∀ k, buf (P.disp (nbr P d k).1 (nbr P d k).2) ≤ P.bad := fun k => hb _
  have hM : ∀ k, mp ≤ buf (P.disp (nbr P d k).1 (nbr P d k).2) := fun k => hmb _ (nbr_global P d hd k)
  have hB0 := hb (P.disp d.1 d.2)
  have hM0 := hmb d hd
  generalize hf : (fun k => buf (P.disp (nbr P d k).1 (nbr P d k).2)) = f at *
  have hf' : ∀ k, buf (P.disp (nbr P d k).1 (nbr P d k).2) = f k := fun k => by rw [← hf]
  simp only [hf'] at *
  generalize buf (P.disp d.1 d.2) = g0 at *
  obtain ⟨a, ha, ha2, ha3, hs⟩ := min8 f
  rw [hs, ← ha3]
  obtain ⟨k, hk, hak⟩ := ha2
  have h1 := hB k
  have h2 := hM k
  have e1 : u16 (a + P.p1) = a + P.p1 := by unfold u16; omega
  have e2 : u16 (mp + p2m) = mp + p2m := by unfold u16; omega
  rw [e1, e2]
  refine ⟨min (min g0 (a + P.p1)) (mp + p2m), ⟨by omega, ?_, by omega⟩, ?_, by omega, ?_, ?_⟩
  · intro k' hk'
    have := ha k' hk'
    omega
  · have : ∀ x, x = min (min g0 (a + P.p1)) (mp + p2m) → x = g0 ∨ x = a + P.p1 ∨ x = mp + p2m := by intro x hx; omega
    rcases this _ rfl with h | h | h
    · exact Or.inl h
    · exact Or.inr (Or.inl ⟨k, hk, by omega⟩)
    · exact Or.inr (Or.inr h)
  · omega
  · unfold adds
    omega

/-- The costs that come out of a step: their number, and each in terms of `combine`. -/
theorem evaluate_costOf (P : Params) (cur prev : Range) (prior loc : List Nat) (g : Nat) (buf : Buf) (d : Pt) (hd : cur.has d) :
    costOf cur (evaluate P cur prev prior loc g buf).1 d =
      let st := insertPrior P prev prior buf
      if P.sse then combineSat P st.1 st.2 (P.p2Mod g) (costOf cur loc d) (P.disp d.1 d.2)
      else combineWrap P st.1 st.2 (P.p2Mod g) (costOf cur loc d) (P.disp d.1 d.2) := by
  obtain ⟨i, hi, rfl⟩ := List.getElem_of_mem ((mem_disps cur d).2 hd)
  rw [costOf_getElem, costOf_getElem]
  unfold evaluate at'
  dsimp only
  have hlen : (cur.fulls P).length = cur.disps.length := by rw [fulls_eq, List.length_map]
  have hi' : i < (cur.fulls P).length := by omega
  rw [List.getD_eq_getElem?_getD, List.getElem?_map, List.getElem?_zipIdx, List.getElem?_eq_getElem hi']
  simp only [Option.map_some, Option.getD_some, Nat.zero_add]
  simp [fulls_eq]

theorem evaluate_length (P : Params) (cur prev : Range) (prior loc : List Nat) (g : Nat) (buf : Buf) :
    (evaluate P cur prev prior loc g buf).1.length = cur.disps.length := by
  unfold evaluate
  dsimp only
  rw [List.length_map, List.length_zipIdx, fulls_eq, List.length_map]

theorem evaluate_buffer (P : Params) (cur prev : Range) (prior loc : List Nat) (g : Nat) :
    (evaluate P cur prev prior loc g fun _ => P.bad).2 = fun _ => P.bad := restore_spec P prev prior

/-- **One step along a path.** The previous pixel has disparities, and the least of its costs plus the jump penalty is no more than the
value that stands for no disparity. Then for some amount `m`, the least of the costs of the previous pixel, the new cost of every disparity
is the cost there plus the least, over the disparities of the previous pixel, of its cost and the penalty of the change, less `m`. -/
theorem evaluate_spec (P : Params) (hP : P.ok) (cur prev : Range) (hcur : cur.inside P) (hprev : prev.inside P) (prior loc : List Nat) (g : Nat)
    (hloc : ∀ d, cur.has d → costOf cur loc d ≤ 255) (hpri : ∀ d, prev.has d → costOf prev prior d ≤ P.bad)
    (m : Nat) (hm : ∀ d, prev.has d → m ≤ costOf prev prior d) (hm' : ∃ d, prev.has d ∧ costOf prev prior d = m)
    (hside : m + P.p2Mod g ≤ P.bad) (d : Pt) (hd : cur.has d) :
    (∀ e, prev.has e → costOf cur (evaluate P cur prev prior loc g fun _ => P.bad).1 d + m ≤
      costOf cur loc d + (costOf prev prior e + penalty P.p1 (P.p2Mod g) e d)) ∧
    (∃ e, prev.has e ∧ costOf cur (evaluate P cur prev prior loc g fun _ => P.bad).1 d + m =
      costOf cur loc d + (costOf prev prior e + penalty P.p1 (P.p2Mod g) e d)) := by
  have hbad := bad_eq P hP
  obtain ⟨hq1, hq2⟩ := p2Mod_bounds P g hP.1
  obtain ⟨i1, i2, i3, i4, i5⟩ := insert_spec P prev hprev prior (fun _ => P.bad)
  have hmin : (insertPrior P prev prior fun _ => P.bad).2 = m := by
    obtain ⟨e0, he0, hc0⟩ := hm'
    have h1 := i4 e0 he0
    rcases i5 with h | ⟨e, he, h⟩
    · have := hpri e0 he0
      omega
    · have := hm e he
      omega
  have hgb := hcur d hd
  have hbufle : ∀ a, (insertPrior P prev prior fun _ => P.bad).1 a ≤ P.bad := by
    intro a
    by_cases ha : a ∈ prev.fulls P
    · rw [fulls_eq, List.mem_map] at ha
      obtain ⟨e, he, rfl⟩ := ha
      have he := (mem_disps prev e).1 he
      rw [i1 e he]
      exact hpri e he
    · have hnd : (prev.fulls P).Nodup := by
        rw [fulls_eq]
        refine List.Nodup.map_on ?_ (disps_nodup prev)
        intro x hx y hy h
        have h1 := hprev x ((mem_disps prev x).1 hx)
        have h2 := hprev y ((mem_disps prev y).1 hy)
        exact disp_inj P ⟨h1.1, h1.2.1⟩ ⟨h2.1, h2.2.1⟩ h
      have := (insert_fold prior (prev.fulls P) hnd (fun _ => P.bad) P.bad).2.1 a ha
      unfold insertPrior
      rw [this]
  rw [evaluate_costOf P cur prev prior loc g _ d hd]
  dsimp only
  rw [hmin]
  generalize hbf : (insertPrior P prev prior fun _ => P.bad).1 = buf at *
  have hin : ∀ e, prev.has e → buf (P.disp e.1 e.2) = costOf prev prior e := i1
  have hout : ∀ e : Pt, P.minX ≤ e.1 → e.1 ≤ P.maxX → ¬ prev.has e → buf (P.disp e.1 e.2) = P.bad := fun e a b c => i2 e a b c
  obtain ⟨low, ⟨l1, l2, l3⟩, l4, l5, l6, l7⟩ := combine_spec P hP buf m (P.p2Mod g) (costOf cur loc d) d hgb hbufle (by omega) hq2 (hloc d hd) (by
    intro e he
    by_cases h : prev.has e
    · rw [hin e h]; exact hm e h
    · rw [hout e he.1 he.2.1 h]; omega)
  have hval : (if P.sse = true then combineSat P buf m (P.p2Mod g) (costOf cur loc d) (P.disp d.1 d.2)
      else combineWrap P buf m (P.p2Mod g) (costOf cur loc d) (P.disp d.1 d.2)) + m = costOf cur loc d + low := by
    split <;> assumption
  rw [hval]
  have hle : ∀ e, prev.has e → low ≤ costOf prev prior e + penalty P.p1 (P.p2Mod g) e d := by
    intro e he
    unfold penalty
    by_cases h1 : e = d
    · rw [if_pos h1]
      subst h1
      rw [hin e he] at l1
      omega
    · rw [if_neg h1]
      by_cases h2 : close e d
      · rw [if_pos h2]
        obtain ⟨k, hk, hke⟩ := nbr_all P d e (hprev e he) h2 h1
        have := l2 k hk
        rw [hke, hin e he] at this
        exact this
      · rw [if_neg h2]
        have := hm e he
        omega
  have hjump : low = m + P.p2Mod g → ∃ e, prev.has e ∧ low = costOf prev prior e + penalty P.p1 (P.p2Mod g) e d := by
    intro h
    obtain ⟨e, he, hc⟩ := hm'
    refine ⟨e, he, ?_⟩
    have h1 := hle e he
    have : penalty P.p1 (P.p2Mod g) e d ≤ P.p2Mod g := by
      unfold penalty
      repeat' split
      all_goals omega
    omega
  refine ⟨fun e he => by have := hle e he; omega, ?_⟩
  suffices h : ∃ e, prev.has e ∧ low = costOf prev prior e + penalty P.p1 (P.p2Mod g) e d by
    obtain ⟨e, he, h⟩ := h
    exact ⟨e, he, by omega⟩
  rcases l4 with h | ⟨k, hk, h⟩ | h
  · by_cases hh : prev.has d
    · refine ⟨d, hh, ?_⟩
      rw [hin d hh] at h
      unfold penalty
      rw [if_pos rfl]
      omega
    · rw [hout d hgb.1 hgb.2.1 hh] at h
      exact hjump (by omega)
  · have hng := nbr_global P d hgb k
    by_cases hh : prev.has (nbr P d k)
    · refine ⟨nbr P d k, hh, ?_⟩
      rw [hin _ hh] at h
      have h1 := hle _ hh
      have : penalty P.p1 (P.p2Mod g) (nbr P d k) d ≤ P.p1 := by
        unfold penalty
        rw [if_pos (nbr_close P d k)]
        split <;> omega
      omega
    · rw [hout _ hng.1 hng.2.1 hh] at h
      exact hjump (by omega)
  · exact hjump h

/-- A pixel without disparities interrupts the path: the next starts afresh with its own costs. -/
theorem evaluate_restart (P : Params) (hP : P.ok) (cur prev : Range) (hcur : cur.inside P) (prior loc : List Nat) (g : Nat)
    (hloc : ∀ d, cur.has d → costOf cur loc d ≤ 255) (hempty : ∀ d, ¬ prev.has d) (d : Pt) (hd : cur.has d) :
    costOf cur (evaluate P cur prev prior loc g fun _ => P.bad).1 d = costOf cur loc d := by
  have hbad := bad_eq P hP
  obtain ⟨hq1, hq2⟩ := p2Mod_bounds P g hP.1
  have hd0 : prev.disps = [] := by
    apply List.eq_nil_iff_forall_not_mem.2
    intro e he
    exact hempty e ((mem_disps prev e).1 he)
  have hf0 : prev.fulls P = [] := by rw [fulls_eq, hd0]; rfl
  have hst : insertPrior P prev prior (fun _ => P.bad) = (fun _ => P.bad, P.bad) := by
    unfold insertPrior
    rw [hf0]
    rfl
  rw [evaluate_costOf P cur prev prior loc g _ d hd]
  dsimp only
  rw [hst]
  obtain ⟨low, ⟨l1, l2, l3⟩, l4, l5, l6, l7⟩ := combine_spec P hP (fun _ => P.bad) P.bad (P.p2Mod g) (costOf cur loc d) d (hcur d hd)
    (fun _ => Nat.le_refl _) (Nat.le_refl _) hq2 (hloc d hd) (fun _ _ => Nat.le_refl _)
  split <;> dsimp only <;> omega

/-- Costs of a step stay below the value that stands for no disparity, whatever the ranges: nothing wraps around or saturates. -/
theorem evaluate_bound (P : Params) (hP : P.ok) (cur prev : Range) (hcur : cur.inside P) (hprev : prev.inside P) (prior loc : List Nat) (g : Nat)
    (hloc : ∀ d, cur.has d → costOf cur loc d ≤ 255) (hpri : ∀ d, prev.has d → costOf prev prior d ≤ P.bad) (d : Pt) (hd : cur.has d) :
    costOf cur loc d ≤ costOf cur (evaluate P cur prev prior loc g fun _ => P.bad).1 d ∧
    costOf cur (evaluate P cur prev prior loc g fun _ => P.bad).1 d ≤ costOf cur loc d + P.p2Mod g := by
  have hbad := bad_eq P hP
  obtain ⟨hq1, hq2⟩ := p2Mod_bounds P g hP.1
  obtain ⟨i1, i2, i3, i4, i5⟩ := insert_spec P prev hprev prior (fun _ => P.bad)
  rw [evaluate_costOf P cur prev prior loc g _ d hd]
  dsimp only
  have hbufle : ∀ a, (insertPrior P prev prior fun _ => P.bad).1 a ≤ P.bad := by
    intro a
    by_cases ha : a ∈ prev.fulls P
    · rw [fulls_eq, List.mem_map] at ha
      obtain ⟨e, he, rfl⟩ := ha
      have he := (mem_disps prev e).1 he
      rw [i1 e he]
      exact hpri e he
    · have hnd : (prev.fulls P).Nodup := by
        rw [fulls_eq]
        refine List.Nodup.map_on ?_ (disps_nodup prev)
        intro x hx y hy h
        have h1 := hprev x ((mem_disps prev x).1 hx)
        have h2 := hprev y ((mem_disps prev y).1 hy)
        exact disp_inj P ⟨h1.1, h1.2.1⟩ ⟨h2.1, h2.2.1⟩ h
      have := (insert_fold prior (prev.fulls P) hnd (fun _ => P.bad) P.bad).2.1 a ha
      unfold insertPrior
      rw [this]
  obtain ⟨low, ⟨l1, l2, l3⟩, l4, l5, l6, l7⟩ := combine_spec P hP _ _ (P.p2Mod g) (costOf cur loc d) d (hcur d hd) hbufle i3 hq2 (hloc d hd) (by
    intro e he
    by_cases h : prev.has e
    · rw [i1 e h]; exact i4 e h
    · rw [i2 e he.1 he.2.1 h]; exact i3)
  split <;> omega

end VW.SGM
