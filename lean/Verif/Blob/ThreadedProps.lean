import Verif.Blob.Consolidate
/-
Property C53: `BlobIndexThreaded` finds the same components, whatever the order in which the tasks end.
-/
namespace VW.Blob
open VW.Grassfire (Pos raster inImage before)
open VW.Block (Rect)
open VW.Graph

/-! ### Specification -/

/-- The component of p has at most n pixels. -/
def AtMost (V : Pos → Prop) (p : Pos) (n : Int) : Prop :=
  ∀ l : List Pos, l.Nodup → (∀ q ∈ l, Linked V p q) → (l.length : Int) ≤ n

/-- The blobs are the components of V that have the property K: each lists its pixels, row by row and without repetition. -/
structure Components (V : Pos → Prop) (K : Pos → Prop) (blobs : List Compressed) : Prop where
  listed : ∀ b ∈ blobs, decompress b ≠ [] ∧ (decompress b).Pairwise before
  cover : ∀ p, (∃ b ∈ blobs, p ∈ decompress b) ↔ V p ∧ K p
  same : ∀ (i j : Nat) bi bj, blobs[i]? = some bi → blobs[j]? = some bj → ∀ p ∈ decompress bi, ∀ q ∈ decompress bj,
    (i = j ↔ Linked V p q)

/-- No more than maxArea pixels, if that is positive. -/
def Small (V : Pos → Prop) (maxArea : Int) (p : Pos) : Prop := maxArea > 0 → AtMost V p maxArea

/-! ### A list of blobs, one for each class -/

variable {V : Pos → Prop}

theorem atMost_iff {b : Compressed} (hs : (decompress b).Pairwise before) {p : Pos} (hl : ∀ q, q ∈ decompress b ↔ Linked V p q)
    (n : Int) : AtMost V p n ↔ ((decompress b).length : Int) ≤ n := by
  constructor
  · intro h; exact h _ (nodup_of_sorted hs) (fun q hq => (hl q).1 hq)
  · intro h l hn hq
    have := (List.subperm_of_subset hn (fun q hm => (hl q).2 (hq q hm))).length_le
    omega

theorem components_filter {K : Pos → Prop} {blobs : List Compressed} (h : Components V K blobs)
    (hl : ∀ b ∈ blobs, ∀ p ∈ decompress b, ∀ q, q ∈ decompress b ↔ Linked V p q) (f : Compressed → Bool) (K' : Pos → Prop)
    (hf : ∀ b ∈ blobs, ∀ p ∈ decompress b, f b = true ↔ K' p) : Components V (fun p => K p ∧ K' p) (blobs.filter f) := by
  refine ⟨fun b hb => h.listed b (List.mem_filter.1 hb).1, ?_, ?_⟩
  · intro p
    constructor
    · rintro ⟨b, hb, hp⟩
      obtain ⟨hb, hfb⟩ := List.mem_filter.1 hb
      have := (h.cover p).1 ⟨b, hb, hp⟩
      exact ⟨this.1, this.2, (hf b hb p hp).1 hfb⟩
    · rintro ⟨hv, hk, hk'⟩
      obtain ⟨b, hb, hp⟩ := (h.cover p).2 ⟨hv, hk⟩
      exact ⟨b, List.mem_filter.2 ⟨hb, (hf b hb p hp).2 hk'⟩, hp⟩
  · -- a list with distinct places of distinct blobs stays so
    have hpw : blobs.Pairwise (fun b c => ∀ p ∈ decompress b, ∀ q ∈ decompress c, ¬ Linked V p q) := by
      rw [List.pairwise_iff_getElem]
      intro i j hi hj hij p hp q hq hlk
      have := (h.same i j _ _ (List.getElem?_eq_getElem hi) (List.getElem?_eq_getElem hj) p hp q hq).2 hlk
      omega
    have hpw' := hpw.filter f
    rw [List.pairwise_iff_getElem] at hpw'
    intro i j bi bj hi hj p hp q hq
    obtain ⟨li, rfl⟩ := List.getElem?_eq_some_iff.1 hi
    obtain ⟨lj, rfl⟩ := List.getElem?_eq_some_iff.1 hj
    constructor
    · rintro rfl
      exact (hl _ (List.mem_filter.1 (List.getElem_mem li)).1 p hp q).1 hq
    · intro hlk
      rcases Nat.lt_trichotomy i j with hij | hij | hij
      · exact absurd hlk (hpw' i j li lj hij p hp q hq)
      · exact hij
      · exact absurd hlk.symm (hpw' j i lj li hij q hq p hp)

/-- What consolidation gives. -/
theorem consolidate_spec (z : Int) (maxArea : Int) {W H t : Nat} {bs : List Compressed} (hP : Parts V W H t bs) (ht : 0 < t)
    (hne : bs ≠ []) (J : Nat) (hJ : 0 < J) {jobs : List Nat} (hj : jobs.Perm (List.range J)) :
    ∃ cs, consolidate (some z) maxArea W H t J jobs bs = .ok cs ∧ Components V (Small V maxArea) cs ∧
      (∀ b ∈ cs, WF b ∧ (maxArea > 0 → size b ≤ maxArea) ∧ ∀ p ∈ decompress b, ∀ q, q ∈ decompress b ↔ Linked V p q) := by
  obtain ⟨ks, hks, e⟩ := consolidate_eq z maxArea hP ht hne J hJ hj
  refine ⟨_, e, ?_⟩
  generalize hcomp : component bs.length (joins bs W H t) = comp at *
  have blob : ∀ k ∈ ks, ∃ b, unionOf (some z) (partsOf bs comp k) = b ∧ WF b ∧ Good b ∧
      ((partsOf bs comp k).map size).sum = (decompress b).length ∧ decompress b ≠ [] ∧
      (∀ p, p ∈ decompress b ↔ ∃ i, ∃ h : i < bs.length, comp i = k ∧ p ∈ decompress bs[i]) ∧
      (∀ p ∈ decompress b, ∀ q, q ∈ decompress b ↔ Linked V p q) := by
    intro k hk
    have hk' := List.mem_range.1 (hks.mem_iff.1 hk)
    obtain ⟨b, e, h⟩ := component_blob z hP ht hk'
    rw [hcomp] at e h
    exact ⟨b, by unfold unionOf; rw [e], h⟩
  have hlarge : ∀ k ∈ ks, ∀ p ∈ decompress (unionOf (some z) (partsOf bs comp k)),
      (! tooLarge maxArea (partsOf bs comp k)) = true ↔ Small V maxArea p := by
    intro k hk p hp
    obtain ⟨b, e, _, hg, hsum, _, _, hlink⟩ := blob k hk
    rw [e] at hp
    unfold Small
    rw [atMost_iff hg.sorted (hlink p hp), ← hsum]
    simp only [tooLarge, Bool.not_eq_true', Bool.and_eq_false_iff, decide_eq_false_iff_not]
    omega
  have hnd : ks.Nodup := hks.nodup_iff.2 List.nodup_range
  refine ⟨⟨?_, ?_, ?_⟩, ?_⟩
  · intro b hb
    obtain ⟨k, hk, rfl⟩ := List.mem_map.1 hb
    obtain ⟨b, e, _, hg, _, hne, _⟩ := blob k (List.mem_filter.1 hk).1
    rw [e]
    exact ⟨hne, hg.sorted⟩
  · intro p
    constructor
    · rintro ⟨b, hb, hp⟩
      obtain ⟨k, hk, rfl⟩ := List.mem_map.1 hb
      obtain ⟨hk, hkeep⟩ := List.mem_filter.1 hk
      refine ⟨?_, (hlarge k hk p hp).1 hkeep⟩
      obtain ⟨b, e, _, _, _, _, _, hlink⟩ := blob k hk
      rw [e] at hp
      exact ((hlink p hp p).1 hp).right
    · rintro ⟨hv, hsm⟩
      obtain ⟨c, hc, hp⟩ := (hP.cover p).1 hv
      obtain ⟨i, hi, rfl⟩ := List.mem_iff_getElem.1 hc
      have hk : comp i ∈ ks := by
        rw [hks.mem_iff, List.mem_range, ← hcomp]
        exact component_lt hi
      obtain ⟨b, e, _, hg, _, _, hu, hlink⟩ := blob (comp i) hk
      have hpb : p ∈ decompress (unionOf (some z) (partsOf bs comp (comp i))) := by
        rw [e, hu]; exact ⟨i, hi, rfl, hp⟩
      exact ⟨_, List.mem_map_of_mem (List.mem_filter.2 ⟨hk, (hlarge _ hk p hpb).2 hsm⟩), hpb⟩
  · intro i j bi bj hi hj p hp q hq
    rw [List.getElem?_map] at hi hj
    obtain ⟨ki, hki, rfl⟩ := Option.map_eq_some_iff.1 hi
    obtain ⟨kj, hkj, rfl⟩ := Option.map_eq_some_iff.1 hj
    have mi := (List.mem_filter.1 (List.mem_of_getElem? hki)).1
    have mj := (List.mem_filter.1 (List.mem_of_getElem? hkj)).1
    obtain ⟨b, e, _, _, _, _, hu, hlink⟩ := blob ki mi
    obtain ⟨c, e', _, _, _, _, hu', hlink'⟩ := blob kj mj
    rw [e] at hp
    rw [e'] at hq
    rw [← hlink p hp q]
    constructor
    · rintro rfl
      rw [hki] at hkj
      cases hkj
      rw [← e, e']; exact hq
    · intro hqb
      obtain ⟨m, hm, em, hqm⟩ := (hu q).1 hqb
      obtain ⟨n, hn, en, hqn⟩ := (hu' q).1 hq
      have : m = n := by
        by_contra hc
        exact (hP.diff m n hm hn hc q hqm q hqn).1 rfl
      subst this
      have hkk : ki = kj := em.symm.trans en
      subst hkk
      obtain ⟨li, hi'⟩ := List.getElem?_eq_some_iff.1 hki
      obtain ⟨lj, hj'⟩ := List.getElem?_eq_some_iff.1 hkj
      exact (List.Nodup.getElem_inj_iff (hnd.filter _)).1 (hi'.trans hj'.symm)
  · intro b hb
    obtain ⟨k, hk, rfl⟩ := List.mem_map.1 hb
    obtain ⟨hk, hkeep⟩ := List.mem_filter.1 hk
    obtain ⟨b, e, hw, hg, hsum, _, _, hlink⟩ := blob k hk
    rw [e]
    refine ⟨hw, fun hm => ?_, hlink⟩
    simp only [tooLarge, Bool.not_eq_true', Bool.and_eq_false_iff, decide_eq_false_iff_not] at hkeep
    rw [size_spec b hw, ← hsum]
    omega

theorem cull_filter (z : Int) (maxArea : Int) (bs : List Compressed) :
    cull (some z) maxArea bs = .ok (if maxArea > 0 then bs.filter (fun b => ! decide (size b > maxArea)) else bs) := by
  unfold cull
  by_cases h : maxArea > 0
  · rw [if_pos h, if_pos h]
    cases bs <;> rfl
  · rw [if_neg h, if_neg h]

/-- **C53**: for every image, tile size, order in which the tiles are done, number of jobs and order in which the jobs
end, if there is a valid pixel or a single tile and if reading the first start of a row without runs gives some number:
the constructor ends without an exception, the blobs are the 8-connected components with at most `maxArea` pixels (all,
if that is not positive), and with more than one tile the stored boxes are those of the blobs. -/
theorem threaded_spec_partial (z : Int) (valid : Pos → Bool) {W H t : Nat} (hW : 1 ≤ W) (hH : 1 ≤ H) (ht : 1 ≤ t) (maxArea : Int)
    {order : List Rect} (ho : order.Perm (tiles W H t)) {J : Nat} (hJ : 1 ≤ J) {jobs : List Nat} (hj : jobs.Perm (List.range J))
    (hv : (∃ p, Valid valid W H p) ∨ order.length = 1) :
    ∃ T, threaded (some z) valid W H t maxArea order J jobs = .ok T ∧
      Components (Valid valid W H) (Small (Valid valid W H) maxArea) T.blobs ∧
      (∀ b ∈ T.blobs, WF b) ∧
      (maxArea ≤ 0 ∨ order.length ≠ 1 → T.boxes = T.blobs.map boxOf) := by
  obtain ⟨e1, hP⟩ := tiles_parts valid (by omega : 0 < t) ho
  unfold threaded
  rw [e1]
  simp only [bind, Except.bind]
  generalize hbs : (order.map (blobsOf valid)).flatten = bs at *
  by_cases h1 : order.length > 1
  · rw [if_pos h1]
    have hne : bs ≠ [] := by
      rcases hv with ⟨p, hp⟩ | h
      · obtain ⟨b, hb, _⟩ := (hP.cover p).1 hp
        exact List.ne_nil_of_mem hb
      · omega
    obtain ⟨cs, e, hC, hcs⟩ := consolidate_spec z maxArea hP (by omega) hne J (by omega) hj
    rw [e]
    dsimp only
    rw [cull_filter]
    have hid : (if maxArea > 0 then cs.filter (fun b => ! decide (size b > maxArea)) else cs) = cs := by
      by_cases hm : maxArea > 0
      · rw [if_pos hm, List.filter_eq_self]
        intro b hb
        have := (hcs b hb).2.1 hm
        simp only [Bool.not_eq_true', decide_eq_false_iff_not]; omega
      · rw [if_neg hm]
    rw [hid]
    exact ⟨_, rfl, hC, fun b hb => (hcs b hb).1, fun _ => rfl⟩
  · rw [if_neg h1, cull_filter]
    -- one tile: it is the whole image
    have hlen : order.length = 1 := by
      have : order.length ≠ 0 := by
        intro h
        have e := List.length_eq_zero_iff.1 h
        rw [e] at ho
        have := VW.View.subdivide_partition ⟨0, 0, W, H⟩ (by omega : (0 : Int) < t) (by omega : (0 : Int) < t) 0 0
        have e0 : VW.View.subdivide ⟨0, 0, W, H⟩ t t true false = [] := List.nil_perm.1 ho
        rw [e0, if_pos (by simp only [Rect.has, Bool.and_eq_true, decide_eq_true_eq]; omega)] at this
        simp [VW.View.times] at this
      omega
    have hpw : ∀ i j (hi : i < bs.length) (hj : j < bs.length), i ≠ j → ∀ p ∈ decompress bs[i], ∀ q ∈ decompress bs[j], ¬ near p q := by
      intro i j hi hj hij p hp q hq hn
      apply (hP.diff i j hi hj hij p hp q hq).2 hn
      obtain ⟨r, hr⟩ := List.length_eq_one_iff.1 hlen
      subst hr
      have rin : r ∈ tiles W H t := ho.mem_iff.1 (by simp)
      have hall : ∀ p, Valid valid W H p → r.has p.1 p.2 = true := by
        intro p hp
        have hc := VW.View.subdivide_partition ⟨0, 0, W, H⟩ (by omega : (0 : Int) < t) (by omega : (0 : Int) < t) p.1 p.2
        have e0 : VW.View.subdivide ⟨0, 0, W, H⟩ t t true false = [r] := (List.singleton_perm.1 ho).symm
        have := hP.img p hp
        rw [e0, if_pos (by simp only [Rect.has, Bool.and_eq_true, decide_eq_true_eq]; omega)] at hc
        by_contra hcon
        simp [VW.View.times, hcon] at hc
      have hat := (tile_at (by omega) rin).2.2.2.2.2.2
      obtain ⟨p1, p2⟩ := hat p (hall p ((hP.cover p).2 ⟨_, List.getElem_mem hi, hp⟩))
      obtain ⟨q1, q2⟩ := hat q (hall q ((hP.cover q).2 ⟨_, List.getElem_mem hj, hq⟩))
      have t0 : (t : Int) ≠ 0 := by omega
      exact ⟨Int.eq_of_mul_eq_mul_left t0 (p1.trans q1.symm), Int.eq_of_mul_eq_mul_left t0 (p2.trans q2.symm)⟩
    have hlink : ∀ i (hi : i < bs.length), ∀ p ∈ decompress bs[i], ∀ q, Linked (Valid valid W H) p q → q ∈ decompress bs[i] := by
      intro i hi p hp q hl
      induction hl with
      | refl _ => exact hp
      | step _ hv hn ih =>
        rename_i q r _
        obtain ⟨c, hc, hr⟩ := (hP.cover r).1 hv
        obtain ⟨k, hk, rfl⟩ := List.mem_iff_getElem.1 hc
        by_cases hik : i = k
        · subst hik; exact hr
        · exact absurd hn (hpw i k hi hk hik _ ih _ hr)
    have hlk : ∀ b ∈ bs, ∀ p ∈ decompress b, ∀ q, q ∈ decompress b ↔ Linked (Valid valid W H) p q := by
      intro b hb p hp q
      obtain ⟨k, hk, rfl⟩ := List.mem_iff_getElem.1 hb
      exact ⟨fun hq => hP.link _ hb p hp q hq, hlink k hk p hp q⟩
    have hgood : ∀ b ∈ bs, Good b := fun b hb => good_of_wf (hP.wf b hb) (hP.ord b hb)
    have hC : Components (Valid valid W H) (fun _ => True) bs := by
      refine ⟨?_, fun p => by rw [← hP.cover p, and_true], ?_⟩
      · intro b hb
        obtain ⟨p, hp, _⟩ := (hgood b hb).first
        exact ⟨List.ne_nil_of_mem hp, (hgood b hb).sorted⟩
      · intro i j bi bj hi hj p hp q hq
        obtain ⟨li, rfl⟩ := List.getElem?_eq_some_iff.1 hi
        obtain ⟨lj, rfl⟩ := List.getElem?_eq_some_iff.1 hj
        constructor
        · rintro rfl; exact hP.link _ (List.getElem_mem li) p hp q hq
        · intro hl
          by_contra hc
          exact (hP.diff i j li lj hc q (hlink i li p hp q hl) q hq).1 rfl
    by_cases hm : maxArea > 0
    · rw [if_pos hm]
      have := components_filter hC hlk (fun b => ! decide (size b > maxArea)) (Small (Valid valid W H) maxArea) (by
        intro b hb p hp
        unfold Small
        rw [atMost_iff (hgood b hb).sorted (hlk b hb p hp), ← size_spec b (hP.wf b hb)]
        simp only [Bool.not_eq_true', decide_eq_false_iff_not]
        omega)
      refine ⟨_, rfl, ⟨this.listed, fun p => by rw [this.cover p]; simp, this.same⟩,
        fun b hb => hP.wf b (List.mem_filter.1 hb).1, fun h => by omega⟩
    · rw [if_neg hm]
      refine ⟨_, rfl, ⟨hC.listed, fun p => ?_, hC.same⟩, hP.wf, fun _ => rfl⟩
      rw [hC.cover p]
      exact ⟨fun h => ⟨h.1, fun h' => absurd h' hm⟩, fun h => ⟨h.1, trivial⟩⟩

/-! ### Without undefined behaviour -/

theorem fold_mono {α β : Type} (f g : β → α → Except Err β) (h : ∀ b a r, f b a = .ok r → g b a = .ok r) (l : List α) (b r : β)
    (e : l.foldlM f b = .ok r) : l.foldlM g b = .ok r := by
  induction l generalizing b with
  | nil => exact e
  | cons a l ih =>
    rw [List.foldlM_cons] at e ⊢
    cases hf : f b a with
    | error _ => rw [hf] at e; cases e
    | ok c =>
      rw [hf] at e
      rw [h _ _ _ hf]
      exact ih c e

theorem mapM_mono {α β : Type} (f g : α → Except Err β) (h : ∀ a r, f a = .ok r → g a = .ok r) (l : List α) (r : List β)
    (e : l.mapM f = .ok r) : l.mapM g = .ok r := by
  induction l generalizing r with
  | nil => exact e
  | cons a l ih =>
    rw [List.mapM_cons] at e ⊢
    cases hf : f a with
    | error _ => rw [hf] at e; cases e
    | ok c =>
      rw [hf] at e
      rw [h _ _ hf]
      cases hl : l.mapM f with
      | error _ => rw [hl] at e; cases e
      | ok cs => rw [hl] at e; rw [ih _ hl]; exact e

theorem lowest_mono (z : Int) (rows : List (List (Int × Int))) (r : Int) (e : lowest none rows = .ok r) :
    lowest (some z) rows = .ok r := by
  induction rows with
  | nil => exact e
  | cons row rows ih =>
    cases row with
    | nil => exact ih e
    | cons s row =>
      refine fold_mono _ _ ?_ rows s.1 r e
      intro low row r h
      cases row with
      | nil => cases h
      | cons s t => exact h

theorem absorb_mono (z : Int) (b v r : Compressed) (e : absorb none b v = .ok r) : absorb (some z) b v = .ok r := by
  unfold absorb at e ⊢
  by_cases hb : b.rows.isEmpty
  · rw [if_pos hb] at e ⊢; exact e
  · rw [if_neg hb] at e ⊢
    simp only [bind, Except.bind] at e ⊢
    cases hm : mergeRows b v 0 b.rows with
    | error _ => rw [hm] at e; cases e
    | ok rows =>
      rw [hm] at e
      dsimp only at e ⊢
      split at e
      · cases e
      · rename_i low hl
        rw [lowest_mono z _ _ hl]
        exact e

theorem cull_mono (z : Int) (maxArea : Int) (bs r : List Compressed) (e : cull none maxArea bs = .ok r) :
    cull (some z) maxArea bs = .ok r := by
  unfold cull at e ⊢
  by_cases hm : maxArea > 0
  · rw [if_pos hm] at e ⊢
    cases bs with
    | nil => exact e
    | cons b bs =>
      simp only [List.head?_cons] at e ⊢
      split at e
      · cases e
      · exact e
  · rw [if_neg hm] at e ⊢; exact e

theorem consolidate_mono (z : Int) (maxArea : Int) (W H t J : Nat) (jobs : List Nat) (bs r : List Compressed)
    (e : consolidate none maxArea W H t J jobs bs = .ok r) : consolidate (some z) maxArea W H t J jobs bs = .ok r := by
  unfold consolidate at e ⊢
  by_cases h : bs.length = 0
  · rw [if_pos h] at e; cases e
  · rw [if_neg h] at e ⊢
    dsimp only at e ⊢
    generalize hj : jobs.mapM (fun j => absorbTask none maxArea bs (component bs.length (joins bs W H t))
      (jobRange (reps bs.length (joins bs W H t)).length J j)) = x at e
    cases x with
    | error _ => cases e
    | ok rs =>
      rw [mapM_mono _ _ (fun j r h => ?_) _ _ hj]
      · exact e
      · exact mapM_mono _ _ (fun parts r h => fold_mono _ _ (absorb_mono z) parts _ r h) _ _ h

/-- If there is no undefined behaviour, the outcome is the one of `threaded_spec_partial`. -/
theorem threaded_mono (z : Int) (valid : Pos → Bool) (W H t : Nat) (maxArea : Int) (order : List Rect) (J : Nat) (jobs : List Nat)
    (T : Threaded) (e : threaded none valid W H t maxArea order J jobs = .ok T) :
    threaded (some z) valid W H t maxArea order J jobs = .ok T := by
  unfold threaded at e ⊢
  simp only [bind, Except.bind] at e ⊢
  cases hm : order.mapM (tileBlobs valid) with
  | error _ => rw [hm] at e; cases e
  | ok l =>
    rw [hm] at e
    dsimp only at e ⊢
    by_cases h1 : order.length > 1
    · rw [if_pos h1] at e ⊢
      cases hc : consolidate none maxArea W H t J jobs l.flatten with
      | error _ => rw [hc] at e; cases e
      | ok cs =>
        rw [hc] at e
        rw [consolidate_mono z _ _ _ _ _ _ _ _ hc]
        dsimp only at e ⊢
        cases hk : cull none maxArea cs with
        | error _ => rw [hk] at e; cases e
        | ok ks => rw [hk] at e; rw [cull_mono z _ _ _ hk]; exact e
    · rw [if_neg h1] at e ⊢
      cases hk : cull none maxArea l.flatten with
      | error _ => rw [hk] at e; cases e
      | ok ks => rw [hk] at e; rw [cull_mono z _ _ _ hk]; exact e

/-- **C53 (without undefined behaviour)**: whenever the constructor ends without undefined behaviour, for whatever order of
tiles and jobs, the blobs are the 8-connected components with at most `maxArea` pixels. -/
theorem threaded_sound (valid : Pos → Bool) {W H t : Nat} (hW : 1 ≤ W) (hH : 1 ≤ H) (ht : 1 ≤ t) (maxArea : Int)
    {order : List Rect} (ho : order.Perm (tiles W H t)) {J : Nat} (hJ : 1 ≤ J) {jobs : List Nat} (hj : jobs.Perm (List.range J))
    (T : Threaded) (e : threaded none valid W H t maxArea order J jobs = .ok T) :
    Components (Valid valid W H) (Small (Valid valid W H) maxArea) T.blobs ∧ (∀ b ∈ T.blobs, WF b) ∧
      (maxArea ≤ 0 ∨ order.length ≠ 1 → T.boxes = T.blobs.map boxOf) := by
  have hv : (∃ p, Valid valid W H p) ∨ order.length = 1 := by
    by_contra hc
    rw [not_or] at hc
    obtain ⟨h1, h2⟩ := hc
    obtain ⟨e1, hP⟩ := tiles_parts valid (by omega : 0 < t) ho
    have hbs : (order.map (blobsOf valid)).flatten = [] := by
      rw [List.eq_nil_iff_forall_not_mem]
      intro b hb
      obtain ⟨p, hp, _⟩ := (good_of_wf (hP.wf b hb) (hP.ord b hb)).first
      exact h1 ⟨p, (hP.cover p).2 ⟨b, hb, hp⟩⟩
    have hlen : order.length ≠ 0 := by
      intro h
      have e := List.length_eq_zero_iff.1 h
      rw [e] at ho
      have := VW.View.subdivide_partition ⟨0, 0, W, H⟩ (by omega : (0 : Int) < t) (by omega : (0 : Int) < t) 0 0
      have e0 : VW.View.subdivide ⟨0, 0, W, H⟩ t t true false = [] := List.nil_perm.1 ho
      rw [e0, if_pos (by simp only [Rect.has, Bool.and_eq_true, decide_eq_true_eq]; omega)] at this
      simp [VW.View.times] at this
    unfold threaded at e
    rw [e1] at e
    simp only [bind, Except.bind] at e
    rw [if_pos (by omega), hbs] at e
    cases e
  obtain ⟨T', e', h⟩ := threaded_spec_partial 0 valid hW hH ht maxArea ho hJ hj hv
  rw [threaded_mono 0 _ _ _ _ _ _ _ _ _ e] at e'
  cases e'
  exact h

/-- **C53 (wipe_big_blobs)**: what is kept are the blobs whose bounding box is at most `maxSize` wide and high, in the same
order, and the boxes are theirs. -/
theorem wipeBig_spec (z : Int) (maxSize : Int) (T : Threaded) (hw : ∀ b ∈ T.blobs, WF b) :
    ∃ T', wipeBig (some z) maxSize T = .ok T' ∧ T'.boxes = T'.blobs.map boxOf ∧ T'.blobs.Sublist T.blobs ∧
      ∀ b ∈ T.blobs, b ∈ T'.blobs ↔ ∀ p ∈ decompress b, ∀ q ∈ decompress b, q.1 - p.1 < maxSize ∧ q.2 - p.2 < maxSize := by
  refine ⟨⟨T.blobs.filter (fun b => ! (decide ((boxOf b).x1 - (boxOf b).x0 > maxSize) ||
    decide ((boxOf b).y1 - (boxOf b).y0 > maxSize))),
    (T.blobs.filter (fun b => ! (decide ((boxOf b).x1 - (boxOf b).x0 > maxSize) ||
    decide ((boxOf b).y1 - (boxOf b).y0 > maxSize)))).map boxOf⟩, ?_, rfl, List.filter_sublist, ?_⟩
  · unfold wipeBig
    dsimp only
    cases T.blobs <;> rfl
  · intro b hb
    dsimp only
    rw [List.mem_filter]
    simp only [Bool.not_eq_true', Bool.or_eq_false_iff, decide_eq_false_iff_not]
    obtain ⟨h1, ⟨p1, hp1, e1⟩, ⟨p2, hp2, e2⟩, ⟨p3, hp3, e3⟩, ⟨p4, hp4, e4⟩, _⟩ := box_spec (hw b hb)
    constructor
    · rintro ⟨_, ha, hb'⟩ p hp q hq
      have := h1 p hp
      have := h1 q hq
      omega
    · intro h
      have a := h p1 hp1 p2 hp2
      have c := h p3 hp3 p4 hp4
      exact ⟨hb, by omega, by omega⟩

/-! ### What fails -/

/-- A component that crosses a tile border. -/
def hook : Pos → Bool := picture ["####", "...#", "####"]

/-- Without a value for the first start of an empty row, a hook that opens to the left across a border is undefined
behaviour, even with one thread: the two ends in the left tile are absorbed before the right part. -/
theorem threaded_hook_ub : threaded none hook 4 3 3 0 (tiles 4 3 3) 1 [0] = .error .ub := by decide +kernel

/-- The same hook, with a value. -/
example : (threaded (some 77) hook 4 3 3 0 (tiles 4 3 3) 1 [0]).map (fun T => T.blobs.map decompress) =
    .ok [[(0,0), (1,0), (2,0), (3,0), (3,1), (0,2), (1,2), (2,2), (3,2)]] := by decide +kernel

/-- With more than one tile and no valid pixel, an edge to vertex number 2^64-1 is added to the graph. -/
theorem threaded_none_ub (z : Option Int) (maxArea : Int) (J : Nat) (jobs : List Nat) :
    threaded z (fun _ => false) 4 3 3 maxArea (tiles 4 3 3) J jobs = .error .ub := by
  have e : (tiles 4 3 3).mapM (tileBlobs (fun _ => false)) = .ok [[], []] := by
    decide +kernel
  unfold threaded
  rw [e]
  have hl : (tiles 4 3 3).length > 1 := by decide +kernel
  simp only [bind, Except.bind]
  rw [if_pos hl]
  rfl

/-- With one tile, the boxes are not culled: there are more boxes than blobs, and box 0 is not that of blob 0. -/
theorem threaded_stale_boxes (z : Option Int) : (threaded z (picture ["#.##.#"]) 6 1 6 1 (tiles 6 1 6) 1 [0]).map
    (fun T => (T.blobs.map boxOf, T.boxes)) = .ok ([⟨0, 0, 1, 1⟩, ⟨5, 0, 6, 1⟩], [⟨0, 0, 1, 1⟩, ⟨2, 0, 4, 1⟩, ⟨5, 0, 6, 1⟩]) := by
  have h : ∀ a : Except Err Threaded, (a = threaded none (picture ["#.##.#"]) 6 1 6 1 (tiles 6 1 6) 1 [0]) →
      a.map (fun T => (T.blobs.map boxOf, T.boxes)) =
        .ok ([⟨0, 0, 1, 1⟩, ⟨5, 0, 6, 1⟩], [⟨0, 0, 1, 1⟩, ⟨2, 0, 4, 1⟩, ⟨5, 0, 6, 1⟩]) := by
    rintro _ rfl; decide +kernel
  apply h
  cases z with
  | none => rfl
  | some z =>
    have e : (tiles 6 1 6).mapM (tileBlobs (picture ["#.##.#"])) = .ok [[⟨0, 0, [[(0, 1)]]⟩, ⟨2, 0, [[(0, 2)]]⟩, ⟨5, 0, [[(0, 1)]]⟩]] := by
      decide +kernel
    unfold threaded
    rw [e]
    rfl

/-- With one tile, when the first blob is too large an iterator is moved before the start. -/
theorem threaded_first_ub : threaded none (picture ["##.#"]) 4 1 4 1 (tiles 4 1 4) 1 [0] = .error .ub := by decide +kernel

/-! ### Non-vacuity -/

def two : Pos → Bool := picture ["##...#", "..##.#", "#....#", ".#.###"]

/-- Tiles done backwards, jobs in another order, a size limit. -/
example : ∃ T, threaded (some 5) two 6 4 2 5 (tiles 6 4 2).reverse 3 [2, 0, 1] = .ok T ∧
    Components (Valid two 6 4) (Small (Valid two 6 4) 5) T.blobs := by
  obtain ⟨T, e, h, _⟩ := threaded_spec_partial 5 two (W := 6) (H := 4) (t := 2) (by omega) (by omega) (by omega) 5
    (order := (tiles 6 4 2).reverse) (List.reverse_perm _) (J := 3) (by omega) (jobs := [2, 0, 1]) (by decide)
    (Or.inl ⟨(0, 0), by unfold Valid inImage; decide +kernel⟩)
  exact ⟨T, e, h⟩

example : (threaded (some 5) two 6 4 2 5 (tiles 6 4 2).reverse 3 [2, 0, 1]).map (fun T => T.blobs.map decompress) =
    .ok [[(0, 0), (1, 0), (2, 1), (3, 1)], [(0, 2), (1, 3)]] := by decide +kernel

/-- Here there is no undefined behaviour. -/
example : ∃ T, threaded none two 6 4 2 5 (tiles 6 4 2) 3 [2, 0, 1] = .ok T ∧ T.blobs.length = 2 ∧
    Components (Valid two 6 4) (Small (Valid two 6 4) 5) T.blobs := by
  have e : (threaded none two 6 4 2 5 (tiles 6 4 2) 3 [2, 0, 1]).map (fun T => T.blobs.length) = .ok 2 := by decide +kernel
  cases h : threaded none two 6 4 2 5 (tiles 6 4 2) 3 [2, 0, 1] with
  | error _ => rw [h] at e; cases e
  | ok T =>
    rw [h] at e
    exact ⟨T, rfl, by simpa [Except.map] using e, (threaded_sound two (by omega) (by omega) (by omega) 5 (List.Perm.refl _)
      (by omega) (by decide) T h).1⟩

end VW.Blob
