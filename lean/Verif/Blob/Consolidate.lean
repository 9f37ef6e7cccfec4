import Verif.Blob.Tiles
/-
Consolidation: the parts of a component become one blob, and every component is done by exactly one job (C53).
-/
namespace VW.Blob
open VW.Grassfire (Pos raster inImage before)
open VW.Block (Rect)
open VW.Graph

/-! ### The pixels of a blob with sorted rows are listed in order -/

theorem runPlaces_sorted (y x0 x1 : Int) : (runPlaces y x0 x1).Pairwise before := by
  unfold runPlaces
  rw [List.pairwise_map]
  exact List.pairwise_lt_range.imp (fun h => by unfold before; dsimp only; omega)

theorem rowPlaces_sorted {r : List (Int × Int)} (h : SortedRow r) (m y : Int) : (rowPlaces m y r).Pairwise before := by
  unfold rowPlaces
  rw [List.pairwise_flatMap]
  refine ⟨fun s _ => runPlaces_sorted _ _ _, h.1.imp ?_⟩
  intro s t hst p hp q hq
  rw [mem_runPlaces] at hp hq
  unfold before
  omega

theorem rowsPlaces_sorted {rs : List (List (Int × Int))} (h : ∀ r ∈ rs, SortedRow r) (m y : Int) :
    (rowsPlaces m y rs).Pairwise before := by
  induction rs generalizing y with
  | nil => exact .nil
  | cons r rs ih =>
    rw [rowsPlaces, List.pairwise_append]
    refine ⟨rowPlaces_sorted (h r (by simp)) m y, ih (fun r hr => h r (List.mem_cons_of_mem _ hr)) _, ?_⟩
    intro p hp q hq
    rw [mem_rowsPlaces] at hq
    unfold rowPlaces at hp
    obtain ⟨s, _, hp⟩ := List.mem_flatMap.1 hp
    rw [mem_runPlaces] at hp
    obtain ⟨i, _, _, _, e, _⟩ := hq
    unfold before
    omega

theorem Good.sorted {b : Compressed} (h : Good b) : (decompress b).Pairwise before := rowsPlaces_sorted h.rows _ _

theorem nodup_of_sorted {l : List Pos} (h : l.Pairwise before) : l.Nodup :=
  h.imp (fun {p q} h e => by subst e; unfold before at h; omega)

/-! ### Absorbing all parts -/

theorem good_of_wf {b : Compressed} (h : WF b) (ho : Ordered b) : Good b := by
  obtain ⟨_, _, _, ⟨p, hp, e1⟩, ⟨q, hq, e2⟩, e3, e4⟩ := box_spec h
  exact ⟨fun r hr => ⟨ho r hr, fun s hs => (h.run r hr s hs).2⟩, ⟨p, hp, by omega⟩, ⟨q, hq, by omega⟩⟩

theorem tight_of_wf {b : Compressed} (h : WF b) : Tight b :=
  ⟨h.row, fun r hr s hs => (h.run r hr s hs).1, h.left⟩

theorem absorb_empty (z : Option Int) (v : Compressed) : absorb z .empty v = .ok v := rfl

theorem absorbFold (z : Int) (parts : List Compressed) (b : Compressed) (hb : Good b) (ht : (∀ r ∈ b.rows, r ≠ []) → Tight b)
    (hg : ∀ v ∈ parts, Good v) (hd : ∀ v ∈ parts, ∀ p ∈ decompress v, p ∉ decompress b)
    (hp : parts.Pairwise (fun v w => ∀ p ∈ decompress v, p ∉ decompress w)) :
    ∃ b', parts.foldlM (absorb (some z)) b = .ok b' ∧ Good b' ∧ ((∀ r ∈ b'.rows, r ≠ []) → Tight b') ∧
      ∀ p, p ∈ decompress b' ↔ p ∈ decompress b ∨ ∃ v ∈ parts, p ∈ decompress v := by
  induction parts generalizing b with
  | nil => exact ⟨b, rfl, hb, ht, by simp⟩
  | cons v parts ih =>
    rw [List.pairwise_cons] at hp
    obtain ⟨b1, e, hg1, hu, ht1⟩ := absorb_spec z hb (hg v (by simp)) (hd v (by simp))
    obtain ⟨b', e', hg', ht', hu'⟩ := ih b1 hg1 ht1 (fun w hw => hg w (List.mem_cons_of_mem _ hw))
      (fun w hw p hpw hpb => by
        rcases (hu p).1 hpb with h | h
        · exact hd w (List.mem_cons_of_mem _ hw) p hpw h
        · exact hp.1 w hw p h hpw) hp.2
    refine ⟨b', ?_, hg', ht', ?_⟩
    · rw [List.foldlM_cons, e]; exact e'
    · intro p
      rw [hu', hu]
      simp only [List.mem_cons, exists_eq_or_imp, or_assoc]

theorem absorbAll_spec (z : Int) (parts : List Compressed) (hne : parts ≠ []) (hw : ∀ v ∈ parts, WF v ∧ Ordered v)
    (hp : parts.Pairwise (fun v w => ∀ p ∈ decompress v, p ∉ decompress w)) :
    ∃ b, absorbAll (some z) parts = .ok b ∧ Good b ∧ ((∀ r ∈ b.rows, r ≠ []) → Tight b) ∧
      ∀ p, p ∈ decompress b ↔ ∃ v ∈ parts, p ∈ decompress v := by
  cases parts with
  | nil => exact absurd rfl hne
  | cons v parts =>
    rw [List.pairwise_cons] at hp
    have hg : ∀ w ∈ v :: parts, Good w := fun w hm => good_of_wf (hw w hm).1 (hw w hm).2
    obtain ⟨b', e', hg', ht', hu'⟩ := absorbFold z parts v (hg v (by simp)) (fun _ => tight_of_wf (hw v (by simp)).1)
      (fun w hm => hg w (List.mem_cons_of_mem _ hm)) (fun w hm p hpw hpv => hp.1 w hm p hpv hpw) hp.2
    refine ⟨b', ?_, hg', ht', ?_⟩
    · unfold absorbAll
      rw [List.foldlM_cons, absorb_empty]
      exact e'
    · intro p
      rw [hu']
      simp only [List.mem_cons, exists_eq_or_imp]

/-- The size of the union of disjoint parts. -/
theorem sizes_sum (parts : List Compressed) (b : Compressed) (hb : Good b) (hw : ∀ v ∈ parts, WF v ∧ Ordered v)
    (hp : parts.Pairwise (fun v w => ∀ p ∈ decompress v, p ∉ decompress w))
    (hu : ∀ p, p ∈ decompress b ↔ ∃ v ∈ parts, p ∈ decompress v) : (parts.map size).sum = (decompress b).length := by
  have e1 : (parts.map size).sum = ((parts.flatMap decompress).length : Int) := by
    clear hu hp hb
    induction parts with
    | nil => rfl
    | cons v parts ih =>
      rw [List.map_cons, List.sum_cons, ih (fun w hm => hw w (List.mem_cons_of_mem _ hm)), size_spec v (hw v (by simp)).1,
        List.flatMap_cons, List.length_append]
      push_cast; rfl
  have e2 : (parts.flatMap decompress).Perm (decompress b) := by
    rw [List.perm_ext_iff_of_nodup _ (nodup_of_sorted hb.sorted)]
    · intro p; rw [List.mem_flatMap, hu]
    · rw [List.nodup_flatMap]
      refine ⟨fun v hv => nodup_of_sorted (good_of_wf (hw v hv).1 (hw v hv).2).sorted, hp.imp ?_⟩
      intro v w h p hpv hpw
      exact h p hpv hpw
  rw [e1, e2.length_eq]

/-! ### Jobs -/

theorem jobs_range (n J m : Nat) : (List.range m).flatMap (jobRange n J) = List.range (n * m / J) := by
  induction m with
  | zero => simp
  | succ m ih =>
    rw [List.range_succ, List.flatMap_append, ih, List.flatMap_singleton]
    unfold jobRange
    have h : n * m / J ≤ n * (m + 1) / J := Nat.div_le_div_right (by rw [Nat.mul_succ]; omega)
    rw [List.range_eq_range', List.range_eq_range']
    have := List.range'_append_1 (s := 0) (m := n * m / J) (n := n * (m + 1) / J - n * m / J)
    rw [Nat.zero_add] at this
    rw [this]
    congr 1
    omega

/-- Every component belongs to exactly one job. -/
theorem jobs_perm (n J : Nat) (hJ : 0 < J) {jobs : List Nat} (h : jobs.Perm (List.range J)) :
    (jobs.flatMap (jobRange n J)).Perm (List.range n) := by
  have := h.flatMap_right (jobRange n J)
  rwa [jobs_range n J J, Nat.mul_div_cancel _ hJ] at this

/-! ### All components -/

variable {V : Pos → Prop} {W H t : Nat} {bs : List Compressed}

/-- The parts of component k. -/
def partsOf (bs : List Compressed) (comp : Nat → Nat) (k : Nat) : List Compressed :=
  ((List.range bs.length).filter (fun i => comp i == k)).map (fun i => bs.getD i .empty)

/-- The blob of parts, without the outcome. -/
def unionOf (z : Option Int) (parts : List Compressed) : Compressed := match absorbAll z parts with | .ok b => b | .error _ => .empty

theorem mem_partsOf {comp : Nat → Nat} {k : Nat} {b : Compressed} :
    b ∈ partsOf bs comp k ↔ ∃ i, ∃ h : i < bs.length, comp i = k ∧ bs[i] = b := by
  unfold partsOf
  rw [List.mem_map]
  constructor
  · rintro ⟨i, hi, rfl⟩
    rw [List.mem_filter, List.mem_range, beq_iff_eq] at hi
    exact ⟨i, hi.1, hi.2, (getD_get hi.1).symm⟩
  · rintro ⟨i, hi, e, rfl⟩
    exact ⟨i, by rw [List.mem_filter, List.mem_range, beq_iff_eq]; exact ⟨hi, e⟩, getD_get hi⟩

/-- One component: the blob has exactly its pixels, and is well formed. -/
theorem component_blob (z : Int) (hP : Parts V W H t bs) (ht : 0 < t) {k : Nat}
    (hk : k < (reps bs.length (joins bs W H t)).length) :
    let parts := partsOf bs (component bs.length (joins bs W H t)) k
    ∃ b, absorbAll (some z) parts = .ok b ∧ WF b ∧ Good b ∧ (parts.map size).sum = (decompress b).length ∧ decompress b ≠ [] ∧
      (∀ p, p ∈ decompress b ↔ ∃ i, ∃ h : i < bs.length, component bs.length (joins bs W H t) i = k ∧ p ∈ decompress bs[i]) ∧
      (∀ p ∈ decompress b, ∀ q, q ∈ decompress b ↔ Linked V p q) := by
  intro parts
  have hmem : ∀ b, b ∈ parts ↔ ∃ i, ∃ h : i < bs.length, component bs.length (joins bs W H t) i = k ∧ bs[i] = b := fun b => mem_partsOf
  have hw : ∀ v ∈ parts, WF v ∧ Ordered v := by
    intro v hv
    obtain ⟨i, hi, _, rfl⟩ := (hmem v).1 hv
    exact ⟨hP.wf _ (List.getElem_mem hi), hP.ord _ (List.getElem_mem hi)⟩
  have hne : parts ≠ [] := by
    obtain ⟨i, hi, e⟩ := component_surj hk
    exact List.ne_nil_of_mem ((hmem bs[i]).2 ⟨i, hi, e, rfl⟩)
  have hpw : parts.Pairwise (fun v w => ∀ p ∈ decompress v, p ∉ decompress w) := by
    show (partsOf bs _ k).Pairwise _
    unfold partsOf
    rw [List.pairwise_map]
    have h1 : (List.range bs.length).Pairwise (fun i j => ∀ p ∈ decompress (bs.getD i .empty), p ∉ decompress (bs.getD j .empty)) := by
      refine List.pairwise_lt_range.imp_of_mem ?_
      intro i j hi hj hij p hp hq
      rw [List.mem_range] at hi hj
      rw [getD_get hi] at hp
      rw [getD_get hj] at hq
      exact (hP.diff i j hi hj (by omega) p hp p hq).1 rfl
    exact h1.filter _
  obtain ⟨b, e, hg, htight, hu⟩ := absorbAll_spec z parts hne hw hpw
  have hu' : ∀ p, p ∈ decompress b ↔ ∃ i, ∃ h : i < bs.length, component bs.length (joins bs W H t) i = k ∧ p ∈ decompress bs[i] := by
    intro p
    rw [hu]
    constructor
    · rintro ⟨v, hv, hp⟩
      obtain ⟨i, hi, e, rfl⟩ := (hmem v).1 hv
      exact ⟨i, hi, e, hp⟩
    · rintro ⟨i, hi, e, hp⟩
      exact ⟨bs[i], (hmem _).2 ⟨i, hi, e, rfl⟩, hp⟩
  have hlink : ∀ p ∈ decompress b, ∀ q, q ∈ decompress b ↔ Linked V p q := by
    intro p hp q
    obtain ⟨i, hi, ei, hpi⟩ := (hu' p).1 hp
    constructor
    · intro hq
      obtain ⟨j, hj, ej, hqj⟩ := (hu' q).1 hq
      exact (joins_conn hP ht hi hj hpi hqj).1 ((component_eq hi hj).1 (ei.trans ej.symm))
    · intro hl
      obtain ⟨c, hc, hq⟩ := (hP.cover q).1 hl.right
      obtain ⟨j, hj, rfl⟩ := List.mem_iff_getElem.1 hc
      rw [hu']
      exact ⟨j, hj, ((component_eq hi hj).2 ((joins_conn hP ht hi hj hpi hq).2 hl)).symm.trans ei, hq⟩
  have hrows : ∀ r ∈ b.rows, r ≠ [] := by
    intro r hr
    obtain ⟨i, hi, rfl⟩ := List.mem_iff_getElem.1 hr
    obtain ⟨p, hp, ep⟩ := hg.first
    obtain ⟨q, hq, eq⟩ := hg.last
    obtain ⟨m, hm, em⟩ := ((hlink p hp q).1 hq).rows (b.minY + i) (by omega) (by omega)
    have := (hlink p hp m).2 hm
    rw [mem_decompress', em, rowAt_get hi] at this
    obtain ⟨s, hs, _⟩ := this
    exact List.ne_nil_of_mem hs
  obtain ⟨t1, t2, t3⟩ := htight hrows
  have hrun : ∀ r ∈ b.rows, ∀ s ∈ r, 0 ≤ s.1 ∧ s.1 < s.2 := fun r hr s hs => ⟨t2 r hr s hs, (hg.rows r hr).2 s hs⟩
  obtain ⟨p0, hp0, _⟩ := hg.first
  refine ⟨b, e, ⟨?_, hg.ne_nil, t1, hrun, t3⟩, hg, sizes_sum parts b hg hw hpw hu, List.ne_nil_of_mem hp0, hu', hlink⟩
  obtain ⟨r, hr, s, hs, e0⟩ := t3
  obtain ⟨i, hi, rfl⟩ := List.mem_iff_getElem.1 hr
  have hs2 := hrun _ hr s hs
  have hpx : ((b.minX, b.minY + i) : Pos) ∈ decompress b := by
    rw [mem_decompress]
    exact ⟨i, hi, s, hs, rfl, by dsimp only; omega, by dsimp only; omega⟩
  have := hP.img _ (((hlink p0 hp0 _).1 hpx).right)
  exact this.1

/-- Consolidation ends, and gives for every component that is not too large its blob. -/
theorem consolidate_eq (z : Int) (maxArea : Int) (hP : Parts V W H t bs) (ht : 0 < t) (hne : bs ≠ []) (J : Nat) (hJ : 0 < J)
    {jobs : List Nat} (hj : jobs.Perm (List.range J)) :
    ∃ ks : List Nat, ks.Perm (List.range (reps bs.length (joins bs W H t)).length) ∧
      consolidate (some z) maxArea W H t J jobs bs =
        .ok ((ks.filter (fun k => ! tooLarge maxArea (partsOf bs (component bs.length (joins bs W H t)) k))).map
          (fun k => unionOf (some z) (partsOf bs (component bs.length (joins bs W H t)) k))) := by
  refine ⟨_, jobs_perm _ J hJ hj, ?_⟩
  have hl : bs.length ≠ 0 := fun h => hne (List.length_eq_zero_iff.1 h)
  unfold consolidate
  rw [if_neg hl]
  dsimp only
  have htask : ∀ j ∈ jobs, absorbTask (some z) maxArea bs (component bs.length (joins bs W H t))
      (jobRange (reps bs.length (joins bs W H t)).length J j) =
      .ok (((jobRange (reps bs.length (joins bs W H t)).length J j).filter
        (fun k => ! tooLarge maxArea (partsOf bs (component bs.length (joins bs W H t)) k))).map
          (fun k => unionOf (some z) (partsOf bs (component bs.length (joins bs W H t)) k))) := by
    intro j hjm
    unfold absorbTask
    rw [List.map_map]
    have e : ((fun is => is.map (fun i => bs.getD i .empty)) ∘
        fun k => (List.range bs.length).filter (fun i => component bs.length (joins bs W H t) i == k)) =
        partsOf bs (component bs.length (joins bs W H t)) := rfl
    rw [e, List.filter_map, mapM_ok _ (unionOf (some z))]
    · rw [List.map_map]; rfl
    · intro parts hp
      obtain ⟨k, hk, rfl⟩ := List.mem_map.1 hp
      have hk := (List.mem_filter.1 hk).1
      have hlt : k < (reps bs.length (joins bs W H t)).length := by
        have := ((jobs_perm (reps bs.length (joins bs W H t)).length J hJ hj).mem_iff (a := k)).1 (List.mem_flatMap.2 ⟨j, hjm, hk⟩)
        exact List.mem_range.1 this
      obtain ⟨b, e, _⟩ := component_blob z hP ht hlt
      unfold unionOf
      rw [e]
  rw [mapM_ok _ _ _ htask]
  show Except.ok _ = _
  rw [← List.flatMap_def, List.filter_flatMap, List.map_flatMap]

end VW.Blob
