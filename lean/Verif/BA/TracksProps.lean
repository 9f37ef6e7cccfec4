import Mathlib.Data.List.Perm.Subperm
import Mathlib.Data.List.Induction
import Verif.BA.TracksCore

/-
The control network made from match files.
-/

namespace Verif.BA

variable {X : Type} [LinearOrder X] {mn : Nat} {mx : Int} {sh : Nat → List Nat} {safe : X → X}

/-- Seen as the same point of the ground: connected by a chain of matches, in either direction. -/
def SamePoint (M : Nat × X → Nat × X → Prop) (u v : Nat × X) : Prop := Relation.EqvGen M u v

/-! ### From tracks to points -/

omit [LinearOrder X] in
theorem Core.getElem {M : Nat × X → Nat × X → Prop} {net K ms st} (h : Core M net K ms st) {k : Nat} {p}
    (hp : net[k]? = some p) : ∃ t : Nat × AMap Nat Nat, st.pcf[k]? = some t ∧ st.pcf.find t.1 = some t.2 ∧
      AMap.Ok t.2 ∧ List.Forall₂ (fun (e : Nat × Nat) (m : Nat × X) => e.1 = m.1 ∧ (K e.1)[e.2]? = some m.2) t.2 p := by
  obtain ⟨hk, rfl⟩ := List.getElem?_eq_some_iff.1 hp
  have hk' : k < st.pcf.length := by rw [h.pts.length_eq]; exact hk
  have hfd := (AMap.mem_iff h.inv.okp.1).1 (show ((st.pcf[k]).1, (st.pcf[k]).2) ∈ st.pcf from List.getElem_mem hk')
  exact ⟨st.pcf[k], List.getElem?_eq_some_iff.2 ⟨hk', rfl⟩, hfd, h.inv.okp.2 _ _ hfd,
    (List.forall₂_iff_get.1 h.pts).2 k hk' hk⟩

theorem forall₂_mem_right {A B : Type} {R : A → B → Prop} {l : List A} {r : List B} (h : List.Forall₂ R l r) {b : B}
    (hb : b ∈ r) : ∃ a ∈ l, R a b := by
  induction h with
  | nil => cases hb
  | cons h1 _ ih =>
    rcases List.mem_cons.1 hb with rfl | hb
    · exact ⟨_, by simp, h1⟩
    · obtain ⟨a, ha, hr⟩ := ih hb
      exact ⟨a, by simp [ha], hr⟩

theorem forall₂_mem_left {A B : Type} {R : A → B → Prop} {l : List A} {r : List B} (h : List.Forall₂ R l r) {a : A}
    (ha : a ∈ l) : ∃ b ∈ r, R a b := by
  induction h with
  | nil => cases ha
  | cons h1 _ ih =>
    rcases List.mem_cons.1 ha with rfl | ha
    · exact ⟨_, by simp, h1⟩
    · obtain ⟨b, hb, hr⟩ := ih ha
      exact ⟨b, by simp [hb], hr⟩

omit [LinearOrder X] in
/-- A measure of the `k`-th point comes from a feature of the track. -/
theorem Core.feature {M : Nat × X → Nat × X → Prop} {net K ms st} (h : Core M net K ms st) {k : Nat} {p}
    (hp : net[k]? = some p) : ∃ q, ∃ t : AMap Nat Nat, st.pcf[k]? = some (q, t) ∧ ∀ m : Nat × X, m ∈ p ↔
      ∃ f : Nat, find2 st.pcf q m.1 = some f ∧ (K m.1)[f]? = some m.2 := by
  obtain ⟨t, h0, h1, h2, h3⟩ := h.getElem hp
  refine ⟨t.1, t.2, h0, fun m => ?_⟩
  constructor
  · intro hm
    obtain ⟨e, he, h4, h5⟩ := forall₂_mem_right h3 hm
    refine ⟨e.2, ?_, ?_⟩
    · unfold find2
      rw [h1, ← h4]
      exact (AMap.mem_iff h2).1 he
    · rw [← h4]; exact h5
  · rintro ⟨f, h4, h5⟩
    unfold find2 at h4
    rw [h1] at h4
    obtain ⟨b, hb, h6, h7⟩ := forall₂_mem_left h3 (AMap.find_mem h4)
    have : b = m := by
      refine Prod.ext h6.symm ?_
      rw [h5] at h7
      exact (Option.some.inj h7).symm
    rwa [← this]

omit [LinearOrder X] in
theorem Core.name_inj {M : Nat × X → Nat × X → Prop} {net K ms st} (h : Core M net K ms st) {i a b : Nat} {x : X}
    (ha : (K i)[a]? = some x) (hb : (K i)[b]? = some x) : a = b := by
  obtain ⟨h1, h2⟩ := List.getElem?_eq_some_iff.1 ha
  obtain ⟨h3, h4⟩ := List.getElem?_eq_some_iff.1 hb
  exact (h.nodup i).getElem_inj_iff.1 (h2.trans h4.symm)

omit [LinearOrder X] in
/-- A chain between features is a chain between the interest points. -/
theorem Core.chain {M : Nat × X → Nat × X → Prop} {net K ms st} (h : Core M net K ms st) {u v : Feat}
    (hc : Relation.EqvGen (Linked ms) u v) :
    ∀ x y, (K u.1)[u.2]? = some x → (K v.1)[v.2]? = some y → Relation.EqvGen M (u.1, x) (v.1, y) := by
  have key : ∀ u v : Feat, Relation.EqvGen (Linked ms) u v → u = v ∨
      ∃ x y, (K u.1)[u.2]? = some x ∧ (K v.1)[v.2]? = some y ∧ Relation.EqvGen M (u.1, x) (v.1, y) := by
    intro u v hc
    induction hc with
    | rel u v huv =>
      obtain ⟨_, x, y, h1, h2, h3⟩ := (h.lnk u v).1 huv
      refine Or.inr ⟨x, y, h1, h2, ?_⟩
      rcases h3 with h3 | h3
      · exact Relation.EqvGen.rel _ _ h3
      · exact Relation.EqvGen.symm _ _ (Relation.EqvGen.rel _ _ h3)
    | refl u => exact Or.inl rfl
    | symm u v _ ih =>
      rcases ih with rfl | ⟨x, y, h1, h2, h3⟩
      · exact Or.inl rfl
      · exact Or.inr ⟨y, x, h2, h1, Relation.EqvGen.symm _ _ h3⟩
    | trans u v w _ _ ih1 ih2 =>
      rcases ih1 with rfl | ⟨x, y, h1, h2, h3⟩
      · exact ih2
      · rcases ih2 with rfl | ⟨y', z, h4, h5, h6⟩
        · exact Or.inr ⟨x, y, h1, h2, h3⟩
        · rw [h2] at h4
          cases h4
          exact Or.inr ⟨x, z, h1, h5, Relation.EqvGen.trans _ _ _ h3 h6⟩
  intro x y hx hy
  rcases key u v hc with rfl | ⟨x', y', h1, h2, h3⟩
  · rw [hx] at hy; cases hy
    exact Relation.EqvGen.refl _
  · rw [hx] at h1; rw [hy] at h2
    cases h1; cases h2
    exact h3

/-! ### The properties -/

/-- A network is made of any match files none of which is of an image with itself. -/
theorem network_total {files : AMap Pair (List (X × X))} (hf : AMap.Ok files)
    (hne : ∀ i, files.find (toLex (i, i)) = none) : ∃ net, buildNetwork mn mx sh safe files = some net := by
  obtain ⟨net, _, _, _, h, _⟩ := network_core (mn := mn) (mx := mx) (sh := sh) (safe := safe) hf hne
  exact ⟨net, h⟩

/-- Every control point has at least two measures, at most one in each image, in ascending order of the images. -/
theorem network_measures {files : AMap Pair (List (X × X))} (hf : AMap.Ok files)
    (hne : ∀ i, files.find (toLex (i, i)) = none) {net} (hn : buildNetwork mn mx sh safe files = some net)
    {p} (hp : p ∈ net) : 2 ≤ p.length ∧ (p.map Prod.fst).Pairwise (· < ·) := by
  obtain ⟨net', K, ms, st, h, hc⟩ := network_core (mn := mn) (mx := mx) (sh := sh) (safe := safe) hf hne
  rw [hn] at h
  cases h
  obtain ⟨k, hk⟩ := List.mem_iff_getElem?.1 hp
  obtain ⟨t, _, h1, h2, h3⟩ := hc.getElem hk
  constructor
  · have h4 : t.1 < st.pcf.length := by
      by_contra hcon
      rw [(hc.inv.dom _).2 (by omega)] at h1
      cases h1
    have := hc.inv.two _ h4
    unfold inner at this
    rw [h1] at this
    rw [← h3.length_eq]
    exact this
  · have : p.map Prod.fst = t.2.keys := by
      unfold AMap.keys
      clear hp hk h1 h2
      generalize t.2 = l at h3
      induction h3 with
      | nil => rfl
      | cons h _ ih => rw [List.map_cons, List.map_cons, ih, h.1]
    rw [this]
    exact h2.keys_sorted

/-- The measures of a control point are interest points in matches, and connected by chains of matches. -/
theorem network_connected {files : AMap Pair (List (X × X))} (hf : AMap.Ok files)
    (hne : ∀ i, files.find (toLex (i, i)) = none) {net} (hn : buildNetwork mn mx sh safe files = some net)
    {p} (hp : p ∈ net) :
    (∀ u ∈ p, ∃ v, Matched mn mx sh safe files u v ∨ Matched mn mx sh safe files v u) ∧
      ∀ u ∈ p, ∀ v ∈ p, SamePoint (Matched mn mx sh safe files) u v := by
  obtain ⟨net', K, ms, st, h, hc⟩ := network_core (mn := mn) (mx := mx) (sh := sh) (safe := safe) hf hne
  rw [hn] at h
  cases h
  obtain ⟨k, hk⟩ := List.mem_iff_getElem?.1 hp
  obtain ⟨q, t, _, hm⟩ := hc.feature hk
  constructor
  · intro u hu
    obtain ⟨f, h1, h2⟩ := (hm u).1 hu
    obtain ⟨w, h3 | h3⟩ := (hc.inv.occ u.1 f).1 ⟨_, hc.inv.back _ _ _ h1⟩
    · obtain ⟨_, x, y, h4, _, h5⟩ := (hc.lnk _ _).1 h3
      rw [h2] at h4; cases h4
      exact ⟨(w.1, y), h5⟩
    · obtain ⟨_, x, y, _, h4, h5⟩ := (hc.lnk _ _).1 h3
      rw [h2] at h4; cases h4
      exact ⟨(w.1, x), h5.symm⟩
  · intro u hu v hv
    obtain ⟨f, h1, h2⟩ := (hm u).1 hu
    obtain ⟨g, h3, h4⟩ := (hm v).1 hv
    exact hc.chain (hc.inv.conn _ _ _ _ _ (hc.inv.back _ _ _ h1) (hc.inv.back _ _ _ h3)) _ _ h2 h4

/-- No interest point is in two control points. -/
theorem network_disjoint {files : AMap Pair (List (X × X))} (hf : AMap.Ok files)
    (hne : ∀ i, files.find (toLex (i, i)) = none) {net} (hn : buildNetwork mn mx sh safe files = some net)
    {j k : Nat} {p q : List (Nat × X)} (hj : net[j]? = some p) (hk : net[k]? = some q) {u : Nat × X} (hu : u ∈ p)
    (hv : u ∈ q) : j = k := by
  obtain ⟨net', K, ms, st, h, hc⟩ := network_core (mn := mn) (mx := mx) (sh := sh) (safe := safe) hf hne
  rw [hn] at h
  cases h
  obtain ⟨a, t, ha, hm⟩ := hc.feature hj
  obtain ⟨b, s, hb, hm'⟩ := hc.feature hk
  obtain ⟨f, h1, h2⟩ := (hm u).1 hu
  obtain ⟨g, h3, h4⟩ := (hm' u).1 hv
  have hfg := hc.name_inj h2 h4
  subst hfg
  have h5 := hc.inv.back _ _ _ h1
  rw [hc.inv.back _ _ _ h3] at h5
  have hab : b = a := Option.some.inj h5
  have hs : st.pcf.keys.Nodup := (hc.inv.okp.1.keys_sorted).imp (fun h => ne_of_lt h)
  have e1 : st.pcf.keys[j]? = some a := by unfold AMap.keys; rw [List.getElem?_map, ha]; rfl
  have e2 : st.pcf.keys[k]? = some b := by unfold AMap.keys; rw [List.getElem?_map, hb]; rfl
  obtain ⟨l1, e1⟩ := List.getElem?_eq_some_iff.1 e1
  obtain ⟨l2, e2⟩ := List.getElem?_eq_some_iff.1 e2
  exact hs.getElem_inj_iff.1 (by rw [e1, e2, hab])

/-- For every interest point in a match there is a control point with a measure in the same image, at an interest point
connected to it by matches. -/
theorem network_covers {files : AMap Pair (List (X × X))} (hf : AMap.Ok files)
    (hne : ∀ i, files.find (toLex (i, i)) = none) {net} (hn : buildNetwork mn mx sh safe files = some net)
    {u v : Nat × X} (huv : Matched mn mx sh safe files u v ∨ Matched mn mx sh safe files v u) :
    ∃ p ∈ net, ∃ x, (u.1, x) ∈ p ∧ SamePoint (Matched mn mx sh safe files) u (u.1, x) := by
  obtain ⟨net', K, ms, st, h, hc⟩ := network_core (mn := mn) (mx := mx) (sh := sh) (safe := safe) hf hne
  rw [hn] at h
  cases h
  have hocc : ∃ a, (K u.1)[a]? = some u.2 ∧ Occurs ms (u.1, a) := by
    have main : ∀ w z, Matched mn mx sh safe files w z → ∃ a b : Nat, (K w.1)[a]? = some w.2 ∧ (K z.1)[b]? = some z.2 ∧
        Occurs ms (w.1, a) ∧ Occurs ms (z.1, b) := by
      intro w z hM
      obtain ⟨h1, ⟨a, ha⟩, b, hb⟩ := hc.num w z hM
      refine ⟨a, b, ha, hb, ?_⟩
      rcases Nat.lt_or_gt_of_ne h1 with h2 | h2
      · have := (hc.lnk (w.1, a) (z.1, b)).2 ⟨h2, w.2, z.2, ha, hb, Or.inl hM⟩
        exact ⟨⟨_, Or.inl this⟩, ⟨_, Or.inr this⟩⟩
      · have := (hc.lnk (z.1, b) (w.1, a)).2 ⟨h2, z.2, w.2, hb, ha, Or.inr hM⟩
        exact ⟨⟨_, Or.inr this⟩, ⟨_, Or.inl this⟩⟩
    rcases huv with hM | hM
    · obtain ⟨a, b, h1, _, h3, _⟩ := main _ _ hM
      exact ⟨a, h1, h3⟩
    · obtain ⟨a, b, _, h1, _, h3⟩ := main _ _ hM
      exact ⟨b, h1, h3⟩
  obtain ⟨a, ha, ho⟩ := hocc
  obtain ⟨q, hq⟩ := (hc.inv.occ u.1 a).2 ho
  obtain ⟨f, hf'⟩ := hc.inv.kept _ _ _ hq
  have hlt := hc.inv.lt _ _ _ hq
  have hsome : ∃ t, st.pcf.find q = some t := by
    cases h : st.pcf.find q with
    | none => rw [hc.inv.dom] at h; omega
    | some t => exact ⟨t, rfl⟩
  obtain ⟨t, ht⟩ := hsome
  obtain ⟨k, hk⟩ := List.mem_iff_getElem?.1 (AMap.find_mem ht)
  have hkl : k < net.length := by
    rw [← hc.pts.length_eq]
    exact (List.getElem?_eq_some_iff.1 hk).1
  obtain ⟨q', t', e1, e2⟩ := hc.feature (List.getElem?_eq_some_iff.2 ⟨hkl, rfl⟩)
  rw [hk] at e1
  cases e1
  have hx : ∃ x, (K u.1)[f]? = some x := by
    obtain ⟨w, h3 | h3⟩ := (hc.inv.occ u.1 f).1 ⟨_, hc.inv.back _ _ _ hf'⟩
    · obtain ⟨_, x, y, h4, _, h5⟩ := (hc.lnk _ _).1 h3
      exact ⟨x, h4⟩
    · obtain ⟨_, x, y, _, h4, h5⟩ := (hc.lnk _ _).1 h3
      exact ⟨y, h4⟩
  obtain ⟨x, hx⟩ := hx
  refine ⟨_, List.getElem_mem hkl, x, (e2 (u.1, x)).2 ⟨f, hf', hx⟩, ?_⟩
  exact hc.chain (hc.inv.conn _ _ _ _ _ hq (hc.inv.back _ _ _ hf')) _ _ ha hx

/-- An interest point of a match that is connected to no other interest point of its image is in exactly one control
point. -/
theorem network_once {files : AMap Pair (List (X × X))} (hf : AMap.Ok files)
    (hne : ∀ i, files.find (toLex (i, i)) = none) {net} (hn : buildNetwork mn mx sh safe files = some net)
    {u v : Nat × X} (huv : Matched mn mx sh safe files u v ∨ Matched mn mx sh safe files v u)
    (hone : ∀ x, SamePoint (Matched mn mx sh safe files) u (u.1, x) → x = u.2) :
    ∃ k : Nat, (∃ p, net[k]? = some p ∧ u ∈ p) ∧ ∀ j : Nat, (∃ p, net[j]? = some p ∧ u ∈ p) → j = k := by
  obtain ⟨p, hp, x, hx, hs⟩ := network_covers hf hne hn huv
  rw [hone x hs] at hx
  obtain ⟨k, hk⟩ := List.mem_iff_getElem?.1 hp
  refine ⟨k, ⟨p, hk, hx⟩, ?_⟩
  rintro j ⟨q, hq, hu⟩
  exact network_disjoint hf hne hn hq hk hu hx

/-! ### Direction of the files -/

omit [LinearOrder X] in
theorem thin_map {Y Z : Type} (g : Y × Y → Z × Z) (ms : List (Y × Y)) :
    thin sh mx (ms.map g) = (thin sh mx ms).map g := by
  unfold thin
  rw [List.length_map]
  split_ifs with h
  · generalize (pickIndices sh ms.length mx.toNat).insertionSort (· ≤ ·) = l
    induction l with
    | nil => rfl
    | cons i l ih =>
      rw [List.filterMap_cons, List.filterMap_cons, List.getElem?_map, ih]
      cases ms[i]? <;> rfl
  · rfl

omit [LinearOrder X] in
theorem keep_swap (raw : List (X × X)) :
    keep mn mx sh safe (raw.map Prod.swap) = (keep mn mx sh safe raw).map (List.map Prod.swap) := by
  unfold keep
  rw [List.length_map]
  split_ifs with h
  · rfl
  · rw [Option.map_some, ← thin_map, List.map_map, List.map_map]
    rfl

theorem load_good {files : AMap Pair (List (X × X))} (hf : AMap.Ok files)
    (hne : ∀ i, files.find (toLex (i, i)) = none) :
    ∀ e ∈ (load mn mx sh safe files).found, Good (fun i => number ((load mn mx sh safe files).keys i)) e := by
  obtain ⟨o1, o2, o3, o4⟩ := load_spec (mn := mn) (mx := mx) (sh := sh) (safe := safe) hf
  intro e he
  have he' := (AMap.mem_iff o1).1 he
  rw [o3] at he'
  refine ⟨?_, fun m hm => ?_⟩
  · intro h
    have : files.find e.1 = none := by
      have := hne (ofLex e.1).1
      have h2 : e.1 = toLex ((ofLex e.1).1, (ofLex e.1).1) := by
        apply ofLex.injective
        exact Prod.ext rfl h.symm
      rw [h2]; exact this
    rw [this] at he'
    cases he'
  · have hM : Matched mn mx sh safe files ((ofLex e.1).1, m.1) ((ofLex e.1).2, m.2) :=
      matched_iff.2 ⟨e.2, he', hm⟩
    exact ⟨number_some (o2 _).1 ((o4 _ _).2 ((matched_inFiles hf).2 ⟨_, Or.inl hM⟩)),
      number_some (o2 _).1 ((o4 _ _).2 ((matched_inFiles hf).2 ⟨_, Or.inr hM⟩))⟩

/-- `files'` holds the matches of `files`, some of the pairs of images in the other direction. -/
def Flipped (files files' : AMap Pair (List (X × X))) : Prop :=
  ∀ i j, (files'.find (toLex (i, j)) = files.find (toLex (i, j)) ∧ files'.find (toLex (j, i)) = files.find (toLex (j, i))) ∨
    (files'.find (toLex (i, j)) = (files.find (toLex (j, i))).map (List.map Prod.swap) ∧
      files'.find (toLex (j, i)) = (files.find (toLex (i, j))).map (List.map Prod.swap) ∧
      (files.find (toLex (i, j)) = none ∨ files.find (toLex (j, i)) = none))

omit [LinearOrder X] in
theorem matched_flip {files files' : AMap Pair (List (X × X))} (hs : Flipped files files') (u v : Nat × X) :
    (Matched mn mx sh safe files' u v ∨ Matched mn mx sh safe files' v u) ↔
      (Matched mn mx sh safe files u v ∨ Matched mn mx sh safe files v u) := by
  have key : ∀ (o : Option (List (X × X))) (a b : X),
      (∃ ms, (o.map (List.map Prod.swap)).bind (keep mn mx sh safe) = some ms ∧ (a, b) ∈ ms) ↔
        ∃ ms, o.bind (keep mn mx sh safe) = some ms ∧ (b, a) ∈ ms := by
    intro o a b
    cases o with
    | none => simp
    | some raw =>
      simp only [Option.map_some, Option.bind_some, keep_swap]
      cases keep mn mx sh safe raw with
      | none => simp
      | some l =>
        simp only [Option.map_some, Option.some.injEq, exists_eq_left', List.mem_map, Prod.exists, Prod.swap_prod_mk,
          Prod.mk.injEq]
        constructor
        · rintro ⟨x, y, h, rfl, rfl⟩; exact h
        · intro h; exact ⟨b, a, h, rfl, rfl⟩
  simp only [matched_iff]
  rcases hs u.1 v.1 with ⟨h1, h2⟩ | ⟨h1, h2, _⟩
  · rw [h1, h2]
  · rw [h1, h2, key, key, or_comm]

omit [LinearOrder X] in
theorem app_swap {A : Type} {a b : Option (List A)} (h : a = none ∨ b = none) : app a b = app b a := by
  rcases h with h | h <;> subst h <;> simp [app_none] <;> rfl

/-- The network does not depend on the direction in which a pair of images was matched. -/
theorem network_direction {files files' : AMap Pair (List (X × X))} (hf : AMap.Ok files) (hf' : AMap.Ok files')
    (hne : ∀ i, files.find (toLex (i, i)) = none) (hs : Flipped files files') :
    buildNetwork mn mx sh safe files' = buildNetwork mn mx sh safe files := by
  have hne' : ∀ i, files'.find (toLex (i, i)) = none := by
    intro i
    rcases hs i i with ⟨h, _⟩ | ⟨h, _⟩
    · rw [h, hne]
    · rw [h, hne]; rfl
  obtain ⟨o1, o2, o3, o4⟩ := load_spec (mn := mn) (mx := mx) (sh := sh) (safe := safe) hf
  obtain ⟨o1', o2', o3', o4'⟩ := load_spec (mn := mn) (mx := mx) (sh := sh) (safe := safe) hf'
  have g := load_good (mn := mn) (mx := mx) (sh := sh) (safe := safe) hf hne
  have g' := load_good (mn := mn) (mx := mx) (sh := sh) (safe := safe) hf' hne'
  have hkeys : (load mn mx sh safe files').keys = (load mn mx sh safe files).keys := by
    funext i
    refine (o2' i).ext (o2 i) (fun x => ?_)
    rw [o4, o4', matched_inFiles hf, matched_inFiles hf']
    exact exists_congr (fun w => matched_flip hs _ _)
  unfold buildNetwork
  rw [hkeys] at g'
  obtain ⟨out, a1, a2, a3⟩ := toMvg_spec o1 g
  obtain ⟨out', b1, b2, b3⟩ := toMvg_spec o1' g'
  have hout : out' = out := by
    refine AMap.ext b2 a2 (fun k => ?_)
    rw [show k = toLex ((ofLex k).1, (ofLex k).2) from rfl, a3, b3]
    split_ifs with hlt
    · simp only [o3, o3']
      have hmm : ∀ (o : Option (List (X × X))) (kp : Nat → AMap X Nat) (l r : Nat), l < r →
          ((((o.map (List.map Prod.swap)).bind (keep mn mx sh safe)).map (outIds kp (toLex (l, r)))) =
            (o.bind (keep mn mx sh safe)).map (outIds kp (toLex (r, l)))) ∧
          ((((o.map (List.map Prod.swap)).bind (keep mn mx sh safe)).map (outIds kp (toLex (r, l)))) =
            (o.bind (keep mn mx sh safe)).map (outIds kp (toLex (l, r)))) := by
        intro o kp l r hlr
        cases o with
        | none => exact ⟨rfl, rfl⟩
        | some raw =>
          simp only [Option.map_some, Option.bind_some, keep_swap]
          cases keep mn mx sh safe raw with
          | none => exact ⟨rfl, rfl⟩
          | some l =>
            simp only [Option.map_some, outIds_lt hlr, outIds_gt hlr, List.map_map]
            exact ⟨rfl, rfl⟩
      rcases hs (ofLex k).1 (ofLex k).2 with ⟨h1, h2⟩ | ⟨h1, h2, h3⟩
      · rw [h1, h2]
      · rw [h1, h2, (hmm _ _ _ _ hlt).1, (hmm _ _ _ _ hlt).2]
        refine app_swap ?_
        rcases h3 with h3 | h3
        · exact Or.inr (by rw [h3]; rfl)
        · exact Or.inl (by rw [h3]; rfl)
    · rfl
  simp only [hkeys, a1, b1, hout]

/-- A file of matches of an image with itself, if long enough, makes the function throw. -/
theorem network_self {files : AMap Pair (List (X × X))} (hf : AMap.Ok files) {i : Nat} {raw : List (X × X)}
    (hi : files.find (toLex (i, i)) = some raw) (hlen : mn ≤ raw.length) :
    buildNetwork mn mx sh safe files = none := by
  obtain ⟨o1, o2, o3, o4⟩ := load_spec (mn := mn) (mx := mx) (sh := sh) (safe := safe) hf
  have h1 : (load mn mx sh safe files).found.find (toLex (i, i)) ≠ none := by
    rw [o3, hi]
    simp [keep, show ¬ raw.length < mn by omega]
  obtain ⟨ms, h2⟩ := Option.ne_none_iff_exists'.1 h1
  have h3 := AMap.find_mem h2
  unfold buildNetwork toMvg
  have : ∀ (kp : Nat → AMap X Nat) (l : List (Pair × List (X × X))) out, (toLex (i, i), ms) ∈ l →
      l.foldlM (toMvgOne kp) out = none := by
    intro kp l
    induction l with
    | nil => intro out h; cases h
    | cons e l ih =>
      intro out h
      rw [List.foldlM_cons]
      rcases List.mem_cons.1 h with rfl | h
      · simp [toMvgOne]
      · cases hh : toMvgOne kp out e with
        | none => rfl
        | some o => exact ih o h
  simp only [this _ _ [] h3, Option.bind_eq_bind, Option.bind_none]

/-! ### Thinning -/

omit [LinearOrder X] in
/-- The thinning of a file keeps the order of the matches, and as many as asked for. -/
theorem thin_spec {Y : Type} (hsh : ∀ n, (sh n).Perm (List.range n)) (ms : List (Y × Y)) :
    (thin sh mx ms).Sublist ms ∧
      (thin sh mx ms).length = if 0 ≤ mx then min mx.toNat ms.length else ms.length := by
  unfold thin
  by_cases h : 0 ≤ mx ∧ mx < ms.length
  · rw [if_pos h, if_pos h.1]
    have hl : ¬ ms.length ≤ mx.toNat := by omega
    unfold pickIndices
    rw [if_neg hl]
    generalize hS : ((sh ms.length).take mx.toNat).insertionSort (· ≤ ·) = S
    have hperm : S.Perm ((sh ms.length).take mx.toNat) := by rw [← hS]; exact List.perm_insertionSort _ _
    have hnd : S.Nodup := by
      rw [hperm.nodup_iff]
      exact ((hsh ms.length).nodup_iff.2 List.nodup_range).sublist (List.take_sublist _ _)
    have hlt : ∀ i ∈ S, i < ms.length := by
      intro i hi
      have := (hsh ms.length).mem_iff.1 (List.mem_of_mem_take (hperm.mem_iff.1 hi))
      exact List.mem_range.1 this
    have hsort : S.Pairwise (· < ·) := by
      have h1 : S.Pairwise (· ≤ ·) := by rw [← hS]; exact List.pairwise_insertionSort _ _
      exact (h1.and hnd).imp (fun h => lt_of_le_of_ne h.1 h.2)
    have hlen : S.length = mx.toNat := by
      rw [hperm.length_eq, List.length_take, (hsh ms.length).length_eq, List.length_range]
      omega
    constructor
    · have e1 : S.Sublist (List.range ms.length) :=
        List.sublist_of_subperm_of_pairwise (r := (· < ·)) (List.subperm_of_subset hnd (fun i hi => List.mem_range.2 (hlt i hi))) hsort
          List.pairwise_lt_range
      have e2 := e1.filterMap (fun i => ms[i]?)
      have e3 : (List.range ms.length).filterMap (fun i => ms[i]?) = ms := by
        clear * -
        induction ms using List.reverseRecOn with
        | nil => rfl
        | append_singleton l a ih =>
          rw [List.length_append, List.length_singleton, List.range_succ, List.filterMap_append]
          rw [List.filterMap_cons, List.filterMap_nil, List.getElem?_append_right (le_refl _)]
          simp only [Nat.sub_self, List.getElem?_cons_zero]
          congr 1
          have : List.filterMap (fun i => (l ++ [a])[i]?) (List.range l.length) =
              List.filterMap (fun i => l[i]?) (List.range l.length) := by
            refine List.filterMap_congr (fun i hi => ?_)
            rw [List.getElem?_append_left (List.mem_range.1 hi)]
          rw [this, ih]
      rwa [e3] at e2
    · have : ∀ l : List Nat, (∀ i ∈ l, i < ms.length) → (l.filterMap (fun i => ms[i]?)).length = l.length := by
        intro l
        induction l with
        | nil => intro _; rfl
        | cons i l ih =>
          intro hh
          rw [List.filterMap_cons, List.getElem?_eq_getElem (hh i (by simp))]
          simp only [List.length_cons]
          rw [ih (fun j hj => hh j (by simp [hj]))]
      rw [this S hlt, hlen]
      omega
  · rw [if_neg h]
    refine ⟨List.Sublist.refl _, ?_⟩
    split_ifs with h0
    · omega
    · rfl

/-! ### What does not hold -/

/-- Two matches that share an interest point: one of the interest points of the other image is in no control point. -/
theorem network_drops : ∃ files : AMap Pair (List (Nat × Nat)), AMap.Ok files ∧
    Matched 0 (-1) List.range id files (0, 5) (1, 7) ∧ Matched 0 (-1) List.range id files (0, 5) (1, 8) ∧
    buildNetwork 0 (-1) List.range id files = some [[(0, 5), (1, 8)]] := by
  refine ⟨[(toLex (0, 1), [(5, 7), (5, 8)])], by simp [AMap.Ok], ⟨_, rfl, by simp, by decide⟩, ⟨_, rfl, by simp, by decide⟩, ?_⟩
  decide +kernel

/-- Matches of one point of the ground in four images. -/
def fourImages : AMap Pair (List (Nat × Nat)) :=
  [(toLex (0, 3), [(4, 7)]), (toLex (1, 2), [(5, 6)]), (toLex (2, 3), [(6, 7)])]

/-- One point of the ground, seen once in each of four images and connected by matches, becomes two control points. -/
theorem network_splits : ∃ files : AMap Pair (List (Nat × Nat)), AMap.Ok files ∧
    SamePoint (Matched 0 (-1) List.range id files) (0, 4) (1, 5) ∧
    buildNetwork 0 (-1) List.range id files = some [[(0, 4), (3, 7)], [(1, 5), (2, 6)]] := by
  have h : ∀ i j (x y : Nat), AMap.find fourImages (toLex (i, j)) = some [(x, y)] →
      Matched 0 (-1) List.range id fourImages (i, x) (j, y) := by
    intro i j x y hf
    exact ⟨_, hf, by simp, by simp [thin]⟩
  refine ⟨fourImages, by unfold AMap.Ok; decide +kernel, ?_, by decide +kernel⟩
  exact .trans _ (3, 7) _ (.rel _ _ (h _ _ _ _ rfl))
    (.trans _ (2, 6) _ (.symm _ _ (.rel _ _ (h _ _ _ _ rfl))) (.symm _ _ (.rel _ _ (h _ _ _ _ rfl))))

/-! ### A case that meets the hypotheses -/

/-- Three images, two points of the ground; the files of images (2, 0) are in the other direction. -/
def sample : AMap Pair (List (Nat × Nat)) :=
  [(toLex (0, 1), [(10, 20), (11, 21)]), (toLex (1, 2), [(20, 30)]), (toLex (2, 0), [(31, 11)])]

example : AMap.Ok sample := by unfold AMap.Ok; decide +kernel
example : ∀ i, sample.find (toLex (i, i)) = none := by
  intro i
  cases h : sample.find (toLex (i, i)) with
  | none => rfl
  | some l =>
    have := AMap.find_mem h
    simp [sample] at this
    omega
example : Flipped sample ([(toLex (0, 1), [(10, 20), (11, 21)]), (toLex (0, 2), [(11, 31)]), (toLex (1, 2), [(20, 30)])] :
    AMap Pair (List (Nat × Nat))) := by
  intro i j
  simp only [sample, AMap.find, toLex_inj, Prod.mk.injEq]
  by_cases h : (i = 0 ∧ j = 2) ∨ (i = 2 ∧ j = 0)
  · refine Or.inr ?_
    rcases h with ⟨rfl, rfl⟩ | ⟨rfl, rfl⟩ <;> simp
  · refine Or.inl ⟨?_, ?_⟩ <;> split_ifs <;> first | rfl | omega
example : buildNetwork 1 (-1) List.range id sample = some [[(0, 10), (1, 20), (2, 30)], [(0, 11), (1, 21), (2, 31)]] := by
  decide +kernel
example : ∀ n, (List.range n).Perm (List.range n) := fun _ => List.Perm.refl _

end Verif.BA
