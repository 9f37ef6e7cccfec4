import Verif.BA.RelationLemmas

/-
The camera relation network shows the control network by cameras.
-/

namespace Verif.BA

variable {M : Type}

/-! ### Multimap -/

theorem minsert_sorted {k v : Nat} : ∀ {l : List (Nat × Nat)}, l.Pairwise (fun a b => a.1 ≤ b.1) →
    (minsert k v l).Pairwise (fun a b => a.1 ≤ b.1) ∧ ∀ e ∈ minsert k v l, e = (k, v) ∨ e ∈ l
  | [], _ => ⟨List.pairwise_singleton _ _, by simp [minsert]⟩
  | d :: l, h => by
    have h' := List.pairwise_cons.1 h
    unfold minsert
    split_ifs with hk
    · refine ⟨List.pairwise_cons.2 ⟨?_, h⟩, by simp⟩
      intro e he
      rcases List.mem_cons.1 he with rfl | he
      · exact Nat.le_of_lt hk
      · have := h'.1 e he; simp only; omega
    · obtain ⟨a, b⟩ := minsert_sorted (k := k) (v := v) h'.2
      refine ⟨List.pairwise_cons.2 ⟨?_, a⟩, ?_⟩
      · intro e he
        rcases b e he with rfl | he
        · simp only; omega
        · exact h'.1 e he
      · intro e he
        rcases List.mem_cons.1 he with rfl | he
        · simp
        · rcases b e he with rfl | he
          · simp
          · simp [he]

theorem minsert_filter {k v c : Nat} : ∀ {l : List (Nat × Nat)}, l.Pairwise (fun a b => a.1 ≤ b.1) →
    (minsert k v l).filter (fun e => e.1 = c) = l.filter (fun e => e.1 = c) ++ if k = c then [(k, v)] else []
  | [], _ => by
    unfold minsert
    split_ifs with h <;> simp [h]
  | d :: l, h => by
    have h' := List.pairwise_cons.1 h
    unfold minsert
    split_ifs with h1 h2 h2
    · rw [List.filter_cons_of_pos (by simp [h2])]
      have : (d :: l).filter (fun e => decide (e.1 = c)) = [] := by
        rw [List.filter_eq_nil_iff]
        intro e he
        rw [decide_eq_true_eq]
        rcases List.mem_cons.1 he with rfl | he
        · omega
        · have := h'.1 e he; omega
      rw [this]; rfl
    · rw [List.filter_cons_of_neg (by simp [h2]), List.append_nil]
    · rw [List.filter_cons, minsert_filter h'.2, if_pos h2, List.filter_cons]
      split_ifs <;> rfl
    · rw [List.filter_cons, minsert_filter h'.2, if_neg h2, List.filter_cons]
      split_ifs <;> simp

/-- The entries of one feature. -/
theorem minsert_entries {a c : Nat} : ∀ (m : AMap Nat Nat) (mm : List (Nat × Nat)), AMap.Ok m →
    mm.Pairwise (fun a b => a.1 ≤ b.1) →
    (m.foldl (fun mm e => minsert e.1 a mm) mm).Pairwise (fun a b => a.1 ≤ b.1) ∧
      (m.foldl (fun mm e => minsert e.1 a mm) mm).filter (fun e => e.1 = c) =
        mm.filter (fun e => e.1 = c) ++ if m.find c = none then [] else [(c, a)]
  | [], mm, _, h => ⟨h, by simp [AMap.find]⟩
  | e :: m, mm, hm, h => by
    have hm' := List.pairwise_cons.1 hm
    obtain ⟨p, q⟩ := minsert_entries (a := a) (c := c) m (minsert e.1 a mm) hm'.2 (minsert_sorted h).1
    refine ⟨p, ?_⟩
    rw [List.foldl_cons, q, minsert_filter h]
    by_cases hc : e.1 = c
    · have : AMap.find m c = none := AMap.find_none_of_lt (fun x hx => by have := hm'.1 x hx; omega)
      simp [AMap.find, hc, this]
    · simp [AMap.find, hc]

/-- The entries of the features of a node. -/
theorem minsert_node {c : Nat} (mp : Nat → AMap Nat Nat) (hmp : ∀ a, AMap.Ok (mp a)) :
    ∀ (rel : List Nat) (mm : List (Nat × Nat)), mm.Pairwise (fun a b => a.1 ≤ b.1) →
    (rel.foldl (fun mm a => (mp a).foldl (fun mm e => minsert e.1 a mm) mm) mm).Pairwise (fun a b => a.1 ≤ b.1) ∧
      (rel.foldl (fun mm a => (mp a).foldl (fun mm e => minsert e.1 a mm) mm) mm).filter (fun e => e.1 = c) =
        mm.filter (fun e => e.1 = c) ++ (rel.filter (fun a => (mp a).find c ≠ none)).map (fun a => (c, a))
  | [], mm, h => ⟨h, by simp⟩
  | a :: rel, mm, h => by
    obtain ⟨p, q⟩ := minsert_entries (a := a) (c := c) (mp a) mm (hmp a) h
    obtain ⟨r, s⟩ := minsert_node (c := c) mp hmp rel _ p
    refine ⟨r, ?_⟩
    rw [List.foldl_cons, s, q, List.filter_cons]
    by_cases hc : (mp a).find c = none
    · simp [hc]
    · simp [hc]

/-! ### The map of a feature -/

theorem featureMap_aux {cam : Nat → Nat} : ∀ (conns : List Nat) (m : AMap Nat Nat), AMap.Ok m →
    AMap.Ok (conns.foldl (fun m b => m.set (cam b) b) m) ∧ ∀ c,
      (conns.foldl (fun m b => m.set (cam b) b) m).find c =
        ((conns.filter (fun b => cam b = c)).getLast?).or (m.find c)
  | [], m, h => ⟨h, fun c => by simp⟩
  | b :: conns, m, h => by
    obtain ⟨p, q⟩ := featureMap_aux (cam := cam) conns (m.set (cam b) b) (h.set _ _)
    refine ⟨p, fun c => ?_⟩
    rw [List.foldl_cons, q, AMap.find_set h, List.filter_cons]
    by_cases hc : cam b = c
    · simp only [hc, if_true, decide_true, List.getLast?_cons]
      cases (conns.filter (fun b => decide (cam b = c))).getLast? <;> simp
    · simp only [hc, if_false, decide_false, Bool.false_eq_true]

theorem featureMap_ok (cam : Nat → Nat) (conns : List Nat) : AMap.Ok (featureMap cam conns) :=
  (featureMap_aux conns [] AMap.ok_nil).1

theorem featureMap_find (cam : Nat → Nat) (conns : List Nat) (c : Nat) :
    (featureMap cam conns).find c = (conns.filter (fun b => cam b = c)).getLast? := by
  unfold featureMap
  rw [(featureMap_aux conns [] AMap.ok_nil).2]
  simp [AMap.find]

/-! ### Building the maps -/

/-- The camera of a feature, read through a pointer. -/
def camAt (heap : List (Feature M)) (b : Nat) : Nat := ((heap[b]?).map Feature.cam).getD 0

theorem camAt_face {h h' : List (Feature M)} (e : h.map face = h'.map face) : camAt h = camAt h' := by
  funext b
  have := camOf_face e b
  unfold camOf at this
  unfold camAt
  rw [this]

/-- The heap after the maps of some features have been built. -/
def withMaps (heap : List (Feature M)) (q : Nat → Bool) : List (Feature M) :=
  heap.mapIdx (fun x f => if q x then { f with map := featureMap (camAt heap) f.conns } else f)

theorem getElem?_withMaps (heap : List (Feature M)) (q : Nat → Bool) (x : Nat) : (withMaps heap q)[x]? =
    (heap[x]?).map (fun f => if q x then { f with map := featureMap (camAt heap) f.conns } else f) := by
  unfold withMaps
  rw [List.getElem?_mapIdx]

theorem face_withMaps (heap : List (Feature M)) (q : Nat → Bool) : (withMaps heap q).map face = heap.map face := by
  apply List.ext_getElem?
  intro x
  rw [List.getElem?_map, List.getElem?_map, getElem?_withMaps, Option.map_map]
  cases heap[x]? with
  | none => rfl
  | some f =>
    simp only [Option.map_some, Function.comp_apply]
    split_ifs <;> rfl

theorem buildMaps_fold (heap : List (Feature M)) : ∀ (rel : List Nat) (q : Nat → Bool),
    rel.foldl (fun h a => h.modify a (fun f =>
      { f with map := featureMap (fun b => ((h[b]?).map Feature.cam).getD 0) f.conns })) (withMaps heap q) =
      withMaps heap (fun x => q x || decide (x ∈ rel))
  | [], q => by simp
  | a :: rel, q => by
    rw [List.foldl_cons]
    have h1 : (withMaps heap q).modify a (fun f =>
        { f with map := featureMap (fun b => (((withMaps heap q)[b]?).map Feature.cam).getD 0) f.conns }) =
        withMaps heap (fun x => q x || decide (x = a)) := by
      have hc : (fun b => (((withMaps heap q)[b]?).map Feature.cam).getD 0) = camAt heap := camAt_face (face_withMaps heap q)
      rw [hc]
      apply List.ext_getElem?
      intro x
      rw [List.getElem?_modify, getElem?_withMaps, getElem?_withMaps, Option.map_eq_map, Option.map_map]
      cases heap[x]? with
      | none => split_ifs <;> rfl
      | some f =>
        simp only [Option.map_some, Function.comp_apply, Option.some.injEq]
        by_cases hx : a = x
        · subst hx
          cases q a <;> simp
        · have hx' : ¬ x = a := fun hc => hx hc.symm
          cases q x <;> simp [hx, hx']
    rw [h1, buildMaps_fold heap rel]
    congr 1
    funext x
    by_cases h2 : x = a <;> by_cases h3 : x ∈ rel <;> simp [h2, h3]

theorem mem_inCam {heap : List (Feature M)} {i x : Nat} : x ∈ inCam heap i ↔ camOf heap x = some i := by
  unfold inCam
  rw [List.mem_filter, List.mem_range, decide_eq_true_eq]
  refine ⟨fun h => h.2, fun h => ⟨?_, h⟩⟩
  by_contra hc
  unfold camOf at h
  rw [List.getElem?_eq_none (by omega)] at h
  cases h

/-- The multimap of a node. -/
def nodeMap (heap : List (Feature M)) (i : Nat) : List (Nat × Nat) :=
  (inCam heap i).foldl (fun mm a =>
    (featureMap (camAt heap) (((heap[a]?).map Feature.conns).getD [])).foldl (fun mm e => minsert e.1 a mm) mm) []

/-- The features of cameras below `j`. -/
def below (heap : List (Feature M)) (j : Nat) : Nat → Bool := fun x => decide (∃ i, i < j ∧ camOf heap x = some i)

theorem foldl_congr_mem {A B : Type} {f g : A → B → A} : ∀ (l : List B) (a : A), (∀ a, ∀ b ∈ l, f a b = g a b) →
    l.foldl f a = l.foldl g a
  | [], _, _ => rfl
  | b :: l, a, h => by
    rw [List.foldl_cons, List.foldl_cons, h a b (by simp)]
    exact foldl_congr_mem l _ (fun a b hb => h a b (by simp [hb]))

theorem buildMap_aux {heap : List (Feature M)} {nodes : List CamNode} (hn : NodesOk heap nodes) :
    ∀ k, k ≤ nodes.length → ∃ st, (List.range k).foldlM buildNode ⟨heap, nodes⟩ = some st ∧
      st.heap = withMaps heap (below heap k) ∧ st.nodes.length = nodes.length ∧
      ∀ i n, st.nodes[i]? = some n → n.id = i ∧ n.relations = inCam heap i ∧
        n.map = if i < k then nodeMap heap i else []
  | 0, _ => by
    refine ⟨_, rfl, ?_, rfl, fun i n hi => ?_⟩
    · apply List.ext_getElem?
      intro x
      rw [getElem?_withMaps]
      have : below heap 0 x = false := by
        unfold below
        rw [decide_eq_false_iff_not]
        rintro ⟨i, hi, _⟩
        omega
      rw [this]
      cases heap[x]? <;> simp
    · obtain ⟨a, b, c⟩ := hn.node i n hi
      exact ⟨a, b, by rw [c]; simp⟩
  | k + 1, hk => by
    obtain ⟨st, a, b, c, d⟩ := buildMap_aux hn k (by omega)
    have hlt : k < st.nodes.length := by omega
    obtain ⟨d1, d2, d3⟩ := d k _ (List.getElem?_eq_getElem hlt)
    have hfold := buildMaps_fold heap (inCam heap k) (below heap k)
    have hq : (fun x => below heap k x || decide (x ∈ inCam heap k)) = below heap (k + 1) := by
      funext x
      unfold below
      rw [← Bool.decide_or]
      refine decide_eq_decide.2 ?_
      rw [mem_inCam]
      constructor
      · rintro (⟨i, hi, h⟩ | h)
        · exact ⟨i, by omega, h⟩
        · exact ⟨k, by omega, h⟩
      · rintro ⟨i, hi, h⟩
        by_cases hik : i = k
        · subst hik; exact Or.inr h
        · exact Or.inl ⟨i, by omega, h⟩
    rw [hq] at hfold
    have hb : buildNode st k = some ⟨withMaps heap (below heap (k + 1)),
        st.nodes.set k { st.nodes[k] with map := nodeMap heap k }⟩ := by
      unfold buildNode
      simp only [List.getElem?_eq_getElem hlt, Option.bind_eq_bind, Option.bind_some]
      rw [b, d2, hfold]
      have : ((inCam heap k).foldl (fun mm a => ((((withMaps heap (below heap (k + 1)))[a]?).map Feature.map).getD []).foldl
          (fun mm e => minsert e.1 a mm) mm) []) = nodeMap heap k := by
        unfold nodeMap
        refine foldl_congr_mem _ _ (fun mm x hx => ?_)
        have hx' := mem_inCam.1 hx
        have hbel : below heap (k + 1) x = true := by
          unfold below
          rw [decide_eq_true_eq]
          exact ⟨k, by omega, hx'⟩
        rw [getElem?_withMaps, hbel]
        unfold camOf at hx'
        cases hf : heap[x]? with
        | none => rw [hf] at hx'; cases hx'
        | some f => simp
      rw [this]
    refine ⟨⟨withMaps heap (below heap (k + 1)), st.nodes.set k { st.nodes[k] with map := nodeMap heap k }⟩, ?_, rfl, ?_, ?_⟩
    · rw [List.range_succ, List.foldlM_append, a]
      simp only [Option.bind_eq_bind, Option.bind_some, List.foldlM_cons, List.foldlM_nil, hb]
      rfl
    · simp [c]
    · intro i n hi
      simp only at hi
      rw [List.getElem?_set] at hi
      split_ifs at hi with h1
      · cases hi
        subst h1
        exact ⟨d1, d2, by rw [if_pos (by omega)]⟩
      · obtain ⟨e1, e2, e3⟩ := d i n hi
        refine ⟨e1, e2, ?_⟩
        rw [e3]
        by_cases h2 : i < k
        · rw [if_pos h2, if_pos (by omega)]
        · rw [if_neg h2, if_neg (by omega)]

theorem relation_core {n : Nat} {cnet : List (List (Nat × M))} (hne : ∀ p ∈ cnet, p ≠ []) :
    ∃ (net : RelNet M) (heap : List (Feature M)), fromCnet n cnet = some net ∧ PtsOk heap cnet.length ∧ heap.map face = measures cnet 0 ∧
      (∀ x : Nat, net.heap[x]? = (heap[x]?).map (fun f : Feature M => { f with map := featureMap (camAt heap) f.conns })) ∧
      net.nodes.length = need n cnet.flatten ∧
      (∀ f ∈ heap, f.cam < net.nodes.length) ∧
      ∀ (i : Nat) (m : CamNode), net.nodes[i]? = some m → m.id = i ∧ m.relations = inCam heap i ∧ m.map = nodeMap heap i := by
  have h0 : NodesOk ([] : List (Feature M)) (addNodes [] n) := by
    refine NodesOk.grow ⟨fun i m h => ?_, fun f hf => ?_⟩ n
    · simp at h
    · cases hf
  have h1 : PtsOk ([] : List (Feature M)) 0 :=
    ⟨fun f hf => (by cases hf), fun a f h => (by simp at h), fun f hf => (by cases hf)⟩
  obtain ⟨st, a1, a2, a3, a4, a5⟩ := addPoints_spec cnet 0 ⟨[], addNodes [] n⟩ hne h0 h1
  obtain ⟨net, b1, b2, b3, b4⟩ := buildMap_aux a2 st.nodes.length (le_refl _)
  have hlen : (addNodes [] n).length = n := by rw [length_addNodes]; simp
  refine ⟨net, st.heap, ?_, ?_, ?_, fun x => ?_, ?_, ?_, fun i m hm => ?_⟩
  · unfold fromCnet
    rw [a1]
    exact b1
  · rw [Nat.zero_add] at a3; exact a3
  · rw [a5]; rfl
  · rw [b2, getElem?_withMaps]
    cases hx : st.heap[x]? with
    | none => rfl
    | some f =>
      have : below st.heap st.nodes.length x = true := by
        unfold below
        rw [decide_eq_true_eq]
        exact ⟨f.cam, a2.lt f (List.mem_of_getElem? hx), by simp [camOf, hx]⟩
      rw [this]
      rfl
  · rw [b3, a4]
    simp only [hlen]
  · rw [b3]; exact a2.lt
  · obtain ⟨c1, c2, c3⟩ := b4 i m hm
    refine ⟨c1, c2, ?_⟩
    rw [c3, if_pos]
    have := (List.getElem?_eq_some_iff.1 hm).1
    omega

theorem faces_of {heap h' : List (Feature M)}
    (h : ∀ x : Nat, h'[x]? = (heap[x]?).map (fun f : Feature M => { f with map := featureMap (camAt heap) f.conns })) :
    h'.map face = heap.map face := by
  apply List.ext_getElem?
  intro x
  rw [List.getElem?_map, List.getElem?_map, h, Option.map_map]
  rfl

/-! ### The properties -/

/-- The network is built exactly if every control point has a measure (otherwise the iterators are undefined). -/
theorem relation_total {n : Nat} {cnet : List (List (Nat × M))} :
    (∃ net, fromCnet n cnet = some net) ↔ ∀ p ∈ cnet, p ≠ [] := by
  constructor
  · rintro ⟨net, h⟩ p hp rfl
    unfold fromCnet at h
    rw [addPoints_none cnet 0 _ hp] at h
    cases h
  · intro h
    obtain ⟨net, _, h, _⟩ := relation_core (n := n) h
    exact ⟨net, h⟩

/-- One feature for each measure, in order, with its point and camera. -/
theorem relation_features {n : Nat} {cnet : List (List (Nat × M))} {net} (h : fromCnet n cnet = some net) :
    net.heap.map (fun f => (f.pt, f.cam, f.meas)) =
      cnet.zipIdx.flatMap (fun p => p.1.map (fun m => (p.2, m.1, m.2))) := by
  obtain ⟨net', heap, h1, _, h2, h3, _⟩ := relation_core (n := n) (relation_total.1 ⟨net, h⟩)
  rw [h] at h1
  cases h1
  exact (faces_of h3).trans h2

theorem need_spec : ∀ (ms : List (Nat × M)) (n : Nat), n ≤ need n ms ∧ (∀ m ∈ ms, m.1 < need n ms) ∧
    (need n ms = n ∨ ∃ m ∈ ms, need n ms = m.1 + 1)
  | [], n => ⟨le_refl _, by simp, Or.inl rfl⟩
  | m :: ms, n => by
    obtain ⟨a, b, c⟩ := need_spec ms (max n (m.1 + 1))
    have e : need n (m :: ms) = need (max n (m.1 + 1)) ms := rfl
    rw [e]
    refine ⟨by omega, fun x hx => ?_, ?_⟩
    · rcases List.mem_cons.1 hx with rfl | hx
      · omega
      · exact b x hx
    · rcases c with c | ⟨x, hx, c⟩
      · by_cases h : n ≤ m.1 + 1
        · exact Or.inr ⟨m, by simp, by omega⟩
        · exact Or.inl (by omega)
      · exact Or.inr ⟨x, by simp [hx], c⟩

/-- There is a node for each image of the list and of a measure, and no more; node `i` is for image `i`. -/
theorem relation_nodes {n : Nat} {cnet : List (List (Nat × M))} {net} (h : fromCnet n cnet = some net) :
    n ≤ net.nodes.length ∧ (∀ p ∈ cnet, ∀ m ∈ p, m.1 < net.nodes.length) ∧
      (net.nodes.length = n ∨ ∃ p ∈ cnet, ∃ m ∈ p, net.nodes.length = m.1 + 1) ∧
      ∀ (i : Nat) (m : CamNode), net.nodes[i]? = some m → m.id = i := by
  obtain ⟨net', heap, h1, _, _, _, h4, _, h5⟩ := relation_core (n := n) (relation_total.1 ⟨net, h⟩)
  rw [h] at h1
  cases h1
  obtain ⟨a, b, c⟩ := need_spec cnet.flatten n
  rw [h4]
  refine ⟨a, fun p hp m hm => b m (List.mem_flatten.2 ⟨p, hp, hm⟩), ?_, fun i m hm => (h5 i m hm).1⟩
  rcases c with c | ⟨m, hm, c⟩
  · exact Or.inl c
  · obtain ⟨p, hp, hm⟩ := List.mem_flatten.1 hm
    exact Or.inr ⟨p, hp, m, hm, c⟩

/-- A node lists the features of its camera, in order. -/
theorem relation_in_camera {n : Nat} {cnet : List (List (Nat × M))} {net} (h : fromCnet n cnet = some net)
    {i : Nat} {m : CamNode} (hm : net.nodes[i]? = some m) :
    m.relations = (List.range net.heap.length).filter (fun a => (net.heap[a]?).map Feature.cam = some i) := by
  obtain ⟨net', heap, h1, _, _, h3, _, _, h5⟩ := relation_core (n := n) (relation_total.1 ⟨net, h⟩)
  rw [h] at h1
  cases h1
  rw [(h5 i m hm).2.1, ← inCam_face (faces_of h3)]
  rfl

/-- A feature is connected to the other features of its control point, in order, each once. -/
theorem relation_connections {n : Nat} {cnet : List (List (Nat × M))} {net} (h : fromCnet n cnet = some net)
    {a : Nat} {f : Feature M} (hf : net.heap[a]? = some f) :
    f.conns = (List.range net.heap.length).filter (fun b => b ≠ a ∧ (net.heap[b]?).map Feature.pt = some f.pt) := by
  obtain ⟨net', heap, h1, h2, _, h3, _, _, h5⟩ := relation_core (n := n) (relation_total.1 ⟨net, h⟩)
  rw [h] at h1
  cases h1
  have hface := faces_of h3
  have hl : net.heap.length = heap.length := by simpa using congrArg List.length hface
  rw [h3] at hf
  cases hg : heap[a]? with
  | none => rw [hg] at hf; cases hf
  | some g =>
    rw [hg] at hf
    cases hf
    rw [hl, h2.conns a g hg]
    refine List.filter_congr (fun b _ => ?_)
    rw [show (net.heap[b]?).map Feature.pt = ptOf heap b from ptOf_face hface b]

/-- Connections are symmetric. -/
theorem relation_symmetric {n : Nat} {cnet : List (List (Nat × M))} {net} (h : fromCnet n cnet = some net)
    {a b : Nat} {f g : Feature M} (hf : net.heap[a]? = some f) (hg : net.heap[b]? = some g) : b ∈ f.conns ↔ a ∈ g.conns := by
  rw [relation_connections h hf, relation_connections h hg, List.mem_filter, List.mem_filter, hf, hg]
  simp only [List.mem_range, decide_eq_true_eq, Option.map_some, Option.some.injEq]
  have := (List.getElem?_eq_some_iff.1 hf).1
  have := (List.getElem?_eq_some_iff.1 hg).1
  constructor
  · rintro ⟨_, h1, h2⟩; exact ⟨by omega, fun hc => h1 hc.symm, h2.symm⟩
  · rintro ⟨_, h1, h2⟩; exact ⟨by omega, fun hc => h1 hc.symm, h2.symm⟩

/-- The map of a feature gives, for a camera, the last of the connected features that is in the camera. -/
theorem relation_map {n : Nat} {cnet : List (List (Nat × M))} {net} (h : fromCnet n cnet = some net)
    {a : Nat} {f : Feature M} (hf : net.heap[a]? = some f) (c : Nat) :
    f.map.find c = (f.conns.filter (fun b => (net.heap[b]?).map Feature.cam = some c)).getLast? := by
  have hc := relation_connections h hf
  obtain ⟨net', heap, h1, h2, _, h3, _, _, h5⟩ := relation_core (n := n) (relation_total.1 ⟨net, h⟩)
  rw [h] at h1
  cases h1
  have hface := faces_of h3
  have hmap : f.map = featureMap (camAt heap) f.conns := by
    rw [h3] at hf
    cases hg : heap[a]? with
    | none => rw [hg] at hf; cases hf
    | some g => rw [hg] at hf; cases hf; rfl
  rw [hmap, featureMap_find]
  congr 1
  refine List.filter_congr (fun b hb => ?_)
  rw [show (net.heap[b]?).map Feature.cam = camOf heap b from camOf_face hface b]
  rw [hc] at hb
  have hb' := List.mem_range.1 (List.mem_filter.1 hb).1
  have hl : net.heap.length = heap.length := by simpa using congrArg List.length hface
  rw [hl] at hb'
  unfold camAt camOf
  rw [List.getElem?_eq_getElem hb']
  simp

/-- `equal_range(c)` of the map of a node gives the features of the node that are connected to a feature in camera `c`,
in order, each once; the map is sorted by cameras. -/
theorem relation_multimap {n : Nat} {cnet : List (List (Nat × M))} {net} (h : fromCnet n cnet = some net)
    {i : Nat} {m : CamNode} (hm : net.nodes[i]? = some m) (c : Nat) :
    m.map.Pairwise (fun a b => a.1 ≤ b.1) ∧ (m.map.filter (fun e => e.1 = c)).map Prod.snd =
      m.relations.filter (fun a => ∃ f, net.heap[a]? = some f ∧ ∃ b ∈ f.conns, (net.heap[b]?).map Feature.cam = some c) := by
  have hmap := fun a f (hf : net.heap[a]? = some f) => relation_map h hf c
  obtain ⟨net', heap, h1, h2, _, h3, _, _, h5⟩ := relation_core (n := n) (relation_total.1 ⟨net, h⟩)
  rw [h] at h1
  cases h1
  obtain ⟨e1, e2, e3⟩ := h5 i m hm
  obtain ⟨p, q⟩ := minsert_node (c := c) (fun a => featureMap (camAt heap) (((heap[a]?).map Feature.conns).getD []))
    (fun a => featureMap_ok _ _) (inCam heap i) [] List.Pairwise.nil
  rw [e3]
  refine ⟨p, ?_⟩
  unfold nodeMap
  rw [q, e2, List.filter_nil, List.nil_append, List.map_map]
  rw [show (Prod.snd ∘ fun a => (c, a)) = (id : Nat → Nat) from rfl, List.map_id]
  refine List.filter_congr (fun a ha => decide_eq_decide.2 ?_)
  have ha' := mem_inCam.1 ha
  unfold camOf at ha'
  cases hg : heap[a]? with
  | none => rw [hg] at ha'; cases ha'
  | some g =>
    have hf : net.heap[a]? = some { g with map := featureMap (camAt heap) g.conns } := by rw [h3, hg]; rfl
    have := hmap a _ hf
    simp only at this
    rw [Option.map_some, Option.getD_some, this, hf]
    constructor
    · intro hne
      refine ⟨_, rfl, ?_⟩
      by_contra hcon
      apply hne
      rw [List.filter_eq_nil_iff.2]
      · rfl
      · intro b hb
        rw [decide_eq_true_eq]
        exact fun hc => hcon ⟨b, hb, hc⟩
    · rintro ⟨f, hff, b, hb, hc⟩ hnone
      cases hff
      rw [List.getLast?_eq_none_iff, List.filter_eq_nil_iff] at hnone
      exact hnone b hb (by rw [decide_eq_true_eq]; exact hc)

/-- Camera `i` sees a control point together with camera `c` exactly if the point has measures in both: the node of `i`
lists a feature of the point under `c`. -/
theorem relation_common {n : Nat} {cnet : List (List (Nat × M))} {net} (h : fromCnet n cnet = some net)
    {i c : Nat} (hic : i ≠ c) {m : CamNode} (hm : net.nodes[i]? = some m) (k : Nat) :
    (∃ a f, (c, a) ∈ m.map ∧ net.heap[a]? = some f ∧ f.pt = k) ↔
      ∃ p, cnet[k]? = some p ∧ (∃ x, (i, x) ∈ p) ∧ ∃ y, (c, y) ∈ p := by
  have hfe := relation_features h
  have hmem : ∀ (q : Nat) (x : M), (∃ (a : Nat) (f : Feature M), net.heap[a]? = some f ∧ f.pt = k ∧ f.cam = q ∧ f.meas = x) ↔
      ∃ p, cnet[k]? = some p ∧ (q, x) ∈ p := by
    intro q x
    have h1 : (k, q, x) ∈ net.heap.map (fun f => (f.pt, f.cam, f.meas)) ↔
        ∃ p, cnet[k]? = some p ∧ (q, x) ∈ p := by
      rw [hfe, List.mem_flatMap]
      constructor
      · rintro ⟨p, hp, hx⟩
        obtain ⟨y, hy, he⟩ := List.mem_map.1 hx
        rw [List.mem_zipIdx_iff_getElem?] at hp
        simp only [Prod.mk.injEq] at he
        refine ⟨p.1, ?_, ?_⟩
        · rw [← he.1]; exact hp
        · rw [← he.2.1, ← he.2.2]; exact hy
      · rintro ⟨p, hp, hx⟩
        exact ⟨(p, k), List.mem_zipIdx_iff_getElem?.2 hp, List.mem_map.2 ⟨(q, x), hx, rfl⟩⟩
    rw [← h1, List.mem_map]
    constructor
    · rintro ⟨a, f, hf, rfl, rfl, rfl⟩
      exact ⟨f, List.mem_of_getElem? hf, rfl⟩
    · rintro ⟨f, hf, he⟩
      simp only [Prod.mk.injEq] at he
      obtain ⟨a, ha⟩ := List.mem_iff_getElem?.1 hf
      exact ⟨a, f, ha, he.1, he.2.1, he.2.2⟩
  have hmm := relation_multimap h hm c
  have hrel := relation_in_camera h hm
  have hin : ∀ a, (c, a) ∈ m.map ↔ a ∈ (m.map.filter (fun e => e.1 = c)).map Prod.snd := by
    intro a
    rw [List.mem_map]
    constructor
    · intro ha; exact ⟨(c, a), List.mem_filter.2 ⟨ha, by simp⟩, rfl⟩
    · rintro ⟨e, he, rfl⟩
      obtain ⟨e1, e2⟩ := List.mem_filter.1 he
      rw [decide_eq_true_eq] at e2
      rw [← e2]; exact e1
  constructor
  · rintro ⟨a, f, ha, hf, hk⟩
    rw [hin, hmm.2, List.mem_filter, decide_eq_true_eq] at ha
    obtain ⟨ha, f', hf', b, hb, hcam⟩ := ha
    rw [hf] at hf'
    cases hf'
    rw [hrel, List.mem_filter, decide_eq_true_eq, hf] at ha
    cases hg : net.heap[b]? with
    | none => rw [hg] at hcam; cases hcam
    | some g =>
      rw [hg] at hcam
      rw [relation_connections h hf, List.mem_filter, decide_eq_true_eq, hg] at hb
      have hpt : g.pt = k := by rw [← hk]; exact Option.some.inj hb.2.2
      obtain ⟨p, hp, hx⟩ := (hmem i f.meas).1 ⟨a, f, hf, hk, Option.some.inj ha.2, rfl⟩
      obtain ⟨p', hp', hy⟩ := (hmem c g.meas).1 ⟨b, g, hg, hpt, Option.some.inj hcam, rfl⟩
      rw [hp] at hp'
      cases hp'
      exact ⟨p, hp, ⟨_, hx⟩, _, hy⟩
  · rintro ⟨p, hp, ⟨x, hx⟩, y, hy⟩
    obtain ⟨a, f, hf, f1, f2, _⟩ := (hmem i x).2 ⟨p, hp, hx⟩
    obtain ⟨b, g, hg, g1, g2, _⟩ := (hmem c y).2 ⟨p, hp, hy⟩
    refine ⟨a, f, ?_, hf, f1⟩
    rw [hin, hmm.2, List.mem_filter, decide_eq_true_eq]
    refine ⟨?_, f, hf, b, ?_, ?_⟩
    · rw [hrel, List.mem_filter, decide_eq_true_eq, hf]
      exact ⟨List.mem_range.2 (List.getElem?_eq_some_iff.1 hf).1, by rw [Option.map_some, f2]⟩
    · rw [relation_connections h hf, List.mem_filter, decide_eq_true_eq, hg]
      refine ⟨List.mem_range.2 (List.getElem?_eq_some_iff.1 hg).1, ?_, by rw [Option.map_some, g1, f1]⟩
      intro hc
      subst hc
      rw [hf] at hg
      cases hg
      exact hic (f2.symm.trans g2)
    · rw [hg, Option.map_some, g2]

/-! ### A case that meets the hypotheses -/

example : ((fromCnet 2 [[(0, 'a'), (2, 'b')], [(1, 'c'), (2, 'd'), (0, 'e')]]).map (fun net =>
    (net.heap.map (fun f => (f.cam, f.pt, f.conns)), net.nodes.map (fun n => (n.id, n.relations, n.map))))) =
    some ([(0, 0, [1]), (2, 0, [0]), (1, 1, [3, 4]), (2, 1, [2, 4]), (0, 1, [2, 3])],
      [(0, [0, 4], [(1, 4), (2, 0), (2, 4)]), (1, [2], [(0, 2), (2, 2)]), (2, [1, 3], [(0, 1), (0, 3), (1, 3)])]) := by
  rfl

end Verif.BA
