import Mathlib.Data.List.Basic
import Mathlib.Data.List.Nodup
import Verif.BA.Relation

/-
Lemmas on the camera relation network.
-/

namespace Verif.BA

variable {M : Type}

/-! ### Linking -/

theorem getElem?_connect (h : List (Feature M)) (a b x : Nat) :
    (connect h a b)[x]? = (h[x]?).map (fun f => if a = x then { f with conns := f.conns ++ [b] } else f) := by
  unfold connect
  rw [List.getElem?_modify]
  split_ifs with hx
  · rfl
  · cases h[x]? <;> rfl

theorem linkInner (a : Nat) : ∀ (rest : List Nat) (h : List (Feature M)) (x : Nat), a ∉ rest → rest.Nodup →
    (rest.foldl (fun h b => connect (connect h a b) b a) h)[x]? =
      (h[x]?).map (fun f => { f with conns := f.conns ++ (if x = a then rest else if x ∈ rest then [a] else []) })
  | [], h, x, _, _ => by
    rw [List.foldl_nil]
    cases h[x]? <;> simp
  | b :: rest, h, x, ha, hn => by
    have hn' := List.nodup_cons.1 hn
    have hab : a ≠ b := fun hc => ha (by simp [hc])
    rw [List.foldl_cons, linkInner a rest _ x (fun hc => ha (by simp [hc])) hn'.2, getElem?_connect, getElem?_connect]
    cases h[x]? with
    | none => rfl
    | some f =>
      simp only [Option.map_some, Option.some.injEq]
      by_cases h1 : a = x
      · subst h1
        simp [Ne.symm hab]
      · have h1' : x ≠ a := fun hc => h1 hc.symm
        by_cases h2 : b = x
        · subst h2
          simp [h1, h1', hn'.1]
        · have h2' : x ≠ b := fun hc => h2 hc.symm
          simp [h1, h1', h2, h2']

theorem linkAll_spec : ∀ (L : List Nat) (h : List (Feature M)) (x : Nat), L.Nodup →
    (linkAll L h)[x]? = (h[x]?).map (fun f => { f with conns := f.conns ++ (if x ∈ L then L.filter (· ≠ x) else []) })
  | [], h, x, _ => by
    unfold linkAll
    cases h[x]? <;> simp
  | a :: rest, h, x, hn => by
    have hn' := List.nodup_cons.1 hn
    unfold linkAll
    rw [linkAll_spec rest _ x hn'.2, linkInner a rest h x hn'.1 hn'.2]
    cases h[x]? with
    | none => rfl
    | some f =>
      simp only [Option.map_some, Option.some.injEq]
      by_cases h1 : x = a
      · subst h1
        have : rest.filter (fun y => decide (y ≠ x)) = rest := by
          rw [List.filter_eq_self]
          intro y hy
          simp only [ne_eq, decide_eq_true_eq]
          intro hc; rw [hc] at hy; exact hn'.1 hy
        simp only [hn'.1, if_false, if_true, List.mem_cons, true_or, List.append_nil]
        rw [List.filter_cons_of_neg (by simp), this]
      · by_cases h2 : x ∈ rest
        · have : ¬ a = x := fun hc => h1 hc.symm
          simp [h1, h2, this]
        · simp [h1, h2]

theorem length_linkAll : ∀ (L : List Nat) (h : List (Feature M)), (linkAll L h).length = h.length
  | [], h => rfl
  | a :: rest, h => by
    unfold linkAll
    rw [length_linkAll rest]
    have : ∀ (rest : List Nat) (h : List (Feature M)),
        (rest.foldl (fun h b => connect (connect h a b) b a) h).length = h.length := by
      intro rest
      induction rest with
      | nil => intro h; rfl
      | cons b rest ih =>
        intro h
        rw [List.foldl_cons, ih]
        simp [connect]
    exact this rest h

/-! ### Nodes -/

/-- The camera of a feature. -/
def camOf (heap : List (Feature M)) (a : Nat) : Option Nat := (heap[a]?).map Feature.cam

/-- The point of a feature. -/
def ptOf (heap : List (Feature M)) (a : Nat) : Option Nat := (heap[a]?).map Feature.pt

/-- The features in a camera. -/
def inCam (heap : List (Feature M)) (i : Nat) : List Nat :=
  (List.range heap.length).filter (fun a => camOf heap a = some i)

structure NodesOk (heap : List (Feature M)) (nodes : List CamNode) : Prop where
  node : ∀ i n, nodes[i]? = some n → n.id = i ∧ n.relations = inCam heap i ∧ n.map = []
  lt : ∀ f ∈ heap, f.cam < nodes.length

theorem inCam_none {heap : List (Feature M)} {i : Nat} (h : ∀ f ∈ heap, f.cam ≠ i) : inCam heap i = [] := by
  unfold inCam
  rw [List.filter_eq_nil_iff]
  intro a _
  rw [decide_eq_true_eq]
  intro hc
  unfold camOf at hc
  cases hf : heap[a]? with
  | none => rw [hf] at hc; cases hc
  | some f =>
    rw [hf] at hc
    exact h f (List.mem_of_getElem? hf) (Option.some.inj hc)

theorem getElem?_addNodes (nodes : List CamNode) (n i : Nat) :
    (addNodes nodes n)[i]? = if i < nodes.length then nodes[i]? else if i < n then some ⟨i, [], []⟩ else none := by
  unfold addNodes
  split_ifs with h h2
  · exact List.getElem?_append_left h
  · rw [List.getElem?_append_right (by omega), List.getElem?_map, List.getElem?_range' (by omega)]
    simp only [Option.map_some, Option.some.injEq, CamNode.mk.injEq, and_true]
    omega
  · rw [List.getElem?_eq_none]
    simp
    omega

theorem length_addNodes (nodes : List CamNode) (n : Nat) : (addNodes nodes n).length = max nodes.length n := by
  simp [addNodes]
  omega

theorem NodesOk.grow {heap : List (Feature M)} {nodes : List CamNode} (h : NodesOk heap nodes) (n : Nat) :
    NodesOk heap (addNodes nodes n) := by
  refine ⟨fun i m hm => ?_, fun f hf => ?_⟩
  · rw [getElem?_addNodes] at hm
    split_ifs at hm with h1 h2
    · exact h.node i m hm
    · cases hm
      exact ⟨rfl, (inCam_none (fun f hf hc => h1 (by have := h.lt f hf; omega))).symm, rfl⟩
  · rw [length_addNodes]
    have := h.lt f hf
    omega

theorem inCam_snoc (heap : List (Feature M)) (f : Feature M) (i : Nat) :
    inCam (heap ++ [f]) i = if f.cam = i then inCam heap i ++ [heap.length] else inCam heap i := by
  unfold inCam
  rw [List.length_append, List.length_singleton, List.range_succ, List.filter_append]
  have h1 : (List.range heap.length).filter (fun a => decide (camOf (heap ++ [f]) a = some i)) =
      (List.range heap.length).filter (fun a => decide (camOf heap a = some i)) := by
    refine List.filter_congr (fun a ha => ?_)
    unfold camOf
    rw [List.getElem?_append_left (List.mem_range.1 ha)]
  have h2 : camOf (heap ++ [f]) heap.length = some f.cam := by simp [camOf]
  rw [h1]
  split_ifs with h
  · rw [List.filter_cons_of_pos (by rw [h2, h]; simp)]; rfl
  · rw [List.filter_cons_of_neg (by rw [h2]; simp [h])]; simp

theorem NodesOk.addMeasure {st : RelNet M} (h : NodesOk st.heap st.nodes) (pt : Nat) (m : Nat × M) :
    NodesOk (addMeasure pt st m).heap (addMeasure pt st m).nodes ∧
      (Verif.BA.addMeasure pt st m).nodes.length = max st.nodes.length (m.1 + 1) := by
  have key : ∀ nodes, NodesOk st.heap nodes → m.1 < nodes.length → NodesOk (st.heap ++ [⟨m.1, pt, m.2, [], []⟩])
      (nodes.modify m.1 (fun n => { n with relations := n.relations ++ [st.heap.length] })) := by
    intro nodes hn hlt
    refine ⟨fun i n hi => ?_, fun f hf => ?_⟩
    · rw [List.getElem?_modify] at hi
      rw [inCam_snoc]
      split_ifs at hi with h1
      · cases hg : nodes[i]? with
        | none => rw [hg] at hi; cases hi
        | some g =>
          rw [hg] at hi
          cases hi
          obtain ⟨a, b, c⟩ := hn.node i g hg
          exact ⟨a, by simp only [if_pos h1, b], c⟩
      · have hi' : nodes[i]? = some n := by
          cases hg : nodes[i]? with
          | none => rw [hg] at hi; cases hi
          | some g => rw [hg] at hi; cases hi; rfl
        obtain ⟨a, b, c⟩ := hn.node i n hi'
        exact ⟨a, by simp only [if_neg h1, b], c⟩
    · rw [List.length_modify]
      rcases List.mem_append.1 hf with hf | hf
      · exact hn.lt f hf
      · rw [List.mem_singleton.1 hf]; exact hlt
  unfold Verif.BA.addMeasure
  by_cases hle : st.nodes.length ≤ m.1
  · simp only [if_pos hle]
    refine ⟨key _ (h.grow _) ?_, ?_⟩
    · rw [length_addNodes]; omega
    · rw [List.length_modify, length_addNodes]
  · simp only [if_neg hle]
    refine ⟨key _ h (by omega), ?_⟩
    rw [List.length_modify]; omega

/-- The features of a control point before the linking. -/
def mkAll (pt : Nat) (ms : List (Nat × M)) : List (Feature M) := ms.map (fun m => ⟨m.1, pt, m.2, [], []⟩)

/-- The number of nodes needed for some measures. -/
def need (n : Nat) (ms : List (Nat × M)) : Nat := ms.foldl (fun n m => max n (m.1 + 1)) n

theorem addMeasures_spec (pt : Nat) : ∀ (ms : List (Nat × M)) (st : RelNet M), NodesOk st.heap st.nodes →
    (ms.foldl (addMeasure pt) st).heap = st.heap ++ mkAll pt ms ∧
      NodesOk (ms.foldl (addMeasure pt) st).heap (ms.foldl (addMeasure pt) st).nodes ∧
      (ms.foldl (addMeasure pt) st).nodes.length = need st.nodes.length ms
  | [], st, h => ⟨by simp [mkAll], h, rfl⟩
  | m :: ms, st, h => by
    obtain ⟨h1, h2⟩ := h.addMeasure pt m
    obtain ⟨a, b, c⟩ := addMeasures_spec pt ms _ h1
    refine ⟨?_, b, ?_⟩
    · rw [List.foldl_cons, a]
      simp [addMeasure, mkAll]
    · rw [List.foldl_cons, c, h2]
      rfl

/-! ### Points -/

structure PtsOk (heap : List (Feature M)) (k : Nat) : Prop where
  pts : ∀ f ∈ heap, f.pt < k
  conns : ∀ a f, heap[a]? = some f → f.conns = (List.range heap.length).filter (fun b => b ≠ a ∧ ptOf heap b = some f.pt)
  map : ∀ f ∈ heap, f.map = []

/-- What the measures say of a feature. -/
def face (f : Feature M) : Nat × Nat × M := (f.pt, f.cam, f.meas)

theorem camOf_face {h h' : List (Feature M)} (e : h.map face = h'.map face) (a : Nat) : camOf h a = camOf h' a := by
  have := congrArg (fun l => (l[a]?).map (fun t : Nat × Nat × M => t.2.1)) e
  simp only [List.getElem?_map, Option.map_map] at this
  exact this

theorem ptOf_face {h h' : List (Feature M)} (e : h.map face = h'.map face) (a : Nat) : ptOf h a = ptOf h' a := by
  have := congrArg (fun l => (l[a]?).map (fun t : Nat × Nat × M => t.1)) e
  simp only [List.getElem?_map, Option.map_map] at this
  exact this

theorem inCam_face {h h' : List (Feature M)} (e : h.map face = h'.map face) (i : Nat) : inCam h i = inCam h' i := by
  unfold inCam
  have hl : h.length = h'.length := by simpa using congrArg List.length e
  rw [hl]
  exact List.filter_congr (fun a _ => by rw [camOf_face e])

theorem NodesOk.face {h h' : List (Feature M)} {nodes} (e : h.map face = h'.map face) (hn : NodesOk h nodes) :
    NodesOk h' nodes := by
  refine ⟨fun i n hi => ?_, fun f hf => ?_⟩
  · rw [← inCam_face e]; exact hn.node i n hi
  · have : Verif.BA.face f ∈ h.map Verif.BA.face := by rw [e]; exact List.mem_map_of_mem hf
    obtain ⟨g, hg, hgf⟩ := List.mem_map.1 this
    have := hn.lt g hg
    have e2 : g.cam = f.cam := congrArg (fun t : Nat × Nat × M => t.2.1) hgf
    rwa [e2] at this

theorem face_linkAll {L : List Nat} (hL : L.Nodup) (h : List (Feature M)) : (linkAll L h).map face = h.map face := by
  apply List.ext_getElem?
  intro x
  rw [List.getElem?_map, List.getElem?_map, linkAll_spec L h x hL, Option.map_map]
  rfl

theorem range_filter_split (n m : Nat) (q : Nat → Bool) (h : ∀ b, b < n → q b = false) :
    (List.range (n + m)).filter q = (List.range' n m).filter q := by
  rw [List.range_add, List.filter_append, List.filter_eq_nil_iff.2 (fun b hb => by rw [h b (List.mem_range.1 hb)]; simp),
    List.nil_append, List.range'_eq_map_range]

theorem addPoint_spec {st : RelNet M} {k : Nat} (hn : NodesOk st.heap st.nodes) (hp : PtsOk st.heap k)
    {ms : List (Nat × M)} (hms : ms ≠ []) : ∃ st', addPoint st (ms, k) = some st' ∧ NodesOk st'.heap st'.nodes ∧
      PtsOk st'.heap (k + 1) ∧ st'.nodes.length = need st.nodes.length ms ∧
      st'.heap.map face = st.heap.map face ++ ms.map (fun m => (k, m.1, m.2)) := by
  obtain ⟨a, b, c⟩ := addMeasures_spec k ms st hn
  have hnd : (List.range' st.heap.length ms.length).Nodup := List.nodup_range'
  unfold addPoint
  simp only [if_neg hms]
  have hface := face_linkAll hnd (ms.foldl (addMeasure k) st).heap
  refine ⟨_, rfl, b.face hface.symm, ?_, c, ?_⟩
  · have hlen : (linkAll (List.range' st.heap.length ms.length) (ms.foldl (addMeasure k) st).heap).length =
        st.heap.length + ms.length := by
      rw [length_linkAll, a]; simp [mkAll]
    have hget : ∀ x f, (linkAll (List.range' st.heap.length ms.length) (ms.foldl (addMeasure k) st).heap)[x]? = some f →
        (x < st.heap.length ∧ st.heap[x]? = some f) ∨ (st.heap.length ≤ x ∧ x < st.heap.length + ms.length ∧ f.pt = k ∧
          f.conns = (List.range' st.heap.length ms.length).filter (· ≠ x) ∧ f.map = []) := by
      intro x f hx
      rw [linkAll_spec _ _ _ hnd, a] at hx
      by_cases hlt : x < st.heap.length
      · rw [List.getElem?_append_left hlt] at hx
        rw [if_neg (by rw [List.mem_range'_1]; omega)] at hx
        refine Or.inl ⟨hlt, ?_⟩
        cases hg : st.heap[x]? with
        | none => rw [hg] at hx; cases hx
        | some g => rw [hg] at hx; simp at hx; exact congrArg some hx
      · rw [List.getElem?_append_right (by omega)] at hx
        unfold mkAll at hx
        rw [List.getElem?_map] at hx
        cases hg : ms[x - st.heap.length]? with
        | none => rw [hg] at hx; cases hx
        | some g =>
          have hxl := (List.getElem?_eq_some_iff.1 hg).1
          rw [hg, if_pos (by rw [List.mem_range'_1]; omega)] at hx
          simp only [Option.map_some, Option.some.injEq, List.nil_append] at hx
          rw [← hx]
          exact Or.inr ⟨by omega, by omega, rfl, rfl, rfl⟩
    have hpt : ∀ x, x < st.heap.length + ms.length →
        ptOf (linkAll (List.range' st.heap.length ms.length) (ms.foldl (addMeasure k) st).heap) x =
          if x < st.heap.length then ptOf st.heap x else some k := by
      intro x hx
      unfold ptOf
      cases hg : (linkAll (List.range' st.heap.length ms.length) (ms.foldl (addMeasure k) st).heap)[x]? with
      | none => rw [List.getElem?_eq_none_iff, hlen] at hg; omega
      | some f =>
        rcases hget x f hg with ⟨h1, h2⟩ | ⟨h1, h2, h3, _⟩
        · rw [if_pos h1, h2]
        · rw [if_neg (by omega), Option.map_some, h3]
    have hold : ∀ x, x < st.heap.length → ptOf st.heap x ≠ some k := by
      intro x hx hc
      unfold ptOf at hc
      rw [List.getElem?_eq_getElem hx] at hc
      have := hp.pts _ (List.getElem_mem hx)
      have := Option.some.inj hc
      omega
    refine ⟨fun f hf => ?_, fun x f hx => ?_, fun f hf => ?_⟩
    · obtain ⟨x, hx⟩ := List.mem_iff_getElem?.1 hf
      rcases hget x f hx with ⟨h1, h2⟩ | ⟨h1, h2, h3, _⟩
      · have := hp.pts f (List.mem_of_getElem? h2); omega
      · omega
    · rcases hget x f hx with ⟨h1, h2⟩ | ⟨h1, h2, h3, h4, _⟩
      · rw [hp.conns x f h2, hlen, List.range_add, List.filter_append]
        have e2 : ((List.range ms.length).map (fun y => st.heap.length + y)).filter (fun b => decide (b ≠ x ∧
            ptOf (linkAll (List.range' st.heap.length ms.length) (ms.foldl (addMeasure k) st).heap) b = some f.pt)) = [] := by
          rw [List.filter_eq_nil_iff]
          intro y hy
          obtain ⟨z, hz, rfl⟩ := List.mem_map.1 hy
          have hz' := List.mem_range.1 hz
          rw [hpt _ (by omega), if_neg (by omega)]
          have := hp.pts f (List.mem_of_getElem? h2)
          simp only [decide_eq_true_eq, Option.some.injEq]
          omega
        rw [e2, List.append_nil]
        refine List.filter_congr (fun y hy => ?_)
        have hy' := List.mem_range.1 hy
        rw [hpt y (by omega), if_pos hy']
      · rw [h4, hlen, range_filter_split]
        · refine List.filter_congr (fun y hy => ?_)
          have hy' := List.mem_range'_1.1 hy
          rw [hpt y (by omega), if_neg (by omega), h3]
          simp
        · intro y hy
          rw [hpt y (by omega), if_pos hy, h3, decide_eq_false_iff_not]
          exact fun hc => hold y hy hc.2
    · obtain ⟨x, hx⟩ := List.mem_iff_getElem?.1 hf
      rcases hget x f hx with ⟨h1, h2⟩ | ⟨h1, h2, h3, h4, h5⟩
      · exact hp.map f (List.mem_of_getElem? h2)
      · exact h5
  · simp only
    rw [hface, a, List.map_append]
    unfold mkAll
    rw [List.map_map]
    rfl

/-- The measures of a network in order, with the index of their control point. -/
def measures (cnet : List (List (Nat × M))) (k : Nat) : List (Nat × Nat × M) :=
  (cnet.zipIdx k).flatMap (fun p => p.1.map (fun m => (p.2, m.1, m.2)))

theorem addPoints_spec : ∀ (cnet : List (List (Nat × M))) (k : Nat) (st : RelNet M), (∀ p ∈ cnet, p ≠ []) →
    NodesOk st.heap st.nodes → PtsOk st.heap k →
    ∃ st', (cnet.zipIdx k).foldlM addPoint st = some st' ∧ NodesOk st'.heap st'.nodes ∧
      PtsOk st'.heap (k + cnet.length) ∧ st'.nodes.length = need st.nodes.length cnet.flatten ∧
      st'.heap.map face = st.heap.map face ++ measures cnet k
  | [], k, st, _, hn, hp => ⟨st, rfl, hn, hp, rfl, by simp [measures]⟩
  | p :: cnet, k, st, hne, hn, hp => by
    obtain ⟨st1, a1, a2, a3, a4, a5⟩ := addPoint_spec hn hp (hne p (by simp))
    obtain ⟨st2, b1, b2, b3, b4, b5⟩ := addPoints_spec cnet (k + 1) st1 (fun q hq => hne q (by simp [hq])) a2 a3
    refine ⟨st2, ?_, b2, ?_, ?_, ?_⟩
    · rw [List.zipIdx_cons, List.foldlM_cons, a1]
      exact b1
    · rw [List.length_cons, show k + (cnet.length + 1) = k + 1 + cnet.length by omega]
      exact b3
    · rw [b4, a4]
      unfold need
      rw [List.flatten_cons, List.foldl_append]
    · rw [b5, a5]
      unfold measures
      rw [List.zipIdx_cons, List.flatMap_cons, List.append_assoc]

theorem addPoints_none : ∀ (cnet : List (List (Nat × M))) (k : Nat) (st : RelNet M), [] ∈ cnet →
    (cnet.zipIdx k).foldlM addPoint st = none
  | p :: cnet, k, st, h => by
    rw [List.zipIdx_cons, List.foldlM_cons]
    rcases List.mem_cons.1 h with rfl | h
    · rfl
    · cases hh : addPoint st (p, k) with
      | none => rfl
      | some st1 => exact addPoints_none cnet (k + 1) st1 h

end Verif.BA
