import Verif.Geom.Frames.Traverse

/-
Names and paths: `full_name`, `frame_names`, and what `lookup` finds.
-/

namespace Verif.Geom.Frames

variable {T : Type}

/-- A frame name that does not use the reserved characters as the path syntax does: not empty, without a slash,
and none of the words ".", "..", "...". -/
def Plain (e : Str) : Prop := e ≠ [] ∧ '/' ∉ e ∧ e ≠ ['.'] ∧ e ≠ ['.', '.'] ∧ e ≠ ['.', '.', '.']

theorem splitGo_run : ∀ (s cur rest : Str), '/' ∉ s → splitGo cur (s ++ rest) = splitGo (cur ++ s) rest
  | [], cur, rest, _ => by simp
  | c :: s, cur, rest, h => by
    have hc : c ≠ '/' := fun e => h (by simp [e])
    rw [List.cons_append, splitGo, if_neg hc, splitGo_run s _ _ (fun hh => h (List.mem_cons_of_mem _ hh)),
      List.append_assoc, List.singleton_append]

theorem splitGo_join {cur : Str} : ∀ (l : List Str), (∀ e ∈ l, Plain e) →
    splitGo cur (joinPath l) = (if cur = [] then [] else if cur = ['.'] then [] else [cur]) ++ l := by
  intro l
  induction l generalizing cur with
  | nil =>
    intro _
    show splitGo cur [] = _
    rw [splitGo, List.append_nil]
  | cons e l ih =>
    intro hl
    have he := hl e (by simp)
    have : joinPath (e :: l) = '/' :: (e ++ joinPath l) := by simp [joinPath]
    rw [this, splitGo, if_pos rfl, splitGo_run e [] _ he.2.1, List.nil_append,
      ih (fun x hx => hl x (List.mem_cons_of_mem _ hx)), if_neg he.1, if_neg he.2.2.1]
    simp

theorem splitPath_join {l : List Str} (hl : ∀ e ∈ l, Plain e) : splitPath (joinPath l) = l := by
  unfold splitPath
  rw [splitGo_join l hl, if_pos rfl, List.nil_append]

/-- A relative path: `first/second/…`. -/
theorem splitPath_rel {e : Str} (hs : '/' ∉ e) (h0 : e ≠ []) (h1 : e ≠ ['.']) {l : List Str}
    (hl : ∀ e ∈ l, Plain e) : splitPath (e ++ joinPath l) = e :: l := by
  unfold splitPath
  rw [splitGo_run e [] _ hs, List.nil_append, splitGo_join l hl, if_neg h0, if_neg h1]
  rfl

/-! ### Following a path down -/

theorem childNamed_eq {h : Heap T} {name : Str} : ∀ {L : List Nat}, (∀ c ∈ L, ∃ nd, h c = some nd) →
    (∃ c nc, c ∈ L ∧ h c = some nc ∧ nc.name = name ∧ childNamed h name L = some (some c)) ∨
    (childNamed h name L = some none ∧ ∀ c ∈ L, ∀ nc, h c = some nc → nc.name ≠ name)
  | [], _ => Or.inr ⟨rfl, by simp⟩
  | c :: cs, hL => by
    obtain ⟨nd, hc⟩ := hL c (by simp)
    unfold childNamed
    simp only [hc, Option.bind_eq_bind, Option.bind_some]
    by_cases e : nd.name = name
    · rw [if_pos e]
      exact Or.inl ⟨c, nd, by simp, hc, e, rfl⟩
    · rw [if_neg e]
      rcases childNamed_eq (name := name) (fun x hx => hL x (List.mem_cons_of_mem _ hx)) with
        ⟨d, nd', h1, h2, h3, h4⟩ | ⟨h1, h2⟩
      · exact Or.inl ⟨d, nd', List.mem_cons_of_mem _ h1, h2, h3, h4⟩
      · refine Or.inr ⟨h1, ?_⟩
        intro d hd nc hnc
        rcases List.mem_cons.1 hd with rfl | hd
        · rw [hc] at hnc; cases hnc; exact e
        · exact h2 d hd nc hnc

theorem matchNode_plain {h : Heap T} {node : Nat} {e : Str} {es : List Str} (he : Plain e) :
    matchNode h node (e :: es) = (do
      let c ← children h node
      let r ← childNamed h e c
      match r with
      | none => some none
      | some m => matchNode h m es) := by
  rw [matchNode, if_neg he.2.2.2.1, if_neg he.2.2.2.2]
  rfl

/-- Plain elements: the node reached by the path, if there is one. -/
theorem Inv.matchNode_eq {h : Heap T} {kids} (hi : Inv h kids) : ∀ (es : List Str) (n : Nat) (nd : Node T),
    (∀ e ∈ es, Plain e) → h n = some nd → Uniq h n →
    ∃ r, matchNode h n es = some r ∧ ∀ m, r = some m ↔ Reach h n es m
  | [], n, nd, _, _, _ => ⟨some n, rfl, fun m => by
      rw [reach_nil]
      constructor
      · intro e; injection e with e; exact e.symm
      · intro e; rw [e]⟩
  | e :: es, n, nd, hpl, hn, hu => by
    rw [matchNode_plain (hpl e (by simp))]
    simp only [hi.children_eq hn, Option.bind_eq_bind, Option.bind_some]
    have hal : ∀ c ∈ kids n, ∃ nd, h c = some nd := fun c hc => by
      obtain ⟨x, h1, _⟩ := hi.par_iff.2 hc
      exact ⟨x, h1⟩
    rcases childNamed_eq (name := e) hal with ⟨c, nc, h1, h2, h3, h4⟩ | ⟨h1, h2⟩
    · simp only [h4, Option.bind_some]
      obtain ⟨x, hx1, hx2⟩ := hi.par_iff.2 h1
      rw [h2] at hx1; cases hx1
      obtain ⟨r, e1, e2⟩ := hi.matchNode_eq es c nc (fun x hx => hpl x (List.mem_cons_of_mem _ hx)) h2
        (hu.kid h2 hx2)
      refine ⟨r, e1, fun m => ?_⟩
      rw [e2, ← h3]
      exact (hu.reach_cons h2 hx2 es m).symm
    · simp only [h1, Option.bind_some]
      refine ⟨none, rfl, fun m => ⟨fun hh => (by cases hh), fun hr => ?_⟩⟩
      obtain ⟨c, nc, a1, a2, a3, _⟩ := reach_cons.1 hr
      exact absurd a3 (h2 c ((hi.par c nc n a1).1 a2) nc a1)

/-! ### Full names -/

/-- The names on the way from the root to a node. -/
theorem Inv.names_eq {h : Heap T} {kids} (hi : Inv h kids) {n : Nat} {nd} (hn : h n = some nd) :
    ∃ r nr p, h r = some nr ∧ nr.parent = none ∧ Reach h r p n ∧ fullName h n = some (joinPath (nr.name :: p)) := by
  have app : ∀ (A B : List Nat) (a b : List Str), nameList h A = some a → nameList h B = some b →
      nameList h (A ++ B) = some (a ++ b) := by
    intro A
    induction A with
    | nil => intro B a b ha hb; cases ha; exact hb
    | cons x A ih =>
      intro B a b ha hb
      simp only [nameList, Option.bind_eq_bind, List.cons_append] at ha ⊢
      cases hx : h x with
      | none => rw [hx] at ha; cases ha
      | some nx =>
        rw [hx] at ha
        simp only [Option.bind_some] at ha ⊢
        cases hA : nameList h A with
        | none => rw [hA] at ha; cases ha
        | some a' =>
          rw [hA] at ha
          simp only [Option.bind_some, Option.some.injEq] at ha
          rw [ih B a' b hA hb, ← ha]
          rfl
  have key : ∀ n, h n ≠ none → ∃ r nr p l, h r = some nr ∧ nr.parent = none ∧ Reach h r p n ∧
      ancestry h n = some l ∧ nameList h l = some (nr.name :: p) := by
    refine hi.induct_up ?_ ?_
    · intro n nd hn hp
      obtain ⟨l, h1, _, _, h4, _⟩ := hi.ancestry_eq hn
      refine ⟨n, nd, [], [n], hn, hp, Reach.nil n, by rw [h1, h4 hp]; rfl, ?_⟩
      simp only [nameList, hn, Option.bind_eq_bind, Option.bind_some]
    · intro n nd p hn hp ih
      obtain ⟨r, nr, q, l, a1, a2, a3, a4, a5⟩ := ih
      obtain ⟨l', h1, _, _, _, h5⟩ := hi.ancestry_eq hn
      rw [h5 p hp] at a4
      have hl : l' = l := Option.some.inj a4
      subst hl
      refine ⟨r, nr, q ++ [nd.name], l' ++ [n], a1, a2,
        a3.append (Reach.cons p n nd [] n hn hp (Reach.nil n)), h1, ?_⟩
      refine app l' [n] (nr.name :: q) [nd.name] a5 ?_
      simp only [nameList, hn, Option.bind_eq_bind, Option.bind_some]
  obtain ⟨r, nr, p, l, h1, h2, h3, h4, h5⟩ := key n (by rw [hn]; simp)
  refine ⟨r, nr, p, h1, h2, h3, ?_⟩
  unfold fullName
  simp only [h4, h5, Option.bind_eq_bind, Option.bind_some]

/-! ### Absolute paths -/

theorem joinPath_cons (e : Str) (l : List Str) : joinPath (e :: l) = '/' :: (e ++ joinPath l) := by simp [joinPath]

theorem root_self {h : Heap T} {r : Nat} {nr} (hr : h r = some nr) (hp : nr.parent = none) :
    root h r = some r := by
  rw [root]
  simp only [hr, hp, Option.bind_eq_bind, Option.bind_some]

theorem Inv.lookupFrom_abs {h : Heap T} {kids} (hi : Inv h kids) {r : Nat} {nr} (hr : h r = some nr)
    (hp : nr.parent = none) (hu : Uniq h r) {e : Str} {es : List Str} (he : ∀ x ∈ e :: es, Plain x) :
    ∃ o, lookupFrom h r (joinPath (e :: es)) = some o ∧ ∀ m, o = some m ↔ nr.name = e ∧ Reach h r es m := by
  obtain ⟨o, e1, e2⟩ := hi.matchNode_eq es r nr (fun x hx => he x (List.mem_cons_of_mem _ hx)) hr hu
  unfold lookupFrom
  rw [splitPath_join he]
  have hd : (joinPath (e :: es)).head? = some '/' := by rw [joinPath_cons]; rfl
  simp only [hd, if_true, root_self hr hp, Option.bind_eq_bind, Option.bind_some]
  rw [if_neg (he e (by simp)).2.2.2.2]
  simp only [hr, Option.bind_some]
  by_cases hne : nr.name = e
  · rw [if_pos hne]
    exact ⟨o, e1, fun m => by rw [e2]; simp [hne]⟩
  · rw [if_neg hne]
    exact ⟨none, rfl, fun m => ⟨fun hh => (by cases hh), fun hh => absurd hh.1 hne⟩⟩

/-- The loop over the roots returns the first result that is not NULL. -/
theorem lookupRoots_eq {h : Heap T} {path : Str} {P : Nat → Nat → Prop} : ∀ {rs : List Nat},
    (∀ r ∈ rs, ∃ o, lookupFrom h r path = some o ∧ (∀ m, o = some m → P r m) ∧ (o = none → ∀ m, ¬ P r m)) →
    (∃ r m, r ∈ rs ∧ P r m ∧ lookupRoots h path rs = some (some m)) ∨
    (lookupRoots h path rs = some none ∧ ∀ r ∈ rs, ∀ m, ¬ P r m)
  | [], _ => Or.inr ⟨rfl, by simp⟩
  | r :: rs, hr => by
    obtain ⟨o, e1, e2, e3⟩ := hr r (by simp)
    unfold lookupRoots
    simp only [e1, Option.bind_eq_bind, Option.bind_some]
    cases o with
    | some m => exact Or.inl ⟨r, m, by simp, e2 m rfl, rfl⟩
    | none =>
      rcases lookupRoots_eq (fun s hs => hr s (List.mem_cons_of_mem _ hs)) with ⟨s, m, h1, h2, h3⟩ | ⟨h1, h2⟩
      · exact Or.inl ⟨s, m, List.mem_cons_of_mem _ h1, h2, h3⟩
      · refine Or.inr ⟨h1, ?_⟩
        intro s hs m
        rcases List.mem_cons.1 hs with rfl | hs
        · exact e3 rfl m
        · exact h2 s hs m

/-- An absolute path of plain names, whatever the scope: the frame at that path, NULL if there is none. -/
theorem SInv.lookup_abs {st : Store T} {kids} (hs : SInv st kids) (hrn : RootNames st) {e : Str} {es : List Str}
    (he : ∀ x ∈ e :: es, Plain x) (scope : Option Nat) :
    ∃ o, lookup st (joinPath (e :: es)) scope = some o ∧
      ∀ m, o = some m ↔ ∃ r ∈ st.roots, nameOf st.heap r = some e ∧ Reach st.heap r es m := by
  have hd : (joinPath (e :: es)).head? = some '/' := by rw [joinPath_cons]; rfl
  have hlook : lookup st (joinPath (e :: es)) scope = lookupRoots st.heap (joinPath (e :: es)) st.roots := by
    unfold lookup
    simp only [hd, ne_eq, not_true_eq_false, and_false, if_false, Option.bind_eq_bind, Option.bind_some,
      false_and]
    cases scope with
    | none => rfl
    | some s => simp only [if_true]
  rw [hlook]
  have hroots := lookupRoots_eq (h := st.heap) (path := joinPath (e :: es))
    (P := fun r m => nameOf st.heap r = some e ∧ Reach st.heap r es m) (rs := st.roots) (by
      intro r hr
      obtain ⟨nr, h1, h2⟩ := hs.rroot r hr
      obtain ⟨o, e1, e2⟩ := hs.inv.lookupFrom_abs h1 h2 (hs.uniq ⟨r, hr, Relation.ReflTransGen.refl⟩) he
      refine ⟨o, e1, ?_, ?_⟩
      · intro m hm
        rw [nameOf_some h1, ((e2 m).1 hm).1]
        exact ⟨rfl, ((e2 m).1 hm).2⟩
      · intro ho m hm
        rw [nameOf_some h1] at hm
        rw [(e2 m).2 ⟨Option.some.inj hm.1, hm.2⟩] at ho
        cases ho)
  rcases hroots with ⟨r, m, h1, h2, h3⟩ | ⟨h1, h2⟩
  · refine ⟨some m, h3, fun m' => ⟨fun hm => ?_, ?_⟩⟩
    · injection hm with hm
      rw [← hm]
      exact ⟨r, h1, h2⟩
    · rintro ⟨r', a1, a2, a3⟩
      have : r' = r := hrn r' a1 r h1 (by rw [a2, h2.1])
      subst this
      rw [hs.uniq ⟨r', h1, Relation.ReflTransGen.refl⟩ es m m' h2.2 a3]
  · refine ⟨none, h1, fun m' => ⟨fun hh => (by cases hh), ?_⟩⟩
    rintro ⟨r', a1, a2⟩
    exact absurd a2 (h2 r' a1 m')

/-! ### Search by name -/

/-- The wild-card search below a node: the children of the nodes of the subtree with the name, the nearest
first. -/
theorem Inv.search_name {h : Heap T} {kids} (hi : Inv h kids) {s : Nat} {ns} (hs : h s = some ns) (hu : Uniq h s)
    {e : Str} (he : Plain e) :
    (∃ p m, Reach h s (p ++ [e]) m ∧ matchNode h s [['.', '.', '.'], e] = some (some m) ∧
      ∀ p' m', Reach h s (p' ++ [e]) m' → p.length ≤ p'.length) ∨
    (matchNode h s [['.', '.', '.'], e] = some none ∧ ∀ p m, ¬ Reach h s (p ++ [e]) m) := by
  have hm : matchNode h s [['.', '.', '.'], e] = searchBfs h (fun m => matchNode h m [e]) [s] := by
    rw [matchNode, if_neg (by decide), if_pos rfl]
  rw [hm]
  obtain ⟨dep, hd⟩ := hi.depth
  obtain ⟨rem, hq⟩ := hi.queue_one hs
  have hmem : ∀ x, x ∈ rem ↔ Below h s x := fun x => by rw [hq.mem]; simp
  have hf : ∀ x ∈ rem, ∃ r, matchNode h x [e] = some r ∧ ∀ m, r = some m ↔ Reach h x [e] m := by
    intro x hx
    have hx' := (hmem x).1 hx
    have hax : ∃ nx, h x = some nx := by
      by_cases hxe : x = s
      · rw [hxe]; exact ⟨ns, hs⟩
      · exact (hi.below_alloc hx' hxe).2
    obtain ⟨nx, hnx⟩ := hax
    exact hi.matchNode_eq [e] x nx (by simpa using he) hnx (hu.below hx')
  rcases hi.searchBfs_eq (f := fun m => matchNode h m [e]) hd _ [s] rem rfl hq
    (fun x hx => by obtain ⟨r, h1, _⟩ := hf x hx; exact ⟨r, h1⟩) (by simp) (by simp) with
    ⟨x, m, h1, h2, h3, h4⟩ | ⟨h1, h2⟩
  · left
    obtain ⟨r, a1, a2⟩ := hf x h1
    rw [h2] at a1
    have hre := (a2 m).1 (Option.some.inj a1).symm
    obtain ⟨p, hp⟩ := below_reach ((hmem x).1 h1)
    refine ⟨p, m, hp.append hre, h3, ?_⟩
    intro p' m' hr'
    obtain ⟨y, b1, b2⟩ := reach_split hr'
    have hy : y ∈ rem := (hmem y).2 b1.isBelow
    obtain ⟨r', c1, c2⟩ := hf y hy
    have := h4 y hy m' (by rw [c1, (c2 m').2 b2])
    have d1 := hp.depth hd
    have d2 := b1.depth hd
    omega
  · right
    refine ⟨h1, ?_⟩
    intro p m hr
    obtain ⟨y, b1, b2⟩ := reach_split hr
    have hy : y ∈ rem := (hmem y).2 b1.isBelow
    obtain ⟨r', c1, c2⟩ := hf y hy
    have := h2 y hy
    rw [c1] at this
    rw [(c2 m).2 b2] at this
    cases this
where
  reach_split : ∀ {h : Heap T} {s m : Nat} {p q : List Str}, Reach h s (p ++ q) m → ∃ y, Reach h s p y ∧ Reach h y q m := by
    intro h s m p
    induction p generalizing s with
    | nil => intro q hr; exact ⟨s, Reach.nil s, hr⟩
    | cons e p ih =>
      intro q hr
      obtain ⟨c, nc, h1, h2, h3, h4⟩ := reach_cons.1 (by simpa using hr)
      obtain ⟨y, a1, a2⟩ := ih h4
      exact ⟨y, reach_cons.2 ⟨c, nc, h1, h2, h3, a1⟩, a2⟩

theorem head_plain {e : Str} (he : Plain e) : e ≠ [] ∧ e.head? ≠ some '/' := by
  refine ⟨he.1, ?_⟩
  cases e with
  | nil => exact absurd rfl he.1
  | cons c e =>
    intro hh
    have hc : c = '/' := by simpa using hh
    exact he.2.1 (by simp [hc])

theorem wild_plain {e : Str} (he : Plain e) : e.length < 4 ∨ e.take 4 ≠ ['.', '.', '.', '/'] := by
  right
  intro hh
  apply he.2.1
  apply List.mem_of_mem_take (i := 4)
  rw [hh]
  simp

theorem splitPath_wild {e : Str} (he : Plain e) :
    splitPath (['.', '.', '.', '/'] ++ e) = [['.', '.', '.'], e] := by
  have := splitPath_rel (e := ['.', '.', '.']) (by decide) (by decide) (by decide) (l := [e]) (by simpa using he)
  rw [← this, joinPath_cons]
  simp [joinPath]

theorem lookupFrom_wild {h : Heap T} {s : Nat} {e : Str} (he : Plain e) :
    lookupFrom h s (['.', '.', '.', '/'] ++ e) = matchNode h s [['.', '.', '.'], e] := by
  unfold lookupFrom
  rw [splitPath_wild he]
  exact if_neg (by simp)

/-- A plain name and a scope: the nearest frame strictly below the scope with that name, NULL if there is
none. -/
theorem SInv.lookup_scope {st : Store T} {kids} (hs : SInv st kids) {s : Nat} (hm : Member st s) {e : Str}
    (he : Plain e) :
    (∃ p m, Reach st.heap s (p ++ [e]) m ∧ lookup st e (some s) = some (some m) ∧
      ∀ p' m', Reach st.heap s (p' ++ [e]) m' → p.length ≤ p'.length) ∨
    (lookup st e (some s) = some none ∧ ∀ p m, ¬ Reach st.heap s (p ++ [e]) m) := by
  obtain ⟨ns, hns⟩ := hs.alloc hm
  have hl : lookup st e (some s) = matchNode st.heap s [['.', '.', '.'], e] := by
    unfold lookup
    rw [if_neg (by simp)]
    simp only [Option.bind_eq_bind, Option.bind_some]
    have hsn : (if e ≠ [] ∧ e.head? ≠ some '/' ∧ (e.length < 4 ∨ e.take 4 ≠ ['.', '.', '.', '/'])
        then ['.', '.', '.', '/'] ++ e else e) = ['.', '.', '.', '/'] ++ e :=
      if_pos ⟨(head_plain he).1, (head_plain he).2, wild_plain he⟩
    rw [hsn, lookupFrom_wild he]
    exact if_neg (by simp)
  rw [hl]
  exact hs.inv.search_name hns (hs.uniq hm) he

/-- A plain name without a scope: a frame of the store with that name, NULL if there is none. -/
theorem SInv.lookup_any {st : Store T} {kids} (hs : SInv st kids) {e : Str} (he : Plain e) :
    (∃ m, lookup st e none = some (some m) ∧ Member st m ∧ nameOf st.heap m = some e) ∨
    (lookup st e none = some none ∧ ∀ m, Member st m → nameOf st.heap m ≠ some e) := by
  have hj : '/' :: e = joinPath [e] := by simp [joinPath]
  have h1 := lookupRoots_eq (h := st.heap) (path := '/' :: e)
    (P := fun r m => m = r ∧ nameOf st.heap r = some e) (rs := st.roots) (by
      intro r hr
      obtain ⟨nr, h1, h2⟩ := hs.rroot r hr
      obtain ⟨o, e1, e2⟩ := hs.inv.lookupFrom_abs h1 h2 (hs.uniq ⟨r, hr, Relation.ReflTransGen.refl⟩)
        (e := e) (es := []) (by simpa using he)
      rw [hj]
      refine ⟨o, e1, ?_, ?_⟩
      · intro m hm
        obtain ⟨a1, a2⟩ := (e2 m).1 hm
        exact ⟨reach_nil.1 a2, by rw [nameOf_some h1, a1]⟩
      · rintro ho m ⟨a1, a2⟩
        rw [nameOf_some h1] at a2
        have : o = some m := (e2 m).2 ⟨Option.some.inj a2, reach_nil.2 a1⟩
        rw [ho] at this
        cases this)
  have h2 := lookupRoots_eq (h := st.heap) (path := ['.', '.', '.', '/'] ++ e)
    (P := fun r m => ∃ p, Reach st.heap r (p ++ [e]) m) (rs := st.roots) (by
      intro r hr
      obtain ⟨nr, h1, h2⟩ := hs.rroot r hr
      rw [lookupFrom_wild he]
      rcases hs.inv.search_name h1 (hs.uniq ⟨r, hr, Relation.ReflTransGen.refl⟩) he with
        ⟨p, m, a1, a2, _⟩ | ⟨a1, a2⟩
      · refine ⟨some m, a2, fun m' hm' => ?_, fun hh => (by cases hh)⟩
        injection hm' with hm'
        rw [← hm']
        exact ⟨p, a1⟩
      · refine ⟨none, a1, fun m' hm' => (by cases hm'), ?_⟩
        rintro _ m ⟨p, hp⟩
        exact a2 p m hp)
  have hl : lookup st e none = (do
      let first ← lookupRoots st.heap ('/' :: e) st.roots
      match first with
      | some n => some (some n)
      | none => lookupRoots st.heap (['.', '.', '.', '/'] ++ e) st.roots) := by
    unfold lookup
    rw [if_pos ⟨rfl, (head_plain he).1, (head_plain he).2⟩]
    simp only [Option.bind_eq_bind]
    congr 1
    funext first
    cases first with
    | some n => rfl
    | none =>
      show lookupRoots st.heap (if _ then _ else _) _ = _
      rw [if_pos ⟨(head_plain he).1, (head_plain he).2, wild_plain he⟩]
  rw [hl]
  rcases h1 with ⟨r, m, a1, ⟨a2, a3⟩, a4⟩ | ⟨a1, a2⟩
  · left
    subst a2
    refine ⟨m, ?_, ⟨m, a1, Relation.ReflTransGen.refl⟩, a3⟩
    rw [a4]; rfl
  · rw [a1]
    simp only [Option.bind_eq_bind, Option.bind_some]
    rcases h2 with ⟨r, m, b1, ⟨p, b2⟩, b3⟩ | ⟨b1, b2⟩
    · left
      refine ⟨m, b3, ⟨r, b1, b2.isBelow⟩, ?_⟩
      obtain ⟨y, _, c2⟩ := Inv.search_name.reach_split b2
      obtain ⟨nc, d1, _, d3⟩ := reach_single.1 c2
      rw [nameOf_some d1, d3]
    · right
      refine ⟨b1, ?_⟩
      rintro m ⟨r, c1, c2⟩ hnm
      by_cases e' : m = r
      · subst e'
        exact a2 m c1 m ⟨rfl, hnm⟩
      · obtain ⟨p, hp⟩ := below_reach c2
        rcases List.eq_nil_or_concat p with rfl | ⟨q, z, rfl⟩
        · exact e' (reach_nil.1 hp)
        · rw [List.concat_eq_append] at hp
          obtain ⟨y, d1, d2⟩ := Inv.search_name.reach_split hp
          obtain ⟨nc, f1, _, f3⟩ := reach_single.1 d2
          rw [nameOf_some f1] at hnm
          have : z = e := by rw [← f3]; exact Option.some.inj hnm
          rw [this] at hp
          exact b2 r c1 m ⟨q, hp⟩

/-! ### All names -/

theorem fullNames_append {h : Heap T} : ∀ {A B : List Nat} {a b : List Str}, fullNames h A = some a →
    fullNames h B = some b → fullNames h (A ++ B) = some (a ++ b)
  | [], B, a, b, ha, hb => by cases ha; exact hb
  | x :: A, B, a, b, ha, hb => by
    simp only [fullNames, Option.bind_eq_bind, List.cons_append] at ha ⊢
    cases hx : fullName h x with
    | none => rw [hx] at ha; cases ha
    | some nx =>
      rw [hx] at ha
      simp only [Option.bind_some] at ha ⊢
      cases hA : fullNames h A with
      | none => rw [hA] at ha; cases ha
      | some a' =>
        rw [hA] at ha
        simp only [Option.bind_some, Option.some.injEq] at ha
        rw [fullNames_append hA hb, ← ha]
        rfl

theorem Inv.fullNames_total {h : Heap T} {kids} (hi : Inv h kids) : ∀ {L : List Nat},
    (∀ x ∈ L, ∃ nd, h x = some nd) → ∃ l, fullNames h L = some l
  | [], _ => ⟨[], rfl⟩
  | x :: L, hL => by
    obtain ⟨nd, hx⟩ := hL x (by simp)
    obtain ⟨r, nr, p, _, _, _, h4⟩ := hi.names_eq hx
    obtain ⟨l, hl⟩ := hi.fullNames_total (fun y hy => hL y (List.mem_cons_of_mem _ hy))
    refine ⟨joinPath (nr.name :: p) :: l, ?_⟩
    simp only [fullNames, h4, hl, Option.bind_eq_bind, Option.bind_some]

theorem Inv.frameNames_eq {h : Heap T} {kids} (hi : Inv h kids) : ∀ {rs : List Nat}, rs.Nodup →
    (∀ r ∈ rs, ∃ nd, h r = some nd ∧ nd.parent = none) →
    ∃ L l, frameNames h rs = some l ∧ fullNames h L = some l ∧ L.Nodup ∧
      ∀ x, x ∈ L ↔ ∃ r ∈ rs, Below h r x
  | [], _, _ => ⟨[], [], rfl, rfl, List.nodup_nil, by simp⟩
  | r :: rs, hnd, hr => by
    obtain ⟨nr, h1, h2⟩ := hr r (by simp)
    rw [List.nodup_cons] at hnd
    obtain ⟨L, l, e1, e2, e3, e4⟩ := hi.frameNames_eq hnd.2 (fun s hs => hr s (List.mem_cons_of_mem _ hs))
    obtain ⟨M, f1, f2, f3⟩ := hi.preOrder_root h1 h2
    have hal : ∀ x, Below h r x → ∃ nd, h x = some nd := by
      intro x hx
      by_cases e : x = r
      · rw [e]; exact ⟨nr, h1⟩
      · exact (hi.below_alloc hx e).2
    obtain ⟨m, g1⟩ := hi.fullNames_total (L := M) (fun x hx => hal x ((f3 x).1 hx))
    refine ⟨M ++ L, m ++ l, ?_, fullNames_append g1 e2, ?_, ?_⟩
    · simp only [frameNames, f1, g1, e1, Option.bind_eq_bind, Option.bind_some]
    · rw [List.nodup_append']
      refine ⟨f2, e3, ?_⟩
      intro x hx1 hx2
      have hb := (f3 x).1 hx1
      obtain ⟨s, hs, hb'⟩ := (e4 x).1 hx2
      obtain ⟨ns, s1, s2⟩ := hr s (List.mem_cons_of_mem _ hs)
      obtain ⟨nx, hnx⟩ := hal x hb
      have := hi.root_unique hnx hb hb' h1 h2 s1 s2
      exact hnd.1 (this ▸ hs)
    · intro x
      rw [List.mem_append, f3, e4, exists_cons]

end Verif.Geom.Frames
