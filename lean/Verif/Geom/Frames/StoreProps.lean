import Verif.Geom.Frames.TreeProps

/-
Claims about `FrameStore` (src/vw/Geometry/FrameStore.cc): names, membership, lookup, merging.

Vocabulary: `Member st x`: frame `x` is one of the roots of the store or below one; `Reach h n p m`: the names of
the frames from (but without) `n` down to `m` are `p`; `joinPath [a, b]` is the string "/a/b"; `Plain e`: the name
`e` is not empty, has no '/', and is not ".", ".." or "...".
-/

namespace Verif.Geom.Frames

variable {T : Type}

/-- The states of a store and its client after any sequence of calls that return or throw. -/
inductive StoreHist : Store T → Prop
  | empty : StoreHist ⟨fun _ => none, []⟩
  | call {st : Store T} (op : Op T) {o : Out T} : StoreHist st → Legal st op → exec st op = some o →
      StoreHist o.store
  | setData {st : Store T} (n : Nat) (t : T) : StoreHist st →
      StoreHist ⟨upd st.heap n (fun nd => { nd with trans := t }), st.roots⟩

theorem SInv.setData {st : Store T} {kids} (hs : SInv st kids) (n : Nat) (t : T) :
    SInv ⟨upd st.heap n (fun nd => { nd with trans := t }), st.roots⟩ kids ∧
    (RootNames st → RootNames ⟨upd st.heap n (fun nd => { nd with trans := t }), st.roots⟩) := by
  have hl := setData_links st.heap n t
  have hback : ∀ x, (st.heap x).map (fun nd => (nd.parent, nd.first, nd.next, nd.name))
      = (upd st.heap n (fun nd => { nd with trans := t }) x).map
          (fun nd => (nd.parent, nd.first, nd.next, nd.name)) := fun x => (hl x).symm
  have hname : ∀ x, nameOf (upd st.heap n (fun nd => { nd with trans := t })) x = nameOf st.heap x := by
    intro x
    unfold nameOf
    have := congrArg (Option.map (fun (z : Option Nat × Option Nat × Option Nat × Str) => z.2.2.2)) (hl x)
    rw [Option.map_map, Option.map_map] at this
    exact this
  refine ⟨⟨hs.inv.of_links hl, hs.rnodup, ?_, ?_⟩, ?_⟩
  · intro r hr
    obtain ⟨nd, h1, h2⟩ := hs.rroot r hr
    obtain ⟨nd', a1, a2, _⟩ := links_some hl h1
    exact ⟨nd', a1, by rw [a2, h2]⟩
  · rintro q ⟨r, hr, hb⟩ a ha b hb' he
    refine hs.sib q ⟨r, hr, below_of_links hback hb⟩ a ha b hb' ?_
    rw [← hname a, ← hname b]
    exact he
  · intro hrn r hr s hs' he
    refine hrn r hr s hs' ?_
    rw [← hname r, ← hname s]
    exact he

theorem StoreHist.inv {st : Store T} (hh : StoreHist st) : ∃ kids, SInv st kids := by
  induction hh with
  | empty =>
    refine ⟨fun _ => [], inv_empty, List.nodup_nil, by simp, ?_⟩
    rintro q ⟨r, hr, _⟩
    cases hr
  | call op _ hl he ih =>
    obtain ⟨kids, hs⟩ := ih
    obtain ⟨o', e1, e2⟩ := hs.exec hl
    rw [he] at e1; cases e1
    exact e2
  | setData n t _ ih =>
    obtain ⟨kids, hs⟩ := ih
    exact ⟨kids, (hs.setData n t).1⟩

/-! ### C79: the store stays a forest with unique names -/

/-- Every legal call returns or throws: no dangling pointer is followed and no loop runs forever. -/
theorem store_returns {st : Store T} (hh : StoreHist st) {op : Op T} (hl : Legal st op) :
    ∃ o, exec st op = some o := by
  obtain ⟨kids, hs⟩ := hh.inv
  obtain ⟨o, h1, _⟩ := hs.exec hl
  exact ⟨o, h1⟩

/-- Roots of the store are allocated, have no parent and are listed once. -/
theorem store_roots {st : Store T} (hh : StoreHist st) :
    st.roots.Nodup ∧ ∀ r ∈ st.roots, ∃ nd, st.heap r = some nd ∧ nd.parent = none := by
  obtain ⟨kids, hs⟩ := hh.inv
  exact ⟨hs.rnodup, hs.rroot⟩

/-- Two children of one frame of the store never have the same name. -/
theorem store_sibling_names {st : Store T} (hh : StoreHist st) {q a b : Nat} {na nb} (hq : Member st q)
    (ha : st.heap a = some na) (hb : st.heap b = some nb) (hpa : na.parent = some q) (hpb : nb.parent = some q)
    (hn : na.name = nb.name) : a = b := by
  obtain ⟨kids, hs⟩ := hh.inv
  refine hs.sib q hq a ((hs.inv.par a na q ha).1 hpa) b ((hs.inv.par b nb q hb).1 hpb) ?_
  rw [nameOf_some ha, nameOf_some hb, hn]

/-- Nor do two roots, as long as frames are only deleted recursively. -/
theorem store_root_names {st : Store T} (hh : StoreHist st) (hrn : RootNames st) {op : Op T} (hl : Legal st op)
    (hd : ∀ f, op ≠ .del f false) {o : Out T} (ho : exec st op = some o) : RootNames o.store := by
  obtain ⟨kids, hs⟩ := hh.inv
  exact hs.exec_roots hrn hl hd ho

/-- `del(frame, false)` can break it: a child with the name of another root becomes a second root of that name. -/
theorem store_del_duplicates {st : Store T} (hh : StoreHist st) {f c r : Nat} {nc nr} (hf : Member st f)
    (hc : st.heap c = some nc) (hcp : nc.parent = some f) (hr : r ∈ st.roots) (hrf : r ≠ f)
    (hrh : st.heap r = some nr) (hn : nc.name = nr.name) :
    ∃ st', del st (some f) false = some (.ret st') ∧ c ≠ r ∧ c ∈ st'.roots ∧ r ∈ st'.roots ∧
      nameOf st'.heap c = nameOf st'.heap r ∧ ¬ RootNames st' := by
  obtain ⟨kids, hs⟩ := hh.inv
  obtain ⟨nf, hnf⟩ := hs.alloc hf
  obtain ⟨st', e1, e2, e3, e4, e5, e6⟩ := hs.delOne hnf hf
  have hck : c ∈ kids f := (hs.inv.par c nc f hc).1 hcp
  have hcf : c ≠ f := by rintro rfl; exact hs.inv.irrefl hck
  have hcr : c ≠ r := by
    rintro rfl
    obtain ⟨nd, h1, h2⟩ := hs.rroot c hr
    rw [hc] at h1; cases h1
    rw [hcp] at h2; cases h2
  have h1 : c ∈ st'.roots := by rw [e6]; exact List.mem_append.2 (Or.inr hck)
  have h2 : r ∈ st'.roots := by
    rw [e6]
    exact List.mem_append.2 (Or.inl (hs.rnodup.mem_erase_iff.2 ⟨hrf, hr⟩))
  have h3 : nameOf st'.heap c = nameOf st'.heap r := by
    rw [nameOf_of_data (e4 c hcf), nameOf_of_data (e4 r hrf), nameOf_some hc, nameOf_some hrh, hn]
  exact ⟨st', e1, hcr, h1, h2, h3, fun hrn => hcr (hrn c h1 r h2 h3)⟩

/-- `add(node, parent)`: refused exactly if the node is in the store already, its name is empty, the parent is not
in the store, or a child of the parent (a root, for NULL) has the name; otherwise its tree joins the store under the
parent. -/
theorem store_add {st : Store T} (hh : StoreHist st) {n : Nat} {nd} (hn : st.heap n = some nd)
    {parent : Option Nat} (hp : ∀ p, parent = some p → ∃ np, st.heap p = some np) (huq : Uniq st.heap n) :
    (addNode st (some n) parent = some (.err st) ∧
      (Member st n ∨ nd.name = [] ∨ (∃ p, parent = some p ∧ ¬ Member st p) ∨
        (∃ p c nc, parent = some p ∧ st.heap c = some nc ∧ nc.parent = some p ∧ nc.name = nd.name) ∨
        (parent = none ∧ ∃ c ∈ st.roots, nameOf st.heap c = some nd.name))) ∨
    (∃ st', addNode st (some n) parent = some (.ret st') ∧ ¬ Member st n ∧ nd.name ≠ [] ∧
      (∀ p, parent = some p → Member st p) ∧
      (∀ p c nc, parent = some p → st.heap c = some nc → nc.parent = some p → nc.name ≠ nd.name) ∧
      (parent = none → ∀ c ∈ st.roots, nameOf st.heap c ≠ some nd.name) ∧
      SameData st.heap st'.heap ∧
      (∀ x q, Par st'.heap x q ↔ (x = n ∧ parent = some q) ∨ (x ≠ n ∧ Par st.heap x q)) ∧
      (∀ x, Member st' x ↔ Member st x ∨ Below st.heap n x)) := by
  obtain ⟨kids, hs⟩ := hh.inv
  rcases hs.addNode hn hp huq with ⟨h1, h2⟩ | ⟨st', h1, h2, h3, h4, h5, _, h6, h7, h8, _⟩
  · left
    refine ⟨h1, ?_⟩
    rcases h2 with h2 | h2 | h2 | ⟨c, h2, h3⟩
    · exact Or.inl h2
    · exact Or.inr (Or.inl h2)
    · exact Or.inr (Or.inr (Or.inl h2))
    · right; right; right
      cases parent with
      | none => exact Or.inr ⟨rfl, c, h2, h3⟩
      | some p =>
        left
        obtain ⟨nc, k1, k2⟩ := hs.inv.par_iff.2 h2
        rw [nameOf_some k1] at h3
        exact ⟨p, c, nc, rfl, k1, k2, Option.some.inj h3⟩
  · right
    refine ⟨st', h1, h2, h3, h4, ?_, ?_, h6, hs.inv.par_moved h7.inv, h8⟩
    · intro p c nc hpp hc hcp he
      subst hpp
      have := h5 c ((hs.inv.par c nc p hc).1 hcp)
      rw [nameOf_some hc, he] at this
      exact this rfl
    · intro hpp c hc
      subst hpp
      exact h5 c hc

/-- Names with reserved characters are not refused, although the documentation of the frame tree says that the store
checks them: "a/b" is accepted as the name of a frame, and then "/a/b", its full name, is not found. -/
theorem store_reserved_name (t : T) :
    ∃ st', addNew (⟨fun _ => none, []⟩ : Store T) 0 ['a', '/', 'b'] none t = some (.ret st') ∧
      fullName st'.heap 0 = some ['/', 'a', '/', 'b'] ∧ lookup st' ['/', 'a', '/', 'b'] none = some none := by
  refine ⟨⟨fun x => if x = 0 then some ⟨['a', '/', 'b'], t, none, none, none⟩ else none, [0]⟩, ?_, ?_, ?_⟩
  · show some (Out.ret _) = some (Out.ret _)
    congr 2
    show Store.mk _ _ = Store.mk _ _
    congr 1
    funext x
    by_cases e : x = 0
    · subst e; rfl
    · simp [upd, e]
  · unfold fullName ancestry
    rw [upward]
    simp only [if_true, Option.bind_eq_bind, Option.bind_some]
    rw [upward]
    rfl
  · unfold lookup
    simp only [List.head?_cons, ne_eq, not_true_eq_false, and_false, if_false, Option.bind_eq_bind,
      Option.bind_some, false_and]
    unfold lookupRoots lookupFrom
    rw [show splitPath ['/', 'a', '/', 'b'] = [['a'], ['b']] from rfl]
    simp only [List.head?_cons, if_true]
    rw [root_self (nr := ⟨['a', '/', 'b'], t, none, none, none⟩) rfl rfl]
    rfl

/-! ### C82: membership and enumeration -/

/-- `is_member` is true for exactly the frames of the store. -/
theorem store_is_member {st : Store T} (hh : StoreHist st) {n : Nat} {nd} (hn : st.heap n = some nd) :
    ∃ b, isMember st (some n) = some b ∧ (b = true ↔ Member st n) := by
  obtain ⟨kids, hs⟩ := hh.inv
  exact hs.isMember_eq hn

/-- `frame_names` lists the full name of every frame of the store, once for each frame. -/
theorem store_frame_names {st : Store T} (hh : StoreHist st) :
    ∃ L l, frameNames st.heap st.roots = some l ∧ fullNames st.heap L = some l ∧ L.Nodup ∧
      ∀ x, x ∈ L ↔ Member st x := by
  obtain ⟨kids, hs⟩ := hh.inv
  exact hs.inv.frameNames_eq hs.rnodup hs.rroot

/-- `del(frame)`: the frame and everything below it is freed and leaves the store, the rest is as before. -/
theorem store_del {st : Store T} (hh : StoreHist st) {f : Nat} (hf : Member st f) :
    ∃ st', del st (some f) true = some (.ret st') ∧ (∀ x, Below st.heap f x → st'.heap x = none) ∧
      (∀ x, Member st' x ↔ Member st x ∧ ¬ Below st.heap f x) ∧
      (∀ x, ¬ Below st.heap f x → (st'.heap x).map (fun nd => (nd.name, nd.trans))
        = (st.heap x).map (fun nd => (nd.name, nd.trans))) ∧
      (∀ x q, ¬ Below st.heap f x → (Par st'.heap x q ↔ Par st.heap x q)) := by
  obtain ⟨kids, hs⟩ := hh.inv
  obtain ⟨nd, hn⟩ := hs.alloc hf
  obtain ⟨st', e1, e2, e3, e4, _⟩ := hs.delRec hn
  refine ⟨st', e1, fun x hx => (e3 x).1 hx, e4, fun x hx => (e3 x).2 hx, ?_⟩
  intro x q hx
  rw [e2.inv.par_iff, hs.inv.par_iff]
  unfold pruned
  by_cases hq : Below st.heap f q
  · rw [if_pos hq]
    constructor
    · intro hh; cases hh
    · intro hh
      exact absurd (Relation.ReflTransGen.head (hs.inv.par_iff.2 hh) hq) hx
  · rw [if_neg hq, (hs.inv.nodup q).mem_erase_iff]
    refine ⟨fun hh => hh.2, fun hh => ⟨?_, hh⟩⟩
    rintro rfl
    exact hx Relation.ReflTransGen.refl

/-- `del(frame, false)`: the frame alone is freed, its children become roots of the store. -/
theorem store_del_one {st : Store T} (hh : StoreHist st) {f : Nat} (hf : Member st f) :
    ∃ st', del st (some f) false = some (.ret st') ∧ st'.heap f = none ∧
      (∀ x, Member st' x ↔ Member st x ∧ x ≠ f) ∧
      (∀ x, Par st.heap x f → x ∈ st'.roots) ∧
      (∀ x q, Par st'.heap x q ↔ x ≠ f ∧ q ≠ f ∧ Par st.heap x q) ∧
      (∀ x, x ≠ f → (st'.heap x).map (fun nd => (nd.name, nd.trans))
        = (st.heap x).map (fun nd => (nd.name, nd.trans))) := by
  obtain ⟨kids, hs⟩ := hh.inv
  obtain ⟨nd, hn⟩ := hs.alloc hf
  obtain ⟨st', e1, e2, e3, e4, e5, e6⟩ := hs.delOne hn hf
  refine ⟨st', e1, e3, e5, ?_, ?_, e4⟩
  · intro x hx
    rw [e6]
    exact List.mem_append.2 (Or.inr (hs.inv.par_iff.1 hx))
  · intro x q
    rw [e2.inv.par_iff, hs.inv.par_iff]
    unfold orphaned
    by_cases hq : q = f
    · rw [if_pos hq]; simp [hq]
    · rw [if_neg hq, mem_cut hs.inv]; simp [hq]

/-- `set_parent(frame, parent)` for a frame of the store and a parent outside its subtree: refused if the parent is
not in the store or the name is taken there, otherwise only the parent of the frame changes. -/
theorem store_set_parent {st : Store T} (hh : StoreHist st) {f : Nat} {nd} (hf : st.heap f = some nd)
    (hfm : Member st f) {parent : Option Nat} (hp : ∀ p, parent = some p → ∃ np, st.heap p = some np)
    (hnb : ∀ p, parent = some p → ¬ Below st.heap f p) :
    (reparent st (some f) parent = some (.err st) ∧
      ((∃ p, parent = some p ∧ ¬ Member st p) ∨
        (∃ p c nc, parent = some p ∧ st.heap c = some nc ∧ nc.parent = some p ∧ nc.name = nd.name) ∨
        (parent = none ∧ ∃ c ∈ st.roots, nameOf st.heap c = some nd.name))) ∨
    (reparent st (some f) parent = some (.ret st) ∧ nd.parent = parent) ∨
    (∃ st', reparent st (some f) parent = some (.ret st') ∧ nd.parent ≠ parent ∧ SameData st.heap st'.heap ∧
      (∀ x q, Par st'.heap x q ↔ (x = f ∧ parent = some q) ∨ (x ≠ f ∧ Par st.heap x q)) ∧
      (∀ x, Member st' x ↔ Member st x) ∧
      (∀ p c nc, parent = some p → st.heap c = some nc → nc.parent = some p → nc.name ≠ nd.name)) := by
  obtain ⟨kids, hs⟩ := hh.inv
  rcases hs.reparent hf hp (hs.uniq hfm) hnb with ⟨h1, h2⟩ | h1 | ⟨st', h1, h2, h3, h4, h5, h6, h7, _⟩
  · left
    refine ⟨h1, ?_⟩
    rcases h2 with h2 | ⟨c, h2, h3⟩
    · exact Or.inl h2
    · right
      cases parent with
      | none => exact Or.inr ⟨rfl, c, h2, h3⟩
      | some p =>
        left
        obtain ⟨nc, k1, k2⟩ := hs.inv.par_iff.2 h2
        rw [nameOf_some k1] at h3
        exact ⟨p, c, nc, rfl, k1, k2, Option.some.inj h3⟩
  · exact Or.inr (Or.inl h1)
  · right; right
    refine ⟨st', h1, h2, h5, hs.inv.par_moved h6.inv, ?_, ?_⟩
    · intro x
      rw [h7]
      constructor
      · rintro (hx | hx)
        · exact hx
        · obtain ⟨r, hr, hb⟩ := hfm
          exact ⟨r, hr, Relation.ReflTransGen.trans hx hb⟩
      · exact Or.inl
    · intro p c nc hpp hc hcp he
      subst hpp
      have := h4 c ((hs.inv.par c nc p hc).1 hcp)
      rw [nameOf_some hc, he] at this
      exact this rfl

/-- A parent inside the frame's own subtree is not refused; afterwards `root`, `full_name` and, if the store has
another root, `is_member` never return for the frame. -/
theorem store_set_parent_cycle {st : Store T} (hh : StoreHist st) {f p : Nat} (hf : Member st f)
    (hb : Below st.heap f p) (hne : ¬ Par st.heap f p)
    (hfresh : ∀ c, Par st.heap c p → nameOf st.heap c ≠ nameOf st.heap f) :
    ∃ st', reparent st (some f) (some p) = some (.ret st') ∧ root st'.heap f = none ∧
      fullName st'.heap f = none ∧
      (isMember st' (some f) = none ∨ (st'.roots = [] ∧ isMember st' (some f) = some false)) := by
  obtain ⟨kids, hs⟩ := hh.inv
  exact hs.reparent_cycle hf hb hne (fun c hc => hfresh c (hs.inv.par_iff.2 hc))

/-- The frame need not be in the store, although the documentation says that this is checked: a root of another
store is taken over, and is then a frame of both. -/
theorem store_set_parent_foreign {st : Store T} (hh : StoreHist st) {f p : Nat} {nf} (hf : st.heap f = some nf)
    (hfp : nf.parent = none) (hu : Uniq st.heap f) (hfm : ¬ Member st f) (hp : Member st p)
    (hfresh : ∀ c, Par st.heap c p → nameOf st.heap c ≠ some nf.name) {other : List Nat} (ho : f ∈ other) :
    ∃ st', reparent st (some f) (some p) = some (.ret st') ∧ Member st' f ∧
      Member ⟨st'.heap, other⟩ f ∧ Par st'.heap f p := by
  obtain ⟨kids, hs⟩ := hh.inv
  obtain ⟨np, hnp⟩ := hs.alloc hp
  have hnb : ¬ Below st.heap f p := hs.not_below_root hf hfp hfm hp
  rcases hs.reparent hf (parent := some p) (fun q hq => by cases hq; exact ⟨np, hnp⟩) hu
    (fun q hq => by cases hq; exact hnb) with ⟨_, h2⟩ | ⟨_, h2⟩ | ⟨st', h1, _, _, _, _, h6, h7, _⟩
  · exfalso
    rcases h2 with ⟨q, hq, h3⟩ | ⟨c, h3, h4⟩
    · cases hq; exact h3 hp
    · exact hfresh c (hs.inv.par_iff.2 h3) h4
  · rw [hfp] at h2; cases h2
  · refine ⟨st', h1, (h7 f).2 (Or.inr Relation.ReflTransGen.refl), ⟨f, ho, Relation.ReflTransGen.refl⟩, ?_⟩
    exact (hs.inv.par_moved h6.inv f p).2 (Or.inl ⟨rfl, rfl⟩)

/-! ### C80: names and lookup -/

/-- `full_name`: the names from the root of the frame down to it, each after a slash. -/
theorem store_full_name {st : Store T} (hh : StoreHist st) {n : Nat} (hn : Member st n) :
    ∃ r ∈ st.roots, ∃ nr p, st.heap r = some nr ∧ Reach st.heap r p n ∧
      fullName st.heap n = some (joinPath (nr.name :: p)) := by
  obtain ⟨kids, hs⟩ := hh.inv
  obtain ⟨nd, hnd⟩ := hs.alloc hn
  obtain ⟨r, nr, p, h1, h2, h3, h4⟩ := hs.inv.names_eq hnd
  obtain ⟨r', hr', hb⟩ := hn
  obtain ⟨nr', k1, k2⟩ := hs.rroot r' hr'
  have := hs.inv.root_unique hnd h3.isBelow hb h1 h2 k1 k2
  subst this
  exact ⟨r, hr', nr, p, h1, h3, h4⟩

/-- An absolute path of plain names finds the frame at that path, with any scope; NULL if there is none. -/
theorem store_lookup_absolute {st : Store T} (hh : StoreHist st) (hrn : RootNames st) {e : Str} {es : List Str}
    (he : ∀ x ∈ e :: es, Plain x) (scope : Option Nat) :
    ∃ o, lookup st (joinPath (e :: es)) scope = some o ∧
      ∀ m, o = some m ↔ ∃ r ∈ st.roots, nameOf st.heap r = some e ∧ Reach st.heap r es m := by
  obtain ⟨kids, hs⟩ := hh.inv
  exact hs.lookup_abs hrn he scope

/-- `lookup(full_name(f))` is `f`, if the names on the path are plain. -/
theorem store_lookup_full_name {st : Store T} (hh : StoreHist st) (hrn : RootNames st) {n : Nat}
    (hn : Member st n) (hpl : ∀ x nx, Below st.heap x n → st.heap x = some nx → Plain nx.name)
    (scope : Option Nat) :
    ∃ s, fullName st.heap n = some s ∧ lookup st s scope = some (some n) := by
  obtain ⟨r, hr, nr, p, h1, h2, h3⟩ := store_full_name hh hn
  have hall : ∀ (p : List Str) (r : Nat), Reach st.heap r p n → ∀ e ∈ p, Plain e := by
    intro p
    induction p with
    | nil => intro r _ e he; cases he
    | cons d p ih =>
      intro r hre e he
      obtain ⟨c, nc, a1, a2, a3, a4⟩ := reach_cons.1 hre
      rcases List.mem_cons.1 he with rfl | he
      · rw [← a3]
        exact hpl c nc a4.isBelow a1
      · exact ih c a4 e he
  have he : ∀ x ∈ nr.name :: p, Plain x := by
    intro x hx
    rcases List.mem_cons.1 hx with rfl | hx
    · exact hpl r nr h2.isBelow h1
    · exact hall p r h2 x hx
  obtain ⟨o, e1, e2⟩ := store_lookup_absolute hh hrn he scope
  refine ⟨_, h3, ?_⟩
  rw [e1, (e2 n).2 ⟨r, hr, nameOf_some h1, h2⟩]

/-- So full names tell the frames apart. -/
theorem store_full_name_injective {st : Store T} (hh : StoreHist st) (hrn : RootNames st) {m n : Nat}
    (hm : Member st m) (hn : Member st n)
    (hpm : ∀ x nx, Below st.heap x m → st.heap x = some nx → Plain nx.name)
    (hpn : ∀ x nx, Below st.heap x n → st.heap x = some nx → Plain nx.name)
    (he : fullName st.heap m = fullName st.heap n) : m = n := by
  obtain ⟨s, h1, h2⟩ := store_lookup_full_name hh hrn hm hpm none
  obtain ⟨s', k1, k2⟩ := store_lookup_full_name hh hrn hn hpn none
  rw [h1, k1] at he
  cases he
  rw [h2] at k2
  exact Option.some.inj (Option.some.inj k2)

/-- A plain name without a scope finds a frame of the store with that name, NULL if there is none. -/
theorem store_lookup_name {st : Store T} (hh : StoreHist st) {e : Str} (he : Plain e) :
    (∃ m, lookup st e none = some (some m) ∧ Member st m ∧ nameOf st.heap m = some e) ∨
    (lookup st e none = some none ∧ ∀ m, Member st m → nameOf st.heap m ≠ some e) := by
  obtain ⟨kids, hs⟩ := hh.inv
  exact hs.lookup_any he

/-- A plain name and a scope find a frame strictly below the scope with that name, none being nearer to the scope;
NULL if there is none. -/
theorem store_lookup_scope {st : Store T} (hh : StoreHist st) {s : Nat} (hm : Member st s) {e : Str}
    (he : Plain e) :
    (∃ p m, Reach st.heap s (p ++ [e]) m ∧ lookup st e (some s) = some (some m) ∧
      ∀ p' m', Reach st.heap s (p' ++ [e]) m' → p.length ≤ p'.length) ∨
    (lookup st e (some s) = some none ∧ ∀ p m, ¬ Reach st.heap s (p ++ [e]) m) := by
  obtain ⟨kids, hs⟩ := hh.inv
  exact hs.lookup_scope hm he

/-- The documentation says a scope restricts the search to its subtree: an absolute path is found outside of it. -/
theorem store_lookup_scope_ignored {st : Store T} (hh : StoreHist st) (hrn : RootNames st) {r s : Nat} {nr}
    (hr : r ∈ st.roots) (hrh : st.heap r = some nr) (hpl : Plain nr.name) (hs : ¬ Below st.heap s r) :
    ∃ m, lookup st ('/' :: nr.name) (some s) = some (some m) ∧ ¬ Below st.heap s m := by
  obtain ⟨o, e1, e2⟩ := store_lookup_absolute hh hrn (e := nr.name) (es := []) (by simpa using hpl) (some s)
  have hj : joinPath [nr.name] = '/' :: nr.name := by simp [joinPath]
  rw [hj] at e1
  refine ⟨r, ?_, hs⟩
  rw [e1, (e2 r).2 ⟨r, hr, nameOf_some hrh, Reach.nil r⟩]

/-! ### C81: merging -/

/-- `merge_tree(tree)`: without a root of that name the tree is added; otherwise the root gets the branches it did
not have, at the same paths, the frames it had stay (with their transforms), other trees are untouched, and what is
left of the source tree is freed. -/
theorem store_merge {st : Store T} (hh : StoreHist st) {tree : Nat} {nt}
    (ht : st.heap tree = some nt) (htp : nt.parent = none) (huq : Uniq st.heap tree) :
    (Member st tree ∧ mergeTree st tree none = some (.err st)) ∨
    (¬ Member st tree ∧ (∀ r ∈ st.roots, nameOf st.heap r ≠ some nt.name) ∧
      mergeTree st tree none = some (.ret ⟨st.heap, st.roots ++ [tree]⟩)) ∨
    (¬ Member st tree ∧ ∃ r ∈ st.roots, nameOf st.heap r = some nt.name ∧
      ∃ h', mergeTree st tree none = some (.ret ⟨h', st.roots⟩) ∧
        (∀ p m, Reach h' r p m ↔ Reach st.heap r p m ∨
          (Reach st.heap tree p m ∧ ∀ m', ¬ Reach st.heap r p m')) ∧
        (∀ s ∈ st.roots, s ≠ r → ∀ p m, Reach h' s p m ↔ Reach st.heap s p m) ∧
        (∀ x, Member ⟨h', st.roots⟩ x → (h' x).map (fun nd => (nd.name, nd.trans))
          = (st.heap x).map (fun nd => (nd.name, nd.trans))) ∧
        (∀ x, Below st.heap tree x → ¬ Member ⟨h', st.roots⟩ x → h' x = none)) := by
  obtain ⟨kids, hs⟩ := hh.inv
  rcases hs.mergeTree ht htp huq with h | ⟨h1, h2, h3, _⟩ | ⟨h1, r, h2, h3, h', kids', h4, _, _, h5, h6, h7, h8⟩
  · exact Or.inl h
  · exact Or.inr (Or.inl ⟨h1, h2, h3⟩)
  · exact Or.inr (Or.inr ⟨h1, r, h2, h3, h', h4, h5, h6, h7, h8⟩)

/-- With a start frame the trees are merged the wrong way round: of the subtree of the start frame only the paths
that the merged tree has too survive, the other frames of the store are freed, and so is the whole merged tree,
with the branches that were to be added. -/
theorem store_merge_start {st : Store T} (hh : StoreHist st) {tree s : Nat} {nt ns}
    (ht : st.heap tree = some nt) (htp : nt.parent = none) (huq : Uniq st.heap tree) (hnm : ¬ Member st tree)
    (hsm : Member st s) (hs1 : st.heap s = some ns) (hn : nt.name = ns.name) :
    ∃ h', mergeTree st tree (some s) = some (.ret ⟨h', st.roots⟩) ∧
      (∀ p m, Reach h' s p m ↔ Reach st.heap s p m ∧ ∃ m', Reach st.heap tree p m') ∧
      (∀ p m, Reach st.heap s p m → (∀ m', ¬ Reach st.heap tree p m') → h' m = none) ∧
      (∀ x, Below st.heap tree x → h' x = none) := by
  obtain ⟨kids, hs⟩ := hh.inv
  rcases hs.mergeTree_start ht htp huq hnm hsm hs1 with ⟨h1, _⟩ | ⟨_, h', kids', h2, _, _, h3, h4, h5⟩
  · exact absurd hn h1
  · exact ⟨h', h2, h3, h4, h5⟩

/-! ### Concrete stores -/

theorem demo_member_name (t : T) {x : Nat} {nx} (hx : demoTree t x = some nx) :
    (x = 0 ∧ nx.name = ['a']) ∨ (x = 1 ∧ nx.name = ['b']) ∨ (x = 2 ∧ nx.name = ['c']) ∨ (x = 3 ∧ nx.name = ['b']) := by
  unfold demoTree at hx
  split_ifs at hx with e0 e1 e2 e3
  · cases hx; exact Or.inl ⟨e0, rfl⟩
  · cases hx; exact Or.inr (Or.inl ⟨e1, rfl⟩)
  · cases hx; exact Or.inr (Or.inr (Or.inl ⟨e2, rfl⟩))
  · cases hx; exact Or.inr (Or.inr (Or.inr ⟨e3, rfl⟩))

theorem demo_uniq (t : T) : Uniq (demoTree t) 0 := by
  refine uniq_of_sibs ?_
  intro q a b na nb _ ha hb hpa hpb hn
  have h1 := (demo_par t a q).1 ⟨na, ha, hpa⟩
  have h2 := (demo_par t b q).1 ⟨nb, hb, hpb⟩
  rcases demo_member_name t ha with ⟨e, e'⟩ | ⟨e, e'⟩ | ⟨e, e'⟩ | ⟨e, e'⟩ <;>
    rcases demo_member_name t hb with ⟨f, f'⟩ | ⟨f, f'⟩ | ⟨f, f'⟩ | ⟨f, f'⟩ <;>
    rw [e', f'] at hn <;> (first | omega | (exfalso; revert hn; decide))

/-- The client builds the forest of `demoTree`. -/
theorem demo_hist0 (t : T) : StoreHist (⟨demoTree t, []⟩ : Store T) := by
  have hno : ∀ (h : Heap T) q, ¬ Member ⟨h, []⟩ q := by
    rintro h q ⟨r, hr, _⟩; cases hr
  have h0 : StoreHist (⟨fun x => if x = 0 then some (⟨['a'], t, none, none, none⟩ : Node T) else none, []⟩) :=
    StoreHist.call (.make 0 none ['a'] t) (o := .ret _) StoreHist.empty ⟨rfl, fun q hq => by cases hq⟩ rfl
  have h1 : StoreHist (⟨fun x => if x = 0 then some (⟨['a'], t, none, some 1, none⟩ : Node T)
      else if x = 1 then some ⟨['b'], t, some 0, none, none⟩ else none, []⟩) := by
    refine StoreHist.call (.make 1 (some 0) ['b'] t) (o := .ret _) h0
      ⟨rfl, fun q hq => by cases hq; exact ⟨⟨_, rfl⟩, hno _ _⟩⟩ ?_
    show some (Out.ret (Store.mk _ _)) = some (Out.ret (Store.mk _ _))
    congr 3
    funext x
    by_cases e0 : x = 0
    · subst e0; rfl
    · by_cases e1 : x = 1
      · subst e1; rfl
      · simp [upd, e0, e1]
  have h2 : StoreHist (⟨fun x => if x = 0 then some (⟨['a'], t, none, some 2, none⟩ : Node T)
      else if x = 1 then some ⟨['b'], t, some 0, none, none⟩
      else if x = 2 then some ⟨['c'], t, some 0, none, some 1⟩ else none, []⟩) := by
    refine StoreHist.call (.make 2 (some 0) ['c'] t) (o := .ret _) h1
      ⟨rfl, fun q hq => by cases hq; exact ⟨⟨_, rfl⟩, hno _ _⟩⟩ ?_
    show some (Out.ret (Store.mk _ _)) = some (Out.ret (Store.mk _ _))
    congr 3
    funext x
    by_cases e0 : x = 0
    · subst e0; rfl
    · by_cases e1 : x = 1
      · subst e1; rfl
      · by_cases e2 : x = 2
        · subst e2; rfl
        · simp [upd, e0, e1, e2]
  refine StoreHist.call (.make 3 (some 2) ['b'] t) (o := .ret _) h2
    ⟨rfl, fun q hq => by cases hq; exact ⟨⟨_, rfl⟩, hno _ _⟩⟩ ?_
  show some (Out.ret (Store.mk _ _)) = some (Out.ret (Store.mk _ _))
  congr 3
  funext x
  by_cases e0 : x = 0
  · subst e0; rfl
  · by_cases e1 : x = 1
    · subst e1; rfl
    · by_cases e2 : x = 2
      · subst e2; rfl
      · by_cases e3 : x = 3
        · subst e3; rfl
        · simp [upd, demoTree, e0, e1, e2, e3]

/-- A store with one tree: a (0) with children b (1) and c (2), and b (3) below c. -/
def demoStore (t : T) : Store T := ⟨demoTree t, [0]⟩

theorem demo_hist (t : T) : StoreHist (demoStore t) := by
  refine StoreHist.call (.addTree 0 none) (o := .ret _) (demo_hist0 t)
    ⟨⟨_, rfl⟩, demo_uniq t, fun q hq => by cases hq⟩ ?_
  show some (Out.ret (Store.mk _ _)) = some (Out.ret (Store.mk _ _))
  congr 3
  funext x
  by_cases e0 : x = 0
  · subst e0; rfl
  · simp [upd, e0]

theorem demo_rootNames (t : T) : RootNames (demoStore t) := by
  intro r hr s hs _
  simp only [demoStore, List.mem_singleton] at hr hs
  rw [hr, hs]

theorem demo_plain (t : T) (x : Nat) (nx) (hx : (demoStore t).heap x = some nx) : Plain nx.name := by
  have h1 : Plain ['a'] := by unfold Plain; decide
  have h2 : Plain ['b'] := by unfold Plain; decide
  have h3 : Plain ['c'] := by unfold Plain; decide
  rcases demo_member_name t hx with ⟨_, e⟩ | ⟨_, e⟩ | ⟨_, e⟩ | ⟨_, e⟩ <;> rw [e] <;> assumption

theorem demo_reach (t : T) : Reach (demoTree t) 0 [['c'], ['b']] 3 :=
  Reach.cons 0 2 ⟨['c'], t, some 0, some 3, some 1⟩ [['b']] 3 rfl rfl
    (Reach.cons 2 3 ⟨['b'], t, some 2, none, none⟩ [] 3 rfl rfl (Reach.nil 3))

/-- "/a/c/b" finds frame 3 in the concrete store. -/
example (t : T) : lookup (demoStore t) ['/', 'a', '/', 'c', '/', 'b'] none = some (some 3) := by
  obtain ⟨o, e1, e2⟩ := store_lookup_absolute (demo_hist t) (demo_rootNames t) (e := ['a']) (es := [['c'], ['b']])
    (by intro x hx; simp only [List.mem_cons, List.not_mem_nil, or_false] at hx
        unfold Plain
        rcases hx with rfl | rfl | rfl <;> decide) none
  have : o = some 3 := (e2 3).2 ⟨0, by simp [demoStore], rfl, demo_reach t⟩
  rw [← this]
  exact e1

/-- "b" finds frame 1, which is nearer to the root than frame 3. -/
example (t : T) : ∃ p m, lookup (demoStore t) ['b'] (some 0) = some (some m) ∧ Reach (demoTree t) 0 (p ++ [['b']]) m ∧
    p.length = 0 := by
  rcases store_lookup_scope (demo_hist t) (s := 0) ⟨0, by simp [demoStore], Relation.ReflTransGen.refl⟩
    (e := ['b']) (by unfold Plain; decide) with ⟨p, m, h1, h2, h3⟩ | ⟨h1, h2⟩
  · refine ⟨p, m, h2, h1, ?_⟩
    have := h3 [] 1 (Reach.cons 0 1 ⟨['b'], t, some 0, none, none⟩ [] 1 rfl rfl (Reach.nil 1))
    simpa using this
  · exact absurd (demo_reach t) (h2 [['c']] 3)

/-- The concrete store meets the hypotheses of the round trip of full names. -/
example (t : T) : ∃ s, fullName (demoTree t) 3 = some s ∧ lookup (demoStore t) s none = some (some 3) :=
  store_lookup_full_name (demo_hist t) (demo_rootNames t) ⟨0, by simp [demoStore], demo_below_up t⟩
    (fun x nx _ hx => demo_plain t x nx hx) none

/-- It meets those of `store_set_parent_cycle`: a (0) is moved below c (2). -/
example (t : T) : ∃ st', reparent (demoStore t) (some 0) (some 2) = some (.ret st') ∧ root st'.heap 0 = none := by
  obtain ⟨st', h1, h2, _⟩ := store_set_parent_cycle (demo_hist t) (f := 0) (p := 2)
    ⟨0, by simp [demoStore], Relation.ReflTransGen.refl⟩
    (Relation.ReflTransGen.single ((demo_par t 2 0).2 (by simp)))
    (fun hh => by have := (demo_par t 0 2).1 hh; omega)
    (fun c hc => by
      have := (demo_par t c 2).1 hc
      have hc3 : c = 3 := by omega
      rw [hc3]
      show some ['b'] ≠ some ['a']
      decide)
  exact ⟨st', h1, h2⟩

/-- A second tree of the client: a (4) with child d (5), next to the store. -/
def demoTwo (t : T) : Heap T := fun x =>
  if x = 4 then some ⟨['a'], t, none, some 5, none⟩
  else if x = 5 then some ⟨['d'], t, some 4, none, none⟩ else demoTree t x

theorem demoTwo_hist (t : T) : StoreHist (⟨demoTwo t, [0]⟩ : Store T) := by
  have h4 : StoreHist (⟨fun x => if x = 4 then some (⟨['a'], t, none, none, none⟩ : Node T) else demoTree t x, [0]⟩) :=
    StoreHist.call (.make 4 none ['a'] t) (o := .ret _) (demo_hist t) ⟨rfl, fun q hq => by cases hq⟩ rfl
  refine StoreHist.call (.make 5 (some 4) ['d'] t) (o := .ret _) h4 ⟨rfl, fun q hq => ?_⟩ ?_
  · cases hq
    refine ⟨⟨_, rfl⟩, ?_⟩
    rintro ⟨r, hr, hb⟩
    have hr0 : r = 0 := by simpa using hr
    have := (below_root (n := 4) (nd := (⟨['a'], t, none, none, none⟩ : Node T)) rfl rfl r).1 hb
    omega
  · show some (Out.ret (Store.mk _ _)) = some (Out.ret (Store.mk _ _))
    congr 3
    funext x
    by_cases e4 : x = 4
    · subst e4; rfl
    · by_cases e5 : x = 5
      · subst e5; rfl
      · simp [upd, demoTwo, e4, e5]

theorem demoTwo_par (t : T) (x p : Nat) : Par (demoTwo t) x p ↔ (x = 5 ∧ p = 4) ∨ Par (demoTree t) x p := by
  unfold Par demoTwo
  by_cases e4 : x = 4
  · subst e4
    constructor
    · rintro ⟨nd, h1, h2⟩
      rw [if_pos rfl] at h1
      cases h1; cases h2
    · rintro (⟨h, _⟩ | ⟨nd, h1, _⟩)
      · cases h
      · cases h1
  · rw [if_neg e4]
    by_cases e5 : x = 5
    · subst e5
      constructor
      · rintro ⟨nd, h1, h2⟩
        rw [if_pos rfl] at h1
        cases h1; cases h2; exact Or.inl ⟨rfl, rfl⟩
      · rintro (⟨_, h⟩ | ⟨nd, h1, _⟩)
        · subst h; exact ⟨_, rfl, rfl⟩
        · cases h1
    · rw [if_neg e5]
      simp [e5]

theorem demoTwo_uniq (t : T) : Uniq (demoTwo t) 4 := by
  refine uniq_of_sibs ?_
  intro q a b na nb hq ha hb hpa hpb _
  have hq' : q = 4 ∨ q = 5 := by
    rcases Relation.ReflTransGen.cases_tail hq with e | ⟨c, h1, h2⟩
    · exact Or.inl e.symm
    · rw [demoTwo_par, demo_par] at h2
      have hc : c = 5 := by omega
      rw [hc] at h1
      rcases Relation.ReflTransGen.cases_tail h1 with e | ⟨d, _, h3⟩
      · exact Or.inr e.symm
      · rw [demoTwo_par, demo_par] at h3; omega
  have h1 := (demoTwo_par t a q).1 ⟨na, ha, hpa⟩
  have h2 := (demoTwo_par t b q).1 ⟨nb, hb, hpb⟩
  rw [demo_par] at h1 h2
  omega

theorem demoTwo_not_member (t : T) : ¬ Member (⟨demoTwo t, [0]⟩ : Store T) 4 := by
  rintro ⟨r, hr, hb⟩
  have hr0 : r = 0 := by simpa using hr
  have := (below_root (h := demoTwo t) (n := 4) (nd := (⟨['a'], t, none, some 5, none⟩ : Node T)) rfl rfl r).1 hb
  omega

theorem demoTwo_reach (t : T) : Reach (demoTwo t) 4 [['d']] 5 :=
  Reach.cons 4 5 ⟨['d'], t, some 4, none, none⟩ [] 5 rfl rfl (Reach.nil 5)

/-- Merged without a start frame, root 0 gets d and keeps c. -/
example (t : T) : ∃ h', mergeTree (⟨demoTwo t, [0]⟩ : Store T) 4 none = some (.ret ⟨h', [0]⟩) ∧
    Reach h' 0 [['d']] 5 ∧ Reach h' 0 [['c']] 2 ∧ h' 4 = none := by
  rcases store_merge (demoTwo_hist t) (tree := 4) rfl rfl (demoTwo_uniq t) with
    ⟨h1, _⟩ | ⟨_, h1, _⟩ | ⟨_, r, h1, _, h', h2, h3, _, _, h6⟩
  · exact absurd h1 (demoTwo_not_member t)
  · exact absurd rfl (h1 0 (by simp))
  · have hr : r = 0 := by simpa using h1
    subst hr
    refine ⟨h', h2, ?_, ?_, ?_⟩
    · refine (h3 _ _).2 (Or.inr ⟨demoTwo_reach t, ?_⟩)
      intro m' hm'
      obtain ⟨nc, k1, k2, k3⟩ := reach_single.1 hm'
      have := (demoTwo_par t m' 0).1 ⟨nc, k1, k2⟩
      rw [demo_par] at this
      rcases (show m' = 1 ∨ m' = 2 by omega) with rfl | rfl
      · cases k1; simp at k3
      · cases k1; simp at k3
    · exact (h3 _ _).2 (Or.inl (Reach.cons 0 2 ⟨['c'], t, some 0, some 3, some 1⟩ [] 2 rfl rfl (Reach.nil 2)))
    · refine h6 4 Relation.ReflTransGen.refl ?_
      rintro ⟨s, hs, hb⟩
      have hs0 : s = 0 := by simpa using hs
      subst hs0
      obtain ⟨p, hp⟩ := below_reach hb
      rcases (h3 p 4).1 hp with hp | ⟨hp, hno⟩
      · exact demoTwo_not_member t ⟨0, by simp, hp.isBelow⟩
      · obtain ⟨kids, hs⟩ := (demoTwo_hist t).inv
        have := hs.inv.reach_path hp (Reach.nil 4)
        subst this
        exact hno 0 (Reach.nil 0)

/-- Merged with start frame 0 instead, frame c (2) of the store is deleted and d is not added. -/
example (t : T) : ∃ h', mergeTree (⟨demoTwo t, [0]⟩ : Store T) 4 (some 0) = some (.ret ⟨h', [0]⟩) ∧
    h' 2 = none ∧ ∀ m, ¬ Reach h' 0 [['d']] m := by
  obtain ⟨h', h1, h2, h3, _⟩ := store_merge_start (demoTwo_hist t) (tree := 4) (s := 0) rfl rfl (demoTwo_uniq t)
    (demoTwo_not_member t) ⟨0, by simp, Relation.ReflTransGen.refl⟩ rfl rfl
  refine ⟨h', h1, ?_, ?_⟩
  · refine h3 [['c']] 2 (Reach.cons 0 2 ⟨['c'], t, some 0, some 3, some 1⟩ [] 2 rfl rfl (Reach.nil 2)) ?_
    intro m' hm'
    obtain ⟨nc, k1, k2, k3⟩ := reach_single.1 hm'
    have := (demoTwo_par t m' 4).1 ⟨nc, k1, k2⟩
    rw [demo_par] at this
    have : m' = 5 := by omega
    subst this
    cases k1; simp at k3
  · intro m hm
    obtain ⟨k, _⟩ := (h2 _ _).1 hm
    obtain ⟨nc, k1, k2, k3⟩ := reach_single.1 k
    have := (demoTwo_par t m 0).1 ⟨nc, k1, k2⟩
    rw [demo_par] at this
    rcases (show m = 1 ∨ m = 2 by omega) with rfl | rfl
    · cases k1; simp at k3
    · cases k1; simp at k3

/-- `store_del_duplicates` is met: b (3) is made a root, then a (0) is deleted and its child b (1) is one too. -/
example (t : T) : ∃ st1 st2, reparent (demoStore t) (some 3) none = some (.ret st1) ∧
    del st1 (some 0) false = some (.ret st2) ∧ 1 ∈ st2.roots ∧ 3 ∈ st2.roots ∧ ¬ RootNames st2 := by
  have hm3 : Member (demoStore t) 3 := ⟨0, by simp [demoStore], demo_below_up t⟩
  have hm0 : Member (demoStore t) 0 := ⟨0, by simp [demoStore], Relation.ReflTransGen.refl⟩
  rcases store_set_parent (demo_hist t) (f := 3) (parent := none) rfl hm3
    (fun p hp => by cases hp) (fun p hp => by cases hp) with ⟨h1, h2⟩ | ⟨_, h2⟩ | ⟨st', h1, _, h3, h4, h5, _⟩
  · exfalso
    rcases h2 with ⟨p, hp, _⟩ | ⟨p, _, _, hp, _⟩ | ⟨_, c, hc, hn⟩
    · cases hp
    · cases hp
    · have : c = 0 := by simpa [demoStore] using hc
      subst this
      have := Option.some.inj hn
      simp at this
  · cases h2
  · have hh' : StoreHist st' := StoreHist.call (.setParent 3 none) (o := .ret st') (demo_hist t)
      ⟨hm3, fun q hq => by cases hq⟩ h1
    have hdata : ∀ x nd, (demoStore t).heap x = some nd → ∃ nd', st'.heap x = some nd' ∧ nd'.name = nd.name := by
      intro x nd hx
      have := h3 x
      rw [hx] at this
      cases hx' : st'.heap x with
      | none => rw [hx'] at this; cases this
      | some nd' =>
        rw [hx'] at this
        exact ⟨nd', rfl, congrArg Prod.fst (Option.some.inj this)⟩
    obtain ⟨n3, a1, a2⟩ := hdata 3 _ rfl
    obtain ⟨n1, b1, b2⟩ := hdata 1 _ rfl
    have hr3 : 3 ∈ st'.roots := by
      obtain ⟨r, hr, hb⟩ := (h5 3).2 hm3
      rcases Relation.ReflTransGen.cases_head hb with h | ⟨q, hq, _⟩
      · rw [h]; exact hr
      · rcases (h4 3 q).1 hq with ⟨_, h⟩ | ⟨h, _⟩
        · cases h
        · exact absurd rfl h
    have hp1 : n1.parent = some 0 := by
      obtain ⟨nd, k1, k2⟩ := (h4 1 0).2 (Or.inr ⟨by decide, (demo_par t 1 0).2 (by simp)⟩)
      rw [b1] at k1; cases k1; exact k2
    obtain ⟨st2, c1, _, c2, c3, _, c4⟩ := store_del_duplicates hh' (f := 0) (c := 1) (r := 3) ((h5 0).2 hm0) b1 hp1 hr3
      (by decide) a1 (by rw [a2, b2])
    exact ⟨st', st2, h1, c1, c2, c3, c4⟩

/-- `store_set_parent_foreign` is met: the tree a (4) of another store with the root list `[4]` is moved below b (1). -/
example (t : T) : ∃ st', reparent (⟨demoTwo t, [0]⟩ : Store T) (some 4) (some 1) = some (.ret st') ∧ Member st' 4 ∧
    Member ⟨st'.heap, [4]⟩ 4 ∧ Par st'.heap 4 1 := by
  refine store_set_parent_foreign (demoTwo_hist t) (f := 4) (p := 1) rfl rfl (demoTwo_uniq t)
    (demoTwo_not_member t) ⟨0, by simp, Relation.ReflTransGen.single ((demoTwo_par t 1 0).2 (Or.inr ((demo_par t 1 0).2 (by simp))))⟩
    ?_ (by simp)
  intro c hc
  rcases (demoTwo_par t c 1).1 hc with h | h
  · omega
  · have := (demo_par t c 1).1 h
    omega

end Verif.Geom.Frames
