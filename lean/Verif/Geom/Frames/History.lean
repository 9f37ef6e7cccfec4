import Verif.Geom.Frames.MergeStore

/-
Histories of operations on a frame store, and the cycle that `set_parent` can create.
-/

namespace Verif.Geom.Frames

variable {T : Type}

/-! ### A new node -/

theorem SInv.newNode {st : Store T} {kids} (hs : SInv st kids) {a : Nat} (ha : st.heap a = none)
    {p : Option Nat} (hp : ∀ q, p = some q → (∃ nq, st.heap q = some nq) ∧ ¬ Member st q) (name : Str) (t : T) :
    ∃ h', newNode st.heap a p name t = some h' ∧ SInv ⟨h', st.roots⟩ (paste kids a p) ∧
      (∃ nd, h' a = some nd ∧ nd.name = name ∧ nd.trans = t ∧ nd.parent = p) ∧
      (∀ x, x ≠ a → (h' x).map (fun nd => (nd.name, nd.trans)) = (st.heap x).map (fun nd => (nd.name, nd.trans))) ∧
      (∀ x, Member ⟨h', st.roots⟩ x ↔ Member st x) ∧ (∀ q, q ≠ a → ¬ Below h' a q) ∧
      (RootNames st → RootNames ⟨h', st.roots⟩) := by
  obtain ⟨h', e1, e2, e3, e4⟩ := hs.inv.newNode ha (fun q hq => (hp q hq).1) name t
  have hpar : ∀ x q, Par h' x q ↔ (x = a ∧ p = some q) ∨ Par st.heap x q := by
    intro x q
    rw [e2.par_iff, hs.inv.par_iff]
    unfold paste
    by_cases hq : p = some q
    · rw [if_pos hq, List.mem_cons]; simp [hq]
    · rw [if_neg hq]; simp [hq]
  have hleaf : ∀ x, ¬ Par h' x a := by
    intro x hx
    rcases (hpar x a).1 hx with ⟨_, hq⟩ | hx
    · obtain ⟨⟨nq, hnq⟩, _⟩ := hp a hq
      rw [ha] at hnq; cases hnq
    · have := hs.inv.par_iff.1 hx
      rw [hs.inv.dead a ha] at this; cases this
  have hup : ∀ r x, x ≠ a → (Below h' r x ↔ Below st.heap r x) := by
    intro r x hx
    constructor
    · intro hb
      induction hb using Relation.ReflTransGen.head_induction_on with
      | refl => exact Relation.ReflTransGen.refl
      | @head y z h1 _ ih =>
        have hz : z ≠ a := by rintro rfl; exact hleaf y h1
        rcases (hpar y z).1 h1 with ⟨e, _⟩ | h2
        · exact absurd e hx
        · exact Relation.ReflTransGen.head h2 (ih hz)
    · intro hb
      exact below_mono (fun _ _ hh => (hpar _ _).2 (Or.inr hh)) hb
  have hroot_ne : ∀ r ∈ st.roots, r ≠ a := by
    rintro r hr rfl
    obtain ⟨nd, h1, _⟩ := hs.rroot r hr
    rw [ha] at h1; cases h1
  have hmem : ∀ x, Member ⟨h', st.roots⟩ x ↔ Member st x := by
    intro x
    by_cases hx : x = a
    · constructor
      · rintro ⟨r, hr, hb⟩
        exfalso
        rcases Relation.ReflTransGen.cases_head hb with e | ⟨q, h1, h2⟩
        · exact hroot_ne r hr (e.symm.trans hx)
        · rcases (hpar x q).1 h1 with ⟨_, hq⟩ | h3
          · obtain ⟨⟨nq, hnq⟩, hnm⟩ := hp q hq
            have hqa : q ≠ a := by rintro rfl; rw [ha] at hnq; cases hnq
            exact hnm ⟨r, hr, (hup r q hqa).1 h2⟩
          · obtain ⟨nd, h4, _⟩ := h3
            rw [hx, ha] at h4; cases h4
      · rintro hm
        obtain ⟨nd, h4⟩ := hs.alloc hm
        rw [hx, ha] at h4; cases h4
    · constructor
      · rintro ⟨r, hr, hb⟩; exact ⟨r, hr, (hup r x hx).1 hb⟩
      · rintro ⟨r, hr, hb⟩; exact ⟨r, hr, (hup r x hx).2 hb⟩
  have hname : ∀ x, x ≠ a → nameOf h' x = nameOf st.heap x := fun x hx => nameOf_of_data (e4 x hx)
  refine ⟨h', e1, ⟨e2, hs.rnodup, ?_, ?_⟩, e3, e4, hmem, ?_, ?_⟩
  · intro r hr
    obtain ⟨nd, h1, h2⟩ := hs.rroot r hr
    have h4 := e4 r (hroot_ne r hr)
    rw [h1] at h4
    cases h5 : h' r with
    | none => rw [h5] at h4; cases h4
    | some nd' =>
      refine ⟨nd', h5, ?_⟩
      cases h6 : nd'.parent with
      | none => rfl
      | some q =>
        rcases (hpar r q).1 ⟨nd', h5, h6⟩ with ⟨e, _⟩ | ⟨nd2, h7, h8⟩
        · exact absurd e (hroot_ne r hr)
        · rw [h1] at h7; cases h7; rw [h2] at h8; cases h8
  · intro q hq
    have hq' := (hmem q).1 hq
    have hk : paste kids a p q = kids q := by
      unfold paste
      exact if_neg (fun hh => (hp q hh).2 hq')
    intro x hx y hy he
    rw [hk] at hx hy
    have hne : ∀ z ∈ kids q, z ≠ a := by
      rintro z hz rfl
      obtain ⟨nd, h1, _⟩ := hs.inv.par_iff.2 hz
      rw [ha] at h1; cases h1
    refine hs.sib q hq' x hx y hy ?_
    rw [← hname x (hne x hx), ← hname y (hne y hy)]
    exact he
  · intro q hq hb
    rcases Relation.ReflTransGen.cases_tail hb with e | ⟨c, _, hc⟩
    · exact hq e.symm
    · exact hleaf c hc
  · intro hrn r hr s hs' he
    refine hrn r hr s hs' ?_
    rw [← hname r (hroot_ne r hr), ← hname s (hroot_ne s hs')]
    exact he

/-- A node without children has no two frames on one path. -/
theorem uniq_leaf {h : Heap T} {a : Nat} (hl : ∀ q, q ≠ a → ¬ Below h a q) : Uniq h a := by
  intro p x y hx hy
  have h1 : x = a := by
    by_contra hne
    exact hl x hne hx.isBelow
  have h2 : y = a := by
    by_contra hne
    exact hl y hne hy.isBelow
  rw [h1, h2]

/-! ### Operations -/

/-- What a client does: the calls of the store, and the construction of nodes of its own. -/
inductive Op (T : Type) where
  | make (a : Nat) (parent : Option Nat) (name : Str) (t : T)
  | add (a : Nat) (name : Str) (parent : Option Nat) (t : T)
  | addTree (n : Nat) (parent : Option Nat)
  | del (f : Nat) (recursive : Bool)
  | setParent (f : Nat) (parent : Option Nat)
  | merge (tree : Nat) (start : Option Nat)

/-- One call. -/
def exec (st : Store T) : Op T → Option (Out T)
  | .make a p name t => do
    let h ← newNode st.heap a p name t
    some (.ret ⟨h, st.roots⟩)
  | .add a name p t => addNew st a name p t
  | .addTree n p => addNode st (some n) p
  | .del f r => del st (some f) r
  | .setParent f p => reparent st (some f) p
  | .merge tree s => mergeTree st tree s

/-- The state after a call, returned or thrown. -/
def Out.store : Out T → Store T
  | .ret st => st
  | .err st => st

/-- What the client must see to: handles are valid, trees handed over have unique sibling names and (for
`merge_tree`) are whole trees that are not in the store, only frames of the store are deleted or moved, and no
frame is moved under itself. -/
def Legal (st : Store T) : Op T → Prop
  | .make a p _ _ => st.heap a = none ∧ ∀ q, p = some q → (∃ nq, st.heap q = some nq) ∧ ¬ Member st q
  | .add a _ p _ => st.heap a = none ∧ ∀ q, p = some q → ∃ nq, st.heap q = some nq
  | .addTree n p => (∃ nd, st.heap n = some nd) ∧ Uniq st.heap n ∧ ∀ q, p = some q → ∃ nq, st.heap q = some nq
  | .del f _ => Member st f
  | .setParent f p => Member st f ∧ ∀ q, p = some q → (∃ nq, st.heap q = some nq) ∧ ¬ Below st.heap f q
  | .merge tree s => (∃ nt, st.heap tree = some nt ∧ nt.parent = none) ∧ Uniq st.heap tree ∧ ¬ Member st tree ∧
      ∀ q, s = some q → Member st q

theorem SInv.exec {st : Store T} {kids} (hs : SInv st kids) {op : Op T} (hl : Legal st op) :
    ∃ o, exec st op = some o ∧ ∃ kids', SInv o.store kids' := by
  cases op with
  | make a p name t =>
    obtain ⟨h', e1, e2, _⟩ := hs.newNode hl.1 hl.2 name t
    refine ⟨.ret ⟨h', st.roots⟩, ?_, _, e2⟩
    unfold Frames.exec
    simp only [e1, Option.bind_eq_bind, Option.bind_some]
  | add a name p t =>
    obtain ⟨h', e1, e2, ⟨nd, f1, f2, f3, f4⟩, e4, e5, e6, e7⟩ := hs.newNode hl.1 (p := none)
      (fun q hq => by cases hq) name t
    have hp : ∀ q, p = some q → ∃ nq, h' q = some nq := by
      intro q hq
      obtain ⟨nq, hnq⟩ := hl.2 q hq
      have hqa : q ≠ a := by rintro rfl; rw [hl.1] at hnq; cases hnq
      have := e4 q hqa
      rw [hnq] at this
      cases h5 : h' q with
      | none => rw [h5] at this; cases this
      | some x => exact ⟨x, rfl⟩
    have hx : Frames.exec st (.add a name p t) = Frames.addNode ⟨h', st.roots⟩ (some a) p := by
      unfold Frames.exec addNew
      simp only [e1, Option.bind_eq_bind, Option.bind_some]
    rw [hx]
    rcases e2.addNode f1 hp (uniq_leaf e6) with ⟨g1, _⟩ | ⟨st', g1, _, _, _, _, _, _, g2, _⟩
    · exact ⟨_, g1, _, e2⟩
    · exact ⟨_, g1, _, g2⟩
  | addTree n p =>
    obtain ⟨⟨nd, hn⟩, hu, hp⟩ := hl
    rcases hs.addNode hn hp hu with ⟨g1, _⟩ | ⟨st', g1, _, _, _, _, _, _, g2, _⟩
    · exact ⟨_, g1, _, hs⟩
    · exact ⟨_, g1, _, g2⟩
  | del f r =>
    obtain ⟨nd, hf⟩ := hs.alloc hl
    cases r with
    | true =>
      obtain ⟨st', g1, g2, _⟩ := hs.delRec hf
      exact ⟨_, g1, _, g2⟩
    | false =>
      obtain ⟨st', g1, g2, _⟩ := hs.delOne hf hl
      exact ⟨_, g1, _, g2⟩
  | setParent f p =>
    obtain ⟨hm, hp⟩ := hl
    obtain ⟨nd, hf⟩ := hs.alloc hm
    rcases hs.reparent hf (fun q hq => (hp q hq).1) (hs.uniq hm) (fun q hq => (hp q hq).2) with
      ⟨g1, _⟩ | ⟨g1, _⟩ | ⟨st', g1, _, _, _, _, g2, _⟩
    · exact ⟨_, g1, _, hs⟩
    · exact ⟨_, g1, _, hs⟩
    · exact ⟨_, g1, _, g2⟩
  | merge tree s =>
    obtain ⟨⟨nt, ht, htp⟩, hu, hm, hsm⟩ := hl
    cases s with
    | none =>
      rcases hs.mergeTree ht htp hu with ⟨g1, _⟩ | ⟨_, _, g1, g2, _⟩ | ⟨_, r, _, _, h', kids', g1, g2, _⟩
      · exact absurd g1 hm
      · exact ⟨_, g1, _, g2⟩
      · exact ⟨_, g1, _, g2⟩
    | some q =>
      obtain ⟨nq, hq⟩ := hs.alloc (hsm q rfl)
      rcases hs.mergeTree_start ht htp hu hm (hsm q rfl) hq with ⟨_, g1⟩ | ⟨_, h', kids', g1, g2, _⟩
      · exact ⟨_, g1, _, hs⟩
      · exact ⟨_, g1, _, g2⟩

/-- Names of the roots stay unique, but for deletions that are not recursive. -/
theorem SInv.exec_roots {st : Store T} {kids} (hs : SInv st kids) (hrn : RootNames st) {op : Op T}
    (hl : Legal st op) (hd : ∀ f, op ≠ .del f false) {o : Out T} (ho : Frames.exec st op = some o) :
    RootNames o.store := by
  cases op with
  | make a p name t =>
    obtain ⟨h', e1, e2, _, _, _, _, e7⟩ := hs.newNode hl.1 hl.2 name t
    unfold Frames.exec at ho
    simp only [e1, Option.bind_eq_bind, Option.bind_some] at ho
    cases ho
    exact e7 hrn
  | add a name p t =>
    obtain ⟨h', e1, e2, ⟨nd, f1, f2, f3, f4⟩, e4, e5, e6, e7⟩ := hs.newNode hl.1 (p := none)
      (fun q hq => by cases hq) name t
    have hp : ∀ q, p = some q → ∃ nq, h' q = some nq := by
      intro q hq
      obtain ⟨nq, hnq⟩ := hl.2 q hq
      have hqa : q ≠ a := by rintro rfl; rw [hl.1] at hnq; cases hnq
      have := e4 q hqa
      rw [hnq] at this
      cases h5 : h' q with
      | none => rw [h5] at this; cases this
      | some x => exact ⟨x, rfl⟩
    have hx : Frames.exec st (.add a name p t) = Frames.addNode ⟨h', st.roots⟩ (some a) p := by
      unfold Frames.exec addNew
      simp only [e1, Option.bind_eq_bind, Option.bind_some]
    rw [hx] at ho
    rcases e2.addNode f1 hp (uniq_leaf e6) with ⟨g1, _⟩ | ⟨st', g1, _, _, _, _, _, _, _, _, g3⟩
    · rw [g1] at ho; cases ho; exact e7 hrn
    · rw [g1] at ho; cases ho; exact g3 (e7 hrn)
  | addTree n p =>
    obtain ⟨⟨nd, hn⟩, hu, hp⟩ := hl
    have ho' : Frames.addNode st (some n) p = some o := ho
    rcases hs.addNode hn hp hu with ⟨g1, _⟩ | ⟨st', g1, _, _, _, _, _, _, _, _, g3⟩
    · rw [g1] at ho'; cases ho'; exact hrn
    · rw [g1] at ho'; cases ho'; exact g3 hrn
  | del f r =>
    obtain ⟨nd, hf⟩ := hs.alloc hl
    cases r with
    | true =>
      have ho' : del st (some f) true = some o := ho
      obtain ⟨st', g1, _, _, _, g5, _⟩ := hs.delRec hf
      rw [g1] at ho'; cases ho'; exact g5 hrn
    | false => exact absurd rfl (hd f)
  | setParent f p =>
    obtain ⟨hm, hp⟩ := hl
    obtain ⟨nd, hf⟩ := hs.alloc hm
    have ho' : Frames.reparent st (some f) p = some o := ho
    rcases hs.reparent hf (fun q hq => (hp q hq).1) (hs.uniq hm) (fun q hq => (hp q hq).2) with
      ⟨g1, _⟩ | ⟨g1, _⟩ | ⟨st', g1, _, _, _, _, _, _, g3⟩
    · rw [g1] at ho'; cases ho'; exact hrn
    · rw [g1] at ho'; cases ho'; exact hrn
    · rw [g1] at ho'; cases ho'; exact g3 hrn
  | merge tree s =>
    obtain ⟨⟨nt, ht, htp⟩, hu, hm, hsm⟩ := hl
    have ho' : Frames.mergeTree st tree s = some o := ho
    cases s with
    | none =>
      rcases hs.mergeTree ht htp hu with ⟨g1, _⟩ | ⟨_, _, g1, _, _, g3⟩ | ⟨_, r, _, _, h', kids', g1, _, g3, _⟩
      · exact absurd g1 hm
      · rw [g1] at ho'; cases ho'; exact g3 hrn
      · rw [g1] at ho'; cases ho'; exact g3 hrn
    | some q =>
      obtain ⟨nq, hq⟩ := hs.alloc (hsm q rfl)
      rcases hs.mergeTree_start ht htp hu hm (hsm q rfl) hq with ⟨_, g1⟩ | ⟨_, h', kids', g1, _, g3, _⟩
      · rw [g1] at ho'; cases ho'; exact hrn
      · rw [g1] at ho'; cases ho'; exact g3 hrn

/-! ### A frame moved under itself -/

/-- `set_parent` under any allocated node, even one of its own subtree: what the parent pointers are. -/
theorem Inv.setParent_any {h : Heap T} {kids} (hi : Inv h kids) {f p : Nat} {nf np} (hf : h f = some nf)
    (hp : h p = some np) :
    ∃ h', Frames.setParent h f (some p) = some h' ∧ ∀ x nd, h x = some nd →
      ∃ nd', h' x = some nd' ∧ nd'.name = nd.name ∧ nd'.parent = if x = f then some p else nd.parent := by
  obtain ⟨h1, e1, e2, e3, nd1, e4, e5⟩ := hi.unlink hf
  have hpar : ∀ x nd, h x = some nd → ∃ nd', h1 x = some nd' ∧ nd'.name = nd.name ∧
      (x ≠ f → nd'.parent = nd.parent) := by
    intro x nd hx
    obtain ⟨nd', a1, a2, _⟩ := e3.some hx
    by_cases hxf : x = f
    · exact ⟨nd', a1, a2, fun hh => absurd hxf hh⟩
    · refine ⟨nd', a1, a2, fun _ => ?_⟩
      have key : ∀ q, nd'.parent = some q ↔ nd.parent = some q := by
        intro q
        rw [e2.par x nd' q (by rw [upd_ne _ _ hxf]; exact a1), hi.par x nd q hx, mem_cut hi]
        exact ⟨fun hh => hh.2, fun hh => ⟨hxf, hh⟩⟩
      cases hq : nd.parent with
      | some q => exact (key q).2 hq
      | none =>
        cases hq' : nd'.parent with
        | none => rfl
        | some q => rw [(key q).1 hq'] at hq; cases hq
  obtain ⟨np1, p1, p2, p3⟩ := hpar p np hp
  obtain ⟨nf1, f1, f2, f3⟩ := hpar f nf hf
  have hex : ∃ np2, upd h1 f (fun nd => { nd with parent := some p }) p = some np2 := by
    by_cases hpf : p = f
    · subst hpf
      rw [upd_same, p1]; exact ⟨_, rfl⟩
    · rw [upd_ne _ _ hpf]; exact ⟨_, p1⟩
  obtain ⟨np2, hnp2⟩ := hex
  refine ⟨upd (upd (upd h1 f (fun nd => { nd with parent := some p })) f
    (fun nd => { nd with next := np2.first })) p (fun nd => { nd with first := some f }), ?_, ?_⟩
  · unfold Frames.setParent
    simp only [e1, Option.bind_eq_bind, Option.bind_some]
    unfold register
    simp only [hnp2, Option.bind_eq_bind, Option.bind_some]
    rw [upd_same, f1]
    rfl
  · intro x nd hx
    obtain ⟨nd', a1, a2, a3⟩ := hpar x nd hx
    by_cases hxf : x = f
    · subst hxf
      rw [if_pos rfl]
      by_cases hxp : x = p
      · subst hxp
        rw [upd_same, upd_same, upd_same, a1]
        exact ⟨_, rfl, a2, rfl⟩
      · rw [upd_ne _ _ hxp, upd_same, upd_same, a1]
        exact ⟨_, rfl, a2, rfl⟩
    · rw [if_neg hxf]
      by_cases hxp : x = p
      · subst hxp
        rw [upd_same, upd_ne _ _ hxf, upd_ne _ _ hxf, a1]
        exact ⟨_, rfl, a2, a3 hxf⟩
      · rw [upd_ne _ _ hxp, upd_ne _ _ hxf, upd_ne _ _ hxf, a1]
        exact ⟨_, rfl, a2, a3 hxf⟩

/-- On a set of nodes whose parents are in the set again, the functions that walk up never return. -/
theorem cycle_diverges {h : Heap T} {C : Nat → Prop}
    (hC : ∀ x, C x → ∃ nd q, h x = some nd ∧ nd.parent = some q ∧ C q) {x : Nat} (hx : C x) :
    root h x = none ∧ fullName h x = none ∧ (∀ r, ¬ C r → isAncestorOf h r (some x) = none) := by
  have hroot : ∀ y r, root h y = some r → C y → False := by
    intro y r hr
    refine root.partial_correctness (motive := fun y _ => C y → False) h ?_ y r hr
    intro f ih y r hr hy
    obtain ⟨nd, q, h1, h2, h3⟩ := hC y hy
    simp only [h1, h2, Option.bind_eq_bind, Option.bind_some] at hr
    exact ih q r hr h3
  have hup : ∀ y r, upward h y = some r → ∀ z, y = some z → C z → False := by
    intro y r hr
    refine upward.partial_correctness (motive := fun y _ => ∀ z, y = some z → C z → False) h ?_ y r hr
    intro f ih y r hr z hy hz
    subst hy
    obtain ⟨nd, q, h1, h2, h3⟩ := hC z hz
    simp only [h1, h2, Option.bind_eq_bind, Option.bind_some] at hr
    cases hf : f (some q) with
    | none => rw [hf] at hr; cases hr
    | some l => exact ih (some q) l hf q rfl h3
  refine ⟨?_, ?_, ?_⟩
  · cases hr : root h x with
    | none => rfl
    | some r => exact (hroot x r hr hx).elim
  · unfold fullName ancestry
    cases hr : upward h (some x) with
    | none => rfl
    | some r => exact (hup (some x) r hr x rfl hx).elim
  · intro r hr
    have hanc : ∀ y b, isAncestorOf h r y = some b → ∀ z, y = some z → C z → False := by
      intro y b hb
      refine isAncestorOf.partial_correctness (motive := fun y _ => ∀ z, y = some z → C z → False) h r ?_ y b hb
      intro f ih y b hb z hy hz
      subst hy
      obtain ⟨nd, q, h1, h2, h3⟩ := hC z hz
      have hne : ¬ some q = some r := by
        intro e
        exact hr (Option.some.inj e ▸ h3)
      simp only [h1, h2, Option.bind_eq_bind, Option.bind_some] at hb
      rw [if_neg hne] at hb
      exact ih (some q) b hb q rfl h3
    cases hb : isAncestorOf h r (some x) with
    | none => rfl
    | some b => exact (hanc (some x) b hb x rfl hx).elim

/-- `set_parent` accepts a parent in the subtree of the frame: afterwards no walk from the frame to its root
returns. -/
theorem SInv.reparent_cycle {st : Store T} {kids} (hs : SInv st kids) {f p : Nat} (hf : Member st f)
    (hb : Below st.heap f p) (hne : ¬ Par st.heap f p)
    (hfresh : ∀ c ∈ kids p, nameOf st.heap c ≠ nameOf st.heap f) :
    ∃ st', Frames.reparent st (some f) (some p) = some (.ret st') ∧ root st'.heap f = none ∧
      fullName st'.heap f = none ∧
      (isMember st' (some f) = none ∨ (st'.roots = [] ∧ isMember st' (some f) = some false)) := by
  obtain ⟨nf, h1⟩ := hs.alloc hf
  have hpm : Member st p := by
    obtain ⟨r, hr, hr'⟩ := hf
    exact ⟨r, hr, Relation.ReflTransGen.trans hb hr'⟩
  obtain ⟨np, h2⟩ := hs.alloc hpm
  have hpp : ∀ q, some p = some q → ∃ nq, st.heap q = some nq := by
    intro q hq; cases hq; exact ⟨np, h2⟩
  obtain ⟨b1, a1, a2⟩ := hs.parentOk_eq hpp
  have ha3 : b1 = true := a2.2 (fun q hq => by cases hq; exact hpm)
  obtain ⟨b2, c1, c2⟩ := hs.assertUnique_eq nf.name hpp
  have hc3 : b2 = true := c2.2 (by
    intro c hc
    have := hfresh c hc
    rw [nameOf_some h1] at this
    exact this)
  obtain ⟨h', d1, d2⟩ := hs.inv.setParent_any h1 h2
  subst ha3 hc3
  refine ⟨⟨h', st.roots.erase f⟩, ?_, ?_⟩
  · unfold Frames.reparent
    simp only [a1, Option.bind_eq_bind, Option.bind_some, Bool.not_true, Bool.false_eq_true, if_false, h1, c1, d1]
    rw [if_neg (fun e => hne ⟨nf, h1, e⟩), if_neg (by simp)]
  · have hC : ∀ x, (Below st.heap f x ∧ Below st.heap x p) → ∃ nd q, h' x = some nd ∧ nd.parent = some q ∧
        (Below st.heap f q ∧ Below st.heap q p) := by
      rintro x ⟨k1, k2⟩
      by_cases hxf : x = f
      · subst hxf
        obtain ⟨nd', g1, _, g3⟩ := d2 x nf h1
        rw [if_pos rfl] at g3
        exact ⟨nd', p, g1, g3, k2, Relation.ReflTransGen.refl⟩
      · rcases Relation.ReflTransGen.cases_head k1 with e | ⟨q, l1, l2⟩
        · exact absurd e hxf
        · obtain ⟨nx, m1, m2⟩ := l1
          obtain ⟨nd', g1, _, g3⟩ := d2 x nx m1
          rw [if_neg hxf] at g3
          exact ⟨nd', q, g1, by rw [g3, m2], l2, Relation.ReflTransGen.tail k2 ⟨nx, m1, m2⟩⟩
    have hff : Below st.heap f f ∧ Below st.heap f p := ⟨Relation.ReflTransGen.refl, hb⟩
    obtain ⟨k1, k2, k3⟩ := cycle_diverges hC hff
    refine ⟨k1, k2, ?_⟩
    cases hr : st.roots.erase f with
    | nil => exact Or.inr ⟨rfl, rfl⟩
    | cons r rs =>
      left
      have hrm : r ∈ st.roots.erase f := by rw [hr]; simp
      obtain ⟨hrf, hrr⟩ := hs.rnodup.mem_erase_iff.1 hrm
      obtain ⟨nr, r1, r2⟩ := hs.rroot r hrr
      have hnc : ¬ (Below st.heap f r ∧ Below st.heap r p) := by
        rintro ⟨hh, _⟩
        exact hrf ((below_root r1 r2 f).1 hh).symm
      show memberLoop h' f (r :: rs) = none
      unfold memberLoop
      rw [if_neg hrf, k3 r hnc]
      rfl

end Verif.Geom.Frames
