import Verif.Geom.Frames.Merge
import Verif.Geom.Frames.Transform

/-
The invariant of the frame store and its preservation by the operations.
-/

namespace Verif.Geom.Frames

variable {T : Type}

/-- The name of a node. -/
def nameOf (h : Heap T) (n : Nat) : Option Str := (h n).map Node.name

theorem nameOf_some {h : Heap T} {n : Nat} {nd} (hn : h n = some nd) : nameOf h n = some nd.name := by
  unfold nameOf; rw [hn]; rfl

theorem SameData.nameOf {h h' : Heap T} (hd : SameData h h') (n : Nat) : Frames.nameOf h' n = Frames.nameOf h n := by
  have := congrArg (Option.map Prod.fst) (hd n)
  simpa [Frames.nameOf, Option.map_map, Function.comp_def] using this

/-- A frame belongs to the store: it is a root or lies below one. -/
def Member (st : Store T) (x : Nat) : Prop := ∃ r ∈ st.roots, Below st.heap r x

/-- The invariant of the store: the heap is a forest, the roots are different root nodes, and the children of a
member have different names. -/
structure SInv (st : Store T) (kids : Nat → List Nat) : Prop where
  inv : Inv st.heap kids
  rnodup : st.roots.Nodup
  rroot : ∀ r ∈ st.roots, ∃ nd, st.heap r = some nd ∧ nd.parent = none
  sib : ∀ q, Member st q → ∀ a ∈ kids q, ∀ b ∈ kids q, nameOf st.heap a = nameOf st.heap b → a = b

/-- The roots have different names. -/
def RootNames (st : Store T) : Prop :=
  ∀ r ∈ st.roots, ∀ s ∈ st.roots, nameOf st.heap r = nameOf st.heap s → r = s

/-- Unique sibling names below `n`, in terms of the lists of children. -/
theorem Inv.uniq_iff {h : Heap T} {kids} (hi : Inv h kids) {n : Nat} :
    Uniq h n ↔ ∀ q, Below h n q → ∀ a ∈ kids q, ∀ b ∈ kids q, nameOf h a = nameOf h b → a = b := by
  constructor
  · intro hu q hq a ha b hb hab
    obtain ⟨⟨na, a1, a2⟩, _⟩ := hi.kid_alloc ha
    obtain ⟨⟨nb, b1, b2⟩, _⟩ := hi.kid_alloc hb
    rw [nameOf_some a1, nameOf_some b1] at hab
    exact (hu.below hq) [na.name] a b (reach_single.2 ⟨na, a1, a2, rfl⟩)
      (reach_single.2 ⟨nb, b1, b2, (Option.some.inj hab).symm⟩)
  · intro hs
    refine uniq_of_sibs ?_
    intro q a b na nb hq a1 b1 a2 b2 hab
    refine hs q hq a ((hi.par a na q a1).1 a2) b ((hi.par b nb q b1).1 b2) ?_
    rw [nameOf_some a1, nameOf_some b1, hab]

theorem SInv.uniq {st : Store T} {kids} (hs : SInv st kids) {n : Nat} (hn : Member st n) : Uniq st.heap n := by
  rw [hs.inv.uniq_iff]
  intro q hq
  obtain ⟨r, h1, h2⟩ := hn
  exact hs.sib q ⟨r, h1, Relation.ReflTransGen.trans hq h2⟩

theorem SInv.alloc {st : Store T} {kids} (hs : SInv st kids) {n : Nat} (hn : Member st n) :
    ∃ nd, st.heap n = some nd := by
  obtain ⟨r, h1, h2⟩ := hn
  obtain ⟨nr, h3, _⟩ := hs.rroot r h1
  by_cases e : n = r
  · subst e; exact ⟨nr, h3⟩
  · exact (hs.inv.below_alloc h2 e).2

/-- Nothing is above a root. -/
theorem root_top {h : Heap T} {r x : Nat} {nr} (hr : h r = some nr) (hp : nr.parent = none) (hb : Below h x r) :
    x = r := (below_root hr hp x).1 hb

/-! ### Membership and uniqueness tests -/

theorem memberLoop_eq {h : Heap T} {kids} (hi : Inv h kids) {n : Nat} {nd} (hn : h n = some nd) :
    ∀ rs : List Nat, ∃ b, memberLoop h n rs = some b ∧ (b = true ↔ ∃ r ∈ rs, Below h r n)
  | [] => ⟨false, rfl, by simp⟩
  | r :: rs => by
    obtain ⟨b, e1, e2⟩ := memberLoop_eq hi hn rs
    unfold memberLoop
    by_cases hr : r = n
    · subst hr
      rw [if_pos rfl]
      exact ⟨true, rfl, fun _ => ⟨r, by simp, Relation.ReflTransGen.refl⟩, fun _ => rfl⟩
    · rw [if_neg hr]
      obtain ⟨b', f1, f2⟩ := hi.isAncestorOf_eq (s := r) hn
      simp only [f1, Option.bind_eq_bind, Option.bind_some]
      cases b' with
      | true =>
        exact ⟨true, rfl, fun _ => ⟨r, by simp, (f2.1 rfl).2⟩, fun _ => rfl⟩
      | false =>
        refine ⟨b, e1, ?_⟩
        rw [e2]
        constructor
        · rintro ⟨s, h1, h2⟩; exact ⟨s, List.mem_cons_of_mem _ h1, h2⟩
        · rintro ⟨s, h1, h2⟩
          rcases List.mem_cons.1 h1 with rfl | h1
          · have := f2.2 ⟨hr, h2⟩; cases this
          · exact ⟨s, h1, h2⟩

theorem SInv.isMember_eq {st : Store T} {kids} (hs : SInv st kids) {n : Nat} {nd} (hn : st.heap n = some nd) :
    ∃ b, isMember st (some n) = some b ∧ (b = true ↔ Member st n) := memberLoop_eq hs.inv hn st.roots

theorem freshIn_eq {h : Heap T} {name : Str} : ∀ {L : List Nat}, (∀ c ∈ L, ∃ nd, h c = some nd) →
    ∃ b, freshIn h name L = some b ∧ (b = true ↔ ∀ c ∈ L, nameOf h c ≠ some name)
  | [], _ => ⟨true, rfl, by simp⟩
  | c :: cs, hL => by
    obtain ⟨nd, hc⟩ := hL c (by simp)
    obtain ⟨b, e1, e2⟩ := freshIn_eq (name := name) (fun x hx => hL x (List.mem_cons_of_mem _ hx))
    unfold freshIn
    simp only [hc, Option.bind_eq_bind, Option.bind_some]
    by_cases hnm : nd.name = name
    · rw [if_pos hnm]
      refine ⟨false, rfl, fun hh => (by cases hh), fun hh => absurd ?_ (hh c (by simp))⟩
      rw [nameOf_some hc, hnm]
    · rw [if_neg hnm]
      refine ⟨b, e1, ?_⟩
      rw [e2, List.forall_mem_cons, nameOf_some hc]
      simp [hnm]

/-- The frames that would become siblings. -/
def sibsOf (st : Store T) (kids : Nat → List Nat) : Option Nat → List Nat
  | none => st.roots
  | some p => kids p

theorem SInv.assertUnique_eq {st : Store T} {kids} (hs : SInv st kids) (name : Str) {parent : Option Nat}
    (hp : ∀ p, parent = some p → ∃ np, st.heap p = some np) :
    ∃ b, assertUnique st name parent = some b ∧
      (b = true ↔ ∀ c ∈ sibsOf st kids parent, nameOf st.heap c ≠ some name) := by
  cases parent with
  | none =>
    refine freshIn_eq (fun c hc => ?_)
    obtain ⟨nd, h1, _⟩ := hs.rroot c hc
    exact ⟨nd, h1⟩
  | some p =>
    obtain ⟨np, hnp⟩ := hp p rfl
    unfold assertUnique
    simp only [hs.inv.children_eq hnp, Option.bind_eq_bind, Option.bind_some]
    refine freshIn_eq (fun c hc => ?_)
    obtain ⟨⟨nd, h1, _⟩, _⟩ := hs.inv.kid_alloc hc
    exact ⟨nd, h1⟩

theorem SInv.parentOk_eq {st : Store T} {kids} (hs : SInv st kids) {parent : Option Nat}
    (hp : ∀ p, parent = some p → ∃ np, st.heap p = some np) :
    ∃ b, parentOk st parent = some b ∧ (b = true ↔ ∀ p, parent = some p → Member st p) := by
  cases parent with
  | none => exact ⟨true, rfl, by simp⟩
  | some p =>
    obtain ⟨np, hnp⟩ := hp p rfl
    obtain ⟨b, e1, e2⟩ := hs.isMember_eq hnp
    exact ⟨b, e1, by rw [e2]; simp⟩

/-! ### Moving a frame -/

theorem Inv.mem_moved {h : Heap T} {kids} (hi : Inv h kids) {n x q : Nat} {p : Option Nat} :
    x ∈ moved kids n p q ↔ (x = n ∧ p = some q) ∨ (x ≠ n ∧ x ∈ kids q) := by
  unfold moved paste
  by_cases hq : p = some q
  · rw [if_pos hq, List.mem_cons, mem_cut hi]
    constructor
    · rintro (rfl | h)
      · exact Or.inl ⟨rfl, hq⟩
      · exact Or.inr h
    · rintro (⟨rfl, _⟩ | h)
      · exact Or.inl rfl
      · exact Or.inr h
  · rw [if_neg hq, mem_cut hi]
    constructor
    · exact Or.inr
    · rintro (⟨_, h⟩ | h)
      · exact absurd h hq
      · exact h

theorem Inv.par_moved {h h' : Heap T} {kids} (hi : Inv h kids) {n : Nat} {p : Option Nat}
    (hi' : Inv h' (moved kids n p)) (x q : Nat) :
    Par h' x q ↔ (x = n ∧ p = some q) ∨ (x ≠ n ∧ Par h x q) := by
  rw [hi'.par_iff, hi.mem_moved, hi.par_iff]

theorem Inv.below_moved_out {h h' : Heap T} {kids} (hi : Inv h kids) {n : Nat} {p : Option Nat}
    (hi' : Inv h' (moved kids n p)) {r x : Nat} (hb : Below h' r x) : Below h r x ∨ Below h n x := by
  induction hb using Relation.ReflTransGen.head_induction_on with
  | refl => exact Or.inl Relation.ReflTransGen.refl
  | head hp _ ih =>
    rcases (hi.par_moved hi' _ _).1 hp with ⟨rfl, _⟩ | ⟨_, hp⟩
    · exact Or.inr Relation.ReflTransGen.refl
    · rcases ih with h1 | h1
      · exact Or.inl (Relation.ReflTransGen.head hp h1)
      · exact Or.inr (Relation.ReflTransGen.head hp h1)

theorem Inv.below_moved_keep {h h' : Heap T} {kids} (hi : Inv h kids) {n : Nat} {p : Option Nat}
    (hi' : Inv h' (moved kids n p)) {r x : Nat} (hb : Below h r x) (hn : ¬ Below h n x) : Below h' r x := by
  induction hb using Relation.ReflTransGen.head_induction_on with
  | refl => exact Relation.ReflTransGen.refl
  | @head a b hp _ ih =>
    have h1 : a ≠ n := by rintro rfl; exact hn Relation.ReflTransGen.refl
    exact Relation.ReflTransGen.head ((hi.par_moved hi' _ _).2 (Or.inr ⟨h1, hp⟩))
      (ih (fun hh => hn (Relation.ReflTransGen.head hp hh)))

theorem Inv.below_moved_in {h h' : Heap T} {kids} (hi : Inv h kids) {n : Nat} {p : Option Nat}
    (hi' : Inv h' (moved kids n p)) {x : Nat} (hb : Below h n x) : Below h' n x := by
  induction hb using Relation.ReflTransGen.head_induction_on with
  | refl => exact Relation.ReflTransGen.refl
  | @head a b hp _ ih =>
    by_cases h1 : a = n
    · subst h1; exact Relation.ReflTransGen.refl
    · exact Relation.ReflTransGen.head ((hi.par_moved hi' _ _).2 (Or.inr ⟨h1, hp⟩)) ih

/-- Putting the node `n`, whose subtree has unique sibling names, under `parent` (or making it a root). -/
theorem SInv.place {st : Store T} {kids} (hs : SInv st kids) {n : Nat} {nd} (hn : st.heap n = some nd)
    {parent : Option Nat} (hpm : ∀ p, parent = some p → Member st p ∧ ¬ Below st.heap n p)
    (hfresh : ∀ c ∈ sibsOf st kids parent, c ≠ n → nameOf st.heap c ≠ some nd.name)
    (huq : Uniq st.heap n) (hroot : n ∈ st.roots → parent ≠ none) :
    ∃ h', setParent st.heap n parent = some h' ∧ SameData st.heap h' ∧
      SInv ⟨h', if parent = none then st.roots.erase n ++ [n] else st.roots.erase n⟩ (moved kids n parent) ∧
      (∀ x, Member ⟨h', if parent = none then st.roots.erase n ++ [n] else st.roots.erase n⟩ x ↔
        Member st x ∨ Below st.heap n x) ∧
      (RootNames st → RootNames ⟨h', if parent = none then st.roots.erase n ++ [n] else st.roots.erase n⟩) := by
  obtain ⟨h', e1, e2, e3⟩ := hs.inv.setParent hn (p := parent) (by
    intro q hq
    obtain ⟨h1, h2⟩ := hpm q hq
    exact ⟨hs.alloc h1, h2⟩)
  generalize hR : (if parent = none then st.roots.erase n ++ [n] else st.roots.erase n) = R
  have hRmem : ∀ r, r ∈ R ↔ (r = n ∧ parent = none) ∨ (r ≠ n ∧ r ∈ st.roots) := by
    intro r
    rw [← hR]
    by_cases hp : parent = none
    · rw [if_pos hp, List.mem_append, List.mem_singleton, hs.rnodup.mem_erase_iff]
      simp only [hp, and_true]
      exact or_comm
    · rw [if_neg hp, hs.rnodup.mem_erase_iff]
      simp [hp]
  have hmem : ∀ x, Member ⟨h', R⟩ x ↔ Member st x ∨ Below st.heap n x := by
    intro x
    constructor
    · rintro ⟨r, h1, h2⟩
      rcases (hRmem r).1 h1 with ⟨rfl, _⟩ | ⟨h3, h4⟩
      · rcases hs.inv.below_moved_out e2 h2 with h5 | h5 <;> exact Or.inr h5
      · rcases hs.inv.below_moved_out e2 h2 with h5 | h5
        · exact Or.inl ⟨r, h4, h5⟩
        · exact Or.inr h5
    · intro hx
      -- everything below `n` is a member in the new store
      have hin : ∀ y, Below st.heap n y → Member ⟨h', R⟩ y := by
        intro y hy
        have hy' := hs.inv.below_moved_in e2 hy
        cases hp : parent with
        | none => exact ⟨n, (hRmem n).2 (Or.inl ⟨rfl, hp⟩), hy'⟩
        | some p =>
          obtain ⟨⟨r, r1, r2⟩, r3⟩ := hpm p hp
          have hrn : r ≠ n := by rintro rfl; exact r3 r2
          refine ⟨r, (hRmem r).2 (Or.inr ⟨hrn, r1⟩), ?_⟩
          have hk := hs.inv.below_moved_keep e2 r2 r3
          have hstep : Par h' n p := (hs.inv.par_moved e2 n p).2 (Or.inl ⟨rfl, hp⟩)
          exact Relation.ReflTransGen.trans hy' (Relation.ReflTransGen.head hstep hk)
      by_cases hb : Below st.heap n x
      · exact hin x hb
      · rcases hx with ⟨r, h1, h2⟩ | hx
        · have hrn : r ≠ n := by rintro rfl; exact hb h2
          exact ⟨r, (hRmem r).2 (Or.inr ⟨hrn, h1⟩), hs.inv.below_moved_keep e2 h2 hb⟩
        · exact absurd hx hb
  refine ⟨h', e1, e3, ⟨e2, ?_, ?_, ?_⟩, hmem, ?_⟩
  · show R.Nodup
    rw [← hR]
    by_cases hp : parent = none
    · rw [if_pos hp, List.nodup_append]
      refine ⟨hs.rnodup.erase n, by simp, ?_⟩
      intro a ha b hb
      rw [List.mem_singleton] at hb
      subst hb
      exact ((hs.rnodup.mem_erase_iff).1 ha).1
    · rw [if_neg hp]; exact hs.rnodup.erase n
  · intro r hr
    show ∃ nd, h' r = some nd ∧ nd.parent = none
    have hex : ∃ nr, st.heap r = some nr ∧ ∀ q, ¬ Par h' r q := by
      rcases (hRmem r).1 hr with ⟨rfl, hp⟩ | ⟨h3, h4⟩
      · refine ⟨nd, hn, fun q hq => ?_⟩
        rcases (hs.inv.par_moved e2 r q).1 hq with ⟨_, h5⟩ | ⟨h5, _⟩
        · rw [hp] at h5; cases h5
        · exact h5 rfl
      · obtain ⟨nr, k1, k2⟩ := hs.rroot r h4
        refine ⟨nr, k1, fun q hq => ?_⟩
        rcases (hs.inv.par_moved e2 r q).1 hq with ⟨h5, _⟩ | ⟨_, nr', h5, h6⟩
        · exact h3 h5
        · rw [k1] at h5; cases h5; rw [k2] at h6; cases h6
    obtain ⟨nr, k1, k2⟩ := hex
    obtain ⟨nr', k3, _⟩ := e3.some k1
    refine ⟨nr', k3, ?_⟩
    cases hh : nr'.parent with
    | none => rfl
    | some q => exact absurd ⟨nr', k3, hh⟩ (k2 q)
  · intro q hq a ha b hb hab
    show a = b
    rw [e3.nameOf, e3.nameOf] at hab
    have hsibs : ∀ a b, a ∈ kids q → b ∈ kids q → nameOf st.heap a = nameOf st.heap b → a = b := by
      intro a b ha hb hab
      rcases (hmem q).1 hq with hq | hq
      · exact hs.sib q hq a ha b hb hab
      · exact (hs.inv.uniq_iff.1 huq) q hq a ha b hb hab
    rcases hs.inv.mem_moved.1 ha with ⟨rfl, ha1⟩ | ⟨ha1, ha2⟩ <;>
      rcases hs.inv.mem_moved.1 hb with ⟨rfl, hb1⟩ | ⟨hb1, hb2⟩
    · rfl
    · subst ha1
      exact absurd (hab.symm.trans (nameOf_some hn)) (hfresh b hb2 hb1)
    · subst hb1
      exact absurd (hab.trans (nameOf_some hn)) (hfresh a ha2 ha1)
    · exact hsibs a b ha2 hb2 hab
  · intro hrn r hr s hs' hrs
    replace hrs : nameOf h' r = nameOf h' s := hrs
    rw [e3.nameOf, e3.nameOf] at hrs
    rcases (hRmem r).1 hr with ⟨rfl, hp⟩ | ⟨h3, h4⟩ <;> rcases (hRmem s).1 hs' with ⟨rfl, hp'⟩ | ⟨h5, h6⟩
    · rfl
    · subst hp
      exact absurd (hrs.symm.trans (nameOf_some hn)) (hfresh s h6 h5)
    · subst hp'
      exact absurd (hrs.trans (nameOf_some hn)) (hfresh r h4 h3)
    · exact hrn r h4 s h6 hrs

/-- `add` of an existing node. -/
theorem SInv.addNode {st : Store T} {kids} (hs : SInv st kids) {n : Nat} {nd} (hn : st.heap n = some nd)
    {parent : Option Nat} (hp : ∀ p, parent = some p → ∃ np, st.heap p = some np) (huq : Uniq st.heap n) :
    (addNode st (some n) parent = some (.err st) ∧
      (Member st n ∨ nd.name = [] ∨ (∃ p, parent = some p ∧ ¬ Member st p) ∨
        ∃ c ∈ sibsOf st kids parent, nameOf st.heap c = some nd.name)) ∨
    (∃ st', addNode st (some n) parent = some (.ret st') ∧ ¬ Member st n ∧ nd.name ≠ [] ∧
      (∀ p, parent = some p → Member st p) ∧
      (∀ c ∈ sibsOf st kids parent, nameOf st.heap c ≠ some nd.name) ∧
      st'.roots = (if parent = none then st.roots ++ [n] else st.roots) ∧
      SameData st.heap st'.heap ∧ SInv st' (moved kids n parent) ∧
      (∀ x, Member st' x ↔ Member st x ∨ Below st.heap n x) ∧ (RootNames st → RootNames st')) := by
  obtain ⟨bm, m1, m2⟩ := hs.isMember_eq hn
  obtain ⟨bp, p1, p2⟩ := hs.parentOk_eq hp
  obtain ⟨bu, u1, u2⟩ := hs.assertUnique_eq nd.name hp
  unfold Frames.addNode
  simp only [m1, hn, p1, u1, Option.bind_eq_bind, Option.bind_some]
  cases bm with
  | true => left; exact ⟨rfl, Or.inl (m2.1 rfl)⟩
  | false =>
    have hnm : ¬ Member st n := fun hh => by have := m2.2 hh; cases this
    simp only [Bool.false_eq_true, if_false]
    by_cases hname : nd.name = []
    · left; rw [if_pos hname]; exact ⟨rfl, Or.inr (Or.inl hname)⟩
    · rw [if_neg hname]
      cases bp with
      | false =>
        left
        refine ⟨rfl, Or.inr (Or.inr (Or.inl ?_))⟩
        cases hpar : parent with
        | none => rw [hpar] at p2; have := p2.2 (by simp); cases this
        | some p =>
          refine ⟨p, rfl, fun hh => ?_⟩
          have := p2.2 (by intro p' hp'; rw [hpar] at hp'; cases hp'; exact hh)
          cases this
      | true =>
        have hpm := p2.1 rfl
        cases bu with
        | false =>
          left
          refine ⟨rfl, Or.inr (Or.inr (Or.inr ?_))⟩
          by_contra hh
          have := u2.2 (fun c hc hcn => hh ⟨c, hc, hcn⟩)
          cases this
        | true =>
          right
          have hfr := u2.1 rfl
          have hnr : n ∉ st.roots := fun hh => hnm ⟨n, hh, Relation.ReflTransGen.refl⟩
          have hnb : ∀ p, parent = some p → Member st p ∧ ¬ Below st.heap n p := by
            intro p hpp
            refine ⟨hpm p hpp, fun hb => ?_⟩
            obtain ⟨r, r1, r2⟩ := hpm p hpp
            obtain ⟨nr, r3, r4⟩ := hs.rroot r r1
            obtain ⟨np, hnp⟩ := hp p hpp
            -- the root above `n` is the root above `p`
            obtain ⟨r', s1, s2, nr', s3, s4⟩ := hs.inv.root_eq hn
            have := hs.inv.root_unique hnp r2 (Relation.ReflTransGen.trans hb s2) r3 r4 s3 s4
            subst this
            exact hnm ⟨r, r1, s2⟩
          obtain ⟨h', e1, e2, e3, e4, e5⟩ := hs.place hn hnb (fun c hc _ => hfr c hc) huq
            (fun hh => absurd hh hnr)
          rw [List.erase_of_not_mem hnr] at e3 e4 e5
          refine ⟨⟨h', if parent = none then st.roots ++ [n] else st.roots⟩, ?_, hnm, hname, hpm, hfr, rfl, e2, e3,
            e4, e5⟩
          simp only [Bool.not_true, Bool.false_eq_true, if_false, e1, Option.bind_some]

/-- `set_parent` to a frame outside the subtree of the frame. -/
theorem SInv.reparent {st : Store T} {kids} (hs : SInv st kids) {f : Nat} {nd} (hf : st.heap f = some nd)
    {parent : Option Nat} (hp : ∀ p, parent = some p → ∃ np, st.heap p = some np) (huq : Uniq st.heap f)
    (hnb : ∀ p, parent = some p → ¬ Below st.heap f p) :
    (reparent st (some f) parent = some (.err st) ∧
      ((∃ p, parent = some p ∧ ¬ Member st p) ∨
        ∃ c ∈ sibsOf st kids parent, nameOf st.heap c = some nd.name)) ∨
    (reparent st (some f) parent = some (.ret st) ∧ nd.parent = parent) ∨
    (∃ st', reparent st (some f) parent = some (.ret st') ∧ nd.parent ≠ parent ∧
      (∀ p, parent = some p → Member st p) ∧
      (∀ c ∈ sibsOf st kids parent, nameOf st.heap c ≠ some nd.name) ∧
      SameData st.heap st'.heap ∧ SInv st' (moved kids f parent) ∧
      (∀ x, Member st' x ↔ Member st x ∨ Below st.heap f x) ∧ (RootNames st → RootNames st')) := by
  obtain ⟨bp, p1, p2⟩ := hs.parentOk_eq hp
  obtain ⟨bu, u1, u2⟩ := hs.assertUnique_eq nd.name hp
  unfold Frames.reparent
  simp only [hf, p1, u1, Option.bind_eq_bind, Option.bind_some]
  cases bp with
  | false =>
    left
    refine ⟨rfl, Or.inl ?_⟩
    cases hpar : parent with
    | none => rw [hpar] at p2; have := p2.2 (by simp); cases this
    | some p =>
      refine ⟨p, rfl, fun hh => ?_⟩
      have := p2.2 (by intro p' hp'; rw [hpar] at hp'; cases hp'; exact hh)
      cases this
  | true =>
    have hpm := p2.1 rfl
    simp only [Bool.not_true, Bool.false_eq_true, if_false]
    by_cases hsame : nd.parent = parent
    · right; left; rw [if_pos hsame]; exact ⟨rfl, hsame⟩
    · rw [if_neg hsame]
      cases bu with
      | false =>
        left
        refine ⟨rfl, Or.inr ?_⟩
        by_contra hh
        have := u2.2 (fun c hc hcn => hh ⟨c, hc, hcn⟩)
        cases this
      | true =>
        right; right
        have hfr := u2.1 rfl
        obtain ⟨h', e1, e2, e3, e4, e5⟩ := hs.place hf (fun p hpp => ⟨hpm p hpp, hnb p hpp⟩)
          (fun c hc _ => hfr c hc) huq (by
            intro hh hpn
            obtain ⟨nd', k1, k2⟩ := hs.rroot f hh
            rw [hf] at k1; cases k1
            exact hsame (k2.trans hpn.symm))
        refine ⟨_, ?_, hsame, hpm, hfr, e2, e3, e4, e5⟩
        simp only [Bool.not_true, Bool.false_eq_true, if_false, e1, Option.bind_some]

/-! ### Deleting -/

theorem nameOf_of_data {h h' : Heap T} {x : Nat}
    (hx : (h' x).map (fun nd => (nd.name, nd.trans)) = (h x).map (fun nd => (nd.name, nd.trans))) :
    nameOf h' x = nameOf h x := by
  have := congrArg (Option.map Prod.fst) hx
  simpa [nameOf, Option.map_map, Function.comp_def] using this

theorem SInv.delRec {st : Store T} {kids} (hs : SInv st kids) {f : Nat} {nd} (hf : st.heap f = some nd) :
    ∃ st', del st (some f) true = some (.ret st') ∧ SInv st' (pruned st.heap kids f) ∧
      Removed st.heap st'.heap (Below st.heap f) ∧
      (∀ x, Member st' x ↔ Member st x ∧ ¬ Below st.heap f x) ∧ (RootNames st → RootNames st') ∧
      st'.roots = st.roots.erase f := by
  obtain ⟨h', e1, e2, e3⟩ := hs.inv.recDelete hf
  have hpar : ∀ x p, Par h' x p ↔ (¬ Below st.heap f p ∧ x ≠ f ∧ Par st.heap x p) := by
    intro x p
    rw [e2.par_iff, hs.inv.par_iff]
    unfold pruned
    split
    · rename_i hb
      exact ⟨fun hh => (by cases hh), fun hh => absurd hb hh.1⟩
    · rename_i hb
      rw [(hs.inv.nodup p).mem_erase_iff]
      exact ⟨fun hh => ⟨hb, hh.1, hh.2⟩, fun hh => hh.2⟩
  have hbel : ∀ r x, r ≠ f → (∃ nr, st.heap r = some nr ∧ nr.parent = none) →
      (Below h' r x ↔ (Below st.heap r x ∧ ¬ Below st.heap f x)) := by
    intro r x hrf ⟨nr, hr1, hr2⟩
    constructor
    · intro hb
      refine ⟨below_mono (fun a b hab => ((hpar a b).1 hab).2.2) hb, fun hbf => ?_⟩
      rcases Relation.ReflTransGen.cases_head hb with e | ⟨y, hy, _⟩
      · subst e; exact hrf (root_top hr1 hr2 hbf).symm
      · obtain ⟨y1, y2, y3⟩ := (hpar x y).1 hy
        rcases Relation.ReflTransGen.cases_head hbf with e | ⟨z, hz, hz2⟩
        · exact y2 e
        · have := par_unique hz y3
          subst this
          exact y1 hz2
    · rintro ⟨hb, hbc⟩
      induction hb using Relation.ReflTransGen.head_induction_on with
      | refl => exact Relation.ReflTransGen.refl
      | @head a b hp _ ih =>
        have hb1 : ¬ Below st.heap f b := fun hh => hbc (Relation.ReflTransGen.head hp hh)
        refine Relation.ReflTransGen.head ((hpar a b).2 ⟨hb1, ?_, hp⟩) (ih hb1)
        rintro rfl
        exact hbc Relation.ReflTransGen.refl
  have hrm : ∀ r, r ∈ st.roots.erase f ↔ r ≠ f ∧ r ∈ st.roots := fun r => hs.rnodup.mem_erase_iff
  have hmem : ∀ x, Member ⟨h', st.roots.erase f⟩ x ↔ Member st x ∧ ¬ Below st.heap f x := by
    intro x
    constructor
    · rintro ⟨r, h1, h2⟩
      obtain ⟨h3, h4⟩ := (hrm r).1 h1
      obtain ⟨h5, h6⟩ := (hbel r x h3 (hs.rroot r h4)).1 h2
      exact ⟨⟨r, h4, h5⟩, h6⟩
    · rintro ⟨⟨r, h1, h2⟩, h3⟩
      have hrf : r ≠ f := by rintro rfl; exact h3 h2
      exact ⟨r, (hrm r).2 ⟨hrf, h1⟩, (hbel r x hrf (hs.rroot r h1)).2 ⟨h2, h3⟩⟩
  have hname : ∀ x, ¬ Below st.heap f x → nameOf h' x = nameOf st.heap x := fun x hx => nameOf_of_data ((e3 x).2 hx)
  have hrnb : ∀ r, r ≠ f → r ∈ st.roots → ¬ Below st.heap f r := by
    intro r h1 h2 h3
    obtain ⟨nr, k1, k2⟩ := hs.rroot r h2
    exact h1 (root_top k1 k2 h3).symm
  refine ⟨⟨h', st.roots.erase f⟩, ?_, ⟨e2, hs.rnodup.erase f, ?_, ?_⟩, e3, hmem, ?_, rfl⟩
  · simp only [del, if_true, e1, Option.bind_eq_bind, Option.bind_some]
  · intro r hr
    obtain ⟨h1, h2⟩ := (hrm r).1 hr
    obtain ⟨nr, k1, k2⟩ := hs.rroot r h2
    have hdat := (e3 r).2 (hrnb r h1 h2)
    rw [k1] at hdat
    cases hh : h' r with
    | none => rw [hh] at hdat; cases hdat
    | some nr' =>
      refine ⟨nr', hh, ?_⟩
      cases hpp : nr'.parent with
      | none => rfl
      | some q =>
        obtain ⟨_, _, nr'', k3, k4⟩ := (hpar r q).1 ⟨nr', hh, hpp⟩
        rw [k1] at k3; cases k3; rw [k2] at k4; cases k4
  · intro q hq a ha b hb hab
    obtain ⟨h1, h2⟩ := (hmem q).1 hq
    unfold pruned at ha hb
    rw [if_neg h2] at ha hb
    have hk : ∀ a, a ∈ (kids q).erase f → a ∈ kids q ∧ ¬ Below st.heap f a := by
      intro a ha
      obtain ⟨h3, h4⟩ := ((hs.inv.nodup q).mem_erase_iff).1 ha
      refine ⟨h4, fun hbf => ?_⟩
      rcases Relation.ReflTransGen.cases_head hbf with e | ⟨z, hz, hz2⟩
      · exact h3 e
      · have := par_unique hz (hs.inv.par_iff.2 h4)
        subst this
        exact h2 hz2
    obtain ⟨a1, a2⟩ := hk a ha
    obtain ⟨b1, b2⟩ := hk b hb
    replace hab : nameOf h' a = nameOf h' b := hab
    rw [hname a a2, hname b b2] at hab
    exact hs.sib q h1 a a1 b b1 hab
  · intro hrn r hr s hs' hrs
    obtain ⟨h1, h2⟩ := (hrm r).1 hr
    obtain ⟨h3, h4⟩ := (hrm s).1 hs'
    replace hrs : nameOf h' r = nameOf h' s := hrs
    rw [hname r (hrnb r h1 h2), hname s (hrnb s h3 h4)] at hrs
    exact hrn r h2 s h4 hrs

/-- `del(frame, false)`: the children become roots. -/
theorem SInv.delOne {st : Store T} {kids} (hs : SInv st kids) {f : Nat} {nd} (hf : st.heap f = some nd)
    (hfm : Member st f) :
    ∃ st', del st (some f) false = some (.ret st') ∧ SInv st' (orphaned (cut kids f) f) ∧
      st'.heap f = none ∧ (∀ x, x ≠ f → (st'.heap x).map (fun nd => (nd.name, nd.trans))
        = (st.heap x).map (fun nd => (nd.name, nd.trans))) ∧
      (∀ x, Member st' x ↔ Member st x ∧ x ≠ f) ∧ st'.roots = st.roots.erase f ++ kids f := by
  obtain ⟨h', e1, e2, e3, e4⟩ := hs.inv.destroy hf
  have hpar : ∀ x p, Par h' x p ↔ (p ≠ f ∧ x ≠ f ∧ Par st.heap x p) := by
    intro x p
    rw [e2.par_iff, hs.inv.par_iff]
    unfold orphaned
    split
    · rename_i hb
      exact ⟨fun hh => (by cases hh), fun hh => absurd hb hh.1⟩
    · rename_i hb
      rw [mem_cut hs.inv]
      exact ⟨fun hh => ⟨hb, hh.1, hh.2⟩, fun hh => hh.2⟩
  have hrm : ∀ r, r ∈ st.roots.erase f ++ kids f ↔ (r ≠ f ∧ r ∈ st.roots) ∨ r ∈ kids f := by
    intro r; rw [List.mem_append, hs.rnodup.mem_erase_iff]
  have hkf : ∀ r, r ∈ kids f → r ≠ f := by rintro r hr rfl; exact hs.inv.irrefl hr
  have hfr : ∀ r, r ∈ kids f → r ∉ st.roots := by
    intro r h1 h2
    obtain ⟨nr, k1, k2⟩ := hs.rroot r h2
    have := (hs.inv.par r nr f k1).2 h1
    rw [k2] at this; cases this
  -- going up from a node below `r` without meeting `f`
  have hup : ∀ r x, Below st.heap r x → x ≠ f →
      Below h' r x ∨ ∃ c ∈ kids f, Below h' c x := by
    intro r x hb
    induction hb using Relation.ReflTransGen.head_induction_on with
    | refl => intro _; exact Or.inl Relation.ReflTransGen.refl
    | @head a b hp _ ih =>
      intro haf
      by_cases hbf : b = f
      · subst hbf
        exact Or.inr ⟨a, hs.inv.par_iff.1 hp, Relation.ReflTransGen.refl⟩
      · have hstep : Par h' a b := (hpar a b).2 ⟨hbf, haf, hp⟩
        rcases ih hbf with h1 | ⟨c, h1, h2⟩
        · exact Or.inl (Relation.ReflTransGen.head hstep h1)
        · exact Or.inr ⟨c, h1, Relation.ReflTransGen.head hstep h2⟩
  have hdown : ∀ r x, Below h' r x → Below st.heap r x :=
    fun r x hb => below_mono (fun a b hab => ((hpar a b).1 hab).2.2) hb
  have hmem : ∀ x, Member ⟨h', st.roots.erase f ++ kids f⟩ x ↔ Member st x ∧ x ≠ f := by
    intro x
    constructor
    · rintro ⟨r, h1, h2⟩
      replace h2 : Below h' r x := h2
      have hxf : r ≠ f → x ≠ f := by
        rintro hrf rfl
        rcases Relation.ReflTransGen.cases_head h2 with e | ⟨z, hz, _⟩
        · exact hrf e.symm
        · exact ((hpar x z).1 hz).2.1 rfl
      rcases (hrm r).1 h1 with ⟨h3, h4⟩ | h3
      · exact ⟨⟨r, h4, hdown r x h2⟩, hxf h3⟩
      · obtain ⟨r0, k1, k2⟩ := hfm
        refine ⟨⟨r0, k1, ?_⟩, hxf (hkf r h3)⟩
        exact Relation.ReflTransGen.trans (hdown r x h2)
          (Relation.ReflTransGen.head (hs.inv.par_iff.2 h3) k2)
    · rintro ⟨⟨r, h1, h2⟩, h3⟩
      rcases hup r x h2 h3 with h4 | ⟨c, h4, h5⟩
      · by_cases hrf : r = f
        · subst hrf
          exfalso
          rcases Relation.ReflTransGen.cases_tail h4 with e | ⟨z, _, hz⟩
          · exact h3 e.symm
          · exact ((hpar z r).1 hz).1 rfl
        · exact ⟨r, (hrm r).2 (Or.inl ⟨hrf, h1⟩), h4⟩
      · exact ⟨c, (hrm c).2 (Or.inr h4), h5⟩
  refine ⟨⟨h', st.roots.erase f ++ kids f⟩, ?_, ⟨e2, ?_, ?_, ?_⟩, e3, e4, hmem, rfl⟩
  · simp only [del, Bool.false_eq_true, if_false, hs.inv.children_eq hf, e1, Option.bind_eq_bind, Option.bind_some]
  · show (st.roots.erase f ++ kids f).Nodup
    rw [List.nodup_append]
    refine ⟨hs.rnodup.erase f, hs.inv.nodup f, ?_⟩
    rintro a ha b hb rfl
    exact hfr a hb ((hs.rnodup.mem_erase_iff).1 ha).2
  · intro r hr
    have hex : r ≠ f ∧ (∃ nr, st.heap r = some nr) ∧ ∀ q, ¬ Par h' r q := by
      rcases (hrm r).1 hr with ⟨h3, h4⟩ | h3
      · obtain ⟨nr, k1, k2⟩ := hs.rroot r h4
        refine ⟨h3, ⟨nr, k1⟩, fun q hq => ?_⟩
        obtain ⟨_, _, nr', k3, k4⟩ := (hpar r q).1 hq
        rw [k1] at k3; cases k3; rw [k2] at k4; cases k4
      · obtain ⟨⟨nr, k1, k2⟩, _⟩ := hs.inv.kid_alloc h3
        refine ⟨hkf r h3, ⟨nr, k1⟩, fun q hq => ?_⟩
        obtain ⟨k3, _, k4⟩ := (hpar r q).1 hq
        exact k3 (par_unique k4 ⟨nr, k1, k2⟩)
    obtain ⟨h1, ⟨nr, k1⟩, k2⟩ := hex
    have hdat := e4 r h1
    rw [k1] at hdat
    cases hh : h' r with
    | none => rw [hh] at hdat; cases hdat
    | some nr' =>
      refine ⟨nr', hh, ?_⟩
      cases hpp : nr'.parent with
      | none => rfl
      | some q => exact absurd ⟨nr', hh, hpp⟩ (k2 q)
  · intro q hq a ha b hb hab
    obtain ⟨h1, h2⟩ := (hmem q).1 hq
    unfold orphaned at ha hb
    rw [if_neg h2] at ha hb
    obtain ⟨a1, a2⟩ := (mem_cut hs.inv).1 ha
    obtain ⟨b1, b2⟩ := (mem_cut hs.inv).1 hb
    replace hab : nameOf h' a = nameOf h' b := hab
    rw [nameOf_of_data (e4 a a1), nameOf_of_data (e4 b b1)] at hab
    exact hs.sib q h1 a a2 b b2 hab

end Verif.Geom.Frames
