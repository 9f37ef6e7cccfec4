import Verif.Geom.Frames.Lookup

/-
`merge_tree` and `add(name, parent, p)` on a store.
-/

namespace Verif.Geom.Frames

variable {T : Type}

/-! ### The forest after a merge -/

section

variable {h h1 : Heap T} {kids kids1 : Nat → List Nat} {t S : Nat}

theorem head_of_ne {p : List Str} (hp : p ≠ []) : ∃ e, True ∧ p.head? = some e := by
  cases p with
  | nil => exact absurd rfl hp
  | cons e p => exact ⟨e, trivial, rfl⟩

/-- The target and source together hold the same nodes before and after. -/
theorem Merged.union (hm : Merged h h1 kids kids1 t S (fun _ => True)) (x : Nat) :
    (Below h1 t x ∨ Below h1 S x) ↔ (Below h t x ∨ Below h S x) := by
  constructor
  · rintro (hb | hb)
    · obtain ⟨p, hp⟩ := below_reach hb
      rcases (hm.rt p x).1 hp with hp | hp
      · exact Or.inl hp.isBelow
      · exact Or.inr hp.2.1.isBelow
    · obtain ⟨p, hp⟩ := below_reach hb
      exact Or.inr ((hm.rs p x).1 hp).1.isBelow
  · rintro (hb | hb)
    · obtain ⟨p, hp⟩ := below_reach hb
      exact Or.inl ((hm.rt p x).2 (Or.inl hp)).isBelow
    · obtain ⟨p, hp⟩ := below_reach hb
      by_cases hex : ∃ m', Reach h t p m'
      · exact Or.inr ((hm.rs p x).2 ⟨hp, fun _ => hex⟩).isBelow
      · have hne : p ≠ [] := by
          rintro rfl
          exact hex ⟨t, Reach.nil t⟩
        refine Or.inl ((hm.rt p x).2 (Or.inr ⟨head_of_ne hne, hp, ?_⟩)).isBelow
        intro m' hm'
        exact hex ⟨m', hm'⟩

/-- The parent of a node outside the two trees is outside. -/
theorem out_up {x q : Nat} (hp : Par h x q) (hx : ¬ (Below h t x ∨ Below h S x)) :
    ¬ (Below h t q ∨ Below h S q) := by
  rintro (hb | hb)
  · exact hx (Or.inl (Relation.ReflTransGen.head hp hb))
  · exact hx (Or.inr (Relation.ReflTransGen.head hp hb))

theorem Merged.par_out (hi : Inv h kids) (hm : Merged h h1 kids kids1 t S (fun _ => True)) {x q : Nat}
    (hq : ¬ (Below h t q ∨ Below h S q)) : Par h1 x q ↔ Par h x q := by
  rw [hm.inv.par_iff, hi.par_iff, hm.frame q (fun hh => hq (Or.inl hh)) (fun hh => hq (Or.inr hh))]

/-- Outside the two trees nothing changes. -/
theorem Merged.below_out (hi : Inv h kids) (hm : Merged h h1 kids kids1 t S (fun _ => True)) {r x : Nat}
    (hx : ¬ (Below h t x ∨ Below h S x)) : Below h1 r x ↔ Below h r x := by
  constructor
  · intro hb
    induction hb using Relation.ReflTransGen.head_induction_on with
    | refl => exact Relation.ReflTransGen.refl
    | head hp _ ih =>
      have hq := out_up hp (fun hh => hx ((hm.union _).1 hh))
      rw [hm.union] at hq
      exact Relation.ReflTransGen.head ((hm.par_out hi hq).1 hp) (ih hq)
  · intro hb
    induction hb using Relation.ReflTransGen.head_induction_on with
    | refl => exact Relation.ReflTransGen.refl
    | head hp _ ih =>
      have hq := out_up hp hx
      exact Relation.ReflTransGen.head ((hm.par_out hi hq).2 hp) (ih hq)

/-- A node that has a parent after the merge had one before. -/
theorem Merged.par_keep (hi : Inv h kids) (hm : Merged h h1 kids kids1 t S (fun _ => True)) {x q : Nat}
    (hp : Par h1 x q) : ∃ q', Par h x q' := by
  by_cases hq : Below h t q ∨ Below h S q
  · obtain ⟨nx, hx1, hx2⟩ := hp
    have hlast : ∀ {s : Nat} {p : List Str}, Reach h s (p ++ [nx.name]) x → ∃ q', Par h x q' := by
      intro s p hr
      obtain ⟨y, _, b2⟩ := Inv.search_name.reach_split hr
      obtain ⟨nc, c1, c2, _⟩ := reach_single.1 b2
      exact ⟨y, nc, c1, c2⟩
    rcases (hm.union q).2 hq with hb | hb
    · obtain ⟨p, hp⟩ := below_reach hb
      have := hp.append (Reach.cons q x nx [] x hx1 hx2 (Reach.nil x))
      rcases (hm.rt _ x).1 this with hr | hr
      · exact hlast hr
      · exact hlast hr.2.1
    · obtain ⟨p, hp⟩ := below_reach hb
      have := hp.append (Reach.cons q x nx [] x hx1 hx2 (Reach.nil x))
      exact hlast ((hm.rs _ x).1 this).1
  · exact ⟨q, (hm.par_out hi hq).1 hp⟩

theorem Merged.root_keep (hi : Inv h kids) (hm : Merged h h1 kids kids1 t S (fun _ => True)) {x : Nat} {nx}
    (hx : h x = some nx) (hp : nx.parent = Option.none) :
    ∃ nx', h1 x = some nx' ∧ nx'.parent = Option.none := by
  obtain ⟨nx', a1, _⟩ := hm.data.some hx
  refine ⟨nx', a1, ?_⟩
  cases hpx : nx'.parent with
  | none => rfl
  | some q =>
    obtain ⟨q', nd, b1, b2⟩ := hm.par_keep hi (x := x) (q := q) ⟨nx', a1, hpx⟩
    rw [hx] at b1; cases b1
    rw [hp] at b2; cases b2

end

theorem Merged.sinv {st : Store T} {h1 : Heap T} {kids kids1 : Nat → List Nat} {t S : Nat} (hs : SInv st kids)
    (hm : Merged st.heap h1 kids kids1 t S (fun _ => True)) (hut : Uniq st.heap t) (hus : Uniq st.heap S) :
    SInv ⟨h1, st.roots⟩ kids1 := by
  refine ⟨hm.inv, hs.rnodup, ?_, ?_⟩
  · intro r hr
    obtain ⟨nd, a1, a2⟩ := hs.rroot r hr
    exact hm.root_keep hs.inv a1 a2
  · rintro q ⟨r, hr, hb⟩
    by_cases hq : Below st.heap t q ∨ Below st.heap S q
    · rcases (hm.union q).2 hq with hb' | hb'
      · exact hm.inv.uniq_iff.1 (hm.uniq_t hut hus) q hb'
      · exact hm.inv.uniq_iff.1 (hm.uniq_s hus) q hb'
    · have hb2 := (hm.below_out hs.inv hq).1 hb
      have hk := hm.frame q (fun hh => hq (Or.inl hh)) (fun hh => hq (Or.inr hh))
      intro a ha b hb' he
      rw [hk] at ha hb'
      refine hs.sib q ⟨r, hr, hb2⟩ a ha b hb' ?_
      have e1 : nameOf h1 a = nameOf st.heap a := hm.data.nameOf a
      have e2 : nameOf h1 b = nameOf st.heap b := hm.data.nameOf b
      rw [← e1, ← e2]
      exact he

/-- After a deletion the frames of the other trees are reached by the same paths. -/
theorem reach_pruned {h h' : Heap T} {kids} (hi : Inv h kids) {n : Nat} (hi' : Inv h' (pruned h kids n))
    (hr : Removed h h' (Below h n)) : ∀ (p : List Str) (r m : Nat), (∀ x, Below h r x → ¬ Below h n x) →
    (Reach h' r p m ↔ Reach h r p m)
  | [], r, m, _ => by rw [reach_nil, reach_nil]
  | e :: p, r, m, hd => by
    have hrn : ¬ Below h n r := hd r Relation.ReflTransGen.refl
    have hk : pruned h kids n r = (kids r).erase n := if_neg hrn
    have hmem : ∀ c, c ∈ pruned h kids n r ↔ c ∈ kids r := by
      intro c
      rw [hk, (hi.nodup r).mem_erase_iff]
      refine ⟨fun hh => hh.2, fun hh => ⟨?_, hh⟩⟩
      rintro rfl
      exact hd c (Relation.ReflTransGen.single (hi.par_iff.2 hh)) Relation.ReflTransGen.refl
    have hdat : ∀ c, c ∈ kids r → (h' c).map (fun nd => (nd.name, nd.trans))
        = (h c).map (fun nd => (nd.name, nd.trans)) := fun c hc =>
      (hr c).2 (hd c (Relation.ReflTransGen.single (hi.par_iff.2 hc)))
    have hsub : ∀ c, c ∈ kids r → ∀ x, Below h c x → ¬ Below h n x := fun c hc x hx =>
      hd x (Relation.ReflTransGen.tail hx (hi.par_iff.2 hc))
    rw [reach_cons, reach_cons]
    constructor
    · rintro ⟨c, nc, a1, a2, a3, a4⟩
      have hc := (hmem c).1 ((hi'.par c nc r a1).1 a2)
      obtain ⟨nc', b1, b2⟩ := hi.par_iff.2 hc
      refine ⟨c, nc', b1, b2, ?_, (reach_pruned hi hi' hr p c m (hsub c hc)).1 a4⟩
      have := hdat c hc
      rw [a1, b1] at this
      simp only [Option.map_some, Option.some.injEq, Prod.mk.injEq] at this
      rw [← this.1, a3]
    · rintro ⟨c, nc, a1, a2, a3, a4⟩
      have hc := (hi.par c nc r a1).1 a2
      obtain ⟨nc', b1, b2⟩ := hi'.par_iff.2 ((hmem c).2 hc)
      refine ⟨c, nc', b1, b2, ?_, (reach_pruned hi hi' hr p c m (hsub c hc)).2 a4⟩
      have := hdat c hc
      rw [a1, b1] at this
      simp only [Option.map_some, Option.some.injEq, Prod.mk.injEq] at this
      rw [this.1, a3]

/-! ### merge_tree -/

theorem rootNamed_eq {h : Heap T} {name : Str} : ∀ {rs : List Nat}, (∀ r ∈ rs, ∃ nd, h r = some nd) →
    (∃ r ∈ rs, nameOf h r = some name ∧ rootNamed h name rs = some (some r)) ∨
    (rootNamed h name rs = some none ∧ ∀ r ∈ rs, nameOf h r ≠ some name)
  | [], _ => Or.inr ⟨rfl, by simp⟩
  | r :: rs, hr => by
    obtain ⟨nd, h1⟩ := hr r (by simp)
    unfold rootNamed
    simp only [h1, Option.bind_eq_bind, Option.bind_some]
    by_cases e : nd.name = name
    · rw [if_pos e]
      exact Or.inl ⟨r, by simp, by rw [nameOf_some h1, e], rfl⟩
    · rw [if_neg e]
      rcases rootNamed_eq (name := name) (fun s hs => hr s (List.mem_cons_of_mem _ hs)) with
        ⟨s, a1, a2, a3⟩ | ⟨a1, a2⟩
      · exact Or.inl ⟨s, List.mem_cons_of_mem _ a1, a2, a3⟩
      · refine Or.inr ⟨a1, ?_⟩
        intro s hs
        rcases List.mem_cons.1 hs with rfl | hs
        · rw [nameOf_some h1]
          intro hh
          exact e (Option.some.inj hh)
        · exact a2 s hs

theorem SInv.not_below_root {st : Store T} {kids} (hs : SInv st kids) {tree : Nat} {nt}
    (ht : st.heap tree = some nt) (htp : nt.parent = none) (hnm : ¬ Member st tree) {x : Nat}
    (hx : Member st x) : ¬ Below st.heap tree x := by
  intro hb
  obtain ⟨r, hr, hb'⟩ := hx
  obtain ⟨nr, a1, a2⟩ := hs.rroot r hr
  obtain ⟨nx, hnx⟩ := hs.alloc ⟨r, hr, hb'⟩
  have := hs.inv.root_unique hnx hb hb' ht htp a1 a2
  exact hnm ⟨r, hr, this ▸ Relation.ReflTransGen.refl⟩

/-- The last step of `merge_tree`: the rest of the source tree is deleted. -/
theorem SInv.drop_tree {st : Store T} {kids} (hs : SInv st kids) {tree : Nat} {nt}
    (ht : st.heap tree = some nt) (htp : nt.parent = none) (hnm : tree ∉ st.roots) :
    ∃ h', recDelete st.heap tree = some h' ∧ SInv ⟨h', st.roots⟩ (pruned st.heap kids tree) ∧
      Removed st.heap h' (Below st.heap tree) ∧ (∀ x, Member ⟨h', st.roots⟩ x ↔ Member st x) ∧
      (RootNames st → RootNames ⟨h', st.roots⟩) ∧
      ∀ r, Member st r → ∀ p m, Reach h' r p m ↔ Reach st.heap r p m := by
  obtain ⟨st', e1, e2, e3, e4, e5, e6⟩ := hs.delRec ht
  rw [List.erase_of_not_mem hnm] at e6
  have hnm' : ¬ Member st tree := by
    rintro ⟨r, hr, hb⟩
    have := (below_root ht htp r).1 hb
    exact hnm (this ▸ hr)
  unfold del at e1
  simp only [if_true, Option.bind_eq_bind] at e1
  cases hd : recDelete st.heap tree with
  | none => rw [hd] at e1; cases e1
  | some h' =>
    rw [hd] at e1
    simp only [Option.bind_some, List.erase_of_not_mem hnm, Option.some.injEq, Out.ret.injEq] at e1
    subst e1
    refine ⟨h', rfl, e2, e3, fun x => ?_, e5, ?_⟩
    · rw [e4]
      exact ⟨fun hh => hh.1, fun hh => ⟨hh, hs.not_below_root ht htp hnm' hh⟩⟩
    · intro r hr p m
      refine reach_pruned hs.inv e2.inv e3 p r m (fun x hx => ?_)
      obtain ⟨r0, h0, hb0⟩ := hr
      exact hs.not_below_root ht htp hnm' ⟨r0, h0, Relation.ReflTransGen.trans hx hb0⟩

/-- `merge_tree(tree)` without a start frame. -/
theorem SInv.mergeTree {st : Store T} {kids} (hs : SInv st kids) {tree : Nat} {nt}
    (ht : st.heap tree = some nt) (htp : nt.parent = none) (huq : Uniq st.heap tree) :
    (Member st tree ∧ mergeTree st tree none = some (.err st)) ∨
    (¬ Member st tree ∧ (∀ r ∈ st.roots, nameOf st.heap r ≠ some nt.name) ∧
      mergeTree st tree none = some (.ret ⟨st.heap, st.roots ++ [tree]⟩) ∧
      SInv ⟨st.heap, st.roots ++ [tree]⟩ kids ∧
      (∀ x, Member ⟨st.heap, st.roots ++ [tree]⟩ x ↔ Member st x ∨ Below st.heap tree x) ∧
      (RootNames st → RootNames ⟨st.heap, st.roots ++ [tree]⟩)) ∨
    (¬ Member st tree ∧ ∃ r ∈ st.roots, nameOf st.heap r = some nt.name ∧
      ∃ h' kids', mergeTree st tree none = some (.ret ⟨h', st.roots⟩) ∧ SInv ⟨h', st.roots⟩ kids' ∧
        (RootNames st → RootNames ⟨h', st.roots⟩) ∧
        (∀ p m, Reach h' r p m ↔ Reach st.heap r p m ∨
          (Reach st.heap tree p m ∧ ∀ m', ¬ Reach st.heap r p m')) ∧
        (∀ s ∈ st.roots, s ≠ r → ∀ p m, Reach h' s p m ↔ Reach st.heap s p m) ∧
        (∀ x, Member ⟨h', st.roots⟩ x → (h' x).map (fun nd => (nd.name, nd.trans))
          = (st.heap x).map (fun nd => (nd.name, nd.trans))) ∧
        (∀ x, Below st.heap tree x → ¬ Member ⟨h', st.roots⟩ x → h' x = none)) := by
  obtain ⟨b, eb1, eb2⟩ := hs.isMember_eq ht
  by_cases hmem : Member st tree
  · left
    refine ⟨hmem, ?_⟩
    unfold Frames.mergeTree
    rw [eb1, eb2.2 hmem]
    rfl
  · right
    have hbf : b = false := by
      cases b with
      | true => exact absurd (eb2.1 rfl) hmem
      | false => rfl
    subst hbf
    have hroots : ∀ r ∈ st.roots, ∃ nd, st.heap r = some nd := fun r hr => by
      obtain ⟨nd, a1, _⟩ := hs.rroot r hr
      exact ⟨nd, a1⟩
    have hnr : tree ∉ st.roots := fun hh => hmem ⟨tree, hh, Relation.ReflTransGen.refl⟩
    rcases rootNamed_eq (name := nt.name) hroots with ⟨r, r1, r2, r3⟩ | ⟨r1, r2⟩
    · right
      refine ⟨hmem, r, r1, r2, ?_⟩
      obtain ⟨nr, a1, a2⟩ := hs.rroot r r1
      have hname : nr.name = nt.name := by
        rw [nameOf_some a1] at r2; exact Option.some.inj r2
      have hrm : Member st r := ⟨r, r1, Relation.ReflTransGen.refl⟩
      have hd : Disj st.heap r tree := fun x hx hx' =>
        hs.not_below_root ht htp hmem ⟨r, r1, hx⟩ hx'
      obtain ⟨h1, kids1, m1, m2⟩ := hs.inv.mergeTrees a1 ht hname hd (hs.uniq hrm) huq
      have hs1 := m2.sinv hs (hs.uniq hrm) huq
      obtain ⟨nt1, t1, t2⟩ := m2.root_keep hs.inv ht htp
      obtain ⟨h', d1, d2, d3, d4, d5, d6⟩ := hs1.drop_tree t1 t2 hnr
      have hrt : ∀ p m, Reach h' r p m ↔ Reach st.heap r p m ∨
          (Reach st.heap tree p m ∧ ∀ m', ¬ Reach st.heap r p m') := by
        intro p m
        rw [d6 r ⟨r, r1, Relation.ReflTransGen.refl⟩ p m]
        show Reach h1 r p m ↔ _
        rw [m2.rt]
        constructor
        · rintro (hr | ⟨_, hr, hn⟩)
          · exact Or.inl hr
          · exact Or.inr ⟨hr, hn⟩
        · rintro (hr | ⟨hr, hn⟩)
          · exact Or.inl hr
          · refine Or.inr ⟨head_of_ne ?_, hr, hn⟩
            rintro rfl
            exact hn r (Reach.nil r)
      refine ⟨h', pruned h1 kids1 tree, ?_, d2, ?_, hrt, ?_, ?_, ?_⟩
      · unfold Frames.mergeTree
        simp only [eb1, ht, r3, m1, d1, Option.bind_eq_bind, Option.bind_some, Bool.false_eq_true, if_false]
      · intro hrn
        refine d5 ?_
        intro a ha c hc he
        refine hrn a ha c hc ?_
        have e1 : nameOf h1 a = nameOf st.heap a := m2.data.nameOf a
        have e2 : nameOf h1 c = nameOf st.heap c := m2.data.nameOf c
        rw [← e1, ← e2]
        exact he
      · intro s hs' hne p m
        rw [d6 s ⟨s, hs', Relation.ReflTransGen.refl⟩ p m]
        refine reach_frame hs.inv m2.inv m2.data (fun q hq => ?_) p m
        obtain ⟨ns, s1, s2⟩ := hs.rroot s hs'
        obtain ⟨nq, hnq⟩ := hs.alloc ⟨s, hs', hq⟩
        refine m2.frame q (fun hh => ?_) (fun hh => ?_)
        · exact hne (hs.inv.root_unique hnq hq hh s1 s2 a1 a2)
        · exact hs.not_below_root ht htp hmem ⟨s, hs', hq⟩ hh
      · intro x hx
        have hx1 := (d4 x).1 hx
        have hnb : ¬ Below h1 tree x := by
          refine hs1.not_below_root t1 t2 ?_ hx1
          rintro ⟨r', hr', hb'⟩
          have := (below_root t1 t2 r').1 hb'
          exact hnr (this ▸ hr')
        rw [(d3 x).2 hnb]
        exact m2.data x
      · intro x hx hxm
        refine (d3 x).1 ?_
        rcases (m2.union x).2 (Or.inr hx) with hb | hb
        · exfalso
          exact hxm ((d4 x).2 ⟨r, r1, hb⟩)
        · exact hb
    · left
      refine ⟨hmem, r2, ?_, ⟨hs.inv, ?_, ?_, ?_⟩, ?_, ?_⟩
      · unfold Frames.mergeTree
        simp only [eb1, ht, r1, Option.bind_eq_bind, Option.bind_some, Bool.false_eq_true, if_false]
      · rw [List.nodup_append']
        refine ⟨hs.rnodup, by simp, ?_⟩
        intro x h1 h2
        rw [List.mem_singleton] at h2
        exact hnr (h2 ▸ h1)
      · intro r hr
        rcases List.mem_append.1 hr with hr | hr
        · exact hs.rroot r hr
        · rw [List.mem_singleton] at hr
          rw [hr]; exact ⟨nt, ht, htp⟩
      · rintro q ⟨r, hr, hb⟩
        rcases List.mem_append.1 hr with hr | hr
        · exact hs.sib q ⟨r, hr, hb⟩
        · rw [List.mem_singleton] at hr
          rw [hr] at hb
          exact hs.inv.uniq_iff.1 huq q hb
      · intro x
        unfold Member
        simp only [List.mem_append, List.mem_singleton]
        constructor
        · rintro ⟨r, hr | hr, hb⟩
          · exact Or.inl ⟨r, hr, hb⟩
          · rw [hr] at hb; exact Or.inr hb
        · rintro (⟨r, hr, hb⟩ | hb)
          · exact ⟨r, Or.inl hr, hb⟩
          · exact ⟨tree, Or.inr rfl, hb⟩
      · intro hrn a ha c hc he
        have hn : nameOf st.heap tree = some nt.name := nameOf_some ht
        have he' : nameOf st.heap a = nameOf st.heap c := he
        simp only [List.mem_append, List.mem_singleton] at ha hc
        rcases ha with ha | ha <;> rcases hc with hc | hc
        · exact hrn a ha c hc he'
        · rw [hc, hn] at he'; exact absurd he' (r2 a ha)
        · rw [ha, hn] at he'; exact absurd he'.symm (r2 c hc)
        · rw [ha, hc]

/-- `merge_tree(tree, start_frame)`: with a start frame the two trees are merged the other way round. -/
theorem SInv.mergeTree_start {st : Store T} {kids} (hs : SInv st kids) {tree s : Nat} {nt ns}
    (ht : st.heap tree = some nt) (htp : nt.parent = none) (huq : Uniq st.heap tree) (hnm : ¬ Member st tree)
    (hsm : Member st s) (hs1 : st.heap s = some ns) :
    (nt.name ≠ ns.name ∧ Frames.mergeTree st tree (some s) = some (.err st)) ∨
    (nt.name = ns.name ∧ ∃ h' kids', Frames.mergeTree st tree (some s) = some (.ret ⟨h', st.roots⟩) ∧
      SInv ⟨h', st.roots⟩ kids' ∧ (RootNames st → RootNames ⟨h', st.roots⟩) ∧
      (∀ p m, Reach h' s p m ↔ Reach st.heap s p m ∧ ∃ m', Reach st.heap tree p m') ∧
      (∀ p m, Reach st.heap s p m → (∀ m', ¬ Reach st.heap tree p m') → h' m = none) ∧
      (∀ x, Below st.heap tree x → h' x = none)) := by
  obtain ⟨b, eb1, eb2⟩ := hs.isMember_eq ht
  have hbf : b = false := by
    cases b with
    | true => exact absurd (eb2.1 rfl) hnm
    | false => rfl
  subst hbf
  by_cases hne : nt.name = ns.name
  · right
    refine ⟨hne, ?_⟩
    have hnr : tree ∉ st.roots := fun hh => hnm ⟨tree, hh, Relation.ReflTransGen.refl⟩
    have hd : Disj st.heap tree s := fun x hx hx' => by
      obtain ⟨r, hr, hb⟩ := hsm
      exact hs.not_below_root ht htp hnm ⟨r, hr, Relation.ReflTransGen.trans hx' hb⟩ hx
    obtain ⟨h1, kids1, m1, m2⟩ := hs.inv.mergeTrees ht hs1 hne hd huq (hs.uniq hsm)
    have hsi := m2.sinv hs huq (hs.uniq hsm)
    obtain ⟨nt1, t1, t2⟩ := m2.root_keep hs.inv ht htp
    obtain ⟨h', d1, d2, d3, d4, d5, d6⟩ := hsi.drop_tree t1 t2 hnr
    have hsm1 : Member ⟨h1, st.roots⟩ s := by
      obtain ⟨r, hr, hb⟩ := hsm
      refine ⟨r, hr, ?_⟩
      show Below h1 r s
      rcases Relation.ReflTransGen.cases_head hb with e | ⟨q, hp, hq⟩
      · rw [e]; exact Relation.ReflTransGen.refl
      · have hqo : ¬ (Below st.heap tree q ∨ Below st.heap s q) := by
          rintro (hh | hh)
          · exact hd s (Relation.ReflTransGen.head hp hh) Relation.ReflTransGen.refl
          · exact hs.inv.below_self_kid (hs.inv.par_iff.1 hp) hh
        exact Relation.ReflTransGen.head ((m2.par_out hs.inv hqo).2 hp) ((m2.below_out hs.inv hqo).2 hq)
    have hrs : ∀ p m, Reach h1 s p m ↔ Reach st.heap s p m ∧ ∃ m', Reach st.heap tree p m' := by
      intro p m
      rw [m2.rs]
      constructor
      · rintro ⟨a, b⟩
        refine ⟨a, ?_⟩
        by_cases hp : p = []
        · rw [hp]; exact ⟨tree, Reach.nil tree⟩
        · exact b (head_of_ne hp)
      · rintro ⟨a, b⟩
        exact ⟨a, fun _ => b⟩
    refine ⟨h', pruned h1 kids1 tree, ?_, d2, ?_, ?_, ?_, ?_⟩
    · unfold Frames.mergeTree
      simp only [eb1, ht, hs1, hne, m1, d1, Option.bind_eq_bind, Option.bind_some, Bool.false_eq_true, if_false,
        ne_eq, not_true_eq_false]
    · intro hrn
      refine d5 ?_
      intro a ha c hc he
      refine hrn a ha c hc ?_
      have e1 : nameOf h1 a = nameOf st.heap a := m2.data.nameOf a
      have e2 : nameOf h1 c = nameOf st.heap c := m2.data.nameOf c
      rw [← e1, ← e2]
      exact he
    · intro p m
      rw [d6 s hsm1 p m]
      exact hrs p m
    · intro p m hr hno
      refine (d3 m).1 ?_
      show Below h1 tree m
      have hp : p ≠ [] := by
        rintro rfl
        exact hno tree (Reach.nil tree)
      exact ((m2.rt p m).2 (Or.inr ⟨head_of_ne hp, hr, hno⟩)).isBelow
    · intro x hx
      refine (d3 x).1 ?_
      obtain ⟨p, hp⟩ := below_reach hx
      exact ((m2.rt p x).2 (Or.inl hp)).isBelow
  · left
    refine ⟨hne, ?_⟩
    unfold Frames.mergeTree
    simp only [eb1, ht, hs1, Option.bind_eq_bind, Option.bind_some, Bool.false_eq_true, if_false]
    rw [if_pos hne]

end Verif.Geom.Frames
