import Mathlib.Data.List.Lex
import Mathlib.Data.Char
import Mathlib.Data.List.TakeWhile
import Verif.Geom.Frames.Reach
import Verif.Geom.Frames.Store

/-
What `merge_frame_trees` does to the two trees.
-/

namespace Verif.Geom.Frames

variable {T : Type}

/-! ### Sorting by name -/

theorem mem_insName (x z : Str × Nat) : ∀ l, z ∈ insName x l ↔ z = x ∨ z ∈ l
  | [] => by simp [insName]
  | y :: ys => by
    unfold insName
    split
    · simp only [List.mem_cons, mem_insName x z ys]
      constructor
      · rintro (h | h | h) <;> simp [h]
      · rintro (h | h | h) <;> simp [h]
    · simp

theorem mem_sortName (z : Str × Nat) : ∀ l, z ∈ sortName l ↔ z ∈ l
  | [] => by simp [sortName]
  | x :: xs => by simp [sortName, mem_insName, mem_sortName z xs]

theorem sorted_insName (x : Str × Nat) : ∀ l : List (Str × Nat), l.Pairwise (fun a b => a.1 < b.1) →
    (∀ y ∈ l, y.1 ≠ x.1) → (insName x l).Pairwise (fun a b => a.1 < b.1)
  | [], _, _ => by simp [insName]
  | y :: ys, hs, hx => by
    rw [List.pairwise_cons] at hs
    unfold insName
    by_cases h : y.1 < x.1
    · rw [if_pos h, List.pairwise_cons]
      refine ⟨fun z hz => ?_, sorted_insName x ys hs.2 (fun z hz => hx z (List.mem_cons_of_mem _ hz))⟩
      rcases (mem_insName x z ys).1 hz with rfl | hz
      · exact h
      · exact hs.1 z hz
    · rw [if_neg h, List.pairwise_cons, List.pairwise_cons]
      have hlt : x.1 < y.1 := lt_of_le_of_ne (not_lt.1 h) (fun e => hx y (by simp) e.symm)
      refine ⟨fun z hz => ?_, hs⟩
      rcases List.mem_cons.1 hz with rfl | hz
      · exact hlt
      · exact lt_trans hlt (hs.1 z hz)

theorem sorted_sortName : ∀ l : List (Str × Nat), l.Pairwise (fun a b => a.1 ≠ b.1) →
    (sortName l).Pairwise (fun a b => a.1 < b.1)
  | [], _ => by simp [sortName]
  | x :: xs, h => by
    rw [List.pairwise_cons] at h
    refine sorted_insName x _ (sorted_sortName xs h.2) (fun y hy => ?_)
    exact fun e => h.1 y ((mem_sortName y xs).1 hy) e.symm

theorem named_eq {h : Heap T} : ∀ {L : List Nat}, (∀ x ∈ L, ∃ nd, h x = some nd) → ∃ l, named h L = some l ∧
    l.map Prod.snd = L ∧ ∀ z ∈ l, ∃ nd, h z.2 = some nd ∧ nd.name = z.1
  | [], _ => ⟨[], rfl, rfl, by simp⟩
  | c :: cs, hL => by
    obtain ⟨nd, hc⟩ := hL c (by simp)
    obtain ⟨l, e1, e2, e3⟩ := named_eq (fun x hx => hL x (List.mem_cons_of_mem _ hx))
    refine ⟨(nd.name, c) :: l, ?_, by simp [e2], ?_⟩
    · simp only [named, hc, e1, Option.bind_eq_bind, Option.bind_some]
    · intro z hz
      rcases List.mem_cons.1 hz with rfl | hz
      · exact ⟨nd, hc, rfl⟩
      · exact e3 z hz

/-- The sorted children of a node whose children have different names. -/
theorem Inv.sortedKids {h : Heap T} {kids} (hi : Inv h kids) {n : Nat} {nn} (hn : h n = some nn) (hu : Uniq h n) :
    ∃ l c, children h n = some c ∧ named h c = some l ∧
      (sortName l).Pairwise (fun a b => a.1 < b.1) ∧
      ∀ e x, (e, x) ∈ sortName l ↔ Reach h n [e] x := by
  have hal : ∀ x ∈ kids n, ∃ nd, h x = some nd := fun x hx => by
    obtain ⟨⟨nd, h1, _⟩, _⟩ := hi.kid_alloc hx
    exact ⟨nd, h1⟩
  obtain ⟨l, e1, e2, e3⟩ := named_eq hal
  have hmem : ∀ e x, (e, x) ∈ l ↔ Reach h n [e] x := by
    intro e x
    rw [reach_single]
    constructor
    · intro hx
      obtain ⟨nd, f1, f2⟩ := e3 _ hx
      have hk : x ∈ kids n := by rw [← e2]; exact List.mem_map.2 ⟨_, hx, rfl⟩
      exact ⟨nd, f1, (hi.par x nd n f1).2 hk, f2⟩
    · rintro ⟨nd, f1, f2, f3⟩
      have hk := (hi.par x nd n f1).1 f2
      rw [← e2] at hk
      obtain ⟨⟨e', x'⟩, g1, g2⟩ := List.mem_map.1 hk
      simp only at g2
      subst g2
      obtain ⟨nd', k1, k2⟩ := e3 _ g1
      rw [f1] at k1; cases k1
      simp only at k2
      rw [← f3, k2]; exact g1
  refine ⟨l, kids n, hi.children_eq hn, e1, ?_, fun e x => by rw [mem_sortName, hmem]⟩
  refine sorted_sortName l ?_
  have hnd : (l.map Prod.snd).Nodup := by rw [e2]; exact hi.nodup n
  rw [List.Nodup, List.pairwise_map] at hnd
  refine hnd.imp_of_mem (fun {a b} ha hb hab he => hab ?_)
  have h1 := (hmem a.1 a.2).1 ha
  have h2 := (hmem b.1 b.2).1 hb
  rw [he] at h1
  exact hu _ _ _ h1 h2

/-! ### The effect on paths -/

/-- The part of source `S` under the first names `N` has been merged into the target `t`: the target keeps what
it had and gains the paths it did not have; the source keeps what the target already had. -/
structure Merged (h h' : Heap T) (kids kids' : Nat → List Nat) (t S : Nat) (N : Str → Prop) : Prop where
  inv : Inv h' kids'
  data : SameData h h'
  frame : ∀ q, ¬ Below h t q → ¬ Below h S q → kids' q = kids q
  rt : ∀ p m, Reach h' t p m ↔
    Reach h t p m ∨ ((∃ e, N e ∧ p.head? = some e) ∧ Reach h S p m ∧ ∀ m', ¬ Reach h t p m')
  rs : ∀ p m, Reach h' S p m ↔
    Reach h S p m ∧ ((∃ e, N e ∧ p.head? = some e) → ∃ m', Reach h t p m')

/-- The two subtrees have no node in common. -/
def Disj (h : Heap T) (t S : Nat) : Prop := ∀ x, Below h t x → ¬ Below h S x

theorem Merged.comp {h h1 h2 : Heap T} {kids kids1 kids2 t S} {N1 N2 : Str → Prop}
    (a : Merged h h1 kids kids1 t S N1) (b : Merged h1 h2 kids1 kids2 t S N2) (hN : ∀ e, N1 e → ¬ N2 e) :
    Merged h h2 kids kids2 t S (fun e => N1 e ∨ N2 e) := by
  refine ⟨b.inv, a.data.trans b.data, ?_, ?_, ?_⟩
  · intro q h1' h2'
    rw [b.frame q, a.frame q h1' h2']
    · intro hb
      obtain ⟨p, hp⟩ := below_reach hb
      rcases (a.rt p q).1 hp with hp | ⟨_, hp, _⟩
      · exact h1' hp.isBelow
      · exact h2' hp.isBelow
    · intro hb
      obtain ⟨p, hp⟩ := below_reach hb
      exact h2' ((a.rs p q).1 hp).1.isBelow
  · intro p m
    rw [b.rt, a.rt, a.rs]
    by_cases c1 : ∃ e, N1 e ∧ p.head? = some e
    · have c2 : ¬ ∃ e, N2 e ∧ p.head? = some e := by
        rintro ⟨e, h1, h2⟩
        obtain ⟨e', h3, h4⟩ := c1
        rw [h2] at h4; cases h4
        exact hN e h3 h1
      have c12 : ∃ e, (N1 e ∨ N2 e) ∧ p.head? = some e := by
        obtain ⟨e, h1, h2⟩ := c1; exact ⟨e, Or.inl h1, h2⟩
      simp only [c1, c2, c12, true_and, false_and, or_false]
    · by_cases c2 : ∃ e, N2 e ∧ p.head? = some e
      · have c12 : ∃ e, (N1 e ∨ N2 e) ∧ p.head? = some e := by
          obtain ⟨e, h1, h2⟩ := c2; exact ⟨e, Or.inr h1, h2⟩
        have hrt : ∀ m', Reach h1 t p m' ↔ Reach h t p m' := by
          intro m'; rw [a.rt]; simp only [c1, false_and, or_false]
        simp only [c1, c2, c12, true_and, false_and, or_false, hrt]
        constructor
        · rintro (h | ⟨⟨h, _⟩, h2⟩)
          · exact Or.inl h
          · exact Or.inr ⟨h, h2⟩
        · rintro (h | ⟨h, h2⟩)
          · exact Or.inl h
          · exact Or.inr ⟨⟨h, fun hh => absurd hh id⟩, h2⟩
      · have c12 : ¬ ∃ e, (N1 e ∨ N2 e) ∧ p.head? = some e := by
          rintro ⟨e, h1 | h1, h2⟩
          · exact c1 ⟨e, h1, h2⟩
          · exact c2 ⟨e, h1, h2⟩
        simp only [c1, c2, c12, false_and, or_false]
  · intro p m
    rw [b.rs, a.rs]
    constructor
    · rintro ⟨⟨h1, h2⟩, h3⟩
      refine ⟨h1, ?_⟩
      rintro ⟨e, h4 | h4, h5⟩
      · exact h2 ⟨e, h4, h5⟩
      · obtain ⟨m', hm⟩ := h3 ⟨e, h4, h5⟩
        rcases (a.rt p m').1 hm with hm | ⟨⟨e', h6, h7⟩, _⟩
        · exact ⟨m', hm⟩
        · rw [h5] at h7; cases h7
          exact absurd h4 (hN e h6)
    · rintro ⟨h1, h2⟩
      refine ⟨⟨h1, fun ⟨e, h3, h4⟩ => h2 ⟨e, Or.inl h3, h4⟩⟩, ?_⟩
      rintro ⟨e, h3, h4⟩
      obtain ⟨m', hm⟩ := h2 ⟨e, Or.inr h3, h4⟩
      exact ⟨m', (a.rt p m').2 (Or.inl hm)⟩

theorem Merged.none {h : Heap T} {kids t S} (hi : Inv h kids) : Merged h h kids kids t S (fun _ => False) := by
  refine ⟨hi, SameData.refl _, fun _ _ _ => rfl, fun p m => ?_, fun p m => ?_⟩
  · simp
  · simp

theorem Merged.congr {h h' : Heap T} {kids kids' t S} {N N' : Str → Prop} (a : Merged h h' kids kids' t S N)
    (hN : ∀ e, N e ↔ N' e) : Merged h h' kids kids' t S N' := by
  have : N = N' := funext (fun e => propext (hN e))
  subst this; exact a

theorem Inv.sib_below {h : Heap T} {kids} (hi : Inv h kids) {n c c' x : Nat} (hc : c ∈ kids n)
    (hc' : c' ∈ kids n) (h1 : Below h c x) (h2 : Below h c' x) : c = c' := by
  obtain ⟨⟨nc, a, b⟩, _⟩ := hi.kid_alloc hc
  obtain ⟨⟨nc', a', b'⟩, _⟩ := hi.kid_alloc hc'
  have hm : ∃ nm, h x = some nm := by
    by_cases e : x = c
    · subst e; exact ⟨nc, a⟩
    · exact (hi.below_alloc h1 e).2
  obtain ⟨nm, hm⟩ := hm
  obtain ⟨l, t, e1, e2⟩ := hi.ancestry_prefix hm h1
  obtain ⟨l', t', f1, f2⟩ := hi.ancestry_prefix hm h2
  obtain ⟨lc, g1, _, _, _, g5⟩ := hi.ancestry_eq a
  obtain ⟨lc', k1, _, _, _, k5⟩ := hi.ancestry_eq a'
  have := (g5 n b).symm.trans (k5 n b')
  cases this
  rw [e1] at g1; cases g1
  rw [f1] at k1; cases k1
  rw [e2] at f2
  simp at f2
  exact f2.1

/-- With unique names the first step is determined. -/
theorem Uniq.reach_cons {h : Heap T} {n c : Nat} {nc} (hu : Uniq h n) (hc : h c = some nc)
    (hp : nc.parent = some n) (p : List Str) (m : Nat) : Reach h n (nc.name :: p) m ↔ Reach h c p m := by
  rw [Frames.reach_cons]
  constructor
  · rintro ⟨d, nd, h1, h2, h3, h4⟩
    have := hu [nc.name] d c (reach_single.2 ⟨nd, h1, h2, h3⟩) (reach_single.2 ⟨nc, hc, hp, rfl⟩)
    subst this; exact h4
  · intro h4; exact ⟨c, nc, hc, hp, rfl, h4⟩

/-- One child of the source without a counterpart is moved to the target. -/
theorem Inv.stepMove {h : Heap T} {kids} (hi : Inv h kids) {t S s : Nat} {nt ns} (ht : h t = some nt)
    (hs : h s = some ns) (hp : ns.parent = some S) (hd : Disj h t S) (hus : Uniq h S)
    (hno : ∀ m', ¬ Reach h t [ns.name] m') :
    ∃ h', Frames.setParent h s (some t) = some h' ∧ ∃ kids', Merged h h' kids kids' t S (fun e => e = ns.name) := by
  have hsS : s ∈ kids S := (hi.par s ns S hs).1 hp
  have hparS : Par h s S := ⟨ns, hs, hp⟩
  have hbt : ¬ Below h s t := fun hb =>
    hd t Relation.ReflTransGen.refl (Relation.ReflTransGen.tail hb hparS)
  have htS : t ≠ S := by
    rintro rfl; exact hd t Relation.ReflTransGen.refl Relation.ReflTransGen.refl
  obtain ⟨h', e1, e2, e3⟩ := hi.setParent hs (p := some t) (by
    intro q hq; cases hq; exact ⟨⟨nt, ht⟩, hbt⟩)
  refine ⟨h', e1, _, e2, e3, ?_, ?_, ?_⟩
  · intro q h1 h2
    unfold moved paste
    rw [if_neg (by rintro hh; cases hh; exact h1 Relation.ReflTransGen.refl)]
    exact cut_eq hi hsS (by rintro rfl; exact h2 Relation.ReflTransGen.refl)
  all_goals
    have hkt : ∀ q, q ≠ t → q ≠ S → moved kids s (some t) q = kids q := by
      intro q h1 h2
      unfold moved paste
      rw [if_neg (by rintro hh; cases hh; exact h1 rfl)]
      exact cut_eq hi hsS h2
    have hparm : ∀ x nx q, h' x = some nx → (nx.parent = some q ↔
        (x = s ∧ q = t) ∨ (x ≠ s ∧ x ∈ kids q)) := by
      intro x nx q hx
      rw [e2.par x nx q hx]
      unfold moved paste
      by_cases hq : some t = some q
      · rw [if_pos hq, List.mem_cons, mem_cut hi]
        cases hq
        simp
      · rw [if_neg hq, mem_cut hi]
        have : q ≠ t := by rintro rfl; exact hq rfl
        simp [this]
    have hframe : ∀ c, c ∈ kids t ∨ c ∈ kids S ∨ c = s → ∀ p m, Reach h' c p m ↔ Reach h c p m := by
      intro c hc
      refine reach_frame hi e2 e3 (fun q hq => hkt q ?_ ?_)
      · rintro rfl
        rcases hc with hc | hc | rfl
        · exact hi.below_self_kid hc hq
        · exact hd q Relation.ReflTransGen.refl (Relation.ReflTransGen.tail hq (hi.par_iff.2 hc))
        · exact hbt hq
      · rintro rfl
        rcases hc with hc | hc | rfl
        · exact hd q (Relation.ReflTransGen.tail hq (hi.par_iff.2 hc)) Relation.ReflTransGen.refl
        · exact hi.below_self_kid hc hq
        · exact hi.below_self_kid hsS hq
    have hdata : ∀ x nx, h x = some nx → ∃ nx', h' x = some nx' ∧ nx'.name = nx.name := fun x nx hx => by
      obtain ⟨nx', k1, k2, _⟩ := e3.some hx; exact ⟨nx', k1, k2⟩
  · intro p m
    cases p with
    | nil => simp [reach_nil]
    | cons e p =>
      rw [reach_cons]
      constructor
      · rintro ⟨c, nc, c1, c2, c3, c4⟩
        rcases (hparm c nc t c1).1 c2 with ⟨rfl, _⟩ | ⟨hne, hk⟩
        · obtain ⟨ns', k1, k2⟩ := hdata c ns hs
          rw [c1] at k1; cases k1
          right
          rw [hframe c (Or.inr (Or.inr rfl))] at c4
          refine ⟨⟨e, c3.symm.trans k2, rfl⟩, Reach.cons S c ns p m hs hp c4 |> fun hh => ?_, ?_⟩
          · rw [← c3, k2]; exact hh
          · intro m' hm'
            obtain ⟨d, nd, d1, d2, d3, _⟩ := reach_cons.1 hm'
            exact hno d (reach_single.2 ⟨nd, d1, d2, d3.trans (c3.symm.trans k2)⟩)
        · left
          obtain ⟨⟨nc0, d1, d2⟩, _⟩ := hi.kid_alloc hk
          obtain ⟨nc', k1, k2⟩ := hdata c nc0 d1
          rw [c1] at k1; cases k1
          rw [hframe c (Or.inl hk)] at c4
          exact reach_cons.2 ⟨c, nc0, d1, d2, k2.symm.trans c3, c4⟩
      · rintro (hr | ⟨⟨e', he, hpe⟩, hr, _⟩)
        · obtain ⟨c, nc, c1, c2, c3, c4⟩ := reach_cons.1 hr
          have hk := (hi.par c nc t c1).1 c2
          have hcs : c ≠ s := by
            rintro rfl
            exact htS (hi.unique hk hsS)
          obtain ⟨nc', k1, k2⟩ := hdata c nc c1
          refine ⟨c, nc', k1, (hparm c nc' t k1).2 (Or.inr ⟨hcs, hk⟩), k2.trans c3, ?_⟩
          rw [hframe c (Or.inl hk)]; exact c4
        · simp only [List.head?_cons, Option.some.injEq] at hpe
          subst hpe
          subst he
          rw [hus.reach_cons hs hp] at hr
          obtain ⟨ns', k1, k2⟩ := hdata s ns hs
          refine ⟨s, ns', k1, (hparm s ns' t k1).2 (Or.inl ⟨rfl, rfl⟩), k2, ?_⟩
          rw [hframe s (Or.inr (Or.inr rfl))]; exact hr
  · intro p m
    cases p with
    | nil => simp [reach_nil]
    | cons e p =>
      have hempty : ∀ m', ¬ Reach h t (ns.name :: p) m' := by
        intro m' hm'
        obtain ⟨d, nd, d1, d2, d3, _⟩ := reach_cons.1 hm'
        exact hno d (reach_single.2 ⟨nd, d1, d2, d3⟩)
      rw [reach_cons, reach_cons (h := h)]
      constructor
      · rintro ⟨c, nc, c1, c2, c3, c4⟩
        rcases (hparm c nc S c1).1 c2 with ⟨_, rfl⟩ | ⟨hne, hk⟩
        · exact absurd rfl htS
        · obtain ⟨⟨nc0, d1, d2⟩, _⟩ := hi.kid_alloc hk
          obtain ⟨nc', k1, k2⟩ := hdata c nc0 d1
          rw [c1] at k1; cases k1
          rw [hframe c (Or.inr (Or.inl hk))] at c4
          refine ⟨⟨c, nc0, d1, d2, k2.symm.trans c3, c4⟩, ?_⟩
          rintro ⟨e', rfl, he⟩
          simp only [List.head?_cons, Option.some.injEq] at he
          exfalso
          refine hne (hus [ns.name] c s ?_ (reach_single.2 ⟨ns, hs, hp, rfl⟩))
          exact reach_single.2 ⟨nc0, d1, d2, k2.symm.trans (c3.trans he)⟩
      · rintro ⟨⟨c, nc, c1, c2, c3, c4⟩, hcond⟩
        have hk := (hi.par c nc S c1).1 c2
        have hcs : c ≠ s := by
          rintro rfl
          rw [hs] at c1; cases c1
          obtain ⟨m', hm'⟩ := hcond ⟨e, c3.symm, rfl⟩
          rw [← c3] at hm'
          exact hempty m' hm'
        obtain ⟨nc', k1, k2⟩ := hdata c nc c1
        refine ⟨c, nc', k1, (hparm c nc' S k1).2 (Or.inr ⟨hcs, hk⟩), k2.trans c3, ?_⟩
        rw [hframe c (Or.inr (Or.inl hk))]; exact c4

/-- A child of the source with a counterpart has been merged with it. -/
theorem Inv.stepMerge {h h' : Heap T} {kids kids'} (hi : Inv h kids) {t S c s : Nat} {nc ns}
    (hc : h c = some nc) (hcp : nc.parent = some t)
    (hs : h s = some ns) (hsp : ns.parent = some S) (hname : nc.name = ns.name) (hd : Disj h t S)
    (hut : Uniq h t) (hus : Uniq h S) (hm : Merged h h' kids kids' c s (fun _ => True)) :
    Merged h h' kids kids' t S (fun e => e = ns.name) := by
  have hcT : c ∈ kids t := (hi.par c nc t hc).1 hcp
  have hsS : s ∈ kids S := (hi.par s ns S hs).1 hsp
  have hbc : ∀ q, Below h c q → Below h t q := fun q hq => Relation.ReflTransGen.tail hq ⟨nc, hc, hcp⟩
  have hbs : ∀ q, Below h s q → Below h S q := fun q hq => Relation.ReflTransGen.tail hq ⟨ns, hs, hsp⟩
  have hkt : kids' t = kids t := hm.frame t (hi.below_self_kid hcT)
    (fun hh => hd t Relation.ReflTransGen.refl (hbs t hh))
  have hkS : kids' S = kids S := hm.frame S
    (fun hh => hd S (hbc S hh) Relation.ReflTransGen.refl) (hi.below_self_kid hsS)
  have hdata : ∀ x nx, h x = some nx → ∃ nx', h' x = some nx' ∧ nx'.name = nx.name := fun x nx hx => by
    obtain ⟨nx', k1, k2, _⟩ := hm.data.some hx; exact ⟨nx', k1, k2⟩
  have hfr : ∀ c', (c' ∈ kids t ∧ c' ≠ c) ∨ (c' ∈ kids S ∧ c' ≠ s) → ∀ p m, Reach h' c' p m ↔ Reach h c' p m := by
    intro c' hc'
    refine reach_frame hi hm.inv hm.data (fun q hq => hm.frame q ?_ ?_)
    · intro hb
      rcases hc' with ⟨h1, h2⟩ | ⟨h1, _⟩
      · exact h2 (hi.sib_below h1 hcT hq hb)
      · exact hd q (hbc q hb) (Relation.ReflTransGen.tail hq (hi.par_iff.2 h1))
    · intro hb
      rcases hc' with ⟨h1, _⟩ | ⟨h1, h2⟩
      · exact hd q (Relation.ReflTransGen.tail hq (hi.par_iff.2 h1)) (hbs q hb)
      · exact h2 (hi.sib_below h1 hsS hq hb)
  have hpt : ∀ x nx, h' x = some nx → (nx.parent = some t ↔ x ∈ kids t) := fun x nx hx => by
    rw [hm.inv.par x nx t hx, hkt]
  have hpS : ∀ x nx, h' x = some nx → (nx.parent = some S ↔ x ∈ kids S) := fun x nx hx => by
    rw [hm.inv.par x nx S hx, hkS]
  have htrue : ∀ p : List Str, (∃ e, True ∧ p.head? = some e) ↔ p ≠ [] := by
    intro p; cases p <;> simp
  refine ⟨hm.inv, hm.data, ?_, ?_, ?_⟩
  · intro q h1 h2
    exact hm.frame q (fun hh => h1 (hbc q hh)) (fun hh => h2 (hbs q hh))
  · intro p m
    cases p with
    | nil => simp [reach_nil]
    | cons e p =>
      by_cases he : e = ns.name
      · subst he
        have hR : ∀ m', Reach h t (ns.name :: p) m' ↔ Reach h c p m' := by
          intro m'; rw [← hname]; exact hut.reach_cons hc hcp p m'
        have hS : ∀ m', Reach h S (ns.name :: p) m' ↔ Reach h s p m' := fun m' => hus.reach_cons hs hsp p m'
        have h1 : Reach h' t (ns.name :: p) m ↔ Reach h' c p m := by
          rw [reach_cons]
          constructor
          · rintro ⟨d, nd, d1, d2, d3, d4⟩
            have hk := (hpt d nd d1).1 d2
            obtain ⟨⟨nd0, f1, f2⟩, _⟩ := hi.kid_alloc hk
            obtain ⟨nd', k1, k2⟩ := hdata d nd0 f1
            rw [d1] at k1; cases k1
            have := hut [ns.name] d c (reach_single.2 ⟨nd0, f1, f2, k2.symm.trans d3⟩)
              (reach_single.2 ⟨nc, hc, hcp, hname⟩)
            subst this; exact d4
          · intro hr
            obtain ⟨nc', k1, k2⟩ := hdata c nc hc
            exact ⟨c, nc', k1, (hpt c nc' k1).2 hcT, k2.trans hname, hr⟩
        rw [h1, hm.rt, htrue, hS]
        simp only [hR]
        constructor
        · rintro (h | ⟨_, h⟩)
          · exact Or.inl h
          · exact Or.inr ⟨⟨_, rfl, rfl⟩, h⟩
        · rintro (h | ⟨_, h⟩)
          · exact Or.inl h
          · by_cases hp0 : p = []
            · subst hp0
              exact absurd (Reach.nil c) (h.2 c)
            · exact Or.inr ⟨hp0, h⟩
      · have hne : ¬ ∃ e', e' = ns.name ∧ (e :: p).head? = some e' := by
          rintro ⟨e', rfl, h⟩
          simp only [List.head?_cons, Option.some.injEq] at h
          exact he h
        simp only [hne, false_and, or_false]
        rw [reach_cons, reach_cons]
        constructor
        · rintro ⟨d, nd, d1, d2, d3, d4⟩
          have hk := (hpt d nd d1).1 d2
          obtain ⟨⟨nd0, f1, f2⟩, _⟩ := hi.kid_alloc hk
          obtain ⟨nd', k1, k2⟩ := hdata d nd0 f1
          rw [d1] at k1; cases k1
          have hdc : d ≠ c := by
            rintro rfl
            rw [hc] at f1; cases f1
            exact he (d3.symm.trans (k2.trans hname))
          rw [hfr d (Or.inl ⟨hk, hdc⟩)] at d4
          exact ⟨d, nd0, f1, f2, k2.symm.trans d3, d4⟩
        · rintro ⟨d, nd, d1, d2, d3, d4⟩
          have hk := (hi.par d nd t d1).1 d2
          have hdc : d ≠ c := by
            rintro rfl
            rw [hc] at d1; cases d1
            exact he (d3.symm.trans hname)
          obtain ⟨nd', k1, k2⟩ := hdata d nd d1
          refine ⟨d, nd', k1, (hpt d nd' k1).2 hk, k2.trans d3, ?_⟩
          rw [hfr d (Or.inl ⟨hk, hdc⟩)]; exact d4
  · intro p m
    cases p with
    | nil => simp [reach_nil]
    | cons e p =>
      by_cases he : e = ns.name
      · subst he
        have hR : ∀ m', Reach h t (ns.name :: p) m' ↔ Reach h c p m' := by
          intro m'; rw [← hname]; exact hut.reach_cons hc hcp p m'
        have hS : ∀ m', Reach h S (ns.name :: p) m' ↔ Reach h s p m' := fun m' => hus.reach_cons hs hsp p m'
        have h1 : Reach h' S (ns.name :: p) m ↔ Reach h' s p m := by
          rw [reach_cons]
          constructor
          · rintro ⟨d, nd, d1, d2, d3, d4⟩
            have hk := (hpS d nd d1).1 d2
            obtain ⟨⟨nd0, f1, f2⟩, _⟩ := hi.kid_alloc hk
            obtain ⟨nd', k1, k2⟩ := hdata d nd0 f1
            rw [d1] at k1; cases k1
            have := hus [ns.name] d s (reach_single.2 ⟨nd0, f1, f2, k2.symm.trans d3⟩)
              (reach_single.2 ⟨ns, hs, hsp, rfl⟩)
            subst this; exact d4
          · intro hr
            obtain ⟨ns', k1, k2⟩ := hdata s ns hs
            exact ⟨s, ns', k1, (hpS s ns' k1).2 hsS, k2, hr⟩
        rw [h1, hm.rs, htrue, hS]
        simp only [hR]
        constructor
        · rintro ⟨ha, hb⟩
          refine ⟨ha, fun _ => ?_⟩
          by_cases hp0 : p = []
          · subst hp0; exact ⟨c, Reach.nil c⟩
          · exact hb hp0
        · rintro ⟨ha, hb⟩
          exact ⟨ha, fun _ => hb ⟨_, rfl, rfl⟩⟩
      · have hne : ¬ ∃ e', e' = ns.name ∧ (e :: p).head? = some e' := by
          rintro ⟨e', rfl, h⟩
          simp only [List.head?_cons, Option.some.injEq] at h
          exact he h
        have hvac : ((∃ e', e' = ns.name ∧ (e :: p).head? = some e') → ∃ m', Reach h t (e :: p) m') :=
          fun hh => absurd hh hne
        rw [and_iff_left hvac, reach_cons, reach_cons]
        constructor
        · rintro ⟨d, nd, d1, d2, d3, d4⟩
          have hk := (hpS d nd d1).1 d2
          obtain ⟨⟨nd0, f1, f2⟩, _⟩ := hi.kid_alloc hk
          obtain ⟨nd', k1, k2⟩ := hdata d nd0 f1
          rw [d1] at k1; cases k1
          have hdc : d ≠ s := by
            rintro rfl
            rw [hs] at f1; cases f1
            exact he (d3.symm.trans k2)
          rw [hfr d (Or.inr ⟨hk, hdc⟩)] at d4
          exact ⟨d, nd0, f1, f2, k2.symm.trans d3, d4⟩
        · rintro ⟨d, nd, d1, d2, d3, d4⟩
          have hk := (hi.par d nd S d1).1 d2
          have hdc : d ≠ s := by
            rintro rfl
            rw [hs] at d1; cases d1
            exact he d3.symm
          obtain ⟨nd', k1, k2⟩ := hdata d nd d1
          refine ⟨d, nd', k1, (hpS d nd' k1).2 hk, k2.trans d3, ?_⟩
          rw [hfr d (Or.inr ⟨hk, hdc⟩)]; exact d4

theorem Merged.uniq_t {h h' : Heap T} {kids kids' t S N} (a : Merged h h' kids kids' t S N) (hut : Uniq h t)
    (hus : Uniq h S) : Uniq h' t := by
  intro p x y hx hy
  rcases (a.rt p x).1 hx with h1 | ⟨_, h1, h2⟩ <;> rcases (a.rt p y).1 hy with h3 | ⟨_, h3, h4⟩
  · exact hut p x y h1 h3
  · exact absurd h1 (h4 x)
  · exact absurd h3 (h2 y)
  · exact hus p x y h1 h3

theorem Merged.uniq_s {h h' : Heap T} {kids kids' t S N} (a : Merged h h' kids kids' t S N)
    (hus : Uniq h S) : Uniq h' S :=
  fun p x y hx hy => hus p x y ((a.rs p x).1 hx).1 ((a.rs p y).1 hy).1

theorem Merged.disj {h h' : Heap T} {kids kids' t S N} (hi : Inv h kids) (a : Merged h h' kids kids' t S N)
    (hd : Disj h t S) : Disj h' t S := by
  intro x hx1 hx2
  obtain ⟨p, hp⟩ := below_reach hx1
  obtain ⟨q, hq⟩ := below_reach hx2
  obtain ⟨hq1, hq2⟩ := (a.rs q x).1 hq
  rcases (a.rt p x).1 hp with h1 | ⟨h0, h1, h2⟩
  · exact hd x h1.isBelow hq1.isBelow
  · have := hi.reach_path h1 hq1
    subst this
    obtain ⟨m', hm'⟩ := hq2 h0
    exact h2 m' hm'

theorem Merged.hgt {h h' : Heap T} {kids kids' t S N k} (a : Merged h h' kids kids' t S N) (hh : Hgt h k S) :
    Hgt h' k S := fun p m hp => hh p m ((a.rs p m).1 hp).1

/-- What the loop needs of the remaining sorted children of the target. -/
structure LoopInv (h : Heap T) (t S : Nat) (srcs tgts : List (Str × Nat)) : Prop where
  ssort : srcs.Pairwise (fun a b => a.1 < b.1)
  tsort : tgts.Pairwise (fun a b => a.1 < b.1)
  smem : ∀ e x, (e, x) ∈ srcs → Reach h S [e] x
  tmem : ∀ e x, (e, x) ∈ tgts → Reach h t [e] x
  tall : ∀ e s x, (e, s) ∈ srcs → Reach h t [e] x → (e, x) ∈ tgts

theorem mergeLoop_ok {k : Nat}
    (ih : ∀ (h : Heap T) (kids : Nat → List Nat) (t S : Nat) (nt nS : Node T), Inv h kids → h t = some nt →
      h S = some nS → nt.name = nS.name → Disj h t S → Uniq h t → Uniq h S → Hgt h k S →
      ∃ h' kids', mergeTrees h (.tree t S) = some h' ∧ Merged h h' kids kids' t S (fun _ => True)) :
    ∀ (srcs : List (Str × Nat)) (h : Heap T) (kids : Nat → List Nat) (t S : Nat) (nt nS : Node T)
      (tgts : List (Str × Nat)), Inv h kids → h t = some nt → h S = some nS →
      Disj h t S → Uniq h t → Uniq h S → Hgt h (k + 1) S → LoopInv h t S srcs tgts →
      ∃ h' kids', mergeTrees h (.loop t srcs tgts) = some h' ∧
        Merged h h' kids kids' t S (fun e => ∃ x, (e, x) ∈ srcs) := by
  intro srcs
  induction srcs with
  | nil =>
    intro h kids t S nt nS tgts hi _ _ _ _ _ _ _
    refine ⟨h, kids, by rw [mergeTrees], (Merged.none hi).congr (fun e => by simp)⟩
  | cons x srcs ihs =>
    obtain ⟨sname, s⟩ := x
    intro h kids t S nt nS tgts hi ht hS hd hut hus hh hl
    have hsort := List.pairwise_cons.1 hl.ssort
    obtain ⟨ns, hs, hsp, hsn⟩ := reach_single.1 (hl.smem sname s (by simp))
    -- the targets that can still match
    generalize hdw : tgts.dropWhile (fun x => decide (x.1 < sname)) = D
    have hDsub : ∀ z ∈ D, z ∈ tgts := by
      intro z hz; rw [← hdw] at hz
      exact (List.dropWhile_suffix _).subset hz
    have hDall : ∀ e x, (e, x) ∈ tgts → ¬ e < sname → (e, x) ∈ D := by
      intro e x hx hlt
      rw [← hdw]
      have happ := List.takeWhile_append_dropWhile (p := fun x : Str × Nat => decide (x.1 < sname)) (l := tgts)
      rw [← happ] at hx
      rcases List.mem_append.1 hx with hx | hx
      · have := List.mem_takeWhile_imp hx
        simp only [decide_eq_true_eq] at this
        exact absurd this hlt
      · exact hx
    have hDsort : D.Pairwise (fun a b => a.1 < b.1) := by
      rw [← hdw]; exact hl.tsort.sublist (List.dropWhile_suffix _).sublist
    have hDhead : ∀ z D', D = z :: D' → ¬ z.1 < sname := by
      intro z D' hz hlt
      have hne : tgts.dropWhile (fun x => decide (x.1 < sname)) ≠ [] := by rw [hdw, hz]; simp
      have := List.head_dropWhile_not (p := fun x : Str × Nat => decide (x.1 < sname)) (l := tgts) hne
      have he : (tgts.dropWhile (fun x => decide (x.1 < sname))).head hne = z := by
        simp only [hdw, hz, List.head_cons]
      rw [he] at this
      simp [hlt] at this
    -- one step, then the rest
    have finish : ∀ (h1 : Heap T) (kids1 : Nat → List Nat), Merged h h1 kids kids1 t S (fun e => e = ns.name) →
        ∃ h' kids', mergeTrees h1 (.loop t srcs D) = some h' ∧
          Merged h h' kids kids' t S (fun e => ∃ x, (e, x) ∈ (sname, s) :: srcs) := by
      intro h1 kids1 hm
      obtain ⟨nt1, ht1, _⟩ := hm.data.some ht
      obtain ⟨nS1, hS1, _⟩ := hm.data.some hS
      have hne : ∀ e x, (e, x) ∈ srcs → ¬ ∃ e', e' = ns.name ∧ [e].head? = some e' := by
        rintro e x hx ⟨e', rfl, h2⟩
        simp only [List.head?_cons, Option.some.injEq] at h2
        have := hsort.1 (e, x) hx
        simp only [h2, hsn] at this
        exact lt_irrefl _ this
      have hl1 : LoopInv h1 t S srcs D := by
        refine ⟨hsort.2, hDsort, ?_, ?_, ?_⟩
        · intro e x hx
          exact (hm.rs [e] x).2 ⟨hl.smem e x (List.mem_cons_of_mem _ hx), fun hh => absurd hh (hne e x hx)⟩
        · intro e x hx
          exact (hm.rt [e] x).2 (Or.inl (hl.tmem e x (hDsub _ hx)))
        · intro e s' x hx hr
          rcases (hm.rt [e] x).1 hr with hr | ⟨h0, _⟩
          · refine hDall e x (hl.tall e s' x (List.mem_cons_of_mem _ hx) hr) ?_
            exact not_lt.2 (le_of_lt (hsort.1 (e, s') hx))
          · exact absurd h0 (hne e s' hx)
      obtain ⟨h', kids', e1, e2⟩ := ihs h1 kids1 t S nt1 nS1 D hm.inv ht1 hS1 (hm.disj hi hd)
        (hm.uniq_t hut hus) (hm.uniq_s hus) (hm.hgt hh) hl1
      refine ⟨h', kids', e1, (hm.comp e2 ?_).congr ?_⟩
      · rintro e rfl ⟨x, hx⟩
        exact hne _ x hx ⟨_, rfl, rfl⟩
      · intro e
        constructor
        · rintro (rfl | ⟨x, hx⟩)
          · exact ⟨s, by rw [hsn]; simp⟩
          · exact ⟨x, List.mem_cons_of_mem _ hx⟩
        · rintro ⟨x, hx⟩
          rcases List.mem_cons.1 hx with hx | hx
          · cases hx; exact Or.inl hsn.symm
          · exact Or.inr ⟨x, hx⟩
    -- the child has no counterpart when nothing in `D` has its name
    have move : (∀ x, (sname, x) ∉ D) → ∃ h1, setParent h s (some t) = some h1 ∧ ∃ kids1,
        Merged h h1 kids kids1 t S (fun e => e = ns.name) := by
      intro hno
      refine hi.stepMove ht hs hsp hd hus (fun m' hm' => ?_)
      rw [hsn] at hm'
      exact hno m' (hDall sname m' (hl.tall sname s m' (by simp) hm') (lt_irrefl _))
    rw [mergeTrees]
    simp only [hdw]
    cases D with
    | nil =>
      obtain ⟨h1, e1, kids1, e2⟩ := move (by simp)
      simp only [e1, Option.bind_eq_bind, Option.bind_some]
      exact finish h1 kids1 e2
    | cons z D' =>
      obtain ⟨tname, tc⟩ := z
      have hz := hDhead (tname, tc) D' rfl
      by_cases hlt : sname < tname
      · obtain ⟨h1, e1, kids1, e2⟩ := move (by
          intro x hx
          rcases List.mem_cons.1 hx with hx | hx
          · cases hx; exact lt_irrefl _ hlt
          · exact lt_irrefl _ (lt_trans hlt ((List.pairwise_cons.1 hDsort).1 _ hx)))
        simp only [if_pos hlt, e1, Option.bind_eq_bind, Option.bind_some]
        exact finish h1 kids1 e2
      · have heq : tname = sname := le_antisymm (not_lt.1 hlt) (not_lt.1 hz)
        subst heq
        obtain ⟨nc, hc, hcp, hcn⟩ := reach_single.1 (hl.tmem tname tc (hDsub _ (by simp)))
        have hbc : ∀ q, Below h tc q → Below h t q := fun q hq => Relation.ReflTransGen.tail hq ⟨nc, hc, hcp⟩
        have hbs : ∀ q, Below h s q → Below h S q := fun q hq => Relation.ReflTransGen.tail hq ⟨ns, hs, hsp⟩
        obtain ⟨h1, kids1, e1, e2⟩ := ih h kids tc s nc ns hi hc hs (hcn.trans hsn.symm)
          (fun x h1 h2 => hd x (hbc x h1) (hbs x h2)) (hut.kid hc hcp) (hus.kid hs hsp)
          (fun p m hp => by
            have := hh (ns.name :: p) m (Reach.cons S s ns p m hs hsp hp)
            simp only [List.length_cons] at this
            omega)
        simp only [if_neg hlt, e1, Option.bind_eq_bind, Option.bind_some]
        exact finish h1 kids1
          (hi.stepMerge hc hcp hs hsp (hcn.trans hsn.symm) hd hut hus e2)

theorem mergeTree_ok : ∀ (k : Nat) (h : Heap T) (kids : Nat → List Nat) (t S : Nat) (nt nS : Node T),
    Inv h kids → h t = some nt → h S = some nS → nt.name = nS.name → Disj h t S → Uniq h t → Uniq h S →
    Hgt h k S →
    ∃ h' kids', mergeTrees h (.tree t S) = some h' ∧ Merged h h' kids kids' t S (fun _ => True) := by
  have start : ∀ (k : Nat) (h : Heap T) (kids : Nat → List Nat) (t S : Nat) (nt nS : Node T),
      Inv h kids → h t = some nt → h S = some nS → nt.name = nS.name → Uniq h t → Uniq h S →
      ∃ sl tl, LoopInv h t S sl tl ∧ mergeTrees h (.tree t S) = mergeTrees h (.loop t sl tl) ∧
        ∀ e x, (e, x) ∈ sl ↔ Reach h S [e] x := by
    intro k h kids t S nt nS hi ht hS hn hut hus
    obtain ⟨l1, c1, a1, a2, a3, a4⟩ := hi.sortedKids hS hus
    obtain ⟨l2, c2, b1, b2, b3, b4⟩ := hi.sortedKids ht hut
    refine ⟨sortName l1, sortName l2, ⟨a3, b3, fun e x => (a4 e x).1, fun e x => (b4 e x).1, ?_⟩, ?_, a4⟩
    · intro e s x _ hx; exact (b4 e x).2 hx
    · rw [mergeTrees]
      simp only [ht, hS, Option.bind_eq_bind, Option.bind_some]
      rw [if_neg (by rw [hn]; simp)]
      simp only [a1, a2, b1, b2, Option.bind_some]
  intro k
  induction k with
  | zero =>
    intro h kids t S nt nS hi ht hS hn hd hut hus hh
    obtain ⟨sl, tl, _, e, hmem⟩ := start 0 h kids t S nt nS hi ht hS hn hut hus
    have hnil : sl = [] := by
      cases sl with
      | nil => rfl
      | cons z sl =>
        have := hh [z.1] z.2 ((hmem z.1 z.2).1 (by simp))
        simp at this
    subst hnil
    rw [e]
    refine ⟨h, kids, by rw [mergeTrees], hi, SameData.refl _, fun _ _ _ => rfl, fun p m => ?_, fun p m => ?_⟩
    · constructor
      · exact fun h => Or.inl h
      · rintro (h | ⟨⟨e, _, he⟩, hr, _⟩)
        · exact h
        · have := hh p m hr
          cases p with
          | nil => cases he
          | cons _ _ => simp at this
    · constructor
      · intro hr
        refine ⟨hr, fun ⟨e, _, he⟩ => ?_⟩
        have := hh p m hr
        cases p with
        | nil => cases he
        | cons _ _ => simp at this
      · exact fun h => h.1
  | succ k ih =>
    intro h kids t S nt nS hi ht hS hn hd hut hus hh
    obtain ⟨sl, tl, hl, e, hmem⟩ := start k h kids t S nt nS hi ht hS hn hut hus
    rw [e]
    obtain ⟨h', kids', e1, e2⟩ := mergeLoop_ok ih sl h kids t S nt nS tl hi ht hS hd hut hus hh hl
    refine ⟨h', kids', e1, e2.inv, e2.data, e2.frame, fun p m => ?_, fun p m => ?_⟩
    all_goals
      have hkey : Reach h S p m → ((∃ e, (∃ x, (e, x) ∈ sl) ∧ p.head? = some e) ↔ ∃ e, True ∧ p.head? = some e) := by
        intro hr
        constructor
        · rintro ⟨e, _, h1⟩; exact ⟨e, trivial, h1⟩
        · rintro ⟨e, _, h1⟩
          cases p with
          | nil => cases h1
          | cons e' p =>
            simp only [List.head?_cons, Option.some.injEq] at h1
            subst h1
            obtain ⟨c, nc, c1, c2, c3, _⟩ := reach_cons.1 hr
            exact ⟨e', ⟨c, (hmem e' c).2 (reach_single.2 ⟨nc, c1, c2, c3⟩)⟩, rfl⟩
    · rw [e2.rt]
      constructor
      · rintro (h1 | ⟨h1, h2, h3⟩)
        · exact Or.inl h1
        · exact Or.inr ⟨(hkey h2).1 h1, h2, h3⟩
      · rintro (h1 | ⟨h1, h2, h3⟩)
        · exact Or.inl h1
        · exact Or.inr ⟨(hkey h2).2 h1, h2, h3⟩
    · rw [e2.rs]
      constructor
      · rintro ⟨h1, h2⟩; exact ⟨h1, fun hh => h2 ((hkey h1).2 hh)⟩
      · rintro ⟨h1, h2⟩; exact ⟨h1, fun hh => h2 ((hkey h1).1 hh)⟩

/-- `merge_frame_trees(t, S)` on disjoint trees with unique sibling names and the same root name. -/
theorem Inv.mergeTrees {h : Heap T} {kids} (hi : Inv h kids) {t S : Nat} {nt nS} (ht : h t = some nt)
    (hS : h S = some nS) (hn : nt.name = nS.name) (hd : Disj h t S) (hut : Uniq h t) (hus : Uniq h S) :
    ∃ h' kids', mergeTrees h (.tree t S) = some h' ∧ Merged h h' kids kids' t S (fun _ => True) := by
  obtain ⟨k, hk⟩ := hi.hgt S
  exact mergeTree_ok k h kids t S nt nS hi ht hS hn hd hut hus hk

end Verif.Geom.Frames
