import Verif.Geom.Frames.Del

/-
What the traversals return on a heap that represents a forest.
-/

namespace Verif.Geom.Frames

variable {T : Type}

theorem Inv.induct_up {h : Heap T} {kids} (hi : Inv h kids) {P : Nat → Prop}
    (hroot : ∀ n nd, h n = some nd → nd.parent = none → P n)
    (hstep : ∀ n nd p, h n = some nd → nd.parent = some p → P p → P n) : ∀ n, h n ≠ none → P n := by
  obtain ⟨rank, hr⟩ := hi.acyc
  have : ∀ k n, rank n ≤ k → h n ≠ none → P n := by
    intro k
    induction k with
    | zero =>
      intro n hk hn
      cases hx : h n with
      | none => exact absurd hx hn
      | some nd =>
        cases hp : nd.parent with
        | none => exact hroot n nd hx hp
        | some p => have := hr n p ⟨nd, hx, hp⟩; omega
    | succ k ih =>
      intro n hk hn
      cases hx : h n with
      | none => exact absurd hx hn
      | some nd =>
        cases hp : nd.parent with
        | none => exact hroot n nd hx hp
        | some p =>
          have h1 := hr n p ⟨nd, hx, hp⟩
          obtain ⟨np, h2⟩ := (hi.kid_alloc ((hi.par n nd p hx).1 hp)).2
          exact hstep n nd p hx hp (ih p (by omega) (by rw [h2]; simp))
  exact fun n => this (rank n) n (Nat.le_refl _)

theorem Inv.parent_alloc {h : Heap T} {kids} (hi : Inv h kids) {n p : Nat} {nd} (hn : h n = some nd)
    (hp : nd.parent = some p) : ∃ np, h p = some np := (hi.kid_alloc ((hi.par n nd p hn).1 hp)).2

/-- The nodes above `n`, including `n`. -/
theorem Inv.below_step {h : Heap T} {n p : Nat} {nd} (hn : h n = some nd)
    (hp : nd.parent = some p) (x : Nat) : Below h x n ↔ x = n ∨ Below h x p := by
  constructor
  · intro hb
    rcases Relation.ReflTransGen.cases_head hb with e | ⟨c, hc, hb⟩
    · exact Or.inl e.symm
    · have := par_unique hc ⟨nd, hn, hp⟩
      subst this
      exact Or.inr hb
  · rintro (rfl | hb)
    · exact Relation.ReflTransGen.refl
    · exact Relation.ReflTransGen.head ⟨nd, hn, hp⟩ hb

theorem below_root {h : Heap T} {n : Nat} {nd} (hn : h n = some nd) (hp : nd.parent = none) (x : Nat) :
    Below h x n ↔ x = n := by
  constructor
  · intro hb
    rcases Relation.ReflTransGen.cases_head hb with e | ⟨c, ⟨nd', h1, h2⟩, hb⟩
    · exact e.symm
    · rw [hn] at h1; cases h1; rw [hp] at h2; cases h2
  · rintro rfl; exact Relation.ReflTransGen.refl

theorem Inv.below_antisymm {h : Heap T} {kids} (hi : Inv h kids) {a b : Nat} (h1 : Below h a b)
    (h2 : Below h b a) : a = b := by
  obtain ⟨r, hr⟩ := hi.acyc
  have hle : ∀ x y, Below h y x → x ≠ y → r y < r x := by
    intro x y hxy
    induction hxy with
    | refl => intro hh; exact absurd rfl hh
    | @tail b c hb hp ih =>
      intro _
      have := hr _ _ hp
      by_cases e : x = b
      · subst e; exact this
      · have := ih e; omega
  by_contra hne
  have := hle _ _ h1 (fun hh => hne hh.symm)
  have := hle _ _ h2 hne
  omega

/-- The ancestry of an allocated node: it ends with the node, lists exactly the nodes above it, each once. -/
theorem Inv.ancestry_eq {h : Heap T} {kids} (hi : Inv h kids) {n : Nat} {nd} (hn : h n = some nd) :
    ∃ l, ancestry h n = some (l ++ [n]) ∧ (l ++ [n]).Nodup ∧ (∀ x, x ∈ l ++ [n] ↔ Below h x n) ∧
      (nd.parent = none → l = []) ∧ (∀ p, nd.parent = some p → ancestry h p = some l) := by
  have key : ∀ n, h n ≠ none → ∀ nd, h n = some nd →
      ∃ l, ancestry h n = some (l ++ [n]) ∧ (l ++ [n]).Nodup ∧ (∀ x, x ∈ l ++ [n] ↔ Below h x n) ∧
      (nd.parent = none → l = []) ∧ (∀ p, nd.parent = some p → ancestry h p = some l) := by
    refine hi.induct_up ?_ ?_
    · intro n nd hn hp nd' hn'
      rw [hn] at hn'; cases hn'
      refine ⟨[], ?_, by simp, ?_, fun _ => rfl, fun p hh => by rw [hp] at hh; cases hh⟩
      · unfold ancestry
        rw [upward]
        simp only [hn, hp, Option.bind_eq_bind, Option.bind_some]
        rw [upward]; rfl
      · intro x
        rw [below_root hn hp]; simp
    · intro n nd p hn hp ih nd' hn'
      rw [hn] at hn'; cases hn'
      obtain ⟨np, hnp⟩ := hi.parent_alloc hn hp
      obtain ⟨l, e1, e2, e3, _, _⟩ := ih np hnp
      have e1' := e1
      unfold ancestry at e1
      have hup : ∃ u, upward h (some p) = some u ∧ u.reverse = l ++ [p] := by
        cases hu : upward h (some p) with
        | none => rw [hu] at e1; simp at e1
        | some u =>
          rw [hu] at e1
          simp only [Option.bind_eq_bind, Option.bind_some, Option.some.injEq] at e1
          exact ⟨u, rfl, e1⟩
      obtain ⟨u, hu1, hu2⟩ := hup
      refine ⟨l ++ [p], ?_, ?_, ?_, ?_, ?_⟩
      · unfold ancestry
        rw [upward]
        simp only [hn, hp, hu1, Option.bind_eq_bind, Option.bind_some, List.reverse_cons, hu2]
      · rw [List.nodup_append]
        refine ⟨e2, by simp, ?_⟩
        intro a ha b hb
        simp only [List.mem_singleton] at hb
        subst hb
        rintro rfl
        have h1 := (e3 a).1 ha
        exact hi.below_self_kid ((hi.par a nd p hn).1 hp) h1
      · intro x
        rw [Inv.below_step hn hp, ← e3 x]
        rw [List.mem_append (s := l ++ [p]), List.mem_singleton, or_comm]
      · intro hh; rw [hp] at hh; cases hh
      · intro p' hh
        rw [hp] at hh; cases hh
        exact e1'
  exact key n (by rw [hn]; simp) nd hn

/-- The ancestry of a node above `n` is an initial part of the ancestry of `n`. -/
theorem Inv.ancestry_prefix {h : Heap T} {kids} (hi : Inv h kids) {n x : Nat} {nd} (hn : h n = some nd)
    (hx : Below h x n) : ∃ l t, ancestry h x = some l ∧ ancestry h n = some (l ++ t) := by
  have key : ∀ n, h n ≠ none → Below h x n → ∃ l t, ancestry h x = some l ∧ ancestry h n = some (l ++ t) := by
    refine hi.induct_up ?_ ?_
    · intro n nd hn hp hb
      rw [below_root hn hp] at hb
      subst hb
      obtain ⟨l, e, _⟩ := hi.ancestry_eq hn
      exact ⟨l ++ [x], [], e, by rw [e]; simp⟩
    · intro n nd p hn hp ih hb
      obtain ⟨l, e, _, _, _, e5⟩ := hi.ancestry_eq hn
      rcases (Inv.below_step hn hp x).1 hb with rfl | hb
      · exact ⟨l ++ [x], [], e, by rw [e]; simp⟩
      · obtain ⟨l', t, f1, f2⟩ := ih hb
        rw [e5 p hp] at f2; cases f2
        exact ⟨l', t ++ [n], f1, by rw [e]; simp⟩
  exact key n (by rw [hn]; simp) hx

theorem Inv.root_eq {h : Heap T} {kids} (hi : Inv h kids) {n : Nat} {nd} (hn : h n = some nd) :
    ∃ r, root h n = some r ∧ Below h r n ∧ ∃ nr, h r = some nr ∧ nr.parent = none := by
  have key : ∀ n, h n ≠ none → ∃ r, root h n = some r ∧ Below h r n ∧ ∃ nr, h r = some nr ∧ nr.parent = none := by
    refine hi.induct_up ?_ ?_
    · intro n nd hn hp
      refine ⟨n, ?_, Relation.ReflTransGen.refl, nd, hn, hp⟩
      rw [root]
      simp only [hn, hp, Option.bind_eq_bind, Option.bind_some]
    · intro n nd p hn hp ih
      obtain ⟨r, e1, e2, e3⟩ := ih
      refine ⟨r, ?_, (Inv.below_step hn hp r).2 (Or.inr e2), e3⟩
      rw [root]
      simp only [hn, hp, Option.bind_eq_bind, Option.bind_some]
      exact e1
  exact key n (by rw [hn]; simp)

/-- There is only one root above a node. -/
theorem Inv.root_unique {h : Heap T} {kids} (hi : Inv h kids) {n r s : Nat} {nd} (hn : h n = some nd)
    (hr : Below h r n) (hs : Below h s n) {nr ns} (hr1 : h r = some nr) (hr2 : nr.parent = none)
    (hs1 : h s = some ns) (hs2 : ns.parent = none) : r = s := by
  obtain ⟨l, t, e1, e2⟩ := hi.ancestry_prefix hn hr
  obtain ⟨l', t', f1, f2⟩ := hi.ancestry_prefix hn hs
  obtain ⟨lr, a1, _, _, a4, _⟩ := hi.ancestry_eq hr1
  obtain ⟨ls, b1, _, _, b4, _⟩ := hi.ancestry_eq hs1
  rw [a4 hr2] at a1; rw [b4 hs2] at b1
  rw [e1] at a1; cases a1
  rw [f1] at b1; cases b1
  rw [e2] at f2
  simp at f2
  exact f2.1

theorem Inv.isAncestorOf_eq {h : Heap T} {kids} (hi : Inv h kids) {s n : Nat} {nd} (hn : h n = some nd) :
    ∃ b, isAncestorOf h s (some n) = some b ∧ (b = true ↔ s ≠ n ∧ Below h s n) := by
  have key : ∀ n, h n ≠ none → ∃ b, isAncestorOf h s (some n) = some b ∧ (b = true ↔ s ≠ n ∧ Below h s n) := by
    refine hi.induct_up ?_ ?_
    · intro n nd hn hp
      refine ⟨false, ?_, ?_⟩
      · rw [isAncestorOf]
        simp only [hn, hp, Option.bind_eq_bind, Option.bind_some]
        rw [if_neg (by simp), isAncestorOf]
      · rw [below_root hn hp]
        constructor
        · intro hh; cases hh
        · rintro ⟨h1, h2⟩; exact absurd h2 h1
    · intro n nd p hn hp ih
      obtain ⟨b, e1, e2⟩ := ih
      rw [isAncestorOf]
      simp only [hn, hp, Option.bind_eq_bind, Option.bind_some]
      have hnp : p ≠ n := by
        rintro rfl; exact hi.irrefl ((hi.par p nd p hn).1 hp)
      by_cases hps : p = s
      · subst hps
        rw [if_pos rfl]
        exact ⟨true, rfl, fun _ => ⟨hnp, Relation.ReflTransGen.single ⟨nd, hn, hp⟩⟩, fun _ => rfl⟩
      · rw [if_neg (by simpa using hps)]
        refine ⟨b, e1, ?_⟩
        rw [e2, Inv.below_step hn hp]
        constructor
        · rintro ⟨h1, h2⟩
          refine ⟨?_, Or.inr h2⟩
          rintro rfl
          exact hi.below_self_kid ((hi.par s nd p hn).1 hp) h2
        · rintro ⟨h1, h2 | h2⟩
          · exact absurd h2 h1
          · exact ⟨fun hh => hps hh.symm, h2⟩
  exact key n (by rw [hn]; simp)

/-! ### The binary search for the last common ancestor -/

theorem lcaLoop_spec (a1 a2 : List Nat) (M : Nat) (hdown : ∀ i j, i ≤ j → j < M → a1[j]? = a2[j]? →
    a1[i]? = a2[i]?) : ∀ (len base : Nat), base + len ≤ M → (∀ i, i < base → a1[i]? = a2[i]?) →
    (base + len = M ∨ a1[base + len]? ≠ a2[base + len]?) →
    lcaLoop a1 a2 base len ≤ M ∧ (∀ i, i < lcaLoop a1 a2 base len → a1[i]? = a2[i]?) ∧
      (lcaLoop a1 a2 base len = M ∨ a1[lcaLoop a1 a2 base len]? ≠ a2[lcaLoop a1 a2 base len]?) := by
  intro len
  induction len using Nat.strongRecOn with
  | _ len ih =>
    intro base hle hlo hhi
    rw [lcaLoop]
    by_cases hlen : 0 < len
    · rw [dif_pos hlen]
      dsimp only
      by_cases heq : a1[base + len / 2]? = a2[base + len / 2]?
      · rw [if_pos heq]
        refine ih (len - len / 2 - 1) (by omega) (base + len / 2 + 1) (by omega) ?_ ?_
        · intro i hi
          exact hdown i (base + len / 2) (by omega) (by omega) heq
        · have : base + len / 2 + 1 + (len - len / 2 - 1) = base + len := by omega
          rw [this]; exact hhi
      · rw [if_neg heq]
        exact ih (len / 2) (by omega) base (by omega) hlo (Or.inr heq)
    · rw [dif_neg hlen]
      have : len = 0 := by omega
      subst this
      exact ⟨hle, hlo, hhi⟩

theorem Inv.lca_agree {h : Heap T} {kids} (hi : Inv h kids) {a b : Nat} {na nb} (ha : h a = some na)
    (hb : h b = some nb) {la lb} (ea : ancestry h a = some la) (eb : ancestry h b = some lb) {i j x : Nat}
    (h1 : la[i]? = some x) (h2 : lb[j]? = some x) : i = j ∧ la.take (i + 1) = lb.take (i + 1) ∧
      ancestry h x = some (la.take (i + 1)) := by
  have hxa : Below h x a := by
    obtain ⟨l, e1, _, e3, _⟩ := hi.ancestry_eq ha
    rw [ea] at e1; cases e1
    exact (e3 x).1 (List.mem_of_getElem? h1)
  have hxb : Below h x b := by
    obtain ⟨l, e1, _, e3, _⟩ := hi.ancestry_eq hb
    rw [eb] at e1; cases e1
    exact (e3 x).1 (List.mem_of_getElem? h2)
  have hx : ∃ nx, h x = some nx := by
    by_cases e : a = x
    · subst e; exact ⟨na, ha⟩
    · exact (hi.below_alloc hxa e).1
  obtain ⟨nx, hx⟩ := hx
  obtain ⟨lx, x1, x2, _⟩ := hi.ancestry_eq hx
  obtain ⟨l, t, p1, p2⟩ := hi.ancestry_prefix ha hxa
  obtain ⟨l', t', q1, q2⟩ := hi.ancestry_prefix hb hxb
  rw [x1] at p1 q1
  cases p1; cases q1
  rw [ea] at p2; rw [eb] at q2
  cases p2; cases q2
  -- the position of `x` is the end of its own ancestry
  have hpos : ∀ (n : Nat) (nn : Node T) (t : List Nat) (k : Nat), h n = some nn →
      ancestry h n = some (lx ++ [x] ++ t) → (lx ++ [x] ++ t)[k]? = some x → k = lx.length := by
    intro n nn t k hn hanc hk
    obtain ⟨l, e1, e2, _⟩ := hi.ancestry_eq hn
    rw [hanc] at e1
    have e1' : lx ++ [x] ++ t = l ++ [n] := Option.some.inj e1
    rw [← e1'] at e2
    have hlen : lx.length < (lx ++ [x] ++ t).length := by simp
    have hk2 := List.getElem?_eq_some_iff.1 hk
    obtain ⟨hkl, hkx⟩ := hk2
    have hy : (lx ++ [x] ++ t)[lx.length]'hlen = x := by simp
    exact (List.getElem_inj e2).1 (hkx.trans hy.symm)
  have hi1 := hpos a na t i ha ea h1
  have hj1 := hpos b nb t' j hb eb h2
  subst hi1
  subst hj1
  refine ⟨rfl, ?_, ?_⟩
  · have : lx.length + 1 = (lx ++ [x]).length := by simp
    rw [this, List.take_left, List.take_left]
  · have : lx.length + 1 = (lx ++ [x]).length := by simp
    rw [this, List.take_left, x1]

/-- `last_common_ancestor`: the deepest node above both, NULL if there is none. -/
theorem Inv.lca_eq {h : Heap T} {kids} (hi : Inv h kids) {a b : Nat} {na nb} (ha : h a = some na)
    (hb : h b = some nb) :
    (∃ c, lca h a b = some (some c) ∧ Below h c a ∧ Below h c b ∧
      ∀ x, Below h x a → Below h x b → Below h x c) ∨
    (lca h a b = some none ∧ ∀ x, Below h x a → ¬ Below h x b) := by
  obtain ⟨la, a1, a2, a3, _⟩ := hi.ancestry_eq ha
  obtain ⟨lb, b1, b2, b3, _⟩ := hi.ancestry_eq hb
  generalize hA : la ++ [a] = A at *
  generalize hB : lb ++ [b] = B at *
  have hdown : ∀ i j, i ≤ j → j < min B.length A.length → B[j]? = A[j]? → B[i]? = A[i]? := by
    intro i j hij hj heq
    have hjb : j < B.length := by omega
    have e1 : B[j]? = some B[j] := List.getElem?_eq_getElem hjb
    have e2 : A[j]? = some B[j] := heq ▸ e1
    obtain ⟨_, e3, _⟩ := hi.lca_agree hb ha b1 a1 e1 e2
    have t1 : (B.take (j + 1))[i]? = B[i]? := by rw [List.getElem?_take, if_pos (by omega)]
    have t2 : (A.take (j + 1))[i]? = A[i]? := by rw [List.getElem?_take, if_pos (by omega)]
    rw [← t1, ← t2, e3]
  obtain ⟨s1, s2, s3⟩ := lcaLoop_spec B A _ hdown (min B.length A.length) 0 (by omega) (by intro i hi; omega)
    (Or.inl (by omega))
  generalize hr : lcaLoop B A 0 (min B.length A.length) = r at *
  have hcommon : ∀ x, Below h x a → Below h x b → ∃ i, i < r ∧ A[i]? = some x := by
    intro x hxa hxb
    obtain ⟨i, hi1, hi2⟩ := List.mem_iff_getElem.1 ((a3 x).2 hxa)
    obtain ⟨j, hj1, hj2⟩ := List.mem_iff_getElem.1 ((b3 x).2 hxb)
    have e1 : A[i]? = some x := by rw [List.getElem?_eq_getElem hi1, hi2]
    have e2 : B[j]? = some x := by rw [List.getElem?_eq_getElem hj1, hj2]
    obtain ⟨e3, _⟩ := hi.lca_agree ha hb a1 b1 e1 e2
    subst e3
    refine ⟨i, ?_, e1⟩
    by_contra hlt
    rcases s3 with s3 | s3
    · omega
    · exact s3 (hdown r i (by omega) (by omega) (by rw [e1, e2]))
  by_cases hr0 : r = 0
  · right
    constructor
    · unfold lca lcaIndex
      simp only [a1, b1, Option.bind_eq_bind, Option.bind_some, hr, hr0]
      rfl
    · intro x hxa hxb
      obtain ⟨i, hi1, _⟩ := hcommon x hxa hxb
      omega
  · left
    have hrA : r - 1 < A.length := by omega
    have hrB : r - 1 < B.length := by omega
    have e1 : A[r - 1]? = some A[r - 1] := List.getElem?_eq_getElem hrA
    have e2 : B[r - 1]? = some A[r - 1] := (s2 (r - 1) (by omega)).trans e1
    refine ⟨A[r - 1], ?_, (a3 _).1 (List.mem_of_getElem? e1), (b3 _).1 (List.mem_of_getElem? e2), ?_⟩
    · unfold lca lcaIndex
      simp only [a1, b1, Option.bind_eq_bind, Option.bind_some, hr]
      rw [if_pos (by omega)]
      have : ((r : Int) - 1).toNat = r - 1 := by omega
      rw [this, e1]
    · intro x hxa hxb
      obtain ⟨i, hi1, hi2⟩ := hcommon x hxa hxb
      obtain ⟨_, _, e3⟩ := hi.lca_agree ha hb a1 b1 e1 e2
      have hc : ∃ nc, h A[r - 1] = some nc := by
        have hbel := (a3 _).1 (List.mem_of_getElem? e1)
        by_cases e : a = A[r - 1]
        · exact ⟨na, e ▸ ha⟩
        · exact (hi.below_alloc hbel e).1
      obtain ⟨nc, hc⟩ := hc
      obtain ⟨lc, c1, _, c3, _⟩ := hi.ancestry_eq hc
      refine (c3 x).1 ?_
      rw [e3] at c1
      rw [← Option.some.inj c1]
      have : (A.take (r - 1 + 1))[i]? = some x := by
        rw [List.getElem?_take, if_pos (by omega), hi2]
      exact List.mem_of_getElem? this

end Verif.Geom.Frames
