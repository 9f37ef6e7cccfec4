import Verif.Geom.Frames.Walk

/-
Paths of names in a forest.
-/

namespace Verif.Geom.Frames

variable {T : Type}

/-- `m` is reached from `n` by descending along children with the given names. -/
inductive Reach (h : Heap T) : Nat → List Str → Nat → Prop
  | nil (n : Nat) : Reach h n [] n
  | cons (n c : Nat) (nc : Node T) (p : List Str) (m : Nat) : h c = some nc → nc.parent = some n →
      Reach h c p m → Reach h n (nc.name :: p) m

theorem Reach.isBelow {h : Heap T} {n m : Nat} {p : List Str} (hr : Reach h n p m) : Below h n m := by
  induction hr with
  | nil n => exact Relation.ReflTransGen.refl
  | cons n c nc p m h1 h2 _ ih => exact Relation.ReflTransGen.tail ih ⟨nc, h1, h2⟩

theorem Reach.append {h : Heap T} {n m k : Nat} {p q : List Str} (h1 : Reach h n p m) (h2 : Reach h m q k) :
    Reach h n (p ++ q) k := by
  induction h1 with
  | nil n => exact h2
  | cons n c nc p m a b _ ih => exact Reach.cons n c nc _ k a b (ih h2)

theorem below_reach {h : Heap T} {n m : Nat} (hb : Below h n m) : ∃ p, Reach h n p m := by
  induction hb using Relation.ReflTransGen.head_induction_on with
  | refl => exact ⟨[], Reach.nil n⟩
  | head hp _ ih =>
    obtain ⟨p, ih⟩ := ih
    obtain ⟨nd, h1, h2⟩ := hp
    exact ⟨p ++ [nd.name], ih.append (Reach.cons _ _ nd [] _ h1 h2 (Reach.nil _))⟩

theorem reach_nil {h : Heap T} {n m : Nat} : Reach h n [] m ↔ m = n :=
  ⟨fun hr => by cases hr; rfl, fun e => by rw [e]; exact Reach.nil n⟩

theorem reach_cons {h : Heap T} {n m : Nat} {e : Str} {p : List Str} :
    Reach h n (e :: p) m ↔ ∃ c nc, h c = some nc ∧ nc.parent = some n ∧ nc.name = e ∧ Reach h c p m := by
  constructor
  · intro hr
    cases hr with
    | cons n c nc p m h1 h2 h3 => exact ⟨c, nc, h1, h2, rfl, h3⟩
  · rintro ⟨c, nc, h1, h2, rfl, h3⟩
    exact Reach.cons n c nc p m h1 h2 h3

theorem reach_single {h : Heap T} {n c : Nat} {e : Str} :
    Reach h n [e] c ↔ ∃ nc, h c = some nc ∧ nc.parent = some n ∧ nc.name = e := by
  rw [reach_cons]
  constructor
  · rintro ⟨c', nc, h1, h2, h3, h4⟩
    rw [reach_nil] at h4
    subst h4
    exact ⟨nc, h1, h2, h3⟩
  · rintro ⟨nc, h1, h2, h3⟩
    exact ⟨c, nc, h1, h2, h3, Reach.nil c⟩

/-- The names along the way from `n` to a node below it are determined. -/
theorem Inv.reach_path {h : Heap T} {kids} (hi : Inv h kids) {n m : Nat} {p q : List Str} (h1 : Reach h n p m) :
    Reach h n q m → p = q := by
  induction h1 generalizing q with
  | nil n =>
    intro h2
    cases h2 with
    | nil => rfl
    | cons _ c nc p _ a b c' => exact absurd c'.isBelow (hi.below_self_kid ((hi.par c nc n a).1 b))
  | cons n c nc p m a b hr ih =>
    intro h2
    cases h2 with
    | nil => exact absurd hr.isBelow (hi.below_self_kid ((hi.par c nc _ a).1 b))
    | cons _ c' nc' p' _ a' b' hr' =>
      -- `c` and `c'` are both above `m`, and both children of `n`
      have hm : ∃ nm, h m = some nm := by
        by_cases e : m = c
        · subst e; exact ⟨nc, a⟩
        · exact (hi.below_alloc hr.isBelow e).2
      obtain ⟨nm, hm⟩ := hm
      have hcc : c = c' := by
        obtain ⟨l, t, e1, e2⟩ := hi.ancestry_prefix hm hr.isBelow
        obtain ⟨l', t', f1, f2⟩ := hi.ancestry_prefix hm hr'.isBelow
        obtain ⟨lc, g1, _, _, _, g5⟩ := hi.ancestry_eq a
        obtain ⟨lc', k1, _, _, _, k5⟩ := hi.ancestry_eq a'
        have := (g5 n b).symm.trans (k5 n b')
        cases this
        rw [e1] at g1; cases g1
        rw [f1] at k1; cases k1
        rw [e2] at f2
        simp at f2
        exact f2.1
      subst hcc
      rw [a] at a'; cases a'
      rw [ih hr']

/-- A node has at most one descendant at each path of names. -/
def Uniq (h : Heap T) (n : Nat) : Prop := ∀ p a b, Reach h n p a → Reach h n p b → a = b

theorem Uniq.kid {h : Heap T} {n c : Nat} {nc} (hu : Uniq h n) (hc : h c = some nc) (hp : nc.parent = some n) :
    Uniq h c :=
  fun p a b h1 h2 => hu (nc.name :: p) a b (Reach.cons n c nc p a hc hp h1) (Reach.cons n c nc p b hc hp h2)

theorem Uniq.below {h : Heap T} {n m : Nat} (hu : Uniq h n) (hb : Below h n m) : Uniq h m := by
  obtain ⟨q, hq⟩ := below_reach hb
  exact fun p a b h1 h2 => hu (q ++ p) a b (hq.append h1) (hq.append h2)

/-- It is enough that siblings have different names. -/
theorem uniq_of_sibs {h : Heap T} {n : Nat}
    (hs : ∀ q a b na nb, Below h n q → h a = some na → h b = some nb → na.parent = some q →
      nb.parent = some q → na.name = nb.name → a = b) : Uniq h n := by
  intro p
  induction p generalizing n with
  | nil =>
    intro a b h1 h2
    rw [reach_nil] at h1 h2
    rw [h1, h2]
  | cons e p ih =>
    intro a b h1 h2
    obtain ⟨c, nc, c1, c2, c3, c4⟩ := reach_cons.1 h1
    obtain ⟨d, nd, d1, d2, d3, d4⟩ := reach_cons.1 h2
    have := hs n c d nc nd Relation.ReflTransGen.refl c1 d1 c2 d2 (c3.trans d3.symm)
    subst this
    refine ih ?_ a b c4 d4
    intro q a b na nb hq
    exact hs q a b na nb (Relation.ReflTransGen.tail hq ⟨nc, c1, c2⟩)

/-- The descendants of `y` are the same in two heaps that agree on the children of the nodes below `y`. -/
theorem reach_frame {h h' : Heap T} {kids kids'} (hi : Inv h kids) (hi' : Inv h' kids') (hd : SameData h h')
    {y : Nat} (hk : ∀ q, Below h y q → kids' q = kids q) (p : List Str) (m : Nat) :
    Reach h' y p m ↔ Reach h y p m := by
  induction p generalizing y with
  | nil => rw [reach_nil, reach_nil]
  | cons e p ih =>
    rw [reach_cons, reach_cons]
    constructor
    · rintro ⟨c, nc, c1, c2, c3, c4⟩
      have hc := (hi'.par c nc y c1).1 c2
      rw [hk y Relation.ReflTransGen.refl] at hc
      obtain ⟨⟨nc0, d1, d2⟩, _⟩ := hi.kid_alloc hc
      obtain ⟨nc1, e1, e2, _⟩ := hd.some d1
      rw [c1] at e1; cases e1
      refine ⟨c, nc0, d1, d2, e2.symm.trans c3, ?_⟩
      exact (ih (fun q hq => hk q (Relation.ReflTransGen.tail hq ⟨nc0, d1, d2⟩))).1 c4
    · rintro ⟨c, nc, c1, c2, c3, c4⟩
      have hc := (hi.par c nc y c1).1 c2
      rw [← hk y Relation.ReflTransGen.refl] at hc
      obtain ⟨⟨nc0, d1, d2⟩, _⟩ := hi'.kid_alloc hc
      obtain ⟨nc1, e1, e2, _⟩ := hd.some c1
      rw [d1] at e1; cases e1
      refine ⟨c, nc0, d1, d2, e2.trans c3, ?_⟩
      exact (ih (fun q hq => hk q (Relation.ReflTransGen.tail hq ⟨nc, c1, c2⟩))).2 c4

/-- The paths below `n` are bounded in length. -/
def Hgt (h : Heap T) (k n : Nat) : Prop := ∀ p m, Reach h n p m → p.length ≤ k

theorem Inv.hgt {h : Heap T} {kids} (hi : Inv h kids) (n : Nat) : ∃ k, Hgt h k n := by
  obtain ⟨rank, hr⟩ := hi.acyc
  obtain ⟨R, hR⟩ := bounded_rank hi.fin rank
  have key : ∀ n p m, Reach h n p m → rank n + p.length ≤ rank m := by
    intro n p m hp
    induction hp with
    | nil n => simp
    | cons n c nc p m a b _ ih =>
      have := hr c n ⟨nc, a, b⟩
      simp only [List.length_cons]
      omega
  refine ⟨R + rank n, fun p m hp => ?_⟩
  cases hp with
  | nil => simp
  | cons _ c nc p m a b hr' =>
    have h1 := key n _ m (Reach.cons n c nc p m a b hr')
    have hm : h m ≠ none := by
      by_cases e : m = c
      · subst e; rw [a]; simp
      · obtain ⟨nm, hm⟩ := (hi.below_alloc hr'.isBelow e).2
        rw [hm]; simp
    have := hR m hm
    omega

end Verif.Geom.Frames
