import Verif.Graph.Model
import Verif.Graph.Eqv
import Mathlib.Data.Finset.Card
import Mathlib.Data.Finset.Range
import Mathlib.Data.Nat.Log
import Mathlib.Algebra.Group.Nat.Even
import Mathlib.Data.Finset.Filter
/-
C29: the disjoint set structure implements the equivalence generated by the combines and insertions.
-/
namespace VW.Graph

variable {V : Type}

/-! ### Specification -/

/-- The pairs of nodes a history put in one set: by a successful `combine(x, y)`, or because `insert(e, x)`
returned `y`. -/
def joined (h : List (Call V × Resp)) : List (Nat × Nat) :=
  h.filterMap fun e => match e with
    | (.combine (some x) (some y), .ptr _) => some (x, y)
    | (.insertIn _ (some x), .ptr (some y)) => some (x, y)
    | _ => none

/-- The nodes returned by insertions. -/
def inserted (h : List (Call V × Resp)) : List Nat :=
  h.filterMap fun e => match e with
    | (.insert _, .ptr (some y)) => some y
    | (.insertIn _ _, .ptr (some y)) => some y
    | _ => none

/-! ### Invariant -/

@[simp] theorem upd_self {β : Type} (f : Nat → β) (k : Nat) (v : β) : upd f k v k = v := by simp [upd]
theorem upd_ne {β : Type} (f : Nat → β) {k x : Nat} (v : β) (h : x ≠ k) : upd f k v x = f x := by simp [upd, h]

/-- `rep` gives the root of every node, `lf` marks the nodes made by `insert(e, s)`. -/
structure Inv (n : Nat) (par : Nat → Option Nat) (rank : Nat → Nat) (rep : Nat → Nat) (lf : Nat → Prop) : Prop where
  rep_lt : ∀ x, x < n → rep x < n
  rep_root : ∀ x, x < n → par (rep x) = none
  root_rep : ∀ x, x < n → par x = none → rep x = x
  edge : ∀ x p, x < n → par x = some p → p < n ∧ rep p = rep x ∧ ¬ lf p ∧ (lf x ∨ rank x < rank p)
  below : ∀ x, x < n → par x ≠ none → lf x ∨ rank x < rank (rep x)
  size : ∀ r, r < n → par r = none → 2 ^ rank r ≤ ((Finset.range n).filter (fun x => rep x = r)).card
  leaf : ∀ x, x < n → lf x → par x ≠ none

/-- Height above the leaves: strictly increases along parent pointers. -/
noncomputable def ht (rank : Nat → Nat) (lf : Nat → Prop) (x : Nat) : Nat := by
  classical exact if lf x then 0 else rank x + 1

section
variable {n : Nat} {par : Nat → Option Nat} {rank : Nat → Nat} {rep : Nat → Nat} {lf : Nat → Prop}

theorem Inv.ht_lt (I : Inv n par rank rep lf) {x p : Nat} (hx : x < n) (hp : par x = some p) :
    ht rank lf x < ht rank lf p := by
  have ⟨_, _, h3, h4⟩ := I.edge x p hx hp
  unfold ht
  rw [if_neg h3]
  split <;> rcases h4 with h | h <;> first | omega | contradiction

theorem Inv.rep_not_leaf (I : Inv n par rank rep lf) {x : Nat} (hx : x < n) : ¬ lf (rep x) := fun h =>
  I.leaf _ (I.rep_lt x hx) h (I.rep_root x hx)

theorem Inv.ht_rep (I : Inv n par rank rep lf) {x : Nat} (hx : x < n) :
    ht rank lf x ≤ ht rank lf (rep x) := by
  by_cases hp : par x = none
  · rw [I.root_rep x hx hp]
  · have := I.below x hx hp
    unfold ht
    rw [if_neg (I.rep_not_leaf hx)]
    split <;> rcases this with h | h <;> first | omega | contradiction

theorem Inv.rank_root_le (I : Inv n par rank rep lf) {r : Nat} (hr : r < n) (hp : par r = none) :
    2 ^ rank r ≤ n := by
  have h1 := I.size r hr hp
  have h2 := Finset.card_filter_le (Finset.range n) (fun x => rep x = r)
  rw [Finset.card_range] at h2
  omega

theorem Inv.ht_le_log (I : Inv n par rank rep lf) {x : Nat} (hx : x < n) :
    ht rank lf (rep x) ≤ Nat.log 2 n + 1 := by
  have := I.rank_root_le (I.rep_lt x hx) (I.rep_root x hx)
  have := Nat.le_log_of_pow_le (by omega) this
  unfold ht
  split <;> omega

theorem Inv.ht_le (I : Inv n par rank rep lf) {x : Nat} (hx : x < n) : ht rank lf (rep x) ≤ n := by
  have := I.rank_root_le (I.rep_lt x hx) (I.rep_root x hx)
  have := Nat.lt_two_pow_self (n := rank (rep x))
  unfold ht
  split <;> omega

theorem Inv.rootLoop (I : Inv n par rank rep lf) : ∀ k x, x < n → ht rank lf (rep x) < ht rank lf x + k →
    rootLoop par k x = some (rep x) := by
  intro k
  induction k with
  | zero => intro x hx h; have := I.ht_rep hx; omega
  | succ k ih =>
    intro x hx h
    unfold VW.Graph.rootLoop
    cases hp : par x with
    | none => simp only; rw [I.root_rep x hx hp]
    | some p =>
      have ⟨e1, e2, _, _⟩ := I.edge x p hx hp
      have := I.ht_lt hx hp
      simp only
      rw [ih p e1 (by rw [e2]; omega), e2]

/-- Redirecting a non-root to its root keeps everything. -/
theorem Inv.redirect (I : Inv n par rank rep lf) {x : Nat} (hx : x < n) (hp : par x ≠ none) :
    Inv n (upd par x (some (rep x))) rank rep lf := by
  have hne : ∀ y, y < n → rep y ≠ x := fun y hy e => hp (e ▸ I.rep_root y hy)
  refine ⟨I.rep_lt, ?_, ?_, ?_, ?_, ?_, ?_⟩
  · intro y hy; rw [upd_ne _ _ (hne y hy)]; exact I.rep_root y hy
  · intro y hy h
    by_cases e : y = x
    · subst e; simp at h
    · rw [upd_ne _ _ e] at h; exact I.root_rep y hy h
  · intro y p hy h
    by_cases e : y = x
    · subst e
      simp at h
      subst h
      exact ⟨I.rep_lt y hy, I.root_rep _ (I.rep_lt y hy) (I.rep_root y hy), I.rep_not_leaf hy, I.below y hy hp⟩
    · rw [upd_ne _ _ e] at h; exact I.edge y p hy h
  · intro y hy h
    by_cases e : y = x
    · subst e; exact I.below y hy hp
    · rw [upd_ne _ _ e] at h; exact I.below y hy h
  · intro r hr h
    by_cases e : r = x
    · subst e; simp at h
    · rw [upd_ne _ _ e] at h; exact I.size r hr h
  · intro y hy h
    by_cases e : y = x
    · subst e; simp
    · rw [upd_ne _ _ e]; exact I.leaf y hy h

theorem Inv.compressLoop : ∀ k (par : Nat → Option Nat) x p, Inv n par rank rep lf → x < n →
    (p = par x ∨ p = some x) → ht rank lf (rep x) < ht rank lf x + k →
    ∃ par', compressLoop (rep x) k par x p = some par' ∧ Inv n par' rank rep lf ∧
      (∀ y, par y = some (rep x) → par' y = some (rep x)) ∧
      (∀ y, par y = none → par' y = none) ∧
      (x ≠ rep x → par' x = some (rep x)) := by
  intro k
  induction k with
  | zero => intro par x p I hx _ h; have := I.ht_rep hx; omega
  | succ k ih =>
    intro par x p I hx hpx h
    unfold VW.Graph.compressLoop
    cases p with
    | none =>
      refine ⟨par, rfl, I, fun y hy => hy, fun y hy => hy, fun hne => ?_⟩
      rcases hpx with e | e
      · exact absurd (I.root_rep x hx e.symm).symm hne
      · cases e
    | some q =>
      simp only
      by_cases hq : q = rep x
      · rw [if_pos hq]
        refine ⟨par, rfl, I, fun y hy => hy, fun y hy => hy, fun hne => ?_⟩
        rcases hpx with e | e
        · rw [← e, hq]
        · cases e; exact absurd hq hne
      · rw [if_neg hq]
        have hnr : par x ≠ none := by
          rcases hpx with e | e
          · rw [← e]; simp
          · cases e; intro e; exact hq (I.root_rep x hx e).symm
        cases hp : par x with
        | none => exact absurd hp hnr
        | some r =>
          simp only
          have ⟨e1, e2, _, _⟩ := I.edge x r hx hp
          have l := I.ht_lt hx hp
          have I' := I.redirect hx hnr
          obtain ⟨par', c, I2, k1, k2, _⟩ := ih (upd par x (some (rep x))) r (some r) I' e1 (Or.inr rfl) (by rw [e2]; omega)
          rw [e2] at c k1
          refine ⟨par', c, I2, fun y hy => ?_, fun y hy => ?_, fun _ => ?_⟩
          · by_cases e : y = x
            · subst e; exact k1 y (by simp)
            · exact k1 y (by rw [upd_ne _ _ e]; exact hy)
          · have e : y ≠ x := fun e => hnr (e ▸ hy)
            exact k2 y (by rw [upd_ne _ _ e]; exact hy)
          · exact k1 x (by simp)

end

def DSet.Ok (d : DSet V) (rep : Nat → Nat) (lf : Nat → Prop) : Prop := Inv d.n d.parent d.rank rep lf

/-- `find` on a live node: returns its root, keeps the representation, and leaves the node pointing at the
root. -/
theorem DSet.Ok.find {d : DSet V} {rep : Nat → Nat} {lf : Nat → Prop} (I : d.Ok rep lf) {x : Nat}
    (hx : x < d.n) : ∃ d', d.find x = some (d', rep x) ∧ d'.Ok rep lf ∧ d'.n = d.n ∧ d'.val = d.val ∧
      d'.rank = d.rank ∧ (∀ y, d.parent y = none → d'.parent y = none) ∧
      (x ≠ rep x → d'.parent x = some (rep x)) := by
  have h := Inv.ht_le I hx
  have r := Inv.rootLoop I (d.n + 1) x hx (by omega)
  obtain ⟨par', c, I', _, k2, k3⟩ := Inv.compressLoop (d.n + 1) d.parent x (d.parent x) I hx (Or.inl rfl) (by omega)
  refine ⟨{ d with parent := par' }, ?_, I', rfl, rfl, rfl, k2, k3⟩
  simp [DSet.find, r, c]

theorem DSet.Ok.insert {d : DSet V} {rep : Nat → Nat} {lf : Nat → Prop} (I : d.Ok rep lf) (v : V) :
    (d.insert v).Ok (upd rep d.n d.n) (fun x => x < d.n ∧ lf x) := by
  have hn : ∀ x, x < d.n → x ≠ d.n := fun x h => by omega
  refine ⟨?_, ?_, ?_, ?_, ?_, ?_, ?_⟩ <;> dsimp only [DSet.insert]
  · intro x hx
    by_cases e : x = d.n
    · subst e; simp
    · rw [upd_ne _ _ e]; have := I.rep_lt x (by omega); omega
  · intro x hx
    by_cases e : x = d.n
    · subst e; simp
    · rw [upd_ne _ _ e, upd_ne _ _ (hn _ (I.rep_lt x (by omega)))]; exact I.rep_root x (by omega)
  · intro x hx h
    by_cases e : x = d.n
    · subst e; simp
    · rw [upd_ne _ _ e] at h ⊢; exact I.root_rep x (by omega) h
  · intro x p hx h
    by_cases e : x = d.n
    · subst e; simp at h
    · rw [upd_ne _ _ e] at h
      have ⟨a, b, c, f⟩ := I.edge x p (by omega) h
      rw [upd_ne _ _ (hn _ a), upd_ne _ _ e, upd_ne _ _ e, upd_ne _ _ (hn _ a)]
      exact ⟨by omega, b, fun q => c q.2, f.imp (fun q => ⟨by omega, q⟩) id⟩
  · intro x hx h
    by_cases e : x = d.n
    · subst e; simp at h
    · rw [upd_ne _ _ e] at h ⊢
      rw [upd_ne _ _ e, upd_ne _ _ (hn _ (I.rep_lt x (by omega)))]
      exact (I.below x (by omega) h).imp (fun q => ⟨by omega, q⟩) id
  · intro r hr h
    by_cases e : r = d.n
    · subst e
      simp
      exact ⟨d.n, by simp⟩
    · rw [upd_ne _ _ e] at h ⊢
      refine (I.size r (by omega) h).trans (Finset.card_le_card ?_)
      intro x hx
      simp only [Finset.mem_filter, Finset.mem_range] at hx ⊢
      exact ⟨by omega, by rw [upd_ne _ _ (hn x hx.1)]; exact hx.2⟩
  · intro x hx h
    rw [upd_ne _ _ (hn x h.1)]
    exact I.leaf x h.1 h.2

theorem DSet.Ok.insertIn {d : DSet V} {rep : Nat → Nat} {lf : Nat → Prop} (I : d.Ok rep lf) (v : V) {s : Nat}
    (hs : s < d.n) (hr : d.parent s = none) :
    (d.insertIn v s).Ok (upd rep d.n s) (fun x => x = d.n ∨ (x < d.n ∧ lf x)) := by
  have hn : ∀ x, x < d.n → x ≠ d.n := fun x h => by omega
  have hrs := I.root_rep s hs hr
  have hls : ¬ lf s := fun h => I.leaf s hs h hr
  refine ⟨?_, ?_, ?_, ?_, ?_, ?_, ?_⟩ <;> dsimp only [DSet.insertIn]
  · intro x hx
    by_cases e : x = d.n
    · subst e; simp; omega
    · rw [upd_ne _ _ e]; have := I.rep_lt x (by omega); omega
  · intro x hx
    by_cases e : x = d.n
    · subst e; simp; rw [upd_ne _ _ (hn s hs)]; exact hr
    · rw [upd_ne _ _ e, upd_ne _ _ (hn _ (I.rep_lt x (by omega)))]; exact I.rep_root x (by omega)
  · intro x hx h
    by_cases e : x = d.n
    · subst e; simp at h
    · rw [upd_ne _ _ e] at h ⊢; exact I.root_rep x (by omega) h
  · intro x p hx h
    by_cases e : x = d.n
    · subst e; simp at h; subst h
      rw [upd_ne _ _ (hn _ hs)]
      simp only [upd_self]
      exact ⟨by omega, hrs, fun q => q.elim (by omega) (fun q => hls q.2), Or.inl (by simp)⟩
    · rw [upd_ne _ _ e] at h
      have ⟨a, b, c, f⟩ := I.edge x p (by omega) h
      rw [upd_ne _ _ (hn _ a), upd_ne _ _ e, upd_ne _ _ e, upd_ne _ _ (hn _ a)]
      exact ⟨by omega, b, fun q => q.elim (by omega) (fun q => c q.2), f.imp (fun q => Or.inr ⟨by omega, q⟩) id⟩
  · intro x hx h
    by_cases e : x = d.n
    · exact Or.inl (Or.inl e)
    · rw [upd_ne _ _ e] at h ⊢
      rw [upd_ne _ _ e, upd_ne _ _ (hn _ (I.rep_lt x (by omega)))]
      exact (I.below x (by omega) h).imp (fun q => Or.inr ⟨by omega, q⟩) id
  · intro r hr h
    by_cases e : r = d.n
    · subst e; simp at h
    · rw [upd_ne _ _ e] at h ⊢
      refine (I.size r (by omega) h).trans (Finset.card_le_card ?_)
      intro x hx
      simp only [Finset.mem_filter, Finset.mem_range] at hx ⊢
      exact ⟨by omega, by rw [upd_ne _ _ (hn x hx.1)]; exact hx.2⟩
  · intro x hx h
    rcases h with rfl | h
    · simp
    · rw [upd_ne _ _ (hn x h.1)]
      exact I.leaf x h.1 h.2

/-- Hanging root `c` below root `r`, with new rank `k` of `r`. -/
theorem DSet.Ok.link {d : DSet V} {rep : Nat → Nat} {lf : Nat → Prop} (I : d.Ok rep lf) {r c k : Nat}
    (hr : r < d.n) (hc : c < d.n) (pr : d.parent r = none) (pc : d.parent c = none) (hne : c ≠ r)
    (hk : d.rank r ≤ k) (hlt : d.rank c < k) (hsz : 2 ^ k ≤ 2 ^ d.rank r + 2 ^ d.rank c) :
    Inv d.n (upd d.parent c (some r)) (upd d.rank r k) (fun x => if rep x = c then r else rep x) lf := by
  have rr := I.root_rep r hr pr
  have rc := I.root_rep c hc pc
  have lr : ¬ lf r := fun h => I.leaf r hr h pr
  have mono : ∀ x, d.rank x ≤ upd d.rank r k x := fun x => by
    by_cases e : x = r
    · subst e; simpa using hk
    · rw [upd_ne _ _ e]
  refine ⟨?_, ?_, ?_, ?_, ?_, ?_, ?_⟩
  · intro x hx
    split
    · exact hr
    · exact I.rep_lt x hx
  · intro x hx
    split
    · rw [upd_ne _ _ (Ne.symm hne)]; exact pr
    · rename_i g; rw [upd_ne _ _ g]; exact I.rep_root x hx
  · intro x hx h
    by_cases e : x = c
    · subst e; simp at h
    · rw [upd_ne _ _ e] at h
      rw [I.root_rep x hx h, if_neg e]
  · intro x p hx h
    by_cases e : x = c
    · subst e; simp at h; subst h
      refine ⟨hr, ?_, lr, Or.inr ?_⟩
      · rw [rr, if_neg (Ne.symm hne), rc, if_pos rfl]
      · rw [upd_ne _ _ hne]; simpa using hlt
    · rw [upd_ne _ _ e] at h
      have ⟨a, b, g, f⟩ := I.edge x p hx h
      refine ⟨a, by rw [b], g, f.imp id fun q => ?_⟩
      have hxr : x ≠ r := fun e => by subst e; rw [pr] at h; cases h
      rw [upd_ne _ _ hxr]
      exact lt_of_lt_of_le q (mono p)
  · intro x hx h
    by_cases e : x = c
    · subst e
      rw [rc, if_pos rfl, upd_ne _ _ hne]
      right; simpa using hlt
    · rw [upd_ne _ _ e] at h
      have hxr : x ≠ r := fun e => by subst e; exact h pr
      rw [upd_ne _ _ hxr]
      refine (I.below x hx h).imp id fun q => ?_
      split
      · rename_i g; rw [g] at q; simp; omega
      · exact lt_of_lt_of_le q (mono _)
  · intro x hx h
    by_cases e : x = c
    · subst e; simp at h
    rw [upd_ne _ _ e] at h
    have sx := I.size x hx h
    by_cases exr : x = r
    · subst exr
      have sc := I.size c hc pc
      simp only [upd_self]
      have hdis : Disjoint ((Finset.range d.n).filter (fun y => rep y = x)) ((Finset.range d.n).filter (fun y => rep y = c)) := by
        rw [Finset.disjoint_left]
        intro y h1 h2
        simp only [Finset.mem_filter] at h1 h2
        exact hne (h2.2.symm.trans h1.2)
      have hcard := Finset.card_union_of_disjoint hdis
      have hsub : (Finset.range d.n).filter (fun y => rep y = x) ∪ (Finset.range d.n).filter (fun y => rep y = c)
          ⊆ (Finset.range d.n).filter (fun y => (if rep y = c then x else rep y) = x) := by
        intro y hy
        simp only [Finset.mem_union, Finset.mem_filter] at hy ⊢
        rcases hy with hy | hy
        · refine ⟨hy.1, ?_⟩
          split
          · rfl
          · exact hy.2
        · exact ⟨hy.1, by rw [if_pos hy.2]⟩
      have := Finset.card_le_card hsub
      omega
    · rw [upd_ne _ _ exr]
      refine sx.trans (Finset.card_le_card ?_)
      intro y hy
      simp only [Finset.mem_filter] at hy ⊢
      refine ⟨hy.1, ?_⟩
      rw [hy.2, if_neg e]
  · intro x hx h
    by_cases e : x = c
    · subst e; simp
    · rw [upd_ne _ _ e]; exact I.leaf x hx h

/-- `combine` of two roots. -/
theorem DSet.Ok.combine {d : DSet V} {rep : Nat → Nat} {lf : Nat → Prop} (I : d.Ok rep lf) {a b : Nat}
    (ha : a < d.n) (hb : b < d.n) (pa : d.parent a = none) (pb : d.parent b = none) :
    ∃ rep', (d.combine a b).1.Ok rep' lf ∧ (d.combine a b).1.n = d.n ∧ (d.combine a b).1.val = d.val ∧
      ((d.combine a b).2 = a ∨ (d.combine a b).2 = b) ∧ (d.combine a b).1.parent (d.combine a b).2 = none ∧
      ∀ x y, rep' x = rep' y ↔ rep x = rep y ∨ (rep x = a ∧ rep y = b) ∨ (rep x = b ∧ rep y = a) := by
  have key : ∀ (r c : Nat), c ≠ r → ∀ x y : Nat, ((if rep x = c then r else rep x) = (if rep y = c then r else rep y))
      ↔ rep x = rep y ∨ (rep x = r ∧ rep y = c) ∨ (rep x = c ∧ rep y = r) := by
    intro r c hne x y
    generalize rep x = u; generalize rep y = w
    split <;> split <;> omega
  unfold DSet.combine
  by_cases hab : a = b
  · rw [if_pos hab]
    refine ⟨rep, I, rfl, rfl, Or.inl rfl, pa, fun x y => ?_⟩
    subst hab; omega
  · rw [if_neg hab]
    split
    · rename_i g
      refine ⟨fun x => if rep x = b then a else rep x, ?_, rfl, rfl, Or.inl rfl, ?_, key a b (Ne.symm hab)⟩
      · have := I.link (k := d.rank a) ha hb pa pb (Ne.symm hab) (Nat.le_refl _) g (Nat.le_add_right _ _)
        rwa [show upd d.rank a (d.rank a) = d.rank from by funext x; unfold upd; split <;> simp_all] at this
      · dsimp only; rw [upd_ne _ _ hab]; exact pa
    · split
      · rename_i g
        refine ⟨fun x => if rep x = a then b else rep x, ?_, rfl, rfl, Or.inr rfl, ?_, fun x y => (key b a hab x y).trans (by tauto)⟩
        · have := I.link (k := d.rank b) hb ha pb pa hab (Nat.le_refl _) g (Nat.le_add_right _ _)
          rwa [show upd d.rank b (d.rank b) = d.rank from by funext x; unfold upd; split <;> simp_all] at this
        · dsimp only; rw [upd_ne _ _ (Ne.symm hab)]; exact pb
      · refine ⟨fun x => if rep x = b then a else rep x, ?_, rfl, rfl, Or.inl rfl, ?_, key a b (Ne.symm hab)⟩
        · have e : d.rank b = d.rank a := by omega
          exact I.link (k := d.rank a + 1) ha hb pa pb (Ne.symm hab) (by omega) (by omega) (by rw [e, Nat.pow_succ]; omega)
        · dsimp only; rw [upd_ne _ _ hab]; exact pa

/-! ### Histories -/

theorem DSet.new_ok (v0 : V) : (DSet.new v0).Ok id (fun _ => False) := by
  refine ⟨?_, ?_, ?_, ?_, ?_, ?_, ?_⟩ <;> intro x <;> intros <;> simp_all [DSet.new]

theorem joined_append (h g : List (Call V × Resp)) : joined (h ++ g) = joined h ++ joined g :=
  List.filterMap_append ..

theorem inserted_append (h g : List (Call V × Resp)) : inserted (h ++ g) = inserted h ++ inserted g :=
  List.filterMap_append ..

theorem validSet_true {d : DSet V} {s : Nat} (h : d.validSet (some s) = some true) :
    s < d.n ∧ d.parent s = none := by
  simp only [DSet.validSet] at h
  by_cases g : s < d.n
  · rw [if_pos g] at h; exact ⟨g, by simpa using h⟩
  · rw [if_neg g] at h; cases h

/-- What a history establishes. -/
structure HInv (h : List (Call V × Resp)) (d : DSet V) (rep : Nat → Nat) (lf : Nat → Prop) : Prop where
  ok : d.Ok rep lf
  ins : ∀ x, x ∈ inserted h ↔ x < d.n
  lt : ∀ p ∈ joined h, p.1 < d.n ∧ p.2 < d.n
  rel : ∀ x y, x < d.n → y < d.n → (rep x = rep y ↔ Conn (joined h) x y)

theorem HInv.same {h : List (Call V × Resp)} {d d' : DSet V} {rep : Nat → Nat} {lf : Nat → Prop}
    (H : HInv h d rep lf) {e : Call V × Resp} (hj : joined [e] = []) (hi : inserted [e] = [])
    (ok : d'.Ok rep lf) (hn : d'.n = d.n) : HInv (h ++ [e]) d' rep lf := by
  refine ⟨ok, ?_, ?_, ?_⟩
  · intro x; rw [inserted_append, hi, hn]; simpa using H.ins x
  · rw [joined_append, hj, hn]; simpa using H.lt
  · rw [joined_append, hj, hn]; simpa using H.rel

theorem lookup_lt [DecidableEq V] {d : DSet V} {v : V} {e : Nat} (h : d.lookup v = some e) :
    e < d.n ∧ d.val e = v ∧ ∀ k, k < e → d.val k ≠ v := by
  unfold DSet.lookup at h
  have h1 := List.mem_of_find?_eq_some h
  have h2 := List.find?_some h
  refine ⟨List.mem_range.1 h1, by simpa using h2, fun k hk hv => ?_⟩
  rw [List.find?_range_eq_some] at h
  have := h.2.2 k hk
  simp [hv] at this

theorem lookup_none [DecidableEq V] {d : DSet V} {v : V} (h : d.lookup v = none) : ∀ k, k < d.n → d.val k ≠ v := by
  unfold DSet.lookup at h
  rw [List.find?_eq_none] at h
  intro k hk
  simpa using h k (List.mem_range.2 hk)

theorem hist_inv [DecidableEq V] {v0 : V} {h : List (Call V × Resp)} {d : DSet V} (H : Hist v0 h d) :
    ∃ rep lf, HInv h d rep lf := by
  induction H with
  | start =>
    refine ⟨id, fun _ => False, DSet.new_ok v0, ?_, ?_, ?_⟩
    · intro x; simp [inserted, DSet.new]
    · intro p hp; cases hp
    · intro x y hx; simp [DSet.new] at hx
  | call c H ih =>
    rename_i h d
    obtain ⟨rep, lf, I⟩ := ih
    have same : ∀ {e : Call V × Resp}, joined [e] = [] → inserted [e] = [] → ∃ rep lf, HInv (h ++ [e]) d rep lf :=
      fun a b => ⟨rep, lf, I.same a b I.ok rfl⟩
    have newconn : ∀ y, y < d.n → ¬ Conn (joined h) d.n y := fun y hy hc => by
      rcases hc.field (P := fun z => z < d.n) (fun p hp => I.lt p hp) with e | e <;> omega
    cases c with
    | insert v =>
      refine ⟨_, _, I.ok.insert v, ?_, ?_, ?_⟩
      · intro x
        rw [inserted_append, List.mem_append, I.ins]
        simp [inserted, DSet.call, DSet.insert]; omega
      · intro p hp
        rw [joined_append] at hp
        have : p ∈ joined h := by simpa [joined, DSet.call] using hp
        have := I.lt p this
        simp only [DSet.call, DSet.insert]; omega
      · intro x y hx hy
        have hj : joined (h ++ [(Call.insert v, (d.call (.insert v)).2)]) = joined h := by
          rw [joined_append]; simp [joined]
        rw [hj]
        simp only [DSet.call, DSet.insert] at hx hy
        by_cases ex : x = d.n <;> by_cases ey : y = d.n
        · subst ex; subst ey; simp; exact .refl _ _
        · subst ex; rw [upd_self, upd_ne _ _ ey]
          have := I.ok.rep_lt y (by omega)
          exact ⟨fun e => by omega, fun e => absurd e (newconn y (by omega))⟩
        · subst ey; rw [upd_self, upd_ne _ _ ex]
          have := I.ok.rep_lt x (by omega)
          exact ⟨fun e => by omega, fun e => absurd e.symm (newconn x (by omega))⟩
        · rw [upd_ne _ _ ex, upd_ne _ _ ey]; exact I.rel x y (by omega) (by omega)
    | insertIn v s =>
      simp only [DSet.call]
      have none1 : ∀ {r : Resp}, (r = .ub ∨ r = .argErr) → joined [((Call.insertIn v s : Call V), r)] = [] := by
        rintro r (rfl | rfl) <;> cases s <;> rfl
      split
      · exact same (none1 (Or.inl rfl)) rfl
      · rename_i s hv
        have ⟨hs, hr⟩ := validSet_true hv
        refine ⟨_, _, I.ok.insertIn v hs hr, ?_, ?_, ?_⟩
        · intro x
          rw [inserted_append, List.mem_append, I.ins]
          simp [inserted, DSet.insertIn]; omega
        · intro p hp
          rw [joined_append, List.mem_append] at hp
          simp only [DSet.insertIn]
          rcases hp with hp | hp
          · have := I.lt p hp; omega
          · have : p = (s, d.n) := by simpa [joined] using hp
            subst this; dsimp only; omega
        · intro x y hx hy
          have hj : ∀ q, q ∈ joined (h ++ [(Call.insertIn v (some s), Resp.ptr (some d.n))]) ↔ q ∈ (s, d.n) :: joined h := by
            intro q; rw [joined_append, List.mem_append, List.mem_cons, or_comm]; simp [joined]
          rw [conn_congr hj, conn_cons]
          simp only [DSet.insertIn] at hx hy
          have rs := I.ok.root_rep s hs hr
          have nn : Conn (joined h) d.n d.n := .refl _ _
          by_cases ex : x = d.n <;> by_cases ey : y = d.n
          · subst ex; subst ey; simp [nn]
          · subst ex; rw [upd_self, upd_ne _ _ ey]
            have h1 := newconn y (by omega)
            have h2 := newconn s hs
            have h3 := I.rel s y hs (by omega)
            rw [rs] at h3
            tauto
          · subst ey; rw [upd_self, upd_ne _ _ ex]
            have h1 : ¬ Conn (joined h) x d.n := fun q => newconn x (by omega) q.symm
            have h2 : ¬ Conn (joined h) s d.n := fun q => newconn s hs q.symm
            have h3 := I.rel x s (by omega) hs
            rw [rs] at h3
            tauto
          · rw [upd_ne _ _ ex, upd_ne _ _ ey]
            have h1 : ¬ Conn (joined h) x d.n := fun q => newconn x (by omega) q.symm
            have h2 := newconn y (by omega)
            have h3 := I.rel x y (by omega) (by omega)
            tauto
      · exact same (none1 (Or.inr rfl)) rfl
    | combine s1 s2 =>
      simp only [DSet.call]
      have none : ∀ {r : Resp}, (r = .ub ∨ r = .argErr) → joined [((Call.combine s1 s2 : Call V), r)] = [] := by
        rintro r (rfl | rfl) <;> cases s1 <;> cases s2 <;> rfl
      split
      · exact same (none (Or.inl rfl)) rfl
      · rename_i a hv1
        split
        · exact same (none (Or.inl rfl)) rfl
        · rename_i b hv2
          have ⟨ha, pa⟩ := validSet_true hv1
          have ⟨hb, pb⟩ := validSet_true hv2
          obtain ⟨rep', ok, hn, _, _, _, hrel⟩ := I.ok.combine ha hb pa pb
          have ra := I.ok.root_rep a ha pa
          have rb := I.ok.root_rep b hb pb
          refine ⟨rep', lf, ok, ?_, ?_, ?_⟩
          · intro x
            rw [inserted_append, hn]
            simpa [inserted] using I.ins x
          · intro p hp
            rw [joined_append, List.mem_append] at hp
            rw [hn]
            rcases hp with hp | hp
            · exact I.lt p hp
            · have : p = (a, b) := by simpa [joined] using hp
              subst this; exact ⟨ha, hb⟩
          · intro x y hx hy
            rw [hn] at hx hy
            have hj : ∀ q, q ∈ joined (h ++ [((Call.combine (some a) (some b) : Call V), Resp.ptr (some (d.combine a b).2))])
                ↔ q ∈ (a, b) :: joined h := by
              intro q; rw [joined_append, List.mem_append, List.mem_cons, or_comm]; simp [joined]
            rw [conn_congr hj, conn_cons, hrel]
            have h1 := I.rel x y hx hy
            have h2 := I.rel x a hx ha
            have h3 := I.rel x b hx hb
            have h4 := I.rel a y ha hy
            have h5 := I.rel b y hb hy
            rw [ra] at h2 h4
            rw [rb] at h3 h5
            rw [h1, h2, h3, ← h4, ← h5, eq_comm (a := rep y), eq_comm (a := rep y)]
        · exact same (none (Or.inr rfl)) rfl
      · exact same (none (Or.inr rfl)) rfl
    | find e =>
      cases e with
      | none => exact same rfl rfl
      | some e =>
        simp only [DSet.call]
        split
        · rename_i he
          obtain ⟨d', hf, ok, hn, _⟩ := I.ok.find he
          rw [hf]
          exact ⟨rep, lf, I.same rfl rfl ok hn⟩
        · exact same rfl rfl
    | findVal v =>
      simp only [DSet.call]
      cases hl : d.lookup v with
      | none => exact same rfl rfl
      | some e =>
        obtain ⟨d', hf, ok, hn, _⟩ := I.ok.find (lookup_lt hl).1
        simp only [hf]
        exact ⟨rep, lf, I.same rfl rfl ok hn⟩

/-! ### C29 -/

variable [DecidableEq V] {v0 : V} {h : List (Call V × Resp)} {d : DSet V}

/-- After any history, for any two inserted nodes, `find` returns, and the two results are equal exactly if
the nodes are related by the equivalence generated by the combines and insertions into sets. -/
theorem find_iff_connected (H : Hist v0 h d) {x y : Nat} (hx : x ∈ inserted h) (hy : y ∈ inserted h) :
    ∃ s t, (d.call (.find (some x))).2 = .ptr (some s) ∧
      ((d.call (.find (some x))).1.call (.find (some y))).2 = .ptr (some t) ∧
      (s = t ↔ Conn (joined h) x y) := by
  obtain ⟨rep, lf, I⟩ := hist_inv H
  have hx' := (I.ins x).1 hx
  have hy' := (I.ins y).1 hy
  obtain ⟨d1, f1, ok1, n1, _⟩ := I.ok.find hx'
  obtain ⟨d2, f2, _⟩ := ok1.find (x := y) (by omega)
  refine ⟨rep x, rep y, ?_, ?_, I.rel x y hx' hy'⟩
  · simp [DSet.call, hx', f1]
  · simp only [DSet.call, if_pos hx', f1]
    rw [if_pos (by omega), f2]

/-- `find` returns a set that contains the node, that is accepted by `combine` and `insert`, and of which
`find` returns itself. -/
theorem find_representative (H : Hist v0 h d) {x : Nat} (hx : x ∈ inserted h) :
    ∃ s, (d.call (.find (some x))).2 = .ptr (some s) ∧ Conn (joined h) x s ∧ s ∈ inserted h ∧
      (d.call (.find (some x))).1.validSet (some s) = some true ∧
      ((d.call (.find (some x))).1.call (.find (some s))).2 = .ptr (some s) := by
  obtain ⟨rep, lf, I⟩ := hist_inv H
  have hx' := (I.ins x).1 hx
  obtain ⟨d1, f1, ok1, n1, _, _, np, _⟩ := I.ok.find hx'
  have hs := I.ok.rep_lt x hx'
  have hr := I.ok.rep_root x hx'
  have rr := I.ok.root_rep _ hs hr
  have e : d.call (.find (some x)) = (d1, .ptr (some (rep x))) := by simp [DSet.call, hx', f1]
  rw [e]
  refine ⟨rep x, rfl, (I.rel _ _ hx' hs).1 rr.symm, (I.ins _).2 hs, ?_, ?_⟩
  · simp [DSet.validSet, n1, hs, np _ hr]
  · obtain ⟨d2, f2, _⟩ := ok1.find (x := rep x) (by omega)
    simp only [DSet.call]
    rw [if_pos (by omega), f2, rr]

/-- `find` changes no answer: whatever was asked before or after, the later answers are as if the `find`
had not been called. -/
theorem find_changes_nothing (H : Hist v0 h d) {x y : Nat} (hx : x ∈ inserted h) (hy : y ∈ inserted h) :
    ((d.call (.find (some x))).1.call (.find (some y))).2 = (d.call (.find (some y))).2 ∧
    ∀ s, (d.call (.find (some x))).1.validSet s = d.validSet s := by
  obtain ⟨rep, lf, I⟩ := hist_inv H
  have hx' := (I.ins x).1 hx
  have hy' := (I.ins y).1 hy
  obtain ⟨d1, f1, ok1, n1, _, _, np, _⟩ := I.ok.find hx'
  obtain ⟨d2, f2, _⟩ := ok1.find (x := y) (by omega)
  obtain ⟨d3, f3, _⟩ := I.ok.find hy'
  have e : d.call (.find (some x)) = (d1, .ptr (some (rep x))) := by simp [DSet.call, hx', f1]
  rw [e]
  refine ⟨?_, ?_⟩
  · simp only [DSet.call, if_pos hy', f3]
    rw [if_pos (by omega), f2]
  · intro s
    cases s with
    | none => rfl
    | some s =>
      simp only [DSet.validSet, n1]
      by_cases hs : s < d.n
      · simp only [hs, if_true]
        congr 1
        cases hp : d.parent s with
        | none => rw [np s hp]
        | some p =>
          cases hq : d1.parent s with
          | none =>
            have := ok1.root_rep s (by omega) hq
            have h2 := I.ok.rep_root s hs
            rw [this, hp] at h2
            cases h2
          | some q => rfl
      · simp only [hs, if_false]

/-- `find` never loops forever and never fails on an inserted node; it follows at most log2(n) + 1 links. -/
theorem find_total (H : Hist v0 h d) {x : Nat} (hx : x ∈ inserted h) :
    ∃ s, rootLoop d.parent (Nat.log 2 (inserted h).toFinset.card + 2) x = some s ∧
      (d.call (.find (some x))).2 = .ptr (some s) := by
  obtain ⟨rep, lf, I⟩ := hist_inv H
  have hx' := (I.ins x).1 hx
  have hc : (inserted h).toFinset = Finset.range d.n := by ext z; simp [I.ins]
  obtain ⟨d1, f1, _⟩ := I.ok.find hx'
  rw [hc, Finset.card_range]
  have := Inv.ht_le_log I.ok hx'
  exact ⟨rep x, Inv.rootLoop I.ok _ x hx' (by omega), by simp [DSet.call, hx', f1]⟩

/-- After `find(x)` the node points directly at its set. -/
theorem find_compresses (H : Hist v0 h d) {x s : Nat} (hx : x ∈ inserted h)
    (hf : (d.call (.find (some x))).2 = .ptr (some s)) (hne : x ≠ s) :
    (d.call (.find (some x))).1.parent x = some s := by
  obtain ⟨rep, lf, I⟩ := hist_inv H
  have hx' := (I.ins x).1 hx
  obtain ⟨d1, f1, _, _, _, _, _, cp⟩ := I.ok.find hx'
  have e : d.call (.find (some x)) = (d1, .ptr (some (rep x))) := by simp [DSet.call, hx', f1]
  rw [e] at hf ⊢
  simp at hf
  subst hf
  exact cp hne

/-- Arguments that are not sets are rejected and change nothing. -/
theorem combine_rejects (s1 s2 : Nat) (h1 : s1 < d.n) (h2 : s2 < d.n)
    (hbad : d.parent s1 ≠ none ∨ d.parent s2 ≠ none) :
    d.call (.combine (some s1) (some s2)) = (d, .argErr) := by
  simp only [DSet.call, DSet.validSet, h1, h2, if_true]
  cases hp : d.parent s1 <;> cases hq : d.parent s2 <;> simp_all

theorem insertIn_rejects (v : V) (s : Nat) (h1 : s < d.n) (hbad : d.parent s ≠ none) :
    d.call (.insertIn v (some s)) = (d, .argErr) := by
  simp only [DSet.call, DSet.validSet, h1, if_true]
  cases hp : d.parent s <;> simp_all

theorem null_rejects (v : V) (s : Option Nat) : d.call (.combine none s) = (d, .argErr) ∧
    d.call (.insertIn v none) = (d, .argErr) ∧ d.call (.find none) = (d, .argErr) := ⟨rfl, rfl, rfl⟩

theorem combine_null_right (s : Nat) (h1 : s < d.n) : d.call (.combine (some s) none) = (d, .argErr) := by
  simp only [DSet.call, DSet.validSet, h1, if_true]
  cases d.parent s <;> rfl

/-- An element that is not a set, i.e. for which `find` gives something else, is rejected: validity of a set
argument is the same as being its own `find`. -/
theorem valid_iff_own_find (H : Hist v0 h d) {x : Nat} (hx : x ∈ inserted h) :
    d.parent x = none ↔ (d.call (.find (some x))).2 = .ptr (some x) := by
  obtain ⟨rep, lf, I⟩ := hist_inv H
  have hx' := (I.ins x).1 hx
  obtain ⟨d1, f1, _⟩ := I.ok.find hx'
  have e : (d.call (.find (some x))).2 = .ptr (some (rep x)) := by simp [DSet.call, hx', f1]
  rw [e]
  constructor
  · intro hp; rw [I.ok.root_rep x hx' hp]
  · intro hq
    have hq : rep x = x := by simpa using hq
    have := I.ok.rep_root x hx'
    rwa [hq] at this

/-- `combine` of two sets succeeds and returns one of the two, which is the set of both afterwards. -/
theorem combine_result (H : Hist v0 h d) {a b : Nat} (ha : a ∈ inserted h) (hb : b ∈ inserted h)
    (fa : (d.call (.find (some a))).2 = .ptr (some a)) (fb : (d.call (.find (some b))).2 = .ptr (some b)) :
    ∃ s, (d.call (.combine (some a) (some b))).2 = .ptr (some s) ∧ (s = a ∨ s = b) ∧
      ((d.call (.combine (some a) (some b))).1.call (.find (some a))).2 = .ptr (some s) ∧
      ((d.call (.combine (some a) (some b))).1.call (.find (some b))).2 = .ptr (some s) := by
  have pa := (valid_iff_own_find H ha).2 fa
  have pb := (valid_iff_own_find H hb).2 fb
  obtain ⟨rep, lf, I⟩ := hist_inv H
  have ha' := (I.ins a).1 ha
  have hb' := (I.ins b).1 hb
  obtain ⟨rep', ok, hn, _, hs, hroot, hrel⟩ := I.ok.combine ha' hb' pa pb
  have e : d.call (.combine (some a) (some b)) = ((d.combine a b).1, .ptr (some (d.combine a b).2)) := by
    simp [DSet.call, DSet.validSet, ha', hb', pa, pb]
  rw [e]
  have ra := I.ok.root_rep a ha' pa
  have rb := I.ok.root_rep b hb' pb
  obtain ⟨d1, f1, _⟩ := ok.find (x := a) (by omega)
  obtain ⟨d2, f2, _⟩ := ok.find (x := b) (by omega)
  have rab : rep' a = rep' b := (hrel a b).2 (Or.inr (Or.inl ⟨ra, rb⟩))
  have rs := ok.root_rep (d.combine a b).2 (by rcases hs with h | h <;> rw [h] <;> omega) hroot
  have era : rep' a = (d.combine a b).2 := by
    rcases hs with h | h
    · rw [h] at rs ⊢; exact rs
    · rw [rab]; rw [h] at rs ⊢; exact rs
  refine ⟨_, rfl, hs, ?_, ?_⟩
  · simp only [DSet.call]; rw [if_pos (by omega), f1, era]
  · simp only [DSet.call]; rw [if_pos (by omega), f2, ← rab, era]

/-- `find(value)` answers for the first inserted element with that value, and null if there is none. -/
theorem findVal_spec (H : Hist v0 h d) (v : V) :
    (∃ x, x ∈ inserted h ∧ d.val x = v ∧ (∀ k, k < x → d.val k ≠ v) ∧
      d.call (.findVal v) = d.call (.find (some x))) ∨
    ((∀ x ∈ inserted h, d.val x ≠ v) ∧ d.call (.findVal v) = (d, .ptr none)) := by
  obtain ⟨rep, lf, I⟩ := hist_inv H
  cases hl : d.lookup v with
  | none =>
    right
    exact ⟨fun x hx => lookup_none hl x ((I.ins x).1 hx), by simp [DSet.call, hl]⟩
  | some e =>
    left
    have ⟨a, b, c⟩ := lookup_lt hl
    exact ⟨e, (I.ins e).2 a, b, c, by simp [DSet.call, hl, a]⟩

/-- No history ever makes `find`, or any call on live nodes, loop forever. -/
theorem never_hangs (H : Hist v0 h d) (c : Call V) : (d.call c).2 ≠ .hang := by
  obtain ⟨rep, lf, I⟩ := hist_inv H
  cases c with
  | insert v => simp [DSet.call]
  | insertIn v s => simp only [DSet.call]; split <;> simp
  | combine a b =>
    simp only [DSet.call]
    split <;> try simp
    split <;> simp
  | find e =>
    cases e with
    | none => simp [DSet.call]
    | some e =>
      simp only [DSet.call]
      split
      · rename_i he
        obtain ⟨d', hf, _⟩ := I.ok.find he
        rw [hf]; simp
      · simp
  | findVal v =>
    simp only [DSet.call]
    cases hl : d.lookup v with
    | none => simp
    | some e =>
      obtain ⟨d', hf, _⟩ := I.ok.find (lookup_lt hl).1
      simp only [hf]; simp

/-! ### Non-vacuity: five nodes, a chain of combines of sets of different rank, an insertion into a set -/

def exCalls : List (Call Nat) :=
  [.insert 10, .insert 11, .insert 12, .insert 13, .combine (some 0) (some 1), .combine (some 2) (some 3),
   .combine (some 0) (some 2), .insertIn 14 (some 0), .insert 15, .find (some 3)]

def runCalls : List (Call Nat) → List (Call Nat × Resp) × DSet Nat → List (Call Nat × Resp) × DSet Nat
  | [], s => s
  | c :: cs, (h, d) => runCalls cs (h ++ [(c, (d.call c).2)], (d.call c).1)

theorem runCalls_hist : ∀ (cs : List (Call Nat)) {h : List (Call Nat × Resp)} {d : DSet Nat}, Hist 0 h d →
    Hist 0 (runCalls cs (h, d)).1 (runCalls cs (h, d)).2
  | [], _, _, H => H
  | c :: cs, _, _, H => runCalls_hist cs (Hist.call c H)

/-- A reachable history with nodes that are connected through several combines, and one that is not. -/
theorem exHist : ∃ h d, Hist (0 : Nat) h d ∧ 3 ∈ inserted h ∧ 4 ∈ inserted h ∧ 5 ∈ inserted h ∧
    (d.call (.find (some 3))).2 = .ptr (some 0) ∧ (d.call (.find (some 4))).2 = .ptr (some 0) ∧
    (d.call (.find (some 5))).2 = .ptr (some 5) ∧
    (d.call (.combine (some 3) (some 5))).2 = .argErr :=
  ⟨_, _, runCalls_hist exCalls .start, by decide, by decide, by decide, by decide, by decide, by decide, by decide⟩

end VW.Graph
