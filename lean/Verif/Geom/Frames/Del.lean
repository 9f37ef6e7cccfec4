import Verif.Geom.Frames.Ops

/-
Effect of `recursive_delete` on the forest.
-/

namespace Verif.Geom.Frames

variable {T : Type}

theorem Inv.below_self_kid {h : Heap T} {kids} (hi : Inv h kids) {n c : Nat} (hc : c ∈ kids n) :
    ¬ Below h c n := by
  intro hb
  obtain ⟨r, hr⟩ := hi.acyc
  have hle : ∀ x y, Below h y x → r y ≤ r x := by
    intro x y hxy
    induction hxy with
    | refl => exact Nat.le_refl _
    | tail _ hp ih => have := hr _ _ hp; omega
  have h1 := hle _ _ hb
  have h2 := hr c n (hi.par_iff.2 hc)
  omega

theorem par_unique {h : Heap T} {x p q : Nat} (hp : Par h x p) (hq : Par h x q) : p = q := by
  obtain ⟨n1, a1, b1⟩ := hp
  obtain ⟨n2, a2, b2⟩ := hq
  rw [a1] at a2; cases a2
  rw [b1] at b2
  exact Option.some.inj b2

/-- An address that is not allocated is below nothing but itself. -/
theorem Inv.below_alloc {h : Heap T} {kids} (hi : Inv h kids) {n x : Nat} (hb : Below h n x) (hne : x ≠ n) :
    (∃ nd, h n = some nd) ∧ ∃ nd, h x = some nd := by
  constructor
  · rcases Relation.ReflTransGen.cases_tail hb with e | ⟨c, _, hc⟩
    · exact absurd e.symm hne
    · exact (hi.kid_alloc (hi.par_iff.1 hc)).2
  · rcases Relation.ReflTransGen.cases_head hb with e | ⟨c, hc, _⟩
    · exact absurd e hne
    · obtain ⟨nd, e, _⟩ := hc
      exact ⟨nd, e⟩

open Classical in
/-- The forest without the subtree of `n`. -/
noncomputable def pruned (h : Heap T) (kids : Nat → List Nat) (n : Nat) : Nat → List Nat :=
  fun q => if Below h n q then [] else (kids q).erase n

/-- The nodes below `n` are gone, the others have the data they had. -/
def Removed (h h' : Heap T) (S : Nat → Prop) : Prop :=
  ∀ x, (S x → h' x = none) ∧
    (¬ S x → (h' x).map (fun nd => (nd.name, nd.trans)) = (h x).map (fun nd => (nd.name, nd.trans)))

theorem Inv.recDelete_aux (rank : Nat → Nat) (R : Nat) : ∀ (k m : Nat) (h : Heap T) (kids : Nat → List Nat)
    (n : Nat) (nd : Node T), Inv h kids → (∀ x p, Par h x p → rank p < rank x) →
    (∀ a, h a ≠ none → rank a < R) → R - rank n ≤ k → (kids n).length ≤ m → h n = some nd →
    ∃ h', recDelete h n = some h' ∧ Inv h' (pruned h kids n) ∧ Removed h h' (Below h n) := by
  intro k
  induction k with
  | zero =>
    intro m h kids n nd hi hr hR hk hm hn
    have := hR n (by rw [hn]; simp)
    omega
  | succ k ihk =>
    intro m
    induction m with
    | zero =>
      intro h kids n nd hi hr hR hk hm hn
      have hkn : kids n = [] := List.length_eq_zero_iff.1 (by omega)
      have hf : nd.first = none := by
        have := hi.chain n nd hn
        rw [hkn] at this; exact this
      obtain ⟨h', e1, e2, e3, e4⟩ := hi.destroy hn
      have hbel : ∀ x, Below h n x ↔ x = n := by
        intro x
        constructor
        · intro hb
          rcases Relation.ReflTransGen.cases_tail hb with e | ⟨c, _, hc⟩
          · exact e.symm
          · have := hi.par_iff.1 hc
            rw [hkn] at this; cases this
        · rintro rfl; exact Relation.ReflTransGen.refl
      refine ⟨h', ?_, ?_, ?_⟩
      · rw [recDelete]
        simp only [hn, hf, Option.bind_eq_bind, Option.bind_some]
        exact e1
      · have : pruned h kids n = orphaned (cut kids n) n := by
          funext q
          unfold pruned orphaned cut
          by_cases hq : q = n
          · rw [if_pos hq, if_pos ((hbel q).2 hq)]
          · rw [if_neg hq, if_neg (fun hh => hq ((hbel q).1 hh))]
        rw [this]; exact e2
      · intro x
        refine ⟨fun hb => ?_, fun hb => e4 x (fun hh => hb ((hbel x).2 hh))⟩
        rw [(hbel x).1 hb]; exact e3
    | succ m ihm =>
      intro h kids n nd hi hr hR hk hm hn
      cases hL : kids n with
      | nil => exact ihm h kids n nd hi hr hR hk (by rw [hL]; simp) hn
      | cons c L =>
        have hch := hi.chain n nd hn
        rw [hL] at hch
        obtain ⟨hf, nc, hc, _⟩ := hch
        have hcn : c ∈ kids n := by rw [hL]; exact List.mem_cons_self
        have hrc := hr c n (hi.par_iff.2 hcn)
        have hRc := hR c (by rw [hc]; simp)
        obtain ⟨h1, e1, e2, e3⟩ := ihk (kids c).length h kids c nc hi hr hR (by omega) (Nat.le_refl _) hc
        have hnb : ¬ Below h c n := hi.below_self_kid hcn
        have hpar : ∀ x p, Par h1 x p ↔ (¬ Below h c p ∧ x ≠ c ∧ Par h x p) := by
          intro x p
          rw [e2.par_iff, hi.par_iff]
          unfold pruned
          split
          · rename_i hb
            exact ⟨fun hh => (by cases hh), fun hh => absurd hb hh.1⟩
          · rename_i hb
            rw [(hi.nodup p).mem_erase_iff]
            exact ⟨fun hh => ⟨hb, hh.1, hh.2⟩, fun hh => hh.2⟩
        have hsub : ∀ x p, Par h1 x p → Par h x p := fun x p hp => ((hpar x p).1 hp).2.2
        have hbel : ∀ x, Below h1 n x ↔ (Below h n x ∧ ¬ Below h c x) := by
          intro x
          constructor
          · intro hb
            refine ⟨below_mono hsub hb, fun hbc => ?_⟩
            rcases Relation.ReflTransGen.cases_head hb with e | ⟨y, hy, _⟩
            · subst e; exact hnb hbc
            · obtain ⟨y1, y2, y3⟩ := (hpar x y).1 hy
              rcases Relation.ReflTransGen.cases_head hbc with e | ⟨z, hz, hz2⟩
              · exact y2 e
              · have := par_unique hz y3
                subst this
                exact y1 hz2
          · rintro ⟨hb, hbc⟩
            induction hb using Relation.ReflTransGen.head_induction_on with
            | refl => exact Relation.ReflTransGen.refl
            | head hp _ ih =>
              rename_i a b hab
              have hb1 : ¬ Below h c b := fun hh => hbc (Relation.ReflTransGen.head hp hh)
              refine Relation.ReflTransGen.head ((hpar a b).2 ⟨hb1, ?_, hp⟩) (ih hb1)
              rintro rfl
              exact hbc Relation.ReflTransGen.refl
        have hn1 : ∃ nd1, h1 n = some nd1 := by
          have := (e3 n).2 hnb
          rw [hn] at this
          cases hh : h1 n with
          | none => rw [hh] at this; cases this
          | some nd1 => exact ⟨nd1, rfl⟩
        obtain ⟨nd1, hn1⟩ := hn1
        have hk1 : pruned h kids c n = L := by
          unfold pruned
          rw [if_neg hnb, hL, List.erase_cons_head]
        have hR1 : ∀ a, h1 a ≠ none → rank a < R := by
          intro a ha
          refine hR a (fun hh => ha ?_)
          by_cases hb : Below h c a
          · exact (e3 a).1 hb
          · have := (e3 a).2 hb
            rw [hh] at this
            cases hx : h1 a with
            | none => rfl
            | some _ => rw [hx] at this; cases this
        obtain ⟨h2, f1, f2, f3⟩ := ihm h1 (pruned h kids c) n nd1 e2 (fun x p hp => hr x p (hsub x p hp)) hR1
          hk (by rw [hk1]; rw [hL] at hm; simp at hm; exact hm) hn1
        refine ⟨h2, ?_, ?_, ?_⟩
        · rw [recDelete]
          simp only [hn, hf, e1, Option.bind_eq_bind, Option.bind_some]
          exact f1
        · have : pruned h1 (pruned h kids c) n = pruned h kids n := by
            funext q
            unfold pruned
            by_cases hb : Below h n q
            · rw [if_pos hb]
              by_cases hbc : Below h c q
              · rw [if_neg (fun hh => ((hbel q).1 hh).2 hbc), if_pos hbc]; rfl
              · rw [if_pos ((hbel q).2 ⟨hb, hbc⟩)]
            · have hbc : ¬ Below h c q := fun hh =>
                hb (Relation.ReflTransGen.tail hh (hi.par_iff.2 hcn))
              rw [if_neg hb, if_neg (fun hh => hb ((hbel q).1 hh).1), if_neg hbc]
              congr 1
              refine List.erase_of_not_mem (fun hh => ?_)
              have := hi.unique hh hcn
              subst this
              exact hb Relation.ReflTransGen.refl
          rw [← this]; exact f2
        · intro x
          constructor
          · intro hb
            by_cases hbc : Below h c x
            · have h0 := (e3 x).1 hbc
              have := (f3 x).2 (fun hh => ((hbel x).1 hh).2 hbc)
              rw [h0] at this
              cases hx : h2 x with
              | none => rfl
              | some _ => rw [hx] at this; cases this
            · exact (f3 x).1 ((hbel x).2 ⟨hb, hbc⟩)
          · intro hb
            have hbc : ¬ Below h c x := fun hh =>
              hb (Relation.ReflTransGen.tail hh (hi.par_iff.2 hcn))
            rw [(f3 x).2 (fun hh => hb ((hbel x).1 hh).1), (e3 x).2 hbc]

/-- A bound on the ranks of the allocated nodes. -/
theorem bounded_rank {h : Heap T} (hf : ∃ B, ∀ a, B ≤ a → h a = none) (rank : Nat → Nat) :
    ∃ R, ∀ a, h a ≠ none → rank a < R := by
  obtain ⟨B, hB⟩ := hf
  have : ∀ n, ∃ R, ∀ a, a < n → rank a < R := by
    intro n
    induction n with
    | zero => exact ⟨0, fun a ha => by omega⟩
    | succ n ih =>
      obtain ⟨R, hR⟩ := ih
      refine ⟨max R (rank n + 1), fun a ha => ?_⟩
      by_cases e : a = n
      · subst e; omega
      · have := hR a (by omega); omega
  obtain ⟨R, hR⟩ := this B
  refine ⟨R, fun a ha => hR a ?_⟩
  by_contra hh
  exact ha (hB a (by omega))

/-- `recursive_delete`: exactly the node and everything below it disappear. -/
theorem Inv.recDelete {h : Heap T} {kids} (hi : Inv h kids) {n : Nat} {nd} (hn : h n = some nd) :
    ∃ h', recDelete h n = some h' ∧ Inv h' (pruned h kids n) ∧ Removed h h' (Below h n) := by
  obtain ⟨rank, hr⟩ := hi.acyc
  obtain ⟨R, hR⟩ := bounded_rank hi.fin rank
  exact Inv.recDelete_aux rank R (R - rank n) (kids n).length h kids n nd hi hr hR (Nat.le_refl _)
    (Nat.le_refl _) hn

end Verif.Geom.Frames
