import Verif.Geom.Frames.Inv
import Mathlib.Tactic.ByContra

/-
Effect of `set_parent`, the constructor, the destructor and `recursive_delete` on the forest.
-/

namespace Verif.Geom.Frames

variable {T : Type}

/-- The forest after the root `n` has been put in front of the children of `q`. -/
def paste (kids : Nat → List Nat) (n : Nat) (p : Option Nat) : Nat → List Nat :=
  fun x => if p = some x then n :: kids x else kids x

theorem Inv.attach {g : Heap T} {kids} (hi : Inv g kids) {n q : Nat} {nd nq : Node T} (hn : g n = some nd)
    (hp : nd.parent = none) (hq : g q = some nq) (hb : ¬ Below g n q) :
    Inv (upd (upd (upd g n (fun nd => { nd with parent := some q }))
      n (fun nd => { nd with next := nq.first })) q (fun nd => { nd with first := some n }))
      (paste kids n (some q)) := by
  have hnq : n ≠ q := by rintro rfl; exact hb Relation.ReflTransGen.refl
  rw [upd_upd]
  generalize hG : upd (upd g n (fun nd => { nd with parent := some q, next := nq.first })) q
    (fun nd => { nd with first := some n }) = G
  have hGn : G n = some { nd with parent := some q, next := nq.first } := by
    rw [← hG, upd_ne _ _ hnq, upd_same, hn]; rfl
  have hGq : G q = some { nq with first := some n } := by
    rw [← hG, upd_same, upd_ne _ _ hnq.symm, hq]; rfl
  have hGo : ∀ x, x ≠ n → x ≠ q → G x = g x := by
    intro x h1 h2
    rw [← hG, upd_ne _ _ h2, upd_ne _ _ h1]
  have hnk : ∀ x, n ∉ kids x := by
    intro x hx
    have := (hi.par n nd x hn).2 hx
    rw [hp] at this; cases this
  have hnext : ∀ x ndx, x ≠ n → g x = some ndx → ∃ nd', G x = some nd' ∧ nd'.next = ndx.next ∧
      nd'.parent = ndx.parent := by
    intro x ndx hxn hx
    by_cases hxq : x = q
    · subst hxq; rw [hq] at hx; cases hx; exact ⟨_, hGq, rfl, rfl⟩
    · rw [hGo x hxn hxq, hx]; exact ⟨_, rfl, rfl, rfl⟩
  have hback : ∀ x nd', x ≠ n → G x = some nd' → ∃ ndx, g x = some ndx ∧ nd'.next = ndx.next ∧
      nd'.parent = ndx.parent ∧ (x ≠ q → nd'.first = ndx.first) := by
    intro x nd' hxn hx
    by_cases hxq : x = q
    · subst hxq; rw [hGq] at hx; cases hx; exact ⟨nq, hq, rfl, rfl, fun hh => absurd rfl hh⟩
    · rw [hGo x hxn hxq] at hx; exact ⟨_, hx, rfl, rfl, fun _ => rfl⟩
  have hchain : ∀ s p, Chain g s (kids p) → Chain G s (kids p) := by
    intro s p hc
    refine hc.congr (fun x hx ndx hxx => ?_)
    obtain ⟨nd', e1, e2, _⟩ := hnext x ndx (fun hh => hnk p (hh ▸ hx)) hxx
    exact ⟨nd', e1, e2⟩
  refine ⟨?_, ?_, ?_, ?_, ?_, ?_, ?_⟩
  · intro p ndp hp'
    unfold paste
    by_cases hpq : p = q
    · subst hpq
      rw [if_pos rfl]
      rw [hGq] at hp'; cases hp'
      exact ⟨rfl, _, hGn, hchain _ _ (hi.chain p nq hq)⟩
    · rw [if_neg (by simpa using fun hh => hpq hh.symm)]
      by_cases hpn : p = n
      · subst hpn
        rw [hGn] at hp'; cases hp'
        exact hchain _ _ (hi.chain p nd hn)
      · rw [hGo p hpn hpq] at hp'
        exact hchain _ _ (hi.chain p ndp hp')
  · intro p hp'
    have hpq : p ≠ q := by rintro rfl; rw [hGq] at hp'; cases hp'
    have hpn : p ≠ n := by rintro rfl; rw [hGn] at hp'; cases hp'
    unfold paste
    rw [if_neg (by simpa using fun hh => hpq hh.symm)]
    rw [hGo p hpn hpq] at hp'
    exact hi.dead p hp'
  · intro x ndx p hx
    by_cases hxn : x = n
    · subst hxn
      rw [hGn] at hx; cases hx
      unfold paste
      by_cases hpq : p = q
      · subst hpq; simp
      · have : ¬ (some q = some p) := by simpa using fun hh => hpq hh.symm
        simp only [this, if_false]
        exact ⟨fun hh => absurd hh id, fun hh => absurd hh (hnk p)⟩
    · obtain ⟨nd0, e1, _, e3, _⟩ := hback x ndx hxn hx
      rw [e3, hi.par x nd0 p e1]
      unfold paste
      by_cases hpq : some q = some p
      · rw [if_pos hpq]; simp [hxn]
      · rw [if_neg hpq]
  · intro p
    unfold paste
    by_cases hpq : some q = some p
    · rw [if_pos hpq]; exact List.nodup_cons.2 ⟨hnk p, hi.nodup p⟩
    · rw [if_neg hpq]; exact hi.nodup p
  · intro x ndx hx hpx
    by_cases hxn : x = n
    · subst hxn; rw [hGn] at hx; cases hx; cases hpx
    · obtain ⟨nd0, e1, e2, e3, _⟩ := hback x ndx hxn hx
      rw [e2]; exact hi.last x nd0 e1 (e3 ▸ hpx)
  · obtain ⟨r, hr⟩ := hi.acyc
    classical
    refine ⟨fun x => if Below g n x then r x + (r q + 1) else r x, ?_⟩
    rintro x p ⟨ndx, e1, e2⟩
    by_cases hxn : x = n
    · subst hxn
      rw [hGn] at e1; cases e1
      cases e2
      dsimp only
      rw [if_neg hb, if_pos (show Below g x x from Relation.ReflTransGen.refl)]
      omega
    · obtain ⟨nd0, f1, _, f3, _⟩ := hback x ndx hxn e1
      have hpar : Par g x p := ⟨nd0, f1, f3 ▸ e2⟩
      have hlt := hr x p hpar
      dsimp only
      by_cases hbp : Below g n p
      · rw [if_pos hbp, if_pos (show Below g n x from Relation.ReflTransGen.head hpar hbp)]; omega
      · rw [if_neg hbp]
        split <;> omega
  · obtain ⟨B, hB⟩ := hi.fin
    refine ⟨B, fun a ha => ?_⟩
    have ha0 := hB a ha
    rw [hGo a, ha0]
    · rintro rfl; rw [hn] at ha0; cases ha0
    · rintro rfl; rw [hq] at ha0; cases ha0

theorem below_mono {h h' : Heap T} (hh : ∀ x p, Par h' x p → Par h x p) {n m : Nat} (hb : Below h' n m) :
    Below h n m := Relation.ReflTransGen.mono hh _ _ hb

theorem Inv.below_cut {h g : Heap T} {kids kids'} (hi : Inv h kids) (hg : Inv g kids')
    (hk : ∀ q x, x ∈ kids' q → x ∈ kids q) {n m : Nat} (hb : Below g n m) : Below h n m :=
  below_mono (fun _ _ hp => hi.par_iff.2 (hk _ _ (hg.par_iff.1 hp))) hb

/-- The forest after `set_parent(n, p)`. -/
def moved (kids : Nat → List Nat) (n : Nat) (p : Option Nat) : Nat → List Nat := paste (cut kids n) n p

/-- `set_parent` to NULL or to an allocated node that is not in the subtree of `n`. -/
theorem Inv.setParent {h : Heap T} {kids} (hi : Inv h kids) {n : Nat} {nd} (hn : h n = some nd)
    {p : Option Nat} (hp : ∀ q, p = some q → (∃ nq, h q = some nq) ∧ ¬ Below h n q) :
    ∃ h', setParent h n p = some h' ∧ Inv h' (moved kids n p) ∧ SameData h h' := by
  obtain ⟨h1, e1, e2, e3, nd1, e4, e5⟩ := hi.unlink hn
  unfold Frames.setParent
  simp only [e1, Option.bind_eq_bind, Option.bind_some]
  cases p with
  | none =>
    refine ⟨_, rfl, ?_, e3.trans (sameData_upd _ _ _ (fun _ => ⟨rfl, rfl⟩))⟩
    exact e2
  | some q =>
    obtain ⟨⟨nq, hq⟩, hb⟩ := hp q rfl
    have hnq : q ≠ n := by rintro rfl; exact hb Relation.ReflTransGen.refl
    obtain ⟨nq1, f1, _, _⟩ := e3.some hq
    dsimp only
    unfold register
    simp only [upd_ne _ _ hnq, f1, upd_same, e4, Option.map_some, Option.bind_eq_bind, Option.bind_some]
    refine ⟨_, rfl, ?_, ?_⟩
    · have := e2.attach (n := n) (q := q) (nd := { nd1 with parent := none }) (nq := nq1)
        (by rw [upd_same, e4]; rfl) rfl (by rw [upd_ne _ _ hnq, f1])
        (fun hh => hb (hi.below_cut e2 (fun q x hx => List.mem_of_mem_erase hx) hh))
      rw [upd_upd h1] at this
      exact this
    · refine e3.trans ((sameData_upd _ _ _ ?_).trans ((sameData_upd _ _ _ ?_).trans (sameData_upd _ _ _ ?_)))
      all_goals intro _; exact ⟨rfl, rfl⟩

/-- A fresh address extended by an isolated root. -/
theorem Inv.fresh {h : Heap T} {kids} (hi : Inv h kids) {a : Nat} (ha : h a = none) (nd : Node T)
    (h1 : nd.parent = none) (h2 : nd.first = none) (h3 : nd.next = none) :
    Inv (fun x => if x = a then some nd else h x) kids := by
  have hak : ∀ p, a ∉ kids p := by
    intro p hp
    obtain ⟨⟨nd, e, _⟩, _⟩ := hi.kid_alloc hp
    rw [ha] at e; cases e
  have hch : ∀ s p, Chain h s (kids p) → Chain (fun x => if x = a then some nd else h x) s (kids p) := by
    intro s p hc
    refine hc.congr (fun x hx ndx hxx => ⟨ndx, ?_, rfl⟩)
    rw [if_neg (fun hh : x = a => hak p (hh ▸ hx)), hxx]
  refine ⟨?_, ?_, ?_, hi.nodup, ?_, ?_, ?_⟩
  · intro p ndp hp
    split at hp
    · cases hp; subst_vars; rw [hi.dead p ha, h2]; rfl
    · exact hch _ _ (hi.chain p ndp hp)
  · intro p hp
    split at hp
    · cases hp
    · exact hi.dead p hp
  · intro x ndx p hx
    split at hx
    · cases hx; subst_vars
      rw [h1]
      exact ⟨fun hh => (by cases hh), fun hh => absurd hh (hak p)⟩
    · exact hi.par x ndx p hx
  · intro x ndx hx hp
    split at hx
    · cases hx; exact h3
    · exact hi.last x ndx hx hp
  · obtain ⟨r, hr⟩ := hi.acyc
    refine ⟨r, ?_⟩
    rintro x p ⟨ndx, e1, e2⟩
    dsimp only at e1
    split at e1
    · cases e1; rw [h1] at e2; cases e2
    · exact hr x p ⟨ndx, e1, e2⟩
  · obtain ⟨B, hB⟩ := hi.fin
    refine ⟨B + a + 1, fun x hx => ?_⟩
    rw [if_neg (by omega), hB x (by omega)]

/-- The constructor. -/
theorem Inv.newNode {h : Heap T} {kids} (hi : Inv h kids) {a : Nat} (ha : h a = none) {p : Option Nat}
    (hp : ∀ q, p = some q → ∃ nq, h q = some nq) (name : Str) (t : T) :
    ∃ h', newNode h a p name t = some h' ∧ Inv h' (paste kids a p) ∧
      (∃ nd, h' a = some nd ∧ nd.name = name ∧ nd.trans = t ∧ nd.parent = p) ∧
      ∀ x, x ≠ a → (h' x).map (fun nd => (nd.name, nd.trans)) = (h x).map (fun nd => (nd.name, nd.trans)) := by
  cases p with
  | none =>
    refine ⟨_, rfl, hi.fresh ha _ rfl rfl rfl, ⟨_, if_pos rfl, rfl, rfl, rfl⟩, fun x hx => ?_⟩
    rw [if_neg hx]
  | some q =>
    obtain ⟨nq, hq⟩ := hp q rfl
    have hqa : q ≠ a := by rintro rfl; rw [hq] at ha; cases ha
    have hf := hi.fresh (a := a) ha { name := name, trans := t, parent := none, first := none, next := none }
      rfl rfl rfl
    have hb : ¬ Below (fun x => if x = a then
        some ({ name := name, trans := t, parent := none, first := none, next := none } : Node T) else h x)
        a q := by
      intro hh
      rcases Relation.ReflTransGen.cases_tail hh with e | ⟨c, _, hc⟩
      · exact hqa e.symm
      · have hc2 := hf.par_iff.1 hc
        rw [hi.dead a ha] at hc2; cases hc2
    have := hf.attach (n := a) (q := q) (nq := nq) (if_pos rfl) rfl (by rw [if_neg hqa, hq]) hb
    have hfun : upd (fun x => if x = a then
        some ({ name := name, trans := t, parent := none, first := none, next := none } : Node T) else h x)
        a (fun nd => { nd with parent := some q }) = (fun x => if x = a then
        some ({ name := name, trans := t, parent := some q, first := none, next := none } : Node T)
          else h x) := by
      funext x
      unfold upd
      by_cases hx : x = a <;> simp [hx]
    rw [hfun] at this
    unfold Frames.newNode
    dsimp only
    unfold register
    simp only [if_neg hqa, hq, if_true, Option.bind_eq_bind, Option.bind_some]
    refine ⟨_, rfl, this, ?_, ?_⟩
    · rw [upd_ne _ _ hqa.symm, upd_same]
      simp only [if_true, Option.map_some]
      exact ⟨_, rfl, rfl, rfl, rfl⟩
    · intro x hx
      by_cases hxq : x = q
      · subst hxq
        rw [upd_same, upd_ne _ _ hx]
        simp [hx, hq]
      · rw [upd_ne _ _ hxq, upd_ne _ _ hx]; simp [hx]

/-- Releasing an isolated root. -/
theorem Inv.freed {h : Heap T} {kids} (hi : Inv h kids) {n : Nat} {nd} (hn : h n = some nd)
    (hp : nd.parent = none) (hk : kids n = []) : Inv (free h n) kids := by
  have hnk : ∀ p, n ∉ kids p := by
    intro p hh
    have := (hi.par n nd p hn).2 hh
    rw [hp] at this; cases this
  have hne : ∀ x ndx, free h n x = some ndx → x ≠ n ∧ h x = some ndx := by
    intro x ndx hx
    unfold free at hx
    split at hx
    · cases hx
    · exact ⟨by assumption, hx⟩
  refine ⟨?_, ?_, ?_, hi.nodup, ?_, ?_, ?_⟩
  · intro p ndp hpp
    obtain ⟨_, hpp⟩ := hne p ndp hpp
    refine (hi.chain p ndp hpp).congr (fun x hx ndx hxx => ⟨ndx, ?_, rfl⟩)
    unfold free
    rw [if_neg (fun hh : x = n => hnk p (hh ▸ hx)), hxx]
  · intro p hpp
    unfold free at hpp
    split at hpp
    · subst_vars; exact hk
    · exact hi.dead p hpp
  · intro x ndx p hx; exact hi.par x ndx p (hne x ndx hx).2
  · intro x ndx hx; exact hi.last x ndx (hne x ndx hx).2
  · obtain ⟨r, hr⟩ := hi.acyc
    exact ⟨r, fun x p ⟨ndx, e1, e2⟩ => hr x p ⟨ndx, (hne x ndx e1).2, e2⟩⟩
  · obtain ⟨B, hB⟩ := hi.fin
    refine ⟨B, fun a ha => ?_⟩
    unfold free
    split
    · rfl
    · exact hB a ha

/-- The forest with the children of `n` turned into roots. -/
def orphaned (kids : Nat → List Nat) (n : Nat) : Nat → List Nat := fun x => if x = n then [] else kids x

theorem Inv.dropKids {n : Nat} (x : Option Nat) : ∀ (L : List Nat) (g : Heap T) (kids : Nat → List Nat) (nd : Node T),
    Inv g kids → g n = some nd → kids n = L →
    ∃ g', dropKids (upd g n (fun nd => { nd with parent := x })) n
        = some (upd g' n (fun nd => { nd with parent := x })) ∧ Inv g' (orphaned kids n) ∧ SameData g g' ∧
      ∃ nd', g' n = some nd' ∧ nd'.parent = nd.parent
  | [], g, kids, nd, hi, hn, hL => by
    have hf : nd.first = none := by
      have := hi.chain n nd hn
      rw [hL] at this; exact this
    refine ⟨g, ?_, ?_, SameData.refl _, nd, hn, rfl⟩
    · rw [Frames.dropKids]
      simp only [upd_same, hn, Option.map_some, Option.bind_eq_bind, Option.bind_some, hf]
    · have : orphaned kids n = kids := by
        funext y
        unfold orphaned
        split
        · subst_vars; rw [hL]
        · rfl
      rw [this]; exact hi
  | c :: L, g, kids, nd, hi, hn, hL => by
    have hch := hi.chain n nd hn
    rw [hL] at hch
    obtain ⟨hf, nc, hc, hcl⟩ := hch
    have hck : c ∈ kids n := by rw [hL]; exact List.mem_cons_self
    have hcn : c ≠ n := by rintro rfl; exact hi.irrefl hck
    have hcp : nc.parent = some n := (hi.par c nc n hc).2 hck
    -- one step on the forest
    obtain ⟨g1, e1, e2, e3⟩ := hi.setParent hc (p := none) (by intro q hq; cases hq)
    -- the same step with the parent pointer of `n` changed
    have estep : Frames.setParent (upd g n (fun nd => { nd with parent := x })) c none
        = some (upd g1 n (fun nd => { nd with parent := x })) := by
      have hform : ∀ (G : Heap T) (nn : Node T), G n = some nn → nn.first = some c → G c = some nc →
          Frames.setParent G c none = some (upd (upd (upd G n (fun nd => { nd with first := nc.next }))
            c (fun nd => { nd with next := none })) c (fun nd => { nd with parent := none })) := by
        intro G nn hG1 hG2 hG3
        unfold Frames.setParent Frames.unlink deregister
        simp only [hG3, hcp, hG1, hG2, Option.bind_eq_bind, Option.bind_some]
        rw [deregLoop, if_pos rfl]
        simp only [hG3, Option.bind_eq_bind, Option.bind_some]
        rfl
      have h1 := hform g nd hn hf hc
      rw [e1] at h1
      have h1' := Option.some.inj h1
      rw [hform (upd g n (fun nd => { nd with parent := x })) { nd with parent := x }
        (by rw [upd_same, hn]; rfl) hf (by rw [upd_ne _ _ hcn, hc]), h1']
      congr 1
      have hcomm : ∀ f : Node T → Node T, ∀ G : Heap T,
          upd (upd G n (fun nd => { nd with parent := x })) c f = upd (upd G c f) n
            (fun nd => { nd with parent := x }) := fun f G => upd_comm_ne G hcn.symm _ _
      rw [upd_comm g n n (fun nd => { nd with parent := x }) (fun nd => { nd with first := nc.next })
        (fun _ => rfl), hcomm, hcomm]
    have hkids1 : moved kids c none n = L := by
      show cut kids c n = L
      unfold cut
      rw [hL, List.erase_cons_head]
    obtain ⟨nd1, d1, d2⟩ : ∃ nd1, g1 n = some nd1 ∧ nd1.parent = nd.parent := by
      obtain ⟨nd1, d1, _, _⟩ := e3.some hn
      refine ⟨nd1, d1, ?_⟩
      -- parents of nodes other than `c` are unchanged
      cases hpn : nd1.parent with
      | none =>
        cases hpo : nd.parent with
        | none => rfl
        | some z =>
          have hz := (hi.par n nd z hn).1 hpo
          have hz2 : n ∈ moved kids c none z := (mem_cut hi).2 ⟨hcn.symm, hz⟩
          have := (e2.par n nd1 z d1).2 hz2
          rw [hpn] at this; cases this
      | some z =>
        have hz := (e2.par n nd1 z d1).1 hpn
        have hz2 : n ∈ kids z := List.mem_of_mem_erase hz
        exact ((hi.par n nd z hn).2 hz2).symm
    obtain ⟨g', f1, f2, f3, nd', f4, f5⟩ := Inv.dropKids x L g1 _ nd1 e2 d1 hkids1
    refine ⟨g', ?_, ?_, e3.trans f3, nd', f4, f5.trans d2⟩
    · rw [Frames.dropKids]
      simp only [upd_same, hn, Option.map_some, Option.bind_eq_bind, Option.bind_some, hf, estep]
      exact f1
    · have : orphaned (moved kids c none) n = orphaned kids n := by
        funext y
        unfold orphaned
        by_cases hy : y = n
        · rw [if_pos hy, if_pos hy]
        · rw [if_neg hy, if_neg hy]
          exact cut_eq hi hck hy
      rw [← this]; exact f2

/-- `delete node`: the node disappears, its children become roots. -/
theorem Inv.destroy {h : Heap T} {kids} (hi : Inv h kids) {n : Nat} {nd} (hn : h n = some nd) :
    ∃ h', destroy h n = some h' ∧ Inv h' (orphaned (cut kids n) n) ∧ h' n = none ∧
      ∀ x, x ≠ n → (h' x).map (fun nd => (nd.name, nd.trans)) = (h x).map (fun nd => (nd.name, nd.trans)) := by
  obtain ⟨h1, e1, e2, e3, nd1, e4, e5⟩ := hi.unlink hn
  have hx : upd (upd h1 n (fun nd => { nd with parent := none })) n (fun nd1' => { nd1' with parent := nd.parent })
      = h1 := by
    rw [upd_upd]
    funext y
    by_cases hy : y = n
    · subst hy; rw [upd_same, e4]; cases nd1; simp at e5; subst e5; rfl
    · rw [upd_ne _ _ hy]
  obtain ⟨g', f1, f2, f3, nd', f4, f5⟩ := Inv.dropKids nd.parent _
    (upd h1 n (fun nd => { nd with parent := none })) _ { nd1 with parent := none } e2
    (by rw [upd_same, e4]; rfl) rfl
  rw [hx] at f1
  refine ⟨free g' n, ?_, f2.freed f4 f5 ?_, if_pos rfl, ?_⟩
  · unfold Frames.destroy
    simp only [e1, f1, Option.bind_eq_bind, Option.bind_some]
    congr 1
    funext y
    unfold free
    split
    · rfl
    · rename_i hy; rw [upd_ne _ _ hy]
  · unfold orphaned; rw [if_pos rfl]
  · intro x hxn
    unfold free
    rw [if_neg hxn, f3 x, upd_ne _ _ hxn, e3 x]

end Verif.Geom.Frames
