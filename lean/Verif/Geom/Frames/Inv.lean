import Mathlib.Logic.Relation
import Mathlib.Data.List.Basic
import Verif.Geom.Frames.Heap

/-
The forest represented by a heap of tree nodes, and the effect of the pointer operations on it.
-/

namespace Verif.Geom.Frames

variable {T : Type}

/-- `p` is the parent of `n`. -/
def Par (h : Heap T) (n p : Nat) : Prop := ∃ nd, h n = some nd ∧ nd.parent = some p

/-- `m` is `n` or lies below it (following the parent pointers of `m` leads to `n`). -/
def Below (h : Heap T) (n m : Nat) : Prop := Relation.ReflTransGen (Par h) m n

/-- Following the sibling links from `s` visits exactly `L` and ends at NULL. -/
def Chain (h : Heap T) : Option Nat → List Nat → Prop
  | s, [] => s = none
  | s, a :: L => s = some a ∧ ∃ nd, h a = some nd ∧ Chain h nd.next L

/-- The heap represents the forest in which `kids p` are the children of `p`, in sibling order. -/
structure Inv (h : Heap T) (kids : Nat → List Nat) : Prop where
  chain : ∀ p nd, h p = some nd → Chain h nd.first (kids p)
  dead : ∀ p, h p = none → kids p = []
  par : ∀ n nd p, h n = some nd → (nd.parent = some p ↔ n ∈ kids p)
  nodup : ∀ p, (kids p).Nodup
  last : ∀ n nd, h n = some nd → nd.parent = none → nd.next = none
  acyc : ∃ rank : Nat → Nat, ∀ n p, Par h n p → rank p < rank n
  fin : ∃ B, ∀ a, B ≤ a → h a = none

/-- Names and transforms of the nodes are those of before, and the same nodes are allocated. -/
def SameData (h h' : Heap T) : Prop :=
  ∀ x, (h' x).map (fun nd => (nd.name, nd.trans)) = (h x).map (fun nd => (nd.name, nd.trans))

theorem SameData.refl (h : Heap T) : SameData h h := fun _ => rfl
theorem SameData.trans {h1 h2 h3 : Heap T} (a : SameData h1 h2) (b : SameData h2 h3) : SameData h1 h3 :=
  fun x => (b x).trans (a x)
theorem SameData.symm {h1 h2 : Heap T} (a : SameData h1 h2) : SameData h2 h1 := fun x => (a x).symm

theorem SameData.some {h h' : Heap T} (a : SameData h h') {x : Nat} {nd : Node T} (hx : h x = some nd) :
    ∃ nd', h' x = some nd' ∧ nd'.name = nd.name ∧ nd'.trans = nd.trans := by
  have := a x
  rw [hx] at this
  cases hx' : h' x with
  | none => rw [hx'] at this; cases this
  | some nd' =>
    rw [hx'] at this
    simp only [Option.map_some, Option.some.injEq, Prod.mk.injEq] at this
    exact ⟨nd', rfl, this.1, this.2⟩

theorem SameData.none_iff {h h' : Heap T} (a : SameData h h') (x : Nat) : h' x = none ↔ h x = none := by
  have := a x
  constructor <;> intro hh
  · rw [hh] at this
    cases hx : h x with
    | none => rfl
    | some _ => rw [hx] at this; cases this
  · rw [hh] at this
    cases hx : h' x with
    | none => rfl
    | some _ => rw [hx] at this; cases this

/-! ### Heap updates -/

theorem upd_same (h : Heap T) (a : Nat) (f : Node T → Node T) : upd h a f a = (h a).map f := if_pos rfl
theorem upd_ne (h : Heap T) {a x : Nat} (f : Node T → Node T) (hx : x ≠ a) : upd h a f x = h x := if_neg hx

theorem upd_comm (h : Heap T) (a b : Nat) (f g : Node T → Node T) (hfg : ∀ nd, f (g nd) = g (f nd)) :
    upd (upd h a f) b g = upd (upd h b g) a f := by
  funext x
  unfold upd
  by_cases ha : x = a <;> by_cases hb : x = b <;> simp only [ha, hb, if_true, if_false]
  · cases h' : h b
    · subst hb; subst ha; simp [h']
    · subst hb; subst ha; simp [h', hfg]
  · subst ha; simp [hb]
  · subst hb; simp [ha]

theorem upd_comm_ne (h : Heap T) {a b : Nat} (hab : a ≠ b) (f g : Node T → Node T) :
    upd (upd h a f) b g = upd (upd h b g) a f := by
  funext x
  unfold upd
  by_cases ha : x = a <;> by_cases hb : x = b <;> simp only [ha, hb, if_true, if_false]
  · exact absurd (ha.symm.trans hb) hab
  · subst ha; simp [hb]
  · subst hb; simp [ha]

theorem upd_upd (h : Heap T) (a : Nat) (f g : Node T → Node T) :
    upd (upd h a f) a g = upd h a (fun nd => g (f nd)) := by
  funext x
  unfold upd
  by_cases ha : x = a <;> simp only [ha, if_true, if_false]
  cases h a <;> rfl

theorem sameData_upd (h : Heap T) (a : Nat) (f : Node T → Node T)
    (hf : ∀ nd, (f nd).name = nd.name ∧ (f nd).trans = nd.trans) : SameData h (upd h a f) := by
  intro x
  unfold upd
  by_cases ha : x = a <;> simp only [ha, if_true, if_false]
  cases h a with
  | none => rfl
  | some nd => simp [hf nd]

theorem sameData_setLink (h : Heap T) (l : Link) (v : Option Nat) : SameData h (setLink h l v) := by
  cases l <;> exact sameData_upd _ _ _ (fun nd => ⟨rfl, rfl⟩)

/-! ### Chains -/

theorem Chain.congr {h h' : Heap T} : ∀ {L : List Nat} {s : Option Nat}, Chain h s L →
    (∀ x ∈ L, ∀ nd, h x = some nd → ∃ nd', h' x = some nd' ∧ nd'.next = nd.next) → Chain h' s L
  | [], _, hc, _ => hc
  | a :: L, s, ⟨hs, nd, hnd, hc⟩, hh => by
    obtain ⟨nd', h1, h2⟩ := hh a (by simp) nd hnd
    refine ⟨hs, nd', h1, ?_⟩
    rw [h2]
    exact hc.congr (fun x hx => hh x (List.mem_cons_of_mem _ hx))

theorem Chain.alloc {h : Heap T} : ∀ {L : List Nat} {s : Option Nat}, Chain h s L → ∀ x ∈ L,
    ∃ nd, h x = some nd
  | a :: L, s, ⟨_, nd, hnd, hc⟩, x, hx => by
    rcases List.mem_cons.1 hx with rfl | hx
    · exact ⟨nd, hnd⟩
    · exact hc.alloc x hx

theorem sibs_eq {h : Heap T} : ∀ {L : List Nat} {s : Option Nat}, Chain h s L → sibs h s = some L
  | [], s, hc => by
    have : s = none := hc
    subst this; rw [sibs]
  | a :: L, s, ⟨hs, nd, hnd, hc⟩ => by
    subst hs
    rw [sibs]
    simp only [hnd, sibs_eq hc, Option.bind_eq_bind, Option.bind_some]

/-- Where `prev` points when the loop reaches the node after `A`. -/
def lastLink (prev : Link) : List Nat → Link
  | [] => prev
  | a :: A => lastLink (.after a) A

theorem lastLink_concat : ∀ (A : List Nat) (prev : Link) (a : Nat), lastLink prev (A ++ [a]) = .after a
  | [], _, _ => rfl
  | _ :: A, _, a => lastLink_concat A _ a

theorem deregLoop_split {h : Heap T} {c : Nat} {B : List Nat} : ∀ (A : List Nat) (prev : Link)
    (s : Option Nat), Chain h s (A ++ c :: B) → c ∉ A → ∃ nc, h c = some nc ∧ Chain h nc.next B ∧
    deregLoop h prev s c
      = some (upd (setLink h (lastLink prev A) nc.next) c (fun nd => { nd with next := none }))
  | [], prev, s, hc, _ => by
    obtain ⟨hs, nd, hnd, hc⟩ := hc
    subst hs
    refine ⟨nd, hnd, hc, ?_⟩
    rw [deregLoop, if_pos rfl]
    simp only [hnd, Option.bind_eq_bind, Option.bind_some]
    rfl
  | a :: A, prev, s, hc, hn => by
    obtain ⟨hs, nd, hnd, hc⟩ := hc
    subst hs
    obtain ⟨nc, h1, h2, h3⟩ := deregLoop_split A (.after a) nd.next hc
      (fun hh => hn (List.mem_cons_of_mem _ hh))
    refine ⟨nc, h1, h2, ?_⟩
    rw [deregLoop, if_neg (fun hh => hn (by rw [hh]; exact List.mem_cons_self))]
    simp only [hnd, Option.bind_eq_bind, Option.bind_some]
    exact h3

/-- The chain after its member `c` has been bypassed by the link of the last node of `A`. -/
theorem Chain.bypass {h : Heap T} {c : Nat} {nc : Node T} {B : List Nat} (hnc : h c = some nc) :
    ∀ (A : List Nat) (a : Nat) (s : Option Nat),
    Chain h s (A ++ a :: c :: B) → (A ++ a :: c :: B).Nodup →
    Chain (upd (upd h a (fun nd => { nd with next := nc.next })) c (fun nd => { nd with next := none })) s
      (A ++ a :: B)
  | [], a, s, hc, hn => by
    obtain ⟨hs, nd, hnd, hs2, nd2, hnd2, hc⟩ := hc
    rw [hnd2] at hnc; cases hnc
    simp only [List.nil_append, List.nodup_cons, List.mem_cons, not_or] at hn
    refine ⟨hs, { nd with next := nc.next }, ?_, ?_⟩
    · rw [upd_ne _ _ hn.1.1, upd_same, hnd]; rfl
    · refine hc.congr (fun x hx ndx hxx => ⟨ndx, ?_, rfl⟩)
      rw [upd_ne, upd_ne, hxx]
      · rintro rfl; exact hn.1.2 hx
      · rintro rfl; exact hn.2.1 hx
  | b :: A, a, s, hc, hn => by
    obtain ⟨hs, nd, hnd, hc⟩ := hc
    simp only [List.cons_append, List.nodup_cons, List.mem_append, List.mem_cons, not_or] at hn
    refine ⟨hs, nd, ?_, Chain.bypass hnc A a nd.next hc hn.2⟩
    rw [upd_ne, upd_ne, hnd]
    · exact hn.1.2.1
    · exact hn.1.2.2.1

/-! ### The forest -/

theorem Inv.children_eq {h : Heap T} {kids} (hi : Inv h kids) {p : Nat} {nd} (hp : h p = some nd) :
    children h p = some (kids p) := by
  unfold children
  simp only [hp, Option.bind_eq_bind, Option.bind_some]
  exact sibs_eq (hi.chain p nd hp)

theorem Inv.kid_alloc {h : Heap T} {kids} (hi : Inv h kids) {p n : Nat} (hn : n ∈ kids p) :
    (∃ nd, h n = some nd ∧ nd.parent = some p) ∧ ∃ np, h p = some np := by
  cases hp : h p with
  | none => rw [hi.dead p hp] at hn; cases hn
  | some np =>
    obtain ⟨nd, hnd⟩ := (hi.chain p np hp).alloc n hn
    exact ⟨⟨nd, hnd, (hi.par n nd p hnd).2 hn⟩, np, rfl⟩

theorem Inv.par_iff {h : Heap T} {kids} (hi : Inv h kids) {p n : Nat} : Par h n p ↔ n ∈ kids p := by
  constructor
  · rintro ⟨nd, h1, h2⟩; exact (hi.par n nd p h1).1 h2
  · intro hn; exact (hi.kid_alloc hn).1

theorem Inv.unique {h : Heap T} {kids} (hi : Inv h kids) {p q n : Nat} (hp : n ∈ kids p) (hq : n ∈ kids q) :
    p = q := by
  obtain ⟨⟨nd, h1, h2⟩, _⟩ := hi.kid_alloc hp
  have := (hi.par n nd q h1).2 hq
  rw [h2] at this
  exact Option.some.inj this

theorem Inv.irrefl {h : Heap T} {kids} (hi : Inv h kids) {n : Nat} : n ∉ kids n := by
  intro hn
  obtain ⟨r, hr⟩ := hi.acyc
  exact Nat.lt_irrefl _ (hr n n (hi.par_iff.2 hn))

/-- The state after a node has been cut from its parent (its own parent pointer reset). -/
def cut (kids : Nat → List Nat) (n : Nat) : Nat → List Nat := fun q => (kids q).erase n

theorem cut_eq {h : Heap T} {kids} (hi : Inv h kids) {n q : Nat} (hq : n ∈ kids q) {x : Nat} (hx : x ≠ q) :
    cut kids n x = kids x :=
  List.erase_of_not_mem (fun hh => hx (hi.unique hh hq))

theorem mem_cut {h : Heap T} {kids} (hi : Inv h kids) {n q x : Nat} :
    x ∈ cut kids n q ↔ x ≠ n ∧ x ∈ kids q := (hi.nodup q).mem_erase_iff

theorem cut_root {h : Heap T} {kids} (hi : Inv h kids) {n : Nat} {nd} (hn : h n = some nd)
    (hp : nd.parent = none) : cut kids n = kids := by
  funext x
  refine List.erase_of_not_mem (fun hh => ?_)
  have := (hi.par n nd x hn).2 hh
  rw [hp] at this; cases this

/-- Only the parent pointers matter for `Par`. -/
theorem par_of {h h' : Heap T} {n p : Nat} (hp : Par h n p)
    (hh : ∀ nd, h n = some nd → ∃ nd', h' n = some nd' ∧ nd'.parent = nd.parent) : Par h' n p := by
  obtain ⟨nd, h1, h2⟩ := hp
  obtain ⟨nd', h3, h4⟩ := hh nd h1
  exact ⟨nd', h3, h4.trans h2⟩

/-- `unlink` removes the node from its parent's list of children and changes nothing else that can be
seen; `upd … parent := none` is the state with the parent pointer reset. -/
theorem Inv.unlink {h : Heap T} {kids} (hi : Inv h kids) {n : Nat} {nd} (hn : h n = some nd) :
    ∃ h1, unlink h n = some h1 ∧ Inv (upd h1 n (fun nd => { nd with parent := none })) (cut kids n) ∧
      SameData h h1 ∧ (∃ nd1, h1 n = some nd1 ∧ nd1.parent = nd.parent) := by
  unfold Frames.unlink
  simp only [hn, Option.bind_eq_bind, Option.bind_some]
  cases hp : nd.parent with
  | none =>
    refine ⟨h, rfl, ?_, SameData.refl _, nd, hn, hp⟩
    rw [cut_root hi hn hp]
    have : upd h n (fun nd => { nd with parent := none }) = h := by
      funext x
      by_cases hx : x = n
      · subst hx
        rw [upd_same, hn]
        cases nd; simp at hp; subst hp; rfl
      · rw [upd_ne _ _ hx]
    rw [this]
    exact hi
  | some q =>
    have hnq : n ∈ kids q := (hi.par n nd q hn).1 hp
    obtain ⟨np, hq⟩ := (hi.kid_alloc hnq).2
    have hch := hi.chain q np hq
    obtain ⟨A, B, hAB⟩ := List.append_of_mem hnq
    have hnd := hi.nodup q
    rw [hAB] at hch hnd
    have hnA : n ∉ A := by
      intro hh
      exact (List.nodup_append.1 hnd).2.2 n hh n List.mem_cons_self rfl
    have hnB : n ∉ B := (List.nodup_cons.1 (List.nodup_append.1 hnd).2.1).1
    obtain ⟨nc, h1, h2, h3⟩ := deregLoop_split A (.head q) np.first hch hnA
    rw [hn] at h1; cases h1
    have herase : cut kids n q = A ++ B := by
      unfold cut
      rw [hAB, List.erase_append_right _ hnA, List.erase_cons_head]
    have hnq' : n ≠ q := by
      rintro rfl; exact hi.irrefl hnq
    refine ⟨upd (setLink h (lastLink (.head q) A) nd.next) n (fun nd => { nd with next := none }), ?_,
      ?_, ?_, ?_⟩
    · dsimp only
      unfold deregister
      simp only [hq, Option.bind_eq_bind, Option.bind_some]
      exact h3
    · -- the new forest
      have hupd : upd (upd (setLink h (lastLink (.head q) A) nd.next) n (fun nd => { nd with next := none }))
          n (fun nd => { nd with parent := none })
          = upd (setLink h (lastLink (.head q) A) nd.next) n
            (fun nd => { nd with next := none, parent := none }) := upd_upd _ _ _ _
      rw [hupd]
      generalize hg : upd (setLink h (lastLink (.head q) A) nd.next) n
            (fun nd => { nd with next := none, parent := none }) = g
      -- what the new heap looks like, node by node
      have hgn : g n = some { nd with next := none, parent := none } := by
        rw [← hg, upd_same]
        have : setLink h (lastLink (.head q) A) nd.next n = some nd := by
          rcases List.eq_nil_or_concat A with rfl | ⟨A', a, rfl⟩
          · show upd h q _ n = _
            rw [upd_ne _ _ hnq', hn]
          · rw [List.concat_eq_append] at hnA ⊢
            rw [lastLink_concat]
            show upd h a _ n = _
            rw [upd_ne, hn]
            rintro rfl; simp at hnA
        rw [this]; rfl
      have hgo : ∀ x ndx, x ≠ n → h x = some ndx → ∃ nd', g x = some nd' ∧ nd'.parent = ndx.parent ∧
          (x ≠ q → nd'.first = ndx.first) ∧ (x ∉ A → nd'.next = ndx.next) := by
        intro x ndx hxn hx
        rw [← hg, upd_ne _ _ hxn]
        rcases List.eq_nil_or_concat A with rfl | ⟨A', a, rfl⟩
        · show ∃ nd', upd h q _ x = _ ∧ _
          by_cases hxq : x = q
          · subst hxq
            rw [upd_same, hx]
            exact ⟨_, rfl, rfl, fun hh => absurd rfl hh, fun _ => rfl⟩
          · rw [upd_ne _ _ hxq, hx]
            exact ⟨_, rfl, rfl, fun _ => rfl, fun _ => rfl⟩
        · rw [List.concat_eq_append, lastLink_concat]
          show ∃ nd', upd h a _ x = _ ∧ _
          by_cases hxa : x = a
          · subst hxa
            rw [upd_same, hx]
            exact ⟨_, rfl, rfl, fun _ => rfl, fun hh => absurd (by simp) hh⟩
          · rw [upd_ne _ _ hxa, hx]
            exact ⟨_, rfl, rfl, fun _ => rfl, fun _ => rfl⟩
      have hgnone : ∀ x, h x = none → g x = none := by
        intro x hx
        rw [← hg]
        have h0 : ∀ l v, setLink h l v x = none := by
          intro l v
          exact ((sameData_setLink h l v).none_iff x).2 hx
        by_cases hxn : x = n
        · subst hxn; rw [upd_same, h0]; rfl
        · rw [upd_ne _ _ hxn, h0]
      have hback : ∀ x nd', x ≠ n → g x = some nd' → ∃ ndx, h x = some ndx ∧ nd'.parent = ndx.parent ∧
          (x ≠ q → nd'.first = ndx.first) ∧ (x ∉ A → nd'.next = ndx.next) := by
        intro x nd' hxn hx
        cases hhx : h x with
        | none => rw [hgnone x hhx] at hx; cases hx
        | some ndx =>
          obtain ⟨nd'', h1, h2⟩ := hgo x ndx hxn hhx
          rw [hx] at h1; cases h1
          exact ⟨ndx, rfl, h2⟩
      have hAq : ∀ x, x ∈ A → x ∈ kids q := fun x hx => by rw [hAB]; simp [hx]
      refine ⟨?_, ?_, ?_, ?_, ?_, ?_, ?_⟩
      · -- chains
        intro p ndp hp'
        by_cases hpq : p = q
        · subst hpq
          rw [herase]
          rcases List.eq_nil_or_concat A with rfl | ⟨A', a, rfl⟩
          · have hf : ndp.first = nd.next := by
              have : g p = some { np with first := nd.next } := by
                rw [← hg, upd_ne _ _ hnq'.symm]
                show upd h p _ p = _
                rw [upd_same, hq]; rfl
              rw [this] at hp'; cases hp'; rfl
            rw [hf]
            refine h2.congr (fun x hx ndx hxx => ?_)
            obtain ⟨nd', e1, _, _, e4⟩ := hgo x ndx (fun hh => hnB (hh ▸ hx)) hxx
            exact ⟨nd', e1, e4 (by simp)⟩
          · have hpf : ndp.first = np.first := by
              have : g p = some np := by
                rw [← hg, upd_ne _ _ hnq'.symm, List.concat_eq_append, lastLink_concat]
                show upd h a _ p = _
                rw [upd_ne, hq]
                rintro rfl
                exact hi.irrefl (hAq p (by simp))
              rw [this] at hp'; cases hp'; rfl
            rw [hpf]
            have hcon : A'.concat a ++ n :: B = A' ++ a :: n :: B := by simp [List.concat_eq_append]
            rw [hcon] at hch hnd
            have hb := Chain.bypass hn A' a np.first hch hnd
            have hcon2 : A'.concat a ++ B = A' ++ a :: B := by simp [List.concat_eq_append]
            rw [hcon2]
            refine hb.congr (fun x hx ndx hxx => ?_)
            have hxn : x ≠ n := by
              rintro rfl
              rw [List.concat_eq_append] at hnA
              simp only [List.mem_append, List.mem_cons, List.not_mem_nil, or_false, not_or] at hnA hx
              rcases hx with hx | hx | hx
              · exact hnA.1 hx
              · exact hnA.2 hx
              · exact hnB hx
            rw [upd_ne _ _ hxn] at hxx
            refine ⟨ndx, ?_, rfl⟩
            rw [← hg, upd_ne _ _ hxn, List.concat_eq_append, lastLink_concat]
            exact hxx
        · rw [cut_eq hi hnq hpq]
          have hpc : ∃ ndx, h p = some ndx ∧ ndp.first = ndx.first := by
            by_cases hpn : p = n
            · subst hpn
              rw [hgn] at hp'; cases hp'
              exact ⟨nd, hn, rfl⟩
            · obtain ⟨ndx, e1, _, e3, _⟩ := hback p ndp hpn hp'
              exact ⟨ndx, e1, e3 hpq⟩
          obtain ⟨ndx, e1, e2⟩ := hpc
          rw [e2]
          refine (hi.chain p ndx e1).congr (fun x hx ndx' hxx => ?_)
          have hxn : x ≠ n := by
            rintro rfl; exact hpq (hi.unique hx hnq)
          obtain ⟨nd', f1, _, _, f4⟩ := hgo x ndx' hxn hxx
          exact ⟨nd', f1, f4 (fun hh => hpq (hi.unique hx (hAq x hh)))⟩
      · intro p hp'
        have hp0 : h p = none := by
          cases hhp : h p with
          | none => rfl
          | some ndp =>
            by_cases hpn : p = n
            · subst hpn; rw [hgn] at hp'; cases hp'
            · obtain ⟨_, e, _⟩ := hgo p ndp hpn hhp
              rw [hp'] at e; cases e
        unfold cut; rw [hi.dead p hp0]; rfl
      · intro x ndx p hx
        rw [mem_cut hi]
        by_cases hxn : x = n
        · subst hxn
          rw [hgn] at hx; cases hx
          simp
        · obtain ⟨nd0, e1, e2, _⟩ := hback x ndx hxn hx
          rw [e2, hi.par x nd0 p e1]
          simp [hxn]
      · intro p; exact (hi.nodup p).erase n
      · intro x ndx hx hpx
        by_cases hxn : x = n
        · subst hxn; rw [hgn] at hx; cases hx; rfl
        · obtain ⟨nd0, e1, e2, _, e4⟩ := hback x ndx hxn hx
          rw [e4]
          · exact hi.last x nd0 e1 (e2 ▸ hpx)
          · intro hxA
            have := (hi.par x nd0 q e1).2 (hAq x hxA)
            rw [← e2, hpx] at this; cases this
      · obtain ⟨r, hr⟩ := hi.acyc
        refine ⟨r, fun x p hxp => hr x p ?_⟩
        obtain ⟨ndx, e1, e2⟩ := hxp
        by_cases hxn : x = n
        · subst hxn; rw [hgn] at e1; cases e1; cases e2
        · obtain ⟨nd0, f1, f2, _⟩ := hback x ndx hxn e1
          exact ⟨nd0, f1, f2 ▸ e2⟩
      · obtain ⟨Bd, hB⟩ := hi.fin
        exact ⟨Bd, fun a ha => hgnone a (hB a ha)⟩
    · exact (sameData_setLink _ _ _).trans (sameData_upd _ _ _ (fun _ => ⟨rfl, rfl⟩))
    · have : ∃ nd1, setLink h (lastLink (.head q) A) nd.next n = some nd1 ∧ nd1.parent = nd.parent := by
        cases hl : lastLink (.head q) A with
        | head p =>
          show ∃ nd1, upd h p _ n = _ ∧ _
          by_cases hx : n = p
          · subst hx; rw [upd_same, hn]; exact ⟨_, rfl, rfl⟩
          · rw [upd_ne _ _ hx]; exact ⟨nd, hn, rfl⟩
        | after p =>
          show ∃ nd1, upd h p _ n = _ ∧ _
          by_cases hx : n = p
          · subst hx; rw [upd_same, hn]; exact ⟨_, rfl, rfl⟩
          · rw [upd_ne _ _ hx]; exact ⟨nd, hn, rfl⟩
      obtain ⟨nd1, e1, e2⟩ := this
      refine ⟨{ nd1 with next := none }, ?_, e2.trans hp⟩
      rw [upd_same, e1]; rfl

end Verif.Geom.Frames
