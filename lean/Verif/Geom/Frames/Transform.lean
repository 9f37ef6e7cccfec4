import Verif.Geom.Frames.ATrans
import Verif.Geom.Frames.Walk

/-
The relative transforms computed on a heap that represents a forest.
-/

namespace Verif.Geom.Frames

set_option linter.unusedSectionVars false

variable {K : Type} [Field K]

/-- Every frame has an invertible transform (the requirement stated in src/vw/Geometry/FrameTreeNode.h). -/
def AllInv (h : Heap (ATrans K)) : Prop := ∀ n nd, h n = some nd → nd.trans.Invertible

theorem mulAll_append (h : Heap (ATrans K)) : ∀ (A B : List Nat) (x : ATrans K),
    mulAll h x (A ++ B) = (mulAll h x A).bind (fun y => mulAll h y B)
  | [], _, _ => rfl
  | a :: A, B, x => by
    simp only [List.cons_append, mulAll]
    cases h a with
    | none => rfl
    | some nd => exact mulAll_append h A B _

theorem mulAll_total {h : Heap (ATrans K)} (hv : AllInv h) : ∀ (l : List Nat), (∀ n ∈ l, ∃ nd, h n = some nd) →
    ∃ m, m.Invertible ∧ ∀ x, mulAll h x l = some (x * m)
  | [], _ => ⟨1, ATrans.invertible_one, fun x => by rw [mul_one]; rfl⟩
  | a :: l, ha => by
    obtain ⟨nd, hnd⟩ := ha a (by simp)
    obtain ⟨m, h1, h2⟩ := mulAll_total hv l (fun n hn => ha n (List.mem_cons_of_mem _ hn))
    refine ⟨nd.trans * m, ATrans.invertible_mul (hv a nd hnd) h1, fun x => ?_⟩
    simp only [mulAll, hnd, Option.bind_eq_bind, Option.bind_some, h2, mul_assoc]

/-- `W` is the pose of node `n` in the frame outside its root: the product of the transforms from the root
down to `n`. -/
inductive World (h : Heap (ATrans K)) : Nat → ATrans K → Prop
  | root (n nd) : h n = some nd → nd.parent = none → World h n nd.trans
  | step (n nd p W) : h n = some nd → nd.parent = some p → World h p W → World h n (W * nd.trans)

theorem World.unique {h : Heap (ATrans K)} {n : Nat} {W : ATrans K} (h1 : World h n W) :
    ∀ {V}, World h n V → W = V := by
  induction h1 with
  | root n nd a1 a2 =>
    intro V h2
    cases h2 with
    | root _ nd' b1 b2 => rw [a1] at b1; cases b1; rfl
    | step _ nd' p W b1 b2 _ => rw [a1] at b1; cases b1; rw [a2] at b2; cases b2
  | step n nd p W a1 a2 _ ih =>
    intro V h2
    cases h2 with
    | root _ nd' b1 b2 => rw [a1] at b1; cases b1; rw [a2] at b2; cases b2
    | step _ nd' p' W' b1 b2 b3 =>
      rw [a1] at b1; cases b1
      rw [a2] at b2; cases b2
      rw [ih b3]

theorem Inv.world_total {h : Heap (ATrans K)} {kids} (hi : Inv h kids) (hv : AllInv h) {n : Nat} {nd}
    (hn : h n = some nd) : ∃ W, World h n W ∧ W.Invertible := by
  have key : ∀ n, h n ≠ none → ∃ W, World h n W ∧ W.Invertible := by
    refine hi.induct_up ?_ ?_
    · intro n nd hn hp
      exact ⟨_, World.root n nd hn hp, hv n nd hn⟩
    · intro n nd p hn hp ih
      obtain ⟨W, h1, h2⟩ := ih
      exact ⟨_, World.step n nd p W hn hp h1, ATrans.invertible_mul h2 (hv n nd hn)⟩
  exact key n (by rw [hn]; simp)

/-- The pose is the product along the ancestry. -/
theorem Inv.world_mul {h : Heap (ATrans K)} {kids} (hi : Inv h kids) {n : Nat} {W}
    (hw : World h n W) : ∃ l, ancestry h n = some l ∧ mulAll h 1 l = some W := by
  induction hw with
  | root n nd hn hp =>
    obtain ⟨l, e1, _, _, e4, _⟩ := hi.ancestry_eq hn
    rw [e4 hp] at e1
    refine ⟨_, e1, ?_⟩
    simp [mulAll, hn]
  | step n nd p W hn hp _ ih =>
    obtain ⟨l, e1, _, _, _, e5⟩ := hi.ancestry_eq hn
    obtain ⟨l', f1, f2⟩ := ih
    rw [e5 p hp] at f1; cases f1
    refine ⟨_, e1, ?_⟩
    rw [mulAll_append, f2]
    simp [mulAll, hn]

theorem Inv.below_of_ancestry {h : Heap (ATrans K)} {kids} (hi : Inv h kids) {n : Nat} {nd} (hn : h n = some nd)
    {l} (hl : ancestry h n = some l) : ∀ x ∈ l, ∃ nx, h x = some nx := by
  intro x hx
  obtain ⟨l', e1, _, e3, _⟩ := hi.ancestry_eq hn
  rw [hl] at e1; cases e1
  have hb := (e3 x).1 hx
  by_cases e : n = x
  · subst e; exact ⟨nd, hn⟩
  · exact (hi.below_alloc hb e).1

/-- The part of the ancestry of `n` after `c`. -/
theorem Inv.afterNode_eq {h : Heap (ATrans K)} {kids} (hi : Inv h kids) {n c : Nat} {nd} (hn : h n = some nd)
    (hc : Below h c n) : ∃ l t, ancestry h c = some l ∧ ancestry h n = some (l ++ t) ∧
      afterNode c (l ++ t) = t := by
  obtain ⟨l, t, e1, e2⟩ := hi.ancestry_prefix hn hc
  refine ⟨l, t, e1, e2, ?_⟩
  have hcn : ∃ nc, h c = some nc := by
    by_cases e : n = c
    · subst e; exact ⟨nd, hn⟩
    · exact (hi.below_alloc hc e).1
  obtain ⟨nc, hcn⟩ := hcn
  obtain ⟨lc, f1, f2, _⟩ := hi.ancestry_eq hcn
  rw [e1] at f1; cases f1
  unfold afterNode
  have hnc : ∀ x ∈ lc, (decide (x ≠ c)) = true := by
    intro x hx
    have := (List.nodup_append.1 f2).2.2 x hx c (by simp)
    simpa using this
  rw [List.append_assoc, List.dropWhile_append_of_pos hnc]
  simp

/-- Two nodes have the same root. -/
def SameTree {T : Type} (h : Heap T) (a b : Nat) : Prop := ∃ x, Below h x a ∧ Below h x b

theorem SameTree.symm {T : Type} {h : Heap T} {a b : Nat} (hs : SameTree h a b) : SameTree h b a := by
  obtain ⟨x, h1, h2⟩ := hs; exact ⟨x, h2, h1⟩

/-- The transform of `source` relative to `target`: composed with the pose of the target it gives the pose of
the source. -/
theorem Inv.getTransform_eq {h : Heap (ATrans K)} {kids} (hi : Inv h kids) (hv : AllInv h) {t s : Nat} {nt ns}
    (ht : h t = some nt) (hs : h s = some ns) (hst : SameTree h t s) {Wt Ws} (hwt : World h t Wt)
    (hws : World h s Ws) : ∃ m, getTransform h (some t) (some s) = some m ∧ Wt * m = Ws := by
  unfold getTransform
  dsimp only
  by_cases hne : t = s
  · subst hne
    rw [if_pos rfl]
    exact ⟨1, rfl, by rw [mul_one]; exact hwt.unique hws⟩
  · rw [if_neg hne]
    rcases hi.lca_eq ht hs with ⟨c, c1, c2, c3, _⟩ | ⟨c1, c2⟩
    · obtain ⟨l, pt, e1, e2, e3⟩ := hi.afterNode_eq ht c2
      obtain ⟨l', ps, f1, f2, f3⟩ := hi.afterNode_eq hs c3
      rw [e1] at f1; cases f1
      have hcn : ∃ nc, h c = some nc := by
        by_cases e : t = c
        · subst e; exact ⟨nt, ht⟩
        · exact (hi.below_alloc c2 e).1
      obtain ⟨nc, hcn⟩ := hcn
      obtain ⟨Wc, w1, w2⟩ := hi.world_total hv hcn
      obtain ⟨lc, v1, v2⟩ := hi.world_mul w1
      rw [e1] at v1; cases v1
      obtain ⟨mt, mt1, mt2⟩ := mulAll_total hv pt
        (fun x hx => hi.below_of_ancestry ht e2 x (List.mem_append_right _ hx))
      obtain ⟨ms, ms1, ms2⟩ := mulAll_total hv ps
        (fun x hx => hi.below_of_ancestry hs f2 x (List.mem_append_right _ hx))
      have hWt : Wt = Wc * mt := by
        obtain ⟨lt, u1, u2⟩ := hi.world_mul hwt
        rw [e2] at u1; cases u1
        rw [mulAll_append, v2] at u2
        simp only [Option.bind_some, mt2] at u2
        exact (Option.some.inj u2).symm
      have hWs : Ws = Wc * ms := by
        obtain ⟨lt, u1, u2⟩ := hi.world_mul hws
        rw [f2] at u1; cases u1
        rw [mulAll_append, v2] at u2
        simp only [Option.bind_some, ms2] at u2
        exact (Option.some.inj u2).symm
      simp only [c1, e2, f2, e3, f3, Option.bind_eq_bind, Option.bind_some]
      by_cases hpt : pt = []
      · rw [if_pos hpt]
        simp only [ms2, one_mul]
        refine ⟨ms, rfl, ?_⟩
        subst hpt
        have := mt2 1
        simp only [mulAll, one_mul, Option.some.injEq] at this
        rw [hWt, hWs, ← this, mul_one]
      · rw [if_neg hpt]
        simp only [mt2, one_mul, Option.bind_some, ms2]
        refine ⟨_, rfl, ?_⟩
        rw [hWt, hWs, mul_assoc, ← mul_assoc mt, ATrans.mul_inverse mt1, one_mul]
    · exact absurd hst (fun ⟨x, h1, h2⟩ => c2 x h1 h2)

/-- Frames of different trees: the identity is returned. -/
theorem Inv.getTransform_apart {h : Heap (ATrans K)} {kids} (hi : Inv h kids) {t s : Nat} {nt ns}
    (ht : h t = some nt) (hs : h s = some ns) (hst : ¬ SameTree h t s) :
    getTransform h (some t) (some s) = some 1 := by
  unfold getTransform
  dsimp only
  by_cases hne : t = s
  · rw [if_pos hne]
  · rw [if_neg hne]
    rcases hi.lca_eq ht hs with ⟨c, c1, c2, c3, _⟩ | ⟨c1, c2⟩
    · exact absurd ⟨c, c2, c3⟩ hst
    · simp only [c1, Option.bind_eq_bind, Option.bind_some]

theorem SameTree.trans {T : Type} {h : Heap T} {kids} (hi : Inv h kids) {a b c : Nat} {nb} (hb : h b = some nb)
    (h1 : SameTree h a b) (h2 : SameTree h b c) : SameTree h a c := by
  obtain ⟨x, x1, x2⟩ := h1
  obtain ⟨y, y1, y2⟩ := h2
  -- both `x` and `y` are above `b`: the root is above both
  obtain ⟨r, r1, r2, nr, r3, r4⟩ := hi.root_eq hb
  have habove : ∀ z, Below h z b → Below h r z := by
    intro z hz
    have hzn : ∃ nz, h z = some nz := by
      by_cases e : b = z
      · subst e; exact ⟨nb, hb⟩
      · exact (hi.below_alloc hz e).1
    obtain ⟨nz, hzn⟩ := hzn
    obtain ⟨r', s1, s2, nr', s3, s4⟩ := hi.root_eq hzn
    have hb' : Below h r' b := Relation.ReflTransGen.trans hz s2
    have := hi.root_unique hb r2 hb' r3 r4 s3 s4
    rw [this]; exact s2
  exact ⟨r, Relation.ReflTransGen.trans x1 (habove x x2), Relation.ReflTransGen.trans y2 (habove y y1)⟩

/-! ### Writing a transform -/

theorem putTrans_ne (h : Heap (ATrans K)) {n x : Nat} (t : ATrans K) (hx : x ≠ n) : putTrans h n t x = h x :=
  upd_ne _ _ hx

theorem putTrans_links (h : Heap (ATrans K)) (n : Nat) (t : ATrans K) (x : Nat) :
    (putTrans h n t x).map (fun nd => (nd.parent, nd.first, nd.next, nd.name))
      = (h x).map (fun nd => (nd.parent, nd.first, nd.next, nd.name)) := by
  unfold putTrans
  by_cases hx : x = n
  · subst hx; rw [upd_same]; cases h x <;> rfl
  · rw [upd_ne _ _ hx]

theorem links_some {T : Type} {h h' : Heap T}
    (hl : ∀ x, (h' x).map (fun nd => (nd.parent, nd.first, nd.next, nd.name))
      = (h x).map (fun nd => (nd.parent, nd.first, nd.next, nd.name))) {x : Nat} {nd} (hx : h x = some nd) :
    ∃ nd', h' x = some nd' ∧ nd'.parent = nd.parent ∧ nd'.first = nd.first ∧ nd'.next = nd.next ∧
      nd'.name = nd.name := by
  have := hl x
  rw [hx] at this
  cases h1 : h' x with
  | none => rw [h1] at this; cases this
  | some nd' =>
    rw [h1] at this
    simp only [Option.map_some, Option.some.injEq, Prod.mk.injEq] at this
    exact ⟨nd', rfl, this.1, this.2.1, this.2.2.1, this.2.2.2⟩

/-- Changing payload data does not change the forest. -/
theorem Inv.of_links {T : Type} {h h' : Heap T} {kids} (hi : Inv h kids)
    (hl : ∀ x, (h' x).map (fun nd => (nd.parent, nd.first, nd.next, nd.name))
      = (h x).map (fun nd => (nd.parent, nd.first, nd.next, nd.name))) : Inv h' kids := by
  have hl' : ∀ x, (h x).map (fun nd => (nd.parent, nd.first, nd.next, nd.name))
      = (h' x).map (fun nd => (nd.parent, nd.first, nd.next, nd.name)) := fun x => (hl x).symm
  have hnone : ∀ x, h x = none → h' x = none := by
    intro x hx
    cases h1 : h' x with
    | none => rfl
    | some nd => obtain ⟨nd', e, _⟩ := links_some hl' h1; rw [hx] at e; cases e
  have hnone' : ∀ x, h' x = none → h x = none := by
    intro x hx
    cases h1 : h x with
    | none => rfl
    | some nd => obtain ⟨nd', e, _⟩ := links_some hl h1; rw [hx] at e; cases e
  refine ⟨?_, fun p hp => hi.dead p (hnone' p hp), ?_, hi.nodup, ?_, ?_, ?_⟩
  · intro p nd hp
    obtain ⟨nd0, e1, _, e3, _⟩ := links_some hl' hp
    rw [← e3]
    refine (hi.chain p nd0 e1).congr (fun x hx ndx hxx => ?_)
    obtain ⟨nd', f1, _, _, f4, _⟩ := links_some hl hxx
    exact ⟨nd', f1, f4⟩
  · intro n nd p hn
    obtain ⟨nd0, e1, e2, _⟩ := links_some hl' hn
    rw [← e2]; exact hi.par n nd0 p e1
  · intro n nd hn hp
    obtain ⟨nd0, e1, e2, _, e4, _⟩ := links_some hl' hn
    rw [← e4]; exact hi.last n nd0 e1 (e2.trans hp)
  · obtain ⟨r, hr⟩ := hi.acyc
    refine ⟨r, ?_⟩
    rintro n p ⟨nd, e1, e2⟩
    obtain ⟨nd0, f1, f2, _⟩ := links_some hl' e1
    exact hr n p ⟨nd0, f1, f2.trans e2⟩
  · obtain ⟨B, hB⟩ := hi.fin
    exact ⟨B, fun a ha => hnone a (hB a ha)⟩

theorem below_of_links {T : Type} {h h' : Heap T}
    (hl : ∀ x, (h' x).map (fun nd => (nd.parent, nd.first, nd.next, nd.name))
      = (h x).map (fun nd => (nd.parent, nd.first, nd.next, nd.name))) {a b : Nat} (hb : Below h a b) :
    Below h' a b := by
  refine below_mono ?_ hb
  rintro x p ⟨nd, e1, e2⟩
  obtain ⟨nd', f1, f2, _⟩ := links_some hl e1
  exact ⟨nd', f1, f2.trans e2⟩

theorem allInv_put {h : Heap (ATrans K)} (hv : AllInv h) (n : Nat) {t : ATrans K} (ht : t.Invertible) :
    AllInv (putTrans h n t) := by
  intro x nd hx
  unfold putTrans at hx
  by_cases hxn : x = n
  · subst hxn
    rw [upd_same] at hx
    cases h1 : h x with
    | none => rw [h1] at hx; cases hx
    | some nd0 => rw [h1] at hx; cases hx; exact ht
  · rw [upd_ne _ _ hxn] at hx; exact hv x nd hx

/-- The pose of a node that is not below the changed frame stays. -/
theorem world_put {h : Heap (ATrans K)} {n : Nat} {t : ATrans K} {x : Nat} {W} (hw : World h x W)
    (hb : ¬ Below h n x) : World (putTrans h n t) x W := by
  induction hw with
  | root x nd hx hp =>
    refine World.root x nd ?_ hp
    rw [putTrans_ne, hx]
    rintro rfl; exact hb Relation.ReflTransGen.refl
  | step x nd p W hx hp _ ih =>
    refine World.step x nd p W ?_ hp (ih (fun hh => hb ((Inv.below_step hx hp n).2 (Or.inr hh))))
    rw [putTrans_ne, hx]
    rintro rfl; exact hb Relation.ReflTransGen.refl

/-- `set_transform` of a frame with a parent, with respect to a frame of the same tree that is not below it:
afterwards the frame has exactly the requested transform relative to that frame. -/
theorem Inv.setTransform_get {h : Heap (ATrans K)} {kids} (hi : Inv h kids) (hv : AllInv h) {f s p : Nat}
    {nf ns} (hf : h f = some nf) (hs : h s = some ns) (hp : nf.parent = some p) (hst : SameTree h f s)
    (hb : ¬ Below h f s) {t : ATrans K} (ht : t.Invertible) :
    ∃ h' t', setTransform h (some f) (some s) t = some h' ∧ h' = putTrans h f t' ∧ AllInv h' ∧
      getTransform h' (some s) (some f) = some t := by
  obtain ⟨np, hpn⟩ := hi.parent_alloc hf hp
  have hpf : SameTree h p f := ⟨p, Relation.ReflTransGen.refl, Relation.ReflTransGen.single ⟨nf, hf, hp⟩⟩
  have hps : SameTree h p s := hpf.trans hi hf hst
  obtain ⟨Wp, p1, p2⟩ := hi.world_total hv hpn
  obtain ⟨Ws, s1, s2⟩ := hi.world_total hv hs
  obtain ⟨m, m1, m2⟩ := hi.getTransform_eq hv hpn hs hps p1 s1
  have hmi : m.Invertible := by
    intro hh
    have : Ws.r.det = Wp.r.det * m.r.det := by rw [← m2, ATrans.mul_r, Matrix.det_mul]
    rw [hh, mul_zero] at this
    exact s2 this
  refine ⟨putTrans h f (m * t), m * t, ?_, rfl, allInv_put hv f (ATrans.invertible_mul hmi ht), ?_⟩
  · unfold setTransform getTransformOf
    simp only [hf, hp, m1, Option.bind_eq_bind, Option.bind_some]
  · have hl := putTrans_links h f (m * t)
    have hi' := hi.of_links hl
    have hv' := allInv_put hv f (ATrans.invertible_mul hmi ht)
    have hpnf : ¬ Below h f p := hi.below_self_kid ((hi.par f nf p hf).1 hp)
    have wp' : World (putTrans h f (m * t)) p Wp := world_put p1 hpnf
    have ws' : World (putTrans h f (m * t)) s Ws := world_put s1 hb
    have hf' : putTrans h f (m * t) f = some { nf with trans := m * t } := by
      unfold putTrans; rw [upd_same, hf]; rfl
    have wf' : World (putTrans h f (m * t)) f (Wp * (m * t)) :=
      World.step f { nf with trans := m * t } p Wp hf' hp wp'
    obtain ⟨ns', hs', _⟩ := links_some hl hs
    obtain ⟨x, x1, x2⟩ := hst
    obtain ⟨r, r1, r2⟩ := hi'.getTransform_eq hv' hs' hf' ⟨x, below_of_links hl x2, below_of_links hl x1⟩ ws' wf'
    rw [r1]
    congr 1
    refine ATrans.mul_left_cancel s2 (r2.trans ?_)
    rw [← mul_assoc, m2]

/-- The relative transform of two frames that both lie below `f` does not depend on the transform of `f`. -/
theorem Inv.put_below {h : Heap (ATrans K)} {kids} (hi : Inv h kids) (hv : AllInv h) {f a b : Nat}
    {na nb} (ha : h a = some na) (hb : h b = some nb) (h1 : Below h f a) (h2 : Below h f b) {t : ATrans K}
    (ht : t.Invertible) :
    getTransform (putTrans h f t) (some a) (some b) = getTransform h (some a) (some b) := by
  have hl := putTrans_links h f t
  have hi' := hi.of_links hl
  have hv' := allInv_put hv f ht
  obtain ⟨na', ha', _⟩ := links_some hl ha
  obtain ⟨nb', hb', _⟩ := links_some hl hb
  have hfn : ∃ nf, h f = some nf := by
    by_cases e : a = f
    · subst e; exact ⟨na, ha⟩
    · exact (hi.below_alloc h1 e).1
  obtain ⟨nf, hfn⟩ := hfn
  obtain ⟨nf', hfn', _⟩ := links_some hl hfn
  obtain ⟨Wf, f1, f2⟩ := hi.world_total hv hfn
  obtain ⟨Wf', g1, g2⟩ := hi'.world_total hv' hfn'
  -- the pose of a node below `f` is the pose of `f` times something that does not involve `f`
  have hrel : ∀ x W W', Below h f x → World h x W → World (putTrans h f t) x W' →
      ∃ D, W = Wf * D ∧ W' = Wf' * D := by
    intro x W W' hb hw
    induction hw generalizing W' with
    | root x nd hx hp =>
      intro hw'
      have := (below_root hx hp f).1 hb
      subst this
      exact ⟨1, by rw [mul_one]; exact (World.root f nd hx hp).unique f1, by rw [mul_one]; exact hw'.unique g1⟩
    | step x nd p W hx hp hwp ih =>
      intro hw'
      by_cases hxf : x = f
      · subst hxf
        exact ⟨1, by rw [mul_one]; exact (World.step x nd p W hx hp hwp).unique f1,
          by rw [mul_one]; exact hw'.unique g1⟩
      · have hbp : Below h f p := by
          rcases (Inv.below_step hx hp f).1 hb with e | e
          · exact absurd e.symm hxf
          · exact e
        have hx' : putTrans h f t x = some nd := by rw [putTrans_ne _ _ hxf, hx]
        cases hw' with
        | root _ nd' a1 a2 => rw [hx'] at a1; cases a1; rw [hp] at a2; cases a2
        | step _ nd' p' W'' a1 a2 a3 =>
          rw [hx'] at a1; cases a1
          rw [hp] at a2; cases a2
          obtain ⟨D, d1, d2⟩ := ih W'' hbp a3
          exact ⟨D * nd.trans, by rw [d1, mul_assoc], by rw [d2, mul_assoc]⟩
  obtain ⟨Wa, a1, a2⟩ := hi.world_total hv ha
  obtain ⟨Wb, b1, b2⟩ := hi.world_total hv hb
  obtain ⟨Wa', a1', a2'⟩ := hi'.world_total hv' ha'
  obtain ⟨Wb', b1', b2'⟩ := hi'.world_total hv' hb'
  obtain ⟨Da, da1, da2⟩ := hrel a Wa Wa' h1 a1 a1'
  obtain ⟨Db, db1, db2⟩ := hrel b Wb Wb' h2 b1 b1'
  obtain ⟨m, m1, m2⟩ := hi.getTransform_eq hv ha hb ⟨f, h1, h2⟩ a1 b1
  obtain ⟨m', n1, n2⟩ := hi'.getTransform_eq hv' ha' hb' ⟨f, below_of_links hl h1, below_of_links hl h2⟩ a1' b1'
  rw [m1, n1]
  congr 1
  have hDa : Da.Invertible := by
    intro hh
    have : Wa.r.det = Wf.r.det * Da.r.det := by rw [da1, ATrans.mul_r, Matrix.det_mul]
    rw [hh, mul_zero] at this
    exact a2 this
  have e1 : Da * m = Db := by
    refine ATrans.mul_left_cancel f2 ?_
    rw [← mul_assoc, ← da1, m2, db1]
  have e2 : Da * m' = Db := by
    refine ATrans.mul_left_cancel g2 ?_
    rw [← mul_assoc, ← da2, n2, db2]
  exact ATrans.mul_left_cancel hDa (e2.trans e1.symm)

end Verif.Geom.Frames
