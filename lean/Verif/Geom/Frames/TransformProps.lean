import Verif.Geom.Frames.TreeProps

/-
Claims about the relative transforms of frames (src/vw/Geometry/FrameTreeNode.{h,cc}, ATrans.h and the wrappers
of src/vw/Geometry/FrameStore.cc), in exact arithmetic over a field.

`World h n W`: `W` is the product of the transforms stored from the root down to `n`; a position `v` given in
frame `n` is `W.apply v` in the coordinates outside the tree.  `SameTree h a b`: some node is above both.
-/

namespace Verif.Geom.Frames

set_option linter.unusedSectionVars false

variable {K : Type} [Field K]

/-! ### C77: reading -/

/-- Every frame has exactly one position in the world. -/
theorem frames_world {h : Heap (ATrans K)} (hh : TreeHist h) (hv : AllInv h) {n : Nat} {nd} (hn : h n = some nd) :
    ∃ W, World h n W ∧ W.Invertible ∧ ∀ V, World h n V → V = W := by
  obtain ⟨kids, hi⟩ := hh.inv
  obtain ⟨W, h1, h2⟩ := hi.world_total hv hn
  exact ⟨W, h1, h2, fun V hV => (h1.unique hV).symm⟩

/-- `get_transform(target, source)` takes positions in the source frame to positions in the target frame. -/
theorem frames_get {h : Heap (ATrans K)} (hh : TreeHist h) (hv : AllInv h) {t s : Nat} {nt ns}
    (ht : h t = some nt) (hs : h s = some ns) (hst : SameTree h t s) {Wt Ws} (hwt : World h t Wt)
    (hws : World h s Ws) :
    ∃ m, getTransform h (some t) (some s) = some m ∧ ∀ v, Wt.apply (m.apply v) = Ws.apply v := by
  obtain ⟨kids, hi⟩ := hh.inv
  obtain ⟨m, h1, h2⟩ := hi.getTransform_eq hv ht hs hst hwt hws
  refine ⟨m, h1, fun v => ?_⟩
  rw [← ATrans.apply_mul, h2]

/-- `get_position_of` is the position of the point in the target frame. -/
theorem frames_position {h : Heap (ATrans K)} (hh : TreeHist h) (hv : AllInv h) {t s : Nat} {nt ns}
    (ht : h t = some nt) (hs : h s = some ns) (hst : SameTree h t s) {Wt Ws} (hwt : World h t Wt)
    (hws : World h s Ws) (v : Fin 3 → K) :
    ∃ w, getPositionOf h t s v = some w ∧ Wt.apply w = Ws.apply v := by
  obtain ⟨m, h1, h2⟩ := frames_get hh hv ht hs hst hwt hws
  refine ⟨m.apply v, ?_, h2 v⟩
  unfold getPositionOf
  rw [h1]
  rfl

/-- Going through a third frame of the tree makes no difference. -/
theorem frames_compose {h : Heap (ATrans K)} (hh : TreeHist h) (hv : AllInv h) {a b c : Nat} {na nb nc}
    (ha : h a = some na) (hb : h b = some nb) (hc : h c = some nc) (hab : SameTree h a b)
    (hbc : SameTree h b c) :
    ∃ m1 m2, getTransform h (some a) (some b) = some m1 ∧ getTransform h (some b) (some c) = some m2 ∧
      getTransform h (some a) (some c) = some (m1 * m2) := by
  obtain ⟨kids, hi⟩ := hh.inv
  obtain ⟨Wa, a1, a2⟩ := hi.world_total hv ha
  obtain ⟨Wb, b1, b2⟩ := hi.world_total hv hb
  obtain ⟨Wc, c1, c2⟩ := hi.world_total hv hc
  obtain ⟨m1, e1, e2⟩ := hi.getTransform_eq hv ha hb hab a1 b1
  obtain ⟨m2, f1, f2⟩ := hi.getTransform_eq hv hb hc hbc b1 c1
  obtain ⟨m3, g1, g2⟩ := hi.getTransform_eq hv ha hc (hab.trans hi hb hbc) a1 c1
  refine ⟨m1, m2, e1, f1, ?_⟩
  rw [g1]
  congr 1
  refine ATrans.mul_left_cancel a2 ?_
  rw [g2, ← mul_assoc, e2, f2]

/-- A frame relative to itself is the identity. -/
theorem frames_self {h : Heap (ATrans K)} (s : Nat) : getTransform h (some s) (some s) = some 1 := by
  unfold getTransform
  simp

/-- There and back is the identity. -/
theorem frames_inverse {h : Heap (ATrans K)} (hh : TreeHist h) (hv : AllInv h) {a b : Nat} {na nb}
    (ha : h a = some na) (hb : h b = some nb) (hab : SameTree h a b) :
    ∃ m m', getTransform h (some a) (some b) = some m ∧ getTransform h (some b) (some a) = some m' ∧
      m * m' = 1 ∧ m' * m = 1 := by
  obtain ⟨m1, m2, e1, e2, e3⟩ := frames_compose hh hv ha hb ha hab hab.symm
  obtain ⟨n2, n1, f1, f2, f3⟩ := frames_compose hh hv hb ha hb hab.symm hab
  rw [frames_self] at e3 f3
  rw [e1] at f2; cases f2
  rw [e2] at f1; cases f1
  exact ⟨m1, m2, e1, e2, (Option.some.inj e3).symm, (Option.some.inj f3).symm⟩

/-- Relative to the parent, and relative to NULL, it is the stored transform. -/
theorem frames_parent {h : Heap (ATrans K)} (hh : TreeHist h) (hv : AllInv h) {n p : Nat} {nd}
    (hn : h n = some nd) (hp : nd.parent = some p) :
    getTransform h (some p) (some n) = some nd.trans ∧ getTransform h none (some n) = some nd.trans := by
  obtain ⟨kids, hi⟩ := hh.inv
  obtain ⟨np, hnp⟩ := hi.parent_alloc hn hp
  obtain ⟨W, w1, w2⟩ := hi.world_total hv hnp
  obtain ⟨m, e1, e2⟩ := hi.getTransform_eq hv hnp hn
    ⟨p, Relation.ReflTransGen.refl, Relation.ReflTransGen.single ⟨nd, hn, hp⟩⟩ w1 (World.step n nd p W hn hp w1)
  constructor
  · rw [e1, ATrans.mul_left_cancel w2 e2]
  · unfold getTransform
    simp only [hn, Option.bind_eq_bind, Option.bind_some]

/-- Frames of different trees: the identity is returned, there is no error. -/
theorem frames_apart {h : Heap (ATrans K)} (hh : TreeHist h) {t s : Nat} {nt ns} (ht : h t = some nt)
    (hs : h s = some ns) (hst : ¬ SameTree h t s) : getTransform h (some t) (some s) = some 1 := by
  obtain ⟨kids, hi⟩ := hh.inv
  exact hi.getTransform_apart ht hs hst

/-- The conversion of a transform to a 4x4 matrix loses it: the result is zero. -/
theorem atrans_matrix (a : ATrans K) : a.toMatrix = 0 := rfl

/-- So reading a transform back from its matrix does not give the transform. -/
theorem atrans_matrix_lost {a : ATrans K} (ha : a.Invertible) : ATrans.ofMatrix a.toMatrix ≠ a := by
  intro hh
  apply ha
  rw [← hh]
  have : (ATrans.ofMatrix a.toMatrix).r = 0 := by
    ext i j; rfl
  rw [this, Matrix.det_zero]

/-! ### C78: writing -/

/-- `set_transform(frame, wrt, t)` for a frame with a parent and a `wrt` frame of the same tree that is not in
the subtree of the frame: afterwards the frame is at `t` relative to `wrt`. -/
theorem frames_set {h : Heap (ATrans K)} (hh : TreeHist h) (hv : AllInv h) {f s p : Nat} {nf ns}
    (hf : h f = some nf) (hs : h s = some ns) (hp : nf.parent = some p) (hst : SameTree h f s)
    (hb : ¬ Below h f s) {t : ATrans K} (ht : t.Invertible) :
    ∃ h', setTransform h (some f) (some s) t = some h' ∧ TreeHist h' ∧ AllInv h' ∧
      getTransform h' (some s) (some f) = some t := by
  obtain ⟨kids, hi⟩ := hh.inv
  obtain ⟨h', t', e1, e2, e3, e4⟩ := hi.setTransform_get hv hf hs hp hst hb ht
  exact ⟨h', e1, e2 ▸ TreeHist.setData f t' hh, e3, e4⟩

/-- What an assignment to the transform of `f` leaves alone: the relative transforms among the frames outside
the subtree of `f`, and those among the frames inside it. -/
theorem frames_set_outside {h : Heap (ATrans K)} (hh : TreeHist h) (hv : AllInv h) {f a b : Nat} {na nb}
    (ha : h a = some na) (hb : h b = some nb) (h1 : ¬ Below h f a) (h2 : ¬ Below h f b) {t : ATrans K}
    (ht : t.Invertible) : getTransform (putTrans h f t) (some a) (some b) = getTransform h (some a) (some b) := by
  obtain ⟨kids, hi⟩ := hh.inv
  have hl := putTrans_links h f t
  have hi' := hi.of_links hl
  have hv' := allInv_put hv f ht
  have haf : a ≠ f := by rintro rfl; exact h1 Relation.ReflTransGen.refl
  have hbf : b ≠ f := by rintro rfl; exact h2 Relation.ReflTransGen.refl
  have ha' : putTrans h f t a = some na := by rw [putTrans_ne h t haf, ha]
  have hb' : putTrans h f t b = some nb := by rw [putTrans_ne h t hbf, hb]
  have hback : ∀ x, ((fun y => h y) x).map (fun nd => (nd.parent, nd.first, nd.next, nd.name))
      = (putTrans h f t x).map (fun nd => (nd.parent, nd.first, nd.next, nd.name)) := fun x => (hl x).symm
  by_cases hst : SameTree h a b
  · obtain ⟨Wa, a1, a2⟩ := hi.world_total hv ha
    obtain ⟨Wb, b1, b2⟩ := hi.world_total hv hb
    obtain ⟨m, e1, e2⟩ := hi.getTransform_eq hv ha hb hst a1 b1
    obtain ⟨x, x1, x2⟩ := hst
    obtain ⟨m', f1, f2⟩ := hi'.getTransform_eq hv' ha' hb' ⟨x, below_of_links hl x1, below_of_links hl x2⟩
      (world_put a1 h1) (world_put b1 h2)
    rw [e1, f1]
    congr 1
    exact ATrans.mul_left_cancel a2 (f2.trans e2.symm)
  · rw [hi.getTransform_apart ha hb hst, hi'.getTransform_apart ha' hb']
    rintro ⟨x, x1, x2⟩
    exact hst ⟨x, below_of_links hback x1, below_of_links hback x2⟩

theorem frames_set_inside {h : Heap (ATrans K)} (hh : TreeHist h) (hv : AllInv h) {f a b : Nat} {na nb}
    (ha : h a = some na) (hb : h b = some nb) (h1 : Below h f a) (h2 : Below h f b) {t : ATrans K}
    (ht : t.Invertible) : getTransform (putTrans h f t) (some a) (some b) = getTransform h (some a) (some b) := by
  obtain ⟨kids, hi⟩ := hh.inv
  exact hi.put_below hv ha hb h1 h2 ht

/-- `set_transform` only assigns the transform of the frame. -/
theorem frames_set_assigns {h h' : Heap (ATrans K)} {f : Nat} {s : Option Nat} {t : ATrans K}
    (he : setTransform h (some f) s t = some h') : ∃ t', h' = putTrans h f t' := by
  unfold setTransform at he
  cases s with
  | none =>
    cases hf : h f with
    | none => simp [hf] at he
    | some nd =>
      simp only [hf, Option.bind_eq_bind, Option.bind_some, Option.some.injEq] at he
      exact ⟨t, he.symm⟩
  | some s =>
    cases hf : h f with
    | none => simp [hf] at he
    | some nd =>
      simp only [hf, Option.bind_eq_bind, Option.bind_some] at he
      cases hg : getTransformOf h nd.parent (some s) t with
      | none => simp [hg] at he
      | some m =>
        simp only [hg, Option.bind_some, Option.some.injEq] at he
        exact ⟨m, he.symm⟩

/-- With respect to a frame of its own subtree the request is not honoured: the frame stays where it was
relative to that frame, whatever transform was asked for. -/
theorem frames_set_below {h : Heap (ATrans K)} (hh : TreeHist h) (hv : AllInv h) {f s : Nat} {nf ns}
    (hf : h f = some nf) (hs : h s = some ns) (hb : Below h f s) {t : ATrans K}
    (ht : t.Invertible) :
    ∃ h', setTransform h (some f) (some s) t = some h' ∧
      getTransform h' (some s) (some f) = getTransform h (some s) (some f) := by
  obtain ⟨kids, hi⟩ := hh.inv
  obtain ⟨m, e1, e2⟩ : ∃ m, getTransform h nf.parent (some s) = some m ∧ m.Invertible := by
    cases hp : nf.parent with
    | none =>
      refine ⟨ns.trans, ?_, hv s ns hs⟩
      unfold getTransform
      simp only [hs, Option.bind_eq_bind, Option.bind_some]
    | some p =>
      obtain ⟨np, hnp⟩ := hi.parent_alloc hf hp
      obtain ⟨m, m', a1, _, a3, _⟩ := frames_inverse hh hv hnp hs ⟨p, Relation.ReflTransGen.refl,
        Relation.ReflTransGen.tail hb ⟨nf, hf, hp⟩⟩
      refine ⟨m, a1, ?_⟩
      intro hz
      have h1 : m.r * m'.r = 1 := by
        have := congrArg ATrans.r a3
        rwa [ATrans.mul_r, ATrans.one_r] at this
      have h2 := congrArg Matrix.det h1
      rw [Matrix.det_mul, hz, zero_mul, Matrix.det_one] at h2
      exact one_ne_zero h2.symm
  refine ⟨putTrans h f (m * t), ?_, ?_⟩
  · unfold setTransform getTransformOf
    simp only [hf, e1, Option.bind_eq_bind, Option.bind_some]
  · exact hi.put_below hv hs hf hb Relation.ReflTransGen.refl (ATrans.invertible_mul e2 ht)

/-- `set_transform_rel` replaces the stored transform; it does not compose with it. -/
theorem frames_set_rel {h : Heap (ATrans K)} {f : Nat} {nf} (hf : h f = some nf) (t : ATrans K) :
    ∃ h' nd', setTransformRel h f t = some h' ∧ h' f = some nd' ∧ nd'.trans = t := by
  refine ⟨putTrans h f t, { nf with trans := t }, ?_, ?_, rfl⟩
  · unfold setTransformRel setTransform
    simp only [hf, Option.bind_eq_bind, Option.bind_some]
  · unfold putTrans
    rw [upd_same, hf]
    rfl

theorem getFrames_put {h : Heap (ATrans K)} {f : Nat} {t : ATrans K} : ∀ {fs : List Nat}, f ∉ fs →
    getFrameTransforms (putTrans h f t) fs = getFrameTransforms h fs
  | [], _ => rfl
  | g :: fs, hn => by
    rw [List.mem_cons, not_or] at hn
    unfold getFrameTransforms
    rw [putTrans_ne h t (Ne.symm hn.1), getFrames_put hn.2]

theorem putFrames_ne {x : Nat} : ∀ {fs : List Nat} {ts : List (ATrans K)} {h h' : Heap (ATrans K)}, x ∉ fs →
    putFrames h fs ts = some h' → h' x = h x
  | [], ts, h, h', _, he => by
    cases ts <;> (simp only [putFrames, Option.some.injEq] at he; rw [he])
  | f :: fs, [], h, h', _, he => by simp only [putFrames, Option.some.injEq] at he; rw [he]
  | f :: fs, t :: ts, h, h', hn, he => by
    rw [List.mem_cons, not_or] at hn
    unfold putFrames at he
    cases hf : h f with
    | none => simp [hf] at he
    | some nd =>
      simp only [hf, Option.bind_eq_bind, Option.bind_some] at he
      rw [putFrames_ne hn.2 he, putTrans_ne h t hn.1]

/-- `set_frame_transforms` on distinct frames, then `get_frame_transforms`: the transforms that were set; lists
of different lengths are refused. -/
theorem frames_set_all {h : Heap (ATrans K)} {fs : List Nat} (hnd : fs.Nodup)
    (hal : ∀ f ∈ fs, ∃ nf, h f = some nf) (ts : List (ATrans K)) :
    (fs.length ≠ ts.length ∧ setFrameTransforms h fs ts = some (.inl ())) ∨
    (fs.length = ts.length ∧ ∃ h', setFrameTransforms h fs ts = some (.inr h') ∧
      getFrameTransforms h' fs = some ts ∧ ∀ x, x ∉ fs → h' x = h x) := by
  have key : ∀ (fs : List Nat) (ts : List (ATrans K)) (h : Heap (ATrans K)), fs.Nodup →
      (∀ f ∈ fs, ∃ nf, h f = some nf) → fs.length = ts.length →
      ∃ h', putFrames h fs ts = some h' ∧ getFrameTransforms h' fs = some ts := by
    intro fs
    induction fs with
    | nil =>
      intro ts h _ _ hl
      cases ts with
      | nil => exact ⟨h, rfl, rfl⟩
      | cons t ts => cases hl
    | cons f fs ih =>
      intro ts h hnd hal hl
      cases ts with
      | nil => cases hl
      | cons t ts =>
        rw [List.nodup_cons] at hnd
        obtain ⟨nf, hf⟩ := hal f (by simp)
        obtain ⟨h', e1, e2⟩ := ih ts (putTrans h f t) hnd.2 (by
          intro g hg
          have : g ≠ f := by rintro rfl; exact hnd.1 hg
          rw [putTrans_ne h t this]
          exact hal g (List.mem_cons_of_mem _ hg)) (by simpa using hl)
        refine ⟨h', ?_, ?_⟩
        · unfold putFrames
          simp only [hf, Option.bind_eq_bind, Option.bind_some, e1]
        · have hf' : h' f = some { nf with trans := t } := by
            rw [putFrames_ne hnd.1 e1]
            unfold putTrans
            rw [upd_same, hf]
            rfl
          unfold getFrameTransforms
          simp only [hf', e2, Option.bind_eq_bind, Option.bind_some]
  by_cases hl : fs.length = ts.length
  · right
    obtain ⟨h', e1, e2⟩ := key fs ts h hnd hal hl
    refine ⟨hl, h', ?_, e2, fun x hx => putFrames_ne hx e1⟩
    unfold setFrameTransforms
    rw [if_pos hl, e1]
    rfl
  · left
    refine ⟨hl, ?_⟩
    unfold setFrameTransforms
    rw [if_neg hl]

/-! ### A concrete scene -/

/-- A translation. -/
def shift (x : K) : ATrans K := ⟨fun i => if i = 0 then x else 0, 1⟩

theorem shift_invertible (x : K) : (shift x).Invertible := by
  show (1 : Matrix (Fin 3) (Fin 3) K).det ≠ 0
  simp

theorem demo_allInv (x : K) : AllInv (demoTree (shift x)) := by
  intro n nd hn
  unfold demoTree at hn
  split_ifs at hn <;> (try cases hn) <;> exact shift_invertible x

theorem demo_same (t : ATrans K) : SameTree (demoTree t) 3 1 :=
  ⟨0, demo_below_up t, Relation.ReflTransGen.single ((demo_par t 1 0).2 (by simp))⟩

theorem demo_not_below (t : ATrans K) : ¬ Below (demoTree t) 3 1 := by
  intro hb
  rcases Relation.ReflTransGen.cases_head hb with e | ⟨q, k1, k2⟩
  · cases e
  · rw [demo_par] at k1
    have hq : q = 0 := by omega
    rw [hq] at k2
    have := (below_root (h := demoTree t) (n := 0) (nd := ⟨['a'], t, none, some 2, none⟩) rfl rfl 3).1 k2
    cases this

/-- In the concrete forest, with every frame shifted by one against its parent: frame 3 set to a shift by five
relative to frame 1, which is in another branch. -/
example : ∃ h', setTransform (demoTree (shift (1 : ℚ))) (some 3) (some 1) (shift 5) = some h' ∧
    getTransform h' (some 1) (some 3) = some (shift 5) := by
  obtain ⟨h', e1, _, _, e4⟩ := frames_set (demoTree_hist (shift (1 : ℚ))) (demo_allInv 1) (f := 3) (s := 1)
    (p := 2) rfl rfl rfl (demo_same _) (demo_not_below _) (shift_invertible 5)
  exact ⟨h', e1, e4⟩

/-- Composition through frame 1 in the concrete forest. -/
example : ∃ m1 m2, getTransform (demoTree (shift (1 : ℚ))) (some 3) (some 1) = some m1 ∧
    getTransform (demoTree (shift (1 : ℚ))) (some 1) (some 3) = some m2 ∧ m1 * m2 = 1 := by
  obtain ⟨m, m', h1, h2, h3, _⟩ := frames_inverse (demoTree_hist (shift (1 : ℚ))) (demo_allInv 1) (a := 3) (b := 1)
    rfl rfl (demo_same _)
  exact ⟨m, m', h1, h2, h3⟩

/-- Frame 2 asked to be at a shift by five relative to frame 3 below it: it stays at the inverse of a shift by
one. -/
example : ∃ h', setTransform (demoTree (shift (1 : ℚ))) (some 2) (some 3) (shift 5) = some h' ∧
    getTransform h' (some 3) (some 2) ≠ some (shift 5) := by
  obtain ⟨h', e1, e2⟩ := frames_set_below (demoTree_hist (shift (1 : ℚ))) (demo_allInv 1) (f := 2) (s := 3)
    rfl rfl (Relation.ReflTransGen.single ((demo_par _ 3 2).2 (by simp))) (shift_invertible 5)
  refine ⟨h', e1, ?_⟩
  rw [e2]
  obtain ⟨m, m', h1, h2, h3, _⟩ := frames_inverse (demoTree_hist (shift (1 : ℚ))) (demo_allInv 1) (a := 3) (b := 2)
    rfl rfl ⟨2, Relation.ReflTransGen.single ((demo_par _ 3 2).2 (by simp)), Relation.ReflTransGen.refl⟩
  have h4 := (frames_parent (demoTree_hist (shift (1 : ℚ))) (demo_allInv 1) (n := 3) (p := 2) rfl rfl).1
  rw [h2] at h4
  have hm' : m' = shift 1 := Option.some.inj h4
  rw [h1]
  intro hh
  have hm : m = shift 5 := Option.some.inj hh
  rw [hm, hm'] at h3
  have := congrFun (congrArg ATrans.p h3) 0
  rw [ATrans.mul_p, ATrans.one_p] at this
  simp [shift] at this
  norm_num at this

end Verif.Geom.Frames
