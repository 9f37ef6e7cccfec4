/-
vw::geometry::SpatialTree::add: what is in the tree afterwards, and when it returns.
-/
import Verif.Geom.SpatialTreeGrow

set_option linter.unusedSectionVars false

namespace VW.SpatialTree

variable {K : Type} [Field K] [LinearOrder K] [IsStrictOrderedRing K] {n : Nat} {P : Type}

/-- If `add` returns, the tree is well formed and holds the primitive in addition to what it held. -/
theorem add_spec [FloorRing K] (start : K → Nat) (bx : P → Box K n) (root : Node K n P) (p : P) (maxLevel : Int)
    (r : Node K n P) (hw : root.Wf bx) (h : add start bx root p maxLevel = some r) :
    r.Wf bx ∧ r.prims.Perm (p :: root.prims) := by
  unfold add at h
  simp only [Option.bind_eq_some_iff] at h
  obtain ⟨root1, h1, ⟨r1, a⟩, hd, path, ha, h⟩ := h
  have hroot : root1.Wf bx ∧ root1.prims.Perm root.prims := by
    by_cases hc : root.box.containsBox (bx p) = true
    · rw [if_pos hc, Option.some.injEq] at h1
      subst h1
      exact ⟨hw, List.Perm.refl _⟩
    · rw [if_neg hc] at h1
      obtain ⟨w, pp, _⟩ := regrow_spec start bx root _ _ hw h1
      exact ⟨w, pp⟩
  have hds := descend_spec bx true maxLevel (bx p) root1 0 [] {} _ hd
  simp only at ha h
  have hc : root1.box.containsBox (bx p) = true := by
    by_contra hc
    simp only [Bool.not_eq_true] at hc
    have := hds.notFound hc
    simp only at this
    rw [ha] at this
    cases this
  obtain ⟨rel, t, e1, e2, e3⟩ := hds.found hc
  simp only [List.nil_append] at e1 e2
  rw [ha, Option.some.injEq] at e1
  subst e1
  obtain ⟨w2, b2, p2⟩ := push_spec bx r1 path t ⟨p, a.forced⟩ (hds.wf hroot.1) e2 e3
  have pr : r1.prims = root1.prims := hds.prims
  have p3 : (r1.modify (Node.mapList fun l => ⟨p, a.forced⟩ :: l) path).prims.Perm (p :: root.prims) :=
    p2.trans (by rw [pr]; exact List.Perm.cons _ hroot.2)
  cases hf : a.first with
  | none =>
    rw [hf] at h
    simp only [Option.some.injEq] at h
    subst h
    exact ⟨w2, p3⟩
  | some f =>
    rw [hf] at h
    simp only at h
    obtain ⟨x1, _, x3⟩ := settle_spec bx _ _ _ _ _ h w2
    exact ⟨x1, x3.trans p3⟩

/-! ### The node that is found -/

/-- No quadrant of the first box contains the second. -/
def NoFit (bb b : Box K n) : Prop := ∀ q, quadrants bb = some q → ∀ i, (q i).containsBox b = false

theorem visit_cases (L : Int) (b : Box K n) (nd : Node K n P) (level : Nat) (path : Path n) (a : Found n) :
    ∃ nd1 a1, visitNode true L b nd level path a = (nd1, a1) ∧ a1.node = some path ∧
      ((nd.isLeaf = true ∧ (L < 0 ∨ (level : Int) < L) ∧ a1.forced = a.forced ∧
          (∀ f, a.first = some f → a1.first = some f) ∧ (a.first = none → a1.first = some path) ∧
          ((nd1 = nd ∧ NoFit nd.box b) ∨
            ∃ q i, quadrants nd.box = some q ∧ (q i).containsBox b = true ∧ nd1 = nd.splitNode q)) ∨
        (nd.isLeaf = true ∧ 0 ≤ L ∧ L ≤ level ∧ nd1 = nd ∧ a1.forced = true ∧ a1.first = a.first) ∨
        (nd.isLeaf = false ∧ nd1 = nd ∧ a1.forced = a.forced ∧ a1.first = a.first)) := by
  unfold visitNode
  by_cases hl : nd.isLeaf = true
  · by_cases hL : L < 0 ∨ (level : Int) < L
    · rw [if_pos (by rw [hl]; rfl), if_pos hL]
      refine ⟨_, _, rfl, rfl, Or.inl ⟨hl, hL, rfl, ?_, ?_, ?_⟩⟩
      · intro f hf; simp only [hf]
      · intro hf; simp only [hf]
      · cases hq : quadrants nd.box with
        | none => exact Or.inl ⟨rfl, fun q hq' => by rw [hq] at hq'; cases hq'⟩
        | some q =>
          dsimp only
          by_cases hx : ∃ i, (q i).containsBox b = true
          · rw [if_pos hx]
            obtain ⟨i, hi⟩ := hx
            exact Or.inr ⟨q, i, rfl, hi, rfl⟩
          · rw [if_neg hx]
            refine Or.inl ⟨rfl, fun q' hq' i => ?_⟩
            rw [hq, Option.some.injEq] at hq'
            subst hq'
            cases hi : (q i).containsBox b with
            | false => rfl
            | true => exact absurd ⟨i, hi⟩ hx
    · rw [if_pos (by rw [hl]; rfl), if_neg hL]
      exact ⟨_, _, rfl, rfl, Or.inr (Or.inl ⟨hl, by omega, by omega, rfl, rfl, rfl⟩)⟩
  · rw [if_neg (by simpa using hl)]
    exact ⟨_, _, rfl, rfl, Or.inr (Or.inr ⟨by simpa using hl, rfl, rfl, rfl⟩)⟩

/-- What `NodeContainsBBoxFunctor` finds for a box with an inside. -/
structure Best (L : Int) (b : Box K n) (nd : Node K n P) (level : Nat) (path : Path n) (a : Found n)
    (r : Node K n P × Found n) : Prop where
  place : ∃ rel t, r.2.node = some (path ++ rel) ∧ r.1.get? rel = some t ∧ t.box.containsBox b = true ∧
    (a.forced = false → (r.2.forced = false → NoFit t.box b) ∧
      (r.2.forced = true → t.isLeaf = true ∧ 0 ≤ L ∧ L ≤ (level + rel.length : Nat)))
  firstKeep : ∀ f, a.first = some f → r.2.first = some f
  firstNew : a.first = none → ∀ f, r.2.first = some f →
    ∃ rel s, f = path ++ rel ∧ nd.get? rel = some s ∧ s.isLeaf = true ∧ (L < 0 ∨ (level + rel.length : Nat) < L)

theorem descend_best (bx : P → Box K n) (L : Int) (b : Box K n) (hb : b.empty = false) (d : Fin n) (m : Nat) :
    ∀ (nd : Node K n P) (level : Nat) (path : Path n) (a : Found n), nd.Wf bx → nd.box.size d < 2 ^ m * b.size d →
      nd.box.containsBox b = true → ∃ r, descend true L b nd level path a = some r ∧ Best L b nd level path a r := by
  obtain ⟨hn, hlt⟩ := (nonempty_iff b).1 hb
  induction m with
  | zero =>
    intro nd level path a _ hs hc
    exfalso
    obtain ⟨_, h1, h2⟩ := (containsBox_iff _ _).1 hc
    have := h1 d; have := h2 d
    unfold Box.size at hs
    rw [pow_zero, one_mul] at hs
    linarith
  | succ m ih =>
    intro nd level path a hw hs hc
    rw [descend_eq true L b nd level path a hc]
    obtain ⟨nd1, a1, hv, hnode, hcases⟩ := visit_cases L b nd level path a
    rw [hv]
    -- a node with quadrants
    have splitCase : ∀ (bb : Box K n) (l : List (Elem P)) (ch : Fin (2 ^ n) → Node K n P) (q : Fin (2 ^ n) → Box K n),
        quadrants bb = some q → (∀ i, (ch i).box = q i) → (∀ i, (ch i).Wf bx) → bb = nd.box → a1.forced = a.forced →
        (∀ f, a.first = some f → a1.first = some f) →
        (a.first = none → (a1.first = none ∧ nd = .split bb l ch) ∨
          (a1.first = some path ∧ nd.isLeaf = true ∧ (L < 0 ∨ (level : Int) < L))) →
        ∃ r, (((List.finRange (2 ^ n)).reverse.foldlM (stepWith b path level (descend true L b)) (ch, a1)) >>=
          fun r => some (Node.split bb l r.1, r.2)) = some r ∧ Best L b nd level path a r := by
      intro bb l ch q hq hch hcw hbb hfo hfk hfn
      by_cases hx : ∃ i, (q i).containsBox b = true
      · obtain ⟨i, hi⟩ := hx
        rw [fold_single b path level _ ch a1 i (by rw [hch]; exact hi) (fun j hj => by
          rw [hch]
          cases hx : (q j).containsBox b with
          | false => rfl
          | true => exact absurd (quadrant_unique hq hb hx hi) hj) _
          (List.nodup_reverse.2 (List.nodup_finRange _)) (List.mem_reverse.2 (List.mem_finRange i))]
        have hsz : (ch i).box.size d < 2 ^ m * b.size d := by
          rw [hch, quadrant_size hq i d, hbb]
          rw [pow_succ] at hs
          linarith
        obtain ⟨r, hr, hbest⟩ := ih (ch i) (level + 1) (path ++ [i]) a1 (hcw i) hsz (by rw [hch]; exact hi)
        rw [hr]
        refine ⟨_, rfl, ?_, ?_, ?_⟩
        · obtain ⟨rel, t, e1, e2, e3, e4⟩ := hbest.place
          refine ⟨i :: rel, t, ?_, ?_, e3, ?_⟩
          · simpa using e1
          · simp only [Node.get?, Function.update_self]; exact e2
          · intro h0
            obtain ⟨f1, f2⟩ := e4 (hfo.trans h0)
            refine ⟨f1, fun h => ?_⟩
            obtain ⟨g1, g2, g3⟩ := f2 h
            exact ⟨g1, g2, by simp only [List.length_cons]; omega⟩
        · intro f hf
          exact hbest.firstKeep f (hfk f hf)
        · intro h0 f hf
          rcases hfn h0 with ⟨h1, h2⟩ | ⟨h1, h2, h3⟩
          · obtain ⟨rel, s, e1, e2, e3, e4⟩ := hbest.firstNew h1 f hf
            refine ⟨i :: rel, s, by simpa using e1, ?_, e3, ?_⟩
            · rw [h2]; exact e2
            · simp only [List.length_cons]; rcases e4 with h | h
              · exact Or.inl h
              · right; omega
          · have := hbest.firstKeep path h1
            simp only at hf
            rw [this, Option.some.injEq] at hf
            subst hf
            refine ⟨[], nd, by simp, by simp [Node.get?], h2, ?_⟩
            simpa using h3
      · have hnf : ∀ i, (q i).containsBox b = false := fun i => by
          cases hi : (q i).containsBox b with
          | false => rfl
          | true => exact absurd ⟨i, hi⟩ hx
        rw [fold_none b path level _ (ch, a1) _ fun j _ => by
          show (ch j).box.containsBox b = false
          rw [hch]; exact hnf j]
        refine ⟨_, rfl, ?_, hfk, ?_⟩
        · refine ⟨[], _, by simpa using hnode, rfl, ?_, fun h0 => ⟨fun _ => ?_, fun h => ?_⟩⟩
          · show bb.containsBox b = true
            rw [hbb]; exact hc
          · intro q' hq' i
            simp only [Node.box] at hq'
            rw [hq, Option.some.injEq] at hq'
            subst hq'
            exact hnf i
          · simp only at h
            rw [hfo, h0] at h; cases h
        · intro h0 f hf
          simp only at hf
          rcases hfn h0 with ⟨h1, h2⟩ | ⟨h1, h2, h3⟩
          · rw [h1] at hf; cases hf
          · rw [h1, Option.some.injEq] at hf
            subst hf
            refine ⟨[], nd, by simp, by simp [Node.get?], h2, ?_⟩
            simpa using h3
    rcases hcases with ⟨hl, hL, hfo, hfk, hfn, hsub⟩ | ⟨hl, h0, h1, rfl, hfo, hfi⟩ | ⟨hl, rfl, hfo, hfi⟩
    · rcases hsub with ⟨rfl, hnf⟩ | ⟨q, i, hq, hi, rfl⟩
      · cases nd1 with
        | split _ _ _ => simp [Node.isLeaf] at hl
        | leaf bb l =>
          refine ⟨_, rfl, ⟨[], _, by simpa using hnode, rfl, hc, fun h0 => ⟨fun _ => hnf, fun h => ?_⟩⟩, hfk, ?_⟩
          · simp only at h
            rw [hfo, h0] at h; cases h
          · intro h0 f hf
            simp only at hf
            rw [hfn h0, Option.some.injEq] at hf
            subst hf
            exact ⟨[], _, by simp, rfl, hl, by simpa using hL⟩
      · refine splitCase nd.box nd.list (fun i => .leaf (q i) []) q hq (fun _ => rfl) (fun _ e he => by cases he) rfl hfo hfk ?_
        intro h0
        exact Or.inr ⟨hfn h0, hl, hL⟩
    · cases nd1 with
      | split _ _ _ => simp [Node.isLeaf] at hl
      | leaf bb l =>
        refine ⟨_, rfl, ⟨[], _, by simpa using hnode, rfl, hc, fun _ => ⟨fun h => ?_, fun _ => ⟨rfl, h0, by simpa using h1⟩⟩⟩,
          fun f hf => by simp only; rw [hfi]; exact hf, fun hn f hf => ?_⟩
        · simp only at h
          rw [hfo] at h; cases h
        · simp only at hf
          rw [hfi, hn] at hf; cases hf
    · cases nd1 with
      | leaf _ _ => simp [Node.isLeaf] at hl
      | split bb l ch =>
        obtain ⟨_, ⟨q, hq, hch⟩, hcw⟩ := hw
        exact splitCase bb l ch q hq hch hcw rfl hfo (fun f hf => by rw [hfi]; exact hf)
          fun h0 => Or.inl ⟨by rw [hfi]; exact h0, rfl⟩

theorem descend_total [Archimedean K] (bx : P → Box K n) (L : Int) (b : Box K n) (hb : b.empty = false) (nd : Node K n P)
    (level : Nat) (path : Path n) (a : Found n) (hw : nd.Wf bx) (hc : nd.box.containsBox b = true) :
    ∃ r, descend true L b nd level path a = some r ∧ Best L b nd level path a r := by
  obtain ⟨hn, hlt⟩ := (nonempty_iff b).1 hb
  let d : Fin n := ⟨0, Nat.pos_of_ne_zero hn⟩
  have hpos : 0 < b.size d := sub_pos.2 (hlt d)
  obtain ⟨m, hm⟩ := pow_unbounded_of_one_lt (nd.box.size d / b.size d) (one_lt_two (α := K))
  exact descend_best bx L b hb d m nd level path a hw ((div_lt_iff₀ hpos).1 hm) hc

/-! ### Trees built with one level -/

/-- Every primitive is in the smallest node that contains its box, or was kept above that by the level, in a leaf. -/
def Settled (bx : P → Box K n) (L : Int) (root : Node K n P) : Prop :=
  ∀ p t, root.get? p = some t → ∀ e ∈ t.list,
    (e.forced = false → NoFit t.box (bx e.prim)) ∧
    (e.forced = true → t.isLeaf = true ∧ 0 ≤ L ∧ L ≤ (p.length : Nat))

theorem settled_ofBox (bx : P → Box K n) (L : Int) (b : Box K n) : Settled bx L (ofBox b : Node K n P) := by
  intro p t ht e he
  cases p with
  | nil =>
    simp only [ofBox, Node.get?, Option.some.injEq] at ht
    subst ht
    cases he
  | cons i p => simp [ofBox, Node.get?] at ht

theorem settled_visited {bx : P → Box K n} {L : Int} {c : Bool} {root r : Node K n P} (h : Settled bx L root)
    (hv : Visited c L 0 root r bx) : Settled bx L r := by
  intro p t' ht' e he
  rcases hv.ext.new p t' ht' with ⟨t, e1, e2, e3⟩ | h0
  · rw [e3] at he
    obtain ⟨h1, h2⟩ := h p t e1 e he
    rw [e2]
    refine ⟨h1, fun hf => ?_⟩
    obtain ⟨g1, g2, g3⟩ := h2 hf
    obtain ⟨t2, f1, f2⟩ := hv.deep g2 p t e1 g1 (by simpa using g3)
    rw [ht', Option.some.injEq] at f1
    subst f1
    exact ⟨f2, g2, g3⟩
  · rw [h0] at he; cases he

theorem get?_modify_const (nd x t' : Node K n P) (c q : Path n) (h : (nd.modify (fun _ => x) c).get? q = some t') :
    (∃ rest, q = c ++ rest ∧ x.get? rest = some t') ∨ ∃ t, nd.get? q = some t ∧ t'.list = t.list := by
  induction c generalizing nd q with
  | nil =>
    simp only [Node.modify] at h
    exact Or.inl ⟨q, rfl, h⟩
  | cons i c ih =>
    cases nd with
    | leaf b l => exact Or.inr ⟨t', h, rfl⟩
    | split b l ch =>
      cases q with
      | nil =>
        simp only [Node.modify, Node.get?, Option.some.injEq] at h
        subst h
        exact Or.inr ⟨_, rfl, rfl⟩
      | cons j q =>
        simp only [Node.modify, Node.get?] at h
        by_cases hj : j = i
        · subst hj
          rw [Function.update_self] at h
          rcases ih (ch j) q h with ⟨rest, rfl, e2⟩ | ⟨t, e1, e2⟩
          · exact Or.inl ⟨rest, rfl, e2⟩
          · exact Or.inr ⟨t, e1, e2⟩
        · rw [Function.update_of_ne hj] at h
          exact Or.inr ⟨t', h, rfl⟩

theorem mem_prims_of_get? (nd t : Node K n P) (p : Path n) (ht : nd.get? p = some t) (e : Elem P) (he : e ∈ t.list) :
    e.prim ∈ nd.prims := by
  obtain ⟨rest, p1, _⟩ := modify_prims id nd p t ht
  refine p1.mem_iff.2 (List.mem_append_left _ ?_)
  rw [prims_eq]
  exact List.mem_append_left _ (List.mem_map_of_mem he)

theorem settled_regrow [FloorRing K] (start : K → Nat) (bx : P → Box K n) (L : Int) (root : Node K n P) (new : Box K n)
    (r : Node K n P) (hw : root.Wf bx) (hs : Settled bx L root) (h : regrow start root new = some r) : Settled bx L r := by
  obtain ⟨_, _, _, r0, path, rfl, _, hp⟩ := regrow_spec start bx root new r hw h
  intro q t' ht' e he
  rcases get?_modify_const r0 root t' path q ht' with ⟨rest, rfl, e2⟩ | ⟨t, e1, e2⟩
  · obtain ⟨h1, h2⟩ := hs rest t' e2 e he
    refine ⟨h1, fun hf => ?_⟩
    obtain ⟨g1, g2, g3⟩ := h2 hf
    exact ⟨g1, g2, by simp only [List.length_append]; omega⟩
  · rw [e2] at he
    have := mem_prims_of_get? r0 t q e1 e he
    rw [hp] at this
    cases this

theorem settle_id (bx : P → Box K n) (r : Node K n P) (first cur : Path n) (nd : Node K n P) (hnd : r.get? cur = some nd)
    (k : Nat) (h : ∀ e ∈ nd.list, e.forced = false) : settle bx r first cur k = some r := by
  induction hm : nd.list.length - k using Nat.strong_induction_on generalizing k with
  | _ m ih =>
    rw [settle, hnd]
    simp only [bind, Option.bind_some]
    cases he : nd.list[k]? with
    | none => rfl
    | some e =>
      have hmem := List.mem_of_getElem? he
      have hk : k < nd.list.length := (List.getElem?_eq_some_iff.1 he).1
      simp only [h e hmem, Bool.not_false, if_true]
      exact ih (nd.list.length - (k + 1)) (by omega) (k + 1) rfl

/-- With the same level every time `add` returns, and each primitive is where it belongs. -/
theorem add_total [FloorRing K] (start : K → Nat) (bx : P → Box K n) (L : Int) (root : Node K n P) (p : P)
    (hw : root.Wf bx) (hs : Settled bx L root) (hb : (bx p).empty = false)
    (hfit : root.box.containsBox (bx p) = true ∨ ∃ sup, growOnGrid start root.box (bx p) = some sup) :
    ∃ r, add start bx root p L = some r ∧ r.Wf bx ∧ Settled bx L r ∧ r.prims.Perm (p :: root.prims) ∧
      (root.box.containsBox (bx p) = true → r.box = root.box) := by
  have : Archimedean K := FloorRing.archimedean K
  -- the root box
  have hroot : ∃ root1, (if root.box.containsBox (bx p) then some root else regrow start root (bx p)) = some root1 ∧
      root1.Wf bx ∧ Settled bx L root1 ∧ root1.box.containsBox (bx p) = true ∧
      (root.box.containsBox (bx p) = true → root1.box = root.box) := by
    by_cases hc : root.box.containsBox (bx p) = true
    · exact ⟨root, by rw [if_pos hc], hw, hs, hc, fun _ => rfl⟩
    · obtain ⟨sup, hsup⟩ := hfit.resolve_left hc
      rw [if_neg hc]
      obtain ⟨hpos, ⟨pp, hg⟩, hnew⟩ := growOnGrid_spec start _ _ _ hsup
      have hn := ((nonempty_iff _).1 hb).1
      have hbe : root.box.empty = false := (nonempty_iff _).2 ⟨hn, fun d => sub_pos.1 (hpos d)⟩
      obtain ⟨r0, a', rel, e1, e2, e3⟩ := descend_grid (P := P) root.box hbe pp sup hg 0 [] {}
      have hr : ∃ r, regrow start root (bx p) = some r := by
        unfold regrow
        rw [hsup, Option.bind_some, e1, Option.bind_some]
        simp only [e2, List.nil_append, Option.bind_some, e3]
        have hprod : (0 : K) < ∏ i, root.box.size i := Finset.prod_pos fun i _ => hpos i
        have hf : ¬ ((∏ i, (Node.leaf root.box [] : Node K n P).box.size i) / ∏ i, root.box.size i) >
            ((2 ^ n + 1 : Nat) : K) / 2 := by
          show ¬ ((∏ i, root.box.size i) / ∏ i, root.box.size i) > _
          rw [div_self hprod.ne', gt_iff_lt, not_lt, le_div_iff₀ (by norm_num), one_mul]
          have : 2 ≤ 2 ^ n + 1 := by have := Nat.one_le_two_pow (n := n); omega
          exact_mod_cast this
        rw [if_neg hf]
        exact ⟨_, rfl⟩
      obtain ⟨r, hr⟩ := hr
      obtain ⟨w, _, ⟨_, hcont⟩, _⟩ := regrow_spec start bx root _ _ hw hr
      exact ⟨r, hr, w, settled_regrow start bx L root _ r hw hs hr, hcont hb, fun h => absurd h hc⟩
  obtain ⟨root1, h1, hw1, hs1, hc1, hbox1⟩ := hroot
  obtain ⟨⟨r1, a⟩, hd, hbest⟩ := descend_total bx L (bx p) hb root1 0 [] {} hw1 hc1
  have hds := descend_spec bx true L (bx p) root1 0 [] {} _ hd
  obtain ⟨path, t, e1, e2, e3, e4⟩ := hbest.place
  simp only [List.nil_append] at e1 e2
  have e45 := e4 rfl
  obtain ⟨e6, e5⟩ := e45
  simp only [Nat.zero_add] at e5
  have hs2 : Settled bx L r1 := settled_visited hs1 hds.toVisited
  set r2 := r1.modify (Node.mapList fun l => ⟨p, a.forced⟩ :: l) path with hr2
  have hs3 : Settled bx L r2 := by
    intro q t' ht' e he
    obtain ⟨s, g1, g2, g3, g4⟩ := (get?_modify_list (fun l => ⟨p, a.forced⟩ :: l) r1 path q).2 t' ht'
    rw [g2, g3]
    by_cases hq : q = path
    · rw [if_pos hq] at g4
      rw [g4] at he
      rcases List.mem_cons.1 he with rfl | he
      · subst hq
        rw [e2, Option.some.injEq] at g1
        subst g1
        exact ⟨e6, e5⟩
      · exact hs2 q s g1 e he
    · rw [if_neg hq] at g4
      rw [g4] at he
      exact hs2 q s g1 e he
  have hadd : add start bx root p L = some r2 := by
    unfold add
    rw [h1, Option.bind_some, hd, Option.bind_some]
    simp only [e1, Option.bind_some]
    cases hf : a.first with
    | none => rfl
    | some f =>
      simp only
      obtain ⟨rel, s, f1, f2, f3, f4⟩ := hbest.firstNew rfl f hf
      simp only [List.nil_append] at f1
      subst f1
      simp only [Nat.zero_add] at f4
      obtain ⟨s1, k1, k2, k3⟩ := hds.ext.old f s f2
      obtain ⟨s2, m1, m2, m3, m4⟩ := (get?_modify_list (fun l => ⟨p, a.forced⟩ :: l) r1 path f).1 s1 k1
      refine settle_id bx r2 f f s2 m1 0 fun e he => ?_
      cases hef : e.forced with
      | false => rfl
      | true =>
        exfalso
        obtain ⟨_, x2, x3⟩ := (hs3 f s2 m1 e he).2 hef
        omega
  have hsp := add_spec start bx root p L r2 hw hadd
  refine ⟨r2, hadd, hsp.1, hs3, hsp.2, fun h => ?_⟩
  have hb2 := (push_spec bx r1 path t ⟨p, a.forced⟩ (hds.wf hw1) e2 e3).2.1
  exact hb2.trans (hds.box.trans (hbox1 h))

end VW.SpatialTree
