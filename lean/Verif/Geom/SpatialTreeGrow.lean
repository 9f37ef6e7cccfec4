/-
Growing the root box of vw::geometry::SpatialTree: the old root becomes a node of the new tree.
-/
import Verif.Geom.SpatialTreeAdd

set_option linter.unusedSectionVars false

namespace VW.SpatialTree

variable {K : Type} [Field K] [LinearOrder K] [IsStrictOrderedRing K] {n : Nat} {P : Type}

/-! ### A box that is in one quadrant only -/

/-- The step of the loop over the quadrants, for any recursive call `g`. -/
def stepWith (b : Box K n) (path : Path n) (level : Nat)
    (g : Node K n P → Nat → Path n → Found n → Option (Node K n P × Found n))
    (c : (Fin (2 ^ n) → Node K n P) × Found n) (i : Fin (2 ^ n)) : Option ((Fin (2 ^ n) → Node K n P) × Found n) :=
  if (c.1 i).box.containsBox b then
    g (c.1 i) (level + 1) (path ++ [i]) c.2 >>= fun r => some (Function.update c.1 i r.1, r.2)
  else some c

theorem fold_none (b : Box K n) (path : Path n) (level : Nat) (g) (c : (Fin (2 ^ n) → Node K n P) × Found n)
    (l : List (Fin (2 ^ n))) (h : ∀ j ∈ l, (c.1 j).box.containsBox b = false) :
    l.foldlM (stepWith b path level g) c = some c := by
  induction l with
  | nil => rfl
  | cons j l ih =>
    rw [List.foldlM_cons]
    have hj := h j List.mem_cons_self
    simp only [stepWith, hj, Bool.false_eq_true, if_false, bind, Option.bind_some]
    exact ih fun j hj => h j (List.mem_cons_of_mem _ hj)

theorem fold_single (b : Box K n) (path : Path n) (level : Nat) (g) (ch : Fin (2 ^ n) → Node K n P) (a : Found n)
    (i : Fin (2 ^ n)) (hi : (ch i).box.containsBox b = true) (ho : ∀ j, j ≠ i → (ch j).box.containsBox b = false)
    (l : List (Fin (2 ^ n))) (hn : l.Nodup) (hm : i ∈ l) :
    l.foldlM (stepWith b path level g) (ch, a) =
      g (ch i) (level + 1) (path ++ [i]) a >>= fun r => some (Function.update ch i r.1, r.2) := by
  induction l with
  | nil => cases hm
  | cons j l ih =>
    rw [List.foldlM_cons]
    have hnj := List.nodup_cons.1 hn
    by_cases hj : j = i
    · subst hj
      simp only [stepWith, hi, if_true, bind]
      cases hg : g (ch j) (level + 1) (path ++ [j]) a with
      | none => rfl
      | some r =>
        simp only [Option.bind_some]
        refine fold_none b path level g _ l fun k hk => ?_
        have : k ≠ j := by rintro rfl; exact hnj.1 hk
        simp only [Function.update_of_ne this]
        exact ho k this
    · have hj' := ho j hj
      have : stepWith b path level g (ch, a) j = some (ch, a) := by
        simp only [stepWith, hj', Bool.false_eq_true, if_false]
      rw [this]
      exact ih hnj.2 ((List.mem_cons.1 hm).resolve_left fun h => hj h.symm)

/-- A box with an inside is in at most one quadrant. -/
theorem quadrant_unique {b : Box K n} {q : Fin (2 ^ n) → Box K n} (h : quadrants b = some q) {c : Box K n}
    (hc : c.empty = false) {i j : Fin (2 ^ n)} (hi : (q i).containsBox c = true) (hj : (q j).containsBox c = true) : i = j := by
  by_contra hij
  have := quadrants_disjoint h hij hi hj
  have h2 : c.intersects c = true := by
    obtain ⟨h1, h2⟩ := (nonempty_iff c).1 hc
    exact (intersects_iff c c).2 ⟨h1, fun i => ⟨h2 i, h2 i⟩⟩
  rw [h2] at this; cases this

/-- Every choice of sides is a quadrant. -/
theorem exists_quadrant (u : Fin n → Bool) : ∃ i : Fin (2 ^ n), ∀ d, upper n i d = u d := by
  have inj : Function.Injective (fun i : Fin (2 ^ n) => upper n i) := fun i j h => eq_of_upper fun d => congrFun h d
  have sur : Function.Surjective (fun i : Fin (2 ^ n) => upper n i) := by
    refine ((Fintype.bijective_iff_injective_and_card _).2 ⟨inj, ?_⟩).2
    simp
  obtain ⟨i, hi⟩ := sur u
  exact ⟨i, fun d => congrFun hi d⟩

theorem quadrants_some {b : Box K n} (h : b.empty = false) : ∃ q, quadrants b = some q := by
  unfold quadrants Box.center
  rw [h]
  exact ⟨_, rfl⟩

theorem descend_eq (create : Bool) (maxLevel : Int) (b : Box K n) (nd : Node K n P) (level : Nat) (path : Path n)
    (a : Found n) (hc : nd.box.containsBox b = true) :
    descend create maxLevel b nd level path a =
      match visitNode create maxLevel b nd level path a with
      | (.leaf bx l, a) => some (.leaf bx l, a)
      | (.split bx l ch, a) =>
        ((List.finRange (2 ^ n)).reverse.foldlM (stepWith b path level (descend create maxLevel b)) (ch, a)) >>=
          fun r => some (.split bx l r.1, r.2) := by
  rw [descend, hc]
  rfl

/-! ### The grid -/

/-- `sup` is a grid of `2 ^ p` times the box `b` in each dimension, with `b` on the grid. -/
def OnGrid (b sup : Box K n) (p : Nat) : Prop :=
  ∀ d, sup.size d = 2 ^ p * b.size d ∧ ∃ k : Nat, k < 2 ^ p ∧ b.min d = sup.min d + k * b.size d

theorem OnGrid.contains {b sup : Box K n} {p : Nat} (h : OnGrid b sup p) (hn : n ≠ 0) (hb : ∀ d, 0 < b.size d) :
    sup.containsBox b = true := by
  rw [containsBox_iff]
  refine ⟨hn, fun d => ?_, fun d => ?_⟩
  · obtain ⟨_, k, _, h2⟩ := h d
    rw [h2]
    have : 0 ≤ (k : K) * b.size d := mul_nonneg (Nat.cast_nonneg k) (hb d).le
    linarith
  · obtain ⟨h1, k, hk, h2⟩ := h d
    have h3 : ((k : K) + 1) * b.size d ≤ 2 ^ p * b.size d := by
      refine mul_le_mul_of_nonneg_right ?_ (hb d).le
      exact_mod_cast hk
    have e1 : b.max d = b.min d + b.size d := by unfold Box.size; ring
    have e2 : sup.max d = sup.min d + sup.size d := by unfold Box.size; ring
    rw [e1, e2, h2, h1]
    linarith

theorem descend_grid (b : Box K n) (hb : b.empty = false) (p : Nat) (sup : Box K n) (hg : OnGrid b sup p) (level : Nat)
    (path : Path n) (a : Found n) : ∃ r a' rel, descend true (-1) b (.leaf sup [] : Node K n P) level path a = some (r, a') ∧
      a'.node = some (path ++ rel) ∧ r.get? rel = some (.leaf b []) := by
  obtain ⟨hn, hlt⟩ := (nonempty_iff b).1 hb
  have hpos : ∀ d, 0 < b.size d := fun d => sub_pos.2 (hlt d)
  induction p generalizing sup level path a with
  | zero =>
    have hs : sup = b := by
      have hmin : ∀ d, sup.min d = b.min d := by
        intro d
        obtain ⟨_, k, hk, h2⟩ := hg d
        have : k = 0 := by omega
        subst this
        rw [h2]; simp
      refine Box.ext' hmin fun d => ?_
      obtain ⟨h1, _⟩ := hg d
      simp only [pow_zero, one_mul] at h1
      unfold Box.size at h1
      rw [hmin d] at h1
      linarith
    subst hs
    rw [descend_eq true (-1) sup (.leaf sup []) level path a (hg.contains hn hpos)]
    obtain ⟨q, hq⟩ := quadrants_some hb
    have hno : ¬ ∃ i, (q i).containsBox sup = true := by
      rintro ⟨i, hi⟩
      have h1 := quadrant_size hq i
      rw [containsBox_iff] at hi
      have d : Fin n := ⟨0, Nat.pos_of_ne_zero hn⟩
      have h2 := hi.2.1 d
      have h3 := hi.2.2 d
      have h4 := h1 d
      have h5 := hpos d
      unfold Box.size at *
      linarith
    have hv : ∃ a1, visitNode true (-1) sup (.leaf sup [] : Node K n P) level path a = (.leaf sup [], a1) ∧
        a1.node = some path := by
      unfold visitNode
      rw [if_pos (by rfl), if_pos (by left; omega)]
      simp only [Node.box, hq]
      rw [if_neg hno]
      exact ⟨_, rfl, rfl⟩
    obtain ⟨a1, hv, ha1⟩ := hv
    rw [hv]
    exact ⟨_, _, [], rfl, by simpa using ha1, rfl⟩
  | succ p ih =>
    have hsup : sup.empty = false := by
      rw [nonempty_iff]
      refine ⟨hn, fun d => ?_⟩
      have := (hg d).1
      have h2 : 0 < sup.size d := by rw [this]; exact mul_pos (by positivity) (hpos d)
      exact sub_pos.1 h2
    obtain ⟨q, hq⟩ := quadrants_some hsup
    choose hsz k hk hmin using hg
    obtain ⟨i, hi⟩ := exists_quadrant fun d => decide (2 ^ p ≤ k d)
    obtain ⟨_, hq1, hq2⟩ := quadrants_eq hq
    have hgi : OnGrid b (q i) p := by
      intro d
      refine ⟨?_, ?_⟩
      · rw [quadrant_size hq i d, hsz d, pow_succ]; ring
      · have hmax : sup.max d = sup.min d + sup.size d := by unfold Box.size; ring
        rw [hq1, hi d]
        by_cases hd : 2 ^ p ≤ k d
        · refine ⟨k d - 2 ^ p, ?_, ?_⟩
          · have := hk d; rw [pow_succ] at this; omega
          · simp only [hd, decide_true, if_true]
            rw [hmax, hsz d, hmin d, Nat.cast_sub hd, pow_succ]
            push_cast
            ring
        · refine ⟨k d, by omega, ?_⟩
          simp only [hd, decide_false, Bool.false_eq_true, if_false]
          exact hmin d
    have hci := hgi.contains hn hpos
    have hcs : sup.containsBox b = true := containsBox_trans (quadrant_inside hq i) hci
    rw [descend_eq true (-1) b (.leaf sup []) level path a hcs]
    have hv : ∃ a1, visitNode true (-1) b (.leaf sup [] : Node K n P) level path a =
        (Node.split sup [] fun i => .leaf (q i) [], a1) := by
      unfold visitNode
      rw [if_pos (by rfl), if_pos (by left; omega)]
      simp only [Node.box, hq]
      rw [if_pos ⟨i, hci⟩]
      exact ⟨_, rfl⟩
    obtain ⟨a1, hv⟩ := hv
    rw [hv]
    simp only
    rw [fold_single b path level _ (fun i => .leaf (q i) []) _ i hci (fun j hj => by
      cases hx : (Node.leaf (q j) [] : Node K n P).box.containsBox b with
      | false => rfl
      | true => exact absurd (quadrant_unique hq hb hx hci) hj) _
      (List.nodup_reverse.2 (List.nodup_finRange _)) (List.mem_reverse.2 (List.mem_finRange i))]
    obtain ⟨r, a', rel, e1, e2, e3⟩ := ih (q i) hgi (level + 1) (path ++ [i]) a1
    rw [e1]
    refine ⟨_, _, i :: rel, rfl, ?_, ?_⟩
    · simpa using e2
    · simp only [Node.get?, Function.update_self]; exact e3

/-! ### The new root box -/

theorem grow_grows (b c : Box K n) : (∀ d, (b.grow c).min d ≤ b.min d) ∧ ∀ d, b.max d ≤ (b.grow c).max d := by
  unfold Box.grow
  dsimp only
  split
  · exact ⟨fun _ => le_refl _, fun _ => le_refl _⟩
  · dsimp only
    constructor
    · intro d
      by_cases h1 : c.min d < b.min d
      · simp only [h1, if_true]
        by_cases h2 : c.max d < c.min d
        · simp only [h2, if_true]; linarith
        · simp only [h2, if_false]; exact h1.le
      · simp only [h1, if_false]
        by_cases h2 : c.max d < b.min d
        · simp only [h2, if_true]; exact h2.le
        · simp only [h2, if_false]; exact le_refl _
    · intro d
      by_cases h1 : c.min d > b.max d
      · simp only [h1, if_true]
        by_cases h2 : c.max d > c.min d
        · simp only [h2, if_true]; linarith
        · simp only [h2, if_false]; exact h1.le
      · simp only [h1, if_false]
        by_cases h2 : c.max d > b.max d
        · simp only [h2, if_true]; exact h2.le
        · simp only [h2, if_false]; exact le_refl _

theorem grow_contains (b c : Box K n) (hc : c.empty = false) : (b.grow c).containsBox c = true := by
  obtain ⟨hn, hlt⟩ := (nonempty_iff c).1 hc
  rw [containsBox_iff]
  unfold Box.grow
  dsimp only
  rw [hc]
  simp only [Bool.false_eq_true, if_false]
  refine ⟨hn, fun d => ?_, fun d => ?_⟩
  · have := hlt d
    by_cases h1 : c.min d < b.min d
    · simp only [h1, if_true]
      rw [if_neg (by linarith)]
    · simp only [h1, if_false]
      split <;> linarith
  · have := hlt d
    by_cases h1 : c.min d > b.max d
    · simp only [h1, if_true]
      rw [if_pos (by linarith)]
    · simp only [h1, if_false]
      split <;> linarith

section
variable [FloorRing K]

theorem gridLoop_spec (b su : Box K n) (p : Nat) (sup : Box K n) (h : gridLoop b su p = some sup) :
    ∃ p, (∀ i, extraNeeded b su i ≤ 2 ^ p * b.size i - su.size i) ∧
      sup = ⟨fun i => su.min i - extraNeeded b su i,
        fun i => su.max i + (2 ^ p * b.size i - su.size i - extraNeeded b su i)⟩ := by
  induction hm : 32 - p using Nat.strong_induction_on generalizing p with
  | _ m ih =>
    rw [gridLoop] at h
    by_cases hp : p ≥ 32
    · rw [if_pos hp] at h; cases h
    · rw [if_neg hp] at h
      dsimp only at h
      by_cases hx : ∀ i, extraNeeded b su i ≤ 2 ^ p * b.size i - su.size i
      · rw [if_pos hx, Option.some.injEq] at h
        exact ⟨p, hx, h.symm⟩
      · rw [if_neg hx] at h
        exact ih (32 - (p + 1)) (by omega) (p + 1) h rfl

/-- The loop ends if the box is not more than `2 ^ 30` times as large. -/
theorem gridLoop_some (b su : Box K n) (hb : ∀ d, 0 < b.size d) (hle : ∀ d, su.min d ≤ b.min d)
    (hge : ∀ d, b.max d ≤ su.max d) (hs : ∀ d, su.size d ≤ 2 ^ 30 * b.size d) (p : Nat) (hp : p ≤ 31) :
    ∃ sup, gridLoop b su p = some sup := by
  induction hm : 31 - p using Nat.strong_induction_on generalizing p with
  | _ m ih =>
    rw [gridLoop, if_neg (by omega)]
    dsimp only
    by_cases hx : ∀ i, extraNeeded b su i ≤ 2 ^ p * b.size i - su.size i
    · rw [if_pos hx]; exact ⟨_, rfl⟩
    · rw [if_neg hx]
      by_cases h31 : p = 31
      · exfalso
        subst h31
        refine hx fun i => ?_
        have h1 : extraNeeded b su i ≤ b.size i := by
          unfold extraNeeded
          dsimp only
          have h2 := (Int.ceil_lt_add_one ((b.min i - su.min i) / b.size i)).le
          have h3 := mul_le_mul_of_nonneg_right h2 (hb i).le
          rw [add_mul, div_mul_cancel₀ _ (hb i).ne'] at h3
          linarith
        have h2 := hs i
        have h3 : b.size i ≤ su.size i := by
          have := hle i; have := hge i; unfold Box.size; linarith
        have h4 : (2 : K) ^ 31 = 2 * 2 ^ 30 := by rw [pow_succ]; ring
        rw [h4]
        linarith
      · exact ih (31 - (p + 1)) (by omega) (p + 1) (by omega) rfl

theorem growOnGrid_spec (start : K → Nat) (b new sup : Box K n) (h : growOnGrid start b new = some sup) :
    (∀ d, 0 < b.size d) ∧ (∃ p, OnGrid b sup p) ∧ (new.empty = false → sup.containsBox new = true) := by
  unfold growOnGrid at h
  by_cases hb : ∃ i, b.size i ≤ 0
  · rw [if_pos hb] at h; cases h
  · rw [if_neg hb] at h
    dsimp only at h
    have hpos : ∀ d, 0 < b.size d := fun d => lt_of_not_ge fun hh => hb ⟨d, hh⟩
    obtain ⟨p, hx, rfl⟩ := gridLoop_spec _ _ _ _ h
    obtain ⟨gmin, gmax⟩ := grow_grows b new
    set su := b.grow new with hsu
    have hen : ∀ i, 0 ≤ extraNeeded b su i := by
      intro i
      unfold extraNeeded
      dsimp only
      have h2 := Int.le_ceil ((b.min i - su.min i) / b.size i)
      have h3 := mul_le_mul_of_nonneg_right h2 (hpos i).le
      rw [div_mul_cancel₀ _ (hpos i).ne'] at h3
      linarith
    refine ⟨hpos, ⟨p, fun d => ⟨?_, ?_⟩⟩, ?_⟩
    · unfold Box.size; ring
    · have hc0 : 0 ≤ ⌈(b.min d - su.min d) / b.size d⌉ :=
        Int.ceil_nonneg (div_nonneg (sub_nonneg.2 (gmin d)) (hpos d).le)
      obtain ⟨k, hk⟩ := Int.eq_ofNat_of_zero_le hc0
      have hke : (⌈(b.min d - su.min d) / b.size d⌉ : K) = (k : K) := by rw [hk]; simp
      have e1 : extraNeeded b su d = k * b.size d - (b.min d - su.min d) := by
        unfold extraNeeded
        dsimp only
        rw [hke]
      refine ⟨k, ?_, ?_⟩
      · have h1 := hx d
        rw [e1] at h1
        have h2 : b.size d = b.max d - b.min d := rfl
        have h3 : su.size d = su.max d - su.min d := rfl
        have h4 := gmax d
        have h5 : ((k : K) + 1) * b.size d ≤ 2 ^ p * b.size d := by linarith
        have h6 := le_of_mul_le_mul_right h5 (hpos d)
        exact_mod_cast h6
      · show b.min d = su.min d - extraNeeded b su d + _
        rw [e1]; ring
    · intro hne
      have hg := (containsBox_iff _ _).1 (grow_contains b new hne)
      rw [containsBox_iff]
      refine ⟨hg.1, fun d => ?_, fun d => ?_⟩
      · have h1 := hg.2.1 d
        have h2 := hen d
        dsimp only
        linarith
      · have h1 := hg.2.2 d
        have h2 := hx d
        dsimp only
        linarith

theorem growOnGrid_some (start : K → Nat) (b new : Box K n) (hb : ∀ d, 0 < b.size d)
    (hs : ∀ d, (b.grow new).size d ≤ 2 ^ 30 * b.size d)
    (hst : ∀ d, start ((b.grow new).size d / b.size d) ≤ 31) : ∃ sup, growOnGrid start b new = some sup := by
  unfold growOnGrid
  rw [if_neg (by rintro ⟨i, hi⟩; have := hb i; linarith)]
  dsimp only
  obtain ⟨gmin, gmax⟩ := grow_grows b new
  refine gridLoop_some b _ hb gmin gmax hs _ ?_
  have : ∀ (l : List (Fin n)) (p : Nat), p ≤ 31 → l.foldl (fun p i =>
      if (b.grow new).size i / b.size i > 1 then Max.max p (start ((b.grow new).size i / b.size i)) else p) p ≤ 31 := by
    intro l
    induction l with
    | nil => intro p hp; exact hp
    | cons i l ih =>
      intro p hp
      rw [List.foldl_cons]
      refine ih _ ?_
      have := hst i
      split
      · exact max_le hp this
      · exact hp
  exact this _ 1 (by omega)

theorem withBox_self (nd : Node K n P) : nd.withBox nd.box = nd := by cases nd <;> rfl

/-- The new root: empty nodes, and the old tree at some position. -/
theorem regrow_spec (start : K → Nat) (bx : P → Box K n) (root : Node K n P) (new : Box K n) (r : Node K n P)
    (hw : root.Wf bx) (h : regrow start root new = some r) :
    r.Wf bx ∧ r.prims.Perm root.prims ∧
      (growOnGrid start root.box new = some r.box ∧ (new.empty = false → r.box.containsBox new = true)) ∧
      ∃ (r0 : Node K n P) (path : Path n), r = r0.modify (fun _ => root) path ∧ r0.get? path = some (.leaf root.box []) ∧ r0.prims = [] := by
  unfold regrow at h
  simp only [Option.bind_eq_some_iff] at h
  obtain ⟨sup, hsup, ⟨r0, a⟩, hd, path, ha, t, ht, h⟩ := h
  obtain ⟨hpos, ⟨p, hg⟩, hnew⟩ := growOnGrid_spec start _ _ _ hsup
  have hn : n ≠ 0 := by
    rintro rfl
    have hds := descend_spec bx true (-1) root.box (.leaf sup []) 0 [] {} _ hd
    have := hds.notFound (by simp [Box.containsBox])
    simp only at this ha
    rw [ha] at this
    cases this
  have hb : root.box.empty = false := (nonempty_iff _).2 ⟨hn, fun d => sub_pos.1 (hpos d)⟩
  obtain ⟨r1, a1, rel, e1, e2, e3⟩ := descend_grid (P := P) root.box hb p sup hg 0 [] {}
  have hds := descend_spec bx true (-1) root.box (.leaf sup []) 0 [] {} _ hd
  rw [hd, Option.some.injEq, Prod.mk.injEq] at e1
  obtain ⟨rfl, rfl⟩ := e1
  simp only at ha
  rw [ha, Option.some.injEq, List.nil_append] at e2
  subst e2
  rw [ht, Option.some.injEq] at e3
  subst e3
  have hprod : (0 : K) < ∏ i, root.box.size i := Finset.prod_pos fun i _ => hpos i
  have hf : ¬ ((∏ i, (Node.leaf root.box [] : Node K n P).box.size i) / ∏ i, root.box.size i) > ((2 ^ n + 1 : Nat) : K) / 2 := by
    show ¬ ((∏ i, root.box.size i) / ∏ i, root.box.size i) > _
    rw [div_self hprod.ne', gt_iff_lt, not_lt, le_div_iff₀ (by norm_num), one_mul]
    have : 2 ≤ 2 ^ n + 1 := by have := Nat.one_le_two_pow (n := n); omega
    exact_mod_cast this
  rw [if_neg hf] at h
  simp only [Option.some.injEq] at h
  obtain ⟨y, rfl, rfl⟩ := h
  have hfn : (fun _ : Node K n P => root.withBox (Node.leaf root.box [] : Node K n P).box) = fun _ => root :=
    funext fun _ => withBox_self root
  dsimp only
  rw [hfn]
  have hw0 : r0.Wf bx := hds.wf (by intro e he; cases he)
  have hp0 : r0.prims = [] := hds.prims
  obtain ⟨w1, w2⟩ := modify_wf bx (fun _ => root) r0 path _ ht hw0 hw rfl
  refine ⟨w1, ?_, ?_, r0, path, rfl, ht, hp0⟩
  · obtain ⟨rest, p1, p2⟩ := modify_prims (fun _ => root) r0 path _ ht
    rw [hp0] at p1
    have hr : rest = [] := by
      have := p1.length_eq
      simp only [List.length_nil, List.length_append] at this
      exact List.eq_nil_of_length_eq_zero (by omega)
    rw [hr, List.append_nil] at p2
    exact p2
  · have := w2.trans hds.box
    simp only [Node.box] at this
    rw [show (Node.modify (fun _ => root) r0 path).box = sup from this]
    exact ⟨hsup, hnew⟩

end

end VW.SpatialTree
