import Verif.Dist.Model
import Mathlib.Tactic.Linarith
import Mathlib.Tactic.NormNum
import Mathlib.Tactic.Ring
import Mathlib.Tactic.Positivity
import Mathlib.Tactic.SplitIfs
import Mathlib.Tactic.Push
/-
Properties C159 (bounded distance) and C160 (bounded signed distance).
-/
namespace VW.Dist

/-! ### Specification -/

/-- A pixel of the image. -/
def Inside (s : Size) (p : Pix) : Prop := 0 ≤ p.1 ∧ p.1 < s.cols ∧ 0 ≤ p.2 ∧ p.2 < s.rows

/-- Euclidean distance of two pixels. -/
noncomputable def dist (p q : Pix) : ℝ := Real.sqrt (((p.1 - q.1 : Int) : ℝ) ^ 2 + ((p.2 - q.2 : Int) : ℝ) ^ 2)

/-- `r` is the distance from `p` to the nearest pixel with `B`, but not more than `M`. -/
def NearestUpTo (M : ℝ) (B : Pix → Prop) (p : Pix) (r : ℝ) : Prop :=
  r ≤ M ∧ (∀ q, B q → r ≤ dist p q) ∧ (r = M ∨ ∃ q, B q ∧ r = dist p q)

/-- A pixel with a non-zero value that is not at the edge of the image. -/
def ValidInner (s : Size) (image : Pix → Int) (p : Pix) : Prop :=
  image p ≠ 0 ∧ 1 ≤ p.1 ∧ p.1 ≤ s.cols - 2 ∧ 1 ≤ p.2 ∧ p.2 ≤ s.rows - 2

/-- One of the pixels round `q`, or `q` itself. -/
def Near (p q : Pix) : Prop := (q.1 - 1 ≤ p.1 ∧ p.1 ≤ q.1 + 1) ∧ (q.2 - 1 ≤ p.2 ∧ p.2 ≤ q.2 + 1)

/-- A pixel of the image without `V` beside one with `V`. -/
def Boundary (s : Size) (V : Pix → Prop) (q : Pix) : Prop :=
  Inside s q ∧ ¬ V q ∧ ∃ p, Inside s p ∧ Near p q ∧ V p

theorem nearest_unique {M : ℝ} {B : Pix → Prop} {p : Pix} {a b : ℝ} (ha : NearestUpTo M B p a)
    (hb : NearestUpTo M B p b) : a = b := by
  obtain ⟨a1, a2, a3⟩ := ha
  obtain ⟨b1, b2, b3⟩ := hb
  apply le_antisymm
  · rcases b3 with h | ⟨q, hq, h⟩
    · rw [h]; exact a1
    · rw [h]; exact a2 q hq
  · rcases a3 with h | ⟨q, hq, h⟩
    · rw [h]; exact b1
    · rw [h]; exact b2 q hq

/-! ### Loops -/

theorem mem_rng {lo hi x : Int} : x ∈ rng lo hi ↔ lo ≤ x ∧ x < hi := by
  unfold rng
  simp only [List.mem_map, List.mem_range]
  constructor
  · rintro ⟨k, hk, rfl⟩; omega
  · intro h; exact ⟨(x - lo).toNat, by omega, by omega⟩

theorem rng_nodup (lo hi : Int) : (rng lo hi).Nodup :=
  List.nodup_range.map (fun a b h => by simpa using h)

theorem mem_pairs {c0 c1 r0 r1 : Int} {p : Pix} :
    p ∈ pairs c0 c1 r0 r1 ↔ (c0 ≤ p.1 ∧ p.1 < c1) ∧ (r0 ≤ p.2 ∧ p.2 < r1) := by
  unfold pairs
  simp only [List.mem_flatMap, List.mem_map, mem_rng]
  constructor
  · rintro ⟨c, hc, r, hr, rfl⟩; exact ⟨hc, hr⟩
  · rintro ⟨hc, hr⟩; exact ⟨p.1, hc, p.2, hr, rfl⟩

theorem pairs_nodup (c0 c1 r0 r1 : Int) : (pairs c0 c1 r0 r1).Nodup := by
  unfold pairs
  rw [List.nodup_flatMap]
  constructor
  · intro c _
    exact (rng_nodup r0 r1).map (fun a b h => by simpa using h)
  · refine (rng_nodup c0 c1).imp ?_
    intro a b hab p hp hq
    simp only [List.mem_map] at hp hq
    obtain ⟨r, _, rfl⟩ := hp
    obtain ⟨r', _, h⟩ := hq
    exact hab (by simpa using (congrArg Prod.fst h).symm)

theorem has_iff {s : Size} {p : Pix} : s.has p = true ↔ Inside s p := by
  unfold Size.has Inside
  simp
  omega

theorem dist_eq (p q : Pix) : dist p q = Real.sqrt (dsq p q) := by
  unfold dist dsq
  congr 1
  ring

theorem dsq_nonneg (p q : Pix) : 0 ≤ dsq p q := by
  unfold dsq
  have a := mul_self_nonneg ((p.1 - q.1 : Int) : ℝ)
  have b := mul_self_nonneg ((p.2 - q.2 : Int) : ℝ)
  linarith

theorem dist_nonneg (p q : Pix) : 0 ≤ dist p q := Real.sqrt_nonneg _

theorem dsq_lt_iff {M : ℝ} (hM : 0 ≤ M) (p q : Pix) : dsq p q < M * M ↔ dist p q < M := by
  rw [dist_eq, Real.sqrt_lt (dsq_nonneg p q) hM, sq]

/-- Each step of the loop changes one value only, and each pixel is met once. -/
theorem pixel_loop (L : List Pix) (hL : L.Nodup) (c : Pix → Bool) (u : Pix → ℝ → ℝ) (D : DImg) (p : Pix) :
    (L.foldl (fun D p => if c p then D.set p (u p (D p)) else D) D) p =
      if p ∈ L ∧ c p = true then u p (D p) else D p := by
  induction L generalizing D with
  | nil => simp
  | cons x L ih =>
    rw [List.nodup_cons] at hL
    rw [List.foldl_cons, ih hL.2]
    by_cases hx : p = x
    · subst hx
      rw [if_neg (fun h => hL.1 h.1)]
      by_cases hc : c p = true
      · rw [if_pos hc, if_pos ⟨by simp, hc⟩]
        simp [DImg.set]
      · rw [if_neg hc, if_neg (fun h => hc h.2)]
    · have e : (if c x then D.set x (u x (D x)) else D) p = D p := by
        split_ifs
        · unfold DImg.set; rw [if_neg hx]
        · rfl
      rw [e]
      have : (p ∈ x :: L ∧ c p = true) ↔ (p ∈ L ∧ c p = true) := by simp [hx]
      simp only [this]

theorem paint_spec (s : Size) {M : ℝ} (hM : 0 ≤ M) (upd : Pix → ℝ → ℝ → ℝ) (q : Pix) (D : DImg) (p : Pix)
    (hp : Inside s p) :
    paint s M upd q D p = if dist p q < M then upd p (D p) (dist p q) else D p := by
  have e : paint s M upd q D = (pairs (q.1 - ⌈M⌉) (q.1 + ⌈M⌉ + 1) (q.2 - ⌈M⌉) (q.2 + ⌈M⌉ + 1)).foldl (fun D p =>
      if (s.has p && decide (dsq p q < M * M)) then D.set p (upd p (D p) (Real.sqrt (dsq p q))) else D) D := by
    unfold paint
    congr 1
    funext D p
    by_cases h1 : s.has p = true
    · rw [if_neg (by simp [h1])]
      by_cases h2 : dsq p q < M * M
      · rw [if_neg (not_le.2 h2), if_pos (by simp [h1, h2])]
      · rw [if_pos (not_lt.1 h2), if_neg (by simp [h2])]
    · have h1' : s.has p = false := by simpa using h1
      rw [if_pos h1', if_neg (by simp [h1'])]
  rw [e, pixel_loop _ (pairs_nodup _ _ _ _) (fun p => s.has p && decide (dsq p q < M * M))
    (fun p v => upd p v (Real.sqrt (dsq p q))), ← dist_eq]
  have hh := has_iff.2 hp
  by_cases hd : dist p q < M
  · rw [if_pos hd, if_pos]
    have hlt := (dsq_lt_iff hM p q).2 hd
    refine ⟨?_, by simp [hh, hlt]⟩
    have hc := Int.le_ceil M
    have h1 : ∀ x : Int, ((x : ℝ)) * x < M * M → -⌈M⌉ ≤ x ∧ x ≤ ⌈M⌉ := by
      intro x hx
      have := abs_lt_of_sq_lt_sq (a := (x : ℝ)) (b := M) (by rw [sq, sq]; exact hx) hM
      rw [abs_lt] at this
      constructor
      · have : (-(⌈M⌉ : ℝ)) < x := by linarith [this.1]
        have : ((-⌈M⌉ : Int) : ℝ) < (x : ℝ) := by push_cast; exact this
        have := Int.cast_lt.1 this
        omega
      · have : (x : ℝ) < ((⌈M⌉ : Int) : ℝ) := by linarith [this.2]
        have := Int.cast_lt.1 this
        omega
    unfold dsq at hlt
    have a := mul_self_nonneg ((p.1 - q.1 : Int) : ℝ)
    have b := mul_self_nonneg ((p.2 - q.2 : Int) : ℝ)
    have h2 := h1 (p.1 - q.1) (by linarith)
    have h3 := h1 (p.2 - q.2) (by linarith)
    rw [mem_pairs]
    omega
  · rw [if_neg hd, if_neg]
    intro h
    apply hd
    rw [← dsq_lt_iff hM]
    simpa [hh] using h.2

theorem hasNeighbour_iff (s : Size) (good : Pix → Prop) [DecidablePred good] (q : Pix) :
    hasNeighbour s good q = true ↔ ∃ p, Inside s p ∧ Near p q ∧ good p := by
  unfold hasNeighbour
  rw [List.any_eq_true]
  constructor
  · rintro ⟨p, hp, h⟩
    rw [mem_pairs] at hp
    simp only [Bool.and_eq_true, decide_eq_true_eq] at h
    exact ⟨p, has_iff.1 h.1, ⟨by omega, by omega⟩, h.2⟩
  · rintro ⟨p, h1, h2, h3⟩
    refine ⟨p, ?_, by simp [has_iff.2 h1, h3]⟩
    rw [mem_pairs]
    unfold Near at h2
    omega

/-! ### Walking towards a pixel -/

/-- One step from `q` towards `p`. -/
def toward (p q : Pix) : Pix := (q.1 + (p.1 - q.1).sign, q.2 + (p.2 - q.2).sign)

theorem axis_step (a b : Int) : (a - (b + (a - b).sign)).natAbs ≤ (a - b).natAbs ∧
    (a ≠ b → (a - (b + (a - b).sign)).natAbs < (a - b).natAbs) := by
  rcases lt_trichotomy (a - b) 0 with h | h | h
  · rw [Int.sign_eq_neg_one_of_neg h]; omega
  · rw [h, Int.sign_zero]; omega
  · rw [Int.sign_eq_one_of_pos h]; omega

theorem axis_range (a b : Int) : (b - 1 ≤ b + (a - b).sign ∧ b + (a - b).sign ≤ b + 1) ∧
    (min a b ≤ b + (a - b).sign ∧ b + (a - b).sign ≤ max a b) := by
  rcases lt_trichotomy (a - b) 0 with h | h | h
  · rw [Int.sign_eq_neg_one_of_neg h]; omega
  · rw [h, Int.sign_zero]; omega
  · rw [Int.sign_eq_one_of_pos h]; omega

theorem dist_mono {p q q' : Pix} (h1 : (p.1 - q'.1).natAbs ≤ (p.1 - q.1).natAbs)
    (h2 : (p.2 - q'.2).natAbs ≤ (p.2 - q.2).natAbs) : dist p q' ≤ dist p q := by
  unfold dist
  apply Real.sqrt_le_sqrt
  have key : ∀ x y : Int, x.natAbs ≤ y.natAbs → ((x : ℝ)) ^ 2 ≤ ((y : ℝ)) ^ 2 := by
    intro x y h
    rw [sq_le_sq]
    have e : ∀ z : Int, |(z : ℝ)| = ((z.natAbs : Nat) : ℝ) := fun z => by
      rw [← Int.cast_abs, Int.abs_eq_natAbs, Int.cast_natCast]
    rw [e, e]
    exact_mod_cast h
  have a := key _ _ h1
  have b := key _ _ h2
  linarith

/-- From every pixel without `V` one meets, on the way to a pixel with `V`, a boundary pixel, and it is not further. -/
theorem boundary_on_way (s : Size) (V : Pix → Prop) (p : Pix) (hp : Inside s p) (hv : V p) :
    ∀ (n : Nat) (q : Pix), (p.1 - q.1).natAbs + (p.2 - q.2).natAbs ≤ n → Inside s q → ¬ V q →
      ∃ q', Boundary s V q' ∧ dist p q' ≤ dist p q := by
  intro n
  induction n with
  | zero =>
    intro q hn _ hq
    have : q = p := by apply Prod.ext <;> omega
    exact absurd (this ▸ hv) hq
  | succ n ih =>
    intro q hn hqi hq
    obtain ⟨a1, a2⟩ := axis_step p.1 q.1
    obtain ⟨b1, b2⟩ := axis_step p.2 q.2
    obtain ⟨⟨c1, c2⟩, c3, c4⟩ := axis_range p.1 q.1
    obtain ⟨⟨d1, d2⟩, d3, d4⟩ := axis_range p.2 q.2
    have hin : Inside s (toward p q) := by
      unfold Inside toward at *
      dsimp only
      omega
    by_cases hx : V (toward p q)
    · refine ⟨q, ⟨hqi, hq, toward p q, hin, ?_, hx⟩, le_refl _⟩
      unfold Near toward
      dsimp only
      exact ⟨⟨c1, c2⟩, d1, d2⟩
    · have hne : p.1 ≠ q.1 ∨ p.2 ≠ q.2 := by
        by_contra h
        push Not at h
        exact hq ((Prod.ext h.1 h.2 : p = q) ▸ hv)
      obtain ⟨q', h1, h2⟩ := ih (toward p q) (by
        unfold toward
        dsimp only
        rcases hne with h | h
        · have := a2 h; omega
        · have := b2 h; omega) hin hx
      exact ⟨q', h1, le_trans h2 (dist_mono (by unfold toward; exact a1) (by unfold toward; exact b1))⟩

theorem nearest_of_boundary {s : Size} {V : Pix → Prop} {M r : ℝ} {p : Pix} (hp : Inside s p) (hv : V p)
    (h : NearestUpTo M (Boundary s V) p r) : NearestUpTo M (fun q => Inside s q ∧ ¬ V q) p r := by
  obtain ⟨h1, h2, h3⟩ := h
  refine ⟨h1, ?_, ?_⟩
  · rintro q ⟨hq, hq'⟩
    obtain ⟨q', hb, hd⟩ := boundary_on_way s V p hp hv _ q (le_refl _) hq hq'
    exact le_trans (h2 q' hb) hd
  · rcases h3 with h | ⟨q, hq, h⟩
    · exact Or.inl h
    · exact Or.inr ⟨q, ⟨hq.1, hq.2.1⟩, h⟩

theorem dist_pos {p q : Pix} (h : p ≠ q) : 0 < dist p q := by
  unfold dist
  apply Real.sqrt_pos.2
  have hne : p.1 - q.1 ≠ 0 ∨ p.2 - q.2 ≠ 0 := by
    by_contra hc
    push Not at hc
    exact h (Prod.ext (by omega) (by omega))
  have a := sq_nonneg ((p.1 - q.1 : Int) : ℝ)
  have b := sq_nonneg ((p.2 - q.2 : Int) : ℝ)
  rcases hne with h | h
  · have : (0 : ℝ) < ((p.1 - q.1 : Int) : ℝ) ^ 2 := by
      have : ((p.1 - q.1 : Int) : ℝ) ≠ 0 := by exact_mod_cast h
      positivity
    linarith
  · have : (0 : ℝ) < ((p.2 - q.2 : Int) : ℝ) ^ 2 := by
      have : ((p.2 - q.2 : Int) : ℝ) ≠ 0 := by exact_mod_cast h
      positivity
    linarith

/-! ### One more boundary pixel -/

theorem nearest_step {M r : ℝ} {B : Pix → Prop} {p q : Pix} (h : NearestUpTo M B p r) :
    NearestUpTo M (fun x => B x ∨ x = q) p (if dist p q < M then min r (dist p q) else r) := by
  obtain ⟨h1, h2, h3⟩ := h
  by_cases hd : dist p q < M
  · rw [if_pos hd]
    refine ⟨le_trans (min_le_left _ _) h1, ?_, ?_⟩
    · rintro x (hx | rfl)
      · exact le_trans (min_le_left _ _) (h2 x hx)
      · exact min_le_right _ _
    · rcases le_total r (dist p q) with hle | hle
      · rw [min_eq_left hle]
        rcases h3 with h | ⟨x, hx, h⟩
        · exact Or.inl h
        · exact Or.inr ⟨x, Or.inl hx, h⟩
      · rw [min_eq_right hle]
        exact Or.inr ⟨q, Or.inr rfl, rfl⟩
  · rw [if_neg hd]
    refine ⟨h1, ?_, ?_⟩
    · rintro x (hx | rfl)
      · exact h2 x hx
      · exact le_trans h1 (not_lt.1 hd)
    · rcases h3 with h | ⟨x, hx, h⟩
      · exact Or.inl h
      · exact Or.inr ⟨x, Or.inl hx, h⟩

theorem nearest_congr {M r : ℝ} {B B' : Pix → Prop} {p : Pix} (hB : ∀ q, B q ↔ B' q) (h : NearestUpTo M B p r) :
    NearestUpTo M B' p r := by
  have : B = B' := funext fun q => propext (hB q)
  rw [← this]; exact h

theorem inside_mem {s : Size} {q : Pix} : q ∈ pairs 0 s.cols 0 s.rows ↔ Inside s q := by
  rw [mem_pairs]
  unfold Inside
  omega

/-! ### The signed distance -/

/-- **C160 (signed distance)**: the function throws exactly for a negative bound; else at every valid pixel the result
is the distance to the nearest invalid pixel of the image, at every invalid one minus the distance to the nearest invalid
pixel with a valid neighbour (so 0 there), in both cases up to the bound. -/
theorem boundedSignedDist_spec (s : Size) (valid : Pix → Bool) (M : ℝ) :
    (boundedSignedDist s valid M = none ↔ M < 0) ∧
    ∀ D, boundedSignedDist s valid M = some D → ∀ p, Inside s p →
      (valid p = true → NearestUpTo M (fun q => Inside s q ∧ valid q = false) p (D p)) ∧
      (valid p = false → NearestUpTo M (Boundary s (fun x => valid x = true)) p (-(D p))) := by
  unfold boundedSignedDist
  by_cases hM : M < 0
  · rw [if_pos hM]
    exact ⟨by simp [hM], fun D h => by cases h⟩
  rw [if_neg hM]
  refine ⟨by simp [hM], ?_⟩
  intro D hD p hp
  have hM' : 0 ≤ M := not_lt.1 hM
  dsimp only at hD
  have hD' := Option.some.inj hD
  have key : ∀ (L : List Pix), (∀ q ∈ L, Inside s q) →
      ∀ E : DImg, E = L.foldl (fun D q => if valid q then D
        else if hasNeighbour s (fun p => valid p = true) q = false then D
        else paint s M (fun p cur d => if valid p then min cur d else max cur (-d)) q D)
          (fun p => if valid p then M else -M) →
      NearestUpTo M (fun q => q ∈ L ∧ Boundary s (fun x => valid x = true) q) p (if valid p then E p else -(E p)) := by
    intro L
    induction L using List.reverseRecOn with
    | nil =>
      intro _ E hE
      rw [hE]
      simp only [List.foldl_nil]
      cases hv : valid p <;> simp [NearestUpTo]
    | append_singleton L q ih =>
      intro hL E hE
      rw [List.foldl_append, List.foldl_cons, List.foldl_nil] at hE
      set F := L.foldl (fun D q => if valid q then D
        else if hasNeighbour s (fun p => valid p = true) q = false then D
        else paint s M (fun p cur d => if valid p then min cur d else max cur (-d)) q D)
          (fun p => if valid p then M else -M) with hF
      have hI := ih (fun x hx => hL x (by simp [hx])) F rfl
      have hq := hL q (by simp)
      have same : ¬ Boundary s (fun x => valid x = true) q → E = F →
          NearestUpTo M (fun q' => q' ∈ L ++ [q] ∧ Boundary s (fun x => valid x = true) q') p
            (if valid p then E p else -(E p)) := by
        intro hb he
        rw [he]
        refine nearest_congr (fun x => ?_) hI
        constructor
        · rintro ⟨h1, h2⟩; exact ⟨by simp [h1], h2⟩
        · rintro ⟨h1, h2⟩
          rcases List.mem_append.1 h1 with h | h
          · exact ⟨h, h2⟩
          · rw [List.mem_singleton] at h; exact absurd (h ▸ h2) hb
      by_cases h1 : valid q = true
      · rw [if_pos h1] at hE
        exact same (fun hb => hb.2.1 h1) hE
      · rw [if_neg h1] at hE
        by_cases h2 : hasNeighbour s (fun p => valid p = true) q = false
        · rw [if_pos h2] at hE
          refine same (fun hb => ?_) hE
          have := (hasNeighbour_iff s (fun p => valid p = true) q).2 hb.2.2
          rw [h2] at this
          cases this
        · rw [if_neg h2] at hE
          have hb : Boundary s (fun x => valid x = true) q :=
            ⟨hq, h1, (hasNeighbour_iff s (fun p => valid p = true) q).1 (by simpa using h2)⟩
          have hE' : E p = if dist p q < M then (if valid p then min (F p) (dist p q) else max (F p) (-(dist p q))) else F p := by
            rw [hE]; exact paint_spec s hM' _ q F p hp
          have hval : (if valid p then E p else -(E p)) =
              if dist p q < M then min (if valid p then F p else -(F p)) (dist p q) else (if valid p then F p else -(F p)) := by
            rw [hE']
            by_cases hv : valid p = true
            · simp only [hv, if_true]
            · simp only [hv, if_false, Bool.false_eq_true]
              split_ifs
              · rw [← neg_neg (dist p q), min_neg_neg, neg_neg]
              · rfl
          rw [hval]
          refine nearest_congr (fun x => ?_) (nearest_step (q := q) hI)
          constructor
          · rintro (⟨h1, h2⟩ | rfl)
            · exact ⟨by simp [h1], h2⟩
            · exact ⟨by simp, hb⟩
          · rintro ⟨h1, h2⟩
            rcases List.mem_append.1 h1 with h | h
            · exact Or.inl ⟨h, h2⟩
            · rw [List.mem_singleton] at h; exact Or.inr h
  have h := key (pairs 0 s.cols 0 s.rows) (fun q hq => inside_mem.1 hq) D hD'.symm
  have h' := nearest_congr (B' := Boundary s (fun x => valid x = true))
    (fun q => ⟨fun h => h.2, fun h => ⟨inside_mem.2 h.1, h⟩⟩) h
  constructor
  · intro hv
    rw [if_pos hv] at h'
    refine nearest_congr (fun q => ?_) (nearest_of_boundary (V := fun x => valid x = true) hp hv h')
    simp
  · intro hv
    rw [if_neg (by simp [hv])] at h'
    exact h'

/-! ### The distance -/

/-- **C159 (bounded distance)**: the function throws exactly for a negative bound; else a pixel that is zero or at the
edge of the image has distance 0, and every other one has the distance to the nearest such pixel, up to the bound. -/
theorem boundedDist_spec (s : Size) (image : Pix → Int) (M : ℝ) :
    (boundedDist s image M = none ↔ M < 0) ∧
    ∀ D, boundedDist s image M = some D → ∀ p, Inside s p →
      (¬ ValidInner s image p → D p = 0) ∧
      (ValidInner s image p →
        NearestUpTo M (fun q => Inside s q ∧ ¬ ValidInner s image q) p (D p) ∧ (0 < M → 0 < D p)) := by
  classical
  unfold boundedDist
  by_cases hM : M < 0
  · rw [if_pos hM]
    exact ⟨by simp [hM], fun D h => by cases h⟩
  rw [if_neg hM]
  refine ⟨by simp [hM], ?_⟩
  intro D hD
  have hM' : 0 ≤ M := not_lt.1 hM
  dsimp only at hD
  have hD' := Option.some.inj hD
  have hvi : ∀ p, (image p ≠ 0 ∧ p.1 > 0 ∧ p.1 < s.cols - 1 ∧ p.2 > 0 ∧ p.2 < s.rows - 1) ↔ ValidInner s image p := by
    intro p; unfold ValidInner; constructor <;> (rintro ⟨h1, h2⟩; exact ⟨h1, by omega⟩)
  simp only [hvi] at hD'
  rcases eq_or_lt_of_le hM' with h0 | hpos
  · -- a bound of 0: everything is 0
    have key : ∀ L : List Pix, L.foldl (fun D q => if D q > 0 then D
        else if hasNeighbour s (fun p => D p > 0) q = false then D
        else paint s M (fun _ cur d => if cur > 0 then min cur d else cur) q D)
          (fun p => if ValidInner s image p then M else 0) = fun _ => 0 := by
      have hz : (fun p => if ValidInner s image p then M else (0 : ℝ)) = fun _ => 0 := by
        funext p; rw [← h0]; simp
      rw [hz]
      intro L
      induction L with
      | nil => rfl
      | cons q L ih =>
        rw [List.foldl_cons, if_neg (lt_irrefl _), if_pos, ih]
        rw [← Bool.not_eq_true, hasNeighbour_iff]
        rintro ⟨p, _, _, h⟩
        exact lt_irrefl _ h
    have hD0 : D = fun _ => 0 := by rw [← hD']; exact key _
    intro p hp
    rw [hD0]
    refine ⟨fun _ => rfl, fun _ => ⟨⟨hM', fun q _ => dist_nonneg p q, Or.inl h0⟩, fun h => ?_⟩⟩
    exact absurd h0 (ne_of_lt h)
  · have key : ∀ (L : List Pix), (∀ q ∈ L, Inside s q) →
        ∀ E : DImg, E = L.foldl (fun D q => if D q > 0 then D
          else if hasNeighbour s (fun p => D p > 0) q = false then D
          else paint s M (fun _ cur d => if cur > 0 then min cur d else cur) q D)
            (fun p => if ValidInner s image p then M else 0) →
        ∀ p, Inside s p →
        (¬ ValidInner s image p → E p = 0) ∧
        (ValidInner s image p → 0 < E p ∧
          NearestUpTo M (fun q => q ∈ L ∧ Boundary s (ValidInner s image) q) p (E p)) := by
      intro L
      induction L using List.reverseRecOn with
      | nil =>
        intro _ E hE p _
        rw [hE, List.foldl_nil]
        exact ⟨fun h => if_neg h, fun h => by rw [if_pos h]; exact ⟨hpos, le_refl _, fun q h => absurd h.1 (by simp), Or.inl rfl⟩⟩
      | append_singleton L q ih =>
        intro hL E hE p hp
        rw [List.foldl_append, List.foldl_cons, List.foldl_nil] at hE
        set F := L.foldl (fun D q => if D q > 0 then D
          else if hasNeighbour s (fun p => D p > 0) q = false then D
          else paint s M (fun _ cur d => if cur > 0 then min cur d else cur) q D)
            (fun p => if ValidInner s image p then M else 0) with hF
        have hI := ih (fun x hx => hL x (by simp [hx])) F rfl
        have hq := hL q (by simp)
        have hpv : ∀ x, Inside s x → (F x > 0 ↔ ValidInner s image x) := by
          intro x hx
          constructor
          · intro h
            by_contra hc
            rw [(hI x hx).1 hc] at h
            exact lt_irrefl _ h
          · intro h; exact ((hI x hx).2 h).1
        have same : ¬ Boundary s (ValidInner s image) q → E = F →
            (¬ ValidInner s image p → E p = 0) ∧ (ValidInner s image p → 0 < E p ∧
              NearestUpTo M (fun q' => q' ∈ L ++ [q] ∧ Boundary s (ValidInner s image) q') p (E p)) := by
          intro hb he
          rw [he]
          refine ⟨(hI p hp).1, fun hv => ⟨((hI p hp).2 hv).1, nearest_congr (fun x => ?_) ((hI p hp).2 hv).2⟩⟩
          constructor
          · rintro ⟨h1, h2⟩; exact ⟨by simp [h1], h2⟩
          · rintro ⟨h1, h2⟩
            rcases List.mem_append.1 h1 with h | h
            · exact ⟨h, h2⟩
            · rw [List.mem_singleton] at h; exact absurd (h ▸ h2) hb
        by_cases h1 : F q > 0
        · rw [if_pos h1] at hE
          exact same (fun hb => hb.2.1 ((hpv q hq).1 h1)) hE
        · rw [if_neg h1] at hE
          have hnb : hasNeighbour s (fun p => F p > 0) q = true ↔ ∃ x, Inside s x ∧ Near x q ∧ ValidInner s image x := by
            rw [hasNeighbour_iff]
            constructor
            · rintro ⟨x, a, b, c⟩; exact ⟨x, a, b, (hpv x a).1 c⟩
            · rintro ⟨x, a, b, c⟩; exact ⟨x, a, b, (hpv x a).2 c⟩
          by_cases h2 : hasNeighbour s (fun p => F p > 0) q = false
          · rw [if_pos h2] at hE
            refine same (fun hb => ?_) hE
            have := hnb.2 hb.2.2
            rw [h2] at this
            cases this
          · rw [if_neg h2] at hE
            have hnv : ¬ ValidInner s image q := fun h => h1 ((hpv q hq).2 h)
            have hb : Boundary s (ValidInner s image) q := ⟨hq, hnv, hnb.1 (by simpa using h2)⟩
            have hE' : E p = if dist p q < M then (if F p > 0 then min (F p) (dist p q) else F p) else F p := by
              rw [hE]; exact paint_spec s hM' _ q F p hp
            constructor
            · intro hv
              have hF0 := (hI p hp).1 hv
              rw [hE', hF0]
              simp
            · intro hv
              obtain ⟨hFp, hFn⟩ := (hI p hp).2 hv
              rw [if_pos hFp] at hE'
              rw [hE']
              have hpq : p ≠ q := fun h => hnv (h ▸ hv)
              constructor
              · split_ifs
                · exact lt_min hFp (dist_pos hpq)
                · exact hFp
              · refine nearest_congr (fun x => ?_) (nearest_step (q := q) hFn)
                constructor
                · rintro (⟨h1, h2⟩ | rfl)
                  · exact ⟨by simp [h1], h2⟩
                  · exact ⟨by simp, hb⟩
                · rintro ⟨h1, h2⟩
                  rcases List.mem_append.1 h1 with h | h
                  · exact Or.inl ⟨h, h2⟩
                  · rw [List.mem_singleton] at h; exact Or.inr h
    intro p hp
    obtain ⟨ha, hb⟩ := key (pairs 0 s.cols 0 s.rows) (fun q hq => inside_mem.1 hq) D hD'.symm p hp
    refine ⟨ha, fun hv => ⟨?_, fun _ => (hb hv).1⟩⟩
    have h' := nearest_congr (B' := Boundary s (ValidInner s image))
      (fun q => ⟨fun h => h.2, fun h => ⟨inside_mem.2 h.1, h⟩⟩) (hb hv).2
    exact nearest_of_boundary hp hv h'

/-- A boundary pixel is at signed distance 0, other invalid ones below 0, valid ones above 0. -/
theorem signed_sign (s : Size) (valid : Pix → Bool) {M : ℝ} (hM : 0 < M) {D : DImg}
    (h : boundedSignedDist s valid M = some D) {p : Pix} (hp : Inside s p) :
    (valid p = true → 0 < D p) ∧ (Boundary s (fun x => valid x = true) p → D p = 0) ∧
    (valid p = false → ¬ Boundary s (fun x => valid x = true) p → D p < 0) := by
  obtain ⟨h1, h2⟩ := (boundedSignedDist_spec s valid M).2 D h p hp
  refine ⟨?_, ?_, ?_⟩
  · intro hv
    obtain ⟨_, _, h3 | ⟨q, hq, h3⟩⟩ := h1 hv
    · rw [h3]; exact hM
    · rw [h3]
      refine dist_pos (fun e => ?_)
      rw [← e, hv] at hq
      exact absurd hq.2 (by simp)
  · intro hb
    have hv : valid p = false := by simpa using hb.2.1
    obtain ⟨_, ha, hc⟩ := h2 hv
    have hself : dist p p = 0 := by unfold dist; simp
    have hle := ha p hb
    rw [hself] at hle
    have hge : 0 ≤ -(D p) := by
      rcases hc with hc | ⟨q, _, hc⟩
      · rw [hc]; exact le_of_lt hM
      · rw [hc]; exact dist_nonneg _ _
    linarith
  · intro hv hb
    obtain ⟨_, _, h3 | ⟨q, hq, h3⟩⟩ := h2 hv
    · linarith
    · have := dist_pos (p := p) (q := q) (fun e => hb (e ▸ hq))
      linarith

/-- A case: in a 5x5 image of ones the middle pixel is at distance 2 from the edge; with the bound 3/2 the result is the
bound. -/
example : ∃ D, boundedDist ⟨5, 5⟩ (fun _ => 1) (3 / 2) = some D ∧ D (2, 2) = 3 / 2 ∧ D (1, 2) = 1 ∧ D (0, 2) = 0 := by
  obtain ⟨hn, hs⟩ := boundedDist_spec ⟨5, 5⟩ (fun _ => 1) (3 / 2)
  cases hD : boundedDist ⟨5, 5⟩ (fun _ => 1) (3 / 2) with
  | none => exact absurd (hn.1 hD) (by norm_num)
  | some D =>
    refine ⟨D, rfl, ?_, ?_, ?_⟩
    · have hv : ValidInner ⟨5, 5⟩ (fun _ => 1) (2, 2) := by unfold ValidInner; norm_num
      refine nearest_unique ((hs D hD (2, 2) (by unfold Inside; norm_num)).2 hv).1 ⟨le_refl _, ?_, Or.inl rfl⟩
      rintro ⟨a, b⟩ ⟨hq1, hq2⟩
      unfold dist
      apply Real.le_sqrt_of_sq_le
      unfold ValidInner Inside at *
      dsimp only at *
      have h4 : (2 - a) ^ 2 + (2 - b) ^ 2 ≥ 4 := by
        have : (a = 0 ∨ a = 4) ∨ (b = 0 ∨ b = 4) := by
          by_contra hc
          push Not at hc
          exact hq2 ⟨by norm_num, by omega⟩
        have ha := sq_nonneg (2 - a)
        have hb := sq_nonneg (2 - b)
        rcases this with (h | h) | (h | h) <;> rw [h] at * <;> norm_num <;> nlinarith
      have h5 : (((2 - a) ^ 2 + (2 - b) ^ 2 : Int) : ℝ) ≥ ((4 : Int) : ℝ) := by exact_mod_cast h4
      push_cast at h5 ⊢
      linarith
    · have hv : ValidInner ⟨5, 5⟩ (fun _ => 1) (1, 2) := by unfold ValidInner; norm_num
      refine nearest_unique ((hs D hD (1, 2) (by unfold Inside; norm_num)).2 hv).1 ⟨by norm_num, ?_, Or.inr ⟨(0, 2), ?_, ?_⟩⟩
      · rintro ⟨a, b⟩ ⟨hq1, hq2⟩
        have hne : ((1 : Int), (2 : Int)) ≠ (a, b) := fun e => hq2 (e ▸ hv)
        unfold dist
        apply Real.le_sqrt_of_sq_le
        dsimp only
        have hne' : 1 - a ≠ 0 ∨ 2 - b ≠ 0 := by
          by_contra hc
          push Not at hc
          exact hne (Prod.ext (by dsimp only; omega) (by dsimp only; omega))
        have h4 : (1 - a) ^ 2 + (2 - b) ^ 2 ≥ 1 := by
          rcases hne' with h | h
          · have : 0 < (1 - a) ^ 2 := by positivity
            nlinarith [sq_nonneg (2 - b)]
          · have : 0 < (2 - b) ^ 2 := by positivity
            nlinarith [sq_nonneg (1 - a)]
        have h5 : (((1 - a) ^ 2 + (2 - b) ^ 2 : Int) : ℝ) ≥ ((1 : Int) : ℝ) := by exact_mod_cast h4
        push_cast at h5 ⊢
        linarith
      · unfold Inside ValidInner; norm_num
      · unfold dist; norm_num
    · exact (hs D hD (0, 2) (by unfold Inside; norm_num)).1 (by unfold ValidInner; norm_num)

end VW.Dist
