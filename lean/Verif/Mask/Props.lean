import Verif.Mask.Model
import Mathlib.Tactic.NormNum
import Mathlib.Data.Rat.Defs
import Mathlib.Data.Fintype.Basic

/-
C91.  Validity of masked pixels, mask views and edge masks.
-/

namespace Verif.Mask

set_option linter.unusedSectionVars false

variable {C : Type} [Zero C] [DecidableEq C] [ChanRange C] {n : Nat}

/-! ## Arithmetic -/

theorem isValid_iff (p : PMask n C) : p.isValid = true ↔ p.valid ≠ 0 := by simp [PMask.isValid]

/-- The binary operations: the result is valid exactly if both arguments are, and its channels are computed as without
mask. -/
theorem bin_spec (f : C → C → C) (a b : PMask n C) :
    ((binOp f a b).isValid = (a.isValid && b.isValid)) ∧ ∀ i, (binOp f a b).child i = f (a.child i) (b.child i) := by
  have ht := ChanRange.top_ne (C := C)
  by_cases hn : 1 ≤ n ∧ n ≤ 4
  · have e : binOp f a b = binSmall f a b := if_pos hn
    rw [e]
    unfold binSmall
    by_cases ha : a.valid = 0 <;> by_cases hb : b.valid = 0 <;>
      simp [PMask.isValid, PMask.ofChild, PMask.invalidate, ha, hb, ht]
  · have e : binOp f a b = binGeneral f a b := if_neg hn
    rw [e]
    unfold binGeneral
    by_cases ha : a.valid = 0 <;> by_cases hb : b.valid = 0 <;>
      simp [PMask.isValid, PMask.default, PMask.validate, ha, hb, ht]

theorem un_spec (f : C → C) (a : PMask n C) :
    ((unOp f a).isValid = a.isValid) ∧ ∀ i, (unOp f a).child i = f (a.child i) := by
  have ht := ChanRange.top_ne (C := C)
  unfold unOp
  by_cases hn : 1 ≤ n ∧ n ≤ 4 <;> by_cases ha : a.valid = 0 <;>
    simp [hn, PMask.isValid, PMask.ofChild, PMask.invalidate, PMask.default, PMask.validate, ha, ht]

theorem mscalar_spec (f : C → C → C) (a : PMask n C) (s : PMask 1 C) :
    ((maskedScalar f a s).isValid = (a.isValid && s.isValid)) ∧
      ∀ i, (maskedScalar f a s).child i = f (a.child i) (s.child 0) := by
  unfold maskedScalar
  by_cases hs : s.valid = 0
  · rw [if_pos hs]
    refine ⟨?_, fun i => ?_⟩
    · rw [(un_spec _ _).1]; simp [PMask.isValid, PMask.invalidate, hs]
    · rw [(un_spec _ _).2]; rfl
  · rw [if_neg hs]
    refine ⟨?_, fun i => ?_⟩
    · rw [(un_spec _ _).1]; simp [PMask.isValid, hs]
    · rw [(un_spec _ _).2]

theorem quot_spec (div : C → C → C) (a b : PMask n C) :
    ((safeQuotient div a b).isValid = (a.isValid && b.isValid)) ∧
      ((∀ i, b.child i = 0) → ∀ i, (safeQuotient div a b).child i = 0) ∧
      ((∃ i, b.child i ≠ 0) → ∀ i, (safeQuotient div a b).child i = div (a.child i) (b.child i)) := by
  have ht := ChanRange.top_ne (C := C)
  unfold safeQuotient
  by_cases hz : ∀ i, b.child i = 0
  · rw [if_pos hz]
    refine ⟨?_, fun _ i => ?_, fun h => ?_⟩
    · cases h : (a.isValid && b.isValid) <;> simp [PMask.isValid, PMask.default, PMask.validate, ht]
    · cases h : (a.isValid && b.isValid) <;> simp [PMask.default, PMask.validate]
    · obtain ⟨i, hi⟩ := h; exact absurd (hz i) hi
  · rw [if_neg hz]
    exact ⟨(bin_spec _ _ _).1, fun h => absurd h hz, fun _ i => (bin_spec _ _ _).2 i⟩

/-- Expressions over masked pixels. -/
inductive Expr (n : Nat) (C : Type) where
  | leaf (p : PMask n C)
  | un (f : C → C) (e : Expr n C)
  | bin (f : C → C → C) (e₁ e₂ : Expr n C)
  | scalar (f : C → C → C) (e : Expr n C) (s : PMask 1 C)
  | quot (div : C → C → C) (e₁ e₂ : Expr n C)

/-- The masked pixel computed. -/
def Expr.eval : Expr n C → PMask n C
  | .leaf p => p
  | .un f e => unOp f e.eval
  | .bin f e₁ e₂ => binOp f e₁.eval e₂.eval
  | .scalar f e s => maskedScalar f e.eval s
  | .quot d e₁ e₂ => safeQuotient d e₁.eval e₂.eval

/-- All pixels and scalars the expression is made of are valid. -/
def Expr.AllValid : Expr n C → Prop
  | .leaf p => p.valid ≠ 0
  | .un _ e => e.AllValid
  | .bin _ e₁ e₂ => e₁.AllValid ∧ e₂.AllValid
  | .scalar _ e s => e.AllValid ∧ s.valid ≠ 0
  | .quot _ e₁ e₂ => e₁.AllValid ∧ e₂.AllValid

/-- What the expression says without masks; a quotient by a pixel that is zero in all channels is zero. -/
def Expr.plain : Expr n C → Fin n → C
  | .leaf p, i => p.child i
  | .un f e, i => f (e.plain i)
  | .bin f e₁ e₂, i => f (e₁.plain i) (e₂.plain i)
  | .scalar f e s, i => f (e.plain i) (s.child 0)
  | .quot d e₁ e₂, i => if ∀ k, e₂.plain k = 0 then 0 else d (e₁.plain i) (e₂.plain i)

/-- **C91.** Any expression is valid exactly if all pixels it is made of are, and its channels are what the expression
says without masks. -/
theorem mask_expr (e : Expr n C) : (e.eval.valid ≠ 0 ↔ e.AllValid) ∧ ∀ i, e.eval.child i = e.plain i := by
  induction e with
  | leaf p => exact ⟨Iff.rfl, fun _ => rfl⟩
  | un f e ih =>
    refine ⟨?_, fun i => ?_⟩
    · rw [← isValid_iff, Expr.eval, (un_spec _ _).1, isValid_iff]; exact ih.1
    · rw [Expr.eval, (un_spec _ _).2, ih.2]; rfl
  | bin f e₁ e₂ ih₁ ih₂ =>
    refine ⟨?_, fun i => ?_⟩
    · rw [← isValid_iff, Expr.eval, (bin_spec _ _ _).1, Bool.and_eq_true, isValid_iff, isValid_iff, ih₁.1, ih₂.1]; rfl
    · rw [Expr.eval, (bin_spec _ _ _).2, ih₁.2, ih₂.2]; rfl
  | scalar f e s ih =>
    refine ⟨?_, fun i => ?_⟩
    · rw [← isValid_iff, Expr.eval, (mscalar_spec _ _ _).1, Bool.and_eq_true, isValid_iff, isValid_iff, ih.1]; rfl
    · rw [Expr.eval, (mscalar_spec _ _ _).2, ih.2]; rfl
  | quot d e₁ e₂ ih₁ ih₂ =>
    obtain ⟨q1, q2, q3⟩ := quot_spec d e₁.eval e₂.eval
    refine ⟨?_, fun i => ?_⟩
    · rw [← isValid_iff, Expr.eval, q1, Bool.and_eq_true, isValid_iff, isValid_iff, ih₁.1, ih₂.1]; rfl
    · rw [Expr.eval, Expr.plain]
      by_cases hz : ∀ k, e₂.plain k = 0
      · rw [if_pos hz]
        exact q2 (fun k => by rw [ih₂.2, hz]) i
      · rw [if_neg hz, q3 ?_ i, ih₁.2, ih₂.2]
        push Not at hz
        obtain ⟨k, hk⟩ := hz
        exact ⟨k, by rw [ih₂.2]; exact hk⟩

/-- **C91.** Changing a pixel in place has the same effect as computing the new value. -/
theorem in_place (f : C → C → C) (g : C → C) (a b : PMask n C) (s : PMask 1 C) :
    ((binInPlace f a b).valid ≠ 0 ↔ (binOp f a b).valid ≠ 0) ∧ (∀ i, (binInPlace f a b).child i = (binOp f a b).child i) ∧
    ((unInPlace g a).valid ≠ 0 ↔ (unOp g a).valid ≠ 0) ∧ (∀ i, (unInPlace g a).child i = (unOp g a).child i) ∧
    ((maskedScalarInPlace f a s).valid ≠ 0 ↔ (maskedScalar f a s).valid ≠ 0) ∧
    (∀ i, (maskedScalarInPlace f a s).child i = (maskedScalar f a s).child i) ∧
    ((safeQuotientInPlace f a b).valid ≠ 0 ↔ (safeQuotient f a b).valid ≠ 0) ∧
    (∀ i, (safeQuotientInPlace f a b).child i = (safeQuotient f a b).child i) := by
  have ht := ChanRange.top_ne (C := C)
  refine ⟨?_, fun i => ?_, ?_, fun i => ?_, ?_, fun i => ?_, ?_, fun i => ?_⟩
  · rw [← isValid_iff (binOp f a b), (bin_spec _ _ _).1, Bool.and_eq_true, isValid_iff, isValid_iff]
    unfold binInPlace
    by_cases hb : b.valid = 0 <;> simp [hb, PMask.invalidate]
  · rw [(bin_spec _ _ _).2]
    unfold binInPlace
    by_cases hb : b.valid = 0 <;> simp [hb, PMask.invalidate]
  · rw [← isValid_iff (unOp g a), (un_spec _ _).1, isValid_iff]; rfl
  · rw [(un_spec _ _).2]; rfl
  · rw [← isValid_iff (maskedScalar f a s), (mscalar_spec _ _ _).1, Bool.and_eq_true, isValid_iff, isValid_iff]
    unfold maskedScalarInPlace unInPlace
    by_cases hs : s.valid = 0 <;> simp [hs, PMask.invalidate]
  · rw [(mscalar_spec _ _ _).2]
    unfold maskedScalarInPlace unInPlace
    by_cases hs : s.valid = 0 <;> simp [hs, PMask.invalidate]
  · unfold safeQuotientInPlace safeQuotient
    by_cases hz : ∀ i, b.child i = 0
    · rw [if_pos hz, if_pos hz]
      cases h : (a.isValid && b.isValid) <;> simp [PMask.default, PMask.validate, PMask.ofChild]
    · rw [if_neg hz, if_neg hz]
      unfold PMask.convert
      by_cases h : (binOp f a b).valid = 0 <;> simp [h, ht]
  · unfold safeQuotientInPlace safeQuotient
    by_cases hz : ∀ i, b.child i = 0
    · rw [if_pos hz, if_pos hz]
      cases h : (a.isValid && b.isValid) <;> simp [PMask.default, PMask.validate, PMask.ofChild]
    · rw [if_neg hz, if_neg hz]; rfl

/-- **C91.** A new masked pixel is invalid, one made from a pixel is valid and holds it; validating, invalidating,
toggling and converting a pixel do not change its channels, and toggling twice does not change its validity. -/
theorem mask_basic (p : PMask n C) (c : Fin n → C) :
    (PMask.default : PMask n C).valid = 0 ∧ (PMask.ofChild c).valid ≠ 0 ∧ (PMask.ofChild c).child = c ∧
    p.validate.valid ≠ 0 ∧ p.validate.child = p.child ∧ p.invalidate.valid = 0 ∧ p.invalidate.child = p.child ∧
    (p.toggle.valid ≠ 0 ↔ p.valid = 0) ∧ p.toggle.child = p.child ∧ (p.toggle.toggle.valid ≠ 0 ↔ p.valid ≠ 0) ∧
    (p.convert.valid ≠ 0 ↔ p.valid ≠ 0) ∧ p.convert.child = p.child := by
  have ht := ChanRange.top_ne (C := C)
  refine ⟨rfl, ht, rfl, ht, rfl, rfl, rfl, ?_, ?_, ?_, ?_, rfl⟩
  · unfold PMask.toggle; by_cases h : p.valid = 0 <;> simp [h, ht]
  · unfold PMask.toggle; by_cases h : p.valid = 0 <;> simp [h]
  · unfold PMask.toggle; by_cases h : p.valid = 0 <;> simp [h, ht]
  · unfold PMask.convert; by_cases h : p.valid = 0 <;> simp [h, ht]

instance : ChanRange ℚ := ⟨1, by norm_num⟩

/-- Refuted: `mean_channel_value` of a valid masked pixel is the mean of its channels.  The last channel is left out; for
one channel the result is always zero. -/
theorem mean_wrong :
    meanChannel (⟨fun i => if i = 0 then 3 else 6, 1⟩ : PMask 3 ℚ) = 3 ∧
      ∀ p : PMask 1 ℚ, meanChannel p = 0 := by
  constructor
  · decide +kernel
  · intro p
    unfold meanChannel
    by_cases h : p.valid = 0 <;> simp [h]

/-- Refuted: quotients of masked pixels never divide by zero.  A divisor that is zero in some but not all channels is
divided by as it is. -/
theorem quot_by_zero (div : ℚ → ℚ → ℚ) :
    (safeQuotient div (⟨fun _ => 1, 1⟩ : PMask 2 ℚ) ⟨fun i => if i = 0 then 0 else 1, 1⟩).child 0 = div 1 0 := by
  rw [(quot_spec div _ _).2.2 ⟨1, by simp⟩ 0]
  simp

/-- A case of `mask_expr`: a sum with an invalid pixel. -/
example : ((Expr.bin (· + ·) (.leaf ⟨fun _ => 2, 1⟩) (.un (fun c => c + 5) (.leaf ⟨fun _ => 1, 0⟩))) : Expr 3 ℚ).eval.valid = 0 := by
  decide +kernel

/-! ## Masks from values -/

variable {α : Type} [LinearOrder α]

/-- **C91.** Which values are valid: `create_mask` keeps all numbers but the no-data value, `create_mask_less_or_equal`
those above it (all numbers if the no-data value is NaN), the range masks those in the closed range and in the range open
below, `create_mask_nan` all numbers.  NaN is never valid.  A valid pixel holds the value. -/
theorem create_valid (zero nodata lo hi v : Flt α) :
    ((createMask zero nodata v).2 = true ↔ v ≠ none ∧ v ≠ nodata) ∧
    ((createMaskLE zero nodata v).2 = true ↔ ∃ x, v = some x ∧ ∀ y, nodata = some y → y < x) ∧
    ((createRangeMask zero lo hi v).2 = true ↔ ∃ x, v = some x ∧ (∀ y, lo = some y → y ≤ x) ∧ ∀ y, hi = some y → x ≤ y) ∧
    ((createRangeMask2 zero nodata hi v).2 = true ↔ ∃ x y z, v = some x ∧ nodata = some y ∧ hi = some z ∧ y < x ∧ x ≤ z) ∧
    ((createMaskNan zero v).2 = true ↔ v ≠ none) := by
  refine ⟨?_, ?_, ?_, ?_, ?_⟩
  · cases v <;> cases nodata <;> simp [createMask, feq]
    rename_i x y
    by_cases h : x = y <;> simp [h]
  · cases v <;> cases nodata <;> simp [createMaskLE, feq, flt]
    rename_i x y
    by_cases h : y < x <;> simp [h]
  · cases v <;> cases lo <;> cases hi <;> simp [createRangeMask, feq, flt]
    · rename_i x y
      by_cases h : y < x
      · simp [h]
      · simp [h, not_lt.1 h]
    · rename_i x y
      by_cases h : x < y
      · simp [h]
      · simp [h, not_lt.1 h]
    · rename_i x y z
      by_cases h : x < y
      · simp [h]
      · by_cases h' : z < x
        · simp [h']
        · simp [h, h', not_lt.1 h, not_lt.1 h']
  · cases v <;> cases nodata <;> cases hi <;> simp [createRangeMask2, feq, flt]
    rename_i x y z
    by_cases h : y < x ∧ (x < z ∨ x = z)
    · rw [if_pos h]; simpa using ⟨h.1, le_iff_lt_or_eq.2 h.2⟩
    · rw [if_neg h]
      refine ⟨fun e => absurd e (by simp), fun e => absurd ⟨e.1, le_iff_lt_or_eq.1 e.2⟩ h⟩
  · cases v <;> simp [createMaskNan]

theorem create_value (zero nodata lo hi v : Flt α) :
    ((createMask zero nodata v).2 = true → (createMask zero nodata v).1 = v) ∧
    ((createMaskLE zero nodata v).2 = true → (createMaskLE zero nodata v).1 = v) ∧
    ((createRangeMask zero lo hi v).2 = true → (createRangeMask zero lo hi v).1 = v) ∧
    ((createRangeMask2 zero nodata hi v).2 = true → (createRangeMask2 zero nodata hi v).1 = v) ∧
    ((createMaskNan zero v).2 = true → (createMaskNan zero v).1 = v) := by
  refine ⟨?_, ?_, ?_, ?_, ?_⟩
  · unfold createMask; split_ifs <;> simp
  · unfold createMaskLE; split_ifs <;> simp
  · unfold createRangeMask; split_ifs <;> simp
  · unfold createRangeMask2; split_ifs <;> simp
  · cases v <;> simp [createMaskNan]

/-- **C91.** Masking the no-data value and putting it back gives the image again, except that NaN becomes no-data. -/
theorem apply_create (zero nodata v : Flt α) :
    applyMask nodata (createMask zero nodata v) = if v = none then nodata else v := by
  by_cases hv : v = none
  · rw [if_pos hv]; subst hv; cases nodata <;> simp [applyMask, createMask, feq]
  · rw [if_neg hv]
    unfold applyMask
    by_cases h : (createMask zero nodata v).2 = true
    · rw [if_pos h]; exact (create_value zero nodata none none v).1 h
    · rw [if_neg h]
      rw [(create_valid zero nodata none none v).1] at h
      by_contra hne
      exact h ⟨hv, fun e => hne e.symm⟩

/-- **C91.** The other way round, the validity of a pixel survives exactly if it was invalid or held neither NaN nor the
no-data value, and then so does the value of a valid pixel. -/
theorem create_apply (zero nodata : Flt α) (m : MVal (Flt α)) :
    ((createMask zero nodata (applyMask nodata m)).2 = true ↔ m.2 = true ∧ m.1 ≠ none ∧ m.1 ≠ nodata) ∧
    (m.2 = true → m.1 ≠ none → m.1 ≠ nodata → createMask zero nodata (applyMask nodata m) = m) := by
  have h1 : (createMask zero nodata (applyMask nodata m)).2 = true ↔ m.2 = true ∧ m.1 ≠ none ∧ m.1 ≠ nodata := by
    rw [(create_valid zero nodata none none _).1]
    unfold applyMask
    cases h : m.2 <;> simp
  refine ⟨h1, fun a b c => ?_⟩
  have h2 := h1.2 ⟨a, b, c⟩
  refine Prod.ext ?_ (by rw [h2, a])
  rw [(create_value zero nodata none none _).1 h2]
  simp [applyMask, a]

/-- **C91.** `apply_mask` replaces exactly the invalid pixels. -/
theorem apply_spec {V : Type} (nodata : V) (m : MVal V) :
    (m.2 = true → applyMask nodata m = m.1) ∧ (m.2 = false → applyMask nodata m = nodata) := by
  unfold applyMask
  constructor <;> intro h <;> simp [h]

/-- **C91.** `copy_mask` and `intersect_mask` leave valid what is valid in both images, `union_mask` what is valid in one,
`invert_mask` what was not, `invalidate_mask` nothing; none of them changes a value. -/
theorem mask_algebra {V W : Type} (m : MVal V) (k : MVal W) :
    copyMask m k = (m.1, m.2 && k.2) ∧ intersectMask m k = (m.1, m.2 && k.2) ∧ unionMask m k = (m.1, m.2 || k.2) ∧
    invertMask m = (m.1, !m.2) ∧ invertMask (invertMask m) = m ∧ invalidateMask m = (m.1, false) := by
  obtain ⟨v, b⟩ := m
  obtain ⟨w, c⟩ := k
  refine ⟨?_, ?_, ?_, rfl, ?_, rfl⟩ <;> cases b <;> cases c <;> simp [copyMask, intersectMask, unionMask, invertMask]

/-- **C91.** Turning a mask into alpha and back keeps validity and the valid values; turning alpha into a mask and back keeps
fully transparent and opaque pixels as they are. -/
theorem alpha_round {V A : Type} [Zero A] [DecidableEq A] (zero : V) (opaq : A) (ho : opaq ≠ 0) (m : MVal V) (p : V × A) :
    (alphaToMask zero (maskToAlpha zero opaq m)).2 = m.2 ∧
    (m.2 = true → alphaToMask zero (maskToAlpha zero opaq m) = m) ∧
    (p.2 = opaq → maskToAlpha zero opaq (alphaToMask zero p) = p) ∧
    (p.2 = 0 → maskToAlpha zero opaq (alphaToMask zero p) = (zero, 0)) := by
  obtain ⟨v, b⟩ := m
  obtain ⟨w, a⟩ := p
  refine ⟨?_, ?_, ?_, ?_⟩
  · cases b <;> simp [alphaToMask, maskToAlpha, ho]
  · rintro rfl; simp [alphaToMask, maskToAlpha, ho]
  · rintro rfl
    have : ¬ a = 0 := ho
    simp [alphaToMask, maskToAlpha, this]
  · rintro rfl; simp [alphaToMask, maskToAlpha]

/-- Refuted: alpha to mask and back keeps alpha.  Half transparent pixels become opaque. -/
theorem alpha_lost : maskToAlpha (0 : ℚ) (1 : ℚ) (alphaToMask 0 ((7 : ℚ), (1 / 2 : ℚ))) = (7, 1) := by decide +kernel

/-- Cases for the masks. -/
example : (createMask (some 0) (some 5) (some (5 : ℤ))).2 = false ∧ (createMask (some 0) (some 5) (some (6 : ℤ))).2 = true ∧
    (createMaskLE (some 0) none (some (-3 : ℤ))).2 = true := by decide

/-! ## Edge masks -/

section Edge

variable {V : Type} [DecidableEq V]

theorem scanUp_spec (f : Int → V) (mask : V) (size k : Nat) (i : Int) (h0 : 0 ≤ i) (hk : i + k = size) :
    (∀ x, i ≤ x → x < scanUp f mask size k i → f x = mask) ∧ i ≤ scanUp f mask size k i ∧
      scanUp f mask size k i ≤ size ∧ (scanUp f mask size k i < size → f (scanUp f mask size k i) ≠ mask) := by
  induction k generalizing i with
  | zero => simp only [scanUp]; refine ⟨fun x a b => by omega, le_rfl, by omega, fun h => by omega⟩
  | succ k ih =>
    unfold scanUp
    by_cases h : i < size ∧ f i = mask
    · rw [if_pos h]
      obtain ⟨a, b, c, d⟩ := ih (i + 1) (by omega) (by omega)
      refine ⟨fun x hx hx' => ?_, by omega, c, d⟩
      by_cases e : x = i
      · rw [e]; exact h.2
      · exact a x (by omega) hx'
    · rw [if_neg h]
      exact ⟨fun x a b => by omega, le_rfl, by omega, fun hlt e => h ⟨hlt, e⟩⟩

theorem scanDown_spec (f : Int → V) (mask : V) (k : Nat) (i : Int) (hk : i + 1 = k) :
    (∀ x, scanDown f mask k i < x → x ≤ i → f x = mask) ∧ scanDown f mask k i ≤ i ∧ -1 ≤ scanDown f mask k i ∧
      (0 ≤ scanDown f mask k i → f (scanDown f mask k i) ≠ mask) := by
  induction k generalizing i with
  | zero => simp only [scanDown]; refine ⟨fun x a b => by omega, le_rfl, by omega, fun h => by omega⟩
  | succ k ih =>
    unfold scanDown
    by_cases h : 0 ≤ i ∧ f i = mask
    · rw [if_pos h]
      obtain ⟨a, b, c, d⟩ := ih (i - 1) (by omega)
      refine ⟨fun x hx hx' => ?_, by omega, c, d⟩
      by_cases e : x = i
      · rw [e]; exact h.2
      · exact a x hx (by omega)
    · rw [if_neg h]
      exact ⟨fun x a b => by omega, le_rfl, by omega, fun hlt e => h ⟨hlt, e⟩⟩

theorem up_iff (f : Int → V) (mask : V) (size : Nat) (b i : Int) (hb : -1 ≤ b) (hi' : i < size) :
    i > scanUp f mask size size 0 + b ↔ ∃ x : Int, 0 ≤ x ∧ x < size ∧ f x ≠ mask ∧ x + b < i := by
  obtain ⟨h1, h2, h3, h4⟩ := scanUp_spec f mask size size 0 le_rfl (by omega)
  generalize scanUp f mask size size 0 = s at *
  constructor
  · intro h
    have hs : s < size := by omega
    exact ⟨s, h2, hs, h4 hs, by omega⟩
  · rintro ⟨x, a, c, d, e⟩
    have : ¬ x < s := fun hx => d (h1 x a hx)
    omega

theorem down_iff (f : Int → V) (mask : V) (size : Nat) (b i : Int) (hb : -1 ≤ b) (hi : 0 ≤ i) :
    i < scanDown f mask size ((size : Int) - 1) - b ↔ ∃ x : Int, 0 ≤ x ∧ x < size ∧ f x ≠ mask ∧ i < x - b := by
  obtain ⟨h1, h2, h3, h4⟩ := scanDown_spec f mask size ((size : Int) - 1) (by omega)
  generalize scanDown f mask size ((size : Int) - 1) = s at *
  constructor
  · intro h
    have hs : 0 ≤ s := by omega
    exact ⟨s, hs, by omega, h4 hs, by omega⟩
  · rintro ⟨x, a, c, d, e⟩
    have : ¬ s < x := fun hx => d (h1 x hx (by omega))
    omega

/-- **C91.** A pixel of an edge mask is valid exactly if in each of the four directions, more than `buffer` away, there is
a pixel of another value than the mask value. -/
theorem edge_valid (img : Int → Int → V) (cols rows : Nat) (mask : V) (b : Int) (hb : -1 ≤ b) (i j : Int)
    (hi : 0 ≤ i) (hi' : i < cols) (hj : 0 ≤ j) (hj' : j < rows) :
    edgeValid img cols rows mask b i j = true ↔
      (∃ x : Int, 0 ≤ x ∧ x < cols ∧ img x j ≠ mask ∧ x + b < i) ∧ (∃ x : Int, 0 ≤ x ∧ x < cols ∧ img x j ≠ mask ∧ i < x - b) ∧
      (∃ y : Int, 0 ≤ y ∧ y < rows ∧ img i y ≠ mask ∧ y + b < j) ∧ (∃ y : Int, 0 ≤ y ∧ y < rows ∧ img i y ≠ mask ∧ j < y - b) := by
  unfold edgeValid
  simp only [Bool.and_eq_true, decide_eq_true_eq, and_assoc]
  rw [up_iff (fun x => img x j) mask cols b i hb hi', down_iff (fun x => img x j) mask cols b i hb hi,
    up_iff (fun y => img i y) mask rows b j hb hj', down_iff (fun y => img i y) mask rows b j hb hj]

/-- **C91.** With a buffer of -1, pixels of another value than the mask value are always valid, and those of the mask value
exactly if they are enclosed in all four directions. -/
theorem edge_documented (img : Int → Int → V) (cols rows : Nat) (mask : V) (i j : Int)
    (hi : 0 ≤ i) (hi' : i < cols) (hj : 0 ≤ j) (hj' : j < rows) (h : img i j ≠ mask) :
    edgeValid img cols rows mask (-1) i j = true := by
  rw [edge_valid img cols rows mask (-1) (by omega) i j hi hi' hj hj']
  exact ⟨⟨i, hi, hi', h, by omega⟩, ⟨i, hi, hi', h, by omega⟩, ⟨j, hj, hj', h, by omega⟩, ⟨j, hj, hj', h, by omega⟩⟩

/-- **C91.** A valid pixel of an edge mask holds the value of the image. -/
theorem edge_value (zero : V) (img : Int → Int → V) (cols rows : Nat) (mask : V) (b i j : Int) :
    (edgeMask zero img cols rows mask b i j).2 = edgeValid img cols rows mask b i j ∧
    ((edgeMask zero img cols rows mask b i j).2 = true → (edgeMask zero img cols rows mask b i j).1 = img i j) := by
  unfold edgeMask
  cases h : edgeValid img cols rows mask b i j <;> simp

/-- Refuted: only pixels of the mask value around the edges are masked.  With the buffer that is taken if none is given,
zero, the outermost pixels that are not of the mask value are masked as well: in each row the first, in particular the whole
border of an image that nowhere has the mask value. -/
theorem edge_first_lost (img : Int → Int → V) (cols rows : Nat) (mask : V) (b : Int) (hb : 0 ≤ b) (i j : Int)
    (hi : 0 ≤ i) (hi' : i < cols) (hj : 0 ≤ j) (hj' : j < rows) (h : ∀ x : Int, 0 ≤ x → x < i → img x j = mask) :
    edgeValid img cols rows mask b i j = false := by
  rw [Bool.eq_false_iff]
  intro hv
  obtain ⟨⟨x, a, c, d, e⟩, -⟩ := (edge_valid img cols rows mask b (by omega) i j hi hi' hj hj').1 hv
  exact d (h x a (by omega))

example : (edgeMask (0 : ℤ) (fun _ _ => 7) 4 4 0 0 0 2).2 = false ∧ (edgeMask (0 : ℤ) (fun _ _ => 7) 4 4 0 0 1 2) = (7, true) ∧
    (edgeMask (0 : ℤ) (fun _ _ => 7) 4 4 0 (-1) 0 2) = (7, true) := by decide

end Edge

end Verif.Mask
