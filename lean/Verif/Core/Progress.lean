import Mathlib.Algebra.Order.Field.Basic
import Mathlib.Algebra.Order.Floor.Ring
import Mathlib.Algebra.BigOperators.Group.List.Basic
import Mathlib.Data.Rat.Floor
import Mathlib.Tactic.Linarith
import Mathlib.Tactic.NormNum
import Mathlib.Tactic.Ring
import Mathlib.Tactic.FieldSimp
import Mathlib.Tactic.Positivity
/-
Model of the progress monitors, src/vw/Core/ProgressCallback.{h,cc}, and property C39.

All sub-monitors of one monitor act on that monitor's two fields, so a monitor is the path of ranges that leads to the
base monitor. Each call takes the base's mutex, so calls are atomic. Doubles are an ordered field.
-/
namespace VW.Progress

variable {K : Type} [Field K] [LinearOrder K] [IsStrictOrderedRing K]

/-! ### Model -/

/-- The kinds of monitors that are not sub-monitors. -/
inductive Kind
  | plain      -- ProgressCallback
  | terminal   -- TerminalProgressCallback
  | null       -- NullProgressCallback
deriving DecidableEq

/-- The fields of the base monitor, ProgressCallback.h:53-54. -/
structure Base (K : Type) where
  kind : Kind
  progress : K
  abort : Bool

/-- A new monitor, ProgressCallback.h:58. -/
def Base.new (k : Kind) : Base K := ⟨k, 0, false⟩

/-- The sub-monitors from the one used up to the base: (m_from, m_to) of each, ProgressCallback.h:115-117. -/
abbrev Path (K : Type) := List (K × K)

/-- `report_progress`, ProgressCallback.h:70-73 (base), 121-124 (sub), 193-197 (terminal), 220 (null). -/
def report (b : Base K) : Path K → K → Base K
  | [], p => if b.kind = .null then b else { b with progress := p }
  | (lo, hi) :: up, p => report b up (lo + (hi - lo) * p)

/-- `report_incremental_progress`, ProgressCallback.h:75-78, 125-128, 199-203, 221. -/
def incr (b : Base K) : Path K → K → Base K
  | [], d => if b.kind = .null then b else { b with progress := b.progress + d }
  | (lo, hi) :: up, d => incr b up ((hi - lo) * d)

/-- `report_finished`, ProgressCallback.h:81-84, 132-134, ProgressCallback.cc:74-84, ProgressCallback.h:223. The
terminal one prints and leaves the progress as it is. -/
def finished (b : Base K) : Path K → Base K
  | [] => if b.kind = .plain then { b with progress := 1 } else b
  | (_, hi) :: up => report b up hi

/-- `request_abort`, ProgressCallback.h:106-109, 136, 225. -/
def requestAbort (b : Base K) : Path K → Base K
  | [] => if b.kind = .null then b else { b with abort := true }
  | _ :: up => requestAbort b up

/-- `abort_requested`, ProgressCallback.h:92-95, 135. -/
def abortRequested (b : Base K) : Path K → Bool
  | [] => b.abort
  | _ :: up => abortRequested b up

/-- `progress`, ProgressCallback.h:111, 138; `none` is a division by zero. -/
def progress (b : Base K) : Path K → Option K
  | [] => some b.progress
  | (lo, hi) :: up => do
    let p ← progress b up
    if hi - lo = 0 then none else some ((p - lo) / (hi - lo))

/-- The calls. -/
inductive Op (K : Type)
  | report (p : K)
  | incr (d : K)
  | finished
  | abort

def step (b : Base K) (c : Path K × Op K) : Base K := match c.2 with
  | .report p => report b c.1 p
  | .incr d => incr b c.1 d
  | .finished => finished b c.1
  | .abort => requestAbort b c.1

/-- A sequence of calls on any monitors of the tree. -/
def run (b : Base K) (cs : List (Path K × Op K)) : Base K := cs.foldl step b

/-! ### Where a report ends up -/

/-- The place in the base's range of the value p of a monitor. -/
def place : Path K → K → K
  | [], p => p
  | (lo, hi) :: up, p => place up (lo + (hi - lo) * p)

/-- Every range of the path lies in [0,1]. -/
def Inside (rs : Path K) : Prop := ∀ r ∈ rs, 0 ≤ r.1 ∧ r.1 ≤ r.2 ∧ r.2 ≤ 1

theorem report_eq (b : Base K) (rs : Path K) (p : K) :
    report b rs p = if b.kind = .null then b else { b with progress := place rs p } := by
  induction rs generalizing p with
  | nil => rfl
  | cons r rs ih => exact ih _

theorem sub_range {lo hi p : K} (h : lo ≤ hi) (p0 : 0 ≤ p) (p1 : p ≤ 1) :
    lo ≤ lo + (hi - lo) * p ∧ lo + (hi - lo) * p ≤ hi := by
  have : 0 ≤ hi - lo := by linarith
  constructor <;> nlinarith

theorem place_mono (rs : Path K) (h : ∀ r ∈ rs, r.1 ≤ r.2) {p q : K} (hpq : p ≤ q) : place rs p ≤ place rs q := by
  induction rs generalizing p q with
  | nil => exact hpq
  | cons r rs ih =>
    have := h r (by simp)
    apply ih (fun r hr => h r (by simp [hr]))
    have : 0 ≤ r.2 - r.1 := by linarith
    have := mul_le_mul_of_nonneg_left hpq this
    linarith

theorem place_unit (rs : Path K) (h : Inside rs) {p : K} (p0 : 0 ≤ p) (p1 : p ≤ 1) : 0 ≤ place rs p ∧ place rs p ≤ 1 := by
  induction rs generalizing p with
  | nil => exact ⟨p0, p1⟩
  | cons r rs ih =>
    obtain ⟨a, b, c⟩ := h r (by simp)
    obtain ⟨d, e⟩ := sub_range b p0 p1
    exact ih (fun r hr => h r (by simp [hr])) (by linarith) (by linarith)

/-- **C39 (reports)**: a report of p in [0,1] to a sub-monitor at any depth sets the base's progress to a value between
what the sub-monitor's 0 and its 1 mean for the base, all within [0,1]; a greater p gives a value not smaller, and a
finished report the upper end. -/
theorem report_within (b : Base K) (hk : b.kind ≠ .null) (rs : Path K) (h : Inside rs) {p : K} (p0 : 0 ≤ p) (p1 : p ≤ 1) :
    0 ≤ (report b rs 0).progress ∧ (report b rs 0).progress ≤ (report b rs p).progress ∧
    (report b rs p).progress ≤ (report b rs 1).progress ∧ (report b rs 1).progress ≤ 1 ∧
    (∀ q, p ≤ q → (report b rs p).progress ≤ (report b rs q).progress) ∧
    (rs ≠ [] → (finished b rs).progress = (report b rs 1).progress) := by
  have hr : ∀ r ∈ rs, r.1 ≤ r.2 := fun r hr => (h r hr).2.1
  have e : ∀ q, (report b rs q).progress = place rs q := fun q => by rw [report_eq, if_neg hk]
  simp only [e]
  refine ⟨(place_unit rs h (le_refl _) zero_le_one).1, place_mono rs hr p0, place_mono rs hr p1,
    (place_unit rs h zero_le_one (le_refl _)).2, fun q hq => place_mono rs hr hq, fun hne => ?_⟩
  cases rs with
  | nil => exact absurd rfl hne
  | cons r rs =>
    show (report b rs r.2).progress = place rs (r.1 + (r.2 - r.1) * 1)
    rw [report_eq, if_neg hk]
    congr 1; ring

/-- **C39 (reading back)**: after a report of p the same sub-monitor says p, if no range of the path is empty. -/
theorem progress_report (b : Base K) (hk : b.kind ≠ .null) (rs : Path K) (h : ∀ r ∈ rs, r.1 ≠ r.2) (p : K) :
    progress (report b rs p) rs = some p := by
  induction rs generalizing p with
  | nil => simp [report, progress, hk]
  | cons r rs ih =>
    have hne : r.2 - r.1 ≠ 0 := sub_ne_zero.2 (fun e => h r (by simp) e.symm)
    unfold report progress
    rw [ih (fun r hr => h r (by simp [hr]))]
    simp only [Option.bind_eq_bind, Option.bind_some]
    rw [if_neg hne]
    congr 1
    rw [add_sub_cancel_left]
    field_simp

/-- With an empty range the progress cannot be read. -/
theorem progress_empty_range (b : Base K) (x : K) (rs : Path K) : progress b ((x, x) :: rs) = none := by
  unfold progress
  cases progress b rs <;> simp

/-! ### A task split into parts -/

/-- A task: reports of its own, or parts run one after the other with a sub-monitor each. -/
inductive Task (K : Type)
  | leaf (ps : List K)
  | split (parts : List (K × K × Task K))

/-- The reports a task makes, as calls on the monitors below the path it was given. -/
def Task.calls : Task K → Path K → List (Path K × Op K)
  | .leaf ps, rs => ps.map (fun p => (rs, Op.report p))
  | .split parts, rs => parts.attach.flatMap (fun x => x.1.2.2.calls ((x.1.1, x.1.2.1) :: rs))
termination_by t => sizeOf t
decreasing_by
  obtain ⟨⟨lo, hi, t⟩, hx⟩ := x
  have := List.sizeOf_lt_of_mem hx
  simp at this ⊢
  omega

/-- A well-behaved task: its reports do not go back and stay in [0,1]; its parts' ranges are in [0,1], in order and do
not overlap. -/
inductive Orderly : Task K → Prop
  | leaf {ps : List K} : ps.Pairwise (· ≤ ·) → (∀ p ∈ ps, 0 ≤ p ∧ p ≤ 1) → Orderly (.leaf ps)
  | split {parts : List (K × K × Task K)} :
      parts.Pairwise (fun a b => a.2.1 ≤ b.1) → (∀ x ∈ parts, 0 ≤ x.1 ∧ x.1 ≤ x.2.1 ∧ x.2.1 ≤ 1) →
      (∀ x ∈ parts, Orderly x.2.2) → Orderly (.split parts)

/-- The progress after each call. -/
def trace (b : Base K) : List (Path K × Op K) → List K
  | [] => []
  | c :: cs => (step b c).progress :: trace (step b c) cs

/-- The calls are reports on monitors below rs, the values they give the base are between rs's 0 and 1 and do not go
back. -/
def Smooth (rs : Path K) (cs : List (Path K × Op K)) : Prop :=
  ∃ vs : List K, vs.Pairwise (· ≤ ·) ∧ (∀ v ∈ vs, place rs 0 ≤ v ∧ v ≤ place rs 1) ∧
    ∀ b : Base K, b.kind ≠ .null → trace b cs = vs

theorem step_kind (b : Base K) (c : Path K × Op K) : (step b c).kind = b.kind := by
  have hr : ∀ rs p, (report b rs p).kind = b.kind := fun rs p => by rw [report_eq]; split <;> rfl
  have hi : ∀ (rs : Path K) (d : K), (incr b rs d).kind = b.kind := by
    intro rs
    induction rs with
    | nil => intro d; unfold incr; split <;> rfl
    | cons r rs ih => intro d; exact ih _
  have ha : ∀ (rs : Path K), (requestAbort b rs).kind = b.kind := by
    intro rs
    induction rs with
    | nil => unfold requestAbort; split <;> rfl
    | cons r rs ih => exact ih
  obtain ⟨rs, o⟩ := c
  cases o with
  | report p => exact hr rs p
  | incr d => exact hi rs d
  | finished =>
    cases rs with
    | nil => show (if b.kind = .plain then { b with progress := 1 } else b).kind = _; split <;> rfl
    | cons r rs => exact hr rs r.2
  | abort => exact ha rs

theorem run_kind (b : Base K) (cs : List (Path K × Op K)) : (run b cs).kind = b.kind := by
  induction cs generalizing b with
  | nil => rfl
  | cons c cs ih => show (run (step b c) cs).kind = _; rw [ih, step_kind]

theorem trace_append (b : Base K) (xs ys : List (Path K × Op K)) :
    trace b (xs ++ ys) = trace b xs ++ trace (run b xs) ys := by
  induction xs generalizing b with
  | nil => rfl
  | cons c xs ih => show _ :: trace (step b c) (xs ++ ys) = _; rw [ih]; rfl

theorem smooth_leaf (rs : Path K) (h : ∀ r ∈ rs, r.1 ≤ r.2) {ps : List K} (hs : ps.Pairwise (· ≤ ·))
    (hu : ∀ p ∈ ps, 0 ≤ p ∧ p ≤ 1) : Smooth rs (ps.map (fun p => (rs, Op.report p))) := by
  refine ⟨ps.map (place rs), ?_, ?_, ?_⟩
  · rw [List.pairwise_map]; exact hs.imp (fun hab => place_mono rs h hab)
  · intro v hv
    obtain ⟨p, hp, rfl⟩ := List.mem_map.1 hv
    exact ⟨place_mono rs h (hu p hp).1, place_mono rs h (hu p hp).2⟩
  · intro b hb
    clear hs hu
    induction ps generalizing b with
    | nil => rfl
    | cons p ps ih =>
      show (report b rs p).progress :: trace (report b rs p) _ = _
      rw [ih _ (by rw [show (report b rs p).kind = b.kind from step_kind b (rs, .report p)]; exact hb), report_eq, if_neg hb]
      rfl

theorem smooth_parts (rs : Path K) (h : ∀ r ∈ rs, r.1 ≤ r.2) (parts : List (K × K × List (Path K × Op K)))
    (ho : parts.Pairwise (fun a b => a.2.1 ≤ b.1)) (hin : ∀ x ∈ parts, 0 ≤ x.1 ∧ x.1 ≤ x.2.1 ∧ x.2.1 ≤ 1)
    (hs : ∀ x ∈ parts, Smooth ((x.1, x.2.1) :: rs) x.2.2) :
    ∃ vs : List K, vs.Pairwise (· ≤ ·) ∧ (∀ v ∈ vs, (∃ x ∈ parts, place rs x.1 ≤ v) ∧ v ≤ place rs 1) ∧
      ∀ b : Base K, b.kind ≠ .null → trace b (parts.flatMap (fun x => x.2.2)) = vs := by
  induction parts with
  | nil => exact ⟨[], List.Pairwise.nil, by simp, fun _ _ => rfl⟩
  | cons x parts ih =>
    obtain ⟨vs, v1, v2, v3⟩ := ih (List.pairwise_cons.1 ho).2 (fun y hy => hin y (by simp [hy])) (fun y hy => hs y (by simp [hy]))
    obtain ⟨us, u1, u2, u3⟩ := hs x (by simp)
    have hx := hin x (by simp)
    have e0 : place ((x.1, x.2.1) :: rs) 0 = place rs x.1 := by
      show place rs _ = _; congr 1; simp
    have e1 : place ((x.1, x.2.1) :: rs) 1 = place rs x.2.1 := by
      show place rs _ = _; congr 1; ring
    rw [e0, e1] at u2
    refine ⟨us ++ vs, ?_, ?_, ?_⟩
    · rw [List.pairwise_append]
      refine ⟨u1, v1, fun u hu v hv => ?_⟩
      obtain ⟨⟨y, hy, hyv⟩, _⟩ := v2 v hv
      have := (List.pairwise_cons.1 ho).1 y hy
      exact le_trans (u2 u hu).2 (le_trans (place_mono rs h this) hyv)
    · intro v hv
      rcases List.mem_append.1 hv with hv | hv
      · exact ⟨⟨x, by simp, (u2 v hv).1⟩, le_trans (u2 v hv).2 (place_mono rs h hx.2.2)⟩
      · obtain ⟨⟨y, hy, hyv⟩, hv1⟩ := v2 v hv
        exact ⟨⟨y, by simp [hy], hyv⟩, hv1⟩
    · intro b hb
      rw [List.flatMap_cons, trace_append, u3 b hb, v3 _ (by rw [run_kind]; exact hb)]

theorem smooth_task (t : Task K) (ht : Orderly t) (rs : Path K) (h : ∀ r ∈ rs, r.1 ≤ r.2) : Smooth rs (t.calls rs) := by
  induction ht generalizing rs with
  | leaf hs hu => rw [Task.calls]; exact smooth_leaf rs h hs hu
  | @split parts ho hin _ ih =>
    rw [Task.calls]
    have e : parts.attach.flatMap (fun x => x.1.2.2.calls ((x.1.1, x.1.2.1) :: rs)) =
        (parts.map (fun x => (x.1, x.2.1, x.2.2.calls ((x.1, x.2.1) :: rs)))).flatMap (fun x => x.2.2) := by
      rw [List.flatMap_map]
      conv_rhs => rw [← List.attach_map_subtype_val parts, List.flatMap_map]
    rw [e]
    obtain ⟨vs, v1, v2, v3⟩ := smooth_parts rs h (parts.map (fun x => (x.1, x.2.1, x.2.2.calls ((x.1, x.2.1) :: rs))))
      (by rw [List.pairwise_map]; exact ho)
      (by intro y hy; obtain ⟨x, hx, rfl⟩ := List.mem_map.1 hy; exact hin x hx)
      (by
        intro y hy
        obtain ⟨x, hx, rfl⟩ := List.mem_map.1 hy
        refine ih x hx _ (fun r hr => ?_)
        rcases List.mem_cons.1 hr with rfl | hr
        · exact (hin x hx).2.1
        · exact h r hr)
    refine ⟨vs, v1, fun v hv => ⟨?_, (v2 v hv).2⟩, v3⟩
    obtain ⟨⟨y, hy, hyv⟩, _⟩ := v2 v hv
    obtain ⟨x, hx, rfl⟩ := List.mem_map.1 hy
    exact le_trans (place_mono rs h (hin x hx).1) hyv

/-- **C39 (a whole task)**: however deeply a task is split into consecutive parts, each with its sub-monitor, the
progress the user sees never goes back and stays in the range of the monitor the task was given, so in [0,1]. -/
theorem task_monotone (t : Task K) (ht : Orderly t) (rs : Path K) (h : Inside rs) (b : Base K) (hb : b.kind ≠ .null) :
    (trace b (t.calls rs)).Pairwise (· ≤ ·) ∧
    ∀ v ∈ trace b (t.calls rs), (report b rs 0).progress ≤ v ∧ v ≤ (report b rs 1).progress ∧ 0 ≤ v ∧ v ≤ 1 := by
  obtain ⟨vs, v1, v2, v3⟩ := smooth_task t ht rs (fun r hr => (h r hr).2.1)
  rw [v3 b hb]
  refine ⟨v1, fun v hv => ?_⟩
  rw [report_eq, report_eq, if_neg hb, if_neg hb]
  have := v2 v hv
  exact ⟨this.1, this.2, le_trans (place_unit rs h (le_refl _) zero_le_one).1 this.1,
    le_trans this.2 (place_unit rs h zero_le_one (le_refl _)).2⟩

/-! ### Incremental reports -/

/-- What an increment of a monitor is for the base. -/
def scale : Path K → K
  | [] => 1
  | (lo, hi) :: up => (hi - lo) * scale up

theorem incr_eq (b : Base K) (hb : b.kind ≠ .null) (rs : Path K) (d : K) :
    incr b rs d = { b with progress := b.progress + d * scale rs } := by
  induction rs generalizing d with
  | nil => simp [incr, hb, scale]
  | cons r rs ih => show incr b rs _ = _; rw [ih]; simp only [scale]; congr 1; ring

/-- **C39 (increments)**: whatever the order in which monitors of the tree report increments (the threads of a parallel
task in any schedule), the progress is the sum of all of them, scaled. -/
theorem incr_run (b : Base K) (hb : b.kind ≠ .null) (ds : List (Path K × K)) :
    (run b (ds.map (fun x => (x.1, Op.incr x.2)))).progress = b.progress + (ds.map (fun x => x.2 * scale x.1)).sum := by
  induction ds generalizing b with
  | nil => simp [run]
  | cons x ds ih =>
    show (run (incr b x.1 x.2) _).progress = _
    rw [ih _ (by rw [incr_eq b hb]; exact hb), incr_eq b hb]
    simp only [List.map_cons, List.sum_cons]
    ring

theorem incr_order (b : Base K) (hb : b.kind ≠ .null) {ds es : List (Path K × K)} (h : ds.Perm es) :
    (run b (ds.map (fun x => (x.1, Op.incr x.2)))).progress = (run b (es.map (fun x => (x.1, Op.incr x.2)))).progress := by
  rw [incr_run b hb, incr_run b hb, (h.map _).sum_eq]

/-! ### Aborting -/

theorem abort_eq (b : Base K) (rs : Path K) : abortRequested b rs = b.abort := by
  induction rs with
  | nil => rfl
  | cons r rs ih => exact ih

theorem step_abort (b : Base K) (c : Path K × Op K) :
    (step b c).abort = (b.abort || (match c.2 with | .abort => b.kind ≠ .null | _ => false)) := by
  have hr : ∀ rs p, (report b rs p).abort = b.abort := fun rs p => by rw [report_eq]; split <;> rfl
  obtain ⟨rs, o⟩ := c
  cases o with
  | report p => simp [step, hr]
  | incr d =>
    simp only [step, Bool.or_false]
    induction rs generalizing d with
    | nil => unfold incr; split <;> rfl
    | cons r rs ih => exact ih _
  | finished =>
    simp only [step, Bool.or_false]
    cases rs with
    | nil => show (if b.kind = .plain then { b with progress := 1 } else b).abort = _; split <;> rfl
    | cons r rs => exact hr rs r.2
  | abort =>
    simp only [step]
    induction rs with
    | nil =>
      unfold requestAbort
      by_cases hk : b.kind = .null <;> simp [hk]
    | cons r rs ih => exact ih

/-- **C39 (abort)**: after any calls, every monitor of the tree says that an abort was requested exactly if one was
requested before or through any monitor of the tree, unless the base is the null monitor, which never does. -/
theorem abort_seen (b : Base K) (cs : List (Path K × Op K)) (rs : Path K) :
    abortRequested (run b cs) rs = true ↔ b.abort = true ∨ (b.kind ≠ .null ∧ ∃ c ∈ cs, c.2 = .abort) := by
  rw [abort_eq]
  induction cs generalizing b with
  | nil => simp [run]
  | cons c cs ih =>
    show (run (step b c) cs).abort = true ↔ _
    rw [ih, step_kind, step_abort]
    obtain ⟨r, o⟩ := c
    cases o <;> simp
    tauto

/-! ### The bar on the terminal -/

/-- `m_bar_length` of `calculate_bar_length`, ProgressCallback.h:155-161; `none` is the exception. -/
def barLength (text precision : Nat) : Option Nat :=
  if text + 8 + precision < 80 then
    let n := 80 - text - 4 - 3
    some (if precision > 0 then n - (precision + 1) else n)
  else none

/-- The numbers of stars and of dots printed, ProgressCallback.cc:53-60, for a progress that is not negative. -/
def bar [FloorRing K] (len : Nat) (p : K) : Nat × Nat :=
  let pi : Int := ⌊p * (len : K)⌋
  (pi.toNat, ((len : Int) - pi).toNat)

/-- **C39 (bar)**: when the text is accepted, the line (text, brackets, bar, a space, a percentage of at most three
digits and the decimals, and the percent sign) has at most 80 characters, and for a progress in [0,1] the bar has
exactly the length foreseen, all stars at 1 and none at 0. -/
theorem bar_fits [FloorRing K] {text precision len : Nat} (h : barLength text precision = some len) {p : K}
    (p0 : 0 ≤ p) (p1 : p ≤ 1) :
    0 < len ∧ (bar len p).1 + (bar len p).2 = len ∧
    text + 1 + ((bar len p).1 + (bar len p).2) + 2 + 3 + (if precision > 0 then precision + 1 else 0) + 1 ≤ 80 ∧
    (p = 0 → bar len p = (0, len)) ∧ (p = 1 → bar len p = (len, 0)) := by
  have hl : 0 < len ∧ text + len + 7 + (if precision > 0 then precision + 1 else 0) = 80 := by
    unfold barLength at h
    split at h
    · simp only [Option.some.injEq] at h
      split at h
      · rw [if_pos (by assumption)]; omega
      · rw [if_neg (by assumption)]; omega
    · cases h
  have hK : (0 : K) < len := by exact_mod_cast hl.1
  have f0 : 0 ≤ ⌊p * (len : K)⌋ := Int.floor_nonneg.2 (by positivity)
  have f1 : ⌊p * (len : K)⌋ ≤ len := by
    have h1 := Int.floor_le (p * (len : K))
    have : (⌊p * (len : K)⌋ : K) ≤ (len : K) := by nlinarith
    exact_mod_cast this
  have hs : (bar len p).1 + (bar len p).2 = len := by unfold bar; dsimp only; omega
  refine ⟨hl.1, hs, by rw [hs]; omega, ?_, ?_⟩
  · rintro rfl; simp [bar]
  · rintro rfl; simp [bar]

/-- A case: a task of two halves, the second split again. -/
example : Orderly (Task.split [((0 : ℚ), 1 / 2, .leaf [0, 1 / 3, 1]), (1 / 2, 1, .split [(0, 1, .leaf [1 / 4, 1])])]) := by
  refine .split (by decide +kernel) (by decide +kernel) ?_
  intro x hx
  simp only [List.mem_cons, List.not_mem_nil, or_false] at hx
  rcases hx with rfl | rfl
  · exact .leaf (by decide +kernel) (by decide +kernel)
  · refine .split (by decide +kernel) (by decide +kernel) ?_
    intro y hy
    simp only [List.mem_cons, List.not_mem_nil, or_false] at hy
    subst hy
    exact .leaf (by decide +kernel) (by decide +kernel)

/-- What the user of a terminal monitor must know: `report_finished` does not set its progress to 1. -/
theorem terminal_finished (b : Base K) (h : b.kind = .terminal) : (finished b []).progress = b.progress := by
  unfold finished; rw [h]; rfl

example : barLength 20 2 = some 50 ∧ bar 50 (1 / 4 : ℚ) = (12, 38) := by
  have f : ⌊(25 / 2 : ℚ)⌋ = 12 := by rw [Int.floor_eq_iff]; norm_num
  constructor
  · decide
  · norm_num [bar, f]; decide

end VW.Progress
