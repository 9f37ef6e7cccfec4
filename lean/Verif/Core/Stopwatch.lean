import Mathlib.Data.List.Basic
/-
Model of `Stopwatch`, src/vw/Core/Stopwatch.h:36-92, and property C51.

All copies of a stopwatch share one state, and each call holds its mutex; so calls by any number of threads are a
sequence of calls, each with the time of its clock reading. Times and elapsed times do not reach 2^64 microseconds.
-/
namespace VW.Stopwatch

/-- `Stopwatch::data`, Stopwatch.h:37-47. -/
structure St where
  elapsed : Nat
  lastStart : Nat
  depth : Nat
  stops : Nat
deriving DecidableEq

/-- Stopwatch.h:43-46. -/
def St.new : St := ⟨0, 0, 0, 0⟩

/-- 32 bit counters wrap. -/
def wrap (n : Nat) : Nat := n % 2 ^ 32

inductive Call
  | start
  | stop
deriving DecidableEq

/-- `start`, Stopwatch.h:57-62, when the clock reads t. -/
def start (s : St) (t : Nat) : St :=
  let s' := { s with depth := wrap (s.depth + 1) }
  if s.depth = 0 then { s' with lastStart := t } else s'

/-- `stop`, Stopwatch.h:64-70. -/
def stop (s : St) (t : Nat) : St :=
  let s' := { s with depth := wrap (s.depth + (2 ^ 32 - 1)) }
  if s'.depth = 0 then { s' with stops := wrap (s'.stops + 1), elapsed := s'.elapsed + (t - s'.lastStart) } else s'

/-- `is_running`, Stopwatch.h:72-74. -/
def St.isRunning (s : St) : Bool := s.depth != 0

def step (s : St) : Call × Nat → St
  | (.start, t) => start s t
  | (.stop, t) => stop s t

def run (s : St) (cs : List (Call × Nat)) : St := cs.foldl step s

/-! ### Specification -/

/-- Number of starts less number of stops. -/
def openCount : List (Call × Nat) → Int
  | [] => 0
  | (.start, _) :: cs => 1 + openCount cs
  | (.stop, _) :: cs => -1 + openCount cs

/-- No stop before its start. -/
def Balanced (cs : List (Call × Nat)) : Prop := ∀ as bs, cs = as ++ bs → 0 ≤ openCount as

/-- Between calls of a sequence with n starts open before and the last call at time t: the time during which at least
one start is open. -/
def timeOpen (n : Int) (t : Nat) : List (Call × Nat) → Nat
  | [] => 0
  | (c, t') :: cs => (if n > 0 then t' - t else 0) +
      timeOpen (match c with | .start => n + 1 | .stop => n - 1) t' cs

/-- The number of times that the last open start was stopped. -/
def closings (n : Int) : List (Call × Nat) → Nat
  | [] => 0
  | (.start, _) :: cs => closings (n + 1) cs
  | (.stop, _) :: cs => (if n = 1 then 1 else 0) + closings (n - 1) cs

/-- The time of the last call, or t. -/
def lastTime (t : Nat) : List (Call × Nat) → Nat
  | [] => t
  | (_, t') :: cs => lastTime t' cs

/-- The clock does not go back. -/
def Forward (t : Nat) : List (Call × Nat) → Prop
  | [] => True
  | (_, t') :: cs => t ≤ t' ∧ Forward t' cs

/-! ### Proof -/

theorem run_inv (cs : List (Call × Nat)) (s : St) (n : Nat) (t : Nat) (hd : s.depth = n) (hs : s.stops < 2 ^ 32)
    (hlast : 0 < n → s.lastStart ≤ t)
    (hb : ∀ as bs, cs = as ++ bs → 0 ≤ (n : Int) + openCount as) (hlen : n + cs.length < 2 ^ 32)
    (hstops : s.stops + cs.length < 2 ^ 32) (hf : Forward t cs) :
    ∃ m : Nat, (m : Int) = n + openCount cs ∧ (run s cs).depth = m ∧
      (run s cs).stops = s.stops + closings n cs ∧
      (run s cs).elapsed + (if 0 < m then lastTime t cs - (run s cs).lastStart else 0) =
        s.elapsed + (if 0 < n then t - s.lastStart else 0) + timeOpen n t cs ∧
      (0 < m → (run s cs).lastStart ≤ lastTime t cs) := by
  induction cs generalizing s n t with
  | nil => exact ⟨n, by simp [openCount], hd, by simp [run, closings], by simp [run, timeOpen, lastTime], hlast⟩
  | cons c cs ih =>
    obtain ⟨c, t'⟩ := c
    obtain ⟨hf1, hf2⟩ := hf
    rw [List.length_cons] at hlen hstops
    cases c with
    | start =>
      have hw : wrap (s.depth + 1) = n + 1 := by unfold wrap; rw [hd]; omega
      have hstep : step s (.start, t') = ⟨s.elapsed, if n = 0 then t' else s.lastStart, n + 1, s.stops⟩ := by
        show start s t' = _
        unfold start
        dsimp only
        rw [hw, hd]
        split <;> rfl
      obtain ⟨m, m1, m2, m3, m4, m5⟩ := ih (step s (.start, t')) (n + 1) t' (by rw [hstep]) (by rw [hstep]; exact hs)
        (fun _ => by rw [hstep]; dsimp only; split <;> omega)
        (fun as bs e => by
          have := hb ((.start, t') :: as) bs (by rw [e]; rfl)
          simp only [openCount] at this; push_cast; omega)
        (by omega) (by rw [hstep]; dsimp only; omega) hf2
      refine ⟨m, by simp only [openCount]; push_cast at m1; omega, m2, ?_, ?_, m5⟩
      · show (run (step s _) cs).stops = _
        rw [m3, hstep]; simp [closings]
      · show (run (step s _) cs).elapsed + (if 0 < m then lastTime t' cs - (run (step s _) cs).lastStart else 0) = _
        rw [m4, hstep]
        simp only [timeOpen]
        push_cast
        by_cases h0 : n = 0
        · subst h0; simp
        · have : 0 < n := by omega
          have := hlast this
          simp [h0]
          rw [if_pos (show 0 < n by omega), if_pos (show 0 < n by omega)]
          omega
    | stop =>
      have hn : 1 ≤ n := by
        have := hb [(.stop, t')] cs rfl
        simp [openCount] at this; omega
      have hw : wrap (s.depth + (2 ^ 32 - 1)) = n - 1 := by unfold wrap; rw [hd]; omega
      have hstep : step s (.stop, t') = ⟨if n = 1 then s.elapsed + (t' - s.lastStart) else s.elapsed, s.lastStart, n - 1,
          if n = 1 then s.stops + 1 else s.stops⟩ := by
        show stop s t' = _
        unfold stop
        dsimp only
        rw [hw]
        by_cases h1 : n = 1
        · subst h1
          have hh : wrap (s.stops + 1) = s.stops + 1 := by unfold wrap; exact Nat.mod_eq_of_lt (by omega)
          rw [hh]; simp
        · rw [if_neg (by omega), if_neg h1, if_neg h1]
      obtain ⟨m, m1, m2, m3, m4, m5⟩ := ih (step s (.stop, t')) (n - 1) t' (by rw [hstep])
        (by rw [hstep]; dsimp only; split <;> omega)
        (fun h => by rw [hstep]; dsimp only; have := hlast (by omega); omega)
        (fun as bs e => by
          have := hb ((.stop, t') :: as) bs (by rw [e]; rfl)
          simp only [openCount] at this; omega)
        (by omega) (by rw [hstep]; dsimp only; split <;> omega) hf2
      have hl := hlast (by omega)
      have hc : ((n - 1 : Nat) : Int) = (n : Int) - 1 := by omega
      have hrun : run s ((.stop, t') :: cs) = run (step s (.stop, t')) cs := by unfold run; rw [List.foldl_cons]
      rw [hrun]
      refine ⟨m, by simp only [openCount]; omega, m2, ?_, ?_, m5⟩
      · rw [m3, hstep, hc]
        simp only [closings]
        by_cases h1 : n = 1
        · subst h1; simp; omega
        · have h2 : ¬ (n : Int) = 1 := by omega
          rw [if_neg h1, if_neg h2, Nat.zero_add]
      · have hlt : lastTime t ((.stop, t') :: cs) = lastTime t' cs := by rw [lastTime]
        rw [hlt, m4, hstep, hc]
        simp only [timeOpen]
        rw [if_pos (show 0 < n by omega), if_pos (show (n : Int) > 0 by omega)]
        by_cases h1 : n = 1
        · subst h1; simp; omega
        · rw [if_neg h1, if_pos (show 0 < n - 1 by omega)]
          omega

/-- **C51 (stopwatch)**: after any balanced sequence of starts and stops by any threads, nested or overlapping, with a
clock that does not go back: it is running exactly if a start is still open; when none is, the elapsed time is exactly
the time during which at least one start was open; and the number of stops is the number of times that became none. -/
theorem stopwatch_spec (cs : List (Call × Nat)) (hb : Balanced cs) (hlen : cs.length < 2 ^ 32) (hf : Forward 0 cs) :
    ((run .new cs).isRunning = true ↔ 0 < openCount cs) ∧
    (openCount cs = 0 → (run .new cs).elapsed = timeOpen 0 0 cs) ∧
    (run .new cs).stops = closings 0 cs ∧
    (run .new cs).elapsed ≤ timeOpen 0 0 cs := by
  obtain ⟨m, m1, m2, m3, m4, m5⟩ := run_inv cs .new 0 0 rfl (by decide) (by simp)
    (fun as bs e => by have := hb as bs e; omega) (by omega) (by show 0 + _ < _; omega) hf
  refine ⟨?_, ?_, ?_, ?_⟩
  · unfold St.isRunning
    rw [m2]
    simp
    omega
  · intro h0
    have : m = 0 := by omega
    subst this
    simpa [St.new] using m4
  · rw [m3]; simp [St.new]
  · simp only [St.new] at m4
    simp at m4
    have h : (run .new cs).elapsed + (if 0 < m then lastTime 0 cs - (run .new cs).lastStart else 0) = timeOpen 0 0 cs := m4
    omega

/-- One stop too many: the stopwatch says it is running, and a later start and stop add nothing. -/
theorem stray_stop (a t u : Nat) :
    (run .new [(.stop, a)]).isRunning = true ∧
    (run .new [(.stop, a), (.start, t)]).isRunning = false ∧
    (run .new [(.stop, a), (.start, t), (.stop, u)]).elapsed = 0 := by
  refine ⟨?_, ?_, ?_⟩ <;> simp [run, step, start, stop, wrap, St.new, St.isRunning]

/-- A case: overlapping uses by two threads, 10..30 and 20..50, then 70..75. -/
example : run .new [(.start, 10), (.start, 20), (.stop, 30), (.stop, 50), (.start, 70), (.stop, 75)] = ⟨45, 70, 0, 2⟩ ∧
    timeOpen 0 0 [(.start, 10), (.start, 20), (.stop, 30), (.stop, 50), (.start, 70), (.stop, 75)] = 45 := by decide

/-- It meets the hypotheses. -/
example : Balanced [(.start, 10), (.start, 20), (.stop, 30), (.stop, 50)] ∧
    Forward 0 [(.start, 10), (.start, 20), (.stop, 30), (.stop, 50)] := by
  refine ⟨?_, by simp [Forward]⟩
  intro as bs e
  rcases as with _ | ⟨a, _ | ⟨b, _ | ⟨c, _ | ⟨d, as⟩⟩⟩⟩ <;> simp at e
  · decide
  all_goals
    obtain ⟨rfl, e⟩ := e
    try obtain ⟨rfl, e⟩ := e
    try obtain ⟨rfl, e⟩ := e
    try obtain ⟨rfl, e⟩ := e
  · decide
  · decide
  · decide
  · rw [e.1]; decide

end VW.Stopwatch
