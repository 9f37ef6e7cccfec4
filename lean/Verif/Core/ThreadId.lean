import Mathlib.Tactic.ByContra
import Mathlib.Tactic.SplitIfs

/-
Model of src/vw/Core/Thread.cc (`Thread::id`) and of the times of src/vw/Core/Thread.h and src/vw/Core/Condition.h
(`sleep_ms`, `timed_wait`), with the theorems of C119.
-/

namespace Verif.Core.Thread

/-! ### Model of `Thread::id` -/

/-- Where a thread is in `Thread::id` (src/vw/Core/Thread.cc:52-64): outside; has found no number (line 56); holds the lock (line
57); has read the counter (line 58); about to return (lines 62-63). -/
inductive Pc where
  | out
  | fresh
  | locked
  | loaded (n : Nat)
  | ready

/-- The shared counter and lock, the thread-local pointers, and what was returned so far (thread and number, the latest first).
Simplified: the counter has no upper bound. -/
structure St where
  next : Nat
  lock : Option Nat
  tls : Nat → Option Nat
  pc : Nat → Pc
  log : List (Nat × Nat)

/-- Before any call (src/vw/Core/Thread.cc:30). -/
def St.init : St := ⟨0, none, fun _ => none, fun _ => .out, []⟩

/-- Change the place of a thread. -/
def St.goto (s : St) (t : Nat) (p : Pc) : St := { s with pc := fun u => if u = t then p else s.pc u }

/-- A step of thread `t` (src/vw/Core/Thread.cc:52-64). -/
inductive Step (s : St) : St → Prop
  | check (t : Nat) : s.pc t = .out → Step s (s.goto t (if s.tls t = none then .fresh else .ready))
  | acquire (t : Nat) : s.pc t = .fresh → s.lock = none → Step s { s.goto t .locked with lock := some t }
  | load (t : Nat) : s.pc t = .locked → Step s (s.goto t (.loaded s.next))
  | store (t n : Nat) : s.pc t = .loaded n →
      Step s { s.goto t .ready with next := n + 1, tls := fun u => if u = t then some n else s.tls u, lock := none }
  | ret (t n : Nat) : s.pc t = .ready → s.tls t = some n → Step s { s.goto t .out with log := (t, n) :: s.log }

/-- What any number of threads can bring about in any order. -/
inductive Reachable : St → Prop
  | init : Reachable St.init
  | step (s s' : St) : Reachable s → Step s s' → Reachable s'

/-! ### Numbers of threads -/

structure Inv (s : St) : Prop where
  less : ∀ t n, s.tls t = some n → n < s.next
  inj : ∀ t u n, s.tls t = some n → s.tls u = some n → t = u
  logged : ∀ t n, (t, n) ∈ s.log → s.tls t = some n
  fresh : ∀ t, s.pc t = .fresh ∨ s.pc t = .locked ∨ (∃ n, s.pc t = .loaded n) → s.tls t = none
  ready : ∀ t, s.pc t = .ready → s.tls t ≠ none
  holds : ∀ t, s.pc t = .locked ∨ (∃ n, s.pc t = .loaded n) → s.lock = some t
  value : ∀ t n, s.pc t = .loaded n → n = s.next

theorem inv (s : St) (h : Reachable s) : Inv s := by
  induction h with
  | init => constructor <;> simp [St.init]
  | step s s' _ hs ih =>
    obtain ⟨i1, i2, i3, i4, i5, i6, i7⟩ := ih
    cases hs with
    | check t h =>
      refine ⟨i1, i2, i3, ?_, ?_, ?_, ?_⟩
      · intro u hu
        show s.tls u = none
        by_cases hut : u = t
        · subst hut
          by_contra hn
          simp only [St.goto, if_true, if_neg hn] at hu
          simp at hu
        · simp only [St.goto, if_neg hut] at hu; exact i4 u hu
      · intro u hu
        show s.tls u ≠ none
        by_cases hut : u = t
        · subst hut
          intro hn
          simp only [St.goto, if_true, if_pos hn] at hu
          simp at hu
        · simp only [St.goto, if_neg hut] at hu; exact i5 u hu
      · intro u hu
        by_cases hut : u = t
        · subst hut
          simp only [St.goto, if_true] at hu
          split_ifs at hu <;> simp at hu
        · simp only [St.goto, if_neg hut] at hu; exact i6 u hu
      · intro u n hu
        by_cases hut : u = t
        · subst hut
          simp only [St.goto, if_true] at hu
          split_ifs at hu <;> simp at hu
        · simp only [St.goto, if_neg hut] at hu; exact i7 u n hu
    | acquire t h hl =>
      refine ⟨i1, i2, i3, ?_, ?_, ?_, ?_⟩
      · intro u hu
        by_cases hut : u = t
        · subst hut; exact i4 u (Or.inl h)
        · simp only [St.goto, if_neg hut] at hu; exact i4 u hu
      · intro u hu
        by_cases hut : u = t
        · subst hut; simp [St.goto] at hu
        · simp only [St.goto, if_neg hut] at hu; exact i5 u hu
      · intro u hu
        by_cases hut : u = t
        · subst hut; rfl
        · simp only [St.goto, if_neg hut] at hu
          have := i6 u hu
          rw [hl] at this
          exact absurd this (by simp)
      · intro u n hu
        by_cases hut : u = t
        · subst hut; simp [St.goto] at hu
        · simp only [St.goto, if_neg hut] at hu; exact i7 u n hu
    | load t h =>
      refine ⟨i1, i2, i3, ?_, ?_, ?_, ?_⟩
      · intro u hu
        by_cases hut : u = t
        · subst hut; exact i4 u (Or.inr (Or.inl h))
        · simp only [St.goto, if_neg hut] at hu; exact i4 u hu
      · intro u hu
        by_cases hut : u = t
        · subst hut; simp [St.goto] at hu
        · simp only [St.goto, if_neg hut] at hu; exact i5 u hu
      · intro u hu
        by_cases hut : u = t
        · subst hut; exact i6 u (Or.inl h)
        · simp only [St.goto, if_neg hut] at hu; exact i6 u hu
      · intro u n hu
        by_cases hut : u = t
        · subst hut; simp only [St.goto, if_true, Pc.loaded.injEq] at hu; exact hu.symm
        · simp only [St.goto, if_neg hut] at hu; exact i7 u n hu
    | store t n h =>
      have hn := i7 t n h
      have ht := i4 t (Or.inr (Or.inr ⟨n, h⟩))
      have hlk := i6 t (Or.inr ⟨n, h⟩)
      refine ⟨?_, ?_, ?_, ?_, ?_, ?_, ?_⟩
      · intro u m hu
        show m < n + 1
        by_cases hut : u = t
        · simp only [if_pos hut, Option.some.injEq] at hu; omega
        · simp only [if_neg hut] at hu; have := i1 u m hu; omega
      · intro u v m hu hv
        simp only at hu hv
        by_cases hut : u = t <;> by_cases hvt : v = t
        · rw [hut, hvt]
        · simp only [if_pos hut, Option.some.injEq] at hu
          simp only [if_neg hvt] at hv
          have := i1 v m hv; omega
        · simp only [if_neg hut] at hu
          simp only [if_pos hvt, Option.some.injEq] at hv
          have := i1 u m hu; omega
        · simp only [if_neg hut] at hu
          simp only [if_neg hvt] at hv
          exact i2 u v m hu hv
      · intro u m hu
        have := i3 u m hu
        show (if u = t then some n else s.tls u) = some m
        rw [if_neg (by rintro rfl; rw [ht] at this; exact absurd this (by simp))]
        exact this
      · intro u hu
        by_cases hut : u = t
        · subst hut; simp [St.goto] at hu
        · simp only [St.goto, if_neg hut] at hu
          show (if u = t then some n else s.tls u) = none
          rw [if_neg hut]; exact i4 u hu
      · intro u hu
        show (if u = t then some n else s.tls u) ≠ none
        by_cases hut : u = t
        · rw [if_pos hut]; simp
        · simp only [St.goto, if_neg hut] at hu
          rw [if_neg hut]; exact i5 u hu
      · intro u hu
        by_cases hut : u = t
        · subst hut; simp [St.goto] at hu
        · simp only [St.goto, if_neg hut] at hu
          have := i6 u hu
          rw [hlk] at this
          exact absurd (Option.some.inj this).symm hut
      · intro u m hu
        by_cases hut : u = t
        · subst hut; simp [St.goto] at hu
        · simp only [St.goto, if_neg hut] at hu
          have := i6 u (Or.inr ⟨m, hu⟩)
          rw [hlk] at this
          exact absurd (Option.some.inj this).symm hut
    | ret t n h hv =>
      refine ⟨i1, i2, ?_, ?_, ?_, ?_, ?_⟩
      · intro u m hu
        show s.tls u = some m
        rcases List.mem_cons.1 hu with h | h
        · obtain ⟨rfl, rfl⟩ := Prod.mk.inj h; exact hv
        · exact i3 u m h
      · intro u hu
        by_cases hut : u = t
        · subst hut; simp [St.goto] at hu
        · simp only [St.goto, if_neg hut] at hu; exact i4 u hu
      · intro u hu
        by_cases hut : u = t
        · subst hut; simp [St.goto] at hu
        · simp only [St.goto, if_neg hut] at hu; exact i5 u hu
      · intro u hu
        by_cases hut : u = t
        · subst hut; simp [St.goto] at hu
        · simp only [St.goto, if_neg hut] at hu; exact i6 u hu
      · intro u m hu
        by_cases hut : u = t
        · subst hut; simp [St.goto] at hu
        · simp only [St.goto, if_neg hut] at hu; exact i7 u m hu

/-- **C119.**  Whatever the schedule: two calls return the same number exactly if they come from the same thread. -/
theorem id_unique (s : St) (h : Reachable s) (t u a b : Nat) (ha : (t, a) ∈ s.log) (hb : (u, b) ∈ s.log) : a = b ↔ t = u := by
  have hi := inv s h
  have h1 := hi.logged t a ha
  have h2 := hi.logged u b hb
  constructor
  · rintro rfl; exact hi.inj t u a h1 h2
  · rintro rfl; rw [h1] at h2; exact Option.some.inj h2

/-- **C119.**  At any time some call can go on: a thread inside `Thread::id` never waits for ever, because the one that holds the
lock can always take a step, and a thread about to return has a number. -/
theorem id_progress (s : St) (h : Reachable s) (t : Nat) (ht : s.pc t = .ready ∨ s.pc t = .locked ∨ (∃ n, s.pc t = .loaded n) ∨
    (s.pc t = .fresh ∧ s.lock = none)) : ∃ s', Step s s' ∧ ∀ u, u ≠ t → s'.pc u = s.pc u := by
  have hi := inv s h
  have key : ∀ p u, u ≠ t → (s.goto t p).pc u = s.pc u := by intro p u hu; simp [St.goto, hu]
  rcases ht with h | h | ⟨n, h⟩ | ⟨h, hl⟩
  · cases hv : s.tls t with
    | none => exact absurd hv (hi.ready t h)
    | some n => exact ⟨_, .ret t n h hv, key _⟩
  · exact ⟨_, .load t h, key _⟩
  · exact ⟨_, .store t n h, key _⟩
  · exact ⟨_, .acquire t h hl, key _⟩

/-- The lock is only held by a thread that can go on. -/
theorem lock_holder (s : St) (h : Reachable s) (t : Nat) (hl : s.lock = some t) : s.pc t = .locked ∨ ∃ n, s.pc t = .loaded n := by
  induction h with
  | init => simp [St.init] at hl
  | step s s' hr hs ih =>
    have hi := inv s hr
    cases hs with
    | check u h =>
      have := ih hl
      have hut : t ≠ u := by rintro rfl; rw [h] at this; simp at this
      simpa [St.goto, hut] using this
    | acquire u h hn =>
      simp only [Option.some.injEq] at hl
      subst hl
      simp [St.goto]
    | load u h =>
      by_cases hut : t = u
      · subst hut; right; exact ⟨s.next, by simp [St.goto]⟩
      · have := ih hl
        simpa [St.goto, hut] using this
    | store u n h => simp at hl
    | ret u n h hv =>
      have := ih hl
      have hut : t ≠ u := by rintro rfl; rw [h] at this; simp at this
      simpa [St.goto, hut] using this

/-- Two threads have called, interleaved: the second asked first but the first got its number first. -/
example : ∃ s, Reachable s ∧ (1, 0) ∈ s.log ∧ (2, 1) ∈ s.log := by
  refine ⟨_, .step _ _ (.step _ _ (.step _ _ (.step _ _ (.step _ _ (.step _ _ (.step _ _ (.step _ _ (.step _ _ (.step _ _ .init
    (.check 2 rfl)) (.check 1 rfl)) (.acquire 1 rfl rfl)) (.load 1 rfl)) (.store 1 0 rfl)) (.acquire 2 rfl rfl)) (.load 2 rfl))
    (.store 2 1 rfl)) (.ret 2 1 rfl rfl)) (.ret 1 0 rfl rfl), ?_, ?_⟩
  · exact List.mem_cons_self
  · exact List.mem_cons_of_mem _ List.mem_cons_self

/-! ### Deadlines -/

/-- The loop of `timed_wait` and `sleep_ms` (src/vw/Core/Condition.h:72-76, src/vw/Core/Thread.h:231-235): seconds, nanoseconds and
milliseconds; the product is one of 32-bit numbers. -/
def deadline (sec nsec ms : Nat) : Nat × Nat :=
  if _h : 1000 ≤ ms then deadline (sec + 1) nsec (ms - 1000) else (sec, nsec + (1000000 * ms) % 2 ^ 32)
termination_by ms
decreasing_by omega

/-- **C119.**  The deadline is as many milliseconds after the present time as asked for, and the field for the nanoseconds does not
overflow, even if it has 32 bits (it may exceed a second). -/
theorem deadline_spec (sec nsec ms : Nat) (h : nsec < 10 ^ 9) :
    (deadline sec nsec ms).1 * 10 ^ 9 + (deadline sec nsec ms).2 = (sec * 10 ^ 9 + nsec) + ms * 10 ^ 6 ∧
    (deadline sec nsec ms).2 < 2 ^ 31 := by
  induction ms using Nat.strongRecOn generalizing sec with
  | ind ms ih =>
    rw [deadline]
    have e9 : 10 ^ 9 = 1000000000 := rfl
    have e6 : 10 ^ 6 = 1000000 := rfl
    have e31 : 2 ^ 31 = 2147483648 := rfl
    have e32 : 2 ^ 32 = 4294967296 := rfl
    rw [e9] at h
    rw [e9, e6, e31] at ih ⊢
    by_cases hm : 1000 ≤ ms
    · rw [dif_pos hm]
      obtain ⟨h1, h2⟩ := ih (ms - 1000) (by omega) (sec + 1)
      refine ⟨h1.trans ?_, h2⟩
      clear h1 h2 ih e9 e6 e31 e32
      obtain ⟨k, rfl⟩ := Nat.exists_eq_add_of_le hm
      rw [Nat.add_sub_cancel_left, Nat.add_mul, Nat.add_mul]
      omega
    · rw [dif_neg hm]
      have : (1000000 * ms) % 2 ^ 32 = 1000000 * ms := Nat.mod_eq_of_lt (by rw [e32]; omega)
      rw [this]
      constructor
      · show sec * 1000000000 + (nsec + 1000000 * ms) = _
        omega
      · show nsec + 1000000 * ms < _
        omega

example : deadline 5 999999999 1999 = (6, 1998999999) := by
  rw [deadline, dif_pos (by omega), deadline, dif_neg (by omega)]

end Verif.Core.Thread
