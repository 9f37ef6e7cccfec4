import Verif.TQueue.Model
import Verif.Pool.Spec
import Mathlib.Tactic.ByContra
/-! C16: `ThreadQueue`. -/
namespace VW.TQueue
open VW.Pool (Inevitable)
variable {α : Type}

/-- C16 (FIFO): at every moment, the values popped since the last flush followed by the values in the
queue are exactly the values pushed since the last flush, in order. -/
theorem tqueue_fifo {s : State α} (h : Reach s) : s.popped ++ s.queue = s.pushed := by
  induction h with
  | init => rfl
  | step _ hs ih =>
    rcases hs with hs | hs <;> cases hs <;> simp_all [State.take] <;> (rw [← ih]; simp)

/-- C16 (nothing invented, duplicated or reordered, over the whole life including flushes): the values
popped are a subsequence of the values pushed. -/
theorem tqueue_popped_sublist {s : State α} (h : Reach s) : s.allPopped.Sublist s.allPushed := by
  have key : (s.allPopped ++ s.queue).Sublist s.allPushed := by
    induction h with
    | init => simp [State.init]
    | step _ hs ih =>
      rcases hs with hs | hs <;> cases hs
      case push =>
        rw [← List.append_assoc]
        exact ih.append (List.Sublist.refl _)
      case flush =>
        refine List.Sublist.trans ?_ ih
        simp
      all_goals simp_all [State.take]
  exact (List.sublist_append_left _ _).trans key

/-- helper invariant: while somebody is blocked, there are at least as many threads about to look at
the queue (or wake somebody who will) as there are values. -/
theorem no_lost_wakeup {s : State α} (h : Reach s) :
    s.waiting + s.twaiting = 0 ∨ s.queue.length ≤ s.notif + s.ready + s.tready + s.texp := by
  induction h with
  | init => simp [State.init]
  | step _ hs ih =>
    rcases hs with hs | hs <;> cases hs <;> simp_all [State.take] <;> omega

/-- nobody is blocked in `wait_pop` while data is available, and no call is half-way -/
def Settled (s : State α) : Prop :=
  (s.queue = [] ∨ s.waiting = 0) ∧ s.notif = 0 ∧ s.ready = 0 ∧ s.tready = 0 ∧ s.twaiting = 0 ∧ s.texp = 0

/-- C16 (no lost wake-up): if no further calls are made, every schedule ends, after finitely many
steps, with either no value left or nobody blocked in `wait_pop`; every `timed_wait_pop` has
returned. -/
theorem tqueue_wakes {s : State α} (h : Reach s) : Inevitable Internal Settled s := by
  generalize hm : 2 * s.notif + s.ready + 3 * s.tready + 2 * s.twaiting + s.texp = m
  induction m using Nat.strongRecOn generalizing s with
  | _ m ih =>
    by_cases hex : ∃ s', Internal s s'
    · refine .later hex fun s' hs => ih _ ?_ (h.step (.internal hs)) rfl
      subst hm
      cases hs <;> simp [State.take] <;> omega
    · have hno : ∀ s', ¬ Internal s s' := by simpa using hex
      have h1 : s.ready = 0 := by
        by_contra hc
        rcases hq : s.queue with _ | ⟨x, q⟩
        · exact hno _ (.block (by omega) hq)
        · exact hno _ (.pop (by omega) hq)
      have h2 : s.tready = 0 := by
        by_contra hc
        rcases hq : s.queue with _ | ⟨x, q⟩
        · exact hno _ (.tblock (by omega) hq)
        · exact hno _ (.tpop (by omega) hq)
      have h3 : s.texp = 0 := by
        by_contra hc
        rcases hq : s.queue with _ | ⟨x, q⟩
        · exact hno _ (.tfail (by omega) hq)
        · exact hno _ (.tlate (by omega) hq)
      have h4 : s.twaiting = 0 := by
        by_contra hc
        exact hno _ (.expire (by omega))
      have h5 : s.notif = 0 := by
        by_contra hc
        by_cases hw : s.waiting = 0
        · exact hno _ (.wakeNone (by omega) hw h4)
        · exact hno _ (.wake (by omega) (by omega))
      refine .now ⟨?_, h5, h1, h2, h4, h3⟩
      by_cases hw : s.waiting = 0
      · exact .inr hw
      · left
        have := no_lost_wakeup h
        exact List.eq_nil_of_length_eq_zero (by omega)

/-- C16: a pop takes the front value, and a thread leaves `wait_pop` only with such a value. -/
theorem tqueue_pop_front {s s' : State α} (hs : Step s s')
    (hp : s'.allPopped ≠ s.allPopped ∨ s'.ready + s'.waiting < s.ready + s.waiting) :
    ∃ x q, s.queue = x :: q ∧ s'.queue = q ∧ s'.allPopped = s.allPopped ++ [x] := by
  rcases hs with hs | hs <;> cases hs
  case tryPop h => exact ⟨_, _, h, rfl, rfl⟩
  case pop h => exact ⟨_, _, h, rfl, rfl⟩
  case tpop h => exact ⟨_, _, h, rfl, rfl⟩
  case tlate h => exact ⟨_, _, h, rfl, rfl⟩
  all_goals
    rcases hp with hp | hp
    · exact absurd rfl hp
    · simp at hp; try omega

/-- Non-vacuity: two blocked consumers, one value pushed, the wake-up still pending. -/
example : ∃ s : State Nat, Reach s ∧ s.waiting = 2 ∧ s.queue = [5] ∧ s.popped = [4] ∧ s.notif = 2 := by
  have r := Reach.init (α := Nat)
  have r := r.step (.call .waitPop)
  have r := r.step (.call .waitPop)
  have r := r.step (.internal (.block (by decide) rfl))
  have r := r.step (.internal (.block (by decide) rfl))
  have r := r.step (.call (.push 4))
  have r := r.step (.call (.push 5))
  have r := r.step (.call (.tryPop (x := 4) (q := [5]) rfl))
  exact ⟨_, r, rfl, rfl, rfl, rfl⟩

end VW.TQueue
