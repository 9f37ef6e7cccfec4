/-
Model of `vw::ThreadQueue<T>`, `src/vw/Core/ThreadQueue.h`.

Every method body is one critical section of `m_mutex`, except that `Condition::wait` releases it
atomically; a critical section is one step.  `push` calls `notify_one` after the critical section
(lines 46-49), so that is a separate step.  A thread is represented by the place it is in.
-/
namespace VW.TQueue

structure State (α : Type) where
  queue    : List α   -- m_queue
  notif    : Nat      -- threads between push's critical section and m_cond.notify_one() (line 49)
  ready    : Nat      -- threads in wait_pop that want the mutex (called or woken), lines 81-84
  waiting  : Nat      -- threads in wait_pop blocked in m_cond.wait (line 83)
  tready   : Nat      -- threads in timed_wait_pop about to test the predicate (line 95)
  twaiting : Nat      -- threads in timed_wait_pop blocked
  texp     : Nat      -- threads in timed_wait_pop whose time is up, about to test once more
  -- history
  pushed   : List α   -- values pushed since the last flush
  popped   : List α   -- values popped since the last flush, in order
  allPushed : List α
  allPopped : List α

def State.init (α : Type) : State α := ⟨[], 0, 0, 0, 0, 0, 0, [], [], [], []⟩

/-- taking the front element -/
def State.take {α : Type} (s : State α) (x : α) (q : List α) : State α :=
  { s with queue := q, popped := s.popped ++ [x], allPopped := s.allPopped ++ [x] }

/-- A client calls a method; for the non-blocking ones this is the whole call. -/
inductive Call {α : Type} : State α → State α → Prop
  /-- `push`, lines 41-44 -/
  | push {s} (x : α) :
      Call s { s with queue := s.queue ++ [x], notif := s.notif + 1, pushed := s.pushed ++ [x],
                      allPushed := s.allPushed ++ [x] }
  /-- `try_pop` on an empty queue returns false, lines 61-63 -/
  | tryFail {s} : s.queue = [] → Call s s
  /-- `try_pop`, lines 66-68 -/
  | tryPop {s x q} : s.queue = x :: q → Call s (s.take x q)
  /-- `wait_pop` is called -/
  | waitPop {s} : Call s { s with ready := s.ready + 1 }
  /-- `timed_wait_pop` is called -/
  | timedPop {s} : Call s { s with tready := s.tready + 1 }
  /-- `flush`, lines 104-109 -/
  | flush {s} : Call s { s with queue := [], pushed := [], popped := [] }
  /-- spurious wake-ups -/
  | spurious {s} : 0 < s.waiting → Call s { s with waiting := s.waiting - 1, ready := s.ready + 1 }
  | tspurious {s} : 0 < s.twaiting → Call s { s with twaiting := s.twaiting - 1, tready := s.tready + 1 }

/-- Progress of calls under way. -/
inductive Internal {α : Type} : State α → State α → Prop
  /-- `notify_one` wakes a thread in `wait_pop` ... -/
  | wake {s} : 0 < s.notif → 0 < s.waiting →
      Internal s { s with notif := s.notif - 1, waiting := s.waiting - 1, ready := s.ready + 1 }
  /-- ... or one in `timed_wait_pop` ... -/
  | twake {s} : 0 < s.notif → 0 < s.twaiting →
      Internal s { s with notif := s.notif - 1, twaiting := s.twaiting - 1, tready := s.tready + 1 }
  /-- ... or none if none waits -/
  | wakeNone {s} : 0 < s.notif → s.waiting = 0 → s.twaiting = 0 → Internal s { s with notif := s.notif - 1 }
  /-- `wait_pop` finds the queue empty, lines 82-83 -/
  | block {s} : 0 < s.ready → s.queue = [] →
      Internal s { s with ready := s.ready - 1, waiting := s.waiting + 1 }
  /-- `wait_pop` returns, lines 86-87 -/
  | pop {s x q} : 0 < s.ready → s.queue = x :: q →
      Internal s { s.take x q with ready := s.ready - 1 }
  /-- `timed_wait_pop`: predicate false, block -/
  | tblock {s} : 0 < s.tready → s.queue = [] →
      Internal s { s with tready := s.tready - 1, twaiting := s.twaiting + 1 }
  /-- `timed_wait_pop` returns true, lines 98-100 -/
  | tpop {s x q} : 0 < s.tready → s.queue = x :: q →
      Internal s { s.take x q with tready := s.tready - 1 }
  /-- time is up -/
  | expire {s} : 0 < s.twaiting →
      Internal s { s with twaiting := s.twaiting - 1, texp := s.texp + 1 }
  /-- `timed_wait` with predicate returns the predicate's value after the time-out: false -/
  | tfail {s} : 0 < s.texp → s.queue = [] → Internal s { s with texp := s.texp - 1 }
  /-- ... true -/
  | tlate {s x q} : 0 < s.texp → s.queue = x :: q →
      Internal s { s.take x q with texp := s.texp - 1 }

inductive Step {α : Type} : State α → State α → Prop
  | call {s s'} : Call s s' → Step s s'
  | internal {s s'} : Internal s s' → Step s s'

inductive Reach {α : Type} : State α → Prop
  | init : Reach (State.init α)
  | step {s s'} : Reach s → Step s s' → Reach s'

end VW.TQueue
