import Verif.Pool.Model
/-!
Vocabulary used to state the thread-pool properties.
-/
namespace VW.Pool
variable {σ τ : Type}

/-- the task a worker is inside of -/
def Phase.runningTask : Phase τ → Option τ
  | .running t => some t
  | _ => none

/-- the task a worker has been given but has not entered yet -/
def Phase.assignedTask : Phase τ → Option τ
  | .ready t => some t
  | .gotTask t => some t
  | .check t => some t
  | _ => none

/-- the task a worker has executed but not yet marked finished -/
def Phase.ranTask : Phase τ → Option τ
  | .ran t => some t
  | _ => none

/-- the task a thread inside `notify()` has taken from the queue for a worker it is starting -/
def Lock.task : Lock τ → List τ
  | .notifTask t => [t]
  | _ => []

/-- tasks being executed right now -/
def State.running (s : State σ τ) : List τ := s.workers.filterMap (·.phase.runningTask)
/-- tasks taken from the queue but not entered yet -/
def State.assigned (s : State σ τ) : List τ :=
  s.lock.task ++ s.workers.filterMap (·.phase.assignedTask)
/-- tasks executed, `is_finished()` about to become true -/
def State.ran (s : State σ τ) : List τ := s.workers.filterMap (·.phase.ranTask)

/-- `P` holds now, or the pool can move and `P` becomes inevitable whatever step it makes: every
maximal run of internal steps reaches `P` after finitely many steps. -/
inductive Inevitable {α : Type} (R : α → α → Prop) (P : α → Prop) : α → Prop
  | now {s} : P s → Inevitable R P s
  | later {s} : (∃ s', R s s') → (∀ s', R s s' → Inevitable R P s') → Inevitable R P s

/-- no thread is inside `add_task`/`notify` -/
def State.noNotify (s : State σ τ) : Prop := s.pend = 0 ∧ s.lock ≠ .notif ∧ ∀ t, s.lock ≠ .notifTask t

/-- finitely many internal steps -/
inductive Steps {α : Type} (R : α → α → Prop) : α → α → Prop
  | refl {s} : Steps R s s
  | tail {s s' s''} : Steps R s s' → R s' s'' → Steps R s s''

end VW.Pool
