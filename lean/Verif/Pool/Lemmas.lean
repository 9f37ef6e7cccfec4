import Verif.Pool.Spec
import Mathlib.Data.List.Perm.Basic
import Mathlib.Tactic.Tauto
namespace VW.Pool
variable {σ τ : Type} {S : Source σ τ} {n : Nat} {q0 : σ}

/-- worker counted in `m_active_workers` -/
def Phase.counted : Phase τ → Bool
  | .completed => false
  | _ => true

/-- worker that holds the queue mutex -/
def Phase.holding : Phase τ → Bool
  | .crit | .gotTask _ | .gotNone | .completed => true
  | _ => false

/-- worker that will still look at the queue -/
def Phase.willFetch : Phase τ → Bool
  | .gotNone | .completed => false
  | _ => true

def Worker.liveSlot (w : Worker τ) : Option Nat := if w.phase.counted then some w.slot else none

def State.liveSlots (s : State σ τ) : List Nat := s.workers.filterMap Worker.liveSlot
def State.holders (s : State σ τ) : Nat := s.workers.countP (·.phase.holding)

def Lock.held : Lock τ → Nat
  | .worker => 1
  | _ => 0

def Lock.inNotify : Lock τ → Bool
  | .notif | .notifTask _ => true
  | _ => false

@[simp] theorem counted_ready {t : τ} : (Phase.ready t : Phase τ).counted = true := rfl
@[simp] theorem counted_running {t : τ} : (Phase.running t : Phase τ).counted = true := rfl
@[simp] theorem counted_ran {t : τ} : (Phase.ran t : Phase τ).counted = true := rfl
@[simp] theorem counted_want : (Phase.want : Phase τ).counted = true := rfl
@[simp] theorem counted_crit : (Phase.crit : Phase τ).counted = true := rfl
@[simp] theorem counted_gotTask {t : τ} : (Phase.gotTask t : Phase τ).counted = true := rfl
@[simp] theorem counted_gotNone : (Phase.gotNone : Phase τ).counted = true := rfl
@[simp] theorem counted_completed : (Phase.completed : Phase τ).counted = false := rfl
@[simp] theorem counted_check {t : τ} : (Phase.check t : Phase τ).counted = true := rfl
@[simp] theorem holding_ready {t : τ} : (Phase.ready t : Phase τ).holding = false := rfl
@[simp] theorem holding_running {t : τ} : (Phase.running t : Phase τ).holding = false := rfl
@[simp] theorem holding_ran {t : τ} : (Phase.ran t : Phase τ).holding = false := rfl
@[simp] theorem holding_want : (Phase.want : Phase τ).holding = false := rfl
@[simp] theorem holding_crit : (Phase.crit : Phase τ).holding = true := rfl
@[simp] theorem holding_gotTask {t : τ} : (Phase.gotTask t : Phase τ).holding = true := rfl
@[simp] theorem holding_gotNone : (Phase.gotNone : Phase τ).holding = true := rfl
@[simp] theorem holding_completed : (Phase.completed : Phase τ).holding = true := rfl
@[simp] theorem holding_check {t : τ} : (Phase.check t : Phase τ).holding = false := rfl
@[simp] theorem willFetch_ready {t : τ} : (Phase.ready t : Phase τ).willFetch = true := rfl
@[simp] theorem willFetch_running {t : τ} : (Phase.running t : Phase τ).willFetch = true := rfl
@[simp] theorem willFetch_ran {t : τ} : (Phase.ran t : Phase τ).willFetch = true := rfl
@[simp] theorem willFetch_want : (Phase.want : Phase τ).willFetch = true := rfl
@[simp] theorem willFetch_crit : (Phase.crit : Phase τ).willFetch = true := rfl
@[simp] theorem willFetch_gotTask {t : τ} : (Phase.gotTask t : Phase τ).willFetch = true := rfl
@[simp] theorem willFetch_gotNone : (Phase.gotNone : Phase τ).willFetch = false := rfl
@[simp] theorem willFetch_completed : (Phase.completed : Phase τ).willFetch = false := rfl
@[simp] theorem willFetch_check {t : τ} : (Phase.check t : Phase τ).willFetch = true := rfl
@[simp] theorem runningTask_ready {t : τ} : (Phase.ready t : Phase τ).runningTask = none := rfl
@[simp] theorem runningTask_running {t : τ} : (Phase.running t : Phase τ).runningTask = some t := rfl
@[simp] theorem runningTask_ran {t : τ} : (Phase.ran t : Phase τ).runningTask = none := rfl
@[simp] theorem runningTask_want : (Phase.want : Phase τ).runningTask = none := rfl
@[simp] theorem runningTask_crit : (Phase.crit : Phase τ).runningTask = none := rfl
@[simp] theorem runningTask_gotTask {t : τ} : (Phase.gotTask t : Phase τ).runningTask = none := rfl
@[simp] theorem runningTask_gotNone : (Phase.gotNone : Phase τ).runningTask = none := rfl
@[simp] theorem runningTask_completed : (Phase.completed : Phase τ).runningTask = none := rfl
@[simp] theorem runningTask_check {t : τ} : (Phase.check t : Phase τ).runningTask = none := rfl
@[simp] theorem assignedTask_ready {t : τ} : (Phase.ready t : Phase τ).assignedTask = some t := rfl
@[simp] theorem assignedTask_running {t : τ} : (Phase.running t : Phase τ).assignedTask = none := rfl
@[simp] theorem assignedTask_ran {t : τ} : (Phase.ran t : Phase τ).assignedTask = none := rfl
@[simp] theorem assignedTask_want : (Phase.want : Phase τ).assignedTask = none := rfl
@[simp] theorem assignedTask_crit : (Phase.crit : Phase τ).assignedTask = none := rfl
@[simp] theorem assignedTask_gotTask {t : τ} : (Phase.gotTask t : Phase τ).assignedTask = some t := rfl
@[simp] theorem assignedTask_gotNone : (Phase.gotNone : Phase τ).assignedTask = none := rfl
@[simp] theorem assignedTask_completed : (Phase.completed : Phase τ).assignedTask = none := rfl
@[simp] theorem assignedTask_check {t : τ} : (Phase.check t : Phase τ).assignedTask = some t := rfl
@[simp] theorem ranTask_ready {t : τ} : (Phase.ready t : Phase τ).ranTask = none := rfl
@[simp] theorem ranTask_running {t : τ} : (Phase.running t : Phase τ).ranTask = none := rfl
@[simp] theorem ranTask_ran {t : τ} : (Phase.ran t : Phase τ).ranTask = some t := rfl
@[simp] theorem ranTask_want : (Phase.want : Phase τ).ranTask = none := rfl
@[simp] theorem ranTask_crit : (Phase.crit : Phase τ).ranTask = none := rfl
@[simp] theorem ranTask_gotTask {t : τ} : (Phase.gotTask t : Phase τ).ranTask = none := rfl
@[simp] theorem ranTask_gotNone : (Phase.gotNone : Phase τ).ranTask = none := rfl
@[simp] theorem ranTask_completed : (Phase.completed : Phase τ).ranTask = none := rfl
@[simp] theorem ranTask_check {t : τ} : (Phase.check t : Phase τ).ranTask = none := rfl
@[simp] theorem task_free : (Lock.free : Lock τ).task = [] := rfl
@[simp] theorem task_worker : (Lock.worker : Lock τ).task = [] := rfl
@[simp] theorem task_notif : (Lock.notif : Lock τ).task = [] := rfl
@[simp] theorem task_notifTask {t : τ} : (Lock.notifTask t : Lock τ).task = [t] := rfl
@[simp] theorem held_free : (Lock.free : Lock τ).held = 0 := rfl
@[simp] theorem held_worker : (Lock.worker : Lock τ).held = 1 := rfl
@[simp] theorem held_notif : (Lock.notif : Lock τ).held = 0 := rfl
@[simp] theorem held_notifTask {t : τ} : (Lock.notifTask t : Lock τ).held = 0 := rfl
@[simp] theorem liveSlot_mk {k : Nat} {p : Phase τ} :
    (Worker.mk k p).liveSlot = if p.counted then some k else none := rfl

structure Inv (n : Nat) (s : State σ τ) : Prop where
  slots : (s.avail ++ s.liveSlots ++ s.lost.map (·.1)).Perm (List.range n)
  active : s.active = s.liveSlots.length + s.lost.length
  tasks : s.dispatched.Perm (s.assigned ++ s.running ++ s.ran ++ s.finished ++ s.lost.map (·.2))
  begun : s.begun.Perm (s.running ++ s.ran ++ s.finished)
  lostDie : s.lost ≠ [] → s.die = true
  lock : s.holders = s.lock.held
  front : ∀ t, s.lock = .notifTask t → s.avail ≠ []
  joiner : 0 < s.jwait → s.active ≠ 0
  ub : s.ub = true → s.alive = false

theorem inv_init : Inv n (State.init n q0 : State σ τ) := by
  constructor <;> simp [State.init, State.liveSlots, State.assigned, State.running, State.ran,
    State.holders, Lock.held, Lock.task]

theorem slots_step {s s' : State σ τ}
    (h : (s.avail ++ s.liveSlots ++ s.lost.map (·.1)).Perm (List.range n)) (hs : Internal S s s') :
    (s'.avail ++ s'.liveSlots ++ s'.lost.map (·.1)).Perm (List.range n) := by
  simp only [List.perm_iff_count, State.liveSlots] at h ⊢
  intro x
  have := h x
  clear h
  cases hs <;> simp_all [List.count_cons, List.filterMap_cons] <;> omega

theorem active_step {s s' : State σ τ}
    (h : s.active = s.liveSlots.length + s.lost.length) (hs : Internal S s s') :
    s'.active = s'.liveSlots.length + s'.lost.length := by
  simp only [State.liveSlots] at h ⊢
  cases hs <;> simp_all <;> omega

theorem lock_eq {l : Lock τ} (h : 0 < l.held) : l = .worker := by
  cases l <;> simp at h ⊢

theorem holder_lock {s : State σ τ} (h : s.holders = s.lock.held) {a b : List (Worker τ)} {k : Nat}
    {p : Phase τ} (hw : s.workers = a ++ ⟨k, p⟩ :: b) (hp : p.holding = true) : s.lock = .worker := by
  apply lock_eq
  simp only [State.holders, hw] at h
  simp [List.countP_cons, hp] at h
  omega

theorem tasks_step {s s' : State σ τ} (hl : s.holders = s.lock.held)
    (h : s.dispatched.Perm (s.assigned ++ s.running ++ s.ran ++ s.finished ++ s.lost.map (·.2)))
    (hs : Internal S s s') :
    s'.dispatched.Perm (s'.assigned ++ s'.running ++ s'.ran ++ s'.finished ++ s'.lost.map (·.2)) := by
  classical
  have key := @holder_lock _ _ s hl
  clear hl
  simp only [List.perm_iff_count, State.assigned, State.running, State.ran] at h ⊢
  intro x
  have := h x
  clear h
  cases hs
  case releaseTask hw =>
    have hk := key hw rfl
    simp_all [List.count_cons, List.filterMap_cons] <;> omega
  case releaseEnd hw =>
    have hk := key hw rfl
    simp_all [List.count_cons, List.filterMap_cons] <;> omega
  all_goals clear key; simp_all [List.count_cons, List.filterMap_cons] <;> omega

theorem begun_step {s s' : State σ τ}
    (h : s.begun.Perm (s.running ++ s.ran ++ s.finished)) (hs : Internal S s s') :
    s'.begun.Perm (s'.running ++ s'.ran ++ s'.finished) := by
  classical
  simp only [List.perm_iff_count, State.running, State.ran] at h ⊢
  intro x
  have := h x
  clear h
  cases hs <;> simp_all [List.count_cons, List.filterMap_cons] <;> omega

theorem lock_step {s s' : State σ τ} (h : s.holders = s.lock.held) (hs : Internal S s s') :
    s'.holders = s'.lock.held := by
  have key := @holder_lock _ _ s h
  simp only [State.holders] at h ⊢
  cases hs
  case releaseTask hw =>
    have hk := key hw rfl
    simp_all [List.countP_cons, -List.countP_eq_zero] <;> omega
  case releaseEnd hw =>
    have hk := key hw rfl
    simp_all [List.countP_cons, -List.countP_eq_zero] <;> omega
  all_goals clear key; simp_all [List.countP_cons, -List.countP_eq_zero] <;> omega

theorem inv_step {s s' : State σ τ} (h : Inv n s) (hs : Step S s s') : Inv n s' := by
  obtain ⟨h1, h2, h3, h4, h5, h6, h7, h8, h9⟩ := h
  rcases hs with hs | hs
  · cases hs <;> exact ⟨h1, h2, h3, h4, by simp_all, h6, h7, by simp_all <;> omega, by simp_all⟩
  · refine ⟨slots_step h1 hs, active_step h2 hs, tasks_step h6 h3 hs, begun_step h4 hs, ?_,
      lock_step h6 hs, ?_, ?_, ?_⟩
    · clear h1 h2 h3 h4 h6 h7 h8 h9
      cases hs <;> simp_all
    · clear h1 h2 h3 h4 h5 h8 h9
      cases hs
      case complete hw => simp
      all_goals simp_all
    · have hn : 0 ≤ s.active := by omega
      clear h1 h2 h3 h4 h5 h6 h7 h9
      cases hs <;> simp_all <;> omega
    · clear h1 h2 h3 h4 h5 h6 h8
      cases hs
      case nNoFront h _ => exact absurd h (h7 _ ‹_›)
      all_goals simp_all

theorem reach_inv {s : State σ τ} (h : Reach S n q0 s) : Inv n s := by
  induction h with
  | init => exact inv_init
  | step _ hs ih => exact inv_step ih hs

end VW.Pool
