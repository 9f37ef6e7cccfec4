/-
Model of the thread pool: `src/vw/Core/ThreadPool.h`, `src/vw/Core/ThreadPool.cc`.

A labelled-transition-system model.  Threads interleave at every lock acquisition, release, access
to the task source (which has its own mutex), start and end of a task and read of the kill flag.
-/
namespace VW.Pool

/-- The virtual `get_next_task()` (ThreadPool.h:122-124) together with the derived class' way of
storing a new task (`add_task`'s critical section).  Both run under the derived class' own `m_mutex`,
so each is one atomic action. -/
structure Source (σ τ : Type) where
  next : σ → Option (τ × σ)
  add  : σ → τ → σ

/-- Program counter of a worker thread: `WorkQueue::WorkerThread::operator()`, ThreadPool.cc:57-76. -/
inductive Phase (τ : Type) where
  /-- about to call `(*m_task)()` (line 62) -/
  | ready (t : τ)
  /-- inside `(*m_task)()` (line 62) -/
  | running (t : τ)
  /-- the task has returned, `signal_finished` (line 63) not yet called -/
  | ran (t : τ)
  /-- wants `m_queue_mutex` (line 69) -/
  | want
  /-- holds `m_queue_mutex`, before `get_next_task` (line 70) -/
  | crit
  /-- holds `m_queue_mutex`, `get_next_task` returned a task -/
  | gotTask (t : τ)
  /-- holds `m_queue_mutex`, `get_next_task` returned null (line 72) -/
  | gotNone
  /-- holds `m_queue_mutex`, `worker_thread_complete` has run (line 73) -/
  | completed
  /-- released the mutex with a task, about to read `m_should_die` (line 75) -/
  | check (t : τ)

/-- A worker thread: its slot in `m_running_threads` and its program counter. -/
structure Worker (τ : Type) where
  slot  : Nat
  phase : Phase τ

/-- Holder of `m_queue_mutex`. -/
inductive Lock (τ : Type) where
  | free
  /-- some worker (the one whose phase is crit/gotTask/gotNone/completed) -/
  | worker
  /-- a thread inside `notify()`, at the loop head (ThreadPool.cc:107-108) -/
  | notif
  /-- a thread inside `notify()`, having obtained a task (ThreadPool.cc:109-118) -/
  | notifTask (t : τ)

/-- The pool.  The first block are the C++ members (`WorkQueue`, ThreadPool.h:79-86), the second the
threads, the third is history used only to state properties. -/
structure State (σ τ : Type) where
  src    : σ                   -- the derived class' queued tasks
  avail  : List Nat            -- m_available_thread_ids
  active : Int                 -- m_active_workers
  lock   : Lock τ              -- m_queue_mutex
  die    : Bool                -- m_should_die
  alive  : Bool                -- false once the derived class' destructor has run
  workers : List (Worker τ)    -- live worker threads
  pend   : Nat                 -- threads about to lock m_queue_mutex in notify()
  jwant  : Nat                 -- threads about to lock m_queue_mutex in join_all()
  jwait  : Nat                 -- threads waiting on m_joined_event
  jret   : Nat                 -- number of join_all() calls that have returned
  added      : List τ          -- tasks given to add_task, in the order they were stored
  dispatched : List τ          -- tasks returned by get_next_task, in order
  begun      : List τ          -- tasks whose operator() has been entered, in order
  finished   : List τ          -- tasks for which signal_finished has been called
  lost       : List (Nat × τ)  -- slot and task of workers that quit because of m_should_die
  ub         : Bool            -- undefined behaviour has happened

/-- `WorkQueue::WorkQueue`, ThreadPool.cc:93-98. -/
def State.init {σ τ : Type} (n : Nat) (src : σ) : State σ τ :=
  { src := src, avail := List.range n, active := 0, lock := .free, die := false, alive := true,
    workers := [], pend := 0, jwant := 0, jwait := 0, jret := 0, added := [], dispatched := [],
    begun := [], finished := [], lost := [], ub := false }

section
variable {σ τ : Type} (S : Source σ τ)

/-- Calls made by client threads (a running task may make them too). -/
inductive Call : State σ τ → State σ τ → Prop
  /-- `add_task`: the critical section that stores the task (ThreadPool.cc:167-170, 198-201); the
  caller then proceeds to `notify()`. -/
  | add {s} (t : τ) : s.alive = true →
      Call s { s with src := S.add s.src t, added := s.added ++ [t], pend := s.pend + 1 }
  /-- a bare call of the public `notify()` (ThreadPool.h:128-133) -/
  | notify {s} : Call s { s with pend := s.pend + 1 }
  /-- `join_all()` is called (ThreadPool.cc:135) -/
  | join {s} : Call s { s with jwant := s.jwant + 1 }
  /-- `kill_and_join()`: the flag is set without a lock, then `join_all` (ThreadPool.cc:149-152) -/
  | kill {s} : Call s { s with die := true, jwant := s.jwant + 1 }
  /-- the object is destroyed: members of the derived class go first, then `~WorkQueue` calls
  `join_all()` (ThreadPool.cc:99) -/
  | destroy {s} : Call s { s with alive := false, jwant := s.jwant + 1 }
  /-- spurious wake-up of a thread waiting on `m_joined_event` -/
  | spurious {s} : 0 < s.jwait → Call s { s with jwait := s.jwait - 1, jwant := s.jwant + 1 }

/-- Steps the pool's own code makes once calls are under way. -/
inductive Internal : State σ τ → State σ τ → Prop
  /-- line 62: the task is entered -/
  | begin {s a b k t} : s.workers = a ++ ⟨k, .ready t⟩ :: b →
      Internal s { s with workers := a ++ ⟨k, .running t⟩ :: b, begun := s.begun ++ [t] }
  /-- line 62: the task returns (tasks are assumed to terminate without throwing) -/
  | finish {s a b k t} : s.workers = a ++ ⟨k, .running t⟩ :: b →
      Internal s { s with workers := a ++ ⟨k, .ran t⟩ :: b }
  /-- line 63: `signal_finished()` -/
  | signal {s a b k t} : s.workers = a ++ ⟨k, .ran t⟩ :: b →
      Internal s { s with workers := a ++ ⟨k, .want⟩ :: b, finished := s.finished ++ [t] }
  /-- line 69 -/
  | acquire {s a b k} : s.workers = a ++ ⟨k, .want⟩ :: b → s.lock = .free →
      Internal s { s with workers := a ++ ⟨k, .crit⟩ :: b, lock := .worker }
  /-- line 70, a task is available -/
  | getSome {s a b k t q} : s.workers = a ++ ⟨k, .crit⟩ :: b → s.alive = true →
      S.next s.src = some (t, q) →
      Internal s { s with workers := a ++ ⟨k, .gotTask t⟩ :: b, src := q,
                          dispatched := s.dispatched ++ [t] }
  /-- line 70, null task -/
  | getNone {s a b k} : s.workers = a ++ ⟨k, .crit⟩ :: b → s.alive = true → S.next s.src = none →
      Internal s { s with workers := a ++ ⟨k, .gotNone⟩ :: b }
  /-- line 70 on a destroyed derived object: pure virtual call / use after destruction -/
  | getDead {s a b k} : s.workers = a ++ ⟨k, .crit⟩ :: b → s.alive = false → s.ub = false →
      Internal s { s with ub := true }
  /-- line 73: `worker_thread_complete` (ThreadPool.cc:80-91); the range assertion is not modelled as
  a step because slots are always in range (theorem `pool_slots`) -/
  | complete {s a b k} : s.workers = a ++ ⟨k, .gotNone⟩ :: b →
      Internal s { s with workers := a ++ ⟨k, .completed⟩ :: b, active := s.active - 1,
                          avail := s.avail ++ [k], jwant := s.jwant + s.jwait, jwait := 0 }
  /-- line 74: lock released holding a task -/
  | releaseTask {s a b k t} : s.workers = a ++ ⟨k, .gotTask t⟩ :: b →
      Internal s { s with workers := a ++ ⟨k, .check t⟩ :: b, lock := .free }
  /-- lines 74-76: lock released, loop condition false, the thread ends -/
  | releaseEnd {s a b k} : s.workers = a ++ ⟨k, .completed⟩ :: b →
      Internal s { s with workers := a ++ b, lock := .free }
  /-- line 75: `!m_should_die`, next iteration -/
  | again {s a b k t} : s.workers = a ++ ⟨k, .check t⟩ :: b → s.die = false →
      Internal s { s with workers := a ++ ⟨k, .ready t⟩ :: b }
  /-- line 75: `m_should_die`: the thread ends; nothing is decremented, the task is dropped -/
  | quit {s a b k t} : s.workers = a ++ ⟨k, .check t⟩ :: b → s.die = true →
      Internal s { s with workers := a ++ b, lost := s.lost ++ [(k, t)] }
  /-- line 102: a `notify()` call gets the mutex -/
  | nAcquire {s} : 0 < s.pend → s.lock = .free →
      Internal s { s with pend := s.pend - 1, lock := .notif }
  /-- line 107: no slot available: the loop ends, the mutex is released -/
  | nNoSlot {s} : s.lock = .notif → s.avail = [] → Internal s { s with lock := .free }
  /-- line 108: no task: the loop ends -/
  | nNoTask {s} : s.lock = .notif → s.avail ≠ [] → s.alive = true → S.next s.src = none →
      Internal s { s with lock := .free }
  /-- line 108: a task -/
  | nTask {s t q} : s.lock = .notif → s.avail ≠ [] → s.alive = true → S.next s.src = some (t, q) →
      Internal s { s with lock := .notifTask t, src := q, dispatched := s.dispatched ++ [t] }
  /-- line 108 on a destroyed derived object -/
  | nDead {s} : s.lock = .notif → s.avail ≠ [] → s.alive = false → s.ub = false →
      Internal s { s with ub := true }
  /-- lines 109-118: pop the slot, start the worker.  The new thread may run before
  `m_active_workers++`, but nothing reads that member without the mutex. -/
  | nSpawn {s t k rest} : s.lock = .notifTask t → s.avail = k :: rest →
      Internal s { s with lock := .notif, avail := rest, active := s.active + 1,
                          workers := s.workers ++ [⟨k, .ready t⟩] }
  /-- `front()` of an empty list (line 109) -/
  | nNoFront {s t} : s.lock = .notifTask t → s.avail = [] → s.ub = false →
      Internal s { s with ub := true }
  /-- lines 140-142: a joiner finds active workers and waits (releasing the mutex atomically) -/
  | jWait {s} : 0 < s.jwant → s.lock = .free → s.active ≠ 0 →
      Internal s { s with jwant := s.jwant - 1, jwait := s.jwait + 1 }
  /-- lines 143-144: a joiner finds none and returns -/
  | jReturn {s} : 0 < s.jwant → s.lock = .free → s.active = 0 →
      Internal s { s with jwant := s.jwant - 1, jret := s.jret + 1 }

/-- One step of the system. -/
inductive Step : State σ τ → State σ τ → Prop
  | call {s s'} : Call S s s' → Step s s'
  | internal {s s'} : Internal S s s' → Step s s'

/-- States reachable from a fresh pool of `n` threads, whatever clients and scheduler do. -/
inductive Reach (n : Nat) (src : σ) : State σ τ → Prop
  | init : Reach n src (State.init n src)
  | step {s s'} : Reach n src s → Step S s s' → Reach n src s'

end

/-- `FifoWorkQueue`: `std::list` of tasks, `push_back` and `front/pop_front`
(ThreadPool.cc:166-182). -/
def fifo (τ : Type) : Source (List τ) τ where
  next q := match q with | [] => none | t :: q => some (t, q)
  add q t := q ++ [t]

/-- `std::map<int, Task>::operator[](index) = task` on the entries in key order: overwrite an equal
key, else insert in order. -/
def mapSet {α : Type} : List (Int × α) → Int × α → List (Int × α)
  | [], e => [e]
  | (k, v) :: m, e =>
    if e.1 < k then e :: (k, v) :: m
    else if e.1 = k then e :: m
    else (k, v) :: mapSet m e

/-- `OrderedWorkQueue` (ThreadPool.cc:187-224).  A task is a pair (index, task); the state is
`m_queued_tasks` in key order and `m_next_index`. -/
def ordered (α : Type) : Source (List (Int × α) × Int) (Int × α) where
  next q := match q with
    | ([], _) => none                               -- lines 209-210
    | (e :: m, nxt) =>
      if e.1 ≠ nxt then none                        -- lines 216-217
      else some (e, (m, nxt + 1))                   -- lines 220-223
  add q e := (mapSet q.1 e, q.2)                    -- line 200

end VW.Pool
