import Verif.Pool.Progress
/-!
Property theorems about the thread pool (C10–C14, C42).  `Reach S n q s` : state `s` can occur in a
pool of `n` threads, for some behaviour of the clients and some schedule.
-/
namespace VW.Pool
variable {σ τ : Type} {S : Source σ τ} {n : Nat} {q0 : σ}

/-! ### C10 -/

theorem filterMap_len_le {f : Worker τ → Option τ} {g : Worker τ → Option Nat}
    (h : ∀ w, (f w).isSome → (g w).isSome) (l : List (Worker τ)) :
    (l.filterMap f).length ≤ (l.filterMap g).length := by
  induction l with
  | nil => simp
  | cons w l ih =>
    have := h w
    rcases hf : f w with _ | x <;> rcases hg : g w with _ | y <;> simp_all [List.filterMap_cons]
    omega

/-- C10: never more than `n` tasks run at once, `active_threads()` is between 0 and `n`, slots are in
range, and two workers share a slot only if one of them has already signed off (it is about to release
the mutex and end). -/
theorem pool_concurrency_limit {s : State σ τ} (h : Reach S n q0 s) :
    s.running.length ≤ n ∧ 0 ≤ s.active ∧ s.active ≤ n ∧ (∀ w ∈ s.workers, w.slot < n) ∧
    s.workers.Pairwise (fun w w' => w.slot = w'.slot → w.phase = .completed ∨ w'.phase = .completed) := by
  have hslot : ∀ w ∈ s.workers, w.slot < n := by
    induction h with
    | init => simp [State.init]
    | step hr hs ih =>
      have hi := reach_inv hr
      rcases hs with hs | hs
      · cases hs <;> exact ih
      · cases hs
        case nSpawn h1 h2 =>
          have := hi.slots.subset (a := _) (by simp [h2]; left; rfl)
          simp at this
          intro w hw
          simp at hw
          rcases hw with hw | hw
          · exact ih w hw
          · simp [hw, this]
        all_goals
          clear hi hr
          simp_all [or_imp, forall_and]
  have hi := reach_inv h
  have hlen := hi.slots.length_eq
  simp at hlen
  have hact := hi.active
  refine ⟨?_, by omega, by omega, hslot, ?_⟩
  · have : s.running.length ≤ s.liveSlots.length := by
      refine filterMap_len_le ?_ _
      rintro ⟨k, p⟩
      cases p <;> simp
    omega
  · have hnd : s.liveSlots.Nodup := by
      have := hi.slots.nodup_iff.2 List.nodup_range
      rw [List.nodup_append, List.nodup_append] at this
      exact this.1.2.1
    rw [State.liveSlots, List.nodup_iff_pairwise_ne, List.pairwise_filterMap] at hnd
    refine hnd.imp ?_
    rintro ⟨k, p⟩ ⟨k', p'⟩ h hk
    simp only [liveSlot_mk] at h
    by_contra hc
    rw [not_or] at hc
    have e1 : p.counted = true := by cases p <;> simp_all
    have e2 : p'.counted = true := by cases p' <;> simp_all
    simp [e1, e2] at h
    exact h hk

/-! ### C11, C12: the FIFO queue -/

theorem fifo_exact {s : State (List τ) τ} (h : Reach (fifo τ) n [] s) :
    s.dispatched ++ s.src = s.added := by
  induction h with
  | init => rfl
  | step hr hs ih =>
    rcases hs with hs | hs
    · cases hs <;> simp_all [fifo]
      rw [← ih]; simp
    · cases hs
      case getSome hq =>
        simp only [fifo] at hq
        split at hq <;> simp_all
      case nTask hq =>
        simp only [fifo] at hq
        split at hq <;> simp_all
      all_goals exact ih

/-- C11: as long as `kill_and_join` has not been called, every task given to `add_task` is in exactly
one place (queued, assigned to a worker, running, just executed, finished), with multiplicity. -/
theorem fifo_tasks_accounted {s : State (List τ) τ} (h : Reach (fifo τ) n [] s) (hd : s.die = false) :
    s.added.Perm (s.src ++ s.assigned ++ s.running ++ s.ran ++ s.finished) := by
  have hi := reach_inv h
  have hl : s.lost = [] := by
    by_contra hc
    have := hi.lostDie hc
    simp_all
  have := hi.tasks
  simp [hl] at this
  rw [← fifo_exact h]
  refine ((this.append_right s.src).trans List.perm_append_comm).trans ?_
  simp

/-- C11: no task is entered more often than it was added, even with `kill_and_join`; and the tasks
entered are exactly those running, executed or finished. -/
theorem fifo_runs_once [DecidableEq τ] {s : State (List τ) τ} (h : Reach (fifo τ) n [] s) :
    (∀ t, s.begun.count t ≤ s.added.count t) ∧ s.begun.Perm (s.running ++ s.ran ++ s.finished) := by
  have hi := reach_inv h
  refine ⟨?_, hi.begun⟩
  intro t
  have h1 := hi.begun.count_eq t
  have h2 := hi.tasks.count_eq t
  rw [← fifo_exact h]
  simp at h1 h2 ⊢
  omega

/-- C12 (the order in which tasks are handed to workers): tasks leave the queue in the order in which
they were added, none skipped. -/
theorem fifo_dispatch_order {s : State (List τ) τ} (h : Reach (fifo τ) n [] s) :
    s.dispatched <+: s.added ∧ s.dispatched ++ s.src = s.added :=
  ⟨⟨_, fifo_exact h⟩, fifo_exact h⟩

theorem assigned_nil {l : List (Worker τ)} (h : l.filterMap Worker.liveSlot = []) :
    l.filterMap (·.phase.assignedTask) = [] := by
  rw [List.filterMap_eq_nil_iff] at h ⊢
  rintro ⟨k, p⟩ hw
  have := h _ hw
  cases p <;> simp at this ⊢

theorem alone (hn : n ≤ 1) {s : State σ τ} (hi : Inv n s) {a b : List (Worker τ)} {k : Nat} {p : Phase τ}
    (hw : s.workers = a ++ ⟨k, p⟩ :: b) (hp : p.counted = true) :
    a.filterMap (·.phase.assignedTask) = [] ∧ b.filterMap (·.phase.assignedTask) = [] ∧
    s.lock.task = [] ∧ s.lost = [] := by
  have hlen := hi.slots.length_eq
  simp [State.liveSlots, hw, hp] at hlen
  have h1 : s.avail = [] := List.eq_nil_of_length_eq_zero (by omega)
  refine ⟨assigned_nil (List.eq_nil_of_length_eq_zero (by omega)),
    assigned_nil (List.eq_nil_of_length_eq_zero (by omega)), ?_,
    List.eq_nil_of_length_eq_zero (by omega)⟩
  rcases h : s.lock with _ | _ | _ | t
  · rfl
  · rfl
  · rfl
  · exact absurd h1 (hi.front t h)

theorem vacant (hn : n ≤ 1) {s : State σ τ} (hi : Inv n s) (hv : s.avail ≠ []) :
    s.workers.filterMap (·.phase.assignedTask) = [] ∧ s.lost = [] := by
  have hlen := hi.slots.length_eq
  have := List.length_pos_iff.2 hv
  simp [State.liveSlots] at hlen
  exact ⟨assigned_nil (List.eq_nil_of_length_eq_zero (by omega)),
    List.eq_nil_of_length_eq_zero (by omega)⟩

theorem single_order (hn : n ≤ 1) {s : State σ τ} (h : Reach S n q0 s) :
    s.dispatched = s.begun ++ s.assigned ++ s.lost.map (·.2) := by
  induction h with
  | init => simp [State.init, State.assigned]
  | step hr hs ih =>
    have hi := reach_inv hr
    have key := @holder_lock _ _ _ hi.lock
    rcases hs with hs | hs
    · cases hs <;> exact ih
    · simp only [State.assigned] at ih ⊢
      cases hs
      case acquire hw hl =>
        simp only [hw, hl] at ih ⊢
        simpa [List.filterMap_cons] using ih
      case finish hw =>
        simp only [hw] at ih ⊢
        simpa [List.filterMap_cons] using ih
      case signal hw =>
        simp only [hw] at ih ⊢
        simpa [List.filterMap_cons] using ih
      case getNone hw _ _ =>
        simp only [hw] at ih ⊢
        simpa [List.filterMap_cons] using ih
      case complete hw =>
        simp only [hw] at ih ⊢
        simpa [List.filterMap_cons] using ih
      case again hw _ =>
        simp only [hw] at ih ⊢
        simpa [List.filterMap_cons] using ih
      case getDead => exact ih
      case nDead => exact ih
      case nNoFront => exact ih
      case jWait => exact ih
      case jReturn => exact ih
      case nAcquire h1 h2 => simpa [h2] using ih
      case nNoSlot h1 h2 => simpa [h1] using ih
      case nNoTask h1 h2 h3 h4 => simpa [h1] using ih
      case releaseTask hw =>
        have hl := key hw rfl
        simp only [hw, hl] at ih ⊢
        simpa [List.filterMap_cons] using ih
      case releaseEnd hw =>
        have hl := key hw rfl
        simp only [hw, hl] at ih ⊢
        simpa [List.filterMap_cons] using ih
      case begin hw =>
        obtain ⟨h1, h2, h3, h4⟩ := alone hn hi hw rfl
        simp [hw, List.filterMap_cons, h1, h2, h3, h4] at ih ⊢
        exact ih
      case quit hw _ =>
        obtain ⟨h1, h2, h3, h4⟩ := alone hn hi hw rfl
        simp [hw, List.filterMap_cons, h1, h2, h3, h4] at ih ⊢
        exact ih
      case getSome hw _ _ =>
        obtain ⟨h1, h2, h3, h4⟩ := alone hn hi hw rfl
        simp [hw, List.filterMap_cons, h1, h2, h3, h4] at ih ⊢
        rw [ih]
      case nTask h1 h2 _ _ =>
        obtain ⟨h3, h4⟩ := vacant hn hi h2
        simp [h1, h3, h4] at ih ⊢
        rw [ih]
      case nSpawn h1 h2 =>
        obtain ⟨h3, h4⟩ := vacant hn hi (by simp [h2])
        simp [h1, h3, h4] at ih ⊢
        exact ih

/-- C12, partial: with one thread, tasks are *entered* in the order in which they were added, none
skipped.  Missing: more than one thread, where it is false (`fifo_start_order_refuted`). -/
theorem fifo_start_order_partial {s : State (List τ) τ} (hn : n ≤ 1) (h : Reach (fifo τ) n [] s) :
    s.begun <+: s.added := by
  rw [← fifo_exact h, single_order hn h]
  simp

/-- C12 is false for the order in which tasks are *entered*: with two threads, the second task can be
entered while the first, though taken from the queue before it, is not. -/
theorem fifo_start_order_refuted :
    ∃ s : State (List Nat) Nat, Reach (fifo Nat) 2 [] s ∧ s.added = [1, 2] ∧ s.begun = [2] := by
  have r := Reach.init (S := fifo Nat) (n := 2) (src := [])
  have r := r.step (.call (.add 1 rfl))
  have r := r.step (.call (.add 2 rfl))
  have r := r.step (.internal (.nAcquire (by decide) rfl))
  have r := r.step (.internal (.nTask (t := 1) (q := [2]) rfl (by decide) rfl rfl))
  have r := r.step (.internal (.nSpawn (t := 1) (k := 0) (rest := [1]) rfl rfl))
  have r := r.step (.internal (.nTask (t := 2) (q := []) rfl (by decide) rfl rfl))
  have r := r.step (.internal (.nSpawn (t := 2) (k := 1) (rest := []) rfl rfl))
  have r := r.step (.internal (.begin (a := [⟨0, .ready 1⟩]) (b := []) (k := 1) (t := 2) rfl))
  exact ⟨_, r, rfl, rfl⟩

/-! ### C13: join_all -/

/-- the step `s → s'` is the return of a `join_all()` call -/
def JoinReturns (s s' : State σ τ) : Prop := s'.jret = s.jret + 1

theorem join_return_state {s s' : State σ τ} (hs : Step S s s') (hj : JoinReturns s s') :
    s.lock = .free ∧ s.active = 0 := by
  unfold JoinReturns at hj
  rcases hs with hs | hs
  · cases hs <;> simp at hj
  · cases hs <;> simp at hj
    exact ⟨‹_›, ‹_›⟩

theorem rest_tasks {s : State σ τ} (hi : Inv n s) (hl : s.lock = .free) (ha : s.active = 0) :
    s.workers = [] ∧ s.lost = [] := by
  have h2 := hi.active
  have h3 : s.lost = [] := List.eq_nil_of_length_eq_zero (by omega)
  have h4 : s.liveSlots = [] := List.eq_nil_of_length_eq_zero (by omega)
  refine ⟨?_, h3⟩
  by_contra hc
  obtain ⟨⟨k, p⟩, hw⟩ := List.exists_mem_of_ne_nil _ hc
  rw [State.liveSlots, List.filterMap_eq_nil_iff] at h4
  have h5 := h4 _ hw
  have h6 : s.holders = 0 := by rw [hi.lock, hl]; rfl
  simp only [State.holders, List.countP_eq_zero] at h6
  have h7 := h6 _ hw
  cases p <;> simp at h5 h7

/-- C13 (safety, any source, even with `kill_and_join`): when `join_all()` returns, no worker exists:
nothing is running, assigned or being finished, and everything taken from the queue has finished. -/
theorem join_returns_idle {s s' : State σ τ} (h : Reach S n q0 s) (hs : Step S s s')
    (hj : JoinReturns s s') :
    s.active = 0 ∧ s.workers = [] ∧ s.assigned = [] ∧ s.dispatched.Perm s.finished := by
  have hi := reach_inv h
  obtain ⟨hl, ha⟩ := join_return_state hs hj
  obtain ⟨hw, hlost⟩ := rest_tasks hi hl ha
  refine ⟨ha, hw, by simp [State.assigned, hl, hw], ?_⟩
  have := hi.tasks
  simpa [State.assigned, State.running, State.ran, hl, hw, hlost] using this

/-- C13: when `join_all()` returns, no `add_task` is in progress and there has been no
`kill_and_join`, every task ever added has finished. -/
theorem join_returns_all_finished {s s' : State (List τ) τ} (hn : 1 ≤ n) (h : Reach (fifo τ) n [] s)
    (hd : s.die = false) (hp : s.pend = 0) (hs : Step (fifo τ) s s') (hj : JoinReturns s s') :
    s.added.Perm s.finished ∧ s.src = [] ∧ s.active = 0 := by
  obtain ⟨ha, hw, -, hdf⟩ := join_returns_idle h hs hj
  obtain ⟨hl, -⟩ := join_return_state hs hj
  have hf := reach_fetch hn rfl h hd
  have hq : s.src = [] := by
    by_contra hc
    obtain ⟨t, q, hq⟩ := List.exists_cons_of_ne_nil hc
    rcases hf (by simp [fifo, hq]) with h1 | h1 | h1
    · omega
    · simp [hl] at h1
    · simp [State.fetchers, hw] at h1
  refine ⟨?_, hq, ha⟩
  have := fifo_exact h
  rw [hq, List.append_nil] at this
  rw [← this]
  exact hdf

/-- C13: `join_all()` does not return while a task is being executed (even during
`kill_and_join`). -/
theorem join_blocks_while_running {s s' : State σ τ} (h : Reach S n q0 s) (hr : s.running ≠ [])
    (hs : Step S s s') : ¬ JoinReturns s s' := by
  intro hj
  obtain ⟨-, hw, -, -⟩ := join_returns_idle h hs hj
  exact hr (by simp [State.running, hw])

/-- C13: `join_all()` does not return while a task is queued and no `add_task` is in progress. -/
theorem join_blocks_while_queued {s s' : State (List τ) τ} (hn : 1 ≤ n) (h : Reach (fifo τ) n [] s)
    (hd : s.die = false) (hp : s.pend = 0) (hq : s.src ≠ []) (hs : Step (fifo τ) s s') :
    ¬ JoinReturns s s' := fun hj => hq (join_returns_all_finished hn h hd hp hs hj).2.1

/-- The pool is at rest: no task anywhere but finished, nobody waiting in `join_all`. -/
def AtRest (s : State (List τ) τ) : Prop :=
  s.src = [] ∧ s.workers = [] ∧ s.active = 0 ∧ s.jwant = 0 ∧ s.jwait = 0 ∧ s.added.Perm s.finished

/-- C13 (liveness): if no further calls are made, then — whatever the schedule — after finitely many
steps all added tasks have finished and every `join_all()` has returned (tasks themselves are assumed
to terminate). -/
theorem join_all_terminates {s : State (List τ) τ} (hn : 1 ≤ n) (h : Reach (fifo τ) n [] s)
    (hd : s.die = false) (ha : s.alive = true) : Inevitable (Internal (fifo τ)) AtRest s := by
  refine inevitable (n := n) (S := fifo τ) (size := List.length)
    (G := fun s => Reach (fifo τ) n [] s ∧ s.die = false ∧ s.alive = true) ?_ ?_ ?_ ?_ s ⟨h, hd, ha⟩
  · intro q t q' hq
    simp only [fifo] at hq
    split at hq <;> simp at hq
    simp [hq.2]
  · exact fun s hg => ⟨reach_inv hg.1, hg.2.2⟩
  · intro s s' hg hs
    obtain ⟨h1, h2, -⟩ := internal_const hs
    exact ⟨hg.1.step (.internal hs), h1 ▸ hg.2.1, h2 ▸ hg.2.2⟩
  · rintro s ⟨hr, hd, ha⟩ hs
    have hi := reach_inv hr
    have hl : s.lost = [] := by
      by_contra hc
      have := hi.lostDie hc
      simp_all
    obtain ⟨h1, h2, h3, h4, h5, h6⟩ := stuck (S := fifo τ) hi ha hl hs
    have hq : s.src = [] := by
      by_contra hc
      obtain ⟨t, q, hq⟩ := List.exists_cons_of_ne_nil hc
      rcases reach_fetch hn rfl hr hd (by simp [fifo, hq]) with h | h | h
      · omega
      · simp [h2] at h
      · simp [State.fetchers, h1] at h
    refine ⟨hq, h1, h4, h5, h6, ?_⟩
    have := fifo_tasks_accounted hr hd
    simpa [hq, State.assigned, State.running, State.ran, h1, h2] using this

/-! ### C14: kill_and_join -/

theorem lost_mono {s s' : State σ τ} (hs : Step S s s') (hl : s.lost ≠ []) : s'.lost ≠ [] := by
  rcases hs with hs | hs <;> cases hs <;> simp_all

/-- Once a worker has left because of the kill flag, no `join_all()` (hence no `kill_and_join()` and no
destructor) ever returns again, whatever anybody does. -/
theorem no_join_after_quit {s s' : State σ τ} (h : Reach S n q0 s) (hl : s.lost ≠ [])
    (hs : Steps (Step S) s s') : s'.jret = s.jret := by
  have : Reach S n q0 s' ∧ s'.lost ≠ [] ∧ s'.jret = s.jret := by
    induction hs with
    | refl => exact ⟨h, hl, rfl⟩
    | tail _ h2 ih =>
      obtain ⟨hr, hl', hj⟩ := ih
      refine ⟨hr.step h2, lost_mono h2 hl', ?_⟩
      rw [← hj]
      have hi := reach_inv hr
      have h0 := List.length_pos_iff.2 hl'
      have := hi.active
      rcases h2 with h2 | h2 <;> cases h2 <;> first | rfl | omega
  exact this.2.2

/-- witness states for `kill_and_join_hangs` -/
def killS0 : State (List Nat) Nat :=
  { src := [2], avail := [], active := 1, lock := .free, die := false, alive := true,
    workers := [⟨0, .running 1⟩], pend := 0, jwant := 0, jwait := 0, jret := 0, added := [1, 2],
    dispatched := [1], begun := [1], finished := [], lost := [], ub := false }
def killS1 : State (List Nat) Nat := { killS0 with die := true, jwant := 1 }
def killS2 : State (List Nat) Nat :=
  { src := [], avail := [], active := 1, lock := .free, die := true, alive := true,
    workers := [], pend := 0, jwant := 0, jwait := 1, jret := 0, added := [1, 2],
    dispatched := [1, 2], begun := [1], finished := [1], lost := [(0, 2)], ub := false }

theorem reach_killS0 : Reach (fifo Nat) 1 [] killS0 := by
  have r := Reach.init (S := fifo Nat) (n := 1) (src := [])
  have r := r.step (.call (.add 1 rfl))
  have r := r.step (.call (.add 2 rfl))
  have r := r.step (.internal (.nAcquire (by decide) rfl))
  have r := r.step (.internal (.nTask (t := 1) (q := [2]) rfl (by decide) rfl rfl))
  have r := r.step (.internal (.nSpawn (t := 1) (k := 0) (rest := []) rfl rfl))
  have r := r.step (.internal (.nNoSlot rfl rfl))
  have r := r.step (.internal (.begin (a := []) (b := []) (k := 0) (t := 1) rfl))
  have r := r.step (.internal (.nAcquire (by decide) rfl))
  have r := r.step (.internal (.nNoSlot rfl rfl))
  exact r

theorem steps_killS2 : Steps (Internal (fifo Nat)) killS1 killS2 := by
  have t := Steps.refl (R := Internal (fifo Nat)) (s := killS1)
  have t := t.tail (.finish (a := []) (b := []) (k := 0) (t := 1) rfl)
  have t := t.tail (.signal (a := []) (b := []) (k := 0) (t := 1) rfl)
  have t := t.tail (.acquire (a := []) (b := []) (k := 0) rfl rfl)
  have t := t.tail (.getSome (a := []) (b := []) (k := 0) (t := 2) (q := []) rfl rfl rfl)
  have t := t.tail (.releaseTask (a := []) (b := []) (k := 0) (t := 2) rfl)
  have t := t.tail (.quit (a := []) (b := []) (k := 0) (t := 2) rfl rfl)
  have t := t.tail (.jWait (by decide) rfl (by decide))
  exact t

theorem Steps.reach {s s' : State σ τ} (h : Steps (Internal S) s s') (hr : Reach S n q0 s) :
    Reach S n q0 s' := by
  induction h with
  | refl => exact hr
  | tail _ h ih => exact ih.step (.internal h)

/-- C14 is false: one thread, two tasks.  `kill_and_join()` is called (state `s₀ → s₁`) while the first
task runs and the second is queued.  A schedule leads to `s₂` where the first task has finished, no
thread of the pool exists and nothing can move, yet `kill_and_join()` has not returned — and it never
will (`no_join_after_quit`).  The second task has been dropped. -/
theorem kill_and_join_hangs : ∃ s₀ s₁ s₂ : State (List Nat) Nat,
    Reach (fifo Nat) 1 [] s₀ ∧ s₀.running = [1] ∧ s₀.src = [2] ∧ s₀.die = false ∧
    Call (fifo Nat) s₀ s₁ ∧ s₁.die = true ∧ Steps (Internal (fifo Nat)) s₁ s₂ ∧
    s₂.finished = [1] ∧ s₂.workers = [] ∧ s₂.src = [] ∧ s₂.jwait = 1 ∧ s₂.jret = 0 ∧
    (∀ s', ¬ Internal (fifo Nat) s₂ s') ∧
    (∀ s', Steps (Step (fifo Nat)) s₂ s' → s'.jret = 0) := by
  have hc : Call (fifo Nat) killS0 killS1 := .kill
  have hr2 : Reach (fifo Nat) 1 [] killS2 := steps_killS2.reach (reach_killS0.step (.call hc))
  refine ⟨killS0, killS1, killS2, reach_killS0, rfl, rfl, rfl, hc, rfl, steps_killS2, rfl, rfl, rfl,
    rfl, rfl, ?_, fun s' h => no_join_after_quit hr2 (by simp [killS2]) h⟩
  intro s' h
  cases h <;> simp_all [killS2]

/-- C14, partial: if at the time `kill_and_join()` sets the flag no task is queued and no worker is
between taking a task and starting it, then — if no further calls are made — every schedule ends with
`kill_and_join()` (and every other `join_all()`) returned, every begun task finished and no task
dropped.  Missing: a non-empty queue, where it is false (`kill_and_join_hangs`). -/
theorem kill_and_join_terminates_partial {s : State (List τ) τ} (h : Reach (fifo τ) n [] s)
    (ha : s.alive = true) (hl : s.lost = []) (hq : s.src = [])
    (hw : ∀ w ∈ s.workers, ∀ t, w.phase ≠ .gotTask t ∧ w.phase ≠ .check t) :
    Inevitable (Internal (fifo τ)) AtRest s := by
  refine inevitable (n := n) (S := fifo τ) (size := List.length)
    (G := fun s => Reach (fifo τ) n [] s ∧ s.alive = true ∧ s.lost = [] ∧ s.src = [] ∧
      ∀ w ∈ s.workers, ∀ t, w.phase ≠ .gotTask t ∧ w.phase ≠ .check t) ?_ ?_ ?_ ?_ s ⟨h, ha, hl, hq, hw⟩
  · intro q t q' hq
    simp only [fifo] at hq
    split at hq <;> simp at hq
    simp [hq.2]
  · exact fun s hg => ⟨reach_inv hg.1, hg.2.1⟩
  · rintro s s' ⟨g1, g2, g3, g4, g5⟩ hs
    refine ⟨g1.step (.internal hs), ?_⟩
    cases hs <;> simp_all [fifo, or_imp, forall_and]
  · rintro s ⟨hr, ha, hl, hq, -⟩ hs
    have hi := reach_inv hr
    obtain ⟨h1, h2, h3, h4, h5, h6⟩ := stuck (S := fifo τ) hi ha hl hs
    refine ⟨hq, h1, h4, h5, h6, ?_⟩
    have ht := hi.tasks
    have hx := fifo_exact hr
    simp [State.assigned, State.running, State.ran, h1, h2, hl] at ht
    rw [hq, List.append_nil] at hx
    rw [← hx]
    exact ht

/-! ### C42: destruction -/

/-- C42 is false: destroying a pool whose worker is still running makes the worker use the destroyed
queue (the derived class' members are gone before `~WorkQueue` waits). -/
theorem destructor_race : ∃ s : State (List Nat) Nat, Reach (fifo Nat) 1 [] s ∧ s.ub = true ∧
    s.added = [1, 2] ∧ s.die = false := by
  have r := reach_killS0.step (.call .destroy)
  have r := r.step (.internal (.finish (a := []) (b := []) (k := 0) (t := 1) rfl))
  have r := r.step (.internal (.signal (a := []) (b := []) (k := 0) (t := 1) rfl))
  have r := r.step (.internal (.acquire (a := []) (b := []) (k := 0) rfl rfl))
  have r := r.step (.internal (.getDead (a := []) (b := []) (k := 0) rfl rfl rfl))
  exact ⟨_, r, rfl, rfl, rfl⟩

/-- No undefined behaviour while the pool object is alive (in particular `front()` is never called on
an empty list of slots). -/
theorem pool_no_ub_alive {s : State σ τ} (h : Reach S n q0 s) (ha : s.alive = true) : s.ub = false := by
  cases hu : s.ub
  · rfl
  · have := (reach_inv h).ub hu
    simp_all

/-- C42, partial: if the pool is destroyed when a `join_all()` has found it idle and no other call is
in progress, then nothing ever touches the destroyed queue and the destructor's `join_all()` returns in
every schedule.  Missing: destruction while workers or `add_task` calls are active
(`destructor_race`). -/
theorem destructor_after_join_partial {s s' : State σ τ} (h : Reach S n q0 s) (ha : s.alive = true)
    (hl : s.lock = .free) (hz : s.active = 0) (hp : s.pend = 0)
    (hd : s' = { s with alive := false, jwant := s.jwant + 1 }) :
    (∀ s'', Steps (Internal S) s' s'' → s''.ub = false) ∧
    Inevitable (Internal S) (fun s'' => s''.jwant = 0 ∧ s''.jwait = 0 ∧ s''.ub = false) s' := by
  have hi := reach_inv h
  obtain ⟨hw, -⟩ := rest_tasks hi hl hz
  have hub := pool_no_ub_alive h ha
  have hjw : s.jwait = 0 := by
    by_contra hc
    exact hi.joiner (by omega) hz
  let G : State σ τ → Prop := fun s =>
    s.lock = .free ∧ s.active = 0 ∧ s.pend = 0 ∧ s.workers = [] ∧ s.ub = false ∧ s.jwait = 0
  have hG : G s' := by subst hd; exact ⟨hl, hz, hp, hw, hub, hjw⟩
  have hstep : ∀ s s' : State σ τ, G s → Internal S s s' → G s' ∧ s'.jwant < s.jwant := by
    rintro s s' ⟨g1, g2, g3, g4, g5, g6⟩ hs
    cases hs <;> simp_all [G]
    omega
  constructor
  · intro s'' hs
    have : G s'' := by
      induction hs with
      | refl => exact hG
      | tail _ h ih => exact (hstep _ _ ih h).1
    exact this.2.2.2.2.1
  · clear hd
    induction hj : s'.jwant using Nat.strongRecOn generalizing s' with
    | _ j ih =>
      obtain ⟨g1, g2, g3, g4, g5, g6⟩ := id hG
      by_cases h0 : s'.jwant = 0
      · exact .now ⟨h0, g6, g5⟩
      · refine .later ⟨_, .jReturn (by omega) g1 g2⟩ ?_
        intro s'' hs
        obtain ⟨h1, h2⟩ := hstep _ _ hG hs
        exact ih _ (hj ▸ h2) h1 rfl

/-! ### Non-vacuity -/

/-- `killS0` (one task running, one queued, one thread) meets the hypotheses of the C10–C13 theorems. -/
example : Reach (fifo Nat) 1 [] killS0 ∧ killS0.die = false ∧ killS0.alive = true ∧ killS0.pend = 0 ∧
    killS0.running ≠ [] ∧ killS0.src ≠ [] :=
  ⟨reach_killS0, rfl, rfl, rfl, by simp [killS0, State.running], by simp [killS0]⟩

/-- A `join_all()` that returns after a task has been run. -/
example : ∃ s s' : State (List Nat) Nat, Reach (fifo Nat) 1 [] s ∧ Internal (fifo Nat) s s' ∧
    JoinReturns s s' ∧ s.die = false ∧ s.pend = 0 ∧ s.finished = [7] ∧ s.alive = true ∧
    s.lock = .free ∧ s.active = 0 := by
  have r := Reach.init (S := fifo Nat) (n := 1) (src := [])
  have r := r.step (.call (.add 7 rfl))
  have r := r.step (.call .join)
  have r := r.step (.internal (.nAcquire (by decide) rfl))
  have r := r.step (.internal (.nTask (t := 7) (q := []) rfl (by decide) rfl rfl))
  have r := r.step (.internal (.nSpawn (t := 7) (k := 0) (rest := []) rfl rfl))
  have r := r.step (.internal (.nNoSlot rfl rfl))
  have r := r.step (.internal (.jWait (by decide) rfl (by decide)))
  have r := r.step (.internal (.begin (a := []) (b := []) (k := 0) (t := 7) rfl))
  have r := r.step (.internal (.finish (a := []) (b := []) (k := 0) (t := 7) rfl))
  have r := r.step (.internal (.signal (a := []) (b := []) (k := 0) (t := 7) rfl))
  have r := r.step (.internal (.acquire (a := []) (b := []) (k := 0) rfl rfl))
  have r := r.step (.internal (.getNone (a := []) (b := []) (k := 0) rfl rfl rfl))
  have r := r.step (.internal (.complete (a := []) (b := []) (k := 0) rfl))
  have r := r.step (.internal (.releaseEnd (a := []) (b := []) (k := 0) rfl))
  exact ⟨_, _, r, .jReturn (by decide) rfl rfl, rfl, rfl, rfl, rfl, rfl, rfl, rfl⟩

/-- `kill_and_join()` during the last task meets the hypotheses of the C14 partial theorem. -/
example : ∃ s : State (List Nat) Nat, Reach (fifo Nat) 1 [] s ∧ s.die = true ∧ s.alive = true ∧
    s.lost = [] ∧ s.src = [] ∧ s.running = [7] ∧
    (∀ w ∈ s.workers, ∀ t, w.phase ≠ .gotTask t ∧ w.phase ≠ .check t) := by
  have r := Reach.init (S := fifo Nat) (n := 1) (src := [])
  have r := r.step (.call (.add 7 rfl))
  have r := r.step (.internal (.nAcquire (by decide) rfl))
  have r := r.step (.internal (.nTask (t := 7) (q := []) rfl (by decide) rfl rfl))
  have r := r.step (.internal (.nSpawn (t := 7) (k := 0) (rest := []) rfl rfl))
  have r := r.step (.internal (.begin (a := []) (b := []) (k := 0) (t := 7) rfl))
  have r := r.step (.call .kill)
  refine ⟨_, r, rfl, rfl, rfl, rfl, rfl, ?_⟩
  intro w hw t
  simp [State.init] at hw
  subst hw
  simp

end VW.Pool
