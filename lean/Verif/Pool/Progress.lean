import Verif.Pool.Lemmas
/-! Helper lemmas: nothing is stranded, and internal runs end. -/
namespace VW.Pool
variable {σ τ : Type} {S : Source σ τ} {n : Nat} {q0 : σ}

def State.fetchers (s : State σ τ) : Nat := s.workers.countP (·.phase.willFetch)

@[simp] theorem inNotify_free : (Lock.free : Lock τ).inNotify = false := rfl
@[simp] theorem inNotify_worker : (Lock.worker : Lock τ).inNotify = false := rfl
@[simp] theorem inNotify_notif : (Lock.notif : Lock τ).inNotify = true := rfl
@[simp] theorem inNotify_notifTask {t : τ} : (Lock.notifTask t : Lock τ).inNotify = true := rfl

/-- An available task is never forgotten while the pool is alive and not being killed. -/
def Fetch (S : Source σ τ) (s : State σ τ) : Prop :=
  s.die = false → S.next s.src ≠ none → 0 < s.pend ∨ s.lock.inNotify = true ∨ 0 < s.fetchers

theorem exists_fetcher {s : State σ τ} (h : Inv n s) (hl : s.lock ≠ .worker) (hn : s.liveSlots ≠ []) :
    0 < s.fetchers := by
  have h0 : s.holders = 0 := by
    rw [h.lock]; cases hh : s.lock <;> simp_all
  simp only [State.holders, List.countP_eq_zero] at h0
  obtain ⟨x, hx⟩ := List.exists_mem_of_ne_nil _ hn
  simp only [State.liveSlots, List.mem_filterMap] at hx
  obtain ⟨w, hw, hx⟩ := hx
  simp only [State.fetchers, List.countP_pos_iff]
  refine ⟨w, hw, ?_⟩
  have := h0 w hw
  obtain ⟨k, p⟩ := w
  cases p <;> simp_all

theorem fetch_step (hn : 1 ≤ n) {s s' : State σ τ} (hi : Inv n s) (h : Fetch S s) (hs : Step S s s') :
    Fetch S s' := by
  have key := exists_fetcher hi
  rcases hs with hs | hs
  · cases hs <;> intro hd hq <;> have := h <;> simp_all [Fetch, State.fetchers] <;> tauto
  · cases hs
    case nNoSlot h1 h2 =>
      intro hd hq
      have hl : s.lost = [] := by
        by_contra hc
        have := hi.lostDie hc
        simp_all
      have hp := hi.slots.length_eq
      simp [h2, hl] at hp
      right; right
      exact key (by simp [h1]) (by intro hc; rw [hc] at hp; simp at hp; omega)
    case releaseEnd hw =>
      intro hd hq
      have hk := holder_lock hi.lock hw rfl
      have h' := h
      simp_all [Fetch, State.fetchers, List.countP_cons, -List.countP_pos_iff]
    all_goals
      intro hd hq
      have h' := h
      clear key h
      simp_all [Fetch, State.fetchers, List.countP_cons, -List.countP_pos_iff]
    all_goals omega

theorem reach_fetch (hn : 1 ≤ n) (hq0 : S.next q0 = none) {s : State σ τ} (h : Reach S n q0 s) : Fetch S s := by
  induction h with
  | init => intro _ _; simp_all [State.init]
  | step hr hs ih => exact fetch_step hn (reach_inv hr) ih hs

/-- While the queue mutex is taken, the holder can move. -/
theorem holder_moves {s : State σ τ} (hi : Inv n s) (ha : s.alive = true) (hl : s.lock ≠ .free) :
    ∃ s', Internal S s s' := by
  cases h : s.lock with
  | free => exact absurd h hl
  | notif =>
    rcases hv : s.avail with _ | ⟨k, r⟩
    · exact ⟨_, .nNoSlot h hv⟩
    · rcases hq : S.next s.src with _ | ⟨t, q⟩
      · exact ⟨_, .nNoTask h (by simp [hv]) ha hq⟩
      · exact ⟨_, .nTask h (by simp [hv]) ha hq⟩
  | notifTask t =>
    rcases hv : s.avail with _ | ⟨k, r⟩
    · exact absurd hv (hi.front t h)
    · exact ⟨_, .nSpawn h hv⟩
  | worker =>
    have : 0 < s.holders := by rw [hi.lock, h]; simp
    simp only [State.holders, List.countP_pos_iff] at this
    obtain ⟨⟨k, p⟩, hw, hp⟩ := this
    obtain ⟨a, b, hab⟩ := List.append_of_mem hw
    cases p <;> simp at hp
    case crit =>
      rcases hq : S.next s.src with _ | ⟨t, q⟩
      · exact ⟨_, .getNone hab ha hq⟩
      · exact ⟨_, .getSome hab ha hq⟩
    case gotTask t => exact ⟨_, .releaseTask hab⟩
    case gotNone => exact ⟨_, .complete hab⟩
    case completed => exact ⟨_, .releaseEnd hab⟩

/-- While there is a worker, something can move. -/
theorem worker_moves {s : State σ τ} (hi : Inv n s) (ha : s.alive = true) (hl : s.workers ≠ []) :
    ∃ s', Internal S s s' := by
  by_cases hf : s.lock = .free
  · obtain ⟨⟨k, p⟩, hw⟩ := List.exists_mem_of_ne_nil _ hl
    obtain ⟨a, b, hab⟩ := List.append_of_mem hw
    have key := @holder_lock _ _ s hi.lock a b k p hab
    cases p <;> simp [hf] at key
    case ready t => exact ⟨_, .begin hab⟩
    case running t => exact ⟨_, .finish hab⟩
    case ran t => exact ⟨_, .signal hab⟩
    case want => exact ⟨_, .acquire hab hf⟩
    case check t =>
      cases hd : s.die
      · exact ⟨_, .again hab hd⟩
      · exact ⟨_, .quit hab hd⟩
  · exact holder_moves hi ha hf

/-- A pool in which nothing can move, and in which no worker has been lost, is at rest. -/
theorem stuck {s : State σ τ} (hi : Inv n s) (ha : s.alive = true) (hl : s.lost = [])
    (hs : ∀ s', ¬ Internal S s s') :
    s.workers = [] ∧ s.lock = .free ∧ s.pend = 0 ∧ s.active = 0 ∧ s.jwant = 0 ∧ s.jwait = 0 := by
  have h1 : s.workers = [] := by
    by_contra hc
    obtain ⟨s', h⟩ := worker_moves (S := S) hi ha hc
    exact hs _ h
  have h2 : s.lock = .free := by
    by_contra hc
    obtain ⟨s', h⟩ := holder_moves (S := S) hi ha hc
    exact hs _ h
  have h3 : s.pend = 0 := by
    by_contra hc
    exact hs _ (.nAcquire (by omega) h2)
  have h4 : s.active = 0 := by
    rw [hi.active, hl]; simp [State.liveSlots, h1]
  have h5 : s.jwant = 0 := by
    by_contra hc
    exact hs _ (.jReturn (by omega) h2 h4)
  refine ⟨h1, h2, h3, h4, h5, ?_⟩
  by_contra hc
  exact hi.joiner (by omega) h4

/-! ### Termination measure -/

def Phase.weight : Phase τ → Nat
  | .ready _ => 8
  | .running _ => 7
  | .ran _ => 6
  | .want => 5
  | .crit => 4
  | .gotTask _ => 10
  | .gotNone => 3
  | .completed => 1
  | .check _ => 9

def Lock.weight : Lock τ → Nat
  | .notif => 1
  | .notifTask _ => 10
  | _ => 0

def weight (size : σ → Nat) (s : State σ τ) : Nat :=
  20 * size s.src + (s.workers.map (·.phase.weight)).sum + 2 * s.pend + s.lock.weight

theorem weight_step {size : σ → Nat} (hsz : ∀ q t q', S.next q = some (t, q') → size q' < size q)
    {s s' : State σ τ} (hi : Inv n s) (ha : s.alive = true) (hs : Internal S s s') :
    weight size s' < weight size s ∨ (weight size s' = weight size s ∧ s'.jwant < s.jwant) := by
  cases hs
  case getSome _ hq =>
    have := hsz _ _ _ hq
    clear hsz
    left; simp_all [weight, Phase.weight]; omega
  case nTask hq =>
    have := hsz _ _ _ hq
    clear hsz
    left; simp_all [weight, Lock.weight]; omega
  case releaseTask hw =>
    have := holder_lock hi.lock hw rfl
    left; simp_all [weight, Lock.weight, Phase.weight]
  case releaseEnd hw =>
    have := holder_lock hi.lock hw rfl
    left; simp_all [weight, Lock.weight, Phase.weight]
  case getDead => simp_all
  case nDead => simp_all
  case nNoFront => exact absurd ‹_› (hi.front _ ‹_›)
  case jWait => right; simp_all [weight]; omega
  case jReturn => right; simp_all [weight]; omega
  all_goals left; simp_all [weight, Lock.weight, Phase.weight] <;> omega

/-- Runs of internal steps end: if `G` implies the pool's invariant, is kept by internal steps, and
makes stuck states satisfy `P`, then `P` is inevitable. -/
theorem inevitable {size : σ → Nat} (hsz : ∀ q t q', S.next q = some (t, q') → size q' < size q)
    {G P : State σ τ → Prop} (hG : ∀ s, G s → Inv n s ∧ s.alive = true)
    (hstep : ∀ s s', G s → Internal S s s' → G s')
    (hstuck : ∀ s, G s → (∀ s', ¬ Internal S s s') → P s) :
    ∀ s, G s → Inevitable (Internal S) P s := by
  have main : ∀ (w j : Nat) (s : State σ τ), weight size s = w → s.jwant = j → G s →
      Inevitable (Internal S) P s := by
    intro w
    induction w using Nat.strongRecOn with
    | _ w ihw =>
      intro j
      induction j using Nat.strongRecOn with
      | _ j ihj =>
        intro s hw hj hg
        by_cases hm : ∃ s', Internal S s s'
        · refine .later hm ?_
          intro s' hs
          obtain ⟨hi, ha⟩ := hG s hg
          rcases weight_step hsz hi ha hs with h | ⟨h, h'⟩
          · exact ihw _ (hw ▸ h) _ s' rfl rfl (hstep _ _ hg hs)
          · exact ihj _ (hj ▸ h') s' (h.trans hw) rfl (hstep _ _ hg hs)
        · exact .now (hstuck s hg (by simpa using hm))
  exact fun s => main _ _ s rfl rfl

/-- Quantities internal steps do not change. -/
theorem internal_const {s s' : State σ τ} (h : Internal S s s') :
    s'.die = s.die ∧ s'.alive = s.alive ∧ s'.added = s.added := by
  cases h <;> exact ⟨rfl, rfl, rfl⟩

end VW.Pool
