import Verif.Core.Settings
/-
Property C54: where the values of settings come from.
-/
namespace VW.Settings
open VW.Log (Str accepted lower Rules)

section
variable (num : Key → Str → Option Nat) (int : Str → Option Int) (env : Env)

/-! ### What a nested `reload_config` does -/

/-- Only the time of the poll is noted. -/
def poll (s : St) : St :=
  if ((env.now - s.lastPoll : Int) : Rat) > s.period then { s with lastPoll := env.now, polls := env.now :: s.polls } else s

def pollO (s : St) : Out := (poll env s, none)

/-- The file is not newer than the one that was read last. -/
def Stale (s : St) : Prop := ∀ f, env.files s.rc = some f → f.mtime ≤ s.lastMod

theorem poll_fields (s : St) : (poll env s).val = s.val ∧ (poll env s).fixed = s.fixed ∧ (poll env s).rc = s.rc ∧
    (poll env s).lastMod = s.lastMod ∧ (poll env s).period = s.period ∧ (poll env s).cacheMax = s.cacheMax ∧
    (poll env s).resized = s.resized ∧ (poll env s).console = s.console ∧ (poll env s).logs = s.logs := by
  unfold poll; split <;> simp

theorem reloadTo_stale (n : Nat) (s : St) (h : Stale env s) : reloadTo num int env (n + 1) s = pollO env s := by
  unfold reloadTo pollO poll
  by_cases hd : ((env.now - s.lastPoll : Int) : Rat) > s.period
  · rw [if_pos hd, if_pos hd]
    dsimp only
    cases hf : env.files s.rc with
    | none => rfl
    | some f =>
      dsimp only
      have := h f hf
      rw [if_neg (by omega)]
  · rw [if_neg hd, if_neg hd]

/-- A setter in which the nested reload only polls. -/
theorem setWith_poll (s : St) (k : Key) (v : Val) : setWith (pollO env) s k v =
    (if k = .cache then { poll env (assign s k v) with cacheMax := v, resized := true } else assign s k v, none) := by
  unfold setWith
  by_cases hk : k = .cache
  · rw [if_pos hk, if_pos hk]
    subst hk
    unfold systemCache pollO andThen resizeOnce
    dsimp only
    have hp := poll_fields env (assign s .cache v)
    have hfix : (poll env (assign s .cache v)).fixed .cache = true := by rw [hp.2.1]; simp [assign]
    by_cases hr : (poll env (assign s .cache v)).resized
    · rw [if_pos hr]
      dsimp only
      rw [← hr]
    · rw [if_neg hr]
      by_cases h0 : (poll env (assign s .cache v)).cacheMax = .num 0
      · rw [if_pos h0, if_pos hfix]
        rfl
      · rw [if_neg h0]
  · rw [if_neg hk, if_neg hk]

theorem stale_assign {s : St} (k : Key) (v : Val) (h : Stale env s) : Stale env (assign s k v) := h

theorem setWith_reload (n : Nat) (s : St) (k : Key) (v : Val) (h : Stale env s) :
    setWith (reloadTo num int env (n + 1)) s k v = setWith (pollO env) s k v := by
  unfold setWith
  by_cases hk : k = .cache
  · rw [if_pos hk, if_pos hk]
    have ha := stale_assign env k v h
    unfold systemCache
    rw [reloadTo_stale num int env n _ ha]
    congr 1
    unfold andThen pollO
    dsimp only
    have hp := poll_fields env (assign s k v)
    have hs : Stale env (poll env (assign s k v)) := by
      unfold Stale; rw [hp.2.2.1, hp.2.2.2.1]; exact ha
    unfold resizeOnce
    rw [reloadTo_stale num int env n _ hs]
    rfl
  · rw [if_neg hk, if_neg hk]

theorem stale_set {s : St} (k : Key) (v : Val) (h : Stale env s) : Stale env (setWith (pollO env) s k v).1 := by
  rw [setWith_poll]
  dsimp only
  by_cases hk : k = .cache
  · rw [if_pos hk]
    have hp := poll_fields env (assign s k v)
    unfold Stale
    dsimp only
    rw [hp.2.2.1, hp.2.2.2.1]; exact h
  · rw [if_neg hk]; exact h

/-! ### Options keep what setters and log rules keep -/

theorem logOption_fields (s : St) (c : Current) (name lv domain : Str) :
    ∃ con lg, (logOption int s c name lv domain).2.1 = { s with console := con, logs := lg } := by
  have hrule : ∀ s c l d, ∃ con lg, addRule s c l d = { s with console := con, logs := lg } := by
    intro s c l d
    unfold addRule
    cases c with
    | none => exact ⟨_, s.logs, rfl⟩
    | some i => exact ⟨s.console, _, rfl⟩
  have hsw : ∃ con lg, (switchLog s c name).2 = { s with console := con, logs := lg } := by
    unfold switchLog
    split
    · exact ⟨s.console, s.logs, rfl⟩
    · split
      · exact ⟨s.console, s.logs, rfl⟩
      · exact ⟨s.console, _, rfl⟩
  unfold logOption
  obtain ⟨c1, l1, e1⟩ := hsw
  split
  · exact ⟨s.console, s.logs, rfl⟩
  · dsimp only
    split
    · exact ⟨c1, l1, e1⟩
    · rename_i l _
      split
      · obtain ⟨c2, l2, e2⟩ := hrule (switchLog s c name).2 (switchLog s c name).1.2 l domain
        rw [e2, e1]
        exact ⟨c2, l2, rfl⟩
      · exact ⟨c1, l1, e1⟩

/-- Invariants of setters and of changes of the logs are invariants of the loop over the options. -/
theorem options_inv (rl : St → Out) (I : St → Prop) (hset : ∀ s k v, I s → I (setWith rl s k v).1)
    (hlog : ∀ s c l, I s → I { s with console := c, logs := l }) (os : List (Str × Str)) (s : St) (c : Current) (h : I s) :
    I (options num int rl s c os).1 := by
  have hopt : ∀ s c o, I s → I (option num int rl s c o).2.1 := by
    intro s c o h
    unfold option
    split
    · split
      · exact hset _ _ _ h
      · exact h
    · split
      · split
        · exact h
        · obtain ⟨c', l', e⟩ := logOption_fields int s c _ _ o.2
          rw [e]
          exact hlog s c' l' h
      · exact h
  induction os generalizing s c with
  | nil => exact h
  | cons o os ih =>
    unfold options
    have := hopt s c o h
    split
    · rename_i c' s' he
      rw [he] at this
      exact ih s' c' this
    · rename_i c' s' e he
      rw [he] at this
      exact this

/-- The loop, when the file has been noted as read. -/
theorem options_reload (n : Nat) (os : List (Str × Str)) (s : St) (c : Current) (h : Stale env s) :
    options num int (reloadTo num int env (n + 1)) s c os = options num int (pollO env) s c os := by
  induction os generalizing s c with
  | nil => rfl
  | cons o os ih =>
    have e : option num int (reloadTo num int env (n + 1)) s c o = option num int (pollO env) s c o := by
      unfold option
      split
      · split
        · rw [setWith_reload num int env n s _ _ h]
        · rfl
      · rfl
    unfold options
    rw [e]
    split
    · rename_i c' s' he
      apply ih
      -- the option keeps the file
      have := options_inv num int (pollO env) (fun t => Stale env t) (fun t k v ht => stale_set env k v ht)
        (fun t _ _ ht => ht) [o] s c h
      unfold options at this
      rw [he] at this
      exact this
    · rfl

/-- What `reload_config` does, without recursion. -/
theorem reload_eq (s : St) : reload num int env s =
    if ((env.now - s.lastPoll : Int) : Rat) > s.period then
      match env.files s.rc with
      | none => (poll env s, none)
      | some f =>
        if f.mtime > s.lastMod then
          match f.options with
          | none => ({ poll env s with lastMod := f.mtime }, some .io)
          | some os => parse num int (pollO env) { poll env s with lastMod := f.mtime } os
        else (poll env s, none)
    else (s, none) := by
  unfold reload reloadTo
  by_cases hd : ((env.now - s.lastPoll : Int) : Rat) > s.period
  · rw [if_pos hd, if_pos hd]
    have hp : poll env s = { s with lastPoll := env.now, polls := env.now :: s.polls } := by unfold poll; rw [if_pos hd]
    rw [hp]
    dsimp only
    cases hf : env.files s.rc with
    | none => rfl
    | some f =>
      dsimp only
      by_cases hm : f.mtime > s.lastMod
      · rw [if_pos hm, if_pos hm]
        cases f.options with
        | none => rfl
        | some os =>
          dsimp only
          unfold parse
          rw [options_reload]
          intro g hg
          dsimp only at hg ⊢
          rw [hf] at hg; cases hg; exact Int.le_refl _
      · rw [if_neg hm, if_neg hm]
  · rw [if_neg hd, if_neg hd]

theorem reload_stale (s : St) (h : Stale env s) : reload num int env s = pollO env s := reloadTo_stale num int env 1 s h

/-- The recursion between `reload_config` and the setter of the cache size goes no deeper than two. -/
theorem reload_depth (n : Nat) (s : St) : reloadTo num int env (n + 2) s = reload num int env s := by
  unfold reload
  unfold reloadTo
  by_cases hd : ((env.now - s.lastPoll : Int) : Rat) > s.period
  · rw [if_pos hd, if_pos hd]
    dsimp only
    cases hf : env.files s.rc with
    | none => rfl
    | some f =>
      dsimp only
      by_cases hm : f.mtime > s.lastMod
      · rw [if_pos hm, if_pos hm]
        cases f.options with
        | none => rfl
        | some os =>
          dsimp only
          unfold parse
          have hst : Stale env { s with lastPoll := env.now, polls := env.now :: s.polls, lastMod := f.mtime } := by
            intro g hg
            dsimp only at hg ⊢
            rw [hf] at hg; cases hg; exact Int.le_refl _
          rw [options_reload num int env n os _ _ hst, options_reload num int env 0 os _ _ hst]
      · rw [if_neg hm, if_neg hm]
  · rw [if_neg hd, if_neg hd]

/-! ### What the file says -/

/-- Specification: how a setting is called in a file. -/
def nameOf : Key → String
  | .threads => "general.default_num_threads"
  | .cache => "general.system_cache_size"
  | .pool => "general.write_pool_size"
  | .tile => "general.default_tile_size"
  | .tmp => "general.tmp_directory"

/-- Specification: what a text means for a setting. The directory is taken as it is, the others are numbers. -/
def meaning (k : Key) (text : Str) : Option Val :=
  match k with
  | .tmp => some (.text text)
  | .threads => (num .threads text).map .num
  | .cache => (num .cache text).map .num
  | .pool => (num .pool text).map .num
  | .tile => (num .tile text).map .num

theorem keyOf_iff (name : Str) (k : Key) : keyOf name = some k ↔ name = (nameOf k).toList := by
  unfold keyOf
  constructor
  · intro h
    split at h
    · cases h; assumption
    · split at h
      · cases h; assumption
      · split at h
        · cases h; assumption
        · split at h
          · cases h; assumption
          · split at h
            · cases h; assumption
            · cases h
  · rintro rfl
    cases k <;> decide

theorem valueOf_eq (k : Key) (text : Str) : valueOf num k text = meaning num k text := by
  unfold valueOf; cases k <;> rfl

/-- The value the options give to a setting: the last one that can be read. -/
def fileValue (os : List (Str × Str)) (k : Key) : Option Val :=
  (os.filterMap (fun o => if o.1 = (nameOf k).toList then meaning num k o.2 else none)).getLast?

theorem option_val (s : St) (c : Current) (o : Str × Str) (k : Key) :
    (option num int (pollO env) s c o).2.1.val k =
      ((if keyOf o.1 = some k then valueOf num k o.2 else none).getD (s.val k)) := by
  cases ho : keyOf o.1 with
  | some j =>
    unfold option
    rw [ho]
    dsimp only
    cases hv : valueOf num j o.2 with
    | none =>
      dsimp only
      by_cases hjk : j = k
      · subst hjk; rw [if_pos rfl, hv]; rfl
      · rw [if_neg (by simpa using hjk)]; rfl
    | some v =>
      dsimp only
      rw [setWith_poll]
      dsimp only
      have hp := (poll_fields env (assign s j v)).1
      have e : (if j = .cache then { poll env (assign s j v) with cacheMax := v, resized := true } else assign s j v).val k =
          (assign s j v).val k := by
        by_cases hc : j = .cache
        · rw [if_pos hc]; dsimp only; rw [hp]
        · rw [if_neg hc]
      rw [e]
      unfold assign
      dsimp only
      by_cases hjk : j = k
      · subst hjk; rw [if_pos rfl, if_pos rfl, hv]; rfl
      · rw [if_neg (fun h => hjk h.symm), if_neg (fun h => hjk (Option.some.inj h))]; rfl
  | none =>
    rw [if_neg (by simp)]
    unfold option
    rw [ho]
    dsimp only
    split
    · split
      · rfl
      · obtain ⟨c', l', e⟩ := logOption_fields int s c _ _ o.2
        rw [e]; rfl
    · rfl

/-- **C54 (file)**: after a file has been read without an exception, a setting has the last value given to it there that
can be read as a value; lines with other keys or unreadable values change nothing; settings not in the file are unchanged. -/
theorem parse_val (s : St) (os : List (Str × Str)) (h : (parse num int (pollO env) s os).2 = none) (k : Key) :
    (parse num int (pollO env) s os).1.val k = (fileValue num os k).getD (s.val k) := by
  unfold parse at *
  generalize ("console".toList, none) = c at *
  unfold fileValue
  have conv : (fun o : Str × Str => if o.1 = (nameOf k).toList then meaning num k o.2 else none) =
      fun o => if keyOf o.1 = some k then valueOf num k o.2 else none := by
    funext o
    rw [valueOf_eq]
    exact if_congr (keyOf_iff o.1 k).symm rfl rfl
  rw [conv]
  induction os generalizing s c with
  | nil => rfl
  | cons o os ih =>
    have hv := option_val num int env s c o k
    unfold options at h ⊢
    split at h
    · rename_i c' s' he
      rw [he] at hv
      dsimp only at hv
      rw [ih s' c' h, hv, List.filterMap_cons]
      cases hb : (if keyOf o.1 = some k then valueOf num k o.2 else none) with
      | none => rfl
      | some v =>
        dsimp only
        rw [List.getLast?_cons]
        cases (os.filterMap (fun o => if keyOf o.1 = some k then valueOf num k o.2 else none)).getLast? <;> rfl
    · cases h

/-! ### Values set through the API -/

variable {num int env}

/-- A call that neither names another file nor sets k. -/
def Leaves (k : Key) : Op → Prop
  | .set j _ => j ≠ k
  | .rcName _ _ => False
  | _ => True

theorem systemCache_stale (s : St) (h : Stale env s) : ∃ s', systemCache (reload num int env) s = (s', none) ∧ s'.val = s.val ∧
    s'.fixed = s.fixed ∧ s'.rc = s.rc ∧ s'.lastMod = s.lastMod ∧ s'.resized = true ∧
    (s.resized = true → s'.cacheMax = s.cacheMax) ∧ (s.resized = false → s.cacheMax = .num 0 → s'.cacheMax = s.val .cache) := by
  unfold systemCache
  rw [reload_stale num int env s h]
  unfold andThen pollO
  dsimp only
  obtain ⟨p1, p2, p3, p4, p5, p6, p7, _⟩ := poll_fields env s
  unfold resizeOnce
  rw [p7]
  by_cases hr : s.resized
  · rw [if_pos hr]
    refine ⟨_, rfl, p1, p2, p3, p4, by rw [p7]; exact hr, fun _ => p6, fun h => by rw [hr] at h; cases h⟩
  · rw [if_neg hr, p6]
    have hr' : s.resized = false := by simpa using hr
    by_cases h0 : s.cacheMax = .num 0
    · rw [if_pos h0]
      have hs : Stale env (poll env s) := by unfold Stale; rw [p3, p4]; exact h
      rw [reload_stale num int env _ hs]
      obtain ⟨q1, q2, q3, q4, _⟩ := poll_fields env (poll env s)
      rw [p2]
      by_cases hf : s.fixed .cache
      · rw [if_pos hf]
        exact ⟨_, rfl, p1, p2, p3, p4, rfl, fun h => absurd h hr, fun _ _ => by dsimp only; rw [p1]⟩
      · rw [if_neg hf]
        refine ⟨_, rfl, q1.trans p1, q2.trans p2, q3.trans p3, q4.trans p4, rfl, fun h => absurd h hr, fun _ _ => ?_⟩
        show (poll env (poll env s)).val .cache = _
        rw [q1, p1]
    · rw [if_neg h0]
      exact ⟨_, rfl, p1, p2, p3, p4, rfl, fun h => absurd h hr, fun _ h => absurd h h0⟩

theorem step_stale (s : St) (op : Op) (k : Key) (h : Stale env s) (hl : Leaves k op) :
    (step num int env s op).2 = none ∧ (step num int env s op).1.val k = s.val k ∧ (step num int env s op).1.rc = s.rc ∧
      (step num int env s op).1.lastMod = s.lastMod := by
  obtain ⟨p1, p2, p3, p4, p5, p6, p7, _⟩ := poll_fields env s
  cases op with
  | get j =>
    dsimp only [step]
    by_cases hf : s.fixed j
    · rw [if_pos hf]; exact ⟨rfl, rfl, rfl, rfl⟩
    · rw [if_neg hf, reload_stale num int env s h]
      exact ⟨rfl, by show (poll env s).val k = _; rw [p1], p3, p4⟩
  | set j v =>
    have hj : j ≠ k := hl
    show (setWith (reload num int env) s j v).2 = none ∧ _
    have e : setWith (reload num int env) s j v = setWith (pollO env) s j v := setWith_reload num int env 1 s j v h
    dsimp only [step]
    rw [e, setWith_poll]
    obtain ⟨q1, q2, q3, q4, _⟩ := poll_fields env (assign s j v)
    by_cases hc : j = .cache
    · rw [if_pos hc]
      refine ⟨rfl, ?_, q3, q4⟩
      show (poll env (assign s j v)).val k = _
      rw [q1]; unfold assign; dsimp only; rw [if_neg (Ne.symm hj)]
    · rw [if_neg hc]
      refine ⟨rfl, ?_, rfl, rfl⟩
      unfold assign; dsimp only; rw [if_neg (Ne.symm hj)]
  | rcName _ _ => exact hl.elim
  | period p =>
    dsimp only [step]
    rw [reload_stale num int env _ (by exact h)]
    obtain ⟨q1, q2, q3, q4, _⟩ := poll_fields env { s with period := p, lastPoll := 0 }
    exact ⟨rfl, by show (poll env _).val k = _; rw [q1], q3, q4⟩
  | cache =>
    obtain ⟨s', e, a1, a2, a3, a4, _⟩ := systemCache_stale (num := num) (int := int) s h
    dsimp only [step]
    rw [e]
    exact ⟨rfl, by show s'.val k = _; rw [a1], a3, a4⟩
  | reload =>
    dsimp only [step]
    rw [reload_stale num int env s h]
    exact ⟨rfl, by show (poll env s).val k = _; rw [p1], p3, p4⟩

/-- **C54 (API)**: as long as the configuration file is not newer than what was read, and no other file is named, a value set
through the API stays: through any number of later calls the getter returns it. -/
theorem api_holds_partial (num : Key → Str → Option Nat) (int : Str → Option Int) (s : St) (env : Env) (k : Key) (v : Val)
    (hs : Stale env s) (h : List (Env × Op))
    (hh : ∀ eo ∈ h, (∀ f, eo.1.files s.rc = some f → f.mtime ≤ s.lastMod) ∧ Leaves k eo.2) :
    (run num int s ((env, .set k v) :: h)).val k = v := by
  have key : ∀ (h : List (Env × Op)) (t : St), (∀ eo ∈ h, (∀ f, eo.1.files t.rc = some f → f.mtime ≤ t.lastMod) ∧ Leaves k eo.2) →
      (run num int t h).val k = t.val k := by
    intro h
    induction h with
    | nil => intro t _; rfl
    | cons eo h ih =>
      intro t ht
      obtain ⟨h1, h2⟩ := ht eo (by simp)
      obtain ⟨_, e1, e2, e3⟩ := step_stale (num := num) (int := int) t eo.2 k h1 h2
      have := ih (step num int eo.1 t eo.2).1 (fun x hx => by rw [e2, e3]; exact ht x (List.mem_cons_of_mem _ hx))
      exact this.trans e1
  have e : setWith (reload num int env) s k v = setWith (pollO env) s k v := setWith_reload num int env 1 s k v hs
  have hstep : (step num int env s (.set k v)).1.val k = v ∧ (step num int env s (.set k v)).1.rc = s.rc ∧
      (step num int env s (.set k v)).1.lastMod = s.lastMod := by
    dsimp only [step]
    rw [e, setWith_poll]
    obtain ⟨q1, q2, q3, q4, _⟩ := poll_fields env (assign s k v)
    by_cases hc : k = .cache
    · rw [if_pos hc]
      refine ⟨?_, q3, q4⟩
      show (poll env (assign s k v)).val k = _
      rw [q1]; unfold assign; dsimp only; rw [if_pos rfl]
    · rw [if_neg hc]
      refine ⟨?_, rfl, rfl⟩
      unfold assign; dsimp only; rw [if_pos rfl]
  have := key h (step num int env s (.set k v)).1 (fun x hx => by rw [hstep.2.1, hstep.2.2]; exact hh x hx)
  exact this.trans hstep.1

/-- **C54 (disabled)**: after the file has been disabled by naming "", no file changes a setting: it stays as it was through any
history of calls that do not set it (modification times are of type long). -/
theorem disabled_holds (num : Key → Str → Option Nat) (int : Str → Option Int) (s : St) (env : Env) (now : Bool) (k : Key)
    (h : List (Env × Op)) (henv : ∀ f, env.files [] = some f → f.mtime ≤ longMax)
    (hh : ∀ eo ∈ h, (∀ f, eo.1.files [] = some f → f.mtime ≤ longMax) ∧ Leaves k eo.2) :
    (run num int s ((env, .rcName [] now) :: h)).val k = s.val k := by
  have key : ∀ (h : List (Env × Op)) (t : St), t.rc = [] → t.lastMod = longMax →
      (∀ eo ∈ h, (∀ f, eo.1.files [] = some f → f.mtime ≤ longMax) ∧ Leaves k eo.2) → (run num int t h).val k = t.val k := by
    intro h
    induction h with
    | nil => intro t _ _ _; rfl
    | cons eo h ih =>
      intro t hrc hmod ht
      obtain ⟨h1, h2⟩ := ht eo (by simp)
      obtain ⟨_, e1, e2, e3⟩ := step_stale (num := num) (int := int) (env := eo.1) t eo.2 k
        (by intro f hf; rw [hrc] at hf; rw [hmod]; exact h1 f hf) h2
      exact (ih (step num int eo.1 t eo.2).1 (e2.trans hrc) (e3.trans hmod) (fun x hx => ht x (List.mem_cons_of_mem _ hx))).trans e1
  have hn : (setName s []).rc = [] ∧ (setName s []).lastMod = longMax ∧ (setName s []).val = s.val := ⟨rfl, rfl, rfl⟩
  have hstep : (step num int env s (.rcName [] now)).1.val k = s.val k ∧ (step num int env s (.rcName [] now)).1.rc = [] ∧
      (step num int env s (.rcName [] now)).1.lastMod = longMax := by
    dsimp only [step]
    cases now with
    | false => exact ⟨rfl, rfl, rfl⟩
    | true =>
      rw [if_pos rfl, reload_stale num int env _ (by intro f hf; exact henv f hf)]
      obtain ⟨q1, q2, q3, q4, _⟩ := poll_fields env (setName s [])
      exact ⟨by show (poll env _).val k = _; rw [q1]; rfl, q3, q4⟩
  exact (key h _ hstep.2.1 hstep.2.2 hh).trans hstep.1

/-! ### The size of the system cache -/

/-- The size of the cache is the setting, once the cache has been used, and 0 before. -/
def CacheFits (s : St) : Prop := (s.resized = true → s.cacheMax = s.val .cache) ∧ (s.resized = false → s.cacheMax = .num 0)

theorem fits_set (s : St) (k : Key) (v : Val) (h : CacheFits s) : CacheFits (setWith (pollO env) s k v).1 := by
  rw [setWith_poll]
  dsimp only
  by_cases hc : k = .cache
  · rw [if_pos hc]
    refine ⟨fun _ => ?_, fun h => by cases h⟩
    dsimp only
    rw [(poll_fields env (assign s k v)).1]
    unfold assign
    dsimp only
    rw [if_pos hc.symm]
  · rw [if_neg hc]
    refine ⟨fun hr => ?_, h.2⟩
    unfold assign
    dsimp only
    rw [if_neg (Ne.symm hc)]
    exact h.1 hr

theorem fits_reload (s : St) (h : CacheFits s) : CacheFits (reload num int env s).1 := by
  obtain ⟨p1, p2, p3, p4, p5, p6, p7, _⟩ := poll_fields env s
  have hp : CacheFits (poll env s) := by unfold CacheFits; rw [p1, p6, p7]; exact h
  rw [reload_eq]
  split
  · split
    · exact hp
    · split
      · split
        · exact hp
        · exact options_inv num int (pollO env) CacheFits (fun t k v ht => fits_set t k v ht) (fun t _ _ ht => ht) _ _ _ hp
      · exact hp
  · exact h

theorem fits_systemCache (s : St) (h : CacheFits s) : CacheFits (systemCache (reload num int env) s).1 ∧
    ((systemCache (reload num int env) s).2 = none → (systemCache (reload num int env) s).1.resized = true) := by
  unfold systemCache andThen
  have h1 := fits_reload (num := num) (int := int) (env := env) s h
  cases he : (reload num int env s).2 with
  | some e => exact ⟨h1, fun h => by cases h⟩
  | none =>
    dsimp only
    generalize (reload num int env s).1 = t at h1
    unfold resizeOnce
    by_cases hr : t.resized
    · rw [if_pos hr]; exact ⟨h1, fun _ => hr⟩
    · rw [if_neg hr, if_pos (h1.2 (by simpa using hr))]
      unfold andThen
      have aux : ∀ o : Out, CacheFits o.1 → CacheFits (match o.2 with
          | none => (({ o.1 with cacheMax := o.1.val .cache, resized := true }, none) : Out)
          | some e => (o.1, some e)).1 ∧ ((match o.2 with
          | none => (({ o.1 with cacheMax := o.1.val .cache, resized := true }, none) : Out)
          | some e => (o.1, some e)).2 = none → (match o.2 with
          | none => (({ o.1 with cacheMax := o.1.val .cache, resized := true }, none) : Out)
          | some e => (o.1, some e)).1.resized = true) := by
        rintro ⟨o, e⟩ ho
        cases e with
        | none => exact ⟨⟨fun _ => rfl, fun h => by cases h⟩, fun _ => rfl⟩
        | some e => exact ⟨ho, fun h => by cases h⟩
      apply aux
      by_cases hf : t.fixed .cache
      · rw [if_pos hf]; exact h1
      · rw [if_neg hf]; exact fits_reload t h1

/-- A call after which the size of the cache is the setting: all but setting the cache size while a newer file waits to be read. -/
def Calm (eo : Env × Op) (s : St) : Prop := ∀ v, eo.2 = .set .cache v → Stale eo.1 s

theorem fits_step (s : St) (op : Op) (h : CacheFits s) (hc : Calm (env, op) s) : CacheFits (step num int env s op).1 := by
  cases op with
  | get j =>
    dsimp only [step]
    split
    · exact h
    · exact fits_reload s h
  | set j v =>
    dsimp only [step]
    by_cases hj : j = .cache
    · subst hj
      have e : setWith (reload num int env) s .cache v = setWith (pollO env) s .cache v := setWith_reload num int env 1 s .cache v (hc v rfl)
      rw [e]
      exact fits_set s .cache v h
    · have : setWith (reload num int env) s j v = setWith (pollO env) s j v := by
        unfold setWith; rw [if_neg hj, if_neg hj]
      rw [this]
      exact fits_set s j v h
  | rcName name now =>
    have hn : CacheFits (setName s name) := by
      unfold setName
      dsimp only
      split
      · exact h
      · split <;> exact h
    dsimp only [step]
    split
    · exact fits_reload _ hn
    · exact hn
  | period p => exact fits_reload _ (by exact h)
  | cache => exact (fits_systemCache s h).1
  | reload => exact fits_reload s h

/-- Every call of a history is made in a state that meets the condition. -/
def AlongCalm (num : Key → Str → Option Nat) (int : Str → Option Int) : St → List (Env × Op) → Prop
  | _, [] => True
  | s, eo :: h => Calm eo s ∧ AlongCalm num int (step num int eo.1 s eo.2).1 h

/-- **C54 (cache)**: through every history of calls, reloads and file changes, with the exception of the cache size being set
through the API while a newer file waits to be read, what `vw_system_cache()` returns has the size given by the setting. -/
theorem cache_size_partial (num : Key → Str → Option Nat) (int : Str → Option Int) (dflt : Key → Val) (rc : Str)
    (h : List (Env × Op)) (env : Env) (hh : AlongCalm num int (init dflt rc) h)
    (hok : (step num int env (run num int (init dflt rc) h) .cache).2 = none) :
    (step num int env (run num int (init dflt rc) h) .cache).1.cacheMax =
      (step num int env (run num int (init dflt rc) h) .cache).1.val .cache := by
  have key : ∀ (h : List (Env × Op)) (s : St), CacheFits s → AlongCalm num int s h → CacheFits (run num int s h) := by
    intro h
    induction h with
    | nil => intro s hs _; exact hs
    | cons eo h ih => intro s hs ha; exact ih _ (fits_step s eo.2 hs ha.1) ha.2
  have h0 : CacheFits (init dflt rc) := by
    have e : (init dflt rc).resized = false ∧ (init dflt rc).cacheMax = .num 0 := by
      unfold init setName
      dsimp only
      by_cases h1 : rc = []
      · rw [if_pos h1]; exact ⟨rfl, rfl⟩
      · rw [if_neg h1, if_pos h1]; exact ⟨rfl, rfl⟩
    exact ⟨fun h => (by rw [e.1] at h; cases h), fun _ => e.2⟩
  obtain ⟨h1, h2⟩ := fits_systemCache (num := num) (int := int) (env := env) _ (key h _ h0 hh)
  exact h1.1 (h2 hok)

/-! ### The rate of polls -/

/-- Polls are more than the period apart. -/
def Spaced (p : Rat) (s : St) : Prop :=
  s.period = p ∧ s.polls.IsChain (fun a b => ((a - b : Int) : Rat) > p) ∧ ∀ t ∈ s.polls.head?, s.lastPoll = t

theorem spaced_poll {p : Rat} (s : St) (h : Spaced p s) : Spaced p (poll env s) := by
  unfold poll
  by_cases hd : ((env.now - s.lastPoll : Int) : Rat) > s.period
  · rw [if_pos hd]
    obtain ⟨h1, h2, h3⟩ := h
    refine ⟨h1, ?_, ?_⟩
    · dsimp only
      generalize s.polls = ps at h2 h3
      cases ps with
      | nil => exact .singleton _
      | cons t ps =>
        refine .cons_cons ?_ h2
        rw [← h3 t rfl, ← h1]; exact hd
    · intro t ht
      simpa using ht
  · rw [if_neg hd]; exact h

theorem spaced_set {p : Rat} (s : St) (k : Key) (v : Val) (h : Spaced p s) : Spaced p (setWith (pollO env) s k v).1 := by
  rw [setWith_poll]
  dsimp only
  by_cases hc : k = .cache
  · rw [if_pos hc]
    exact spaced_poll (env := env) (assign s k v) h
  · rw [if_neg hc]; exact h

theorem spaced_reload {p : Rat} (s : St) (h : Spaced p s) : Spaced p (reload num int env s).1 := by
  have hp := spaced_poll (env := env) s h
  rw [reload_eq]
  split
  · split
    · exact hp
    · split
      · split
        · exact hp
        · exact options_inv num int (pollO env) (Spaced p) (fun t k v ht => spaced_set t k v ht) (fun t _ _ ht => ht) _ _ _ hp
      · exact hp
  · exact h

theorem spaced_systemCache {p : Rat} (s : St) (h : Spaced p s) : Spaced p (systemCache (reload num int env) s).1 := by
  unfold systemCache andThen
  have h1 := spaced_reload (num := num) (int := int) (env := env) s h
  cases he : (reload num int env s).2 with
  | some e => exact h1
  | none =>
    dsimp only
    generalize (reload num int env s).1 = t at h1
    unfold resizeOnce
    split
    · exact h1
    · split
      · unfold andThen
        have aux : ∀ o : Out, Spaced p o.1 → Spaced p (match o.2 with
          | none => (({ o.1 with cacheMax := o.1.val .cache, resized := true }, none) : Out)
          | some e => (o.1, some e)).1 := by
          rintro ⟨o, e⟩ ho
          cases e <;> exact ho
        apply aux
        split
        · exact h1
        · exact spaced_reload t h1
      · exact h1

/-- **C54 (polling)**: between changes of the file name or of the period, in every history two looks at the file are more
than the period apart. -/
theorem poll_rate (num : Key → Str → Option Nat) (int : Str → Option Int) (s : St) (hs : s.polls = []) (h : List (Env × Op))
    (hh : ∀ eo ∈ h, (∀ n b, eo.2 ≠ .rcName n b) ∧ ∀ p, eo.2 ≠ .period p) :
    (run num int s h).polls.IsChain (fun a b => ((a - b : Int) : Rat) > s.period) := by
  have key : ∀ (h : List (Env × Op)) (t : St), Spaced s.period t →
      (∀ eo ∈ h, (∀ n b, eo.2 ≠ .rcName n b) ∧ ∀ p, eo.2 ≠ .period p) → Spaced s.period (run num int t h) := by
    intro h
    induction h with
    | nil => intro t ht _; exact ht
    | cons eo h ih =>
      intro t ht hh
      apply ih _ _ (fun x hx => hh x (List.mem_cons_of_mem _ hx))
      obtain ⟨a1, a2⟩ := hh eo (by simp)
      obtain ⟨env, op⟩ := eo
      cases op with
      | get j =>
        dsimp only [step]
        split
        · exact ht
        · exact spaced_reload t ht
      | set j v =>
        dsimp only [step]
        unfold setWith
        split
        · unfold andThen
          have := spaced_systemCache (num := num) (int := int) (env := env) (assign t j v) ht
          cases (systemCache (reload num int env) (assign t j v)).2 <;> exact this
        · exact ht
      | rcName n b => exact absurd rfl (a1 n b)
      | period p => exact absurd rfl (a2 p)
      | cache => exact spaced_systemCache t ht
      | reload => exact spaced_reload t ht
  exact (key h s ⟨rfl, by rw [hs]; exact .nil, by rw [hs]; simp⟩ hh).2.1

/-- **C54 (set values are not looked up again)**: the getter of a setting that has been set, by the API or by the file, never
looks at the file: it returns the same value whatever happens to the file meanwhile. -/
theorem getter_fixed (num : Key → Str → Option Nat) (int : Str → Option Int) (s : St) (k : Key) (hk : s.fixed k = true)
    (h : List Env) : run num int s (h.map (fun e => (e, Op.get k))) = s := by
  induction h with
  | nil => rfl
  | cons e h ih =>
    rw [List.map_cons]
    show run num int (step num int e s (.get k)).1 _ = s
    dsimp only [step]
    rw [if_pos hk]
    exact ih

end

/-! ### What fails -/

/-- Decimal numbers. -/
def decimal (s : Str) : Option Nat :=
  if s ≠ [] ∧ s.all Char.isDigit then some (s.foldl (fun n c => 10 * n + (c.toNat - '0'.toNat)) 0) else none

def num0 : Key → Str → Option Nat := fun _ => decimal
def int0 : Str → Option Int := fun s => (decimal s).map Int.ofNat
def dflt0 : Key → Val := fun k => match k with
  | .threads => .num 4 | .cache => .num 800 | .pool => .num 21 | .tile => .num 256 | .tmp => .text "/tmp".toList
def home : Str := "/h/.vwrc".toList
/-- A world with one file. -/
def world (now mtime : Int) (os : List (String × String)) : Env :=
  ⟨now, fun n => if n = home then some ⟨mtime, some (os.map (fun o => (o.1.toList, o.2.toList)))⟩ else none⟩

/-- "The API overrides the contents of vwrc" (TestSettings.cxx) fails: the file is read when another setting is asked for. -/
theorem api_lost : ∃ (h : List (Env × Op)), h.head? = some (world 1000 10 [("general.default_num_threads", "20")], .set .threads (.num 5)) ∧
    (∀ eo ∈ h.tail, Leaves .threads eo.2) ∧ (run num0 int0 (init dflt0 home) h).val .threads = .num 20 := by
  refine ⟨[(world 1000 10 [("general.default_num_threads", "20")], .set .threads (.num 5)),
    (world 1001 10 [("general.default_num_threads", "20")], .get .pool)], rfl, by simp [Leaves], by decide +kernel⟩

/-- Setting the cache size reads the file first: afterwards the setting is that of the file, the size of the cache that of the
call. -/
theorem cache_size_lost : ∃ env v, ∃ t : St, step num0 int0 env (init dflt0 home) (.set .cache v) = (t, none) ∧ v = .num 223 ∧
    t.val .cache = .num 623 ∧ t.cacheMax = .num 223 := by
  refine ⟨world 1000 10 [("general.system_cache_size", "623")], .num 223, _, rfl, rfl, ?_, ?_⟩ <;> decide +kernel

/-- A changed file does not show in a setting that the file had set before: "that file is reloaded on every call to access
settings, so the user can modify the contents of that file in real time" (Settings.h) fails. -/
theorem edit_unseen (env : Env) : ∃ s : St, step num0 int0 (world 1000 10 [("general.default_num_threads", "20")]) (init dflt0 home)
    (.get .threads) = (s, none) ∧ s.val .threads = .num 20 ∧ step num0 int0 env s (.get .threads) = (s, none) := by
  have h1 : (step num0 int0 (world 1000 10 [("general.default_num_threads", "20")]) (init dflt0 home) (.get .threads)).1.fixed .threads = true ∧
      (step num0 int0 (world 1000 10 [("general.default_num_threads", "20")]) (init dflt0 home) (.get .threads)).1.val .threads = .num 20 ∧
      (step num0 int0 (world 1000 10 [("general.default_num_threads", "20")]) (init dflt0 home) (.get .threads)).2 = none := by
    decide +kernel
  generalize step num0 int0 (world 1000 10 [("general.default_num_threads", "20")]) (init dflt0 home) (.get .threads) = o at h1
  obtain ⟨s, e⟩ := o
  obtain ⟨h1, h2, h3⟩ := h1
  dsimp only at h1 h2 h3
  subst h3
  refine ⟨s, rfl, h2, ?_⟩
  dsimp only [step]
  rw [if_pos h1]

/-- A file that could not be opened is not read later, when it can be, unless it is modified again. -/
theorem unreadable_not_retried : ∃ e1 e2 : Env, e1.files home = some ⟨10, none⟩ ∧
    e2.files home = some ⟨10, some [("general.default_num_threads".toList, "20".toList)]⟩ ∧ e2.now = e1.now + 1000 ∧
    (step num0 int0 e1 (init dflt0 home) .reload).2 = some .io ∧
    (step num0 int0 e2 (step num0 int0 e1 (init dflt0 home) .reload).1 .reload).1.val .threads = .num 4 := by
  refine ⟨⟨1000, fun n => if n = home then some ⟨10, none⟩ else none⟩,
    ⟨2000, fun n => if n = home then some ⟨10, some [("general.default_num_threads".toList, "20".toList)]⟩ else none⟩,
    ?_, ?_, rfl, ?_, ?_⟩
  · dsimp only; rw [if_pos rfl]
  · dsimp only; rw [if_pos rfl]
  · decide +kernel
  · decide +kernel

/-- Every time the file is read again, its log files are opened once more: messages are written twice. -/
theorem logs_twice : (run num0 int0 (init dflt0 home) [(world 1000 10 [("logfile a.txt.10", "x")], .reload),
    (world 2000 20 [("logfile a.txt.10", "x"), ("general.default_tile_size", "512")], .reload)]).logs =
    [("a.txt".toList, [(10, "x".toList)]), ("a.txt".toList, [(10, "x".toList)])] := by decide +kernel

/-! ### Non-vacuity -/

def rc0 : List (String × String) :=
  [("general.nonexistent", "1"), ("general.default_num_threads", "20"), ("general.default_num_threads", "many"),
   ("general.system_cache_size", "623"), ("logfile console.10", "*"), ("logfile /log.txt.*", "*.wee"), ("logfile /log.txt.x", "a")]

/-- Reading a file, then a value through the API that stays while the file does not change. -/
example : (run num0 int0 (init dflt0 home) [(world 1000 10 rc0, .get .threads), (world 1001 10 rc0, .set .threads (.num 5)),
    (world 1002 10 rc0, .get .tile), (world 9000 10 rc0, .cache), (world 9000 10 rc0, .period 1)]).val .threads = .num 5 :=
  api_holds_partial num0 int0 (env := world 1001 10 rc0) (k := .threads) (v := .num 5)
    (s := (step num0 int0 (world 1000 10 rc0) (init dflt0 home) (.get .threads)).1)
    (by
      have hrc : (step num0 int0 (world 1000 10 rc0) (init dflt0 home) (.get .threads)).1.rc = home := by decide +kernel
      have hm : (step num0 int0 (world 1000 10 rc0) (init dflt0 home) (.get .threads)).1.lastMod = 10 := by decide +kernel
      intro f hf; rw [hrc] at hf; rw [hm]
      simp only [world, if_pos, Option.some.injEq] at hf; rw [← hf])
    (h := [(world 1002 10 rc0, .get .tile), (world 9000 10 rc0, .cache), (world 9000 10 rc0, .period 1)])
    (by
      have hrc : (step num0 int0 (world 1000 10 rc0) (init dflt0 home) (.get .threads)).1.rc = home := by decide +kernel
      have hm : (step num0 int0 (world 1000 10 rc0) (init dflt0 home) (.get .threads)).1.lastMod = 10 := by decide +kernel
      rw [hrc, hm]
      intro eo he
      simp only [List.mem_cons, List.not_mem_nil, or_false] at he
      rcases he with rfl | rfl | rfl <;> exact ⟨fun f hf => by simp only [world, if_pos, Option.some.injEq] at hf; rw [← hf], trivial⟩)

/-- What the file gives, and the cache. -/
example : let t := (step num0 int0 (world 1000 10 rc0) (init dflt0 home) .cache).1
    t.val .threads = .num 20 ∧ t.val .pool = .num 21 ∧ t.cacheMax = .num 623 ∧ t.val .cache = .num 623 ∧
    t.console = [(10, "*".toList)] ∧ t.logs = [("/log.txt".toList, [(100, "*.wee".toList)])] := by decide +kernel

example : AlongCalm num0 int0 (init dflt0 home) [(world 1000 10 rc0, .get .cache), (world 2000 30 rc0, .reload)] :=
  ⟨fun v h => (by cases h), fun v h => (by cases h), trivial⟩

end VW.Settings
