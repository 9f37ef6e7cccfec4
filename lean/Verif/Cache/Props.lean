import Verif.Cache.Order
import Mathlib.Tactic.IntervalCases
/-!
Properties C01-C07 of the cache.
-/
namespace VW.Cache

variable {Val : Type}

/-- Example client: a cache of 2 bytes, three one-byte lines; line 0 loaded and released, line 1
loaded and still held. -/
def demoOps : List (Op Nat) :=
  [.insert 1 (fun k => some k), .insert 1 (fun k => some (k + 10)), .insert 1 (fun k => some (k + 20)),
   .deref 0, .release 0, .deref 1]

theorem run_reach {m : Nat} {s s' : State Val} (h : Reach m s) (ops : List (Op Val))
    (e : run s ops = some s') : Reach m s' := by
  induction ops generalizing s with
  | nil => cases e; exact h
  | cons op ops ih =>
    unfold run at e
    split at e
    · rename_i s1 o heq; exact ih (.ok h heq) e
    · cases e

theorem reach_bound {m : Nat} {s : State Val} (h : Reach m s) {x : Nat} {l : Line Val}
    (hl : s.lines x = some l) : (x : Nat) < (s.nextId : Nat) := by
  obtain ⟨V, I, k⟩ := reach_inv h
  exact k.bound x ((k.lineDom x).1 (by simp [hl]))

/-! ### C01 -/

/-- C01: in every reachable state the pointers of the cache form two disjoint, duplicate-free,
properly terminated doubly linked lists; a line exists iff it is in one of them (so a destroyed line
is in neither), its memory exists iff the line does, and the valid list holds exactly the loaded
lines and those whose generator threw. -/
theorem cache_lists_intact {m : Nat} {s : State Val} (h : Reach m s) :
    ∃ V I : List Id, Rep s.lists V I ∧ (∀ x, Live s x ↔ x ∈ V ∨ x ∈ I) ∧
      (∀ x, ¬ (x ∈ V ∧ x ∈ I)) ∧ V.Nodup ∧ I.Nodup ∧
      (∀ x, (s.lists.heap x).isSome ↔ Live s x) ∧
      (∀ x, x ∈ V ↔ Loaded s x ∨ Wedged s x) := by
  obtain ⟨V, I, k⟩ := reach_inv h
  have nd := List.nodup_append.1 k.rep.nodup
  have live : ∀ x, Live s x ↔ x ∈ V ++ I := by
    intro x; rw [← k.lineDom]; unfold Live
    exact (Option.isSome_iff_exists).symm
  refine ⟨V, I, k.rep, fun x => by rw [live]; simp, ?_, nd.1, nd.2.1, ?_, ?_⟩
  · rintro x ⟨h1, h2⟩; exact nd.2.2 x h1 x h2 rfl
  · intro x; rw [live]; exact k.heapDom x
  · intro x
    rcases hl : s.lines x with _ | l
    · have : x ∉ V := by
        intro hx; have := (k.lineDom x).2 (by simp [hx]); simp [hl] at this
      simp [this, Loaded, Wedged, hl]
    · rw [k.val x l hl (by simp), loaded_iff hl]
      simp [Wedged, hl]

/-- C01: no call of a correct client runs into undefined behaviour: no null or dangling pointer is
followed, the byte count never underflows, the eviction loops terminate; and the only calls that can
throw are dereferences. -/
theorem cache_no_ub {m : Nat} {s : State Val} (h : Reach m s) (op : Op Val) (hl : Legal s op) :
    step s op ≠ .ub ∧ (∀ s', step s op = .thrown s' → ∃ i, op = .deref i) := by
  obtain ⟨V, I, k⟩ := reach_inv h
  obtain ⟨hl1, hl2⟩ := hl
  cases op with
  | insert n g =>
    obtain ⟨t, e, _⟩ := insert_spec k n g
    simp [step, e, Res.map]
  | deref i =>
    obtain ⟨l, hl⟩ := hl1 i rfl
    rcases deref_spec k hl with ⟨e, _⟩ | ⟨v, _, _, e, _⟩ | ⟨_, _, s2, W, J, _, _, _, _, _, _, _, ⟨v, _, e, _⟩ | ⟨_, e, _⟩⟩ <;>
      simp [step, e, Res.map]
  | release i =>
    obtain ⟨l, hl, hs⟩ := hl2 i rfl
    obtain ⟨e, _⟩ := release_spec k hl hs
    simp [step, e, Res.map]
  | valid i =>
    obtain ⟨l, hl⟩ := hl1 i rfl
    simp only [step, valid, hl]
    split <;> simp [Res.map]
  | deprioritize i =>
    obtain ⟨l, hl⟩ := hl1 i rfl
    by_cases hq : l.pinned
    · have hq' : l.shared > 0 ∨ l.excl := hq
      simp [step, deprioritize, hl, hq', Res.map]
    · rcases deprioritize_spec k hl hq with ⟨_, e⟩ | ⟨A, B, t, _, hv, e, _⟩ <;>
        simp [step, e, Res.map]
  | destroy i =>
    obtain ⟨l, hl⟩ := hl1 i rfl
    by_cases hq : l.pinned
    · have hq' : l.shared > 0 ∨ l.excl := hq
      simp [step, destroy, hl, hq', Res.map]
    · obtain ⟨t, e, _⟩ := destroy_spec k hl hq
      simp [step, e, Res.map]
  | resize n =>
    obtain ⟨t, V', I', _, _, _, _, ⟨e, _⟩ | ⟨e, _⟩⟩ := resize_spec k n <;> simp [step, e, Res.map]

/-- Non-vacuity: the example client reaches a state with a loaded idle, a held and an unloaded line,
and all its calls are legal there. -/
example : ∃ s : State Nat, Reach 2 s ∧ run (State.init 2) demoOps = some s ∧
    Loaded s 0 ∧ Held s 1 ∧ ¬ Loaded s 2 ∧ Live s 2 ∧ Legal s (.deref 2) ∧ Legal s (.release 1) := by
  obtain ⟨s, hs⟩ : ∃ s, run (State.init 2) demoOps = some s := ⟨_, rfl⟩
  refine ⟨s, run_reach .init _ hs, hs, ?_⟩
  cases hs
  refine ⟨⟨_, _, rfl, rfl⟩, ⟨_, rfl, Nat.zero_lt_one⟩, ?_, ⟨_, rfl⟩, ⟨?_, ?_⟩, ⟨?_, ?_⟩⟩
  · rintro ⟨l, v, h1, h2⟩; cases h1; cases h2
  · intro i h; cases h; exact ⟨_, rfl⟩
  · intro i h; cases h
  · intro i h; cases h; exact ⟨_, rfl⟩
  · intro i h; cases h; exact ⟨_, rfl, Nat.zero_lt_one⟩

/-! ### C02 -/

/-- C02: the byte count is exactly the sum of the sizes of the loaded lines and of the lines whose
generator threw. -/
theorem cache_size_exact {m : Nat} {s : State Val} (h : Reach m s) :
    s.size = bytes s (fun l => l.value.isSome || l.excl) := by
  obtain ⟨V, I, k⟩ := reach_inv h
  exact k.bytes

/-- C02 as documented (count = bytes of the loaded lines), for clients whose generators do not
throw. Missing for the full statement: nothing but the excluded generators, for which it is false,
see `cache_size_leak`. -/
theorem cache_size_exact_partial {m : Nat} {s : State Val} (h : Reach m s)
    (hg : ∀ x l k, s.lines x = some l → l.generate k ≠ none) :
    s.size = bytes s (fun l => l.value.isSome) := by
  obtain ⟨V, I, k⟩ := reach_inv h
  rw [k.bytes]
  refine bytes_congr fun x l hl => ?_
  have : l.excl = false := by
    by_contra he
    obtain ⟨_, _, j, _, hj⟩ := k.excl x l hl (by simpa using he)
    exact hg x l j hl hj
  simp [this]

/-- C02 is false in general: after a generator exception the bytes of the line stay charged, although
nothing is loaded. -/
theorem cache_size_leak : ∃ s : State Nat, Reach 10 s ∧ s.size = 7 ∧ (∀ x, ¬ Loaded s x) := by
  have h1 : Reach 10 (match insert (State.init 10 : State Nat) 7 (fun _ => none) with
      | .ok s _ => s | _ => State.init 10) :=
    .ok (op := .insert 7 (fun _ => none)) .init rfl
  have h2 := Reach.thrown (op := .deref 0) h1 rfl
  refine ⟨_, h2, rfl, ?_⟩
  rintro x ⟨l, v, hl, hv⟩
  have hx : (x : Nat) < 1 := reach_bound h2 hl
  interval_cases x
  cases hl; cases hv

example : ∃ s : State Nat, Reach 2 s ∧ s.size = 2 ∧
    ∀ x l k, s.lines x = some l → l.generate k ≠ none := by
  obtain ⟨s, hs⟩ : ∃ s, run (State.init 2) demoOps = some s := ⟨_, rfl⟩
  have hr := run_reach .init _ hs
  refine ⟨s, hr, ?_⟩
  cases hs
  refine ⟨rfl, ?_⟩
  intro x l k hl
  have hx : (x : Nat) < 3 := reach_bound hr hl
  interval_cases x <;> (cases hl; simp)

/-! ### C03 -/

/-- C03: when a dereference that had to generate the object returns, the cache either fits its limit
or holds nothing but objects that are in use (the dereferenced one, the other held ones, and lines
whose generator threw). -/
theorem cache_bound_after_miss {m : Nat} {s s' : State Val} (h : Reach m s) {i : Id} {v : Val}
    (hmiss : ¬ Loaded s i) (e : deref s i = .ok s' v) :
    s'.size ≤ s'.maxSize ∨ ∀ x, Loaded s' x → Held s' x := by
  obtain ⟨V, I, k⟩ := reach_inv h
  rcases hl : s.lines i with _ | l
  · simp [deref, hl] at e
  rw [loaded_iff hl] at hmiss
  rcases deref_spec k hl with ⟨e', _⟩ | ⟨v', hv, _, e', _⟩ | ⟨_, _, s2, W, J, g2, hl2, g3, _, g5, _, _, ⟨v', _, e', j⟩ | ⟨_, e', j⟩⟩
  · rw [e'] at e; cases e
  · simp [hv] at hmiss
  · rw [e'] at e; cases e
    rcases g5 with g5 | g5
    · exact Or.inl g5
    · right
      intro x hx
      by_cases hxi : x = i
      · subst hxi; exact ⟨_, upd_eq, Nat.zero_lt_one⟩
      · obtain ⟨lx, vx, h1, h2⟩ := hx
        have hxV : x ∈ i :: W := (j.val x lx h1 (by simp)).2 (by simp [h2])
        obtain ⟨mm, k1, k2⟩ := g5 x (by simpa [hxi] using hxV)
        have k1' : (s2.setLine i { l with value := some v, genCount := l.genCount + 1, shared := 1 }).lines x
            = some mm := by
          simp only [State.setLine]; rw [upd_ne hxi]; exact k1
        refine ⟨mm, k1', ?_⟩
        rcases k2 with k2 | k2
        · exact k2
        · have := (g2.excl x mm k1 k2).1
          rw [k1'] at h1; cases h1
          rw [this] at h2; cases h2
  · rw [e'] at e; cases e

/-- C03, in bytes: after a miss, the excess over the limit is covered by the bytes in use. -/
theorem cache_bytes_after_miss_partial {m : Nat} {s s' : State Val} (h : Reach m s) {i : Id} {v : Val}
    (hmiss : ¬ Loaded s i) (e : deref s i = .ok s' v) :
    s'.size ≤ max s'.maxSize (bytes s' (fun l => decide (0 < l.shared) || l.excl)) := by
  have hr' : Reach m s' := .ok (op := .deref i) h (by simp [step, e, Res.map]; rfl)
  rcases cache_bound_after_miss h hmiss e with h1 | h1
  · exact le_max_of_le_left h1
  · refine le_max_of_le_right ?_
    rw [cache_size_exact hr']
    apply le_of_eq
    refine bytes_congr fun x l hl => ?_
    obtain ⟨V, I, k⟩ := reach_inv hr'
    have a : l.value.isSome → 0 < l.shared := by
      intro hv
      obtain ⟨l', e1, e2⟩ := h1 x ((loaded_iff hl).2 hv)
      rw [hl] at e1; cases e1; exact e2
    have b : 0 < l.shared → l.value.isSome := k.shared x l hl
    have : l.value.isSome = decide (0 < l.shared) := by
      by_cases hv : l.value.isSome
      · simp [hv, a hv]
      · have : ¬ 0 < l.shared := fun hh => hv (b hh)
        simp [this]; simpa using hv
    rw [this]

/-- C03 is false for hits: a dereference that hits does not bring an oversized cache back to its
limit. Here nothing else is held, the limit is 1, the object has one byte, and two bytes are loaded. -/
theorem cache_bound_fails_on_hit : ∃ s s' : State Nat, Reach 1 s ∧ Loaded s 0 ∧ deref s 0 = .ok s' 0 ∧
    s'.maxSize = 1 ∧ s'.size = 2 ∧ (∀ x, Held s' x → x = 0) ∧ ((s'.lines 0).map Line.size = some 1) := by
  obtain ⟨s, hs⟩ : ∃ s, run (State.init 1)
    [.insert 1 (fun k => some k), .insert 1 (fun k => some (k + 10)),
     .deref 0, .deref 1, .release 0, .release 1] = some s := ⟨_, rfl⟩
  have hr := run_reach .init _ hs
  cases hs
  refine ⟨_, _, hr, ⟨_, _, rfl, rfl⟩, rfl, rfl, rfl, ?_, rfl⟩
  rintro x ⟨l, h1, h2⟩
  have hx : (x : Nat) < 2 := reach_bound (Reach.ok (op := .deref 0) hr rfl) h1
  interval_cases x
  · rfl
  · cases h1; exact absurd h2 (by decide)

example : ∃ (s s' : State Nat) (v : Nat), Reach 2 s ∧ ¬ Loaded s 2 ∧ deref s 2 = .ok s' v ∧ Held s 1 := by
  obtain ⟨s, hs⟩ : ∃ s, run (State.init 2) demoOps = some s := ⟨_, rfl⟩
  have hr := run_reach .init _ hs
  cases hs
  refine ⟨_, _, _, hr, ?_, rfl, ⟨_, rfl, Nat.zero_lt_one⟩⟩
  rintro ⟨l, v, h1, h2⟩; cases h1; cases h2

/-! ### C04 -/

/-- C04: while a line is held, no call (of any thread, on any line) unloads or replaces its object,
destroys the line, or changes the line in any way other than the number of holders; only releases of
this line lower that number. -/
theorem held_line_stays {m : Nat} {s s' : State Val} (h : Reach m s) {x : Id} {l : Line Val} {v : Val}
    (hl : s.lines x = some l) (hs : 0 < l.shared) (hv : l.value = some v) (op : Op Val)
    (hp : (∃ o, step s op = .ok s' o) ∨ step s op = .thrown s' ∨ step s op = .blocked s') :
    ∃ n, s'.lines x = some { l with shared := n } ∧ (op ≠ .release x → l.shared ≤ n) ∧ l.shared ≤ n + 1 := by
  obtain ⟨V, I, k⟩ := reach_inv h
  have pin : l.pinned := Or.inl hs
  have same : ∀ t : State Val, t.lines x = some l →
      ∃ n, t.lines x = some { l with shared := n } ∧ (op ≠ .release x → l.shared ≤ n) ∧ l.shared ≤ n + 1 :=
    fun t ht => ⟨l.shared, ht, fun _ => le_refl _, by omega⟩
  have hxV : x < s.nextId := k.bound x ((k.lineDom x).1 (by simp [hl]))
  cases op with
  | insert n g =>
    obtain ⟨t, e, _, hlines, _⟩ := insert_spec k n g
    simp only [step, e, Res.map] at hp
    rcases hp with ⟨o, hp⟩ | hp | hp <;> cases hp
    refine same _ ?_
    rw [hlines, upd_ne (Nat.ne_of_lt hxV)]; exact hl
  | deref i =>
    rcases hli : s.lines i with _ | li
    · simp [step, deref, hli, Res.map] at hp
    rcases deref_spec k hli with ⟨e, _⟩ | ⟨v', hv', _, e, _⟩ | ⟨hnone, _, s2, W, J, _, hl2, g3, _, _, _, _, ⟨v', _, e, _⟩ | ⟨_, e, _⟩⟩ <;>
      (simp only [step, e, Res.map] at hp; rcases hp with ⟨o, hp⟩ | hp | hp <;> cases hp)
    · exact same _ hl
    · by_cases hx : x = i
      · subst hx; rw [hl] at hli; cases hli
        exact ⟨l.shared + 1, upd_eq, fun _ => by omega, by omega⟩
      · refine same _ ?_
        simp only [State.setLine]; rw [upd_ne hx]; exact hl
    · have hx : x ≠ i := by rintro rfl; rw [hl] at hli; cases hli; rw [hv] at hnone; cases hnone
      refine same _ ?_
      simp only [State.setLine]; rw [upd_ne hx]; exact g3.held hl pin
    · have hx : x ≠ i := by rintro rfl; rw [hl] at hli; cases hli; rw [hv] at hnone; cases hnone
      refine same _ ?_
      simp only [State.setLine]; rw [upd_ne hx]; exact g3.held hl pin
  | release i =>
    rcases hli : s.lines i with _ | li
    · simp [step, release, hli, Res.map] at hp
    by_cases hsi : 0 < li.shared
    · obtain ⟨e, _⟩ := release_spec k hli hsi
      simp only [step, e, Res.map] at hp
      rcases hp with ⟨o, hp⟩ | hp | hp <;> cases hp
      by_cases hx : x = i
      · subst hx; rw [hl] at hli; cases hli
        exact ⟨l.shared - 1, upd_eq, fun hh => absurd rfl hh, by omega⟩
      · refine same _ ?_
        simp only [State.setLine]; rw [upd_ne hx]; exact hl
    · have : li.shared = 0 := by omega
      simp [step, release, hli, this, Res.map] at hp
  | valid i =>
    rcases hli : s.lines i with _ | li
    · simp [step, valid, hli, Res.map] at hp
    by_cases hq : li.shared > 0 ∨ li.excl
    · simp only [step, valid, hli, hq, if_true, Res.map] at hp
      rcases hp with ⟨o, hp⟩ | hp | hp <;> cases hp
      exact same _ hl
    · simp only [step, valid, hli, hq, if_false, Res.map] at hp
      rcases hp with ⟨o, hp⟩ | hp | hp <;> cases hp
      exact same _ hl
  | deprioritize i =>
    rcases hli : s.lines i with _ | li
    · simp [step, deprioritize, hli, Res.map] at hp
    by_cases hq : li.pinned
    · have hq' : li.shared > 0 ∨ li.excl := hq
      simp only [step, deprioritize, hli, hq', if_true, Res.map] at hp
      rcases hp with ⟨o, hp⟩ | hp | hp <;> cases hp
      exact same _ hl
    · rcases deprioritize_spec k hli hq with ⟨_, e⟩ | ⟨A, B, t, _, hv, e, _, hlines, _⟩
      · simp only [step, e, Res.map] at hp
        rcases hp with ⟨o, hp⟩ | hp | hp <;> cases hp
        exact same _ hl
      · simp only [step, e, Res.map] at hp
        rcases hp with ⟨o, hp⟩ | hp | hp <;> cases hp
        exact same _ (by rw [hlines]; exact hl)
  | destroy i =>
    rcases hli : s.lines i with _ | li
    · simp [step, destroy, hli, Res.map] at hp
    by_cases hq : li.pinned
    · have hq' : li.shared > 0 ∨ li.excl := hq
      simp only [step, destroy, hli, hq', if_true, Res.map] at hp
      rcases hp with ⟨o, hp⟩ | hp | hp <;> cases hp
      exact same _ hl
    · obtain ⟨t, e, _, hlines, _⟩ := destroy_spec k hli hq
      simp only [step, e, Res.map] at hp
      rcases hp with ⟨o, hp⟩ | hp | hp <;> cases hp
      have hx : x ≠ i := by rintro rfl; rw [hl] at hli; cases hli; exact hq pin
      exact same _ (by rw [hlines, upd_ne hx]; exact hl)
  | resize n =>
    obtain ⟨t, V', I', _, f, _, _, ⟨e, _⟩ | ⟨e, _⟩⟩ := resize_spec k n <;>
      (simp only [step, e, Res.map] at hp; rcases hp with ⟨o, hp⟩ | hp | hp <;> cases hp)
    · exact same _ (f.held hl pin)
    · exact same _ (f.held hl pin)

/-- Non-vacuity: in the example, line 1 is held and a dereference of line 2 evicts line 0, not line 1. -/
example : ∃ s s' : State Nat, Reach 2 s ∧ Held s 1 ∧ step s (.deref 2) = .ok s' (.val 20) ∧
    ¬ Loaded s' 0 ∧ Loaded s' 1 := by
  obtain ⟨s, hs⟩ : ∃ s, run (State.init 2) demoOps = some s := ⟨_, rfl⟩
  have hr := run_reach .init _ hs
  cases hs
  refine ⟨_, _, hr, ⟨_, rfl, Nat.zero_lt_one⟩, rfl, ?_, ⟨_, _, rfl, rfl⟩⟩
  rintro ⟨l, v, h1, h2⟩; cases h1; cases h2

/-! ### C05 -/

/-- C05: a dereference returns the object made by the latest call of this line's own generator; if
the line was loaded the generator is not called and the loaded object is returned, otherwise it is
called exactly once. Afterwards the line is loaded with the returned object and held. -/
theorem deref_returns_generated {m : Nat} {s s' : State Val} (h : Reach m s) {i : Id} {v : Val}
    (e : deref s i = .ok s' v) :
    ∃ l l' k, s.lines i = some l ∧ s'.lines i = some l' ∧ l'.value = some v ∧ 0 < l'.shared ∧
      l'.generate = l.generate ∧ l'.genCount = k + 1 ∧ l.generate k = some v ∧
      (Loaded s i → l'.genCount = l.genCount ∧ l.value = some v) ∧
      (¬ Loaded s i → k = l.genCount) := by
  obtain ⟨V, I, k⟩ := reach_inv h
  rcases hl : s.lines i with _ | l
  · simp [deref, hl] at e
  rcases deref_spec k hl with ⟨e', _⟩ | ⟨v', hv, _, e', _⟩ | ⟨hv, _, s2, W, J, g2, hl2, g3, _, g5, _, _, ⟨v', hg, e', j⟩ | ⟨_, e', j⟩⟩
  · rw [e'] at e; cases e
  · rw [e'] at e; cases e
    obtain ⟨n, h1, h2⟩ := k.gen i l v hl hv
    refine ⟨l, _, n, rfl, upd_eq, hv, Nat.succ_pos _, rfl, h1, h2, fun _ => ⟨rfl, hv⟩, ?_⟩
    intro hn; exact absurd ((loaded_iff hl).2 (by simp [hv])) hn
  · rw [e'] at e; cases e
    refine ⟨l, _, l.genCount, rfl, upd_eq, rfl, Nat.zero_lt_one, rfl, rfl, hg, ?_, fun _ => rfl⟩
    intro hn; rw [loaded_iff hl, hv] at hn; simp at hn
  · rw [e'] at e; cases e

/-- C05: no call other than a dereference of an unloaded line ever calls a line's generator; loaded
objects are never replaced while loaded. -/
theorem generator_called_only_on_miss {m : Nat} {s s' : State Val} (h : Reach m s) {x : Id}
    {l l' : Line Val} (hl : s.lines x = some l) (hl' : s'.lines x = some l') (op : Op Val)
    (hp : (∃ o, step s op = .ok s' o) ∨ step s op = .thrown s' ∨ step s op = .blocked s')
    (hop : ¬ (op = .deref x ∧ ¬ Loaded s x)) :
    l'.genCount = l.genCount ∧ l'.generate = l.generate ∧ l'.size = l.size ∧
      (∀ v, l'.value = some v → l.value = some v) := by
  obtain ⟨V, I, k⟩ := reach_inv h
  have hxV : x < s.nextId := k.bound x ((k.lineDom x).1 (by simp [hl]))
  have same : s'.lines x = s.lines x → l'.genCount = l.genCount ∧ l'.generate = l.generate ∧
      l'.size = l.size ∧ (∀ v, l'.value = some v → l.value = some v) := by
    intro e; rw [hl, hl'] at e; cases e; exact ⟨rfl, rfl, rfl, fun _ h => h⟩
  have frame : ∀ t : State Val, t.lines = s.lines → EvFrame t s' → l'.genCount = l.genCount ∧
      l'.generate = l.generate ∧ l'.size = l.size ∧ (∀ v, l'.value = some v → l.value = some v) := by
    intro t ht f
    rcases f.2.2 x with e | ⟨lx, e1, _, _, e4⟩
    · exact same (by rw [e, ht])
    · rw [ht, hl] at e1; cases e1
      rw [hl'] at e4; cases e4
      exact ⟨rfl, rfl, rfl, by simp⟩
  cases op with
  | insert n g =>
    obtain ⟨t, e, _, hlines, _⟩ := insert_spec k n g
    simp only [step, e, Res.map] at hp
    rcases hp with ⟨o, hp⟩ | hp | hp <;> cases hp
    exact same (by rw [hlines, upd_ne (Nat.ne_of_lt hxV)])
  | deref i =>
    rcases hli : s.lines i with _ | li
    · simp [step, deref, hli, Res.map] at hp
    rcases deref_spec k hli with ⟨e, _⟩ | ⟨v', hv', _, e, _⟩ | ⟨hnone, _, s2, W, J, _, hl2, g3, _, _, _, _, hh⟩
    · simp only [step, e, Res.map] at hp; rcases hp with ⟨o, hp⟩ | hp | hp <;> cases hp
      exact same rfl
    · simp only [step, e, Res.map] at hp; rcases hp with ⟨o, hp⟩ | hp | hp <;> cases hp
      by_cases hx : x = i
      · subst hx; rw [hl] at hli; cases hli
        simp only [State.setLine, upd_eq] at hl'; cases hl'
        exact ⟨rfl, rfl, rfl, fun _ h => h⟩
      · refine same ?_
        simp only [State.setLine]; rw [upd_ne hx]
    · have hx : x ≠ i := by
        rintro rfl
        rw [hl] at hli; cases hli
        exact hop ⟨rfl, by rw [loaded_iff hl]; simp [hnone]⟩
      have fin : s'.lines x = s2.lines x := by
        rcases hh with ⟨v', _, e, _⟩ | ⟨_, e, _⟩ <;>
          (simp only [step, e, Res.map] at hp; rcases hp with ⟨o, hp⟩ | hp | hp <;> cases hp) <;>
          (simp only [State.setLine]; rw [upd_ne hx])
      rcases g3.2.2 x with e | ⟨lx, e1, _, _, e4⟩
      · exact same (by rw [fin, e])
      · rw [hl] at e1; cases e1
        rw [fin, e4] at hl'; cases hl'
        exact ⟨rfl, rfl, rfl, by simp⟩
  | release i =>
    rcases hli : s.lines i with _ | li
    · simp [step, release, hli, Res.map] at hp
    by_cases hsi : 0 < li.shared
    · obtain ⟨e, _⟩ := release_spec k hli hsi
      simp only [step, e, Res.map] at hp
      rcases hp with ⟨o, hp⟩ | hp | hp <;> cases hp
      by_cases hx : x = i
      · subst hx; rw [hl] at hli; cases hli
        simp only [State.setLine, upd_eq] at hl'; cases hl'
        exact ⟨rfl, rfl, rfl, fun _ h => h⟩
      · refine same ?_
        simp only [State.setLine]; rw [upd_ne hx]
    · have : li.shared = 0 := by omega
      simp [step, release, hli, this, Res.map] at hp
  | valid i =>
    rcases hli : s.lines i with _ | li
    · simp [step, valid, hli, Res.map] at hp
    by_cases hq : li.shared > 0 ∨ li.excl
    · simp only [step, valid, hli, hq, if_true, Res.map] at hp
      rcases hp with ⟨o, hp⟩ | hp | hp <;> cases hp
      exact same rfl
    · simp only [step, valid, hli, hq, if_false, Res.map] at hp
      rcases hp with ⟨o, hp⟩ | hp | hp <;> cases hp
      exact same rfl
  | deprioritize i =>
    rcases hli : s.lines i with _ | li
    · simp [step, deprioritize, hli, Res.map] at hp
    by_cases hq : li.pinned
    · have hq' : li.shared > 0 ∨ li.excl := hq
      simp only [step, deprioritize, hli, hq', if_true, Res.map] at hp
      rcases hp with ⟨o, hp⟩ | hp | hp <;> cases hp
      exact same rfl
    · rcases deprioritize_spec k hli hq with ⟨_, e⟩ | ⟨A, B, t, _, hv, e, _, hlines, _⟩
      · simp only [step, e, Res.map] at hp
        rcases hp with ⟨o, hp⟩ | hp | hp <;> cases hp
        exact same rfl
      · simp only [step, e, Res.map] at hp
        rcases hp with ⟨o, hp⟩ | hp | hp <;> cases hp
        exact same (by rw [hlines])
  | destroy i =>
    rcases hli : s.lines i with _ | li
    · simp [step, destroy, hli, Res.map] at hp
    by_cases hq : li.pinned
    · have hq' : li.shared > 0 ∨ li.excl := hq
      simp only [step, destroy, hli, hq', if_true, Res.map] at hp
      rcases hp with ⟨o, hp⟩ | hp | hp <;> cases hp
      exact same rfl
    · obtain ⟨t, e, _, hlines, _⟩ := destroy_spec k hli hq
      simp only [step, e, Res.map] at hp
      rcases hp with ⟨o, hp⟩ | hp | hp <;> cases hp
      have hx : x ≠ i := by rintro rfl; rw [hlines] at hl'; simp at hl'
      exact same (by rw [hlines, upd_ne hx])
  | resize n =>
    obtain ⟨t, V', I', _, f, _, _, ⟨e, _⟩ | ⟨e, _⟩⟩ := resize_spec k n <;>
      (simp only [step, e, Res.map] at hp; rcases hp with ⟨o, hp⟩ | hp | hp <;> cases hp)
    · exact frame { s with maxSize := n } rfl f
    · exact frame { s with maxSize := n } rfl f

/-- Non-vacuity: after line 0 is evicted, dereferencing it again calls the generator a second time. -/
example : ∃ s s' : State Nat, Reach 1 s ∧ ¬ Loaded s 0 ∧ deref s 0 = .ok s' 1 ∧
    ((s.lines 0).map Line.genCount = some 1) := by
  obtain ⟨s, hs⟩ : ∃ s, run (State.init 1)
    [.insert 1 (fun k => some k), .insert 1 (fun k => some (k + 10)),
     .deref 0, .release 0, .deref 1, .release 1] = some s := ⟨_, rfl⟩
  have hr := run_reach .init _ hs
  cases hs
  refine ⟨_, _, hr, ?_, rfl, rfl⟩
  rintro ⟨l, v, h1, h2⟩; cases h1; cases h2

/-! ### C06 -/

/-- The documented eviction rule: of two idle candidates the one dereferenced less recently goes
first. -/
def LRUClaim : Prop :=
  ∀ (m : Nat) (ops : List (Op Nat)) (i : Id) (s s' : State Nat) (v : Nat),
    run (State.init m) ops = some s → deref s i = .ok s' v →
    ∀ e x, e ≠ i → x ≠ i → Loaded s e → ¬ Loaded s' e → Loaded s' x → ¬ Held s' x →
      lastUse ops e < lastUse ops x

/-- C06 is false: hits do not refresh a line. With room for two objects, use 0, use 1, use 0 again,
then 2: object 0 is evicted although it was used after object 1. -/
theorem lru_refuted : ¬ LRUClaim := by
  intro h
  have := h 2 [.insert 1 (fun k => some k), .insert 1 (fun k => some k), .insert 1 (fun k => some k),
    .deref 0, .release 0, .deref 1, .release 1, .deref 0, .release 0] 2 _ _ _ rfl rfl 0 1
    (by decide) (by decide) ⟨_, _, rfl, rfl⟩
    (by rintro ⟨l, v, h1, h2⟩; cases h1; cases h2) ⟨_, _, rfl, rfl⟩
    (by rintro ⟨l, h1, h2⟩; cases h1; exact absurd h2 (by decide))
  revert this
  decide

/-- C06, what does hold: eviction is in order of load time. If a dereference evicts `e` and keeps the
idle line `x`, then `e` has the smaller rank: it was loaded before `x`, or deprioritized, and if both
were deprioritized then `e` was deprioritized later. Held lines are skipped. The last line evicted was
needed. Missing for C06: use without loading does not count as use. -/
theorem eviction_order_partial {m t : Nat} {rk : Id → Int} {s s' : State Val}
    (h : ReachRank m t rk s) {i : Id} {v : Val} (hd : deref s i = .ok s' v) :
    (∀ e x, e ≠ i → x ≠ i → Loaded s e → ¬ Loaded s' e → Loaded s' x → ¬ Held s' x → rk e < rk x) ∧
    (∀ e, Loaded s e → ¬ Loaded s' e → ¬ Held s e) ∧
    ((∃ e, Loaded s e ∧ ¬ Loaded s' e) →
      ∃ e l, Loaded s e ∧ ¬ Loaded s' e ∧ s.lines e = some l ∧ s.maxSize < s'.size + l.size) := by
  obtain ⟨V, I, k, kp, kb⟩ := reach_rank h
  rcases hl : s.lines i with _ | l
  · simp [deref, hl] at hd
  rcases deref_spec k hl with ⟨e', _⟩ | ⟨v', hv, _, e', _⟩ | ⟨hv, hnp, s2, W, J, g2, hl2, g3, g4, g5, g6, g7, ⟨v', hg, e', j⟩ | ⟨_, e', j⟩⟩
  · rw [e'] at hd; cases hd
  · rw [e'] at hd; cases hd
    have same : ∀ e, Loaded s e → Loaded (s.setLine i { l with shared := l.shared + 1 }) e := by
      rintro e ⟨le, ve, h1, h2⟩
      by_cases he : e = i
      · subst he; exact ⟨_, _, upd_eq, hv⟩
      · exact ⟨le, ve, by simp only [State.setLine]; rw [upd_ne he]; exact h1, h2⟩
    refine ⟨fun e x _ _ h1 h2 => absurd (same e h1) h2, fun e h1 h2 => absurd (same e h1) h2, ?_⟩
    rintro ⟨e, h1, h2⟩; exact absurd (same e h1) h2
  · rw [e'] at hd; cases hd
    have inV : ∀ e, Loaded s e → e ∈ V := by
      rintro e ⟨le, ve, h1, h2⟩; exact (k.val e le h1 (by simp)).2 (by simp [h2])
    have notW : ∀ e, e ≠ i → Loaded s e →
        ¬ Loaded (s2.setLine i { l with value := some v, genCount := l.genCount + 1, shared := 1 }) e →
        e ∉ W := by
      rintro e hei ⟨le, ve, h1, h2⟩ hn hW
      apply hn
      have : s2.lines e = s.lines e ∨ ∃ l, s.lines e = some l ∧ ¬ l.pinned ∧ l.value.isSome ∧
          s2.lines e = some { l with value := none } := g3.2.2 e
      rcases this with h' | ⟨l', f1, f2, f3, f4⟩
      · exact ⟨le, ve, by simp only [State.setLine]; rw [upd_ne hei, h']; exact h1, h2⟩
      · exfalso
        rw [h1] at f1; cases f1
        have := (g2.val e _ f4 (by simpa using hei.symm)).1 (by simp [hW])
        simp at this
        exact f2 (Or.inr this)
    have hni : ∀ e, Loaded s e → e ≠ i := by
      rintro e h1 rfl; rw [loaded_iff hl, hv] at h1; simp at h1
    have notL : ∀ e, e ∈ V → e ∉ W → e ≠ i → Loaded s e ∧ ¬ Loaded (s2.setLine i
        { l with value := some v, genCount := l.genCount + 1, shared := 1 }) e := by
      intro e hV hW hei
      obtain ⟨le, hle⟩ := k.line (c := e) (by simp [hV])
      have f := g3.2.2 e
      rw [hle] at f
      have : s2.lines e = some { le with value := none } ∧ le.value.isSome := by
        rcases f with f | ⟨l', f1, _, f3, f4⟩
        · exfalso
          have a := (k.val e le hle (by simp)).1 hV
          exact hW (by simpa [hei] using (g2.val e le f (by simpa using hei.symm)).2 a)
        · cases f1; exact ⟨f4, f3⟩
      refine ⟨(loaded_iff hle).2 this.2, ?_⟩
      rintro ⟨l', v', h1, h2⟩
      simp only [State.setLine] at h1; rw [upd_ne hei, this.1] at h1; cases h1; cases h2
    refine ⟨?_, ?_, ?_⟩
    · intro e x hei hxi h1 h2 h3 h4
      obtain ⟨lx, vx, hx1, hx2⟩ := h3
      have hxW : x ∈ W := by
        have := (j.val x lx hx1 (by simp)).2 (by simp [hx2])
        simpa [hxi] using this
      refine before_rank kp (g6 e (inV e h1) (notW e hei h1 h2) x hxW ⟨lx, ?_, ?_⟩)
      · simp only [State.setLine] at hx1; rw [upd_ne hxi] at hx1; exact hx1
      · rintro (hp | hp)
        · exact h4 ⟨lx, hx1, hp⟩
        · have := (j.excl x lx hx1 hp).1; rw [this] at hx2; cases hx2
    · rintro e h1 h2 ⟨le, h3, h4⟩
      apply h2
      obtain ⟨_, ve, h5, h6⟩ := h1
      rw [h3] at h5; cases h5
      have := g3.held h3 (Or.inl h4)
      have hei : e ≠ i := hni e ⟨_, _, h3, h6⟩
      exact ⟨le, ve, by simp only [State.setLine]; rw [upd_ne hei]; exact this, h6⟩
    · rintro ⟨e, h1, h2⟩
      have hW : W ≠ V := by
        rintro rfl; exact notW e (hni e h1) h1 h2 (inV e h1)
      obtain ⟨w, a1, a2, a3⟩ := g7 hW
      have hwi : w ≠ i := by
        intro hw
        rw [hw] at a1
        have := (k.val i l hl (by simp)).1 a1
        simp [hv] at this
        exact hnp (Or.inr this)
      obtain ⟨b1, b2⟩ := notL w a1 a2 hwi
      obtain ⟨le, hle⟩ := k.line (c := w) (by simp [a1])
      refine ⟨w, le, b1, b2, hle, ?_⟩
      have : lineSize s w = le.size := by simp [lineSize, hle]
      rw [this] at a3
      exact a3
  · rw [e'] at hd; cases hd

/-! ### C07 -/

/-- C07: `resize n` sets the limit; if it returns, at most `n` bytes are charged; it returns unless a
held line stands in the way; it only unloads idle lines, never loads; among idle lines it unloads
those with the smallest rank, and no more than needed. -/
theorem resize_enforces_limit {m t : Nat} {rk : Id → Int} {s : State Val} (h : ReachRank m t rk s) (n : Nat) :
    ∃ s', (resize s n = .ok s' () ∨ resize s n = .blocked s') ∧ s'.maxSize = n ∧
      (resize s n = .ok s' () → s'.size ≤ n) ∧
      ((∀ x, ¬ Held s x ∧ ¬ Wedged s x) → resize s n = .ok s' ()) ∧
      (∀ x, s'.lines x = s.lines x ∨
        (Loaded s x ∧ ¬ Held s x ∧ ¬ Loaded s' x)) ∧
      (∀ e x, Loaded s e → ¬ Loaded s' e → Loaded s' x → rk e < rk x) ∧
      ((∃ e, Loaded s e ∧ ¬ Loaded s' e) →
        ∃ e l, Loaded s e ∧ ¬ Loaded s' e ∧ s.lines e = some l ∧ n < s'.size + l.size) := by
  obtain ⟨V, I, k, kp, kb⟩ := reach_rank h
  obtain ⟨s', V', I', k', f, hpre, hnec, hres⟩ := resize_spec k n
  have hmax : s'.maxSize = n := f.1
  have ex : ∀ x l, s.lines x = some l → l.excl = true → ∀ t : State Val, t.lines x = some l → ¬ Loaded t x := by
    intro x l hl he t ht hL
    rw [loaded_iff ht, (k.excl x l hl he).1] at hL; simp at hL
  have diff : ∀ x, s'.lines x = s.lines x ∨ (Loaded s x ∧ ¬ Held s x ∧ ¬ Loaded s' x) := by
    intro x
    rcases f.2.2 x with e | ⟨l, e1, e2, e3, e4⟩
    · exact Or.inl e
    · right
      have e1 : s.lines x = some l := e1
      refine ⟨(loaded_iff e1).2 e3, ?_, by rw [loaded_iff e4]; simp⟩
      rintro ⟨l', h1, h2⟩
      rw [e1] at h1; cases h1; exact e2 (Or.inl h2)
  have inV : ∀ e, Loaded s e → e ∈ V := by
    rintro e ⟨le, ve, h1, h2⟩; exact (k.val e le h1 (by simp)).2 (by simp [h2])
  have notV' : ∀ e, Loaded s e → ¬ Loaded s' e → e ∉ V' := by
    intro e h1 h2 hV'
    obtain ⟨le, ve, h3, h4⟩ := h1
    rcases f.2.2 e with e1 | ⟨l, e1, e2, e3, e4⟩
    · exact h2 ⟨le, ve, by rw [e1]; exact h3, h4⟩
    · have e1 : s.lines e = some l := e1
      have := (k'.val e _ e4 (by simp)).1 hV'
      simp at this
      exact e2 (Or.inr this)
  have notL : ∀ e, e ∈ V → e ∉ V' → Loaded s e ∧ ¬ Loaded s' e := by
    intro e hV hV'
    obtain ⟨le, hle⟩ := k.line (c := e) (by simp [hV])
    rcases diff e with d | d
    · exfalso
      rw [hle] at d
      exact hV' ((k'.val e le d (by simp)).2 ((k.val e le hle (by simp)).1 hV))
    · exact ⟨d.1, d.2.2⟩
  refine ⟨s', ?_, hmax, ?_, ?_, diff, ?_, ?_⟩
  · rcases hres with ⟨e, _⟩ | ⟨e, _⟩
    · exact Or.inl e
    · exact Or.inr e
  · intro e
    rcases hres with ⟨_, hs⟩ | ⟨e', _⟩
    · rw [hmax] at hs; exact hs
    · rw [e'] at e; cases e
  · intro hfree
    rcases hres with ⟨e, _⟩ | ⟨e, _, c, l, h1, h2, h3⟩
    · exact e
    · exfalso
      rcases f.2.2 c with e1 | ⟨l', e1, e2, e3, e4⟩
      · have e1 : s'.lines c = s.lines c := e1
        rw [h2] at e1
        rcases h3 with h3 | h3
        · exact (hfree c).1 ⟨l, e1.symm, h3⟩
        · exact (hfree c).2 ⟨l, e1.symm, h3⟩
      · rw [h2] at e4; cases e4; exact e2 h3
  · intro e x h1 h2 h3
    obtain ⟨lx, vx, hx1, hx2⟩ := h3
    have hxV' : x ∈ V' := (k'.val x lx hx1 (by simp)).2 (by simp [hx2])
    obtain ⟨T, rfl⟩ := hpre
    have heT : e ∈ T := by
      have := inV e h1
      simp [notV' e h1 h2] at this; exact this
    exact (List.pairwise_append.1 kp).2.2 x hxV' e heT
  · rintro ⟨e, h1, h2⟩
    have hne : V' ≠ V := by rintro rfl; exact notV' e h1 h2 (inV e h1)
    obtain ⟨e', a1, a2, a3⟩ := hnec hne
    obtain ⟨b1, b2⟩ := notL e' a1 a2
    obtain ⟨le, hle⟩ := k.line (c := e') (by simp [a1])
    refine ⟨e', le, b1, b2, hle, ?_⟩
    have : lineSize s e' = le.size := by simp [lineSize, hle]
    rw [this] at a3; exact a3

/-- Non-vacuity of `ReachRank` for C06 and C07: two loaded lines of which line 0, loaded first, has
been used again since, and line 1 was deprioritized. -/
example : ∃ (rk : Id → Int) (s : State Nat), ReachRank 3 7 rk s ∧ Loaded s 0 ∧ Loaded s 1 ∧
    rk 1 < rk 0 ∧ ¬ Held s 0 := by
  have h0 : ReachRank 3 0 (fun _ => 0) (State.init 3 : State Nat) := .init
  have h1 := ReachRank.other (op := .insert 1 (fun k => some k)) h0 (by simp) (by simp) (Or.inl ⟨_, rfl⟩)
  have h2 := ReachRank.other (op := .insert 1 (fun k => some k)) h1 (by simp) (by simp) (Or.inl ⟨_, rfl⟩)
  have h3 := ReachRank.load (i := 0) h2 (by rintro ⟨l, v, a, b⟩; cases a; cases b) (Or.inl ⟨_, rfl⟩)
  have h4 := ReachRank.other (op := .release 0) h3 (by simp) (by simp) (Or.inl ⟨_, rfl⟩)
  have h5 := ReachRank.load (i := 1) h4 (by rintro ⟨l, v, a, b⟩; cases a; cases b) (Or.inl ⟨_, rfl⟩)
  have h6 := ReachRank.other (op := .release 1) h5 (by simp) (by simp) (Or.inl ⟨_, rfl⟩)
  have h7 := ReachRank.deprioritize (i := 1) h6 ⟨_, _, rfl, rfl⟩ rfl
  refine ⟨_, _, h7, ⟨_, _, rfl, rfl⟩, ⟨_, _, rfl, rfl⟩, by decide, ?_⟩
  rintro ⟨l, a, b⟩; cases a; exact absurd b (by decide)

end VW.Cache
