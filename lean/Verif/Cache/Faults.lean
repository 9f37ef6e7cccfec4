import Verif.Cache.Props
/-!
Properties C40 (a generator that throws) and C41 (`deprioritize` racing with eviction).
-/
namespace VW.Cache

variable {Val : Type}

/-! ### C40 -/

/-- C40 is false: once the generator of a line threw, the line mutex stays locked for ever. No call
by anybody changes the line any more, and every dereference, `valid`, `deprioritize` and destruction
of it blocks. -/
theorem generator_throw_wedges {m : Nat} {s : State Val} (h : Reach m s) {x : Id} {l : Line Val}
    (hl : s.lines x = some l) (hw : l.excl = true) :
    step s (.deref x) = .blocked s ∧ step s (.valid x) = .blocked s ∧
    step s (.deprioritize x) = .blocked s ∧ step s (.destroy x) = .blocked s ∧
    ∀ op s', ((∃ o, step s op = .ok s' o) ∨ step s op = .thrown s' ∨ step s op = .blocked s') →
      s'.lines x = some l := by
  refine ⟨by simp [step, deref, hl, hw, Res.map], by simp [step, valid, hl, hw, Res.map],
    by simp [step, deprioritize, hl, hw, Res.map], by simp [step, destroy, hl, hw, Res.map], ?_⟩
  obtain ⟨V, I, k⟩ := reach_inv h
  have pin : l.pinned := Or.inr hw
  obtain ⟨hnone, hsh, _⟩ := k.excl x l hl hw
  have hxV : x < s.nextId := k.bound x ((k.lineDom x).1 (by simp [hl]))
  intro op s' hp
  cases op with
  | insert n g =>
    obtain ⟨t, e, _, hlines, _⟩ := insert_spec k n g
    simp only [step, e, Res.map] at hp
    rcases hp with ⟨o, hp⟩ | hp | hp <;> cases hp
    rw [hlines, upd_ne (Nat.ne_of_lt hxV)]; exact hl
  | deref i =>
    rcases hli : s.lines i with _ | li
    · simp [step, deref, hli, Res.map] at hp
    rcases deref_spec k hli with ⟨e, _⟩ | ⟨v', hv', hex, e, _⟩ | ⟨_, hnp, s2, W, J, _, hl2, g3, _, _, _, _, ⟨v', _, e, _⟩ | ⟨_, e, _⟩⟩ <;>
      (simp only [step, e, Res.map] at hp; rcases hp with ⟨o, hp⟩ | hp | hp <;> cases hp)
    · exact hl
    · have hx : x ≠ i := by rintro rfl; rw [hl] at hli; cases hli; simp [hw] at hex
      simp only [State.setLine]; rw [upd_ne hx]; exact hl
    · have hx : x ≠ i := by rintro rfl; rw [hl] at hli; cases hli; exact hnp pin
      simp only [State.setLine]; rw [upd_ne hx]; exact g3.held hl pin
    · have hx : x ≠ i := by rintro rfl; rw [hl] at hli; cases hli; exact hnp pin
      simp only [State.setLine]; rw [upd_ne hx]; exact g3.held hl pin
  | release i =>
    rcases hli : s.lines i with _ | li
    · simp [step, release, hli, Res.map] at hp
    by_cases hsi : 0 < li.shared
    · obtain ⟨e, _⟩ := release_spec k hli hsi
      simp only [step, e, Res.map] at hp
      rcases hp with ⟨o, hp⟩ | hp | hp <;> cases hp
      have hx : x ≠ i := by rintro rfl; rw [hl] at hli; cases hli; omega
      simp only [State.setLine]; rw [upd_ne hx]; exact hl
    · have : li.shared = 0 := by omega
      simp [step, release, hli, this, Res.map] at hp
  | valid i =>
    rcases hli : s.lines i with _ | li
    · simp [step, valid, hli, Res.map] at hp
    by_cases hq : li.shared > 0 ∨ li.excl
    · simp only [step, valid, hli, hq, if_true, Res.map] at hp
      rcases hp with ⟨o, hp⟩ | hp | hp <;> cases hp
      exact hl
    · simp only [step, valid, hli, hq, if_false, Res.map] at hp
      rcases hp with ⟨o, hp⟩ | hp | hp <;> cases hp
      exact hl
  | deprioritize i =>
    rcases hli : s.lines i with _ | li
    · simp [step, deprioritize, hli, Res.map] at hp
    by_cases hq : li.pinned
    · have hq' : li.shared > 0 ∨ li.excl := hq
      simp only [step, deprioritize, hli, hq', if_true, Res.map] at hp
      rcases hp with ⟨o, hp⟩ | hp | hp <;> cases hp
      exact hl
    · rcases deprioritize_spec k hli hq with ⟨_, e⟩ | ⟨A, B, t, _, hv, e, _, hlines, _⟩
      · simp only [step, e, Res.map] at hp
        rcases hp with ⟨o, hp⟩ | hp | hp <;> cases hp
        exact hl
      · simp only [step, e, Res.map] at hp
        rcases hp with ⟨o, hp⟩ | hp | hp <;> cases hp
        rw [hlines]; exact hl
  | destroy i =>
    rcases hli : s.lines i with _ | li
    · simp [step, destroy, hli, Res.map] at hp
    by_cases hq : li.pinned
    · have hq' : li.shared > 0 ∨ li.excl := hq
      simp only [step, destroy, hli, hq', if_true, Res.map] at hp
      rcases hp with ⟨o, hp⟩ | hp | hp <;> cases hp
      exact hl
    · obtain ⟨t, e, _, hlines, _⟩ := destroy_spec k hli hq
      simp only [step, e, Res.map] at hp
      rcases hp with ⟨o, hp⟩ | hp | hp <;> cases hp
      have hx : x ≠ i := by rintro rfl; rw [hl] at hli; cases hli; exact hq pin
      rw [hlines, upd_ne hx]; exact hl
  | resize n =>
    obtain ⟨t, V', I', _, f, _, _, ⟨e, _⟩ | ⟨e, _⟩⟩ := resize_spec k n <;>
      (simp only [step, e, Res.map] at hp; rcases hp with ⟨o, hp⟩ | hp | hp <;> cases hp)
    · exact f.held hl pin
    · exact f.held hl pin

/-- Non-vacuity: a dereference whose generator throws leaves such a line. -/
example : ∃ (s s' : State Nat) (l : Line Nat), Reach 10 s ∧ step s (.deref 0) = .thrown s' ∧
    Reach 10 s' ∧ s'.lines 0 = some l ∧ l.excl = true := by
  obtain ⟨s, hs⟩ : ∃ s, run (State.init 10) [.insert 7 (fun _ => (none : Option Nat))] = some s := ⟨_, rfl⟩
  have hr := run_reach .init _ hs
  cases hs
  exact ⟨_, _, _, hr, rfl, .thrown (op := .deref 0) hr rfl, rfl, rfl⟩

/-! ### C41 -/

/-- The second half of `CacheLine::deprioritize` (Cache.h:393-396), after `valid()` returned true and
its lock was dropped: takes the lock again and moves the line, without looking at `m_value` again. -/
def deprioritizeTail (s : State Val) (i : Id) : Option (State Val) :=
  match s.lists.deprioritize i with
  | none => none
  | some ls => some { s with lists := ls }

theorem evict_diverges {s : State Val} {c line : Id} {l : Line Val} (hl : s.lines c = some l)
    (hv : l.value = none) (hs : l.shared = 0) (he : l.excl = false) (hc : c ≠ line)
    (hlast : s.lists.lastValid = some c) (hsz : s.maxSize < s.size) (fuel : Nat) :
    evict line fuel s (some c) = none := by
  induction fuel with
  | zero => rfl
  | succ n ih =>
    unfold evict
    have : ¬ s.size ≤ s.maxSize := by omega
    have ht : tryInvalidate s c = some (s, true) := by simp [tryInvalidate, hl, hs, he, hv]
    simp only [this, if_false, hc, ht, hlast]
    exact ih

/-- C41 is false: thread 1 calls `deprioritize` on a loaded line and gets past the `valid()` test;
thread 2 loads another object, which evicts that line; thread 1 finishes. Now an unloaded line is at
the tail of the valid list (and still the head of the invalid list), and the next dereference that
exceeds the limit never returns: whatever number of iterations its eviction loop is given, it does not
finish. -/
theorem deprioritize_race_hangs : ∃ s1 s2 s3 : State Nat,
    Reach 1 s1 ∧ step s1 (.valid 0) = .ok s1 (.bool true) ∧      -- thread 1: valid()
    Reach 1 s2 ∧ run s1 [.deref 1, .release 1] = some s2 ∧        -- thread 2
    deprioritizeTail s2 0 = some s3 ∧                              -- thread 1: the rest
    s3.lists.lastValid = some 0 ∧ s3.lists.firstInvalid = some 0 ∧ ¬ Loaded s3 0 ∧
    ∃ ls, s3.lists.validate 2 = some ls ∧                          -- thread 2: dereference of line 2
      ∀ fuel, evict 2 fuel { s3 with lists := ls, size := s3.size + 1 } ls.lastValid = none := by
  obtain ⟨s1, h1⟩ : ∃ s, run (State.init 1)
    [.insert 1 (fun k => some k), .insert 1 (fun k => some k), .insert 1 (fun k => some k),
     .deref 0, .release 0] = some s := ⟨_, rfl⟩
  have r1 := run_reach .init _ h1
  cases h1
  refine ⟨_, _, _, r1, rfl, run_reach (ops := [.deref 1, .release 1]) r1 rfl, rfl, rfl, rfl, rfl, ?_, _, rfl, ?_⟩
  · rintro ⟨l, v, a, b⟩; cases a; cases b
  · intro fuel
    exact evict_diverges (l := ⟨1, fun k => some k, none, 1, 0, false⟩) rfl rfl rfl rfl (by decide) rfl (by decide) fuel

/-- C41, what does hold: as one uninterrupted call, `deprioritize` keeps every invariant (C01) and
makes the line the first candidate for eviction without unloading anything. Missing: atomicity. -/
theorem deprioritize_atomic_partial {m : Nat} {s s' : State Val} (h : Reach m s) {i : Id}
    (e : step s (.deprioritize i) = .ok s' .unit) :
    s'.lines = s.lines ∧ s'.size = s.size ∧ (Loaded s i → s'.lists.lastValid = some i) ∧
      (∀ n, ¬ Loaded s i → s'.lists.heap n = s.lists.heap n) := by
  obtain ⟨V, I, k⟩ := reach_inv h
  rcases hl : s.lines i with _ | l
  · simp [step, deprioritize, hl, Res.map] at e
  by_cases hq : l.pinned
  · have hq' : l.shared > 0 ∨ l.excl := hq
    simp [step, deprioritize, hl, hq', Res.map] at e
  · rcases deprioritize_spec k hl hq with ⟨hv, e'⟩ | ⟨A, B, t, _, hv, e', j, hlines, hsz, _⟩
    · simp only [step, e', Res.map] at e; cases e
      refine ⟨rfl, rfl, ?_, fun _ _ => rfl⟩
      intro hL; rw [loaded_iff hl, hv] at hL; simp at hL
    · simp only [step, e', Res.map] at e; cases e
      refine ⟨hlines, hsz, fun _ => by rw [j.rep.lv]; simp, ?_⟩
      intro n hL; exact absurd ((loaded_iff hl).2 hv) hL

end VW.Cache
