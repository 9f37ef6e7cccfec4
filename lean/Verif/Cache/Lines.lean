import Verif.Cache.Props
/-! Lines other than a destroyed one survive every call, with their generator. Used by `Verif.Block`. -/
namespace VW.Cache
variable {Val : Type}

theorem setLine_self (s : State Val) (i : Id) (l : Line Val) : (s.setLine i l).lines i = some l := by
  simp only [State.setLine, upd_eq]

theorem line_kept {m : Nat} {s s' : State Val} (h : Reach m s) {x : Id} {l : Line Val}
    (hl : s.lines x = some l) (op : Op Val) (hd : op ≠ .destroy x) (hp : Post (step s op) s') :
    ∃ l', s'.lines x = some l' ∧ l'.generate = l.generate := by
  obtain ⟨V, I, k⟩ := reach_inv h
  have hxV : x < s.nextId := k.bound x ((k.lineDom x).1 (by simp [hl]))
  have same : s'.lines x = s.lines x → ∃ l', s'.lines x = some l' ∧ l'.generate = l.generate :=
    fun e => ⟨l, by rw [e, hl], rfl⟩
  have frame : ∀ t : State Val, t.lines = s.lines → EvFrame t s' →
      ∃ l', s'.lines x = some l' ∧ l'.generate = l.generate := by
    intro t ht f
    rcases f.2.2 x with e | ⟨lx, e1, _, _, e4⟩
    · exact same (by rw [e, ht])
    · rw [ht, hl] at e1; cases e1
      exact ⟨_, e4, rfl⟩
  cases op with
  | insert n g =>
    obtain ⟨t, e, _, hlines, _⟩ := insert_spec k n g
    simp only [step, e, Res.map, Post] at hp
    rcases hp with ⟨o, hp⟩ | hp | hp <;> cases hp
    exact same (by rw [hlines, upd_ne (Nat.ne_of_lt hxV)])
  | deref i =>
    rcases hli : s.lines i with _ | li
    · simp [step, deref, hli, Res.map, Post] at hp
    rcases deref_spec k hli with ⟨e, _⟩ | ⟨v', hv', _, e, _⟩ | ⟨hnone, _, s2, W, J, _, hl2, g3, _, _, _, _, hh⟩
    · simp only [step, e, Res.map, Post] at hp; rcases hp with ⟨o, hp⟩ | hp | hp <;> cases hp
      exact same rfl
    · simp only [step, e, Res.map, Post] at hp; rcases hp with ⟨o, hp⟩ | hp | hp <;> cases hp
      by_cases hx : x = i
      · subst hx; rw [hl] at hli; cases hli
        exact ⟨_, setLine_self _ _ _, rfl⟩
      · refine same ?_
        simp only [State.setLine]; rw [upd_ne hx]
    · by_cases hx : x = i
      · subst hx; rw [hl] at hli; cases hli
        rcases hh with ⟨v', _, e, _⟩ | ⟨_, e, _⟩ <;>
          (simp only [step, e, Res.map, Post] at hp; rcases hp with ⟨o, hp⟩ | hp | hp <;> cases hp) <;>
          exact ⟨_, setLine_self _ _ _, rfl⟩
      · have fin : s'.lines x = s2.lines x := by
          rcases hh with ⟨v', _, e, _⟩ | ⟨_, e, _⟩ <;>
            (simp only [step, e, Res.map, Post] at hp; rcases hp with ⟨o, hp⟩ | hp | hp <;> cases hp) <;>
            (simp only [State.setLine]; rw [upd_ne hx])
        rcases g3.2.2 x with e | ⟨lx, e1, _, _, e4⟩
        · exact same (by rw [fin, e])
        · rw [hl] at e1; cases e1
          exact ⟨_, fin.trans e4, rfl⟩
  | release i =>
    rcases hli : s.lines i with _ | li
    · simp [step, release, hli, Res.map, Post] at hp
    by_cases hsi : 0 < li.shared
    · obtain ⟨e, _⟩ := release_spec k hli hsi
      simp only [step, e, Res.map, Post] at hp
      rcases hp with ⟨o, hp⟩ | hp | hp <;> cases hp
      by_cases hx : x = i
      · subst hx; rw [hl] at hli; cases hli
        exact ⟨_, setLine_self _ _ _, rfl⟩
      · refine same ?_
        simp only [State.setLine]; rw [upd_ne hx]
    · have : li.shared = 0 := by omega
      simp [step, release, hli, this, Res.map, Post] at hp
  | valid i =>
    rcases hli : s.lines i with _ | li
    · simp [step, valid, hli, Res.map, Post] at hp
    by_cases hq : li.shared > 0 ∨ li.excl
    · simp only [step, valid, hli, hq, if_true, Res.map, Post] at hp
      rcases hp with ⟨o, hp⟩ | hp | hp <;> cases hp
      exact same rfl
    · simp only [step, valid, hli, hq, if_false, Res.map, Post] at hp
      rcases hp with ⟨o, hp⟩ | hp | hp <;> cases hp
      exact same rfl
  | deprioritize i =>
    rcases hli : s.lines i with _ | li
    · simp [step, deprioritize, hli, Res.map, Post] at hp
    by_cases hq : li.pinned
    · have hq' : li.shared > 0 ∨ li.excl := hq
      simp only [step, deprioritize, hli, hq', if_true, Res.map, Post] at hp
      rcases hp with ⟨o, hp⟩ | hp | hp <;> cases hp
      exact same rfl
    · rcases deprioritize_spec k hli hq with ⟨_, e⟩ | ⟨A, B, t, _, hv, e, _, hlines, _⟩
      · simp only [step, e, Res.map, Post] at hp
        rcases hp with ⟨o, hp⟩ | hp | hp <;> cases hp
        exact same rfl
      · simp only [step, e, Res.map, Post] at hp
        rcases hp with ⟨o, hp⟩ | hp | hp <;> cases hp
        exact same (by rw [hlines])
  | destroy i =>
    have hx : x ≠ i := by rintro rfl; exact hd rfl
    rcases hli : s.lines i with _ | li
    · simp [step, destroy, hli, Res.map, Post] at hp
    by_cases hq : li.pinned
    · have hq' : li.shared > 0 ∨ li.excl := hq
      simp only [step, destroy, hli, hq', if_true, Res.map, Post] at hp
      rcases hp with ⟨o, hp⟩ | hp | hp <;> cases hp
      exact same rfl
    · obtain ⟨t, e, _, hlines, _⟩ := destroy_spec k hli hq
      simp only [step, e, Res.map, Post] at hp
      rcases hp with ⟨o, hp⟩ | hp | hp <;> cases hp
      exact same (by rw [hlines, upd_ne hx])
  | resize n =>
    obtain ⟨t, V', I', _, f, _, _, ⟨e, _⟩ | ⟨e, _⟩⟩ := resize_spec k n <;>
      (simp only [step, e, Res.map, Post] at hp; rcases hp with ⟨o, hp⟩ | hp | hp <;> cases hp)
    · exact frame { s with maxSize := n } rfl f
    · exact frame { s with maxSize := n } rfl f

/-- A line whose generator never throws never makes a dereference wait or throw. -/
theorem deref_total {m : Nat} {s : State Val} (h : Reach m s) {i : Id} {l : Line Val}
    (hl : s.lines i = some l) (hg : ∀ k, l.generate k ≠ none) : ∃ s' v, step s (.deref i) = .ok s' (.val v) := by
  obtain ⟨V, I, k⟩ := reach_inv h
  rcases deref_spec k hl with ⟨e, hpin⟩ | ⟨v', hv', _, e, _⟩ | ⟨hnone, _, s2, W, J, _, hl2, g3, _, _, _, _, hh⟩
  · exfalso
    have hex : l.excl = false := by
      by_contra he
      obtain ⟨_, _, j, _, hj⟩ := k.excl i l hl (by simpa using he)
      exact hg j hj
    unfold deref at e
    rw [hl] at e
    rcases hpin with hp | hp
    · have hv := k.shared i l hl hp
      obtain ⟨v, hv⟩ := Option.isSome_iff_exists.1 hv
      simp [hex, hv] at e
    · rw [hex] at hp; cases hp
  · simp only [step, e, Res.map]; exact ⟨_, _, rfl⟩
  · rcases hh with ⟨v', _, e, _⟩ | ⟨hn, _⟩
    · simp only [step, e, Res.map]; exact ⟨_, _, rfl⟩
    · exact absurd hn (hg _)

end VW.Cache
