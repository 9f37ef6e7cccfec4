import Verif.Cache.Reach
import Mathlib.Algebra.Order.BigOperators.Group.List
/-!
Helper lemmas: byte sums, and how the calls change the eviction order.
-/
namespace VW.Cache

variable {Val : Type}

theorem sum_ite_filter (L : List Nat) (p : Nat → Bool) (f : Nat → Nat) :
    (L.map fun x => if p x then f x else 0).sum = ((L.filter p).map f).sum := by
  induction L with
  | nil => rfl
  | cons a L ih => by_cases h : p a <;> simp [h, ih]

theorem sum_range {V : List Nat} {n : Nat} (hn : V.Nodup) (hb : ∀ x ∈ V, x < n) (f : Nat → Nat) :
    ((List.range n).map fun x => if decide (x ∈ V) then f x else 0).sum = (V.map f).sum := by
  rw [sum_ite_filter]
  apply List.Perm.sum_eq
  apply List.Perm.map
  rw [List.perm_ext_iff_of_nodup (List.nodup_range.filter _) hn]
  intro x; simp
  exact fun h => hb x h

/-- The byte count, as a sum over all lines. -/
theorem Inv.bytes {s : State Val} {V I : List Id} (h : Inv s V I none) :
    s.size = bytes s (fun l => l.value.isSome || l.excl) := by
  rw [h.size, ← sum_range (n := s.nextId) (List.nodup_append.1 h.rep.nodup).1
    (fun x hx => h.bound x (by simp [hx]))]
  unfold VW.Cache.bytes
  congr 1
  apply List.map_congr_left
  intro x _
  rcases hl : s.lines x with _ | l
  · have : x ∉ V := by
      intro hx
      have := (h.lineDom x).2 (by simp [hx])
      simp [hl] at this
    simp [this]
  · have hv := h.val x l hl (by simp)
    simp only [lineSize, hl]
    by_cases hx : x ∈ V
    · have := hv.1 hx
      simp only [hx]
      have e : (l.value.isSome || l.excl) = true := by simpa using this
      simp [e]
    · have : ¬ (l.value.isSome ∨ l.excl = true) := fun hh => hx (hv.2 hh)
      have e : (l.value.isSome || l.excl) = false := by simpa using this
      simp [hx, e]

theorem bytes_le {s : State Val} {p q : Line Val → Bool} (h : ∀ l, p l = true → q l = true) :
    bytes s p ≤ bytes s q := by
  unfold bytes
  apply List.sum_le_sum
  intro x _
  rcases s.lines x with _ | l
  · simp
  · simp only
    by_cases hp : p l = true
    · simp [hp, h l hp]
    · simp [hp]

theorem bytes_congr {s : State Val} {p q : Line Val → Bool}
    (h : ∀ x l, s.lines x = some l → p l = q l) : bytes s p = bytes s q := by
  unfold bytes
  congr 1
  apply List.map_congr_left
  intro x _
  rcases hl : s.lines x with _ | l
  · rfl
  · simp only; rw [h x l hl]

theorem loaded_iff {s : State Val} {x : Id} {l : Line Val} (hl : s.lines x = some l) :
    Loaded s x ↔ l.value.isSome := by
  unfold Loaded
  rw [hl]
  constructor
  · rintro ⟨_, v, h, e⟩; cases h; simp [e]
  · intro h; obtain ⟨v, e⟩ := Option.isSome_iff_exists.1 h; exact ⟨l, v, rfl, e⟩

/-- Calls other than loads and `deprioritize` leave the eviction order alone, except for removals. -/
theorem step_sublist {s : State Val} {V I : List Id} (h : Inv s V I none) (op : Op Val)
    {s' : State Val} (hp : Post (step s op) s')
    (h1 : ∀ i, op = .deref i → Loaded s i ∨ step s op = .blocked s')
    (h2 : ∀ i, op = .deprioritize i → ¬ Loaded s i ∨ step s op = .blocked s') :
    ∃ V' I', Inv s' V' I' none ∧ V'.Sublist V := by
  cases op with
  | insert n g =>
    obtain ⟨t, e, k, _⟩ := insert_spec h n g
    simp only [step, e, Res.map, Post] at hp
    rcases hp with ⟨o, hp⟩ | hp | hp <;> cases hp
    exact ⟨_, _, k, List.Sublist.refl _⟩
  | deref i =>
    rcases hl : s.lines i with _ | l
    · simp [step, deref, hl, Res.map, Post] at hp
    have h1 := h1 i rfl
    rcases deref_spec h hl with ⟨e, _⟩ | ⟨v, _, _, e, k⟩ | ⟨hv, _, s2, W, J, _, _, _, _, _, _, _, hk⟩
    · simp only [step, e, Res.map, Post] at hp; rcases hp with ⟨o, hp⟩ | hp | hp <;> cases hp
      exact ⟨_, _, h, List.Sublist.refl _⟩
    · simp only [step, e, Res.map, Post] at hp; rcases hp with ⟨o, hp⟩ | hp | hp <;> cases hp
      exact ⟨_, _, k, List.Sublist.refl _⟩
    · exfalso
      rcases h1 with h1 | h1
      · rw [loaded_iff hl] at h1; simp [hv] at h1
      · rcases hk with ⟨v, _, e, k⟩ | ⟨_, e, k⟩ <;> simp [step, e, Res.map] at h1
  | release i =>
    rcases hl : s.lines i with _ | l
    · simp [step, release, hl, Res.map, Post] at hp
    by_cases hs : 0 < l.shared
    · obtain ⟨e, k⟩ := release_spec h hl hs
      simp only [step, e, Res.map, Post] at hp
      rcases hp with ⟨o, hp⟩ | hp | hp <;> cases hp
      exact ⟨_, _, k, List.Sublist.refl _⟩
    · have : l.shared = 0 := by omega
      simp [step, release, hl, this, Res.map, Post] at hp
  | valid i =>
    rcases hl : s.lines i with _ | l
    · simp [step, valid, hl, Res.map, Post] at hp
    by_cases hq : l.shared > 0 ∨ l.excl
    · simp only [step, valid, hl, hq, if_true, Res.map, Post] at hp
      rcases hp with ⟨o, hp⟩ | hp | hp <;> cases hp
      exact ⟨_, _, h, List.Sublist.refl _⟩
    · simp only [step, valid, hl, hq, if_false, Res.map, Post] at hp
      rcases hp with ⟨o, hp⟩ | hp | hp <;> cases hp
      exact ⟨_, _, h, List.Sublist.refl _⟩
  | deprioritize i =>
    rcases hl : s.lines i with _ | l
    · simp [step, deprioritize, hl, Res.map, Post] at hp
    have h2 := h2 i rfl
    by_cases hq : l.pinned
    · have hq' : l.shared > 0 ∨ l.excl := hq
      simp only [step, deprioritize, hl, hq', if_true, Res.map, Post] at hp
      rcases hp with ⟨o, hp⟩ | hp | hp <;> cases hp
      exact ⟨_, _, h, List.Sublist.refl _⟩
    · rcases deprioritize_spec h hl hq with ⟨_, e⟩ | ⟨A, B, t, _, hv, e, k, _⟩
      · simp only [step, e, Res.map, Post] at hp
        rcases hp with ⟨o, hp⟩ | hp | hp <;> cases hp
        exact ⟨_, _, h, List.Sublist.refl _⟩
      · exfalso
        rcases h2 with h2 | h2
        · exact h2 ((loaded_iff hl).2 hv)
        · simp [step, e, Res.map] at h2
  | destroy i =>
    rcases hl : s.lines i with _ | l
    · simp [step, destroy, hl, Res.map, Post] at hp
    by_cases hq : l.pinned
    · have hq' : l.shared > 0 ∨ l.excl := hq
      simp only [step, destroy, hl, hq', if_true, Res.map, Post] at hp
      rcases hp with ⟨o, hp⟩ | hp | hp <;> cases hp
      exact ⟨_, _, h, List.Sublist.refl _⟩
    · obtain ⟨t, e, k, _⟩ := destroy_spec h hl hq
      simp only [step, e, Res.map, Post] at hp
      rcases hp with ⟨o, hp⟩ | hp | hp <;> cases hp
      exact ⟨_, _, k, List.erase_sublist⟩
  | resize n =>
    obtain ⟨t, V', I', k, _, hpre, _, ⟨e, _⟩ | ⟨e, _⟩⟩ := resize_spec h n <;>
      (simp only [step, e, Res.map, Post] at hp; rcases hp with ⟨o, hp⟩ | hp | hp <;> cases hp)
    · exact ⟨_, _, k, hpre.sublist⟩
    · exact ⟨_, _, k, hpre.sublist⟩

/-- The eviction order is the order of ranks. -/
theorem reach_rank {m t : Nat} {rk : Id → Int} {s : State Val} (h : ReachRank m t rk s) :
    ∃ V I, Inv s V I none ∧ V.Pairwise (fun x y => rk y < rk x) ∧
      ∀ x ∈ V, - (t : Int) ≤ rk x ∧ rk x ≤ t := by
  induction h with
  | init => exact ⟨[], [], Inv.init m, by simp, by simp⟩
  | @load t rk s s' i _ hnl hst ih =>
    obtain ⟨V, I, k, kp, kb⟩ := ih
    rcases hl : s.lines i with _ | l
    · simp [step, deref, hl, Res.map] at hst
    have hv0 : l.value = none := by
      rw [loaded_iff hl] at hnl; simpa using hnl
    have main : ∀ (W' : List Id), W'.Sublist V → i ∉ W' →
        (i :: W').Pairwise (fun x y => (if y = i then (t : Int) + 1 else rk y) < (if x = i then (t : Int) + 1 else rk x)) ∧
        ∀ x ∈ i :: W', - ((t + 1 : Nat) : Int) ≤ (if x = i then (t : Int) + 1 else rk x) ∧
          (if x = i then (t : Int) + 1 else rk x) ≤ ((t + 1 : Nat) : Int) := by
      intro W' hsub hiW
      constructor
      · rw [List.pairwise_cons]
        constructor
        · intro y hy
          have hy' : y ≠ i := by rintro rfl; exact hiW hy
          have := kb y (hsub.subset hy)
          simp [hy']; omega
        · refine (kp.sublist hsub).imp_of_mem ?_
          intro a b ha hb hab
          have ha' : a ≠ i := by rintro rfl; exact hiW ha
          have hb' : b ≠ i := by rintro rfl; exact hiW hb
          simpa [ha', hb'] using hab
      · intro x hx
        by_cases hxi : x = i
        · simp [hxi]; omega
        · simp [hxi] at hx
          have := kb x (hsub.subset hx)
          simp [hxi]; omega
    rcases deref_spec k hl with ⟨e, _⟩ | ⟨v, hv, _, e, _⟩ | ⟨_, _, s2, W', I', g2, _, _, g4, _, _, _, ⟨v, _, e, j⟩ | ⟨_, e, j⟩⟩
    · simp [step, e, Res.map] at hst
    · simp [hv0] at hv
    · simp [step, e, Res.map] at hst
      subst hst
      have hiW : i ∉ W' := by
        have := (List.nodup_append.1 g2.rep.nodup).1
        simp at this; exact this.1
      exact ⟨_, _, j, main W' g4 hiW⟩
    · simp [step, e, Res.map] at hst
      subst hst
      have hiW : i ∉ W' := by
        have := (List.nodup_append.1 g2.rep.nodup).1
        simp at this; exact this.1
      exact ⟨_, _, j, main W' g4 hiW⟩
  | @deprioritize t rk s s' i o _ hld hst ih =>
    obtain ⟨V, I, k, kp, kb⟩ := ih
    obtain ⟨l, v, hl, hv⟩ := hld
    by_cases hq : l.pinned
    · have hq' : l.shared > 0 ∨ l.excl := hq
      simp only [step, deprioritize, hl, hq', if_true, Res.map] at hst
      cases hst
    rcases deprioritize_spec k hl hq with ⟨hn, _⟩ | ⟨A, B, s1, rfl, _, e, j, _⟩
    · simp [hv] at hn
    · simp only [step, e, Res.map] at hst
      cases hst
      have hi : i ∉ A ++ B := mid_not_mem (List.nodup_append.1 k.rep.nodup).1
      have hsub : (A ++ B).Sublist (A ++ i :: B) := by simp
      refine ⟨_, _, j, ?_, ?_⟩
      · rw [List.pairwise_append]
        refine ⟨?_, by simp, ?_⟩
        · refine (kp.sublist hsub).imp_of_mem ?_
          intro a b ha hb hab
          have ha' : a ≠ i := by rintro rfl; exact hi ha
          have hb' : b ≠ i := by rintro rfl; exact hi hb
          simpa [ha', hb'] using hab
        · intro a ha b hb
          simp at hb; subst hb
          have ha' : a ≠ b := by rintro rfl; exact hi ha
          have := kb a (hsub.subset ha)
          simp [ha']; omega
      · intro x hx
        by_cases hxi : x = i
        · simp [hxi]; omega
        · have hx' : x ∈ A ++ B := by simpa [hxi] using hx
          have := kb x (hsub.subset hx')
          simp [hxi]; omega
  | @other t rk s s' op _ h1 h2 hst ih =>
    obtain ⟨V, I, k, kp, kb⟩ := ih
    obtain ⟨V', I', j, hsub⟩ := step_sublist k op hst h1 h2
    refine ⟨V', I', j, kp.sublist hsub, fun x hx => ?_⟩
    have := kb x (hsub.subset hx)
    omega

theorem before_rank {V : List Id} {rk : Id → Int} (hp : V.Pairwise (fun x y => rk y < rk x))
    {x e : Id} (h : Before V x e) : rk e < rk x := by
  obtain ⟨A, B, C, rfl⟩ := h
  rw [List.pairwise_append] at hp
  have := hp.2.1
  rw [List.pairwise_cons] at this
  exact this.1 e (by simp)

end VW.Cache
