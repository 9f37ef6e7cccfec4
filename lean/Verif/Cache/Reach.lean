import Verif.Cache.Steps
/-!
Helper lemmas: `resize`, one step of the API, and reachable states.
-/
namespace VW.Cache

variable {Val : Type}

theorem resizeLoop_spec (fuel : Nat) :
    ∀ (s : State Val) (V I : List Id), Inv s V I none → V.length < fuel →
      ∃ s' V' I', Inv s' V' I' none ∧ EvFrame s s' ∧ V' <+: V ∧
        (V' ≠ V → ∃ e ∈ V, e ∉ V' ∧ s.maxSize < s'.size + lineSize s e) ∧
        ((resizeLoop fuel s = .ok s' () ∧ s'.size ≤ s'.maxSize) ∨
         (resizeLoop fuel s = .blocked s' ∧ s'.maxSize < s'.size ∧
           ∃ c l, V'.getLast? = some c ∧ s'.lines c = some l ∧ l.pinned)) := by
  induction fuel with
  | zero => intro s V I _ h; omega
  | succ fuel ih =>
    intro s V I h hf
    unfold resizeLoop
    by_cases hsz : s.size ≤ s.maxSize
    · simp only [hsz, if_true]
      exact ⟨s, V, I, h, EvFrame.refl s, List.prefix_refl V, fun h => absurd rfl h,
        Or.inl ⟨rfl, hsz⟩⟩
    simp only [hsz, if_false]
    rcases List.eq_nil_or_concat V with rfl | ⟨V', c, rfl⟩
    · exfalso; apply hsz; rw [h.size]; simp
    rw [List.concat_eq_append] at *
    have hlast : s.lists.lastValid = some c := by rw [h.rep.lv]; simp
    obtain ⟨l, hl⟩ := h.line (c := c) (by simp)
    simp only [hlast, hl]
    by_cases hp : l.pinned
    · have hp' : l.shared > 0 ∨ l.excl := hp
      simp only [hp', if_true]
      exact ⟨s, V' ++ [c], I, h, EvFrame.refl s, List.prefix_refl _, fun h => absurd rfl h,
        Or.inr ⟨rfl, by omega, c, l, by simp, hl, hp⟩⟩
    · have hp' : ¬ (l.shared > 0 ∨ l.excl) := hp
      simp only [hp', if_false]
      obtain ⟨v, hv⟩ := h.loaded (by simp) (by simp) hl hp
      have hs0 : l.shared = 0 := by by_contra hh; exact hp (Or.inl (by omega))
      have he0 : l.excl = false := by by_contra hh; exact hp (Or.inr (by simpa using hh))
      obtain ⟨s1, u1, u2, u3, u4, u5, u6⟩ := unload_spec (A := V') (B := []) h hl hv hs0 he0 (by simp)
      simp only [hv, u1]
      rw [List.append_nil] at u2
      obtain ⟨s', W, I', g1, g2, g3, g4, g5⟩ := ih s1 V' (c :: I) u2 (by simp at hf; omega)
      refine ⟨s', W, I', g1, (unload_frame hl (by simp [hv]) hp u3 u5 u6).trans g2,
        g3.trans (List.prefix_append _ _), ?_, g5⟩
      intro _
      have cn : c ∉ V' := by
        have := mid_not_mem (A := V') (B := []) (List.nodup_append.1 h.rep.nodup).1
        simpa using this
      by_cases hW : W = V'
      · refine ⟨c, by simp, by rw [hW]; exact cn, ?_⟩
        have hs' : s'.size = s1.size := by
          rw [g1.size, u2.size, hW]
          congr 1
          apply List.map_congr_left
          intro x _
          unfold lineSize
          rcases g2.2.2 x with e | ⟨l', e1, _, _, e4⟩
          · rw [e]
          · rw [e1, e4]; rfl
        have : lineSize s c = l.size := by simp [lineSize, hl]
        rw [this, hs']; omega
      · obtain ⟨e, k1, k2, k3⟩ := g4 hW
        refine ⟨e, by simp [k1], k2, ?_⟩
        rw [u5] at k3
        have : lineSize s1 e = lineSize s e := lineSize_upd hl u3 rfl _ rfl
        rw [this] at k3; exact k3

theorem Inv.maxSize {s : State Val} {V I : List Id} {a : Option Id} (h : Inv s V I a) (n : Nat) :
    Inv { s with maxSize := n } V I a := by
  obtain ⟨h1, h2, h3, h4, h5, h6, h7, h8, h9, h10⟩ := h
  exact ⟨h1, h2, h3, h4, h5, h6, h7, h8, h9, h10⟩

theorem resize_spec {s : State Val} {V I : List Id} (h : Inv s V I none) (n : Nat) :
    ∃ s' V' I', Inv s' V' I' none ∧ EvFrame { s with maxSize := n } s' ∧ V' <+: V ∧
        (V' ≠ V → ∃ e ∈ V, e ∉ V' ∧ n < s'.size + lineSize s e) ∧
        ((resize s n = .ok s' () ∧ s'.size ≤ s'.maxSize) ∨
         (resize s n = .blocked s' ∧ s'.maxSize < s'.size ∧
           ∃ c l, V'.getLast? = some c ∧ s'.lines c = some l ∧ l.pinned)) := by
  have hlen : V.length < s.nextId + 1 := by
    have := h.length; simp at this; omega
  exact resizeLoop_spec (s.nextId + 1) { s with maxSize := n } V I (h.maxSize n) hlen

/-- All about one dereference. -/
theorem deref_spec {s : State Val} {V I : List Id} (h : Inv s V I none) {i : Id} {l : Line Val}
    (hl : s.lines i = some l) :
    (deref s i = .blocked s ∧ l.pinned) ∨
    (∃ v, l.value = some v ∧ l.excl = false ∧
      deref s i = .ok (s.setLine i { l with shared := l.shared + 1 }) v ∧
      Inv (s.setLine i { l with shared := l.shared + 1 }) V I none) ∨
    (l.value = none ∧ ¬ l.pinned ∧ ∃ s2 W' I',
      Inv s2 (i :: W') I' (some i) ∧ s2.lines i = some l ∧ EvFrame s s2 ∧ W'.Sublist V ∧
      (s2.size ≤ s2.maxSize ∨ ∀ x ∈ W', ∃ m, s2.lines x = some m ∧ m.pinned) ∧
      (∀ e ∈ V, e ∉ W' → ∀ x ∈ W', (∃ m, s2.lines x = some m ∧ ¬ m.pinned) → Before V x e) ∧
      (W' ≠ V → ∃ e ∈ V, e ∉ W' ∧ s.maxSize < s2.size + lineSize s e) ∧
      ((∃ v, l.generate l.genCount = some v ∧
          deref s i = .ok (s2.setLine i { l with value := some v, genCount := l.genCount + 1, shared := 1 }) v ∧
          Inv (s2.setLine i { l with value := some v, genCount := l.genCount + 1, shared := 1 })
            (i :: W') I' none) ∨
       (l.generate l.genCount = none ∧
          deref s i = .thrown (s2.setLine i { l with genCount := l.genCount + 1, excl := true }) ∧
          Inv (s2.setLine i { l with genCount := l.genCount + 1, excl := true }) (i :: W') I' none))) := by
  obtain ⟨ex, he⟩ : ∃ e, l.excl = e := ⟨_, rfl⟩
  rcases ex with _ | _
  rotate_left
  · left; exact ⟨by simp [deref, hl, he], Or.inr he⟩
  obtain ⟨vo, hv⟩ : ∃ e, l.value = e := ⟨_, rfl⟩
  rcases vo with _ | v
  rotate_left
  · right; left
    refine ⟨v, hv, he, by simp [deref, hl, he, hv], ?_⟩
    refine h.setLine hl rfl ?_ (by simp [he]) (by simp [hv]) ?_ (Or.inl rfl)
    · exact h.val i l hl (by simp)
    · intro v' hv'; exact h.gen i l v' hl hv'
  by_cases hs : 0 < l.shared
  · left; exact ⟨by simp [deref, hl, he, hv, hs], Or.inl hs⟩
  right; right
  have hs0 : l.shared = 0 := by omega
  refine ⟨hv, by simp [Line.pinned, hs0, he], ?_⟩
  obtain ⟨s2, W', I', g1, g2, g3, g4, g5, g6, g7⟩ := allocate_spec h hl hv he hs0
  have hl2 := g3.none hl hv
  obtain ⟨f1, f2⟩ := finish g2 hl2 hv hs0 he
  refine ⟨s2, W', I', g2, hl2, g3, g4, g5, g6, g7, ?_⟩
  obtain ⟨go, hg⟩ : ∃ e, l.generate l.genCount = e := ⟨_, rfl⟩
  rcases go with _ | v
  · right
    refine ⟨hg, ?_, f2 hg⟩
    simp [deref, hl, he, hv, hs0, g1, hg]
  · left
    refine ⟨v, hg, ?_, f1 v hg⟩
    simp [deref, hl, he, hv, hs0, g1, hg]

theorem release_spec {s : State Val} {V I : List Id} (h : Inv s V I none) {i : Id} {l : Line Val}
    (hl : s.lines i = some l) (hs : 0 < l.shared) :
    release s i = .ok (s.setLine i { l with shared := l.shared - 1 }) () ∧
      Inv (s.setLine i { l with shared := l.shared - 1 }) V I none := by
  refine ⟨by simp [release, hl]; omega, h.setLine hl rfl ?_ ?_ ?_ ?_ (Or.inl rfl)⟩
  · exact h.val i l hl (by simp)
  · intro he; have := h.excl i l hl he; omega
  · intro _; exact h.shared i l hl hs
  · intro v hv; exact h.gen i l v hl hv

/-- The states an API call can leave behind. -/
def Post (r : Res Val (Out Val)) (s' : State Val) : Prop :=
  (∃ o, r = .ok s' o) ∨ r = .thrown s' ∨ r = .blocked s'

theorem step_inv {s : State Val} {V I : List Id} (h : Inv s V I none) (op : Op Val) {s' : State Val}
    (hp : Post (step s op) s') : ∃ V' I', Inv s' V' I' none := by
  cases op with
  | insert n g =>
    obtain ⟨t, e, k, _⟩ := insert_spec h n g
    simp only [step, e, Res.map, Post] at hp
    rcases hp with ⟨o, hp⟩ | hp | hp <;> cases hp
    exact ⟨_, _, k⟩
  | deref i =>
    rcases hl : s.lines i with _ | l
    · simp [step, deref, hl, Res.map, Post] at hp
    rcases deref_spec h hl with ⟨e, _⟩ | ⟨v, _, _, e, k⟩ | ⟨_, _, s2, W, J, _, _, _, _, _, _, _, ⟨v, _, e, k⟩ | ⟨_, e, k⟩⟩ <;>
      (simp only [step, e, Res.map, Post] at hp; rcases hp with ⟨o, hp⟩ | hp | hp <;> cases hp)
    · exact ⟨_, _, h⟩
    · exact ⟨_, _, k⟩
    · exact ⟨_, _, k⟩
    · exact ⟨_, _, k⟩
  | release i =>
    rcases hl : s.lines i with _ | l
    · simp [step, release, hl, Res.map, Post] at hp
    by_cases hs : 0 < l.shared
    · obtain ⟨e, k⟩ := release_spec h hl hs
      simp only [step, e, Res.map, Post] at hp
      rcases hp with ⟨o, hp⟩ | hp | hp <;> cases hp
      exact ⟨_, _, k⟩
    · have : l.shared = 0 := by omega
      simp [step, release, hl, this, Res.map, Post] at hp
  | valid i =>
    rcases hl : s.lines i with _ | l
    · simp [step, valid, hl, Res.map, Post] at hp
    by_cases hq : l.shared > 0 ∨ l.excl
    · simp only [step, valid, hl, hq, if_true, Res.map, Post] at hp
      rcases hp with ⟨o, hp⟩ | hp | hp <;> cases hp
      exact ⟨_, _, h⟩
    · simp only [step, valid, hl, hq, if_false, Res.map, Post] at hp
      rcases hp with ⟨o, hp⟩ | hp | hp <;> cases hp
      exact ⟨_, _, h⟩
  | deprioritize i =>
    rcases hl : s.lines i with _ | l
    · simp [step, deprioritize, hl, Res.map, Post] at hp
    by_cases hq : l.pinned
    · have hq' : l.shared > 0 ∨ l.excl := hq
      simp only [step, deprioritize, hl, hq', if_true, Res.map, Post] at hp
      rcases hp with ⟨o, hp⟩ | hp | hp <;> cases hp
      exact ⟨_, _, h⟩
    · rcases deprioritize_spec h hl hq with ⟨_, e⟩ | ⟨A, B, t, _, _, e, k, _⟩
      · simp only [step, e, Res.map, Post] at hp
        rcases hp with ⟨o, hp⟩ | hp | hp <;> cases hp
        exact ⟨_, _, h⟩
      · simp only [step, e, Res.map, Post] at hp
        rcases hp with ⟨o, hp⟩ | hp | hp <;> cases hp
        exact ⟨_, _, k⟩
  | destroy i =>
    rcases hl : s.lines i with _ | l
    · simp [step, destroy, hl, Res.map, Post] at hp
    by_cases hq : l.pinned
    · have hq' : l.shared > 0 ∨ l.excl := hq
      simp only [step, destroy, hl, hq', if_true, Res.map, Post] at hp
      rcases hp with ⟨o, hp⟩ | hp | hp <;> cases hp
      exact ⟨_, _, h⟩
    · obtain ⟨t, e, k, _⟩ := destroy_spec h hl hq
      simp only [step, e, Res.map, Post] at hp
      rcases hp with ⟨o, hp⟩ | hp | hp <;> cases hp
      exact ⟨_, _, k⟩
  | resize n =>
    obtain ⟨t, V', I', k, _, _, _, ⟨e, _⟩ | ⟨e, _⟩⟩ := resize_spec h n <;>
      (simp only [step, e, Res.map, Post] at hp; rcases hp with ⟨o, hp⟩ | hp | hp <;> cases hp)
    · exact ⟨_, _, k⟩
    · exact ⟨_, _, k⟩

theorem reach_inv {m : Nat} {s : State Val} (h : Reach m s) : ∃ V I, Inv s V I none := by
  induction h with
  | init => exact ⟨[], [], Inv.init m⟩
  | ok _ e ih => obtain ⟨V, I, k⟩ := ih; exact step_inv k _ (Or.inl ⟨_, e⟩)
  | thrown _ e ih => obtain ⟨V, I, k⟩ := ih; exact step_inv k _ (Or.inr (Or.inl e))
  | blocked _ e ih => obtain ⟨V, I, k⟩ := ih; exact step_inv k _ (Or.inr (Or.inr e))

end VW.Cache
