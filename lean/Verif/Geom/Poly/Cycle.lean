import Mathlib.Data.List.Basic
import Mathlib.Data.List.Nodup
import Mathlib.Data.List.Perm.Subperm
import Mathlib.Data.List.GetD
import Mathlib.Data.List.Chain
import Mathlib.Tactic.Tauto
import Verif.Geom.Poly.Cut

/-
The components visited by `cutToHalfSpace` are the cycles of the successor map, if it permutes the points.
-/

namespace Verif.Geom.Poly

/-- `c` is a cycle of `f`, written from the point it is entered at. -/
structure IsCyc (f : Nat → Nat) (c : List Nat) : Prop where
  ne : c ≠ []
  step : ∀ j, j < c.length → f (c.getD j 0) = c.getD ((j + 1) % c.length) 0

/-- A map which is one-to-one on a finite set and maps it into itself leaves its complement alone as well. -/
theorem back (f : Nat → Nat) (N : Nat) (hinj : ∀ i j, i < N → j < N → f i = f j → i = j) (V : List Nat) (hV : V.Nodup)
    (hVN : ∀ x ∈ V, x < N) (hcl : ∀ x ∈ V, f x ∈ V) (x : Nat) (hx : x < N) (h : f x ∈ V) : x ∈ V := by
  have h1 : (V.map f).Nodup := hV.map_on (fun a ha b hb h => hinj a b (hVN a ha) (hVN b hb) h)
  have h2 : (V.map f) ⊆ V := by
    intro y hy
    obtain ⟨a, ha, rfl⟩ := List.mem_map.1 hy
    exact hcl a ha
  have h3 : (V.map f).Perm V := (h1.subperm h2).perm_of_length_le (by simp)
  obtain ⟨a, ha, hax⟩ := List.mem_map.1 (h3.mem_iff.2 h)
  rwa [hinj x a hx (hVN a ha) hax.symm]

theorem length_le_of_nodup (c : List Nat) (N : Nat) (h : c.Nodup) (h2 : ∀ x ∈ c, x < N) : c.length ≤ N := by
  have := (h.subperm (l₂ := List.range N) fun x hx => List.mem_range.2 (h2 x hx)).length_le
  simpa using this

/-- The inner loop, on the way: `path` is what has been visited of the component already, last point first. -/
theorem walk_path (f : Nat → Nat) (N : Nat) (hlt : ∀ i, i < N → f i < N) (hinj : ∀ i j, i < N → j < N → f i = f j → i = j)
    (V : List Nat) (hV : V.Nodup) (hVN : ∀ x ∈ V, x < N) (hcl : ∀ x ∈ V, f x ∈ V) :
    ∀ (fuel : Nat) (done : List Nat) (i : Nat), done ≠ [] → (done ++ V).Nodup → (∀ x ∈ done, x < N) →
      (∀ j, j + 1 < done.length → f (done.getD j 0) = done.getD (j + 1) 0) →
      f (done.getD (done.length - 1) 0) = i → N < fuel + done.length →
      ∀ (vis : List Nat), (∀ x, x ∈ vis ↔ x ∈ done ∨ x ∈ V) →
      ((done ++ walk f fuel vis i) ++ V).Nodup ∧ (∀ x ∈ walk f fuel vis i, x < N) ∧ IsCyc f (done ++ walk f fuel vis i) := by
  intro fuel
  induction fuel with
  | zero =>
    intro done i _ hnd hN _ _ hf
    have := length_le_of_nodup done N (List.nodup_append.1 hnd).1 hN
    omega
  | succ fuel ih =>
    intro done i hne hnd hN hstep hlast hf vis hvis
    have hpos : 0 < done.length := List.length_pos_iff.2 hne
    have hlm : done.getD (done.length - 1) 0 ∈ done := by
      rw [List.getD_eq_getElem _ _ (by omega)]; exact List.getElem_mem _
    have hiN : i < N := hlast ▸ hlt _ (hN _ hlm)
    have hndd := List.nodup_append.1 hnd
    have hiV : i ∉ V := by
      intro h
      have := back f N hinj V hV hVN hcl _ (hN _ hlm) (hlast ▸ h)
      exact hndd.2.2 _ hlm _ this rfl
    unfold walk
    by_cases hv : vis.contains i = true
    · rw [if_pos hv, List.append_nil]
      have hid : i ∈ done := ((hvis i).1 (by simpa using hv)).resolve_right hiV
      refine ⟨hnd, by simp, hne, ?_⟩
      intro j hj
      by_cases hj1 : j + 1 < done.length
      · rw [hstep j hj1, Nat.mod_eq_of_lt hj1]
      · have ej : j = done.length - 1 := by omega
        have e1 : (j + 1) % done.length = 0 := by rw [ej, Nat.sub_add_cancel (by omega), Nat.mod_self]
        rw [e1, ej, hlast]
        obtain ⟨m, hm, hme⟩ := List.mem_iff_getElem.1 hid
        cases m with
        | zero => rw [List.getD_eq_getElem _ _ hpos, hme]
        | succ m =>
          exfalso
          have h1 := hstep m hm
          rw [List.getD_eq_getElem _ _ hm, hme, ← hlast] at h1
          have hmN : done.getD m 0 ∈ done := by
            rw [List.getD_eq_getElem _ _ (by omega)]; exact List.getElem_mem _
          have h2 := hinj _ _ (hN _ hmN) (hN _ hlm) h1
          rw [List.getD_eq_getElem _ _ (by omega), List.getD_eq_getElem _ _ (by omega)] at h2
          have := (hndd.1.getElem_inj_iff).1 h2
          omega
    · rw [if_neg hv]
      have hid : i ∉ done := fun h => hv (by simpa using (hvis i).2 (Or.inl h))
      have h := ih (done ++ [i]) (f i) (by simp) (by
          rw [List.append_assoc]
          refine List.nodup_append.2 ⟨hndd.1, ?_, ?_⟩
          · exact List.nodup_cons.2 ⟨hiV, hV⟩
          · intro a ha b hb hab
            subst hab
            rcases List.mem_cons.1 hb with h | h
            · exact hid (h ▸ ha)
            · exact hndd.2.2 _ ha _ h rfl)
        (by
          intro x hx
          rcases List.mem_append.1 hx with h | h
          · exact hN x h
          · rw [List.mem_singleton.1 h]; exact hiN)
        (by
          intro j hj
          rw [List.length_append, List.length_singleton] at hj
          rw [List.getD_append _ _ _ _ (by omega)]
          by_cases hj1 : j + 1 < done.length
          · rw [List.getD_append _ _ _ _ hj1]; exact hstep j hj1
          · have ej : j = done.length - 1 := by omega
            rw [List.getD_append_right _ _ _ _ (by omega), ej, hlast]
            have : done.length - 1 + 1 - done.length = 0 := by omega
            rw [this]; rfl)
        (by
          rw [List.length_append, List.length_singleton, List.getD_append_right _ _ _ _ (by omega)]
          have : done.length + 1 - 1 - done.length = 0 := by omega
          rw [this]; rfl)
        (by rw [List.length_append, List.length_singleton]; omega)
        (i :: vis) (by
          intro x
          rw [List.mem_cons, hvis, List.mem_append, List.mem_singleton]
          tauto)
      have e : done ++ [i] ++ walk f fuel (i :: vis) (f i) = done ++ i :: walk f fuel (i :: vis) (f i) := by simp
      rw [e] at h
      refine ⟨h.1, ?_, h.2.2⟩
      intro x hx
      rcases List.mem_cons.1 hx with h' | h'
      · rw [h']; exact hiN
      · exact h.2.1 x h'

/-- The inner loop visits a cycle of new points. -/
theorem walk_cyc (f : Nat → Nat) (N : Nat) (hlt : ∀ i, i < N → f i < N) (hinj : ∀ i j, i < N → j < N → f i = f j → i = j)
    (V : List Nat) (hV : V.Nodup) (hVN : ∀ x ∈ V, x < N) (hcl : ∀ x ∈ V, f x ∈ V) (i : Nat) (hi : i < N) (hiV : i ∉ V) :
    (walk f (N + 1) V i ++ V).Nodup ∧ (∀ x ∈ walk f (N + 1) V i, x < N) ∧ IsCyc f (walk f (N + 1) V i) := by
  have e : walk f (N + 1) V i = [i] ++ walk f N (i :: V) (f i) := by
    rw [walk, if_neg (by simpa using hiV)]; rfl
  have h := walk_path f N hlt hinj V hV hVN hcl N [i] (f i) (by simp) (List.nodup_cons.2 ⟨hiV, hV⟩) (by simpa using hi)
    (by intro j hj; simp at hj) rfl (by simp) (i :: V) (by intro x; simp)
  rw [e]
  refine ⟨h.1, ?_, h.2.2⟩
  intro x hx
  rcases List.mem_append.1 hx with h' | h'
  · rw [List.mem_singleton.1 h']; exact hi
  · exact h.2.1 x h'

/-- A cycle is mapped to itself. -/
theorem IsCyc.closed {f : Nat → Nat} {c : List Nat} (h : IsCyc f c) (x : Nat) (hx : x ∈ c) : f x ∈ c := by
  obtain ⟨m, hm, rfl⟩ := List.mem_iff_getElem.1 hx
  have := h.step m hm
  rw [List.getD_eq_getElem _ _ hm] at this
  rw [this, List.getD_eq_getElem _ _ (Nat.mod_lt _ (by omega))]
  exact List.getElem_mem _

/-- The outer loop: every point is in exactly one component, and each component is a cycle. -/
theorem components_spec (f : Nat → Nat) (N : Nat) (hlt : ∀ i, i < N → f i < N) (hinj : ∀ i j, i < N → j < N → f i = f j → i = j) :
    ∀ (fuel : Nat) (V : List Nat), V.Nodup → (∀ x ∈ V, x < N) → (∀ x ∈ V, f x ∈ V) → N < fuel + V.length →
      ((components f N fuel V).flatten ++ V).Perm (List.range N) ∧ ∀ c ∈ components f N fuel V, IsCyc f c := by
  intro fuel
  induction fuel with
  | zero =>
    intro V hV hVN _ hf
    have := length_le_of_nodup V N hV hVN
    omega
  | succ fuel ih =>
    intro V hV hVN hcl hf
    unfold components
    cases hfd : (List.range N).find? (fun v => !V.contains v) with
    | none =>
      refine ⟨?_, by simp⟩
      have h1 : ∀ x, x < N → x ∈ V := by
        intro x hx
        have := List.find?_eq_none.1 hfd x (List.mem_range.2 hx)
        simpa using this
      simp only [List.flatten_nil, List.nil_append]
      refine (hV.subperm fun x hx => List.mem_range.2 (hVN x hx)).perm_of_length_le ?_
      exact (List.nodup_range.subperm fun x hx => h1 x (List.mem_range.1 hx)).length_le
    | some i =>
      have hi : i < N := List.mem_range.1 (List.mem_of_find?_eq_some hfd)
      have hiV : i ∉ V := by
        have := List.find?_some hfd
        simpa using this
      obtain ⟨h1, h2, h3⟩ := walk_cyc f N hlt hinj V hV hVN hcl i hi hiV
      have hpos := List.length_pos_iff.2 h3.ne
      obtain ⟨h4, h5⟩ := ih (walk f (N + 1) V i ++ V) h1
        (by
          intro x hx
          rcases List.mem_append.1 hx with h | h
          · exact h2 x h
          · exact hVN x h)
        (by
          intro x hx
          rcases List.mem_append.1 hx with h | h
          · exact List.mem_append_left _ (h3.closed x h)
          · exact List.mem_append_right _ (hcl x h))
        (by rw [List.length_append]; omega)
      dsimp only
      refine ⟨?_, ?_⟩
      · refine List.Perm.trans ?_ h4
        rw [List.flatten_cons, ← List.append_assoc]
        exact List.Perm.append_right V List.perm_append_comm
      · intro c hc
        rcases List.mem_cons.1 hc with h | h
        · rw [h]; exact h3
        · exact h5 c h

end Verif.Geom.Poly
