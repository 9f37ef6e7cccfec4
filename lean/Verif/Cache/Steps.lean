import Verif.Cache.Invariant
import Mathlib.Tactic.Ring
/-!
Helper lemmas: every API call preserves the invariant.
-/
namespace VW.Cache

variable {Val : Type}

theorem Inv.setLine {s : State Val} {V I : List Id} {a : Option Id} (h : Inv s V I a) {i : Id}
    {l l' : Line Val} (hl : s.lines i = some l) (hsz : l'.size = l.size)
    (hval : i ∈ V ↔ (l'.value.isSome ∨ l'.excl = true))
    (hex : l'.excl = true → l'.value = none ∧ l'.shared = 0 ∧
      ∃ k, l'.genCount = k + 1 ∧ l'.generate k = none)
    (hsh : 0 < l'.shared → l'.value.isSome)
    (hgen : ∀ v, l'.value = some v → ∃ k, l'.genCount = k + 1 ∧ l'.generate k = some v)
    (ha : a = none ∨ a = some i) : Inv (s.setLine i l') V I none := by
  have key : ∀ x m, (s.setLine i l').lines x = some m → (x = i ∧ m = l') ∨ (x ≠ i ∧ s.lines x = some m) := by
    intro x m hm
    simp only [State.setLine] at hm
    by_cases hx : x = i
    · subst hx; simp at hm; exact Or.inl ⟨rfl, hm.symm⟩
    · rw [upd_ne hx] at hm; exact Or.inr ⟨hx, hm⟩
  constructor
  · exact h.rep
  · exact h.heapDom
  · intro x
    rw [← h.lineDom]
    simp only [State.setLine]
    by_cases hx : x = i
    · subst hx; simp [hl]
    · rw [upd_ne hx]
  · exact h.bound
  · intro x m hm _
    rcases key x m hm with ⟨rfl, rfl⟩ | ⟨hx, hm⟩
    · exact hval
    · refine h.val x m hm ?_
      rcases ha with rfl | rfl
      · simp
      · simpa using hx.symm
  · intro x m hm
    rcases key x m hm with ⟨rfl, rfl⟩ | ⟨hx, hm⟩
    · exact hex
    · exact h.excl x m hm
  · intro x m hm
    rcases key x m hm with ⟨rfl, rfl⟩ | ⟨hx, hm⟩
    · exact hsh
    · exact h.shared x m hm
  · intro x m v hm
    rcases key x m hm with ⟨rfl, rfl⟩ | ⟨hx, hm⟩
    · exact hgen v
    · exact h.gen x m v hm
  · show s.size = _
    rw [h.size]; congr 1
    apply List.map_congr_left
    intro x _
    exact (lineSize_upd hl rfl hsz _ rfl).symm
  · simp

theorem Inv.length {s : State Val} {V I : List Id} {a : Option Id} (h : Inv s V I a) :
    (V ++ I).length ≤ s.nextId := by
  have hsub : (V ++ I) ⊆ List.range s.nextId := fun x hx => List.mem_range.2 (h.bound x hx)
  simpa using (h.rep.nodup.subperm hsub).length_le

/-- The effect of `allocate` on a line that is not loaded. -/
theorem allocate_spec {s : State Val} {V I : List Id} (h : Inv s V I none) {i : Id} {l : Line Val}
    (hl : s.lines i = some l) (hv : l.value = none) (he : l.excl = false) (hs : l.shared = 0) :
    ∃ s' W' I', allocate s i l.size = some s' ∧ Inv s' (i :: W') I' (some i) ∧ EvFrame s s' ∧
      W'.Sublist V ∧
      (s'.size ≤ s'.maxSize ∨ ∀ x ∈ W', ∃ m, s'.lines x = some m ∧ m.pinned) ∧
      (∀ e ∈ V, e ∉ W' → ∀ x ∈ W', (∃ m, s'.lines x = some m ∧ ¬ m.pinned) → Before V x e) ∧
      (W' ≠ V → ∃ e ∈ V, e ∉ W' ∧ s.maxSize < s'.size + lineSize s e) := by
  have hiV : i ∉ V := by
    rw [h.val i l hl (by simp)]; simp [hv, he]
  have hiI : i ∈ I := by
    have : i ∈ V ++ I := (h.lineDom i).1 (by simp [hl])
    simpa [hiV] using this
  obtain ⟨A, B, rfl⟩ := List.append_of_mem hiI
  obtain ⟨ls, e1, r1, d1⟩ := validate_invalid s.lists h.rep
  have memiff : ∀ x, x ∈ (i :: V) ++ (A ++ B) ↔ x ∈ V ++ (A ++ i :: B) := by
    intro x; simp; tauto
  have h1 : Inv { s with lists := ls, size := s.size + l.size } (i :: V) (A ++ B) (some i) := by
    constructor
    · exact r1
    · intro x; rw [memiff, ← h.heapDom]; simp only; rw [d1 x]
    · intro x; rw [memiff, ← h.lineDom]
    · intro x hx; exact h.bound x ((memiff x).1 hx)
    · intro x m hm hx
      have hx' : x ≠ i := by rintro rfl; exact hx rfl
      rw [← h.val x m hm (by simp)]; simp [hx']
    · exact h.excl
    · exact h.shared
    · exact h.gen
    · show s.size + l.size = _
      have : lineSize { s with lists := ls, size := s.size + l.size } i = l.size := by
        simp [lineSize, hl]
      rw [List.map_cons, List.sum_cons, this, Nat.add_comm]
      congr 1
      exact h.size
    · intro j hj; cases hj
      exact ⟨by simp, l, hl, hv, he, hs⟩
  have hlen : V.length ≤ s.nextId := by have := h.length; simp at this; omega
  obtain ⟨s', W', I', g1, g2, g3, g4, g5, g6, g7⟩ := evict_spec
    (evictFuel s) { s with lists := ls, size := s.size + l.size } V [] (A ++ B)
    (by simpa using h1) (by simp)
    (by
      simp only [List.append_nil, evictFuel]
      calc V.length * (s.nextId + 1) + V.length
          ≤ s.nextId * (s.nextId + 1) + s.nextId := Nat.add_le_add (Nat.mul_le_mul_right _ hlen) hlen
        _ < (s.nextId + 2) * (s.nextId + 2) := by
          have e : (s.nextId + 2) * (s.nextId + 2) = s.nextId * (s.nextId + 1) + s.nextId + (2 * s.nextId + 4) := by
            ring
          rw [e]; exact Nat.lt_add_of_pos_right (Nat.succ_pos _))
  simp only [List.append_nil] at g4 g6 g7
  refine ⟨s', W', I', ?_, g2, ?_, g4, g5, g6, g7⟩
  · simp only [allocate, e1]
    rw [← g1]
    show evict i (evictFuel s) _ ls.lastValid = _
    rw [r1.lv]
  · exact ⟨g3.1, g3.2.1, g3.2.2⟩

/-- `EvFrame` does not touch a line that is not loaded. -/
theorem EvFrame.none {s s' : State Val} (f : EvFrame s s') {i : Id} {l : Line Val}
    (hl : s.lines i = some l) (hv : l.value = none) : s'.lines i = some l := by
  rcases f.2.2 i with e | ⟨m, e1, _, e3, _⟩
  · rw [e]; exact hl
  · rw [hl] at e1; cases e1; simp [hv] at e3

/-- `EvFrame` does not touch a line that is held. -/
theorem EvFrame.held {s s' : State Val} (f : EvFrame s s') {i : Id} {l : Line Val}
    (hl : s.lines i = some l) (hv : l.pinned) : s'.lines i = some l := by
  rcases f.2.2 i with e | ⟨m, e1, e2, _, _⟩
  · rw [e]; exact hl
  · rw [hl] at e1; cases e1; exact absurd hv e2

theorem insert_spec {s : State Val} {V I : List Id} (h : Inv s V I none) (n : Nat)
    (g : Nat → Option Val) :
    ∃ s', insert s n g = .ok s' s.nextId ∧ Inv s' V (s.nextId :: I) none ∧
      s'.lines = upd s.lines s.nextId (some ⟨n, g, none, 0, 0, false⟩) ∧ s'.size = s.size ∧
      s'.maxSize = s.maxSize ∧ s'.nextId = s.nextId + 1 := by
  have hnew : s.nextId ∉ V ++ I := fun hm => Nat.lt_irrefl _ (h.bound _ hm)
  have r0 : Rep { s.lists with heap := upd s.lists.heap s.nextId (some ⟨none, none⟩) } V I := by
    obtain ⟨a, b, c, d, e, f⟩ := h.rep
    refine ⟨a, b, c, d, seg_frame e fun x hx => upd_ne ?_, seg_frame f fun x hx => upd_ne ?_⟩ <;>
      (rintro rfl; exact hnew (by simp [hx]))
  obtain ⟨ls, e1, r1, d1⟩ := invalidate_new _ (l := s.nextId) r0 (by simp) hnew
  have memiff : ∀ x, x ∈ V ++ s.nextId :: I ↔ x = s.nextId ∨ x ∈ V ++ I := by
    intro x; simp; tauto
  have key : ∀ x m, upd s.lines s.nextId (some (⟨n, g, none, 0, 0, false⟩ : Line Val)) x = some m →
      (x = s.nextId ∧ m = ⟨n, g, none, 0, 0, false⟩) ∨ (x ≠ s.nextId ∧ s.lines x = some m) := by
    intro x m hm
    by_cases hx : x = s.nextId
    · subst hx; simp at hm; exact Or.inl ⟨rfl, hm.symm⟩
    · rw [upd_ne hx] at hm; exact Or.inr ⟨hx, hm⟩
  refine ⟨{ s with
    lists := ls, lines := upd s.lines s.nextId (some ⟨n, g, none, 0, 0, false⟩),
    nextId := s.nextId + 1 }, by simp only [insert, e1], ?_, rfl, rfl, rfl, rfl⟩
  constructor
  · exact r1
  · intro x; rw [memiff, ← h.heapDom]; simp only; rw [d1 x]
    by_cases hx : x = s.nextId
    · subst hx; simp
    · simp only; rw [upd_ne hx]; simp [hx]
  · intro x; rw [memiff, ← h.lineDom]; simp only
    by_cases hx : x = s.nextId
    · subst hx; simp
    · rw [upd_ne hx]; simp [hx]
  · intro x hx
    rcases (memiff x).1 hx with rfl | hx
    · exact Nat.lt_succ_self _
    · exact Nat.lt_succ_of_lt (h.bound x hx)
  · intro x m hm _
    rcases key x m hm with ⟨rfl, rfl⟩ | ⟨hx, hm⟩
    · simp at hnew; simp [hnew.1]
    · exact h.val x m hm (by simp)
  · intro x m hm
    rcases key x m hm with ⟨rfl, rfl⟩ | ⟨hx, hm⟩
    · simp
    · exact h.excl x m hm
  · intro x m hm
    rcases key x m hm with ⟨rfl, rfl⟩ | ⟨hx, hm⟩
    · simp
    · exact h.shared x m hm
  · intro x m v hm
    rcases key x m hm with ⟨rfl, rfl⟩ | ⟨hx, hm⟩
    · simp
    · exact h.gen x m v hm
  · show s.size = _
    rw [h.size]; congr 1
    apply List.map_congr_left
    intro x hx
    have : x ≠ s.nextId := by rintro rfl; exact hnew (by simp [hx])
    simp only [lineSize]; rw [upd_ne this]
  · simp

/-- The line of a miss, after generation (`l'`), closes the allocation. -/
theorem finish {s2 : State Val} {W I : List Id} {i : Id} (h : Inv s2 (i :: W) I (some i))
    {l : Line Val} (hl : s2.lines i = some l) (hv : l.value = none) (hs : l.shared = 0)
    (he : l.excl = false) :
    (∀ v, l.generate l.genCount = some v →
      Inv (s2.setLine i { l with value := some v, genCount := l.genCount + 1, shared := 1 })
        (i :: W) I none) ∧
    (l.generate l.genCount = none →
      Inv (s2.setLine i { l with genCount := l.genCount + 1, excl := true }) (i :: W) I none) := by
  constructor
  · intro v hg
    refine h.setLine hl rfl (by simp) (by simp [he]) (by simp) ?_ (Or.inr rfl)
    intro v' hv'
    simp at hv'; subst hv'
    exact ⟨l.genCount, rfl, hg⟩
  · intro hg
    refine h.setLine hl rfl (by simp) (by simp [hv, hs, hg]) (by simp [hs]) (by simp [hv]) (Or.inr rfl)

theorem deprioritize_spec {s : State Val} {V I : List Id} (h : Inv s V I none) {i : Id} {l : Line Val}
    (hl : s.lines i = some l) (hp : ¬ l.pinned) :
    (l.value = none ∧ deprioritize s i = .ok s ()) ∨
    ∃ A B s', V = A ++ i :: B ∧ l.value.isSome ∧ deprioritize s i = .ok s' () ∧
      Inv s' (A ++ B ++ [i]) I none ∧ s'.lines = s.lines ∧ s'.size = s.size ∧
      s'.maxSize = s.maxSize ∧ s'.nextId = s.nextId := by
  have hs0 : l.shared = 0 := by by_contra hh; exact hp (Or.inl (by omega))
  have he0 : l.excl = false := by by_contra hh; exact hp (Or.inr (by simpa using hh))
  rcases hv : l.value with _ | v
  · left; exact ⟨rfl, by simp [deprioritize, hl, hs0, he0, hv]⟩
  · right
    have hiV : i ∈ V := (h.val i l hl (by simp)).2 (by simp [hv])
    obtain ⟨A, B, rfl⟩ := List.append_of_mem hiV
    obtain ⟨ls, e1, r1, d1⟩ := deprioritize_valid s.lists h.rep
    have pm : (A ++ B ++ [i]).Perm (A ++ i :: B) :=
      (List.perm_append_singleton i (A ++ B)).trans List.perm_middle.symm
    refine ⟨A, B, { s with lists := ls }, rfl, rfl, by simp [deprioritize, hl, hs0, he0, hv, e1],
      ?_, rfl, rfl, rfl, rfl⟩
    have memiff : ∀ x, x ∈ A ++ B ++ [i] ++ I ↔ x ∈ A ++ i :: B ++ I :=
      fun x => (pm.append_right I).mem_iff
    constructor
    · exact r1
    · intro x; rw [memiff, ← h.heapDom]; simp only; rw [d1 x]
    · intro x; rw [memiff]; exact h.lineDom x
    · intro x hx; exact h.bound x ((memiff x).1 hx)
    · intro x m hm ha; rw [pm.mem_iff]; exact h.val x m hm ha
    · exact h.excl
    · exact h.shared
    · exact h.gen
    · show s.size = _
      rw [h.size]; exact (pm.symm.map _).sum_eq
    · simp

/-- Removing an unloaded, unheld line from the cache (the tail of `~CacheLine`). -/
theorem destroy_invalid {s : State Val} {V A B : List Id} {i : Id} (h : Inv s V (A ++ i :: B) none)
    (hiV : i ∉ V) :
    ∃ ls, s.lists.remove i = some ls ∧
      Inv { s with lists := { ls with heap := upd ls.heap i none }, lines := upd s.lines i none }
        V (A ++ B) none := by
  obtain ⟨ls, e1, r1, d1⟩ := remove_invalid s.lists h.rep
  have nI : (A ++ i :: B).Nodup := (List.nodup_append.1 h.rep.nodup).2.1
  have hi' : i ∉ V ++ (A ++ B) := by
    have := mid_not_mem nI
    simp at this ⊢; tauto
  refine ⟨ls, e1, ?_⟩
  have memiff : ∀ x, x ∈ V ++ (A ++ B) ↔ x ≠ i ∧ x ∈ V ++ (A ++ i :: B) := by
    intro x
    constructor
    · intro hx
      refine ⟨by rintro rfl; exact hi' hx, by simp at hx ⊢; tauto⟩
    · rintro ⟨h1, h2⟩
      simp [h1] at h2 ⊢; tauto
  have key : ∀ x m, upd s.lines i none x = some m → x ≠ i ∧ s.lines x = some m := by
    intro x m hm
    by_cases hx : x = i
    · subst hx; simp at hm
    · rw [upd_ne hx] at hm; exact ⟨hx, hm⟩
  constructor
  · obtain ⟨a, b, c, d, e, f⟩ := r1
    refine ⟨a, b, c, d, seg_frame e fun x hx => upd_ne ?_, seg_frame f fun x hx => upd_ne ?_⟩
    · rintro rfl; exact hi' (by simp [hx])
    · rintro rfl; exact hi' (by simp at hx ⊢; tauto)
  · intro x; rw [memiff, ← h.heapDom]; simp only
    by_cases hx : x = i
    · subst hx; simp
    · rw [upd_ne hx, d1 x]; simp [hx]
  · intro x; rw [memiff, ← h.lineDom]; simp only
    by_cases hx : x = i
    · subst hx; simp
    · rw [upd_ne hx]; simp [hx]
  · intro x hx; exact h.bound x ((memiff x).1 hx).2
  · intro x m hm _; exact h.val x m (key x m hm).2 (by simp)
  · intro x m hm; exact h.excl x m (key x m hm).2
  · intro x m hm; exact h.shared x m (key x m hm).2
  · intro x m v hm; exact h.gen x m v (key x m hm).2
  · show s.size = _
    rw [h.size]; congr 1
    apply List.map_congr_left
    intro x hx
    have : x ≠ i := by rintro rfl; exact hiV hx
    simp only [lineSize]; rw [upd_ne this]
  · simp

theorem destroy_spec {s : State Val} {V I : List Id} (h : Inv s V I none) {i : Id} {l : Line Val}
    (hl : s.lines i = some l) (hp : ¬ l.pinned) :
    ∃ s', destroy s i = .ok s' () ∧ Inv s' (V.erase i) (I.erase i) none ∧
      s'.lines = upd s.lines i none ∧
      s'.size + (if l.value.isSome then l.size else 0) = s.size ∧
      s'.maxSize = s.maxSize ∧ s'.nextId = s.nextId := by
  have hs0 : l.shared = 0 := by by_contra hh; exact hp (Or.inl (by omega))
  have he0 : l.excl = false := by by_contra hh; exact hp (Or.inr (by simpa using hh))
  have nd := h.rep.nodup
  have dis := (List.nodup_append.1 nd).2.2
  rcases hv : l.value with _ | v
  · have hiV : i ∉ V := by rw [h.val i l hl (by simp)]; simp [hv, he0]
    have hiI : i ∈ I := by
      have : i ∈ V ++ I := (h.lineDom i).1 (by simp [hl])
      simpa [hiV] using this
    obtain ⟨A, B, rfl⟩ := List.append_of_mem hiI
    obtain ⟨ls, e1, h1⟩ := destroy_invalid h hiV
    refine ⟨{ s with lists := { ls with heap := upd ls.heap i none }, lines := upd s.lines i none },
      by simp only [destroy, hl, hs0, he0, hv]; simp [e1], ?_, rfl, by simp, rfl, rfl⟩
    rw [List.erase_of_not_mem hiV]
    have nI := (List.nodup_append.1 nd).2.1
    have : i ∉ A := by intro hA; have := mid_not_mem nI; simp [hA] at this
    rw [List.erase_append_right _ this]; simpa using h1
  · have hiV : i ∈ V := (h.val i l hl (by simp)).2 (by simp [hv])
    have hiI : i ∉ I := fun hI => dis i hiV i hI rfl
    obtain ⟨A, B, rfl⟩ := List.append_of_mem hiV
    obtain ⟨s1, u1, u2, u3, u4, u5, u6⟩ := unload_spec h hl hv hs0 he0 (by simp)
    have hiV' : i ∉ A ++ B := mid_not_mem (List.nodup_append.1 nd).1
    obtain ⟨ls, e1, h1⟩ := destroy_invalid (A := []) (B := I) u2 hiV'
    refine ⟨{ s1 with lists := { ls with heap := upd ls.heap i none }, lines := upd s1.lines i none },
      by simp only [destroy, hl, hs0, he0, hv]; simp [u1, e1], ?_, ?_, by simpa using u4, u5, u6⟩
    · have : i ∉ A := by intro hA; simp [hA] at hiV'
      rw [List.erase_of_not_mem hiI, List.erase_append_right _ this]; simpa using h1
    · simp only [u3]
      funext x
      by_cases hx : x = i
      · subst hx; simp
      · rw [upd_ne hx, upd_ne hx, upd_ne hx]

end VW.Cache
