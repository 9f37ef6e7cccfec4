import Verif.Cache.ListLemmas
import Mathlib.Tactic.Tauto
/-!
Helper lemmas: `validate`, `invalidate`, `remove`, `deprioritize` on the pointer structure refine the
obvious operations on a pair of mathematical lists.
-/
namespace VW.Cache

theorem rep_not_head {A B C : List Id} {l : Id} (hn : ((A ++ l :: B) ++ C).Nodup) :
    C.head? ≠ some l := by
  intro h
  cases C with
  | nil => simp at h
  | cons c C => simp at h; subst h; simp [List.nodup_append] at hn

theorem rep_not_head' {A B C : List Id} {l : Id} (hn : (C ++ (A ++ l :: B)).Nodup) :
    C.head? ≠ some l := by
  intro h
  cases C with
  | nil => simp at h
  | cons c C => simp at h; subst h; simp at hn

theorem rep_not_last' {A B C : List Id} {l : Id} (hn : (C ++ (A ++ l :: B)).Nodup) :
    C.getLast? ≠ some l := by
  intro h
  have := List.mem_of_getLast? h
  simp only [List.nodup_append] at hn
  exact hn.2.2 l this l (by simp) rfl

theorem head_fix {A B : List Id} {l : Id} (hn : (A ++ l :: B).Nodup) :
    (if (A ++ l :: B).head? = some l then B.head? else (A ++ l :: B).head?) = (A ++ B).head? := by
  split
  · rename_i h; rw [head_eq_of_nodup hn h]; rfl
  · rename_i h
    cases A with
    | nil => simp at h
    | cons a A => simp

theorem last_fix {A B : List Id} {l : Id} (hn : (A ++ l :: B).Nodup) :
    (if (A ++ l :: B).getLast? = some l then A.getLast? else (A ++ l :: B).getLast?)
      = (A ++ B).getLast? := by
  split
  · rename_i h; rw [last_eq_of_nodup hn h]; simp
  · rename_i h
    rcases List.eq_nil_or_concat B with rfl | ⟨K, b, rfl⟩
    · simp at h
    · simp [List.getLast?_cons, ← List.append_assoc]

theorem Lists.ite_mk (c : Prop) [Decidable c] (h : Id → Option Node) (a b d a' b' d' : Option Id) :
    (if c then Lists.mk h a b d else Lists.mk h a' b' d') =
      Lists.mk h (if c then a else a') (if c then b else b') (if c then d else d') := by
  split <;> rfl

theorem Rep.lit {s : Lists} {V I : List Id} (r : Rep s V I) :
    s = ⟨s.heap, V.head?, V.getLast?, I.head?⟩ := by
  obtain ⟨_, a, b, c, _, _⟩ := r
  cases s; simp_all

theorem mem_mid {A B : List Id} {l x : Id} (hx : x ∈ A ++ B) : x ∈ A ++ l :: B := by
  simp at hx ⊢; tauto

theorem mid_not_mem {A B : List Id} {l : Id} (hn : (A ++ l :: B).Nodup) : l ∉ A ++ B := by
  have : (l :: (A ++ B)).Nodup := (List.perm_middle.nodup_iff).1 hn
  exact (List.nodup_cons.1 this).1

/-- `invalidate` of a line in the valid list. -/
theorem invalidate_valid (s : Lists) {A B I : List Id} {l : Id} (r : Rep s (A ++ l :: B) I) :
    ∃ s', s.invalidate l = some s' ∧ Rep s' (A ++ B) (l :: I) ∧ SameDom s.heap s'.heap := by
  obtain ⟨h0, rfl⟩ : ∃ h0, s = ⟨h0, (A ++ l :: B).head?, (A ++ l :: B).getLast?, I.head?⟩ := ⟨s.heap, r.lit⟩
  have nV : (A ++ l :: B).Nodup := (List.nodup_append.1 r.nodup).1
  have nI : I.Nodup := (List.nodup_append.1 r.nodup).2.1
  have dis := (List.nodup_append.1 r.nodup).2.2
  have hl : h0 l = some ⟨A.getLast?, B.head?⟩ := seg_at r.segV
  have lI : l ∉ I := fun h => dis l (by simp) l h rfl
  obtain ⟨h1, e1, g1, k1, d1, f1⟩ := unlink_spec
    ⟨h0, (A ++ B).head?, (A ++ B).getLast?, I.head?⟩ r.segV nV
  have hI1 : Seg h1 none I none := seg_frame r.segI fun x hx => f1 x fun h => dis x h x hx rfl
  obtain ⟨h2, h3, h4, e2, e3, e4, g4, d4, f4⟩ := push_spec
    ⟨h1, (A ++ B).head?, (A ++ B).getLast?, I.head?⟩
    (l := l) (n := ⟨A.getLast?, B.head?⟩) (by simpa [hl] using k1) hI1 (by simp [lI, nI])
  refine ⟨⟨h4, (A ++ B).head?, (A ++ B).getLast?, some l⟩, ?_, ⟨?_, rfl, rfl, rfl, ?_, g4⟩, d1.trans d4⟩
  · unfold Lists.invalidate
    simp only [hl, Lists.ite_mk, ite_self, head_fix nV, last_fix nV, e1]

    simp only [e2, e3, e4]
  · have p1 : (A ++ l :: B ++ I).Perm (A ++ B ++ l :: I) := by
      rw [List.append_assoc, List.cons_append]
      exact List.perm_middle.trans ((by rw [← List.append_assoc]; exact List.perm_middle.symm))
    exact p1.nodup_iff.1 r.nodup
  · refine seg_frame g1 fun x hx => f4 x ?_
    intro h
    rcases List.mem_cons.1 h with rfl | h
    · exact mid_not_mem nV hx
    · exact dis x (mem_mid hx) x h rfl

/-- `invalidate` of a freshly constructed line. -/
theorem invalidate_new (s : Lists) {V I : List Id} {l : Id} (r : Rep s V I)
    (hl : s.heap l = some ⟨none, none⟩) (hm : l ∉ V ++ I) :
    ∃ s', s.invalidate l = some s' ∧ Rep s' V (l :: I) ∧ SameDom s.heap s'.heap := by
  obtain ⟨h0, rfl⟩ : ∃ h0, s = ⟨h0, V.head?, V.getLast?, I.head?⟩ := ⟨s.heap, r.lit⟩
  replace hl : h0 l = some ⟨none, none⟩ := hl
  have nI : I.Nodup := (List.nodup_append.1 r.nodup).2.1
  have dis := (List.nodup_append.1 r.nodup).2.2
  have hm' : l ∉ V ∧ l ∉ I := by simpa using hm
  obtain ⟨h2, h3, h4, e2, e3, e4, g4, d4, f4⟩ := push_spec ⟨h0, V.head?, V.getLast?, I.head?⟩ hl r.segI (by simp [hm'.2, nI])
  refine ⟨⟨h4, V.head?, V.getLast?, some l⟩, ?_, ⟨?_, rfl, rfl, rfl, ?_, g4⟩, d4⟩
  · have a : V.head? ≠ some l := by
      intro h; exact hm'.1 (List.mem_of_head? h)
    have b : V.getLast? ≠ some l := by
      intro h; exact hm'.1 (List.mem_of_getLast? h)
    unfold Lists.invalidate
    simp only [hl, a, b, if_false, unlink_new ⟨h0, V.head?, V.getLast?, I.head?⟩ hl]
    simp only [e2, e3, e4]
  · exact List.perm_middle.symm.nodup_iff.1 (List.nodup_cons.2 ⟨hm, r.nodup⟩)
  · refine seg_frame r.segV fun x hx => f4 x ?_
    intro h
    rcases List.mem_cons.1 h with rfl | h
    · exact hm'.1 hx
    · exact dis x hx x h rfl

/-- `validate` of a line in the invalid list. -/
theorem validate_invalid (s : Lists) {V A B : List Id} {l : Id} (r : Rep s V (A ++ l :: B)) :
    ∃ s', s.validate l = some s' ∧ Rep s' (l :: V) (A ++ B) ∧ SameDom s.heap s'.heap := by
  obtain ⟨h0, rfl⟩ : ∃ h0, s = ⟨h0, V.head?, V.getLast?, (A ++ l :: B).head?⟩ := ⟨s.heap, r.lit⟩
  have nV : V.Nodup := (List.nodup_append.1 r.nodup).1
  have nI : (A ++ l :: B).Nodup := (List.nodup_append.1 r.nodup).2.1
  have dis := (List.nodup_append.1 r.nodup).2.2
  have hl : h0 l = some ⟨A.getLast?, B.head?⟩ := seg_at r.segI
  have lV : l ∉ V := fun h => dis l h l (by simp) rfl
  have a : V.head? ≠ some l := fun h => lV (List.mem_of_head? h)
  have b : V.getLast? ≠ some l := fun h => lV (List.mem_of_getLast? h)
  obtain ⟨h1, e1, g1, k1, d1, f1⟩ := unlink_spec
    ⟨h0, V.head?, V.getLast?, (A ++ B).head?⟩ r.segI nI
  have hV1 : Seg h1 none V none := seg_frame r.segV fun x hx => f1 x fun h => dis x hx x h rfl
  obtain ⟨h2, h3, h4, e2, e3, e4, g4, d4, f4⟩ := push_spec
    ⟨h1, V.head?, V.getLast?, (A ++ B).head?⟩
    (l := l) (n := ⟨A.getLast?, B.head?⟩) (by simpa [hl] using k1) hV1 (by simp [lV, nV])
  refine ⟨⟨h4, some l, (l :: V).getLast?, (A ++ B).head?⟩, ?_, ⟨?_, rfl, rfl, rfl, g4, ?_⟩, d1.trans d4⟩
  · unfold Lists.validate
    simp only [hl, a, b, if_false, Lists.ite_mk, ite_self, head_fix nI, e1]

    simp only [e2, e3, e4]
    cases V with
    | nil => simp
    | cons v V => simp [List.getLast?_cons]
  · have p1 : (V ++ (A ++ l :: B)).Perm (l :: V ++ (A ++ B)) := by
      rw [← List.append_assoc, List.cons_append, ← List.append_assoc]
      exact List.perm_middle
    exact p1.nodup_iff.1 r.nodup
  · refine seg_frame g1 fun x hx => f4 x ?_
    intro h
    rcases List.mem_cons.1 h with rfl | h
    · exact mid_not_mem nI hx
    · exact dis x h x (mem_mid hx) rfl

/-- `validate` of a line that is already in the valid list: it moves to the front. -/
theorem validate_valid (s : Lists) {A B I : List Id} {l : Id} (r : Rep s (A ++ l :: B) I) :
    ∃ s', s.validate l = some s' ∧ Rep s' (l :: (A ++ B)) I ∧ SameDom s.heap s'.heap := by
  obtain ⟨h0, rfl⟩ : ∃ h0, s = ⟨h0, (A ++ l :: B).head?, (A ++ l :: B).getLast?, I.head?⟩ := ⟨s.heap, r.lit⟩
  have nV : (A ++ l :: B).Nodup := (List.nodup_append.1 r.nodup).1
  have nI : I.Nodup := (List.nodup_append.1 r.nodup).2.1
  have dis := (List.nodup_append.1 r.nodup).2.2
  have hl : h0 l = some ⟨A.getLast?, B.head?⟩ := seg_at r.segV
  have lI : I.head? ≠ some l := fun h => dis l (by simp) l (List.mem_of_head? h) rfl
  by_cases hA : A = []
  · subst hA
    refine ⟨_, ?_, r, SameDom.rfl' _⟩
    simp [Lists.validate]
  have hf : (A ++ l :: B).head? ≠ some l := fun h => hA (head_eq_of_nodup nV h)
  have hh : (A ++ l :: B).head? = (A ++ B).head? := by cases A <;> simp at hA ⊢
  obtain ⟨h1, e1, g1, k1, d1, f1⟩ := unlink_spec
    ⟨h0, (A ++ l :: B).head?, (A ++ B).getLast?, I.head?⟩ r.segV nV
  have nAB : (l :: (A ++ B)).Nodup := List.perm_middle.nodup_iff.1 nV
  obtain ⟨h2, h3, h4, e2, e3, e4, g4, d4, f4⟩ := push_spec
    ⟨h1, (A ++ l :: B).head?, (A ++ B).getLast?, I.head?⟩
    (l := l) (n := ⟨A.getLast?, B.head?⟩) (by simpa [hl] using k1) g1 nAB
  refine ⟨⟨h4, some l, (l :: (A ++ B)).getLast?, I.head?⟩, ?_,
    ⟨?_, rfl, rfl, rfl, g4, ?_⟩, d1.trans d4⟩
  · unfold Lists.validate
    simp only [hl, hf, if_false, Lists.ite_mk, ite_self, last_fix nV, lI]
    simp only [hh] at e1 e2 e3 e4 ⊢
    simp only [e1, e2, e3, e4]
    cases A with
    | nil => simp at hA
    | cons v V => simp [List.getLast?_cons]
  · have p1 : (A ++ l :: B ++ I).Perm (l :: (A ++ B) ++ I) := (List.perm_middle).append_right I
    exact p1.nodup_iff.1 r.nodup
  · refine seg_frame r.segI fun x hx => ?_
    refine (f4 x ?_).trans (f1 x ?_)
    rotate_left
    · intro h; exact dis x h x hx rfl
    · intro h
      exact dis x (List.perm_middle.mem_iff.2 h) x hx rfl

/-- `remove` of a line in the valid list. -/
theorem remove_valid (s : Lists) {A B I : List Id} {l : Id} (r : Rep s (A ++ l :: B) I) :
    ∃ s', s.remove l = some s' ∧ Rep s' (A ++ B) I ∧ SameDom s.heap s'.heap := by
  obtain ⟨h0, rfl⟩ : ∃ h0, s = ⟨h0, (A ++ l :: B).head?, (A ++ l :: B).getLast?, I.head?⟩ := ⟨s.heap, r.lit⟩
  have nV : (A ++ l :: B).Nodup := (List.nodup_append.1 r.nodup).1
  have nI : I.Nodup := (List.nodup_append.1 r.nodup).2.1
  have dis := (List.nodup_append.1 r.nodup).2.2
  have hl : h0 l = some ⟨A.getLast?, B.head?⟩ := seg_at r.segV
  have lI : I.head? ≠ some l := fun h => dis l (by simp) l (List.mem_of_head? h) rfl
  obtain ⟨h1, e1, g1, k1, d1, f1⟩ := unlink_spec
    ⟨h0, (A ++ B).head?, (A ++ B).getLast?, I.head?⟩ r.segV nV
  have k1' : h1 l = some ⟨A.getLast?, B.head?⟩ := by simpa [hl] using k1
  let h2 := upd h1 l (some ⟨A.getLast?, none⟩)
  let h3 := upd h2 l (some ⟨none, none⟩)
  have f3 : ∀ x, x ≠ l → h3 x = h1 x := fun x hx => by
    simp only [h3, h2]; rw [upd_ne hx, upd_ne hx]
  refine ⟨⟨h3, (A ++ B).head?, (A ++ B).getLast?, I.head?⟩, ?_,
    ⟨?_, rfl, rfl, rfl, ?_, ?_⟩, ?_⟩
  · unfold Lists.remove
    simp only [hl, Lists.ite_mk, ite_self, head_fix nV, last_fix nV, 
      lI, if_false]

    simp only [e1, Lists.setNext, k1', Lists.setPrev, upd_eq]
    rfl
  · have p1 : (A ++ l :: B ++ I).Perm (l :: (A ++ B) ++ I) := (List.perm_middle).append_right I
    exact (List.nodup_cons.1 (p1.nodup_iff.1 r.nodup)).2
  · refine seg_frame g1 fun x hx => f3 x ?_
    rintro rfl; exact mid_not_mem nV hx
  · refine seg_frame r.segI fun x hx => ?_
    have : x ≠ l := by rintro rfl; exact dis x (by simp) x hx rfl
    refine (f3 x this).trans (f1 x ?_)
    intro h; exact dis x h x hx rfl
  · refine d1.trans fun x => ?_
    by_cases e : x = l
    · subst e; simp [h3, k1']
    · exact congrArg _ (f3 x e)

/-- `remove` of a line in the invalid list. -/
theorem remove_invalid (s : Lists) {V A B : List Id} {l : Id} (r : Rep s V (A ++ l :: B)) :
    ∃ s', s.remove l = some s' ∧ Rep s' V (A ++ B) ∧ SameDom s.heap s'.heap := by
  obtain ⟨h0, rfl⟩ : ∃ h0, s = ⟨h0, V.head?, V.getLast?, (A ++ l :: B).head?⟩ := ⟨s.heap, r.lit⟩
  have nV : V.Nodup := (List.nodup_append.1 r.nodup).1
  have nI : (A ++ l :: B).Nodup := (List.nodup_append.1 r.nodup).2.1
  have dis := (List.nodup_append.1 r.nodup).2.2
  have hl : h0 l = some ⟨A.getLast?, B.head?⟩ := seg_at r.segI
  have lV : l ∉ V := fun h => dis l h l (by simp) rfl
  have a : V.head? ≠ some l := fun h => lV (List.mem_of_head? h)
  have b : V.getLast? ≠ some l := fun h => lV (List.mem_of_getLast? h)
  obtain ⟨h1, e1, g1, k1, d1, f1⟩ := unlink_spec
    ⟨h0, V.head?, V.getLast?, (A ++ B).head?⟩ r.segI nI
  have k1' : h1 l = some ⟨A.getLast?, B.head?⟩ := by simpa [hl] using k1
  let h2 := upd h1 l (some ⟨A.getLast?, none⟩)
  let h3 := upd h2 l (some ⟨none, none⟩)
  have f3 : ∀ x, x ≠ l → h3 x = h1 x := fun x hx => by
    simp only [h3, h2]; rw [upd_ne hx, upd_ne hx]
  refine ⟨⟨h3, V.head?, V.getLast?, (A ++ B).head?⟩, ?_,
    ⟨?_, rfl, rfl, rfl, ?_, ?_⟩, ?_⟩
  · unfold Lists.remove
    simp only [hl, Lists.ite_mk, ite_self, head_fix nI, a, b, if_false]

    simp only [e1, Lists.setNext, k1', Lists.setPrev, upd_eq]
    rfl
  · have p1 : (V ++ (A ++ l :: B)).Perm (l :: (V ++ (A ++ B))) := by
      rw [← List.append_assoc, ← List.append_assoc]; exact List.perm_middle
    exact (List.nodup_cons.1 (p1.nodup_iff.1 r.nodup)).2
  · refine seg_frame r.segV fun x hx => ?_
    have : x ≠ l := by rintro rfl; exact lV hx
    refine (f3 x this).trans (f1 x ?_)
    intro h; exact dis x hx x h rfl
  · refine seg_frame g1 fun x hx => f3 x ?_
    rintro rfl; exact mid_not_mem nI hx
  · refine d1.trans fun x => ?_
    by_cases e : x = l
    · subst e; simp [h3, k1']
    · exact congrArg _ (f3 x e)

/-- `deprioritize` of a line in the valid list: it moves to the back. -/
theorem deprioritize_valid (s : Lists) {A B I : List Id} {l : Id} (r : Rep s (A ++ l :: B) I) :
    ∃ s', s.deprioritize l = some s' ∧ Rep s' (A ++ B ++ [l]) I ∧ SameDom s.heap s'.heap := by
  obtain ⟨h0, rfl⟩ : ∃ h0, s = ⟨h0, (A ++ l :: B).head?, (A ++ l :: B).getLast?, I.head?⟩ := ⟨s.heap, r.lit⟩
  have nV : (A ++ l :: B).Nodup := (List.nodup_append.1 r.nodup).1
  have nI : I.Nodup := (List.nodup_append.1 r.nodup).2.1
  have dis := (List.nodup_append.1 r.nodup).2.2
  have hl : h0 l = some ⟨A.getLast?, B.head?⟩ := seg_at r.segV
  by_cases hB : B = []
  · subst hB
    refine ⟨⟨h0, _, _, _⟩, ?_, by simpa using r, SameDom.rfl' _⟩
    simp [Lists.deprioritize]
  have hf : (A ++ l :: B).getLast? ≠ some l := fun h => hB (last_eq_of_nodup nV h)
  have hh : (A ++ l :: B).getLast? = (A ++ B).getLast? := by
    rw [← last_fix nV, if_neg hf]
  obtain ⟨z, hz⟩ : ∃ z, (A ++ B).getLast? = some z := by
    rcases h : (A ++ B).getLast? with _ | z
    · simp at h; tauto
    · exact ⟨z, rfl⟩
  obtain ⟨h1, e1, g1, k1, d1, f1⟩ := unlink_spec
    ⟨h0, (A ++ B).head?, (A ++ l :: B).getLast?, I.head?⟩ r.segV nV
  have nAB : (l :: (A ++ B)).Nodup := List.perm_middle.nodup_iff.1 nV
  obtain ⟨h2, h3, h4, e2, e3, e4, g4, d4, f4⟩ := append_spec
    ⟨h1, (A ++ B).head?, (A ++ l :: B).getLast?, I.head?⟩
    (l := l) (n := ⟨A.getLast?, B.head?⟩) (by simpa [hl] using k1) hz g1 nAB
  refine ⟨⟨h4, (A ++ B).head?, some l, I.head?⟩, ?_,
    ⟨?_, ?_, ?_, rfl, g4, ?_⟩, d1.trans d4⟩
  · unfold Lists.deprioritize
    simp only [hl, hf, if_false, Lists.ite_mk, ite_self, head_fix nV]
    simp only [hh] at e1 e2 e3 e4 ⊢
    simp only [e1, e2, e3]
    simp only [hz] at e4 ⊢
    simp only [e4]
  · have p1 : (A ++ l :: B ++ I).Perm (A ++ B ++ [l] ++ I) := by
      refine (List.perm_middle.trans ?_).append_right I
      exact (List.perm_append_singleton l (A ++ B)).symm
    exact p1.nodup_iff.1 r.nodup
  · have : A ++ B ≠ [] := by simp [hB]
    show (A ++ B).head? = _
    cases h : A ++ B with
    | nil => exact absurd h this
    | cons a t => simp
  · simp
  · refine seg_frame r.segI fun x hx => ?_
    refine (f4 x ?_).trans (f1 x ?_)
    rotate_left
    · intro h; exact dis x h x hx rfl
    · intro h
      exact dis x (List.perm_middle.mem_iff.2 h) x hx rfl

end VW.Cache
