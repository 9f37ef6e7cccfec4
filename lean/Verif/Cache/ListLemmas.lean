import Verif.Cache.Spec
/-!
Helper lemmas: the pointer operations of `Cache` refine operations on mathematical lists.
-/
namespace VW.Cache

theorem seg_frame {h h' : Id → Option Node} {L : List Id} {p q : Option Id}
    (hs : Seg h p L q) (e : ∀ x ∈ L, h' x = h x) : Seg h' p L q := by
  induction L generalizing p with
  | nil => trivial
  | cons a L ih =>
    obtain ⟨h1, h2⟩ := hs
    refine ⟨?_, ih h2 fun x hx => e x (by simp [hx])⟩
    rw [e a (by simp)]; exact h1

theorem seg_append {h : Id → Option Node} {A B : List Id} {p q : Option Id} :
    Seg h p (A ++ B) q ↔ Seg h p A (B.head?.or q) ∧ Seg h (A.getLast?.or p) B q := by
  induction A generalizing p with
  | nil => simp [Seg]
  | cons a A ih =>
    simp only [List.cons_append, Seg, ih]
    have e1 : (A ++ B).head?.or q = A.head?.or (B.head?.or q) := by
      cases A <;> simp
    have e2 : ((a :: A).getLast?).or p = (A.getLast?).or (some a) := by
      cases A with
      | nil => simp
      | cons b A => simp [List.getLast?_cons]
    rw [e1, e2]
    rw [and_assoc]

theorem upd_ne {α : Type} {h : Id → Option α} {a b : Id} {v : Option α} (e : b ≠ a) :
    upd h a v b = h b := by simp [upd, e]

@[simp] theorem upd_eq {α : Type} {h : Id → Option α} {a : Id} {v : Option α} :
    upd h a v a = v := by simp [upd]

/-- Redirecting the back pointer of the first cell of a segment (if any). -/
theorem setPrev_head (s : Lists) {L : List Id} {p q : Option Id} (p' : Option Id)
    (hs : Seg s.heap p L q) (hn : L.Nodup) :
    ∃ h', s.setPrevO L.head? p' = some { s with heap := h' } ∧ Seg h' p' L q ∧ ∀ x, x ∉ L → h' x = s.heap x := by
  cases L with
  | nil => exact ⟨s.heap, rfl, trivial, fun _ _ => rfl⟩
  | cons a L =>
    obtain ⟨h1, h2⟩ := hs
    refine ⟨upd s.heap a (some ⟨p', L.head?.or q⟩), ?_, ⟨by simp, ?_⟩, ?_⟩
    · simp [Lists.setPrevO, Lists.setPrev, h1]
    · refine seg_frame h2 fun x hx => upd_ne ?_
      rintro rfl; simp at hn; exact hn.1 hx
    · intro x hx; exact upd_ne (by rintro rfl; simp at hx)

/-- Redirecting the forward pointer of the last cell of a segment (if any). -/
theorem setNext_last (s : Lists) {L : List Id} {p q : Option Id} (q' : Option Id)
    (hs : Seg s.heap p L q) (hn : L.Nodup) :
    ∃ h', s.setNextO L.getLast? q' = some { s with heap := h' } ∧ Seg h' p L q' ∧ ∀ x, x ∉ L → h' x = s.heap x := by
  rcases List.eq_nil_or_concat L with rfl | ⟨K, a, rfl⟩
  · exact ⟨s.heap, rfl, trivial, fun _ _ => rfl⟩
  · rw [List.concat_eq_append] at *
    rw [seg_append] at hs
    obtain ⟨h1, h2, -⟩ := hs
    simp at h1 h2
    refine ⟨upd s.heap a (some ⟨K.getLast?.or p, q'⟩), ?_, ?_, ?_⟩
    · simp [Lists.setNextO, Lists.setNext, h2]
    · rw [seg_append]
      refine ⟨?_, by simp [Seg]⟩
      simp
      refine seg_frame h1 fun x hx => upd_ne ?_
      rintro rfl; simp [List.nodup_append] at hn; exact (hn.2 _ hx).elim rfl
    · intro x hx; exact upd_ne (by rintro rfl; simp at hx)

/-- The heaps have the same set of live cells. -/
def SameDom (h h' : Id → Option Node) : Prop := ∀ x, (h' x).isSome = (h x).isSome

theorem SameDom.rfl' (h : Id → Option Node) : SameDom h h := fun _ => rfl

theorem SameDom.trans {a b c : Id → Option Node} (x : SameDom a b) (y : SameDom b c) :
    SameDom a c := fun i => (y i).trans (x i)

theorem setPrev_dom {s s' : Lists} {x p} (h : s.setPrev x p = some s') : SameDom s.heap s'.heap := by
  unfold Lists.setPrev at h
  split at h <;> cases h
  intro y; by_cases e : y = x <;> simp [upd, *]

theorem setNext_dom {s s' : Lists} {x p} (h : s.setNext x p = some s') : SameDom s.heap s'.heap := by
  unfold Lists.setNext at h
  split at h <;> cases h
  intro y; by_cases e : y = x <;> simp [upd, *]

theorem setPrevO_dom {s s' : Lists} {o : Option Id} {p}
    (h : s.setPrevO o p = some s') :
    SameDom s.heap s'.heap := by
  cases o with
  | none => cases h; exact SameDom.rfl' _
  | some x => exact setPrev_dom h

theorem setNextO_dom {s s' : Lists} {o : Option Id} {p}
    (h : s.setNextO o p = some s') :
    SameDom s.heap s'.heap := by
  cases o with
  | none => cases h; exact SameDom.rfl' _
  | some x => exact setNext_dom h

/-- Cutting `l` out of a list. -/
theorem unlink_spec (s : Lists) {A B : List Id} {l : Id}
    (hs : Seg s.heap none (A ++ l :: B) none) (hn : (A ++ l :: B).Nodup) :
    ∃ h', s.unlink l = some { s with heap := h' } ∧ Seg h' none (A ++ B) none ∧
      h' l = s.heap l ∧ SameDom s.heap h' ∧ (∀ x, x ∉ A ++ l :: B → h' x = s.heap x) := by
  rw [seg_append] at hs
  obtain ⟨hA, hl, hB⟩ := hs
  have hnA : A.Nodup := by simp [List.nodup_append] at hn; exact hn.1
  have hnB : B.Nodup := by simp [List.nodup_append] at hn; exact hn.2.1.2
  have lA : l ∉ A := by
    intro h; simp [List.nodup_append] at hn; exact hn.2.2 _ h |>.1 rfl
  have lB : l ∉ B := by simp [List.nodup_append] at hn; exact hn.2.1.1
  have dAB : ∀ x ∈ A, x ∉ B := by
    intro x hx hb; simp [List.nodup_append] at hn; exact hn.2.2 _ hx |>.2 _ hb rfl
  simp only [Option.or_none, List.head?_cons, Option.some_or] at hA hl
  obtain ⟨h1, e1, s1, f1⟩ := setPrev_head s A.getLast? hB hnB
  have hA1 : Seg h1 none A (some l) := seg_frame hA fun x hx => f1 x (dAB x hx)
  obtain ⟨h2, e2, s2, f2⟩ := setNext_last { s with heap := h1 } B.head? hA1 hnA
  have hl1 : h1 l = some ⟨A.getLast?, B.head?⟩ := by rw [f1 l lB]; exact hl
  refine ⟨h2, ?_, ?_, ?_, ?_, ?_⟩
  · unfold Lists.unlink
    simp only [hl, e1, hl1]
    exact e2
  · rw [seg_append]
    simp only [Option.or_none]
    exact ⟨s2, seg_frame s1 fun x hx => f2 x fun ha => dAB x ha hx⟩
  · rw [f2 l lA]; exact f1 l lB
  · exact (setPrevO_dom e1).trans (setNextO_dom e2)
  · intro x hx
    simp at hx
    rw [f2 x hx.1]; exact f1 x hx.2.2

/-- A cell with null links is left alone by `unlink`. -/
theorem unlink_new (s : Lists) {l : Id} (hl : s.heap l = some ⟨none, none⟩) :
    s.unlink l = some s := by
  simp [Lists.unlink, Lists.setPrevO, Lists.setNextO, hl]

/-- Pushing a cell in front of a list: the three statements shared by `validate` and
`invalidate`. -/
theorem push_spec (s : Lists) {L : List Id} {l : Id} {n : Node} (hl : s.heap l = some n)
    (hs : Seg s.heap none L none) (hn : (l :: L).Nodup) :
    ∃ h1 h2 h3, s.setNext l L.head? = some { s with heap := h1 } ∧
      ({ s with heap := h1 } : Lists).setPrev l none = some { s with heap := h2 } ∧
      ({ s with heap := h2 } : Lists).setPrevO L.head? (some l) = some { s with heap := h3 } ∧
      Seg h3 none (l :: L) none ∧ SameDom s.heap h3 ∧ (∀ x, x ∉ l :: L → h3 x = s.heap x) := by
  have lL : l ∉ L := by simp at hn; exact hn.1
  have nL : L.Nodup := by simp at hn; exact hn.2
  let h1 := upd s.heap l (some { n with next := L.head? })
  let h2 := upd h1 l (some ⟨none, L.head?⟩)
  have e1 : s.setNext l L.head? = some { s with heap := h1 } := by simp [Lists.setNext, hl, h1]
  have e2 : ({ s with heap := h1 } : Lists).setPrev l none = some { s with heap := h2 } := by
    simp [Lists.setPrev, h1, h2]
  have f2 : ∀ x, x ≠ l → h2 x = s.heap x := fun x hx => by
    simp only [h2, h1]; rw [upd_ne hx, upd_ne hx]
  have hs2 : Seg h2 none L none := seg_frame hs fun x hx => f2 x (by rintro rfl; exact lL hx)
  obtain ⟨h3, e3, s3, f3⟩ := setPrev_head { s with heap := h2 } (some l) hs2 nL
  refine ⟨h1, h2, h3, e1, e2, e3, ⟨?_, s3⟩, ?_, ?_⟩
  · rw [f3 l lL]; simp [h2]
  · exact ((setNext_dom e1).trans (setPrev_dom e2)).trans (setPrevO_dom e3)
  · intro x hx; simp at hx; rw [f3 x hx.2]; exact f2 x hx.1

/-- Appending a cell behind a nonempty list: the statements of `deprioritize`. -/
theorem append_spec (s : Lists) {L : List Id} {l z : Id} {n : Node} (hl : s.heap l = some n)
    (hz : L.getLast? = some z)
    (hs : Seg s.heap none L none) (hn : (l :: L).Nodup) :
    ∃ h1 h2 h3, s.setPrev l L.getLast? = some { s with heap := h1 } ∧
      ({ s with heap := h1 } : Lists).setNext l none = some { s with heap := h2 } ∧
      ({ s with heap := h2 } : Lists).setNext z (some l) = some { s with heap := h3 } ∧
      Seg h3 none (L ++ [l]) none ∧ SameDom s.heap h3 ∧ (∀ x, x ∉ l :: L → h3 x = s.heap x) := by
  have lL : l ∉ L := by simp at hn; exact hn.1
  have nL : L.Nodup := by simp at hn; exact hn.2
  let h1 := upd s.heap l (some { n with prev := L.getLast? })
  let h2 := upd h1 l (some ⟨L.getLast?, none⟩)
  have e1 : s.setPrev l L.getLast? = some { s with heap := h1 } := by simp [Lists.setPrev, hl, h1]
  have e2 : ({ s with heap := h1 } : Lists).setNext l none = some { s with heap := h2 } := by
    simp [Lists.setNext, h1, h2]
  have f2 : ∀ x, x ≠ l → h2 x = s.heap x := fun x hx => by
    simp only [h2, h1]; rw [upd_ne hx, upd_ne hx]
  have hs2 : Seg h2 none L none := seg_frame hs fun x hx => f2 x (by rintro rfl; exact lL hx)
  obtain ⟨h3, e3, s3, f3⟩ := setNext_last { s with heap := h2 } (some l) hs2 nL
  rw [hz] at e3; simp only [Lists.setNextO] at e3
  refine ⟨h1, h2, h3, e1, e2, e3, ?_, ?_, ?_⟩
  · rw [seg_append]
    refine ⟨by simpa using s3, ?_, trivial⟩
    rw [f3 l lL]; simp [h2]
  · exact ((setPrev_dom e1).trans (setNext_dom e2)).trans (setNext_dom e3)
  · intro x hx; simp at hx; rw [f3 x hx.2]; exact f2 x hx.1

theorem seg_mem {h : Id → Option Node} {L : List Id} {p q : Option Id} (hs : Seg h p L q) {x : Id}
    (hx : x ∈ L) : (h x).isSome := by
  induction L generalizing p with
  | nil => simp at hx
  | cons a L ih =>
    rcases List.mem_cons.1 hx with rfl | hx
    · simp [hs.1]
    · exact ih hs.2 hx

theorem seg_at {h : Id → Option Node} {A B : List Id} {l : Id}
    (hs : Seg h none (A ++ l :: B) none) : h l = some ⟨A.getLast?, B.head?⟩ := by
  rw [seg_append] at hs
  simpa [Seg] using hs.2.1

theorem head_eq_of_nodup {A B : List Id} {l : Id} (hn : (A ++ l :: B).Nodup)
    (h : (A ++ l :: B).head? = some l) : A = [] := by
  cases A with
  | nil => rfl
  | cons a A =>
    simp at h; subst h; simp at hn

theorem last_eq_of_nodup {A B : List Id} {l : Id} (hn : (A ++ l :: B).Nodup)
    (h : (A ++ l :: B).getLast? = some l) : B = [] := by
  rcases List.eq_nil_or_concat B with rfl | ⟨K, b, rfl⟩
  · rfl
  · exfalso
    rw [List.concat_eq_append, ← List.cons_append, ← List.append_assoc, List.getLast?_append] at h
    simp at h; subst h
    rw [List.concat_eq_append] at hn
    simp [List.nodup_append] at hn

end VW.Cache
