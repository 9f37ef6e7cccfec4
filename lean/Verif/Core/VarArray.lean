import Mathlib.Data.List.Basic
/-
Model of `VarArray`, src/vw/Core/VarArray.h, and property C35.

Element types are trivial types: `new T[n]` leaves the cells indeterminate (`none`).  Memory is never exhausted and the
reference count of the shared array is left out: an array that no variable points to is not reused.
-/
namespace VW.VarArray

variable {T : Type}

/-- The members of `VarArray`, VarArray.h:46-47. -/
structure Arr where
  ptr : Option Nat
  size : Nat

/-- Memory and the variables of type VarArray. A cell is `none` while it is indeterminate. -/
structure St (T : Type) where
  heap : Nat → Nat → Option T
  next : Nat
  var : Nat → Arr

/-- The calls a program can make. -/
inductive Op (T : Type)
  | ctor (v : Nat)
  | sized (v n : Nat)
  | range (v : Nat) (l : List T)
  | copy (v o : Nat)
  | assign (v o : Nat)
  | set (v i : Nat) (x : T)
  | resize (v n : Nat) (preserve : Bool)
  | swap (v w : Nat)

def St.setVar (s : St T) (v : Nat) (a : Arr) : St T := { s with var := fun w => if w = v then a else s.var w }

/-- `new T[n]`: a fresh array, all cells indeterminate. -/
def St.alloc (s : St T) : St T × Nat := ({ s with heap := fun p => if p = s.next then fun _ => none else s.heap p, next := s.next + 1 }, s.next)

/-- Writing to the cells a, a+1, .., b-1 of an array. -/
def St.fill (s : St T) (p a b : Nat) (f : Nat → Option T) : St T :=
  { s with heap := fun q i => if q = p ∧ a ≤ i ∧ i < b then f i else s.heap q i }

/-- What an array's cells hold; a null pointer has no cells. -/
def St.cell (s : St T) (a : Arr) (i : Nat) : Option T := match a.ptr with
  | none => none
  | some p => s.heap p i

/-- One call; `none` is undefined behaviour (writing outside the array). -/
def step [Inhabited T] (s : St T) : Op T → Option (St T)
  /- VarArray.h:49 -/
  | .ctor v => some (s.setVar v ⟨none, 0⟩)
  /- VarArray.h:55-57 -/
  | .sized v n =>
    let (s, p) := s.alloc
    some ((s.setVar v ⟨some p, n⟩).fill p 0 n (fun _ => some default))
  /- VarArray.h:59-62 -/
  | .range v l =>
    let (s, p) := s.alloc
    some ((s.setVar v ⟨some p, l.length⟩).fill p 0 l.length (fun i => l[i]?))
  /- VarArray.h:51-53; the array copied from is read before anything is written, the two being different -/
  | .copy v o =>
    let a := s.var o
    let (s', p) := s.alloc
    some ((s'.setVar v ⟨some p, a.size⟩).fill p 0 a.size (fun i => s.cell a i))
  /- VarArray.h:64-70 -/
  | .assign v o =>
    let a := s.var o
    let (s', p) := s.alloc
    some ((s'.fill p 0 a.size (fun i => s.cell a i)).setVar v ⟨some p, a.size⟩)
  /- VarArray.h:72-74 -/
  | .set v i x => match (s.var v).ptr with
    | none => none
    | some p => if i < (s.var v).size then some (s.fill p i (i + 1) (fun _ => some x)) else none
  /- VarArray.h:91-110 -/
  | .resize v n preserve =>
    let a := s.var v
    if n = a.size then some s
    else if n = 0 then some (s.setVar v ⟨none, 0⟩)
    else
      let (s', p) := s.alloc
      let s' := if preserve then
          (if n > a.size then (s'.fill p 0 a.size (fun i => s.cell a i)).fill p a.size n (fun _ => some default)
           else s'.fill p 0 n (fun i => s.cell a i))
        else s'.fill p 0 n (fun _ => some default)
      some (s'.setVar v ⟨some p, n⟩)
  /- VarArray.h:112-115 -/
  | .swap v w =>
    let a := s.var v
    let b := s.var w
    some ((s.setVar v b).setVar w a)

/-- A run of a program. -/
def run [Inhabited T] (s : St T) : List (Op T) → Option (St T)
  | [] => some s
  | o :: os => (step s o).bind (run · os)

/-- No variable holds an array yet. -/
def init : St T := { heap := fun _ _ => none, next := 0, var := fun _ => ⟨none, 0⟩ }

/-! ### Specification: variables holding lists -/

/-- What `resize` is to give. -/
def resized [Inhabited T] (l : List T) (n : Nat) (preserve : Bool) : List T :=
  if preserve then l.take n ++ List.replicate (n - l.length) default
  else if n = l.length then l else List.replicate n default

/-- The same calls on lists. -/
def Spec.step [Inhabited T] (σ : Nat → List T) : Op T → Option (Nat → List T)
  | .ctor v => some (fun w => if w = v then [] else σ w)
  | .sized v n => some (fun w => if w = v then List.replicate n default else σ w)
  | .range v l => some (fun w => if w = v then l else σ w)
  | .copy v o => some (fun w => if w = v then σ o else σ w)
  | .assign v o => some (fun w => if w = v then σ o else σ w)
  | .set v i x => if i < (σ v).length then some (fun w => if w = v then (σ v).set i x else σ w) else none
  | .resize v n preserve => some (fun w => if w = v then resized (σ v) n preserve else σ w)
  | .swap v w => some (fun u => if u = w then σ v else if u = v then σ w else σ u)

def Spec.run [Inhabited T] (σ : Nat → List T) : List (Op T) → Option (Nat → List T)
  | [] => some σ
  | o :: os => (Spec.step σ o).bind (Spec.run · os)

/-- A variable's observable content. -/
def St.shows (s : St T) (v : Nat) (l : List T) : Prop :=
  (s.var v).size = l.length ∧ ∀ i < l.length, s.cell (s.var v) i = l[i]?

/-- The relation: every variable shows its list; no two variables share an array; arrays in use are allocated. -/
structure Rel (s : St T) (σ : Nat → List T) : Prop where
  shows : ∀ v, s.shows v (σ v)
  own : ∀ v w p, (s.var v).ptr = some p → (s.var w).ptr = some p → v = w
  old : ∀ v p, (s.var v).ptr = some p → p < s.next

theorem rel_init : Rel (init : St T) (fun _ => []) :=
  ⟨fun _ => ⟨rfl, fun i hi => absurd hi (by simp)⟩, fun _ _ _ h => by simp [init] at h, fun _ _ h => by simp [init] at h⟩

/-- Giving a variable a fresh array with the cells `g`. -/
theorem rel_fresh {s : St T} {σ : Nat → List T} (h : Rel s σ) (v : Nat) (l : List T) (heap : Nat → Nat → Option T)
    (hn : ∀ p, p < s.next → heap p = s.heap p) (hg : ∀ i < l.length, heap s.next i = l[i]?) :
    Rel { heap := heap, next := s.next + 1, var := fun w => if w = v then ⟨some s.next, l.length⟩ else s.var w }
      (fun w => if w = v then l else σ w) := by
  refine ⟨fun w => ?_, fun a b p ha hb => ?_, fun a p ha => ?_⟩
  · unfold St.shows
    by_cases hw : w = v
    · simp only [hw, if_true, St.cell]; exact ⟨trivial, hg⟩
    · have := h.shows w
      simp only [hw, if_false]
      refine ⟨this.1, fun i hi => ?_⟩
      rw [← this.2 i hi]
      unfold St.cell
      cases hp : (s.var w).ptr with
      | none => rfl
      | some p => simp only; rw [hn p (h.old w p hp)]
  · by_cases h1 : a = v <;> by_cases h2 : b = v
    · rw [h1, h2]
    · simp only [h1, h2, if_true, if_false] at ha hb
      have := h.old b p hb
      simp at ha; omega
    · simp only [h1, h2, if_true, if_false] at ha hb
      have := h.old a p ha
      simp at hb; omega
    · simp only [h1, h2, if_false] at ha hb
      exact h.own a b p ha hb
  · by_cases h1 : a = v
    · simp only [h1, if_true, Option.some.injEq] at ha; show p < s.next + 1; omega
    · simp only [h1, if_false] at ha
      have := h.old a p ha
      show p < s.next + 1; omega

/-- Resetting a variable. -/
theorem rel_reset {s : St T} {σ : Nat → List T} (h : Rel s σ) (v : Nat) :
    Rel (s.setVar v ⟨none, 0⟩) (fun w => if w = v then [] else σ w) := by
  refine ⟨fun w => ?_, fun a b p ha hb => ?_, fun a p ha => ?_⟩
  · unfold St.shows St.setVar
    by_cases hw : w = v
    · simp [hw]
    · simp only [hw, if_false]; exact h.shows w
  · unfold St.setVar at ha hb
    by_cases h1 : a = v <;> by_cases h2 : b = v <;> simp only [h1, h2, if_true, if_false] at ha hb
    · simp at ha
    · simp at ha
    · simp at hb
    · exact h.own a b p ha hb
  · unfold St.setVar at ha
    by_cases h1 : a = v <;> simp only [h1, if_true, if_false] at ha
    · simp at ha
    · exact h.old a p ha

/-- **C35 (one call)**: from related states, a call on arrays and the same call on lists either both fail or both
succeed with related states. -/
theorem step_rel [Inhabited T] {s : St T} {σ : Nat → List T} (h : Rel s σ) (o : Op T) :
    (step s o = none ∧ Spec.step σ o = none) ∨
    ∃ s' σ', step s o = some s' ∧ Spec.step σ o = some σ' ∧ Rel s' σ' := by
  have nx : ∀ p, p < s.next → p ≠ s.next := fun p hp => by omega
  cases o with
  | ctor v => exact Or.inr ⟨_, _, rfl, rfl, rel_reset h v⟩
  | sized v n =>
    refine Or.inr ⟨_, _, rfl, rfl, ?_⟩
    have := rel_fresh h v (List.replicate n default)
      (fun q i => if q = s.next ∧ 0 ≤ i ∧ i < n then some default else if q = s.next then none else s.heap q i)
      (fun p hp => by funext i; simp [nx p hp]) (fun i hi => by simp at hi; simp [hi])
    simp only [List.length_replicate] at this
    convert this using 2
    · funext q i
      simp only [St.alloc, St.setVar, St.fill]
      by_cases hq : q = s.next <;> simp [hq]
    · rfl
    · rfl
  | range v l =>
    refine Or.inr ⟨_, _, rfl, rfl, ?_⟩
    have := rel_fresh h v l
      (fun q i => if q = s.next ∧ 0 ≤ i ∧ i < l.length then l[i]? else if q = s.next then none else s.heap q i)
      (fun p hp => by funext i; simp [nx p hp]) (fun i hi => by simp [hi])
    convert this using 2
    · funext q i
      simp only [St.alloc, St.setVar, St.fill]
      by_cases hq : q = s.next <;> simp [hq]
    · rfl
    · rfl
  | copy v o =>
    refine Or.inr ⟨_, _, rfl, rfl, ?_⟩
    have ho := h.shows o
    have := rel_fresh h v (σ o)
      (fun q i => if q = s.next ∧ 0 ≤ i ∧ i < (s.var o).size then s.cell (s.var o) i
        else if q = s.next then none else s.heap q i)
      (fun p hp => by funext i; simp [nx p hp])
      (fun i hi => by rw [if_pos ⟨rfl, by omega, by rw [ho.1]; exact hi⟩]; exact ho.2 i hi)
    rw [← ho.1] at this
    convert this using 2
    · funext q i
      simp only [St.alloc, St.setVar, St.fill]
      by_cases hq : q = s.next <;> simp [hq]
    · rfl
    · rfl
  | assign v o =>
    refine Or.inr ⟨_, _, rfl, rfl, ?_⟩
    have ho := h.shows o
    have := rel_fresh h v (σ o)
      (fun q i => if q = s.next ∧ 0 ≤ i ∧ i < (s.var o).size then s.cell (s.var o) i
        else if q = s.next then none else s.heap q i)
      (fun p hp => by funext i; simp [nx p hp])
      (fun i hi => by rw [if_pos ⟨rfl, by omega, by rw [ho.1]; exact hi⟩]; exact ho.2 i hi)
    rw [← ho.1] at this
    convert this using 2
    · funext q i
      simp only [St.alloc, St.setVar, St.fill]
      by_cases hq : q = s.next <;> simp [hq]
    · rfl
    · rfl
  | set v i x =>
    have hv := h.shows v
    by_cases hi : i < (σ v).length
    · have hc := hv.2 i hi
      have : ∃ p, (s.var v).ptr = some p := by
        unfold St.cell at hc
        cases hp : (s.var v).ptr with
        | none => rw [hp] at hc; simp only at hc; rw [List.getElem?_eq_getElem hi] at hc; simp at hc
        | some p => exact ⟨p, rfl⟩
      obtain ⟨p, hp⟩ := this
      refine Or.inr ⟨s.fill p i (i + 1) (fun _ => some x), fun w => if w = v then (σ v).set i x else σ w, ?_, ?_, ?_⟩
      · simp only [step, hp]; rw [if_pos (by rw [hv.1]; exact hi)]
      · simp only [Spec.step]; rw [if_pos hi]
      · refine ⟨fun w => ?_, h.own, h.old⟩
        have hw := h.shows w
        unfold St.shows
        by_cases e : w = v
        · subst e
          simp only [if_true, List.length_set]
          refine ⟨hw.1, fun j hj => ?_⟩
          have hcell := hw.2 j hj
          unfold St.cell at hcell ⊢
          simp only [St.fill, hp] at hcell ⊢
          rw [List.getElem?_set]
          by_cases hij : i = j
          · subst hij; simp [hj]
          · rw [if_neg (by omega), if_neg hij]; exact hcell
        · simp only [e, if_false]
          refine ⟨hw.1, fun j hj => ?_⟩
          rw [← hw.2 j hj]
          unfold St.cell
          show (match (s.var w).ptr with | none => none | some q => (s.fill p i (i + 1) fun _ => some x).heap q j) = _
          cases hq : (s.var w).ptr with
          | none => rfl
          | some q =>
            have : q ≠ p := fun hh => e (h.own w v p (by rw [hq, hh]) hp)
            simp [St.fill, this]
    · left
      refine ⟨?_, by simp only [Spec.step]; rw [if_neg hi]⟩
      simp only [step]
      cases (s.var v).ptr with
      | none => rfl
      | some p => simp only; rw [if_neg (by rw [hv.1]; exact hi)]
  | resize v n preserve =>
    have hv := h.shows v
    right
    by_cases h1 : n = (s.var v).size
    · refine ⟨s, _, by simp only [step]; rw [if_pos h1], rfl, ?_⟩
      have e : resized (σ v) n preserve = σ v := by
        unfold resized; rw [hv.1] at h1; subst h1; simp
      have e2 : (fun w => if w = v then resized (σ v) n preserve else σ w) = σ := by
        funext w; by_cases hw : w = v
        · subst hw; simp [e]
        · simp [hw]
      rw [e2]; exact h
    · by_cases h2 : n = 0
      · refine ⟨_, _, by simp only [step]; rw [if_neg h1, if_pos h2], rfl, ?_⟩
        have e : resized (σ v) n preserve = [] := by
          unfold resized; subst h2; rw [hv.1] at h1; cases preserve <;> simp [h1]
        rw [e]; exact rel_reset h v
      · refine ⟨_, _, by simp only [step]; rw [if_neg h1, if_neg h2], rfl, ?_⟩
        rw [hv.1] at h1
        have hl : (resized (σ v) n preserve).length = n := by
          unfold resized; cases preserve
          · simp [h1]
          · simp; omega
        have hg : ∀ i < n, (resized (σ v) n preserve)[i]? =
            if preserve = true ∧ i < (σ v).length then (σ v)[i]? else some default := by
          intro i hi
          unfold resized
          cases preserve with
          | false => simp [h1, List.getElem?_replicate, hi]
          | true =>
            simp only [if_true, true_and]
            rw [List.getElem?_append, List.length_take]
            by_cases hlt : i < (σ v).length
            · rw [if_pos (by omega), if_pos hlt, List.getElem?_take, if_pos hi]
            · rw [if_neg (by omega), if_neg hlt, List.getElem?_replicate, if_pos (by omega)]
        have := rel_fresh h v (resized (σ v) n preserve)
          (fun q i => if q = s.next then
              (if i < n then (if preserve = true ∧ i < (s.var v).size then s.cell (s.var v) i else some default) else none)
            else s.heap q i)
          (fun p hp => by funext i; simp [nx p hp])
          (fun i hi => by
            rw [hl] at hi
            rw [if_pos rfl, if_pos hi, hg i hi, hv.1]
            by_cases hc : preserve = true ∧ i < (σ v).length
            · rw [if_pos hc, if_pos hc, hv.2 i hc.2]
            · rw [if_neg hc, if_neg hc])
        rw [hl] at this
        have fin : ∀ (a b : St T) (τ : Nat → List T), Rel a τ → a = b → Rel b τ := fun a b τ r e => e ▸ r
        refine fin _ _ _ this ?_
        have sz := hv.1
        cases preserve with
        | false =>
          simp only [St.alloc, St.fill, St.setVar, Bool.false_eq_true, if_false, false_and, St.mk.injEq, and_self, and_true]
          funext q i
          by_cases hq : q = s.next
          · by_cases hi : i < n <;> simp [hq, hi]
          · simp [hq]
        | true =>
          simp only [if_true, true_and]
          by_cases hgt : n > (s.var v).size
          · rw [if_pos hgt]
            simp only [St.alloc, St.fill, St.setVar, St.mk.injEq, and_self, and_true]
            funext q i
            by_cases hq : q = s.next
            · simp only [hq, if_true, true_and, Nat.zero_le]
              by_cases hi : i < n <;> by_cases hj : i < (s.var v).size
              · simp [hi, hj]; intro; omega
              · simp [hi, hj]
              · omega
              · simp [hi, hj]
            · simp [hq]
          · rw [if_neg hgt]
            simp only [St.alloc, St.fill, St.setVar, St.mk.injEq, and_self, and_true]
            funext q i
            by_cases hq : q = s.next
            · simp only [hq, if_true, true_and, Nat.zero_le]
              by_cases hi : i < n
              · have : i < (s.var v).size := by omega
                simp [hi, this]
              · simp [hi]
            · simp [hq]
  | swap v w =>
    refine Or.inr ⟨_, _, rfl, rfl, ?_⟩
    have vv : ∀ u, ((s.setVar v (s.var w)).setVar w (s.var v)).var u =
        s.var (if u = w then v else if u = v then w else u) := by
      intro u; simp only [St.setVar]
      by_cases h1 : u = w
      · simp [h1]
      · by_cases h2 : u = v
        · subst h2; simp [h1]
        · simp [h1, h2]
    have σσ : (fun u => if u = w then σ v else if u = v then σ w else σ u) =
        fun u => σ (if u = w then v else if u = v then w else u) := by
      funext u
      by_cases h1 : u = w
      · simp [h1]
      · by_cases h2 : u = v
        · subst h2; simp [h1]
        · simp [h1, h2]
    rw [σσ]
    refine ⟨fun u => ?_, fun a b p ha hb => ?_, fun a p ha => ?_⟩
    · have := h.shows (if u = w then v else if u = v then w else u)
      unfold St.shows at this ⊢
      rw [vv]; exact this
    · rw [vv] at ha hb
      have := h.own _ _ p ha hb
      by_cases h1 : a = w <;> by_cases h2 : b = w <;> by_cases h3 : a = v <;> by_cases h4 : b = v <;>
        simp_all
    · rw [vv] at ha
      exact h.old _ p ha

/-- **C35**: any program on VarArrays does what the same program does on lists: it fails (writes outside an
array) exactly when that does, and otherwise every variable ends up with the size and the elements of its list.
In particular copies are independent. -/
theorem run_refines [Inhabited T] (os : List (Op T)) :
    (run (init : St T) os = none ∧ Spec.run (fun _ => ([] : List T)) os = none) ∨
    ∃ s σ, run (init : St T) os = some s ∧ Spec.run (fun _ => []) os = some σ ∧ ∀ v, s.shows v (σ v) := by
  have key : ∀ (os : List (Op T)) (s : St T) (σ : Nat → List T), Rel s σ →
      (run s os = none ∧ Spec.run σ os = none) ∨
      ∃ s' σ', run s os = some s' ∧ Spec.run σ os = some σ' ∧ Rel s' σ' := by
    intro os
    induction os with
    | nil => exact fun s σ h => Or.inr ⟨s, σ, rfl, rfl, h⟩
    | cons o os ih =>
      intro s σ h
      rcases step_rel h o with ⟨a, b⟩ | ⟨s', σ', a, b, h'⟩
      · left; simp [run, Spec.run, a, b]
      · rcases ih s' σ' h' with ⟨c, d⟩ | ⟨s'', σ'', c, d, h''⟩
        · left; simp [run, Spec.run, a, b, c, d]
        · right; exact ⟨s'', σ'', by simp [run, a, c], by simp [Spec.run, b, d], h''⟩
  rcases key os init (fun _ => []) rel_init with h | ⟨s, σ, a, b, h⟩
  · exact Or.inl h
  · exact Or.inr ⟨s, σ, a, b, h.shows⟩

/-- What the specification says of `resize`: the size is the one asked for, the common prefix is kept and the rest is
zero. -/
theorem resized_spec [Inhabited T] (l : List T) (n i : Nat) (hi : i < n) :
    (resized l n true).length = n ∧ (resized l n true)[i]? = if i < l.length then l[i]? else some default := by
  unfold resized
  simp only [if_true]
  refine ⟨by simp; omega, ?_⟩
  rw [List.getElem?_append, List.length_take]
  by_cases hlt : i < l.length
  · rw [if_pos (by omega), if_pos hlt, List.getElem?_take, if_pos hi]
  · rw [if_neg (by omega), if_neg hlt, List.getElem?_replicate, if_pos (by omega)]

/-- Without preserving, all is zero if the size changes. -/
theorem resized_clear [Inhabited T] (l : List T) (n : Nat) (h : n ≠ l.length) :
    resized l n false = List.replicate n default := by
  unfold resized; simp [h]

/-- **Discrepancy**: resizing to the present size without preserving clears nothing. -/
theorem resize_same_keeps [Inhabited T] (s : St T) (v : Nat) (p : Bool) :
    step s (.resize v (s.var v).size p) = some s := by
  simp [step]

/-- A copy is independent: writing to the copy leaves the original. -/
example : ∃ s, run (init : St Nat) [.range 0 [1, 2, 3], .copy 1 0, .set 1 0 9, .resize 0 5 true, .swap 0 1] = some s ∧
    s.shows 1 [1, 2, 3, 0, 0] ∧ s.shows 0 [9, 2, 3] := by
  rcases run_refines (T := Nat) [.range 0 [1, 2, 3], .copy 1 0, .set 1 0 9, .resize 0 5 true, .swap 0 1] with
    ⟨_, b⟩ | ⟨s, σ, a, b, h⟩
  · exact absurd b (by simp [Spec.run, Spec.step])
  · refine ⟨s, a, ?_⟩
    simp [Spec.run, Spec.step] at b
    have h0 := h 0
    have h1 := h 1
    rw [← b] at h0 h1
    exact ⟨by simpa [resized] using h1, by simpa using h0⟩

end VW.VarArray
