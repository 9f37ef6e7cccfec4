import Mathlib.Data.List.Count
import Mathlib.Tactic.Tauto
/-!
Model of `Cache::Handle` (src/vw/Core/Cache.h:237-268, 399-456) for the handles of one line, and
property C09.

State: the number of shared locks on the line mutex and the handle objects, each with its line pointer
(attached or not) and its `m_is_locked` flag. The line object exists while some handle is attached.
Simplifications: one line; dereferences always succeed (loading is modelled in `Verif/Cache/Model`);
`shared_ptr` reference counting is "some handle is attached".
-/
namespace VW.Cache.Handles

structure Handle where
  attached : Bool
  locked : Bool
deriving DecidableEq, Repr

/-- `shared` : number of shared locks on the line's mutex; `hs` : the existing handle objects. -/
structure State where
  shared : Nat
  hs : List Handle
deriving DecidableEq, Repr

inductive Res where
  | ok (s : State)
  | thrown (s : State)   -- VW_ASSERT on a null handle
  | stuck                -- `~CacheLine` waits for the exclusive lock that can never be granted
  | ub                   -- unlocking an unheld mutex, or calling through a null line pointer
deriving DecidableEq, Repr

/-- After a handle lost its pointer: if it was the last one the line is destroyed, which takes the
exclusive lock (Cache.h:306-324) and hangs if a shared lock is left. -/
def dropLine (s : State) : Res :=
  if s.hs.any (·.attached) then .ok s else if s.shared = 0 then .ok s else .stuck

inductive Op where
  | deref (h : Nat)     -- operator->, operator*   (Cache.h:405-418)
  | release (h : Nat)   -- Handle::release         (Cache.h:428-432)
  | copy (h : Nat)      -- implicit copy constructor: copies m_line_ptr and m_is_locked
  | reset (h : Nat)     -- Handle::reset           (Cache.h:446-449)
  | destroy (h : Nat)   -- ~Handle                 (Cache.h:399-403)

def step (s : State) : Op → Option Res
  | .deref h => s.hs[h]? |>.map fun x =>
      if x.attached then .ok { shared := s.shared + 1, hs := s.hs.set h { x with locked := true } }
      else .thrown s
  | .release h => s.hs[h]? |>.map fun x =>
      if x.attached ∧ 0 < s.shared then
        .ok { shared := s.shared - 1, hs := s.hs.set h { x with locked := false } }
      else .ub
  | .copy h => s.hs[h]? |>.map fun x => .ok { s with hs := s.hs ++ [x] }
  | .reset h => s.hs[h]? |>.map fun x =>
      let s' := { s with hs := s.hs.set h { x with attached := false } }
      if x.attached then dropLine s' else .ok s'
  | .destroy h => s.hs[h]? |>.map fun x =>
      if x.locked then
        if x.attached ∧ 0 < s.shared then dropLine { shared := s.shared - 1, hs := s.hs.eraseIdx h }
        else .ub
      else
        let s' := { s with hs := s.hs.eraseIdx h }
        if x.attached then dropLine s' else .ok s'

/-- The state after `Cache::insert`: one unlocked handle. -/
def init : State := { shared := 0, hs := [⟨true, false⟩] }

/-- Run a client program; `none` if it names a handle that does not exist. -/
def run (s : State) : List Op → Option Res
  | [] => some (.ok s)
  | op :: ops => match step s op with
    | some (.ok s') => run s' ops
    | r => r

/-- The discipline that makes handles safe: a handle is dereferenced at most once before it is
released, and is not copied or reset in between; `release` only on a locked handle. -/
def Disciplined (s : State) : Op → Prop
  | .deref h => ∀ x, s.hs[h]? = some x → x.locked = false
  | .release h => ∀ x, s.hs[h]? = some x → x.locked = true
  | .copy h => ∀ x, s.hs[h]? = some x → x.locked = false
  | .reset h => ∀ x, s.hs[h]? = some x → x.locked = false
  | .destroy _ => True

inductive Reach : State → Prop
  | init : Reach init
  | step {s s' op} : Reach s → Disciplined s op → step s op = some (.ok s') → Reach s'

/-- The lock count equals the number of locked handles, and locked handles are attached. -/
structure Inv (s : State) : Prop where
  count : s.shared = s.hs.countP (·.locked)
  att : ∀ x ∈ s.hs, x.locked = true → x.attached = true

theorem countP_set (l : List Handle) (h : Nat) (x y : Handle) (hx : l[h]? = some x) (p : Handle → Bool) :
    (l.set h y).countP p + (if p x then 1 else 0) = l.countP p + (if p y then 1 else 0) := by
  induction l generalizing h with
  | nil => simp at hx
  | cons a l ih =>
    cases h with
    | zero =>
      simp at hx; subst hx
      simp [List.countP_cons]; omega
    | succ h =>
      simp at hx
      have := ih h hx
      simp only [List.set_cons_succ, List.countP_cons]; omega

theorem countP_eraseIdx (l : List Handle) (h : Nat) (x : Handle) (hx : l[h]? = some x) (p : Handle → Bool) :
    (l.eraseIdx h).countP p + (if p x then 1 else 0) = l.countP p := by
  induction l generalizing h with
  | nil => simp at hx
  | cons a l ih =>
    cases h with
    | zero => simp at hx; subst hx; simp [List.countP_cons]
    | succ h =>
      simp at hx
      have := ih h hx
      simp only [List.eraseIdx_cons_succ, List.countP_cons]; omega

theorem mem_set {l : List Handle} {h : Nat} {y z : Handle} (hz : z ∈ l.set h y) : z = y ∨ z ∈ l := by
  rcases List.mem_or_eq_of_mem_set hz with h | h
  · exact Or.inr h
  · exact Or.inl h

theorem locked_pos {s : State} (h : Inv s) {i : Nat} {x : Handle} (hx : s.hs[i]? = some x)
    (hl : x.locked = true) : 0 < s.shared := by
  rw [h.count, List.countP_pos_iff]
  exact ⟨x, List.mem_of_getElem? hx, hl⟩

theorem dropLine_ok {s : State} (h : Inv s) : dropLine s = .ok s := by
  unfold dropLine
  by_cases ha : s.hs.any (·.attached)
  · simp [ha]
  · have : s.shared = 0 := by
      rw [h.count, List.countP_eq_zero]
      intro x hx hl
      apply ha
      rw [List.any_eq_true]
      exact ⟨x, hx, h.att x hx hl⟩
    simp [this]

theorem step_ok {s : State} (h : Inv s) (op : Op) (hd : Disciplined s op) {r : Res}
    (e : step s op = some r) : (∃ s', r = .ok s' ∧ Inv s') ∨ (r = .thrown s) := by
  cases op with
  | deref i =>
    simp only [step, Option.map_eq_some_iff] at e
    obtain ⟨x, hx, rfl⟩ := e
    by_cases ha : x.attached = true
    · left
      refine ⟨_, if_pos ha, ?_, ?_⟩
      · have := countP_set s.hs i x { x with locked := true } hx (·.locked)
        have hu := hd x hx
        simp only [hu] at this
        have := h.count
        simp at *; omega
      · intro y hy hl
        rcases mem_set hy with rfl | hy
        · exact ha
        · exact h.att y hy hl
    · right; simp [ha]
  | release i =>
    simp only [step, Option.map_eq_some_iff] at e
    obtain ⟨x, hx, rfl⟩ := e
    have hl := hd x hx
    have ha := h.att x (List.mem_of_getElem? hx) hl
    have hp := locked_pos h hx hl
    left
    refine ⟨_, if_pos ⟨ha, hp⟩, ?_, ?_⟩
    · have := countP_set s.hs i x { x with locked := false } hx (·.locked)
      simp only [hl] at this
      have := h.count
      simp at *; omega
    · intro y hy hl
      rcases mem_set hy with rfl | hy
      · simp at hl
      · exact h.att y hy hl
  | copy i =>
    simp only [step, Option.map_eq_some_iff] at e
    obtain ⟨x, hx, rfl⟩ := e
    have hl := hd x hx
    left
    refine ⟨_, rfl, ?_, ?_⟩
    · simp [List.countP_append, hl]; exact h.count
    · intro y hy hly
      rcases List.mem_append.1 hy with hy | hy
      · exact h.att y hy hly
      · simp at hy; subst hy; simp [hl] at hly
  | reset i =>
    simp only [step, Option.map_eq_some_iff] at e
    obtain ⟨x, hx, rfl⟩ := e
    have hl := hd x hx
    have hinv : Inv { s with hs := s.hs.set i { x with attached := false } } := by
      constructor
      · have := countP_set s.hs i x { x with attached := false } hx (·.locked)
        have := h.count
        simp at *; omega
      · intro y hy hly
        rcases mem_set hy with rfl | hy
        · simp [hl] at hly
        · exact h.att y hy hly
    left
    by_cases ha : x.attached = true
    · simp only [ha, if_true]; exact ⟨_, dropLine_ok hinv, hinv⟩
    · simp only [ha]; exact ⟨_, rfl, hinv⟩
  | destroy i =>
    simp only [step, Option.map_eq_some_iff] at e
    obtain ⟨x, hx, rfl⟩ := e
    left
    by_cases hl : x.locked = true
    · have ha := h.att x (List.mem_of_getElem? hx) hl
      have hp := locked_pos h hx hl
      have hinv : Inv { shared := s.shared - 1, hs := s.hs.eraseIdx i } := by
        constructor
        · have := countP_eraseIdx s.hs i x hx (·.locked)
          have := h.count
          simp [hl] at *; omega
        · intro y hy hly; exact h.att y (List.mem_of_mem_eraseIdx hy) hly
      simp only [hl, if_true, ha, hp, and_self]
      exact ⟨_, dropLine_ok hinv, hinv⟩
    · have hinv : Inv { s with hs := s.hs.eraseIdx i } := by
        constructor
        · have := countP_eraseIdx s.hs i x hx (·.locked)
          have := h.count
          simp [hl] at *; omega
        · intro y hy hly; exact h.att y (List.mem_of_mem_eraseIdx hy) hly
      simp only [hl]
      by_cases ha : x.attached = true
      · simp only [ha, if_true]; exact ⟨_, dropLine_ok hinv, hinv⟩
      · simp only [ha]; exact ⟨_, rfl, hinv⟩

theorem reach_inv {s : State} (h : Reach s) : Inv s := by
  induction h with
  | init => constructor <;> simp [init]
  | step _ hd e ih =>
    rcases step_ok ih _ hd e with ⟨s', e', k⟩ | e'
    · cases e'; exact k
    · cases e'

/-- C09 for disciplined clients: the line is locked exactly as often as there are locked handles, no
call is undefined behaviour and no destruction hangs, whatever the history; in particular when no
handle is locked the line is evictable. Missing: the discipline hypothesis (the API neither enforces
nor documents it), without which the property is false, see the three theorems below. -/
theorem handle_lock_discipline_partial {s : State} (h : Reach s) :
    s.shared = s.hs.countP (·.locked) ∧
    ((∀ x ∈ s.hs, x.locked = false) → s.shared = 0) ∧
    (∀ op, Disciplined s op → step s op ≠ some .ub ∧ step s op ≠ some .stuck) := by
  have k := reach_inv h
  refine ⟨k.count, ?_, ?_⟩
  · intro hall
    rw [k.count, List.countP_eq_zero]
    intro x hx; simp [hall x hx]
  · intro op hd
    constructor <;> intro e <;> rcases step_ok k op hd e with ⟨s', e', _⟩ | e' <;> cases e'

/-- C09 is false in general (1): `*h; *h; h.release();` then dropping the handle hangs forever in
`~CacheLine`, because only one of the two shared locks was given back. -/
theorem double_deref_hangs : run init [.deref 0, .deref 0, .release 0, .destroy 0] = some .stuck := by decide

/-- C09 is false in general (2): copying a dereferenced handle copies the lock flag, so the lock is
given back twice. -/
theorem copy_locked_double_release : run init [.deref 0, .copy 0, .destroy 0, .destroy 0] = some .ub := by decide

/-- C09 is false in general (3): resetting a dereferenced handle hangs. -/
theorem reset_locked_hangs : run init [.deref 0, .reset 0] = some .stuck := by decide

/-- Non-vacuity: two handles of one line, one of them locked. -/
example : ∃ s, Reach s ∧ s.shared = 1 ∧ s.hs = [⟨true, true⟩, ⟨true, false⟩] := by
  refine ⟨_, .step (op := .deref 0) (.step (op := .copy 0) .init ?_ rfl) ?_ rfl, rfl, rfl⟩
  · intro x hx; cases hx; rfl
  · intro x hx; cases hx; rfl

end VW.Cache.Handles
