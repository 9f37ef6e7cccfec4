import Mathlib.Tactic.Ring
/-!
Statement-level model of threads inside `CacheLine::value()` (src/vw/Core/Cache.h:354-377) and
`CacheLine::release()` (Cache.h:379-382) on one line, and property C08.

Simplifications: one line, large cache limit (no eviction); threads are numbered by `Nat`, all start
outside; the two downgrade statements (Cache.h:373-374) are one step; `boost::shared_mutex` is
modelled by which holders exclude each other (shared/upgrade/exclusive), without its fairness rules.
The concrete schedule in the refutation never makes a thread wait, so fairness does not matter.
-/
namespace VW.Cache.Race

/-- Where a thread is in `value()`. -/
inductive PC where
  | outside        -- before lock_shared()             (Cache.h:357)
  | shared         -- holds shared, about to test m_value (Cache.h:358)
  | missed         -- saw NULL, about to unlock_shared  (Cache.h:363)
  | wantUpgrade    -- about to lock_upgrade()           (Cache.h:364)
  | upgrade        -- about to unlock_upgrade_and_lock  (Cache.h:365)
  | exclusive      -- about to allocate()               (Cache.h:366)
  | allocated      -- about to generate()               (Cache.h:369-370)
  | generated      -- about to downgrade                (Cache.h:372-373)
  | holding        -- value() returned, shared lock held
  | released       -- after release()
deriving DecidableEq

structure State where
  pc : Nat → PC
  value : Option Nat     -- m_value: which generate() call made it
  genCount : Nat         -- calls of generate()
  charged : Nat          -- what the line contributed to Cache::m_size
  size : Nat

def PC.isShared : PC → Bool
  | .shared | .missed | .holding => true
  | _ => false

def PC.isExcl : PC → Bool
  | .exclusive | .allocated | .generated => true
  | _ => false

def PC.isUpgrade : PC → Bool
  | .upgrade => true
  | _ => false

def setPC (s : State) (t : Nat) (p : PC) : State :=
  { s with pc := fun u => if u = t then p else s.pc u }

/-- One statement of thread `t`. -/
inductive Step (t : Nat) : State → State → Prop
  | lockShared {s} : s.pc t = .outside → (∀ u, u ≠ t → ¬ (s.pc u).isExcl) → Step t s (setPC s t .shared)
  | hit {s v} : s.pc t = .shared → s.value = some v → Step t s (setPC s t .holding)
  | miss {s} : s.pc t = .shared → s.value = none → Step t s (setPC s t .missed)
  | unlockShared {s} : s.pc t = .missed → Step t s (setPC s t .wantUpgrade)
  | lockUpgrade {s} : s.pc t = .wantUpgrade →
      (∀ u, u ≠ t → ¬ (s.pc u).isExcl ∧ ¬ (s.pc u).isUpgrade) → Step t s (setPC s t .upgrade)
  | lockExcl {s} : s.pc t = .upgrade → (∀ u, u ≠ t → ¬ (s.pc u).isShared) → Step t s (setPC s t .exclusive)
  | allocate {s} : s.pc t = .exclusive →
      Step t s { setPC s t .allocated with charged := s.charged + s.size }
  | generate {s} : s.pc t = .allocated →
      Step t s { setPC s t .generated with value := some s.genCount, genCount := s.genCount + 1 }
  | downgrade {s} : s.pc t = .generated → Step t s (setPC s t .holding)
  | release {s} : s.pc t = .holding → Step t s (setPC s t .released)

def init (size : Nat) : State :=
  { pc := fun _ => .outside, value := none, genCount := 0, charged := 0, size := size }

inductive Reach (size : Nat) : State → Prop
  | init : Reach size (init size)
  | step {s s'} (t : Nat) : Reach size s → Step t s s' → Reach size s'

/-- C08 as a user expects it: however the threads interleave, one generation and one charge. -/
def Claim : Prop := ∀ size s, Reach size s → s.genCount ≤ 1 ∧ s.charged ≤ size

/-- C08 is false: two threads that both see the miss generate twice and charge the cache twice for
one object. -/
theorem concurrent_miss_refuted : ¬ Claim := by
  intro h
  have r0 := Reach.init (size := 5)
  have r1 := Reach.step 0 r0 (.lockShared rfl (by intro u _; simp [init, PC.isExcl]))
  have r2 := Reach.step 1 r1 (.lockShared rfl (by
    intro u hu; by_cases h0 : u = 0 <;> simp [init, setPC, PC.isExcl, h0]))
  have r3 := Reach.step 0 r2 (.miss rfl rfl)
  have r4 := Reach.step 1 r3 (.miss rfl rfl)
  have r5 := Reach.step 0 r4 (.unlockShared rfl)
  have r6 := Reach.step 1 r5 (.unlockShared rfl)
  have r7 := Reach.step 0 r6 (.lockUpgrade rfl (by
    intro u hu; by_cases h1 : u = 1 <;> simp [init, setPC, PC.isExcl, PC.isUpgrade, h1, hu]))
  have r8 := Reach.step 0 r7 (.lockExcl rfl (by
    intro u hu; by_cases h1 : u = 1 <;> simp [init, setPC, PC.isShared, h1, hu]))
  have r9 := Reach.step 0 r8 (.allocate rfl)
  have r10 := Reach.step 0 r9 (.generate rfl)
  have r11 := Reach.step 0 r10 (.downgrade rfl)
  have r12 := Reach.step 0 r11 (.release rfl)
  have r13 := Reach.step 1 r12 (.lockUpgrade rfl (by
    intro u hu; by_cases h1 : u = 0 <;> simp [init, setPC, PC.isExcl, PC.isUpgrade, h1, hu]))
  have r14 := Reach.step 1 r13 (.lockExcl rfl (by
    intro u hu; by_cases h1 : u = 0 <;> simp [init, setPC, PC.isShared, h1, hu]))
  have r15 := Reach.step 1 r14 (.allocate rfl)
  have r16 := Reach.step 1 r15 (.generate rfl)
  have := (h 5 _ r16).1
  revert this
  decide

/-- The invariant behind the positive part. -/
structure Inv (s : State) : Prop where
  mutex : ∀ t u, t ≠ u → (s.pc t).isExcl → ¬ (s.pc u).isExcl ∧ ¬ (s.pc u).isShared ∧ ¬ (s.pc u).isUpgrade
  upg : ∀ t u, t ≠ u → (s.pc t).isUpgrade → ¬ (s.pc u).isUpgrade ∧ ¬ (s.pc u).isExcl
  value : s.value.isSome ↔ 0 < s.genCount
  sees : ∀ t, s.pc t = .holding ∨ s.pc t = .generated → s.value.isSome
  charge0 : (∀ t, s.pc t ≠ .allocated) → s.charged = s.size * s.genCount
  charge1 : (∃ t, s.pc t = .allocated) → s.charged = s.size * (s.genCount + 1)

theorem setPC_pc (s : State) (t u : Nat) (p : PC) :
    (setPC s t p).pc u = if u = t then p else s.pc u := rfl

theorem inv_setPC {s : State} (h : Inv s) (t : Nat) (p : PC)
    (h1 : p.isExcl → ∀ u, u ≠ t → ¬ (s.pc u).isExcl ∧ ¬ (s.pc u).isShared ∧ ¬ (s.pc u).isUpgrade)
    (h1' : p.isShared ∨ p.isUpgrade → ∀ u, u ≠ t → ¬ (s.pc u).isExcl)
    (h2 : p.isUpgrade → ∀ u, u ≠ t → ¬ (s.pc u).isUpgrade)
    (h3 : p = .holding ∨ p = .generated → s.value.isSome)
    (h4 : p ≠ .allocated) (h5 : s.pc t ≠ .allocated) : Inv (setPC s t p) := by
  have e1 : (∃ u, (setPC s t p).pc u = .allocated) ↔ ∃ u, s.pc u = .allocated := by
    constructor
    · rintro ⟨u, hu⟩
      rw [setPC_pc] at hu
      split at hu
      · exact absurd hu h4
      · exact ⟨u, hu⟩
    · rintro ⟨u, hu⟩
      refine ⟨u, ?_⟩
      rw [setPC_pc, if_neg]; · exact hu
      rintro rfl; exact h5 hu
  constructor
  · intro a b hab ha
    rw [setPC_pc] at ha ⊢
    by_cases hat : a = t
    · subst hat
      rw [if_pos rfl] at ha
      rw [if_neg (Ne.symm hab)]
      exact h1 ha b (Ne.symm hab)
    · rw [if_neg hat] at ha
      by_cases hbt : b = t
      · subst hbt
        rw [if_pos rfl]
        refine ⟨?_, ?_, ?_⟩
        · intro hb; exact (h1 hb a hat).1 ha
        · intro hb; exact h1' (Or.inl hb) a hat ha
        · intro hb; exact h1' (Or.inr hb) a hat ha
      · rw [if_neg hbt]; exact h.mutex a b hab ha
  · intro a b hab ha
    rw [setPC_pc] at ha ⊢
    by_cases hat : a = t
    · subst hat
      rw [if_pos rfl] at ha
      rw [if_neg (Ne.symm hab)]
      exact ⟨h2 ha b (Ne.symm hab), h1' (Or.inr ha) b (Ne.symm hab)⟩
    · rw [if_neg hat] at ha
      by_cases hbt : b = t
      · subst hbt
        rw [if_pos rfl]
        exact ⟨fun hb => h2 hb a hat ha, fun hb => (h1 hb a hat).2.2 ha⟩
      · rw [if_neg hbt]; exact h.upg a b hab ha
  · exact h.value
  · intro a ha
    rw [setPC_pc] at ha
    split at ha
    · exact h3 ha
    · exact h.sees a ha
  · intro hn
    exact h.charge0 fun u hu => by
      obtain ⟨v, hv⟩ := e1.2 ⟨u, hu⟩; exact hn v hv
  · intro hn; exact h.charge1 (e1.1 hn)

theorem reach_inv {size : Nat} {s : State} (h : Reach size s) : Inv s ∧ s.size = size := by
  induction h with
  | init =>
    refine ⟨?_, rfl⟩
    constructor <;> simp [init, PC.isExcl, PC.isUpgrade]
  | @step s s2 t _ hs ih =>
    obtain ⟨h, hsz⟩ := ih
    cases hs with
    | lockShared hp hg =>
      exact ⟨inv_setPC h t _ (by simp [PC.isExcl]) (fun _ => hg) (by simp [PC.isUpgrade]) (by simp) (by simp) (by simp [hp]), hsz⟩
    | hit hp hv =>
      refine ⟨inv_setPC h t _ (by simp [PC.isExcl]) (fun _ u hu => ?_) (by simp [PC.isUpgrade]) (by simp [hv]) (by simp) (by simp [hp]), hsz⟩
      intro he; exact (h.mutex u t hu he).2.1 (by simp [hp, PC.isShared])
    | miss hp hv =>
      refine ⟨inv_setPC h t _ (by simp [PC.isExcl]) (fun _ u hu => ?_) (by simp [PC.isUpgrade]) (by simp) (by simp) (by simp [hp]), hsz⟩
      intro he; exact (h.mutex u t hu he).2.1 (by simp [hp, PC.isShared])
    | unlockShared hp =>
      exact ⟨inv_setPC h t _ (by simp [PC.isExcl]) (by simp [PC.isShared, PC.isUpgrade]) (by simp [PC.isUpgrade]) (by simp) (by simp) (by simp [hp]), hsz⟩
    | lockUpgrade hp hg =>
      exact ⟨inv_setPC h t _ (by simp [PC.isExcl]) (fun _ u hu => (hg u hu).1) (fun _ u hu => (hg u hu).2) (by simp) (by simp) (by simp [hp]), hsz⟩
    | lockExcl hp hg =>
      refine ⟨inv_setPC h t _ (fun _ u hu => ?_) (by simp [PC.isShared, PC.isUpgrade]) (by simp [PC.isUpgrade]) (by simp) (by simp) (by simp [hp]), hsz⟩
      have := h.upg t u (Ne.symm hu) (by simp [hp, PC.isUpgrade])
      exact ⟨this.2, hg u hu, this.1⟩
    | allocate hp =>
      refine ⟨?_, hsz⟩
      have mt := fun u hu => h.mutex t u hu (by simp [hp, PC.isExcl])
      have noalloc : ∀ u, s.pc u ≠ .allocated := by
        intro u hu
        by_cases hut : u = t
        · subst hut; rw [hp] at hu; cases hu
        · exact (mt u (Ne.symm hut)).1 (by simp [hu, PC.isExcl])
      have c0 := h.charge0 noalloc
      constructor
      · intro a b hab ha
        simp only [setPC_pc] at ha ⊢
        by_cases hat : a = t
        · subst hat; rw [if_neg (Ne.symm hab)]; exact mt b hab
        · rw [if_neg hat] at ha
          exact absurd ha (mt a (Ne.symm hat)).1
      · intro a b hab ha
        simp only [setPC_pc] at ha
        by_cases hat : a = t
        · subst hat; simp [PC.isUpgrade] at ha
        · rw [if_neg hat] at ha
          exact absurd ha (mt a (Ne.symm hat)).2.2
      · exact h.value
      · intro a ha
        simp only [setPC_pc] at ha
        split at ha
        · simp at ha
        · exact h.sees a ha
      · intro hn; exact absurd (by simp [setPC]) (hn t)
      · intro _
        show s.charged + s.size = _
        rw [c0]; show _ = s.size * (s.genCount + 1); ring
    | generate hp =>
      refine ⟨?_, hsz⟩
      have mt := fun u hu => h.mutex t u hu (by simp [hp, PC.isExcl])
      have c1 := h.charge1 ⟨t, hp⟩
      constructor
      · intro a b hab ha
        simp only [setPC_pc] at ha ⊢
        by_cases hat : a = t
        · subst hat; rw [if_neg (Ne.symm hab)]; exact mt b hab
        · rw [if_neg hat] at ha
          exact absurd ha (mt a (Ne.symm hat)).1
      · intro a b hab ha
        simp only [setPC_pc] at ha
        by_cases hat : a = t
        · subst hat; simp [PC.isUpgrade] at ha
        · rw [if_neg hat] at ha
          exact absurd ha (mt a (Ne.symm hat)).2.2
      · simp
      · intro a ha; simp
      · intro _; exact c1
      · rintro ⟨u, hu⟩
        simp only [setPC_pc] at hu
        split at hu
        · cases hu
        · rename_i hut
          exact absurd (by simp [hu, PC.isExcl]) (mt u (Ne.symm hut)).1
    | downgrade hp =>
      refine ⟨inv_setPC h t _ (by simp [PC.isExcl]) (fun _ u hu => ?_) (by simp [PC.isUpgrade])
        (fun _ => h.sees t (Or.inr hp)) (by simp) (by simp [hp]), hsz⟩
      have := h.mutex t u (Ne.symm hu) (by simp [hp, PC.isExcl])
      exact this.1
    | release hp =>
      exact ⟨inv_setPC h t _ (by simp [PC.isExcl]) (by simp [PC.isShared, PC.isUpgrade]) (by simp [PC.isUpgrade]) (by simp) (by simp) (by simp [hp]), hsz⟩

/-- C08, what does hold in every interleaving of any number of threads: a thread whose `value()`
returned sees a loaded object; while one thread allocates or generates no other thread holds the
line in any way; and, when no thread is between `allocate` and `generate`, the cache is charged
exactly once per generator call (not once per object). Missing: at most one generator call. -/
theorem concurrent_miss_partial {size : Nat} {s : State} (h : Reach size s) :
    (∀ t, s.pc t = .holding → s.value.isSome) ∧
    (∀ t u, t ≠ u → (s.pc t = .allocated ∨ s.pc t = .generated ∨ s.pc t = .exclusive) →
      s.pc u ≠ .holding ∧ s.pc u ≠ .allocated ∧ s.pc u ≠ .generated) ∧
    ((∀ t, s.pc t ≠ .allocated) → s.charged = size * s.genCount) := by
  obtain ⟨k, e⟩ := reach_inv h
  subst e
  refine ⟨fun t ht => k.sees t (Or.inl ht), ?_, k.charge0⟩
  intro t u htu ht
  have := k.mutex t u htu (by rcases ht with ht | ht | ht <;> simp [ht, PC.isExcl])
  refine ⟨?_, ?_, ?_⟩ <;> intro hu <;> simp [hu, PC.isShared, PC.isExcl] at this

/-- Non-vacuity: a thread can get through to holding the generated object. -/
example : ∃ s, Reach 5 s ∧ s.pc 0 = .holding ∧ s.charged = 5 ∧ s.value = some 0 := by
  have r0 := Reach.init (size := 5)
  have r1 := Reach.step 0 r0 (.lockShared rfl (by intro u _; simp [init, PC.isExcl]))
  have r3 := Reach.step 0 r1 (.miss rfl rfl)
  have r5 := Reach.step 0 r3 (.unlockShared rfl)
  have r7 := Reach.step 0 r5 (.lockUpgrade rfl (by
    intro u hu; simp [init, setPC, PC.isExcl, PC.isUpgrade, hu]))
  have r8 := Reach.step 0 r7 (.lockExcl rfl (by intro u hu; simp [init, setPC, PC.isShared, hu]))
  have r9 := Reach.step 0 r8 (.allocate rfl)
  have r10 := Reach.step 0 r9 (.generate rfl)
  exact ⟨_, Reach.step 0 r10 (.downgrade rfl), rfl, rfl, rfl⟩

end VW.Cache.Race
