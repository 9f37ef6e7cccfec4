import Mathlib.Logic.Relation
import Mathlib.Tactic.Tauto
/-
Equivalences generated by a list of pairs.
-/
namespace VW.Graph
open Relation

variable {α : Type}

/-- The equivalence generated by the pairs of a list: "connected". -/
def Conn (l : List (α × α)) : α → α → Prop := EqvGen (fun x y => (x, y) ∈ l)

theorem Conn.refl (l : List (α × α)) (x : α) : Conn l x x := EqvGen.refl x
theorem Conn.symm {l : List (α × α)} {x y : α} (h : Conn l x y) : Conn l y x := EqvGen.symm _ _ h
theorem Conn.trans {l : List (α × α)} {x y z : α} (h : Conn l x y) (g : Conn l y z) : Conn l x z :=
  EqvGen.trans _ _ _ h g
theorem Conn.of_mem {l : List (α × α)} {x y : α} (h : (x, y) ∈ l) : Conn l x y := EqvGen.rel _ _ h

/-- It is enough that every pair of `l` is connected in `m`. -/
theorem Conn.le {l m : List (α × α)} (h : ∀ p ∈ l, Conn m p.1 p.2) {x y : α} (g : Conn l x y) : Conn m x y := by
  induction g with
  | rel x y k => exact h _ k
  | refl x => exact .refl _ x
  | symm x y _ ih => exact ih.symm
  | trans x y z _ _ ih1 ih2 => exact ih1.trans ih2

theorem Conn.mono {l m : List (α × α)} (h : ∀ p ∈ l, p ∈ m) {x y : α} (g : Conn l x y) : Conn m x y :=
  g.le (fun p hp => .of_mem (h p hp))

theorem Conn.nil {x y : α} (h : Conn [] x y) : x = y := by
  induction h with
  | rel x y k => cases k
  | refl x => rfl
  | symm x y _ ih => exact ih.symm
  | trans x y z _ _ ih1 ih2 => exact ih1.trans ih2

/-- Connected points that differ both occur in pairs. -/
theorem Conn.field {l : List (α × α)} {P : α → Prop} (h : ∀ p ∈ l, P p.1 ∧ P p.2) {x y : α}
    (g : Conn l x y) : x = y ∨ (P x ∧ P y) := by
  induction g with
  | rel x y k => exact Or.inr (h _ k)
  | refl x => exact Or.inl rfl
  | symm x y _ ih => exact ih.elim (fun e => Or.inl e.symm) (fun e => Or.inr ⟨e.2, e.1⟩)
  | trans x y z _ _ ih1 ih2 =>
    rcases ih1 with rfl | ih1
    · exact ih2
    · rcases ih2 with rfl | ih2
      · exact Or.inr ih1
      · exact Or.inr ⟨ih1.1, ih2.2⟩

/-- Adding one pair. -/
theorem conn_cons {l : List (α × α)} {a b x y : α} :
    Conn ((a, b) :: l) x y ↔ Conn l x y ∨ (Conn l x a ∧ Conn l b y) ∨ (Conn l x b ∧ Conn l a y) := by
  constructor
  · intro h
    induction h with
    | rel x y k =>
      rcases List.mem_cons.1 k with k | k
      · obtain ⟨rfl, rfl⟩ := Prod.mk.injEq .. ▸ k
        exact Or.inr (Or.inl ⟨.refl _ _, .refl _ _⟩)
      · exact Or.inl (.of_mem k)
    | refl x => exact Or.inl (.refl _ _)
    | symm x y _ ih =>
      rcases ih with h | ⟨h, g⟩ | ⟨h, g⟩
      · exact Or.inl h.symm
      · exact Or.inr (Or.inr ⟨g.symm, h.symm⟩)
      · exact Or.inr (Or.inl ⟨g.symm, h.symm⟩)
    | trans x y z _ _ ih1 ih2 =>
      rcases ih1 with h | ⟨h, g⟩ | ⟨h, g⟩ <;> rcases ih2 with h' | ⟨h', g'⟩ | ⟨h', g'⟩
      · exact Or.inl (h.trans h')
      · exact Or.inr (Or.inl ⟨h.trans h', g'⟩)
      · exact Or.inr (Or.inr ⟨h.trans h', g'⟩)
      · exact Or.inr (Or.inl ⟨h, g.trans h'⟩)
      · exact Or.inr (Or.inl ⟨h, g'⟩)
      · exact Or.inl (h.trans g')
      · exact Or.inr (Or.inr ⟨h, g.trans h'⟩)
      · exact Or.inl (h.trans g')
      · exact Or.inr (Or.inr ⟨h, g'⟩)
  · have up : ∀ {u v : α}, Conn l u v → Conn ((a, b) :: l) u v := fun k => k.mono (fun p hp => List.mem_cons_of_mem _ hp)
    have hab : Conn ((a, b) :: l) a b := .of_mem (List.mem_cons_self ..)
    rintro (h | ⟨h, g⟩ | ⟨h, g⟩)
    · exact up h
    · exact ((up h).trans hab).trans (up g)
    · exact ((up h).trans hab.symm).trans (up g)

/-- Exchange: if the pair (a,b) is what connects x and y, then the pair (x,y) connects a and b. -/
theorem conn_exchange {l : List (α × α)} {a b x y : α} (h : Conn ((a, b) :: l) x y) (hn : ¬ Conn l x y) :
    Conn ((x, y) :: l) a b := by
  rw [conn_cons] at h ⊢
  rcases h with h | ⟨h, g⟩ | ⟨h, g⟩
  · exact absurd h hn
  · exact Or.inr (Or.inl ⟨h.symm, g.symm⟩)
  · exact Or.inr (Or.inr ⟨g, h⟩)

theorem conn_congr {l m : List (α × α)} (h : ∀ p, p ∈ l ↔ p ∈ m) {x y : α} : Conn l x y ↔ Conn m x y :=
  ⟨fun g => g.mono fun p hp => (h p).1 hp, fun g => g.mono fun p hp => (h p).2 hp⟩

end VW.Graph
