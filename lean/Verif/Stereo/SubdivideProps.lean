import Verif.Stereo.Subdivide
import Mathlib.Data.List.Perm.Basic

namespace VW.Subdivide

/-! ### Specification -/

/-- The pixel is in the box; disparities too. -/
def Mem (b : Box) (p : Int × Int) : Prop := b.x0 ≤ p.1 ∧ p.1 < b.x1 ∧ b.y0 ≤ p.2 ∧ p.2 < b.y1

/-- No pixel in both. -/
def Disjoint (a b : Box) : Prop := ∀ p, ¬ (Mem a p ∧ Mem b p)

/-- The pixel is in the region or next to it, and in the image. -/
def Near (img b : Box) (p : Int × Int) : Prop :=
  Mem img p ∧ b.x0 - 1 ≤ p.1 ∧ p.1 < b.x1 + 1 ∧ b.y0 - 1 ≤ p.2 ∧ p.2 < b.y1 + 1

/-- No smaller range of disparities would do for the pixels in or next to the region: each side of the range is attained. -/
def Tight (disp : Disp) (img r s : Box) : Prop :=
  (∃ p d, Near img r p ∧ disp p = some d ∧ d.1 = s.x0) ∧ (∃ p d, Near img r p ∧ disp p = some d ∧ d.1 + 1 = s.x1) ∧
  (∃ p d, Near img r p ∧ disp p = some d ∧ d.2 = s.y0) ∧ (∃ p d, Near img r p ∧ disp p = some d ∧ d.2 + 1 = s.y1)

/-- A list of regions with ranges of disparities does for the pixels in `P`: the regions lie in `P` and do not overlap, and every
pixel with a disparity is in a region with a range that has this disparity; ranges are tight or empty. -/
structure Good (disp : Disp) (img : Box) (P : Int × Int → Prop) (L : List Param) : Prop where
  inside : ∀ a ∈ L, ∀ p, Mem a.1 p → P p
  disjoint : L.Pairwise fun a b => Disjoint a.1 b.1
  covered : ∀ p d, P p → disp p = some d → ∃ a ∈ L, Mem a.1 p ∧ Mem a.2 d
  tight : ∀ a ∈ L, Tight disp img a.1 a.2 ∨ a.2 = Box.dflt

/-! ### Ranges -/

theorem mem_pixels (b : Box) (p : Int × Int) : p ∈ b.pixels ↔ Mem b p := by
  unfold Box.pixels Mem
  simp only [List.mem_flatMap, List.mem_map, List.mem_range]
  constructor
  · rintro ⟨j, hj, i, hi, rfl⟩
    dsimp only
    omega
  · rintro ⟨h1, h2, h3, h4⟩
    refine ⟨(p.2 - b.y0).toNat, by omega, (p.1 - b.x0).toNat, by omega, ?_⟩
    ext <;> dsimp only <;> omega

/-- What is known after some pixels. -/
structure AccInv (disp : Disp) (ps : List (Int × Int)) (m : Box) : Prop where
  bound : ∀ p ∈ ps, ∀ d, disp p = some d → m.x0 ≤ d.1 ∧ d.1 ≤ m.x1 ∧ m.y0 ≤ d.2 ∧ d.2 ≤ m.y1
  a1 : ∃ p ∈ ps, ∃ d, disp p = some d ∧ d.1 = m.x0
  a2 : ∃ p ∈ ps, ∃ d, disp p = some d ∧ d.1 = m.x1
  a3 : ∃ p ∈ ps, ∃ d, disp p = some d ∧ d.2 = m.y0
  a4 : ∃ p ∈ ps, ∃ d, disp p = some d ∧ d.2 = m.y1

def AccOk (disp : Disp) (ps : List (Int × Int)) : Option Box → Prop
  | none => ∀ p ∈ ps, disp p = none
  | some m => AccInv disp ps m

theorem acc_weaken {disp : Disp} {ps : List (Int × Int)} {p : Int × Int} {P : Int × Int → Prop}
    (h : ∃ q ∈ ps, ∃ d, disp q = some d ∧ P d) : ∃ q ∈ ps ++ [p], ∃ d, disp q = some d ∧ P d := by
  obtain ⟨q, hq, d, h1, h2⟩ := h
  exact ⟨q, List.mem_append_left _ hq, d, h1, h2⟩

theorem accumulate_ok (disp : Disp) (ps : List (Int × Int)) (acc : Option Box) (p : Int × Int) (h : AccOk disp ps acc) :
    AccOk disp (ps ++ [p]) (accumulate disp acc p) := by
  unfold accumulate
  rcases hd : disp p with _ | d
  · dsimp only
    rcases acc with _ | m
    · intro q hq
      rcases List.mem_append.mp hq with hq | hq
      · exact h q hq
      · rw [List.mem_singleton] at hq; rw [hq]; exact hd
    · have h : AccInv disp ps m := h
      refine ⟨?_, acc_weaken h.a1, acc_weaken h.a2, acc_weaken h.a3, acc_weaken h.a4⟩
      intro q hq e he
      rcases List.mem_append.mp hq with hq | hq
      · exact h.bound q hq e he
      · rw [List.mem_singleton] at hq; rw [hq, hd] at he; cases he
  · dsimp only
    have new : ∀ P : Int × Int → Prop, P d → ∃ q ∈ ps ++ [p], ∃ d, disp q = some d ∧ P d := fun P hP => ⟨p, by simp, d, hd, hP⟩
    rcases acc with _ | m
    · dsimp only
      refine ⟨?_, new _ rfl, new _ rfl, new _ rfl, new _ rfl⟩
      intro q hq e he
      rcases List.mem_append.mp hq with hq | hq
      · rw [show disp q = none from h q hq] at he; cases he
      · rw [List.mem_singleton] at hq; rw [hq, hd] at he; cases he
        exact ⟨Int.le_refl _, Int.le_refl _, Int.le_refl _, Int.le_refl _⟩
    · dsimp only
      have h : AccInv disp ps m := h
      have hm : m.x0 ≤ m.x1 ∧ m.y0 ≤ m.y1 := by
        obtain ⟨q, hq, e, he, _⟩ := h.a1
        have := h.bound q hq e he
        omega
      refine ⟨?_, ?_, ?_, ?_, ?_⟩
      · intro q hq e he
        dsimp only
        rcases List.mem_append.mp hq with hq | hq
        · have := h.bound q hq e he
          split <;> split <;> (try split) <;> (try split) <;> omega
        · rw [List.mem_singleton] at hq; rw [hq, hd] at he; cases he
          split <;> split <;> (try split) <;> (try split) <;> omega
      · by_cases c : d.1 < m.x0
        · exact new _ (by simp [c])
        · simp only [c, if_false]; exact acc_weaken h.a1
      · by_cases c : d.1 < m.x0
        · simp only [c, if_true]; exact acc_weaken h.a2
        · by_cases c2 : d.1 > m.x1
          · exact new _ (by simp [c, c2])
          · simp only [c, c2, if_false]; exact acc_weaken h.a2
      · by_cases c : d.2 < m.y0
        · exact new _ (by simp [c])
        · simp only [c, if_false]; exact acc_weaken h.a3
      · by_cases c : d.2 < m.y0
        · simp only [c, if_true]; exact acc_weaken h.a4
        · by_cases c2 : d.2 > m.y1
          · exact new _ (by simp [c, c2])
          · simp only [c, c2, if_false]; exact acc_weaken h.a4

theorem fold_ok (disp : Disp) (ps qs : List (Int × Int)) (acc : Option Box) (h : AccOk disp ps acc) :
    AccOk disp (ps ++ qs) (qs.foldl (accumulate disp) acc) := by
  induction qs generalizing ps acc with
  | nil => simpa using h
  | cons q qs ih =>
    have := ih (ps ++ [q]) (accumulate disp acc q) (accumulate_ok disp ps acc q h)
    simpa using this

/-- The range of the disparities of a box. -/
theorem rangeOf_spec (disp : Disp) (b : Box) :
    (rangeOf disp b = none ∧ ∀ p, Mem b p → disp p = none) ∨
    ∃ s, rangeOf disp b = some s ∧ (∀ p d, Mem b p → disp p = some d → Mem s d) ∧
      (∃ p d, Mem b p ∧ disp p = some d ∧ d.1 = s.x0) ∧ (∃ p d, Mem b p ∧ disp p = some d ∧ d.1 + 1 = s.x1) ∧
      (∃ p d, Mem b p ∧ disp p = some d ∧ d.2 = s.y0) ∧ (∃ p d, Mem b p ∧ disp p = some d ∧ d.2 + 1 = s.y1) := by
  have h := fold_ok disp [] b.pixels none (fun p hp => by cases hp)
  rw [List.nil_append] at h
  unfold rangeOf
  rcases hm : b.pixels.foldl (accumulate disp) none with _ | m
  · left
    rw [hm] at h
    exact ⟨rfl, fun p hp => h p ((mem_pixels b p).mpr hp)⟩
  · right
    rw [hm] at h
    have h : AccInv disp b.pixels m := h
    refine ⟨_, rfl, ?_, ?_, ?_, ?_, ?_⟩
    · intro p d hp hd
      have := h.bound p ((mem_pixels b p).mpr hp) d hd
      unfold Mem
      dsimp only
      omega
    · obtain ⟨p, hp, d, h1, h2⟩ := h.a1
      exact ⟨p, d, (mem_pixels b p).mp hp, h1, h2⟩
    · obtain ⟨p, hp, d, h1, h2⟩ := h.a2
      exact ⟨p, d, (mem_pixels b p).mp hp, h1, by dsimp only; omega⟩
    · obtain ⟨p, hp, d, h1, h2⟩ := h.a3
      exact ⟨p, d, (mem_pixels b p).mp hp, h1, h2⟩
    · obtain ⟨p, hp, d, h1, h2⟩ := h.a4
      exact ⟨p, d, (mem_pixels b p).mp hp, h1, by dsimp only; omega⟩

/-- A box lies in the image. -/
def Sub (b img : Box) : Prop := ∀ p, Mem b p → Mem img p

theorem near_of_mem {img b : Box} (h : Sub b img) {p : Int × Int} (hp : Mem b p) : Near img b p := by
  refine ⟨h p hp, ?_⟩
  unfold Mem at hp
  omega

theorem searchOf_spec (disp : Disp) (img b : Box) (hb : Sub b img) :
    (searchOf disp b = Box.dflt ∧ ∀ p, Mem b p → disp p = none) ∨
    (searchOf disp b ≠ Box.dflt ∧ (searchOf disp b).empty = false ∧ (∀ p d, Mem b p → disp p = some d → Mem (searchOf disp b) d) ∧
      Tight disp img b (searchOf disp b)) := by
  unfold searchOf
  rcases rangeOf_spec disp b with ⟨h1, h2⟩ | ⟨s, h1, h2, h3, h4, h5, h6⟩
  · left; rw [h1]; exact ⟨rfl, h2⟩
  · right
    rw [h1, Option.getD_some]
    have hs : s.x0 < s.x1 ∧ s.y0 < s.y1 := by
      obtain ⟨p, d, hp, hd, _⟩ := h3
      have := h2 p d hp hd
      unfold Mem at this
      omega
    refine ⟨?_, ?_, h2, ?_⟩
    · rintro rfl; revert hs; decide
    · unfold Box.empty; simp; omega
    · obtain ⟨p3, d3, m3, e3⟩ := h3
      obtain ⟨p4, d4, m4, e4⟩ := h4
      obtain ⟨p5, d5, m5, e5⟩ := h5
      obtain ⟨p6, d6, m6, e6⟩ := h6
      exact ⟨⟨p3, d3, near_of_mem hb m3, e3⟩, ⟨p4, d4, near_of_mem hb m4, e4⟩, ⟨p5, d5, near_of_mem hb m5, e5⟩,
        ⟨p6, d6, near_of_mem hb m6, e6⟩⟩

/-! ### Lists of regions -/

theorem disjoint_symm {a b : Box} (h : Disjoint a b) : Disjoint b a := fun p hp => h p ⟨hp.2, hp.1⟩

theorem Good.append {disp : Disp} {img : Box} {P Q : Int × Int → Prop} {L M : List Param} (h : Good disp img P L)
    (h' : Good disp img Q M) (hd : ∀ p, ¬ (P p ∧ Q p)) : Good disp img (fun p => P p ∨ Q p) (L ++ M) := by
  refine ⟨?_, ?_, ?_, ?_⟩
  · intro a ha p hp
    rcases List.mem_append.mp ha with ha | ha
    · exact .inl (h.inside a ha p hp)
    · exact .inr (h'.inside a ha p hp)
  · rw [List.pairwise_append]
    exact ⟨h.disjoint, h'.disjoint, fun a ha b hb p hp => hd p ⟨h.inside a ha p hp.1, h'.inside b hb p hp.2⟩⟩
  · rintro p d (hp | hp) hdp
    · obtain ⟨a, ha, h1⟩ := h.covered p d hp hdp; exact ⟨a, List.mem_append_left _ ha, h1⟩
    · obtain ⟨a, ha, h1⟩ := h'.covered p d hp hdp; exact ⟨a, List.mem_append_right _ ha, h1⟩
  · intro a ha
    rcases List.mem_append.mp ha with ha | ha
    · exact h.tight a ha
    · exact h'.tight a ha

theorem Good.perm {disp : Disp} {img : Box} {P : Int × Int → Prop} {L M : List Param} (h : Good disp img P L) (hp : L.Perm M) :
    Good disp img P M :=
  ⟨fun a ha => h.inside a (hp.mem_iff.mpr ha), (hp.pairwise_iff fun h => disjoint_symm h).mp h.disjoint,
    fun p d h1 h2 => by obtain ⟨a, ha, h3⟩ := h.covered p d h1 h2; exact ⟨a, hp.mem_iff.mp ha, h3⟩,
    fun a ha => h.tight a (hp.mem_iff.mpr ha)⟩

theorem Good.congr {disp : Disp} {img : Box} {P Q : Int × Int → Prop} {L : List Param} (h : Good disp img P L) (hp : ∀ p, P p ↔ Q p) :
    Good disp img Q L :=
  ⟨fun a ha p hm => (hp p).mp (h.inside a ha p hm), h.disjoint, fun p d h1 h2 => h.covered p d ((hp p).mpr h1) h2, h.tight⟩

/-- The union of the two regions is the region that `grow` makes. -/
def Joins (a b : Box) : Prop := (∀ p, Mem (a.grow b) p ↔ Mem a p ∨ Mem b p) ∧ (a.grow b).x0 ≤ a.x0 ∧ (a.grow b).y0 ≤ a.y0 ∧
  a.x1 ≤ (a.grow b).x1 ∧ a.y1 ≤ (a.grow b).y1

theorem Tight.mono {disp : Disp} {img r r' s : Box} (h : Tight disp img r s) (hn : ∀ p, Near img r p → Near img r' p) :
    Tight disp img r' s := by
  obtain ⟨⟨p1, d1, n1, e1⟩, ⟨p2, d2, n2, e2⟩, ⟨p3, d3, n3, e3⟩, ⟨p4, d4, n4, e4⟩⟩ := h
  exact ⟨⟨p1, d1, hn _ n1, e1⟩, ⟨p2, d2, hn _ n2, e2⟩, ⟨p3, d3, hn _ n3, e3⟩, ⟨p4, d4, hn _ n4, e4⟩⟩

/-- Two regions with one range of disparities are merged. -/
theorem Good.merge {disp : Disp} {img : Box} {P : Int × Int → Prop} {L : List Param} {f g : Param} (h : Good disp img P (f :: g :: L))
    (he : f.2 = g.2) (hj : Joins f.1 g.1) : Good disp img P ((f.1.grow g.1, f.2) :: L) := by
  obtain ⟨hu, c1, c2, c3, c4⟩ := hj
  have hd := h.disjoint
  rw [List.pairwise_cons, List.pairwise_cons] at hd
  refine ⟨?_, ?_, ?_, ?_⟩
  · intro a ha p hp
    rcases List.mem_cons.mp ha with rfl | ha
    · rcases (hu p).mp hp with hp | hp
      · exact h.inside f (by simp) p hp
      · exact h.inside g (by simp) p hp
    · exact h.inside a (by simp [ha]) p hp
  · rw [List.pairwise_cons]
    refine ⟨fun a ha p hp => ?_, hd.2.2⟩
    rcases (hu p).mp hp.1 with h1 | h1
    · exact hd.1 a (by simp [ha]) p ⟨h1, hp.2⟩
    · exact hd.2.1 a ha p ⟨h1, hp.2⟩
  · intro p d hp hdp
    obtain ⟨a, ha, h1, h2⟩ := h.covered p d hp hdp
    rcases List.mem_cons.mp ha with rfl | ha
    · exact ⟨_, List.mem_cons_self .., (hu p).mpr (.inl h1), h2⟩
    rcases List.mem_cons.mp ha with rfl | ha
    · refine ⟨_, List.mem_cons_self .., (hu p).mpr (.inr h1), ?_⟩
      show Mem f.2 d
      rw [he]; exact h2
    · exact ⟨a, by simp [ha], h1, h2⟩
  · intro a ha
    rcases List.mem_cons.mp ha with rfl | ha
    · rcases h.tight f (by simp) with ht | ht
      · left
        refine ht.mono fun p hp => ⟨hp.1, ?_⟩
        have := hp.2
        dsimp only
        omega
      · exact .inr ht
    · exact h.tight a (by simp [ha])

theorem canMerge_iff {a b : Param} (h : canMerge a b = true) : (a.1.x0 = b.1.x0 ∨ a.1.y0 = b.1.y0) ∧ a.2 = b.2 := by
  unfold canMerge at h
  simpa [Bool.and_eq_true, Bool.or_eq_true] using h

/-- Merging the quadrants that failed, if not all did. -/
theorem mergeFailed_good {disp : Disp} {img : Box} {P : Int × Int → Prop} {L : List Param} (b cur : Box) (F : List Param)
    (hl : F.length ≤ 3) (hj : F.Pairwise fun a b => (a.1.x0 = b.1.x0 ∨ a.1.y0 = b.1.y0) → Joins a.1 b.1)
    (h : Good disp img P (L ++ F)) : Good disp img P (L ++ mergeFailed b cur F) := by
  rcases F with _ | ⟨f, _ | ⟨g, _ | ⟨k, _ | ⟨k', F⟩⟩⟩⟩
  · exact h
  · exact h
  · show Good disp img P (L ++ if canMerge f g = true then [(f.1.grow g.1, f.2)] else [f, g])
    by_cases hm : canMerge f g = true
    · rw [if_pos hm]
      obtain ⟨h1, h2⟩ := canMerge_iff hm
      have hj' := (List.pairwise_cons.mp hj).1 g (by simp) h1
      have : Good disp img P (f :: g :: L) := h.perm (List.perm_append_comm (l₂ := [f, g]))
      exact (this.merge h2 hj').perm (List.perm_append_comm (l₁ := [_]))
    · rw [if_neg hm]; exact h
  · show Good disp img P (L ++ if canMerge f g = true then [(f.1.grow g.1, f.2), k]
      else if canMerge g k = true then [(g.1.grow k.1, g.2), f]
      else if canMerge f k = true then [(f.1.grow k.1, f.2), g] else [f, g, k])
    have j1 := (List.pairwise_cons.mp hj).1
    have j2 := (List.pairwise_cons.mp (List.pairwise_cons.mp hj).2).1
    have hp : ∀ {x y z : Param}, [f, g, k].Perm [x, y, z] → canMerge x y = true →
        ((x.1.x0 = y.1.x0 ∨ x.1.y0 = y.1.y0) → Joins x.1 y.1) → Good disp img P (L ++ [(x.1.grow y.1, x.2), z]) := by
      intro x y z hperm hm hjn
      obtain ⟨h1, h2⟩ := canMerge_iff hm
      have : Good disp img P (x :: y :: (z :: L)) :=
        h.perm ((List.Perm.append_left L hperm).trans (List.perm_append_comm (l₂ := [x, y, z])))
      exact (this.merge h2 (hjn h1)).perm (List.perm_append_comm (l₁ := [_, z]))
    by_cases m1 : canMerge f g = true
    · rw [if_pos m1]; exact hp (List.Perm.refl _) m1 (j1 g (by simp))
    rw [if_neg m1]
    by_cases m2 : canMerge g k = true
    · rw [if_pos m2]
      exact hp (by
        have : [f, g, k].Perm ([g, k] ++ [f]) := List.perm_append_comm (l₁ := [f])
        exact this) m2 (j2 k (by simp))
    rw [if_neg m2]
    by_cases m3 : canMerge f k = true
    · rw [if_pos m3]
      exact hp ((List.Perm.swap k g []).cons f) m3 (j1 k (by simp))
    rw [if_neg m3]; exact h
  · simp at hl

/-! ### Quadrants -/

theorem quads_cover {b : Box} (_h : b.x0 + 16 ≤ b.x1 ∧ b.y0 + 16 ≤ b.y1) (p : Int × Int) :
    ((Mem (q1 b) p ∨ Mem (q2 b) p) ∨ Mem (q3 b) p) ∨ Mem (q4 b) p ↔ Mem b p := by
  unfold Mem q1 q2 q3 q4
  dsimp only
  omega

theorem quads_disjoint {b : Box} (p : Int × Int) : ¬ (Mem (q1 b) p ∧ Mem (q2 b) p) ∧
    ¬ ((Mem (q1 b) p ∨ Mem (q2 b) p) ∧ Mem (q3 b) p) ∧ ¬ (((Mem (q1 b) p ∨ Mem (q2 b) p) ∨ Mem (q3 b) p) ∧ Mem (q4 b) p) := by
  unfold Mem q1 q2 q3 q4
  dsimp only
  omega

theorem quads_join {b : Box} (h : b.x0 + 16 ≤ b.x1 ∧ b.y0 + 16 ≤ b.y1) (s1 s2 s3 s4 : Box) :
    [(q1 b, s1), (q2 b, s2), (q3 b, s3), (q4 b, s4)].Pairwise fun a b => (a.1.x0 = b.1.x0 ∨ a.1.y0 = b.1.y0) → Joins a.1 b.1 := by
  have ne : ∀ q ∈ [q1 b, q2 b, q3 b, q4 b], q.empty = false := by
    intro q hq
    simp only [List.mem_cons, List.not_mem_nil, or_false] at hq
    rcases hq with rfl | rfl | rfl | rfl <;>
      (simp [Box.empty, q1, q2, q3, q4]; omega)
  have n2 := ne (q2 b) (by simp)
  have n3 := ne (q3 b) (by simp)
  have n4 := ne (q4 b) (by simp)
  have key : ∀ a c : Box, a ∈ [q1 b, q2 b, q3 b, q4 b] → c ∈ [q1 b, q2 b, q3 b, q4 b] → (a.x0 = c.x0 ∨ a.y0 = c.y0) → Joins a c := by
    intro a c ha hc hadj
    have hce := ne c hc
    unfold Joins Box.grow
    rw [hce, if_neg (by decide)]
    simp only [List.mem_cons, List.not_mem_nil, or_false] at ha hc
    unfold Mem
    dsimp only
    have hx : b.x0 + 8 ≤ b.x0 + (b.x1 - b.x0) / 2 ∧ b.x0 + (b.x1 - b.x0) / 2 + 8 ≤ b.x1 := by omega
    have hy : b.y0 + 8 ≤ b.y0 + (b.y1 - b.y0) / 2 ∧ b.y0 + (b.y1 - b.y0) / 2 + 8 ≤ b.y1 := by omega
    simp only [q1, q2, q3, q4] at ha hc
    generalize b.x0 + (b.x1 - b.x0) / 2 = mx at *
    generalize b.y0 + (b.y1 - b.y0) / 2 = my at *
    rcases ha with rfl | rfl | rfl | rfl <;> rcases hc with rfl | rfl | rfl | rfl <;> dsimp only at hadj ⊢ <;>
      refine ⟨fun p => ?_, ?_, ?_, ?_, ?_⟩ <;> omega
  simp only [List.pairwise_cons, List.mem_cons, List.not_mem_nil, or_false, forall_eq_or_imp, forall_eq]
  refine ⟨⟨?_, ?_, ?_⟩, ⟨?_, ?_⟩, ?_, ?_, ?_⟩
  all_goals first
    | exact key _ _ (by simp) (by simp)
    | (intro a ha; cases ha)
    | exact List.Pairwise.nil

theorem quads_sub {b img : Box} (h : b.x0 + 16 ≤ b.x1 ∧ b.y0 + 16 ≤ b.y1) (hb : Sub b img) :
    Sub (q1 b) img ∧ Sub (q2 b) img ∧ Sub (q3 b) img ∧ Sub (q4 b) img := by
  have hc := quads_cover h
  exact ⟨fun p hp => hb p ((hc p).mp (.inl (.inl (.inl hp)))), fun p hp => hb p ((hc p).mp (.inl (.inl (.inr hp)))),
    fun p hp => hb p ((hc p).mp (.inl (.inr hp))), fun p hp => hb p ((hc p).mp (.inr hp))⟩

/-- A region with the range of its disparities. -/
theorem good_one (disp : Disp) (img q : Box) (hq : Sub q img) : Good disp img (Mem q) [(q, searchOf disp q)] := by
  refine ⟨?_, List.pairwise_singleton _ _, ?_, ?_⟩
  · intro a ha p hp; rw [List.mem_singleton] at ha; rw [ha] at hp; exact hp
  · intro p d hp hd
    refine ⟨_, List.mem_singleton_self _, hp, ?_⟩
    rcases searchOf_spec disp img q hq with ⟨_, h⟩ | ⟨_, _, h, _⟩
    · rw [h p hp] at hd; cases hd
    · exact h p d hp hd
  · intro a ha; rw [List.mem_singleton] at ha; rw [ha]
    rcases searchOf_spec disp img q hq with ⟨h, _⟩ | ⟨_, _, _, h⟩
    · exact .inr h
    · exact .inl h

/-! ### The whole region -/

/-- A range of disparities does for the pixels in `P`. -/
structure Covers (disp : Disp) (img b : Box) (P : Int × Int → Prop) (s : Box) : Prop where
  covers : ∀ p d, P p → disp p = some d → Mem s d
  tight : (s = Box.dflt ∧ ∀ p, P p → disp p = none) ∨ (s ≠ Box.dflt ∧ s.empty = false ∧ Tight disp img b s)

theorem covers_quad {disp : Disp} {img b q : Box} (hq : Sub q img) (hn : ∀ p, Near img q p → Near img b p) :
    Covers disp img b (Mem q) (searchOf disp q) := by
  rcases searchOf_spec disp img q hq with ⟨h1, h2⟩ | ⟨h1, h2, h3, h4⟩
  · exact ⟨fun p d hp hd => (by rw [h2 p hp] at hd; cases hd), .inl ⟨h1, h2⟩⟩
  · exact ⟨h3, .inr ⟨h1, h2, h4.mono hn⟩⟩

theorem covers_join {disp : Disp} {img b : Box} {P Q : Int × Int → Prop} {c s : Box} (hc : Covers disp img b P c)
    (hs : Covers disp img b Q s) : Covers disp img b (fun p => P p ∨ Q p) (joinSearch c s) := by
  unfold joinSearch
  rcases hc.tight with ⟨rfl, c2⟩ | ⟨c1, c2, c3⟩
  · rcases hs.tight with ⟨rfl, s2⟩ | ⟨s1, s2, s3⟩
    · rw [if_neg (by simp)]
      have : Box.dflt.grow Box.dflt = Box.dflt := by decide
      rw [this]
      have hnone : ∀ p, P p ∨ Q p → disp p = none := fun p hp => hp.elim (c2 p) (s2 p)
      exact ⟨fun p d hp hd => (by rw [hnone p hp] at hd; cases hd), .inl ⟨rfl, hnone⟩⟩
    · rw [if_pos ⟨s1, rfl⟩]
      refine ⟨?_, .inr ⟨s1, s2, s3⟩⟩
      rintro p d (hp | hp) hd
      · rw [c2 p hp] at hd; cases hd
      · exact hs.covers p d hp hd
  · rw [if_neg (by simp [c1])]
    rcases hs.tight with ⟨rfl, s2⟩ | ⟨s1, s2, s3⟩
    · have : c.grow Box.dflt = c := by
        unfold Box.grow; rw [if_pos (by decide)]
      rw [this]
      refine ⟨?_, .inr ⟨c1, c2, c3⟩⟩
      rintro p d (hp | hp) hd
      · exact hc.covers p d hp hd
      · rw [s2 p hp] at hd; cases hd
    · have hg : c.grow s = ⟨min c.x0 (min s.x0 s.x1), min c.y0 (min s.y0 s.y1), max c.x1 (max s.x0 s.x1), max c.y1 (max s.y0 s.y1)⟩ := by
        unfold Box.grow; rw [s2, if_neg (by decide)]
      have ce : c.x0 < c.x1 ∧ c.y0 < c.y1 := by unfold Box.empty at c2; simp at c2; omega
      have se : s.x0 < s.x1 ∧ s.y0 < s.y1 := by unfold Box.empty at s2; simp at s2; omega
      rw [hg]
      refine ⟨?_, .inr ⟨?_, ?_, ?_⟩⟩
      · rintro p d (hp | hp) hd
        · have := hc.covers p d hp hd
          unfold Mem at *; dsimp only; omega
        · have := hs.covers p d hp hd
          unfold Mem at *; dsimp only; omega
      · intro e
        unfold Box.dflt at e
        simp only [Box.mk.injEq] at e
        omega
      · unfold Box.empty; simp only [Bool.or_eq_false_iff, decide_eq_false_iff_not]; omega
      · obtain ⟨⟨p1, d1, n1, e1, f1⟩, ⟨p2, d2, n2, e2, f2⟩, ⟨p3, d3, n3, e3, f3⟩, ⟨p4, d4, n4, e4, f4⟩⟩ := c3
        obtain ⟨⟨p1', d1', n1', e1', f1'⟩, ⟨p2', d2', n2', e2', f2'⟩, ⟨p3', d3', n3', e3', f3'⟩, ⟨p4', d4', n4', e4', f4'⟩⟩ := s3
        refine ⟨?_, ?_, ?_, ?_⟩ <;> dsimp only
        · by_cases h : c.x0 ≤ s.x0
          · exact ⟨p1, d1, n1, e1, by omega⟩
          · exact ⟨p1', d1', n1', e1', by omega⟩
        · by_cases h : s.x1 ≤ c.x1
          · exact ⟨p2, d2, n2, e2, by omega⟩
          · exact ⟨p2', d2', n2', e2', by omega⟩
        · by_cases h : c.y0 ≤ s.y0
          · exact ⟨p3, d3, n3, e3, by omega⟩
          · exact ⟨p3', d3', n3', e3', by omega⟩
        · by_cases h : s.y1 ≤ c.y1
          · exact ⟨p4, d4, n4, e4, by omega⟩
          · exact ⟨p4', d4', n4', e4', by omega⟩

theorem good_whole (disp : Disp) (img b : Box) (h : b.x0 + 16 ≤ b.x1 ∧ b.y0 + 16 ≤ b.y1) (hb : Sub b img) :
    Good disp img (Mem b)
      [(b, currentSearch (searchOf disp (q1 b)) (searchOf disp (q2 b)) (searchOf disp (q3 b)) (searchOf disp (q4 b)))] := by
  obtain ⟨b1, b2, b3, b4⟩ := quads_sub h hb
  have n : ∀ q ∈ [q1 b, q2 b, q3 b, q4 b], ∀ p, Near img q p → Near img b p := by
    intro q hq p hp
    refine ⟨hp.1, ?_⟩
    have := hp.2
    simp only [List.mem_cons, List.not_mem_nil, or_false] at hq
    rcases hq with rfl | rfl | rfl | rfl <;> simp only [q1, q2, q3, q4] at this <;> omega
  have c1 := covers_quad (disp := disp) (b := b) b1 (n _ (by simp))
  have c2 := covers_quad (disp := disp) (b := b) b2 (n _ (by simp))
  have c3 := covers_quad (disp := disp) (b := b) b3 (n _ (by simp))
  have c4 := covers_quad (disp := disp) (b := b) b4 (n _ (by simp))
  have e : (if searchOf disp (q1 b) ≠ Box.dflt then searchOf disp (q1 b) else Box.dflt) = searchOf disp (q1 b) := by
    by_cases h : searchOf disp (q1 b) = Box.dflt
    · rw [if_neg (by simp [h]), h]
    · rw [if_pos h]
  have C := covers_join (covers_join (covers_join c1 c2) c3) c4
  unfold currentSearch
  dsimp only
  rw [e]
  refine ⟨?_, List.pairwise_singleton _ _, ?_, ?_⟩
  · intro a ha p hp; rw [List.mem_singleton] at ha; rw [ha] at hp; exact hp
  · intro p d hp hd
    exact ⟨_, List.mem_singleton_self _, hp, C.covers p d ((quads_cover h p).mpr hp) hd⟩
  · intro a ha; rw [List.mem_singleton] at ha; rw [ha]
    rcases C.tight with ⟨h, _⟩ | ⟨_, _, h⟩
    · exact .inr h
    · exact .inl h

theorem four {disp : Disp} {img b : Box} (h : b.x0 + 16 ≤ b.x1 ∧ b.y0 + 16 ≤ b.y1) {L1 L2 L3 L4 : List Param}
    (g1 : Good disp img (Mem (q1 b)) L1) (g2 : Good disp img (Mem (q2 b)) L2) (g3 : Good disp img (Mem (q3 b)) L3)
    (g4 : Good disp img (Mem (q4 b)) L4) : Good disp img (Mem b) (L1 ++ L2 ++ L3 ++ L4) :=
  (((g1.append g2 fun p => (quads_disjoint p).1).append g3 fun p => (quads_disjoint p).2.1).append g4
    fun p => (quads_disjoint p).2.2).congr (quads_cover h)

/-- What a call returns. -/
def Ok (disp : Disp) (img b : Box) (r : Bool × List Param) : Prop :=
  (r.1 = true → Good disp img (Mem b) r.2) ∧ (r.1 = false → r.2 = [])

theorem perm_shuffle (a b c d x y z w : List Param) :
    ((a ++ x) ++ (b ++ y) ++ (c ++ z) ++ (d ++ w)).Perm (a ++ b ++ c ++ d ++ (x ++ y ++ z ++ w)) := by
  rw [List.perm_iff_count]
  intro e
  simp only [List.count_append]
  omega

theorem subdivide_ok (disp : Disp) (img : Box) (tooMuch : Box → Bool) (b : Box) (fail : Nat) (hb : Sub b img) :
    Ok disp img b (subdivide disp img tooMuch b fail) ∧ (fail = 0 → (subdivide disp img tooMuch b fail).1 = true) := by
  induction b, fail using subdivide.induct disp img tooMuch with
  | case1 b fail hs hr =>
    unfold subdivide
    rw [dif_pos hs, hr]
    refine ⟨⟨fun _ => ?_, fun h => by cases h⟩, fun _ => rfl⟩
    rcases rangeOf_spec disp (b.expand1.crop img) with ⟨_, h2⟩ | ⟨s, h1, _⟩
    · refine ⟨fun a ha => absurd ha List.not_mem_nil, List.Pairwise.nil, ?_, fun a ha => absurd ha List.not_mem_nil⟩
      intro p d hp hd
      have hm : Mem (b.expand1.crop img) p := by
        have hi := hb p hp
        unfold Mem Box.crop Box.expand1 at *
        split <;> dsimp only <;> omega
      rw [h2 p hm] at hd; cases hd
    · rw [hr] at h1; cases h1
  | case2 b fail hs r hr =>
    unfold subdivide
    rw [dif_pos hs, hr]
    refine ⟨⟨fun _ => ?_, fun h => by cases h⟩, fun _ => rfl⟩
    rcases rangeOf_spec disp (b.expand1.crop img) with ⟨h1, _⟩ | ⟨s, h1, h2, h3, h4, h5, h6⟩
    · rw [hr] at h1; cases h1
    · rw [hr] at h1; cases h1
      have hnear : ∀ p, Mem (b.expand1.crop img) p → Near img b p := by
        intro p hp
        unfold Near Mem Box.crop Box.expand1 at *
        split at hp <;> dsimp only at hp <;> omega
      refine ⟨?_, List.pairwise_singleton _ _, ?_, ?_⟩
      · intro a ha p hp; rw [List.mem_singleton] at ha; rw [ha] at hp; exact hp
      · intro p d hp hd
        have hm : Mem (b.expand1.crop img) p := by
          have hi := hb p hp
          unfold Mem Box.crop Box.expand1 at *
          split <;> dsimp only <;> omega
        exact ⟨_, List.mem_singleton_self _, hp, h2 p d hm hd⟩
      · intro a ha; rw [List.mem_singleton] at ha; rw [ha]
        left
        obtain ⟨p3, d3, m3, e3⟩ := h3
        obtain ⟨p4, d4, m4, e4⟩ := h4
        obtain ⟨p5, d5, m5, e5⟩ := h5
        obtain ⟨p6, d6, m6, e6⟩ := h6
        exact ⟨⟨p3, d3, hnear _ m3, e3⟩, ⟨p4, d4, hnear _ m4, e4⟩, ⟨p5, d5, hnear _ m5, e5⟩, ⟨p6, d6, hnear _ m6, e6⟩⟩
  | case3 b fail hs hc ih1 ih2 ih3 ih4 =>
    have h16 := not_small (b := b) (by simpa using hs)
    obtain ⟨b1, b2, b3, b4⟩ := quads_sub h16 hb
    unfold subdivide
    rw [dif_neg hs]
    dsimp only
    rw [if_pos hc]
    refine ⟨⟨fun _ => ?_, fun h => by cases h⟩, fun _ => rfl⟩
    dsimp only
    have i1 := (ih1 b1).1
    have i2 := (ih2 b2).1
    have i3 := (ih3 b3).1
    have i4 := (ih4 b4).1
    generalize subdivide disp img tooMuch (q1 b) (fail + 1) = R1 at i1 ⊢
    generalize subdivide disp img tooMuch (q2 b) (fail + 1) = R2 at i2 ⊢
    generalize subdivide disp img tooMuch (q3 b) (fail + 1) = R3 at i3 ⊢
    generalize subdivide disp img tooMuch (q4 b) (fail + 1) = R4 at i4 ⊢
    have one : ∀ (q : Box) (R : Bool × List Param), Sub q img → Ok disp img q R →
        Good disp img (Mem q) (R.2 ++ if R.1 = true then [] else [(q, searchOf disp q)]) := by
      intro q R hq hR
      by_cases h : R.1 = true
      · rw [if_pos h, List.append_nil]; exact hR.1 h
      · rw [if_neg h, hR.2 (by simpa using h), List.nil_append]; exact good_one disp img q hq
    have g := (four h16 (one _ R1 b1 i1) (one _ R2 b2 i2) (one _ R3 b3 i3) (one _ R4 b4 i4)).perm (perm_shuffle _ _ _ _ _ _ _ _)
    have sub : ∀ (c : Bool) (x : Param), List.Sublist (if c = true then [] else [x]) [x] := by
      intro c x; cases c <;> simp
    have hsub := ((((sub R1.1 (q1 b, searchOf disp (q1 b))).append (sub R2.1 (q2 b, searchOf disp (q2 b)))).append
      (sub R3.1 (q3 b, searchOf disp (q3 b)))).append (sub R4.1 (q4 b, searchOf disp (q4 b))))
    have hj := (quads_join h16 (searchOf disp (q1 b)) (searchOf disp (q2 b)) (searchOf disp (q3 b)) (searchOf disp (q4 b))).sublist hsub
    have hlen := hsub.length_le
    by_cases hall : R1.1 = false ∧ R2.1 = false ∧ R3.1 = false ∧ R4.1 = false
    · obtain ⟨e1, e2, e3, e4⟩ := hall
      rw [e1, e2, e3, e4, i1.2 e1, i2.2 e2, i3.2 e3, i4.2 e4]
      exact good_whole disp img b h16 hb
    · refine mergeFailed_good b _ _ ?_ hj g
      revert hall
      cases R1.1 <;> cases R2.1 <;> cases R3.1 <;> cases R4.1 <;> simp
  | case4 b fail hs hc hc2 =>
    unfold subdivide
    rw [dif_neg hs]
    dsimp only
    rw [if_neg hc, if_pos hc2]
    refine ⟨⟨fun h => (by cases h), fun _ => rfl⟩, ?_⟩
    intro hf
    subst hf
    simp at hc2
  | case5 b fail hs hc hc2 ih1 ih2 ih3 ih4 =>
    have h16 := not_small (b := b) (by simpa using hs)
    obtain ⟨b1, b2, b3, b4⟩ := quads_sub h16 hb
    unfold subdivide
    rw [dif_neg hs]
    dsimp only
    rw [if_neg hc, if_neg hc2]
    refine ⟨⟨fun _ => ?_, fun h => by cases h⟩, fun _ => rfl⟩
    exact four h16 ((ih1 b1).1.1 ((ih1 b1).2 rfl)) ((ih2 b2).1.1 ((ih2 b2).2 rfl)) ((ih3 b3).1.1 ((ih3 b3).2 rfl))
      ((ih4 b4).1.1 ((ih4 b4).2 rfl))

/-- **C60**: the regions that `subdivide_regions` lists for a region of the image lie in it and do not overlap; every pixel of it with
a disparity is in exactly one of them, with its disparity in the range of that region; and the sides of the ranges are disparities of
pixels in or next to the region. -/
theorem subdivide_spec (disp : Disp) (img : Box) (tooMuch : Box → Bool) (b : Box) (hb : ∀ p, Mem b p → Mem img p) :
    (subdivide disp img tooMuch b 0).1 = true ∧
    (∀ a ∈ (subdivide disp img tooMuch b 0).2, ∀ p, Mem a.1 p → Mem b p) ∧
    ((subdivide disp img tooMuch b 0).2.Pairwise fun a c => ∀ p, ¬ (Mem a.1 p ∧ Mem c.1 p)) ∧
    (∀ p d, Mem b p → disp p = some d → ∃ a ∈ (subdivide disp img tooMuch b 0).2, Mem a.1 p ∧ Mem a.2 d) ∧
    (∀ a ∈ (subdivide disp img tooMuch b 0).2, Tight disp img a.1 a.2 ∨ a.2 = Box.dflt) := by
  obtain ⟨h1, h2⟩ := subdivide_ok disp img tooMuch b 0 hb
  have g := h1.1 (h2 rfl)
  exact ⟨h2 rfl, g.inside, g.disjoint, g.covered, g.tight⟩

/-- A disparity image with a jump: the model splits it, with the range of each quadrant. -/
def jump : Disp := fun p => if (p.1 + p.2) % 3 = 0 then none else some (if p.1 < 10 then (p.1 % 2, 0) else (50 + p.1 % 2, 3))

theorem subdivide_small {disp : Disp} {img : Box} {t : Box → Bool} {b r : Box} {n : Nat} (hs : small b = true)
    (hr : rangeOf disp (b.expand1.crop img) = some r) : subdivide disp img t b n = (true, [(b, r)]) := by
  unfold subdivide; rw [dif_pos hs, hr]

example : subdivide jump ⟨0, 0, 22, 16⟩ (fun _ => false) ⟨0, 0, 22, 16⟩ 0 = (true,
    [(⟨0, 0, 11, 8⟩, ⟨0, 0, 52, 4⟩), (⟨11, 0, 22, 8⟩, ⟨50, 3, 52, 4⟩), (⟨0, 8, 11, 16⟩, ⟨0, 0, 52, 4⟩),
      (⟨11, 8, 22, 16⟩, ⟨50, 3, 52, 4⟩)]) := by
  unfold subdivide
  rw [dif_neg (by decide)]
  dsimp only
  rw [if_neg (by decide), if_neg (by decide)]
  rw [subdivide_small (b := q1 _) (r := ⟨0, 0, 52, 4⟩) (by decide) (by decide +kernel),
    subdivide_small (b := q2 _) (r := ⟨50, 3, 52, 4⟩) (by decide) (by decide +kernel),
    subdivide_small (b := q3 _) (r := ⟨0, 0, 52, 4⟩) (by decide) (by decide +kernel),
    subdivide_small (b := q4 _) (r := ⟨50, 3, 52, 4⟩) (by decide) (by decide +kernel)]
  decide

end VW.Subdivide
