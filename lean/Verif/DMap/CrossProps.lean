import Verif.DMap.Model
import Mathlib.Tactic.NormNum
import Mathlib.Order.Monotone.Basic

/-
C92.  The consistency check.
-/

namespace Verif.DMap

set_option linter.unusedSectionVars false

variable {T : Type} [LinearOrder T]

/-- What the check asks of a pixel: it is valid, the place it points to is in the other map and valid there, and the two
disparities cancel up to the threshold. -/
def Consistent (l2r r2l : Img (Disp Int)) (rcols rrows : Int) (conv : Int → T) (thresh : T) (c r : Int) : Prop :=
  (l2r c r).valid = true ∧ 0 ≤ c + (l2r c r).dx ∧ c + (l2r c r).dx < rcols ∧ 0 ≤ r + (l2r c r).dy ∧ r + (l2r c r).dy < rrows ∧
    (r2l (c + (l2r c r).dx) (r + (l2r c r).dy)).valid = true ∧
    conv (max |(l2r c r).dx + (r2l (c + (l2r c r).dx) (r + (l2r c r).dy)).dx|
      |(l2r c r).dy + (r2l (c + (l2r c r).dx) (r + (l2r c r).dy)).dy|) ≤ thresh

/-- The difference of the two disparities of a pixel. -/
def gap (l2r r2l : Img (Disp Int)) (c r : Int) : Int :=
  max |(l2r c r).dx + (r2l (c + (l2r c r).dx) (r + (l2r c r).dy)).dx| |(l2r c r).dy + (r2l (c + (l2r c r).dx) (r + (l2r c r).dy)).dy|

/-- One pixel. -/
theorem ccPixel_spec (r2l : Img (Disp Int)) (rcols rrows : Int) (conv : Int → T) (thresh : T) (off : Int × Int) (s : CCState)
    (p : Int × Int) :
    (Consistent s.l2r r2l rcols rrows conv thresh p.1 p.2 →
      (ccPixel r2l rcols rrows conv thresh off s p).l2r = s.l2r ∧
      (ccPixel r2l rcols rrows conv thresh off s p).diff = s.diff.set (p.1 + off.1) (p.2 + off.2) (some (gap s.l2r r2l p.1 p.2)) ∧
      (ccPixel r2l rcols rrows conv thresh off s p).count = s.count + 1) ∧
    (¬ Consistent s.l2r r2l rcols rrows conv thresh p.1 p.2 →
      (ccPixel r2l rcols rrows conv thresh off s p).l2r = s.l2r.set p.1 p.2 { s.l2r p.1 p.2 with valid := false } ∧
      (ccPixel r2l rcols rrows conv thresh off s p).diff = s.diff ∧
      (ccPixel r2l rcols rrows conv thresh off s p).count = s.count) := by
  unfold ccPixel
  simp only
  by_cases h1 : p.1 + (s.l2r p.1 p.2).dx < 0 ∨ rcols ≤ p.1 + (s.l2r p.1 p.2).dx ∨ p.2 + (s.l2r p.1 p.2).dy < 0 ∨
      rrows ≤ p.2 + (s.l2r p.1 p.2).dy
  · rw [if_pos h1]
    refine ⟨fun h => ?_, fun _ => ⟨rfl, rfl, rfl⟩⟩
    obtain ⟨-, a, b, c, d, -⟩ := h
    omega
  · rw [if_neg h1]
    push Not at h1
    by_cases h2 : (!(s.l2r p.1 p.2).valid || !(r2l (p.1 + (s.l2r p.1 p.2).dx) (p.2 + (s.l2r p.1 p.2).dy)).valid) = true
    · rw [if_pos h2]
      refine ⟨fun h => ?_, fun _ => ⟨rfl, rfl, rfl⟩⟩
      obtain ⟨a, -, -, -, -, b, -⟩ := h
      rw [a, b] at h2
      cases h2
    · rw [if_neg h2]
      have h2' : (s.l2r p.1 p.2).valid = true ∧ (r2l (p.1 + (s.l2r p.1 p.2).dx) (p.2 + (s.l2r p.1 p.2).dy)).valid = true := by
        simpa using h2
      by_cases h3 : conv (max |(s.l2r p.1 p.2).dx + (r2l (p.1 + (s.l2r p.1 p.2).dx) (p.2 + (s.l2r p.1 p.2).dy)).dx|
        |(s.l2r p.1 p.2).dy + (r2l (p.1 + (s.l2r p.1 p.2).dx) (p.2 + (s.l2r p.1 p.2).dy)).dy|) ≤ thresh
      · rw [if_pos h3]
        refine ⟨fun _ => ⟨rfl, rfl, rfl⟩, fun h => absurd ?_ h⟩
        exact ⟨h2'.1, h1.1, h1.2.1, h1.2.2.1, h1.2.2.2, h2'.2, h3⟩
      · rw [if_neg h3]
        refine ⟨fun h => absurd h.2.2.2.2.2.2 h3, fun _ => ⟨rfl, rfl, rfl⟩⟩

theorem mem_pixels (cols rows : Nat) (p : Int × Int) :
    p ∈ pixels cols rows ↔ 0 ≤ p.1 ∧ p.1 < cols ∧ 0 ≤ p.2 ∧ p.2 < rows := by
  obtain ⟨c, r⟩ := p
  simp only [pixels, List.mem_flatMap, List.mem_map, List.mem_range, Prod.mk.injEq]
  constructor
  · rintro ⟨a, ha, b, hb, rfl, rfl⟩; omega
  · rintro ⟨a, b, d, e⟩
    exact ⟨r.toNat, by omega, c.toNat, by omega, by omega, by omega⟩

theorem nodup_pixels (cols rows : Nat) : (pixels cols rows).Nodup := by
  unfold pixels
  refine List.nodup_flatMap.2 ⟨fun r _ => ?_, ?_⟩
  · refine List.Nodup.map ?_ List.nodup_range
    intro a b h
    simpa using h
  · refine List.Nodup.pairwise_of_forall_ne List.nodup_range ?_
    intro a _ b _ hne x hx hy
    simp only [List.mem_map] at hx hy
    obtain ⟨_, _, rfl⟩ := hx
    obtain ⟨_, _, h⟩ := hy
    simp only [Prod.mk.injEq] at h
    exact hne (by omega)

theorem consistent_congr (l l' r2l : Img (Disp Int)) (rcols rrows : Int) (conv : Int → T) (thresh : T) (c r : Int)
    (h : l c r = l' c r) :
    (Consistent l r2l rcols rrows conv thresh c r ↔ Consistent l' r2l rcols rrows conv thresh c r) ∧
      gap l r2l c r = gap l' r2l c r := by
  unfold Consistent gap
  rw [h]
  exact ⟨Iff.rfl, rfl⟩

open Classical in
theorem fold_spec (r2l : Img (Disp Int)) (rcols rrows : Int) (conv : Int → T) (thresh : T) (off : Int × Int) (l0 : Img (Disp Int))
    (l : List (Int × Int)) (hl : l.Nodup) (s : CCState) (hs : ∀ p ∈ l, s.l2r p.1 p.2 = l0 p.1 p.2) :
    (∀ c r, (c, r) ∉ l → (l.foldl (ccPixel r2l rcols rrows conv thresh off) s).l2r c r = s.l2r c r) ∧
    (∀ c r, (c, r) ∈ l → (l.foldl (ccPixel r2l rcols rrows conv thresh off) s).l2r c r =
      { l0 c r with valid := decide (Consistent l0 r2l rcols rrows conv thresh c r) }) ∧
    (∀ c r, (l.foldl (ccPixel r2l rcols rrows conv thresh off) s).diff (c + off.1) (r + off.2) =
      if (c, r) ∈ l ∧ Consistent l0 r2l rcols rrows conv thresh c r then some (gap l0 r2l c r)
      else s.diff (c + off.1) (r + off.2)) ∧
    (l.foldl (ccPixel r2l rcols rrows conv thresh off) s).count =
      s.count + (l.filter (fun p => decide (Consistent l0 r2l rcols rrows conv thresh p.1 p.2))).length := by
  induction l generalizing s with
  | nil => simp
  | cons p l ih =>
    obtain ⟨hp, hl'⟩ := List.nodup_cons.1 hl
    have hsp := hs p List.mem_cons_self
    obtain ⟨hcong, hgap⟩ := consistent_congr s.l2r l0 r2l rcols rrows conv thresh p.1 p.2 hsp
    obtain ⟨st1, st2⟩ := ccPixel_spec r2l rcols rrows conv thresh off s p
    rw [List.foldl_cons]
    generalize hs' : ccPixel r2l rcols rrows conv thresh off s p = s' at st1 st2 ⊢
    -- the effect on the map
    have hmap : ∀ c r, s'.l2r c r = if (c, r) = p then
        { l0 p.1 p.2 with valid := decide (Consistent l0 r2l rcols rrows conv thresh p.1 p.2) } else s.l2r c r := by
      intro c r
      by_cases hc : Consistent s.l2r r2l rcols rrows conv thresh p.1 p.2
      · rw [(st1 hc).1]
        by_cases e : (c, r) = p
        · subst e
          rw [if_pos rfl]
          have hv := hc.1
          have : decide (Consistent l0 r2l rcols rrows conv thresh c r) = true := decide_eq_true (hcong.1 hc)
          simp only at hsp hv this ⊢
          rw [this, hsp]
          rw [hsp] at hv
          cases hh : l0 c r
          rw [hh] at hv
          simp only at hv
          rw [hv]
        · rw [if_neg e]
      · rw [(st2 hc).1]
        unfold Img.set
        by_cases e : (c, r) = p
        · subst e
          have : decide (Consistent l0 r2l rcols rrows conv thresh c r) = false := decide_eq_false (fun h => hc (hcong.2 h))
          simp only at hsp this ⊢
          simp [hsp, this]
        · rw [if_neg e, if_neg]
          rintro ⟨rfl, rfl⟩; exact e rfl
    have hs'' : ∀ q ∈ l, s'.l2r q.1 q.2 = l0 q.1 q.2 := by
      intro q hq
      rw [hmap, if_neg (show (q.1, q.2) ≠ p from fun e => hp (e ▸ hq))]
      exact hs q (List.mem_cons_of_mem _ hq)
    obtain ⟨i1, i2, i3, i4⟩ := ih hl' s' hs''
    refine ⟨fun c r h => ?_, fun c r h => ?_, fun c r => ?_, ?_⟩
    · rw [i1 c r (fun h' => h (List.mem_cons_of_mem _ h')), hmap, if_neg]
      intro e; exact h (e ▸ List.mem_cons_self)
    · by_cases e : (c, r) = p
      · rw [i1 c r (e ▸ hp), hmap, if_pos e, ← e]
      · exact i2 c r ((List.mem_cons.1 h).resolve_left e)
    · rw [i3]
      by_cases hin : (c, r) ∈ l ∧ Consistent l0 r2l rcols rrows conv thresh c r
      · rw [if_pos hin, if_pos ⟨List.mem_cons_of_mem _ hin.1, hin.2⟩]
      · rw [if_neg hin]
        by_cases hc : Consistent s.l2r r2l rcols rrows conv thresh p.1 p.2
        · rw [(st1 hc).2.1]
          unfold Img.set
          by_cases e : (c, r) = p
          · subst e
            rw [if_pos ⟨rfl, rfl⟩, if_pos ⟨List.mem_cons_self, hcong.1 hc⟩, hgap]
          · rw [if_neg, if_neg]
            · rintro ⟨h1, h2⟩
              exact hin ⟨(List.mem_cons.1 h1).resolve_left e, h2⟩
            · rintro ⟨h1, h2⟩
              exact e (Prod.ext (by simpa using h1) (by simpa using h2))
        · rw [(st2 hc).2.1, if_neg]
          rintro ⟨h1, h2⟩
          rcases List.mem_cons.1 h1 with e | h1
          · rw [← e] at hcong hc; exact hc (hcong.2 h2)
          · exact hin ⟨h1, h2⟩
    · rw [i4]
      by_cases hc : Consistent s.l2r r2l rcols rrows conv thresh p.1 p.2
      · rw [(st1 hc).2.2, List.filter_cons, if_pos (decide_eq_true (hcong.1 hc)), List.length_cons]; omega
      · rw [(st2 hc).2.2, List.filter_cons_of_neg]
        simpa using fun h => hc (hcong.2 h)

/-- **C92.** After the check a pixel is valid exactly if it was consistent before; no disparity is changed; the image of
differences gets the difference of each pixel kept, in its place, and is not changed elsewhere. -/
theorem cross_spec (l2r r2l : Img (Disp Int)) (lcols lrows rcols rrows : Nat) (conv : Int → T) (thresh : T) (off : Int × Int)
    (diff : Img (Option Int)) (c r : Int) (hc : 0 ≤ c) (hc' : c < lcols) (hr : 0 ≤ r) (hr' : r < lrows) :
    (((crossCheck l2r r2l lcols lrows rcols rrows conv thresh off diff).l2r c r).valid = true ↔
      Consistent l2r r2l rcols rrows conv thresh c r) ∧
    ((crossCheck l2r r2l lcols lrows rcols rrows conv thresh off diff).l2r c r).dx = (l2r c r).dx ∧
    ((crossCheck l2r r2l lcols lrows rcols rrows conv thresh off diff).l2r c r).dy = (l2r c r).dy ∧
    (Consistent l2r r2l rcols rrows conv thresh c r →
      (crossCheck l2r r2l lcols lrows rcols rrows conv thresh off diff).diff (c + off.1) (r + off.2) = some (gap l2r r2l c r)) ∧
    (¬ Consistent l2r r2l rcols rrows conv thresh c r →
      (crossCheck l2r r2l lcols lrows rcols rrows conv thresh off diff).diff (c + off.1) (r + off.2) =
        diff (c + off.1) (r + off.2)) := by
  classical
  obtain ⟨-, h2, h3, -⟩ := fold_spec r2l rcols rrows conv thresh off l2r (pixels lcols lrows) (nodup_pixels _ _)
    ⟨l2r, diff, 0, 0⟩ (fun _ _ => rfl)
  have hm : (c, r) ∈ pixels lcols lrows := (mem_pixels _ _ _).2 ⟨hc, hc', hr, hr'⟩
  have h2 := h2 c r hm
  have h3 := h3 c r
  unfold crossCheck
  refine ⟨?_, ?_, ?_, fun h => ?_, fun h => ?_⟩
  · rw [h2]; simp
  · rw [h2]
  · rw [h2]
  · rw [h3, if_pos ⟨hm, h⟩]
  · rw [h3, if_neg (fun h' => h h'.2)]

open Classical in
/-- **C92.** Pixels outside of the map, and differences of such pixels, are not touched; the number reported is that of the
pixels kept. -/
theorem cross_frame (l2r r2l : Img (Disp Int)) (lcols lrows rcols rrows : Nat) (conv : Int → T) (thresh : T) (off : Int × Int)
    (diff : Img (Option Int)) :
    (∀ c r : Int, ¬ (0 ≤ c ∧ c < lcols ∧ 0 ≤ r ∧ r < lrows) →
      (crossCheck l2r r2l lcols lrows rcols rrows conv thresh off diff).l2r c r = l2r c r ∧
      (crossCheck l2r r2l lcols lrows rcols rrows conv thresh off diff).diff (c + off.1) (r + off.2) =
        diff (c + off.1) (r + off.2)) ∧
    (crossCheck l2r r2l lcols lrows rcols rrows conv thresh off diff).count =
      ((pixels lcols lrows).filter (fun p => decide (Consistent l2r r2l rcols rrows conv thresh p.1 p.2))).length := by
  obtain ⟨h1, -, h3, h4⟩ := fold_spec r2l rcols rrows conv thresh off l2r (pixels lcols lrows) (nodup_pixels _ _)
    ⟨l2r, diff, 0, 0⟩ (fun _ _ => rfl)
  refine ⟨fun c r h => ?_, ?_⟩
  · have hm : (c, r) ∉ pixels lcols lrows := fun hm => h ((mem_pixels _ _ _).1 hm)
    exact ⟨h1 c r hm, by unfold crossCheck; rw [h3, if_neg (fun h' => hm h'.1)]⟩
  · unfold crossCheck; rw [h4]; simp

/-- **C92.** A pixel kept leads, with the other map, back to within the threshold of where it came from. -/
theorem cross_returns (l2r r2l : Img (Disp Int)) (rcols rrows : Int) (conv : Int → T) (hconv : StrictMono conv) (t c r : Int)
    (h : Consistent l2r r2l rcols rrows conv (conv t) c r) :
    |c + (l2r c r).dx + (r2l (c + (l2r c r).dx) (r + (l2r c r).dy)).dx - c| ≤ t ∧
    |r + (l2r c r).dy + (r2l (c + (l2r c r).dx) (r + (l2r c r).dy)).dy - r| ≤ t := by
  have h1 := hconv.le_iff_le.1 h.2.2.2.2.2.2
  have h2 := (le_max_left _ _).trans h1
  have h3 := (le_max_right _ _).trans h1
  refine ⟨?_, ?_⟩
  · rwa [show c + (l2r c r).dx + (r2l (c + (l2r c r).dx) (r + (l2r c r).dy)).dx - c =
      (l2r c r).dx + (r2l (c + (l2r c r).dx) (r + (l2r c r).dy)).dx by omega]
  · rwa [show r + (l2r c r).dy + (r2l (c + (l2r c r).dx) (r + (l2r c r).dy)).dy - r =
      (l2r c r).dy + (r2l (c + (l2r c r).dx) (r + (l2r c r).dy)).dy by omega]

/-- **C92.** Two pixels kept that point to the same place are at most twice the threshold apart; with a threshold of zero
no two do. -/
theorem cross_injective (l2r r2l : Img (Disp Int)) (rcols rrows : Int) (conv : Int → T) (hconv : StrictMono conv)
    (t c r c' r' : Int) (h : Consistent l2r r2l rcols rrows conv (conv t) c r)
    (h' : Consistent l2r r2l rcols rrows conv (conv t) c' r') (hx : c + (l2r c r).dx = c' + (l2r c' r').dx)
    (hy : r + (l2r c r).dy = r' + (l2r c' r').dy) : |c - c'| ≤ 2 * t ∧ |r - r'| ≤ 2 * t := by
  obtain ⟨a, b⟩ := cross_returns l2r r2l rcols rrows conv hconv t c r h
  obtain ⟨a', b'⟩ := cross_returns l2r r2l rcols rrows conv hconv t c' r' h'
  rw [← hx, ← hy] at a' b'
  rw [abs_le] at a b a' b'
  constructor
  · rw [abs_le]; omega
  · rw [abs_le]; omega

/-- **C92.** Doing the check again changes nothing. -/
theorem cross_idem (l2r r2l : Img (Disp Int)) (lcols lrows rcols rrows : Nat) (conv : Int → T) (thresh : T) (off : Int × Int)
    (diff diff' : Img (Option Int)) (c r : Int) :
    (crossCheck (crossCheck l2r r2l lcols lrows rcols rrows conv thresh off diff).l2r r2l lcols lrows rcols rrows conv thresh
      off diff').l2r c r = (crossCheck l2r r2l lcols lrows rcols rrows conv thresh off diff).l2r c r := by
  by_cases hin : 0 ≤ c ∧ c < lcols ∧ 0 ≤ r ∧ r < lrows
  · obtain ⟨a, b, d, e⟩ := hin
    generalize hM : (crossCheck l2r r2l lcols lrows rcols rrows conv thresh off diff).l2r = M
    obtain ⟨h1, h2, h3, -⟩ := cross_spec l2r r2l lcols lrows rcols rrows conv thresh off diff c r a b d e
    obtain ⟨k1, k2, k3, -⟩ := cross_spec M r2l lcols lrows rcols rrows conv thresh off diff' c r a b d e
    rw [hM] at h1 h2 h3
    generalize (crossCheck M r2l lcols lrows rcols rrows conv thresh off diff').l2r c r = P at k1 k2 k3 ⊢
    have hcons : Consistent M r2l rcols rrows conv thresh c r ↔ (M c r).valid = true := by
      constructor
      · exact fun h => h.1
      · intro hv
        have hl := h1.1 hv
        unfold Consistent at hl ⊢
        rw [h2, h3]
        exact ⟨hv, hl.2⟩
    have : P.valid = (M c r).valid := by rw [Bool.eq_iff_iff, k1, hcons]
    cases P
    cases hq : M c r
    simp_all
  · exact ((cross_frame _ r2l lcols lrows rcols rrows conv thresh off diff').1 c r hin).1

/-- A case: two pixels, one of which is consistent. -/
example : Consistent (fun c _ => ⟨1 - 2 * c, 0, true⟩) (fun c _ => ⟨if c = 1 then -1 else 0, 0, true⟩) 2 1 id 0 0 0 ∧
    ¬ Consistent (fun c _ => ⟨1 - 2 * c, 0, true⟩) (fun c _ => ⟨if c = 1 then -1 else 0, 0, true⟩) 2 1 id 0 1 0 := by
  unfold Consistent; decide

end Verif.DMap
