import Mathlib.Data.List.Basic
/-
Model of `string_replace`, src/vw/Core/StringUtils.cc:24-38, and of the separator replacement of `str_to_vec` and
`str_to_std_vec`; property C36.

Strings are lists over an alphabet; their length is not limited.  Reading numbers from a stream is left out.
-/
namespace VW.StringUtils

variable {α : Type} [DecidableEq α]

/-- `s.find(pat, pos)`: the first place at or after `pos` where `pat` stands; `none` is npos. -/
def findFrom (s pat : List α) (pos : Nat) : Option Nat :=
  (List.range' pos (s.length + 1 - pos)).find? (fun i => pat.isPrefixOf (s.drop i))

/-- The variables of the loop. -/
structure St (α : Type) where
  s : List α
  pos : Nat
  count : Nat

/-- The loop of `string_replace`, StringUtils.cc:29-36, for at most `fuel` passes; `none` is still running. -/
def loop (pat rep : List α) : Nat → St α → Option (List α × Nat)
  | 0, _ => none
  | fuel + 1, st => match findFrom st.s pat st.pos with
    | none => some (st.s, st.count)
    | some p => loop pat rep fuel ⟨st.s.take p ++ rep ++ st.s.drop (p + pat.length), p + 1, st.count + 1⟩

/-- `string_replace` returns, with this string and this count. -/
def Returns (s pat rep : List α) (res : List α × Nat) : Prop := ∃ fuel, loop pat rep fuel ⟨s, 0, 0⟩ = some res

/-- `string_replace` runs for ever. -/
def Diverges (s pat rep : List α) : Prop := ∀ fuel, loop pat rep fuel ⟨s, 0, 0⟩ = none

/-- The separators of `str_to_vec` and `str_to_std_vec`, one by one, to a space (StringUtils.h:69-75,
StringUtils.cc:48-53); a relation because `string_replace` might not return. -/
inductive Separate (space : α) : List α → List α → List α → Prop
  | nil (s) : Separate space s [] s
  | cons {s s' s'' : List α} {sep : α} {seps : List α} {n : Nat} :
      Returns s [sep] [space] (s', n) → Separate space s' seps s'' → Separate space s (sep :: seps) s''

/-! ### Specification -/

/-- Replace from left to right, going on after each occurrence replaced. -/
def replaceAll (pat rep : List α) : List α → List α
  | [] => []
  | c :: s => if pat.isPrefixOf (c :: s) ∧ pat ≠ [] then rep ++ replaceAll pat rep ((c :: s).drop pat.length)
              else c :: replaceAll pat rep s
termination_by s => s.length
decreasing_by
  · rename_i h
    have : pat.length ≠ 0 := fun h' => h.2 (List.length_eq_zero_iff.1 h')
    simp only [List.length_drop, List.length_cons]; omega
  · simp

/-- The number of occurrences replaced. -/
def countAll (pat : List α) : List α → Nat
  | [] => 0
  | c :: s => if pat.isPrefixOf (c :: s) ∧ pat ≠ [] then 1 + countAll pat ((c :: s).drop pat.length)
              else countAll pat s
termination_by s => s.length
decreasing_by
  · rename_i h
    have : pat.length ≠ 0 := fun h' => h.2 (List.length_eq_zero_iff.1 h')
    simp only [List.length_drop, List.length_cons]; omega
  · simp

/-- No occurrence of `pat` can begin inside a replacement, after its first character. -/
def NoOverlap (pat rep : List α) : Prop :=
  ∀ k, 1 ≤ k → k < rep.length → ¬ pat <+: rep.drop k ∧ ¬ rep.drop k <+: pat

/-! ### Finding -/

theorem find_none {s pat : List α} {pos : Nat} (h : findFrom s pat pos = none) {i : Nat} (hi : pos ≤ i)
    (hl : i ≤ s.length) : ¬ pat <+: s.drop i := by
  unfold findFrom at h
  rw [List.find?_eq_none] at h
  have := h i (by rw [List.mem_range'_1]; omega)
  rw [← List.isPrefixOf_iff_prefix]; exact this

theorem find_some {s pat : List α} {pos p : Nat} (h : findFrom s pat pos = some p) :
    pos ≤ p ∧ p ≤ s.length ∧ pat <+: s.drop p ∧ ∀ i, pos ≤ i → i < p → ¬ pat <+: s.drop i := by
  unfold findFrom at h
  have hm := List.mem_of_find?_eq_some h
  rw [List.mem_range'_1] at hm
  have hp := List.find?_some h
  refine ⟨hm.1, by omega, by simpa using hp, fun i h1 h2 => ?_⟩
  rw [List.find?_eq_some_iff_append] at h
  obtain ⟨_, as, bs, e, hno⟩ := h
  have : i ∈ as := by
    have mem : i ∈ List.range' pos (s.length + 1 - pos) := by rw [List.mem_range'_1]; omega
    have sorted := List.pairwise_lt_range' (s := pos) (n := s.length + 1 - pos) (step := 1)
    rw [e] at mem sorted
    rcases List.mem_append.1 mem with hh | hh
    · exact hh
    · rcases List.mem_cons.1 hh with hh | hh
      · omega
      · have := (List.pairwise_cons.1 (List.pairwise_append.1 sorted).2.1).1 i hh
        omega
  have := hno i this
  rw [← List.isPrefixOf_iff_prefix]; simp only [Bool.not_eq_true']  at this; rw [this]; exact Bool.false_ne_true

theorem find_exists {s pat : List α} {pos i : Nat} (hi : pos ≤ i) (hl : i ≤ s.length) (h : pat <+: s.drop i) :
    ∃ p, findFrom s pat pos = some p := by
  cases e : findFrom s pat pos with
  | none => exact absurd h (find_none e hi hl)
  | some p => exact ⟨p, rfl⟩

/-! ### Correctness -/

omit [DecidableEq α] in
theorem drop_left_add (a b : List α) (i : Nat) : (a ++ b).drop (a.length + i) = b.drop i := by
  rw [← List.drop_drop]; simp

theorem replaceAll_skip {pat rep : List α} (a b : List α)
    (h : ∀ i < a.length, ¬ pat <+: (a ++ b).drop i) :
    replaceAll pat rep (a ++ b) = a ++ replaceAll pat rep b ∧ countAll pat (a ++ b) = countAll pat b := by
  induction a with
  | nil => simp
  | cons c a ih =>
    have h0 := h 0 (by simp)
    have ih := ih fun i hi => by simpa using h (i + 1) (by simpa using hi)
    rw [List.cons_append, replaceAll, countAll]
    have : ¬ (pat.isPrefixOf (c :: (a ++ b)) = true ∧ pat ≠ []) := by
      rintro ⟨h1, _⟩; exact h0 (by simpa using h1)
    rw [if_neg this, if_neg this, ih.1, ih.2]; simp

theorem replaceAll_hit {pat rep : List α} (hp : pat ≠ []) (b : List α) :
    replaceAll pat rep (pat ++ b) = rep ++ replaceAll pat rep b ∧ countAll pat (pat ++ b) = 1 + countAll pat b := by
  obtain ⟨c, pat', rfl⟩ := List.exists_cons_of_ne_nil hp
  rw [List.cons_append, replaceAll, countAll]
  have : (c :: pat').isPrefixOf (c :: (pat' ++ b)) = true ∧ (c :: pat') ≠ [] :=
    ⟨by rw [List.isPrefixOf_iff_prefix]; exact ⟨b, by simp⟩, hp⟩
  rw [if_pos this, if_pos this]; simp

theorem loop_correct {pat rep : List α} (hp : pat ≠ []) (hr : rep ≠ []) (hno : NoOverlap pat rep)
    (n : Nat) : ∀ (done rest : List α) (pos count : Nat), rest.length ≤ n → pos ≤ done.length →
      (∀ i, pos ≤ i → i < done.length → ¬ pat <+: (done ++ rest).drop i) →
      ∃ fuel, loop pat rep fuel ⟨done ++ rest, pos, count⟩ =
        some (done ++ replaceAll pat rep rest, count + countAll pat rest) := by
  induction n with
  | zero =>
    intro done rest pos count hn hpos hfree
    have : rest = [] := List.length_eq_zero_iff.1 (by omega)
    subst this
    refine ⟨1, ?_⟩
    unfold loop
    cases e : findFrom (done ++ []) pat pos with
    | none => simp [replaceAll, countAll]
    | some p =>
      obtain ⟨h1, h2, h3, _⟩ := find_some e
      exfalso
      rcases Nat.lt_or_ge p done.length with h | h
      · exact hfree p h1 h h3
      · have : (done ++ []).drop p = [] := by simp [h]
        rw [this] at h3; exact hp (List.prefix_nil.1 h3)
  | succ n ih =>
    intro done rest pos count hn hpos hfree
    cases e : findFrom (done ++ rest) pat pos with
    | none =>
      refine ⟨1, ?_⟩
      unfold loop
      rw [e]
      have := replaceAll_skip (pat := pat) (rep := rep) rest [] (fun i hi => by
        have := find_none e (i := done.length + i) (by omega) (by simp; omega)
        rw [drop_left_add] at this
        simpa using this)
      simp only [List.append_nil] at this
      simp [this.1, this.2, replaceAll, countAll]
    | some p =>
      obtain ⟨h1, h2, h3, h4⟩ := find_some e
      have hge : done.length ≤ p := by
        by_contra hlt
        exact hfree p h1 (by omega) h3
      have e1 : (done ++ rest).drop p = rest.drop (p - done.length) := by
        rw [List.drop_append]
        simp [List.drop_eq_nil_of_le hge]
      rw [e1] at h3
      obtain ⟨b, hb⟩ := h3
      have er : rest = rest.take (p - done.length) ++ (pat ++ b) := by rw [hb]; simp
      have htl : (rest.take (p - done.length)).length = p - done.length := by
        rw [List.length_take]; simp at h2; omega
      generalize ha : rest.take (p - done.length) = a at er htl
      have skip := replaceAll_skip (pat := pat) (rep := rep) a (pat ++ b) (fun i hi => by
        have := h4 (done.length + i) (by omega) (by omega)
        rw [er, drop_left_add] at this
        exact this)
      have hit := replaceAll_hit (rep := rep) hp b
      have plen : 0 < pat.length := List.length_pos_iff.2 hp
      obtain ⟨fuel, hf⟩ := ih (done ++ a ++ rep) b (p + 1) (count + 1)
        (by rw [er] at hn; simp at hn; omega)
        (by have : 0 < rep.length := List.length_pos_iff.2 hr
            simp; omega)
        (by
          intro i hi hi' hpre
          simp only [List.length_append] at hi'
          have hi'' : i - (done ++ a).length < rep.length := by simp; omega
          have e2 : (done ++ a ++ rep ++ b).drop i = rep.drop (i - (done ++ a).length) ++ b := by
            have z1 : i = (done ++ a).length + (i - (done ++ a).length) := by simp; omega
            have z2 : i - (done ++ a).length - rep.length = 0 := by omega
            rw [List.append_assoc (done ++ a)]
            conv_lhs => rw [z1]
            rw [drop_left_add, List.drop_append, z2]; rfl
          rw [e2] at hpre
          have hk := hno (i - (done ++ a).length) (by simp; omega) hi''
          rcases List.prefix_or_prefix_of_prefix hpre (List.prefix_append _ _) with hh | hh
          · exact hk.1 hh
          · exact hk.2 hh)
      refine ⟨fuel + 1, ?_⟩
      unfold loop
      rw [e]
      dsimp only
      have t1 : (done ++ rest).take p = done ++ a := by
        rw [List.take_append, ha, List.take_of_length_le hge]
      have t2 : (done ++ rest).drop (p + pat.length) = b := by
        rw [← List.drop_drop, e1, ← hb]; simp
      rw [t1, t2, hf, er, skip.1, skip.2, hit.1, hit.2]
      simp [Nat.add_assoc]

/-- **C36**: if the pattern and the replacement are not empty and no occurrence of the pattern can begin inside a
replacement after its first character, `string_replace` returns: every occurrence, found from left to right, is
replaced and the number of them returned. -/
theorem string_replace_partial (s : List α) {pat rep : List α} (hp : pat ≠ []) (hr : rep ≠ [])
    (hno : NoOverlap pat rep) : Returns s pat rep (replaceAll pat rep s, countAll pat s) := by
  have := loop_correct hp hr hno s.length [] s 0 0 (Nat.le_refl _) (by simp) (fun i _ hi => absurd hi (by simp))
  simpa [Returns] using this

/-- `string_replace` has at most one result. -/
theorem returns_unique {s pat rep : List α} {r r' : List α × Nat} (h : Returns s pat rep r) (h' : Returns s pat rep r') :
    r = r' := by
  have mono : ∀ (fuel : Nat) (st : St α) (r : List α × Nat), loop pat rep fuel st = some r →
      ∀ k, loop pat rep (fuel + k) st = some r := by
    intro fuel
    induction fuel with
    | zero => intro st r h; simp [loop] at h
    | succ n ih =>
      intro st r h k
      rw [show n + 1 + k = (n + k) + 1 by omega]
      unfold loop at h ⊢
      cases e : findFrom st.s pat st.pos with
      | none => rw [e] at h; exact h
      | some p => rw [e] at h; exact ih _ _ h k
  obtain ⟨f, h⟩ := h
  obtain ⟨f', h'⟩ := h'
  have a := mono f _ _ h f'
  have b := mono f' _ _ h' f
  rw [Nat.add_comm, b] at a
  exact (Option.some.inj a).symm

/-! ### Single characters: what str_to_vec does with its separators -/

theorem replaceAll_single (x y : α) (s : List α) : replaceAll [x] [y] s = s.map (fun c => if c = x then y else c) ∧
    countAll [x] s = s.count x := by
  induction s with
  | nil => simp [replaceAll, countAll]
  | cons c s ih =>
    rw [replaceAll, countAll]
    by_cases h : c = x
    · subst h
      simp [ih.1, ih.2]; omega
    · have h' : ¬ x = c := fun e => h e.symm
      simp [h, h', ih.1, ih.2, List.count_cons_of_ne h]

/-- **C36 (one character for another)**: replacing one character by one character always returns, whatever the two
are, and maps every character. -/
theorem string_replace_char (s : List α) (x y : α) :
    Returns s [x] [y] (s.map (fun c => if c = x then y else c), s.count x) := by
  have := string_replace_partial s (pat := [x]) (rep := [y]) (by simp) (by simp)
    (fun k h1 h2 => by simp at h2; omega)
  rwa [(replaceAll_single x y s).1, (replaceAll_single x y s).2] at this

/-- **C36 (separators)**: `str_to_vec` and `str_to_std_vec` turn exactly the separators into spaces before reading
numbers: every separator becomes a space and every other character stays. -/
theorem separate_spec (space : α) (seps s : List α) :
    Separate space s seps (s.map (fun c => if c ∈ seps then space else c)) := by
  induction seps generalizing s with
  | nil => simpa using Separate.nil s
  | cons x seps ih =>
    refine Separate.cons (string_replace_char s x space) ?_
    have := ih (s.map (fun c => if c = x then space else c))
    rw [List.map_map] at this
    convert this using 2
    funext c
    by_cases h : c = x
    · subst h; simp
    · simp [h]

/-! ### Where the claim fails -/

/-- **Discrepancy**: if the replacement contains the pattern after its first character and the pattern occurs at
all, `string_replace` runs for ever. -/
theorem string_replace_diverges (s : List α) {pat rep : List α} (hocc : pat <:+: s) (hp : pat ≠ []) {k : Nat} (hk : 1 ≤ k)
    (hk' : k < rep.length) (hin : pat <+: rep.drop k) : Diverges s pat rep := by
  have key : ∀ (fuel : Nat) (st : St α), (∃ i, st.pos ≤ i ∧ i ≤ st.s.length ∧ pat <+: st.s.drop i) →
      loop pat rep fuel st = none := by
    intro fuel
    induction fuel with
    | zero => intro st _; rfl
    | succ n ih =>
      rintro st ⟨i, h1, h2, h3⟩
      obtain ⟨p, e⟩ := find_exists h1 h2 h3
      obtain ⟨q1, q2, q3, _⟩ := find_some e
      unfold loop
      rw [e]
      refine ih _ ⟨p + k, by dsimp only; omega, ?_, ?_⟩
      · dsimp only; simp only [List.length_append, List.length_take]; omega
      · dsimp only
        have hl : (st.s.take p).length = p := by rw [List.length_take]; omega
        have : (st.s.take p ++ rep ++ st.s.drop (p + pat.length)).drop (p + k) =
            rep.drop k ++ st.s.drop (p + pat.length) := by
          have := drop_left_add (st.s.take p) (rep ++ st.s.drop (p + pat.length)) k
          rw [hl] at this
          rw [List.append_assoc, this, List.drop_append, show k - rep.length = 0 by omega]; rfl
        rw [this]
        exact hin.trans (List.prefix_append _ _)
  intro fuel
  refine key fuel _ ?_
  obtain ⟨a, b, h⟩ := hocc
  exact ⟨a.length, by simp, by simp [← h], by simp [← h]⟩

/-- **Discrepancy**: an empty replacement skips the character after each deletion: of adjacent occurrences every second
one stays. -/
theorem string_replace_misses : Returns ['a', 'a', 'a', 'a', 'b'] ['a'] [] (['a', 'a', 'b'], 2) :=
  ⟨3, by decide⟩

/-- **Discrepancy**: an occurrence formed by a replacement and what follows it is replaced again: replacing "ab" by
"xa" in "abb" makes two replacements instead of one. -/
theorem string_replace_again : Returns ['a', 'b', 'b'] ['a', 'b'] ['x', 'a'] (['x', 'x', 'a'], 2) ∧
    replaceAll ['a', 'b'] ['x', 'a'] ['a', 'b', 'b'] = ['x', 'a', 'b'] :=
  ⟨⟨3, by decide⟩, by decide +kernel⟩

example : NoOverlap ['a', 'b'] ['c', 'd'] := by
  intro k h1 h2
  have : k = 1 := by simp at h2; omega
  subst this
  decide
example : Returns "xabab".toList "ab".toList "cd".toList ("xcdcd".toList, 2) := ⟨3, by decide +kernel⟩
example : Diverges ['a'] ['a'] ['b', 'a'] :=
  string_replace_diverges _ ⟨[], [], rfl⟩ (by simp) (k := 1) (by omega) (by simp) (by simp)

end VW.StringUtils
