import Verif.IP.Names
import Mathlib.Data.List.Infix
import Mathlib.Data.Nat.ModEq
import Mathlib.Data.Nat.GCD.Basic
import Mathlib.Tactic.ByContra

namespace VW.Names

/-- `d` is the directory part of `s`, with its slash, and `c` the last component of `s`. -/
structure Splits (s d c : Str) : Prop where
  eq : s = d ++ c
  noSlash : '/' ∉ c
  dir : d = [] ∨ ∃ d', d = d' ++ ['/']

/-! ### Paths -/

theorem split_eq (s : Str) : dirPart s ++ fileName s = s := by
  unfold dirPart fileName
  rw [← List.reverse_append, List.takeWhile_append_dropWhile, List.reverse_reverse]

theorem fileName_noSlash (s : Str) : '/' ∉ fileName s := by
  unfold fileName
  intro h
  rw [List.mem_reverse] at h
  have := List.all_eq_true.mp (List.all_takeWhile (p := (· != '/')) (l := s.reverse)) _ h
  simp at this

theorem splits (s : Str) : Splits s (dirPart s) (fileName s) := by
  refine ⟨(split_eq s).symm, fileName_noSlash s, ?_⟩
  unfold dirPart
  rcases h : s.reverse.dropWhile (· != '/') with _ | ⟨c, t⟩
  · left; rfl
  · right
    have hc : ¬ (c != '/') = true := by
      have := List.head?_dropWhile_not (· != '/') s.reverse
      rw [h] at this
      simpa using this
    have : c = '/' := by simpa using hc
    exact ⟨t.reverse, by simp [this]⟩

theorem takeWhile_append_all {p : Char → Bool} {a b : Str} (h : ∀ c ∈ a, p c = true) :
    (a ++ b).takeWhile p = a ++ b.takeWhile p := by
  induction a with
  | nil => rfl
  | cons c a ih =>
    rw [List.cons_append, List.takeWhile_cons, if_pos (h c (by simp)), ih fun d hd => h d (List.mem_cons_of_mem _ hd)]; rfl

theorem dropWhile_append_all {p : Char → Bool} {a b : Str} (h : ∀ c ∈ a, p c = true) :
    (a ++ b).dropWhile p = b.dropWhile p := by
  induction a with
  | nil => rfl
  | cons c a ih =>
    rw [List.cons_append, List.dropWhile_cons, if_pos (h c (by simp)), ih fun d hd => h d (List.mem_cons_of_mem _ hd)]

theorem noSlash_rev {b : Str} (h : '/' ∉ b) : ∀ c ∈ b.reverse, (c != '/') = true := by
  intro c hc
  rw [List.mem_reverse] at hc
  simp only [bne_iff_ne, ne_eq]
  rintro rfl; exact h hc

theorem fileName_append (a b : Str) (h : '/' ∉ b) : fileName (a ++ b) = fileName a ++ b := by
  unfold fileName
  rw [List.reverse_append, takeWhile_append_all (noSlash_rev h), List.reverse_append, List.reverse_reverse]

theorem dirPart_append (a b : Str) (h : '/' ∉ b) : dirPart (a ++ b) = dirPart a := by
  unfold dirPart
  rw [List.reverse_append, dropWhile_append_all (noSlash_rev h)]

theorem splits_unique {s d c : Str} (h : Splits s d c) : d = dirPart s ∧ c = fileName s := by
  have hd : fileName d = [] ∧ dirPart d = d := by
    rcases h.dir with rfl | ⟨d', rfl⟩
    · exact ⟨rfl, rfl⟩
    · unfold fileName dirPart
      simp
  rw [h.eq, fileName_append _ _ h.noSlash, dirPart_append _ _ h.noSlash, hd.1, hd.2]
  exact ⟨rfl, rfl⟩

theorem stem_sub (s : Str) : ∀ c ∈ stem s, c ∈ s := by
  intro c hc
  unfold stem at hc
  by_cases h : '.' ∈ s
  · rw [if_pos h, List.mem_reverse] at hc
    exact List.mem_reverse.mp ((List.dropWhile_sublist _).subset (List.mem_of_mem_drop hc))
  · rw [if_neg h] at hc; exact hc

theorem stem_ext (a e : Str) (h : '.' ∉ e) : stem (a ++ '.' :: e) = a := by
  unfold stem
  rw [if_pos (by simp)]
  have : (a ++ '.' :: e).reverse = e.reverse ++ ('.' :: a.reverse) := by simp
  rw [this, dropWhile_append_all (by
    intro c hc
    rw [List.mem_reverse] at hc
    simp only [bne_iff_ne, ne_eq]
    rintro rfl; exact h hc)]
  simp

theorem stem_none (a : Str) (h : '.' ∉ a) : stem a = a := by unfold stem; rw [if_neg h]

theorem stripPath_noSlash (pre file : Str) : '/' ∉ stripPath pre file :=
  fun h => fileName_noSlash _ (stem_sub _ _ h)

/-! ### The hash -/

theorem hex_length (k h : Nat) : (hex k h).length = k := by
  induction k generalizing h with
  | zero => rfl
  | succ k ih => simp [hex, ih]

theorem fnvHex_length (s : Str) : (fnvHex s).length = 16 := hex_length _ _

theorem hexDigit_inj : ∀ a < 16, ∀ b < 16, hexDigit a = hexDigit b → a = b := by decide

theorem hexDigit_no : ∀ a < 16, hexDigit a ≠ '/' ∧ hexDigit a ≠ '.' ∧ hexDigit a ≠ '_' := by decide

theorem hex_mem (k h : Nat) : ∀ c ∈ hex k h, c ≠ '/' ∧ c ≠ '.' ∧ c ≠ '_' := by
  induction k generalizing h with
  | zero => intro c hc; cases hc
  | succ k ih =>
    intro c hc
    unfold hex at hc
    rcases List.mem_append.mp hc with hc | hc
    · exact ih _ c hc
    · rw [List.mem_singleton] at hc
      rw [hc]; exact hexDigit_no _ (Nat.mod_lt _ (by decide))

theorem hex_inj (k : Nat) {a b : Nat} (ha : a < 16 ^ k) (hb : b < 16 ^ k) (h : hex k a = hex k b) : a = b := by
  induction k generalizing a b with
  | zero => simp at ha hb; omega
  | succ k ih =>
    unfold hex at h
    obtain ⟨h1, h2⟩ := List.append_inj h (by rw [hex_length, hex_length])
    have h3 := hexDigit_inj _ (Nat.mod_lt _ (by decide)) _ (Nat.mod_lt _ (by decide)) (by simpa using h2)
    have h4 := ih (by rw [Nat.pow_succ] at ha; exact Nat.div_lt_of_lt_mul (by omega))
      (by rw [Nat.pow_succ] at hb; exact Nat.div_lt_of_lt_mul (by omega)) h1
    omega

theorem fnv_lt (s : Str) : fnv s < 2 ^ 64 := by
  unfold fnv
  rcases List.eq_nil_or_concat s with rfl | ⟨t, c, rfl⟩
  · show 14695981039346656037 < 2 ^ 64
    omega
  · rw [List.concat_eq_append, List.foldl_append, List.foldl_cons, List.foldl_nil]
    unfold fnvStep
    exact Nat.mod_lt _ (by omega)

theorem fnvHex_inj {s t : Str} (h : fnvHex s = fnvHex t) : fnv s = fnv t := by
  refine hex_inj 16 ?_ ?_ h
  · exact fnv_lt s
  · exact fnv_lt t

theorem mul_prime_inj {a b : Nat} (ha : a < 2 ^ 64) (hb : b < 2 ^ 64)
    (h : a * 1099511628211 % 2 ^ 64 = b * 1099511628211 % 2 ^ 64) : a = b := by
  have h1 : a * 1099511628211 ≡ b * 1099511628211 [MOD 2 ^ 64] := h
  have h2 : a ≡ b [MOD 2 ^ 64] := Nat.ModEq.cancel_right_of_coprime (by decide) h1
  unfold Nat.ModEq at h2
  rwa [Nat.mod_eq_of_lt ha, Nat.mod_eq_of_lt hb] at h2

theorem step_inj {h h' : Nat} {c c' : Char} (hh : h < 2 ^ 64) (hh' : h' < 2 ^ 64) (hc : c.toNat < 256) (hc' : c'.toNat < 256)
    (e : fnvStep h c = fnvStep h' c') : h ^^^ c.toNat = h' ^^^ c'.toNat :=
  mul_prime_inj (Nat.xor_lt_two_pow hh (by omega)) (Nat.xor_lt_two_pow hh' (by omega)) e

theorem fold_inj (t : Str) {h h' : Nat} (hh : h < 2 ^ 64) (hh' : h' < 2 ^ 64) (hc : ∀ c ∈ t, c.toNat < 256)
    (e : t.foldl fnvStep h = t.foldl fnvStep h') : h = h' := by
  induction t generalizing h h' with
  | nil => exact e
  | cons c t ih =>
    rw [List.foldl_cons, List.foldl_cons] at e
    have h1 := ih (Nat.mod_lt _ (by decide)) (Nat.mod_lt _ (by decide)) (fun d hd => hc d (List.mem_cons_of_mem _ hd)) e
    have h2 := step_inj hh hh' (hc c (by simp)) (hc c (by simp)) h1
    have h3 := congrArg (· ^^^ c.toNat) h2
    simpa [Nat.xor_assoc] using h3

/-- Names that differ in one byte have different hashes. -/
theorem fnv_one (a t : Str) (c c' : Char) (hne : c ≠ c') (hb : ∀ d ∈ a ++ c :: t, d.toNat < 256) (hb' : c'.toNat < 256) :
    fnv (a ++ c :: t) ≠ fnv (a ++ c' :: t) := by
  intro e
  have hst : a.foldl fnvStep 14695981039346656037 < 2 ^ 64 := fnv_lt a
  unfold fnv at e
  rw [List.foldl_append, List.foldl_append, List.foldl_cons, List.foldl_cons] at e
  have h1 := fold_inj t (Nat.mod_lt _ (by decide)) (Nat.mod_lt _ (by decide)) (fun d hd => hb d (by simp [hd])) e
  have h2 := step_inj hst hst (hb c (by simp)) hb' h1
  have h3 : c.toNat = c'.toNat := by
    have h3 := congrArg (List.foldl fnvStep 14695981039346656037 a ^^^ ·) h2
    simpa [← Nat.xor_assoc] using h3
  exact hne (Char.ext (UInt32.toNat.inj h3))

/-! ### Shortening -/

theorem shorten_le {name : Str} {m : Nat} (h : name.length ≤ m) : shorten name m = name := by unfold shorten; rw [if_pos h]

theorem shorten_gt {name : Str} {m : Nat} (h : m < name.length) (hm : 16 ≤ m) : ∃ lead, shorten name m = lead ++ fnvHex name := by
  unfold shorten
  rw [if_neg (by omega)]
  dsimp only
  rw [fnvHex_length]
  by_cases h2 : m ≤ 16 + 1
  · rw [if_pos h2, if_neg (by omega), List.take_of_length_le (Nat.le_of_eq (fnvHex_length name))]
    exact ⟨[], (List.nil_append _).symm⟩
  · rw [if_neg h2]; exact ⟨_, rfl⟩

theorem shorten_length (name : Str) (m : Nat) : (shorten name m).length ≤ m := by
  unfold shorten
  by_cases h : name.length ≤ m
  · rw [if_pos h]; exact h
  rw [if_neg h]
  dsimp only
  rw [fnvHex_length]
  by_cases h2 : m ≤ 16 + 1
  · rw [if_pos h2, List.length_take, fnvHex_length]
    by_cases h3 : m < 16
    · rw [if_pos h3]; omega
    · rw [if_neg h3]; omega
  · rw [if_neg h2]
    simp only [List.length_append, List.length_take, fnvHex_length, List.length_singleton]
    omega

theorem shorten_noSlash (name : Str) (m : Nat) (h : '/' ∉ name) : '/' ∉ shorten name m := by
  have hh : '/' ∉ fnvHex name := fun hc => (hex_mem _ _ _ hc).1 rfl
  unfold shorten
  by_cases h1 : name.length ≤ m
  · rw [if_pos h1]; exact h
  rw [if_neg h1]
  dsimp only
  split
  · exact fun hc => hh (List.mem_of_mem_take hc)
  · intro hc
    rcases List.mem_append.mp hc with hc | hc
    · rcases List.mem_append.mp hc with hc | hc
      · exact h (List.mem_of_mem_take hc)
      · simp at hc
    · exact hh hc

/-- **C58 (hash)**: names that are both shortened stay distinct if their hashes differ. -/
theorem shorten_distinct (a b : Str) (m : Nat) (hm : 16 ≤ m) (ha : m < a.length) (hb : m < b.length) (hne : fnv a ≠ fnv b) :
    shorten a m ≠ shorten b m := by
  intro e
  apply hne
  apply fnvHex_inj
  obtain ⟨l, h1⟩ := shorten_gt ha hm
  obtain ⟨l', h2⟩ := shorten_gt hb hm
  rw [h1, h2] at e
  exact (List.append_inj' e (by rw [fnvHex_length, fnvHex_length])).2

/-- **C58 (one byte)**: long names that differ in one byte never get the same short name. -/
theorem shorten_one (a t : Str) (c c' : Char) (m : Nat) (hm : 16 ≤ m) (hne : c ≠ c') (hb : ∀ d ∈ a ++ c :: t, d.toNat < 256)
    (hb' : c'.toNat < 256) : shorten (a ++ c :: t) m ≠ shorten (a ++ c' :: t) m := by
  by_cases h : (a ++ c :: t).length ≤ m
  · have h' : (a ++ c' :: t).length ≤ m := by simpa using h
    unfold shorten
    rw [if_pos h, if_pos h']
    intro e
    have := List.append_cancel_left e
    exact hne (List.cons.inj this).1
  · exact shorten_distinct _ _ m hm (by omega) (by simp at h ⊢; omega) (fnv_one a t c c' hne hb hb')

/-- **C58 refuted ("distinct names stay distinct")**: every name that is shortened collides with another name. -/
theorem shorten_collides (name : Str) (m : Nat) (h : m < name.length) :
    shorten name m ≠ name ∧ shorten (shorten name m) m = shorten name m := by
  have hl := shorten_length name m
  refine ⟨fun e => by rw [e] at hl; omega, ?_⟩
  exact shorten_le hl

/-! ### The prefix -/

theorem capPrefix_spec (pre : Str) (r : Nat) (hr : r < budget) :
    dirPart (capPrefix pre r) = dirPart pre ∧ (fileName (capPrefix pre r)) = (fileName pre).take (budget - r) ∧
    (capPrefix pre r = [] ↔ pre = []) := by
  unfold capPrefix
  by_cases h0 : pre = []
  · rw [if_pos h0]; subst h0
    exact ⟨rfl, by simp [fileName], Iff.rfl⟩
  rw [if_neg h0]
  dsimp only
  rw [if_pos hr]
  by_cases h1 : (fileName pre).length ≤ budget - r
  · rw [if_pos h1]
    exact ⟨rfl, (List.take_of_length_le h1).symm, Iff.rfl⟩
  · rw [if_neg h1]
    have hs : '/' ∉ (fileName pre).take (budget - r) := fun h => fileName_noSlash _ (List.mem_of_mem_take h)
    obtain ⟨e1, e2⟩ := splits_unique (s := dirPart pre ++ (fileName pre).take (budget - r)) ⟨rfl, hs, (splits pre).dir⟩
    refine ⟨e1.symm, e2.symm, ?_⟩
    constructor
    · intro h
      have := congrArg List.length h
      simp only [List.length_append, List.length_take, List.length_nil] at this
      omega
    · intro h; exact absurd h h0

theorem ext_length (pt : Bool) : (ext pt).length ≤ 6 ∧ 4 ≤ (ext pt).length := by cases pt <;> decide

theorem ext_noSlash (pt : Bool) : '/' ∉ ext pt := by cases pt <;> decide

/-- How long each of the two names may be. -/
def room (pre : Str) (pt : Bool) : Nat :=
  (240 - (min (fileName pre).length (240 - (35 + (ext pt).length)) + 2 + (ext pt).length + (if pre = [] then 0 else 1))) / 2

theorem matchName_eq (pre f1 f2 : Str) (pt : Bool) :
    matchName pre f1 f2 pt =
      (if pre = [] then [] else capPrefix pre (35 + (ext pt).length) ++ ['-']) ++
      (shorten (stripPath pre f1) (room pre pt) ++ "__".toList ++ shorten (stripPath pre f2) (room pre pt) ++ ext pt) := by
  have hx := ext_length pt
  obtain ⟨_, h2, h3⟩ := capPrefix_spec pre (35 + (ext pt).length) (by unfold budget; omega)
  have e : 1 + 2 + (ext pt).length + 2 * 16 = 35 + (ext pt).length := by omega
  unfold matchName
  dsimp only
  rw [e, h2, List.length_take]
  have hcap : (if (min (budget - (35 + (ext pt).length)) (fileName pre).length + 2 + (ext pt).length +
      if capPrefix pre (35 + (ext pt).length) ≠ [] then 1 else 0) + 2 < budget then
      (budget - (min (budget - (35 + (ext pt).length)) (fileName pre).length + 2 + (ext pt).length +
      if capPrefix pre (35 + (ext pt).length) ≠ [] then 1 else 0)) / 2 else 16) = room pre pt := by
    unfold room budget
    by_cases hp : pre = []
    · rw [if_neg (show ¬ capPrefix pre (35 + (ext pt).length) ≠ [] from fun h => h (h3.mpr hp)), if_pos hp,
        if_pos (by omega), Nat.min_comm]
    · rw [if_pos (show capPrefix pre (35 + (ext pt).length) ≠ [] from fun h => hp (h3.mp h)), if_neg hp,
        if_pos (by omega), Nat.min_comm]
  rw [hcap]
  by_cases hp : pre = []
  · rw [if_pos (h3.mpr hp), if_pos hp]; rfl
  · rw [if_neg (fun h => hp (h3.mp h)), if_neg hp]

theorem suffix_noSlash (pre f1 f2 : Str) (pt : Bool) (m : Nat) :
    '/' ∉ shorten (stripPath pre f1) m ++ "__".toList ++ shorten (stripPath pre f2) m ++ ext pt := by
  simp only [List.mem_append, not_or]
  exact ⟨⟨⟨shorten_noSlash _ _ (stripPath_noSlash _ _), by decide⟩, shorten_noSlash _ _ (stripPath_noSlash _ _)⟩, ext_noSlash pt⟩

/-- The parts of a match file name. -/
theorem matchName_split (pre f1 f2 : Str) (pt : Bool) :
    dirPart (matchName pre f1 f2 pt) = dirPart pre ∧ fileName (matchName pre f1 f2 pt) =
      (if pre = [] then [] else (fileName pre).take (205 - (ext pt).length) ++ ['-']) ++
      (shorten (stripPath pre f1) (room pre pt) ++ "__".toList ++ shorten (stripPath pre f2) (room pre pt) ++ ext pt) := by
  have hx := ext_length pt
  obtain ⟨h1, h2, h3⟩ := capPrefix_spec pre (35 + (ext pt).length) (by unfold budget; omega)
  have hs := suffix_noSlash pre f1 f2 pt (room pre pt)
  rw [matchName_eq, dirPart_append _ _ hs, fileName_append _ _ hs]
  by_cases hp : pre = []
  · rw [if_pos hp, if_pos hp, hp]; exact ⟨rfl, rfl⟩
  · rw [if_neg hp, if_neg hp, dirPart_append _ _ (by decide), fileName_append _ _ (by decide), h1, h2,
      show budget - (35 + (ext pt).length) = 205 - (ext pt).length by unfold budget; omega]
    exact ⟨rfl, rfl⟩

/-- **C58 (length)**: whatever the prefix and the names of the images, a match file is in the directory of the prefix and its name
has at most 240 characters. -/
theorem match_short (pre f1 f2 : Str) (pt : Bool) (d b : Str) (hp : Splits pre d b) :
    ∃ c, Splits (matchName pre f1 f2 pt) d c ∧ c.length ≤ 240 := by
  obtain ⟨rfl, rfl⟩ := splits_unique hp
  obtain ⟨h1, h2⟩ := matchName_split pre f1 f2 pt
  refine ⟨fileName (matchName pre f1 f2 pt), h1 ▸ splits _, ?_⟩
  rw [h2]
  have l1 := shorten_length (stripPath pre f1) (room pre pt)
  have l2 := shorten_length (stripPath pre f2) (room pre pt)
  have hx := ext_length pt
  have hr : room pre pt = (240 - (min (fileName pre).length (240 - (35 + (ext pt).length)) + 2 + (ext pt).length +
    (if pre = [] then 0 else 1))) / 2 := rfl
  have hu : ("__".toList : Str).length = 2 := rfl
  by_cases hp : pre = []
  · rw [if_pos hp] at hr ⊢
    simp only [List.length_append, hu, List.length_nil]
    omega
  · rw [if_neg hp] at hr ⊢
    simp only [List.length_append, hu, List.length_take, List.length_singleton]
    omega

/-- **C58 (unchanged)**: names that fit are used as they are. -/
theorem match_plain (pre f1 f2 : Str) (pt : Bool) (hp : pre ≠ []) (hb : (fileName pre).length ≤ 199)
    (h1 : (fileName pre).length + 9 + 2 * (stripPath pre f1).length ≤ 240)
    (h2 : (fileName pre).length + 9 + 2 * (stripPath pre f2).length ≤ 240) :
    matchName pre f1 f2 pt = pre ++ "-".toList ++ stripPath pre f1 ++ "__".toList ++ stripPath pre f2 ++
      (if pt then ".txt".toList else ".match".toList) := by
  have hx := ext_length pt
  have hr : room pre pt = (240 - (min (fileName pre).length (240 - (35 + (ext pt).length)) + 2 + (ext pt).length +
    (if pre = [] then 0 else 1))) / 2 := rfl
  rw [if_neg hp] at hr
  have hc : capPrefix pre (35 + (ext pt).length) = pre := by
    unfold capPrefix
    rw [if_neg hp]; dsimp only
    have hbu : budget = 240 := rfl
    rw [if_pos (show budget > 35 + (ext pt).length by omega), if_pos (by omega)]
  have s1 : shorten (stripPath pre f1) (room pre pt) = stripPath pre f1 := shorten_le (by omega)
  have s2 : shorten (stripPath pre f2) (room pre pt) = stripPath pre f2 := shorten_le (by omega)
  rw [matchName_eq, if_neg hp, hc, s1, s2]
  unfold ext
  simp only [List.append_assoc]
  rfl

theorem find_prefix (pat t : Str) (h : pat ≠ []) : find pat (pat ++ t) = some 0 := by
  rcases pat with _ | ⟨c, pat⟩
  · exact absurd rfl h
  · rw [List.cons_append]
    unfold find
    rw [if_pos ⟨t, rfl⟩]

/-- **C58 (prefix)**: an image whose name is the prefix, a dash and more goes by that rest, without its extension. -/
theorem strip_prefix (pre name e : Str) (hp : pre ≠ []) (hn : '/' ∉ name) (he : '/' ∉ e) (hd : '.' ∉ e) :
    stripPath pre (pre ++ "-".toList ++ name ++ '.' :: e) = name := by
  unfold stripPath
  dsimp only
  have h0 : pre ++ "-".toList ++ name ++ '.' :: e = (pre ++ ['-']) ++ (name ++ '.' :: e) := by simp
  rw [h0, find_prefix _ _ (by simp)]
  dsimp only
  rw [if_pos hp]
  have : ((pre ++ ['-']) ++ (name ++ '.' :: e)).take 0 ++ ((pre ++ ['-']) ++ (name ++ '.' :: e)).drop (0 + (pre ++ ['-']).length) =
      name ++ '.' :: e := by
    rw [Nat.zero_add, List.drop_left, List.take_zero, List.nil_append]
  rw [this, ← List.nil_append (name ++ '.' :: e), fileName_append _ _ (by simp [hn, he])]
  exact stem_ext name e hd

theorem find_none (pat s : Str) (h : ¬ pat <:+: s) : find pat s = none := by
  induction s with
  | nil =>
    unfold find
    rw [if_neg]
    rintro rfl; exact h (List.nil_infix)
  | cons c s ih =>
    unfold find
    rw [if_neg (fun hp => h hp.isInfix), ih (fun hi => h (List.infix_cons hi))]
    rfl

/-- An image whose name has the prefix nowhere goes by its last component, without its extension. -/
theorem strip_other (pre dir name e : Str) (hf : ¬ (pre ++ "-".toList) <:+: (dir ++ name ++ '.' :: e)) (hn : '/' ∉ name) (he : '/' ∉ e)
    (hd : '.' ∉ e) (hdir : dir = [] ∨ ∃ d, dir = d ++ ['/']) : stripPath pre (dir ++ name ++ '.' :: e) = name := by
  unfold stripPath
  dsimp only
  rw [show find (pre ++ ['-']) (dir ++ name ++ '.' :: e) = none from find_none _ _ hf]
  dsimp only
  have : Splits (dir ++ name ++ '.' :: e) dir (name ++ '.' :: e) := ⟨by simp, by simp [hn, he], hdir⟩
  rw [← (splits_unique this).2]
  exact stem_ext name e hd

/-! ### Different images, different files -/

/-- The place of the first `__` is found from the left. -/
theorem sep_unique (a b a' b' : Str) (h : ¬ "__".toList <:+: (a ++ "_".toList)) (h' : ¬ "__".toList <:+: (a' ++ "_".toList))
    (e : a ++ "__".toList ++ b = a' ++ "__".toList ++ b') : a = a' ∧ b = b' := by
  have key : ∀ x x' y y' : Str, x.length ≤ x'.length → ¬ "__".toList <:+: (x' ++ "_".toList) →
      x ++ "__".toList ++ y = x' ++ "__".toList ++ y' → x.length = x'.length := by
    intro x x' y y' hl hn he
    by_contra hne
    apply hn
    have p1 : x ++ "__".toList <+: x' ++ "_".toList := by
      apply List.prefix_of_prefix_length_le (l₃ := x' ++ "__".toList ++ y')
      · rw [← he]; exact List.prefix_append _ _
      · refine ⟨"_".toList ++ y', ?_⟩
        simp
      · have u : ("__".toList : Str).length = 2 := rfl
        have v : ("_".toList : Str).length = 1 := rfl
        simp only [List.length_append, u, v]; omega
    exact (List.suffix_append x _).isInfix.trans p1.isInfix
  have hl : a.length = a'.length := by
    rcases Nat.le_total a.length a'.length with hl | hl
    · exact key a a' b b' hl h' e
    · exact (key a' a b' b hl h e.symm).symm
  rw [List.append_assoc, List.append_assoc] at e
  obtain ⟨e1, e2⟩ := List.append_inj e hl
  exact ⟨e1, List.append_cancel_left e2⟩

/-- **C58 (distinct), partial**: with one prefix, pairs of names that fit, and have no `__` in or at the end of the first name, get
different match files unless they are the same pair. Missing for "different pairs get different match files": names with `__`
(`match_collides`) and shortened names (`shorten_distinct`, `shorten_collides`). -/
theorem match_distinct_partial (pre f1 f2 g1 g2 : Str) (pt : Bool) (hp : pre ≠ []) (hb : (fileName pre).length ≤ 199)
    (h1 : ∀ f ∈ [f1, f2, g1, g2], (fileName pre).length + 9 + 2 * (stripPath pre f).length ≤ 240)
    (hu : ∀ f ∈ [f1, g1], ¬ "__".toList <:+: (stripPath pre f ++ "_".toList))
    (e : matchName pre f1 f2 pt = matchName pre g1 g2 pt) :
    stripPath pre f1 = stripPath pre g1 ∧ stripPath pre f2 = stripPath pre g2 := by
  rw [match_plain pre f1 f2 pt hp hb (h1 _ (by simp)) (h1 _ (by simp)),
    match_plain pre g1 g2 pt hp hb (h1 _ (by simp)) (h1 _ (by simp))] at e
  have e := List.append_cancel_right e
  rw [List.append_assoc (pre ++ _), List.append_assoc (pre ++ _), List.append_assoc (pre ++ _), List.append_assoc (pre ++ _)] at e
  have e := List.append_cancel_left e
  exact sep_unique _ _ _ _ (hu _ (by simp)) (hu _ (by simp)) e

/-- **C58 refuted (distinct)**: two pairs of different images with one match file. -/
theorem match_collides : matchName "run".toList "a__b.tif".toList "c.tif".toList false =
    matchName "run".toList "a.tif".toList "b__c.tif".toList false := by decide +kernel

/-- The prefix is looked for anywhere, not only at the start. -/
theorem strip_inside : stripPath "run".toList "myrun-left.tif".toList = "myleft".toList := by decide +kernel

/-! ### Interest point files -/

theorem ipName_eq (pre f : Str) : ipName pre f = capPrefix pre 22 ++ ['-'] ++
    shorten (stripPath pre f) (240 - (min (fileName pre).length 218 + 6)) ++ ".vwip".toList := by
  obtain ⟨_, h2, _⟩ := capPrefix_spec pre 22 (by decide)
  unfold ipName
  dsimp only
  rw [show 1 + 5 + 16 = 22 from rfl, h2, List.length_take]
  have : (if min (budget - 22) (fileName pre).length + 1 + 5 < budget then
      budget - (min (budget - 22) (fileName pre).length + 1 + 5) else 16) = 240 - (min (fileName pre).length 218 + 6) := by
    unfold budget
    rw [if_pos (by omega)]; omega
  rw [this]

/-- **C58 (length)** for interest point files. -/
theorem ip_short (pre f d b : Str) (hp : Splits pre d b) : ∃ c, Splits (ipName pre f) d c ∧ c.length ≤ 240 := by
  obtain ⟨rfl, rfl⟩ := splits_unique hp
  obtain ⟨h1, h2, _⟩ := capPrefix_spec pre 22 (by decide)
  have hs : '/' ∉ ['-'] ++ (shorten (stripPath pre f) (240 - (min (fileName pre).length 218 + 6)) ++ ".vwip".toList) := by
    simp only [List.mem_append, not_or]
    exact ⟨by decide, shorten_noSlash _ _ (stripPath_noSlash _ _), by decide⟩
  have hd : dirPart (ipName pre f) = dirPart pre := by
    rw [ipName_eq, List.append_assoc, List.append_assoc, dirPart_append _ _ hs, h1]
  refine ⟨_, hd ▸ splits _, ?_⟩
  rw [ipName_eq, List.append_assoc, List.append_assoc, fileName_append _ _ hs, h2]
  have l1 := shorten_length (stripPath pre f) (240 - (min (fileName pre).length 218 + 6))
  have hu : (".vwip".toList : Str).length = 5 := rfl
  have hbu : budget = 240 := rfl
  simp only [List.length_append, hu, List.length_take, List.length_singleton]
  omega

/-- **C58 (distinct)** for interest point files: with one prefix, names that fit get different files; so do names that are all
shortened and differ in one byte. -/
theorem ip_distinct (pre f g : Str) (hb : (fileName pre).length ≤ 218) (hne : stripPath pre f ≠ stripPath pre g)
    (h : (∀ x ∈ [f, g], (fileName pre).length + 6 + (stripPath pre x).length ≤ 240) ∨
      ∃ a c c' t, stripPath pre f = a ++ c :: t ∧ stripPath pre g = a ++ c' :: t ∧ (∀ d ∈ a ++ c :: c' :: t, d.toNat < 256)) :
    ipName pre f ≠ ipName pre g := by
  intro e
  rw [ipName_eq, ipName_eq] at e
  have e := List.append_cancel_left (List.append_cancel_right e)
  rw [Nat.min_eq_left hb] at e
  rcases h with h | ⟨a, c, c', t, h1, h2, h3⟩
  · have := h f (by simp)
    have := h g (by simp)
    rw [shorten_le (by omega), shorten_le (by omega)] at e
    exact hne e
  · rw [h1, h2] at e
    refine shorten_one a t c c' _ (by omega) ?_ ?_ ?_ e
    · rintro rfl; exact hne (by rw [h1, h2])
    · intro d hd; apply h3; simp only [List.mem_append, List.mem_cons] at hd ⊢
      rcases hd with h | h | h <;> simp [h]
    · exact h3 c' (by simp)

/-- **C58 (clean)**: the clean match file lies beside the match file, has its name with `-clean` before the extension, and still
fits in the 255 bytes of a file system. -/
theorem clean_spec (pre f1 f2 : Str) (pt : Bool) : ∃ body, matchName pre f1 f2 pt = body ++ (if pt then ".txt".toList else ".match".toList) ∧
    cleanName (matchName pre f1 f2 pt) pt = body ++ (if pt then "-clean.txt".toList else "-clean.match".toList) ∧
    (fileName (cleanName (matchName pre f1 f2 pt) pt)).length ≤ 246 := by
  obtain ⟨c, hc1, hc2⟩ := match_short pre f1 f2 pt _ _ (splits pre)
  obtain ⟨h1, h2⟩ := matchName_split pre f1 f2 pt
  have hsp := split_eq (matchName pre f1 f2 pt)
  rw [← List.append_assoc] at h2
  generalize hB : (if pre = [] then [] else (fileName pre).take (205 - (ext pt).length) ++ ['-']) ++
    (shorten (stripPath pre f1) (room pre pt) ++ "__".toList ++ shorten (stripPath pre f2) (room pre pt)) = body at h2
  have he : stem (fileName (matchName pre f1 f2 pt)) = body := by
    rw [h2]
    cases pt
    · exact stem_ext body "match".toList (by decide)
    · exact stem_ext body "txt".toList (by decide)
  have hcl : (fileName (matchName pre f1 f2 pt)).length ≤ 240 := by rw [← (splits_unique hc1).2]; exact hc2
  refine ⟨dirPart (matchName pre f1 f2 pt) ++ body, ?_, ?_, ?_⟩
  · conv => lhs; rw [← hsp, h2]
    rw [List.append_assoc]; rfl
  · unfold cleanName; rw [he]
  · have hbs : '/' ∉ body := by
      intro hm
      exact fileName_noSlash (matchName pre f1 f2 pt) (by rw [h2]; exact List.mem_append_left _ hm)
    have hbl : body.length + (ext pt).length ≤ 240 := by rw [h2, List.length_append] at hcl; exact hcl
    have hd : fileName (dirPart (matchName pre f1 f2 pt)) = [] := by
      have := fileName_append (dirPart (matchName pre f1 f2 pt)) (fileName (matchName pre f1 f2 pt)) (fileName_noSlash _)
      rw [split_eq] at this
      have := congrArg List.length this
      rw [List.length_append] at this
      exact List.length_eq_zero_iff.mp (by omega)
    unfold cleanName
    rw [he]
    cases pt
    · rw [List.append_assoc, fileName_append _ _ (by simp [hbs]), hd]
      have : (ext false).length = 6 := rfl
      simp; omega
    · rw [List.append_assoc, fileName_append _ _ (by simp [hbs]), hd]
      have : (ext true).length = 4 := rfl
      simp; omega

/-- **C58 (standalone)**: `shorten_vwip_name` keeps the directory and at most 240 characters. -/
theorem vwip_short (path d b : Str) (hp : Splits path d b) :
    ∃ c, Splits (shortenVwip path) d c ∧ c.length ≤ 240 ∧ (b.length ≤ 235 → shortenVwip path = path ++ ".vwip".toList) := by
  obtain ⟨rfl, rfl⟩ := splits_unique hp
  refine ⟨shorten (fileName path) (budget - 5) ++ ".vwip".toList, ⟨rfl, ?_, (splits path).dir⟩, ?_, ?_⟩
  · simp only [List.mem_append, not_or]
    exact ⟨shorten_noSlash _ _ (fileName_noSlash _), by decide⟩
  · have := shorten_length (fileName path) (budget - 5)
    have hu : (".vwip".toList : Str).length = 5 := rfl
    have hbu : budget = 240 := rfl
    rw [List.length_append]; omega
  · intro h
    unfold shortenVwip
    rw [shorten_le (by exact h), ← List.append_assoc, split_eq]

/-- A run: the hypotheses of the theorems are met by `out/run` and images of that run. -/
theorem sample : matchName "out/run".toList "out/run-left.tif".toList "data/right.v2.cub".toList false =
    "out/run-left__right.v2.match".toList ∧ Splits "out/run".toList "out/".toList "run".toList ∧
    (fileName "out/run".toList).length + 9 + 2 * (stripPath "out/run".toList "data/right.v2.cub".toList).length ≤ 240 ∧
    ¬ "__".toList <:+: (stripPath "out/run".toList "out/run-left.tif".toList ++ "_".toList) :=
  ⟨by decide +kernel, ⟨rfl, by decide, .inr ⟨"out".toList, rfl⟩⟩, by decide +kernel, by decide +kernel⟩

/-- A name that is shortened. -/
example : (shorten (List.replicate 300 'x') 40).length = 40 ∧ 40 < (List.replicate 300 'x').length := by decide +kernel

end VW.Names
