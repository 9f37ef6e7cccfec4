import Verif.IP.MatchIO
import Mathlib.Data.List.Infix
import Mathlib.Tactic.ByContra

namespace VW.MatchIO

/-- What the fields of a point can hold: 32 bits each. -/
structure Fits (p : Point) : Prop where
  x : p.x < 256 ^ 4
  y : p.y < 256 ^ 4
  scale : p.scale < 256 ^ 4
  ix : p.ix < 256 ^ 4
  iy : p.iy < 256 ^ 4
  orientation : p.orientation < 256 ^ 4
  interest : p.interest < 256 ^ 4
  octave : p.octave < 256 ^ 4
  scaleLvl : p.scaleLvl < 256 ^ 4
  size : p.descriptor.length < 256 ^ 8
  descriptor : ∀ v ∈ p.descriptor, v < 256 ^ 4

theorem bytes_length (k n : Nat) : (bytes k n).length = k := by
  induction k generalizing n with
  | zero => rfl
  | succ k ih => simp [bytes, ih]

theorem value_bytes (k n : Nat) (h : n < 256 ^ k) : value (bytes k n) = n := by
  induction k generalizing n with
  | zero => simp at h; simp [bytes, value, h]
  | succ k ih =>
    have h2 : n / 256 < 256 ^ k := by
      rw [Nat.div_lt_iff_lt_mul (by decide)]
      rw [Nat.pow_succ] at h; exact h
    show n % 256 + 256 * value (bytes k (n / 256)) = n
    rw [ih _ h2]; omega

theorem read_full (k n0 n : Nat) (t : List Nat) (h : n < 256 ^ k) : read k n0 ⟨bytes k n ++ t, true⟩ = (n, ⟨t, true⟩) := by
  unfold read
  rw [if_neg (by simp)]
  have hl := bytes_length k n
  rw [if_pos (by simp [hl])]
  have e1 : (bytes k n ++ t).take k = bytes k n := List.take_left' hl
  have e2 : (bytes k n ++ t).drop k = t := List.drop_left' hl
  dsimp only
  rw [e1, e2, value_bytes k n h]

theorem readFloats_full (vs : List Nat) (t : List Nat) (h : ∀ v ∈ vs, v < 256 ^ 4) :
    readFloats vs.length ⟨vs.flatMap (bytes 4) ++ t, true⟩ = (vs, ⟨t, true⟩) := by
  induction vs with
  | nil => rfl
  | cons v vs ih =>
    rw [List.flatMap_cons, List.append_assoc]
    rw [List.length_cons]
    unfold readFloats
    rw [read_full 4 0 v _ (h v (by simp))]
    dsimp only
    rw [ih fun v hv => h v (List.mem_cons_of_mem _ hv)]

theorem readRecord_full (p : Point) (t : List Nat) (h : Fits p) : readRecord ⟨record p ++ t, true⟩ = .ok (p, ⟨t, true⟩) := by
  unfold readRecord record
  simp only [List.append_assoc]
  rw [if_neg (by simp)]
  rw [read_full 4 _ _ _ h.x]; dsimp only
  rw [read_full 4 _ _ _ h.y]; dsimp only
  rw [read_full 4 _ _ _ h.ix]; dsimp only
  rw [read_full 4 _ _ _ h.iy]; dsimp only
  rw [read_full 4 _ _ _ h.orientation]; dsimp only
  rw [read_full 4 _ _ _ h.scale]; dsimp only
  rw [read_full 4 _ _ _ h.interest]; dsimp only
  rw [read_full 1 _ _ _ (by cases p.polarity <;> decide)]; dsimp only
  rw [read_full 4 _ _ _ h.octave]; dsimp only
  rw [read_full 4 _ _ _ h.scaleLvl]; dsimp only
  rw [read_full 8 _ _ _ h.size]; dsimp only
  rw [if_neg (by simp), readFloats_full _ _ h.descriptor]
  dsimp only
  have e : (p.polarity.toNat != 0) = p.polarity := by cases p.polarity <;> rfl
  rw [e]

theorem readRecords_succ (n : Nat) (s : Stream) : readRecords (n + 1) s = (match readRecord s with
    | .error e => .error e
    | .ok (p, s) => match readRecords n s with
      | .error e => .error e
      | .ok (ps, s) => .ok (p :: ps, s)) := rfl

theorem readRecords_full (ps : List Point) (t : List Nat) (h : ∀ p ∈ ps, Fits p) :
    readRecords ps.length ⟨ps.flatMap record ++ t, true⟩ = .ok (ps, ⟨t, true⟩) := by
  induction ps with
  | nil => rfl
  | cons p ps ih =>
    rw [List.flatMap_cons, List.append_assoc]
    rw [List.length_cons, readRecords_succ, readRecord_full p _ (h p (by simp))]
    dsimp only
    rw [ih fun q hq => h q (List.mem_cons_of_mem _ hq)]

/-- **C57 (interest points)**: what is written to a `.vwip` file is what is read from it. -/
theorem ip_roundtrip (ps : List Point) (h : ∀ p ∈ ps, Fits p) (hn : ps.length < 256 ^ 8) : readIp (some (writeIp ps)) = .ok ps := by
  unfold readIp writeIp
  dsimp only
  rw [read_full 8 0 _ _ hn]
  dsimp only
  rw [if_neg (by simp)]
  have := readRecords_full ps [] h
  rw [List.append_nil] at this
  rw [this]

/-- **C57 (matches)**: what is written to a match file is what is read from it. -/
theorem match_roundtrip (a b : List Point) (ha : ∀ p ∈ a, Fits p) (hb : ∀ p ∈ b, Fits p) (hl : a.length = b.length)
    (hn : a.length < 256 ^ 8) :
    (writeMatch a b).2 = none ∧ readMatch (some (writeMatch a b).1) = .ok (a, b) := by
  unfold writeMatch
  rw [if_neg (by simp [hl])]
  refine ⟨rfl, ?_⟩
  unfold readMatch
  dsimp only
  simp only [List.append_assoc]
  rw [read_full 8 0 _ _ hn]
  dsimp only
  rw [if_neg (by simp), read_full 8 0 _ _ (by rw [← hl]; exact hn)]
  dsimp only
  rw [if_neg (by simp [hl]), if_neg (by simp), readRecords_full a _ ha]
  dsimp only
  have := readRecords_full b [] hb
  rw [List.append_nil] at this
  rw [this]

/-- **C57 (sizes)**: lists of different lengths are refused, but what the file held before is gone, and the file left behind is
refused when it is read. -/
theorem match_sizes (a b : List Point) (hl : a.length ≠ b.length) :
    (∃ e, (writeMatch a b).2 = some e) ∧ (writeMatch a b).1 = [] ∧ ∃ e, readMatch (some (writeMatch a b).1) = .error e := by
  have : writeMatch a b = ([], some "The vectors of matching interest points must have the same size.") := by
    unfold writeMatch; rw [if_pos hl]
  rw [this]
  exact ⟨⟨_, rfl⟩, rfl, ⟨_, rfl⟩⟩

/-! ### Files cut short -/

/-- The stream is at a place in a file that was cut short: what is left is a proper prefix of `t`, or a read has failed. -/
def Cut (s : Stream) (t : List Nat) : Prop := s = ⟨[], false⟩ ∨ ∃ u, s = ⟨u, true⟩ ∧ u <+: t ∧ u ≠ t

theorem cut_end {s : Stream} (h : Cut s []) : s = ⟨[], false⟩ := by
  rcases h with h | ⟨u, _, h2, h3⟩
  · exact h
  · exact absurd (List.prefix_nil.mp h2) h3

theorem cut_bad {s : Stream} {t : List Nat} (h : Cut s t) (hg : s.good = false) : s = ⟨[], false⟩ := by
  rcases h with h | ⟨u, h1, _⟩
  · exact h
  · rw [h1] at hg; exact absurd hg (by simp)

/-- Splitting a proper prefix. -/
theorem prefix_split {u a t : List Nat} (h : u <+: a ++ t) (hne : u ≠ a ++ t) :
    (u.length < a.length ∧ u <+: a) ∨ ∃ u', u = a ++ u' ∧ u' <+: t ∧ u' ≠ t := by
  rcases Nat.lt_or_ge u.length a.length with hl | hl
  · left
    refine ⟨hl, ?_⟩
    exact List.prefix_of_prefix_length_le h (List.prefix_append _ _) (Nat.le_of_lt hl)
  · right
    have : a <+: u := List.prefix_of_prefix_length_le (List.prefix_append _ _) h hl
    obtain ⟨u', rfl⟩ := this
    exact ⟨u', rfl, List.prefix_append_right_inj a |>.mp h, fun e => hne (by rw [e])⟩

theorem cut_read {s : Stream} {k n0 n : Nat} {t : List Nat} (h : Cut s (bytes k n ++ t)) (hn : n < 256 ^ k) :
    Cut (read k n0 s).2 t ∧ ((read k n0 s).2.good = true → (read k n0 s).1 = n) := by
  rcases h with rfl | ⟨u, rfl, h1, h2⟩
  · unfold read
    rw [if_pos rfl]
    exact ⟨.inl rfl, fun h => absurd h (by simp)⟩
  · rcases prefix_split h1 h2 with ⟨h3, _⟩ | ⟨u', rfl, h3, h4⟩
    · rw [bytes_length] at h3
      unfold read
      rw [if_neg (by simp), if_neg (by dsimp only; omega)]
      exact ⟨.inl rfl, fun h => absurd h (by simp)⟩
    · rw [read_full k n0 n u' hn]
      exact ⟨.inr ⟨u', rfl, h3, h4⟩, fun _ => rfl⟩

theorem cut_readFloats (vs : List Nat) {s : Stream} {t : List Nat} (h : Cut s (vs.flatMap (bytes 4) ++ t))
    (hv : ∀ v ∈ vs, v < 256 ^ 4) : Cut (readFloats vs.length s).2 t := by
  induction vs generalizing s with
  | nil => exact h
  | cons v vs ih =>
    rw [List.flatMap_cons, List.append_assoc] at h
    obtain ⟨h1, _⟩ := cut_read (n0 := 0) h (hv v (by simp))
    exact ih h1 fun v hv' => hv v (List.mem_cons_of_mem _ hv')

/-- A record that is cut short is taken for a point all the same; only then the stream is bad. -/
theorem cut_readRecord (p : Point) (u : List Nat) (h : Fits p) (h1 : u <+: record p) (h2 : u ≠ record p) :
    ∃ q, readRecord ⟨u, true⟩ = .ok (q, ⟨[], false⟩) := by
  have hc : Cut ⟨u, true⟩ (record p) := .inr ⟨u, rfl, h1, h2⟩
  generalize hs : (⟨u, true⟩ : Stream) = s at hc ⊢
  have hg : s.good = true := by rw [← hs]
  unfold readRecord
  rw [if_neg (by simp [hg])]
  unfold record at hc
  simp only [List.append_assoc] at hc
  dsimp only
  obtain ⟨hc, _⟩ := cut_read (n0 := Point.default.x) hc h.x
  generalize read 4 Point.default.x s = r at hc ⊢
  obtain ⟨x, s⟩ := r; dsimp only at hc ⊢
  obtain ⟨hc, _⟩ := cut_read (n0 := Point.default.y) hc h.y
  generalize read 4 Point.default.y s = r at hc ⊢
  obtain ⟨y, s⟩ := r; dsimp only at hc ⊢
  obtain ⟨hc, _⟩ := cut_read (n0 := Point.default.ix) hc h.ix
  generalize read 4 Point.default.ix s = r at hc ⊢
  obtain ⟨ix, s⟩ := r; dsimp only at hc ⊢
  obtain ⟨hc, _⟩ := cut_read (n0 := Point.default.iy) hc h.iy
  generalize read 4 Point.default.iy s = r at hc ⊢
  obtain ⟨iy, s⟩ := r; dsimp only at hc ⊢
  obtain ⟨hc, _⟩ := cut_read (n0 := Point.default.orientation) hc h.orientation
  generalize read 4 Point.default.orientation s = r at hc ⊢
  obtain ⟨orientation, s⟩ := r; dsimp only at hc ⊢
  obtain ⟨hc, _⟩ := cut_read (n0 := Point.default.scale) hc h.scale
  generalize read 4 Point.default.scale s = r at hc ⊢
  obtain ⟨scale, s⟩ := r; dsimp only at hc ⊢
  obtain ⟨hc, _⟩ := cut_read (n0 := Point.default.interest) hc h.interest
  generalize read 4 Point.default.interest s = r at hc ⊢
  obtain ⟨interest, s⟩ := r; dsimp only at hc ⊢
  obtain ⟨hc, _⟩ := cut_read (n0 := Point.default.polarity.toNat) hc (by cases p.polarity <;> decide)
  generalize read 1 Point.default.polarity.toNat s = r at hc ⊢
  obtain ⟨polarity, s⟩ := r; dsimp only at hc ⊢
  obtain ⟨hc, _⟩ := cut_read (n0 := Point.default.octave) hc h.octave
  generalize read 4 Point.default.octave s = r at hc ⊢
  obtain ⟨octave, s⟩ := r; dsimp only at hc ⊢
  obtain ⟨hc, _⟩ := cut_read (n0 := Point.default.scaleLvl) hc h.scaleLvl
  generalize read 4 Point.default.scaleLvl s = r at hc ⊢
  obtain ⟨scaleLvl, s⟩ := r; dsimp only at hc ⊢
  obtain ⟨hc, hsize⟩ := cut_read (n0 := 0) hc h.size
  generalize read 8 0 s = r at hc hsize ⊢
  obtain ⟨size, s⟩ := r; dsimp only at hc hsize ⊢
  by_cases hb : s.good = false
  · rw [if_pos hb, cut_bad hc hb]; exact ⟨_, rfl⟩
  · rw [if_neg hb]
    have hsz := hsize (by simpa using hb)
    subst hsz
    rw [← List.append_nil (List.flatMap _ _)] at hc
    have := cut_end (cut_readFloats p.descriptor hc h.descriptor)
    generalize readFloats p.descriptor.length s = r at this ⊢
    obtain ⟨d, s⟩ := r
    dsimp only at this ⊢
    rw [this]; exact ⟨_, rfl⟩

/-- Records after a cut are refused. -/
theorem cut_records_more (ps : List Point) (u : List Nat) (m : Nat) (h : ∀ p ∈ ps, Fits p) (h1 : u <+: ps.flatMap record)
    (h2 : u ≠ ps.flatMap record) (hm : ps.length < m) : ∃ e, readRecords m ⟨u, true⟩ = .error e := by
  induction ps generalizing u m with
  | nil => exact absurd (List.prefix_nil.mp h1) h2
  | cons p ps ih =>
    obtain ⟨m, rfl⟩ : ∃ k, m = k + 1 := ⟨m - 1, by omega⟩
    rw [List.flatMap_cons] at h1 h2
    rw [readRecords_succ]
    rcases prefix_split h1 h2 with ⟨h3, h4⟩ | ⟨u', rfl, h3, h4⟩
    · obtain ⟨q, hq⟩ := cut_readRecord p u (h p (by simp)) h4 (fun e => by rw [e] at h3; omega)
      rw [hq]
      dsimp only
      obtain ⟨m, rfl⟩ : ∃ k, m = k + 1 := ⟨m - 1, by simp only [List.length_cons] at hm; omega⟩
      exact ⟨_, rfl⟩
    · rw [readRecord_full p u' (h p (by simp))]
      dsimp only
      obtain ⟨e, he⟩ := ih u' m (fun q hq => h q (List.mem_cons_of_mem _ hq)) h3 h4
        (by simp only [List.length_cons] at hm; omega)
      rw [he]; exact ⟨e, rfl⟩

/-- A cut in the last record goes unnoticed. -/
theorem cut_records_last (ps : List Point) (p : Point) (u : List Nat) (h : ∀ p ∈ ps, Fits p) (hp : Fits p) (h1 : u <+: record p)
    (h2 : u ≠ record p) : ∃ q, readRecords (ps.length + 1) ⟨ps.flatMap record ++ u, true⟩ = .ok (ps ++ [q], ⟨[], false⟩) := by
  induction ps with
  | nil =>
    obtain ⟨q, hq⟩ := cut_readRecord p u hp h1 h2
    refine ⟨q, ?_⟩
    rw [show ([] : List Point).length + 1 = 0 + 1 from rfl, readRecords_succ]
    show (match readRecord ⟨u, true⟩ with | Except.error e => Except.error e | .ok (p, s) => _) = _
    rw [hq]; rfl
  | cons r ps ih =>
    obtain ⟨q, hq⟩ := ih fun q hq => h q (List.mem_cons_of_mem _ hq)
    refine ⟨q, ?_⟩
    rw [List.flatMap_cons, List.append_assoc]
    rw [readRecords_succ, readRecord_full r _ (h r (by simp))]
    dsimp only
    rw [List.length_cons, hq]; rfl

theorem readRecords_append (m n : Nat) (s : Stream) : readRecords (m + n) s = (match readRecords m s with
    | .error e => .error e
    | .ok (ps, s) => match readRecords n s with
      | .error e => .error e
      | .ok (qs, s) => .ok (ps ++ qs, s)) := by
  induction m generalizing s with
  | zero =>
    rw [Nat.zero_add]
    rw [show readRecords 0 s = Except.ok ([], s) from rfl]
    dsimp only
    rcases readRecords n s with e | ⟨qs, s⟩ <;> rfl
  | succ m ih =>
    rw [show m + 1 + n = (m + n) + 1 by omega, readRecords_succ, readRecords_succ]
    rcases readRecord s with e | ⟨p, s⟩
    · rfl
    · dsimp only
      rw [ih]
      rcases readRecords m s with e | ⟨ps, s⟩
      · rfl
      · dsimp only
        rcases readRecords n s with e | ⟨qs, s⟩ <;> rfl

theorem take_append_ge {a b : List Nat} {k : Nat} (h : a.length ≤ k) : (a ++ b).take k = a ++ b.take (k - a.length) := by
  rw [List.take_append, List.take_of_length_le h]

/-- The bytes after the two sizes. -/
theorem readMatch_body (n : Nat) (hn : n < 256 ^ 8) (body : List Nat) :
    readMatch (some (bytes 8 n ++ (bytes 8 n ++ body))) =
      (match readRecords n ⟨body, true⟩ with
      | .error e => .error e
      | .ok (a, s) => match readRecords n s with
        | .error e => .error e
        | .ok (b, _) => .ok (a, b)) := by
  unfold readMatch
  dsimp only
  rw [read_full 8 0 _ _ hn]
  dsimp only
  rw [if_neg (by simp), read_full 8 0 _ _ hn]
  dsimp only
  rw [if_neg (by simp), if_neg (by simp)]
  rcases readRecords n ⟨body, true⟩ with e | ⟨a, s⟩
  · rfl
  · dsimp only
    rcases readRecords n s with e | ⟨b, s⟩ <;> rfl

/-- **C57 (crash), partial**: a match file cut after its two sizes, and before its last record, is refused. Missing for "every
file cut short is refused": cuts in the last record and in the second size (`cut_last`, `cut_accepted`, `cut_header`). -/
theorem cut_partial (a b : List Point) (p : Point) (ha : ∀ p ∈ a, Fits p) (hb : ∀ q ∈ b ++ [p], Fits q)
    (hl : a.length = (b ++ [p]).length) (hn : a.length < 256 ^ 8) (k : Nat) (hk : 16 ≤ k)
    (hk2 : k < (writeMatch a (b ++ [p])).1.length - (record p).length) :
    ∃ e, readMatch (some ((writeMatch a (b ++ [p])).1.take k)) = .error e := by
  have hw : (writeMatch a (b ++ [p])).1 = bytes 8 a.length ++ (bytes 8 a.length ++ ((a ++ b).flatMap record ++ record p)) := by
    unfold writeMatch
    rw [if_neg (by simp at hl ⊢; exact hl), ← hl]
    simp
  rw [hw] at hk2 ⊢
  rw [take_append_ge (by rw [bytes_length]; omega), take_append_ge (by rw [bytes_length]; omega), readMatch_body _ hn]
  simp only [bytes_length, List.length_append] at hk2 ⊢
  have hu : ((a ++ b).flatMap record ++ record p).take (k - 8 - 8) = ((a ++ b).flatMap record).take (k - 8 - 8) := by
    apply List.take_append_of_le_length; omega
  rw [hu]
  generalize hU : ((a ++ b).flatMap record).take (k - 8 - 8) = u
  have hpre : u <+: (a ++ b).flatMap record := hU ▸ List.take_prefix _ _
  have hne : u ≠ (a ++ b).flatMap record := by
    intro e
    have := congrArg List.length e
    rw [← hU, List.length_take] at this
    omega
  have hlen : a.length + a.length = (a ++ b).length + 1 := by simp at hl ⊢; omega
  obtain ⟨e, he⟩ := cut_records_more (a ++ b) u (a.length + a.length)
    (by intro q hq; rcases List.mem_append.mp hq with h | h
        · exact ha q h
        · exact hb q (List.mem_append_left _ h)) hpre hne (by omega)
  rw [readRecords_append] at he
  generalize readRecords a.length ⟨u, true⟩ = r at he ⊢
  rcases r with e' | ⟨as, s⟩
  · exact ⟨_, rfl⟩
  · dsimp only at he ⊢
    generalize readRecords a.length s = r at he ⊢
    rcases r with e' | ⟨bs, s'⟩
    · exact ⟨_, rfl⟩
    · cases he

/-- **C57 (crash)**: a match file cut at or in its last record is accepted, with some point in its place. -/
theorem cut_last (a b : List Point) (p : Point) (ha : ∀ p ∈ a, Fits p) (hb : ∀ q ∈ b ++ [p], Fits q)
    (hl : a.length = (b ++ [p]).length) (hn : a.length < 256 ^ 8) (k : Nat)
    (hk : (writeMatch a (b ++ [p])).1.length - (record p).length ≤ k) (hk2 : k < (writeMatch a (b ++ [p])).1.length) :
    ∃ q, readMatch (some ((writeMatch a (b ++ [p])).1.take k)) = .ok (a, b ++ [q]) := by
  have hw : (writeMatch a (b ++ [p])).1 =
      bytes 8 a.length ++ (bytes 8 a.length ++ (a.flatMap record ++ (b.flatMap record ++ record p))) := by
    unfold writeMatch
    rw [if_neg (by simp at hl ⊢; exact hl), ← hl]
    simp
  rw [hw] at hk hk2 ⊢
  simp only [List.length_append, bytes_length] at hk hk2
  rw [take_append_ge (by rw [bytes_length]; omega), take_append_ge (by rw [bytes_length]; omega), readMatch_body _ hn]
  rw [take_append_ge (by simp only [bytes_length]; omega), take_append_ge (by simp only [bytes_length]; omega),
    readRecords_full a _ ha]
  simp only [bytes_length]
  generalize hU : (record p).take _ = u
  have hl' : a.length = b.length + 1 := by simpa using hl
  rw [hl']
  obtain ⟨q, hq⟩ := cut_records_last b p u (fun q hq => hb q (List.mem_append_left _ hq)) (hb p (by simp))
    (hU ▸ List.take_prefix _ _) (by
      intro e
      have := congrArg List.length e
      rw [← hU, List.length_take] at this
      omega)
  rw [hq]
  exact ⟨q, rfl⟩

/-- **C57 (crash)**: a match file cut in the first size is refused; one cut in the second size is refused or taken for an empty
one. -/
theorem cut_header (a b : List Point) (hl : a.length = b.length) (hn : a.length < 256 ^ 8) (k : Nat) :
    (k < 8 → ∃ e, readMatch (some ((writeMatch a b).1.take k)) = .error e) ∧
    (8 ≤ k → k < 16 → (∃ e, readMatch (some ((writeMatch a b).1.take k)) = .error e) ∨
      readMatch (some ((writeMatch a b).1.take k)) = .ok ([], [])) := by
  have hw : (writeMatch a b).1 = bytes 8 a.length ++ (bytes 8 b.length ++ (a.flatMap record ++ b.flatMap record)) := by
    unfold writeMatch
    rw [if_neg (by simp [hl])]
    simp
  rw [hw]
  constructor
  · intro hk
    rw [List.take_append_of_le_length (by rw [bytes_length]; omega)]
    generalize hU : (bytes 8 a.length).take k = u
    have hul : u.length < 8 := by rw [← hU, List.length_take, bytes_length]; omega
    unfold readMatch
    dsimp only
    have : (read 8 0 ⟨u, true⟩).2.good = false := by
      unfold read; rw [if_neg (by simp), if_neg (by dsimp only; omega)]
    generalize read 8 0 ⟨u, true⟩ = r at this ⊢
    obtain ⟨x, s⟩ := r
    dsimp only at this ⊢
    rw [if_pos this]; exact ⟨_, rfl⟩
  · intro hk1 hk2
    rw [take_append_ge (by rw [bytes_length]; omega), List.take_append_of_le_length (by simp only [bytes_length]; omega)]
    simp only [bytes_length]
    generalize hU : (bytes 8 b.length).take _ = u
    have hul : u.length < 8 := by rw [← hU, List.length_take, bytes_length]; omega
    unfold readMatch
    dsimp only
    rw [read_full 8 0 _ _ hn]
    dsimp only
    rw [if_neg (by simp)]
    have : (read 8 0 ⟨u, true⟩).2.good = false := by
      unfold read; rw [if_neg (by simp), if_neg (by dsimp only; omega)]
    generalize read 8 0 ⟨u, true⟩ = r at this ⊢
    obtain ⟨x, s⟩ := r
    dsimp only at this ⊢
    by_cases hc : a.length ≠ x
    · rw [if_pos hc]; exact .inl ⟨_, rfl⟩
    · rw [if_neg hc, if_pos this]; exact .inr rfl

/-- The same for interest point files: cut before the last record they are refused, cut in it they are accepted, and cut in the
size they are taken for empty ones. -/
theorem cut_ip (ps : List Point) (p : Point) (h : ∀ q ∈ ps ++ [p], Fits q) (hn : (ps ++ [p]).length < 256 ^ 8) (k : Nat) :
    (k < 8 → readIp (some ((writeIp (ps ++ [p])).take k)) = .ok []) ∧
    (8 ≤ k → k < (writeIp ps).length → ∃ e, readIp (some ((writeIp (ps ++ [p])).take k)) = .error e) ∧
    ((writeIp ps).length ≤ k → k < (writeIp (ps ++ [p])).length →
      ∃ q, readIp (some ((writeIp (ps ++ [p])).take k)) = .ok (ps ++ [q])) := by
  have hw : writeIp (ps ++ [p]) = bytes 8 (ps ++ [p]).length ++ (ps.flatMap record ++ record p) := by
    unfold writeIp; simp
  have hwl : (writeIp ps).length = 8 + (ps.flatMap record).length := by unfold writeIp; rw [List.length_append, bytes_length]
  have body : ∀ body, readIp (some (bytes 8 (ps ++ [p]).length ++ body)) = (match readRecords (ps ++ [p]).length ⟨body, true⟩ with
      | .error e => .error e
      | .ok (ps, _) => .ok ps) := by
    intro body
    unfold readIp
    dsimp only
    rw [read_full 8 0 _ _ hn]
    dsimp only
    rw [if_neg (by simp)]
    rcases readRecords (ps ++ [p]).length ⟨body, true⟩ with e | ⟨a, s⟩ <;> rfl
  refine ⟨?_, ?_, ?_⟩
  · intro hk
    rw [hw, List.take_append_of_le_length (by rw [bytes_length]; omega)]
    generalize hU : (bytes 8 _).take k = u
    have hul : u.length < 8 := by rw [← hU, List.length_take, bytes_length]; omega
    unfold readIp
    dsimp only
    have : (read 8 0 ⟨u, true⟩).2.good = false := by
      unfold read; rw [if_neg (by simp), if_neg (by dsimp only; omega)]
    generalize read 8 0 ⟨u, true⟩ = r at this ⊢
    obtain ⟨x, s⟩ := r
    dsimp only at this ⊢
    rw [if_pos this]
  · intro hk1 hk2
    rw [hw, take_append_ge (by rw [bytes_length]; omega), body, bytes_length,
      List.take_append_of_le_length (by omega)]
    obtain ⟨e, he⟩ := cut_records_more ps ((ps.flatMap record).take (k - 8)) (ps ++ [p]).length
      (fun q hq => h q (List.mem_append_left _ hq)) (List.take_prefix _ _) (by
        intro e
        have := congrArg List.length e
        rw [List.length_take] at this
        omega) (by simp)
    rw [he]; exact ⟨e, rfl⟩
  · intro hk1 hk2
    rw [hw] at hk2
    simp only [List.length_append, bytes_length] at hk2
    rw [hw, take_append_ge (by rw [bytes_length]; omega), body, bytes_length, take_append_ge (by omega)]
    generalize hU : (record p).take _ = u
    obtain ⟨q, hq⟩ := cut_records_last ps p u (fun q hq => h q (List.mem_append_left _ hq)) (h p (by simp))
      (hU ▸ List.take_prefix _ _) (by
        intro e
        have := congrArg List.length e
        rw [← hU, List.length_take] at this
        omega)
    rw [show (ps ++ [p]).length = ps.length + 1 by simp, hq]
    exact ⟨q, rfl⟩

/-- Two points. -/
def p1 : Point := ⟨1065353216, 7, 9, 1, 2, 3, 4, true, 5, 6, [100, 200]⟩
def p2 : Point := ⟨3, 1099431936, 8, 0xffffffff, 2, 3, 4, false, 5, 6, [1, 0x01020304]⟩

theorem fits1 : Fits p1 := ⟨by decide, by decide, by decide, by decide, by decide, by decide, by decide, by decide, by decide,
  by decide, by decide⟩
theorem fits2 : Fits p2 := ⟨by decide, by decide, by decide, by decide, by decide, by decide, by decide, by decide, by decide,
  by decide, by decide⟩

example : (∀ p ∈ [p1], Fits p) ∧ (∀ q ∈ [] ++ [p2], Fits q) ∧ ([p1] : List Point).length = ([] ++ [p2] : List Point).length ∧
    16 ≤ 30 ∧ 30 < (writeMatch [p1] ([] ++ [p2])).1.length - (record p2).length := by
  refine ⟨by simp [fits1], by simp [fits2], rfl, by decide, by decide +kernel⟩

/-- **C57 refuted for cut files**: a file that lost its last byte is read as a different match, and one that lost half of its
second size as no matches, without an error. -/
theorem cut_accepted :
    readMatch (some ((writeMatch [p1] [p2]).1.take ((writeMatch [p1] [p2]).1.length - 1))) =
      .ok ([p1], [{ p2 with descriptor := [1, 0x00020304] }]) ∧
    readMatch (some ((writeMatch [p1] [p2]).1.take 12)) = .ok ([], []) := by
  decide +kernel

end VW.MatchIO
