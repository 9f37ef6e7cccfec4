import Verif.Log.Model
import Mathlib.Data.List.Basic
import Mathlib.Tactic.Tauto
/-! C17, C18, C43. -/
namespace VW.Log

/-! ### C18 -/

/-- The five kinds of pattern a user may write. -/
inductive Pattern where
  /-- `*` -/
  | any
  /-- `*s` -/
  | suffix (s : Str)
  /-- `a.*` -/
  | subtree (a : Str)
  /-- `a*` where `a` does not end in a dot -/
  | pre (a : Str)
  /-- no wildcard -/
  | exact (s : Str)

def Pattern.text : Pattern → Str
  | .any => ['*']
  | .suffix s => '*' :: s
  | .subtree a => a ++ ['.', '*']
  | .pre a => a ++ ['*']
  | .exact s => s

/-- side conditions that make the kinds disjoint: no further wildcard, `s`/`a` not empty where that is
another kind -/
def Pattern.Valid : Pattern → Prop
  | .any => True
  | .suffix s => s ≠ [] ∧ '*' ∉ s
  | .subtree a => '*' ∉ a
  | .pre a => a ≠ [] ∧ '*' ∉ a ∧ a.getLast? ≠ some '.'
  | .exact s => '*' ∉ s

/-- The documented meaning. -/
def Pattern.Matches : Pattern → Str → Prop
  | .any, _ => True
  | .suffix s, n => ∃ p, n = p ++ s
  | .subtree a, n => n = a ∨ ∃ q, n = a ++ '.' :: q
  | .pre a, n => ∃ q, n = a ++ q
  | .exact s, n => n = s

theorem idxOf_append_star (a b : Str) (h : '*' ∉ a) : (a ++ '*' :: b).idxOf '*' = a.length := by
  rw [List.idxOf_append_of_notMem h]; simp

/-- C18: patterns mean what they should. -/
theorem wildcard_semantics (p : Pattern) (hp : p.Valid) (n : Str) :
    wildcardMatch p.text n = true ↔ p.Matches n := by
  cases p with
  | any => simp [wildcardMatch, Pattern.text, Pattern.Matches]
  | suffix s =>
    obtain ⟨h1, h2⟩ := hp
    simp [wildcardMatch, Pattern.text, Pattern.Matches, h1, List.isSuffixOf_iff_suffix, List.suffix_iff_exists_eq_append]
  | subtree a =>
    have h : '*' ∉ a ++ ['.'] := by simp [show '*' ∉ a from hp]
    have hi := idxOf_append_star (a ++ ['.']) [] h
    have e : a ++ ['.', '*'] = a ++ ['.'] ++ '*' :: [] := by simp
    show wildcardMatch (a ++ ['.', '*']) n = true ↔ (n = a ∨ ∃ q, n = a ++ '.' :: q)
    rw [e]
    unfold wildcardMatch
    simp only []
    rw [hi]
    have h2 : ¬ (a ++ ['.'] ++ ['*'] = ['*']) := by
      intro hc; have := congrArg List.length hc; simp at this
    rw [if_neg h2, if_neg (by simp), if_neg (by simp)]
    have h3 : List.take ((a ++ ['.']).length) (a ++ ['.'] ++ ['*']) = a ++ ['.'] := by
      rw [List.take_left]
    rw [h3]
    have h4 : List.take ((a ++ ['.']).length - 1) (a ++ ['.'] ++ ['*']) = a := by simp
    rw [h4]
    have h5 : (a ++ ['.'] ++ ['*'])[(a ++ ['.']).length - 1]? = some '.' := by simp
    rw [h5]
    by_cases hn : n = a
    · simp [hn]
    · simp [hn, List.prefix_iff_eq_append]
      constructor
      · rintro h; exact ⟨n.drop (a.length + 1), by simpa using h.symm⟩
      · rintro ⟨q, rfl⟩; simp
  | pre a =>
    obtain ⟨h1, h2, h3⟩ := hp
    have hi := idxOf_append_star a [] h2
    show wildcardMatch (a ++ ['*']) n = true ↔ ∃ q, n = a ++ q
    unfold wildcardMatch
    simp only []
    rw [hi]
    have h4 : ¬ (a ++ ['*'] = ['*']) := by simpa using h1
    have hl : 0 < a.length := List.length_pos_iff.2 h1
    rw [if_neg h4, if_neg (by simp), if_neg (by omega)]
    have h5 : (a ++ ['*'])[a.length - 1]? = a.getLast? := by
      rw [List.getElem?_append_left (by omega), List.getLast?_eq_getElem?]
    rw [h5]
    have h6 : (a.getLast? == some '.') = false := by simpa using h3
    rw [h6]
    simp [List.prefix_iff_eq_append]
    constructor
    · intro h; exact ⟨_, h.symm⟩
    · rintro ⟨q, rfl⟩; simp
  | exact s =>
    have h1 : s ≠ ['*'] := by rintro rfl; simp [Pattern.Valid] at hp
    have h2 : s.idxOf '*' = s.length := List.idxOf_eq_length_iff.2 hp
    simp [wildcardMatch, Pattern.text, Pattern.Matches, h1, h2, eq_comm]

/-- C18: `add_rule` accepts exactly the five kinds of pattern. -/
theorem accepted_iff (ns : Str) : accepted ns = true ↔ ∃ p : Pattern, p.Valid ∧ p.text = ns := by
  constructor
  · intro h
    unfold accepted at h
    by_cases h0 : ns.count '*' = 0
    · exact ⟨.exact ns, List.count_eq_zero.1 h0, rfl⟩
    · have h1 : ns.count '*' = 1 := by
        by_contra hc
        rw [if_pos (by omega)] at h
        simp at h
      by_cases hh : ns.head? = some '*'
      · obtain ⟨t, rfl⟩ : ∃ t, ns = '*' :: t := by
          cases ns with
          | nil => simp at hh
          | cons c t => exact ⟨t, by simpa using hh⟩
        have ht : '*' ∉ t := by
          apply List.count_eq_zero.1
          simpa using h1
        by_cases htn : t = []
        · exact ⟨.any, trivial, by simp [Pattern.text, htn]⟩
        · exact ⟨.suffix t, ⟨htn, ht⟩, rfl⟩
      · have hl : ns.getLast? = some '*' := by
          by_contra hc
          simp [h1, hh, hc] at h
        obtain ⟨a, rfl⟩ : ∃ a, ns = a ++ ['*'] := by
          obtain ⟨a, ha⟩ := List.getLast?_eq_some_iff.1 hl
          exact ⟨a, ha⟩
        have ha : '*' ∉ a := by
          apply List.count_eq_zero.1
          simpa using h1
        have hne : a ≠ [] := by rintro rfl; simp at hh
        by_cases hd : a.getLast? = some '.'
        · obtain ⟨b, rfl⟩ := List.getLast?_eq_some_iff.1 hd
          exact ⟨.subtree b, by simp at ha; exact ha, by simp [Pattern.text]⟩
        · exact ⟨.pre a, ⟨hne, ha, hd⟩, rfl⟩
  · rintro ⟨p, hp, rfl⟩
    cases p with
    | any => decide
    | suffix s =>
      have := List.count_eq_zero.2 hp.2
      simp [accepted, Pattern.text, this]
    | subtree a =>
      have := List.count_eq_zero.2 (show '*' ∉ a from hp)
      have e : (a ++ ['.', '*']).getLast? = some '*' := by simp
      simp [accepted, Pattern.text, this, e]
    | pre a =>
      have := List.count_eq_zero.2 hp.2.1
      simp [accepted, Pattern.text, this]
    | exact s =>
      have := List.count_eq_zero.2 (show '*' ∉ s from hp)
      simp [accepted, Pattern.text, this]

/-! ### C17 -/

theorem toLower_star (c : Char) : c.toLower = '*' ↔ c = '*' := by
  constructor
  · intro h
    unfold Char.toLower at h
    split at h
    · rename_i hc
      exfalso
      have h1 := congrArg Char.val h
      simp only [] at h1
      have h2 := congrArg UInt32.toNat h1
      have h3 : c.val.toNat ≥ 65 ∧ c.val.toNat ≤ 90 := hc
      rw [UInt32.toNat_add] at h2
      have : ('*' : Char).val.toNat = 42 := by decide
      have e : (UInt32.toNat ('a'.val - 'A'.val)) = 32 := by decide
      rw [e, this] at h2
      omega
    · exact h
  · rintro rfl; decide

theorem count_lower (s : Str) : (lower s).count '*' = s.count '*' := by
  induction s with
  | nil => rfl
  | cons c s ih =>
    simp only [lower, List.map_cons, List.count_cons] at ih ⊢
    rw [ih]
    by_cases h : c = '*'
    · simp [h, (toLower_star '*').2 rfl]
    · simp [h, mt (toLower_star c).1 h]

theorem accepted_lower (s : Str) : accepted (lower s) = accepted s := by
  have h1 : ((lower s).head? == some '*') = (s.head? == some '*') := by
    cases s with
    | nil => rfl
    | cons c s =>
      simp only [lower, List.map_cons, List.head?_cons]
      rw [Bool.eq_iff_iff]; simp [toLower_star]
  have h2 : ((lower s).getLast? == some '*') = (s.getLast? == some '*') := by
    rcases List.eq_nil_or_concat s with rfl | ⟨l, c, rfl⟩
    · rfl
    · rw [Bool.eq_iff_iff]
      simp [lower, toLower_star]
  simp only [accepted, count_lower, h1, h2]

/-- The rule text `p` (as given to `add_rule`) matches the namespace `ns`, case-insensitively. -/
def RuleMatches (p ns : Str) : Prop := ∃ P : Pattern, P.Valid ∧ P.text = lower p ∧ P.Matches (lower ns)

theorem ruleMatches_iff {p ns : Str} (hp : accepted p = true) :
    wildcardMatch (lower p) (lower ns) = true ↔ RuleMatches p ns := by
  constructor
  · intro h
    rw [← accepted_lower] at hp
    obtain ⟨P, hv, ht⟩ := (accepted_iff _).1 hp
    exact ⟨P, hv, ht, (wildcard_semantics P hv _).1 (ht ▸ h)⟩
  · rintro ⟨P, hv, ht, hm⟩
    rw [← ht]
    exact (wildcard_semantics P hv _).2 hm

/-- an accepted rule in `ops` that matches `ns` -/
def SomeMatch (ops : List Op) (ns : Str) : Prop :=
  ∃ l p, Op.add l p ∈ ops ∧ accepted p = true ∧ RuleMatches p ns

theorem foldl_noMatch (post : List Op) (r : Rules) (lvl : Int) (ns : Str)
    (hc : Op.clear ∉ post) (hn : ¬ SomeMatch post ns) :
    firstRule (post.foldl step r) lvl (lower ns) = firstRule r lvl (lower ns) := by
  induction post generalizing r with
  | nil => rfl
  | cons o post ih =>
    simp only [List.mem_cons, not_or] at hc
    have hn' : ¬ SomeMatch post ns := fun ⟨l, p, h1, h2⟩ => hn ⟨l, p, by simp [h1], h2⟩
    simp only [List.foldl_cons]
    rw [ih _ hc.2 hn']
    cases o with
    | clear => exact absurd rfl hc.1
    | add l p =>
      by_cases ha : accepted p = true
      · have hm : ¬ (wildcardMatch (lower p) (lower ns) = true) := by
          rw [ruleMatches_iff ha]
          exact fun h => hn ⟨l, p, by simp, ha, h⟩
        simp [step, ha, firstRule, hm]
      · simp [step, ha]

/-- C17: the most recently added rule that matches decides: if `add_rule(l, p)` was accepted and
matches, and since then the set was not cleared and no accepted rule matches, a message is logged iff
`l` is EveryMessage or its level is at most `l`. -/
theorem latest_rule_decides (before after : List Op) (l : Int) (p ns : Str) (lvl : Int)
    (hp : accepted p = true) (hm : RuleMatches p ns) (hc : Op.clear ∉ after)
    (hn : ¬ SomeMatch after ns) :
    admits (run (before ++ .add l p :: after)) lvl ns = true ↔ l = everyMessage ∨ lvl ≤ l := by
  have h1 : firstRule (run (before ++ .add l p :: after)) lvl (lower ns) =
      some (decide (l = everyMessage ∨ lvl ≤ l)) := by
    rw [run, List.foldl_append, List.foldl_cons, foldl_noMatch _ _ _ _ hc hn]
    simp only [step, hp, if_true, firstRule, (ruleMatches_iff hp).2 hm]
    by_cases h : l = everyMessage <;> simp [h]
  simp [admits, h1]

/-- C17: with no matching rule since the start or the last `clear`, the defaults apply: info for the
namespace `console` (spelled in lower case) and for namespaces ending in `.progress`, warnings and
errors for everything. -/
theorem default_rules (before after : List Op) (ns : Str) (lvl : Int)
    (hb : before = [] ∨ ∃ b, before = b ++ [.clear]) (hc : Op.clear ∉ after)
    (hn : ¬ SomeMatch after ns) :
    admits (run (before ++ after)) lvl ns = true ↔
      lvl ≤ warningMessage ∨
      (lvl ≤ infoMessage ∧ (ns = "console".toList ∨ ∃ q, lower ns = q ++ ".progress".toList)) := by
  have h0 : before.foldl step [] = [] := by
    rcases hb with rfl | ⟨b, rfl⟩
    · rfl
    · simp [step]
  have h1 : firstRule (run (before ++ after)) lvl (lower ns) = none := by
    rw [run, List.foldl_append, foldl_noMatch _ _ _ _ hc hn, h0]; rfl
  have h2 : wildcardMatch "*.progress".toList (lower ns) = true ↔ ∃ q, lower ns = q ++ ".progress".toList := by
    have := wildcard_semantics (.suffix ".progress".toList) ⟨by decide, by decide⟩ (lower ns)
    exact this
  unfold admits
  rw [h1, ← h2]
  generalize wildcardMatch "*.progress".toList (lower ns) = b
  generalize "console".toList = K
  by_cases hw : lvl ≤ warningMessage <;> by_cases hi : lvl ≤ infoMessage <;>
    by_cases hk : ns = K <;> cases b <;> simp [hw, hi, hk]

/-- A rule that `add_rule` rejects changes nothing. -/
theorem rejected_rule_ignored (before after : List Op) (l : Int) (p : Str) (hp : accepted p = false) :
    run (before ++ .add l p :: after) = run (before ++ after) := by
  simp [run, step, hp]

/-- Non-vacuity: a later non-matching rule, an earlier contradicting one, an upper-case namespace. -/
example : admits (run ([.add 40 "*".toList, .clear, .add 0 "foo.*".toList] ++
    .add 30 "Foo.Bar".toList :: [.add 0 "baz".toList, .add 5 "a*b".toList])) 30 "fOO.bar".toList = true := by
  decide
example : RuleMatches "Foo.*".toList "fOO.bar".toList ∧ accepted "Foo.*".toList = true ∧
    ¬ SomeMatch [.add 5 "a*b".toList] "fOO.bar".toList := by
  refine ⟨⟨.subtree "foo".toList, by simp [Pattern.Valid], by decide, .inr ⟨"bar".toList, by decide⟩⟩,
    by decide, ?_⟩
  rintro ⟨l, p, h1, h2, -⟩
  simp at h1
  obtain ⟨-, rfl⟩ := h1
  exact absurd h2 (by decide)

/-! ### C43: per-thread line buffering -/

/-- everything thread `t` has written -/
def written (t : Nat) : List Act → Str
  | [] => []
  | .put u s :: as => (if u = t then s else []) ++ written t as
  | .putc u c :: as => (if u = t then [c] else []) ++ written t as
  | .flush _ :: as => written t as

/-- what has reached the log from thread `t` -/
def reached (t : Nat) (out : List (Nat × Str)) : Str :=
  (out.filter (fun c => c.1 == t)).flatMap (·.2)

def runActs (as : List Act) : Buf := as.foldl Buf.act Buf.init

theorem written_append (t : Nat) (a b : List Act) : written t (a ++ b) = written t a ++ written t b := by
  induction a with
  | nil => rfl
  | cons x a ih => cases x <;> simp [written, ih]

theorem reached_sync (b : Buf) (t u : Nat) :
    reached t (b.sync u).out ++ (b.sync u).buffers t = reached t b.out ++ b.buffers t := by
  unfold Buf.sync
  split
  · rfl
  · by_cases h : u = t
    · subst h; simp [reached, setAt, List.filter_append]
    · simp [reached, setAt, List.filter_append, h, Ne.symm h]

theorem reached_act (b : Buf) (t : Nat) (a : Act) :
    reached t (b.act a).out ++ (b.act a).buffers t =
      reached t b.out ++ b.buffers t ++ written t [a] := by
  cases a with
  | put u s =>
    simp only [Buf.act, Buf.put]
    have h : ∀ b' : Buf, b' = ⟨setAt b.buffers u (b.buffers u ++ s), b.out⟩ →
        reached t b'.out ++ b'.buffers t = reached t b.out ++ b.buffers t ++ written t [.put u s] := by
      rintro b' rfl
      by_cases h : u = t
      · subst h; simp [setAt, written]
      · simp [setAt, written, h, Ne.symm h]
    split
    · split
      · rw [reached_sync]; exact h _ rfl
      · exact h _ rfl
    · exact h _ rfl
  | putc u c =>
    simp only [Buf.act, Buf.putc]
    have h : ∀ b' : Buf, b' = ⟨setAt b.buffers u (b.buffers u ++ [c]), b.out⟩ →
        reached t b'.out ++ b'.buffers t = reached t b.out ++ b.buffers t ++ written t [.putc u c] := by
      rintro b' rfl
      by_cases h : u = t
      · subst h; simp [setAt, written]
      · simp [setAt, written, h, Ne.symm h]
    split
    · rw [reached_sync]; exact h _ rfl
    · exact h _ rfl
  | flush u =>
    simp only [Buf.act, reached_sync]
    simp [written]

/-- C43 (nothing lost or reordered): for every thread, what has reached the log followed by what is in
its buffer is exactly what it wrote. -/
theorem log_per_thread_order (as : List Act) (t : Nat) :
    reached t (runActs as).out ++ (runActs as).buffers t = written t as := by
  have : ∀ (b : Buf), reached t (as.foldl Buf.act b).out ++ (as.foldl Buf.act b).buffers t =
      reached t b.out ++ b.buffers t ++ written t as := by
    induction as with
    | nil => intro b; simp [written]
    | cons a as ih =>
      intro b
      rw [List.foldl_cons, ih, reached_act, List.append_assoc, ← written_append]
      rfl
  simpa [runActs, Buf.init, reached] using this Buf.init

/-- A string whose last character ends a line. -/
def EndsLine (s : Str) : Prop := ∃ c, s.getLast? = some c ∧ (c = '\n' ∨ c = '\r')

theorem isEol_iff (c : Char) : isEol c = true ↔ c = '\n' ∨ c = '\r' := by simp [isEol]

theorem buf_inv (as : List Act) :
    (∀ t, ¬ EndsLine ((runActs as).buffers t)) ∧
    ((∀ t, Act.flush t ∉ as) → ∀ c ∈ (runActs as).out, EndsLine c.2) := by
  have sync_buf : ∀ (b : Buf) u, (∀ t, t ≠ u → ¬ EndsLine (b.buffers t)) →
      ∀ t, ¬ EndsLine ((b.sync u).buffers t) := by
    intro b u h t
    unfold Buf.sync
    split
    · rename_i h0
      by_cases ht : t = u
      · subst ht; rw [h0]; simp [EndsLine]
      · exact h t ht
    · by_cases ht : t = u
      · subst ht; simp [EndsLine, setAt]
      · simpa [setAt, ht] using h t ht
  have sync_out : ∀ (b : Buf) u, EndsLine (b.buffers u) → (∀ c ∈ b.out, EndsLine c.2) →
      ∀ c ∈ (b.sync u).out, EndsLine c.2 := by
    intro b u h h2 c hc
    unfold Buf.sync at hc
    split at hc
    · exact h2 c hc
    · simp at hc
      rcases hc with hc | rfl
      · exact h2 c hc
      · exact h
  have gen : ∀ (as : List Act) (b : Buf), (∀ t, ¬ EndsLine (b.buffers t)) →
      (∀ t, ¬ EndsLine ((as.foldl Buf.act b).buffers t)) ∧
      ((∀ t, Act.flush t ∉ as) → (∀ c ∈ b.out, EndsLine c.2) →
        ∀ c ∈ (as.foldl Buf.act b).out, EndsLine c.2) := by
    intro as
    induction as with
    | nil => intro b h; exact ⟨h, fun _ h2 => h2⟩
    | cons a as ih =>
      intro b h
      have step1 : ∀ t, ¬ EndsLine ((b.act a).buffers t) := by
        cases a with
        | flush u => exact sync_buf b u (fun t _ => h t)
        | put u s =>
          simp only [Buf.act, Buf.put]
          split
          · rename_i c hc
            split
            · apply sync_buf; intro t ht; simpa [setAt, ht] using h t
            · rename_i he
              intro t
              by_cases ht : t = u
              · subst ht
                rintro ⟨c', h1, h2⟩
                simp only [] at hc h1
                rw [hc] at h1
                cases h1
                exact he ((isEol_iff _).2 h2)
              · simpa [setAt, ht] using h t
          · rename_i hc
            intro t
            by_cases ht : t = u
            · subst ht
              rintro ⟨c', h1, h2⟩
              simp only [] at hc h1
              rw [hc] at h1
              cases h1
            · simpa [setAt, ht] using h t
        | putc u c =>
          simp only [Buf.act, Buf.putc]
          split
          · apply sync_buf; intro t ht; simpa [setAt, ht] using h t
          · rename_i he
            intro t
            by_cases ht : t = u
            · subst ht
              rintro ⟨c', h1, h2⟩
              simp [setAt] at h1
              subst h1
              exact he ((isEol_iff _).2 h2)
            · simpa [setAt, ht] using h t
      have step2 : (∀ t, Act.flush t ≠ a) → (∀ c ∈ b.out, EndsLine c.2) →
          ∀ c ∈ (b.act a).out, EndsLine c.2 := by
        intro hf ho
        cases a with
        | flush u => exact absurd rfl (hf u)
        | put u s =>
          simp only [Buf.act, Buf.put]
          split
          · rename_i c hc
            split
            · rename_i he
              exact sync_out _ _ ⟨c, hc, (isEol_iff _).1 he⟩ ho
            · exact ho
          · exact ho
        | putc u c =>
          simp only [Buf.act, Buf.putc]
          split
          · rename_i he
            refine sync_out _ _ ⟨c, by simp [setAt], (isEol_iff _).1 he⟩ ho
          · exact ho
      obtain ⟨i1, i2⟩ := ih (b.act a) step1
      refine ⟨i1, fun hf ho => i2 (fun t ht => hf t (by simp [ht])) (step2 (fun t ht => hf t (by simp [ht])) ho)⟩
  obtain ⟨h1, h2⟩ := gen as Buf.init (by simp [Buf.init, EndsLine])
  exact ⟨h1, fun hf => h2 hf (by simp [Buf.init])⟩

/-- C43 (lines of different threads do not mix): as long as no thread flushes explicitly, the log is a
sequence of chunks, each written by one thread and ending with an end-of-line character — so text of
two threads never shares a line. -/
theorem log_lines_not_mixed (as : List Act) (hf : ∀ t, Act.flush t ∉ as) :
    ∀ c ∈ (runActs as).out, EndsLine c.2 := (buf_inv as).2 hf

/-- C43 (completed lines are not held back): whenever the text a thread has written so far ends a line,
all of it has reached the log. -/
theorem log_line_output (as : List Act) (t : Nat) (h : EndsLine (written t as)) :
    reached t (runActs as).out = written t as := by
  have h1 := log_per_thread_order as t
  have h2 := (buf_inv as).1 t
  by_cases hb : (runActs as).buffers t = []
  · rw [hb, List.append_nil] at h1; exact h1
  · exfalso
    apply h2
    obtain ⟨c, hc, hcc⟩ := h
    refine ⟨c, ?_, hcc⟩
    rw [← h1, List.getLast?_append_of_ne_nil _ hb] at hc
    exact hc

example : (runActs [.put 1 "ab".toList, .put 2 "x\n".toList, .put 1 "c\n".toList, .putc 2 'z']).out =
    [(2, "x\n".toList), (1, "abc\n".toList)] := by decide

end VW.Log
