import Verif.MatText.Model
/-
C169: matrices in text files.
-/
namespace VW.MatText

/-- What is asked of the number format, for the values `ok`: a printed number is not empty and has no blanks, and it is read
back as it was, whatever blank or end follows. -/
structure Faithful {V : Type} (k : Codec V) (ok : V → Prop) : Prop where
  nonempty : ∀ v, ok v → k.print v ≠ []
  noBlank : ∀ v, ok v → ∀ c ∈ k.print v, isBlank c = false
  back : ∀ v, ok v → ∀ rest, (∀ c, rest.head? = some c → isBlank c = true) → k.scan (k.print v ++ rest) = some (v, rest)
  atEnd : k.scan [] = none

/-- The text of one row, with its line end. -/
def rowText {V : Type} (k : Codec V) : List V → List Char
  | [] => []
  | [v] => k.print v
  | v :: w :: vs => k.print v ++ ' ' :: rowText k (w :: vs)

/-- The values of a row. -/
def rowVals {V : Type} (m : Mat V) (row : Nat) : List V := (List.range m.cols).map (m.get row)

theorem rangeFlat {V : Type} (k : Codec V) (f : Nat → V) (n : Nat) : ∀ a : Nat,
    (List.range' a (n + 1)).flatMap (fun col => k.print (f col) ++ (if col + 1 < a + (n + 1) then [' '] else ['\n'])) =
      rowText k ((List.range' a (n + 1)).map f) ++ ['\n'] := by
  induction n with
  | zero => intro a; simp [List.range', rowText]
  | succ n ih =>
    intro a
    rw [show List.range' a (n + 1 + 1) = a :: List.range' (a + 1) (n + 1) from rfl]
    rw [List.flatMap_cons, List.map_cons, show List.range' (a + 1) (n + 1) = (a + 1) :: List.range' (a + 1 + 1) n from rfl,
      List.map_cons, rowText, if_pos (by omega), List.append_assoc, List.append_assoc]
    have e := ih (a + 1)
    rw [show a + 1 + (n + 1) = a + (n + 1 + 1) by omega] at e
    rw [show List.range' (a + 1) (n + 1) = (a + 1) :: List.range' (a + 1 + 1) n from rfl, List.map_cons] at e
    rw [List.cons_append, e]
    simp only [List.cons_append, List.nil_append]

theorem write_eq {V : Type} (k : Codec V) (m : Mat V) (hc : 0 < m.cols) :
    write k m = (List.range m.rows).flatMap fun row => rowText k (rowVals m row) ++ ['\n'] := by
  unfold write
  congr 1
  funext row
  obtain ⟨n, hn⟩ : ∃ n, m.cols = n + 1 := ⟨m.cols - 1, by omega⟩
  have := rangeFlat k (m.get row) n 0
  rw [Nat.zero_add] at this
  rw [rowVals, hn, List.range_eq_range']
  exact this

theorem lines_append (l : List Char) (hl : '\n' ∉ l) (rest : List Char) :
    lines (l ++ '\n' :: rest) = l :: lines rest := by
  induction l with
  | nil => rw [List.nil_append, lines, if_pos rfl]
  | cons c cs ih =>
    have h1 : c ≠ '\n' := fun e => hl (by rw [e]; exact List.mem_cons_self)
    have h2 : '\n' ∉ cs := fun e => hl (List.mem_cons_of_mem _ e)
    rw [List.cons_append, lines, if_neg h1, ih h2, onFirst]

theorem lines_flat {α : Type} (f : α → List Char) (hf : ∀ a, '\n' ∉ f a) (xs : List α) :
    lines (xs.flatMap fun a => f a ++ ['\n']) = xs.map f := by
  induction xs with
  | nil => rfl
  | cons a xs ih =>
    rw [List.flatMap_cons, List.append_assoc, List.singleton_append, lines_append _ (hf a), ih, List.map_cons]

theorem rowText_noNewline {V : Type} {k : Codec V} {ok : V → Prop} (h : Faithful k ok) (vs : List V) (hv : ∀ v ∈ vs, ok v) :
    '\n' ∉ rowText k vs := by
  have hp : ∀ v, ok v → '\n' ∉ k.print v := fun v hv hm => by
    have := h.noBlank v hv _ hm; revert this; decide
  induction vs with
  | nil => exact List.not_mem_nil
  | cons v ws ih =>
    cases ws with
    | nil => exact hp v (hv v List.mem_cons_self)
    | cons w ws =>
      rw [rowText]
      intro hm
      rcases List.mem_append.mp hm with h1 | h1
      · exact hp v (hv v List.mem_cons_self) h1
      · rcases List.mem_cons.mp h1 with h2 | h2
        · revert h2; decide
        · exact ih (fun x hx => hv x (List.mem_cons_of_mem _ hx)) h2

theorem dropBlank_print {V : Type} {k : Codec V} {ok : V → Prop} (h : Faithful k ok) (v : V) (hv : ok v) (rest : List Char) :
    (k.print v ++ rest).dropWhile isBlank = k.print v ++ rest := by
  have h1 := h.nonempty v hv
  have h2 := h.noBlank v hv
  generalize k.print v = p at h1 h2
  cases p with
  | nil => exact absurd rfl h1
  | cons c cs => rw [List.cons_append, List.dropWhile_cons, h2 c List.mem_cons_self]; rfl

theorem scanAll_rowText {V : Type} {k : Codec V} {ok : V → Prop} (h : Faithful k ok) (vs : List V) (hv : ∀ v ∈ vs, ok v) :
    ∀ n, vs.length ≤ n → scanAll k n (rowText k vs) = vs ∧ scanAll k n (' ' :: rowText k vs) = vs := by
  induction vs with
  | nil =>
    intro n _
    cases n with
    | zero => exact ⟨rfl, rfl⟩
    | succ n =>
      constructor <;> simp [scanAll, rowText, isBlank, h.atEnd]
  | cons v ws ih =>
    intro n hn
    cases n with
    | zero => simp at hn
    | succ n =>
      have hw : ∀ x ∈ ws, ok x := fun x hx => hv x (List.mem_cons_of_mem _ hx)
      have hok := hv v List.mem_cons_self
      have hn' : ws.length ≤ n := by simpa using hn
      have e : ∀ s, s.dropWhile isBlank = rowText k (v :: ws) → scanAll k (n + 1) s = v :: ws := by
        intro s hs
        rw [scanAll, hs]
        cases ws with
        | nil =>
          have b := h.back v hok [] (by simp)
          rw [List.append_nil] at b
          rw [rowText, b]
          have := (ih hw n hn').1
          rw [rowText] at this
          dsimp only
          rw [this]
        | cons w ws =>
          rw [rowText, h.back v hok _ (by intro c hc; simp at hc; rw [← hc]; decide)]
          dsimp only
          rw [(ih hw n hn').2]
      have d : (rowText k (v :: ws)).dropWhile isBlank = rowText k (v :: ws) := by
        cases ws with
        | nil => have := dropBlank_print h v hok []; rwa [List.append_nil] at this
        | cons w ws => exact dropBlank_print h v hok _
      exact ⟨e _ d, e _ (by rw [List.dropWhile_cons, if_pos (by decide)]; exact d)⟩

theorem rowText_length {V : Type} {k : Codec V} {ok : V → Prop} (h : Faithful k ok) (vs : List V) (hv : ∀ v ∈ vs, ok v) :
    vs.length ≤ (rowText k vs).length := by
  have hp : ∀ v, ok v → 0 < (k.print v).length := fun v hv => List.length_pos_iff.mpr (h.nonempty v hv)
  induction vs with
  | nil => exact Nat.le_refl _
  | cons v ws ih =>
    have h1 := hp v (hv v List.mem_cons_self)
    cases ws with
    | nil => rw [rowText, List.length_singleton]; exact h1
    | cons w ws =>
      have h2 := ih (fun x hx => hv x (List.mem_cons_of_mem _ hx))
      rw [rowText, List.length_append]
      simp only [List.length_cons] at h2 ⊢
      omega

/-- All the values of the matrix are printed so that they can be read. -/
def Mat.AllOk {V : Type} (m : Mat V) (ok : V → Prop) : Prop := ∀ r, r < m.rows → ∀ c, c < m.cols → ok (m.get r c)

/-- The two matrices have the same size and values. -/
def Mat.Same {V : Type} (a b : Mat V) : Prop :=
  a.rows = b.rows ∧ a.cols = b.cols ∧ ∀ r, r < a.rows → ∀ c, c < a.cols → a.get r c = b.get r c

theorem readRows_write {V : Type} {k : Codec V} {ok : V → Prop} (h : Faithful k ok) (m : Mat V) (hc : 0 < m.cols)
    (hm : m.AllOk ok) : readRows k (write k m) = (List.range m.rows).map (rowVals m) := by
  have hv : ∀ r ∈ List.range m.rows, ∀ v ∈ rowVals m r, ok v := by
    intro r hr v hv
    unfold rowVals at hv
    rw [List.mem_map] at hv
    obtain ⟨c, hc, rfl⟩ := hv
    exact hm r (List.mem_range.mp hr) c (List.mem_range.mp hc)
  rw [readRows, write_eq k m hc]
  generalize List.range m.rows = rs at hv
  induction rs with
  | nil => rfl
  | cons r rs ih =>
    have h0 := hv r List.mem_cons_self
    rw [List.flatMap_cons, List.append_assoc, List.singleton_append, lines_append _ (rowText_noNewline h _ h0), List.map_cons,
      List.map_cons, ih (fun x hx => hv x (List.mem_cons_of_mem _ hx)),
      (scanAll_rowText h _ h0 _ (rowText_length h _ h0)).1]

/-- **C169 (written and read)**: every matrix with at least one row and one column, of values that the number format reads
back, is read from its file as it was. -/
theorem read_write_partial {V : Type} {k : Codec V} {ok : V → Prop} (h : Faithful k ok) (dflt : V) (m : Mat V)
    (hr : 0 < m.rows) (hc : 0 < m.cols) (hm : m.AllOk ok) : ∃ m', read k dflt (write k m) = some m' ∧ m.Same m' := by
  have e := readRows_write h m hc hm
  obtain ⟨n, hn⟩ : ∃ n, m.rows = n + 1 := ⟨m.rows - 1, by omega⟩
  have hl : ∀ r, (rowVals m r).length = m.cols := by intro r; simp [rowVals]
  unfold read
  rw [e]
  have hs : (List.range m.rows).map (rowVals m) = rowVals m 0 :: ((List.range n).map Nat.succ).map (rowVals m) := by
    rw [hn, List.range_succ_eq_map, List.map_cons]
  have hlen : (rowVals m 0 :: ((List.range n).map Nat.succ).map (rowVals m)).length = m.rows := by
    rw [← hs]; simp
  have hget : ∀ r, r < m.rows → ∀ c, c < m.cols → ∀ d,
      ((rowVals m 0 :: ((List.range n).map Nat.succ).map (rowVals m)).getD r []).getD c d = m.get r c := by
    intro r hr c hc d
    rw [← hs]
    simp [List.getD_eq_getElem?_getD, rowVals, hr, hc]
  rw [hs]
  dsimp only
  rw [if_pos (by simp [hl])]
  refine ⟨_, rfl, ?_, ?_, ?_⟩
  · exact hlen.symm
  · exact (hl 0).symm
  · intro r hr c hc
    exact (hget r hr c hc dflt).symm

/-- **C169 (what is accepted)**: a file is read exactly if it has a line and all lines have as many numbers as the first;
then the matrix has a row for each line with the numbers of that line. -/
theorem read_spec {V : Type} (k : Codec V) (dflt : V) (file : List Char) :
    (file = [] → read k dflt file = none) ∧
    (∀ m, read k dflt file = some m → m.rows = (lines file).length ∧ 0 < m.rows ∧
      ∀ r, r < m.rows → ∃ line, (lines file)[r]? = some line ∧ (scanAll k line.length line).length = m.cols ∧
        ∀ c, c < m.cols → (scanAll k line.length line)[c]? = some (m.get r c)) ∧
    (file ≠ [] → (∃ n, ∀ line ∈ lines file, (scanAll k line.length line).length = n) → ∃ m, read k dflt file = some m) := by
  have hne : file ≠ [] → lines file ≠ [] := by
    intro h
    cases file with
    | nil => exact absurd rfl h
    | cons c cs =>
      rw [lines]
      split
      · exact List.cons_ne_nil _ _
      · cases lines cs <;> simp [onFirst]
  refine ⟨?_, ?_, ?_⟩
  · intro h; rw [h]; rfl
  · intro m hm
    unfold read readRows at hm
    generalize hL : lines file = L at hm ⊢
    cases L with
    | nil => simp at hm
    | cons l ls =>
      rw [List.map_cons] at hm
      dsimp only at hm
      by_cases hall : (ls.map fun line => scanAll k line.length line).all
          (fun r => (scanAll k l.length l).length == r.length) = true
      · rw [if_pos hall] at hm
        have hm' := Option.some.inj hm
        subst hm'
        refine ⟨by simp, by simp, ?_⟩
        intro r hr
        have hr' : r < (l :: ls).length := by simpa using hr
        have hlen : (scanAll k (l :: ls)[r].length (l :: ls)[r]).length = (scanAll k l.length l).length := by
          cases r with
          | zero => rfl
          | succ r =>
            rw [List.all_eq_true] at hall
            have := hall (scanAll k (l :: ls)[r + 1].length (l :: ls)[r + 1]) (by
              rw [List.mem_map]
              exact ⟨_, by rw [List.getElem_cons_succ]; exact List.getElem_mem _, rfl⟩)
            simpa using (beq_iff_eq.mp this).symm
        refine ⟨(l :: ls)[r], List.getElem?_eq_getElem hr', hlen, ?_⟩
        intro c hc
        have hc' : c < (scanAll k (l :: ls)[r].length (l :: ls)[r]).length := by rw [hlen]; exact hc
        have hmap : (scanAll k l.length l :: ls.map fun line => scanAll k line.length line) =
            (l :: ls).map fun line => scanAll k line.length line := rfl
        dsimp only
        rw [hmap]
        rw [List.getElem?_eq_getElem hc']
        have e1 : (((l :: ls).map fun line => scanAll k line.length line).getD r []) =
            scanAll k (l :: ls)[r].length (l :: ls)[r] := by
          rw [List.getD_eq_getElem?_getD, List.getElem?_map, List.getElem?_eq_getElem hr']; rfl
        rw [e1, List.getD_eq_getElem?_getD, List.getElem?_eq_getElem hc']; rfl
      · rw [if_neg hall] at hm
        exact absurd hm (by simp)
  · intro hf ⟨n, hn⟩
    have hL := hne hf
    unfold read readRows
    generalize lines file = L at hn hL
    cases L with
    | nil => exact absurd rfl hL
    | cons l ls =>
      rw [List.map_cons]
      dsimp only
      rw [if_pos]
      · exact ⟨_, rfl⟩
      · rw [List.all_eq_true]
        intro r hr
        obtain ⟨line, hl, rfl⟩ := List.mem_map.mp hr
        rw [hn l List.mem_cons_self, hn line (List.mem_cons_of_mem _ hl)]
        exact beq_self_eq_true _

/-- **Discrepancy**: a matrix without rows or without columns cannot be read back. -/
theorem empty_lost {V : Type} (k : Codec V) (dflt : V) (m : Mat V) (h : m.rows = 0 ∨ m.cols = 0) :
    read k dflt (write k m) = none := by
  have : write k m = [] := by
    unfold write
    rcases h with h | h
    · rw [h]; rfl
    · rw [h]; simp
  rw [this]; rfl

/-- **Discrepancy**: if a printed value is not read back as a number (as `nan` and `inf` are not), a matrix of one row with
this value first is read as a matrix without columns, and no exception is thrown. -/
theorem nan_lost {V : Type} (k : Codec V) (dflt v : V) (hp : k.print v ≠ []) (hb : ∀ c ∈ k.print v, isBlank c = false)
    (hs : k.scan (k.print v) = none) :
    ∃ m', read k dflt (write k ⟨1, 1, fun _ _ => v⟩) = some m' ∧ m'.rows = 1 ∧ m'.cols = 0 := by
  have hw : write k (⟨1, 1, fun _ _ => v⟩ : Mat V) = k.print v ++ ['\n'] := by
    simp [write, List.range, List.range.loop]
  have hnl : '\n' ∉ k.print v := fun hm => by have := hb _ hm; revert this; decide
  have hd : (k.print v).dropWhile isBlank = k.print v := by
    generalize k.print v = p at hp hb
    cases p with
    | nil => exact absurd rfl hp
    | cons c cs => rw [List.dropWhile_cons, hb c List.mem_cons_self]; rfl
  have hr : readRows k (write k (⟨1, 1, fun _ _ => v⟩ : Mat V)) = [[]] := by
    rw [readRows, hw, lines_append _ hnl]
    have : scanAll k (k.print v).length (k.print v) = [] := by
      cases hn : (k.print v).length with
      | zero => rfl
      | succ n => rw [scanAll, hd, hs]
    simp [lines, this]
  unfold read
  rw [hr]
  exact ⟨_, rfl, rfl, rfl⟩

/-- **Discrepancy**: a blank line at the end of a file makes it unreadable. -/
theorem blank_line {V : Type} {k : Codec V} {ok : V → Prop} (h : Faithful k ok) (dflt : V) (m : Mat V) (hr : 0 < m.rows)
    (hc : 0 < m.cols) (hm : m.AllOk ok) : read k dflt (write k m ++ ['\n']) = none := by
  have key : ∀ rs : List Nat, (∀ r ∈ rs, ∀ v ∈ rowVals m r, ok v) →
      readRows k ((rs.flatMap fun row => rowText k (rowVals m row) ++ ['\n']) ++ ['\n']) = rs.map (rowVals m) ++ [[]] := by
    intro rs hv
    induction rs with
    | nil => rfl
    | cons r rs ih =>
      have h0 := hv r List.mem_cons_self
      have ih' := ih (fun x hx => hv x (List.mem_cons_of_mem _ hx))
      unfold readRows at ih' ⊢
      rw [List.flatMap_cons, List.append_assoc, List.append_assoc, List.singleton_append,
        lines_append _ (rowText_noNewline h _ h0), List.map_cons, ih', List.map_cons, List.cons_append,
        (scanAll_rowText h _ h0 _ (rowText_length h _ h0)).1]
  have hv : ∀ r ∈ List.range m.rows, ∀ v ∈ rowVals m r, ok v := by
    intro r hr v hv
    unfold rowVals at hv
    rw [List.mem_map] at hv
    obtain ⟨c, hc, rfl⟩ := hv
    exact hm r (List.mem_range.mp hr) c (List.mem_range.mp hc)
  have e := key _ hv
  rw [← write_eq k m hc] at e
  obtain ⟨n, hn⟩ : ∃ n, m.rows = n + 1 := ⟨m.rows - 1, by omega⟩
  unfold read
  rw [e, hn, List.range_succ_eq_map, List.map_cons, List.cons_append]
  dsimp only
  rw [if_neg]
  intro hall
  rw [List.all_eq_true] at hall
  have := hall [] (List.mem_append.mpr (Or.inr List.mem_cons_self))
  have hl : (rowVals m 0).length = m.cols := by simp [rowVals]
  rw [hl] at this
  have := beq_iff_eq.mp this
  simp at this
  omega

/-- **C169 (matrices as images)**: a matrix turned into an image and back is the matrix; images of more planes throw. -/
theorem image_back {V : Type} (m : Mat V) :
    (∃ m', fromImage (toImage m) = some m' ∧ m.Same m') ∧
    (toImage m).cols = m.cols ∧ (toImage m).rows = m.rows ∧
    (∀ i, i < m.cols → ∀ j, j < m.rows → (toImage m).px i j = m.get j i) ∧
    ∀ b : Img V, fromImage b = none ↔ b.planes ≠ 1 := by
  refine ⟨⟨_, rfl, rfl, rfl, fun _ _ _ _ => rfl⟩, rfl, rfl, fun _ _ _ _ => rfl, ?_⟩
  intro b
  unfold fromImage
  by_cases h : b.planes = 1
  · rw [if_pos h]; simp [h]
  · rw [if_neg h]; simp [h]

/-- A number format of one character: digits. -/
def digits : Codec Nat where
  print v := [Char.ofNat (48 + v)]
  scan
    | [] => none
    | c :: cs => if 48 ≤ c.toNat ∧ c.toNat ≤ 57 then some (c.toNat - 48, cs) else none

theorem digits_faithful : Faithful digits (· < 10) where
  nonempty := by intro v _; simp [digits]
  noBlank := by
    intro v hv
    have : ∀ v : Fin 10, ∀ c ∈ digits.print v.val, isBlank c = false := by decide
    exact this ⟨v, hv⟩
  back := by
    intro v hv rest _
    have : ∀ v : Fin 10, (48 ≤ (Char.ofNat (48 + v.val)).toNat ∧ (Char.ofNat (48 + v.val)).toNat ≤ 57) ∧
      (Char.ofNat (48 + v.val)).toNat - 48 = v.val := by decide
    have h := this ⟨v, hv⟩
    dsimp only at h
    simp only [digits, List.cons_append, List.nil_append]
    rw [if_pos h.1, h.2]
  atEnd := rfl

/-- The hypotheses of the theorems are met: a matrix of two rows and three columns. -/
example : ∃ m', read digits 0 (write digits ⟨2, 3, fun r c => 3 * r + c⟩) = some m' ∧
    Mat.Same ⟨2, 3, fun r c => 3 * r + c⟩ m' :=
  read_write_partial digits_faithful 0 _ (by decide) (by decide) (by intro r hr c hc; dsimp only at *; omega)

/-- … and its text. -/
example : write digits ⟨2, 3, fun r c => 3 * r + c⟩ = "0 1 2\n3 4 5\n".toList := by decide

example : (read digits 0 "0 1\n2\n".toList).isNone = true := by decide

/-- A value that is not a digit is printed as `:` and not read. -/
example : ∃ m', read digits 0 (write digits ⟨1, 1, fun _ _ => 10⟩) = some m' ∧ m'.rows = 1 ∧ m'.cols = 0 :=
  nan_lost digits 0 10 (by simp [digits]) (by decide) (by decide)

end VW.MatText
