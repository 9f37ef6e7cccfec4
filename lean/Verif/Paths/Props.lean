import Verif.Paths.Model
/-
C170: paths and lists of files.
-/
namespace VW.Paths

/-- One step of following a path from a directory (given from the root): ".." goes up (and stays at the root), "." stays. -/
def follow1 (at' : List String) (e : String) : List String :=
  if e = ".." then at'.dropLast else if e = "." then at' else at' ++ [e]

/-- Following the elements of a path, without symbolic links. -/
def follow (at' : List String) (es : List String) : List String := es.foldl follow1 at'

/-- The place that a path means when the current directory is `cwd`. -/
def place (cwd : List String) (p : Path) : List String := follow (if p.root then [] else cwd) p.elems

/-- A directory name without "." and "..". -/
def Plain (es : List String) : Prop := ∀ e ∈ es, e ≠ ".." ∧ e ≠ "."

theorem follow_append (a x y : List String) : follow a (x ++ y) = follow (follow a x) y := List.foldl_append

theorem follow_plain (a es : List String) (h : Plain es) : follow a es = a ++ es := by
  induction es generalizing a with
  | nil => simp [follow]
  | cons e es ih =>
    have h1 := h e List.mem_cons_self
    have : follow a (e :: es) = follow (follow1 a e) es := rfl
    rw [this, follow1, if_neg h1.1, if_neg h1.2, ih _ (fun x hx => h x (List.mem_cons_of_mem _ hx)), List.append_assoc]
    rfl

theorem follow_up (a ds : List String) : follow (a ++ ds) (ds.map fun _ => "..") = a := by
  have key : ∀ (n : Nat) (ds : List String), ds.length = n → ∀ a, follow (a ++ ds) (List.replicate n "..") = a := by
    intro n
    induction n with
    | zero =>
      intro ds h a
      rw [List.length_eq_zero_iff.mp h]; simp [follow]
    | succ n ih =>
      intro ds h a
      have hne : ds ≠ [] := by intro e; rw [e] at h; simp at h
      have e : follow (a ++ ds) (List.replicate (n + 1) "..") = follow (a ++ ds).dropLast (List.replicate n "..") := rfl
      rw [e, List.dropLast_append_of_ne_nil hne]
      exact ih _ (by rw [List.length_dropLast, h]; rfl) a
  rw [List.map_const']
  exact key _ ds rfl a

theorem skipCommon_spec (f d : List String) : ∃ c, f = c ++ (skipCommon f d).1 ∧ d = c ++ (skipCommon f d).2 := by
  induction f generalizing d with
  | nil => exact ⟨[], by cases d <;> rfl, by cases d <;> rfl⟩
  | cons x xs ih =>
    cases d with
    | nil => exact ⟨[], rfl, rfl⟩
    | cons y ys =>
      rw [skipCommon]
      by_cases h : x ≠ y
      · rw [if_pos h]; exact ⟨[], rfl, rfl⟩
      · rw [if_neg h]
        obtain ⟨c, h1, h2⟩ := ih ys
        have h' : x = y := Classical.not_not.mp h
        exact ⟨x :: c, by rw [List.cons_append, ← h1], by rw [List.cons_append, ← h2, h']⟩

theorem relToRel_follow (a f d : List String) (hd : Plain d) : follow (a ++ d) (relToRel f d) = follow a f := by
  obtain ⟨c, h1, h2⟩ := skipCommon_spec f d
  unfold relToRel
  dsimp only
  generalize (skipCommon f d).1 = f' at h1
  generalize (skipCommon f d).2 = d' at h2
  have hc : Plain c := fun e he => hd e (by rw [h2]; exact List.mem_append.mpr (Or.inl he))
  rw [h1, follow_append, follow_append, h2, ← List.append_assoc, follow_up, follow_plain a c hc]

/-- **C170 (relative paths)**: for every file and every directory without "." and "..", in every current directory, the path
given back, followed from the directory, leads to the file. -/
theorem makeRelative_spec_partial (cwd : List String) (file dir : Path) (hd : Plain dir.elems) (hcwd : Plain cwd) :
    place (place cwd dir) (makeRelative cwd file dir) = place cwd file := by
  unfold makeRelative place
  cases hf : file.root <;> cases hr : dir.root <;> simp only [Path.relative, Path.absolute, hf, ne_eq, not_true_eq_false,
    if_true, if_false, reduceCtorEq, not_false_eq_true, Bool.false_eq_true, Bool.true_eq_false]
  · rw [follow_plain cwd _ hd, relToRel_follow _ _ _ hd]
  · have e := relToRel_follow [] (cwd ++ file.elems) dir.elems hd
    rw [follow_plain _ _ hd, e, follow_append, follow_plain _ _ hcwd, List.nil_append]
  · rw [follow_plain [] _ hd, relToRel_follow _ _ _ hd]

/-- **C170 (shortest)**: with both paths relative, the first elements that agree are left out and for each other element of the
directory there is one "..": a file in the directory is given back as its path from there. -/
theorem makeRelative_inside (cwd : List String) (r : Bool) (d f : List String) :
    makeRelative cwd ⟨r, d ++ f⟩ ⟨r, d⟩ = ⟨false, f⟩ := by
  have h : ∀ d f : List String, relToRel (d ++ f) d = f := by
    intro d f
    have : skipCommon (d ++ f) d = (f, []) := by
      induction d with
      | nil => cases f <;> rfl
      | cons x xs ih => rw [List.cons_append, skipCommon, if_neg (fun e => e rfl), ih]
    rw [relToRel, this]; rfl
  unfold makeRelative
  cases r
  · simp [h]
  · simp [Path.relative, h]

/-- **Discrepancy**: the result is wrong for directories with "..", with ".", and with a slash at the end. -/
theorem dir_wrong :
    place (place ["home", "me"] ⟨false, [".."]⟩) (makeRelative ["home", "me"] ⟨false, ["f"]⟩ ⟨false, [".."]⟩) ≠
      place ["home", "me"] ⟨false, ["f"]⟩ ∧
    place (place ["home", "me"] ⟨false, [".", "x"]⟩)
        (makeRelative ["home", "me"] ⟨false, ["x", "f"]⟩ ⟨false, [".", "x"]⟩) ≠ place ["home", "me"] ⟨false, ["x", "f"]⟩ ∧
    place (place ["home", "me"] ⟨false, ["x", "."]⟩)
        (makeRelative ["home", "me"] ⟨false, ["x", "f"]⟩ ⟨false, ["x", "."]⟩) ≠ place ["home", "me"] ⟨false, ["x", "f"]⟩ := by
  decide

/-- The hypotheses are met: "/data/in/f" from "/data/out/run" is "../../in/f". -/
example : makeRelative ["home"] ⟨true, ["data", "in", "f"]⟩ ⟨true, ["data", "out", "run"]⟩ =
    ⟨false, ["..", "..", "in", "f"]⟩ ∧ Plain ["data", "out", "run"] ∧ Plain ["home"] :=
  ⟨by decide, by unfold Plain; decide, by unfold Plain; decide⟩

theorem rfindDot_some (s : List Char) (i : Nat) (h : rfindDot s = some i) :
    ∃ a b, s = a ++ '.' :: b ∧ a.length = i ∧ '.' ∉ b := by
  induction s generalizing i with
  | nil => exact absurd h (by simp [rfindDot])
  | cons c cs ih =>
    rw [rfindDot] at h
    cases hr : rfindDot cs with
    | some j =>
      rw [hr] at h
      obtain ⟨a, b, e, hl, hb⟩ := ih j hr
      exact ⟨c :: a, b, by rw [e]; rfl, by rw [← Option.some.inj h, List.length_cons, hl], hb⟩
    | none =>
      rw [hr] at h
      dsimp only at h
      have hn : '.' ∉ cs := by
        clear ih h
        induction cs with
        | nil => exact List.not_mem_nil
        | cons d ds ih2 =>
          rw [rfindDot] at hr
          cases hd : rfindDot ds with
          | some j => rw [hd] at hr; simp at hr
          | none =>
            rw [hd] at hr
            dsimp only at hr
            by_cases hc : d = '.'
            · rw [if_pos hc] at hr; simp at hr
            · intro hm
              rcases List.mem_cons.mp hm with h1 | h1
              · exact hc h1.symm
              · exact ih2 hd h1
      by_cases hc : c = '.'
      · rw [if_pos hc] at h
        exact ⟨[], cs, by rw [hc]; rfl, by rw [← Option.some.inj h]; rfl, hn⟩
      · rw [if_neg hc] at h; exact absurd h (by simp)

theorem rfindDot_none (s : List Char) : rfindDot s = none ↔ '.' ∉ s := by
  constructor
  · intro h hm
    induction s with
    | nil => exact absurd hm List.not_mem_nil
    | cons c cs ih =>
      rw [rfindDot] at h
      cases hr : rfindDot cs with
      | some j => rw [hr] at h; simp at h
      | none =>
        rw [hr] at h
        dsimp only at h
        by_cases hc : c = '.'
        · rw [if_pos hc] at h; simp at h
        · rcases List.mem_cons.mp hm with h1 | h1
          · exact hc h1.symm
          · exact ih hr h1
  · intro h
    cases hr : rfindDot s with
    | none => rfl
    | some i =>
      obtain ⟨a, b, e, _, _⟩ := rfindDot_some s i hr
      exact absurd (by rw [e]; exact List.mem_append.mpr (Or.inr List.mem_cons_self)) h

/-- **C170 (prefix)**: the last dot and what follows is left out; names without a dot stay. So "name.ext" gives "name" for
every extension without a dot. -/
theorem prefix_spec_partial :
    (∀ a b : List Char, '.' ∉ b → prefixFromFilename (a ++ '.' :: b) = a) ∧
    ∀ s : List Char, '.' ∉ s → prefixFromFilename s = s := by
  constructor
  · intro a b hb
    unfold prefixFromFilename
    cases hr : rfindDot (a ++ '.' :: b) with
    | none =>
      exact absurd (List.mem_append.mpr (Or.inr List.mem_cons_self)) ((rfindDot_none _).mp hr)
    | some i =>
      obtain ⟨a', b', e, hl, hb'⟩ := rfindDot_some _ i hr
      dsimp only
      have : a = a' := by
        rcases List.append_eq_append_iff.mp e with ⟨c, h1, h2⟩ | ⟨c, h1, h2⟩
        · cases c with
          | nil => rw [h1, List.append_nil]
          | cons x xs =>
            have := (List.cons.inj h2).2
            exact absurd (by rw [this]; exact List.mem_append.mpr (Or.inr List.mem_cons_self)) hb
        · cases c with
          | nil => rw [h1, List.append_nil]
          | cons x xs =>
            have := (List.cons.inj h2).2
            exact absurd (by rw [this]; exact List.mem_append.mpr (Or.inr List.mem_cons_self)) hb'
      rw [← hl, ← this, List.take_left]
  · intro s hs
    unfold prefixFromFilename
    rw [(rfindDot_none s).mpr hs]

/-- **Discrepancy**: the dot may be one of a directory: "run.1/img" gives "run". -/
theorem prefix_dir : prefixFromFilename "run.1/img".toList = "run".toList := by decide

/-- **C170 (files with a prefix)**: if the prefix is no directory itself, the files given back are exactly the regular files of
its folder whose names start with the last part of the prefix. -/
theorem filesWithPrefix_spec_partial (fs : Fs) (r : Bool) (dir : List String) (name : String)
    (hp : fs.isDir ⟨r, dir ++ [name]⟩ = false) (q : Path) :
    q ∈ filesWithPrefix fs ⟨r, dir ++ [name]⟩ ↔
      fs.isDir ⟨r, dir⟩ = true ∧ ∃ f, q = ⟨r, dir ++ [f]⟩ ∧ (f, true) ∈ fs.entries ⟨r, dir⟩ ∧ name.toList <+: f.toList := by
  unfold filesWithPrefix getFolder filesInFolder
  simp only [hp, Bool.false_eq_true, if_false, List.dropLast_concat]
  by_cases hd : fs.isDir ⟨r, dir⟩ = true
  · rw [if_neg (fun h => h hd)]
    constructor
    · intro h
      obtain ⟨f, hf, rfl⟩ := List.mem_map.mp h
      obtain ⟨h1, h2⟩ := List.mem_filter.mp hf
      obtain ⟨⟨g, b⟩, h3, rfl⟩ := List.mem_map.mp h1
      obtain ⟨h4, h5⟩ := List.mem_filter.mp h3
      refine ⟨hd, g, rfl, ?_, ?_⟩
      · dsimp only at h5; rw [← h5]; exact h4
      · simpa using h2
    · rintro ⟨_, f, rfl, h1, h2⟩
      refine List.mem_map.mpr ⟨f, List.mem_filter.mpr ⟨List.mem_map.mpr ⟨(f, true), List.mem_filter.mpr ⟨h1, rfl⟩, rfl⟩, ?_⟩, rfl⟩
      simpa using h2
  · rw [if_pos hd]
    constructor
    · intro h; simp at h
    · rintro ⟨h, _⟩; exact absurd h hd

/-- **Discrepancy**: if the prefix names a directory too, only files inside of that directory are found: with "out/run" a
directory, "out/run-1.tif" is not found, although it starts with the prefix. -/
theorem prefix_is_dir :
    ∃ fs : Fs, ("run-1.tif", true) ∈ fs.entries ⟨false, ["out"]⟩ ∧ fs.isDir ⟨false, ["out"]⟩ = true ∧
      filesWithPrefix fs ⟨false, ["out", "run"]⟩ = [] :=
  ⟨⟨fun p => p.elems = ["out"] || p.elems = ["out", "run"],
    fun p => if p.elems = ["out"] then [("run", false), ("run-1.tif", true)] else []⟩, by decide, by decide, by decide⟩

example : ∃ fs : Fs, fs.isDir ⟨false, ["out"] ++ ["run"]⟩ = false ∧
    filesWithPrefix fs ⟨false, ["out"] ++ ["run"]⟩ = [⟨false, ["out", "run-1.tif"]⟩] :=
  ⟨⟨fun p => p.elems = ["out"], fun p => if p.elems = ["out"] then [("log", true), ("run-1.tif", true)] else []⟩,
    by decide, by decide⟩

theorem extLoop_keep {S : Type} (hasExt : S → Bool) : ∀ (n : Nat) (pre post found : List S), post.length < n →
    extLoop hasExt false n pre.length (pre ++ post) found = (found ++ post.filter hasExt, pre ++ post) := by
  intro n
  induction n with
  | zero => intro pre post found h; omega
  | succ n ih =>
    intro pre post found h
    rw [extLoop]
    cases post with
    | nil => simp
    | cons f fs =>
      have e : (pre ++ f :: fs)[pre.length]? = some f := by simp
      have hl : fs.length < n := by simp at h; omega
      rw [e]
      dsimp only
      have step := fun fd => ih (pre ++ [f]) fs fd hl
      simp only [List.length_append, List.length_singleton, List.append_assoc, List.singleton_append] at step
      by_cases hf : hasExt f = true
      · rw [if_pos hf, if_neg (by simp), step, List.filter_cons, if_pos hf, List.append_assoc]; rfl
      · rw [if_neg hf, step, List.filter_cons, if_neg hf]

theorem extLoop_prune {S : Type} (hasExt : S → Bool) : ∀ (n : Nat) (pre post found : List S), post.length < n →
    extLoop hasExt true n pre.length (pre ++ post) found =
      (found ++ post.filter hasExt, pre ++ post.filter fun f => !hasExt f) := by
  intro n
  induction n with
  | zero => intro pre post found h; omega
  | succ n ih =>
    intro pre post found h
    rw [extLoop]
    cases post with
    | nil => simp
    | cons f fs =>
      have e : (pre ++ f :: fs)[pre.length]? = some f := by simp
      have hl : fs.length < n := by simp at h; omega
      rw [e]
      dsimp only
      by_cases hf : hasExt f = true
      · rw [if_pos hf, if_pos rfl, List.eraseIdx_append_of_length_le (Nat.le_refl _), Nat.sub_self, List.eraseIdx_cons_zero,
          ih pre fs _ hl, List.filter_cons, if_pos hf, List.filter_cons, if_neg (by simp [hf]), List.append_assoc]; rfl
      · have step := ih (pre ++ [f]) fs found hl
        simp only [List.length_append, List.length_singleton, List.append_assoc, List.singleton_append] at step
        rw [if_neg hf, step, List.filter_cons, if_neg hf, List.filter_cons, if_pos (by simp [hf])]

/-- **C170 (files by extension)**: the files with the extension are given back in order; when asked to, exactly these are
removed from the list, and otherwise the list stays. -/
theorem filesWithExt_spec {S : Type} (hasExt : S → Bool) (prune : Bool) (files : List S) :
    (filesWithExt hasExt prune files).1 = files.filter hasExt ∧
    (filesWithExt hasExt prune files).2 = if prune then files.filter (fun f => !hasExt f) else files := by
  unfold filesWithExt
  cases prune
  · have := extLoop_keep hasExt (files.length + 1) [] files [] (by omega)
    simp only [List.length_nil, List.nil_append] at this
    rw [this]; exact ⟨rfl, rfl⟩
  · have := extLoop_prune hasExt (files.length + 1) [] files [] (by omega)
    simp only [List.length_nil, List.nil_append] at this
    rw [this]; exact ⟨rfl, rfl⟩

example : filesWithExt (fun n : Nat => n % 2 == 0) true [4, 1, 2, 8, 3] = ([4, 2, 8], [1, 3]) := by decide

end VW.Paths
