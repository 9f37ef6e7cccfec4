/-
Model of path functions, src/vw/FileIO/FileUtils.cc and FileTypes.cc.

A path is a flag for the root directory and the list of its elements as Boost iterates over them: several slashes count as one,
and a slash at the end gives an element "." (Posix). A string is the list of its characters.
-/
namespace VW.Paths

/-- A `boost::filesystem::path`. -/
structure Path where
  root : Bool
  elems : List String
deriving DecidableEq

/-- `file.relative_path()`. -/
def Path.relative (p : Path) : Path := ⟨false, p.elems⟩

/-- `fs::absolute(file)` for a relative path, with the current directory `cwd`. -/
def Path.absolute (cwd : List String) (p : Path) : Path := ⟨true, cwd ++ p.elems⟩

/-- The loop FileUtils.cc:56-61: what remains of both paths. -/
def skipCommon : List String → List String → List String × List String
  | f :: fs, d :: ds => if f ≠ d then (f :: fs, d :: ds) else skipCommon fs ds
  | fs, ds => (fs, ds)

/-- The case of two relative paths, FileUtils.cc:53-69. -/
def relToRel (file dir : List String) : List String :=
  let s := skipCommon file dir
  s.2.map (fun _ => "..") ++ s.1

/-- `make_file_relative_to_dir`, FileUtils.cc:42-71. The recursive calls are all with relative paths. -/
def makeRelative (cwd : List String) (file dir : Path) : Path :=
  if file.root then
    if file.root ≠ dir.root then file else ⟨false, relToRel file.relative.elems dir.relative.elems⟩
  else if dir.root then ⟨false, relToRel ((file.absolute cwd).relative).elems dir.relative.elems⟩
  else ⟨false, relToRel file.elems dir.elems⟩

/-- `result.rfind('.')`. -/
def rfindDot : List Char → Option Nat
  | [] => none
  | c :: cs =>
    match rfindDot cs with
    | some i => some (i + 1)
    | none => if c = '.' then some 0 else none

/-- `prefix_from_filename`, FileUtils.cc:73-79. -/
def prefixFromFilename (s : List Char) : List Char :=
  match rfindDot s with
  | some i => s.take i
  | none => s

/-- The folders and files that `boost::filesystem` shows: whether a path is a directory, and the entries of one (name, regular
file?). -/
structure Fs where
  isDir : Path → Bool
  entries : Path → List (String × Bool)

/-- The loop of `get_files_in_folder` with its test, FileUtils.cc:134-151: entries in the order of the iterator. -/
def filesInFolder (fs : Fs) (hasExt : String → Bool) (checkExt : Bool) (folder : Path) : List String :=
  if ¬ fs.isDir folder then []
  else if checkExt then ((fs.entries folder).filter fun e => e.2 && hasExt e.1).map Prod.fst
  else ((fs.entries folder).filter fun e => e.2).map Prod.fst

/-- `get_folder`, FileUtils.cc:115-120. -/
def getFolder (fs : Fs) (p : Path) : Path := if fs.isDir p then p else ⟨p.root, p.elems.dropLast⟩

/-- `get_files_with_prefix`, FileUtils.cc:158-179: the names; each is given back with the folder before it. -/
def filesWithPrefix (fs : Fs) (p : Path) : List Path :=
  let folder := getFolder fs p
  let name := p.elems.getLastD ""
  ((filesInFolder fs (fun _ => false) false folder).filter fun f => name.toList.isPrefixOf f.toList).map
    fun f => ⟨folder.root, folder.elems ++ [f]⟩

/-- The loop of `get_files_with_ext`, FileTypes.cc:121-138. `n` counts the steps left, `it` is the position of the iterator;
gives what was found and the list left. -/
def extLoop {S : Type} (hasExt : S → Bool) (prune : Bool) : Nat → Nat → List S → List S → List S × List S
  | 0, _, files, found => (found, files)
  | n + 1, it, files, found =>
    match files[it]? with
    | none => (found, files)
    | some f =>
      if hasExt f then
        if prune then extLoop hasExt prune n it (files.eraseIdx it) (found ++ [f])
        else extLoop hasExt prune n (it + 1) files (found ++ [f])
      else extLoop hasExt prune n (it + 1) files found

/-- `get_files_with_ext`; `hasExt` is the test of the end of the name without regard to case. -/
def filesWithExt {S : Type} (hasExt : S → Bool) (prune : Bool) (files : List S) : List S × List S :=
  extLoop hasExt prune (files.length + 1) 0 files []

end VW.Paths
