/-
Model of matrices in text files, src/vw/FileIO/MatrixIO.cc, and as images, src/vw/FileIO/MatrixIO.h.

A file is the list of its characters. The printing (`<<` with 17 digits) and parsing (`>>`) of a number are parameters of the
model: `print` gives the characters of a value, `scan` reads a value from the front of a list of characters (without leading
blanks) and gives it with the rest, or `none`. A file that cannot be opened reads as an empty one, as in the code.
-/
namespace VW.MatText

/-- The number format of the streams: `ofs << v` with precision 17 and `iss >> v`. -/
structure Codec (V : Type) where
  print : V → List Char
  scan : List Char → Option (V × List Char)

/-- A matrix. -/
structure Mat (V : Type) where
  rows : Nat
  cols : Nat
  get : Nat → Nat → V

/-- `write_matrix_as_txt`, MatrixIO.cc:27-42. -/
def write {V : Type} (k : Codec V) (m : Mat V) : List Char :=
  (List.range m.rows).flatMap fun row => (List.range m.cols).flatMap fun col =>
    k.print (m.get row col) ++ (if col + 1 < m.cols then [' '] else ['\n'])

/-- A character put before the first line. -/
def onFirst (c : Char) : List (List Char) → List (List Char)
  | [] => [[c]]
  | l :: ls => (c :: l) :: ls

/-- The lines that `while (getline(ifs, line))` sees: the last one needs no end of line. -/
def lines : List Char → List (List Char)
  | [] => []
  | c :: cs => if c = '\n' then [] :: lines cs else onFirst c (lines cs)

/-- The characters skipped before a number (the blanks of the C locale). -/
def isBlank (c : Char) : Bool := c = ' ' || c = '\t' || c = '\n' || c = '\r' || c = '\x0b' || c = '\x0c'

/-- `while (iss >> val) vec.push_back(val)`, MatrixIO.cc:53-54. Each number takes at least one character, so the length of the
line bounds the number of steps. -/
def scanAll {V : Type} (k : Codec V) : Nat → List Char → List V
  | 0, _ => []
  | n + 1, s =>
    match k.scan (s.dropWhile isBlank) with
    | none => []
    | some (v, rest) => v :: scanAll k n rest

/-- The reading of the lines, MatrixIO.cc:47-57. -/
def readRows {V : Type} (k : Codec V) (file : List Char) : List (List V) :=
  (lines file).map fun line => scanAll k line.length line

/-- `read_matrix_as_txt`, MatrixIO.cc:44-76; `none` is the exception. The values are `mat[row][col]`. -/
def read {V : Type} (k : Codec V) (dflt : V) (file : List Char) : Option (Mat V) :=
  let mat := readRows k file
  match mat with
  | [] => none
  | first :: rest =>
    if rest.all (fun r => first.length == r.length) then
      some ⟨mat.length, first.length, fun row col => ((mat.getD row []).getD col dflt)⟩
    else none

/-- An image of one plane. -/
structure Img (V : Type) where
  cols : Nat
  rows : Nat
  planes : Nat
  px : Nat → Nat → V

/-- `write_matrix`, MatrixIO.h:39-54: the image given to `write_image`. -/
def toImage {V : Type} (m : Mat V) : Img V := ⟨m.cols, m.rows, 1, fun i j => m.get j i⟩

/-- `read_matrix`, MatrixIO.h:60-80: from the image that `read_image` gives; `none` is the exception. -/
def fromImage {V : Type} (b : Img V) : Option (Mat V) :=
  if b.planes = 1 then some ⟨b.rows, b.cols, fun j i => b.px i j⟩ else none

end VW.MatText
