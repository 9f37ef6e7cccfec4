import Verif.BBox.Model
import Mathlib.Analysis.Real.Sqrt

/-
Model of src/vw/FileIO/DiskImageManager.h: a bounded number of open image files, shared by threads.  `get_handle` and `release`
hold the lock from beginning to end, so a history is a sequence of whole calls.
-/

namespace Verif.FileIO
open VW.BBox

/-- One managed file: the entries of `m_imgBoxes`, `m_fileHandles` and `m_used` with the same index
(src/vw/FileIO/DiskImageManager.h:46-52).  Simplified: the three containers are one list, so that they have the same length (the
check at lines 163-165 cannot fail); the name is left out; each opened file has its own number. -/
structure Entry where
  box : Box ℝ 2
  handle : Option Nat
  used : Nat

/-- The manager (src/vw/FileIO/DiskImageManager.h:44-57); `next` is the number of the next file to be opened. -/
structure Mgr where
  files : List Entry
  almost : Bool
  maxOpen : Nat
  next : Nat

/-- The constructor (src/vw/FileIO/DiskImageManager.h:59). -/
def Mgr.init : Mgr := ⟨[], false, 0, 0⟩

/-- Close one handle. -/
def Mgr.close (s : Mgr) (i : Nat) : Mgr := { s with files := s.files.modify i fun e => { e with handle := none } }

/-- Open the file again. -/
def Mgr.open (s : Mgr) (i : Nat) : Mgr :=
  { s with files := s.files.modify i fun e => { e with handle := some s.next }, next := s.next + 1 }

/-- The handle with an index; none when it is closed. -/
def Mgr.handle (s : Mgr) (i : Nat) : Option Nat := s.files[i]?.bind Entry.handle

/-- `freeup_handles_not_thread_safe` (src/vw/FileIO/DiskImageManager.h:67-76). -/
def Mgr.freeup (s : Mgr) : Mgr :=
  let m := if s.files.length < 101 then 1 else s.files.length - 100
  { s with almost := true, maxOpen := m, files := s.files.take m ++ (s.files.drop m).map fun e => { e with handle := none } }

/-- `add_file_handle_not_thread_safe` (src/vw/FileIO/DiskImageManager.h:83-103); `ok`: the file can be opened. -/
def Mgr.add (s : Mgr) (box : Box ℝ 2) (ok : Bool) : Mgr :=
  if s.almost then { s with files := s.files ++ [⟨box, none, 0⟩] }
  else if ok then { s with files := s.files ++ [⟨box, some s.next, 0⟩], next := s.next + 1 }
  else { s.freeup with files := s.freeup.files ++ [⟨box, none, 0⟩] }

/-- The distance of the centres of two boxes (src/vw/FileIO/DiskImageManager.h:153-156). -/
noncomputable def centreDist (b c : Box ℝ 2) : ℝ :=
  √(((b.min 0 + b.max 0) / 2 - (c.min 0 + c.max 0) / 2) * ((b.min 0 + b.max 0) / 2 - (c.min 0 + c.max 0) / 2) +
    ((b.min 1 + b.max 1) / 2 - (c.min 1 + c.max 1) / 2) * ((b.min 1 + b.max 1) / 2 - (c.min 1 + c.max 1) / 2))

/-- The number given to an image as a candidate to be closed (src/vw/FileIO/DiskImageManager.h:122-161), with
`min_pos_dist = 1`. -/
noncomputable def rank (bbox : Box ℝ 2) (e : Entry) : ℝ :=
  if 0 < e.used then 0
  else if (e.box.crop bbox).empty = false then 1.5
  else if e.handle = none then 1
  else if e.box.empty || bbox.empty then 2
  else centreDist e.box bbox + 2

/-- `std::max_element` as an index: the first of the greatest (src/vw/FileIO/DiskImageManager.h:167-169); `best`, `bi`: the
greatest so far and its index, `i`: the index of the next. -/
noncomputable def maxFrom (best : ℝ) (bi i : Nat) : List ℝ → Nat
  | [] => bi
  | x :: l => if best < x then maxFrom x i (i + 1) l else maxFrom best bi (i + 1) l

/-- See `maxFrom`. -/
noncomputable def maxIndex : List ℝ → Nat
  | [] => 0
  | x :: l => maxFrom x 0 1 l

/-- What `get_handle` returns or throws. -/
inductive Got where
  | handle (h : Nat)
  | noneFree
  | notOpen
  | openFailed
  deriving DecidableEq

/-- `get_handle` (src/vw/FileIO/DiskImageManager.h:110-189); `ok`: the file can be opened.  An index that is not in range is not
modelled (the code reads outside of the vector). -/
noncomputable def Mgr.get (s : Mgr) (i : Nat) (bbox : Box ℝ 2) (ok : Bool) : Mgr × Got :=
  let s : Mgr := { s with files := s.files.modify i fun e => { e with used := e.used + 1 } }
  match s.handle i with
  | some h => (s, .handle h)
  | none =>
    let ranks := s.files.map (rank bbox)
    let m := maxIndex ranks
    if ranks.getD m 0 = 0 then (s, .noneFree)
    else match s.handle m with
      | none => (s, .notOpen)
      | some _ =>
        let s := s.close m
        if ok then (s.open i, .handle s.next) else (s, .openFailed)

/-- `release` (src/vw/FileIO/DiskImageManager.h:199-206). -/
def Mgr.release (s : Mgr) (i : Nat) : Mgr := { s with files := s.files.modify i fun e => { e with used := e.used - 1 } }

/-- The number of open files. -/
def Mgr.count (s : Mgr) : Nat := s.files.countP fun e => e.handle.isSome

/-- A call of a client. -/
inductive Op where
  | add (box : Box ℝ 2) (ok : Bool)
  | get (i : Nat) (bbox : Box ℝ 2) (ok : Bool)
  | release (i h : Nat)

/-- The manager, and the references that clients have and did not give back: index and number of the open file. -/
structure World where
  mgr : Mgr
  out : List (Nat × Nat)

/-- A call is allowed: files are added before any is used (the comment at src/vw/FileIO/DiskImageManager.h:78-82), indices are in
range, and clients give back what they have. -/
def World.allowed (w : World) : Op → Prop
  | .add _ _ => w.out = []
  | .get i _ _ => i < w.mgr.files.length
  | .release i h => (i, h) ∈ w.out

/-- The effect of a call. -/
noncomputable def World.step (w : World) : Op → World
  | .add box ok => { w with mgr := w.mgr.add box ok }
  | .get i bbox ok =>
    let r := w.mgr.get i bbox ok
    ⟨r.1, match r.2 with
      | .handle h => (i, h) :: w.out
      | _ => w.out⟩
  | .release i h => ⟨w.mgr.release i, w.out.erase (i, h)⟩

/-- The worlds that clients can bring about. -/
inductive Reachable : World → Prop
  | init : Reachable ⟨Mgr.init, []⟩
  | step (w : World) (op : Op) : Reachable w → w.allowed op → Reachable (w.step op)

end Verif.FileIO
