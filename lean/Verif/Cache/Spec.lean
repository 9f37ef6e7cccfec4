import Verif.Cache.Model
/-!
Specification vocabulary for the cache properties. Nothing here is used by the model.
-/
namespace VW.Cache

/-- `Seg h p L q`: in heap `h` the cells of `L` form a doubly linked segment whose first cell points
back to `p` and whose last cell points forward to `q`. -/
def Seg (h : Id → Option Node) : Option Id → List Id → Option Id → Prop
  | _, [], _ => True
  | p, a :: L, q => h a = some ⟨p, L.head?.or q⟩ ∧ Seg h (some a) L q

/-- The pointer structure `s` represents the valid list `V` and the invalid list `I`. -/
structure Rep (s : Lists) (V I : List Id) : Prop where
  nodup : (V ++ I).Nodup
  fv : s.firstValid = V.head?
  lv : s.lastValid = V.getLast?
  fi : s.firstInvalid = I.head?
  segV : Seg s.heap none V none
  segI : Seg s.heap none I none

variable {Val : Type}

/-- Somebody holds the lock of this line. -/
def Line.pinned (l : Line Val) : Prop := 0 < l.shared ∨ l.excl = true

/-- `x` comes before `e` in `V`. -/
def Before (V : List Id) (x e : Id) : Prop := ∃ A B C, V = A ++ x :: (B ++ e :: C)

/-- The line object exists (some handle of it exists). -/
def Live (s : State Val) (x : Id) : Prop := ∃ l, s.lines x = some l

/-- The object of the line is in memory (`Handle::valid()`). -/
def Loaded (s : State Val) (x : Id) : Prop := ∃ l v, s.lines x = some l ∧ l.value = some v

/-- Some thread is between a dereference and the matching release of this line. -/
def Held (s : State Val) (x : Id) : Prop := ∃ l, s.lines x = some l ∧ 0 < l.shared

/-- The generator of this line threw in its latest call; the line mutex was never unlocked. -/
def Wedged (s : State Val) (x : Id) : Prop := ∃ l, s.lines x = some l ∧ l.excl = true

/-- Sum of the sizes of all line objects satisfying `p`. All objects have ids below `nextId`. -/
def bytes (s : State Val) (p : Line Val → Bool) : Nat :=
  ((List.range s.nextId).map fun x =>
    match s.lines x with
    | none => 0
    | some l => if p l then l.size else 0).sum

/-- The line a call operates on. -/
def Op.line? : Op Val → Option Id
  | .insert _ _ => none
  | .deref i => some i
  | .release i => some i
  | .valid i => some i
  | .deprioritize i => some i
  | .destroy i => some i
  | .resize _ => none

/-- The calls a correct client makes: on existing lines only, and `release` only while holding. -/
def Legal (s : State Val) (op : Op Val) : Prop :=
  (∀ i, op.line? = some i → Live s i) ∧ (∀ i, op = .release i → Held s i)

/-- Run a list of calls which all succeed. -/
def run (s : State Val) : List (Op Val) → Option (State Val)
  | [] => some s
  | op :: ops => match step s op with
    | .ok s' _ => run s' ops
    | _ => none

/-- Position of the last dereference of `x` in a history (0 if none, else counted from 1). -/
def lastUse (ops : List (Op Val)) (x : Id) : Nat :=
  (ops.zipIdx.filter fun p => match p.1 with | .deref i => i == x | _ => false).foldl
    (fun _ p => p.2 + 1) 0

/-- Reachability with a clock `t` and, per line, the rank: the time of the latest load of the line's
object, or minus the time of the latest `deprioritize` if that came later. -/
inductive ReachRank (m : Nat) : Nat → (Id → Int) → State Val → Prop
  | init : ReachRank m 0 (fun _ => 0) (State.init m)
  | load {t rk s s' i} : ReachRank m t rk s → ¬ Loaded s i →
      ((∃ v, VW.Cache.step s (.deref i) = .ok s' v) ∨ VW.Cache.step s (.deref i) = .thrown s') →
      ReachRank m (t + 1) (fun x => if x = i then (t : Int) + 1 else rk x) s'
  | deprioritize {t rk s s' i o} : ReachRank m t rk s → Loaded s i →
      VW.Cache.step s (.deprioritize i) = .ok s' o →
      ReachRank m (t + 1) (fun x => if x = i then - ((t : Int) + 1) else rk x) s'
  | other {t rk s s' op} : ReachRank m t rk s →
      (∀ i, op = .deref i → Loaded s i ∨ VW.Cache.step s op = .blocked s') →
      (∀ i, op = .deprioritize i → ¬ Loaded s i ∨ VW.Cache.step s op = .blocked s') →
      ((∃ o, VW.Cache.step s op = .ok s' o) ∨ VW.Cache.step s op = .thrown s' ∨
        VW.Cache.step s op = .blocked s') →
      ReachRank m (t + 1) rk s'

end VW.Cache
