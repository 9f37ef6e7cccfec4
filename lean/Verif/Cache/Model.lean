/-
Model of `vw::Cache` (src/vw/Core/Cache.h, src/vw/Core/Cache.cc).

Two layers:
* `Lists`  : the pointer level.  `CacheLineBase` objects are heap cells with `m_prev`/`m_next`
             pointers; `Cache` holds `m_first_valid`, `m_last_valid`, `m_first_invalid`.
             Every pointer dereference goes through the heap and yields `none` (undefined
             behaviour) if the object does not exist.
* `State`  : the whole cache: lists, byte count, limit, and per line the generator, the loaded
             value, and the state of the line mutex.

Simplifications: byte counts are unbounded `Nat` (C++ `size_t`; `m_size -= size` on too small a
count is the outcome `none`, not a wrap-around); logging (`VW_CACHE_DEBUG`, the size warning and
`m_last_size`, Cache.cc:85-100) is dropped; calls are atomic (call-level interleaving), threads show
up as the number of shared locks held on a line; the race inside `value()` is modelled separately in
`Verif/Cache/Race.lean`.
-/
namespace VW.Cache

/-- Address of a `CacheLineBase` object. -/
abbrev Id := Nat

/-- The link fields of `CacheLineBase` (Cache.h:111, `m_prev, m_next`). -/
structure Node where
  prev : Option Id
  next : Option Id
deriving DecidableEq, Repr

/-- Heap update. -/
def upd {α : Type} (h : Id → Option α) (a : Id) (v : Option α) : Id → Option α :=
  fun b => if b = a then v else h b

/-- Pointer-level state of the two intrusive lists (Cache.h:273, `m_first_valid, m_last_valid,
`m_first_invalid`) together with the memory holding the nodes. -/
structure Lists where
  heap : Id → Option Node
  firstValid : Option Id
  lastValid : Option Id
  firstInvalid : Option Id

namespace Lists

/-- `p->m_next = v` (undefined if `p` is not an object). -/
def setNext (s : Lists) (p : Id) (v : Option Id) : Option Lists :=
  match s.heap p with
  | none => none
  | some n => some { s with heap := upd s.heap p (some { n with next := v }) }

/-- `p->m_prev = v`. -/
def setPrev (s : Lists) (p : Id) (v : Option Id) : Option Lists :=
  match s.heap p with
  | none => none
  | some n => some { s with heap := upd s.heap p (some { n with prev := v }) }

/-- `if (o) o->m_prev = v;` -/
def setPrevO (s : Lists) (o : Option Id) (v : Option Id) : Option Lists :=
  match o with
  | none => some s
  | some x => s.setPrev x v

/-- `if (o) o->m_next = v;` -/
def setNextO (s : Lists) (o : Option Id) (v : Option Id) : Option Lists :=
  match o with
  | none => some s
  | some x => s.setNext x v

/-- The two statements used by all four list operations to cut a line out of its list
(Cache.cc:161-164, 185-186, 201-202, 213-214):
`if (line->m_next) line->m_next->m_prev = line->m_prev;`
`if (line->m_prev) line->m_prev->m_next = line->m_next;` -/
def unlink (s : Lists) (line : Id) : Option Lists :=
  match s.heap line with
  | none => none
  | some n =>
    match s.setPrevO n.next n.prev with
    | none => none
    | some s =>
      match s.heap line with
      | none => none
      | some n => s.setNextO n.prev n.next

/-- `Cache::validate` (Cache.cc:148-177): move the line to the head of the valid list. -/
def validate (s : Lists) (line : Id) : Option Lists :=
  if s.firstValid = some line then some s else
  match s.heap line with
  | none => none
  | some n =>
    let s := if s.lastValid = some line then { s with lastValid := n.prev } else s
    let s := if s.firstInvalid = some line then { s with firstInvalid := n.next } else s
    match s.unlink line with
    | none => none
    | some s =>
      match s.setNext line s.firstValid with
      | none => none
      | some s =>
        match s.setPrev line none with
        | none => none
        | some s =>
          match s.setPrevO s.firstValid (some line) with
          | none => none
          | some s =>
            let s := { s with firstValid := some line }
            some (if s.lastValid = none then { s with lastValid := some line } else s)

/-- `Cache::invalidate` (Cache.cc:179-192): move the line to the head of the invalid list. -/
def invalidate (s : Lists) (line : Id) : Option Lists :=
  match s.heap line with
  | none => none
  | some n =>
    let s := if s.firstValid = some line then { s with firstValid := n.next } else s
    let s := if s.lastValid = some line then { s with lastValid := n.prev } else s
    match s.unlink line with
    | none => none
    | some s =>
      match s.setNext line s.firstInvalid with
      | none => none
      | some s =>
        match s.setPrev line none with
        | none => none
        | some s =>
          match s.setPrevO s.firstInvalid (some line) with
          | none => none
          | some s => some { s with firstInvalid := some line }

/-- `Cache::remove` (Cache.cc:194-204): take the line out of whichever list it is in. -/
def remove (s : Lists) (line : Id) : Option Lists :=
  match s.heap line with
  | none => none
  | some n =>
    let s := if s.firstValid = some line then { s with firstValid := n.next } else s
    let s := if s.lastValid = some line then { s with lastValid := n.prev } else s
    let s := if s.firstInvalid = some line then { s with firstInvalid := n.next } else s
    match s.unlink line with
    | none => none
    | some s =>
      match s.setNext line none with
      | none => none
      | some s => s.setPrev line none

/-- `Cache::deprioritize` (Cache.cc:206-220): move the line to the tail of the valid list. The last
two statements dereference `m_last_valid`. -/
def deprioritize (s : Lists) (line : Id) : Option Lists :=
  if s.lastValid = some line then some s else
  match s.heap line with
  | none => none
  | some n =>
    let s := if s.firstValid = some line then { s with firstValid := n.next } else s
    match s.unlink line with
    | none => none
    | some s =>
      match s.setPrev line s.lastValid with
      | none => none
      | some s =>
        match s.setNext line none with
        | none => none
        | some s =>
          match s.lastValid with
          | none => none
          | some x =>
            match s.setNext x (some line) with
            | none => none
            | some s => some { s with lastValid := some line }

end Lists

/-- A `CacheLine<GeneratorT>` object (Cache.h:175-216) over values of type `Val`.
`generate k` is the result of the k-th call of the generator's `generate()` (`none` = it throws).
`shared` is the number of shared locks on `m_mutex`, `excl` says that the mutex is held exclusively
by somebody who is not inside a cache call any more (only possible after `generate()` threw). -/
structure Line (Val : Type) where
  size : Nat
  generate : Nat → Option Val
  value : Option Val
  genCount : Nat
  shared : Nat
  excl : Bool

/-- The cache together with all line objects. `nextId` models `operator new` returning fresh
addresses. -/
structure State (Val : Type) where
  lists : Lists
  lines : Id → Option (Line Val)
  size : Nat
  maxSize : Nat
  nextId : Id

variable {Val : Type}

/-- Result of a call. `ub` : undefined behaviour (null or dangling dereference, unlocking an unheld
lock, byte count underflow) or a diverging loop; `blocked s` : the call waits, in state `s`, for a
lock which is held; `thrown s`: the C++ call throws and leaves state `s`. -/
inductive Res (Val : Type) (α : Type) where
  | ok (s : State Val) (a : α)
  | blocked (s : State Val)
  | thrown (s : State Val)
  | ub

/-- `Cache::Cache(max_size)` (Cache.h:462-465). -/
def State.init (maxSize : Nat) : State Val :=
  { lists := { heap := fun _ => none, firstValid := none, lastValid := none, firstInvalid := none }
    lines := fun _ => none
    size := 0, maxSize := maxSize, nextId := 0 }

def State.setLine (s : State Val) (i : Id) (l : Line Val) : State Val :=
  { s with lines := upd s.lines i (some l) }

/-- `Cache::insert` (Cache.h:467-472) with the `CacheLine` constructor (Cache.h:298-304):
a fresh object with null links, then `CacheLineBase::invalidate()`. -/
def insert (s : State Val) (size : Nat) (gen : Nat → Option Val) : Res Val Id :=
  let i := s.nextId
  let ls : Lists := { s.lists with heap := upd s.lists.heap i (some ⟨none, none⟩) }
  match ls.invalidate i with
  | none => .ub
  | some ls =>
    .ok { s with
          lists := ls
          lines := upd s.lines i (some ⟨size, gen, none, 0, 0, false⟩)
          nextId := i + 1 } i

/-- `Cache::deallocate` (Cache.cc:136-144) followed by `m_value.reset()` (Cache.h:322-323, 338-339):
the common tail of `CacheLine::invalidate` and `CacheLine::try_invalidate`. -/
def unload (s : State Val) (i : Id) (l : Line Val) : Option (State Val) :=
  match s.lists.invalidate i with
  | none => none
  | some ls =>
    if s.size < l.size then none
    else some { (s.setLine i { l with value := none }) with lists := ls, size := s.size - l.size }

/-- `CacheLine::try_invalidate` (Cache.h:326-343). Returns the C++ boolean. `try_lock` fails iff
somebody holds the line mutex. -/
def tryInvalidate (s : State Val) (i : Id) : Option (State Val × Bool) :=
  match s.lines i with
  | none => none
  | some l =>
    if l.shared > 0 ∨ l.excl then some (s, false)
    else match l.value with
      | none => some (s, true)
      | some _ => match unload s i l with
        | none => none
        | some s => some (s, true)

/-- The eviction loop of `Cache::allocate` (Cache.cc:63-83); `cur` is `local_last_valid`, `line` the
line being allocated. `fuel` bounds the iterations; running out is `none`. The line being allocated
is exclusively locked at this point, but is never passed to `try_invalidate`. -/
def evict (line : Id) : Nat → State Val → Option Id → Option (State Val)
  | 0, _, _ => none
  | fuel + 1, s, cur =>
    if s.size ≤ s.maxSize then some s
    else match cur with
      | none => some s
      | some c =>
        if c = line then some s
        else match tryInvalidate s c with
          | none => none
          | some (s', true) => evict line fuel s' s'.lists.lastValid
          | some (s', false) =>
            match s'.lists.heap c with
            | none => none
            | some n => evict line fuel s' n.prev

/-- An iteration bound for `evict`, see the theorem that it is always enough. -/
def evictFuel (s : State Val) : Nat := (s.nextId + 2) * (s.nextId + 2)

/-- `Cache::allocate` (Cache.cc:40-101). -/
def allocate (s : State Val) (i : Id) (size : Nat) : Option (State Val) :=
  match s.lists.validate i with
  | none => none
  | some ls =>
    let s := { s with lists := ls, size := s.size + size }
    evict i (evictFuel s) s s.lists.lastValid

/-- `CacheLine::value` (Cache.h:354-377), as called by `Handle::operator->`/`operator*`
(Cache.h:405-418). On a miss the exclusive lock must be obtained, so the call blocks while the line
is locked by anybody; on a hit it blocks while the line is locked exclusively. -/
def deref (s : State Val) (i : Id) : Res Val Val :=
  match s.lines i with
  | none => .ub
  | some l =>
    if l.excl then .blocked s
    else match l.value with
      | some v => .ok (s.setLine i { l with shared := l.shared + 1 }) v
      | none =>
        if l.shared > 0 then .blocked s
        else match allocate s i l.size with
          | none => .ub
          | some s =>
            match l.generate l.genCount with
            | none => .thrown (s.setLine i { l with genCount := l.genCount + 1, excl := true })
            | some v =>
              .ok (s.setLine i { l with value := some v, genCount := l.genCount + 1, shared := 1 }) v

/-- `CacheLine::release` (Cache.h:379-382). -/
def release (s : State Val) (i : Id) : Res Val Unit :=
  match s.lines i with
  | none => .ub
  | some l => if l.shared = 0 then .ub else .ok (s.setLine i { l with shared := l.shared - 1 }) ()

/-- `CacheLine::valid` (Cache.h:384-388): takes the exclusive lock. -/
def valid (s : State Val) (i : Id) : Res Val Bool :=
  match s.lines i with
  | none => .ub
  | some l => if l.shared > 0 ∨ l.excl then .blocked s else .ok s l.value.isSome

/-- `CacheLine::deprioritize` (Cache.h:390-397) as an atomic call. -/
def deprioritize (s : State Val) (i : Id) : Res Val Unit :=
  match s.lines i with
  | none => .ub
  | some l =>
    if l.shared > 0 ∨ l.excl then .blocked s
    else match l.value with
      | none => .ok s ()
      | some _ => match s.lists.deprioritize i with
        | none => .ub
        | some ls => .ok { s with lists := ls } ()

/-- Destruction of the last handle of a line: `CacheLine::~CacheLine` (Cache.h:306-312), i.e.
`CacheLine::invalidate` (Cache.h:314-324) and `remove`; afterwards the object does not exist. -/
def destroy (s : State Val) (i : Id) : Res Val Unit :=
  match s.lines i with
  | none => .ub
  | some l =>
    if l.shared > 0 ∨ l.excl then .blocked s
    else
      match (match l.value with | none => some s | some _ => unload s i l) with
      | none => .ub
      | some s =>
        match s.lists.remove i with
        | none => .ub
        | some ls =>
          .ok { s with lists := { ls with heap := upd ls.heap i none }, lines := upd s.lines i none } ()

/-- The loop of `Cache::resize` (Cache.cc:116-125). -/
def resizeLoop : Nat → State Val → Res Val Unit
  | 0, _ => .ub
  | fuel + 1, s =>
    if s.size ≤ s.maxSize then .ok s ()
    else match s.lists.lastValid with
      | none => .thrown s      -- VW_ASSERT: "Cache is empty but has nonzero size"
      | some c => match s.lines c with
        | none => .ub
        | some l =>
          if l.shared > 0 ∨ l.excl then .blocked s
          else match l.value with
            | none => resizeLoop fuel s
            | some _ => match unload s c l with
              | none => .ub
              | some s => resizeLoop fuel s

/-- `Cache::resize` (Cache.cc:103-126). A call that has to wait for a held line is `blocked` in the
state reached so far; since the loop re-reads size and list tail from the cache in every iteration,
its continuation is the same call issued again. -/
def resize (s : State Val) (n : Nat) : Res Val Unit :=
  resizeLoop (s.nextId + 1) { s with maxSize := n }

/-- The calls of the cache API. -/
inductive Op (Val : Type) where
  | insert (size : Nat) (gen : Nat → Option Val)
  | deref (i : Id)
  | release (i : Id)
  | valid (i : Id)
  | deprioritize (i : Id)
  | destroy (i : Id)
  | resize (n : Nat)

/-- What a call returns. -/
inductive Out (Val : Type) where
  | unit | id (i : Id) | val (v : Val) | bool (b : Bool)

def Res.map {α : Type} (f : α → Out Val) : Res Val α → Res Val (Out Val)
  | .ok s a => .ok s (f a)
  | .blocked s => .blocked s
  | .thrown s => .thrown s
  | .ub => .ub

/-- One API call. -/
def step (s : State Val) : Op Val → Res Val (Out Val)
  | .insert n g => (insert s n g).map .id
  | .deref i => (deref s i).map .val
  | .release i => (release s i).map fun _ => .unit
  | .valid i => (valid s i).map .bool
  | .deprioritize i => (deprioritize s i).map fun _ => .unit
  | .destroy i => (destroy s i).map fun _ => .unit
  | .resize n => (resize s n).map fun _ => .unit

/-- States reachable from an empty cache by API calls: completed, thrown out of, or waiting. -/
inductive Reach (m : Nat) : State Val → Prop
  | init : Reach m (State.init m)
  | ok {s s' op out} : Reach m s → step s op = .ok s' out → Reach m s'
  | thrown {s s' op} : Reach m s → step s op = .thrown s' → Reach m s'
  | blocked {s s' op} : Reach m s → step s op = .blocked s' → Reach m s'

end VW.Cache
