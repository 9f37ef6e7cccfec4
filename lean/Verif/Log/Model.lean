/-
Model of `src/vw/Core/Log.cc`: `LogRuleSet` (lines 425-514) and `PerThreadBufferedStreamBuf`
(lines 163-239).  Strings are `List Char`.
-/
namespace VW.Log

abbrev Str := List Char

/-- `boost::to_lower_copy` in the C locale: ASCII letters only (Log.cc:440, 485). -/
def lower (s : Str) : Str := s.map Char.toLower

/-- Message levels, Log.h:66-74. -/
def errorMessage : Int := 0
def warningMessage : Int := 10
def infoMessage : Int := 20
def everyMessage : Int := 100

/-- `LogRuleSet::add_rule`'s argument checks (Log.cc:430-437): at most one `*`, and if there is one it
is the first or the last character. -/
def accepted (ns : Str) : Bool :=
  if ns.count '*' > 1 then false
  else if ns.count '*' = 1 && !(ns.head? == some '*') && !(ns.getLast? == some '*') then false
  else true

/-- `wildcard_match` (Log.cc:449-478). `idx` is `pattern.find("*")`. -/
def wildcardMatch (pattern str : Str) : Bool :=
  if pattern = ['*'] then true
  else
    let idx := pattern.idxOf '*'
    if idx = pattern.length then pattern = str                       -- npos
    else if idx = 0 then (pattern.drop 1).isSuffixOf str             -- boost::ends_with
    else if (pattern.length > 1 && pattern[idx - 1]? == some '.') && str = pattern.take (idx - 1) then true
    else (pattern.take idx).isPrefixOf str                           -- boost::starts_with

/-- `m_rules`: (level, namespace), newest first. -/
abbrev Rules := List (Int × Str)

/-- Mutations of a rule set. -/
inductive Op where
  | add (level : Int) (ns : Str)
  | clear

/-- `add_rule` (Log.cc:430-441; throws ArgumentErr, leaving the rules unchanged, if not accepted) and
`clear` (Log.cc:443-446). -/
def step (r : Rules) : Op → Rules
  | .add l ns => if accepted ns then (l, lower ns) :: r else r
  | .clear => []

def run (ops : List Op) : Rules := ops.foldl step []

/-- The loop of `operator()` (Log.cc:487-499): the first matching rule decides. -/
def firstRule : Rules → Int → Str → Option Bool
  | [], _, _ => none
  | (rl, rns) :: r, lvl, lns =>
    if !wildcardMatch rns lns then firstRule r lvl lns
    else if rl = everyMessage then some true
    else some (lvl ≤ rl)

/-- `LogRuleSet::operator()` (Log.cc:482-513). -/
def admits (r : Rules) (lvl : Int) (ns : Str) : Bool :=
  match firstRule r lvl (lower ns) with
  | some b => b
  | none =>
    if lvl ≤ infoMessage && (ns = "console".toList || wildcardMatch "*.progress".toList (lower ns)) then true
    else if lvl ≤ warningMessage then true
    else false

/-! ### Per-thread line buffering -/

/-- `m_buffers` as a function from thread ids (an absent entry is an empty buffer) and the characters
that have reached the underlying stream. -/
structure Buf where
  buffers : Nat → Str
  out     : List (Nat × Str)    -- chunks handed to `m_out->sputn`, with the writing thread

def Buf.init : Buf := ⟨fun _ => [], []⟩

def setAt (f : Nat → Str) (t : Nat) (s : Str) : Nat → Str := fun u => if u = t then s else f u

/-- `locked_sync` (Log.cc:216-223) with `m_out` set. -/
def Buf.sync (b : Buf) (t : Nat) : Buf :=
  if b.buffers t = [] then b else ⟨setAt b.buffers t [], b.out ++ [(t, b.buffers t)]⟩

/-- end-of-line test used by `overflow` and `xsputn` -/
def isEol (c : Char) : Bool := c = '\n' || c = '\r'

/-- `xsputn` (Log.cc:196-213). -/
def Buf.put (b : Buf) (t : Nat) (s : Str) : Buf :=
  let b' : Buf := ⟨setAt b.buffers t (b.buffers t ++ s), b.out⟩
  match (b'.buffers t).getLast? with
  | some c => if isEol c then b'.sync t else b'
  | none => b'

/-- `overflow(c)`, c not eof (Log.cc:181-194). -/
def Buf.putc (b : Buf) (t : Nat) (c : Char) : Buf :=
  let b' : Buf := ⟨setAt b.buffers t (b.buffers t ++ [c]), b.out⟩
  if isEol c then b'.sync t else b'

/-- What threads do with the stream. -/
inductive Act where
  | put (t : Nat) (s : Str)
  | putc (t : Nat) (c : Char)
  | flush (t : Nat)          -- `sync()`, Log.cc:225-230

def Buf.act (b : Buf) : Act → Buf
  | .put t s => b.put t s
  | .putc t c => b.putc t c
  | .flush t => b.sync t

end VW.Log
