import Verif.Log.Model
import Mathlib.Data.Rat.Defs
import Mathlib.Algebra.Order.Field.Rat
import Mathlib.Tactic.Linarith
/-
Model of `Settings` and `parse_config`, src/vw/Core/Settings.{h,cc}, ConfigParser.cc:65-164 and System.cc:25-72
(property C54), with VW_ENABLE_CONFIG_FILE.

A history is a list of calls, one after the other (every call holds the mutexes of what it changes), each with the clock
and the files at that time, which do not change during the call. The ini parser of boost is not modelled: a file is
its list of options. The log files named in the configuration can be opened.
-/
namespace VW.Settings
open VW.Log (Str accepted lower Rules)

/-- The settings, Settings.h:66-82. -/
inductive Key where
  | threads | cache | pool | tile | tmp
deriving DecidableEq, Repr

/-- Their values. -/
inductive Val where
  | num (n : Nat)
  | text (s : Str)
deriving DecidableEq, Repr

/-- A file: its modification time and its options; none if it cannot be opened. Options in a file with a syntax error
are [] (ConfigParser.cc:85-94). -/
structure File where
  mtime : Int
  options : Option (List (Str × Str))

/-- The world during a call. -/
structure Env where
  now : Int
  files : Str → Option File

/-- The settings, the system cache and the logs. -/
structure St where
  val : Key → Val
  fixed : Key → Bool           -- m_<name>_override
  lastPoll : Int
  lastMod : Int
  rc : Str
  period : Rat
  cacheMax : Val               -- vw_system_cache().max_size()
  resized : Bool               -- resize_once has run
  console : Rules
  logs : List (Str × Rules)
  polls : List Int             -- ghost: the times of polls, newest first

/-- Exceptions: IOErr of an unreadable file, ArgumentErr of a log rule, a failed assertion; `deep` is the end of the
recursion of the model, shown never to happen. -/
inductive Err where
  | io | argument | assertion | deep
deriving DecidableEq, Repr

/-- The state after a call, also after one that throws. -/
abbrev Out := St × Option Err

/-- What follows happens if there was no exception. -/
def andThen (o : Out) (f : St → Out) : Out :=
  match o.2 with
  | none => f o.1
  | some e => (o.1, some e)

/-- `numeric_limits<long>::max()`. -/
def longMax : Int := 9223372036854775807

/-- `m_x_override = true; m_x = v`, Settings.cc:199-200. -/
def assign (s : St) (k : Key) (v : Val) : St :=
  { s with val := fun j => if j = k then v else s.val j, fixed := fun j => if j = k then true else s.fixed j }

/-- `resize_cache`, System.cc:40-43, called once; its `system_cache_size()` may call `reload_config`. -/
def resizeOnce (rl : St → Out) (s : St) : Out :=
  if s.resized then (s, none)
  else if s.cacheMax = .num 0 then
    andThen (if s.fixed .cache then (s, none) else rl s) (fun s => ({ s with cacheMax := s.val .cache, resized := true }, none))
  else ({ s with resized := true }, none)

/-- `vw_system_cache()`, System.cc:67-72. -/
def systemCache (rl : St → Out) (s : St) : Out := andThen (rl s) (resizeOnce rl)

/-- The setters, Settings.cc:197-202. Only that of the cache size has a callback, line 209. -/
def setWith (rl : St → Out) (s : St) (k : Key) (v : Val) : Out :=
  if k = .cache then andThen (systemCache rl (assign s k v)) (fun s => ({ s with cacheMax := v }, none))
  else (assign s k v, none)

section
-- `boost::lexical_cast` to an unsigned number for the setting, and to int32.
variable (num : Key → Str → Option Nat) (int : Str → Option Int)

/-- `name2level`, ConfigParser.cc:44-63. -/
def level (name : Str) : Option Int :=
  match [("NoMessage", -1), ("InfoMessage", 20), ("ErrorMessage", 0), ("WarningMessage", 10), ("DebugMessage", 30),
    ("VerboseDebugMessage", 40), ("EveryMessage", 100), ("*", 100)].lookup (String.ofList name) with
  | some l => some l
  | none => int name

/-- The setting named by a key, ConfigParser.cc:112-121. -/
def keyOf (name : Str) : Option Key :=
  if name = "general.default_num_threads".toList then some .threads
  else if name = "general.system_cache_size".toList then some .cache
  else if name = "general.default_tile_size".toList then some .tile
  else if name = "general.write_pool_size".toList then some .pool
  else if name = "general.tmp_directory".toList then some .tmp
  else none

/-- The value a text stands for; none is bad_lexical_cast. -/
def valueOf (k : Key) (text : Str) : Option Val :=
  if k = .tmp then some (.text text) else (num k text).map .num

/-- The log options apply to: its name, and its place in the list of logs (none is the console). -/
abbrev Current := Str × Option Nat

/-- Adding a rule to the current log, ConfigParser.cc:149-152. -/
def addRule (s : St) (c : Option Nat) (l : Int) (domain : Str) : St :=
  match c with
  | none => { s with console := (l, lower domain) :: s.console }
  | some i => { s with logs := s.logs.modify i (fun p => (p.1, (l, lower domain) :: p.2)) }

/-- Splitting at the last '.', ConfigParser.cc:123-127. -/
def split (key : Str) : Option (Str × Str) :=
  let r := key.reverse
  let i := r.idxOf '.'
  if i = r.length then none else some ((r.drop (i + 1)).reverse, (r.take i).reverse)

/-- Changing to another log, ConfigParser.cc:133-141. -/
def switchLog (s : St) (c : Current) (name : Str) : Current × St :=
  if name = c.1 then (c, s)
  else if name = "console".toList then ((name, none), s)
  else ((name, some s.logs.length), { s with logs := s.logs ++ [(name, [])] })

/-- A "logfile" option, ConfigParser.cc:122-153; name and level of the key are given. -/
def logOption (s : St) (c : Current) (name lv domain : Str) : Current × Out :=
  if name = [] ∨ lv = [] ∨ domain = [] then (c, s, none)
  else
    let cs := switchLog s c name
    match level int lv with
    | none => (cs.1, cs.2, none)
    | some l => if accepted domain then (cs.1, addRule cs.2 cs.1.2 l domain, none) else (cs.1, cs.2, some .argument)

/-- One option, ConfigParser.cc:105-160. -/
def option (rl : St → Out) (s : St) (c : Current) (o : Str × Str) : Current × Out :=
  match keyOf o.1 with
  | some k =>
    match valueOf num k o.2 with
    | some v => (c, setWith rl s k v)
    | none => (c, s, none)
  | none =>
    if "logfile ".toList.isPrefixOf o.1 then
      match split o.1 with
      | none => (c, s, some .assertion)
      | some (a, b) => logOption int s c (a.drop 8) b o.2
    else (c, s, none)

/-- The loop of `parse_config`, ConfigParser.cc:103-161. -/
def options (rl : St → Out) (s : St) (c : Current) : List (Str × Str) → Out
  | [] => (s, none)
  | o :: os =>
    match option num int rl s c o with
    | (c', s', none) => options rl s' c' os
    | (_, s', some e) => (s', some e)

/-- `parse_config`. -/
def parse (rl : St → Out) (s : St) (os : List (Str × Str)) : Out := options num int rl s ("console".toList, none) os

/-- `reload_config`, Settings.cc:54-101. It calls the setters, and one of them calls it again: d bounds the depth. -/
def reloadTo (env : Env) : Nat → St → Out
  | 0, s => (s, some .deep)
  | d + 1, s =>
    if ((env.now - s.lastPoll : Int) : Rat) > s.period then
      let s := { s with lastPoll := env.now, polls := env.now :: s.polls }
      match env.files s.rc with
      | none => (s, none)
      | some f =>
        if f.mtime > s.lastMod then
          let s := { s with lastMod := f.mtime }
          match f.options with
          | none => (s, some .io)
          | some os => parse num int (reloadTo env d) s os
        else (s, none)
    else (s, none)

/-- `reload_config`. -/
def reload (env : Env) (s : St) : Out := reloadTo num int env 2 s

/-- The calls of a user. -/
inductive Op where
  | get (k : Key)
  | set (k : Key) (v : Val)
  | rcName (name : Str) (parseNow : Bool)
  | period (p : Rat)
  | cache                      -- vw_system_cache()
  | reload

/-- `set_rc_filename` before the last lines, Settings.cc:106-123. -/
def setName (s : St) (name : Str) : St :=
  let s := if name = [] then { s with lastPoll := longMax, lastMod := longMax }
    else if name ≠ s.rc then { s with lastPoll := 0, lastMod := 0 } else s
  { s with rc := name }

/-- One call. The value of a getter is `val` afterwards (Settings.cc:192-195). -/
def step (env : Env) (s : St) : Op → Out
  | .get k => if s.fixed k then (s, none) else reload num int env s
  | .set k v => setWith (reload num int env) s k v
  | .rcName name now => if now then reload num int env (setName s name) else (setName s name, none)
  | .period p => reload num int env { s with period := p, lastPoll := 0 }
  | .cache => systemCache (reload num int env) s
  | .reload => reload num int env s

/-- A history: exceptions are caught by the caller. -/
def run (s : St) (h : List (Env × Op)) : St := h.foldl (fun s eo => (step num int eo.1 s eo.2).1) s

end

/-- The constructor, Settings.cc:177-186, with the defaults and the name of the file given. -/
def init (dflt : Key → Val) (rc : Str) : St :=
  let s : St := ⟨dflt, fun _ => false, 0, 0, [], 5, .num 0, false, [], [], []⟩
  setName s rc

end VW.Settings
