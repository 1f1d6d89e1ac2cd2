import Verif.Config.Model

/-!
# Model of the logger and of the caches of `gpmp/config.py`

The logger `gpmp` belongs to the process (`logging.getLogger` returns the same object each time), so its level and its
handlers survive a reload of the module.  Of Python's `logging` the model has the level test, the handlers of the
logger, those of the root logger (records propagate) and the handler of last resort.  A written line is its level and
its message.  Not modelled: formats, `logging.disable`, levels of handlers, names added with `addLevelName`.
-/

set_option autoImplicit false

namespace Verif.Config.Log

open Verif Verif.Config

/-- `str.upper` on the characters used here. -/
def upper (s : Str) : Str := s.map Char.toUpper

/-- The names of the levels, `logging._nameToLevel`. -/
def levels : List (Str × Int) :=
  [("CRITICAL".toList, 50), ("FATAL".toList, 50), ("ERROR".toList, 40), ("WARN".toList, 30), ("WARNING".toList, 30),
    ("INFO".toList, 20), ("DEBUG".toList, 10), ("NOTSET".toList, 0)]

/-- What can be given as a level. -/
inductive Obj where
  | int (z : Int)
  | str (s : Str)
  | other

/-- The attributes of the module `logging` whose name is in upper case: the levels, a format and a table. -/
def attrs (name : Str) : Option Obj :=
  match levels.lookup name with
  | some z => some (.int z)
  | none =>
    if name = "BASIC_FORMAT".toList then some (.str "%(levelname)s:%(name)s:%(message)s".toList)
    else if name = "_STYLES".toList then some .other
    else none

/-- `Logger.setLevel` reads its argument with `logging._checkLevel`. -/
def checkLevel : Obj → Py Int
  | .int z => .ok z
  | .str s => match levels.lookup s with
    | some z => .ok z
    | none => .error .valueError
  | .other => .error .typeError

/-- The level at import, config.py 115-116: the attribute of `logging` with that name, `INFO` if there is none. -/
def initLevel (env : Option Str) : Py Int :=
  checkLevel ((attrs (upper (env.getD "INFO".toList))).getD (.int 20))

/-- The logger `gpmp`, the root logger, and what has been written. -/
structure St where
  /-- `gpmp.config` is in `sys.modules` -/
  loaded : Bool
  level : Int
  handlers : Nat
  rootLevel : Int
  rootHandlers : Nat
  out : List (Int × Str)

/-- A new process. -/
def start : St := ⟨false, 0, 0, 30, 0, []⟩

/-- The logger part of `_GPMPConfig.__init__`, config.py 109-116: a handler if there is none, then the level. -/
def initLogger (env : Option Str) (s : St) : Py Unit × St :=
  let s1 := if s.handlers = 0 then { s with handlers := 1 } else s
  match initLevel env with
  | .error e => (.error e, s1)
  | .ok z => (.ok (), { s1 with level := z })

/-- `import gpmp.config`: nothing when it is loaded. -/
def importConfig (env : Option Str) (s : St) : Py Unit × St :=
  if s.loaded then (.ok (), s)
  else match initLogger env s with
    | (.error e, s1) => (.error e, s1)
    | (.ok _, s1) => (.ok (), { s1 with loaded := true })

/-- `set_log_level`, config.py 235-236. -/
def setLogLevel (l : Obj) (s : St) : Py Unit × St :=
  if s.loaded then
    match checkLevel l with
    | .error e => (.error e, s)
    | .ok z => (.ok (), { s with level := z })
  else (.error .nameError, s)

/-- `Logger.getEffectiveLevel`: the root's level when the logger has none. -/
def effective (s : St) : Int := if s.level = 0 then s.rootLevel else s.level

/-- How often a record is written: once for each handler, or by the handler of last resort. -/
def copies (s : St) (lvl : Int) : Nat :=
  if s.handlers + s.rootHandlers = 0 then (if 30 ≤ lvl then 1 else 0) else s.handlers + s.rootHandlers

/-- `Logger.log` on the logger of `get_logger`, config.py 231-232 (such as numpy_backend.py 27, torch_backend.py 26). -/
def emit (lvl : Int) (msg : Str) (s : St) : St :=
  if 0 < lvl ∧ effective s ≤ lvl then { s with out := s.out ++ List.replicate (copies s lvl) (lvl, msg) } else s

/-- What a user can do. -/
inductive LOp where
  | importConfig (env : Option Str)
  /-- `importlib.reload(gpmp.config)` -/
  | reload (env : Option Str)
  | setLogLevel (l : Obj)
  | emit (lvl : Int) (msg : Str)
  /-- a handler on the root logger, as `logging.basicConfig()` adds -/
  | rootHandler
  | rootLevel (z : Int)

/-- One action. -/
def lstep (s : St) : LOp → Py Unit × St
  | .importConfig env => importConfig env s
  | .reload env => if s.loaded then initLogger env s else (.error .nameError, s)
  | .setLogLevel l => setLogLevel l s
  | .emit lvl msg => if s.loaded then (.ok (), emit lvl msg s) else (.error .nameError, s)
  | .rootHandler => (.ok (), { s with rootHandlers := s.rootHandlers + 1 })
  | .rootLevel z => (.ok (), { s with rootLevel := z })

/-- The state after a list of actions (exceptions are caught by the caller). -/
def lrun (s : St) (ops : List LOp) : St := ops.foldl (fun s op => (lstep s op).2) s

/-- `config.caches`, a dictionary, and `_GPMPConfig.clear_caches`, config.py 161-165, behind `clear_caches`, 227-228. -/
def clearCaches {V : Type} (name : Option Str) (caches : List (Str × V)) : List (Str × V) :=
  match name with
  | none => []
  | some k => caches.filter fun p => p.1 ≠ k

/-- `caches.setdefault(k, {})` and storing in it, shared.py 29. -/
def putCache {V : Type} (k : Str) (v : V) (caches : List (Str × V)) : List (Str × V) :=
  (k, v) :: caches.filter fun p => p.1 ≠ k

end Verif.Config.Log
