import Verif.Py

/-!
# Model of `gpmp/config.py`

The process environment is part of the state (two variables).  Strings are
character lists.  Not modelled: logger, device, seed, version, `dtype_resolved`,
arbitrary attributes set through `update`.
-/

namespace Verif.Config

open Verif

abbrev Str := List Char

/-- `str.lower` on the characters used here. -/
def lower (s : Str) : Str := s.map Char.toLower

/-- `t in s` for strings. -/
def hasSub : Str → Str → Bool
  | [], t => t.isEmpty
  | c :: s, t => t.isPrefixOf (c :: s) || hasSub s t

/-- `s.endswith(t)`. -/
def endsWith (s t : Str) : Bool := t.isSuffixOf s

def sFloat32 : Str := ['f','l','o','a','t','3','2']
def sFloat64 : Str := ['f','l','o','a','t','6','4']
def sDouble : Str := ['d','o','u','b','l','e']
def sF4 : Str := ['f','4']
def sF8 : Str := ['f','8']
def s32 : Str := ['3','2']
def s64 : Str := ['6','4']
def sNumpy : Str := ['n','u','m','p','y']
def sTorch : Str := ['t','o','r','c','h']
def sJax : Str := ['j','a','x']

/-- What may be passed as dtype: nothing, the Python type `float`, or anything
with a string form. -/
inductive DtypeArg where
  | none
  | pyFloat
  | str (s : Str)

/-- `_normalize_dtype_spec`, config.py 59-78.  (Only `"float64"` is ever
returned.) -/
def normalizeDtype : DtypeArg → Py Str
  | .none => .ok sFloat64
  | .pyFloat => .ok sFloat64
  | .str s0 =>
    let s := lower s0
    if hasSub s sFloat32 || endsWith s sF4 || endsWith s s32 then .error .valueError
    else if hasSub s sFloat64 || hasSub s sDouble || endsWith s sF8 || endsWith s s64 then
      .ok sFloat64
    else .error .valueError

/-- What may be passed as backend. -/
inductive BackendArg where
  | none
  | str (s : Str)
  | other

/-- `_normalize_backend_spec`, config.py 81-91. -/
def normalizeBackend : BackendArg → Py (Option Str)
  | .none => .ok Option.none
  | .other => .error .valueError
  | .str s =>
    let b := lower s
    if b = sJax then .error .valueError
    else if b ≠ sNumpy ∧ b ≠ sTorch then .error .valueError
    else .ok (some b)

/-- The part of the process state concerned. -/
structure State where
  backend : Option Str
  dtype : Str
  envBackend : Option Str
  envDtype : Option Str

/-- `_GPMPConfig.__init__`, config.py 95-101: import-time state from the
environment (raises if `GPMP_DTYPE` is not acceptable). -/
def init (envBackend envDtype : Option Str) : Py State := do
  let d ← normalizeDtype (.str (envDtype.getD sFloat64))
  return ⟨Option.none, d, envBackend, envDtype⟩

/-- `_detect_backend`, config.py 174-187; `torch` says whether
`find_spec("torch")` finds the package. -/
def detect (torch : Bool) (env : Option Str) : Py Str :=
  match env.map lower with
  | some e =>
    if e = sJax then .error .runtimeError
    else if e = sNumpy ∨ e = sTorch then .ok e
    else if torch then .ok sTorch else .ok sNumpy
  | Option.none => if torch then .ok sTorch else .ok sNumpy

/-- `init_backend`, config.py 190-196. -/
def initBackend (torch : Bool) (s : State) : Py Str × State :=
  match s.backend with
  | some b => (.ok b, s)
  | Option.none =>
    match detect torch s.envBackend with
    | .ok b => (.ok b, { s with backend := some b, envBackend := some b })
    | .error e => (.error e, s)

/-- `get_backend`, config.py 206-208. -/
def getBackend (torch : Bool) (s : State) : Py Str × State :=
  match s.backend with
  | some b => (.ok b, s)
  | Option.none => initBackend torch s

/-- `set_backend`, config.py 199-203: with `None` the attribute is assigned and
then `os.environ[...] = None` raises `TypeError`. -/
def setBackend (a : BackendArg) (s : State) : Py Unit × State :=
  match normalizeBackend a with
  | .error e => (.error e, s)
  | .ok (some b) => (.ok (), { s with backend := some b, envBackend := some b })
  | .ok Option.none => (.error .typeError, { s with backend := Option.none })

/-- `set_dtype`, config.py 211-220. -/
def setDtype (a : DtypeArg) (s : State) : Py Unit × State :=
  match normalizeDtype a with
  | .error e => (.error e, s)
  | .ok d => (.ok (), { s with dtype := d, envDtype := some d })

/-- `os.environ["GPMP_BACKEND"] = b` when `b is not None` (config.py 147-148). -/
def putEnvBackend (b : Option Str) (s : State) : State :=
  match b with
  | some b => { s with envBackend := some b }
  | Option.none => s

/-- First block of `update`, config.py 145-148: validates the backend and
updates the environment; the outer `Option` says whether the keyword is present. -/
def updBackend (a : Option BackendArg) (s : State) : Py (Option (Option Str)) × State :=
  match a with
  | Option.none => (.ok Option.none, s)
  | some a =>
    match normalizeBackend a with
    | .error e => (.error e, s)
    | .ok b => (.ok (some b), putEnvBackend b s)

/-- Second block of `update`, config.py 150-154. -/
def updDtype (a : Option DtypeArg) (s : State) : Py (Option Str) × State :=
  match a with
  | Option.none => (.ok Option.none, s)
  | some a =>
    match normalizeDtype a with
    | .error e => (.error e, s)
    | .ok d => (.ok (some d), { s with envDtype := some d })

/-- The `setattr` loop, config.py 156-157. -/
def assign (b : Option (Option Str)) (d : Option Str) (s : State) : State :=
  { s with backend := b.getD s.backend, dtype := d.getD s.dtype }

/-- Second and third blocks of `update`, config.py 150-158. -/
def updateRest (b : Option (Option Str)) (da : Option DtypeArg) (s : State) : Py Unit × State :=
  match updDtype da s with
  | (.error e, s2) => (.error e, s2)
  | (.ok d, s2) => (.ok (), assign b d s2)

/-- `_GPMPConfig.update(backend=…, dtype=…)`, config.py 143-158. -/
def update (ba : Option BackendArg) (da : Option DtypeArg) (s : State) : Py Unit × State :=
  match updBackend ba s with
  | (.error e, s1) => (.error e, s1)
  | (.ok b, s1) => updateRest b da s1

/-- Public operations on the configuration. -/
inductive Op where
  | setBackend (a : BackendArg)
  | setDtype (a : DtypeArg)
  | update (b : Option BackendArg) (d : Option DtypeArg)
  | getBackend
  | initBackend

/-- Effect of an operation: outcome (value forgotten) and state. -/
def step (torch : Bool) (s : State) : Op → Py Unit × State
  | .setBackend a => setBackend a s
  | .setDtype a => setDtype a s
  | .update b d => update b d s
  | .getBackend => let r := getBackend torch s; (r.1.map (fun _ => ()), r.2)
  | .initBackend => let r := initBackend torch s; (r.1.map (fun _ => ()), r.2)

/-- State after a list of operations (exceptions are caught by the caller). -/
def run (torch : Bool) (s : State) (ops : List Op) : State :=
  ops.foldl (fun s op => (step torch s op).2) s

end Verif.Config
