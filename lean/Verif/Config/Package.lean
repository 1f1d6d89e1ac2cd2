import Verif.Config.Model

/-!
# Importing the package

`/repo/gpmp/__init__.py`, `/repo/gpmp/core/__init__.py` and `core/model.py` 10-19, the import of
`/repo/gpmp/num/__init__.py`, the attribute `dtype_resolved` of the configuration, and the functions
of `config.py` which can be called once `import gpmp` has returned.

`import gpmp.config`, `from gpmp import config` and `import gpmp.num` all import the package `gpmp`
first (Python runs `gpmp/__init__.py`), which imports `gpmp.config`, then `gpmp.core`, whose first
statement after `warnings` is `import gpmp.num`.  A module whose import fails is removed from
`sys.modules`; the modules it had already imported stay.
-/

set_option autoImplicit false

namespace Verif.Config

open Verif

/-- `ModuleNotFoundError`. -/
def errImport : PyErr := .other 7

/-- A Python process. -/
structure Proc where
  /-- environment and, once `gpmp.config` is imported, the configuration -/
  st : State
  /-- `gpmp.config` is in `sys.modules` -/
  loaded : Bool
  /-- the backend module behind `gpmp.num`, once it is imported -/
  num : Option Str
  /-- `gpmp` is in `sys.modules` (its `__init__` ran to the end) -/
  pkg : Bool
  /-- `dtype_resolved` -/
  resolved : Option Str
  device : Str

/-- A new process with its environment. -/
def Proc.start (envBackend envDtype : Option Str) : Proc :=
  ⟨⟨Option.none, [], envBackend, envDtype⟩, false, Option.none, false, Option.none, []⟩

/-- Import of `gpmp.config`, config.py 94-118, 167. -/
def importConfig (p : Proc) : Py Unit × Proc :=
  if p.loaded then (.ok (), p)
  else match init p.st.envBackend p.st.envDtype with
    | .error e => (.error e, p)
    | .ok st => (.ok (), { p with st := st, loaded := true, resolved := Option.none, device := ['c','p','u'] })

/-- Import of `gpmp.num`, num/__init__.py 21-40 with the head of the backend module
(numpy_backend.py 24-60, torch_backend.py 23-60); `torch` says whether torch is installed. -/
def importNum (torch : Bool) (p : Proc) : Py Unit × Proc :=
  match p.num with
  | some _ => (.ok (), p)
  | Option.none =>
    match initBackend torch p.st with
    | (.error e, st) => (.error e, { p with st := st })
    | (.ok b, st) =>
      if b = sTorch ∧ torch = false then (.error errImport, { p with st := st })
      else (.ok (), { p with st := st, num := some b, resolved := some sFloat64 })

/-- `import gpmp`, gpmp/__init__.py 28-29 and core/model.py 11: configuration, then `gpmp.core`,
which imports `gpmp.num`. -/
def importGpmp (torch : Bool) (p : Proc) : Py Unit × Proc :=
  if p.pkg then (.ok (), p)
  else match importConfig p with
    | (.error e, p1) => (.error e, p1)
    | (.ok _, p1) =>
      match importNum torch p1 with
      | (.error e, p2) => (.error e, p2)
      | (.ok _, p2) => (.ok (), { p2 with pkg := true })

/-- Does the call assign `dtype_resolved = None` (config.py 150-157, 219)?  Only when it succeeds. -/
def resetsResolved (torch : Bool) (s : State) : Op → Bool
  | .setDtype a => match (setDtype a s).1 with | .ok _ => true | .error _ => false
  | .update b (some d) => match (step torch s (.update b (some d))).1 with | .ok _ => true | .error _ => false
  | _ => false

/-- What the user can do. -/
inductive POp where
  /-- `os.environ["GPMP_BACKEND"] = …`, or deletion -/
  | setenvBackend (v : Option Str)
  /-- `os.environ["GPMP_DTYPE"] = …`, or deletion -/
  | setenvDtype (v : Option Str)
  | importGpmp
  /-- a function of `gpmp.config` -/
  | config (op : Op)
  /-- `set_device`, config.py 223-224 -/
  | setDevice (d : Str)

/-- One action, outcome and process afterwards; `gpmp.config` cannot be named before `import gpmp`
has succeeded. -/
def pstep (torch : Bool) (p : Proc) : POp → Py Unit × Proc
  | .setenvBackend v => (.ok (), { p with st := { p.st with envBackend := v } })
  | .setenvDtype v => (.ok (), { p with st := { p.st with envDtype := v } })
  | .importGpmp => importGpmp torch p
  | .config op =>
    if p.pkg then
      let r := step torch p.st op
      (r.1, { p with st := r.2, resolved := if resetsResolved torch p.st op then Option.none else p.resolved })
    else (.error .nameError, p)
  | .setDevice d => if p.pkg then (.ok (), { p with device := d }) else (.error .nameError, p)

/-- The process after a list of actions (exceptions are caught by the caller). -/
def prun (torch : Bool) (p : Proc) (ops : List POp) : Proc := ops.foldl (fun p op => (pstep torch p op).2) p

/-- `gnp._gpmp_backend_`, num/__init__.py 25. -/
def numBackend (p : Proc) : Option Str := p.num

/-- `gnp.get_dtype()`, shared.py 17-18. -/
def getDtype (p : Proc) : Option Str := p.resolved

/-! ## Versions -/

/-- What the two places read: the text of `VERSION` (`none` when it cannot be opened) and the version
of the installed distribution (`none` when there is none). -/
structure VersionSources where
  file : Option Str
  dist : Option Str

/-- `str.strip` on the characters used here. -/
def strip (s : Str) : Str :=
  let ws := fun (c : Char) => c = ' ' || c = '\n' || c = '\t' || c = '\r'
  ((s.dropWhile ws).reverse.dropWhile ws).reverse

/-- `"0.0.0"`. -/
def sZero : Str := ['0', '.', '0', '.', '0']

/-- `gpmp._read_version`, gpmp/__init__.py 58-70. -/
def readVersion (v : VersionSources) : Str :=
  match v.file with
  | some t => if strip t = [] then sZero else strip t
  | Option.none => v.dist.getD sZero

/-- `gpmp.config.__version__`, config.py 46-56. -/
def configVersion (v : VersionSources) : Str :=
  match v.file with
  | some t => strip t
  | Option.none => v.dist.getD sZero

/-! ## Attributes found on first access -/

/-- A package: names bound so far, with their objects, names that `__getattr__` serves. -/
structure Pkg (Obj : Type) where
  globals : List (Str × Obj)
  lazy : List Str

/-- The object bound to a name: the latest binding. -/
def lookup {Obj : Type} (g : List (Str × Obj)) (name : Str) : Option Obj :=
  (g.find? fun x => x.1 = name).map Prod.snd

/-- `pkg.name`: `globals()` first, then `__getattr__` of gpmp/__init__.py 76-81, mcmc/__init__.py
103-110 and modeldiagnosis/__init__.py 66-73; `fetch` imports the module and takes the object. -/
def getAttr {Obj : Type} (fetch : Str → Py Obj) (p : Pkg Obj) (name : Str) : Py Obj × Pkg Obj :=
  match lookup p.globals name with
  | some o => (.ok o, p)
  | none =>
    if name ∈ p.lazy then
      match fetch name with
      | .error e => (.error e, p)
      | .ok o => (.ok o, { p with globals := (name, o) :: p.globals })
    else (.error .attributeError, p)

/-- Accesses one after the other. -/
def accesses {Obj : Type} (fetch : Nat → Str → Py Obj) : Nat → Pkg Obj → List Str → Pkg Obj
  | _, p, [] => p
  | k, p, n :: ns => accesses fetch (k + 1) (getAttr (fetch k) p n).2 ns

/-- The elements of `dir(gpmp)` and `dir(gpmp.mcmc)`, gpmp/__init__.py 84-85, mcmc/__init__.py 113-114
(order left out). -/
def dirAll {Obj : Type} (p : Pkg Obj) (name : Str) : Prop := name ∈ p.globals.map Prod.fst ∨ name ∈ p.lazy

/-- The elements of `dir(gpmp.modeldiagnosis)`, modeldiagnosis/__init__.py 76-77; `all` is `__all__`. -/
def dirDiag {Obj : Type} (all : List Str) (p : Pkg Obj) (name : Str) : Prop := name ∈ all ∨ name ∈ p.lazy

/-- `__all__` of mcmc/__init__.py 43-68. -/
def mcmcAll : List String :=
  ["MHOptions", "MetropolisHastings", "sample_multivariate_normal_with_jitter", "nuts_sample",
    "nuts_transition", "NUTSOptions", "plot_nuts_diagnostics", "ParticlesSetConfig", "SMCConfig",
    "ParticlesSet", "SMC", "run_smc_sampling", "log_indicator_density", "run_subset_simulation",
    "sample_from_selection_criterion_mh", "sample_from_selection_criterion_nuts",
    "sample_from_selection_criterion_smc", "sample_from_selection_criterion_svgd",
    "get_log_target_values", "SVGDOptions", "rbf_kernel_matrix", "svgd_step", "svgd_sample",
    "plot_svgd_empirical_distributions"]

/-- `_EXPORT_TO_MODULE` of mcmc/__init__.py 70-100. -/
def mcmcExports : List (String × String) :=
  [("MHOptions", "mh"), ("MetropolisHastings", "mh"), ("sample_multivariate_normal_with_jitter", "mh"),
    ("nuts_sample", "nuts"), ("nuts_transition", "nuts"), ("NUTSOptions", "nuts"),
    ("plot_nuts_diagnostics", "nuts"), ("ParticlesSetConfig", "smc"), ("SMCConfig", "smc"),
    ("ParticlesSet", "smc"), ("SMC", "smc"), ("run_smc_sampling", "smc"),
    ("log_indicator_density", "smc"), ("run_subset_simulation", "smc"),
    ("sample_from_selection_criterion_mh", "param_posterior"),
    ("sample_from_selection_criterion_nuts", "param_posterior"),
    ("sample_from_selection_criterion_smc", "param_posterior"),
    ("sample_from_selection_criterion_svgd", "param_posterior"),
    ("get_log_target_values", "param_posterior"), ("SVGDOptions", "svgd"), ("rbf_kernel_matrix", "svgd"),
    ("svgd_step", "svgd"), ("svgd_sample", "svgd"), ("plot_svgd_empirical_distributions", "svgd")]

end Verif.Config
