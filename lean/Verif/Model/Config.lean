import Mathlib.Data.Int.Notation
import Mathlib.Data.List.Basic
import Mathlib.Order.Basic
import Verif.Model.Py

/-!
# Model of the configuration objects (/repo/src/qtm/config.py, /repo/src/qtm/dft/config.py, /repo/src/qtm/msg_format.py,
/repo/src/qtm/fft/backend/__init__.py)
-/

namespace Verif.Config

/-- A Python value as far as the setters distinguish values. `other` stands for every value that is neither a string, an
integer, a Boolean nor `None`. -/
inductive PyVal
  | str (s : String)
  | int (n : ℤ)
  | bool (b : Bool)
  | none
  | other (k : ℕ)
  deriving DecidableEq, Repr

/-- `isinstance(val, int) and val > 0` (Python's `bool` is a subclass of `int`). -/
def isPosInt : PyVal → Bool
  | .int n => decide (0 < n)
  | .bool b => b
  | _ => false

/-- `isinstance(val, bool)`. -/
def isBool : PyVal → Bool
  | .bool _ => true
  | _ => false

/-- `val in [...]` for a list of strings. -/
def inList (v : PyVal) (l : List String) : Bool :=
  match v with
  | .str s => l.contains s
  | _ => false

/-- `value_not_in_list_msg`: evaluating `str(l_values)[1:, -1]` raises `TypeError` — msg_format.py:66-73. -/
def valueNotInListMsg : Except PyErr String := .error .type

/-- `raise ValueError(value_not_in_list_msg(…))`: the argument is evaluated first. -/
def raiseNotInList : PyErr :=
  match valueNotInListMsg with
  | .error e => e
  | .ok _ => .value

/-- Which optional packages are installed — config.py:24-28. -/
structure Installed where
  mkl : Bool
  pyfftw : Bool
  cupy : Bool
  primme : Bool

/-- `FFT_AVAILABLE_BACKENDS` — config.py:30-36. -/
def backends (i : Installed) : List String :=
  (if i.mkl then ["mkl_fft"] else []) ++ ((if i.pyfftw then ["pyfftw"] else []) ++ (["scipy", "numpy"] ++
    (if i.cupy then ["cupy"] else [])))

/-- Attributes behind the properties of `DFTConfig` (dft/config.py:100, 118, 133, 148) and `QTMConfig`
(config.py:60, 134, 153, 169). -/
structure Cfg where
  eigsolve_method : PyVal := .str "davidson"
  davidson_maxiter : PyVal := .int 20
  davidson_numwork : PyVal := .int 2
  mixing_method : PyVal := .str "modbroyden"
  logging_enabled : PyVal := .bool false
  fft_backend : PyVal
  fft_threads : PyVal := .int 1
  pyfftw_planner : PyVal := .none
  deriving DecidableEq

/-- The settable options. -/
inductive Opt
  | eigsolve_method
  | davidson_maxiter
  | davidson_numwork
  | mixing_method
  | logging_enabled
  | fft_backend
  | fft_threads
  | pyfftw_planner
  deriving DecidableEq, Repr

/-- Freshly constructed configuration objects; `QTMConfig.__init__` calls `set_gpu`, which assigns the FFT backend —
config.py:217-233 (`gpu`: the GPU is requested and `check_cupy` succeeds). -/
def init (i : Installed) (gpu : Bool) : Cfg :=
  { fft_backend := if gpu then .str "cupy" else .str ((backends i).headD "") }

/-- `cfg.opt = v` — dft/config.py:106-115, 124-131, 139-146, 154-160; config.py:69-80, 146-152, 161-167, 180-193.
Returns the exception raised, if any, and the attributes afterwards. -/
def set (i : Installed) (o : Opt) (v : PyVal) (c : Cfg) : Except PyErr Unit × Cfg :=
  match o with
  | .eigsolve_method =>
    if !i.primme && v == .str "primme" then (.error .import_, c)
    else if !inList v (["davidson", "scipy"] ++ if i.primme then ["primme"] else []) then (.error raiseNotInList, c)
    else (.ok (), { c with eigsolve_method := v })
  | .davidson_maxiter => if !isPosInt v then (.error .type, c) else (.ok (), { c with davidson_maxiter := v })
  | .davidson_numwork => if !isPosInt v then (.error .type, c) else (.ok (), c)
  | .mixing_method => if !inList v ["modbroyden", "genbroyden"] then (.error raiseNotInList, c) else (.ok (), c)
  | .logging_enabled => if !isBool v then (.error .type, c) else (.ok (), { c with logging_enabled := v })
  | .fft_backend => if !inList v (backends i) then (.error .value, c) else (.ok (), { c with fft_backend := v })
  | .fft_threads => if !isPosInt v then (.error .value, c) else (.ok (), { c with fft_threads := v })
  | .pyfftw_planner =>
    if !inList v ["FFTW_ESTIMATE", "FFTW_MEASURE", "FFTW_PATIENT", "FFTW_EXHAUSTIVE"] then (.error .value, c)
    else (.ok (), { c with pyfftw_planner := v })

/-- `cfg.opt`: the value returned and the attributes afterwards (`pyfftw_planner` stores its default when first read) —
dft/config.py:102-104, 120-122, 135-137, 150-152; config.py:62-67, 136-144, 155-159, 171-178. -/
def get (o : Opt) (c : Cfg) : PyVal × Cfg :=
  match o with
  | .eigsolve_method => (c.eigsolve_method, c)
  | .davidson_maxiter => (c.davidson_maxiter, c)
  | .davidson_numwork => (c.davidson_numwork, c)
  | .mixing_method => (c.mixing_method, c)
  | .logging_enabled => (c.logging_enabled, c)
  | .fft_backend => (c.fft_backend, c)
  | .fft_threads => (c.fft_threads, c)
  | .pyfftw_planner =>
    let c' := if c.pyfftw_planner = .none then { c with pyfftw_planner := .str "FFTW_MEASURE" } else c
    (c'.pyfftw_planner, c')

/-- `rng_seed = val` on all processes: each stores its value, then rank 0's is broadcast — config.py:208-215. -/
def setSeed {α : Type} (vals : List α) : List α :=
  match vals with
  | [] => []
  | v :: _ => vals.map fun _ => v

/-- `get_FFTBackend(backend)`: the class is represented by the name it wraps — fft/backend/__init__.py:43-94. -/
def getFFTBackend (i : Installed) (v : PyVal) : Except PyErr String :=
  if v = .str "cupy" ∧ i.cupy = false then .error .runtime
  else
    match v with
    | .str s =>
      if (["numpy", "scipy"] ++ ((if i.pyfftw then ["pyfftw"] else []) ++ ((if i.mkl then ["mkl_fft"] else []) ++
          (if i.cupy then ["cupy"] else [])))).contains s then .ok s
      else .error raiseNotInList
    | _ => .error raiseNotInList

end Verif.Config
