import Verif.Run.Chunks
import Mathlib.Algebra.Module.Basic
import Mathlib.Algebra.BigOperators.Group.List.Basic

/-!
# The loop over spin systems, and `Simulator.run` — model

Arrays of intensities are elements of an arbitrary `ℚ`-module `V`. The C kernel
`__mrsimulator_core` (src/c_lib/lib/simulation.c:37-171) is represented by what it adds
to the intensity array for one spin system and one transition pathway, `core`; that it
only adds, and that this amount depends on nothing else (the shared phase buffer is
restored, property C44), is an assumption of this file.
-/

namespace MRS.Run

/-- A spin system as the loop sees it: the isotope symbols of its sites, the
user-given pathways if any, the abundance, and all interaction parameters (base_model.pyx lines 249-430). -/
structure Sys (Φ Path : Type) where
  isotopes : List String
  explicit : Option (List Path)
  abundance : ℚ
  phys : Φ

/-- Everything that is fixed during one call (base_model.pyx lines 15-245). -/
structure Env (Φ Path V : Type) [AddCommMonoid V] [Module ℚ V] where
  /-- `method.channels[0].symbol` -/
  channel : String
  /-- `np.prod(incre)` (base_model.pyx:171) -/
  norm : ℚ
  /-- `gyromagnetic_ratio < 0` -/
  gammaNeg : Bool
  /-- `fftn(ifftn(a).conj()).real` on an array, see C59 -/
  mirror : V →+ V
  /-- `method._get_transition_pathways_np(spin_sys)`; depends on the isotopes only -/
  sel : List String → Py (List Path)
  /-- `__mrsimulator_core` -/
  core : Φ → Path → V
  /-- first dimension's count: number of items obtained by iterating over an array -/
  rows : Nat

variable {Φ Path V : Type} [AddCommMonoid V] [Module ℚ V]

/-- Loop variables (base_model.pyx:205-247). `ind` is `amp_individual`, where `none`
is the empty list appended for a system without the observed isotope. -/
structure St (Path V : Type) where
  pN : Nat
  pIso : Option (List String)
  paths : List Path
  amp1 : V
  ind : List (Option V)

/-- base_model.pyx:441-446: `spin_sys.transition_pathways` is used unless `None`. -/
def userOrSelected (env : Env Φ Path V) (s : Sys Φ Path) : Py (List Path) :=
  match s.explicit with
  | none => env.sel s.isotopes
  | some p => .ok p

/-- base_model.pyx:438-453: the pathway cache. An empty selection has shape `(0,)`,
so that unpacking `shape[:2]` into two variables is a `ValueError`. -/
def cache (env : Env Φ Path V) (st : St Path V) (s : Sys Φ Path) : Py (St Path V) :=
  if s.isotopes.length ≠ st.pN ∧ some s.isotopes ≠ st.pIso then do
    let p ← userOrSelected env s
    match p with
    | [] => .error .valueError
    | p => .ok { st with paths := p, pN := s.isotopes.length, pIso := some s.isotopes }
  else .ok st

/-- base_model.pyx:249-489: one pass of the loop over spin systems. -/
def step (env : Env Φ Path V) (decompose : Bool) (st : St Path V) (s : Sys Φ Path) :
    Py (St Path V) :=
  if env.channel ∉ s.isotopes then
    .ok (if decompose then { st with ind := st.ind ++ [none] } else st)
  else do
    let st ← cache env st s
    let amp := st.paths.foldl (fun a p => a + env.core s.phys p) 0
    let temp := (s.abundance / env.norm) • amp
    return if decompose then { st with ind := st.ind ++ [some temp] }
      else { st with amp1 := st.amp1 + temp }

/-- What `one_d_spectrum` returns: an array, or a list of arrays (`none`: empty list) (base_model.pyx lines 494-508). -/
inductive Out (V : Type)
  | arr (v : V)
  | list (l : List (Option V))

/-- `np.fft.ifftn([])` is a `ValueError` (base_model.pyx line 497). -/
def mirrorEntry (env : Env Φ Path V) : Option V → Py (Option V)
  | none => .error .valueError
  | some v => .ok (some (env.mirror v))

/-- base_model.pyx:494-508. -/
def finish (env : Env Φ Path V) (decompose : Bool) (st : St Path V) : Py (Out V) :=
  if decompose ∧ st.ind.length ≠ 0 then
    if env.gammaNeg then do return .list (← st.ind.mapM (mirrorEntry env))
    else .ok (.list st.ind)
  else .ok (.arr (if env.gammaNeg then env.mirror st.amp1 else st.amp1))

/-- base_model.pyx:15-508 `one_d_spectrum`. -/
def oneD (env : Env Φ Path V) (decompose : Bool) (systems : List (Sys Φ Path)) : Py (Out V) := do
  let st ← systems.foldlM (step env decompose) ⟨0, none, [], 0, []⟩
  finish env decompose st

/-- One item of `simulated_data`: a spectrum, an empty list, or a single row of an
array that was spliced into the list (simulator/__init__.py lines 468-471). -/
inductive Datum (V : Type)
  | spec (v : V)
  | empty
  | strayRow
  deriving DecidableEq

/-- An entry of a decomposed result as an item of `simulated_data` (simulator/__init__.py lines 468-471). -/
def Datum.ofEntry : Option V → Datum V
  | none => .empty
  | some v => .spec v

/-- simulator/__init__.py:468-471: `simulated_data += item`; adding an array to a list
appends its rows. -/
def spliced (env : Env Φ Path V) : Out V → List (Datum V)
  | .list l => l.map .ofEntry
  | .arr _ => List.replicate env.rows .strayRow

/-- simulator/__init__.py:472-473: `np.asarray(amp).sum(axis=0)`; an array first and a
list later does not happen and is not given a meaning. -/
def sumArrays : List (Out V) → Py V
  | [] => .ok 0
  | .arr v :: l => do return v + (← sumArrays l)
  | .list _ :: _ => .error .undefinedBehaviour

/-- simulator/__init__.py:468-473. `amp[0]` of an empty list is an `IndexError`. -/
def collect (env : Env Φ Path V) (amp : List (Out V)) : Py (List (Datum V)) :=
  match amp with
  | [] => .error .indexError
  | .list _ :: _ => .ok (amp.flatMap (spliced env))
  | .arr _ :: _ => do return [.spec (← sumArrays amp)]

/-- simulator/__init__.py:404-479 `Simulator.run` for one method: chunks, one call per
chunk with the results in order (joblib), collection. -/
def run (env : Env Φ Path V) (cpu : Int) (decompose : Bool) (systems : List (Sys Φ Path))
    (nJobs : Int) : Py (List (Datum V)) := do
  let chunks ← Chunks.getChunks cpu systems nJobs
  let amp ← chunks.mapM (oneD env decompose)
  collect env amp

end MRS.Run
