import Verif.Dict
import Mathlib.Data.Rat.Defs

/-!
# Saving and loading signal processors — property C82

Model of `json` and `parse_dict_with_units` in src/mrsimulator/signal_processing (`__init__.py`, `_base.py`, `apodization.py`,
`affine.py`, `utils.py`) with src/mrsimulator/utils/parseable.py.

Simplified: a quantity string is a pair of number and unit text; numbers are printed exactly.  What the unit library makes of a
unit text is the parameter `lib`; a unit is represented by its printed form.  Pydantic's validation is modelled for the types that occur.
-/

namespace MRS.Signal

open Dict

/-- Values in a dictionary. `qty q u` is the string f"{q} {u}". -/
inductive JV
  | none
  | num (q : ℚ)
  | int (i : ℤ)
  | ints (l : List ℤ)
  | qty (q : ℚ) (u : String)
  | str (s : String)
  deriving DecidableEq, Repr

/-- Values in `property_units`: a unit of the library (by its printed form), the default `""` of the apodisations
(apodization.py:98, 142), or the quantity `const` of the affine operations (utils.py:9). -/
inductive PUnit
  | name (u : String)
  | blank
  | one
  deriving DecidableEq, Repr

/-- How a unit appears in a formatted string (parseable.py:116-117; the percent sign is what the library prints for `pct`). -/
def PUnit.str : PUnit → String
  | .name u => u
  | .blank => ""
  | .one => "1.0"

/-- `Union[int, list, tuple]` (signal_processing/affine.py lines 108-176). -/
inductive Ix
  | one (i : ℤ)
  | many (l : List ℤ)
  deriving DecidableEq, Repr

/-- The operations as objects, with `property_units` where the class has an entry there
(signal_processing/apodization.py, affine.py). -/
inductive OpObj
  | scale (factor : ℚ)
  | ifft (dim : Ix)
  | fft (dim : Ix)
  | conj
  | gaussian (dim : Ix) (dv : Option Ix) (fwhm : ℚ) (units : Dict PUnit)
  | exponential (dim : Ix) (dv : Option Ix) (fwhm : ℚ) (units : Dict PUnit)
  | shear (dim : ℤ) (dv : Option Ix) (factor : ℚ) (parallel : ℤ) (units : Dict PUnit)
  | affScale (dim : ℤ) (dv : Option Ix) (factor : ℚ) (units : Dict PUnit)
  deriving DecidableEq, Repr

/-- The classes (signal_processing/apodization.py, affine.py). -/
inductive Cls
  | scale | ifft | fft | conj | gaussian | exponential | shear | affScale
  deriving DecidableEq, Repr

/-- Validation of a `float` field. Python's `float` reads a number followed by blanks. -/
def toFloat : JV → Py ℚ
  | .num q => .ok q
  | .int i => .ok i
  | .qty q u => if u = "" then .ok q else .error .valueError
  | _ => .error .valueError

/-- Validation of an `int` field: numbers are truncated. -/
def toInt : JV → Py ℤ
  | .num q => .ok (q.num.tdiv q.den)
  | .int i => .ok i
  | _ => .error .valueError

/-- Validation of a `Union[int, list, tuple]` field. -/
def toIx : JV → Py Ix
  | .ints l => .ok (.many l)
  | v => match toInt v with
    | .ok i => .ok (.one i)
    | .error e => .error e

/-- Validation of the same with None allowed (its default is None). -/
def toDv : JV → Py (Option Ix)
  | .none => .ok none
  | v => match toIx v with
    | .ok i => .ok (some i)
    | .error e => .error e

/-- Validation of a `Union[float, str]` field with `_str_to_quantity` (utils.py:24-30): a number keeps the units
that are there, a string sets them. -/
def toQuantity (lib : String → Option String) (prop : String) (us : Dict PUnit) (v : JV) : Py (ℚ × Dict PUnit) :=
  match toFloat v with
  | .ok q => .ok (q, us)
  | .error _ =>
    match v with
    | .qty q u =>
      match lib u with
      | some n => .ok (q, [(prop, .name n)])
      | none => .error .valueError
    | _ => .error .valueError

/-- A keyword argument or its default (signal_processing/_base.py lines 17-52). -/
def arg (d : Dict JV) (k : String) (default : JV) : JV := (d.get? k).getD default

/-- Calling a class with keyword arguments `d`, and `property_units` if given. Other keywords are ignored. Field order and
defaults: __init__.py:108, 136; apodization.py:20-21, 97-98, 141-142; affine.py:21-22, 97-99, 160-161. -/
def construct (lib : String → Option String) (c : Cls) (d : Dict JV) (pu : Option (Dict PUnit)) : Py OpObj :=
  match c with
  | .scale => do
    let f ← toFloat (arg d "factor" (.int 1))
    .ok (.scale f)
  | .ifft => do
    let i ← toIx (arg d "dim_index" (.int 0))
    .ok (.ifft i)
  | .fft => do
    let i ← toIx (arg d "dim_index" (.int 0))
    .ok (.fft i)
  | .conj => .ok .conj
  | .gaussian => do
    let i ← toIx (arg d "dim_index" (.int 0))
    let v ← toDv (arg d "dv_index" .none)
    let q ← toQuantity lib "FWHM" (pu.getD [("FWHM", .blank)]) (arg d "FWHM" (.int 0))
    .ok (.gaussian i v q.1 q.2)
  | .exponential => do
    let i ← toIx (arg d "dim_index" (.int 0))
    let v ← toDv (arg d "dv_index" .none)
    let q ← toQuantity lib "FWHM" (pu.getD [("FWHM", .blank)]) (arg d "FWHM" (.int 0))
    .ok (.exponential i v q.1 q.2)
  | .shear => do
    let i ← toInt (arg d "dim_index" (.int 0))
    let v ← toDv (arg d "dv_index" .none)
    let q ← toQuantity lib "factor" (pu.getD [("factor", .one)]) (arg d "factor" (.int 0))
    let p ← toInt (arg d "parallel" (.int 1))
    .ok (.shear i v q.1 p q.2)
  | .affScale => do
    let i ← toInt (arg d "dim_index" (.int 0))
    let v ← toDv (arg d "dv_index" .none)
    let q ← toQuantity lib "factor" (pu.getD [("factor", .one)]) (arg d "factor" (.int 1))
    .ok (.affScale i v q.1 q.2)

/-- An index field as a value. -/
def Ix.val : Ix → JV
  | .one i => .int i
  | .many l => .ints l

/-- An optional index field as a value. -/
def dvVal : Option Ix → JV
  | none => .none
  | some i => i.val

/-- `self.dict(exclude={"property_units"})` (signal_processing/_base.py lines 17-52). -/
def OpObj.dict : OpObj → Dict JV
  | .scale f => [("factor", .num f)]
  | .ifft i => [("dim_index", i.val)]
  | .fft i => [("dim_index", i.val)]
  | .conj => []
  | .gaussian i v q _ => [("dim_index", i.val), ("dv_index", dvVal v), ("FWHM", .num q)]
  | .exponential i v q _ => [("dim_index", i.val), ("dv_index", dvVal v), ("FWHM", .num q)]
  | .shear i v q p _ => [("dim_index", .int i), ("dv_index", dvVal v), ("factor", .num q), ("parallel", .int p)]
  | .affScale i v q _ => [("dim_index", .int i), ("dv_index", dvVal v), ("factor", .num q)]

/-- `property_units` (signal_processing/apodization.py, affine.py). -/
def OpObj.units : OpObj → Dict PUnit
  | .gaussian _ _ _ us => us
  | .exponential _ _ _ us => us
  | .shear _ _ _ _ us => us
  | .affScale _ _ _ us => us
  | _ => []

/-- `function` (_base.py:14-16, apodization.py:28-30, affine.py:29-31). -/
def OpObj.function : OpObj → String
  | .scale _ => "Scale"
  | .ifft _ => "IFFT"
  | .fft _ => "FFT"
  | .conj => "complex_conjugate"
  | .gaussian .. => "apodization"
  | .exponential .. => "apodization"
  | .shear .. => "affine"
  | .affScale .. => "affine"

/-- `type`, where the class has it (apodization.py:32-35, affine.py:33-36). -/
def OpObj.type : OpObj → Option String
  | .gaussian .. => some "Gaussian"
  | .exponential .. => some "Exponential"
  | .shear .. => some "Shear"
  | .affScale .. => some "Scale"
  | _ => none

/-- f"{v} {u}" (parseable.py:117), for the values that have a unit. -/
def format (v : JV) (u : PUnit) : JV :=
  match v with
  | .num q => .qty q u.str
  | .int i => .qty i u.str
  | v => v

/-- parseable.py:97-118 with _base.py:18-26: `json` of an operation. -/
def OpObj.json (o : OpObj) : Dict JV :=
  let t : Dict JV := o.dict.filter fun p => p.2 ≠ .none ∧ p.2 ≠ .str ""
  let t : Dict JV := o.units.foldl (fun (t : Dict JV) p => match t.get? p.1 with
    | some v => t.set p.1 (format v p.2)
    | none => t) t
  let t : Dict JV := t.set "function" (.str o.function)
  match o.type with
  | some s => t.set "type" (.str s)
  | none => t

/-- __init__.py:59-74 `SignalProcessor.json`: the list of operations. -/
def jsonAll (ops : List OpObj) : List (Dict JV) := ops.map OpObj.json

/-- `getattr` on the package (classes defined in __init__.py; other names it imports are left out). -/
def packageClass (f : String) : Py Cls :=
  if f = "Scale" then .ok .scale else if f = "IFFT" then .ok .ifft else if f = "FFT" then .ok .fft
  else if f = "complex_conjugate" then .ok .conj else .error .attributeError

/-- `getattr(getattr(package, f), t)` (__init__.py:49-51). The package imports neither of its two modules: they are
attributes only once somebody has imported them (`loaded`). -/
def moduleClass (loaded : List String) (f t : String) : Py Cls :=
  if f ∈ loaded then
    if f = "apodization" then
      if t = "Gaussian" then .ok .gaussian else if t = "Exponential" then .ok .exponential else .error .attributeError
    else if f = "affine" then
      if t = "Shear" then .ok .shear else if t = "Scale" then .ok .affScale else .error .attributeError
    else .error .attributeError
  else .error .attributeError

/-- _base.py:44-54 with parseable.py:33-74: no property of an operation is listed with a unit type, so the class is called
with the entries as they are and empty `property_units`. -/
def parseBase (lib : String → Option String) (c : Cls) (d : Dict JV) : Py OpObj := construct lib c (d.pop "function") (some [])

/-- __init__.py:46-57: one operation. The classes of the two modules build the object a second time from its fields
(apodization.py:24-26, affine.py:25-27). -/
def parseOp (lib : String → Option String) (loaded : List String) (d : Dict JV) : Py OpObj :=
  match d.get? "type" with
  | some t =>
    match d.get? "function", t with
    | some (.str f), .str t => do
      let c ← moduleClass loaded f t
      let o ← parseBase lib c d
      construct lib c o.dict (some o.units)
    | some _, _ => .error .typeError
    | none, _ => .error .keyError
  | none =>
    match d.get? "function" with
    | some (.str f) => do
      let c ← packageClass f
      parseBase lib c d
    | some _ => .error .typeError
    | none => .error .keyError

/-- __init__.py:38-57 `SignalProcessor.parse_dict_with_units`. -/
def parseAll (lib : String → Option String) (loaded : List String) : List (Dict JV) → Py (List OpObj)
  | [] => .ok []
  | d :: l =>
    match parseOp lib loaded d with
    | .error e => .error e
    | .ok o =>
      match parseAll lib loaded l with
      | .error e => .error e
      | .ok os => .ok (o :: os)

/-- `1 / self.property_units["FWHM"]` (apodization.py:105, 149), the first step of applying an apodisation: the unit of the width. -/
def widthUnit (o : OpObj) : Py String :=
  match o.units.get? "FWHM" with
  | none => .error .keyError
  | some (.name u) => .ok u
  | some .blank => .error .typeError
  | some .one => .ok ""

/-! ## Specification -/

/-- The module an operation belongs to, and the name of its quantity. -/
def Spec.home : OpObj → Option (String × String)
  | .gaussian .. => some ("apodization", "FWHM")
  | .exponential .. => some ("apodization", "FWHM")
  | .shear .. => some ("affine", "factor")
  | .affScale .. => some ("affine", "factor")
  | _ => none

/-- The quantity of the operation was given with a unit, which the unit library reads as it prints it. -/
def Spec.Measured (lib : String → Option String) (o : OpObj) : Prop :=
  ∀ m p, Spec.home o = some (m, p) → ∃ u, u ≠ "" ∧ lib u = some u ∧ o.units = [(p, .name u)]

/-- The module of the operation has been imported. -/
def Spec.Loaded (loaded : List String) (o : OpObj) : Prop := ∀ m p, Spec.home o = some (m, p) → m ∈ loaded

/-! ## Lemmas -/

theorem toIx_val (i : Ix) : toIx i.val = .ok i := by cases i <;> rfl

theorem toDv_val (v : Option Ix) : toDv (dvVal v) = .ok v := by
  cases v with
  | none => rfl
  | some i => cases i <;> rfl

theorem ix_keep (i : Ix) : i.val ≠ .none ∧ i.val ≠ .str "" := by cases i <;> simp [Ix.val]

theorem toQuantity_name (lib : String → Option String) (p : String) (us : Dict PUnit) (q : ℚ) (u : String)
    (hu : u ≠ "") (hl : lib u = some u) : toQuantity lib p us (.qty q u) = .ok (q, [(p, .name u)]) := by
  simp [toQuantity, toFloat, hu, hl]

theorem parseOp_gaussian (lib : String → Option String) (loaded : List String) (i : Ix) (v : Option Ix) (q : ℚ) (us : Dict PUnit)
    (hm : Spec.Measured lib (.gaussian i v q us)) (hl : Spec.Loaded loaded (.gaussian i v q us)) :
    parseOp lib loaded (OpObj.gaussian i v q us).json = .ok (.gaussian i v q us) := by
  obtain ⟨u, hu, hlu, rfl⟩ := hm _ _ rfl
  have hmod : moduleClass loaded "apodization" "Gaussian" = .ok .gaussian := by
    unfold moduleClass
    rw [if_pos (hl _ _ rfl)]
    rfl
  have hb : parseBase lib .gaussian (OpObj.gaussian i v q [("FWHM", .name u)]).json
      = .ok (.gaussian i v q [("FWHM", .name u)]) := by
    have h := toQuantity_name lib "FWHM" [] q u hu hlu
    have e : parseBase lib .gaussian (OpObj.gaussian i v q [("FWHM", .name u)]).json
        = (toIx i.val).bind fun i => (toDv (dvVal v)).bind fun v =>
          (toQuantity lib "FWHM" [] (.qty q u)).bind fun q => .ok (.gaussian i v q.1 q.2) := by
      rcases i with i | i <;> rcases v with _ | (v | v) <;> rfl
    rw [e, toIx_val, toDv_val, h]
    rfl
  have e : parseOp lib loaded (OpObj.gaussian i v q [("FWHM", .name u)]).json
      = (moduleClass loaded "apodization" "Gaussian").bind fun c =>
        (parseBase lib c (OpObj.gaussian i v q [("FWHM", .name u)]).json).bind fun o => construct lib c o.dict (some o.units) := by
    rcases i with i | i <;> rcases v with _ | (v | v) <;> rfl
  rw [e, hmod]
  simp only [Except.bind]
  rw [hb]
  rcases i with i | i <;> rcases v with _ | (v | v) <;> rfl

theorem parseOp_exponential (lib : String → Option String) (loaded : List String) (i : Ix) (v : Option Ix) (q : ℚ) (us : Dict PUnit)
    (hm : Spec.Measured lib (.exponential i v q us)) (hl : Spec.Loaded loaded (.exponential i v q us)) :
    parseOp lib loaded (OpObj.exponential i v q us).json = .ok (.exponential i v q us) := by
  obtain ⟨u, hu, hlu, rfl⟩ := hm _ _ rfl
  have hmod : moduleClass loaded "apodization" "Exponential" = .ok .exponential := by
    unfold moduleClass
    rw [if_pos (hl _ _ rfl)]
    rfl
  have hb : parseBase lib .exponential (OpObj.exponential i v q [("FWHM", .name u)]).json
      = .ok (.exponential i v q [("FWHM", .name u)]) := by
    have h := toQuantity_name lib "FWHM" [] q u hu hlu
    have e : parseBase lib .exponential (OpObj.exponential i v q [("FWHM", .name u)]).json
        = (toIx i.val).bind fun i => (toDv (dvVal v)).bind fun v =>
          (toQuantity lib "FWHM" [] (.qty q u)).bind fun q => .ok (.exponential i v q.1 q.2) := by
      rcases i with i | i <;> rcases v with _ | (v | v) <;> rfl
    rw [e, toIx_val, toDv_val, h]
    rfl
  have e : parseOp lib loaded (OpObj.exponential i v q [("FWHM", .name u)]).json
      = (moduleClass loaded "apodization" "Exponential").bind fun c =>
        (parseBase lib c (OpObj.exponential i v q [("FWHM", .name u)]).json).bind fun o => construct lib c o.dict (some o.units) := by
    rcases i with i | i <;> rcases v with _ | (v | v) <;> rfl
  rw [e, hmod]
  simp only [Except.bind]
  rw [hb]
  rcases i with i | i <;> rcases v with _ | (v | v) <;> rfl

set_option maxHeartbeats 800000 in
theorem parseOp_shear (lib : String → Option String) (loaded : List String) (i : ℤ) (v : Option Ix) (q : ℚ) (p : ℤ) (us : Dict PUnit)
    (hm : Spec.Measured lib (.shear i v q p us)) (hl : Spec.Loaded loaded (.shear i v q p us)) :
    parseOp lib loaded (OpObj.shear i v q p us).json = .ok (.shear i v q p us) := by
  obtain ⟨u, hu, hlu, rfl⟩ := hm _ _ rfl
  have hmod : moduleClass loaded "affine" "Shear" = .ok .shear := by
    unfold moduleClass
    rw [if_pos (hl _ _ rfl)]
    rfl
  have hb : parseBase lib .shear (OpObj.shear i v q p [("factor", .name u)]).json
      = .ok (.shear i v q p [("factor", .name u)]) := by
    have h := toQuantity_name lib "factor" [] q u hu hlu
    have e : parseBase lib .shear (OpObj.shear i v q p [("factor", .name u)]).json
        = (toDv (dvVal v)).bind fun v =>
          (toQuantity lib "factor" [] (.qty q u)).bind fun q => .ok (.shear i v q.1 p q.2) := by
      rcases v with _ | (v | v) <;> rfl
    rw [e, toDv_val, h]
    rfl
  have e : parseOp lib loaded (OpObj.shear i v q p [("factor", .name u)]).json
      = (moduleClass loaded "affine" "Shear").bind fun c =>
        (parseBase lib c (OpObj.shear i v q p [("factor", .name u)]).json).bind fun o => construct lib c o.dict (some o.units) := by
    rcases v with _ | (v | v) <;> rfl
  rw [e, hmod]
  simp only [Except.bind]
  rw [hb]
  rcases v with _ | (v | v) <;> rfl

theorem parseOp_affScale (lib : String → Option String) (loaded : List String) (i : ℤ) (v : Option Ix) (q : ℚ) (us : Dict PUnit)
    (hm : Spec.Measured lib (.affScale i v q us)) (hl : Spec.Loaded loaded (.affScale i v q us)) :
    parseOp lib loaded (OpObj.affScale i v q us).json = .ok (.affScale i v q us) := by
  obtain ⟨u, hu, hlu, rfl⟩ := hm _ _ rfl
  have hmod : moduleClass loaded "affine" "Scale" = .ok .affScale := by
    unfold moduleClass
    rw [if_pos (hl _ _ rfl)]
    rfl
  have hb : parseBase lib .affScale (OpObj.affScale i v q [("factor", .name u)]).json
      = .ok (.affScale i v q [("factor", .name u)]) := by
    have h := toQuantity_name lib "factor" [] q u hu hlu
    have e : parseBase lib .affScale (OpObj.affScale i v q [("factor", .name u)]).json
        = (toDv (dvVal v)).bind fun v =>
          (toQuantity lib "factor" [] (.qty q u)).bind fun q => .ok (.affScale i v q.1 q.2) := by
      rcases v with _ | (v | v) <;> rfl
    rw [e, toDv_val, h]
    rfl
  have e : parseOp lib loaded (OpObj.affScale i v q [("factor", .name u)]).json
      = (moduleClass loaded "affine" "Scale").bind fun c =>
        (parseBase lib c (OpObj.affScale i v q [("factor", .name u)]).json).bind fun o => construct lib c o.dict (some o.units) := by
    rcases v with _ | (v | v) <;> rfl
  rw [e, hmod]
  simp only [Except.bind]
  rw [hb]
  rcases v with _ | (v | v) <;> rfl

theorem parseOp_json (lib : String → Option String) (loaded : List String) (o : OpObj)
    (hm : Spec.Measured lib o) (hl : Spec.Loaded loaded o) : parseOp lib loaded o.json = .ok o := by
  cases o with
  | scale f => rfl
  | ifft i => cases i <;> rfl
  | fft i => cases i <;> rfl
  | conj => rfl
  | gaussian i v q us => exact parseOp_gaussian lib loaded i v q us hm hl
  | exponential i v q us => exact parseOp_exponential lib loaded i v q us hm hl
  | shear i v q p us => exact parseOp_shear lib loaded i v q p us hm hl
  | affScale i v q us => exact parseOp_affScale lib loaded i v q us hm hl

theorem parseOp_missing (lib : String → Option String) (loaded : List String) (o : OpObj)
    (hm : Spec.Measured lib o) (hl : ¬ Spec.Loaded loaded o) : parseOp lib loaded o.json = .error .attributeError := by
  unfold Spec.Loaded at hl
  push Not at hl
  obtain ⟨m, p, hh, hl⟩ := hl
  obtain ⟨u, hu, hlu, hus⟩ := hm m p hh
  have hmod : ∀ t, moduleClass loaded m t = .error .attributeError := by
    intro t
    unfold moduleClass
    rw [if_neg hl]
  cases o with
  | scale f => cases hh
  | ifft i => cases hh
  | fft i => cases hh
  | conj => cases hh
  | gaussian i v q us =>
    obtain rfl : us = _ := hus
    cases hh
    have e : parseOp lib loaded (OpObj.gaussian i v q [("FWHM", .name u)]).json
        = (moduleClass loaded "apodization" "Gaussian").bind fun c =>
          (parseBase lib c (OpObj.gaussian i v q [("FWHM", .name u)]).json).bind fun o => construct lib c o.dict (some o.units) := by
      rcases i with i | i <;> rcases v with _ | (v | v) <;> rfl
    rw [e, hmod]
    rfl
  | exponential i v q us =>
    obtain rfl : us = _ := hus
    cases hh
    have e : parseOp lib loaded (OpObj.exponential i v q [("FWHM", .name u)]).json
        = (moduleClass loaded "apodization" "Exponential").bind fun c =>
          (parseBase lib c (OpObj.exponential i v q [("FWHM", .name u)]).json).bind fun o => construct lib c o.dict (some o.units) := by
      rcases i with i | i <;> rcases v with _ | (v | v) <;> rfl
    rw [e, hmod]
    rfl
  | shear i v q p us =>
    obtain rfl : us = _ := hus
    cases hh
    have e : parseOp lib loaded (OpObj.shear i v q p [("factor", .name u)]).json
        = (moduleClass loaded "affine" "Shear").bind fun c =>
          (parseBase lib c (OpObj.shear i v q p [("factor", .name u)]).json).bind fun o => construct lib c o.dict (some o.units) := by
      rcases v with _ | (v | v) <;> rfl
    rw [e, hmod]
    rfl
  | affScale i v q us =>
    obtain rfl : us = _ := hus
    cases hh
    have e : parseOp lib loaded (OpObj.affScale i v q [("factor", .name u)]).json
        = (moduleClass loaded "affine" "Scale").bind fun c =>
          (parseBase lib c (OpObj.affScale i v q [("factor", .name u)]).json).bind fun o => construct lib c o.dict (some o.units) := by
      rcases v with _ | (v | v) <;> rfl
    rw [e, hmod]
    rfl

/-! ## Statements -/

/-- **C82 (round trip), partial.** Any sequence of operations whose quantities were given with units is read back as
it was saved, provided the modules of its operations have been imported.
Missing: see `C82_fresh_session` and `C82_counterexample`. -/
theorem C82_round_trip_partial (lib : String → Option String) (loaded : List String) (ops : List OpObj)
    (hm : ∀ o ∈ ops, Spec.Measured lib o) (hl : ∀ o ∈ ops, Spec.Loaded loaded o) :
    parseAll lib loaded (jsonAll ops) = .ok ops := by
  induction ops with
  | nil => rfl
  | cons o ops ih =>
    have h1 := parseOp_json lib loaded o (hm o (by simp)) (hl o (by simp))
    have h2 := ih (fun o h => hm o (by simp [h])) (fun o h => hl o (by simp [h]))
    simp only [jsonAll, List.map_cons, parseAll, h1] at h2 ⊢
    rw [h2]

/-- A unit library that knows hertz and ppm. -/
def twoUnits : String → Option String := fun u => if u = "Hz" ∨ u = "ppm" then some u else none

/-- The usual processing: the objects are made by their classes, and survive. -/
example : ∃ g, construct twoUnits .gaussian [("FWHM", .qty 200 "Hz"), ("dv_index", .int 0)] none = .ok g ∧
    parseAll twoUnits ["apodization"] (jsonAll [.ifft (.one 0), g, .fft (.many [0]), .scale 10])
      = .ok [.ifft (.one 0), g, .fft (.many [0]), .scale 10] := by
  refine ⟨.gaussian (.one 0) (some (.one 0)) 200 [("FWHM", .name "Hz")], by decide +kernel, ?_⟩
  apply C82_round_trip_partial
  · intro o ho
    simp only [List.mem_cons, List.not_mem_nil, or_false] at ho
    rcases ho with rfl | rfl | rfl | rfl <;> intro m p h <;> cases h
    exact ⟨"Hz", by decide, by decide, rfl⟩
  · intro o ho
    simp only [List.mem_cons, List.not_mem_nil, or_false] at ho
    rcases ho with rfl | rfl | rfl | rfl <;> intro m p h <;> cases h
    simp

/-- **C82, where the code disagrees (fresh session).** A saved processor that contains an apodisation or an affine
operation cannot be read where the module of that operation has not been imported: the package does not import it. -/
theorem C82_fresh_session (lib : String → Option String) (loaded : List String) (ops : List OpObj)
    (hm : ∀ o ∈ ops, Spec.Measured lib o) (h : ∃ o ∈ ops, ¬ Spec.Loaded loaded o) :
    parseAll lib loaded (jsonAll ops) = .error .attributeError := by
  induction ops with
  | nil => simp at h
  | cons o ops ih =>
    by_cases ho : Spec.Loaded loaded o
    · have h1 := parseOp_json lib loaded o (hm o (by simp)) ho
      have h2 := ih (fun o h => hm o (by simp [h])) (by
        obtain ⟨o', h', hn⟩ := h
        rcases List.mem_cons.mp h' with rfl | h'
        · exact absurd ho hn
        · exact ⟨o', h', hn⟩)
      simp only [jsonAll, List.map_cons, parseAll, h1] at h2 ⊢
      rw [h2]
    · have h1 := parseOp_missing lib loaded o (hm o (by simp)) ho
      simp only [jsonAll, List.map_cons, parseAll, h1]

/-- Two operations, one of them an exponential; only the package has been imported. -/
example : parseAll twoUnits [] (jsonAll [.scale 2, .exponential (.one 0) none 100 [("FWHM", .name "Hz")]])
    = .error .attributeError := by
  apply C82_fresh_session
  · intro o ho
    simp only [List.mem_cons, List.not_mem_nil, or_false] at ho
    rcases ho with rfl | rfl <;> intro m p h <;> cases h
    exact ⟨"Hz", by decide, by decide, rfl⟩
  · refine ⟨.exponential (.one 0) none 100 [("FWHM", .name "Hz")], by simp, ?_⟩
    intro h
    exact absurd (h "apodization" "FWHM" rfl) (by simp)

/-- **C82, where the code disagrees (plain numbers).** A width given as a plain number, or left at its default, is accepted.
The object differs from what is read back, and neither can be applied to data. For every number, dimension and
dependent variable, whatever the unit library. -/
theorem C82_counterexample (lib : String → Option String) (q : ℚ) (i : ℤ) (c : Cls) (hc : c = .gaussian ∨ c = .exponential) :
    ∃ o o', construct lib c [("FWHM", .num q), ("dim_index", .int i)] none = .ok o ∧
      parseAll lib ["apodization"] (jsonAll [o]) = .ok [o'] ∧ o ≠ o' ∧
      widthUnit o = .error .typeError ∧ widthUnit o' = .error .keyError := by
  rcases hc with rfl | rfl
  · refine ⟨.gaussian (.one i) none q [("FWHM", .blank)], .gaussian (.one i) none q [], rfl, rfl, ?_, rfl, rfl⟩
    simp
  · refine ⟨.exponential (.one i) none q [("FWHM", .blank)], .exponential (.one i) none q [], rfl, rfl, ?_, rfl, rfl⟩
    simp

/-- The default objects. -/
example (lib : String → Option String) : ∃ o, construct lib .gaussian [] none = .ok o ∧ widthUnit o = .error .typeError :=
  ⟨_, rfl, rfl⟩

end MRS.Signal
