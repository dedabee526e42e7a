import Verif.Util.Reduce
import Mathlib.Tactic.Linarith

/-!
# Saving and loading a simulator without units — property C91

Model of `Simulator.save(with_units=False)` (src/mrsimulator/simulator/__init__.py lines 481-516), that is `Simulator.reduced_dict`
(lines 342-351, C26) of `BaseModel.dict()` and `json.dump`, and of `Simulator.load(parse_units=False)` (lines 536-539), that is
`Simulator(**contents)`: every class builds itself from the numbers in the dictionary, with defaults for missing keys, and checks them.

Simplified: numbers are exact; strings are not converted to numbers (pydantic would); what the library for data sets makes of the
dictionary of a data set is the data set with that dictionary.
-/

namespace MRS.Plain

open MRS.Util Dict

/-! ## Model: objects -/

/-- `SymmetricTensor` (spin_system/tensors.py lines 85-115). -/
structure Sym where
  zeta : Option ℚ
  Cq : Option ℚ
  D : Option ℚ
  eta : Option ℚ
  alpha : Option ℚ
  beta : Option ℚ
  gamma : Option ℚ
  units : Dict Val
  deriving DecidableEq

/-- `AntisymmetricTensor` (tensors.py lines 140-162). -/
structure Anti where
  zeta : Option ℚ
  alpha : Option ℚ
  beta : Option ℚ
  units : Dict Val
  deriving DecidableEq

/-- `Site` (spin_system/site.py lines 154-165). -/
structure Site where
  name : Option String
  label : Option String
  description : Option String
  isotope : String
  shift : ℚ
  shielding : Option Sym
  anti : Option Anti
  quad : Option Sym
  units : Dict Val
  deriving DecidableEq

/-- `Coupling` (spin_system/coupling.py lines 144-155). -/
structure Coupling where
  name : Option String
  label : Option String
  description : Option String
  index : List ℚ
  J : ℚ
  sym : Option Sym
  anti : Option Anti
  dipolar : Option Sym
  units : Dict Val
  deriving DecidableEq

/-- `SpinSystem` (spin_system/__init__.py lines 152-162). `pathways` is the number of pathways set by hand. -/
structure System where
  name : Option String
  label : Option String
  description : Option String
  sites : List Site
  couplings : Option (List Coupling)
  abundance : ℚ
  pathways : Option ℕ
  units : Dict Val
  deriving DecidableEq

/-- `TransitionQuery` (method/transition_query.py lines 43-46); `transitions` is a list of initial and final quantum numbers. -/
structure Query where
  P : Option (Dict Val)
  D : Option (Dict Val)
  F : Option (Dict Val)
  transitions : Option (List (List ℚ × List ℚ))
  deriving DecidableEq

/-- `Event` (method/event.py lines 50-76). -/
structure Event where
  fraction : ℚ
  B0 : ℚ
  rotor : ℚ
  angle : ℚ
  contrib : List String
  query : Query
  units : Dict Val
  deriving DecidableEq

/-- `SpectralDimension` (method/spectral_dimension.py lines 54-78). -/
structure Dim where
  count : ℚ
  width : ℚ
  reference : ℚ
  origin : Option ℚ
  label : Option String
  description : Option String
  events : List Event
  units : Dict Val
  deriving DecidableEq

/-- `Method.simulation`: nothing, a data set (its dictionary), or an array (`run(pack_as_csdm=False)`)
(method/__init__.py lines 126-145). -/
inductive Data
  | none
  | csdm (d : Dict Val)
  | array
  deriving DecidableEq

/-- `Method` (method/__init__.py lines 126-145). `experiment` cannot be an array (lines 184-186). -/
structure Method where
  name : Option String
  label : Option String
  description : Option String
  channels : List String
  dims : List Dim
  affine : Option (List ℚ)
  simulation : Data
  experiment : Option (Dict Val)
  units : Dict Val
  deriving DecidableEq

/-- `ConfigSimulator` (simulator/config.py lines 68-71). -/
structure Config where
  sidebands : ℚ
  volume : String
  density : ℚ
  decompose : String
  deriving DecidableEq

/-- `Simulator` (simulator/__init__.py lines 145-151). -/
structure Sim where
  name : Option String
  label : Option String
  description : Option String
  systems : List System
  methods : List Method
  config : Config
  indexes : List Val
  deriving DecidableEq

/-! ## Model: `dict()` -/

/-- A number or None. -/
def num : Option ℚ → Val
  | some q => .num q
  | none => .none

/-- A string or None. -/
def str : Option String → Val
  | some s => .str s
  | none => .none

/-- A nested dictionary or None. -/
def sub {α : Type} (f : α → Dict Val) : Option α → Val
  | some x => .dict (f x)
  | none => .none

/-- A list of nested dictionaries. -/
def subs {α : Type} (f : α → Dict Val) (l : List α) : Val := .list (l.map fun x => .dict (f x))

/-- `SymmetricTensor.dict()` (tensors.py lines 86-92, in the order of the fields). -/
def Sym.dict (t : Sym) : Dict Val :=
  [("property_units", .dict t.units), ("zeta", num t.zeta), ("Cq", num t.Cq), ("D", num t.D), ("eta", num t.eta),
   ("alpha", num t.alpha), ("beta", num t.beta), ("gamma", num t.gamma)]

/-- `AntisymmetricTensor.dict()` (tensors.py lines 153-155). -/
def Anti.dict (t : Anti) : Dict Val :=
  [("property_units", .dict t.units), ("zeta", num t.zeta), ("alpha", num t.alpha), ("beta", num t.beta)]

/-- `Isotope` has one field (spin_system/isotope.py line 43). -/
def isotopeDict (s : String) : Dict Val := [("symbol", .str s)]

/-- `Site.dict()` (site.py lines 154-161). -/
def Site.dict (s : Site) : Dict Val :=
  [("property_units", .dict s.units), ("name", str s.name), ("label", str s.label), ("description", str s.description),
   ("isotope", .dict (isotopeDict s.isotope)), ("isotropic_chemical_shift", .num s.shift),
   ("shielding_symmetric", sub Sym.dict s.shielding), ("shielding_antisymmetric", sub Anti.dict s.anti),
   ("quadrupolar", sub Sym.dict s.quad)]

/-- `Coupling.dict()` (coupling.py lines 150-157). -/
def Coupling.dict (s : Coupling) : Dict Val :=
  [("property_units", .dict s.units), ("name", str s.name), ("label", str s.label), ("description", str s.description),
   ("site_index", .list (s.index.map .num)), ("isotropic_j", .num s.J),
   ("j_symmetric", sub Sym.dict s.sym), ("j_antisymmetric", sub Anti.dict s.anti), ("dipolar", sub Sym.dict s.dipolar)]

/-- The pathways are objects that `dict()` and `_reduce_dict` leave alone; here strings stand for them
(spin_system/__init__.py lines 152-186). -/
def System.dict (s : System) : Dict Val :=
  [("property_units", .dict s.units), ("name", str s.name), ("label", str s.label), ("description", str s.description),
   ("sites", subs Site.dict s.sites),
   ("couplings", match s.couplings with | some l => subs Coupling.dict l | none => .none),
   ("abundance", .num s.abundance),
   ("transition_pathways", match s.pathways with | some n => .list (List.replicate n (.str "")) | none => .none)]

/-- `Transition` (transition/base.py lines 40-41). -/
def transitionDict (t : List ℚ × List ℚ) : Dict Val := [("initial", .list (t.1.map .num)), ("final", .list (t.2.map .num))]

/-- `TransitionQuery.dict()` (transition_query.py lines 46-49). -/
def Query.dict (q : Query) : Dict Val :=
  [("P", sub id q.P), ("D", sub id q.D), ("F", sub id q.F),
   ("transitions", match q.transitions with | some l => subs transitionDict l | none => .none)]

/-- `Event.dict()` (event.py lines 50-72). -/
def Event.dict (e : Event) : Dict Val :=
  [("property_units", .dict e.units), ("fraction", .num e.fraction), ("magnetic_flux_density", .num e.B0),
   ("rotor_frequency", .num e.rotor), ("rotor_angle", .num e.angle), ("freq_contrib", .list (e.contrib.map .str)),
   ("transition_query", .dict e.query.dict)]

/-- `SpectralDimension.dict()` (spectral_dimension.py lines 54-72). -/
def Dim.dict (d : Dim) : Dict Val :=
  [("property_units", .dict d.units), ("count", .num d.count), ("spectral_width", .num d.width),
   ("reference_offset", .num d.reference), ("origin_offset", num d.origin), ("label", str d.label),
   ("description", str d.description), ("events", subs Event.dict d.events)]

/-- `Method.dict` (method/__init__.py lines 248-254); an array has no `to_dict`. The affine matrix is an array that `_reduce_dict`
leaves alone; a list of numbers stands for it. -/
def Method.dict (m : Method) : Py (Dict Val) :=
  match m.simulation with
  | .array => .error .attributeError
  | .none => .ok (entries .none)
  | .csdm d => .ok (entries (.dict d))
where entries (sim : Val) : Dict Val :=
  [("property_units", .dict m.units), ("name", str m.name), ("label", str m.label), ("description", str m.description),
   ("channels", subs isotopeDict m.channels), ("spectral_dimensions", subs Dim.dict m.dims),
   ("affine_matrix", match m.affine with | some l => .list (l.map .num) | none => .none),
   ("simulation", sim), ("experiment", sub id m.experiment)]

/-- `ConfigSimulator.dict()` (simulator/config.py lines 68-71). -/
def Config.dict (c : Config) : Dict Val :=
  [("number_of_sidebands", .num c.sidebands), ("integration_volume", .str c.volume), ("integration_density", .num c.density),
   ("decompose_spectrum", .str c.decompose)]

/-- The dictionaries of all methods, or the first error (simulator/__init__.py lines 342-351). -/
def methodDicts : List Method → Py (List Val)
  | [] => .ok []
  | m :: l => match m.dict, methodDicts l with
    | .ok d, .ok r => .ok (.dict d :: r)
    | .error x, _ => .error x
    | _, .error x => .error x

/-- `Simulator.dict()` (simulator/__init__.py lines 342-351). -/
def Sim.dict (s : Sim) : Py (Dict Val) :=
  match methodDicts s.methods with
  | .error x => .error x
  | .ok ms => .ok [("name", str s.name), ("label", str s.label), ("description", str s.description),
      ("spin_systems", subs System.dict s.systems), ("methods", .list ms), ("config", .dict s.config.dict),
      ("indexes", .list s.indexes)]

/-! ## Model: saving -/

/-- `json.dump` raises TypeError for an array and for a transition pathway (simulator/__init__.py lines 481-513). -/
def dumpable (s : Sim) : Bool :=
  s.methods.all (fun m => m.affine.isNone) && s.systems.all fun x => x.pathways = none || x.pathways = some 0

/-- `Simulator.save(filename, with_units=False)` (simulator/__init__.py lines 495-505): the contents of the file. -/
def save (s : Sim) : Py Val :=
  match s.dict with
  | .error x => .error x
  | .ok d => match reduceV ["property_units", "indexes"] (.dict d) with
    | .error x => .error x
    | .ok r => if dumpable s then .ok r else .error .typeError

/-! ## Model: loading -/

/-- An optional number: a missing key is None. -/
def num? : Option Val → Py (Option ℚ)
  | none | some .none => .ok none
  | some (.num q) => .ok (some q)
  | _ => .error .valueError

/-- An optional string. -/
def str? : Option Val → Py (Option String)
  | none | some .none => .ok none
  | some (.str s) => .ok (some s)
  | _ => .error .valueError

/-- A number with a default. -/
def numD (dflt : ℚ) : Option Val → Py ℚ
  | none => .ok dflt
  | some (.num q) => .ok q
  | _ => .error .valueError

/-- A string with a default. -/
def strD (dflt : String) : Option Val → Py String
  | none => .ok dflt
  | some (.str s) => .ok s
  | _ => .error .valueError

/-- An optional nested object. -/
def obj? {α : Type} (f : Val → Py α) : Option Val → Py (Option α)
  | none | some .none => .ok none
  | some v => match f v with
    | .ok x => .ok (some x)
    | .error e => .error e

/-- The objects of a list, or the first error. -/
def all {α : Type} (f : Val → Py α) : List Val → Py (List α)
  | [] => .ok []
  | v :: l => match f v, all f l with
    | .ok x, .ok r => .ok (x :: r)
    | .error e, _ => .error e
    | _, .error e => .error e

/-- A list of objects with a default. -/
def listD {α : Type} (dflt : List α) (f : Val → Py α) : Option Val → Py (List α)
  | none => .ok dflt
  | some (.list l) => all f l
  | _ => .error .valueError

/-- An optional list of objects. -/
def list? {α : Type} (f : Val → Py α) : Option Val → Py (Option (List α))
  | none | some .none => .ok none
  | some (.list l) => match all f l with
    | .ok x => .ok (some x)
    | .error e => .error e
  | _ => .error .valueError

/-- An optional dictionary of any content. -/
def dict? : Option Val → Py (Option (Dict Val))
  | none | some .none => .ok none
  | some (.dict d) => .ok (some d)
  | _ => .error .valueError

/-- A field of type `float`, when a number is required. -/
def asNum : Val → Py ℚ
  | .num q => .ok q
  | _ => .error .valueError

/-- A field of type `str`, when a string is required. -/
def asStr : Val → Py String
  | .str s => .ok s
  | _ => .error .valueError

/-- A condition that a validator or a constrained field checks. -/
def check (b : Bool) : Py Unit := if b then .ok () else .error .valueError

/-- The default `property_units` of `SymmetricTensor` (tensors.py lines 108-115). -/
def symUnits : Dict Val :=
  [("zeta", .str "ppm"), ("Cq", .str "Hz"), ("D", .str "Hz"), ("alpha", .str "rad"), ("beta", .str "rad"), ("gamma", .str "rad")]

/-- The default `property_units` of `AntisymmetricTensor` (tensors.py line 162). -/
def antiUnits : Dict Val := [("zeta", .str "ppm"), ("alpha", .str "rad"), ("beta", .str "rad")]

/-- `SymmetricTensor(**d)`: `eta` is between 0 and 1 (tensors.py line 88). -/
def readSym : Val → Py Sym
  | .dict d => do
    let zeta ← num? (get? d "zeta")
    let cq ← num? (get? d "Cq")
    let dd ← num? (get? d "D")
    let eta ← num? (get? d "eta")
    let alpha ← num? (get? d "alpha")
    let beta ← num? (get? d "beta")
    let gamma ← num? (get? d "gamma")
    check (eta.all fun x => 0 ≤ x && x ≤ 1)
    return ⟨zeta, cq, dd, eta, alpha, beta, gamma, symUnits⟩
  | _ => .error .valueError

/-- `AntisymmetricTensor(**d)` (tensors.py lines 141-163). -/
def readAnti : Val → Py Anti
  | .dict d => do
    let zeta ← num? (get? d "zeta")
    let alpha ← num? (get? d "alpha")
    let beta ← num? (get? d "beta")
    return ⟨zeta, alpha, beta, antiUnits⟩
  | _ => .error .valueError

/-- What the validators of a site and a coupling do to the units of a tensor (site.py lines 182-194, coupling.py lines 157-178). -/
def popAll (l : List String) (u : Dict Val) : Dict Val := l.foldl Dict.pop u

/-- The library of isotopes: how a symbol is written, and twice the spin (spin_system/isotope.py lines 88-111). -/
structure Isotopes where
  format : String → Option String
  twoI : String → ℕ

/-- `Isotope(symbol=s)` (isotope.py lines 50-111). -/
def Isotopes.read (iso : Isotopes) (s : String) : Py String :=
  match iso.format s with
  | some t => .ok t
  | none => .error .exception

/-- `Site(**d)` (site.py lines 166-200). The validators of missing keys are not called. -/
def readSite (iso : Isotopes) : Val → Py Site
  | .dict d => do
    let name ← str? (get? d "name")
    let label ← str? (get? d "label")
    let description ← str? (get? d "description")
    let i ← strD "1H" (get? d "isotope")
    let i ← iso.read i
    let shift ← numD 0 (get? d "isotropic_chemical_shift")
    let sh ← obj? readSym (get? d "shielding_symmetric")
    let an ← obj? readAnti (get? d "shielding_antisymmetric")
    let qu ← obj? readSym (get? d "quadrupolar")
    check (qu.isNone || 2 ≤ iso.twoI i)
    return ⟨name, label, description, i, shift, sh.map fun t => { t with units := popAll ["Cq", "D"] t.units },
      an.map fun t => { t with units := popAll ["Cq", "D"] t.units },
      qu.map fun t => { t with units := popAll ["D", "zeta"] t.units }, [("isotropic_chemical_shift", .str "ppm")]⟩
  | _ => .error .valueError

/-- `Coupling(**d)` (coupling.py lines 157-186); `site_index` is required. -/
def readCoupling : Val → Py Coupling
  | .dict d => do
    let name ← str? (get? d "name")
    let label ← str? (get? d "label")
    let description ← str? (get? d "description")
    let index ← match get? d "site_index" with
      | some (.list l) => all asNum l
      | _ => .error .valueError
    check (index.length = 2 && index[0]? != index[1]?)
    let j ← numD 0 (get? d "isotropic_j")
    let sy ← obj? readSym (get? d "j_symmetric")
    let an ← obj? readAnti (get? d "j_antisymmetric")
    let di ← obj? readSym (get? d "dipolar")
    return ⟨name, label, description, index, j,
      sy.map fun t => { t with units := (popAll ["Cq", "D"] t.units).set "zeta" (.str "Hz") },
      an.map fun t => { t with units := (popAll ["Cq", "D"] t.units).set "zeta" (.str "Hz") },
      di.map fun t => { t with units := popAll ["Cq", "zeta"] t.units }, [("isotropic_j", .str "Hz")]⟩
  | _ => .error .valueError

/-- `SpinSystem(**d)` (spin_system/__init__.py lines 152-186). Pathways cannot occur in the file. -/
def readSystem (iso : Isotopes) : Val → Py System
  | .dict d => do
    let name ← str? (get? d "name")
    let label ← str? (get? d "label")
    let description ← str? (get? d "description")
    let sites ← listD [] (readSite iso) (get? d "sites")
    let couplings ← list? readCoupling (get? d "couplings")
    let abundance ← numD 100 (get? d "abundance")
    check (0 ≤ abundance && abundance ≤ 100)
    let pathways ← list? asNum (get? d "transition_pathways")
    return ⟨name, label, description, sites, couplings, abundance, pathways.map List.length, [("abundance", .str "pct")]⟩
  | _ => .error .valueError

/-- `Transition(**d)` (transition/base.py lines 34-35). -/
def readTransition : Val → Py (List ℚ × List ℚ)
  | .dict d => do
    let i ← listD [] asNum (get? d "initial")
    let f ← listD [] asNum (get? d "final")
    return (i, f)
  | _ => .error .valueError

/-- The default of `P` (transition_query.py line 43). -/
def defaultP : Dict Val := [("channel-1", .list [.list [.num (-1)]])]

/-- `TransitionQuery(**d)` (transition_query.py lines 43-46). -/
def readQuery : Val → Py Query
  | .dict d => do
    let p ← match get? d "P" with
      | none => .ok (some defaultP)
      | v => dict? v
    let dd ← dict? (get? d "D")
    let f ← dict? (get? d "F")
    let t ← list? readTransition (get? d "transitions")
    return ⟨p, dd, f, t⟩
  | _ => .error .valueError

/-- `freq_list_all` (method/frequency_contrib.py lines 7-14). -/
def contribs : List String := ["Shielding1_0", "Shielding1_2", "Quad1_2", "Quad2_0", "Quad2_2", "Quad2_4"]

/-- `FrequencyEnum(s)` (frequency_contrib.py lines 17-56). -/
def readContrib (v : Val) : Py String :=
  match asStr v with
  | .ok s => if s ∈ contribs then .ok s else .error .valueError
  | .error x => .error x

/-- The default `property_units` of `Event` (event.py lines 74-78). -/
def eventUnits : Dict Val := [("magnetic_flux_density", .str "T"), ("rotor_frequency", .str "Hz"), ("rotor_angle", .str "rad")]

/-- `Event(**d)` (event.py lines 50-76). -/
def readEvent : Val → Py Event
  | .dict d => do
    let fraction ← numD 1 (get? d "fraction")
    let b ← numD (94 / 10) (get? d "magnetic_flux_density")
    let r ← numD 0 (get? d "rotor_frequency")
    let a ← numD (955316618 / 1000000000) (get? d "rotor_angle")
    check (0 ≤ b && 0 ≤ r && 0 ≤ a && a ≤ 15707963268 / 10000000000)
    let c ← listD contribs readContrib (get? d "freq_contrib")
    let q ← match get? d "transition_query" with
      | none => .ok ⟨some defaultP, none, none, none⟩
      | some v => readQuery v
    return ⟨fraction, b, r, a, c, q, eventUnits⟩
  | _ => .error .valueError

/-- The default `property_units` of `SpectralDimension` (spectral_dimension.py lines 74-78). -/
def dimUnits : Dict Val := [("spectral_width", .str "Hz"), ("reference_offset", .str "Hz"), ("origin_offset", .str "Hz")]

/-- `SpectralDimension(**d)` (spectral_dimension.py lines 54-78). -/
def readDim : Val → Py Dim
  | .dict d => do
    let count ← numD 1024 (get? d "count")
    let width ← numD 25000 (get? d "spectral_width")
    check (0 < count && 0 < width)
    let reference ← numD 0 (get? d "reference_offset")
    let origin ← num? (get? d "origin_offset")
    let label ← str? (get? d "label")
    let description ← str? (get? d "description")
    let events ← listD [] readEvent (get? d "events")
    return ⟨count, width, reference, origin, label, description, events, dimUnits⟩
  | _ => .error .valueError

/-- The default `property_units` of `Method` (method/__init__.py lines 142-146). -/
def methodUnits : Dict Val := [("magnetic_flux_density", .str "T"), ("rotor_angle", .str "rad"), ("rotor_frequency", .str "Hz")]

/-- The isotope of a channel (method/__init__.py lines 168-170). -/
def readChannel (iso : Isotopes) (v : Val) : Py String :=
  match asStr v with
  | .ok s => iso.read s
  | .error x => .error x

/-- `Method(**d)` (method/__init__.py lines 126-210), whatever class the method was made with. An affine matrix cannot occur in
the file. -/
def readMethod (iso : Isotopes) : Val → Py Method
  | .dict d => do
    let name ← str? (get? d "name")
    let label ← str? (get? d "label")
    let description ← str? (get? d "description")
    let channels ← listD [] (readChannel iso) (get? d "channels")
    let dims ← listD [⟨1024, 25000, 0, none, none, none, [], dimUnits⟩] readDim (get? d "spectral_dimensions")
    let affine ← list? asNum (get? d "affine_matrix")
    check (affine.all fun l => l.length = dims.length ^ 2 && l[0]? != some 0)
    let sim ← dict? (get? d "simulation")
    let exp ← dict? (get? d "experiment")
    return ⟨name, label, description, channels, dims, affine, match sim with | some x => .csdm x | none => .none, exp, methodUnits⟩
  | _ => .error .valueError

/-- `ConfigSimulator(**d)` (config.py lines 68-71). -/
def readConfig : Val → Py Config
  | .dict d => do
    let n ← numD 64 (get? d "number_of_sidebands")
    let v ← strD "octant" (get? d "integration_volume")
    let i ← numD 70 (get? d "integration_density")
    let c ← strD "none" (get? d "decompose_spectrum")
    check (0 < n && 0 < i && ["octant", "hemisphere"].contains v && ["none", "spin_system"].contains c)
    return ⟨n, v, i, c⟩
  | _ => .error .valueError

/-- `Simulator.load(filename, parse_units=False)` (simulator/__init__.py lines 536-539): `Simulator(**contents)`. -/
def load (iso : Isotopes) : Val → Py Sim
  | .dict d => do
    let name ← str? (get? d "name")
    let label ← str? (get? d "label")
    let description ← str? (get? d "description")
    let systems ← listD [] (readSystem iso) (get? d "spin_systems")
    let methods ← listD [] (readMethod iso) (get? d "methods")
    let config ← match get? d "config" with
      | none => .ok ⟨64, "octant", 70, "none"⟩
      | some v => readConfig v
    return ⟨name, label, description, systems, methods, config, []⟩
  | _ => .error .typeError

/-! ## Specification -/

/-- A value that has nothing in it that `_reduce_dict` changes. -/
def Spec.Clean (v : Val) : Prop :=
  Spec.Distinct v ∧ ∀ (p : List Step) (k : String) (w : Val), Spec.lookup (p ++ [.key k]) v = some w →
    k ∉ ["property_units", "isotope", "channels"] ∧ w ≠ .none

/-- A tensor as it is after loading: the same numbers, with the given units. -/
def Spec.sym (u : Dict Val) (t : Sym) : Sym := { t with units := u }

/-- See `Spec.sym`. -/
def Spec.anti (u : Dict Val) (t : Anti) : Anti := { t with units := u }

/-- The angles are in rad. -/
def Spec.angles : Dict Val := [("alpha", .str "rad"), ("beta", .str "rad"), ("gamma", .str "rad")]

/-- A site with all units at their defaults. -/
def Spec.site (s : Site) : Site :=
  { s with
    shielding := s.shielding.map (Spec.sym (("zeta", .str "ppm") :: Spec.angles))
    anti := s.anti.map (Spec.anti [("zeta", .str "ppm"), ("alpha", .str "rad"), ("beta", .str "rad")])
    quad := s.quad.map (Spec.sym (("Cq", .str "Hz") :: Spec.angles))
    units := [("isotropic_chemical_shift", .str "ppm")] }

/-- A coupling with all units at their defaults. -/
def Spec.coupling (s : Coupling) : Coupling :=
  { s with
    sym := s.sym.map (Spec.sym (("zeta", .str "Hz") :: Spec.angles))
    anti := s.anti.map (Spec.anti [("zeta", .str "Hz"), ("alpha", .str "rad"), ("beta", .str "rad")])
    dipolar := s.dipolar.map (Spec.sym (("D", .str "Hz") :: Spec.angles))
    units := [("isotropic_j", .str "Hz")] }

/-- A spin system with all units at their defaults. -/
def Spec.system (s : System) : System :=
  { s with
    sites := s.sites.map Spec.site
    couplings := s.couplings.map (List.map Spec.coupling)
    units := [("abundance", .str "pct")] }

/-- A dimension with all units at their defaults. -/
def Spec.dim (d : Dim) : Dim :=
  { d with
    events := d.events.map fun e => { e with units := [("magnetic_flux_density", .str "T"), ("rotor_frequency", .str "Hz"), ("rotor_angle", .str "rad")] }
    units := [("spectral_width", .str "Hz"), ("reference_offset", .str "Hz"), ("origin_offset", .str "Hz")] }

/-- A method with all units at their defaults. -/
def Spec.method (m : Method) : Method :=
  { m with
    dims := m.dims.map Spec.dim
    units := [("magnetic_flux_density", .str "T"), ("rotor_angle", .str "rad"), ("rotor_frequency", .str "Hz")] }

/-- A simulator with all units at their defaults. -/
def Spec.sim (s : Sim) : Sim :=
  { s with
    systems := s.systems.map Spec.system
    methods := s.methods.map Spec.method
    indexes := [] }

/-- What a tensor has to obey. -/
def Spec.SymOk (t : Sym) : Prop := ∀ x, t.eta = some x → 0 ≤ x ∧ x ≤ 1

/-- What a site has to obey: its isotope is one of the library, and has spin one or more if there is a quadrupolar tensor. -/
def Spec.SiteOk (iso : Isotopes) (s : Site) : Prop :=
  iso.format s.isotope = some s.isotope ∧ (∀ t, s.shielding = some t → Spec.SymOk t) ∧
    ∀ t, s.quad = some t → Spec.SymOk t ∧ 2 ≤ iso.twoI s.isotope

/-- What a coupling has to obey. -/
def Spec.CouplingOk (s : Coupling) : Prop :=
  (∃ i j, s.index = [i, j] ∧ i ≠ j) ∧ (∀ t, s.sym = some t → Spec.SymOk t) ∧ ∀ t, s.dipolar = some t → Spec.SymOk t

/-- What a spin system has to obey. -/
def Spec.SystemOk (iso : Isotopes) (s : System) : Prop :=
  (∀ x ∈ s.sites, Spec.SiteOk iso x) ∧ (∀ l, s.couplings = some l → ∀ x ∈ l, Spec.CouplingOk x) ∧ 0 ≤ s.abundance ∧ s.abundance ≤ 100

/-- What an event has to obey. -/
def Spec.EventOk (e : Event) : Prop :=
  0 ≤ e.B0 ∧ 0 ≤ e.rotor ∧ 0 ≤ e.angle ∧ e.angle ≤ 15707963268 / 10000000000 ∧
    ∀ c ∈ e.contrib, c ∈ ["Shielding1_0", "Shielding1_2", "Quad1_2", "Quad2_0", "Quad2_2", "Quad2_4"]

/-- What a method has to obey. -/
def Spec.MethodOk (iso : Isotopes) (m : Method) : Prop :=
  (∀ c ∈ m.channels, iso.format c = some c) ∧ ∀ d ∈ m.dims, 0 < d.count ∧ 0 < d.width ∧ ∀ e ∈ d.events, Spec.EventOk e

/-- What a simulator has to obey: the conditions that the constructors and assignments check (C54, C55). -/
def Spec.SimOk (iso : Isotopes) (s : Sim) : Prop :=
  (∀ x ∈ s.systems, Spec.SystemOk iso x) ∧ (∀ m ∈ s.methods, Spec.MethodOk iso m) ∧
    0 < s.config.sidebands ∧ 0 < s.config.density ∧ s.config.volume ∈ ["octant", "hemisphere"] ∧
    s.config.decompose ∈ ["none", "spin_system"]

/-- What can be saved without units: no affine matrix, no pathways set by hand, no array in place of a spectrum, nothing in the
data sets that `_reduce_dict` changes, and `P` in every query. -/
def Spec.Saveable (s : Sim) : Prop :=
  (∀ x ∈ s.systems, x.pathways = none) ∧
  ∀ m ∈ s.methods, m.affine = none ∧
    (m.simulation = .none ∨ ∃ d, m.simulation = .csdm d ∧ Spec.Clean (.dict d)) ∧
    (∀ d, m.experiment = some d → Spec.Clean (.dict d)) ∧
    ∀ d ∈ m.dims, ∀ e ∈ d.events, (∃ p, e.query.P = some p ∧ Spec.Clean (.dict p)) ∧
      (∀ p, e.query.D = some p → Spec.Clean (.dict p)) ∧ ∀ p, e.query.F = some p → Spec.Clean (.dict p)

/-! ## Lemmas about the reduction -/

theorem clean_item (l : List Val) (h : Spec.Clean (.list l)) (i : ℕ) (w : Val) (hw : l[i]? = some w) : Spec.Clean w := by
  have e : ∀ p, Spec.lookup (.idx i :: p) (.list l) = Spec.lookup p w := by
    intro p
    simp only [Spec.lookup, hw]
  exact ⟨fun p d hd => h.1 (.idx i :: p) d (by rw [e]; exact hd), fun p k x hx => h.2 (.idx i :: p) k x (by
    rw [List.cons_append, e]; exact hx)⟩

theorem clean_entry (d : List (String × Val)) (h : Spec.Clean (.dict d)) (q : String × Val) (hq : q ∈ d) :
    (q.1 ∉ ["property_units", "isotope", "channels"] ∧ q.2 ≠ .none) ∧ Spec.Clean q.2 := by
  have hg : get? d q.1 = some q.2 := mem_get? d (h.1 [] d rfl) q.1 q.2 hq
  have e : ∀ p, Spec.lookup (.key q.1 :: p) (.dict d) = Spec.lookup p q.2 := by
    intro p
    simp only [Spec.lookup, hg]
  exact ⟨h.2 [] q.1 q.2 (by rw [List.nil_append, e]; rfl), fun p d hd => h.1 (.key q.1 :: p) d (by rw [e]; exact hd),
    fun p k x hx => h.2 (.key q.1 :: p) k x (by rw [List.cons_append, e]; exact hx)⟩

mutual
theorem clean_reduceE : ∀ v : Val, Spec.Clean v → reduceE v = .ok v
  | .none, _ => by rw [reduceE]
  | .num _, _ => by rw [reduceE]
  | .str _, _ => by rw [reduceE]
  | .list l, h => by rw [reduceE, clean_reduceL l fun i w hw => clean_item l h i w hw]
  | .dict d, h => by rw [reduceE, clean_reduceD d fun q hq => clean_entry d h q hq]
theorem clean_reduceL : ∀ l : List Val, (∀ (i : ℕ) (w : Val), l[i]? = some w → Spec.Clean w) → reduceL l = .ok l
  | [], _ => by rw [reduceL]
  | v :: l, h => by
    have h1 : reduceV dflt v = .ok v := by
      cases v with
      | list m => rw [reduceV]
      | dict d => rw [reduceV_eq_reduceE _ (by simp)]; exact clean_reduceE _ (h 0 _ rfl)
      | _ => rw [reduceV]
    rw [reduceL, h1, clean_reduceL l fun i w hw => h (i + 1) w (by simpa using hw)]
theorem clean_reduceD : ∀ d : List (String × Val),
    (∀ q ∈ d, (q.1 ∉ ["property_units", "isotope", "channels"] ∧ q.2 ≠ .none) ∧ Spec.Clean q.2) → reduceD dflt d = .ok d
  | [], _ => by rw [reduceD]
  | (k, v) :: d, h => by
    obtain ⟨⟨h1, h2⟩, h3⟩ := h (k, v) (by simp)
    simp only [List.mem_cons, List.not_mem_nil, or_false, not_or] at h1
    rw [reduceD, if_neg (by simp [dflt, h1.1, h2]), if_neg h1.2.1, if_neg h1.2.2, clean_reduceE v h3,
      clean_reduceD d fun q hq => h q (by simp [hq])]
end

/-- What is left of an entry. -/
def entry (E : List String) (k : String) (v : Val) : Option Val :=
  if k ∈ E ∨ v = .none then none else match conv k v with
    | .ok r => some r
    | .error _ => none

theorem reduceD_get (E : List String) (d e : List (String × Val)) (hwf : Dict.WF d) (h : reduceD E d = .ok e) (k : String) :
    get? e k = (get? d k).bind (entry E k) := by
  cases hg : get? d k with
  | none => exact reduceD_drop E d e hwf h k (Or.inr (Or.inl hg))
  | some w =>
    rw [Option.bind_some]
    unfold entry
    split
    · rename_i hk
      rcases hk with hk | hk
      · exact reduceD_drop E d e hwf h k (Or.inl hk)
      · exact reduceD_drop E d e hwf h k (Or.inr (Or.inr (by rw [hg, hk])))
    · rename_i hk
      rw [not_or] at hk
      obtain ⟨r, h1, h2⟩ := reduceD_keep E d e h k w hg hk.1 hk.2
      rw [h1, h2]

/-- `reduceD_get` for the entry at a position. -/
theorem reduceD_at (E : List String) (d e : List (String × Val)) (hwf : Dict.WF d) (h : reduceD E d = .ok e) (i : ℕ) (k : String) (v : Val)
    (hi : d[i]? = some (k, v)) : get? e k = entry E k v := by
  rw [reduceD_get E d e hwf h k, Dict.mem_get? d hwf k v (List.mem_of_getElem? hi), Option.bind_some]

/-- An entry that can be reduced. -/
def Fine (E : List String) (q : String × Val) : Prop := q.1 ∈ E ∨ q.2 = .none ∨ ∃ r, conv q.1 q.2 = .ok r

theorem reduceD_total (E : List String) (d : List (String × Val)) (h : ∀ q ∈ d, Fine E q) : ∃ e, reduceD E d = .ok e := by
  induction d with
  | nil => exact ⟨[], by rw [reduceD]⟩
  | cons q d ih =>
    obtain ⟨k, v⟩ := q
    obtain ⟨e, he⟩ := ih fun q hq => h q (by simp [hq])
    rw [reduceD]
    split
    · exact ⟨e, he⟩
    · rename_i hn
      rw [not_or] at hn
      rcases h (k, v) (by simp) with h1 | h1 | ⟨r, h1⟩
      · exact absurd h1 hn.1
      · exact absurd h1 hn.2
      · unfold conv at h1
        simp only at h1
        rw [h1, he]
        exact ⟨_, rfl⟩

/-- An object `x` whose reduced dictionary is read as `y`. -/
def Trip {α β : Type} (E : List String) (f : α → Dict Val) (read : Val → Py β) (x : α) (y : β) : Prop :=
  ∃ e, reduceD E (f x) = .ok e ∧ read (.dict e) = .ok y

/-- A key that `_reduce_dict` does not treat specially. -/
def Usual (E : List String) (k : String) : Prop := k ∉ E ∧ k ≠ "isotope" ∧ k ≠ "channels"

theorem conv_usual {E : List String} {k : String} (h : Usual E k) (v : Val) : conv k v = reduceE v := by
  unfold conv
  rw [if_neg h.2.1, if_neg h.2.2]

theorem entry_usual {E : List String} {k : String} (h : Usual E k) (v : Val) :
    entry E k v = if v = .none then none else match reduceE v with | .ok r => some r | .error _ => none := by
  unfold entry
  rw [conv_usual h]
  simp [h.1]

theorem fine_units (E : List String) (hE : "property_units" ∈ E) (v : Val) : Fine E ("property_units", v) := Or.inl hE

theorem fine_num (E : List String) (k : String) (h : Usual E k) (x : Option ℚ) : Fine E (k, num x) := by
  cases x with
  | none => exact Or.inr (Or.inl rfl)
  | some q => exact Or.inr (Or.inr ⟨.num q, by rw [conv_usual h]; unfold num; rw [reduceE]⟩)

theorem fine_num' (E : List String) (k : String) (h : Usual E k) (q : ℚ) : Fine E (k, .num q) := fine_num E k h (some q)

theorem fine_str (E : List String) (k : String) (h : Usual E k) (x : Option String) : Fine E (k, str x) := by
  cases x with
  | none => exact Or.inr (Or.inl rfl)
  | some q => exact Or.inr (Or.inr ⟨.str q, by rw [conv_usual h]; unfold str; rw [reduceE]⟩)

theorem fine_sub {α β : Type} (E : List String) (k : String) (h : Usual E k) (f : α → Dict Val) (read : Val → Py β) (g : α → β)
    (o : Option α) (ho : ∀ x, o = some x → Trip dflt f read x (g x)) : Fine E (k, sub f o) := by
  cases o with
  | none => exact Or.inr (Or.inl rfl)
  | some x =>
    obtain ⟨e, he, -⟩ := ho x rfl
    exact Or.inr (Or.inr ⟨.dict e, by rw [conv_usual h]; unfold sub; rw [reduceE, he]⟩)

theorem subs_reduce {α β : Type} (f : α → Dict Val) (read : Val → Py β) (g : α → β)
    (l : List α) (hl : ∀ x ∈ l, Trip dflt f read x (g x)) :
    ∃ e, reduceL (l.map fun x => .dict (f x)) = .ok e ∧ all read e = .ok (l.map g) := by
  induction l with
  | nil => exact ⟨[], by simp [reduceL], rfl⟩
  | cons x l ih =>
    obtain ⟨e, h1, h2⟩ := ih fun x hx => hl x (by simp [hx])
    obtain ⟨d, h3, h4⟩ := hl x (by simp)
    refine ⟨.dict d :: e, ?_, ?_⟩
    · rw [List.map_cons, reduceL, reduceV, h3, h1]
    · rw [all, h4, h2, List.map_cons]

theorem fine_subs {α β : Type} (E : List String) (k : String) (h : Usual E k) (f : α → Dict Val) (read : Val → Py β) (g : α → β)
    (l : List α) (hl : ∀ x ∈ l, Trip dflt f read x (g x)) : Fine E (k, subs f l) := by
  obtain ⟨e, he, -⟩ := subs_reduce f read g l hl
  exact Or.inr (Or.inr ⟨.list e, by rw [conv_usual h]; unfold subs; rw [reduceE, he]⟩)

theorem read_num (E : List String) (k : String) (h : Usual E k) (x : Option ℚ) : num? (entry E k (num x)) = .ok x := by
  rw [entry_usual h]
  cases x with
  | none => rfl
  | some q => unfold num; rw [if_neg (by simp), reduceE]; rfl

theorem read_str (E : List String) (k : String) (h : Usual E k) (x : Option String) : str? (entry E k (str x)) = .ok x := by
  rw [entry_usual h]
  cases x with
  | none => rfl
  | some q => unfold str; rw [if_neg (by simp), reduceE]; rfl

theorem read_numD (E : List String) (k : String) (h : Usual E k) (d q : ℚ) : numD d (entry E k (.num q)) = .ok q := by
  rw [entry_usual h, if_neg (by simp), reduceE]
  rfl

theorem read_strD (E : List String) (k : String) (h : Usual E k) (d q : String) : strD d (entry E k (.str q)) = .ok q := by
  rw [entry_usual h, if_neg (by simp), reduceE]
  rfl

theorem read_obj {α β : Type} (E : List String) (k : String) (h : Usual E k) (f : α → Dict Val) (read : Val → Py β) (g : α → β)
    (o : Option α) (ho : ∀ x, o = some x → Trip dflt f read x (g x)) : obj? read (entry E k (sub f o)) = .ok (o.map g) := by
  rw [entry_usual h]
  cases o with
  | none => rfl
  | some x =>
    obtain ⟨e, he, hr⟩ := ho x rfl
    unfold sub
    rw [if_neg (by simp), reduceE, he]
    simp only [obj?, hr]
    rfl

theorem entry_subs {α β : Type} (E : List String) (k : String) (h : Usual E k) (f : α → Dict Val) (read : Val → Py β) (g : α → β)
    (l : List α) (hl : ∀ x ∈ l, Trip dflt f read x (g x)) :
    ∃ e, entry E k (subs f l) = some (.list e) ∧ all read e = .ok (l.map g) := by
  obtain ⟨e, he, hr⟩ := subs_reduce f read g l hl
  refine ⟨e, ?_, hr⟩
  rw [entry_usual h]
  unfold subs
  rw [if_neg (by simp), reduceE, he]

theorem read_listD {α β : Type} (E : List String) (k : String) (h : Usual E k) (f : α → Dict Val) (read : Val → Py β) (g : α → β)
    (d : List β) (l : List α) (hl : ∀ x ∈ l, Trip dflt f read x (g x)) :
    listD d read (entry E k (subs f l)) = .ok (l.map g) := by
  obtain ⟨e, he, hr⟩ := entry_subs E k h f read g l hl
  rw [he]
  exact hr

theorem plain_reduceL {α : Type} (f : α → Val) (hf : ∀ x, reduceV dflt (f x) = .ok (f x)) (l : List α) :
    reduceL (l.map f) = .ok (l.map f) := by
  induction l with
  | nil => rw [List.map_nil, reduceL]
  | cons x l ih => rw [List.map_cons, reduceL, hf, ih]

theorem fine_plain {α : Type} (E : List String) (k : String) (h : Usual E k) (f : α → Val) (hf : ∀ x, reduceV dflt (f x) = .ok (f x))
    (l : List α) : Fine E (k, .list (l.map f)) :=
  Or.inr (Or.inr ⟨.list (l.map f), by rw [conv_usual h, reduceE, plain_reduceL f hf]⟩)

theorem entry_plain {α : Type} (E : List String) (k : String) (h : Usual E k) (f : α → Val) (hf : ∀ x, reduceV dflt (f x) = .ok (f x))
    (l : List α) : entry E k (.list (l.map f)) = some (.list (l.map f)) := by
  rw [entry_usual h, if_neg (by simp), reduceE, plain_reduceL f hf]

theorem all_map {α β : Type} (read : Val → Py β) (f : α → Val) (g : α → β) (l : List α) (h : ∀ x ∈ l, read (f x) = .ok (g x)) :
    all read (l.map f) = .ok (l.map g) := by
  induction l with
  | nil => rfl
  | cons x l ih => rw [List.map_cons, all, h x (by simp), ih fun x hx => h x (by simp [hx]), List.map_cons]

/-! ## Objects -/

theorem sym_trip (t : Sym) (h : Spec.SymOk t) : Trip dflt Sym.dict readSym t { t with units := symUnits } := by
  obtain ⟨e, he⟩ := reduceD_total dflt t.dict (by
    simp only [Sym.dict, List.forall_mem_cons, List.not_mem_nil, false_imp_iff, implies_true, and_true]
    refine ⟨fine_units _ (by decide) _, ?_, ?_, ?_, ?_, ?_, ?_, ?_⟩ <;> exact fine_num _ _ (by unfold Usual; decide) _)
  refine ⟨e, he, ?_⟩
  have g := reduceD_get dflt t.dict e (by unfold Dict.WF Sym.dict; simp) he
  have hc : check (t.eta.all fun x => 0 ≤ x && x ≤ 1) = .ok () := by
    unfold check
    rw [if_pos]
    cases hx : t.eta with
    | none => rfl
    | some x => obtain ⟨h1, h2⟩ := h x hx; simp [h1, h2]
  simp only [readSym, g, Sym.dict, get?_cons, get?_nil]
  simp (config := { decide := true }) only [if_true, if_false, Option.bind_some]
  rw [read_num _ _ (by unfold Usual; decide), read_num _ _ (by unfold Usual; decide), read_num _ _ (by unfold Usual; decide),
    read_num _ _ (by unfold Usual; decide), read_num _ _ (by unfold Usual; decide), read_num _ _ (by unfold Usual; decide),
    read_num _ _ (by unfold Usual; decide)]
  simp only [bind, Except.bind, hc]
  rfl

theorem anti_trip (t : Anti) : Trip dflt Anti.dict readAnti t { t with units := antiUnits } := by
  obtain ⟨e, he⟩ := reduceD_total dflt t.dict (by
    simp only [Anti.dict, List.forall_mem_cons, List.not_mem_nil, false_imp_iff, implies_true, and_true]
    refine ⟨fine_units _ (by decide) _, ?_, ?_, ?_⟩ <;> exact fine_num _ _ (by unfold Usual; decide) _)
  refine ⟨e, he, ?_⟩
  have g := reduceD_get dflt t.dict e (by unfold Dict.WF Anti.dict; simp) he
  simp only [readAnti, g, Anti.dict, get?_cons, get?_nil]
  simp (config := { decide := true }) only [if_true, if_false, Option.bind_some]
  rw [read_num _ _ (by unfold Usual; decide), read_num _ _ (by unfold Usual; decide), read_num _ _ (by unfold Usual; decide)]
  rfl

theorem entry_isotope (E : List String) (h : "isotope" ∉ E) (s : String) :
    entry E "isotope" (.dict (isotopeDict s)) = some (.str s) := by
  unfold entry
  rw [if_neg (by simp [h])]
  rfl

theorem units1 : popAll ["Cq", "D"] symUnits = ("zeta", .str "ppm") :: Spec.angles := by decide +kernel

theorem units2 : popAll ["Cq", "D"] antiUnits = antiUnits := by decide +kernel

theorem units3 : popAll ["D", "zeta"] symUnits = ("Cq", .str "Hz") :: Spec.angles := by decide +kernel

theorem units4 : popAll ["Cq", "zeta"] symUnits = ("D", .str "Hz") :: Spec.angles := by decide +kernel

theorem units5 : Dict.set (("zeta", Val.str "ppm") :: Spec.angles) "zeta" (Val.str "Hz") = ("zeta", .str "Hz") :: Spec.angles := by decide +kernel

theorem units6 : Dict.set antiUnits "zeta" (.str "Hz") = [("zeta", .str "Hz"), ("alpha", .str "rad"), ("beta", .str "rad")] := by decide +kernel

theorem site_trip (iso : Isotopes) (s : Site) (h : Spec.SiteOk iso s) : Trip dflt Site.dict (readSite iso) s (Spec.site s) := by
  obtain ⟨hi, hs, hq⟩ := h
  have t1 : ∀ x, s.shielding = some x → Trip dflt Sym.dict readSym x { x with units := symUnits } := fun x hx => sym_trip x (hs x hx)
  have t2 : ∀ x, s.anti = some x → Trip dflt Anti.dict readAnti x { x with units := antiUnits } := fun x _ => anti_trip x
  have t3 : ∀ x, s.quad = some x → Trip dflt Sym.dict readSym x { x with units := symUnits } := fun x hx => sym_trip x (hq x hx).1
  obtain ⟨e, he⟩ := reduceD_total dflt s.dict (by
    simp only [Site.dict, List.forall_mem_cons, List.not_mem_nil, false_imp_iff, implies_true, and_true]
    refine ⟨fine_units _ (by decide) _, fine_str _ _ (by unfold Usual; decide) _, fine_str _ _ (by unfold Usual; decide) _,
      fine_str _ _ (by unfold Usual; decide) _, Or.inr (Or.inr ⟨.str s.isotope, rfl⟩), fine_num' _ _ (by unfold Usual; decide) _,
      fine_sub _ _ (by unfold Usual; decide) _ _ _ _ t1, fine_sub _ _ (by unfold Usual; decide) _ _ _ _ t2,
      fine_sub _ _ (by unfold Usual; decide) _ _ _ _ t3⟩)
  refine ⟨e, he, ?_⟩
  have g := reduceD_at dflt s.dict e (by unfold Dict.WF Site.dict; simp) he
  have hc : ∀ o : Option Sym, o = s.quad.map (fun x => { x with units := symUnits }) →
      check (o.isNone || decide (2 ≤ iso.twoI s.isotope)) = .ok () := by
    rintro _ rfl
    unfold check
    rw [if_pos]
    cases hx : s.quad with
    | none => rfl
    | some x => simp [(hq x hx).2]
  rw [readSite, g 1 "name" _ rfl, g 2 "label" _ rfl, g 3 "description" _ rfl, g 4 "isotope" _ rfl,
    g 5 "isotropic_chemical_shift" _ rfl, g 6 "shielding_symmetric" _ rfl, g 7 "shielding_antisymmetric" _ rfl,
    g 8 "quadrupolar" _ rfl]
  rw [read_str _ _ (by unfold Usual; decide), read_str _ _ (by unfold Usual; decide), read_str _ _ (by unfold Usual; decide),
    entry_isotope _ (by decide), read_numD _ _ (by unfold Usual; decide), read_obj _ _ (by unfold Usual; decide) _ _ _ _ t1,
    read_obj _ _ (by unfold Usual; decide) _ _ _ _ t2, read_obj _ _ (by unfold Usual; decide) _ _ _ _ t3]
  simp only [strD, bind, Except.bind, Isotopes.read, hi, hc _ rfl, pure, Except.pure, Option.map_map, Function.comp_def, units1, units2,
    units3]
  rfl

theorem coupling_trip (s : Coupling) (h : Spec.CouplingOk s) : Trip dflt Coupling.dict readCoupling s (Spec.coupling s) := by
  obtain ⟨⟨i, j, hi, hij⟩, hs, hq⟩ := h
  have t1 : ∀ x, s.sym = some x → Trip dflt Sym.dict readSym x { x with units := symUnits } := fun x hx => sym_trip x (hs x hx)
  have t2 : ∀ x, s.anti = some x → Trip dflt Anti.dict readAnti x { x with units := antiUnits } := fun x _ => anti_trip x
  have t3 : ∀ x, s.dipolar = some x → Trip dflt Sym.dict readSym x { x with units := symUnits } := fun x hx => sym_trip x (hq x hx)
  have hp : ∀ x : ℚ, reduceV dflt (.num x) = .ok (.num x) := fun x => by rw [reduceV]
  obtain ⟨e, he⟩ := reduceD_total dflt s.dict (by
    simp only [Coupling.dict, List.forall_mem_cons, List.not_mem_nil, false_imp_iff, implies_true, and_true]
    refine ⟨fine_units _ (by decide) _, fine_str _ _ (by unfold Usual; decide) _, fine_str _ _ (by unfold Usual; decide) _,
      fine_str _ _ (by unfold Usual; decide) _, fine_plain _ _ (by unfold Usual; decide) _ hp _, fine_num' _ _ (by unfold Usual; decide) _,
      fine_sub _ _ (by unfold Usual; decide) _ _ _ _ t1, fine_sub _ _ (by unfold Usual; decide) _ _ _ _ t2,
      fine_sub _ _ (by unfold Usual; decide) _ _ _ _ t3⟩)
  refine ⟨e, he, ?_⟩
  have g := reduceD_at dflt s.dict e (by unfold Dict.WF Coupling.dict; simp) he
  have hc : check (s.index.length = 2 && s.index[0]? != s.index[1]?) = .ok () := by
    unfold check
    rw [if_pos]
    rw [hi]
    simp [hij]
  have ha : all asNum (s.index.map .num) = .ok s.index := by
    rw [all_map asNum _ id _ fun _ _ => rfl, List.map_id]
  rw [readCoupling, g 1 "name" _ rfl, g 2 "label" _ rfl, g 3 "description" _ rfl, g 4 "site_index" _ rfl, g 5 "isotropic_j" _ rfl,
    g 6 "j_symmetric" _ rfl, g 7 "j_antisymmetric" _ rfl, g 8 "dipolar" _ rfl]
  rw [read_str _ _ (by unfold Usual; decide), read_str _ _ (by unfold Usual; decide), read_str _ _ (by unfold Usual; decide),
    entry_plain _ _ (by unfold Usual; decide) _ hp, read_numD _ _ (by unfold Usual; decide), read_obj _ _ (by unfold Usual; decide) _ _ _ _ t1,
    read_obj _ _ (by unfold Usual; decide) _ _ _ _ t2, read_obj _ _ (by unfold Usual; decide) _ _ _ _ t3]
  simp only [bind, Except.bind, ha, hc, pure, Except.pure, Option.map_map, Function.comp_def, units1, units2, units4, units5, units6]
  rfl

theorem system_trip (iso : Isotopes) (s : System) (h : Spec.SystemOk iso s) (hp : s.pathways = none) :
    Trip dflt System.dict (readSystem iso) s (Spec.system s) := by
  obtain ⟨hs, hk, ha0, ha1⟩ := h
  have t1 : ∀ x ∈ s.sites, Trip dflt Site.dict (readSite iso) x (Spec.site x) := fun x hx => site_trip iso x (hs x hx)
  have t2 : ∀ l, s.couplings = some l → ∀ x ∈ l, Trip dflt Coupling.dict readCoupling x (Spec.coupling x) :=
    fun l hl x hx => coupling_trip x (hk l hl x hx)
  obtain ⟨e, he⟩ := reduceD_total dflt s.dict (by
    simp only [System.dict, List.forall_mem_cons, List.not_mem_nil, false_imp_iff, implies_true, and_true]
    refine ⟨fine_units _ (by decide) _, fine_str _ _ (by unfold Usual; decide) _, fine_str _ _ (by unfold Usual; decide) _,
      fine_str _ _ (by unfold Usual; decide) _, fine_subs _ _ (by unfold Usual; decide) _ _ _ _ t1, ?_,
      fine_num' _ _ (by unfold Usual; decide) _, ?_⟩
    · cases hl : s.couplings with
      | none => exact Or.inr (Or.inl rfl)
      | some l => exact fine_subs _ _ (by unfold Usual; decide) _ _ _ _ (t2 l hl)
    · rw [hp]
      exact Or.inr (Or.inl rfl))
  refine ⟨e, he, ?_⟩
  have g := reduceD_at dflt s.dict e (by unfold Dict.WF System.dict; simp) he
  have hc : check (decide (0 ≤ s.abundance) && decide (s.abundance ≤ 100)) = .ok () := by
    unfold check
    rw [if_pos (by simp [ha0, ha1])]
  have hcp : list? readCoupling (entry dflt "couplings" (match s.couplings with | some l => subs Coupling.dict l | none => .none))
      = .ok (s.couplings.map (List.map Spec.coupling)) := by
    cases hl : s.couplings with
    | none => rfl
    | some l =>
      obtain ⟨e, he, hr⟩ := entry_subs dflt "couplings" (by unfold Usual; decide) _ _ _ l (t2 l hl)
      simp only [he, list?, hr]
      rfl
  have hpw : list? asNum (entry dflt "transition_pathways"
      (match s.pathways with | some n => .list (List.replicate n (.str "")) | none => .none)) = .ok none := by
    rw [hp]
    rfl
  rw [readSystem, g 1 "name" _ rfl, g 2 "label" _ rfl, g 3 "description" _ rfl, g 4 "sites" _ rfl, g 5 "couplings" _ rfl,
    g 6 "abundance" _ rfl, g 7 "transition_pathways" _ rfl]
  rw [read_str _ _ (by unfold Usual; decide), read_str _ _ (by unfold Usual; decide), read_str _ _ (by unfold Usual; decide),
    read_listD _ _ (by unfold Usual; decide) _ _ _ _ _ t1, hcp, read_numD _ _ (by unfold Usual; decide), hpw]
  simp only [bind, Except.bind, hc, pure, Except.pure]
  unfold Spec.system
  rw [hp]
  rfl

theorem transition_trip (t : List ℚ × List ℚ) : Trip dflt transitionDict readTransition t t := by
  have hp : ∀ x : ℚ, reduceV dflt (.num x) = .ok (.num x) := fun x => by rw [reduceV]
  obtain ⟨e, he⟩ := reduceD_total dflt (transitionDict t) (by
    simp only [transitionDict, List.forall_mem_cons, List.not_mem_nil, false_imp_iff, implies_true, and_true]
    exact ⟨fine_plain _ _ (by unfold Usual; decide) _ hp _, fine_plain _ _ (by unfold Usual; decide) _ hp _⟩)
  refine ⟨e, he, ?_⟩
  have g := reduceD_get dflt (transitionDict t) e (by unfold Dict.WF transitionDict; simp) he
  have ha : ∀ l : List ℚ, all asNum (l.map .num) = .ok l := fun l => by
    rw [all_map asNum _ id _ fun _ _ => rfl, List.map_id]
  simp only [readTransition, g, transitionDict, get?_cons, get?_nil]
  simp (config := { decide := true }) only [if_true, if_false, Option.bind_some]
  rw [entry_plain _ _ (by unfold Usual; decide) _ hp, entry_plain _ _ (by unfold Usual; decide) _ hp]
  simp only [listD, ha]
  rfl

theorem fine_clean (E : List String) (k : String) (h : Usual E k) (o : Option (Dict Val)) (ho : ∀ d, o = some d → Spec.Clean (.dict d)) :
    Fine E (k, sub id o) := by
  cases o with
  | none => exact Or.inr (Or.inl rfl)
  | some d => exact Or.inr (Or.inr ⟨.dict d, by rw [conv_usual h]; exact clean_reduceE _ (ho d rfl)⟩)

theorem entry_clean (E : List String) (k : String) (h : Usual E k) (d : Dict Val) (hd : Spec.Clean (.dict d)) :
    entry E k (.dict d) = some (.dict d) := by
  rw [entry_usual h, if_neg (by simp), clean_reduceE _ hd]

theorem read_dict (E : List String) (k : String) (h : Usual E k) (o : Option (Dict Val)) (ho : ∀ d, o = some d → Spec.Clean (.dict d)) :
    dict? (entry E k (sub id o)) = .ok o := by
  cases o with
  | none => unfold sub; rw [entry_usual h]; rfl
  | some d =>
    have := entry_clean E k h d (ho d rfl)
    unfold sub
    simp only [id, this]
    rfl

theorem query_trip (q : Query) (hP : ∃ p, q.P = some p ∧ Spec.Clean (.dict p)) (hD : ∀ p, q.D = some p → Spec.Clean (.dict p))
    (hF : ∀ p, q.F = some p → Spec.Clean (.dict p)) : Trip dflt Query.dict readQuery q q := by
  obtain ⟨p, hp, hpc⟩ := hP
  have hP' : ∀ p, q.P = some p → Spec.Clean (.dict p) := by
    intro p' h
    rw [hp] at h
    injection h with h
    rw [← h]
    exact hpc
  have t1 : ∀ l, q.transitions = some l → ∀ x ∈ l, Trip dflt transitionDict readTransition x (id x) := fun _ _ x _ => transition_trip x
  obtain ⟨e, he⟩ := reduceD_total dflt q.dict (by
    simp only [Query.dict, List.forall_mem_cons, List.not_mem_nil, false_imp_iff, implies_true, and_true]
    refine ⟨fine_clean _ _ (by unfold Usual; decide) _ hP', fine_clean _ _ (by unfold Usual; decide) _ hD,
      fine_clean _ _ (by unfold Usual; decide) _ hF, ?_⟩
    cases hl : q.transitions with
    | none => exact Or.inr (Or.inl rfl)
    | some l => exact fine_subs _ _ (by unfold Usual; decide) _ _ _ _ (t1 l hl))
  refine ⟨e, he, ?_⟩
  have g := reduceD_get dflt q.dict e (by unfold Dict.WF Query.dict; simp) he
  have ht : list? readTransition (entry dflt "transitions" (match q.transitions with | some l => subs transitionDict l | none => .none))
      = .ok q.transitions := by
    cases hl : q.transitions with
    | none => rfl
    | some l =>
      obtain ⟨e, he, hr⟩ := entry_subs dflt "transitions" (by unfold Usual; decide) _ _ _ l (t1 l hl)
      simp only [he, list?, hr, List.map_id]
  simp only [readQuery, g, Query.dict, get?_cons, get?_nil]
  simp (config := { decide := true }) only [if_true, if_false, Option.bind_some]
  rw [read_dict _ _ (by unfold Usual; decide) _ hD, read_dict _ _ (by unfold Usual; decide) _ hF, ht]
  have hpp := entry_clean dflt "P" (by unfold Usual; decide) p hpc
  rw [hp]
  unfold sub
  simp only [id, hpp, dict?, bind, Except.bind, pure, Except.pure]
  rw [← hp]

theorem event_trip (e : Event) (h : Spec.EventOk e) (hP : ∃ p, e.query.P = some p ∧ Spec.Clean (.dict p))
    (hD : ∀ p, e.query.D = some p → Spec.Clean (.dict p)) (hF : ∀ p, e.query.F = some p → Spec.Clean (.dict p)) :
    Trip dflt Event.dict readEvent e { e with units := eventUnits } := by
  obtain ⟨h1, h2, h3, h4, h5⟩ := h
  have hp : ∀ x : String, reduceV dflt (.str x) = .ok (.str x) := fun x => by rw [reduceV]
  obtain ⟨qe, hq1, hq2⟩ := query_trip e.query hP hD hF
  obtain ⟨r, he⟩ := reduceD_total dflt e.dict (by
    simp only [Event.dict, List.forall_mem_cons, List.not_mem_nil, false_imp_iff, implies_true, and_true]
    refine ⟨fine_units _ (by decide) _, fine_num' _ _ (by unfold Usual; decide) _, fine_num' _ _ (by unfold Usual; decide) _,
      fine_num' _ _ (by unfold Usual; decide) _, fine_num' _ _ (by unfold Usual; decide) _,
      fine_plain _ _ (by unfold Usual; decide) _ hp _, ?_⟩
    exact fine_sub _ _ (by unfold Usual; decide) _ readQuery id (some e.query) (by rintro x ⟨⟩; exact ⟨qe, hq1, hq2⟩))
  refine ⟨r, he, ?_⟩
  have g := reduceD_at dflt e.dict r (by unfold Dict.WF Event.dict; simp) he
  have hc : check (decide (0 ≤ e.B0) && decide (0 ≤ e.rotor) && decide (0 ≤ e.angle) && decide (e.angle ≤ 15707963268 / 10000000000))
      = .ok () := by
    unfold check
    rw [if_pos (by simp only [Bool.and_eq_true, decide_eq_true_eq]; exact ⟨⟨⟨h1, h2⟩, h3⟩, h4⟩)]
  have ha : all readContrib (e.contrib.map .str) = .ok e.contrib := by
    rw [all_map readContrib _ id _ ?_, List.map_id]
    intro c hc
    simp only [readContrib, asStr]
    rw [if_pos (show c ∈ contribs from h5 c hc)]
    rfl
  have hqe : entry dflt "transition_query" (.dict e.query.dict) = some (.dict qe) := by
    rw [entry_usual (by unfold Usual; decide), if_neg (by simp), reduceE, hq1]
  rw [readEvent, g 1 "fraction" _ rfl, g 2 "magnetic_flux_density" _ rfl, g 3 "rotor_frequency" _ rfl, g 4 "rotor_angle" _ rfl,
    g 5 "freq_contrib" _ rfl, g 6 "transition_query" _ rfl]
  rw [read_numD _ _ (by unfold Usual; decide), read_numD _ _ (by unfold Usual; decide), read_numD _ _ (by unfold Usual; decide),
    read_numD _ _ (by unfold Usual; decide), entry_plain _ _ (by unfold Usual; decide) _ hp, hqe]
  simp only [listD, ha, hq2, bind, Except.bind, hc, pure, Except.pure]

theorem dim_trip (d : Dim) (h : 0 < d.count ∧ 0 < d.width ∧ ∀ e ∈ d.events, Spec.EventOk e)
    (hq : ∀ e ∈ d.events, (∃ p, e.query.P = some p ∧ Spec.Clean (.dict p)) ∧
      (∀ p, e.query.D = some p → Spec.Clean (.dict p)) ∧ ∀ p, e.query.F = some p → Spec.Clean (.dict p)) :
    Trip dflt Dim.dict readDim d (Spec.dim d) := by
  obtain ⟨h1, h2, h3⟩ := h
  have t1 : ∀ x ∈ d.events, Trip dflt Event.dict readEvent x { x with units := eventUnits } := fun x hx =>
    event_trip x (h3 x hx) (hq x hx).1 (hq x hx).2.1 (hq x hx).2.2
  obtain ⟨r, he⟩ := reduceD_total dflt d.dict (by
    simp only [Dim.dict, List.forall_mem_cons, List.not_mem_nil, false_imp_iff, implies_true, and_true]
    exact ⟨fine_units _ (by decide) _, fine_num' _ _ (by unfold Usual; decide) _, fine_num' _ _ (by unfold Usual; decide) _,
      fine_num' _ _ (by unfold Usual; decide) _, fine_num _ _ (by unfold Usual; decide) _, fine_str _ _ (by unfold Usual; decide) _,
      fine_str _ _ (by unfold Usual; decide) _, fine_subs _ _ (by unfold Usual; decide) _ _ _ _ t1⟩)
  refine ⟨r, he, ?_⟩
  have g := reduceD_at dflt d.dict r (by unfold Dict.WF Dim.dict; simp) he
  have hc : check (decide (0 < d.count) && decide (0 < d.width)) = .ok () := by
    unfold check
    rw [if_pos (by simp [h1, h2])]
  rw [readDim, g 1 "count" _ rfl, g 2 "spectral_width" _ rfl, g 3 "reference_offset" _ rfl, g 4 "origin_offset" _ rfl,
    g 5 "label" _ rfl, g 6 "description" _ rfl, g 7 "events" _ rfl]
  rw [read_numD _ _ (by unfold Usual; decide), read_numD _ _ (by unfold Usual; decide), read_numD _ _ (by unfold Usual; decide),
    read_num _ _ (by unfold Usual; decide), read_str _ _ (by unfold Usual; decide), read_str _ _ (by unfold Usual; decide),
    read_listD _ _ (by unfold Usual; decide) _ _ _ _ _ t1]
  simp only [bind, Except.bind, hc, pure, Except.pure]
  rfl

theorem symbols_map (l : List String) : symbolsOf (l.map fun x => .dict (isotopeDict x)) = .ok (l.map .str) := by
  induction l with
  | nil => rfl
  | cons x l ih =>
    rw [List.map_cons, symbolsOf, ih]
    rfl

theorem conv_channels (l : List String) : conv "channels" (subs isotopeDict l) = .ok (.list (l.map .str)) := by
  unfold conv subs
  rw [if_neg (by decide), if_pos rfl, channelsOf, symbols_map]

theorem method_trip (iso : Isotopes) (m : Method) (hok : Spec.MethodOk iso m) (ha : m.affine = none)
    (hs : m.simulation = .none ∨ ∃ d, m.simulation = .csdm d ∧ Spec.Clean (.dict d))
    (hx : ∀ d, m.experiment = some d → Spec.Clean (.dict d))
    (hq : ∀ d ∈ m.dims, ∀ e ∈ d.events, (∃ p, e.query.P = some p ∧ Spec.Clean (.dict p)) ∧
      (∀ p, e.query.D = some p → Spec.Clean (.dict p)) ∧ ∀ p, e.query.F = some p → Spec.Clean (.dict p)) :
    ∃ d e, m.dict = .ok d ∧ reduceD dflt d = .ok e ∧ readMethod iso (.dict e) = .ok (Spec.method m) := by
  obtain ⟨hch, hd⟩ := hok
  obtain ⟨o, ho, hm, hoc⟩ : ∃ o : Option (Dict Val), m.simulation = (match o with | some x => .csdm x | none => .none) ∧
      m.dict = .ok (Method.dict.entries m (sub id o)) ∧ ∀ d, o = some d → Spec.Clean (.dict d) := by
    rcases hs with hs | ⟨d, hs, hc⟩
    · exact ⟨none, hs, by unfold Method.dict; rw [hs]; rfl, by simp⟩
    · exact ⟨some d, hs, by unfold Method.dict; rw [hs]; rfl, by rintro _ ⟨⟩; exact hc⟩
  have t1 : ∀ x ∈ m.dims, Trip dflt Dim.dict readDim x (Spec.dim x) := fun x hx => dim_trip x (hd x hx) (hq x hx)
  obtain ⟨e, he⟩ := reduceD_total dflt (Method.dict.entries m (sub id o)) (by
    simp only [Method.dict.entries, List.forall_mem_cons, List.not_mem_nil, false_imp_iff, implies_true, and_true]
    refine ⟨fine_units _ (by decide) _, fine_str _ _ (by unfold Usual; decide) _, fine_str _ _ (by unfold Usual; decide) _,
      fine_str _ _ (by unfold Usual; decide) _, Or.inr (Or.inr ⟨_, conv_channels _⟩), fine_subs _ _ (by unfold Usual; decide) _ _ _ _ t1,
      ?_, fine_clean _ _ (by unfold Usual; decide) _ hoc, fine_clean _ _ (by unfold Usual; decide) _ hx⟩
    rw [ha]
    exact Or.inr (Or.inl rfl))
  refine ⟨_, e, hm, he, ?_⟩
  have g := reduceD_at dflt (Method.dict.entries m (sub id o)) e (by unfold Dict.WF Method.dict.entries; simp) he
  have hcs : entry dflt "channels" (subs isotopeDict m.channels) = some (.list (m.channels.map .str)) := by
    unfold entry
    rw [if_neg (by unfold subs; simp; decide), conv_channels]
  have hrc : listD [] (readChannel iso) (some (.list (m.channels.map .str))) = .ok m.channels := by
    unfold listD
    simp only
    rw [all_map (readChannel iso) _ id _ ?_, List.map_id]
    intro c hc
    simp only [readChannel, asStr, Isotopes.read, hch c hc]
    rfl
  have haf : list? asNum (entry dflt "affine_matrix" (match m.affine with | some l => .list (l.map .num) | none => .none))
      = .ok none := by
    rw [ha]
    rfl
  rw [readMethod, g 1 "name" _ rfl, g 2 "label" _ rfl, g 3 "description" _ rfl, g 4 "channels" _ rfl, g 5 "spectral_dimensions" _ rfl,
    g 6 "affine_matrix" _ rfl, g 7 "simulation" _ rfl, g 8 "experiment" _ rfl]
  rw [read_str _ _ (by unfold Usual; decide), read_str _ _ (by unfold Usual; decide), read_str _ _ (by unfold Usual; decide), hcs, hrc,
    read_listD _ _ (by unfold Usual; decide) _ _ _ _ _ t1, haf, read_dict _ _ (by unfold Usual; decide) _ hoc,
    read_dict _ _ (by unfold Usual; decide) _ hx]
  have hc : check (Option.all (fun l : List ℚ => decide (l.length = (m.dims.map Spec.dim).length ^ 2) && l[0]? != some 0) none) = .ok () := rfl
  simp only [bind, Except.bind, hc, pure, Except.pure]
  unfold Spec.method
  rw [← ho, ha]
  rfl

theorem config_trip (c : Config) (h1 : 0 < c.sidebands) (h2 : 0 < c.density) (h3 : c.volume ∈ ["octant", "hemisphere"])
    (h4 : c.decompose ∈ ["none", "spin_system"]) : Trip dflt Config.dict readConfig c c := by
  have hs : ∀ (k : String), Usual dflt k → ∀ q : String, Fine dflt (k, .str q) := fun k h q => fine_str _ _ h (some q)
  obtain ⟨e, he⟩ := reduceD_total dflt c.dict (by
    simp only [Config.dict, List.forall_mem_cons, List.not_mem_nil, false_imp_iff, implies_true, and_true]
    exact ⟨fine_num' _ _ (by unfold Usual; decide) _, hs _ (by unfold Usual; decide) _, fine_num' _ _ (by unfold Usual; decide) _,
      hs _ (by unfold Usual; decide) _⟩)
  refine ⟨e, he, ?_⟩
  have g := reduceD_at dflt c.dict e (by unfold Dict.WF Config.dict; simp) he
  have hc : check (decide (0 < c.sidebands) && decide (0 < c.density) && ["octant", "hemisphere"].contains c.volume &&
      ["none", "spin_system"].contains c.decompose) = .ok () := by
    unfold check
    rw [if_pos]
    simp only [Bool.and_eq_true, decide_eq_true_eq, List.contains_iff_mem]
    exact ⟨⟨⟨h1, h2⟩, h3⟩, h4⟩
  rw [readConfig, g 0 "number_of_sidebands" _ rfl, g 1 "integration_volume" _ rfl, g 2 "integration_density" _ rfl,
    g 3 "decompose_spectrum" _ rfl]
  rw [read_numD _ _ (by unfold Usual; decide), read_strD _ _ (by unfold Usual; decide), read_numD _ _ (by unfold Usual; decide),
    read_strD _ _ (by unfold Usual; decide)]
  simp only [bind, Except.bind, hc, pure, Except.pure]

theorem methods_trip (iso : Isotopes) (l : List Method)
    (h : ∀ m ∈ l, ∃ d e, m.dict = .ok d ∧ reduceD dflt d = .ok e ∧ readMethod iso (.dict e) = .ok (Spec.method m)) :
    ∃ ms r, methodDicts l = .ok ms ∧ reduceL ms = .ok r ∧ all (readMethod iso) r = .ok (l.map Spec.method) := by
  induction l with
  | nil => exact ⟨[], [], rfl, by simp [reduceL], rfl⟩
  | cons m l ih =>
    obtain ⟨ms, r, h1, h2, h3⟩ := ih fun x hx => h x (by simp [hx])
    obtain ⟨d, e, h4, h5, h6⟩ := h m (by simp)
    refine ⟨.dict d :: ms, .dict e :: r, ?_, ?_, ?_⟩
    · rw [methodDicts, h4, h1]
    · rw [reduceL, reduceV, h5, h2]
    · rw [all, h6, h3, List.map_cons]

/-! ## C91 -/

/-- **C91**: a simulator with nothing in it that the format without units cannot hold is saved, and loading the file gives the same
simulator back, with the units it displays at their defaults. Missing: what cannot be held — see the counterexamples. -/
theorem C91_round_trip_partial (iso : Isotopes) (s : Sim) (hok : Spec.SimOk iso s) (hs : Spec.Saveable s) :
    ∃ j, save s = .ok j ∧ load iso j = .ok (Spec.sim s) := by
  obtain ⟨hy, hm, hc1, hc2, hc3, hc4⟩ := hok
  obtain ⟨hp, hq⟩ := hs
  obtain ⟨ms, r, h1, h2, h3⟩ := methods_trip iso s.methods fun m hx =>
    method_trip iso m (hm m hx) (hq m hx).1 (hq m hx).2.1 (hq m hx).2.2.1 (hq m hx).2.2.2
  obtain ⟨ce, h4, h5⟩ := config_trip s.config hc1 hc2 hc3 hc4
  have t1 : ∀ x ∈ s.systems, Trip dflt System.dict (readSystem iso) x (Spec.system x) := fun x hx =>
    system_trip iso x (hy x hx) (hp x hx)
  let d : Dict Val := [("name", str s.name), ("label", str s.label), ("description", str s.description),
      ("spin_systems", subs System.dict s.systems), ("methods", .list ms), ("config", .dict s.config.dict),
      ("indexes", .list s.indexes)]
  have hd : s.dict = .ok d := by
    unfold Sim.dict
    rw [h1]
  obtain ⟨e, he⟩ := reduceD_total ["property_units", "indexes"] d (by
    simp only [d, List.forall_mem_cons, List.not_mem_nil, false_imp_iff, implies_true, and_true]
    refine ⟨fine_str _ _ (by unfold Usual; decide) _, fine_str _ _ (by unfold Usual; decide) _, fine_str _ _ (by unfold Usual; decide) _,
      fine_subs _ _ (by unfold Usual; decide) _ _ _ _ t1, Or.inr (Or.inr ⟨.list r, ?_⟩), Or.inr (Or.inr ⟨.dict ce, ?_⟩), Or.inl (by simp)⟩
    · rw [conv_usual (E := []) (k := "methods") (by unfold Usual; decide), reduceE, h2]
    · rw [conv_usual (E := []) (k := "config") (by unfold Usual; decide), reduceE, h4])
  have g := reduceD_at ["property_units", "indexes"] d e (by unfold Dict.WF; simp [d]) he
  have hdump : dumpable s = true := by
    unfold dumpable
    simp only [Bool.and_eq_true, List.all_eq_true]
    exact ⟨fun m hx => by rw [(hq m hx).1]; rfl, fun x hx => by rw [hp x hx]; rfl⟩
  refine ⟨.dict e, ?_, ?_⟩
  · unfold save
    rw [hd]
    simp only [reduceV, he, hdump, if_true]
  · have hme : entry ["property_units", "indexes"] "methods" (.list ms) = some (.list r) := by
      rw [entry_usual (by unfold Usual; decide), if_neg (by simp), reduceE, h2]
    have hce : entry ["property_units", "indexes"] "config" (.dict s.config.dict) = some (.dict ce) := by
      rw [entry_usual (by unfold Usual; decide), if_neg (by simp), reduceE, h4]
    rw [load, g 0 "name" _ rfl, g 1 "label" _ rfl, g 2 "description" _ rfl, g 3 "spin_systems" _ rfl, g 4 "methods" _ rfl,
      g 5 "config" _ rfl]
    rw [read_str _ _ (by unfold Usual; decide), read_str _ _ (by unfold Usual; decide), read_str _ _ (by unfold Usual; decide),
      read_listD _ _ (by unfold Usual; decide) _ _ _ _ _ t1, hme, hce]
    simp only [listD, h3, h5, bind, Except.bind, pure, Except.pure]
    rfl

/-- **C91**: a simulator in which a method has an affine matrix is never saved without units. All multiple-quantum and
satellite-transition methods of the library have one. -/
theorem C91_affine (s : Sim) (m : Method) (hm : m ∈ s.methods) (a : List ℚ) (ha : m.affine = some a) : ∃ x, save s = .error x := by
  have hd : dumpable s = false := by
    unfold dumpable
    rw [Bool.and_eq_false_iff]
    left
    rw [List.all_eq_false]
    exact ⟨m, hm, by simp [ha]⟩
  unfold save
  split
  · exact ⟨_, rfl⟩
  · split
    · exact ⟨_, rfl⟩
    · exact ⟨.typeError, by rw [hd]; simp⟩

/-- **C91**: nor is a simulator in which a spin system has pathways set by hand. -/
theorem C91_pathways (s : Sim) (x : System) (hx : x ∈ s.systems) (n : ℕ) (hn : x.pathways = some (n + 1)) : ∃ e, save s = .error e := by
  have hd : dumpable s = false := by
    unfold dumpable
    rw [Bool.and_eq_false_iff]
    right
    rw [List.all_eq_false]
    exact ⟨x, hx, by simp [hn]⟩
  unfold save
  split
  · exact ⟨_, rfl⟩
  · split
    · exact ⟨_, rfl⟩
    · exact ⟨.typeError, by rw [hd]; simp⟩

/-- **C91**: nor is a simulator in which a method holds an array (`run(pack_as_csdm=False)`). -/
theorem C91_array (s : Sim) (m : Method) (hm : m ∈ s.methods) (ha : m.simulation = .array) : save s = .error .attributeError := by
  have h : ∀ l : List Method, m ∈ l → methodDicts l = .error .attributeError := by
    intro l
    induction l with
    | nil => simp
    | cons x l ih =>
      intro h
      rcases List.mem_cons.mp h with rfl | h
      · rw [methodDicts, Method.dict, ha]
      · rw [methodDicts, ih h, Method.dict]
        cases x.simulation <;> rfl
  unfold save Sim.dict
  rw [h _ hm]

/-! ### Witnesses -/

/-- A library of two isotopes. -/
def Ex.iso : Isotopes := ⟨fun s => if s ∈ ["13C", "27Al"] then some s else none, fun s => if s = "27Al" then 5 else 1⟩

/-- A quadrupolar tensor. -/
def Ex.sym : Sym := ⟨none, some 3000000, none, some (1 / 10), none, none, none, [("Cq", .str "MHz")]⟩

/-- A site of aluminium. -/
def Ex.site : Site := ⟨some "A", none, none, "27Al", 12, none, none, some Ex.sym, [("isotropic_chemical_shift", .str "ppm")]⟩

/-- A spin system of one site. -/
def Ex.system : System := ⟨none, none, none, [Ex.site], none, 40, none, [("abundance", .str "pct")]⟩

/-- An event in the middle of the defaults. -/
def Ex.event : Event :=
  ⟨1, 94 / 10, 12000, 955 / 1000, ["Quad1_2"], ⟨some [("channel-1", .list [.list [.num (-1)]])], none, none, none⟩, []⟩

/-- The width is displayed in kHz. -/
def Ex.dim : Dim := ⟨512, 25000, 0, none, none, none, [Ex.event], [("spectral_width", .str "kHz")]⟩

/-- A method that has been simulated. -/
def Ex.method : Method := ⟨some "one", none, none, ["27Al"], [Ex.dim], none, .csdm [("csdm", .str "…")], none, []⟩

/-- A simulator of that system and method. -/
def Ex.sim : Sim := ⟨none, none, none, [Ex.system], [Ex.method], ⟨64, "octant", 70, "none"⟩, []⟩

theorem clean_leaf (v : Val) (h : ∀ s p, Spec.lookup (s :: p) v = none) (hd : ∀ d, v ≠ .dict d) : Spec.Clean v := by
  refine ⟨fun p d hp => ?_, fun p k w hp => ?_⟩
  · cases p with
    | nil =>
      simp only [Spec.lookup, Option.some.injEq] at hp
      exact absurd hp (hd d)
    | cons s p => rw [h] at hp; simp at hp
  · cases p with
    | nil => rw [List.nil_append, h] at hp; simp at hp
    | cons s p => rw [List.cons_append, h] at hp; simp at hp

theorem clean_num (q : ℚ) : Spec.Clean (.num q) := clean_leaf _ (fun s p => by cases s <;> rfl) (by simp)

theorem clean_str (q : String) : Spec.Clean (.str q) := clean_leaf _ (fun s p => by cases s <;> rfl) (by simp)

theorem clean_list (l : List Val) (h : ∀ w ∈ l, Spec.Clean w) : Spec.Clean (.list l) := by
  refine ⟨fun p d hp => ?_, fun p k w hp => ?_⟩
  · cases p with
    | nil => simp [Spec.lookup] at hp
    | cons s p =>
      cases s with
      | key k => simp [Spec.lookup] at hp
      | idx i =>
        rw [Spec.lookup] at hp
        split at hp
        · rename_i w hw
          exact (h w (List.mem_of_getElem? hw)).1 p d hp
        · simp at hp
  · cases p with
    | nil => simp [Spec.lookup] at hp
    | cons s p =>
      cases s with
      | key k => simp [Spec.lookup] at hp
      | idx i =>
        rw [List.cons_append, Spec.lookup] at hp
        split at hp
        · rename_i w' hw
          exact (h w' (List.mem_of_getElem? hw)).2 p k w hp
        · simp at hp

theorem clean_dict (d : List (String × Val)) (hwf : Dict.WF d)
    (h : ∀ q ∈ d, q.1 ∉ ["property_units", "isotope", "channels"] ∧ q.2 ≠ .none ∧ Spec.Clean q.2) : Spec.Clean (.dict d) := by
  have hm : ∀ k w, get? d k = some w → (k, w) ∈ d := fun k w hk => Dict.get?_mem d k w hk
  refine ⟨fun p e hp => ?_, fun p k w hp => ?_⟩
  · cases p with
    | nil =>
      simp only [Spec.lookup, Option.some.injEq, Val.dict.injEq] at hp
      exact hp ▸ hwf
    | cons s p =>
      cases s with
      | idx k => simp [Spec.lookup] at hp
      | key i =>
        rw [Spec.lookup] at hp
        split at hp
        · rename_i w hw
          exact (h _ (hm _ _ hw)).2.2.1 p e hp
        · simp at hp
  · cases p with
    | nil =>
      simp only [List.nil_append, Spec.lookup] at hp
      split at hp
      · rename_i w' hw
        injection hp with hp
        subst hp
        exact ⟨(h _ (hm _ _ hw)).1, (h _ (hm _ _ hw)).2.1⟩
      · simp at hp
    | cons s p =>
      cases s with
      | idx k => simp [Spec.lookup] at hp
      | key i =>
        rw [List.cons_append, Spec.lookup] at hp
        split at hp
        · rename_i w' hw
          exact (h _ (hm _ _ hw)).2.2.2 p k w hp
        · simp at hp

theorem Ex.cleanP : Spec.Clean (.dict [("channel-1", .list [.list [.num (-1)]])]) := by
  refine clean_dict _ (by unfold Dict.WF; simp) fun q hq => ?_
  rw [List.mem_singleton] at hq
  subst hq
  refine ⟨by decide, by simp, clean_list _ fun w hw => ?_⟩
  rw [List.mem_singleton] at hw
  subst hw
  refine clean_list _ fun w hw => ?_
  rw [List.mem_singleton] at hw
  subst hw
  exact clean_num _

/-- The theorem applies: a quadrupolar site in MHz and a width in kHz, which are displayed in Hz afterwards. -/
example : ∃ j, save Ex.sim = .ok j ∧ load Ex.iso j = .ok (Spec.sim Ex.sim) := by
  apply C91_round_trip_partial
  · refine ⟨?_, ?_, by decide +kernel, by decide +kernel, by decide, by decide⟩
    · intro x hx
      simp only [Ex.sim, List.mem_singleton] at hx
      subst hx
      refine ⟨fun x hx => ?_, by simp [Ex.system], by decide +kernel, by decide +kernel⟩
      simp only [Ex.system, List.mem_singleton] at hx
      subst hx
      refine ⟨by decide, by simp [Ex.site], fun t ht => ?_⟩
      simp only [Ex.site, Option.some.injEq] at ht
      subst ht
      refine ⟨fun x hx => ?_, by decide⟩
      simp only [Ex.sym, Option.some.injEq] at hx
      subst hx
      exact ⟨by decide +kernel, by decide +kernel⟩
    · intro m hm
      simp only [Ex.sim, List.mem_singleton] at hm
      subst hm
      refine ⟨by simp [Ex.method, Ex.iso], fun d hd => ?_⟩
      simp only [Ex.method, List.mem_singleton] at hd
      subst hd
      refine ⟨by decide +kernel, by decide +kernel, fun e he => ?_⟩
      simp only [Ex.dim, List.mem_singleton] at he
      subst he
      exact ⟨by decide +kernel, by decide +kernel, by decide +kernel, by decide +kernel, by simp [Ex.event]⟩
  · refine ⟨by simp [Ex.sim, Ex.system], fun m hm => ?_⟩
    simp only [Ex.sim, List.mem_singleton] at hm
    subst hm
    refine ⟨rfl, Or.inr ⟨_, rfl, ?_⟩, by simp [Ex.method], fun d hd e he => ?_⟩
    · refine clean_dict _ (by unfold Dict.WF; simp) fun q hq => ?_
      rw [List.mem_singleton] at hq
      subst hq
      exact ⟨by decide, by simp, clean_str _⟩
    · simp only [Ex.method, List.mem_singleton] at hd
      subst hd
      simp only [Ex.dim, List.mem_singleton] at he
      subst he
      exact ⟨⟨_, rfl, Ex.cleanP⟩, by simp [Ex.event], by simp [Ex.event]⟩

/-- What comes back differs from what was saved only in the units displayed. -/
example : Spec.sim Ex.sim ≠ Ex.sim := by decide +kernel

/-- A two-dimensional method with an affine matrix. -/
def Ex.sheared : Sim :=
  { Ex.sim with methods := [{ Ex.method with dims := [Ex.dim, Ex.dim], affine := some [9 / 16, 7 / 16, 0, 1] }] }

/-- The spectrum was computed with `decompose_spectrum = "spin_system"`: the data set holds `SpinSystem.json()`, in which the isotope
is a string (simulator/__init__.py lines 607-611). -/
def Ex.decomposed : Sim :=
  { Ex.sim with methods := [{ Ex.method with simulation := .csdm [("application", .dict [("spin_systems", .list [.dict [("sites",
      .list [.dict [("isotope", .str "27Al")]])]])])] }] }

/-- A query for `D` alone: `P` is None. -/
def Ex.noP : Sim :=
  { Ex.sim with methods := [{ Ex.method with
      dims := [{ Ex.dim with events := [{ Ex.event with query := ⟨none, some [("channel-1", .list [.list [.num 0]])], none, none⟩ }] }] }] }

/-- **C91, counterexample**: a sheared method cannot be saved without units; a spectrum decomposed by spin systems cannot be saved
without units; a query whose `P` is None is saved but loads with `P = −1`. -/
theorem C91_counterexample : save Ex.sheared = .error .typeError ∧ save Ex.decomposed = .error .typeError ∧
    ((save Ex.noP >>= load Ex.iso).toOption.map fun s => (s.methods.flatMap (·.dims)).flatMap (·.events.map (·.query.P))) =
      some [some [("channel-1", .list [.list [.num (-1)]])]] ∧
    (Ex.noP.methods.flatMap (·.dims)).flatMap (·.events.map (·.query.P)) = [none] := by
  refine ⟨by decide +kernel, by decide +kernel, by decide +kernel, by decide +kernel⟩

end MRS.Plain
