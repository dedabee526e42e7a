import Verif.Trans.Methods

/-!
# Saving and loading a simulator — property C87

Model of `Simulator.json`, `Simulator.parse_dict_with_units` (src/mrsimulator/simulator/__init__.py) and of how a method is
written (`Method.json`, src/mrsimulator/method/__init__.py) and read back by the class of its name (src/mrsimulator/methods).
Of a method the transition queries, the affine matrix, the names and what decides whether the class accepts it are modelled; the
other parameters of its events and dimensions (property C21) are one value `rest`, and so is a spin system (properties C23, C25).
-/

namespace MRS.Saved

open MRS.Trans

/-! ## Model -/

/-- The symmetry values of a query on the first channel (transition_query.py lines 46-53). -/
abbrev Sym := List (List ℚ)

/-- `TransitionQuery` (method/transition_query.py lines 43-46), without `F` and `transitions`. -/
structure TQ where
  P : Option Sym
  D : Option Sym
  deriving DecidableEq, Repr

/-- `TransitionQuery()` (transition_query.py lines 46-53). -/
def defaultTQ : TQ := ⟨some [[-1]], none⟩

/-- `Method` (method/__init__.py lines 126-134): `twoI` is twice the spin of the first channel, `channels` the number of channels,
`rotor` the rotor frequency of the first event in Hz, `tq` the queries of the events of each dimension. -/
structure Meth (R : Type) where
  name : Option String
  label : Option String
  description : Option String
  twoI : ℕ
  channels : ℕ
  rotor : ℚ
  tq : List (List TQ)
  affine : Option (List ℚ)
  rest : R
  deriving DecidableEq, Repr

/-- The dictionary made of a method; missing keys are `none` (method/__init__.py lines 255-296). -/
structure MJson (J : Type) where
  name : Option String
  label : Option String
  description : Option String
  twoI : ℕ
  channels : ℕ
  rotor : ℚ
  tq : List (List (Option TQ))
  affine : Option (List ℚ)
  rest : J

/-- `NAMED_METHODS` (method/named_methods.json). -/
def namedMethods : List String :=
  ["BlochDecaySpectrum", "BlochDecayCentralTransitionSpectrum", "BlochDecayCTSpectrum", "ThreeQ_VAS", "FiveQ_VAS", "SevenQ_VAS",
    "ST1_VAS", "ST2_VAS", "SSB2D", "Cosy", "Inadequate"]

/-- `__method_names__` (simulator/__init__.py lines 35-38): the `__name__`s of the classes in methods/__init__.py, which for
`BlochDecayCentralTransitionSpectrum` is the name in its template (methods_data.json line 25, methods/base.py lines 97-100). -/
def methodNames : List String :=
  ["BlochDecayCTSpectrum", "BlochDecayCTSpectrum", "BlochDecaySpectrum", "Method1D", "Method2D", "FiveQ_VAS", "SevenQ_VAS",
    "ThreeQ_VAS", "SSB2D", "ST1_VAS", "ST2_VAS"]

/-- `Method.json` (method/__init__.py lines 253-295): the queries are removed for the names in `NAMED_METHODS` (lines 274-281).
Several equal events of a dimension of such a method, which are merged (lines 283-284, `C21_counterexample_count`), are here
kept. The rest may fail to be written (lines 289-293). -/
def saveMethod {R J : Type} (jsonR : R → Py J) (m : Meth R) : Py (MJson J) :=
  match m.tq with
  | (_ :: _) :: _ => do
    let j ← jsonR m.rest
    let named := match m.name with
      | none => false
      | some n => decide (n ∈ namedMethods)
    return ⟨m.name, m.label, m.description, m.twoI, m.channels, m.rotor,
      m.tq.map fun evs => evs.map fun q => if named then none else some q, m.affine, j⟩
  | _ => .error .indexError

/-- The query of an event that is read: the one given, whose `P` has a default, or else `d`
(transition_query.py lines 46-53). -/
def readTQ (d : TQ) : Option TQ → TQ
  | none => d
  | some q => ⟨some (q.P.getD [[-1]]), q.D⟩

/-- Events of a dimension; no events are read as one (method/utils.py lines 20-21, method/__init__.py lines 283-284). -/
def events (evs : List (Option TQ)) : List (Option TQ) := if evs.isEmpty then [none] else evs

/-- `Method.parse_dict_with_units` (method/__init__.py lines 203-232). -/
def loadPlain {R J : Type} (parseR : J → Py R) (j : MJson J) : Py (Meth R) := do
  let r ← parseR j.rest
  return ⟨j.name, j.label, j.description, j.twoI, j.channels, j.rotor,
    j.tq.map fun evs => (events evs).map (readTQ defaultTQ), j.affine, r⟩

/-- The classes made from templates (methods/utils.py lines 94-145 with `parse=True`): `text`, `dims` and `first` are the
description, the number of dimensions and the query of the first event in the template, `fixed` whether the rotor frequency is
among its global attributes. The order of the tests is that of lines 110-124; one channel (lines 49-60); the rotor frequency
(lines 184-194); later events have default queries (lines 172-181). -/
def loadTemplate {R J : Type} (parseR : J → Py R) (text : String) (dims : ℕ) (first : TQ) (fixed : Bool) (j : MJson J) :
    Py (Meth R) :=
  if j.channels ≠ 1 then .error .valueError
  else if fixed ∧ j.rotor ≠ 10 ^ 12 then .error .valueError
  else if dims < j.tq.length then .error .valueError
  else if j.tq.length < dims then .error .indexError
  else do
    let r ← parseR j.rest
    return ⟨j.name, j.label, some (j.description.getD text), j.twoI, j.channels, j.rotor,
      j.tq.map fun evs => (events evs).mapIdx fun i o => readTQ (if i = 0 then first else defaultTQ) o, j.affine, r⟩

/-- `sd[k].events[0].transition_query.P = ...; ....D = ...` (methods/mqvas.py lines 75-99, stvas.py lines 59-85). -/
def setFirst (q : TQ) : List TQ → Py (List TQ)
  | [] => .error .indexError
  | _ :: l => .ok (q :: l)

/-- The queries set by `update` of the two-dimensional named methods, and the texts
(methods/mqvas.py lines 75-99, stvas.py lines 59-85, correlation.py lines 96-106 and 181-192, ssb2d.py lines 111-124). -/
def updateTQ {R : Type} (q₀ q₁ : TQ) (affine : Py (List ℚ)) (text : String) (m : Meth R) : Py (Meth R) :=
  match m.tq with
  | [a, b] => do
    let a ← setFirst q₀ a
    let b ← setFirst q₁ b
    let k ← match m.affine with
      | some k => .ok k
      | none => affine
    return { m with tq := [a, b], affine := some k, description := some text }
  | _ => .error .indexError

/-- `update` of the class of a name: mqvas.py lines 74-99, stvas.py lines 58-85, ssb2d.py lines 108-124. -/
def update {R : Type} (name : String) (m : Meth R) : Py (Meth R) :=
  match mqSymmetry.lookup name with
  | some nQ =>
    updateTQ ⟨some [[if nQ = m.twoI then -(nQ : ℚ) else nQ]], some [[0]]⟩ ⟨some [[-1]], some [[0]]⟩
      (updateAffine (lookup2 shearMQ nQ m.twoI) none) s!"Simulate a {nQ}Q variable-angle spinning spectrum." m
  | none =>
    match stSymmetry.lookup name with
    | some st2 =>
      let st : ℚ := (st2 : ℚ) / 2
      let d : ℚ := st ^ 2 - (st - 1) ^ 2
      updateTQ ⟨some [[-1]], some [[d], [-d]]⟩ ⟨some [[-1]], some [[0]]⟩ (updateAffine (lookup2 shearST st2 m.twoI) none)
        (if st2 = 3 then
          "Simulate a 1.5 -> 0.5 and -0.5 -> -1.5 satellite-transition variable-angle spinning spectrum."
        else "Simulate a 2.5 -> 1.5 and -1.5 -> -2.5 satellite-transition variable-angle spinning spectrum.") m
    | none =>
      updateTQ ⟨some [[-1]], some [[0]]⟩ ⟨some [[-1]], some [[0]]⟩ (.ok [1, -1, 0, 1])
        "Simulate a 2D sideband separation method." m

/-- The other classes (methods/base.py lines 110-136): `Method.parse_dict_with_units` makes dimension objects, whose events are
not looked at (lines 140-165), there must be two, and `Method` is called (methods/utils.py lines 99-100). -/
def loadNamed {R J : Type} (parseR : J → Py R) (name : String) (j : MJson J) : Py (Meth R) := do
  let m ← loadPlain parseR j
  if m.tq.length ≠ 2 then .error .valueError else update name m

/-- The class of a name (simulator/__init__.py lines 231-243). -/
def loadMethod {R J : Type} (parseR : J → Py R) (j : MJson J) : Py (Meth R) :=
  match j.name with
  | none => .error .keyError
  | some n =>
    if n ∉ methodNames then loadPlain parseR j
    else if n = "BlochDecaySpectrum" then
      loadTemplate parseR "A one-dimensional Bloch decay spectrum method." 1 ⟨some [[-1]], none⟩ false j
    else if n = "BlochDecayCTSpectrum" then
      loadTemplate parseR "A one-dimensional central transition selective Bloch decay spectrum method." 1
        ⟨some [[-1]], some [[0]]⟩ false j
    else if n = "Method1D" then
      loadTemplate parseR "A generic one-dimensional spectrum method." 1 ⟨some [[-1]], none⟩ false j
    else if n = "Method2D" then
      loadTemplate parseR "A generic two-dimensional correlation spectrum method." 2 ⟨some [[-1]], none⟩ true j
    else loadNamed parseR n j

/-- `Simulator` (simulator/__init__.py lines 145-151), without `indexes`. -/
structure Simu (S R C : Type) where
  name : Option String
  label : Option String
  description : Option String
  systems : List S
  methods : List (Meth R)
  config : C

/-- The dictionary made of a simulator; missing keys are `none` (simulator/__init__.py lines 292-340). -/
structure SJson (JS J C : Type) where
  name : Option String
  label : Option String
  description : Option String
  systems : Option (List JS)
  methods : Option (List (MJson J))
  config : C
  version : Option String

/-- `[]` is removed (line 341). -/
def nonempty {α : Type} (l : List α) : Option (List α) := if l.isEmpty then none else some l

/-- `Simulator.json(include_methods, include_version)` (lines 330-342). -/
def saveSim {S JS R J C : Type} (jsonS : S → JS) (jsonR : R → Py J) (version : Option String) (s : Simu S R C) :
    Py (SJson JS J C) := do
  let ms ← s.methods.mapM (saveMethod jsonR)
  return ⟨s.name, s.label, s.description, nonempty (s.systems.map jsonS), nonempty ms, s.config, version⟩

/-- `obj["name"]` of every method, before any is read (lines 231-236). -/
def checkNames {J : Type} (ms : List (MJson J)) : Py Unit :=
  if ∃ j ∈ ms, j.name = none then .error .keyError else .ok ()

/-- `Simulator.parse_dict_with_units` (lines 222-245); the version is not looked at, missing lists are empty. -/
def loadSim {S JS R J C : Type} (parseS : JS → Py S) (parseR : J → Py R) (j : SJson JS J C) : Py (Simu S R C) := do
  let ss ← (j.systems.getD []).mapM parseS
  checkNames (j.methods.getD [])
  let ms ← (j.methods.getD []).mapM (loadMethod parseR)
  return ⟨j.name, j.label, j.description, ss, ms, j.config⟩

/-- `json.dump(self.reduced_dict(), ...)` (lines 492-500): an affine matrix is an `ndarray` (method/__init__.py line 195), which
`json` cannot write. `everything` stands for what is written. -/
def saveReduced {S R C F : Type} (everything : Simu S R C → F) (s : Simu S R C) : Py F :=
  if ∃ m ∈ s.methods, m.affine ≠ none then .error .typeError else .ok (everything s)

/-- `Method.simulation` (method/__init__.py lines 132 and 182-186): nothing, a data set, or the array that `run(pack_as_csdm=False)` leaves
(simulator/__init__.py lines 475-479). -/
inductive Simulated (X : Type)
  | absent
  | dataset (x : X)
  | array

/-- The rest of a method with its simulation (method/__init__.py lines 289-290): `toDict` is the method of data sets, which arrays do not have. -/
def jsonWith {R J X Y : Type} (jsonR : R → J) (toDict : X → Y) : R × Simulated X → Py (J × Option Y)
  | (r, .absent) => .ok (jsonR r, none)
  | (r, .dataset x) => .ok (jsonR r, some (toDict x))
  | (_, .array) => .error .attributeError

/-- The same, read back (method/__init__.py lines 225-227); `parse` is `cp.parse_dict`. -/
def parseWith {R J X Y : Type} (parseR : J → Py R) (parse : Y → Py X) : J × Option Y → Py (R × Simulated X)
  | (j, none) => do return (← parseR j, .absent)
  | (j, some y) => do return (← parseR j, .dataset (← parse y))

/-! ## Specification -/

/-- All events have a query with a `P`. -/
def Spec.HasP {R : Type} (m : Meth R) : Prop := ∀ evs ∈ m.tq, ∀ q ∈ evs, q.P ≠ none

/-- The first events of the dimensions have the queries `qs`, any further events the default query. -/
def Spec.Starts {R : Type} (m : Meth R) (qs : List TQ) : Prop :=
  List.Forall₂ (fun evs q => ∃ l, evs = q :: l ∧ ∀ r ∈ l, r = ⟨some [[-1]], none⟩) m.tq qs

/-- The queries and the description of the two-dimensional library methods as their class makes them for spin `twoI / 2`. -/
def Spec.library (twoI : ℕ) : List (String × TQ × String) :=
  [("ThreeQ_VAS", ⟨some [[if twoI = 3 then -3 else 3]], some [[0]]⟩, "Simulate a 3Q variable-angle spinning spectrum."),
   ("FiveQ_VAS", ⟨some [[if twoI = 5 then -5 else 5]], some [[0]]⟩, "Simulate a 5Q variable-angle spinning spectrum."),
   ("SevenQ_VAS", ⟨some [[if twoI = 7 then -7 else 7]], some [[0]]⟩, "Simulate a 7Q variable-angle spinning spectrum."),
   ("ST1_VAS", ⟨some [[-1]], some [[2], [-2]]⟩,
    "Simulate a 1.5 -> 0.5 and -0.5 -> -1.5 satellite-transition variable-angle spinning spectrum."),
   ("ST2_VAS", ⟨some [[-1]], some [[4], [-4]]⟩,
    "Simulate a 2.5 -> 1.5 and -1.5 -> -2.5 satellite-transition variable-angle spinning spectrum."),
   ("SSB2D", ⟨some [[-1]], some [[0]]⟩, "Simulate a 2D sideband separation method.")]

/-- The methods that survive saving and loading under the name `n`. -/
def Spec.Under {R : Type} (n : String) (m : Meth R) : Prop :=
  -- names whose queries are removed, but that no class puts back
  (n ∈ ["Cosy", "Inadequate", "BlochDecayCentralTransitionSpectrum"] →
    ∀ evs ∈ m.tq, ∀ q ∈ evs, q = ⟨some [[-1]], none⟩) ∧
  (n ∈ ["BlochDecaySpectrum", "BlochDecayCTSpectrum", "Method1D", "Method2D"] → m.channels = 1 ∧ m.description ≠ none) ∧
  (n = "BlochDecaySpectrum" → Spec.Starts m [⟨some [[-1]], none⟩]) ∧
  (n = "BlochDecayCTSpectrum" → Spec.Starts m [⟨some [[-1]], some [[0]]⟩]) ∧
  (n = "Method1D" → Spec.HasP m ∧ m.tq.length = 1) ∧
  (n = "Method2D" → Spec.HasP m ∧ m.tq.length = 2 ∧ m.rotor = 10 ^ 12) ∧
  (∀ x ∈ Spec.library m.twoI, n = x.1 →
    Spec.Starts m [x.2.1, ⟨some [[-1]], some [[0]]⟩] ∧ m.description = some x.2.2 ∧ m.affine ≠ none) ∧
  (n ∉ ["Cosy", "Inadequate", "BlochDecayCentralTransitionSpectrum", "BlochDecaySpectrum", "BlochDecayCTSpectrum", "Method1D",
      "Method2D", "ThreeQ_VAS", "FiveQ_VAS", "SevenQ_VAS", "ST1_VAS", "ST2_VAS", "SSB2D"] → Spec.HasP m)

/-- The methods that survive saving and loading. -/
def Spec.Survives {R : Type} (m : Meth R) : Prop := ∃ n, m.name = some n ∧ Spec.Under n m

/-! ## Lemmas -/

theorem events_map {α : Type} (evs : List α) (h : evs ≠ []) (f : α → Option TQ) : events (evs.map f) = evs.map f := by
  unfold events
  cases evs with
  | nil => exact absurd rfl h
  | cons a l => rfl

theorem read_some (d q : TQ) : readTQ d (some q) = q ↔ q.P ≠ none := by
  obtain ⟨P, D⟩ := q
  cases P <;> simp [readTQ]

theorem map_eq_self {α : Type} (f : α → α) (l : List α) : l.map f = l ↔ ∀ a ∈ l, f a = a := by
  induction l with
  | nil => simp
  | cons a l ih => simp [ih]

/-- Reading unnamed queries. -/
theorem read_unnamed (tq : List (List TQ)) (hne : ∀ evs ∈ tq, evs ≠ []) (d : ℕ → TQ) :
    ((tq.map fun evs => evs.map some).map fun evs => (events evs).mapIdx fun i o => readTQ (d i) o) = tq ↔
      ∀ evs ∈ tq, ∀ q ∈ evs, q.P ≠ none := by
  rw [List.map_map, map_eq_self]
  apply forall₂_congr
  intro evs he
  simp only [Function.comp_apply]
  rw [events_map evs (hne evs he)]
  have : (evs.map some).mapIdx (fun i o => readTQ (d i) o) = evs.map fun q => ⟨some (q.P.getD [[-1]]), q.D⟩ := by
    apply List.ext_getElem?
    intro i
    simp only [List.getElem?_mapIdx, List.getElem?_map, Option.map_map]
    rfl
  rw [this, map_eq_self]
  apply forall₂_congr
  intro q _
  exact read_some defaultTQ q

/-- Reading queries that were removed. -/
theorem read_named (evs : List TQ) (hne : evs ≠ []) (first d : TQ) :
    ((events (evs.map fun _ => none)).mapIdx fun i o => readTQ (if i = 0 then first else d) o) = evs ↔
      ∃ l, evs = first :: l ∧ ∀ r ∈ l, r = d := by
  rw [events_map evs hne]
  cases evs with
  | nil => exact absurd rfl hne
  | cons a l =>
    have hn : ∀ q : TQ, readTQ q none = q := fun _ => rfl
    simp only [List.map_cons, List.mapIdx_cons, hn, if_true, List.cons.injEq, Nat.add_one_ne_zero, if_false]
    have : (l.map fun _ => (none : Option TQ)).mapIdx (fun i o => readTQ (if i + 1 = 0 then first else d) o) =
        l.map fun _ => d := by
      apply List.ext_getElem?
      intro i
      simp only [List.getElem?_mapIdx, List.getElem?_map, Option.map_map, Nat.add_one_ne_zero, if_false]
      rfl
    simp only [Nat.add_one_ne_zero, if_false] at this
    rw [this, map_eq_self]
    constructor
    · rintro ⟨h1, h2⟩
      exact ⟨l, ⟨h1.symm, rfl⟩, fun r hr => (h2 r hr).symm⟩
    · rintro ⟨l', ⟨h1, h2⟩, h3⟩
      subst h2
      exact ⟨h1.symm, fun r hr => (h3 r hr).symm⟩

theorem save_eq {R J : Type} (jsonR : R → Py J) (m : Meth R) (j₀ : J) (hj : jsonR m.rest = .ok j₀) (hd : m.tq ≠ []) (hne : ∀ evs ∈ m.tq, evs ≠ []) (n : String)
    (hn : m.name = some n) : saveMethod jsonR m = .ok ⟨m.name, m.label, m.description, m.twoI, m.channels, m.rotor,
      m.tq.map fun evs => evs.map fun q => if n ∈ namedMethods then none else some q, m.affine, j₀⟩ := by
  unfold saveMethod
  match ht : m.tq, hd, hne with
  | [] :: _, _, hne => exact absurd rfl (hne [] (by simp))
  | (a :: l) :: l', _, _ => simp [hn, hj, bind, Except.bind, pure, Except.pure]

theorem read_plain (tq : List (List (Option TQ))) :
    (tq.map fun evs => (events evs).map (readTQ defaultTQ)) =
      tq.map fun evs => (events evs).mapIdx fun i o => readTQ (if i = 0 then defaultTQ else defaultTQ) o := by
  apply List.map_congr_left
  intro evs _
  apply List.ext_getElem?
  intro i
  simp [List.getElem?_mapIdx]

section
variable {R J : Type} (parseR : J → Py R) (j₀ : J) (m : Meth R) (hd : m.tq ≠ []) (hne : ∀ evs ∈ m.tq, evs ≠ [])
  (hr : parseR j₀ = .ok m.rest)
include hne

theorem all_named (first d : TQ) :
    ((m.tq.map fun evs => evs.map fun _ => (none : Option TQ)).map fun evs =>
      (events evs).mapIdx fun i o => readTQ (if i = 0 then first else d) o) = m.tq ↔
      ∀ evs ∈ m.tq, ∃ l, evs = first :: l ∧ ∀ r ∈ l, r = d := by
  rw [List.map_map, map_eq_self]
  apply forall₂_congr
  intro evs he
  exact read_named evs (hne evs he) first d

include hr

theorem plain_named :
    loadPlain parseR ⟨m.name, m.label, m.description, m.twoI, m.channels, m.rotor,
      m.tq.map fun evs => evs.map fun _ => none, m.affine, j₀⟩ = .ok m ↔
      ∀ evs ∈ m.tq, ∀ q ∈ evs, q = ⟨some [[-1]], none⟩ := by
  unfold loadPlain
  simp only [hr, bind, Except.bind, pure, Except.pure, Except.ok.injEq]
  obtain ⟨name, label, description, twoI, channels, rotor, tq, affine, rest⟩ := m
  simp only [Meth.mk.injEq, true_and, and_true]
  rw [read_plain, all_named ⟨name, label, description, twoI, channels, rotor, tq, affine, rest⟩ hne]
  apply forall₂_congr
  intro evs he
  constructor
  · rintro ⟨l, rfl, h⟩ q hq
    rcases List.mem_cons.mp hq with rfl | hq
    · rfl
    · exact h q hq
  · intro h
    match evs, hne evs he, h with
    | a :: l, _, h => exact ⟨l, by rw [h a (by simp)]; rfl, fun r hr => h r (by simp [hr])⟩

theorem plain_unnamed :
    loadPlain parseR ⟨m.name, m.label, m.description, m.twoI, m.channels, m.rotor,
      m.tq.map fun evs => evs.map some, m.affine, j₀⟩ = .ok m ↔ Spec.HasP m := by
  unfold loadPlain
  simp only [hr, bind, Except.bind, pure, Except.pure, Except.ok.injEq]
  obtain ⟨name, label, description, twoI, channels, rotor, tq, affine, rest⟩ := m
  simp only [Meth.mk.injEq, true_and, and_true]
  rw [read_plain, read_unnamed tq hne]
  rfl

theorem template_aux (text : String) (dims : ℕ) (first : TQ) (fixed : Bool) (tq : List (List (Option TQ)))
    (hl : tq.length = m.tq.length) :
    loadTemplate parseR text dims first fixed ⟨m.name, m.label, m.description, m.twoI, m.channels, m.rotor, tq, m.affine,
      j₀⟩ = .ok m ↔ m.channels = 1 ∧ (fixed = true → m.rotor = 10 ^ 12) ∧ m.tq.length = dims ∧ m.description ≠ none ∧
        (tq.map fun evs => (events evs).mapIdx fun i o => readTQ (if i = 0 then first else defaultTQ) o) = m.tq := by
  unfold loadTemplate
  simp only [hr, bind, Except.bind, pure, Except.pure, hl]
  obtain ⟨name, label, description, twoI, channels, rotor, tq', affine, rest⟩ := m
  simp only
  by_cases h1 : channels = 1
  · by_cases h2 : fixed = true ∧ rotor ≠ 10 ^ 12
    · simp only [h1, ne_eq, not_true_eq_false, if_false]
      rw [if_pos h2]
      simp [h2.1, h2.2]
    · simp only [h1, ne_eq, not_true_eq_false, if_false]
      rw [if_neg h2]
      have h2' : fixed = true → rotor = 10 ^ 12 := fun h => by
        by_contra hc
        exact h2 ⟨h, hc⟩
      by_cases h3 : tq'.length = dims
      · rw [if_neg (by omega), if_neg (by omega)]
        simp only [Except.ok.injEq, Meth.mk.injEq, true_and, and_true, h3]
        cases description <;> simp
        exact fun _ => h2'
      · have : ¬ (dims < tq'.length) → tq'.length < dims := by omega
        by_cases h4 : dims < tq'.length
        · rw [if_pos h4]
          simp [h3]
        · rw [if_neg h4, if_pos (this h4)]
          simp [h3]
  · rw [if_pos h1]
    simp [h1]

theorem named_aux (name : String) (q₀ q₁ : TQ) (affine : Py (List ℚ)) (text : String)
    (hu : ∀ m' : Meth R, m'.twoI = m.twoI → update name m' = updateTQ q₀ q₁ affine text m') :
    loadNamed parseR name ⟨m.name, m.label, m.description, m.twoI, m.channels, m.rotor,
      m.tq.map fun evs => evs.map fun _ => none, m.affine, j₀⟩ = .ok m ↔
      Spec.Starts m [q₀, q₁] ∧ m.description = some text ∧ m.affine ≠ none := by
  unfold loadNamed loadPlain
  simp only [hr, bind, Except.bind, pure, Except.pure]
  rw [hu (Meth.mk m.name m.label m.description m.twoI m.channels m.rotor
    ((m.tq.map fun evs => evs.map fun _ => none).map fun evs => (events evs).map (readTQ defaultTQ)) m.affine m.rest) rfl]
  clear hu
  obtain ⟨name', label, description, twoI, channels, rotor, tq, aff, rest⟩ := m
  simp only at hne
  match tq, hne with
  | [], _ => simp [Spec.Starts]
  | [a], _ => simp [Spec.Starts]
  | a :: b :: c :: l, _ => simp [Spec.Starts]
  | [a, b], hne =>
    match a, b, hne [a, b].head! (by simp), hne b (by simp) with
    | x :: a, y :: b, _, _ =>
      have key : ∀ l : List TQ, (l.map fun _ => (none : Option TQ)).map (readTQ defaultTQ) = l ↔
          ∀ r ∈ l, r = ⟨some [[-1]], none⟩ := by
        intro l
        rw [List.map_map, map_eq_self]
        exact forall₂_congr fun r _ => eq_comm
      simp only [List.length_cons, List.length_nil, ne_eq, not_true_eq_false, if_false, List.map_cons,
        List.map_nil, events, List.isEmpty_cons, Bool.false_eq_true, updateTQ, setFirst, bind, Except.bind, pure, Except.pure]
      have hs : Spec.Starts (⟨name', label, description, twoI, channels, rotor, [x :: a, y :: b], aff, rest⟩ : Meth R)
          [q₀, q₁] ↔ (x = q₀ ∧ ∀ r ∈ a, r = ⟨some [[-1]], none⟩) ∧ (y = q₁ ∧ ∀ r ∈ b, r = ⟨some [[-1]], none⟩) := by
        simp [Spec.Starts]
      rw [hs, ← key a, ← key b]
      cases aff with
      | none =>
        match affine with
        | .error e => simp
        | .ok k => simp
      | some k =>
        simp only [Except.ok.injEq, Meth.mk.injEq, true_and, and_true, List.cons.injEq, reduceCtorEq, not_false_eq_true]
        constructor
        · rintro ⟨h1, ⟨h2, h3⟩, h4, h5⟩
          exact ⟨⟨⟨h2.symm, h3⟩, h4.symm, h5⟩, h1.symm⟩
        · rintro ⟨⟨⟨h2, h3⟩, h4, h5⟩, h1⟩
          exact ⟨h1.symm, ⟨h2.symm, h3⟩, h4.symm, h5⟩

end

/-! ## C87 -/

/-- **C87, methods.** A method whose dimensions have events is loaded as it was saved exactly when it is in the list
`Spec.Survives`: it has a name; under the names of the library classes the queries, the number of dimensions and of channels, the
description and the presence of an affine matrix are those the class makes, with a rotor frequency of 1 THz under the name Method2D;
under any other name every event's query has a `P`. -/
theorem C87_method_partial {R J : Type} (jsonR : R → Py J) (parseR : J → Py R) (m : Meth R) (hd : m.tq ≠ [])
    (hne : ∀ evs ∈ m.tq, evs ≠ []) (hr : (jsonR m.rest >>= parseR) = .ok m.rest) :
    (saveMethod jsonR m >>= loadMethod parseR) = .ok m ↔ Spec.Survives m := by
  obtain ⟨j₀, hj, hr⟩ : ∃ j₀, jsonR m.rest = .ok j₀ ∧ parseR j₀ = .ok m.rest := by
    cases h : jsonR m.rest with
    | error e => rw [h] at hr; cases hr
    | ok j => rw [h] at hr; exact ⟨j, rfl, hr⟩
  match hn : m.name with
  | none =>
    have h1 : ¬ Spec.Survives m := by
      rintro ⟨n, h, _⟩
      rw [hn] at h
      cases h
    simp only [h1, iff_false]
    unfold saveMethod
    match ht : m.tq with
    | [] => exact absurd ht hd
    | [] :: _ => exact absurd rfl (hne [] (by simp [ht]))
    | (_ :: _) :: _ => simp [hn, hj, loadMethod, bind, Except.bind, pure, Except.pure]
  | some n =>
    rw [save_eq jsonR m j₀ hj hd hne n hn]
    have hS : Spec.Survives m ↔ Spec.Under n m := by
      unfold Spec.Survives
      rw [hn]
      simp only [Option.some.injEq, exists_eq_left']
    rw [hS]
    clear hS
    have e1 : ∀ a : TQ, (∀ evs ∈ m.tq, ∃ l, evs = a :: l ∧ ∀ r ∈ l, r = defaultTQ) ∧ m.tq.length = 1 ↔ Spec.Starts m [a] := by
      intro a
      unfold Spec.Starts
      match ht : m.tq with
      | [] => simp
      | [x] => simp [defaultTQ]
      | x :: y :: l => simp
    simp only [bind, Except.bind, loadMethod, hn]
    rw [← hn]
    by_cases h : n = "Cosy"
    · subst h
      rw [if_pos (by decide)]
      simp only [show "Cosy" ∈ namedMethods from by decide, if_true, plain_named parseR j₀ m hne hr]
      simp [Spec.Under, Spec.library]
    by_cases h : n = "Inadequate"
    · subst h
      rw [if_pos (by decide)]
      simp only [show "Inadequate" ∈ namedMethods from by decide, if_true, plain_named parseR j₀ m hne hr]
      simp [Spec.Under, Spec.library]
    by_cases h : n = "BlochDecayCentralTransitionSpectrum"
    · subst h
      rw [if_pos (by decide)]
      simp only [show "BlochDecayCentralTransitionSpectrum" ∈ namedMethods from by decide, if_true,
        plain_named parseR j₀ m hne hr]
      simp [Spec.Under, Spec.library]
    by_cases h : n = "BlochDecaySpectrum"
    · subst h
      rw [if_neg (by decide), if_pos rfl]
      simp only [show "BlochDecaySpectrum" ∈ namedMethods from by decide, if_true]
      rw [template_aux parseR j₀ m hne hr _ _ _ _ _ (by simp), all_named m hne]
      have := e1 ⟨some [[-1]], none⟩
      simp only [Spec.Under, Spec.library]
      simp only [List.mem_cons, List.not_mem_nil, or_false, reduceCtorEq, String.reduceEq, or_self, false_imp_iff,
        forall_const, true_and, and_true, not_true_eq_false, or_true, ← this]
      simp
      tauto
    by_cases h : n = "BlochDecayCTSpectrum"
    · subst h
      rw [if_neg (by decide), if_neg (by decide), if_pos rfl]
      simp only [show "BlochDecayCTSpectrum" ∈ namedMethods from by decide, if_true]
      rw [template_aux parseR j₀ m hne hr _ _ _ _ _ (by simp), all_named m hne]
      have := e1 ⟨some [[-1]], some [[0]]⟩
      simp only [Spec.Under, Spec.library]
      simp only [List.mem_cons, List.not_mem_nil, or_false, reduceCtorEq, String.reduceEq, or_self, false_imp_iff,
        forall_const, true_and, and_true, not_true_eq_false, or_true, ← this]
      simp
      tauto
    by_cases h : n = "Method1D"
    · subst h
      rw [if_neg (by decide), if_neg (by decide), if_neg (by decide), if_pos rfl]
      simp only [show "Method1D" ∉ namedMethods from by decide, if_false]
      rw [template_aux parseR j₀ m hne hr _ _ _ _ _ (by simp), read_unnamed m.tq hne]
      simp [Spec.Under, Spec.library, Spec.HasP]
      tauto
    by_cases h : n = "Method2D"
    · subst h
      rw [if_neg (by decide), if_neg (by decide), if_neg (by decide), if_neg (by decide), if_pos rfl]
      simp only [show "Method2D" ∉ namedMethods from by decide, if_false]
      rw [template_aux parseR j₀ m hne hr _ _ _ _ _ (by simp), read_unnamed m.tq hne]
      simp [Spec.Under, Spec.library, Spec.HasP]
      tauto
    by_cases h : n = "ThreeQ_VAS"
    · subst h
      rw [if_neg (by decide), if_neg (by decide), if_neg (by decide), if_neg (by decide), if_neg (by decide)]
      simp only [show "ThreeQ_VAS" ∈ namedMethods from by decide, if_true]
      have hu : ∀ m' : Meth R, m'.twoI = m.twoI → update "ThreeQ_VAS" m' = updateTQ ⟨some [[if m.twoI = 3 then -3 else 3]], some [[0]]⟩ ⟨some [[-1]], some [[0]]⟩
          (updateAffine (lookup2 shearMQ 3 m.twoI) none) "Simulate a 3Q variable-angle spinning spectrum." m' := by
        intro m' hm
        have e1 : mqSymmetry.lookup "ThreeQ_VAS" = some 3 := by decide
        simp only [update, e1, hm, eq_comm (a := 3)]
        rfl
      rw [named_aux parseR j₀ m hne hr _ _ _ _ _ hu]
      simp [Spec.Under, Spec.library]
    by_cases h : n = "FiveQ_VAS"
    · subst h
      rw [if_neg (by decide), if_neg (by decide), if_neg (by decide), if_neg (by decide), if_neg (by decide)]
      simp only [show "FiveQ_VAS" ∈ namedMethods from by decide, if_true]
      have hu : ∀ m' : Meth R, m'.twoI = m.twoI → update "FiveQ_VAS" m' = updateTQ ⟨some [[if m.twoI = 5 then -5 else 5]], some [[0]]⟩ ⟨some [[-1]], some [[0]]⟩
          (updateAffine (lookup2 shearMQ 5 m.twoI) none) "Simulate a 5Q variable-angle spinning spectrum." m' := by
        intro m' hm
        have e1 : mqSymmetry.lookup "FiveQ_VAS" = some 5 := by decide
        simp only [update, e1, hm, eq_comm (a := 5)]
        rfl
      rw [named_aux parseR j₀ m hne hr _ _ _ _ _ hu]
      simp [Spec.Under, Spec.library]
    by_cases h : n = "SevenQ_VAS"
    · subst h
      rw [if_neg (by decide), if_neg (by decide), if_neg (by decide), if_neg (by decide), if_neg (by decide)]
      simp only [show "SevenQ_VAS" ∈ namedMethods from by decide, if_true]
      have hu : ∀ m' : Meth R, m'.twoI = m.twoI → update "SevenQ_VAS" m' = updateTQ ⟨some [[if m.twoI = 7 then -7 else 7]], some [[0]]⟩ ⟨some [[-1]], some [[0]]⟩
          (updateAffine (lookup2 shearMQ 7 m.twoI) none) "Simulate a 7Q variable-angle spinning spectrum." m' := by
        intro m' hm
        have e1 : mqSymmetry.lookup "SevenQ_VAS" = some 7 := by decide
        simp only [update, e1, hm, eq_comm (a := 7)]
        rfl
      rw [named_aux parseR j₀ m hne hr _ _ _ _ _ hu]
      simp [Spec.Under, Spec.library]
    by_cases h : n = "ST1_VAS"
    · subst h
      rw [if_neg (by decide), if_neg (by decide), if_neg (by decide), if_neg (by decide), if_neg (by decide)]
      simp only [show "ST1_VAS" ∈ namedMethods from by decide, if_true]
      have hu : ∀ m' : Meth R, m'.twoI = m.twoI → update "ST1_VAS" m' = updateTQ ⟨some [[-1]], some [[2], [-2]]⟩ ⟨some [[-1]], some [[0]]⟩
          (updateAffine (lookup2 shearST 3 m.twoI) none) "Simulate a 1.5 -> 0.5 and -0.5 -> -1.5 satellite-transition variable-angle spinning spectrum." m' := by
        intro m' hm
        have e1 : mqSymmetry.lookup "ST1_VAS" = none := by decide
        have e2 : stSymmetry.lookup "ST1_VAS" = some 3 := by decide
        simp only [update, e1, e2, hm]
        norm_num
      rw [named_aux parseR j₀ m hne hr _ _ _ _ _ hu]
      simp [Spec.Under, Spec.library]
    by_cases h : n = "ST2_VAS"
    · subst h
      rw [if_neg (by decide), if_neg (by decide), if_neg (by decide), if_neg (by decide), if_neg (by decide)]
      simp only [show "ST2_VAS" ∈ namedMethods from by decide, if_true]
      have hu : ∀ m' : Meth R, m'.twoI = m.twoI → update "ST2_VAS" m' = updateTQ ⟨some [[-1]], some [[4], [-4]]⟩ ⟨some [[-1]], some [[0]]⟩
          (updateAffine (lookup2 shearST 5 m.twoI) none) "Simulate a 2.5 -> 1.5 and -1.5 -> -2.5 satellite-transition variable-angle spinning spectrum." m' := by
        intro m' hm
        have e1 : mqSymmetry.lookup "ST2_VAS" = none := by decide
        have e2 : stSymmetry.lookup "ST2_VAS" = some 5 := by decide
        simp only [update, e1, e2, hm]
        norm_num
      rw [named_aux parseR j₀ m hne hr _ _ _ _ _ hu]
      simp [Spec.Under, Spec.library]
    by_cases h : n = "SSB2D"
    · subst h
      rw [if_neg (by decide), if_neg (by decide), if_neg (by decide), if_neg (by decide), if_neg (by decide)]
      simp only [show "SSB2D" ∈ namedMethods from by decide, if_true]
      have hu : ∀ m' : Meth R, m'.twoI = m.twoI → update "SSB2D" m' = updateTQ ⟨some [[-1]], some [[0]]⟩ ⟨some [[-1]], some [[0]]⟩
          (.ok [1, -1, 0, 1]) "Simulate a 2D sideband separation method." m' := by
        intro m' _
        have e1 : mqSymmetry.lookup "SSB2D" = none := by decide
        have e2 : stSymmetry.lookup "SSB2D" = none := by decide
        simp only [update, e1, e2]
      rw [named_aux parseR j₀ m hne hr _ _ _ _ _ hu]
      simp [Spec.Under, Spec.library]
    have h1 : n ∉ methodNames := by
      simp only [methodNames, List.mem_cons, List.not_mem_nil, or_false, not_or]
      refine ⟨?_, ?_, ?_, ?_, ?_, ?_, ?_, ?_, ?_, ?_, ?_⟩ <;> assumption
    have h2 : n ∉ namedMethods := by
      simp only [namedMethods, List.mem_cons, List.not_mem_nil, or_false, not_or]
      refine ⟨?_, ?_, ?_, ?_, ?_, ?_, ?_, ?_, ?_, ?_, ?_⟩ <;> assumption
    rw [if_pos h1]
    simp only [h2, if_false]
    rw [plain_unnamed parseR j₀ m hne hr]
    simp only [Spec.Under, Spec.library, List.mem_cons, List.not_mem_nil, or_false, or_self, forall_eq_or_imp, forall_eq, *,
      false_imp_iff, true_and, not_false_eq_true, true_imp_iff]

theorem nonempty_getD {α : Type} (l : List α) : (nonempty l).getD [] = l := by
  cases l <;> rfl

theorem mapM_ok_map {α β : Type} (f : β → Py α) (g : α → β) (l : List α) (h : ∀ a ∈ l, f (g a) = .ok a) :
    (l.map g).mapM f = .ok l := by
  induction l with
  | nil => rfl
  | cons a l ih =>
    rw [List.map_cons, List.mapM_cons, h a (by simp), ih fun b hb => h b (by simp [hb])]
    rfl

/-- Methods written and read one after another. -/
theorem methods_trip {R J : Type} (jsonR : R → Py J) (parseR : J → Py R) (l : List (Meth R))
    (h : ∀ m ∈ l, (saveMethod jsonR m >>= loadMethod parseR) = .ok m) :
    ∃ js, l.mapM (saveMethod jsonR) = .ok js ∧ (∀ j ∈ js, j.name ≠ none) ∧ js.mapM (loadMethod parseR) = .ok l := by
  induction l with
  | nil => exact ⟨[], rfl, by simp, rfl⟩
  | cons m l ih =>
    obtain ⟨js, h1, h2, h3⟩ := ih fun b hb => h b (by simp [hb])
    have hm := h m (by simp)
    match hs : saveMethod jsonR m with
    | .error e => rw [hs] at hm; cases hm
    | .ok j =>
      rw [hs] at hm
      refine ⟨j :: js, ?_, ?_, ?_⟩
      · rw [List.mapM_cons, hs, h1]
        rfl
      · intro j' hj'
        rcases List.mem_cons.mp hj' with rfl | hj'
        · intro hcon
          simp [bind, Except.bind, loadMethod, hcon] at hm
        · exact h2 j' hj'
      · rw [List.mapM_cons, show loadMethod parseR j = .ok m from hm, h3]
        rfl

/-- **C87, partial.** A simulator is loaded as it was saved, with its names, configuration, spin systems and methods in order, when its
spin systems can be written and read, and its methods are among those that survive (`C87_method_partial` says which do; the rest is
missing, and false). -/
theorem C87_simulator_partial {S JS R J C : Type} (jsonS : S → JS) (parseS : JS → Py S) (jsonR : R → Py J) (parseR : J → Py R)
    (version : Option String) (s : Simu S R C) (hs : ∀ a ∈ s.systems, parseS (jsonS a) = .ok a)
    (hm : ∀ m ∈ s.methods, m.tq ≠ [] ∧ (∀ evs ∈ m.tq, evs ≠ []) ∧ (jsonR m.rest >>= parseR) = .ok m.rest ∧ Spec.Survives m) :
    (saveSim jsonS jsonR version s >>= loadSim parseS parseR) = .ok s := by
  obtain ⟨js, h1, h2, h3⟩ := methods_trip jsonR parseR s.methods fun m h =>
    (C87_method_partial jsonR parseR m (hm m h).1 (hm m h).2.1 (hm m h).2.2.1).mpr (hm m h).2.2.2
  unfold saveSim
  rw [h1]
  simp only [bind, Except.bind, pure, Except.pure, loadSim, nonempty_getD]
  rw [mapM_ok_map parseS jsonS s.systems hs]
  have hc : checkNames js = .ok () := by
    unfold checkNames
    rw [if_neg]
    rintro ⟨j, hj, hn⟩
    exact h2 j hj hn
  simp only [hc, h3]

/-- One method without a name, and nothing of the file can be loaded. -/
theorem C87_counterexample_unnamed {S JS R J C : Type} (jsonS : S → JS) (parseS : JS → Py S) (jsonR : R → Py J) (parseR : J → Py R)
    (version : Option String) (s : Simu S R C) (hs : ∀ a ∈ s.systems, parseS (jsonS a) = .ok a)
    (m : Meth R) (hm : m ∈ s.methods) (hn : m.name = none) (hev : ∀ m ∈ s.methods, m.tq ≠ [] ∧ (∀ evs ∈ m.tq, evs ≠ []) ∧
      ∃ j, jsonR m.rest = .ok j) :
    ∃ j, saveSim jsonS jsonR version s = .ok j ∧ loadSim parseS parseR j = .error .keyError := by
  have key : ∀ l : List (Meth R), (∀ m ∈ l, m.tq ≠ [] ∧ (∀ evs ∈ m.tq, evs ≠ []) ∧ ∃ j, jsonR m.rest = .ok j) →
      ∃ js, l.mapM (saveMethod jsonR) = .ok js ∧ ∀ m ∈ l, m.name = none → ∃ j ∈ js, j.name = none := by
    intro l
    induction l with
    | nil => intro _; exact ⟨[], rfl, by simp⟩
    | cons a l ih =>
      intro hl
      obtain ⟨js, h1, h2⟩ := ih fun b hb => hl b (by simp [hb])
      have hj : ∃ j, saveMethod jsonR a = .ok j ∧ j.name = a.name := by
        unfold saveMethod
        match ht : a.tq with
        | [] => exact absurd ht (hl a (by simp)).1
        | [] :: _ => exact absurd rfl ((hl a (by simp)).2.1 [] (by simp [ht]))
        | (_ :: _) :: _ =>
          obtain ⟨j₀, hj₀⟩ := (hl a (by simp)).2.2
          simp only [hj₀, bind, Except.bind, pure, Except.pure]
          exact ⟨_, rfl, rfl⟩
      obtain ⟨j, hj1, hj2⟩ := hj
      refine ⟨j :: js, by rw [List.mapM_cons, hj1, h1]; rfl, ?_⟩
      intro b hb hbn
      rcases List.mem_cons.mp hb with rfl | hb
      · exact ⟨j, by simp, by rw [hj2, hbn]⟩
      · obtain ⟨j', h3, h4⟩ := h2 b hb hbn
        exact ⟨j', by simp [h3], h4⟩
  obtain ⟨js, h1, h2⟩ := key s.methods hev
  refine ⟨⟨s.name, s.label, s.description, nonempty (s.systems.map jsonS), nonempty js, s.config, version⟩, ?_, ?_⟩
  · unfold saveSim
    rw [h1]
    rfl
  · unfold loadSim
    simp only [bind, Except.bind, pure, Except.pure, nonempty_getD]
    rw [mapM_ok_map parseS jsonS s.systems hs]
    have hc : checkNames js = .error .keyError := by
      unfold checkNames
      rw [if_pos (h2 m hm hn)]
    simp only [hc]

/-- **C87, partial.** The same for simulators after a run: the simulations are loaded with the methods, if they are data sets.
Missing: arrays, for which it is false, `C87_array`. -/
theorem C87_data_partial {S JS R J C X Y : Type} (jsonS : S → JS) (parseS : JS → Py S) (jsonR : R → J) (parseR : J → Py R) (toDict : X → Y)
    (parse : Y → Py X) (version : Option String) (s : Simu S (R × Simulated X) C) (hs : ∀ a ∈ s.systems, parseS (jsonS a) = .ok a)
    (hx : ∀ x, parse (toDict x) = .ok x) (hm : ∀ m ∈ s.methods, m.tq ≠ [] ∧ (∀ evs ∈ m.tq, evs ≠ []) ∧
      parseR (jsonR m.rest.1) = .ok m.rest.1 ∧ (m.rest.2 = .absent ∨ ∃ x, m.rest.2 = .dataset x) ∧ Spec.Survives m) :
    (saveSim jsonS (jsonWith jsonR toDict) version s >>= loadSim parseS (parseWith parseR parse)) = .ok s := by
  refine C87_simulator_partial jsonS parseS _ _ version s hs fun m h => ?_
  obtain ⟨h1, h2, h3, h4, h5⟩ := hm m h
  refine ⟨h1, h2, ?_, h5⟩
  revert h3 h4
  obtain ⟨r, d⟩ := m.rest
  rintro h3 (h4 | ⟨x, h4⟩)
  · subst h4
    simp [jsonWith, parseWith, bind, Except.bind, pure, Except.pure, h3]
  · subst h4
    simp [jsonWith, parseWith, bind, Except.bind, pure, Except.pure, h3, hx]

/-- **C87, disagreement.** No simulator with a method whose simulation is an array can be saved with units. -/
theorem C87_array {S JS R J C X Y : Type} (jsonS : S → JS) (jsonR : R → J) (toDict : X → Y) (version : Option String)
    (s : Simu S (R × Simulated X) C) (hev : ∀ m ∈ s.methods, m.tq ≠ [] ∧ ∀ evs ∈ m.tq, evs ≠ []) (m : Meth (R × Simulated X)) (hm : m ∈ s.methods)
    (ha : m.rest.2 = .array) : saveSim jsonS (jsonWith jsonR toDict) version s = .error .attributeError := by
  have one : ∀ m : Meth (R × Simulated X), (m.tq ≠ [] ∧ ∀ evs ∈ m.tq, evs ≠ []) →
      (m.rest.2 = .array → saveMethod (jsonWith jsonR toDict) m = .error .attributeError) ∧
      (m.rest.2 ≠ .array → ∃ j, saveMethod (jsonWith jsonR toDict) m = .ok j) := by
    intro m h
    unfold saveMethod
    match ht : m.tq with
    | [] => exact absurd ht h.1
    | [] :: _ => exact absurd rfl (h.2 [] (by simp [ht]))
    | (_ :: _) :: _ =>
      obtain ⟨r, d⟩ := m.rest
      cases d with
      | absent => exact ⟨fun h => absurd h (by simp), fun _ => ⟨_, rfl⟩⟩
      | dataset x => exact ⟨fun h => absurd h (by simp), fun _ => ⟨_, rfl⟩⟩
      | array => exact ⟨fun _ => rfl, fun h => absurd rfl h⟩
  have key : ∀ l : List (Meth (R × Simulated X)), (∀ m ∈ l, m.tq ≠ [] ∧ ∀ evs ∈ m.tq, evs ≠ []) → m ∈ l →
      l.mapM (saveMethod (jsonWith jsonR toDict)) = .error .attributeError := by
    intro l
    induction l with
    | nil => intro _ h; cases h
    | cons a l ih =>
      intro hl h
      rw [List.mapM_cons]
      by_cases e : a.rest.2 = .array
      · rw [(one a (hl a (by simp))).1 e]
        rfl
      · obtain ⟨j, hj⟩ := (one a (hl a (by simp))).2 e
        have hin : m ∈ l := by
          rcases List.mem_cons.mp h with rfl | h
          · exact absurd ha e
          · exact h
        rw [hj, ih (fun b hb => hl b (by simp [hb])) hin]
        rfl
  unfold saveSim
  rw [key s.methods hev hm]
  rfl

/-- An Inadequate method as its class makes it (methods/correlation.py lines 179-192, Method2D template). -/
def inadequate : Meth Unit :=
  ⟨some "Inadequate", none, some "Simulate an infinite spinning Incredible Natural Abundance DoublE QUAntum Transfer Experiment \
spectrum.", 1, 1, 10 ^ 12, [[⟨some [[-1, -1]], none⟩], [⟨some [[-1]], none⟩]], none, ()⟩

/-- A 3Q method of spin 5/2 as its class makes it, with another description. -/
def threeQ : Meth Unit :=
  ⟨some "ThreeQ_VAS", none, some "Sample 12", 5, 1, 10 ^ 12, [[⟨some [[3]], some [[0]]⟩], [⟨some [[-1]], some [[0]]⟩]],
    some [12 / 31, 19 / 31, 0, 1], ()⟩

/-- **C87, disagreement.** An Inadequate method is loaded without its double-quantum query; a method with the full name
BlochDecayCentralTransitionSpectrum is loaded without the selection of the central transition; the description of a 3Q method is
replaced; its affine matrix, if taken away, comes back; a Method2D with a finite rotor frequency is saved but not loaded. -/
theorem C87_counterexample_methods :
    (saveMethod .ok inadequate >>= loadMethod .ok) =
      .ok { inadequate with tq := [[⟨some [[-1]], none⟩], [⟨some [[-1]], none⟩]] } ∧
    (∀ label descr : Option String, ∀ twoI : ℕ,
      (saveMethod .ok (⟨some "BlochDecayCentralTransitionSpectrum", label, descr, twoI, 1, 0,
        [[⟨some [[-1]], some [[0]]⟩]], none, ()⟩ : Meth Unit) >>= loadMethod .ok) =
      .ok ⟨some "BlochDecayCentralTransitionSpectrum", label, descr, twoI, 1, 0, [[⟨some [[-1]], none⟩]], none, ()⟩) ∧
    (saveMethod .ok threeQ >>= loadMethod .ok) =
      .ok { threeQ with description := some "Simulate a 3Q variable-angle spinning spectrum." } ∧
    (saveMethod .ok { threeQ with affine := none } >>= loadMethod .ok) =
      .ok { threeQ with description := some "Simulate a 3Q variable-angle spinning spectrum." } ∧
    (∀ label descr : Option String, ∀ rotor : ℚ, rotor ≠ 10 ^ 12 → ∀ twoI : ℕ, ∀ q₀ q₁ : TQ,
      (saveMethod .ok (⟨some "Method2D", label, descr, twoI, 1, rotor, [[q₀], [q₁]], none, ()⟩ : Meth Unit) >>=
        loadMethod .ok) = .error .valueError) := by
  refine ⟨by decide +kernel, fun _ _ _ => rfl, by decide +kernel, by decide +kernel, ?_⟩
  intro label descr rotor hrot twoI q₀ q₁
  simp [saveMethod, loadMethod, bind, Except.bind, pure, Except.pure, methodNames, namedMethods, loadTemplate, hrot]

/-- **C87, disagreement.** `save(filename, with_units=False)` fails for every simulator that has a method with an affine matrix, as
all multiple-quantum, satellite-transition and sideband-separation methods have. -/
theorem C87_counterexample_reduced {S R C F : Type} (everything : Simu S R C → F) (s : Simu S R C) (m : Meth R)
    (hm : m ∈ s.methods) (ha : m.affine ≠ none) : saveReduced everything s = .error .typeError := by
  unfold saveReduced
  rw [if_pos ⟨m, hm, ha⟩]

/-- Methods that do survive: a 3Q method with a label and its own shear, a central-transition spectrum, and a custom method. -/
example : Spec.Survives (⟨some "ThreeQ_VAS", some "x", some "Simulate a 3Q variable-angle spinning spectrum.", 5, 1, 10 ^ 12,
      [[⟨some [[3]], some [[0]]⟩], [⟨some [[-1]], some [[0]]⟩]], some [1, 2, 0, 1], ()⟩ : Meth Unit) ∧
    Spec.Survives (⟨some "BlochDecayCTSpectrum", none, some "y", 3, 1, 10000, [[⟨some [[-1]], some [[0]]⟩]], none, ()⟩ : Meth Unit) ∧
    Spec.Survives (⟨some "my double quantum", none, none, 1, 2, 0, [[⟨some [[-1, -1]], none⟩], [⟨some [[-1]], none⟩]], none, ()⟩ :
      Meth Unit) := by
  refine ⟨⟨_, rfl, ?_⟩, ⟨_, rfl, ?_⟩, ⟨_, rfl, ?_⟩⟩
  all_goals simp [Spec.Under, Spec.library, Spec.Starts, Spec.HasP]

/-- A simulator with a computed and a fresh method meets the hypotheses of `C87_data_partial`, and with an array those of `C87_array`. -/
example : ∀ d : Simulated ℕ, d = .dataset 4 ∨ d = .array →
    ∀ m ∈ [(⟨some "BlochDecayCTSpectrum", none, some "y", 3, 1, 10000, [[⟨some [[-1]], some [[0]]⟩]], none, ((), d)⟩ : Meth (Unit × Simulated ℕ)),
      ⟨some "mine", none, none, 1, 1, 0, [[⟨some [[-1]], none⟩]], none, ((), .absent)⟩],
      m.tq ≠ [] ∧ (∀ evs ∈ m.tq, evs ≠ []) ∧ Spec.Survives m := by
  intro d _ m hm
  simp only [List.mem_cons, List.not_mem_nil, or_false] at hm
  rcases hm with rfl | rfl
  all_goals refine ⟨by simp, by simp, _, rfl, ?_⟩
  all_goals simp [Spec.Under, Spec.library, Spec.Starts, Spec.HasP]

end MRS.Saved
