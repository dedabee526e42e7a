import Verif.Parse.Nested

/-!
# Exporting and loading spin systems — property C120

Model of `Simulator.export_spin_systems` and `Simulator.load_spin_systems` (src/mrsimulator/simulator/__init__.py lines 356-402), with
the pathways that a user may have given to a spin system.  `Simulator.save` (lines 481-513) opens the file and writes the spin systems in the
same way.  What a spin system checks when it is made (C54, C55) is not repeated here.
-/

namespace MRS.Parse

/-- A `TransitionPathway`: the initial and final states of its transitions (transition/base.py lines 34-35, transition/pathway.py
lines 87-104). -/
abbrev Pathway := List (List ℚ × List ℚ)

/-- A spin system with its pathways, if the user has given any (spin_system/__init__.py lines 152-173). -/
structure System where
  obj : SSObj
  pathways : Option (List Pathway)
  deriving DecidableEq, Repr

/-- A spin system in a JSON file.  A file may have pathways as lists of dictionaries (spin_system/__init__.py lines 152-173). -/
structure Doc where
  dict : SSDict
  pathways : Option (List Pathway)
  deriving Repr

/-- The content of a file: a list of spin systems, or the beginning of one, with a bracket that is never closed (`json.dump` writes as it
goes along; simulator/__init__.py lines 394-402). -/
inductive Text
  | whole (l : List Doc)
  | torn

/-- The files, by their names (simulator/__init__.py lines 393-394). -/
abbrev Files := String → Option Text

/-- `SpinSystem.json` (parseable.py lines 92-117, `get_list` lines 138-147) and what `json.dump` makes of it.  `dict()` of pydantic goes
into lists, but a `TransitionPathway` is an object of its own, so that `get_list` finds neither a list nor a dictionary in
`transition_pathways` and passes the objects on; `json.dump` cannot write them.  An empty list it can. -/
def encode (s : System) : Py Doc :=
  match s.pathways with
  | some (_ :: _) => .error .typeError
  | some [] => .ok ⟨jsonSS s.obj, some []⟩
  | none => .ok ⟨jsonSS s.obj, none⟩

/-- The loop over the spin systems (simulator/__init__.py line 392). -/
def encodeAll : List System → Py (List Doc)
  | [] => .ok []
  | s :: l =>
    match encode s with
    | .error e => .error e
    | .ok d =>
      match encodeAll l with
      | .error e => .error e
      | .ok ds => .ok (d :: ds)

/-- `open(filename, "w")` (simulator/__init__.py line 393). -/
def Files.write (fs : Files) (name : String) (t : Text) : Files := fun n => if n = name then some t else fs n

/-- `Simulator.export_spin_systems` (simulator/__init__.py lines 377-402): the files afterwards, and whether it raised. -/
def exportSystems (fs : Files) (name : String) (l : List System) : Files × Py Unit :=
  match encodeAll l with
  | .error e => (fs.write name .torn, .error e)
  | .ok ds => (fs.write name (.whole ds), .ok ())

/-- `SpinSystem.parse_dict_with_units` with the validator of the pathways (spin_system/__init__.py lines 168-173 and 319-357). -/
def decode (U : Units) (d : Doc) : Py System :=
  match parseSS U d.dict with
  | .error e => .error e
  | .ok o => .ok ⟨o, d.pathways⟩

/-- The loop over the contents of the file (simulator/__init__.py line 375). -/
def decodeAll (U : Units) : List Doc → Py (List System)
  | [] => .ok []
  | d :: l =>
    match decode U d with
    | .error e => .error e
    | .ok s =>
      match decodeAll U l with
      | .error e => .error e
      | .ok ss => .ok (s :: ss)

/-- A simulator: its spin systems and the rest (simulator/__init__.py lines 145-153). -/
structure Holder (R : Type) where
  systems : List System
  rest : R

/-- `Simulator.load_spin_systems` (simulator/__init__.py lines 356-375; importer.py lines 12-18 for a local file). -/
def loadSystems {R : Type} (U : Units) (fs : Files) (name : String) (sim : Holder R) : Py (Holder R) :=
  match fs name with
  | none => .error .exception
  | some .torn => .error .valueError
  | some (.whole ds) =>
    match decodeAll U ds with
    | .error e => .error e
    | .ok l => .ok { sim with systems := l }

/-! ## Specification -/

/-- The same spin system: attributes, sites and couplings one by one, and pathways. -/
def Spec.SameSystem (s s' : System) : Prop :=
  Spec.Same s.obj.base s'.obj.base ∧ List.Forall₂ Spec.SameN s.obj.sites s'.obj.sites ∧
  (s.obj.couplings = none ∧ s'.obj.couplings = none ∨
    ∃ l l', s.obj.couplings = some l ∧ s'.obj.couplings = some l' ∧ List.Forall₂ Spec.SameN l l') ∧
  s'.pathways = s.pathways

/-- A spin system with attributes in accepted units, and couplings as in C25. -/
structure Spec.SoundSystem (s : System) : Prop where
  base : Spec.Sound spinSystemTable s.obj.base
  sites : ∀ x ∈ s.obj.sites, Spec.SoundN siteFields siteTable x
  couplings : ∀ l, s.obj.couplings = some l → ∀ c ∈ l, Spec.SoundN couplingFields couplingTable c

/-! ## Properties -/

theorem encode_decode (U : Units) (hU : U.Ok) (hK : U.Knows) (s : System) (hs : Spec.SoundSystem s)
    (hp : ∀ p ∈ s.pathways, p = []) : ∃ d s', encode s = .ok d ∧ decode U d = .ok s' ∧ Spec.SameSystem s s' := by
  obtain ⟨o', e, h1, h2, h3⟩ := C23_spin_system U hU hK s.obj hs.base hs.sites hs.couplings
  refine ⟨⟨jsonSS s.obj, s.pathways⟩, ⟨o', s.pathways⟩, ?_, ?_, h1, h2, h3, rfl⟩
  · unfold encode
    rcases h : s.pathways with _ | p
    · rfl
    · rw [hp p (by rw [h]; rfl)]
  · unfold decode
    simp only
    rw [e]

/-- **C120, partial.** Spin systems without pathways of their own are exported, whatever file was there before, and loading the file gives
any simulator the same spin systems in the same order instead of those it had; the rest of the simulator and the other files stay as they are.
Missing: spin systems with pathways and couplings with antisymmetric or incomplete J tensors (C25), where the code fails. -/
theorem C120_round_trip_partial {R : Type} (U : Units) (hU : U.Ok) (hK : U.Knows) (fs : Files) (name : String) (l : List System)
    (hl : ∀ s ∈ l, Spec.SoundSystem s ∧ ∀ p ∈ s.pathways, p = []) (sim : Holder R) :
    (exportSystems fs name l).2 = .ok () ∧
    (∃ l', loadSystems U (exportSystems fs name l).1 name sim = .ok ⟨l', sim.rest⟩ ∧ List.Forall₂ Spec.SameSystem l l') ∧
    ∀ n, n ≠ name → (exportSystems fs name l).1 n = fs n := by
  have key : ∃ ds l', encodeAll l = .ok ds ∧ decodeAll U ds = .ok l' ∧ List.Forall₂ Spec.SameSystem l l' := by
    induction l with
    | nil => exact ⟨[], [], rfl, rfl, List.Forall₂.nil⟩
    | cons s l ih =>
      obtain ⟨ds, l', e1, e2, e3⟩ := ih fun s' h' => hl s' (by simp [h'])
      obtain ⟨d, s', h1, h2, h3⟩ := encode_decode U hU hK s (hl s (by simp)).1 (hl s (by simp)).2
      refine ⟨d :: ds, s' :: l', ?_, ?_, List.Forall₂.cons h3 e3⟩
      · unfold encodeAll
        rw [h1]
        simp only
        rw [e1]
      · unfold decodeAll
        rw [h2]
        simp only
        rw [e2]
  obtain ⟨ds, l', e1, e2, e3⟩ := key
  have e : exportSystems fs name l = (fs.write name (.whole ds), .ok ()) := by
    unfold exportSystems
    rw [e1]
  rw [e]
  refine ⟨rfl, ⟨l', ?_, e3⟩, fun n hn => if_neg hn⟩
  unfold loadSystems Files.write
  simp only [if_true]
  rw [e2]

theorem encodeAll_fails (l : List System) (s : System) (hs : s ∈ l) (p : Pathway) (ps : List Pathway)
    (hp : s.pathways = some (p :: ps)) : encodeAll l = .error .typeError := by
  induction l with
  | nil => cases hs
  | cons a l ih =>
    have ha : encode a = .error .typeError ∨ ∃ d, encode a = .ok d := by
      unfold encode
      split
      · exact Or.inl rfl
      · exact Or.inr ⟨_, rfl⟩
      · exact Or.inr ⟨_, rfl⟩
    unfold encodeAll
    rcases List.mem_cons.mp hs with rfl | h
    · have : encode s = .error .typeError := by
        unfold encode
        rw [hp]
      rw [this]
    · rcases ha with e | ⟨d, e⟩
      · rw [e]
      · rw [e]
        simp only
        rw [ih h]

/-- **C120, disagreement.** If a spin system has pathways, the export fails and the file, whatever it held before, cannot be loaded any more. -/
theorem C120_pathways {R : Type} (U : Units) (fs : Files) (name : String) (l : List System) (s : System) (hs : s ∈ l) (p : Pathway)
    (ps : List Pathway) (hp : s.pathways = some (p :: ps)) (sim : Holder R) :
    (exportSystems fs name l).2 = .error .typeError ∧
    loadSystems U (exportSystems fs name l).1 name sim = .error .valueError := by
  have e : exportSystems fs name l = (fs.write name .torn, .error .typeError) := by
    unfold exportSystems
    rw [encodeAll_fails l s hs p ps hp]
  rw [e]
  refine ⟨rfl, ?_⟩
  unfold loadSystems Files.write
  simp only [if_true]

theorem parseList_fails (U : Units) (fs : List NField) (T : Table) (l : List (Dict Slot × Dict (Dict Slot)))
    (d : Dict Slot × Dict (Dict Slot)) (hd : d ∈ l) (h : ∃ e, parseN U fs T d = .error e) : ∃ e, parseList U fs T l = .error e := by
  induction l with
  | nil => cases hd
  | cons a l ih =>
    unfold parseList
    rcases ha : parseN U fs T a with e | o
    · exact ⟨e, rfl⟩
    · rcases List.mem_cons.mp hd with rfl | hl
      · obtain ⟨e, he⟩ := h
        rw [he] at ha
        cases ha
      · obtain ⟨e, he⟩ := ih hl
        simp only
        rw [he]
        exact ⟨e, rfl⟩

/-- **C120, disagreement.** Spin systems of which one has a coupling with an antisymmetric J tensor are exported without complaint (unless one
has pathways), but the file cannot be loaded. -/
theorem C120_antisymmetric {R : Type} (U : Units) (fs : Files) (name : String) (l : List System) (s : System) (hs : s ∈ l)
    (ks : List NObj) (hk : s.obj.couplings = some ks) (k : NObj) (hks : k ∈ ks) (hJ : k.subs.has "j_antisymmetric" = true)
    (hp : ∀ s ∈ l, ∀ p ∈ s.pathways, p = []) (sim : Holder R) :
    (exportSystems fs name l).2 = .ok () ∧ ∃ e, loadSystems U (exportSystems fs name l).1 name sim = .error e := by
  have one : ∃ e, parseSS U (jsonSS s.obj) = .error e := by
    unfold parseSS jsonSS
    simp only [Option.getD_some]
    rcases parseList U siteFields siteTable (s.obj.sites.map jsonN) with e | o
    · exact ⟨e, rfl⟩
    · simp only [hk, Option.map_some]
      obtain ⟨e, he⟩ := parseList_fails U couplingFields couplingTable (ks.map jsonN) (jsonN k) (List.mem_map.mpr ⟨k, hks, rfl⟩)
        (C25_antisymmetric_never U _ (by
          unfold jsonN
          unfold Dict.has at hJ ⊢
          rw [List.any_map]
          exact hJ))
      rw [he]
      exact ⟨e, rfl⟩
  have key : ∀ l : List System, (∀ s ∈ l, ∀ p ∈ s.pathways, p = []) →
      ∃ ds, encodeAll l = .ok ds ∧ (s ∈ l → ∃ e, decodeAll U ds = .error e) := by
    intro l
    induction l with
    | nil => exact fun _ => ⟨[], rfl, fun h => by cases h⟩
    | cons a l ih =>
      intro hp
      obtain ⟨ds, e1, e2⟩ := ih fun s' h' => hp s' (by simp [h'])
      have ha : encode a = .ok ⟨jsonSS a.obj, a.pathways⟩ := by
        unfold encode
        rcases h : a.pathways with _ | p
        · rfl
        · rw [hp a (by simp) p (by rw [h]; rfl)]
      refine ⟨⟨jsonSS a.obj, a.pathways⟩ :: ds, ?_, fun h => ?_⟩
      · unfold encodeAll
        rw [ha]
        simp only
        rw [e1]
      · unfold decodeAll
        rcases hd : decode U ⟨jsonSS a.obj, a.pathways⟩ with e | o
        · exact ⟨e, rfl⟩
        · rcases List.mem_cons.mp h with rfl | h
          · obtain ⟨e, he⟩ := one
            unfold decode at hd
            simp only at hd
            rw [he] at hd
            cases hd
          · obtain ⟨e, he⟩ := e2 h
            simp only
            rw [he]
            exact ⟨e, rfl⟩
  obtain ⟨ds, e1, e2⟩ := key l hp
  have e : exportSystems fs name l = (fs.write name (.whole ds), .ok ()) := by
    unfold exportSystems
    rw [e1]
  rw [e]
  refine ⟨rfl, ?_⟩
  obtain ⟨x, hx⟩ := e2 hs
  unfold loadSystems Files.write
  simp only [if_true]
  rw [hx]
  exact ⟨x, rfl⟩

/-- An aluminium site, half of the sample. -/
def exampleSystem : System :=
  ⟨⟨⟨[("abundance", .val (.num 50))], [("abundance", "pct")]⟩, [exampleSite], none⟩, none⟩

/-- It is exported over an unreadable file and loaded into a simulator that had two copies of it. -/
example : (loadSystems stdUnits (exportSystems (fun _ => some .torn) "a.json" [exampleSystem]).1 "a.json"
    (⟨[exampleSystem, exampleSystem], 7⟩ : Holder ℕ)).map (fun s => (s.systems.map fun x => (x.obj.base.vals, x.obj.sites.length), s.rest))
      = .ok ([([("abundance", .val (.num 50))], 1)], 7) := by decide +kernel

/-- With the pathway of the central transition the good file is lost. -/
example :
    let fs := (exportSystems (fun _ => none) "a.json" [exampleSystem]).1
    let s : System := { exampleSystem with pathways := some [[([1/2], [-1/2])]] }
    (loadSystems stdUnits fs "a.json" (⟨[], 7⟩ : Holder ℕ)).map (fun s => s.systems.length) = .ok 1 ∧
    (exportSystems fs "a.json" [exampleSystem, s]).2 = .error .typeError ∧
    (loadSystems stdUnits (exportSystems fs "a.json" [exampleSystem, s]).1 "a.json" (⟨[], 7⟩ : Holder ℕ)).map (fun s => s.systems.length)
      = .error .valueError := by decide +kernel

/-- Two sites with an antisymmetric J tensor: exported, never loaded. -/
example :
    let s : System := ⟨⟨⟨[("abundance", .val (.num 50))], [("abundance", "pct")]⟩, [exampleSite, exampleSite],
      some [⟨⟨[("site_index", .val (.list [.num 0, .num 1]))], [("isotropic_j", "Hz")]⟩,
        [("j_antisymmetric", ⟨[("zeta", .val (.num 10))], [("zeta", "Hz"), ("alpha", "rad")]⟩)]⟩]⟩, none⟩
    (exportSystems (fun _ => none) "a.json" [exampleSystem, s]).2 = .ok () ∧
    ∃ e, loadSystems stdUnits (exportSystems (fun _ => none) "a.json" [exampleSystem, s]).1 "a.json" (⟨[], 7⟩ : Holder ℕ) = .error e := by
  intro s
  exact C120_antisymmetric stdUnits _ _ _ s (by simp) _ rfl _ (by simp; rfl) rfl (by simp [s, exampleSystem]) _

end MRS.Parse
