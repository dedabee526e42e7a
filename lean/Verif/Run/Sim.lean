import Verif.Run.Model
import Mathlib.Data.List.Sort
import Mathlib.Data.List.Dedup
import Mathlib.Data.List.Lex
import Mathlib.Data.String.Basic
import Mathlib.Algebra.Order.Floor.Ring
import Mathlib.Data.Rat.Floor

/-!
# Metadata of decomposed spectra, unique sites, isotope queries — C04, C05, C06
-/

namespace MRS.Run

/-! ## Model -/

/-- The fields of a spin system used for metadata; `None` and `""` are both `none`
(simulator/__init__.py:596, 600, 604). `json` stands for `SpinSystem.json()`. -/
structure SysMeta (J : Type) where
  name : Option String
  label : Option String
  description : Option String
  json : J

/-- The dictionary `dependent_variable` (simulator/__init__.py:575-579) reduced to the
keys that change; `none` is a missing key. -/
structure Dict (J C : Type) where
  components : Option C
  label : Option String
  name : Option String
  description : Option String
  application : Option J

/-- simulator/__init__.py:592-611 `_update_name_description_application`. -/
def updateMeta {J C} (obj : Dict J C) (index : Nat) (s : SysMeta J) : Dict J C :=
  let obj := match s.label with
    | some l => { obj with label := some l }
    | none => obj
  let obj := { obj with name := some (s.name.getD s!"spin system {index}") }
  let obj := match s.description with
    | some d => { obj with description := some d }
    | none => obj
  { obj with application := some s.json }

/-- simulator/__init__.py:580-590 with decompose_spectrum = "spin_system": the loop over
the entries; an empty entry (`none`) is skipped. The list holds what
`add_dependent_variable` received, which copies the values. An entry without a spin
system is an `IndexError`. -/
def csdmLoop {J C} (systems : List (SysMeta J)) :
    Dict J C → List (Option C × Nat) → Py (List (Dict J C))
  | _, [] => .ok []
  | obj, (none, _) :: rest => csdmLoop systems obj rest
  | obj, (some c, i) :: rest =>
    match systems[i]? with
    | none => .error .indexError
    | some s =>
      let obj := updateMeta { obj with components := some c } i s
      do return obj :: (← csdmLoop systems obj rest)

/-- simulator/__init__.py:561-590 `_as_csdm_object`, dependent variables only. -/
def asCsdm {J C} (systems : List (SysMeta J)) (data : List (Option C)) : Py (List (Dict J C)) :=
  csdmLoop systems ⟨none, none, none, none, none⟩ data.zipIdx

/-- simulator/__init__.py:543-559 `sites`. `==` of sites is structural equality. -/
def sites {α} [DecidableEq α] (systems : List (List α)) : List α :=
  systems.foldl (fun acc sys => sys.foldl (fun acc s => if s ∉ acc then acc ++ [s] else acc) acc) []

/-- Python `int` of a number: truncation towards zero. -/
def pyInt (q : ℚ) : Int := if 0 ≤ q then ⌊q⌋ else ⌈q⌉

/-- spin_system/__init__.py:404-425 `allowed_isotopes`; `data` is ISOTOPE_DATA with twice
the spin. (The order of the returned list is irrelevant, it is only used with `in`.) -/
def allowedIsotopes (data : List (String × Nat)) (spinI : Option ℚ) : List String :=
  match spinI with
  | none => data.map (·.1)
  | some q => (data.filter fun d => (d.2 : Int) = pyInt (2 * q)).map (·.1)

/-- spin_system/__init__.py:188-235 `SpinSystem.get_isotopes(spin_I, symbol=True)` on the
isotope symbols of the sites. -/
def getIsotopes (data : List (String × Nat)) (isotopes : List String) (spinI : Option ℚ) :
    List String :=
  isotopes.filter fun s => s ∈ allowedIsotopes data spinI

/-- `np.unique` of strings: sorted by code points, without repetition. -/
def npUnique (l : List String) : List String := (l.dedup).insertionSort (· ≤ ·)

/-- simulator/__init__.py:249-290 `Simulator.get_isotopes(spin_I, symbol=True)`. -/
def simIsotopes (data : List (String × Nat)) (systems : List (List String)) (spinI : Option ℚ) :
    List String :=
  npUnique (systems.foldl (fun st sys => st ++ getIsotopes data sys spinI) [])

/-! ## C04 -/

/-- What the metadata of entry `i` ought to be. -/
def Spec.meta {J C} (i : Nat) (s : SysMeta J) (c : C) : Dict J C :=
  ⟨some c, s.label, some (s.name.getD s!"spin system {i}"), s.description, some s.json⟩

/-- The entries that are shown, each with its index and spin system. -/
def Spec.shown {J C} (systems : List (SysMeta J)) (data : List (Option C)) :
    List (Nat × SysMeta J × C) :=
  (data.zip systems).zipIdx.filterMap fun p => p.1.1.map fun c => (p.2, p.1.2, c)

theorem csdmLoop_ok {J C} (systems : List (SysMeta J)) (rest : List (Option C × Nat))
    (hr : ∀ p ∈ rest, p.2 < systems.length) (obj : Dict J C) :
    ∃ out, csdmLoop systems obj rest = .ok out := by
  induction rest generalizing obj with
  | nil => exact ⟨[], rfl⟩
  | cons p rest ih =>
    obtain ⟨c, i⟩ := p
    have hrest := ih (fun q hq => hr q (by simp [hq]))
    cases c with
    | none => exact hrest obj
    | some c =>
      have hi : i < systems.length := hr (some c, i) (by simp)
      obtain ⟨out, ho⟩ := hrest (updateMeta { obj with components := some c } i systems[i])
      refine ⟨updateMeta { obj with components := some c } i systems[i] :: out, ?_⟩
      simp only [csdmLoop, List.getElem?_eq_getElem hi, ho, bind, Except.bind, pure, Except.pure]

/-- General relation between the dictionaries passed on and the specification. -/
theorem csdmLoop_spec {J C} (sys tail : List (SysMeta J)) (pre : List (SysMeta J))
    (hs : sys = pre ++ tail) (data : List (Option C)) (hl : data.length = tail.length)
    (obj : Dict J C) (R : Nat × SysMeta J × C → Dict J C → Prop) (I : Dict J C → Prop)
    (hI : I obj)
    (hR : ∀ o i s c, I o → (i, s, c) ∈ ((data.zip tail).zipIdx pre.length).filterMap
        (fun p => p.1.1.map fun c => (p.2, p.1.2, c)) →
      R (i, s, c) (updateMeta { o with components := some c } i s) ∧
        I (updateMeta { o with components := some c } i s)) :
    ∃ out, csdmLoop sys obj (data.zipIdx pre.length) = .ok out ∧
      List.Forall₂ R (((data.zip tail).zipIdx pre.length).filterMap
        fun p => p.1.1.map fun c => (p.2, p.1.2, c)) out := by
  induction data generalizing tail pre obj with
  | nil => exact ⟨[], rfl, by simp⟩
  | cons c data ih =>
    cases tail with
    | nil => simp at hl
    | cons s tail =>
      have hs' : sys = (pre ++ [s]) ++ tail := by simp [hs]
      have hlen : (pre ++ [s]).length = pre.length + 1 := by simp
      cases c with
      | none =>
        have := ih tail (pre ++ [s]) hs' (by simpa using hl) obj hI (by
          intro o i s' c ho hm
          apply hR o i s' c ho
          rw [hlen] at hm
          simpa [List.zip_cons_cons, List.zipIdx_cons] using hm)
        rw [hlen] at this
        simpa [List.zip_cons_cons, List.zipIdx_cons, csdmLoop] using this
      | some c =>
        obtain ⟨r1, r2⟩ := hR obj pre.length s c hI (by simp [List.zip_cons_cons, List.zipIdx_cons])
        obtain ⟨out, o1, o2⟩ := ih tail (pre ++ [s]) hs' (by simpa using hl)
          (updateMeta { obj with components := some c } pre.length s) r2 (by
          intro o i s' c' ho hm
          apply hR o i s' c' ho
          rw [hlen] at hm
          simp only [List.zip_cons_cons, List.zipIdx_cons, List.filterMap_cons, Option.map_some,
            List.mem_cons]
          exact Or.inr hm)
        rw [hlen] at o1 o2
        have hget : sys[pre.length]? = some s := by simp [hs]
        refine ⟨updateMeta { obj with components := some c } pre.length s :: out, ?_, ?_⟩
        · simp only [List.zipIdx_cons, csdmLoop, hget, o1, bind, Except.bind, pure, Except.pure]
        · simp only [List.zip_cons_cons, List.zipIdx_cons, List.filterMap_cons, Option.map_some]
          exact List.Forall₂.cons r1 o2

/-- **C04 (partial)**. Every decomposed spectrum carries its own name (or the numbered
default), its own data and its own application metadata; and its own label and
description if the spin system has them. Missing, and false: a spin system without
label or description, which then shows those of an earlier one. -/
theorem C04_metadata_partial {J C} (systems : List (SysMeta J)) (data : List (Option C))
    (hl : data.length = systems.length) :
    ∃ out, asCsdm systems data = .ok out ∧
      List.Forall₂ (fun p d =>
        d.components = (Spec.meta p.1 p.2.1 p.2.2).components ∧
        d.name = (Spec.meta p.1 p.2.1 p.2.2).name ∧
        d.application = (Spec.meta p.1 p.2.1 p.2.2).application ∧
        (p.2.1.label ≠ none → d.label = p.2.1.label) ∧
        (p.2.1.description ≠ none → d.description = p.2.1.description))
        (Spec.shown systems data) out := by
  apply csdmLoop_spec systems systems [] rfl data hl _ _ (fun _ => True) trivial
  intro o i s c _ _
  refine ⟨?_, trivial⟩
  cases hls : s.label <;> cases hds : s.description <;>
    simp [updateMeta, Spec.meta, hls, hds]

/-- **C04 (partial)**: if all spin systems have a label and a description, or none has
a label and none has a description, all metadata are exactly their own. -/
theorem C04_uniform_partial {J C} (systems : List (SysMeta J)) (data : List (Option C))
    (hl : data.length = systems.length)
    (h1 : (∀ s ∈ systems, s.label ≠ none) ∨ ∀ s ∈ systems, s.label = none)
    (h2 : (∀ s ∈ systems, s.description ≠ none) ∨ ∀ s ∈ systems, s.description = none) :
    asCsdm systems data =
      .ok ((Spec.shown systems data).map fun p => Spec.meta p.1 p.2.1 p.2.2) := by
  obtain ⟨out, ho, hf⟩ := csdmLoop_spec systems systems [] rfl data hl ⟨none, none, none, none, none⟩
    (fun p d => d = Spec.meta p.1 p.2.1 p.2.2)
    (fun o => ((∀ s ∈ systems, s.label = none) → o.label = none) ∧
      ((∀ s ∈ systems, s.description = none) → o.description = none))
    ⟨fun _ => rfl, fun _ => rfl⟩ (by
      intro o i s c hI hm
      have hs : s ∈ systems := by
        simp only [List.mem_filterMap, Option.map_eq_some_iff, Prod.mk.injEq] at hm
        obtain ⟨⟨⟨x, y⟩, j⟩, hz, c', hc1, hc2, rfl, hc4⟩ := hm
        have := List.mem_zipIdx hz
        have hmem : (x, y) ∈ data.zip systems := by
          rw [this.2.2]; exact List.getElem_mem _
        exact (List.of_mem_zip hmem).2
      cases hls : s.label <;> cases hds : s.description
      · have a : ∀ s ∈ systems, s.label = none := by
          rcases h1 with h1 | h1
          · exact absurd hls (h1 s hs)
          · exact h1
        have b : ∀ s ∈ systems, s.description = none := by
          rcases h2 with h2 | h2
          · exact absurd hds (h2 s hs)
          · exact h2
        simp [updateMeta, Spec.meta, hls, hds, hI.1 a, hI.2 b]
      · have a : ∀ s ∈ systems, s.label = none := by
          rcases h1 with h1 | h1
          · exact absurd hls (h1 s hs)
          · exact h1
        refine ⟨by simp [updateMeta, Spec.meta, hls, hds, hI.1 a], ?_, ?_⟩
        · intro _; simp [updateMeta, hls, hds, hI.1 a]
        · intro b; rw [b s hs] at hds; cases hds
      · have b : ∀ s ∈ systems, s.description = none := by
          rcases h2 with h2 | h2
          · exact absurd hds (h2 s hs)
          · exact h2
        refine ⟨by simp [updateMeta, Spec.meta, hls, hds, hI.2 b], ?_, ?_⟩
        · intro a; rw [a s hs] at hls; cases hls
        · intro _; simp [updateMeta, hls, hds, hI.2 b]
      · refine ⟨by simp [updateMeta, Spec.meta, hls, hds], ?_, ?_⟩
        · intro a; rw [a s hs] at hls; cases hls
        · intro a; rw [a s hs] at hds; cases hds)
  have : out = (Spec.shown systems data).map fun p => Spec.meta p.1 p.2.1 p.2.2 := by
    have hf' : List.Forall₂ (fun (p : Nat × SysMeta J × C) d => d = Spec.meta p.1 p.2.1 p.2.2)
      (Spec.shown systems data) out := hf
    revert hf'
    generalize Spec.shown systems data = sh
    intro hf'
    clear ho hf
    induction hf' with
    | nil => rfl
    | cons h _ ih => rw [h, ih]; rfl
  rw [← this]
  exact ho

/-- **C04**, disagreement: the second spin system has neither label nor description and
is shown with those of the first. -/
theorem C04_counterexample :
    ∃ a b : SysMeta Nat, b.label = none ∧ b.description = none ∧
      ∃ d₁ d₂, asCsdm (C := ℚ) [a, b] [some 1, some 2] = .ok [d₁, d₂] ∧
        d₂.label = some "Si-1" ∧ d₂.description = some "quartz" :=
  ⟨⟨none, some "Si-1", some "quartz", 0⟩, ⟨none, none, none, 1⟩, rfl, rfl, _, _, rfl, rfl, rfl⟩

/-- Non-vacuity: three systems, the second entry empty. -/
example : ∃ d₁ d₂, asCsdm (C := ℚ) [⟨some "a", none, none, 0⟩, ⟨some "b", none, none, 1⟩,
    ⟨none, none, none, 2⟩] [some 5, none, some 7] = .ok [d₁, d₂] ∧
    d₂.name = some "spin system 2" ∧ d₂.application = some 2 ∧ d₂.components = some 7 :=
  ⟨_, _, rfl, rfl, rfl, rfl⟩

/-! ## C05 -/

/-- One pass, over the concatenation of all sites. -/
def addNew {α} [DecidableEq α] (acc : List α) (s : α) : List α := if s ∉ acc then acc ++ [s] else acc

theorem sites_eq {α} [DecidableEq α] (systems : List (List α)) :
    sites systems = systems.flatten.foldl addNew [] := by
  suffices h : ∀ acc : List α, systems.foldl (fun acc sys => sys.foldl addNew acc) acc =
      systems.flatten.foldl addNew acc from h []
  intro acc
  induction systems generalizing acc with
  | nil => rfl
  | cons s l ih => simp only [List.foldl_cons, List.flatten_cons, List.foldl_append, ih]

theorem addNew_spec {α} [DecidableEq α] (pre l acc : List α) (h1 : acc.Nodup)
    (h2 : ∀ a, a ∈ acc ↔ a ∈ pre)
    (h3 : acc.Pairwise fun a b => pre.idxOf a < pre.idxOf b) :
    (l.foldl addNew acc).Nodup ∧ (∀ a, a ∈ l.foldl addNew acc ↔ a ∈ pre ++ l) ∧
      (l.foldl addNew acc).Pairwise fun a b => (pre ++ l).idxOf a < (pre ++ l).idxOf b := by
  induction l generalizing pre acc with
  | nil => simp only [List.foldl_nil, List.append_nil]; exact ⟨h1, h2, h3⟩
  | cons s l ih =>
    have hstep : pre ++ s :: l = (pre ++ [s]) ++ l := by simp
    rw [List.foldl_cons, hstep]
    apply ih
    · unfold addNew
      by_cases hs : s ∈ acc
      · rw [if_neg (not_not.mpr hs)]; exact h1
      · rw [if_pos hs]
        rw [List.nodup_append]
        refine ⟨h1, by simp, ?_⟩
        intro a ha b hb
        rw [List.mem_singleton.mp hb]
        rintro rfl
        exact hs ha
    · intro a
      unfold addNew
      by_cases hs : s ∈ acc
      · rw [if_neg (not_not.mpr hs)]
        simp only [List.mem_append, List.mem_singleton, ← h2]
        constructor
        · exact Or.inl
        · rintro (h | rfl)
          · exact h
          · exact hs
      · rw [if_pos hs]
        simp only [List.mem_append, List.mem_singleton, ← h2]
    · have hkeep : acc.Pairwise fun a b => (pre ++ [s]).idxOf a < (pre ++ [s]).idxOf b := by
        apply h3.imp_of_mem
        intro a b ha hb hab
        rw [List.idxOf_append_of_mem ((h2 a).mp ha), List.idxOf_append_of_mem ((h2 b).mp hb)]
        exact hab
      unfold addNew
      by_cases hs : s ∈ acc
      · rw [if_neg (not_not.mpr hs)]; exact hkeep
      · rw [if_pos hs, List.pairwise_append]
        refine ⟨hkeep, by simp, ?_⟩
        intro a ha b hb
        rw [List.mem_singleton.mp hb]
        rw [List.idxOf_append_of_mem ((h2 a).mp ha),
          List.idxOf_append_of_notMem (fun h => hs ((h2 s).mpr h))]
        have := List.idxOf_lt_length_of_mem ((h2 a).mp ha)
        omega

/-- **C05**. `Simulator.sites` has no repetition, contains exactly the sites of the spin
systems, and lists them by first appearance. -/
theorem C05_sites {α} [DecidableEq α] (systems : List (List α)) :
    (sites systems).Nodup ∧ (∀ a, a ∈ sites systems ↔ ∃ s ∈ systems, a ∈ s) ∧
      (sites systems).Pairwise fun a b =>
        systems.flatten.idxOf a < systems.flatten.idxOf b := by
  rw [sites_eq]
  obtain ⟨h1, h2, h3⟩ := addNew_spec [] systems.flatten [] (by simp) (by simp) (by simp)
  refine ⟨h1, ?_, by simpa using h3⟩
  intro a
  rw [h2]
  simp

example : sites [["a", "b", "a"], [], ["c", "b"]] = ["a", "b", "c"] := by decide +kernel

/-! ## C06 -/

/-- The isotope `s` has spin `q`. -/
def Spec.HasSpin (data : List (String × Nat)) (q : ℚ) (s : String) : Prop :=
  ∃ t, (s, t) ∈ data ∧ (t : ℚ) / 2 = q

theorem mem_allowed (data : List (String × Nat)) (q : ℚ) (hq : ∃ z : ℤ, 2 * q = z) (s : String) :
    s ∈ allowedIsotopes data (some q) ↔ Spec.HasSpin data q s := by
  obtain ⟨z, hz⟩ := hq
  have hint : pyInt (2 * q) = z := by
    unfold pyInt
    rw [hz]
    split_ifs <;> simp
  simp only [allowedIsotopes, hint, List.mem_map, List.mem_filter, decide_eq_true_eq, Spec.HasSpin]
  constructor
  · rintro ⟨⟨a, t⟩, ⟨h1, h2⟩, rfl⟩
    refine ⟨t, h1, ?_⟩
    have : (t : ℚ) = z := by exact_mod_cast h2
    linarith
  · rintro ⟨t, h1, h2⟩
    refine ⟨(s, t), ⟨h1, ?_⟩, rfl⟩
    have : (t : ℚ) = z := by linarith
    exact_mod_cast this

theorem foldl_append_mem (data : List (String × Nat)) (spinI : Option ℚ)
    (systems : List (List String)) (acc : List String) (a : String) :
    a ∈ systems.foldl (fun st sys => st ++ getIsotopes data sys spinI) acc ↔
      a ∈ acc ∨ ∃ s ∈ systems, a ∈ getIsotopes data s spinI := by
  induction systems generalizing acc with
  | nil => simp
  | cons s l ih => rw [List.foldl_cons, ih]; simp [or_assoc]

theorem npUnique_spec (l : List String) :
    (npUnique l).Pairwise (· < ·) ∧ ∀ a, a ∈ npUnique l ↔ a ∈ l := by
  have hp := List.perm_insertionSort (· ≤ ·) l.dedup
  constructor
  · have h1 : (npUnique l).Pairwise (· ≤ ·) := List.pairwise_insertionSort _ _
    have h2 : (npUnique l).Nodup := hp.nodup_iff.mpr (List.nodup_dedup l)
    exact (h1.and h2).imp fun h => lt_of_le_of_ne h.1 h.2
  · intro a
    rw [npUnique, hp.mem_iff, List.mem_dedup]

/-- **C06**, simulator: strictly increasing, hence without repetition, and exactly the
isotopes of the spin systems with the queried spin (a multiple of 1/2), or all
isotopes without a query. -/
theorem C06_simulator (data : List (String × Nat)) (systems : List (List String))
    (hdata : ∀ sys ∈ systems, ∀ s ∈ sys, s ∈ data.map (·.1)) :
    (∀ spinI, (simIsotopes data systems spinI).Pairwise (· < ·)) ∧
    (∀ a, a ∈ simIsotopes data systems none ↔ ∃ s ∈ systems, a ∈ s) ∧
    ∀ q : ℚ, (∃ z : ℤ, 2 * q = z) → ∀ a, a ∈ simIsotopes data systems (some q) ↔
      (∃ s ∈ systems, a ∈ s) ∧ Spec.HasSpin data q a := by
  refine ⟨fun spinI => (npUnique_spec _).1, ?_, ?_⟩
  · intro a
    rw [simIsotopes, (npUnique_spec _).2, foldl_append_mem]
    simp only [List.not_mem_nil, false_or, getIsotopes, List.mem_filter, allowedIsotopes]
    constructor
    · rintro ⟨s, h1, h2, -⟩; exact ⟨s, h1, h2⟩
    · rintro ⟨s, h1, h2⟩; exact ⟨s, h1, h2, decide_eq_true (hdata s h1 a h2)⟩
  · intro q hq a
    rw [simIsotopes, (npUnique_spec _).2, foldl_append_mem]
    simp only [List.not_mem_nil, false_or, getIsotopes, List.mem_filter, decide_eq_true_eq,
      mem_allowed data q hq]
    constructor
    · rintro ⟨s, h1, h2, h3⟩; exact ⟨⟨s, h1, h2⟩, h3⟩
    · rintro ⟨⟨s, h1, h2⟩, h3⟩; exact ⟨s, h1, h2, h3⟩

/-- **C06**, spin system: the subsequence of the sites' isotopes with the queried spin,
one entry per site. -/
theorem C06_spin_system (data : List (String × Nat)) (isotopes : List String)
    (hdata : ∀ s ∈ isotopes, s ∈ data.map (·.1)) :
    getIsotopes data isotopes none = isotopes ∧
    ∀ q : ℚ, (∃ z : ℤ, 2 * q = z) →
      (getIsotopes data isotopes (some q)).Sublist isotopes ∧
      (∀ a, Spec.HasSpin data q a → (getIsotopes data isotopes (some q)).count a = isotopes.count a) ∧
      ∀ a, ¬ Spec.HasSpin data q a → a ∉ getIsotopes data isotopes (some q) := by
  constructor
  · unfold getIsotopes allowedIsotopes
    rw [List.filter_eq_self]
    intro a ha
    simpa using hdata a ha
  · intro q hq
    refine ⟨List.filter_sublist, ?_, ?_⟩
    · intro a ha
      unfold getIsotopes
      rw [List.count_filter]
      simpa using (mem_allowed data q hq a).mpr ha
    · intro a ha hm
      unfold getIsotopes at hm
      rw [List.mem_filter] at hm
      exact ha ((mem_allowed data q hq a).mp (by simpa using hm.2))

/-- Non-vacuity of C06. -/
example : simIsotopes [("1H", 1), ("27Al", 5), ("13C", 1)] [["27Al", "1H"], ["13C", "1H", "13C"]]
    (some (1/2)) = ["13C", "1H"] := by decide +kernel

/-- A query that is no multiple of 1/2 is truncated, not rejected: 3/4 returns spin 1/2. -/
theorem C06_not_half_integer :
    simIsotopes [("1H", 1)] [["1H"]] (some (3/4)) = ["1H"] ∧
      ¬ Spec.HasSpin [("1H", 1)] (3/4) "1H" := by
  refine ⟨by decide +kernel, ?_⟩
  rintro ⟨t, ht, h⟩
  simp only [List.mem_singleton, Prod.mk.injEq, true_and] at ht
  subst ht
  norm_num at h

end MRS.Run
