import Verif.Meth.Gen
import Mathlib.Algebra.Order.Field.Rat
import Mathlib.Tactic.Linarith

/-!
# The rotor frequency of SSB2D — property C113

Model of `SSB2D.__new__` (src/mrsimulator/methods/ssb2d.py:72-106), on top of the checks of methods/base.py and the constructor of
methods/utils.py (`Gen.lean`).
-/

namespace MRS.Meth

open Dict

/-- ssb2d.py:80-85: for every event of the dictionaries, that it has no rotor frequency. `"events" in item` is false for
`SpectralDimension` objects. -/
def lacksRotor (l : List DimArg) : List Bool :=
  l.flatMap fun
    | .obj => []
    | .dict d => (d.events.getD []).map fun ev => !ev.has "rotor_frequency"

/-- The dictionary of an argument; after the checks of methods/base.py there are only dictionaries. -/
def DimArg.toDict : DimArg → DimD
  | .obj => ⟨[], none⟩
  | .dict d => d

/-- What `SSB2D(...)` gives: a method with the objects of the caller, unchanged (methods/utils.py:102-103), or the entries and events of
the dimensions made from dictionaries. -/
inductive Made
  | objects (l : List DimArg)
  | dims (out : List (Dict Val × List (Dict Val)))
  deriving DecidableEq

/-- ssb2d.py:97, assignment to `method.spectral_dimensions[0].events[0].rotor_frequency`: pydantic requires a number that is not negative
(method/event.py, `ge=0.0`). Strings that pydantic would convert to numbers are not modelled. -/
def assignRotor (v : Val) : List (Dict Val × List (Dict Val)) → Py (List (Dict Val × List (Dict Val)))
  | (a, e :: es) :: rest =>
    match v with
    | .num q => if q < 0 then .error .valueError else .ok ((a, e.set "rotor_frequency" v :: es) :: rest)
    | _ => .error .valueError
  | _ => .error .indexError

/-- ssb2d.py:72-97 `SSB2D.__new__`; `arg` is the keyword `spectral_dimensions`, `kwargs` the others. The transition queries and the affine
matrix, which `update` sets afterwards (108-124), are in `Saved.lean` and `Trans/Correlation.lean`. -/
def ssb2dNew (dflt : Dict Val) (arg : Option (List DimArg)) (kwargs : Dict Val) : Py Made :=
  match arg.getD [.dict ⟨[], none⟩, .dict ⟨[], none⟩] with
  | [] => .error .indexError
  | .obj :: l =>
    match namedChecks 2 (some (.obj :: l)) with
    | .error e => .error e
    | .ok ds => .ok (.objects ds)
  | .dict d :: l =>
    if !kwargs.has "rotor_frequency" && (lacksRotor (.dict d :: l)).all id then .error .valueError
    else match kwargs.get? "rotor_frequency" with
      | none => .error .keyError
      | some r =>
        if r = .num 0 then .error .valueError
        else match namedChecks 2 (some (.dict d :: l)) with
          | .error e => .error e
          | .ok ds =>
            let h := ds.map DimArg.toDict
            match (construct method2D dflt h (List.range h.length) (kwargs.pop "rotor_frequency")).2 with
            | .error e => .error e
            | .ok out =>
              match assignRotor r out with
              | .error e => .error e
              | .ok out => .ok (.dims out)

/-! ## Specification -/

/-- Both dimensions have one event; the first spins at `q` Hz, the second at the speed that stands for infinity; what else was given for
all events is found in both. -/
def Spec.FiniteInfinite (q : ℚ) (kwargs : Dict Val) : Made → Prop
  | .objects _ => False
  | .dims out => ∃ a b ev ev', out = [(a, [ev]), (b, [ev'])] ∧ Dict.get? ev "rotor_frequency" = some (.num q) ∧
      Dict.get? ev' "rotor_frequency" = some (.num 1000000000000) ∧
      ∀ k ∈ ["magnetic_flux_density", "rotor_angle"], Dict.get? ev k = kwargs.get? k ∧ Dict.get? ev' k = kwargs.get? k

/-! ## Proof -/

theorem construct_two (dflt : Dict Val) (d d' : DimD) (hd : d.events = none) (hd' : d'.events = none) (kw : Dict Val)
    (hch : ∀ l, kw.get? "channels" = some (.list l) → l.length = 1)
    (hr : kw.get? "rotor_frequency" = none) (hq : kw.get? "transition_query" = none) :
    (construct method2D dflt [d, d'] [0, 1] kw).2 = .ok [(d.attrs, [(Dict.update [] kw).update (method2D.globals.update kw)]),
      (d'.attrs, [(Dict.update [] kw).update (method2D.globals.update kw)])] := by
  have e1 : parseSpectral [d, d'] [0, 1] 2 = ([d, d'], [0, 1]) := by
    unfold parseSpectral
    rw [if_neg (by simp)]
    obtain ⟨a, _⟩ := d
    obtain ⟨a', _⟩ := d'
    subst hd hd'
    rfl
  have e2 : channelsOk method2D kw = true := by
    unfold channelsOk
    cases hc : kw.get? "channels" with
    | none => rfl
    | some v =>
      cases v with
      | list l => simp [hch l hc, method2D]
      | _ => rfl
  have e3 : checkRotor method2D kw = .ok () := by
    unfold checkRotor
    simp only
    rw [if_pos]
    simp [method2D, (has_false_iff _ _).mpr hr, (has_false_iff _ _).mpr hq]
  have eg : ∀ x : DimD, x.events = none → genEvent dflt method2D.globals kw x [[]] =
      .ok [(Dict.update [] kw).update (method2D.globals.update kw)] := by
    intro x hx
    unfold genEvent fillTemplate
    rw [hx]
    unfold genLoop genOne
    rw [hx]
    rfl
  unfold construct
  rw [if_neg (by simp)]
  simp only
  rw [show method2D.dims.length = 2 from rfl, e1, e2, e3]
  simp only [Bool.not_true, Bool.false_eq_true, if_false, List.length_cons, List.length_nil]
  rw [if_neg (by omega), show method2D.dims = [[[]], [[]]] from rfl]
  unfold dimLoop
  simp only [deref, List.getD_cons_zero]
  rw [eg d hd]
  simp only [List.set_cons_zero]
  unfold dimLoop
  simp only [deref, List.getD_cons_succ, List.getD_cons_zero]
  rw [eg d' hd']
  simp only [List.set_cons_succ, List.set_cons_zero]
  unfold dimLoop
  rfl

theorem update_of_get (kw : Dict Val) (hw : kw.WF) (k : String) :
    ((Dict.update [] kw).update (method2D.globals.update kw)).get? k = (kw.get? k).or (method2D.globals.get? k) := by
  have hg : (method2D.globals : Dict Val).WF := by unfold Dict.WF method2D; decide
  rw [get?_update _ _ (WF_update _ _ hg), get?_update _ _ hw, get?_update _ _ hw]
  cases kw.get? k <;> cases method2D.globals.get? k <;> rfl

/-- **C113** (partial). `SSB2D` called with dictionaries (or without dimensions), one channel at most, and no transition query: it gives a
method exactly if there are two dictionaries without events and a rotor frequency that is a positive number; the first dimension then spins
at that speed and the second infinitely fast, with the field and angle of the caller in both. Every other call fails. Missing: objects
instead of dictionaries, for which nothing is checked (`C113_counterexample`). -/
theorem C113_rotor_partial (dflt : Dict Val) (ds : Option (List DimD)) (kwargs : Dict Val) (hw : kwargs.WF)
    (hch : ∀ l, kwargs.get? "channels" = some (.list l) → l.length = 1) (hq : kwargs.get? "transition_query" = none) :
    (∀ q : ℚ, 0 < q → kwargs.get? "rotor_frequency" = some (.num q) → (∀ l, ds = some l → l.length = 2 ∧ ∀ d ∈ l, d.events = none) →
      ∃ m, ssb2dNew dflt (ds.map fun l => l.map .dict) kwargs = .ok m ∧ Spec.FiniteInfinite q kwargs m) ∧
    ((ssb2dNew dflt (ds.map fun l => l.map .dict) kwargs).isOk = true →
      (∃ q : ℚ, 0 < q ∧ kwargs.get? "rotor_frequency" = some (.num q)) ∧ ∀ l, ds = some l → l.length = 2 ∧ ∀ d ∈ l, d.events = none) := by
  have key : ∃ l : List DimD, (ds.map fun l => l.map DimArg.dict).getD [.dict ⟨[], none⟩, .dict ⟨[], none⟩] = l.map .dict ∧
      (ds = some l ∨ (ds = none ∧ l = [⟨[], none⟩, ⟨[], none⟩])) := by
    cases ds with
    | none => exact ⟨[⟨[], none⟩, ⟨[], none⟩], rfl, Or.inr ⟨rfl, rfl⟩⟩
    | some l => exact ⟨l, rfl, Or.inl rfl⟩
  obtain ⟨l, hl, hds⟩ := key
  constructor
  · intro q hq0 hr hfit
    have hfit' : l.length = 2 ∧ ∀ d ∈ l, d.events = none := by
      rcases hds with h | ⟨_, rfl⟩
      · exact hfit l h
      · simp
    obtain ⟨h2, hno⟩ := hfit'
    match l, h2 with
    | [d, d'], _ =>
      have hd := hno d (by simp)
      have hd' := hno d' (by simp)
      have hhas : kwargs.has "rotor_frequency" = true := (has_iff _ _).mpr ⟨_, hr⟩
      have hpopw : (kwargs.pop "rotor_frequency").WF := WF_pop _ hw _
      have hc := construct_two dflt d d' hd hd' (kwargs.pop "rotor_frequency")
        (fun l hl => hch l (by rwa [get?_pop, if_neg (by decide)] at hl)) (by rw [get?_pop, if_pos rfl])
        (by rw [get?_pop, if_neg (by decide)]; exact hq)
      have hchk := (C20_dicts 2 (by omega) [d, d']).1
      rw [if_pos ⟨rfl, by simpa using hno⟩] at hchk
      unfold ssb2dNew
      rw [hl]
      simp only [List.map_cons, List.map_nil] at hchk ⊢
      rw [hhas, hr, hchk]
      simp only [Bool.not_true, Bool.false_and, Bool.false_eq_true, if_false, List.map_cons, List.map_nil, DimArg.toDict,
        List.length_cons, List.length_nil]
      rw [if_neg (by intro h; injection h with h; rw [h] at hq0; exact lt_irrefl _ hq0)]
      rw [show List.range (0 + 1 + 1) = [0, 1] from rfl, hc]
      simp only [assignRotor]
      rw [if_neg (by linarith)]
      refine ⟨_, rfl, _, _, _, _, rfl, ?_, ?_, ?_⟩
      · rw [get?_set, if_pos rfl]
      · rw [update_of_get _ hpopw, get?_pop, if_pos rfl]; rfl
      · intro k hk
        have hk1 : k ≠ "rotor_frequency" := by rintro rfl; simp at hk
        have hk2 : method2D.globals.get? k = none := by
          simp only [List.mem_cons, List.not_mem_nil, or_false] at hk
          rcases hk with rfl | rfl <;> decide
        rw [get?_set, if_neg (Ne.symm hk1), update_of_get _ hpopw, get?_pop, if_neg (Ne.symm hk1), hk2]
        simp
  · intro hok
    unfold ssb2dNew at hok
    rw [hl] at hok
    cases l with
    | nil => simp [Except.isOk, Except.toBool] at hok
    | cons d l =>
      simp only [List.map_cons] at hok
      by_cases hc : (!kwargs.has "rotor_frequency" && (lacksRotor (.dict d :: l.map .dict)).all id) = true
      · rw [if_pos hc] at hok; cases hok
      rw [if_neg hc] at hok
      cases hr : kwargs.get? "rotor_frequency" with
      | none => rw [hr] at hok; cases hok
      | some r =>
        rw [hr] at hok
        simp only at hok
        by_cases h0 : r = .num 0
        · rw [if_pos h0] at hok; cases hok
        rw [if_neg h0] at hok
        have hchk := (C20_dicts 2 (by omega) (d :: l)).1
        rw [List.map_cons] at hchk
        rw [hchk] at hok
        by_cases hf : (d :: l).length = 2 ∧ ∀ x ∈ d :: l, x.events = none
        · refine ⟨?_, fun l' hl' => ?_⟩
          · rw [if_pos hf] at hok
            simp only at hok
            revert hok
            cases (construct method2D dflt (List.map DimArg.toDict (DimArg.dict d :: List.map DimArg.dict l))
              (List.range (List.map DimArg.toDict (DimArg.dict d :: List.map DimArg.dict l)).length) (kwargs.pop "rotor_frequency")).2 with
            | error e => intro hok; cases hok
            | ok out =>
              intro hok
              simp only at hok
              match out, hok with
              | [], hok => cases hok
              | (a, []) :: rest, hok => cases hok
              | (a, e :: es) :: rest, hok =>
                cases r with
                | num q =>
                  refine ⟨q, ?_, rfl⟩
                  by_contra hneg
                  have hne : q ≠ 0 := fun h => h0 (by rw [h])
                  have hlt : q < 0 := lt_of_le_of_ne (not_lt.mp hneg) hne
                  simp only [assignRotor] at hok
                  rw [if_pos hlt] at hok
                  cases hok
                | none => cases hok
                | str s => cases hok
                | list s => cases hok
                | dict s => cases hok
          · rcases hds with h | ⟨h, _⟩
            · rw [h] at hl'; injection hl' with hl'; rw [← hl']; exact hf
            · rw [h] at hl'; cases hl'
        · rw [if_neg hf] at hok; cases hok

/-- **C113**, disagreements. With objects as dimensions nothing is checked, and a rotor frequency that is given, even zero, is ignored. With a
rotor frequency inside an event of a dictionary, the call fails with a `KeyError` and not with the message about events. -/
theorem C113_counterexample :
    ssb2dNew [] (some [.obj, .obj]) [("rotor_frequency", .num 0)] = .ok (.objects [.obj, .obj]) ∧
    ssb2dNew [] (some [.obj, .obj]) [] = .ok (.objects [.obj, .obj]) ∧
    ssb2dNew [] (some [.dict ⟨[], some [[("rotor_frequency", .num 1500)]]⟩, .dict ⟨[], none⟩]) [] = .error .keyError := by
  decide +kernel

/-- The hypotheses are met: a call with 1500 Hz, and calls without a rotor frequency, or zero, or negative, which are rejected. -/
example :
    ssb2dNew [] (some [.dict ⟨[("count", .num 16)], none⟩, .dict ⟨[("count", .num 512)], none⟩])
      [("channels", .list [.str "13C"]), ("magnetic_flux_density", .num 7), ("rotor_frequency", .num 1500)] =
      .ok (.dims [([("count", .num 16)], [[("channels", .list [.str "13C"]), ("magnetic_flux_density", .num 7),
          ("rotor_frequency", .num 1500), ("transition_query", .dict [("P", .dict [("channel-1", .list [.list [.num (-1)]])])])]]),
        ([("count", .num 512)], [[("channels", .list [.str "13C"]), ("magnetic_flux_density", .num 7),
          ("rotor_frequency", .num 1000000000000),
          ("transition_query", .dict [("P", .dict [("channel-1", .list [.list [.num (-1)]])])])]])]) ∧
    ssb2dNew [] none [] = .error .valueError ∧ ssb2dNew [] none [("rotor_frequency", .num 0)] = .error .valueError ∧
    ssb2dNew [] none [("rotor_frequency", .num (-5))] = .error .valueError := by
  decide +kernel

end MRS.Meth
