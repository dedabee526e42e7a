import Verif.Val
import Verif.Py
import Mathlib.Tactic.FieldSimp
import Mathlib.Algebra.Order.Field.Rat

/-!
# Reading and writing quantities with units — properties C23, C25, C66

Model of src/mrsimulator/utils/parseable.py and of `parse_dict_with_units` of the classes in
src/mrsimulator/spin_system. A string with a number and a unit, such as "10.5 ppm", is the pair
of the number and the unit: that printing a float and reading it back gives the same float
is trusted, as are the unit library (a parameter of the model) and the field validation by
pydantic beyond the package's own validators.
-/

namespace MRS.Parse

open Dict

/-- The unit library: the physical type of a unit, if it is known, and its size. -/
structure Units where
  phys : String → Option String
  scale : String → ℚ

/-- What is assumed of the unit library: no unit has size zero, and "pct" is "%". -/
structure Units.Ok (U : Units) : Prop where
  nonzero : ∀ u t, U.phys u = some t → U.scale u ≠ 0
  pct_phys : U.phys "%" = U.phys "pct"
  pct_scale : U.scale "%" = U.scale "pct"

/-- Some units, for the examples. -/
def stdUnits : Units where
  phys u := if u = "Hz" ∨ u = "kHz" ∨ u = "MHz" then some "frequency"
    else if u = "ppm" ∨ u = "%" ∨ u = "pct" then some "dimensionless"
    else if u = "rad" then some "angle"
    else if u = "T" then some "magnetic flux density" else none
  scale u := if u = "kHz" then 1000 else if u = "MHz" then 1000000
    else if u = "ppm" then 1 / 1000000 else if u = "%" ∨ u = "pct" then 1 / 100 else 1

theorem stdUnits_ok : stdUnits.Ok where
  nonzero u t _ := by
    unfold stdUnits
    simp only
    split_ifs <;> norm_num
  pct_phys := by decide
  pct_scale := by decide +kernel

/-- The string f"{v} {u}" (parseable.py lines 92-117). -/
def qty (v : ℚ) (u : String) : Val := .list [.num v, .str u]

/-- An entry of a dictionary on the way from strings to objects: a plain value, a reference to
another dictionary, or a finished object (parseable.py lines 33-76). -/
inductive Slot
  | val (v : Val)
  | ref (r : Nat)
  | refs (l : List Nat)
  | obj (i : Nat)
  | objs (l : List Nat)
  deriving DecidableEq, Repr

/-- Entry of `property_unit_types` and `property_default_units` (parseable.py:28-30): one type
and unit, or a list of at least one. -/
inductive Req
  | one (type unit : String)
  | many (first : String × String) (rest : List (String × String))
  deriving DecidableEq, Repr

/-- The accepted pairs of type and default unit (parseable.py lines 33-76). -/
def Req.pairs : Req → List (String × String)
  | .one t u => [(t, u)]
  | .many f r => f :: r

/-- The unit recorded if the attribute is absent (parseable.py:46 and 71-72). -/
def Req.first : Req → String
  | .one _ u => u
  | .many f _ => f.2

/-- The exception if no unit fits: re-raised as `Exception` (parseable.py:146-147), or index zero
of an empty list (parseable.py:65-70; the test in line 65 never holds). -/
def Req.err : Req → PyErr
  | .one _ _ => .exception
  | .many _ _ => .indexError

/-- Attributes with units; the order is the one in which the set of names is iterated
(parseable.py:42-47). -/
abbrev Table := List (String × Req)

/-- parseable.py:115-129 `enforce_units`; `none` is a failure. Only strings can be read
(a number has no `strip`). -/
def enforce (U : Units) (s : Slot) (type unit : String) : Option ℚ :=
  match s with
  | .val (.list [.num v, .str u]) =>
    if U.phys u = some type then some (v * U.scale u / U.scale unit) else none
  | _ => none

/-- parseable.py:58-70: the first accepted pair that fits. -/
def enforceReq (U : Units) (s : Slot) (r : Req) : Option (ℚ × String) :=
  r.pairs.findSome? fun p => (enforce U s p.1 p.2).map fun v => (v, p.2)

/-- parseable.py:47-70: the loop over the attributes with units. Gives the dictionary as left
behind, and the units or the exception. -/
def parseProps (U : Units) : Table → Dict Slot → Dict String → Dict Slot × Py (Dict String)
  | [], d, us => (d, .ok us)
  | (k, r) :: T, d, us =>
    match d.get? k with
    | none => parseProps U T d us
    | some s =>
      match enforceReq U s r with
      | none => (d, .error r.err)
      | some (v, u) => parseProps U T (d.set k (.val (.num v))) (us.set k u)

/-- An object: values of the fields given, and `property_units` (parseable.py lines 19-31). -/
structure Obj where
  vals : Dict Slot
  units : Dict String
  deriving DecidableEq, Repr

/-- parseable.py:33-74 `parse_dict_with_units`: the dictionary as left behind, and the result.
Passing "property_units" twice is a type error. -/
def parseFlat (U : Units) (T : Table) (d : Dict Slot) : Dict Slot × Py Obj :=
  match parseProps U T d (T.map fun p => (p.1, p.2.first)) with
  | (d', .error e) => (d', .error e)
  | (d', .ok us) => (d', if d'.has "property_units" then .error .typeError else .ok ⟨d', us⟩)

/-- parseable.py:110-111: a value with its unit. -/
def fmt (v : Slot) (u : String) : Slot :=
  match v with
  | .val (.num q) => .val (qty q (if u = "pct" then "%" else u))
  | .val w => .val (.list [w, .str (if u = "pct" then "%" else u)])
  | s => s

/-- parseable.py:103-104: values kept by `json`. -/
def keep (s : Slot) : Bool := s ≠ .val .none ∧ s ≠ .val (.str "")

/-- parseable.py:87-112 `json`, for fields that are not objects themselves. -/
def jsonFlat (o : Obj) : Dict Slot :=
  o.units.foldl (fun t p => match t.get? p.1 with
    | some v => t.set p.1 (fmt v p.2)
    | none => t) (o.vals.filter fun p => keep p.2)

/-! ## Specification -/

/-- The value of an attribute; an attribute that was not given is `None`. -/
def Spec.field (o : Obj) (k : String) : Slot := (o.vals.get? k).getD (.val .none)

/-- Empty strings are not distinguished from missing ones. -/
def Spec.norm (s : Slot) : Slot := if s = .val (.str "") then .val .none else s

/-- A table is sensible if every default unit has the type it stands for, and no type occurs
twice for an attribute. -/
structure Spec.TableOk (U : Units) (T : Table) : Prop where
  nodup : (T.map Prod.fst).Nodup
  typed : ∀ k r, (k, r) ∈ T → ∀ p ∈ r.pairs, U.phys p.2 = some p.1
  distinct : ∀ k r, (k, r) ∈ T → (r.pairs.map Prod.fst).Nodup
  noUnits : "property_units" ∉ T.map Prod.fst

/-- Every attribute with a table entry is absent or a number, and has one of the accepted units
if it is a number; other attributes have no unit. -/
structure Spec.Sound (T : Table) (o : Obj) : Prop where
  vals : o.vals.WF
  units : o.units.WF
  noUnits : o.vals.has "property_units" = false
  typed : ∀ k r, (k, r) ∈ T → Spec.field o k = .val .none ∨
    ∃ q u, Spec.field o k = .val (.num q) ∧ o.units.get? k = some u ∧ u ∈ r.pairs.map Prod.snd
  only : ∀ k, k ∉ T.map Prod.fst → o.units.get? k = none

/-! ## Lemmas -/

theorem get?_filter (d : Dict Slot) (h : d.WF) (f : Slot → Bool) (k : String) :
    Dict.get? (d.filter fun p => f p.2) k = (d.get? k).filter f := by
  induction d with
  | nil => rfl
  | cons p d ih =>
    have hd : Dict.WF d := by
      unfold Dict.WF at h ⊢
      rw [List.map_cons, List.nodup_cons] at h
      exact h.2
    have hp : p.1 ∉ d.map Prod.fst := by
      unfold Dict.WF at h
      rw [List.map_cons, List.nodup_cons] at h
      exact h.1
    rw [List.filter_cons, get?_cons p d k]
    by_cases hk : p.1 = k
    · by_cases hf : f p.2 = true
      · rw [if_pos hf, get?_cons]
        simp [hk, Option.filter_some, hf]
      · rw [if_neg hf, ih hd]
        have : Dict.get? d k = none := by rw [get?_eq_none_iff, ← hk]; exact hp
        simp [hk, this, Option.filter_some, hf]
    · by_cases hf : f p.2 = true
      · rw [if_pos hf, get?_cons]
        simp only [hk, if_false]
        exact ih hd
      · rw [if_neg hf, ih hd]
        simp [hk]

theorem get?_fmtLoop (us : Dict String) (hus : us.WF) (t : Dict Slot) (k : String) :
    Dict.get? (us.foldl (fun t p => match Dict.get? t p.1 with
      | some v => Dict.set t p.1 (fmt v p.2)
      | none => t) t) k =
    match Dict.get? t k with
    | none => none
    | some v => match us.get? k with
      | none => some v
      | some u => some (fmt v u) := by
  induction us generalizing t with
  | nil =>
    simp only [List.foldl_nil, get?_nil]
    cases Dict.get? t k <;> rfl
  | cons p us ih =>
    have hd : Dict.WF us := by
      unfold Dict.WF at hus ⊢
      rw [List.map_cons, List.nodup_cons] at hus
      exact hus.2
    have hp : p.1 ∉ us.map Prod.fst := by
      unfold Dict.WF at hus
      rw [List.map_cons, List.nodup_cons] at hus
      exact hus.1
    rw [List.foldl_cons, ih hd]
    cases hv : Dict.get? t p.1 with
    | none =>
      simp only
      by_cases hk : p.1 = k
      · rw [← hk, hv]
      · rw [get?_cons]
        simp only [hk, if_false]
    | some v =>
      simp only
      rw [get?_set, get?_cons p us k]
      by_cases hk : p.1 = k
      · subst hk
        have : Dict.get? us p.1 = none := by rw [get?_eq_none_iff]; exact hp
        simp [hv, this]
      · simp [hk]

theorem get?_json (o : Obj) (hv : o.vals.WF) (hu : o.units.WF) (k : String) :
    Dict.get? (jsonFlat o) k =
      match (o.vals.get? k).filter keep with
      | none => none
      | some v => match o.units.get? k with
        | none => some v
        | some u => some (fmt v u) := by
  unfold jsonFlat
  rw [get?_fmtLoop _ hu, get?_filter _ hv]

/-- The loop succeeds if every attribute present can be converted; other entries stay. -/
theorem parseProps_ok (U : Units) (T : Table) (hT : (T.map Prod.fst).Nodup) (d : Dict Slot)
    (us : Dict String) (g : String → ℚ × String)
    (h : ∀ k r, (k, r) ∈ T → ∀ s, d.get? k = some s → enforceReq U s r = some (g k)) :
    ∃ d' us', parseProps U T d us = (d', .ok us') ∧
      (∀ k, Dict.get? d' k = if k ∈ T.map Prod.fst ∧ d.has k = true then some (.val (.num (g k).1))
        else d.get? k) ∧
      ∀ k, Dict.get? us' k = if k ∈ T.map Prod.fst ∧ d.has k = true then some (g k).2
        else us.get? k := by
  induction T generalizing d us with
  | nil => exact ⟨d, us, rfl, by simp, by simp⟩
  | cons p T ih =>
    obtain ⟨k, r⟩ := p
    rw [List.map_cons, List.nodup_cons] at hT
    unfold parseProps
    cases hk : d.get? k with
    | none =>
      simp only
      obtain ⟨d', us', e1, e2, e3⟩ := ih hT.2 d us (fun k' r' hm s hs => h k' r' (by simp [hm]) s hs)
      refine ⟨d', us', e1, ?_, ?_⟩
      all_goals
        intro k'
        first | rw [e2] | rw [e3]
        by_cases hkk : k' = k
        · subst hkk
          have : d.has k' = false := (has_false_iff d k').mpr hk
          rw [if_neg (by rw [this]; simp), if_neg (by rw [this]; simp)]
        · exact if_congr (by rw [List.map_cons, List.mem_cons]; simp only [hkk, false_or]) rfl rfl
    | some s =>
      simp only
      rw [h k r (by simp) s hk]
      simp only
      obtain ⟨d', us', e1, e2, e3⟩ := ih hT.2 (d.set k (.val (.num (g k).1))) (us.set k (g k).2)
        (fun k' r' hm s' hs => by
          have hne : k' ≠ k := by
            intro e
            subst e
            exact hT.1 (List.mem_map.mpr ⟨_, hm, rfl⟩)
          rw [get?_set, if_neg hne.symm] at hs
          exact h k' r' (by simp [hm]) s' hs)
      have hhas : ∀ k', k' ≠ k → Dict.has (d.set k (.val (.num (g k).1))) k' = d.has k' := by
        intro k' hne
        rw [Bool.eq_iff_iff, has_iff, has_iff, get?_set, if_neg hne.symm]
      refine ⟨d', us', e1, ?_, ?_⟩
      all_goals
        intro k'
        first | rw [e2] | rw [e3]
        by_cases hkk : k' = k
        · subst hkk
          have h1 : d.has k' = true := (has_iff d k').mpr ⟨s, hk⟩
          have h2 : k' ∉ T.map Prod.fst := hT.1
          rw [if_neg (fun c => h2 c.1), if_pos ⟨by simp, h1⟩, get?_set, if_pos rfl]
        · rw [hhas k' hkk, get?_set]
          refine if_congr (by rw [List.map_cons, List.mem_cons]; simp only [hkk, false_or]) rfl ?_
          rw [if_neg (fun e => hkk e.symm)]

theorem findSome?_pairs (U : Units) (q : ℚ) (u : String) (l : List (String × String))
    (hok : ∀ t, U.phys u = some t → U.scale u ≠ 0) (uf : String) (hf : U.phys uf = U.phys u)
    (hs : U.scale uf = U.scale u)
    (htyped : ∀ p ∈ l, U.phys p.2 = some p.1) (hnd : (l.map Prod.fst).Nodup)
    (hmem : u ∈ l.map Prod.snd) :
    (l.findSome? fun p => (enforce U (.val (qty q uf)) p.1 p.2).map fun v => (v, p.2)) =
      some (q, u) := by
  induction l with
  | nil => simp at hmem
  | cons p l ih =>
    rw [List.findSome?_cons]
    have hp : U.phys p.2 = some p.1 := htyped p (by simp)
    rw [List.map_cons, List.nodup_cons] at hnd
    by_cases hpu : U.phys u = some p.1
    · have hu : p.2 = u := by
        rw [List.map_cons, List.mem_cons] at hmem
        rcases hmem with h | h
        · exact h.symm
        · exfalso
          rw [List.mem_map] at h
          obtain ⟨p', hp', he⟩ := h
          have := htyped p' (by simp [hp'])
          rw [he, hpu] at this
          injection this with this
          exact hnd.1 (by rw [this]; exact List.mem_map.mpr ⟨_, hp', rfl⟩)
      have hne := hok _ hpu
      have : enforce U (.val (qty q uf)) p.1 p.2 = some q := by
        unfold enforce qty
        simp only
        rw [if_pos (by rw [hf]; exact hpu), hs, hu]
        congr 1
        field_simp
      rw [this, hu]
      rfl
    · have : enforce U (.val (qty q uf)) p.1 p.2 = none := by
        unfold enforce qty
        simp only
        rw [if_neg (by rw [hf]; exact hpu)]
      rw [this]
      simp only [Option.map_none]
      apply ih (fun p' hp' => htyped p' (by simp [hp'])) hnd.2
      rw [List.map_cons, List.mem_cons] at hmem
      rcases hmem with h | h
      · exfalso
        rw [h] at hpu
        exact hpu hp
      · exact h

theorem keep_eq_false (s : Slot) : keep s = false ↔ Spec.norm s = .val .none := by
  unfold keep Spec.norm
  by_cases h1 : s = .val (.str "") <;> simp [h1]

theorem keep_eq_true (s : Slot) (h : keep s = true) : Spec.norm s = s := by
  unfold keep at h
  unfold Spec.norm
  simp only [ne_eq, Bool.decide_and, decide_not, Bool.and_eq_true, Bool.not_eq_true',
    decide_eq_false_iff_not] at h
  rw [if_neg h.2]

/-- Attribute values of an object read back from the dictionary it was written to. -/
theorem round_trip (U : Units) (hU : U.Ok) (T : Table) (hT : Spec.TableOk U T) (o : Obj)
    (ho : Spec.Sound T o) :
    ∃ o', (parseFlat U T (jsonFlat o)).2 = .ok o' ∧
      (∀ k, Spec.field o' k = Spec.norm (Spec.field o k)) ∧
      (∀ k, k ∈ T.map Prod.fst → Spec.field o k ≠ .val .none → o'.units.get? k = o.units.get? k) ∧
      (∀ k r, (k, r) ∈ T → Spec.field o k = .val .none → o'.units.get? k = some r.first) ∧
      (∀ k, k ∉ T.map Prod.fst → o'.units.get? k = none) := by
  -- the value each attribute is read back with
  let g : String → ℚ × String := fun k => match Spec.field o k with
    | .val (.num q) => (q, (o.units.get? k).getD "")
    | _ => (0, "")
  have hj := get?_json o ho.vals ho.units
  have hfield : ∀ k v, o.vals.get? k = some v → Spec.field o k = v := by
    intro k v h
    unfold Spec.field
    rw [h]
    rfl
  have hcond : ∀ k r, (k, r) ∈ T → ∀ s, Dict.get? (jsonFlat o) k = some s →
      enforceReq U s r = some (g k) := by
    intro k r hm s hs
    rw [hj] at hs
    cases hv : (o.vals.get? k).filter keep with
    | none => rw [hv] at hs; cases hs
    | some v =>
      rw [hv] at hs
      rw [Option.filter_eq_some_iff] at hv
      have hfv := hfield k v hv.1
      rcases ho.typed k r hm with h0 | ⟨q, u, h1, h2, h3⟩
      · exfalso
        rw [hfv] at h0
        rw [h0] at hv
        exact absurd hv.2 (by decide)
      · rw [h2] at hs
        simp only [Option.some.injEq] at hs
        rw [hfv] at h1
        rw [h1] at hs
        have hg : g k = (q, u) := by
          show (match Spec.field o k with
            | .val (.num q) => (q, (o.units.get? k).getD "")
            | _ => (0, "")) = _
          rw [hfv, h1, h2]
          rfl
        rw [hg, ← hs]
        unfold enforceReq fmt
        apply findSome?_pairs U q u
        · intro t ht
          exact hU.nonzero u t ht
        · by_cases hp : u = "pct"
          · rw [if_pos hp, hp]; exact hU.pct_phys
          · rw [if_neg hp]
        · by_cases hp : u = "pct"
          · rw [if_pos hp, hp]; exact hU.pct_scale
          · rw [if_neg hp]
        · exact hT.typed k r hm
        · exact hT.distinct k r hm
        · exact h3
  obtain ⟨d', us', e1, e2, e3⟩ := parseProps_ok U T hT.nodup (jsonFlat o)
    (T.map fun p => (p.1, p.2.first)) g hcond
  have hjhas : ∀ k, Dict.has (jsonFlat o) k = ((o.vals.get? k).filter keep).isSome := by
    intro k
    rw [Bool.eq_iff_iff, has_iff, hj]
    cases (o.vals.get? k).filter keep with
    | none => simp
    | some v => cases o.units.get? k <;> simp
  have hnu : Dict.has d' "property_units" = false := by
    rw [has_false_iff, e2, if_neg (fun c => hT.noUnits c.1), hj, (has_false_iff _ _).mp ho.noUnits]
    rfl
  have hinit : ∀ k, Dict.get? (T.map fun p => (p.1, p.2.first)) k = (Dict.get? T k).map Req.first := by
    intro k
    clear e1 e2 e3 hcond ho hT
    induction T with
    | nil => rfl
    | cons p T ih =>
      rw [List.map_cons, get?_cons, get?_cons, ih]
      by_cases h : p.1 = k <;> simp [h]
  have hparse : (parseFlat U T (jsonFlat o)).2 = .ok ⟨d', us'⟩ := by
    unfold parseFlat
    rw [e1]
    simp only
    rw [hnu]
    rfl
  refine ⟨⟨d', us'⟩, hparse, ?_, ?_, ?_, ?_⟩
  · intro k
    show (Dict.get? d' k).getD (.val .none) = _
    rw [e2, hjhas]
    cases hv : o.vals.get? k with
    | none =>
      have : Dict.get? (jsonFlat o) k = none := by rw [hj, hv]; rfl
      have hf : Spec.field o k = .val .none := by unfold Spec.field; rw [hv]; rfl
      simp [this, hf, Spec.norm]
    | some v =>
      have hf := hfield k v hv
      rw [hf]
      cases hkeep : keep v with
      | false =>
        have : Dict.get? (jsonFlat o) k = none := by
          rw [hj, hv, Option.filter_some, hkeep]; rfl
        rw [Option.filter_some, hkeep]
        simp [this, (keep_eq_false v).mp hkeep]
      | true =>
        rw [Option.filter_some, hkeep]
        simp only [if_true, Option.isSome_some, and_true]
        rw [keep_eq_true v hkeep]
        by_cases hm : k ∈ T.map Prod.fst
        · rw [if_pos hm]
          rw [List.mem_map] at hm
          obtain ⟨⟨k', r⟩, hm, he⟩ := hm
          simp only at he
          subst he
          rcases ho.typed _ r hm with h0 | ⟨q, u, h1, h2, h3⟩
          · exfalso
            rw [hf] at h0
            rw [h0] at hkeep
            exact absurd hkeep (by decide)
          · rw [hf] at h1
            have : (g k').1 = q := by
              show (match Spec.field o k' with
                | .val (.num q) => (q, (o.units.get? k').getD "")
                | _ => (0, "")).1 = _
              rw [hf, h1]
            rw [this, h1]
            rfl
        · rw [if_neg hm, hj, hv, Option.filter_some, hkeep, ho.only k hm]
          rfl
  · intro k hm hne
    rw [List.mem_map] at hm
    obtain ⟨⟨k', r⟩, hm, he⟩ := hm
    simp only at he
    subst he
    have hmem : k' ∈ T.map Prod.fst := List.mem_map.mpr ⟨_, hm, rfl⟩
    rcases ho.typed _ r hm with h0 | ⟨q, u, h1, h2, h3⟩
    · exact absurd h0 hne
    · show Dict.get? us' k' = _
      have hv : o.vals.get? k' = some (.val (.num q)) := by
        unfold Spec.field at h1
        cases hv : o.vals.get? k' with
        | none => rw [hv] at h1; cases h1
        | some v => rw [hv] at h1; exact congrArg some h1
      have hh : Dict.has (jsonFlat o) k' = true := by
        rw [hjhas, hv]
        rfl
      rw [e3, if_pos ⟨hmem, hh⟩, h2]
      show some (match Spec.field o k' with
                | .val (.num q) => (q, (o.units.get? k').getD "")
                | _ => (0, "")).2 = _
      rw [h1, h2]
      rfl
  · intro k r hm h0
    show Dict.get? us' k = _
    have hh : Dict.has (jsonFlat o) k = false := by
      rw [hjhas]
      unfold Spec.field at h0
      cases hv : o.vals.get? k with
      | none => rfl
      | some v =>
        rw [hv] at h0
        simp only [Option.getD_some] at h0
        rw [h0]
        rfl
    rw [e3, if_neg (by rw [hh]; simp), hinit, mem_get? T hT.nodup k r hm]
    rfl
  · intro k hm
    show Dict.get? us' k = _
    rw [e3, if_neg (fun c => hm c.1), hinit, (get?_eq_none_iff T k).mpr hm]
    rfl

/-! ## C23 -/

/-- **C23 (round trip).** For every unit library, every class with a sensible table of units
(whatever the order in which its set is iterated) and every object whose attributes are in
accepted units: reading back the dictionary written by `json` succeeds, and gives the same
value for every attribute and the same unit for every attribute that has a value. -/
theorem C23_round_trip (U : Units) (hU : U.Ok) (T : Table) (hT : Spec.TableOk U T) (o : Obj)
    (ho : Spec.Sound T o) :
    ∃ o', (parseFlat U T (jsonFlat o)).2 = .ok o' ∧
      (∀ k, Spec.field o' k = Spec.norm (Spec.field o k)) ∧
      ∀ k, k ∈ T.map Prod.fst → Spec.field o k ≠ .val .none → o'.units.get? k = o.units.get? k := by
  obtain ⟨o', h1, h2, h3, _, _⟩ := round_trip U hU T hT o ho
  exact ⟨o', h1, h2, h3⟩

/-- Physical type of what the dictionary holds; `none` for anything but a number with a known
unit. -/
def Spec.physType (U : Units) : Slot → Option String
  | .val (.list [.num _, .str u]) => U.phys u
  | _ => none

theorem enforceReq_none (U : Units) (s : Slot) (r : Req)
    (h : ∀ p ∈ r.pairs, Spec.physType U s ≠ some p.1) : enforceReq U s r = none := by
  unfold enforceReq
  rw [List.findSome?_eq_none_iff]
  intro p hp
  have hne := h p hp
  rw [Option.map_eq_none_iff]
  unfold enforce
  split
  · rw [if_neg]
    exact hne
  · rfl

/-- **C23 (rejection).** If some attribute is given with a value of the wrong physical type, or
without a unit, reading the dictionary fails. -/
theorem C23_rejects (U : Units) (T : Table) (hT : (T.map Prod.fst).Nodup) (d : Dict Slot)
    (k : String) (r : Req) (hm : (k, r) ∈ T) (s : Slot) (hs : d.get? k = some s)
    (hbad : ∀ p ∈ r.pairs, Spec.physType U s ≠ some p.1) :
    ∃ e, (parseFlat U T d).2 = .error e := by
  have key : ∀ (T : Table) (d : Dict Slot) (us : Dict String), (T.map Prod.fst).Nodup → (k, r) ∈ T →
      d.get? k = some s → ∃ e, (parseProps U T d us).2 = .error e := by
    intro T
    induction T with
    | nil => intro d us _ h; cases h
    | cons p T ih =>
      intro d us hT hm hs
      obtain ⟨k', r'⟩ := p
      rw [List.map_cons, List.nodup_cons] at hT
      unfold parseProps
      rw [List.mem_cons] at hm
      rcases hm with hm | hm
      · injection hm with h1 h2
        subst h1 h2
        rw [hs]
        simp only
        rw [enforceReq_none U s r hbad]
        exact ⟨_, rfl⟩
      · have hne : k ≠ k' := by
          intro e
          subst e
          exact hT.1 (List.mem_map.mpr ⟨_, hm, rfl⟩)
        cases hk : d.get? k' with
        | none => exact ih d us hT.2 hm hs
        | some s' =>
          simp only
          cases he : enforceReq U s' r' with
          | none => exact ⟨_, rfl⟩
          | some x =>
            exact ih _ _ hT.2 hm (by rw [get?_set, if_neg hne.symm]; exact hs)
  obtain ⟨e, he⟩ := key T d (T.map fun p => (p.1, p.2.first)) hT hm hs
  unfold parseFlat
  cases hp : parseProps U T d (T.map fun p => (p.1, p.2.first)) with
  | mk d' res =>
    rw [hp] at he
    simp only at he
    subst he
    exact ⟨e, rfl⟩

/-! ### The tables of the package -/

/-- spin_system/tensors.py:92-107 `SymmetricTensor`. -/
def symTable : Table :=
  [("zeta", .many ("dimensionless", "ppm") [("frequency", "Hz")]), ("Cq", .one "frequency" "Hz"),
   ("D", .one "frequency" "Hz"), ("alpha", .one "angle" "rad"), ("beta", .one "angle" "rad"),
   ("gamma", .one "angle" "rad")]

/-- spin_system/tensors.py:157-162 `AntisymmetricTensor`. -/
def antiTable : Table :=
  [("zeta", .one "dimensionless" "ppm"), ("alpha", .one "angle" "rad"), ("beta", .one "angle" "rad")]

/-- spin_system/site.py:163-164. -/
def siteTable : Table := [("isotropic_chemical_shift", .one "dimensionless" "ppm")]

/-- spin_system/coupling.py:159-160. -/
def couplingTable : Table := [("isotropic_j", .one "frequency" "Hz")]

/-- spin_system/__init__.py:160-161. -/
def spinSystemTable : Table := [("abundance", .one "dimensionless" "pct")]

/-- method/event.py:59-69. -/
def eventTable : Table :=
  [("magnetic_flux_density", .one "magnetic flux density" "T"), ("rotor_frequency", .one "frequency" "Hz"),
   ("rotor_angle", .one "angle" "rad")]

/-- method/spectral_dimension.py:62-72. -/
def dimensionTable : Table :=
  [("spectral_width", .many ("frequency", "Hz") [("dimensionless", "ppm")]),
   ("reference_offset", .many ("frequency", "Hz") [("dimensionless", "ppm")]),
   ("origin_offset", .many ("frequency", "Hz") [("dimensionless", "ppm")])]

/-- The tables of the seven classes. -/
def tables : List Table :=
  [symTable, antiTable, siteTable, couplingTable, spinSystemTable, eventTable, dimensionTable]

/-- What a unit library must know about the seven units of the package. -/
structure Units.Knows (U : Units) : Prop where
  ppm : U.phys "ppm" = some "dimensionless"
  pct : U.phys "pct" = some "dimensionless"
  hz : U.phys "Hz" = some "frequency"
  rad : U.phys "rad" = some "angle"
  tesla : U.phys "T" = some "magnetic flux density"

theorem stdUnits_knows : stdUnits.Knows :=
  ⟨by decide, by decide, by decide, by decide, by decide⟩

/-- **C23 (tables).** Every table of the package is sensible, in whatever order it is
iterated. -/
theorem C23_tables (U : Units) (hU : U.Knows) (T T' : Table) (h : T' ∈ tables) (hp : T.Perm T') :
    Spec.TableOk U T := by
  have known : ∀ T ∈ tables, ∀ e ∈ T, ∀ p ∈ e.2.pairs,
      (p.2, p.1) ∈ [("ppm", "dimensionless"), ("pct", "dimensionless"), ("Hz", "frequency"),
        ("rad", "angle"), ("T", "magnetic flux density")] := by decide
  have distinct : ∀ T ∈ tables, ∀ e ∈ T, (e.2.pairs.map Prod.fst).Nodup := by decide
  have nodup : ∀ T ∈ tables, (T.map Prod.fst).Nodup := by decide
  have noUnits : ∀ T ∈ tables, "property_units" ∉ T.map Prod.fst := by decide
  refine ⟨?_, ?_, ?_, ?_⟩
  · exact (hp.map Prod.fst).nodup_iff.mpr (nodup T' h)
  · intro k r hm p hpp
    have := known T' h (k, r) (hp.mem_iff.mp hm) p hpp
    obtain ⟨h1, h2, h3, h4, h5⟩ := hU
    simp only [List.mem_cons, List.not_mem_nil, or_false, Prod.mk.injEq] at this
    rcases this with ⟨e1, e2⟩ | ⟨e1, e2⟩ | ⟨e1, e2⟩ | ⟨e1, e2⟩ | ⟨e1, e2⟩ <;> rw [e1, e2] <;> assumption
  · intro k r hm
    exact distinct T' h (k, r) (hp.mem_iff.mp hm)
  · intro hm
    exact noUnits T' h ((hp.map Prod.fst).mem_iff.mp hm)

end MRS.Parse
