import Verif.Parse.Nested

/-!
# What reading a dictionary does to the caller's dictionaries — property C24

The caller's dictionaries live in a heap, so that a dictionary can be used in two places and
changes are visible to the caller. Model of the functions `parse_dict_with_units` of
src/mrsimulator/utils/parseable.py, src/mrsimulator/spin_system/site.py, coupling.py and
src/mrsimulator/spin_system/__init__.py, with `deepcopy`.
-/

namespace MRS.Parse

open Dict

/-- Dictionaries and finished objects; a reference is a position. -/
structure World where
  dicts : List (Dict Slot)
  objs : List Obj
  deriving DecidableEq, Repr

/-- The dictionary behind a reference. -/
def World.dict (w : World) (r : Nat) : Dict Slot := w.dicts.getD r []

/-- parseable.py:33-74 on the dictionary `r`: changes it in place. -/
def parseFlatW (U : Units) (T : Table) (w : World) (r : Nat) : World × Py Nat :=
  match parseFlat U T (w.dict r) with
  | (d, .error e) => (⟨w.dicts.set r d, w.objs⟩, .error e)
  | (d, .ok o) => (⟨w.dicts.set r d, w.objs ++ [o]⟩, .ok w.objs.length)

/-- site.py:225-227, coupling.py:221-228: the loop over the tensors. A value that is not a
dictionary (in particular, an object) cannot be expanded into keyword arguments. -/
def parseSubsW (U : Units) : List NField → World → Nat → World × Py Unit
  | [], w, _ => (w, .ok ())
  | f :: fs, w, r =>
    match (w.dict r).get? f.key with
    | none => parseSubsW U fs w r
    | some (.ref t) =>
      match parseFlatW U f.table w t with
      | (w, .error e) => (w, .error e)
      | (w, .ok i) =>
        let w : World := ⟨w.dicts.set r ((w.dict r).set f.key (.obj i)), w.objs⟩
        if f.freqOnly = true ∧ ((w.objs.getD i ⟨[], []⟩).units.get? "zeta") = some "ppm" then
          (w, .error .valueError)
        else parseSubsW U fs w r
    | some _ => (w, .error .typeError)

/-- site.py:200-229, coupling.py:195-229. -/
def parseNW (U : Units) (fs : List NField) (T : Table) (w : World) (r : Nat) : World × Py Nat :=
  match parseSubsW U fs w r with
  | (w, .error e) => (w, .error e)
  | (w, .ok _) => parseFlatW U T w r

/-- `[cls.parse_dict_with_units(s) for s in l]` (spin_system/__init__.py lines 319-357). -/
def parseListW (U : Units) (fs : List NField) (T : Table) : World → List Nat → World × Py (List Nat)
  | w, [] => (w, .ok [])
  | w, r :: rs =>
    match parseNW U fs T w r with
    | (w, .error e) => (w, .error e)
    | (w, .ok i) =>
      match parseListW U fs T w rs with
      | (w, .error e) => (w, .error e)
      | (w, .ok is) => (w, .ok (i :: is))

/-- Shift the references of an entry. -/
def shiftSlot (n : Nat) : Slot → Slot
  | .ref r => .ref (r + n)
  | .refs l => .refs (l.map (· + n))
  | s => s

/-- `deepcopy`: the library copies each dictionary once, so that a dictionary used twice is used
twice in the copy as well. Here the whole heap is copied; the copies that the library would
not make cannot be reached (parseable.py lines 33-76). -/
def deepcopy (w : World) : World :=
  ⟨w.dicts ++ w.dicts.map fun d => d.map fun p => (p.1, shiftSlot w.dicts.length p.2), w.objs⟩

/-- spin_system/__init__.py:345-348 and 350-353: a list of dictionaries is replaced by objects. -/
def parseFieldW (U : Units) (key : String) (fs : List NField) (T : Table) (w : World) (r : Nat) :
    World × Py Unit :=
  match (w.dict r).get? key with
  | none => (w, .ok ())
  | some (.refs l) =>
    match parseListW U fs T w l with
    | (w, .error e) => (w, .error e)
    | (w, .ok is) => (⟨w.dicts.set r ((w.dict r).set key (.objs is)), w.objs⟩, .ok ())
  | some _ => (w, .error .typeError)

/-- spin_system/__init__.py:318-357 `SpinSystem.parse_dict_with_units`. -/
def parseSpinSystemW (U : Units) (w0 : World) (r0 : Nat) : World × Py Nat :=
  let w := deepcopy w0
  let r := r0 + w0.dicts.length
  match parseFieldW U "sites" siteFields siteTable w r with
  | (w, .error e) => (w, .error e)
  | (w, .ok _) =>
    match parseFieldW U "couplings" couplingFields couplingTable w r with
    | (w, .error e) => (w, .error e)
    | (w, .ok _) => parseFlatW U spinSystemTable w r

/-! ## Lemmas -/

/-- The caller's dictionaries are as before, and the others refer only to one another. -/
structure Inv (w0 w : World) : Prop where
  size : w0.dicts.length ≤ w.dicts.length
  same : ∀ i, i < w0.dicts.length → w.dict i = w0.dict i
  closed : ∀ i, w0.dicts.length ≤ i → ∀ k s, (w.dict i).get? k = some s →
    (∀ t, s = .ref t → w0.dicts.length ≤ t) ∧ ∀ l, s = .refs l → ∀ t ∈ l, w0.dicts.length ≤ t

theorem dict_set (w : World) (r : Nat) (d : Dict Slot) (os : List Obj) (i : Nat) :
    World.dict ⟨w.dicts.set r d, os⟩ i = if r = i ∧ i < w.dicts.length then d else w.dict i := by
  unfold World.dict
  simp only [List.getD_eq_getElem?_getD]
  rw [List.getElem?_set]
  by_cases h1 : r = i
  · subst h1
    by_cases h2 : r < w.dicts.length
    · simp [h2]
    · simp [h2]
  · simp [h1]

theorem Inv.set {w0 w : World} (h : Inv w0 w) (r : Nat) (hr : w0.dicts.length ≤ r) (d : Dict Slot)
    (os : List Obj)
    (hd : ∀ k s, d.get? k = some s → (w.dict r).get? k = some s ∨ (∃ v, s = .val v) ∨
      (∃ i, s = .obj i) ∨ ∃ l, s = .objs l) :
    Inv w0 ⟨w.dicts.set r d, os⟩ := by
  refine ⟨by simpa using h.size, ?_, ?_⟩
  · intro i hi
    rw [dict_set, if_neg (by omega)]
    exact h.same i hi
  · intro i hi k s hs
    rw [dict_set] at hs
    split_ifs at hs with hc
    · rcases hd k s hs with h1 | ⟨v, h1⟩ | ⟨v, h1⟩ | ⟨v, h1⟩
      · exact h.closed r hr k s h1
      all_goals
        rw [h1]
        exact ⟨fun t e => (by cases e), fun l e => (by cases e)⟩
    · exact h.closed i hi k s hs

theorem parseProps_slots (U : Units) (T : Table) (d : Dict Slot) (us : Dict String) (k : String)
    (s : Slot) (h : Dict.get? (parseProps U T d us).1 k = some s) :
    d.get? k = some s ∨ ∃ v, s = .val v := by
  induction T generalizing d us with
  | nil => exact Or.inl h
  | cons p T ih =>
    obtain ⟨k', r⟩ := p
    unfold parseProps at h
    cases hk : d.get? k' with
    | none =>
      rw [hk] at h
      exact ih d us h
    | some s' =>
      rw [hk] at h
      simp only at h
      cases he : enforceReq U s' r with
      | none =>
        rw [he] at h
        exact Or.inl h
      | some x =>
        rw [he] at h
        simp only at h
        rcases ih _ _ h with h1 | h1
        · rw [get?_set] at h1
          by_cases hkk : k' = k
          · rw [if_pos hkk] at h1
            injection h1 with h1
            exact Or.inr ⟨_, h1.symm⟩
          · rw [if_neg hkk] at h1
            exact Or.inl h1
        · exact Or.inr h1

theorem parseFlat_fst (U : Units) (T : Table) (d : Dict Slot) :
    (parseFlat U T d).1 = (parseProps U T d (T.map fun p => (p.1, p.2.first))).1 := by
  unfold parseFlat
  cases parseProps U T d (T.map fun p => (p.1, p.2.first)) with
  | mk d' res => cases res <;> rfl

theorem Inv.parseFlatW {w0 w : World} (h : Inv w0 w) (U : Units) (T : Table) (r : Nat)
    (hr : w0.dicts.length ≤ r) : Inv w0 (parseFlatW U T w r).1 := by
  have hd : ∀ k s, Dict.get? (parseFlat U T (w.dict r)).1 k = some s →
      (w.dict r).get? k = some s ∨ (∃ v, s = .val v) ∨ (∃ i, s = .obj i) ∨ ∃ l, s = .objs l := by
    intro k s hs
    rw [parseFlat_fst] at hs
    rcases parseProps_slots U T _ _ k s hs with h1 | h1
    · exact Or.inl h1
    · exact Or.inr (Or.inl h1)
  unfold Parse.parseFlatW
  cases hp : parseFlat U T (w.dict r) with
  | mk d res =>
    rw [hp] at hd
    cases res with
    | error e => exact h.set r hr d _ hd
    | ok o => exact h.set r hr d _ hd

theorem Inv.setSlot {w0 w : World} (h : Inv w0 w) (r : Nat) (hr : w0.dicts.length ≤ r) (key : String)
    (s0 : Slot) (hs0 : (∃ i, s0 = .obj i) ∨ ∃ l, s0 = .objs l) (os : List Obj) :
    Inv w0 ⟨w.dicts.set r ((w.dict r).set key s0), os⟩ := by
  refine h.set r hr _ _ ?_
  intro k s hs
  rw [get?_set] at hs
  split_ifs at hs with hc
  · injection hs with hs
    rw [← hs]
    exact Or.inr (Or.inr hs0)
  · exact Or.inl hs

theorem Inv.parseSubsW {w0 : World} (U : Units) (fs : List NField) (w : World) (h : Inv w0 w) (r : Nat)
    (hr : w0.dicts.length ≤ r) : Inv w0 (parseSubsW U fs w r).1 := by
  induction fs generalizing w with
  | nil => exact h
  | cons f fs ih =>
    unfold Parse.parseSubsW
    cases hk : (w.dict r).get? f.key with
    | none => exact ih w h
    | some s =>
      cases s with
      | ref t =>
        simp only
        have ht : w0.dicts.length ≤ t := (h.closed r hr f.key _ hk).1 t rfl
        have h1 := h.parseFlatW U f.table t ht
        cases hp : Parse.parseFlatW U f.table w t with
        | mk w1 res =>
          rw [hp] at h1
          cases res with
          | error e => exact h1
          | ok i =>
            simp only
            have h2 := h1.setSlot r hr f.key (.obj i) (Or.inl ⟨i, rfl⟩) w1.objs
            split_ifs
            · exact h2
            · exact ih _ h2
      | _ => exact h

theorem Inv.parseNW {w0 w : World} (h : Inv w0 w) (U : Units) (fs : List NField) (T : Table) (r : Nat)
    (hr : w0.dicts.length ≤ r) : Inv w0 (parseNW U fs T w r).1 := by
  have h1 := Inv.parseSubsW U fs w h r hr
  unfold Parse.parseNW
  cases hp : Parse.parseSubsW U fs w r with
  | mk w1 res =>
    rw [hp] at h1
    cases res with
    | error e => exact h1
    | ok _ => exact h1.parseFlatW U T r hr

theorem Inv.parseListW {w0 : World} (U : Units) (fs : List NField) (T : Table) (l : List Nat) (w : World)
    (h : Inv w0 w) (hl : ∀ t ∈ l, w0.dicts.length ≤ t) : Inv w0 (parseListW U fs T w l).1 := by
  induction l generalizing w with
  | nil => exact h
  | cons r rs ih =>
    have h1 := h.parseNW U fs T r (hl r (by simp))
    unfold Parse.parseListW
    cases hp : Parse.parseNW U fs T w r with
    | mk w1 res =>
      rw [hp] at h1
      cases res with
      | error e => exact h1
      | ok i =>
        simp only
        have h2 := ih w1 h1 (fun t ht => hl t (by simp [ht]))
        cases hq : Parse.parseListW U fs T w1 rs with
        | mk w2 res2 =>
          rw [hq] at h2
          cases res2 <;> exact h2

theorem Inv.parseFieldW {w0 w : World} (h : Inv w0 w) (U : Units) (key : String) (fs : List NField)
    (T : Table) (r : Nat) (hr : w0.dicts.length ≤ r) : Inv w0 (parseFieldW U key fs T w r).1 := by
  unfold Parse.parseFieldW
  cases hk : (w.dict r).get? key with
  | none => exact h
  | some s =>
    cases s with
    | refs l =>
      simp only
      have h1 := Inv.parseListW U fs T l w h ((h.closed r hr key _ hk).2 l rfl)
      cases hp : Parse.parseListW U fs T w l with
      | mk w1 res =>
        rw [hp] at h1
        cases res with
        | error e => exact h1
        | ok is => exact h1.setSlot r hr key (.objs is) (Or.inr ⟨is, rfl⟩) _
    | _ => exact h

theorem Inv.deepcopy (w : World) : Inv w (deepcopy w) := by
  have hlen : (Parse.deepcopy w).dicts.length = w.dicts.length + w.dicts.length := by
    simp [Parse.deepcopy]
  refine ⟨by rw [hlen]; omega, ?_, ?_⟩
  · intro i hi
    unfold World.dict Parse.deepcopy
    simp only [List.getD_eq_getElem?_getD]
    rw [List.getElem?_append_left hi]
  · intro i hi k s hs
    have hd : (Parse.deepcopy w).dict i =
        (w.dict (i - w.dicts.length)).map fun p => (p.1, shiftSlot w.dicts.length p.2) := by
      unfold World.dict Parse.deepcopy
      simp only [List.getD_eq_getElem?_getD]
      rw [List.getElem?_append_right hi, List.getElem?_map]
      cases w.dicts[i - w.dicts.length]? <;> rfl
    rw [hd] at hs
    have hmem := get?_mem _ k s hs
    rw [List.mem_map] at hmem
    obtain ⟨p, _, hp⟩ := hmem
    injection hp with _ hp
    subst hp
    cases p.2 with
    | ref t =>
      refine ⟨?_, fun l e => (by cases e)⟩
      intro t' e
      injection e with e
      omega
    | refs l =>
      refine ⟨fun t e => (by cases e), ?_⟩
      intro l' e t ht
      injection e with e
      rw [← e, List.mem_map] at ht
      obtain ⟨a, _, ha⟩ := ht
      omega
    | _ => exact ⟨fun t e => (by cases e), fun l e => (by cases e)⟩

/-! ## C24 -/

/-- **C24 (spin systems).** Reading a spin system, successfully or not, leaves every dictionary
that existed before unchanged: whatever the heap, whichever dictionaries are shared, and
whatever they contain. -/
theorem C24_spin_system (U : Units) (w : World) (r : Nat) (i : Nat) (hi : i < w.dicts.length) :
    (parseSpinSystemW U w r).1.dict i = w.dict i := by
  have hr : w.dicts.length ≤ r + w.dicts.length := by omega
  have h0 := Inv.deepcopy w
  have h1 := h0.parseFieldW U "sites" siteFields siteTable (r + w.dicts.length) hr
  unfold parseSpinSystemW
  simp only
  cases hp : parseFieldW U "sites" siteFields siteTable (deepcopy w) (r + w.dicts.length) with
  | mk w1 res =>
    rw [hp] at h1
    cases res with
    | error e => exact h1.same i hi
    | ok _ =>
      simp only
      have h2 := h1.parseFieldW U "couplings" couplingFields couplingTable (r + w.dicts.length) hr
      cases hq : parseFieldW U "couplings" couplingFields couplingTable w1 (r + w.dicts.length) with
      | mk w2 res2 =>
        rw [hq] at h2
        cases res2 with
        | error e => exact h2.same i hi
        | ok _ => exact (h2.parseFlatW U spinSystemTable _ hr).same i hi

/-- A spin system with one site that has a shielding tensor. -/
def exampleWorld : World :=
  ⟨[[("sites", .refs [1]), ("abundance", .val (qty 50 "%"))],
    [("isotope", .val (.str "29Si")), ("isotropic_chemical_shift", .val (qty 20 "ppm")),
     ("shielding_symmetric", .ref 2)],
    [("zeta", .val (qty 10 "ppm"))]], []⟩

example : (parseSpinSystemW stdUnits exampleWorld 0).2 = .ok 2 ∧
    (parseSpinSystemW stdUnits exampleWorld 0).1.dicts.take 3 = exampleWorld.dicts := by decide +kernel

/-- **C24, partial (sites and couplings).** Reading a site or coupling changes at most the
dictionary itself and those of its tensors, where entries with units and tensors are
replaced. Missing: they should not change at all, see `C24_counterexample`. -/
theorem C24_site_partial (U : Units) (fs : List NField) (T : Table) (w : World) (r : Nat) (i : Nat)
    (hir : i ≠ r) (hsub : ∀ f ∈ fs, (w.dict r).get? f.key ≠ some (.ref i)) :
    (parseNW U fs T w r).1.dict i = w.dict i := by
  have flat : ∀ (T : Table) (w : World) (t : Nat), i ≠ t → (parseFlatW U T w t).1.dict i = w.dict i := by
    intro T w t ht
    unfold parseFlatW
    cases hp : parseFlat U T (w.dict t) with
    | mk d res =>
      cases res <;> (simp only; rw [dict_set, if_neg (fun c => ht c.1.symm)])
  have slots : ∀ (T : Table) (w : World) (t : Nat) (k : String) (j : Nat),
      ((parseFlatW U T w t).1.dict r).get? k = some (.ref j) → (w.dict r).get? k = some (.ref j) := by
    intro T w t k j hs
    have h1 := parseProps_slots U T (w.dict t) (T.map fun p => (p.1, p.2.first)) k (.ref j)
    rw [← parseFlat_fst] at h1
    unfold parseFlatW at hs
    cases hp : parseFlat U T (w.dict t) with
    | mk d res =>
      rw [hp] at hs h1
      simp only at h1
      cases res <;>
      · simp only at hs
        rw [dict_set] at hs
        split_ifs at hs with hc
        · rcases h1 hs with h2 | ⟨v, h2⟩
          · rw [← hc.1]
            exact h2
          · cases h2
        · exact hs
  have subs : ∀ (fs : List NField) (w : World), (∀ f ∈ fs, (w.dict r).get? f.key ≠ some (.ref i)) →
      (parseSubsW U fs w r).1.dict i = w.dict i := by
    intro fs
    induction fs with
    | nil => intro w _; rfl
    | cons f fs ih =>
      intro w hsub
      unfold parseSubsW
      cases hk : (w.dict r).get? f.key with
      | none => exact ih w (fun g hg => hsub g (by simp [hg]))
      | some s =>
        cases s with
        | ref t =>
          simp only
          have hti : i ≠ t := by
            intro e
            subst e
            exact hsub f (by simp) hk
          have h1 := flat f.table w t hti
          have h2 := slots f.table w t
          cases hp : parseFlatW U f.table w t with
          | mk w1 res =>
            rw [hp] at h1 h2
            cases res with
            | error e => exact h1
            | ok j =>
              simp only
              split_ifs
              · simp only
                rw [dict_set, if_neg (fun c => hir c.1.symm)]
                exact h1
              · rw [ih]
                · rw [dict_set, if_neg (fun c => hir c.1.symm)]
                  exact h1
                · intro g hg hc
                  rw [dict_set] at hc
                  split_ifs at hc with hcc
                  · rw [get?_set] at hc
                    split_ifs at hc with hkk
                    · cases hc
                    · exact hsub g (by simp [hg]) (h2 g.key i hc)
                  · exact hsub g (by simp [hg]) (h2 g.key i hc)
        | _ => rfl
  have h1 := subs fs w hsub
  unfold parseNW
  cases hp : parseSubsW U fs w r with
  | mk w1 res =>
    rw [hp] at h1
    cases res with
    | error e => exact h1
    | ok _ =>
      simp only
      rw [flat T w1 r hir]
      exact h1

/-- **C24, where the code disagrees.** Reading a site replaces the strings in the caller's
dictionary by numbers; reading the same dictionary again then fails, with or without
tensors. -/
theorem C24_counterexample :
    let w : World := ⟨[[("isotropic_chemical_shift", .val (qty 20 "ppm"))]], []⟩
    let first := parseNW stdUnits siteFields siteTable w 0
    first.2 = .ok 0 ∧
    first.1.dicts = [[("isotropic_chemical_shift", .val (.num 20))]] ∧
    (parseNW stdUnits siteFields siteTable first.1 0).2 = .error .exception ∧
    (let first := parseNW stdUnits siteFields siteTable exampleWorld 1
     first.2 = .ok 1 ∧ (parseNW stdUnits siteFields siteTable first.1 1).2 = .error .typeError) := by
  decide +kernel

/-- **C24, where the code disagrees (shared dictionaries).** Because the copy is changed while it is
read and keeps the sharing of the original, a spin system whose two sites are the same dictionary, or
whose sites use the same tensor dictionary, cannot be read, although each of them alone
can. -/
theorem C24_counterexample_shared :
    let site : Dict Slot := [("isotropic_chemical_shift", .val (qty 20 "ppm"))]
    (parseSpinSystemW stdUnits ⟨[[("sites", .refs [1])], site], []⟩ 0).2 = .ok 1 ∧
    (parseSpinSystemW stdUnits ⟨[[("sites", .refs [1, 1])], site], []⟩ 0).2 = .error .exception ∧
    (parseSpinSystemW stdUnits ⟨[[("sites", .refs [1, 2])], [("shielding_symmetric", .ref 3)],
      [("shielding_symmetric", .ref 3)], [("zeta", .val (qty 10 "ppm"))]], []⟩ 0).2 =
        .error .indexError := by decide +kernel

end MRS.Parse
