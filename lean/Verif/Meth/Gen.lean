import Verif.Val
import Mathlib.Data.List.GetD

/-!
# Building methods from dictionaries — properties C18, C19, C20

Model of src/mrsimulator/method/utils.py:11-30, src/mrsimulator/methods/utils.py and the checks
of src/mrsimulator/methods/base.py. The caller's spectral-dimension dictionaries live in a
heap, so that changes made to them are visible. The "events" entry of a dictionary is kept
apart from its other entries. Field validation by pydantic is outside the model.
-/

namespace MRS.Meth

open Dict

/-- A spectral-dimension dictionary: its "events" entry, if present, and the others (methods/base.py lines 110-165). -/
structure DimD where
  attrs : Dict Val
  events : Option (List (Dict Val))
  deriving DecidableEq, Repr

/-! ## method/utils.py -/

/-- method/utils.py:13. -/
def listG : List String := ["magnetic_flux_density", "rotor_frequency", "rotor_angle"]

/-- method/utils.py:12-16: the global values present in the method dictionary. -/
def globalsOf (top : Dict Val) : Dict Val :=
  listG.foldl (fun glb k => match top.get? k with
    | some v => glb.set k v
    | none => glb) []

/-- method/utils.py:22-26, one event: insert the global values that the event lacks. -/
def fillEvent (glb : Dict Val) (ev : Dict Val) : Dict Val :=
  glb.foldl (fun e p => if ev.has p.1 then e else e.set p.1 p.2) ev

/-- method/utils.py:19-26, one dimension. -/
def fillDim (glb : Dict Val) (d : DimD) : DimD :=
  { d with events := some ((d.events.getD [[]]).map (fillEvent glb)) }

/-- method/utils.py:11-30 `expand_spectral_dimension_object`: the remaining top-level entries
and the dimensions. -/
def expand (top : Dict Val) (dims : List DimD) : Dict Val × List DimD :=
  let glb := globalsOf top
  ((glb.map Prod.fst).foldl (fun t k => t.pop k) top, dims.map (fillDim glb))

/-! ## methods/utils.py -/

/-- A method template (methods_data.json). -/
structure Template where
  channels : Nat
  globals : Dict Val
  dims : List (List (Dict Val))
  deriving Repr

/-- methods/utils.py:88-93 `parse_transition_query`. -/
def parseTQ : Val → Val
  | .list l => .dict [("channel-1", .list (l.map fun i => match i with
      | .list x => .list x
      | v => .list [v]))]
  | v => v

/-- methods/utils.py:76-85 `parse_events`: the event after the in-place change. A transition
query that is not a dictionary is left alone (the code would raise an attribute error). -/
def parseEvent (ev : Dict Val) : Dict Val :=
  match ev.get? "transition_query" with
  | some (.dict t) =>
    let t := match Dict.get? t "P" with
      | some v => Dict.set t "P" (parseTQ v)
      | none => t
    let t := match Dict.get? t "D" with
      | some v => Dict.set t "D" (parseTQ v)
      | none => t
    ev.set "transition_query" (.dict t)
  | _ => ev

/-- methods/utils.py:69-72, one dimension. -/
def parseDim (d : DimD) : DimD := { d with events := d.events.map fun l => l.map parseEvent }

/-- methods/utils.py:177-186 `_fill_missing_events_in_template`; `dflt` is `Event().dict()`. -/
def fillTemplate (dflt : Dict Val) (d : DimD) (t : List (Dict Val)) : List (Dict Val) :=
  match d.events with
  | none => t
  | some l => t ++ List.replicate (l.length - t.length) dflt

/-- methods/utils.py:206-223, event `j`. -/
def genOne (globals kwargs : Dict Val) (d : DimD) (j : Nat) (e : Dict Val) : Py (Dict Val) :=
  let e := e.pop "property_units"
  match d.events with
  | none => .ok ((e.update kwargs).update (globals.update kwargs))
  | some l =>
    match pyGet l j with
    | .error er => .error er
    | .ok ev =>
      let kw := kwargs.update ev
      .ok ((e.update kw).update (globals.update kw))

/-- methods/utils.py:206, the loop. -/
def genLoop (globals kwargs : Dict Val) (d : DimD) : Nat → List (Dict Val) → Py (List (Dict Val))
  | _, [] => .ok []
  | j, e :: rest =>
    match genOne globals kwargs d j e with
    | .error er => .error er
    | .ok ev =>
      match genLoop globals kwargs d (j + 1) rest with
      | .error er => .error er
      | .ok evs => .ok (ev :: evs)

/-- methods/utils.py:201-225 `_gen_event`, without `_fix_strings_in_events`. -/
def genEvent (dflt globals kwargs : Dict Val) (d : DimD) (t : List (Dict Val)) :
    Py (List (Dict Val)) :=
  genLoop globals kwargs d 0 (fillTemplate dflt d t)

/-- The caller's objects: reference `r` is the dictionary at position `r` (methods/base.py lines 110-165). -/
abbrev Heap := List DimD

/-- The dictionary behind a reference (methods/base.py lines 110-165). -/
def deref (h : Heap) (r : Nat) : DimD := h.getD r ⟨[], none⟩

/-- methods/utils.py:66-73 `parse_spectral_dimensions`: the references to go on with, and the
heap. `[{}] * n` is `n` references to one new dictionary. -/
def parseSpectral (h : Heap) (refs : List Nat) (n : Nat) : Heap × List Nat :=
  if refs.map (deref h) = [⟨[], none⟩] then (h ++ [⟨[], none⟩], List.replicate n h.length)
  else (refs.foldl (fun h r => h.set r (parseDim (deref h r))) h, refs)

/-- methods/utils.py:51-62: the number of channels must be right. Only "channels" given as a
list is modelled. -/
def channelsOk (T : Template) (kwargs : Dict Val) : Bool :=
  match kwargs.get? "channels" with
  | some (.list l) => l.length == T.channels
  | _ => true

/-- methods/utils.py:189-198 `_check_rotor_frequency`. -/
def checkRotor (T : Template) (kwargs : Dict Val) : Py Unit :=
  let common := (T.globals.map Prod.fst).filter fun k => kwargs.has k
  if common = [] then .ok ()
  else match kwargs.get? "rotor_frequency" with
    | none => .error .keyError
    | some r =>
      if "rotor_frequency" ∈ common ∧ r = .str "1000000000000.0 Hz" then .ok ()
      else .error .valueError

/-- methods/utils.py:127-137: the loop over the template's dimensions. Result: for each
dimension its entries and its events. -/
def dimLoop (dflt globals kwargs : Dict Val) :
    List (List (Dict Val)) → List Nat → Heap → Heap × Py (List (Dict Val × List (Dict Val)))
  | [], _, h => (h, .ok [])
  | _ :: _, [], h => (h, .error .indexError)
  | t :: ts, r :: rs, h =>
    let d := deref h r
    match genEvent dflt globals kwargs d t with
    | .error er => (h, .error er)
    | .ok evs =>
      let h := h.set r { d with events := none }
      match dimLoop dflt globals kwargs ts rs h with
      | (h, .error er) => (h, .error er)
      | (h, .ok out) => (h, .ok ((d.attrs, evs) :: out))

/-- methods/utils.py:99-140, the constructor called with dictionaries. `kwargs` is without
"parse". -/
def construct (T : Template) (dflt : Dict Val) (h : Heap) (refs : List Nat) (kwargs : Dict Val) :
    Heap × Py (List (Dict Val × List (Dict Val))) :=
  if refs = [] then (h, .error .indexError)
  else
    let p := parseSpectral h refs T.dims.length
    if !(channelsOk T kwargs) then (p.1, .error .valueError)
    else match checkRotor T kwargs with
      | .error er => (p.1, .error er)
      | .ok () =>
        if T.dims.length < p.2.length then (p.1, .error .valueError)
        else dimLoop dflt T.globals kwargs T.dims p.2 p.1

/-! ## methods/base.py -/

/-- An element of the `spectral_dimensions` argument of a named method: a `SpectralDimension`
object or a dictionary (methods/base.py lines 110-165). -/
inductive DimArg
  | obj
  | dict (d : DimD)
  deriving DecidableEq, Repr

/-- methods/base.py:125-136. -/
def checkCount (n : Nat) (arg : Option (List DimArg)) : Py (List DimArg) :=
  match arg with
  | none => .ok (List.replicate n (.dict ⟨[], none⟩))
  | some l => if l.length = n then .ok l else .error .valueError

/-- `[f(item) for item in l]`, where `item.keys()` fails on objects (methods/base.py lines 110-165). -/
def overDicts (f : DimD → Bool) : List DimArg → Py (List Bool)
  | [] => .ok []
  | .obj :: _ => .error .attributeError
  | .dict d :: l =>
    match overDicts f l with
    | .error e => .error e
    | .ok bs => .ok (f d :: bs)

/-- methods/base.py:143-155 and 157-165: both checks, `f` is the forbidden feature. -/
def checkFor (f : DimD → Bool) (l : List DimArg) : Py Unit :=
  match l with
  | [] => .error .indexError
  | .obj :: _ => .ok ()
  | .dict _ :: _ =>
    match overDicts f l with
    | .error e => .error e
    | .ok bs => if bs.any id then .error .valueError else .ok ()

/-- methods/base.py:149-152: an event of the dictionary sets the transition query. -/
def setsQuery (d : DimD) : Bool :=
  match d.events with
  | none => false
  | some l => l.any fun e => e.has "transition_query"

/-- methods/base.py:112-116: the checks of `BaseNamedMethod.__new__`. -/
def namedChecks (n : Nat) (arg : Option (List DimArg)) : Py (List DimArg) :=
  match checkCount n arg with
  | .error e => .error e
  | .ok l =>
    match checkFor setsQuery l with
    | .error e => .error e
    | .ok () =>
      match checkFor (fun d => d.events.isSome) l with
      | .error e => .error e
      | .ok () => .ok l

/-! ## C18, parsing -/

theorem globalsOf_get (top : Dict Val) (k : String) :
    (globalsOf top).get? k = if k ∈ listG then top.get? k else none := by
  unfold globalsOf listG
  simp only [List.foldl_cons, List.foldl_nil]
  have step : ∀ (glb : Dict Val) (q : String),
      Dict.get? (match top.get? q with
        | some v => glb.set q v
        | none => glb) k = if q = k ∧ (top.get? q).isSome then top.get? q else glb.get? k := by
    intro glb q
    cases h : top.get? q with
    | none => simp
    | some v =>
      simp only [get?_set]
      by_cases hq : q = k <;> simp [hq]
  rw [step, step, step]
  by_cases h1 : k = "magnetic_flux_density"
  · subst h1
    cases h : top.get? "magnetic_flux_density" <;> simp
  by_cases h2 : k = "rotor_frequency"
  · subst h2
    cases h : top.get? "rotor_frequency" <;> simp
  by_cases h3 : k = "rotor_angle"
  · subst h3
    cases h : top.get? "rotor_angle" <;> simp
  simp [h1, h2, h3, Ne.symm h1, Ne.symm h2, Ne.symm h3]

theorem globalsOf_wf (top : Dict Val) : (globalsOf top).WF := by
  unfold globalsOf
  have : ∀ (l : List String) (g : Dict Val), g.WF →
      (l.foldl (fun glb k => match top.get? k with
        | some v => Dict.set glb k v
        | none => glb) g).WF := by
    intro l
    induction l with
    | nil => exact fun g h => h
    | cons q l ih =>
      intro g hg
      rw [List.foldl_cons]
      apply ih
      cases top.get? q with
      | none => exact hg
      | some v => exact WF_set _ hg _ _
  exact this listG [] (by simp [WF])

theorem fillEvent_get (glb ev : Dict Val) (h : glb.WF) (k : String) :
    (fillEvent glb ev).get? k = (ev.get? k).or (glb.get? k) := by
  unfold fillEvent
  have : ∀ (e : Dict Val), (∀ k, glb.get? k = none → e.get? k = ev.get? k) →
      (∀ k, ev.get? k ≠ none → e.get? k = ev.get? k) →
      (glb.foldl (fun e p => if ev.has p.1 then e else e.set p.1 p.2) e).get? k =
        if (glb.get? k).isSome ∧ ev.get? k = none then glb.get? k else e.get? k := by
    intro e _ _
    clear * - h
    induction glb generalizing e with
    | nil => simp
    | cons p glb ih =>
      unfold WF at h
      rw [List.map_cons, List.nodup_cons] at h
      rw [List.foldl_cons, ih h.2, get?_cons]
      by_cases hp : p.1 = k
      · have hn : Dict.get? glb k = none := by
          rw [get?_eq_none_iff, ← hp]
          exact h.1
        rw [hn]
        by_cases he : ev.get? k = none
        · have hh : ev.has p.1 = false := by rw [hp]; exact (has_false_iff ev k).mpr he
          rw [hh]
          simp [hp, he, get?_set]
        · have hh : ev.has p.1 = true := by
            rw [hp, has_iff]
            exact Option.ne_none_iff_exists'.mp he
          rw [hh]
          simp [he]
      · rw [if_neg hp]
        by_cases hh : ev.has p.1
        · rw [if_pos hh]
        · rw [if_neg hh, get?_set, if_neg hp]
  rw [this ev (fun _ _ => rfl) (fun _ _ => rfl)]
  cases hg : glb.get? k <;> cases he : ev.get? k <;> simp

theorem foldl_pop_get (l : List String) (t : Dict Val) (k : String) :
    (l.foldl (fun t k => Dict.pop t k) t).get? k = if k ∈ l then none else t.get? k := by
  induction l generalizing t with
  | nil => simp
  | cons q l ih =>
    rw [List.foldl_cons, ih, get?_pop]
    by_cases h : k ∈ l
    · simp [h]
    · by_cases hq : q = k
      · simp [hq]
      · simp [h, hq, Ne.symm hq]

/-- **C18 (parsing).** For every method dictionary: the three method-level event parameters
leave the top level and nothing else does; every dimension keeps its other entries and its
events (a missing list becomes one event); each event keeps what it sets and takes the
method-level value of the three parameters it does not set; nothing else is added. -/
theorem C18_expand (top : Dict Val) (dims : List DimD) :
    (∀ k, (expand top dims).1.get? k =
      if k = "magnetic_flux_density" ∨ k = "rotor_frequency" ∨ k = "rotor_angle" then none
      else top.get? k) ∧
    (expand top dims).2.length = dims.length ∧
    ∀ (i : Nat) (d : DimD), dims[i]? = some d → ∃ d', (expand top dims).2[i]? = some d' ∧
      d'.attrs = d.attrs ∧
      ∃ evs, d'.events = some evs ∧ evs.length = (d.events.getD [[]]).length ∧
        ∀ (j : Nat) (ev : Dict Val), (d.events.getD [[]])[j]? = some ev →
          ∃ ev', evs[j]? = some ev' ∧
            ∀ k, ev'.get? k = match ev.get? k with
              | some v => some v
              | none =>
                if k = "magnetic_flux_density" ∨ k = "rotor_frequency" ∨ k = "rotor_angle"
                then top.get? k else none := by
  have hmem : ∀ k, k ∈ listG ↔
      (k = "magnetic_flux_density" ∨ k = "rotor_frequency" ∨ k = "rotor_angle") := by
    intro k; simp [listG]
  refine ⟨?_, by simp [expand], ?_⟩
  · intro k
    unfold expand
    simp only
    rw [foldl_pop_get]
    by_cases h : k ∈ (globalsOf top).map Prod.fst
    · rw [if_pos h]
      have := (has_iff_mem (globalsOf top) k).mpr h
      obtain ⟨v, hv⟩ := (has_iff _ _).mp this
      rw [globalsOf_get] at hv
      split_ifs at hv with hk
      rw [if_pos ((hmem k).mp hk)]
    · rw [if_neg h]
      have := (get?_eq_none_iff (globalsOf top) k).mpr h
      rw [globalsOf_get] at this
      by_cases hk : k ∈ listG
      · rw [if_pos hk] at this
        rw [this]
        simp
      · rw [if_neg (fun h => hk ((hmem k).mpr h))]
  · intro i d hd
    refine ⟨fillDim (globalsOf top) d, ?_, rfl, _, rfl, by simp, ?_⟩
    · unfold expand
      simp [hd]
    · intro j ev hev
      refine ⟨fillEvent (globalsOf top) ev, by simp [hev], ?_⟩
      intro k
      rw [fillEvent_get _ _ (globalsOf_wf top), globalsOf_get]
      by_cases hk : k ∈ listG
      · rw [if_pos hk]
        cases ev.get? k <;> simp [(hmem k).mp hk]
      · rw [if_neg hk]
        have : ¬ (k = "magnetic_flux_density" ∨ k = "rotor_frequency" ∨ k = "rotor_angle") :=
          fun h => hk ((hmem k).mpr h)
        rw [if_neg this]
        cases ev.get? k <;> simp

/-- One event sets its own rotor frequency; the method sets rotor frequency and angle. -/
example : expand [("name", .str "x"), ("rotor_frequency", .num 5), ("rotor_angle", .num 1)]
    [⟨[], some [[("rotor_frequency", .num 7)], []]⟩] =
    ([("name", .str "x")], [⟨[], some [[("rotor_frequency", .num 7), ("rotor_angle", .num 1)],
      [("rotor_frequency", .num 5), ("rotor_angle", .num 1)]]⟩]) := by decide +kernel

/-! ## C18, generic methods -/

theorem genOne_get (globals kwargs : Dict Val) (d : DimD) (j : Nat) (e ev' : Dict Val)
    (hk : kwargs.WF) (hg : globals.WF) (he : ∀ l, d.events = some l → ∀ ev ∈ l, Dict.WF ev)
    (h : genOne globals kwargs d j e = .ok ev') (k : String) :
    ev'.get? k = ((match d.events with
        | none => none
        | some l => (l[j]?).bind fun ev => ev.get? k).or
      ((kwargs.get? k).or ((globals.get? k).or (if k = "property_units" then none else e.get? k)))) := by
  unfold genOne at h
  have hpop : ∀ (kw : Dict Val), kw.WF →
      ((Dict.update (Dict.pop e "property_units") kw).update (globals.update kw)).get? k =
        (kw.get? k).or ((globals.get? k).or (if k = "property_units" then none else e.get? k)) := by
    intro kw hkw
    rw [get?_update _ _ (WF_update _ _ hg), get?_update _ _ hkw, get?_update _ _ hkw, get?_pop]
    cases kw.get? k <;> cases globals.get? k <;> simp [eq_comm]
  cases hd : d.events with
  | none =>
    rw [hd] at h
    simp only [Except.ok.injEq] at h
    subst h
    rw [hpop kwargs hk]
    simp
  | some l =>
    rw [hd] at h
    simp only at h
    cases hget : pyGet l (j : Int) with
    | error er => rw [hget] at h; cases h
    | ok ev =>
      rw [hget] at h
      simp only [Except.ok.injEq] at h
      subst h
      have hj : j < l.length := by
        by_contra hj
        have hpos : pyPos l.length (j : Int) = none := by
          unfold pyPos
          rw [if_neg (show ¬ ((j : Int) < 0) by omega), if_neg (by omega)]
        unfold pyGet at hget
        rw [hpos] at hget
        cases hget
      rw [pyGet_ofNat l j hj] at hget
      simp only [Except.ok.injEq] at hget
      have hmem : ev ∈ l := by rw [← hget]; exact List.getElem_mem hj
      rw [hpop _ (WF_update _ _ hk), get?_update _ _ (he l hd ev hmem)]
      simp only
      rw [List.getElem?_eq_getElem hj, hget]
      simp only [Option.bind_some]
      cases ev.get? k <;> simp

theorem genLoop_get (globals kwargs : Dict Val) (d : DimD) (j0 : Nat) (ts out : List (Dict Val))
    (h : genLoop globals kwargs d j0 ts = .ok out) :
    out.length = ts.length ∧ ∀ (j : Nat) (e : Dict Val), ts[j]? = some e →
      ∃ ev, out[j]? = some ev ∧ genOne globals kwargs d (j0 + j) e = .ok ev := by
  induction ts generalizing j0 out with
  | nil =>
    unfold genLoop at h
    cases h
    simp
  | cons t ts ih =>
    unfold genLoop at h
    cases h1 : genOne globals kwargs d j0 t with
    | error er => rw [h1] at h; cases h
    | ok ev =>
      rw [h1] at h
      simp only at h
      cases h2 : genLoop globals kwargs d (j0 + 1) ts with
      | error er => rw [h2] at h; cases h
      | ok evs =>
        rw [h2] at h
        simp only [Except.ok.injEq] at h
        subst h
        obtain ⟨hl, hr⟩ := ih _ _ h2
        refine ⟨by simp [hl], ?_⟩
        intro j e he
        cases j with
        | zero =>
          simp only [List.getElem?_cons_zero, Option.some.injEq] at he
          subst he
          exact ⟨ev, by simp, h1⟩
        | succ j =>
          rw [List.getElem?_cons_succ] at he
          obtain ⟨ev', h3, h4⟩ := hr j e he
          exact ⟨ev', by rw [List.getElem?_cons_succ]; exact h3, by
            rw [show j0 + (j + 1) = j0 + 1 + j by omega]; exact h4⟩

/-- **C18 (generic methods).** Whenever a dimension's events are generated: there are as many as
the template has, or as the caller gives if that is more; event `j` has for every key the
value given on the caller's event `j`, else the keyword argument, else the template's global
value, else the value of the template's event (the default event where the template has
none), in that order. -/
theorem C18_precedence (dflt globals kwargs : Dict Val) (d : DimD) (t out : List (Dict Val))
    (hk : kwargs.WF) (hg : globals.WF) (he : ∀ l, d.events = some l → ∀ ev ∈ l, Dict.WF ev)
    (h : genEvent dflt globals kwargs d t = .ok out) :
    out.length = max t.length (d.events.getD []).length ∧
    ∀ (j : Nat) (ev : Dict Val), out[j]? = some ev → ∀ k, k ≠ "property_units" →
      ev.get? k =
        ((((d.events.getD [])[j]?).bind fun e => e.get? k).or
          ((kwargs.get? k).or ((globals.get? k).or ((t.getD j dflt).get? k)))) := by
  unfold genEvent at h
  obtain ⟨hl, hr⟩ := genLoop_get _ _ _ _ _ _ h
  have hlen : (fillTemplate dflt d t).length = max t.length (d.events.getD []).length := by
    unfold fillTemplate
    cases d.events with
    | none => simp
    | some l => simp; omega
  refine ⟨by rw [hl, hlen], ?_⟩
  intro j ev hev k hpu
  have hj : j < (fillTemplate dflt d t).length := by
    rw [← hl]
    exact (List.getElem?_eq_some_iff.mp hev).1
  obtain ⟨ev', h1, h2⟩ := hr j _ (List.getElem?_eq_getElem hj)
  rw [h1] at hev
  cases hev
  rw [Nat.zero_add] at h2
  have hG := genOne_get globals kwargs d j _ _ hk hg he h2 k
  rw [if_neg hpu] at hG
  have ht : (fillTemplate dflt d t)[j] = t.getD j dflt := by
    cases hd : d.events with
    | none =>
      have hf : fillTemplate dflt d t = t := by unfold fillTemplate; rw [hd]
      simp only [hf] at hj ⊢
      rw [List.getD_eq_getElem _ _ hj]
    | some l =>
      have hf : fillTemplate dflt d t = t ++ List.replicate (l.length - t.length) dflt := by
        unfold fillTemplate; rw [hd]
      simp only [hf]
      by_cases hjt : j < t.length
      · rw [List.getElem_append_left hjt, List.getD_eq_getElem _ _ hjt]
      · rw [List.getElem_append_right (by omega), List.getElem_replicate,
          List.getD_eq_default _ _ (by omega)]
  rw [ht] at hG
  rw [hG]
  cases d.events <;> simp

/-- Two events are given for a one-event template; the second sets nothing. -/
example : genEvent [("fraction", .num 1)] [("rotor_frequency", .num 9), ("a", .num 2)]
    [("rotor_frequency", .num 5)]
    ⟨[], some [[("rotor_frequency", .num 7)], []]⟩ [[("a", .num 1)]] =
    .ok [[("a", .num 2), ("rotor_frequency", .num 7)],
      [("fraction", .num 1), ("rotor_frequency", .num 5), ("a", .num 2)]] := by decide +kernel

/-! ## C19 -/

theorem deref_set (h : Heap) (r s : Nat) (d : DimD) (hr : r < h.length) :
    deref (h.set r d) s = if r = s then d else deref h s := by
  unfold deref
  rw [List.getD_eq_getElem?_getD, List.getD_eq_getElem?_getD, List.getElem?_set]
  by_cases hs : r = s
  · subst hs
    simp [hr]
  · simp [hs]

theorem deref_append (h : Heap) (l : Heap) (s : Nat) (hs : s < h.length) :
    deref (h ++ l) s = deref h s := by
  unfold deref
  rw [List.getD_eq_getElem?_getD, List.getD_eq_getElem?_getD, List.getElem?_append_left hs]

theorem dimLoop_heap (dflt globals kwargs : Dict Val) (ts : List (List (Dict Val))) (refs : List Nat)
    (h : Heap) (hr : ∀ r ∈ refs, r < h.length) :
    (dimLoop dflt globals kwargs ts refs h).1.length = h.length ∧
    ∀ s, (s ∉ refs → deref (dimLoop dflt globals kwargs ts refs h).1 s = deref h s) ∧
      ((deref h s).events = none → deref (dimLoop dflt globals kwargs ts refs h).1 s = deref h s) := by
  induction ts generalizing refs h with
  | nil => simp [dimLoop]
  | cons t ts ih =>
    cases refs with
    | nil => simp [dimLoop]
    | cons r rs =>
      unfold dimLoop
      simp only
      cases hg : genEvent dflt globals kwargs (deref h r) t with
      | error er => simp
      | ok evs =>
        simp only
        set h' := h.set r { deref h r with events := none } with hh'
        have hlen : h'.length = h.length := by simp [hh']
        have hrl : r < h.length := hr r (by simp)
        obtain ⟨i1, i2⟩ := ih rs h' (fun q hq => by rw [hlen]; exact hr q (by simp [hq]))
        have e : ∀ x : Heap × Py (List (Dict Val × List (Dict Val))),
            (match x with
              | (h, .error er) => ((h, .error er) : Heap × Py (List (Dict Val × List (Dict Val))))
              | (h, .ok out) => (h, .ok (((deref h' r).attrs, evs) :: out))).1 = x.1 := by
          rintro ⟨a, b⟩
          cases b <;> rfl
        have e' : ∀ x : Heap × Py (List (Dict Val × List (Dict Val))),
            (match x with
              | (h, .error er) => ((h, .error er) : Heap × Py (List (Dict Val × List (Dict Val))))
              | (h_1, .ok out) => (h_1, .ok (((deref h r).attrs, evs) :: out))).1 = x.1 := by
          rintro ⟨a, b⟩
          cases b <;> rfl
        rw [e']
        refine ⟨by rw [i1, hlen], ?_⟩
        intro s
        constructor
        · intro hs
          rw [List.mem_cons, not_or] at hs
          rw [(i2 s).1 hs.2, hh', deref_set _ _ _ _ hrl, if_neg (Ne.symm hs.1)]
        · intro hs
          have hsame : deref h' s = deref h s := by
            rw [hh', deref_set _ _ _ _ hrl]
            split_ifs with he
            · subst he
              cases hd : deref h r with
              | mk a ev =>
                rw [hd] at hs
                simp only at hs
                rw [hs]
            · rfl
          rw [(i2 s).2 (by rw [hsame]; exact hs), hsame]

theorem parseFold_heap (refs : List Nat) (h : Heap) (hr : ∀ r ∈ refs, r < h.length) :
    (refs.foldl (fun h r => h.set r (parseDim (deref h r))) h).length = h.length ∧
    ∀ s, (s ∉ refs → deref (refs.foldl (fun h r => h.set r (parseDim (deref h r))) h) s = deref h s) ∧
      ((deref h s).events = none →
        deref (refs.foldl (fun h r => h.set r (parseDim (deref h r))) h) s = deref h s) := by
  induction refs generalizing h with
  | nil => simp
  | cons r rs ih =>
    rw [List.foldl_cons]
    set h' := h.set r (parseDim (deref h r)) with hh'
    have hlen : h'.length = h.length := by simp [hh']
    have hrl : r < h.length := hr r (by simp)
    obtain ⟨i1, i2⟩ := ih h' (fun q hq => by rw [hlen]; exact hr q (by simp [hq]))
    refine ⟨by rw [i1, hlen], ?_⟩
    intro s
    constructor
    · intro hs
      rw [List.mem_cons, not_or] at hs
      rw [(i2 s).1 hs.2, hh', deref_set _ _ _ _ hrl, if_neg (Ne.symm hs.1)]
    · intro hs
      have hsame : deref h' s = deref h s := by
        rw [hh', deref_set _ _ _ _ hrl]
        split_ifs with he
        · subst he
          unfold parseDim
          cases hd : deref h r with
          | mk a ev =>
            rw [hd] at hs
            simp only at hs
            rw [hs]
            rfl
        · rfl
      rw [(i2 s).2 (by rw [hsame]; exact hs), hsame]

theorem parseSpectral_heap (h : Heap) (refs : List Nat) (n : Nat) (hr : ∀ r ∈ refs, r < h.length) :
    h.length ≤ (parseSpectral h refs n).1.length ∧
    (∀ r ∈ (parseSpectral h refs n).2, r < (parseSpectral h refs n).1.length) ∧
    (∀ s, s < h.length → s ∉ refs → s ∉ (parseSpectral h refs n).2) ∧
    ∀ s, s < h.length →
      (s ∉ refs → deref (parseSpectral h refs n).1 s = deref h s) ∧
      ((deref h s).events = none → deref (parseSpectral h refs n).1 s = deref h s) := by
  unfold parseSpectral
  split_ifs with hc
  · refine ⟨by simp, ?_, ?_, ?_⟩
    · intro r hr
      rw [List.mem_replicate] at hr
      simp [hr.2]
    · intro s hs _ hm
      rw [List.mem_replicate] at hm
      omega
    · intro s hs
      exact ⟨fun _ => deref_append h _ s hs, fun _ => deref_append h _ s hs⟩
  · obtain ⟨a, b⟩ := parseFold_heap refs h hr
    refine ⟨a.ge, ?_, fun s _ h => h, fun s _ => b s⟩
    intro r hm
    simp only at hm ⊢
    rw [a]
    exact hr r hm

theorem construct_heap (T : Template) (dflt : Dict Val) (h : Heap) (refs : List Nat)
    (kwargs : Dict Val) (hr : ∀ r ∈ refs, r < h.length) :
    h.length ≤ (construct T dflt h refs kwargs).1.length ∧
    ∀ s, s < h.length →
      (s ∉ refs → deref (construct T dflt h refs kwargs).1 s = deref h s) ∧
      ((deref h s).events = none → deref (construct T dflt h refs kwargs).1 s = deref h s) := by
  unfold construct
  by_cases h0 : refs = []
  · simp [h0]
  · obtain ⟨p1, p2, p3, p4⟩ := parseSpectral_heap h refs T.dims.length hr
    rw [if_neg h0]
    simp only
    by_cases h1 : (!channelsOk T kwargs) = true
    · simp only [h1, if_true]
      exact ⟨p1, p4⟩
    · simp only [h1, if_false, Bool.false_eq_true]
      cases hc : checkRotor T kwargs with
      | error er => exact ⟨p1, p4⟩
      | ok u =>
        simp only
        by_cases h2 : T.dims.length < (parseSpectral h refs T.dims.length).2.length
        · rw [if_pos h2]
          exact ⟨p1, p4⟩
        · rw [if_neg h2]
          obtain ⟨q1, q2⟩ := dimLoop_heap dflt T.globals kwargs T.dims _ _ p2
          refine ⟨by rw [q1]; exact p1, ?_⟩
          intro s hs
          constructor
          · intro hm
            rw [(q2 s).1 (p3 s hs hm), (p4 s hs).1 hm]
          · intro hn
            rw [(q2 s).2 (by rw [(p4 s hs).2 hn]; exact hn), (p4 s hs).2 hn]

/-- **C19, partial.** Whatever the outcome of the call, it leaves every dictionary of the caller
unchanged that it was not given, and also those it was given that have no "events" entry.
Missing: dictionaries with events, see `C19_counterexample`. -/
theorem C19_unchanged_partial (T : Template) (dflt : Dict Val) (h : Heap) (refs : List Nat)
    (kwargs : Dict Val) (hr : ∀ r ∈ refs, r < h.length) (s : Nat) (hs : s < h.length)
    (hno : s ∈ refs → (deref h s).events = none) :
    deref (construct T dflt h refs kwargs).1 s = deref h s := by
  obtain ⟨_, h2⟩ := construct_heap T dflt h refs kwargs hr
  by_cases hm : s ∈ refs
  · exact (h2 s hs).2 (hno hm)
  · exact (h2 s hs).1 hm

/-- A call of a method class: the references passed and the keyword arguments. -/
structure Call where
  template : Template
  refs : List Nat
  kwargs : Dict Val

/-- A history of calls. -/
def runCalls (dflt : Dict Val) : List Call → Heap → Heap
  | [], h => h
  | c :: cs, h => runCalls dflt cs (construct c.template dflt h c.refs c.kwargs).1

/-- **C19 (default argument).** The default argument `[{}]` is one object shared by all calls
(here reference 0). After any history of calls, with or without explicit dimensions, the
default dictionary is still empty, so calls without dimensions do not depend on earlier
calls. -/
theorem C19_default (dflt : Dict Val) (cs : List Call) (h : Heap)
    (h0 : h[0]? = some ⟨[], none⟩)
    (hrefs : ∀ c ∈ cs, ∀ r ∈ c.refs, r < h.length) :
    (runCalls dflt cs h)[0]? = some ⟨[], none⟩ := by
  induction cs generalizing h with
  | nil => exact h0
  | cons c cs ih =>
    unfold runCalls
    have hl : 0 < h.length := (List.getElem?_eq_some_iff.mp h0).1
    have hd0 : deref h 0 = ⟨[], none⟩ := by
      unfold deref
      rw [List.getD_eq_getElem?_getD, h0]
      rfl
    obtain ⟨a, b⟩ := construct_heap c.template dflt h c.refs c.kwargs (hrefs c (by simp))
    have h1 : deref (construct c.template dflt h c.refs c.kwargs).1 0 = ⟨[], none⟩ := by
      rw [(b 0 hl).2 (by rw [hd0]), hd0]
    apply ih
    · have hl' : 0 < (construct c.template dflt h c.refs c.kwargs).1.length := by omega
      unfold deref at h1
      rw [List.getD_eq_getElem _ _ hl'] at h1
      rw [List.getElem?_eq_getElem hl', h1]
    · intro c' hc' r hr
      exact lt_of_lt_of_le (hrefs c' (by simp [hc']) r hr) a

/-- methods_data.json, "Method1D", without the user variables. -/
def method1D : Template :=
  ⟨1, [("transition_query", .dict [("P", .dict [("channel-1", .list [.list [.num (-1)]])])])], [[[]]]⟩

/-- methods_data.json, "Method2D", without the user variables. -/
def method2D : Template :=
  ⟨1, [("rotor_frequency", .num 1000000000000),
    ("transition_query", .dict [("P", .dict [("channel-1", .list [.list [.num (-1)]])])])],
    [[[]], [[]]]⟩

example : runCalls [] [⟨method1D, [0], []⟩, ⟨method1D, [1], []⟩, ⟨method2D, [0], []⟩]
    [⟨[], none⟩, ⟨[], some [[("a", .num 1)]]⟩] =
    [⟨[], none⟩, ⟨[], none⟩, ⟨[], none⟩, ⟨[], none⟩] := by decide +kernel

/-- **C19, where the code disagrees.** `Method1D` called twice with the same dictionary, whose
event has a rotor frequency of 7 Hz: the first call removes the events from the caller's
dictionary, and the second gives a method without that rotor frequency. -/
theorem C19_counterexample :
    let h : Heap := [⟨[("count", .num 8)], some [[("rotor_frequency", .num 7)]]⟩]
    let first := construct method1D [] h [0] []
    let second := construct method1D [] first.1 [0] []
    first.1 = [⟨[("count", .num 8)], none⟩] ∧ first.1 ≠ h ∧
    ((first.2.map fun o => o.map fun p => p.2.map fun e => e.get? "rotor_frequency") =
      .ok [[some (.num 7)]]) ∧
    ((second.2.map fun o => o.map fun p => p.2.map fun e => e.get? "rotor_frequency") =
      .ok [[none]]) := by decide +kernel

/-- **C19, where the code disagrees (shared dictionary).** The same dictionary given for both
dimensions of `Method2D` (as in `[d] * 2`): the second dimension loses its events. -/
theorem C19_counterexample_shared :
    let h : Heap := [⟨[], some [[("fraction", .num 3)]]⟩]
    (((construct method2D [] h [0, 0] []).2.map fun o => o.map fun p => p.2.map fun e =>
      e.get? "fraction") = .ok [[some (.num 3)], [none]]) := by decide +kernel

/-! ## C20 -/

theorem overDicts_ok (f : DimD → Bool) (ds : List DimD) :
    overDicts f (ds.map .dict) = .ok (ds.map f) := by
  induction ds with
  | nil => rfl
  | cons d ds ih =>
    rw [List.map_cons]
    unfold overDicts
    rw [ih]
    rfl

theorem checkFor_dicts (f : DimD → Bool) (ds : List DimD) (h : ds ≠ []) :
    checkFor f (ds.map .dict) = if ∃ d ∈ ds, f d = true then .error .valueError else .ok () := by
  cases ds with
  | nil => exact absurd rfl h
  | cons d ds =>
    have := overDicts_ok f (d :: ds)
    rw [List.map_cons] at this ⊢
    unfold checkFor
    simp only
    rw [this]
    simp only [List.map_cons, List.any_cons, id]
    by_cases hh : ∃ d' ∈ d :: ds, f d' = true
    · rw [if_pos hh, if_pos]
      simpa using hh
    · rw [if_neg hh, if_neg]
      simpa using hh

/-- **C20 (dictionaries).** For a named method with `n ≥ 1` dimensions, a list of dictionaries is
accepted, and then passed on as it is, iff it has length `n` and no dictionary has events;
every other list is rejected with a `ValueError`. Without the argument, `n` empty
dictionaries are used. -/
theorem C20_dicts (n : Nat) (hn : 1 ≤ n) (ds : List DimD) :
    namedChecks n (some (ds.map .dict)) =
      (if ds.length = n ∧ ∀ d ∈ ds, d.events = none then .ok (ds.map .dict)
       else .error .valueError) ∧
    namedChecks n none = .ok (List.replicate n (.dict ⟨[], none⟩)) := by
  constructor
  · unfold namedChecks checkCount
    simp only [List.length_map]
    by_cases hl : ds.length = n
    · have hne : ds ≠ [] := by
        intro h0
        subst h0
        simp at hl
        omega
      simp only [hl, if_true, true_and]
      rw [checkFor_dicts _ _ hne, checkFor_dicts _ _ hne]
      by_cases he : ∀ d ∈ ds, d.events = none
      · rw [if_pos he, if_neg, if_neg]
        · rintro ⟨d, hd, hs⟩
          rw [he d hd] at hs
          simp at hs
        · rintro ⟨d, hd, hs⟩
          unfold setsQuery at hs
          rw [he d hd] at hs
          simp at hs
      · rw [if_neg he]
        have : ∃ d ∈ ds, (fun d : DimD => d.events.isSome) d = true := by
          push Not at he
          obtain ⟨d, hd, hs⟩ := he
          exact ⟨d, hd, Option.isSome_iff_ne_none.mpr hs⟩
        rw [if_pos this]
        by_cases hq : ∃ d ∈ ds, setsQuery d = true
        · rw [if_pos hq]
        · rw [if_neg hq]
    · simp [hl]
  · unfold namedChecks checkCount
    simp only
    have hrep : List.replicate n (DimArg.dict ⟨[], none⟩) =
        (List.replicate n (⟨[], none⟩ : DimD)).map .dict := by simp
    have hne : List.replicate n (⟨[], none⟩ : DimD) ≠ [] := by
      intro h0
      have := congrArg List.length h0
      simp at this
      omega
    rw [hrep, checkFor_dicts _ _ hne, checkFor_dicts _ _ hne, if_neg, if_neg]
    · simp
    · simp [setsQuery]

/-- Two dimensions are required: one is too few, and an event with a transition query is
rejected. -/
example : namedChecks 2 (some [.dict ⟨[], none⟩]) = .error .valueError ∧
    namedChecks 2 (some [.dict ⟨[], none⟩, .dict ⟨[], some [[("transition_query", .none)]]⟩]) =
      .error .valueError ∧
    namedChecks 2 (some [.dict ⟨[], none⟩, .dict ⟨[], none⟩]) =
      .ok [.dict ⟨[], none⟩, .dict ⟨[], none⟩] := by decide +kernel

/-- **C20, where the code disagrees (objects).** If the first element is a `SpectralDimension`
object, nothing is checked: any later dictionary may set events and transition queries. -/
theorem C20_counterexample_objects :
    namedChecks 2 (some [.obj, .dict ⟨[], some [[("transition_query", .none)]]⟩]) =
      .ok [.obj, .dict ⟨[], some [[("transition_query", .none)]]⟩] := by decide +kernel

/-- **C20 (channels, dimensions, reserved keywords), partial.** A constructor called with
dictionaries that have no events and with one per template dimension succeeds iff the
number of channels is right and either no reserved keyword is given or the rotor frequency
is reserved and given as the string "1000000000000.0 Hz"; in particular a reserved keyword
without a rotor frequency is always rejected. Missing: with that string, other reserved
keywords are accepted too, see `C20_counterexample_reserved`. -/
theorem C20_constructor_partial (T : Template) (dflt : Dict Val) (h : Heap) (refs : List Nat)
    (kwargs : Dict Val) (hr : ∀ r ∈ refs, r < h.length) (hne : refs ≠ [])
    (hlen : refs.length = T.dims.length)
    (hno : ∀ r ∈ refs, (deref h r).events = none) :
    ((construct T dflt h refs kwargs).2.isOk = true ↔
      (∀ l, kwargs.get? "channels" = some (.list l) → l.length = T.channels) ∧
      ((∀ k ∈ T.globals.map Prod.fst, kwargs.get? k = none) ∨
        ("rotor_frequency" ∈ T.globals.map Prod.fst ∧
          kwargs.get? "rotor_frequency" = some (.str "1000000000000.0 Hz")))) := by
  have hch : channelsOk T kwargs = true ↔
      ∀ l, kwargs.get? "channels" = some (.list l) → l.length = T.channels := by
    unfold channelsOk
    cases hc : kwargs.get? "channels" with
    | none => simp
    | some v =>
      cases v with
      | list l => simp
      | _ => simp
  have hcom : ((T.globals.map Prod.fst).filter fun k => kwargs.has k) = [] ↔
      ∀ k ∈ T.globals.map Prod.fst, kwargs.get? k = none := by
    rw [List.filter_eq_nil_iff]
    apply forall₂_congr
    intro k hk
    rw [← has_false_iff]
    simp
  have hrot : (checkRotor T kwargs = .ok ()) ↔
      ((∀ k ∈ T.globals.map Prod.fst, kwargs.get? k = none) ∨
        ("rotor_frequency" ∈ T.globals.map Prod.fst ∧
          kwargs.get? "rotor_frequency" = some (.str "1000000000000.0 Hz"))) := by
    unfold checkRotor
    simp only
    by_cases h0 : ((T.globals.map Prod.fst).filter fun k => kwargs.has k) = []
    · rw [if_pos h0]
      simp only [true_iff]
      exact Or.inl (hcom.mp h0)
    · rw [if_neg h0]
      have h0' := fun h => h0 (hcom.mpr h)
      cases hf : kwargs.get? "rotor_frequency" with
      | none =>
        constructor
        · intro he
          cases he
        · rintro (hA | hB)
          · exact absurd hA h0'
          · exact absurd hB.2 (by simp)
      | some r =>
        simp only [Option.some.injEq]
        have hhas : kwargs.has "rotor_frequency" = true := (has_iff _ _).mpr ⟨r, hf⟩
        have hm : "rotor_frequency" ∈ (T.globals.map Prod.fst).filter (fun k => kwargs.has k) ↔
            "rotor_frequency" ∈ T.globals.map Prod.fst := by
          rw [List.mem_filter]
          simp [hhas]
        simp only [hm]
        by_cases hx : "rotor_frequency" ∈ T.globals.map Prod.fst ∧ r = .str "1000000000000.0 Hz"
        · rw [if_pos hx]
          simp [hx]
        · rw [if_neg hx]
          constructor
          · intro he
            cases he
          · rintro (hA | hB)
            · exact absurd hA h0'
            · exact absurd hB hx
  obtain ⟨p1, p2, p3, p4⟩ := parseSpectral_heap h refs T.dims.length hr
  have plen : (parseSpectral h refs T.dims.length).2.length = T.dims.length := by
    unfold parseSpectral
    split_ifs with hc
    · simp
    · exact hlen
  have pno : ∀ r ∈ (parseSpectral h refs T.dims.length).2,
      (deref (parseSpectral h refs T.dims.length).1 r).events = none := by
    intro r hm
    by_cases hc : refs.map (deref h) = [⟨[], none⟩]
    · unfold parseSpectral at hm ⊢
      rw [if_pos hc] at hm ⊢
      simp only [List.mem_replicate] at hm
      rw [hm.2]
      simp [deref]
    · have hm' : r ∈ refs := by
        unfold parseSpectral at hm
        rwa [if_neg hc] at hm
      rw [(p4 r (hr r hm')).2 (hno r hm')]
      exact hno r hm'
  have gen_ok : ∀ (d : DimD) (t : List (Dict Val)) (j : Nat), d.events = none →
      (genLoop T.globals kwargs d j t).isOk = true := by
    intro d t j hd
    induction t generalizing j with
    | nil => rfl
    | cons e t ih =>
      unfold genLoop genOne
      rw [hd]
      simp only
      have := ih (j + 1)
      cases hg : genLoop T.globals kwargs d (j + 1) t with
      | error er => rw [hg] at this; cases this
      | ok evs => rfl
  have loop_ok : ∀ (ts : List (List (Dict Val))) (rs : List Nat) (h : Heap),
      rs.length = ts.length → (∀ r ∈ rs, r < h.length) → (∀ r ∈ rs, (deref h r).events = none) →
      (dimLoop dflt T.globals kwargs ts rs h).2.isOk = true := by
    intro ts
    induction ts with
    | nil => intro rs h _ _ _; rfl
    | cons t ts ih =>
      intro rs h hl hb hn
      cases rs with
      | nil => simp at hl
      | cons r rs =>
        unfold dimLoop
        simp only
        have hg : (genEvent dflt T.globals kwargs (deref h r) t).isOk = true := by
          unfold genEvent
          exact gen_ok _ _ _ (hn r (by simp))
        cases hge : genEvent dflt T.globals kwargs (deref h r) t with
        | error er => rw [hge] at hg; cases hg
        | ok evs =>
          simp only
          have := ih rs (h.set r { deref h r with events := none }) (by simpa using hl)
            (fun q hq => by rw [List.length_set]; exact hb q (by simp [hq]))
            (fun q hq => by
              rw [deref_set _ _ _ _ (hb r (by simp))]
              split_ifs
              · rfl
              · exact hn q (by simp [hq]))
          cases hd : dimLoop dflt T.globals kwargs ts rs (h.set r { deref h r with events := none }) with
          | mk h' res =>
            rw [hd] at this
            cases res with
            | error er => cases this
            | ok out => rfl
  have final := loop_ok T.dims _ _ plen p2 pno
  unfold construct
  rw [if_neg hne]
  simp only
  by_cases hc : channelsOk T kwargs = true
  · rw [hc]
    simp only [Bool.not_true, Bool.false_eq_true, if_false]
    cases hx : checkRotor T kwargs with
    | error er =>
      have hx' : ¬ checkRotor T kwargs = .ok () := by rw [hx]; intro h; cases h
      simp only [Except.isOk, Except.toBool, Bool.false_eq_true, false_iff]
      rintro ⟨_, hB⟩
      exact hx' (hrot.mpr hB)
    | ok u =>
      simp only
      rw [if_neg (by rw [plen]; exact lt_irrefl _), final]
      simp only [true_iff]
      exact ⟨hch.mp hc, hrot.mp hx⟩
  · have hc' : channelsOk T kwargs = false := by simpa using hc
    rw [hc']
    simp only [Bool.not_false, if_true, Except.isOk, Except.toBool, Bool.false_eq_true, false_iff]
    rintro ⟨hA, _⟩
    exact hc (hch.mpr hA)

example : ((construct method1D [] [⟨[], none⟩] [0] [("channels", .list [.str "1H", .str "13C"])]).2.map
      fun _ => ()) = .error .valueError ∧
    ((construct method2D [] [⟨[], none⟩] [0] [("rotor_frequency", .num 5)]).2.map fun _ => ()) =
      .error .valueError ∧
    ((construct method2D [] [⟨[], none⟩] [0] [("channels", .list [.str "1H"])]).2.map fun _ => ()) =
      .ok () := by decide +kernel

/-- **C20, where the code disagrees (reserved keywords).** Given the rotor frequency as the
string "1000000000000.0 Hz", `Method2D` accepts a transition query, which is otherwise
rejected, and uses it in every event. -/
theorem C20_counterexample_reserved :
    let h : Heap := [⟨[], none⟩]
    ((construct method2D [] h [0] [("rotor_frequency", .str "1000000000000.0 Hz"),
        ("transition_query", .num 1)]).2.map fun o => o.map fun p => p.2.map fun e =>
          e.get? "transition_query") = .ok [[some (.num 1)], [some (.num 1)]] ∧
    ((construct method2D [] h [0] [("transition_query", .num 1)]).2.map fun _ => ()) =
      .error .keyError := by
  decide +kernel

end MRS.Meth
