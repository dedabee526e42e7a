import Verif.Meth.Gen
import Verif.Meth.Dims
import Verif.Parse.Units

/-!
# Writing and reading methods — property C21

Model of `json` and `parse_dict_with_units` of `Method` (src/mrsimulator/method/__init__.py),
`SpectralDimension` and `Event`. Quantities and units as in `Verif.Parse.Units`; the entries
"channels", "affine_matrix", "simulation", "experiment", labels and descriptions are left out.
-/

namespace MRS.Meth

open Dict MRS.Parse

/-- method/transition_query.py:45-48. -/
structure TQ where
  P : Option Val
  D : Option Val
  F : Option Val
  transitions : Option Val
  deriving DecidableEq, Repr

/-- transition_query.py:45: the default of `P`. -/
def defaultP : Val := .dict [("channel-1", .list [.list [.num (-1)]])]

/-- `TransitionQuery()` (transition_query.py lines 46-53). -/
def defaultTQ : TQ := ⟨some defaultP, none, none, none⟩

/-- transition_query.py:54-58 `json`: entries that are not `None`. -/
def tqJson (t : TQ) : Dict Val :=
  (t.P.map fun v => ("P", v)).toList ++ (t.D.map fun v => ("D", v)).toList ++
    (t.F.map fun v => ("F", v)).toList ++ (t.transitions.map fun v => ("transitions", v)).toList

/-- An entry of the query; an explicit `None` is allowed (transition_query.py:45-48). -/
def readOpt (d : Dict Val) (k : String) (dflt : Option Val) : Option Val :=
  match d.get? k with
  | none => dflt
  | some .none => none
  | some v => some v

/-- `TransitionQuery(**d)` (transition_query.py lines 46-53). -/
def tqParse (d : Dict Val) : TQ :=
  ⟨readOpt d "P" (some defaultP), readOpt d "D" none, readOpt d "F" none, readOpt d "transitions" none⟩

/-- method/event.py:51-57. -/
structure Ev where
  fraction : ℚ
  mfd : ℚ
  rf : ℚ
  ra : ℚ
  contrib : List String
  tq : TQ
  deriving DecidableEq, Repr

/-- frequency_contrib.py:63-70. -/
def defaultContrib : List String :=
  ["Shielding1_0", "Shielding1_2", "Quad1_2", "Quad2_0", "Quad2_2", "Quad2_4"]

/-- `Event()`, method/event.py:51-57. -/
def defaultEv : Ev := ⟨1, 94 / 10, 0, 955316618 / 1000000000, defaultContrib, defaultTQ⟩

/-- method/event.py:105-116 `json` on top of parseable.py:87-112. -/
def evJson (e : Ev) : Dict Val :=
  (if e.fraction = 1 then [] else [("fraction", .num e.fraction)]) ++
  [("magnetic_flux_density", qty e.mfd "T"), ("rotor_frequency", qty e.rf "Hz"),
   ("rotor_angle", qty e.ra "rad")] ++
  (if e.contrib = defaultContrib then [] else [("freq_contrib", .list (e.contrib.map .str))]) ++
  [("transition_query", .dict (tqJson e.tq))]

/-- method/__init__.py:269-271: the global values, from the first event. -/
def globalJson (e : Ev) : Dict Val :=
  [("magnetic_flux_density", qty e.mfd "T"), ("rotor_frequency", qty e.rf "Hz"),
   ("rotor_angle", qty e.ra "rad")]

/-- method/__init__.py:276-281, one event. Every event has the three entries. -/
def stripEv (glb : Dict Val) (named : Bool) (ev : Dict Val) : Dict Val :=
  let ev := glb.foldl (fun ev p => if ev.get? p.1 = some p.2 then ev.pop p.1 else ev) ev
  if named then ev.pop "transition_query" else ev

/-- A spectral dimension with its events (spectral_dimension.py lines 54-78). -/
structure Dim where
  sd : SDim
  events : List Ev
  deriving DecidableEq, Repr

/-- SpectralDimension.json for dimensions in Hz: the entries other than "events"
(spectral_dimension.py lines 19-98, parseable.py lines 92-117). -/
def dimJson (d : SDim) : Dict Val :=
  [("count", .num d.count), ("spectral_width", qty d.sw "Hz"), ("reference_offset", qty d.ref "Hz")] ++
    (d.origin.map fun o => ("origin_offset", qty o "Hz")).toList

/-- method/__init__.py:275-284, one dimension. -/
def stripDim (glb : Dict Val) (named : Bool) (d : Dim) : DimD :=
  let evs := d.events.map fun e => stripEv glb named (evJson e)
  ⟨dimJson d.sd, if evs = evs.map (fun _ => ([] : Dict Val)) then none else some evs⟩

/-- method/__init__.py:255-296 `json`: the global entries and the dimensions. `named` tells whether
the name of the method is one of the named methods. -/
def methodJson (named : Bool) (dims : List Dim) : Py (Dict Val × List DimD) :=
  match dims with
  | [] => .error .indexError
  | d :: _ =>
    match d.events with
    | [] => .error .indexError
    | e :: _ => .ok (globalJson e, dims.map (stripDim (globalJson e) named))

/-- One attribute with a unit: absent, or converted to the default unit (parseable.py lines 33-76 and 150-155). -/
def readQty (U : Units) (ev : Dict Val) (k type unit : String) (dflt : ℚ) : Py ℚ :=
  match ev.get? k with
  | none => .ok dflt
  | some v =>
    match enforce U (.val v) type unit with
    | none => .error .exception
    | some q => .ok q

/-- The strings of a list. -/
def readStrs : List Val → Option (List String)
  | [] => some []
  | .str s :: l => (readStrs l).map (s :: ·)
  | _ :: _ => none

/-- event.py:92-103 and `Event(**d)`. -/
def evParse (U : Units) (ev : Dict Val) : Py Ev :=
  match readQty U ev "magnetic_flux_density" "magnetic flux density" "T" defaultEv.mfd,
    readQty U ev "rotor_frequency" "frequency" "Hz" defaultEv.rf,
    readQty U ev "rotor_angle" "angle" "rad" defaultEv.ra with
  | .ok mfd, .ok rf, .ok ra =>
    match (match ev.get? "fraction" with
      | none => some 1
      | some (.num q) => some q
      | some _ => none),
      (match ev.get? "freq_contrib" with
      | none => some defaultContrib
      | some (.list l) => readStrs l
      | some _ => none),
      (match ev.get? "transition_query" with
      | none => some defaultTQ
      | some (.dict t) => some (tqParse t)
      | some _ => none) with
    | some f, some c, some t => .ok ⟨f, mfd, rf, ra, c, t⟩
    | _, _, _ => .error .valueError
  | .error e, _, _ => .error e
  | _, .error e, _ => .error e
  | _, _, .error e => .error e

/-- SpectralDimension.parse_dict_with_units, spectral_dimension.py:83-98, for dimensions in Hz. -/
def dimParse (U : Units) (d : Dict Val) : Py SDim :=
  match readQty U d "spectral_width" "frequency" "Hz" 25000,
    readQty U d "reference_offset" "frequency" "Hz" 0 with
  | .ok sw, .ok ref =>
    match (match d.get? "count" with
      | none => some 1024
      | some (.num q) => if q.den = 1 ∧ 0 < q.num then some q.num.toNat else none
      | some _ => none),
      (match d.get? "origin_offset" with
      | none => some none
      | some v => (enforce U (.val v) "frequency" "Hz").map some) with
    | some n, some o => .ok ⟨n, sw, ref, o⟩
    | _, _ => .error .valueError
  | .error e, _ => .error e
  | _, .error e => .error e

/-- `[f x for x in l]` with exceptions. -/
def mapPy {α β} (f : α → Py β) : List α → Py (List β)
  | [] => .ok []
  | a :: l =>
    match f a with
    | .error e => .error e
    | .ok b =>
      match mapPy f l with
      | .error e => .error e
      | .ok bs => .ok (b :: bs)

/-- spectral_dimension.py:92-98. An absent entry "events" is an empty list. -/
def dimParseAll (U : Units) (d : DimD) : Py Dim :=
  match mapPy (evParse U) (d.events.getD []) with
  | .error e => .error e
  | .ok evs =>
    match dimParse U d.attrs with
    | .error e => .error e
    | .ok sd => .ok ⟨sd, evs⟩

/-- method/__init__.py:218-234 `parse_dict_with_units`. -/
def methodParse (U : Units) (top : Dict Val) (dims : List DimD) : Py (List Dim) :=
  mapPy (dimParseAll U) (expand top dims).2

/-! ## Lemmas -/

theorem mapPy_map {α β γ} (f : α → Py β) (g : γ → α) (h : γ → β) (l : List γ)
    (hl : ∀ x ∈ l, f (g x) = .ok (h x)) : mapPy f (l.map g) = .ok (l.map h) := by
  induction l with
  | nil => rfl
  | cons a l ih =>
    rw [List.map_cons, List.map_cons]
    unfold mapPy
    rw [hl a (by simp)]
    simp only
    rw [ih fun x hx => hl x (by simp [hx])]

theorem readStrs_map (l : List String) : readStrs (l.map .str) = some l := by
  induction l with
  | nil => rfl
  | cons a l ih =>
    rw [List.map_cons]
    unfold readStrs
    rw [ih]
    rfl

theorem enforce_qty (U : Units) (hU : U.Ok) (q : ℚ) (u t : String) (h : U.phys u = some t) :
    enforce U (.val (qty q u)) t u = some q := by
  unfold enforce qty
  simp only
  rw [if_pos h]
  congr 1
  have := hU.nonzero u t h
  field_simp

/-- Reading the query that was written. -/
theorem tq_round (t : TQ) (hP : t.P ≠ none) (hn : t.P ≠ some .none ∧ t.D ≠ some .none ∧ t.F ≠ some .none ∧
    t.transitions ≠ some .none) : tqParse (tqJson t) = t := by
  obtain ⟨P, D, F, tr⟩ := t
  simp only at hP hn
  obtain ⟨n1, n2, n3, n4⟩ := hn
  have key : ∀ (v : Val) (dflt : Option Val), (some v ≠ some Val.none) →
      (match some v with | none => dflt | some Val.none => none | some v => some v) = some v := by
    intro v dflt hv
    cases v with
    | none => exact absurd rfl hv
    | _ => rfl
  cases P with
  | none => exact absurd rfl hP
  | some p =>
    unfold tqParse
    congr 1
    · have : Dict.get? (tqJson ⟨some p, D, F, tr⟩) "P" = some p := by
        unfold tqJson; simp [get?_cons]
      unfold readOpt
      rw [this]
      exact key p _ n1
    · cases D with
      | none =>
        have : Dict.get? (tqJson ⟨some p, none, F, tr⟩) "D" = none := by
          unfold tqJson; cases F <;> cases tr <;> simp [get?_cons]
        unfold readOpt
        rw [this]
      | some d =>
        have : Dict.get? (tqJson ⟨some p, some d, F, tr⟩) "D" = some d := by
          unfold tqJson; simp [get?_cons]
        unfold readOpt
        rw [this]
        exact key d _ n2
    · cases F with
      | none =>
        have : Dict.get? (tqJson ⟨some p, D, none, tr⟩) "F" = none := by
          unfold tqJson; cases D <;> cases tr <;> simp [get?_cons]
        unfold readOpt
        rw [this]
      | some d =>
        have : Dict.get? (tqJson ⟨some p, D, some d, tr⟩) "F" = some d := by
          unfold tqJson; cases D <;> simp [get?_cons]
        unfold readOpt
        rw [this]
        exact key d _ n3
    · cases tr with
      | none =>
        have : Dict.get? (tqJson ⟨some p, D, F, none⟩) "transitions" = none := by
          unfold tqJson; cases D <;> cases F <;> simp [get?_cons]
        unfold readOpt
        rw [this]
      | some d =>
        have : Dict.get? (tqJson ⟨some p, D, F, some d⟩) "transitions" = some d := by
          unfold tqJson; cases D <;> cases F <;> simp [get?_cons]
        unfold readOpt
        rw [this]
        exact key d _ n4

/-- What the written event holds. -/
theorem get?_evJson (e : Ev) :
    Dict.get? (evJson e) "fraction" = (if e.fraction = 1 then none else some (.num e.fraction)) ∧
    Dict.get? (evJson e) "magnetic_flux_density" = some (qty e.mfd "T") ∧
    Dict.get? (evJson e) "rotor_frequency" = some (qty e.rf "Hz") ∧
    Dict.get? (evJson e) "rotor_angle" = some (qty e.ra "rad") ∧
    Dict.get? (evJson e) "freq_contrib" =
      (if e.contrib = defaultContrib then none else some (.list (e.contrib.map .str))) ∧
    Dict.get? (evJson e) "transition_query" = some (.dict (tqJson e.tq)) := by
  unfold evJson
  by_cases h1 : e.fraction = 1
  · by_cases h2 : e.contrib = defaultContrib
    · simp [h1, h2, get?_cons]
    · simp [h1, h2, get?_cons]
  · by_cases h2 : e.contrib = defaultContrib
    · simp [h1, h2, get?_cons]
    · simp [h1, h2, get?_cons]

/-- Reading an event looks at six entries only. -/
theorem evParse_congr (U : Units) (a b : Dict Val)
    (h : ∀ k ∈ ["fraction", "magnetic_flux_density", "rotor_frequency", "rotor_angle", "freq_contrib",
      "transition_query"], a.get? k = b.get? k) : evParse U a = evParse U b := by
  have h1 := h "fraction" (by decide)
  have h2 := h "magnetic_flux_density" (by decide)
  have h3 := h "rotor_frequency" (by decide)
  have h4 := h "rotor_angle" (by decide)
  have h5 := h "freq_contrib" (by decide)
  have h6 := h "transition_query" (by decide)
  unfold evParse readQty
  rw [h1, h2, h3, h4, h5, h6]

/-- The queries that survive writing: `P` is given, and nothing is given as an explicit
`None` inside. -/
def Spec.TQOk (t : TQ) : Prop :=
  t.P ≠ none ∧ t.P ≠ some .none ∧ t.D ≠ some .none ∧ t.F ≠ some .none ∧ t.transitions ≠ some .none

theorem ev_round (U : Units) (hU : U.Ok) (hK : U.Knows) (e : Ev) (ht : Spec.TQOk e.tq) :
    evParse U (evJson e) = .ok e := by
  obtain ⟨h1, h2, h3, h4, h5, h6⟩ := get?_evJson e
  unfold evParse readQty
  rw [h1, h2, h3, h4, h5, h6]
  simp only
  rw [enforce_qty U hU _ _ _ hK.tesla, enforce_qty U hU _ _ _ hK.hz, enforce_qty U hU _ _ _ hK.rad,
    tq_round e.tq ht.1 ht.2]
  simp only
  have hf : (match (if e.fraction = 1 then none else some (Val.num e.fraction)) with
      | none => some 1
      | some (.num q) => some q
      | some _ => none) = some e.fraction := by
    by_cases h : e.fraction = 1
    · rw [if_pos h, h]
    · rw [if_neg h]
  have hc : (match (if e.contrib = defaultContrib then none else some (Val.list (e.contrib.map .str))) with
      | none => some defaultContrib
      | some (.list l) => readStrs l
      | some _ => none) = some e.contrib := by
    by_cases h : e.contrib = defaultContrib
    · rw [if_pos h, h]
    · rw [if_neg h]
      exact readStrs_map _
  rw [hf, hc]

/-- The event without its query. -/
theorem ev_round_named (U : Units) (hU : U.Ok) (hK : U.Knows) (e : Ev) :
    evParse U ((evJson e).pop "transition_query") = .ok { e with tq := defaultTQ } := by
  have h := ev_round U hU hK { e with tq := defaultTQ } 
    ((by unfold Spec.TQOk; decide : Spec.TQOk defaultTQ))
  obtain ⟨h1, h2, h3, h4, h5, h6⟩ := get?_evJson e
  obtain ⟨g1, g2, g3, g4, g5, g6⟩ := get?_evJson { e with tq := defaultTQ }
  rw [← h]
  have e6 : Dict.get? ((evJson e).pop "transition_query") "transition_query" = none := by
    rw [get?_pop]; simp
  have e0 : ∀ k, "transition_query" ≠ k → Dict.get? ((evJson e).pop "transition_query") k =
      Dict.get? (evJson e) k := by
    intro k hk
    rw [get?_pop, if_neg hk]
  unfold evParse readQty
  rw [e6, e0 _ (by decide), e0 _ (by decide), e0 _ (by decide), e0 _ (by decide), e0 _ (by decide),
    h1, h2, h3, h4, h5, g1, g2, g3, g4, g5, g6]
  have : tqParse (tqJson defaultTQ) = defaultTQ := by decide +kernel
  simp only [this]

theorem strip_get (glb : Dict Val) (h : glb.WF) (ev : Dict Val) (k : String) :
    Dict.get? (glb.foldl (fun ev p => if Dict.get? ev p.1 = some p.2 then Dict.pop ev p.1 else ev) ev) k =
      if (∃ v, glb.get? k = some v ∧ ev.get? k = some v) then none else ev.get? k := by
  induction glb generalizing ev with
  | nil => simp
  | cons p glb ih =>
    have hd : Dict.WF glb := by
      unfold Dict.WF at h ⊢
      rw [List.map_cons, List.nodup_cons] at h
      exact h.2
    have hp : p.1 ∉ glb.map Prod.fst := by
      unfold Dict.WF at h
      rw [List.map_cons, List.nodup_cons] at h
      exact h.1
    rw [List.foldl_cons, ih hd, get?_cons]
    by_cases hk : p.1 = k
    · subst hk
      have hn : Dict.get? glb p.1 = none := by rw [get?_eq_none_iff]; exact hp
      rw [if_neg (by rw [hn]; rintro ⟨v, hv, _⟩; cases hv), if_pos rfl]
      by_cases hv : Dict.get? ev p.1 = some p.2
      · rw [if_pos hv, if_pos ⟨p.2, rfl, hv⟩, get?_pop, if_pos rfl]
      · rw [if_neg hv, if_neg]
        rintro ⟨v, h1, h2⟩
        injection h1 with h1
        rw [← h1] at h2
        exact hv h2
    · rw [if_neg hk]
      by_cases hv : Dict.get? ev p.1 = some p.2
      · rw [if_pos hv, get?_pop, if_neg hk]
      · rw [if_neg hv]

theorem globalJson_wf (e : Ev) : (globalJson e).WF := by
  show listG.Nodup
  decide

theorem globalJson_keys (e : Ev) (k : String) (v : Val) (h : (globalJson e).get? k = some v) :
    k ∈ listG := by
  have := (has_iff_mem (globalJson e) k).mp ((has_iff _ _).mpr ⟨v, h⟩)
  exact this

/-- Removing the global values and putting them back. -/
theorem strip_fill (e0 e : Ev) (named : Bool) (k : String) :
    Dict.get? (fillEvent (globalsOf (globalJson e0)) (stripEv (globalJson e0) named (evJson e))) k =
      Dict.get? (if named then (evJson e).pop "transition_query" else evJson e) k := by
  obtain ⟨_, h2, h3, h4, _, _⟩ := get?_evJson e
  rw [fillEvent_get _ _ (globalsOf_wf _), globalsOf_get]
  have hs : ∀ k, Dict.get? (stripEv (globalJson e0) named (evJson e)) k =
      if named = true ∧ k = "transition_query" then none else
      if (∃ v, (globalJson e0).get? k = some v ∧ (evJson e).get? k = some v) then none
        else (evJson e).get? k := by
    intro k
    unfold stripEv
    simp only
    cases named with
    | false =>
      simp only [Bool.false_eq_true, if_false, false_and]
      exact strip_get _ (globalJson_wf e0) _ k
    | true =>
      simp only [if_true, true_and]
      rw [get?_pop, strip_get _ (globalJson_wf e0)]
      by_cases hk : k = "transition_query"
      · rw [if_pos hk, if_pos hk.symm]
      · rw [if_neg hk, if_neg (fun h => hk h.symm)]
  have ht : "transition_query" ∉ listG := by decide
  have hr : Dict.get? (if named then (evJson e).pop "transition_query" else evJson e) k =
      if named = true ∧ k = "transition_query" then none else (evJson e).get? k := by
    cases named with
    | false => simp
    | true =>
      simp only [if_true, true_and]
      rw [get?_pop]
      by_cases hk : k = "transition_query"
      · rw [if_pos hk, if_pos hk.symm]
      · rw [if_neg hk, if_neg (fun h => hk h.symm)]
  rw [hr, hs]
  by_cases hnt : named = true ∧ k = "transition_query"
  · rw [if_pos hnt, if_pos hnt]
    rw [hnt.2, if_neg ht]
    rfl
  · rw [if_neg hnt, if_neg hnt]
    by_cases hex : ∃ v, (globalJson e0).get? k = some v ∧ (evJson e).get? k = some v
    · rw [if_pos hex]
      obtain ⟨v, hv1, hv2⟩ := hex
      rw [if_pos (globalJson_keys e0 k v hv1), hv1, hv2]
      rfl
    · rw [if_neg hex]
      cases hev : (evJson e).get? k with
      | some v => rfl
      | none =>
        by_cases hl : k ∈ listG
        · exfalso
          unfold listG at hl
          simp only [List.mem_cons, List.not_mem_nil, or_false] at hl
          rcases hl with rfl | rfl | rfl
          · rw [h2] at hev; cases hev
          · rw [h3] at hev; cases hev
          · rw [h4] at hev; cases hev
        · rw [if_neg hl]
          rfl

theorem dim_round (U : Units) (hU : U.Ok) (hK : U.Knows) (d : SDim) (hn : 1 ≤ d.count) :
    dimParse U (dimJson d) = .ok d := by
  obtain ⟨n, sw, ref, o⟩ := d
  have h1 : Dict.get? (dimJson ⟨n, sw, ref, o⟩) "spectral_width" = some (qty sw "Hz") := by
    unfold dimJson; simp [get?_cons]
  have h2 : Dict.get? (dimJson ⟨n, sw, ref, o⟩) "reference_offset" = some (qty ref "Hz") := by
    unfold dimJson; simp [get?_cons]
  have h3 : Dict.get? (dimJson ⟨n, sw, ref, o⟩) "count" = some (.num n) := by
    unfold dimJson; simp [get?_cons]
  have h4 : Dict.get? (dimJson ⟨n, sw, ref, o⟩) "origin_offset" = o.map fun o => qty o "Hz" := by
    unfold dimJson; cases o <;> simp [get?_cons]
  unfold dimParse readQty
  rw [h1, h2, h3, h4]
  simp only
  rw [enforce_qty U hU _ _ _ hK.hz, enforce_qty U hU _ _ _ hK.hz]
  simp only
  have hnat : (if (n : ℚ).den = 1 ∧ 0 < (n : ℚ).num then some (n : ℚ).num.toNat else none) = some n := by
    simp only at hn
    rw [if_pos]
    · simp
    · simp
      omega
  rw [hnat]
  cases o with
  | none => rfl
  | some v =>
    simp only [Option.map_some]
    rw [enforce_qty U hU _ _ _ hK.hz]
    rfl

/-- The event is not described by the global values of the method alone: it differs from the
first event in flux density, rotor frequency or angle, or has its own fraction or frequency
contributions. -/
def Spec.Distinct (e0 e : Ev) : Prop :=
  e.mfd ≠ e0.mfd ∨ e.rf ≠ e0.rf ∨ e.ra ≠ e0.ra ∨ e.fraction ≠ 1 ∨ e.contrib ≠ defaultContrib

theorem qty_ne (a b : ℚ) (u : String) (h : a ≠ b) : qty a u ≠ qty b u := by
  intro e
  unfold qty at e
  injection e with e
  injection e with e _
  injection e with e
  exact h e

theorem strip_ne_nil (e0 e : Ev) (named : Bool) (h : named = false ∨ Spec.Distinct e0 e) :
    stripEv (globalJson e0) named (evJson e) ≠ [] := by
  obtain ⟨h1, h2, h3, h4, h5, h6⟩ := get?_evJson e
  have g2 : Dict.get? (globalJson e0) "magnetic_flux_density" = some (qty e0.mfd "T") := rfl
  have g3 : Dict.get? (globalJson e0) "rotor_frequency" = some (qty e0.rf "Hz") := rfl
  have g4 : Dict.get? (globalJson e0) "rotor_angle" = some (qty e0.ra "rad") := rfl
  have g1 : Dict.get? (globalJson e0) "fraction" = none := rfl
  have g5 : Dict.get? (globalJson e0) "freq_contrib" = none := rfl
  have g6 : Dict.get? (globalJson e0) "transition_query" = none := rfl
  -- some entry stays
  have stays : ∀ k v, (named = false ∨ k ≠ "transition_query") → (evJson e).get? k = some v →
      (globalJson e0).get? k ≠ some v → stripEv (globalJson e0) named (evJson e) ≠ [] := by
    intro k v hk hv hg hnil
    have hs := strip_get (globalJson e0) (globalJson_wf e0) (evJson e) k
    rw [if_neg (by
      rintro ⟨w, w1, w2⟩
      rw [hv] at w2
      rw [w1] at hg
      exact hg w2.symm), hv] at hs
    have h0 : Dict.get? (stripEv (globalJson e0) named (evJson e)) k = some v := by
      unfold stripEv
      simp only
      cases named with
      | false => exact hs
      | true =>
        simp only [if_true]
        rw [get?_pop, if_neg]
        · exact hs
        · intro c
          rcases hk with hk | hk
          · cases hk
          · exact hk c.symm
    rw [hnil] at h0
    cases h0
  rcases h with h | h | h | h | h | h
  · exact stays _ _ (Or.inl h) h6 (by rw [g6]; exact fun c => by cases c)
  · exact stays _ _ (Or.inr (by decide)) h2 (by rw [g2]; exact fun c => qty_ne _ _ _ h (Option.some.inj c).symm)
  · exact stays _ _ (Or.inr (by decide)) h3 (by rw [g3]; exact fun c => qty_ne _ _ _ h (Option.some.inj c).symm)
  · exact stays _ _ (Or.inr (by decide)) h4 (by rw [g4]; exact fun c => qty_ne _ _ _ h (Option.some.inj c).symm)
  · rw [if_neg h] at h1
    exact stays _ _ (Or.inr (by decide)) h1 (by rw [g1]; exact fun c => by cases c)
  · rw [if_neg h] at h5
    exact stays _ _ (Or.inr (by decide)) h5 (by rw [g5]; exact fun c => by cases c)

/-! ## C21 -/

/-- What is read back: the same events, for named methods with the default query (which the
class of the method replaces). -/
def Spec.expected (named : Bool) (d : Dim) : Dim :=
  ⟨d.sd, d.events.map fun e => if named then { e with tq := defaultTQ } else e⟩

/-- **C21, partial.** For every method with at least one event in every dimension, written and read
back: every dimension has the same attributes and the same list of events, each with the same
flux density, rotor frequency, rotor angle, fraction, frequency contributions and (if the
method is not named) transition query. For named methods each dimension needs a single event
or an event that differs from the global values. Missing: see the counterexamples. -/
theorem C21_round_trip_partial (U : Units) (hU : U.Ok) (hK : U.Knows) (named : Bool) (d0 : Dim)
    (e0 : Ev) (rest : List Dim) (es : List Ev) (h0 : d0.events = e0 :: es)
    (hdim : ∀ d ∈ d0 :: rest, 1 ≤ d.sd.count ∧ d.events ≠ [])
    (htq : named = false → ∀ d ∈ d0 :: rest, ∀ e ∈ d.events, Spec.TQOk e.tq)
    (hnamed : named = true → ∀ d ∈ d0 :: rest, d.events.length = 1 ∨
      ∃ e ∈ d.events, Spec.Distinct e0 e) :
    ∃ top ds, methodJson named (d0 :: rest) = .ok (top, ds) ∧
      methodParse U top ds = .ok ((d0 :: rest).map (Spec.expected named)) := by
  refine ⟨globalJson e0, (d0 :: rest).map (stripDim (globalJson e0) named), ?_, ?_⟩
  · unfold methodJson
    simp only [h0]
  · unfold methodParse expand
    simp only
    rw [List.map_map]
    apply mapPy_map
    intro d hd
    obtain ⟨hc, hne⟩ := hdim d hd
    simp only [Function.comp]
    set evs := d.events.map fun e => stripEv (globalJson e0) named (evJson e) with hevs
    have hget : ((stripDim (globalJson e0) named d).events.getD [[]]) = evs := by
      unfold stripDim
      simp only [← hevs]
      by_cases hall : evs = evs.map (fun _ => ([] : Dict Val))
      · rw [if_pos hall]
        simp only [Option.getD_none]
        have hone : d.events.length = 1 := by
          by_contra hlen
          have hex : ∃ e ∈ d.events, named = false ∨ Spec.Distinct e0 e := by
            cases hn : named with
            | false =>
              obtain ⟨e, he⟩ := List.exists_mem_of_ne_nil _ hne
              exact ⟨e, he, Or.inl rfl⟩
            | true =>
              rcases hnamed hn d hd with h | ⟨e, he, h⟩
              · exact absurd h hlen
              · exact ⟨e, he, Or.inr h⟩
          obtain ⟨e, he, hor⟩ := hex
          apply strip_ne_nil e0 e named hor
          have hm : stripEv (globalJson e0) named (evJson e) ∈ evs := List.mem_map.mpr ⟨e, he, rfl⟩
          rw [hall, List.mem_map] at hm
          obtain ⟨_, _, h⟩ := hm
          exact h.symm
        have hl : evs.length = 1 := by rw [hevs, List.length_map]; exact hone
        match evs, hl, hall with
        | [x], _, hall =>
          rw [hall]
          rfl
      · rw [if_neg hall]
        rfl
    unfold dimParseAll fillDim
    simp only [hget, Option.getD_some]
    rw [hevs, List.map_map]
    rw [mapPy_map (evParse U) _ (fun e => if named then { e with tq := defaultTQ } else e) d.events (by
      intro e he
      simp only [Function.comp]
      rw [evParse_congr U _ _ (fun k _ => strip_fill e0 e named k)]
      cases hn : named with
      | false =>
        simp only [Bool.false_eq_true, if_false]
        exact ev_round U hU hK e (htq hn d hd e he)
      | true =>
        simp only [if_true]
        exact ev_round_named U hU hK e)]
    simp only
    have : (stripDim (globalJson e0) named d).attrs = dimJson d.sd := rfl
    rw [this, dim_round U hU hK d.sd hc]
    rfl

example :
    let m : List Dim := [⟨⟨5, 10, 1, none⟩, [defaultEv, { defaultEv with rf := 5, fraction := 1/2 }]⟩,
      ⟨⟨4, 3, -2, some 7⟩, [{ defaultEv with mfd := 3 }]⟩]
    ((methodJson false m).map fun r => methodParse stdUnits r.1 r.2) = .ok (.ok m) := by decide +kernel

/-- **C21, where the code disagrees (named methods).** A named method whose dimension has two
equal events is read back with one event. -/
theorem C21_counterexample_count :
    let m : List Dim := [⟨⟨5, 10, 1, none⟩, [defaultEv, defaultEv]⟩]
    ((methodJson true m).map fun r => methodParse stdUnits r.1 r.2) =
      .ok (.ok [⟨⟨5, 10, 1, none⟩, [defaultEv]⟩]) := by decide +kernel

/-- **C21, where the code disagrees (missing P).** A query whose `P` is `None` is read back with the
default `P`. -/
theorem C21_counterexample_query :
    let q : TQ := ⟨none, some (.dict [("channel-1", .list [.list [.num 0]])]), none, none⟩
    let m : List Dim := [⟨⟨5, 10, 1, none⟩, [{ defaultEv with tq := q }]⟩]
    ((methodJson false m).map fun r => methodParse stdUnits r.1 r.2) =
      .ok (.ok [⟨⟨5, 10, 1, none⟩, [{ defaultEv with tq := { q with P := some defaultP } }]⟩]) := by
  decide +kernel

/-- **C21, where the code disagrees (no events).** A dimension without events is read back with one
event; if it is the first dimension, the method cannot be written at all. -/
theorem C21_counterexample_empty :
    ((methodJson false [⟨⟨5, 10, 1, none⟩, [defaultEv]⟩, ⟨⟨4, 3, 0, none⟩, []⟩]).map fun r =>
      methodParse stdUnits r.1 r.2) =
      .ok (.ok [⟨⟨5, 10, 1, none⟩, [defaultEv]⟩, ⟨⟨4, 3, 0, none⟩, [defaultEv]⟩]) ∧
    (methodJson false [⟨⟨5, 10, 1, none⟩, []⟩]).map (fun _ => ()) = .error .indexError := by
  decide +kernel

end MRS.Meth
