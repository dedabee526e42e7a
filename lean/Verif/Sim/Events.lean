import Mathlib.Algebra.BigOperators.Group.List.Basic
import Mathlib.Data.Rat.Floor
import Mathlib.Tactic.NormNum
import Mathlib.Tactic.FinCases
import Mathlib.Tactic.LinearCombination
import Mathlib.Tactic.IntervalCases
import Mathlib.Data.ZMod.Basic
import Verif.Py

/-!
# Events of a simulation — properties C41, C42, C43, C44, C64

Model of src/c_lib/lib/mrsimulator.c:453-524 (frequency-contribution switches),
src/c_lib/lib/method.c:20-130 (plans), src/c_lib/base/base_model.pyx:118-154 (rotor loop)
and src/c_lib/lib/angular_momentum.c:896-952 (phase buffer).
-/

namespace MRS.Sim

/-! ## Frequency-contribution switches -/

/-- A site as seen by `MRS_rotate_single_site_interaction_components`
(mrsimulator.c:453-524): its quantum numbers before and after the transition, its spin
and the six contributions in the order of simulation.c:56-61. The contributions are the
values that the `FCF_…` functions store in `R0_temp`, `R2_temp`, `R4_temp`; they live in
one module `V` of triples (R0, R2, R4), each being zero outside its own rank. -/
structure SiteC (V : Type) where
  mi : ℚ
  mf : ℚ
  spin : ℚ
  contrib : Fin 6 → V

/-- Six consecutive reads `*freq_contrib++`: here one read at address `p`; a read past the
end of the array is undefined (mrsimulator.c lines 470-523). -/
def readFlag (flags : List Bool) (p : Nat) : Py Bool :=
  match flags[p]? with
  | some b => .ok b
  | none => .error .undefinedBehaviour

/-- One `if (*freq_contrib++) R += …` (mrsimulator.c lines 470-523). -/
def addIf {V : Type} [Add V] (flags : List Bool) (s : V × Nat) (c : V) : Py (V × Nat) :=
  match readFlag flags s.2 with
  | .error e => .error e
  | .ok b => .ok (if b then s.1 + c else s.1, s.2 + 1)

/-- A sequence of such statements (mrsimulator.c lines 470-523). -/
def addIfs {V : Type} [Add V] (flags : List Bool) : V × Nat → List V → Py (V × Nat)
  | s, [] => .ok s
  | s, c :: cs =>
    match addIf flags s c with
    | .error e => .error e
    | .ok s => addIfs flags s cs

/-- mrsimulator.c:470-523, one turn of the loop over sites: sites whose quantum number
does not change are skipped without moving the pointer; a spin-1/2 site has the two
shielding terms; other sites have three or six terms. -/
def siteTurn {V : Type} [Add V] (allow4 : Bool) (flags : List Bool) (s : V × Nat) (a : SiteC V) :
    Py (V × Nat) :=
  if a.mi = a.mf then .ok s
  else if a.spin = 1 / 2 then addIfs flags s [a.contrib 0, a.contrib 1]
  else if allow4 then addIfs flags s
    [a.contrib 0, a.contrib 1, a.contrib 2, a.contrib 3, a.contrib 4, a.contrib 5]
  else addIfs flags s [a.contrib 0, a.contrib 1, a.contrib 2]

/-- mrsimulator.c:471-523, the loop. `p` is the pointer at entry. -/
def siteLoop {V : Type} [Add V] (allow4 : Bool) (flags : List Bool) : V × Nat → List (SiteC V) → Py (V × Nat)
  | s, [] => .ok s
  | s, a :: as =>
    match siteTurn allow4 flags s a with
    | .error e => .error e
    | .ok s => siteLoop allow4 flags s as

/-- simulation.c:113-133 for event number `e`: components zeroed, pointer `6 * e`. `flags`
is the whole stack of flags built by base_model.pyx:121. -/
def eventComponents {V : Type} [AddCommMonoid V] (allow4 : Bool) (flags : List Bool) (e : Nat)
    (sites : List (SiteC V)) : Py V :=
  match siteLoop allow4 flags ((0 : V), 6 * e) sites with
  | .error x => .error x
  | .ok s => .ok s.1

/-- event.py:108-112 `_freq_contrib_flags`: the six flags of an event from its list of
enabled contributions (indices into `freq_list_all`). -/
def contribFlags (enabled : List Nat) : List Bool :=
  (List.range 6).map fun k => decide (k ∈ enabled)

/-- base_model.pyx:107,121: the flags of all events, one after another. -/
def flagStack (events : List (List Nat)) : List Bool := events.flatMap contribFlags

namespace Spec

/-- The contributions a site has: shielding only for spin 1/2; the second-order quadrupolar
ones only if the observed nucleus is quadrupolar (`allow4`). -/
def applies {V : Type} (allow4 : Bool) (a : SiteC V) (k : Fin 6) : Bool :=
  decide (k.val < 2) || (decide (a.spin ≠ 1 / 2) && (decide (k.val < 3) || allow4))

/-- What the components of an event should be: over all sites whose quantum number changes,
the sum of the enabled contributions. -/
def components {V : Type} [AddCommMonoid V] (allow4 : Bool) (enabled : List Nat)
    (sites : List (SiteC V)) : V :=
  ((sites.filter fun a => decide (a.mi ≠ a.mf)).map fun a =>
    ((List.finRange 6).map fun k =>
      if applies allow4 a k = true ∧ k.val ∈ enabled then a.contrib k else 0).sum).sum

end Spec

theorem contribFlags_length (l : List Nat) : (contribFlags l).length = 6 := by
  simp [contribFlags]

theorem contribFlags_get (l : List Nat) (k : Nat) (h : k < 6) :
    (contribFlags l)[k]? = some (decide (k ∈ l)) := by
  unfold contribFlags
  rw [List.getElem?_map, List.getElem?_range h]
  rfl

theorem flagStack_get (events : List (List Nat)) (e k : Nat) (l : List Nat)
    (he : events[e]? = some l) (hk : k < 6) :
    (flagStack events)[6 * e + k]? = some (decide (k ∈ l)) := by
  induction events generalizing e with
  | nil => simp at he
  | cons a events ih =>
    unfold flagStack
    rw [List.flatMap_cons]
    cases e with
    | zero =>
      simp only [List.getElem?_cons_zero, Option.some.injEq] at he
      subst he
      rw [List.getElem?_append_left (by rw [contribFlags_length]; omega)]
      simpa using contribFlags_get a k hk
    | succ e =>
      rw [List.getElem?_append_right (by rw [contribFlags_length]; omega), contribFlags_length]
      have := ih e (by simpa using he)
      rw [show 6 * (e + 1) + k - 6 = 6 * e + k by omega]
      exact this

theorem addIf_eq {V : Type} [Add V] (flags : List Bool) (v : V) (p : Nat) (c : V) (b : Bool)
    (h : flags[p]? = some b) :
    addIf flags (v, p) c = .ok (if b = true then v + c else v, p + 1) := by
  unfold addIf readFlag
  simp only [h]

/-- The components of one active site starting at pointer `6 e` are right. -/
theorem siteTurn_eq {V : Type} [AddCommMonoid V] (allow4 : Bool) (events : List (List Nat)) (e : Nat)
    (l : List Nat) (he : events[e]? = some l) (v : V) (a : SiteC V) (ha : a.mi ≠ a.mf) :
    ∃ q, siteTurn allow4 (flagStack events) (v, 6 * e) a =
      .ok (v + Spec.components allow4 l [a], q) := by
  have g := fun k hk => flagStack_get events e k l he hk
  have hif : ∀ (p : Prop) [Decidable p] (v c : V), (if p then v + c else v) = v + (if p then c else 0) := by
    intro p _ v c
    split_ifs <;> simp
  have h0 := g 0 (by omega)
  rw [Nat.add_zero] at h0
  unfold siteTurn
  rw [if_neg ha]
  unfold Spec.components
  have hfr : List.finRange 6 = [0, 1, 2, 3, 4, 5] := by decide
  simp only [List.filter_cons, ne_eq, ha, not_false_eq_true, decide_true, if_true, List.filter_nil,
    List.map_cons, List.map_nil, List.sum_cons, List.sum_nil, add_zero, hfr, Spec.applies]
  by_cases hs : a.spin = 1 / 2
  · rw [if_pos hs]
    refine ⟨6 * e + 1 + 1, ?_⟩
    simp only [addIfs, addIf_eq _ _ _ _ _ h0, addIf_eq _ _ _ _ _ (g 1 (by omega)), hif]
    simp [hs, add_assoc]
  · rw [if_neg hs]
    rw [one_div] at hs
    cases allow4
    · refine ⟨6 * e + 1 + 1 + 1, ?_⟩
      simp only [addIfs, addIf_eq _ _ _ _ _ h0, addIf_eq _ _ _ _ _ (g 1 (by omega)),
        addIf_eq _ _ _ _ _ (g 2 (by omega)), hif, Bool.false_eq_true, if_false]
      simp [hs, add_assoc]
    · refine ⟨6 * e + 1 + 1 + 1 + 1 + 1 + 1, ?_⟩
      simp only [addIfs, addIf_eq _ _ _ _ _ h0, addIf_eq _ _ _ _ _ (g 1 (by omega)),
        addIf_eq _ _ _ _ _ (g 2 (by omega)), addIf_eq _ _ _ _ _ (g 3 (by omega)),
        addIf_eq _ _ _ _ _ (g 4 (by omega)), addIf_eq _ _ _ _ _ (g 5 (by omega)), hif, if_true]
      simp [hs, add_assoc]

theorem siteLoop_inactive {V : Type} [AddCommMonoid V] (allow4 : Bool) (flags : List Bool) (s : V × Nat)
    (sites : List (SiteC V)) (h : ∀ a ∈ sites, a.mi = a.mf) :
    siteLoop allow4 flags s sites = .ok s := by
  induction sites with
  | nil => rfl
  | cons a sites ih =>
    have ha : a.mi = a.mf := h a (by simp)
    rw [siteLoop]
    unfold siteTurn
    rw [if_pos ha]
    exact ih (fun b hb => h b (by simp [hb]))

theorem components_cons {V : Type} [AddCommMonoid V] (allow4 : Bool) (l : List Nat)
    (a : SiteC V) (sites : List (SiteC V)) :
    Spec.components allow4 l (a :: sites) = Spec.components allow4 l [a] +
      Spec.components allow4 l sites := by
  unfold Spec.components
  by_cases h : a.mi = a.mf <;> simp [h]

theorem components_inactive {V : Type} [AddCommMonoid V] (allow4 : Bool) (l : List Nat)
    (sites : List (SiteC V)) (h : ∀ a ∈ sites, a.mi = a.mf) :
    Spec.components allow4 l sites = 0 := by
  unfold Spec.components
  have : sites.filter (fun a => decide (a.mi ≠ a.mf)) = [] := by
    rw [List.filter_eq_nil_iff]
    intro a ha
    simp [h a ha]
  rw [this]
  rfl

/-- **C41 (one active site), partial.** For every method and every event of it, if at most one
site of the spin system changes its quantum number, the components of the event are the sum
of exactly the enabled contributions of that site. Missing: several active sites, see
`C41_counterexample`. -/
theorem C41_single_partial {V : Type} [AddCommMonoid V] (allow4 : Bool) (events : List (List Nat))
    (e : Nat) (l : List Nat) (he : events[e]? = some l) (sites : List (SiteC V))
    (hone : sites.Pairwise fun a b => a.mi = a.mf ∨ b.mi = b.mf) :
    eventComponents allow4 (flagStack events) e sites = .ok (Spec.components allow4 l sites) := by
  unfold eventComponents
  suffices ∃ q, siteLoop allow4 (flagStack events) ((0 : V), 6 * e) sites =
      .ok (Spec.components allow4 l sites, q) by
    obtain ⟨q, hq⟩ := this
    rw [hq]
  induction sites with
  | nil => exact ⟨6 * e, rfl⟩
  | cons a sites ih =>
    rw [List.pairwise_cons] at hone
    rw [components_cons, siteLoop]
    by_cases ha : a.mi = a.mf
    · rw [show siteTurn allow4 (flagStack events) ((0 : V), 6 * e) a = .ok ((0 : V), 6 * e) by
        unfold siteTurn; rw [if_pos ha]]
      rw [components_inactive allow4 l [a] (by simpa using ha), zero_add]
      exact ih hone.2
    · have hin : ∀ b ∈ sites, b.mi = b.mf := fun b hb => (hone.1 b hb).resolve_left ha
      obtain ⟨q, hq⟩ := siteTurn_eq allow4 events e l he (0 : V) a ha
      rw [hq]
      refine ⟨q, ?_⟩
      rw [components_inactive allow4 l sites hin, add_zero, zero_add]
      exact siteLoop_inactive _ _ _ _ hin

/-- Two events, the second with only the second-order terms; a coupled pair of which the
second site flips. -/
example : eventComponents (V := ℚ) true (flagStack [[0, 1, 2, 3, 4, 5], [3, 5]]) 1
    [⟨1/2, 1/2, 1/2, fun _ => 100⟩, ⟨1/2, -1/2, 3/2, fun k => 2 ^ k.val⟩] = .ok 40 := by
  decide +kernel

/-- **C41, where the code disagrees.** Two spin-1/2 sites flip together and only the isotropic
shielding is enabled: the second site reads the flags of the quadrupolar terms (positions
2 and 3) and loses its contribution. With four such sites the flags of the next event, and
at the end of the list memory outside the array, are read. -/
theorem C41_counterexample :
    let a : SiteC ℚ := ⟨1/2, -1/2, 1/2, fun k => if k = 0 then 1 else 10⟩
    eventComponents false (flagStack [[0]]) 0 [a, a] = .ok 1 ∧
    Spec.components false [0] [a, a] = 2 ∧
    eventComponents false (flagStack [[0, 1, 2, 3, 4, 5]]) 0 [a, a, a, a] =
      .error .undefinedBehaviour := by
  decide +kernel

/-! ## Plans -/

/-- The tables of a plan, each recording the arguments it was computed from
(mrsimulator.c:53-208). The contents of the tables are left abstract. -/
structure Plan (K : Type) where
  freq : K            -- sample_rotation_frequency_in_Hz
  angle : K           -- rotor_angle_in_rad
  vrFreq : K          -- rotor frequency `vr_freq` was computed for
  prePhase : K        -- rotor frequency `pre_phase` was computed for
  dm0 : K             -- rotor angle of `wigner_d2m0_vector`, `wigner_d4m0_vector`
  prePhase24 : K × K  -- (frequency, angle) of `pre_phase_2`, `pre_phase_4`
  deriving DecidableEq

/-- mrsimulator.c:134-208 `MRS_plan_update_from_rotor_angle_in_rad`. -/
def updateAngle {K : Type} (p : Plan K) (angle : K) : Plan K :=
  { p with angle := angle, dm0 := angle, prePhase24 := (p.prePhase, angle) }

/-- mrsimulator.c:100-129 `MRS_plan_update_from_sample_rotation_frequency_in_Hz`. -/
def updateFreq {K : Type} (p : Plan K) (freq : K) : Plan K :=
  let p := { p with freq := freq, vrFreq := freq, prePhase := freq }
  updateAngle p p.angle

/-- mrsimulator.c:53-95 `MRS_create_plan`. The tables set up by `updateFreq` are
uninitialised before; any value does. -/
def createPlan {K : Type} (freq angle : K) : Plan K :=
  updateFreq ⟨freq, angle, freq, freq, angle, (freq, angle)⟩ freq

/-- method.c:20-54 `MRS_set_event`: the plan of an event. `none` is an uninitialised
pointer: `events` is allocated by `malloc` (line 71) and the field is not set. -/
def setEvent {K : Type} [DecidableEq K] (freq angle : K) (plan : Plan K) : Option (Plan K) :=
  if freq = plan.freq ∧ angle = plan.angle then some plan
  else if freq ≠ plan.freq ∧ angle = plan.angle then some (updateFreq plan freq)
  else if freq = plan.freq ∧ angle ≠ plan.angle then some (updateAngle plan angle)
  else none

/-- method.c:61-92 `create_plans_for_events_in_dimension` on the (frequency, angle) pairs of
the events of a dimension. With no event, line 74 reads the entry of the next dimension;
that case is left out (`[]`). -/
def createPlans {K : Type} [DecidableEq K] : List (K × K) → List (Option (Plan K))
  | [] => []
  | ev :: evs =>
    let plan := createPlan ev.1 ev.2
    (ev :: evs).map fun x => setEvent x.1 x.2 plan

/-- A plan made for one rotor frequency and angle: every table is computed from them. -/
def Spec.madeFor {K : Type} (freq angle : K) (p : Plan K) : Prop :=
  p.freq = freq ∧ p.angle = angle ∧ p.vrFreq = freq ∧ p.prePhase = freq ∧ p.dm0 = angle ∧
    p.prePhase24 = (freq, angle)

/-- **C42, partial.** In a dimension in which every event shares the rotor frequency or the
rotor angle with the first event, every event has a plan with all tables computed for its
own frequency and angle. Missing: events differing in both, see `C42_counterexample`. -/
theorem C42_plans_partial {K : Type} [DecidableEq K] (ev : K × K) (evs : List (K × K))
    (h : ∀ x ∈ evs, x.1 = ev.1 ∨ x.2 = ev.2) (i : Nat) (x : K × K)
    (hi : (ev :: evs)[i]? = some x) :
    ∃ p, (createPlans (ev :: evs))[i]? = some (some p) ∧ Spec.madeFor x.1 x.2 p := by
  have hx : x.1 = ev.1 ∨ x.2 = ev.2 := by
    have hm := List.mem_of_getElem? hi
    rcases List.mem_cons.mp hm with rfl | hm
    · exact .inl rfl
    · exact h x hm
  unfold createPlans
  simp only [List.getElem?_map, hi, Option.map_some, Option.some.injEq]
  obtain ⟨a, b⟩ := ev
  obtain ⟨c, d⟩ := x
  simp only [createPlan, updateFreq, updateAngle] at *
  unfold setEvent Spec.madeFor
  by_cases h1 : c = a <;> by_cases h2 : d = b
  · subst h1 h2; exact ⟨_, if_pos ⟨rfl, rfl⟩, rfl, rfl, rfl, rfl, rfl, rfl⟩
  · subst h1
    refine ⟨_, by rw [if_neg (by simp [h2]), if_neg (by simp [h2]), if_pos ⟨rfl, h2⟩], ?_⟩
    exact ⟨rfl, rfl, rfl, rfl, rfl, rfl⟩
  · subst h2
    refine ⟨_, by rw [if_neg (by simp [h1]), if_pos ⟨h1, rfl⟩], ?_⟩
    exact ⟨rfl, rfl, rfl, rfl, rfl, rfl⟩
  · exact absurd hx (by simp [h1, h2])

example : ((createPlans [((1000 : ℚ), (1 : ℚ)), (1000, 1/2), (500, 1)]).map fun p =>
    p.map fun p => (p.freq, p.angle)) = [some (1000, 1), some (1000, 1/2), some (500, 1)] := by
  decide +kernel

/-- **C42, where the code disagrees.** If both the rotor frequency and the rotor angle differ
from those of the first event, the plan of the event is never set. This holds for all
values. -/
theorem C42_counterexample {K : Type} [DecidableEq K] (f a f' a' : K) (hf : f' ≠ f) (ha : a' ≠ a) :
    (createPlans [(f, a), (f', a')])[1]? = some none := by
  unfold createPlans
  simp [setEvent, createPlan, updateFreq, updateAngle, hf, ha]

example : (createPlans [((1000 : ℚ), (1 : ℚ)), (500, 1/2)])[1]? = some none :=
  C42_counterexample 1000 1 500 (1/2) (by decide +kernel) (by decide +kernel)

/-! ## Static and spinning events -/

/-- base_model.pyx:118-144, the loop over the events of all dimensions. State:
`(number_of_sidebands, prev_n_sidebands)`; events are (rotor_frequency, rotor_angle) pairs.
Result: the final number of sidebands and the `(srfiH, rair)` list. -/
def rotorLoop (nsb prev : Nat) : List (ℚ × ℚ) → Py (Nat × List (ℚ × ℚ))
  | [] => .ok (nsb, [])
  | ev :: evs =>
    let static := ev.1 < 1 / 1000
    let out : ℚ × ℚ := if static then (1000000000, 0) else ev
    let nsb' := if static then 1 else nsb
    let prev' := if prev = 0 then (if static then 1 else nsb) else prev
    if prev' ≠ nsb' then .error .valueError
    else match rotorLoop nsb' prev' evs with
      | .error e => .error e
      | .ok r => .ok (r.1, out :: r.2)

/-- base_model.pyx:97,118: start of the loop. -/
def rotorSetup (nsb : Nat) (events : List (ℚ × ℚ)) : Py (Nat × List (ℚ × ℚ)) :=
  rotorLoop nsb 0 events

theorem rotorLoop_static (events : List (ℚ × ℚ)) :
    rotorLoop 1 1 events = .ok (1, events.map fun ev => if ev.1 < 1 / 1000 then (1000000000, 0) else ev) := by
  induction events with
  | nil => rfl
  | cons ev evs ih =>
    rw [rotorLoop]
    simp [ih]

theorem rotorLoop_spin (n : Nat) (hn : n ≠ 0) (events : List (ℚ × ℚ)) (h : ∀ ev ∈ events, 1 / 1000 ≤ ev.1) :
    rotorLoop n n events = .ok (n, events) := by
  induction events with
  | nil => rfl
  | cons ev evs ih =>
    have h1 : ¬ ev.1 < 1 / 1000 := not_lt.mpr (h ev (by simp))
    rw [rotorLoop]
    simp only [h1, if_false, hn, ne_eq, not_true_eq_false]
    rw [ih (fun x hx => h x (by simp [hx]))]

theorem rotorLoop_mixed (n : Nat) (hn : n ≠ 0) (h1 : n ≠ 1) (events : List (ℚ × ℚ))
    (h : ∃ ev ∈ events, ev.1 < 1 / 1000) : rotorLoop n n events = .error .valueError := by
  induction events with
  | nil => obtain ⟨_, hm, _⟩ := h; cases hm
  | cons ev evs ih =>
    rw [rotorLoop]
    by_cases hs : ev.1 < 1 / 1000
    · simp only [hs, if_true, hn, if_false]
      rw [if_pos h1]
    · simp only [hs, if_false, hn, ne_eq, not_true_eq_false]
      rw [ih]
      obtain ⟨x, hm, hx⟩ := h
      rcases List.mem_cons.mp hm with rfl | hm
      · exact absurd hx hs
      · exact ⟨x, hm, hx⟩

/-- **C43 (uniform methods).** A method all of whose events are static is accepted with one
sideband; one all of whose events spin is accepted with the configured number of
sidebands and with the given rotor frequencies and angles. -/
theorem C43_uniform (nsb : Nat) (hn : 1 ≤ nsb) (events : List (ℚ × ℚ)) (hne : events ≠ []) :
    ((∀ ev ∈ events, ev.1 < 1 / 1000) →
      rotorSetup nsb events = .ok (1, events.map fun _ => (1000000000, 0))) ∧
    ((∀ ev ∈ events, 1 / 1000 ≤ ev.1) → rotorSetup nsb events = .ok (nsb, events)) := by
  constructor
  · intro h
    cases events with
    | nil => exact absurd rfl hne
    | cons ev evs =>
      unfold rotorSetup
      rw [rotorLoop]
      have h1 := h ev (by simp)
      simp only [h1, if_true, ne_eq, not_true_eq_false, if_false]
      rw [rotorLoop_static]
      simp only [List.map_cons, Except.ok.injEq, Prod.mk.injEq, List.cons.injEq, true_and]
      apply List.map_congr_left
      intro x hx
      rw [if_pos (h x (by simp [hx]))]
  · intro h
    cases events with
    | nil => exact absurd rfl hne
    | cons ev evs =>
      unfold rotorSetup
      rw [rotorLoop]
      have h1 : ¬ ev.1 < 1 / 1000 := not_lt.mpr (h ev (by simp))
      simp only [h1, if_false, ne_eq, not_true_eq_false, if_true]
      rw [rotorLoop_spin nsb (by omega) evs (fun x hx => h x (by simp [hx]))]

example : rotorSetup 64 [(0, 1), (0, 1/2)] = .ok (1, [(1000000000, 0), (1000000000, 0)]) ∧
    rotorSetup 64 [(1000, 1), (500, 1/2)] = .ok (64, [(1000, 1), (500, 1/2)]) := by
  decide +kernel

/-- **C43 (mixed methods), partial.** If the first event spins and a later one is static, the
method is rejected, provided more than one sideband is configured. Missing: a static first
event, see `C43_counterexample`. -/
theorem C43_mixed_partial (nsb : Nat) (hn : 2 ≤ nsb) (ev : ℚ × ℚ) (evs : List (ℚ × ℚ))
    (h0 : 1 / 1000 ≤ ev.1) (h1 : ∃ x ∈ evs, x.1 < 1 / 1000) :
    rotorSetup nsb (ev :: evs) = .error .valueError := by
  unfold rotorSetup
  rw [rotorLoop]
  have h : ¬ ev.1 < 1 / 1000 := not_lt.mpr h0
  simp only [h, if_false, ne_eq, not_true_eq_false, if_true]
  rw [rotorLoop_mixed nsb (by omega) (by omega) evs h1]

example : rotorSetup 64 [(1000, 1), (0, 1/2)] = .error .valueError := by decide +kernel

/-- **C43, where the code disagrees.** With a static first event every later event is
accepted; a spinning event is then simulated with one sideband. For all event lists. -/
theorem C43_counterexample (nsb : Nat) (ev : ℚ × ℚ) (evs : List (ℚ × ℚ)) (h0 : ev.1 < 1 / 1000) :
    ∃ l, rotorSetup nsb (ev :: evs) = .ok (1, l) := by
  unfold rotorSetup
  rw [rotorLoop]
  simp only [h0, if_true, ne_eq, not_true_eq_false, if_false]
  rw [rotorLoop_static]
  exact ⟨_, rfl⟩

example : rotorSetup 64 [(0, 1), (1000, 1/2)] = .ok (1, [(1000000000, 0), (1000, 1/2)]) := by
  decide +kernel

/-! ## Origin offset -/

/-- base_model.pyx:119-154: `Bo` accumulates the flux densities of all events so far and
`dim.origin_offset = |Bo[0] * gamma * 1e6|`; dimensions are lists of flux densities.
`Bo[0]` with no event so far is an IndexError. -/
def originLoop (gamma : ℚ) : List ℚ → List (List ℚ) → Py (List ℚ)
  | _, [] => .ok []
  | bo, d :: ds =>
    match (bo ++ d)[0]? with
    | none => .error .indexError
    | some b => match originLoop gamma (bo ++ d) ds with
      | .error e => .error e
      | .ok r => .ok (|b * gamma * 1000000| :: r)

/-- **C64, partial.** If all events of a method have the same flux density, every dimension's
origin offset is the Larmor frequency at that flux density. Missing: different flux
densities, see `C64_counterexample`. -/
theorem C64_uniform_partial (gamma b : ℚ) (dims : List (List ℚ)) (hne : ∀ d ∈ dims, d ≠ [])
    (h : ∀ d ∈ dims, ∀ x ∈ d, x = b) :
    originLoop gamma [] dims = .ok (dims.map fun _ => |b * gamma| * 1000000) := by
  suffices ∀ bo, (∀ x ∈ bo, x = b) →
      originLoop gamma bo dims = .ok (dims.map fun _ => |b * gamma| * 1000000) from
    this [] (by simp)
  induction dims with
  | nil => intro bo _; rfl
  | cons d ds ih =>
    intro bo hbo
    have hd : d ≠ [] := hne d (by simp)
    have hall : ∀ x ∈ bo ++ d, x = b := by
      intro x hx
      rcases List.mem_append.mp hx with hx | hx
      · exact hbo x hx
      · exact h d (by simp) x hx
    have h0 : (bo ++ d)[0]? = some b := by
      cases hl : bo ++ d with
      | nil => simp at hl; exact absurd hl.2 hd
      | cons y l =>
        simp only [List.getElem?_cons_zero, Option.some.injEq]
        exact hall y (by rw [hl]; simp)
    rw [originLoop]
    simp only [h0]
    rw [ih (fun d hd => hne d (by simp [hd])) (fun d hd => h d (by simp [hd])) (bo ++ d) hall]
    simp only [List.map_cons, Except.ok.injEq, List.cons.injEq, and_true]
    rw [abs_mul (b * gamma), abs_of_pos (by norm_num : (0 : ℚ) < 1000000)]

example : originLoop 10 [] [[9], [9, 9]] = .ok [90000000, 90000000] := by decide +kernel

/-- **C64, where the code disagrees.** A second dimension recorded at another flux density
gets the offset of the first. -/
theorem C64_counterexample : originLoop 10 [] [[9], [18]] = .ok [90000000, 90000000] := by
  decide +kernel

/-! ## The shared phase buffer -/

/-- angular_momentum.c:942-951: one step of the phase buffer. `e m` is the row of
`exp(I m α)` for `m = 1 … 4` at one orientation (rows 3, 2, 1, 0 of `exp_Im_alpha`);
`w4` tells whether `w4 != NULL`; `i` is the imaginary unit. -/
def stepPhase {R : Type} [CommRing R] (i : R) (nOctants : Nat) (w4 : Bool) (e : Nat → R) : Nat → R :=
  if nOctants ≠ 1 then
    fun m => if m = 1 then -i * e m else if m = 2 then -1 * e m
      else if m = 3 ∧ w4 = true then i * e m else e m
  else e

/-- angular_momentum.c:896-952, the loop over octants: the phases used for each octant and
the buffer left behind. -/
def octantPhases {R : Type} [CommRing R] (i : R) (nOctants : Nat) (w4 : Bool) (e : Nat → R) :
    Nat → List (Nat → R) × (Nat → R)
  | 0 => ([], e)
  | j + 1 =>
    let r := octantPhases i nOctants w4 (stepPhase i nOctants w4 e) j
    (e :: r.1, r.2)

/-- The rows the rotation reads: `m = 1, 2`, and with fourth rank also `3, 4`. -/
def usedRow (w4 : Bool) (m : Nat) : Prop := 1 ≤ m ∧ m ≤ (if w4 = true then 4 else 2)

theorem stepPhase_pow {R : Type} [CommRing R] (i u : R) (hi : i * i = -1) (n : Nat) (hn : n ≠ 1) (w4 : Bool)
    (e : Nat → R) (he : ∀ m, usedRow w4 m → e m = u ^ m) (m : Nat) (hm : usedRow w4 m) :
    stepPhase i n w4 e m = (u * -i) ^ m := by
  unfold stepPhase
  rw [if_pos hn]
  unfold usedRow at hm
  have h3 : i ^ 3 = -i := by linear_combination i * hi
  have h4 : i ^ 4 = 1 := by linear_combination (i * i - 1) * hi
  have h2 : i ^ 2 = -1 := by linear_combination hi
  obtain ⟨h1, hle⟩ := hm
  have hm4 : m ≤ 4 := by split_ifs at hle <;> omega
  interval_cases m
  · simp only [if_true]
    rw [he 1 ⟨by omega, by split_ifs <;> omega⟩]
    ring
  · simp only [if_true, show (2 : Nat) ≠ 1 by omega, if_false]
    rw [he 2 ⟨by omega, by split_ifs <;> omega⟩]
    linear_combination (-1) * u ^ 2 * hi
  · have hw : w4 = true := by
      cases w4
      · simp at hle
      · rfl
    subst hw
    simp only [show (3 : Nat) ≠ 1 by omega, show (3 : Nat) ≠ 2 by omega, if_false, and_self, if_true]
    rw [he 3 ⟨by omega, by simp⟩]
    linear_combination u ^ 3 * h3
  · have hw : w4 = true := by
      cases w4
      · simp at hle
      · rfl
    subst hw
    simp only [show (4 : Nat) ≠ 1 by omega, show (4 : Nat) ≠ 2 by omega,
      show (4 : Nat) ≠ 3 by omega, if_false, false_and]
    rw [he 4 ⟨by omega, by simp⟩]
    linear_combination (-1) * u ^ 4 * h4

theorem octantPhases_get {R : Type} [CommRing R] (i u : R) (hi : i * i = -1) (n : Nat) (hn : n ≠ 1)
    (w4 : Bool) (e : Nat → R) (he : ∀ m, usedRow w4 m → e m = u ^ m) (N j : Nat) (hj : j < N) :
    ∃ p, (octantPhases i n w4 e N).1[j]? = some p ∧
      ∀ m, usedRow w4 m → p m = (u * (-i) ^ j) ^ m := by
  induction N generalizing e u j with
  | zero => omega
  | succ N ih =>
    rw [octantPhases]
    cases j with
    | zero => exact ⟨e, rfl, fun m hm => by rw [he m hm]; simp⟩
    | succ j =>
      obtain ⟨p, hp, h⟩ := ih (u * -i) (stepPhase i n w4 e)
        (fun m hm => stepPhase_pow i u hi n hn w4 e he m hm) j (by omega)
      refine ⟨p, by simpa using hp, fun m hm => ?_⟩
      rw [h m hm]
      congr 1
      ring

theorem octantPhases_final {R : Type} [CommRing R] (i : R) (n : Nat) (w4 : Bool) (e : Nat → R) (N : Nat) :
    (octantPhases i n w4 e N).2 = (stepPhase i n w4)^[N] e := by
  induction N generalizing e with
  | zero => rfl
  | succ N ih => rw [octantPhases]; simp only [ih, Function.iterate_succ_apply]

theorem step4 {R : Type} [CommRing R] (i : R) (hi : i * i = -1) (n : Nat) (w4 : Bool) (e : Nat → R) :
    (stepPhase i n w4)^[4] e = e := by
  have h4 : i * (i * (i * i)) = 1 := by linear_combination (i * i - 1) * hi
  funext m
  simp only [Function.iterate_succ_apply, Function.iterate_zero_apply]
  unfold stepPhase
  by_cases hn : n = 1
  · simp [hn]
  · simp only [ne_eq, hn, not_false_eq_true, if_true]
    by_cases h1 : m = 1
    · simp only [h1, if_true]
      linear_combination (e 1) * h4
    · by_cases h2 : m = 2
      · simp only [h2, show (2 : Nat) ≠ 1 by omega, if_true, if_false]
        ring
      · by_cases h3 : m = 3 ∧ w4 = true
        · simp only [h3.2, h3.1, and_self, if_true, show (3 : Nat) ≠ 1 by omega,
            show (3 : Nat) ≠ 2 by omega, if_false]
          linear_combination (e 3) * h4
        · simp only [h1, h2, h3, if_false]

/-- **C44 (restored).** For the octant, the hemisphere and the sphere (1, 4 and 8 octants) the
shared buffer has its original content after the pass, whatever that content was. -/
theorem C44_restored {R : Type} [CommRing R] (i : R) (hi : i * i = -1) (nOctants : Nat)
    (hn : nOctants = 1 ∨ nOctants = 4 ∨ nOctants = 8) (w4 : Bool) (e : Nat → R) :
    (octantPhases i nOctants w4 e nOctants).2 = e := by
  rw [octantPhases_final]
  rcases hn with rfl | rfl | rfl
  · simp [stepPhase]
  · exact step4 i hi 4 w4 e
  · rw [show (8 : Nat) = 4 + 4 by rfl, Function.iterate_add_apply, step4 i hi, step4 i hi]

/-- **C44 (angles).** If the buffer holds the powers `u^m` of the phase
`u` of an orientation, octant `j` uses the powers of `u * (-i)^j`: the azimuth turned by
`j` quarter turns, the same turn in every row. -/
theorem C44_angles {R : Type} [CommRing R] (i u : R) (hi : i * i = -1) (nOctants : Nat)
    (w4 : Bool) (e : Nat → R) (he : ∀ m, usedRow w4 m → e m = u ^ m)
    (j : Nat) (hj : j < nOctants) :
    ∃ p, (octantPhases i nOctants w4 e nOctants).1[j]? = some p ∧
      ∀ m, usedRow w4 m → p m = (u * (-i) ^ j) ^ m := by
  by_cases hn : nOctants = 1
  · subst hn
    obtain rfl : j = 0 := by omega
    exact ⟨e, rfl, fun m hm => by rw [he m hm]; simp⟩
  · exact octantPhases_get i u hi nOctants hn w4 e he nOctants j hj

/-- A ring with an imaginary unit: the integers modulo 13 with `i = 5`; an orientation with
phase 2, hemisphere, fourth rank included. -/
example : (5 : ZMod 13) * 5 = -1 ∧
    ((octantPhases (5 : ZMod 13) 4 true (fun m => 2 ^ m) 4).1.map fun p => [p 1, p 2, p 3, p 4]) =
      [[2, 4, 8, 3], [3, 9, 1, 3], [11, 4, 5, 3], [10, 9, 12, 3]] := by
  decide

end MRS.Sim
