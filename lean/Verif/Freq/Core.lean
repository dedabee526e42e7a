import Verif.Freq.Spinning
import Verif.Freq.Octants

/-!
# Several events and dimensions — property C89

Model of `__mrsimulator_core` (lib/simulation.c:37-168) up to the averaging: the loop over the dimensions and their
events, with what it changes in place (`local_frequency`, `R0_offset`, the phases of the scheme, the pointer into the
pathway), and of `MRS_get_normalized_frequencies_from_plan` (lib/mrsimulator.c:409-451) with fraction and increment.

Simplified: every frequency contribution is enabled (C41 is about the flags), every event has the plan of its own rotor
frequency and angle (C42), floats are reals.
-/

namespace MRS.Freq

open Complex ComplexConjugate

/-- What simulation.c:105-109 reads of `MRS_event` (include/method.h): `magnetic_flux_density_in_T`, `fraction`, and of
its plan the rotor angle (through `wigner_d2m0_vector`, `wigner_d4m0_vector`) and the rotor frequency. -/
structure Event where
  B0 : ℝ
  fraction : ℝ
  θ : ℝ
  νr : ℝ

/-- What the loop reads and writes of `MRS_dimension` (include/method.h). -/
structure Dimension where
  inv : ℝ
  events : List Event
  r0 : ℝ
  freq : ℕ → ℝ

/-- mrsimulator.c:409-451 `MRS_get_normalized_frequencies_from_plan`.  `bs` are the blocks of rotated components that
`__batch_wigner_rotation` wrote.  Line 424 multiplies the array by zero, also when it has just been allocated (a NaN in
fresh memory is outside the model). -/
noncomputable def normalized (W : WC) (four : Bool) (npts : ℕ) (t : Tens) (refresh : Bool) (e : Event) (bs : List Block)
    (d : Dimension) : Dimension :=
  let r0 := if refresh then 0 else d.r0
  let freq := if refresh then fun a => 0 * d.freq a else d.freq
  let r0 := r0 + t.R0 * d.inv * e.fraction
  let b2 := d.inv * dm0Vector2 W (Real.cos e.θ) (Real.sin e.θ) 2 * e.fraction
  let freq := fun a => match bs[a / npts]? with
    | none => freq a
    | some b => freq a + b2 * (b.w2 (a % npts) 2).re
  let b4 := d.inv * dm0Vector4 W (Real.cos e.θ) (Real.sin e.θ) 4 * e.fraction
  let freq := if four then fun a => match bs[a / npts]? with
      | none => freq a
      | some b => freq a + b4 * (b.w4 (a % npts) 4).re
    else freq
  { d with r0 := r0, freq := freq }

/-- The transition at the pointer: `n` initial and `n` final quantum numbers (mrsimulator.c:468, `mi` and `mf`), and
the pointer after simulation.c:149.  Reading beyond the array is undefined. -/
def nextTransition (n : ℕ) (path : List ℝ) : Py ((List ℝ × List ℝ) × List ℝ) :=
  if path.length < 2 * n then .error .undefinedBehaviour
  else .ok ((path.take n, (path.drop n).take n), path.drop (2 * n))

/-- What the loops carry along: the dimension in hand, the phases of the scheme, the pointer into the pathway
(simulation.c lines 37-170). -/
structure CoreState where
  dim : Dimension
  rows : ℕ → ℕ → ℂ
  path : List ℝ

/-- simulation.c:104-151, one event. -/
noncomputable def eventStep (W : WC) (T : TC) (four : Bool) (nt nOct : ℕ) (ss : List Site) (ks : List Coupling)
    (refresh : Bool) (e : Event) (s : CoreState) : Py CoreState :=
  match nextTransition ss.length s.path with
  | .error x => .error x
  | .ok (m, path) =>
    let t := components W T four e.B0 ss ks m.1 m.2
    let r := batch W four nOct (fun q => (gridBeta nt q).1) (fun q => (gridBeta nt q).2) t.R2 t.R4 nOct s.rows
    .ok ⟨normalized W four (Bin.nPts nt) t refresh e r.1 s.dim, r.2, path⟩

/-- simulation.c:103-152, the loop over the events of a dimension; `refresh` is set for the first one only. -/
noncomputable def eventLoop (W : WC) (T : TC) (four : Bool) (nt nOct : ℕ) (ss : List Site) (ks : List Coupling) :
    Bool → List Event → CoreState → Py CoreState
  | _, [], s => .ok s
  | refresh, e :: es, s =>
    match eventStep W T four nt nOct ss ks refresh e s with
    | .error x => .error x
    | .ok s => eventLoop W T four nt nOct ss ks false es s

/-- simulation.c:100-153, the loop over the dimensions: what they are afterwards, with the phases left behind. -/
noncomputable def coreLoop (W : WC) (T : TC) (four : Bool) (nt nOct : ℕ) (ss : List Site) (ks : List Coupling) :
    List Dimension → (ℕ → ℕ → ℂ) → List ℝ → Py (List Dimension × (ℕ → ℕ → ℂ))
  | [], P, _ => .ok ([], P)
  | d :: ds, P, path =>
    match eventLoop W T four nt nOct ss ks true d.events ⟨d, P, path⟩ with
    | .error x => .error x
    | .ok s => match coreLoop W T four nt nOct ss ks ds s.rows s.path with
      | .error x => .error x
      | .ok r => .ok (s.dim :: r.1, r.2)

/-- base_model.pyx:441-448 and 466: a pathway as it is packed for the C code, transition after transition, initial
before final quantum numbers. -/
noncomputable def pack (ss : List Site) (path : List (List ℕ × List ℕ)) : List ℝ :=
  path.flatMap fun x => Spec.quantum ss x.1 ++ Spec.quantum ss x.2

/-- base_model.pyx:460-474: the pathways of a spin system one after the other, with the same dimensions and scheme. `f`
stands for what is done with the dimensions after a pathway (the averaging, which scales and shears
`local_frequency` in place, frequency_averaging.c:131-150). -/
noncomputable def corePathways (W : WC) (T : TC) (four : Bool) (nt nOct : ℕ) (ss : List Site) (ks : List Coupling)
    (f : List Dimension → List Dimension) :
    List Dimension → (ℕ → ℕ → ℂ) → List (List ℝ) → Py (List (List Dimension))
  | _, _, [] => .ok []
  | ds, P, p :: ps =>
    match coreLoop W T four nt nOct ss ks ds P p with
    | .error x => .error x
    | .ok r => match corePathways W T four nt nOct ss ks f (f r.1) r.2 ps with
      | .error x => .error x
      | .ok l => .ok (r.1 :: l)

/-! ## Specification -/

/-- The frequency that a dimension records for a crystallite: the frequencies of its events, each averaged over the turn
of the rotor, weighted by their fractions. -/
noncomputable def Spec.recorded (second : Bool) (α β : ℝ) (ss : List Site) (ks : List Coupling) :
    List Event → List (List ℕ × List ℕ) → ℝ
  | e :: es, x :: xs => e.fraction * Spec.average e.νr (Spec.momentary second e.B0 α β e.θ e.νr ss ks x.1 x.2)
      + Spec.recorded second α β ss ks es xs
  | _, _ => 0

/-! ## One event -/

theorem quantum_length (ss : List Site) (x : List ℕ) (h : Spec.IsState ss x) : (Spec.quantum ss x).length = ss.length := by
  unfold Spec.quantum
  rw [List.length_zipWith, ← h.length_eq, min_self]

theorem nextTransition_pack (ss : List Site) (x : List ℕ × List ℕ) (xs : List (List ℕ × List ℕ))
    (h1 : Spec.IsState ss x.1) (h2 : Spec.IsState ss x.2) (rest : List ℝ) :
    nextTransition ss.length (pack ss (x :: xs) ++ rest)
      = .ok ((Spec.quantum ss x.1, Spec.quantum ss x.2), pack ss xs ++ rest) := by
  have l1 := quantum_length ss x.1 h1
  have l2 := quantum_length ss x.2 h2
  unfold nextTransition pack
  rw [List.flatMap_cons]
  generalize Spec.quantum ss x.1 = a at *
  generalize Spec.quantum ss x.2 = b at *
  rw [if_neg (by simp only [List.length_append]; omega)]
  congr 2
  · rw [← l1]
    congr 1
    · simp
    · rw [List.append_assoc, List.append_assoc, List.drop_left, l1, ← l2, List.take_left]
  · rw [two_mul, ← List.drop_drop]
    rw [List.append_assoc, List.append_assoc]
    conv_lhs => rw [← l1]
    rw [List.drop_left, l1, ← l2, List.drop_left]

theorem normalized_value (W : WC) (four : Bool) (npts : ℕ) (t : Tens) (refresh : Bool) (e : Event) (bs : List Block)
    (d : Dimension) :
    (normalized W four npts t refresh e bs d).inv = d.inv ∧
    (normalized W four npts t refresh e bs d).events = d.events ∧
    ∀ a, (normalized W four npts t refresh e bs d).r0 + (normalized W four npts t refresh e bs d).freq a
      = (if refresh then 0 else d.r0 + d.freq a)
        + d.inv * e.fraction * (t.R0 + frequencyArray W four npts (Real.cos e.θ) (Real.sin e.θ) bs a) := by
  refine ⟨rfl, rfl, fun a => ?_⟩
  unfold normalized frequencyArray
  simp only
  cases hb : bs[a / npts]? with
  | none => cases refresh <;> cases four <;> simp [hb] <;> ring
  | some b => cases refresh <;> cases four <;> simp [hb] <;> ring

theorem eventStep_spec (W : WC) (T : TC) (four : Bool) (nt nOct : ℕ) (hO : nOct = 1 ∨ nOct = 4) (ss : List Site)
    (ks : List Coupling) (refresh : Bool) (e : Event) (d : Dimension) (P : ℕ → ℕ → ℂ) (x : List ℕ × List ℕ)
    (xs : List (List ℕ × List ℕ)) (rest : List ℝ) (h1 : Spec.IsState ss x.1) (h2 : Spec.IsState ss x.2) :
    ∃ d', eventStep W T four nt nOct ss ks refresh e ⟨d, P, pack ss (x :: xs) ++ rest⟩ = .ok ⟨d', P, pack ss xs ++ rest⟩ ∧
      d'.inv = d.inv ∧ d'.events = d.events ∧
      ∀ a, d'.r0 + d'.freq a = (if refresh then 0 else d.r0 + d.freq a) + d.inv * e.fraction *
        ((components W T four e.B0 ss ks (Spec.quantum ss x.1) (Spec.quantum ss x.2)).R0
          + (powderFrequencies W four nt nOct P (Real.cos e.θ) (Real.sin e.θ)
              (components W T four e.B0 ss ks (Spec.quantum ss x.1) (Spec.quantum ss x.2))).1 a) := by
  unfold eventStep
  simp only
  rw [nextTransition_pack ss x xs h1 h2 rest]
  simp only
  set t := components W T four e.B0 ss ks (Spec.quantum ss x.1) (Spec.quantum ss x.2) with ht
  have hP : (batch W four nOct (fun q => (gridBeta nt q).1) (fun q => (gridBeta nt q).2) t.R2 t.R4 nOct P).2 = P :=
    powder_rows W four nt nOct hO P 0 0 t
  rw [hP]
  refine ⟨_, rfl, ?_⟩
  exact normalized_value W four (Bin.nPts nt) t refresh e _ d

/-- A dimension of one event: the offset and the array by themselves. -/
theorem single_spec (W : WC) (T : TC) (four : Bool) (nt nOct : ℕ) (hO : nOct = 1 ∨ nOct = 4) (ss : List Site)
    (ks : List Coupling) (e : Event) (d : Dimension) (P : ℕ → ℕ → ℂ) (x : List ℕ × List ℕ)
    (xs : List (List ℕ × List ℕ)) (rest : List ℝ) (h1 : Spec.IsState ss x.1) (h2 : Spec.IsState ss x.2) :
    ∃ d', eventLoop W T four nt nOct ss ks true [e] ⟨d, P, pack ss (x :: xs) ++ rest⟩ = .ok ⟨d', P, pack ss xs ++ rest⟩ ∧
      d'.inv = d.inv ∧ d'.r0 = d.inv * e.fraction *
        (components W T four e.B0 ss ks (Spec.quantum ss x.1) (Spec.quantum ss x.2)).R0 ∧
      ∀ a, d'.freq a = d.inv * e.fraction * (powderFrequencies W four nt nOct P (Real.cos e.θ) (Real.sin e.θ)
              (components W T four e.B0 ss ks (Spec.quantum ss x.1) (Spec.quantum ss x.2))).1 a := by
  obtain ⟨d', h, hi, -, hv⟩ := eventStep_spec W T four nt nOct hO ss ks true e d P x xs rest h1 h2
  have hr : d'.r0 = d.inv * e.fraction *
        (components W T four e.B0 ss ks (Spec.quantum ss x.1) (Spec.quantum ss x.2)).R0 := by
    unfold eventStep at h
    simp only at h
    rw [nextTransition_pack ss x xs h1 h2 rest] at h
    injection h with h
    have hd : d' = _ := (congrArg CoreState.dim h).symm
    rw [hd]
    simp only [normalized, if_true]
    ring
  refine ⟨d', ?_, hi, hr, fun a => ?_⟩
  · rw [eventLoop, h]
    rfl
  · have := hv a
    rw [hr, if_pos rfl] at this
    linarith

/-- The events of a dimension after the first. -/
theorem eventLoop_spec (W : WC) (T : TC) (four : Bool) (nt nOct : ℕ) (hO : nOct = 1 ∨ nOct = 4) (ss : List Site)
    (ks : List Coupling) (es : List Event) (d : Dimension) (P : ℕ → ℕ → ℂ) (xs : List (List ℕ × List ℕ)) (rest : List ℝ)
    (hl : xs.length = es.length) (hx : ∀ x ∈ xs, Spec.IsState ss x.1 ∧ Spec.IsState ss x.2) :
    ∃ d', eventLoop W T four nt nOct ss ks false es ⟨d, P, pack ss xs ++ rest⟩ = .ok ⟨d', P, rest⟩ ∧
      d'.inv = d.inv ∧ d'.events = d.events ∧
      ∀ a, d'.r0 + d'.freq a = d.r0 + d.freq a + d.inv * (List.zipWith (fun (e : Event) x => e.fraction *
        ((components W T four e.B0 ss ks (Spec.quantum ss x.1) (Spec.quantum ss x.2)).R0
          + (powderFrequencies W four nt nOct P (Real.cos e.θ) (Real.sin e.θ)
              (components W T four e.B0 ss ks (Spec.quantum ss x.1) (Spec.quantum ss x.2))).1 a)) es xs).sum := by
  induction es generalizing d xs with
  | nil =>
    match xs, hl with
    | [], _ => exact ⟨d, rfl, rfl, rfl, fun a => by simp⟩
  | cons e es ih =>
    match xs, hl with
    | x :: xs, hl =>
      obtain ⟨d1, h1, hi, he, hv⟩ := eventStep_spec W T four nt nOct hO ss ks false e d P x xs rest (hx x (by simp)).1
        (hx x (by simp)).2
      obtain ⟨d2, h2, hi2, he2, hv2⟩ := ih d1 xs (by simpa using hl) (fun y hy => hx y (by simp [hy]))
      refine ⟨d2, ?_, by rw [hi2, hi], by rw [he2, he], fun a => ?_⟩
      · rw [eventLoop, h1]
        exact h2
      · rw [hv2 a, hv a, hi]
        simp only [Bool.false_eq_true, if_false, List.zipWith_cons_cons, List.sum_cons]
        ring

theorem dimension_spec (W : WC) (T : TC) (four : Bool) (nt nOct : ℕ) (hO : nOct = 1 ∨ nOct = 4) (ss : List Site)
    (ks : List Coupling) (es : List Event) (hes : es ≠ []) (d : Dimension) (P : ℕ → ℕ → ℂ)
    (xs : List (List ℕ × List ℕ)) (rest : List ℝ) (hl : xs.length = es.length)
    (hx : ∀ x ∈ xs, Spec.IsState ss x.1 ∧ Spec.IsState ss x.2) :
    ∃ d', eventLoop W T four nt nOct ss ks true es ⟨d, P, pack ss xs ++ rest⟩ = .ok ⟨d', P, rest⟩ ∧
      d'.inv = d.inv ∧ d'.events = d.events ∧
      ∀ a, d'.r0 + d'.freq a = d.inv * (List.zipWith (fun (e : Event) x => e.fraction *
        ((components W T four e.B0 ss ks (Spec.quantum ss x.1) (Spec.quantum ss x.2)).R0
          + (powderFrequencies W four nt nOct P (Real.cos e.θ) (Real.sin e.θ)
              (components W T four e.B0 ss ks (Spec.quantum ss x.1) (Spec.quantum ss x.2))).1 a)) es xs).sum := by
  match es, hes, xs, hl with
  | e :: es, _, x :: xs, hl =>
    obtain ⟨d1, h1, hi, he, hv⟩ := eventStep_spec W T four nt nOct hO ss ks true e d P x xs rest (hx x (by simp)).1
      (hx x (by simp)).2
    obtain ⟨d2, h2, hi2, he2, hv2⟩ := eventLoop_spec W T four nt nOct hO ss ks es d1 P xs rest (by simpa using hl)
      (fun y hy => hx y (by simp [hy]))
    refine ⟨d2, ?_, by rw [hi2, hi], by rw [he2, he], fun a => ?_⟩
    · rw [eventLoop, h1]
      exact h2
    · rw [hv2 a, hv a, hi]
      simp only [if_true, List.zipWith_cons_cons, List.sum_cons]
      ring

/-! ## All dimensions -/

theorem coreLoop_spec (W : WC) (T : TC) (four : Bool) (nt nOct : ℕ) (hO : nOct = 1 ∨ nOct = 4) (ss : List Site)
    (ks : List Coupling) (ds : List Dimension) (P : ℕ → ℕ → ℂ) (xs : List (List (List ℕ × List ℕ))) (rest : List ℝ)
    (hl : List.Forall₂ (fun (d : Dimension) x => d.events ≠ [] ∧ x.length = d.events.length) ds xs)
    (hx : ∀ l ∈ xs, ∀ x ∈ l, Spec.IsState ss x.1 ∧ Spec.IsState ss x.2) :
    ∃ r : List Dimension, coreLoop W T four nt nOct ss ks ds P (pack ss xs.flatten ++ rest) = .ok (r, P) ∧
      r.length = ds.length ∧
      ∀ (k : ℕ) (d : Dimension) x, ds[k]? = some d → xs[k]? = some x → ∃ d' : Dimension, r[k]? = some d' ∧ d'.inv = d.inv ∧ d'.events = d.events ∧
        ∀ a, d'.r0 + d'.freq a = d.inv * (List.zipWith (fun (e : Event) x => e.fraction *
          ((components W T four e.B0 ss ks (Spec.quantum ss x.1) (Spec.quantum ss x.2)).R0
            + (powderFrequencies W four nt nOct P (Real.cos e.θ) (Real.sin e.θ)
                (components W T four e.B0 ss ks (Spec.quantum ss x.1) (Spec.quantum ss x.2))).1 a)) d.events x).sum := by
  induction hl with
  | nil => exact ⟨[], rfl, rfl, fun k d x h => by simp at h⟩
  | @cons d x ds xs h _ ih =>
    obtain ⟨r, hr, hlen, hv⟩ := ih (fun l hl => hx l (by simp [hl]))
    have e1 : pack ss (x :: xs).flatten ++ rest = pack ss x ++ (pack ss xs.flatten ++ rest) := by
      unfold pack
      rw [List.flatten_cons, List.flatMap_append, List.append_assoc]
    obtain ⟨d', h1, hi, he, hd⟩ := dimension_spec W T four nt nOct hO ss ks d.events h.1 d P x (pack ss xs.flatten ++ rest)
      h.2 (hx x (by simp))
    refine ⟨d' :: r, ?_, by simp [hlen], ?_⟩
    · rw [e1, coreLoop, h1]
      simp only
      rw [hr]
    · intro k d0 x0 hk hxk
      cases k with
      | zero =>
        simp only [List.getElem?_cons_zero, Option.some.injEq] at hk hxk
        subst hk hxk
        exact ⟨d', rfl, hi, he, hd⟩
      | succ k =>
        simp only [List.getElem?_cons_succ] at hk hxk
        exact hv k d0 x0 hk hxk

/-- The sum over the events is the frequency recorded, for the direction of a grid point. -/
theorem recorded_eq (four : Bool) (nt nOct : ℕ) (hn : 1 ≤ nt) (hO : nOct = 1 ∨ nOct = 4) (junk : ℕ → ℕ → ℂ)
    (ss : List Site) (ks : List Coupling) (hs : ∀ s ∈ ss, s.Upright ∧ 1 ≤ s.n)
    (hk : ∀ k ∈ ks, k.Upright ∧ k.A < ss.length ∧ k.X < ss.length) (es : List Event) (xs : List (List ℕ × List ℕ))
    (hx : ∀ x ∈ xs, Spec.IsState ss x.1 ∧ Spec.IsState ss x.2) (he : ∀ e ∈ es, 0 < e.νr)
    (j q : ℕ) (hj : j < nOct) (p : ℕ × ℕ) (hp : (Bin.Spec.grid nt)[q]? = some p) (α β : ℝ)
    (hd : Spec.Points α β (Spec.quarter j (Bin.Spec.point nt p))) :
    (List.zipWith (fun (e : Event) x => e.fraction *
        ((components WC.exact TC.exact four e.B0 ss ks (Spec.quantum ss x.1) (Spec.quantum ss x.2)).R0
          + (powderFrequencies WC.exact four nt nOct (startRows four junk nt) (Real.cos e.θ) (Real.sin e.θ)
              (components WC.exact TC.exact four e.B0 ss ks (Spec.quantum ss x.1) (Spec.quantum ss x.2))).1
                (j * Bin.nPts nt + q))) es xs).sum
      = Spec.recorded four α β ss ks es xs := by
  induction es generalizing xs with
  | nil => cases xs <;> rfl
  | cons e es ih =>
    cases xs with
    | nil => rfl
    | cons x xs =>
      rw [List.zipWith_cons_cons, List.sum_cons, Spec.recorded,
        ih xs (fun y hy => hx y (by simp [hy])) (fun y hy => he y (by simp [hy])),
        powder_dir WC.exact four nt nOct hn hO junk _ _ _ j q hj p hp α β hd,
        C75_average_partial four e.B0 α β e.θ e.νr (he e (by simp)) ss ks x.1 x.2 (hx x (by simp)).1 (hx x (by simp)).2 hs hk]

/-- All pathways, with any constants. -/
theorem corePathways_spec (W : WC) (T : TC) (four : Bool) (nt nOct : ℕ) (hO : nOct = 1 ∨ nOct = 4) (P : ℕ → ℕ → ℂ)
    (ss : List Site) (ks : List Coupling)
    (f : List Dimension → List Dimension)
    (hf : ∀ l, (f l).map (fun d => (d.inv, d.events)) = l.map (fun d => (d.inv, d.events)))
    (ds : List Dimension) (hds : ∀ d ∈ ds, d.events ≠ [])
    (paths : List (List (List (List ℕ × List ℕ))))
    (hp : ∀ path ∈ paths, List.Forall₂ (fun (d : Dimension) x => x.length = d.events.length) ds path ∧
      ∀ l ∈ path, ∀ x ∈ l, Spec.IsState ss x.1 ∧ Spec.IsState ss x.2) :
    ∃ r, corePathways W T four nt nOct ss ks f ds P (paths.map fun path => pack ss path.flatten) = .ok r ∧ r.length = paths.length ∧
      ∀ (i k : ℕ) (path : List (List (List ℕ × List ℕ))) (d : Dimension) (x : List (List ℕ × List ℕ)),
        paths[i]? = some path → ds[k]? = some d → path[k]? = some x →
        ∃ l d', r[i]? = some l ∧ l.length = ds.length ∧ l[k]? = some d' ∧
          ∀ a, d'.r0 + d'.freq a = d.inv * (List.zipWith (fun (e : Event) x => e.fraction *
              ((components W T four e.B0 ss ks (Spec.quantum ss x.1) (Spec.quantum ss x.2)).R0
                + (powderFrequencies W four nt nOct P (Real.cos e.θ) (Real.sin e.θ)
                    (components W T four e.B0 ss ks (Spec.quantum ss x.1) (Spec.quantum ss x.2))).1 a)) d.events x).sum := by
  induction paths generalizing ds with
  | nil => exact ⟨[], rfl, rfl, fun i k path d x h => by simp at h⟩
  | cons path paths ih =>
    obtain ⟨hpath, hst⟩ := hp path (by simp)
    have hall : List.Forall₂ (fun (d : Dimension) x => d.events ≠ [] ∧ x.length = d.events.length) ds path := by
      rw [List.forall₂_iff_get] at hpath ⊢
      refine ⟨hpath.1, fun i h1 h2 => ⟨hds _ (List.get_mem ds ⟨i, h1⟩), hpath.2 i h1 h2⟩⟩
    obtain ⟨r, hr, hlen, hv⟩ := coreLoop_spec W T four nt nOct hO ss ks ds P path []
      hall hst
    rw [List.append_nil] at hr
    -- the dimensions keep their parameters
    have hkeep : r.map (fun d => (d.inv, d.events)) = ds.map (fun d => (d.inv, d.events)) := by
      apply List.ext_getElem?
      intro k
      rw [List.getElem?_map, List.getElem?_map]
      cases hk : ds[k]? with
      | none =>
        rw [List.getElem?_eq_none_iff] at hk
        rw [List.getElem?_eq_none_iff.mpr (by omega)]
      | some d =>
        have hk' := (List.getElem?_eq_some_iff.mp hk).1
        have hxl := hpath.length_eq
        obtain ⟨d', h1, h2, h3, _⟩ := hv k d (path[k]'(by omega)) hk (List.getElem?_eq_getElem (by omega))
        rw [h1]
        simp [h2, h3]
    have hfr : (f r).map (fun d => (d.inv, d.events)) = ds.map (fun d => (d.inv, d.events)) := by rw [hf, hkeep]
    have hget : ∀ (k : ℕ) (d : Dimension), ds[k]? = some d → ∃ d' : Dimension, (f r)[k]? = some d' ∧ d'.inv = d.inv ∧ d'.events = d.events := by
      intro k d hk
      have := congrArg (fun l => l[k]?) hfr
      simp only [List.getElem?_map, hk, Option.map_some] at this
      cases h : (f r)[k]? with
      | none => rw [h] at this; simp at this
      | some d' =>
        rw [h] at this
        simp only [Option.map_some, Option.some.injEq, Prod.mk.injEq] at this
        exact ⟨d', rfl, this.1, this.2⟩
    have hlf : (f r).length = ds.length := by
      have := congrArg List.length hfr
      simpa using this
    have hback : ∀ d' ∈ f r, ∃ d ∈ ds, d'.inv = d.inv ∧ d'.events = d.events := by
      intro d' hm
      have : (d'.inv, d'.events) ∈ (f r).map (fun d => (d.inv, d.events)) := List.mem_map_of_mem hm
      rw [hfr, List.mem_map] at this
      obtain ⟨d, hd, he⟩ := this
      rw [Prod.mk.injEq] at he
      exact ⟨d, hd, he.1.symm, he.2.symm⟩
    obtain ⟨r2, hr2, hlen2, hv2⟩ := ih (f r)
      (by
        intro d' hm
        obtain ⟨d, hd, _, he⟩ := hback d' hm
        rw [he]
        exact hds d hd)
      (by
        intro path' hm
        obtain ⟨g1, g2⟩ := hp path' (by simp [hm])
        refine ⟨?_, g2⟩
        rw [List.forall₂_iff_get] at g1 ⊢
        refine ⟨by rw [hlf]; exact g1.1, fun i h1 h2 => ?_⟩
        obtain ⟨d', h3, _, h4⟩ := hget i (ds.get ⟨i, by omega⟩) (by simp)
        have h5 := (List.getElem?_eq_some_iff.mp h3).2
        simp only [List.get_eq_getElem] at h4 ⊢
        rw [h5, h4]
        exact g1.2 i (by omega) h2)
    refine ⟨r :: r2, ?_, by simp [hlen2], ?_⟩
    · rw [List.map_cons, corePathways, hr]
      simp only
      rw [hr2]
    · intro i k path' d x hi hkd hkx
      cases i with
      | zero =>
        simp only [List.getElem?_cons_zero, Option.some.injEq] at hi
        subst hi
        obtain ⟨d', h1, _, _, h4⟩ := hv k d x hkd hkx
        exact ⟨r, d', rfl, hlen, h1, h4⟩
      | succ i =>
        simp only [List.getElem?_cons_succ] at hi
        obtain ⟨d1, g1, g2, g3⟩ := hget k d hkd
        obtain ⟨l, d', h1, h2, h3, h4⟩ := hv2 i k path' d1 x hi g1 hkx
        refine ⟨l, d', h1, by rw [h2, hlf], h3, fun a => ?_⟩
        rw [h4 a, g2, g3]

/-- **C89, partial.** Any spin system, any number of dimensions with one event or more each, any number of pathways handled
one after the other with the same dimensions and the same scheme, whatever else is done to the dimensions in between
(`f`) and whatever they hold at the start: for every pathway, dimension and orientation of the grid, what the dimension
holds is, in units of its increment, the sum over its own events of their fraction times the frequency of their own transition,
averaged over the turn of the rotor, in the field of the event.  Missing: tilts by negative angles (C73), the tabulated
decimals (C74 bounds them), flags (C41) and plans (C42). -/
theorem C89_core_partial (four : Bool) (nt nOct : ℕ) (hn : 1 ≤ nt) (hO : nOct = 1 ∨ nOct = 4) (junk : ℕ → ℕ → ℂ)
    (ss : List Site) (ks : List Coupling) (hs : ∀ s ∈ ss, s.Upright ∧ 1 ≤ s.n)
    (hk : ∀ k ∈ ks, k.Upright ∧ k.A < ss.length ∧ k.X < ss.length)
    (f : List Dimension → List Dimension)
    (hf : ∀ l, (f l).map (fun d => (d.inv, d.events)) = l.map (fun d => (d.inv, d.events)))
    (ds : List Dimension) (hds : ∀ d ∈ ds, d.events ≠ [] ∧ ∀ e ∈ d.events, 0 < e.νr)
    (paths : List (List (List (List ℕ × List ℕ))))
    (hp : ∀ path ∈ paths, List.Forall₂ (fun (d : Dimension) x => x.length = d.events.length) ds path ∧
      ∀ l ∈ path, ∀ x ∈ l, Spec.IsState ss x.1 ∧ Spec.IsState ss x.2) :
    ∃ r, corePathways WC.exact TC.exact four nt nOct ss ks f ds (startRows four junk nt)
        (paths.map fun path => pack ss path.flatten) = .ok r ∧ r.length = paths.length ∧
      ∀ (i k : ℕ) (path : List (List (List ℕ × List ℕ))) (d : Dimension) (x : List (List ℕ × List ℕ)),
        paths[i]? = some path → ds[k]? = some d → path[k]? = some x →
        ∃ l d', r[i]? = some l ∧ l.length = ds.length ∧ l[k]? = some d' ∧
          ∀ (j q : ℕ) (p : ℕ × ℕ) (α β : ℝ), j < nOct → (Bin.Spec.grid nt)[q]? = some p →
            Spec.Points α β (Spec.quarter j (Bin.Spec.point nt p)) →
            d'.r0 + d'.freq (j * Bin.nPts nt + q) = d.inv * Spec.recorded four α β ss ks d.events x := by
  obtain ⟨r, hr, hlen, hv⟩ := corePathways_spec WC.exact TC.exact four nt nOct hO (startRows four junk nt) ss ks f hf ds
    (fun d h => (hds d h).1) paths hp
  refine ⟨r, hr, hlen, fun i k path d x hi hkd hkx => ?_⟩
  obtain ⟨l, d', h1, h2, h3, h4⟩ := hv i k path d x hi hkd hkx
  refine ⟨l, d', h1, h2, h3, fun j q p α β hj hq hd => ?_⟩
  rw [h4, recorded_eq four nt nOct hn hO junk ss ks hs hk d.events x
    (fun y hy => (hp path (List.mem_of_getElem? hi)).2 x (List.mem_of_getElem? hkx) y hy) (hds d (List.mem_of_getElem? hkd)).2
    j q hj p hq α β hd]

/-- A triple-quantum dimension with two events in different fields, and a dimension with one event. -/
noncomputable def exampleDims (junk : ℕ → ℝ) : List Dimension :=
  [⟨0.01, [⟨9.4, 0.25, 0.9553, 12500⟩, ⟨7, 0.75, 0.9553, 12500⟩], 3, junk⟩, ⟨0.02, [⟨9.4, 1, 0.5, 20000⟩], -1, junk⟩]

/-- The hypotheses of `C89_core_partial` for these dimensions and two pathways of the coupled pair. -/
example (junk : ℕ → ℝ) :
    (∀ d ∈ exampleDims junk, d.events ≠ [] ∧ ∀ e ∈ d.events, 0 < e.νr) ∧
    ∀ path ∈ ([[[([0, 1], [0, 4]), ([0, 4], [0, 1])], [([0, 3], [0, 2])]],
        [[([1, 1], [1, 4]), ([0, 4], [0, 1])], [([1, 3], [1, 2])]]] : List (List (List (List ℕ × List ℕ)))),
      List.Forall₂ (fun (d : Dimension) x => x.length = d.events.length) (exampleDims junk) path ∧
      ∀ l ∈ path, ∀ x ∈ l, Spec.IsState exampleSites x.1 ∧ Spec.IsState exampleSites x.2 := by
  unfold exampleDims exampleSites Spec.IsState
  constructor
  · intro d hd
    simp only [List.mem_cons, List.not_mem_nil, or_false] at hd
    rcases hd with rfl | rfl
    · refine ⟨by simp, fun e he => ?_⟩
      simp only [List.mem_cons, List.not_mem_nil, or_false] at he
      rcases he with rfl | rfl <;> norm_num
    · refine ⟨by simp, fun e he => ?_⟩
      simp only [List.mem_cons, List.not_mem_nil, or_false] at he
      subst he
      norm_num
  · intro path hp
    simp only [List.mem_cons, List.not_mem_nil, or_false] at hp
    rcases hp with rfl | rfl <;> simp <;> rintro a b (⟨rfl, rfl⟩ | ⟨rfl, rfl⟩) <;> simp

/-- **C89, what fails.** `events` of a `SpectralDimension` may be an empty list
(src/mrsimulator/method/spectral_dimension.py:60), and the loop body that clears `local_frequency` is then not run: a
dimension without events holds, for every orientation, whatever the memory held that was allocated for it (method.c:90). -/
theorem C89_counterexample (four : Bool) (nt nOct : ℕ) (hO : nOct = 1 ∨ nOct = 4) (ss : List Site) (ks : List Coupling)
    (d e : Dimension) (hd : d.events ≠ []) (he : e.events = []) (P : ℕ → ℕ → ℂ) (xs : List (List ℕ × List ℕ))
    (hl : xs.length = d.events.length) (hx : ∀ x ∈ xs, Spec.IsState ss x.1 ∧ Spec.IsState ss x.2) :
    ∃ d', coreLoop WC.exact TC.exact four nt nOct ss ks [d, e] P (pack ss xs) = .ok ([d', e], P) := by
  obtain ⟨d', h, -⟩ := dimension_spec WC.exact TC.exact four nt nOct hO ss ks d.events hd d P xs [] hl hx
  rw [List.append_nil] at h
  refine ⟨d', ?_⟩
  rw [coreLoop, h]
  simp only
  rw [coreLoop, he]
  rfl

end MRS.Freq
