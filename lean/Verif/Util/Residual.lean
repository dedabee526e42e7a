import Verif.Signal.Ops
import Verif.Run.Mixture
import Mathlib.Algebra.Module.Pi
import Mathlib.Data.Real.Basic

/-!
# The residual of a fit — property C86

Model of the last part of `LMFIT_min_function` (src/mrsimulator/utils/spectral_fitting.py lines 347-358): run the
simulator, process the result, add up the dependent variables if the spectrum is decomposed, and subtract from the
experiment. `Simulator.run` and the signal processing are the models of Run/Model.lean and Signal/Ops.lean. A spectrum is
a function of the position (one index for each dimension).
-/

namespace MRS.Residual

open MRS.Signal MRS.Run

/-- A simulated spectrum (spectral_fitting.py lines 313-358). -/
abbrev Arr := List ℕ → ℝ

variable {Φ Path : Type}

/-! ## Model -/

/-- `_as_csdm_object` (simulator/__init__.py lines 561-590), dependent variables only: empty entries are skipped; when the
spectrum is decomposed, an entry without a spin system is an IndexError (lines 585-586, 595). A row of an array does not
occur with one worker and is not given a meaning. -/
def dvsOf (decompose : Bool) (n : ℕ) : ℕ → List (Datum Arr) → Py (List (List ℕ → ℂ))
  | _, [] => .ok []
  | i, .empty :: l => dvsOf decompose n (i + 1) l
  | i, .spec v :: l =>
    if decompose ∧ n ≤ i then .error .indexError
    else do return (fun ix => ((v ix : ℝ) : ℂ)) :: (← dvsOf decompose n (i + 1) l)
  | _, .strayRow :: _ => .error .undefinedBehaviour

/-- `sim.run()` and `sim.methods[0].simulation` (spectral_fitting.py lines 347-348): one worker. `dims` are the dimensions
of the method, as `_as_csdm_object` makes them (simulator/__init__.py lines 569-573). -/
noncomputable def simulate (env : Env Φ Path Arr) (cpu : Int) (dims : List Dim) (decompose : Bool) (l : List (Sys Φ Path)) : Py Data := do
  let out ← run env cpu decompose l 1
  let dvs ← dvsOf decompose l.length 0 out
  return ⟨dims, dvs⟩

/-- `post_sim.apply_operations(data=...)` on a data set nobody else refers to (line 348): the data set returned. -/
noncomputable def process (lib : ℕ → Data → Py Data) (ops : List Op) (d : Data) : Py Data :=
  match applyOperations lib ops ([d], 0) with
  | (_, .error e) => .error e
  | (st, .ok r) =>
    match st[r]? with
    | none => .error .undefinedBehaviour
    | some d => .ok d

/-- Lines 350-355: the sum over the dependent variables, or the first. -/
def datum (decompose : Bool) (d : Data) : Py Arr :=
  if decompose then .ok (d.dvs.foldl (fun a g => fun ix => a ix + (g ix).re) fun _ => 0)
  else
    match d.dvs with
    | [] => .error .indexError
    | g :: _ => .ok fun ix => (g ix).re

/-- Lines 347-358. -/
noncomputable def residual (lib : ℕ → Data → Py Data) (env : Env Φ Path Arr) (cpu : Int) (dims : List Dim)
    (experiment : List ℕ → ℂ) (sigma : ℝ) (ops : List Op) (decompose : Bool) (l : List (Sys Φ Path)) :
    Py (List ℕ → ℂ) := do
  let d ← simulate env cpu dims decompose l
  let p ← process lib ops d
  let s ← datum decompose p
  return fun ix => (experiment ix - (s ix : ℂ)) / sigma

/-! ## Specification -/

/-- The operation acts on all dependent variables. -/
def Spec.Everywhere : Op → Prop
  | .apodize _ _ dv => dv = .all
  | .shear _ _ _ dv => dv = .all
  | _ => True

/-- The Fourier transform treats every dependent variable alike, is additive, and whether it fails depends on the dimensions
only. -/
def Spec.Additive (f : Data → Py Data) : Prop :=
  ∃ F : List Dim → Py (List Dim × ((List ℕ → ℂ) →+ (List ℕ → ℂ))), ∀ d, f d = match F d.dims with
    | .error e => .error e
    | .ok (D, T) => .ok ⟨D, d.dvs.map T⟩

/-! ## Lemmas -/

theorem additive_comp {f g : Data → Py Data} (hf : Spec.Additive f) (hg : Spec.Additive g) :
    Spec.Additive fun d => f d >>= g := by
  obtain ⟨F, hF⟩ := hf
  obtain ⟨G, hG⟩ := hg
  refine ⟨fun ds => match F ds with
    | .error e => .error e
    | .ok (D, T) =>
      match G D with
      | .error e => .error e
      | .ok (D', T') => .ok (D', T'.comp T), fun d => ?_⟩
  simp only [hF]
  match hx : F d.dims with
  | .error e => rfl
  | .ok (D, T) =>
    simp only [bind, Except.bind, hG]
    match G D with
    | .error e => rfl
    | .ok (D', T') => simp [List.map_map]

theorem additive_pure : Spec.Additive fun d => .ok d :=
  ⟨fun D => .ok (D, AddMonoidHom.id _), fun d => by simp⟩

/-- The pure value of an operation. -/
noncomputable def opVal (lib : ℕ → Data → Py Data) (op : Op) (d : Data) : Py Data :=
  match op with
  | .fft dims => dims.foldlM (fun d i => lib i d) d
  | op =>
    match inPlace op d with
    | (d', none) => .ok d'
    | (_, some e) => .error e

theorem fftLoop_val (lib : ℕ → Data → Py Data) (dims : List ℕ) (s : Store × ℕ) (d : Data) (hd : s.1[s.2]? = some d) :
    (match fftLoop lib dims s with
      | (_, .error e) => .error e
      | (st, .ok r) => (match st[r]? with | none => .error .undefinedBehaviour | some d => .ok d : Py Data)) =
      dims.foldlM (fun d i => lib i d) d := by
  induction dims generalizing s d with
  | nil => simp only [fftLoop, hd, List.foldlM_nil]; rfl
  | cons i l ih =>
    rw [List.foldlM_cons]
    unfold fftLoop
    rw [hd]
    simp only
    match lib i d with
    | .error e => rfl
    | .ok d1 => exact ih (s.1 ++ [d1], s.1.length) d1 (by simp)

theorem operate_val (lib : ℕ → Data → Py Data) (op : Op) (s : Store × ℕ) (d : Data) (hd : s.1[s.2]? = some d) :
    (match operate lib op s with
      | (_, .error e) => .error e
      | (st, .ok r) => (match st[r]? with | none => .error .undefinedBehaviour | some d => .ok d : Py Data)) =
      opVal lib op d := by
  have hlt : s.2 < s.1.length := by
    by_contra hcon
    rw [List.getElem?_eq_none (by omega)] at hd
    simp at hd
  have key : ∀ x : Data × Option PyErr,
      (match (match x with
        | (d', none) => (s.1.set s.2 d', (.ok s.2 : Py ℕ))
        | (d', some e) => (s.1.set s.2 d', .error e)) with
      | (_, .error e) => (.error e : Py Data)
      | (st, .ok r) => (match st[r]? with | none => .error .undefinedBehaviour | some d => .ok d : Py Data)) =
      (match x with
        | (d', none) => .ok d'
        | (_, some e) => .error e) := by
    rintro ⟨d', _ | e⟩
    · simp only [List.getElem?_set_self hlt]
    · rfl
  cases op with
  | fft dims => exact fftLoop_val lib dims s d hd
  | scale f => unfold operate opVal; rw [hd]; exact key (inPlace (.scale f) d)
  | apodize fn dims dv => unfold operate opVal; rw [hd]; exact key _
  | shear f a b dv => unfold operate opVal; rw [hd]; exact key _
  | affine f a => unfold operate opVal; rw [hd]; exact key _

theorem apply_val (lib : ℕ → Data → Py Data) (ops : List Op) (s : Store × ℕ) (d : Data) (hd : s.1[s.2]? = some d) :
    (match applyOperations lib ops s with
      | (_, .error e) => .error e
      | (st, .ok r) => (match st[r]? with | none => .error .undefinedBehaviour | some d => .ok d : Py Data)) =
      ops.foldlM (fun d op => opVal lib op d) d := by
  induction ops generalizing s d with
  | nil => simp only [applyOperations, hd, List.foldlM_nil]; rfl
  | cons op l ih =>
    rw [List.foldlM_cons, ← operate_val lib op s d hd]
    unfold applyOperations
    match hop : operate lib op s with
    | (st, .error e) => rfl
    | (st, .ok r) =>
      simp only
      match hr : st[r]? with
      | none =>
        obtain ⟨d', e1, _⟩ := operate_spec lib op s d hd st r hop
        rw [hr] at e1
        cases e1
      | some d1 => exact ih (st, r) d1 hr

theorem process_eq (lib : ℕ → Data → Py Data) (ops : List Op) (d : Data) :
    process lib ops d = ops.foldlM (fun d op => opVal lib op d) d := by
  rw [← apply_val lib ops ([d], 0) d rfl]
  rfl

/-- Multiplication by a factor that depends on the position. -/
def mulHom (w : List ℕ → ℂ) : (List ℕ → ℂ) →+ (List ℕ → ℂ) where
  toFun g := fun ix => g ix * w ix
  map_zero' := by funext ix; simp
  map_add' a b := by funext ix; simp [add_mul]

theorem mulDvs_from (w : List ℕ → ℂ) (D : List Dim) (pre l : List (List ℕ → ℂ)) :
    mulDvs w ((List.range' pre.length l.length).map fun k : ℕ => (k : ℤ)) ⟨D, pre ++ l⟩ =
      (⟨D, pre ++ l.map (mulHom w)⟩, none) := by
  induction l generalizing pre with
  | nil => simp [mulDvs]
  | cons g l ih =>
    rw [List.length_cons, List.range'_succ, List.map_cons]
    unfold mulDvs
    have hp : pyPos (pre ++ g :: l).length (pre.length : ℤ) = some pre.length := by
      rw [pyPos_spec]
      simp
    simp only [hp]
    have hm : (pre ++ g :: l).modify pre.length (fun f => fun ix => f ix * w ix) = (pre ++ [mulHom w g]) ++ l := by
      apply List.ext_getElem?
      intro j
      rw [List.getElem?_modify, List.append_assoc]
      rcases Nat.lt_trichotomy j pre.length with h | h | h
      · rw [List.getElem?_append_left h, List.getElem?_append_left h]
        simp [(Nat.ne_of_gt h)]
      · subst h
        simp [mulHom]
      · rw [List.getElem?_append_right (by omega), List.getElem?_append_right (by omega)]
        obtain ⟨k, hk⟩ : ∃ k, j - pre.length = k + 1 := ⟨j - pre.length - 1, by omega⟩
        simp [hk, Nat.ne_of_lt h]
    rw [hm]
    have := ih (pre ++ [mulHom w g])
    simp only [List.length_append, List.length_cons, List.length_nil, Nat.zero_add] at this
    rw [this]
    simp

theorem mulDvs_all (w : List ℕ → ℂ) (d : Data) :
    mulDvs w (dvIndexes .all d.dvs.length) d = (⟨d.dims, d.dvs.map (mulHom w)⟩, none) := by
  have := mulDvs_from w d.dims [] d.dvs
  simp only [List.length_nil, List.nil_append, ← List.range_eq_range'] at this
  exact this

theorem apodize_additive (fn : List ℝ → Py (List ℂ)) (dims : List ℕ) :
    Spec.Additive fun d => match apodize fn .all dims d with
      | (d', none) => .ok d'
      | (_, some e) => .error e := by
  induction dims with
  | nil => exact additive_pure
  | cons dim l ih =>
    obtain ⟨F, hF⟩ := ih
    refine ⟨fun D => match D[dim]? with
      | none => .error .indexError
      | some x =>
        match fn x.coords with
        | .error e => .error e
        | .ok v =>
          match F D with
          | .error e => .error e
          | .ok (D', T) => .ok (D', T.comp (mulHom (along v dim))), fun d => ?_⟩
    simp only [apodize]
    match hx : d.dims[dim]? with
    | none => rfl
    | some x =>
      simp only
      match fn x.coords with
      | .error e => rfl
      | .ok v =>
        simp only [mulDvs_all]
        refine (hF ⟨d.dims, _⟩).trans ?_
        simp only
        match F d.dims with
        | .error e => rfl
        | .ok (D', T) => simp only [List.map_map]; rfl

theorem op_additive (lib : ℕ → Data → Py Data) (hlib : ∀ i, Spec.Additive (lib i)) (op : Op)
    (hop : Spec.Everywhere op) : Spec.Additive (opVal lib op) := by
  cases op with
  | scale f =>
    refine ⟨fun D => .ok (D, mulHom fun _ => f), fun d => ?_⟩
    simp only [opVal, inPlace]
    rfl
  | fft dims =>
    induction dims with
    | nil => exact additive_pure
    | cons i l ih =>
      have h : opVal lib (.fft (i :: l)) = fun d => lib i d >>= opVal lib (.fft l) := by
        funext d
        simp only [opVal, List.foldlM_cons]
        rfl
      rw [h]
      exact additive_comp (hlib i) (ih trivial)
  | apodize fn dims dv =>
    have : dv = .all := hop
    subst this
    exact apodize_additive fn dims
  | shear f a b dv =>
    have : dv = .all := hop
    subst this
    refine ⟨fun D => match D[a]?, D[b]? with
      | some x, some y => .ok (D, mulHom (shearFactor f x.coords y.coords a b))
      | _, _ => .error .indexError, fun d => ?_⟩
    simp only [opVal, inPlace]
    match hx : d.dims[a]?, hy : d.dims[b]? with
    | none, _ => rfl
    | some x, none => rfl
    | some x, some y => simp only [mulDvs_all]
  | affine f dim =>
    refine ⟨fun D => match D[dim]? with
      | none => .error .indexError
      | some x => .ok (D.set dim ⟨x.ks, x.increment * f, x.offset * f, x.recOffset / f⟩, AddMonoidHom.id _), fun d => ?_⟩
    simp only [opVal, inPlace]
    match hx : d.dims[dim]? with
    | none => rfl
    | some x => simp

theorem process_additive (lib : ℕ → Data → Py Data) (hlib : ∀ i, Spec.Additive (lib i)) (ops : List Op)
    (hops : ∀ op ∈ ops, Spec.Everywhere op) : Spec.Additive (process lib ops) := by
  have h : Spec.Additive fun d => ops.foldlM (fun d op => opVal lib op d) d := by
    induction ops with
    | nil => exact additive_pure
    | cons op l ih =>
      have := additive_comp (op_additive lib hlib op (hops op (by simp))) (ih fun o ho => hops o (by simp [ho]))
      simp only [List.foldlM_cons]
      exact this
  obtain ⟨F, hF⟩ := h
  exact ⟨F, fun d => by rw [process_eq]; exact hF d⟩

theorem foldl_re (l : List (List ℕ → ℂ)) (a : Arr) :
    l.foldl (fun a g => fun ix => a ix + (g ix).re) a = fun ix => a ix + (l.sum ix).re := by
  induction l generalizing a with
  | nil => simp
  | cons g l ih =>
    rw [List.foldl_cons, ih]
    funext ix
    simp [add_assoc]

theorem datum_true (d : Data) : datum true d = .ok fun ix => (d.dvs.sum ix).re := by
  simp only [datum, if_true, foldl_re, zero_add]

/-! ## C86 -/

/-- **C86, the processing.** Processing the sum of the dependent variables gives the sum of the processed ones, and fails
exactly when processing them fails, for operations that act on all dependent variables. -/
theorem C86_processing_partial (lib : ℕ → Data → Py Data) (hlib : ∀ i, Spec.Additive (lib i)) (ops : List Op)
    (hops : ∀ op ∈ ops, Spec.Everywhere op) (dims : List Dim) (dvs : List (List ℕ → ℂ)) :
    process lib ops ⟨dims, [dvs.sum]⟩ = (process lib ops ⟨dims, dvs⟩).map fun d => ⟨d.dims, [d.dvs.sum]⟩ := by
  obtain ⟨F, hF⟩ := process_additive lib hlib ops hops
  rw [hF, hF]
  simp only
  match F dims with
  | .error e => rfl
  | .ok (D, T) => simp [Except.map, map_list_sum]

theorem dvsOf_entries (n : ℕ) (l : List (Datum Arr)) (i : ℕ) (h : i + l.length ≤ n) (hs : .strayRow ∉ l) :
    dvsOf true n i l = .ok (l.filterMap fun
      | .spec v => some fun ix => ((v ix : ℝ) : ℂ)
      | _ => none) := by
  induction l generalizing i with
  | nil => rfl
  | cons x l ih =>
    have hl := ih (i + 1) (by simp only [List.length_cons] at h; omega) (fun hm => hs (by simp [hm]))
    cases x with
    | strayRow => exact absurd (by simp) hs
    | empty => simp only [dvsOf, hl]; rfl
    | spec v =>
      simp only [dvsOf, hl]
      rw [if_neg (by simp only [List.length_cons] at h; omega)]
      rfl

/-- The spectrum of an entry. -/
def arrOf : Datum Arr → Arr
  | .spec v => v
  | _ => 0

theorem sum_entries (l : List (Datum Arr)) :
    (l.filterMap fun
      | .spec v => some fun ix => ((v ix : ℝ) : ℂ)
      | _ => none : List (List ℕ → ℂ)).sum = fun ix => (((l.map arrOf).sum ix : ℝ) : ℂ) := by
  induction l with
  | nil => funext ix; simp
  | cons x l ih =>
    cases x <;> simp only [List.filterMap_cons, List.map_cons, List.sum_cons, ih, arrOf] <;> funext ix <;> simp

/-- **C86, partial.** The residual is the same with and without decomposition into spin systems, failures included: for
operations that act on all dependent variables, when every spin system can be simulated alone, decomposed, and the systems
with equally many sites agree in their isotopes and user-given pathways.

Missing, and false: operations that name dependent variables (`C86_counterexample_index`), systems without the observed
isotope when its gyromagnetic ratio is negative (`C86_counterexample_negative`), no spin systems at all
(`C86_counterexample_empty`), and lists that are not uniform (C02). -/
theorem C86_residual_partial (lib : ℕ → Data → Py Data) (hlib : ∀ i, Spec.Additive (lib i)) (env : Env Φ Path Arr)
    (cpu : Int) (dims : List Dim) (experiment : List ℕ → ℂ) (sigma : ℝ) (ops : List Op)
    (hops : ∀ op ∈ ops, Spec.Everywhere op) (l : List (Sys Φ Path)) (hne : l ≠ []) (hu : Spec.Uniform env l)
    (hd : ∀ s ∈ l, ∃ x, run env cpu true [s] 1 = .ok [x]) :
    residual lib env cpu dims experiment sigma ops true l = residual lib env cpu dims experiment sigma ops false l := by
  classical
  let d : Sys Φ Path → Datum Arr := fun s => if h : s ∈ l then (hd s h).choose else .empty
  have hds : ∀ s ∈ l, run env cpu true [s] 1 = .ok [d s] := by
    intro s hs
    simp only [d, dif_pos hs]
    exact (hd s hs).choose_spec
  have hlen : (1 : Int) ≤ l.length := by
    have := List.length_pos_of_ne_nil hne
    omega
  have h1 := C03_decomposed_partial env cpu l hu 1 (by omega) hlen d hds
  have hstray : ∀ s ∈ l, d s ≠ .strayRow := by
    intro s hs hcon
    have he := entry_single env cpu s (d s) (hds s hs)
    unfold entry at he
    rw [hcon] at he
    match ha : alone env s with
    | .error e => rw [ha] at he; cases he
    | .ok o =>
      rw [ha] at he
      cases hg : env.gammaNeg <;> cases o <;>
        simp [bind, Except.bind, pure, Except.pure, hg, mirrorEntry, Datum.ofEntry] at he
  have h2 : ∀ s ∈ l, run env cpu false [s] 1 = .ok [.spec (arrOf (d s))] := by
    intro s hs
    have := C03_entry env cpu s (d s) (hds s hs)
    by_cases hc : env.channel ∈ s.isotopes
    · rw [this.2 hc]
      have hn : d s ≠ .empty := fun h => this.1.mp h hc
      have := hstray s hs
      cases hx : d s with
      | spec v => rfl
      | empty => exact absurd hx hn
      | strayRow => exact absurd hx this
    · rw [this.1.mpr hc, run_single]
      unfold alone
      rw [if_pos hc]
      simp only [arrOf, val, Option.getD_none, Except.ok.injEq, List.cons.injEq, Datum.spec.injEq, and_true]
      unfold mir
      split <;> simp
  have h3 := C02_mixture_partial env cpu l hu 1 (by omega) (fun s => arrOf (d s)) h2
  have hns : .strayRow ∉ l.map d := by
    intro hm
    obtain ⟨s, hs, he⟩ := List.mem_map.mp hm
    exact hstray s hs he
  have hdv := dvsOf_entries l.length (l.map d) 0 (by simp) hns
  have hsum := sum_entries (l.map d)
  rw [List.map_map] at hsum
  simp only [residual, simulate, h1, h3, hdv, bind, Except.bind, pure, Except.pure, dvsOf, Bool.false_eq_true, false_and,
    if_false]
  have hfun : (fun ix => (((List.map (fun s => arrOf (d s)) l).sum ix : ℝ) : ℂ)) = (fun ix => ((((l.map (arrOf ∘ d)).sum) ix : ℝ) : ℂ)) := rfl
  rw [hfun, ← hsum, C86_processing_partial lib hlib ops hops]
  match process lib ops ⟨dims, _⟩ with
  | .error e => rfl
  | .ok p =>
    simp only [Except.map, datum_true]
    simp [datum]

theorem chunks_one (cpu : Int) {α : Type} (l : List α) : Chunks.getChunks cpu l 1 = .ok [l] := by
  obtain ⟨c, hcs, hlen, hflat, -⟩ := Chunks.C01_chunks_partition cpu l 1 1 (by simp) (by omega)
  match c, hlen, hflat with
  | [b], _, hf =>
    have : b = l := by simpa using hf
    rw [hcs, this]

/-- A proton method; the spectrum of a system is a constant given by the system. -/
def exampleEnv (neg : Bool) : Env ℚ Unit Arr where
  channel := "1H"
  norm := 1
  gammaNeg := neg
  mirror := AddMonoidHom.id _
  sel := fun _ => .ok [()]
  core := fun c _ => fun _ => (c : ℝ)
  rows := 1

/-- Two systems of intensity 1. -/
def exampleSys : List (Sys ℚ Unit) := [⟨["1H"], none, 1, 1⟩, ⟨["1H"], none, 1, 1⟩]

theorem example_true : run (exampleEnv false) 4 true exampleSys 1 = .ok [.spec fun _ => 1, .spec fun _ => 1] := by
  unfold run
  rw [chunks_one]
  simp [exampleSys, exampleEnv, bind, Except.bind, pure, Except.pure, oneD, step, cache, userOrSelected, finish, collect,
    spliced, Datum.ofEntry]

theorem example_false : run (exampleEnv false) 4 false exampleSys 1 = .ok [.spec fun _ => 2] := by
  unfold run
  rw [chunks_one]
  simp [exampleSys, exampleEnv, bind, Except.bind, pure, Except.pure, oneD, step, cache, userOrSelected, finish, collect,
    sumArrays]
  funext ix
  norm_num

/-- The hypotheses of `C86_residual_partial` can be met: two systems, a scaling and an apodisation, and a transform that
does nothing. -/
example : (∀ i : ℕ, Spec.Additive ((fun _ d => .ok d : ℕ → Data → Py Data) i)) ∧
    (∀ op ∈ ([.fft [0], .scale 3, .apodize (fun x => .ok (x.map fun _ => 2)) [0] .all] : List Op), Spec.Everywhere op) ∧
    exampleSys ≠ [] ∧ Spec.Uniform (exampleEnv false) exampleSys ∧
    ∀ s ∈ exampleSys, ∃ x, run (exampleEnv false) 4 true [s] 1 = .ok [x] := by
  refine ⟨fun _ => additive_pure, ?_, by simp [exampleSys], ?_, ?_⟩
  · simp [Spec.Everywhere]
  · intro a ha b hb _ _ _
    simp [exampleSys] at ha hb
    simp [ha, hb]
  · intro s hs
    refine ⟨.spec fun _ => 1, ?_⟩
    simp only [exampleSys, List.mem_cons, List.not_mem_nil, or_false, or_self] at hs
    subst hs
    unfold run
    rw [chunks_one]
    simp [exampleEnv, bind, Except.bind, pure, Except.pure, oneD, step, cache, userOrSelected, finish, collect, spliced,
      Datum.ofEntry]

/-- An apodisation that doubles, of dependent variable 0 only. -/
def exampleOp : Op := .apodize (fun x => .ok (x.map fun _ => 2)) [0] (.one 0)

/-- **C86, disagreement.** An apodisation with `dv_index=0` acts on the first spin system when the spectrum is decomposed,
and on the whole spectrum when it is not: residuals -3 and -4 for two systems of intensity 1 and a factor of 2. -/
theorem C86_counterexample_index (lib : ℕ → Data → Py Data) :
    (residual lib (exampleEnv false) 4 [⟨[0], 1, 0, 0⟩] (fun _ => 0) 1 [exampleOp] true exampleSys).map (fun r => r [0]) =
        .ok (-3) ∧
      (residual lib (exampleEnv false) 4 [⟨[0], 1, 0, 0⟩] (fun _ => 0) 1 [exampleOp] false exampleSys).map
        (fun r => r [0]) = .ok (-4) := by
  constructor
  · simp only [residual, simulate, example_true]
    simp [bind, Except.bind, pure, Except.pure, dvsOf, exampleSys, process, applyOperations, operate, inPlace, apodize,
      exampleOp, Dim.coords, mulDvs, dvIndexes, pyPos, datum, along, Except.map]
    norm_num
  · simp only [residual, simulate, example_false]
    simp [bind, Except.bind, pure, Except.pure, dvsOf, exampleSys, process, applyOperations, operate, inPlace, apodize,
      exampleOp, Dim.coords, mulDvs, dvIndexes, pyPos, datum, along, Except.map]
    norm_num

/-- **C86, disagreement.** A spin system without the observed isotope, when its gyromagnetic ratio is negative: decomposed,
the fit fails. -/
theorem C86_counterexample_negative (lib : ℕ → Data → Py Data) (env : Env Φ Path Arr) (hneg : env.gammaNeg = true)
    (cpu : Int) (dims : List Dim) (experiment : List ℕ → ℂ) (sigma : ℝ) (s : Sys Φ Path)
    (h : env.channel ∉ s.isotopes) :
    (∃ e, residual lib env cpu dims experiment sigma [] true [s] = .error e) ∧
      residual lib env cpu dims experiment sigma [] false [s] = .ok fun ix => experiment ix / sigma := by
  constructor
  · obtain ⟨e, he⟩ := C03_counterexample_negative env hneg cpu s h
    exact ⟨e, by simp only [residual, simulate, he]; rfl⟩
  · have hr : run env cpu false [s] 1 = .ok [.spec 0] := by
      rw [run_single]
      unfold alone
      rw [if_pos h]
      simp [val, mir, hneg]
    simp only [residual, simulate, hr]
    simp [dvsOf, process, applyOperations, datum, bind, Except.bind, pure, Except.pure]

/-- **C86, disagreement.** Without spin systems, the fit fails with an IndexError when the spectrum is decomposed. -/
theorem C86_counterexample_empty (lib : ℕ → Data → Py Data) (env : Env Φ Path Arr) (cpu : Int) (dims : List Dim)
    (experiment : List ℕ → ℂ) (sigma : ℝ) :
    residual lib env cpu dims experiment sigma [] true [] = .error .indexError ∧
      residual lib env cpu dims experiment sigma [] false [] = .ok fun ix => experiment ix / sigma := by
  constructor
  · simp [residual, simulate, C03_counterexample_empty, bind, Except.bind, dvsOf]
  · have hr : run env cpu false [] 1 = .ok [.spec 0] :=
      C02_mixture_partial env cpu [] (by intro a ha; simp at ha) 1 (by omega) (fun _ => 0) (by simp)
    simp only [residual, simulate, hr]
    simp [dvsOf, process, applyOperations, datum, bind, Except.bind, pure, Except.pure]

end MRS.Residual
