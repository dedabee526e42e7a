import Verif.Py
import Mathlib.Data.Rat.Defs
import Mathlib.Algebra.Order.Ring.Rat
import Mathlib.Algebra.Order.Ring.Abs
import Mathlib.Tactic.NormNum
import Mathlib.Data.List.Basic

/-!
# Which methods a run computes — property C95

Model of the loop over the methods in `Simulator.run`
(src/mrsimulator/simulator/__init__.py lines 404-479). What happens inside one method (chunks,
workers, collection) is the subject of C01–C03 and a parameter here.
-/

namespace MRS.Select

/-- A method as `run` sees it. `static` is everything `run` only reads: name, channels, spectral
dimensions and events, affine matrix, experiment; `gammas` the gyromagnetic ratios of the
channels, `fluxes` the flux densities of the events of each dimension (both parts of it that `run`
uses itself). `offsets` are the attributes `origin_offset` of the dimensions (simulator/__init__.py lines 404-479). -/
structure Method (P R : Type) where
  static : P
  gammas : List ℚ
  fluxes : List (List ℚ)
  offsets : List ℚ
  simulation : Option R
  deriving DecidableEq

/-- What `run` calls. `spectrum`: the jobs and the collection of their results (lines 439-458 and
468-473), a function of what the method holds and of the spin systems and configuration of the
simulator, which the loop does not change. `touched`: what the jobs leave in the attributes
`origin_offset` (base_model.pyx line 154, in the same process when there is one job). `pack`: the
result as a CSDM object or an array (lines 475-479), which also reads the dimensions. -/
structure World (P D R : Type) where
  spectrum : P → Py D
  touched : P → List ℚ → List ℚ
  pack : P → List ℚ → D → R

variable {P D R : Type}

/-- `method.channels[0].gyromagnetic_ratio` and
`method.spectral_dimensions[0].events[0].magnetic_flux_density` (lines 462-464). -/
def originOffset (m : Method P R) : Py ℚ := do
  let g ← pyGet m.gammas 0
  let d ← pyGet m.fluxes 0
  let b ← pyGet d 0
  return |b * g * 1000000|

/-- The body of the loop for one method (lines 437-479): the method as left behind, and whether
an exception was raised. -/
def one (w : World P D R) (m : Method P R) : Method P R × Py Unit :=
  let m := { m with offsets := w.touched m.static m.offsets }
  match w.spectrum m.static with
  | .error e => (m, .error e)
  | .ok data =>
    match originOffset m with
    | .error e => (m, .error e)
    | .ok off =>
      let m := { m with offsets := m.offsets.map fun _ => off }
      ({ m with simulation := some (w.pack m.static m.offsets data) }, .ok ())

/-- The loop (lines 436-479): the methods as left behind, and whether an exception was raised. -/
def loop (w : World P D R) : List Int → List (Method P R) → List (Method P R) × Py Unit
  | [], ms => (ms, .ok ())
  | index :: rest, ms =>
    match pyPos ms.length index with
    | none => (ms, .error .indexError)
    | some i =>
      match ms[i]? with
      | none => (ms, .error .indexError)
      | some m =>
        match one w m with
        | (m', .error e) => (ms.set i m', .error e)
        | (m', .ok ()) => loop w rest (ms.set i m')

/-- The argument `method_index`: absent, a number or a list (simulator/__init__.py lines 404-436). -/
inductive Index
  | all
  | one (i : Int)
  | many (l : List Int)

/-- Lines 432-435. -/
def indexes (n : ℕ) : Index → List Int
  | .all => (List.range n).map Int.ofNat
  | .one i => [i]
  | .many l => l

/-- `Simulator.run` (lines 404-479). -/
def run (w : World P D R) (a : Index) (ms : List (Method P R)) : List (Method P R) × Py Unit :=
  loop w (indexes ms.length a) ms

/-! ## Specification -/

/-- The jobs do not add or remove dimensions. -/
def Spec.Fair (w : World P D R) : Prop := ∀ p l, (w.touched p l).length = l.length

/-- A method that can be computed: its spectrum, flux density and gyromagnetic ratio. -/
structure Spec.Runs (w : World P D R) (m : Method P R) (data : D) (flux gamma : ℚ) : Prop where
  spectrum : w.spectrum m.static = .ok data
  gamma : m.gammas.head? = some gamma
  flux : ∃ d, m.fluxes.head? = some d ∧ d.head? = some flux

/-- A method after it was computed: all dimensions have the Larmor frequency as origin offset and
the simulation is made from the spectrum of this method; nothing else is different. -/
structure Spec.Computed (w : World P D R) (m m' : Method P R) : Prop where
  static : m'.static = m.static ∧ m'.gammas = m.gammas ∧ m'.fluxes = m.fluxes
  result : ∃ data flux gamma, Spec.Runs w m data flux gamma ∧
    m'.offsets = List.replicate m.offsets.length (|flux * gamma| * 1000000) ∧
    m'.simulation = some (w.pack m.static m'.offsets data)

/-- The index denotes the method at this position: counted from the start, or from the end if
negative. -/
def Spec.Denotes (n : ℕ) (index : Int) (i : ℕ) : Prop :=
  i < n ∧ (index = i ∨ index = (i : Int) - n)

/-! ## Lemmas -/

theorem denotes_iff (n : ℕ) (index : Int) (i : ℕ) :
    Spec.Denotes n index i ↔ pyPos n index = some i := by
  unfold Spec.Denotes pyPos
  by_cases hneg : index < 0
  · simp only [if_pos hneg]
    by_cases hc : 0 ≤ index + n ∧ index + n < n
    · rw [if_pos hc, Option.some.injEq]; omega
    · rw [if_neg hc]; simp only [reduceCtorEq, iff_false]; omega
  · simp only [if_neg hneg]
    by_cases hc : 0 ≤ index ∧ index < n
    · rw [if_pos hc, Option.some.injEq]; omega
    · rw [if_neg hc]; simp only [reduceCtorEq, iff_false]; omega

theorem pyGet_zero {α : Type} (l : List α) (a : α) : pyGet l 0 = .ok a ↔ l.head? = some a := by
  cases l with
  | nil => simp [pyGet, pyPos]
  | cons b l =>
    have : pyGet (b :: l) 0 = .ok b := by
      have := pyGet_ofNat (b :: l) 0 (by simp)
      simpa using this
    rw [this]
    simp

theorem originOffset_eq (m : Method P R) (q : ℚ) : originOffset m = .ok q ↔
    ∃ gamma flux, m.gammas.head? = some gamma ∧
      (∃ d, m.fluxes.head? = some d ∧ d.head? = some flux) ∧ q = |flux * gamma| * 1000000 := by
  have habs : ∀ x : ℚ, |x * 1000000| = |x| * 1000000 := by
    intro x
    rw [abs_mul, abs_of_pos (by norm_num : (0 : ℚ) < 1000000)]
  unfold originOffset
  simp only [bind, Except.bind, pure, Except.pure]
  constructor
  · intro h
    cases hg : pyGet m.gammas 0 with
    | error e => rw [hg] at h; cases h
    | ok g =>
      rw [hg] at h
      cases hd : pyGet m.fluxes 0 with
      | error e => rw [hd] at h; cases h
      | ok d =>
        rw [hd] at h
        cases hb : pyGet d 0 with
        | error e => simp only [hb] at h; cases h
        | ok b =>
          simp only [hb] at h
          injection h with h
          exact ⟨g, b, (pyGet_zero _ _).mp hg, ⟨d, (pyGet_zero _ _).mp hd, (pyGet_zero _ _).mp hb⟩,
            by rw [← h, habs]⟩
  · rintro ⟨g, b, hg, ⟨d, hd, hb⟩, rfl⟩
    rw [(pyGet_zero _ _).mpr hg, (pyGet_zero _ _).mpr hd]
    simp only [(pyGet_zero _ _).mpr hb]
    rw [habs]

/-- One method succeeds exactly when it can be computed; then it is computed. -/
theorem one_ok (w : World P D R) (hw : Spec.Fair w) (m : Method P R) :
    ((one w m).2 = .ok () ↔ ∃ data flux gamma, Spec.Runs w m data flux gamma) ∧
    ((one w m).2 = .ok () → Spec.Computed w m (one w m).1) := by
  unfold one
  simp only
  cases hs : w.spectrum m.static with
  | error e =>
    simp only
    refine ⟨⟨fun h => (by cases h), ?_⟩, fun h => by cases h⟩
    rintro ⟨data, flux, gamma, h⟩
    rw [h.spectrum] at hs; cases hs
  | ok data =>
    simp only
    cases ho : originOffset { m with offsets := w.touched m.static m.offsets } with
    | error e =>
      refine ⟨⟨fun h => (by cases h), ?_⟩, fun h => by cases h⟩
      rintro ⟨data, flux, gamma, h⟩
      have := (originOffset_eq { m with offsets := w.touched m.static m.offsets }
        (|flux * gamma| * 1000000)).mpr ⟨gamma, flux, h.gamma, h.flux, rfl⟩
      rw [this] at ho; cases ho
    | ok q =>
      obtain ⟨gamma, flux, hg, hf, rfl⟩ := (originOffset_eq _ _).mp ho
      refine ⟨⟨fun _ => ⟨data, flux, gamma, hs, hg, hf⟩, fun _ => rfl⟩, fun _ => ?_⟩
      refine ⟨⟨rfl, rfl, rfl⟩, data, flux, gamma, ⟨hs, hg, hf⟩, ?_, rfl⟩
      simp only
      rw [List.map_const', hw]

/-- What is computed from a method depends only on what `run` does not change. -/
theorem one_again (w : World P D R) (hw : Spec.Fair w) (m m' : Method P R)
    (h : Spec.Computed w m m') : one w m' = (m', .ok ()) ∧ one w m = (m', .ok ()) := by
  obtain ⟨⟨h1, h2, h3⟩, data, flux, gamma, ⟨r1, r2, r3⟩, ho, hsim⟩ := h
  have key : ∀ x : Method P R, x.static = m.static → x.gammas = m.gammas → x.fluxes = m.fluxes →
      x.offsets.length = m.offsets.length → one w x = (m', .ok ()) := by
    intro x x1 x2 x3 x4
    unfold one
    simp only [x1, r1]
    rw [(originOffset_eq _ (|flux * gamma| * 1000000)).mpr
      ⟨gamma, flux, by rw [← r2, ← x2], by simpa [x3] using r3, rfl⟩]
    simp only
    rw [List.map_const', hw, x4, ← ho, ← hsim]
    obtain ⟨a, b, c, d, e⟩ := m'
    simp only at h1 h2 h3
    rw [h1, h2, h3, x2, x3]
  exact ⟨key m' h1 h2 h3 (by rw [ho]; simp), key m rfl rfl rfl rfl⟩

/-- The invariant of the loop. -/
def After (w : World P D R) (start now : List (Method P R)) (done : ℕ → Prop) : Prop :=
  now.length = start.length ∧ ∀ (i : ℕ) (m : Method P R), start[i]? = some m →
    ∃ m' : Method P R, now[i]? = some m' ∧ (done i → Spec.Computed w m m') ∧ (¬ done i → m' = m)

theorem after_set (w : World P D R) (start now : List (Method P R)) (done : ℕ → Prop)
    (h : After w start now done) (i : ℕ) (m x : Method P R) (hm : start[i]? = some m)
    (hx : Spec.Computed w m x) :
    After w start (now.set i x) fun j => j = i ∨ done j := by
  refine ⟨by simp [h.1], fun j y hy => ?_⟩
  by_cases hj : j = i
  · subst hj
    have : j < now.length := by
      rw [h.1]; exact (List.getElem?_eq_some_iff.mp hm).1
    rw [hm] at hy
    cases hy
    exact ⟨x, by simp [this], fun _ => hx, fun hn => absurd (Or.inl rfl) hn⟩
  · obtain ⟨y', h1, h2, h3⟩ := h.2 j y hy
    refine ⟨y', by rw [List.getElem?_set_ne (Ne.symm hj)]; exact h1, fun hd => ?_, fun hn => ?_⟩
    · rcases hd with hd | hd
      · exact absurd hd hj
      · exact h2 hd
    · exact h3 fun hd => hn (Or.inr hd)

/-- The loop computes the methods that its indexes denote. -/
theorem loop_ok (w : World P D R) (hw : Spec.Fair w) (l : List Int) (start now : List (Method P R))
    (done : ℕ → Prop) (h : After w start now done)
    (hl : ∀ index ∈ l, ∃ (i : ℕ) (m : Method P R), Spec.Denotes start.length index i ∧
      start[i]? = some m ∧ ∃ data flux gamma, Spec.Runs w m data flux gamma) :
    ∃ ms, (∀ rest, loop w (l ++ rest) now = loop w rest ms) ∧
      After w start ms fun i => (∃ index ∈ l, Spec.Denotes start.length index i) ∨ done i := by
  induction l generalizing now done with
  | nil =>
    refine ⟨now, fun rest => rfl, h.1, fun i m hm => ?_⟩
    obtain ⟨m', h1, h2, h3⟩ := h.2 i m hm
    exact ⟨m', h1, fun hd => h2 (by simpa using hd), fun hn => h3 (by simpa using hn)⟩
  | cons index l ih =>
    obtain ⟨i, m, hden, hm, hrun⟩ := hl index (by simp)
    have hpos := (denotes_iff _ _ _).mp hden
    obtain ⟨m', h1, h2, h3⟩ := h.2 i m hm
    have hone : ∃ x, one w m' = (x, .ok ()) ∧ Spec.Computed w m x := by
      by_cases hd : done i
      · exact ⟨m', (one_again w hw m m' (h2 hd)).1, h2 hd⟩
      · have hk := one_ok w hw m
        have hc := hk.2 (hk.1.mpr hrun)
        rw [h3 hd]
        exact ⟨(one w m).1, (one_again w hw m _ hc).2, hc⟩
    obtain ⟨x, hx, hcomp⟩ := hone
    have hset := after_set w start now done h i m x hm hcomp
    obtain ⟨ms, k1, k2⟩ := ih (now.set i x) _ hset fun index' hi' => hl index' (by simp [hi'])
    refine ⟨ms, fun rest => ?_, k2.1, fun j y hy => ?_⟩
    · rw [List.cons_append, loop]
      rw [← h.1] at hpos
      simp only [hpos, h1, hx]
      exact k1 rest
    · obtain ⟨y', q1, q2, q3⟩ := k2.2 j y hy
      have hu : ∀ j, (∃ ix ∈ index :: l, Spec.Denotes start.length ix j) ∨ done j ↔
          (∃ ix ∈ l, Spec.Denotes start.length ix j) ∨ j = i ∨ done j := by
        intro j
        constructor
        · rintro (⟨ix, hix, hd⟩ | hd)
          · rcases List.mem_cons.mp hix with rfl | hix
            · have := (denotes_iff _ _ _).mp hd
              rw [hpos] at this
              exact .inr (.inl (Option.some.inj this).symm)
            · exact .inl ⟨ix, hix, hd⟩
          · exact .inr (.inr hd)
        · rintro (⟨ix, hix, hd⟩ | rfl | hd)
          · exact .inl ⟨ix, by simp [hix], hd⟩
          · exact .inl ⟨index, by simp, hden⟩
          · exact .inr hd
      exact ⟨y', q1, fun hd => q2 ((hu j).mp hd), fun hn => q3 fun hd => hn ((hu j).mpr hd)⟩

theorem after_start (w : World P D R) (ms : List (Method P R)) :
    After w ms ms fun _ => False :=
  ⟨rfl, fun _ m hm => ⟨m, hm, fun h => h.elim, fun _ => rfl⟩⟩

/-- The positions an argument asks for. -/
def Spec.Asked (n : ℕ) : Index → ℕ → Prop
  | .all, i => i < n
  | .one index, i => Spec.Denotes n index i
  | .many l, i => ∃ index ∈ l, Spec.Denotes n index i

theorem asked_iff (n : ℕ) (a : Index) (i : ℕ) :
    Spec.Asked n a i ↔ ∃ index ∈ indexes n a, Spec.Denotes n index i := by
  cases a with
  | all =>
    unfold Spec.Asked indexes
    constructor
    · intro h
      exact ⟨i, List.mem_map.mpr ⟨i, List.mem_range.mpr h, rfl⟩, h, .inl rfl⟩
    · rintro ⟨_, _, h, _⟩; exact h
  | one index => unfold Spec.Asked indexes; simp
  | many l => rfl

/-! ## Theorems -/

/-- **C95.** If every index given denotes a method and these methods can be computed, `run`
succeeds; the methods asked for are computed, each from its own attributes, and all others stay as
they are. Repeated indexes, their order and their sign make no difference. -/
theorem C95_selected (w : World P D R) (hw : Spec.Fair w) (a : Index) (ms : List (Method P R))
    (hvalid : ∀ index ∈ indexes ms.length a, ∃ i, Spec.Denotes ms.length index i)
    (hruns : ∀ (i : ℕ) (m : Method P R), Spec.Asked ms.length a i → ms[i]? = some m →
      ∃ data flux gamma, Spec.Runs w m data flux gamma) :
    (run w a ms).2 = .ok () ∧ (run w a ms).1.length = ms.length ∧
    ∀ (i : ℕ) (m : Method P R), ms[i]? = some m → ∃ m' : Method P R,
      (run w a ms).1[i]? = some m' ∧
      (Spec.Asked ms.length a i → Spec.Computed w m m') ∧
      (¬ Spec.Asked ms.length a i → m' = m) := by
  obtain ⟨res, h1, h2⟩ := loop_ok w hw (indexes ms.length a) ms ms _ (after_start w ms) (by
    intro index hi
    obtain ⟨i, hd⟩ := hvalid index hi
    obtain ⟨m, hm⟩ : ∃ m, ms[i]? = some m := ⟨_, List.getElem?_eq_getElem hd.1⟩
    exact ⟨i, m, hd, hm, hruns i m ((asked_iff _ _ _).mpr ⟨index, hi, hd⟩) hm⟩)
  have hres : run w a ms = (res, .ok ()) := by
    have := h1 []
    rw [List.append_nil] at this
    unfold run; rw [this]; rfl
  rw [hres]
  refine ⟨rfl, h2.1, fun i m hm => ?_⟩
  obtain ⟨m', q1, q2, q3⟩ := h2.2 i m hm
  refine ⟨m', q1, fun hd => q2 (.inl ((asked_iff _ _ _).mp hd)), fun hn => q3 ?_⟩
  rintro (hd | hd)
  · exact hn ((asked_iff _ _ _).mpr hd)
  · exact hd

/-- **C95, failure.** At the first index that denotes no method, or whose method cannot be
computed, `run` raises; the methods before it are computed, all others keep their simulation. -/
theorem C95_failure (w : World P D R) (hw : Spec.Fair w) (pre post : List Int) (bad : Int)
    (ms : List (Method P R))
    (hpre : ∀ index ∈ pre, ∃ (i : ℕ) (m : Method P R), Spec.Denotes ms.length index i ∧
      ms[i]? = some m ∧ ∃ data flux gamma, Spec.Runs w m data flux gamma)
    (hbad : ¬ ∃ (i : ℕ) (m : Method P R), Spec.Denotes ms.length bad i ∧ ms[i]? = some m ∧
      ∃ data flux gamma, Spec.Runs w m data flux gamma) :
    (∃ e, (run w (.many (pre ++ bad :: post)) ms).2 = .error e) ∧
    (run w (.many (pre ++ bad :: post)) ms).1.length = ms.length ∧
    ∀ (i : ℕ) (m : Method P R), ms[i]? = some m → ∃ m' : Method P R,
      (run w (.many (pre ++ bad :: post)) ms).1[i]? = some m' ∧
      ((∃ index ∈ pre, Spec.Denotes ms.length index i) → Spec.Computed w m m') ∧
      ((¬ ∃ index ∈ pre, Spec.Denotes ms.length index i) → m'.simulation = m.simulation ∧
        m'.static = m.static) := by
  obtain ⟨res, h1, h2⟩ := loop_ok w hw pre ms ms _ (after_start w ms) hpre
  have hrun : run w (.many (pre ++ bad :: post)) ms = loop w (bad :: post) res := h1 _
  have keep : ∀ (i : ℕ) (m : Method P R), ms[i]? = some m → ∃ m' : Method P R, res[i]? = some m' ∧
      ((∃ index ∈ pre, Spec.Denotes ms.length index i) → Spec.Computed w m m') ∧
      ((¬ ∃ index ∈ pre, Spec.Denotes ms.length index i) → m' = m) := by
    intro i m hm
    obtain ⟨m', q1, q2, q3⟩ := h2.2 i m hm
    exact ⟨m', q1, fun hd => q2 (.inl hd), fun hn => q3 fun h => h.elim hn id⟩
  rw [hrun, loop]
  cases hpos : pyPos res.length bad with
  | none =>
    refine ⟨⟨_, rfl⟩, h2.1, fun i m hm => ?_⟩
    obtain ⟨m', q1, q2, q3⟩ := keep i m hm
    exact ⟨m', q1, q2, fun hn => by rw [q3 hn]; exact ⟨rfl, rfl⟩⟩
  | some i =>
    rw [h2.1] at hpos
    have hden := (denotes_iff _ _ _).mpr hpos
    obtain ⟨m, hm⟩ : ∃ m, ms[i]? = some m := ⟨_, List.getElem?_eq_getElem hden.1⟩
    have hno : ¬ ∃ data flux gamma, Spec.Runs w m data flux gamma := fun hr =>
      hbad ⟨i, m, hden, hm, hr⟩
    have hnd : ¬ ∃ index ∈ pre, Spec.Denotes ms.length index i := by
      rintro ⟨index, hi, hd⟩
      obtain ⟨j, y, hdj, hy, hr⟩ := hpre index hi
      rw [denotes_iff] at hd hdj
      rw [hd] at hdj
      cases hdj
      rw [hm] at hy
      cases hy
      exact hno hr
    obtain ⟨m', q1, q2, q3⟩ := keep i m hm
    rw [q3 hnd] at q1
    simp only [q1]
    have hone : ∃ x e, one w m = (x, .error e) ∧ x.simulation = m.simulation ∧
        x.static = m.static := by
      have hk := (one_ok w hw m).1
      unfold one
      unfold one at hk
      simp only at hk ⊢
      cases hs : w.spectrum m.static with
      | error e => exact ⟨_, e, rfl, rfl, rfl⟩
      | ok data =>
        rw [hs] at hk
        simp only at hk ⊢
        cases ho : originOffset { m with offsets := w.touched m.static m.offsets } with
        | error e => exact ⟨_, e, rfl, rfl, rfl⟩
        | ok q =>
          rw [ho] at hk
          exact absurd (hk.mp rfl) hno
    obtain ⟨x, e, hx, hxs, hxt⟩ := hone
    rw [hx]
    refine ⟨⟨e, rfl⟩, by simp [h2.1], fun j y hy => ?_⟩
    by_cases hj : j = i
    · subst hj
      rw [hm] at hy
      cases hy
      refine ⟨x, ?_, fun hd => absurd hd hnd, fun _ => ⟨hxs, hxt⟩⟩
      have : j < res.length := by rw [h2.1]; exact hden.1
      simp [this]
    · obtain ⟨y', r1, r2, r3⟩ := keep j y hy
      exact ⟨y', by simp only; rw [List.getElem?_set_ne (Ne.symm hj)]; exact r1, r2,
        fun hn => by rw [r3 hn]; exact ⟨rfl, rfl⟩⟩

/-- A method that is computed is determined by the method before. -/
theorem computed_unique (w : World P D R) (hw : Spec.Fair w) (m x y : Method P R)
    (hx : Spec.Computed w m x) (hy : Spec.Computed w m y) : x = y := by
  have h1 := (one_again w hw m x hx).2
  have h2 := (one_again w hw m y hy).2
  rw [h1] at h2
  exact (Prod.mk.inj h2).1

/-- **C95, again.** Running the same methods once more changes nothing. -/
theorem C95_again (w : World P D R) (hw : Spec.Fair w) (a : Index) (ms : List (Method P R))
    (hvalid : ∀ index ∈ indexes ms.length a, ∃ i, Spec.Denotes ms.length index i)
    (hruns : ∀ (i : ℕ) (m : Method P R), Spec.Asked ms.length a i → ms[i]? = some m →
      ∃ data flux gamma, Spec.Runs w m data flux gamma) :
    run w a (run w a ms).1 = run w a ms := by
  obtain ⟨h0, h1, h2⟩ := C95_selected w hw a ms hvalid hruns
  generalize hms : (run w a ms).1 = ns at *
  have hcomp : ∀ (i : ℕ) (m : Method P R), Spec.Asked ns.length a i → ns[i]? = some m →
      one w m = (m, .ok ()) ∧ ∃ data flux gamma, Spec.Runs w m data flux gamma := by
    intro i m hd hm
    rw [h1] at hd
    have hi : i < ms.length := by rw [← h1]; exact (List.getElem?_eq_some_iff.mp hm).1
    obtain ⟨m', q1, q2, _⟩ := h2 i ms[i] (List.getElem?_eq_getElem hi)
    rw [hm] at q1
    cases q1
    have := (one_again w hw _ m (q2 hd)).1
    exact ⟨this, ((one_ok w hw m).1.mp (by rw [this]))⟩
  obtain ⟨k0, k1, k2⟩ := C95_selected w hw a ns (by rw [h1]; exact hvalid)
    (fun i m hd hm => (hcomp i m hd hm).2)
  have heq : (run w a ns).1 = ns := by
    refine List.ext_getElem? fun i => ?_
    cases hi : ns[i]? with
    | none =>
      rw [List.getElem?_eq_none_iff] at hi ⊢
      omega
    | some m =>
      obtain ⟨m', q1, q2, q3⟩ := k2 i m hi
      rw [q1]
      by_cases hd : Spec.Asked ns.length a i
      · have h5 := (one_again w hw m m' (q2 hd)).2
        rw [(hcomp i m hd hi).1] at h5
        rw [(Prod.mk.inj h5).1]
      · rw [q3 hd]
  exact Prod.ext (by rw [heq, hms]) (by rw [k0, h0])

/-! ## Examples -/

/-- Spectra are numbers: the first method gives 1, the second 4; the third fails. -/
def exWorld : World ℕ ℕ (List ℚ × ℕ) where
  spectrum p := if p = 2 then .error .valueError else .ok ((p + 1) ^ 2)
  touched _ l := l.map fun _ => 7
  pack _ o d := (o, d)

/-- Two methods without results. -/
def exMethods : List (Method ℕ (List ℚ × ℕ)) :=
  [⟨0, [-10], [[9, 9], [18]], [0, 5], none⟩, ⟨1, [2], [[1]], [3], some ([], 100)⟩,
   ⟨2, [2], [[1]], [3], some ([], 100)⟩]

example : Spec.Fair exWorld := fun _ l => by simp [exWorld]

example : run exWorld (.many [-3, 0]) exMethods =
    ([⟨0, [-10], [[9, 9], [18]], [90000000, 90000000], some ([90000000, 90000000], 1)⟩,
      ⟨1, [2], [[1]], [3], some ([], 100)⟩, ⟨2, [2], [[1]], [3], some ([], 100)⟩], .ok ()) := by
  decide +kernel

example : run exWorld .all exMethods =
    ([⟨0, [-10], [[9, 9], [18]], [90000000, 90000000], some ([90000000, 90000000], 1)⟩,
      ⟨1, [2], [[1]], [2000000], some ([2000000], 4)⟩, ⟨2, [2], [[1]], [7], some ([], 100)⟩],
      .error .valueError) := by
  decide +kernel

example : ∀ index ∈ indexes 3 (.many [-3, 0]), ∃ i, Spec.Denotes 3 index i := by
  intro index h
  refine ⟨0, by omega, ?_⟩
  simp only [indexes, List.mem_cons, List.not_mem_nil, or_false] at h
  rcases h with rfl | rfl
  · right; norm_num
  · left; norm_num

end MRS.Select
