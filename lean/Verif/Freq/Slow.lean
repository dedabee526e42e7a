import Verif.Freq.Folding
import Verif.Freq.SidebandSep
import Mathlib.MeasureTheory.Measure.LevyConvergence

/-!
# Spinning slowly — property C118

As the rotor slows down the sidebands crowd together, and the spectrum of a powder becomes the static spectrum.  The specification compares
the two as distributions: for every bounded and continuous function of the frequency its mean over the sidebands of all crystallites, weighted
by their intensities, becomes its mean over the frequencies of the static crystallites.
-/

namespace MRS.Freq

open Complex ComplexConjugate Matrix MeasureTheory Filter Topology

/-! ## Specification -/

/-- The mean of `φ` over lines at `F + m ν_r` with intensities `J m`. -/
noncomputable def Spec.overSidebands (νr F : ℝ) (J : ℤ → ℝ) (φ : ℝ → ℝ) : ℝ := ∑' m : ℤ, J m * φ (F + m * νr)

/-! ## Periodic frequencies -/

theorem gathered_periodic (νr : ℝ) (hν : 0 < νr) (f : ℝ → ℝ) (hf : Continuous f) (hp : Function.Periodic f (1 / νr)) :
    Function.Periodic (Spec.gathered νr f) (1 / νr) := by
  intro t
  have hc : Continuous fun τ => f τ - Spec.average νr f := hf.sub continuous_const
  have hz : ∫ τ in (0 : ℝ)..(1 / νr), (f τ - Spec.average νr f) = 0 := by
    rw [intervalIntegral.integral_sub (hf.intervalIntegrable _ _) (by simp), intervalIntegral.integral_const]
    unfold Spec.average
    simp only [sub_zero, smul_eq_mul]
    field_simp
    ring
  have hp' : Function.Periodic (fun τ => f τ - Spec.average νr f) (1 / νr) := fun τ => by
    simp only [hp τ]
  unfold Spec.gathered
  rw [← intervalIntegral.integral_add_adjacent_intervals (hc.intervalIntegrable 0 t) (hc.intervalIntegrable t (t + 1 / νr)),
    hp'.intervalIntegral_add_eq t 0, zero_add, hz, add_zero]

/-- The signal is the sum of its Fourier series, at all times. -/
theorem signal_series_all (νr : ℝ) (hν : 0 < νr) (f : ℝ → ℝ) (hf : Continuous f) (hp : Function.Periodic f (1 / νr)) (t : ℝ) :
    HasSum (fun k : ℤ => Spec.coefficient νr f k * exp (((2 * Real.pi * k * νr * t : ℝ) : ℂ) * I)) (signal νr f t) := by
  have hT := turn_pos νr hν
  obtain ⟨n, hn, -⟩ := existsUnique_add_zsmul_mem_Ico hT t 0
  rw [zero_add] at hn
  have h := signal_series νr hν f hf _ hn.1 hn.2
  have e1 : signal νr f (t + n • (1 / νr)) = signal νr f t := by
    unfold signal
    rw [(gathered_periodic νr hν f hf hp).zsmul n t]
  have e2 : (fun k : ℤ => Spec.coefficient νr f k * exp (((2 * Real.pi * k * νr * (t + n • (1 / νr)) : ℝ) : ℂ) * I))
      = fun k : ℤ => Spec.coefficient νr f k * exp (((2 * Real.pi * k * νr * t : ℝ) : ℂ) * I) := by
    funext k
    congr 1
    have e3 : ((2 * Real.pi * k * νr * (t + n • (1 / νr)) : ℝ) : ℂ) * I
        = ((2 * Real.pi * k * νr * t : ℝ) : ℂ) * I + ((k * n : ℤ) : ℂ) * (2 * Real.pi * I) := by
      rw [zsmul_eq_mul, mul_add, show 2 * Real.pi * k * νr * (n * (1 / νr)) = 2 * Real.pi * k * n by field_simp]
      push_cast
      ring
    rw [e3, Complex.exp_add, Complex.exp_int_mul_two_pi_mul_I, mul_one]
  rw [e1, e2] at h
  exact h

/-- The characteristic function of the sidebands. -/
theorem sideband_char (νr : ℝ) (hν : 0 < νr) (f : ℝ → ℝ) (hf : Continuous f) (hp : Function.Periodic f (1 / νr)) (δ : ℝ) :
    HasSum (fun k : ℤ => ((Spec.sideband νr f k : ℝ) : ℂ) * exp (((2 * Real.pi * k * νr * δ : ℝ) : ℂ) * I))
      (νr * ∫ t in (0 : ℝ)..(1 / νr), exp (((Spec.gathered νr f (t + δ) - Spec.gathered νr f t : ℝ) : ℂ) * I)) := by
  have hT := turn_pos νr hν
  have hs := signal_continuous νr f hf
  let g : ℤ → ℝ → ℂ := fun k t => Spec.coefficient νr f k * exp (((2 * Real.pi * k * νr * (t + δ) : ℝ) : ℂ) * I) * conj (signal νr f t)
  have hg : ∀ k, Continuous (g k) := by
    intro k
    refine Continuous.mul (continuous_const.mul ?_) (Complex.continuous_conj.comp hs)
    fun_prop
  have hnorm : ∀ k t, ‖g k t‖ = ‖Spec.coefficient νr f k‖ := by
    intro k t
    simp only [g, norm_mul, norm_exp_ofReal_mul_I, RCLike.norm_conj, signal_norm, mul_one]
  have hsum := coefficient_summable νr hν f hf
  have h1 := intervalIntegral.hasSum_integral_of_dominated_convergence (a := 0) (b := 1 / νr) (μ := volume) (F := g)
    (f := fun t => signal νr f (t + δ) * conj (signal νr f t)) (fun k _ => ‖Spec.coefficient νr f k‖)
    (fun k => (hg k).aestronglyMeasurable) (fun k => Eventually.of_forall fun t _ => (hnorm k t).le)
    (Eventually.of_forall fun t _ => hsum.norm) (by simp)
    (Eventually.of_forall fun t _ => (signal_series_all νr hν f hf hp (t + δ)).mul_right _)
  have h2 := h1.mul_left (νr : ℂ)
  have e1 : (fun k : ℤ => (νr : ℂ) * ∫ t in (0 : ℝ)..(1 / νr), g k t)
      = fun k : ℤ => ((Spec.sideband νr f k : ℝ) : ℂ) * exp (((2 * Real.pi * k * νr * δ : ℝ) : ℂ) * I) := by
    funext k
    have e : ∀ t, g k t = (Spec.coefficient νr f k * exp (((2 * Real.pi * k * νr * δ : ℝ) : ℂ) * I))
        * conj (exp (((Spec.gathered νr f t - 2 * Real.pi * k * νr * t : ℝ) : ℂ) * I)) := by
      intro t
      simp only [g, signal]
      rw [← Complex.exp_conj, ← Complex.exp_conj, mul_assoc (Spec.coefficient νr f k),
        mul_assoc (Spec.coefficient νr f k), ← Complex.exp_add, ← Complex.exp_add]
      congr 2
      simp only [map_mul, Complex.conj_ofReal, Complex.conj_I]
      push_cast
      ring
    simp only [e]
    rw [intervalIntegral.integral_const_mul]
    have e2 : (νr : ℂ) * ∫ t in (0 : ℝ)..(1 / νr), conj (exp (((Spec.gathered νr f t - 2 * Real.pi * k * νr * t : ℝ) : ℂ) * I))
        = conj (Spec.coefficient νr f k) := by
      unfold Spec.coefficient
      rw [map_mul, Complex.conj_ofReal]
      congr 1
      rw [intervalIntegral.integral_of_le hT.le, intervalIntegral.integral_of_le hT.le, integral_conj]
    have e3 : ((Spec.sideband νr f k : ℝ) : ℂ) = Spec.coefficient νr f k * conj (Spec.coefficient νr f k) := by
      rw [Complex.mul_conj, Complex.normSq_eq_norm_sq]
      rfl
    rw [e3, ← e2]
    ring
  have e2 : ∀ t, signal νr f (t + δ) * conj (signal νr f t) = exp (((Spec.gathered νr f (t + δ) - Spec.gathered νr f t : ℝ) : ℂ) * I) := by
    intro t
    unfold signal
    rw [← Complex.exp_conj, ← Complex.exp_add]
    congr 1
    simp only [map_mul, Complex.conj_ofReal, Complex.conj_I]
    push_cast
    ring
  rw [e1] at h2
  simp only [e2] at h2
  exact h2

/-- The mean of `g` over an interval of length `ε` after `u`. -/
noncomputable def ahead (g : ℝ → ℝ) (ε u : ℝ) : ℝ := ∫ s in (0 : ℝ)..1, g (u + ε * s)

theorem ahead_continuous (g : ℝ → ℝ) (hg : Continuous g) : Continuous (Function.uncurry (ahead g)) := by
  unfold ahead Function.uncurry
  refine intervalIntegral.continuous_parametric_intervalIntegral_of_continuous' ?_ 0 1
  unfold Function.uncurry
  fun_prop

/-- ... when the frequency is that of a turning rotor. -/
theorem sideband_turning (νr : ℝ) (hν : 0 < νr) (g : ℝ → ℝ) (hg : Continuous g) (hp : Function.Periodic g 1) (ω : ℝ) :
    HasSum (fun k : ℤ => ((Spec.sideband νr (fun τ => g (νr * τ)) k : ℝ) : ℂ) * exp (((ω * (Spec.average 1 g + k * νr) : ℝ) : ℂ) * I))
      (∫ u in (0 : ℝ)..1, exp (((ω * ahead g (νr * (ω / (2 * Real.pi))) u : ℝ) : ℂ) * I)) := by
  set f : ℝ → ℝ := fun τ => g (νr * τ) with hf
  have hfc : Continuous f := hg.comp (continuous_const.mul continuous_id)
  have hfp : Function.Periodic f (1 / νr) := by
    intro τ
    rw [hf]
    simp only []
    rw [mul_add, mul_one_div_cancel hν.ne', hp]
  have havg : Spec.average νr f = Spec.average 1 g := average_scale νr hν g
  set δ := ω / (2 * Real.pi) with hδ
  have hω : ω = 2 * Real.pi * δ := by
    rw [hδ]
    field_simp
  have h := (sideband_char νr hν f hfc hfp δ).mul_right (exp (((ω * Spec.average 1 g : ℝ) : ℂ) * I))
  have e1 : (fun k : ℤ => ((Spec.sideband νr f k : ℝ) : ℂ) * exp (((2 * Real.pi * k * νr * δ : ℝ) : ℂ) * I) * exp (((ω * Spec.average 1 g : ℝ) : ℂ) * I))
      = fun k : ℤ => ((Spec.sideband νr f k : ℝ) : ℂ) * exp (((ω * (Spec.average 1 g + k * νr) : ℝ) : ℂ) * I) := by
    funext k
    rw [mul_assoc, ← Complex.exp_add]
    congr 2
    rw [hω]
    push_cast
    ring
  rw [e1] at h
  have e2 : ∀ t, Spec.gathered νr f (t + δ) - Spec.gathered νr f t + ω * Spec.average 1 g = ω * ahead g (νr * δ) (νr * t) := by
    intro t
    have hc : Continuous fun τ => f τ - Spec.average νr f := hfc.sub continuous_const
    have e3 : ahead g (νr * δ) (νr * t) = ∫ s in (0 : ℝ)..1, f (t + δ * s) := by
      unfold ahead
      refine intervalIntegral.integral_congr fun s _ => ?_
      rw [hf]
      simp only []
      congr 1
      ring
    have e4 := intervalIntegral.smul_integral_comp_add_mul (a := 0) (b := 1) f δ t
    rw [mul_zero, add_zero, mul_one, smul_eq_mul] at e4
    unfold Spec.gathered
    rw [← mul_sub, intervalIntegral.integral_interval_sub_left (hc.intervalIntegrable _ _) (hc.intervalIntegrable _ _),
      intervalIntegral.integral_sub (hfc.intervalIntegrable _ _) (by simp), intervalIntegral.integral_const, e3, hω, ← e4, havg,
      smul_eq_mul]
    ring
  have e3 : ∀ t, exp (((Spec.gathered νr f (t + δ) - Spec.gathered νr f t : ℝ) : ℂ) * I) * exp (((ω * Spec.average 1 g : ℝ) : ℂ) * I)
      = (fun u => exp (((ω * ahead g (νr * δ) u : ℝ) : ℂ) * I)) (νr * t) := by
    intro t
    simp only []
    rw [← e2, ← Complex.exp_add]
    congr 1
    push_cast
    ring
  rw [mul_assoc, ← intervalIntegral.integral_mul_const] at h
  simp only [e3] at h
  have e5 := intervalIntegral.smul_integral_comp_mul_left (a := 0) (b := 1 / νr) (fun u => exp (((ω * ahead g (νr * δ) u : ℝ) : ℂ) * I)) νr
  rw [mul_zero, mul_one_div_cancel hν.ne', Complex.real_smul] at e5
  rw [e5] at h
  exact h

/-! ## The limit -/

/-- The lines at `F + m ν_r` with intensities `J m`, as a measure. -/
noncomputable def lineMeasure (νr F : ℝ) (J : ℤ → ℝ) : Measure ℝ := Measure.sum fun m : ℤ => ENNReal.ofReal (J m) • Measure.dirac (F + m * νr)

theorem lineMeasure_integral {E : Type} [NormedAddCommGroup E] [NormedSpace ℝ E] [FiniteDimensional ℝ E] (νr F : ℝ) (J : ℤ → ℝ)
    (hJ : ∀ m, 0 ≤ J m) (φ : ℝ → E) : ∫ x, φ x ∂(lineMeasure νr F J) = ∑' m : ℤ, J m • φ (F + m * νr) := by
  unfold lineMeasure
  rw [integral_sum_dirac fun m => ENNReal.ofReal_ne_top]
  simp only [ENNReal.toReal_ofReal (hJ _)]

theorem lineMeasure_prob (νr F : ℝ) (J : ℤ → ℝ) (hJ : ∀ m, 0 ≤ J m) (h1 : HasSum J 1) : IsProbabilityMeasure (lineMeasure νr F J) := by
  constructor
  unfold lineMeasure
  rw [Measure.sum_apply _ MeasurableSet.univ]
  simp only [Measure.smul_apply, measure_univ, smul_eq_mul, mul_one]
  rw [← ENNReal.ofReal_tsum_of_nonneg hJ h1.summable, h1.tsum_eq, ENNReal.ofReal_one]

/-- The frequencies that a rotor passes through in a turn, as a measure. -/
noncomputable def turnMeasure (g : ℝ → ℝ) : Measure ℝ := (volume.restrict (Set.Ioc 0 1)).map g

theorem turnMeasure_prob (g : ℝ → ℝ) (hg : Continuous g) : IsProbabilityMeasure (turnMeasure g) := by
  have : IsProbabilityMeasure (volume.restrict (Set.Ioc (0 : ℝ) 1)) := ⟨by simp⟩
  exact Measure.isProbabilityMeasure_map hg.aemeasurable

theorem turnMeasure_integral {E : Type} [NormedAddCommGroup E] [NormedSpace ℝ E] (g : ℝ → ℝ) (hg : Continuous g) (φ : ℝ → E) (hφ : Continuous φ) :
    ∫ x, φ x ∂(turnMeasure g) = ∫ u in (0 : ℝ)..1, φ (g u) := by
  unfold turnMeasure
  rw [integral_map hg.aemeasurable hφ.aestronglyMeasurable, intervalIntegral.integral_of_le zero_le_one]

theorem sideband_nonneg (νr : ℝ) (f : ℝ → ℝ) (m : ℤ) : 0 ≤ Spec.sideband νr f m := by
  unfold Spec.sideband
  positivity

/-- The sidebands of a slow rotor are distributed as the frequencies that it passes through. -/
theorem slow_limit (g : ℝ → ℝ) (hg : Continuous g) (hp : Function.Periodic g 1) (φ : BoundedContinuousFunction ℝ ℝ) :
    Tendsto (fun νr => Spec.overSidebands νr (Spec.average 1 g) (Spec.sideband νr fun τ => g (νr * τ)) φ) (𝓝[>] 0)
      (𝓝 (∫ u in (0 : ℝ)..1, φ (g u))) := by
  refine tendsto_of_seq_tendsto fun ν hν => ?_
  -- all members of the sequence may be taken to be positive
  have hpos : ∀ᶠ n in atTop, 0 < ν n := hν.eventually self_mem_nhdsWithin
  have h0 : Tendsto ν atTop (𝓝 0) := hν.mono_right nhdsWithin_le_nhds
  let ν' : ℕ → ℝ := fun n => if 0 < ν n then ν n else 1
  have hν' : ∀ n, 0 < ν' n := by
    intro n
    simp only [ν']
    split_ifs with h
    · exact h
    · exact one_pos
  have hev : ∀ᶠ n in atTop, ν' n = ν n := by
    filter_upwards [hpos] with n hn
    simp only [ν', if_pos hn]
  have h0' : Tendsto ν' atTop (𝓝 0) := h0.congr' (hev.mono fun n hn => hn.symm)
  have hfc : ∀ n, Continuous fun τ => g (ν' n * τ) := fun n => hg.comp (continuous_const.mul continuous_id)
  let μ : ℕ → ProbabilityMeasure ℝ := fun n => ⟨lineMeasure (ν' n) (Spec.average 1 g) (Spec.sideband (ν' n) fun τ => g (ν' n * τ)),
    lineMeasure_prob _ _ _ (sideband_nonneg _ _) (sideband_zeroth _ (hν' n) _ (hfc n))⟩
  let μ₀ : ProbabilityMeasure ℝ := ⟨turnMeasure g, turnMeasure_prob g hg⟩
  have hlevy : Tendsto μ atTop (𝓝 μ₀) := by
    refine ProbabilityMeasure.tendsto_of_tendsto_charFun fun ω => ?_
    have hchar : ∀ n, charFun (μ n : Measure ℝ) ω = ∫ u in (0 : ℝ)..1, exp (((ω * ahead g (ν' n * (ω / (2 * Real.pi))) u : ℝ) : ℂ) * I) := by
      intro n
      rw [charFun_apply_real]
      refine (lineMeasure_integral _ _ _ (sideband_nonneg _ _) _).trans ?_
      rw [← (sideband_turning (ν' n) (hν' n) g hg hp ω).tsum_eq]
      refine tsum_congr fun m => ?_
      rw [Complex.real_smul]
      congr 2
      push_cast
      ring
    have hchar0 : charFun (μ₀ : Measure ℝ) ω = ∫ u in (0 : ℝ)..1, exp (((ω * ahead g 0 u : ℝ) : ℂ) * I) := by
      rw [charFun_apply_real]
      refine (turnMeasure_integral g hg _ (by fun_prop)).trans ?_
      refine intervalIntegral.integral_congr fun u _ => ?_
      simp only [ahead, zero_mul, add_zero, intervalIntegral.integral_const, sub_zero, one_smul]
      push_cast
      rfl
    rw [hchar0]
    simp only [hchar]
    have hcont : Continuous fun ε : ℝ => ∫ u in (0 : ℝ)..1, exp (((ω * ahead g ε u : ℝ) : ℂ) * I) := by
      refine intervalIntegral.continuous_parametric_intervalIntegral_of_continuous' ?_ 0 1
      have h := ahead_continuous g hg
      exact Complex.continuous_exp.comp ((Complex.continuous_ofReal.comp (continuous_const.mul h)).mul continuous_const)
    have hε : Tendsto (fun n => ν' n * (ω / (2 * Real.pi))) atTop (𝓝 0) := by
      simpa using h0'.mul_const (ω / (2 * Real.pi))
    exact (hcont.tendsto 0).comp hε
  have h := (ProbabilityMeasure.tendsto_iff_forall_integral_tendsto.mp hlevy) φ
  have h2 : (fun n => ∫ x, φ x ∂(μ n : Measure ℝ))
      = fun n => Spec.overSidebands (ν' n) (Spec.average 1 g) (Spec.sideband (ν' n) fun τ => g (ν' n * τ)) φ := by
    funext n
    exact lineMeasure_integral _ _ _ (sideband_nonneg _ _) _
  have h3 : ∫ x, φ x ∂(μ₀ : Measure ℝ) = ∫ u in (0 : ℝ)..1, φ (g u) := turnMeasure_integral g hg _ φ.continuous
  rw [h2, h3] at h
  refine h.congr' ?_
  filter_upwards [hev] with n hn
  simp only [Function.comp, hn]

theorem momentary_periodic (four : Bool) (B0 α β θ : ℝ) (ss : List Site) (ks : List Coupling) (xi xf : List ℕ) :
    Function.Periodic (Spec.momentary four B0 α β θ 1 ss ks xi xf) 1 := by
  intro τ
  have h : Spec.spun α β θ 1 (τ + 1) = Spec.spun α β θ 1 τ := by
    unfold Spec.spun
    rw [← rz_periodic (-(2 * Real.pi * 1 * (τ + 1)))]
    congr 3
    ring
  unfold Spec.momentary
  rw [h]

theorem average_continuous (four : Bool) (B0 θ : ℝ) (ss : List Site) (ks : List Coupling) (xi xf : List ℕ) :
    Continuous fun p : ℝ × ℝ => Spec.average 1 (Spec.momentary four B0 p.1 p.2 θ 1 ss ks xi xf) := by
  unfold Spec.average
  refine continuous_const.mul (intervalIntegral.continuous_parametric_intervalIntegral_of_continuous' ?_ 0 (1 / 1))
  have hspun : Continuous fun x : (ℝ × ℝ) × ℝ => Spec.spun x.1.1 x.1.2 θ 1 x.2 := by
    unfold Spec.spun
    exact ((rz_continuous.comp (by fun_prop)).matrix_mul (ry_continuous.comp (by fun_prop))).matrix_mul
      ((rz_continuous.comp (by fun_prop)).matrix_mul continuous_const)
  exact ((energy_continuous four B0 ss ks xf).comp hspun).sub ((energy_continuous four B0 ss ks xi).comp hspun)

/-- The mean over the sidebands of a crystallite, as a function of its orientation. -/
theorem overSidebands_measurable (νr : ℝ) (F : ℝ × ℝ → ℝ) (J : ℝ × ℝ → ℤ → ℝ) (hF : Measurable F) (hJ : ∀ m, Measurable fun p => J p m)
    (h0 : ∀ p m, 0 ≤ J p m) (h1 : ∀ p, HasSum (J p) 1) (φ : BoundedContinuousFunction ℝ ℝ) :
    Measurable (fun p => Spec.overSidebands νr (F p) (J p) φ) ∧ ∀ p, |Spec.overSidebands νr (F p) (J p) φ| ≤ ‖φ‖ := by
  have hb : ∀ p m, ‖J p m * φ (F p + m * νr)‖ ≤ J p m * ‖φ‖ := by
    intro p m
    rw [norm_mul, Real.norm_eq_abs, abs_of_nonneg (h0 p m)]
    exact mul_le_mul_of_nonneg_left (φ.norm_coe_le_norm _) (h0 p m)
  have hs : ∀ p, HasSum (fun m => J p m * ‖φ‖) ‖φ‖ := fun p => by simpa using (h1 p).mul_right ‖φ‖
  have hsum : ∀ p, Summable fun m : ℤ => J p m * φ (F p + m * νr) := fun p => Summable.of_norm_bounded (hs p).summable (hb p)
  constructor
  · refine measurable_of_tendsto_metrizable (f := fun (n : ℕ) p => ∑ m ∈ (Finset.range n).map Equiv.intEquivNat.symm.toEmbedding,
      J p m * φ (F p + m * νr)) (fun n => ?_) ?_
    · exact Finset.measurable_fun_sum _ fun m _ => (hJ m).mul (φ.continuous.measurable.comp (hF.add_const _))
    · rw [tendsto_pi_nhds]
      intro p
      have h := ((Equiv.intEquivNat.symm.hasSum_iff.mpr (hsum p).hasSum).tendsto_sum_nat)
      refine h.congr fun n => ?_
      rw [Finset.sum_map]
      rfl
  · intro p
    unfold Spec.overSidebands
    exact tsum_of_norm_bounded (hs p) (hb p)

/-! ## Theorems -/

/-- The sidebands of one crystallite in a slow rotor are distributed as the frequencies that it passes through in a turn.  `J` are the intensities
that the code computes, in the limit of many sidebands; the number of sidebands that are needed grows as the rotor slows.  Partial: the decimals
of the tables are replaced by the numbers they stand for, and the second Euler angles have to be non-negative (C71). -/
theorem C118_crystallite_partial (four : Bool) (B0 α β θ : ℝ) (ss : List Site) (ks : List Coupling) (xi xf : List ℕ)
    (hi : Spec.IsState ss xi) (hf : Spec.IsState ss xf) (hs : ∀ s ∈ ss, s.Upright ∧ 1 ≤ s.n)
    (hk : ∀ k ∈ ks, k.Upright ∧ k.A < ss.length ∧ k.X < ss.length) :
    let t := components WC.exact TC.exact four B0 ss ks (Spec.quantum ss xi) (Spec.quantum ss xf)
    let F := localFreq WC.exact four (Real.cos β) (Real.sin β) (exp (α * I)) (Real.cos θ) (Real.sin θ) t
    ∃ J : ℝ → ℤ → ℝ,
      (∀ νr, 0 < νr → ∀ m : ℤ, Tendsto (fun n : ℕ => Sim.sidebandAmps (fun j : ZMod (n + 1) => crystalPhase WC.exact four (n + 1) νr (Real.cos β)
          (Real.sin β) (exp (α * I)) (Real.cos θ) (Real.sin θ) t j.val) (m : ZMod (n + 1)) / ((n + 1 : ℕ) : ℝ) ^ 2) atTop (𝓝 (J νr m))) ∧
      ∀ φ : BoundedContinuousFunction ℝ ℝ, Tendsto (fun νr => Spec.overSidebands νr F (J νr) φ) (𝓝[>] 0)
        (𝓝 (Spec.average 1 fun u => φ (Spec.momentary four B0 α β θ 1 ss ks xi xf u))) := by
  intro t F
  have hF : F = Spec.average 1 (Spec.momentary four B0 α β θ 1 ss ks xi xf) := C75_average_partial four B0 α β θ 1 one_pos ss ks xi xf hi hf hs hk
  refine ⟨fun νr => Spec.sideband νr (Spec.momentary four B0 α β θ νr ss ks xi xf),
    fun νr hν => C76_limit_partial four B0 α β θ νr hν ss ks xi xf hi hf hs hk, fun φ => ?_⟩
  have h := slow_limit (Spec.momentary four B0 α β θ 1 ss ks xi xf) (momentary_continuous four B0 α β θ 1 ss ks xi xf)
    (momentary_periodic four B0 α β θ ss ks xi xf) φ
  have e : ∀ νr, Spec.momentary four B0 α β θ νr ss ks xi xf = fun τ => Spec.momentary four B0 α β θ 1 ss ks xi xf (νr * τ) :=
    fun νr => funext (momentary_scale four B0 α β θ νr ss ks xi xf)
  have e2 : (fun νr => Spec.overSidebands νr F (Spec.sideband νr (Spec.momentary four B0 α β θ νr ss ks xi xf)) φ)
      = fun νr => Spec.overSidebands νr (Spec.average 1 (Spec.momentary four B0 α β θ 1 ss ks xi xf))
        (Spec.sideband νr fun τ => Spec.momentary four B0 α β θ 1 ss ks xi xf (νr * τ)) φ := by
    funext νr
    rw [hF, e νr]
  rw [e2]
  have e3 : ∀ g : ℝ → ℝ, Spec.average 1 g = ∫ u in (0 : ℝ)..1, g u := by
    intro g
    unfold Spec.average
    rw [one_mul, div_one]
  rw [e3 fun u => φ (Spec.momentary four B0 α β θ 1 ss ks xi xf u)]
  exact h

/-- The powder: the spectrum of a slowly spinning sample becomes the static spectrum, at any angle of the rotor. -/
theorem C118_powder_partial (four : Bool) (B0 θ : ℝ) (ss : List Site) (ks : List Coupling) (xi xf : List ℕ)
    (hi : Spec.IsState ss xi) (hf : Spec.IsState ss xf) (hs : ∀ s ∈ ss, s.Upright ∧ 1 ≤ s.n)
    (hk : ∀ k ∈ ks, k.Upright ∧ k.A < ss.length ∧ k.X < ss.length) :
    let t := components WC.exact TC.exact four B0 ss ks (Spec.quantum ss xi) (Spec.quantum ss xf)
    let F : ℝ × ℝ → ℝ := fun p => localFreq WC.exact four (Real.cos p.2) (Real.sin p.2) (exp (p.1 * I)) (Real.cos θ) (Real.sin θ) t
    ∃ J : ℝ → ℝ × ℝ → ℤ → ℝ,
      (∀ νr, 0 < νr → ∀ p, ∀ m : ℤ, Tendsto (fun n : ℕ => Sim.sidebandAmps (fun j : ZMod (n + 1) => crystalPhase WC.exact four (n + 1) νr
          (Real.cos p.2) (Real.sin p.2) (exp (p.1 * I)) (Real.cos θ) (Real.sin θ) t j.val) (m : ZMod (n + 1)) / ((n + 1 : ℕ) : ℝ) ^ 2)
          atTop (𝓝 (J νr p m))) ∧
      ∀ φ : BoundedContinuousFunction ℝ ℝ, Tendsto (fun νr => Spec.sphereMean fun p => Spec.overSidebands νr (F p) (J νr p) φ) (𝓝[>] 0)
        (𝓝 (Spec.sphereMean fun p => φ (Spec.line four B0 ss ks xi xf p))) := by
  intro t F
  have hc := fun p : ℝ × ℝ => C118_crystallite_partial four B0 p.1 p.2 θ ss ks xi xf hi hf hs hk
  choose J h1 h2 using hc
  refine ⟨fun νr p => J p νr, fun νr hν p m => h1 p νr hν m, fun φ => ?_⟩
  have hJ : ∀ νr, 0 < νr → ∀ p, J p νr = Spec.sideband νr (Spec.momentary four B0 p.1 p.2 θ νr ss ks xi xf) := by
    intro νr hν p
    funext m
    exact tendsto_nhds_unique (h1 p νr hν m) (C76_limit_partial four B0 p.1 p.2 θ νr hν ss ks xi xf hi hf hs hk m)
  have facts : ∀ νr, 0 < νr → Measurable (fun p => Spec.overSidebands νr (F p) (J p νr) φ) ∧ ∀ p, |Spec.overSidebands νr (F p) (J p νr) φ| ≤ ‖φ‖ := by
    intro νr hν
    refine overSidebands_measurable νr F (fun p => J p νr) ?_ (fun m => ?_) (fun p m => ?_) (fun p => ?_) φ
    · have hF : F = fun p => Spec.average 1 (Spec.momentary four B0 p.1 p.2 θ 1 ss ks xi xf) := by
        funext p
        exact C75_average_partial four B0 p.1 p.2 θ 1 one_pos ss ks xi xf hi hf hs hk
      rw [hF]
      exact (average_continuous four B0 θ ss ks xi xf).measurable
    · exact (intensity_facts WC.exact four t (Real.cos θ) (Real.sin θ) νr m (fun p => J p νr m) (fun p => by
        simp only [dirAmp_residue]
        exact (tendsto_add_atTop_iff_nat 1).mpr (h1 p νr hν m))).1
    · rw [hJ νr hν p]
      exact sideband_nonneg _ _ _
    · rw [hJ νr hν p]
      exact sideband_zeroth νr hν _ (momentary_continuous four B0 p.1 p.2 θ νr ss ks xi xf)
  have hmean : Spec.sphereMean (fun p => φ (Spec.line four B0 ss ks xi xf p))
      = Spec.sphereMean fun p => Spec.average 1 fun u => φ (Spec.momentary four B0 p.1 p.2 θ 1 ss ks xi xf u) :=
    (spun_mean (fun M => φ (Spec.energy four B0 M ss ks xf - Spec.energy four B0 M ss ks xi))
      (φ.continuous.comp ((energy_continuous four B0 ss ks xf).sub (energy_continuous four B0 ss ks xi)))
      (fun α β γ => by simp only [energy_axial]) θ 1 one_pos).symm
  rw [hmean]
  unfold Spec.sphereMean
  refine Tendsto.const_mul _ (tendsto_integral_filter_of_dominated_convergence (fun _ => ‖φ‖) ?_ ?_ ?_ ?_)
  · filter_upwards [self_mem_nhdsWithin] with νr hν
    exact ((Real.measurable_sin.comp measurable_snd).mul (facts νr hν).1).aestronglyMeasurable
  · filter_upwards [self_mem_nhdsWithin] with νr hν
    refine Eventually.of_forall fun p => ?_
    rw [Real.norm_eq_abs, abs_mul]
    exact (mul_le_of_le_one_left (abs_nonneg _) (Real.abs_sin_le_one _)).trans ((facts νr hν).2 p)
  · refine integrableOn_const ?_
    rw [Measure.volume_eq_prod, Measure.prod_prod, Real.volume_Ioo, Real.volume_Ioo]
    exact ENNReal.mul_ne_top ENNReal.ofReal_ne_top ENNReal.ofReal_ne_top
  · exact Eventually.of_forall fun p => (h2 p φ).const_mul _

/-- A fast rotor leaves the average frequency of a crystallite: the mean over its sidebands differs from that of a line there by no more than the
variance of its frequency in units of the square of the speed, which does not depend on the speed itself. -/
theorem C118_fast_partial (four : Bool) (B0 α β θ νr : ℝ) (hν : 0 < νr) (ss : List Site) (ks : List Coupling) (xi xf : List ℕ)
    (hi : Spec.IsState ss xi) (hf : Spec.IsState ss xf) (hs : ∀ s ∈ ss, s.Upright ∧ 1 ≤ s.n)
    (hk : ∀ k ∈ ks, k.Upright ∧ k.A < ss.length ∧ k.X < ss.length) :
    let t := components WC.exact TC.exact four B0 ss ks (Spec.quantum ss xi) (Spec.quantum ss xf)
    let F := localFreq WC.exact four (Real.cos β) (Real.sin β) (exp (α * I)) (Real.cos θ) (Real.sin θ) t
    ∃ J : ℤ → ℝ,
      (∀ m : ℤ, Tendsto (fun n : ℕ => Sim.sidebandAmps (fun j : ZMod (n + 1) => crystalPhase WC.exact four (n + 1) νr (Real.cos β)
          (Real.sin β) (exp (α * I)) (Real.cos θ) (Real.sin θ) t j.val) (m : ZMod (n + 1)) / ((n + 1 : ℕ) : ℝ) ^ 2) atTop (𝓝 (J m))) ∧
      ∀ φ : BoundedContinuousFunction ℝ ℝ, |Spec.overSidebands νr F J φ - φ F|
        ≤ 2 * ‖φ‖ * (Spec.average 1 fun u => (Spec.momentary four B0 α β θ 1 ss ks xi xf u - F) ^ 2) / νr ^ 2 := by
  intro t F
  have hc := momentary_continuous four B0 α β θ νr ss ks xi xf
  have hF : F = Spec.average νr (Spec.momentary four B0 α β θ νr ss ks xi xf) := C75_average_partial four B0 α β θ νr hν ss ks xi xf hi hf hs hk
  refine ⟨Spec.sideband νr (Spec.momentary four B0 α β θ νr ss ks xi xf), C76_limit_partial four B0 α β θ νr hν ss ks xi xf hi hf hs hk, fun φ => ?_⟩
  set J := Spec.sideband νr (Spec.momentary four B0 α β θ νr ss ks xi xf) with hJ
  have h0 := sideband_zeroth νr hν _ hc
  have h2 := sideband_second νr hν _ hc 0
  have hvar : (Spec.average νr fun τ => (0 + Spec.momentary four B0 α β θ νr ss ks xi xf τ
        - Spec.average νr (Spec.momentary four B0 α β θ νr ss ks xi xf)) ^ 2)
      = Spec.average 1 fun u => (Spec.momentary four B0 α β θ 1 ss ks xi xf u - F) ^ 2 := by
    rw [← hF, ← average_scale νr hν fun u => (Spec.momentary four B0 α β θ 1 ss ks xi xf u - F) ^ 2]
    congr 1
    funext τ
    rw [zero_add, momentary_scale]
  rw [← hJ] at h0 h2
  have hz : HasSum (fun m : ℤ => J m * (φ (F + m * νr) - φ F)) (Spec.overSidebands νr F J φ - φ F) := by
    have hb : Summable fun m : ℤ => J m * φ (F + m * νr) :=
      Summable.of_norm_bounded (h0.mul_right ‖φ‖).summable fun m => by
        rw [norm_mul, Real.norm_eq_abs, abs_of_nonneg (sideband_nonneg _ _ _)]
        exact mul_le_mul_of_nonneg_left (φ.norm_coe_le_norm _) (sideband_nonneg _ _ _)
    have h := hb.hasSum.sub (h0.mul_right (φ F))
    rw [one_mul] at h
    simp only [mul_sub]
    exact h
  have hle : ∀ m : ℤ, ‖J m * (φ (F + m * νr) - φ F)‖ ≤ (0 + m * νr) ^ 2 * J m * (2 * ‖φ‖ / νr ^ 2) := by
    intro m
    have hJ0 : 0 ≤ J m := sideband_nonneg _ _ _
    rw [norm_mul, Real.norm_eq_abs, abs_of_nonneg hJ0]
    by_cases hm : m = 0
    · subst hm
      simp
    · have h1 : ‖φ (F + m * νr) - φ F‖ ≤ 2 * ‖φ‖ := by
        refine (norm_sub_le _ _).trans ?_
        have := φ.norm_coe_le_norm (F + m * νr)
        have := φ.norm_coe_le_norm F
        linarith
      have hm1 : (1 : ℝ) ≤ (m : ℝ) ^ 2 := by
        have : (1 : ℤ) ≤ m ^ 2 := by
          have := sq_nonneg m
          have hne : m ^ 2 ≠ 0 := pow_ne_zero 2 hm
          omega
        exact_mod_cast this
      have e : (0 + m * νr) ^ 2 * J m * (2 * ‖φ‖ / νr ^ 2) = J m * ((m : ℝ) ^ 2 * (2 * ‖φ‖)) := by
        field_simp
        ring
      rw [e]
      refine mul_le_mul_of_nonneg_left (h1.trans ?_) hJ0
      exact le_mul_of_one_le_left (by positivity) hm1
  have h3 := h2.mul_right (2 * ‖φ‖ / νr ^ 2)
  have h4 := tsum_of_norm_bounded h3 hle
  rw [hz.tsum_eq, hvar] at h4
  rw [Real.norm_eq_abs] at h4
  refine h4.trans (le_of_eq ?_)
  ring

/-- The pair of `exampleSites`. -/
example (θ : ℝ) :=
  C118_powder_partial true 9.4 θ exampleSites [exampleCoupling] [0, 3] [0, 2]
    (by unfold Spec.IsState exampleSites; simp) (by unfold Spec.IsState exampleSites; simp)
    (by
      unfold exampleSites Site.Upright
      intro s hs
      simp only [List.mem_cons, List.not_mem_nil, or_false] at hs
      rcases hs with rfl | rfl <;> norm_num)
    (by
      unfold exampleSites exampleCoupling Coupling.Upright
      intro k hk
      simp only [List.mem_cons, List.not_mem_nil, or_false] at hk
      subst hk
      norm_num)

/-- The same pair at a speed of 100 kHz. -/
example (θ : ℝ) :=
  C118_fast_partial true 9.4 2 1 θ 100000 (by norm_num) exampleSites [exampleCoupling] [0, 3] [0, 2]
    (by unfold Spec.IsState exampleSites; simp) (by unfold Spec.IsState exampleSites; simp)
    (by
      unfold exampleSites Site.Upright
      intro s hs
      simp only [List.mem_cons, List.not_mem_nil, or_false] at hs
      rcases hs with rfl | rfl <;> norm_num)
    (by
      unfold exampleSites exampleCoupling Coupling.Upright
      intro k hk
      simp only [List.mem_cons, List.not_mem_nil, or_false] at hk
      subst hk
      norm_num)

end MRS.Freq
