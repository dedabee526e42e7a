import Verif.Freq.SphereTurn
import Verif.Freq.Turned
import Verif.Freq.Gravity
import Mathlib.Analysis.Fourier.AddCircle

/-!
# Moments of the spectrum of a spinning powder — property C116

A spinning sample has a spectrum of sidebands.  Their sum, their centre of gravity and their second moment are those of the spectrum of the
static sample, at any speed and at any angle between rotor and field: users fit anisotropies to the intensities of sidebands by these moments.
The specification is the definition of the moments.
-/

namespace MRS.Freq

open Complex ComplexConjugate Matrix MeasureTheory

/-! ## Specification -/

/-- The moment of order `k` of lines at `F + m ν_r` with intensities `J m`. -/
noncomputable def Spec.sidebandMoment (k : ℕ) (νr F : ℝ) (J : ℤ → ℝ) : ℝ := ∑' m : ℤ, J m * (F + m * νr) ^ k

/-- The moment of order `k` of the spectrum of a static powder. -/
noncomputable def Spec.staticMoment (k : ℕ) (four : Bool) (B0 : ℝ) (ss : List Site) (ks : List Coupling) (xi xf : List ℕ) : ℝ :=
  Spec.sphereMean fun p => Spec.line four B0 ss ks xi xf p ^ k

/-! ## The sidebands of one crystallite -/

/-- The signal of a crystallite, without its average frequency. -/
noncomputable def signal (νr : ℝ) (f : ℝ → ℝ) (t : ℝ) : ℂ := exp ((Spec.gathered νr f t : ℂ) * I)

theorem signal_norm (νr : ℝ) (f : ℝ → ℝ) (t : ℝ) : ‖signal νr f t‖ = 1 := norm_exp_ofReal_mul_I _

theorem gathered_deriv (νr : ℝ) (f : ℝ → ℝ) (hf : Continuous f) (t : ℝ) :
    HasDerivAt (Spec.gathered νr f) (2 * Real.pi * (f t - Spec.average νr f)) t := by
  have hc : Continuous fun τ => f τ - Spec.average νr f := hf.sub continuous_const
  exact (intervalIntegral.integral_hasDerivAt_right (hc.intervalIntegrable _ _) hc.aestronglyMeasurable.stronglyMeasurableAtFilter
    hc.continuousAt).const_mul _

theorem signal_deriv (νr : ℝ) (f : ℝ → ℝ) (hf : Continuous f) (t : ℝ) :
    HasDerivAt (signal νr f) (2 * Real.pi * I * ((f t - Spec.average νr f : ℝ) * signal νr f t)) t := by
  have h := ((gathered_deriv νr f hf t).ofReal_comp.mul_const I).cexp
  unfold signal
  convert h using 1
  push_cast
  ring

theorem signal_ends (νr : ℝ) (hν : 0 < νr) (f : ℝ → ℝ) (hf : Continuous f) : signal νr f 0 = 1 ∧ signal νr f (1 / νr) = 1 := by
  constructor
  · simp [signal, Spec.gathered]
  · have : Spec.gathered νr f (1 / νr) = 0 := by
      unfold Spec.gathered
      rw [intervalIntegral.integral_sub (hf.intervalIntegrable _ _) (by simp), intervalIntegral.integral_const]
      unfold Spec.average
      simp only [sub_zero, smul_eq_mul]
      field_simp
      ring
    rw [signal, this]
    simp

theorem signal_continuous (νr : ℝ) (f : ℝ → ℝ) (hf : Continuous f) : Continuous (signal νr f) :=
  continuous_iff_continuousAt.mpr fun t => (signal_deriv νr f hf t).continuousAt

theorem turn_pos (νr : ℝ) (hν : 0 < νr) : (0 : ℝ) < 1 / νr := by positivity

theorem coeff_integral (νr : ℝ) (hν : 0 < νr) (g : ℝ → ℂ) (m : ℤ) :
    fourierCoeffOn (turn_pos νr hν) g m = νr * ∫ t in (0 : ℝ)..(1 / νr), exp (((- (2 * Real.pi * m * νr * t) : ℝ) : ℂ) * I) * g t := by
  rw [fourierCoeffOn_eq_integral]
  simp only [sub_zero, one_div_one_div]
  rw [Complex.real_smul]
  congr 1
  refine intervalIntegral.integral_congr fun t _ => ?_
  simp only [fourier_coe_apply, smul_eq_mul]
  congr 2
  push_cast
  have : (νr : ℂ) ≠ 0 := by exact_mod_cast hν.ne'
  rw [sub_zero]
  field_simp

theorem sideband_coeff (νr : ℝ) (hν : 0 < νr) (f : ℝ → ℝ) (m : ℤ) :
    Spec.sideband νr f m = ‖fourierCoeffOn (turn_pos νr hν) (signal νr f) m‖ ^ 2 := by
  rw [coeff_integral νr hν]
  unfold Spec.sideband signal
  have h : ∀ t : ℝ, exp (((Spec.gathered νr f t - 2 * Real.pi * m * νr * t : ℝ) : ℂ) * I)
      = exp (((- (2 * Real.pi * m * νr * t) : ℝ) : ℂ) * I) * exp ((Spec.gathered νr f t : ℂ) * I) := by
    intro t
    rw [← Complex.exp_add]
    congr 1
    push_cast
    ring
  simp only [h]

theorem coeff_deriv (νr : ℝ) (hν : 0 < νr) (f : ℝ → ℝ) (hf : Continuous f) (m : ℤ) :
    fourierCoeffOn (turn_pos νr hν) (fun t => ((f t - Spec.average νr f : ℝ) : ℂ) * signal νr f t) m
      = (m * νr : ℝ) * fourierCoeffOn (turn_pos νr hν) (signal νr f) m := by
  have hs := signal_continuous νr f hf
  have hc : Continuous fun t => ((f t - Spec.average νr f : ℝ) : ℂ) * signal νr f t :=
    (continuous_ofReal.comp (hf.sub continuous_const)).mul hs
  obtain ⟨h0, h1⟩ := signal_ends νr hν f hf
  rw [coeff_integral νr hν, coeff_integral νr hν]
  -- integrate the derivative of `exp(-2πi m νr t) s(t)`
  set e : ℝ → ℂ := fun t => exp (((- (2 * Real.pi * m * νr * t) : ℝ) : ℂ) * I) with he
  have hed : ∀ t, HasDerivAt e (-(2 * Real.pi * I) * (m * νr : ℝ) * e t) t := by
    intro t
    have h : HasDerivAt (fun t : ℝ => -(2 * Real.pi * m * νr * t)) (-(2 * Real.pi * m * νr)) t := by
      have h := ((hasDerivAt_id t).const_mul (2 * Real.pi * m * νr)).neg
      rw [mul_one] at h
      exact h
    have h2 := (h.ofReal_comp.mul_const I).cexp
    rw [he]
    convert h2 using 1
    push_cast
    ring
  have hec : Continuous e := continuous_iff_continuousAt.mpr fun t => (hed t).continuousAt
  have hi := intervalIntegral.integral_eq_sub_of_hasDerivAt (a := 0) (b := 1 / νr) (f := fun t => e t * signal νr f t)
    (f' := fun t => -(2 * Real.pi * I) * (m * νr : ℝ) * e t * signal νr f t
      + e t * (2 * Real.pi * I * (((f t - Spec.average νr f : ℝ) : ℂ) * signal νr f t)))
    (fun t _ => (hed t).mul (signal_deriv νr f hf t))
    (by
      apply Continuous.intervalIntegrable
      exact ((continuous_const.mul hec).mul hs).add (hec.mul (continuous_const.mul hc)))
  rw [h0, h1] at hi
  have i1 : IntervalIntegrable (fun t => -(2 * Real.pi * I) * (m * νr : ℝ) * e t * signal νr f t) volume 0 (1 / νr) :=
    ((continuous_const.mul hec).mul hs).intervalIntegrable _ _
  have i2 : IntervalIntegrable (fun t => e t * (2 * Real.pi * I * (((f t - Spec.average νr f : ℝ) : ℂ) * signal νr f t))) volume 0 (1 / νr) :=
    (hec.mul (continuous_const.mul hc)).intervalIntegrable _ _
  rw [intervalIntegral.integral_add i1 i2] at hi
  have he0 : e 0 = 1 := by simp [he]
  have he1 : e (1 / νr) = 1 := by
    have : ((- (2 * Real.pi * m * νr * (1 / νr)) : ℝ) : ℂ) * I = ((-m : ℤ) : ℂ) * (2 * Real.pi * I) := by
      rw [mul_assoc (2 * Real.pi * m : ℝ), mul_one_div_cancel hν.ne']
      push_cast
      ring
    rw [he]
    simp only []
    rw [this]
    exact Complex.exp_int_mul_two_pi_mul_I _
  rw [he0, he1, sub_self] at hi
  have e1 : ∀ t, -(2 * Real.pi * I) * (m * νr : ℝ) * e t * signal νr f t = (-(2 * Real.pi * I) * (m * νr : ℝ)) * (e t * signal νr f t) :=
    fun t => by ring
  have e2 : ∀ t, e t * (2 * Real.pi * I * (((f t - Spec.average νr f : ℝ) : ℂ) * signal νr f t))
      = (2 * Real.pi * I) * (e t * (((f t - Spec.average νr f : ℝ) : ℂ) * signal νr f t)) := fun t => by ring
  simp only [e1, e2] at hi
  rw [intervalIntegral.integral_const_mul, intervalIntegral.integral_const_mul] at hi
  have hπ : (2 * Real.pi * I : ℂ) ≠ 0 := Complex.two_pi_I_ne_zero
  have h3 : (∫ t in (0 : ℝ)..(1 / νr), e t * (((f t - Spec.average νr f : ℝ) : ℂ) * signal νr f t))
      = (m * νr : ℝ) * ∫ t in (0 : ℝ)..(1 / νr), e t * signal νr f t := by
    apply mul_left_cancel₀ hπ
    linear_combination hi
  rw [h3]
  ring

theorem coeff_shifted (νr : ℝ) (hν : 0 < νr) (f : ℝ → ℝ) (hf : Continuous f) (x : ℝ) (m : ℤ) :
    fourierCoeffOn (turn_pos νr hν) (fun t => ((x + f t - Spec.average νr f : ℝ) : ℂ) * signal νr f t) m
      = (x + m * νr : ℝ) * fourierCoeffOn (turn_pos νr hν) (signal νr f) m := by
  have hs := signal_continuous νr f hf
  have h := coeff_deriv νr hν f hf m
  rw [coeff_integral νr hν] at h
  rw [coeff_integral νr hν]
  have hec : Continuous fun t : ℝ => exp (((- (2 * Real.pi * m * νr * t) : ℝ) : ℂ) * I) := by fun_prop
  have hc : Continuous fun t => ((f t - Spec.average νr f : ℝ) : ℂ) * signal νr f t :=
    (continuous_ofReal.comp (hf.sub continuous_const)).mul hs
  have e1 : ∀ t, exp (((- (2 * Real.pi * m * νr * t) : ℝ) : ℂ) * I) * (((x + f t - Spec.average νr f : ℝ) : ℂ) * signal νr f t)
      = x * (exp (((- (2 * Real.pi * m * νr * t) : ℝ) : ℂ) * I) * signal νr f t)
        + exp (((- (2 * Real.pi * m * νr * t) : ℝ) : ℂ) * I) * (((f t - Spec.average νr f : ℝ) : ℂ) * signal νr f t) := by
    intro t
    push_cast
    ring
  simp only [e1]
  have i1 : IntervalIntegrable (fun t => (x : ℂ) * (exp (((- (2 * Real.pi * m * νr * t) : ℝ) : ℂ) * I) * signal νr f t)) volume 0 (1 / νr) :=
    (continuous_const.mul (hec.mul hs)).intervalIntegrable _ _
  have i2 : IntervalIntegrable (fun t => exp (((- (2 * Real.pi * m * νr * t) : ℝ) : ℂ) * I)
      * (((f t - Spec.average νr f : ℝ) : ℂ) * signal νr f t)) volume 0 (1 / νr) := (hec.mul hc).intervalIntegrable _ _
  rw [intervalIntegral.integral_add i1 i2, mul_add, h, intervalIntegral.integral_const_mul, coeff_integral νr hν]
  push_cast
  ring

theorem mem_two (T : ℝ) (g : ℝ → ℂ) (hg : Continuous g) : MemLp g 2 (volume.restrict (Set.Ioc 0 T)) := by
  obtain ⟨B, hB⟩ := (isCompact_Icc (a := (0 : ℝ)) (b := T)).exists_bound_of_continuousOn hg.continuousOn
  refine MemLp.of_bound hg.aestronglyMeasurable B ?_
  rw [ae_restrict_iff' measurableSet_Ioc]
  exact Filter.Eventually.of_forall fun t ht => hB t (Set.Ioc_subset_Icc_self ht)

/-- The second moment of the sidebands about any frequency is the mean of the square of the momentary frequency. -/
theorem sideband_second (νr : ℝ) (hν : 0 < νr) (f : ℝ → ℝ) (hf : Continuous f) (x : ℝ) :
    HasSum (fun m : ℤ => (x + m * νr) ^ 2 * Spec.sideband νr f m) (Spec.average νr fun τ => (x + f τ - Spec.average νr f) ^ 2) := by
  have hc : Continuous fun t => ((x + f t - Spec.average νr f : ℝ) : ℂ) * signal νr f t :=
    (continuous_ofReal.comp ((continuous_const.add hf).sub continuous_const)).mul (signal_continuous νr f hf)
  have h := hasSum_sq_fourierCoeffOn (turn_pos νr hν) (mem_two _ _ hc)
  have e1 : (fun m : ℤ => (x + m * νr) ^ 2 * Spec.sideband νr f m)
      = fun m : ℤ => ‖fourierCoeffOn (turn_pos νr hν) (fun t => ((x + f t - Spec.average νr f : ℝ) : ℂ) * signal νr f t) m‖ ^ 2 := by
    funext m
    rw [coeff_shifted νr hν f hf x, sideband_coeff νr hν f, norm_mul, norm_real, mul_pow, Real.norm_eq_abs, sq_abs]
  have e2 : ∀ τ, ‖((x + f τ - Spec.average νr f : ℝ) : ℂ) * signal νr f τ‖ ^ 2 = (x + f τ - Spec.average νr f) ^ 2 := by
    intro τ
    rw [norm_mul, signal_norm, norm_real, mul_one, Real.norm_eq_abs, sq_abs]
  rw [e1]
  simp only [e2, sub_zero, smul_eq_mul] at h
  rw [show (1 / νr)⁻¹ = νr by rw [one_div, inv_inv]] at h
  exact h

theorem sideband_zeroth (νr : ℝ) (hν : 0 < νr) (f : ℝ → ℝ) (hf : Continuous f) : HasSum (Spec.sideband νr f) 1 := by
  have h := hasSum_sq_fourierCoeffOn (turn_pos νr hν) (mem_two _ _ (signal_continuous νr f hf))
  simp only [signal_norm, one_pow, sub_zero, intervalIntegral.integral_const, smul_eq_mul, mul_one] at h
  rw [inv_mul_cancel₀ (turn_pos νr hν).ne'] at h
  simpa only [← sideband_coeff νr hν f] using h

theorem sideband_first (νr : ℝ) (hν : 0 < νr) (f : ℝ → ℝ) (hf : Continuous f) (x : ℝ) :
    HasSum (fun m : ℤ => (x + m * νr) * Spec.sideband νr f m) x := by
  have h0 := sideband_zeroth νr hν f hf
  have h1 := sideband_second νr hν f hf 1
  have h2 := sideband_second νr hν f hf 0
  have h3 := ((h1.sub h2).mul_left (1 / 2)).add (h0.mul_left (x - 1 / 2))
  have hi : IntervalIntegrable (fun τ => (1 + f τ - Spec.average νr f) ^ 2) volume 0 (1 / νr) := by
    apply Continuous.intervalIntegrable
    fun_prop
  have hi2 : IntervalIntegrable (fun τ => (0 + f τ - Spec.average νr f) ^ 2) volume 0 (1 / νr) := by
    apply Continuous.intervalIntegrable
    fun_prop
  have this : Spec.average νr (fun τ => (1 + f τ - Spec.average νr f) ^ 2) - Spec.average νr (fun τ => (0 + f τ - Spec.average νr f) ^ 2) = 1 := by
    unfold Spec.average at hi hi2 ⊢
    rw [← mul_sub, ← intervalIntegral.integral_sub hi hi2]
    have e : ∀ τ, (1 + f τ - νr * ∫ τ in (0 : ℝ)..(1 / νr), f τ) ^ 2 - (0 + f τ - νr * ∫ τ in (0 : ℝ)..(1 / νr), f τ) ^ 2
        = (1 + 2 * f τ) - 2 * (νr * ∫ τ in (0 : ℝ)..(1 / νr), f τ) := fun τ => by ring
    simp only [e]
    rw [intervalIntegral.integral_sub (by apply Continuous.intervalIntegrable; fun_prop) (by simp),
      intervalIntegral.integral_add (by simp) (by apply Continuous.intervalIntegrable; fun_prop), intervalIntegral.integral_const_mul,
      intervalIntegral.integral_const, intervalIntegral.integral_const]
    simp only [smul_eq_mul, sub_zero]
    field_simp
    ring
  rw [this, show 1 / 2 * (1 : ℝ) + (x - 1 / 2) * 1 = x by ring] at h3
  have e : (fun m : ℤ => (x + m * νr) * Spec.sideband νr f m) = fun m : ℤ => 1 / 2 * ((1 + m * νr) ^ 2 * Spec.sideband νr f m
      - (0 + m * νr) ^ 2 * Spec.sideband νr f m) + (x - 1 / 2) * Spec.sideband νr f m := by
    funext m
    ring
  rw [e]
  exact h3

/-! ## Means over the orientations of a frame -/

/-- The mean over all rotations, in Euler angles. -/
noncomputable def frameMean (f : Matrix (Fin 3) (Fin 3) ℝ → ℝ) : ℝ :=
  Spec.sphereMean fun p => 1 / (2 * Real.pi) * ∫ γ in (0 : ℝ)..(2 * Real.pi), f (Spec.static p.1 p.2 * Spec.Rz γ)

theorem swap_integrals (F : ℝ → ℝ → ℝ) (hF : Continuous (Function.uncurry F)) (a b c d : ℝ) (hab : a ≤ b) (hcd : c ≤ d) :
    ∫ x in a..b, ∫ y in c..d, F x y = ∫ y in c..d, ∫ x in a..b, F x y := by
  simp only [intervalIntegral.integral_of_le hab, intervalIntegral.integral_of_le hcd]
  apply integral_integral_swap
  rw [Measure.prod_restrict]
  exact (hF.continuousOn.integrableOn_compact (isCompact_Icc.prod isCompact_Icc)).mono_set
    (Set.prod_mono Set.Ioc_subset_Icc_self Set.Ioc_subset_Icc_self)

theorem circle_reflect (g : ℝ → ℝ) (hp : Function.Periodic g (2 * Real.pi)) (c : ℝ) :
    ∫ x in (0 : ℝ)..(2 * Real.pi), g (c - x) = ∫ x in (0 : ℝ)..(2 * Real.pi), g x := by
  rw [intervalIntegral.integral_comp_sub_left (fun x => g x) c]
  have h := hp.intervalIntegral_add_eq (c - 2 * Real.pi) 0
  rw [sub_add_cancel, zero_add] at h
  rw [sub_zero, h]

theorem circle_shift (g : ℝ → ℝ) (hp : Function.Periodic g (2 * Real.pi)) (c : ℝ) :
    ∫ x in (0 : ℝ)..(2 * Real.pi), g (c + x) = ∫ x in (0 : ℝ)..(2 * Real.pi), g x := by
  rw [intervalIntegral.integral_comp_add_left (fun x => g x) c]
  have h := hp.intervalIntegral_add_eq c 0
  rw [zero_add] at h
  rw [add_zero, h]

theorem sphereMean_iterated (g : ℝ × ℝ → ℝ) (hg : Continuous g) :
    Spec.sphereMean g = 1 / (4 * Real.pi) * ∫ β in (0 : ℝ)..Real.pi, ∫ α in (0 : ℝ)..(2 * Real.pi), Real.sin β * g (α, β) := by
  have hπ := Real.pi_pos
  have hc : Continuous fun p : ℝ × ℝ => Real.sin p.2 * g p := (Real.continuous_sin.comp continuous_snd).mul hg
  unfold Spec.sphereMean
  congr 1
  rw [← swap_integrals (fun α β => Real.sin β * g (α, β)) hc 0 (2 * Real.pi) 0 Real.pi (by positivity) hπ.le]
  have hi : IntegrableOn (fun p : ℝ × ℝ => Real.sin p.2 * g p) (Set.Ioo 0 (2 * Real.pi) ×ˢ Set.Ioo 0 Real.pi) (volume.prod volume) :=
    (hc.continuousOn.integrableOn_compact (isCompact_Icc.prod isCompact_Icc)).mono_set
      (Set.prod_mono Set.Ioo_subset_Icc_self Set.Ioo_subset_Icc_self)
  rw [Measure.volume_eq_prod, setIntegral_prod _ hi]
  rw [intervalIntegral.integral_of_le (by positivity), integral_Ioc_eq_integral_Ioo]
  refine setIntegral_congr_fun measurableSet_Ioo fun α _ => ?_
  simp only []
  rw [intervalIntegral.integral_of_le hπ.le, integral_Ioc_eq_integral_Ioo]

theorem rz_continuous : Continuous Spec.Rz := by
  unfold Spec.Rz
  refine continuous_matrix fun i j => ?_
  fin_cases i <;> fin_cases j <;> simp <;> fun_prop

theorem ry_continuous : Continuous Spec.Ry := by
  unfold Spec.Ry
  refine continuous_matrix fun i j => ?_
  fin_cases i <;> fin_cases j <;> simp <;> fun_prop

theorem rz_periodic (x : ℝ) : Spec.Rz (x + 2 * Real.pi) = Spec.Rz x := by
  unfold Spec.Rz
  simp only [Real.cos_add_two_pi, Real.sin_add_two_pi]

theorem frame_continuous (f : Matrix (Fin 3) (Fin 3) ℝ → ℝ) (hf : Continuous f) :
    Continuous fun q : (ℝ × ℝ) × ℝ => f (Spec.static q.1.1 q.1.2 * Spec.Rz q.2) := by
  refine hf.comp ?_
  exact ((rz_continuous.comp (continuous_fst.comp continuous_fst)).matrix_mul (ry_continuous.comp (continuous_snd.comp continuous_fst))).matrix_mul
    (rz_continuous.comp continuous_snd)

theorem frame_continuous_at (f : Matrix (Fin 3) (Fin 3) ℝ → ℝ) (hf : Continuous f) (β : ℝ) :
    Continuous (Function.uncurry fun α γ => f (Spec.static α β * Spec.Rz γ)) := by
  refine hf.comp ?_
  exact ((rz_continuous.comp continuous_fst).matrix_mul continuous_const).matrix_mul (rz_continuous.comp continuous_snd)

theorem inner_continuous (f : Matrix (Fin 3) (Fin 3) ℝ → ℝ) (hf : Continuous f) :
    Continuous fun p : ℝ × ℝ => 1 / (2 * Real.pi) * ∫ γ in (0 : ℝ)..(2 * Real.pi), f (Spec.static p.1 p.2 * Spec.Rz γ) :=
  continuous_const.mul (intervalIntegral.continuous_parametric_intervalIntegral_of_continuous' (μ := volume)
    (f := fun (p : ℝ × ℝ) (γ : ℝ) => f (Spec.static p.1 p.2 * Spec.Rz γ)) (frame_continuous f hf) 0 (2 * Real.pi))

/-- Turning everything does not change the mean. -/
theorem frameMean_left (f : Matrix (Fin 3) (Fin 3) ℝ → ℝ) (hf : Continuous f) (Q : Matrix (Fin 3) (Fin 3) ℝ) (hQ : Spec.Rotation Q) :
    frameMean (fun M => f (Q * M)) = frameMean f := by
  unfold frameMean
  refine sphereMean_turn_continuous _ _ (inner_continuous f hf) (inner_continuous _ (hf.comp (continuous_const.matrix_mul continuous_id))) Q hQ.1
    fun p p' hp => ?_
  obtain ⟨ψ, hψ⟩ := static_turned Q hQ p p' hp
  simp only []
  congr 1
  simp only [← Matrix.mul_assoc, hψ]
  simp only [Matrix.mul_assoc, rz_mul]
  refine circle_shift (fun γ => f (Spec.Rz p'.1 * (Spec.Ry p'.2 * Spec.Rz γ))) (fun γ => ?_) ψ
  simp only [rz_periodic]

theorem rz_transpose (a : ℝ) : (Spec.Rz a)ᵀ = Spec.Rz (-a) := by
  unfold Spec.Rz
  ext i j
  fin_cases i <;> fin_cases j <;> simp

/-- The inverse of a rotation in Euler angles. -/
theorem frame_transpose (α β γ : ℝ) :
    (Spec.static α β * Spec.Rz γ)ᵀ = Spec.static (Real.pi - γ) β * Spec.Rz (-Real.pi - α) := by
  have h : (Spec.Ry β)ᵀ = Spec.Rz Real.pi * Spec.Ry β * Spec.Rz (-Real.pi) := by
    unfold Spec.Rz Spec.Ry
    ext i j
    fin_cases i <;> fin_cases j <;> simp [Matrix.mul_apply, Fin.sum_univ_three]
  rw [Matrix.transpose_mul, Matrix.transpose_mul, rz_transpose, rz_transpose, h]
  simp only [Matrix.mul_assoc, rz_mul]
  rw [← Matrix.mul_assoc (Spec.Rz (-γ)), rz_mul]
  rw [show -γ + Real.pi = Real.pi - γ by ring, show -Real.pi + -α = -Real.pi - α by ring]

theorem circle_swap (G : ℝ → ℝ → ℝ) (hG : Continuous (Function.uncurry G)) (h1 : ∀ x y, G (x + 2 * Real.pi) y = G x y)
    (h2 : ∀ x y, G x (y + 2 * Real.pi) = G x y) (c d : ℝ) :
    ∫ α in (0 : ℝ)..(2 * Real.pi), ∫ γ in (0 : ℝ)..(2 * Real.pi), G (c - γ) (d - α)
      = ∫ α in (0 : ℝ)..(2 * Real.pi), ∫ γ in (0 : ℝ)..(2 * Real.pi), G α γ := by
  have hπ : (0 : ℝ) ≤ 2 * Real.pi := by positivity
  have hc : Continuous (Function.uncurry fun α γ => G (c - γ) (d - α)) :=
    hG.comp (Continuous.prodMk (continuous_const.sub continuous_snd) (continuous_const.sub continuous_fst))
  rw [swap_integrals _ hc _ _ _ _ hπ hπ]
  have e : ∀ γ : ℝ, (∫ α in (0 : ℝ)..(2 * Real.pi), G (c - γ) (d - α)) = ∫ α in (0 : ℝ)..(2 * Real.pi), G (c - γ) α :=
    fun γ => circle_reflect (fun α => G (c - γ) α) (fun α => h2 _ _) d
  simp only [e]
  exact circle_reflect (fun γ => ∫ α in (0 : ℝ)..(2 * Real.pi), G γ α) (fun γ => by simp only [h1]) c

/-- Nor does inverting every rotation. -/
theorem frameMean_inverse (f : Matrix (Fin 3) (Fin 3) ℝ → ℝ) (hf : Continuous f) : frameMean (fun M => f Mᵀ) = frameMean f := by
  have hf' : Continuous fun M : Matrix (Fin 3) (Fin 3) ℝ => f Mᵀ := hf.comp continuous_id.matrix_transpose
  unfold frameMean
  rw [sphereMean_iterated _ (inner_continuous _ hf'), sphereMean_iterated _ (inner_continuous _ hf)]
  have e : ∀ β : ℝ, (∫ α in (0 : ℝ)..(2 * Real.pi), Real.sin β * (1 / (2 * Real.pi) * ∫ γ in (0 : ℝ)..(2 * Real.pi), f (Spec.static α β * Spec.Rz γ)ᵀ))
      = ∫ α in (0 : ℝ)..(2 * Real.pi), Real.sin β * (1 / (2 * Real.pi) * ∫ γ in (0 : ℝ)..(2 * Real.pi), f (Spec.static α β * Spec.Rz γ)) := by
    intro β
    have hc : Continuous (Function.uncurry fun α γ => f (Spec.static α β * Spec.Rz γ)) :=
      frame_continuous_at f hf β
    have h := circle_swap (fun α γ => f (Spec.static α β * Spec.Rz γ)) hc (fun x y => by simp only [Spec.static, rz_periodic])
      (fun x y => by simp only [rz_periodic]) Real.pi (-Real.pi)
    simp only [frame_transpose]
    rw [intervalIntegral.integral_const_mul, intervalIntegral.integral_const_mul, intervalIntegral.integral_const_mul,
      intervalIntegral.integral_const_mul, h]
  simp only [e]

/-- Nor does turning first. -/
theorem frameMean_right (f : Matrix (Fin 3) (Fin 3) ℝ → ℝ) (hf : Continuous f) (S : Matrix (Fin 3) (Fin 3) ℝ) (hS : Spec.Rotation S) :
    frameMean (fun M => f (M * S)) = frameMean f := by
  have hf' : Continuous fun M : Matrix (Fin 3) (Fin 3) ℝ => f Mᵀ := hf.comp continuous_id.matrix_transpose
  have hS' : Spec.Rotation Sᵀ := ⟨by rw [Matrix.transpose_transpose]; exact mul_eq_one_comm.mp hS.1, by rw [Matrix.det_transpose]; exact hS.2⟩
  have h1 := frameMean_inverse (fun M => f (Sᵀ * M)ᵀ) (hf'.comp (continuous_const.matrix_mul continuous_id))
  simp only [Matrix.transpose_mul, Matrix.transpose_transpose] at h1
  rw [h1]
  have h2 := frameMean_left (fun M => f Mᵀ) hf' Sᵀ hS'
  simp only [Matrix.transpose_mul, Matrix.transpose_transpose] at h2
  rw [h2]
  exact frameMean_inverse f hf

/-- What depends on the direction of the field only. -/
theorem frameMean_axial (f : Matrix (Fin 3) (Fin 3) ℝ → ℝ) (h : ∀ α β γ, f (Spec.static α β * Spec.Rz γ) = f (Spec.static α β)) :
    frameMean f = Spec.sphereMean fun p => f (Spec.static p.1 p.2) := by
  unfold frameMean
  congr 1
  funext p
  have hπ := Real.pi_pos
  simp only [h, intervalIntegral.integral_const, smul_eq_mul, sub_zero]
  field_simp

theorem ry_rotation (θ : ℝ) : Spec.Rotation (Spec.Ry θ) := by
  refine ⟨mul_eq_one_comm.mp (ry_orth θ), ?_⟩
  unfold Spec.Ry
  rw [Matrix.det_fin_three]
  simp
  nlinarith [Real.sin_sq_add_cos_sq θ]

/-- The average over a turn of the rotor, then over the powder. -/
theorem spun_mean (f : Matrix (Fin 3) (Fin 3) ℝ → ℝ) (hf : Continuous f) (h : ∀ α β γ, f (Spec.static α β * Spec.Rz γ) = f (Spec.static α β))
    (θ νr : ℝ) (hν : 0 < νr) :
    Spec.sphereMean (fun p => Spec.average νr fun τ => f (Spec.spun p.1 p.2 θ νr τ)) = Spec.sphereMean fun p => f (Spec.static p.1 p.2) := by
  rw [← frameMean_axial f h, ← frameMean_right f hf (Spec.Ry θ) (ry_rotation θ)]
  unfold frameMean
  congr 1
  funext p
  have hπ := Real.pi_pos
  unfold Spec.average Spec.spun
  have e : ∀ τ, f (Spec.Rz p.1 * Spec.Ry p.2 * (Spec.Rz (-(2 * Real.pi * νr * τ)) * Spec.Ry θ))
      = (fun γ => f (Spec.static p.1 p.2 * Spec.Rz (0 - γ) * Spec.Ry θ)) ((2 * Real.pi * νr) * τ) := by
    intro τ
    simp only [zero_sub, Matrix.mul_assoc]
  simp only [e]
  rw [intervalIntegral.integral_comp_mul_left (fun γ => f (Spec.static p.1 p.2 * Spec.Rz (0 - γ) * Spec.Ry θ)) (by positivity : 2 * Real.pi * νr ≠ 0)]
  have e2 : 2 * Real.pi * νr * (1 / νr) = 2 * Real.pi := by field_simp
  rw [e2, mul_zero, circle_reflect (fun γ => f (Spec.static p.1 p.2 * Spec.Rz γ * Spec.Ry θ)) (fun γ => by simp only [rz_periodic]) 0]
  simp only [smul_eq_mul]
  field_simp

/-! ## The frequencies as functions of the orientation -/

theorem along_continuous (A : Matrix (Fin 3) (Fin 3) ℝ) (Θ : Angles) :
    Continuous fun M : Matrix (Fin 3) (Fin 3) ℝ => Spec.along A (Spec.seen Θ (Spec.field M)) := by
  have h : Continuous fun M : Matrix (Fin 3) (Fin 3) ℝ => Spec.seen Θ (Spec.field M) := by
    unfold Spec.seen Spec.field
    exact continuous_const.matrix_mulVec (continuous_id.matrix_mulVec continuous_const)
  unfold Spec.along
  exact h.dotProduct (continuous_const.matrix_mulVec h)

theorem gradient_continuous (η : ℝ) (Θ : Angles) (i j : Fin 3) : Continuous fun M : Matrix (Fin 3) (Fin 3) ℝ => Spec.gradient η Θ M i j := by
  have h : Continuous fun M : Matrix (Fin 3) (Fin 3) ℝ => Spec.euler Θ.α Θ.β Θ.γ * M := continuous_const.matrix_mul continuous_id
  have h2 : Continuous fun M : Matrix (Fin 3) (Fin 3) ℝ => Spec.gradient η Θ M := by
    unfold Spec.gradient
    exact (h.matrix_transpose.matrix_mul continuous_const).matrix_mul h
  exact h2.matrix_elem i j

theorem quadH_continuous (n : ℕ) (Cq η : ℝ) (Θ : Angles) (i j : Fin (n + 1)) :
    Continuous fun M : Matrix (Fin 3) (Fin 3) ℝ => Spec.quadH n Cq (Spec.gradient η Θ M) i j := by
  unfold Spec.quadH
  simp only [Matrix.smul_apply, Matrix.sum_apply, smul_eq_mul]
  refine continuous_const.mul (continuous_finsetSum _ fun a _ => continuous_finsetSum _ fun b _ => ?_)
  exact (continuous_ofReal.comp (gradient_continuous η Θ a b)).mul continuous_const

theorem siteEnergy_continuous (second : Bool) (B0 : ℝ) (s : Site) (j : Fin (s.n + 1)) :
    Continuous fun M : Matrix (Fin 3) (Fin 3) ℝ => Spec.siteEnergy second B0 M s j := by
  unfold Spec.siteEnergy
  refine (continuous_const.mul (continuous_const.sub (along_continuous _ _))).add ?_
  split_ifs with h1 h2
  · exact continuous_const
  · simp only []
    refine Continuous.add ?_ ?_
    · unfold Spec.E1
      exact continuous_re.comp (quadH_continuous _ _ _ _ _ _)
    · unfold Spec.E2
      exact continuous_finsetSum _ fun k _ => ((quadH_continuous _ _ _ _ _ _).norm.pow 2).div_const _
  · simp only []
    refine Continuous.add ?_ continuous_const
    unfold Spec.E1
    exact continuous_re.comp (quadH_continuous _ _ _ _ _ _)

theorem couplingEnergy_continuous (k : Coupling) (a x : ℝ) :
    Continuous fun M : Matrix (Fin 3) (Fin 3) ℝ => Spec.couplingEnergy M k a x := by
  have h : Continuous fun M : Matrix (Fin 3) (Fin 3) ℝ => Spec.seen k.Θd (Spec.field M) := by
    unfold Spec.seen Spec.field
    exact continuous_const.matrix_mulVec (continuous_id.matrix_mulVec continuous_const)
  unfold Spec.couplingEnergy
  exact continuous_const.mul ((continuous_const.add (along_continuous _ _)).add
    (continuous_const.mul ((continuous_const.mul (((continuous_apply 2).comp h).pow 2)).sub continuous_const)))

theorem energy_continuous (second : Bool) (B0 : ℝ) (ss : List Site) (ks : List Coupling) (x : List ℕ) :
    Continuous fun M : Matrix (Fin 3) (Fin 3) ℝ => Spec.energy second B0 M ss ks x := by
  unfold Spec.energy
  refine Continuous.add ?_ ?_
  · induction ss generalizing x with
    | nil => simpa using continuous_const
    | cons s ss ih =>
      cases x with
      | nil => simpa using continuous_const
      | cons j x =>
        simp only [List.zipWith_cons_cons, List.sum_cons]
        exact (siteEnergy_continuous second B0 s _).add (ih x)
  · generalize Spec.quantum ss x = q
    induction ks with
    | nil => simpa using continuous_const
    | cons k ks ih =>
      simp only [List.map_cons, List.sum_cons]
      exact (couplingEnergy_continuous k _ _).add ih

theorem forall₂_same {α : Type} {R : α → α → Prop} (h : ∀ x, R x x) : ∀ l : List α, List.Forall₂ R l l
  | [] => .nil
  | x :: l => .cons (h x) (forall₂_same h l)

/-- The energy depends on the direction of the field only. -/
theorem energy_axial (second : Bool) (B0 : ℝ) (ss : List Site) (ks : List Coupling) (x : List ℕ) (α β γ : ℝ) :
    Spec.energy second B0 (Spec.static α β * Spec.Rz γ) ss ks x = Spec.energy second B0 (Spec.static α β) ss ks x := by
  have ha : ∀ Θ, Spec.TurnedAxes 1 Θ Θ := fun Θ => (Matrix.mul_one _).symm
  have hph : Spec.TurnedPhys 1 ⟨ss, ks⟩ ⟨ss, ks⟩ :=
    ⟨forall₂_same (fun s => ⟨rfl, .inr (ha _), .inr (.inr (ha _))⟩) _, forall₂_same (fun k => ⟨rfl, .inr (ha _), .inr (ha _)⟩) _⟩
  refine energy_turned second B0 1 _ _ (static_orth α β) (mul_orth _ _ (static_orth α β) (rz_orth γ)) ?_ ⟨ss, ks⟩ ⟨ss, ks⟩ hph x
  unfold Spec.field
  rw [Matrix.one_mulVec, ← Matrix.mulVec_mulVec]
  congr 1
  funext i
  fin_cases i <;> simp [Spec.Rz, Matrix.mulVec, dotProduct, Fin.sum_univ_three]

theorem spun_continuous (α β θ νr : ℝ) : Continuous fun τ => Spec.spun α β θ νr τ := by
  unfold Spec.spun
  exact continuous_const.matrix_mul ((rz_continuous.comp (by fun_prop)).matrix_mul continuous_const)

theorem momentary_continuous (four : Bool) (B0 α β θ νr : ℝ) (ss : List Site) (ks : List Coupling) (xi xf : List ℕ) :
    Continuous (Spec.momentary four B0 α β θ νr ss ks xi xf) :=
  ((energy_continuous four B0 ss ks xf).comp (spun_continuous α β θ νr)).sub ((energy_continuous four B0 ss ks xi).comp (spun_continuous α β θ νr))

/-- A power of the momentary frequency, averaged over the turn and over the powder. -/
theorem momentary_power (four : Bool) (B0 θ νr : ℝ) (hν : 0 < νr) (ss : List Site) (ks : List Coupling) (xi xf : List ℕ) (k : ℕ) :
    Spec.sphereMean (fun p => Spec.average νr fun τ => Spec.momentary four B0 p.1 p.2 θ νr ss ks xi xf τ ^ k)
      = Spec.sphereMean fun p => Spec.line four B0 ss ks xi xf p ^ k :=
  spun_mean (fun M => (Spec.energy four B0 M ss ks xf - Spec.energy four B0 M ss ks xi) ^ k)
    (((energy_continuous four B0 ss ks xf).sub (energy_continuous four B0 ss ks xi)).pow k)
    (fun α β γ => by simp only [energy_axial]) θ νr hν

/-! ## Theorems -/

/-- The sidebands of one crystallite, in the limit of many of them: their sum, centre of gravity and second moment.  The number of sidebands
is the number of samples of a turn of the rotor, `number_of_sidebands`.  Partial: the decimals of the tables are replaced by the numbers they
stand for, and the second Euler angles have to be non-negative (C71). -/
theorem C116_crystallite_partial (four : Bool) (B0 α β θ νr : ℝ) (hν : 0 < νr) (ss : List Site) (ks : List Coupling) (xi xf : List ℕ)
    (hi : Spec.IsState ss xi) (hf : Spec.IsState ss xf) (hs : ∀ s ∈ ss, s.Upright ∧ 1 ≤ s.n)
    (hk : ∀ k ∈ ks, k.Upright ∧ k.A < ss.length ∧ k.X < ss.length) :
    let t := components WC.exact TC.exact four B0 ss ks (Spec.quantum ss xi) (Spec.quantum ss xf)
    let F := localFreq WC.exact four (Real.cos β) (Real.sin β) (exp (α * I)) (Real.cos θ) (Real.sin θ) t
    ∃ J : ℤ → ℝ,
      (∀ m : ℤ, Filter.Tendsto (fun n : ℕ => Sim.sidebandAmps (fun j : ZMod (n + 1) => crystalPhase WC.exact four (n + 1) νr (Real.cos β)
          (Real.sin β) (exp (α * I)) (Real.cos θ) (Real.sin θ) t j.val) (m : ZMod (n + 1)) / ((n + 1 : ℕ) : ℝ) ^ 2) Filter.atTop (nhds (J m))) ∧
      HasSum J 1 ∧
      HasSum (fun m : ℤ => J m * (F + m * νr)) F ∧
      HasSum (fun m : ℤ => J m * (F + m * νr) ^ 2) (Spec.average νr fun τ => Spec.momentary four B0 α β θ νr ss ks xi xf τ ^ 2) := by
  intro t F
  have hc := momentary_continuous four B0 α β θ νr ss ks xi xf
  have hF : F = Spec.average νr (Spec.momentary four B0 α β θ νr ss ks xi xf) := C75_average_partial four B0 α β θ νr hν ss ks xi xf hi hf hs hk
  refine ⟨Spec.sideband νr (Spec.momentary four B0 α β θ νr ss ks xi xf), C76_limit_partial four B0 α β θ νr hν ss ks xi xf hi hf hs hk,
    sideband_zeroth νr hν _ hc, ?_, ?_⟩
  · simpa only [mul_comm] using sideband_first νr hν _ hc F
  · have h := sideband_second νr hν _ hc F
    rw [← hF] at h
    simp only [add_sub_cancel_left] at h
    simpa only [mul_comm] using h

/-- The powder: at any speed and any angle of the rotor the sidebands have the moments of orders zero, one and two of the static spectrum. -/
theorem C116_powder_partial (four : Bool) (B0 θ νr : ℝ) (hν : 0 < νr) (ss : List Site) (ks : List Coupling) (xi xf : List ℕ)
    (hi : Spec.IsState ss xi) (hf : Spec.IsState ss xf) (hs : ∀ s ∈ ss, s.Upright ∧ 1 ≤ s.n)
    (hk : ∀ k ∈ ks, k.Upright ∧ k.A < ss.length ∧ k.X < ss.length) :
    let t := components WC.exact TC.exact four B0 ss ks (Spec.quantum ss xi) (Spec.quantum ss xf)
    let F : ℝ × ℝ → ℝ := fun p => localFreq WC.exact four (Real.cos p.2) (Real.sin p.2) (exp (p.1 * I)) (Real.cos θ) (Real.sin θ) t
    ∃ J : ℝ × ℝ → ℤ → ℝ,
      (∀ p, ∀ m : ℤ, Filter.Tendsto (fun n : ℕ => Sim.sidebandAmps (fun j : ZMod (n + 1) => crystalPhase WC.exact four (n + 1) νr
          (Real.cos p.2) (Real.sin p.2) (exp (p.1 * I)) (Real.cos θ) (Real.sin θ) t j.val) (m : ZMod (n + 1)) / ((n + 1 : ℕ) : ℝ) ^ 2)
          Filter.atTop (nhds (J p m))) ∧
      ∀ k ≤ 2, (∀ p, Summable fun m : ℤ => J p m * (F p + m * νr) ^ k) ∧
        Spec.sphereMean (fun p => Spec.sidebandMoment k νr (F p) (J p)) = Spec.staticMoment k four B0 ss ks xi xf := by
  intro t F
  have hc := fun p : ℝ × ℝ => C116_crystallite_partial four B0 p.1 p.2 θ νr hν ss ks xi xf hi hf hs hk
  choose J h1 h2 h3 h4 using hc
  refine ⟨J, h1, fun k hk' => ?_⟩
  unfold Spec.sidebandMoment Spec.staticMoment
  interval_cases k
  · simp only [pow_zero, mul_one]
    refine ⟨fun p => (h2 p).summable, ?_⟩
    congr 1
    funext p
    exact (h2 p).tsum_eq
  · simp only [pow_one]
    refine ⟨fun p => (h3 p).summable, ?_⟩
    have h := momentary_power four B0 θ νr hν ss ks xi xf 1
    simp only [pow_one] at h
    rw [← h]
    congr 1
    funext p
    rw [(h3 p).tsum_eq]
    exact C75_average_partial four B0 p.1 p.2 θ νr hν ss ks xi xf hi hf hs hk
  · refine ⟨fun p => (h4 p).summable, ?_⟩
    rw [← momentary_power four B0 θ νr hν ss ks xi xf 2]
    congr 1
    funext p
    exact (h4 p).tsum_eq

/-! ## The second moment of a shift anisotropy -/

theorem inner_square (a b : ℝ) : ∫ α in (0 : ℝ)..(2 * Real.pi), (a + b * Real.cos (2 * α)) ^ 2 = 2 * Real.pi * a ^ 2 + Real.pi * b ^ 2 := by
  have hd : ∀ α : ℝ, HasDerivAt (fun α : ℝ => a ^ 2 * α + a * b * Real.sin (2 * α) + b ^ 2 * (α / 2 + Real.sin (2 * α) * Real.cos (2 * α) / 4))
      ((a + b * Real.cos (2 * α)) ^ 2) α := by
    intro α
    have h2 : HasDerivAt (fun α : ℝ => 2 * α) 2 α := by simpa using (hasDerivAt_id α).const_mul 2
    have hs := h2.sin
    have hc := h2.cos
    have h := (((hasDerivAt_id α).const_mul (a ^ 2)).add (hs.const_mul (a * b))).add
      ((((hasDerivAt_id α).div_const 2).add ((hs.mul hc).div_const 4)).const_mul (b ^ 2))
    refine h.congr_deriv ?_
    have e : Real.sin (2 * α) ^ 2 = 1 - Real.cos (2 * α) ^ 2 := by linarith [Real.sin_sq_add_cos_sq (2 * α)]
    linear_combination (-b ^ 2 / 2) * e
  rw [intervalIntegral.integral_eq_sub_of_hasDerivAt (fun α _ => hd α) (by apply Continuous.intervalIntegrable; fun_prop)]
  have e1 : Real.sin (2 * (2 * Real.pi)) = 0 := by
    rw [show 2 * (2 * Real.pi) = ((4 : ℕ) : ℝ) * Real.pi by push_cast; ring]
    exact Real.sin_nat_mul_pi 4
  rw [e1]
  simp
  ring

theorem outer_square (K δ ζ η : ℝ) :
    ∫ β in (0 : ℝ)..Real.pi, Real.sin β * (2 * Real.pi * (K * (δ - ζ * (3 * Real.cos β ^ 2 - 1) / 2)) ^ 2
        + Real.pi * (K * (ζ * η / 2 * Real.sin β ^ 2)) ^ 2)
      = 4 * Real.pi * (K ^ 2 * (δ ^ 2 + ζ ^ 2 / 5 * (1 + η ^ 2 / 3))) := by
  have hd : ∀ β : ℝ, HasDerivAt (fun β : ℝ => -(Real.pi * K ^ 2) * (2 * (δ ^ 2 * Real.cos β - δ * ζ * (Real.cos β ^ 3 - Real.cos β)
        + ζ ^ 2 / 4 * (9 / 5 * Real.cos β ^ 5 - 2 * Real.cos β ^ 3 + Real.cos β))
        + ζ ^ 2 * η ^ 2 / 4 * (Real.cos β - 2 / 3 * Real.cos β ^ 3 + Real.cos β ^ 5 / 5)))
      (Real.sin β * (2 * Real.pi * (K * (δ - ζ * (3 * Real.cos β ^ 2 - 1) / 2)) ^ 2 + Real.pi * (K * (ζ * η / 2 * Real.sin β ^ 2)) ^ 2)) β := by
    intro β
    have hc := Real.hasDerivAt_cos β
    have h3 := hc.pow 3
    have h5 := hc.pow 5
    have h := ((((hc.const_mul (δ ^ 2)).sub ((h3.sub hc).const_mul (δ * ζ))).add
      ((((h5.const_mul (9 / 5)).sub (h3.const_mul 2)).add hc).const_mul (ζ ^ 2 / 4))).const_mul 2).add
      (((hc.sub (h3.const_mul (2 / 3))).add (h5.div_const 5)).const_mul (ζ ^ 2 * η ^ 2 / 4)) |>.const_mul (-(Real.pi * K ^ 2))
    refine h.congr_deriv ?_
    have e : Real.sin β ^ 2 = 1 - Real.cos β ^ 2 := by linarith [Real.sin_sq_add_cos_sq β]
    rw [e]
    push_cast
    ring
  rw [intervalIntegral.integral_eq_sub_of_hasDerivAt (fun β _ => hd β) (by apply Continuous.intervalIntegrable; fun_prop)]
  simp
  ring

theorem along_dir (ζ η : ℝ) (p : ℝ × ℝ) :
    Spec.along (Spec.haeberlen ζ η) (Spec.dir p.1 p.2) = ζ * (3 * Real.cos p.2 ^ 2 - 1) / 2 - ζ * η / 2 * Real.sin p.2 ^ 2 * Real.cos (2 * p.1) := by
  have e1 : Real.sin p.2 ^ 2 = 1 - Real.cos p.2 ^ 2 := by linarith [Real.sin_sq_add_cos_sq p.2]
  have e2 : Real.sin p.1 ^ 2 = 1 - Real.cos p.1 ^ 2 := by linarith [Real.sin_sq_add_cos_sq p.1]
  rw [Real.cos_two_mul]
  simp only [Spec.along, Spec.haeberlen, Spec.dir, Matrix.mulVec, dotProduct, Fin.sum_univ_three, Matrix.diagonal]
  simp
  linear_combination (-ζ * (1 - η) / 2 * Real.sin p.2 ^ 2) * e2 - ζ / 2 * e1

theorem shift_square (K δ ζ η : ℝ) (Θ : Angles) :
    Spec.sphereMean (fun p => (K * (δ - Spec.along (Spec.haeberlen ζ η) (Spec.seen Θ (Spec.dir p.1 p.2)))) ^ 2)
      = K ^ 2 * (δ ^ 2 + ζ ^ 2 / 5 * (1 + η ^ 2 / 3)) := by
  have hdir : Continuous fun p : ℝ × ℝ => Spec.dir p.1 p.2 := by
    unfold Spec.dir
    refine continuous_pi fun i => ?_
    fin_cases i <;> simp <;> fun_prop
  have hg : Continuous fun p : ℝ × ℝ => (K * (δ - Spec.along (Spec.haeberlen ζ η) (Spec.dir p.1 p.2))) ^ 2 := by
    unfold Spec.along
    exact (continuous_const.mul (continuous_const.sub (hdir.dotProduct (continuous_const.matrix_mulVec hdir)))).pow 2
  have hg' : Continuous fun p : ℝ × ℝ => (K * (δ - Spec.along (Spec.haeberlen ζ η) (Spec.seen Θ (Spec.dir p.1 p.2)))) ^ 2 := by
    unfold Spec.along Spec.seen
    have h := (continuous_const (y := Spec.euler Θ.α Θ.β Θ.γ)).matrix_mulVec hdir
    exact (continuous_const.mul (continuous_const.sub (h.dotProduct (continuous_const.matrix_mulVec h)))).pow 2
  rw [sphereMean_turn_continuous _ _ hg hg' (Spec.euler Θ.α Θ.β Θ.γ) (mul_eq_one_comm.mp (euler_orth _ _ _)) fun p p' hp => by
    unfold Spec.seen
    rw [hp]]
  rw [sphereMean_iterated _ hg]
  have e : ∀ β : ℝ, (∫ α in (0 : ℝ)..(2 * Real.pi), Real.sin β * (K * (δ - Spec.along (Spec.haeberlen ζ η) (Spec.dir α β))) ^ 2)
      = Real.sin β * (2 * Real.pi * (K * (δ - ζ * (3 * Real.cos β ^ 2 - 1) / 2)) ^ 2 + Real.pi * (K * (ζ * η / 2 * Real.sin β ^ 2)) ^ 2) := by
    intro β
    rw [intervalIntegral.integral_const_mul, ← inner_square]
    congr 1
    refine intervalIntegral.integral_congr fun α _ => ?_
    have h := along_dir ζ η (α, β)
    rw [h]
    ring
  simp only [e]
  rw [outer_square]
  have := Real.pi_pos
  field_simp

/-- The second moment of the static line of a site of spin 1/2. -/
theorem static_anisotropy (B0 : ℝ) (s : Site) (hn : s.n = 1) :
    Spec.sphereMean (fun p => Spec.line true B0 [s] [] [1] [0] p ^ 2)
      = (B0 * s.gamma * s.iso) ^ 2 + (B0 * s.gamma * s.zeta) ^ 2 * (1 + s.eta ^ 2 / 3) / 5 := by
  unfold Spec.line
  have e : ∀ p : ℝ × ℝ, Spec.energy true B0 (Spec.static p.1 p.2) [s] [] [0] - Spec.energy true B0 (Spec.static p.1 p.2) [s] [] [1]
      = (B0 * s.gamma) * (s.iso - Spec.along (Spec.haeberlen s.zeta s.eta) (Spec.seen s.Θs (Spec.dir p.1 p.2))) := by
    intro p
    unfold Spec.energy
    simp only [List.zipWith_cons_cons, List.zipWith_nil_left, List.sum_cons, List.sum_nil, List.map_nil, add_zero]
    unfold Spec.siteEnergy Spec.field
    rw [if_pos hn.le, if_pos hn.le, field_dir]
    have m0 : Spec.mag s.n (Fin.ofNat (s.n + 1) 0) = -(1 / 2) := by
      unfold Spec.mag
      simp [hn]
    have m1 : Spec.mag s.n (Fin.ofNat (s.n + 1) 1) = 1 / 2 := by
      unfold Spec.mag
      simp [hn]
      norm_num
    rw [m0, m1]
    ring
  simp only [e]
  rw [shift_square]
  ring

/-- The textbook case of one site of spin 1/2 with any orientation of its tensor: whatever the speed and the angle of the rotor, the sidebands of the
line of a powder have the second moment `(ν₀ ζ)² (1 + η²/3) / 5` about the isotropic shift. -/
theorem C116_anisotropy_partial (B0 θ νr : ℝ) (hν : 0 < νr) (s : Site) (hn : s.n = 1) :
    let t := components WC.exact TC.exact true B0 [s] [] (Spec.quantum [s] [1]) (Spec.quantum [s] [0])
    let F : ℝ × ℝ → ℝ := fun p => localFreq WC.exact true (Real.cos p.2) (Real.sin p.2) (exp (p.1 * I)) (Real.cos θ) (Real.sin θ) t
    ∃ J : ℝ × ℝ → ℤ → ℝ,
      (∀ p, ∀ m : ℤ, Filter.Tendsto (fun n : ℕ => Sim.sidebandAmps (fun j : ZMod (n + 1) => crystalPhase WC.exact true (n + 1) νr
          (Real.cos p.2) (Real.sin p.2) (exp (p.1 * I)) (Real.cos θ) (Real.sin θ) t j.val) (m : ZMod (n + 1)) / ((n + 1 : ℕ) : ℝ) ^ 2)
          Filter.atTop (nhds (J p m))) ∧
      Spec.sphereMean (fun p => Spec.sidebandMoment 2 νr (F p) (J p))
        = (B0 * s.gamma * s.iso) ^ 2 + (B0 * s.gamma * s.zeta) ^ 2 * (1 + s.eta ^ 2 / 3) / 5 := by
  have hn' : (Spec.absSite s).n = 1 := hn
  have hi : Spec.IsState [Spec.absSite s] [1] := .cons (by omega) .nil
  have hf : Spec.IsState [Spec.absSite s] [0] := .cons (by omega) .nil
  have h := C116_powder_partial true B0 θ νr hν [Spec.absSite s] [] [1] [0] hi hf
    (by simpa using ⟨⟨abs_nonneg _, abs_nonneg _⟩, hn'.ge⟩) (by simp)
  have ha := components_absolute WC.exact TC.exact true B0 [s] [] (Spec.quantum [s] [1]) (Spec.quantum [s] [0])
  have hq : ∀ y, Spec.quantum [Spec.absSite s] y = Spec.quantum [s] y := by
    intro y
    cases y <;> rfl
  rw [hq, hq] at h
  rw [List.map_cons, List.map_nil, List.map_nil] at ha
  rw [ha] at h
  obtain ⟨J, h1, h2⟩ := h
  exact ⟨J, h1, (h2 2 le_rfl).2.trans (static_anisotropy B0 (Spec.absSite s) hn')⟩

/-- The pair of `exampleSites` at a speed of 10 kHz. -/
example (θ : ℝ) :=
  C116_powder_partial true 9.4 θ 10000 (by norm_num) exampleSites [exampleCoupling] [0, 3] [0, 2]
    (by unfold Spec.IsState exampleSites; simp) (by unfold Spec.IsState exampleSites; simp)
    (by
      unfold exampleSites Site.Upright
      intro s hs
      simp only [List.mem_cons, List.not_mem_nil, or_false] at hs
      rcases hs with rfl | rfl <;> norm_num)
    (by
      unfold exampleSites exampleCoupling Coupling.Upright
      intro k hk
      simp only [List.mem_cons, List.not_mem_nil, or_false] at hk
      subst hk
      norm_num)

/-- A carbon-13 site with an anisotropy of 100 ppm and an asymmetry of 0.6 at 9.4 T: `(9.4 · 10.7 · 100)² · 1.12 / 5 = 22660593.536` Hz² about the
isotropic shift. -/
example (θ νr : ℝ) (hν : 0 < νr) : ∃ F : ℝ × ℝ → ℝ, ∃ J : ℝ × ℝ → ℤ → ℝ, Spec.sphereMean (fun p => Spec.sidebandMoment 2 νr (F p) (J p))
    = (9.4 * 10.7 * 20) ^ 2 + 22660593.536 := by
  obtain ⟨J, -, h⟩ := C116_anisotropy_partial 9.4 θ νr hν ⟨1, 10.7, 20, 100, 0.6, ⟨0.1, -0.2, 0.3⟩, 0, 0, ⟨0, 0, 0⟩⟩ rfl
  exact ⟨_, J, h.trans (by norm_num)⟩

end MRS.Freq
