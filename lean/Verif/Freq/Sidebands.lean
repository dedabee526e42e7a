import Verif.Freq.Spinning
import Mathlib.Analysis.Calculus.MeanValue

/-!
# Sideband intensities — property C76

The code samples the signal of a crystallite at `N` times of a turn of the rotor and takes the squares of its discrete
Fourier transform.  The intensity of sideband `m` is the square of the Fourier coefficient of the signal.
-/

namespace MRS.Freq

open Complex ComplexConjugate Matrix

/-! ## Specification -/

/-- The phase gathered in excess of the average. -/
noncomputable def Spec.gathered (νr : ℝ) (f : ℝ → ℝ) (t : ℝ) : ℝ :=
  2 * Real.pi * ∫ τ in (0 : ℝ)..t, (f τ - Spec.average νr f)

/-- The intensity of sideband `m` of a crystallite with momentary frequency `f`: the squared Fourier coefficient
of its periodic signal. -/
noncomputable def Spec.sideband (νr : ℝ) (f : ℝ → ℝ) (m : ℤ) : ℝ :=
  ‖(νr : ℂ) * ∫ t in (0 : ℝ)..(1 / νr), exp (((Spec.gathered νr f t - 2 * Real.pi * m * νr * t : ℝ) : ℂ) * I)‖ ^ 2

/-! ## Riemann sums -/

theorem riemann (g g' : ℝ → ℂ) (hg : ∀ x, HasDerivAt g (g' x) x) (L : ℝ) (hL : ∀ x, ‖g' x‖ ≤ L) (N : ℕ) (hN : 0 < N)
    (T : ℝ) (hT : 0 < T) :
    ‖((1 / T : ℝ) : ℂ) * (∫ t in (0 : ℝ)..T, g t) - ((1 / N : ℝ) : ℂ) * ∑ k ∈ Finset.range N, g (k * (T / N))‖
      ≤ L * T / N := by
  have hN' : (0 : ℝ) < N := by exact_mod_cast hN
  have hL0 : 0 ≤ L := (norm_nonneg _).trans (hL 0)
  set h := T / N with hh
  have hpos : 0 < h := by positivity
  have hc : Continuous g := continuous_iff_continuousAt.mpr fun x => (hg x).continuousAt
  have hlip : ∀ a x, ‖g x - g a‖ ≤ L * ‖x - a‖ := fun a x =>
    Convex.norm_image_sub_le_of_norm_hasDerivWithin_le (f := g) (f' := g') (s := Set.univ)
      (fun y _ => (hg y).hasDerivWithinAt) (fun y _ => hL y) convex_univ (Set.mem_univ a) (Set.mem_univ x)
  have hsum : ∫ t in (0 : ℝ)..T, g t
      = ∑ k ∈ Finset.range N, ∫ t in ((k : ℝ) * h)..(((k + 1 : ℕ) : ℝ) * h), g t := by
    rw [intervalIntegral.sum_integral_adjacent_intervals (a := fun k : ℕ => (k : ℝ) * h)
      (fun k _ => hc.intervalIntegrable _ _)]
    simp only [Nat.cast_zero, zero_mul, hh]
    rw [mul_div_cancel₀ T hN'.ne']
  have hk : ∀ k : ℕ, ‖(∫ t in ((k : ℝ) * h)..(((k + 1 : ℕ) : ℝ) * h), g t) - (h : ℂ) * g (k * h)‖ ≤ L * h * h := by
    intro k
    have e : ((k + 1 : ℕ) : ℝ) * h - k * h = h := by push_cast; ring
    have e2 : (h : ℂ) * g (k * h) = ∫ _ in ((k : ℝ) * h)..(((k + 1 : ℕ) : ℝ) * h), g (k * h) := by
      rw [intervalIntegral.integral_const, e]
      rfl
    rw [e2, ← intervalIntegral.integral_sub (hc.intervalIntegrable _ _) (by simp)]
    have := intervalIntegral.norm_integral_le_of_norm_le_const (a := (k : ℝ) * h) (b := ((k + 1 : ℕ) : ℝ) * h)
      (C := L * h) (f := fun t => g t - g (k * h)) (fun x hx => by
        refine (hlip _ _).trans (mul_le_mul_of_nonneg_left ?_ hL0)
        rw [Set.uIoc_of_le (by push_cast; nlinarith)] at hx
        rw [Real.norm_eq_abs, abs_of_nonneg (by linarith [hx.1])]
        have := hx.2
        push_cast at this
        linarith)
    rwa [e, abs_of_pos hpos] at this
  have e1 : ((1 / T : ℝ) : ℂ) * (∫ t in (0 : ℝ)..T, g t) - ((1 / N : ℝ) : ℂ) * ∑ k ∈ Finset.range N, g (k * h)
      = ((1 / T : ℝ) : ℂ) * ∑ k ∈ Finset.range N,
          ((∫ t in ((k : ℝ) * h)..(((k + 1 : ℕ) : ℝ) * h), g t) - (h : ℂ) * g (k * h)) := by
    rw [Finset.sum_sub_distrib, ← hsum, ← Finset.mul_sum, mul_sub]
    congr 1
    rw [← mul_assoc, ← Complex.ofReal_mul, hh]
    congr 2
    field_simp
  rw [e1, norm_mul, Complex.norm_real, Real.norm_eq_abs, abs_of_pos (by positivity)]
  have h2 : ‖∑ k ∈ Finset.range N,
          ((∫ t in ((k : ℝ) * h)..(((k + 1 : ℕ) : ℝ) * h), g t) - (h : ℂ) * g (k * h))‖ ≤ N * (L * h * h) := by
    refine (norm_sum_le_of_le _ fun k _ => hk k).trans ?_
    simp
  calc _ ≤ 1 / T * (N * (L * h * h)) := mul_le_mul_of_nonneg_left h2 (by positivity)
    _ = L * T / N := by rw [hh]; field_simp

theorem sum_zmod (N : ℕ) [NeZero N] (F : ℕ → ℂ) : ∑ j : ZMod N, F j.val = ∑ k ∈ Finset.range N, F k := by
  obtain ⟨n, rfl⟩ : ∃ n, N = n + 1 := Nat.exists_eq_succ_of_ne_zero (NeZero.ne N)
  exact Fin.sum_univ_eq_sum_range F (n + 1)

/-- The discrete transform at index `m` as a sum over the samples. -/
theorem fft_samples (N : ℕ) [NeZero N] (φ : ℕ → ℝ) (m : ℤ) :
    Sim.fft (fun j : ZMod N => exp (I * φ j.val)) (m : ZMod N)
      = ∑ k ∈ Finset.range N, exp (((φ k - 2 * Real.pi * m * (k / N) : ℝ) : ℂ) * I) := by
  rw [← sum_zmod N (fun k => exp (((φ k - 2 * Real.pi * m * (k / N) : ℝ) : ℂ) * I)), Sim.fft_eq, ZMod.dft_apply]
  refine Finset.sum_congr rfl (fun j _ => ?_)
  have hj : -(j * (m : ZMod N)) = ((-(j.val * m : ℤ) : ℤ) : ZMod N) := by
    push_cast
    rw [ZMod.natCast_zmod_val]
  rw [hj, ZMod.stdAddChar_coe, smul_eq_mul, ← Complex.exp_add]
  congr 1
  push_cast
  ring

theorem amps_samples (N : ℕ) [NeZero N] (φ : ℕ → ℝ) (m : ℤ) :
    Sim.sidebandAmps (fun j : ZMod N => φ j.val) (m : ZMod N) / (N : ℝ) ^ 2
      = ‖((1 / N : ℝ) : ℂ) * ∑ k ∈ Finset.range N, exp (((φ k - 2 * Real.pi * m * (k / N) : ℝ) : ℂ) * I)‖ ^ 2 := by
  rw [← fft_samples, norm_mul, mul_pow, Complex.norm_real, Real.norm_eq_abs, sq_abs, Complex.sq_norm,
    Complex.normSq_apply]
  unfold Sim.sidebandAmps
  simp only
  ring

theorem norm_sq_near (a b : ℂ) (ha : ‖a‖ ≤ 1) (hb : ‖b‖ ≤ 1) (ε : ℝ) (h : ‖a - b‖ ≤ ε) :
    |‖b‖ ^ 2 - ‖a‖ ^ 2| ≤ 2 * ε := by
  have h1 : |‖b‖ - ‖a‖| ≤ ε := by
    rw [abs_sub_comm]
    exact (abs_norm_sub_norm_le a b).trans h
  have h2 : |‖b‖ + ‖a‖| ≤ 2 := by
    rw [abs_of_nonneg (by positivity)]
    linarith
  rw [show ‖b‖ ^ 2 - ‖a‖ ^ 2 = (‖b‖ + ‖a‖) * (‖b‖ - ‖a‖) by ring, abs_mul]
  exact mul_le_mul h2 h1 (abs_nonneg _) (by norm_num)

theorem unit_exp (x : ℝ) : ‖exp ((x : ℂ) * I)‖ = 1 := Complex.norm_exp_ofReal_mul_I x

/-- Sampling a signal of bounded frequency. -/
theorem sampled (N : ℕ) [NeZero N] (νr : ℝ) (hν : 0 < νr) (Φ ω : ℝ → ℝ)
    (hΦ : ∀ t, HasDerivAt Φ (2 * Real.pi * ω t) t) (B : ℝ) (hB : ∀ t, |ω t| ≤ B) (m : ℤ) :
    |Sim.sidebandAmps (fun j : ZMod N => Φ (j.val / (N * νr))) (m : ZMod N) / (N : ℝ) ^ 2
      - ‖(νr : ℂ) * ∫ t in (0 : ℝ)..(1 / νr), exp (((Φ t - 2 * Real.pi * m * νr * t : ℝ) : ℂ) * I)‖ ^ 2|
      ≤ 4 * Real.pi * (B / νr + |(m : ℝ)|) / N := by
  have hN : 0 < N := Nat.pos_of_ne_zero (NeZero.ne N)
  have hN' : (0 : ℝ) < N := by exact_mod_cast hN
  set ψ : ℝ → ℝ := fun t => Φ t - 2 * Real.pi * m * νr * t with hψ
  have hψ' : ∀ t, HasDerivAt ψ (2 * Real.pi * (ω t - m * νr)) t := by
    intro t
    have h := (hΦ t).sub ((hasDerivAt_id t).const_mul (2 * Real.pi * m * νr))
    rw [mul_one, show 2 * Real.pi * ω t - 2 * Real.pi * m * νr = 2 * Real.pi * (ω t - m * νr) by ring] at h
    exact h
  set g : ℝ → ℂ := fun t => exp ((ψ t : ℂ) * I) with hg
  set g' : ℝ → ℂ := fun t => exp ((ψ t : ℂ) * I) * (((2 * Real.pi * (ω t - m * νr) : ℝ) : ℂ) * I) with hg'
  have hd : ∀ t, HasDerivAt g (g' t) t := fun t =>
    (((hψ' t).ofReal_comp).mul_const I).cexp
  have hL : ∀ t, ‖g' t‖ ≤ 2 * Real.pi * (B + |(m : ℝ)| * νr) := by
    intro t
    simp only [hg', norm_mul, unit_exp, Complex.norm_real, Complex.norm_I, one_mul, mul_one, Real.norm_eq_abs]
    rw [abs_two, abs_of_pos Real.pi_pos]
    refine mul_le_mul_of_nonneg_left ?_ Real.two_pi_pos.le
    refine (abs_sub _ _).trans ?_
    rw [abs_mul, abs_of_pos hν]
    linarith [hB t]
  have hr := riemann g g' hd _ hL N hN (1 / νr) (by positivity)
  have hsum : ∑ k ∈ Finset.range N, g (k * (1 / νr / N))
      = ∑ k ∈ Finset.range N,
          exp (((Φ (k / (N * νr)) - 2 * Real.pi * m * (k / N) : ℝ) : ℂ) * I) := by
    refine Finset.sum_congr rfl (fun k _ => ?_)
    simp only [hg, hψ]
    rw [show (k : ℝ) * (1 / νr / N) = k / (N * νr) by field_simp]
    rw [show 2 * Real.pi * m * νr * (k / (N * νr)) = 2 * Real.pi * m * (k / N) by field_simp]
  rw [hsum, one_div_one_div] at hr
  rw [amps_samples N (fun k => Φ (k / (N * νr))) m]
  have b1 : ‖((νr : ℝ) : ℂ) * ∫ t in (0 : ℝ)..(1 / νr), g t‖ ≤ 1 := by
    rw [norm_mul, Complex.norm_real, Real.norm_eq_abs, abs_of_pos hν]
    have := intervalIntegral.norm_integral_le_of_norm_le_const (a := (0 : ℝ)) (b := 1 / νr) (C := 1) (f := g)
      (fun x _ => (unit_exp _).le)
    rw [sub_zero, one_mul, abs_of_pos (by positivity)] at this
    calc _ ≤ νr * (1 / νr) := mul_le_mul_of_nonneg_left this hν.le
      _ = 1 := by field_simp
  have b2 : ‖((1 / N : ℝ) : ℂ) * ∑ k ∈ Finset.range N,
          exp (((Φ (k / (N * νr)) - 2 * Real.pi * m * (k / N) : ℝ) : ℂ) * I)‖ ≤ 1 := by
    rw [norm_mul, Complex.norm_real, Real.norm_eq_abs, abs_of_pos (by positivity)]
    have : ‖∑ k ∈ Finset.range N, exp (((Φ (k / (N * νr)) - 2 * Real.pi * m * (k / N) : ℝ) : ℂ) * I)‖ ≤ N := by
      refine (norm_sum_le_of_le _ fun k _ => (unit_exp _).le).trans ?_
      simp
    calc _ ≤ 1 / (N : ℝ) * N := mul_le_mul_of_nonneg_left this (by positivity)
      _ = 1 := by field_simp
  refine (norm_sq_near _ _ b1 b2 _ hr).trans (le_of_eq ?_)
  field_simp
  ring

theorem wave_bounded (νr d : ℝ) (w : ℂ) (p τ : ℝ) : |wave νr d w p τ| ≤ 2 * |d| * (|w.re| + |w.im|) := by
  unfold wave
  rw [abs_mul, abs_mul, abs_two]
  refine mul_le_mul_of_nonneg_left ((abs_add_le _ _).trans (add_le_add ?_ ?_)) (by positivity)
  · rw [abs_mul]
    exact mul_le_of_le_one_right (abs_nonneg _) (Real.abs_cos_le_one _)
  · rw [abs_mul]
    exact mul_le_of_le_one_right (abs_nonneg _) (Real.abs_sin_le_one _)

theorem waves_bounded (W : WC) (four : Bool) (νr θ : ℝ) (w2 w4 : ℕ → ℂ) :
    ∃ B, ∀ τ, |waves W four νr θ w2 w4 τ| ≤ B := by
  refine ⟨_, fun τ => (abs_add_le _ _).trans (add_le_add ((Finset.abs_sum_le_sum_abs _ _).trans
    (Finset.sum_le_sum fun i _ => wave_bounded νr _ _ _ τ)) (?_ : _ ≤
      ∑ i ∈ Finset.range 4, 2 * |dm0Vector4 W (Real.cos θ) (Real.sin θ) i| * (|(w4 i).re| + |(w4 i).im|)))⟩
  cases four
  · simp only [Bool.false_eq_true, if_false, abs_zero]
    positivity
  · simp only [if_true]
    exact (Finset.abs_sum_le_sum_abs _ _).trans (Finset.sum_le_sum fun i _ => wave_bounded νr _ _ _ τ)

/-! ## The theorem -/

/-- C76: the amplitude that the code gives sideband `m` of a crystallite (index `m` modulo `N`, which it draws `m` rotor
frequencies from the centre, see C40), normalised by `N²`, is the squared Fourier coefficient of the signal up to an
error that decreases as `1/N`.  `B` bounds how far the momentary frequency is from its average. -/
theorem C76_sidebands_partial (four : Bool) (N : ℕ) [NeZero N] (B0 α β θ νr : ℝ) (hν : 0 < νr) (ss : List Site)
    (ks : List Coupling) (xi xf : List ℕ) (hi : Spec.IsState ss xi) (hf : Spec.IsState ss xf)
    (hs : ∀ s ∈ ss, s.Upright ∧ 1 ≤ s.n) (hk : ∀ k ∈ ks, k.Upright ∧ k.A < ss.length ∧ k.X < ss.length)
    (B : ℝ) (hB : ∀ τ, |Spec.momentary four B0 α β θ νr ss ks xi xf τ
      - Spec.average νr (Spec.momentary four B0 α β θ νr ss ks xi xf)| ≤ B) (m : ℤ) :
    |Sim.sidebandAmps (fun j : ZMod N =>
          crystalPhase WC.exact four N νr (Real.cos β) (Real.sin β) (exp (α * I)) (Real.cos θ) (Real.sin θ)
            (components WC.exact TC.exact four B0 ss ks (Spec.quantum ss xi) (Spec.quantum ss xf)) j.val)
          (m : ZMod N) / (N : ℝ) ^ 2
      - Spec.sideband νr (Spec.momentary four B0 α β θ νr ss ks xi xf) m|
      ≤ 4 * Real.pi * (B / νr + |(m : ℝ)|) / N := by
  have hN : 0 < N := Nat.pos_of_ne_zero (NeZero.ne N)
  set f := Spec.momentary four B0 α β θ νr ss ks xi xf with hfdef
  set w := waves WC.exact four νr θ
          (halfRotation WC.exact 2 (Real.cos β) (Real.sin β) (exp (α * I))
            (components WC.exact TC.exact four B0 ss ks (Spec.quantum ss xi) (Spec.quantum ss xf)).R2)
          (halfRotation WC.exact 4 (Real.cos β) (Real.sin β) (exp (α * I))
            (components WC.exact TC.exact four B0 ss ks (Spec.quantum ss xi) (Spec.quantum ss xf)).R4) with hw
  have hfw : ∀ τ, f τ - Spec.average νr f = w τ := by
    intro τ
    rw [hfdef, ← C75_average_partial four B0 α β θ νr hν ss ks xi xf hi hf hs hk,
      momentary_eq four B0 α β θ νr ss ks xi xf hi hf hs hk τ]
    ring
  have hgath : ∀ t, Spec.gathered νr f t = 2 * Real.pi * wavesInt WC.exact four νr θ
          (halfRotation WC.exact 2 (Real.cos β) (Real.sin β) (exp (α * I))
            (components WC.exact TC.exact four B0 ss ks (Spec.quantum ss xi) (Spec.quantum ss xf)).R2)
          (halfRotation WC.exact 4 (Real.cos β) (Real.sin β) (exp (α * I))
            (components WC.exact TC.exact four B0 ss ks (Spec.quantum ss xi) (Spec.quantum ss xf)).R4) t := by
    intro t
    unfold Spec.gathered
    rw [← waves_integral _ _ _ _ _ _ _ hν]
    congr 1
    exact intervalIntegral.integral_congr (fun τ _ => hfw τ)
  have hder : ∀ t, HasDerivAt (Spec.gathered νr f) (2 * Real.pi * w t) t := by
    intro t
    rw [show Spec.gathered νr f = _ from funext hgath]
    exact (wavesInt_deriv WC.exact four νr θ _ _ t hν).const_mul (2 * Real.pi)
  have h := sampled N νr hν (Spec.gathered νr f) w hder B (fun t => by rw [← hfw t]; exact hB t) m
  have hphase : (fun j : ZMod N =>
      crystalPhase WC.exact four N νr (Real.cos β) (Real.sin β) (exp (α * I)) (Real.cos θ) (Real.sin θ)
            (components WC.exact TC.exact four B0 ss ks (Spec.quantum ss xi) (Spec.quantum ss xf)) j.val)
      = fun j : ZMod N => Spec.gathered νr f (j.val / (N * νr)) := by
    funext j
    exact C75_phase_partial four N hN B0 α β θ νr hν ss ks xi xf hi hf hs hk j.val
  rw [hphase]
  exact h

/-- Such a bound always exists. -/
theorem momentary_bounded (four : Bool) (B0 α β θ νr : ℝ) (hν : 0 < νr) (ss : List Site)
    (ks : List Coupling) (xi xf : List ℕ) (hi : Spec.IsState ss xi) (hf : Spec.IsState ss xf)
    (hs : ∀ s ∈ ss, s.Upright ∧ 1 ≤ s.n) (hk : ∀ k ∈ ks, k.Upright ∧ k.A < ss.length ∧ k.X < ss.length) :
    ∃ B, ∀ τ, |Spec.momentary four B0 α β θ νr ss ks xi xf τ
      - Spec.average νr (Spec.momentary four B0 α β θ νr ss ks xi xf)| ≤ B := by
  rw [← C75_average_partial four B0 α β θ νr hν ss ks xi xf hi hf hs hk]
  have hb := waves_bounded WC.exact four νr θ
        (halfRotation WC.exact 2 (Real.cos β) (Real.sin β) (exp (α * I))
          (components WC.exact TC.exact four B0 ss ks (Spec.quantum ss xi) (Spec.quantum ss xf)).R2)
        (halfRotation WC.exact 4 (Real.cos β) (Real.sin β) (exp (α * I))
          (components WC.exact TC.exact four B0 ss ks (Spec.quantum ss xi) (Spec.quantum ss xf)).R4)
  obtain ⟨B, hB⟩ := hb
  refine ⟨B, fun τ => ?_⟩
  rw [momentary_eq four B0 α β θ νr ss ks xi xf hi hf hs hk τ, add_sub_cancel_left]
  exact hB τ

/-- So the amplitudes converge: the theorem is not about nothing. -/
theorem C76_limit_partial (four : Bool) (B0 α β θ νr : ℝ) (hν : 0 < νr) (ss : List Site)
    (ks : List Coupling) (xi xf : List ℕ) (hi : Spec.IsState ss xi) (hf : Spec.IsState ss xf)
    (hs : ∀ s ∈ ss, s.Upright ∧ 1 ≤ s.n) (hk : ∀ k ∈ ks, k.Upright ∧ k.A < ss.length ∧ k.X < ss.length) (m : ℤ) :
    Filter.Tendsto (fun n : ℕ => Sim.sidebandAmps (fun j : ZMod (n + 1) =>
          crystalPhase WC.exact four (n + 1) νr (Real.cos β) (Real.sin β) (exp (α * I)) (Real.cos θ) (Real.sin θ)
            (components WC.exact TC.exact four B0 ss ks (Spec.quantum ss xi) (Spec.quantum ss xf)) j.val)
          (m : ZMod (n + 1)) / ((n + 1 : ℕ) : ℝ) ^ 2) Filter.atTop
      (nhds (Spec.sideband νr (Spec.momentary four B0 α β θ νr ss ks xi xf) m)) := by
  obtain ⟨B, hB⟩ := momentary_bounded four B0 α β θ νr hν ss ks xi xf hi hf hs hk
  rw [tendsto_iff_dist_tendsto_zero]
  have hlim : Filter.Tendsto (fun n : ℕ => 4 * Real.pi * (B / νr + |(m : ℝ)|) * (1 / ((n : ℝ) + 1))) Filter.atTop
      (nhds 0) := by
    simpa using (tendsto_one_div_add_atTop_nhds_zero_nat (𝕜 := ℝ)).const_mul (4 * Real.pi * (B / νr + |(m : ℝ)|))
  refine squeeze_zero (fun _ => dist_nonneg) (fun n => ?_) hlim
  rw [Real.dist_eq]
  refine (C76_sidebands_partial four (n + 1) B0 α β θ νr hν ss ks xi xf hi hf hs hk B hB m).trans (le_of_eq ?_)
  push_cast
  ring

/-- The pair of `exampleSites` again. -/
example (θ : ℝ) (m : ℤ) :
    Filter.Tendsto (fun n : ℕ => Sim.sidebandAmps (fun j : ZMod (n + 1) =>
          crystalPhase WC.exact true (n + 1) 10000 (Real.cos 1) (Real.sin 1) (exp ((2 : ℝ) * I)) (Real.cos θ)
            (Real.sin θ) (components WC.exact TC.exact true 9.4 exampleSites [exampleCoupling]
              (Spec.quantum exampleSites [0, 3]) (Spec.quantum exampleSites [0, 2])) j.val)
          (m : ZMod (n + 1)) / ((n + 1 : ℕ) : ℝ) ^ 2) Filter.atTop
      (nhds (Spec.sideband 10000 (Spec.momentary true 9.4 2 1 θ 10000 exampleSites [exampleCoupling] [0, 3] [0, 2]) m)) := by
  apply C76_limit_partial
  · norm_num
  · unfold Spec.IsState exampleSites
    simp
  · unfold Spec.IsState exampleSites
    simp
  · unfold exampleSites Site.Upright
    intro s hs
    simp only [List.mem_cons, List.not_mem_nil, or_false] at hs
    rcases hs with rfl | rfl <;> norm_num
  · unfold exampleSites exampleCoupling Coupling.Upright
    intro k hk
    simp only [List.mem_cons, List.not_mem_nil, or_false] at hk
    subst hk
    norm_num

end MRS.Freq
