import Verif.Freq.Sidebands
import Verif.Freq.Octants

/-!
# Sidebands of opposite directions (lemmas)

A crystallite upside down sees the same frequencies in the reverse order, so that its sidebands have the same intensities; the
hemisphere over which the code averages stands for the sphere under spinning too.
-/

namespace MRS.Freq

open Complex ComplexConjugate Matrix

set_option maxHeartbeats 1000000 in
theorem wHalf_inversion (K : WC) (l : ℕ) (hl : l = 2 ∨ l = 4) (c s : ℝ) (i j : ℕ) (hi : i ≤ l) (hj : j ≤ 2 * l) :
    wHalf K l (-c) s ((2 * l + 1) * i + j) = (-1) ^ i * wHalf K l c s ((2 * l + 1) * i + (2 * l - j)) := by
  rcases hl with rfl | rfl
  · simp only [wHalf, if_true]
    interval_cases i <;> interval_cases j <;> simp only [Nat.reduceMul, Nat.reduceAdd, Nat.reduceSub, wigner2jHalf] <;> ring
  · simp only [wHalf, if_true, show (4 : ℕ) ≠ 2 by norm_num, if_false]
    interval_cases i <;> interval_cases j <;> simp only [Nat.reduceMul, Nat.reduceAdd, Nat.reduceSub, wigner4jHalf, wigner4jHalfT] <;> ring

theorem phasedHalf_inversion (l : ℕ) (e : ℂ) (R : ℕ → ℂ) (hR : Spec.IsReal l R) (j : ℕ) (hj : j ≤ 2 * l) :
    phasedHalf l (-e) R (2 * l - j) = conj (phasedHalf l e R j) := by
  unfold phasedHalf
  rcases lt_trichotomy j l with h | h | h
  · rw [if_neg (by omega), if_pos h.le, show 2 * l - (2 * l - j) = j by omega, show 2 * l - j - l = l - j by omega, neg_pow e, map_mul, map_mul,
      map_mul, map_pow, map_pow, map_neg, map_one]
    have : ((-1 : ℂ) ^ (l - j)) * (-1) ^ (l - j) = 1 := by rw [← mul_pow]; norm_num
    linear_combination (conj (R j) * conj e ^ (l - j)) * this
  · subst h
    have := hR j (by omega)
    rw [show 2 * j - j = j by omega, ← two_mul, pow_mul] at this
    norm_num at this
    rw [show 2 * j - j = j by omega, if_pos le_rfl, if_pos le_rfl, Nat.sub_self, pow_zero, pow_zero, mul_one]
    exact this
  · rw [if_pos (by omega), if_neg (by omega), show l - (2 * l - j) = j - l by omega, neg_pow, map_mul, Complex.conj_conj, map_pow, map_neg, map_one]
    ring

/-- The components of the crystallite upside down. -/
theorem halfRotation_inversion (K : WC) (l : ℕ) (hl : l = 2 ∨ l = 4) (c s : ℝ) (e : ℂ) (R : ℕ → ℂ) (hR : Spec.IsReal l R) (i : ℕ) (hi : i ≤ l) :
    halfRotation K l (-c) s (-e) R i = (-1) ^ i * conj (halfRotation K l c s e R i) := by
  unfold halfRotation
  rw [← Finset.sum_range_reflect, map_sum, Finset.mul_sum]
  refine Finset.sum_congr rfl fun j hj => ?_
  have hj' : j ≤ 2 * l := by have := Finset.mem_range.mp hj; omega
  rw [show 2 * l + 1 - 1 - j = 2 * l - j by omega, wHalf_inversion K l hl c s i _ hi (by omega), phasedHalf_inversion l e R hR j hj',
    show 2 * l - (2 * l - j) = j by omega, map_mul, Complex.conj_ofReal]
  push_cast
  ring

theorem wave_reverse (νr : ℝ) (hν : 0 < νr) (d : ℝ) (w : ℂ) (i p : ℕ) (hip : i % 2 = p % 2) (τ : ℝ) :
    wave νr d ((-1) ^ i * conj w) p τ = wave νr d w p (1 / (2 * νr) - τ) := by
  have e : (p : ℝ) * (2 * Real.pi * νr) * (1 / (2 * νr) - τ) = p * Real.pi - p * (2 * Real.pi * νr) * τ := by
    field_simp
  have hs : ((-1 : ℂ) ^ i) = (((-1 : ℝ) ^ p : ℝ) : ℂ) := by
    rw [neg_one_pow_eq_pow_mod_two, hip, ← neg_one_pow_eq_pow_mod_two]
    push_cast
    rfl
  unfold wave
  rw [e, Real.cos_sub, Real.sin_sub, Real.cos_nat_mul_pi, Real.sin_nat_mul_pi, hs, Complex.re_ofReal_mul, Complex.im_ofReal_mul,
    Complex.conj_re, Complex.conj_im]
  ring

/-- Upside down, the frequency goes through the same values in the reverse order. -/
theorem momentary_inversion (four : Bool) (B0 α β θ νr : ℝ) (hν : 0 < νr) (ss : List Site) (ks : List Coupling) (xi xf : List ℕ)
    (hi : Spec.IsState ss xi) (hf : Spec.IsState ss xf) (hs : ∀ s ∈ ss, s.Upright ∧ 1 ≤ s.n)
    (hk : ∀ k ∈ ks, k.Upright ∧ k.A < ss.length ∧ k.X < ss.length) (τ : ℝ) :
    Spec.momentary four B0 (α + Real.pi) (Real.pi - β) θ νr ss ks xi xf τ
      = Spec.momentary four B0 α β θ νr ss ks xi xf (1 / (2 * νr) - τ) := by
  have hr := components_real WC.exact TC.exact four B0 ss ks (Spec.quantum ss xi) (Spec.quantum ss xf)
  rw [momentary_eq four B0 _ _ θ νr ss ks xi xf hi hf hs hk, momentary_eq four B0 α β θ νr ss ks xi xf hi hf hs hk]
  set t := components WC.exact TC.exact four B0 ss ks (Spec.quantum ss xi) (Spec.quantum ss xf)
  have he : exp (((α + Real.pi : ℝ) : ℂ) * I) = -exp (α * I) := by
    push_cast
    rw [add_mul, Complex.exp_add, Complex.exp_pi_mul_I]
    ring
  rw [he, Real.cos_pi_sub, Real.sin_pi_sub, localFreq_inversion]
  congr 1
  unfold waves
  congr 1
  · refine Finset.sum_congr rfl fun i hi => ?_
    have := Finset.mem_range.mp hi
    rw [halfRotation_inversion _ 2 (Or.inl rfl) _ _ _ _ hr.1 i (by omega), wave_reverse νr hν _ _ i (2 - i) (by omega)]
  · cases four
    · rfl
    · simp only [if_true]
      refine Finset.sum_congr rfl fun i hi => ?_
      have := Finset.mem_range.mp hi
      rw [halfRotation_inversion _ 4 (Or.inr rfl) _ _ _ _ hr.2 i (by omega), wave_reverse νr hν _ _ i (4 - i) (by omega)]

theorem wave_period (νr : ℝ) (hν : 0 < νr) (d : ℝ) (w : ℂ) (p : ℕ) (τ : ℝ) : wave νr d w p (τ + 1 / νr) = wave νr d w p τ := by
  have e : (p : ℝ) * (2 * Real.pi * νr) * (τ + 1 / νr) = p * (2 * Real.pi * νr) * τ + p * (2 * Real.pi) := by
    field_simp
  unfold wave
  rw [e, Real.cos_add_nat_mul_two_pi, Real.sin_add_nat_mul_two_pi]

theorem momentary_facts (four : Bool) (B0 α β θ νr : ℝ) (hν : 0 < νr) (ss : List Site) (ks : List Coupling) (xi xf : List ℕ)
    (hi : Spec.IsState ss xi) (hf : Spec.IsState ss xf) (hs : ∀ s ∈ ss, s.Upright ∧ 1 ≤ s.n)
    (hk : ∀ k ∈ ks, k.Upright ∧ k.A < ss.length ∧ k.X < ss.length) :
    Continuous (Spec.momentary four B0 α β θ νr ss ks xi xf) ∧
      Function.Periodic (Spec.momentary four B0 α β θ νr ss ks xi xf) (1 / νr) := by
  have e := funext (momentary_eq four B0 α β θ νr ss ks xi xf hi hf hs hk)
  rw [e]
  refine ⟨continuous_const.add (waves_continuous _ _ _ _ _ _), fun τ => ?_⟩
  unfold waves
  simp only [wave_period νr hν]

theorem gathered_period (νr : ℝ) (hν : 0 < νr) (f : ℝ → ℝ) (hf : Continuous f) (hp : Function.Periodic f (1 / νr)) :
    Function.Periodic (Spec.gathered νr f) (1 / νr) := by
  intro t
  have hc : Continuous fun τ => f τ - Spec.average νr f := hf.sub continuous_const
  have hp' : Function.Periodic (fun τ => f τ - Spec.average νr f) (1 / νr) := fun τ => by simp only [hp τ]
  have h0 : ∫ τ in (0 : ℝ)..(1 / νr), (f τ - Spec.average νr f) = 0 := by
    rw [intervalIntegral.integral_sub (hf.intervalIntegrable _ _) (by simp), intervalIntegral.integral_const]
    unfold Spec.average
    rw [sub_zero, smul_eq_mul, ← mul_assoc, one_div_mul_cancel hν.ne', one_mul, sub_self]
  unfold Spec.gathered
  rw [← intervalIntegral.integral_add_adjacent_intervals (hc.intervalIntegrable 0 t) (hc.intervalIntegrable t _),
    hp'.intervalIntegral_add_eq t 0, zero_add, h0, add_zero]

/-- The sidebands of a signal that runs backwards. -/
theorem sideband_reverse (νr : ℝ) (hν : 0 < νr) (f : ℝ → ℝ) (hf : Continuous f) (hp : Function.Periodic f (1 / νr)) (s : ℝ) (m : ℤ) :
    Spec.average νr (fun τ => f (s - τ)) = Spec.average νr f ∧
    Spec.sideband νr (fun τ => f (s - τ)) m = Spec.sideband νr f m := by
  have hav : Spec.average νr (fun τ => f (s - τ)) = Spec.average νr f := by
    unfold Spec.average
    rw [intervalIntegral.integral_comp_sub_left f s, sub_zero]
    have := hp.intervalIntegral_add_eq (s - 1 / νr) 0
    rw [sub_add_cancel, zero_add] at this
    rw [this]
  refine ⟨hav, ?_⟩
  have hc : Continuous fun τ => f τ - Spec.average νr f := hf.sub continuous_const
  have hg : ∀ t, Spec.gathered νr (fun τ => f (s - τ)) t = Spec.gathered νr f s - Spec.gathered νr f (s - t) := by
    intro t
    unfold Spec.gathered
    rw [hav, intervalIntegral.integral_comp_sub_left (fun τ => f τ - Spec.average νr f) s, sub_zero, ← mul_sub,
      intervalIntegral.integral_interval_sub_left (hc.intervalIntegrable _ _) (hc.intervalIntegrable _ _)]
  have hG := gathered_period νr hν f hf hp
  set F : ℝ → ℂ := fun t => exp (((Spec.gathered νr f t - 2 * Real.pi * m * νr * t : ℝ) : ℂ) * I) with hF
  have hFp : Function.Periodic F (1 / νr) := by
    intro t
    simp only [hF]
    rw [hG t]
    have e : ((Spec.gathered νr f t - 2 * Real.pi * m * νr * (t + 1 / νr) : ℝ) : ℂ) * I
        = ((Spec.gathered νr f t - 2 * Real.pi * m * νr * t : ℝ) : ℂ) * I + ((-m : ℤ) : ℂ) * (2 * Real.pi * I) := by
      have : (νr : ℂ) ≠ 0 := by exact_mod_cast hν.ne'
      push_cast
      field_simp
      ring
    rw [e, Complex.exp_add, Complex.exp_int_mul_two_pi_mul_I, mul_one]
  have hint : ∫ t in (0 : ℝ)..(1 / νr), exp (((Spec.gathered νr (fun τ => f (s - τ)) t - 2 * Real.pi * m * νr * t : ℝ) : ℂ) * I)
      = exp (((Spec.gathered νr f s - 2 * Real.pi * m * νr * s : ℝ) : ℂ) * I) * conj (∫ t in (0 : ℝ)..(1 / νr), F t) := by
    have e1 : ∀ t, exp (((Spec.gathered νr (fun τ => f (s - τ)) t - 2 * Real.pi * m * νr * t : ℝ) : ℂ) * I)
        = exp (((Spec.gathered νr f s - 2 * Real.pi * m * νr * s : ℝ) : ℂ) * I) * conj (F (s - t)) := by
      intro t
      simp only [hF]
      rw [← Complex.exp_conj, ← Complex.exp_add, hg t, map_mul, Complex.conj_I, Complex.conj_ofReal]
      congr 1
      push_cast
      ring
    simp only [e1]
    rw [intervalIntegral.integral_const_mul, intervalIntegral.integral_comp_sub_left (fun u => conj (F u)) s, sub_zero]
    have := (hFp.comp conj).intervalIntegral_add_eq (s - 1 / νr) 0
    rw [sub_add_cancel, zero_add] at this
    simp only [Function.comp_def] at this
    rw [this]
    congr 1
    rw [intervalIntegral.integral_of_le (by positivity), intervalIntegral.integral_of_le (by positivity)]
    exact integral_conj
  unfold Spec.sideband
  rw [hint, norm_mul, norm_mul, norm_mul, unit_exp, one_mul, Complex.norm_conj]

/-- Opposite directions have the same average frequency and the same sidebands. -/
theorem spun_inversion (four : Bool) (B0 α β θ νr : ℝ) (hν : 0 < νr) (ss : List Site) (ks : List Coupling) (xi xf : List ℕ)
    (hi : Spec.IsState ss xi) (hf : Spec.IsState ss xf) (hs : ∀ s ∈ ss, s.Upright ∧ 1 ≤ s.n)
    (hk : ∀ k ∈ ks, k.Upright ∧ k.A < ss.length ∧ k.X < ss.length) (m : ℤ) :
    Spec.average νr (Spec.momentary four B0 (α + Real.pi) (Real.pi - β) θ νr ss ks xi xf)
        = Spec.average νr (Spec.momentary four B0 α β θ νr ss ks xi xf) ∧
    Spec.sideband νr (Spec.momentary four B0 (α + Real.pi) (Real.pi - β) θ νr ss ks xi xf) m
        = Spec.sideband νr (Spec.momentary four B0 α β θ νr ss ks xi xf) m := by
  obtain ⟨h1, h2⟩ := momentary_facts four B0 α β θ νr hν ss ks xi xf hi hf hs hk
  rw [show Spec.momentary four B0 (α + Real.pi) (Real.pi - β) θ νr ss ks xi xf = _ from
    funext (momentary_inversion four B0 α β θ νr hν ss ks xi xf hi hf hs hk)]
  exact sideband_reverse νr hν _ h1 h2 _ m

end MRS.Freq
