import Verif.Freq.SharpLine
import Verif.Freq.Inversion
import Verif.Freq.Pole
import Mathlib.MeasureTheory.Integral.Prod
import Mathlib.MeasureTheory.Integral.IntervalIntegral.Periodic

/-!
# The powder pattern — property C88
-/

namespace MRS.Freq

open Complex ComplexConjugate MeasureTheory Filter Topology

/-! ## Specification -/

/-- The mean over all directions, in polar angles `(α, β)`. -/
noncomputable def Spec.sphereMean (g : ℝ × ℝ → ℝ) : ℝ :=
  1 / (4 * Real.pi) * ∫ p in Set.Ioo 0 (2 * Real.pi) ×ˢ Set.Ioo 0 Real.pi, Real.sin p.2 * g p

/-! ## Octants, hemisphere and sphere -/

/-- The mean over the directions of the upper hemisphere, in polar angles `(α, β)`. -/
noncomputable def hemisphereMean (g : ℝ × ℝ → ℝ) : ℝ :=
  1 / (2 * Real.pi) * ∫ p in Set.Ioo 0 (2 * Real.pi) ×ˢ Set.Ioo 0 (Real.pi / 2), Real.sin p.2 * g p

theorem box_integrable (g : ℝ × ℝ → ℝ) (hm : Measurable g) (C : ℝ) (hC : ∀ p, |g p| ≤ C) (a b c d : ℝ) :
    IntegrableOn (fun p : ℝ × ℝ => Real.sin p.2 * g p) (Set.Ioo a b ×ˢ Set.Ioo c d) (volume.prod volume) := by
  refine Measure.integrableOn_of_bounded (M := C) ?_ ?_ ?_
  · rw [Measure.prod_prod, Real.volume_Ioo, Real.volume_Ioo]
    exact ENNReal.mul_ne_top ENNReal.ofReal_ne_top ENNReal.ofReal_ne_top
  · exact ((Real.measurable_sin.comp measurable_snd).mul hm).aestronglyMeasurable
  · refine Eventually.of_forall fun p => ?_
    rw [Real.norm_eq_abs, abs_mul]
    exact (mul_le_of_le_one_left (abs_nonneg _) (Real.abs_sin_le_one _)).trans (hC p)

/-- Integrals over a box, one variable after the other. -/
theorem box_iterated (g : ℝ × ℝ → ℝ) (hm : Measurable g) (C : ℝ) (hC : ∀ p, |g p| ≤ C) (a b c d : ℝ) (hab : a ≤ b) :
    ∫ p in Set.Ioo a b ×ˢ Set.Ioo c d, Real.sin p.2 * g p
      = ∫ α in a..b, ∫ β in Set.Ioo c d, Real.sin β * g (α, β) := by
  rw [intervalIntegral.integral_of_le hab, integral_Ioc_eq_integral_Ioo, Measure.volume_eq_prod,
    setIntegral_prod _ (box_integrable g hm C hC a b c d)]

theorem box_swapped (g : ℝ × ℝ → ℝ) (a b c d : ℝ) (hab : a ≤ b) (hcd : c ≤ d)
    (h : IntegrableOn (fun p : ℝ × ℝ => Real.sin p.2 * g p) (Set.Ioo a b ×ˢ Set.Ioo c d) (volume.prod volume)) :
    ∫ p in Set.Ioo a b ×ˢ Set.Ioo c d, Real.sin p.2 * g p
      = ∫ β in c..d, Real.sin β * ∫ α in a..b, g (α, β) := by
  rw [intervalIntegral.integral_of_le hcd, integral_Ioc_eq_integral_Ioo, Measure.volume_eq_prod]
  unfold IntegrableOn at h
  rw [← Measure.prod_restrict] at h ⊢
  rw [integral_prod_symm _ h]
  refine integral_congr_ae (Eventually.of_forall fun β => ?_)
  dsimp only
  rw [integral_const_mul, intervalIntegral.integral_of_le hab, integral_Ioc_eq_integral_Ioo]

theorem box_iterated' (g : ℝ × ℝ → ℝ) (hm : Measurable g) (C : ℝ) (hC : ∀ p, |g p| ≤ C) (a b c d : ℝ) (hab : a ≤ b)
    (hcd : c ≤ d) :
    ∫ p in Set.Ioo a b ×ˢ Set.Ioo c d, Real.sin p.2 * g p
      = ∫ β in c..d, Real.sin β * ∫ α in a..b, g (α, β) :=
  box_swapped g a b c d hab hcd (box_integrable g hm C hC a b c d)

theorem inner_integrable (g : ℝ × ℝ → ℝ) (hm : Measurable g) (C : ℝ) (hC : ∀ p, |g p| ≤ C) (c d a b : ℝ) :
    IntervalIntegrable (fun α => ∫ β in Set.Ioo c d, Real.sin β * g (α, β)) volume a b := by
  have key : ∀ a b : ℝ, IntegrableOn (fun α => ∫ β in Set.Ioo c d, Real.sin β * g (α, β)) (Set.Ioc a b) := by
    intro a b
    rw [integrableOn_Ioc_iff_integrableOn_Ioo]
    have h := box_integrable g hm C hC a b c d
    unfold IntegrableOn at h
    rw [← Measure.prod_restrict] at h
    exact h.integral_prod_left
  exact ⟨key a b, key b a⟩

theorem inner_integrable' (g : ℝ × ℝ → ℝ) (hm : Measurable g) (C : ℝ) (hC : ∀ p, |g p| ≤ C) (a b : ℝ) (hab : a ≤ b) (c d : ℝ) :
    IntervalIntegrable (fun β => Real.sin β * ∫ α in a..b, g (α, β)) volume c d := by
  have key : ∀ c d : ℝ, IntegrableOn (fun β => Real.sin β * ∫ α in a..b, g (α, β)) (Set.Ioc c d) := by
    intro c d
    rw [integrableOn_Ioc_iff_integrableOn_Ioo]
    have h := box_integrable g hm C hC a b c d
    unfold IntegrableOn at h
    rw [← Measure.prod_restrict] at h
    refine h.integral_prod_right.congr (Eventually.of_forall fun β => ?_)
    dsimp only
    rw [integral_const_mul, intervalIntegral.integral_of_le hab, integral_Ioc_eq_integral_Ioo]
  exact ⟨key c d, key d c⟩

/-- The four octants make up the hemisphere. -/
theorem octantMean_four (g : ℝ × ℝ → ℝ) (hm : Measurable g) (C : ℝ) (hC : ∀ p, |g p| ≤ C)
    (hper : ∀ p : ℝ × ℝ, g (p.1 + 2 * Real.pi, p.2) = g p) : Spec.octantMean 4 g = hemisphereMean g := by
  have hpi := Real.pi_pos
  set H : ℝ → ℝ := fun α => ∫ β in Set.Ioo 0 (Real.pi / 2), Real.sin β * g (α, β) with hH
  have hHp : Function.Periodic H (2 * Real.pi) := by
    intro α
    simp only [hH]
    refine integral_congr_ae (Eventually.of_forall fun β => ?_)
    dsimp only
    rw [hper (α, β)]
  have hq : ∀ j : ℕ, ∫ p in Bin.octant, Real.sin p.2 * g (qturn j p)
      = ∫ α in (0 - j * (Real.pi / 2))..(Real.pi / 2 - j * (Real.pi / 2)), H α := by
    intro j
    have hqm : Measurable (qturn j) := by unfold qturn; fun_prop
    unfold Bin.octant
    rw [box_iterated (fun p => g (qturn j p)) (hm.comp hqm) C (fun p => hC _) 0 (Real.pi / 2) 0 (Real.pi / 2) (by positivity)]
    rw [← intervalIntegral.integral_comp_sub_right H (j * (Real.pi / 2))]
    rfl
  have hint := inner_integrable g hm C hC 0 (Real.pi / 2)
  unfold Spec.octantMean hemisphereMean
  rw [box_iterated g hm C hC 0 (2 * Real.pi) 0 (Real.pi / 2) (by positivity)]
  simp only [hq, Finset.sum_range_succ, Finset.sum_range_zero]
  have e := hHp.intervalIntegral_add_eq (-(3 * Real.pi / 2)) 0
  rw [zero_add] at e
  change _ = 1 / (2 * Real.pi) * ∫ α in (0)..(2 * Real.pi), H α
  rw [← e]
  have s3 := intervalIntegral.integral_add_adjacent_intervals (hint (-(3 * Real.pi / 2)) (-Real.pi)) (hint (-Real.pi) (-(Real.pi / 2)))
  have s2 := intervalIntegral.integral_add_adjacent_intervals (hint (-(3 * Real.pi / 2)) (-(Real.pi / 2))) (hint (-(Real.pi / 2)) 0)
  have s1 := intervalIntegral.integral_add_adjacent_intervals (hint (-(3 * Real.pi / 2)) 0) (hint 0 (Real.pi / 2))
  rw [show -(3 * Real.pi / 2) + 2 * Real.pi = Real.pi / 2 by ring, ← s1, ← s2, ← s3]
  push_cast
  rw [show (0 : ℝ) - 0 * (Real.pi / 2) = 0 by ring, show Real.pi / 2 - 0 * (Real.pi / 2) = Real.pi / 2 by ring,
    show (0 : ℝ) - 1 * (Real.pi / 2) = -(Real.pi / 2) by ring, show Real.pi / 2 - 1 * (Real.pi / 2) = 0 by ring,
    show (0 : ℝ) - 2 * (Real.pi / 2) = -Real.pi by ring, show Real.pi / 2 - 2 * (Real.pi / 2) = -(Real.pi / 2) by ring,
    show (0 : ℝ) - 3 * (Real.pi / 2) = -(3 * Real.pi / 2) by ring, show Real.pi / 2 - 3 * (Real.pi / 2) = -Real.pi by ring]
  field_simp
  ring

/-- What is the same in opposite directions has the same mean over the hemisphere as over the sphere. -/
theorem hemisphere_sphere (g : ℝ × ℝ → ℝ) (hm : Measurable g) (C : ℝ) (hC : ∀ p, |g p| ≤ C)
    (hper : ∀ p : ℝ × ℝ, g (p.1 + 2 * Real.pi, p.2) = g p) (hinv : ∀ p : ℝ × ℝ, g (p.1 + Real.pi, Real.pi - p.2) = g p) :
    hemisphereMean g = Spec.sphereMean g := by
  have hpi := Real.pi_pos
  set K : ℝ → ℝ := fun β => Real.sin β * ∫ α in (0)..(2 * Real.pi), g (α, β) with hK
  have hint := inner_integrable' g hm C hC 0 (2 * Real.pi) (by positivity)
  have hsym : ∀ β, K (Real.pi - β) = K β := by
    intro β
    simp only [hK, Real.sin_pi_sub]
    congr 1
    have hp : Function.Periodic (fun α => g (α, Real.pi - β)) (2 * Real.pi) := fun α => hper (α, _)
    have e := hp.intervalIntegral_add_eq 0 Real.pi
    rw [zero_add] at e
    rw [e, show Real.pi + 2 * Real.pi = 2 * Real.pi + Real.pi by ring]
    conv_lhs => rw [← zero_add Real.pi]
    have := intervalIntegral.integral_comp_add_right (a := 0) (b := 2 * Real.pi) (fun α => g (α, Real.pi - β)) Real.pi
    rw [zero_add] at this ⊢
    rw [← this]
    refine intervalIntegral.integral_congr fun α _ => ?_
    exact hinv (α, β)
  unfold hemisphereMean Spec.sphereMean
  rw [box_iterated' g hm C hC _ _ _ _ (by positivity) (by positivity), box_iterated' g hm C hC _ _ _ _ (by positivity) (by positivity)]
  change _ * (∫ β in (0)..(Real.pi / 2), K β) = _ * (∫ β in (0)..Real.pi, K β)
  rw [← intervalIntegral.integral_add_adjacent_intervals (hint 0 (Real.pi / 2)) (hint (Real.pi / 2) Real.pi)]
  have e : ∫ β in (Real.pi / 2)..Real.pi, K β = ∫ β in (0)..(Real.pi / 2), K β := by
    have h := intervalIntegral.integral_comp_sub_left (a := 0) (b := Real.pi / 2) K Real.pi
    rw [sub_zero, sub_half] at h
    rw [← h]
    exact intervalIntegral.integral_congr fun β _ => hsym β
  change _ = _ * ((∫ β in (0)..(Real.pi / 2), K β) + ∫ β in (Real.pi / 2)..Real.pi, K β)
  rw [e]
  field_simp
  ring

/-! ## Symmetries -/

theorem dirFreq_period (W : WC) (four : Bool) (cθ sθ : ℝ) (t : Tens) (p : ℝ × ℝ) :
    dirFreq W four cθ sθ t (p.1 + 2 * Real.pi, p.2) = dirFreq W four cθ sθ t p := by
  unfold dirFreq
  dsimp only
  push_cast
  rw [add_mul, Complex.exp_add, Complex.exp_two_pi_mul_I, mul_one]

theorem dirAmp_period (W : WC) (four : Bool) (N : ℕ) [NeZero N] (νr cθ sθ : ℝ) (t : Tens) (s : ℕ) (p : ℝ × ℝ) :
    dirAmp W four N νr cθ sθ t s (p.1 + 2 * Real.pi, p.2) = dirAmp W four N νr cθ sθ t s p := by
  unfold dirAmp
  dsimp only
  push_cast
  rw [add_mul, Complex.exp_add, Complex.exp_two_pi_mul_I, mul_one]

theorem dirFreq_inversion (W : WC) (four : Bool) (cθ sθ : ℝ) (t : Tens) (p : ℝ × ℝ) :
    dirFreq W four cθ sθ t (p.1 + Real.pi, Real.pi - p.2) = dirFreq W four cθ sθ t p := by
  unfold dirFreq
  dsimp only
  push_cast
  rw [add_mul, Complex.exp_add, Complex.exp_pi_mul_I, mul_neg_one, Real.cos_pi_sub, Real.sin_pi_sub, localFreq_inversion]

theorem dirAmp_bounds (W : WC) (four : Bool) (N : ℕ) [NeZero N] (νr cθ sθ : ℝ) (t : Tens) (s : ℕ) (p : ℝ × ℝ) :
    0 ≤ dirAmp W four N νr cθ sθ t s p ∧ dirAmp W four N νr cθ sθ t s p ≤ 1 := by
  have hN0 : (0 : ℝ) < N := Nat.cast_pos.mpr (Nat.pos_of_ne_zero (NeZero.ne N))
  unfold dirAmp
  split_ifs
  · norm_num
  · obtain ⟨h1, h2⟩ := sidebandAmps_bounds (fun k : ZMod N =>
      crystalPhase W four N νr (Real.cos p.2) (Real.sin p.2) (exp (p.1 * I)) cθ sθ t k.val) (s : ZMod N)
    exact ⟨by positivity, (div_le_one (by positivity)).mpr h2⟩

/-- The share of a bin: the amplitude of the directions whose line is in it. -/
noncomputable def share (pos amp : ℝ × ℝ → ℝ) (k : ℤ) (p : ℝ × ℝ) : ℝ :=
  if (k : ℝ) ≤ pos p ∧ pos p < k + 1 then amp p else 0

theorem share_measurable (pos amp : ℝ × ℝ → ℝ) (k : ℤ) (hp : Measurable pos) (ha : Measurable amp) : Measurable (share pos amp k) := by
  unfold share
  refine Measurable.ite ?_ ha measurable_const
  exact (measurableSet_le measurable_const hp).inter (measurableSet_lt hp measurable_const)

theorem share_bounded (pos amp : ℝ × ℝ → ℝ) (k : ℤ) (h : ∀ p, 0 ≤ amp p ∧ amp p ≤ 1) (p : ℝ × ℝ) : |share pos amp k p| ≤ 1 := by
  unfold share
  split_ifs
  · rw [abs_of_nonneg (h p).1]
    exact (h p).2
  · norm_num

/-! ## The isotropic frequency -/

theorem phase_integral (l : ℕ) (R : ℕ → ℂ) (j : ℕ) :
    ∫ α in (0 : ℝ)..(2 * Real.pi), phasedHalf l (exp (α * I)) R j = if j = l then 2 * Real.pi * R l else 0 := by
  have h0 : ∀ m : ℕ, m ≠ 0 → ∫ α in (0 : ℝ)..(2 * Real.pi), exp (α * I) ^ m = 0 := by
    intro m hm
    have hm' : (m : ℂ) * I ≠ 0 := mul_ne_zero (Nat.cast_ne_zero.mpr hm) I_ne_zero
    have e : (fun α : ℝ => exp (α * I) ^ m) = fun α : ℝ => exp ((m : ℂ) * I * α) := by
      funext α
      rw [← Complex.exp_nat_mul]
      ring_nf
    rw [e, integral_exp_mul_complex hm']
    have : exp ((m : ℂ) * I * ((2 * Real.pi : ℝ) : ℂ)) = 1 := by
      rw [show (m : ℂ) * I * ((2 * Real.pi : ℝ) : ℂ) = m * (2 * Real.pi * I) by push_cast; ring]
      exact Complex.exp_nat_mul_two_pi_mul_I m
    rw [this]
    simp
  unfold phasedHalf
  by_cases hj : j ≤ l
  · simp only [if_pos hj]
    rw [intervalIntegral.integral_const_mul]
    by_cases hjl : j = l
    · subst hjl
      simp
      ring
    · rw [if_neg hjl, h0 _ (by omega), mul_zero]
  · simp only [if_neg hj]
    rw [if_neg (by omega), intervalIntegral.integral_const_mul]
    simp only [map_mul]
    rw [intervalIntegral.integral_const_mul]
    have e : ∫ α in (0 : ℝ)..(2 * Real.pi), conj (exp (α * I) ^ (j - l))
        = conj (∫ α in (0 : ℝ)..(2 * Real.pi), exp (α * I) ^ (j - l)) := by
      exact Complex.conjCLE.toContinuousLinearMap.intervalIntegral_comp_comm
        ((by fun_prop : Continuous fun α : ℝ => exp (α * I) ^ (j - l)).intervalIntegrable _ _)
    rw [e, h0 _ (by omega)]
    simp

theorem half_continuous (W : WC) (l : ℕ) (c s : ℝ) (R : ℕ → ℂ) (i : ℕ) :
    Continuous fun α : ℝ => halfRotation W l c s (exp (α * I)) R i := by
  unfold halfRotation phasedHalf
  refine continuous_finsetSum _ fun j _ => ?_
  split_ifs <;> fun_prop

theorem half_integral (W : WC) (l : ℕ) (c s : ℝ) (R : ℕ → ℂ) (i : ℕ) :
    ∫ α in (0 : ℝ)..(2 * Real.pi), halfRotation W l c s (exp (α * I)) R i
      = 2 * Real.pi * (wHalf W l c s ((2 * l + 1) * i + l) * R l) := by
  unfold halfRotation
  rw [intervalIntegral.integral_finsetSum]
  · simp only [intervalIntegral.integral_const_mul, phase_integral]
    rw [Finset.sum_eq_single l]
    · simp
      ring
    · intro j _ hj
      rw [if_neg hj, mul_zero]
    · intro h
      exact absurd (Finset.mem_range.mpr (by omega)) h
  · intro j _
    refine Continuous.intervalIntegrable ?_ _ _
    unfold phasedHalf
    split_ifs <;> fun_prop

theorem dirFreq_mean (W : WC) (four : Bool) (cθ sθ : ℝ) (t : Tens) : Spec.sphereMean (dirFreq W four cθ sθ t) = t.R0 := by
  have hpi := Real.pi_pos
  have hc := dirFreq_continuous W four cθ sθ t
  have hin : ∀ β : ℝ, ∫ α in (0 : ℝ)..(2 * Real.pi), dirFreq W four cθ sθ t (α, β)
      = 2 * Real.pi * (t.R0 + dm0Vector2 W cθ sθ 2 * (t.R2 2).re * (3 / 2 * Real.cos β ^ 2 - 1 / 2)
        + (if four then dm0Vector4 W cθ sθ 4 * (t.R4 4).re else 0) * (3 / 8 - 15 / 4 * Real.cos β ^ 2 + 35 / 8 * Real.cos β ^ 4)) := by
    intro β
    have hre : ∀ (l : ℕ) (R : ℕ → ℂ) (i : ℕ),
        ∫ α in (0 : ℝ)..(2 * Real.pi), (halfRotation W l (Real.cos β) (Real.sin β) (exp (α * I)) R i).re
        = 2 * Real.pi * (wHalf W l (Real.cos β) (Real.sin β) ((2 * l + 1) * i + l) * (R l).re) := by
      intro l R i
      have h := Complex.reCLM.intervalIntegral_comp_comm
        ((half_continuous W l (Real.cos β) (Real.sin β) R i).intervalIntegrable (μ := volume) 0 (2 * Real.pi))
      rw [half_integral] at h
      refine h.trans ?_
      rw [show (2 * (Real.pi : ℂ) * (wHalf W l (Real.cos β) (Real.sin β) ((2 * l + 1) * i + l) * R l))
        = ((2 * Real.pi * wHalf W l (Real.cos β) (Real.sin β) ((2 * l + 1) * i + l) : ℝ) : ℂ) * R l by push_cast; ring]
      rw [Complex.reCLM_apply, Complex.re_ofReal_mul]
      ring
    have hi : ∀ (l : ℕ) (R : ℕ → ℂ) (i : ℕ) (x : ℝ),
        IntervalIntegrable (fun α : ℝ => x * (halfRotation W l (Real.cos β) (Real.sin β) (exp (α * I)) R i).re) volume 0 (2 * Real.pi) :=
      fun l R i x => (continuous_const.mul (Complex.continuous_re.comp (half_continuous W l _ _ R i))).intervalIntegrable _ _
    have w2 : wHalf W 2 (Real.cos β) (Real.sin β) ((2 * 2 + 1) * 2 + 2) = 3 / 2 * Real.cos β ^ 2 - 1 / 2 := by
      simp only [wHalf, if_true, wigner2jHalf]
      ring
    have w4 : wHalf W 4 (Real.cos β) (Real.sin β) ((2 * 4 + 1) * 4 + 4) = 3 / 8 - 15 / 4 * Real.cos β ^ 2 + 35 / 8 * Real.cos β ^ 4 := by
      simp only [wHalf, if_true, wigner4jHalf, wigner4jHalfT, show (4 : ℕ) ≠ 2 by norm_num, if_false]
      ring
    unfold dirFreq localFreq
    cases four
    · simp only [Bool.false_eq_true, if_false, add_zero, zero_mul]
      rw [intervalIntegral.integral_add (by simp) (hi 2 _ _ _), intervalIntegral.integral_const_mul, hre, w2]
      simp
      ring
    · simp only [if_true]
      rw [intervalIntegral.integral_add ((intervalIntegrable_const).add (hi 2 _ _ _)) (hi 4 _ _ _),
        intervalIntegral.integral_add (by simp) (hi 2 _ _ _), intervalIntegral.integral_const_mul,
        intervalIntegral.integral_const_mul, hre, hre, w2, w4]
      simp
      ring
  unfold Spec.sphereMean
  rw [box_swapped _ _ _ _ _ (by positivity) hpi.le]
  · simp only [hin]
    set A := t.R0
    set B := dm0Vector2 W cθ sθ 2 * (t.R2 2).re
    set D := (if four then dm0Vector4 W cθ sθ 4 * (t.R4 4).re else 0)
    have hd : ∀ β : ℝ, HasDerivAt (fun β => 2 * Real.pi * (-(A * Real.cos β) - B * (Real.cos β ^ 3 / 2 - Real.cos β / 2)
          - D * (3 / 8 * Real.cos β - 5 / 4 * Real.cos β ^ 3 + 7 / 8 * Real.cos β ^ 5)))
        (Real.sin β * (2 * Real.pi * (A + B * (3 / 2 * Real.cos β ^ 2 - 1 / 2)
          + D * (3 / 8 - 15 / 4 * Real.cos β ^ 2 + 35 / 8 * Real.cos β ^ 4)))) β := by
      intro β
      have hcos := Real.hasDerivAt_cos β
      have h := ((((hcos.const_mul A).neg.sub ((((hcos.pow 3).div_const 2).sub (hcos.div_const 2)).const_mul B)).sub
        ((((hcos.const_mul (3 / 8)).sub ((hcos.pow 3).const_mul (5 / 4))).add ((hcos.pow 5).const_mul (7 / 8))).const_mul D)).const_mul
          (2 * Real.pi))
      refine h.congr_deriv ?_
      norm_num
      ring
    rw [intervalIntegral.integral_eq_sub_of_hasDerivAt (fun β _ => hd β) (by
      refine Continuous.intervalIntegrable ?_ _ _
      fun_prop)]
    rw [Real.cos_pi, Real.cos_zero]
    field_simp
    ring
  · refine IntegrableOn.mono_set (t := Set.Icc 0 (2 * Real.pi) ×ˢ Set.Icc 0 Real.pi) ?_
      (Set.prod_mono Set.Ioo_subset_Icc_self Set.Ioo_subset_Icc_self)
    refine ContinuousOn.integrableOn_compact (isCompact_Icc.prod isCompact_Icc) (Continuous.continuousOn ?_)
    fun_prop

/-! ## The window -/

theorem inWindow_iff (x : ℝ) (count : ℤ) (hc : 0 ≤ count) : Bin.inWindow x count = true ↔ -1 < x ∧ x < count + 1 := by
  unfold Bin.inWindow
  rw [decide_eq_true_iff]
  have h1 : Bin.trunc x ≥ 0 ↔ -1 < x := by
    rw [ge_iff_le, ← not_lt, Bin.trunc_lt_zero, not_le]
  rw [h1]
  refine and_congr_right fun _ => ?_
  unfold Bin.trunc
  split_ifs with h0
  · rw [← Int.lt_add_one_iff, Int.floor_lt]
    push_cast
    rfl
  · have hc' : (0 : ℝ) ≤ count := by exact_mod_cast hc
    rw [Int.ceil_le]
    constructor
    · intro _
      linarith
    · intro _
      linarith

/-! ## Many sidebands -/

theorem hemisphere_limit (g : ℕ → ℝ × ℝ → ℝ) (h : ℝ × ℝ → ℝ) (hm : ∀ n, Measurable (g n)) (hb : ∀ n p, |g n p| ≤ 1)
    (hl : ∀ p, Tendsto (fun n => g n p) atTop (𝓝 (h p))) :
    Tendsto (fun n => hemisphereMean (g n)) atTop (𝓝 (hemisphereMean h)) := by
  unfold hemisphereMean
  refine Tendsto.const_mul _ (tendsto_integral_of_dominated_convergence (fun _ => 1) ?_ ?_ ?_ ?_)
  · intro n
    exact ((Real.measurable_sin.comp measurable_snd).mul (hm n)).aestronglyMeasurable
  · refine integrableOn_const ?_
    rw [Measure.volume_eq_prod, Measure.prod_prod, Real.volume_Ioo, Real.volume_Ioo]
    exact ENNReal.mul_ne_top ENNReal.ofReal_ne_top ENNReal.ofReal_ne_top
  · intro n
    refine Eventually.of_forall fun p => ?_
    rw [Real.norm_eq_abs, abs_mul]
    exact (mul_le_of_le_one_left (abs_nonneg _) (Real.abs_sin_le_one _)).trans (hb n p)
  · exact Eventually.of_forall fun p => (hl p).const_mul _

/-- The list of sidebands, by their numbers. -/
theorem fftOrder_sum (N : ℕ) (hN : 1 ≤ N) (νr : ℝ) (F : ℝ × ℕ → ℝ) (G : ℤ → ℝ) (M : Finset ℤ)
    (hM : ∀ m ∈ M, -(N : ℤ) ≤ 2 * m ∧ 2 * m < N)
    (hF : ∀ (m : ℤ) (i : ℕ), m % N = i → F ((m : ℝ) * νr, i) = if m ∈ M then G m else 0) :
    ((Bin.fftOrder (N : ℤ) νr).zipIdx.map F).sum = ∑ m ∈ M, G m := by
  obtain ⟨hlen, hget⟩ := Bin.C40_fft_order N hN νr
  choose! mf h1 h2 h3 h4 using hget
  have hz : (Bin.fftOrder (N : ℤ) νr).zipIdx = (List.range N).map fun i => ((mf i : ℝ) * νr, i) := by
    apply List.ext_getElem?
    intro i
    rw [List.getElem?_zipIdx, List.getElem?_map]
    by_cases hi : i < N
    · rw [h1 i hi, List.getElem?_range hi]
      simp
    · rw [List.getElem?_eq_none (by omega), List.getElem?_eq_none (by simpa using hi)]
      rfl
  rw [hz, List.map_map, show ∀ f : ℕ → ℝ, ((List.range N).map f).sum = ∑ j ∈ Finset.range N, f j from fun f => rfl]
  have e : ∀ i ∈ Finset.range N, (F ∘ fun i => ((mf i : ℝ) * νr, i)) i = if mf i ∈ M then G (mf i) else 0 := by
    intro i hi
    exact hF (mf i) i (h2 i (Finset.mem_range.mp hi))
  rw [Finset.sum_congr rfl e, ← Finset.sum_filter]
  have hN' : (0 : ℤ) < N := by exact_mod_cast hN
  refine Finset.sum_bij (fun i _ => mf i) ?_ ?_ ?_ ?_
  · intro i hi
    exact (Finset.mem_filter.mp hi).2
  · intro i hi i' hi' heq
    have a := h2 i (Finset.mem_range.mp (Finset.mem_filter.mp hi).1)
    have b := h2 i' (Finset.mem_range.mp (Finset.mem_filter.mp hi').1)
    rw [heq, b] at a
    exact_mod_cast a.symm
  · intro m hm
    obtain ⟨b1, b2⟩ := hM m hm
    have r0 := Int.emod_nonneg m hN'.ne'
    have r1 := Int.emod_lt_of_pos m hN'
    have hi : (m % N).toNat < N := by omega
    have c := h2 _ hi
    have c3 := h3 _ hi
    have c4 := h4 _ hi
    have hmf : mf (m % N).toNat = m := by
      rw [Int.toNat_of_nonneg r0] at c
      have hdvd : (N : ℤ) ∣ mf (m % N).toNat - m := Int.ModEq.dvd (Int.ModEq.symm c)
      obtain ⟨q, hq⟩ := hdvd
      have : q = 0 := by
        rcases lt_trichotomy q 0 with h | h | h
        · nlinarith
        · exact h
        · nlinarith
      rw [this, mul_zero] at hq
      omega
    exact ⟨(m % N).toNat, Finset.mem_filter.mpr ⟨Finset.mem_range.mpr hi, by rw [hmf]; exact hm⟩, hmf⟩
  · intro i _
    rfl

/-! ## C88 -/

/-- The frequency of a transition of a static crystallite with the field in the direction of azimuth `p.1` and polar angle `p.2`. -/
noncomputable def Spec.line (four : Bool) (B0 : ℝ) (ss : List Site) (ks : List Coupling) (xi xf : List ℕ) (p : ℝ × ℝ) : ℝ :=
  Spec.energy four B0 (Spec.static p.1 p.2) ss ks xf - Spec.energy four B0 (Spec.static p.1 p.2) ss ks xi

/-- The limit of the spectrum of one transition of a static powder, with any constants, in terms of the frequencies the code computes. -/
theorem static_limit (W : WC) (T : TC) (four : Bool) (B0 : ℝ) (ss : List Site) (ks : List Coupling) (mi mf : List ℝ)
    (nOct : ℕ) (hO : nOct = 4 ∨ nOct = 1 ∧ Spec.Unturned ss ks) (junk : ℕ → ℕ → ℕ → ℂ) (νr inv off : ℝ) (count k : ℤ)
    (hk0 : 0 ≤ k) (hkm : k < count)
    (hd : Spread inv (dirFreq W four 1 0 (components W T four B0 ss ks mi mf)))
    (hw : -1 < off + inv * (components W T four B0 ss ks mi mf).R0 ∧ off + inv * (components W T four B0 ss ks mi mf).R0 < count + 1)
    (hg : 1 ≤ k ∨ ∀ p, 0 ≤ off + inv * dirFreq W four 1 0 (components W T four B0 ss ks mi mf) p) :
    let t := components W T four B0 ss ks mi mf
    (∀ nt, 1 ≤ nt → ∃ u, spectrum W four nt nOct 1 νr 1 0 inv off count (startRows four (junk nt) nt) t = .ok u) ∧
    Tendsto (fun nt => Bin.val k (spectrum W four nt nOct 1 νr 1 0 inv off count (startRows four (junk nt) nt) t)) atTop
      (𝓝 (3 * Real.pi * Spec.sphereMean fun p =>
        if (k : ℝ) ≤ off + inv * dirFreq W four 1 0 t p ∧ off + inv * dirFreq W four 1 0 t p < k + 1 then 1 else 0)) := by
  intro t
  have main := spectrum_limit W four 4 1 (Or.inr rfl) junk νr 1 0 inv off count k hk0 hkm t hd (by
    refine hg.imp id fun h x hx p => ?_
    have h0 : x = 0 := by simpa [Bin.fftOrder] using hx
    rw [h0, zero_mul, add_zero]
    exact h p)
  have hlist : (Bin.fftOrder (((1 : ℕ) : ℤ)) νr).zipIdx = [((0 : ℝ), 0)] := by
    simp [Bin.fftOrder]
  rw [hlist] at main
  simp only [List.map_cons, List.map_nil, List.sum_cons, List.sum_nil, add_zero, zero_mul] at main
  have hin : Bin.inWindow (off + t.R0 * inv) count = true := by
    rw [inWindow_iff _ _ (by omega)]
    rw [mul_comm] at hw
    exact hw
  rw [if_pos hin] at main
  have hone : ∀ p, dirAmp W four 1 νr 1 0 t 0 p = 1 := fun p => by simp [dirAmp]
  simp only [hone] at main
  set g : ℝ × ℝ → ℝ := share (fun p => off + inv * dirFreq W four 1 0 t p) (fun _ => 1) k with hgd
  have hmeas : Measurable g := share_measurable _ _ _
    (measurable_const.add (measurable_const.mul (dirFreq_continuous W four 1 0 t).measurable)) measurable_const
  have hbd := share_bounded (fun p => off + inv * dirFreq W four 1 0 t p) (fun _ => 1) k (fun _ => ⟨zero_le_one, le_rfl⟩)
  have hper : ∀ p : ℝ × ℝ, g (p.1 + 2 * Real.pi, p.2) = g p := fun p => by
    simp only [hgd, share, dirFreq_period]
  have hinv : ∀ p : ℝ × ℝ, g (p.1 + Real.pi, Real.pi - p.2) = g p := fun p => by
    simp only [hgd, share, dirFreq_inversion]
  have e := (octantMean_four g hmeas 1 hbd hper).trans (hemisphere_sphere g hmeas 1 hbd hper hinv)
  change _ ∧ Tendsto _ _ (𝓝 (3 * Real.pi * Spec.octantMean 4 g)) at main
  rw [e] at main
  rcases hO with rfl | ⟨rfl, hu⟩
  · exact main
  · have h78 := fun nt (hn : 1 ≤ nt) => C78_octant W T four nt 1 hn B0 νr 1 0 inv off count (by omega) ss ks
      mi mf hu (junk nt) (junk nt)
    refine ⟨fun nt hn => ?_, Tendsto.congr' ?_ main.2⟩
    · obtain ⟨u, v, h1, _⟩ := h78 nt hn
      exact ⟨u, h1⟩
    · filter_upwards [eventually_ge_atTop 1] with nt hn
      obtain ⟨u, v, h1, h2, h3⟩ := h78 nt hn
      simp only [t]
      rw [h1, h2]
      exact h3 k

/-- **C88 (static), partial.** The spectrum of a static powder, for any number of sites of any spins and any couplings between them: as the
density of the orientations grows, bin `k` converges to `3π` times the share of all directions of the sphere for which the transition
frequency, measured in bins from the start of the window, is in `[k, k + 1)`; four octants are averaged, or one if the principal axes are those of
the common frame.  Hypotheses: the frequencies along the three axes differ (otherwise the code draws a single line); the isotropic
frequency is in the window (otherwise it draws nothing, C62); nothing is below the window, or `k ≥ 1` (the interpolation adds what
falls in `(-1, 0)` to bin 0).  Missing: tilts by negative angles (C73), the tabulated decimals. -/
theorem C88_static_partial (four : Bool) (B0 : ℝ) (ss : List Site) (ks : List Coupling) (xi xf : List ℕ)
    (hi : Spec.IsState ss xi) (hf : Spec.IsState ss xf) (hs : ∀ s ∈ ss, s.Upright ∧ 1 ≤ s.n)
    (hk : ∀ k ∈ ks, k.Upright ∧ k.A < ss.length ∧ k.X < ss.length)
    (nOct : ℕ) (hO : nOct = 4 ∨ nOct = 1 ∧ Spec.Unturned ss ks) (junk : ℕ → ℕ → ℕ → ℂ) (νr inv off : ℝ) (count k : ℤ)
    (hk0 : 0 ≤ k) (hkm : k < count)
    (hd : ¬ (|inv * (Spec.line four B0 ss ks xi xf (0, Real.pi / 2)
          - Spec.line four B0 ss ks xi xf (Real.pi / 2, Real.pi / 2))| < 1 / 1000000 ∧
        |inv * (Spec.line four B0 ss ks xi xf (0, Real.pi / 2) - Spec.line four B0 ss ks xi xf (0, 0))| < 1 / 1000000))
    (hw : 0 ≤ off + inv * Spec.sphereMean (Spec.line four B0 ss ks xi xf) ∧
      off + inv * Spec.sphereMean (Spec.line four B0 ss ks xi xf) < count + 1)
    (hg : 1 ≤ k ∨ ∀ p, 0 ≤ off + inv * Spec.line four B0 ss ks xi xf p) :
    let t := components WC.exact TC.exact four B0 ss ks (Spec.quantum ss xi) (Spec.quantum ss xf)
    (∀ nt, 1 ≤ nt → ∃ u, spectrum WC.exact four nt nOct 1 νr 1 0 inv off count (startRows four (junk nt) nt) t = .ok u) ∧
    Tendsto (fun nt => Bin.val k (spectrum WC.exact four nt nOct 1 νr 1 0 inv off count (startRows four (junk nt) nt) t)) atTop
      (𝓝 (3 * Real.pi * Spec.sphereMean fun p =>
        if (k : ℝ) ≤ off + inv * Spec.line four B0 ss ks xi xf p ∧ off + inv * Spec.line four B0 ss ks xi xf p < k + 1 then 1 else 0)) := by
  intro t
  have hline : Spec.line four B0 ss ks xi xf = dirFreq WC.exact four 1 0 t := by
    funext p
    exact (C73_energies_partial four B0 p.1 p.2 ss ks xi xf hi hf hs hk).symm
  rw [hline] at hd hw hg ⊢
  rw [dirFreq_mean] at hw
  exact static_limit WC.exact TC.exact four B0 ss ks _ _ nOct hO junk νr inv off count k hk0 hkm hd ⟨by linarith [hw.1], hw.2⟩ hg

/-- The weights of sideband `m` depend on it through its place in the transform. -/
theorem dirAmp_residue (W : WC) (four : Bool) (n : ℕ) (νr cθ sθ : ℝ) (t : Tens) (m : ℤ) (p : ℝ × ℝ) :
    dirAmp W four (n + 2) νr cθ sθ t (m % ((n + 2 : ℕ) : ℤ)).toNat p
      = Sim.sidebandAmps (fun j : ZMod (n + 2) =>
          crystalPhase W four (n + 2) νr (Real.cos p.2) (Real.sin p.2) (exp (p.1 * I)) cθ sθ t j.val)
          (m : ZMod (n + 2)) / ((n + 2 : ℕ) : ℝ) ^ 2 := by
  unfold dirAmp
  rw [if_neg (by omega)]
  have hz : (((m % ((n + 2 : ℕ) : ℤ)).toNat : ℕ) : ZMod (n + 2)) = (m : ZMod (n + 2)) := by
    have h0 : (((m % ((n + 2 : ℕ) : ℤ)).toNat : ℕ) : ℤ) = m % ((n + 2 : ℕ) : ℤ) :=
      Int.toNat_of_nonneg (Int.emod_nonneg _ (by positivity))
    have : (((m % ((n + 2 : ℕ) : ℤ)).toNat : ℤ) : ZMod (n + 2)) = (m : ZMod (n + 2)) := by
      rw [ZMod.intCast_eq_intCast_iff, h0]
      exact Int.mod_modEq _ _
    rwa [Int.cast_natCast] at this
  rw [hz]

/-- What the limits of the intensities have in common with them. -/
theorem intensity_facts (W : WC) (four : Bool) (t : Tens) (cθ sθ νr : ℝ) (m : ℤ) (J : ℝ × ℝ → ℝ)
    (hJ : ∀ p, Tendsto (fun n : ℕ => dirAmp W four (n + 2) νr cθ sθ t (m % ((n + 2 : ℕ) : ℤ)).toNat p) atTop (𝓝 (J p))) :
    Measurable J ∧ (∀ p, 0 ≤ J p ∧ J p ≤ 1) ∧ ∀ p : ℝ × ℝ, J (p.1 + 2 * Real.pi, p.2) = J p := by
  refine ⟨measurable_of_tendsto_metrizable (fun n => (dirAmp_continuous W four (n + 2) νr cθ sθ t _).measurable) (tendsto_pi_nhds.mpr hJ), ?_, ?_⟩
  · intro p
    exact ⟨ge_of_tendsto' (hJ p) fun n => (dirAmp_bounds W four (n + 2) νr cθ sθ t _ p).1,
      le_of_tendsto' (hJ p) fun n => (dirAmp_bounds W four (n + 2) νr cθ sθ t _ p).2⟩
  · intro p
    refine tendsto_nhds_unique (hJ _) ?_
    simp only [dirAmp_period]
    exact hJ p

/-- The spectrum of a spun powder: a limit for every number of sidebands, and the limit of those. -/
theorem spin_limit (W : WC) (four : Bool) (t : Tens) (cθ sθ νr : ℝ) (I : ℤ → ℝ × ℝ → ℝ)
    (hI : ∀ m p, Tendsto (fun n : ℕ => dirAmp W four (n + 2) νr cθ sθ t (m % ((n + 2 : ℕ) : ℤ)).toNat p) atTop (𝓝 (I m p)))
    (hinv : ∀ m (p : ℝ × ℝ), I m (p.1 + Real.pi, Real.pi - p.2) = I m p)
    (junk : ℕ → ℕ → ℕ → ℕ → ℂ) (inv off : ℝ) (count k : ℤ) (hk1 : 1 ≤ k) (hkm : k < count)
    (hd : Spread inv (dirFreq W four cθ sθ t)) (M : Finset ℤ)
    (hM : ∀ m : ℤ, m ∈ M ↔ -1 < off + inv * (t.R0 + m * νr) ∧ off + inv * (t.R0 + m * νr) < count + 1) :
    ∃ V : ℕ → ℝ, (∀ n, (∀ nt, 1 ≤ nt → ∃ u, spectrum W four nt 4 (n + 2) νr cθ sθ inv off count (startRows four (junk n nt) nt) t = .ok u) ∧
        Tendsto (fun nt => Bin.val k (spectrum W four nt 4 (n + 2) νr cθ sθ inv off count (startRows four (junk n nt) nt) t))
          atTop (𝓝 (V n))) ∧
      Tendsto V atTop (𝓝 (∑ m ∈ M, 3 * Real.pi * Spec.sphereMean
        (share (fun p => off + inv * (dirFreq W four cθ sθ t p + m * νr)) (I m) k))) := by
  have main := fun n : ℕ => spectrum_limit W four 4 (n + 2) (Or.inr rfl) (junk n) νr cθ sθ inv off count k (by omega) hkm t hd (Or.inl hk1)
  refine ⟨_, main, ?_⟩
  set f := dirFreq W four cθ sθ t with hfd
  have hfc : Measurable f := (dirFreq_continuous W four cθ sθ t).measurable
  set amp : ℕ → ℤ → ℝ × ℝ → ℝ := fun n m => dirAmp W four (n + 2) νr cθ sθ t (m % ((n + 2 : ℕ) : ℤ)).toNat with hamp
  set pos : ℤ → ℝ × ℝ → ℝ := fun m p => off + inv * (f p + m * νr) with hpos
  have hposm : ∀ m, Measurable (pos m) := fun m => by
    simp only [hpos]
    exact measurable_const.add (measurable_const.mul (hfc.add measurable_const))
  have hlimM : Tendsto (fun n => ∑ m ∈ M, 3 * Real.pi * hemisphereMean (share (pos m) (amp n m) k)) atTop
      (𝓝 (∑ m ∈ M, 3 * Real.pi * hemisphereMean (share (pos m) (I m) k))) := by
    refine tendsto_finsetSum _ fun m _ => Tendsto.const_mul _ (hemisphere_limit _ _ ?_ ?_ ?_)
    · intro n
      exact share_measurable _ _ _ (hposm m) (dirAmp_continuous W four _ νr _ _ t _).measurable
    · intro n p
      exact share_bounded _ _ _ (dirAmp_bounds W four _ νr _ _ t _) p
    · intro p
      unfold share
      split_ifs
      · exact hI m p
      · exact tendsto_const_nhds
  have hsphere : ∀ m, hemisphereMean (share (pos m) (I m) k) = Spec.sphereMean (share (pos m) (I m) k) := by
    intro m
    obtain ⟨j1, j2, j3⟩ := intensity_facts W four t cθ sθ νr m (I m) (hI m)
    refine hemisphere_sphere _ (share_measurable _ _ _ (hposm m) j1) 1 (share_bounded _ _ _ j2) (fun p => ?_) (fun p => ?_)
    · simp only [share, hpos, hfd, dirFreq_period, j3]
    · simp only [share, hpos, hfd, dirFreq_inversion, hinv]
  simp only [hsphere] at hlimM
  refine Tendsto.congr' ?_ hlimM
  filter_upwards [eventually_ge_atTop (2 * ∑ m ∈ M, m.natAbs + 2)] with n hN
  rw [fftOrder_sum (n + 2) (by omega) νr _ (fun m => 3 * Real.pi * hemisphereMean (share (pos m) (amp n m) k)) M ?_ ?_]
  · intro m hm
    have : m.natAbs ≤ ∑ m ∈ M, m.natAbs := Finset.single_le_sum (f := fun m : ℤ => m.natAbs) (fun _ _ => Nat.zero_le _) hm
    push_cast
    omega
  · intro m i hmi
    have hin : Bin.inWindow (off + t.R0 * inv + (m : ℝ) * νr * inv) count = true ↔ m ∈ M := by
      rw [inWindow_iff _ _ (by omega), hM, show off + t.R0 * inv + (m : ℝ) * νr * inv = off + inv * (t.R0 + m * νr) by ring]
    dsimp only
    by_cases hmM : m ∈ M
    · rw [if_pos hmM, if_pos (hin.mpr hmM)]
      congr 1
      have e : (fun p => if (k : ℝ) ≤ off + inv * f p + (m : ℝ) * νr * inv ∧ off + inv * f p + (m : ℝ) * νr * inv < k + 1
          then dirAmp W four (n + 2) νr cθ sθ t i p else 0) = share (pos m) (amp n m) k := by
        funext p
        unfold share
        simp only [hpos, hamp]
        rw [show off + inv * f p + (m : ℝ) * νr * inv = off + inv * (f p + m * νr) by ring, hmi, Int.toNat_natCast]
      rw [e]
      refine octantMean_four _ (share_measurable _ _ _ (hposm m) (dirAmp_continuous W four _ νr _ _ t _).measurable) 1
        (share_bounded _ _ _ (dirAmp_bounds W four _ νr _ _ t _)) ?_
      intro p
      simp only [share, hpos, hfd, hamp, dirFreq_period, dirAmp_period]
    · rw [if_neg hmM, if_neg (fun h => hmM (hin.mp h))]

/-- The same for sharp sidebands. -/
theorem sharp_spin_limit (W : WC) (four : Bool) (t : Tens) (cθ sθ νr : ℝ) (I : ℤ → ℝ × ℝ → ℝ)
    (hI : ∀ m p, Tendsto (fun n : ℕ => dirAmp W four (n + 2) νr cθ sθ t (m % ((n + 2 : ℕ) : ℤ)).toNat p) atTop (𝓝 (I m p)))
    (hinv : ∀ m (p : ℝ × ℝ), I m (p.1 + Real.pi, Real.pi - p.2) = I m p)
    (junk : ℕ → ℕ → ℕ → ℕ → ℂ) (inv off : ℝ) (count k : ℤ) (hk1 : 1 ≤ k) (hkm : k < count)
    (hd : ¬ Spread inv (dirFreq W four cθ sθ t)) (M : Finset ℤ)
    (hM : ∀ m : ℤ, m ∈ M ↔ 0 ≤ off + inv * (dirFreq W four cθ sθ t (0, Real.pi / 2) + m * νr) ∧
      off + inv * (dirFreq W four cθ sθ t (0, Real.pi / 2) + m * νr) < count) :
    ∃ V : ℕ → ℝ, (∀ n, (∀ nt, 1 ≤ nt → ∃ u, spectrum W four nt 4 (n + 2) νr cθ sθ inv off count (startRows four (junk n nt) nt) t = .ok u) ∧
        Tendsto (fun nt => Bin.val k (spectrum W four nt 4 (n + 2) νr cθ sθ inv off count (startRows four (junk n nt) nt) t))
          atTop (𝓝 (V n))) ∧
      Tendsto V atTop (𝓝 (∑ m ∈ M, 3 * Real.pi *
        (Bin.Spec.linear (off + inv * (dirFreq W four cθ sθ t (0, Real.pi / 2) + m * νr) - (k + 1 / 2)) * Spec.sphereMean (I m)))) := by
  have main := fun n : ℕ => sharp_limit W four 4 (n + 2) (Or.inr rfl) (junk n) νr cθ sθ inv off count k hk1 hkm t hd
  refine ⟨_, main, ?_⟩
  set f0 := dirFreq W four cθ sθ t (0, Real.pi / 2) with hfd
  set amp : ℕ → ℤ → ℝ × ℝ → ℝ := fun n m => dirAmp W four (n + 2) νr cθ sθ t (m % ((n + 2 : ℕ) : ℤ)).toNat with hamp
  have hlimM : Tendsto (fun n => ∑ m ∈ M, 3 * Real.pi *
        (Bin.Spec.linear (off + inv * (f0 + m * νr) - (k + 1 / 2)) * hemisphereMean (amp n m))) atTop
      (𝓝 (∑ m ∈ M, 3 * Real.pi * (Bin.Spec.linear (off + inv * (f0 + m * νr) - (k + 1 / 2)) * hemisphereMean (I m)))) := by
    refine tendsto_finsetSum _ fun m _ => Tendsto.const_mul _ (Tendsto.const_mul _ (hemisphere_limit _ _ ?_ ?_ ?_))
    · intro n
      exact (dirAmp_continuous W four _ νr _ _ t _).measurable
    · intro n p
      have h := dirAmp_bounds W four (n + 2) νr cθ sθ t (m % ((n + 2 : ℕ) : ℤ)).toNat p
      rw [abs_of_nonneg h.1]
      exact h.2
    · intro p
      exact hI m p
  have hsphere : ∀ m, hemisphereMean (I m) = Spec.sphereMean (I m) := by
    intro m
    obtain ⟨j1, j2, j3⟩ := intensity_facts W four t cθ sθ νr m (I m) (hI m)
    refine hemisphere_sphere _ j1 1 (fun p => ?_) j3 (hinv m)
    rw [abs_of_nonneg (j2 p).1]
    exact (j2 p).2
  simp only [hsphere] at hlimM
  refine Tendsto.congr' ?_ hlimM
  filter_upwards [eventually_ge_atTop (2 * ∑ m ∈ M, m.natAbs + 2)] with n hN
  rw [fftOrder_sum (n + 2) (by omega) νr _ (fun m => 3 * Real.pi *
        (Bin.Spec.linear (off + inv * (f0 + m * νr) - (k + 1 / 2)) * hemisphereMean (amp n m))) M ?_ ?_]
  · intro m hm
    have : m.natAbs ≤ ∑ m ∈ M, m.natAbs := Finset.single_le_sum (f := fun m : ℤ => m.natAbs) (fun _ _ => Nat.zero_le _) hm
    push_cast
    omega
  · intro m i hmi
    dsimp only
    rw [show off + inv * f0 + (m : ℝ) * νr * inv = off + inv * (f0 + m * νr) by ring]
    by_cases hmM : m ∈ M
    · rw [if_pos hmM, if_pos ((hM m).mp hmM)]
      congr 2
      simp only [hamp, hmi, Int.toNat_natCast]
      refine octantMean_four _ (dirAmp_continuous W four _ νr _ _ t _).measurable 1 ?_ ?_
      · intro p
        have h := dirAmp_bounds W four (n + 2) νr cθ sθ t i p
        rw [abs_of_nonneg h.1]
        exact h.2
      · intro p
        simp only [dirAmp_period]
    · rw [if_neg hmM, if_neg (fun h => hmM ((hM m).mpr h))]

/-- **C88 (spinning), partial.** A powder spun at any angle and frequency: for enough sidebands, and then a density that is high enough, bin `k ≥ 1`
is as close as wanted to the sum over the sidebands in the window of `3π` times the mean, over the directions for which the
sideband is in the bin, of its intensity (the squared Fourier coefficient of the signal of that crystallite).  The same parts
are missing, and bin 0. -/
theorem C88_spinning_partial (four : Bool) (B0 θ νr : ℝ) (hν : 0 < νr) (ss : List Site) (ks : List Coupling) (xi xf : List ℕ)
    (hi : Spec.IsState ss xi) (hf : Spec.IsState ss xf) (hs : ∀ s ∈ ss, s.Upright ∧ 1 ≤ s.n)
    (hk : ∀ k ∈ ks, k.Upright ∧ k.A < ss.length ∧ k.X < ss.length)
    (junk : ℕ → ℕ → ℕ → ℕ → ℂ) (inv off : ℝ) (count k : ℤ) (hk1 : 1 ≤ k) (hkm : k < count) :
    let ν : ℝ × ℝ → ℝ := fun p => Spec.average νr (Spec.momentary four B0 p.1 p.2 θ νr ss ks xi xf)
    ∀ (_ : ¬ (|inv * (ν (0, Real.pi / 2) - ν (Real.pi / 2, Real.pi / 2))| < 1 / 1000000 ∧
        |inv * (ν (0, Real.pi / 2) - ν (0, 0))| < 1 / 1000000))
      (M : Finset ℤ) (_ : ∀ m : ℤ, m ∈ M ↔ -1 < off + inv * (Spec.sphereMean ν + m * νr) ∧
        off + inv * (Spec.sphereMean ν + m * νr) < count + 1) (ε : ℝ) (_ : 0 < ε),
    ∃ N0 : ℕ, ∀ N, N0 ≤ N → ∀ [NeZero N], ∃ n0 : ℕ, ∀ nt, n0 ≤ nt →
      |Bin.val k (spectrum WC.exact four nt 4 N νr (Real.cos θ) (Real.sin θ) inv off count (startRows four (junk N nt) nt)
          (components WC.exact TC.exact four B0 ss ks (Spec.quantum ss xi) (Spec.quantum ss xf)))
        - ∑ m ∈ M, 3 * Real.pi * Spec.sphereMean (fun p =>
            if (k : ℝ) ≤ off + inv * (ν p + m * νr) ∧ off + inv * (ν p + m * νr) < k + 1
            then Spec.sideband νr (Spec.momentary four B0 p.1 p.2 θ νr ss ks xi xf) m else 0)| < ε := by
  intro ν hd M hM ε hε
  set t := components WC.exact TC.exact four B0 ss ks (Spec.quantum ss xi) (Spec.quantum ss xf) with ht
  have hline : ν = dirFreq WC.exact four (Real.cos θ) (Real.sin θ) t := by
    funext p
    exact (C75_average_partial four B0 p.1 p.2 θ νr hν ss ks xi xf hi hf hs hk).symm
  rw [hline, dirFreq_mean] at hM
  rw [hline] at hd ⊢
  have hI : ∀ m p, Tendsto (fun n : ℕ => dirAmp WC.exact four (n + 2) νr (Real.cos θ) (Real.sin θ) t (m % ((n + 2 : ℕ) : ℤ)).toNat p)
      atTop (𝓝 (Spec.sideband νr (Spec.momentary four B0 p.1 p.2 θ νr ss ks xi xf) m)) := by
    intro m p
    simp only [dirAmp_residue]
    exact (tendsto_add_atTop_iff_nat 1).mpr (C76_limit_partial four B0 p.1 p.2 θ νr hν ss ks xi xf hi hf hs hk m)
  obtain ⟨V, hV, hlim⟩ := spin_limit WC.exact four t (Real.cos θ) (Real.sin θ) νr
    (fun m p => Spec.sideband νr (Spec.momentary four B0 p.1 p.2 θ νr ss ks xi xf) m) hI
    (fun m p => (spun_inversion four B0 p.1 p.2 θ νr hν ss ks xi xf hi hf hs hk m).2) (fun n => junk (n + 2)) inv off count k hk1 hkm hd M hM
  obtain ⟨N1, hN1⟩ := (Metric.tendsto_atTop.mp hlim) (ε / 2) (by positivity)
  refine ⟨N1 + 2, fun N hN _ => ?_⟩
  obtain ⟨n, rfl⟩ : ∃ n, N = n + 2 := ⟨N - 2, by omega⟩
  obtain ⟨n0, hn0⟩ := (Metric.tendsto_atTop.mp (hV n).2) (ε / 2) (by positivity)
  refine ⟨n0, fun nt hnt => ?_⟩
  have h3 := (dist_triangle _ _ _).trans_lt (add_lt_add (hn0 nt hnt) (hN1 n (by omega)))
  rw [add_halves, Real.dist_eq] at h3
  exact h3

theorem poleSite_state : Spec.IsState [poleSite] [0] ∧ Spec.IsState [poleSite] [1] ∧ ∀ s ∈ [poleSite], s.Upright ∧ 1 ≤ s.n := by
  refine ⟨by unfold Spec.IsState poleSite; simp, by unfold Spec.IsState poleSite; simp, ?_⟩
  intro s hs
  simp only [List.mem_cons, List.not_mem_nil, or_false] at hs
  subst hs
  unfold poleSite Site.Upright
  norm_num

theorem poleSite_line (p : ℝ × ℝ) :
    Spec.line false 1 [poleSite] [] [0] [1] p = Real.sin p.2 ^ 2 * Real.cos p.1 ^ 2 - Real.cos p.2 ^ 2 := by
  simp [Spec.line, Spec.energy, Spec.siteEnergy, Spec.field, Spec.static, poleSite, Spec.mag, Spec.along, Spec.haeberlen,
    Spec.seen, Spec.euler, Spec.Rz, Spec.Ry, Matrix.mulVec, dotProduct, Fin.sum_univ_three, Matrix.mul_apply,
    Matrix.diagonal, Spec.quantum]
  ring

theorem poleSite_iso : (components WC.exact TC.exact false 1 [poleSite] [] (Spec.quantum [poleSite] [0]) (Spec.quantum [poleSite] [1])).R0 = 0 := by
  norm_num [components, addSites, addSite, poleSite, Spec.quantum, shieldingPart, addT, zeroT, fcf, ssotShielding]
  split_ifs <;> simp [scaleT]

theorem poleSite_dir (p : ℝ × ℝ) : Spec.line false 1 [poleSite] [] [0] [1] p = dirFreq WC.exact false 1 0
    (components WC.exact TC.exact false 1 [poleSite] [] (Spec.quantum [poleSite] [0]) (Spec.quantum [poleSite] [1])) p :=
  (C73_energies_partial false 1 p.1 p.2 [poleSite] [] [0] [1] poleSite_state.1 poleSite_state.2.1 poleSite_state.2.2 (by simp)).symm

/-- A site with an asymmetric shift tensor: the pattern over the whole window, one octant. -/
example (junk : ℕ → ℕ → ℕ → ℂ) (k : ℤ) (h0 : 0 ≤ k) (h1 : k < 512) :
    Tendsto (fun nt => Bin.val k (spectrum WC.exact false nt 1 1 0 1 0 100 256 512 (startRows false (junk nt) nt)
        (components WC.exact TC.exact false 1 [poleSite] [] (Spec.quantum [poleSite] [0]) (Spec.quantum [poleSite] [1])))) atTop
      (𝓝 (3 * Real.pi * Spec.sphereMean fun p =>
        if (k : ℝ) ≤ 256 + 100 * Spec.line false 1 [poleSite] [] [0] [1] p ∧ 256 + 100 * Spec.line false 1 [poleSite] [] [0] [1] p < k + 1
        then 1 else 0)) := by
  obtain ⟨hi, hf, hs⟩ := poleSite_state
  have hv := poleSite_line
  have hmean : Spec.sphereMean (Spec.line false 1 [poleSite] [] [0] [1]) = 0 := by
    rw [funext poleSite_dir, dirFreq_mean, poleSite_iso]
  have hlow : ∀ p, -1 ≤ Spec.line false 1 [poleSite] [] [0] [1] p := by
    intro p
    rw [hv]
    have a := Real.sin_sq_add_cos_sq p.2
    have b := Real.sin_sq_add_cos_sq p.1
    nlinarith [sq_nonneg (Real.sin p.2 * Real.sin p.1), sq_nonneg (Real.cos p.2), sq_nonneg (Real.sin p.2), sq_nonneg (Real.cos p.1)]
  refine (C88_static_partial false 1 [poleSite] [] [0] [1] hi hf hs (by simp) 1 (Or.inr ⟨rfl, by simp [Spec.Unturned, poleSite]⟩) junk 0 100
    256 512 k h0 h1 ?_ ?_ ?_).2
  · simp only [hv]
    simp
    norm_num
  · rw [hmean]
    norm_num
  · exact Or.inr fun p => by linarith [hlow p]

theorem poleSite_spun (p : ℝ × ℝ) : Spec.average 1 (Spec.momentary false 1 p.1 p.2 (Real.pi / 2) 1 [poleSite] [] [0] [1])
    = -1 / 2 * (Real.sin p.2 ^ 2 * Real.cos p.1 ^ 2 - Real.cos p.2 ^ 2) := by
  obtain ⟨hi, hf, hs⟩ := poleSite_state
  rw [← C75_average_partial false 1 p.1 p.2 (Real.pi / 2) 1 one_pos [poleSite] [] [0] [1] hi hf hs (by simp), ← poleSite_line, poleSite_dir]
  have h0 := poleSite_iso
  unfold dirFreq localFreq
  rw [h0]
  simp [dm0Vector2]
  ring

/-- The same site spun about an axis at a right angle to the field: five sidebands are in the window. -/
example (junk : ℕ → ℕ → ℕ → ℕ → ℂ) (k : ℤ) (h1 : 1 ≤ k) (h2 : k < 512) (ε : ℝ) (hε : 0 < ε) :
    ∃ N0 : ℕ, ∀ N, N0 ≤ N → ∀ [NeZero N], ∃ n0 : ℕ, ∀ nt, n0 ≤ nt →
      |Bin.val k (spectrum WC.exact false nt 4 N 1 (Real.cos (Real.pi / 2)) (Real.sin (Real.pi / 2)) 100 256 512 (startRows false (junk N nt) nt)
          (components WC.exact TC.exact false 1 [poleSite] [] (Spec.quantum [poleSite] [0]) (Spec.quantum [poleSite] [1])))
        - ∑ m ∈ Finset.Icc (-2 : ℤ) 2, 3 * Real.pi * Spec.sphereMean (fun p =>
            if (k : ℝ) ≤ 256 + 100 * (Spec.average 1 (Spec.momentary false 1 p.1 p.2 (Real.pi / 2) 1 [poleSite] [] [0] [1]) + m * 1) ∧
              256 + 100 * (Spec.average 1 (Spec.momentary false 1 p.1 p.2 (Real.pi / 2) 1 [poleSite] [] [0] [1]) + m * 1) < k + 1
            then Spec.sideband 1 (Spec.momentary false 1 p.1 p.2 (Real.pi / 2) 1 [poleSite] [] [0] [1]) m else 0)| < ε := by
  obtain ⟨hi, hf, hs⟩ := poleSite_state
  set t := components WC.exact TC.exact false 1 [poleSite] [] (Spec.quantum [poleSite] [0]) (Spec.quantum [poleSite] [1]) with ht
  have hav : ∀ p : ℝ × ℝ, Spec.average 1 (Spec.momentary false 1 p.1 p.2 (Real.pi / 2) 1 [poleSite] [] [0] [1])
      = dirFreq WC.exact false (Real.cos (Real.pi / 2)) (Real.sin (Real.pi / 2)) t p := fun p =>
    (C75_average_partial false 1 p.1 p.2 (Real.pi / 2) 1 one_pos [poleSite] [] [0] [1] hi hf hs (by simp)).symm
  have hmean : Spec.sphereMean (fun p : ℝ × ℝ => Spec.average 1 (Spec.momentary false 1 p.1 p.2 (Real.pi / 2) 1 [poleSite] [] [0] [1])) = 0 := by
    rw [funext hav]
    exact (dirFreq_mean WC.exact false _ _ t).trans poleSite_iso
  have hhalf := poleSite_spun
  refine C88_spinning_partial false 1 (Real.pi / 2) 1 one_pos [poleSite] [] [0] [1] hi hf hs (by simp) junk 100 256 512 k h1 h2 ?_
    (Finset.Icc (-2) 2) ?_ ε hε
  · have x := hhalf (0, Real.pi / 2)
    have y := hhalf (Real.pi / 2, Real.pi / 2)
    simp only at x y ⊢
    rw [x, y]
    simp
    norm_num
  · intro m
    rw [hmean, Finset.mem_Icc]
    constructor
    · rintro ⟨a, b⟩
      have a' : (-2 : ℝ) ≤ m := by exact_mod_cast a
      have b' : (m : ℝ) ≤ 2 := by exact_mod_cast b
      constructor <;> push_cast <;> linarith
    · rintro ⟨a, b⟩
      push_cast at b
      constructor
      · have : (-3 : ℝ) < m := by linarith
        have : (-3 : ℤ) < m := by exact_mod_cast this
        omega
      · have : (m : ℝ) < 3 := by linarith
        have : m < (3 : ℤ) := by exact_mod_cast this
        omega

/-- A site with an axial shift tensor along the diagonal `(-1, 1, 1)` of the common frame, which makes the same (the magic) angle with all
three axes. -/
noncomputable def diagonalSite : Site := ⟨1, -1, 0, 1, 0, ⟨0, Real.arccos (1 / √3), Real.pi / 4⟩, 0, 0, ⟨0, 0, 0⟩⟩

theorem axial_line (b g : ℝ) (p : ℝ × ℝ) :
    Spec.line false 1 [⟨1, -1, 0, 1, 0, ⟨0, b, g⟩, 0, 0, ⟨0, 0, 0⟩⟩] [] [0] [1] p
      = 1 / 2 - 3 / 2 * (Real.cos b * Real.cos p.2 + Real.sin b * Real.sin g * (Real.sin p.2 * Real.sin p.1)
        - Real.sin b * Real.cos g * (Real.sin p.2 * Real.cos p.1)) ^ 2 := by
  have hb := Real.sin_sq_add_cos_sq b
  have hg := Real.sin_sq_add_cos_sq g
  have hx := Real.sin_sq_add_cos_sq p.2
  have hy := Real.sin_sq_add_cos_sq p.1
  simp [Spec.line, Spec.energy, Spec.siteEnergy, Spec.field, Spec.static, Spec.mag, Spec.along, Spec.haeberlen,
    Spec.seen, Spec.euler, Spec.Rz, Spec.Ry, Matrix.mulVec, dotProduct, Fin.sum_univ_three, Matrix.mul_apply,
    Matrix.diagonal, Spec.quantum]
  linear_combination (-(Real.cos g * Real.cos p.1 * Real.sin p.2 ^ 2 * Real.sin g * Real.sin p.1)
    + Real.cos g ^ 2 * Real.cos p.1 ^ 2 * Real.sin p.2 ^ 2 / 2 + Real.sin p.2 ^ 2 * Real.sin g ^ 2 * Real.sin p.1 ^ 2 / 2
    + Real.cos p.2 ^ 2 / 2) * hb + (Real.cos p.1 ^ 2 + Real.sin p.1 ^ 2) * Real.sin p.2 ^ 2 / 2 * hg + Real.sin p.2 ^ 2 / 2 * hy + 1 / 2 * hx

theorem diagonalSite_line (p : ℝ × ℝ) :
    Spec.line false 1 [diagonalSite] [] [0] [1] p
      = 1 / 2 - 1 / 2 * (Real.cos p.2 + Real.sin p.2 * Real.sin p.1 - Real.sin p.2 * Real.cos p.1) ^ 2 := by
  have h3 : (√3) ^ 2 = 3 := Real.sq_sqrt (by norm_num)
  have h3' : √3 ≠ 0 := by positivity
  have h2 : √2 * √2 = 2 := Real.mul_self_sqrt (by norm_num)
  have hle : 1 / √3 ≤ 1 := by
    rw [div_le_one (by positivity)]
    exact Real.one_le_sqrt.mpr (by norm_num)
  have hc : Real.cos (Real.arccos (1 / √3)) = 1 / √3 := Real.cos_arccos (by linarith [show (0 : ℝ) < 1 / √3 by positivity]) hle
  have hs : Real.sin (Real.arccos (1 / √3)) = √2 / √3 := by
    rw [Real.sin_arccos, div_pow, h3, one_pow, show (1 : ℝ) - 1 / 3 = 2 / 3 by norm_num, Real.sqrt_div (by norm_num)]
  unfold diagonalSite
  rw [axial_line, hc, hs, Real.cos_pi_div_four, Real.sin_pi_div_four]
  have e : (1 / √3 * Real.cos p.2 + √2 / √3 * (√2 / 2) * (Real.sin p.2 * Real.sin p.1) - √2 / √3 * (√2 / 2) * (Real.sin p.2 * Real.cos p.1))
      = (Real.cos p.2 + Real.sin p.2 * Real.sin p.1 - Real.sin p.2 * Real.cos p.1) / √3 := by
    rw [show √2 / √3 * (√2 / 2) = √2 * √2 / (2 * √3) by ring, h2]
    field_simp
  rw [e, div_pow, h3]
  ring

theorem positive_mean (f : ℝ × ℝ → ℝ) (hf : Continuous f) (a b : ℝ) (p : ℝ × ℝ) (hp : p ∈ Set.Ioo 0 (2 * Real.pi) ×ˢ Set.Ioo 0 Real.pi)
    (ha : a < f p) (hb : f p < b) : 0 < Spec.sphereMean fun p => if a ≤ f p ∧ f p < b then 1 else 0 := by
  have hpi := Real.pi_pos
  unfold Spec.sphereMean
  refine mul_pos (by positivity) ?_
  have hsin : ∀ q ∈ Set.Ioo 0 (2 * Real.pi) ×ˢ Set.Ioo 0 Real.pi, 0 < Real.sin q.2 := fun q hq =>
    Real.sin_pos_of_pos_of_lt_pi hq.2.1 hq.2.2
  have hbox : IsOpen (Set.Ioo (0 : ℝ) (2 * Real.pi) ×ˢ Set.Ioo 0 Real.pi) := isOpen_Ioo.prod isOpen_Ioo
  have hmeas : Measurable fun p : ℝ × ℝ => if a ≤ f p ∧ f p < b then (1 : ℝ) else 0 :=
    Measurable.ite ((measurableSet_le measurable_const hf.measurable).inter (measurableSet_lt hf.measurable measurable_const))
      measurable_const measurable_const
  rw [setIntegral_pos_iff_support_of_nonneg_ae]
  · have hopen : IsOpen ({q | a < f q} ∩ {q | f q < b} ∩ Set.Ioo (0 : ℝ) (2 * Real.pi) ×ˢ Set.Ioo 0 Real.pi) :=
      ((isOpen_lt continuous_const hf).inter (isOpen_lt hf continuous_const)).inter hbox
    refine lt_of_lt_of_le (hopen.measure_pos volume ⟨p, ⟨ha, hb⟩, hp⟩) (measure_mono ?_)
    rintro q ⟨⟨h1, h2⟩, h3⟩
    refine ⟨?_, h3⟩
    rw [Function.mem_support]
    have h1' : a ≤ f q := le_of_lt h1
    beta_reduce
    rw [if_pos ⟨h1', h2⟩, mul_one]
    exact (hsin q h3).ne'
  · refine (ae_restrict_iff' hbox.measurableSet).mpr (Eventually.of_forall fun q hq => ?_)
    have := hsin q hq
    dsimp only [Pi.zero_apply]
    split_ifs
    · linarith
    · simp
  · exact box_integrable _ hmeas 1 (fun q => by split_ifs <;> norm_num) _ _ _ _

theorem first_freq (W : WC) (four : Bool) (nt nOct : ℕ) (hn : 1 ≤ nt) (hO : nOct = 1 ∨ nOct = 4) (junk : ℕ → ℕ → ℂ)
    (cθ sθ : ℝ) (t : Tens) :
    (powderFrequencies W four nt nOct (startRows four junk nt) cθ sθ t).1 0 = dirFreq W four cθ sθ t (0, Real.pi / 2) - t.R0 := by
  have hn0 : (0 : ℝ) < nt := by exact_mod_cast hn
  have := powder_dir W four nt nOct hn hO junk cθ sθ t 0 0 (by rcases hO with rfl | rfl <;> norm_num) (0, 0)
    (Bin.grid_get nt 0 0 (by omega)) 0 (Real.pi / 2) ⟨nt, hn0, by simp [Bin.Spec.point, Spec.quarter], by simp [Bin.Spec.point, Spec.quarter],
      by simp [Bin.Spec.point, Spec.quarter]⟩
  rw [Nat.zero_mul, Nat.zero_add] at this
  unfold dirFreq
  dsimp only
  linarith

theorem delta_far (A : ℝ) : Bin.at_ 205 (Bin.deltaFn (256 : ℝ) 512 A) = 0 := by
  have h : Bin.trunc (256 : ℝ) = 256 := by
    unfold Bin.trunc
    rw [if_pos (by norm_num)]
    exact Int.floor_eq_iff.mpr ⟨by norm_num, by norm_num⟩
  unfold Bin.deltaFn
  rw [h]
  have h1 : ¬ (|(256 : ℝ) - ((256 : ℤ) : ℝ) - 1 / 2| < Bin.TOL) := by
    unfold Bin.TOL
    norm_num
  simp only [if_neg h1]
  norm_num [Bin.at_]

/-- **C88, where the code disagrees.** A powder of this site has a pattern that is 150 bins wide, but the code looks at the frequencies along the
three axes only, finds them equal and draws a single line, for every density: bin 205 should have an intensity and stays empty. -/
theorem C88_counterexample :
    diagonalSite.Upright ∧
    (∀ (nt nOct : ℕ) (junk : ℕ → ℕ → ℂ), 1 ≤ nt → nOct = 1 ∨ nOct = 4 →
      ∃ u, spectrum WC.exact false nt nOct 1 0 1 0 101 256 512 (startRows false junk nt)
        (components WC.exact TC.exact false 1 [diagonalSite] [] (Spec.quantum [diagonalSite] [0]) (Spec.quantum [diagonalSite] [1])) = .ok u ∧
        Bin.at_ 205 u = 0) ∧
    0 < 3 * Real.pi * Spec.sphereMean fun p =>
      if (205 : ℝ) ≤ 256 + 101 * Spec.line false 1 [diagonalSite] [] [0] [1] p ∧ 256 + 101 * Spec.line false 1 [diagonalSite] [] [0] [1] p < 206
      then 1 else 0 := by
  have hpi := Real.pi_pos
  have hup : diagonalSite.Upright := ⟨Real.arccos_nonneg _, le_refl _⟩
  refine ⟨hup, ?_, ?_⟩
  · intro nt nOct junk hn hO
    set t := components WC.exact TC.exact false 1 [diagonalSite] [] (Spec.quantum [diagonalSite] [0]) (Spec.quantum [diagonalSite] [1]) with ht
    have hdir : ∀ p, dirFreq WC.exact false 1 0 t p = Spec.line false 1 [diagonalSite] [] [0] [1] p := fun p =>
      C73_energies_partial false 1 p.1 p.2 [diagonalSite] [] [0] [1] (by unfold Spec.IsState diagonalSite; simp)
        (by unfold Spec.IsState diagonalSite; simp) (by
          intro s hs
          simp only [List.mem_cons, List.not_mem_nil, or_false] at hs
          subst hs
          exact ⟨hup, le_refl _⟩) (by simp)
    have hR0 : t.R0 = 0 := by
      rw [ht]
      norm_num [components, addSites, addSite, diagonalSite, Spec.quantum, shieldingPart, addT, zeroT, fcf, ssotShielding]
      split_ifs <;> simp [scaleT]
    have hdelta := (isDelta_iff WC.exact false nt nOct hn hO junk 1 0 101 t).mpr (by
      unfold Spread
      rw [not_not]
      simp [hdir, diagonalSite_line])
    have hf0 := first_freq WC.exact false nt nOct hn hO junk 1 0 t
    rw [hdir, diagonalSite_line, hR0] at hf0
    unfold spectrum Bin.averaging1D
    unfold powderFrequencies at hdelta hf0
    dsimp only at hdelta hf0 ⊢
    rw [if_pos hdelta, hf0, hR0]
    have hlist : (Bin.fftOrder (((1 : ℕ) : ℤ)) (0 : ℝ)).zipIdx = [((0 : ℝ), 0)] := by
      simp [Bin.fftOrder]
    rw [hlist]
    have hz : (256 : ℝ) + 0 * 101 + 101 * (1 / 2 - 1 / 2 * (Real.cos (Real.pi / 2) + Real.sin (Real.pi / 2) * Real.sin 0
        - Real.sin (Real.pi / 2) * Real.cos 0) ^ 2 - 0) + 0 * 101 = 256 := by
      simp
    simp only [List.flatMap_cons, List.flatMap_nil, List.append_nil, hz]
    rw [if_pos ((inWindow_iff _ _ (by norm_num)).mpr (by norm_num))]
    obtain ⟨u, hu, su⟩ := Bin.runCalls_val ((List.range nOct).map fun j =>
      (Except.ok (Bin.octDelta nt (256 : ℝ) (fun k => amplitudeArray WC.exact false nt nOct 1 0 1 0
        (batch WC.exact false nOct (fun q => (gridBeta nt q).1) (fun q => (gridBeta nt q).2) t.R2 t.R4 nOct
          (startRows false junk nt)).1 (0 * (nOct * Bin.nPts nt) + j * Bin.nPts nt + k)) 512) : Py (Bin.Writes ℝ)))
      (by
        intro c hc
        obtain ⟨j, _, rfl⟩ := List.mem_map.mp hc
        exact ⟨_, rfl⟩)
    refine ⟨u, hu, ?_⟩
    rw [su, List.map_map]
    refine List.sum_eq_zero fun x hx => ?_
    obtain ⟨j, _, rfl⟩ := List.mem_map.mp hx
    exact delta_far _
  · refine mul_pos (by positivity) (positive_mean _ ?_ _ _ (Real.pi / 2, Real.pi / 4) ?_ ?_ ?_)
    · simp only [diagonalSite_line]
      fun_prop
    · exact ⟨⟨by positivity, by linarith⟩, ⟨by positivity, by linarith⟩⟩
    all_goals
      simp only [diagonalSite_line, Real.sin_pi_div_two, Real.cos_pi_div_two, Real.sin_pi_div_four, Real.cos_pi_div_four]
      have h2 : √2 * √2 = 2 := Real.mul_self_sqrt (by norm_num)
      nlinarith

end MRS.Freq
