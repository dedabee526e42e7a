import Verif.Bin.Triangle
import Mathlib.MeasureTheory.Integral.DivergenceTheorem
import Mathlib.MeasureTheory.Function.LocallyIntegrable
import Mathlib.Analysis.Calculus.Deriv.Pow
import Mathlib.Analysis.Calculus.Deriv.Add
import Mathlib.Analysis.Calculus.Deriv.Mul

/-!
# The area of a triangle over an interval, as an integral
-/

namespace MRS.Bin

open MeasureTheory

/-- **Specification.** Density of a triangle with base `[f0, f2]`, apex at `f1` and
area `amp`. -/
noncomputable def Spec.tent (f0 f1 f2 amp x : ℝ) : ℝ :=
  if x < f0 then 0
  else if x < f1 then 2 * amp / (f2 - f0) * ((x - f0) / (f1 - f0))
  else if x < f2 then 2 * amp / (f2 - f0) * ((f2 - x) / (f2 - f1))
  else 0

theorem tent_measurable (f0 f1 f2 amp : ℝ) : Measurable (Spec.tent f0 f1 f2 amp) := by
  unfold Spec.tent
  refine Measurable.ite measurableSet_Iio measurable_const ?_
  refine Measurable.ite measurableSet_Iio (by fun_prop) ?_
  exact Measurable.ite measurableSet_Iio (by fun_prop) measurable_const

theorem tent_bound (f0 f1 f2 amp : ℝ) (x : ℝ) :
    ‖Spec.tent f0 f1 f2 amp x‖ ≤ |2 * amp / (f2 - f0)| := by
  have key : ∀ r : ℝ, 0 ≤ r → r ≤ 1 → ‖2 * amp / (f2 - f0) * r‖ ≤ |2 * amp / (f2 - f0)| := by
    intro r h0 h1
    rw [Real.norm_eq_abs, abs_mul, abs_of_nonneg h0]
    exact mul_le_of_le_one_right (abs_nonneg _) h1
  unfold Spec.tent
  split_ifs with h1 h2 h3
  · simp
  · apply key
    · exact div_nonneg (by linarith) (by linarith)
    · rw [div_le_one (by linarith)]; linarith
  · apply key
    · exact div_nonneg (by linarith) (by linarith)
    · rw [div_le_one (by linarith)]; linarith
  · simp

theorem tent_integrable (f0 f1 f2 amp a b : ℝ) :
    IntervalIntegrable (Spec.tent f0 f1 f2 amp) volume a b := by
  rw [intervalIntegrable_iff]
  exact Measure.integrableOn_of_bounded (M := |2 * amp / (f2 - f0)|) (by simp)
    (tent_measurable ..).aestronglyMeasurable (by
      filter_upwards with x using tent_bound f0 f1 f2 amp x)

/-- Area up to `x`. -/
noncomputable def cum (f0 f1 f2 amp x : ℝ) : ℝ :=
  cumL (amp * 2 / (f2 - f0)) f0 f1 x + cumR (amp * 2 / (f2 - f0)) f1 f2 x

theorem cumL_clamp (top f0 f1 x : ℝ) (h : f0 ≤ f1) :
    cumL top f0 f1 x = top / (f1 - f0) * (max f0 (min x f1) - f0) ^ 2 / 2 := by
  rcases le_total x f0 with h0 | h0
  · rw [cumL_lo _ _ _ _ h0, min_eq_left (h0.trans h), max_eq_left h0]; ring
  · rcases le_total x f1 with h1 | h1
    · rw [cumL_mid _ _ _ _ h0 h1, min_eq_left h1, max_eq_right h0]
    · rw [cumL_hi _ _ _ _ h h1, min_eq_right h1, max_eq_right h]
      by_cases he : f1 - f0 = 0
      · rw [he]; ring
      · field_simp

theorem cumR_clamp (top f1 f2 x : ℝ) (h : f1 ≤ f2) :
    cumR top f1 f2 x = top * (f2 - f1) / 2 - top / (f2 - f1) * (f2 - max f1 (min x f2)) ^ 2 / 2 := by
  rcases eq_or_lt_of_le h with he | hlt
  · subst he
    unfold cumR
    split_ifs <;> simp
  · have hne : f2 - f1 ≠ 0 := by linarith
    rcases le_total x f1 with h0 | h0
    · rw [cumR_lo _ _ _ _ h0, min_eq_left (h0.trans h), max_eq_left h0]; field_simp; ring
    · rcases le_total x f2 with h1 | h1
      · rw [cumR_mid _ _ _ _ h0 h1 hlt, min_eq_left h1, max_eq_right h0]
      · rw [cumR_hi _ _ _ _ h h1, min_eq_right h1, max_eq_right h]; ring

theorem cum_continuous (f0 f1 f2 amp : ℝ) (h01 : f0 ≤ f1) (h12 : f1 ≤ f2) :
    Continuous (cum f0 f1 f2 amp) := by
  have : cum f0 f1 f2 amp = fun x =>
      amp * 2 / (f2 - f0) / (f1 - f0) * (max f0 (min x f1) - f0) ^ 2 / 2 +
      (amp * 2 / (f2 - f0) * (f2 - f1) / 2 -
        amp * 2 / (f2 - f0) / (f2 - f1) * (f2 - max f1 (min x f2)) ^ 2 / 2) := by
    funext x
    rw [cum, cumL_clamp _ _ _ _ h01, cumR_clamp _ _ _ _ h12]
  rw [this]
  fun_prop

theorem cum_deriv (f0 f1 f2 amp x : ℝ) (h01 : f0 ≤ f1) (h12 : f1 ≤ f2)
    (hx0 : x ≠ f0) (hx1 : x ≠ f1) (hx2 : x ≠ f2) :
    HasDerivAt (cum f0 f1 f2 amp) (Spec.tent f0 f1 f2 amp x) x := by
  unfold Spec.tent
  rcases lt_or_gt_of_ne hx0 with h0 | h0
  · rw [if_pos h0]
    refine (hasDerivAt_const x (0 : ℝ)).congr_of_eventuallyEq ?_
    filter_upwards [Iio_mem_nhds h0] with y hy
    have hy' : y < f0 := hy
    rw [cum, cumL_lo _ _ _ _ hy'.le, cumR_lo _ _ _ _ (hy'.le.trans h01), add_zero]
  rw [if_neg (not_lt.mpr h0.le)]
  rcases lt_or_gt_of_ne hx1 with h1 | h1
  · rw [if_pos h1]
    have hd : HasDerivAt (fun y => amp * 2 / (f2 - f0) / (f1 - f0) * (y - f0) ^ 2 / 2)
        (2 * amp / (f2 - f0) * ((x - f0) / (f1 - f0))) x := by
      have h : HasDerivAt (fun y => y - f0) 1 x := HasDerivAt.sub_const f0 (hasDerivAt_id' x)
      have := HasDerivAt.div_const
        (HasDerivAt.const_mul (amp * 2 / (f2 - f0) / (f1 - f0)) (HasDerivAt.pow h 2)) 2
      have hv : 2 * amp / (f2 - f0) * ((x - f0) / (f1 - f0)) =
          amp * 2 / (f2 - f0) / (f1 - f0) * (↑(2 : ℕ) * (x - f0) ^ (2 - 1) * 1) / 2 := by
        push_cast; ring
      rw [hv]
      exact this
    refine hd.congr_of_eventuallyEq ?_
    filter_upwards [Ioo_mem_nhds h0 h1] with y hy
    rw [cum, cumL_mid _ _ _ _ hy.1.le hy.2.le, cumR_lo _ _ _ _ hy.2.le, add_zero]
  rw [if_neg (not_lt.mpr h1.le)]
  rcases lt_or_gt_of_ne hx2 with h2 | h2
  · rw [if_pos h2]
    have hd : HasDerivAt (fun y => amp * 2 / (f2 - f0) * (f1 - f0) / 2 +
        (amp * 2 / (f2 - f0) * (f2 - f1) / 2 - amp * 2 / (f2 - f0) / (f2 - f1) * (f2 - y) ^ 2 / 2))
        (2 * amp / (f2 - f0) * ((f2 - x) / (f2 - f1))) x := by
      have h : HasDerivAt (fun y => f2 - y) (-1) x := HasDerivAt.const_sub f2 (hasDerivAt_id' x)
      have := HasDerivAt.const_add (amp * 2 / (f2 - f0) * (f1 - f0) / 2)
        (HasDerivAt.const_sub (amp * 2 / (f2 - f0) * (f2 - f1) / 2) (HasDerivAt.div_const
          (HasDerivAt.const_mul (amp * 2 / (f2 - f0) / (f2 - f1)) (HasDerivAt.pow h 2)) 2))
      have hv : 2 * amp / (f2 - f0) * ((f2 - x) / (f2 - f1)) =
          -(amp * 2 / (f2 - f0) / (f2 - f1) * (↑(2 : ℕ) * (f2 - x) ^ (2 - 1) * (-1)) / 2) := by
        push_cast; ring
      rw [hv]
      exact this
    refine hd.congr_of_eventuallyEq ?_
    filter_upwards [Ioo_mem_nhds h1 h2] with y hy
    rw [cum, cumL_hi _ _ _ _ h01 hy.1.le,
      cumR_mid _ _ _ _ hy.1.le hy.2.le (by linarith)]
  · rw [if_neg (not_lt.mpr h2.le)]
    refine (hasDerivAt_const x (amp * 2 / (f2 - f0) * (f1 - f0) / 2 +
      amp * 2 / (f2 - f0) * (f2 - f1) / 2)).congr_of_eventuallyEq ?_
    filter_upwards [Ioi_mem_nhds h2] with y hy
    have hy' : f2 < y := hy
    rw [cum, cumL_hi _ _ _ _ h01 (h12.trans hy'.le), cumR_hi _ _ _ _ h12 hy'.le]

theorem integral_tent (f0 f1 f2 amp a b : ℝ) (h01 : f0 ≤ f1) (h12 : f1 ≤ f2) :
    ∫ x in a..b, Spec.tent f0 f1 f2 amp x = cum f0 f1 f2 amp b - cum f0 f1 f2 amp a := by
  apply integral_eq_of_hasDerivAt_off_countable (s := {f0, f1, f2})
  · exact (Set.toFinite _).countable
  · exact (cum_continuous f0 f1 f2 amp h01 h12).continuousOn
  · rintro x ⟨-, hx⟩
    simp only [Set.mem_insert_iff, Set.mem_singleton_iff, not_or] at hx
    exact cum_deriv f0 f1 f2 amp x h01 h12 hx.1 hx.2.1 hx.2.2
  · exact tent_integrable ..

end MRS.Bin
