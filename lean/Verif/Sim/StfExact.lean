import Mathlib.Analysis.SpecialFunctions.Pow.Real
import Mathlib.Tactic.NormNum
import Mathlib.Tactic.Linarith
import Mathlib.Tactic.Positivity
import Verif.Sim.Stf

/-!
# Accuracy of the spin transition functions — property C45

The functions of src/c_lib/include/frequency/spin_transition_functions.h against the diagonal
elements of the irreducible tensor operators that the header documents (lines 12-29, 31-44,
50-64, 74-90).
-/

namespace MRS.Sim

/-! ## Specification -/

/-- `⟨m|T̂₂₀|m⟩` for spin `S`: `(3 m² - S (S + 1)) / √6`. -/
noncomputable def Spec.T20 (S m : ℝ) : ℝ := (3 * m ^ 2 - S * (S + 1)) / √6

/-- `⟨m|T̂₃₀|m⟩` for spin `S`: `m (5 m² + 1 - 3 S (S + 1)) / √10`. -/
noncomputable def Spec.T30 (S m : ℝ) : ℝ := m * (5 * m ^ 2 + 1 - 3 * (S * (S + 1))) / √10

/-- The factors of the second-order functions documented at lines 77-85: those of
`[S (S + 1) - 3/4] 𝕡` and those of `𝕗`, for ranks 0, 2 and 4. -/
noncomputable def Spec.cP : Fin 3 → ℝ
  | 0 => 4 / √125
  | 1 => √(2 / 175)
  | 2 => -√(18 / 875)

/-- See `Spec.cP`. -/
noncomputable def Spec.cF : Fin 3 → ℝ
  | 0 => √(18 / 25)
  | 1 => -6 / √35
  | 2 => -17 / √175

/-- The documented second-order function of rank `2 k`. -/
noncomputable def Spec.cL (k : Fin 3) (S mf mi : ℝ) : ℝ :=
  Spec.cP k * ((S * (S + 1) - 3 / 4) * (mf - mi)) +
    Spec.cF k * (Spec.T30 S mf - Spec.T30 S mi)

/-! ## Proofs -/

/-- Bracketing a square root. -/
theorem sqrt_near (c s e : ℝ) (he : 0 ≤ e) (hc : e ≤ c) (h1 : (c - e) ^ 2 ≤ s)
    (h2 : s ≤ (c + e) ^ 2) : |c - √s| ≤ e := by
  have a : c - e ≤ √s := Real.le_sqrt_of_sq_le h1
  have b : √s ≤ c + e := Real.sqrt_le_iff.2 ⟨by linarith, h2⟩
  rw [abs_le]
  constructor <;> linarith

theorem div_sqrt_eq (a s : ℝ) (ha : 0 ≤ a) : a / √s = √(a ^ 2 / s) := by
  rw [Real.sqrt_div (sq_nonneg a), Real.sqrt_sq ha]

theorem T20_diff (S mf mi : ℝ) :
    Spec.T20 S mf - Spec.T20 S mi = √(3 / 2) * (mf * mf - mi * mi) := by
  have : √(3 / 2) = 3 / √6 := by
    rw [div_sqrt_eq 3 6 (by norm_num)]
    norm_num
  rw [this]
  unfold Spec.T20
  ring

theorem T30_diff (S mf mi : ℝ) : Spec.T30 S mf - Spec.T30 S mi =
    √(1 / 10) * ((1 - 3 * S * (S + 1)) * (mf - mi) + 5 * (mf * mf * mf - mi * mi * mi)) := by
  have : √(1 / 10) = 1 / √10 := by
    rw [div_sqrt_eq 1 10 (by norm_num)]
    norm_num
  rw [this]
  unfold Spec.T30
  ring

theorem near_mul (c s e x : ℝ) (h : |c - s| ≤ e) : |c * x - s * x| ≤ e * |x| := by
  rw [← sub_mul, abs_mul]
  exact mul_le_mul_of_nonneg_right h (abs_nonneg _)

/-- A sum of two terms, each a product of nearly right factors. -/
theorem near_sum (c c' d d' g g' t x : ℝ) (hc : |c - c'| ≤ 1 / 10 ^ 10)
    (hd : |d - d'| ≤ 1 / 10 ^ 10) (hg : |g - g'| ≤ 1 / 10 ^ 10) (hd1 : |d'| ≤ 3 / 2)
    (hg1 : |g| ≤ 1 / 2) :
    |(c * t + d * (x * g)) - (c' * t + d' * (g' * x))| ≤ 2 / 10 ^ 10 * (|t| + |x|) := by
  have e : (c * t + d * (x * g)) - (c' * t + d' * (g' * x)) =
      (c - c') * t + ((d - d') * g + d' * (g - g')) * x := by ring
  rw [e]
  have h1 : |(c - c') * t| ≤ 1 / 10 ^ 10 * |t| := by
    rw [abs_mul]
    exact mul_le_mul_of_nonneg_right hc (abs_nonneg _)
  have h2 : |(d - d') * g + d' * (g - g')| ≤ 2 / 10 ^ 10 := by
    refine (abs_add_le _ _).trans ?_
    rw [abs_mul, abs_mul]
    have a : |d - d'| * |g| ≤ 1 / 10 ^ 10 * (1 / 2) :=
      mul_le_mul hd hg1 (abs_nonneg _) (by norm_num)
    have b : |d'| * |g - g'| ≤ 3 / 2 * (1 / 10 ^ 10) :=
      mul_le_mul hd1 hg (abs_nonneg _) (by norm_num)
    linarith
  have h3 : |((d - d') * g + d' * (g - g')) * x| ≤ 2 / 10 ^ 10 * |x| := by
    rw [abs_mul]
    exact mul_le_mul_of_nonneg_right h2 (abs_nonneg _)
  refine (abs_add_le _ _).trans ?_
  have := abs_nonneg t
  linarith

theorem near_g : |(316227766 / 1000000000 : ℝ) - √(1 / 10)| ≤ 1 / 10 ^ 10 :=
  sqrt_near _ _ _ (by norm_num) (by norm_num) (by norm_num) (by norm_num)

/-- **C45 (accuracy).** For all quantum numbers the functions of the code are the differences of
the diagonal elements of the tensor operators of rank 1, 2 and 3 between the final and the
initial state, and the documented second-order combinations, up to a relative error of
2·10⁻¹⁰ in each term. -/
theorem C45_accuracy (mf mi S : ℚ) :
    (stfP mf mi : ℝ) = mf - mi ∧
    |(stfD mf mi : ℝ) - (Spec.T20 S mf - Spec.T20 S mi)| ≤
      1 / 10 ^ 10 * |(mf : ℝ) ^ 2 - (mi : ℝ) ^ 2| ∧
    |(stfF mf mi S : ℝ) - (Spec.T30 S mf - Spec.T30 S mi)| ≤
      1 / 10 ^ 10 * |(1 - 3 * (S : ℝ) * (S + 1)) * (mf - mi) + 5 * ((mf : ℝ) ^ 3 - (mi : ℝ) ^ 3)| ∧
    ∀ (k : Fin 3) (v : ℚ), [(stfCL mf mi S).1, (stfCL mf mi S).2.1, (stfCL mf mi S).2.2][k]? =
        some v →
      |(v : ℝ) - Spec.cL k S mf mi| ≤ 2 / 10 ^ 10 *
        (|((S : ℝ) * (S + 1) - 3 / 4) * (mf - mi)| +
          |(1 - 3 * (S : ℝ) * (S + 1)) * (mf - mi) + 5 * ((mf : ℝ) ^ 3 - (mi : ℝ) ^ 3)|) := by
  refine ⟨by simp [stfP], ?_, ?_, ?_⟩
  · rw [T20_diff]
    have := near_mul (12247448714 / 10000000000) (√(3 / 2)) (1 / 10 ^ 10)
      ((mf : ℝ) * mf - mi * mi)
      (sqrt_near _ _ _ (by norm_num) (by norm_num) (by norm_num) (by norm_num))
    unfold stfD
    push_cast
    convert this using 3
    ring
  · rw [T30_diff]
    have := near_mul (316227766 / 1000000000) (√(1 / 10)) (1 / 10 ^ 10)
      ((1 - 3 * (S : ℝ) * (S + 1)) * (mf - mi) + 5 * (mf * mf * mf - mi * mi * mi)) near_g
    unfold stfF
    push_cast
    convert this using 3
    · ring
    · ring
  · intro k v hv
    have hg1 : |(316227766 / 1000000000 : ℝ)| ≤ 1 / 2 := by
      rw [abs_of_nonneg] <;> norm_num
    have hx : (1 - 3 * (S : ℝ) * (S + 1)) * (mf - mi) + 5 * ((mf : ℝ) ^ 3 - (mi : ℝ) ^ 3) =
        (1 - 3 * (S : ℝ) * (S + 1)) * (mf - mi) + 5 * (mf * mf * mf - mi * mi * mi) := by ring
    rw [hx]
    unfold Spec.cL
    rw [T30_diff]
    fin_cases k
    · obtain rfl : (stfCL mf mi S).1 = v := by simpa using hv
      have := near_sum (3577708764 / 10000000000) (4 / √125) (8485281374 / 10000000000)
        (√(18 / 25)) (316227766 / 1000000000) (√(1 / 10)) (((S : ℝ) * (S + 1) - 3 / 4) * (mf - mi))
        ((1 - 3 * (S : ℝ) * (S + 1)) * (mf - mi) + 5 * (mf * mf * mf - mi * mi * mi))
        (by
          rw [div_sqrt_eq 4 125 (by norm_num)]
          exact sqrt_near _ _ _ (by norm_num) (by norm_num) (by norm_num) (by norm_num))
        (sqrt_near _ _ _ (by norm_num) (by norm_num) (by norm_num) (by norm_num)) near_g
        (by
          rw [abs_of_nonneg (Real.sqrt_nonneg _)]
          exact Real.sqrt_le_iff.2 ⟨by norm_num, by norm_num⟩) hg1
      unfold stfCL stfF stfP
      push_cast
      exact this
    · obtain rfl : (stfCL mf mi S).2.1 = v := by simpa using hv
      have := near_sum (1069044968 / 10000000000) (√(2 / 175)) (-10141851057 / 10000000000)
        (-6 / √35) (316227766 / 1000000000) (√(1 / 10)) (((S : ℝ) * (S + 1) - 3 / 4) * (mf - mi))
        ((1 - 3 * (S : ℝ) * (S + 1)) * (mf - mi) + 5 * (mf * mf * mf - mi * mi * mi))
        (sqrt_near _ _ _ (by norm_num) (by norm_num) (by norm_num) (by norm_num))
        (by
          rw [neg_div, neg_div, div_sqrt_eq 6 35 (by norm_num), neg_sub_neg, abs_sub_comm]
          exact sqrt_near _ _ _ (by norm_num) (by norm_num) (by norm_num) (by norm_num)) near_g
        (by
          rw [neg_div, div_sqrt_eq 6 35 (by norm_num), abs_neg, abs_of_nonneg (Real.sqrt_nonneg _)]
          exact Real.sqrt_le_iff.2 ⟨by norm_num, by norm_num⟩) hg1
      unfold stfCL stfF stfP
      push_cast
      exact this
    · obtain rfl : (stfCL mf mi S).2.2 = v := by simpa using hv
      have := near_sum (-1434274331 / 10000000000) (-√(18 / 875)) (-12850792082 / 10000000000)
        (-17 / √175) (316227766 / 1000000000) (√(1 / 10)) (((S : ℝ) * (S + 1) - 3 / 4) * (mf - mi))
        ((1 - 3 * (S : ℝ) * (S + 1)) * (mf - mi) + 5 * (mf * mf * mf - mi * mi * mi))
        (by
          rw [neg_div, neg_sub_neg, abs_sub_comm]
          exact sqrt_near _ _ _ (by norm_num) (by norm_num) (by norm_num) (by norm_num))
        (by
          rw [neg_div, neg_div, div_sqrt_eq 17 175 (by norm_num), neg_sub_neg, abs_sub_comm]
          exact sqrt_near _ _ _ (by norm_num) (by norm_num) (by norm_num) (by norm_num)) near_g
        (by
          rw [neg_div, div_sqrt_eq 17 175 (by norm_num), abs_neg,
            abs_of_nonneg (Real.sqrt_nonneg _)]
          exact Real.sqrt_le_iff.2 ⟨by norm_num, by norm_num⟩) hg1
      unfold stfCL stfF stfP
      push_cast
      exact this

/-- For the central transition of a spin 5/2 the bounds are below 10⁻⁸ and the functions are of
order one. -/
example : (1 / 10 ^ 10 : ℚ) * |(1 - 3 * (5 / 2 : ℚ) * (5 / 2 + 1)) * (-1 / 2 - 1 / 2) +
    5 * ((-1 / 2 : ℚ) ^ 3 - (1 / 2) ^ 3)| < 1 / 10 ^ 8 ∧ 1 < stfF (-1 / 2) (1 / 2) (5 / 2) := by
  decide +kernel

end MRS.Sim
