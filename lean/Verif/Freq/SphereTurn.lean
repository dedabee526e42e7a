import Verif.Freq.PowderPattern
import Mathlib.MeasureTheory.Measure.Lebesgue.Basic
import Mathlib.MeasureTheory.Constructions.Pi
import Mathlib.Analysis.SpecialFunctions.PolarCoord

/-!
# The mean over the sphere does not change under rotations

Only lemmas: spherical coordinates in three dimensions, and the mean of a function of the direction over a rotated sphere.
-/

namespace MRS.Freq

open MeasureTheory Real Matrix
open scoped ENNReal

theorem lint_three (G : (Fin 3 → ℝ) → ℝ≥0∞) (hG : Measurable G) : ∫⁻ x, G x = ∫⁻ z : ℝ, ∫⁻ q : ℝ × ℝ, G ![q.1, q.2, z] := by
  have e1 := (volume_preserving_piFinSuccAbove (fun _ : Fin 3 => ℝ) 2).symm
  have e2 := (volume_preserving_finTwoArrow ℝ).symm
  have hc : Measurable fun a => G ((MeasurableEquiv.piFinSuccAbove (fun _ : Fin 3 => ℝ) 2).symm a) := hG.comp e1.measurable
  rw [← e1.lintegral_comp hG, Measure.volume_eq_prod, lintegral_prod _ hc.aemeasurable]
  refine lintegral_congr fun z => ?_
  have hz : Measurable fun a => G ((MeasurableEquiv.piFinSuccAbove (fun _ : Fin 3 => ℝ) 2).symm (z, a)) := hc.comp measurable_prodMk_left
  rw [← e2.lintegral_comp hz]
  refine lintegral_congr fun q => ?_
  refine congrArg G ?_
  funext i
  fin_cases i
  · rfl
  · rfl
  · rfl

theorem lint_sphere (G : (Fin 3 → ℝ) → ℝ≥0∞) (hG : Measurable G) :
    ∫⁻ x, G x = ∫⁻ φ in Set.Ioo (-π) π, ∫⁻ p in Set.Ioi 0 ×ˢ Set.Ioo 0 π,
      ENNReal.ofReal (p.1 * (p.1 * sin p.2)) * G (p.1 • Spec.dir φ p.2) := by
  rw [lint_three G hG]
  have hm : Measurable fun a : ℝ × ℝ × ℝ => G ![a.2.1 * cos a.2.2, a.2.1 * sin a.2.2, a.1] := by
    refine hG.comp (measurable_pi_iff.mpr fun i => ?_)
    fin_cases i
    · exact measurable_snd.fst.mul (measurable_cos.comp measurable_snd.snd)
    · exact measurable_snd.fst.mul (measurable_sin.comp measurable_snd.snd)
    · exact measurable_fst
  have hF : Measurable fun a : ℝ × ℝ × ℝ => ENNReal.ofReal a.2.1 * G ![a.2.1 * cos a.2.2, a.2.1 * sin a.2.2, a.1] :=
    measurable_snd.fst.ennreal_ofReal.mul hm
  have h1 : ∀ z : ℝ, ∫⁻ q : ℝ × ℝ, G ![q.1, q.2, z] = ∫⁻ φ in Set.Ioo (-π) π, ∫⁻ ρ in Set.Ioi (0 : ℝ),
      ENNReal.ofReal ρ * G ![ρ * cos φ, ρ * sin φ, z] := by
    intro z
    rw [← lintegral_comp_polarCoord_symm]
    have : polarCoord.target = Set.Ioi (0 : ℝ) ×ˢ Set.Ioo (-π) π := rfl
    rw [this, Measure.volume_eq_prod, setLIntegral_prod_symm]
    · rfl
    · exact (hF.comp (measurable_prodMk_left (x := z))).aemeasurable
  simp only [h1]
  rw [lintegral_lintegral_swap]
  · refine lintegral_congr fun φ => ?_
    have h2 : ∀ z : ℝ, ∫⁻ ρ in Set.Ioi (0 : ℝ), ENNReal.ofReal ρ * G ![ρ * cos φ, ρ * sin φ, z]
        = ∫⁻ ρ, ENNReal.ofReal ρ * G ![ρ * cos φ, ρ * sin φ, z] := by
      intro z
      rw [← lintegral_indicator measurableSet_Ioi]
      refine lintegral_congr fun ρ => ?_
      by_cases h : 0 < ρ
      · rw [Set.indicator_of_mem (show ρ ∈ Set.Ioi 0 from h)]
      · rw [Set.indicator_of_notMem (show ρ ∉ Set.Ioi 0 from h), ENNReal.ofReal_of_nonpos (not_lt.mp h), zero_mul]
    simp only [h2]
    have hmφ : Measurable fun a : ℝ × ℝ => ENNReal.ofReal a.2 * G ![a.2 * cos φ, a.2 * sin φ, a.1] :=
      hF.comp (measurable_fst.prodMk (measurable_snd.prodMk measurable_const))
    rw [← lintegral_prod (fun a : ℝ × ℝ => ENNReal.ofReal a.2 * G ![a.2 * cos φ, a.2 * sin φ, a.1]) hmφ.aemeasurable,
      ← Measure.volume_eq_prod, ← lintegral_comp_polarCoord_symm]
    have ht : polarCoord.target = Set.Ioi (0 : ℝ) ×ˢ Set.Ioo (-π) π := rfl
    rw [ht, ← lintegral_indicator (measurableSet_Ioi.prod measurableSet_Ioo),
      ← lintegral_indicator (measurableSet_Ioi.prod measurableSet_Ioo)]
    refine lintegral_congr fun p => ?_
    obtain ⟨r, θ⟩ := p
    have hpi := Real.pi_pos
    by_cases h : 0 < r ∧ 0 < θ ∧ θ < π
    · rw [Set.indicator_of_mem (show (r, θ) ∈ Set.Ioi (0 : ℝ) ×ˢ Set.Ioo (-π) π from ⟨h.1, by linarith [h.2.1], h.2.2⟩),
        Set.indicator_of_mem (show (r, θ) ∈ Set.Ioi (0 : ℝ) ×ˢ Set.Ioo 0 π from ⟨h.1, h.2.1, h.2.2⟩)]
      change ENNReal.ofReal r * (ENNReal.ofReal (r * sin θ) * G ![r * sin θ * cos φ, r * sin θ * sin φ, r * cos θ]) = _
      rw [← mul_assoc, ← ENNReal.ofReal_mul h.1.le]
      congr 2
      funext i
      fin_cases i <;> simp [Spec.dir] <;> ring
    · rw [Set.indicator_of_notMem (show (r, θ) ∉ Set.Ioi (0 : ℝ) ×ˢ Set.Ioo 0 π from fun q => h ⟨q.1, q.2.1, q.2.2⟩)]
      by_cases h' : 0 < r ∧ -π < θ ∧ θ < π
      · rw [Set.indicator_of_mem (show (r, θ) ∈ Set.Ioi (0 : ℝ) ×ˢ Set.Ioo (-π) π from ⟨h'.1, h'.2.1, h'.2.2⟩)]
        change ENNReal.ofReal r * (ENNReal.ofReal (r * sin θ) * G ![r * sin θ * cos φ, r * sin θ * sin φ, r * cos θ]) = _
        have hθ : θ ≤ 0 := by
          by_contra hc
          exact h ⟨h'.1, not_le.mp hc, h'.2.2⟩
        rw [ENNReal.ofReal_of_nonpos (mul_nonpos_of_nonneg_of_nonpos h'.1.le (sin_nonpos_of_nonpos_of_neg_pi_le hθ h'.2.1.le)),
          zero_mul, mul_zero]
      · rw [Set.indicator_of_notMem (show (r, θ) ∉ Set.Ioi (0 : ℝ) ×ˢ Set.Ioo (-π) π from fun q => h' ⟨q.1, q.2.1, q.2.2⟩)]
  · refine Measurable.aemeasurable ?_
    have : Measurable fun a : (ℝ × ℝ) × ℝ => ENNReal.ofReal a.2 * G ![a.2 * cos a.1.2, a.2 * sin a.1.2, a.1.1] :=
      hF.comp (measurable_fst.fst.prodMk (measurable_snd.prodMk measurable_fst.snd))
    exact this.lintegral_prod_right' (ν := volume.restrict (Set.Ioi (0 : ℝ)))

/-- The integral over the sphere, in polar angles. -/
noncomputable def sphereInt (F : (Fin 3 → ℝ) → ℝ≥0∞) : ℝ≥0∞ :=
  ∫⁻ φ in Set.Ioo (-π) π, ∫⁻ θ in Set.Ioo 0 π, ENNReal.ofReal (sin θ) * F (Spec.dir φ θ)

theorem dir_unit (φ θ : ℝ) : Spec.dir φ θ ⬝ᵥ Spec.dir φ θ = 1 := by
  simp only [Spec.dir, dotProduct, Fin.sum_univ_three, cons_val_zero, cons_val_one, cons_val]
  linear_combination (sin θ) ^ 2 * sin_sq_add_cos_sq φ + sin_sq_add_cos_sq θ

/-- A function of the direction as one of the points of the unit ball. -/
noncomputable def inBall (F : (Fin 3 → ℝ) → ℝ≥0∞) (x : Fin 3 → ℝ) : ℝ≥0∞ :=
  if x ⬝ᵥ x < 1 then F ((√(x ⬝ᵥ x))⁻¹ • x) else 0

theorem dot_measurable : Measurable fun x : Fin 3 → ℝ => x ⬝ᵥ x := by
  simp only [dotProduct, Fin.sum_univ_three]
  fun_prop

theorem inBall_measurable (F : (Fin 3 → ℝ) → ℝ≥0∞) (hF : Measurable F) : Measurable (inBall F) := by
  refine Measurable.ite (dot_measurable measurableSet_Iio) (hF.comp ?_) measurable_const
  exact (dot_measurable.sqrt.inv).smul measurable_id

theorem dir_measurable : Measurable fun p : ℝ × ℝ => Spec.dir p.1 p.2 := by
  refine measurable_pi_iff.mpr fun i => ?_
  fin_cases i
  · exact (measurable_sin.comp measurable_snd).mul (measurable_cos.comp measurable_fst)
  · exact (measurable_sin.comp measurable_snd).mul (measurable_sin.comp measurable_fst)
  · exact measurable_cos.comp measurable_snd

theorem weighted_measurable (F : (Fin 3 → ℝ) → ℝ≥0∞) (hF : Measurable F) :
    Measurable fun p : ℝ × ℝ => ENNReal.ofReal (sin p.2) * F (Spec.dir p.1 p.2) :=
  (measurable_sin.comp measurable_snd).ennreal_ofReal.mul (hF.comp dir_measurable)

theorem inBall_integral (F : (Fin 3 → ℝ) → ℝ≥0∞) (hF : Measurable F) :
    ∫⁻ x, inBall F x = (∫⁻ r in Set.Ioo (0 : ℝ) 1, ENNReal.ofReal (r ^ 2)) * sphereInt F := by
  rw [lint_sphere _ (inBall_measurable F hF)]
  have hm := weighted_measurable F hF
  have inner : ∀ φ : ℝ, ∫⁻ p in Set.Ioi 0 ×ˢ Set.Ioo 0 π, ENNReal.ofReal (p.1 * (p.1 * sin p.2)) * inBall F (p.1 • Spec.dir φ p.2)
      = (∫⁻ r in Set.Ioo (0 : ℝ) 1, ENNReal.ofReal (r ^ 2)) * ∫⁻ θ in Set.Ioo 0 π, ENNReal.ofReal (sin θ) * F (Spec.dir φ θ) := by
    intro φ
    have hφ : Measurable fun θ : ℝ => ENNReal.ofReal (sin θ) * F (Spec.dir φ θ) := (weighted_measurable F hF).comp (g := fun p : ℝ × ℝ => ENNReal.ofReal (sin p.2) * F (Spec.dir p.1 p.2)) (f := fun θ : ℝ => (φ, θ)) measurable_prodMk_left
    have h1 : ∫⁻ p in Set.Ioi 0 ×ˢ Set.Ioo 0 π, ENNReal.ofReal (p.1 * (p.1 * sin p.2)) * inBall F (p.1 • Spec.dir φ p.2)
        = ∫⁻ p in Set.Ioo (0 : ℝ) 1 ×ˢ Set.Ioo 0 π, ENNReal.ofReal (p.1 ^ 2) * (ENNReal.ofReal (sin p.2) * F (Spec.dir φ p.2)) := by
      rw [← lintegral_indicator (measurableSet_Ioi.prod measurableSet_Ioo), ← lintegral_indicator (measurableSet_Ioo.prod measurableSet_Ioo)]
      refine lintegral_congr fun p => ?_
      obtain ⟨r, θ⟩ := p
      have hdot : (r • Spec.dir φ θ) ⬝ᵥ (r • Spec.dir φ θ) = r ^ 2 := by
        rw [smul_dotProduct, dotProduct_smul, dir_unit]
        simp only [smul_eq_mul, mul_one]
        ring
      by_cases h0 : 0 < r ∧ θ ∈ Set.Ioo 0 π
      · rw [Set.indicator_of_mem (show (r, θ) ∈ Set.Ioi (0 : ℝ) ×ˢ Set.Ioo 0 π from ⟨h0.1, h0.2⟩)]
        by_cases h1 : r < 1
        · rw [Set.indicator_of_mem (show (r, θ) ∈ Set.Ioo (0 : ℝ) 1 ×ˢ Set.Ioo 0 π from ⟨⟨h0.1, h1⟩, h0.2⟩)]
          unfold inBall
          dsimp only
          rw [hdot, if_pos (by nlinarith [h0.1]), Real.sqrt_sq h0.1.le, smul_smul, inv_mul_cancel₀ h0.1.ne', one_smul, ← mul_assoc (ENNReal.ofReal _),
            ← ENNReal.ofReal_mul (by positivity), pow_two, mul_assoc r r]
        · rw [Set.indicator_of_notMem (show (r, θ) ∉ Set.Ioo (0 : ℝ) 1 ×ˢ Set.Ioo 0 π from fun q => h1 q.1.2)]
          unfold inBall
          dsimp only
          rw [hdot, if_neg (by nlinarith [not_lt.mp h1]), mul_zero]
      · rw [Set.indicator_of_notMem (show (r, θ) ∉ Set.Ioi (0 : ℝ) ×ˢ Set.Ioo 0 π from fun q => h0 ⟨q.1, q.2⟩),
          Set.indicator_of_notMem (show (r, θ) ∉ Set.Ioo (0 : ℝ) 1 ×ˢ Set.Ioo 0 π from fun q => h0 ⟨q.1.1, q.2⟩)]
    rw [h1, Measure.volume_eq_prod, setLIntegral_prod]
    · simp only
      rw [← lintegral_mul_const _ (by fun_prop)]
      refine lintegral_congr fun r => ?_
      rw [lintegral_const_mul _ hφ]
    · exact (((measurable_fst.pow_const 2).ennreal_ofReal).mul (hφ.comp measurable_snd)).aemeasurable
  simp only [inner]
  unfold sphereInt
  rw [lintegral_const_mul]
  exact hm.lintegral_prod_right'

theorem radial_ne : (∫⁻ r in Set.Ioo (0 : ℝ) 1, ENNReal.ofReal (r ^ 2)) ≠ 0 ∧ (∫⁻ r in Set.Ioo (0 : ℝ) 1, ENNReal.ofReal (r ^ 2)) ≠ ∞ := by
  constructor
  · rw [Ne, lintegral_eq_zero_iff (by fun_prop)]
    intro h
    have := (ae_restrict_iff' measurableSet_Ioo).mp h
    have h0 : volume (Set.Ioo (0 : ℝ) 1) = 0 := by
      refine measure_mono_null (fun x hx => ?_) this
      intro hc
      have := hc hx
      simp only [Pi.zero_apply, ENNReal.ofReal_eq_zero] at this
      nlinarith [hx.1]
    simp at h0
  · refine ne_of_lt (lt_of_le_of_lt (setLIntegral_mono' (g := fun _ => 1) measurableSet_Ioo fun x hx => ?_) ?_)
    · rw [← ENNReal.ofReal_one]
      exact ENNReal.ofReal_le_ofReal (by nlinarith [hx.1, hx.2])
    · simp

/-- The integral over the sphere is that over the rotated sphere. -/
theorem sphereInt_turn (F : (Fin 3 → ℝ) → ℝ≥0∞) (hF : Measurable F) (Q : Matrix (Fin 3) (Fin 3) ℝ) (hQ : Qᵀ * Q = 1) :
    sphereInt (fun n => F (Q *ᵥ n)) = sphereInt F := by
  have hQm : Measurable fun n : Fin 3 → ℝ => Q *ᵥ n := (Matrix.toLin' Q).continuous_of_finiteDimensional.measurable
  have hdet : Q.det * Q.det = 1 := by
    have := congrArg Matrix.det hQ
    rwa [Matrix.det_mul, Matrix.det_transpose, Matrix.det_one] at this
  have hdet0 : Q.det ≠ 0 := fun h => by rw [h] at hdet; norm_num at hdet
  have habs : |Q.det⁻¹| = 1 := by
    rw [abs_inv]
    have : |Q.det| * |Q.det| = 1 := by rw [abs_mul_abs_self, hdet]
    have h2 : |Q.det| = 1 := by nlinarith [abs_nonneg Q.det]
    rw [h2, inv_one]
  have hmap : Measure.map (fun n : Fin 3 → ℝ => Q *ᵥ n) volume = volume := by
    have := Real.map_matrix_volume_pi_eq_smul_volume_pi hdet0
    rw [habs, ENNReal.ofReal_one, one_smul] at this
    exact this
  have hdot : ∀ x : Fin 3 → ℝ, (Q *ᵥ x) ⬝ᵥ (Q *ᵥ x) = x ⬝ᵥ x := by
    intro x
    rw [Matrix.dotProduct_mulVec, Matrix.vecMul_mulVec, hQ, Matrix.vecMul_one]
  have hball : ∀ x, inBall (fun n => F (Q *ᵥ n)) x = inBall F (Q *ᵥ x) := by
    intro x
    unfold inBall
    simp only [hdot, Matrix.mulVec_smul]
  have h : ∫⁻ x, inBall (fun n => F (Q *ᵥ n)) x = ∫⁻ x, inBall F x := by
    simp only [hball]
    rw [← lintegral_map (inBall_measurable F hF) hQm, hmap]
  rw [inBall_integral (fun n => F (Q *ᵥ n)) (hF.comp hQm), inBall_integral F hF] at h
  exact (ENNReal.mul_right_inj radial_ne.1 radial_ne.2).mp h

/-- Polar angles of a direction. -/
noncomputable def polar (n : Fin 3 → ℝ) : ℝ × ℝ := (Complex.arg ⟨n 0, n 1⟩, arccos (n 2))

theorem polar_measurable : Measurable polar := by
  unfold polar
  refine Measurable.prodMk ?_ (measurable_arccos.comp (measurable_pi_apply 2))
  refine Complex.measurable_arg.comp ?_
  have h : (fun n : Fin 3 → ℝ => (⟨n 0, n 1⟩ : ℂ)) = fun n : Fin 3 → ℝ => ((n 0 : ℝ) : ℂ) + ((n 1 : ℝ) : ℂ) * Complex.I := by
    funext n
    apply Complex.ext <;> simp
  rw [h]
  fun_prop

theorem dir_polar (n : Fin 3 → ℝ) (hn : n ⬝ᵥ n = 1) : Spec.dir (polar n).1 (polar n).2 = n := by
  simp only [dotProduct, Fin.sum_univ_three] at hn
  have hnorm : ‖(⟨n 0, n 1⟩ : ℂ)‖ = sin (arccos (n 2)) := by
    rw [sin_arccos, Complex.norm_eq_sqrt_sq_add_sq]
    congr 1
    simp only
    linarith
  have h2 : cos (arccos (n 2)) = n 2 := cos_arccos (by nlinarith) (by nlinarith)
  have hc := Complex.norm_mul_cos_arg (⟨n 0, n 1⟩ : ℂ)
  have hs := Complex.norm_mul_sin_arg (⟨n 0, n 1⟩ : ℂ)
  rw [hnorm] at hc hs
  unfold polar Spec.dir
  funext i
  fin_cases i
  · exact hc
  · exact hs
  · exact h2

theorem orth_dot (Q : Matrix (Fin 3) (Fin 3) ℝ) (hQ : Qᵀ * Q = 1) (x : Fin 3 → ℝ) : (Q *ᵥ x) ⬝ᵥ (Q *ᵥ x) = x ⬝ᵥ x := by
  rw [Matrix.dotProduct_mulVec, Matrix.vecMul_mulVec, hQ, Matrix.vecMul_one]

/-- The integral over the angles from 0 to 2π and 0 to π is that over the sphere. -/
theorem box_sphere (H : (Fin 3 → ℝ) → ℝ≥0∞) (hH : Measurable H) :
    ∫⁻ p in Set.Ioo 0 (2 * π) ×ˢ Set.Ioo 0 π, ENNReal.ofReal (sin p.2) * H (Spec.dir p.1 p.2) = sphereInt H := by
  have hm := weighted_measurable H hH
  rw [Measure.volume_eq_prod, setLIntegral_prod _ hm.aemeasurable]
  simp only
  have hpre : (fun x : ℝ => x + π) ⁻¹' Set.Ioo 0 (2 * π) = Set.Ioo (-π) π := by
    ext x
    simp only [Set.mem_preimage, Set.mem_Ioo]
    constructor <;> rintro ⟨a, b⟩ <;> constructor <;> linarith
  have hmp := (measurePreserving_add_right volume π).setLIntegral_comp_preimage (s := Set.Ioo 0 (2 * π)) measurableSet_Ioo
    (f := fun φ => ∫⁻ θ in Set.Ioo 0 π, ENNReal.ofReal (sin θ) * H (Spec.dir φ θ)) hm.lintegral_prod_right'
  rw [← hmp, hpre]
  let D : Matrix (Fin 3) (Fin 3) ℝ := Matrix.diagonal ![-1, -1, 1]
  have hD : ∀ φ θ, Spec.dir (φ + π) θ = D *ᵥ Spec.dir φ θ := by
    intro φ θ
    funext i
    rw [Matrix.mulVec_diagonal]
    fin_cases i <;> simp [Spec.dir, cos_add_pi, sin_add_pi]
  simp only [hD]
  refine sphereInt_turn H hH D ?_
  rw [Matrix.diagonal_transpose, Matrix.diagonal_mul_diagonal, ← Matrix.diagonal_one]
  congr 1
  funext i
  fin_cases i <;> simp

/-- Integrals over the sphere of functions of the direction that differ by a rotation. -/
theorem box_turn (g g' : ℝ × ℝ → ℝ≥0∞) (hg : Measurable g) (Q : Matrix (Fin 3) (Fin 3) ℝ) (hQ : Qᵀ * Q = 1)
    (h : ∀ p p' : ℝ × ℝ, Q *ᵥ Spec.dir p.1 p.2 = Spec.dir p'.1 p'.2 → g' p = g p') :
    ∫⁻ p in Set.Ioo 0 (2 * π) ×ˢ Set.Ioo 0 π, ENNReal.ofReal (sin p.2) * g' p
      = ∫⁻ p in Set.Ioo 0 (2 * π) ×ˢ Set.Ioo 0 π, ENNReal.ofReal (sin p.2) * g p := by
  have hQm : Measurable fun n : Fin 3 → ℝ => Q *ᵥ n := (Matrix.toLin' Q).continuous_of_finiteDimensional.measurable
  have hH : Measurable fun n => g (polar n) := hg.comp polar_measurable
  have h' : ∀ p, g' p = g (polar (Q *ᵥ Spec.dir p.1 p.2)) := fun p =>
    h p _ (dir_polar _ (by rw [orth_dot Q hQ, dir_unit])).symm
  have hQ' : Q * Qᵀ = 1 := mul_eq_one_comm.mp hQ
  have h0 : ∀ p, g p = g (polar (Spec.dir p.1 p.2)) := by
    intro p
    have hu : (Qᵀ *ᵥ Spec.dir p.1 p.2) ⬝ᵥ (Qᵀ *ᵥ Spec.dir p.1 p.2) = 1 := by
      rw [orth_dot Qᵀ (by rw [Matrix.transpose_transpose]; exact hQ'), dir_unit]
    have e : Q *ᵥ Spec.dir (polar (Qᵀ *ᵥ Spec.dir p.1 p.2)).1 (polar (Qᵀ *ᵥ Spec.dir p.1 p.2)).2 = Spec.dir p.1 p.2 := by
      rw [dir_polar _ hu, Matrix.mulVec_mulVec, hQ', Matrix.one_mulVec]
    rw [← h _ p e, h' _, e]
  have e1 := box_sphere (fun n => g (polar (Q *ᵥ n))) (hH.comp hQm)
  have e2 := box_sphere (fun n => g (polar n)) hH
  simp only [← h'] at e1
  simp only [← h0] at e2
  rw [e1, e2]
  exact sphereInt_turn (fun n => g (polar n)) hH Q hQ

theorem box_ofReal (g : ℝ × ℝ → ℝ) :
    ∫⁻ p in Set.Ioo 0 (2 * π) ×ˢ Set.Ioo 0 π, ENNReal.ofReal (sin p.2 * g p)
      = ∫⁻ p in Set.Ioo 0 (2 * π) ×ˢ Set.Ioo 0 π, ENNReal.ofReal (sin p.2) * ENNReal.ofReal (g p) := by
  refine setLIntegral_congr_fun (measurableSet_Ioo.prod measurableSet_Ioo) fun p hp => ?_
  exact ENNReal.ofReal_mul (sin_pos_of_mem_Ioo hp.2).le

/-- Means over the sphere of nonnegative functions that differ by a rotation. -/
theorem sphereMean_turn (g g' : ℝ × ℝ → ℝ) (hg : Measurable g) (hg' : Measurable g') (h0 : ∀ p, 0 ≤ g p)
    (Q : Matrix (Fin 3) (Fin 3) ℝ) (hQ : Qᵀ * Q = 1)
    (h : ∀ p p' : ℝ × ℝ, Q *ᵥ Spec.dir p.1 p.2 = Spec.dir p'.1 p'.2 → g' p = g p') : Spec.sphereMean g' = Spec.sphereMean g := by
  have h0' : ∀ p, 0 ≤ g' p := fun p => by
    rw [h p _ (dir_polar _ (by rw [orth_dot Q hQ, dir_unit])).symm]
    exact h0 _
  have real : ∀ f : ℝ × ℝ → ℝ, Measurable f → (∀ p, 0 ≤ f p) → ∫ p in Set.Ioo 0 (2 * π) ×ˢ Set.Ioo 0 π, sin p.2 * f p
      = (∫⁻ p in Set.Ioo 0 (2 * π) ×ˢ Set.Ioo 0 π, ENNReal.ofReal (sin p.2) * ENNReal.ofReal (f p)).toReal := by
    intro f hf hp
    rw [← box_ofReal, integral_eq_lintegral_of_nonneg_ae]
    · refine (ae_restrict_iff' (measurableSet_Ioo.prod measurableSet_Ioo)).mpr (Filter.Eventually.of_forall fun p hp' => ?_)
      exact mul_nonneg (sin_pos_of_mem_Ioo hp'.2).le (hp p)
    · exact ((measurable_sin.comp measurable_snd).mul hf).aestronglyMeasurable
  unfold Spec.sphereMean
  rw [real g' hg' h0', real g hg h0, box_turn (fun p => ENNReal.ofReal (g p)) (fun p => ENNReal.ofReal (g' p)) hg.ennreal_ofReal Q hQ
    fun p p' e => by rw [h p p' e]]

/-- The same for continuous functions. -/
theorem sphereMean_turn_continuous (g g' : ℝ × ℝ → ℝ) (hg : Continuous g) (hg' : Continuous g')
    (Q : Matrix (Fin 3) (Fin 3) ℝ) (hQ : Qᵀ * Q = 1)
    (h : ∀ p p' : ℝ × ℝ, Q *ᵥ Spec.dir p.1 p.2 = Spec.dir p'.1 p'.2 → g' p = g p') : Spec.sphereMean g' = Spec.sphereMean g := by
  have hint : ∀ f : ℝ × ℝ → ℝ, Continuous f → IntegrableOn (fun p : ℝ × ℝ => sin p.2 * f p) (Set.Ioo 0 (2 * π) ×ˢ Set.Ioo 0 π) := by
    intro f hf
    have hc : Continuous fun p : ℝ × ℝ => sin p.2 * f p := (continuous_sin.comp continuous_snd).mul hf
    exact (hc.continuousOn.integrableOn_compact (isCompact_Icc.prod isCompact_Icc)).mono_set
      (Set.prod_mono Set.Ioo_subset_Icc_self Set.Ioo_subset_Icc_self)
  have neg : ∀ f : ℝ × ℝ → ℝ, ∫⁻ p in Set.Ioo 0 (2 * π) ×ˢ Set.Ioo 0 π, ENNReal.ofReal (-(sin p.2 * f p))
      = ∫⁻ p in Set.Ioo 0 (2 * π) ×ˢ Set.Ioo 0 π, ENNReal.ofReal (sin p.2) * ENNReal.ofReal (-f p) := by
    intro f
    rw [← box_ofReal]
    simp only [mul_neg]
  unfold Spec.sphereMean
  rw [integral_eq_lintegral_pos_part_sub_lintegral_neg_part (hint g' hg'), integral_eq_lintegral_pos_part_sub_lintegral_neg_part (hint g hg),
    neg, neg, box_ofReal, box_ofReal,
    box_turn (fun p => ENNReal.ofReal (g p)) (fun p => ENNReal.ofReal (g' p)) hg.measurable.ennreal_ofReal Q hQ fun p p' e => by rw [h p p' e],
    box_turn (fun p => ENNReal.ofReal (-g p)) (fun p => ENNReal.ofReal (-g' p)) hg.measurable.neg.ennreal_ofReal Q hQ fun p p' e => by rw [h p p' e]]

end MRS.Freq
