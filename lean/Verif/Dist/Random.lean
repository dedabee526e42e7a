import Verif.Dist.Czjzek
import Mathlib.Probability.Distributions.Gaussian.Multivariate
import Mathlib.Probability.Distributions.Gaussian.Real
import Mathlib.LinearAlgebra.UnitaryGroup
import Mathlib.LinearAlgebra.Matrix.Trace

/-!
# The law of the random tensors — property C123

Model of the draws of `_czjzek_random_distribution_tensors` (src/mrsimulator/models/czjzek.py lines 44-68) as independent normal
variables: `np.random.normal` is trusted to draw from the distribution it is asked for. It refuses a negative sigma; the model does not.
-/

namespace MRS.Dist

open MeasureTheory ProbabilityTheory
open scoped NNReal

/-- The standard deviations of U1, sqrt_3_U2, ..., sqrt_3_U5 (czjzek.py lines 44-50). -/
noncomputable def spreads (sigma : ℝ) : Fin 5 → ℝ
  | 0 => sigma
  | _ => √3 * sigma

/-- The variances of the draws (czjzek.py lines 44-50). -/
noncomputable def variances (sigma : ℝ) (i : Fin 5) : ℝ≥0 := ⟨spreads sigma i ^ 2, sq_nonneg _⟩

/-- The joint law of the five draws for one tensor (czjzek.py lines 44-50). -/
noncomputable def draws (sigma : ℝ) : Measure (Fin 5 → ℝ) :=
  Measure.pi fun i => gaussianReal 0 (variances sigma i)

/-- The tensor of five draws (czjzek.py lines 52-66). -/
def fromDraws (u : Fin 5 → ℝ) : Mat := czjzekTensor (u 0) (u 1) (u 2) (u 3) (u 4)

/-- The law of one tensor of `_czjzek_random_distribution_tensors` (czjzek.py lines 44-68). -/
noncomputable def czjzekLaw (sigma : ℝ) : Measure Mat := (draws sigma).map fromDraws

/-! ## Specification -/

/-- The tensor seen from a turned (or inverted) frame. -/
def Spec.turned (R : Matrix (Fin 3) (Fin 3) ℝ) (t : Mat) : Mat := R * Matrix.of t * R.transpose

/-! ## Lemmas -/

theorem normSq_trace (t : Mat) : Spec.normSq t = (Matrix.of t * (Matrix.of t).transpose).trace := by
  simp only [Spec.normSq, Matrix.trace, Matrix.diag, Matrix.mul_apply, Matrix.transpose_apply, Matrix.of_apply, Fin.sum_univ_three]
  ring

theorem turned_normSq (R : Matrix (Fin 3) (Fin 3) ℝ) (hR : R.transpose * R = 1) (t : Mat) : Spec.normSq (Spec.turned R t) = Spec.normSq t := by
  rw [normSq_trace, normSq_trace]
  have e : Matrix.of (Spec.turned R t) = R * Matrix.of t * R.transpose := rfl
  rw [e, Matrix.transpose_mul, Matrix.transpose_mul, Matrix.transpose_transpose]
  rw [show R * Matrix.of t * R.transpose * (R * ((Matrix.of t).transpose * R.transpose)) =
    R * (Matrix.of t * (R.transpose * R) * (Matrix.of t).transpose * R.transpose) by simp only [Matrix.mul_assoc]]
  rw [hR, Matrix.mul_one, Matrix.trace_mul_comm, Matrix.mul_assoc, hR, Matrix.mul_one]

theorem turned_symmetric (R : Matrix (Fin 3) (Fin 3) ℝ) (t : Mat) (ht : Spec.Symmetric t) : Spec.Symmetric (Spec.turned R t) := by
  have h : (Matrix.of t).transpose = Matrix.of t := by
    ext i j
    exact ht j i
  have e : (R * Matrix.of t * R.transpose).transpose = R * Matrix.of t * R.transpose := by
    rw [Matrix.transpose_mul, Matrix.transpose_mul, Matrix.transpose_transpose, h, Matrix.mul_assoc]
  intro i j
  exact congrFun (congrFun e.symm i) j

theorem turned_traceless (R : Matrix (Fin 3) (Fin 3) ℝ) (hR : R.transpose * R = 1) (t : Mat) (ht : Spec.Traceless t) :
    Spec.Traceless (Spec.turned R t) := by
  have h : (R * Matrix.of t * R.transpose).trace = (Matrix.of t).trace := by
    rw [Matrix.trace_mul_comm, ← Matrix.mul_assoc, hR, Matrix.one_mul]
  have e : ∀ s : Mat, (Matrix.of s).trace = s 0 0 + s 1 1 + s 2 2 := by
    intro s
    simp [Matrix.trace, Matrix.diag, Fin.sum_univ_three]
  unfold Spec.Traceless at ht ⊢
  rw [← e] at ht ⊢
  exact h.trans ht

/-- Coordinates of length one. -/
abbrev E5 := EuclideanSpace ℝ (Fin 5)

/-- The tensor of five standard normal variables. -/
noncomputable def unitTensor : E5 →ₗ[ℝ] Mat where
  toFun z := czjzekTensor (z 0) (√3 * z 1) (√3 * z 2) (√3 * z 3) (√3 * z 4)
  map_add' a b := by
    funext i j
    fin_cases i <;> fin_cases j <;> simp [czjzekTensor] <;> ring
  map_smul' c a := by
    funext i j
    fin_cases i <;> fin_cases j <;> simp [czjzekTensor] <;> ring

theorem unitTensor_apply (z : E5) : unitTensor z = czjzekTensor (z 0) (√3 * z 1) (√3 * z 2) (√3 * z 3) (√3 * z 4) := rfl

theorem unitTensor_normSq (z : E5) : Spec.normSq (unitTensor z) = 6 * ‖z‖ ^ 2 := by
  rw [unitTensor_apply, (C48_symmetric_traceless.1 _ _ _ _ _).2.2, EuclideanSpace.real_norm_sq_eq, Fin.sum_univ_five]
  have : √3 ^ 2 = 3 := Real.sq_sqrt (by norm_num)
  linear_combination 2 * ((z 1) ^ 2 + (z 2) ^ 2 + (z 3) ^ 2 + (z 4) ^ 2) * this

/-- The variables of a tensor. -/
noncomputable def unitDraws : Mat →ₗ[ℝ] E5 where
  toFun t := WithLp.toLp 2 ![t 2 2 / 2, t 0 2 / √3, t 1 2 / √3, t 0 1 / √3, (t 0 0 - t 1 1) / 2 / √3]
  map_add' a b := by
    ext i
    fin_cases i <;> simp <;> ring
  map_smul' c a := by
    ext i
    fin_cases i <;> simp <;> ring

theorem unitTensor_unitDraws (t : Mat) (hs : Spec.Symmetric t) (ht : Spec.Traceless t) : unitTensor (unitDraws t) = t := by
  have h3 : √3 ≠ 0 := by positivity
  have h10 := hs 1 0
  have h20 := hs 2 0
  have h21 := hs 2 1
  unfold Spec.Traceless at ht
  rw [unitTensor_apply]
  funext i j
  fin_cases i <;> fin_cases j <;> simp [czjzekTensor, unitDraws, mul_div_cancel₀ _ h3] <;> linarith

/-- Turning as a linear map. -/
noncomputable def turnMap (R : Matrix (Fin 3) (Fin 3) ℝ) : Mat →ₗ[ℝ] Mat where
  toFun := Spec.turned R
  map_add' a b := by
    change R * (Matrix.of a + Matrix.of b) * R.transpose = R * Matrix.of a * R.transpose + R * Matrix.of b * R.transpose
    rw [Matrix.mul_add, Matrix.add_mul]
  map_smul' c a := by
    change R * (c • Matrix.of a) * R.transpose = c • (R * Matrix.of a * R.transpose)
    rw [Matrix.mul_smul, Matrix.smul_mul]

theorem unitTensor_sound (z : E5) : Spec.Symmetric (unitTensor z) ∧ Spec.Traceless (unitTensor z) :=
  ⟨(C48_symmetric_traceless.1 _ _ _ _ _).1, (C48_symmetric_traceless.1 _ _ _ _ _).2.1⟩

/-- A linear map of the tensors that keeps their form and size is an isometry of the variables. -/
theorem isometry_of (F : Mat →ₗ[ℝ] Mat) (hF : ∀ t, Spec.Symmetric t → Spec.Traceless t → Spec.Symmetric (F t) ∧ Spec.Traceless (F t))
    (hn : ∀ t, Spec.normSq (F t) = Spec.normSq t) : ∃ f : E5 ≃ₗᵢ[ℝ] E5, ∀ z, unitTensor (f z) = F (unitTensor z) := by
  let g : E5 →ₗ[ℝ] E5 := unitDraws ∘ₗ F ∘ₗ unitTensor
  have hg : ∀ z, unitTensor (g z) = F (unitTensor z) := fun z =>
    unitTensor_unitDraws _ (hF _ (unitTensor_sound z).1 (unitTensor_sound z).2).1 (hF _ (unitTensor_sound z).1 (unitTensor_sound z).2).2
  have hnorm : ∀ z, ‖g z‖ = ‖z‖ := by
    intro z
    have h1 := unitTensor_normSq (g z)
    rw [hg, hn, unitTensor_normSq] at h1
    have h2 : ‖g z‖ ^ 2 = ‖z‖ ^ 2 := by linarith
    rwa [sq_eq_sq₀ (norm_nonneg _) (norm_nonneg _)] at h2
  exact ⟨(LinearIsometry.mk g hnorm).toLinearIsometryEquiv rfl, hg⟩

theorem unitTensor_measurable : Measurable unitTensor :=
  (LinearMap.continuous_of_finiteDimensional unitTensor).measurable

theorem scaled_measurable (sigma : ℝ) : Measurable fun z => sigma • unitTensor z := unitTensor_measurable.const_smul sigma

theorem fromDraws_measurable : Measurable fromDraws := by
  refine measurable_pi_lambda _ fun i => measurable_pi_lambda _ fun j => ?_
  fin_cases i <;> fin_cases j <;> simp only [fromDraws, czjzekTensor] <;> fun_prop

/-- The law through standard normal variables. -/
theorem czjzekLaw_eq (sigma : ℝ) : czjzekLaw sigma = (stdGaussian E5).map fun z => sigma • unitTensor z := by
  have h1 : draws sigma = (Measure.pi fun _ : Fin 5 => gaussianReal 0 1).map fun x i => spreads sigma i * x i := by
    unfold draws
    rw [Measure.pi_map_pi (fun i => by fun_prop)]
    congr 1
    funext i
    rw [gaussianReal_map_const_mul]
    simp
    rfl
  unfold czjzekLaw
  rw [h1, ← map_pi_eq_stdGaussian, Measure.map_map fromDraws_measurable (by fun_prop),
    Measure.map_map (scaled_measurable sigma) (by fun_prop)]
  congr 1
  funext x
  funext i j
  fin_cases i <;> fin_cases j <;> simp [fromDraws, czjzekTensor, spreads, unitTensor] <;> ring

theorem czjzekLaw_invariant (sigma : ℝ) (F : Mat →ₗ[ℝ] Mat)
    (hF : ∀ t, Spec.Symmetric t → Spec.Traceless t → Spec.Symmetric (F t) ∧ Spec.Traceless (F t))
    (hn : ∀ t, Spec.normSq (F t) = Spec.normSq t) : (czjzekLaw sigma).map F = czjzekLaw sigma := by
  obtain ⟨f, hf⟩ := isometry_of F hF hn
  have hFm : Measurable F := (LinearMap.continuous_of_finiteDimensional F).measurable
  rw [czjzekLaw_eq, Measure.map_map hFm (scaled_measurable sigma)]
  conv_rhs => rw [← stdGaussian_map f]
  rw [Measure.map_map (scaled_measurable sigma) f.continuous.measurable]
  congr 1
  funext z
  simp only [Function.comp_apply, map_smul, hf]

theorem turned_measurable (R : Matrix (Fin 3) (Fin 3) ℝ) : Measurable (Spec.turned R) :=
  (LinearMap.continuous_of_finiteDimensional (turnMap R)).measurable

instance draws_prob (sigma : ℝ) : IsProbabilityMeasure (draws sigma) := by
  unfold draws
  infer_instance

instance czjzekLaw_prob (sigma : ℝ) : IsProbabilityMeasure (czjzekLaw sigma) :=
  Measure.isProbabilityMeasure_map fromDraws_measurable.aemeasurable

theorem gauss_sq (v : ℝ≥0) : ∫ x, x ^ 2 ∂gaussianReal 0 v = v := by
  have h := variance_of_integral_eq_zero (μ := gaussianReal 0 v) (X := id) aemeasurable_id (by simp)
  rw [variance_id_gaussianReal] at h
  simpa using h.symm

theorem gauss_sq_integrable (v : ℝ≥0) : Integrable (fun x : ℝ => x ^ 2) (gaussianReal 0 v) := by
  have h := (memLp_id_gaussianReal (μ := 0) (v := v) 2).integrable_sq
  simpa using h

theorem gauss_id_integrable (v : ℝ≥0) : Integrable (fun x : ℝ => x) (gaussianReal 0 v) := by
  have h := (memLp_id_gaussianReal (μ := 0) (v := v) 1)
  exact memLp_one_iff_integrable.1 h

theorem draws_sq (sigma : ℝ) (i : Fin 5) :
    Integrable (fun u : Fin 5 → ℝ => u i ^ 2) (draws sigma) ∧ ∫ u, u i ^ 2 ∂draws sigma = spreads sigma i ^ 2 := by
  constructor
  · exact integrable_comp_eval (μ := fun i => gaussianReal 0 (variances sigma i)) (i := i) (f := fun x : ℝ => x ^ 2) (gauss_sq_integrable _)
  · have h := integral_comp_eval (μ := fun i => gaussianReal 0 (variances sigma i)) (i := i) (f := fun x : ℝ => x ^ 2) (by fun_prop)
    rw [gauss_sq] at h
    exact h

theorem draws_id (sigma : ℝ) (i : Fin 5) :
    Integrable (fun u : Fin 5 → ℝ => u i) (draws sigma) ∧ ∫ u, u i ∂draws sigma = 0 := by
  constructor
  · exact integrable_comp_eval (μ := fun i => gaussianReal 0 (variances sigma i)) (i := i) (f := fun x : ℝ => x) (gauss_id_integrable _)
  · have h := integral_comp_eval (μ := fun i => gaussianReal 0 (variances sigma i)) (i := i) (f := fun x : ℝ => x) (by fun_prop)
    rw [integral_id_gaussianReal] at h
    exact h

theorem normSq_measurable : Measurable Spec.normSq := by
  unfold Spec.normSq
  fun_prop

theorem law_normSq (sigma : ℝ) : Integrable Spec.normSq (czjzekLaw sigma) ∧ ∫ t, Spec.normSq t ∂czjzekLaw sigma = 30 * sigma ^ 2 := by
  have e : (Spec.normSq ∘ fromDraws) = fun u => 6 * u 0 ^ 2 + (2 * u 1 ^ 2 + (2 * u 2 ^ 2 + (2 * u 3 ^ 2 + 2 * u 4 ^ 2))) := by
    funext u
    rw [Function.comp_apply, fromDraws, (C48_symmetric_traceless.1 _ _ _ _ _).2.2]
    ring
  have i0 := (draws_sq sigma 0).1.const_mul 6
  have i1 := (draws_sq sigma 1).1.const_mul 2
  have i2 := (draws_sq sigma 2).1.const_mul 2
  have i3 := (draws_sq sigma 3).1.const_mul 2
  have i4 := (draws_sq sigma 4).1.const_mul 2
  unfold czjzekLaw
  constructor
  · rw [integrable_map_measure normSq_measurable.aestronglyMeasurable fromDraws_measurable.aemeasurable, e]
    exact i0.add (i1.add (i2.add (i3.add i4)))
  · rw [integral_map fromDraws_measurable.aemeasurable normSq_measurable.aestronglyMeasurable]
    have e' : ∀ u, Spec.normSq (fromDraws u) = 6 * u 0 ^ 2 + (2 * u 1 ^ 2 + (2 * u 2 ^ 2 + (2 * u 3 ^ 2 + 2 * u 4 ^ 2))) := fun u => congrFun e u
    simp only [e']
    have a3 : Integrable (fun u : Fin 5 → ℝ => 2 * u 3 ^ 2 + 2 * u 4 ^ 2) (draws sigma) := i3.add i4
    have a2 : Integrable (fun u : Fin 5 → ℝ => 2 * u 2 ^ 2 + (2 * u 3 ^ 2 + 2 * u 4 ^ 2)) (draws sigma) := i2.add a3
    have a1 : Integrable (fun u : Fin 5 → ℝ => 2 * u 1 ^ 2 + (2 * u 2 ^ 2 + (2 * u 3 ^ 2 + 2 * u 4 ^ 2))) (draws sigma) := i1.add a2
    rw [integral_add i0 a1, integral_add i1 a2, integral_add i2 a3, integral_add i3 i4,
      integral_const_mul, integral_const_mul, integral_const_mul, integral_const_mul, integral_const_mul,
      (draws_sq sigma 0).2, (draws_sq sigma 1).2, (draws_sq sigma 2).2, (draws_sq sigma 3).2, (draws_sq sigma 4).2]
    have h3 : √3 ^ 2 = 3 := Real.sq_sqrt (by norm_num)
    simp only [spreads]
    linear_combination 8 * sigma ^ 2 * h3

theorem entry_measurable (i j : Fin 3) : Measurable fun t : Mat => t i j := by fun_prop

theorem law_mean (sigma : ℝ) (i j : Fin 3) :
    Integrable (fun t : Mat => t i j) (czjzekLaw sigma) ∧ ∫ t, t i j ∂czjzekLaw sigma = 0 := by
  have hd : ∃ c : Fin 5 → ℝ, ∀ u, fromDraws u i j = ∑ k, c k * u k := by
    fin_cases i <;> fin_cases j
    · exact ⟨![-1, 0, 0, 0, 1], fun u => by simp [fromDraws, czjzekTensor, Fin.sum_univ_five]; ring⟩
    · exact ⟨![0, 0, 0, 1, 0], fun u => by simp [fromDraws, czjzekTensor, Fin.sum_univ_five]⟩
    · exact ⟨![0, 1, 0, 0, 0], fun u => by simp [fromDraws, czjzekTensor, Fin.sum_univ_five]⟩
    · exact ⟨![0, 0, 0, 1, 0], fun u => by simp [fromDraws, czjzekTensor, Fin.sum_univ_five]⟩
    · exact ⟨![-1, 0, 0, 0, -1], fun u => by simp [fromDraws, czjzekTensor, Fin.sum_univ_five]; ring⟩
    · exact ⟨![0, 0, 1, 0, 0], fun u => by simp [fromDraws, czjzekTensor, Fin.sum_univ_five]⟩
    · exact ⟨![0, 1, 0, 0, 0], fun u => by simp [fromDraws, czjzekTensor, Fin.sum_univ_five]⟩
    · exact ⟨![0, 0, 1, 0, 0], fun u => by simp [fromDraws, czjzekTensor, Fin.sum_univ_five]⟩
    · exact ⟨![2, 0, 0, 0, 0], fun u => by simp [fromDraws, czjzekTensor, Fin.sum_univ_five]⟩
  obtain ⟨c, hc⟩ := hd
  have hi : ∀ k ∈ Finset.univ, Integrable (fun u : Fin 5 → ℝ => c k * u k) (draws sigma) := fun k _ => (draws_id sigma k).1.const_mul _
  unfold czjzekLaw
  constructor
  · rw [integrable_map_measure (entry_measurable i j).aestronglyMeasurable fromDraws_measurable.aemeasurable]
    have e : ((fun t : Mat => t i j) ∘ fromDraws) = fun u => ∑ k, c k * u k := funext hc
    rw [e]
    exact integrable_finsetSum _ hi
  · rw [integral_map fromDraws_measurable.aemeasurable (entry_measurable i j).aestronglyMeasurable]
    simp only [hc]
    rw [integral_finsetSum _ hi]
    exact Finset.sum_eq_zero fun k _ => by rw [integral_const_mul, (draws_id sigma k).2, mul_zero]

/-! ## The theorems -/

/-- **C123, no preferred direction.** The random tensors of the Czjzek model are distributed the same seen from every frame; opposite
tensors are equally likely; sigma is a scale. -/
theorem C123_isotropic (sigma : ℝ) :
    (∀ R : Matrix (Fin 3) (Fin 3) ℝ, R.transpose * R = 1 → (czjzekLaw sigma).map (Spec.turned R) = czjzekLaw sigma) ∧
    (czjzekLaw sigma).map (fun t => -t) = czjzekLaw sigma ∧
    ∀ c : ℝ, (czjzekLaw sigma).map (fun t => c • t) = czjzekLaw (c * sigma) := by
  refine ⟨?_, ?_, ?_⟩
  · intro R hR
    exact czjzekLaw_invariant sigma (turnMap R) (fun t hs ht => ⟨turned_symmetric R t hs, turned_traceless R hR t ht⟩) (turned_normSq R hR)
  · refine czjzekLaw_invariant sigma (-LinearMap.id) (fun t hs ht => ⟨fun i j => ?_, ?_⟩) (fun t => ?_)
    · exact congrArg Neg.neg (hs i j)
    · unfold Spec.Traceless at ht ⊢
      simp only [LinearMap.neg_apply, LinearMap.id_apply, Pi.neg_apply]
      linarith
    · simp only [Spec.normSq, LinearMap.neg_apply, LinearMap.id_apply, Pi.neg_apply]
      ring
  · intro c
    rw [czjzekLaw_eq, czjzekLaw_eq, Measure.map_map (by fun_prop) (scaled_measurable sigma)]
    congr 1
    funext z
    simp only [Function.comp_apply, smul_smul]

/-- **C123, centre and size.** The mean of every component is zero and the mean square size is 30 sigma². -/
theorem C123_size (sigma : ℝ) :
    (∀ i j, Integrable (fun t : Mat => t i j) (czjzekLaw sigma) ∧ ∫ t, t i j ∂czjzekLaw sigma = 0) ∧
    Integrable Spec.normSq (czjzekLaw sigma) ∧ ∫ t, Spec.normSq t ∂czjzekLaw sigma = 30 * sigma ^ 2 :=
  ⟨law_mean sigma, law_normSq sigma⟩

/-- **C123, the extended model, partial.** The samples lie around the dominant tensor: their mean is that tensor, and eps is the root
mean square of the deviation in units of its size.

Missing for the full property: zeta = 0 or eta = 0, where the code puts zero for the dominant tensor (`C51_counterexample`). -/
theorem C123_extended_partial (zeta eta eps : ℝ) (hz : zeta ≠ 0) (he : eta ≠ 0) :
    (∀ i j, ∫ t, extSample zeta eta eps t i j ∂czjzekLaw 1 = Spec.pas zeta eta i j) ∧
    ∫ t, Spec.normSq (extSample zeta eta eps t - Spec.pas zeta eta) ∂czjzekLaw 1 = eps ^ 2 * Spec.normSq (Spec.pas zeta eta) := by
  constructor
  · intro i j
    simp only [C51_sample_partial zeta eta eps hz he]
    rw [integral_add (integrable_const _) ((law_mean 1 i j).1.const_mul _), integral_const_mul, (law_mean 1 i j).2, integral_const]
    simp
  · have h : ∀ t, Spec.normSq (extSample zeta eta eps t - Spec.pas zeta eta) = eps ^ 2 * Spec.normSq (Spec.pas zeta eta) / 30 * Spec.normSq t := by
      intro t
      have e : ∀ i j, (extSample zeta eta eps t - Spec.pas zeta eta) i j = eps * √(Spec.normSq (Spec.pas zeta eta)) / √30 * t i j := by
        intro i j
        rw [Pi.sub_apply, Pi.sub_apply, C51_sample_partial zeta eta eps hz he]
        ring
      have hn : 0 ≤ Spec.normSq (Spec.pas zeta eta) := by
        unfold Spec.normSq
        positivity
      have e1 : (eps * √(Spec.normSq (Spec.pas zeta eta)) / √30) ^ 2 = eps ^ 2 * Spec.normSq (Spec.pas zeta eta) / 30 := by
        rw [div_pow, mul_pow, Real.sq_sqrt hn, Real.sq_sqrt (by norm_num)]
      rw [← e1]
      simp only [Spec.normSq, e]
      ring
    simp only [h]
    rw [integral_const_mul, (law_normSq 1).2]
    ring

/-- **C123, frames.** It does not matter in which frame the dominant tensor is written: every quantity that does not depend on the frame,
such as zeta and eta, has the same distribution. -/
theorem C123_frame {β : Type} [MeasurableSpace β] (R : Matrix (Fin 3) (Fin 3) ℝ) (hR : R.transpose * R = 1) (sigma rho : ℝ) (d : Mat)
    (f : Mat → β) (hf : Measurable f) (hinv : ∀ t, f (Spec.turned R t) = f t) :
    (czjzekLaw sigma).map (fun t => f (Spec.turned R d + rho • t)) = (czjzekLaw sigma).map (fun t => f (d + rho • t)) := by
  conv_lhs => rw [← (C123_isotropic sigma).1 R hR]
  have hm : Measurable fun t : Mat => f (Spec.turned R d + rho • t) := hf.comp (by fun_prop)
  rw [Measure.map_map hm (turned_measurable R)]
  congr 1
  funext t
  have h : Spec.turned R d + rho • Spec.turned R t = Spec.turned R (d + rho • t) := by
    have h1 := (turnMap R).map_add d (rho • t)
    rw [(turnMap R).map_smul] at h1
    exact h1.symm
  rw [Function.comp_apply, h, hinv]

/-- A quarter turn about z. -/
private def quarter : Matrix (Fin 3) (Fin 3) ℝ := !![0, -1, 0; 1, 0, 0; 0, 0, 1]

private theorem quarter_orthogonal : quarter.transpose * quarter = 1 := by
  ext i j
  fin_cases i <;> fin_cases j <;> simp [quarter, Matrix.mul_apply, Fin.sum_univ_three]

example : (czjzekLaw 2).map (Spec.turned quarter) = czjzekLaw 2 := (C123_isotropic 2).1 quarter quarter_orthogonal

/-- The turn is not trivial: it exchanges the first two axes. -/
example : Spec.turned quarter (Spec.pas 1 (1 / 2)) 0 0 = Spec.pas 1 (1 / 2) 1 1 ∧ Spec.pas 1 (1 / 2) 0 0 ≠ Spec.pas 1 (1 / 2) 1 1 := by
  constructor
  · have h : Spec.turned quarter (Spec.pas 1 (1 / 2)) 0 0 = (quarter * Matrix.of (Spec.pas 1 (1 / 2)) * quarter.transpose) 0 0 := rfl
    rw [h]
    simp only [Matrix.mul_apply, Fin.sum_univ_three, Matrix.of_apply, Matrix.transpose_apply]
    simp [quarter]
  · norm_num [Spec.pas]

example : (czjzekLaw 1).map (fun t => Spec.normSq (Spec.turned quarter (Spec.pas 1 (1 / 2)) + (3 : ℝ) • t)) =
    (czjzekLaw 1).map (fun t => Spec.normSq (Spec.pas 1 (1 / 2) + (3 : ℝ) • t)) :=
  C123_frame quarter quarter_orthogonal 1 3 _ Spec.normSq normSq_measurable (turned_normSq quarter quarter_orthogonal)

example : ∫ t, Spec.normSq (extSample 1 (1 / 2) (1 / 10) t - Spec.pas 1 (1 / 2)) ∂czjzekLaw 1 = 13 / 800 := by
  rw [(C123_extended_partial 1 (1 / 2) (1 / 10) (by norm_num) (by norm_num)).2]
  simp only [Spec.normSq, Spec.pas]
  norm_num

end MRS.Dist
