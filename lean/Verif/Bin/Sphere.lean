import Verif.Bin.Powder
import Mathlib.Analysis.SpecialFunctions.PolarCoord
import Mathlib.MeasureTheory.Function.Jacobian
import Mathlib.MeasureTheory.Topology
import Mathlib.Analysis.Analytic.Order
import Mathlib.Analysis.SpecialFunctions.Integrals.Basic

/-!
# The octahedron and the sphere

The points of a face of the octahedron seen from its centre: the polar angles of a point, the area that an element of the face covers
on the sphere, and the sets of directions along which a function that is not constant has one of its values.
-/

namespace MRS.Bin

open MeasureTheory Filter Topology Real

/-- The polar angles `(α, β)` of the directions inside an octant. -/
def octant : Set (ℝ × ℝ) := Set.Ioo 0 (π / 2) ×ˢ Set.Ioo 0 (π / 2)

/-- The sum of the coordinates of a direction. -/
noncomputable def total (p : ℝ × ℝ) : ℝ := sin p.2 * cos p.1 + sin p.2 * sin p.1 + cos p.2

/-- The point `(z, y)` of the face of the octahedron in a direction. -/
noncomputable def face (p : ℝ × ℝ) : ℝ × ℝ := (cos p.2 / total p, sin p.2 * sin p.1 / total p)

/-- Distance of a point of the face from the centre. -/
noncomputable def dist0 (q : ℝ × ℝ) : ℝ := Real.sqrt ((1 - q.1 - q.2) ^ 2 + q.2 ^ 2 + q.1 ^ 2)

theorem octant_pos (p : ℝ × ℝ) (h : p ∈ octant) : 0 < cos p.1 ∧ 0 < sin p.1 ∧ 0 < cos p.2 ∧ 0 < sin p.2 ∧ 0 < total p := by
  obtain ⟨⟨h1, h2⟩, ⟨h3, h4⟩⟩ := h
  have c1 := cos_pos_of_mem_Ioo ⟨by linarith, h2⟩
  have s1 := sin_pos_of_pos_of_lt_pi h1 (by linarith)
  have c2 := cos_pos_of_mem_Ioo ⟨by linarith, h4⟩
  have s2 := sin_pos_of_pos_of_lt_pi h3 (by linarith)
  refine ⟨c1, s1, c2, s2, ?_⟩
  unfold total
  positivity

theorem face_rest (p : ℝ × ℝ) (h : total p ≠ 0) : 1 - (face p).1 - (face p).2 = sin p.2 * cos p.1 / total p := by
  unfold face
  field_simp
  unfold total
  ring

theorem face_dist (p : ℝ × ℝ) (h : 0 < total p) : dist0 (face p) = 1 / total p := by
  unfold dist0
  rw [face_rest p h.ne']
  have : (sin p.2 * cos p.1 / total p) ^ 2 + (face p).2 ^ 2 + (face p).1 ^ 2 = (1 / total p) ^ 2 := by
    unfold face
    dsimp only
    have a := sin_sq_add_cos_sq p.1
    have b := sin_sq_add_cos_sq p.2
    field_simp
    linear_combination sin p.2 ^ 2 * a + b
  rw [this]
  exact Real.sqrt_sq (by positivity)

theorem face_mem (p : ℝ × ℝ) (h : p ∈ octant) : face p ∈ simplex := by
  obtain ⟨c1, s1, c2, s2, t⟩ := octant_pos p h
  refine ⟨by unfold face; dsimp only; positivity, by unfold face; dsimp only; positivity, ?_⟩
  have := face_rest p t.ne'
  have : 0 < 1 - (face p).1 - (face p).2 := by rw [this]; positivity
  linarith

theorem face_inj : Set.InjOn face octant := by
  intro p hp p' hp' h
  obtain ⟨c1, s1, c2, s2, t⟩ := octant_pos p hp
  obtain ⟨c1', s1', c2', s2', t'⟩ := octant_pos p' hp'
  have ht : total p = total p' := by
    have := face_dist p t
    rw [h, face_dist p' t'] at this
    field_simp at this
    exact this
  have h1 : (face p).1 = (face p').1 := by rw [h]
  have h2 : (face p).2 = (face p').2 := by rw [h]
  unfold face at h1 h2
  dsimp only at h1 h2
  rw [ht] at h1 h2
  have e1 : cos p.2 = cos p'.2 := by field_simp at h1; exact h1
  have e2 : sin p.2 * sin p.1 = sin p'.2 * sin p'.1 := by field_simp at h2; exact h2
  obtain ⟨⟨a1, a2⟩, ⟨a3, a4⟩⟩ := hp
  obtain ⟨⟨b1, b2⟩, ⟨b3, b4⟩⟩ := hp'
  have hβ : p.2 = p'.2 := injOn_cos ⟨a3.le, by linarith⟩ ⟨b3.le, by linarith⟩ e1
  rw [hβ] at e2
  have e3 : sin p.1 = sin p'.1 := mul_left_cancel₀ s2'.ne' e2
  have hα : p.1 = p'.1 := injOn_sin ⟨by linarith, by linarith⟩ ⟨by linarith, by linarith⟩ e3
  exact Prod.ext hα hβ

/-- The polar angles of a point of the face. -/
noncomputable def angles (q : ℝ × ℝ) : ℝ × ℝ :=
  (arcsin (q.2 / Real.sqrt ((1 - q.1 - q.2) ^ 2 + q.2 ^ 2)), arccos (q.1 / dist0 q))

theorem angles_face (q : ℝ × ℝ) (hq : q ∈ simplex) : angles q ∈ octant ∧ face (angles q) = q ∧ total (angles q) = 1 / dist0 q := by
  obtain ⟨z, y⟩ := q
  obtain ⟨hz, hy, hs⟩ := hq
  unfold angles dist0
  dsimp only at hz hy hs ⊢
  set x := 1 - z - y with hx
  have hx0 : 0 < x := by linarith
  set ρ := Real.sqrt (x ^ 2 + y ^ 2) with hρ
  have hρ0 : 0 < ρ := Real.sqrt_pos.mpr (by positivity)
  have hρ2 : ρ ^ 2 = x ^ 2 + y ^ 2 := Real.sq_sqrt (by positivity)
  set r := Real.sqrt (x ^ 2 + y ^ 2 + z ^ 2) with hr
  have hr0 : 0 < r := Real.sqrt_pos.mpr (by positivity)
  have hr2 : r ^ 2 = ρ ^ 2 + z ^ 2 := by
    rw [hρ2]
    exact Real.sq_sqrt (by positivity)
  have hyρ : y / ρ < 1 := by
    rw [div_lt_one hρ0]
    nlinarith
  have hzr : z / r < 1 := by
    rw [div_lt_one hr0]
    nlinarith
  have hyp : 0 < y / ρ := by positivity
  have hzp : 0 < z / r := by positivity
  have sa : sin (arcsin (y / ρ)) = y / ρ := sin_arcsin (by linarith) hyρ.le
  have ca : cos (arcsin (y / ρ)) = x / ρ := by
    rw [cos_arcsin, show 1 - (y / ρ) ^ 2 = (x / ρ) ^ 2 by field_simp; linarith]
    exact Real.sqrt_sq (by positivity)
  have cb : cos (arccos (z / r)) = z / r := cos_arccos (by linarith) hzr.le
  have sb : sin (arccos (z / r)) = ρ / r := by
    rw [sin_arccos, show 1 - (z / r) ^ 2 = (ρ / r) ^ 2 by field_simp; linarith]
    exact Real.sqrt_sq (by positivity)
  have ht : total (arcsin (y / ρ), arccos (z / r)) = 1 / r := by
    unfold total
    dsimp only
    rw [sa, ca, cb, sb]
    field_simp
    linarith
  refine ⟨⟨⟨arcsin_pos.mpr hyp, arcsin_lt_pi_div_two.mpr hyρ⟩, ⟨arccos_pos.mpr hzr, arccos_lt_pi_div_two.mpr hzp⟩⟩, ?_, ht⟩
  unfold face
  dsimp only
  rw [ht, sa, cb, sb]
  apply Prod.ext
  · dsimp only
    field_simp
  · dsimp only
    field_simp

theorem face_angles (p : ℝ × ℝ) (hp : p ∈ octant) : angles (face p) = p :=
  let h := angles_face (face p) (face_mem p hp)
  face_inj h.1 hp h.2.1

theorem dist0_pos (q : ℝ × ℝ) (hq : q ∈ simplex) : 0 < dist0 q := by
  obtain ⟨hz, _, _⟩ := hq
  exact Real.sqrt_pos.mpr (by positivity)

theorem dist0_continuous : Continuous dist0 := by
  unfold dist0
  fun_prop

theorem angles_continuous (q : ℝ × ℝ) (hq : q ∈ simplex) : ContinuousAt angles q := by
  have hd := dist0_pos q hq
  have hρ : Real.sqrt ((1 - q.1 - q.2) ^ 2 + q.2 ^ 2) ≠ 0 := by
    obtain ⟨_, hy, _⟩ := hq
    exact (Real.sqrt_pos.mpr (by positivity)).ne'
  unfold angles
  refine ContinuousAt.prodMk ?_ ?_
  · refine continuous_arcsin.continuousAt.comp ?_
    refine ContinuousAt.div (by fun_prop) ?_ hρ
    fun_prop
  · refine continuous_arccos.continuousAt.comp ?_
    exact ContinuousAt.div (by fun_prop) dist0_continuous.continuousAt hd.ne'

theorem face_image : face '' octant = simplex := by
  apply Set.Subset.antisymm
  · rintro _ ⟨p, hp, rfl⟩
    exact face_mem p hp
  · intro q hq
    have h := angles_face q hq
    exact ⟨angles q, h.1, h.2.1⟩

/-- Derivative of `face`. -/
noncomputable def dface (p : ℝ × ℝ) : ℝ × ℝ →L[ℝ] ℝ × ℝ :=
  let N0 := sin p.2 * cos p.1
  let N1 := cos p.2
  let N2 := sin p.2 * sin p.1
  let S := total p
  let Sα := N0 - N2
  let Sβ := cos p.2 * cos p.1 + cos p.2 * sin p.1 - sin p.2
  (Matrix.toLin (.finTwoProd ℝ) (.finTwoProd ℝ)
    !![-(N1 * Sα) / S ^ 2, (-sin p.2 * S - N1 * Sβ) / S ^ 2; (N0 * S - N2 * Sα) / S ^ 2,
      (cos p.2 * sin p.1 * S - N2 * Sβ) / S ^ 2]).toContinuousLinearMap

theorem face_deriv (p : ℝ × ℝ) (h : total p ≠ 0) : HasFDerivAt face (dface p) p := by
  have c1 := (hasDerivAt_cos p.1).comp_hasFDerivAt p (hasFDerivAt_fst (𝕜 := ℝ) (p := p))
  have s1 := (hasDerivAt_sin p.1).comp_hasFDerivAt p (hasFDerivAt_fst (𝕜 := ℝ) (p := p))
  have c2 := (hasDerivAt_cos p.2).comp_hasFDerivAt p (hasFDerivAt_snd (𝕜 := ℝ) (p := p))
  have s2 := (hasDerivAt_sin p.2).comp_hasFDerivAt p (hasFDerivAt_snd (𝕜 := ℝ) (p := p))
  have hS : HasFDerivAt total _ p := ((s2.mul c1).add (s2.mul s1)).add c2
  have hi := (hasDerivAt_inv h).comp_hasFDerivAt p hS
  have h1 := c2.mul hi
  have h2 := (s2.mul s1).mul hi
  have h3 := HasFDerivAt.prodMk (𝕜 := ℝ) h1 h2
  unfold dface
  rw [Matrix.toLin_finTwoProd_toContinuousLinearMap]
  refine HasFDerivAt.congr_fderiv h3 ?_
  ext <;> simp <;> field_simp <;> ring

theorem dface_det (p : ℝ × ℝ) (h : total p ≠ 0) : (dface p).det = sin p.2 / total p ^ 3 := by
  unfold dface
  simp only [LinearMap.det_toContinuousLinearMap, LinearMap.det_toLin, Matrix.det_fin_two_of]
  have a := sin_sq_add_cos_sq p.1
  have b := sin_sq_add_cos_sq p.2
  have key : -(cos p.2 * (sin p.2 * cos p.1 - sin p.2 * sin p.1) * (cos p.2 * sin p.1))
      + sin p.2 * (sin p.2 * cos p.1 * total p - sin p.2 * sin p.1 * (sin p.2 * cos p.1 - sin p.2 * sin p.1))
      + cos p.2 * (cos p.2 * cos p.1 + cos p.2 * sin p.1 - sin p.2) * (sin p.2 * cos p.1) = sin p.2 := by
    unfold total
    linear_combination sin p.2 * (sin p.2 ^ 2 + cos p.2 ^ 2) * a + sin p.2 * b
  generalize total p = S at h key
  refine Eq.trans ?_ (congrArg (· / S ^ 3) key)
  field_simp
  ring

/-- The area on the sphere that belongs to an element of the face. -/
theorem integral_face (g : ℝ × ℝ → ℝ) :
    ∫ q in simplex, g q / dist0 q ^ 3 = ∫ p in octant, sin p.2 * g (face p) := by
  have hm : MeasurableSet octant := measurableSet_Ioo.prod measurableSet_Ioo
  rw [← face_image, integral_image_eq_integral_abs_det_fderiv_smul volume hm
    (fun p hp => (face_deriv p (octant_pos p hp).2.2.2.2.ne').hasFDerivWithinAt) face_inj]
  refine setIntegral_congr_fun hm fun p hp => ?_
  obtain ⟨_, _, _, s2, t⟩ := octant_pos p hp
  rw [dface_det p t.ne', face_dist p t, abs_of_pos (by positivity), smul_eq_mul]
  field_simp

/-- A null set of directions is a null set of points of the face. -/
theorem face_null (P : ℝ × ℝ → Prop) (h : ∀ᵐ p : ℝ × ℝ, p ∈ octant → P (face p)) : ∀ᵐ q : ℝ × ℝ, q ∈ simplex → P q := by
  rw [ae_iff] at h ⊢
  have himg : {q : ℝ × ℝ | ¬ (q ∈ simplex → P q)} ⊆ face '' {p | ¬ (p ∈ octant → P (face p))} := by
    intro q hq
    have hq' : q ∈ simplex ∧ ¬ P q := by
      have : ¬ (q ∈ simplex → P q) := hq
      tauto
    obtain ⟨p, hp, rfl⟩ := face_image ▸ hq'.1
    exact ⟨p, fun hh => hq'.2 (hh hp), rfl⟩
  refine measure_mono_null himg ?_
  refine addHaar_image_eq_zero_of_differentiableOn_of_addHaar_eq_zero volume ?_ h
  intro p hp
  have hp' : p ∈ octant := by
    by_contra hn
    exact hp fun hh => absurd hh hn
  exact (face_deriv p (octant_pos p hp').2.2.2.2.ne').differentiableAt.differentiableWithinAt

/-! ## Level sets -/

/-- An analytic function of one variable. -/
theorem level_null_one (g : ℝ → ℝ) (hg : AnalyticOnNhd ℝ g Set.univ) (c : ℝ) (h : volume {x | g x = c} ≠ 0) : ∀ x, g x = c := by
  by_contra hn
  push Not at hn
  obtain ⟨x, hx⟩ := hn
  apply h
  have hg' : AnalyticOnNhd ℝ (fun x => g x - c) Set.univ := hg.sub analyticOnNhd_const
  have := hg'.preimage_zero_mem_codiscrete (x := x) (sub_ne_zero.mpr hx)
  have h2 := ae_restrict_le_codiscreteWithin (μ := (volume : Measure ℝ)) (U := Set.univ) MeasurableSet.univ this
  rw [Measure.restrict_univ, mem_ae_iff] at h2
  convert h2 using 2
  ext y
  simp [sub_eq_zero]

/-- A function of two variables, analytic in each, that is not constant. -/
theorem level_null (f : ℝ × ℝ → ℝ) (hc : Continuous f) (h1 : ∀ y, AnalyticOnNhd ℝ (fun x => f (x, y)) Set.univ)
    (h2 : ∀ x, AnalyticOnNhd ℝ (fun y => f (x, y)) Set.univ) (c : ℝ) (hne : ∃ p, f p ≠ c) : ∀ᵐ p, f p ≠ c := by
  rw [ae_iff]
  have hset : {p : ℝ × ℝ | ¬ f p ≠ c} = {p | f p = c} := by
    ext p
    simp
  rw [hset]
  have hm : MeasurableSet {p | f p = c} := measurableSet_eq_fun hc.measurable measurable_const
  by_contra hpos
  rw [Measure.volume_eq_prod, Measure.measure_prod_null hm] at hpos
  -- the lines on which the function is constant
  have hlines : volume {x : ℝ | ∀ y, f (x, y) = c} ≠ 0 := by
    intro h0
    apply hpos
    have : ∀ᵐ x : ℝ, ¬ ∀ y, f (x, y) = c := by
      rw [ae_iff]
      simpa using h0
    filter_upwards [this] with x hx
    by_contra hh
    exact hx (level_null_one (fun y => f (x, y)) (h2 x) c hh)
  obtain ⟨p, hp⟩ := hne
  apply hp
  refine level_null_one (fun x => f (x, p.2)) (h1 p.2) c ?_ p.1
  intro h0
  exact hlines (measure_mono_null (fun x (hx : ∀ y, f (x, y) = c) => hx p.2) h0)

end MRS.Bin
