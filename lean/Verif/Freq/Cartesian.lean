import Verif.Freq.Rotation
import Verif.Freq.WignerNear
import Mathlib.Tactic.FinCases

/-!
# Rank 2 tensors as symmetric matrices
-/

set_option linter.unusedSimpArgs false

namespace MRS.Freq

open Complex ComplexConjugate Matrix

/-! ## Specification 2: Cartesian tensors -/

/-- Rotation about the z axis. -/
noncomputable def Spec.Rz (α : ℝ) : Matrix (Fin 3) (Fin 3) ℝ :=
  !![Real.cos α, -Real.sin α, 0; Real.sin α, Real.cos α, 0; 0, 0, 1]

/-- Rotation about the y axis. -/
noncomputable def Spec.Ry (β : ℝ) : Matrix (Fin 3) (Fin 3) ℝ :=
  !![Real.cos β, 0, Real.sin β; 0, 1, 0; -Real.sin β, 0, Real.cos β]

/-- The rotation with Euler angles α, β, γ (z-y-z). -/
noncomputable def Spec.euler (α β γ : ℝ) : Matrix (Fin 3) (Fin 3) ℝ :=
  Spec.Rz α * Spec.Ry β * Spec.Rz γ

/-- The spherical components (index `i` holds `m = i - 2`) of a symmetric traceless matrix, normalised so that
the component `m = 0` is the zz element. -/
noncomputable def Spec.sph (A : Matrix (Fin 3) (Fin 3) ℝ) : ℕ → ℂ
  | 0 => ⟨(A 0 0 - A 1 1) / √6, -2 * A 0 1 / √6⟩
  | 1 => ⟨2 * A 0 2 / √6, -2 * A 1 2 / √6⟩
  | 2 => ⟨A 2 2, 0⟩
  | 3 => ⟨-2 * A 0 2 / √6, -2 * A 1 2 / √6⟩
  | 4 => ⟨(A 0 0 - A 1 1) / √6, 2 * A 0 1 / √6⟩
  | _ => 0

theorem exp_parts (α : ℝ) : exp (α * I) = ⟨Real.cos α, Real.sin α⟩ := by
  apply Complex.ext
  · exact Complex.exp_ofReal_mul_I_re α
  · exact Complex.exp_ofReal_mul_I_im α

theorem sph_rz (A : Matrix (Fin 3) (Fin 3) ℝ) (hA : A.IsSymm) (α : ℝ) (i : ℕ) (hi : i < 5) :
    phased 2 (exp (α * I)) (Spec.sph A) i = Spec.sph ((Spec.Rz α)ᵀ * A * Spec.Rz α) i := by
  have h01 : A 1 0 = A 0 1 := hA.apply 0 1
  have h02 : A 2 0 = A 0 2 := hA.apply 0 2
  have h12 : A 2 1 = A 1 2 := hA.apply 1 2
  have hq : √(6 : ℝ) ≠ 0 := by positivity
  have hcs := Real.cos_sq_add_sin_sq α
  rw [exp_parts]
  interval_cases i <;> apply Complex.ext <;>
    simp [phased, Spec.sph, Spec.Rz, Matrix.mul_apply, Fin.sum_univ_three, pow_two, h01, h02, h12] <;>
    field_simp <;> ring

theorem sph_ry (A : Matrix (Fin 3) (Fin 3) ℝ) (hA : A.IsSymm) (ht : A.trace = 0) (β : ℝ) (i : ℕ) (hi : i < 5) :
    applyW 2 (wMatrix WC.exact 2 (Real.cos β) (Real.sin β)) (Spec.sph A) i
      = Spec.sph ((Spec.Ry β)ᵀ * A * Spec.Ry β) i := by
  have h01 : A 1 0 = A 0 1 := hA.apply 0 1
  have h02 : A 2 0 = A 0 2 := hA.apply 0 2
  have h12 : A 2 1 = A 1 2 := hA.apply 1 2
  have htr : A 2 2 = -A 0 0 - A 1 1 := by
    have := ht
    simp only [Matrix.trace, Matrix.diag, Fin.sum_univ_three] at this
    linarith
  have hq : √(6 : ℝ) ≠ 0 := by positivity
  have h6 : √(6 : ℝ) ^ 2 = 6 := Real.sq_sqrt (by norm_num)
  have hs : Real.sin β ^ 2 = 1 - Real.cos β ^ 2 := Real.sin_sq β
  generalize hc' : Real.cos β = c at *
  generalize hs' : Real.sin β = s at *
  generalize hq' : √(6 : ℝ) = q at *
  interval_cases i <;> apply Complex.ext <;>
    simp [applyW, wMatrix, Finset.sum_range_succ, Nat.reduceMul, Nat.reduceAdd, Nat.reduceSub, wentry, WC.exact, Spec.sph, Spec.Ry,
      Matrix.mul_apply, Fin.sum_univ_three, h01, h02, h12, htr, hc', hs', hq'] <;>
    field_simp <;> grind

theorem applyW_congr (l : ℕ) (w : ℕ → ℝ) (v v' : ℕ → ℂ) (h : ∀ j < 2 * l + 1, v j = v' j) (i : ℕ) :
    applyW l w v i = applyW l w v' i := by
  unfold applyW
  exact Finset.sum_congr rfl (fun j hj => by rw [h j (Finset.mem_range.mp hj)])

theorem phased_congr (l : ℕ) (z : ℂ) (v v' : ℕ → ℂ) (i : ℕ) (h : v i = v' i) :
    phased l z v i = phased l z v' i := by
  unfold phased
  rw [h]

theorem symm_conj (A M : Matrix (Fin 3) (Fin 3) ℝ) (hA : A.IsSymm) : (Mᵀ * A * M).IsSymm := by
  unfold Matrix.IsSymm
  rw [Matrix.transpose_mul, Matrix.transpose_mul, Matrix.transpose_transpose, hA.eq, Matrix.mul_assoc]

theorem rz_orth (α : ℝ) : Spec.Rz α * (Spec.Rz α)ᵀ = 1 := by
  have h := Real.cos_sq_add_sin_sq α
  ext i j
  fin_cases i <;> fin_cases j <;>
    simp [Spec.Rz, Matrix.mul_apply, Fin.sum_univ_three] <;> linarith

theorem ry_orth (β : ℝ) : Spec.Ry β * (Spec.Ry β)ᵀ = 1 := by
  have h := Real.cos_sq_add_sin_sq β
  ext i j
  fin_cases i <;> fin_cases j <;>
    simp [Spec.Ry, Matrix.mul_apply, Fin.sum_univ_three] <;> linarith

theorem trace_conj (A M : Matrix (Fin 3) (Fin 3) ℝ) (hM : M * Mᵀ = 1) : (Mᵀ * A * M).trace = A.trace := by
  rw [Matrix.trace_mul_comm, ← Matrix.mul_assoc, hM, Matrix.one_mul]

theorem rotation_cartesian (A : Matrix (Fin 3) (Fin 3) ℝ) (hA : A.IsSymm) (ht : A.trace = 0) (α β γ : ℝ)
    (R : ℕ → ℂ) (hR : ∀ i < 5, R i = Spec.sph A i) (i : ℕ) (hi : i < 5) :
    singleRotation WC.exact 2 α β γ R i
      = Spec.sph ((Spec.euler α |β| γ)ᵀ * A * Spec.euler α |β| γ) i := by
  unfold singleRotation
  simp only [trig_exact]
  have h1 : ∀ j < 5, phased 2 (exp (α * I)) R j = Spec.sph ((Spec.Rz α)ᵀ * A * Spec.Rz α) j := by
    intro j hj
    rw [phased_congr 2 _ _ _ j (hR j hj)]
    exact sph_rz A hA α j hj
  have hA1 := symm_conj A (Spec.Rz α) hA
  have ht1 : ((Spec.Rz α)ᵀ * A * Spec.Rz α).trace = 0 := by rw [trace_conj _ _ (rz_orth α), ht]
  have h2 : ∀ j < 5, applyW 2 (wMatrix WC.exact 2 (Real.cos |β|) (Real.sin |β|)) (phased 2 (exp (α * I)) R) j
      = Spec.sph ((Spec.Ry |β|)ᵀ * ((Spec.Rz α)ᵀ * A * Spec.Rz α) * Spec.Ry |β|) j := by
    intro j hj
    rw [applyW_congr 2 _ _ _ h1]
    exact sph_ry _ hA1 ht1 |β| j hj
  rw [phased_congr 2 _ _ _ i (h2 i hi), sph_rz _ (symm_conj _ _ hA1) γ i hi]
  congr 1
  unfold Spec.euler
  simp only [Matrix.transpose_mul, Matrix.mul_assoc]

/-- C71: rotating the components of a rank 2 tensor by Euler angles with `β ≥ 0` gives the components of the
tensor in the rotated frame.  Not true for `β < 0`, see the counterexample. -/
theorem C71_cartesian_partial (A : Matrix (Fin 3) (Fin 3) ℝ) (hA : A.IsSymm) (ht : A.trace = 0) (α β γ : ℝ)
    (hβ : 0 ≤ β) (i : ℕ) (hi : i < 5) :
    singleRotation WC.exact 2 α β γ (Spec.sph A) i
      = Spec.sph ((Spec.euler α β γ)ᵀ * A * Spec.euler α β γ) i := by
  have := rotation_cartesian A hA ht α β γ (Spec.sph A) (fun _ _ => rfl) i hi
  rwa [abs_of_nonneg hβ] at this

example (i : ℕ) (hi : i < 5) : singleRotation WC.exact 2 1 2 3 (Spec.sph !![1, 4, 5; 4, 2, 6; 5, 6, -3]) i
    = Spec.sph ((Spec.euler 1 2 3)ᵀ * !![1, 4, 5; 4, 2, 6; 5, 6, -3] * Spec.euler 1 2 3) i :=
  C71_cartesian_partial _ (by ext i j; fin_cases i <;> fin_cases j <;> rfl)
    (by simp [Matrix.trace, Fin.sum_univ_three]; norm_num) 1 2 3 (by norm_num) i hi

/-- With a negative polar angle the tensor is turned the wrong way: turning `diag(-1/2, -1/2, 1)` by
`β = -π/4` should give an xz element of the opposite sign. -/
theorem C71_counterexample :
    singleRotation WC.exact 2 0 (-(Real.pi / 4)) 0 (Spec.sph !![-1/2, 0, 0; 0, -1/2, 0; 0, 0, 1]) 1
      ≠ Spec.sph ((Spec.euler 0 (-(Real.pi / 4)) 0)ᵀ * !![-1/2, 0, 0; 0, -1/2, 0; 0, 0, 1]
          * Spec.euler 0 (-(Real.pi / 4)) 0) 1 := by
  rw [rotation_cartesian !![-1/2, 0, 0; 0, -1/2, 0; 0, 0, 1]
    (by ext i j; fin_cases i <;> fin_cases j <;> rfl)
    (by simp [Matrix.trace, Fin.sum_univ_three]) 0 (-(Real.pi / 4)) 0 _ (fun _ _ => rfl) 1 (by norm_num)]
  rw [abs_neg, abs_of_nonneg (by positivity)]
  intro h
  have h' := congrArg Complex.re h
  have hp : (0 : ℝ) < √2 := by positivity
  have hq : (0 : ℝ) < √6 := by positivity
  have h2 : √(2 : ℝ) ^ 2 = 2 := Real.sq_sqrt (by norm_num)
  simp [Spec.sph, Spec.euler, Spec.Rz, Spec.Ry, Matrix.mul_apply, Fin.sum_univ_three, Real.cos_neg, Real.sin_neg,
    Real.cos_pi_div_four, Real.sin_pi_div_four] at h'
  field_simp at h'
  nlinarith

/-- C71: in terms of binary forms, both ranks are rotated by the element of SU(2) with the given Euler
angles (`β ≥ 0`). -/
theorem C71_forms_partial (l : ℕ) (hl : l = 2 ∨ l = 4) (α β γ : ℝ) (hβ : 0 ≤ β) (R : ℕ → ℂ) (x y : ℂ) :
    Spec.form l (singleRotation WC.exact l α β γ R) x y
      = Spec.form l R
          (exp (-(α / 2) * I) * (Real.cos (β / 2) * (exp (-(γ / 2) * I) * x)
            - Real.sin (β / 2) * (exp ((γ / 2) * I) * y)))
          (exp ((α / 2) * I) * (Real.sin (β / 2) * (exp (-(γ / 2) * I) * x)
            + Real.cos (β / 2) * (exp ((γ / 2) * I) * y))) := by
  unfold singleRotation
  simp only [trig_exact]
  rw [abs_of_nonneg hβ, form_phased, form_applyW l hl, form_phased]

example (R : ℕ → ℂ) (x y : ℂ) : Spec.form 4 (singleRotation WC.exact 4 0 Real.pi 0 R) x y
    = Spec.form 4 R (-y) x := by
  rw [C71_forms_partial 4 (Or.inr rfl) 0 Real.pi 0 Real.pi_pos.le R x y]
  simp [Real.cos_pi_div_two, Real.sin_pi_div_two]

/-! ## Real tensors -/

/-- The components of a real tensor obey `R_{-m} = (-1)^m conj R_m`; here with indices, `m = l - j`. -/
def Spec.IsReal (l : ℕ) (R : ℕ → ℂ) : Prop := ∀ j ≤ 2 * l, R (2 * l - j) = (-1) ^ (l + j) * conj (R j)

theorem phased_one (l : ℕ) (v : ℕ → ℂ) (j : ℕ) : phased l (exp ((0 : ℝ) * I)) v j = v j := by
  unfold phased
  simp

set_option maxHeartbeats 1000000 in
theorem wMatrix_symm (K : WC) (l : ℕ) (hl : l = 2 ∨ l = 4) (c s : ℝ) (i j : ℕ) (hi : i ≤ 2 * l) (hj : j ≤ 2 * l) :
    wMatrix K l c s ((2 * l + 1) * (2 * l - i) + (2 * l - j))
      = (-1) ^ (i + j) * wMatrix K l c s ((2 * l + 1) * i + j) := by
  rcases hl with rfl | rfl
  · simp only [wMatrix, if_true]
    interval_cases i <;> interval_cases j <;> norm_num [Nat.reduceMul, Nat.reduceAdd, Nat.reduceSub, wentry]
  · simp only [wMatrix, if_true, show (4 : ℕ) ≠ 2 by norm_num, if_false]
    interval_cases i <;> interval_cases j <;> simp only [Nat.reduceMul, Nat.reduceAdd, Nat.reduceSub, wentry] <;> ring1

theorem neg_one_sq_pow (a b : ℕ) (h : (a + b) % 2 = 0) : ((-1 : ℂ)) ^ a = (-1) ^ b := by
  rw [neg_one_pow_eq_pow_mod_two, neg_one_pow_eq_pow_mod_two (n := b)]
  congr 1
  omega

theorem real_applyW (K : WC) (l : ℕ) (hl : l = 2 ∨ l = 4) (c s : ℝ) (R : ℕ → ℂ) (hR : Spec.IsReal l R) :
    Spec.IsReal l (applyW l (wMatrix K l c s) R) := by
  intro i hi
  unfold applyW
  rw [← Finset.sum_range_reflect, map_sum, Finset.mul_sum]
  apply Finset.sum_congr rfl
  intro j hj
  have hj' : j ≤ 2 * l := by have := Finset.mem_range.mp hj; omega
  rw [show 2 * l + 1 - 1 - j = 2 * l - j by omega, wMatrix_symm K l hl c s i j hi hj', hR j hj']
  push_cast
  rw [map_mul, Complex.conj_ofReal]
  have e : ((-1 : ℂ)) ^ (i + j) * (-1) ^ (l + j) = (-1) ^ (l + i) := by
    rw [← pow_add]
    exact neg_one_sq_pow _ _ (by omega)
  linear_combination ((wMatrix K l c s ((2 * l + 1) * i + j) : ℝ) : ℂ) * conj (R j) * e

theorem real_phased (l : ℕ) (z : ℂ) (R : ℕ → ℂ) (hR : Spec.IsReal l R) : Spec.IsReal l (phased l z R) := by
  intro j hj
  unfold phased
  by_cases h : j ≤ l
  · by_cases h' : j = l
    · subst h'
      have e : 2 * j - j = j := by omega
      have := hR j hj
      rw [e] at this ⊢
      rw [if_pos le_rfl]
      simp only [Nat.sub_self, pow_zero, mul_one]
      exact this
    · rw [if_neg (show ¬ 2 * l - j ≤ l by omega), if_pos h, hR j hj, map_mul,
        show 2 * l - j - l = l - j by omega]
      ring
  · rw [if_pos (show 2 * l - j ≤ l by omega), if_neg h, hR j hj, map_mul, Complex.conj_conj,
      show l - (2 * l - j) = j - l by omega]
    ring

theorem halfRotation_eq (K : WC) (l : ℕ) (hl : l = 2 ∨ l = 4) (c s : ℝ) (e : ℂ) (R : ℕ → ℂ)
    (hR : Spec.IsReal l R) (i : ℕ) (hi : i ≤ l) :
    halfRotation K l c s e R i = applyW l (wMatrix K l c s) (phased l e R) i := by
  unfold halfRotation applyW
  apply Finset.sum_congr rfl
  intro j hj
  have hj' : j ≤ 2 * l := by have := Finset.mem_range.mp hj; omega
  have hw : wHalf K l c s ((2 * l + 1) * i + j) = wMatrix K l c s ((2 * l + 1) * i + j) := by
    rcases hl with rfl | rfl
    · simp only [wHalf, wMatrix, if_true]
      exact half2 K c s _ (by omega)
    · simp only [wHalf, wMatrix, if_true, show (4 : ℕ) ≠ 2 by norm_num, if_false]
      exact half4 K c s _ (by omega)
  rw [hw]
  congr 1
  unfold phasedHalf phased
  by_cases h : j ≤ l
  · rw [if_pos h, if_pos h]
  · rw [if_neg h, if_neg h]
    have := hR (2 * l - j) (by omega)
    rw [show 2 * l - (2 * l - j) = j by omega] at this
    rw [this, map_mul, neg_one_sq_pow (l + (2 * l - j)) (j - l) (by omega)]
    ring

/-- C71: the components of real tensors stay those of real tensors, for the source's constants and all
angles. -/
theorem C71_real (l : ℕ) (hl : l = 2 ∨ l = 4) (α β γ : ℝ) (R : ℕ → ℂ) (hR : Spec.IsReal l R) :
    Spec.IsReal l (singleRotation WC.src l α β γ R) :=
  real_phased l _ _ (real_applyW WC.src l hl _ _ _ (real_phased l _ _ hR))

theorem half_single (W : WC) (l : ℕ) (hl : l = 2 ∨ l = 4) (α β : ℝ) (R : ℕ → ℂ) (hR : Spec.IsReal l R)
    (i : ℕ) (hi : i ≤ l) :
    halfRotation W l (W.trig.cos β) (W.trig.sin β) (exp (α * I)) R i = singleRotation W l α β 0 R i := by
  rw [halfRotation_eq W l hl _ _ _ R hR i hi]
  unfold singleRotation
  rw [phased_one]

/-- C71: for real tensors the rotation used for the powder orientations, which reads only the components
`m ≤ 0` of its input and computes only those of its output, gives what the full rotation gives: with the decimals of the
source when it is handed the cosine and sine of the table, with exact constants for every `β ≥ 0`. -/
theorem C71_half (l : ℕ) (hl : l = 2 ∨ l = 4) (α β : ℝ) (R : ℕ → ℂ) (hR : Spec.IsReal l R)
    (i : ℕ) (hi : i ≤ l) :
    halfRotation WC.src l (Sim.tableCosSin β).1 (Sim.tableCosSin β).2 (exp (α * I)) R i = singleRotation WC.src l α β 0 R i ∧
    (0 ≤ β → halfRotation WC.exact l (Real.cos β) (Real.sin β) (exp (α * I)) R i = singleRotation WC.exact l α β 0 R i) := by
  refine ⟨half_single WC.src l hl α β R hR i hi, fun hβ => ?_⟩
  rw [← half_single WC.exact l hl α β R hR i hi, (trig_exact β).1, (trig_exact β).2, abs_of_nonneg hβ]

theorem sph_real (A : Matrix (Fin 3) (Fin 3) ℝ) : Spec.IsReal 2 (Spec.sph A) := by
  intro j hj
  have hj' : j < 5 := by omega
  interval_cases j <;> apply Complex.ext <;> norm_num [Spec.sph, neg_div]

example (α β : ℝ) :
    halfRotation WC.src 2 (Sim.tableCosSin β).1 (Sim.tableCosSin β).2 (exp (α * I)) (Spec.sph !![1, 4, 5; 4, 2, 6; 5, 6, -3]) 1
      = singleRotation WC.src 2 α β 0 (Spec.sph !![1, 4, 5; 4, 2, 6; 5, 6, -3]) 1 :=
  (C71_half 2 (Or.inl rfl) α β _ (sph_real _) 1 (by norm_num)).1

set_option maxHeartbeats 1000000 in
/-- C71: skipping the rotation when all three Euler angles are zero changes nothing. -/
theorem C71_zero (l : ℕ) (hl : l = 2 ∨ l = 4) (R : ℕ → ℂ) (i : ℕ) (hi : i < 2 * l + 1) :
    singleRotation WC.src l 0 0 0 R i = R i := by
  unfold singleRotation
  rw [phased_one, applyW_congr l _ _ R (fun j _ => phased_one l R j)]
  rw [WC.src.trig.cos_zero, WC.src.trig.sin_zero]
  have hw : ∀ j < 2 * l + 1, wMatrix WC.src l 1 0 ((2 * l + 1) * i + j) = if j = i then 1 else 0 := by
    intro j hj
    rcases hl with rfl | rfl
    · simp only [wMatrix, if_true]
      interval_cases i <;> interval_cases j <;> norm_num [Nat.reduceMul, Nat.reduceAdd, Nat.reduceSub, wentry]
    · simp only [wMatrix, if_true, show (4 : ℕ) ≠ 2 by norm_num, if_false]
      interval_cases i <;> interval_cases j <;> norm_num [Nat.reduceMul, Nat.reduceAdd, Nat.reduceSub, wentry]
  unfold applyW
  rw [Finset.sum_eq_single i]
  · rw [hw i hi]
    simp
  · intro j hj hne
    rw [hw j (Finset.mem_range.mp hj)]
    simp [hne]
  · intro h
    exact absurd (Finset.mem_range.mpr hi) h

end MRS.Freq
