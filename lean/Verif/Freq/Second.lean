import Verif.Freq.Tensors
import Verif.Freq.Spin
import Mathlib.Algebra.Polynomial.Roots
import Mathlib.LinearAlgebra.Matrix.NonsingularInverse

/-!
# The second-order quadrupole frequency — property C74
-/

namespace MRS.Freq

open Complex ComplexConjugate Matrix

/-! ## The square of a rank 2 tensor

The fourth-rank part of the square of a rank 2 tensor, by its binary form. -/

theorem form_injective (l : ℕ) (R R' : ℕ → ℂ) (h : ∀ x y, Spec.form l R x y = Spec.form l R' x y) (i : ℕ)
    (hi : i < 2 * l + 1) : R i = R' i := by
  have hw : ∀ k, (Spec.wnorm l ((k : ℤ) - l) : ℂ) ≠ 0 := fun k => by
    exact_mod_cast (wnorm_pos l _).ne'
  have hp : (∑ k ∈ Finset.range (2 * l + 1),
        Polynomial.C (R k / (Spec.wnorm l ((k : ℤ) - l) : ℂ)) * Polynomial.X ^ k)
      = ∑ k ∈ Finset.range (2 * l + 1),
        Polynomial.C (R' k / (Spec.wnorm l ((k : ℤ) - l) : ℂ)) * Polynomial.X ^ k := by
    apply Polynomial.funext
    intro x
    have := h x 1
    unfold Spec.form at this
    simp only [Polynomial.eval_finsetSum, Polynomial.eval_mul, Polynomial.eval_C, Polynomial.eval_pow,
      Polynomial.eval_X]
    simp only [one_pow, mul_one] at this
    calc _ = ∑ k ∈ Finset.range (2 * l + 1), R k * x ^ k / (Spec.wnorm l ((k : ℤ) - l) : ℂ) :=
          Finset.sum_congr rfl (fun k _ => by ring)
      _ = _ := this
      _ = _ := Finset.sum_congr rfl (fun k _ => by ring)
  have hc := congrArg (fun p => Polynomial.coeff p i) hp
  simp only [Polynomial.finsetSum_coeff, Polynomial.coeff_C_mul, Polynomial.coeff_X_pow] at hc
  rw [Finset.sum_eq_single i (fun k _ hk => by rw [if_neg (Ne.symm hk), mul_zero])
      (fun hk => absurd (Finset.mem_range.mpr hi) hk),
    Finset.sum_eq_single i (fun k _ hk => by rw [if_neg (Ne.symm hk), mul_zero])
      (fun hk => absurd (Finset.mem_range.mpr hi) hk), if_pos rfl, mul_one, mul_one] at hc
  exact (div_left_inj' (hw i)).mp hc

/-- `R_k` divided by the norm of its monomial. -/
noncomputable def nrm (R : ℕ → ℂ) (k : ℕ) : ℂ := R k / (Spec.wnorm 2 ((k : ℤ) - 2) : ℂ)

/-- The rank 4 tensor whose form is the square of the form of a rank 2 tensor. -/
noncomputable def sq4 (R : ℕ → ℂ) (i : ℕ) : ℂ :=
  (Spec.wnorm 4 ((i : ℤ) - 4) : ℂ) *
    match i with
    | 0 => nrm R 0 * nrm R 0
    | 1 => 2 * nrm R 0 * nrm R 1
    | 2 => 2 * nrm R 0 * nrm R 2 + nrm R 1 * nrm R 1
    | 3 => 2 * nrm R 0 * nrm R 3 + 2 * nrm R 1 * nrm R 2
    | 4 => 2 * nrm R 0 * nrm R 4 + 2 * nrm R 1 * nrm R 3 + nrm R 2 * nrm R 2
    | 5 => 2 * nrm R 1 * nrm R 4 + 2 * nrm R 2 * nrm R 3
    | 6 => 2 * nrm R 2 * nrm R 4 + nrm R 3 * nrm R 3
    | 7 => 2 * nrm R 3 * nrm R 4
    | 8 => nrm R 4 * nrm R 4
    | _ => 0

theorem form_sq4 (R : ℕ → ℂ) (x y : ℂ) : Spec.form 4 (sq4 R) x y = Spec.form 2 R x y ^ 2 := by
  have h2 : Spec.form 2 R x y = ∑ i ∈ Finset.range 5, nrm R i * x ^ i * y ^ (4 - i) := by
    unfold Spec.form nrm
    exact Finset.sum_congr rfl (fun i _ => by push_cast; ring)
  have h4 : Spec.form 4 (sq4 R) x y
      = ∑ i ∈ Finset.range 9, (sq4 R i / (Spec.wnorm 4 ((i : ℤ) - 4) : ℂ)) * x ^ i * y ^ (8 - i) := by
    unfold Spec.form
    exact Finset.sum_congr rfl (fun i _ => by push_cast; ring)
  have hw : ∀ m, (Spec.wnorm 4 m : ℂ) ≠ 0 := fun m => by
    exact_mod_cast (wnorm_pos 4 m).ne'
  rw [h2, h4]
  unfold sq4
  simp only [Finset.sum_range_succ, Finset.sum_range_zero, zero_add, mul_div_cancel_left₀ _ (hw _)]
  ring

theorem rot_sq4 (α β γ : ℝ) (R : ℕ → ℂ) (i : ℕ) (hi : i < 9) :
    singleRotation WC.exact 4 α β γ (sq4 R) i = sq4 (singleRotation WC.exact 2 α β γ R) i := by
  refine form_injective 4 _ _ (fun x y => ?_) i hi
  rw [form_sq4]
  unfold singleRotation
  simp only [trig_exact]
  rw [form_phased, form_applyW 4 (Or.inr rfl), form_phased, form_sq4, form_phased, form_applyW 2 (Or.inl rfl),
    form_phased]

theorem half_sq4 (α β : ℝ) (R : ℕ → ℂ) (i : ℕ) (hi : i < 9) :
    applyW 4 (wMatrix WC.exact 4 (Real.cos β) (Real.sin β)) (phased 4 (exp (α * I)) (sq4 R)) i
      = sq4 (applyW 2 (wMatrix WC.exact 2 (Real.cos β) (Real.sin β)) (phased 2 (exp (α * I)) R)) i := by
  refine form_injective 4 _ _ (fun x y => ?_) i hi
  rw [form_sq4, form_applyW 4 (Or.inr rfl), form_phased, form_sq4, form_applyW 2 (Or.inl rfl), form_phased]

theorem nrm_congr (R R' : ℕ → ℂ) (h : ∀ i < 5, R i = R' i) (i : ℕ) (hi : i < 5) : nrm R i = nrm R' i := by
  unfold nrm
  rw [h i hi]

theorem sq4_congr (R R' : ℕ → ℂ) (h : ∀ i < 5, R i = R' i) : sq4 R = sq4 R' := by
  have h' := nrm_congr R R' h
  funext i
  unfold sq4
  rw [h' 0 (by norm_num), h' 1 (by norm_num), h' 2 (by norm_num), h' 3 (by norm_num), h' 4 (by norm_num)]

theorem nrm_sph (V : Matrix (Fin 3) (Fin 3) ℝ) :
    nrm (Spec.sph V) 0 = ⟨(V 0 0 - V 1 1) / 12, -2 * V 0 1 / 12⟩ ∧
    nrm (Spec.sph V) 1 = ⟨2 * V 0 2 / 6, -2 * V 1 2 / 6⟩ ∧
    nrm (Spec.sph V) 2 = ⟨V 2 2 / 2, 0⟩ ∧
    nrm (Spec.sph V) 3 = ⟨-2 * V 0 2 / 6, -2 * V 1 2 / 6⟩ ∧
    nrm (Spec.sph V) 4 = ⟨(V 0 0 - V 1 1) / 12, 2 * V 0 1 / 12⟩ := by
  obtain ⟨w0, w1, w2, w3, w4⟩ := wnorm2
  have hq : √(6 : ℝ) ≠ 0 := by positivity
  have h6 : √(6 : ℝ) ^ 2 = 6 := Real.sq_sqrt (by norm_num)
  unfold nrm
  norm_num only [Nat.cast_zero, Nat.cast_one, Nat.cast_ofNat]
  rw [w0, w1, w2, w3, w4]
  refine ⟨?_, ?_, ?_, ?_, ?_⟩ <;> apply Complex.ext <;>
    simp only [Spec.sph, Complex.div_ofReal_re, Complex.div_ofReal_im] <;>
    field_simp <;> (try rw [h6]) <;> ring

/-- The component `m = 0` of the square. -/
theorem sq4_sph (V : Matrix (Fin 3) (Fin 3) ℝ) :
    sq4 (Spec.sph V) 4 = (((V 0 0 - V 1 1) ^ 2 + 4 * V 0 1 ^ 2) / 3 - 16 / 3 * (V 0 2 ^ 2 + V 1 2 ^ 2)
      + 6 * V 2 2 ^ 2 : ℝ) := by
  obtain ⟨n0, n1, n2, n3, n4⟩ := nrm_sph V
  unfold sq4
  norm_num only [Nat.cast_ofNat]
  rw [n0, n1, n2, n3, n4, wnorm4.2.2.2.2.1]
  apply Complex.ext
  · rw [Complex.ofReal_re]
    simp
    ring
  · rw [Complex.ofReal_im]
    simp
    ring

/-! ## The constants -/

theorem sqrt_facts : √(125 : ℝ) = 5 * √5 ∧ √(18 / 25 : ℝ) = 3 * √2 / 5 ∧ √(2 / 175 : ℝ) = √2 / (5 * √7)
    ∧ √(35 : ℝ) = √5 * √7 ∧ √(18 / 875 : ℝ) = 3 * √2 / (5 * (√5 * √7)) ∧ √(175 : ℝ) = 5 * √7
    ∧ √(10 : ℝ) = √2 * √5 ∧ √(70 : ℝ) = √2 * √5 * √7 ∧ √(21 : ℝ) = √6 * √7 / √2 := by
  have h35 : √(35 : ℝ) = √5 * √7 := by
    rw [← Real.sqrt_mul (by norm_num)]; norm_num
  have h175 : √(175 : ℝ) = 5 * √7 := by
    rw [show (175 : ℝ) = 5 ^ 2 * 7 by norm_num, Real.sqrt_mul (by norm_num), Real.sqrt_sq (by norm_num)]
  have h18 : √(18 : ℝ) = 3 * √2 := by
    rw [show (18 : ℝ) = 3 ^ 2 * 2 by norm_num, Real.sqrt_mul (by norm_num), Real.sqrt_sq (by norm_num)]
  refine ⟨?_, ?_, ?_, h35, ?_, h175, ?_, ?_, ?_⟩
  · rw [show (125 : ℝ) = 5 ^ 2 * 5 by norm_num, Real.sqrt_mul (by norm_num), Real.sqrt_sq (by norm_num)]
  · rw [Real.sqrt_div (by norm_num), h18, show (25 : ℝ) = 5 ^ 2 by norm_num, Real.sqrt_sq (by norm_num)]
  · rw [Real.sqrt_div (by norm_num), h175]
  · rw [Real.sqrt_div (by norm_num), h18, show (875 : ℝ) = 5 ^ 2 * 35 by norm_num, Real.sqrt_mul (by norm_num),
      Real.sqrt_sq (by norm_num), h35]
  · rw [← Real.sqrt_mul (by norm_num)]; norm_num
  · rw [← Real.sqrt_mul (by norm_num), ← Real.sqrt_mul (by norm_num)]; norm_num
  · rw [← Real.sqrt_mul (by norm_num), ← Real.sqrt_div (by norm_num)]; norm_num

/-- The products of the constants of the tensors with those of the transition functions are rational. -/
theorem const_products :
    TC.exact.p0 * TC.exact.k0 = 2 / 75 ∧ TC.exact.f0 * TC.exact.f * TC.exact.k0 = 1 / 50 ∧
    TC.exact.p2 * TC.exact.k2b = 1 / 105 ∧ TC.exact.f2 * TC.exact.f * TC.exact.k2b = -1 / 35 ∧
    TC.exact.p4 * TC.exact.k4c = -3 / 175 ∧ TC.exact.f4 * TC.exact.f * TC.exact.k4c = -17 / 350 := by
  obtain ⟨s1, s2, s3, s4, s5, s6, s7, s8, s9⟩ := sqrt_facts
  have h2 : √(2 : ℝ) ^ 2 = 2 := Real.sq_sqrt (by norm_num)
  have h5 : √(5 : ℝ) ^ 2 = 5 := Real.sq_sqrt (by norm_num)
  have h7 : √(7 : ℝ) ^ 2 = 7 := Real.sq_sqrt (by norm_num)
  have n2 : √(2 : ℝ) ≠ 0 := by positivity
  have n5 : √(5 : ℝ) ≠ 0 := by positivity
  have n7 : √(7 : ℝ) ≠ 0 := by positivity
  unfold TC.exact
  simp only [s1, s2, s3, s4, s5, s6, s7, s8]
  refine ⟨?_, ?_, ?_, ?_, ?_, ?_⟩ <;> field_simp <;> grind

/-! ## The frequency -/

/-- The field gradient, in units of its largest principal component, in the laboratory frame: `M` turns the laboratory
frame into the common frame, and the principal axis system is turned by Θ against the common frame. -/
noncomputable def Spec.gradient (η : ℝ) (Θ : Angles) (M : Matrix (Fin 3) (Fin 3) ℝ) : Matrix (Fin 3) (Fin 3) ℝ :=
  (Spec.euler Θ.α Θ.β Θ.γ * M)ᵀ * Spec.haeberlen 1 η * (Spec.euler Θ.α Θ.β Θ.γ * M)

/-- The same when the field has the direction (α, β) in the common frame. -/
noncomputable def Spec.labGradient (η : ℝ) (Θ : Angles) (α β : ℝ) : Matrix (Fin 3) (Fin 3) ℝ :=
  Spec.gradient η Θ (Spec.Rz α * Spec.Ry β)

theorem gradient_symm (η : ℝ) (Θ : Angles) (M : Matrix (Fin 3) (Fin 3) ℝ) : (Spec.gradient η Θ M).IsSymm :=
  symm_conj _ _ (haeberlen_symm 1 η)

theorem labGradient_symm (η : ℝ) (Θ : Angles) (α β : ℝ) : (Spec.labGradient η Θ α β).IsSymm :=
  gradient_symm η Θ _

theorem mul_orth (A B : Matrix (Fin 3) (Fin 3) ℝ) (hA : A * Aᵀ = 1) (hB : B * Bᵀ = 1) : (A * B) * (A * B)ᵀ = 1 := by
  rw [Matrix.transpose_mul]
  calc _ = A * (B * Bᵀ) * Aᵀ := by simp only [Matrix.mul_assoc]
    _ = 1 := by rw [hB, Matrix.mul_one, hA]

theorem static_orth (α β : ℝ) : (Spec.Rz α * Spec.Ry β) * (Spec.Rz α * Spec.Ry β)ᵀ = 1 :=
  mul_orth _ _ (rz_orth α) (ry_orth β)

theorem gradient_trace (η : ℝ) (Θ : Angles) (M : Matrix (Fin 3) (Fin 3) ℝ) (hM : M * Mᵀ = 1) :
    (Spec.gradient η Θ M).trace = 0 :=
  (trace_conj _ _ (mul_orth _ _ (euler_orth _ _ _) hM)).trans (haeberlen_trace 1 η)

theorem labGradient_trace (η : ℝ) (Θ : Angles) (α β : ℝ) : (Spec.labGradient η Θ α β).trace = 0 :=
  gradient_trace η Θ _ (static_orth α β)

/-- The rank 2 components in the laboratory frame. -/
theorem lab_sph (η : ℝ) (Θ : Angles) (hβ : 0 ≤ Θ.β) (α β : ℝ) (R : ℕ → ℂ)
    (hR : ∀ i < 5, R i = Spec.sph (Spec.haeberlen 1 η) i) (i : ℕ) (hi : i < 5) :
    applyW 2 (wMatrix WC.exact 2 (Real.cos β) (Real.sin β)) (phased 2 (exp (α * I))
      (singleRotation WC.exact 2 Θ.α Θ.β Θ.γ R)) i = Spec.sph (Spec.labGradient η Θ α β) i := by
  have hA := haeberlen_symm 1 η
  have ht := haeberlen_trace 1 η
  set M := Spec.euler Θ.α Θ.β Θ.γ with hM
  have h1 : ∀ j < 5, singleRotation WC.exact 2 Θ.α Θ.β Θ.γ R j = Spec.sph (Mᵀ * Spec.haeberlen 1 η * M) j := by
    intro j hj
    rw [rotation_cartesian _ hA ht Θ.α Θ.β Θ.γ R hR j hj, abs_of_nonneg hβ]
  have hA1 := symm_conj _ M hA
  have ht1 := (trace_conj (Spec.haeberlen 1 η) M (euler_orth Θ.α Θ.β Θ.γ)).trans ht
  rw [applyW_congr 2 _ _ (Spec.sph ((Spec.Rz α)ᵀ * (Mᵀ * Spec.haeberlen 1 η * M) * Spec.Rz α)) (fun j hj => by
      rw [phased_congr 2 _ _ _ j (h1 j (by omega)), sph_rz _ hA1 α j (by omega)]),
    sph_ry _ (symm_conj _ _ hA1) ((trace_conj _ _ (rz_orth α)).trans ht1) β i hi]
  congr 1
  unfold Spec.labGradient Spec.gradient
  simp only [Matrix.transpose_mul, Matrix.mul_assoc, ← hM]

theorem haeberlen_sq (η : ℝ) : Spec.haeberlen 1 η * Spec.haeberlen 1 η
    = Matrix.diagonal ![(1 + η) ^ 2 / 4, (1 - η) ^ 2 / 4, 1] := by
  unfold Spec.haeberlen
  rw [Matrix.diagonal_mul_diagonal]
  congr 1
  funext i
  fin_cases i <;> simp <;> ring

/-- The traceless part of the square of the gradient in its principal axis system. -/
noncomputable def sqA (η : ℝ) : Matrix (Fin 3) (Fin 3) ℝ :=
  Spec.haeberlen 1 η * Spec.haeberlen 1 η - ((3 + η ^ 2) / 6) • (1 : Matrix (Fin 3) (Fin 3) ℝ)

theorem sqA_eq (η : ℝ) : sqA η
    = Matrix.diagonal ![(1 + η) ^ 2 / 4 - (3 + η ^ 2) / 6, (1 - η) ^ 2 / 4 - (3 + η ^ 2) / 6, 1 - (3 + η ^ 2) / 6] := by
  unfold sqA
  rw [haeberlen_sq]
  ext i j
  fin_cases i <;> fin_cases j <;> simp

theorem sqA_symm (k η : ℝ) : (k • sqA η).IsSymm := by
  rw [sqA_eq]
  exact (Matrix.isSymm_diagonal _).smul k

theorem sqA_trace (k η : ℝ) : (k • sqA η).trace = 0 := by
  rw [Matrix.trace_smul, sqA_eq]
  simp [Matrix.trace, Fin.sum_univ_three]
  right
  ring

theorem sqA_sph (k η : ℝ) (i : ℕ) (hi : i < 5) :
    pas2 (k * η / √6) (k * ((1 - η ^ 2 / 3) / 2)) i = Spec.sph (k • sqA η) i := by
  rw [sqA_eq]
  interval_cases i <;> apply Complex.ext <;>
    simp only [pas2, Spec.sph, Complex.ofReal_re, Complex.ofReal_im, Complex.zero_re, Complex.zero_im] <;>
    simp <;> (first | ring1 | (left; ring1))

theorem field_dir (α β : ℝ) : (Spec.Rz α * Spec.Ry β) *ᵥ ![0, 0, 1] = Spec.dir α β := by
  funext i
  fin_cases i <;> simp [Spec.Rz, Spec.Ry, Spec.dir, Matrix.mulVec, Matrix.mul_apply, dotProduct, Fin.sum_univ_three] <;>
    ring

theorem along_z (B : Matrix (Fin 3) (Fin 3) ℝ) : Spec.along B ![0, 0, 1] = B 2 2 := by
  simp [Spec.along, Matrix.mulVec, dotProduct, Fin.sum_univ_three]

theorem along_frame (A M : Matrix (Fin 3) (Fin 3) ℝ) (Θ : Angles) :
    Spec.along A (Spec.seen Θ (M *ᵥ ![0, 0, 1]))
      = ((Spec.euler Θ.α Θ.β Θ.γ * M)ᵀ * A * (Spec.euler Θ.α Θ.β Θ.γ * M)) 2 2 := by
  have h := along_z ((Spec.euler Θ.α Θ.β Θ.γ * M)ᵀ * A * (Spec.euler Θ.α Θ.β Θ.γ * M))
  rw [along_conj, ← Matrix.mulVec_mulVec] at h
  exact h

theorem along_seen (A : Matrix (Fin 3) (Fin 3) ℝ) (Θ : Angles) (α β : ℝ) :
    Spec.along A (Spec.seen Θ (Spec.dir α β))
      = ((Spec.euler Θ.α Θ.β Θ.γ * (Spec.Rz α * Spec.Ry β))ᵀ * A
          * (Spec.euler Θ.α Θ.β Θ.γ * (Spec.Rz α * Spec.Ry β))) 2 2 := by
  rw [← along_frame, field_dir]

theorem gradient_sq (η : ℝ) (Θ : Angles) (M : Matrix (Fin 3) (Fin 3) ℝ) (hM : M * Mᵀ = 1) :
    Spec.gradient η Θ M * Spec.gradient η Θ M
      = (Spec.euler Θ.α Θ.β Θ.γ * M)ᵀ * (Spec.haeberlen 1 η * Spec.haeberlen 1 η) * (Spec.euler Θ.α Θ.β Θ.γ * M) := by
  have h := mul_orth _ _ (euler_orth Θ.α Θ.β Θ.γ) hM
  unfold Spec.gradient
  set N := Spec.euler Θ.α Θ.β Θ.γ * M
  calc _ = Nᵀ * Spec.haeberlen 1 η * (N * Nᵀ) * (Spec.haeberlen 1 η * N) := by simp only [Matrix.mul_assoc]
    _ = _ := by rw [h, Matrix.mul_one]; simp only [Matrix.mul_assoc]

/-- The invariants of the gradient in the laboratory frame. -/
theorem gradient_inv (η : ℝ) (Θ : Angles) (M : Matrix (Fin 3) (Fin 3) ℝ) (hM : M * Mᵀ = 1) :
    Spec.along (sqA η) (Spec.seen Θ (M *ᵥ ![0, 0, 1]))
      = Spec.gradient η Θ M 0 2 ^ 2 + Spec.gradient η Θ M 1 2 ^ 2 + Spec.gradient η Θ M 2 2 ^ 2 - (3 + η ^ 2) / 6 ∧
    (3 + η ^ 2) / 2 = 3 / 2 * Spec.gradient η Θ M 2 2 ^ 2
      + ((Spec.gradient η Θ M 0 0 - Spec.gradient η Θ M 1 1) ^ 2 + 4 * Spec.gradient η Θ M 0 1 ^ 2) / 2
      + 2 * (Spec.gradient η Θ M 0 2 ^ 2 + Spec.gradient η Θ M 1 2 ^ 2) := by
  have hs := gradient_symm η Θ M
  have h01 : Spec.gradient η Θ M 1 0 = Spec.gradient η Θ M 0 1 := hs.apply 0 1
  have h02 : Spec.gradient η Θ M 2 0 = Spec.gradient η Θ M 0 2 := hs.apply 0 2
  have h12 : Spec.gradient η Θ M 2 1 = Spec.gradient η Θ M 1 2 := hs.apply 1 2
  have ht := gradient_trace η Θ M hM
  simp only [Matrix.trace, Matrix.diag, Fin.sum_univ_three] at ht
  have hsq := gradient_sq η Θ M hM
  have horth := mul_orth _ _ (euler_orth Θ.α Θ.β Θ.γ) hM
  constructor
  · rw [along_frame]
    unfold sqA
    rw [Matrix.mul_sub, Matrix.sub_mul, ← hsq, Matrix.sub_apply]
    have hMt : (Spec.euler Θ.α Θ.β Θ.γ * M)ᵀ * (Spec.euler Θ.α Θ.β Θ.γ * M) = 1 := mul_eq_one_comm.mp horth
    rw [Matrix.mul_smul, Matrix.smul_mul, Matrix.mul_one, hMt, Matrix.mul_apply, Fin.sum_univ_three]
    simp only [Matrix.smul_apply, Matrix.one_apply_eq, h02, h12, smul_eq_mul]
    ring
  · have htr : (Spec.gradient η Θ M * Spec.gradient η Θ M).trace = (3 + η ^ 2) / 2 := by
      rw [hsq, trace_conj _ _ horth, haeberlen_sq]
      simp [Matrix.trace, Fin.sum_univ_three]
      ring
    rw [← htr]
    simp only [Matrix.trace, Matrix.diag, Fin.sum_univ_three, Matrix.mul_apply, h01, h02, h12]
    have e : Spec.gradient η Θ M 1 1 = -Spec.gradient η Θ M 0 0 - Spec.gradient η Θ M 2 2 := by linarith
    rw [e]
    ring

theorem labGradient_inv (η : ℝ) (Θ : Angles) (α β : ℝ) :
    Spec.along (sqA η) (Spec.seen Θ (Spec.dir α β))
      = Spec.labGradient η Θ α β 0 2 ^ 2 + Spec.labGradient η Θ α β 1 2 ^ 2 + Spec.labGradient η Θ α β 2 2 ^ 2
        - (3 + η ^ 2) / 6 ∧
    (3 + η ^ 2) / 2 = 3 / 2 * Spec.labGradient η Θ α β 2 2 ^ 2
      + ((Spec.labGradient η Θ α β 0 0 - Spec.labGradient η Θ α β 1 1) ^ 2
          + 4 * Spec.labGradient η Θ α β 0 1 ^ 2) / 2
      + 2 * (Spec.labGradient η Θ α β 0 2 ^ 2 + Spec.labGradient η Θ α β 1 2 ^ 2) := by
  have h := gradient_inv η Θ _ (static_orth α β)
  rw [field_dir] at h
  exact h

theorem pas4_sq4 (η scale : ℝ) (i : ℕ) (hi : i < 9) :
    pas4 (η * η * TC.exact.k4a * scale) (-TC.exact.k4b * η * scale)
      (TC.exact.k4c * scale * (η * η * TC.exact.k4d + 1)) i
      = ((TC.exact.k4c * scale / 6 : ℝ) : ℂ) * sq4 (Spec.sph (Spec.haeberlen 1 η)) i := by
  obtain ⟨n0, n1, n2, n3, n4⟩ := nrm_sph (Spec.haeberlen 1 η)
  obtain ⟨w0, w1, w2, w3, w4, w5, w6, w7, w8⟩ := wnorm4
  have h70 := sqrt_facts.2.2.2.2.2.2.2.1
  have h2 : √(2 : ℝ) ^ 2 = 2 := Real.sq_sqrt (by norm_num)
  have h5 : √(5 : ℝ) ^ 2 = 5 := Real.sq_sqrt (by norm_num)
  have h7 : √(7 : ℝ) ^ 2 = 7 := Real.sq_sqrt (by norm_num)
  have m2 : √(2 : ℝ) ≠ 0 := by positivity
  have m5 : √(5 : ℝ) ≠ 0 := by positivity
  have m7 : √(7 : ℝ) ≠ 0 := by positivity
  unfold sq4
  rw [n0, n1, n2, n3, n4]
  unfold TC.exact
  simp only [h70]
  interval_cases i <;> norm_num only [Nat.cast_zero, Nat.cast_one, Nat.cast_ofNat] <;>
    simp only [w0, w1, w2, w3, w4, w5, w6, w7, w8] <;> apply Complex.ext <;>
    simp [pas4, Spec.haeberlen] <;> field_simp <;> grind

theorem pas2_real (a b : ℝ) : Spec.IsReal 2 (pas2 a b) := by
  intro j hj
  have hj' : j < 5 := by omega
  interval_cases j <;> apply Complex.ext <;> norm_num [pas2]

theorem pas4_real (a b c : ℝ) : Spec.IsReal 4 (pas4 a b c) := by
  intro j hj
  have hj' : j < 9 := by omega
  interval_cases j <;> apply Complex.ext <;> norm_num [pas4]

theorem toFrame_real (W : WC) (l : ℕ) (hl : l = 2 ∨ l = 4) (Θ : Angles) (R : ℕ → ℂ) (hR : Spec.IsReal l R) :
    Spec.IsReal l (toFrame W l Θ R) := by
  unfold toFrame
  split_ifs
  · exact hR
  · exact real_phased l _ _ (real_applyW W l hl _ _ _ (real_phased l _ _ hR))

theorem applyW_smul (l : ℕ) (w : ℕ → ℝ) (x : ℂ) (v : ℕ → ℂ) (i : ℕ) :
    applyW l w (fun j => x * v j) i = x * applyW l w v i := by
  unfold applyW
  rw [Finset.mul_sum]
  exact Finset.sum_congr rfl (fun j _ => by ring)

theorem phased_smul (l : ℕ) (z x : ℂ) (v : ℕ → ℂ) (i : ℕ) :
    phased l z (fun j => x * v j) i = x * phased l z v i := by
  unfold phased
  split_ifs <;> ring

theorem rot_smul (W : WC) (l : ℕ) (α β γ : ℝ) (x : ℂ) (v : ℕ → ℂ) (i : ℕ) :
    singleRotation W l α β γ (fun j => x * v j) i = x * singleRotation W l α β γ v i := by
  unfold singleRotation
  rw [show phased l (exp (α * I)) (fun j => x * v j) = fun j => x * phased l (exp (α * I)) v j from
    funext (phased_smul l _ x v)]
  rw [show applyW l (wMatrix W l (W.trig.cos β) (W.trig.sin β)) (fun j => x * phased l (exp (α * I)) v j)
    = fun j => x * applyW l (wMatrix W l (W.trig.cos β) (W.trig.sin β)) (phased l (exp (α * I)) v) j from
    funext (applyW_smul l _ x _)]
  exact phased_smul l _ x _ i

theorem rot_congr (W : WC) (l : ℕ) (α β γ : ℝ) (v v' : ℕ → ℂ) (h : ∀ j < 2 * l + 1, v j = v' j) (i : ℕ) :
    singleRotation W l α β γ v i = singleRotation W l α β γ v' i := by
  unfold singleRotation
  apply phased_congr
  exact applyW_congr l _ _ _ (fun j hj => phased_congr l _ _ _ j (h j hj)) i

/-- The fourth-rank component in the laboratory frame. -/
theorem half_four (η scale : ℝ) (Θ : Angles) (hβ : 0 ≤ Θ.β) (α β : ℝ) :
    (halfRotation WC.exact 4 (Real.cos β) (Real.sin β) (exp (α * I))
      (toFrame WC.exact 4 Θ (pas4 (η * η * TC.exact.k4a * scale) (-TC.exact.k4b * η * scale)
        (TC.exact.k4c * scale * (η * η * TC.exact.k4d + 1)))) 4).re
      = TC.exact.k4c * scale / 6 *
        (((Spec.labGradient η Θ α β 0 0 - Spec.labGradient η Θ α β 1 1) ^ 2
            + 4 * Spec.labGradient η Θ α β 0 1 ^ 2) / 3
          - 16 / 3 * (Spec.labGradient η Θ α β 0 2 ^ 2 + Spec.labGradient η Θ α β 1 2 ^ 2)
          + 6 * Spec.labGradient η Θ α β 2 2 ^ 2) := by
  rw [halfRotation_eq WC.exact 4 (Or.inr rfl) _ _ _ _ (toFrame_real _ 4 (Or.inr rfl) Θ _ (pas4_real _ _ _)) 4
    (by norm_num)]
  set x : ℂ := ((TC.exact.k4c * scale / 6 : ℝ) : ℂ) with hx
  have h1 : ∀ j < 9, toFrame WC.exact 4 Θ (pas4 (η * η * TC.exact.k4a * scale) (-TC.exact.k4b * η * scale)
        (TC.exact.k4c * scale * (η * η * TC.exact.k4d + 1))) j
      = x * sq4 (singleRotation WC.exact 2 Θ.α Θ.β Θ.γ (Spec.sph (Spec.haeberlen 1 η))) j := by
    intro j hj
    rw [toFrame_eq WC.exact 4 (Or.inr rfl) Θ _ j (by omega),
      rot_congr WC.exact 4 _ _ _ _ (fun k => x * sq4 (Spec.sph (Spec.haeberlen 1 η)) k)
        (fun k hk => pas4_sq4 η scale k (by omega)), rot_smul, rot_sq4 _ _ _ _ j hj]
  rw [applyW_congr 4 _ _ (fun j => x * phased 4 (exp (α * I))
      (sq4 (singleRotation WC.exact 2 Θ.α Θ.β Θ.γ (Spec.sph (Spec.haeberlen 1 η)))) j) (fun j hj => by
        rw [phased_congr 4 _ _ (fun k => x * sq4 (singleRotation WC.exact 2 Θ.α Θ.β Θ.γ
          (Spec.sph (Spec.haeberlen 1 η))) k) j (h1 j (by omega)), phased_smul]),
    applyW_smul, half_sq4 _ _ _ 4 (by norm_num),
    sq4_congr _ _ (lab_sph η Θ hβ α β (Spec.sph (Spec.haeberlen 1 η)) (fun _ _ => rfl)), sq4_sph, hx,
    ← Complex.ofReal_mul, Complex.ofReal_re]

/-- The frequency before the transition functions are written out. -/
theorem quad2_lab (spin v0 Cq η : ℝ) (Θ : Angles) (hβ : 0 ≤ Θ.β) (α β cθ sθ c0 c2 c4 : ℝ) :
    localFreq WC.exact true (Real.cos β) (Real.sin β) (exp (α * I)) cθ sθ
        (fcfQuad2 c0 c2 c4 (ssotQuad2 WC.exact TC.exact spin v0 Cq η Θ))
      = vq spin Cq * vq spin Cq / v0 *
        (c0 * TC.exact.k0 * (2 / 3 * ((3 + η ^ 2) / 2))
          + dm0Vector2 WC.exact cθ sθ 2 * (c2 * TC.exact.k2b * (-2 *
            (Spec.labGradient η Θ α β 0 2 ^ 2 + Spec.labGradient η Θ α β 1 2 ^ 2 + Spec.labGradient η Θ α β 2 2 ^ 2
              - (3 + η ^ 2) / 6)))
          + dm0Vector4 WC.exact cθ sθ 4 * (c4 * TC.exact.k4c / 6 *
            (((Spec.labGradient η Θ α β 0 0 - Spec.labGradient η Θ α β 1 1) ^ 2
              + 4 * Spec.labGradient η Θ α β 0 1 ^ 2) / 3
            - 16 / 3 * (Spec.labGradient η Θ α β 0 2 ^ 2 + Spec.labGradient η Θ α β 1 2 ^ 2)
            + 6 * Spec.labGradient η Θ α β 2 2 ^ 2))) := by
  set s := vq spin Cq * vq spin Cq / v0 with hs
  have h21 := sqrt_facts.2.2.2.2.2.2.2.2
  have m6 : √(6 : ℝ) ≠ 0 := by positivity
  have m7 : √(7 : ℝ) ≠ 0 := by positivity
  have h2p : ∀ i < 5, pas2 (-η * TC.exact.k2a * s) (TC.exact.k2b * s * (η * η * TC.exact.t3 - 1)) i
      = Spec.sph ((-2 * TC.exact.k2b * s) • sqA η) i := by
    intro i hi
    rw [← sqA_sph _ _ i hi]
    congr 1
    · unfold TC.exact
      simp only [h21]
      field_simp
      ring
    · unfold TC.exact
      simp only
      ring
  have hA := sqA_symm (-2 * TC.exact.k2b * s) η
  have ht := sqA_trace (-2 * TC.exact.k2b * s) η
  have hM := euler_orth Θ.α Θ.β Θ.γ
  have e2 : (halfRotation WC.exact 2 (Real.cos β) (Real.sin β) (exp (α * I)) (toFrame WC.exact 2 Θ
      (pas2 (-η * TC.exact.k2a * s) (TC.exact.k2b * s * (η * η * TC.exact.t3 - 1)))) 2).re
      = -2 * TC.exact.k2b * s * (Spec.labGradient η Θ α β 0 2 ^ 2 + Spec.labGradient η Θ α β 1 2 ^ 2
          + Spec.labGradient η Θ α β 2 2 ^ 2 - (3 + η ^ 2) / 6) := by
    rw [half_along _ (symm_conj _ (Spec.euler Θ.α Θ.β Θ.γ) hA) ((trace_conj _ _ hM).trans ht) α β _
      (fun i hi => toFrame_sph _ hA ht Θ hβ _ h2p i hi), along_conj, along_smul]
    rw [← (labGradient_inv η Θ α β).1]
    rfl
  have e4 := half_four η s Θ hβ α β
  unfold localFreq fcfQuad2 ssotQuad2
  simp only [half_smul, Complex.re_ofReal_mul, if_true, ← hs]
  rw [e2, e4]
  unfold TC.exact
  simp only
  ring

theorem vq_cfac (n : ℕ) (Cq : ℝ) : vq (n / 2) Cq = 3 * Spec.cfac n Cq := by
  unfold vq Spec.cfac
  ring

theorem dm0_static : dm0Vector2 WC.exact 1 0 2 = 1 ∧ dm0Vector4 WC.exact 1 0 4 = 1 := by
  constructor
  · norm_num [dm0Vector2]
  · rw [dm0_4 WC.exact 1 0 (by norm_num) 4 (by norm_num)]
    norm_num [Nat.reduceMul, Nat.reduceAdd, Nat.reduceSub, wentry]

/-- C74: the second-order quadrupole frequency of a transition of a static crystallite is the difference of the
second-order energies of its final and initial state, for every spin, every pair of states, every field gradient
with `β ≥ 0` and every direction of the field. -/
theorem C74_second_order_partial (n : ℕ) (v0 Cq η : ℝ) (Θ : Angles) (hβ : 0 ≤ Θ.β) (α β : ℝ) (f i : Fin (n + 1)) :
    localFreq WC.exact true (Real.cos β) (Real.sin β) (exp (α * I)) 1 0
        (fcfQuad2 (stfCL TC.exact (Spec.mag n f) (Spec.mag n i) (n / 2)).1
          (stfCL TC.exact (Spec.mag n f) (Spec.mag n i) (n / 2)).2.1
          (stfCL TC.exact (Spec.mag n f) (Spec.mag n i) (n / 2)).2.2
          (ssotQuad2 WC.exact TC.exact (n / 2) v0 Cq η Θ))
      = Spec.E2 (Spec.quadH n Cq (Spec.labGradient η Θ α β)) v0 f
        - Spec.E2 (Spec.quadH n Cq (Spec.labGradient η Θ α β)) v0 i := by
  obtain ⟨q1, q2, q3, q4, q5, q6⟩ := const_products
  have hs := labGradient_symm η Θ α β
  have ht := labGradient_trace η Θ α β
  have hinv := (labGradient_inv η Θ α β).2
  rw [quad2_lab _ _ _ _ _ hβ, E2_quad n Cq _ hs ht, E2_quad n Cq _ hs ht, vq_cfac, dm0_static.1, dm0_static.2, hinv,
    show (3 + η ^ 2) / 6 = ((3 + η ^ 2) / 2) / 3 by ring, hinv]
  have hf : ((f : ℕ) : ℝ) = Spec.mag n f + n / 2 := by unfold Spec.mag; ring
  have hi : ((i : ℕ) : ℝ) = Spec.mag n i + n / 2 := by unfold Spec.mag; ring
  rw [hf, hi]
  unfold stfCL stfF stfP
  simp only
  generalize Spec.mag n f = mf
  generalize Spec.mag n i = mi
  generalize Spec.cfac n Cq = c
  generalize Spec.labGradient η Θ α β 0 2 ^ 2 + Spec.labGradient η Θ α β 1 2 ^ 2 = V1
  generalize (Spec.labGradient η Θ α β 0 0 - Spec.labGradient η Θ α β 1 1) ^ 2
    + 4 * Spec.labGradient η Θ α β 0 1 ^ 2 = V2
  generalize Spec.labGradient η Θ α β 2 2 = V0
  obtain ⟨S, hS⟩ : ∃ S : ℝ, (n : ℝ) = 2 * S := ⟨n / 2, by ring⟩
  rw [hS, mul_div_cancel_left₀ S two_ne_zero]
  have r0 : ∀ X Y : ℝ, (TC.exact.p0 * X + TC.exact.f0 * (Y * TC.exact.f)) * TC.exact.k0 = 2 / 75 * X + 1 / 50 * Y :=
    fun X Y => by linear_combination X * q1 + Y * q2
  have r2 : ∀ X Y : ℝ, (TC.exact.p2 * X + TC.exact.f2 * (Y * TC.exact.f)) * TC.exact.k2b = 1 / 105 * X - 1 / 35 * Y :=
    fun X Y => by linear_combination X * q3 + Y * q4
  have r4 : ∀ X Y : ℝ,
      (TC.exact.p4 * X + TC.exact.f4 * (Y * TC.exact.f)) * TC.exact.k4c = -3 / 175 * X - 17 / 350 * Y :=
    fun X Y => by linear_combination X * q5 + Y * q6
  rw [r0, r2, r4]
  ring

/-- The triple-quantum transition of a spin 5/2. -/
example (α β : ℝ) : localFreq WC.exact true (Real.cos β) (Real.sin β) (exp (α * I)) 1 0
        (fcfQuad2 (stfCL TC.exact (Spec.mag 5 1) (Spec.mag 5 4) ((5 : ℕ) / 2)).1
          (stfCL TC.exact (Spec.mag 5 1) (Spec.mag 5 4) ((5 : ℕ) / 2)).2.1
          (stfCL TC.exact (Spec.mag 5 1) (Spec.mag 5 4) ((5 : ℕ) / 2)).2.2
          (ssotQuad2 WC.exact TC.exact ((5 : ℕ) / 2) (-104000000) 3000000 0.3 ⟨0.1, 0.2, 0.3⟩))
      = Spec.E2 (Spec.quadH 5 3000000 (Spec.labGradient 0.3 ⟨0.1, 0.2, 0.3⟩ α β)) (-104000000) 1
        - Spec.E2 (Spec.quadH 5 3000000 (Spec.labGradient 0.3 ⟨0.1, 0.2, 0.3⟩ α β)) (-104000000) 4 :=
  C74_second_order_partial 5 _ _ _ ⟨0.1, 0.2, 0.3⟩ (by norm_num) α β 1 4

end MRS.Freq
