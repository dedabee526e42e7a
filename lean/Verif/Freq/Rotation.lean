import Verif.Freq.Wigner
import Mathlib.Analysis.SpecialFunctions.Complex.Circle
import Mathlib.LinearAlgebra.Matrix.Notation
import Mathlib.LinearAlgebra.Matrix.Trace
import Mathlib.LinearAlgebra.Matrix.Symmetric
import Mathlib.Data.Nat.Choose.Sum
import Mathlib.Algebra.BigOperators.Field

/-!
# Rotation of spherical tensors (src/c_lib/lib/angular_momentum.c)

A rank `l` tensor is an array of `2l+1` complex numbers, index `i` holding the component `m = i - l`;
it is modelled as a function `ℕ → ℂ` of which the indices `0 … 2l` are used.
-/

namespace MRS.Freq

open Complex ComplexConjugate

/-- angular_momentum.c:780-806 and 828-850: component `l-m` is multiplied by `z^m`, component `l+m` by its
conjugate.  (The C code keeps the running power in `real`, `imag`; `z ^ m` is the same product.) -/
noncomputable def phased (l : ℕ) (z : ℂ) (R : ℕ → ℂ) (i : ℕ) : ℂ :=
  if i ≤ l then R i * z ^ (l - i) else R i * conj (z ^ (i - l))

/-- angular_momentum.c:815-823: the product of the `(2l+1) × (2l+1)` matrix, stored by rows, with the
vector. -/
noncomputable def applyW (l : ℕ) (w : ℕ → ℝ) (v : ℕ → ℂ) (i : ℕ) : ℂ :=
  ∑ j ∈ Finset.range (2 * l + 1), (w ((2 * l + 1) * i + j) : ℂ) * v j

/-- angular_momentum.c:436-459 `wigner_d_matrices_from_exp_I_beta` with `half = false`: nothing is written
for ranks other than 2 and 4 (modelled as zero; never called so). -/
noncomputable def wMatrix (K : WC) (l : ℕ) (c s : ℝ) : ℕ → ℝ :=
  if l = 2 then wigner2j K c s else if l = 4 then wigner4j K c s else fun _ => 0

/-- The same with `half = true` (angular_momentum.c lines 112-157 and 316-433). -/
noncomputable def wHalf (K : WC) (l : ℕ) (c s : ℝ) : ℕ → ℝ :=
  if l = 2 then wigner2jHalf K c s else if l = 4 then wigner4jHalf K c s else fun _ => 0

/-- angular_momentum.c:754-851 `single_wigner_rotation` (the call with `R_in = R_out` is harmless, since the
phased copy is complete before the first write).  `cos`/`sin` of alpha and gamma come from libm, those of
beta from `wigner_d_matrices` (lines 46-51), that is from the table. -/
noncomputable def singleRotation (K : WC) (l : ℕ) (α β γ : ℝ) (R : ℕ → ℂ) : ℕ → ℂ :=
  phased l (exp (γ * I)) (applyW l (wMatrix K l (K.trig.cos β) (K.trig.sin β)) (phased l (exp (α * I)) R))

/-- angular_momentum.c:540-577: the phased copy used by `__wigner_rotation_2`; `e` is `exp(iα)` of the
orientation, whose powers `get_exp_Im_alpha` (960-980) stored.  The components `l+m` are not read from the
input but inferred from the components `l-m`. -/
noncomputable def phasedHalf (l : ℕ) (e : ℂ) (R : ℕ → ℂ) (j : ℕ) : ℂ :=
  if j ≤ l then R j * e ^ (l - j) else (-1) ^ (j - l) * conj (R (2 * l - j) * e ^ (j - l))

/-- angular_momentum.c:521-593 `__wigner_rotation_2` for one orientation with polar angle given by `c`, `s`:
only the components `m ≤ 0` (indices `0 … l`) are produced. -/
noncomputable def halfRotation (K : WC) (l : ℕ) (c s : ℝ) (e : ℂ) (R : ℕ → ℂ) (i : ℕ) : ℂ :=
  ∑ j ∈ Finset.range (2 * l + 1), (wHalf K l c s ((2 * l + 1) * i + j) : ℂ) * phasedHalf l e R j

/-! ## Specification 1: binary forms

A tensor of rank `l` is a form of degree `2l` in two variables; a rotation substitutes the variables by the
corresponding element of SU(2). -/

/-- The form `Σ_m R_m x^{l+m} y^{l-m} / √((l+m)!(l-m)!)`. -/
noncomputable def Spec.form (l : ℕ) (R : ℕ → ℂ) (x y : ℂ) : ℂ :=
  ∑ i ∈ Finset.range (2 * l + 1), R i * x ^ i * y ^ (2 * l - i) / (Spec.wnorm l ((i : ℤ) - l) : ℂ)

/-! ## Lemmas -/

theorem wnorm_pos (l : ℕ) (m : ℤ) : 0 < Spec.wnorm l m := by
  unfold Spec.wnorm
  exact Real.sqrt_pos.mpr (by exact_mod_cast Nat.mul_pos (Nat.factorial_pos _) (Nat.factorial_pos _))

theorem wnorm_sq (l i : ℕ) (hi : i ≤ 2 * l) :
    Spec.wnorm l ((i : ℤ) - l) * Spec.wnorm l ((i : ℤ) - l) = (i.factorial * (2 * l - i).factorial : ℕ) := by
  unfold Spec.wnorm
  rw [Real.mul_self_sqrt (by positivity), show ((l : ℤ) + ((i : ℤ) - l)).toNat = i by omega,
    show ((l : ℤ) - ((i : ℤ) - l)).toNat = 2 * l - i by omega]

theorem sum_window {M : Type} [AddCommMonoid M] (n j k : ℕ) (h : j + k ≤ n) (g : ℕ → M) :
    ∑ i ∈ Finset.range (n + 1), (if k ≤ i ∧ i ≤ j + k then g i else 0)
      = ∑ a ∈ Finset.range (j + 1), g (a + k) := by
  rw [← Finset.sum_filter]
  refine Finset.sum_nbij' (fun i => i - k) (fun a => a + k) ?_ ?_ ?_ ?_ ?_
  · intro i hi
    simp only [Finset.mem_filter, Finset.mem_range] at hi ⊢
    omega
  · intro a ha
    simp only [Finset.mem_filter, Finset.mem_range] at ha ⊢
    omega
  · intro i hi
    simp only [Finset.mem_filter] at hi
    omega
  · intro a _
    simp
  · intro i hi
    simp only [Finset.mem_filter] at hi
    rw [Nat.sub_add_cancel hi.2.1]

/-- The generating function of one row of Wigner's matrix. -/
theorem wignerD_generating (l j : ℕ) (hj : j ≤ 2 * l) (β : ℝ) (x y : ℂ) :
    ∑ i ∈ Finset.range (2 * l + 1),
        (Spec.wignerD l ((j : ℤ) - l) ((i : ℤ) - l) β : ℂ) * x ^ i * y ^ (2 * l - i)
          / (Spec.wnorm l ((i : ℤ) - l) : ℂ)
      = (Real.cos (β / 2) * x - Real.sin (β / 2) * y) ^ j
          * (Real.sin (β / 2) * x + Real.cos (β / 2) * y) ^ (2 * l - j)
          / (Spec.wnorm l ((j : ℤ) - l) : ℂ) := by
  set C := Real.cos (β / 2) with hC
  set S := Real.sin (β / 2) with hS
  set f : ℕ → ℕ → ℂ := fun i k =>
    (-1) ^ (j + k - i) * (C : ℂ) ^ (2 * l + i - j - 2 * k) * (S : ℂ) ^ (j + 2 * k - i) * x ^ i * y ^ (2 * l - i)
      / (((i - k).factorial * k.factorial * (j + k - i).factorial
          * (2 * l - j - k).factorial : ℕ) : ℂ) with hf
  have hwj : (Spec.wnorm l ((j : ℤ) - l) : ℂ) ≠ 0 := by exact_mod_cast (wnorm_pos l _).ne'
  have h1 : ∀ i ∈ Finset.range (2 * l + 1),
      (Spec.wignerD l ((j : ℤ) - l) ((i : ℤ) - l) β : ℂ) * x ^ i * y ^ (2 * l - i)
          / (Spec.wnorm l ((i : ℤ) - l) : ℂ)
        = (Spec.wnorm l ((j : ℤ) - l) : ℂ) * ∑ k ∈ Finset.range (2 * l + 1),
            if j + k ≤ 2 * l then (if k ≤ i ∧ i ≤ j + k then f i k else 0) else 0 := by
    intro i hi
    have hwi : (Spec.wnorm l ((i : ℤ) - l) : ℂ) ≠ 0 := by exact_mod_cast (wnorm_pos l _).ne'
    rw [wignerD_nat l i j β, ← hC, ← hS]
    push_cast
    rw [div_eq_iff hwi, Finset.mul_sum, Finset.mul_sum, Finset.sum_mul, Finset.sum_mul, Finset.sum_mul]
    apply Finset.sum_congr rfl
    intro k _
    by_cases hk : k ≤ i ∧ i ≤ j + k ∧ j + k ≤ 2 * l
    · rw [if_pos hk, if_pos hk.2.2, if_pos ⟨hk.1, hk.2.1⟩, hf]
      push_cast
      ring
    · rw [if_neg hk]
      by_cases h2 : j + k ≤ 2 * l
      · rw [if_pos h2, if_neg (fun h => hk ⟨h.1, h.2, h2⟩)]
        simp
      · rw [if_neg h2]
        simp
  rw [Finset.sum_congr rfl h1, ← Finset.mul_sum, Finset.sum_comm]
  have h2 : ∑ k ∈ Finset.range (2 * l + 1), ∑ i ∈ Finset.range (2 * l + 1),
      (if j + k ≤ 2 * l then (if k ≤ i ∧ i ≤ j + k then f i k else 0) else 0)
      = ∑ k ∈ Finset.range (2 * l - j + 1), ∑ a ∈ Finset.range (j + 1), f (a + k) k := by
    rw [← Finset.sum_subset (s₁ := Finset.range (2 * l - j + 1))]
    · apply Finset.sum_congr rfl
      intro k hk
      have hk' : j + k ≤ 2 * l := by
        have := Finset.mem_range.mp hk
        omega
      simp only [hk', if_true]
      exact sum_window (2 * l) j k hk' (fun i => f i k)
    · intro k hk
      simp only [Finset.mem_range] at hk ⊢
      omega
    · intro k _ hk
      have hk' : ¬ j + k ≤ 2 * l := by
        simp only [Finset.mem_range] at hk
        omega
      simp [hk']
  rw [h2, eq_div_iff hwj]
  have h3 : (Spec.wnorm l ((j : ℤ) - l) : ℂ) * (Spec.wnorm l ((j : ℤ) - l) : ℂ)
      = ((j.factorial * (2 * l - j).factorial : ℕ) : ℂ) := by exact_mod_cast wnorm_sq l j hj
  rw [mul_right_comm, h3, sub_eq_add_neg, add_pow, add_pow, Finset.mul_sum, Finset.mul_sum]
  apply Finset.sum_congr rfl
  intro k hk
  rw [Finset.mul_sum, Finset.sum_mul]
  apply Finset.sum_congr rfl
  intro a ha
  have hk' : k ≤ 2 * l - j := by have := Finset.mem_range.mp hk; omega
  have ha' : a ≤ j := by have := Finset.mem_range.mp ha; omega
  have c1 : (a.factorial : ℂ) ≠ 0 := by exact_mod_cast a.factorial_ne_zero
  have c2 : (k.factorial : ℂ) ≠ 0 := by exact_mod_cast k.factorial_ne_zero
  have c3 : ((j - a).factorial : ℂ) ≠ 0 := by exact_mod_cast (j - a).factorial_ne_zero
  have c4 : ((2 * l - j - k).factorial : ℂ) ≠ 0 := by exact_mod_cast (2 * l - j - k).factorial_ne_zero
  have b1 : ((j.choose a : ℕ) : ℂ) = (j.factorial : ℂ) / ((a.factorial : ℂ) * ((j - a).factorial : ℂ)) := by
    rw [eq_div_iff (mul_ne_zero c1 c3)]
    have := Nat.choose_mul_factorial_mul_factorial ha'
    rw [← mul_assoc]
    exact_mod_cast this
  have b2 : (((2 * l - j).choose k : ℕ) : ℂ)
      = ((2 * l - j).factorial : ℂ) / ((k.factorial : ℂ) * ((2 * l - j - k).factorial : ℂ)) := by
    rw [eq_div_iff (mul_ne_zero c2 c4)]
    have := Nat.choose_mul_factorial_mul_factorial hk'
    rw [← mul_assoc]
    exact_mod_cast this
  rw [b1, b2]
  simp only [hf]
  rw [show j + k - (a + k) = j - a by omega, show 2 * l + (a + k) - j - 2 * k = a + (2 * l - j - k) by omega,
    show j + 2 * k - (a + k) = (j - a) + k by omega, show a + k - k = a by omega,
    show 2 * l - (a + k) = (j - a) + (2 * l - j - k) by omega]
  push_cast
  rw [neg_pow ((S : ℂ) * y), mul_pow, mul_pow, mul_pow, mul_pow]
  field_simp
  ring

/-- Rotation about the y axis substitutes the variables. -/
theorem form_applyW (l : ℕ) (hl : l = 2 ∨ l = 4) (β : ℝ) (R : ℕ → ℂ) (x y : ℂ) :
    Spec.form l (applyW l (wMatrix WC.exact l (Real.cos β) (Real.sin β)) R) x y
      = Spec.form l R (Real.cos (β / 2) * x - Real.sin (β / 2) * y)
          (Real.sin (β / 2) * x + Real.cos (β / 2) * y) := by
  have hw : ∀ i j, i < 2 * l + 1 → j < 2 * l + 1 →
      wMatrix WC.exact l (Real.cos β) (Real.sin β) ((2 * l + 1) * i + j)
        = Spec.wignerD l ((j : ℤ) - l) ((i : ℤ) - l) β := by
    rintro i j hi hj
    rcases hl with rfl | rfl
    · exact wigner2j_exact β i j hi hj
    · exact wigner4j_exact β i j hi hj
  unfold Spec.form applyW
  have h1 : ∀ i ∈ Finset.range (2 * l + 1),
      (∑ j ∈ Finset.range (2 * l + 1),
        (wMatrix WC.exact l (Real.cos β) (Real.sin β) ((2 * l + 1) * i + j) : ℂ) * R j) * x ^ i
          * y ^ (2 * l - i) / (Spec.wnorm l ((i : ℤ) - l) : ℂ)
      = ∑ j ∈ Finset.range (2 * l + 1), R j *
          ((Spec.wignerD l ((j : ℤ) - l) ((i : ℤ) - l) β : ℂ) * x ^ i * y ^ (2 * l - i)
          / (Spec.wnorm l ((i : ℤ) - l) : ℂ)) := by
    intro i hi
    rw [Finset.sum_mul, Finset.sum_mul, Finset.sum_div]
    apply Finset.sum_congr rfl
    intro j hj
    rw [hw i j (Finset.mem_range.mp hi) (Finset.mem_range.mp hj)]
    ring
  rw [Finset.sum_congr rfl h1, Finset.sum_comm]
  apply Finset.sum_congr rfl
  intro j hj
  rw [← Finset.mul_sum, wignerD_generating l j (by have := Finset.mem_range.mp hj; omega) β x y]
  ring

/-- Rotation about the z axis multiplies the variables by opposite phases. -/
theorem form_phased (l : ℕ) (α : ℝ) (R : ℕ → ℂ) (x y : ℂ) :
    Spec.form l (phased l (exp (α * I)) R) x y
      = Spec.form l R (exp (-(α / 2) * I) * x) (exp ((α / 2) * I) * y) := by
  unfold Spec.form
  apply Finset.sum_congr rfl
  intro i hi
  congr 1
  rw [mul_pow, mul_pow]
  have key : phased l (exp (α * I)) R i
      = R i * (exp (-(α / 2) * I) ^ i * exp ((α / 2) * I) ^ (2 * l - i)) := by
    have hi' : i ≤ 2 * l := by have := Finset.mem_range.mp hi; omega
    unfold phased
    simp only [← Complex.exp_nat_mul, ← Complex.exp_add]
    split_ifs with h
    · congr 2
      rw [Nat.cast_sub h, Nat.cast_sub hi']
      push_cast
      ring
    · rw [← Complex.exp_conj]
      congr 2
      rw [map_mul, map_mul, Complex.conj_natCast, Complex.conj_ofReal, Complex.conj_I,
        Nat.cast_sub (by omega), Nat.cast_sub hi']
      push_cast
      ring
  rw [key]
  ring

end MRS.Freq
