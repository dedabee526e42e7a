import Mathlib.LinearAlgebra.Matrix.ConjTranspose
import Mathlib.LinearAlgebra.Matrix.Symmetric
import Mathlib.LinearAlgebra.Matrix.Trace
import Mathlib.Analysis.SpecialFunctions.Pow.Real
import Mathlib.Analysis.Complex.Basic
import Mathlib.Tactic.FieldSimp
import Mathlib.Tactic.LinearCombination
import Mathlib.Tactic.Linarith

/-!
# Specification 3: perturbation theory for a spin

The energies of a quadrupolar nucleus of spin `I = n/2` to first and second order in the quadrupole coupling,
from the matrices of the spin operators.  Nothing here refers to the code.
-/

namespace MRS.Freq

open Complex ComplexConjugate Matrix

/-- The magnetic quantum number of the `j`-th of the `n + 1` states. -/
noncomputable def Spec.mag (n : ℕ) (j : Fin (n + 1)) : ℝ := (j : ℝ) - n / 2

/-- `I(I+1)`. -/
noncomputable def Spec.casimir (n : ℕ) : ℝ := (n : ℝ) / 2 * ((n : ℝ) / 2 + 1)

/-- The raising operator: `⟨m+1|I₊|m⟩ = √(I(I+1) - m(m+1))`. -/
noncomputable def Spec.raise (n : ℕ) : Matrix (Fin (n + 1)) (Fin (n + 1)) ℂ :=
  Matrix.of fun k j => if (k : ℕ) = j + 1 then ((√(casimir n - mag n j * (mag n j + 1)) : ℝ) : ℂ) else 0

/-- The three components of the spin. -/
noncomputable def Spec.spin (n : ℕ) : Fin 3 → Matrix (Fin (n + 1)) (Fin (n + 1)) ℂ
  | 0 => (1 / 2 : ℂ) • (Spec.raise n + (Spec.raise n)ᴴ)
  | 1 => (-I / 2 : ℂ) • (Spec.raise n - (Spec.raise n)ᴴ)
  | 2 => Matrix.diagonal fun j => (Spec.mag n j : ℂ)

/-- The quadrupole Hamiltonian `Cq/(2I(2I-1)) Σ V_ab I_a I_b` in frequency units, `V` being the field gradient
in units of its largest principal component. -/
noncomputable def Spec.quadH (n : ℕ) (Cq : ℝ) (V : Matrix (Fin 3) (Fin 3) ℝ) :
    Matrix (Fin (n + 1)) (Fin (n + 1)) ℂ :=
  ((Cq / (2 * (n / 2 : ℝ) * (2 * (n / 2 : ℝ) - 1)) : ℝ) : ℂ) •
    ∑ a, ∑ b, (V a b : ℂ) • (Spec.spin n a * Spec.spin n b)

/-- First order: the expectation value. -/
noncomputable def Spec.E1 {n : ℕ} (H : Matrix (Fin (n + 1)) (Fin (n + 1)) ℂ) (j : Fin (n + 1)) : ℝ := (H j j).re

/-- Second order, with the Zeeman energies `ν₀ m` as the unperturbed ones. -/
noncomputable def Spec.E2 {n : ℕ} (H : Matrix (Fin (n + 1)) (Fin (n + 1)) ℂ) (v0 : ℝ) (j : Fin (n + 1)) : ℝ :=
  ∑ k ∈ Finset.univ.erase j, ‖H k j‖ ^ 2 / (v0 * Spec.mag n j - v0 * Spec.mag n k)

/-! ## Evaluation -/

/-- `√(I(I+1) - m(m+1))` for the state number `j`, which need not exist. -/
noncomputable def ladder (n j : ℕ) : ℝ := √(((n : ℝ) - j) * (j + 1))

theorem ladder_eq (n : ℕ) (j : Fin (n + 1)) :
    √(Spec.casimir n - Spec.mag n j * (Spec.mag n j + 1)) = ladder n j := by
  unfold Spec.casimir Spec.mag ladder
  congr 1
  ring

theorem ladder_sq (n j : ℕ) (h : j ≤ n) : ladder n j * ladder n j = ((n : ℝ) - j) * (j + 1) := by
  unfold ladder
  have : (j : ℝ) ≤ n := by exact_mod_cast h
  exact Real.mul_self_sqrt (mul_nonneg (by linarith) (by positivity))

theorem raise_apply (n : ℕ) (k j : Fin (n + 1)) :
    Spec.raise n k j = if (k : ℕ) = j + 1 then (ladder n j : ℂ) else 0 := by
  unfold Spec.raise
  rw [Matrix.of_apply, ladder_eq]

theorem lower_apply (n : ℕ) (k j : Fin (n + 1)) :
    (Spec.raise n)ᴴ k j = if (j : ℕ) = k + 1 then (ladder n k : ℂ) else 0 := by
  rw [Matrix.conjTranspose_apply, raise_apply]
  split_ifs <;> simp

theorem rr_apply (n : ℕ) (k j : Fin (n + 1)) :
    (Spec.raise n * Spec.raise n) k j
      = if (k : ℕ) = j + 2 then (ladder n (j + 1) : ℂ) * ladder n j else 0 := by
  rw [Matrix.mul_apply]
  simp only [raise_apply]
  split_ifs with h
  · have hj : (j : ℕ) + 1 < n + 1 := by omega
    rw [Finset.sum_eq_single ⟨j + 1, hj⟩]
    · simp [h]
    · intro b _ hb
      have : (b : ℕ) ≠ j + 1 := fun e => hb (Fin.ext e)
      simp [this]
    · simp
  · apply Finset.sum_eq_zero
    intro b _
    by_cases h1 : (b : ℕ) = j + 1
    · have : ¬ (k : ℕ) = b + 1 := by omega
      simp [this]
    · simp [h1]

theorem ll_apply (n : ℕ) (k j : Fin (n + 1)) :
    ((Spec.raise n)ᴴ * (Spec.raise n)ᴴ) k j
      = if (j : ℕ) = k + 2 then (ladder n (k + 1) : ℂ) * ladder n k else 0 := by
  rw [← Matrix.conjTranspose_mul, Matrix.conjTranspose_apply, rr_apply]
  split_ifs <;> simp

theorem rl_apply (n : ℕ) (k j : Fin (n + 1)) :
    (Spec.raise n * (Spec.raise n)ᴴ) k j
      = if k = j then (((n : ℝ) - j + 1) * j : ℝ) else 0 := by
  rw [Matrix.mul_apply]
  simp only [raise_apply, lower_apply]
  split_ifs with h
  · subst h
    rcases Nat.eq_zero_or_pos (k : ℕ) with h0 | h0
    · rw [Finset.sum_eq_zero]
      · simp [h0]
      · intro b _
        simp [h0]
    · rw [Finset.sum_eq_single ⟨k - 1, by omega⟩]
      · have e : (k : ℕ) = k - 1 + 1 := by omega
        have hl := ladder_sq n (k - 1) (by omega)
        simp only [← e, if_true]
        rw [← Complex.ofReal_mul, hl]
        have : ((k - 1 : ℕ) : ℝ) = (k : ℝ) - 1 := by
          rw [Nat.cast_sub h0, Nat.cast_one]
        rw [this]
        push_cast
        ring
      · intro b _ hb
        have : ¬ (k : ℕ) = b + 1 := fun e => hb (Fin.ext (by simp; omega))
        simp [this]
      · simp
  · apply Finset.sum_eq_zero
    intro b _
    have : (k : ℕ) ≠ j := fun e => h (Fin.ext e)
    by_cases h1 : (k : ℕ) = b + 1
    · have : ¬ (j : ℕ) = b + 1 := by omega
      simp [this]
    · simp [h1]

theorem lr_apply (n : ℕ) (k j : Fin (n + 1)) :
    ((Spec.raise n)ᴴ * Spec.raise n) k j
      = if k = j then (((n : ℝ) - j) * (j + 1) : ℝ) else 0 := by
  rw [Matrix.mul_apply]
  simp only [raise_apply, lower_apply]
  split_ifs with h
  · subst h
    by_cases hk : (k : ℕ) = n
    · rw [Finset.sum_eq_zero]
      · simp [hk]
      · intro b _
        have : ¬ (b : ℕ) = k + 1 := by omega
        simp [this]
    · have : (k : ℕ) < n := by omega
      rw [Finset.sum_eq_single ⟨k + 1, by omega⟩]
      · have hl := ladder_sq n k (by omega)
        simp only [if_true]
        rw [← Complex.ofReal_mul, hl]
      · intro b _ hb
        have : ¬ (b : ℕ) = k + 1 := fun e => hb (Fin.ext e)
        simp [this]
      · simp
  · apply Finset.sum_eq_zero
    intro b _
    have : (k : ℕ) ≠ j := fun e => h (Fin.ext e)
    by_cases h1 : (b : ℕ) = k + 1
    · have : ¬ (b : ℕ) = j + 1 := by omega
      simp [this]
    · simp [h1]

/-- The matrix elements of the quadrupole Hamiltonian. -/
theorem quadH_apply (n : ℕ) (Cq : ℝ) (V : Matrix (Fin 3) (Fin 3) ℝ) (hV : V.IsSymm) (ht : V.trace = 0)
    (k j : Fin (n + 1)) :
    Spec.quadH n Cq V k j = ((Cq / (2 * (n / 2 : ℝ) * (2 * (n / 2 : ℝ) - 1)) : ℝ) : ℂ) *
      ((if k = j then ((V 2 2 / 2 * (3 * Spec.mag n j ^ 2 - Spec.casimir n) : ℝ) : ℂ) else 0)
      + (if (k : ℕ) = j + 1 then (V 0 2 - I * V 1 2) / 2 * (2 * Spec.mag n j + 1) * ladder n j else 0)
      + (if (j : ℕ) = k + 1 then (V 0 2 + I * V 1 2) / 2 * (2 * Spec.mag n k + 1) * ladder n k else 0)
      + (if (k : ℕ) = j + 2 then (V 0 0 - V 1 1 - 2 * I * V 0 1) / 4 * (ladder n (j + 1) * ladder n j) else 0)
      + (if (j : ℕ) = k + 2 then (V 0 0 - V 1 1 + 2 * I * V 0 1) / 4 * (ladder n (k + 1) * ladder n k) else 0))
      := by
  have h01 : V 1 0 = V 0 1 := hV.apply 0 1
  have h02 : V 2 0 = V 0 2 := hV.apply 0 2
  have h12 : V 2 1 = V 1 2 := hV.apply 1 2
  have htr : V 1 1 = -V 0 0 - V 2 2 := by
    have := ht
    simp only [Matrix.trace, Matrix.diag, Fin.sum_univ_three] at this
    linarith
  unfold Spec.quadH
  rw [Matrix.smul_apply, smul_eq_mul]
  congr 1
  simp only [Fin.sum_univ_three, Spec.spin, Matrix.add_apply, Matrix.smul_apply, smul_eq_mul, Matrix.smul_mul,
    Matrix.mul_smul, Matrix.add_mul, Matrix.mul_add, Matrix.sub_mul, Matrix.mul_sub, Matrix.sub_apply,
    rr_apply, ll_apply, rl_apply, lr_apply, Matrix.diagonal_mul, Matrix.mul_diagonal, raise_apply, lower_apply,
    Matrix.diagonal_apply, h01, h02, h12]
  have hI : (I : ℂ) * I = -1 := Complex.I_mul_I
  by_cases e0 : k = j
  · subst e0
    simp [Spec.mag, Spec.casimir, htr]
    linear_combination (-(V 0 0 + V 2 2 : ℂ) / 4 * (-(((n : ℂ) - k + 1) * k) - (n - k) * (k + 1))) * hI
  · have e0' : (k : ℕ) ≠ j := fun e => e0 (Fin.ext e)
    by_cases e1 : (k : ℕ) = j + 1
    · have hm : (Spec.mag n k : ℂ) = Spec.mag n j + 1 := by simp [Spec.mag, e1]; ring
      have n1 : ¬ (j : ℕ) = k + 1 := by omega
      have n2 : ¬ (k : ℕ) = j + 2 := by omega
      have n3 : ¬ (j : ℕ) = k + 2 := by omega
      simp only [if_neg e0, if_pos e1, if_neg n1, if_neg n2, if_neg n3, hm]
      simp
      ring
    · by_cases e2 : (j : ℕ) = k + 1
      · have hm : (Spec.mag n j : ℂ) = Spec.mag n k + 1 := by simp [Spec.mag, e2]; ring
        have n2 : ¬ (k : ℕ) = j + 2 := by omega
        have n3 : ¬ (j : ℕ) = k + 2 := by omega
        simp only [if_neg e0, if_neg e1, if_pos e2, if_neg n2, if_neg n3, hm]
        simp
        ring
      · by_cases e3 : (k : ℕ) = j + 2
        · have n3 : ¬ (j : ℕ) = k + 2 := by omega
          simp only [if_neg e0, if_neg e1, if_neg e2, if_pos e3, if_neg n3]
          simp
          linear_combination (V 1 1 * (ladder n (j + 1) * ladder n j) / 4 : ℂ) * hI
        · by_cases e4 : (j : ℕ) = k + 2
          · simp only [if_neg e0, if_neg e1, if_neg e2, if_neg e3, if_pos e4]
            simp
            linear_combination (V 1 1 * (ladder n (k + 1) * ladder n k) / 4 : ℂ) * hI
          · simp [e0, e1, e2, e3, e4]

/-- The factor `Cq/(2I(2I-1))`. -/
noncomputable def Spec.cfac (n : ℕ) (Cq : ℝ) : ℝ := Cq / (2 * (n / 2 : ℝ) * (2 * (n / 2 : ℝ) - 1))

theorem E1_quad (n : ℕ) (Cq : ℝ) (V : Matrix (Fin 3) (Fin 3) ℝ) (hV : V.IsSymm) (ht : V.trace = 0)
    (j : Fin (n + 1)) :
    Spec.E1 (Spec.quadH n Cq V) j
      = Spec.cfac n Cq * (V 2 2 / 2 * (3 * Spec.mag n j ^ 2 - Spec.casimir n)) := by
  unfold Spec.E1 Spec.cfac
  rw [quadH_apply n Cq V hV ht]
  have n1 : ¬ (j : ℕ) = j + 1 := by omega
  have n2 : ¬ (j : ℕ) = j + 2 := by omega
  simp only [if_true, if_neg n1, if_neg n2, add_zero]
  rw [← Complex.ofReal_mul, Complex.ofReal_re]

theorem norm_sq_mul (c : ℝ) (a b r : ℝ) : ‖(c : ℂ) * ((a + I * b) * (r : ℂ))‖ ^ 2 = c ^ 2 * ((a ^ 2 + b ^ 2) * r ^ 2) := by
  rw [Complex.sq_norm, Complex.normSq_apply]
  simp
  ring

theorem sum_pick (n : ℕ) (t : ℕ) (x : ℝ) (h : n < t → x = 0) :
    ∑ k : Fin (n + 1), (if (k : ℕ) = t then x else 0) = x := by
  by_cases ht : t < n + 1
  · rw [Finset.sum_eq_single ⟨t, ht⟩]
    · simp
    · intro b _ hb
      rw [if_neg (fun e => hb (Fin.ext e))]
    · simp
  · rw [h (by omega)]
    simp

theorem sum_pick' (n : ℕ) (j t : ℕ) (hj : j ≤ n) (x : ℝ) (h : j < t → x = 0) :
    ∑ k : Fin (n + 1), (if j = (k : ℕ) + t then x else 0) = x := by
  by_cases ht : j < t
  · rw [h ht]
    simp
  · refine (Finset.sum_congr rfl (fun k _ => ?_)).trans (sum_pick n (j - t) x (fun hh => by omega))
    by_cases e : j = (k : ℕ) + t
    · rw [if_pos e, if_pos (by omega)]
    · rw [if_neg e, if_neg (by omega)]

theorem E2_quad (n : ℕ) (Cq : ℝ) (V : Matrix (Fin 3) (Fin 3) ℝ) (hV : V.IsSymm) (ht : V.trace = 0) (v0 : ℝ)
    (j : Fin (n + 1)) :
    Spec.E2 (Spec.quadH n Cq V) v0 j
      = Spec.cfac n Cq ^ 2 * ((V 0 2 ^ 2 + V 1 2 ^ 2) / 4 *
          ((2 * Spec.mag n j - 1) ^ 2 * ((n - j + 1) * j) - (2 * Spec.mag n j + 1) ^ 2 * ((n - j) * (j + 1)))
        + ((V 0 0 - V 1 1) ^ 2 + 4 * V 0 1 ^ 2) / 32 *
          ((n - j + 2) * (j - 1) * ((n - j + 1) * j) - (n - j - 1) * (j + 2) * ((n - j) * (j + 1)))) / v0 := by
  set c := Spec.cfac n Cq with hc
  set m := Spec.mag n j with hm
  have hjn : (j : ℕ) ≤ n := by omega
  set B1 : ℝ := -(c ^ 2 * ((V 0 2 ^ 2 + V 1 2 ^ 2) / 4 * ((2 * m + 1) ^ 2 * ((n - j) * (j + 1)))) / v0) with hB1
  set B2 : ℝ := c ^ 2 * ((V 0 2 ^ 2 + V 1 2 ^ 2) / 4 * ((2 * m - 1) ^ 2 * ((n - j + 1) * j))) / v0 with hB2
  set B3 : ℝ := -(c ^ 2 * (((V 0 0 - V 1 1) ^ 2 + 4 * V 0 1 ^ 2) / 16 *
    ((n - j - 1) * (j + 2) * ((n - j) * (j + 1)))) / (2 * v0)) with hB3
  set B4 : ℝ := c ^ 2 * (((V 0 0 - V 1 1) ^ 2 + 4 * V 0 1 ^ 2) / 16 *
    ((n - j + 2) * (j - 1) * ((n - j + 1) * j))) / (2 * v0) with hB4
  have key : ∀ k ∈ Finset.univ.erase j,
      ‖Spec.quadH n Cq V k j‖ ^ 2 / (v0 * m - v0 * Spec.mag n k)
        = (if (k : ℕ) = j + 1 then B1 else 0) + (if (j : ℕ) = k + 1 then B2 else 0)
          + (if (k : ℕ) = j + 2 then B3 else 0) + (if (j : ℕ) = k + 2 then B4 else 0) := by
    intro k hk
    have e0 : k ≠ j := (Finset.mem_erase.mp hk).1
    have e0' : (k : ℕ) ≠ j := fun e => e0 (Fin.ext e)
    rw [quadH_apply n Cq V hV ht, if_neg e0]
    change ‖((c : ℝ) : ℂ) * _‖ ^ 2 / _ = _
    by_cases e1 : (k : ℕ) = j + 1
    · have hmk : Spec.mag n k = m + 1 := by rw [hm]; simp [Spec.mag, e1]; ring
      have n1 : ¬ (j : ℕ) = k + 1 := by omega
      have n2 : ¬ (k : ℕ) = j + 2 := by omega
      have n3 : ¬ (j : ℕ) = k + 2 := by omega
      simp only [if_pos e1, if_neg n1, if_neg n2, if_neg n3, zero_add, add_zero]
      have := norm_sq_mul c (V 0 2 / 2) (-(V 1 2 / 2)) ((2 * m + 1) * ladder n j)
      rw [show (((V 0 2 : ℂ) - I * V 1 2) / 2 * (2 * m + 1) * ladder n j)
        = (((V 0 2 / 2 : ℝ) : ℂ) + I * ((-(V 1 2 / 2) : ℝ) : ℂ)) * (((2 * m + 1) * ladder n j : ℝ) : ℂ) by
          push_cast; ring, this, hmk, mul_pow, pow_two (ladder n j), ladder_sq n j hjn, hB1,
        show v0 * m - v0 * (m + 1) = -v0 by ring, div_neg]
      ring
    · by_cases e2 : (j : ℕ) = k + 1
      · have hmk : Spec.mag n k = m - 1 := by rw [hm]; simp [Spec.mag, e2]; ring
        have hkj : ((k : ℕ) : ℝ) = j - 1 := by
          have : ((j : ℕ) : ℝ) = k + 1 := by exact_mod_cast e2
          linarith
        have n2 : ¬ (k : ℕ) = j + 2 := by omega
        have n3 : ¬ (j : ℕ) = k + 2 := by omega
        simp only [if_neg e1, if_pos e2, if_neg n2, if_neg n3, zero_add, add_zero]
        have := norm_sq_mul c (V 0 2 / 2) (V 1 2 / 2) ((2 * Spec.mag n k + 1) * ladder n k)
        rw [show (((V 0 2 : ℂ) + I * V 1 2) / 2 * (2 * Spec.mag n k + 1) * ladder n k)
          = (((V 0 2 / 2 : ℝ) : ℂ) + I * ((V 1 2 / 2 : ℝ) : ℂ)) * (((2 * Spec.mag n k + 1) * ladder n k : ℝ) : ℂ) by
            push_cast; ring, this, hmk, mul_pow, pow_two (ladder n k), ladder_sq n k (by omega), hB2,
          show v0 * m - v0 * (m - 1) = v0 by ring, hkj]
        ring
      · by_cases e3 : (k : ℕ) = j + 2
        · have hmk : Spec.mag n k = m + 2 := by rw [hm]; simp [Spec.mag, e3]; ring
          have n3 : ¬ (j : ℕ) = k + 2 := by omega
          simp only [if_neg e1, if_neg e2, if_pos e3, if_neg n3, zero_add, add_zero]
          have := norm_sq_mul c ((V 0 0 - V 1 1) / 4) (-(V 0 1 / 2)) (ladder n (j + 1) * ladder n j)
          rw [show (((V 0 0 : ℂ) - V 1 1 - 2 * I * V 0 1) / 4 * (ladder n (j + 1) * ladder n j))
            = ((((V 0 0 - V 1 1) / 4 : ℝ) : ℂ) + I * ((-(V 0 1 / 2) : ℝ) : ℂ)) *
              ((ladder n (j + 1) * ladder n j : ℝ) : ℂ) by push_cast; ring, this, hmk, mul_pow,
            pow_two (ladder n j), pow_two (ladder n (j + 1)), ladder_sq n j hjn, ladder_sq n (j + 1) (by omega), hB3,
            show v0 * m - v0 * (m + 2) = -(2 * v0) by ring, div_neg]
          push_cast
          ring
        · by_cases e4 : (j : ℕ) = k + 2
          · have hmk : Spec.mag n k = m - 2 := by rw [hm]; simp [Spec.mag, e4]; ring
            have hkj : ((k : ℕ) : ℝ) = j - 2 := by
              have : ((j : ℕ) : ℝ) = k + 2 := by exact_mod_cast e4
              linarith
            simp only [if_neg e1, if_neg e2, if_neg e3, if_pos e4, zero_add, add_zero]
            have := norm_sq_mul c ((V 0 0 - V 1 1) / 4) (V 0 1 / 2) (ladder n (k + 1) * ladder n k)
            rw [show (((V 0 0 : ℂ) - V 1 1 + 2 * I * V 0 1) / 4 * (ladder n (k + 1) * ladder n k))
              = ((((V 0 0 - V 1 1) / 4 : ℝ) : ℂ) + I * ((V 0 1 / 2 : ℝ) : ℂ)) *
                ((ladder n (k + 1) * ladder n k : ℝ) : ℂ) by push_cast; ring, this, hmk, mul_pow,
              pow_two (ladder n k), pow_two (ladder n (k + 1)), ladder_sq n k (by omega),
              ladder_sq n (k + 1) (by omega), hB4,
              show v0 * m - v0 * (m - 2) = 2 * v0 by ring]
            push_cast
            rw [hkj]
            ring
          · simp [e1, e2, e3, e4]
  unfold Spec.E2
  have n1 : ¬ (j : ℕ) = j + 1 := by omega
  have n2 : ¬ (j : ℕ) = j + 2 := by omega
  rw [Finset.sum_congr rfl key, Finset.sum_erase Finset.univ (by simp only [if_neg n1, if_neg n2, add_zero])]
  rw [Finset.sum_add_distrib, Finset.sum_add_distrib, Finset.sum_add_distrib, sum_pick n, sum_pick' n _ _ hjn,
    sum_pick n, sum_pick' n _ _ hjn]
  · rw [hB1, hB2, hB3, hB4]
    field_simp
    ring
  · intro h
    have : ((j : ℕ) : ℝ) < 2 := by exact_mod_cast h
    have hj : (j : ℕ) = 0 ∨ (j : ℕ) = 1 := by omega
    rw [hB4]
    rcases hj with hj | hj <;> rw [hj] <;> norm_num
  · intro h
    have hj : (j : ℕ) = n ∨ (j : ℕ) + 1 = n := by omega
    rw [hB3]
    rcases hj with hj | hj
    · rw [hj]
      norm_num
    · have : (n : ℝ) = j + 1 := by exact_mod_cast hj.symm
      rw [this]
      norm_num
  · intro h
    have hj : (j : ℕ) = 0 := by omega
    rw [hB2, hj]
    norm_num
  · intro h
    have hj : (j : ℕ) = n := by omega
    rw [hB1, hj]
    norm_num

end MRS.Freq
