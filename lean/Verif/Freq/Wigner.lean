import Verif.Freq.Tables
import Mathlib.Tactic.LinearCombination

/-!
# The matrices of angular_momentum.c with exact constants are Wigner's
-/

namespace MRS.Freq

open Real

set_option linter.unusedSimpArgs false

/-- Wigner's formula with the quantum numbers counted from `-l`. -/
theorem wignerD_nat (l i j : ℕ) (β : ℝ) :
    Spec.wignerD l ((j : ℤ) - l) ((i : ℤ) - l) β =
      Spec.wnorm l ((j : ℤ) - l) * Spec.wnorm l ((i : ℤ) - l) *
        ∑ k ∈ Finset.range (2 * l + 1),
          if k ≤ i ∧ i ≤ j + k ∧ j + k ≤ 2 * l then
            (-1) ^ (j + k - i) * cos (β / 2) ^ (2 * l + i - j - 2 * k) * sin (β / 2) ^ (j + 2 * k - i)
              / (((i - k).factorial * k.factorial * (j + k - i).factorial
                  * (2 * l - j - k).factorial : ℕ) : ℝ)
          else 0 := by
  unfold Spec.wignerD
  congr 1
  apply Finset.sum_congr rfl
  intro k _
  by_cases h : k ≤ i ∧ i ≤ j + k ∧ j + k ≤ 2 * l
  · obtain ⟨h1, h2, h3⟩ := h
    rw [if_pos (show _ ∧ _ ∧ _ from ⟨by omega, by omega, by omega⟩), if_pos (show _ ∧ _ ∧ _ from ⟨h1, h2, h3⟩)]
    rw [show ((j : ℤ) - l - ((i : ℤ) - l) + k).toNat = j + k - i by omega,
      show (2 * (l : ℤ) + ((i : ℤ) - l) - ((j : ℤ) - l) - 2 * k).toNat = 2 * l + i - j - 2 * k by omega,
      show ((j : ℤ) - l - ((i : ℤ) - l) + 2 * k).toNat = j + 2 * k - i by omega,
      show ((l : ℤ) + ((i : ℤ) - l) - k).toNat = i - k by omega,
      show ((l : ℤ) - ((j : ℤ) - l) - k).toNat = 2 * l - j - k by omega]
  · rw [if_neg, if_neg h]
    rintro ⟨h1, h2, h3⟩
    exact h ⟨by omega, by omega, by omega⟩

theorem half_facts (β : ℝ) :
    sin (β / 2) ^ 2 = 1 - cos (β / 2) ^ 2 ∧ cos β = 2 * cos (β / 2) ^ 2 - 1
      ∧ sin β = 2 * sin (β / 2) * cos (β / 2) ∧ √(2 : ℝ) ^ 2 = 2 ∧ √(5 : ℝ) ^ 2 = 5 ∧ √(7 : ℝ) ^ 2 = 7 := by
  refine ⟨by rw [Real.sin_sq], ?_, ?_, Real.sq_sqrt (by norm_num), Real.sq_sqrt (by norm_num),
    Real.sq_sqrt (by norm_num)⟩
  · rw [← Real.cos_two_mul]; congr 1; ring
  · rw [← Real.sin_two_mul]; congr 1; ring

theorem wnorm2 : Spec.wnorm 2 (-2) = 2 * √6 ∧ Spec.wnorm 2 (-1) = √6 ∧ Spec.wnorm 2 0 = 2
    ∧ Spec.wnorm 2 1 = √6 ∧ Spec.wnorm 2 2 = 2 * √6 := by
  have h24 : √(24 : ℝ) = 2 * √6 := by
    rw [show (24 : ℝ) = 2 ^ 2 * 6 by norm_num, Real.sqrt_mul (by positivity), Real.sqrt_sq (by norm_num)]
  have h4 : √(4 : ℝ) = 2 := by
    rw [show (4 : ℝ) = 2 ^ 2 by norm_num, Real.sqrt_sq (by norm_num)]
  refine ⟨?_, ?_, ?_, ?_, ?_⟩ <;> norm_num [Spec.wnorm, Int.toNat, Nat.factorial, h24, h4]

theorem wigner2j_exact (β : ℝ) (i j : ℕ) (hi : i < 5) (hj : j < 5) :
    wigner2j WC.exact (cos β) (sin β) (5 * i + j) = Spec.wignerD 2 ((j : ℤ) - 2) ((i : ℤ) - 2) β := by
  obtain ⟨hs, hc, hn, -, -, -⟩ := half_facts β
  have h6 : √(6 : ℝ) ^ 2 = 6 := Real.sq_sqrt (by norm_num)
  obtain ⟨w0, w1, w2, w3, w4⟩ := wnorm2
  have hw := wignerD_nat 2 i j β
  simp only [Nat.cast_ofNat] at hw
  rw [hc, hn, hw]
  clear hw hc hn
  generalize sin (β / 2) = S at *
  generalize cos (β / 2) = C at *
  interval_cases i <;> interval_cases j <;>
    (simp only [Finset.sum_range_succ, Finset.sum_range_zero, Nat.reduceMul, Nat.reduceAdd, Nat.reduceSub, wentry, WC.exact]
     norm_num [w0, w1, w2, w3, w4, Nat.factorial]
     try generalize √(6 : ℝ) = q at *
     grind)

theorem wnorm4 : Spec.wnorm 4 (-4) = 24 * (√2 * √5 * √7) ∧ Spec.wnorm 4 (-3) = 12 * (√5 * √7)
    ∧ Spec.wnorm 4 (-2) = 12 * (√2 * √5) ∧ Spec.wnorm 4 (-1) = 12 * √5 ∧ Spec.wnorm 4 0 = 24
    ∧ Spec.wnorm 4 1 = 12 * √5 ∧ Spec.wnorm 4 2 = 12 * (√2 * √5)
    ∧ Spec.wnorm 4 3 = 12 * (√5 * √7) ∧ Spec.wnorm 4 4 = 24 * (√2 * √5 * √7) := by
  have h0 : √(40320 : ℝ) = 24 * (√2 * √5 * √7) := by
    rw [show (40320 : ℝ) = 24 ^ 2 * (2 * 5 * 7) by norm_num, Real.sqrt_mul (by positivity),
      Real.sqrt_sq (by norm_num), Real.sqrt_mul (by positivity), Real.sqrt_mul (by positivity)]
  have h1 : √(5040 : ℝ) = 12 * (√5 * √7) := by
    rw [show (5040 : ℝ) = 12 ^ 2 * (5 * 7) by norm_num, Real.sqrt_mul (by positivity),
      Real.sqrt_sq (by norm_num), Real.sqrt_mul (by positivity)]
  have h2 : √(1440 : ℝ) = 12 * (√2 * √5) := by
    rw [show (1440 : ℝ) = 12 ^ 2 * (2 * 5) by norm_num, Real.sqrt_mul (by positivity),
      Real.sqrt_sq (by norm_num), Real.sqrt_mul (by positivity)]
  have h3 : √(720 : ℝ) = 12 * √5 := by
    rw [show (720 : ℝ) = 12 ^ 2 * 5 by norm_num, Real.sqrt_mul (by positivity),
      Real.sqrt_sq (by norm_num)]
  have h4 : √(576 : ℝ) = 24 := by
    rw [show (576 : ℝ) = 24 ^ 2 by norm_num, Real.sqrt_sq (by norm_num)]
  refine ⟨?_, ?_, ?_, ?_, ?_, ?_, ?_, ?_, ?_⟩ <;>
    norm_num [Spec.wnorm, Int.toNat, Nat.factorial, h0, h1, h2, h3, h4]

theorem exact4 : WC.exact.a4 = √2 / 8 ∧ WC.exact.b4 = √2 * √7 / 8 ∧ WC.exact.c4 = √2 * √5 * √7 / 16
    ∧ WC.exact.d4 = √5 * √7 / 4 ∧ WC.exact.e4 = √7 / 8 ∧ WC.exact.f4 = √2 * √5 / 8
    ∧ WC.exact.g4 = √5 / 4 ∧ WC.exact.h4 = √2 / 4 := by
  have h14 : √(14 : ℝ) = √2 * √7 := by
    rw [show (14 : ℝ) = 2 * 7 by norm_num, Real.sqrt_mul (by positivity)]
  have h70 : √(70 : ℝ) = √2 * √5 * √7 := by
    rw [show (70 : ℝ) = 2 * 5 * 7 by norm_num, Real.sqrt_mul (by positivity), Real.sqrt_mul (by positivity)]
  have h35 : √(35 : ℝ) = √5 * √7 := by
    rw [show (35 : ℝ) = 5 * 7 by norm_num, Real.sqrt_mul (by positivity)]
  have h10 : √(10 : ℝ) = √2 * √5 := by
    rw [show (10 : ℝ) = 2 * 5 by norm_num, Real.sqrt_mul (by positivity)]
  simp [WC.exact, h14, h70, h35, h10]

theorem wigner4j_row0 (β : ℝ) (j : ℕ) (hj : j < 9) :
    wigner4j WC.exact (cos β) (sin β) (9 * 0 + j) = Spec.wignerD 4 ((j : ℤ) - 4) ((0 : ℤ) - 4) β := by
  obtain ⟨hs, hc, hn, h2, h5, h7⟩ := half_facts β
  obtain ⟨w0, w1, w2, w3, w4, w5, w6, w7, w8⟩ := wnorm4
  obtain ⟨e1, e2, e3, e4, e5, e6, e7, e8⟩ := exact4
  have hw := wignerD_nat 4 0 j β
  simp only [Nat.cast_ofNat, Nat.cast_zero, Nat.cast_one] at hw
  rw [hc, hn, hw]
  clear hw hc hn
  generalize sin (β / 2) = S at *
  generalize cos (β / 2) = C at *
  interval_cases j <;>
    (simp only [Finset.sum_range_succ, Finset.sum_range_zero, Nat.reduceMul, Nat.reduceAdd, Nat.reduceSub, wentry, e1, e2, e3, e4, e5, e6, e7, e8]
     norm_num [w0, w1, w2, w3, w4, w5, w6, w7, w8, Nat.factorial]
     try generalize √(2 : ℝ) = p at *
     try generalize √(5 : ℝ) = q at *
     try generalize √(7 : ℝ) = r at *
     grind)

theorem wigner4j_row1 (β : ℝ) (j : ℕ) (hj : j < 9) :
    wigner4j WC.exact (cos β) (sin β) (9 * 1 + j) = Spec.wignerD 4 ((j : ℤ) - 4) ((1 : ℤ) - 4) β := by
  obtain ⟨hs, hc, hn, h2, h5, h7⟩ := half_facts β
  obtain ⟨w0, w1, w2, w3, w4, w5, w6, w7, w8⟩ := wnorm4
  obtain ⟨e1, e2, e3, e4, e5, e6, e7, e8⟩ := exact4
  have hw := wignerD_nat 4 1 j β
  simp only [Nat.cast_ofNat, Nat.cast_zero, Nat.cast_one] at hw
  rw [hc, hn, hw]
  clear hw hc hn
  generalize sin (β / 2) = S at *
  generalize cos (β / 2) = C at *
  interval_cases j <;>
    (simp only [Finset.sum_range_succ, Finset.sum_range_zero, Nat.reduceMul, Nat.reduceAdd, Nat.reduceSub, wentry, e1, e2, e3, e4, e5, e6, e7, e8]
     norm_num [w0, w1, w2, w3, w4, w5, w6, w7, w8, Nat.factorial]
     try generalize √(2 : ℝ) = p at *
     try generalize √(5 : ℝ) = q at *
     try generalize √(7 : ℝ) = r at *
     grind)

theorem wigner4j_row2 (β : ℝ) (j : ℕ) (hj : j < 9) :
    wigner4j WC.exact (cos β) (sin β) (9 * 2 + j) = Spec.wignerD 4 ((j : ℤ) - 4) ((2 : ℤ) - 4) β := by
  obtain ⟨hs, hc, hn, h2, h5, h7⟩ := half_facts β
  obtain ⟨w0, w1, w2, w3, w4, w5, w6, w7, w8⟩ := wnorm4
  obtain ⟨e1, e2, e3, e4, e5, e6, e7, e8⟩ := exact4
  have hw := wignerD_nat 4 2 j β
  simp only [Nat.cast_ofNat, Nat.cast_zero, Nat.cast_one] at hw
  rw [hc, hn, hw]
  clear hw hc hn
  generalize sin (β / 2) = S at *
  generalize cos (β / 2) = C at *
  interval_cases j <;>
    (simp only [Finset.sum_range_succ, Finset.sum_range_zero, Nat.reduceMul, Nat.reduceAdd, Nat.reduceSub, wentry, e1, e2, e3, e4, e5, e6, e7, e8]
     norm_num [w0, w1, w2, w3, w4, w5, w6, w7, w8, Nat.factorial]
     try generalize √(2 : ℝ) = p at *
     try generalize √(5 : ℝ) = q at *
     try generalize √(7 : ℝ) = r at *
     grind)

theorem wigner4j_row3 (β : ℝ) (j : ℕ) (hj : j < 9) :
    wigner4j WC.exact (cos β) (sin β) (9 * 3 + j) = Spec.wignerD 4 ((j : ℤ) - 4) ((3 : ℤ) - 4) β := by
  obtain ⟨hs, hc, hn, h2, h5, h7⟩ := half_facts β
  obtain ⟨w0, w1, w2, w3, w4, w5, w6, w7, w8⟩ := wnorm4
  obtain ⟨e1, e2, e3, e4, e5, e6, e7, e8⟩ := exact4
  have hw := wignerD_nat 4 3 j β
  simp only [Nat.cast_ofNat, Nat.cast_zero, Nat.cast_one] at hw
  rw [hc, hn, hw]
  clear hw hc hn
  generalize sin (β / 2) = S at *
  generalize cos (β / 2) = C at *
  interval_cases j <;>
    (simp only [Finset.sum_range_succ, Finset.sum_range_zero, Nat.reduceMul, Nat.reduceAdd, Nat.reduceSub, wentry, e1, e2, e3, e4, e5, e6, e7, e8]
     norm_num [w0, w1, w2, w3, w4, w5, w6, w7, w8, Nat.factorial]
     try generalize √(2 : ℝ) = p at *
     try generalize √(5 : ℝ) = q at *
     try generalize √(7 : ℝ) = r at *
     grind)

theorem wigner4j_row4 (β : ℝ) (j : ℕ) (hj : j < 9) :
    wigner4j WC.exact (cos β) (sin β) (9 * 4 + j) = Spec.wignerD 4 ((j : ℤ) - 4) ((4 : ℤ) - 4) β := by
  obtain ⟨hs, hc, hn, h2, h5, h7⟩ := half_facts β
  obtain ⟨w0, w1, w2, w3, w4, w5, w6, w7, w8⟩ := wnorm4
  obtain ⟨e1, e2, e3, e4, e5, e6, e7, e8⟩ := exact4
  have hw := wignerD_nat 4 4 j β
  simp only [Nat.cast_ofNat, Nat.cast_zero, Nat.cast_one] at hw
  rw [hc, hn, hw]
  clear hw hc hn
  generalize sin (β / 2) = S at *
  generalize cos (β / 2) = C at *
  interval_cases j <;>
    (simp only [Finset.sum_range_succ, Finset.sum_range_zero, Nat.reduceMul, Nat.reduceAdd, Nat.reduceSub, wentry, e1, e2, e3, e4, e5, e6, e7, e8]
     norm_num [w0, w1, w2, w3, w4, w5, w6, w7, w8, Nat.factorial]
     try generalize √(2 : ℝ) = p at *
     try generalize √(5 : ℝ) = q at *
     try generalize √(7 : ℝ) = r at *
     grind)

theorem wigner4j_row5 (β : ℝ) (j : ℕ) (hj : j < 9) :
    wigner4j WC.exact (cos β) (sin β) (9 * 5 + j) = Spec.wignerD 4 ((j : ℤ) - 4) ((5 : ℤ) - 4) β := by
  obtain ⟨hs, hc, hn, h2, h5, h7⟩ := half_facts β
  obtain ⟨w0, w1, w2, w3, w4, w5, w6, w7, w8⟩ := wnorm4
  obtain ⟨e1, e2, e3, e4, e5, e6, e7, e8⟩ := exact4
  have hw := wignerD_nat 4 5 j β
  simp only [Nat.cast_ofNat, Nat.cast_zero, Nat.cast_one] at hw
  rw [hc, hn, hw]
  clear hw hc hn
  generalize sin (β / 2) = S at *
  generalize cos (β / 2) = C at *
  interval_cases j <;>
    (simp only [Finset.sum_range_succ, Finset.sum_range_zero, Nat.reduceMul, Nat.reduceAdd, Nat.reduceSub, wentry, e1, e2, e3, e4, e5, e6, e7, e8]
     norm_num [w0, w1, w2, w3, w4, w5, w6, w7, w8, Nat.factorial]
     try generalize √(2 : ℝ) = p at *
     try generalize √(5 : ℝ) = q at *
     try generalize √(7 : ℝ) = r at *
     grind)

theorem wigner4j_row6 (β : ℝ) (j : ℕ) (hj : j < 9) :
    wigner4j WC.exact (cos β) (sin β) (9 * 6 + j) = Spec.wignerD 4 ((j : ℤ) - 4) ((6 : ℤ) - 4) β := by
  obtain ⟨hs, hc, hn, h2, h5, h7⟩ := half_facts β
  obtain ⟨w0, w1, w2, w3, w4, w5, w6, w7, w8⟩ := wnorm4
  obtain ⟨e1, e2, e3, e4, e5, e6, e7, e8⟩ := exact4
  have hw := wignerD_nat 4 6 j β
  simp only [Nat.cast_ofNat, Nat.cast_zero, Nat.cast_one] at hw
  rw [hc, hn, hw]
  clear hw hc hn
  generalize sin (β / 2) = S at *
  generalize cos (β / 2) = C at *
  interval_cases j <;>
    (simp only [Finset.sum_range_succ, Finset.sum_range_zero, Nat.reduceMul, Nat.reduceAdd, Nat.reduceSub, wentry, e1, e2, e3, e4, e5, e6, e7, e8]
     norm_num [w0, w1, w2, w3, w4, w5, w6, w7, w8, Nat.factorial]
     try generalize √(2 : ℝ) = p at *
     try generalize √(5 : ℝ) = q at *
     try generalize √(7 : ℝ) = r at *
     grind)

theorem wigner4j_row7 (β : ℝ) (j : ℕ) (hj : j < 9) :
    wigner4j WC.exact (cos β) (sin β) (9 * 7 + j) = Spec.wignerD 4 ((j : ℤ) - 4) ((7 : ℤ) - 4) β := by
  obtain ⟨hs, hc, hn, h2, h5, h7⟩ := half_facts β
  obtain ⟨w0, w1, w2, w3, w4, w5, w6, w7, w8⟩ := wnorm4
  obtain ⟨e1, e2, e3, e4, e5, e6, e7, e8⟩ := exact4
  have hw := wignerD_nat 4 7 j β
  simp only [Nat.cast_ofNat, Nat.cast_zero, Nat.cast_one] at hw
  rw [hc, hn, hw]
  clear hw hc hn
  generalize sin (β / 2) = S at *
  generalize cos (β / 2) = C at *
  interval_cases j <;>
    (simp only [Finset.sum_range_succ, Finset.sum_range_zero, Nat.reduceMul, Nat.reduceAdd, Nat.reduceSub, wentry, e1, e2, e3, e4, e5, e6, e7, e8]
     norm_num [w0, w1, w2, w3, w4, w5, w6, w7, w8, Nat.factorial]
     try generalize √(2 : ℝ) = p at *
     try generalize √(5 : ℝ) = q at *
     try generalize √(7 : ℝ) = r at *
     grind)

theorem wigner4j_row8 (β : ℝ) (j : ℕ) (hj : j < 9) :
    wigner4j WC.exact (cos β) (sin β) (9 * 8 + j) = Spec.wignerD 4 ((j : ℤ) - 4) ((8 : ℤ) - 4) β := by
  obtain ⟨hs, hc, hn, h2, h5, h7⟩ := half_facts β
  obtain ⟨w0, w1, w2, w3, w4, w5, w6, w7, w8⟩ := wnorm4
  obtain ⟨e1, e2, e3, e4, e5, e6, e7, e8⟩ := exact4
  have hw := wignerD_nat 4 8 j β
  simp only [Nat.cast_ofNat, Nat.cast_zero, Nat.cast_one] at hw
  rw [hc, hn, hw]
  clear hw hc hn
  generalize sin (β / 2) = S at *
  generalize cos (β / 2) = C at *
  interval_cases j <;>
    (simp only [Finset.sum_range_succ, Finset.sum_range_zero, Nat.reduceMul, Nat.reduceAdd, Nat.reduceSub, wentry, e1, e2, e3, e4, e5, e6, e7, e8]
     norm_num [w0, w1, w2, w3, w4, w5, w6, w7, w8, Nat.factorial]
     try generalize √(2 : ℝ) = p at *
     try generalize √(5 : ℝ) = q at *
     try generalize √(7 : ℝ) = r at *
     grind)

theorem wigner4j_exact (β : ℝ) (i j : ℕ) (hi : i < 9) (hj : j < 9) :
    wigner4j WC.exact (cos β) (sin β) (9 * i + j) = Spec.wignerD 4 ((j : ℤ) - 4) ((i : ℤ) - 4) β := by
  interval_cases i
  · exact wigner4j_row0 β j hj
  · exact wigner4j_row1 β j hj
  · exact wigner4j_row2 β j hj
  · exact wigner4j_row3 β j hj
  · exact wigner4j_row4 β j hj
  · exact wigner4j_row5 β j hj
  · exact wigner4j_row6 β j hj
  · exact wigner4j_row7 β j hj
  · exact wigner4j_row8 β j hj

end MRS.Freq
