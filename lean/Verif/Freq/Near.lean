import Verif.Freq.System
import Verif.Freq.TrigNear

/-!
# Accuracy of the frequencies with the decimals of the source

The theorems on crystallite frequencies have the exact square roots in place of the decimals of the source, and exact
cosines and sines in place of its table.  Here the difference is bounded: the elements of the exact Wigner matrices are at most one (their rows are normalised), the
decimals are off by a known amount, and a frequency is a sum of few products of them.
-/

set_option linter.unusedSimpArgs false
set_option linter.unusedTactic false

namespace MRS.Freq

open Complex ComplexConjugate Matrix

theorem exact_squares : WC.exact.a2 ^ 2 = 3 / 8 ∧ WC.exact.b2 ^ 2 = 3 / 2 ∧ WC.exact.a4 ^ 2 = 1 / 32 ∧ WC.exact.b4 ^ 2 = 7 / 32
    ∧ WC.exact.c4 ^ 2 = 35 / 128 ∧ WC.exact.d4 ^ 2 = 35 / 16 ∧ WC.exact.e4 ^ 2 = 7 / 64
    ∧ WC.exact.f4 ^ 2 = 5 / 32 ∧ WC.exact.g4 ^ 2 = 5 / 16 ∧ WC.exact.h4 ^ 2 = 1 / 8 := by
  unfold WC.exact
  simp only [div_pow]
  refine ⟨?_, ?_, ?_, ?_, ?_, ?_, ?_, ?_, ?_, ?_⟩ <;> rw [Real.sq_sqrt (by norm_num)] <;> norm_num

theorem row_sq2 (c s : ℝ) (h : c ^ 2 + s ^ 2 = 1) (i : ℕ) (hi : i < 5) :
    ∑ j ∈ Finset.range 5, wigner2j WC.exact c s (5 * i + j) ^ 2 = 1 := by
  obtain ⟨h1, h2, -⟩ := exact_squares
  simp only [Finset.sum_range_succ, Finset.sum_range_zero]
  interval_cases i <;> simp only [Nat.reduceMul, Nat.reduceAdd, Nat.reduceSub, wentry] <;> grind

theorem row_sq4 (c s : ℝ) (h : c ^ 2 + s ^ 2 = 1) (i : ℕ) (hi : i < 9) :
    ∑ j ∈ Finset.range 9, wigner4j WC.exact c s (9 * i + j) ^ 2 = 1 := by
  obtain ⟨-, -, h1, h2, h3, h4, h5, h6, h7, h8⟩ := exact_squares
  simp only [Finset.sum_range_succ, Finset.sum_range_zero]
  interval_cases i <;> simp only [Nat.reduceMul, Nat.reduceAdd, Nat.reduceSub, wentry] <;> grind

theorem sq_le_of_sum {n : ℕ} (g : ℕ → ℝ) (h : ∑ j ∈ Finset.range n, g j ^ 2 = 1) (j : ℕ) (hj : j < n) : |g j| ≤ 1 := by
  have := Finset.single_le_sum (f := fun j => g j ^ 2) (fun _ _ => sq_nonneg _) (Finset.mem_range.mpr hj)
  rw [h] at this
  exact abs_le_of_sq_le_sq' (by simpa using this) zero_le_one |> abs_le.mpr

/-- How far an element of the matrix of rank `l` is from its exact value. -/
noncomputable def wEps (l : ℕ) : ℝ := if l = 2 then 1 / 10 ^ 9 else 1 / 10 ^ 8

theorem wEps_pos (l : ℕ) : 0 ≤ wEps l := by unfold wEps; split_ifs <;> norm_num

theorem unit_abs {c s : ℝ} (h : c ^ 2 + s ^ 2 = 1) : |c| ≤ 1 ∧ |s| ≤ 1 := by
  constructor <;> rw [abs_le] <;> constructor <;> nlinarith [sq_nonneg c, sq_nonneg s]

theorem wMatrix_near (l : ℕ) (hl : l = 2 ∨ l = 4) (c s : ℝ) (h : c ^ 2 + s ^ 2 = 1) (i j : ℕ) (hi : i < 2 * l + 1)
    (hj : j < 2 * l + 1) :
    |wMatrix WC.src l c s ((2 * l + 1) * i + j) - wMatrix WC.exact l c s ((2 * l + 1) * i + j)| ≤ wEps l ∧
    |wMatrix WC.exact l c s ((2 * l + 1) * i + j)| ≤ 1 := by
  obtain ⟨hc, hs⟩ := unit_abs h
  rcases hl with rfl | rfl
  · simp only [wMatrix, wEps, if_true]
    exact ⟨wigner2j_near c s hc hs _ (by omega),
      sq_le_of_sum (fun j => wigner2j WC.exact c s (5 * i + j)) (row_sq2 c s h i hi) j hj⟩
  · simp only [wMatrix, wEps, show (4 : ℕ) ≠ 2 by norm_num, if_false, if_true]
    exact ⟨wigner4j_near c s hc hs _ (by omega),
      sq_le_of_sum (fun j => wigner4j WC.exact c s (9 * i + j)) (row_sq4 c s h i hi) j hj⟩

theorem wHalf_eq (W : WC) (l : ℕ) (hl : l = 2 ∨ l = 4) (c s : ℝ) (i j : ℕ) (hi : i ≤ l) (hj : j < 2 * l + 1) :
    wHalf W l c s ((2 * l + 1) * i + j) = wMatrix W l c s ((2 * l + 1) * i + j) := by
  rcases hl with rfl | rfl
  · simp only [wHalf, wMatrix, if_true]
    exact half2 W c s _ (by omega)
  · simp only [wHalf, wMatrix, show (4 : ℕ) ≠ 2 by norm_num, if_false, if_true]
    exact half4 W c s _ (by omega)

/-- `R` is within `δ` of `R'`, whose components are at most `B`. -/
def Close (l : ℕ) (δ B : ℝ) (R R' : ℕ → ℂ) : Prop := ∀ j < 2 * l + 1, ‖R j - R' j‖ ≤ δ ∧ ‖R' j‖ ≤ B

theorem sum_near (N : ℕ) (ε δ B : ℝ) (hε : 0 ≤ ε) (w w' : ℕ → ℝ) (v v' : ℕ → ℂ)
    (hw : ∀ j < N, |w j - w' j| ≤ ε ∧ |w' j| ≤ 1) (hv : ∀ j < N, ‖v j - v' j‖ ≤ δ ∧ ‖v' j‖ ≤ B) :
    ‖∑ j ∈ Finset.range N, (w j : ℂ) * v j - ∑ j ∈ Finset.range N, (w' j : ℂ) * v' j‖ ≤ N * ((1 + ε) * δ + ε * B) ∧
    ‖∑ j ∈ Finset.range N, (w' j : ℂ) * v' j‖ ≤ N * B := by
  constructor
  · rw [← Finset.sum_sub_distrib]
    refine (norm_sum_le _ _).trans ?_
    rw [← nsmul_eq_mul, ← Finset.card_range N, Finset.card_range N]
    refine (Finset.sum_le_card_nsmul _ _ ((1 + ε) * δ + ε * B) (fun j hj => ?_)).trans (by rw [Finset.card_range])
    obtain ⟨h1, h2⟩ := hw j (Finset.mem_range.mp hj)
    obtain ⟨h3, h4⟩ := hv j (Finset.mem_range.mp hj)
    have h5 : |w j| ≤ 1 + ε := by
      have := abs_add_le (w j - w' j) (w' j)
      rw [sub_add_cancel] at this
      linarith
    calc ‖(w j : ℂ) * v j - (w' j : ℂ) * v' j‖
        = ‖(w j : ℂ) * (v j - v' j) + ((w j - w' j : ℝ) : ℂ) * v' j‖ := by
          congr 1
          push_cast
          ring
      _ ≤ |w j| * ‖v j - v' j‖ + |w j - w' j| * ‖v' j‖ := by
          refine (norm_add_le _ _).trans ?_
          rw [norm_mul, norm_mul, Complex.norm_real, Complex.norm_real, Real.norm_eq_abs, Real.norm_eq_abs]
      _ ≤ (1 + ε) * δ + ε * B :=
          add_le_add (mul_le_mul h5 h3 (norm_nonneg _) (by linarith)) (mul_le_mul h1 h4 (norm_nonneg _) hε)
  · refine (norm_sum_le _ _).trans ?_
    refine (Finset.sum_le_card_nsmul _ _ B (fun j hj => ?_)).trans (by rw [Finset.card_range, nsmul_eq_mul])
    obtain ⟨h1, h2⟩ := hw j (Finset.mem_range.mp hj)
    obtain ⟨h3, h4⟩ := hv j (Finset.mem_range.mp hj)
    rw [norm_mul, Complex.norm_real, Real.norm_eq_abs]
    calc |w' j| * ‖v' j‖ ≤ 1 * B := mul_le_mul h2 h4 (norm_nonneg _) zero_le_one
      _ = B := one_mul B

theorem phased_close (l : ℕ) (z : ℂ) (hz : ‖z‖ = 1) (δ B : ℝ) (R R' : ℕ → ℂ) (h : Close l δ B R R') :
    Close l δ B (phased l z R) (phased l z R') := by
  intro j hj
  have := h j hj
  unfold phased
  split_ifs
  · rw [← sub_mul, norm_mul, norm_mul, norm_pow, hz, one_pow, mul_one, mul_one]
    exact this
  · rw [← sub_mul, norm_mul, norm_mul, Complex.norm_conj, norm_pow, hz, one_pow, mul_one, mul_one]
    exact this

theorem phasedHalf_close (l : ℕ) (z : ℂ) (hz : ‖z‖ = 1) (δ B : ℝ) (R R' : ℕ → ℂ) (h : Close l δ B R R') :
    Close l δ B (phasedHalf l z R) (phasedHalf l z R') := by
  intro j hj
  unfold phasedHalf
  split_ifs
  · rw [← sub_mul, norm_mul, norm_mul, norm_pow, hz, one_pow, mul_one, mul_one]
    exact h j hj
  · rw [← mul_sub, ← map_sub, ← sub_mul]
    simp only [norm_mul, Complex.norm_conj, norm_pow, norm_neg, norm_one, hz, one_pow, mul_one, one_mul]
    exact h _ (by omega)

theorem exp_norm (α : ℝ) : ‖exp (α * I)‖ = 1 := Complex.norm_exp_ofReal_mul_I α

/-- How far an element of the matrix of rank `l` is from its exact value when cosine and sine are taken from the table. -/
noncomputable def tEps (l : ℕ) : ℝ := if l = 2 then 5 / 10 ^ 9 else 5 / 10 ^ 8

theorem tEps_pos (l : ℕ) : 0 ≤ tEps l := by unfold tEps; split_ifs <;> norm_num

theorem exact_unit (β : ℝ) : WC.exact.trig.cos β ^ 2 + WC.exact.trig.sin β ^ 2 = 1 := by
  rw [(trig_exact β).1, (trig_exact β).2]
  exact Real.cos_sq_add_sin_sq _

theorem wMatrix_table (l : ℕ) (hl : l = 2 ∨ l = 4) (β : ℝ) (i j : ℕ) (hi : i < 2 * l + 1) (hj : j < 2 * l + 1) :
    |wMatrix WC.src l (WC.src.trig.cos β) (WC.src.trig.sin β) ((2 * l + 1) * i + j)
        - wMatrix WC.exact l (WC.exact.trig.cos β) (WC.exact.trig.sin β) ((2 * l + 1) * i + j)| ≤ tEps l * Spec.edge β ∧
    |wMatrix WC.exact l (WC.exact.trig.cos β) (WC.exact.trig.sin β) ((2 * l + 1) * i + j)| ≤ 1 := by
  refine ⟨?_, (wMatrix_near l hl _ _ (exact_unit β) i j hi hj).2⟩
  obtain ⟨hc, hs⟩ := unit_abs (exact_unit β)
  obtain ⟨hc', hs'⟩ : |WC.src.trig.cos β| ≤ 1 ∧ |WC.src.trig.sin β| ≤ 1 := Sim.tableCosSin_le β
  obtain ⟨h1, h2⟩ := table_near β
  have he := edge_ge β
  generalize WC.src.trig.cos β = c' at *
  generalize WC.src.trig.sin β = s' at *
  generalize WC.exact.trig.cos β = c at *
  generalize WC.exact.trig.sin β = s at *
  rcases hl with rfl | rfl
  · simp only [wMatrix, tEps, if_true]
    have a := wigner2j_near c' s' hc' hs' ((2 * 2 + 1) * i + j) (by omega)
    have b := wigner2j_lip c' s' c s _ hc' hs' hc hs h1 h2 ((2 * 2 + 1) * i + j) (by omega)
    refine (abs_sub_le _ (wigner2j WC.exact c' s' ((2 * 2 + 1) * i + j)) _).trans ?_
    norm_num at *
    linarith
  · simp only [wMatrix, tEps, show (4 : ℕ) ≠ 2 by norm_num, if_false, if_true]
    have a := wigner4j_near c' s' hc' hs' ((2 * 4 + 1) * i + j) (by omega)
    have b := wigner4j_lip c' s' c s _ hc' hs' hc hs h1 h2 ((2 * 4 + 1) * i + j) (by omega)
    refine (abs_sub_le _ (wigner4j WC.exact c' s' ((2 * 4 + 1) * i + j)) _).trans ?_
    norm_num at *
    linarith

theorem single_close (l : ℕ) (hl : l = 2 ∨ l = 4) (α β γ δ B : ℝ) (R R' : ℕ → ℂ) (h : Close l δ B R R') :
    Close l (Spec.edge β * ((2 * l + 1) * ((1 + tEps l) * δ + tEps l * B))) ((2 * l + 1) * B) (singleRotation WC.src l α β γ R)
      (singleRotation WC.exact l α β γ R') := by
  unfold singleRotation
  apply phased_close _ _ (exp_norm γ)
  intro i hi
  have hδ : 0 ≤ δ := (norm_nonneg _).trans (h 0 (by omega)).1
  have hT := tEps_pos l
  have he := edge_ge β
  have := sum_near (2 * l + 1) (tEps l * Spec.edge β) δ B (by positivity)
    (fun j => wMatrix WC.src l (WC.src.trig.cos β) (WC.src.trig.sin β) ((2 * l + 1) * i + j))
    (fun j => wMatrix WC.exact l (WC.exact.trig.cos β) (WC.exact.trig.sin β) ((2 * l + 1) * i + j))
    _ _ (fun j hj => wMatrix_table l hl β i j hi hj) (phased_close l _ (exp_norm α) δ B R R' h)
  push_cast at this
  refine ⟨this.1.trans ?_, this.2⟩
  have hN : (0 : ℝ) ≤ 2 * l + 1 := by positivity
  have h1 : δ ≤ Spec.edge β * δ := le_mul_of_one_le_left hδ he
  calc (2 * (l : ℝ) + 1) * ((1 + tEps l * Spec.edge β) * δ + tEps l * Spec.edge β * B)
      ≤ (2 * l + 1) * (Spec.edge β * ((1 + tEps l) * δ + tEps l * B)) := by
        apply mul_le_mul_of_nonneg_left _ hN
        linarith
    _ = _ := by ring

theorem toFrame_close (l : ℕ) (hl : l = 2 ∨ l = 4) (Θ : Angles) (δ B : ℝ) (R R' : ℕ → ℂ) (h : Close l δ B R R') :
    Close l (Spec.edge Θ.β * ((2 * l + 1) * ((1 + tEps l) * δ + tEps l * B))) ((2 * l + 1) * B) (toFrame WC.src l Θ R)
      (toFrame WC.exact l Θ R') := by
  intro i hi
  rw [toFrame_eq _ l hl Θ R i hi, toFrame_eq _ l hl Θ R' i hi]
  exact single_close l hl _ _ _ δ B R R' h i hi

theorem half_close (l : ℕ) (hl : l = 2 ∨ l = 4) (c s : ℝ) (hu : c ^ 2 + s ^ 2 = 1) (e : ℂ) (he : ‖e‖ = 1) (δ B : ℝ)
    (R R' : ℕ → ℂ) (h : Close l δ B R R') (i : ℕ) (hi : i ≤ l) :
    ‖halfRotation WC.src l c s e R i - halfRotation WC.exact l c s e R' i‖
        ≤ (2 * l + 1) * ((1 + wEps l) * δ + wEps l * B) ∧
    ‖halfRotation WC.exact l c s e R' i‖ ≤ (2 * l + 1) * B := by
  unfold halfRotation
  have := sum_near (2 * l + 1) (wEps l) δ B (wEps_pos l)
    (fun j => wHalf WC.src l c s ((2 * l + 1) * i + j)) (fun j => wHalf WC.exact l c s ((2 * l + 1) * i + j))
    _ _ (fun j hj => by
      rw [wHalf_eq WC.src l hl c s i j hi hj, wHalf_eq WC.exact l hl c s i j hi hj]
      exact wMatrix_near l hl _ _ hu i j (by omega) hj) (phasedHalf_close l e he δ B R R' h)
  push_cast at this
  exact this

/-- The contribution of one rank to the frequency of an orientation. -/
noncomputable def rankFreq (W : WC) (l : ℕ) (Θ : Angles) (cβ sβ : ℝ) (e : ℂ) (d : ℝ) (R : ℕ → ℂ) : ℝ :=
  d * (halfRotation W l cβ sβ e (toFrame W l Θ R) l).re

theorem rank_near (l : ℕ) (hl : l = 2 ∨ l = 4) (Θ : Angles) (c s : ℝ) (hu : c ^ 2 + s ^ 2 = 1) (e : ℂ) (he : ‖e‖ = 1)
    (d d' : ℝ) (hd : |d - d'| ≤ wEps l) (hd' : |d'| ≤ 1) (δ B : ℝ) (hδ : 0 ≤ δ) (hB : 0 ≤ B) (R R' : ℕ → ℂ)
    (h : Close l δ B R R') :
    |rankFreq WC.src l Θ c s e d R - rankFreq WC.exact l Θ c s e d' R'|
        ≤ Spec.edge Θ.β * ((2 * l + 1) ^ 2 * (1.01 * δ + (1.01 * tEps l + 2.01 * wEps l) * B)) ∧
    |rankFreq WC.exact l Θ c s e d' R'| ≤ (2 * l + 1) ^ 2 * B := by
  obtain ⟨h1, h2⟩ := half_close l hl c s hu e he _ _ _ _ (toFrame_close l hl Θ δ B R R' h) l le_rfl
  have h1' := (Complex.abs_re_le_norm _).trans h1
  have h2' := (Complex.abs_re_le_norm _).trans h2
  rw [Complex.sub_re] at h1'
  unfold rankFreq
  set x := (halfRotation WC.src l c s e (toFrame WC.src l Θ R) l).re
  set y := (halfRotation WC.exact l c s e (toFrame WC.exact l Θ R') l).re
  have hE : 0 ≤ wEps l := wEps_pos l
  have hE' : wEps l ≤ 1 / 10 ^ 8 := by unfold wEps; split_ifs <;> norm_num
  generalize wEps l = E at *
  have hT : 0 ≤ tEps l := tEps_pos l
  have hT' : tEps l ≤ 5 / 10 ^ 8 := by unfold tEps; split_ifs <;> norm_num
  generalize tEps l = T at *
  have hg := edge_ge Θ.β
  generalize Spec.edge Θ.β = g at *
  have hN : (0 : ℝ) ≤ 2 * l + 1 := by positivity
  generalize (2 * (l : ℝ) + 1) = N at *
  constructor
  · have hdd : |d| ≤ 1 + E := by
      have := abs_add_le (d - d') d'
      rw [sub_add_cancel] at this
      linarith
    calc |d * x - d' * y| = |d * (x - y) + (d - d') * y| := by ring_nf
      _ ≤ |d| * |x - y| + |d - d'| * |y| := by
          refine (abs_add_le _ _).trans ?_
          rw [abs_mul, abs_mul]
      _ ≤ (1 + E) * (N * ((1 + E) * (g * (N * ((1 + T) * δ + T * B))) + E * (N * B))) + E * (N * (N * B)) :=
          add_le_add (mul_le_mul hdd h1' (abs_nonneg _) (by linarith)) (mul_le_mul hd h2' (abs_nonneg _) hE)
      _ = g * (N ^ 2 * ((1 + E) ^ 2 * (1 + T) * δ + (1 + E) ^ 2 * T * B)) + N ^ 2 * ((E * ((1 + E) + 1)) * B) := by ring
      _ ≤ g * (N ^ 2 * ((1 + E) ^ 2 * (1 + T) * δ + (1 + E) ^ 2 * T * B)) + g * (N ^ 2 * ((E * ((1 + E) + 1)) * B)) :=
          add_le_add le_rfl (le_mul_of_one_le_left (by positivity) hg)
      _ = g * (N ^ 2 * ((1 + E) ^ 2 * (1 + T) * δ + ((1 + E) ^ 2 * T + E * ((1 + E) + 1)) * B)) := by ring
      _ ≤ g * (N ^ 2 * (1.01 * δ + (1.01 * T + 2.01 * E) * B)) := by
          apply mul_le_mul_of_nonneg_left _ (by linarith)
          apply mul_le_mul_of_nonneg_left _ (sq_nonneg N)
          have e2 : (1 + E) ^ 2 ≤ 1.001 := by nlinarith [mul_nonneg hE hE]
          apply add_le_add
          · apply mul_le_mul_of_nonneg_right _ hδ
            calc (1 + E) ^ 2 * (1 + T) ≤ 1.001 * (1 + 5 / 10 ^ 8) := mul_le_mul e2 (by linarith) (by linarith) (by norm_num)
              _ ≤ 1.01 := by norm_num
          · apply mul_le_mul_of_nonneg_right _ hB
            have e3 : (1 + E) ^ 2 * T ≤ 1.001 * T := mul_le_mul_of_nonneg_right e2 hT
            have e4 : E * ((1 + E) + 1) ≤ E * 2.01 := mul_le_mul_of_nonneg_left (by linarith) hE
            linarith
  · rw [abs_mul]
    calc |d'| * |y| ≤ 1 * (N * (N * B)) := mul_le_mul hd' h2' (abs_nonneg _) zero_le_one
      _ = N ^ 2 * B := by ring

theorem dm0_near (cθ sθ : ℝ) (h : cθ ^ 2 + sθ ^ 2 = 1) :
    (|dm0Vector2 WC.src cθ sθ 2 - dm0Vector2 WC.exact cθ sθ 2| ≤ wEps 2 ∧ |dm0Vector2 WC.exact cθ sθ 2| ≤ 1) ∧
    (|dm0Vector4 WC.src cθ sθ 4 - dm0Vector4 WC.exact cθ sθ 4| ≤ wEps 4 ∧ |dm0Vector4 WC.exact cθ sθ 4| ≤ 1) := by
  rw [dm0_2 WC.src cθ sθ 2 (by norm_num), dm0_2 WC.exact cθ sθ 2 (by norm_num),
    dm0_4 WC.src cθ sθ h 4 (by norm_num), dm0_4 WC.exact cθ sθ h 4 (by norm_num)]
  have h2 := wMatrix_near 2 (Or.inl rfl) cθ sθ h 2 2 (by norm_num) (by norm_num)
  have h4 := wMatrix_near 4 (Or.inr rfl) cθ sθ h 4 4 (by norm_num) (by norm_num)
  simp only [wMatrix, if_true, show (4 : ℕ) ≠ 2 by norm_num, if_false] at h2 h4
  exact ⟨h2, h4⟩

theorem inv_sqrt (s : ℝ) : 1 / √s = √(1 / s) := by rw [Real.sqrt_div zero_le_one, Real.sqrt_one]

/-- Every decimal of the tensors and transition functions is its exact value to within 1e-10. -/
theorem TC.src_near :
    |TC.src.r6 - TC.exact.r6| ≤ 1 / 10 ^ 10 ∧ |TC.src.s6 - TC.exact.s6| ≤ 1 / 10 ^ 10 ∧
    |TC.src.t3 - TC.exact.t3| ≤ 1 / 10 ^ 10 ∧ |TC.src.k0 - TC.exact.k0| ≤ 1 / 10 ^ 10 ∧
    |TC.src.k2a - TC.exact.k2a| ≤ 1 / 10 ^ 10 ∧ |TC.src.k2b - TC.exact.k2b| ≤ 1 / 10 ^ 10 ∧
    |TC.src.k4a - TC.exact.k4a| ≤ 1 / 10 ^ 10 ∧ |TC.src.k4b - TC.exact.k4b| ≤ 1 / 10 ^ 10 ∧
    |TC.src.k4c - TC.exact.k4c| ≤ 1 / 10 ^ 10 ∧ |TC.src.k4d - TC.exact.k4d| ≤ 1 / 10 ^ 10 ∧
    |TC.src.d - TC.exact.d| ≤ 1 / 10 ^ 10 ∧ |TC.src.f - TC.exact.f| ≤ 1 / 10 ^ 10 ∧
    |TC.src.p0 - TC.exact.p0| ≤ 1 / 10 ^ 10 ∧ |TC.src.f0 - TC.exact.f0| ≤ 1 / 10 ^ 10 ∧
    |TC.src.p2 - TC.exact.p2| ≤ 1 / 10 ^ 10 ∧ |TC.src.f2 - TC.exact.f2| ≤ 1 / 10 ^ 10 ∧
    |TC.src.p4 - TC.exact.p4| ≤ 1 / 10 ^ 10 ∧ |TC.src.f4 - TC.exact.f4| ≤ 1 / 10 ^ 10 := by
  have key : ∀ v s : ℝ, 0 ≤ v - 1 / 10 ^ 10 → (v - 1 / 10 ^ 10) ^ 2 ≤ s → s ≤ (v + 1 / 10 ^ 10) ^ 2 →
      |v - √s| ≤ 1 / 10 ^ 10 := fun v s h1 h2 h3 => sqrt_within h1 h2 h3 (by norm_num)
  have neg : ∀ v s : ℝ, |v - √s| ≤ 1 / 10 ^ 10 → |-v - -√s| ≤ 1 / 10 ^ 10 := by
    intro v s h
    rw [show -v - -√s = -(v - √s) by ring, abs_neg]
    exact h
  have sc : ∀ a s : ℝ, 0 ≤ a → a / √s = √(a ^ 2 / s) := by
    intro a s ha
    rw [Real.sqrt_div (sq_nonneg a), Real.sqrt_sq ha]
  have sm : ∀ a s : ℝ, 0 ≤ a → a * √s = √(a ^ 2 * s) := by
    intro a s ha
    rw [Real.sqrt_mul (sq_nonneg a), Real.sqrt_sq ha]
  have e6' : √(2 : ℝ) / √(6 ^ 2 * 7) = √(2 / (6 ^ 2 * 7)) := by rw [Real.sqrt_div (by norm_num)]
  unfold TC.src TC.exact
  simp only [neg_div, e6', sm 6 5 (by norm_num), sm 3 21 (by norm_num), sm 6 7 (by norm_num), sc 1 _ zero_le_one,
    sc 4 _ (by norm_num : (0 : ℝ) ≤ 4), sc 6 _ (by norm_num : (0 : ℝ) ≤ 6), sc 17 _ (by norm_num : (0 : ℝ) ≤ 17)]
  refine ⟨?_, ?_, ?_, ?_, ?_, ?_, ?_, ?_, ?_, ?_, ?_, ?_, ?_, ?_, ?_, ?_, ?_, ?_⟩ <;>
    first
    | (refine key _ _ ?_ ?_ ?_ <;> norm_num; done)
    | (refine neg _ _ (key _ _ ?_ ?_ ?_) <;> norm_num; done)
    | (rw [abs_le]; constructor <;> norm_num; done)

/-- Sizes of the exact values. -/
theorem TC.exact_size :
    |TC.exact.r6| ≤ 0.41 ∧ |TC.exact.s6| ≤ 0.17 ∧ |TC.exact.t3| ≤ 0.34 ∧ |TC.exact.k0| ≤ 0.08 ∧ |TC.exact.k2a| ≤ 0.08 ∧
    |TC.exact.k2b| ≤ 0.09 ∧ |TC.exact.k4a| ≤ 0.03 ∧ |TC.exact.k4b| ≤ 0.07 ∧ |TC.exact.k4c| ≤ 0.12 ∧
    |TC.exact.k4d| ≤ 0.06 ∧ |TC.exact.d| ≤ 1.23 ∧ |TC.exact.f| ≤ 0.32 ∧ |TC.exact.p0| ≤ 0.36 ∧
    |TC.exact.f0| ≤ 0.85 ∧ |TC.exact.p2| ≤ 0.11 ∧ |TC.exact.f2| ≤ 1.02 ∧ |TC.exact.p4| ≤ 0.15 ∧ |TC.exact.f4| ≤ 1.29 := by
  have key : ∀ v x b : ℝ, |v - x| ≤ 1 / 10 ^ 10 → |v| ≤ b - 1 / 10 ^ 10 → |x| ≤ b := by
    intro v x b h1 h2
    have := abs_sub_abs_le_abs_sub x v
    rw [abs_sub_comm] at this
    linarith
  obtain ⟨h1, h2, h3, h4, h5, h6, h7, h8, h9, h10, h11, h12, h13, h14, h15, h16, h17, h18⟩ := TC.src_near
  refine ⟨key _ _ _ h1 ?_, key _ _ _ h2 ?_, key _ _ _ h3 ?_, key _ _ _ h4 ?_, key _ _ _ h5 ?_, key _ _ _ h6 ?_,
    key _ _ _ h7 ?_, key _ _ _ h8 ?_, key _ _ _ h9 ?_, key _ _ _ h10 ?_, key _ _ _ h11 ?_, key _ _ _ h12 ?_,
    key _ _ _ h13 ?_, key _ _ _ h14 ?_, key _ _ _ h15 ?_, key _ _ _ h16 ?_, key _ _ _ h17 ?_, key _ _ _ h18 ?_⟩ <;>
    (unfold TC.src; rw [abs_le]; constructor <;> norm_num)

theorem pas2_close (δ B r2 r0 r2' r0' : ℝ) (hδ : 0 ≤ δ) (hB : 0 ≤ B) (h2 : |r2 - r2'| ≤ δ) (h0 : |r0 - r0'| ≤ δ) (b2 : |r2'| ≤ B)
    (b0 : |r0'| ≤ B) : Close 2 δ B (pas2 r2 r0) (pas2 r2' r0') := by
  intro j hj
  have e2 : ‖(r2 : ℂ) - r2'‖ ≤ δ := by rw [← Complex.ofReal_sub, Complex.norm_real]; exact h2
  have e0 : ‖(r0 : ℂ) - r0'‖ ≤ δ := by rw [← Complex.ofReal_sub, Complex.norm_real]; exact h0
  have c2 : ‖(r2' : ℂ)‖ ≤ B := by rw [Complex.norm_real]; exact b2
  have c0 : ‖(r0' : ℂ)‖ ≤ B := by rw [Complex.norm_real]; exact b0
  interval_cases j <;> simp [pas2, *]

theorem pas4_close (δ B r4 r2 r0 r4' r2' r0' : ℝ) (hδ : 0 ≤ δ) (hB : 0 ≤ B) (h4 : |r4 - r4'| ≤ δ) (h2 : |r2 - r2'| ≤ δ)
    (h0 : |r0 - r0'| ≤ δ) (b4 : |r4'| ≤ B) (b2 : |r2'| ≤ B) (b0 : |r0'| ≤ B) :
    Close 4 δ B (pas4 r4 r2 r0) (pas4 r4' r2' r0') := by
  intro j hj
  have e4 : ‖(r4 : ℂ) - r4'‖ ≤ δ := by rw [← Complex.ofReal_sub, Complex.norm_real]; exact h4
  have e2 : ‖(r2 : ℂ) - r2'‖ ≤ δ := by rw [← Complex.ofReal_sub, Complex.norm_real]; exact h2
  have e0 : ‖(r0 : ℂ) - r0'‖ ≤ δ := by rw [← Complex.ofReal_sub, Complex.norm_real]; exact h0
  have c4 : ‖(r4' : ℂ)‖ ≤ B := by rw [Complex.norm_real]; exact b4
  have c2 : ‖(r2' : ℂ)‖ ≤ B := by rw [Complex.norm_real]; exact b2
  have c0 : ‖(r0' : ℂ)‖ ≤ B := by rw [Complex.norm_real]; exact b0
  interval_cases j <;> simp [pas4, *]

/-- What is read off the components of a tensor: a multiple of the isotropic part and a linear function of each rank, computed with given
constants and no larger than the frequency of an orientation.  -/
structure Probe where
  iso : ℝ
  rank : WC → ℕ → (ℕ → ℂ) → ℝ
  iso_le : |iso| ≤ 1
  add : ∀ W l (R R' : ℕ → ℂ), rank W l (fun i => R i + R' i) = rank W l R + rank W l R'
  smul : ∀ W l (R : ℕ → ℂ) (x : ℝ), rank W l (fun i => x * R i) = x * rank W l R
  near : ∀ l, l = 2 ∨ l = 4 → ∀ (Θ : Angles) (δ B : ℝ), 0 ≤ δ → 0 ≤ B → ∀ R R' : ℕ → ℂ, Close l δ B R R' →
    |rank WC.src l (toFrame WC.src l Θ R) - rank WC.exact l (toFrame WC.exact l Θ R')|
        ≤ Spec.edge Θ.β * ((2 * l + 1) ^ 2 * (1.01 * δ + (1.01 * tEps l + 2.01 * wEps l) * B)) ∧
    |rank WC.exact l (toFrame WC.exact l Θ R')| ≤ (2 * l + 1) ^ 2 * B

/-- The value for all components. -/
noncomputable def Probe.freq (o : Probe) (W : WC) (four : Bool) (t : Tens) : ℝ :=
  o.iso * t.R0 + o.rank W 2 t.R2 + if four then o.rank W 4 t.R4 else 0

theorem Probe.zero (o : Probe) (W : WC) (l : ℕ) : o.rank W l (fun _ => 0) = 0 := by
  have := o.smul W l (fun _ => 0) 0
  simpa using this

theorem Probe.freq_add (o : Probe) (W : WC) (four : Bool) (s t : Tens) :
    o.freq W four (addT s t) = o.freq W four s + o.freq W four t := by
  unfold Probe.freq addT
  simp only [o.add]
  split_ifs <;> ring

theorem Probe.freq_zero (o : Probe) (W : WC) (four : Bool) : o.freq W four zeroT = 0 := by
  unfold Probe.freq zeroT
  simp only [o.zero]
  split_ifs <;> ring

theorem Probe.freq_fcf (o : Probe) (W : WC) (four : Bool) (x : ℝ) (t : Tens) :
    o.freq W four (fcf x t) = x * o.freq W four t := by
  unfold fcf
  split_ifs with h
  · rw [o.freq_zero, h, zero_mul]
  · unfold Probe.freq scaleT
    simp only [o.smul]
    split_ifs <;> ring

theorem Probe.freq_two (o : Probe) (W : WC) (four : Bool) (r0 : ℝ) (R : ℕ → ℂ) :
    o.freq W four ⟨r0, R, fun _ => 0⟩ = o.iso * r0 + o.rank W 2 R := by
  unfold Probe.freq
  simp [o.zero]

theorem first_near (o : Probe) (four : Bool) (r0 : ℝ) (Θ : Angles) (δ B : ℝ) (hδ : 0 ≤ δ) (hB : 0 ≤ B)
    (R R' : ℕ → ℂ) (h : Close 2 δ B R R') :
    |o.freq WC.src four ⟨r0, toFrame WC.src 2 Θ R, fun _ => 0⟩
        - o.freq WC.exact four ⟨r0, toFrame WC.exact 2 Θ R', fun _ => 0⟩| ≤ Spec.edge Θ.β * (25.25 * δ + 1.77 / 10 ^ 7 * B) ∧
    |o.freq WC.exact four ⟨0, toFrame WC.exact 2 Θ R', fun _ => 0⟩| ≤ 25 * B := by
  obtain ⟨h1, h2⟩ := o.near 2 (Or.inl rfl) Θ δ B hδ hB R R' h
  rw [o.freq_two, o.freq_two, o.freq_two, add_sub_add_left_eq_sub, mul_zero, zero_add]
  refine ⟨h1.trans ?_, h2.trans (by norm_num)⟩
  apply mul_le_mul_of_nonneg_left _ (by linarith [edge_ge Θ.β])
  unfold wEps tEps
  norm_num
  linarith

theorem shielding_near (o : Probe) (four : Bool) (B0 : ℝ) (s : Site) (hη : |s.eta| ≤ 1) (mf mi : ℝ) :
    |o.freq WC.src four (shieldingPart WC.src TC.src B0 s mf mi)
        - o.freq WC.exact four (shieldingPart WC.exact TC.exact B0 s mf mi)|
      ≤ 2 / 10 ^ 7 * Spec.edge s.Θs.β * (|mf - mi| * |s.zeta * larmor B0 s|) := by
  unfold shieldingPart ssotShielding
  rw [o.freq_fcf, o.freq_fcf, ← mul_sub, abs_mul]
  unfold stfP
  set z := s.zeta * larmor B0 s
  have hz := abs_nonneg z
  have hzη : |z * s.eta| ≤ |z| := by
    rw [abs_mul]
    exact mul_le_of_le_one_right hz hη
  have h := (first_near o four (s.iso * larmor B0 s) s.Θs (1 / 10 ^ 10 * |z|) |z| (by positivity) hz _ _
    (pas2_close _ _ (TC.src.r6 * (z * s.eta)) (-z) (TC.exact.r6 * (z * s.eta)) (-z) (by positivity) hz
      (by rw [← sub_mul]; exact abs_mul_le TC.src_near.1 hzη) (by simp)
      (by
        have := abs_mul_le TC.exact_size.1 hzη
        linarith)
      (by rw [abs_neg]))).1
  have he := edge_ge s.Θs.β
  have hez := mul_nonneg (by linarith : 0 ≤ Spec.edge s.Θs.β) hz
  calc |mf - mi| * _ ≤ |mf - mi| * (2 / 10 ^ 7 * (Spec.edge s.Θs.β * |z|)) := by
        apply mul_le_mul_of_nonneg_left _ (abs_nonneg _)
        refine h.trans ?_
        linarith
    _ = 2 / 10 ^ 7 * Spec.edge s.Θs.β * (|mf - mi| * |z|) := by ring

theorem j_near (o : Probe) (four : Bool) (k : Coupling) (hη : |k.eta| ≤ 1) (mIf mIi mSf mSi : ℝ) :
    |o.freq WC.src four (jPart WC.src TC.src k mIf mIi mSf mSi)
        - o.freq WC.exact four (jPart WC.exact TC.exact k mIf mIi mSf mSi)|
      ≤ 2 / 10 ^ 7 * Spec.edge k.Θj.β * (|mIf * mSf - mIi * mSi| * |k.zeta|) := by
  unfold jPart ssotJ
  rw [o.freq_fcf, o.freq_fcf, ← mul_sub, abs_mul]
  unfold stfDIS
  have hz := abs_nonneg k.zeta
  have hzη : |k.zeta * k.eta| ≤ |k.zeta| := by
    rw [abs_mul]
    exact mul_le_of_le_one_right hz hη
  have h := (first_near o four k.J k.Θj (1 / 10 ^ 10 * |k.zeta|) |k.zeta| (by positivity) hz _ _
    (pas2_close _ _ (-TC.src.r6 * (k.zeta * k.eta)) k.zeta (-TC.exact.r6 * (k.zeta * k.eta)) k.zeta (by positivity) hz
      (by
        rw [← sub_mul]
        refine abs_mul_le ?_ hzη
        rw [show -TC.src.r6 - -TC.exact.r6 = -(TC.src.r6 - TC.exact.r6) by ring, abs_neg]
        exact TC.src_near.1) (by simp)
      (by
        have := abs_mul_le TC.exact_size.1 hzη
        rw [neg_mul, abs_neg]
        linarith)
      le_rfl)).1
  have he := edge_ge k.Θj.β
  have hez := mul_nonneg (by linarith : 0 ≤ Spec.edge k.Θj.β) hz
  calc |mIf * mSf - mIi * mSi| * _ ≤ |mIf * mSf - mIi * mSi| * (2 / 10 ^ 7 * (Spec.edge k.Θj.β * |k.zeta|)) := by
        apply mul_le_mul_of_nonneg_left _ (abs_nonneg _)
        refine h.trans ?_
        linarith
    _ = 2 / 10 ^ 7 * Spec.edge k.Θj.β * (|mIf * mSf - mIi * mSi| * |k.zeta|) := by ring

theorem dipolar_near (o : Probe) (four : Bool) (k : Coupling) (mIf mIi mSf mSi : ℝ) :
    |o.freq WC.src four (dipolarPart WC.src k mIf mIi mSf mSi)
        - o.freq WC.exact four (dipolarPart WC.exact k mIf mIi mSf mSi)|
      ≤ 2 / 10 ^ 7 * Spec.edge k.Θd.β * (|mIf * mSf - mIi * mSi| * |2 * k.D|) := by
  unfold dipolarPart ssotDipolar
  rw [o.freq_fcf, o.freq_fcf, ← mul_sub, abs_mul]
  unfold stfDIS
  have hz := abs_nonneg (2 * k.D)
  have h := (first_near o four 0 k.Θd 0 |2 * k.D| le_rfl hz _ _
    (pas2_close _ _ 0 (2 * k.D) 0 (2 * k.D) le_rfl hz (by simp) (by simp) (by simp) le_rfl)).1
  have he := edge_ge k.Θd.β
  have hez := mul_nonneg (by linarith : 0 ≤ Spec.edge k.Θd.β) hz
  calc |mIf * mSf - mIi * mSi| * _ ≤ |mIf * mSf - mIi * mSi| * (2 / 10 ^ 7 * (Spec.edge k.Θd.β * |2 * k.D|)) := by
        apply mul_le_mul_of_nonneg_left _ (abs_nonneg _)
        refine h.trans ?_
        linarith
    _ = 2 / 10 ^ 7 * Spec.edge k.Θd.β * (|mIf * mSf - mIi * mSi| * |2 * k.D|) := by ring

theorem prod_near (x x' y y' a b c d : ℝ) (h1 : |x - x'| ≤ a) (h2 : |y'| ≤ b) (h3 : |x'| ≤ c) (h4 : |y - y'| ≤ d) :
    |x * y - x' * y'| ≤ a * b + (c + a) * d := by
  have h5 : |x| ≤ c + a := by
    have := abs_add_le (x - x') x'
    rw [sub_add_cancel] at this
    linarith
  have h6 := abs_mul_le h1 h2
  have h7 := abs_mul_le h5 h4
  calc |x * y - x' * y'| = |(x - x') * y' + x * (y - y')| := by ring_nf
    _ ≤ _ := (abs_add_le _ _).trans (add_le_add h6 h7)

theorem quad1_near (o : Probe) (four : Bool) (s : Site) (hη : |s.etaQ| ≤ 1) (mf mi : ℝ) :
    |o.freq WC.src four (quad1Part WC.src TC.src s mf mi)
        - o.freq WC.exact four (quad1Part WC.exact TC.exact s mf mi)|
      ≤ 2 / 10 ^ 7 * Spec.edge s.Θq.β * (|mf ^ 2 - mi ^ 2| * |vq (s.n / 2) s.Cq|) := by
  unfold quad1Part ssotQuad1
  rw [o.freq_fcf, o.freq_fcf]
  unfold stfD
  set z := vq (s.n / 2) s.Cq
  have hz := abs_nonneg z
  have hzη : |z * s.etaQ| ≤ |z| := by
    rw [abs_mul]
    exact mul_le_of_le_one_right hz hη
  have h := first_near o four 0 s.Θq (1 / 10 ^ 10 * |z|) (0.41 * |z|) (by positivity) (by positivity) _ _
    (pas2_close _ _ (-TC.src.s6 * (z * s.etaQ)) (TC.src.r6 * z) (-TC.exact.s6 * (z * s.etaQ)) (TC.exact.r6 * z)
      (by positivity) (by positivity)
      (by
        rw [← sub_mul]
        refine abs_mul_le ?_ hzη
        rw [show -TC.src.s6 - -TC.exact.s6 = -(TC.src.s6 - TC.exact.s6) by ring, abs_neg]
        exact TC.src_near.2.1)
      (by rw [← sub_mul]; exact abs_mul_le TC.src_near.1 le_rfl)
      (by
        have := abs_mul_le TC.exact_size.2.1 hzη
        rw [neg_mul, abs_neg]
        linarith)
      (abs_mul_le TC.exact_size.1 le_rfl))
  obtain ⟨-, -, -, -, -, -, -, -, -, -, hd, -⟩ := TC.src_near
  obtain ⟨-, -, -, -, -, -, -, -, -, -, hd', -⟩ := TC.exact_size
  have hp := prod_near _ _ _ _ _ _ _ _ hd h.2 hd' h.1
  have e1 : ∀ d x : ℝ, d * (mf * mf - mi * mi) * x = (mf ^ 2 - mi ^ 2) * (d * x) := fun d x => by ring
  rw [e1, e1, ← mul_sub, abs_mul]
  have hez := le_mul_of_one_le_left hz (edge_ge s.Θq.β)
  calc |mf ^ 2 - mi ^ 2| * _ ≤ |mf ^ 2 - mi ^ 2| * (2 / 10 ^ 7 * (Spec.edge s.Θq.β * |z|)) := by
        apply mul_le_mul_of_nonneg_left _ (abs_nonneg _)
        refine hp.trans ?_
        norm_num
        linarith
    _ = 2 / 10 ^ 7 * Spec.edge s.Θq.β * (|mf ^ 2 - mi ^ 2| * |z|) := by ring

theorem Probe.freq_quad2 (o : Probe) (W : WC) (four : Bool) (c0 c2 c4 r0 : ℝ) (R R4 : ℕ → ℂ) :
    o.freq W four (fcfQuad2 c0 c2 c4 ⟨r0, R, R4⟩)
      = o.iso * (c0 * r0) + c2 * o.rank W 2 R + if four then c4 * o.rank W 4 R4 else 0 := by
  unfold Probe.freq fcfQuad2
  simp only [o.smul]
  split_ifs <;> ring

theorem cl_near (p p' g g' X Y : ℝ) (h1 : |p - p'| ≤ 1 / 10 ^ 10) (h2 : |p'| ≤ 0.36) (h3 : |g - g'| ≤ 1 / 10 ^ 10) (h4 : |g'| ≤ 1.29) :
    |(p * X + g * (Y * TC.src.f)) - (p' * X + g' * (Y * TC.exact.f))| ≤ 3 / 10 ^ 10 * (|X| + |Y|) ∧
    |p' * X + g' * (Y * TC.exact.f)| ≤ 1 / 2 * (|X| + |Y|) := by
  obtain ⟨-, -, -, -, -, -, -, -, -, -, -, hf, -⟩ := TC.src_near
  obtain ⟨-, -, -, -, -, -, -, -, -, -, -, hf', -⟩ := TC.exact_size
  have hX := abs_nonneg X
  have hY := abs_nonneg Y
  have k1 := abs_mul_le h1 (le_refl |X|)
  have k2 := prod_near g g' TC.src.f TC.exact.f _ _ _ _ h3 hf' h4 hf
  have k3 := abs_mul_le k2 (le_refl |Y|)
  have k4 := abs_mul_le h2 (le_refl |X|)
  have k5 := abs_mul_le (abs_mul_le h4 hf') (le_refl |Y|)
  constructor
  · calc _ = |(p - p') * X + (g * TC.src.f - g' * TC.exact.f) * Y| := by ring_nf
      _ ≤ _ := (abs_add_le _ _).trans (add_le_add k1 k3)
      _ ≤ 3 / 10 ^ 10 * (|X| + |Y|) := by
        norm_num
        linarith
  · calc _ = |p' * X + g' * TC.exact.f * Y| := by ring_nf
      _ ≤ _ := (abs_add_le _ _).trans (add_le_add k4 k5)
      _ ≤ 1 / 2 * (|X| + |Y|) := by
        norm_num
        linarith

/-- The size of the second-order transition functions. -/
noncomputable def clSize (spin mf mi : ℝ) : ℝ :=
  |(spin * (spin + 1) - 3 / 4) * (mf - mi)| + |(1 - 3 * spin * (spin + 1)) * (mf - mi) + 5 * (mf ^ 3 - mi ^ 3)|

theorem quad2_near (o : Probe) (four : Bool) (B0 : ℝ) (s : Site) (hη : |s.etaQ| ≤ 1) (mf mi : ℝ) :
    |o.freq WC.src four (quad2Part WC.src TC.src B0 s mf mi)
        - o.freq WC.exact four (quad2Part WC.exact TC.exact B0 s mf mi)|
      ≤ 5 / 10 ^ 7 * Spec.edge s.Θq.β * (clSize (s.n / 2) mf mi * |vq (s.n / 2) s.Cq * vq (s.n / 2) s.Cq / (larmor B0 s * 1e6)|) := by
  obtain ⟨-, -, d3, d4, d5, d6, d7, d8, d9, d10, -, -, d13, d14, d15, d16, d17, d18⟩ := TC.src_near
  obtain ⟨-, -, a3, a4, a5, a6, a7, a8, a9, a10, -, -, a13, a14, a15, a16, a17, a18⟩ := TC.exact_size
  unfold quad2Part ssotQuad2
  simp only [o.freq_quad2, stfCL, stfF, stfP]
  have hM : clSize (s.n / 2) mf mi = |((s.n : ℝ) / 2 * (s.n / 2 + 1) - 3 / 4) * (mf - mi)|
      + |(1 - 3 * ((s.n : ℝ) / 2) * (s.n / 2 + 1)) * (mf - mi) + 5 * (mf * mf * mf - mi * mi * mi)| := by
    unfold clSize
    ring_nf
  rw [hM]
  generalize ((s.n : ℝ) / 2 * (s.n / 2 + 1) - 3 / 4) * (mf - mi) = X
  generalize (1 - 3 * ((s.n : ℝ) / 2) * (s.n / 2 + 1)) * (mf - mi) + 5 * (mf * mf * mf - mi * mi * mi) = Y
  generalize vq (s.n / 2) s.Cq * vq (s.n / 2) s.Cq / (larmor B0 s * 1e6) = z
  obtain ⟨p0, q0⟩ := cl_near _ _ _ _ X Y d13 a13 d14 (a14.trans (by norm_num))
  obtain ⟨p2, q2⟩ := cl_near _ _ _ _ X Y d15 (a15.trans (by norm_num)) d16 (a16.trans (by norm_num))
  obtain ⟨p4, q4⟩ := cl_near _ _ _ _ X Y d17 (a17.trans (by norm_num)) d18 a18
  have hM0 : 0 ≤ |X| + |Y| := by positivity
  generalize |X| + |Y| = M at *
  generalize TC.src.p0 * X + TC.src.f0 * (Y * TC.src.f) = c0 at *
  generalize TC.src.p2 * X + TC.src.f2 * (Y * TC.src.f) = c2 at *
  generalize TC.src.p4 * X + TC.src.f4 * (Y * TC.src.f) = c4 at *
  generalize TC.exact.p0 * X + TC.exact.f0 * (Y * TC.exact.f) = c0' at *
  generalize TC.exact.p2 * X + TC.exact.f2 * (Y * TC.exact.f) = c2' at *
  generalize TC.exact.p4 * X + TC.exact.f4 * (Y * TC.exact.f) = c4' at *
  have hz := abs_nonneg z
  have hη2 : |s.etaQ * s.etaQ| ≤ 1 := by
    have := abs_mul_le hη hη
    linarith
  generalize s.etaQ = η at *
  generalize hh : η * η = η2 at *
  have hη' : |-η| ≤ 1 := by rw [abs_neg]; exact hη
  have a8' : |-TC.exact.k4b| ≤ 0.07 := by rw [abs_neg]; exact a8
  -- the isotropic part
  have u1 : |(η2 * TC.src.t3 + 1) - (η2 * TC.exact.t3 + 1)| ≤ 1 / 10 ^ 10 := by
    have := abs_mul_le hη2 d3
    rw [show (η2 * TC.src.t3 + 1) - (η2 * TC.exact.t3 + 1) = η2 * (TC.src.t3 - TC.exact.t3) by ring]
    linarith
  have u2 : |η2 * TC.exact.t3 + 1| ≤ 1.34 := by
    have := abs_mul_le hη2 a3
    have h1 := abs_add_le (η2 * TC.exact.t3) 1
    rw [abs_one] at h1
    norm_num at *
    linarith
  have u3 := prod_near _ _ _ _ _ _ _ _ u1 a4 u2 d4
  have u4 : |(η2 * TC.src.t3 + 1) * TC.src.k0 * z - (η2 * TC.exact.t3 + 1) * TC.exact.k0 * z| ≤ 2 / 10 ^ 10 * |z| := by
    rw [← sub_mul]
    refine abs_mul_le (u3.trans ?_) le_rfl
    norm_num
  have u5 : |(η2 * TC.exact.t3 + 1) * TC.exact.k0 * z| ≤ 0.11 * |z| := by
    refine abs_mul_le ((abs_mul_le u2 a4).trans ?_) le_rfl
    norm_num
  -- the second rank
  have v1 : |(η2 * TC.src.t3 - 1) - (η2 * TC.exact.t3 - 1)| ≤ 1 / 10 ^ 10 := by
    have := abs_mul_le hη2 d3
    rw [show (η2 * TC.src.t3 - 1) - (η2 * TC.exact.t3 - 1) = η2 * (TC.src.t3 - TC.exact.t3) by ring]
    linarith
  have v2 : |η2 * TC.exact.t3 - 1| ≤ 1.34 := by
    have := abs_mul_le hη2 a3
    have h1 := abs_sub (η2 * TC.exact.t3) 1
    rw [abs_one] at h1
    norm_num at *
    linarith
  have v3 := prod_near _ _ _ _ _ _ _ _ d6 v2 a6 v1
  have v4 : |TC.src.k2b * z * (η2 * TC.src.t3 - 1) - TC.exact.k2b * z * (η2 * TC.exact.t3 - 1)| ≤ 2 / 10 ^ 10 * |z| := by
    rw [show TC.src.k2b * z * (η2 * TC.src.t3 - 1) - TC.exact.k2b * z * (η2 * TC.exact.t3 - 1)
      = (TC.src.k2b * (η2 * TC.src.t3 - 1) - TC.exact.k2b * (η2 * TC.exact.t3 - 1)) * z by ring]
    refine abs_mul_le (v3.trans ?_) le_rfl
    norm_num
  have v5 : |TC.exact.k2b * z * (η2 * TC.exact.t3 - 1)| ≤ 0.13 * |z| := by
    rw [show TC.exact.k2b * z * (η2 * TC.exact.t3 - 1) = TC.exact.k2b * (η2 * TC.exact.t3 - 1) * z by ring]
    refine abs_mul_le ((abs_mul_le a6 v2).trans ?_) le_rfl
    norm_num
  have v6 : |-η * TC.src.k2a * z - -η * TC.exact.k2a * z| ≤ 2 / 10 ^ 10 * |z| := by
    rw [show -η * TC.src.k2a * z - -η * TC.exact.k2a * z = (-η * (TC.src.k2a - TC.exact.k2a)) * z by ring]
    refine abs_mul_le ((abs_mul_le hη' d5).trans ?_) le_rfl
    norm_num
  have v7 : |-η * TC.exact.k2a * z| ≤ 0.13 * |z| := by
    refine abs_mul_le ((abs_mul_le hη' a5).trans ?_) le_rfl
    norm_num
  obtain ⟨r1, r2⟩ := o.near 2 (Or.inl rfl) s.Θq _ _
    (by positivity) (by positivity) _ _ (pas2_close _ _ _ _ _ _ (by positivity) (by positivity) v6 v4 v7 v5)
  -- the fourth rank
  have w1 : |(η2 * TC.src.k4d + 1) - (η2 * TC.exact.k4d + 1)| ≤ 1 / 10 ^ 10 := by
    have := abs_mul_le hη2 d10
    rw [show (η2 * TC.src.k4d + 1) - (η2 * TC.exact.k4d + 1) = η2 * (TC.src.k4d - TC.exact.k4d) by ring]
    linarith
  have w2 : |η2 * TC.exact.k4d + 1| ≤ 1.06 := by
    have := abs_mul_le hη2 a10
    have h1 := abs_add_le (η2 * TC.exact.k4d) 1
    rw [abs_one] at h1
    norm_num at *
    linarith
  have w3 := prod_near _ _ _ _ _ _ _ _ d9 w2 a9 w1
  have w4 : |TC.src.k4c * z * (η2 * TC.src.k4d + 1) - TC.exact.k4c * z * (η2 * TC.exact.k4d + 1)| ≤ 2 / 10 ^ 10 * |z| := by
    rw [show TC.src.k4c * z * (η2 * TC.src.k4d + 1) - TC.exact.k4c * z * (η2 * TC.exact.k4d + 1)
      = (TC.src.k4c * (η2 * TC.src.k4d + 1) - TC.exact.k4c * (η2 * TC.exact.k4d + 1)) * z by ring]
    refine abs_mul_le (w3.trans ?_) le_rfl
    norm_num
  have w5 : |TC.exact.k4c * z * (η2 * TC.exact.k4d + 1)| ≤ 0.13 * |z| := by
    rw [show TC.exact.k4c * z * (η2 * TC.exact.k4d + 1) = TC.exact.k4c * (η2 * TC.exact.k4d + 1) * z by ring]
    refine abs_mul_le ((abs_mul_le a9 w2).trans ?_) le_rfl
    norm_num
  have w6 : |-TC.src.k4b * η * z - -TC.exact.k4b * η * z| ≤ 2 / 10 ^ 10 * |z| := by
    rw [show -TC.src.k4b * η * z - -TC.exact.k4b * η * z = ((TC.src.k4b - TC.exact.k4b) * -η) * z by ring]
    refine abs_mul_le ((abs_mul_le d8 hη').trans ?_) le_rfl
    norm_num
  have w7 : |-TC.exact.k4b * η * z| ≤ 0.13 * |z| := by
    refine abs_mul_le ((abs_mul_le a8' hη).trans ?_) le_rfl
    norm_num
  have w8 : |η2 * TC.src.k4a * z - η2 * TC.exact.k4a * z| ≤ 2 / 10 ^ 10 * |z| := by
    rw [show η2 * TC.src.k4a * z - η2 * TC.exact.k4a * z = (η2 * (TC.src.k4a - TC.exact.k4a)) * z by ring]
    refine abs_mul_le ((abs_mul_le hη2 d7).trans ?_) le_rfl
    norm_num
  have w9 : |η2 * TC.exact.k4a * z| ≤ 0.13 * |z| := by
    refine abs_mul_le ((abs_mul_le hη2 a7).trans ?_) le_rfl
    norm_num
  obtain ⟨t1, t2⟩ := o.near 4 (Or.inr rfl) s.Θq _ _
    (by positivity) (by positivity) _ _
    (pas4_close _ _ _ _ _ _ _ _ (by positivity) (by positivity) w8 w6 w4 w9 w7 w5)
  unfold wEps tEps at r1 t1
  simp only [if_true, show (4 : ℕ) ≠ 2 by norm_num, if_false] at r1 t1
  have hZ := le_mul_of_one_le_left hz (edge_ge s.Θq.β)
  have r1' : |o.rank WC.src 2 (toFrame WC.src 2 s.Θq (pas2 (-η * TC.src.k2a * z) (TC.src.k2b * z * (η2 * TC.src.t3 - 1))))
      - o.rank WC.exact 2 (toFrame WC.exact 2 s.Θq (pas2 (-η * TC.exact.k2a * z) (TC.exact.k2b * z * (η2 * TC.exact.t3 - 1))))|
      ≤ 3 / 10 ^ 8 * (Spec.edge s.Θq.β * |z|) := r1.trans (by norm_num; linarith)
  have t1' : |o.rank WC.src 4 (toFrame WC.src 4 s.Θq (pas4 (η2 * TC.src.k4a * z) (-TC.src.k4b * η * z) (TC.src.k4c * z * (η2 * TC.src.k4d + 1))))
      - o.rank WC.exact 4 (toFrame WC.exact 4 s.Θq (pas4 (η2 * TC.exact.k4a * z) (-TC.exact.k4b * η * z) (TC.exact.k4c * z * (η2 * TC.exact.k4d + 1))))|
      ≤ 8 / 10 ^ 7 * (Spec.edge s.Θq.β * |z|) := t1.trans (by norm_num; linarith)
  replace u4 := u4.trans (mul_le_mul_of_nonneg_left hZ (by norm_num))
  replace u5 := u5.trans (mul_le_mul_of_nonneg_left hZ (by norm_num))
  replace r2 := r2.trans (show _ ≤ 3.3 * (Spec.edge s.Θq.β * |z|) by norm_num; linarith)
  replace t2 := t2.trans (show _ ≤ 10.6 * (Spec.edge s.Θq.β * |z|) by norm_num; linarith)
  clear r1 t1
  rename' r1' => r1, t1' => t1
  have hEz : 0 ≤ Spec.edge s.Θq.β * |z| := hz.trans hZ
  have hgoal : ∀ M : ℝ, 5 / 10 ^ 7 * Spec.edge s.Θq.β * (M * |z|) = 5 / 10 ^ 7 * (M * (Spec.edge s.Θq.β * |z|)) := fun M => by ring
  rw [hgoal]
  have f0 := prod_near _ _ _ _ _ _ _ _ p0 u5 q0 u4
  have f2 := prod_near _ _ _ _ _ _ _ _ p2 r2 q2 r1
  have f4 := prod_near _ _ _ _ _ _ _ _ p4 t2 q4 t1
  generalize Spec.edge s.Θq.β * |z| = Z at *
  have hMz : 0 ≤ M * Z := mul_nonneg hM0 hEz
  clear r1 r2 t1 t2 u1 u2 u3 u4 u5 v1 v2 v3 v4 v5 v6 v7 w1 w2 w3 w4 w5 w6 w7 w8 w9
  generalize o.rank WC.src 2 _ = x2 at *
  generalize o.rank WC.exact 2 _ = x2' at *
  generalize o.rank WC.src 4 _ = x4 at *
  generalize o.rank WC.exact 4 _ = x4' at *
  generalize (η2 * TC.src.t3 + 1) * TC.src.k0 * z = x0 at *
  generalize (η2 * TC.exact.t3 + 1) * TC.exact.k0 * z = x0' at *
  have g0 : |o.iso * (c0 * x0) - o.iso * (c0' * x0')| ≤ 2 / 10 ^ 10 * (M * Z) := by
    rw [← mul_sub, abs_mul]
    exact (mul_le_of_le_one_left (abs_nonneg _) o.iso_le).trans (f0.trans (by norm_num; linarith))
  have g2 : |c2 * x2 - c2' * x2'| ≤ 2 / 10 ^ 8 * (M * Z) := f2.trans (by norm_num; linarith)
  have g4 : |c4 * x4 - c4' * x4'| ≤ 4.5 / 10 ^ 7 * (M * Z) := f4.trans (by norm_num; linarith)
  have g02 := (abs_add_le _ _).trans (add_le_add g0 g2)
  cases four
  · simp only [Bool.false_eq_true, if_false, add_zero]
    rw [show o.iso * (c0 * x0) + c2 * x2 - (o.iso * (c0' * x0') + c2' * x2')
      = o.iso * (c0 * x0) - o.iso * (c0' * x0') + (c2 * x2 - c2' * x2') by ring]
    norm_num at *
    linarith
  · simp only [if_true]
    rw [show o.iso * (c0 * x0) + c2 * x2 + c4 * x4 - (o.iso * (c0' * x0') + c2' * x2' + c4' * x4')
      = (o.iso * (c0 * x0) - o.iso * (c0' * x0') + (c2 * x2 - c2' * x2')) + (c4 * x4 - c4' * x4') by ring]
    have := (abs_add_le _ _).trans (add_le_add g02 g4)
    norm_num at *
    linarith

/-! ## The whole system -/

/-- The tolerance for a site: `2e-7` of its anisotropies, `5e-7` of its second-order quadrupole coupling; more when the
polar angle of the tensor is within `10^-4` of a full turn or beyond it. -/
noncomputable def Spec.siteTol (B0 : ℝ) (s : Site) (mf mi : ℝ) : ℝ :=
  2 / 10 ^ 7 * Spec.edge s.Θs.β * (|mf - mi| * |s.zeta * (-B0 * s.gamma)|)
    + if s.n ≤ 1 then 0 else
      2 / 10 ^ 7 * Spec.edge s.Θq.β * (|mf ^ 2 - mi ^ 2| * |vq (s.n / 2) s.Cq|)
        + 5 / 10 ^ 7 * Spec.edge s.Θq.β * (clSize (s.n / 2) mf mi * |vq (s.n / 2) s.Cq * vq (s.n / 2) s.Cq / (-B0 * s.gamma * 1e6)|)

/-- The tolerance for a coupling. -/
noncomputable def Spec.couplingTol (k : Coupling) (mIf mIi mSf mSi : ℝ) : ℝ :=
  2 / 10 ^ 7 * (|mIf * mSf - mIi * mSi| * (Spec.edge k.Θj.β * |k.zeta| + Spec.edge k.Θd.β * |2 * k.D|))

theorem siteTol_nonneg (B0 : ℝ) (s : Site) (mf mi : ℝ) : 0 ≤ Spec.siteTol B0 s mf mi := by
  have h1 : 0 ≤ Spec.edge s.Θs.β := by linarith [edge_ge s.Θs.β]
  have h2 : 0 ≤ Spec.edge s.Θq.β := by linarith [edge_ge s.Θq.β]
  unfold Spec.siteTol clSize
  split_ifs <;> positivity

theorem addSite_near (o : Probe) (four : Bool) (B0 : ℝ) (t t' : Tens) (s : Site) (hn : 1 ≤ s.n) (h1 : |s.eta| ≤ 1)
    (h2 : |s.etaQ| ≤ 1) (mf mi : ℝ) :
    |o.freq WC.src four (addSite WC.src TC.src four B0 t s mf mi)
        - o.freq WC.exact four (addSite WC.exact TC.exact four B0 t' s mf mi)|
      ≤ |o.freq WC.src four t - o.freq WC.exact four t'| + Spec.siteTol B0 s mf mi := by
  have a1 := shielding_near o four B0 s h1 mf mi
  have a2 := quad1_near o four s h2 mf mi
  have a3 := quad2_near o four B0 s h2 mf mi
  unfold addSite
  split_ifs with e1 e2 e3
  · have := siteTol_nonneg B0 s mf mi
    linarith
  · unfold Spec.siteTol at *
    rw [if_pos (le_of_eq e2), o.freq_add, o.freq_add, add_sub_add_comm, add_zero]
    exact (abs_add_le _ _).trans (add_le_add le_rfl a1)
  · unfold Spec.siteTol at *
    have : ¬ s.n ≤ 1 := by omega
    rw [if_neg this]
    simp only [o.freq_add]
    rw [add_sub_add_comm, add_sub_add_comm, add_sub_add_comm, ← add_assoc, ← add_assoc]
    exact (abs_add_le _ _).trans (add_le_add ((abs_add_le _ _).trans (add_le_add ((abs_add_le _ _).trans
      (add_le_add le_rfl a1)) a2)) a3)
  · unfold Spec.siteTol at *
    have : ¬ s.n ≤ 1 := by omega
    rw [if_neg this]
    simp only [o.freq_add]
    rw [add_sub_add_comm, add_sub_add_comm, ← add_assoc, ← add_assoc]
    refine ((abs_add_le _ _).trans (add_le_add ((abs_add_le _ _).trans (add_le_add le_rfl a1)) a2)).trans ?_
    have : 0 ≤ 5 / 10 ^ 7 * Spec.edge s.Θq.β * (clSize (s.n / 2) mf mi * |vq (s.n / 2) s.Cq * vq (s.n / 2) s.Cq / (-B0 * s.gamma * 1e6)|) := by
      have h2 : 0 ≤ Spec.edge s.Θq.β := by linarith [edge_ge s.Θq.β]
      unfold clSize
      positivity
    unfold larmor at *
    linarith

/-- The tolerance of the sites for two states given by their quantum numbers. -/
noncomputable def Spec.sitesTol (B0 : ℝ) : List Site → List ℝ → List ℝ → ℝ
  | s :: ss, mi :: mis, mf :: mfs => Spec.siteTol B0 s mf mi + Spec.sitesTol B0 ss mis mfs
  | _, _, _ => 0

theorem addSites_near (o : Probe) (four : Bool) (B0 : ℝ) (ss : List Site)
    (hs : ∀ s ∈ ss, 1 ≤ s.n ∧ |s.eta| ≤ 1 ∧ |s.etaQ| ≤ 1) (mis mfs : List ℝ) (t t' : Tens) :
    |o.freq WC.src four (addSites WC.src TC.src four B0 t ss mis mfs)
        - o.freq WC.exact four (addSites WC.exact TC.exact four B0 t' ss mis mfs)|
      ≤ |o.freq WC.src four t - o.freq WC.exact four t'| + Spec.sitesTol B0 ss mis mfs := by
  induction ss generalizing mis mfs t t' with
  | nil => simp [addSites, Spec.sitesTol]
  | cons s ss ih =>
    cases mis with
    | nil => simp [addSites, Spec.sitesTol]
    | cons mi mis =>
      cases mfs with
      | nil => simp [addSites, Spec.sitesTol]
      | cons mf mfs =>
        simp only [addSites, Spec.sitesTol]
        obtain ⟨h0, h1, h2⟩ := hs s (by simp)
        have a := ih (fun s' h => hs s' (List.mem_cons_of_mem _ h)) mis mfs
          (addSite WC.src TC.src four B0 t s mf mi) (addSite WC.exact TC.exact four B0 t' s mf mi)
        have b := addSite_near o four B0 t t' s h0 h1 h2 mf mi
        linarith

theorem addCoupling_near (o : Probe) (four : Bool) (t t' : Tens) (mi mf : List ℝ) (k : Coupling) (hk : |k.eta| ≤ 1) :
    |o.freq WC.src four (addCoupling WC.src TC.src t mi mf k)
        - o.freq WC.exact four (addCoupling WC.exact TC.exact t' mi mf k)|
      ≤ |o.freq WC.src four t - o.freq WC.exact four t'|
        + Spec.couplingTol k (mf.getD k.A 0) (mi.getD k.A 0) (mf.getD k.X 0) (mi.getD k.X 0) := by
  have a1 := j_near o four k hk (mf.getD k.A 0) (mi.getD k.A 0) (mf.getD k.X 0) (mi.getD k.X 0)
  have a2 := dipolar_near o four k (mf.getD k.A 0) (mi.getD k.A 0) (mf.getD k.X 0) (mi.getD k.X 0)
  unfold addCoupling Spec.couplingTol at *
  simp only [o.freq_add]
  rw [add_sub_add_comm, add_sub_add_comm]
  refine ((abs_add_le _ _).trans (add_le_add ((abs_add_le _ _).trans (add_le_add le_rfl a1)) a2)).trans (le_of_eq ?_)
  ring

/-- The tolerance of a spin system. -/
noncomputable def Spec.tol (B0 : ℝ) (ss : List Site) (ks : List Coupling) (mi mf : List ℝ) : ℝ :=
  Spec.sitesTol B0 ss mi mf
    + (ks.map (fun k => Spec.couplingTol k (mf.getD k.A 0) (mi.getD k.A 0) (mf.getD k.X 0) (mi.getD k.X 0))).sum

/-- With the decimals of the source everything that is read off the components is within the tolerance of its value with exact constants. -/
theorem probe_near (o : Probe) (four : Bool) (B0 : ℝ) (ss : List Site) (ks : List Coupling)
    (hs : ∀ s ∈ ss, 1 ≤ s.n ∧ |s.eta| ≤ 1 ∧ |s.etaQ| ≤ 1) (hk : ∀ k ∈ ks, |k.eta| ≤ 1) (mi mf : List ℝ) :
    |o.freq WC.src four (components WC.src TC.src four B0 ss ks mi mf)
        - o.freq WC.exact four (components WC.exact TC.exact four B0 ss ks mi mf)|
      ≤ Spec.tol B0 ss ks mi mf := by
  have key : ∀ (ks : List Coupling), (∀ k ∈ ks, |k.eta| ≤ 1) → ∀ t t' : Tens,
      |o.freq WC.src four (ks.foldl (fun t k => addCoupling WC.src TC.src t mi mf k) t)
        - o.freq WC.exact four (ks.foldl (fun t k => addCoupling WC.exact TC.exact t mi mf k) t')|
      ≤ |o.freq WC.src four t - o.freq WC.exact four t'|
        + (ks.map (fun k => Spec.couplingTol k (mf.getD k.A 0) (mi.getD k.A 0) (mf.getD k.X 0) (mi.getD k.X 0))).sum := by
    intro ks
    induction ks with
    | nil => simp
    | cons k ks ih =>
      intro h t t'
      simp only [List.foldl_cons, List.map_cons, List.sum_cons]
      have a := ih (fun k' h' => h k' (List.mem_cons_of_mem _ h')) (addCoupling WC.src TC.src t mi mf k)
        (addCoupling WC.exact TC.exact t' mi mf k)
      have b := addCoupling_near o four t t' mi mf k (h k (by simp))
      linarith
  unfold components Spec.tol
  have a := key ks hk (addSites WC.src TC.src four B0 zeroT ss mi mf) (addSites WC.exact TC.exact four B0 zeroT ss mi mf)
  have b := addSites_near o four B0 ss hs mi mf zeroT zeroT
  have c : |o.freq WC.src four zeroT - o.freq WC.exact four zeroT| = 0 := by
      rw [o.freq_zero, o.freq_zero, sub_zero, abs_zero]
  linarith

/-- An orientation and a rotor angle. -/
structure Orient where
  cβ : ℝ
  sβ : ℝ
  e : ℂ
  cθ : ℝ
  sθ : ℝ
  hβ : cβ ^ 2 + sβ ^ 2 = 1
  he : ‖e‖ = 1
  hθ : cθ ^ 2 + sθ ^ 2 = 1

/-- `localFreq` of an orientation. -/
noncomputable abbrev Orient.freq (o : Orient) (W : WC) (four : Bool) (t : Tens) : ℝ :=
  localFreq W four o.cβ o.sβ o.e o.cθ o.sθ t

/-- The element of the matrix of the rotor angle for the component of order zero. -/
noncomputable def Orient.middle (o : Orient) (W : WC) (l : ℕ) : ℝ :=
  if l = 2 then dm0Vector2 W o.cθ o.sθ 2 else dm0Vector4 W o.cθ o.sθ 4

/-- The frequency as something that is read off the components. -/
noncomputable def Orient.probe (o : Orient) : Probe where
  iso := 1
  rank W l R := o.middle W l * (halfRotation W l o.cβ o.sβ o.e R l).re
  iso_le := by simp
  add W l R R' := by rw [half_add, Complex.add_re, mul_add]
  smul W l R x := by rw [half_smul, Complex.re_ofReal_mul]; ring
  near l hl Θ δ B hδ hB R R' h := by
    have hd := dm0_near o.cθ o.sθ o.hθ
    refine rank_near l hl Θ o.cβ o.sβ o.hβ o.e o.he _ _ ?_ ?_ δ B hδ hB R R' h
    · rcases hl with rfl | rfl
      · exact hd.1.1
      · exact hd.2.1
    · rcases hl with rfl | rfl
      · exact hd.1.2
      · exact hd.2.2

theorem Orient.probe_freq (o : Orient) (W : WC) (four : Bool) (t : Tens) : o.probe.freq W four t = o.freq W four t := by
  unfold Probe.freq Orient.probe Orient.freq localFreq Orient.middle
  simp

/-- With the decimals of the source every frequency, at every rotor angle, is within the tolerance of the one with
exact constants. -/
theorem components_near (o : Orient) (four : Bool) (B0 : ℝ) (ss : List Site) (ks : List Coupling)
    (hs : ∀ s ∈ ss, 1 ≤ s.n ∧ |s.eta| ≤ 1 ∧ |s.etaQ| ≤ 1) (hk : ∀ k ∈ ks, |k.eta| ≤ 1) (mi mf : List ℝ) :
    |o.freq WC.src four (components WC.src TC.src four B0 ss ks mi mf)
        - o.freq WC.exact four (components WC.exact TC.exact four B0 ss ks mi mf)|
      ≤ Spec.tol B0 ss ks mi mf := by
  rw [← o.probe_freq, ← o.probe_freq]
  exact probe_near o.probe four B0 ss ks hs hk mi mf

/-- C73 with the constants as the source has them: the frequency of a transition of a static crystallite is the
difference of two energies to about six digits of every interaction. -/
theorem C73_decimals_partial (four : Bool) (B0 α β : ℝ) (ss : List Site) (ks : List Coupling) (xi xf : List ℕ)
    (hi : Spec.IsState ss xi) (hf : Spec.IsState ss xf)
    (hs : ∀ s ∈ ss, s.Upright ∧ 1 ≤ s.n ∧ |s.eta| ≤ 1 ∧ |s.etaQ| ≤ 1)
    (hk : ∀ k ∈ ks, k.Upright ∧ k.A < ss.length ∧ k.X < ss.length ∧ |k.eta| ≤ 1) :
    |localFreq WC.src four (Real.cos β) (Real.sin β) (exp (α * I)) 1 0
        (components WC.src TC.src four B0 ss ks (Spec.quantum ss xi) (Spec.quantum ss xf))
      - (Spec.energy four B0 (Spec.static α β) ss ks xf - Spec.energy four B0 (Spec.static α β) ss ks xi)|
      ≤ Spec.tol B0 ss ks (Spec.quantum ss xi) (Spec.quantum ss xf) := by
  rw [← C73_energies_partial four B0 α β ss ks xi xf hi hf (fun s h => ⟨(hs s h).1, (hs s h).2.1⟩)
    (fun k h => ⟨(hk k h).1, (hk k h).2.1, (hk k h).2.2.1⟩)]
  exact components_near ⟨Real.cos β, Real.sin β, exp (α * I), 1, 0, Real.cos_sq_add_sin_sq β, exp_norm α, by norm_num⟩
    four B0 ss ks (fun s h => (hs s h).2) (fun k h => (hk k h).2.2.2) _ _

/-- The tolerance of a proton with a shielding anisotropy of 5 ppm at 1 T: far below a millihertz. -/
example (four : Bool) (α β : ℝ) :
    |localFreq WC.src four (Real.cos β) (Real.sin β) (exp (α * I)) 1 0
        (components WC.src TC.src four 1 [⟨1, 42, 3, 5, 0.2, ⟨0.1, 0.2, 0.3⟩, 0, 0, ⟨0, 0, 0⟩⟩] []
          (Spec.quantum [⟨1, 42, 3, 5, 0.2, ⟨0.1, 0.2, 0.3⟩, 0, 0, ⟨0, 0, 0⟩⟩] [1])
          (Spec.quantum [⟨1, 42, 3, 5, 0.2, ⟨0.1, 0.2, 0.3⟩, 0, 0, ⟨0, 0, 0⟩⟩] [0]))
      - (Spec.energy four 1 (Spec.static α β) [⟨1, 42, 3, 5, 0.2, ⟨0.1, 0.2, 0.3⟩, 0, 0, ⟨0, 0, 0⟩⟩] [] [0]
        - Spec.energy four 1 (Spec.static α β) [⟨1, 42, 3, 5, 0.2, ⟨0.1, 0.2, 0.3⟩, 0, 0, ⟨0, 0, 0⟩⟩] [] [1])| ≤ 1 / 1000 := by
  refine (C73_decimals_partial four 1 α β _ [] [1] [0] (by simp [Spec.IsState]) (by simp [Spec.IsState]) ?_
    (by simp)).trans ?_
  · intro s hs
    simp only [List.mem_cons, List.not_mem_nil, or_false] at hs
    subst hs
    norm_num [Site.Upright, abs_of_nonneg]
  · norm_num [Spec.tol, Spec.sitesTol, Spec.siteTol, Spec.edge, Spec.quantum, abs_of_nonneg]

end MRS.Freq
