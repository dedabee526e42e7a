import Verif.Bin.Sphere
import Verif.Bin.Weights
import Verif.Bin.Ridge
import Mathlib.Analysis.Real.Pi.Bounds

/-!
# Sharp lines on ever denser grids — C63 in the limit, and the bins next to a sharp line
-/

namespace MRS.Bin

open MeasureTheory Filter Topology

/-! ## Specification -/

/-- How a line is shared between the points next to it, linearly in the distance `u` to the point, in bins; a line within a millionth of a
point counts there alone. -/
noncomputable def Spec.linear (u : ℝ) : ℝ :=
  if |u| < 1 / 1000000 then 1 else if 1 - 1 / 1000000 < |u| then 0 else 1 - |u|

/-! ## Total weight -/

/-- The total weight on ever denser grids. -/
theorem totalAmplitude_limit (A : ℕ → ℕ → ℝ) (a : ℝ × ℝ → ℝ) (C : ℝ) (hC0 : 0 ≤ C)
    (hA : ∀ nt, ∀ p : ℕ × ℕ, 0 < p.1 → 0 < p.2 → p.1 + p.2 < nt →
      (nt : ℝ) ^ 2 * A nt (rank nt p) = a ((p.1 : ℝ) / nt, (p.2 : ℝ) / nt))
    (hAb : ∀ nt, 1 ≤ nt → ∀ p : ℕ × ℕ, p.1 + p.2 ≤ nt → |A nt (rank nt p)| ≤ C / (nt : ℝ) ^ 2)
    (ha : ∀ q ∈ simplex, ContinuousAt a q) :
    Tendsto (fun nt => totalAmplitude nt (A nt)) atTop (𝓝 (6 * ∫ q in simplex, a q)) := by
  have h := octInterp_limit (fun _ _ => 1 / 2) A 1 0 le_rfl one_pos (fun _ => 1 / 2) a C hC0 (fun _ _ _ _ _ => rfl) hA hAb
    (fun _ _ => continuousAt_const) ha (Eventually.of_forall fun q _ => by norm_num) (Or.inr fun _ _ _ _ => by norm_num)
  have e : ∀ nt, val 0 (octInterp nt (fun _ => (1 / 2 : ℝ)) (A nt) 1) = totalAmplitude nt (A nt) := by
    intro nt
    rw [octInterp_val nt _ _ 1 le_rfl 0, totalAmplitude_triList]
    congr 1
    refine List.map_congr_left fun t _ => ?_
    exact (triangle_val _ _ _ _ 1 0 le_rfl one_pos (Or.inr ⟨by norm_num, by norm_num, by norm_num⟩)).2.1
      (by norm_num) (by norm_num) (by norm_num)
  simp only [e] at h
  convert h using 3
  norm_num

theorem octant_sine : ∫ p in octant, Real.sin p.2 = Real.pi / 2 := by
  unfold octant
  have hint : IntegrableOn (fun p : ℝ × ℝ => Real.sin p.2) (Set.Ioo 0 (Real.pi / 2) ×ˢ Set.Ioo 0 (Real.pi / 2)) (volume.prod volume) := by
    refine Measure.integrableOn_of_bounded (M := 1) ?_ ?_ ?_
    · rw [Measure.prod_prod, Real.volume_Ioo]
      exact ENNReal.mul_ne_top ENNReal.ofReal_ne_top ENNReal.ofReal_ne_top
    · exact (Real.measurable_sin.comp measurable_snd).aestronglyMeasurable
    · exact Eventually.of_forall fun p => Real.abs_sin_le_one _
  rw [Measure.volume_eq_prod, setIntegral_prod _ hint]
  have h1 : ∫ β in Set.Ioo 0 (Real.pi / 2), Real.sin β = 1 := by
    rw [← integral_Ioc_eq_integral_Ioo, ← intervalIntegral.integral_of_le (by positivity), integral_sin]
    simp
  simp [h1]
  positivity

/-- **C63 in the limit, partial.** The total weight of an octant converges: to `3π`. -/
theorem C63_limit_partial : Tendsto (fun nt => totalAmplitude nt (weight nt)) atTop (𝓝 (3 * Real.pi)) := by
  have hlen : ∀ nt : ℕ, 1 ≤ nt → ∀ p : ℕ × ℕ, Spec.len (Spec.point nt p) = nt * dist0 ((p.1 : ℝ) / nt, (p.2 : ℝ) / nt) := by
    intro nt hn p
    have hn0 : (0 : ℝ) < nt := by exact_mod_cast hn
    unfold Spec.len Spec.point dist0
    dsimp only
    rw [show ((nt : ℝ) - p.1 - p.2) ^ 2 + (p.2 : ℝ) ^ 2 + (p.1 : ℝ) ^ 2
      = (nt : ℝ) ^ 2 * ((1 - (p.1 : ℝ) / nt - p.2 / nt) ^ 2 + ((p.2 : ℝ) / nt) ^ 2 + ((p.1 : ℝ) / nt) ^ 2) by field_simp,
      Real.sqrt_mul (by positivity), Real.sqrt_sq hn0.le]
  have h := totalAmplitude_limit (fun nt => weight nt) (fun q => 1 / dist0 q ^ 3) (3 * Real.sqrt 3) (by positivity) (by
      intro nt p h1 h2 h3
      have hn : 1 ≤ nt := by omega
      have hn0 : (0 : ℝ) < nt := by exact_mod_cast hn
      have hlp := len_pos nt hn p
      rw [weight_eq nt hn _ p (grid_get nt p.1 p.2 (by omega)), hlen nt hn]
      rw [hlen nt hn] at hlp
      have hd0 : 0 < dist0 ((p.1 : ℝ) / nt, (p.2 : ℝ) / nt) := pos_of_mul_pos_right hlp hn0.le
      field_simp) (by
      intro nt hn p hp
      rw [weight_eq nt hn _ p (grid_get nt p.1 p.2 hp)]
      obtain ⟨w1, w2⟩ := weight_bounds nt hn p hp
      rw [abs_of_nonneg (le_trans (by positivity) w1)]
      exact w2) (by
      intro q hq
      have hd := dist0_pos q hq
      exact continuousAt_const.div (dist0_continuous.pow 3).continuousAt (by positivity))
  rw [integral_face (fun _ => 1)] at h
  simp only [mul_one] at h
  rw [octant_sine] at h
  convert h using 2
  ring

/-- The total is above `9` for all densities that are high enough. -/
example : ∃ N, ∀ nt ≥ N, 9 < totalAmplitude nt (weight nt) := by
  have h := C63_limit_partial.eventually_const_lt (u := 9) (by linarith [Real.pi_gt_three])
  exact eventually_atTop.mp h

/-! ## A sharp line -/

/-- What a sharp line adds to point `k`, one of the last `count - 1`: its share if it is in the window. -/
theorem delta_tent (f amp : ℝ) (m k : ℤ) (hk1 : 1 ≤ k) (hkm : k < m) :
    at_ k (deltaFn f m amp) = if 0 ≤ f ∧ f < m then amp * Spec.linear (f - (k + 1 / 2)) else 0 := by
  have hT : (TOL : ℝ) = 1 / 1000000 := rfl
  have hk1' : (1 : ℝ) ≤ k := by exact_mod_cast hk1
  have hat : ∀ (i : ℤ) (x : ℝ), at_ k [(i, x)] = if i = k then x else 0 := by
    intro i x
    rw [at_cons, at_nil, add_zero]
  by_cases h0 : 0 ≤ f
  · obtain ⟨t0, t1, t2⟩ := trunc_nonneg h0
    unfold deltaFn
    simp only [gt_iff_lt]
    by_cases hm : f < m
    · have hlt : trunc f < m := by
        have : (trunc f : ℝ) < m := by linarith
        exact_mod_cast this
      rw [if_neg (show ¬ (trunc f ≥ m ∨ trunc f < 0) by omega), if_pos (show 0 ≤ f ∧ f < m from ⟨h0, hm⟩), hT]
      generalize trunc f = p at *
      have hfar : k ≠ p → k ≠ p - 1 → k ≠ p + 1 → Spec.linear (f - (k + 1 / 2)) = 0 := by
        intro a b c
        have : (k : ℝ) + 2 ≤ p ∨ (p : ℝ) + 2 ≤ k := by
          rcases lt_or_gt_of_ne a with h | h
          · left
            have : k + 2 ≤ p := by omega
            exact_mod_cast this
          · right
            have : p + 2 ≤ k := by omega
            exact_mod_cast this
        have h1 : 1 ≤ |f - (k + 1 / 2)| := by
          rcases this with h | h
          · rw [le_abs]; left; linarith
          · rw [le_abs]; right; linarith
        unfold Spec.linear
        rw [if_neg (by linarith), if_pos (by linarith)]
      have hself : k = p → |f - p - 1 / 2| < 1 / 1000000 → Spec.linear (f - (k + 1 / 2)) = 1 := by
        rintro rfl h
        unfold Spec.linear
        rw [if_pos (by rwa [show f - (k + 1 / 2) = f - k - 1 / 2 by ring])]
      have hself' : k = p → ¬ |f - p - 1 / 2| < 1 / 1000000 → Spec.linear (f - (k + 1 / 2)) = 1 - |f - p - 1 / 2| := by
        rintro rfl h
        unfold Spec.linear
        have h2 : |f - k - 1 / 2| ≤ 1 / 2 := by rw [abs_le]; constructor <;> linarith
        rw [show f - (k + 1 / 2) = f - k - 1 / 2 by ring, if_neg h, if_neg (by linarith)]
      have hlow : k = p - 1 → Spec.linear (f - (k + 1 / 2)) = if 1 / 1000000 ≤ -(f - p - 1 / 2) then -(f - p - 1 / 2) else 0 := by
        rintro rfl
        unfold Spec.linear
        push_cast
        have e : |f - ((p : ℝ) - 1 + 1 / 2)| = f - p + 1 / 2 := by
          rw [abs_of_nonneg (by linarith)]
          ring
        rw [e, if_neg (by linarith)]
        by_cases hc : 1 / 1000000 ≤ -(f - p - 1 / 2)
        · rw [if_pos hc, if_neg (by linarith)]
          ring
        · rw [if_neg hc, if_pos (by linarith)]
      have hhigh : k = p + 1 → Spec.linear (f - (k + 1 / 2)) = if 1 / 1000000 ≤ f - p - 1 / 2 then f - p - 1 / 2 else 0 := by
        rintro rfl
        unfold Spec.linear
        push_cast
        have e : |f - ((p : ℝ) + 1 + 1 / 2)| = -(f - p - 3 / 2) := by
          rw [abs_of_nonpos (by linarith)]
          ring
        rw [e, if_neg (by linarith)]
        by_cases hc : 1 / 1000000 ≤ f - p - 1 / 2
        · rw [if_pos hc, if_neg (by linarith)]
          ring
        · rw [if_neg hc, if_pos (by linarith)]
      by_cases g : |f - p - 1 / 2| < 1 / 1000000
      · rw [if_pos g, hat]
        have g' := abs_lt.mp g
        by_cases h1 : k = p
        · rw [if_pos h1.symm, hself h1 g, mul_one]
        · rw [if_neg (Ne.symm h1)]
          by_cases h2 : k = p - 1
          · rw [hlow h2, if_neg (by linarith), mul_zero]
          · by_cases h3 : k = p + 1
            · rw [hhigh h3, if_neg (by linarith), mul_zero]
            · rw [hfar h1 h2 h3, mul_zero]
      · rw [if_neg g]
        by_cases g1 : f - p < 1 / 2
        · have gb : 1 / 1000000 ≤ -(f - p - 1 / 2) := by
            rw [abs_of_neg (by linarith)] at g
            linarith
          rw [if_pos g1, at_append, hat]
          by_cases h1 : k = p
          · rw [if_pos h1.symm, hself' h1 g, abs_of_neg (by linarith)]
            have : at_ k (if p ≠ 0 then [(p - 1, amp * (1 / 2 - (f - p)))] else []) = 0 := by
              split_ifs
              · rw [hat, if_neg (by omega)]
              · rfl
            rw [this]
            ring
          · rw [if_neg (Ne.symm h1)]
            by_cases h2 : k = p - 1
            · rw [if_pos (by omega), hat, if_pos h2.symm, hlow h2, if_pos gb]
              ring
            · have : at_ k (if p ≠ 0 then [(p - 1, amp * (1 / 2 - (f - p)))] else []) = 0 := by
                split_ifs
                · rw [hat, if_neg (Ne.symm h2)]
                · rfl
              rw [this]
              by_cases h3 : k = p + 1
              · rw [hhigh h3, if_neg (by linarith)]
                ring
              · rw [hfar h1 h2 h3]
                ring
        · have g2 : 1 / 2 < f - p := by
            rcases lt_or_eq_of_le (not_lt.mp g1) with h | h
            · exact h
            · exact absurd (by rw [← h]; norm_num) g
          have gb : 1 / 1000000 ≤ f - p - 1 / 2 := by
            rw [abs_of_pos (by linarith)] at g
            linarith
          rw [if_neg g1, if_pos g2, at_append, hat]
          by_cases h1 : k = p
          · rw [if_pos h1.symm, hself' h1 g, abs_of_pos (by linarith)]
            have : at_ k (if p + 1 ≠ m then [(p + 1, amp * (f - p - 1 / 2))] else []) = 0 := by
              split_ifs
              · rw [hat, if_neg (by omega)]
              · rfl
            rw [this]
            ring
          · rw [if_neg (Ne.symm h1)]
            by_cases h3 : k = p + 1
            · rw [if_pos (by omega), hat, if_pos h3.symm, hhigh h3, if_pos gb]
              ring
            · have : at_ k (if p + 1 ≠ m then [(p + 1, amp * (f - p - 1 / 2))] else []) = 0 := by
                split_ifs
                · rw [hat, if_neg (Ne.symm h3)]
                · rfl
              rw [this]
              by_cases h2 : k = p - 1
              · rw [hlow h2, if_neg (by linarith)]
                ring
              · rw [hfar h1 h2 h3]
                ring
    · have hge : m ≤ trunc f := by
        have h1 : (m : ℝ) < trunc f + 1 := by linarith
        have : m < trunc f + 1 := by exact_mod_cast h1
        omega
      rw [if_neg (show ¬ (0 ≤ f ∧ f < m) from fun h => hm h.2), if_pos (show trunc f ≥ m ∨ trunc f < 0 from Or.inl hge)]
      rfl
  · rw [if_neg (fun h => h0 h.1)]
    apply at_outside
    rintro ⟨i, x⟩ hq rfl
    exfalso
    have ht : trunc f ≤ 0 := by
      unfold trunc
      rw [if_neg h0, Int.ceil_le]
      push_cast
      linarith
    unfold deltaFn at hq
    simp only at hq hk1
    generalize trunc f = p at *
    have hp : ¬ (p ≥ m ∨ p < 0) → p = 0 := by omega
    split_ifs at hq with g1 g2 g3 g4 g5 g6 <;>
      simp only [List.mem_cons, List.mem_append, List.not_mem_nil, or_false, false_or, Prod.mk.injEq] at hq
    all_goals have hp0 : p = 0 := hp g1
    all_goals subst hp0
    all_goals push_cast at *
    all_goals first | omega | linarith

/-- A line a quarter of a bin above point 3: three quarters there, one quarter on point 4. -/
example : at_ 3 (deltaFn (15 / 4 : ℝ) 9 8) = 6 ∧ at_ 4 (deltaFn (15 / 4 : ℝ) 9 8) = 2 := by
  constructor
  · rw [delta_tent _ _ _ _ (by norm_num) (by norm_num), if_pos (by norm_num)]
    norm_num [Spec.linear, abs_of_nonneg]
  · rw [delta_tent _ _ _ _ (by norm_num) (by norm_num), if_pos (by norm_num)]
    norm_num [Spec.linear, abs_of_neg]

end MRS.Bin
