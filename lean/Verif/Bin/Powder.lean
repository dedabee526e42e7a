import Verif.Bin.Mirror
import Verif.Bin.Tent
import Mathlib.MeasureTheory.Integral.DominatedConvergence
import Mathlib.MeasureTheory.Integral.Prod
import Mathlib.MeasureTheory.Integral.IntervalIntegral.Basic
import Mathlib.MeasureTheory.Measure.Lebesgue.Basic
import Mathlib.MeasureTheory.Function.Floor

/-!
# Ever denser grids — lemmas for property C88

The sum over the triangles of an octant as the integral of a step function over the unit square, and its limit. Only lemmas.
-/

namespace MRS.Bin

open MeasureTheory Filter Topology

/-! ## One triangle -/

theorem cumL_unit (f0 f1 f2 x : ℝ) (h01 : f0 ≤ f1) (h12 : f1 ≤ f2) :
    0 ≤ cumL (1 * 2 / (f2 - f0)) f0 f1 x ∧ cumL (1 * 2 / (f2 - f0)) f0 f1 x ≤ (f1 - f0) / (f2 - f0) := by
  rw [cumL_clamp _ _ _ _ h01]
  have h0 : 0 ≤ f1 - f0 := by linarith
  have h2 : 0 ≤ f2 - f0 := by linarith
  have a : 0 ≤ max f0 (min x f1) - f0 := by simp
  have b : max f0 (min x f1) - f0 ≤ f1 - f0 := by
    have : max f0 (min x f1) ≤ f1 := max_le h01 (min_le_right _ _)
    linarith
  generalize max f0 (min x f1) - f0 = u at a b
  constructor
  · positivity
  · rcases eq_or_lt_of_le h0 with e | e
    · rw [← e]
      simp
    · rw [div_div, div_mul_eq_mul_div, div_div, div_le_div_iff₀ (by nlinarith) (by linarith)]
      nlinarith [mul_le_mul b b a h0]

theorem cum_unit_mono (f0 f1 f2 x y : ℝ) (h01 : f0 ≤ f1) (h12 : f1 ≤ f2) (h : x ≤ y) :
    cum f0 f1 f2 1 x ≤ cum f0 f1 f2 1 y := by
  have : 0 ≤ cum f0 f1 f2 1 y - cum f0 f1 f2 1 x := by
    rw [← integral_tent f0 f1 f2 1 x y h01 h12]
    apply intervalIntegral.integral_nonneg h
    intro u _
    unfold Spec.tent
    split_ifs with h1 h2 h3
    · exact le_rfl
    · exact mul_nonneg (div_nonneg (by norm_num) (by linarith)) (div_nonneg (by linarith) (by linarith))
    · exact mul_nonneg (div_nonneg (by norm_num) (by linarith)) (div_nonneg (by linarith) (by linarith))
    · exact le_rfl
  linarith

theorem cum_lo (f0 f1 f2 amp x : ℝ) (h01 : f0 ≤ f1) (h : x ≤ f0) : cum f0 f1 f2 amp x = 0 := by
  rw [cum, cumL_lo _ _ _ _ h, cumR_lo _ _ _ _ (h.trans h01), add_zero]

theorem cum_hi (f0 f1 f2 amp x : ℝ) (h01 : f0 ≤ f1) (h12 : f1 ≤ f2) (hlt : f0 < f2) (h : f2 ≤ x) :
    cum f0 f1 f2 amp x = amp := by
  rw [cum, cumL_hi _ _ _ _ h01 (h12.trans h), cumR_hi _ _ _ _ h12 h]
  have : f2 - f0 ≠ 0 := by linarith
  field_simp
  ring

theorem cum_unit_bounds (f0 f1 f2 x : ℝ) (h01 : f0 ≤ f1) (h12 : f1 ≤ f2) (hlt : f0 < f2) :
    0 ≤ cum f0 f1 f2 1 x ∧ cum f0 f1 f2 1 x ≤ 1 := by
  constructor
  · have := cum_unit_mono f0 f1 f2 (min x f0) x h01 h12 (min_le_left _ _)
    rwa [cum_lo _ _ _ _ _ h01 (min_le_right _ _)] at this
  · have := cum_unit_mono f0 f1 f2 x (max x f2) h01 h12 (le_max_left _ _)
    rwa [cum_hi _ _ _ _ _ h01 h12 hlt (le_max_right _ _)] at this

theorem cum_scale (f0 f1 f2 amp x : ℝ) : cum f0 f1 f2 amp x = amp * cum f0 f1 f2 1 x := by
  unfold cum cumL cumR
  split_ifs <;> ring

/-- What a triangle adds to bin `k`: at most its amplitude, all of it if the three frequencies are inside the bin, and nothing if they
are all on one side of it. -/
theorem triangle_val (a b c amp : ℝ) (m k : ℤ) (hk0 : 0 ≤ k) (hkm : k < m) (hg : 1 ≤ k ∨ (0 ≤ a ∧ 0 ≤ b ∧ 0 ≤ c)) :
    |val k (triangle a b c amp m)| ≤ |amp| ∧
    (((k : ℝ) < a ∧ a < k + 1) → ((k : ℝ) < b ∧ b < k + 1) → ((k : ℝ) < c ∧ c < k + 1) →
      val k (triangle a b c amp m) = amp) ∧
    ((a < k ∧ b < k ∧ c < k) ∨ ((k : ℝ) + 1 < a ∧ (k : ℝ) + 1 < b ∧ (k : ℝ) + 1 < c) → val k (triangle a b c amp m) = 0) := by
  obtain ⟨f0, f1, f2, hp, h01, h12⟩ := exists_sorted a b c
  have hkr : (0 : ℝ) ≤ k := by exact_mod_cast hk0
  have key : ∀ P : ℝ → Prop, P a → P b → P c → P f0 ∧ P f1 ∧ P f2 := fun P h1 h2 h3 => perm3_all hp h1 h2 h3
  have hsorted : f0 < f2 → (val k (triangle a b c amp m) = amp * (cum f0 f1 f2 1 (k + 1) - cum f0 f1 f2 1 k)) := by
    intro hlt
    obtain ⟨w, e, h⟩ := triangle_at a b c f0 f1 f2 amp m k hp h01 h12 hlt hk0 hkm (by
      intro hk
      rcases hg with hg | hg
      · omega
      · exact Or.inl (key (0 ≤ ·) hg.1 hg.2.1 hg.2.2).1)
    rw [e, mul_sub, ← cum_scale, ← cum_scale]
    exact h
  by_cases hlt : f0 < f2
  · rw [hsorted hlt]
    refine ⟨?_, ?_, ?_⟩
    · rw [abs_mul]
      refine mul_le_of_le_one_right (abs_nonneg _) ?_
      have b1 := cum_unit_bounds f0 f1 f2 k h01 h12 hlt
      have b2 := cum_unit_bounds f0 f1 f2 (k + 1) h01 h12 hlt
      rw [abs_le]
      constructor <;> linarith [b1.1, b1.2, b2.1, b2.2]
    · intro ha hb hc
      obtain ⟨h0, h1, h2⟩ := key (fun x => (k : ℝ) < x ∧ x < k + 1) ha hb hc
      rw [cum_lo _ _ _ _ _ h01 h0.1.le, cum_hi _ _ _ _ _ h01 h12 hlt h2.2.le]
      ring
    · rintro (⟨ha, hb, hc⟩ | ⟨ha, hb, hc⟩)
      · obtain ⟨h0, h1, h2⟩ := key (fun x => x < (k : ℝ)) ha hb hc
        rw [cum_hi _ _ _ _ _ h01 h12 hlt h2.le, cum_hi _ _ _ _ _ h01 h12 hlt (by linarith)]
        ring
      · obtain ⟨h0, h1, h2⟩ := key (fun x => (k : ℝ) + 1 < x) ha hb hc
        rw [cum_lo _ _ _ _ _ h01 h0.le, cum_lo _ _ _ _ _ h01 (by linarith)]
        ring
  · have e1 : f0 = f1 := by linarith
    have e2 : f1 = f2 := by linarith
    subst e1 e2
    obtain ⟨ea, eb, ec⟩ := perm3_all (P := fun x => x = f0) hp.symm rfl rfl rfl
    subst ea
    subst eb ec
    have hv : triangle c c c amp m = if trunc c ≥ m ∨ trunc c < 0 then .ok [] else .ok [(trunc c, amp)] := by
      unfold triangle
      simp
    rw [hv]
    have hcase : val k (if trunc c ≥ m ∨ trunc c < 0 then (.ok [] : Py (Writes ℝ)) else .ok [(trunc c, amp)]) =
        if trunc c = k then amp else 0 := by
      by_cases h1 : trunc c ≥ m ∨ trunc c < 0
      · rw [if_pos h1, if_neg (by omega)]
        rfl
      · rw [if_neg h1]
        show at_ k [(trunc c, amp)] = _
        rw [at_cons]
        simp [at_]
    rw [hcase]
    have hc0 : 1 ≤ k ∨ 0 ≤ c := by
      rcases hg with h | h
      · exact Or.inl h
      · exact Or.inr h.1
    have hiff : trunc c = k ↔ (k : ℝ) ≤ c ∧ c < k + 1 := by
      rcases lt_or_ge c 0 with hneg | hpos
      · constructor
        · intro h
          have := (trunc_neg hneg).1
          rcases hc0 with hc0 | hc0
          · omega
          · linarith
        · intro h
          linarith [h.1]
      · obtain ⟨t0, t1, t2⟩ := trunc_nonneg hpos
        constructor
        · intro h
          rw [h] at t1 t2
          exact ⟨t1, t2⟩
        · intro h
          have u1 : (trunc c : ℝ) < ((k + 1 : ℤ) : ℝ) := by push_cast; linarith [h.2]
          have u2 : ((k : ℤ) : ℝ) < ((trunc c + 1 : ℤ) : ℝ) := by push_cast; linarith [h.1]
          have v1 : trunc c < k + 1 := by exact_mod_cast u1
          have v2 : k < trunc c + 1 := by exact_mod_cast u2
          omega
    refine ⟨?_, ?_, ?_⟩
    · split_ifs
      · exact le_rfl
      · simp
    · intro h _ _
      rw [if_pos (hiff.mpr ⟨h.1.le, h.2⟩)]
    · intro h
      rw [if_neg]
      intro h'
      rw [hiff] at h'
      rcases h with h | h <;> linarith [h.1, h'.1, h'.2]

/-! ## Step functions -/

theorem integral_floor (n : ℕ) (hn : 1 ≤ n) (h : ℕ → ℝ) :
    ∫ x in (0 : ℝ)..1, h ⌊(n : ℝ) * x⌋₊ = 1 / (n : ℝ) * ∑ i ∈ Finset.range n, h i := by
  have hn0 : (n : ℝ) ≠ 0 := by
    have : n ≠ 0 := by omega
    exact_mod_cast this
  have h1 : ∫ x in (0 : ℝ)..1, h ⌊(n : ℝ) * x⌋₊ = (n : ℝ)⁻¹ • ∫ u in (0 : ℝ)..n, h ⌊u⌋₊ := by
    have := intervalIntegral.integral_comp_mul_left (a := 0) (b := 1) (fun u => h ⌊u⌋₊) hn0
    simpa using this
  have hae : ∀ i : ℕ, ∫ u in ((i : ℕ) : ℝ)..((i + 1 : ℕ) : ℝ), h ⌊u⌋₊ = h i := by
    intro i
    have : ∫ u in ((i : ℕ) : ℝ)..((i + 1 : ℕ) : ℝ), h ⌊u⌋₊ = ∫ u in ((i : ℕ) : ℝ)..((i + 1 : ℕ) : ℝ), h i := by
      apply intervalIntegral.integral_congr_ae
      have hne : ∀ᵐ u : ℝ, u ≠ ((i + 1 : ℕ) : ℝ) := by
        rw [ae_iff]
        simp
      filter_upwards [hne] with u hu hmem
      rw [Set.uIoc_of_le (by push_cast; linarith)] at hmem
      congr 1
      rw [Nat.floor_eq_iff (by have := hmem.1; have : (0 : ℝ) ≤ i := Nat.cast_nonneg i; linarith)]
      refine ⟨hmem.1.le, ?_⟩
      have := lt_of_le_of_ne hmem.2 hu
      push_cast at this
      exact this
    rw [this]
    simp
  have hint : ∀ i : ℕ, IntervalIntegrable (fun u => h ⌊u⌋₊) volume ((i : ℕ) : ℝ) ((i + 1 : ℕ) : ℝ) := by
    intro i
    have hc : IntervalIntegrable (fun _ => h i) volume ((i : ℕ) : ℝ) ((i + 1 : ℕ) : ℝ) := intervalIntegrable_const
    refine hc.congr_ae ?_
    have hne : ∀ᵐ u : ℝ ∂(volume.restrict (Set.uIoc ((i : ℕ) : ℝ) ((i + 1 : ℕ) : ℝ))), u ≠ ((i + 1 : ℕ) : ℝ) := by
      apply ae_restrict_of_ae
      rw [ae_iff]
      simp
    filter_upwards [hne, ae_restrict_mem measurableSet_uIoc] with u hu hmem
    rw [Set.uIoc_of_le (by push_cast; linarith)] at hmem
    congr 1
    symm
    rw [Nat.floor_eq_iff (by have := hmem.1; have : (0 : ℝ) ≤ i := Nat.cast_nonneg i; linarith)]
    refine ⟨hmem.1.le, ?_⟩
    have := lt_of_le_of_ne hmem.2 hu
    push_cast at this
    exact this
  have h2 := intervalIntegral.sum_integral_adjacent_intervals (a := fun i : ℕ => (i : ℝ)) (n := n) (μ := volume)
    (f := fun u => h ⌊u⌋₊) (fun i _ => hint i)
  simp only [hae] at h2
  rw [h1, smul_eq_mul]
  rw [Nat.cast_zero] at h2
  rw [← h2]
  simp

/-- The unit square. -/
def square : Set (ℝ × ℝ) := Set.Ioc 0 1 ×ˢ Set.Ioc 0 1

theorem step_measurable (n : ℕ) (g : ℕ → ℕ → ℝ) : Measurable fun q : ℝ × ℝ => g ⌊(n : ℝ) * q.1⌋₊ ⌊(n : ℝ) * q.2⌋₊ := by
  have hd : Measurable fun p : ℕ × ℕ => g p.1 p.2 := measurable_of_countable _
  have hf : Measurable fun q : ℝ × ℝ => (⌊(n : ℝ) * q.1⌋₊, ⌊(n : ℝ) * q.2⌋₊) := by
    refine Measurable.prodMk ?_ ?_
    · exact Nat.measurable_floor.comp (measurable_const.mul measurable_fst)
    · exact Nat.measurable_floor.comp (measurable_const.mul measurable_snd)
  exact hd.comp hf

theorem integral_square (n : ℕ) (hn : 1 ≤ n) (g : ℕ → ℕ → ℝ) (C : ℝ) (hC : ∀ r c, |g r c| ≤ C) :
    ∫ q in square, g ⌊(n : ℝ) * q.1⌋₊ ⌊(n : ℝ) * q.2⌋₊ =
      1 / (n : ℝ) ^ 2 * ∑ r ∈ Finset.range n, ∑ c ∈ Finset.range n, g r c := by
  unfold square
  rw [Measure.volume_eq_prod, setIntegral_prod]
  · have h1 : ∀ x : ℝ, ∫ y in Set.Ioc (0 : ℝ) 1, g ⌊(n : ℝ) * x⌋₊ ⌊(n : ℝ) * y⌋₊ =
        (fun r => 1 / (n : ℝ) * ∑ c ∈ Finset.range n, g r c) ⌊(n : ℝ) * x⌋₊ := by
      intro x
      rw [← intervalIntegral.integral_of_le zero_le_one, integral_floor n hn]
    simp only [h1]
    rw [← intervalIntegral.integral_of_le zero_le_one, integral_floor n hn (fun r => 1 / (n : ℝ) * ∑ c ∈ Finset.range n, g r c),
      ← Finset.mul_sum]
    ring
  · refine Measure.integrableOn_of_bounded (M := C) ?_ (step_measurable n g).aestronglyMeasurable ?_
    · rw [Measure.prod_prod]
      simp
    · exact ae_of_all _ fun q => hC _ _

/-! ## All triangles -/

/-- What the two triangles between the rows `r`, `r + 1` and the columns `c`, `c + 1` have together. -/
def cell (nt : ℕ) (V : (ℕ × ℕ) × (ℕ × ℕ) × (ℕ × ℕ) → ℝ) (r c : ℕ) : ℝ :=
  (if r + c < nt then V ((r, c), (r, c + 1), (r + 1, c)) else 0) +
    (if r + c + 1 < nt then V ((r, c + 1), (r + 1, c), (r + 1, c + 1)) else 0)

theorem triList_cells (nt : ℕ) (V : (ℕ × ℕ) × (ℕ × ℕ) × (ℕ × ℕ) → ℝ) :
    ((triList nt).map V).sum = ∑ r ∈ Finset.range nt, ∑ c ∈ Finset.range nt, cell nt V r c := by
  rw [triList_sum]
  refine Finset.sum_congr rfl fun r _ => ?_
  unfold cell
  rw [Finset.sum_add_distrib, ← Finset.sum_filter, ← Finset.sum_filter]
  congr 1
  · congr 1
    ext c
    simp only [Finset.mem_range, Finset.mem_filter]
    omega
  · congr 1
    ext c
    simp only [Finset.mem_range, Finset.mem_filter]
    omega

/-- The points of an octant with coordinates `z`, `y` and `1 - z - y`, all positive. -/
def simplex : Set (ℝ × ℝ) := {q | 0 < q.1 ∧ 0 < q.2 ∧ q.1 + q.2 < 1}

theorem simplex_open : IsOpen simplex := by
  have h : simplex = {q : ℝ × ℝ | 0 < q.1} ∩ ({q | 0 < q.2} ∩ {q | q.1 + q.2 < 1}) := rfl
  rw [h]
  refine IsOpen.inter ?_ (IsOpen.inter ?_ ?_)
  · exact isOpen_lt continuous_const continuous_fst
  · exact isOpen_lt continuous_const continuous_snd
  · exact isOpen_lt (continuous_fst.add continuous_snd) continuous_const

theorem simplex_square : simplex ⊆ square := by
  rintro ⟨x, y⟩ ⟨h1, h2, h3⟩
  dsimp only at h1 h2 h3
  exact ⟨⟨h1, by dsimp only; linarith⟩, ⟨h2, by dsimp only; linarith⟩⟩

theorem line_null : ∀ᵐ q : ℝ × ℝ, q.1 + q.2 ≠ 1 := by
  rw [ae_iff]
  have hm : MeasurableSet {q : ℝ × ℝ | ¬ q.1 + q.2 ≠ 1} := by
    have : {q : ℝ × ℝ | ¬ q.1 + q.2 ≠ 1} = {q : ℝ × ℝ | q.1 + q.2 = 1} := by
      ext q
      simp
    rw [this]
    exact measurableSet_eq_fun (measurable_fst.add measurable_snd) measurable_const
  rw [Measure.volume_eq_prod, Measure.measure_prod_null hm]
  refine ae_of_all _ fun x => ?_
  have : Prod.mk x ⁻¹' {q : ℝ × ℝ | ¬ q.1 + q.2 ≠ 1} = {1 - x} := by
    ext y
    simp only [Set.mem_preimage, Set.mem_ofPred_eq, not_not, Set.mem_singleton_iff]
    constructor <;> intro h <;> linarith
  change volume (Prod.mk x ⁻¹' {q : ℝ × ℝ | ¬ q.1 + q.2 ≠ 1}) = 0
  rw [this]
  simp

/-- A grid point, one step or less away from `q` in each coordinate. -/
def Near (nt : ℕ) (p : ℕ × ℕ) (q : ℝ × ℝ) : Prop := |(p.1 : ℝ) - nt * q.1| ≤ 1 ∧ |(p.2 : ℝ) - nt * q.2| ≤ 1

/-- The sum over all triangles of ever denser grids. -/
theorem triangles_limit (V : ℕ → (ℕ × ℕ) × (ℕ × ℕ) × (ℕ × ℕ) → ℝ) (C : ℝ) (hC : ∀ nt t, t ∈ triList nt → |V nt t| ≤ C / (nt : ℝ) ^ 2)
    (hC0 : 0 ≤ C) (L : ℝ × ℝ → ℝ)
    (hlim : ∀ᵐ q : ℝ × ℝ, q ∈ simplex → ∀ ε > 0, ∃ N, ∀ nt ≥ N, ∀ t ∈ triList nt,
      Near nt t.1 q → Near nt t.2.1 q → Near nt t.2.2 q → |(nt : ℝ) ^ 2 * V nt t - L q| ≤ ε) :
    Tendsto (fun nt => ((triList nt).map (V nt)).sum) atTop (𝓝 (2 * ∫ q in simplex, L q)) := by
  have hcell : ∀ nt : ℕ, 1 ≤ nt → ∀ r c, |(nt : ℝ) ^ 2 / 2 * cell nt (V nt) r c| ≤ C := by
    intro nt hnt r c
    have hn : (0 : ℝ) < nt := by exact_mod_cast hnt
    have hb : |cell nt (V nt) r c| ≤ C / (nt : ℝ) ^ 2 + C / (nt : ℝ) ^ 2 := by
      unfold cell
      refine (abs_add_le _ _).trans (add_le_add ?_ ?_)
      · split_ifs with h
        · exact hC nt _ ((mem_triList nt _).mpr ⟨r, c, Or.inl ⟨h, rfl⟩⟩)
        · rw [abs_zero]; positivity
      · split_ifs with h
        · exact hC nt _ ((mem_triList nt _).mpr ⟨r, c, Or.inr ⟨h, rfl⟩⟩)
        · rw [abs_zero]; positivity
    rw [abs_mul, abs_of_nonneg (by positivity)]
    calc (nt : ℝ) ^ 2 / 2 * |cell nt (V nt) r c| ≤ (nt : ℝ) ^ 2 / 2 * (C / (nt : ℝ) ^ 2 + C / (nt : ℝ) ^ 2) :=
          mul_le_mul_of_nonneg_left hb (by positivity)
      _ = C := by field_simp; ring
  have hcell' : ∀ nt r c : ℕ, |(nt : ℝ) ^ 2 / 2 * cell nt (V nt) r c| ≤ C := by
    intro nt r c
    rcases Nat.eq_zero_or_pos nt with rfl | h
    · simpa using hC0
    · exact hcell nt h r c
  have hsum : ∀ nt : ℕ, 1 ≤ nt → 2 * ∫ q in square, (nt : ℝ) ^ 2 / 2 * cell nt (V nt) ⌊(nt : ℝ) * q.1⌋₊ ⌊(nt : ℝ) * q.2⌋₊
      = ((triList nt).map (V nt)).sum := by
    intro nt hnt
    have hn : (nt : ℝ) ≠ 0 := by
      have : nt ≠ 0 := by omega
      exact_mod_cast this
    rw [integral_square nt hnt (fun r c => (nt : ℝ) ^ 2 / 2 * cell nt (V nt) r c) C (hcell' nt), triList_cells]
    simp only [← Finset.mul_sum]
    field_simp
  have hm := simplex_open.measurableSet
  have hL : ∫ q in simplex, L q = ∫ q in square, simplex.indicator L q := by
    rw [setIntegral_indicator hm, Set.inter_eq_right.mpr simplex_square]
  rw [hL]
  refine Tendsto.congr' (f₁ := fun nt : ℕ => 2 * ∫ q in square,
    (nt : ℝ) ^ 2 / 2 * cell nt (V nt) ⌊(nt : ℝ) * q.1⌋₊ ⌊(nt : ℝ) * q.2⌋₊) ?_ ?_
  · filter_upwards [eventually_ge_atTop 1] with nt hnt using hsum nt hnt
  refine Tendsto.const_mul 2 ?_
  refine tendsto_integral_of_dominated_convergence (fun _ => C) ?_ ?_ ?_ ?_
  · intro n
    exact (step_measurable n fun r c => (n : ℝ) ^ 2 / 2 * cell n (V n) r c).aestronglyMeasurable
  · have hfin : volume square ≠ ⊤ := by
      unfold square
      rw [Measure.volume_eq_prod, Measure.prod_prod]
      simp
    exact integrableOn_const hfin
  · intro n
    exact ae_of_all _ fun q => hcell' n _ _
  have hsq : MeasurableSet square := measurableSet_Ioc.prod measurableSet_Ioc
  filter_upwards [ae_restrict_of_ae hlim, ae_restrict_of_ae line_null, ae_restrict_mem hsq] with q hq hne hmem
  obtain ⟨x, y⟩ := q
  obtain ⟨⟨hx0, hx1⟩, ⟨hy0, hy1⟩⟩ := hmem
  dsimp only at hx0 hx1 hy0 hy1 hne ⊢
  have hfl : ∀ (n : ℕ) (u : ℝ), 0 < u → (⌊(n : ℝ) * u⌋₊ : ℝ) ≤ n * u ∧ (n : ℝ) * u < ⌊(n : ℝ) * u⌋₊ + 1 := by
    intro n u hu
    exact ⟨Nat.floor_le (by positivity), Nat.lt_floor_add_one _⟩
  rcases lt_or_gt_of_ne hne with hlt | hgt
  · have hin : (x, y) ∈ simplex := ⟨hx0, hy0, hlt⟩
    rw [Set.indicator_of_mem hin, Metric.tendsto_atTop]
    intro ε hε
    obtain ⟨N, hN⟩ := hq hin (ε / 2) (by linarith)
    obtain ⟨M, hM⟩ := exists_nat_gt (1 / (1 - x - y))
    refine ⟨max N (max M 1), fun nt hnt => ?_⟩
    have hntN : nt ≥ N := le_trans (le_max_left _ _) hnt
    have hntM : nt ≥ M := le_trans (le_trans (le_max_left _ _) (le_max_right _ _)) hnt
    have hnM : (M : ℝ) ≤ nt := by exact_mod_cast hntM
    obtain ⟨a1, a2⟩ := hfl nt x hx0
    obtain ⟨b1, b2⟩ := hfl nt y hy0
    have hroom : ⌊(nt : ℝ) * x⌋₊ + ⌊(nt : ℝ) * y⌋₊ + 1 < nt := by
      have h1 : 1 < (nt : ℝ) * (1 - x - y) := by
        have := (div_lt_iff₀ (by linarith)).mp (lt_of_lt_of_le hM hnM)
        linarith
      have : ((⌊(nt : ℝ) * x⌋₊ + ⌊(nt : ℝ) * y⌋₊ + 1 : ℕ) : ℝ) < nt := by
        push_cast
        nlinarith
      exact_mod_cast this
    generalize ⌊(nt : ℝ) * x⌋₊ = r at a1 a2 hroom
    generalize ⌊(nt : ℝ) * y⌋₊ = c at b1 b2 hroom
    have near : ∀ i j : ℕ, i ≤ 1 → j ≤ 1 → Near nt (r + i, c + j) (x, y) := by
      intro i j hi hj
      have hi' : (i : ℝ) ≤ 1 := by exact_mod_cast hi
      have hj' : (j : ℝ) ≤ 1 := by exact_mod_cast hj
      have hi0 : (0 : ℝ) ≤ i := Nat.cast_nonneg i
      have hj0 : (0 : ℝ) ≤ j := Nat.cast_nonneg j
      constructor
      · rw [abs_le]
        push_cast
        constructor <;> linarith
      · rw [abs_le]
        push_cast
        constructor <;> linarith
    have u1 := hN nt hntN ((r, c), (r, c + 1), (r + 1, c)) ((mem_triList nt _).mpr ⟨r, c, Or.inl ⟨by omega, rfl⟩⟩)
      (near 0 0 (by omega) (by omega)) (near 0 1 (by omega) (by omega)) (near 1 0 (by omega) (by omega))
    have u2 := hN nt hntN ((r, c + 1), (r + 1, c), (r + 1, c + 1)) ((mem_triList nt _).mpr ⟨r, c, Or.inr ⟨hroom, rfl⟩⟩)
      (near 0 1 (by omega) (by omega)) (near 1 0 (by omega) (by omega)) (near 1 1 (by omega) (by omega))
    unfold cell
    rw [if_pos (by omega), if_pos hroom, Real.dist_eq]
    rw [abs_le] at u1 u2
    have : |(nt : ℝ) ^ 2 / 2 * (V nt ((r, c), (r, c + 1), (r + 1, c)) + V nt ((r, c + 1), (r + 1, c), (r + 1, c + 1))) - L (x, y)|
        ≤ ε / 2 := by
      rw [abs_le]
      constructor <;> linarith [u1.1, u1.2, u2.1, u2.2]
    linarith
  · have hout : (x, y) ∉ simplex := fun h => by
      have := h.2.2
      dsimp only at this
      linarith
    rw [Set.indicator_of_notMem hout]
    obtain ⟨M, hM⟩ := exists_nat_gt (2 / (x + y - 1))
    refine tendsto_const_nhds.congr' ?_
    filter_upwards [eventually_ge_atTop M] with nt hnt
    have hnM : (M : ℝ) ≤ nt := by exact_mod_cast hnt
    obtain ⟨a1, a2⟩ := hfl nt x hx0
    obtain ⟨b1, b2⟩ := hfl nt y hy0
    have hroom : nt ≤ ⌊(nt : ℝ) * x⌋₊ + ⌊(nt : ℝ) * y⌋₊ := by
      have h1 : 2 < (nt : ℝ) * (x + y - 1) := by
        have := (div_lt_iff₀ (by linarith)).mp (lt_of_lt_of_le hM hnM)
        linarith
      have : ((nt : ℕ) : ℝ) < ((⌊(nt : ℝ) * x⌋₊ + ⌊(nt : ℝ) * y⌋₊ : ℕ) : ℝ) := by
        push_cast
        nlinarith
      exact le_of_lt (by exact_mod_cast this)
    unfold cell
    rw [if_neg (by omega), if_neg (by omega)]
    simp

/-- The grid points of the triangles near a point of the simplex are inside it. -/
theorem near_inside (q : ℝ × ℝ) (hq : q ∈ simplex) :
    ∃ N, ∀ nt ≥ N, ∀ p : ℕ × ℕ, Near nt p q → 0 < p.1 ∧ 0 < p.2 ∧ p.1 + p.2 < nt := by
  obtain ⟨h1, h2, h3⟩ := hq
  obtain ⟨M1, hM1⟩ := exists_nat_gt (1 / q.1)
  obtain ⟨M2, hM2⟩ := exists_nat_gt (1 / q.2)
  obtain ⟨M3, hM3⟩ := exists_nat_gt (2 / (1 - q.1 - q.2))
  refine ⟨max M1 (max M2 M3), fun nt hnt p hp => ?_⟩
  have n1 : (M1 : ℝ) ≤ nt := by exact_mod_cast le_trans (le_max_left _ _) hnt
  have n2 : (M2 : ℝ) ≤ nt := by exact_mod_cast le_trans (le_trans (le_max_left _ _) (le_max_right _ _)) hnt
  have n3 : (M3 : ℝ) ≤ nt := by exact_mod_cast le_trans (le_trans (le_max_right _ _) (le_max_right _ _)) hnt
  have a1 := (div_lt_iff₀ h1).mp (lt_of_lt_of_le hM1 n1)
  have a2 := (div_lt_iff₀ h2).mp (lt_of_lt_of_le hM2 n2)
  have a3 := (div_lt_iff₀ (by linarith : 0 < 1 - q.1 - q.2)).mp (lt_of_lt_of_le hM3 n3)
  obtain ⟨p1, p2⟩ := hp
  rw [abs_le] at p1 p2
  refine ⟨?_, ?_, ?_⟩
  · have : (0 : ℝ) < p.1 := by linarith [p1.1]
    exact_mod_cast this
  · have : (0 : ℝ) < p.2 := by linarith [p2.1]
    exact_mod_cast this
  · have : ((p.1 + p.2 : ℕ) : ℝ) < nt := by
      push_cast
      nlinarith [p1.2, p2.2]
    exact_mod_cast this

/-- A function continuous at a point of the simplex, at the grid points near it. -/
theorem near_value (g : ℝ × ℝ → ℝ) (q : ℝ × ℝ) (hg : ContinuousAt g q) (ε : ℝ) (hε : 0 < ε) :
    ∃ N, ∀ nt ≥ N, ∀ p : ℕ × ℕ, Near nt p q → |g ((p.1 : ℝ) / nt, (p.2 : ℝ) / nt) - g q| < ε := by
  obtain ⟨δ, hδ, h⟩ := Metric.continuousAt_iff.mp hg ε hε
  obtain ⟨M, hM⟩ := exists_nat_gt (1 / δ)
  refine ⟨max M 1, fun nt hnt p hp => ?_⟩
  have n1 : (M : ℝ) ≤ nt := by exact_mod_cast le_trans (le_max_left _ _) hnt
  have n0 : (0 : ℝ) < nt := by
    have : 1 ≤ nt := le_trans (le_max_right _ _) hnt
    exact_mod_cast this
  have hd := (div_lt_iff₀ hδ).mp (lt_of_lt_of_le hM n1)
  have key : ∀ x y : ℝ, |x - nt * y| ≤ 1 → dist (x / nt) y < δ := by
    intro x y hxy
    rw [Real.dist_eq, show x / nt - y = (x - nt * y) / nt by field_simp, abs_div, abs_of_pos n0, div_lt_iff₀ n0]
    linarith
  have : dist ((p.1 : ℝ) / nt, (p.2 : ℝ) / nt) q < δ := by
    rw [Prod.dist_eq, max_lt_iff]
    exact ⟨key _ _ hp.1, key _ _ hp.2⟩
  have := h this
  rwa [Real.dist_eq] at this

/-- The intensity that ever denser grids of an octant leave in a bin.  `f` is the frequency and `a` the weight as functions of the
point of the octant; on the border of the octant only bounds are needed. -/
theorem octInterp_limit (F A : ℕ → ℕ → ℝ) (m k : ℤ) (hk0 : 0 ≤ k) (hkm : k < m) (f a : ℝ × ℝ → ℝ) (C : ℝ) (hC0 : 0 ≤ C)
    (hF : ∀ nt, ∀ p : ℕ × ℕ, 0 < p.1 → 0 < p.2 → p.1 + p.2 < nt → F nt (rank nt p) = f ((p.1 : ℝ) / nt, (p.2 : ℝ) / nt))
    (hA : ∀ nt, ∀ p : ℕ × ℕ, 0 < p.1 → 0 < p.2 → p.1 + p.2 < nt →
      (nt : ℝ) ^ 2 * A nt (rank nt p) = a ((p.1 : ℝ) / nt, (p.2 : ℝ) / nt))
    (hAb : ∀ nt, 1 ≤ nt → ∀ p : ℕ × ℕ, p.1 + p.2 ≤ nt → |A nt (rank nt p)| ≤ C / (nt : ℝ) ^ 2)
    (hf : ∀ q ∈ simplex, ContinuousAt f q) (ha : ∀ q ∈ simplex, ContinuousAt a q)
    (hnull : ∀ᵐ q : ℝ × ℝ, q ∈ simplex → f q ≠ k ∧ f q ≠ k + 1)
    (hg : 1 ≤ k ∨ ∀ nt, 1 ≤ nt → ∀ p : ℕ × ℕ, p.1 + p.2 ≤ nt → 0 ≤ F nt (rank nt p)) :
    Tendsto (fun nt => val k (octInterp nt (F nt) (A nt) m)) atTop
      (𝓝 (6 * ∫ q in simplex, if (k : ℝ) ≤ f q ∧ f q < k + 1 then a q else 0)) := by
  set V : ℕ → (ℕ × ℕ) × (ℕ × ℕ) × (ℕ × ℕ) → ℝ := fun nt t =>
    val k (triangle (F nt (rank nt t.1)) (F nt (rank nt t.2.1)) (F nt (rank nt t.2.2))
      (A nt (rank nt t.1) + A nt (rank nt t.2.1) + A nt (rank nt t.2.2)) m) with hV
  have hval : ∀ nt, val k (octInterp nt (F nt) (A nt) m) = ((triList nt).map (V nt)).sum := fun nt =>
    octInterp_val nt (F nt) (A nt) m (by omega) k
  have hpos : ∀ nt t, t ∈ triList nt → 1 ≤ nt := by
    intro nt t ht
    obtain ⟨r, c, ⟨h, _⟩ | ⟨h, _⟩⟩ := (mem_triList nt t).mp ht <;> omega
  have hgeo : ∀ nt t, t ∈ triList nt → (1 ≤ k ∨ (0 ≤ F nt (rank nt t.1) ∧ 0 ≤ F nt (rank nt t.2.1) ∧ 0 ≤ F nt (rank nt t.2.2))) := by
    intro nt t ht
    obtain ⟨b1, b2, b3⟩ := tri_bounds nt t ht
    have hn := hpos nt t ht
    rcases hg with hg | hg
    · exact Or.inl hg
    · exact Or.inr ⟨hg nt hn _ b1, hg nt hn _ b2, hg nt hn _ b3⟩
  have hbound : ∀ nt t, t ∈ triList nt → |V nt t| ≤ (3 * C) / (nt : ℝ) ^ 2 := by
    intro nt t ht
    obtain ⟨b1, b2, b3⟩ := tri_bounds nt t ht
    have hn := hpos nt t ht
    have c1 := abs_le.mp (hAb nt hn _ b1)
    have c2 := abs_le.mp (hAb nt hn _ b2)
    have c3 := abs_le.mp (hAb nt hn _ b3)
    refine (triangle_val _ _ _ _ m k hk0 hkm (hgeo nt t ht)).1.trans ?_
    rw [mul_div_assoc, abs_le]
    constructor <;> linarith [c1.1, c1.2, c2.1, c2.2, c3.1, c3.2]
  have hlim := triangles_limit V (3 * C) hbound (by positivity)
    (fun q => 3 * if (k : ℝ) ≤ f q ∧ f q < k + 1 then a q else 0) (by
      filter_upwards [hnull] with q hq hin ε hε
      obtain ⟨hk1, hk2⟩ := hq hin
      obtain ⟨N1, h1⟩ := near_inside q hin
      obtain ⟨N2, h2⟩ := near_value a q (ha q hin) (ε / 3) (by positivity)
      have hgap : 0 < min |f q - k| |f q - (k + 1)| :=
        lt_min (abs_pos.mpr (sub_ne_zero.mpr hk1)) (abs_pos.mpr (sub_ne_zero.mpr hk2))
      obtain ⟨N3, h3⟩ := near_value f q (hf q hin) _ hgap
      refine ⟨max N1 (max N2 N3), fun nt hnt t ht u1 u2 u3 => ?_⟩
      have l1 : nt ≥ N1 := le_trans (le_max_left _ _) hnt
      have l2 : nt ≥ N2 := le_trans (le_trans (le_max_left _ _) (le_max_right _ _)) hnt
      have l3 : nt ≥ N3 := le_trans (le_trans (le_max_right _ _) (le_max_right _ _)) hnt
      have hn0 : (0 : ℝ) < (nt : ℝ) ^ 2 := by
        have : (0 : ℝ) < nt := by exact_mod_cast hpos nt t ht
        positivity
      have fin : ∀ p : ℕ × ℕ, Near nt p q → |F nt (rank nt p) - f q| < |f q - k| ∧ |F nt (rank nt p) - f q| < |f q - (k + 1)| ∧
          |(nt : ℝ) ^ 2 * A nt (rank nt p) - a q| < ε / 3 := by
        intro p hp
        obtain ⟨i1, i2, i3⟩ := h1 nt l1 p hp
        rw [hF nt p i1 i2 i3, hA nt p i1 i2 i3]
        have := lt_min_iff.mp (h3 nt l3 p hp)
        exact ⟨this.1, this.2, h2 nt l2 p hp⟩
      obtain ⟨x1, y1, z1⟩ := fin _ u1
      obtain ⟨x2, y2, z2⟩ := fin _ u2
      obtain ⟨x3, y3, z3⟩ := fin _ u3
      obtain ⟨_, tin, tout⟩ := triangle_val (F nt (rank nt t.1)) (F nt (rank nt t.2.1)) (F nt (rank nt t.2.2))
        (A nt (rank nt t.1) + A nt (rank nt t.2.1) + A nt (rank nt t.2.2)) m k hk0 hkm (hgeo nt t ht)
      have below : f q < k → ∀ x, |x - f q| < |f q - k| → x < k := by
        intro h x hx
        rw [abs_of_neg (by linarith : (f q - k < 0 : Prop))] at hx
        linarith [(abs_lt.mp hx).2]
      have above : (k : ℝ) < f q → ∀ x, |x - f q| < |f q - k| → k < x := by
        intro h x hx
        rw [abs_of_pos (by linarith : ((0 : ℝ) < f q - k : Prop))] at hx
        linarith [(abs_lt.mp hx).1]
      have below1 : f q < k + 1 → ∀ x, |x - f q| < |f q - (k + 1)| → x < k + 1 := by
        intro h x hx
        rw [abs_of_neg (by linarith : (f q - (k + 1) < 0 : Prop))] at hx
        linarith [(abs_lt.mp hx).2]
      have above1 : (k : ℝ) + 1 < f q → ∀ x, |x - f q| < |f q - (k + 1)| → k + 1 < x := by
        intro h x hx
        rw [abs_of_pos (by linarith : ((0 : ℝ) < f q - (k + 1) : Prop))] at hx
        linarith [(abs_lt.mp hx).1]
      rcases lt_or_gt_of_ne hk1 with h | h
      · rw [if_neg (fun hh => absurd hh.1 (not_le.mpr h))]
        simp only [hV]
        rw [tout (Or.inl ⟨below h _ x1, below h _ x2, below h _ x3⟩)]
        simpa using hε.le
      · rcases lt_or_gt_of_ne hk2 with h' | h'
        · rw [if_pos ⟨h.le, h'⟩]
          simp only [hV]
          rw [tin ⟨above h _ x1, below1 h' _ y1⟩ ⟨above h _ x2, below1 h' _ y2⟩ ⟨above h _ x3, below1 h' _ y3⟩]
          rw [abs_lt] at z1 z2 z3
          rw [abs_le]
          constructor <;> linarith [z1.1, z1.2, z2.1, z2.2, z3.1, z3.2]
        · rw [if_neg (fun hh => absurd hh.2 (not_lt.mpr h'.le))]
          simp only [hV]
          rw [tout (Or.inr ⟨above1 h' _ y1, above1 h' _ y2, above1 h' _ y3⟩)]
          simpa using hε.le)
  simp only [hval]
  rw [integral_const_mul] at hlim
  convert hlim using 2
  ring

/-- The intensity in a bin after the average over octants and sidebands. -/
theorem averaging_val (nt n : ℕ) (vr : List ℝ) (inv off r0 : ℝ) (f a : ℕ → ℝ) (count : ℤ) (hc : 1 ≤ count) (k : ℤ)
    (hd : isDelta nt f = false) :
    val k (averaging1D nt n vr inv off r0 f a count)
      = (vr.zipIdx.map fun s => if inWindow (off + r0 + s.1 * inv) count then
          ((List.range n).map fun j => val k (octInterp nt (fun i => f (j * nPts nt + i) + (off + r0 + s.1 * inv))
            (fun i => a (s.2 * (n * nPts nt) + j * nPts nt + i)) count)).sum else 0).sum := by
  unfold averaging1D
  simp only [hd, Bool.false_eq_true, if_false]
  obtain ⟨u, hu, su⟩ := runCalls_val (vr.zipIdx.flatMap fun s => if inWindow (off + r0 + s.1 * inv) count then
      (List.range n).map fun j => octInterp nt (fun i => f (j * nPts nt + i) + (off + r0 + s.1 * inv))
        (fun i => a (s.2 * (n * nPts nt) + j * nPts nt + i)) count else []) (by
    intro c hcm
    obtain ⟨s, _, hcm⟩ := List.mem_flatMap.mp hcm
    split_ifs at hcm
    · obtain ⟨j, _, rfl⟩ := List.mem_map.mp hcm
      exact octInterp_ok _ _ _ _ hc
    · cases hcm)
  rw [hu]
  change at_ k u = _
  rw [su, sum_flatMap]
  congr 1
  refine List.map_congr_left fun s _ => ?_
  split_ifs
  · rw [List.map_map]
    rfl
  · rfl

theorem averaging_ok (nt n : ℕ) (vr : List ℝ) (inv off r0 : ℝ) (f a : ℕ → ℝ) (count : ℤ) (hc : 1 ≤ count)
    (hd : isDelta nt f = false) : ∃ u, averaging1D nt n vr inv off r0 f a count = .ok u := by
  unfold averaging1D
  simp only [hd, Bool.false_eq_true, if_false]
  obtain ⟨u, hu, _⟩ := runCalls_val (vr.zipIdx.flatMap fun s => if inWindow (off + r0 + s.1 * inv) count then
      (List.range n).map fun j => octInterp nt (fun i => f (j * nPts nt + i) + (off + r0 + s.1 * inv))
        (fun i => a (s.2 * (n * nPts nt) + j * nPts nt + i)) count else []) (by
    intro c hcm
    obtain ⟨s, _, hcm⟩ := List.mem_flatMap.mp hcm
    split_ifs at hcm
    · obtain ⟨j, _, rfl⟩ := List.mem_map.mp hcm
      exact octInterp_ok _ _ _ _ hc
    · cases hcm)
  exact ⟨u, hu⟩

end MRS.Bin
