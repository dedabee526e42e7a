import Verif.Freq.Moments
import Mathlib.Analysis.PSeries

/-!
# A finite number of sidebands — property C117

The code samples the signal of a crystallite at as many moments of a turn of the rotor as it computes sidebands.  The sidebands beyond those
are not lost: they are folded back onto the ones that are computed.  The specification is the Fourier series of the signal.
-/

namespace MRS.Freq

open Complex ComplexConjugate Matrix MeasureTheory

/-! ## Specification -/

/-- The Fourier coefficient of the signal of a crystallite with momentary frequency `f`: the amplitude of sideband `m`. -/
noncomputable def Spec.coefficient (νr : ℝ) (f : ℝ → ℝ) (m : ℤ) : ℂ :=
  (νr : ℂ) * ∫ t in (0 : ℝ)..(1 / νr), exp (((Spec.gathered νr f t - 2 * Real.pi * m * νr * t : ℝ) : ℂ) * I)

/-- The amplitude of sideband `m` with all those that are a multiple of `N` away. -/
noncomputable def Spec.folded (N : ℕ) (νr : ℝ) (f : ℝ → ℝ) (m : ℤ) : ℂ := ∑' k : ℤ, Spec.coefficient νr f (m + k * N)

/-! ## The Fourier series -/

theorem coefficient_coeff (νr : ℝ) (hν : 0 < νr) (f : ℝ → ℝ) (m : ℤ) :
    Spec.coefficient νr f m = fourierCoeffOn (turn_pos νr hν) (signal νr f) m := by
  rw [coeff_integral νr hν]
  unfold Spec.coefficient signal
  have h : ∀ t : ℝ, exp (((Spec.gathered νr f t - 2 * Real.pi * m * νr * t : ℝ) : ℂ) * I)
      = exp (((- (2 * Real.pi * m * νr * t) : ℝ) : ℂ) * I) * exp ((Spec.gathered νr f t : ℂ) * I) := by
    intro t
    rw [← Complex.exp_add]
    congr 1
    push_cast
    ring
  simp only [h]

theorem coefficient_summable (νr : ℝ) (hν : 0 < νr) (f : ℝ → ℝ) (hf : Continuous f) : Summable (Spec.coefficient νr f) := by
  have h2 := (sideband_second νr hν f hf 0).summable
  have h3 : Summable fun k : ℤ => 1 / νr ^ 2 * (1 / (k : ℝ) ^ 2) := (Real.summable_one_div_int_pow.mpr (by norm_num)).mul_left _
  have h4 : Summable fun k : ℤ => if k = 0 then ‖Spec.coefficient νr f 0‖ else 0 := (hasSum_ite_eq 0 _).summable
  refine Summable.of_norm (Summable.of_nonneg_of_le (fun k => norm_nonneg _) (fun k => ?_) (((h2.add h3).mul_left (1 / 2)).add h4))
  have hsb : Spec.sideband νr f k = ‖Spec.coefficient νr f k‖ ^ 2 := rfl
  rw [hsb]
  by_cases hk : k = 0
  · subst hk
    simp
  · rw [if_neg hk]
    have hk' : (k : ℝ) ≠ 0 := by exact_mod_cast hk
    have e : 1 / νr ^ 2 * (1 / (k : ℝ) ^ 2) = (1 / (k * νr)) ^ 2 := by
      field_simp
    rw [e]
    have h5 : ‖Spec.coefficient νr f k‖ = |(k * νr) * ‖Spec.coefficient νr f k‖ * (1 / (k * νr))| := by
      rw [show (k * νr) * ‖Spec.coefficient νr f k‖ * (1 / (k * νr)) = ‖Spec.coefficient νr f k‖ by field_simp, abs_of_nonneg (norm_nonneg _)]
    rw [h5, add_zero]
    generalize hx : (k * νr) * ‖Spec.coefficient νr f k‖ = x
    have h6 : (0 + k * νr) ^ 2 * |x * (1 / (k * νr))| ^ 2 = x ^ 2 := by
      rw [sq_abs]
      field_simp
      ring
    rw [h6, abs_le]
    constructor <;> nlinarith [sq_nonneg (x + 1 / (k * νr)), sq_nonneg (x - 1 / (k * νr))]

/-- The signal is the sum of its Fourier series. -/
theorem signal_series (νr : ℝ) (hν : 0 < νr) (f : ℝ → ℝ) (hf : Continuous f) (t : ℝ) (h0 : 0 ≤ t) (h1 : t < 1 / νr) :
    HasSum (fun k : ℤ => Spec.coefficient νr f k * exp (((2 * Real.pi * k * νr * t : ℝ) : ℂ) * I)) (signal νr f t) := by
  have hT := turn_pos νr hν
  have hT' : Fact (0 < 1 / νr) := ⟨hT⟩
  obtain ⟨e0, e1⟩ := signal_ends νr hν f hf
  let F : C(AddCircle (1 / νr), ℂ) :=
    ⟨AddCircle.liftIco (1 / νr) 0 (signal νr f), AddCircle.liftIco_zero_continuous (e0.trans e1.symm) (signal_continuous νr f hf).continuousOn⟩
  have hc : ∀ k, fourierCoeff F k = Spec.coefficient νr f k := by
    intro k
    change fourierCoeff (AddCircle.liftIco (1 / νr) 0 (signal νr f)) k = _
    rw [fourierCoeff_liftIco_eq, coefficient_coeff νr hν]
    have key : ∀ (b : ℝ) (hb : (0 : ℝ) < b), b = 1 / νr → fourierCoeffOn hb (signal νr f) k = fourierCoeffOn (turn_pos νr hν) (signal νr f) k := by
      rintro b hb rfl
      rfl
    exact key _ _ (zero_add _)
  have hs : Summable (fourierCoeff F) := by
    rw [show (fourierCoeff F : ℤ → ℂ) = Spec.coefficient νr f from funext hc]
    exact coefficient_summable νr hν f hf
  have h := has_pointwise_sum_fourier_series_of_summable hs (t : AddCircle (1 / νr))
  have hv : F (t : AddCircle (1 / νr)) = signal νr f t := by
    change AddCircle.liftIco (1 / νr) 0 (signal νr f) (t : AddCircle (1 / νr)) = _
    exact AddCircle.liftIco_zero_coe_apply ⟨h0, h1⟩
  rw [hv] at h
  have e : (fun k : ℤ => Spec.coefficient νr f k * exp (((2 * Real.pi * k * νr * t : ℝ) : ℂ) * I))
      = fun k : ℤ => fourierCoeff F k • fourier k (t : AddCircle (1 / νr)) := by
    funext k
    rw [hc, fourier_coe_apply, smul_eq_mul]
    congr 2
    push_cast
    have : (νr : ℂ) ≠ 0 := by exact_mod_cast hν.ne'
    field_simp
  rw [e]
  exact h

/-! ## Sampling -/

theorem roots_sum (N : ℕ) (hN : 0 < N) (d : ℤ) :
    ((1 / N : ℝ) : ℂ) * ∑ j ∈ Finset.range N, exp (((2 * Real.pi * d * (j / N) : ℝ) : ℂ) * I) = if (N : ℤ) ∣ d then 1 else 0 := by
  have hN' : (N : ℂ) ≠ 0 := by exact_mod_cast hN.ne'
  set z := exp (((2 * Real.pi * d / N : ℝ) : ℂ) * I) with hz
  have hpow : ∀ j : ℕ, exp (((2 * Real.pi * d * (j / N) : ℝ) : ℂ) * I) = z ^ j := by
    intro j
    rw [hz, ← Complex.exp_nat_mul]
    congr 1
    push_cast
    ring
  simp only [hpow]
  have hzN : z ^ N = 1 := by
    rw [hz, ← Complex.exp_nat_mul]
    rw [show (N : ℂ) * (((2 * Real.pi * d / N : ℝ) : ℂ) * I) = (d : ℂ) * (2 * Real.pi * I) by push_cast; field_simp]
    exact Complex.exp_int_mul_two_pi_mul_I d
  have hz1 : z = 1 ↔ (N : ℤ) ∣ d := by
    rw [hz, Complex.exp_eq_one_iff]
    constructor
    · rintro ⟨n, hn⟩
      refine ⟨n, ?_⟩
      have h1 : ((2 * Real.pi * I : ℂ)) * (d : ℂ) = (2 * Real.pi * I) * ((N : ℂ) * n) := by
        push_cast at hn
        field_simp at hn
        linear_combination I * Real.pi * 2 * hn
      have h2 := mul_left_cancel₀ Complex.two_pi_I_ne_zero h1
      exact_mod_cast h2
    · rintro ⟨n, rfl⟩
      refine ⟨n, ?_⟩
      push_cast
      field_simp
  by_cases h : (N : ℤ) ∣ d
  · rw [if_pos h, hz1.mpr h]
    simp
    field_simp
  · rw [if_neg h]
    have hne : z ≠ 1 := fun e => h (hz1.mp e)
    rw [geom_sum_eq hne, hzN]
    simp

/-- The transform of the samples of a signal. -/
theorem samples_fold (N : ℕ) (hN : 0 < N) (νr : ℝ) (hν : 0 < νr) (f : ℝ → ℝ) (hf : Continuous f) (m : ℤ) :
    HasSum (fun k : ℤ => Spec.coefficient νr f (m + k * N))
      (((1 / N : ℝ) : ℂ) * ∑ j ∈ Finset.range N, exp (((Spec.gathered νr f (j / (N * νr)) - 2 * Real.pi * m * (j / N) : ℝ) : ℂ) * I)) := by
  have hN' : (0 : ℝ) < N := by exact_mod_cast hN
  have h1 : ∀ j ∈ Finset.range N, HasSum (fun k : ℤ => Spec.coefficient νr f k * exp (((2 * Real.pi * (k - m : ℤ) * (j / N) : ℝ) : ℂ) * I))
      (exp (((Spec.gathered νr f (j / (N * νr)) - 2 * Real.pi * m * (j / N) : ℝ) : ℂ) * I)) := by
    intro j hj
    have hj' : (j : ℝ) < N := by exact_mod_cast Finset.mem_range.mp hj
    have h := (signal_series νr hν f hf (j / (N * νr)) (by positivity) (by
      rw [div_lt_div_iff₀ (by positivity) hν]
      nlinarith)).mul_right (exp (((- (2 * Real.pi * m * (j / N)) : ℝ) : ℂ) * I))
    have e1 : signal νr f (j / (N * νr)) * exp (((- (2 * Real.pi * m * (j / N)) : ℝ) : ℂ) * I)
        = exp (((Spec.gathered νr f (j / (N * νr)) - 2 * Real.pi * m * (j / N) : ℝ) : ℂ) * I) := by
      unfold signal
      rw [← Complex.exp_add]
      congr 1
      push_cast
      ring
    have e2 : (fun k : ℤ => Spec.coefficient νr f k * exp (((2 * Real.pi * (k - m : ℤ) * (j / N) : ℝ) : ℂ) * I))
        = fun k : ℤ => Spec.coefficient νr f k * exp (((2 * Real.pi * k * νr * (j / (N * νr)) : ℝ) : ℂ) * I)
          * exp (((- (2 * Real.pi * m * (j / N)) : ℝ) : ℂ) * I) := by
      funext k
      rw [mul_assoc (Spec.coefficient νr f k), ← Complex.exp_add]
      congr 2
      rw [← add_mul, ← ofReal_add]
      congr 2
      push_cast
      field_simp
      ring
    rw [e2, ← e1]
    exact h
  have h2 := (hasSum_sum h1).mul_left ((1 / N : ℝ) : ℂ)
  have e3 : (fun k : ℤ => ((1 / N : ℝ) : ℂ) * ∑ j ∈ Finset.range N, Spec.coefficient νr f k * exp (((2 * Real.pi * (k - m : ℤ) * (j / N) : ℝ) : ℂ) * I))
      = fun k : ℤ => if (N : ℤ) ∣ k - m then Spec.coefficient νr f k else 0 := by
    funext k
    rw [← Finset.mul_sum, mul_left_comm, roots_sum N hN]
    split_ifs <;> simp
  rw [e3] at h2
  have hinj : Function.Injective fun k : ℤ => m + k * N := by
    intro a b hab
    have : a * (N : ℤ) = b * N := by simpa using hab
    exact mul_right_cancel₀ (by exact_mod_cast hN.ne') this
  rw [← hinj.hasSum_iff (f := fun k : ℤ => if (N : ℤ) ∣ k - m then Spec.coefficient νr f k else 0)] at h2
  · have e4 : ((fun k : ℤ => if (N : ℤ) ∣ k - m then Spec.coefficient νr f k else 0) ∘ fun k : ℤ => m + k * N)
        = fun k : ℤ => Spec.coefficient νr f (m + k * N) := by
      funext k
      simp
    rw [e4] at h2
    exact h2
  · intro k hk
    refine if_neg fun ⟨n, hn⟩ => hk ⟨n, ?_⟩
    simp only []
    linarith

/-! ## Signals with finitely many sidebands -/

/-- A sum of finitely many harmonics that has modulus one everywhere is a single harmonic.  Here it is known at `M` points only. -/
theorem single_harmonic (c : ℤ → ℂ) (R : Finset ℤ) (M : ℕ) (hM : 0 < M) (hR : ∀ k ∈ R, ∀ l ∈ R, 2 * |k - l| < M)
    (h1 : ∀ j ∈ Finset.range M, ‖∑ k ∈ R, c k * exp (((2 * Real.pi * k * (j / M) : ℝ) : ℂ) * I)‖ = 1)
    (p q : ℤ) (hp : p ∈ R) (hq : q ∈ R) (hmax : ∀ k ∈ R, c k ≠ 0 → k ≤ p) (hmin : ∀ k ∈ R, c k ≠ 0 → q ≤ k) (hpq : q < p) : c p * conj (c q) = 0 := by
  set e : ℤ → ℕ → ℂ := fun k j => exp (((2 * Real.pi * k * (j / M) : ℝ) : ℂ) * I) with he
  have hconj : ∀ k j, conj (e k j) = e (-k) j := by
    intro k j
    rw [he]
    simp only []
    rw [← Complex.exp_conj, map_mul, Complex.conj_ofReal, Complex.conj_I]
    congr 1
    push_cast
    ring
  have hmul : ∀ k l j, e k j * e l j = e (k + l) j := by
    intro k l j
    rw [he]
    simp only []
    rw [← Complex.exp_add]
    congr 1
    push_cast
    ring
  have hroots : ∀ d : ℤ, ((1 / M : ℝ) : ℂ) * ∑ j ∈ Finset.range M, e d j = if (M : ℤ) ∣ d then 1 else 0 := roots_sum M hM
  -- the samples of `|s|²`, against the harmonic `p - q`
  have hsq : ∀ j ∈ Finset.range M, ∑ k ∈ R, ∑ l ∈ R, c k * conj (c l) * e (k - l) j = 1 := by
    intro j hj
    have h := h1 j hj
    have h2 : (∑ k ∈ R, c k * e k j) * conj (∑ k ∈ R, c k * e k j) = 1 := by
      rw [Complex.mul_conj, Complex.normSq_eq_norm_sq]
      have h' : ‖∑ k ∈ R, c k * e k j‖ = 1 := h
      rw [h']
      norm_num
    rw [map_sum, Finset.sum_mul_sum] at h2
    rw [← h2]
    refine Finset.sum_congr rfl fun k _ => Finset.sum_congr rfl fun l _ => ?_
    rw [map_mul, hconj, sub_eq_add_neg, ← hmul]
    ring
  have hd0 : ¬ (M : ℤ) ∣ -(p - q) := by
    intro ⟨n, hn⟩
    have h := hR p hp q hq
    rw [abs_of_pos (by omega)] at h
    have hn1 : n = -1 ∨ n ≤ -2 ∨ 0 ≤ n := by omega
    rcases hn1 with rfl | hn1 | hn1
    · omega
    · nlinarith
    · nlinarith
  have hzero : ((1 / M : ℝ) : ℂ) * ∑ j ∈ Finset.range M, (∑ k ∈ R, ∑ l ∈ R, c k * conj (c l) * e (k - l) j) * e (-(p - q)) j = 0 := by
    rw [Finset.sum_congr rfl fun j hj => by rw [hsq j hj, one_mul], hroots, if_neg hd0]
  have hexp : ((1 / M : ℝ) : ℂ) * ∑ j ∈ Finset.range M, (∑ k ∈ R, ∑ l ∈ R, c k * conj (c l) * e (k - l) j) * e (-(p - q)) j
      = ∑ k ∈ R, ∑ l ∈ R, c k * conj (c l) * (if (M : ℤ) ∣ (k - l) + -(p - q) then 1 else 0) := by
    simp only [← hroots, Finset.sum_mul, Finset.mul_sum]
    rw [Finset.sum_comm]
    refine Finset.sum_congr rfl fun k _ => ?_
    rw [Finset.sum_comm]
    refine Finset.sum_congr rfl fun l _ => Finset.sum_congr rfl fun j _ => ?_
    rw [← hmul]
    ring
  rw [hexp] at hzero
  rw [Finset.sum_eq_single p, Finset.sum_eq_single q] at hzero
  · simpa using hzero
  · intro l hl hne
    by_cases hc : c l = 0
    · simp [hc]
    · rw [if_neg, mul_zero]
      intro ⟨n, hn⟩
      have := hmin l hl hc
      have hb := hR l hl q hq
      rw [abs_of_nonneg (by omega)] at hb
      have hn1 : n = 0 ∨ n ≤ -1 ∨ 1 ≤ n := by omega
      rcases hn1 with rfl | hn1 | hn1
      · omega
      · nlinarith
      · nlinarith
  · intro h
    exact absurd hq h
  · intro k hk hne
    refine Finset.sum_eq_zero fun l hl => ?_
    by_cases hck : c k = 0
    · simp [hck]
    by_cases hcl : c l = 0
    · simp [hcl]
    rw [if_neg, mul_zero]
    intro ⟨n, hn⟩
    have h2 := hmin l hl hcl
    have h3 := hmax k hk hck
    have h4 := hmin k hk hck
    have h5 := hmax l hl hcl
    have hb := hR p hp q hq
    rw [abs_of_pos (by omega)] at hb
    have hn1 : n = 0 ∨ n ≤ -1 ∨ 1 ≤ n := by omega
    rcases hn1 with rfl | hn1 | hn1
    · omega
    · nlinarith
    · nlinarith
  · intro h
    exact absurd hp h

/-- A signal with finitely many sidebands is that of a constant frequency. -/
theorem finite_constant (νr : ℝ) (hν : 0 < νr) (f : ℝ → ℝ) (hf : Continuous f) (N : ℕ) (m₀ : ℤ)
    (h : ∀ k, k ∉ Finset.Ico m₀ (m₀ + N) → Spec.coefficient νr f k = 0) (t : ℝ) (ht : t ∈ Set.Icc 0 (1 / νr)) : f t = Spec.average νr f := by
  have hT := turn_pos νr hν
  set R := Finset.Ico m₀ (m₀ + N) with hR
  set c := Spec.coefficient νr f with hc
  have hsum : ∀ t : ℝ, 0 ≤ t → t < 1 / νr → signal νr f t = ∑ k ∈ R, c k * exp (((2 * Real.pi * k * νr * t : ℝ) : ℂ) * I) := by
    intro t h0 h1
    refine (signal_series νr hν f hf t h0 h1).unique (hasSum_sum_of_ne_finset_zero fun k hk => ?_)
    rw [← hc, h k hk, zero_mul]
  obtain ⟨e0, -⟩ := signal_ends νr hν f hf
  let S := R.filter fun k => c k ≠ 0
  have hS : S.Nonempty := by
    by_contra hne
    rw [Finset.not_nonempty_iff_eq_empty, Finset.filter_eq_empty_iff] at hne
    have h0 := hsum 0 le_rfl hT
    rw [e0, Finset.sum_eq_zero fun k hk => by rw [not_not.mp (hne hk), zero_mul]] at h0
    exact one_ne_zero h0
  set p := S.max' hS with hp
  set q := S.min' hS with hq
  have hpS : p ∈ S := Finset.max'_mem _ _
  have hqS : q ∈ S := Finset.min'_mem _ _
  have hpR := Finset.mem_filter.mp hpS
  have hqR := Finset.mem_filter.mp hqS
  have hle : q ≤ p := Finset.min'_le _ _ hpS
  have hpq : q = p := by
    by_contra hne
    have h0 := single_harmonic c R (2 * N + 1) (by omega) (by
      intro k hk l hl
      rw [hR, Finset.mem_Ico] at hk hl
      have : |k - l| < N := by rw [abs_lt]; constructor <;> omega
      push_cast
      omega) (by
      intro j hj
      have hj' : (j : ℝ) < ((2 * N + 1 : ℕ) : ℝ) := by exact_mod_cast Finset.mem_range.mp hj
      have hM : (0 : ℝ) < ((2 * N + 1 : ℕ) : ℝ) := by positivity
      rw [← signal_norm νr f (j / (((2 * N + 1 : ℕ) : ℝ) * νr)), hsum _ (by positivity) (by
        rw [div_lt_div_iff₀ (by positivity) hν]
        nlinarith)]
      congr 1
      refine Finset.sum_congr rfl fun k _ => ?_
      congr 4
      field_simp) p q hpR.1 hqR.1
      (fun k hk hk0 => Finset.le_max' _ _ (Finset.mem_filter.mpr ⟨hk, hk0⟩))
      (fun k hk hk0 => Finset.min'_le _ _ (Finset.mem_filter.mpr ⟨hk, hk0⟩)) (lt_of_le_of_ne hle hne)
    rcases mul_eq_zero.mp h0 with h0 | h0
    · exact hpR.2 h0
    · exact hqR.2 ((map_eq_zero _).mp h0)
  have hone : ∀ t : ℝ, 0 ≤ t → t < 1 / νr → signal νr f t = c p * exp (((2 * Real.pi * p * νr * t : ℝ) : ℂ) * I) := by
    intro t h0 h1
    rw [hsum t h0 h1]
    refine Finset.sum_eq_single p (fun k hk hne => ?_) fun hn => absurd hpR.1 hn
    by_cases hk0 : c k = 0
    · rw [hk0, zero_mul]
    · have hkS : k ∈ S := Finset.mem_filter.mpr ⟨hk, hk0⟩
      have h1 : k ≤ p := Finset.le_max' _ _ hkS
      have h2 : q ≤ k := Finset.min'_le _ _ hkS
      exact absurd (le_antisymm h1 (hpq ▸ h2)) hne
  have hopen : Set.EqOn f (fun _ => Spec.average νr f + p * νr) (Set.Ioo 0 (1 / νr)) := by
    intro t ht
    have hd1 := signal_deriv νr f hf t
    have hd2 : HasDerivAt (fun t : ℝ => c p * exp (((2 * Real.pi * p * νr * t : ℝ) : ℂ) * I))
        (c p * (exp (((2 * Real.pi * p * νr * t : ℝ) : ℂ) * I) * (((2 * Real.pi * p * νr : ℝ) : ℂ) * I))) t := by
      have h1 : HasDerivAt (fun t : ℝ => 2 * Real.pi * p * νr * t) (2 * Real.pi * p * νr) t := by
        have h1 := (hasDerivAt_id t).const_mul (2 * Real.pi * p * νr)
        rw [mul_one] at h1
        exact h1
      exact ((h1.ofReal_comp.mul_const I).cexp).const_mul (c p)
    have heq : signal νr f =ᶠ[nhds t] fun t : ℝ => c p * exp (((2 * Real.pi * p * νr * t : ℝ) : ℂ) * I) := by
      filter_upwards [Ioo_mem_nhds ht.1 ht.2] with s hs
      exact hone s hs.1.le hs.2
    have h1 := hd1.unique (hd2.congr_of_eventuallyEq heq)
    rw [hone t ht.1.le ht.2] at h1
    have hne : c p * exp (((2 * Real.pi * p * νr * t : ℝ) : ℂ) * I) ≠ 0 := mul_ne_zero hpR.2 (Complex.exp_ne_zero _)
    have h2 : (2 * Real.pi * I * (c p * exp (((2 * Real.pi * p * νr * t : ℝ) : ℂ) * I))) * ((f t - Spec.average νr f : ℝ) : ℂ)
        = (2 * Real.pi * I * (c p * exp (((2 * Real.pi * p * νr * t : ℝ) : ℂ) * I))) * ((p * νr : ℝ) : ℂ) := by
      calc _ = 2 * Real.pi * I * (((f t - Spec.average νr f : ℝ) : ℂ) * (c p * exp (((2 * Real.pi * p * νr * t : ℝ) : ℂ) * I))) := by ring
        _ = _ := h1
        _ = _ := by
          push_cast
          ring
    have h3 := mul_left_cancel₀ (mul_ne_zero Complex.two_pi_I_ne_zero hne) h2
    have h4 : f t - Spec.average νr f = p * νr := by exact_mod_cast h3
    change f t = Spec.average νr f + p * νr
    linarith
  have hclosed : Set.EqOn f (fun _ => Spec.average νr f + p * νr) (Set.Icc 0 (1 / νr)) := by
    have h1 := hopen.closure hf continuous_const
    rwa [closure_Ioo hT.ne] at h1
  have havg : Spec.average νr f = Spec.average νr f + p * νr := by
    conv_lhs => unfold Spec.average
    rw [intervalIntegral.integral_congr (g := fun _ => Spec.average νr f + p * νr) (by rw [Set.uIcc_of_le hT.le]; exact hclosed),
      intervalIntegral.integral_const, smul_eq_mul, sub_zero, ← mul_assoc, mul_one_div_cancel hν.ne', one_mul]
  rw [hclosed ht]
  exact havg.symm

/-- A constant frequency has no sidebands. -/
theorem constant_coefficient (νr : ℝ) (hν : 0 < νr) (f : ℝ → ℝ) (h : ∀ t ∈ Set.Icc 0 (1 / νr), f t = Spec.average νr f) (m : ℤ) :
    Spec.coefficient νr f m = if m = 0 then 1 else 0 := by
  have hT := turn_pos νr hν
  have hg : ∀ t ∈ Set.uIcc 0 (1 / νr), Spec.gathered νr f t = 0 := by
    intro t ht
    rw [Set.uIcc_of_le hT.le] at ht
    unfold Spec.gathered
    rw [intervalIntegral.integral_congr (g := fun _ => 0) fun τ hτ => ?_]
    · simp
    · rw [Set.uIcc_of_le ht.1] at hτ
      change f τ - Spec.average νr f = 0
      rw [h τ ⟨hτ.1, hτ.2.trans ht.2⟩, sub_self]
  have h1 : Spec.coefficient νr f m = fourierCoeffOn (turn_pos νr hν) (fun _ => (1 : ℂ)) m := by
    rw [coeff_integral νr hν]
    unfold Spec.coefficient
    congr 1
    refine intervalIntegral.integral_congr fun t ht => ?_
    rw [hg t ht, mul_one, zero_sub]
  rw [h1, coeff_integral νr hν]
  by_cases hm : m = 0
  · subst hm
    simp
    have : (νr : ℂ) ≠ 0 := by exact_mod_cast hν.ne'
    field_simp
  · rw [if_neg hm]
    have hm' : (m : ℂ) ≠ 0 := by exact_mod_cast hm
    have hν' : (νr : ℂ) ≠ 0 := by exact_mod_cast hν.ne'
    have hc : (-(2 * Real.pi * m * νr) * I : ℂ) ≠ 0 := by
      have := Real.pi_ne_zero
      simp [hm', hν']
    have e : ∀ t : ℝ, exp (((- (2 * Real.pi * m * νr * t) : ℝ) : ℂ) * I) * (1 : ℂ) = exp ((-(2 * Real.pi * m * νr) * I : ℂ) * t) := by
      intro t
      rw [mul_one]
      congr 1
      push_cast
      ring
    simp only [e]
    rw [integral_exp_mul_complex hc]
    have h2 : (-(2 * Real.pi * m * νr) * I : ℂ) * ((1 / νr : ℝ) : ℂ) = ((-m : ℤ) : ℂ) * (2 * Real.pi * I) := by
      push_cast
      field_simp
    rw [h2, Complex.exp_int_mul_two_pi_mul_I]
    simp

/-- Sums over a window of `N` integers are sums over the residues. -/
theorem window_sum (N : ℕ) [NeZero N] (m₀ : ℤ) (g : ZMod N → ℝ) : ∑ m ∈ Finset.Ico m₀ (m₀ + N), g (m : ZMod N) = ∑ z, g z := by
  have hinj : Set.InjOn (fun m : ℤ => (m : ZMod N)) (Finset.Ico m₀ (m₀ + N)) := by
    intro a ha b hb hab
    have hab' : (a : ZMod N) = (b : ZMod N) := hab
    rw [ZMod.intCast_eq_intCast_iff_dvd_sub] at hab'
    obtain ⟨n, hn⟩ := hab'
    simp only [Finset.coe_Ico, Set.mem_Ico] at ha hb
    have hn1 : n = 0 ∨ n ≤ -1 ∨ 1 ≤ n := by omega
    rcases hn1 with rfl | hn1 | hn1
    · omega
    · nlinarith
    · nlinarith
  rw [← Finset.sum_image (g := fun m : ℤ => (m : ZMod N)) (f := g) hinj]
  congr 1
  refine Finset.eq_univ_of_card _ ?_
  rw [Finset.card_image_of_injOn hinj, Int.card_Ico, ZMod.card]
  omega

/-! ## Theorems -/

/-- The sidebands that the code computes of a crystallite, `N` of them, are those of the signal with all the others folded back: the intensity of
sideband `m` is that of the sum of the amplitudes of the sidebands `m + k N`.  Partial: with the numbers that the decimals of the tables stand
for, and with non-negative second Euler angles (C71). -/
theorem C117_folding_partial (four : Bool) (N : ℕ) [NeZero N] (B0 α β θ νr : ℝ) (hν : 0 < νr) (ss : List Site)
    (ks : List Coupling) (xi xf : List ℕ) (hi : Spec.IsState ss xi) (hf : Spec.IsState ss xf)
    (hs : ∀ s ∈ ss, s.Upright ∧ 1 ≤ s.n) (hk : ∀ k ∈ ks, k.Upright ∧ k.A < ss.length ∧ k.X < ss.length) (m : ℤ) :
    let f := Spec.momentary four B0 α β θ νr ss ks xi xf
    Summable (fun k : ℤ => Spec.coefficient νr f (m + k * N)) ∧
    Sim.sidebandAmps (fun j : ZMod N => crystalPhase WC.exact four N νr (Real.cos β) (Real.sin β) (exp (α * I)) (Real.cos θ) (Real.sin θ)
        (components WC.exact TC.exact four B0 ss ks (Spec.quantum ss xi) (Spec.quantum ss xf)) j.val) (m : ZMod N) / (N : ℝ) ^ 2
      = ‖Spec.folded N νr f m‖ ^ 2 := by
  intro f
  have hN : 0 < N := Nat.pos_of_ne_zero (NeZero.ne N)
  have hc : Continuous f := momentary_continuous four B0 α β θ νr ss ks xi xf
  have h := samples_fold N hN νr hν f hc m
  refine ⟨h.summable, ?_⟩
  have hphase : (fun j : ZMod N =>
      crystalPhase WC.exact four N νr (Real.cos β) (Real.sin β) (exp (α * I)) (Real.cos θ) (Real.sin θ)
            (components WC.exact TC.exact four B0 ss ks (Spec.quantum ss xi) (Spec.quantum ss xf)) j.val)
      = fun j : ZMod N => Spec.gathered νr f (j.val / (N * νr)) := by
    funext j
    exact C75_phase_partial four N hN B0 α β θ νr hν ss ks xi xf hi hf hs hk j.val
  rw [hphase, amps_samples N (fun k => Spec.gathered νr f (k / (N * νr))) m]
  unfold Spec.folded
  rw [h.tsum_eq]

/-- The sidebands that the code computes, any `N` successive ones around the centre band, have their own intensities if and only if the frequency
of the crystallite does not change as the rotor turns, and then there are none.  Partial: as before. -/
theorem C117_exact_partial (four : Bool) (N : ℕ) [NeZero N] (m₀ : ℤ) (h0 : m₀ ≤ 0) (h1 : 0 < m₀ + N) (B0 α β θ νr : ℝ) (hν : 0 < νr)
    (ss : List Site) (ks : List Coupling) (xi xf : List ℕ) (hi : Spec.IsState ss xi) (hf : Spec.IsState ss xf)
    (hs : ∀ s ∈ ss, s.Upright ∧ 1 ≤ s.n) (hk : ∀ k ∈ ks, k.Upright ∧ k.A < ss.length ∧ k.X < ss.length) :
    let f := Spec.momentary four B0 α β θ νr ss ks xi xf
    (∀ m : ℤ, m₀ ≤ m → m < m₀ + N →
      Sim.sidebandAmps (fun j : ZMod N => crystalPhase WC.exact four N νr (Real.cos β) (Real.sin β) (exp (α * I)) (Real.cos θ) (Real.sin θ)
        (components WC.exact TC.exact four B0 ss ks (Spec.quantum ss xi) (Spec.quantum ss xf)) j.val) (m : ZMod N) / (N : ℝ) ^ 2
      = Spec.sideband νr f m) ↔ ∀ t ∈ Set.Icc 0 (1 / νr), f t = Spec.average νr f := by
  intro f
  have hN : (0 : ℝ) < N := by exact_mod_cast Nat.pos_of_ne_zero (NeZero.ne N)
  have hc : Continuous f := momentary_continuous four B0 α β θ νr ss ks xi xf
  constructor
  · intro h
    refine finite_constant νr hν f hc N m₀ fun k hk => ?_
    set R := Finset.Ico m₀ (m₀ + N) with hR
    have hsum : ∑ m ∈ R, Spec.sideband νr f m = 1 := by
      rw [Finset.sum_congr rfl fun m hm => (h m (Finset.mem_Ico.mp hm).1 (Finset.mem_Ico.mp hm).2).symm, ← Finset.sum_div,
        window_sum N m₀ (Sim.sidebandAmps _), Sim.sum_sidebandAmps, div_self (by positivity)]
    have hz := sideband_zeroth νr hν f hc
    have hle := sum_le_hasSum (insert k R) (fun m _ => by
      change 0 ≤ ‖_‖ ^ 2
      positivity) hz
    rw [Finset.sum_insert hk, hsum] at hle
    have hk0 : Spec.sideband νr f k = ‖Spec.coefficient νr f k‖ ^ 2 := rfl
    rw [hk0] at hle
    have : ‖Spec.coefficient νr f k‖ ^ 2 ≤ 0 := by linarith
    exact norm_eq_zero.mp (pow_eq_zero_iff two_ne_zero |>.mp (le_antisymm this (by positivity)))
  · intro h m hm0 hm1
    rw [(C117_folding_partial four N B0 α β θ νr hν ss ks xi xf hi hf hs hk m).2]
    change ‖Spec.folded N νr f m‖ ^ 2 = ‖Spec.coefficient νr f m‖ ^ 2
    congr 2
    unfold Spec.folded
    refine tsum_eq_single (0 : ℤ) (fun k hk0 => ?_) |>.trans (by simp)
    rw [constant_coefficient νr hν f h, if_neg]
    intro hz
    have hk1 : k ≤ -1 ∨ 1 ≤ k := by omega
    rcases hk1 with hk1 | hk1 <;> nlinarith

theorem spun_field (θ νr τ : ℝ) : Spec.field (Spec.spun 0 (Real.pi / 2) θ νr τ)
    = ![Real.cos θ, -(Real.sin (2 * Real.pi * νr * τ) * Real.sin θ), -(Real.cos (2 * Real.pi * νr * τ) * Real.sin θ)] := by
  unfold Spec.field Spec.spun
  funext i
  fin_cases i <;> simp [Spec.Rz, Spec.Ry, Matrix.mulVec, Matrix.mul_apply, dotProduct, Fin.sum_univ_three]

theorem half_momentary (B0 γ δ ζ α β θ νr τ : ℝ) :
    Spec.momentary true B0 α β θ νr [⟨1, γ, δ, ζ, 0, ⟨0, 0, 0⟩, 0, 0, ⟨0, 0, 0⟩⟩] [] [1] [0] τ
      = B0 * γ * (δ - Spec.along (Spec.haeberlen ζ 0) (Spec.seen ⟨0, 0, 0⟩ (Spec.field (Spec.spun α β θ νr τ)))) := by
  unfold Spec.momentary Spec.energy
  simp only [List.zipWith_cons_cons, List.zipWith_nil_left, List.sum_cons, List.sum_nil, List.map_nil, add_zero]
  unfold Spec.siteEnergy
  rw [if_pos le_rfl, if_pos le_rfl]
  have m0 : Spec.mag 1 (Fin.ofNat (1 + 1) 0) = -(1 / 2) := by
    unfold Spec.mag
    simp
  have m1 : Spec.mag 1 (Fin.ofNat (1 + 1) 1) = 1 / 2 := by
    unfold Spec.mag
    simp
    norm_num
  rw [m0, m1]
  ring

/-- However many sidebands are computed, they do not all have their own intensities: the site is any of spin 1/2 with an axial shift tensor along
an axis of the crystal, and the crystallite lies at a right angle to the rotor. -/
theorem C117_counterexample (N : ℕ) [NeZero N] (m₀ : ℤ) (h0 : m₀ ≤ 0) (h1 : 0 < m₀ + N) (B0 γ δ ζ θ νr : ℝ) (hν : 0 < νr) (hB : B0 ≠ 0) (hγ : γ ≠ 0)
    (hζ : ζ ≠ 0) (hθ : Real.sin θ ≠ 0) :
    let s : Site := ⟨1, γ, δ, ζ, 0, ⟨0, 0, 0⟩, 0, 0, ⟨0, 0, 0⟩⟩
    ∃ m : ℤ, m₀ ≤ m ∧ m < m₀ + N ∧
      Sim.sidebandAmps (fun j : ZMod N => crystalPhase WC.exact true N νr (Real.cos (Real.pi / 2)) (Real.sin (Real.pi / 2)) (exp ((0 : ℝ) * I))
        (Real.cos θ) (Real.sin θ) (components WC.exact TC.exact true B0 [s] [] (Spec.quantum [s] [1]) (Spec.quantum [s] [0])) j.val) (m : ZMod N)
          / (N : ℝ) ^ 2
      ≠ Spec.sideband νr (Spec.momentary true B0 0 (Real.pi / 2) θ νr [s] [] [1] [0]) m := by
  intro s
  by_contra hcon
  push Not at hcon
  have h := (C117_exact_partial true N m₀ h0 h1 B0 0 (Real.pi / 2) θ νr hν [s] [] [1] [0] (.cons (by simp [s]) .nil) (.cons (by simp [s]) .nil)
    (by simp [s, Site.Upright]) (by simp)).mp hcon
  have e := half_momentary B0 γ δ ζ 0 (Real.pi / 2) θ νr
  have ha := h 0 ⟨le_rfl, (turn_pos νr hν).le⟩
  have hb := h (1 / (4 * νr)) ⟨by positivity, by
    rw [div_le_div_iff₀ (by positivity) hν]
    nlinarith⟩
  have hab := ha.trans hb.symm
  rw [e, e, spun_field, spun_field] at hab
  have hx : 2 * Real.pi * νr * (1 / (4 * νr)) = Real.pi / 2 := by
    field_simp
    ring
  rw [hx, mul_zero, Real.sin_zero, Real.cos_zero, Real.sin_pi_div_two, Real.cos_pi_div_two] at hab
  have h2 := mul_left_cancel₀ (mul_ne_zero hB hγ) hab
  simp [Spec.along, Spec.seen, Spec.euler, Spec.Rz, Spec.Ry, Spec.haeberlen, Matrix.mulVec, dotProduct, Fin.sum_univ_three,
    Matrix.diagonal_apply] at h2
  rcases h2 with h2 | h2
  · exact hζ (by linarith)
  · exact hθ h2

/-- Eight sidebands of the pair of `exampleSites` at a speed of 10 kHz, whose second site has a quadrupole moment. -/
example (θ : ℝ) (m : ℤ) :=
  C117_folding_partial true 8 9.4 2 1 θ 10000 (by norm_num) exampleSites [exampleCoupling] [0, 3] [0, 2]
    (by unfold Spec.IsState exampleSites; simp) (by unfold Spec.IsState exampleSites; simp)
    (by
      unfold exampleSites Site.Upright
      intro s hs
      simp only [List.mem_cons, List.not_mem_nil, or_false] at hs
      rcases hs with rfl | rfl <;> norm_num)
    (by
      unfold exampleSites exampleCoupling Coupling.Upright
      intro k hk
      simp only [List.mem_cons, List.not_mem_nil, or_false] at hk
      subst hk
      norm_num) m

/-- The 64 sidebands from -32 to 31 of a carbon-13 site with an anisotropy of 100 ppm at 9.4 T and the rotor at a right angle to the field. -/
example := C117_counterexample 64 (-32) (by norm_num) (by norm_num) 9.4 10.7 20 100 (Real.pi / 2) 1000 (by norm_num) (by norm_num) (by norm_num)
  (by norm_num) (by simp)

/-- A site without anisotropy meets the condition of `C117_exact_partial`. -/
example (B0 γ δ α β θ νr : ℝ) (hν : 0 < νr) :
    let f := Spec.momentary true B0 α β θ νr [⟨1, γ, δ, 0, 0, ⟨0, 0, 0⟩, 0, 0, ⟨0, 0, 0⟩⟩] [] [1] [0]
    ∀ t ∈ Set.Icc 0 (1 / νr), f t = Spec.average νr f := by
  intro f t _
  have e : f = fun _ => B0 * γ * δ := by
    funext τ
    refine (half_momentary B0 γ δ 0 α β θ νr τ).trans ?_
    rw [show Spec.haeberlen 0 0 = 0 by ext i j; fin_cases i <;> fin_cases j <;> simp [Spec.haeberlen]]
    simp [Spec.along]
  rw [e]
  unfold Spec.average
  rw [intervalIntegral.integral_const, smul_eq_mul, sub_zero, ← mul_assoc, mul_one_div_cancel hν.ne', one_mul]

end MRS.Freq
