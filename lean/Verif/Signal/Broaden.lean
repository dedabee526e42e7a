import Verif.Signal.Shear
import Verif.Signal.Apod
import Mathlib.Analysis.SpecialFunctions.Trigonometric.Cotangent

/-!
# Line broadening — property C122

`[IFFT(dim_index=d), Exponential(FWHM=w, dim_index=d, dv_index=v), FFT(dim_index=d)]`, and the same with `Gaussian`
(src/mrsimulator/signal_processing/apodization.py lines 40-62, 108-114, 152-154, __init__.py lines 74-90, 127-168): the usual way to
broaden the lines of a spectrum. The Fourier transform of the library enters as a hypothesis (`Spec.Forward`, `Spec.Backward`, as in
C92), with time zero at the position `n // 2` where csdmpy has it.
-/

namespace MRS.Signal

open Finset Complex

/-! ## Specification -/

/-- The Lorentzian of a full width at half maximum, with area one. -/
noncomputable def Spec.lorentz (w ν : ℝ) : ℝ := w / 2 / Real.pi / (ν ^ 2 + (w / 2) ^ 2)

/-- The Lorentzian on an axis of a given length that is joined at its ends. -/
noncomputable def Spec.wrapped (w len ν : ℝ) : ℝ := ∑' m : ℤ, Spec.lorentz w (ν + m * len)

/-- A line of width `ω` on a spectrum with coordinates `x`: what a point contributes to another, as a function of their distance. It is
even, positive, adds up to one, and is the Lorentzian of that width, wrapped, up to a factor. -/
structure Spec.Line (n : ℕ) (x : Dim) (ω : ℝ) (K : ℝ → ℝ) : Prop where
  even : ∀ ν, K (-ν) = K ν
  pos : ∀ i, i < n → ∀ j, j < n → 0 < K (Spec.at x i - Spec.at x j)
  area : ∀ i, i < n → ∑ j ∈ range n, K (Spec.at x i - Spec.at x j) = 1
  converges : ∀ ν, Summable fun m : ℤ => Spec.lorentz ω (ν + m * (n * |x.increment|))
  shape : ∀ i, i < n → ∀ j, j < n →
    |K (Spec.at x i - Spec.at x j) - |x.increment| * Spec.wrapped ω (n * |x.increment|) (Spec.at x i - Spec.at x j)| ≤
      Real.exp (-(Real.pi * ω / (2 * |x.increment|))) *
        (|x.increment| * Spec.wrapped ω (n * |x.increment|) (Spec.at x i - Spec.at x j))

/-! ## The Lorentzian wrapped around an axis -/

theorem cot_im (x a : ℝ) (ha : 0 < a) : HasSum (fun m : ℤ => a / ((x + m) ^ 2 + a ^ 2))
    (-(Real.pi * Complex.cot (Real.pi * (x + a * I))).im) := by
  set z : ℂ := x + a * I with hz
  have hzi : z.im = a := by simp [hz]
  have hzr : z.re = x := by simp [hz]
  have hmem : z ∈ Complex.integerComplement := by
    rintro ⟨m, hm⟩
    have := congrArg Complex.im hm
    rw [hzi] at this
    simp at this
    exact ha.ne this
  have key : ∀ m : ℤ, a / ((x + m) ^ 2 + a ^ 2) = -(1 / (z + m)).im := by
    intro m
    rw [one_div, Complex.inv_im, Complex.normSq_apply]
    simp only [add_im, add_re, hzi, hzr, intCast_re, intCast_im, add_zero]
    rw [neg_div, neg_neg]
    congr 1
    ring
  have hpos : ∀ m : ℤ, 0 ≤ a / ((x + m) ^ 2 + a ^ 2) := fun m => by positivity
  have hs := (summable_cotTerm hmem).hasSum
  rw [← cot_series_rep' hmem] at hs
  have hs2 := (Complex.hasSum_im hs).neg
  have e : ∀ n : ℕ, -(cotTerm z n).im = a / ((x + ((n : ℤ) + 1 : ℤ)) ^ 2 + a ^ 2) + a / ((x + (-((n : ℤ) + 1) : ℤ)) ^ 2 + a ^ 2) := by
    intro n
    rw [key, key, cotTerm, add_im]
    push_cast
    rw [sub_eq_add_neg]
    ring
  simp only [e] at hs2
  have s1 : Summable fun n : ℕ => a / ((x + ((n : ℤ) + 1 : ℤ)) ^ 2 + a ^ 2) :=
    Summable.of_nonneg_of_le (fun n => hpos _) (fun n => le_add_of_nonneg_right (hpos _)) hs2.summable
  have s2 : Summable fun n : ℕ => a / ((x + (-((n : ℤ) + 1) : ℤ)) ^ 2 + a ^ 2) :=
    Summable.of_nonneg_of_le (fun n => hpos _) (fun n => le_add_of_nonneg_left (hpos _)) hs2.summable
  have h3 := s1.hasSum.add s2.hasSum
  have h4 := hs2.unique h3
  have h5 := HasSum.of_add_one_of_neg_add_one (f := fun m : ℤ => a / ((x + m) ^ 2 + a ^ 2)) s1.hasSum s2.hasSum
  convert h5 using 1
  have h0 := key 0
  simp only [Int.cast_zero, add_zero] at h0 ⊢
  rw [h0]
  simp only [sub_im] at h4
  linear_combination h4

theorem cot_im_eq (x a : ℝ) (ha : 0 < a) : -(Real.pi * Complex.cot (Real.pi * (x + a * I))).im =
    Real.pi * ((1 - Real.exp (-(2 * Real.pi * a)) ^ 2) /
      (1 - 2 * Real.exp (-(2 * Real.pi * a)) * Real.cos (2 * Real.pi * x) + Real.exp (-(2 * Real.pi * a)) ^ 2)) := by
  set r := Real.exp (-(2 * Real.pi * a)) with hr
  have hr1 : r < 1 := by rw [hr, Real.exp_lt_one_iff]; have := Real.pi_pos; nlinarith [mul_pos this ha]
  have hr0 : 0 < r := Real.exp_pos _
  have hq : Complex.exp (2 * Real.pi * I * (x + a * I)) = r * (Real.cos (2 * Real.pi * x) + Real.sin (2 * Real.pi * x) * I) := by
    rw [hr, Complex.ofReal_exp, Complex.ofReal_cos, Complex.ofReal_sin, ← Complex.exp_mul_I, ← Complex.exp_add]
    congr 1
    push_cast
    linear_combination (2 * Real.pi * a : ℂ) * I_sq
  rw [Complex.cot_pi_eq_exp_ratio, hq]
  set c := Real.cos (2 * Real.pi * x)
  set d := Real.sin (2 * Real.pi * x)
  have hcd : c ^ 2 + d ^ 2 = 1 := Real.cos_sq_add_sin_sq _
  have hD : 0 < 1 - 2 * r * c + r ^ 2 := by
    have : c ≤ 1 := Real.cos_le_one _
    nlinarith [sq_nonneg (1 - r), mul_pos hr0 (sub_pos.mpr hr1)]
  have hne : (1 - (r : ℂ) * (c + d * I)) ≠ 0 := by
    intro h
    have h1 := congrArg Complex.re h
    have h2 := congrArg Complex.im h
    simp at h1 h2
    have hd0 : d = 0 := by rcases h2 with h | h; · exact absurd h hr0.ne'
                           · exact h
    nlinarith
  have : (Real.pi : ℂ) * ((r * (c + d * I) + 1) / (I * (1 - r * (c + d * I)))) =
      Real.pi * ((2 * r * d / (1 - 2 * r * c + r ^ 2) : ℝ) - ((1 - r ^ 2) / (1 - 2 * r * c + r ^ 2) : ℝ) * I) := by
    congr 1
    rw [div_eq_iff (mul_ne_zero I_ne_zero hne)]
    have hDc : ((1 - 2 * r * c + r ^ 2 : ℝ) : ℂ) ≠ 0 := by exact_mod_cast hD.ne'
    have hcd' : (c : ℂ) ^ 2 + d ^ 2 = 1 := by exact_mod_cast hcd
    rw [Complex.ofReal_div, Complex.ofReal_div, div_mul_eq_mul_div, ← sub_div, div_mul_eq_mul_div, eq_div_iff hDc]
    push_cast
    linear_combination (2 * (r : ℂ) ^ 2 * d ^ 2 + (1 - (r : ℂ) ^ 2) * (1 - r * (c + d * I))) * I_sq - 2 * (r : ℂ) ^ 2 * hcd'
  rw [this, Complex.im_ofReal_mul]
  simp only [sub_im, mul_im, ofReal_im, ofReal_re, I_im, I_re]
  ring

/-- The wrapped Lorentzian in closed form. -/
theorem wrapped_eq (w len ν : ℝ) (hw : 0 < w) (hl : 0 < len) :
    Summable (fun m : ℤ => Spec.lorentz w (ν + m * len)) ∧
    Spec.wrapped w len ν * len = (1 - Real.exp (-(Real.pi * w / len)) ^ 2) /
      (1 - 2 * Real.exp (-(Real.pi * w / len)) * Real.cos (2 * Real.pi * (ν / len)) + Real.exp (-(Real.pi * w / len)) ^ 2) := by
  have h := cot_im (ν / len) (w / 2 / len) (by positivity)
  rw [cot_im_eq _ _ (by positivity)] at h
  have he : 2 * Real.pi * (w / 2 / len) = Real.pi * w / len := by field_simp
  rw [he] at h
  have e : ∀ m : ℤ, Spec.lorentz w (ν + m * len) = (Real.pi * len)⁻¹ * (w / 2 / len / ((ν / len + m) ^ 2 + (w / 2 / len) ^ 2)) := by
    intro m
    unfold Spec.lorentz
    have : (ν + m * len) ^ 2 + (w / 2) ^ 2 = len ^ 2 * ((ν / len + m) ^ 2 + (w / 2 / len) ^ 2) := by field_simp
    rw [this]
    have h1 : (ν / len + m) ^ 2 + (w / 2 / len) ^ 2 ≠ 0 := by positivity
    have := Real.pi_pos.ne'
    field_simp
  have h2 := h.mul_left (Real.pi * len)⁻¹
  simp only [← e] at h2
  refine ⟨h2.summable, ?_⟩
  unfold Spec.wrapped
  rw [h2.tsum_eq]
  have := Real.pi_pos.ne'
  field_simp

/-! ## Sum over the times -/

theorem two_sided (n : ℕ) (hn : 0 < n) (ρ : ℝ) (h0 : 0 < ρ) (h1 : ρ < 1) (z zi : ℂ) (hc : (starRingEnd ℂ) z = zi) (hz : z * zi = 1)
    (hzn : z ^ n = 1) (F : ℕ → ℂ)
    (hF1 : ∀ a, a < n - n / 2 → F (n / 2 + a) = ((ρ : ℂ) ^ 2 * z) ^ a)
    (hF2 : ∀ a, a < n / 2 → F (n / 2 - 1 - a) = ((ρ : ℂ) ^ 2 * zi) ^ (a + 1)) :
    ∃ e : ℝ, |e| ≤ ρ ^ n ∧ (∑ k ∈ range n, F k) * ((1 - (ρ : ℂ) ^ 2 * z) * (1 - (ρ : ℂ) ^ 2 * zi)) = ((1 - (ρ ^ 2) ^ 2) * (1 - e) : ℝ) := by
  set h := n / 2 with hh
  have hsum : ∑ k ∈ range n, F k = ∑ a ∈ range h, ((ρ : ℂ) ^ 2 * zi) ^ (a + 1) + ∑ a ∈ range (n - h), ((ρ : ℂ) ^ 2 * z) ^ a := by
    conv_lhs => rw [show n = h + (n - h) by omega]
    rw [Finset.sum_range_add]
    congr 1
    · rw [← Finset.sum_range_reflect]
      exact sum_congr rfl fun a ha => hF2 a (mem_range.mp ha)
    · exact sum_congr rfl fun a ha => hF1 a (mem_range.mp ha)
  have g1 := geom_sum_mul_neg ((ρ : ℂ) ^ 2 * z) (n - h)
  have g2 := geom_sum_mul_neg ((ρ : ℂ) ^ 2 * zi) h
  have hmain : (∑ k ∈ range n, F k) * ((1 - (ρ : ℂ) ^ 2 * z) * (1 - (ρ : ℂ) ^ 2 * zi)) =
      (1 - ((ρ : ℂ) ^ 2 * z) ^ (n - h)) * (1 - (ρ : ℂ) ^ 2 * zi) +
      (ρ : ℂ) ^ 2 * zi * (1 - ((ρ : ℂ) ^ 2 * zi) ^ h) * (1 - (ρ : ℂ) ^ 2 * z) := by
    rw [hsum, ← g1, ← g2]
    simp only [pow_succ, ← sum_mul]
    ring
  rw [hmain]
  rcases Nat.even_or_odd' n with ⟨m, hm | hm⟩
  · have hmh : h = m := by omega
    have hnm : n - h = m := by omega
    have hsq : z ^ m * z ^ m = 1 := by rw [← pow_add, ← hzn, hm]; congr 1; ring
    have hzz : z ^ m * zi ^ m = 1 := by rw [← mul_pow, hz, one_pow]
    have hzi : zi ^ m = z ^ m := by
      have : z ^ m ≠ 0 := left_ne_zero_of_mul_eq_one hsq
      exact mul_left_cancel₀ this (hzz.trans hsq.symm)
    obtain ⟨ε, hε, hε1⟩ : ∃ ε : ℝ, z ^ m = ε ∧ |ε| = 1 := by
      rcases mul_self_eq_one_iff.mp hsq with h | h
      · exact ⟨1, by rw [h]; simp, by simp⟩
      · exact ⟨-1, by rw [h]; simp, by simp⟩
    refine ⟨ε * (ρ ^ 2) ^ m, ?_, ?_⟩
    · rw [abs_mul, hε1, one_mul, abs_of_pos (by positivity), ← pow_mul, ← hm]
    · rw [hnm, hmh, mul_pow, mul_pow, hzi, hε]
      push_cast
      linear_combination (-(ρ : ℂ) ^ 2 ^ 2 + (ρ : ℂ) ^ 2 ^ 2 * ε * ((ρ : ℂ) ^ 2) ^ m) * hz
  · have hmh : h = m := by omega
    have hnm : n - h = m + 1 := by omega
    have hzz : z ^ m * zi ^ m = 1 := by rw [← mul_pow, hz, one_pow]
    have hz1 : z ^ (m + 1) * z ^ m = 1 := by rw [← pow_add, ← hzn, hm]; congr 1; ring
    have e1 : z ^ (m + 1) = zi ^ m := by
      have : z ^ m ≠ 0 := right_ne_zero_of_mul_eq_one hz1
      exact mul_right_cancel₀ this (hz1.trans (by rw [mul_comm, hzz]))
    have e2 : zi * zi ^ m = z ^ m := by
      have := congrArg (starRingEnd ℂ) e1
      rw [map_pow, map_pow, hc, ← hc, Complex.conj_conj, hc, pow_succ'] at this
      exact this
    have hre : z ^ m + zi ^ m = ((2 * (z ^ m).re : ℝ) : ℂ) := by
      rw [← hc, ← map_pow, Complex.add_conj]
    have hnorm : ‖z‖ = 1 := by
      have : (Complex.normSq z : ℂ) = 1 := by rw [← Complex.mul_conj, hc, hz]
      have h2 : Complex.normSq z = 1 := by exact_mod_cast this
      rw [Complex.normSq_eq_norm_sq] at h2
      nlinarith [norm_nonneg z]
    have hle : |(z ^ m).re| ≤ 1 := by
      refine (Complex.abs_re_le_norm _).trans ?_
      rw [norm_pow, hnorm, one_pow]
    have hp : (0 : ℝ) < 1 + ρ ^ 2 := by positivity
    refine ⟨(ρ ^ 2) ^ (m + 1) * (2 * (z ^ m).re) / (1 + ρ ^ 2), ?_, ?_⟩
    · rw [abs_div, abs_mul, abs_mul, abs_of_pos hp, abs_of_pos (show (0 : ℝ) < (ρ ^ 2) ^ (m + 1) by positivity), div_le_iff₀ hp]
      have : (ρ ^ 2) ^ (m + 1) = ρ ^ n * ρ := by rw [← pow_mul, ← pow_succ]; congr 1; omega
      rw [this, mul_assoc]
      refine mul_le_mul_of_nonneg_left ?_ (by positivity)
      rw [abs_two]
      nlinarith [sq_nonneg (1 - ρ)]
    · have hpc : ((1 + ρ ^ 2 : ℝ) : ℂ) ≠ 0 := by exact_mod_cast hp.ne'
      have hR : ((1 - (ρ ^ 2) ^ 2) * (1 - (ρ ^ 2) ^ (m + 1) * (2 * (z ^ m).re) / (1 + ρ ^ 2)) : ℝ) =
          1 - (ρ ^ 2) ^ 2 - (1 - ρ ^ 2) * (ρ ^ 2) ^ (m + 1) * (2 * (z ^ m).re) := by
        field_simp
        ring
      rw [hR, Complex.ofReal_sub, Complex.ofReal_mul _ (2 * (z ^ m).re), ← hre]
      rw [hnm, hmh, mul_pow, mul_pow, e1]
      push_cast
      rw [pow_succ ((ρ : ℂ) ^ 2) m]
      set R := (ρ : ℂ) ^ 2
      linear_combination (R ^ m * R * R - R ^ m * R) * e2 + (R ^ m * R * R * zi ^ m - R ^ 2) * hz

/-! ## The operations -/

/-- The factor with which the value at point `j` enters that at point `i`. -/
noncomputable def mixing (n : ℕ) (s : ℝ) (x t : Dim) (W : ℕ → ℂ) (i j : ℕ) : ℂ :=
  (n : ℂ)⁻¹ * ∑ k ∈ range n, W k * Spec.turn (s * (Spec.at x j - Spec.at x i) * Spec.at t k)

theorem apodize_run (lib : ℕ → Data → Py Data) (dim n : ℕ) (s : ℝ) (x t : Dim) (c : ℕ → ℂ)
    (hc : ∀ k, k < n → c k ≠ 0) (hF : Spec.Forward lib dim n s x t c) (hB : Spec.Backward lib dim n s x t c)
    (fn : List ℝ → Py (List ℂ)) (vec : List ℂ) (hfn : fn t.coords = .ok vec) (dv : DvIndex)
    (st : Store) (r : ℕ) (d : Data) (hd : st[r]? = some d) (hx : d.dims[dim]? = some x) (hN : Spec.Names d.dvs.length dv) :
    ∃ (st' : Store) (r' : ℕ) (d' : Data), applyOperations lib [.fft [dim], .apodize fn [dim] dv, .fft [dim]] (st, r) = (st', .ok r') ∧
      st'[r']? = some d' ∧ d'.dims = d.dims ∧ d'.dvs.length = d.dvs.length ∧
      ∀ (v : ℕ) (g g' : List ℕ → ℂ), d.dvs[v]? = some g → d'.dvs[v]? = some g' → ∀ ix, Spec.Inside n dim ix →
        g' ix = ∑ j ∈ range n, mixing n s x t (fun k => vec.getD k 0 ^ Spec.times d.dvs.length v dv) (ix.getD dim 0) j *
          g (ix.set dim j) := by
  have hdim : dim < d.dims.length := by
    by_contra h
    rw [List.getElem?_eq_none (by omega)] at hx
    simp at hx
  obtain ⟨d1, f1, f2, f3, f4⟩ := hF d hx
  have ht : d1.dims[dim]? = some t := by rw [f2]; exact List.getElem?_set_self hdim
  obtain ⟨d2, h2⟩ := mulDvs_ok (along vec dim) (dvIndexes dv d1.dvs.length) d1 ((names_iff dv _).mpr (by rw [f3]; exact hN))
  obtain ⟨m1, m2, _, m4⟩ := mulDvs_names _ dv d1 d2 h2
  have hop : operate lib (.apodize fn [dim] dv) (st ++ [d1], st.length) = ((st ++ [d1]).set st.length d2, .ok st.length) := by
    unfold operate
    simp only [List.getElem?_concat_length, inPlace, apodize, ht, hfn, h2]
  obtain ⟨d3, b1, b2, b3, b4⟩ := hB d2 (by rw [m1]; exact ht)
  have hget : ((st ++ [d1]).set st.length d2)[st.length]? = some d2 := List.getElem?_set_self (by simp)
  refine ⟨(st ++ [d1]).set st.length d2 ++ [d3], ((st ++ [d1]).set st.length d2).length, d3, ?_, by simp, ?_, by omega, ?_⟩
  · rw [applyOperations]
    simp only [operate, fftLoop, hd, f1]
    rw [applyOperations, hop]
    simp only
    rw [applyOperations]
    simp only [operate, fftLoop, hget, b1]
    rfl
  · rw [b2, m1, f2, List.set_set]
    apply List.ext_getElem?
    intro i
    by_cases hi : dim = i
    · subst hi
      rw [List.getElem?_set_self hdim, hx]
    · rw [List.getElem?_set_ne hi]
  · intro v g g' hg hg' ix hix
    obtain ⟨hix1, hix2⟩ := hix
    have hv : v < d.dvs.length := by
      by_contra h
      rw [List.getElem?_eq_none (by omega)] at hg
      simp at hg
    obtain ⟨ga, hga⟩ : ∃ ga, d1.dvs[v]? = some ga := ⟨_, List.getElem?_eq_getElem (by omega)⟩
    obtain ⟨gb, hgb⟩ : ∃ gb, d2.dvs[v]? = some gb := ⟨_, List.getElem?_eq_getElem (by omega)⟩
    rw [b4 v gb g' hgb hg' ix ⟨hix1, hix2⟩]
    have hmix : ∑ j ∈ range n, mixing n s x t (fun k => vec.getD k 0 ^ Spec.times d.dvs.length v dv) (ix.getD dim 0) j *
        g (ix.set dim j) = (n : ℂ)⁻¹ * ∑ k ∈ range n, ∑ j ∈ range n, vec.getD k 0 ^ Spec.times d.dvs.length v dv *
          Spec.turn (s * (Spec.at x j - Spec.at x (ix.getD dim 0)) * Spec.at t k) * g (ix.set dim j) := by
      rw [sum_comm, mul_sum]
      refine sum_congr rfl fun j _ => ?_
      rw [mixing, mul_assoc, sum_mul]
    rw [hmix]
    congr 1
    refine sum_congr rfl fun k hk => ?_
    have hk' := mem_range.mp hk
    have hgd : (ix.set dim k).getD dim 0 = k := by
      rw [List.getD_eq_getElem?_getD, List.getElem?_set_self hix1]
      rfl
    have h5 := m4 v (ix.set dim k)
    rw [hga, hgb] at h5
    simp only [Option.map_some, Option.some.injEq] at h5
    rw [h5, f4 v g ga hg hga (ix.set dim k) ⟨by rw [List.length_set]; exact hix1, by rw [hgd]; exact hk'⟩, hgd, f3]
    unfold along
    rw [hgd, mul_assoc (c k), inv_mul_cancel_left₀ (hc k hk'), sum_mul, sum_mul]
    refine sum_congr rfl fun j _ => ?_
    simp only [List.set_set]
    have : Spec.turn (s * (Spec.at x j - Spec.at x (ix.getD dim 0)) * Spec.at t k) =
        Spec.turn (s * Spec.at x j * Spec.at t k) * Spec.turn (-(s * Spec.at x (ix.getD dim 0) * Spec.at t k)) := by
      rw [← turn_add]
      congr 1
      ring
    rw [this]
    ring

/-- The weights of one point add up to the factor at time zero. -/
theorem mixing_sum {n : ℕ} {x t : Dim} (hR : Spec.Reciprocal n x t) {s : ℝ} (hs : s = 1 ∨ s = -1) (W : ℕ → ℂ) (q : ℕ) (hq : q < n)
    (hq0 : Spec.at t q = 0) (i : ℕ) : ∑ j ∈ range n, mixing n s x t W i j = W q := by
  have hn : (n : ℂ) ≠ 0 := by have := hR.pos; exact_mod_cast this.ne'
  unfold mixing
  rw [← mul_sum, sum_comm]
  have e : ∀ k ∈ range n, ∑ j ∈ range n, W k * Spec.turn (s * (Spec.at x j - Spec.at x i) * Spec.at t k) =
      if k = q then W k * n else 0 := by
    intro k hk
    have h := orth' hR hs k (mem_range.mp hk) q hq
    rw [hq0] at h
    have : ∀ j ∈ range n, W k * Spec.turn (s * (Spec.at x j - Spec.at x i) * Spec.at t k) =
        W k * Spec.turn (-(s * Spec.at x i * Spec.at t k)) * Spec.turn (s * Spec.at x j * (Spec.at t k - 0)) := by
      intro j _
      rw [mul_assoc (W k), ← turn_add]
      congr 2
      ring
    rw [sum_congr rfl this, ← mul_sum, h]
    by_cases hkq : k = q
    · subst hkq
      simp [hq0, turn_zero]
    · simp [hkq]
  rw [sum_congr rfl e, sum_ite_eq', if_pos (mem_range.mpr hq)]
  field_simp

theorem turn_re (u : ℝ) : (Spec.turn u).re = Real.cos (2 * Real.pi * u) := by
  unfold Spec.turn
  rw [show (2 * Real.pi * u * I : ℂ) = ((2 * Real.pi * u : ℝ) : ℂ) * I by push_cast; ring, Complex.exp_ofReal_mul_I_re]

theorem exp_mixing {n : ℕ} {x t : Dim} (hR : Spec.Reciprocal n x t) {s : ℝ} (hs : s = 1 ∨ s = -1)
    (hq : t.ks = (List.range n).map fun j : ℕ => (j : ℝ) - ((n / 2 : ℕ) : ℤ)) (ω : ℝ) (hω : 0 < ω) (i j : ℕ) (hi : i < n) (hj : j < n) :
    ∃ e : ℝ, |e| ≤ Real.exp (-(Real.pi * ω / (2 * |x.increment|))) ∧
      mixing n s x t (fun k => (Real.exp (-(Real.pi * ω * |Spec.at t k|)) : ℝ)) i j =
        ((|x.increment| * Spec.wrapped ω (n * |x.increment|) (Spec.at x i - Spec.at x j) * (1 - e) : ℝ) : ℂ) := by
  have hn := hR.pos
  have hnR : (0 : ℝ) < n := by exact_mod_cast hn
  have hsp := hR.spacing
  obtain ⟨p, hp⟩ := hR.first
  set δ := x.increment with hδ
  set τ := t.increment with hτ
  have hδ0 : δ ≠ 0 := by rintro h; rw [h] at hsp; simp at hsp
  have hδp : 0 < |δ| := abs_pos.mpr hδ0
  have hτ0 : τ ≠ 0 := by rintro h; rw [h] at hsp; simp at hsp
  have habs : n * |δ| * |τ| = 1 := by
    have := congrArg abs hsp
    rwa [abs_mul, abs_mul, abs_of_pos hnR, abs_one] at this
  have hτe : |τ| = 1 / (n * |δ|) := by
    rw [eq_div_iff (by positivity)]; linarith
  set y : ℝ := s * ((j : ℝ) - i) * (δ * τ) with hy
  set ρ := Real.exp (-(Real.pi * ω * |τ| / 2)) with hρ
  have hρ0 : 0 < ρ := Real.exp_pos _
  have hρ1 : ρ < 1 := by
    rw [hρ, Real.exp_lt_one_iff]
    have := mul_pos (mul_pos Real.pi_pos hω) (abs_pos.mpr hτ0)
    linarith
  have hr : ρ ^ 2 = Real.exp (-(Real.pi * ω / (n * |δ|))) := by
    rw [hρ, ← Real.exp_nat_mul, hτe]
    congr 1
    push_cast
    ring
  have hρn : ρ ^ n = Real.exp (-(Real.pi * ω / (2 * |δ|))) := by
    rw [hρ, ← Real.exp_nat_mul, hτe]
    congr 1
    field_simp
  have hat : ∀ k, k < n → Spec.at t k = τ * ((k : ℝ) - (n / 2 : ℕ)) := by
    intro k hk
    rw [at_eq t n _ hq k hk, hR.zero, zero_add, Int.cast_natCast]
  have hx : Spec.at x j - Spec.at x i = δ * ((j : ℝ) - i) := by
    rw [at_eq x n p hp j hj, at_eq x n p hp i hi]
    ring
  have hzn : Spec.turn y ^ n = 1 := by
    obtain ⟨σ, hσ⟩ : ∃ σ : ℤ, s = σ := by
      rcases hs with h | h
      · exact ⟨1, by rw [h]; simp⟩
      · exact ⟨-1, by rw [h]; simp⟩
    rw [← turn_nat_mul]
    have : (n : ℝ) * y = ((σ * ((j : ℤ) - i) : ℤ) : ℝ) := by
      rw [hy, hσ]
      push_cast
      linear_combination (σ : ℝ) * ((j : ℝ) - i) * hsp
    rw [this, turn_int]
  obtain ⟨e, he, hmain⟩ := two_sided n hn ρ hρ0 hρ1 (Spec.turn y) (Spec.turn (-y)) (turn_conj y)
    (by rw [← turn_add]; simp [turn_zero]) hzn
    (fun k => (Real.exp (-(Real.pi * ω * |Spec.at t k|)) : ℝ) * Spec.turn (s * (Spec.at x j - Spec.at x i) * Spec.at t k))
    (by
      intro a ha
      rw [hat _ (by omega), hx, mul_pow, ← turn_nat_mul]
      congr 1
      · rw [← Complex.ofReal_pow, ← Complex.ofReal_pow, hρ, ← Real.exp_nat_mul, ← Real.exp_nat_mul, abs_mul]
        congr 2
        push_cast
        rw [show ((n / 2 : ℕ) : ℝ) + a - (n / 2 : ℕ) = a by ring, abs_of_nonneg (by positivity : (0 : ℝ) ≤ a)]
        ring
      · congr 1
        rw [hy]
        push_cast
        ring)
    (by
      intro a ha
      have hcast : ((n / 2 - 1 - a : ℕ) : ℝ) = (n / 2 : ℕ) - 1 - a := by
        rw [Nat.cast_sub (by omega), Nat.cast_sub (by omega)]
        simp
      rw [hat _ (by omega), hx, mul_pow, ← turn_nat_mul, hcast]
      congr 1
      · rw [← Complex.ofReal_pow, ← Complex.ofReal_pow, hρ, ← Real.exp_nat_mul, ← Real.exp_nat_mul, abs_mul]
        congr 2
        push_cast
        rw [show ((n / 2 : ℕ) : ℝ) - 1 - a - (n / 2 : ℕ) = -(a + 1) by ring, abs_neg,
          abs_of_nonneg (by positivity : (0 : ℝ) ≤ (a : ℝ) + 1)]
        ring
      · congr 1
        rw [hy]
        push_cast
        ring)
  refine ⟨e, by rw [← hρn]; exact he, ?_⟩
  have hw := (wrapped_eq ω (n * |δ|) (Spec.at x i - Spec.at x j) hω (by positivity)).2
  rw [← hr] at hw
  have hcos : Real.cos (2 * Real.pi * ((Spec.at x i - Spec.at x j) / (n * |δ|))) = Real.cos (2 * Real.pi * y) := by
    rw [← neg_sub, hx, hy]
    have h1 : -(δ * ((j : ℝ) - i)) / (n * |δ|) = -(δ / |δ|) * (((j : ℝ) - i) / n) := by
      field_simp
    have h2 : δ * τ = 1 / n := by rw [eq_div_iff hnR.ne']; linarith
    rw [h1, h2, mul_assoc s, mul_one_div]
    have hsgn : δ / |δ| = 1 ∨ δ / |δ| = -1 := by
      rcases abs_cases δ with ⟨h, _⟩ | ⟨h, _⟩
      · left; rw [h]; exact div_self hδ0
      · right; rw [h, div_neg, div_self hδ0]
    rcases hsgn with h | h <;> rcases hs with h' | h' <;> rw [h, h'] <;>
      first
        | (congr 1; ring; done)
        | (rw [← Real.cos_neg]; congr 1; ring)
  rw [hcos] at hw
  have hD : 0 < 1 - 2 * ρ ^ 2 * Real.cos (2 * Real.pi * y) + (ρ ^ 2) ^ 2 := by
    have : Real.cos (2 * Real.pi * y) ≤ 1 := Real.cos_le_one _
    have h2 : ρ ^ 2 < 1 := by nlinarith
    nlinarith [sq_pos_of_pos (sub_pos.mpr h2), sq_nonneg ρ]
  have hDc : (1 - (ρ : ℂ) ^ 2 * Spec.turn y) * (1 - (ρ : ℂ) ^ 2 * Spec.turn (-y)) =
      ((1 - 2 * ρ ^ 2 * Real.cos (2 * Real.pi * y) + (ρ ^ 2) ^ 2 : ℝ) : ℂ) := by
    have h1 : Spec.turn y * Spec.turn (-y) = 1 := by rw [← turn_add]; simp [turn_zero]
    have h2 : Spec.turn y + Spec.turn (-y) = ((2 * Real.cos (2 * Real.pi * y) : ℝ) : ℂ) := by
      rw [← turn_conj, Complex.add_conj, turn_re]
    push_cast at h2 ⊢
    linear_combination (ρ : ℂ) ^ 4 * h1 - (ρ : ℂ) ^ 2 * h2
  rw [hDc] at hmain
  have hDne : ((1 - 2 * ρ ^ 2 * Real.cos (2 * Real.pi * y) + (ρ ^ 2) ^ 2 : ℝ) : ℂ) ≠ 0 := by exact_mod_cast hD.ne'
  unfold mixing
  rw [eq_div_of_mul_eq hDne hmain, ← Complex.ofReal_div, show ((n : ℂ))⁻¹ = (((n : ℝ)⁻¹ : ℝ) : ℂ) by push_cast; rfl, ← Complex.ofReal_mul]
  congr 1
  have hw2 : |δ| * Spec.wrapped ω (n * |δ|) (Spec.at x i - Spec.at x j) =
      (n : ℝ)⁻¹ * ((1 - (ρ ^ 2) ^ 2) / (1 - 2 * ρ ^ 2 * Real.cos (2 * Real.pi * y) + (ρ ^ 2) ^ 2)) := by
    rw [← hw]
    field_simp
  rw [hw2]
  field_simp

/-- The factor at time zero. -/
theorem at_half {n : ℕ} {x t : Dim} (hR : Spec.Reciprocal n x t)
    (hq : t.ks = (List.range n).map fun j : ℕ => (j : ℝ) - ((n / 2 : ℕ) : ℤ)) : Spec.at t (n / 2) = 0 := by
  have := hR.pos
  rw [at_eq t n _ hq (n / 2) (by omega), hR.zero, Int.cast_natCast]
  ring

theorem coords_getD (t : Dim) (n k : ℕ) (p : ℤ) (h : t.ks = (List.range n).map fun j : ℕ => (j : ℝ) - p) (hk : k < n) (f : ℝ → ℂ) :
    (t.coords.map f).getD k 0 = f (Spec.at t k) := by
  rw [at_eq t n p h k hk]
  unfold Dim.coords
  rw [h, List.getD_eq_getElem?_getD, List.getElem?_map, List.getElem?_map, List.getElem?_map, List.getElem?_range hk]
  rfl

/-! ## C122 -/

/-- Half the height is reached half the width away from the centre. -/
theorem Spec.lorentz_half (w : ℝ) (hw : 0 < w) :
    Spec.lorentz w (w / 2) = Spec.lorentz w 0 / 2 ∧ Spec.lorentz w (-(w / 2)) = Spec.lorentz w 0 / 2 := by
  unfold Spec.lorentz
  have := Real.pi_pos.ne'
  constructor <;> field_simp <;> ring

/-- **C122, exponential, partial.** A transform, `Exponential` of a positive width, and the transform back replace every point of a
spectrum by a line: the values of the result are those of the spectrum weighted with a function of the distance that is even, positive,
adds up to one, and differs from the Lorentzian of that full width at half maximum (wrapped around the axis) by no more than the factor
`e^{-π width / (2 spacing)}`. A dependent variable that is named twice is broadened by twice the width; one that is not named stays as
it is. Missing: the transform of the library is assumed to be the Fourier transform, with time zero in the middle. -/
theorem C122_exponential_partial (lib : ℕ → Data → Py Data) (dim n : ℕ) (s : ℝ) (hs : s = 1 ∨ s = -1) (x t : Dim) (c : ℕ → ℂ)
    (hc : ∀ k, k < n → c k ≠ 0) (hF : Spec.Forward lib dim n s x t c) (hB : Spec.Backward lib dim n s x t c)
    (hR : Spec.Reciprocal n x t) (hq : t.ks = (List.range n).map fun j : ℕ => (j : ℝ) - ((n / 2 : ℕ) : ℤ))
    (w u : ℝ) (hw : 0 < w) (hu : 0 < u) (dv : DvIndex)
    (st : Store) (r : ℕ) (d : Data) (hd : st[r]? = some d) (hx : d.dims[dim]? = some x) (hN : Spec.Names d.dvs.length dv) :
    ∃ (st' : Store) (r' : ℕ) (d' : Data),
      applyOperations lib [.fft [dim], .apodize (expFn w (some u)) [dim] dv, .fft [dim]] (st, r) = (st', .ok r') ∧
      st'[r']? = some d' ∧ d'.dims = d.dims ∧ d'.dvs.length = d.dvs.length ∧
      ∀ (v : ℕ) (g g' : List ℕ → ℂ), d.dvs[v]? = some g → d'.dvs[v]? = some g' →
        (Spec.times d.dvs.length v dv = 0 → ∀ ix, Spec.Inside n dim ix → g' ix = g ix) ∧
        (0 < Spec.times d.dvs.length v dv → ∃ K : ℝ → ℝ,
          Spec.Line n x (Spec.times d.dvs.length v dv * (w * u)) K ∧
          ∀ ix, Spec.Inside n dim ix →
            g' ix = ∑ j ∈ range n, K (Spec.at x (ix.getD dim 0) - Spec.at x j) * g (ix.set dim j)) := by
  have hn := hR.pos
  obtain ⟨st', r', d', h1, h2, h3, h4, h5⟩ := apodize_run lib dim n s x t c hc hF hB (expFn w (some u)) _ rfl dv st r d hd hx hN
  refine ⟨st', r', d', h1, h2, h3, h4, fun v g g' hg hg' => ⟨fun h0 ix hix => ?_, fun hpos => ?_⟩⟩
  · rw [h5 v g g' hg hg' ix hix, h0]
    simp only [pow_zero]
    have e : ∀ j ∈ range n, mixing n s x t (fun _ => 1) (ix.getD dim 0) j * g (ix.set dim j) =
        if j = ix.getD dim 0 then g (ix.set dim j) else 0 := by
      intro j hj
      have h := orth hR hs j (mem_range.mp hj) (ix.getD dim 0) hix.2 0
      simp only [Int.cast_zero, zero_mul, add_zero, sub_zero] at h
      unfold mixing
      simp only [one_mul]
      rw [h]
      have hnc : (n : ℂ) ≠ 0 := by exact_mod_cast hn.ne'
      by_cases hji : j = ix.getD dim 0
      · rw [if_pos hji, hji, sub_self, if_pos (dvd_zero _)]
        field_simp
      · rw [if_neg hji, if_neg, mul_zero, zero_mul]
        intro hdv
        have hj' := mem_range.mp hj
        have := hix.2
        have := Int.eq_zero_of_abs_lt_dvd hdv (by rw [abs_lt]; constructor <;> omega)
        omega
    rw [sum_congr rfl e, sum_ite_eq', if_pos (mem_range.mpr hix.2)]
    congr 1
    apply List.ext_getElem?
    intro i
    by_cases hi : dim = i
    · subst hi
      rw [List.getElem?_set_self hix.1, List.getD_eq_getElem?_getD, List.getElem?_eq_getElem hix.1]
      rfl
    · rw [List.getElem?_set_ne hi]
  · set T := Spec.times d.dvs.length v dv with hT
    set ω : ℝ := T * (w * u) with hω
    have hω0 : 0 < ω := by have : (0 : ℝ) < T := by exact_mod_cast hpos
                           positivity
    have hW : ∀ i j, mixing n s x t (fun k => (t.coords.map fun a => ((Real.exp (-w * Real.pi * |a * u|) : ℝ) : ℂ)).getD k 0 ^ T) i j =
        mixing n s x t (fun k => ((Real.exp (-(Real.pi * ω * |Spec.at t k|)) : ℝ) : ℂ)) i j := by
      intro i j
      unfold mixing
      congr 1
      refine sum_congr rfl fun k hk => ?_
      beta_reduce
      rw [coords_getD t n k _ hq (mem_range.mp hk) fun a => ((Real.exp (-w * Real.pi * |a * u|) : ℝ) : ℂ), ← Complex.ofReal_pow,
        ← Real.exp_nat_mul, abs_mul, abs_of_pos hu, hω]
      congr 4
      ring
    have hδ0 : x.increment ≠ 0 := by rintro h; have := hR.spacing; rw [h] at this; simp at this
    have hδp : 0 < |x.increment| := abs_pos.mpr hδ0
    have hnR : (0 : ℝ) < n := by exact_mod_cast hn
    have hwpos : ∀ ν, 0 < Spec.wrapped ω (n * |x.increment|) ν := by
      intro ν
      have hS := (wrapped_eq ω (n * |x.increment|) ν hω0 (by positivity)).1
      refine hS.tsum_pos (fun m => ?_) 0 ?_ <;> unfold Spec.lorentz <;> have := Real.pi_pos <;> positivity
    have hexp : Real.exp (-(Real.pi * ω / (2 * |x.increment|))) < 1 := by
      rw [Real.exp_lt_one_iff]
      have := Real.pi_pos
      have : 0 < Real.pi * ω / (2 * |x.increment|) := by positivity
      linarith
    let K : ℝ → ℝ := fun ν => (n : ℝ)⁻¹ * ∑ k ∈ range n,
      Real.exp (-(Real.pi * ω * |Spec.at t k|)) * Real.cos (2 * Real.pi * (ν * Spec.at t k))
    have hK : ∀ i, i < n → ∀ j, j < n →
        mixing n s x t (fun k => ((Real.exp (-(Real.pi * ω * |Spec.at t k|)) : ℝ) : ℂ)) i j = (K (Spec.at x i - Spec.at x j) : ℝ) ∧
        ∃ e : ℝ, |e| ≤ Real.exp (-(Real.pi * ω / (2 * |x.increment|))) ∧
          K (Spec.at x i - Spec.at x j) = |x.increment| * Spec.wrapped ω (n * |x.increment|) (Spec.at x i - Spec.at x j) * (1 - e) := by
      intro i hi j hj
      obtain ⟨e, he, hm⟩ := exp_mixing hR hs hq ω hω0 i j hi hj
      have hre : (mixing n s x t (fun k => ((Real.exp (-(Real.pi * ω * |Spec.at t k|)) : ℝ) : ℂ)) i j).re = K (Spec.at x i - Spec.at x j) := by
        unfold mixing
        rw [show ((n : ℂ))⁻¹ = (((n : ℝ)⁻¹ : ℝ) : ℂ) by push_cast; rfl, Complex.re_ofReal_mul, Complex.re_sum]
        change _ = (n : ℝ)⁻¹ * _
        congr 1
        refine sum_congr rfl fun k _ => ?_
        rw [Complex.re_ofReal_mul, turn_re]
        congr 1
        rcases hs with h | h <;> rw [h]
        · rw [← Real.cos_neg]; congr 1; ring
        · congr 1; ring
      rw [hm, Complex.ofReal_re] at hre
      exact ⟨by rw [hm, hre], e, he, hre.symm⟩
    refine ⟨K, ⟨?_, ?_, ?_, ?_, ?_⟩, ?_⟩
    · intro ν
      change (n : ℝ)⁻¹ * _ = (n : ℝ)⁻¹ * _
      congr 1
      refine sum_congr rfl fun k _ => ?_
      rw [← Real.cos_neg]
      congr 2
      ring
    · intro i hi j hj
      obtain ⟨_, e, he, h⟩ := hK i hi j hj
      rw [h]
      have : 0 < 1 - e := by have := abs_le.mp he; linarith
      have := hwpos (Spec.at x i - Spec.at x j)
      positivity
    · intro i hi
      have h := mixing_sum hR hs (fun k => ((Real.exp (-(Real.pi * ω * |Spec.at t k|)) : ℝ) : ℂ)) (n / 2) (by omega) (at_half hR hq) i
      rw [sum_congr rfl fun j hj => (hK i hi j (mem_range.mp hj)).1, at_half hR hq] at h
      simp only [abs_zero, mul_zero, neg_zero, Real.exp_zero, Complex.ofReal_one] at h
      exact_mod_cast h
    · intro ν
      exact (wrapped_eq ω (n * |x.increment|) ν hω0 (by positivity)).1
    · intro i hi j hj
      obtain ⟨_, e, he, h⟩ := hK i hi j hj
      have := hwpos (Spec.at x i - Spec.at x j)
      rw [h, show ∀ a : ℝ, a * (1 - e) - a = a * -e by intro a; ring, abs_mul, abs_neg, abs_of_pos (by positivity), mul_comm]
      exact mul_le_mul_of_nonneg_right he (by positivity)
    · intro ix hix
      rw [h5 v g g' hg hg' ix hix]
      refine sum_congr rfl fun j hj => ?_
      rw [← (hK _ hix.2 j (mem_range.mp hj)).1, ← hW]

/-- The hypotheses are met, and the weights known: a point, broadened by ten times the spacing of a spectrum of four points. -/
example : ∃ (st' : Store) (r' : ℕ) (d' : Data) (g' : List ℕ → ℂ) (K : ℝ → ℝ),
    applyOperations (Ex.lib 0 4 1 Ex.x Ex.t) [.fft [0], .apodize (expFn 100 (some 1)) [0] .all, .fft [0]]
      ([⟨[Ex.x], [fun ix => if ix = [1] then 1 else 0]⟩], 0) = (st', .ok r') ∧
      st'[r']? = some d' ∧ d'.dvs = [g'] ∧ Spec.Line 4 Ex.x 100 K ∧ g' [3] = K (Spec.at Ex.x 3 - Spec.at Ex.x 1) := by
  have hne : Ex.x ≠ Ex.t := by
    intro h
    have := congrArg Dim.increment h
    norm_num [Ex.x, Ex.t] at this
  obtain ⟨st', r', d', h1, h2, h3, h4, h5⟩ := C122_exponential_partial (Ex.lib 0 4 1 Ex.x Ex.t) 0 4 1 (Or.inl rfl) Ex.x Ex.t (fun _ => 1)
    (by simp) (Ex.lib_forward 0 4 1 Ex.x Ex.t) (Ex.lib_backward _ _ _ _ _ hne) Ex.reciprocal rfl 100 1 (by norm_num) (by norm_num) .all
    [⟨[Ex.x], [fun ix => if ix = [1] then 1 else 0]⟩] 0 _ rfl rfl trivial
  obtain ⟨g', hg'⟩ : ∃ g', d'.dvs = [g'] := List.length_eq_one_iff.mp h4
  obtain ⟨K, hK, hK2⟩ := (h5 0 _ g' rfl (by rw [hg']; rfl)).2 (by simp [Spec.times])
  refine ⟨st', r', d', g', K, h1, h2, hg', by simpa [Spec.times] using hK, ?_⟩
  rw [hK2 [3] ⟨by simp, by simp⟩]
  simp

/-! ## Gaussian -/

/-- `Gaussian.fn` as the factors of an apodisation (apodization.py lines 108-114). Values that are not numbers are left out of the model
and stand as undefined behaviour. -/
noncomputable def gaussOp (fwhm : ℝ) (unit : Option ℝ) (x : List ℝ) : Py (List ℂ) :=
  match gaussFn fwhm unit x with
  | .ok (some l) => .ok (l.map fun a : ℝ => (a : ℂ))
  | .ok none => .error .undefinedBehaviour
  | .error e => .error e

/-- The Gaussian of a standard deviation, with area one. -/
noncomputable def Spec.gauss (σ ν : ℝ) : ℝ := Real.exp (-(1 / 2) * (ν / σ) ^ 2) / (σ * √(2 * Real.pi))

/-- A distance measured the short way around an axis of length `len`. -/
def Spec.Around (len a ν : ℝ) : Prop := |ν| ≤ len / 2 ∧ ∃ m : ℤ, ν = a + m * len

theorem shifted_reflect (h a : ℕ) (ha : a < 2 * h) : shifted (2 * h) ((2 * h - a) % (2 * h)) ^ 2 = shifted (2 * h) a ^ 2 := by
  unfold shifted
  by_cases h0 : a = 0
  · subst h0
    simp
  · rw [Nat.mod_eq_of_lt (by omega)]
    have e : ((2 * h - a : ℕ) : ℤ) = 2 * h - a := by omega
    split_ifs with h1 h2 h2
    · have : a = h := by omega
      omega
    · rw [e]; push_cast; ring
    · rw [e]; push_cast; ring
    · have : a = h := by omega
      subst this
      rw [e]
      push_cast
      ring

/-- The transform of the factors. -/
theorem gauss_transform (h : ℕ) (hh : 0 < h) (len sg : ℝ) (l : ℤ) :
    ∑ m ∈ range (2 * h), (gaussAmp (2 * h) len sg m : ℂ) * Spec.turn ((l : ℝ) / (2 * h : ℕ) * m) =
      Real.exp (-(1 / 2) * ((shifted (2 * h) (l % (2 * h : ℕ)).toNat : ℝ) / len / sg) ^ 2) := by
  set n := 2 * h with hn
  have hnR : (n : ℝ) ≠ 0 := by have : 0 < n := by omega
                               positivity
  have hnC : (n : ℂ) ≠ 0 := by exact_mod_cast hnR
  set G : ℕ → ℝ := fun k => Real.exp (-(1 / 2) * ((shifted n k : ℝ) / len / sg) ^ 2) with hG
  have hcos : ∀ a : ℝ, (Real.cos (2 * Real.pi * a) : ℂ) = (Spec.turn a + Spec.turn (-a)) / 2 := by
    intro a
    rw [← turn_conj, Complex.add_conj, turn_re]
    push_cast
    ring
  set b := (l % (n : ℤ)).toNat with hb
  have hb0 := Int.emod_nonneg l (show (n : ℤ) ≠ 0 by omega)
  have hb1 := Int.emod_lt_of_pos l (show (0 : ℤ) < n by omega)
  have hbn : b < n := by omega
  have hdiv : (l - b) % n = 0 := by
    rw [hb, Int.toNat_of_nonneg hb0]
    exact Int.emod_eq_zero_of_dvd (Int.dvd_self_sub_emod)
  have key : ∀ k ∈ range n, ∑ m ∈ range n, (Real.cos (2 * Real.pi * m * k / n) : ℂ) * Spec.turn ((l : ℝ) / n * m) =
      (if k = (n - b) % n then (n : ℂ) else 0) / 2 + (if k = b then (n : ℂ) else 0) / 2 := by
    intro k hk
    have hk' := mem_range.mp hk
    have e : ∀ m ∈ range n, (Real.cos (2 * Real.pi * m * k / n) : ℂ) * Spec.turn ((l : ℝ) / n * m) =
        Spec.turn ((((l : ℝ) + k) / n) * ((m : ℝ) - (0 : ℤ))) / 2 + Spec.turn ((((l : ℝ) - k) / n) * ((m : ℝ) - (0 : ℤ))) / 2 := by
      intro m _
      rw [show 2 * Real.pi * m * k / n = 2 * Real.pi * (k / n * m : ℝ) by ring, hcos, div_mul_eq_mul_div, add_mul, ← turn_add, ← turn_add, add_div]
      congr 3 <;> push_cast <;> ring
    rw [sum_congr rfl e, sum_add_distrib, ← sum_div, ← sum_div,
      turn_sum n (by omega) (l + k) 0 _ (by push_cast; field_simp), turn_sum n (by omega) (l - k) 0 _ (by push_cast; field_simp)]
    have i1 : (n : ℤ) ∣ l + k ↔ k = (n - b) % n := by
      rw [Int.dvd_iff_emod_eq_zero]
      have hl : l = b + n * (l / n) := by rw [hb, Int.toNat_of_nonneg hb0]; exact (Int.emod_add_mul_ediv l n).symm
      constructor
      · intro h0
        rw [hl, show (b : ℤ) + n * (l / n) + k = (b + k) + n * (l / n) by ring, Int.add_mul_emod_self_left] at h0
        have : (b + k) % n = 0 := by exact_mod_cast h0
        by_cases hbz : b = 0
        · rw [hbz] at this ⊢
          rw [zero_add, Nat.mod_eq_of_lt hk'] at this
          simp [this]
        · rw [Nat.mod_eq_of_lt (show n - b < n by omega)]
          obtain ⟨q, hq⟩ := Nat.dvd_of_mod_eq_zero this
          have : q = 1 := by
            rcases q with _ | _ | q
            · omega
            · rfl
            · have : n * (q + 1 + 1) = n * q + 2 * n := by ring
              have : 0 ≤ n * q := Nat.zero_le _
              omega
          rw [this] at hq
          omega
      · intro h0
        rw [hl, show (b : ℤ) + n * (l / n) + k = (b + k) + n * (l / n) by ring, Int.add_mul_emod_self_left]
        have : (b + k) % n = 0 := by
          by_cases hbz : b = 0
          · rw [h0, hbz]; simp
          · rw [Nat.mod_eq_of_lt (show n - b < n by omega)] at h0
            rw [h0, show b + (n - b) = n by omega, Nat.mod_self]
        exact_mod_cast this
    have i2 : (n : ℤ) ∣ l - k ↔ k = b := by
      constructor
      · intro h0
        have := Int.eq_zero_of_abs_lt_dvd (show (n : ℤ) ∣ (k : ℤ) - b by
          have := dvd_sub (Int.dvd_of_emod_eq_zero hdiv) h0
          rwa [show l - b - (l - k) = (k : ℤ) - b by ring] at this) (by rw [abs_lt]; constructor <;> omega)
        omega
      · rintro rfl
        exact Int.dvd_of_emod_eq_zero hdiv
    simp only [i1, i2]
  have expand : ∑ m ∈ range n, (gaussAmp n len sg m : ℂ) * Spec.turn ((l : ℝ) / n * m) =
      (n : ℂ)⁻¹ * ∑ k ∈ range n, (G k : ℂ) * ∑ m ∈ range n, (Real.cos (2 * Real.pi * m * k / n) : ℂ) * Spec.turn ((l : ℝ) / n * m) := by
    simp only [gaussAmp, mul_sum]
    rw [sum_comm]
    refine sum_congr rfl fun m _ => ?_
    push_cast
    rw [sum_mul]
    refine sum_congr rfl fun k _ => ?_
    simp only [hG]
    push_cast
    ring
  rw [expand, sum_congr rfl fun k hk => by rw [key k hk]]
  simp only [mul_add, mul_div_assoc', mul_ite, mul_zero, sum_add_distrib, ite_div, zero_div]
  rw [sum_ite_eq', sum_ite_eq', if_pos (mem_range.mpr (Nat.mod_lt _ (by omega))), if_pos (mem_range.mpr hbn)]
  have hsym : G ((n - b) % n) = G b := by
    simp only [hG, hn]
    have := shifted_reflect h b (by omega)
    have hR : (shifted (2 * h) ((2 * h - b) % (2 * h)) : ℝ) ^ 2 = (shifted (2 * h) b : ℝ) ^ 2 := by exact_mod_cast this
    rw [div_div, div_div, div_pow, div_pow, hR]
  rw [hsym]
  have hGb : Real.exp (-(1 / 2) * ((shifted n b : ℝ) / len / sg) ^ 2) = G b := rfl
  rw [hGb]
  field_simp
  ring

/-- What `Gaussian` returns on the reciprocal coordinates. -/
theorem gaussOp_eq {n : ℕ} {x t : Dim} (hR : Spec.Reciprocal n x t) (hn : 1 < n)
    (hq : t.ks = (List.range n).map fun j : ℕ => (j : ℝ) - ((n / 2 : ℕ) : ℤ)) (hτ : 0 < t.increment) (fwhm u : ℝ) (hf : 0 < fwhm) (hu : 0 < u) :
    gaussOp fwhm (some u) t.coords = .ok ((List.range n).map fun j =>
      ((gaussAmp n ((n - 1) * t.increment * u) (fwhm / (2354820045030949 / 1000000000000000)) ((j + n / 2) % n) /
        (fwhm / (2354820045030949 / 1000000000000000) * √(2 * Real.pi)) : ℝ) : ℂ)) := by
  have hlen : t.coords.length = n := by unfold Dim.coords; rw [hq]; simp
  have hget : ∀ k, k < n → t.coords[k]? = some (t.increment * ((k : ℝ) - (n / 2 : ℕ))) := by
    intro k hk
    unfold Dim.coords
    rw [hq, List.getElem?_map, List.getElem?_map, List.getElem?_range hk, hR.zero]
    simp only [Option.map_some, zero_add, Int.cast_natCast]
  have h1 : t.coords.head? = some (t.increment * (((0 : ℕ) : ℝ) - (n / 2 : ℕ))) := by
    rw [List.head?_eq_getElem?, hget 0 (by omega)]
  have h2 : t.coords.getLast? = some (t.increment * (((n - 1 : ℕ) : ℝ) - (n / 2 : ℕ))) := by
    rw [List.getLast?_eq_getElem?, hlen, hget (n - 1) (by omega)]
  have hlt : (((0 : ℕ) : ℝ)) < ((n - 1 : ℕ) : ℝ) := by exact_mod_cast (by omega : 0 < n - 1)
  unfold gaussOp
  rw [gaussFn_eq fwhm u t.coords _ _ h1 h2 hu (by apply mul_lt_mul_of_pos_left _ hτ; linarith) hf, hlen]
  have hl : t.increment * (((n - 1 : ℕ) : ℝ) - (n / 2 : ℕ)) * u - t.increment * (((0 : ℕ) : ℝ) - (n / 2 : ℕ)) * u =
      (n - 1) * t.increment * u := by
    rw [Nat.cast_sub (by omega)]
    push_cast
    ring
  rw [hl]
  simp only [List.map_map]
  rfl

theorem gauss_mixing {n : ℕ} {x t : Dim} (hR : Spec.Reciprocal n x t) {s : ℝ} (hs : s = 1 ∨ s = -1) (hev : n % 2 = 0)
    (hq : t.ks = (List.range n).map fun j : ℕ => (j : ℝ) - ((n / 2 : ℕ) : ℤ)) (hx0 : 0 < x.increment) (sg u : ℝ) (hsg : 0 < sg) (hu : 0 < u)
    (i j : ℕ) (hi : i < n) (hj : j < n) :
    ∃ ν : ℝ, Spec.Around (n * x.increment) (Spec.at x i - Spec.at x j) ν ∧
      mixing n s x t (fun k => ((gaussAmp n ((n - 1) * t.increment * u) sg ((k + n / 2) % n) / (sg * √(2 * Real.pi)) : ℝ) : ℂ)) i j =
        (((n - 1) / n * (u * t.increment) * (x.increment * Spec.gauss ((n - 1) / n * (sg * u)) ν) : ℝ) : ℂ) := by
  obtain ⟨h, rfl⟩ : ∃ h, n = 2 * h := ⟨n / 2, by omega⟩
  have hpos := hR.pos
  have hh : 0 < h := by omega
  have hsp := hR.spacing
  obtain ⟨p, hp⟩ := hR.first
  set n := 2 * h with hn
  set δ := x.increment with hδ
  set τ := t.increment with hτ
  have hnR : (0 : ℝ) < n := by exact_mod_cast hpos
  have hn1 : (1 : ℝ) < n := by exact_mod_cast (by omega : 1 < n)
  have hτ0 : 0 < τ := by
    by_contra h0
    have : n * δ * τ ≤ 0 := mul_nonpos_of_nonneg_of_nonpos (by positivity) (not_lt.mp h0)
    linarith
  have hhalf : n / 2 = h := by omega
  obtain ⟨σ, hσ, hσ1⟩ : ∃ σ : ℤ, s = σ ∧ (σ = 1 ∨ σ = -1) := by
    rcases hs with h | h
    · exact ⟨1, by rw [h]; simp, Or.inl rfl⟩
    · exact ⟨-1, by rw [h]; simp, Or.inr rfl⟩
  have hσσ : σ * σ = 1 := by rcases hσ1 with h | h <;> rw [h] <;> rfl
  set l : ℤ := σ * ((j : ℤ) - i) with hl
  have hx : Spec.at x j - Spec.at x i = δ * ((j : ℝ) - i) := by
    rw [at_eq x n p hp j hj, at_eq x n p hp i hi]
    ring
  have harg : ∀ k, k < n → s * (Spec.at x j - Spec.at x i) * Spec.at t k = (l : ℝ) / n * ((k : ℝ) - h) := by
    intro k hk
    rw [at_eq t n _ hq k hk, hR.zero, hx, hσ, hl, Int.cast_natCast, hhalf]
    have : δ * τ = 1 / n := by rw [eq_div_iff hnR.ne']; linarith
    push_cast
    linear_combination (σ : ℝ) * ((j : ℝ) - i) * ((k : ℝ) - h) * this
  have hperm : ∑ k ∈ range n, (gaussAmp n ((n - 1) * τ * u) sg ((k + n / 2) % n) : ℂ) *
      Spec.turn (s * (Spec.at x j - Spec.at x i) * Spec.at t k) =
      ∑ m ∈ range n, (gaussAmp n ((n - 1) * τ * u) sg m : ℂ) * Spec.turn ((l : ℝ) / n * m) := by
    rw [sum_congr rfl fun k hk => by rw [harg k (mem_range.mp hk)]]
    rw [hhalf, show range n = range (h + h) by rw [hn, two_mul], Finset.sum_range_add, Finset.sum_range_add, add_comm]
    congr 1
    · refine sum_congr rfl fun k hk => ?_
      have := mem_range.mp hk
      rw [show (h + k + h) % n = k by rw [show h + k + h = k + n by omega, Nat.add_mod_right, Nat.mod_eq_of_lt (by omega)]]
      congr 2
      push_cast
      ring
    · refine sum_congr rfl fun k hk => ?_
      have := mem_range.mp hk
      rw [show (k + h) % n = h + k by rw [Nat.mod_eq_of_lt (by omega)]; omega]
      congr 1
      have : (l : ℝ) / n * ((h + k : ℕ) : ℝ) = (l : ℝ) / n * ((k : ℝ) - h) + (l : ℤ) := by
        rw [hn]
        push_cast
        field_simp
        ring
      rw [this, turn_add, turn_int, mul_one]
  set b := (l % (n : ℤ)).toNat with hb
  have hb0 := Int.emod_nonneg l (show (n : ℤ) ≠ 0 by omega)
  have hb1 := Int.emod_lt_of_pos l (show (0 : ℤ) < n by omega)
  have hG := gauss_transform h hh ((n - 1) * τ * u) sg l
  rw [← hn, ← hb] at hG
  obtain ⟨m, hm⟩ : ∃ m : ℤ, shifted n b = l + m * n := by
    have hl' : l % n + n * (l / n) = l := Int.emod_add_mul_ediv l n
    unfold shifted
    split
    · exact ⟨-(l / n), by rw [hb, Int.toNat_of_nonneg hb0]; linarith⟩
    · exact ⟨-(l / n) - 1, by rw [hb, Int.toNat_of_nonneg hb0]; linarith⟩
  have hbound : |shifted n b| ≤ h := by
    unfold shifted
    rw [abs_le]
    split <;> constructor <;> omega
  refine ⟨-(σ * δ * shifted n b), ⟨?_, -(σ * m), ?_⟩, ?_⟩
  · rw [abs_neg, abs_mul, abs_mul, abs_of_pos hx0]
    have h1 : |(σ : ℝ)| = 1 := by rcases hσ1 with h | h <;> rw [h] <;> simp
    have h2 : |(shifted n b : ℝ)| ≤ h := by exact_mod_cast hbound
    rw [h1, one_mul, hn]
    push_cast
    nlinarith
  · rw [← neg_sub, hx, hm, hl]
    have : (σ : ℝ) * σ = 1 := by exact_mod_cast hσσ
    push_cast
    linear_combination (-(δ * ((j : ℝ) - i))) * this
  · unfold mixing
    have e : ∀ k ∈ range n, ((gaussAmp n ((n - 1) * τ * u) sg ((k + n / 2) % n) / (sg * √(2 * Real.pi)) : ℝ) : ℂ) *
        Spec.turn (s * (Spec.at x j - Spec.at x i) * Spec.at t k) = ((sg * √(2 * Real.pi) : ℝ) : ℂ)⁻¹ *
        ((gaussAmp n ((n - 1) * τ * u) sg ((k + n / 2) % n) : ℂ) * Spec.turn (s * (Spec.at x j - Spec.at x i) * Spec.at t k)) := by
      intro k _
      push_cast
      ring
    rw [sum_congr rfl e, ← mul_sum, hperm, hG, ← Complex.ofReal_inv, ← Complex.ofReal_mul,
      show ((n : ℂ))⁻¹ = (((n : ℝ)⁻¹ : ℝ) : ℂ) by push_cast; rfl, ← Complex.ofReal_mul]
    congr 1
    unfold Spec.gauss
    have hδτ : δ = 1 / (n * τ) := by rw [eq_div_iff (by positivity)]; linarith
    have hexp : ((shifted n b : ℝ) / ((n - 1) * τ * u) / sg) ^ 2 = (-(σ * δ * shifted n b) / ((n - 1) / n * (sg * u))) ^ 2 := by
      have hσ2 : (σ : ℝ) ^ 2 = 1 := by rw [sq]; exact_mod_cast hσσ
      have hne : (n : ℝ) - 1 ≠ 0 := by linarith
      have : -((σ : ℝ) * δ * shifted n b) / ((n - 1) / n * (sg * u)) = -σ * ((shifted n b : ℝ) / ((n - 1) * τ * u) / sg) := by
        rw [hδτ]
        field_simp
      rw [this, mul_pow, neg_sq, hσ2, one_mul]
    rw [hexp]
    have hne : (n : ℝ) - 1 ≠ 0 := by linarith
    have hsq : √(2 * Real.pi) ≠ 0 := by have := Real.pi_pos; positivity
    rw [hδτ]
    field_simp

/-- **C122, Gaussian, partial.** On a spectrum with an even number of points, a transform, `Gaussian`, and the transform back weight the
values with a Gaussian of the distance around the axis. Its standard deviation is `(n - 1) / n` times the one asked for, and its area
`(n - 1) / n` times the time between two points in the reciprocal unit of the width, not one. Missing: the width and the area one (see
the counterexample), numbers of points that are odd (see C53), dependent variables named twice, and the transform of the library, which
is assumed. -/
theorem C122_gaussian_partial (lib : ℕ → Data → Py Data) (dim n : ℕ) (s : ℝ) (hs : s = 1 ∨ s = -1) (x t : Dim) (c : ℕ → ℂ)
    (hc : ∀ k, k < n → c k ≠ 0) (hF : Spec.Forward lib dim n s x t c) (hB : Spec.Backward lib dim n s x t c)
    (hR : Spec.Reciprocal n x t) (hq : t.ks = (List.range n).map fun j : ℕ => (j : ℝ) - ((n / 2 : ℕ) : ℤ))
    (hev : n % 2 = 0) (hx0 : 0 < x.increment) (w u : ℝ) (hw : 0 < w) (hu : 0 < u) (dv : DvIndex)
    (st : Store) (r : ℕ) (d : Data) (hd : st[r]? = some d) (hx : d.dims[dim]? = some x) (hN : Spec.Names d.dvs.length dv) :
    ∃ (st' : Store) (r' : ℕ) (d' : Data),
      applyOperations lib [.fft [dim], .apodize (gaussOp w (some u)) [dim] dv, .fft [dim]] (st, r) = (st', .ok r') ∧
      st'[r']? = some d' ∧ d'.dims = d.dims ∧ d'.dvs.length = d.dvs.length ∧
      ∀ (v : ℕ) (g g' : List ℕ → ℂ), d.dvs[v]? = some g → d'.dvs[v]? = some g' → Spec.times d.dvs.length v dv = 1 →
        ∃ D : ℕ → ℕ → ℝ, (∀ i, i < n → ∀ j, j < n → Spec.Around (n * x.increment) (Spec.at x i - Spec.at x j) (D i j)) ∧
          ∀ ix, Spec.Inside n dim ix → g' ix = ∑ j ∈ range n,
            (((n - 1) / n * (u * t.increment) * (x.increment *
              Spec.gauss ((n - 1) / n * (w / (2354820045030949 / 1000000000000000) * u)) (D (ix.getD dim 0) j)) : ℝ) : ℂ) *
            g (ix.set dim j) := by
  have hn := hR.pos
  have hnR : (0 : ℝ) < n := by exact_mod_cast hn
  have hτ0 : 0 < t.increment := by
    have hsp := hR.spacing
    by_contra h0
    have : n * x.increment * t.increment ≤ 0 := mul_nonpos_of_nonneg_of_nonpos (by positivity) (not_lt.mp h0)
    linarith
  obtain ⟨st', r', d', h1, h2, h3, h4, h5⟩ := apodize_run lib dim n s x t c hc hF hB (gaussOp w (some u)) _
    (gaussOp_eq hR (by omega) hq hτ0 w u hw hu) dv st r d hd hx hN
  refine ⟨st', r', d', h1, h2, h3, h4, fun v g g' hg hg' hone => ?_⟩
  have hm := gauss_mixing hR hs hev hq hx0 (w / (2354820045030949 / 1000000000000000)) u (by positivity) hu
  choose! D hD1 hD2 using hm
  refine ⟨D, fun i hi j hj => hD1 i j hi hj, fun ix hix => ?_⟩
  rw [h5 v g g' hg hg' ix hix, hone]
  refine sum_congr rfl fun j hj => ?_
  rw [← hD2 _ j hix.2 (mem_range.mp hj)]
  congr 1
  unfold mixing
  congr 1
  refine sum_congr rfl fun k hk => ?_
  congr 1
  beta_reduce
  rw [pow_one, List.getD_eq_getElem?_getD, List.getElem?_map, List.getElem?_range (mem_range.mp hk)]
  rfl

/-- **C122, Gaussian, disagreement.** The line is narrower than asked for: of a spectrum that is one at a single point, the value at every
other point is less, relative to that at the point itself, than the Gaussian of the width that was asked for. -/
theorem C122_counterexample_gaussian (lib : ℕ → Data → Py Data) (n : ℕ) (s : ℝ) (hs : s = 1 ∨ s = -1) (x t : Dim) (c : ℕ → ℂ)
    (hc : ∀ k, k < n → c k ≠ 0) (hF : Spec.Forward lib 0 n s x t c) (hB : Spec.Backward lib 0 n s x t c)
    (hR : Spec.Reciprocal n x t) (hq : t.ks = (List.range n).map fun j : ℕ => (j : ℝ) - ((n / 2 : ℕ) : ℤ))
    (hev : n % 2 = 0) (hx0 : 0 < x.increment) (w u : ℝ) (hw : 0 < w) (hu : 0 < u) (i j : ℕ) (hi : i < n) (hj : j < n) (hij : i ≠ j) :
    ∃ (st' : Store) (r' : ℕ) (d' : Data) (g' : List ℕ → ℂ) (ν : ℝ),
      applyOperations lib [.fft [0], .apodize (gaussOp w (some u)) [0] .all, .fft [0]]
        ([⟨[x], [fun ix => if ix = [j] then 1 else 0]⟩], 0) = (st', .ok r') ∧
      st'[r']? = some d' ∧ d'.dvs = [g'] ∧ Spec.Around (n * x.increment) (Spec.at x i - Spec.at x j) ν ∧
      0 < (g' [j]).re ∧ (g' [i]).re / (g' [j]).re <
        Spec.gauss (w / (2354820045030949 / 1000000000000000) * u) ν / Spec.gauss (w / (2354820045030949 / 1000000000000000) * u) 0 := by
  have hn := hR.pos
  have hnR : (0 : ℝ) < n := by exact_mod_cast hn
  have hn1 : (1 : ℝ) < n := by exact_mod_cast (by omega : 1 < n)
  have hτ0 : 0 < t.increment := by
    have hsp := hR.spacing
    by_contra h0
    have : n * x.increment * t.increment ≤ 0 := mul_nonpos_of_nonneg_of_nonpos (by positivity) (not_lt.mp h0)
    linarith
  obtain ⟨st', r', d', h1, h2, h3, h4, h5⟩ := C122_gaussian_partial lib 0 n s hs x t c hc hF hB hR hq hev hx0 w u hw hu .all
    [⟨[x], [fun ix => if ix = [j] then 1 else 0]⟩] 0 _ rfl rfl trivial
  obtain ⟨g', hg'⟩ : ∃ g', d'.dvs = [g'] := List.length_eq_one_iff.mp h4
  obtain ⟨D, hD, hD2⟩ := h5 0 _ g' rfl (by rw [hg']; rfl) rfl
  set sg := w / (2354820045030949 / 1000000000000000) with hsg
  have hsg0 : 0 < sg := by positivity
  have hval : ∀ k, k < n → g' [k] = (((n - 1) / n * (u * t.increment) * (x.increment *
      Spec.gauss ((n - 1) / n * (sg * u)) (D k j)) : ℝ) : ℂ) := by
    intro k hk
    rw [hD2 [k] ⟨by simp, by simpa using hk⟩]
    simp only [List.set_cons_zero, List.cons.injEq, and_true, mul_ite, mul_one, mul_zero]
    rw [sum_ite_eq', if_pos (mem_range.mpr hj)]
    rfl
  obtain ⟨p, hp⟩ := hR.first
  have hDi : D i j ≠ 0 := by
    obtain ⟨_, m, hm⟩ := hD i hi j hj
    intro h0
    rw [h0, at_eq x n p hp i hi, at_eq x n p hp j hj] at hm
    have : x.increment * (((i : ℤ) - j + m * n : ℤ) : ℝ) = 0 := by push_cast; linarith
    rcases mul_eq_zero.mp this with h | h
    · exact hx0.ne' h
    · have h' : (i : ℤ) - j + m * n = 0 := by exact_mod_cast h
      have := Int.eq_zero_of_abs_lt_dvd (show (n : ℤ) ∣ (i : ℤ) - j from ⟨-m, by linarith⟩) (by rw [abs_lt]; constructor <;> omega)
      omega
  have hDj : D j j = 0 := by
    obtain ⟨hb, m, hm⟩ := hD j hj j hj
    rw [sub_self, zero_add] at hm
    rw [hm, abs_mul, abs_of_pos (show (0 : ℝ) < n * x.increment by positivity)] at hb
    have hm1 : |(m : ℝ)| ≤ 1 / 2 := by
      have : 0 < n * x.increment := by positivity
      nlinarith
    have : |m| < 1 := by
      have h2 : |(m : ℝ)| < 1 := by linarith
      exact_mod_cast h2
    rw [hm, Int.abs_lt_one_iff.mp this]
    simp
  have hpi := Real.pi_pos
  have hn0 : (0 : ℝ) < n - 1 := by linarith
  refine ⟨st', r', d', g', D i j, h1, h2, hg', hD i hi j hj, ?_, ?_⟩
  · rw [hval j hj, Complex.ofReal_re]
    unfold Spec.gauss
    positivity
  · rw [hval j hj, hval i hi, Complex.ofReal_re, Complex.ofReal_re, hDj]
    have ratio : ∀ (a σ ν : ℝ), 0 < a → 0 < σ → a * Spec.gauss σ ν / (a * Spec.gauss σ 0) = Real.exp (-(1 / 2) * (ν / σ) ^ 2) := by
      intro a σ ν ha hσ
      unfold Spec.gauss
      rw [zero_div, zero_pow (by norm_num), mul_zero, Real.exp_zero]
      field_simp
    have r1 := ratio ((n - 1) / n * (u * t.increment) * x.increment) ((n - 1) / n * (sg * u)) (D i j) (by positivity) (by positivity)
    have r2 := ratio 1 (sg * u) (D i j) one_pos (by positivity)
    rw [one_mul, one_mul] at r2
    rw [← mul_assoc, ← mul_assoc ((n - 1) / n * (u * t.increment) : ℝ), r1, r2, Real.exp_lt_exp]
    have hlt : (n - 1 : ℝ) / n * (sg * u) < sg * u := by
      have : (n - 1 : ℝ) / n < 1 := by rw [div_lt_one hnR]; linarith
      have h0 : 0 < sg * u := by positivity
      nlinarith
    have : (D i j / (sg * u)) ^ 2 < (D i j / ((n - 1) / n * (sg * u))) ^ 2 := by
      rw [div_pow, div_pow]
      apply div_lt_div_of_pos_left (by positivity) (by positivity)
      exact pow_lt_pow_left₀ hlt (by positivity) (by norm_num)
    linarith

/-- The hypotheses are met: a spectrum of four points. -/
example : ∃ (st' : Store) (r' : ℕ) (d' : Data) (g' : List ℕ → ℂ) (ν : ℝ),
    applyOperations (Ex.lib 0 4 1 Ex.x Ex.t) [.fft [0], .apodize (gaussOp 10 (some 1)) [0] .all, .fft [0]]
      ([⟨[Ex.x], [fun ix => if ix = [1] then 1 else 0]⟩], 0) = (st', .ok r') ∧
      st'[r']? = some d' ∧ d'.dvs = [g'] ∧ Spec.Around (4 * 10) (Spec.at Ex.x 3 - Spec.at Ex.x 1) ν ∧ 0 < (g' [1]).re := by
  have hne : Ex.x ≠ Ex.t := by
    intro h
    have := congrArg Dim.increment h
    norm_num [Ex.x, Ex.t] at this
  obtain ⟨st', r', d', g', ν, h1, h2, h3, h4, h5, _⟩ := C122_counterexample_gaussian (Ex.lib 0 4 1 Ex.x Ex.t) 4 1 (Or.inl rfl) Ex.x Ex.t
    (fun _ => 1) (by simp) (Ex.lib_forward 0 4 1 Ex.x Ex.t) (Ex.lib_backward _ _ _ _ _ hne) Ex.reciprocal rfl (by norm_num)
    (by norm_num [Ex.x]) 10 1 (by norm_num) (by norm_num) 3 1 (by norm_num) (by norm_num) (by norm_num)
  exact ⟨st', r', d', g', ν, h1, h2, h3, by simpa [Ex.x] using h4, h5⟩

end MRS.Signal
