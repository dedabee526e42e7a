import Verif.Signal.Ops
import Mathlib.Analysis.Fourier.ZMod
import Mathlib.Analysis.SpecialFunctions.Trigonometric.Bounds
import Mathlib.Analysis.Real.Pi.Bounds
import Mathlib.Tactic.FieldSimp

/-!
# Apodisation — property C53

Model of src/mrsimulator/signal_processing/apodization.py. Coordinates are in the base unit; a
width has a value and, if it was given as a string, a unit, here its size in the reciprocal base
unit.
-/

namespace MRS.Signal

open Real

/-- `Exponential.fn` (apodization.py lines 152-154). Without a unit `1 / ""` raises TypeError. -/
noncomputable def expFn (fwhm : ℝ) (unit : Option ℝ) (x : List ℝ) : Py (List ℂ) :=
  match unit with
  | none => .error .typeError
  | some u => .ok (x.map fun t => ((Real.exp (-fwhm * π * |t * u|) : ℝ) : ℂ))

/-- Entry `k` of `ifftshift(arange(n) - int(n / 2))` (apodization.py lines 40-62). -/
def shifted (n k : ℕ) : ℤ := if k + n / 2 < n then k else (k : ℤ) - n

/-- Entry `m` of the real part of `ifft(exp(-0.5 * (xinv / sigma) ** 2))`, where `len` is
`x[-1] - x[0]` (apodization.py lines 65-111). -/
noncomputable def gaussAmp (n : ℕ) (len sigma : ℝ) (m : ℕ) : ℝ :=
  1 / n * ∑ k ∈ Finset.range n,
    Real.exp (-(1 / 2) * ((shifted n k : ℝ) / len / sigma) ^ 2) * cos (2 * π * m * k / n)

/-- `Gaussian.fn` (apodization.py lines 108-114). Dividing by zero (width zero, or equal first and
last coordinate) gives nan at the first entry of the array that is transformed, and hence
everywhere; this is `none`. -/
noncomputable def gaussFn (fwhm : ℝ) (unit : Option ℝ) (x : List ℝ) : Py (Option (List ℝ)) :=
  match unit with
  | none => .error .typeError
  | some u =>
    match x.head?, x.getLast? with
    | some a, some b =>
      let sigma := fwhm / (2354820045030949 / 1000000000000000)
      let len := b * u - a * u
      if len = 0 ∨ sigma = 0 then .ok none
      else .ok (some ((List.range x.length).map fun j =>
        gaussAmp x.length len sigma ((j + x.length / 2) % x.length) / (sigma * √(2 * π))))
    | _, _ => .error .indexError

/-! ## Exponential -/

/-- **C53, exponential, partial.** With a unit and a width that is not negative there is one factor
for each coordinate. It is one at zero time, positive and at most one everywhere, the same at `t`
and `-t`, and does not grow with distance from zero. At width zero it is one everywhere. The
factors of two widths multiply to that of the sum. Only the product of value and unit matters.

Missing for the full property: the same for `Gaussian`, and widths given without unit (see the
counterexamples below). -/
theorem C53_exponential_partial (a b u : ℝ) (ha : 0 ≤ a) :
    ∃ f g h : ℝ → ℝ,
      (∀ x, expFn a (some u) x = .ok (x.map fun t => (f t : ℂ))) ∧
      (∀ x, expFn b (some u) x = .ok (x.map fun t => (g t : ℂ))) ∧
      (∀ x, expFn (a + b) (some u) x = .ok (x.map fun t => (h t : ℂ))) ∧
      f 0 = 1 ∧ (∀ t, 0 < f t ∧ f t ≤ 1) ∧ (∀ t, f (-t) = f t) ∧
      (∀ s t, |s| ≤ |t| → f t ≤ f s) ∧ (a = 0 → ∀ t, f t = 1) ∧ (∀ t, f t * g t = h t) ∧
      (∀ c x, 0 < c → expFn (a * c) (some (u / c)) x = expFn a (some u) x) := by
  refine ⟨fun t => Real.exp (-a * π * |t * u|), fun t => Real.exp (-b * π * |t * u|),
    fun t => Real.exp (-(a + b) * π * |t * u|), fun _ => rfl, fun _ => rfl, fun _ => rfl,
    ?_, ?_, ?_, ?_, ?_, ?_, ?_⟩
  · simp
  · intro t
    refine ⟨Real.exp_pos _, Real.exp_le_one_iff.mpr ?_⟩
    have : 0 ≤ a * π * |t * u| := by positivity
    linarith
  · intro t
    simp only
    rw [neg_mul t u, abs_neg]
  · intro s t hst
    apply Real.exp_le_exp.mpr
    rw [abs_mul, abs_mul]
    have h1 : a * π * (|s| * |u|) ≤ a * π * (|t| * |u|) := by
      apply mul_le_mul_of_nonneg_left _ (by positivity)
      exact mul_le_mul_of_nonneg_right hst (abs_nonneg _)
    linarith
  · intro h0 t
    simp [h0]
  · intro t
    simp only
    rw [← Real.exp_add]
    congr 1
    ring
  · intro c x hc
    unfold expFn
    simp only [Except.ok.injEq]
    apply List.map_congr_left
    intro t _
    congr 2
    rw [abs_mul, abs_mul, abs_div, abs_of_pos hc]
    field_simp

example : (0 : ℝ) ≤ 143.4 := by norm_num

/-- **C53, area.** Going to the time domain by the inverse discrete Fourier transform, multiplying
by any factors that are one at time zero, and going back leaves the sum over the spectrum
unchanged. (`fft` and `ifft` of the library are trusted to be the discrete Fourier transform.) -/
theorem C53_area (n : ℕ) [NeZero n] (spectrum w : ZMod n → ℂ) (hw : w 0 = 1) :
    ∑ k, ZMod.dft (fun t => w t * ZMod.dft.symm spectrum t) k = ∑ k, spectrum k := by
  have key : ∀ f : ZMod n → ℂ, ∑ k, ZMod.dft f k = n * f 0 := by
    intro f
    have h := congrFun (ZMod.dft_dft f) 0
    rw [ZMod.dft_apply_zero] at h
    simpa using h
  rw [key, hw, one_mul, ← key]
  rw [LinearEquiv.apply_symm_apply]

/-- In particular for exponential factors. -/
theorem C53_exponential_area (n : ℕ) [NeZero n] (spectrum : ZMod n → ℂ) (time : ZMod n → ℝ)
    (h0 : time 0 = 0) (a u : ℝ) :
    ∑ k, ZMod.dft (fun t => ((Real.exp (-a * π * |time t * u|) : ℝ) : ℂ) *
      ZMod.dft.symm spectrum t) k = ∑ k, spectrum k := by
  apply C53_area n spectrum (fun t => ((Real.exp (-a * π * |time t * u|) : ℝ) : ℂ))
  simp [h0]

example : ∃ time : ZMod 4 → ℝ, time 0 = 0 ∧ time 1 = 2 := ⟨fun k => if k = 1 then 2 else 0, 
  if_neg (by decide), if_pos rfl⟩

/-- **C53, disagreement.** A width without a unit (also the default, zero) is an error for both. -/
theorem C53_counterexample_unit (fwhm : ℝ) (x : List ℝ) :
    expFn fwhm none x = .error .typeError ∧ gaussFn fwhm none x = .error .typeError := ⟨rfl, rfl⟩

/-! ## Gaussian -/

theorem gaussAmp_bound (n : ℕ) (len sigma : ℝ) (m : ℕ) : |gaussAmp n len sigma m| ≤ 1 := by
  rcases Nat.eq_zero_or_pos n with rfl | hn
  · simp [gaussAmp]
  unfold gaussAmp
  rw [abs_mul]
  have hn' : (0 : ℝ) < n := by exact_mod_cast hn
  have h1 : |∑ k ∈ Finset.range n,
      Real.exp (-(1 / 2) * ((shifted n k : ℝ) / len / sigma) ^ 2) * cos (2 * π * m * k / n)| ≤
      ∑ _k ∈ Finset.range n, (1 : ℝ) := by
    refine le_trans (Finset.abs_sum_le_sum_abs _ _) ?_
    apply Finset.sum_le_sum
    intro k _
    rw [abs_mul, abs_of_pos (Real.exp_pos _)]
    have e1 : Real.exp (-(1 / 2) * ((shifted n k : ℝ) / len / sigma) ^ 2) ≤ 1 := by
      apply Real.exp_le_one_iff.mpr
      nlinarith [sq_nonneg ((shifted n k : ℝ) / len / sigma)]
    calc _ ≤ (1 : ℝ) * 1 := mul_le_mul e1 (abs_cos_le_one _) (abs_nonneg _) (by norm_num)
      _ = 1 := by norm_num
  rw [Finset.sum_const, Finset.card_range, nsmul_eq_mul, mul_one] at h1
  rw [abs_of_pos (by positivity)]
  calc 1 / (n : ℝ) * _ ≤ 1 / (n : ℝ) * n := mul_le_mul_of_nonneg_left h1 (by positivity)
    _ = 1 := by field_simp

theorem gaussAmp_le_zero (n : ℕ) (len sigma : ℝ) (m : ℕ) :
    |gaussAmp n len sigma m| ≤ gaussAmp n len sigma 0 := by
  unfold gaussAmp
  rw [abs_mul, abs_of_nonneg (by positivity : (0 : ℝ) ≤ 1 / n)]
  apply mul_le_mul_of_nonneg_left _ (by positivity)
  refine le_trans (Finset.abs_sum_le_sum_abs _ _) ?_
  apply Finset.sum_le_sum
  intro k _
  rw [abs_mul, abs_of_pos (Real.exp_pos _)]
  apply mul_le_mul_of_nonneg_left _ (Real.exp_pos _).le
  simp only [Nat.cast_zero, mul_zero, zero_mul, zero_div, cos_zero]
  exact abs_cos_le_one _

theorem gaussAmp_reflect (n : ℕ) (hn : 0 < n) (len sigma : ℝ) (m : ℕ) (hm : m ≤ n) :
    gaussAmp n len sigma (n - m) = gaussAmp n len sigma m := by
  have hn' : (n : ℝ) ≠ 0 := by exact_mod_cast hn.ne'
  unfold gaussAmp
  congr 1
  apply Finset.sum_congr rfl
  intro k _
  congr 1
  rw [Nat.cast_sub hm]
  have : 2 * π * ((n : ℝ) - m) * k / n = k * (2 * π) - 2 * π * m * k / n := by
    field_simp
  rw [this, cos_nat_mul_two_pi_sub]

/-- What `Gaussian.fn` returns. -/
theorem gaussFn_eq (fwhm u : ℝ) (x : List ℝ) (a b : ℝ) (ha : x.head? = some a)
    (hb : x.getLast? = some b) (hu : 0 < u) (hab : a < b) (hf : 0 < fwhm) :
    gaussFn fwhm (some u) x = .ok (some ((List.range x.length).map fun j =>
      gaussAmp x.length (b * u - a * u) (fwhm / (2354820045030949 / 1000000000000000))
        ((j + x.length / 2) % x.length) /
        (fwhm / (2354820045030949 / 1000000000000000) * √(2 * π)))) := by
  unfold gaussFn
  rw [ha, hb]
  simp only
  rw [if_neg]
  rintro (h | h)
  · nlinarith
  · have : 0 < fwhm / (2354820045030949 / 1000000000000000) := by positivity
    linarith

/-- **C53, Gaussian, disagreement.** For every grid, and every width of more than 0.94 of its unit,
every factor, the one at zero time included, is less than one: the area of the spectrum is
not preserved. (0.9395 exceeds 2.3548 / √(2 π).) -/
theorem C53_counterexample_gaussian_area (fwhm u : ℝ) (x : List ℝ) (a b : ℝ)
    (ha : x.head? = some a) (hb : x.getLast? = some b) (hu : 0 < u) (hab : a < b)
    (hf : 0.9395 < fwhm) :
    ∃ l, gaussFn fwhm (some u) x = .ok (some l) ∧ l.length = x.length ∧ ∀ v ∈ l, |v| < 1 := by
  refine ⟨_, gaussFn_eq fwhm u x a b ha hb hu hab (by linarith), by simp, ?_⟩
  intro v hv
  obtain ⟨j, _, rfl⟩ := List.mem_map.mp hv
  have hs : 1 < fwhm / (2354820045030949 / 1000000000000000) * √(2 * π) := by
    have h1 : (2.50662 : ℝ) < √(2 * π) := by
      apply Real.lt_sqrt_of_sq_lt
      have := Real.pi_gt_d20
      norm_num at this ⊢
      linarith
    have h2 : (0.9395 : ℝ) / (2354820045030949 / 1000000000000000) <
        fwhm / (2354820045030949 / 1000000000000000) := by
      apply div_lt_div_of_pos_right hf (by norm_num)
    calc (1 : ℝ) < 0.9395 / (2354820045030949 / 1000000000000000) * 2.50662 := by norm_num
      _ ≤ _ := mul_le_mul h2.le h1.le (by norm_num) (by
          apply le_trans _ h2.le
          norm_num)
  rw [abs_div, abs_of_pos (by linarith : 0 < fwhm / (2354820045030949 / 1000000000000000) *
    √(2 * π)), div_lt_one (by linarith)]
  exact lt_of_le_of_lt (gaussAmp_bound _ _ _ _) hs

example : ∃ x : List ℝ, x.head? = some (-2) ∧ x.getLast? = some 1 :=
  ⟨[-2, -1, 0, 1], rfl, rfl⟩

/-- **C53, Gaussian, disagreement.** At width zero, the default value, every value becomes nan. -/
theorem C53_counterexample_gaussian_zero (u : ℝ) (x : List ℝ) (hx : x ≠ []) :
    gaussFn 0 (some u) x = .ok none := by
  unfold gaussFn
  match h1 : x.head?, h2 : x.getLast? with
  | none, _ => exact absurd (List.head?_eq_none_iff.mp h1) hx
  | some a, none => exact absurd (List.getLast?_eq_none_iff.mp h2) hx
  | some a, some b => simp

/-- **C53, Gaussian, partial.** For an even number of points, with zero time at the middle point,
the factors are even in time and largest in magnitude at zero time. -/
theorem C53_gaussian_even_partial (fwhm u : ℝ) (x : List ℝ) (a b : ℝ)
    (ha : x.head? = some a) (hb : x.getLast? = some b) (hu : 0 < u) (hab : a < b) (hf : 0 < fwhm)
    (c : ℕ) (hc : x.length = 2 * c) :
    ∃ l, gaussFn fwhm (some u) x = .ok (some l) ∧
      (∀ t, t < c → l[c - t]? = l[c + t]?) ∧
      ∃ v, l[c]? = some v ∧ ∀ w ∈ l, |w| ≤ v := by
  have hc0 : 0 < c := by
    rcases Nat.eq_zero_or_pos c with rfl | h
    · have : x = [] := List.length_eq_zero_iff.mp (by omega)
      rw [this] at ha
      simp at ha
    · exact h
  refine ⟨_, gaussFn_eq fwhm u x a b ha hb hu hab hf, ?_, ?_⟩
  · intro t ht
    rw [List.getElem?_map, List.getElem?_map, List.getElem?_range (by omega),
      List.getElem?_range (by omega), Option.map_some, Option.map_some]
    congr 2
    have e1 : x.length / 2 = c := by omega
    rw [e1]
    rcases Nat.eq_zero_or_pos t with rfl | ht0
    · rfl
    · have e2 : (c - t + c) % x.length = x.length - t := by
        rw [Nat.mod_eq_of_lt (by omega)]; omega
      have e3 : (c + t + c) % x.length = t := by
        rw [show c + t + c = x.length + t by omega, Nat.add_mod_left, Nat.mod_eq_of_lt (by omega)]
      rw [e2, e3]
      exact gaussAmp_reflect _ (by omega) _ _ _ (by omega)
  · refine ⟨_, by rw [List.getElem?_map, List.getElem?_range (by omega), Option.map_some], ?_⟩
    intro w hw
    obtain ⟨j, _, rfl⟩ := List.mem_map.mp hw
    have e1 : x.length / 2 = c := by omega
    have e2 : (c + c) % x.length = 0 := by
      rw [show c + c = x.length by omega, Nat.mod_self]
    rw [e1, e2, abs_div]
    have hs : 0 < fwhm / (2354820045030949 / 1000000000000000) * √(2 * π) := by positivity
    rw [abs_of_pos hs]
    exact div_le_div_of_nonneg_right (gaussAmp_le_zero _ _ _ _) hs.le

/-- **C53, Gaussian, disagreement.** For an odd number of points (three or more) the factors are
centred one point after the middle: the factor at the middle point is less than the next. -/
theorem C53_counterexample_gaussian_odd (fwhm u : ℝ) (x : List ℝ) (a b : ℝ)
    (ha : x.head? = some a) (hb : x.getLast? = some b) (hu : 0 < u) (hab : a < b) (hf : 0 < fwhm)
    (c : ℕ) (hc0 : 0 < c) (hc : x.length = 2 * c + 1) :
    ∃ l v w, gaussFn fwhm (some u) x = .ok (some l) ∧ l[c]? = some v ∧ l[c + 1]? = some w ∧
      v < w := by
  refine ⟨_, _, _, gaussFn_eq fwhm u x a b ha hb hu hab hf,
    by rw [List.getElem?_map, List.getElem?_range (by omega), Option.map_some],
    by rw [List.getElem?_map, List.getElem?_range (by omega), Option.map_some], ?_⟩
  have e1 : x.length / 2 = c := by omega
  have e2 : (c + 1 + c) % x.length = 0 := by
    rw [show c + 1 + c = x.length by omega, Nat.mod_self]
  have e3 : (c + c) % x.length = 2 * c := by
    rw [Nat.mod_eq_of_lt (by omega)]; omega
  rw [e1, e2, e3, hc]
  have hs : 0 < fwhm / (2354820045030949 / 1000000000000000) * √(2 * π) := by positivity
  apply div_lt_div_of_pos_right _ hs
  unfold gaussAmp
  have hn : (0 : ℝ) < ((2 * c + 1 : ℕ) : ℝ) := by positivity
  apply mul_lt_mul_of_pos_left _ (by positivity)
  apply Finset.sum_lt_sum
  · intro k _
    apply mul_le_mul_of_nonneg_left _ (Real.exp_pos _).le
    simp only [Nat.cast_zero, mul_zero, zero_mul, zero_div, cos_zero]
    exact cos_le_one _
  · refine ⟨1, Finset.mem_range.mpr (by omega), ?_⟩
    apply mul_lt_mul_of_pos_left _ (Real.exp_pos _)
    simp only [Nat.cast_zero, mul_zero, zero_mul, zero_div, cos_zero]
    apply lt_of_le_of_ne (cos_le_one _)
    intro hcos
    rw [cos_eq_one_iff] at hcos
    obtain ⟨z, hz⟩ := hcos
    have hpi := Real.pi_pos
    have hz2 : (z : ℝ) * ((2 * c + 1 : ℕ) : ℝ) = ((2 * c : ℕ) : ℝ) := by
      have h3 : (z : ℝ) = ((2 * c : ℕ) : ℝ) / ((2 * c + 1 : ℕ) : ℝ) := by
        have h4 : (z : ℝ) * (2 * π) = ((2 * c : ℕ) : ℝ) / ((2 * c + 1 : ℕ) : ℝ) * (2 * π) := by
          rw [hz]
          push_cast
          ring
        exact mul_right_cancel₀ (by positivity) h4
      rw [h3]
      field_simp
    have hz3 : z * ((2 * c + 1 : ℕ) : ℤ) = ((2 * c : ℕ) : ℤ) := by exact_mod_cast hz2
    rcases lt_or_ge 0 z with h | h
    · have : (1 : ℤ) * ((2 * c + 1 : ℕ) : ℤ) ≤ z * ((2 * c + 1 : ℕ) : ℤ) :=
        mul_le_mul_of_nonneg_right h (by positivity)
      push_cast at this hz3
      omega
    · have : z * ((2 * c + 1 : ℕ) : ℤ) ≤ 0 := mul_nonpos_of_nonpos_of_nonneg h (by positivity)
      push_cast at this hz3
      omega

example : ∃ x : List ℝ, x.head? = some (-1) ∧ x.getLast? = some 1 ∧ x.length = 2 * 1 + 1 :=
  ⟨[-1, 0, 1], rfl, rfl, rfl⟩

end MRS.Signal
