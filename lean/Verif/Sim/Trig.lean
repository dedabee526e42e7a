import Mathlib.Analysis.Real.Pi.Bounds
import Mathlib.Analysis.SpecialFunctions.Trigonometric.Bounds
import Mathlib.Analysis.Calculus.MeanValue
import Verif.Sim.Stf
import Verif.Sim.Fourier
import Verif.Bin.Triangle

/-!
# Accuracy of the tabulated sine and cosine — property C81

Model of src/c_lib/include/tables/trig.h and of its use in src/c_lib/include/vm.h:290-312 and 371-398: the angle is folded
into one turn and the values are interpolated linearly in a table with a step of `10^-4`.  `getCosSin` and `expImag`
(Verif/Sim/Stf.lean) are the functions that read the table; here they are given the table of the source.

Simplified: real arithmetic, libm's `sin` and `cos` are exact, the conversion to `int` does not overflow (angles below `1.3 * 10^10`).
-/

namespace MRS.Sim

open Complex Finset

/-- trig.h:8-24: `cos_table`, of length 62833; the last entry is set to 1. -/
noncomputable def cosTab (i : ℤ) : ℝ := if i < 62832 then Real.cos (i * 0.0001) else 1

/-- trig.h:8-24: `sin_table`; the last entry is set to 0. -/
noncomputable def sinTab (i : ℤ) : ℝ := if i < 62832 then Real.sin (i * 0.0001) else 0

/-- config.h:25 `CONST_2PI`. -/
noncomputable def const2Pi : ℝ := 6.28318530717958623199592693708837032318115234375000

/-- vm.h:290-312: the pair that the rotation matrices use (angular_momentum.c:48) and the sideband prefactors (mrsimulator.c:668). -/
noncomputable def tableCosSin (x : ℝ) : ℝ × ℝ := getCosSin cosTab sinTab const2Pi (1 / 0.0001) x

/-- vm.h:371-398: the exponential of an imaginary number, as used for the sideband phases (mrsimulator.c:329). -/
noncomputable def tableExp (x : ℝ) : ℝ × ℝ := expImag cosTab sinTab const2Pi (1 / 0.0001) x

/-- mrsimulator.c:285-342: sideband amplitudes of one orientation with the table (compare `sidebandAmps`). -/
noncomputable def sidebandAmpsTable {N : ℕ} [NeZero N] (phase : ZMod N → ℝ) : ZMod N → ℝ :=
  fun k =>
    let v := fft (fun j => (⟨(tableExp (phase j)).1, (tableExp (phase j)).2⟩ : ℂ)) k
    v.re * v.re + v.im * v.im

/-! ## Interpolation -/

/-- Taylor's formula for the exponential on the unit circle. -/
theorem exp_taylor (t : ℝ) : ‖exp (t * I) - 1 - t * I‖ ≤ t ^ 2 / 2 := by
  have pos : ∀ t : ℝ, 0 ≤ t → ‖exp (t * I) - 1 - t * I‖ ≤ t ^ 2 / 2 := by
    intro t ht
    have hd : ∀ x : ℝ, HasDerivAt (fun x : ℝ => exp (x * I) - 1 - x * I) (exp (x * I) * I - I) x := by
      intro x
      have h1 : HasDerivAt (fun x : ℝ => (x : ℂ) * I) I x := by
        simpa using (Complex.ofRealCLM.hasDerivAt (x := x)).mul_const I
      exact (h1.cexp.sub_const 1).sub h1
    have hb : ∀ x : ℝ, HasDerivAt (fun x : ℝ => x ^ 2 / 2) x x := by
      intro x
      have := ((hasDerivAt_id x).pow 2).div_const 2
      simpa using this
    have := image_norm_le_of_norm_deriv_right_le_deriv_boundary (a := 0) (b := t)
      (f := fun x : ℝ => exp (x * I) - 1 - x * I) (f' := fun x => exp (x * I) * I - I)
      (B := fun x => x ^ 2 / 2) (B' := fun x => x)
      (fun x _ => (hd x).continuousAt.continuousWithinAt) (fun x _ => (hd x).hasDerivWithinAt)
      (by simp) hb (fun x hx => by
        have h0 : exp (x * I) * I - I = (exp (I * x) - 1) * I := by rw [mul_comm I (x : ℂ)]; ring
        rw [h0, norm_mul, Complex.norm_I, mul_one]
        refine Real.norm_exp_I_mul_ofReal_sub_one_le.trans (le_of_eq ?_)
        rw [Real.norm_eq_abs, abs_of_nonneg hx.1])
    exact this ⟨ht, le_rfl⟩
  rcases le_total 0 t with h | h
  · exact pos t h
  · have h1 := pos (-t) (by linarith)
    have h2 : exp (t * I) - 1 - t * I
        = (starRingEnd ℂ) (exp (((-t : ℝ) : ℂ) * I) - 1 - ((-t : ℝ) : ℂ) * I) := by
      simp only [map_sub, map_one, map_mul, Complex.conj_I, Complex.conj_ofReal, ← Complex.exp_conj]
      push_cast
      ring_nf
    rw [h2, RCLike.norm_conj]
    calc _ ≤ (-t) ^ 2 / 2 := h1
      _ = t ^ 2 / 2 := by ring

theorem exp_shift (t u : ℝ) : ‖exp (t * I) - exp (u * I)‖ ≤ |t - u| := by
  have h : exp (t * I) - exp (u * I) = exp (u * I) * (exp (I * ((t - u : ℝ) : ℂ)) - 1) := by
    rw [mul_sub, ← Complex.exp_add, mul_one]
    congr 2
    push_cast
    ring
  rw [h, norm_mul, Complex.norm_exp_ofReal_mul_I, one_mul]
  exact Real.norm_exp_I_mul_ofReal_sub_one_le

/-- Linear interpolation between two points of the unit circle. -/
theorem interpolation (a h w : ℝ) (h0 : 0 ≤ w) (h1 : w ≤ 1) :
    ‖(1 - w) * exp (a * I) + w * exp (((a + h : ℝ) : ℂ) * I) - exp (((a + w * h : ℝ) : ℂ) * I)‖ ≤ h ^ 2 / 8 := by
  have e : (1 - w : ℂ) * exp (a * I) + w * exp (((a + h : ℝ) : ℂ) * I) - exp (((a + w * h : ℝ) : ℂ) * I)
      = exp (((a + w * h : ℝ) : ℂ) * I) *
        ((1 - w) * (exp (((-(w * h) : ℝ) : ℂ) * I) - 1 - ((-(w * h) : ℝ) : ℂ) * I)
          + w * (exp ((((1 - w) * h : ℝ) : ℂ) * I) - 1 - (((1 - w) * h : ℝ) : ℂ) * I)) := by
    have e1 : exp (a * I) = exp (((a + w * h : ℝ) : ℂ) * I) * exp (((-(w * h) : ℝ) : ℂ) * I) := by
      rw [← Complex.exp_add]
      congr 1
      push_cast
      ring
    have e2 : exp (((a + h : ℝ) : ℂ) * I) = exp (((a + w * h : ℝ) : ℂ) * I) * exp ((((1 - w) * h : ℝ) : ℂ) * I) := by
      rw [← Complex.exp_add]
      congr 1
      push_cast
      ring
    rw [e1, e2]
    push_cast
    ring
  rw [e, norm_mul, Complex.norm_exp_ofReal_mul_I, one_mul]
  refine (norm_add_le _ _).trans ?_
  rw [norm_mul, norm_mul]
  have n1 : ‖(1 - w : ℂ)‖ = 1 - w := by
    rw [show (1 - w : ℂ) = ((1 - w : ℝ) : ℂ) by push_cast; ring, Complex.norm_real, Real.norm_eq_abs,
      abs_of_nonneg (by linarith)]
  have n2 : ‖(w : ℂ)‖ = w := by rw [Complex.norm_real, Real.norm_eq_abs, abs_of_nonneg h0]
  rw [n1, n2]
  have t1 := mul_le_mul_of_nonneg_left (exp_taylor (-(w * h))) (by linarith : 0 ≤ 1 - w)
  have t2 := mul_le_mul_of_nonneg_left (exp_taylor ((1 - w) * h)) h0
  nlinarith [sq_nonneg (h * (1 - 2 * w)), sq_nonneg h]

/-! ## The table -/

theorem const2Pi_near : 0 ≤ 2 * Real.pi - const2Pi ∧ 2 * Real.pi - const2Pi ≤ 25 / 10 ^ 17 := by
  have h1 := Real.pi_gt_d20
  have h2 := Real.pi_lt_d20
  unfold const2Pi
  constructor <;> norm_num at h1 h2 ⊢ <;> linarith

/-- The value interpolated for an angle `y` within one turn. -/
noncomputable def interpolated (y : ℝ) : ℂ :=
  let i := MRS.Bin.trunc (y * (1 / 0.0001))
  let wt := y * (1 / 0.0001) - (i : ℝ)
  ⟨lerp wt (cosTab i) (cosTab (i + 1)), lerp wt (sinTab i) (sinTab (i + 1))⟩

theorem index_range (y : ℝ) (h0 : 0 ≤ y) (h1 : y < const2Pi) :
    0 ≤ MRS.Bin.trunc (y * (1 / 0.0001)) ∧ MRS.Bin.trunc (y * (1 / 0.0001)) + 1 ≤ 62832 := by
  have h : 0 ≤ y * (1 / 0.0001) := by positivity
  obtain ⟨t1, t2, t3⟩ := MRS.Bin.trunc_nonneg h
  refine ⟨t1, ?_⟩
  have : (MRS.Bin.trunc (y * (1 / 0.0001)) : ℝ) < 62832 := by
    refine lt_of_le_of_lt t2 ?_
    unfold const2Pi at h1
    norm_num at h1 ⊢
    linarith
  have : MRS.Bin.trunc (y * (1 / 0.0001)) < 62832 := by exact_mod_cast this
  omega

theorem interpolated_near (y : ℝ) (h0 : 0 ≤ y) (h1 : y < const2Pi) :
    ‖interpolated y - exp (y * I)‖ ≤ 1 / (8 * 10 ^ 8) + (if y < 6.2831 then 0 else 1254 / 10 ^ 8) := by
  have h : 0 ≤ y * (1 / 0.0001) := by positivity
  obtain ⟨t1, t2, t3⟩ := MRS.Bin.trunc_nonneg h
  have hi := (index_range y h0 h1).2
  unfold interpolated
  simp only
  generalize hi' : MRS.Bin.trunc (y * (1 / 0.0001)) = i at *
  set w := y * (1 / 0.0001) - (i : ℝ) with hw
  have w0 : 0 ≤ w := by linarith
  have w1 : w ≤ 1 := by linarith
  have key := interpolation (i * 0.0001) 0.0001 w w0 w1
  have hy : (i * 0.0001 : ℝ) + w * 0.0001 = y := by
    rw [hw]
    ring
  rw [hy, show ((i : ℝ) * 0.0001 + 0.0001) = ((i + 1 : ℤ) : ℝ) * 0.0001 by push_cast; ring] at key
  have e8 : (0.0001 : ℝ) ^ 2 / 8 = 1 / (8 * 10 ^ 8) := by norm_num
  rw [e8] at key
  have hc : ∀ k : ℤ, k < 62832 → exp (((k * 0.0001 : ℝ) : ℂ) * I) = ⟨cosTab k, sinTab k⟩ := by
    intro k hk
    apply Complex.ext
    · rw [Complex.exp_ofReal_mul_I_re]
      simp only [cosTab, if_pos hk]
    · rw [Complex.exp_ofReal_mul_I_im]
      simp only [sinTab, if_pos hk]
  have hl : (⟨lerp w (cosTab i) (cosTab (i + 1)), lerp w (sinTab i) (sinTab (i + 1))⟩ : ℂ)
      = (1 - w) * (⟨cosTab i, sinTab i⟩ : ℂ) + w * ⟨cosTab (i + 1), sinTab (i + 1)⟩ := by
    apply Complex.ext <;> simp [lerp]
  rw [hl]
  rcases lt_or_ge (i + 1) 62832 with hlt | hge
  · rw [hc i (by omega), hc (i + 1) hlt] at key
    refine key.trans ?_
    have : (0 : ℝ) ≤ if y < 6.2831 then 0 else 1254 / 10 ^ 8 := by split_ifs <;> norm_num
    linarith
  · have hie : i = 62831 := by omega
    have hy2 : ¬ y < 6.2831 := by
      have : (i : ℝ) = 62831 := by rw [hie]; norm_num
      rw [this] at t2
      norm_num at t2 ⊢
      linarith
    rw [if_neg hy2]
    rw [hc i (by omega)] at key
    have hlast : (⟨cosTab (i + 1), sinTab (i + 1)⟩ : ℂ) = 1 := by
      unfold cosTab sinTab
      rw [if_neg (by omega), if_neg (by omega)]
      rfl
    have hend : ‖(1 : ℂ) - exp ((((i + 1 : ℤ) : ℝ) * 0.0001 : ℝ) * I)‖ ≤ 14693 / 10 ^ 9 := by
      have h2 := exp_shift (2 * Real.pi) (((i + 1 : ℤ) : ℝ) * 0.0001)
      rw [show ((2 * Real.pi : ℝ) : ℂ) * I = 2 * Real.pi * I by push_cast; ring, Complex.exp_two_pi_mul_I] at h2
      refine h2.trans ?_
      rw [hie]
      have p1 := Real.pi_gt_d20
      have p2 := Real.pi_lt_d20
      rw [abs_le]
      constructor <;> norm_num at p1 p2 ⊢ <;> linarith
    have hwl : w ≤ 0.8531 := by
      rw [hw, hie]
      unfold const2Pi at h1
      norm_num at h1 ⊢
      linarith
    rw [hlast]
    have e : (1 - w : ℂ) * ⟨cosTab i, sinTab i⟩ + w * 1 - exp (y * I)
        = ((1 - w : ℂ) * ⟨cosTab i, sinTab i⟩ + w * exp ((((i + 1 : ℤ) : ℝ) * 0.0001 : ℝ) * I) - exp (y * I))
          + w * (1 - exp ((((i + 1 : ℤ) : ℝ) * 0.0001 : ℝ) * I)) := by ring
    rw [e]
    refine (norm_add_le _ _).trans (add_le_add key ?_)
    rw [norm_mul, Complex.norm_real, Real.norm_eq_abs, abs_of_nonneg w0]
    calc w * _ ≤ 0.8531 * (14693 / 10 ^ 9) := mul_le_mul hwl hend (norm_nonneg _) (by norm_num)
      _ ≤ _ := by norm_num

/-- config.h:30: the folded angle lies in one turn. -/
theorem fold_range (x : ℝ) :
    ∃ k : ℤ, MRS.Bin.trunc (|x| / const2Pi) = k ∧ 0 ≤ k ∧ k = ⌊|x| / const2Pi⌋ ∧
      modd (absd x) const2Pi = |x| - k * const2Pi ∧ 0 ≤ |x| - k * const2Pi ∧ |x| - k * const2Pi < const2Pi := by
  have hC : 0 < const2Pi := by unfold const2Pi; norm_num
  have h : 0 ≤ |x| / const2Pi := by positivity
  obtain ⟨t1, t2, t3⟩ := MRS.Bin.trunc_nonneg h
  have ha : absd x = |x| := by
    unfold absd
    split_ifs with hx
    · rw [abs_of_neg hx]
    · rw [abs_of_nonneg (by linarith)]
  refine ⟨_, rfl, t1, ?_, ?_, ?_, ?_⟩
  · symm
    rw [Int.floor_eq_iff]
    exact ⟨t2, by linarith⟩
  · rw [ha]
    rfl
  · rw [le_div_iff₀ hC] at t2
    linarith
  · have : |x| / const2Pi < MRS.Bin.trunc (|x| / const2Pi) + 1 := by linarith
    rw [div_lt_iff₀ hC] at this
    linarith

theorem signC_pos {x : ℝ} (h : 0 < x) : signC x = 1 := by
  unfold signC
  rw [if_pos h, if_neg (by linarith)]
  norm_num

theorem signC_neg' {x : ℝ} (h : x < 0) : signC x = -1 := by
  unfold signC
  rw [if_neg (by linarith), if_pos h]
  norm_num

theorem interpolated_zero : interpolated 0 = 1 := by
  have ht : MRS.Bin.trunc ((0 : ℝ) * (1 / 0.0001)) = 0 := by
    have h := MRS.Bin.trunc_nonneg (le_refl ((0 : ℝ) * (1 / 0.0001)) |>.trans' (by norm_num))
    obtain ⟨t1, t2, t3⟩ := h
    have : (MRS.Bin.trunc ((0 : ℝ) * (1 / 0.0001)) : ℝ) ≤ 0 := by simpa using t2
    have : MRS.Bin.trunc ((0 : ℝ) * (1 / 0.0001)) ≤ 0 := by exact_mod_cast this
    omega
  unfold interpolated
  simp only [ht]
  apply Complex.ext <;> simp [lerp, cosTab, sinTab]

/-- The pair of the rotation matrices, as a complex number. -/
theorem tableCosSin_eq (x : ℝ) (k : ℤ) (hk : k = ⌊|x| / const2Pi⌋) :
    (⟨(tableCosSin x).1, (tableCosSin x).2⟩ : ℂ) = interpolated (|x| - k * const2Pi) := by
  obtain ⟨k', h1, h2, h3, h4, h5, h6⟩ := fold_range x
  obtain rfl : k = k' := by rw [hk, h3]
  unfold tableCosSin getCosSin
  simp only [h4]
  rcases h5.lt_or_eq with h | h
  · rw [signC_pos (by positivity), mul_one]
    rfl
  · rw [← h]
    have h0 := interpolated_zero
    unfold interpolated at h0 ⊢
    simp only at h0 ⊢
    have e : signC ((0 : ℝ) * (1 / 0.0001)) = 0 := by simp [signC]
    rw [e, mul_zero]
    apply Complex.ext
    · rfl
    · rw [h0]
      simp

/-- The table is entered with the absolute value of the angle. -/
theorem tableCosSin_neg (x : ℝ) : tableCosSin (-x) = tableCosSin x := by
  have h := tableCosSin_eq (-x) _ rfl
  rw [abs_neg, ← tableCosSin_eq x _ rfl] at h
  exact Prod.ext (congrArg Complex.re h) (congrArg Complex.im h)

theorem tableCosSin_zero : tableCosSin 0 = (1, 0) := by
  have h := tableCosSin_eq 0 0 (by simp)
  simp only [abs_zero, Int.cast_zero, zero_mul, sub_zero, interpolated_zero] at h
  exact Prod.ext (congrArg Complex.re h) (congrArg Complex.im h)

theorem lerp_abs_le {w a b : ℝ} (h0 : 0 ≤ w) (h1 : w ≤ 1) (ha : |a| ≤ 1) (hb : |b| ≤ 1) : |lerp w a b| ≤ 1 := by
  unfold lerp
  rw [abs_le] at *
  constructor <;> nlinarith

theorem tableCosSin_le (x : ℝ) : |(tableCosSin x).1| ≤ 1 ∧ |(tableCosSin x).2| ≤ 1 := by
  obtain ⟨k, h1, h2, h3, h4, h5, h6⟩ := fold_range x
  have h := tableCosSin_eq x k h3
  have hc : ∀ i, |cosTab i| ≤ 1 := fun i => by unfold cosTab; split_ifs <;> simp [Real.abs_cos_le_one]
  have hs : ∀ i, |sinTab i| ≤ 1 := fun i => by unfold sinTab; split_ifs <;> simp [Real.abs_sin_le_one]
  set y := |x| - k * const2Pi
  have hy : 0 ≤ y * (1 / 0.0001) := by positivity
  obtain ⟨t1, t2, t3⟩ := MRS.Bin.trunc_nonneg hy
  have w0 : 0 ≤ y * (1 / 0.0001) - (MRS.Bin.trunc (y * (1 / 0.0001)) : ℝ) := by linarith
  have w1 : y * (1 / 0.0001) - (MRS.Bin.trunc (y * (1 / 0.0001)) : ℝ) ≤ 1 := by linarith
  have r := congrArg Complex.re h
  have i := congrArg Complex.im h
  unfold interpolated at r i
  simp only at r i
  rw [r, i]
  exact ⟨lerp_abs_le w0 w1 (hc _) (hc _), lerp_abs_le w0 w1 (hs _) (hs _)⟩

/-- The exponential of the sideband phases, as a complex number. -/
theorem tableExp_eq (x : ℝ) (k : ℤ) (hk : k = ⌊|x| / const2Pi⌋) :
    (⟨(tableExp x).1, (tableExp x).2⟩ : ℂ)
      = if x < 0 then (starRingEnd ℂ) (interpolated (|x| - k * const2Pi)) else interpolated (|x| - k * const2Pi) := by
  obtain ⟨k', h1, h2, h3, h4, h5, h6⟩ := fold_range x
  obtain rfl : k = k' := by rw [hk, h3]
  unfold tableExp expImag
  simp only [h4]
  rcases lt_trichotomy x 0 with h | h | h
  · rw [if_pos h, signC_neg' h, mul_neg_one]
    rfl
  · subst h
    rw [if_neg (lt_irrefl _)]
    have hk0 : k = 0 := by rw [hk]; simp
    have h0 := interpolated_zero
    simp only [hk0, abs_zero, Int.cast_zero, zero_mul, sub_zero]
    rw [h0]
    have e : signC (0 : ℝ) = 0 := by simp [signC]
    rw [e, mul_zero]
    have hr := congrArg Complex.re h0
    apply Complex.ext
    · simpa [interpolated] using hr
    · simp
  · rw [if_neg (by linarith), signC_pos h, mul_one]
    rfl

theorem interpolated_abs (x : ℝ) (k : ℤ) (hk : k = ⌊|x| / const2Pi⌋) :
    ‖interpolated (|x| - k * const2Pi) - exp (|x| * I)‖ ≤
      1 / (8 * 10 ^ 8) + (if |x| - k * const2Pi < 6.2831 then 0 else 1254 / 10 ^ 8) + k * (25 / 10 ^ 17) := by
  obtain ⟨k', h1, h2, h3, h4, h5, h6⟩ := fold_range x
  obtain rfl : k = k' := by rw [hk, h3]
  have n1 := interpolated_near _ h5 h6
  have n2 := exp_shift (|x| - k * const2Pi) (|x| - k * (2 * Real.pi))
  have hp : exp (((|x| - k * (2 * Real.pi) : ℝ) : ℂ) * I) = exp (|x| * I) := by
    have : (((|x| - k * (2 * Real.pi) : ℝ) : ℂ) * I) = |x| * I - k * (2 * Real.pi * I) := by
      push_cast
      ring
    rw [this, Complex.exp_sub, Complex.exp_int_mul_two_pi_mul_I, div_one]
  rw [hp] at n2
  have n3 : |(|x| - k * const2Pi) - (|x| - k * (2 * Real.pi))| ≤ k * (25 / 10 ^ 17) := by
    have hk0 : (0 : ℝ) ≤ k := by exact_mod_cast h2
    rw [show (|x| - k * const2Pi) - (|x| - k * (2 * Real.pi)) = k * (2 * Real.pi - const2Pi) by ring, abs_mul,
      abs_of_nonneg hk0, abs_of_nonneg const2Pi_near.1]
    exact mul_le_mul_of_nonneg_left const2Pi_near.2 hk0
  have e : interpolated (|x| - k * const2Pi) - exp (|x| * I)
      = (interpolated (|x| - k * const2Pi) - exp (((|x| - k * const2Pi : ℝ) : ℂ) * I))
        + (exp (((|x| - k * const2Pi : ℝ) : ℂ) * I) - exp (|x| * I)) := by ring
  rw [e]
  refine (norm_add_le _ _).trans ?_
  linarith

/-- The error of the exponential, as a complex number. -/
theorem tableExp_near (x : ℝ) (k : ℤ) (hk : k = ⌊|x| / const2Pi⌋) :
    ‖(⟨(tableExp x).1, (tableExp x).2⟩ : ℂ) - exp (x * I)‖ ≤
      1 / (8 * 10 ^ 8) + (if |x| - k * const2Pi < 6.2831 then 0 else 1254 / 10 ^ 8) + k * (25 / 10 ^ 17) := by
  have h := interpolated_abs x k hk
  rw [tableExp_eq x k hk]
  by_cases hx : x < 0
  · have e : exp (x * I) = (starRingEnd ℂ) (exp (|x| * I)) := by
      rw [← Complex.exp_conj, map_mul, Complex.conj_I, Complex.conj_ofReal, abs_of_neg hx]
      congr 1
      push_cast
      ring
    rw [if_pos hx, e, ← map_sub, RCLike.norm_conj]
    exact h
  · rw [if_neg hx]
    have e : exp (x * I) = exp (|x| * I) := by rw [abs_of_nonneg (not_lt.mp hx)]
    rw [e]
    exact h

theorem tableCosSin_near (x : ℝ) (k : ℤ) (hk : k = ⌊|x| / const2Pi⌋) :
    ‖(⟨(tableCosSin x).1, (tableCosSin x).2⟩ : ℂ) - exp (|x| * I)‖ ≤
      1 / (8 * 10 ^ 8) + (if |x| - k * const2Pi < 6.2831 then 0 else 1254 / 10 ^ 8) + k * (25 / 10 ^ 17) := by
  rw [tableCosSin_eq x k hk]
  exact interpolated_abs x k hk

/-- The number of turns taken off is at most the true number of turns. -/
theorem turns_le (n : ℕ) (hn : n ≤ 10 ^ 9) (x : ℝ) (hx : |x| ≤ 2 * Real.pi * n) :
    ⌊|x| / const2Pi⌋ ≤ n := by
  have hC : 0 < const2Pi := by unfold const2Pi; norm_num
  have hC6 : 6 < const2Pi := by unfold const2Pi; norm_num
  have hn' : (n : ℝ) ≤ 10 ^ 9 := by exact_mod_cast hn
  have hn0 : (0 : ℝ) ≤ n := Nat.cast_nonneg n
  have h : ⌊|x| / const2Pi⌋ < (n : ℤ) + 1 := by
    rw [Int.floor_lt, div_lt_iff₀ hC]
    push_cast
    have := const2Pi_near.2
    have h2 : (2 * Real.pi - const2Pi) * n ≤ 25 / 10 ^ 17 * n := mul_le_mul_of_nonneg_right this hn0
    have h3 : (25 / 10 ^ 17 : ℝ) * n ≤ 25 / 10 ^ 17 * 10 ^ 9 := mul_le_mul_of_nonneg_left hn' (by norm_num)
    norm_num at h3
    norm_num at h2
    nlinarith
  omega

/-- Away from the end of a turn the index stays clear of the last entry. -/
theorem away_lt (n : ℕ) (hn : n ≤ 10 ^ 9) (x : ℝ) (hx : |x| ≤ 2 * Real.pi * n)
    (away : ∀ m : ℕ, |x| ≤ 2 * Real.pi * m - 1 / 10 ^ 4 ∨ 2 * Real.pi * m ≤ |x|) :
    |x| - ⌊|x| / const2Pi⌋ * const2Pi < 6.2831 := by
  obtain ⟨k, h1, h2, h3, h4, h5, h6⟩ := fold_range x
  have hk := turns_le n hn x hx
  rw [← h3] at hk ⊢
  obtain ⟨m, rfl⟩ := Int.eq_ofNat_of_zero_le h2
  have hm : m ≤ 10 ^ 9 := le_trans (by exact_mod_cast hk) hn
  have hm' : (m : ℝ) ≤ 10 ^ 9 := by exact_mod_cast hm
  have hm0 : (0 : ℝ) ≤ m := Nat.cast_nonneg m
  have hd := const2Pi_near
  have p2 := Real.pi_lt_d20
  push_cast at h5 h6 ⊢
  have h7 : (2 * Real.pi - const2Pi) * m ≤ 25 / 10 ^ 17 * m := mul_le_mul_of_nonneg_right hd.2 hm0
  have h8 : 0 ≤ (2 * Real.pi - const2Pi) * m := mul_nonneg hd.1 hm0
  rcases away (m + 1) with ha | ha
  · push_cast at ha
    have h9 : (25 / 10 ^ 17 : ℝ) * m ≤ 25 / 10 ^ 17 * 10 ^ 9 := mul_le_mul_of_nonneg_left hm' (by norm_num)
    have h10 := h7.trans h9
    have e : |x| - m * const2Pi = (|x| - 2 * Real.pi * m) + (2 * Real.pi - const2Pi) * m := by ring
    rw [e]
    have e2 : 2 * Real.pi * ((m : ℝ) + 1) = 2 * Real.pi * m + 2 * Real.pi := by ring
    rw [e2] at ha
    norm_num at h10 p2 ha ⊢
    linarith
  · push_cast at ha
    nlinarith

/-! ## Statements -/

/-- `c` and `s` are the cosine and the sine of `x` up to `ε`. -/
def Spec.CosSin (c s x ε : ℝ) : Prop := |c - Real.cos x| ≤ ε ∧ |s - Real.sin x| ≤ ε

theorem cosSin_of_norm {c s x ε : ℝ} (h : ‖(⟨c, s⟩ : ℂ) - exp (x * I)‖ ≤ ε) : Spec.CosSin c s x ε := by
  constructor
  · refine le_trans ?_ h
    have := Complex.abs_re_le_norm ((⟨c, s⟩ : ℂ) - exp (x * I))
    rwa [Complex.sub_re, Complex.exp_ofReal_mul_I_re] at this
  · refine le_trans ?_ h
    have := Complex.abs_im_le_norm ((⟨c, s⟩ : ℂ) - exp (x * I))
    rwa [Complex.sub_im, Complex.exp_ofReal_mul_I_im] at this

/-- **C81 (no read outside the table).** For every angle the two entries that are read exist. -/
theorem C81_index (x : ℝ) :
    let i := MRS.Bin.trunc (modd (absd x) const2Pi * (1 / 0.0001))
    0 ≤ i ∧ i + 1 < 62833 := by
  obtain ⟨k, h1, h2, h3, h4, h5, h6⟩ := fold_range x
  simp only [h4]
  have := index_range _ h5 h6
  omega

/-- **C81 (accuracy), partial.** Up to a thousand million turns, and unless the angle is within `10^-4` below a
whole number of turns, both lookups give the cosine and the sine up to `1.25 * 10^-9` plus `2.5 * 10^-16` for every
turn.  (The pair of the rotation matrices is that of `|x|`, see `C46_counterexample`.)
Missing: the last interval of the table, see `C81_counterexample` and `C81_everywhere_partial`. -/
theorem C81_accuracy_partial (n : ℕ) (hn : n ≤ 10 ^ 9) (x : ℝ) (hx : |x| ≤ 2 * Real.pi * n)
    (away : ∀ m : ℕ, |x| ≤ 2 * Real.pi * m - 1 / 10 ^ 4 ∨ 2 * Real.pi * m ≤ |x|) :
    Spec.CosSin (tableExp x).1 (tableExp x).2 x (125 / 10 ^ 11 + n * (25 / 10 ^ 17)) ∧
    Spec.CosSin (tableCosSin x).1 (tableCosSin x).2 |x| (125 / 10 ^ 11 + n * (25 / 10 ^ 17)) := by
  have hk := turns_le n hn x hx
  have hk' : (⌊|x| / const2Pi⌋ : ℝ) ≤ n := by exact_mod_cast hk
  have hb : (1 : ℝ) / (8 * 10 ^ 8) + 0 + ⌊|x| / const2Pi⌋ * (25 / 10 ^ 17) ≤ 125 / 10 ^ 11 + n * (25 / 10 ^ 17) := by
    have : (⌊|x| / const2Pi⌋ : ℝ) * (25 / 10 ^ 17) ≤ n * (25 / 10 ^ 17) :=
      mul_le_mul_of_nonneg_right hk' (by norm_num)
    have e : (1 : ℝ) / (8 * 10 ^ 8) + 0 = 125 / 10 ^ 11 := by norm_num
    rw [e]
    linarith
  have ha := away_lt n hn x hx away
  have h1 := tableExp_near x _ rfl
  have h2 := tableCosSin_near x _ rfl
  rw [if_pos ha] at h1 h2
  exact ⟨cosSin_of_norm (h1.trans hb), cosSin_of_norm (h2.trans hb)⟩

/-- An angle of one: within the first turn, and away from its end. -/
example : Spec.CosSin (tableExp 1).1 (tableExp 1).2 1 (126 / 10 ^ 11) := by
  have p1 := Real.pi_gt_three
  have h := (C81_accuracy_partial 1 (by norm_num) 1 (by rw [abs_one]; push_cast; linarith) (by
    intro m
    rcases Nat.eq_zero_or_pos m with rfl | hm
    · right; simp
    · left
      have : (1 : ℝ) ≤ m := by exact_mod_cast hm
      rw [abs_one]
      nlinarith)).1
  obtain ⟨a, b⟩ := h
  constructor
  · refine a.trans ?_
    norm_num
  · refine b.trans ?_
    norm_num

theorem everywhere (n : ℕ) (hn : n ≤ 10 ^ 9) (x : ℝ) (hx : |x| ≤ 2 * Real.pi * n) :
    (1 : ℝ) / (8 * 10 ^ 8) + (if |x| - ⌊|x| / const2Pi⌋ * const2Pi < 6.2831 then 0 else 1254 / 10 ^ 8)
      + ⌊|x| / const2Pi⌋ * (25 / 10 ^ 17) ≤ 1255 / 10 ^ 8 + n * (25 / 10 ^ 17) := by
  have hk := turns_le n hn x hx
  have hk' : (⌊|x| / const2Pi⌋ : ℝ) ≤ n := by exact_mod_cast hk
  have h1 : (⌊|x| / const2Pi⌋ : ℝ) * (25 / 10 ^ 17) ≤ n * (25 / 10 ^ 17) :=
    mul_le_mul_of_nonneg_right hk' (by norm_num)
  have h2 : (1 : ℝ) / (8 * 10 ^ 8) + (if |x| - ⌊|x| / const2Pi⌋ * const2Pi < 6.2831 then 0 else 1254 / 10 ^ 8)
      ≤ 1255 / 10 ^ 8 := by
    split_ifs <;> norm_num
  linarith

/-- **C81 (all angles), partial.** For every angle up to a thousand million turns the error is at most
`1.255 * 10^-5`: ten thousand times more than the step of the table admits. -/
theorem C81_everywhere_partial (n : ℕ) (hn : n ≤ 10 ^ 9) (x : ℝ) (hx : |x| ≤ 2 * Real.pi * n) :
    Spec.CosSin (tableExp x).1 (tableExp x).2 x (1255 / 10 ^ 8 + n * (25 / 10 ^ 17)) ∧
    Spec.CosSin (tableCosSin x).1 (tableCosSin x).2 |x| (1255 / 10 ^ 8 + n * (25 / 10 ^ 17)) :=
  ⟨cosSin_of_norm ((tableExp_near x _ rfl).trans (everywhere n hn x hx)),
    cosSin_of_norm ((tableCosSin_near x _ rfl).trans (everywhere n hn x hx))⟩

/-- A phase of minus ten. -/
example : Spec.CosSin (tableExp (-10)).1 (tableExp (-10)).2 (-10) (1255 / 10 ^ 8 + (2 : ℕ) * (25 / 10 ^ 17)) :=
  (C81_everywhere_partial 2 (by norm_num) (-10) (by
    have := Real.pi_gt_three
    rw [abs_neg, abs_of_nonneg (by norm_num)]
    push_cast
    linarith)).1

/-- **C81, where the code disagrees.** The last entry of the table is that of a whole turn but stands at the angle
6.2832, beyond it: at the angle 6.28318 both lookups give a sine that is off by more than `1.1 * 10^-5`. -/
theorem C81_counterexample :
    (tableExp 6.28318).2 < Real.sin 6.28318 - 11 / 10 ^ 6 ∧
    (tableCosSin 6.28318).2 < Real.sin 6.28318 - 11 / 10 ^ 6 := by
  have hk : (0 : ℤ) = ⌊|(6.28318 : ℝ)| / const2Pi⌋ := by
    symm
    rw [Int.floor_eq_iff, abs_of_nonneg (by norm_num)]
    unfold const2Pi
    constructor <;> norm_num
  have ht : MRS.Bin.trunc ((6.28318 : ℝ) * (1 / 0.0001)) = 62831 := by
    obtain ⟨t1, t2, t3⟩ := MRS.Bin.trunc_nonneg (x := (6.28318 : ℝ) * (1 / 0.0001)) (by norm_num)
    have a : (MRS.Bin.trunc ((6.28318 : ℝ) * (1 / 0.0001)) : ℝ) < 62832 := lt_of_le_of_lt t2 (by norm_num)
    have b : (62830 : ℝ) < MRS.Bin.trunc ((6.28318 : ℝ) * (1 / 0.0001)) := by
      norm_num at t3 ⊢
      linarith
    have a' : MRS.Bin.trunc ((6.28318 : ℝ) * (1 / 0.0001)) < 62832 := by exact_mod_cast a
    have b' : 62830 < MRS.Bin.trunc ((6.28318 : ℝ) * (1 / 0.0001)) := by exact_mod_cast b
    omega
  have him : (interpolated (6.28318 : ℝ)).im = 0.2 * Real.sin 6.2831 := by
    unfold interpolated
    simp only [ht]
    unfold lerp sinTab
    norm_num
  have p1 := Real.pi_gt_d20
  have p2 := Real.pi_lt_d20
  have s1 : Real.sin 6.2831 = -Real.sin (2 * Real.pi - 6.2831) := by
    rw [Real.sin_two_pi_sub, neg_neg]
  have s2 : Real.sin 6.28318 = -Real.sin (2 * Real.pi - 6.28318) := by
    rw [Real.sin_two_pi_sub, neg_neg]
  have b1 : 853 / 10 ^ 7 - 1 / 10 ^ 11 < Real.sin (2 * Real.pi - 6.2831) := by
    have l1 : 853 / 10 ^ 7 < 2 * Real.pi - 6.2831 := by norm_num at p1 ⊢; linarith
    have l2 : 2 * Real.pi - 6.2831 < 1 / 10 ^ 4 := by norm_num at p2 ⊢; linarith
    have hs := Real.sin_gt_sub_cube (x := 2 * Real.pi - 6.2831) (lt_trans (by norm_num) l1)
    have hc : (2 * Real.pi - 6.2831) ^ 3 ≤ (1 / 10 ^ 4) ^ 3 :=
      pow_le_pow_left₀ (le_trans (by norm_num) l1.le) l2.le 3
    norm_num at hc hs l1 ⊢
    linarith
  have b2 : Real.sin (2 * Real.pi - 6.28318) < 54 / 10 ^ 7 := by
    refine lt_of_le_of_lt (Real.sin_le ?_) ?_
    · norm_num at p1 ⊢
      linarith
    · norm_num at p2 ⊢
      linarith
  have he : |(6.28318 : ℝ)| - ((0 : ℤ) : ℝ) * const2Pi = 6.28318 := by
    rw [abs_of_nonneg (by norm_num)]
    simp
  have main : (0.2 : ℝ) * Real.sin 6.2831 < Real.sin 6.28318 - 11 / 10 ^ 6 := by
    rw [s1, s2]
    norm_num at b1 b2 ⊢
    linarith
  constructor
  · have h := congrArg Complex.im (tableExp_eq 6.28318 0 hk)
    rw [if_neg (by norm_num), he, him] at h
    rw [show (tableExp 6.28318).2 = 0.2 * Real.sin 6.2831 from h]
    exact main
  · have h := congrArg Complex.im (tableCosSin_eq 6.28318 0 hk)
    rw [he, him] at h
    rw [show (tableCosSin 6.28318).2 = 0.2 * Real.sin 6.2831 from h]
    exact main

/-- **C81 (sidebands).** With phases of at most a thousand million turns, every sideband amplitude, divided by the
squared number of sidebands as in the spectrum, differs from that of exact exponentials by at most `2 ε + ε²` with
`ε = 1.255 * 10^-5` plus `2.5 * 10^-16` for every turn. -/
theorem C81_sidebands {N : ℕ} [NeZero N] (phase : ZMod N → ℝ) (n : ℕ) (hn : n ≤ 10 ^ 9)
    (hx : ∀ j, |phase j| ≤ 2 * Real.pi * n) (k : ZMod N) :
    |sidebandAmpsTable phase k / (N : ℝ) ^ 2 - sidebandAmps phase k / (N : ℝ) ^ 2| ≤
      2 * (1255 / 10 ^ 8 + n * (25 / 10 ^ 17)) + (1255 / 10 ^ 8 + n * (25 / 10 ^ 17)) ^ 2 := by
  set ε : ℝ := 1255 / 10 ^ 8 + n * (25 / 10 ^ 17) with hε
  have hε0 : 0 ≤ ε := by positivity
  have hN : (0 : ℝ) < N := by exact_mod_cast NeZero.pos N
  have hnorm : ∀ a : ZMod N, ‖exp (-(2 * Real.pi * I * a.val * k.val / N))‖ = 1 := by
    intro a
    rw [show -(2 * Real.pi * I * a.val * k.val / N : ℂ)
      = ((-(2 * Real.pi * a.val * k.val / N) : ℝ) : ℂ) * I by push_cast; ring]
    exact Complex.norm_exp_ofReal_mul_I _
  set v := fft (fun j => exp (I * phase j)) k with hv
  set v' := fft (fun j => (⟨(tableExp (phase j)).1, (tableExp (phase j)).2⟩ : ℂ)) k with hv'
  have h1 : ‖v‖ ≤ N := by
    rw [hv]
    unfold fft
    refine (norm_sum_le _ _).trans ?_
    have : ∀ j : ZMod N, ‖exp (-(2 * Real.pi * I * j.val * k.val / N)) * exp (I * phase j)‖ = 1 := by
      intro j
      rw [norm_mul, hnorm, one_mul, mul_comm I, Complex.norm_exp_ofReal_mul_I]
    rw [Finset.sum_congr rfl (fun j _ => this j)]
    simp
  have h2 : ‖v' - v‖ ≤ N * ε := by
    rw [hv, hv']
    unfold fft
    rw [← Finset.sum_sub_distrib]
    refine (norm_sum_le _ _).trans ?_
    have : ∀ j ∈ (Finset.univ : Finset (ZMod N)), ‖exp (-(2 * Real.pi * I * j.val * k.val / N)) *
        (⟨(tableExp (phase j)).1, (tableExp (phase j)).2⟩ : ℂ) -
        exp (-(2 * Real.pi * I * j.val * k.val / N)) * exp (I * phase j)‖ ≤ ε := by
      intro j _
      rw [← mul_sub, norm_mul, hnorm, one_mul, mul_comm I]
      exact (tableExp_near (phase j) _ rfl).trans (everywhere n hn (phase j) (hx j))
    refine (Finset.sum_le_sum this).trans ?_
    simp
  have e1 : sidebandAmps phase k = ‖v‖ ^ 2 := by
    rw [← Complex.normSq_eq_norm_sq, Complex.normSq_apply]
    rfl
  have e2 : sidebandAmpsTable phase k = ‖v'‖ ^ 2 := by
    rw [← Complex.normSq_eq_norm_sq, Complex.normSq_apply]
    rfl
  rw [e1, e2, ← sub_div, abs_div, abs_of_pos (by positivity : (0 : ℝ) < (N : ℝ) ^ 2), div_le_iff₀ (by positivity)]
  have h3 : |‖v'‖ - ‖v‖| ≤ N * ε := (abs_norm_sub_norm_le _ _).trans h2
  have h4 : ‖v'‖ ^ 2 - ‖v‖ ^ 2 = (‖v'‖ - ‖v‖) * (‖v'‖ - ‖v‖ + 2 * ‖v‖) := by ring
  rw [h4, abs_mul]
  have h5 : |‖v'‖ - ‖v‖ + 2 * ‖v‖| ≤ N * ε + 2 * N := by
    refine (abs_add_le _ _).trans (add_le_add h3 ?_)
    rw [abs_of_nonneg (by positivity)]
    linarith
  calc _ ≤ (N * ε) * (N * ε + 2 * N) := mul_le_mul h3 h5 (abs_nonneg _) (by positivity)
    _ = _ := by ring

/-- Four sidebands with phases of up to two turns. -/
example (k : ZMod 4) : |sidebandAmpsTable (N := 4) (fun j => -(j.val : ℝ)) k / ((4 : ℕ) : ℝ) ^ 2
    - sidebandAmps (fun j : ZMod 4 => -(j.val : ℝ)) k / ((4 : ℕ) : ℝ) ^ 2| ≤ 26 / 10 ^ 6 := by
  refine (C81_sidebands (N := 4) (fun j => -(j.val : ℝ)) 1 (by norm_num) ?_ k).trans ?_
  · intro j
    have h : (j.val : ℝ) ≤ 4 := by exact_mod_cast (ZMod.val_lt j).le
    have := Real.pi_gt_three
    rw [abs_neg, abs_of_nonneg (Nat.cast_nonneg _)]
    push_cast
    linarith
  · norm_num

end MRS.Sim
