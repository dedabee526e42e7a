import Mathlib.Analysis.Fourier.ZMod
import Verif.Py

/-!
# Fourier transforms — properties C59, C60

Model of src/c_lib/base/base_model.pyx:494-503 (mirror image for negative gyromagnetic
ratio) and src/c_lib/lib/mrsimulator.c:78-87, 285-342, src/c_lib/lib/frequency_averaging.c
(sideband amplitudes). An array of length `n` is a function on the integers modulo `n`;
FFTW and NumPy are taken to compute the discrete Fourier transform exactly.
-/

namespace MRS.Sim

open Complex Finset
open scoped ComplexConjugate

variable {n : Nat} [NeZero n]

/-- Forward transform of FFTW (`FFTW_FORWARD`) and `np.fft.fft`. -/
noncomputable def fft (x : ZMod n → ℂ) : ZMod n → ℂ :=
  fun k => ∑ j : ZMod n, exp (-(2 * Real.pi * I * j.val * k.val / n)) * x j

/-- `np.fft.ifft`. -/
noncomputable def ifft (x : ZMod n → ℂ) : ZMod n → ℂ :=
  fun k => (1 / n : ℂ) * ∑ j : ZMod n, exp (2 * Real.pi * I * j.val * k.val / n) * x j

theorem char_eq (j k : ZMod n) :
    ZMod.stdAddChar (j * k) = exp (2 * Real.pi * I * j.val * k.val / n) := by
  have : j * k = (((j.val * k.val : Nat) : Int) : ZMod n) := by
    push_cast
    rw [ZMod.natCast_zmod_val, ZMod.natCast_zmod_val]
  rw [this, ZMod.stdAddChar_coe]
  push_cast
  congr 1
  ring

theorem char_neg (j k : ZMod n) :
    ZMod.stdAddChar (-(j * k)) = exp (-(2 * Real.pi * I * j.val * k.val / n)) := by
  rw [AddChar.map_neg_eq_inv, char_eq, ← Complex.exp_neg]

theorem fft_eq (x : ZMod n → ℂ) : fft x = ZMod.dft x := by
  funext k
  rw [ZMod.dft_apply]
  unfold fft
  apply Finset.sum_congr rfl
  intro j _
  rw [char_neg, smul_eq_mul]

theorem ifft_eq (x : ZMod n → ℂ) : ifft x = fun k => (1 / n : ℂ) * ZMod.dft x (-k) := by
  funext k
  rw [ZMod.dft_apply]
  unfold ifft
  congr 1
  apply Finset.sum_congr rfl
  intro j _
  rw [mul_neg, neg_neg, char_eq, smul_eq_mul]

theorem conj_char (a : ZMod n) : conj (ZMod.stdAddChar a : ℂ) = ZMod.stdAddChar (-a) := by
  rw [AddChar.map_neg_eq_inv]
  have h : ‖(ZMod.stdAddChar a : ℂ)‖ = 1 := AddChar.norm_apply _ _
  rw [Complex.inv_def, Complex.normSq_eq_norm_sq, h]
  simp

theorem conj_dft (x : ZMod n → ℂ) (k : ZMod n) :
    conj (ZMod.dft x k) = ZMod.dft (fun j => conj (x j)) (-k) := by
  rw [ZMod.dft_apply, ZMod.dft_apply, map_sum]
  apply Finset.sum_congr rfl
  intro j _
  rw [smul_eq_mul, smul_eq_mul, map_mul, conj_char, mul_neg]

theorem n_ne : (n : ℂ) ≠ 0 := Nat.cast_ne_zero.mpr (NeZero.ne n)

/-- One axis of the mirror computation: forward transform of the conjugated inverse
transform is the conjugated mirror image. -/
theorem fft_conj_ifft (x : ZMod n → ℂ) :
    fft (fun k => conj (ifft x k)) = fun k => conj (x (-k)) := by
  have h1 : (fun k => conj (ifft x k)) = fun k => (1 / n : ℂ) * ZMod.dft (fun j => conj (x j)) k := by
    funext k
    rw [ifft_eq]
    simp only [map_mul, conj_dft, neg_neg, map_div₀, map_one, map_natCast]
  rw [fft_eq, h1]
  have h2 := ZMod.dft_const_mul (N := n) (1 / n : ℂ) (ZMod.dft (fun j => conj (x j)))
  rw [h2, ZMod.dft_dft]
  funext k
  simp only [smul_eq_mul]
  field_simp [n_ne (n := n)]

/-- `np.fft.fftn` and `np.fft.ifftn` on a two-dimensional array: the transform along the
last axis, then along the first. -/
noncomputable def fft2 {m : Nat} [NeZero m] (x : ZMod m → ZMod n → ℂ) : ZMod m → ZMod n → ℂ :=
  fun a b => fft (fun a' => fft (x a') b) a

/-- See `fft2`. -/
noncomputable def ifft2 {m : Nat} [NeZero m] (x : ZMod m → ZMod n → ℂ) : ZMod m → ZMod n → ℂ :=
  fun a b => ifft (fun a' => ifft (x a') b) a

/-- base_model.pyx:497 and 503 on a one-dimensional spectrum. -/
noncomputable def mirror1 (x : ZMod n → ℝ) : ZMod n → ℝ :=
  fun k => (fft (fun j => conj (ifft (fun i => (x i : ℂ)) j)) k).re

/-- base_model.pyx:497 and 503 on a two-dimensional spectrum. -/
noncomputable def mirror2 {m : Nat} [NeZero m] (x : ZMod m → ZMod n → ℝ) : ZMod m → ZMod n → ℝ :=
  fun a b => (fft2 (fun a' b' => conj (ifft2 (fun i j => (x i j : ℂ)) a' b')) a b).re

/-- **C59 (one dimension).** The data recorded for a negative gyromagnetic ratio are the mirror
image of the accumulated data, index `k` to `-k` modulo the number of points. -/
theorem C59_mirror1 (x : ZMod n → ℝ) (k : ZMod n) : mirror1 x k = x (-k) := by
  unfold mirror1
  rw [fft_conj_ifft]
  simp

/-- **C59 (two dimensions).** Both indices are mirrored. -/
theorem C59_mirror2 {m : Nat} [NeZero m] (x : ZMod m → ZMod n → ℝ) (a : ZMod m) (b : ZMod n) :
    mirror2 x a b = x (-a) (-b) := by
  unfold mirror2 fft2 ifft2
  -- the conjugated inverse transform along the first axis, then forward along the first
  have hlin : ∀ (c : ZMod m → ZMod n → ℂ), (fun a' => fft (fun b' => conj (ifft (fun i => ifft (c i) b') a')) b) =
      fun a' => conj (ifft (fun i => conj (fft (fun b' => conj (ifft (c i) b')) b)) a') := by
    intro c
    funext a'
    simp only [fft, ifft, map_mul, map_sum, Complex.conj_conj, Finset.mul_sum, map_div₀, map_one,
      map_natCast]
    rw [Finset.sum_comm]
    apply Finset.sum_congr rfl
    intro i _
    apply Finset.sum_congr rfl
    intro j _
    apply Finset.sum_congr rfl
    intro l _
    ring
  rw [hlin (fun i j => (x i j : ℂ)), fft_conj_ifft]
  simp only [Complex.conj_conj]
  rw [fft_conj_ifft]
  simp

/-- **C59 (nothing else).** The mirrored data are a rearrangement: the same multiset of values,
hence the same total; mirroring twice restores the data. -/
theorem C59_rearrangement (x : ZMod n → ℝ) :
    (univ.val.map (mirror1 x)) = univ.val.map x ∧ ∑ k, mirror1 x k = ∑ k, x k ∧
    mirror1 (mirror1 x) = x := by
  have h : mirror1 x = x ∘ (Equiv.neg (ZMod n)) := by
    funext k
    exact C59_mirror1 x k
  refine ⟨?_, ?_, ?_⟩
  · rw [h, ← Multiset.map_map]
    congr 1
    have := Finset.map_univ_equiv (Equiv.neg (ZMod n))
    have h2 := congrArg Finset.val this
    exact h2
  · rw [h]
    exact Equiv.sum_comp (Equiv.neg (ZMod n)) x
  · funext k
    rw [C59_mirror1, C59_mirror1, neg_neg]

/-- Five points: index 1 and 4 are exchanged. -/
example (x : ZMod 5 → ℝ) : mirror1 x 1 = x 4 := by
  rw [C59_mirror1]
  rfl

/-! ## C60 -/

/-- Sum over one period of `|F|²` for the transform `F`. -/
theorem parseval (x : ZMod n → ℂ) :
    ∑ k, (fft x k * conj (fft x k)) = n * ∑ j, (x j * conj (x j)) := by
  have h : ∀ k, fft x k * conj (fft x k) =
      ∑ j, conj (x j) * (ZMod.stdAddChar (k * j) * fft x k) := by
    intro k
    conv_lhs => rw [fft_eq, conj_dft, ZMod.dft_apply (fun j => conj (x j)), Finset.mul_sum]
    apply Finset.sum_congr rfl
    intro j _
    rw [smul_eq_mul, mul_neg, neg_neg, mul_comm j k, fft_eq]
    ring
  simp only [h]
  rw [Finset.sum_comm, Finset.mul_sum]
  apply Finset.sum_congr rfl
  intro j _
  rw [← Finset.mul_sum]
  have hdd := congrFun (ZMod.dft_dft (N := n) x) (-j)
  rw [ZMod.dft_apply] at hdd
  simp only [neg_neg, smul_eq_mul, mul_neg] at hdd
  rw [fft_eq, hdd]
  ring

/-- mrsimulator.c:285-342: sideband amplitudes of one orientation. `phase j` is the imaginary
part of the exponent at time step `j` (lines 285-323; the real part is not used, line 329).
The table lookup of the exponential is replaced by the exponential; the result is
`re² + im²` of the transform (lines 340-342). -/
noncomputable def sidebandAmps (phase : ZMod n → ℝ) : ZMod n → ℝ :=
  fun k =>
    let v := fft (fun j => exp (I * phase j)) k
    v.re * v.re + v.im * v.im

/-- mrsimulator.c:74-87: weight of an orientation after normalisation, from the weight `w` of
the scheme. -/
noncomputable def normAmplitude (n nOctants : Nat) (w : ℝ) : ℝ := w * (1 / (n * n * nOctants : ℝ))

theorem sum_sidebandAmps (phase : ZMod n → ℝ) : ∑ k, sidebandAmps phase k = (n : ℝ) ^ 2 := by
  have h := parseval (fun j => exp (I * phase j))
  have h1 : ∀ k, fft (fun j => exp (I * phase j)) k * conj (fft (fun j => exp (I * phase j)) k) =
      ((sidebandAmps phase k : ℝ) : ℂ) := by
    intro k
    rw [Complex.mul_conj, Complex.normSq_apply]
    rfl
  have h2 : ∀ j : ZMod n, exp (I * phase j) * conj (exp (I * phase j)) = 1 := by
    intro j
    rw [← Complex.exp_conj, ← Complex.exp_add, map_mul, Complex.conj_I, Complex.conj_ofReal]
    simp
  simp only [h1, h2, Finset.sum_const, Finset.card_univ, ZMod.card, nsmul_eq_mul, mul_one] at h
  have : ((∑ k, sidebandAmps phase k : ℝ) : ℂ) = (((n : ℝ) ^ 2 : ℝ) : ℂ) := by
    push_cast
    rw [h]
    ring
  exact_mod_cast this

/-- **C60 (one dimension, one event).** The normalised sideband amplitudes of an orientation
add up to the weight of the orientation divided by the number of octants, whatever the
number of sidebands and the phase trajectory. -/
theorem C60_one_dim_partial (phase : ZMod n → ℝ) (nOctants : Nat) (w : ℝ) :
    ∑ k, sidebandAmps phase k * normAmplitude n nOctants w = w / nOctants := by
  rw [← Finset.sum_mul, sum_sidebandAmps]
  unfold normAmplitude
  have : (n : ℝ) ≠ 0 := Nat.cast_ne_zero.mpr (NeZero.ne n)
  by_cases h0 : (nOctants : ℝ) = 0
  · simp [h0]
  · field_simp

/-- Two sidebands, a phase jump of half a turn between the two time steps. -/
example : ∑ k, sidebandAmps (n := 2) (fun j => if j = 0 then 0 else Real.pi) k *
    normAmplitude 2 1 3 = 3 := by
  rw [C60_one_dim_partial]
  norm_num

/-- **C60, where the code disagrees (two dimensions).** Amplitudes of both dimensions are
multiplied (frequency_averaging.c:156-174, 213-215) but normalised once: the total is `n²`
times the weight of the orientation, so it grows with the square of the number of
sidebands. -/
theorem C60_counterexample_2d (phaseA phaseB : ZMod n → ℝ) (w : ℝ)
    (nOctants : Nat) :
    ∑ i, ∑ k, sidebandAmps phaseA i * (sidebandAmps phaseB k * normAmplitude n nOctants w) =
      (n : ℝ) ^ 2 * (w / nOctants) := by
  have h1 : ∀ i, ∑ k, sidebandAmps phaseA i * (sidebandAmps phaseB k * normAmplitude n nOctants w) =
      sidebandAmps phaseA i * (w / nOctants) := by
    intro i
    rw [← Finset.mul_sum, C60_one_dim_partial]
  simp only [h1]
  rw [← Finset.sum_mul, sum_sidebandAmps]

/-- **C60, where the code disagrees (several events).** In one dimension the amplitudes of the
events are multiplied sideband by sideband (frequency_averaging.c:12-21) and normalised
once. Already without any anisotropy (all phases zero) the total for two events is `n²`
times the weight. -/
theorem C60_counterexample_events (w : ℝ) (nOctants : Nat) (h : 1 ≤ nOctants) :
    ∑ k, sidebandAmps (n := n) (fun _ => 0) k * sidebandAmps (n := n) (fun _ => 0) k *
      normAmplitude n nOctants w = (n : ℝ) ^ 2 * (w / nOctants) := by
  have hz : ∀ k, k ≠ 0 → sidebandAmps (n := n) (fun _ => 0) k = 0 := by
    intro k hk
    unfold sidebandAmps
    have : fft (n := n) (fun _ => exp (I * ((0 : ℝ) : ℂ))) k = 0 := by
      rw [fft_eq, ZMod.dft_apply]
      simp only [Complex.ofReal_zero, mul_zero, Complex.exp_zero, smul_eq_mul, mul_one]
      have hprim := ZMod.isPrimitive_stdAddChar n
      have := AddChar.sum_mulShift (R := ZMod n) (-k) hprim
      rw [if_neg (neg_ne_zero.mpr hk)] at this
      simpa [mul_neg] using this
    simp only [this]
    simp
  have h0 : sidebandAmps (n := n) (fun _ => 0) 0 = (n : ℝ) ^ 2 := by
    have := sum_sidebandAmps (n := n) (fun _ => 0)
    rw [Finset.sum_eq_single (0 : ZMod n) (fun k _ hk => hz k hk) (by simp)] at this
    exact this
  rw [Finset.sum_eq_single (0 : ZMod n) (fun k _ hk => by rw [hz k hk]; ring) (by simp), h0]
  unfold normAmplitude
  have : (n : ℝ) ≠ 0 := Nat.cast_ne_zero.mpr (NeZero.ne n)
  have h1 : (nOctants : ℝ) ≠ 0 := Nat.cast_ne_zero.mpr (by omega)
  field_simp

example : (4 : ℝ) ^ 2 * (1 / 1) ≠ 1 / 1 := by norm_num

end MRS.Sim
