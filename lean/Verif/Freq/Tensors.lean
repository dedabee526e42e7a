import Verif.Freq.Cartesian
import Verif.Sim.StfExact

/-!
# Interaction tensors and the frequency of a crystallite

`sSOT_*` (include/frequency/spatial_orientation_tensor_components.h), `FCF_*`
(include/frequency/frequency_tensor_components.h) and the frequency part of lib/mrsimulator.c.
-/

set_option linter.unusedSimpArgs false

namespace MRS.Freq

open Complex ComplexConjugate Matrix

/-- The decimal constants of spatial_orientation_tensor_components.h (`r6` … `k4d`) and of
spin_transition_functions.h (`d` … `f4`). -/
structure TC where
  r6 : ℝ
  s6 : ℝ
  t3 : ℝ
  k0 : ℝ
  k2a : ℝ
  k2b : ℝ
  k4a : ℝ
  k4b : ℝ
  k4c : ℝ
  k4d : ℝ
  d : ℝ
  f : ℝ
  p0 : ℝ
  f0 : ℝ
  p2 : ℝ
  f2 : ℝ
  p4 : ℝ
  f4 : ℝ

/-- The constants as written in the source (lines 94, 172-175, 285-305 of the former, 47, 71, 104-107
of the latter). -/
noncomputable def TC.src : TC where
  r6 := 0.4082482905
  s6 := 0.1666666667
  t3 := 0.33333333333
  k0 := 0.07453559925
  k2a := 0.07273929675
  k2b := 0.08908708064
  k4a := 0.02777777778
  k4b := 0.06299407883
  k4c := 0.1195228609
  k4d := 0.05555555556
  d := 1.2247448714
  f := 0.316227766
  p0 := 0.3577708764
  f0 := 0.8485281374
  p2 := 0.1069044968
  f2 := -1.0141851057
  p4 := -0.1434274331
  f4 := -1.2850792082

/-- The numbers that they abbreviate, from the comments of the same files (lines 27-32, 120-124, 189-213; 37-42, 57-62,
78-86). -/
noncomputable def TC.exact : TC where
  r6 := 1 / √6
  s6 := 1 / 6
  t3 := 1 / 3
  k0 := 1 / (6 * √5)
  k2a := 1 / (3 * √21)
  k2b := √2 / (6 * √7)
  k4a := 1 / 36
  k4b := 1 / (6 * √7)
  k4c := 1 / √70
  k4d := 1 / 18
  d := √(3 / 2)
  f := 1 / √10
  p0 := 4 / √125
  f0 := √(18 / 25)
  p2 := √(2 / 175)
  f2 := -6 / √35
  p4 := -√(18 / 875)
  f4 := -17 / √175

/-- spin_transition_functions.h:29 `STF_p`.  (This and the next three are the functions of
Verif/Sim/Stf.lean over the reals; see `stf_agree`.) -/
def stfP (mf mi : ℝ) : ℝ := mf - mi

/-- spin_transition_functions.h:46-48 `STF_d`. -/
noncomputable def stfD (T : TC) (mf mi : ℝ) : ℝ := T.d * (mf * mf - mi * mi)

/-- spin_transition_functions.h:66-72 `STF_f`. -/
noncomputable def stfF (T : TC) (mf mi spin : ℝ) : ℝ :=
  ((1 - 3 * spin * (spin + 1)) * (mf - mi) + 5 * (mf * mf * mf - mi * mi * mi)) * T.f

/-- spin_transition_functions.h:98-108 `STF_cL`. -/
noncomputable def stfCL (T : TC) (mf mi spin : ℝ) : ℝ × ℝ × ℝ :=
  let f := stfF T mf mi spin
  let temp := (spin * (spin + 1) - 3 / 4) * stfP mf mi
  (T.p0 * temp + T.f0 * f, T.p2 * temp + T.f2 * f, T.p4 * temp + T.f4 * f)

/-- spin_transition_functions.h:139-142 `STF_dIS`. -/
def stfDIS (mIf mIi mSf mSi : ℝ) : ℝ := mIf * mSf - mIi * mSi

/-- Three Euler angles in radian. -/
structure Angles where
  α : ℝ
  β : ℝ
  γ : ℝ

/-- Components of the ranks 0, 2 and 4 (`R0`, `R2`, `R4` of lib/mrsimulator.c; `R0` is real). -/
structure Tens where
  R0 : ℝ
  R2 : ℕ → ℂ
  R4 : ℕ → ℂ

/-- spatial_orientation_tensor_components.h:91-98: five components that are zero but for `R2,±2` and
`R2,0`. -/
noncomputable def pas2 (r2 r0 : ℝ) : ℕ → ℂ
  | 0 => r2
  | 2 => r0
  | 4 => r2
  | _ => 0

/-- spatial_orientation_tensor_components.h:300-312. -/
noncomputable def pas4 (r4 r2 r0 : ℝ) : ℕ → ℂ
  | 0 => r4
  | 2 => r2
  | 4 => r0
  | 6 => r2
  | 8 => r4
  | _ => 0

open Classical in
/-- spatial_orientation_tensor_components.h:100-104, and the same lines in the other functions. -/
noncomputable def toFrame (W : WC) (l : ℕ) (Θ : Angles) (R : ℕ → ℂ) : ℕ → ℂ :=
  if Θ.α = 0 ∧ Θ.β = 0 ∧ Θ.γ = 0 then R else singleRotation W l Θ.α Θ.β Θ.γ R

/-- spatial_orientation_tensor_components.h:85-105. -/
noncomputable def ssotShielding (W : WC) (T : TC) (iso zeta eta : ℝ) (Θ : Angles) : Tens where
  R0 := iso
  R2 := toFrame W 2 Θ (pas2 (T.r6 * (zeta * eta)) (-zeta))
  R4 := fun _ => 0

/-- spatial_orientation_tensor_components.h:161-165. -/
noncomputable def vq (spin Cq : ℝ) : ℝ := 3 * Cq / (2 * spin * (2 * spin - 1))

/-- spatial_orientation_tensor_components.h:156-180. -/
noncomputable def ssotQuad1 (W : WC) (T : TC) (spin Cq eta : ℝ) (Θ : Angles) : Tens where
  R0 := 0
  R2 := toFrame W 2 Θ (pas2 (-T.s6 * (vq spin Cq * eta)) (T.r6 * vq spin Cq))
  R4 := fun _ => 0

/-- spatial_orientation_tensor_components.h:270-317. -/
noncomputable def ssotQuad2 (W : WC) (T : TC) (spin v0 Cq eta : ℝ) (Θ : Angles) : Tens :=
  let scale := vq spin Cq * vq spin Cq / v0
  let eta2 := eta * eta
  { R0 := (eta2 * T.t3 + 1) * T.k0 * scale
    R2 := toFrame W 2 Θ (pas2 (-eta * T.k2a * scale) (T.k2b * scale * (eta2 * T.t3 - 1)))
    R4 := toFrame W 4 Θ (pas4 (eta2 * T.k4a * scale) (-T.k4b * eta * scale)
      (T.k4c * scale * (eta2 * T.k4d + 1))) }

/-- spatial_orientation_tensor_components.h:378-398. -/
noncomputable def ssotJ (W : WC) (T : TC) (iso zeta eta : ℝ) (Θ : Angles) : Tens where
  R0 := iso
  R2 := toFrame W 2 Θ (pas2 (-T.r6 * (zeta * eta)) zeta)
  R4 := fun _ => 0

/-- spatial_orientation_tensor_components.h:443-456. -/
noncomputable def ssotDipolar (W : WC) (D : ℝ) (Θ : Angles) : Tens where
  R0 := 0
  R2 := toFrame W 2 Θ (pas2 0 (2 * D))
  R4 := fun _ => 0

/-- `cblas_dscal` on the components (frequency_tensor_components.h:69-72). -/
noncomputable def scaleT (x : ℝ) (t : Tens) : Tens where
  R0 := t.R0 * x
  R2 := fun i => x * t.R2 i
  R4 := fun i => x * t.R4 i

/-- `vm_double_add_inplace` on the components (vm.h line 44). -/
noncomputable def addT (s t : Tens) : Tens where
  R0 := s.R0 + t.R0
  R2 := fun i => s.R2 i + t.R2 i
  R4 := fun i => s.R4 i + t.R4 i

/-- simulation.c:30-34 `__zero_components`. -/
noncomputable def zeroT : Tens := ⟨0, fun _ => 0, fun _ => 0⟩

open Classical in
/-- The tail of the first-order `FCF_*` functions (frequency_tensor_components.h:48-73, 101-120, 224-248,
279-296): nothing if the transition function is zero, the scaled components otherwise. -/
noncomputable def fcf (tf : ℝ) (t : Tens) : Tens := if tf = 0 then zeroT else scaleT tf t

/-- frequency_tensor_components.h:161-181; the three transition functions are `c0`, `c2`, `c4`.  (The buffer
that holds them is not freed.) -/
noncomputable def fcfQuad2 (c0 c2 c4 : ℝ) (t : Tens) : Tens where
  R0 := t.R0 * c0
  R2 := fun i => c2 * t.R2 i
  R4 := fun i => c4 * t.R4 i

/-- The frequency of one orientation in units of Hz: mrsimulator.c:409-451 for one event with
`inverse_increment = fraction = 1` and the rotation 418-420 into the rotor frame.  `cβ`, `sβ` and `e = exp(iα)`
describe the orientation, `cθ`, `sθ` the rotor angle.  Only the real part of the component `m = 0` is used;
the fourth rank is left out unless `four`. -/
noncomputable def localFreq (W : WC) (four : Bool) (cβ sβ : ℝ) (e : ℂ) (cθ sθ : ℝ) (t : Tens) : ℝ :=
  t.R0 + dm0Vector2 W cθ sθ 2 * (halfRotation W 2 cβ sβ e t.R2 2).re
    + if four then dm0Vector4 W cθ sθ 4 * (halfRotation W 4 cβ sβ e t.R4 4).re else 0

/-! ## Specification -/

/-- The direction with polar angle β and azimuth α. -/
noncomputable def Spec.dir (α β : ℝ) : Fin 3 → ℝ :=
  ![Real.sin β * Real.cos α, Real.sin β * Real.sin α, Real.cos β]

/-- A symmetric traceless tensor in its principal axis system, by the anisotropy ζ and asymmetry η of
Haeberlen's convention. -/
noncomputable def Spec.haeberlen (ζ η : ℝ) : Matrix (Fin 3) (Fin 3) ℝ :=
  Matrix.diagonal ![-ζ * (1 + η) / 2, -ζ * (1 - η) / 2, ζ]

/-- The quadratic form of a tensor along a direction. -/
noncomputable def Spec.along (A : Matrix (Fin 3) (Fin 3) ℝ) (n : Fin 3 → ℝ) : ℝ := n ⬝ᵥ (A *ᵥ n)

/-- A direction of the common frame seen from a principal axis system with Euler angles Θ. -/
noncomputable def Spec.seen (Θ : Angles) (n : Fin 3 → ℝ) : Fin 3 → ℝ := Spec.euler Θ.α Θ.β Θ.γ *ᵥ n

/-! ## Lemmas -/

theorem stf_agree (mf mi spin : ℚ) :
    stfP mf mi = (Sim.stfP mf mi : ℝ) ∧ stfD TC.src mf mi = (Sim.stfD mf mi : ℝ) ∧
    stfF TC.src mf mi spin = (Sim.stfF mf mi spin : ℝ) ∧
    stfCL TC.src mf mi spin = (((Sim.stfCL mf mi spin).1 : ℝ), ((Sim.stfCL mf mi spin).2.1 : ℝ),
      ((Sim.stfCL mf mi spin).2.2 : ℝ)) := by
  refine ⟨?_, ?_, ?_, ?_⟩
  · simp [stfP, Sim.stfP]
  · simp only [stfD, Sim.stfD, TC.src]
    push_cast
    ring
  · simp only [stfF, Sim.stfF, TC.src]
    push_cast
    ring
  · simp only [stfCL, stfF, stfP, Sim.stfCL, Sim.stfF, Sim.stfP, TC.src]
    push_cast
    refine Prod.ext ?_ (Prod.ext ?_ ?_) <;> ring

theorem haeberlen_symm (ζ η : ℝ) : (Spec.haeberlen ζ η).IsSymm := Matrix.isSymm_diagonal _

theorem haeberlen_trace (ζ η : ℝ) : (Spec.haeberlen ζ η).trace = 0 := by
  simp [Spec.haeberlen, Matrix.trace, Fin.sum_univ_three]
  ring

theorem pas2_sph (k ζ η r2 r0 : ℝ) (h0 : r0 = k * ζ) (h2 : r2 = -(k * (ζ * η)) / √6) (i : ℕ) (hi : i < 5) :
    pas2 r2 r0 i = Spec.sph (k • Spec.haeberlen ζ η) i := by
  subst h0 h2
  interval_cases i <;> apply Complex.ext <;> simp [pas2, Spec.sph, Spec.haeberlen] <;> ring

theorem along_smul (k : ℝ) (A : Matrix (Fin 3) (Fin 3) ℝ) (n : Fin 3 → ℝ) :
    Spec.along (k • A) n = k * Spec.along A n := by
  unfold Spec.along
  rw [Matrix.smul_mulVec, dotProduct_smul, smul_eq_mul]

theorem along_conj (A M : Matrix (Fin 3) (Fin 3) ℝ) (n : Fin 3 → ℝ) :
    Spec.along (Mᵀ * A * M) n = Spec.along A (M *ᵥ n) := by
  unfold Spec.along
  rw [← Matrix.mulVec_mulVec, ← Matrix.mulVec_mulVec, Matrix.dotProduct_mulVec, Matrix.vecMul_transpose]

set_option maxHeartbeats 1000000 in
theorem rotation_zero (W : WC) (l : ℕ) (hl : l = 2 ∨ l = 4) (R : ℕ → ℂ) (i : ℕ) (hi : i < 2 * l + 1) :
    singleRotation W l 0 0 0 R i = R i := by
  unfold singleRotation
  rw [phased_one, applyW_congr l _ _ R (fun j _ => phased_one l R j)]
  rw [W.trig.cos_zero, W.trig.sin_zero]
  have hw : ∀ j < 2 * l + 1, wMatrix W l 1 0 ((2 * l + 1) * i + j) = if j = i then 1 else 0 := by
    intro j hj
    rcases hl with rfl | rfl
    · simp only [wMatrix, if_true]
      interval_cases i <;> interval_cases j <;> norm_num [Nat.reduceMul, Nat.reduceAdd, Nat.reduceSub, wentry]
    · simp only [wMatrix, if_true, show (4 : ℕ) ≠ 2 by norm_num, if_false]
      interval_cases i <;> interval_cases j <;> norm_num [Nat.reduceMul, Nat.reduceAdd, Nat.reduceSub, wentry]
  unfold applyW
  rw [Finset.sum_eq_single i]
  · rw [hw i hi]
    simp
  · intro j hj hji
    rw [hw j (Finset.mem_range.mp hj), if_neg hji]
    simp
  · intro h
    exact absurd (Finset.mem_range.mpr hi) h

theorem toFrame_eq (W : WC) (l : ℕ) (hl : l = 2 ∨ l = 4) (Θ : Angles) (R : ℕ → ℂ) (i : ℕ) (hi : i < 2 * l + 1) :
    toFrame W l Θ R i = singleRotation W l Θ.α Θ.β Θ.γ R i := by
  unfold toFrame
  split_ifs with h
  · rw [h.1, h.2.1, h.2.2, rotation_zero W l hl R i hi]
  · rfl

theorem toFrame_sph (A : Matrix (Fin 3) (Fin 3) ℝ) (hA : A.IsSymm) (ht : A.trace = 0) (Θ : Angles) (hβ : 0 ≤ Θ.β)
    (R : ℕ → ℂ) (hR : ∀ i < 5, R i = Spec.sph A i) (i : ℕ) (hi : i < 5) :
    toFrame WC.exact 2 Θ R i
      = Spec.sph ((Spec.euler Θ.α Θ.β Θ.γ)ᵀ * A * Spec.euler Θ.α Θ.β Θ.γ) i := by
  rw [toFrame_eq WC.exact 2 (Or.inl rfl) Θ R i (by omega),
    rotation_cartesian A hA ht Θ.α Θ.β Θ.γ R hR i hi, abs_of_nonneg hβ]

theorem euler_orth (α β γ : ℝ) : Spec.euler α β γ * (Spec.euler α β γ)ᵀ = 1 := by
  unfold Spec.euler
  rw [Matrix.transpose_mul, Matrix.transpose_mul]
  calc Spec.Rz α * Spec.Ry β * Spec.Rz γ * ((Spec.Rz γ)ᵀ * ((Spec.Ry β)ᵀ * (Spec.Rz α)ᵀ))
      = Spec.Rz α * (Spec.Ry β * (Spec.Rz γ * (Spec.Rz γ)ᵀ) * (Spec.Ry β)ᵀ) * (Spec.Rz α)ᵀ := by
        simp only [Matrix.mul_assoc]
    _ = 1 := by rw [rz_orth, Matrix.mul_one, ry_orth, Matrix.mul_one, rz_orth]

theorem halfRotation_congr (W : WC) (l : ℕ) (c s : ℝ) (e : ℂ) (R R' : ℕ → ℂ) (h : ∀ j < 2 * l + 1, R j = R' j)
    (i : ℕ) : halfRotation W l c s e R i = halfRotation W l c s e R' i := by
  unfold halfRotation
  refine Finset.sum_congr rfl (fun j hj => ?_)
  have hj' := Finset.mem_range.mp hj
  unfold phasedHalf
  split_ifs
  · rw [h j hj']
  · rw [h (2 * l - j) (by omega)]

/-- The lab component of a rank 2 tensor is its quadratic form along the direction of the orientation. -/
theorem half_along (A : Matrix (Fin 3) (Fin 3) ℝ) (hA : A.IsSymm) (ht : A.trace = 0) (α β : ℝ) (R : ℕ → ℂ)
    (hR : ∀ i < 5, R i = Spec.sph A i) :
    (halfRotation WC.exact 2 (Real.cos β) (Real.sin β) (exp (α * I)) R 2).re = Spec.along A (Spec.dir α β) := by
  rw [halfRotation_congr _ _ _ _ _ R (Spec.sph A) (by simpa using hR),
    halfRotation_eq WC.exact 2 (Or.inl rfl) _ _ _ _ (sph_real A) 2 (by norm_num),
    applyW_congr 2 _ _ (Spec.sph ((Spec.Rz α)ᵀ * A * Spec.Rz α)) (fun j hj => sph_rz A hA α j (by omega)),
    sph_ry _ (symm_conj _ _ hA) ((trace_conj A _ (rz_orth α)).trans ht) β 2 (by norm_num)]
  have h01 : A 1 0 = A 0 1 := hA.apply 0 1
  have h02 : A 2 0 = A 0 2 := hA.apply 0 2
  have h12 : A 2 1 = A 1 2 := hA.apply 1 2
  simp [Spec.sph, Spec.Rz, Spec.Ry, Spec.along, Spec.dir, Matrix.mul_apply, Fin.sum_univ_three, dotProduct,
    Matrix.mulVec, h01, h02, h12]
  ring

theorem half_smul (W : WC) (l : ℕ) (c s : ℝ) (e : ℂ) (R : ℕ → ℂ) (x : ℝ) (i : ℕ) :
    halfRotation W l c s e (fun j => x * R j) i = x * halfRotation W l c s e R i := by
  unfold halfRotation
  rw [Finset.mul_sum]
  refine Finset.sum_congr rfl (fun j _ => ?_)
  unfold phasedHalf
  split_ifs
  · ring
  · rw [map_mul, map_mul, map_mul, Complex.conj_ofReal]
    ring

theorem half_add (W : WC) (l : ℕ) (c s : ℝ) (e : ℂ) (R R' : ℕ → ℂ) (i : ℕ) :
    halfRotation W l c s e (fun j => R j + R' j) i
      = halfRotation W l c s e R i + halfRotation W l c s e R' i := by
  unfold halfRotation
  rw [← Finset.sum_add_distrib]
  refine Finset.sum_congr rfl (fun j _ => ?_)
  unfold phasedHalf
  split_ifs
  · ring
  · simp only [map_mul, map_add]
    ring

theorem half_zero (W : WC) (l : ℕ) (c s : ℝ) (e : ℂ) (i : ℕ) :
    halfRotation W l c s e (fun _ => 0) i = 0 := by
  have := half_smul W l c s e (fun _ => 0) 0 i
  simpa using this

theorem localFreq_scale (W : WC) (four : Bool) (cβ sβ : ℝ) (e : ℂ) (cθ sθ x : ℝ) (t : Tens) :
    localFreq W four cβ sβ e cθ sθ (scaleT x t) = x * localFreq W four cβ sβ e cθ sθ t := by
  unfold localFreq scaleT
  simp only [half_smul, Complex.re_ofReal_mul]
  split_ifs <;> ring

theorem localFreq_fcf (W : WC) (four : Bool) (cβ sβ : ℝ) (e : ℂ) (cθ sθ x : ℝ) (t : Tens) :
    localFreq W four cβ sβ e cθ sθ (fcf x t) = x * localFreq W four cβ sβ e cθ sθ t := by
  unfold fcf
  split_ifs with h
  · subst h
    simp [localFreq, zeroT, half_zero]
  · exact localFreq_scale _ _ _ _ _ _ _ _ _

theorem localFreq_add (W : WC) (four : Bool) (cβ sβ : ℝ) (e : ℂ) (cθ sθ : ℝ) (s t : Tens) :
    localFreq W four cβ sβ e cθ sθ (addT s t)
      = localFreq W four cβ sβ e cθ sθ s + localFreq W four cβ sβ e cθ sθ t := by
  unfold localFreq addT
  simp only [half_add, Complex.add_re]
  split_ifs <;> ring

/-- The frequency of a tensor that has no fourth rank. -/
theorem localFreq_two (four : Bool) (A : Matrix (Fin 3) (Fin 3) ℝ) (hA : A.IsSymm) (ht : A.trace = 0) (Θ : Angles)
    (hβ : 0 ≤ Θ.β) (R : ℕ → ℂ) (hR : ∀ i < 5, R i = Spec.sph A i) (r0 α β cθ sθ : ℝ) :
    localFreq WC.exact four (Real.cos β) (Real.sin β) (exp (α * I)) cθ sθ
        ⟨r0, toFrame WC.exact 2 Θ R, fun _ => 0⟩
      = r0 + (3 * cθ ^ 2 - 1) / 2 * Spec.along A (Spec.seen Θ (Spec.dir α β)) := by
  have hM := euler_orth Θ.α Θ.β Θ.γ
  unfold localFreq Spec.seen
  rw [half_along _ (symm_conj A (Spec.euler Θ.α Θ.β Θ.γ) hA) ((trace_conj A _ hM).trans ht) α β _
    (fun i hi => toFrame_sph A hA ht Θ hβ R hR i hi), along_conj, half_zero]
  simp only [Complex.zero_re, mul_zero, ite_self, add_zero, dm0Vector2]
  ring

end MRS.Freq
