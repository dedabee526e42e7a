import Verif.Freq.View
import Verif.Sim.Fourier
import Mathlib.Analysis.SpecialFunctions.Integrals.Basic
import Mathlib.MeasureTheory.Integral.IntervalIntegral.FundThmCalculus

/-!
# Spinning samples — property C75

The frequency at which a line is drawn is computed from the component `m = 0` in the rotor frame alone, and the
sidebands from phases that `__get_components` prepared (lib/mrsimulator.c).  The specification does without either:
the rotor turns, the energies of the two states follow from the momentary direction of the field, and the phase is the
integral of their difference.
-/

namespace MRS.Freq

open Complex ComplexConjugate Matrix

/-- mrsimulator.c:708-733 `__get_components`: entry `k` of the row `m = i - 4`.  `pht`, which the code sums up
step by step, is `k * wrt`. -/
noncomputable def prePhase (N : ℕ) (νr : ℝ) (i k : ℕ) : ℂ :=
  let mwr := ((i : ℝ) - 4) * (νr * (2 * Real.pi))
  let tau := 1 / (N * νr)
  let pht := k * (mwr * tau)
  let scale := 4 * Real.pi / mwr
  ⟨scale * (Real.cos pht - 1), scale * Real.sin pht⟩

/-- mrsimulator.c:178-183 and 198-203 (the rows of `pre_phase_2`, `pre_phase_4` are those of `pre_phase` times the
elements `d_m0` of the rotor angle) and 285-322 (`cblas_zgemm`, once per rank): the exponent at step `k` for the
components `w2`, `w4` of an orientation in the rotor frame, of which only the imaginary part is used (329).
`scheme->w4` is `NULL` unless `four`. -/
noncomputable def sidebandPhase (W : WC) (four : Bool) (N : ℕ) (νr cθ sθ : ℝ) (w2 w4 : ℕ → ℂ) (k : ℕ) : ℝ :=
  (∑ i ∈ Finset.range 2, (dm0Vector2 W cθ sθ i : ℂ) * prePhase N νr (i + 2) k * w2 i
    + if four then ∑ i ∈ Finset.range 4, (dm0Vector4 W cθ sθ i : ℂ) * prePhase N νr i k * w4 i else 0).im

/-- The same for one orientation (mrsimulator.c:418-420: `w2`, `w4` are the rotated components). -/
noncomputable def crystalPhase (W : WC) (four : Bool) (N : ℕ) (νr cβ sβ : ℝ) (e : ℂ) (cθ sθ : ℝ) (t : Tens)
    (k : ℕ) : ℝ :=
  sidebandPhase W four N νr cθ sθ (halfRotation W 2 cβ sβ e t.R2) (halfRotation W 4 cβ sβ e t.R4) k

/-! ## Specification -/

/-- The laboratory frame against the common frame of a crystallite with orientation (α, β) in a rotor whose axis makes
the angle θ with the field, at time `τ`: the rotor has turned by `2π ν_r τ`, so that the field has turned back by as
much in the rotor frame. -/
noncomputable def Spec.spun (α β θ νr τ : ℝ) : Matrix (Fin 3) (Fin 3) ℝ :=
  Spec.Rz α * Spec.Ry β * (Spec.Rz (-(2 * Real.pi * νr * τ)) * Spec.Ry θ)

/-- The momentary frequency of a transition. -/
noncomputable def Spec.momentary (second : Bool) (B0 α β θ νr : ℝ) (ss : List Site) (ks : List Coupling)
    (xi xf : List ℕ) (τ : ℝ) : ℝ :=
  Spec.energy second B0 (Spec.spun α β θ νr τ) ss ks xf - Spec.energy second B0 (Spec.spun α β θ νr τ) ss ks xi

/-- Its average over a turn of the rotor. -/
noncomputable def Spec.average (νr : ℝ) (f : ℝ → ℝ) : ℝ := νr * ∫ τ in (0 : ℝ)..(1 / νr), f τ

/-! ## Turning twice -/

/-- The rotation of all components. -/
noncomputable def turn (W : WC) (l : ℕ) (α β : ℝ) (R : ℕ → ℂ) : ℕ → ℂ :=
  applyW l (wMatrix W l (Real.cos β) (Real.sin β)) (phased l (exp (α * I)) R)

theorem turn_congr (W : WC) (l : ℕ) (α β : ℝ) (R R' : ℕ → ℂ) (h : ∀ j < 2 * l + 1, R j = R' j) :
    turn W l α β R = turn W l α β R' :=
  funext fun i => applyW_congr l _ _ _ (fun j hj => phased_congr l _ _ _ j (h j hj)) i

theorem turn_smul (W : WC) (l : ℕ) (α β : ℝ) (x : ℂ) (R : ℕ → ℂ) :
    turn W l α β (fun j => x * R j) = fun j => x * turn W l α β R j := by
  unfold turn
  rw [show phased l (exp (α * I)) (fun j => x * R j) = fun j => x * phased l (exp (α * I)) R j from
    funext (phased_smul l _ x R)]
  exact funext (applyW_smul l _ x _)

theorem turn_add (W : WC) (l : ℕ) (α β : ℝ) (R R' : ℕ → ℂ) :
    turn W l α β (fun j => R j + R' j) = fun j => turn W l α β R j + turn W l α β R' j := by
  funext i
  unfold turn applyW
  rw [← Finset.sum_add_distrib]
  refine Finset.sum_congr rfl (fun j _ => ?_)
  unfold phased
  split_ifs <;> ring

theorem turn_real (W : WC) (l : ℕ) (hl : l = 2 ∨ l = 4) (α β : ℝ) (R : ℕ → ℂ) (hR : Spec.IsReal l R) :
    Spec.IsReal l (turn W l α β R) :=
  real_applyW W l hl _ _ _ (real_phased l _ _ hR)

theorem turn_sph (A : Matrix (Fin 3) (Fin 3) ℝ) (hA : A.IsSymm) (ht : A.trace = 0) (α β : ℝ) (i : ℕ) (hi : i < 5) :
    turn WC.exact 2 α β (Spec.sph A) i = Spec.sph ((Spec.Rz α * Spec.Ry β)ᵀ * A * (Spec.Rz α * Spec.Ry β)) i := by
  unfold turn
  rw [applyW_congr 2 _ _ (Spec.sph ((Spec.Rz α)ᵀ * A * Spec.Rz α)) (fun j hj => sph_rz A hA α j (by omega)),
    sph_ry _ (symm_conj _ _ hA) ((trace_conj _ _ (rz_orth α)).trans ht) β i hi]
  congr 1
  simp only [Matrix.transpose_mul, Matrix.mul_assoc]

theorem turn_sq4 (α β : ℝ) (R : ℕ → ℂ) (i : ℕ) (hi : i < 9) :
    turn WC.exact 4 α β (sq4 R) i = sq4 (turn WC.exact 2 α β R) i :=
  half_sq4 α β R i hi

theorem turn_turn_sph (A : Matrix (Fin 3) (Fin 3) ℝ) (hA : A.IsSymm) (ht : A.trace = 0) (α β χ θ : ℝ) (i : ℕ)
    (hi : i < 5) :
    turn WC.exact 2 χ θ (turn WC.exact 2 α β (Spec.sph A)) i
      = Spec.sph ((Spec.Rz α * Spec.Ry β * (Spec.Rz χ * Spec.Ry θ))ᵀ * A
          * (Spec.Rz α * Spec.Ry β * (Spec.Rz χ * Spec.Ry θ))) i := by
  rw [turn_congr WC.exact 2 χ θ _ _ (fun j hj => turn_sph A hA ht α β j (by omega)),
    turn_sph _ (symm_conj _ _ hA) ((trace_conj _ _ (static_orth α β)).trans ht) χ θ i hi]
  congr 1
  simp only [Matrix.transpose_mul, Matrix.mul_assoc]

/-- Reading off the components after turning twice. -/
noncomputable def spunView (α β χ θ : ℝ) : View (Spec.Rz α * Spec.Ry β * (Spec.Rz χ * Spec.Ry θ)) where
  g2 R := (turn WC.exact 2 χ θ (turn WC.exact 2 α β R) 2).re
  g4 R := (turn WC.exact 4 χ θ (turn WC.exact 4 α β R) 4).re
  orth := mul_orth _ _ (static_orth α β) (static_orth χ θ)
  add2 R R' := by rw [turn_add, turn_add, Complex.add_re]
  add4 R R' := by rw [turn_add, turn_add, Complex.add_re]
  smul2 x R := by rw [turn_smul, turn_smul, Complex.re_ofReal_mul]
  smul4 x R := by rw [turn_smul, turn_smul, Complex.re_ofReal_mul]
  two A hA ht R hR := by
    rw [turn_congr WC.exact 2 α β R _ (fun j hj => hR j (by omega)), turn_turn_sph A hA ht α β χ θ 2 (by norm_num)]
    exact (along_z _).symm.trans (along_conj A _ _)
  four A hA ht x R hR := by
    rw [turn_congr WC.exact 4 α β R _ (fun j hj => hR j (by omega)), turn_smul, turn_smul, Complex.re_ofReal_mul]
    congr 1
    rw [turn_congr WC.exact 4 χ θ _ _ (fun j hj => turn_sq4 α β (Spec.sph A) j (by omega)),
      turn_sq4 _ _ _ 4 (by norm_num), sq4_congr _ _ (turn_turn_sph A hA ht α β χ θ), sq4_sph, Complex.ofReal_re]
    rfl

/-! ## Real components -/

theorem real_add (l : ℕ) (R R' : ℕ → ℂ) (h : Spec.IsReal l R) (h' : Spec.IsReal l R') :
    Spec.IsReal l (fun i => R i + R' i) := by
  intro j hj
  simp only [h j hj, h' j hj, map_add]
  ring

theorem real_smul (l : ℕ) (x : ℝ) (R : ℕ → ℂ) (h : Spec.IsReal l R) : Spec.IsReal l (fun i => x * R i) := by
  intro j hj
  simp only [h j hj, map_mul, Complex.conj_ofReal]
  ring

theorem real_zero (l : ℕ) : Spec.IsReal l (fun _ => 0) := by
  intro j _
  simp

/-- Both ranks are those of real tensors. -/
def Tens.IsReal (t : Tens) : Prop := Spec.IsReal 2 t.R2 ∧ Spec.IsReal 4 t.R4

theorem Tens.real_add {s t : Tens} (hs : s.IsReal) (ht : t.IsReal) : (addT s t).IsReal :=
  ⟨Freq.real_add 2 _ _ hs.1 ht.1, Freq.real_add 4 _ _ hs.2 ht.2⟩

theorem Tens.real_zero : zeroT.IsReal := ⟨Freq.real_zero 2, Freq.real_zero 4⟩

theorem Tens.real_fcf (x : ℝ) {t : Tens} (ht : t.IsReal) : (fcf x t).IsReal := by
  unfold fcf
  split_ifs
  · exact Tens.real_zero
  · exact ⟨real_smul 2 x _ ht.1, real_smul 4 x _ ht.2⟩

theorem real_pas (W : WC) (Θ : Angles) (r a b : ℝ) : (⟨r, toFrame W 2 Θ (pas2 a b), fun _ => 0⟩ : Tens).IsReal :=
  ⟨toFrame_real W 2 (Or.inl rfl) Θ _ (pas2_real a b), real_zero 4⟩

theorem addSites_real (W : WC) (T : TC) (four : Bool) (B0 : ℝ) (ss : List Site) (mi mf : List ℝ) (t : Tens)
    (ht : t.IsReal) : (addSites W T four B0 t ss mi mf).IsReal := by
  induction ss generalizing mi mf t with
  | nil =>
    unfold addSites
    exact ht
  | cons s ss ih =>
    cases mi with
    | nil =>
      unfold addSites
      exact ht
    | cons a mi =>
      cases mf with
      | nil =>
        unfold addSites
        exact ht
      | cons b mf =>
        unfold addSites
        apply ih
        have h1 : (shieldingPart W T B0 s b a).IsReal := Tens.real_fcf _ (real_pas W _ _ _ _)
        have h2 : (quad1Part W T s b a).IsReal := Tens.real_fcf _ (real_pas W _ _ _ _)
        have h3 : (quad2Part W T B0 s b a).IsReal :=
          ⟨real_smul 2 _ _ (toFrame_real W 2 (Or.inl rfl) _ _ (pas2_real _ _)),
            real_smul 4 _ _ (toFrame_real W 4 (Or.inr rfl) _ _ (pas4_real _ _ _))⟩
        unfold addSite
        split_ifs
        · exact ht
        · exact Tens.real_add ht h1
        · exact Tens.real_add (Tens.real_add (Tens.real_add ht h1) h2) h3
        · exact Tens.real_add (Tens.real_add ht h1) h2

theorem components_real (W : WC) (T : TC) (four : Bool) (B0 : ℝ) (ss : List Site) (ks : List Coupling)
    (mi mf : List ℝ) : (components W T four B0 ss ks mi mf).IsReal := by
  unfold components
  have h0 := addSites_real W T four B0 ss mi mf zeroT Tens.real_zero
  generalize addSites W T four B0 zeroT ss mi mf = t at h0
  induction ks generalizing t with
  | nil => exact h0
  | cons k ks ih =>
    simp only [List.foldl_cons]
    apply ih
    exact Tens.real_add (Tens.real_add h0 (Tens.real_fcf _ (real_pas W _ _ _ _)))
      (Tens.real_fcf _ (real_pas W _ _ _ _))

/-! ## The momentary frequency as a Fourier series -/

/-- One pair of terms, `m = -p` and `m = p`. -/
noncomputable def wave (νr d : ℝ) (w : ℂ) (p τ : ℝ) : ℝ :=
  2 * d * (w.re * Real.cos (p * (2 * Real.pi * νr) * τ) + w.im * Real.sin (p * (2 * Real.pi * νr) * τ))

theorem exp_wave (w : ℂ) (x : ℝ) (p : ℕ) :
    (w * exp ((-x : ℝ) * I) ^ p).re = w.re * Real.cos (p * x) + w.im * Real.sin (p * x) := by
  rw [← Complex.exp_nat_mul, show ((p : ℂ) * (((-x : ℝ) : ℂ) * I)) = ((-(p * x) : ℝ) : ℂ) * I by push_cast; ring,
    exp_parts, Complex.mul_re]
  simp only [Real.cos_neg, Real.sin_neg]
  ring

theorem conj_pair (d : ℝ) (w z : ℂ) (s : ℂ) (h : s = 1 ∨ s = -1) (σ : ℝ) (hσ : (σ : ℂ) = s) (p : ℕ) :
    ((d : ℂ) * (w * z ^ p)).re + (((σ * d : ℝ) : ℂ) * ((s * conj w) * conj (z ^ p))).re
      = 2 * d * (w * z ^ p).re := by
  have hs : s * s = 1 := by rcases h with rfl | rfl <;> norm_num
  have e : (((σ * d : ℝ) : ℂ) * ((s * conj w) * conj (z ^ p))) = (d : ℂ) * conj (w * z ^ p) := by
    push_cast
    rw [hσ, map_mul]
    linear_combination (d : ℂ) * conj w * conj (z ^ p) * hs
  rw [e, Complex.re_ofReal_mul, Complex.re_ofReal_mul, Complex.conj_re]
  ring

theorem fourier2 (W : WC) (w : ℕ → ℂ) (hw : Spec.IsReal 2 w) (χ θ : ℝ) :
    (turn W 2 χ θ w 2).re = dm0Vector2 W (Real.cos θ) (Real.sin θ) 2 * (w 2).re
      + ∑ i ∈ Finset.range 2, 2 * dm0Vector2 W (Real.cos θ) (Real.sin θ) i * (w i * exp (χ * I) ^ (2 - i)).re := by
  have h3 : w 3 = -1 * conj (w 1) := by simpa [pow_succ] using hw 1 (by norm_num)
  have h4 : w 4 = 1 * conj (w 0) := by simpa using hw 0 (by norm_num)
  have s3 : dm0Vector2 W (Real.cos θ) (Real.sin θ) 3 = -1 * dm0Vector2 W (Real.cos θ) (Real.sin θ) 1 := by
    simp [dm0Vector2]
  have s4 : dm0Vector2 W (Real.cos θ) (Real.sin θ) 4 = 1 * dm0Vector2 W (Real.cos θ) (Real.sin θ) 0 := by
    simp [dm0Vector2]
  have e : turn W 2 χ θ w 2 = ∑ j ∈ Finset.range 5,
      (dm0Vector2 W (Real.cos θ) (Real.sin θ) j : ℂ) * phased 2 (exp (χ * I)) w j := by
    unfold turn applyW
    refine Finset.sum_congr rfl (fun j hj => ?_)
    rw [dm0_2 W _ _ j (Finset.mem_range.mp hj)]
    rfl
  have p0 := conj_pair (dm0Vector2 W (Real.cos θ) (Real.sin θ) 0) (w 0) (exp (χ * I)) 1 (Or.inl rfl) 1 (by simp) 2
  have p1 := conj_pair (dm0Vector2 W (Real.cos θ) (Real.sin θ) 1) (w 1) (exp (χ * I)) (-1) (Or.inr rfl) (-1) (by simp) 1
  rw [e]
  simp only [Finset.sum_range_succ, Finset.sum_range_zero, zero_add, phased, Complex.add_re]
  norm_num only [if_true, if_false, Nat.sub_zero, Nat.reduceSub, Nat.reduceLeDiff]
  rw [s3, s4, h3, h4]
  rw [← p0, ← p1]
  simp only [pow_zero, mul_one, Complex.re_ofReal_mul]
  ring

theorem fourier4 (W : WC) (w : ℕ → ℂ) (hw : Spec.IsReal 4 w) (χ θ : ℝ) :
    (turn W 4 χ θ w 4).re = dm0Vector4 W (Real.cos θ) (Real.sin θ) 4 * (w 4).re
      + ∑ i ∈ Finset.range 4, 2 * dm0Vector4 W (Real.cos θ) (Real.sin θ) i * (w i * exp (χ * I) ^ (4 - i)).re := by
  have h5 : w 5 = -1 * conj (w 3) := by simpa [pow_succ] using hw 3 (by norm_num)
  have h6 : w 6 = 1 * conj (w 2) := by simpa [pow_succ] using hw 2 (by norm_num)
  have h7 : w 7 = -1 * conj (w 1) := by simpa [pow_succ] using hw 1 (by norm_num)
  have h8 : w 8 = 1 * conj (w 0) := by simpa [pow_succ] using hw 0 (by norm_num)
  set d := dm0Vector4 W (Real.cos θ) (Real.sin θ) with hd
  have s5 : d 5 = -1 * d 3 := by simp [hd, dm0Vector4]
  have s6 : d 6 = 1 * d 2 := by simp [hd, dm0Vector4]
  have s7 : d 7 = -1 * d 1 := by simp [hd, dm0Vector4]
  have s8 : d 8 = 1 * d 0 := by simp [hd, dm0Vector4]
  have e : turn W 4 χ θ w 4 = ∑ j ∈ Finset.range 9, (d j : ℂ) * phased 4 (exp (χ * I)) w j := by
    unfold turn applyW
    refine Finset.sum_congr rfl (fun j hj => ?_)
    rw [hd, dm0_4 W _ _ (Real.cos_sq_add_sin_sq θ) j (Finset.mem_range.mp hj)]
    rfl
  have p0 := conj_pair (d 0) (w 0) (exp (χ * I)) 1 (Or.inl rfl) 1 (by simp) 4
  have p1 := conj_pair (d 1) (w 1) (exp (χ * I)) (-1) (Or.inr rfl) (-1) (by simp) 3
  have p2 := conj_pair (d 2) (w 2) (exp (χ * I)) 1 (Or.inl rfl) 1 (by simp) 2
  have p3 := conj_pair (d 3) (w 3) (exp (χ * I)) (-1) (Or.inr rfl) (-1) (by simp) 1
  rw [e]
  simp only [Finset.sum_range_succ, Finset.sum_range_zero, zero_add, phased, Complex.add_re]
  norm_num only [if_true, if_false, Nat.sub_zero, Nat.reduceSub, Nat.reduceLeDiff]
  rw [s5, s6, s7, s8, h5, h6, h7, h8]
  rw [← p0, ← p1, ← p2, ← p3]
  simp only [pow_zero, mul_one, Complex.re_ofReal_mul]
  ring

/-- What the momentary frequency has beyond its average. -/
noncomputable def waves (W : WC) (four : Bool) (νr θ : ℝ) (w2 w4 : ℕ → ℂ) (τ : ℝ) : ℝ :=
  ∑ i ∈ Finset.range 2, wave νr (dm0Vector2 W (Real.cos θ) (Real.sin θ) i) (w2 i) ((2 - i : ℕ) : ℝ) τ
    + if four then ∑ i ∈ Finset.range 4, wave νr (dm0Vector4 W (Real.cos θ) (Real.sin θ) i) (w4 i) ((4 - i : ℕ) : ℝ) τ
      else 0

theorem spun_freq (four : Bool) (α β θ νr τ : ℝ) (t : Tens) (ht : t.IsReal) :
    (spunView α β (-(2 * Real.pi * νr * τ)) θ).freq four t
      = localFreq WC.exact four (Real.cos β) (Real.sin β) (exp (α * I)) (Real.cos θ) (Real.sin θ) t
        + waves WC.exact four νr θ (halfRotation WC.exact 2 (Real.cos β) (Real.sin β) (exp (α * I)) t.R2)
          (halfRotation WC.exact 4 (Real.cos β) (Real.sin β) (exp (α * I)) t.R4) τ := by
  have e2 : ∀ i ≤ 2, turn WC.exact 2 α β t.R2 i
      = halfRotation WC.exact 2 (Real.cos β) (Real.sin β) (exp (α * I)) t.R2 i :=
    fun i hi => (halfRotation_eq WC.exact 2 (Or.inl rfl) _ _ _ _ ht.1 i hi).symm
  have e4 : ∀ i ≤ 4, turn WC.exact 4 α β t.R4 i
      = halfRotation WC.exact 4 (Real.cos β) (Real.sin β) (exp (α * I)) t.R4 i :=
    fun i hi => (halfRotation_eq WC.exact 4 (Or.inr rfl) _ _ _ _ ht.2 i hi).symm
  have f2 := fourier2 WC.exact _ (turn_real WC.exact 2 (Or.inl rfl) α β _ ht.1) (-(2 * Real.pi * νr * τ)) θ
  have f4 := fourier4 WC.exact _ (turn_real WC.exact 4 (Or.inr rfl) α β _ ht.2) (-(2 * Real.pi * νr * τ)) θ
  have g2 : ∀ i ∈ Finset.range 2, 2 * dm0Vector2 WC.exact (Real.cos θ) (Real.sin θ) i
      * (turn WC.exact 2 α β t.R2 i * exp ((-(2 * Real.pi * νr * τ) : ℝ) * I) ^ (2 - i)).re
      = wave νr (dm0Vector2 WC.exact (Real.cos θ) (Real.sin θ) i)
          (halfRotation WC.exact 2 (Real.cos β) (Real.sin β) (exp (α * I)) t.R2 i) ((2 - i : ℕ) : ℝ) τ := by
    intro i hi
    rw [exp_wave, e2 i (Finset.mem_range.mp hi).le]
    unfold wave
    simp only [mul_assoc]
  have g4 : ∀ i ∈ Finset.range 4, 2 * dm0Vector4 WC.exact (Real.cos θ) (Real.sin θ) i
      * (turn WC.exact 4 α β t.R4 i * exp ((-(2 * Real.pi * νr * τ) : ℝ) * I) ^ (4 - i)).re
      = wave νr (dm0Vector4 WC.exact (Real.cos θ) (Real.sin θ) i)
          (halfRotation WC.exact 4 (Real.cos β) (Real.sin β) (exp (α * I)) t.R4 i) ((4 - i : ℕ) : ℝ) τ := by
    intro i hi
    rw [exp_wave, e4 i (Finset.mem_range.mp hi).le]
    unfold wave
    simp only [mul_assoc]
  rw [Finset.sum_congr rfl g2, e2 2 le_rfl] at f2
  rw [Finset.sum_congr rfl g4, e4 4 le_rfl] at f4
  unfold View.freq localFreq waves
  show t.R0 + (turn WC.exact 2 _ θ (turn WC.exact 2 α β t.R2) 2).re
    + (if four then (turn WC.exact 4 _ θ (turn WC.exact 4 α β t.R4) 4).re else 0) = _
  rw [f2, f4]
  split_ifs <;> ring

/-! ## Integration -/

/-- The integral of `wave`. -/
noncomputable def waveInt (νr d : ℝ) (w : ℂ) (p τ : ℝ) : ℝ :=
  2 * d * (w.re * (Real.sin (p * (2 * Real.pi * νr) * τ) / (p * (2 * Real.pi * νr)))
    + w.im * ((1 - Real.cos (p * (2 * Real.pi * νr) * τ)) / (p * (2 * Real.pi * νr))))

theorem waveInt_deriv (νr d : ℝ) (w : ℂ) (p τ : ℝ) (hν : 0 < νr) (hp : 0 < p) :
    HasDerivAt (waveInt νr d w p) (wave νr d w p τ) τ := by
  have ha : p * (2 * Real.pi * νr) ≠ 0 := by positivity
  unfold waveInt wave
  set a := p * (2 * Real.pi * νr)
  have h0 : HasDerivAt (fun x => a * x) a τ := by simpa using (hasDerivAt_id τ).const_mul a
  have h1 : HasDerivAt (fun x => Real.sin (a * x) / a) (Real.cos (a * τ)) τ := by
    have := (h0.sin).div_const a
    rwa [mul_div_assoc, div_self ha, mul_one] at this
  have h2 : HasDerivAt (fun x => (1 - Real.cos (a * x)) / a) (Real.sin (a * τ)) τ := by
    have := ((h0.cos).const_sub 1).div_const a
    rwa [neg_mul, neg_neg, mul_div_assoc, div_self ha, mul_one] at this
  exact ((h1.const_mul w.re).add (h2.const_mul w.im)).const_mul (2 * d)

theorem waveInt_zero (νr d : ℝ) (w : ℂ) (p : ℝ) : waveInt νr d w p 0 = 0 := by
  simp [waveInt]

theorem waveInt_period (νr d : ℝ) (w : ℂ) (p : ℕ) (hν : 0 < νr) : waveInt νr d w p (1 / νr) = 0 := by
  unfold waveInt
  rw [show (p : ℝ) * (2 * Real.pi * νr) * (1 / νr) = p * (2 * Real.pi) by field_simp]
  rw [show Real.sin (p * (2 * Real.pi)) = 0 by
    rw [show (p : ℝ) * (2 * Real.pi) = ((2 * p : ℕ) : ℝ) * Real.pi by push_cast; ring]; exact Real.sin_nat_mul_pi _,
    Real.cos_nat_mul_two_pi]
  simp

/-- The integral of `waves`. -/
noncomputable def wavesInt (W : WC) (four : Bool) (νr θ : ℝ) (w2 w4 : ℕ → ℂ) (τ : ℝ) : ℝ :=
  ∑ i ∈ Finset.range 2, waveInt νr (dm0Vector2 W (Real.cos θ) (Real.sin θ) i) (w2 i) ((2 - i : ℕ) : ℝ) τ
    + if four then
        ∑ i ∈ Finset.range 4, waveInt νr (dm0Vector4 W (Real.cos θ) (Real.sin θ) i) (w4 i) ((4 - i : ℕ) : ℝ) τ
      else 0

theorem wavesInt_deriv (W : WC) (four : Bool) (νr θ : ℝ) (w2 w4 : ℕ → ℂ) (τ : ℝ) (hν : 0 < νr) :
    HasDerivAt (wavesInt W four νr θ w2 w4) (waves W four νr θ w2 w4 τ) τ := by
  have hp : ∀ n i : ℕ, i ∈ Finset.range n → (0 : ℝ) < ((n - i : ℕ) : ℝ) := fun n i hi => by
    have := Finset.mem_range.mp hi
    exact_mod_cast Nat.sub_pos_of_lt this
  unfold wavesInt waves
  refine HasDerivAt.fun_add (HasDerivAt.fun_sum fun i hi => waveInt_deriv νr _ _ _ τ hν (hp 2 i hi)) ?_
  cases four
  · exact hasDerivAt_const τ 0
  · exact HasDerivAt.fun_sum fun i hi => waveInt_deriv νr _ _ _ τ hν (hp 4 i hi)

theorem waves_continuous (W : WC) (four : Bool) (νr θ : ℝ) (w2 w4 : ℕ → ℂ) :
    Continuous (waves W four νr θ w2 w4) := by
  unfold waves wave
  refine Continuous.add (by fun_prop) ?_
  cases four
  · exact continuous_const
  · simp only [if_true]
    fun_prop

theorem wavesInt_zero (W : WC) (four : Bool) (νr θ : ℝ) (w2 w4 : ℕ → ℂ) : wavesInt W four νr θ w2 w4 0 = 0 := by
  unfold wavesInt
  simp [waveInt_zero]

theorem wavesInt_period (W : WC) (four : Bool) (νr θ : ℝ) (w2 w4 : ℕ → ℂ) (hν : 0 < νr) :
    wavesInt W four νr θ w2 w4 (1 / νr) = 0 := by
  unfold wavesInt
  simp only [waveInt_period _ _ _ _ hν, Finset.sum_const_zero, ite_self, add_zero]

theorem waves_integral (W : WC) (four : Bool) (νr θ : ℝ) (w2 w4 : ℕ → ℂ) (T : ℝ) (hν : 0 < νr) :
    ∫ τ in (0 : ℝ)..T, waves W four νr θ w2 w4 τ = wavesInt W four νr θ w2 w4 T := by
  rw [intervalIntegral.integral_eq_sub_of_hasDerivAt (fun τ _ => wavesInt_deriv W four νr θ w2 w4 τ hν)
    ((waves_continuous W four νr θ w2 w4).intervalIntegrable _ _), wavesInt_zero, sub_zero]

theorem prePhase_waveInt (N : ℕ) (hN : 0 < N) (νr : ℝ) (hν : 0 < νr) (d : ℝ) (w : ℂ) (i p k : ℕ) (hp : 0 < p)
    (hip : i + p = 4) :
    ((d : ℂ) * prePhase N νr i k * w).im = 2 * Real.pi * waveInt νr d w p (k / (N * νr)) := by
  have hN' : (N : ℝ) ≠ 0 := by positivity
  have hp' : (p : ℝ) ≠ 0 := by positivity
  have hm : (i : ℝ) - 4 = -p := by
    have : (i : ℝ) + p = 4 := by exact_mod_cast hip
    linarith
  unfold prePhase waveInt
  simp only [hm, Complex.mul_im, Complex.mul_re, Complex.ofReal_re, Complex.ofReal_im, zero_mul, sub_zero, add_zero]
  rw [show (k : ℝ) * (-p * (νr * (2 * Real.pi)) * (1 / (N * νr))) = -(p * (2 * Real.pi * νr) * (k / (N * νr))) by
    field_simp, Real.cos_neg, Real.sin_neg]
  field_simp
  ring

/-- The phase of the code is `2π` times the integral of the waves. -/
theorem crystalPhase_eq (W : WC) (four : Bool) (N : ℕ) (hN : 0 < N) (νr : ℝ) (hν : 0 < νr) (cβ sβ : ℝ) (e : ℂ) (θ : ℝ)
    (t : Tens) (k : ℕ) :
    crystalPhase W four N νr cβ sβ e (Real.cos θ) (Real.sin θ) t k
      = 2 * Real.pi * wavesInt W four νr θ (halfRotation W 2 cβ sβ e t.R2) (halfRotation W 4 cβ sβ e t.R4)
          (k / (N * νr)) := by
  unfold crystalPhase sidebandPhase wavesInt
  rw [Complex.add_im, Complex.im_sum, mul_add, Finset.mul_sum]
  congr 1
  · refine Finset.sum_congr rfl (fun i hi => ?_)
    have := Finset.mem_range.mp hi
    exact prePhase_waveInt N hN νr hν _ _ (i + 2) (2 - i) k (by omega) (by omega)
  · cases four
    · simp
    · simp only [if_true]
      rw [Complex.im_sum, Finset.mul_sum]
      refine Finset.sum_congr rfl (fun i hi => ?_)
      have := Finset.mem_range.mp hi
      exact prePhase_waveInt N hN νr hν _ _ i (4 - i) k (by omega) (by omega)

theorem momentary_eq (four : Bool) (B0 α β θ νr : ℝ) (ss : List Site) (ks : List Coupling) (xi xf : List ℕ)
    (hi : Spec.IsState ss xi) (hf : Spec.IsState ss xf) (hs : ∀ s ∈ ss, s.Upright ∧ 1 ≤ s.n)
    (hk : ∀ k ∈ ks, k.Upright ∧ k.A < ss.length ∧ k.X < ss.length) (τ : ℝ) :
    Spec.momentary four B0 α β θ νr ss ks xi xf τ
      = localFreq WC.exact four (Real.cos β) (Real.sin β) (exp (α * I)) (Real.cos θ) (Real.sin θ)
          (components WC.exact TC.exact four B0 ss ks (Spec.quantum ss xi) (Spec.quantum ss xf))
        + waves WC.exact four νr θ
          (halfRotation WC.exact 2 (Real.cos β) (Real.sin β) (exp (α * I))
            (components WC.exact TC.exact four B0 ss ks (Spec.quantum ss xi) (Spec.quantum ss xf)).R2)
          (halfRotation WC.exact 4 (Real.cos β) (Real.sin β) (exp (α * I))
            (components WC.exact TC.exact four B0 ss ks (Spec.quantum ss xi) (Spec.quantum ss xf)).R4) τ := by
  unfold Spec.momentary
  rw [← spun_freq four α β θ νr τ _ (components_real WC.exact TC.exact four B0 ss ks _ _)]
  exact ((spunView α β (-(2 * Real.pi * νr * τ)) θ).energies four B0 ss ks xi xf hi hf hs
    (fun k h => (hk k h).1)).symm

/-- C75: under spinning at any angle and any frequency, the frequency at which the code draws the line of a
crystallite is its momentary frequency averaged over a turn of the rotor. -/
theorem C75_average_partial (four : Bool) (B0 α β θ νr : ℝ) (hν : 0 < νr) (ss : List Site) (ks : List Coupling)
    (xi xf : List ℕ) (hi : Spec.IsState ss xi) (hf : Spec.IsState ss xf) (hs : ∀ s ∈ ss, s.Upright ∧ 1 ≤ s.n)
    (hk : ∀ k ∈ ks, k.Upright ∧ k.A < ss.length ∧ k.X < ss.length) :
    localFreq WC.exact four (Real.cos β) (Real.sin β) (exp (α * I)) (Real.cos θ) (Real.sin θ)
        (components WC.exact TC.exact four B0 ss ks (Spec.quantum ss xi) (Spec.quantum ss xf))
      = Spec.average νr (Spec.momentary four B0 α β θ νr ss ks xi xf) := by
  unfold Spec.average
  rw [show Spec.momentary four B0 α β θ νr ss ks xi xf = _ from
    funext (momentary_eq four B0 α β θ νr ss ks xi xf hi hf hs hk),
    intervalIntegral.integral_add (by simp) ((waves_continuous _ _ _ _ _ _).intervalIntegrable _ _),
    waves_integral _ _ _ _ _ _ _ hν, wavesInt_period _ _ _ _ _ _ hν, intervalIntegral.integral_const]
  simp only [sub_zero, smul_eq_mul, add_zero]
  field_simp

/-- C75: the phase of which the code computes the sideband amplitudes is, at each of the `N` steps into which it
divides a turn, the phase gathered by the momentary frequency in excess of its average. -/
theorem C75_phase_partial (four : Bool) (N : ℕ) (hN : 0 < N) (B0 α β θ νr : ℝ) (hν : 0 < νr) (ss : List Site)
    (ks : List Coupling) (xi xf : List ℕ) (hi : Spec.IsState ss xi) (hf : Spec.IsState ss xf)
    (hs : ∀ s ∈ ss, s.Upright ∧ 1 ≤ s.n) (hk : ∀ k ∈ ks, k.Upright ∧ k.A < ss.length ∧ k.X < ss.length) (k : ℕ) :
    crystalPhase WC.exact four N νr (Real.cos β) (Real.sin β) (exp (α * I)) (Real.cos θ) (Real.sin θ)
        (components WC.exact TC.exact four B0 ss ks (Spec.quantum ss xi) (Spec.quantum ss xf)) k
      = 2 * Real.pi * ∫ τ in (0 : ℝ)..(k / (N * νr)),
          (Spec.momentary four B0 α β θ νr ss ks xi xf τ
            - Spec.average νr (Spec.momentary four B0 α β θ νr ss ks xi xf)) := by
  rw [crystalPhase_eq WC.exact four N hN νr hν, ← waves_integral _ _ _ _ _ _ _ hν]
  congr 1
  refine intervalIntegral.integral_congr (fun τ _ => ?_)
  rw [← C75_average_partial four B0 α β θ νr hν ss ks xi xf hi hf hs hk,
    momentary_eq four B0 α β θ νr ss ks xi xf hi hf hs hk τ]
  ring

/-- Magic-angle spinning of the coupled pair of `exampleSites` at 10 kHz. -/
example (θ : ℝ) (k : ℕ) :
    crystalPhase WC.exact true 64 10000 (Real.cos 1) (Real.sin 1) (exp ((2 : ℝ) * I)) (Real.cos θ) (Real.sin θ)
        (components WC.exact TC.exact true 9.4 exampleSites [exampleCoupling] (Spec.quantum exampleSites [0, 3])
          (Spec.quantum exampleSites [0, 2])) k
      = 2 * Real.pi * ∫ τ in (0 : ℝ)..(k / ((64 : ℕ) * 10000)),
          (Spec.momentary true 9.4 2 1 θ 10000 exampleSites [exampleCoupling] [0, 3] [0, 2] τ
            - Spec.average 10000 (Spec.momentary true 9.4 2 1 θ 10000 exampleSites [exampleCoupling] [0, 3] [0, 2])) := by
  apply C75_phase_partial
  · norm_num
  · norm_num
  · unfold Spec.IsState exampleSites
    simp
  · unfold Spec.IsState exampleSites
    simp
  · unfold exampleSites Site.Upright
    intro s hs
    simp only [List.mem_cons, List.not_mem_nil, or_false] at hs
    rcases hs with rfl | rfl <;> norm_num
  · unfold exampleSites exampleCoupling Coupling.Upright
    intro k hk
    simp only [List.mem_cons, List.not_mem_nil, or_false] at hk
    subst hk
    norm_num

end MRS.Freq
