import Verif.Freq.Isotropic
import Verif.Freq.Near
import Verif.Freq.Satellite
import Verif.Freq.System
import Verif.Bin.Near2D

/-!
# Near the magic angle — property C90, continued

The rotor angle of an event is a decimal (event.py:57: `0.955316618`), so that `3 cos² θ = 1` never holds; and the constants of
wigner.c and of the tensors are decimals.  What the first dimension of an isotropic method then shows.
-/

namespace MRS.Freq

open Complex ComplexConjugate

/-! ## Specification -/

/-- The frequency of a transition of a crystallite at rest. -/
noncomputable def Spec.still (B0 : ℝ) (ss : List Site) (ks : List Coupling) (x : List ℕ × List ℕ) (p : ℝ × ℝ) : ℝ :=
  Spec.energy true B0 (Spec.static p.1 p.2) ss ks x.2 - Spec.energy true B0 (Spec.static p.1 p.2) ss ks x.1

/-- The anisotropy, at rest, of the weighted sum of two transitions. -/
noncomputable def Spec.anisotropy (a0 a1 B0 : ℝ) (ss : List Site) (ks : List Coupling) (x y : List ℕ × List ℕ) (p : ℝ × ℝ) : ℝ :=
  a0 * (Spec.still B0 ss ks x p - Spec.sphereMean (Spec.still B0 ss ks x))
    + a1 * (Spec.still B0 ss ks y p - Spec.sphereMean (Spec.still B0 ss ks y))

/-! ## One orientation -/

theorem tilt_sum (a0 a1 θ c s : ℝ) (e : ℂ) (t u : Tens) (h : ∀ i, (a0 : ℂ) * t.R4 i + a1 * u.R4 i = 0) :
    a0 * (localFreq WC.exact true c s e (Real.cos θ) (Real.sin θ) t - t.R0)
      + a1 * (localFreq WC.exact true c s e (Real.cos θ) (Real.sin θ) u - u.R0)
      = (3 * Real.cos θ ^ 2 - 1) / 2 * (a0 * (localFreq WC.exact true c s e 1 0 t - t.R0)
        + a1 * (localFreq WC.exact true c s e 1 0 u - u.R0)) := by
  have hd : ∀ c s : ℝ, dm0Vector2 WC.exact c s 2 = (3 * c ^ 2 - 1) / 2 := by
    intro c s
    rw [dm0_2 _ _ _ 2 (by norm_num)]
    simp only [wigner2j]
    norm_num
    ring
  unfold localFreq
  simp only [if_true, hd]
  have : a0 * (halfRotation WC.exact 4 c s e t.R4 4).re + a1 * (halfRotation WC.exact 4 c s e u.R4 4).re = 0 := by
    have h2 : halfRotation WC.exact 4 c s e (fun i => (a0 : ℂ) * t.R4 i + a1 * u.R4 i) 4 = 0 := by
      simp only [h]
      exact half_zero _ _ _ _ _ _
    rw [half_add _ _ _ _ _ (fun i => (a0 : ℂ) * t.R4 i) (fun i => (a1 : ℂ) * u.R4 i), half_smul, half_smul] at h2
    have h3 := congrArg Complex.re h2
    simpa using h3
  linear_combination (dm0Vector4 WC.exact (Real.cos θ) (Real.sin θ) 4
    - (3 * Real.cos θ ^ 2 - 1) / 2 * dm0Vector4 WC.exact 1 0 4) * this

theorem still_eq (B0 : ℝ) (ss : List Site) (ks : List Coupling) (x : List ℕ × List ℕ) (h1 : Spec.IsState ss x.1) (h2 : Spec.IsState ss x.2)
    (hs : ∀ s ∈ ss, s.Upright ∧ 1 ≤ s.n) (hk : ∀ k ∈ ks, k.Upright ∧ k.A < ss.length ∧ k.X < ss.length) :
    Spec.still B0 ss ks x
      = dirFreq WC.exact true 1 0 (components WC.exact TC.exact true B0 ss ks (Spec.quantum ss x.1) (Spec.quantum ss x.2)) := by
  funext p
  exact (C73_energies_partial true B0 p.1 p.2 ss ks x.1 x.2 h1 h2 hs hk).symm

theorem rest_sum (a0 a1 c s : ℝ) (e : ℂ) (t u : Tens) (h : ∀ i, (a0 : ℂ) * t.R4 i + a1 * u.R4 i = 0) :
    a0 * (localFreq WC.exact true c s e 1 0 t - t.R0) + a1 * (localFreq WC.exact true c s e 1 0 u - u.R0)
      = a0 * (halfRotation WC.exact 2 c s e t.R2 2).re + a1 * (halfRotation WC.exact 2 c s e u.R2 2).re := by
  have hd : dm0Vector2 WC.exact 1 0 2 = 1 := by
    rw [dm0_2 _ _ _ 2 (by norm_num)]
    simp only [wigner2j]
    norm_num
  unfold localFreq
  simp only [if_true, hd]
  have : a0 * (halfRotation WC.exact 4 c s e t.R4 4).re + a1 * (halfRotation WC.exact 4 c s e u.R4 4).re = 0 := by
    have h2 : halfRotation WC.exact 4 c s e (fun i => (a0 : ℂ) * t.R4 i + a1 * u.R4 i) 4 = 0 := by
      simp only [h]
      exact half_zero _ _ _ _ _ _
    rw [half_add _ _ _ _ _ (fun i => (a0 : ℂ) * t.R4 i) (fun i => (a1 : ℂ) * u.R4 i), half_smul, half_smul] at h2
    have h3 := congrArg Complex.re h2
    simpa using h3
  linear_combination dm0Vector4 WC.exact 1 0 4 * this

/-- **C90 (any angle), partial.** For a rotor at any angle `θ`: the weighted sum of the frequencies of two transitions of which the fourth-rank
parts cancel departs from the weighted sum of their isotropic frequencies by `(3 cos² θ - 1) / 2` of its anisotropy at rest. -/
theorem C90_tilt_partial (a0 a1 B0 θ ν0 ν1 f0 f1 : ℝ) (h0 : 0 < ν0) (h1 : 0 < ν1)
    (ss : List Site) (ks : List Coupling) (x y : List ℕ × List ℕ) (hx : Spec.IsState ss x.1 ∧ Spec.IsState ss x.2)
    (hy : Spec.IsState ss y.1 ∧ Spec.IsState ss y.2) (hs : ∀ s ∈ ss, s.Upright ∧ 1 ≤ s.n)
    (hk : ∀ k ∈ ks, k.Upright ∧ k.A < ss.length ∧ k.X < ss.length) (hc : Spec.Cancels a0 a1 ss x y) (p : ℝ × ℝ) :
    a0 * Spec.spinning ⟨B0, f0, θ, ν0⟩ ss ks x p + a1 * Spec.spinning ⟨B0, f1, θ, ν1⟩ ss ks y p
      = a0 * Spec.isotropic ⟨B0, f0, θ, ν0⟩ ss ks x + a1 * Spec.isotropic ⟨B0, f1, θ, ν1⟩ ss ks y
        + (3 * Real.cos θ ^ 2 - 1) / 2 * Spec.anisotropy a0 a1 B0 ss ks x y p := by
  rw [isotropic_eq _ h0 ss ks x hx.1 hx.2 hs hk, isotropic_eq _ h1 ss ks y hy.1 hy.2 hs hk]
  unfold Spec.spinning Spec.anisotropy
  simp only
  rw [← C75_average_partial true B0 p.1 p.2 θ ν0 h0 ss ks x.1 x.2 hx.1 hx.2 hs hk,
    ← C75_average_partial true B0 p.1 p.2 θ ν1 h1 ss ks y.1 y.2 hy.1 hy.2 hs hk, still_eq B0 ss ks x hx.1 hx.2 hs hk,
    still_eq B0 ss ks y hy.1 hy.2 hs hk, dirFreq_mean, dirFreq_mean]
  have := tilt_sum a0 a1 θ (Real.cos p.2) (Real.sin p.2) (exp (p.1 * I)) _ _
    (components_cancel B0 a0 a1 ss ks x y (fun s h => (hs s h).2) hx.1 hx.2 hy.1 hy.2 hc)
  unfold dirFreq
  linarith

/-! ## Bounds -/

theorem abs_mean_le (g : ℝ × ℝ → ℝ) (c : ℝ) (h : ∀ p, |g p| ≤ c) : |Spec.sphereMean g| ≤ c := by
  have hpi := Real.pi_pos
  unfold Spec.sphereMean
  have hint : MeasureTheory.IntegrableOn (fun p : ℝ × ℝ => Real.sin p.2 * c) (Set.Ioo 0 (2 * Real.pi) ×ˢ Set.Ioo 0 Real.pi) := by
    have hcont : Continuous fun p : ℝ × ℝ => Real.sin p.2 * c := by fun_prop
    exact (hcont.continuousOn.integrableOn_compact (isCompact_Icc.prod isCompact_Icc)).mono_set
      (Set.prod_mono Set.Ioo_subset_Icc_self Set.Ioo_subset_Icc_self)
  have hval : ∫ p in Set.Ioo 0 (2 * Real.pi) ×ˢ Set.Ioo 0 Real.pi, Real.sin p.2 * c = 4 * Real.pi * c := by
    have h1 := dirFreq_mean WC.exact true 1 0 ⟨c, fun _ => 0, fun _ => 0⟩
    have h2 : ∀ p, dirFreq WC.exact true 1 0 ⟨c, fun _ => 0, fun _ => 0⟩ p = c := by
      intro p
      unfold dirFreq localFreq
      simp [half_zero]
    simp only [Spec.sphereMean, h2] at h1
    field_simp at h1
    rw [mul_comm (2 : ℝ) Real.pi]
    exact h1
  have hb := MeasureTheory.norm_integral_le_of_norm_le (f := fun p : ℝ × ℝ => Real.sin p.2 * g p) hint (by
    filter_upwards [MeasureTheory.ae_restrict_mem (measurableSet_Ioo.prod measurableSet_Ioo)] with p hp
    have hsin := Real.sin_pos_of_mem_Ioo hp.2
    rw [Real.norm_eq_abs, abs_mul, abs_of_pos hsin]
    exact mul_le_mul_of_nonneg_left (h p) hsin.le)
  rw [hval, Real.norm_eq_abs] at hb
  rw [abs_mul, abs_of_pos (by positivity), one_div, inv_mul_le_iff₀ (by positivity)]
  exact hb

theorem exp_unit (α : ℝ) : ‖exp ((α : ℂ) * I)‖ = 1 := Complex.norm_exp_ofReal_mul_I α

/-- The isotropic frequency computed with the decimals is as near as the frequencies of the orientations. -/
theorem iso_near (B0 : ℝ) (ss : List Site) (ks : List Coupling)
    (hs : ∀ s ∈ ss, 1 ≤ s.n ∧ |s.eta| ≤ 1 ∧ |s.etaQ| ≤ 1) (hk : ∀ k ∈ ks, |k.eta| ≤ 1) (mi mf : List ℝ) :
    |(components WC.src TC.src true B0 ss ks mi mf).R0 - (components WC.exact TC.exact true B0 ss ks mi mf).R0|
      ≤ Spec.tol B0 ss ks mi mf := by
  set t := components WC.src TC.src true B0 ss ks mi mf with ht
  set u := components WC.exact TC.exact true B0 ss ks mi mf with hu
  rw [← dirFreq_mean WC.src true 1 0 t, ← dirFreq_mean WC.exact true 1 0 u]
  have hi : ∀ W (t : Tens), MeasureTheory.IntegrableOn (fun p : ℝ × ℝ => Real.sin p.2 * dirFreq W true 1 0 t p)
      (Set.Ioo 0 (2 * Real.pi) ×ˢ Set.Ioo 0 Real.pi) := by
    intro W t
    have hcont : Continuous fun p : ℝ × ℝ => Real.sin p.2 * dirFreq W true 1 0 t p :=
      (Real.continuous_sin.comp continuous_snd).mul (dirFreq_continuous W true 1 0 t)
    exact (hcont.continuousOn.integrableOn_compact (isCompact_Icc.prod isCompact_Icc)).mono_set
      (Set.prod_mono Set.Ioo_subset_Icc_self Set.Ioo_subset_Icc_self)
  have hsub : Spec.sphereMean (dirFreq WC.src true 1 0 t) - Spec.sphereMean (dirFreq WC.exact true 1 0 u)
      = Spec.sphereMean (fun p => dirFreq WC.src true 1 0 t p - dirFreq WC.exact true 1 0 u p) := by
    unfold Spec.sphereMean
    rw [← mul_sub, ← MeasureTheory.integral_sub (hi _ _) (hi _ _)]
    simp only [mul_sub]
  rw [hsub]
  refine abs_mean_le _ _ fun p => ?_
  exact components_near ⟨Real.cos p.2, Real.sin p.2, exp (p.1 * I), 1, 0, Real.cos_sq_add_sin_sq p.2, exp_unit p.1, by norm_num⟩
    true B0 ss ks hs hk mi mf

/-- A rank turned anywhere stays within a bound. -/
theorem half_bounded (l : ℕ) (hl : l = 2 ∨ l = 4) (R : ℕ → ℂ) :
    ∃ M : ℝ, ∀ p : ℝ × ℝ, |(halfRotation WC.exact l (Real.cos p.2) (Real.sin p.2) (exp (p.1 * I)) R l).re| ≤ M := by
  refine ⟨(2 * l + 1) * ∑ i ∈ Finset.range (2 * l + 1), ‖R i‖, fun p => ?_⟩
  have := (half_close l hl (Real.cos p.2) (Real.sin p.2) (Real.cos_sq_add_sin_sq p.2) (exp (p.1 * I)) (exp_unit p.1) 0
    (∑ i ∈ Finset.range (2 * l + 1), ‖R i‖) R R (by
      intro j hj
      exact ⟨by simp, Finset.single_le_sum (f := fun i => ‖R i‖) (fun i _ => norm_nonneg _) (Finset.mem_range.mpr hj)⟩) l le_rfl).2
  exact (Complex.abs_re_le_norm _).trans this

/-- The anisotropy of any two transitions is bounded. -/
theorem C90_bounded (a0 a1 B0 : ℝ) (ss : List Site) (ks : List Coupling) (x y : List ℕ × List ℕ)
    (hx : Spec.IsState ss x.1 ∧ Spec.IsState ss x.2)
    (hy : Spec.IsState ss y.1 ∧ Spec.IsState ss y.2) (hs : ∀ s ∈ ss, s.Upright ∧ 1 ≤ s.n)
    (hk : ∀ k ∈ ks, k.Upright ∧ k.A < ss.length ∧ k.X < ss.length) :
    ∃ M, ∀ p, |Spec.anisotropy a0 a1 B0 ss ks x y p| ≤ M := by
  have key : ∀ t : Tens, ∃ M, ∀ p, |dirFreq WC.exact true 1 0 t p - t.R0| ≤ M := by
    intro t
    obtain ⟨M2, h2⟩ := half_bounded 2 (Or.inl rfl) t.R2
    obtain ⟨M4, h4⟩ := half_bounded 4 (Or.inr rfl) t.R4
    refine ⟨|dm0Vector2 WC.exact 1 0 2| * M2 + |dm0Vector4 WC.exact 1 0 4| * M4, fun p => ?_⟩
    unfold dirFreq localFreq
    rw [if_pos rfl, show ∀ a b c : ℝ, a + b + c - a = b + c by intros; ring]
    refine (abs_add_le _ _).trans (add_le_add ?_ ?_)
    · rw [abs_mul]
      exact mul_le_mul_of_nonneg_left (h2 p) (abs_nonneg _)
    · rw [abs_mul]
      exact mul_le_mul_of_nonneg_left (h4 p) (abs_nonneg _)
  obtain ⟨M, hM⟩ := key (components WC.exact TC.exact true B0 ss ks (Spec.quantum ss x.1) (Spec.quantum ss x.2))
  obtain ⟨N, hN⟩ := key (components WC.exact TC.exact true B0 ss ks (Spec.quantum ss y.1) (Spec.quantum ss y.2))
  refine ⟨|a0| * M + |a1| * N, fun p => ?_⟩
  unfold Spec.anisotropy
  rw [still_eq B0 ss ks x hx.1 hx.2 hs hk, still_eq B0 ss ks y hy.1 hy.2 hs hk, dirFreq_mean, dirFreq_mean]
  refine (abs_add_le _ _).trans (add_le_add ?_ ?_)
  · rw [abs_mul]
    exact mul_le_mul_of_nonneg_left (hM p) (abs_nonneg _)
  · rw [abs_mul]
    exact mul_le_mul_of_nonneg_left (hN p) (abs_nonneg _)

/-! ## The map -/

theorem isState_abs (ss : List Site) (x : List ℕ) (hx : Spec.IsState ss x) : Spec.IsState (ss.map Spec.absSite) x := by
  unfold Spec.IsState at hx ⊢
  rw [List.forall₂_map_left_iff]
  exact hx

theorem window_floor (f : ℝ) (m : ℤ) (h : Bin.inWindow f m = true) : -1 < f := by
  unfold Bin.inWindow Bin.trunc at h
  simp only [decide_eq_true_eq] at h
  by_contra hf
  push Not at hf
  rw [if_neg (by linarith)] at h
  have : ⌈f⌉ ≤ -1 := Int.ceil_le.mpr (by push_cast; exact hf)
  omega

theorem window_ceil (f : ℝ) (m : ℤ) (hm : 1 ≤ m) (h : Bin.inWindow f m = true) : f < m + 1 := by
  unfold Bin.inWindow Bin.trunc at h
  simp only [decide_eq_true_eq] at h
  have hm' : (1 : ℝ) ≤ m := by exact_mod_cast hm
  by_cases h0 : 0 ≤ f
  · rw [if_pos h0] at h
    have : f < (m + 1 : ℤ) := Int.floor_lt.mp (by omega)
    push_cast at this
    exact this
  · push Not at h0
    linarith

/-- The map with the constants of the source.  `P` are the pairs of sidebands of which the second may be on the axis. -/
theorem near_map (nt nOct nSide : ℕ) (hn : 1 ≤ nt) (hO : nOct = 1 ∨ nOct = 4) (junk : ℕ → ℕ → ℂ)
    (a0 a1 B0 θ ν0 ν1 : ℝ) (h0 : 0 < ν0) (h1 : 0 < ν1) (inc : ℝ × ℝ)
    (hi : 0 < inc.1 ∧ 0 < inc.2) (d : Dimension × Dimension)
    (hd : d.1.inv = 1 / inc.1 ∧ d.1.events = [⟨B0, 1, θ, ν0⟩]) (he : d.2.inv = 1 / inc.2 ∧ d.2.events = [⟨B0, 1, θ, ν1⟩])
    (F G : Frame) (hF : 1 ≤ F.count) (hG : 1 ≤ G.count)
    (ss : List Site) (ks : List Coupling) (x y : List ℕ × List ℕ) (hx : Spec.IsState ss x.1 ∧ Spec.IsState ss x.2)
    (hy : Spec.IsState ss y.1 ∧ Spec.IsState ss y.2) (hs : ∀ s ∈ ss, 1 ≤ s.n ∧ |s.eta| ≤ 1 ∧ |s.etaQ| ≤ 1)
    (hk : ∀ k ∈ ks, k.A < ss.length ∧ k.X < ss.length ∧ |k.eta| ≤ 1) (hc : Spec.Cancels a0 a1 ss x y)
    (M δ : ℝ) (hM : ∀ p, |Spec.anisotropy a0 a1 B0 (ss.map Spec.absSite) (ks.map Spec.absCoupling) x y p| ≤ M)
    (hδ : |3 * Real.cos θ ^ 2 - 1| / 2 * M + |a0| * Spec.tol B0 ss ks (Spec.quantum ss x.1) (Spec.quantum ss x.2)
      + |a1| * Spec.tol B0 ss ks (Spec.quantum ss y.1) (Spec.quantum ss y.2) ≤ δ * inc.1)
    (δ' : ℝ) (hδ' : Spec.tol B0 ss ks (Spec.quantum ss y.1) (Spec.quantum ss y.2) ≤ δ' * inc.2) (P : ℕ → ℕ → Prop) (X : ℕ → ℕ → ℝ) (Y : ℕ → ℝ)
    (hX : ∀ i k, X i k = F.norm
      + (a0 * (Spec.isotropic ⟨B0, 1, θ, ν0⟩ (ss.map Spec.absSite) (ks.map Spec.absCoupling) x + F.vr i)
      + a1 * (Spec.isotropic ⟨B0, 1, θ, ν1⟩ (ss.map Spec.absSite) (ks.map Spec.absCoupling) y + G.vr k)) / inc.1)
    (hY : ∀ k, Y k = G.norm + (Spec.isotropic ⟨B0, 1, θ, ν1⟩ (ss.map Spec.absSite) (ks.map Spec.absCoupling) y + G.vr k) / inc.2)
    (hP : ∀ i < nSide, ∀ k < nSide, P i k ∨ Y k ≤ -1 - δ' ∨ G.count + 1 + δ' ≤ Y k)
    (hE : ∀ i < nSide, ∀ k < nSide, P i k → δ ≤ X i k ∨ X i k ≤ -1 - δ) :
    ∃ w : Bin.Writes ℝ,
      map2D WC.src TC.src true nt nOct nSide ss ks inc [a0, a1, 0, 1] d F G (startRows true junk nt) (pack ss [x, y]) = .ok w ∧
      ∀ r col : ℤ, 0 ≤ col → col < G.count → (∀ i < nSide, ∀ k < nSide, P i k → 1 + δ ≤ |(r : ℝ) + 1 / 2 - X i k|) →
        Bin.at_ (r * G.count + col) w = 0 := by
  have i0 : inc.1 ≠ 0 := ne_of_gt hi.1
  have i1 : inc.2 ≠ 0 := ne_of_gt hi.2
  set t := components WC.src TC.src true B0 ss ks (Spec.quantum ss x.1) (Spec.quantum ss x.2) with ht
  set u := components WC.src TC.src true B0 ss ks (Spec.quantum ss y.1) (Spec.quantum ss y.2) with hu
  set t' := components WC.exact TC.exact true B0 ss ks (Spec.quantum ss x.1) (Spec.quantum ss x.2) with ht'
  set u' := components WC.exact TC.exact true B0 ss ks (Spec.quantum ss y.1) (Spec.quantum ss y.2) with hu'
  set tolx := Spec.tol B0 ss ks (Spec.quantum ss x.1) (Spec.quantum ss x.2) with htx
  set toly := Spec.tol B0 ss ks (Spec.quantum ss y.1) (Spec.quantum ss y.2) with hty
  have hst : ∀ x, Spec.IsState ss x → Spec.IsState (ss.map Spec.absSite) x := isState_abs ss
  have hs' : ∀ s ∈ ss.map Spec.absSite, s.Upright ∧ 1 ≤ s.n := by
    intro s h
    obtain ⟨s', h', rfl⟩ := List.mem_map.mp h
    exact ⟨⟨abs_nonneg _, abs_nonneg _⟩, (hs s' h').1⟩
  have hk' : ∀ k ∈ ks.map Spec.absCoupling, k.Upright ∧ k.A < (ss.map Spec.absSite).length ∧ k.X < (ss.map Spec.absSite).length := by
    intro k h
    obtain ⟨k', h', rfl⟩ := List.mem_map.mp h
    rw [List.length_map]
    exact ⟨⟨abs_nonneg _, abs_nonneg _⟩, (hk k' h').1, (hk k' h').2.1⟩
  have hc' : ∀ i, (a0 : ℂ) * t'.R4 i + a1 * u'.R4 i = 0 :=
    components_cancel B0 a0 a1 ss ks x y (fun s h => (hs s h).1) hx.1 hx.2 hy.1 hy.2 hc
  have hiso0 : Spec.isotropic ⟨B0, 1, θ, ν0⟩ (ss.map Spec.absSite) (ks.map Spec.absCoupling) x = t'.R0 := by
    rw [isotropic_eq _ h0 _ _ x (hst _ hx.1) (hst _ hx.2) hs' hk', components_absolute, quantum_absolute, quantum_absolute]
  have hiso1 : Spec.isotropic ⟨B0, 1, θ, ν1⟩ (ss.map Spec.absSite) (ks.map Spec.absCoupling) y = u'.R0 := by
    rw [isotropic_eq _ h1 _ _ y (hst _ hy.1) (hst _ hy.2) hs' hk', components_absolute, quantum_absolute, quantum_absolute]
  -- one orientation
  have hann : ∀ α β : ℝ, |a0 * (localFreq WC.exact true (Real.cos β) (Real.sin β) (exp (α * I)) (Real.cos θ) (Real.sin θ) t' - t'.R0)
      + a1 * (localFreq WC.exact true (Real.cos β) (Real.sin β) (exp (α * I)) (Real.cos θ) (Real.sin θ) u' - u'.R0)|
      ≤ |3 * Real.cos θ ^ 2 - 1| / 2 * M := by
    intro α β
    rw [tilt_sum a0 a1 θ _ _ _ t' u' hc', abs_mul, abs_div, abs_two]
    refine mul_le_mul_of_nonneg_left ?_ (by positivity)
    have := hM (α, β)
    unfold Spec.anisotropy at this
    rw [still_eq B0 _ _ x (hst _ hx.1) (hst _ hx.2) hs' hk', still_eq B0 _ _ y (hst _ hy.1) (hst _ hy.2) hs' hk', dirFreq_mean,
      dirFreq_mean, components_absolute, components_absolute, quantum_absolute, quantum_absolute, quantum_absolute, quantum_absolute] at this
    exact this
  have hM0 : 0 ≤ |3 * Real.cos θ ^ 2 - 1| / 2 * M := (abs_nonneg _).trans (hann 0 0)
  have hsn : ∀ s ∈ ss, 1 ≤ s.n ∧ |s.eta| ≤ 1 ∧ |s.etaQ| ≤ 1 := hs
  have hkn : ∀ k ∈ ks, |k.eta| ≤ 1 := fun k h => (hk k h).2.2
  have hfx : ∀ α β : ℝ, |localFreq WC.src true (Real.cos β) (Real.sin β) (exp (α * I)) (Real.cos θ) (Real.sin θ) t
      - localFreq WC.exact true (Real.cos β) (Real.sin β) (exp (α * I)) (Real.cos θ) (Real.sin θ) t'| ≤ tolx := fun α β =>
    components_near ⟨Real.cos β, Real.sin β, exp (α * I), Real.cos θ, Real.sin θ, Real.cos_sq_add_sin_sq β, exp_unit α,
      Real.cos_sq_add_sin_sq θ⟩ true B0 ss ks hsn hkn _ _
  have hfy : ∀ α β : ℝ, |localFreq WC.src true (Real.cos β) (Real.sin β) (exp (α * I)) (Real.cos θ) (Real.sin θ) u
      - localFreq WC.exact true (Real.cos β) (Real.sin β) (exp (α * I)) (Real.cos θ) (Real.sin θ) u'| ≤ toly := fun α β =>
    components_near ⟨Real.cos β, Real.sin β, exp (α * I), Real.cos θ, Real.sin θ, Real.cos_sq_add_sin_sq β, exp_unit α,
      Real.cos_sq_add_sin_sq θ⟩ true B0 ss ks hsn hkn _ _
  have hrx : |t.R0 - t'.R0| ≤ tolx := iso_near B0 ss ks hsn hkn _ _
  have hry : |u.R0 - u'.R0| ≤ toly := iso_near B0 ss ks hsn hkn _ _
  obtain ⟨D, hD, Di, Dr, Df⟩ := single_spec WC.src TC.src true nt nOct hO ss ks ⟨B0, 1, θ, ν0⟩ d.1
    (startRows true junk nt) x [y] [] hx.1 hx.2
  obtain ⟨E, hE', Ei, Er, Ef⟩ := single_spec WC.src TC.src true nt nOct hO ss ks ⟨B0, 1, θ, ν1⟩ d.2
    (startRows true junk nt) y [] [] hy.1 hy.2
  simp only [hd.1, he.1, mul_one, ← ht, ← hu] at Di Dr Df Ei Er Ef
  have hloop : coreLoop WC.src TC.src true nt nOct ss ks [d.1, d.2] (startRows true junk nt) (pack ss [x, y])
      = .ok ([D, E], startRows true junk nt) := by
    rw [List.append_nil] at hD
    rw [coreLoop, hd.2, hD]
    simp only
    rw [coreLoop, he.2]
    rw [List.append_nil] at hE' hD
    simp only [List.append_nil]
    rw [hE']
    rfl
  have hdir : ∀ (t : Tens) (j q : ℕ) (p : ℕ × ℕ) (α β : ℝ), j < nOct → (Bin.Spec.grid nt)[q]? = some p →
      Spec.Points α β (Spec.quarter j (Bin.Spec.point nt p)) →
      (powderFrequencies WC.src true nt nOct (startRows true junk nt) (Real.cos θ) (Real.sin θ) t).1 (j * Bin.nPts nt + q)
        = localFreq WC.src true (Real.cos β) (Real.sin β) (exp (α * I)) (Real.cos θ) (Real.sin θ) t - t.R0 := by
    intro t j q p α β hj hq hp
    have := powder_dir WC.src true nt nOct hn hO junk (Real.cos θ) (Real.sin θ) t j q hj p hq α β hp
    linarith
  obtain ⟨hprep, -⟩ := shear_value a0 a1 inc.1 inc.2 0 0
  have hsh := fun z w => (shear_value a0 a1 inc.1 inc.2 z w).2
  have hoff : ∀ i k, (Bin.offsets2D (fun n => [a0 * (inc.1 / inc.1), a1 * (inc.2 / inc.1), 0, inc.2 / inc.2].getD n 0)
        ⟨D.r0, D.inv, F.norm, F.count, F.vr, fun q => (sheared [a0 * (inc.1 / inc.1), a1 * (inc.2 / inc.1), 0, inc.2 / inc.2]
          (D.freq q) (E.freq q)).1, F.amp⟩
        ⟨E.r0, E.inv, G.norm, G.count, G.vr, fun q => (sheared [a0 * (inc.1 / inc.1), a1 * (inc.2 / inc.1), 0, inc.2 / inc.2]
          (D.freq q) (E.freq q)).2, G.amp⟩ i k).1 = X i k + (a0 * (t.R0 - t'.R0) + a1 * (u.R0 - u'.R0)) / inc.1 := by
    intro i k
    unfold Bin.offsets2D
    simp only [List.getD_cons_zero, List.getD_cons_succ]
    rw [hX, hiso0, hiso1, Dr, Er, Di, Ei]
    field_simp
    ring
  have hprod : ∀ (a z b : ℝ), |z| ≤ b → |a * z| ≤ |a| * b := fun a z b h => by
    rw [abs_mul]
    exact mul_le_mul_of_nonneg_left h (abs_nonneg _)
  have hclose : ∀ z : ℝ, |z| ≤ δ * inc.1 → |z / inc.1| ≤ δ := by
    intro z hz
    rw [abs_div, abs_of_pos hi.1, div_le_iff₀ hi.1]
    exact hz
  have hpass : ∀ i < nSide, ∀ k < nSide, Bin.pass2D (fun n => [a0 * (inc.1 / inc.1), a1 * (inc.2 / inc.1), 0, inc.2 / inc.2].getD n 0)
        ⟨D.r0, D.inv, F.norm, F.count, F.vr, fun q => (sheared [a0 * (inc.1 / inc.1), a1 * (inc.2 / inc.1), 0, inc.2 / inc.2]
          (D.freq q) (E.freq q)).1, F.amp⟩
        ⟨E.r0, E.inv, G.norm, G.count, G.vr, fun q => (sheared [a0 * (inc.1 / inc.1), a1 * (inc.2 / inc.1), 0, inc.2 / inc.2]
          (D.freq q) (E.freq q)).2, G.amp⟩ i k = true → P i k := by
    intro i hi' k hk' hp
    rcases hP i hi' k hk' with h | h
    · exact h
    · exfalso
      unfold Bin.pass2D at hp
      rw [Bool.and_eq_true] at hp
      have hp1 := window_floor _ _ hp.2
      have hp2 := window_ceil _ _ (by exact_mod_cast hG) hp.2
      have hval : (Bin.offsets2D (fun n => [a0 * (inc.1 / inc.1), a1 * (inc.2 / inc.1), 0, inc.2 / inc.2].getD n 0)
        ⟨D.r0, D.inv, F.norm, F.count, F.vr, fun q => (sheared [a0 * (inc.1 / inc.1), a1 * (inc.2 / inc.1), 0, inc.2 / inc.2]
          (D.freq q) (E.freq q)).1, F.amp⟩
        ⟨E.r0, E.inv, G.norm, G.count, G.vr, fun q => (sheared [a0 * (inc.1 / inc.1), a1 * (inc.2 / inc.1), 0, inc.2 / inc.2]
          (D.freq q) (E.freq q)).2, G.amp⟩ i k).2 = Y k + (u.R0 - u'.R0) / inc.2 := by
        unfold Bin.offsets2D
        simp only [List.getD_cons_zero, List.getD_cons_succ]
        rw [hY, hiso1, Er, Ei]
        field_simp
        ring
      rw [hval] at hp1 hp2
      have hb : |(u.R0 - u'.R0) / inc.2| ≤ δ' := by
        rw [abs_div, abs_of_pos hi.2, div_le_iff₀ hi.2]
        exact hry.trans hδ'
      rw [abs_le] at hb
      simp only [Int.cast_natCast] at hp2
      rcases h with h | h <;> linarith [hb.1, hb.2]
  obtain ⟨w, hw, hv⟩ := Bin.averaging2D_near
    (fun n => [a0 * (inc.1 / inc.1), a1 * (inc.2 / inc.1), 0, inc.2 / inc.2].getD n 0)
    ⟨D.r0, D.inv, F.norm, F.count, F.vr, fun q => (sheared [a0 * (inc.1 / inc.1), a1 * (inc.2 / inc.1), 0, inc.2 / inc.2]
      (D.freq q) (E.freq q)).1, F.amp⟩
    ⟨E.r0, E.inv, G.norm, G.count, G.vr, fun q => (sheared [a0 * (inc.1 / inc.1), a1 * (inc.2 / inc.1), 0, inc.2 / inc.2]
      (D.freq q) (E.freq q)).2, G.amp⟩ nt nOct nSide hF hG X δ
    (by
      intro i hi' k hk' hp
      rcases hE i hi' k hk' (hpass i hi' k hk' hp) with h | h
      · exact h
      · exfalso
        unfold Bin.pass2D at hp
        rw [Bool.and_eq_true] at hp
        have hp1 := window_floor _ _ hp.1
        rw [hoff] at hp1
        have := hclose (a0 * (t.R0 - t'.R0) + a1 * (u.R0 - u'.R0)) (by
          refine (abs_add_le _ _).trans ?_
          have e1 := hprod a0 _ _ hrx
          have e2 := hprod a1 _ _ hry
          linarith)
        have := (abs_le.mp this).2
        linarith)
    (by
      intro i _ k _ q hq
      obtain ⟨j, q', p, α, β, rfl, hj, hq', hp⟩ := index_dir nt nOct hn q hq
      rw [hoff]
      simp only
      rw [hsh, Df, Ef, hdir t j q' p α β hj hq' hp, hdir u j q' p α β hj hq' hp]
      have hval : ∀ lt lu : ℝ, a0 * (inc.1 / inc.1) * (1 / inc.1 * (lt - t.R0)) + a1 * (inc.2 / inc.1) * (1 / inc.2 * (lu - u.R0))
          + (X i k + (a0 * (t.R0 - t'.R0) + a1 * (u.R0 - u'.R0)) / inc.1) - X i k
          = (a0 * (lt - t'.R0) + a1 * (lu - u'.R0)) / inc.1 := by
        intro lt lu
        field_simp
        ring
      rw [hval]
      apply hclose
      have e1 := hprod a0 _ _ (hfx α β)
      have e2 := hprod a1 _ _ (hfy α β)
      have e3 := hann α β
      rw [abs_le] at e1 e2 e3 ⊢
      constructor <;> linarith)
  refine ⟨w, ?_, fun r col g0 g1 hr => hv r col g0 g1 fun i hi' k hk' hp => hr i hi' k hk' (hpass i hi' k hk' hp)⟩
  unfold map2D
  rw [hprep]
  simp only
  rw [hloop]
  exact hw

/-- **C90 (near the magic angle), partial.** The constants as the source has them, a rotor at any angle `θ`, polar angles of any sign.  `M`
bounds the anisotropy, at rest, of the weighted sum of the two transitions; `δ`, in bins, is `(3 cos² θ - 1) / 2` of it and the
tolerance of the constants.  Then the simulation writes the map, and every row whose centre is `1 + δ` bins or more from all the lines
`X` is zero: all the intensity is in the rows of the weighted sum of the isotropic frequencies and their neighbours.

Missing: lines on the edge of the window, `-1 - δ < X < δ`, which wrap (C57); the signs of the polar angles (C73). -/
theorem C90_near_partial (nt nOct nSide : ℕ) (hn : 1 ≤ nt) (hO : nOct = 1 ∨ nOct = 4) (junk : ℕ → ℕ → ℂ)
    (a0 a1 B0 θ ν0 ν1 : ℝ) (h0 : 0 < ν0) (h1 : 0 < ν1) (inc : ℝ × ℝ)
    (hi : 0 < inc.1 ∧ 0 < inc.2) (d : Dimension × Dimension)
    (hd : d.1.inv = 1 / inc.1 ∧ d.1.events = [⟨B0, 1, θ, ν0⟩]) (he : d.2.inv = 1 / inc.2 ∧ d.2.events = [⟨B0, 1, θ, ν1⟩])
    (F G : Frame) (hF : 1 ≤ F.count) (hG : 1 ≤ G.count)
    (ss : List Site) (ks : List Coupling) (x y : List ℕ × List ℕ) (hx : Spec.IsState ss x.1 ∧ Spec.IsState ss x.2)
    (hy : Spec.IsState ss y.1 ∧ Spec.IsState ss y.2) (hs : ∀ s ∈ ss, 1 ≤ s.n ∧ |s.eta| ≤ 1 ∧ |s.etaQ| ≤ 1)
    (hk : ∀ k ∈ ks, k.A < ss.length ∧ k.X < ss.length ∧ |k.eta| ≤ 1) (hc : Spec.Cancels a0 a1 ss x y)
    (M δ : ℝ) (hM : ∀ p, |Spec.anisotropy a0 a1 B0 (ss.map Spec.absSite) (ks.map Spec.absCoupling) x y p| ≤ M)
    (hδ : |3 * Real.cos θ ^ 2 - 1| / 2 * M + |a0| * Spec.tol B0 ss ks (Spec.quantum ss x.1) (Spec.quantum ss x.2)
      + |a1| * Spec.tol B0 ss ks (Spec.quantum ss y.1) (Spec.quantum ss y.2) ≤ δ * inc.1)
    (X : ℕ → ℕ → ℝ)
    (hX : ∀ i k, X i k = F.norm
      + (a0 * (Spec.isotropic ⟨B0, 1, θ, ν0⟩ (ss.map Spec.absSite) (ks.map Spec.absCoupling) x + F.vr i)
      + a1 * (Spec.isotropic ⟨B0, 1, θ, ν1⟩ (ss.map Spec.absSite) (ks.map Spec.absCoupling) y + G.vr k)) / inc.1)
    (hE : ∀ i < nSide, ∀ k < nSide, δ ≤ X i k ∨ X i k ≤ -1 - δ) :
    ∃ w : Bin.Writes ℝ,
      map2D WC.src TC.src true nt nOct nSide ss ks inc [a0, a1, 0, 1] d F G (startRows true junk nt) (pack ss [x, y]) = .ok w ∧
      ∀ r col : ℤ, 0 ≤ col → col < G.count → (∀ i < nSide, ∀ k < nSide, 1 + δ ≤ |(r : ℝ) + 1 / 2 - X i k|) →
        Bin.at_ (r * G.count + col) w = 0 := by
  have h0' : ∀ z : ℝ, z ≤ |z| / inc.2 * inc.2 := by
    intro z
    rw [div_mul_cancel₀ _ (ne_of_gt hi.2)]
    exact le_abs_self z
  obtain ⟨w, hw, hv⟩ := near_map nt nOct nSide hn hO junk a0 a1 B0 θ ν0 ν1 h0 h1 inc hi d hd he F G hF hG ss ks x y hx hy hs hk hc M δ hM hδ _
    (h0' _) (fun _ _ => True) X _ hX (fun _ => rfl) (fun _ _ _ _ => Or.inl trivial) (fun i hi' k hk' _ => hE i hi' k hk')
  exact ⟨w, hw, fun r col g0 g1 hr => hv r col g0 g1 fun i hi' k hk' _ => hr i hi' k hk'⟩

/-- **C90 (multiple quantum near the magic angle), partial.** For every multiple-quantum method and spin that it supports, with the affine matrix
that it comes with, for any site, any rotor angle, and with the constants as the source has them: the method has one pathway, the weighted
sum of its two transitions has a bounded anisotropy at rest, and the map is zero in the rows away from the lines. -/
theorem C90_mq_near_partial (so : Trans.SetOrder) (c : String) (s : Site) (hs : |s.eta| ≤ 1 ∧ |s.etaQ| ≤ 1) (name : String) (n : ℕ)
    (hname : (name, n) ∈ Trans.mqSymmetry) (dims : List (List Trans.Query)) (a : List ℚ)
    (h : Trans.mqUpdate name s.n none = .ok (dims, a))
    (nt nOct nSide : ℕ) (hn : 1 ≤ nt) (hO : nOct = 1 ∨ nOct = 4) (junk : ℕ → ℕ → ℂ)
    (B0 θ ν0 ν1 : ℝ) (h0 : 0 < ν0) (h1 : 0 < ν1) :
    ∃ (path : List Trans.Tr) (a0 a1 : ℚ) (x y : List ℕ × List ℕ),
      Trans.transitionPathways so [⟨c, s.n⟩] [c] dims = .ok [path] ∧ a = [a0, a1, 0, 1] ∧ a0 + a1 = 1 ∧
      packQ path = pack [s] [x, y] ∧
      (∃ M, ∀ p, |Spec.anisotropy a0 a1 B0 [Spec.absSite s] [] x y p| ≤ M) ∧
      ∀ (M δ : ℝ) (inc : ℝ × ℝ) (d : Dimension × Dimension) (F G : Frame) (X : ℕ → ℕ → ℝ),
        (∀ p, |Spec.anisotropy a0 a1 B0 [Spec.absSite s] [] x y p| ≤ M) → 0 < inc.1 ∧ 0 < inc.2 →
        d.1.inv = 1 / inc.1 ∧ d.1.events = [⟨B0, 1, θ, ν0⟩] → d.2.inv = 1 / inc.2 ∧ d.2.events = [⟨B0, 1, θ, ν1⟩] →
        1 ≤ F.count → 1 ≤ G.count →
        |3 * Real.cos θ ^ 2 - 1| / 2 * M + |(a0 : ℝ)| * Spec.tol B0 [s] [] (Spec.quantum [s] x.1) (Spec.quantum [s] x.2)
          + |(a1 : ℝ)| * Spec.tol B0 [s] [] (Spec.quantum [s] y.1) (Spec.quantum [s] y.2) ≤ δ * inc.1 →
        (∀ i k, X i k = F.norm + ((a0 : ℝ) * (Spec.isotropic ⟨B0, 1, θ, ν0⟩ [Spec.absSite s] [] x + F.vr i)
          + (a1 : ℝ) * (Spec.isotropic ⟨B0, 1, θ, ν1⟩ [Spec.absSite s] [] y + G.vr k)) / inc.1) →
        (∀ i < nSide, ∀ k < nSide, δ ≤ X i k ∨ X i k ≤ -1 - δ) →
        ∃ w : Bin.Writes ℝ,
          map2D WC.src TC.src true nt nOct nSide [s] [] inc (a.map fun (q : ℚ) => (q : ℝ)) d F G (startRows true junk nt)
            (packQ path) = .ok w ∧
          ∀ r col : ℤ, 0 ≤ col → col < G.count → (∀ i < nSide, ∀ k < nSide, 1 + δ ≤ |(r : ℝ) + 1 / 2 - X i k|) →
            Bin.at_ (r * G.count + col) w = 0 := by
  obtain ⟨path, a0, a1, x, y, hp, ha, hsum, hpack, hx, hy, hcan, hn1⟩ := mq_states so c s name n hname dims a h
  refine ⟨path, a0, a1, x, y, hp, ha, hsum, hpack, ?_, ?_⟩
  · refine C90_bounded a0 a1 B0 [Spec.absSite s] [] x y ⟨?_, ?_⟩ ⟨?_, ?_⟩ ?_ (by simp)
    · exact isState_abs [s] _ hx.1
    · exact isState_abs [s] _ hx.2
    · exact isState_abs [s] _ hy.1
    · exact isState_abs [s] _ hy.2
    · intro s' hs'
      rw [List.mem_singleton] at hs'
      subst hs'
      exact ⟨⟨abs_nonneg _, abs_nonneg _⟩, hn1⟩
  · intro M δ inc d F G X hM hi hd he hF hG hδ hX hE
    obtain ⟨w, hm, hR⟩ := C90_near_partial nt nOct nSide hn hO junk a0 a1 B0 θ ν0 ν1 h0 h1 inc hi d hd he F G hF hG
      [s] [] x y hx hy
      (by
        intro s' hs'
        rw [List.mem_singleton] at hs'
        subst hs'
        exact ⟨hn1, hs⟩)
      (by simp) hcan M δ hM hδ X hX hE
    refine ⟨w, ?_, hR⟩
    rw [hpack, ha]
    simpa using hm

/-- The pathways of a satellite-transition method on one site and its weights. -/
theorem st_states (so : Trans.SetOrder) (c : String) (s : Site) (name : String) (n : ℕ)
    (hname : (name, n) ∈ Trans.stSymmetry) (hgood : (n = 3 ∧ s.n = 3) ∨ (n = 5 ∧ (s.n = 5 ∨ s.n = 7)))
    (dims : List (List Trans.Query)) (a : List ℚ) (h : Trans.stUpdate name s.n none = .ok (dims, a)) :
    ∃ (paths : List (List Trans.Tr)) (a0 a1 : ℚ) (y : List ℕ × List ℕ),
      Trans.transitionPathways so [⟨c, s.n⟩] [c] dims = .ok paths ∧ paths.length = 2 ∧ a = [a0, a1, 0, 1] ∧ a0 + a1 = 1 ∧
      (Spec.IsState [s] y.1 ∧ Spec.IsState [s] y.2) ∧ 1 ≤ s.n ∧
      ∀ path ∈ paths, ∃ x : List ℕ × List ℕ, packQ path = pack [s] [x, y] ∧ (Spec.IsState [s] x.1 ∧ Spec.IsState [s] x.2) ∧
        Spec.Cancels (a0 : ℝ) (a1 : ℝ) [s] x y := by
  obtain ⟨g1, g2, g3⟩ := (Trans.C16_st_domain name n hname s.n).mp ⟨_, h⟩
  obtain ⟨paths, hp, -, hr, a0, a1, ha, hsum⟩ := Trans.C17_st_shear_partial so c s.n name n hname dims a h
  have hpath := Trans.C16_st_vas so c s.n g1 name n hname g2 none dims a h
  rw [hp] at hpath
  injection hpath with hpath
  have hr := hr.mpr hgood
  obtain ⟨hn1, hn3⟩ : n % 2 = 1 ∧ 3 ≤ n := by omega
  obtain ⟨k1, k2⟩ := st_path s n hn1 hn3 g1 g2
  obtain ⟨u, hu⟩ : ∃ u : ℕ, s.n = n + 2 * u := ⟨(s.n - n) / 2, by omega⟩
  obtain ⟨v, hv⟩ : ∃ v : ℕ, s.n = 1 + 2 * v := ⟨(s.n - 1) / 2, by omega⟩
  have e1 : (s.n - n) / 2 = u := by omega
  have e2 : (s.n - 1) / 2 = v := by omega
  rw [e1, e2] at k1 k2
  have r1 : (s.n : ℝ) = n + 2 * u := by exact_mod_cast hu
  have r2 : (s.n : ℝ) = 1 + 2 * v := by exact_mod_cast hv
  have r3 : ((u + n - 1 : ℕ) : ℝ) = u + n - 1 := by
    rw [Nat.cast_sub (by omega)]
    push_cast
    ring
  have hstate : ∀ j, j ≤ s.n → Spec.IsState [s] [j] := fun j hj => .cons hj .nil
  have hr1 := hr _ (by rw [hpath]; exact List.mem_cons_self)
  have hr2 := hr _ (by rw [hpath]; exact List.mem_cons_of_mem _ (List.mem_singleton.mpr rfl))
  rw [ha] at hr1 hr2
  unfold Trans.Spec.rank4 at hr1 hr2
  simp only at hr1 hr2
  push_cast at hr1 hr2
  have c0 : ((v : ℝ) - s.n / 2) = -1 / 2 ∧ ((v + 1 : ℕ) : ℝ) - s.n / 2 = 1 / 2 := by
    push_cast
    constructor <;> linarith
  have hc1 : Spec.Cancels (a0 : ℝ) (a1 : ℝ) [s] ([u + 1], [u]) ([v + 1], [v]) := by
    apply cancels_single
    rw [c0.1, c0.2, show (u : ℝ) - s.n / 2 = -((n : ℝ) / 2) by linarith,
      show ((u + 1 : ℕ) : ℝ) - s.n / 2 = -((n : ℝ) / 2 - 1) by push_cast; linarith]
    exact hr1
  have hc2 : Spec.Cancels (a0 : ℝ) (a1 : ℝ) [s] ([u + n], [u + n - 1]) ([v + 1], [v]) := by
    apply cancels_single
    rw [c0.1, c0.2, r3, show (u : ℝ) + n - 1 - s.n / 2 = (n : ℝ) / 2 - 1 by linarith,
      show ((u + n : ℕ) : ℝ) - s.n / 2 = (n : ℝ) / 2 by push_cast; linarith]
    exact hr2
  refine ⟨paths, a0, a1, ([v + 1], [v]), hp, by rw [hpath]; rfl, ha, hsum, ⟨hstate _ (by omega), hstate _ (by omega)⟩, by omega, ?_⟩
  intro path hmem
  rw [hpath] at hmem
  rcases List.mem_cons.mp hmem with rfl | hmem
  · exact ⟨_, k1, ⟨hstate _ (by omega), hstate _ (by omega)⟩, hc1⟩
  · rw [List.mem_singleton] at hmem
    subst hmem
    exact ⟨_, k2, ⟨hstate _ (by omega), hstate _ (by omega)⟩, hc2⟩

/-- **C98 (near the magic angle), partial.** `ST1_VAS` on spin 3/2 and `ST2_VAS` on spin 5/2 and 7/2, any site, any rotor angle, the constants as the
source has them: the maps of both pathways are zero in the rows away from the lines.

Missing: the other spins, for which the property fails (`C98_counterexample`); lines on the edge of the window; the signs of the polar
angles (C73). -/
theorem C98_near_partial (so : Trans.SetOrder) (c : String) (s : Site) (hs : |s.eta| ≤ 1 ∧ |s.etaQ| ≤ 1) (name : String) (n : ℕ)
    (hname : (name, n) ∈ Trans.stSymmetry) (hgood : (n = 3 ∧ s.n = 3) ∨ (n = 5 ∧ (s.n = 5 ∨ s.n = 7)))
    (dims : List (List Trans.Query)) (a : List ℚ) (h : Trans.stUpdate name s.n none = .ok (dims, a))
    (nt nOct nSide : ℕ) (hn : 1 ≤ nt) (hO : nOct = 1 ∨ nOct = 4) (junk : ℕ → ℕ → ℂ)
    (B0 θ ν0 ν1 : ℝ) (h0 : 0 < ν0) (h1 : 0 < ν1) :
    ∃ (paths : List (List Trans.Tr)) (a0 a1 : ℚ) (y : List ℕ × List ℕ),
      Trans.transitionPathways so [⟨c, s.n⟩] [c] dims = .ok paths ∧ paths.length = 2 ∧ a = [a0, a1, 0, 1] ∧ a0 + a1 = 1 ∧
      ∀ path ∈ paths, ∃ x : List ℕ × List ℕ, packQ path = pack [s] [x, y] ∧
      (∃ M, ∀ p, |Spec.anisotropy a0 a1 B0 [Spec.absSite s] [] x y p| ≤ M) ∧
      ∀ (M δ : ℝ) (inc : ℝ × ℝ) (d : Dimension × Dimension) (F G : Frame) (X : ℕ → ℕ → ℝ),
        (∀ p, |Spec.anisotropy a0 a1 B0 [Spec.absSite s] [] x y p| ≤ M) → 0 < inc.1 ∧ 0 < inc.2 →
        d.1.inv = 1 / inc.1 ∧ d.1.events = [⟨B0, 1, θ, ν0⟩] → d.2.inv = 1 / inc.2 ∧ d.2.events = [⟨B0, 1, θ, ν1⟩] →
        1 ≤ F.count → 1 ≤ G.count →
        |3 * Real.cos θ ^ 2 - 1| / 2 * M + |(a0 : ℝ)| * Spec.tol B0 [s] [] (Spec.quantum [s] x.1) (Spec.quantum [s] x.2)
          + |(a1 : ℝ)| * Spec.tol B0 [s] [] (Spec.quantum [s] y.1) (Spec.quantum [s] y.2) ≤ δ * inc.1 →
        (∀ i k, X i k = F.norm + ((a0 : ℝ) * (Spec.isotropic ⟨B0, 1, θ, ν0⟩ [Spec.absSite s] [] x + F.vr i)
          + (a1 : ℝ) * (Spec.isotropic ⟨B0, 1, θ, ν1⟩ [Spec.absSite s] [] y + G.vr k)) / inc.1) →
        (∀ i < nSide, ∀ k < nSide, δ ≤ X i k ∨ X i k ≤ -1 - δ) →
        ∃ w : Bin.Writes ℝ,
          map2D WC.src TC.src true nt nOct nSide [s] [] inc (a.map fun (q : ℚ) => (q : ℝ)) d F G (startRows true junk nt)
            (packQ path) = .ok w ∧
          ∀ r col : ℤ, 0 ≤ col → col < G.count → (∀ i < nSide, ∀ k < nSide, 1 + δ ≤ |(r : ℝ) + 1 / 2 - X i k|) →
            Bin.at_ (r * G.count + col) w = 0 := by
  obtain ⟨paths, a0, a1, y, hp, hlen, ha, hsum, hy, hn1, hall⟩ := st_states so c s name n hname hgood dims a h
  refine ⟨paths, a0, a1, y, hp, hlen, ha, hsum, fun path hmem => ?_⟩
  obtain ⟨x, hpack, hx, hcan⟩ := hall path hmem
  refine ⟨x, hpack, ?_, ?_⟩
  · refine C90_bounded a0 a1 B0 [Spec.absSite s] [] x y ⟨isState_abs [s] _ hx.1, isState_abs [s] _ hx.2⟩
      ⟨isState_abs [s] _ hy.1, isState_abs [s] _ hy.2⟩ ?_ (by simp)
    intro s' hs'
    rw [List.mem_singleton] at hs'
    subst hs'
    exact ⟨⟨abs_nonneg _, abs_nonneg _⟩, hn1⟩
  · intro M δ inc d F G X hM hi hd he hF hG hδ hX hE
    obtain ⟨w, hm, hR⟩ := C90_near_partial nt nOct nSide hn hO junk a0 a1 B0 θ ν0 ν1 h0 h1 inc hi d hd he F G hF hG
      [s] [] x y hx hy
      (by
        intro s' hs'
        rw [List.mem_singleton] at hs'
        subst hs'
        exact ⟨hn1, hs⟩)
      (by simp) hcan M δ hM hδ X hX hE
    refine ⟨w, ?_, hR⟩
    rw [hpack, ha]
    simpa using hm

/-- **C90 (the default angle).** For the default rotor angle (event.py:57, `0.955316618` rad) less than a billionth of the anisotropy is left. -/
theorem C90_default_angle : |3 * Real.cos 0.955316618 ^ 2 - 1| / 2 ≤ 1 / 10 ^ 9 := by
  have h := Complex.exp_bound (x := (0.955316618 : ℝ) * I) (by simp; norm_num [abs_of_pos]) (n := 16) (by norm_num)
  have hn : ‖((0.955316618 : ℝ) : ℂ) * I‖ ≤ 1 := by simp; norm_num [abs_of_pos]
  have hb : |Real.cos 0.955316618 - (∑ m ∈ Finset.range 16, (((0.955316618 : ℝ) : ℂ) * I) ^ m / (m.factorial : ℂ)).re| ≤ 1 / 10 ^ 12 := by
    have e1 : Real.cos 0.955316618 = (exp (((0.955316618 : ℝ) : ℂ) * I)).re := by
      rw [Complex.exp_ofReal_mul_I_re]
    rw [e1, ← Complex.sub_re]
    refine (Complex.abs_re_le_norm _).trans (h.trans ?_)
    refine (mul_le_mul_of_nonneg_right (pow_le_one₀ (norm_nonneg _) hn) (by positivity)).trans ?_
    norm_num [Nat.factorial]
  have hs : (∑ m ∈ Finset.range 16, (((0.955316618 : ℝ) : ℂ) * I) ^ m / (m.factorial : ℂ)).re
      = ∑ k ∈ Finset.range 8, (-1) ^ k * (0.955316618 : ℝ) ^ (2 * k) / ((2 * k).factorial : ℝ) := by
    have hI : ∀ k : ℕ, I ^ (2 * k) = (((-1) ^ k : ℝ) : ℂ) := by
      intro k
      rw [pow_mul, I_sq]
      push_cast
      rfl
    have hpair : ∀ n : ℕ, (∑ m ∈ Finset.range (2 * n), (((0.955316618 : ℝ) : ℂ) * I) ^ m / (m.factorial : ℂ)).re
      = ∑ k ∈ Finset.range n, (-1) ^ k * (0.955316618 : ℝ) ^ (2 * k) / ((2 * k).factorial : ℝ) := by
      intro n
      induction n with
      | zero => simp
      | succ n ih =>
        rw [show 2 * (n + 1) = 2 * n + 1 + 1 by ring, Finset.sum_range_succ, Finset.sum_range_succ, Finset.sum_range_succ, Complex.add_re,
          Complex.add_re, ih]
        have e1 : (((0.955316618 : ℝ) : ℂ) * I) ^ (2 * n) / ((2 * n).factorial : ℂ)
            = (((-1) ^ n * (0.955316618 : ℝ) ^ (2 * n) / ((2 * n).factorial : ℝ) : ℝ) : ℂ) := by
          rw [mul_pow, hI]
          push_cast
          ring
        have e2 : (((0.955316618 : ℝ) : ℂ) * I) ^ (2 * n + 1) / ((2 * n + 1).factorial : ℂ)
            = (((-1) ^ n * (0.955316618 : ℝ) ^ (2 * n + 1) / ((2 * n + 1).factorial : ℝ) : ℝ) : ℂ) * I := by
          rw [mul_pow, pow_succ I, hI]
          push_cast
          ring
        rw [e1, e2, Complex.ofReal_re, Complex.re_ofReal_mul, I_re, mul_zero, add_zero]
    exact hpair 8
  rw [hs] at hb
  norm_num [Finset.sum_range_succ, Nat.factorial] at hb
  have hc := abs_le.mp hb
  rw [div_le_iff₀ (by norm_num), abs_le]
  constructor <;> nlinarith [hc.1, hc.2]

/-! ## An example -/

theorem half_le (R : ℕ → ℂ) (B : ℝ) (h : ∀ j < 5, ‖R j‖ ≤ B) (p : ℝ × ℝ) :
    |(halfRotation WC.exact 2 (Real.cos p.2) (Real.sin p.2) (exp (p.1 * I)) R 2).re| ≤ 5 * B := by
  have := (half_close 2 (Or.inl rfl) (Real.cos p.2) (Real.sin p.2) (Real.cos_sq_add_sin_sq p.2) (exp (p.1 * I)) (exp_unit p.1) 0
    B R R (by
      intro j hj
      exact ⟨by simp, h j (by omega)⟩) 2 le_rfl).2
  refine (Complex.abs_re_le_norm _).trans (this.trans (le_of_eq ?_))
  push_cast
  ring

theorem example_cancels : Spec.Cancels (9 / 16) (7 / 16) [axialSite 3 1000000] ([3], [0]) ([2], [1]) := by
  apply cancels_single
  simp only [axialSite, Trans.STFc4_eq]
  norm_num
  ring

/-- The anisotropy of the triple-quantum and central transitions of a spin 3/2 with an axial quadrupole coupling of 1 MHz in a field in which its
Larmor frequency is 10 MHz. -/
theorem example_anisotropy (p : ℝ × ℝ) :
    |Spec.anisotropy (9 / 16) (7 / 16) 10 [axialSite 3 1000000] [] ([3], [0]) ([2], [1]) p| ≤ 500000 := by
  obtain ⟨-, -, -, -, -, hk, -, -, -, -, -, hf, -, -, hp2, hf2, -, -⟩ := TC.exact_size
  have hst : ∀ j, j ≤ 3 → Spec.IsState [axialSite 3 1000000] [j] := fun j hj => .cons hj .nil
  have hs : ∀ s ∈ [axialSite 3 1000000], s.Upright ∧ 1 ≤ s.n := by
    intro s h
    rw [List.mem_singleton] at h
    subst h
    exact ⟨⟨le_rfl, le_rfl⟩, by norm_num [axialSite]⟩
  have hR : ∀ (mf mi c : ℝ), mf = -mi → mi ≠ mf → |(stfCL TC.exact mf mi (3 / 2)).2.1| ≤ c →
      ∀ j < 5, ‖(addSite WC.exact TC.exact true 10 zeroT (axialSite 3 1000000) mf mi).R2 j‖ ≤ c * 25000 := by
    intro mf mi c hm hne hc j hj
    unfold addSite
    rw [if_neg hne]
    simp only
    rw [if_neg (by norm_num [axialSite]), if_pos trivial]
    have e1 : quad1Part WC.exact TC.exact (axialSite 3 1000000) mf mi = zeroT := by
      unfold quad1Part fcf stfD
      rw [if_pos (by rw [hm]; ring)]
    have e2 : ∀ j, (shieldingPart WC.exact TC.exact 10 (axialSite 3 1000000) mf mi).R2 j = 0 := by
      intro j
      unfold shieldingPart fcf
      split_ifs
      · rfl
      · simp only [scaleT, ssotShielding, axialSite, toFrame_zero]
        rcases j with _ | _ | _ | _ | _ | j <;> simp [pas2]
    rw [e1]
    simp only [addT, e2]
    unfold quad2Part ssotQuad2
    simp only [fcfQuad2, zeroT, zero_add, axialSite, toFrame_zero]
    rw [norm_mul]
    have hc' : ‖(((stfCL TC.exact mf mi ((3 : ℕ) / 2)).2.1 : ℝ) : ℂ)‖ ≤ c := by
      rw [Complex.norm_real]
      push_cast
      exact hc
    have hpas : ‖pas2 (-0 * TC.exact.k2a * (vq ((3 : ℕ) / 2) 1000000 * vq ((3 : ℕ) / 2) 1000000 / (larmor 10 (axialSite 3 1000000) * 1e6)))
        (TC.exact.k2b * (vq ((3 : ℕ) / 2) 1000000 * vq ((3 : ℕ) / 2) 1000000 / (larmor 10 (axialSite 3 1000000) * 1e6))
          * (0 * 0 * TC.exact.t3 - 1)) j‖ ≤ 25000 := by
      have hval : vq ((3 : ℕ) / 2) 1000000 * vq ((3 : ℕ) / 2) 1000000 / (larmor 10 (axialSite 3 1000000) * 1e6) = -25000 := by
        norm_num [vq, larmor, axialSite]
      rw [hval]
      rcases j with _ | _ | _ | _ | _ | j
      · simp [pas2]
      · simp [pas2]
      · simp only [pas2]
        rw [Complex.norm_real, Real.norm_eq_abs, abs_mul, abs_mul]
        norm_num
        linarith
      · simp [pas2]
      · simp [pas2]
      · omega
    exact mul_le_mul hc' hpas (norm_nonneg _) ((abs_nonneg _).trans hc)
  have hcx : |(stfCL TC.exact (-(3 / 2)) (3 / 2) (3 / 2)).2.1| ≤ 4 := by
    simp only [stfCL, stfF, stfP]
    refine (abs_add_le _ _).trans ?_
    rw [abs_mul, abs_mul, abs_mul]
    norm_num
    nlinarith [abs_nonneg TC.exact.p2, abs_nonneg TC.exact.f2, abs_nonneg TC.exact.f]
  have hcy : |(stfCL TC.exact (-(1 / 2)) (1 / 2) (3 / 2)).2.1| ≤ 4 := by
    simp only [stfCL, stfF, stfP]
    refine (abs_add_le _ _).trans ?_
    rw [abs_mul, abs_mul, abs_mul]
    norm_num
    nlinarith [abs_nonneg TC.exact.p2, abs_nonneg TC.exact.f2, abs_nonneg TC.exact.f]
  have bx := half_le _ _ (hR (-(3 / 2)) (3 / 2) 4 (by ring) (by norm_num) hcx) p
  have by' := half_le _ _ (hR (-(1 / 2)) (1 / 2) 4 (by ring) (by norm_num) hcy) p
  unfold Spec.anisotropy
  rw [still_eq _ _ _ ([3], [0]) (hst _ (by norm_num)) (hst _ (by norm_num)) hs (by simp),
    still_eq _ _ _ ([2], [1]) (hst _ (by norm_num)) (hst _ (by norm_num)) hs (by simp), dirFreq_mean, dirFreq_mean]
  have hcan := components_cancel 10 (9 / 16) (7 / 16) [axialSite 3 1000000] [] ([3], [0]) ([2], [1]) (fun s h => (hs s h).2)
    (hst _ (by norm_num)) (hst _ (by norm_num)) (hst _ (by norm_num)) (hst _ (by norm_num)) example_cancels
  have ht := rest_sum (9 / 16) (7 / 16) (Real.cos p.2) (Real.sin p.2) (exp (p.1 * I)) _ _ hcan
  unfold dirFreq
  rw [ht]
  simp only [single_components, axialSite]
  simp only [axialSite] at bx by'
  norm_num at bx by' ⊢
  rw [abs_le] at bx by' ⊢
  constructor <;> linarith

/-- The default angle, the constants of the source, bins of 100 Hz: all the intensity of `ThreeQ_VAS` is within 1.01 bins of the isotropic line. -/
example (nt nOct nSide : ℕ) (hn : 1 ≤ nt) (hO : nOct = 1 ∨ nOct = 4) (junk : ℕ → ℕ → ℂ) (F G : Frame) (hF : 1 ≤ F.count) (hG : 1 ≤ G.count)
    (X : ℕ → ℕ → ℝ)
    (hX : ∀ i k, X i k = F.norm + (9 / 16 * (Spec.isotropic ⟨10, 1, 0.955316618, 10 ^ 12⟩ [axialSite 3 1000000] [] ([3], [0]) + F.vr i)
      + 7 / 16 * (Spec.isotropic ⟨10, 1, 0.955316618, 10 ^ 12⟩ [axialSite 3 1000000] [] ([2], [1]) + G.vr k)) / 100)
    (hE : ∀ i < nSide, ∀ k < nSide, 1 / 100 ≤ X i k ∨ X i k ≤ -1 - 1 / 100) :
    ∃ w : Bin.Writes ℝ,
      map2D WC.src TC.src true nt nOct nSide [axialSite 3 1000000] [] (100, 100) [9 / 16, 7 / 16, 0, 1]
        (⟨1 / 100, [⟨10, 1, 0.955316618, 10 ^ 12⟩], 0, fun _ => 0⟩, ⟨1 / 100, [⟨10, 1, 0.955316618, 10 ^ 12⟩], 0, fun _ => 0⟩) F G
        (startRows true junk nt) (pack [axialSite 3 1000000] [([3], [0]), ([2], [1])]) = .ok w ∧
      ∀ r col : ℤ, 0 ≤ col → col < G.count → (∀ i < nSide, ∀ k < nSide, 1 + 1 / 100 ≤ |(r : ℝ) + 1 / 2 - X i k|) →
        Bin.at_ (r * G.count + col) w = 0 := by
  have habs : [axialSite 3 1000000].map Spec.absSite = [axialSite 3 1000000] := by
    simp [Spec.absSite, Spec.absAngles, axialSite]
  have hst : ∀ j, j ≤ 3 → Spec.IsState [axialSite 3 1000000] [j] := fun j hj => .cons hj .nil
  refine C90_near_partial nt nOct nSide hn hO junk (9 / 16) (7 / 16) 10 0.955316618 (10 ^ 12) (10 ^ 12) (by norm_num) (by norm_num) (100, 100)
    (by norm_num) _ ⟨rfl, rfl⟩ ⟨rfl, rfl⟩ F G hF hG [axialSite 3 1000000] [] ([3], [0]) ([2], [1]) ⟨hst _ (by norm_num), hst _ (by norm_num)⟩
    ⟨hst _ (by norm_num), hst _ (by norm_num)⟩ ?_ (by simp) example_cancels 500000 (1 / 100) (by rw [habs]; exact example_anisotropy) ?_ X
    (by rw [habs]; exact hX) hE
  · intro s h
    rw [List.mem_singleton] at h
    subst h
    norm_num [axialSite]
  · have := C90_default_angle
    have e1 : Spec.tol 10 [axialSite 3 1000000] [] (Spec.quantum [axialSite 3 1000000] [3]) (Spec.quantum [axialSite 3 1000000] [0]) ≤ 1 / 2 := by
      norm_num [Spec.tol, Spec.sitesTol, Spec.siteTol, Spec.edge, Spec.quantum, axialSite, clSize, vq, abs_of_nonneg, abs_of_nonpos]
    have e2 : Spec.tol 10 [axialSite 3 1000000] [] (Spec.quantum [axialSite 3 1000000] [2]) (Spec.quantum [axialSite 3 1000000] [1]) ≤ 1 / 2 := by
      norm_num [Spec.tol, Spec.sitesTol, Spec.siteTol, Spec.edge, Spec.quantum, axialSite, clSize, vq, abs_of_nonneg, abs_of_nonpos]
    rw [abs_of_pos (by norm_num : (0 : ℝ) < 9 / 16), abs_of_pos (by norm_num : (0 : ℝ) < 7 / 16)]
    simp only
    linarith

end MRS.Freq
