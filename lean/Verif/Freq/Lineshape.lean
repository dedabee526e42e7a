import Verif.Freq.Aligned
import Verif.Bin.Sphere
import Mathlib.Analysis.Analytic.Constructions
import Mathlib.Analysis.SpecialFunctions.Trigonometric.Deriv

/-!
# The powder pattern — property C88
-/

namespace MRS.Freq

open Complex ComplexConjugate MeasureTheory Filter Topology

/-! ## Dependence on the direction -/

section Analytic

variable {E : Type*} [NormedAddCommGroup E] [NormedSpace ℝ E]

theorem wigner2_analytic (W : WC) (n : ℕ) {c s : E → ℝ} {x : E} (hc : AnalyticAt ℝ c x) (hs : AnalyticAt ℝ s x) :
    AnalyticAt ℝ (fun y => wigner2jHalf W (c y) (s y) n) x := by
  by_cases h : n < 15
  · interval_cases n <;> simp only [wigner2jHalf] <;> fun_prop
  · obtain ⟨m, rfl⟩ : ∃ m, n = m + 15 := ⟨n - 15, by omega⟩
    have : (fun y => wigner2jHalf W (c y) (s y) (m + 15)) = fun _ => 0 := rfl
    rw [this]
    fun_prop

theorem wigner4_analytic (W : WC) (n : ℕ) {c s : E → ℝ} {x : E} (hc : AnalyticAt ℝ c x) (hs : AnalyticAt ℝ s x) :
    AnalyticAt ℝ (fun y => wigner4jHalf W (c y) (s y) n) x := by
  unfold wigner4jHalf
  by_cases h : n < 45
  · interval_cases n <;> simp only [wigner4jHalfT] <;> fun_prop
  · obtain ⟨m, rfl⟩ : ∃ m, n = m + 45 := ⟨n - 45, by omega⟩
    simp only [wigner4jHalfT]
    fun_prop

theorem conj_analytic {e : E → ℂ} {x : E} (he : AnalyticAt ℝ e x) : AnalyticAt ℝ (fun y => conj (e y)) x :=
  (Complex.conjCLE.toContinuousLinearMap.analyticAt (e x)).comp he

theorem re_analytic {e : E → ℂ} {x : E} (he : AnalyticAt ℝ e x) : AnalyticAt ℝ (fun y => (e y).re) x :=
  (Complex.reCLM.analyticAt (e x)).comp he

theorem im_analytic {e : E → ℂ} {x : E} (he : AnalyticAt ℝ e x) : AnalyticAt ℝ (fun y => (e y).im) x :=
  (Complex.imCLM.analyticAt (e x)).comp he

theorem ofReal_analytic {f : E → ℝ} {x : E} (hf : AnalyticAt ℝ f x) : AnalyticAt ℝ (fun y => (f y : ℂ)) x :=
  (Complex.ofRealCLM.analyticAt (f x)).comp hf

theorem half_analytic (W : WC) (l : ℕ) (R : ℕ → ℂ) (i : ℕ) {c s : E → ℝ} {e : E → ℂ} {x : E} (hc : AnalyticAt ℝ c x)
    (hs : AnalyticAt ℝ s x) (he : AnalyticAt ℝ e x) : AnalyticAt ℝ (fun y => halfRotation W l (c y) (s y) (e y) R i) x := by
  unfold halfRotation
  refine Finset.analyticAt_fun_sum _ fun j _ => ?_
  refine (ofReal_analytic ?_).mul ?_
  · unfold wHalf
    split_ifs
    · exact wigner2_analytic W _ hc hs
    · exact wigner4_analytic W _ hc hs
    · exact analyticAt_const
  · unfold phasedHalf
    split_ifs
    · exact analyticAt_const.mul (he.pow _)
    · exact analyticAt_const.mul (conj_analytic (analyticAt_const.mul (he.pow _)))

theorem localFreq_analytic (W : WC) (four : Bool) (cθ sθ : ℝ) (t : Tens) {c s : E → ℝ} {e : E → ℂ} {x : E}
    (hc : AnalyticAt ℝ c x) (hs : AnalyticAt ℝ s x) (he : AnalyticAt ℝ e x) :
    AnalyticAt ℝ (fun y => localFreq W four (c y) (s y) (e y) cθ sθ t) x := by
  unfold localFreq
  have h2 := re_analytic (half_analytic W 2 t.R2 2 hc hs he)
  have h4 := re_analytic (half_analytic W 4 t.R4 4 hc hs he)
  cases four
  · simp only [Bool.false_eq_true, if_false]
    exact (analyticAt_const.add (analyticAt_const.mul h2)).add analyticAt_const
  · simp only [if_true]
    exact (analyticAt_const.add (analyticAt_const.mul h2)).add (analyticAt_const.mul h4)

theorem crystalPhase_analytic (W : WC) (four : Bool) (N : ℕ) (νr cθ sθ : ℝ) (t : Tens) (k : ℕ) {c s : E → ℝ} {e : E → ℂ} {x : E}
    (hc : AnalyticAt ℝ c x) (hs : AnalyticAt ℝ s x) (he : AnalyticAt ℝ e x) :
    AnalyticAt ℝ (fun y => crystalPhase W four N νr (c y) (s y) (e y) cθ sθ t k) x := by
  unfold crystalPhase sidebandPhase
  refine im_analytic (AnalyticAt.add ?_ ?_)
  · exact Finset.analyticAt_fun_sum _ fun i _ => analyticAt_const.mul (half_analytic W 2 t.R2 i hc hs he)
  · cases four
    · simp only [Bool.false_eq_true, if_false]
      exact analyticAt_const
    · simp only [if_true]
      exact Finset.analyticAt_fun_sum _ fun i _ => analyticAt_const.mul (half_analytic W 4 t.R4 i hc hs he)

theorem sidebandAmps_analytic {N : ℕ} [NeZero N] (m : ZMod N) (φ : E → ZMod N → ℝ) {x : E}
    (h : ∀ k, AnalyticAt ℝ (fun y => φ y k) x) : AnalyticAt ℝ (fun y => Sim.sidebandAmps (φ y) m) x := by
  have hv : AnalyticAt ℝ (fun y => Sim.fft (fun j => exp (I * φ y j)) m) x := by
    unfold Sim.fft
    refine Finset.analyticAt_fun_sum _ fun j _ => analyticAt_const.mul ?_
    have he : AnalyticAt ℝ Complex.exp (I * (φ x j : ℂ)) := (analyticAt_cexp (z := I * (φ x j : ℂ))).restrictScalars
    exact he.comp (f := fun y => I * (φ y j : ℂ)) (analyticAt_const.mul (ofReal_analytic (h j)))
  unfold Sim.sidebandAmps
  exact ((re_analytic hv).mul (re_analytic hv)).add ((im_analytic hv).mul (im_analytic hv))

end Analytic

/-- The frequency for the direction with polar angles `(α, β)`. -/
noncomputable def dirFreq (W : WC) (four : Bool) (cθ sθ : ℝ) (t : Tens) (p : ℝ × ℝ) : ℝ :=
  localFreq W four (Real.cos p.2) (Real.sin p.2) (exp (p.1 * I)) cθ sθ t

/-- The share of the sideband in position `s` of the list for that direction. -/
noncomputable def dirAmp (W : WC) (four : Bool) (N : ℕ) [NeZero N] (νr cθ sθ : ℝ) (t : Tens) (s : ℕ) (p : ℝ × ℝ) : ℝ :=
  if N = 1 then 1
  else Sim.sidebandAmps (fun k : ZMod N => crystalPhase W four N νr (Real.cos p.2) (Real.sin p.2) (exp (p.1 * I)) cθ sθ t k.val)
    (s : ZMod N) / (N : ℝ) ^ 2

/-- `j` quarter turns about the third axis, clockwise. -/
noncomputable def qturn (j : ℕ) (p : ℝ × ℝ) : ℝ × ℝ := (p.1 - j * (Real.pi / 2), p.2)

theorem exp_turn (j : ℕ) (p : ℝ × ℝ) : exp (((qturn j p).1 : ℝ) * I) = exp (p.1 * I) * (-I) ^ j := by
  have h : exp (-(Real.pi / 2 : ℂ) * I) = -I := by
    rw [neg_mul, Complex.exp_neg, Complex.exp_pi_div_two_mul_I, Complex.inv_I]
  unfold qturn
  dsimp only
  rw [← h, ← Complex.exp_nat_mul, ← Complex.exp_add]
  congr 1
  push_cast
  ring

theorem dirFreq_analytic (W : WC) (four : Bool) (cθ sθ : ℝ) (t : Tens) {E : Type*} [NormedAddCommGroup E] [NormedSpace ℝ E]
    {p : E → ℝ × ℝ} {x : E} (h1 : AnalyticAt ℝ (fun y => (p y).1) x) (h2 : AnalyticAt ℝ (fun y => (p y).2) x) :
    AnalyticAt ℝ (fun y => dirFreq W four cθ sθ t (p y)) x := by
  unfold dirFreq
  refine localFreq_analytic W four cθ sθ t ?_ ?_ ?_
  · exact Real.analyticAt_cos.comp h2
  · exact Real.analyticAt_sin.comp h2
  · have he : AnalyticAt ℝ Complex.exp (((p x).1 : ℂ) * I) := (analyticAt_cexp (z := ((p x).1 : ℂ) * I)).restrictScalars
    exact he.comp (f := fun y => ((p y).1 : ℂ) * I) ((ofReal_analytic h1).mul analyticAt_const)

theorem dirFreq_continuous (W : WC) (four : Bool) (cθ sθ : ℝ) (t : Tens) : Continuous (dirFreq W four cθ sθ t) :=
  continuous_iff_continuousAt.mpr fun x =>
    (dirFreq_analytic W four cθ sθ t (p := fun y : ℝ × ℝ => y) (x := x) analyticAt_fst analyticAt_snd).continuousAt

theorem dirAmp_continuous (W : WC) (four : Bool) (N : ℕ) [NeZero N] (νr cθ sθ : ℝ) (t : Tens) (s : ℕ) :
    Continuous (dirAmp W four N νr cθ sθ t s) := by
  unfold dirAmp
  split_ifs
  · exact continuous_const
  · refine Continuous.div_const (continuous_iff_continuousAt.mpr fun x => ?_) _
    refine (sidebandAmps_analytic (s : ZMod N) (fun (p : ℝ × ℝ) (k : ZMod N) => crystalPhase W four N νr (Real.cos p.2) (Real.sin p.2)
      (exp (p.1 * I)) cθ sθ t k.val) (x := x) fun k => ?_).continuousAt
    refine crystalPhase_analytic W four N νr cθ sθ t k.val ?_ ?_ ?_
    · exact Real.analyticAt_cos.comp analyticAt_snd
    · exact Real.analyticAt_sin.comp analyticAt_snd
    · have he : AnalyticAt ℝ Complex.exp ((x.1 : ℂ) * I) := (analyticAt_cexp (z := (x.1 : ℂ) * I)).restrictScalars
      exact he.comp (f := fun y : ℝ × ℝ => (y.1 : ℂ) * I) ((ofReal_analytic analyticAt_fst).mul analyticAt_const)

theorem sidebandAmps_bounds {N : ℕ} [NeZero N] (φ : ZMod N → ℝ) (m : ZMod N) :
    0 ≤ Sim.sidebandAmps φ m ∧ Sim.sidebandAmps φ m ≤ (N : ℝ) ^ 2 := by
  have h0 : ∀ k, 0 ≤ Sim.sidebandAmps φ k := fun k => by
    unfold Sim.sidebandAmps
    exact add_nonneg (mul_self_nonneg _) (mul_self_nonneg _)
  refine ⟨h0 m, ?_⟩
  rw [← Sim.sum_sidebandAmps φ]
  exact Finset.single_le_sum (fun k _ => h0 k) (Finset.mem_univ m)

/-! ## Grid points inside an octant -/

/-- The phases of a grid point inside the octant are those of its direction. -/
theorem grid_inside (nt : ℕ) (p : ℕ × ℕ) (h1 : 0 < p.1) (h2 : 0 < p.2) (h3 : p.1 + p.2 < nt) :
    let a := Bin.angles ((p.1 : ℝ) / nt, (p.2 : ℝ) / nt)
    gridBeta nt (Bin.rank nt p) = (Real.cos a.2, Real.sin a.2) ∧ gridAlpha nt (Bin.rank nt p) = exp (a.1 * I) := by
  intro a
  have hn : 1 ≤ nt := by omega
  have hn0 : (0 : ℝ) < nt := by exact_mod_cast hn
  have h1' : (0 : ℝ) < p.1 := by exact_mod_cast h1
  have h2' : (0 : ℝ) < p.2 := by exact_mod_cast h2
  have h3' : (p.1 : ℝ) + p.2 < nt := by exact_mod_cast h3
  have hq : ((p.1 : ℝ) / nt, (p.2 : ℝ) / nt) ∈ Bin.simplex := by
    refine ⟨by positivity, by positivity, ?_⟩
    dsimp only
    rw [← add_div, div_lt_one hn0]
    exact h3'
  obtain ⟨ho, hf, _⟩ := Bin.angles_face _ hq
  obtain ⟨c1, s1, c2, s2, ht⟩ := Bin.octant_pos _ ho
  have hrest := Bin.face_rest a ht.ne'
  rw [hf] at hrest
  have e1 := congrArg Prod.fst hf
  have e2 := congrArg Prod.snd hf
  unfold Bin.face at e1 e2
  dsimp only at e1 e2 hrest
  have hpts : Spec.Points a.1 a.2 (Bin.Spec.point nt p) := by
    refine ⟨nt / Bin.total a, by positivity, ?_, ?_, ?_⟩
    · unfold Bin.Spec.point
      dsimp only
      rw [div_mul_eq_mul_div, mul_div_assoc, ← hrest]
      field_simp
    · unfold Bin.Spec.point
      dsimp only
      rw [div_mul_eq_mul_div, mul_div_assoc, e2]
      field_simp
    · unfold Bin.Spec.point
      dsimp only
      rw [div_mul_eq_mul_div, mul_div_assoc, e1]
      field_simp
  obtain ⟨p1, p2⟩ := points_len _ _ _ hpts
  have hg := Bin.grid_get nt p.1 p.2 (by omega)
  obtain ⟨u, v, hu, hv, n1, n2, n3, m1, m2, m3⟩ := Bin.C39_angles_partial nt hn (Bin.rank nt p) p hg (by omega)
  have hc : v.1 = Real.cos a.2 := by rw [m3, p1]
  have hs : v.2 = Real.sin a.2 := by
    have := Real.sin_sq_add_cos_sq a.2
    rw [hc] at n2
    have h0 : v.2 ^ 2 = Real.sin a.2 ^ 2 := by linarith
    exact (sq_eq_sq₀ n3.le s2.le).mp h0
  constructor
  · unfold gridBeta
    rw [hv]
    exact Prod.ext hc hs
  · unfold gridAlpha
    rw [hu]
    have hv0 : (Real.sin a.2 : ℂ) ≠ 0 := by exact_mod_cast s2.ne'
    apply mul_left_cancel₀ hv0
    rw [p2, ← hs]
    apply Complex.ext
    · simp only [Complex.mul_re, Complex.ofReal_re, Complex.ofReal_im, zero_mul, sub_zero, Complex.div_ofReal_re]
      exact m1
    · simp only [Complex.mul_im, Complex.ofReal_re, Complex.ofReal_im, zero_mul, add_zero, Complex.div_ofReal_im]
      exact m2

/-! ## The test for a single line -/

/-- The frequencies along the three axes are not all the same (frequency_averaging.c:60-61). -/
def Spread (inv : ℝ) (ν : ℝ × ℝ → ℝ) : Prop :=
  ¬ (|inv * (ν (0, Real.pi / 2) - ν (Real.pi / 2, Real.pi / 2))| < 1 / 1000000 ∧
    |inv * (ν (0, Real.pi / 2) - ν (0, 0))| < 1 / 1000000)

theorem isDelta_iff (W : WC) (four : Bool) (nt nOct : ℕ) (hn : 1 ≤ nt) (hO : nOct = 1 ∨ nOct = 4) (junk : ℕ → ℕ → ℂ)
    (cθ sθ inv : ℝ) (t : Tens) :
    Bin.isDelta nt (fun a => inv * (powderFrequencies W four nt nOct (startRows four junk nt) cθ sθ t).1 a) = true
      ↔ ¬ Spread inv (dirFreq W four cθ sθ t) := by
  have hj : 0 < nOct := by rcases hO with rfl | rfl <;> norm_num
  have hn0 : (0 : ℝ) < nt := by exact_mod_cast hn
  have key : ∀ (p : ℕ × ℕ) (q : ℕ) (α β : ℝ), p.1 + p.2 ≤ nt → Bin.rank nt p = q → Spec.Points α β (Bin.Spec.point nt p) →
      (powderFrequencies W four nt nOct (startRows four junk nt) cθ sθ t).1 q = dirFreq W four cθ sθ t (α, β) - t.R0 := by
    intro p q α β hp hr hd
    subst hr
    have := powder_dir W four nt nOct hn hO junk cθ sθ t 0 (Bin.rank nt p) hj p (Bin.grid_get nt p.1 p.2 hp) α β hd
    rw [Nat.zero_mul, Nat.zero_add] at this
    unfold dirFreq
    dsimp only
    linarith
  have r0 : Bin.rank nt (0, 0) = 0 := rfl
  have r1 : Bin.rank nt (0, nt) = nt := by unfold Bin.rank; dsimp only; rw [Bin.start]; omega
  have r2 : Bin.rank nt (nt, 0) = Bin.nPts nt - 1 := by unfold Bin.rank; dsimp only; rw [Bin.start_last]; omega
  have k0 := key (0, 0) 0 0 (Real.pi / 2) (by simp) r0 ⟨nt, hn0, by simp [Bin.Spec.point], by simp [Bin.Spec.point],
    by simp [Bin.Spec.point]⟩
  have k1 := key (0, nt) nt (Real.pi / 2) (Real.pi / 2) (by simp) r1 ⟨nt, hn0, by simp [Bin.Spec.point], by simp [Bin.Spec.point],
    by simp [Bin.Spec.point]⟩
  have k2 := key (nt, 0) (Bin.nPts nt - 1) 0 0 (by simp) r2 ⟨nt, hn0, by simp [Bin.Spec.point], by simp [Bin.Spec.point],
    by simp [Bin.Spec.point]⟩
  unfold Bin.isDelta
  rw [decide_eq_true_iff]
  simp only [k0, k1, k2, ← mul_sub, sub_sub_sub_cancel_right]
  unfold Spread
  rw [not_not]
  rfl

theorem isDelta_axes (W : WC) (four : Bool) (nt nOct : ℕ) (hn : 1 ≤ nt) (hO : nOct = 1 ∨ nOct = 4) (junk : ℕ → ℕ → ℂ)
    (cθ sθ inv : ℝ) (t : Tens) (h : Spread inv (dirFreq W four cθ sθ t)) :
    Bin.isDelta nt (fun a => inv * (powderFrequencies W four nt nOct (startRows four junk nt) cθ sθ t).1 a) = false := by
  rw [← Bool.not_eq_true, isDelta_iff W four nt nOct hn hO, not_not]
  exact h

/-! ## Specification -/

/-- The mean over the first `n` of the four octants of a hemisphere: the area of an octant is `π/2`. -/
noncomputable def Spec.octantMean (n : ℕ) (g : ℝ × ℝ → ℝ) : ℝ :=
  2 / (Real.pi * n) * ∑ j ∈ Finset.range n, ∫ p in Bin.octant, Real.sin p.2 * g (qturn j p)

/-! ## The limit -/

/-- The weights of an octant as functions of the point of the octant. -/
theorem amplitude_facts (W : WC) (four : Bool) (nOct N : ℕ) (hO : nOct = 1 ∨ nOct = 4) [NeZero N] (junk : ℕ → ℕ → ℕ → ℂ)
    (νr cθ sθ : ℝ) (t : Tens) (s j : ℕ) (hj : j < nOct) :
    let A : ℕ → ℕ → ℝ := fun nt i => amplitudeArray W four nt nOct N νr cθ sθ (batch W four nOct (fun q => (gridBeta nt q).1)
        (fun q => (gridBeta nt q).2) t.R2 t.R4 nOct (startRows four (junk nt) nt)).1
        (s * (nOct * Bin.nPts nt) + j * Bin.nPts nt + i)
    let a : ℝ × ℝ → ℝ := fun q => dirAmp W four N νr cθ sθ t s (qturn j (Bin.angles q)) / nOct / Bin.dist0 q ^ 3
    (∀ nt, ∀ p : ℕ × ℕ, 0 < p.1 → 0 < p.2 → p.1 + p.2 < nt →
      (nt : ℝ) ^ 2 * A nt (Bin.rank nt p) = a ((p.1 : ℝ) / nt, (p.2 : ℝ) / nt)) ∧
    (∀ nt, 1 ≤ nt → ∀ p : ℕ × ℕ, p.1 + p.2 ≤ nt → |A nt (Bin.rank nt p)| ≤ 3 * Real.sqrt 3 / (nt : ℝ) ^ 2) ∧
    ∀ q ∈ Bin.simplex, ContinuousAt a q := by
  intro A a
  have hO0 : (0 : ℝ) < nOct := by rcases hO with rfl | rfl <;> norm_num
  have hN0 : (0 : ℝ) < N := Nat.cast_pos.mpr (Nat.pos_of_ne_zero (NeZero.ne N))
  have hampc : Continuous fun p => dirAmp W four N νr cθ sθ t s (qturn j p) := by
    have hq : Continuous (qturn j) := by unfold qturn; fun_prop
    exact (dirAmp_continuous W four N νr cθ sθ t s).comp hq
  refine ⟨?_, ?_, ?_⟩
  · intro nt p h1 h2 h3
    have hn : 1 ≤ nt := by omega
    have hn0 : (0 : ℝ) < nt := by exact_mod_cast hn
    obtain ⟨g1, g2⟩ := grid_inside nt p h1 h2 h3
    have hgrid := Bin.grid_get nt p.1 p.2 (by omega)
    have hq : Bin.rank nt p < Bin.nPts nt := by
      have := (List.getElem?_eq_some_iff.mp hgrid).1
      rwa [Bin.grid_length] at this
    have hlen : Bin.Spec.len (Bin.Spec.point nt p) = nt * Bin.dist0 ((p.1 : ℝ) / nt, (p.2 : ℝ) / nt) := by
      unfold Bin.Spec.len Bin.Spec.point Bin.dist0
      dsimp only
      rw [show ((nt : ℝ) - p.1 - p.2) ^ 2 + (p.2 : ℝ) ^ 2 + (p.1 : ℝ) ^ 2
        = (nt : ℝ) ^ 2 * ((1 - (p.1 : ℝ) / nt - p.2 / nt) ^ 2 + ((p.2 : ℝ) / nt) ^ 2 + ((p.1 : ℝ) / nt) ^ 2) by field_simp,
        Real.sqrt_mul (by positivity), Real.sqrt_sq hn0.le]
    have hlp := Bin.len_pos nt hn p
    have hd0 : 0 < Bin.dist0 ((p.1 : ℝ) / nt, (p.2 : ℝ) / nt) := by
      rw [hlen] at hlp
      exact pos_of_mul_pos_right hlp hn0.le
    simp only [A, a]
    rw [amplitude_eq W four nt nOct N hO (junk nt) νr cθ sθ t s j _ hj hq, g1, g2, ← exp_turn, Bin.weight_eq nt hn _ p hgrid, hlen]
    unfold Sim.normAmplitude dirAmp
    split_ifs with hN
    · subst hN
      field_simp
      norm_num
    · simp only [qturn]
      field_simp
  · intro nt hn p hp
    have hgrid := Bin.grid_get nt p.1 p.2 hp
    have hq : Bin.rank nt p < Bin.nPts nt := by
      have := (List.getElem?_eq_some_iff.mp hgrid).1
      rwa [Bin.grid_length] at this
    simp only [A]
    rw [amplitude_eq W four nt nOct N hO (junk nt) νr cθ sθ t s j _ hj hq, Bin.weight_eq nt hn _ p hgrid]
    obtain ⟨w1, w2⟩ := Bin.weight_bounds nt hn p hp
    set w := (nt : ℝ) / Bin.Spec.len (Bin.Spec.point nt p) ^ 3 with hw
    have hw0 : 0 ≤ w := le_trans (by positivity) w1
    have hfac : ∀ A : ℝ, 0 ≤ A → A ≤ (N : ℝ) ^ 2 → |A * Sim.normAmplitude N nOct w| ≤ w := by
      intro A hA0 hA
      unfold Sim.normAmplitude
      have hO1 : (1 : ℝ) ≤ nOct := by rcases hO with rfl | rfl <;> norm_num
      rw [abs_of_nonneg (by positivity)]
      calc A * (w * (1 / (N * N * nOct))) = w * (A / (N ^ 2 * nOct)) := by field_simp
        _ ≤ w * 1 := by
          refine mul_le_mul_of_nonneg_left ?_ hw0
          rw [div_le_one (by positivity)]
          nlinarith [sq_nonneg (N : ℝ)]
        _ = w := mul_one w
    refine le_trans ?_ w2
    split_ifs with hN
    · exact hfac 1 zero_le_one (by rw [hN]; norm_num)
    · exact hfac _ (sidebandAmps_bounds _ _).1 (sidebandAmps_bounds _ _).2
  · intro q hq
    have hd := Bin.dist0_pos q hq
    refine ContinuousAt.div (ContinuousAt.div_const ?_ _) (Bin.dist0_continuous.pow 3).continuousAt (by positivity)
    exact ContinuousAt.comp (g := fun p => dirAmp W four N νr cθ sθ t s (qturn j p)) hampc.continuousAt (Bin.angles_continuous q hq)

theorem octant_limit (W : WC) (four : Bool) (nOct N : ℕ) (hO : nOct = 1 ∨ nOct = 4) [NeZero N] (junk : ℕ → ℕ → ℕ → ℂ)
    (νr cθ sθ inv off : ℝ) (count k : ℤ) (hk0 : 0 ≤ k) (hkm : k < count) (t : Tens)
    (hsp : Spread inv (dirFreq W four cθ sθ t)) (x : ℝ) (s j : ℕ) (hj : j < nOct)
    (hg : 1 ≤ k ∨ ∀ p, 0 ≤ off + inv * dirFreq W four cθ sθ t p + x * inv) :
    Tendsto (fun nt =>
      let bs := (batch W four nOct (fun q => (gridBeta nt q).1) (fun q => (gridBeta nt q).2) t.R2 t.R4 nOct
        (startRows four (junk nt) nt)).1
      Bin.val k (Bin.octInterp nt
        (fun i => inv * frequencyArray W four (Bin.nPts nt) cθ sθ bs (j * Bin.nPts nt + i) + (off + t.R0 * inv + x * inv))
        (fun i => amplitudeArray W four nt nOct N νr cθ sθ bs (s * (nOct * Bin.nPts nt) + j * Bin.nPts nt + i)) count)) atTop
      (𝓝 (6 / nOct * ∫ p in Bin.octant, Real.sin p.2 *
        if (k : ℝ) ≤ off + inv * dirFreq W four cθ sθ t (qturn j p) + x * inv ∧
          off + inv * dirFreq W four cθ sθ t (qturn j p) + x * inv < k + 1
        then dirAmp W four N νr cθ sθ t s (qturn j p) else 0)) := by
  have hO0 : (0 : ℝ) < nOct := by rcases hO with rfl | rfl <;> norm_num
  set pos : ℝ × ℝ → ℝ := fun p => off + inv * dirFreq W four cθ sθ t (qturn j p) + x * inv with hpos
  have hposc : Continuous pos := by
    have := dirFreq_continuous W four cθ sθ t
    have hq : Continuous (qturn j) := by unfold qturn; fun_prop
    simp only [hpos]
    fun_prop
  obtain ⟨fA, fB, fC⟩ := amplitude_facts W four nOct N hO junk νr cθ sθ t s j hj
  have hnull : ∀ c : ℝ, ∀ᵐ p, pos p ≠ c := by
    intro c
    refine Bin.level_null pos hposc ?_ ?_ c ?_
    · intro y x' _
      refine (analyticAt_const.add (analyticAt_const.mul ?_)).add analyticAt_const
      refine dirFreq_analytic W four cθ sθ t (p := fun u : ℝ => qturn j (u, y)) ?_ ?_
      · unfold qturn; fun_prop
      · unfold qturn; fun_prop
    · intro u y _
      refine (analyticAt_const.add (analyticAt_const.mul ?_)).add analyticAt_const
      refine dirFreq_analytic W four cθ sθ t (p := fun v : ℝ => qturn j (u, v)) ?_ ?_
      · unfold qturn; fun_prop
      · unfold qturn; fun_prop
    · by_contra hall
      push Not at hall
      have hback : ∀ p : ℝ × ℝ, inv * dirFreq W four cθ sθ t p = c - off - x * inv := by
        intro p
        have := hall (p.1 + j * (Real.pi / 2), p.2)
        simp only [hpos, qturn, add_sub_cancel_right] at this
        linarith
      apply hsp
      constructor
      · rw [mul_sub, hback, hback, sub_self, abs_zero]; norm_num
      · rw [mul_sub, hback, hback, sub_self, abs_zero]; norm_num
  have hlim := Bin.octInterp_limit
    (fun nt i => inv * frequencyArray W four (Bin.nPts nt) cθ sθ (batch W four nOct (fun q => (gridBeta nt q).1)
        (fun q => (gridBeta nt q).2) t.R2 t.R4 nOct (startRows four (junk nt) nt)).1 (j * Bin.nPts nt + i)
        + (off + t.R0 * inv + x * inv))
    (fun nt i => amplitudeArray W four nt nOct N νr cθ sθ (batch W four nOct (fun q => (gridBeta nt q).1)
        (fun q => (gridBeta nt q).2) t.R2 t.R4 nOct (startRows four (junk nt) nt)).1
        (s * (nOct * Bin.nPts nt) + j * Bin.nPts nt + i))
    count k hk0 hkm (fun q => pos (Bin.angles q))
    (fun q => dirAmp W four N νr cθ sθ t s (qturn j (Bin.angles q)) / nOct / Bin.dist0 q ^ 3) (3 * Real.sqrt 3) (by positivity)
    ?_ ?_ ?_ ?_ ?_ ?_ ?_
  · simp only
    convert hlim using 2
    have hface := Bin.integral_face fun q => if (k : ℝ) ≤ pos (Bin.angles q) ∧ pos (Bin.angles q) < k + 1 then
      dirAmp W four N νr cθ sθ t s (qturn j (Bin.angles q)) else 0
    have hm : MeasurableSet Bin.octant := measurableSet_Ioo.prod measurableSet_Ioo
    rw [setIntegral_congr_fun (g := fun p => Real.sin p.2 * if (k : ℝ) ≤ pos p ∧ pos p < k + 1 then
        dirAmp W four N νr cθ sθ t s (qturn j p) else 0) hm (fun p hp => by
      simp only [Bin.face_angles p hp])] at hface
    rw [← hface, div_mul_eq_mul_div, mul_div_assoc, ← integral_div]
    congr 2
    funext q
    split_ifs
    · ring
    · simp
  · intro nt p h1 h2 h3
    have hn : 1 ≤ nt := by omega
    obtain ⟨g1, g2⟩ := grid_inside nt p h1 h2 h3
    have hq : Bin.rank nt p < Bin.nPts nt := by
      have := (List.getElem?_eq_some_iff.mp (Bin.grid_get nt p.1 p.2 (by omega))).1
      rwa [Bin.grid_length] at this
    rw [frequency_eq W four nt nOct hO (junk nt) cθ sθ t j _ hj hq, g1, g2, ← exp_turn]
    simp only [hpos, dirFreq, qturn]
    ring
  · exact fA
  · exact fB
  · intro q hq
    exact hposc.continuousAt.comp (Bin.angles_continuous q hq)
  · exact fC
  · refine Bin.face_null (fun q => pos (Bin.angles q) ≠ k ∧ pos (Bin.angles q) ≠ k + 1) ?_
    filter_upwards [hnull k, hnull (k + 1)] with p h1 h2 hp
    rw [Bin.face_angles p hp]
    exact ⟨h1, h2⟩
  · rcases hg with hg | hg
    · exact Or.inl hg
    · refine Or.inr fun nt hn p hp => ?_
      have hgrid := Bin.grid_get nt p.1 p.2 hp
      obtain ⟨α, β, hpt⟩ := points_exist (Spec.quarter j (Bin.Spec.point nt p)) (by
        rw [quarter_len]
        exact Bin.len_pos nt hn p)
      have hfr := powder_dir W four nt nOct hn hO (junk nt) cθ sθ t j _ hj p hgrid α β hpt
      have := hg (α, β)
      unfold dirFreq at this
      dsimp only at this ⊢
      rw [← hfr, powderFrequencies] at this
      dsimp only at this
      linarith

/-- What a density `nt` adds to bin `k` converges. -/
theorem spectrum_limit (W : WC) (four : Bool) (nOct N : ℕ) (hO : nOct = 1 ∨ nOct = 4) [NeZero N] (junk : ℕ → ℕ → ℕ → ℂ)
    (νr cθ sθ inv off : ℝ) (count k : ℤ) (hk0 : 0 ≤ k) (hkm : k < count) (t : Tens)
    (hsp : Spread inv (dirFreq W four cθ sθ t))
    (hg : 1 ≤ k ∨ ∀ x ∈ Bin.fftOrder (N : ℤ) νr, ∀ p, 0 ≤ off + inv * dirFreq W four cθ sθ t p + x * inv) :
    (∀ nt, 1 ≤ nt → ∃ u, spectrum W four nt nOct N νr cθ sθ inv off count (startRows four (junk nt) nt) t = .ok u) ∧
    Tendsto (fun nt => Bin.val k (spectrum W four nt nOct N νr cθ sθ inv off count (startRows four (junk nt) nt) t)) atTop
      (𝓝 (((Bin.fftOrder (N : ℤ) νr).zipIdx.map fun s => if Bin.inWindow (off + t.R0 * inv + s.1 * inv) count then
        3 * Real.pi * Spec.octantMean nOct fun p =>
          if (k : ℝ) ≤ off + inv * dirFreq W four cθ sθ t p + s.1 * inv ∧ off + inv * dirFreq W four cθ sθ t p + s.1 * inv < k + 1
          then dirAmp W four N νr cθ sθ t s.2 p else 0
        else 0).sum)) := by
  have hO0 : (0 : ℝ) < nOct := by rcases hO with rfl | rfl <;> norm_num
  constructor
  · intro nt hn
    unfold spectrum
    exact Bin.averaging_ok _ _ _ _ _ _ _ _ _ (by omega) (isDelta_axes W four nt nOct hn hO (junk nt) cθ sθ inv t hsp)
  · have hev : (fun nt : ℕ =>
        ((Bin.fftOrder (N : ℤ) νr).zipIdx.map fun s => if Bin.inWindow (off + t.R0 * inv + s.1 * inv) count then
          ((List.range nOct).map fun j =>
            let bs := (batch W four nOct (fun q => (gridBeta nt q).1) (fun q => (gridBeta nt q).2) t.R2 t.R4 nOct
              (startRows four (junk nt) nt)).1
            Bin.val k (Bin.octInterp nt
              (fun i => inv * frequencyArray W four (Bin.nPts nt) cθ sθ bs (j * Bin.nPts nt + i) + (off + t.R0 * inv + s.1 * inv))
              (fun i => amplitudeArray W four nt nOct N νr cθ sθ bs (s.2 * (nOct * Bin.nPts nt) + j * Bin.nPts nt + i)) count)).sum
          else 0).sum)
        =ᶠ[atTop] fun nt => Bin.val k (spectrum W four nt nOct N νr cθ sθ inv off count (startRows four (junk nt) nt) t) := by
      filter_upwards [eventually_ge_atTop 1] with nt hn
      unfold spectrum
      exact (Bin.averaging_val nt nOct (Bin.fftOrder N νr) inv off (t.R0 * inv) _ _ count (by omega) k
        (isDelta_axes W four nt nOct hn hO (junk nt) cθ sθ inv t hsp)).symm
    refine Tendsto.congr' hev ?_
    refine tendsto_list_sum _ fun s hs => ?_
    split_ifs with hw
    · have hsum := tendsto_list_sum (List.range nOct) (fun j hj => octant_limit W four nOct N hO junk νr cθ sθ inv off count k hk0 hkm t hsp
        s.1 s.2 j (List.mem_range.mp hj) (hg.imp id fun h p => h s.1 (List.fst_mem_of_mem_zipIdx hs) p))
      convert hsum using 2
      unfold Spec.octantMean
      rw [show ∀ f : ℕ → ℝ, ((List.range nOct).map f).sum = ∑ j ∈ Finset.range nOct, f j from fun f => rfl, ← Finset.mul_sum, ← mul_assoc]
      congr 1
      field_simp
      ring
    · exact tendsto_const_nhds

end MRS.Freq
