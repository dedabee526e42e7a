import Verif.Freq.Near
import Verif.Freq.Pole
import Verif.Sim.Trig

/-!
# Sidebands with the decimals and the tables of the source — properties C75, C76 and C79

The phases from which the code computes the sidebands are read off the components of the tensors just as the frequencies are, so that
the bounds of `Verif.Freq.Near` hold for them too.  With the table of exponentials (C81) this gives the intensity of a sideband as the
source computes it, apart from the rounding of floating-point operations.
-/

namespace MRS.Freq

open Complex ComplexConjugate Matrix

/-! ## The phase is read off the components -/

theorem order_near (l : ℕ) (hl : l = 2 ∨ l = 4) (Θ : Angles) (c s : ℝ) (hu : c ^ 2 + s ^ 2 = 1) (e : ℂ) (he : ‖e‖ = 1)
    (d d' : ℝ) (hd : |d - d'| ≤ wEps l) (hd' : |d'| ≤ 1) (δ B : ℝ) (hδ : 0 ≤ δ) (hB : 0 ≤ B) (R R' : ℕ → ℂ)
    (h : Close l δ B R R') (i : ℕ) (hi : i ≤ l) :
    ‖(d : ℂ) * halfRotation WC.src l c s e (toFrame WC.src l Θ R) i - (d' : ℂ) * halfRotation WC.exact l c s e (toFrame WC.exact l Θ R') i‖
        ≤ Spec.edge Θ.β * ((2 * l + 1) ^ 2 * (1.01 * δ + (1.01 * tEps l + 2.01 * wEps l) * B)) ∧
    ‖(d' : ℂ) * halfRotation WC.exact l c s e (toFrame WC.exact l Θ R') i‖ ≤ (2 * l + 1) ^ 2 * B := by
  obtain ⟨h1, h2⟩ := half_close l hl c s hu e he _ _ _ _ (toFrame_close l hl Θ δ B R R' h) i hi
  set x := halfRotation WC.src l c s e (toFrame WC.src l Θ R) i
  set y := halfRotation WC.exact l c s e (toFrame WC.exact l Θ R') i
  have hE : 0 ≤ wEps l := wEps_pos l
  have hE' : wEps l ≤ 1 / 10 ^ 8 := by unfold wEps; split_ifs <;> norm_num
  generalize wEps l = E at *
  have hT : 0 ≤ tEps l := tEps_pos l
  have hT' : tEps l ≤ 5 / 10 ^ 8 := by unfold tEps; split_ifs <;> norm_num
  generalize tEps l = T at *
  have hg := edge_ge Θ.β
  generalize Spec.edge Θ.β = g at *
  have hN : (0 : ℝ) ≤ 2 * l + 1 := by positivity
  generalize (2 * (l : ℝ) + 1) = N at *
  constructor
  · have hdd : |d| ≤ 1 + E := by
      have := abs_add_le (d - d') d'
      rw [sub_add_cancel] at this
      linarith
    calc ‖(d : ℂ) * x - (d' : ℂ) * y‖ = ‖(d : ℂ) * (x - y) + ((d - d' : ℝ) : ℂ) * y‖ := by
          congr 1
          push_cast
          ring
      _ ≤ |d| * ‖x - y‖ + |d - d'| * ‖y‖ := by
          refine (norm_add_le _ _).trans ?_
          rw [norm_mul, norm_mul, Complex.norm_real, Complex.norm_real, Real.norm_eq_abs, Real.norm_eq_abs]
      _ ≤ (1 + E) * (N * ((1 + E) * (g * (N * ((1 + T) * δ + T * B))) + E * (N * B))) + E * (N * (N * B)) :=
          add_le_add (mul_le_mul hdd h1 (norm_nonneg _) (by linarith)) (mul_le_mul hd h2 (norm_nonneg _) hE)
      _ = g * (N ^ 2 * ((1 + E) ^ 2 * (1 + T) * δ + (1 + E) ^ 2 * T * B)) + N ^ 2 * ((E * ((1 + E) + 1)) * B) := by ring
      _ ≤ g * (N ^ 2 * ((1 + E) ^ 2 * (1 + T) * δ + (1 + E) ^ 2 * T * B)) + g * (N ^ 2 * ((E * ((1 + E) + 1)) * B)) :=
          add_le_add le_rfl (le_mul_of_one_le_left (by positivity) hg)
      _ = g * (N ^ 2 * ((1 + E) ^ 2 * (1 + T) * δ + ((1 + E) ^ 2 * T + E * ((1 + E) + 1)) * B)) := by ring
      _ ≤ g * (N ^ 2 * (1.01 * δ + (1.01 * T + 2.01 * E) * B)) := by
          apply mul_le_mul_of_nonneg_left _ (by linarith)
          apply mul_le_mul_of_nonneg_left _ (sq_nonneg N)
          have e2 : (1 + E) ^ 2 ≤ 1.001 := by nlinarith [mul_nonneg hE hE]
          apply add_le_add
          · apply mul_le_mul_of_nonneg_right _ hδ
            calc (1 + E) ^ 2 * (1 + T) ≤ 1.001 * (1 + 5 / 10 ^ 8) := mul_le_mul e2 (by linarith) (by linarith) (by norm_num)
              _ ≤ 1.01 := by norm_num
          · apply mul_le_mul_of_nonneg_right _ hB
            have e3 : (1 + E) ^ 2 * T ≤ 1.001 * T := mul_le_mul_of_nonneg_right e2 hT
            have e4 : E * ((1 + E) + 1) ≤ E * 2.01 := mul_le_mul_of_nonneg_left (by linarith) hE
            linarith
  · rw [norm_mul, Complex.norm_real, Real.norm_eq_abs]
    calc |d'| * ‖y‖ ≤ 1 * (N * (N * B)) := mul_le_mul hd' h2 (norm_nonneg _) zero_le_one
      _ = N ^ 2 * B := by ring

/-- The elements of the matrix of the rotor angle that multiply the components of rank `l`. -/
noncomputable def rotorRow (W : WC) (l : ℕ) (θ : ℝ) (i : ℕ) : ℝ :=
  if l = 2 then dm0Vector2 W (Real.cos θ) (Real.sin θ) i else dm0Vector4 W (Real.cos θ) (Real.sin θ) i

theorem rotorRow_near (l : ℕ) (hl : l = 2 ∨ l = 4) (θ : ℝ) (i : ℕ) (hi : i < 2 * l + 1) :
    |rotorRow WC.src l θ i - rotorRow WC.exact l θ i| ≤ wEps l ∧ |rotorRow WC.exact l θ i| ≤ 1 := by
  have hu : Real.cos θ ^ 2 + Real.sin θ ^ 2 = 1 := Real.cos_sq_add_sin_sq θ
  rcases hl with rfl | rfl
  · unfold rotorRow
    simp only [if_true]
    rw [dm0_2 WC.src _ _ i (by omega), dm0_2 WC.exact _ _ i (by omega)]
    have h2 := wMatrix_near 2 (Or.inl rfl) (Real.cos θ) (Real.sin θ) hu 2 i (by norm_num) (by omega)
    simpa only [wMatrix, if_true] using h2
  · unfold rotorRow
    simp only [show (4 : ℕ) ≠ 2 by norm_num, if_false]
    rw [dm0_4 WC.src _ _ hu i (by omega), dm0_4 WC.exact _ _ hu i (by omega)]
    have h4 := wMatrix_near 4 (Or.inr rfl) (Real.cos θ) (Real.sin θ) hu 4 i (by norm_num) (by omega)
    simpa only [wMatrix, if_true, show (4 : ℕ) ≠ 2 by norm_num, if_false] using h4

theorem waveInt_lin (νr d : ℝ) (w : ℂ) (p τ : ℝ) : waveInt νr d w p τ = waveInt νr 1 ((d : ℂ) * w) p τ := by
  unfold waveInt
  rw [Complex.re_ofReal_mul, Complex.im_ofReal_mul]
  ring

theorem waveInt_sub (νr : ℝ) (w w' : ℂ) (p τ : ℝ) : waveInt νr 1 w p τ - waveInt νr 1 w' p τ = waveInt νr 1 (w - w') p τ := by
  unfold waveInt
  rw [Complex.sub_re, Complex.sub_im]
  ring

theorem waveInt_le (νr : ℝ) (hν : 0 < νr) (w : ℂ) (p : ℝ) (hp : 0 < p) (τ : ℝ) :
    2 * Real.pi * |waveInt νr 1 w p τ| ≤ 4 / νr * (‖w‖ / p) := by
  unfold waveInt
  have ha : 0 < p * (2 * Real.pi * νr) := by positivity
  have hpi := Real.pi_pos
  set a := p * (2 * Real.pi * νr) with hadef
  have hcs : |w.re * Real.sin (a * τ) + w.im * (1 - Real.cos (a * τ))| ≤ 2 * ‖w‖ := by
    apply abs_le_of_sq_le_sq _ (by positivity)
    have hn : ‖w‖ ^ 2 = w.re ^ 2 + w.im ^ 2 := by
      rw [← Complex.normSq_eq_norm_sq, Complex.normSq_apply]
      ring
    have hsc := Real.sin_sq_add_cos_sq (a * τ)
    have hc := Real.neg_one_le_cos (a * τ)
    rw [mul_pow, hn]
    nlinarith [sq_nonneg (w.re * (1 - Real.cos (a * τ)) - w.im * Real.sin (a * τ)), sq_nonneg w.re, sq_nonneg w.im,
      mul_nonneg (add_nonneg (sq_nonneg w.re) (sq_nonneg w.im)) (by linarith : 0 ≤ 1 + Real.cos (a * τ))]
  have e : 2 * 1 * (w.re * (Real.sin (a * τ) / a) + w.im * ((1 - Real.cos (a * τ)) / a))
      = 2 / a * (w.re * Real.sin (a * τ) + w.im * (1 - Real.cos (a * τ))) := by
    field_simp
  rw [e, abs_mul, abs_of_pos (by positivity : 0 < 2 / a)]
  calc 2 * Real.pi * (2 / a * |w.re * Real.sin (a * τ) + w.im * (1 - Real.cos (a * τ))|)
      ≤ 2 * Real.pi * (2 / a * (2 * ‖w‖)) := by gcongr
    _ = 4 / νr * (‖w‖ / p) := by
        rw [hadef]
        field_simp
        ring

/-- The phase at time `τ` of an orientation as something that is read off the components.  The factor makes it no larger than a
frequency. -/
noncomputable def phaseProbe (cβ sβ : ℝ) (hβ : cβ ^ 2 + sβ ^ 2 = 1) (e : ℂ) (he : ‖e‖ = 1) (θ νr : ℝ) (hν : 0 < νr) (τ : ℝ) : Probe where
  iso := 0
  rank W l R := 3 / 25 * νr * (2 * Real.pi *
    ∑ i ∈ Finset.range l, waveInt νr (rotorRow W l θ i) (halfRotation W l cβ sβ e R i) ((l - i : ℕ) : ℝ) τ)
  iso_le := by simp
  add W l R R' := by
    simp only [half_add]
    rw [← mul_add, ← mul_add, ← Finset.sum_add_distrib]
    congr 2
    refine Finset.sum_congr rfl fun i _ => ?_
    unfold waveInt
    rw [Complex.add_re, Complex.add_im]
    ring
  smul W l R x := by
    simp only [half_smul]
    have h : ∑ i ∈ Finset.range l, waveInt νr (rotorRow W l θ i) (x * halfRotation W l cβ sβ e R i) ((l - i : ℕ) : ℝ) τ
        = x * ∑ i ∈ Finset.range l, waveInt νr (rotorRow W l θ i) (halfRotation W l cβ sβ e R i) ((l - i : ℕ) : ℝ) τ := by
      rw [Finset.mul_sum]
      refine Finset.sum_congr rfl fun i _ => ?_
      unfold waveInt
      rw [Complex.re_ofReal_mul, Complex.im_ofReal_mul]
      ring
    rw [h]
    ring
  near l hl Θ δ B hδ hB R R' h := by
    have one := fun i (hi : i ∈ Finset.range l) => order_near l hl Θ cβ sβ hβ e he _ _
      (rotorRow_near l hl θ i (by have := Finset.mem_range.mp hi; omega)).1
      (rotorRow_near l hl θ i (by have := Finset.mem_range.mp hi; omega)).2 δ B hδ hB R R' h i (Finset.mem_range.mp hi).le
    have hpos : ∀ i ∈ Finset.range l, (0 : ℝ) < ((l - i : ℕ) : ℝ) := fun i hi => by
      have := Finset.mem_range.mp hi
      exact_mod_cast Nat.sub_pos_of_lt this
    have harm : ∑ i ∈ Finset.range l, 1 / ((l - i : ℕ) : ℝ) ≤ 25 / 12 := by
      rcases hl with rfl | rfl <;> norm_num [Finset.sum_range_succ]
    -- a bound on the components is one on the phases
    have key : ∀ (v : ℕ → ℂ) (X : ℝ), 0 ≤ X → (∀ i ∈ Finset.range l, ‖v i‖ ≤ X) →
        |3 / 25 * νr * (2 * Real.pi * ∑ i ∈ Finset.range l, waveInt νr 1 (v i) ((l - i : ℕ) : ℝ) τ)| ≤ X := by
      intro v X hX hv
      have hpi := Real.pi_pos
      rw [abs_mul, abs_of_pos (by positivity : 0 < 3 / 25 * νr), abs_mul, abs_of_pos (by positivity : 0 < 2 * Real.pi)]
      have h1 : 2 * Real.pi * |∑ i ∈ Finset.range l, waveInt νr 1 (v i) ((l - i : ℕ) : ℝ) τ|
          ≤ ∑ i ∈ Finset.range l, 4 / νr * X * (1 / ((l - i : ℕ) : ℝ)) := by
        refine (mul_le_mul_of_nonneg_left (Finset.abs_sum_le_sum_abs _ _) (by positivity)).trans ?_
        rw [Finset.mul_sum]
        refine Finset.sum_le_sum fun i hi => (waveInt_le νr hν _ _ (hpos i hi) τ).trans ?_
        have := hpos i hi
        rw [mul_assoc, mul_one_div]
        gcongr
        exact hv i hi
      rw [← Finset.mul_sum] at h1
      calc 3 / 25 * νr * _ ≤ 3 / 25 * νr * (4 / νr * X * (25 / 12)) :=
            mul_le_mul_of_nonneg_left (h1.trans (mul_le_mul_of_nonneg_left harm (by positivity))) (by positivity)
        _ = X := by
            field_simp
            ring
    have hE := wEps_pos l
    have hT := tEps_pos l
    have hg : 0 ≤ Spec.edge Θ.β := by linarith [edge_ge Θ.β]
    constructor
    · rw [← mul_sub, ← mul_sub, ← Finset.sum_sub_distrib]
      simp only [waveInt_lin νr (rotorRow _ _ _ _), waveInt_sub]
      exact key _ _ (by positivity) fun i hi => (one i hi).1
    · simp only [waveInt_lin νr (rotorRow _ _ _ _)]
      exact key _ _ (by positivity) fun i hi => (one i hi).2

theorem phaseProbe_freq (cβ sβ : ℝ) (hβ : cβ ^ 2 + sβ ^ 2 = 1) (e : ℂ) (he : ‖e‖ = 1) (θ νr : ℝ) (hν : 0 < νr) (W : WC) (four : Bool)
    (N : ℕ) (hN : 0 < N) (t : Tens) (k : ℕ) :
    (phaseProbe cβ sβ hβ e he θ νr hν (k / (N * νr))).freq W four t
      = 3 / 25 * νr * crystalPhase W four N νr cβ sβ e (Real.cos θ) (Real.sin θ) t k := by
  rw [crystalPhase_eq W four N hN νr hν]
  unfold Probe.freq phaseProbe wavesInt rotorRow
  simp only [if_true, show (4 : ℕ) ≠ 2 by norm_num, if_false]
  split_ifs <;> ring

/-- With the decimals of the source, the phases are within the tolerance, in units of the rotor frequency, of those with exact constants. -/
theorem phase_near (four : Bool) (N : ℕ) (hN : 0 < N) (B0 α β θ νr : ℝ) (hν : 0 < νr) (ss : List Site) (ks : List Coupling)
    (hs : ∀ s ∈ ss, 1 ≤ s.n ∧ |s.eta| ≤ 1 ∧ |s.etaQ| ≤ 1) (hk : ∀ k ∈ ks, |k.eta| ≤ 1) (mi mf : List ℝ) (k : ℕ) :
    |crystalPhase WC.src four N νr (Real.cos β) (Real.sin β) (exp (α * I)) (Real.cos θ) (Real.sin θ)
          (components WC.src TC.src four B0 ss ks mi mf) k
        - crystalPhase WC.exact four N νr (Real.cos β) (Real.sin β) (exp (α * I)) (Real.cos θ) (Real.sin θ)
          (components WC.exact TC.exact four B0 ss ks mi mf) k|
      ≤ 25 / 3 * Spec.tol B0 ss ks mi mf / νr := by
  have h := probe_near (phaseProbe (Real.cos β) (Real.sin β) (Real.cos_sq_add_sin_sq β) (exp (α * I)) (exp_norm α) θ νr hν (k / (N * νr)))
    four B0 ss ks hs hk mi mf
  rw [phaseProbe_freq _ _ _ _ _ _ _ _ _ _ N hN, phaseProbe_freq _ _ _ _ _ _ _ _ _ _ N hN, ← mul_sub, abs_mul,
    abs_of_pos (by positivity : 0 < 3 / 25 * νr)] at h
  rw [le_div_iff₀ hν]
  linarith

/-! ## Phases that differ by little give intensities that differ by little -/

theorem amps_near {N : ℕ} [NeZero N] (φ ψ : ZMod N → ℝ) (ε : ℝ) (h : ∀ j, |φ j - ψ j| ≤ ε) (k : ZMod N) :
    |Sim.sidebandAmps φ k / (N : ℝ) ^ 2 - Sim.sidebandAmps ψ k / (N : ℝ) ^ 2| ≤ 2 * ε := by
  have hN : (0 : ℝ) < N := by exact_mod_cast NeZero.pos N
  have hnorm : ∀ a : ZMod N, ‖exp (-(2 * Real.pi * I * a.val * k.val / N))‖ = 1 := by
    intro a
    rw [show -(2 * Real.pi * I * a.val * k.val / N : ℂ)
      = ((-(2 * Real.pi * a.val * k.val / N) : ℝ) : ℂ) * I by push_cast; ring]
    exact Complex.norm_exp_ofReal_mul_I _
  have size : ∀ x : ZMod N → ℝ, ‖Sim.fft (fun j => exp (I * x j)) k‖ ≤ N := by
    intro x
    unfold Sim.fft
    refine (norm_sum_le _ _).trans ?_
    have : ∀ j : ZMod N, ‖exp (-(2 * Real.pi * I * j.val * k.val / N)) * exp (I * x j)‖ = 1 := by
      intro j
      rw [norm_mul, hnorm, one_mul, mul_comm I, Complex.norm_exp_ofReal_mul_I]
    rw [Finset.sum_congr rfl (fun j _ => this j)]
    simp
  have amp : ∀ x : ZMod N → ℝ, Sim.sidebandAmps x k = ‖Sim.fft (fun j => exp (I * x j)) k‖ ^ 2 := by
    intro x
    rw [← Complex.normSq_eq_norm_sq, Complex.normSq_apply]
    rfl
  have turn : ∀ x y : ℝ, ‖exp (I * x) - exp (I * y)‖ ≤ |x - y| := by
    intro x y
    have e : exp (I * x) - exp (I * y) = exp (I * y) * (exp (I * ((x - y : ℝ) : ℂ)) - 1) := by
      rw [mul_sub, mul_one, ← Complex.exp_add]
      congr 2
      push_cast
      ring
    rw [e, norm_mul, mul_comm I, Complex.norm_exp_ofReal_mul_I, one_mul]
    exact Real.norm_exp_I_mul_ofReal_sub_one_le
  have near : ‖Sim.fft (fun j => exp (I * φ j)) k - Sim.fft (fun j => exp (I * ψ j)) k‖ ≤ N * ε := by
    unfold Sim.fft
    rw [← Finset.sum_sub_distrib]
    refine (norm_sum_le _ _).trans ?_
    have : ∀ j ∈ (Finset.univ : Finset (ZMod N)), ‖exp (-(2 * Real.pi * I * j.val * k.val / N)) * exp (I * φ j) -
        exp (-(2 * Real.pi * I * j.val * k.val / N)) * exp (I * ψ j)‖ ≤ ε := by
      intro j _
      rw [← mul_sub, norm_mul, hnorm, one_mul]
      exact (turn _ _).trans (h j)
    refine (Finset.sum_le_sum this).trans ?_
    simp
  rw [amp, amp]
  have h1 := size φ
  have h2 := size ψ
  generalize Sim.fft (fun j => exp (I * φ j)) k = v at *
  generalize Sim.fft (fun j => exp (I * ψ j)) k = w at *
  have h3 : |‖v‖ - ‖w‖| ≤ N * ε := (abs_norm_sub_norm_le v w).trans near
  rw [← sub_div, abs_div, abs_of_pos (by positivity : (0 : ℝ) < (N : ℝ) ^ 2), div_le_iff₀ (by positivity),
    show ‖v‖ ^ 2 - ‖w‖ ^ 2 = (‖v‖ - ‖w‖) * (‖v‖ + ‖w‖) by ring, abs_mul, abs_of_nonneg (by positivity : 0 ≤ ‖v‖ + ‖w‖)]
  have h4 := mul_le_mul h3 (add_le_add h1 h2) (by positivity) ((abs_nonneg _).trans h3)
  linarith [show (N : ℝ) * ε * (N + N) = 2 * ε * N ^ 2 by ring]

/-! ## The theorems -/

theorem state_absolute (ss : List Site) (x : List ℕ) (hx : Spec.IsState ss x) : Spec.IsState (ss.map Spec.absSite) x := by
  unfold Spec.IsState at hx ⊢
  rw [List.forall₂_map_left_iff]
  exact hx

theorem upright_absolute (ss : List Site) (hs : ∀ s ∈ ss, 1 ≤ s.n) : ∀ s ∈ ss.map Spec.absSite, s.Upright ∧ 1 ≤ s.n := by
  intro s h
  obtain ⟨s', h', rfl⟩ := List.mem_map.mp h
  exact ⟨⟨abs_nonneg _, abs_nonneg _⟩, hs s' h'⟩

theorem couplings_absolute (ss : List Site) (ks : List Coupling) (hk : ∀ k ∈ ks, k.A < ss.length ∧ k.X < ss.length) :
    ∀ k ∈ ks.map Spec.absCoupling, k.Upright ∧ k.A < (ss.map Spec.absSite).length ∧ k.X < (ss.map Spec.absSite).length := by
  intro k h
  obtain ⟨k', h', rfl⟩ := List.mem_map.mp h
  rw [List.length_map]
  exact ⟨⟨abs_nonneg _, abs_nonneg _⟩, hk k' h'⟩

/-- **C75 with the constants as the source has them, partial.** The frequency at which the line is drawn is the momentary frequency averaged
over a turn of the rotor to about six digits of every interaction, and the phase at each step is the phase gathered in excess of it to as many
digits, in units of the rotor frequency.  Tilts may have any sign, but the frequency is that of the system without the signs (C73). -/
theorem C75_decimals_partial (four : Bool) (N : ℕ) (hN : 0 < N) (B0 α β θ νr : ℝ) (hν : 0 < νr) (ss : List Site)
    (ks : List Coupling) (xi xf : List ℕ) (hi : Spec.IsState ss xi) (hf : Spec.IsState ss xf)
    (hs : ∀ s ∈ ss, 1 ≤ s.n ∧ |s.eta| ≤ 1 ∧ |s.etaQ| ≤ 1) (hk : ∀ k ∈ ks, k.A < ss.length ∧ k.X < ss.length ∧ |k.eta| ≤ 1) :
    let f := Spec.momentary four B0 α β θ νr (ss.map Spec.absSite) (ks.map Spec.absCoupling) xi xf
    let t := components WC.src TC.src four B0 ss ks (Spec.quantum ss xi) (Spec.quantum ss xf)
    |localFreq WC.src four (Real.cos β) (Real.sin β) (exp (α * I)) (Real.cos θ) (Real.sin θ) t - Spec.average νr f|
      ≤ Spec.tol B0 ss ks (Spec.quantum ss xi) (Spec.quantum ss xf) ∧
    ∀ k, |crystalPhase WC.src four N νr (Real.cos β) (Real.sin β) (exp (α * I)) (Real.cos θ) (Real.sin θ) t k
        - 2 * Real.pi * ∫ τ in (0 : ℝ)..(k / (N * νr)), (f τ - Spec.average νr f)|
      ≤ 25 / 3 * Spec.tol B0 ss ks (Spec.quantum ss xi) (Spec.quantum ss xf) / νr := by
  intro f t
  have hs1 : ∀ s ∈ ss, 1 ≤ s.n := fun s h => (hs s h).1
  have hk1 : ∀ k ∈ ks, k.A < ss.length ∧ k.X < ss.length := fun k h => ⟨(hk k h).1, (hk k h).2.1⟩
  have hk2 : ∀ k ∈ ks, |k.eta| ≤ 1 := fun k h => (hk k h).2.2
  have ea := C75_average_partial four B0 α β θ νr hν _ _ xi xf (state_absolute ss xi hi) (state_absolute ss xf hf)
    (upright_absolute ss hs1) (couplings_absolute ss ks hk1)
  have ep := C75_phase_partial four N hN B0 α β θ νr hν _ _ xi xf (state_absolute ss xi hi) (state_absolute ss xf hf)
    (upright_absolute ss hs1) (couplings_absolute ss ks hk1)
  simp only [components_absolute, quantum_absolute] at ea ep
  constructor
  · rw [← ea]
    exact components_near ⟨Real.cos β, Real.sin β, exp (α * I), Real.cos θ, Real.sin θ, Real.cos_sq_add_sin_sq β, exp_norm α,
      Real.cos_sq_add_sin_sq θ⟩ four B0 ss ks hs hk2 _ _
  · intro k
    rw [← ep]
    exact phase_near four N hN B0 α β θ νr hν ss ks hs hk2 _ _ k

/-- A spin 1/2 and a spin 3/2 with a tensor that is tilted by a negative angle. -/
noncomputable def tiltedSites : List Site :=
  [⟨1, 42.5, 10, 20, 0.3, ⟨0.1, -0.2, 0.3⟩, 0, 0, ⟨0, 0, 0⟩⟩, ⟨3, 11.3, -5, 30, 0.5, ⟨0.4, 0.5, 0.6⟩, 2000000, 0.7, ⟨1, -2, 3⟩⟩]

theorem tiltedSites_ok : ∀ s ∈ tiltedSites, 1 ≤ s.n ∧ |s.eta| ≤ 1 ∧ |s.etaQ| ≤ 1 := by
  unfold tiltedSites
  intro s hs
  simp only [List.mem_cons, List.not_mem_nil, or_false] at hs
  rcases hs with rfl | rfl <;> norm_num [abs_of_nonneg]

theorem exampleCoupling_ok : ∀ k ∈ [exampleCoupling], k.A < tiltedSites.length ∧ k.X < tiltedSites.length ∧ |k.eta| ≤ 1 := by
  unfold tiltedSites exampleCoupling
  intro k hk
  simp only [List.mem_cons, List.not_mem_nil, or_false] at hk
  subst hk
  norm_num [abs_of_nonneg]

/-- The satellite transition of a spin 3/2 that is coupled to a proton, with tilts by negative angles, at 9.4 T and 10 kHz. -/
example (α β θ : ℝ) :
    |localFreq WC.src true (Real.cos β) (Real.sin β) (exp (α * I)) (Real.cos θ) (Real.sin θ)
        (components WC.src TC.src true 9.4 tiltedSites [exampleCoupling] (Spec.quantum tiltedSites [0, 3]) (Spec.quantum tiltedSites [0, 2]))
      - Spec.average 10000 (Spec.momentary true 9.4 α β θ 10000 (tiltedSites.map Spec.absSite) ([exampleCoupling].map Spec.absCoupling)
          [0, 3] [0, 2])|
      ≤ Spec.tol 9.4 tiltedSites [exampleCoupling] (Spec.quantum tiltedSites [0, 3]) (Spec.quantum tiltedSites [0, 2]) :=
  (C75_decimals_partial true 64 (by norm_num) 9.4 α β θ 10000 (by norm_num) tiltedSites [exampleCoupling] [0, 3] [0, 2]
    (by unfold Spec.IsState tiltedSites; simp) (by unfold Spec.IsState tiltedSites; simp) tiltedSites_ok exampleCoupling_ok).1

/-- C76 with the constants as the source has them, but exact exponentials. -/
theorem sideband_decimals (four : Bool) (N : ℕ) [NeZero N] (B0 α β θ νr : ℝ) (hν : 0 < νr) (ss : List Site)
    (ks : List Coupling) (xi xf : List ℕ) (hi : Spec.IsState ss xi) (hf : Spec.IsState ss xf)
    (hs : ∀ s ∈ ss, 1 ≤ s.n ∧ |s.eta| ≤ 1 ∧ |s.etaQ| ≤ 1) (hk : ∀ k ∈ ks, k.A < ss.length ∧ k.X < ss.length ∧ |k.eta| ≤ 1)
    (B : ℝ)
    (hB : ∀ τ, |Spec.momentary four B0 α β θ νr (ss.map Spec.absSite) (ks.map Spec.absCoupling) xi xf τ
      - Spec.average νr (Spec.momentary four B0 α β θ νr (ss.map Spec.absSite) (ks.map Spec.absCoupling) xi xf)| ≤ B) (m : ℤ) :
    |Sim.sidebandAmps (fun j : ZMod N =>
          crystalPhase WC.src four N νr (Real.cos β) (Real.sin β) (exp (α * I)) (Real.cos θ) (Real.sin θ)
            (components WC.src TC.src four B0 ss ks (Spec.quantum ss xi) (Spec.quantum ss xf)) j.val)
          (m : ZMod N) / (N : ℝ) ^ 2
      - Spec.sideband νr (Spec.momentary four B0 α β θ νr (ss.map Spec.absSite) (ks.map Spec.absCoupling) xi xf) m|
      ≤ 4 * Real.pi * (B / νr + |(m : ℝ)|) / N
        + 50 / 3 * Spec.tol B0 ss ks (Spec.quantum ss xi) (Spec.quantum ss xf) / νr := by
  have hN : 0 < N := Nat.pos_of_ne_zero (NeZero.ne N)
  have hs1 : ∀ s ∈ ss, 1 ≤ s.n := fun s h => (hs s h).1
  have hk1 : ∀ k ∈ ks, k.A < ss.length ∧ k.X < ss.length := fun k h => ⟨(hk k h).1, (hk k h).2.1⟩
  have hk2 : ∀ k ∈ ks, |k.eta| ≤ 1 := fun k h => (hk k h).2.2
  have h76 := C76_sidebands_partial four N B0 α β θ νr hν _ _ xi xf (state_absolute ss xi hi) (state_absolute ss xf hf)
    (upright_absolute ss hs1) (couplings_absolute ss ks hk1) B hB m
  simp only [components_absolute, quantum_absolute] at h76
  have hd := amps_near (fun j : ZMod N =>
          crystalPhase WC.src four N νr (Real.cos β) (Real.sin β) (exp (α * I)) (Real.cos θ) (Real.sin θ)
            (components WC.src TC.src four B0 ss ks (Spec.quantum ss xi) (Spec.quantum ss xf)) j.val)
    (fun j : ZMod N =>
          crystalPhase WC.exact four N νr (Real.cos β) (Real.sin β) (exp (α * I)) (Real.cos θ) (Real.sin θ)
            (components WC.exact TC.exact four B0 ss ks (Spec.quantum ss xi) (Spec.quantum ss xf)) j.val) _
    (fun j => phase_near four N hN B0 α β θ νr hν ss ks hs hk2 _ _ j.val) (m : ZMod N)
  exact (abs_sub_le _ _ _).trans ((add_le_add hd h76).trans (le_of_eq (by ring)))

/-- **C76 as the source computes it, partial.** The intensity of sideband `m` of a crystallite, with the decimals of the source for the
constants and its table for the exponentials, is the squared Fourier coefficient of the signal up to an error of which one part decreases as
`1/N`, one is about six digits of every interaction in units of the rotor frequency, and one is that of the table (C81).
Missing: the rounding of floating-point operations; tilts by negative angles are taken without the sign (C73). -/
theorem C76_source_partial (four : Bool) (N : ℕ) [NeZero N] (B0 α β θ νr : ℝ) (hν : 0 < νr) (ss : List Site)
    (ks : List Coupling) (xi xf : List ℕ) (hi : Spec.IsState ss xi) (hf : Spec.IsState ss xf)
    (hs : ∀ s ∈ ss, 1 ≤ s.n ∧ |s.eta| ≤ 1 ∧ |s.etaQ| ≤ 1) (hk : ∀ k ∈ ks, k.A < ss.length ∧ k.X < ss.length ∧ |k.eta| ≤ 1)
    (B : ℝ)
    (hB : ∀ τ, |Spec.momentary four B0 α β θ νr (ss.map Spec.absSite) (ks.map Spec.absCoupling) xi xf τ
      - Spec.average νr (Spec.momentary four B0 α β θ νr (ss.map Spec.absSite) (ks.map Spec.absCoupling) xi xf)| ≤ B)
    (n : ℕ) (hn : n ≤ 10 ^ 9) (hBn : B + 2 * Spec.tol B0 ss ks (Spec.quantum ss xi) (Spec.quantum ss xf) ≤ n * νr) (m : ℤ) :
    |Sim.sidebandAmpsTable (fun j : ZMod N =>
          crystalPhase WC.src four N νr (Real.cos β) (Real.sin β) (exp (α * I)) (Real.cos θ) (Real.sin θ)
            (components WC.src TC.src four B0 ss ks (Spec.quantum ss xi) (Spec.quantum ss xf)) j.val)
          (m : ZMod N) / (N : ℝ) ^ 2
      - Spec.sideband νr (Spec.momentary four B0 α β θ νr (ss.map Spec.absSite) (ks.map Spec.absCoupling) xi xf) m|
      ≤ 4 * Real.pi * (B / νr + |(m : ℝ)|) / N
        + 50 / 3 * Spec.tol B0 ss ks (Spec.quantum ss xi) (Spec.quantum ss xf) / νr
        + (2 * (1255 / 10 ^ 8 + n * (25 / 10 ^ 17)) + (1255 / 10 ^ 8 + n * (25 / 10 ^ 17)) ^ 2) := by
  have hN : 0 < N := Nat.pos_of_ne_zero (NeZero.ne N)
  have hNr : (0 : ℝ) < N := by exact_mod_cast hN
  have h76 := sideband_decimals four N B0 α β θ νr hν ss ks xi xf hi hf hs hk B hB m
  have h75 := (C75_decimals_partial four N hN B0 α β θ νr hν ss ks xi xf hi hf hs hk).2
  set f := Spec.momentary four B0 α β θ νr (ss.map Spec.absSite) (ks.map Spec.absCoupling) xi xf with hfdef
  set T := Spec.tol B0 ss ks (Spec.quantum ss xi) (Spec.quantum ss xf) with hT
  have hgath : ∀ j : ZMod N, |2 * Real.pi * ∫ τ in (0 : ℝ)..((j.val : ℝ) / (N * νr)), (f τ - Spec.average νr f)| ≤ 2 * Real.pi * (B / νr) := by
    intro j
    have hB0 : 0 ≤ B := (abs_nonneg _).trans (hB 0)
    have h1 := intervalIntegral.norm_integral_le_of_norm_le_const (a := 0) (b := (j.val : ℝ) / (N * νr)) (C := B)
      (f := fun τ => f τ - Spec.average νr f) (fun τ _ => hB τ)
    rw [Real.norm_eq_abs, sub_zero, abs_of_nonneg (by positivity : 0 ≤ (j.val : ℝ) / (N * νr))] at h1
    have hj : (j.val : ℝ) ≤ N := by exact_mod_cast (ZMod.val_lt j).le
    have h2 : B * ((j.val : ℝ) / (N * νr)) ≤ B / νr := by
      rw [mul_div_assoc', div_le_div_iff₀ (by positivity) hν]
      nlinarith [mul_nonneg hB0 hν.le]
    rw [abs_mul, abs_of_pos (by positivity : 0 < 2 * Real.pi)]
    exact mul_le_mul_of_nonneg_left (h1.trans h2) (by positivity)
  have hT0 : 0 ≤ T := by
    have h := h75 0
    have := (abs_nonneg _).trans h
    rw [le_div_iff₀ hν] at this
    linarith
  have h81 := Sim.C81_sidebands (fun j : ZMod N =>
          crystalPhase WC.src four N νr (Real.cos β) (Real.sin β) (exp (α * I)) (Real.cos θ) (Real.sin θ)
            (components WC.src TC.src four B0 ss ks (Spec.quantum ss xi) (Spec.quantum ss xf)) j.val) n hn (by
    intro j
    have h1 := h75 j.val
    have h2 := hgath j
    have h3 := abs_sub_abs_le_abs_sub (crystalPhase WC.src four N νr (Real.cos β) (Real.sin β) (exp (α * I)) (Real.cos θ) (Real.sin θ)
            (components WC.src TC.src four B0 ss ks (Spec.quantum ss xi) (Spec.quantum ss xf)) j.val)
      (2 * Real.pi * ∫ τ in (0 : ℝ)..((j.val : ℝ) / (N * νr)), (f τ - Spec.average νr f))
    have h4 : 2 * Real.pi * (B / νr) + 25 / 3 * T / νr ≤ 2 * Real.pi * n := by
      rw [mul_div_assoc', ← add_div, div_le_iff₀ hν]
      have hpi := Real.pi_gt_three
      nlinarith [mul_nonneg hT0 (by linarith : 0 ≤ Real.pi - 3)]
    exact (by linarith)) (m : ZMod N)
  exact (abs_sub_le _ _ _).trans ((add_le_add h81 h76).trans (le_of_eq (by ring)))

/-- An asymmetric tensor at a right angle to the field with its axes along those of the rotor: every sideband is right to better than 3 parts
in 10^5, apart from what decreases with the number of sidebands. -/
example (N : ℕ) [NeZero N] (m : ℤ) :
    |Sim.sidebandAmpsTable (fun j : ZMod N =>
          crystalPhase WC.src false N 1 (Real.cos 0) (Real.sin 0) (exp ((0 : ℝ) * I)) (Real.cos (Real.pi / 2)) (Real.sin (Real.pi / 2))
            (components WC.src TC.src false 1 [poleSite] [] (Spec.quantum [poleSite] [0]) (Spec.quantum [poleSite] [1])) j.val)
          (m : ZMod N) / (N : ℝ) ^ 2
      - Spec.sideband 1 (Spec.momentary false 1 0 0 (Real.pi / 2) 1 [poleSite] [] [0] [1]) m|
      ≤ 4 * Real.pi * (2 + |(m : ℝ)|) / N + 3 / 10 ^ 5 := by
  have hT : Spec.tol 1 [poleSite] [] (Spec.quantum [poleSite] [0]) (Spec.quantum [poleSite] [1]) ≤ 2 / 10 ^ 7 := by
    norm_num [Spec.tol, Spec.sitesTol, Spec.siteTol, Spec.edge, Spec.quantum, poleSite]
  have ha : [poleSite].map Spec.absSite = [poleSite] := by
    simp only [List.map_cons, List.map_nil, Spec.absSite, Spec.absAngles, poleSite, abs_zero]
  have hb : ∀ τ, |Spec.momentary false 1 0 0 (Real.pi / 2) 1 [poleSite] [] [0] [1] τ| ≤ 1 := by
    intro τ
    rw [poleSite_momentary, abs_le]
    have h1 := Real.neg_one_le_cos (4 * Real.pi * τ)
    have h2 := Real.cos_le_one (4 * Real.pi * τ)
    constructor <;> linarith
  have hv : |Spec.average 1 (Spec.momentary false 1 0 0 (Real.pi / 2) 1 [poleSite] [] [0] [1])| ≤ 1 := by
    unfold Spec.average
    rw [one_mul]
    have h := intervalIntegral.norm_integral_le_of_norm_le_const (a := 0) (b := 1 / 1) (C := 1)
      (f := Spec.momentary false 1 0 0 (Real.pi / 2) 1 [poleSite] [] [0] [1]) (fun τ _ => hb τ)
    simpa using h
  have h := C76_source_partial false N 1 0 0 (Real.pi / 2) 1 one_pos [poleSite] [] [0] [1]
    (by simp [Spec.IsState, poleSite]) (by simp [Spec.IsState, poleSite])
    (by
      intro s hs
      simp only [List.mem_cons, List.not_mem_nil, or_false] at hs
      subst hs
      norm_num [poleSite])
    (by simp) 2 (by
      rw [ha]
      intro τ
      exact (abs_sub _ _).trans ((add_le_add (hb τ) hv).trans (by norm_num))) 3 (by norm_num)
    (by
      refine (add_le_add le_rfl (mul_le_mul_of_nonneg_left hT zero_le_two)).trans ?_
      norm_num) m
  rw [ha, div_one, div_one] at h
  refine h.trans ?_
  norm_num at hT ⊢
  linarith

/-- **C79 with the constants as the source has them, partial.** For every orientation of the grid but the pole, the amplitude of sideband `m` is the
weight of the orientation times the squared Fourier coefficient of the signal, up to an error of which one part decreases as `1/N` and one is
about six digits of every interaction in units of the rotor frequency.  Missing: the pole (see `C79_counterexample`). -/
theorem C79_decimals_partial (four : Bool) (nt nOct N : ℕ) (hn : 1 ≤ nt) [NeZero N] (hN : 1 < N)
    (hO : nOct = 1 ∨ nOct = 4) (junk : ℕ → ℕ → ℂ) (B0 α β θ νr : ℝ) (hν : 0 < νr) (ss : List Site)
    (ks : List Coupling) (xi xf : List ℕ) (hi : Spec.IsState ss xi) (hf : Spec.IsState ss xf)
    (hs : ∀ s ∈ ss, 1 ≤ s.n ∧ |s.eta| ≤ 1 ∧ |s.etaQ| ≤ 1) (hk : ∀ k ∈ ks, k.A < ss.length ∧ k.X < ss.length ∧ |k.eta| ≤ 1)
    (B : ℝ) (hB : ∀ τ, |Spec.momentary four B0 α β θ νr (ss.map Spec.absSite) (ks.map Spec.absCoupling) xi xf τ
      - Spec.average νr (Spec.momentary four B0 α β θ νr (ss.map Spec.absSite) (ks.map Spec.absCoupling) xi xf)| ≤ B)
    (m : ℤ) (s j q : ℕ) (hj : j < nOct) (hm : (s : ℤ) ≡ m [ZMOD N])
    (p : ℕ × ℕ) (hp : (Bin.Spec.grid nt)[q]? = some p) (hl : p.1 < nt)
    (hβ : 0 ≤ β ∧ β ≤ Real.pi) (hd : Spec.Points α β (Spec.quarter j (Bin.Spec.point nt p))) :
    let t := components WC.src TC.src four B0 ss ks (Spec.quantum ss xi) (Spec.quantum ss xf)
    let w := (nt : ℝ) / Bin.Spec.len (Bin.Spec.point nt p) ^ 3 / nOct
    |amplitudeArray WC.src four nt nOct N νr (Real.cos θ) (Real.sin θ)
        (batch WC.src four nOct (fun q => (gridBeta nt q).1) (fun q => (gridBeta nt q).2) t.R2 t.R4 nOct
          (startRows four junk nt)).1 (s * (nOct * Bin.nPts nt) + j * Bin.nPts nt + q)
      - w * Spec.sideband νr (Spec.momentary four B0 α β θ νr (ss.map Spec.absSite) (ks.map Spec.absCoupling) xi xf) m|
      ≤ w * (4 * Real.pi * (B / νr + |(m : ℝ)|) / N
        + 50 / 3 * Spec.tol B0 ss ks (Spec.quantum ss xi) (Spec.quantum ss xf) / νr) := by
  intro t w
  have hmem : p.1 + p.2 ≤ nt := Bin.grid_mem nt p (List.mem_of_getElem? hp)
  have hqr : q = Bin.rank nt p := by
    have h1 := Bin.grid_get nt p.1 p.2 hmem
    have h2 := (List.getElem?_eq_some_iff.mp hp).1
    exact (List.getElem?_inj h2 (grid_nodup nt)).mp (hp.trans h1.symm)
  subst hqr
  have hw := Bin.weight_eq nt hn _ p hp
  obtain ⟨e1, e2, e3⟩ := grid_unit nt hn p hmem hl j α β (Real.sin_nonneg_of_nonneg_of_le_pi hβ.1 hβ.2) hd
  have hcast : (s : ZMod N) = (m : ZMod N) := by
    have := (ZMod.intCast_eq_intCast_iff _ _ N).mpr hm
    simpa using this
  rw [amplitude_eq WC.src four nt nOct N hO junk νr _ _ t s j _ hj (rank_lt nt p hmem), if_neg (by omega), e1, e2, e3, hw,
    hcast]
  have h := sideband_decimals four N B0 α β θ νr hν ss ks xi xf hi hf hs hk B hB m
  have hNr : (N : ℝ) ≠ 0 := Nat.cast_ne_zero.mpr (NeZero.ne N)
  have hOr : (0 : ℝ) < nOct := by rcases hO with rfl | rfl <;> norm_num
  have hw0 : 0 ≤ w := by
    have := Bin.len_pos nt hn p
    positivity
  have e : ∀ x : ℝ, x * Sim.normAmplitude N nOct ((nt : ℝ) / Bin.Spec.len (Bin.Spec.point nt p) ^ 3)
      = w * (x / (N : ℝ) ^ 2) := by
    intro x
    simp only [Sim.normAmplitude, w]
    field_simp
  rw [e, ← mul_sub, abs_mul, abs_of_nonneg hw0]
  exact mul_le_mul_of_nonneg_left h hw0

/-- Sideband -3 of 64 on a grid of density 3 with four octants, for a coupled pair with a tilt by a negative angle. -/
example (θ : ℝ) : ∃ α β B : ℝ, Spec.Points α β (Spec.quarter 2 (Bin.Spec.point 3 (1, 1))) ∧
    (let t := components WC.src TC.src true 9.4 (tiltedSites) [exampleCoupling] (Spec.quantum tiltedSites [0, 3])
        (Spec.quantum tiltedSites [0, 2])
      let w := ((3 : ℕ) : ℝ) / Bin.Spec.len (Bin.Spec.point 3 (1, 1)) ^ 3 / (4 : ℕ)
      |amplitudeArray WC.src true 3 4 64 10000 (Real.cos θ) (Real.sin θ)
          (batch WC.src true 4 (fun q => (gridBeta 3 q).1) (fun q => (gridBeta 3 q).2) t.R2 t.R4 4
            (startRows true (fun _ _ => 7) 3)).1 (61 * (4 * Bin.nPts 3) + 2 * Bin.nPts 3 + 5)
        - w * Spec.sideband 10000 (Spec.momentary true 9.4 α β θ 10000 (tiltedSites.map Spec.absSite)
            ([exampleCoupling].map Spec.absCoupling) [0, 3] [0, 2]) (-3)|
        ≤ w * (4 * Real.pi * (B / 10000 + |((-3 : ℤ) : ℝ)|) / (64 : ℕ)
          + 50 / 3 * Spec.tol 9.4 tiltedSites [exampleCoupling] (Spec.quantum tiltedSites [0, 3]) (Spec.quantum tiltedSites [0, 2]) / 10000)) := by
  obtain ⟨α, β, h0, h⟩ := polar_exist (Spec.quarter 2 (Bin.Spec.point 3 (1, 1)))
    (by rw [quarter_len]; exact Bin.len_pos 3 (by norm_num) _)
  have hi : Spec.IsState tiltedSites [0, 3] := by unfold Spec.IsState tiltedSites; simp
  have hf : Spec.IsState tiltedSites [0, 2] := by unfold Spec.IsState tiltedSites; simp
  obtain ⟨B, hB⟩ := momentary_bounded true 9.4 α β θ 10000 (by norm_num) _ _ [0, 3] [0, 2] (state_absolute _ _ hi) (state_absolute _ _ hf)
    (upright_absolute _ fun s h => (tiltedSites_ok s h).1) (couplings_absolute _ _ fun k h => ⟨(exampleCoupling_ok k h).1, (exampleCoupling_ok k h).2.1⟩)
  refine ⟨α, β, B, h, ?_⟩
  exact C79_decimals_partial true 3 4 64 (by norm_num) (by norm_num) (Or.inr rfl) _ 9.4 α β θ 10000 (by norm_num) tiltedSites
    [exampleCoupling] [0, 3] [0, 2] hi hf tiltedSites_ok exampleCoupling_ok B hB (-3) 61 2 5 (by norm_num) (by decide) (1, 1) (by decide) (by norm_num) h0 h

end MRS.Freq
