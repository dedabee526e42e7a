import Verif.Freq.Aligned

/-!
# The sidebands of every orientation — property C79

The amplitudes of the sidebands of all orientations of the grid.  At the pole the azimuth is undefined, and the code puts zero
in place of `exp(iα)`; the frequency does not depend on it (C77), the sidebands do.
-/

namespace MRS.Freq

open Complex ComplexConjugate

/-! ## The pole -/

theorem pole_half (W : WC) (l : ℕ) (hl : l = 2 ∨ l = 4) (R : ℕ → ℂ) (i : ℕ) (hi : i < l) :
    halfRotation W l 1 0 0 R i = 0 := by
  unfold halfRotation
  refine Finset.sum_eq_zero (fun j hj => ?_)
  have hj := Finset.mem_range.mp hj
  by_cases h : j = l
  · subst h
    have : wHalf W j 1 0 ((2 * j + 1) * i + j) = 0 := by
      rcases hl with rfl | rfl
      · interval_cases i <;> simp [wHalf, wigner2jHalf]
      · interval_cases i <;> simp [wHalf, wigner4jHalf, wigner4jHalfT]
    rw [this, Complex.ofReal_zero, zero_mul]
  · have : phasedHalf l 0 R j = 0 := by
      unfold phasedHalf
      split_ifs with h1
      · rw [zero_pow (by omega), mul_zero]
      · rw [zero_pow (by omega), mul_zero, map_zero, mul_zero]
    rw [this, mul_zero]

theorem pole_phase (W : WC) (four : Bool) (N : ℕ) (νr cθ sθ : ℝ) (t : Tens) (k : ℕ) :
    crystalPhase W four N νr 1 0 0 cθ sθ t k = 0 := by
  unfold crystalPhase sidebandPhase
  rw [Finset.sum_eq_zero (fun i hi => by rw [pole_half W 2 (Or.inl rfl) _ i (Finset.mem_range.mp hi), mul_zero]),
    Finset.sum_eq_zero (s := Finset.range 4)
      (fun i hi => by rw [pole_half W 4 (Or.inr rfl) _ i (Finset.mem_range.mp hi), mul_zero])]
  simp

theorem gridBeta_pole (nt : ℕ) (hn : 1 ≤ nt) : gridBeta nt (Bin.rank nt (nt, 0)) = (1, 0) := by
  unfold gridBeta Bin.expIBeta
  rw [List.getElem?_map, directions_rank nt hn _ (by simp)]
  have : (nt : ℝ) ≠ 0 := by
    have : nt ≠ 0 := by omega
    exact_mod_cast this
  simp [Bin.entry, this]

theorem sidebandAmps_zero (N : ℕ) [NeZero N] (k : ZMod N) :
    Sim.sidebandAmps (fun _ : ZMod N => 0) k = if k = 0 then (N : ℝ) ^ 2 else 0 := by
  have key : Sim.fft (fun _ : ZMod N => exp (I * ((0 : ℝ) : ℂ))) k = if k = 0 then (N : ℂ) else 0 := by
    rw [Sim.fft_eq, ZMod.dft_apply]
    simp only [Complex.ofReal_zero, mul_zero, Complex.exp_zero, smul_eq_mul, mul_one]
    have := AddChar.sum_mulShift (R := ZMod N) (-k) (ZMod.isPrimitive_stdAddChar N)
    simp only [mul_neg, neg_eq_zero, ZMod.card] at this
    split_ifs at this ⊢ <;> exact_mod_cast this
  unfold Sim.sidebandAmps
  simp only
  rw [key]
  split_ifs <;> simp [sq]

/-- **C79, where the code disagrees (1).** Whatever the interactions, the rotor angle and the rotor frequency: the crystallite at the
pole of any octant gets all its intensity in the centre band and none in the sidebands. -/
theorem C79_pole (W : WC) (four : Bool) (nt nOct N : ℕ) (hn : 1 ≤ nt) [NeZero N] (hN : 1 < N) (hO : nOct = 1 ∨ nOct = 4)
    (junk : ℕ → ℕ → ℂ) (νr cθ sθ : ℝ) (t : Tens) (s j : ℕ) (hs : s < N) (hj : j < nOct) :
    amplitudeArray W four nt nOct N νr cθ sθ (batch W four nOct (fun q => (gridBeta nt q).1)
        (fun q => (gridBeta nt q).2) t.R2 t.R4 nOct (startRows four junk nt)).1
        (s * (nOct * Bin.nPts nt) + j * Bin.nPts nt + (Bin.nPts nt - 1))
      = if s = 0 then 1 / ((nt : ℝ) * nt) / nOct else 0 := by
  have hp : Bin.rank nt (nt, 0) = Bin.nPts nt - 1 := by
    unfold Bin.rank
    dsimp only
    rw [Bin.start_last]
    omega
  have hq := rank_lt nt (nt, 0) (by simp)
  rw [← hp, amplitude_eq W four nt nOct N hO junk νr cθ sθ t s j _ hj hq, if_neg (by omega), gridBeta_pole nt hn,
    gridAlpha_eq nt hn _ (by simp), if_neg (by simp)]
  simp only [zero_mul, pole_phase, sidebandAmps_zero]
  have hz : (s : ZMod N) = 0 ↔ s = 0 := by
    rw [ZMod.natCast_eq_zero_iff]
    exact ⟨fun h => Nat.eq_zero_of_dvd_of_lt h hs, fun h => h ▸ dvd_zero N⟩
  have hw : Bin.weight nt (Bin.rank nt (nt, 0)) = 1 / ((nt : ℝ) * nt) := by
    rw [Bin.weight_eq nt hn _ _ (Bin.grid_get nt nt 0 (by simp))]
    have hlen : Bin.Spec.len (Bin.Spec.point nt (nt, 0)) = nt := by
      unfold Bin.Spec.len Bin.Spec.point
      dsimp only
      rw [show ((nt : ℝ) - nt - ((0 : ℕ) : ℝ)) ^ 2 + (((0 : ℕ) : ℝ)) ^ 2 + (nt : ℝ) ^ 2 = (nt : ℝ) ^ 2 by simp]
      exact Real.sqrt_sq (Nat.cast_nonneg _)
    rw [hlen]
    have : (nt : ℝ) ≠ 0 := by
      have : nt ≠ 0 := by omega
      exact_mod_cast this
    field_simp
  by_cases h0 : s = 0
  · rw [if_pos h0, if_pos (hz.mpr h0), hw]
    unfold Sim.normAmplitude
    have : (N : ℝ) ≠ 0 := Nat.cast_ne_zero.mpr (NeZero.ne N)
    have : (nOct : ℝ) ≠ 0 := by rcases hO with rfl | rfl <;> norm_num
    have : (nt : ℝ) ≠ 0 := by
      have : nt ≠ 0 := by omega
      exact_mod_cast this
    field_simp
  · rw [if_neg h0, if_neg (fun h => h0 (hz.mp h)), zero_mul]

/-- The default grid with 64 sidebands, four octants: the tenth sideband of the pole of the last octant. -/
example (νr : ℝ) (t : Tens) (cθ sθ : ℝ) :
    amplitudeArray WC.src true 70 4 64 νr cθ sθ (batch WC.src true 4 (fun q => (gridBeta 70 q).1)
        (fun q => (gridBeta 70 q).2) t.R2 t.R4 4 (startRows true (fun _ _ => 7) 70)).1
        (10 * (4 * Bin.nPts 70) + 3 * Bin.nPts 70 + (Bin.nPts 70 - 1)) = 0 :=
  C79_pole WC.src true 70 4 64 (by norm_num) (by norm_num) (Or.inr rfl) _ νr cθ sθ t 10 3 (by norm_num) (by norm_num)

/-! ## The other orientations -/

theorem grid_nodup (nt : ℕ) : (Bin.Spec.grid nt).Nodup := by
  unfold Bin.Spec.grid
  rw [List.nodup_flatMap]
  refine ⟨fun r _ => (List.nodup_range).map (fun a b h => by simpa using h), ?_⟩
  refine List.Pairwise.imp ?_ (List.nodup_range (n := nt + 1))
  intro r r' hr
  simp only [Function.onFun, List.disjoint_left, List.mem_map, List.mem_range]
  rintro _ ⟨c, _, rfl⟩ ⟨c', _, h⟩
  simp only [Prod.mk.injEq] at h
  omega

theorem grid_unit (nt : ℕ) (hn : 1 ≤ nt) (p : ℕ × ℕ) (hp : p.1 + p.2 ≤ nt) (hl : p.1 < nt) (j : ℕ) (α β : ℝ)
    (hβ : 0 ≤ Real.sin β) (hd : Spec.Points α β (Spec.quarter j (Bin.Spec.point nt p))) :
    (gridBeta nt (Bin.rank nt p)).1 = Real.cos β ∧ (gridBeta nt (Bin.rank nt p)).2 = Real.sin β ∧
      gridAlpha nt (Bin.rank nt p) * (-I) ^ j = exp (α * I) := by
  have hg := Bin.grid_get nt p.1 p.2 hp
  obtain ⟨g1, g2, g3⟩ := grid_angles nt hn _ p hg
  obtain ⟨p1, p2⟩ := points_len α β _ hd
  rw [quarter_len, quarter_z] at p1
  rw [quarter_len, quarter_xy] at p2
  have hc : (gridBeta nt (Bin.rank nt p)).1 = Real.cos β := by rw [g1, p1]
  have hpos : 0 < (gridBeta nt (Bin.rank nt p)).2 := by
    obtain ⟨a, b, _, hb, _, _, h3, _⟩ := Bin.C39_angles_partial nt hn _ p hg hl
    unfold gridBeta
    rw [hb]
    exact h3
  have hs : (gridBeta nt (Bin.rank nt p)).2 = Real.sin β := by
    rw [hc] at g3
    have h1 := Real.sin_sq_add_cos_sq β
    have h2 : (gridBeta nt (Bin.rank nt p)).2 ^ 2 = Real.sin β ^ 2 := by linarith
    exact (sq_eq_sq₀ hpos.le hβ).mp h2
  refine ⟨hc, hs, ?_⟩
  have h0 : (Real.sin β : ℂ) ≠ 0 := by
    rw [hs] at hpos
    exact_mod_cast hpos.ne'
  apply mul_left_cancel₀ h0
  rw [p2, ← mul_assoc, ← hs, g2]
  ring

/-- **C79, partial.** For every other orientation of one octant or four, the amplitude of sideband `m` (at a position `s` that is `m` modulo
`N`) is the weight of the orientation, divided by the number of octants, times the squared Fourier coefficient of the signal, up to an error
that decreases as `1/N`.  Missing: the pole (see `C79_counterexample`), tilts by negative angles, the tabulated decimals. -/
theorem C79_sidebands_partial (four : Bool) (nt nOct N : ℕ) (hn : 1 ≤ nt) [NeZero N] (hN : 1 < N)
    (hO : nOct = 1 ∨ nOct = 4) (junk : ℕ → ℕ → ℂ) (B0 α β θ νr : ℝ) (hν : 0 < νr) (ss : List Site)
    (ks : List Coupling) (xi xf : List ℕ) (hi : Spec.IsState ss xi) (hf : Spec.IsState ss xf)
    (hs : ∀ s ∈ ss, s.Upright ∧ 1 ≤ s.n) (hk : ∀ k ∈ ks, k.Upright ∧ k.A < ss.length ∧ k.X < ss.length)
    (B : ℝ) (hB : ∀ τ, |Spec.momentary four B0 α β θ νr ss ks xi xf τ
      - Spec.average νr (Spec.momentary four B0 α β θ νr ss ks xi xf)| ≤ B)
    (m : ℤ) (s j q : ℕ) (hj : j < nOct) (hm : (s : ℤ) ≡ m [ZMOD N])
    (p : ℕ × ℕ) (hp : (Bin.Spec.grid nt)[q]? = some p) (hl : p.1 < nt)
    (hβ : 0 ≤ β ∧ β ≤ Real.pi) (hd : Spec.Points α β (Spec.quarter j (Bin.Spec.point nt p))) :
    let t := components WC.exact TC.exact four B0 ss ks (Spec.quantum ss xi) (Spec.quantum ss xf)
    let w := (nt : ℝ) / Bin.Spec.len (Bin.Spec.point nt p) ^ 3 / nOct
    |amplitudeArray WC.exact four nt nOct N νr (Real.cos θ) (Real.sin θ)
        (batch WC.exact four nOct (fun q => (gridBeta nt q).1) (fun q => (gridBeta nt q).2) t.R2 t.R4 nOct
          (startRows four junk nt)).1 (s * (nOct * Bin.nPts nt) + j * Bin.nPts nt + q)
      - w * Spec.sideband νr (Spec.momentary four B0 α β θ νr ss ks xi xf) m|
      ≤ w * (4 * Real.pi * (B / νr + |(m : ℝ)|) / N) := by
  intro t w
  have hmem : p.1 + p.2 ≤ nt := Bin.grid_mem nt p (List.mem_of_getElem? hp)
  have hqr : q = Bin.rank nt p := by
    have h1 := Bin.grid_get nt p.1 p.2 hmem
    have h2 := (List.getElem?_eq_some_iff.mp hp).1
    exact (List.getElem?_inj h2 (grid_nodup nt)).mp (hp.trans h1.symm)
  subst hqr
  have hw := Bin.weight_eq nt hn _ p hp
  obtain ⟨e1, e2, e3⟩ := grid_unit nt hn p hmem hl j α β (Real.sin_nonneg_of_nonneg_of_le_pi hβ.1 hβ.2) hd
  have hcast : (s : ZMod N) = (m : ZMod N) := by
    have := (ZMod.intCast_eq_intCast_iff _ _ N).mpr hm
    simpa using this
  rw [amplitude_eq WC.exact four nt nOct N hO junk νr _ _ t s j _ hj (rank_lt nt p hmem), if_neg (by omega), e1, e2, e3, hw,
    hcast]
  have h := C76_sidebands_partial four N B0 α β θ νr hν ss ks xi xf hi hf hs hk B hB m
  have hNr : (N : ℝ) ≠ 0 := Nat.cast_ne_zero.mpr (NeZero.ne N)
  have hOr : (0 : ℝ) < nOct := by rcases hO with rfl | rfl <;> norm_num
  have hw0 : 0 ≤ w := by
    have := Bin.len_pos nt hn p
    positivity
  have e : ∀ x : ℝ, x * Sim.normAmplitude N nOct ((nt : ℝ) / Bin.Spec.len (Bin.Spec.point nt p) ^ 3)
      = w * (x / (N : ℝ) ^ 2) := by
    intro x
    simp only [Sim.normAmplitude, w]
    field_simp
  rw [e, ← mul_sub, abs_mul, abs_of_nonneg hw0]
  exact mul_le_mul_of_nonneg_left h hw0

/-- The pair of `exampleSites`, at a point of the third octant of four, 64 sidebands of which the third from the end is number `-3`. -/
example (θ : ℝ) : ∃ α β B, Spec.Points α β (Spec.quarter 2 (Bin.Spec.point 3 (1, 1))) ∧
    (let t := components WC.exact TC.exact true 9.4 exampleSites [exampleCoupling] (Spec.quantum exampleSites [0, 3])
        (Spec.quantum exampleSites [0, 2])
      let w := ((3 : ℕ) : ℝ) / Bin.Spec.len (Bin.Spec.point 3 (1, 1)) ^ 3 / (4 : ℕ)
      |amplitudeArray WC.exact true 3 4 64 10000 (Real.cos θ) (Real.sin θ)
          (batch WC.exact true 4 (fun q => (gridBeta 3 q).1) (fun q => (gridBeta 3 q).2) t.R2 t.R4 4
            (startRows true (fun _ _ => 7) 3)).1 (61 * (4 * Bin.nPts 3) + 2 * Bin.nPts 3 + 5)
        - w * Spec.sideband 10000 (Spec.momentary true 9.4 α β θ 10000 exampleSites [exampleCoupling] [0, 3] [0, 2]) (-3)|
        ≤ w * (4 * Real.pi * (B / 10000 + |((-3 : ℤ) : ℝ)|) / (64 : ℕ))) := by
  obtain ⟨α, β, h0, h⟩ := polar_exist (Spec.quarter 2 (Bin.Spec.point 3 (1, 1)))
    (by rw [quarter_len]; exact Bin.len_pos 3 (by norm_num) _)
  have hi : Spec.IsState exampleSites [0, 3] := by unfold Spec.IsState exampleSites; simp
  have hf : Spec.IsState exampleSites [0, 2] := by unfold Spec.IsState exampleSites; simp
  have hs : ∀ s ∈ exampleSites, s.Upright ∧ 1 ≤ s.n := by
    unfold exampleSites Site.Upright
    intro s hs
    simp only [List.mem_cons, List.not_mem_nil, or_false] at hs
    rcases hs with rfl | rfl <;> norm_num
  have hk : ∀ k ∈ [exampleCoupling], k.Upright ∧ k.A < exampleSites.length ∧ k.X < exampleSites.length := by
    unfold exampleSites exampleCoupling Coupling.Upright
    intro k hk
    simp only [List.mem_cons, List.not_mem_nil, or_false] at hk
    subst hk
    norm_num
  obtain ⟨B, hB⟩ := momentary_bounded true 9.4 α β θ 10000 (by norm_num) exampleSites [exampleCoupling] [0, 3] [0, 2] hi hf hs hk
  refine ⟨α, β, B, h, ?_⟩
  exact C79_sidebands_partial true 3 4 64 (by norm_num) (by norm_num) (Or.inr rfl) _ 9.4 α β θ 10000 (by norm_num) exampleSites
    [exampleCoupling] [0, 3] [0, 2] hi hf hs hk B hB (-3) 61 2 5 (by norm_num) (by decide) (1, 1) (by decide) (by norm_num) h0 h

/-- A site with an asymmetric shift tensor. -/
noncomputable def poleSite : Site := ⟨1, -1, 0, 1, 1, ⟨0, 0, 0⟩, 0, 0, ⟨0, 0, 0⟩⟩

theorem poleSite_momentary (τ : ℝ) :
    Spec.momentary false 1 0 0 (Real.pi / 2) 1 [poleSite] [] [0] [1] τ = 1 / 2 + 1 / 2 * Real.cos (4 * Real.pi * τ) := by
  have hc : Real.cos (4 * Real.pi * τ) = 2 * Real.cos (2 * Real.pi * τ) ^ 2 - 1 := by
    rw [← Real.cos_two_mul]
    ring_nf
  rw [hc]
  simp [Spec.momentary, Spec.energy, Spec.siteEnergy, Spec.field, Spec.spun, poleSite, Spec.mag, Spec.along, Spec.haeberlen,
    Spec.seen, Spec.euler, Spec.Rz, Spec.Ry, Matrix.mulVec, dotProduct, Fin.sum_univ_three, Matrix.mul_apply,
    Matrix.diagonal, Spec.quantum]
  ring

theorem poleSite_gathered (t : ℝ) :
    Spec.gathered 1 (Spec.momentary false 1 0 0 (Real.pi / 2) 1 [poleSite] [] [0] [1]) t
      = 1 / 4 * Real.sin (4 * Real.pi * t) := by
  have hpi : Real.pi ≠ 0 := Real.pi_ne_zero
  have hint : ∀ c x : ℝ, ∫ τ in (0 : ℝ)..x, (c + 1 / 2 * Real.cos (4 * Real.pi * τ))
      = c * x + 1 / (8 * Real.pi) * Real.sin (4 * Real.pi * x) := by
    intro c x
    have hd : ∀ y : ℝ, HasDerivAt (fun y => c * y + 1 / (8 * Real.pi) * Real.sin (4 * Real.pi * y))
        (c + 1 / 2 * Real.cos (4 * Real.pi * y)) y := by
      intro y
      have h1 : HasDerivAt (fun y : ℝ => 4 * Real.pi * y) (4 * Real.pi) y := by
        simpa using (hasDerivAt_id y).const_mul (4 * Real.pi)
      have h2 := ((hasDerivAt_id y).const_mul c).add (h1.sin.const_mul (1 / (8 * Real.pi)))
      refine h2.congr_deriv ?_
      field_simp
      ring
    rw [intervalIntegral.integral_eq_sub_of_hasDerivAt (fun y _ => hd y)
      ((by fun_prop : Continuous fun τ : ℝ => c + 1 / 2 * Real.cos (4 * Real.pi * τ)).intervalIntegrable _ _)]
    simp
  unfold Spec.gathered Spec.average
  simp only [poleSite_momentary]
  rw [hint (1 / 2)]
  have h4 : Real.sin (4 * Real.pi * (1 / 1)) = 0 := by
    rw [show 4 * Real.pi * (1 / 1) = (4 : ℕ) * Real.pi by push_cast; ring]
    exact Real.sin_nat_mul_pi 4
  rw [h4]
  have : (fun τ : ℝ => 1 / 2 + 1 / 2 * Real.cos (4 * Real.pi * τ) - 1 * (1 / 2 * (1 / 1) + 1 / (8 * Real.pi) * 0))
      = fun τ => 0 + 1 / 2 * Real.cos (4 * Real.pi * τ) := by
    funext τ
    ring
  rw [this, hint 0]
  field_simp
  ring

/-- **C79, where the code disagrees (2).** A crystallite with its axes along those of the rotor does have sidebands: the second of
this site, at a right angle to the field, has a positive intensity, but (by `C79_pole`) the amplitude of the pole is zero
there for every number of sidebands. -/
theorem C79_counterexample :
    0 < Spec.sideband 1 (Spec.momentary false 1 0 0 (Real.pi / 2) 1 [poleSite] [] [0] [1]) 2 ∧
    ∀ (nt N : ℕ) [NeZero N] (junk : ℕ → ℕ → ℂ), 1 ≤ nt → 2 < N →
      let t := components WC.exact TC.exact false 1 [poleSite] [] (Spec.quantum [poleSite] [0]) (Spec.quantum [poleSite] [1])
      amplitudeArray WC.exact false nt 1 N 1 (Real.cos (Real.pi / 2)) (Real.sin (Real.pi / 2))
        (batch WC.exact false 1 (fun q => (gridBeta nt q).1) (fun q => (gridBeta nt q).2) t.R2 t.R4 1
          (startRows false junk nt)).1 (2 * (1 * Bin.nPts nt) + (Bin.nPts nt - 1)) = 0 := by
  constructor
  · unfold Spec.sideband
    simp only [poleSite_gathered]
    set g : ℝ → ℂ := fun t => exp (((1 / 4 * Real.sin (4 * Real.pi * t) - 2 * Real.pi * ((2 : ℤ) : ℝ) * 1 * t : ℝ) : ℂ) * I)
      with hg
    have hcont : Continuous g := by
      rw [hg]
      fun_prop
    have hlow : ∀ t : ℝ, Real.cos (4 * Real.pi * t) + 1 / 4 * Real.sin (4 * Real.pi * t) ^ 2 - 1 / 16 ≤ (g t).re := by
      intro t
      set x := 4 * Real.pi * t with hx
      have e : g t = exp (((1 / 4 * Real.sin x : ℝ) : ℂ) * I) * exp (((-x : ℝ) : ℂ) * I) := by
        rw [hg, ← Complex.exp_add]
        simp only
        congr 1
        rw [hx]
        push_cast
        ring
      set z : ℂ := ((1 / 4 * Real.sin x : ℝ) : ℂ) * I with hz
      have hnz : ‖z‖ ≤ 1 / 4 := by
        rw [hz, norm_mul, Complex.norm_I, mul_one, Complex.norm_real, Real.norm_eq_abs, abs_mul]
        have := Real.abs_sin_le_one x
        rw [abs_of_pos (by norm_num : (0 : ℝ) < 1 / 4)]
        linarith
      have hr : ‖exp z - 1 - z‖ ≤ 1 / 16 := by
        refine (Complex.norm_exp_sub_one_sub_id_le (by linarith)).trans ?_
        nlinarith [norm_nonneg z]
      have hE : ‖exp (((-x : ℝ) : ℂ) * I)‖ = 1 := Complex.norm_exp_ofReal_mul_I _
      have hre : -(1 / 16) ≤ ((exp z - 1 - z) * exp (((-x : ℝ) : ℂ) * I)).re := by
        have h1 := Complex.abs_re_le_norm ((exp z - 1 - z) * exp (((-x : ℝ) : ℂ) * I))
        rw [norm_mul, hE, mul_one] at h1
        have := (abs_le.mp (h1.trans hr)).1
        linarith
      have hsplit : (g t).re = ((exp z - 1 - z) * exp (((-x : ℝ) : ℂ) * I)).re
          + ((1 + z) * exp (((-x : ℝ) : ℂ) * I)).re := by
        rw [← Complex.add_re, e]
        congr 1
        ring
      have hm : ((1 + z) * exp (((-x : ℝ) : ℂ) * I)).re = Real.cos x + 1 / 4 * Real.sin x ^ 2 := by
        rw [exp_parts, hz, Real.cos_neg, Real.sin_neg, Complex.mul_re]
        simp only [Complex.add_re, Complex.add_im, Complex.one_re, Complex.one_im, Complex.mul_I_re, Complex.mul_I_im,
          Complex.ofReal_re, Complex.ofReal_im]
        ring
      linarith
    have hint : ∫ t in (0 : ℝ)..1, (Real.cos (4 * Real.pi * t) + 1 / 4 * Real.sin (4 * Real.pi * t) ^ 2 - 1 / 16)
        = 1 / 16 := by
      have hpi : Real.pi ≠ 0 := Real.pi_ne_zero
      have hd : ∀ y : ℝ, HasDerivAt (fun y => 1 / (4 * Real.pi) * Real.sin (4 * Real.pi * y)
            - 1 / (64 * Real.pi) * Real.sin (8 * Real.pi * y) + 1 / 16 * y)
          (Real.cos (4 * Real.pi * y) + 1 / 4 * Real.sin (4 * Real.pi * y) ^ 2 - 1 / 16) y := by
        intro y
        have h1 : HasDerivAt (fun y : ℝ => 4 * Real.pi * y) (4 * Real.pi) y := by
          simpa using (hasDerivAt_id y).const_mul (4 * Real.pi)
        have h2 : HasDerivAt (fun y : ℝ => 8 * Real.pi * y) (8 * Real.pi) y := by
          simpa using (hasDerivAt_id y).const_mul (8 * Real.pi)
        have h3 := ((h1.sin.const_mul (1 / (4 * Real.pi))).sub (h2.sin.const_mul (1 / (64 * Real.pi)))).add
          ((hasDerivAt_id y).const_mul (1 / 16))
        refine h3.congr_deriv ?_
        rw [show 8 * Real.pi * y = 2 * (4 * Real.pi * y) by ring, Real.cos_two_mul, Real.sin_sq]
        field_simp
        ring
      rw [intervalIntegral.integral_eq_sub_of_hasDerivAt (fun y _ => hd y)
        ((by fun_prop : Continuous fun t : ℝ =>
          Real.cos (4 * Real.pi * t) + 1 / 4 * Real.sin (4 * Real.pi * t) ^ 2 - 1 / 16).intervalIntegrable _ _)]
      have h4 : Real.sin (4 * Real.pi * 1) = 0 := by
        rw [show 4 * Real.pi * 1 = (4 : ℕ) * Real.pi by push_cast; ring]
        exact Real.sin_nat_mul_pi 4
      have h8 : Real.sin (8 * Real.pi * 1) = 0 := by
        rw [show 8 * Real.pi * 1 = (8 : ℕ) * Real.pi by push_cast; ring]
        exact Real.sin_nat_mul_pi 8
      rw [h4, h8]
      simp
    have hpos : 0 < (∫ t in (0 : ℝ)..1, g t).re := by
      have h1 : (∫ t in (0 : ℝ)..1, g t).re = ∫ t in (0 : ℝ)..1, (g t).re := by
        have := Complex.reCLM.intervalIntegral_comp_comm (hcont.intervalIntegrable (μ := MeasureTheory.volume) 0 1)
        exact this.symm
      have h2 := intervalIntegral.integral_mono (μ := MeasureTheory.volume) (a := (0 : ℝ)) (b := 1) zero_le_one
        ((by fun_prop : Continuous fun t : ℝ =>
          Real.cos (4 * Real.pi * t) + 1 / 4 * Real.sin (4 * Real.pi * t) ^ 2 - 1 / 16).intervalIntegrable _ _)
        ((Complex.continuous_re.comp hcont).intervalIntegrable _ _) hlow
      rw [h1]
      rw [hint] at h2
      exact lt_of_lt_of_le (by norm_num) h2
    have hne : (∫ t in (0 : ℝ)..1, g t) ≠ 0 := by
      intro h
      rw [h] at hpos
      simp at hpos
    have : (0 : ℝ) < ‖((1 : ℝ) : ℂ) * ∫ t in (0 : ℝ)..(1 / 1), g t‖ := by
      rw [Complex.ofReal_one, one_mul, one_div_one]
      exact norm_pos_iff.mpr hne
    positivity
  · intro nt N _ junk hn hN t
    have h := C79_pole WC.exact false nt 1 N hn (by omega) (Or.inl rfl) junk 1 (Real.cos (Real.pi / 2))
      (Real.sin (Real.pi / 2)) t 2 0 (by omega) (by norm_num)
    rw [Nat.zero_mul, Nat.add_zero, if_neg (by norm_num)] at h
    exact h

end MRS.Freq
