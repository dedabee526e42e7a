import Verif.Freq.System

/-!
# Reading a frequency off tensor components

What the static (C73) and the spinning sample (C75) have in common: a pair of linear maps that take the components of
the ranks 2 and 4 to what they contribute when `M` turns the laboratory frame into the common frame.
-/

namespace MRS.Freq

open Complex ComplexConjugate Matrix

/-- The fourth-rank part of a second-order frequency in terms of the gradient. -/
noncomputable def quad4 (V : Matrix (Fin 3) (Fin 3) ℝ) : ℝ :=
  ((V 0 0 - V 1 1) ^ 2 + 4 * V 0 1 ^ 2) / 3 - 16 / 3 * (V 0 2 ^ 2 + V 1 2 ^ 2) + 6 * V 2 2 ^ 2

/-- Linear maps that read the laboratory component of a tensor. -/
structure View (M : Matrix (Fin 3) (Fin 3) ℝ) where
  g2 : (ℕ → ℂ) → ℝ
  g4 : (ℕ → ℂ) → ℝ
  orth : M * Mᵀ = 1
  add2 : ∀ R R', g2 (fun i => R i + R' i) = g2 R + g2 R'
  add4 : ∀ R R', g4 (fun i => R i + R' i) = g4 R + g4 R'
  smul2 : ∀ (x : ℝ) R, g2 (fun i => x * R i) = x * g2 R
  smul4 : ∀ (x : ℝ) R, g4 (fun i => x * R i) = x * g4 R
  two : ∀ A : Matrix (Fin 3) (Fin 3) ℝ, A.IsSymm → A.trace = 0 → ∀ R : ℕ → ℂ, (∀ i < 5, R i = Spec.sph A i) →
    g2 R = Spec.along A (M *ᵥ ![0, 0, 1])
  four : ∀ A : Matrix (Fin 3) (Fin 3) ℝ, A.IsSymm → A.trace = 0 → ∀ (x : ℝ) (R : ℕ → ℂ),
    (∀ i < 9, R i = x * sq4 (Spec.sph A) i) → g4 R = x * quad4 (Mᵀ * A * M)

namespace View

variable {M : Matrix (Fin 3) (Fin 3) ℝ} (v : View M)

/-- The frequency that is read off. -/
noncomputable def freq (four : Bool) (t : Tens) : ℝ := t.R0 + v.g2 t.R2 + if four then v.g4 t.R4 else 0

theorem zero2 : v.g2 (fun _ => 0) = 0 := by
  have := v.smul2 0 (fun _ => 0)
  simpa using this

theorem zero4 : v.g4 (fun _ => 0) = 0 := by
  have := v.smul4 0 (fun _ => 0)
  simpa using this

theorem freq_zero (four : Bool) : v.freq four zeroT = 0 := by
  simp [freq, zeroT, zero2, zero4]

theorem freq_add (four : Bool) (s t : Tens) : v.freq four (addT s t) = v.freq four s + v.freq four t := by
  unfold freq addT
  simp only [v.add2, v.add4]
  split_ifs <;> ring

theorem freq_fcf (four : Bool) (x : ℝ) (t : Tens) : v.freq four (fcf x t) = x * v.freq four t := by
  unfold fcf
  split_ifs with h
  · rw [h, zero_mul, freq_zero]
  · unfold freq scaleT
    simp only [v.smul2, v.smul4]
    split_ifs <;> ring

theorem toFrame_two (A : Matrix (Fin 3) (Fin 3) ℝ) (hA : A.IsSymm) (ht : A.trace = 0) (Θ : Angles)
    (hβ : 0 ≤ Θ.β) (R : ℕ → ℂ) (hR : ∀ i < 5, R i = Spec.sph A i) :
    v.g2 (toFrame WC.exact 2 Θ R) = Spec.along A (Spec.seen Θ (Spec.field M)) := by
  have hM := euler_orth Θ.α Θ.β Θ.γ
  rw [v.two _ (symm_conj A (Spec.euler Θ.α Θ.β Θ.γ) hA) ((trace_conj A _ hM).trans ht) _
    (fun i hi => toFrame_sph A hA ht Θ hβ R hR i hi), along_conj]
  rfl

theorem freq_two (four : Bool) (A : Matrix (Fin 3) (Fin 3) ℝ) (hA : A.IsSymm) (ht : A.trace = 0) (Θ : Angles)
    (hβ : 0 ≤ Θ.β) (R : ℕ → ℂ) (hR : ∀ i < 5, R i = Spec.sph A i) (r0 : ℝ) :
    v.freq four ⟨r0, toFrame WC.exact 2 Θ R, fun _ => 0⟩ = r0 + Spec.along A (Spec.seen Θ (Spec.field M)) := by
  unfold freq
  rw [v.toFrame_two A hA ht Θ hβ R hR, zero4, ite_self, add_zero]

theorem shielding (four : Bool) (B0 : ℝ) (s : Site) (hβ : 0 ≤ s.Θs.β) (mf mi : ℝ) :
    v.freq four (shieldingPart WC.exact TC.exact B0 s mf mi)
      = -B0 * s.gamma * (mf - mi) * (s.iso
          - Spec.along (Spec.haeberlen s.zeta s.eta) (Spec.seen s.Θs (Spec.field M))) := by
  unfold shieldingPart ssotShielding
  rw [freq_fcf, v.freq_two four ((-larmor B0 s) • Spec.haeberlen s.zeta s.eta)
    ((haeberlen_symm _ _).smul _) (by rw [Matrix.trace_smul, haeberlen_trace, smul_zero]) s.Θs hβ _
    (pas2_sph _ _ _ _ _ (by ring) (by unfold TC.exact; simp only; ring)), along_smul]
  unfold stfP larmor
  ring

theorem j (four : Bool) (k : Coupling) (hβ : 0 ≤ k.Θj.β) (mIf mIi mSf mSi : ℝ) :
    v.freq four (jPart WC.exact TC.exact k mIf mIi mSf mSi)
      = (mIf * mSf - mIi * mSi) * (k.J
          + Spec.along (Spec.haeberlen k.zeta k.eta) (Spec.seen k.Θj (Spec.field M))) := by
  unfold jPart ssotJ
  rw [freq_fcf, v.freq_two four ((1 : ℝ) • Spec.haeberlen k.zeta k.eta)
    ((haeberlen_symm _ _).smul _) (by rw [Matrix.trace_smul, haeberlen_trace, smul_zero]) k.Θj hβ _
    (pas2_sph _ _ _ _ _ (by ring) (by unfold TC.exact; simp only; ring)), along_smul]
  unfold stfDIS
  ring

theorem field_norm (hM : M * Mᵀ = 1) (Θ : Angles) :
    Spec.seen Θ (Spec.field M) 0 ^ 2 + Spec.seen Θ (Spec.field M) 1 ^ 2 + Spec.seen Θ (Spec.field M) 2 ^ 2 = 1 := by
  have hN := mul_orth _ _ (euler_orth Θ.α Θ.β Θ.γ) hM
  have hN' : (Spec.euler Θ.α Θ.β Θ.γ * M)ᵀ * (Spec.euler Θ.α Θ.β Θ.γ * M) = 1 := mul_eq_one_comm.mp hN
  have h := along_frame 1 M Θ
  rw [Matrix.mul_one, hN', Matrix.one_apply_eq] at h
  have h' : Spec.along 1 (Spec.seen Θ (Spec.field M)) = 1 := h
  simpa [Spec.along, dotProduct, Fin.sum_univ_three, pow_two] using h'

theorem dipolar (four : Bool) (k : Coupling) (hβ : 0 ≤ k.Θd.β) (mIf mIi mSf mSi : ℝ) :
    v.freq four (dipolarPart WC.exact k mIf mIi mSf mSi)
      = (mIf * mSf - mIi * mSi) * (k.D * (3 * (Spec.seen k.Θd (Spec.field M) 2) ^ 2 - 1)) := by
  unfold dipolarPart ssotDipolar
  rw [freq_fcf, v.freq_two four ((2 * k.D) • Spec.haeberlen 1 0)
    ((haeberlen_symm _ _).smul _) (by rw [Matrix.trace_smul, haeberlen_trace, smul_zero]) k.Θd hβ _
    (pas2_sph _ _ _ _ _ (by ring) (by ring)), along_smul]
  have h := field_norm v.orth k.Θd
  have ha : Spec.along (Spec.haeberlen 1 0) (Spec.seen k.Θd (Spec.field M))
      = (3 * (Spec.seen k.Θd (Spec.field M) 2) ^ 2 - 1) / 2 := by
    simp [Spec.along, Spec.haeberlen, dotProduct, Fin.sum_univ_three, Matrix.mulVec_diagonal]
    linarith
  rw [ha]
  unfold stfDIS
  ring

theorem quadrupole (four : Bool) (s : Site) (hβ : 0 ≤ s.Θq.β) (f i : Fin (s.n + 1)) :
    v.freq four (quad1Part WC.exact TC.exact s (Spec.mag s.n f) (Spec.mag s.n i))
      = Spec.E1 (Spec.quadH s.n s.Cq (Spec.gradient s.etaQ s.Θq M)) f
        - Spec.E1 (Spec.quadH s.n s.Cq (Spec.gradient s.etaQ s.Θq M)) i := by
  have m6 : √(6 : ℝ) ≠ 0 := by positivity
  have h6 : √(6 : ℝ) ^ 2 = 6 := Real.sq_sqrt (by norm_num)
  unfold quad1Part ssotQuad1
  rw [freq_fcf, v.freq_two four ((vq (s.n / 2) s.Cq / √6) • Spec.haeberlen 1 s.etaQ)
    ((haeberlen_symm _ _).smul _) (by rw [Matrix.trace_smul, haeberlen_trace, smul_zero]) s.Θq hβ _
    (pas2_sph _ _ _ _ _ (by unfold TC.exact; simp only; ring)
      (by unfold TC.exact; simp only; field_simp; rw [h6]; ring)), along_smul]
  rw [E1_quad _ _ _ (gradient_symm _ _ _) (gradient_trace _ _ _ v.orth),
    E1_quad _ _ _ (gradient_symm _ _ _) (gradient_trace _ _ _ v.orth), vq_cfac]
  unfold Spec.field
  rw [along_frame]
  have hV : ((Spec.euler s.Θq.α s.Θq.β s.Θq.γ * M)ᵀ * Spec.haeberlen 1 s.etaQ
      * (Spec.euler s.Θq.α s.Θq.β s.Θq.γ * M)) 2 2 = Spec.gradient s.etaQ s.Θq M 2 2 := rfl
  rw [hV]
  have hd : TC.exact.d = √6 / 2 := by
    unfold TC.exact
    simp only
    rw [show (3 / 2 : ℝ) = 6 / 2 ^ 2 by norm_num, Real.sqrt_div' _ (by norm_num), Real.sqrt_sq (by norm_num)]
  unfold stfD
  rw [hd]
  field_simp
  ring

theorem toFrame_four (η scale : ℝ) (Θ : Angles) (hβ : 0 ≤ Θ.β) :
    v.g4 (toFrame WC.exact 4 Θ (pas4 (η * η * TC.exact.k4a * scale) (-TC.exact.k4b * η * scale)
        (TC.exact.k4c * scale * (η * η * TC.exact.k4d + 1))))
      = TC.exact.k4c * scale / 6 * quad4 (Spec.gradient η Θ M) := by
  set x : ℂ := ((TC.exact.k4c * scale / 6 : ℝ) : ℂ) with hx
  have hA := haeberlen_symm 1 η
  have ht := haeberlen_trace 1 η
  have h1 : ∀ j < 9, toFrame WC.exact 4 Θ (pas4 (η * η * TC.exact.k4a * scale) (-TC.exact.k4b * η * scale)
        (TC.exact.k4c * scale * (η * η * TC.exact.k4d + 1))) j
      = x * sq4 (Spec.sph ((Spec.euler Θ.α Θ.β Θ.γ)ᵀ * Spec.haeberlen 1 η * Spec.euler Θ.α Θ.β Θ.γ)) j := by
    intro j hj
    rw [toFrame_eq WC.exact 4 (Or.inr rfl) Θ _ j (by omega),
      rot_congr WC.exact 4 _ _ _ _ (fun k => x * sq4 (Spec.sph (Spec.haeberlen 1 η)) k)
        (fun k hk => pas4_sq4 η scale k (by omega)), rot_smul, rot_sq4 _ _ _ _ j hj]
    refine congrArg (x * ·) (congrFun (sq4_congr _ _ fun i hi => ?_) j)
    rw [rotation_cartesian _ hA ht _ _ _ _ (fun _ _ => rfl) i hi, abs_of_nonneg hβ]
  rw [v.four _ (symm_conj _ _ hA) ((trace_conj _ _ (euler_orth _ _ _)).trans ht) _ _ h1]
  congr 2
  unfold Spec.gradient
  simp only [Matrix.transpose_mul, Matrix.mul_assoc]

theorem quad2_lab (spin v0 Cq η : ℝ) (Θ : Angles) (hβ : 0 ≤ Θ.β) (c0 c2 c4 : ℝ) :
    v.freq true (fcfQuad2 c0 c2 c4 (ssotQuad2 WC.exact TC.exact spin v0 Cq η Θ))
      = vq spin Cq * vq spin Cq / v0 *
        (c0 * TC.exact.k0 * (2 / 3 * ((3 + η ^ 2) / 2))
          + c2 * TC.exact.k2b * (-2 *
            (Spec.gradient η Θ M 0 2 ^ 2 + Spec.gradient η Θ M 1 2 ^ 2 + Spec.gradient η Θ M 2 2 ^ 2
              - (3 + η ^ 2) / 6))
          + c4 * TC.exact.k4c / 6 * quad4 (Spec.gradient η Θ M)) := by
  set s := vq spin Cq * vq spin Cq / v0 with hs
  have h21 := sqrt_facts.2.2.2.2.2.2.2.2
  have m6 : √(6 : ℝ) ≠ 0 := by positivity
  have m7 : √(7 : ℝ) ≠ 0 := by positivity
  have h2p : ∀ i < 5, pas2 (-η * TC.exact.k2a * s) (TC.exact.k2b * s * (η * η * TC.exact.t3 - 1)) i
      = Spec.sph ((-2 * TC.exact.k2b * s) • sqA η) i := by
    intro i hi
    rw [← sqA_sph _ _ i hi]
    congr 1
    · unfold TC.exact
      simp only [h21]
      field_simp
      ring
    · unfold TC.exact
      simp only
      ring
  have e2 : v.g2 (toFrame WC.exact 2 Θ
      (pas2 (-η * TC.exact.k2a * s) (TC.exact.k2b * s * (η * η * TC.exact.t3 - 1))))
      = -2 * TC.exact.k2b * s * (Spec.gradient η Θ M 0 2 ^ 2 + Spec.gradient η Θ M 1 2 ^ 2
          + Spec.gradient η Θ M 2 2 ^ 2 - (3 + η ^ 2) / 6) := by
    rw [v.toFrame_two _ (sqA_symm _ η) (sqA_trace _ η) Θ hβ _ h2p, along_smul, ← (gradient_inv η Θ M v.orth).1]
    rfl
  have e4 := v.toFrame_four η s Θ hβ
  unfold freq fcfQuad2 ssotQuad2
  simp only [v.smul2, v.smul4, if_true, ← hs]
  rw [e2, e4]
  unfold TC.exact
  simp only
  ring

theorem second_order (n : ℕ) (v0 Cq η : ℝ) (Θ : Angles) (hβ : 0 ≤ Θ.β) (f i : Fin (n + 1)) :
    v.freq true (fcfQuad2 (stfCL TC.exact (Spec.mag n f) (Spec.mag n i) (n / 2)).1
          (stfCL TC.exact (Spec.mag n f) (Spec.mag n i) (n / 2)).2.1
          (stfCL TC.exact (Spec.mag n f) (Spec.mag n i) (n / 2)).2.2
          (ssotQuad2 WC.exact TC.exact (n / 2) v0 Cq η Θ))
      = Spec.E2 (Spec.quadH n Cq (Spec.gradient η Θ M)) v0 f
        - Spec.E2 (Spec.quadH n Cq (Spec.gradient η Θ M)) v0 i := by
  obtain ⟨q1, q2, q3, q4, q5, q6⟩ := const_products
  have hs := gradient_symm η Θ M
  have ht := gradient_trace η Θ M v.orth
  have hinv := (gradient_inv η Θ M v.orth).2
  rw [v.quad2_lab _ _ _ _ _ hβ, E2_quad n Cq _ hs ht, E2_quad n Cq _ hs ht, vq_cfac, hinv,
    show (3 + η ^ 2) / 6 = ((3 + η ^ 2) / 2) / 3 by ring, hinv]
  have hf : ((f : ℕ) : ℝ) = Spec.mag n f + n / 2 := by unfold Spec.mag; ring
  have hi : ((i : ℕ) : ℝ) = Spec.mag n i + n / 2 := by unfold Spec.mag; ring
  rw [hf, hi]
  unfold stfCL stfF stfP quad4
  simp only
  generalize Spec.mag n f = mf
  generalize Spec.mag n i = mi
  generalize Spec.cfac n Cq = c
  generalize Spec.gradient η Θ M 0 2 ^ 2 + Spec.gradient η Θ M 1 2 ^ 2 = V1
  generalize (Spec.gradient η Θ M 0 0 - Spec.gradient η Θ M 1 1) ^ 2 + 4 * Spec.gradient η Θ M 0 1 ^ 2 = V2
  generalize Spec.gradient η Θ M 2 2 = V0
  obtain ⟨S, hS⟩ : ∃ S : ℝ, (n : ℝ) = 2 * S := ⟨n / 2, by ring⟩
  rw [hS, mul_div_cancel_left₀ S two_ne_zero]
  have r0 : ∀ X Y : ℝ, (TC.exact.p0 * X + TC.exact.f0 * (Y * TC.exact.f)) * TC.exact.k0 = 2 / 75 * X + 1 / 50 * Y :=
    fun X Y => by linear_combination X * q1 + Y * q2
  have r2 : ∀ X Y : ℝ, (TC.exact.p2 * X + TC.exact.f2 * (Y * TC.exact.f)) * TC.exact.k2b = 1 / 105 * X - 1 / 35 * Y :=
    fun X Y => by linear_combination X * q3 + Y * q4
  have r4 : ∀ X Y : ℝ,
      (TC.exact.p4 * X + TC.exact.f4 * (Y * TC.exact.f)) * TC.exact.k4c = -3 / 175 * X - 17 / 350 * Y :=
    fun X Y => by linear_combination X * q5 + Y * q6
  rw [r0, r2, r4]
  ring

theorem site (four : Bool) (B0 : ℝ) (t : Tens) (s : Site) (hs : s.Upright) (hn : 1 ≤ s.n) (f i : Fin (s.n + 1)) :
    v.freq four (addSite WC.exact TC.exact four B0 t s (Spec.mag s.n f) (Spec.mag s.n i))
      = v.freq four t + (Spec.siteEnergy four B0 M s f - Spec.siteEnergy four B0 M s i) := by
  have h1 := v.shielding four B0 s hs.1 (Spec.mag s.n f) (Spec.mag s.n i)
  have h2 := v.quadrupole four s hs.2 f i
  unfold addSite Spec.siteEnergy
  by_cases hfi : Spec.mag s.n i = Spec.mag s.n f
  · have : i = f := by
      unfold Spec.mag at hfi
      have : (i : ℝ) = f := by linarith
      exact Fin.ext (by exact_mod_cast this)
    subst this
    simp
  · rw [if_neg hfi]
    by_cases h0 : s.n = 1
    · simp only [if_pos h0, if_pos (le_of_eq h0)]
      rw [freq_add, h1]
      ring
    · have h0' : ¬ s.n ≤ 1 := by omega
      simp only [if_neg h0, if_neg h0']
      cases four
      · simp only [Bool.false_eq_true, if_false]
        rw [freq_add, freq_add, h1, h2]
        ring
      · simp only [if_true]
        have h3 := v.second_order s.n (larmor B0 s * 1e6) s.Cq s.etaQ s.Θq hs.2 f i
        have e6 : larmor B0 s * 1e6 = -B0 * s.gamma * 10 ^ 6 := by unfold larmor; norm_num
        rw [freq_add, freq_add, freq_add, h1, h2]
        unfold quad2Part
        simp only
        rw [h3, e6]
        ring

theorem sites (four : Bool) (B0 : ℝ) (ss : List Site) (xi xf : List ℕ) (hi : Spec.IsState ss xi)
    (hf : Spec.IsState ss xf) (hs : ∀ s ∈ ss, s.Upright ∧ 1 ≤ s.n) (t : Tens) :
    v.freq four (addSites WC.exact TC.exact four B0 t ss (Spec.quantum ss xi) (Spec.quantum ss xf))
      = v.freq four t
        + ((List.zipWith (fun s j => Spec.siteEnergy four B0 M s (Fin.ofNat (s.n + 1) j)) ss xf).sum
          - (List.zipWith (fun s j => Spec.siteEnergy four B0 M s (Fin.ofNat (s.n + 1) j)) ss xi).sum) := by
  induction ss generalizing xi xf t with
  | nil =>
    cases hi
    cases hf
    simp [addSites]
  | cons s ss ih =>
    obtain _ | ⟨h1, h1'⟩ := hi
    obtain _ | ⟨h2, h2'⟩ := hf
    rename_i i xi f xf
    obtain ⟨hu, hn⟩ := hs s (by simp)
    simp only [Spec.quantum, List.zipWith_cons_cons, addSites, List.sum_cons]
    have := ih xi xf h1' h2' (fun s' h => hs s' (List.mem_cons_of_mem _ h))
    unfold Spec.quantum at this
    rw [this, ← mag_ofNat s.n f h2, ← mag_ofNat s.n i h1, v.site four B0 t s hu hn]
    ring

theorem couplings (four : Bool) (mi mf : List ℝ) (ks : List Coupling) (hk : ∀ k ∈ ks, k.Upright) (t : Tens) :
    v.freq four (ks.foldl (fun t k => addCoupling WC.exact TC.exact t mi mf k) t)
      = v.freq four t
        + ((ks.map (fun k => Spec.couplingEnergy M k (mf.getD k.A 0) (mf.getD k.X 0))).sum
          - (ks.map (fun k => Spec.couplingEnergy M k (mi.getD k.A 0) (mi.getD k.X 0))).sum) := by
  induction ks generalizing t with
  | nil => simp
  | cons k ks ih =>
    obtain ⟨h1, h2⟩ := hk k (by simp)
    simp only [List.foldl_cons, List.map_cons, List.sum_cons]
    rw [ih (fun k' h => hk k' (List.mem_cons_of_mem _ h))]
    unfold addCoupling Spec.couplingEnergy
    simp only
    rw [freq_add, freq_add, v.j four k h1, v.dipolar four k h2]
    ring

/-- Whatever reads the components in the sense of `View` reads the difference of the energies. -/
theorem energies (four : Bool) (B0 : ℝ) (ss : List Site) (ks : List Coupling) (xi xf : List ℕ)
    (hi : Spec.IsState ss xi) (hf : Spec.IsState ss xf) (hs : ∀ s ∈ ss, s.Upright ∧ 1 ≤ s.n)
    (hk : ∀ k ∈ ks, k.Upright) :
    v.freq four (components WC.exact TC.exact four B0 ss ks (Spec.quantum ss xi) (Spec.quantum ss xf))
      = Spec.energy four B0 M ss ks xf - Spec.energy four B0 M ss ks xi := by
  unfold components Spec.energy
  rw [v.couplings four _ _ ks hk, v.sites four B0 ss xi xf hi hf hs, freq_zero]
  ring

end View

end MRS.Freq
