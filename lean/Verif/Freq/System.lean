import Verif.Freq.Second

/-!
# Frequencies of a whole spin system

`MRS_rotate_components_from_PAS_to_common_frame` (lib/mrsimulator.c:453-609) adds the components of all
interactions of a spin system for one transition; the frequency of an orientation is read off the sum.  The
specification is the energy of a state to first order in the shieldings, couplings and quadrupole couplings and
to second order in the latter: the frequency must be the difference of the energies of the final and the
initial state.

Simplified: every contribution is enabled (for the flags that switch them off see C41), floats are reals,
`Site.n` is twice the spin, so that `spin == 0.5` reads `n = 1`.
-/

namespace MRS.Freq

open Complex ComplexConjugate Matrix

/-- One entry of `site_struct` (include/object_struct.h:19-61). -/
structure Site where
  n : ℕ
  gamma : ℝ
  iso : ℝ
  zeta : ℝ
  eta : ℝ
  Θs : Angles
  Cq : ℝ
  etaQ : ℝ
  Θq : Angles

/-- One entry of `coupling_struct` (include/object_struct.h:69-106). -/
structure Coupling where
  A : ℕ
  X : ℕ
  J : ℝ
  zeta : ℝ
  eta : ℝ
  Θj : Angles
  D : ℝ
  Θd : Angles

/-- mrsimulator.c:477. -/
def larmor (B0 : ℝ) (s : Site) : ℝ := -B0 * s.gamma

/-- frequency_tensor_components.h:48-73 `FCF_1st_order_nuclear_shielding_tensor_components` as called in
mrsimulator.c:480-485. -/
noncomputable def shieldingPart (W : WC) (T : TC) (B0 : ℝ) (s : Site) (mf mi : ℝ) : Tens :=
  fcf (stfP mf mi) (ssotShielding W T (s.iso * larmor B0 s) (s.zeta * larmor B0 s) s.eta s.Θs)

/-- frequency_tensor_components.h:101-120 as called in mrsimulator.c:501-503. -/
noncomputable def quad1Part (W : WC) (T : TC) (s : Site) (mf mi : ℝ) : Tens :=
  fcf (stfD T mf mi) (ssotQuad1 W T (s.n / 2) s.Cq s.etaQ s.Θq)

/-- frequency_tensor_components.h:161-181 as called in mrsimulator.c:511-514. -/
noncomputable def quad2Part (W : WC) (T : TC) (B0 : ℝ) (s : Site) (mf mi : ℝ) : Tens :=
  let cl := stfCL T mf mi (s.n / 2)
  fcfQuad2 cl.1 cl.2.1 cl.2.2 (ssotQuad2 W T (s.n / 2) (larmor B0 s * 1e6) s.Cq s.etaQ s.Θq)

open Classical in
/-- mrsimulator.c:471-523, the body of the loop over the sites: what is added to `t`. -/
noncomputable def addSite (W : WC) (T : TC) (four : Bool) (B0 : ℝ) (t : Tens) (s : Site) (mf mi : ℝ) : Tens :=
  if mi = mf then t else
  let t := addT t (shieldingPart W T B0 s mf mi)
  if s.n = 1 then t else
  let t := addT t (quad1Part W T s mf mi)
  if four then addT t (quad2Part W T B0 s mf mi) else t

/-- mrsimulator.c:470-524: `mi` and `mf` advance with the site.  The lists have one length
(`transition` holds the initial and then the final quantum numbers). -/
noncomputable def addSites (W : WC) (T : TC) (four : Bool) (B0 : ℝ) : Tens → List Site → List ℝ → List ℝ → Tens
  | t, s :: ss, mi :: mis, mf :: mfs => addSites W T four B0 (addSite W T four B0 t s mf mi) ss mis mfs
  | t, _, _, _ => t

/-- frequency_tensor_components.h:224-248 as called in mrsimulator.c:550-553. -/
noncomputable def jPart (W : WC) (T : TC) (k : Coupling) (mIf mIi mSf mSi : ℝ) : Tens :=
  fcf (stfDIS mIf mIi mSf mSi) (ssotJ W T k.J k.zeta k.eta k.Θj)

/-- frequency_tensor_components.h:279-296 as called in mrsimulator.c:560-562. -/
noncomputable def dipolarPart (W : WC) (k : Coupling) (mIf mIi mSf mSi : ℝ) : Tens :=
  fcf (stfDIS mIf mIi mSf mSi) (ssotDipolar W k.D k.Θd)

/-- mrsimulator.c:540-566, the body of the loop over the couplings.  (`getD`: an index that is not a site reads
elsewhere in memory; the theorems ask for sites.) -/
noncomputable def addCoupling (W : WC) (T : TC) (t : Tens) (mi mf : List ℝ) (k : Coupling) : Tens :=
  let mIi := mi.getD k.A 0
  let mSi := mi.getD k.X 0
  let mIf := mf.getD k.A 0
  let mSf := mf.getD k.X 0
  addT (addT t (jPart W T k mIf mIi mSf mSi)) (dipolarPart W k mIf mIi mSf mSi)

/-- mrsimulator.c:573-609 after `__zero_components` (simulation.c:30-34, called in 114). -/
noncomputable def components (W : WC) (T : TC) (four : Bool) (B0 : ℝ) (ss : List Site) (ks : List Coupling)
    (mi mf : List ℝ) : Tens :=
  ks.foldl (fun t k => addCoupling W T t mi mf k) (addSites W T four B0 zeroT ss mi mf)

/-! ## Specification -/

/-- A state: for every site the number of its state, from 0 (`m = -I`) to `2I`. -/
def Spec.IsState (ss : List Site) (x : List ℕ) : Prop := List.Forall₂ (fun s j => j ≤ s.n) ss x

/-- Its magnetic quantum numbers. -/
noncomputable def Spec.quantum (ss : List Site) (x : List ℕ) : List ℝ :=
  List.zipWith (fun (s : Site) (j : ℕ) => (j : ℝ) - (s.n : ℝ) / 2) ss x

/-- The direction of the field in the common frame, when `M` turns the laboratory frame into the common frame. -/
noncomputable def Spec.field (M : Matrix (Fin 3) (Fin 3) ℝ) : Fin 3 → ℝ := M *ᵥ ![0, 0, 1]

/-- The energy of one site in state `j`, in Hz and without the part `ν₀ m` that all sites of the isotope share:
the shift tensor is `δ - ζ`, seen along the field. -/
noncomputable def Spec.siteEnergy (second : Bool) (B0 : ℝ) (M : Matrix (Fin 3) (Fin 3) ℝ) (s : Site)
    (j : Fin (s.n + 1)) : ℝ :=
  -B0 * s.gamma * Spec.mag s.n j
      * (s.iso - Spec.along (Spec.haeberlen s.zeta s.eta) (Spec.seen s.Θs (Spec.field M)))
    + (if s.n ≤ 1 then 0 else
        let H := Spec.quadH s.n s.Cq (Spec.gradient s.etaQ s.Θq M)
        Spec.E1 H j + if second then Spec.E2 H (-B0 * s.gamma * 10 ^ 6) j else 0)

/-- The energy of a weak coupling between a site with quantum number `a` and one with `x`. -/
noncomputable def Spec.couplingEnergy (M : Matrix (Fin 3) (Fin 3) ℝ) (k : Coupling) (a x : ℝ) : ℝ :=
  a * x * (k.J + Spec.along (Spec.haeberlen k.zeta k.eta) (Spec.seen k.Θj (Spec.field M))
    + k.D * (3 * (Spec.seen k.Θd (Spec.field M) 2) ^ 2 - 1))

/-- The energy of a state. -/
noncomputable def Spec.energy (second : Bool) (B0 : ℝ) (M : Matrix (Fin 3) (Fin 3) ℝ) (ss : List Site)
    (ks : List Coupling) (x : List ℕ) : ℝ :=
  (List.zipWith (fun s j => Spec.siteEnergy second B0 M s (Fin.ofNat (s.n + 1) j)) ss x).sum
    + (ks.map (fun k => Spec.couplingEnergy M k ((Spec.quantum ss x).getD k.A 0)
        ((Spec.quantum ss x).getD k.X 0))).sum

/-- A static crystallite: the field has the direction with azimuth α and polar angle β. -/
noncomputable abbrev Spec.static (α β : ℝ) : Matrix (Fin 3) (Fin 3) ℝ := Spec.Rz α * Spec.Ry β

/-! ## The interactions one by one -/

theorem seen_norm (Θ : Angles) (α β : ℝ) :
    Spec.seen Θ (Spec.dir α β) 0 ^ 2 + Spec.seen Θ (Spec.dir α β) 1 ^ 2 + Spec.seen Θ (Spec.dir α β) 2 ^ 2 = 1 := by
  have h : Spec.along 1 (Spec.seen Θ (Spec.dir α β)) = 1 := by
    unfold Spec.seen
    have hM : (Spec.euler Θ.α Θ.β Θ.γ)ᵀ * Spec.euler Θ.α Θ.β Θ.γ = 1 :=
      mul_eq_one_comm.mp (euler_orth Θ.α Θ.β Θ.γ)
    have := along_conj 1 (Spec.euler Θ.α Θ.β Θ.γ) (Spec.dir α β)
    rw [Matrix.mul_one, hM] at this
    rw [← this]
    simp [Spec.along, Spec.dir, dotProduct, Fin.sum_univ_three]
    nlinarith [Real.sin_sq_add_cos_sq α, Real.sin_sq_add_cos_sq β]
  simpa [Spec.along, dotProduct, Fin.sum_univ_three, pow_two] using h

/-- C72: a shielding contributes `ν₀ (m_f - m_i)` times what the shift tensor shows along the field; at the rotor
angle θ its anisotropy is scaled by `(3cos²θ - 1)/2`. -/
theorem C72_shielding_partial (four : Bool) (B0 : ℝ) (s : Site) (hβ : 0 ≤ s.Θs.β) (mf mi α β cθ sθ : ℝ) :
    localFreq WC.exact four (Real.cos β) (Real.sin β) (exp (α * I)) cθ sθ
        (shieldingPart WC.exact TC.exact B0 s mf mi)
      = -B0 * s.gamma * (mf - mi) * (s.iso - (3 * cθ ^ 2 - 1) / 2
          * Spec.along (Spec.haeberlen s.zeta s.eta) (Spec.seen s.Θs (Spec.dir α β))) := by
  unfold shieldingPart ssotShielding
  rw [localFreq_fcf, localFreq_two four ((-larmor B0 s) • Spec.haeberlen s.zeta s.eta)
    ((haeberlen_symm _ _).smul _) (by rw [Matrix.trace_smul, haeberlen_trace, smul_zero]) s.Θs hβ _
    (pas2_sph _ _ _ _ _ (by ring) (by unfold TC.exact; simp only; ring)), along_smul]
  unfold stfP larmor
  ring

/-- C72: the first order of a quadrupole coupling contributes the difference of the expectation values of the
quadrupole Hamiltonian. -/
theorem C72_quadrupole_partial (four : Bool) (s : Site) (hβ : 0 ≤ s.Θq.β) (f i : Fin (s.n + 1)) (α β : ℝ) :
    localFreq WC.exact four (Real.cos β) (Real.sin β) (exp (α * I)) 1 0
        (quad1Part WC.exact TC.exact s (Spec.mag s.n f) (Spec.mag s.n i))
      = Spec.E1 (Spec.quadH s.n s.Cq (Spec.labGradient s.etaQ s.Θq α β)) f
        - Spec.E1 (Spec.quadH s.n s.Cq (Spec.labGradient s.etaQ s.Θq α β)) i := by
  have m6 : √(6 : ℝ) ≠ 0 := by positivity
  have h6 : √(6 : ℝ) ^ 2 = 6 := Real.sq_sqrt (by norm_num)
  unfold quad1Part ssotQuad1
  rw [localFreq_fcf, localFreq_two four ((vq (s.n / 2) s.Cq / √6) • Spec.haeberlen 1 s.etaQ)
    ((haeberlen_symm _ _).smul _) (by rw [Matrix.trace_smul, haeberlen_trace, smul_zero]) s.Θq hβ _
    (pas2_sph _ _ _ _ _ (by unfold TC.exact; simp only; ring)
      (by unfold TC.exact; simp only; field_simp; rw [h6]; ring)), along_smul]
  rw [E1_quad _ _ _ (labGradient_symm _ _ _ _) (labGradient_trace _ _ _ _),
    E1_quad _ _ _ (labGradient_symm _ _ _ _) (labGradient_trace _ _ _ _), vq_cfac, along_seen]
  have hV : ((Spec.euler s.Θq.α s.Θq.β s.Θq.γ * (Spec.Rz α * Spec.Ry β))ᵀ * Spec.haeberlen 1 s.etaQ
      * (Spec.euler s.Θq.α s.Θq.β s.Θq.γ * (Spec.Rz α * Spec.Ry β))) 2 2
      = Spec.labGradient s.etaQ s.Θq α β 2 2 := rfl
  rw [hV]
  have hd : TC.exact.d = √6 / 2 := by
    unfold TC.exact
    simp only
    rw [show (3 / 2 : ℝ) = 6 / 2 ^ 2 by norm_num, Real.sqrt_div' _ (by norm_num), Real.sqrt_sq (by norm_num)]
  unfold stfD
  rw [hd]
  field_simp
  ring

/-- C72: a J-coupling contributes `Δ(m_A m_X)` times its tensor along the field. -/
theorem C72_j_partial (four : Bool) (k : Coupling) (hβ : 0 ≤ k.Θj.β) (mIf mIi mSf mSi α β cθ sθ : ℝ) :
    localFreq WC.exact four (Real.cos β) (Real.sin β) (exp (α * I)) cθ sθ
        (jPart WC.exact TC.exact k mIf mIi mSf mSi)
      = (mIf * mSf - mIi * mSi) * (k.J + (3 * cθ ^ 2 - 1) / 2
          * Spec.along (Spec.haeberlen k.zeta k.eta) (Spec.seen k.Θj (Spec.dir α β))) := by
  unfold jPart ssotJ
  rw [localFreq_fcf, localFreq_two four ((1 : ℝ) • Spec.haeberlen k.zeta k.eta)
    ((haeberlen_symm _ _).smul _) (by rw [Matrix.trace_smul, haeberlen_trace, smul_zero]) k.Θj hβ _
    (pas2_sph _ _ _ _ _ (by ring) (by unfold TC.exact; simp only; ring)), along_smul]
  unfold stfDIS
  ring

/-- C72: a dipolar coupling contributes `Δ(m_A m_X) D (3cos² - 1)`, the angle being that between the field and the
axis of the coupling. -/
theorem C72_dipolar_partial (four : Bool) (k : Coupling) (hβ : 0 ≤ k.Θd.β) (mIf mIi mSf mSi α β cθ sθ : ℝ) :
    localFreq WC.exact four (Real.cos β) (Real.sin β) (exp (α * I)) cθ sθ
        (dipolarPart WC.exact k mIf mIi mSf mSi)
      = (mIf * mSf - mIi * mSi) * ((3 * cθ ^ 2 - 1) / 2
          * (k.D * (3 * (Spec.seen k.Θd (Spec.dir α β) 2) ^ 2 - 1))) := by
  unfold dipolarPart ssotDipolar
  rw [localFreq_fcf, localFreq_two four ((2 * k.D) • Spec.haeberlen 1 0)
    ((haeberlen_symm _ _).smul _) (by rw [Matrix.trace_smul, haeberlen_trace, smul_zero]) k.Θd hβ _
    (pas2_sph _ _ _ _ _ (by ring) (by ring)), along_smul]
  have h := seen_norm k.Θd α β
  have ha : Spec.along (Spec.haeberlen 1 0) (Spec.seen k.Θd (Spec.dir α β))
      = (3 * (Spec.seen k.Θd (Spec.dir α β) 2) ^ 2 - 1) / 2 := by
    simp [Spec.along, Spec.haeberlen, dotProduct, Fin.sum_univ_three, Matrix.mulVec_diagonal]
    linarith
  rw [ha]
  unfold stfDIS
  ring

/-- A site and a coupling of the kind the theorems above speak of. -/
example : (0 : ℝ) ≤ (⟨5, 11.1, 10, -20, 0.5, ⟨0.4, 1.2, 0⟩, 3000000, 0.3, ⟨0, 0.7, 1⟩⟩ : Site).Θs.β
    ∧ (0 : ℝ) ≤ (⟨0, 1, 20, 4, 0.1, ⟨0, 0.5, 0⟩, -2000, ⟨1, 1, 0⟩⟩ : Coupling).Θd.β := by norm_num

/-- On the magic angle a dipolar coupling is invisible. -/
example (k : Coupling) (hβ : 0 ≤ k.Θd.β) (mIf mIi mSf mSi α β cθ sθ : ℝ) (h : 3 * cθ ^ 2 = 1) :
    localFreq WC.exact false (Real.cos β) (Real.sin β) (exp (α * I)) cθ sθ
        (dipolarPart WC.exact k mIf mIi mSf mSi) = 0 := by
  rw [C72_dipolar_partial false k hβ, h]
  ring

/-! ## The whole system -/

theorem localFreq_zero (W : WC) (four : Bool) (cβ sβ : ℝ) (e : ℂ) (cθ sθ : ℝ) :
    localFreq W four cβ sβ e cθ sθ zeroT = 0 := by
  simp [localFreq, zeroT, half_zero]

theorem localFreq_noFour (W : WC) (cβ sβ : ℝ) (e : ℂ) (cθ sθ : ℝ) (t : Tens) :
    localFreq W false cβ sβ e cθ sθ t = localFreq W false cβ sβ e cθ sθ ⟨t.R0, t.R2, fun _ => 0⟩ := rfl

/-- Every tensor of the site has a nonnegative second Euler angle. -/
def Site.Upright (s : Site) : Prop := 0 ≤ s.Θs.β ∧ 0 ≤ s.Θq.β

/-- Every tensor of the coupling has a nonnegative second Euler angle. -/
def Coupling.Upright (k : Coupling) : Prop := 0 ≤ k.Θj.β ∧ 0 ≤ k.Θd.β

theorem addSite_energy (four : Bool) (B0 α β : ℝ) (t : Tens) (s : Site) (hs : s.Upright) (hn : 1 ≤ s.n)
    (f i : Fin (s.n + 1)) :
    localFreq WC.exact four (Real.cos β) (Real.sin β) (exp (α * I)) 1 0
        (addSite WC.exact TC.exact four B0 t s (Spec.mag s.n f) (Spec.mag s.n i))
      = localFreq WC.exact four (Real.cos β) (Real.sin β) (exp (α * I)) 1 0 t
        + (Spec.siteEnergy four B0 (Spec.static α β) s f - Spec.siteEnergy four B0 (Spec.static α β) s i) := by
  have h1 := C72_shielding_partial four B0 s hs.1 (Spec.mag s.n f) (Spec.mag s.n i) α β 1 0
  have h2 := C72_quadrupole_partial four s hs.2 f i α β
  unfold addSite Spec.siteEnergy Spec.field Spec.static
  rw [field_dir]
  rw [show Spec.gradient s.etaQ s.Θq (Spec.Rz α * Spec.Ry β) = Spec.labGradient s.etaQ s.Θq α β from rfl]
  by_cases hfi : Spec.mag s.n i = Spec.mag s.n f
  · have : i = f := by
      unfold Spec.mag at hfi
      have : (i : ℝ) = f := by linarith
      exact Fin.ext (by exact_mod_cast this)
    subst this
    simp
  · rw [if_neg hfi]
    by_cases h0 : s.n = 1
    · simp only [if_pos h0, if_pos (le_of_eq h0)]
      rw [localFreq_add, h1]
      ring
    · have h0' : ¬ s.n ≤ 1 := by omega
      simp only [if_neg h0, if_neg h0']
      cases four
      · simp only [Bool.false_eq_true, if_false]
        rw [localFreq_add, localFreq_add, h1, h2]
        ring
      · simp only [if_true]
        have h3 := C74_second_order_partial s.n (larmor B0 s * 1e6) s.Cq s.etaQ s.Θq hs.2 α β f i
        have e6 : larmor B0 s * 1e6 = -B0 * s.gamma * 10 ^ 6 := by unfold larmor; norm_num
        rw [localFreq_add, localFreq_add, localFreq_add, h1, h2]
        unfold quad2Part
        simp only
        rw [h3, e6]
        ring

theorem mag_ofNat (n j : ℕ) (h : j ≤ n) : Spec.mag n (Fin.ofNat (n + 1) j) = (j : ℝ) - n / 2 := by
  unfold Spec.mag
  rw [Fin.val_ofNat, Nat.mod_eq_of_lt (by omega)]

theorem addSites_energy (four : Bool) (B0 α β : ℝ) (ss : List Site) (xi xf : List ℕ) (hi : Spec.IsState ss xi)
    (hf : Spec.IsState ss xf) (hs : ∀ s ∈ ss, s.Upright ∧ 1 ≤ s.n) (t : Tens) :
    localFreq WC.exact four (Real.cos β) (Real.sin β) (exp (α * I)) 1 0
        (addSites WC.exact TC.exact four B0 t ss (Spec.quantum ss xi) (Spec.quantum ss xf))
      = localFreq WC.exact four (Real.cos β) (Real.sin β) (exp (α * I)) 1 0 t
        + ((List.zipWith (fun s j => Spec.siteEnergy four B0 (Spec.static α β) s (Fin.ofNat (s.n + 1) j)) ss xf).sum
          - (List.zipWith (fun s j => Spec.siteEnergy four B0 (Spec.static α β) s (Fin.ofNat (s.n + 1) j)) ss xi).sum) := by
  induction ss generalizing xi xf t with
  | nil =>
    cases hi
    cases hf
    simp [addSites]
  | cons s ss ih =>
    obtain _ | ⟨h1, h1'⟩ := hi
    obtain _ | ⟨h2, h2'⟩ := hf
    rename_i i xi f xf
    obtain ⟨hu, hn⟩ := hs s (by simp)
    simp only [Spec.quantum, List.zipWith_cons_cons, addSites, List.sum_cons]
    have := ih xi xf h1' h2' (fun s' h => hs s' (List.mem_cons_of_mem _ h))
    unfold Spec.quantum at this
    rw [this, ← mag_ofNat s.n f h2, ← mag_ofNat s.n i h1, addSite_energy four B0 α β t s hu hn]
    ring

theorem addCoupling_energy (four : Bool) (α β : ℝ) (t : Tens) (mi mf : List ℝ) (k : Coupling) (hk : k.Upright) :
    localFreq WC.exact four (Real.cos β) (Real.sin β) (exp (α * I)) 1 0
        (addCoupling WC.exact TC.exact t mi mf k)
      = localFreq WC.exact four (Real.cos β) (Real.sin β) (exp (α * I)) 1 0 t
        + (Spec.couplingEnergy (Spec.static α β) k (mf.getD k.A 0) (mf.getD k.X 0)
          - Spec.couplingEnergy (Spec.static α β) k (mi.getD k.A 0) (mi.getD k.X 0)) := by
  unfold addCoupling Spec.couplingEnergy Spec.field Spec.static
  simp only [field_dir]
  rw [localFreq_add, localFreq_add, C72_j_partial four k hk.1, C72_dipolar_partial four k hk.2]
  ring

theorem addCouplings_energy (four : Bool) (α β : ℝ) (mi mf : List ℝ) (ks : List Coupling)
    (hk : ∀ k ∈ ks, k.Upright) (t : Tens) :
    localFreq WC.exact four (Real.cos β) (Real.sin β) (exp (α * I)) 1 0
        (ks.foldl (fun t k => addCoupling WC.exact TC.exact t mi mf k) t)
      = localFreq WC.exact four (Real.cos β) (Real.sin β) (exp (α * I)) 1 0 t
        + ((ks.map (fun k => Spec.couplingEnergy (Spec.static α β) k (mf.getD k.A 0) (mf.getD k.X 0))).sum
          - (ks.map (fun k => Spec.couplingEnergy (Spec.static α β) k (mi.getD k.A 0) (mi.getD k.X 0))).sum) := by
  induction ks generalizing t with
  | nil => simp
  | cons k ks ih =>
    simp only [List.foldl_cons, List.map_cons, List.sum_cons]
    rw [ih (fun k' h => hk k' (List.mem_cons_of_mem _ h)), addCoupling_energy four α β t mi mf k (hk k (by simp))]
    ring

/-- C73: the frequency of a transition of a static crystallite is the energy of its final state less that of its
initial state, for any number of sites of any spins, any couplings between them, any field and any
direction. -/
theorem C73_energies_partial (four : Bool) (B0 α β : ℝ) (ss : List Site) (ks : List Coupling) (xi xf : List ℕ)
    (hi : Spec.IsState ss xi) (hf : Spec.IsState ss xf) (hs : ∀ s ∈ ss, s.Upright ∧ 1 ≤ s.n)
    (hk : ∀ k ∈ ks, k.Upright ∧ k.A < ss.length ∧ k.X < ss.length) :
    localFreq WC.exact four (Real.cos β) (Real.sin β) (exp (α * I)) 1 0
        (components WC.exact TC.exact four B0 ss ks (Spec.quantum ss xi) (Spec.quantum ss xf))
      = Spec.energy four B0 (Spec.static α β) ss ks xf - Spec.energy four B0 (Spec.static α β) ss ks xi := by
  unfold components Spec.energy
  rw [addCouplings_energy four α β _ _ ks (fun k h => (hk k h).1),
    addSites_energy four B0 α β ss xi xf hi hf hs, localFreq_zero]
  ring

/-- Proton and aluminium with a coupling between them: the hypotheses hold for every transition. -/
noncomputable def exampleSites : List Site :=
  [⟨1, 42.58, 3, 5, 0.2, ⟨0.1, 0.2, 0.3⟩, 0, 0, ⟨0, 0, 0⟩⟩,
   ⟨5, 11.1, 10, -20, 0.5, ⟨0.4, 1.2, 0⟩, 3000000, 0.3, ⟨0, 0.7, 1⟩⟩]

/-- A coupling with a J tensor and a dipolar tensor. -/
noncomputable def exampleCoupling : Coupling := ⟨0, 1, 20, 4, 0.1, ⟨0, 0.5, 0⟩, -2000, ⟨1, 1, 0⟩⟩

/-- The central transition of the aluminium with the proton in its state `-1/2`. -/
example : localFreq WC.exact true (Real.cos 1) (Real.sin 1) (exp ((2 : ℝ) * I)) 1 0
        (components WC.exact TC.exact true 9.4 exampleSites [exampleCoupling] (Spec.quantum exampleSites [0, 3])
          (Spec.quantum exampleSites [0, 2]))
      = Spec.energy true 9.4 (Spec.static 2 1) exampleSites [exampleCoupling] [0, 2]
        - Spec.energy true 9.4 (Spec.static 2 1) exampleSites [exampleCoupling] [0, 3] := by
  apply C73_energies_partial
  · unfold Spec.IsState exampleSites
    simp
  · unfold Spec.IsState exampleSites
    simp
  · unfold exampleSites Site.Upright
    intro s hs
    simp only [List.mem_cons, List.not_mem_nil, or_false] at hs
    rcases hs with rfl | rfl <;> norm_num
  · unfold exampleSites exampleCoupling Coupling.Upright
    intro k hk
    simp only [List.mem_cons, List.not_mem_nil, or_false] at hk
    subst hk
    norm_num

theorem toFrame_abs (W : WC) (l : ℕ) (α β γ : ℝ) (R : ℕ → ℂ) :
    toFrame W l ⟨α, -β, γ⟩ R = toFrame W l ⟨α, β, γ⟩ R := by
  unfold toFrame singleRotation
  simp only [neg_eq_zero, W.trig.cos_neg, W.trig.sin_neg]

/-- C73, the part that fails: a shielding tensor tilted by `-π/4` from the field, seen along its own axis, gives the
frequency of one perpendicular to it. -/
theorem C73_counterexample :
    ∃ (s : Site), s.n = 1 ∧ ∀ four,
      localFreq WC.exact four (Real.cos (Real.pi / 4)) (Real.sin (Real.pi / 4)) (exp ((0 : ℝ) * I)) 1 0
          (components WC.exact TC.exact four 1 [s] [] (Spec.quantum [s] [0]) (Spec.quantum [s] [1]))
        ≠ Spec.energy four 1 (Spec.static 0 (Real.pi / 4)) [s] [] [1] - Spec.energy four 1 (Spec.static 0 (Real.pi / 4)) [s] [] [0] := by
  refine ⟨⟨1, 1, 0, 1, 0, ⟨0, -(Real.pi / 4), 0⟩, 0, 0, ⟨0, 0, 0⟩⟩, rfl, fun four => ?_⟩
  set s : Site := ⟨1, 1, 0, 1, 0, ⟨0, -(Real.pi / 4), 0⟩, 0, 0, ⟨0, 0, 0⟩⟩ with hs
  set s' : Site := ⟨1, 1, 0, 1, 0, ⟨0, Real.pi / 4, 0⟩, 0, 0, ⟨0, 0, 0⟩⟩ with hs'
  have hc : components WC.exact TC.exact four 1 [s] [] (Spec.quantum [s] [0]) (Spec.quantum [s] [1])
      = components WC.exact TC.exact four 1 [s'] [] (Spec.quantum [s'] [0]) (Spec.quantum [s'] [1]) := by
    simp only [components, addSites, Spec.quantum, List.zipWith_cons_cons, List.zipWith_nil_right, List.foldl_nil,
      addSite, shieldingPart, ssotShielding, hs, hs', if_true, toFrame_abs, larmor]
  have hp : 0 ≤ Real.pi / 4 := by positivity
  rw [hc, C73_energies_partial four 1 0 (Real.pi / 4) [s'] [] [0] [1] (by simp [Spec.IsState, hs'])
    (by simp [Spec.IsState, hs']) (by simpa [hs', Site.Upright] using hp) (by simp)]
  have h2 : √(2 : ℝ) * √2 = 2 := Real.mul_self_sqrt (by norm_num)
  simp [Spec.energy, Spec.siteEnergy, Spec.field, Spec.static, hs, hs', Spec.mag, Spec.along, Spec.haeberlen, Spec.seen, Spec.dir, Spec.euler,
    Spec.Rz, Spec.Ry, Matrix.mulVec, dotProduct, Fin.sum_univ_three, Matrix.mul_apply, Matrix.diagonal]
  have hx : √(2 : ℝ) / 2 * (√2 / 2) = 1 / 2 := by linarith
  rw [hx]
  norm_num

/-- The polar angles without their signs. -/
def Spec.absAngles (Θ : Angles) : Angles := { Θ with β := |Θ.β| }

/-- A site with its polar angles without their signs. -/
def Spec.absSite (s : Site) : Site := { s with Θs := Spec.absAngles s.Θs, Θq := Spec.absAngles s.Θq }

/-- A coupling with its polar angles without their signs. -/
def Spec.absCoupling (k : Coupling) : Coupling := { k with Θj := Spec.absAngles k.Θj, Θd := Spec.absAngles k.Θd }

theorem toFrame_absAngles (W : WC) (l : ℕ) (Θ : Angles) (R : ℕ → ℂ) : toFrame W l (Spec.absAngles Θ) R = toFrame W l Θ R := by
  unfold Spec.absAngles
  rcases abs_choice Θ.β with h | h
  · rw [h]
  · rw [h]
    exact toFrame_abs W l Θ.α Θ.β Θ.γ R

/-- Whatever is computed from the components, with the constants of the source or the exact ones, does not see the signs. -/
theorem components_absolute (W : WC) (T : TC) (four : Bool) (B0 : ℝ) (ss : List Site) (ks : List Coupling) (mi mf : List ℝ) :
    components W T four B0 (ss.map Spec.absSite) (ks.map Spec.absCoupling) mi mf = components W T four B0 ss ks mi mf := by
  have h1 : ∀ t (s : Site) (a b : ℝ), addSite W T four B0 t (Spec.absSite s) a b = addSite W T four B0 t s a b := by
    intro t s a b
    simp only [addSite, Spec.absSite, shieldingPart, quad1Part, quad2Part, ssotShielding, ssotQuad1, ssotQuad2, toFrame_absAngles, larmor]
  have h2 : ∀ (ss : List Site) t (mi mf : List ℝ), addSites W T four B0 t (ss.map Spec.absSite) mi mf = addSites W T four B0 t ss mi mf := by
    intro ss
    induction ss with
    | nil => intro t mi mf; rfl
    | cons s ss ih =>
      intro t mi mf
      rcases mi with - | ⟨a, mi⟩
      · rfl
      rcases mf with - | ⟨b, mf⟩
      · rfl
      simp only [List.map_cons, addSites, h1, ih]
  have h3 : ∀ t (k : Coupling), addCoupling W T t mi mf (Spec.absCoupling k) = addCoupling W T t mi mf k := by
    intro t k
    simp only [addCoupling, Spec.absCoupling, jPart, dipolarPart, ssotJ, ssotDipolar, toFrame_absAngles]
  unfold components
  rw [h2, List.foldl_map]
  simp only [h3]

theorem quantum_absolute (ss : List Site) (x : List ℕ) : Spec.quantum (ss.map Spec.absSite) x = Spec.quantum ss x := by
  unfold Spec.quantum
  rw [List.zipWith_map_left]
  rfl

/-- **C73 (all angles), partial.** For polar angles of any sign the frequency is that of the spin system in which they have their absolute
values.  Missing: the decimals (see `C73_decimals_partial`); by `C73_counterexample` the signs should matter. -/
theorem C73_absolute_partial (four : Bool) (B0 α β : ℝ) (ss : List Site) (ks : List Coupling) (xi xf : List ℕ)
    (hi : Spec.IsState ss xi) (hf : Spec.IsState ss xf) (hs : ∀ s ∈ ss, 1 ≤ s.n)
    (hk : ∀ k ∈ ks, k.A < ss.length ∧ k.X < ss.length) :
    localFreq WC.exact four (Real.cos β) (Real.sin β) (exp (α * I)) 1 0
        (components WC.exact TC.exact four B0 ss ks (Spec.quantum ss xi) (Spec.quantum ss xf))
      = Spec.energy four B0 (Spec.static α β) (ss.map Spec.absSite) (ks.map Spec.absCoupling) xf
        - Spec.energy four B0 (Spec.static α β) (ss.map Spec.absSite) (ks.map Spec.absCoupling) xi := by
  have hst : ∀ x, Spec.IsState ss x → Spec.IsState (ss.map Spec.absSite) x := by
    intro x hx
    unfold Spec.IsState at hx ⊢
    rw [List.forall₂_map_left_iff]
    exact hx
  rw [← components_absolute, ← quantum_absolute ss xi, ← quantum_absolute ss xf]
  refine C73_energies_partial four B0 α β _ _ xi xf (hst xi hi) (hst xf hf) ?_ ?_
  · intro s h
    obtain ⟨s', h', rfl⟩ := List.mem_map.mp h
    exact ⟨⟨abs_nonneg _, abs_nonneg _⟩, hs s' h'⟩
  · intro k h
    obtain ⟨k', h', rfl⟩ := List.mem_map.mp h
    rw [List.length_map]
    exact ⟨⟨abs_nonneg _, abs_nonneg _⟩, hk k' h'⟩

/-- The tensor of the counterexample: tilted by `-π/4`, drawn as if tilted by `π/4`. -/
example (four : Bool) (α β : ℝ) :
    localFreq WC.exact four (Real.cos β) (Real.sin β) (exp (α * I)) 1 0
        (components WC.exact TC.exact four 1 [⟨1, 1, 0, 1, 0, ⟨0, -(Real.pi / 4), 0⟩, 0, 0, ⟨0, 0, 0⟩⟩] []
          (Spec.quantum [⟨1, 1, 0, 1, 0, ⟨0, -(Real.pi / 4), 0⟩, 0, 0, ⟨0, 0, 0⟩⟩] [0])
          (Spec.quantum [⟨1, 1, 0, 1, 0, ⟨0, -(Real.pi / 4), 0⟩, 0, 0, ⟨0, 0, 0⟩⟩] [1]))
      = Spec.energy four 1 (Spec.static α β) [⟨1, 1, 0, 1, 0, ⟨0, Real.pi / 4, 0⟩, 0, 0, ⟨0, 0, 0⟩⟩] [] [1]
        - Spec.energy four 1 (Spec.static α β) [⟨1, 1, 0, 1, 0, ⟨0, Real.pi / 4, 0⟩, 0, 0, ⟨0, 0, 0⟩⟩] [] [0] := by
  have h := C73_absolute_partial four 1 α β [⟨1, 1, 0, 1, 0, ⟨0, -(Real.pi / 4), 0⟩, 0, 0, ⟨0, 0, 0⟩⟩] [] [0] [1]
    (by simp [Spec.IsState]) (by simp [Spec.IsState]) (by simp) (by simp)
  have hp : |Real.pi| = Real.pi := abs_of_pos Real.pi_pos
  simpa [Spec.absSite, Spec.absAngles, abs_neg, abs_div, hp] using h

end MRS.Freq
