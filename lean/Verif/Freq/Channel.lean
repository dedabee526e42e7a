import Verif.Freq.System

/-!
# The quadrupole couplings of nuclei on other channels — property C80

Which quadrupole interactions enter a simulation is decided by the spin of the isotope of the first channel alone
(base_model.pyx:46, 81-83 and 313-325): when it is 1/2 the couplings of all sites are left at zero and the second order is
switched off, also for the sites of the other channels.  The specification is the one of C73: a transition has the
difference of two energies, in which every site counts.
-/

namespace MRS.Freq

open Complex Matrix

/-- base_model.pyx:280-283 and 313-325: the entries of `site_struct` of one site.  `n0` is twice the spin of `method.channels[0]`.
Simplified: a tensor or an attribute that is `None` is zero to begin with. -/
noncomputable def packed (n0 : ℕ) (s : Site) : Site :=
  if 1 < n0 then s else { s with Cq := 0, etaQ := 0, Θq := ⟨0, 0, 0⟩ }

/-- base_model.pyx:81-83 `allow_fourth_rank`. -/
def fourth (n0 : ℕ) : Bool := decide (1 < n0)

/-- The components of one transition as the method sees them: base_model.pyx:255-345 followed by
mrsimulator.c:573-609. -/
noncomputable def methodComponents (W : WC) (T : TC) (n0 : ℕ) (B0 : ℝ) (ss : List Site) (ks : List Coupling)
    (mi mf : List ℝ) : Tens :=
  components W T (fourth n0) B0 (ss.map (packed n0)) ks mi mf

/-! ## Specification -/

/-- The sites that have a quadrupole moment keep their state. -/
def Spec.Spectator (ss : List Site) (xi xf : List ℕ) : Prop :=
  ∀ (i : ℕ) (s : Site), ss[i]? = some s → 1 < s.n → xi[i]? = xf[i]?

/-! ## Proofs -/

theorem packed_n (n0 : ℕ) (s : Site) : (packed n0 s).n = s.n := by
  unfold packed
  split_ifs <;> rfl

theorem quantum_packed (n0 : ℕ) (ss : List Site) (x : List ℕ) :
    Spec.quantum (ss.map (packed n0)) x = Spec.quantum ss x := by
  unfold Spec.quantum
  rw [List.zipWith_map_left]
  simp only [packed_n]

theorem packed_big (n0 : ℕ) (h : 1 < n0) (ss : List Site) : ss.map (packed n0) = ss := by
  have : packed n0 = id := by
    funext s
    rw [packed, if_pos h, id]
  rw [this, List.map_id]

theorem addSites_packed (W : WC) (T : TC) (n0 : ℕ) (B0 : ℝ) (ss : List Site) (xi xf : List ℕ)
    (hs : ∀ s ∈ ss, 1 ≤ s.n) (hx : 1 < n0 ∨ Spec.Spectator ss xi xf) (t : Tens) :
    addSites W T (fourth n0) B0 t (ss.map (packed n0)) (Spec.quantum ss xi) (Spec.quantum ss xf)
      = addSites W T true B0 t ss (Spec.quantum ss xi) (Spec.quantum ss xf) := by
  by_cases h : 1 < n0
  · rw [packed_big n0 h, fourth, decide_eq_true h]
  · replace hx := hx.resolve_left h
    induction ss generalizing xi xf t with
    | nil => simp [addSites]
    | cons s ss ih =>
      have hn := hs s (by simp)
      cases xi with
      | nil => simp [Spec.quantum, addSites]
      | cons i xi =>
        cases xf with
        | nil => simp [Spec.quantum, addSites]
        | cons f xf =>
          have h0 : 1 < s.n → i = f := fun h1 => by simpa using hx 0 s (by simp) h1
          have htail : Spec.Spectator ss xi xf := by
            intro k s' hk h1
            simpa using hx (k + 1) s' (by simpa using hk) h1
          simp only [Spec.quantum, List.map_cons, List.zipWith_cons_cons, addSites]
          have ih' := fun t => ih xi xf (fun s' h' => hs s' (List.mem_cons_of_mem _ h')) t htail
          simp only [Spec.quantum] at ih'
          rw [ih']
          congr 1
          unfold addSite
          by_cases hif : (i : ℝ) - (s.n : ℝ) / 2 = (f : ℝ) - (s.n : ℝ) / 2
          · rw [if_pos hif, if_pos hif]
          · have h1 : s.n = 1 := by
              by_contra h1
              exact hif (by rw [h0 (by omega)])
            rw [if_neg hif, if_neg hif]
            simp only [packed_n, if_pos h1]
            have : shieldingPart W T B0 (packed n0 s) ((f : ℝ) - (s.n : ℝ) / 2) ((i : ℝ) - (s.n : ℝ) / 2)
                = shieldingPart W T B0 s ((f : ℝ) - (s.n : ℝ) / 2) ((i : ℝ) - (s.n : ℝ) / 2) := by
              rw [packed, if_neg h]
              rfl
            rw [this]

theorem fcf_R4 (x : ℝ) (t : Tens) (ht : ∀ i, t.R4 i = 0) (i : ℕ) : (fcf x t).R4 i = 0 := by
  unfold fcf
  split_ifs
  · rfl
  · simp [scaleT, ht i]

theorem addSites_R4 (W : WC) (T : TC) (B0 : ℝ) (ss : List Site) (mi mf : List ℝ) (t : Tens) (ht : ∀ i, t.R4 i = 0) :
    ∀ i, (addSites W T false B0 t ss mi mf).R4 i = 0 := by
  induction ss generalizing mi mf t with
  | nil => simpa [addSites] using ht
  | cons s ss ih =>
    cases mi with
    | nil => simpa [addSites] using ht
    | cons i mi =>
      cases mf with
      | nil => simpa [addSites] using ht
      | cons f mf =>
        simp only [addSites]
        refine ih mi mf _ ?_
        intro k
        have h1 : (shieldingPart W T B0 s f i).R4 k = 0 := fcf_R4 _ _ (fun _ => rfl) k
        have h2 : (quad1Part W T s f i).R4 k = 0 := fcf_R4 _ _ (fun _ => rfl) k
        unfold addSite
        split_ifs <;> simp_all [addT]

theorem couplings_R4 (W : WC) (T : TC) (mi mf : List ℝ) (ks : List Coupling) (t : Tens) (ht : ∀ i, t.R4 i = 0) :
    ∀ i, (ks.foldl (fun t k => addCoupling W T t mi mf k) t).R4 i = 0 := by
  induction ks generalizing t with
  | nil => exact ht
  | cons k ks ih =>
    refine ih _ ?_
    intro i
    have h1 := fun a b c d => fcf_R4 (stfDIS a b c d) (ssotJ W T k.J k.zeta k.eta k.Θj) (fun _ => rfl) i
    have h2 := fun a b c d => fcf_R4 (stfDIS a b c d) (ssotDipolar W k.D k.Θd) (fun _ => rfl) i
    simp [addCoupling, addT, jPart, dipolarPart, h1, h2, ht i]

theorem localFreq_flat (W : WC) (four : Bool) (cβ sβ : ℝ) (e : ℂ) (cθ sθ : ℝ) (t : Tens) (ht : ∀ i, t.R4 i = 0) :
    localFreq W four cβ sβ e cθ sθ t = localFreq W true cβ sβ e cθ sθ t := by
  have : t.R4 = fun _ => 0 := funext ht
  cases four
  · simp [localFreq, this, half_zero]
  · rfl

/-- The components of a transition are those of all interactions to second order in the quadrupole couplings. -/
theorem methodComponents_eq (W : WC) (T : TC) (n0 : ℕ) (B0 : ℝ) (ss : List Site) (ks : List Coupling) (xi xf : List ℕ)
    (hs : ∀ s ∈ ss, 1 ≤ s.n) (hx : 1 < n0 ∨ Spec.Spectator ss xi xf) :
    methodComponents W T n0 B0 ss ks (Spec.quantum ss xi) (Spec.quantum ss xf)
      = components W T true B0 ss ks (Spec.quantum ss xi) (Spec.quantum ss xf) := by
  unfold methodComponents components
  rw [addSites_packed W T n0 B0 ss xi xf hs hx]

/-- **C80, partial.** When the isotope of the first channel has a spin of more than 1/2, or when the quadrupolar nuclei keep their
states, the frequency of a transition of a static crystallite is the difference of the energies of its states, with the
quadrupole couplings of all sites to second order.  Missing: transitions of quadrupolar nuclei when the first channel is a spin 1/2, for
which it is false (`C80_counterexample`); negative polar angles (C73). -/
theorem C80_channels_partial (n0 : ℕ) (B0 α β : ℝ) (ss : List Site) (ks : List Coupling) (xi xf : List ℕ)
    (hi : Spec.IsState ss xi) (hf : Spec.IsState ss xf) (hs : ∀ s ∈ ss, s.Upright ∧ 1 ≤ s.n)
    (hk : ∀ k ∈ ks, k.Upright ∧ k.A < ss.length ∧ k.X < ss.length) (hx : 1 < n0 ∨ Spec.Spectator ss xi xf) :
    localFreq WC.exact (fourth n0) (Real.cos β) (Real.sin β) (exp (α * I)) 1 0
        (methodComponents WC.exact TC.exact n0 B0 ss ks (Spec.quantum ss xi) (Spec.quantum ss xf))
      = Spec.energy true B0 (Spec.static α β) ss ks xf - Spec.energy true B0 (Spec.static α β) ss ks xi := by
  have h := methodComponents_eq WC.exact TC.exact n0 B0 ss ks xi xf (fun s h => (hs s h).2) hx
  rw [← C73_energies_partial true B0 α β ss ks xi xf hi hf hs hk, ← h]
  by_cases h0 : 1 < n0
  · rw [fourth, decide_eq_true h0]
  · refine localFreq_flat _ _ _ _ _ _ _ _ ?_
    unfold methodComponents components
    rw [fourth, decide_eq_false h0]
    exact couplings_R4 _ _ _ _ _ _ (addSites_R4 _ _ _ _ _ _ _ (fun _ => rfl))

/-- The proton of `exampleSites` observed, with the aluminium in its state `m = 1/2`. -/
example (α β : ℝ) :
    localFreq WC.exact (fourth 1) (Real.cos β) (Real.sin β) (exp (α * I)) 1 0
        (methodComponents WC.exact TC.exact 1 9.4 exampleSites [exampleCoupling] (Spec.quantum exampleSites [1, 3])
          (Spec.quantum exampleSites [0, 3]))
      = Spec.energy true 9.4 (Spec.static α β) exampleSites [exampleCoupling] [0, 3]
        - Spec.energy true 9.4 (Spec.static α β) exampleSites [exampleCoupling] [1, 3] := by
  apply C80_channels_partial
  · unfold Spec.IsState exampleSites
    simp
  · unfold Spec.IsState exampleSites
    simp
  · unfold exampleSites Site.Upright
    intro s hs
    simp only [List.mem_cons, List.not_mem_nil, or_false] at hs
    rcases hs with rfl | rfl <;> norm_num
  · unfold exampleSites exampleCoupling Coupling.Upright
    intro k hk
    simp only [List.mem_cons, List.not_mem_nil, or_false] at hk
    subst hk
    norm_num
  · right
    intro i s h h1
    match i with
    | 0 =>
      simp [exampleSites] at h
      subst h
      simp at h1
    | 1 => rfl
    | i + 2 => simp [exampleSites] at h

/-- A proton and a deuteron with a coupling constant of `Cq`, its axis along that of the crystallite. -/
noncomputable def protonDeuteron (Cq : ℝ) : List Site :=
  [⟨1, 42.58, 0, 0, 0, ⟨0, 0, 0⟩, 0, 0, ⟨0, 0, 0⟩⟩, ⟨2, 6.54, 0, 0, 0, ⟨0, 0, 0⟩, Cq, 0, ⟨0, 0, 0⟩⟩]

theorem along_zero (η : ℝ) (v : Fin 3 → ℝ) : Spec.along (Spec.haeberlen 0 η) v = 0 := by
  simp [Spec.along, Spec.haeberlen, dotProduct, Matrix.mulVec_diagonal, Fin.sum_univ_three]

theorem deuteron_energy (Cq : ℝ) (j : Fin 3) :
    Spec.siteEnergy true 9.4 (Spec.static 0 0) ⟨2, 6.54, 0, 0, 0, ⟨0, 0, 0⟩, Cq, 0, ⟨0, 0, 0⟩⟩ j
      = Cq / 2 * (1 / 2 * (3 * Spec.mag 2 j ^ 2 - 2)) := by
  have hV : Spec.gradient 0 ⟨0, 0, 0⟩ (Spec.static 0 0) = Spec.haeberlen 1 0 := by
    have h1 : Spec.euler 0 0 0 * Spec.static 0 0 = 1 := by
      ext a b
      fin_cases a <;> fin_cases b <;>
        simp [Spec.euler, Spec.static, Spec.Rz, Spec.Ry, Matrix.mul_apply, Fin.sum_univ_three]
    unfold Spec.gradient
    simp only
    rw [h1]
    simp
  unfold Spec.siteEnergy
  simp only [hV, along_zero]
  rw [E1_quad _ _ _ (haeberlen_symm _ _) (haeberlen_trace _ _), E2_quad _ _ _ (haeberlen_symm _ _) (haeberlen_trace _ _)]
  simp [Spec.haeberlen, Spec.cfac, Spec.casimir]
  norm_num

/-- **C80, where the code disagrees.** A transition of the deuteron, in a method whose first channel is the proton: the frequency does
not depend on the quadrupole coupling, whereas the energies do, and so does the frequency when the channels are given in the other order. -/
theorem C80_counterexample (Cq : ℝ) (h : Cq ≠ 0) :
    localFreq WC.exact (fourth 1) (Real.cos 0) (Real.sin 0) (exp ((0 : ℝ) * I)) 1 0
        (methodComponents WC.exact TC.exact 1 9.4 (protonDeuteron Cq) [] (Spec.quantum (protonDeuteron Cq) [0, 0])
          (Spec.quantum (protonDeuteron Cq) [0, 1])) = 0 ∧
    localFreq WC.exact (fourth 2) (Real.cos 0) (Real.sin 0) (exp ((0 : ℝ) * I)) 1 0
        (methodComponents WC.exact TC.exact 2 9.4 (protonDeuteron Cq) [] (Spec.quantum (protonDeuteron Cq) [0, 0])
          (Spec.quantum (protonDeuteron Cq) [0, 1])) = -(3 / 4) * Cq ∧
    Spec.energy true 9.4 (Spec.static 0 0) (protonDeuteron Cq) [] [0, 1]
        - Spec.energy true 9.4 (Spec.static 0 0) (protonDeuteron Cq) [] [0, 0] = -(3 / 4) * Cq ∧
    -(3 / 4) * Cq ≠ 0 := by
  have he : ∀ Cq, Spec.energy true 9.4 (Spec.static 0 0) (protonDeuteron Cq) [] [0, 1]
        - Spec.energy true 9.4 (Spec.static 0 0) (protonDeuteron Cq) [] [0, 0] = -(3 / 4) * Cq := by
    intro Cq
    unfold Spec.energy protonDeuteron
    simp only [List.zipWith_cons_cons, List.zipWith_nil_right, List.sum_cons, List.sum_nil, List.map_nil]
    rw [deuteron_energy, deuteron_energy]
    simp [Spec.mag]
    ring
  have hi : ∀ Cq, Spec.IsState (protonDeuteron Cq) [0, 0] := by simp [Spec.IsState, protonDeuteron]
  have hf : ∀ Cq, Spec.IsState (protonDeuteron Cq) [0, 1] := by simp [Spec.IsState, protonDeuteron]
  have hs : ∀ Cq, ∀ s ∈ protonDeuteron Cq, s.Upright ∧ 1 ≤ s.n := by simp [protonDeuteron, Site.Upright]
  refine ⟨?_, ?_, he Cq, by simpa using h⟩
  · have h1 : (protonDeuteron Cq).map (packed 1) = (protonDeuteron 0).map (packed 2) := by simp [protonDeuteron, packed]
    have h2 := C73_energies_partial false 9.4 0 0 (protonDeuteron 0) [] [0, 0] [0, 1] (hi 0) (hf 0) (hs 0) (by simp)
    unfold methodComponents
    rw [h1, packed_big 2 (by norm_num)]
    have hq : ∀ x, Spec.quantum (protonDeuteron Cq) x = Spec.quantum (protonDeuteron 0) x := by
      intro x
      simp only [Spec.quantum, protonDeuteron]
      rcases x with _ | ⟨a, _ | ⟨b, x⟩⟩ <;> simp
    rw [hq, hq]
    refine h2.trans ?_
    unfold Spec.energy protonDeuteron Spec.siteEnergy
    simp [Spec.quadH, Spec.E1, along_zero]
  · rw [C80_channels_partial 2 9.4 0 0 _ [] [0, 0] [0, 1] (hi Cq) (hf Cq) (hs Cq) (by simp) (Or.inl (by norm_num))]
    exact he Cq

end MRS.Freq
