import Verif.Freq.Decimals
import Verif.Freq.Moments
import Verif.Freq.Folding
import Verif.Freq.Slow

/-!
# Moments, folding and slow spinning for tilts of any sign (properties C116, C117 and C118)

The code drops the signs of the second Euler angles (C73).  The theorems of `Moments.lean`, `Folding.lean` and `Slow.lean` speak of angles
that have none; here they are for all angles, with the spin system without the signs on the side of the specification.
-/

namespace MRS.Freq
open Complex Filter Topology

/-- **C116 (all angles), partial.** Whatever the signs of the tilts, the sidebands have the moments of orders zero, one and two of one and
the same static spectrum, that of the spin system without the signs. -/
theorem C116_tilted_partial (four : Bool) (B0 θ νr : ℝ) (hν : 0 < νr) (ss : List Site) (ks : List Coupling) (xi xf : List ℕ)
    (hi : Spec.IsState ss xi) (hf : Spec.IsState ss xf) (hs : ∀ s ∈ ss, 1 ≤ s.n) (hk : ∀ k ∈ ks, k.A < ss.length ∧ k.X < ss.length) :
    let t := components WC.exact TC.exact four B0 ss ks (Spec.quantum ss xi) (Spec.quantum ss xf)
    let F : ℝ × ℝ → ℝ := fun p => localFreq WC.exact four (Real.cos p.2) (Real.sin p.2) (exp (p.1 * I)) (Real.cos θ) (Real.sin θ) t
    ∃ J : ℝ × ℝ → ℤ → ℝ,
      (∀ p, ∀ m : ℤ, Filter.Tendsto (fun n : ℕ => Sim.sidebandAmps (fun j : ZMod (n + 1) => crystalPhase WC.exact four (n + 1) νr
          (Real.cos p.2) (Real.sin p.2) (exp (p.1 * I)) (Real.cos θ) (Real.sin θ) t j.val) (m : ZMod (n + 1)) / ((n + 1 : ℕ) : ℝ) ^ 2)
          Filter.atTop (nhds (J p m))) ∧
      ∀ k ≤ 2, (∀ p, Summable fun m : ℤ => J p m * (F p + m * νr) ^ k) ∧
        Spec.sphereMean (fun p => Spec.sidebandMoment k νr (F p) (J p))
          = Spec.staticMoment k four B0 (ss.map Spec.absSite) (ks.map Spec.absCoupling) xi xf := by
  have h := C116_powder_partial four B0 θ νr hν _ _ xi xf (state_absolute ss xi hi) (state_absolute ss xf hf)
    (upright_absolute ss hs) (couplings_absolute ss ks hk)
  rw [components_absolute, quantum_absolute, quantum_absolute] at h
  exact h

/-- **C117 (all angles), partial.** -/
theorem C117_tilted_partial (four : Bool) (N : ℕ) [NeZero N] (B0 α β θ νr : ℝ) (hν : 0 < νr) (ss : List Site)
    (ks : List Coupling) (xi xf : List ℕ) (hi : Spec.IsState ss xi) (hf : Spec.IsState ss xf)
    (hs : ∀ s ∈ ss, 1 ≤ s.n) (hk : ∀ k ∈ ks, k.A < ss.length ∧ k.X < ss.length) (m : ℤ) :
    let f := Spec.momentary four B0 α β θ νr (ss.map Spec.absSite) (ks.map Spec.absCoupling) xi xf
    Summable (fun k : ℤ => Spec.coefficient νr f (m + k * N)) ∧
    Sim.sidebandAmps (fun j : ZMod N => crystalPhase WC.exact four N νr (Real.cos β) (Real.sin β) (exp (α * I)) (Real.cos θ) (Real.sin θ)
        (components WC.exact TC.exact four B0 ss ks (Spec.quantum ss xi) (Spec.quantum ss xf)) j.val) (m : ZMod N) / (N : ℝ) ^ 2
      = ‖Spec.folded N νr f m‖ ^ 2 := by
  have h := C117_folding_partial four N B0 α β θ νr hν _ _ xi xf (state_absolute ss xi hi) (state_absolute ss xf hf)
    (upright_absolute ss hs) (couplings_absolute ss ks hk) m
  rw [components_absolute, quantum_absolute, quantum_absolute] at h
  exact h

/-- **C117 (the source), partial.** With the decimals of the source as well: what it computes for sideband `m` is the folded intensity up to
about six digits of every interaction in units of the rotor frequency. -/
theorem C117_decimals_partial (four : Bool) (N : ℕ) [NeZero N] (B0 α β θ νr : ℝ) (hν : 0 < νr) (ss : List Site)
    (ks : List Coupling) (xi xf : List ℕ) (hi : Spec.IsState ss xi) (hf : Spec.IsState ss xf)
    (hs : ∀ s ∈ ss, 1 ≤ s.n ∧ |s.eta| ≤ 1 ∧ |s.etaQ| ≤ 1) (hk : ∀ k ∈ ks, k.A < ss.length ∧ k.X < ss.length ∧ |k.eta| ≤ 1) (m : ℤ) :
    let f := Spec.momentary four B0 α β θ νr (ss.map Spec.absSite) (ks.map Spec.absCoupling) xi xf
    |Sim.sidebandAmps (fun j : ZMod N => crystalPhase WC.src four N νr (Real.cos β) (Real.sin β) (exp (α * I)) (Real.cos θ) (Real.sin θ)
        (components WC.src TC.src four B0 ss ks (Spec.quantum ss xi) (Spec.quantum ss xf)) j.val) (m : ZMod N) / (N : ℝ) ^ 2
      - ‖Spec.folded N νr f m‖ ^ 2| ≤ 50 / 3 * Spec.tol B0 ss ks (Spec.quantum ss xi) (Spec.quantum ss xf) / νr := by
  intro f
  have hN : 0 < N := Nat.pos_of_ne_zero (NeZero.ne N)
  rw [← (C117_tilted_partial four N B0 α β θ νr hν ss ks xi xf hi hf (fun s h => (hs s h).1) (fun k h => ⟨(hk k h).1, (hk k h).2.1⟩) m).2]
  have hd := amps_near (fun j : ZMod N =>
          crystalPhase WC.src four N νr (Real.cos β) (Real.sin β) (exp (α * I)) (Real.cos θ) (Real.sin θ)
            (components WC.src TC.src four B0 ss ks (Spec.quantum ss xi) (Spec.quantum ss xf)) j.val)
    (fun j : ZMod N =>
          crystalPhase WC.exact four N νr (Real.cos β) (Real.sin β) (exp (α * I)) (Real.cos θ) (Real.sin θ)
            (components WC.exact TC.exact four B0 ss ks (Spec.quantum ss xi) (Spec.quantum ss xf)) j.val) _
    (fun j => phase_near four N hN B0 α β θ νr hν ss ks hs (fun k h => (hk k h).2.2) _ _ j.val) (m : ZMod N)
  exact hd.trans (le_of_eq (by ring))

/-- **C118 (all angles), partial.** -/
theorem C118_tilted_partial (four : Bool) (B0 θ : ℝ) (ss : List Site) (ks : List Coupling) (xi xf : List ℕ)
    (hi : Spec.IsState ss xi) (hf : Spec.IsState ss xf) (hs : ∀ s ∈ ss, 1 ≤ s.n) (hk : ∀ k ∈ ks, k.A < ss.length ∧ k.X < ss.length) :
    let t := components WC.exact TC.exact four B0 ss ks (Spec.quantum ss xi) (Spec.quantum ss xf)
    let F : ℝ × ℝ → ℝ := fun p => localFreq WC.exact four (Real.cos p.2) (Real.sin p.2) (exp (p.1 * I)) (Real.cos θ) (Real.sin θ) t
    ∃ J : ℝ → ℝ × ℝ → ℤ → ℝ,
      (∀ νr, 0 < νr → ∀ p, ∀ m : ℤ, Tendsto (fun n : ℕ => Sim.sidebandAmps (fun j : ZMod (n + 1) => crystalPhase WC.exact four (n + 1) νr
          (Real.cos p.2) (Real.sin p.2) (exp (p.1 * I)) (Real.cos θ) (Real.sin θ) t j.val) (m : ZMod (n + 1)) / ((n + 1 : ℕ) : ℝ) ^ 2)
          atTop (𝓝 (J νr p m))) ∧
      ∀ φ : BoundedContinuousFunction ℝ ℝ, Tendsto (fun νr => Spec.sphereMean fun p => Spec.overSidebands νr (F p) (J νr p) φ) (𝓝[>] 0)
        (𝓝 (Spec.sphereMean fun p => φ (Spec.line four B0 (ss.map Spec.absSite) (ks.map Spec.absCoupling) xi xf p))) := by
  have h := C118_powder_partial four B0 θ _ _ xi xf (state_absolute ss xi hi) (state_absolute ss xf hf)
    (upright_absolute ss hs) (couplings_absolute ss ks hk)
  rw [components_absolute, quantum_absolute, quantum_absolute] at h
  exact h

/-- The hypotheses hold for the satellite transition of a spin 3/2 coupled to a proton, with tilts by negative angles. -/
example : (Spec.IsState tiltedSites [0, 3] ∧ Spec.IsState tiltedSites [0, 2]) ∧ (∃ s ∈ tiltedSites, s.Θs.β < 0) ∧
    (∃ s ∈ tiltedSites, s.Θq.β < 0) := by
  refine ⟨⟨by unfold Spec.IsState tiltedSites; simp, by unfold Spec.IsState tiltedSites; simp⟩, ?_, ?_⟩
  · exact ⟨_, List.mem_cons_self, by norm_num⟩
  · exact ⟨_, List.mem_cons_of_mem _ List.mem_cons_self, by norm_num⟩

/-- Eight sidebands of that transition at 10 kHz, as the source computes them. -/
example (α β θ : ℝ) (m : ℤ) :
    |Sim.sidebandAmps (fun j : ZMod 8 => crystalPhase WC.src true 8 10000 (Real.cos β) (Real.sin β) (exp (α * I)) (Real.cos θ) (Real.sin θ)
        (components WC.src TC.src true 9.4 tiltedSites [exampleCoupling] (Spec.quantum tiltedSites [0, 3]) (Spec.quantum tiltedSites [0, 2]))
          j.val) (m : ZMod 8) / ((8 : ℕ) : ℝ) ^ 2
      - ‖Spec.folded 8 10000 (Spec.momentary true 9.4 α β θ 10000 (tiltedSites.map Spec.absSite) ([exampleCoupling].map Spec.absCoupling)
          [0, 3] [0, 2]) m‖ ^ 2|
      ≤ 50 / 3 * Spec.tol 9.4 tiltedSites [exampleCoupling] (Spec.quantum tiltedSites [0, 3]) (Spec.quantum tiltedSites [0, 2]) / 10000 :=
  C117_decimals_partial true 8 9.4 α β θ 10000 (by norm_num) tiltedSites [exampleCoupling] [0, 3] [0, 2]
    (by unfold Spec.IsState tiltedSites; simp) (by unfold Spec.IsState tiltedSites; simp) tiltedSites_ok exampleCoupling_ok m

end MRS.Freq
