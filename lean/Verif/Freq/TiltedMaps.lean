import Verif.Freq.AnyTilt
import Verif.Freq.RunMap
import Verif.Freq.Tilted

/-!
# Powder patterns and sideband separation for tilts of any sign (properties C88 and C97)

The code drops the signs of the second Euler angles (C73).  The theorems of `PowderPattern.lean` and `SidebandSep.lean` speak of angles
that have none; here they are for all angles, with the spin system without the signs on the side of the specification.
-/

namespace MRS.Freq
open Complex Filter Topology

theorem unturned_absolute (ss : List Site) (ks : List Coupling) (h : Spec.Unturned ss ks) :
    Spec.Unturned (ss.map Spec.absSite) (ks.map Spec.absCoupling) := upright_unturned ⟨ss, ks⟩ h

theorem halfOnly_absolute (ss : List Site) (x : List ℕ × List ℕ) (h : Spec.HalfOnly ss x) : Spec.HalfOnly (ss.map Spec.absSite) x := by
  intro k s hs hn
  rw [List.getElem?_map, Option.map_eq_some_iff] at hs
  obtain ⟨s', hs', rfl⟩ := hs
  exact h k s' hs' hn

theorem ssbMap_absolute (W : WC) (T : TC) (four : Bool) (nt nOct N : ℕ) [NeZero N] (B0 θ : ℝ) (ν inc off : ℝ × ℝ) (count : ℕ × ℕ)
    (ss : List Site) (ks : List Coupling) (P : ℕ → ℕ → ℂ) (x : List ℕ × List ℕ) :
    ssbMap W T four nt nOct N B0 θ ν inc off count (ss.map Spec.absSite) (ks.map Spec.absCoupling) P x
      = ssbMap W T four nt nOct N B0 θ ν inc off count ss ks P x := by
  have hp : pack (ss.map Spec.absSite) [x, x] = pack ss [x, x] := by
    unfold pack
    simp only [quantum_absolute]
  unfold ssbMap
  simp only [quantum_absolute, components_absolute, hp, map2D, coreLoop_upright]

/-- **C88 (static, all angles), partial.** The pattern of a static powder is that of the spin system without the signs of the tilts. -/
theorem C88_tilted_partial (four : Bool) (B0 : ℝ) (ss : List Site) (ks : List Coupling) (xi xf : List ℕ)
    (hi : Spec.IsState ss xi) (hf : Spec.IsState ss xf) (hs : ∀ s ∈ ss, 1 ≤ s.n) (hk : ∀ k ∈ ks, k.A < ss.length ∧ k.X < ss.length)
    (nOct : ℕ) (hO : nOct = 4 ∨ nOct = 1 ∧ Spec.Unturned ss ks) (junk : ℕ → ℕ → ℕ → ℂ) (νr inv off : ℝ) (count k : ℤ)
    (hk0 : 0 ≤ k) (hkm : k < count) :
    let f := Spec.line four B0 (ss.map Spec.absSite) (ks.map Spec.absCoupling) xi xf
    ∀ (_ : ¬ (|inv * (f (0, Real.pi / 2) - f (Real.pi / 2, Real.pi / 2))| < 1 / 1000000 ∧
        |inv * (f (0, Real.pi / 2) - f (0, 0))| < 1 / 1000000))
      (_ : 0 ≤ off + inv * Spec.sphereMean f ∧ off + inv * Spec.sphereMean f < count + 1)
      (_ : 1 ≤ k ∨ ∀ p, 0 ≤ off + inv * f p),
    let t := components WC.exact TC.exact four B0 ss ks (Spec.quantum ss xi) (Spec.quantum ss xf)
    (∀ nt, 1 ≤ nt → ∃ u, spectrum WC.exact four nt nOct 1 νr 1 0 inv off count (startRows four (junk nt) nt) t = .ok u) ∧
    Tendsto (fun nt => Bin.val k (spectrum WC.exact four nt nOct 1 νr 1 0 inv off count (startRows four (junk nt) nt) t)) atTop
      (𝓝 (3 * Real.pi * Spec.sphereMean fun p => if (k : ℝ) ≤ off + inv * f p ∧ off + inv * f p < k + 1 then 1 else 0)) := by
  intro f hd hw hg
  have h := C88_static_partial four B0 _ _ xi xf (state_absolute ss xi hi) (state_absolute ss xf hf) (upright_absolute ss hs)
    (couplings_absolute ss ks hk) nOct (hO.imp id fun h => ⟨h.1, unturned_absolute ss ks h.2⟩) junk νr inv off count k hk0 hkm hd hw hg
  rw [components_absolute, quantum_absolute, quantum_absolute] at h
  exact h

/-- **C88 (spinning, all angles), partial.** -/
theorem C88_tilted_spinning_partial (four : Bool) (B0 θ νr : ℝ) (hν : 0 < νr) (ss : List Site) (ks : List Coupling) (xi xf : List ℕ)
    (hi : Spec.IsState ss xi) (hf : Spec.IsState ss xf) (hs : ∀ s ∈ ss, 1 ≤ s.n) (hk : ∀ k ∈ ks, k.A < ss.length ∧ k.X < ss.length)
    (junk : ℕ → ℕ → ℕ → ℕ → ℂ) (inv off : ℝ) (count k : ℤ) (hk1 : 1 ≤ k) (hkm : k < count) :
    let f : ℝ × ℝ → ℝ → ℝ := fun p => Spec.momentary four B0 p.1 p.2 θ νr (ss.map Spec.absSite) (ks.map Spec.absCoupling) xi xf
    let ν : ℝ × ℝ → ℝ := fun p => Spec.average νr (f p)
    ∀ (_ : ¬ (|inv * (ν (0, Real.pi / 2) - ν (Real.pi / 2, Real.pi / 2))| < 1 / 1000000 ∧
        |inv * (ν (0, Real.pi / 2) - ν (0, 0))| < 1 / 1000000))
      (M : Finset ℤ) (_ : ∀ m : ℤ, m ∈ M ↔ -1 < off + inv * (Spec.sphereMean ν + m * νr) ∧
        off + inv * (Spec.sphereMean ν + m * νr) < count + 1) (ε : ℝ) (_ : 0 < ε),
    ∃ N0 : ℕ, ∀ N, N0 ≤ N → ∀ [NeZero N], ∃ n0 : ℕ, ∀ nt, n0 ≤ nt →
      |Bin.val k (spectrum WC.exact four nt 4 N νr (Real.cos θ) (Real.sin θ) inv off count (startRows four (junk N nt) nt)
          (components WC.exact TC.exact four B0 ss ks (Spec.quantum ss xi) (Spec.quantum ss xf)))
        - ∑ m ∈ M, 3 * Real.pi * Spec.sphereMean (fun p =>
            if (k : ℝ) ≤ off + inv * (ν p + m * νr) ∧ off + inv * (ν p + m * νr) < k + 1 then Spec.sideband νr (f p) m else 0)| < ε := by
  intro f ν hd M hM ε hε
  have h := C88_spinning_partial four B0 θ νr hν _ _ xi xf (state_absolute ss xi hi) (state_absolute ss xf hf) (upright_absolute ss hs)
    (couplings_absolute ss ks hk) junk inv off count k hk1 hkm hd M hM ε hε
  rw [components_absolute, quantum_absolute, quantum_absolute] at h
  exact h

/-- **C97 (all angles), partial.** The peaks of the map of sideband separation for tilts of any sign: those of the spin system without the signs.
Missing: the tabulated decimals; a decimal approximation of the magic angle; row and column 0; a single octant (C78). -/
theorem C97_tilted_partial (four : Bool) (B0 θ : ℝ) (ν inc off : ℝ × ℝ) (h0 : 0 < ν.1) (hθ : 3 * Real.cos θ ^ 2 = 1)
    (hi : 0 < inc.1 ∧ 0 < inc.2) (count : ℕ × ℕ) (hfast : count.2 * inc.2 ≤ ν.2)
    (ss : List Site) (ks : List Coupling) (x : List ℕ × List ℕ) (hx : Spec.IsState ss x.1 ∧ Spec.IsState ss x.2)
    (hs : ∀ s ∈ ss, 1 ≤ s.n) (hk : ∀ k ∈ ks, k.A < ss.length ∧ k.X < ss.length) (hh : Spec.HalfOnly ss x)
    (f : ℝ) (hf : f = Spec.isotropic ⟨B0, 1, θ, ν.2⟩ (ss.map Spec.absSite) (ks.map Spec.absCoupling) x)
    (hin : 0 ≤ off.2 + f / inc.2 ∧ off.2 + f / inc.2 < count.2)
    (junk : ℕ → ℕ → ℕ → ℕ → ℂ) (r col : ℤ) (hr : 1 ≤ r ∧ r < count.1) (hcol : 1 ≤ col ∧ col < count.2) :
    ∃ V : ℕ → ℝ, (∀ n, (∀ nt, 1 ≤ nt → ∃ w, ssbMap WC.exact TC.exact four nt 4 (n + 2) B0 θ ν inc off count ss ks (startRows four (junk n nt) nt) x = .ok w) ∧
        Tendsto (fun nt => Bin.val (r * count.2 + col) (ssbMap WC.exact TC.exact four nt 4 (n + 2) B0 θ ν inc off count ss ks
          (startRows four (junk n nt) nt) x)) atTop (𝓝 (((n + 2 : ℕ) : ℝ) ^ 2 * V n))) ∧
      Tendsto V atTop (𝓝 (3 * Real.pi * ∑ᶠ m : ℤ, Spec.drawn count.1 (off.1 + m * ν.1 / inc.1) r *
        (Spec.drawn count.2 (off.2 + f / inc.2) col * Spec.sphereMean fun p =>
          Spec.sideband ν.1 (Spec.momentary true B0 p.1 p.2 θ ν.1 (ss.map Spec.absSite) (ks.map Spec.absCoupling) x.1 x.2) m *
          Spec.sideband ν.2 (Spec.momentary true B0 p.1 p.2 θ ν.2 (ss.map Spec.absSite) (ks.map Spec.absCoupling) x.1 x.2) 0))) := by
  have h := C97_peaks_partial four B0 θ ν inc off h0 hθ hi count hfast _ _ x ⟨state_absolute ss x.1 hx.1, state_absolute ss x.2 hx.2⟩
    (upright_absolute ss hs) (couplings_absolute ss ks hk) (halfOnly_absolute ss x hh) f hf hin junk r col hr hcol
  simp only [ssbMap_absolute] at h
  exact h

/-- The hypotheses on the spin system hold for a proton, tilted by a negative angle, that is coupled to a spin 3/2 and alone changes its state. -/
example : (Spec.IsState tiltedSites [1, 2] ∧ Spec.IsState tiltedSites [0, 2]) ∧ Spec.HalfOnly tiltedSites ([1, 2], [0, 2]) ∧
    (∃ s ∈ tiltedSites, s.Θs.β < 0) ∧ (∀ s ∈ tiltedSites, 1 ≤ s.n) ∧ ∀ k ∈ [exampleCoupling], k.A < tiltedSites.length ∧ k.X < tiltedSites.length := by
  refine ⟨⟨by unfold Spec.IsState tiltedSites; simp, by unfold Spec.IsState tiltedSites; simp⟩, ?_, ⟨_, List.mem_cons_self, by norm_num⟩,
    fun s h => (tiltedSites_ok s h).1, fun k h => ⟨(exampleCoupling_ok k h).1, (exampleCoupling_ok k h).2.1⟩⟩
  intro k s hk hn
  rcases k with - | - | k
  · unfold tiltedSites at hk
    simp only [List.getElem?_cons_zero, Option.some.injEq] at hk
    subst hk
    exact absurd hn (by norm_num)
  · rfl
  · simp

/-- A site with an axial shift tensor that is tilted by `-π/3`. -/
noncomputable def bentSite : Site := ⟨1, 1, 0, 4, 0, ⟨0, -(Real.pi / 3), 0⟩, 0, 0, ⟨0, 0, 0⟩⟩

theorem bentSite_iso : (components WC.exact TC.exact false 1 [bentSite] [] (Spec.quantum [bentSite] [0]) (Spec.quantum [bentSite] [1])).R0 = 0 := by
  norm_num [components, addSites, addSite, bentSite, Spec.quantum, shieldingPart, addT, zeroT, fcf, ssotShielding]
  split_ifs <;> simp [scaleT]

/-- A static powder of it, in bins of 1/100 Hz. -/
example (junk : ℕ → ℕ → ℕ → ℂ) (k : ℤ) (hk : 1 ≤ k ∧ k < 512) :
    let f := Spec.line false 1 ([bentSite].map Spec.absSite) [] [0] [1]
    Tendsto (fun nt => Bin.val k (spectrum WC.exact false nt 4 1 0 1 0 100 256 512 (startRows false (junk nt) nt)
      (components WC.exact TC.exact false 1 [bentSite] [] (Spec.quantum [bentSite] [0]) (Spec.quantum [bentSite] [1])))) atTop
      (𝓝 (3 * Real.pi * Spec.sphereMean fun p => if (k : ℝ) ≤ 256 + 100 * f p ∧ 256 + 100 * f p < k + 1 then 1 else 0)) := by
  intro f
  have hi : Spec.IsState [bentSite] [0] := by simp [Spec.IsState, bentSite]
  have hf : Spec.IsState [bentSite] [1] := by simp [Spec.IsState, bentSite]
  have hs : ∀ s ∈ [bentSite], 1 ≤ s.n := by simp [bentSite]
  have h0 : ∀ β, f (0, β) = 6 * (1 / 2 * Real.cos β - √3 / 2 * Real.sin β) ^ 2 - 2 := by
    intro β
    simp [f, Spec.line, Spec.energy, Spec.siteEnergy, Spec.field, Spec.static, bentSite, Spec.absSite, Spec.absAngles, Spec.mag, Spec.along,
      Spec.haeberlen, Spec.seen, Spec.euler, Spec.Rz, Spec.Ry, Matrix.mulVec, dotProduct, Fin.sum_univ_three, Matrix.mul_apply,
      Matrix.diagonal, Spec.quantum]
    rw [abs_of_pos (by positivity : (0 : ℝ) < Real.pi / 3), Real.sin_pi_div_three]
    have h3 : √(3 : ℝ) ^ 2 = 3 := Real.sq_sqrt (by norm_num)
    have h1 := Real.cos_sq_add_sin_sq β
    linear_combination (Real.sin β ^ 2 * (-1 / 2) - Real.cos β ^ 2 / 2) * h3 - 2 * h1
  have hm : Spec.sphereMean f = 0 := by
    have e : f = dirFreq WC.exact false 1 0
        (components WC.exact TC.exact false 1 [bentSite] [] (Spec.quantum [bentSite] [0]) (Spec.quantum [bentSite] [1])) := by
      funext p
      exact (C73_absolute_partial false 1 p.1 p.2 [bentSite] [] [0] [1] hi hf hs (by simp)).symm
    rw [e, dirFreq_mean, bentSite_iso]
  refine (C88_tilted_partial false 1 [bentSite] [] [0] [1] hi hf hs (by simp) 4 (Or.inl rfl)
    junk 0 100 256 512 k (by omega) hk.2 ?_ ?_ (Or.inl hk.1)).2
  · change ¬ (_ ∧ |100 * (f (0, Real.pi / 2) - f (0, 0))| < 1 / 1000000)
    rintro ⟨-, h⟩
    have h3 : √(3 : ℝ) ^ 2 = 3 := Real.sq_sqrt (by norm_num)
    rw [h0, h0, show (100 : ℝ) * (6 * (1 / 2 * Real.cos (Real.pi / 2) - √3 / 2 * Real.sin (Real.pi / 2)) ^ 2 - 2
      - (6 * (1 / 2 * Real.cos 0 - √3 / 2 * Real.sin 0) ^ 2 - 2)) = 300 by
        rw [Real.cos_pi_div_two, Real.sin_pi_div_two, Real.cos_zero, Real.sin_zero]
        linear_combination 150 * h3] at h
    norm_num at h
  · change 0 ≤ 256 + 100 * Spec.sphereMean f ∧ 256 + 100 * Spec.sphereMean f < ((512 : ℤ) : ℝ) + 1
    rw [hm]
    norm_num

end MRS.Freq
