import Verif.Freq.SourceSpin
import Verif.Freq.Octants

/-!
# Interactions and powders with the decimals of the source (properties C70, C71, C72, C74 and C77)

The theorems of `System.lean`, `Second.lean` and `Octants.lean` take the square roots that the decimals of the tables stand for, and
tilts by nonnegative angles.  Here are the same statements with the constants as the source has them and tilts of any sign: the
frequency is that of the interaction without the sign of the tilt (C73), up to a few parts in `10^7` of its strength.
-/

namespace MRS.Freq
open Complex Matrix

/-- The direction of the field in the rotor frame as the angles give it. -/
noncomputable def anyOrient (α β θ : ℝ) : Orient :=
  ⟨Real.cos β, Real.sin β, exp (α * I), Real.cos θ, Real.sin θ, Real.cos_sq_add_sin_sq β, exp_norm α, Real.cos_sq_add_sin_sq θ⟩

/-- The field of a static sample. -/
noncomputable def staticOrient (α β : ℝ) : Orient :=
  ⟨Real.cos β, Real.sin β, exp (α * I), 1, 0, Real.cos_sq_add_sin_sq β, exp_norm α, by norm_num⟩

/-- C70 with the cosine and sine that `wigner_d_matrices` takes from the table: every element of both matrices is that of Wigner's
formula for the angle without its sign, to five parts in `10^9` and `10^8`, and less close to a full turn and beyond. -/
theorem C70_table (β : ℝ) :
    (∀ i j, i < 5 → j < 5 →
      |wigner2j WC.src (Sim.tableCosSin β).1 (Sim.tableCosSin β).2 (5 * i + j) - Spec.wignerD 2 ((j : ℤ) - 2) ((i : ℤ) - 2) (|β|)|
        ≤ 5 / 10 ^ 9 * Spec.edge β) ∧
    (∀ i j, i < 9 → j < 9 →
      |wigner4j WC.src (Sim.tableCosSin β).1 (Sim.tableCosSin β).2 (9 * i + j) - Spec.wignerD 4 ((j : ℤ) - 4) ((i : ℤ) - 4) (|β|)|
        ≤ 5 / 10 ^ 8 * Spec.edge β) := by
  constructor
  · intro i j hi hj
    rw [← wigner2j_exact |β| i j hi hj]
    have h := (wMatrix_table 2 (Or.inl rfl) β i j hi hj).1
    simp only [wMatrix, tEps, if_true] at h
    exact h
  · intro i j hi hj
    rw [← wigner4j_exact |β| i j hi hj]
    have h := (wMatrix_table 4 (Or.inr rfl) β i j hi hj).1
    simp only [wMatrix, tEps, show (4 : ℕ) ≠ 2 by norm_num, if_false, if_true] at h
    exact h

/-- An angle between the entries of the table. -/
example : |wigner4j WC.src (Sim.tableCosSin 1.00005).1 (Sim.tableCosSin 1.00005).2 (9 * 3 + 8) - Spec.wignerD 4 4 (-1) 1.00005| ≤ 5 / 10 ^ 8 := by
  have h := (C70_table 1.00005).2 3 8 (by norm_num) (by norm_num)
  rw [edge_small _ (by norm_num [abs_of_nonneg]), abs_of_nonneg (by norm_num : (0 : ℝ) ≤ 1.00005)] at h
  norm_num at h ⊢
  exact h

/-- **C71 with the constants and the table of the source, partial.**  The components of a rank 2 tensor, none larger than `B`, are those
of the tensor in the frame rotated by the angles without the sign of the second, to two or three parts in `10^8`; the more so, the closer
the angle is to a full turn, where the table ends. -/
theorem C71_decimals_partial (A : Matrix (Fin 3) (Fin 3) ℝ) (hA : A.IsSymm) (ht : A.trace = 0) (α β γ B : ℝ)
    (hB : ∀ j < 5, ‖Spec.sph A j‖ ≤ B) (i : ℕ) (hi : i < 5) :
    ‖singleRotation WC.src 2 α β γ (Spec.sph A) i - Spec.sph ((Spec.euler α |β| γ)ᵀ * A * Spec.euler α |β| γ) i‖
      ≤ 2.5 / 10 ^ 8 * Spec.edge β * B := by
  have h := (single_close 2 (Or.inl rfl) α β γ 0 B (Spec.sph A) (Spec.sph A) (fun j hj => ⟨by simp, hB j hj⟩) i hi).1
  rw [rotation_cartesian A hA ht α β γ _ (fun _ _ => rfl) i hi] at h
  refine h.trans (le_of_eq ?_)
  norm_num [tEps]
  ring

/-- An axial tensor, tilted by a negative angle. -/
example (i : ℕ) (hi : i < 5) : ‖singleRotation WC.src 2 1 (-2) 3 (Spec.sph !![-1/2, 0, 0; 0, -1/2, 0; 0, 0, 1]) i
    - Spec.sph ((Spec.euler 1 2 3)ᵀ * !![-1/2, 0, 0; 0, -1/2, 0; 0, 0, 1] * Spec.euler 1 2 3) i‖ ≤ 3 / 10 ^ 8 := by
  have h := C71_decimals_partial !![-1/2, 0, 0; 0, -1/2, 0; 0, 0, 1]
    (by ext a b; fin_cases a <;> fin_cases b <;> rfl) (by simp [Matrix.trace, Fin.sum_univ_three]) 1 (-2) 3 1
    (by
      intro j hj
      interval_cases j <;> simp [Spec.sph, Complex.norm_def, Complex.normSq]) i hi
  rw [show |(-2 : ℝ)| = 2 by norm_num] at h
  refine h.trans ?_
  norm_num [Spec.edge]

/-- **C72 (shielding) with the constants as the source has them, partial.** -/
theorem C72_shielding_decimals_partial (four : Bool) (B0 : ℝ) (s : Site) (hη : |s.eta| ≤ 1) (mf mi α β θ : ℝ) :
    |localFreq WC.src four (Real.cos β) (Real.sin β) (exp (α * I)) (Real.cos θ) (Real.sin θ)
        (shieldingPart WC.src TC.src B0 s mf mi)
      - -B0 * s.gamma * (mf - mi) * (s.iso - (3 * Real.cos θ ^ 2 - 1) / 2
          * Spec.along (Spec.haeberlen s.zeta s.eta) (Spec.seen (Spec.absAngles s.Θs) (Spec.dir α β)))|
      ≤ 2 / 10 ^ 7 * Spec.edge s.Θs.β * (|mf - mi| * |s.zeta * (B0 * s.gamma)|) := by
  have h := shielding_near (anyOrient α β θ).probe four B0 s hη mf mi
  rw [Orient.probe_freq, Orient.probe_freq] at h
  have e := C72_shielding_partial four B0 (Spec.absSite s) (abs_nonneg _) mf mi α β (Real.cos θ) (Real.sin θ)
  have ea : shieldingPart WC.exact TC.exact B0 (Spec.absSite s) mf mi = shieldingPart WC.exact TC.exact B0 s mf mi := by
    simp only [Spec.absSite, shieldingPart, ssotShielding, toFrame_absAngles, larmor]
  rw [ea] at e
  have hl : |s.zeta * larmor B0 s| = |s.zeta * (B0 * s.gamma)| := by
    unfold larmor
    rw [show s.zeta * (-B0 * s.gamma) = -(s.zeta * (B0 * s.gamma)) by ring, abs_neg]
  rw [hl] at h
  simp only [Spec.absSite] at e
  rw [← e]
  exact h

/-- 20 ppm of a proton at 9.4 T, tilted by a negative angle: every line is right to 2 mHz (units of ppm times MHz are Hz). -/
example (α β θ : ℝ) :
    |localFreq WC.src true (Real.cos β) (Real.sin β) (exp (α * I)) (Real.cos θ) (Real.sin θ)
        (shieldingPart WC.src TC.src 9.4 ⟨1, 42.5, 10, 20, 0.3, ⟨0.1, -0.2, 0.3⟩, 0, 0, ⟨0, 0, 0⟩⟩ (1 / 2) (-1 / 2))
      - -9.4 * 42.5 * (1 / 2 - -1 / 2) * (10 - (3 * Real.cos θ ^ 2 - 1) / 2
          * Spec.along (Spec.haeberlen 20 0.3) (Spec.seen (Spec.absAngles ⟨0.1, -0.2, 0.3⟩) (Spec.dir α β)))| ≤ 1 / 500 := by
  refine (C72_shielding_decimals_partial true 9.4 ⟨1, 42.5, 10, 20, 0.3, ⟨0.1, -0.2, 0.3⟩, 0, 0, ⟨0, 0, 0⟩⟩
    (by norm_num [abs_of_nonneg]) (1 / 2) (-1 / 2) α β θ).trans ?_
  norm_num [Spec.edge, abs_of_nonneg]

/-- **C72 (quadrupole coupling, first order) with the constants as the source has them, partial.** -/
theorem C72_quadrupole_decimals_partial (four : Bool) (s : Site) (hη : |s.etaQ| ≤ 1) (f i : Fin (s.n + 1)) (α β : ℝ) :
    |localFreq WC.src four (Real.cos β) (Real.sin β) (exp (α * I)) 1 0
        (quad1Part WC.src TC.src s (Spec.mag s.n f) (Spec.mag s.n i))
      - (Spec.E1 (Spec.quadH s.n s.Cq (Spec.labGradient s.etaQ (Spec.absAngles s.Θq) α β)) f
        - Spec.E1 (Spec.quadH s.n s.Cq (Spec.labGradient s.etaQ (Spec.absAngles s.Θq) α β)) i)|
      ≤ 2 / 10 ^ 7 * Spec.edge s.Θq.β * (|Spec.mag s.n f ^ 2 - Spec.mag s.n i ^ 2| * |vq (s.n / 2) s.Cq|) := by
  have h := quad1_near (staticOrient α β).probe four s hη (Spec.mag s.n f) (Spec.mag s.n i)
  rw [Orient.probe_freq, Orient.probe_freq] at h
  have e := C72_quadrupole_partial four (Spec.absSite s) (abs_nonneg _) f i α β
  have ea : ∀ a b, quad1Part WC.exact TC.exact (Spec.absSite s) a b = quad1Part WC.exact TC.exact s a b := by
    intro a b
    simp only [Spec.absSite, quad1Part, ssotQuad1, toFrame_absAngles]
  rw [ea] at e
  have e' : localFreq WC.exact four (Real.cos β) (Real.sin β) (exp (α * I)) 1 0
        (quad1Part WC.exact TC.exact s (Spec.mag s.n f) (Spec.mag s.n i))
      = Spec.E1 (Spec.quadH s.n s.Cq (Spec.labGradient s.etaQ (Spec.absAngles s.Θq) α β)) f
        - Spec.E1 (Spec.quadH s.n s.Cq (Spec.labGradient s.etaQ (Spec.absAngles s.Θq) α β)) i := e
  rw [← e']
  exact h

/-- The satellite transition of a spin 3/2 with a coupling of 2 MHz, tilted by a negative angle: right to half a hertz. -/
example (α β : ℝ) : let s : Site := ⟨3, 11.3, -5, 30, 0.5, ⟨0.4, 0.5, 0.6⟩, 2000000, 0.7, ⟨1, -2, 3⟩⟩
    |localFreq WC.src true (Real.cos β) (Real.sin β) (exp (α * I)) 1 0 (quad1Part WC.src TC.src s (Spec.mag 3 (0 : Fin 4)) (Spec.mag 3 (1 : Fin 4)))
      - (Spec.E1 (Spec.quadH 3 2000000 (Spec.labGradient 0.7 (Spec.absAngles s.Θq) α β)) 0
        - Spec.E1 (Spec.quadH 3 2000000 (Spec.labGradient 0.7 (Spec.absAngles s.Θq) α β)) 1)| ≤ 1 / 2 := by
  intro s
  refine (C72_quadrupole_decimals_partial true s (by norm_num [s, abs_of_nonneg]) (0 : Fin 4) (1 : Fin 4) α β).trans ?_
  norm_num [s, Spec.edge, Spec.mag, vq, abs_of_nonneg]

/-- **C72 (J coupling) with the constants as the source has them, partial.** -/
theorem C72_j_decimals_partial (four : Bool) (k : Coupling) (hη : |k.eta| ≤ 1) (mIf mIi mSf mSi α β θ : ℝ) :
    |localFreq WC.src four (Real.cos β) (Real.sin β) (exp (α * I)) (Real.cos θ) (Real.sin θ)
        (jPart WC.src TC.src k mIf mIi mSf mSi)
      - (mIf * mSf - mIi * mSi) * (k.J + (3 * Real.cos θ ^ 2 - 1) / 2
          * Spec.along (Spec.haeberlen k.zeta k.eta) (Spec.seen (Spec.absAngles k.Θj) (Spec.dir α β)))|
      ≤ 2 / 10 ^ 7 * Spec.edge k.Θj.β * (|mIf * mSf - mIi * mSi| * |k.zeta|) := by
  have h := j_near (anyOrient α β θ).probe four k hη mIf mIi mSf mSi
  rw [Orient.probe_freq, Orient.probe_freq] at h
  have e := C72_j_partial four (Spec.absCoupling k) (abs_nonneg _) mIf mIi mSf mSi α β (Real.cos θ) (Real.sin θ)
  have ea : jPart WC.exact TC.exact (Spec.absCoupling k) mIf mIi mSf mSi = jPart WC.exact TC.exact k mIf mIi mSf mSi := by
    simp only [Spec.absCoupling, jPart, ssotJ, toFrame_absAngles]
  rw [ea] at e
  simp only [Spec.absCoupling] at e
  rw [← e]
  exact h

/-- A J tensor of a coupled pair. -/
example (α β θ : ℝ) :
    |localFreq WC.src true (Real.cos β) (Real.sin β) (exp (α * I)) (Real.cos θ) (Real.sin θ)
        (jPart WC.src TC.src ⟨0, 1, 20, 4, 0.1, ⟨0, -0.5, 0⟩, 0, ⟨0, 0, 0⟩⟩ (1 / 2) (-1 / 2) (1 / 2) (1 / 2))
      - (1 / 2 * (1 / 2) - -1 / 2 * (1 / 2)) * (20 + (3 * Real.cos θ ^ 2 - 1) / 2
          * Spec.along (Spec.haeberlen 4 0.1) (Spec.seen (Spec.absAngles ⟨0, -0.5, 0⟩) (Spec.dir α β)))| ≤ 1 / 1000 := by
  refine (C72_j_decimals_partial true ⟨0, 1, 20, 4, 0.1, ⟨0, -0.5, 0⟩, 0, ⟨0, 0, 0⟩⟩ (by norm_num [abs_of_nonneg])
    (1 / 2) (-1 / 2) (1 / 2) (1 / 2) α β θ).trans ?_
  norm_num [Spec.edge, abs_of_nonneg]

/-- **C72 (dipolar coupling) with the constants as the source has them, partial.** -/
theorem C72_dipolar_decimals_partial (four : Bool) (k : Coupling) (mIf mIi mSf mSi α β θ : ℝ) :
    |localFreq WC.src four (Real.cos β) (Real.sin β) (exp (α * I)) (Real.cos θ) (Real.sin θ)
        (dipolarPart WC.src k mIf mIi mSf mSi)
      - (mIf * mSf - mIi * mSi) * ((3 * Real.cos θ ^ 2 - 1) / 2
          * (k.D * (3 * (Spec.seen (Spec.absAngles k.Θd) (Spec.dir α β) 2) ^ 2 - 1)))|
      ≤ 2 / 10 ^ 7 * Spec.edge k.Θd.β * (|mIf * mSf - mIi * mSi| * |2 * k.D|) := by
  have h := dipolar_near (anyOrient α β θ).probe four k mIf mIi mSf mSi
  rw [Orient.probe_freq, Orient.probe_freq] at h
  have e := C72_dipolar_partial four (Spec.absCoupling k) (abs_nonneg _) mIf mIi mSf mSi α β (Real.cos θ) (Real.sin θ)
  have ea : dipolarPart WC.exact (Spec.absCoupling k) mIf mIi mSf mSi = dipolarPart WC.exact k mIf mIi mSf mSi := by
    simp only [Spec.absCoupling, dipolarPart, ssotDipolar, toFrame_absAngles]
  rw [ea] at e
  simp only [Spec.absCoupling] at e
  rw [← e]
  exact h

/-- A dipolar coupling of 2 kHz between two spins, tilted by -1: the line of a flip of the first is right to 1 mHz in every direction. -/
example (α β θ : ℝ) :
    |localFreq WC.src false (Real.cos β) (Real.sin β) (exp (α * I)) (Real.cos θ) (Real.sin θ)
        (dipolarPart WC.src ⟨0, 1, 20, 4, 0.1, ⟨0, 0.5, 0⟩, -2000, ⟨1, -1, 0⟩⟩ (1 / 2) (-1 / 2) (1 / 2) (1 / 2))
      - 1 / 2 * ((3 * Real.cos θ ^ 2 - 1) / 2
          * (-2000 * (3 * (Spec.seen ⟨1, 1, 0⟩ (Spec.dir α β) 2) ^ 2 - 1)))| ≤ 1 / 1000 := by
  have h := C72_dipolar_decimals_partial false ⟨0, 1, 20, 4, 0.1, ⟨0, 0.5, 0⟩, -2000, ⟨1, -1, 0⟩⟩ (1 / 2) (-1 / 2) (1 / 2) (1 / 2) α β θ
  norm_num [Spec.absAngles] at h ⊢
  exact h.trans (by norm_num [Spec.edge])

/-- **C74 with the constants as the source has them, partial.** The second-order shift is the difference of the second-order energies of
the quadrupole Hamiltonian to five parts in `10^7` of its scale, the square of the quadrupole frequency over the Larmor frequency. -/
theorem C74_decimals_partial (B0 : ℝ) (s : Site) (hη : |s.etaQ| ≤ 1) (α β : ℝ) (f i : Fin (s.n + 1)) :
    |localFreq WC.src true (Real.cos β) (Real.sin β) (exp (α * I)) 1 0
        (quad2Part WC.src TC.src B0 s (Spec.mag s.n f) (Spec.mag s.n i))
      - (Spec.E2 (Spec.quadH s.n s.Cq (Spec.labGradient s.etaQ (Spec.absAngles s.Θq) α β)) (-B0 * s.gamma * 1e6) f
        - Spec.E2 (Spec.quadH s.n s.Cq (Spec.labGradient s.etaQ (Spec.absAngles s.Θq) α β)) (-B0 * s.gamma * 1e6) i)|
      ≤ 5 / 10 ^ 7 * Spec.edge s.Θq.β * (clSize (s.n / 2) (Spec.mag s.n f) (Spec.mag s.n i)
        * |vq (s.n / 2) s.Cq * vq (s.n / 2) s.Cq / (-B0 * s.gamma * 1e6)|) := by
  have h := quad2_near (staticOrient α β).probe true B0 s hη (Spec.mag s.n f) (Spec.mag s.n i)
  rw [Orient.probe_freq, Orient.probe_freq] at h
  have e := C74_second_order_partial s.n (-B0 * s.gamma * 1e6) s.Cq s.etaQ (Spec.absAngles s.Θq) (abs_nonneg _) α β f i
  rw [← e]
  have ea : ssotQuad2 WC.exact TC.exact (s.n / 2) (-B0 * s.gamma * 1e6) s.Cq s.etaQ (Spec.absAngles s.Θq)
      = ssotQuad2 WC.exact TC.exact (s.n / 2) (-B0 * s.gamma * 1e6) s.Cq s.etaQ s.Θq := by
    simp only [ssotQuad2, toFrame_absAngles]
  rw [ea]
  exact h

/-- The central transition of a spin 3/2 with a coupling of 2 MHz at 9.4 T, tilted by a negative angle: right to 60 mHz. -/
example (α β : ℝ) : let s : Site := ⟨3, 11.3, -5, 30, 0.5, ⟨0.4, 0.5, 0.6⟩, 2000000, 0.7, ⟨1, -2, 3⟩⟩
    |localFreq WC.src true (Real.cos β) (Real.sin β) (exp (α * I)) 1 0 (quad2Part WC.src TC.src 9.4 s (Spec.mag 3 (1 : Fin 4)) (Spec.mag 3 (2 : Fin 4)))
      - (Spec.E2 (Spec.quadH 3 2000000 (Spec.labGradient 0.7 (Spec.absAngles s.Θq) α β)) (-9.4 * 11.3 * 1e6) 1
        - Spec.E2 (Spec.quadH 3 2000000 (Spec.labGradient 0.7 (Spec.absAngles s.Θq) α β)) (-9.4 * 11.3 * 1e6) 2)| ≤ 1 / 16 := by
  intro s
  refine (C74_decimals_partial 9.4 s (by norm_num [s, abs_of_nonneg]) α β (1 : Fin 4) (2 : Fin 4)).trans ?_
  norm_num [s, Spec.edge, Spec.mag, vq, clSize, abs_of_nonneg]

/-- **C77 with the constants as the source has them, partial.** The frequencies of the grid, for each transition pathway of a list, are the
differences of the energies for the field along the directions of the grid, to about six digits of every interaction. -/
theorem C77_decimals_partial (four : Bool) (nt nOct : ℕ) (hn : 1 ≤ nt) (hO : nOct = 1 ∨ nOct = 4)
    (junk : ℕ → ℕ → ℂ) (ts : List Tens) (k : ℕ) (B0 : ℝ) (ss : List Site) (ks : List Coupling) (xi xf : List ℕ)
    (ht : ts[k]? = some (components WC.src TC.src four B0 ss ks (Spec.quantum ss xi) (Spec.quantum ss xf)))
    (hi : Spec.IsState ss xi) (hf : Spec.IsState ss xf) (hs : ∀ s ∈ ss, 1 ≤ s.n ∧ |s.eta| ≤ 1 ∧ |s.etaQ| ≤ 1)
    (hk : ∀ k ∈ ks, k.A < ss.length ∧ k.X < ss.length ∧ |k.eta| ≤ 1)
    (j q : ℕ) (hj : j < nOct) (p : ℕ × ℕ) (hp : (Bin.Spec.grid nt)[q]? = some p) (α β : ℝ)
    (hd : Spec.Points α β (Spec.quarter j (Bin.Spec.point nt p))) :
    ∃ f, (powderMany WC.src four nt nOct 1 0 (startRows four junk nt) ts)[k]? = some f ∧
      |(components WC.src TC.src four B0 ss ks (Spec.quantum ss xi) (Spec.quantum ss xf)).R0
          + f (j * Bin.nPts nt + q)
        - (Spec.energy four B0 (Spec.static α β) (ss.map Spec.absSite) (ks.map Spec.absCoupling) xf
          - Spec.energy four B0 (Spec.static α β) (ss.map Spec.absSite) (ks.map Spec.absCoupling) xi)|
        ≤ Spec.tol B0 ss ks (Spec.quantum ss xi) (Spec.quantum ss xf) := by
  rw [powderMany_eq _ _ _ _ hO, List.getElem?_map, ht]
  refine ⟨_, rfl, ?_⟩
  rw [powder_dir WC.src four nt nOct hn hO junk 1 0 _ j q hj p hp α β hd,
    ← C73_absolute_partial four B0 α β ss ks xi xf hi hf (fun s h => (hs s h).1) (fun k h => ⟨(hk k h).1, (hk k h).2.1⟩)]
  exact components_near (staticOrient α β) four B0 ss ks hs (fun k h => (hk k h).2.2) _ _

/-- **C77 (sphere) with the constants as the source has them, partial.** -/
theorem C77_sphere_decimals_partial (four : Bool) (nt : ℕ) (hn : 1 ≤ nt) (junk : ℕ → ℕ → ℂ) (B0 : ℝ) (ss : List Site)
    (ks : List Coupling) (xi xf : List ℕ) (hi : Spec.IsState ss xi) (hf : Spec.IsState ss xf)
    (hs : ∀ s ∈ ss, 1 ≤ s.n ∧ |s.eta| ≤ 1 ∧ |s.etaQ| ≤ 1) (hk : ∀ k ∈ ks, k.A < ss.length ∧ k.X < ss.length ∧ |k.eta| ≤ 1)
    (x y z : ℤ) (hxyz : |x| + |y| + |z| = nt) (α β : ℝ) (hd : Spec.Points α β (x, y, z)) :
    ∃ a < 4 * Bin.nPts nt,
      |(components WC.src TC.src four B0 ss ks (Spec.quantum ss xi) (Spec.quantum ss xf)).R0
          + (powderFrequencies WC.src four nt 4 (startRows four junk nt) 1 0
              (components WC.src TC.src four B0 ss ks (Spec.quantum ss xi) (Spec.quantum ss xf))).1 a
        - (Spec.energy four B0 (Spec.static α β) (ss.map Spec.absSite) (ks.map Spec.absCoupling) xf
          - Spec.energy four B0 (Spec.static α β) (ss.map Spec.absSite) (ks.map Spec.absCoupling) xi)|
        ≤ Spec.tol B0 ss ks (Spec.quantum ss xi) (Spec.quantum ss xf) := by
  obtain ⟨a, ha, e⟩ := sphere_dir WC.src four nt hn junk
    (components WC.src TC.src four B0 ss ks (Spec.quantum ss xi) (Spec.quantum ss xf)) x y z hxyz α β hd
  refine ⟨a, ha, ?_⟩
  rw [e, ← C73_absolute_partial four B0 α β ss ks xi xf hi hf (fun s h => (hs s h).1) (fun k h => ⟨(hk k h).1, (hk k h).2.1⟩)]
  exact components_near (staticOrient α β) four B0 ss ks hs (fun k h => (hk k h).2.2) _ _

/-- The coupled pair with negative tilts and the field along `(-1, 0, -2)`: some place of the array of density 3 has its frequency. -/
example : ∃ α β, Spec.Points α β (((-1 : ℤ) : ℝ), ((0 : ℤ) : ℝ), ((-2 : ℤ) : ℝ)) ∧ ∃ a < 4 * Bin.nPts 3,
    |(components WC.src TC.src true 9.4 tiltedSites [exampleCoupling] (Spec.quantum tiltedSites [0, 3]) (Spec.quantum tiltedSites [0, 2])).R0
        + (powderFrequencies WC.src true 3 4 (startRows true (fun _ _ => 7) 3) 1 0
            (components WC.src TC.src true 9.4 tiltedSites [exampleCoupling] (Spec.quantum tiltedSites [0, 3])
              (Spec.quantum tiltedSites [0, 2]))).1 a
      - (Spec.energy true 9.4 (Spec.static α β) (tiltedSites.map Spec.absSite) ([exampleCoupling].map Spec.absCoupling) [0, 2]
        - Spec.energy true 9.4 (Spec.static α β) (tiltedSites.map Spec.absSite) ([exampleCoupling].map Spec.absCoupling) [0, 3])|
      ≤ Spec.tol 9.4 tiltedSites [exampleCoupling] (Spec.quantum tiltedSites [0, 3]) (Spec.quantum tiltedSites [0, 2]) := by
  obtain ⟨α, β, h⟩ := points_exist (((-1 : ℤ) : ℝ), ((0 : ℤ) : ℝ), ((-2 : ℤ) : ℝ)) (by unfold Bin.Spec.len; norm_num)
  exact ⟨α, β, h, C77_sphere_decimals_partial true 3 (by norm_num) _ 9.4 tiltedSites [exampleCoupling] [0, 3] [0, 2]
    (by unfold Spec.IsState tiltedSites; simp) (by unfold Spec.IsState tiltedSites; simp) tiltedSites_ok exampleCoupling_ok
    (-1) 0 (-2) (by norm_num) α β h⟩

end MRS.Freq
