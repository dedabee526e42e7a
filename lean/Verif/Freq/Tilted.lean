import Verif.Freq.OnePulseSpin

/-!
# `Simulator.run` for spin systems with negative angles — property C96

The program drops the sign of the second Euler angle (C77), so that a recorded spectrum is that of the spin systems without the signs.
-/

namespace MRS.Freq

open Filter Topology

/-! ## Specification -/

/-- A spin system without the signs of the second Euler angles. -/
noncomputable def Spec.uprightSys (s : Run.Sys Phys (List Trans.Tr)) : Run.Sys Phys (List Trans.Tr) := { s with phys := Spec.upright s.phys }

/-! ## Lemmas -/

theorem packed_absSite (n0 : ℕ) (s : Site) : packed n0 (Spec.absSite s) = Spec.absSite (packed n0 s) := by
  unfold packed
  split_ifs
  · rfl
  · simp [Spec.absSite, Spec.absAngles]

theorem methodComponents_absolute (W : WC) (T : TC) (n0 : ℕ) (B0 : ℝ) (ss : List Site) (ks : List Coupling) (mi mf : List ℝ) :
    methodComponents W T n0 B0 (ss.map Spec.absSite) (ks.map Spec.absCoupling) mi mf = methodComponents W T n0 B0 ss ks mi mf := by
  unfold methodComponents
  have e : (ss.map Spec.absSite).map (packed n0) = (ss.map (packed n0)).map Spec.absSite := by
    rw [List.map_map, List.map_map]
    congr 1
    funext s
    exact packed_absSite n0 s
  rw [e, components_absolute]

theorem pulseWrites_upright (W : WC) (T : TC) (lib : Library) (c : String) (B0 : ℝ) (r : Rotor) (d : Meth.SDim) (nOct : ℕ)
    (junk : ℕ → ℕ → ℂ) (nt : ℕ) (ph : Phys) (t : Trans.Tr) :
    pulseWrites W T lib c B0 r d nOct junk nt (Spec.upright ph) t = pulseWrites W T lib c B0 r d nOct junk nt ph t := by
  unfold pulseWrites rotorWrites Spec.upright
  simp only [methodComponents_absolute]

theorem absSite_n (ss : List Site) : (ss.map Spec.absSite).map Site.n = ss.map Site.n := by
  rw [List.map_map]
  rfl

theorem upright_sound (lib : Library) (s : Run.Sys Phys (List Trans.Tr)) (h : Spec.Given lib s) : Spec.Sound lib (Spec.uprightSys s) := by
  refine ⟨h.explicit, (absSite_n _).trans h.spins, fun x hx => ?_, fun k hk => ?_⟩
  · obtain ⟨y, hy, rfl⟩ := List.mem_map.mp (show x ∈ s.phys.sites.map Spec.absSite from hx)
    exact ⟨⟨abs_nonneg _, abs_nonneg _⟩, h.sites y hy⟩
  · obtain ⟨y, hy, rfl⟩ := List.mem_map.mp (show k ∈ s.phys.couplings.map Spec.absCoupling from hk)
    have hl : (Spec.uprightSys s).phys.sites.length = s.phys.sites.length := List.length_map _
    rw [hl]
    exact ⟨⟨abs_nonneg _, abs_nonneg _⟩, h.couplings y hy⟩

theorem observed_n (c : String) (central : Bool) (iso : List String) (ss ss' : List Site) (hn : ss'.map Site.n = ss.map Site.n)
    (x : List ℕ × List ℕ) (h : Spec.Observed c central iso ss x) : Spec.Observed c central iso ss' x := by
  have hlen : ss'.length = ss.length := by simpa using congrArg List.length hn
  have hget : ∀ i, (ss'[i]?).map Site.n = (ss[i]?).map Site.n := fun i => by rw [← List.getElem?_map, ← List.getElem?_map, hn]
  have hst : ∀ y, Spec.IsState ss y → Spec.IsState ss' y := by
    intro y hy
    unfold Spec.IsState at hy ⊢
    rw [List.forall₂_iff_get] at hy ⊢
    refine ⟨hlen.trans hy.1, fun i h1 h2 => ?_⟩
    have := hget i
    rw [List.getElem?_eq_getElem h1, List.getElem?_eq_getElem (hlen ▸ h1), Option.map_some, Option.map_some, Option.some_inj] at this
    simp only [List.get_eq_getElem] at hy ⊢
    rw [this]
    exact hy.2 i (hlen ▸ h1) h2
  obtain ⟨k, i, s, e1, e2, e3, e4, e5⟩ := h.step
  have := hget k
  rw [e2, Option.map_some] at this
  obtain ⟨s', hs', en⟩ := Option.map_eq_some_iff.mp this
  exact ⟨hst _ h.initial, hst _ h.final, k, i, s', e1, hs', e3, e4, fun hc => by rw [en]; exact e5 hc⟩

theorem observed_iff (c : String) (central : Bool) (iso : List String) (ss ss' : List Site) (hn : ss'.map Site.n = ss.map Site.n)
    (x : List ℕ × List ℕ) : Spec.Observed c central iso ss' x ↔ Spec.Observed c central iso ss x :=
  ⟨observed_n c central iso ss' ss hn.symm x, observed_n c central iso ss ss' hn x⟩

theorem upright_unturned (ph : Phys) (h : Spec.Unturned ph.sites ph.couplings) : Spec.Unturned (Spec.upright ph).sites (Spec.upright ph).couplings := by
  constructor
  · intro x hx
    obtain ⟨y, hy, rfl⟩ := List.mem_map.mp (show x ∈ ph.sites.map Spec.absSite from hx)
    obtain ⟨a, b⟩ := h.1 y hy
    simp [Spec.absSite, Spec.absAngles, a, b]
  · intro x hx
    obtain ⟨y, hy, rfl⟩ := List.mem_map.mp (show x ∈ ph.couplings.map Spec.absCoupling from hx)
    obtain ⟨a, b⟩ := h.2 y hy
    simp [Spec.absCoupling, Spec.absAngles, a, b]

/-! ## Property -/

/-- **C96 (any angles), partial.** For angles of any sign, the spectrum of spin systems at rest converges to what C96 says of the spin systems without
the signs of the second Euler angles.  By C77 these are other spin systems.
Missing: lines so narrow that the code takes them for sharp (C88); odd numbers of points (C33); point 0; the tabulated decimals. -/
theorem C96_tilted_partial (lib : Library) (so : Trans.SetOrder) (c : String) (hγ : lib.gamma c ≠ 0) (central : Bool)
    (hcen : central = true → lib.twoI c % 2 = 1) (B0 : ℝ) (r : Rotor) (hr : r.freq < 1 / 1000) (d : Meth.SDim) [NeZero d.count]
    (hev : d.count % 2 = 0) (hsw : 0 < d.sw)
    (nOct : ℕ) (junk : ℕ → Phys → List Trans.Tr → ℕ → ℕ → ℂ) (l : List (Run.Sys Phys (List Trans.Tr)))
    (hl : ∀ s ∈ l, Spec.Given lib s)
    (hu : ∀ a ∈ l, ∀ b ∈ l, c ∈ a.isotopes → c ∈ b.isotopes → a.isotopes.length = b.isotopes.length → a.isotopes = b.isotopes)
    (hO : nOct = 4 ∨ nOct = 1 ∧ ∀ s ∈ l, Spec.Unturned s.phys.sites s.phys.couplings)
    (hx : ∀ s ∈ l, ∀ x, Spec.Observed c central s.isotopes s.phys.sites x →
      Spec.Wide d (Spec.pulseLine lib c B0 (Spec.upright s.phys) x) ∧ Spec.Inside d (Spec.pulseLine lib c B0 (Spec.upright s.phys) x) ∨
        Spec.Sharp (Spec.pulseLine lib c B0 (Spec.upright s.phys) x))
    (cpu nJobs : ℤ) (hJ : 1 ≤ nJobs) :
    ∃ v : ℕ → ZMod d.count → ℝ,
      (∀ nt, Run.run (pulseEnv WC.exact TC.exact lib so c central B0 r d nOct junk nt) cpu false l nJobs = .ok [.spec (v nt)]) ∧
      (∀ nt, 1 ≤ nt → ∀ s ∈ l, ∀ x, Spec.Observed c central s.isotopes s.phys.sites x → ∀ junk, ∃ u,
        pulseWrites WC.exact TC.exact lib c B0 r d nOct junk nt s.phys
          (qnum (s.phys.sites.map Site.n) x.1, qnum (s.phys.sites.map Site.n) x.2) = .ok u) ∧
      ∀ j, 1 ≤ j → j < d.count → Tendsto (fun nt => v nt j) atTop (𝓝 ((l.map fun s =>
        if c ∈ s.isotopes then ((s.abundance / (d.sw / d.count) : ℚ) : ℝ) *
          ∑ᶠ (x) (_ : Spec.Observed c central s.isotopes s.phys.sites x),
            3 * Real.pi * Spec.pattern (decide (0 < lib.gamma c)) d j (Spec.pulseLine lib c B0 (Spec.upright s.phys) x)
        else 0).sum)) := by
  obtain ⟨h, hd⟩ : ∃ h, d.count = 2 * h := ⟨d.count / 2, by omega⟩
  have hcount : d.count ≠ 0 := NeZero.ne _
  have hh : 1 ≤ h := by omega
  have one := fun s hs x hxo j hj hjn junk => static_shape lib c central B0 r hr d h hd hh hsw nOct junk (Spec.uprightSys s)
    (upright_sound lib s (hl s hs)) (hO.imp id fun hu => ⟨hu.1, upright_unturned _ (hu.2 s hs)⟩) x
    (observed_n c central _ _ _ (absSite_n _) x hxo) (hx s hs x hxo) j hj hjn
  have hn : ∀ s : Run.Sys Phys (List Trans.Tr), (Spec.uprightSys s).phys.sites.map Site.n = s.phys.sites.map Site.n := fun s => absSite_n _
  simp only [hn] at one
  simp only [Spec.uprightSys, pulseWrites_upright] at one
  obtain ⟨v, h1, h3⟩ := pulse_limit WC.exact TC.exact lib so c hγ central hcen B0 r d nOct junk l hl hu
    (fun s x j => 3 * Real.pi * Spec.pattern (decide (0 < lib.gamma c)) d j (Spec.pulseLine lib c B0 (Spec.upright s.phys) x))
    (fun s hs x hxo j hj hjn => (one s hs x hxo j hj hjn _).2) cpu nJobs hJ
  exact ⟨v, h1, fun nt hnt s hs x hxo junk => (one s hs x hxo 1 le_rfl (by omega) fun _ => junk).1 nt hnt, h3⟩

/-- **C96 (any angles, spinning), partial.** The same for spinning samples.
Missing: lines so narrow that the code takes them for sharp (C88); odd numbers of points (C33); point 0; the tabulated decimals. -/
theorem C96_tilted_spinning_partial (lib : Library) (so : Trans.SetOrder) (c : String) (hγ : lib.gamma c ≠ 0) (central : Bool)
    (hcen : central = true → lib.twoI c % 2 = 1) (B0 νr θ : ℝ) (hr : 1 / 1000 ≤ νr) (d : Meth.SDim) [NeZero d.count]
    (hev : d.count % 2 = 0) (hsw : 0 < d.sw)
    (nOct : ℕ) (junk : ℕ → ℕ → Phys → List Trans.Tr → ℕ → ℕ → ℂ) (l : List (Run.Sys Phys (List Trans.Tr)))
    (hl : ∀ s ∈ l, Spec.Given lib s)
    (hu : ∀ a ∈ l, ∀ b ∈ l, c ∈ a.isotopes → c ∈ b.isotopes → a.isotopes.length = b.isotopes.length → a.isotopes = b.isotopes)
    (hO : nOct = 4 ∨ nOct = 1 ∧ ∀ s ∈ l, Spec.Unturned s.phys.sites s.phys.couplings)
    (hx : ∀ s ∈ l, ∀ x, Spec.Observed c central s.isotopes s.phys.sites x →
      Spec.Wide d (Spec.spunLine lib c B0 νr θ (Spec.upright s.phys) x) ∨ Spec.Sharp (Spec.spunLine lib c B0 νr θ (Spec.upright s.phys) x))
    (cpu nJobs : ℤ) (hJ : 1 ≤ nJobs) :
    ∃ L : ℕ → ℕ → ℝ,
      (∀ n, ∃ v : ℕ → ZMod d.count → ℝ,
        (∀ nt, Run.run (pulseEnv WC.exact TC.exact lib so c central B0 ⟨n + 2, inferInstance, νr, θ⟩ d nOct (junk n) nt) cpu false l nJobs
          = .ok [.spec (v nt)]) ∧
        (∀ nt, 1 ≤ nt → ∀ s ∈ l, ∀ x, Spec.Observed c central s.isotopes s.phys.sites x → ∀ junk, ∃ u,
          pulseWrites WC.exact TC.exact lib c B0 ⟨n + 2, inferInstance, νr, θ⟩ d nOct junk nt s.phys
            (qnum (s.phys.sites.map Site.n) x.1, qnum (s.phys.sites.map Site.n) x.2) = .ok u) ∧
        ∀ j, 1 ≤ j → j < d.count → Tendsto (fun nt => v nt j) atTop (𝓝 (L n j))) ∧
      ∀ j, 1 ≤ j → j < d.count → Tendsto (fun n => L n j) atTop (𝓝 ((l.map fun s =>
        if c ∈ s.isotopes then ((s.abundance / (d.sw / d.count) : ℚ) : ℝ) *
          ∑ᶠ (x) (_ : Spec.Observed c central s.isotopes s.phys.sites x),
            3 * Real.pi * ∑ᶠ m : ℤ, Spec.sidebandPattern (decide (0 < lib.gamma c)) d j νr
              (Spec.spunLine lib c B0 νr θ (Spec.upright s.phys) x) m (Spec.spunSideband B0 νr θ (Spec.upright s.phys) x m)
        else 0).sum)) := by
  classical
  obtain ⟨h, hd⟩ : ∃ h, d.count = 2 * h := ⟨d.count / 2, by omega⟩
  have hcount : d.count ≠ 0 := NeZero.ne _
  have hh : 1 ≤ h := by omega
  have one := fun s hs x hxo j hj hjn junk => spun_one lib c central B0 νr θ hr d h hd hh hsw nOct junk (Spec.uprightSys s)
    (upright_sound lib s (hl s hs)) (hO.imp id fun hu => ⟨hu.1, upright_unturned _ (hu.2 s hs)⟩) x
    (observed_n c central _ _ _ (absSite_n _) x hxo) (hx s hs x hxo) j hj hjn
  have hn : ∀ s : Run.Sys Phys (List Trans.Tr), (Spec.uprightSys s).phys.sites.map Site.n = s.phys.sites.map Site.n := fun s => absSite_n _
  simp only [hn] at one
  simp only [Spec.uprightSys, pulseWrites_upright] at one
  have one' := fun s hs x hxo j hj hjn => one s hs x hxo j hj hjn fun n nt => junk n nt s.phys (edge s.phys.sites x)
  choose! V hV1 hV2 using one'
  have hrun := fun n => pulse_limit WC.exact TC.exact lib so c hγ central hcen B0 ⟨n + 2, inferInstance, νr, θ⟩ d nOct (junk n) l hl hu
    (fun s x j => V s x j n) (fun s hs x hxo j hj hjn => (hV1 s hs x hxo j hj hjn n).2) cpu nJobs hJ
  refine ⟨fun n j => (l.map fun s => if c ∈ s.isotopes then ((s.abundance / (d.sw / d.count) : ℚ) : ℝ) *
      ∑ᶠ (x) (_ : Spec.Observed c central s.isotopes s.phys.sites x), V s x j n else 0).sum, fun n => ?_, fun j hj hjn => ?_⟩
  · obtain ⟨v, h1, h2⟩ := hrun n
    refine ⟨v, h1, fun nt hnt s hs x hxo junk => ?_, h2⟩
    obtain ⟨W, hW, -⟩ := one s hs x hxo 1 le_rfl (by omega) fun _ _ => junk
    exact (hW n).1 nt hnt
  · refine tendsto_list_sum l fun s hs => ?_
    by_cases hc : c ∈ s.isotopes
    · simp only [if_pos hc]
      refine Tendsto.const_mul _ ?_
      have hfin := observed_finite lib c central s (hl s hs) hc
      have e := fun g : List ℕ × List ℕ → ℝ => finsum_mem_eq_finite_toFinset_sum g hfin
      simp only [Set.mem_ofPred_eq] at e
      simp only [e]
      refine tendsto_finsetSum _ fun x hxo => ?_
      have hxo : Spec.Observed c central s.isotopes s.phys.sites x := by simpa using hxo
      exact hV2 s hs x hxo j hj hjn
    · simp only [if_neg hc]
      exact tendsto_const_nhds

/-! ### An example -/

/-- The site of the other examples, tilted by a negative right angle. -/
noncomputable def tiltedSite : Site := { poleSite with Θs := ⟨0, -(Real.pi / 2), 0⟩ }

/-- What the program makes of it. -/
noncomputable def fallenSite : Site := { poleSite with Θs := ⟨0, Real.pi / 2, 0⟩ }

/-- The tilted site as a spin system. -/
noncomputable def tiltedSys (a : ℚ) : Run.Sys Phys (List Trans.Tr) := ⟨["15N"], none, a, ⟨[tiltedSite], []⟩⟩

theorem tilted_given (a : ℚ) : Spec.Given exampleLib (tiltedSys a) := by
  refine ⟨rfl, rfl, fun x hx => ?_, fun k hk => by cases hk⟩
  rw [List.mem_singleton.mp (show x ∈ [tiltedSite] from hx)]
  exact le_rfl

theorem tilted_upright (a : ℚ) : Spec.upright (tiltedSys a).phys = ⟨[fallenSite], []⟩ := by
  have h : |-(Real.pi / 2)| = Real.pi / 2 := by rw [abs_neg, abs_of_pos (by positivity)]
  simp [Spec.upright, tiltedSys, tiltedSite, fallenSite, poleSite, Spec.absSite, Spec.absAngles, h]

theorem tilted_observed (a : ℚ) (x : List ℕ × List ℕ) :
    Spec.Observed "15N" false (tiltedSys a).isotopes (tiltedSys a).phys.sites x ↔ x = ([1], [0]) :=
  (observed_iff "15N" false ["15N"] [poleSite] [tiltedSite] rfl x).trans (example_observed a x)

theorem fallen_state : Spec.IsState [fallenSite] [0] ∧ Spec.IsState [fallenSite] [1] ∧ ∀ s ∈ [fallenSite], s.Upright ∧ 1 ≤ s.n := by
  refine ⟨by unfold Spec.IsState fallenSite poleSite; simp, by unfold Spec.IsState fallenSite poleSite; simp, ?_⟩
  intro s hs
  simp only [List.mem_cons, List.not_mem_nil, or_false] at hs
  subst hs
  have := Real.pi_pos
  refine ⟨⟨?_, ?_⟩, ?_⟩ <;> simp [fallenSite, poleSite]
  positivity

theorem fallen_line (p : ℝ × ℝ) :
    Spec.line false 1 [fallenSite] [] [0] [1] p = Real.cos p.2 ^ 2 - Real.sin p.2 ^ 2 * Real.cos p.1 ^ 2 := by
  simp [Spec.line, Spec.energy, Spec.siteEnergy, Spec.field, Spec.static, fallenSite, poleSite, Spec.mag, Spec.along, Spec.haeberlen,
    Spec.seen, Spec.euler, Spec.Rz, Spec.Ry, Matrix.mulVec, dotProduct, Fin.sum_univ_three, Matrix.mul_apply,
    Matrix.diagonal, Spec.quantum]
  ring

theorem fallen_recorded (p : ℝ × ℝ) :
    Spec.pulseLine exampleLib "15N" 1 ⟨[fallenSite], []⟩ ([1], [0]) p = Real.cos p.2 ^ 2 - Real.sin p.2 ^ 2 * Real.cos p.1 ^ 2 := by
  rw [← fallen_line]
  unfold Spec.pulseLine exampleLib
  simp only
  rw [if_neg (by norm_num)]
  simp [Spec.line, Spec.energy, Spec.siteEnergy, fallenSite, poleSite]

theorem fallen_iso :
    (components WC.exact TC.exact false 1 [fallenSite] [] (Spec.quantum [fallenSite] [0]) (Spec.quantum [fallenSite] [1])).R0 = 0 := by
  norm_num [components, addSites, addSite, fallenSite, poleSite, Spec.quantum, shieldingPart, addT, zeroT, fcf, ssotShielding]
  split_ifs <;> simp [scaleT]

theorem fallen_dir (p : ℝ × ℝ) : Spec.line false 1 [fallenSite] [] [0] [1] p = dirFreq WC.exact false 1 0
    (components WC.exact TC.exact false 1 [fallenSite] [] (Spec.quantum [fallenSite] [0]) (Spec.quantum [fallenSite] [1])) p :=
  (C73_energies_partial false 1 p.1 p.2 [fallenSite] [] [0] [1] fallen_state.1 fallen_state.2.1 fallen_state.2.2 (by simp)).symm

theorem fallen_mean : Spec.sphereMean (Spec.pulseLine exampleLib "15N" 1 ⟨[fallenSite], []⟩ ([1], [0])) = 0 := by
  rw [funext fun p => (fallen_recorded p).trans ((fallen_line p).symm.trans (fallen_dir p)), dirFreq_mean, fallen_iso]

theorem fallen_spun (p : ℝ × ℝ) : Spec.spunLine exampleLib "15N" 1 1 (Real.pi / 2) ⟨[fallenSite], []⟩ ([1], [0]) p
    = -1 / 2 * (Real.cos p.2 ^ 2 - Real.sin p.2 ^ 2 * Real.cos p.1 ^ 2) := by
  obtain ⟨hi, hf, hs⟩ := fallen_state
  have e : Spec.average 1 (Spec.momentary false 1 p.1 p.2 (Real.pi / 2) 1 [fallenSite] [] [0] [1])
      = -1 / 2 * (Real.cos p.2 ^ 2 - Real.sin p.2 ^ 2 * Real.cos p.1 ^ 2) := by
    rw [← C75_average_partial false 1 p.1 p.2 (Real.pi / 2) 1 one_pos [fallenSite] [] [0] [1] hi hf hs (by simp), ← fallen_line, fallen_dir]
    have h0 := fallen_iso
    unfold dirFreq localFreq
    rw [h0]
    simp [dm0Vector2]
    ring
  rw [← e]
  unfold Spec.spunLine Spec.average
  have e : Spec.momentary true 1 p.1 p.2 (Real.pi / 2) 1 [fallenSite] [] [1] [0]
      = fun τ => -Spec.momentary false 1 p.1 p.2 (Real.pi / 2) 1 [fallenSite] [] [0] [1] τ := by
    funext τ
    simp [Spec.momentary, Spec.energy, Spec.siteEnergy, fallenSite, poleSite]
  simp only [e]
  rw [intervalIntegral.integral_neg]
  simp [exampleLib]
  norm_num

theorem tilted_wide (a : ℚ) (x : List ℕ × List ℕ)
    (hx : Spec.Observed "15N" false (tiltedSys a).isotopes (tiltedSys a).phys.sites x) :
    Spec.Wide ⟨512, 8, 0, none⟩ (Spec.pulseLine exampleLib "15N" 1 (Spec.upright (tiltedSys a).phys) x) ∧
      Spec.Inside ⟨512, 8, 0, none⟩ (Spec.pulseLine exampleLib "15N" 1 (Spec.upright (tiltedSys a).phys) x) := by
  rw [(tilted_observed a x).mp hx, tilted_upright]
  constructor
  · left
    rw [fallen_recorded, fallen_recorded]
    norm_num
  · unfold Spec.Inside
    rw [fallen_mean]
    norm_num

theorem tilted_spun_wide (a : ℚ) (x : List ℕ × List ℕ)
    (hx : Spec.Observed "15N" false (tiltedSys a).isotopes (tiltedSys a).phys.sites x) :
    Spec.Wide ⟨512, 8, 0, none⟩ (Spec.spunLine exampleLib "15N" 1 1 (Real.pi / 2) (Spec.upright (tiltedSys a).phys) x) := by
  rw [(tilted_observed a x).mp hx, tilted_upright]
  left
  rw [fallen_spun, fallen_spun]
  norm_num

theorem tilted_sum (a : ℚ) (g : List ℕ × List ℕ → ℝ) :
    (∑ᶠ (x) (_ : Spec.Observed "15N" false (tiltedSys a).isotopes (tiltedSys a).phys.sites x), g x) = g ([1], [0]) := by
  simp only [tilted_observed]
  rw [finsum_eq_single _ ([1], [0]) (fun x hx => by simp [hx])]
  simp

/-- The tilted site at rest: point 300 of 512 converges to `70 · 64 · 3π` times the share of the directions for which `cos²β - sin²β cos²α` is
between `43.5 / 64` and `44.5 / 64`. -/
example (so : Trans.SetOrder) (junk : ℕ → Phys → List Trans.Tr → ℕ → ℕ → ℂ) (cpu : ℤ) :
    haveI : NeZero (Meth.SDim.count ⟨512, 8, 0, none⟩) := ⟨by norm_num⟩
    ∃ v : ℕ → ZMod 512 → ℝ,
      (∀ nt, Run.run (pulseEnv WC.exact TC.exact exampleLib so "15N" false 1 exampleStill ⟨512, 8, 0, none⟩ 4 junk nt) cpu false
        [tiltedSys 70] 4 = .ok [.spec (v nt)]) ∧
      Tendsto (fun nt => v nt 300) atTop (𝓝 (70 * 64 * (3 * Real.pi * Spec.pattern false ⟨512, 8, 0, none⟩ 300
        fun p => Real.cos p.2 ^ 2 - Real.sin p.2 ^ 2 * Real.cos p.1 ^ 2))) := by
  have : NeZero (Meth.SDim.count ⟨512, 8, 0, none⟩) := ⟨by norm_num⟩
  obtain ⟨v, h1, -, h3⟩ := C96_tilted_partial exampleLib so "15N" (by norm_num [exampleLib]) false (by simp) 1 exampleStill
    (by norm_num [exampleStill]) ⟨512, 8, 0, none⟩ (by norm_num) (by norm_num) 4 junk [tiltedSys 70]
    (fun s hs => by rw [List.mem_singleton.mp hs]; exact tilted_given _)
    (fun a ha b hb _ _ _ => by rw [List.mem_singleton.mp ha, List.mem_singleton.mp hb]) (Or.inl rfl)
    (fun s hs x hx => by rw [List.mem_singleton.mp hs] at hx ⊢; exact Or.inl (tilted_wide _ x hx)) cpu 4 (by norm_num)
  refine ⟨v, h1, ?_⟩
  have := h3 300 (by norm_num) (by norm_num)
  have hc : "15N" ∈ (tiltedSys 70).isotopes := by simp [tiltedSys]
  have hpos : decide (0 < exampleLib.gamma "15N") = false := by
    rw [decide_eq_false_iff_not]
    norm_num [exampleLib]
  simp only [List.map_cons, List.map_nil, List.sum_cons, List.sum_nil, if_pos hc, tilted_sum, tilted_upright, hpos,
    funext fallen_recorded] at this
  refine this.trans (le_of_eq ?_)
  congr 1
  norm_num [tiltedSys]

/-- The same, spun at 1 Hz about an axis at a right angle to the field. -/
example (so : Trans.SetOrder) (junk : ℕ → ℕ → Phys → List Trans.Tr → ℕ → ℕ → ℂ) (cpu : ℤ) :
    haveI : NeZero (Meth.SDim.count ⟨512, 8, 0, none⟩) := ⟨by norm_num⟩
    ∃ L : ℕ → ℝ,
      (∀ n, ∃ v : ℕ → ZMod 512 → ℝ,
        (∀ nt, Run.run (pulseEnv WC.exact TC.exact exampleLib so "15N" false 1 ⟨n + 2, inferInstance, 1, Real.pi / 2⟩ ⟨512, 8, 0, none⟩ 4 (junk n) nt)
          cpu false [tiltedSys 70] 4 = .ok [.spec (v nt)]) ∧
        Tendsto (fun nt => v nt 300) atTop (𝓝 (L n))) ∧
      Tendsto L atTop (𝓝 (70 * 64 * (3 * Real.pi * ∑ᶠ m : ℤ, Spec.sidebandPattern false ⟨512, 8, 0, none⟩ 300 1
        (fun p => -1 / 2 * (Real.cos p.2 ^ 2 - Real.sin p.2 ^ 2 * Real.cos p.1 ^ 2)) m
        (Spec.spunSideband 1 1 (Real.pi / 2) ⟨[fallenSite], []⟩ ([1], [0]) m)))) := by
  have : NeZero (Meth.SDim.count ⟨512, 8, 0, none⟩) := ⟨by norm_num⟩
  obtain ⟨L, h1, h2⟩ := C96_tilted_spinning_partial exampleLib so "15N" (by norm_num [exampleLib]) false (by simp) 1 1 (Real.pi / 2) (by norm_num)
    ⟨512, 8, 0, none⟩ (by norm_num) (by norm_num) 4 junk [tiltedSys 70]
    (fun s hs => by rw [List.mem_singleton.mp hs]; exact tilted_given _)
    (fun a ha b hb _ _ _ => by rw [List.mem_singleton.mp ha, List.mem_singleton.mp hb]) (Or.inl rfl)
    (fun s hs x hx => by rw [List.mem_singleton.mp hs] at hx ⊢; exact Or.inl (tilted_spun_wide _ x hx)) cpu 4 (by norm_num)
  refine ⟨fun n => L n 300, fun n => ?_, ?_⟩
  · obtain ⟨v, e1, -, e3⟩ := h1 n
    exact ⟨v, e1, e3 300 (by norm_num) (by norm_num)⟩
  · have := h2 300 (by norm_num) (by norm_num)
    have hc : "15N" ∈ (tiltedSys 70).isotopes := by simp [tiltedSys]
    have hpos : decide (0 < exampleLib.gamma "15N") = false := by
      rw [decide_eq_false_iff_not]
      norm_num [exampleLib]
    simp only [List.map_cons, List.map_nil, List.sum_cons, List.sum_nil, if_pos hc, tilted_sum, tilted_upright, hpos,
      funext fallen_spun] at this
    refine this.trans (le_of_eq ?_)
    congr 1
    norm_num [tiltedSys]

end MRS.Freq
