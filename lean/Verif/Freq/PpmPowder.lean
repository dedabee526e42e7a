import Verif.Freq.Gravity
import Verif.Meth.Ppm

/-!
# Isotropic chemical shifts on the ppm axis of a powder spectrum — property C119
-/

namespace MRS.Freq

open Filter Topology

/-! ## Specification -/

/-- A spin system of one nucleus of spin 1/2. -/
structure Spec.LoneHalf (lib : Library) (c : String) (s : Run.Sys Phys (List Trans.Tr)) (y : Site) : Prop where
  isotopes : s.isotopes = [c]
  sites : s.phys.sites = [y]
  couplings : s.phys.couplings = []
  spin : y.n = 1
  gamma : y.gamma = lib.gamma c

/-! ## Lemmas -/

theorem loneHalf_observed (lib : Library) (c : String) (s : Run.Sys Phys (List Trans.Tr)) (y : Site) (h : Spec.LoneHalf lib c s y)
    (x : List ℕ × List ℕ) : Spec.Observed c false s.isotopes s.phys.sites x ↔ x = ([1], [0]) := by
  rw [h.isotopes, h.sites]
  constructor
  · obtain ⟨xi, xf⟩ := x
    rintro ⟨h1, h2, k, i, s, e1, e2, e3, e4, -⟩
    simp only at h1 h2 e3 e4
    have hk : k = 0 := by
      have : k < 1 := (List.getElem?_eq_some_iff.mp e1).1
      omega
    subst hk
    cases h1 with
    | @cons _ b _ u ha hb =>
      cases hb
      have : b ≤ y.n := ha
      rw [h.spin] at this
      have : b = i + 1 := by simpa using e3
      have hi : i = 0 := by omega
      refine Prod.ext ?_ ?_
      · simp only
        rw [this, hi]
      · rw [e4, hi]
        simp
  · rintro rfl
    refine ⟨?_, ?_, 0, 0, y, rfl, rfl, rfl, rfl, by simp⟩
    · exact List.Forall₂.cons (by simp [h.spin]) List.Forall₂.nil
    · exact List.Forall₂.cons (by simp) List.Forall₂.nil

theorem loneHalf_iso (lib : Library) (c : String) (B0 : ℝ) (hB : 0 < B0) (s : Run.Sys Phys (List Trans.Tr)) (y : Site) (h : Spec.LoneHalf lib c s y) :
    (if 0 < lib.gamma c then 1 else -1) * Spec.isoFreq B0 s.phys.sites s.phys.couplings ([1], [0]) = |lib.gamma c * B0| * y.iso := by
  have e : Spec.isoFreq B0 s.phys.sites s.phys.couplings ([1], [0]) = B0 * lib.gamma c * y.iso := by
    rw [h.sites, h.couplings]
    simp only [Spec.isoFreq, Spec.isoSite, Spec.quantum]
    norm_num [h.spin, h.gamma]
  rw [e]
  split_ifs with h0
  · rw [abs_of_pos (mul_pos h0 hB)]
    ring
  · rw [abs_of_nonpos (mul_nonpos_of_nonpos_of_nonneg (not_lt.mp h0) hB.le)]
    ring

/-! ## Property -/

/-- **C119, partial** (powders). Spin systems of one nucleus of spin 1/2, static, with any shift tensors, in a window that holds their patterns,
with reference offset zero: on the ppm axis that the spectral dimension has after the run, the centre of gravity of the spectrum is, to half
the distance of two points, the mean of the isotropic chemical shifts weighted by the abundances. Missing: what C114 misses; other reference
offsets (`C119_counterexample`). -/
theorem C119_powder_partial (lib : Library) (so : Trans.SetOrder) (c : String) (γ b0 : ℚ) (hγ : lib.gamma c = γ) (hγ0 : γ ≠ 0) (hb : 0 < b0)
    (r : Rotor) (hr : r.freq < 1 / 1000) (d : Meth.SDim) [NeZero d.count]
    (hev : d.count % 2 = 0) (hsw : 0 < d.sw) (href : d.ref = 0)
    (nOct : ℕ) (junk : ℕ → Phys → List Trans.Tr → ℕ → ℕ → ℂ) (l : List (Run.Sys Phys (List Trans.Tr) × Site))
    (hl : ∀ s ∈ l, Spec.Given lib s.1 ∧ 0 ≤ s.1.abundance ∧ Spec.LoneHalf lib c s.1 s.2)
    (hO : nOct = 4 ∨ nOct = 1 ∧ ∀ s ∈ l, Spec.Unturned s.1.phys.sites s.1.phys.couplings)
    (hx : ∀ s ∈ l, (Spec.Wide d (Spec.pulseLine lib c b0 (Spec.upright s.1.phys) ([1], [0])) ∨ Spec.Sharp (Spec.pulseLine lib c b0 (Spec.upright s.1.phys) ([1], [0]))) ∧
      ∀ p, ((Meth.Spec.coord d 1 : ℚ) : ℝ) ≤ Spec.pulseLine lib c b0 (Spec.upright s.1.phys) ([1], [0]) p ∧
        Spec.pulseLine lib c b0 (Spec.upright s.1.phys) ([1], [0]) p ≤ ((Meth.Spec.coord d (d.count - 1 : ℕ) : ℚ) : ℝ))
    (cpu nJobs : ℤ) (hJ : 1 ≤ nJobs) :
    ∃ (v : ℕ → ZMod d.count → ℝ) (L : ℕ → ℝ) (axis : List ℚ),
      (∀ nt, Run.run (pulseEnv WC.exact TC.exact lib so c false b0 r d nOct junk nt) cpu false (l.map Prod.fst) nJobs = .ok [.spec (v nt)]) ∧
      (∀ j, 1 ≤ j → j < d.count → Tendsto (fun nt => v nt j) atTop (𝓝 (L j))) ∧
      Meth.coordinatesPpm (Meth.afterRun γ b0 d) = some (axis.map some) ∧ axis.length = d.count ∧
      ∑ j ∈ Finset.Ico 1 d.count, L j = 3 * Real.pi * (l.map fun s => ((s.1.abundance / (d.sw / d.count) : ℚ) : ℝ)).sum ∧
      |∑ j ∈ Finset.Ico 1 d.count, ((axis.getD j 0 : ℚ) : ℝ) * L j
          - 3 * Real.pi * (l.map fun s => ((s.1.abundance / (d.sw / d.count) : ℚ) : ℝ) * s.2.iso).sum|
        ≤ ((d.sw / d.count / 2 / |γ * b0| : ℚ) : ℝ) * ∑ j ∈ Finset.Ico 1 d.count, L j := by
  have hG : 0 < |γ * b0| := abs_pos.mpr (mul_ne_zero hγ0 hb.ne')
  have hGr : (0 : ℝ) < ((|γ * b0| : ℚ) : ℝ) := by exact_mod_cast hG
  have hG' : |lib.gamma c * (b0 : ℝ)| = ((|γ * b0| : ℚ) : ℝ) := by
    rw [hγ]
    push_cast
    rfl
  have hbr : (0 : ℝ) < (b0 : ℝ) := by exact_mod_cast hb
  obtain ⟨v, L, h1, h2, h3, h4⟩ := C114_gravity_partial lib so c (by rw [hγ]; exact_mod_cast hγ0) false (by simp) b0 r hr d hev hsw nOct junk
    (l.map Prod.fst)
    (by
      intro s hs
      obtain ⟨q, hq, rfl⟩ := List.mem_map.mp hs
      exact ⟨(hl q hq).1, (hl q hq).2.1⟩)
    (by
      intro a ha b hb' _ _ _
      obtain ⟨p, hp, rfl⟩ := List.mem_map.mp ha
      obtain ⟨q, hq, rfl⟩ := List.mem_map.mp hb'
      rw [(hl p hp).2.2.isotopes, (hl q hq).2.2.isotopes])
    (by
      rcases hO with h | ⟨h, h'⟩
      · exact Or.inl h
      · refine Or.inr ⟨h, fun s hs => ?_⟩
        obtain ⟨q, hq, rfl⟩ := List.mem_map.mp hs
        exact h' q hq)
    (by
      intro s hs x hxo
      obtain ⟨q, hq, rfl⟩ := List.mem_map.mp hs
      rw [(loneHalf_observed lib c q.1 q.2 (hl q hq).2.2 x).mp hxo]
      exact hx q hq) cpu nJobs hJ
  have hpos : 0 < d.ref + Meth.Spec.larmor γ b0 := by
    rw [href]
    unfold Meth.Spec.larmor
    positivity
  have hden : (d.ref + Meth.Spec.larmor γ b0) / 1000000 = |γ * b0| := by
    rw [href]
    unfold Meth.Spec.larmor
    ring
  have hsum3 : ((l.map Prod.fst).map fun s => if c ∈ s.isotopes then
        ((s.abundance / (d.sw / d.count) : ℚ) : ℝ) * {x | Spec.Observed c false s.isotopes s.phys.sites x}.ncard else 0).sum
      = (l.map fun s => ((s.1.abundance / (d.sw / d.count) : ℚ) : ℝ)).sum := by
    rw [List.map_map]
    congr 1
    apply List.map_congr_left
    intro s hs
    have hset : {x | Spec.Observed c false s.1.isotopes s.1.phys.sites x} = {([1], [0])} := by
      ext x
      exact loneHalf_observed lib c s.1 s.2 (hl s hs).2.2 x
    simp only [Function.comp]
    rw [if_pos (by rw [(hl s hs).2.2.isotopes]; simp), hset, Set.ncard_singleton]
    simp
  have hsum4 : ((l.map Prod.fst).map fun s => if c ∈ s.isotopes then
        ((s.abundance / (d.sw / d.count) : ℚ) : ℝ) * ∑ᶠ (x) (_ : Spec.Observed c false s.isotopes s.phys.sites x),
          (if 0 < lib.gamma c then 1 else -1) * Spec.isoFreq b0 s.phys.sites s.phys.couplings x else 0).sum
      = ((|γ * b0| : ℚ) : ℝ) * (l.map fun s => ((s.1.abundance / (d.sw / d.count) : ℚ) : ℝ) * s.2.iso).sum := by
    rw [List.map_map, ← List.sum_map_mul_left]
    congr 1
    apply List.map_congr_left
    intro s hs
    simp only [Function.comp]
    rw [if_pos (by rw [(hl s hs).2.2.isotopes]; simp)]
    have e : (∑ᶠ (x) (_ : Spec.Observed c false s.1.isotopes s.1.phys.sites x),
          (if 0 < lib.gamma c then (1 : ℝ) else -1) * Spec.isoFreq b0 s.1.phys.sites s.1.phys.couplings x)
        = (if 0 < lib.gamma c then (1 : ℝ) else -1) * Spec.isoFreq b0 s.1.phys.sites s.1.phys.couplings ([1], [0]) := by
      simp only [loneHalf_observed lib c s.1 s.2 (hl s hs).2.2]
      rw [finsum_eq_single _ ([1], [0]) (fun x hx => by simp [hx])]
      simp
    rw [e, loneHalf_iso lib c b0 hbr s.1 s.2 (hl s hs).2.2, hG']
    ring
  rw [hsum3] at h3
  rw [hsum4] at h4
  refine ⟨v, L, (List.range d.count).map fun k => Meth.coordHz d k / ((d.ref + Meth.Spec.larmor γ b0) / 1000000), h1, h2, ?_, by simp, h3, ?_⟩
  · rw [Meth.ppm_axis γ b0 d hpos, List.map_map]
    rfl
  · have e : ∑ j ∈ Finset.Ico 1 d.count, ((((List.range d.count).map fun k => Meth.coordHz d k
          / ((d.ref + Meth.Spec.larmor γ b0) / 1000000)).getD j 0 : ℚ) : ℝ) * L j
        = (∑ j ∈ Finset.Ico 1 d.count, ((Meth.Spec.coord d j : ℚ) : ℝ) * L j) / ((|γ * b0| : ℚ) : ℝ) := by
      rw [Finset.sum_div]
      refine Finset.sum_congr rfl fun j hj => ?_
      rw [List.getD_eq_getElem?_getD, List.getElem?_map, List.getElem?_range (Finset.mem_Ico.mp hj).2, Option.map_some, Option.getD_some, hden]
      have : Meth.coordHz d j = Meth.Spec.coord d j := by
        unfold Meth.coordHz Meth.Spec.coord
        push_cast
        rfl
      rw [this]
      push_cast
      ring
    rw [e]
    have e2 : (∑ j ∈ Finset.Ico 1 d.count, ((Meth.Spec.coord d j : ℚ) : ℝ) * L j) / ((|γ * b0| : ℚ) : ℝ)
        - 3 * Real.pi * (l.map fun s => ((s.1.abundance / (d.sw / d.count) : ℚ) : ℝ) * s.2.iso).sum
        = (∑ j ∈ Finset.Ico 1 d.count, ((Meth.Spec.coord d j : ℚ) : ℝ) * L j - 3 * Real.pi *
          (((|γ * b0| : ℚ) : ℝ) * (l.map fun s => ((s.1.abundance / (d.sw / d.count) : ℚ) : ℝ) * s.2.iso).sum)) / ((|γ * b0| : ℚ) : ℝ) := by
      have gen : ∀ X S G : ℝ, G ≠ 0 → X / G - 3 * Real.pi * S = (X - 3 * Real.pi * (G * S)) / G := fun X S G hG => by field_simp
      exact gen _ _ _ hGr.ne'
    rw [e2, abs_div, abs_of_pos hGr, div_le_iff₀ hGr]
    refine h4.trans (le_of_eq ?_)
    push_cast
    field_simp

/-! ## Two sites with shifts of 1 and -1 ppm and asymmetric tensors -/

/-- A nucleus with the shift `δ`. -/
noncomputable def shiftedSite (δ : ℝ) : Site := ⟨1, -1, δ, 1, 1, ⟨0, 0, 0⟩, 0, 0, ⟨0, 0, 0⟩⟩

/-- A spin system of that nucleus, of abundance `a`. -/
noncomputable def shiftedSys (a : ℚ) (δ : ℝ) : Run.Sys Phys (List Trans.Tr) := ⟨["15N"], none, a, ⟨[shiftedSite δ], []⟩⟩

theorem shifted_lone (a : ℚ) (δ : ℝ) : Spec.LoneHalf exampleLib "15N" (shiftedSys a δ) (shiftedSite δ) := ⟨rfl, rfl, rfl, rfl, rfl⟩

theorem shifted_sound (a : ℚ) (δ : ℝ) : Spec.Sound exampleLib (shiftedSys a δ) :=
  ⟨rfl, rfl, by simp [shiftedSys, shiftedSite, Site.Upright], fun k hk => by cases hk⟩

theorem shifted_line (a : ℚ) (δ : ℝ) (p : ℝ × ℝ) :
    Spec.pulseLine exampleLib "15N" ((1 : ℚ) : ℝ) (shiftedSys a δ).phys ([1], [0]) p
      = δ + (Real.sin p.2 ^ 2 * Real.cos p.1 ^ 2 - Real.cos p.2 ^ 2) := by
  rw [← example_recorded a]
  unfold Spec.pulseLine exampleLib exampleSys shiftedSys
  simp only
  rw [if_neg (by norm_num)]
  simp [Spec.line, Spec.energy, Spec.siteEnergy, poleSite, shiftedSite, Spec.mag]
  ring

/-- Two spin systems, 70 and 30 per cent: the hypotheses are met, and the centre of gravity is at 0.4 ppm. -/
example (so : Trans.SetOrder) (junk : ℕ → Phys → List Trans.Tr → ℕ → ℕ → ℂ) (cpu : ℤ) :
    haveI : NeZero (Meth.SDim.count ⟨512, 8, 0, none⟩) := ⟨by norm_num⟩
    ∃ (v : ℕ → ZMod 512 → ℝ) (L : ℕ → ℝ) (axis : List ℚ),
      (∀ nt, Run.run (pulseEnv WC.exact TC.exact exampleLib so "15N" false ((1 : ℚ) : ℝ) exampleStill ⟨512, 8, 0, none⟩ 1 junk nt) cpu false
        [shiftedSys 70 1, shiftedSys 30 (-1)] 4 = .ok [.spec (v nt)]) ∧
      (∀ j : ℕ, 1 ≤ j → j < 512 → Tendsto (fun nt => v nt j) atTop (𝓝 (L j))) ∧
      Meth.coordinatesPpm (Meth.afterRun (-1) 1 ⟨512, 8, 0, none⟩) = some (axis.map some) ∧ axis.length = 512 ∧
      ∑ j ∈ Finset.Ico 1 512, L j = 3 * Real.pi * 6400 ∧
      |∑ j ∈ Finset.Ico (1 : ℕ) 512, ((axis.getD j 0 : ℚ) : ℝ) * L j - 3 * Real.pi * 6400 * (4 / 10)| ≤ 1 / 128 * (3 * Real.pi * 6400) := by
  have : NeZero (Meth.SDim.count ⟨512, 8, 0, none⟩) := ⟨by norm_num⟩
  obtain ⟨v, L, axis, h1, h2, h3, h4, h5, h6⟩ := C119_powder_partial exampleLib so "15N" (-1) 1 (by simp [exampleLib]) (by norm_num) (by norm_num)
    exampleStill (by norm_num [exampleStill]) ⟨512, 8, 0, none⟩ (by norm_num) (by norm_num) rfl 1 junk
    [(shiftedSys 70 1, shiftedSite 1), (shiftedSys 30 (-1), shiftedSite (-1))]
    (by
      intro s hs
      simp only [List.mem_cons, List.not_mem_nil, or_false] at hs
      rcases hs with rfl | rfl
      · exact ⟨(shifted_sound _ _).given, by norm_num [shiftedSys], shifted_lone _ _⟩
      · exact ⟨(shifted_sound _ _).given, by norm_num [shiftedSys], shifted_lone _ _⟩)
    (Or.inr ⟨rfl, by
      intro s hs
      simp only [List.mem_cons, List.not_mem_nil, or_false] at hs
      rcases hs with rfl | rfl <;> simp [Spec.Unturned, shiftedSite, shiftedSys]⟩)
    (by
      have key : ∀ (a : ℚ) (δ : ℝ), |δ| ≤ 1 →
          (Spec.Wide ⟨512, 8, 0, none⟩ (Spec.pulseLine exampleLib "15N" ((1 : ℚ) : ℝ) (Spec.upright (shiftedSys a δ).phys) ([1], [0])) ∨
          Spec.Sharp (Spec.pulseLine exampleLib "15N" ((1 : ℚ) : ℝ) (Spec.upright (shiftedSys a δ).phys) ([1], [0]))) ∧
          ∀ p, ((Meth.Spec.coord ⟨512, 8, 0, none⟩ 1 : ℚ) : ℝ) ≤ Spec.pulseLine exampleLib "15N" ((1 : ℚ) : ℝ) (Spec.upright (shiftedSys a δ).phys) ([1], [0]) p ∧
            Spec.pulseLine exampleLib "15N" ((1 : ℚ) : ℝ) (Spec.upright (shiftedSys a δ).phys) ([1], [0]) p
              ≤ ((Meth.Spec.coord ⟨512, 8, 0, none⟩ (512 - 1 : ℕ) : ℚ) : ℝ) := by
        intro a δ hδ
        obtain ⟨d1, d2⟩ := abs_le.mp hδ
        have hup : Spec.upright (shiftedSys a δ).phys = (shiftedSys a δ).phys := by
          simp [Spec.upright, shiftedSys, shiftedSite, Spec.absSite, Spec.absAngles]
        rw [hup]
        constructor
        · left
          left
          rw [shifted_line, shifted_line]
          norm_num
        · intro p
          rw [shifted_line]
          have h1 := Real.sin_sq_le_one p.2
          have h2 := Real.cos_sq_le_one p.1
          have h3 := Real.cos_sq_le_one p.2
          have h4 := mul_le_mul h1 h2 (sq_nonneg _) (by norm_num : (0 : ℝ) ≤ 1)
          have h5 := mul_nonneg (sq_nonneg (Real.sin p.2)) (sq_nonneg (Real.cos p.1))
          have h6 := sq_nonneg (Real.cos p.2)
          unfold Meth.Spec.coord
          norm_num
          constructor <;> linarith
      intro s hs
      simp only [List.mem_cons, List.not_mem_nil, or_false] at hs
      rcases hs with rfl | rfl
      · exact key _ _ (by norm_num)
      · exact key _ _ (by norm_num)) cpu 4 (by norm_num)
  simp only [List.map_cons, List.map_nil, List.sum_cons, List.sum_nil, shiftedSys, shiftedSite] at h5 h6
  have e5 : ∑ j ∈ Finset.Ico 1 512, L j = 3 * Real.pi * 6400 := by
    refine h5.trans ?_
    push_cast
    ring
  refine ⟨v, L, axis, h1, h2, h3, h4, e5, ?_⟩
  rw [e5] at h6
  refine le_trans (le_of_eq ?_) (h6.trans (le_of_eq ?_))
  · congr 2
    push_cast
    ring
  · norm_num

end MRS.Freq
