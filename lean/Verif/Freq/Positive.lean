import Verif.Freq.Liquid
import Verif.Run.Cone

/-!
# Intensities are not negative — property C109
-/

namespace MRS.Bin

theorem runCalls_nonneg (k : ℤ) (l : List (Py (Writes ℝ))) (h : ∀ c ∈ l, 0 ≤ val k c) : 0 ≤ val k (runCalls l) := by
  induction l with
  | nil => exact le_rfl
  | cons c l ih =>
    have h1 := h c List.mem_cons_self
    have h2 := ih fun c hc => h c (List.mem_cons_of_mem _ hc)
    cases c with
    | error e => exact le_rfl
    | ok w =>
      cases e : runCalls l with
      | error x =>
        simp only [runCalls, e]
        exact le_rfl
      | ok v =>
        simp only [runCalls, e]
        rw [e] at h2
        change 0 ≤ at_ k (w ++ v)
        rw [at_append]
        exact add_nonneg h1 h2

theorem total_nonneg (nt : ℕ) (amp : ℕ → ℝ) (h : ∀ q, 0 ≤ amp q) : 0 ≤ totalAmplitude nt amp := by
  rw [totalAmplitude_triList]
  apply List.sum_nonneg
  intro z hz
  obtain ⟨t, -, rfl⟩ := List.mem_map.mp hz
  exact add_nonneg (add_nonneg (h _) (h _)) (h _)

theorem octDelta_total (nt : ℕ) (f : ℝ) (amp : ℕ → ℝ) (m : ℤ) : octDelta nt f amp m = deltaFn f m (totalAmplitude nt amp) := rfl

/-- Averaging over orientations and sidebands adds to no point but the first anything negative. -/
theorem averaging1D_nonneg (nt nOct : ℕ) (vr : List ℝ) (inv off r0 : ℝ) (freq amps : ℕ → ℝ) (ha : ∀ q, 0 ≤ amps q) (count k : ℤ) (h1 : 1 ≤ k)
    (h2 : k < count) : 0 ≤ val k (averaging1D nt nOct vr inv off r0 freq amps count) := by
  unfold averaging1D
  simp only
  split_ifs with hd
  · refine runCalls_nonneg k _ fun c hc => ?_
    obtain ⟨s, -, hc⟩ := List.mem_flatMap.mp hc
    split_ifs at hc with hw
    · obtain ⟨j, -, rfl⟩ := List.mem_map.mp hc
      unfold val
      simp only []
      rw [octDelta_total, delta_tent _ _ _ _ h1 h2]
      split_ifs
      · refine mul_nonneg (total_nonneg _ _ fun q => ha _) ?_
        unfold Spec.linear
        split_ifs <;> linarith
      · exact le_rfl
    · simp at hc
  · refine runCalls_nonneg k _ fun c hc => ?_
    obtain ⟨s, -, hc⟩ := List.mem_flatMap.mp hc
    split_ifs at hc with hw
    · obtain ⟨j, -, rfl⟩ := List.mem_map.mp hc
      rw [octInterp_val _ _ _ _ (by omega)]
      apply List.sum_nonneg
      intro z hz
      obtain ⟨t, -, rfl⟩ := List.mem_map.mp hz
      obtain ⟨w, e, h, -⟩ := C35_nonneg (freq (j * nPts nt + rank nt t.1) + (off + r0 + s.1 * inv)) (freq (j * nPts nt + rank nt t.2.1) + (off + r0 + s.1 * inv))
        (freq (j * nPts nt + rank nt t.2.2) + (off + r0 + s.1 * inv))
        (amps (s.2 * (nOct * nPts nt) + j * nPts nt + rank nt t.1) + amps (s.2 * (nOct * nPts nt) + j * nPts nt + rank nt t.2.1)
          + amps (s.2 * (nOct * nPts nt) + j * nPts nt + rank nt t.2.2)) count (by omega) (fun _ => 0)
      rw [e]
      have := h (add_nonneg (add_nonneg (ha _) (ha _)) (ha _)) k
      rw [applyWrites_eq, zero_add] at this
      exact this
    · simp at hc

end MRS.Bin

namespace MRS.Freq

open Complex

theorem amplitudeArray_nonneg (W : WC) (four : Bool) (nt nOct N : ℕ) [NeZero N] (hn : 1 ≤ nt) (νr cθ sθ : ℝ) (bs : List Block) (a : ℕ) :
    0 ≤ amplitudeArray W four nt nOct N νr cθ sθ bs a := by
  have hq : a % Bin.nPts nt < Bin.nPts nt := Nat.mod_lt _ (by
    have := Bin.rank_lt nt (0, 0) (by simp)
    omega)
  have hw : 0 ≤ Sim.normAmplitude N nOct (Bin.weight nt (a % Bin.nPts nt)) := by
    unfold Sim.normAmplitude
    refine mul_nonneg ?_ (by positivity)
    obtain ⟨p, hp⟩ : ∃ p, (Bin.Spec.grid nt)[a % Bin.nPts nt]? = some p := by
      obtain ⟨j, q, p, α, β, h1, h2, h3, -⟩ := index_dir nt 1 hn (a % Bin.nPts nt) (by omega)
      have : j = 0 := by omega
      subst this
      rw [zero_mul, zero_add] at h1
      exact ⟨p, by rw [h1]; exact h3⟩
    rw [Bin.weight_eq nt hn _ p hp]
    have := Bin.len_pos nt hn p
    positivity
  unfold amplitudeArray
  simp only
  split_ifs
  · exact hw
  · split
    · exact le_rfl
    · exact mul_nonneg (sidebandAmps_bounds _ _).1 hw

/-- The points of a spectrum other than the first are not negative. -/
def Spec.Lit {n : ℕ} (v : ZMod n → ℝ) : Prop := ∀ k : ZMod n, k ≠ 0 → 0 ≤ v k

theorem pulse_kept (W : WC) (T : TC) (lib : Library) (so : Trans.SetOrder) (c : String) (central : Bool) (B0 : ℝ) (r : Rotor) (d : Meth.SDim)
    [NeZero d.count] (nOct : ℕ) (junk : ℕ → Phys → List Trans.Tr → ℕ → ℕ → ℂ) (nt : ℕ) :
    Run.Kept (pulseEnv W T lib so c central B0 r d nOct junk nt) Spec.Lit := by
  refine ⟨fun k _ => le_rfl, fun v w hv hw k hk => add_nonneg (hv k hk) (hw k hk), fun q v hq hv k hk => ?_, fun v hv k hk => ?_⟩
  · rw [Pi.smul_apply, Rat.smul_def]
    exact mul_nonneg (by exact_mod_cast hq) (hv k hk)
  · change 0 ≤ Sim.mirror1 v k
    rw [Sim.C59_mirror1]
    exact hv _ (by simpa using hk)

theorem pulse_lit (W : WC) (T : TC) (lib : Library) (so : Trans.SetOrder) (c : String) (central : Bool) (B0 : ℝ) (r : Rotor) (d : Meth.SDim)
    [NeZero d.count] (nOct : ℕ) (junk : ℕ → Phys → List Trans.Tr → ℕ → ℕ → ℂ) (nt : ℕ) (hn : 1 ≤ nt) (ph : Phys) (p : List Trans.Tr) :
    Spec.Lit ((pulseEnv W T lib so c central B0 r d nOct junk nt).core ph p) := by
  intro k hk
  have h1 : 1 ≤ (k.val : ℤ) := by
    have : k.val ≠ 0 := by simpa [ZMod.val_eq_zero] using hk
    omega
  have h2 : (k.val : ℤ) < d.count := by exact_mod_cast ZMod.val_lt k
  match p with
  | [] => exact le_rfl
  | [t] =>
    change 0 ≤ Bin.val (k.val : ℤ) (pulseWrites W T lib c B0 r d nOct (junk nt ph [t]) nt ph t)
    unfold pulseWrites rotorWrites spectrum
    have := r.seen.pos
    exact Bin.averaging1D_nonneg _ _ _ _ _ _ _ _ (fun q => amplitudeArray_nonneg _ _ _ _ _ hn _ _ _ _ _) _ _ h1 h2
  | _ :: _ :: _ => exact le_rfl

/-! ## Property -/

/-- **C109, partial.** Spectra after one pulse are nowhere negative, except perhaps at the end point: whatever the spin systems and their pathways, with
abundances that are not negative, for the list of all spectra as for their sum, on any number of processes.
Missing: the end point, where the statement is false, `C109_counterexample`. -/
theorem C109_positive_partial (W : WC) (T : TC) (lib : Library) (so : Trans.SetOrder) (c : String) (central : Bool) (B0 : ℝ) (r : Rotor) (d : Meth.SDim)
    [NeZero d.count] (hsw : 0 < d.sw) (nOct : ℕ) (junk : ℕ → Phys → List Trans.Tr → ℕ → ℕ → ℂ) (nt : ℕ) (hn : 1 ≤ nt)
    (l : List (Run.Sys Phys (List Trans.Tr))) (ha : ∀ s ∈ l, 0 ≤ s.abundance) (cpu nJobs : ℤ) (decompose : Bool)
    (ds : List (Run.Datum (ZMod d.count → ℝ))) (h : Run.run (pulseEnv W T lib so c central B0 r d nOct junk nt) cpu decompose l nJobs = .ok ds)
    (v : ZMod d.count → ℝ) (hv : Run.Datum.spec v ∈ ds) (k : ZMod d.count) (hk : k ≠ 0) : 0 ≤ v k := by
  refine Run.run_kept (pulse_kept W T lib so c central B0 r d nOct junk nt) cpu decompose l nJobs
    (fun s _ p => pulse_lit W T lib so c central B0 r d nOct junk nt hn s.phys p) (fun s hs => ?_) ds h v hv k hk
  exact div_nonneg (ha s hs) (div_nonneg hsw.le (Nat.cast_nonneg _))

/-- A run that meets the hypotheses: two molecules of two coupled nuclei. -/
example (so : Trans.SetOrder) (junk : ℕ → Phys → List Trans.Tr → ℕ → ℕ → ℂ) (cpu : ℤ) :
    haveI : NeZero (Meth.SDim.count ⟨512, 8, 0, none⟩) := ⟨by norm_num⟩
    ∃ v : ZMod 512 → ℝ, Run.run (pulseEnv WC.src TC.src exampleLib so "15N" false 1 exampleStill ⟨512, 8, 0, none⟩ 4 junk 70) cpu false
      [moleculeSys, moleculeSys] 3 = .ok [.spec v] ∧ ∀ k : ZMod 512, k ≠ 0 → 0 ≤ v k := by
  have : NeZero (Meth.SDim.count ⟨512, 8, 0, none⟩) := ⟨by norm_num⟩
  obtain ⟨A, -, -, h⟩ := C108_liquid_partial
  obtain ⟨v, hv, -⟩ := h WC.src TC.src exampleLib so "15N" (by norm_num [exampleLib]) false (by simp) 1 exampleStill ⟨512, 8, 0, none⟩ (by norm_num)
    (by norm_num) 4 (Or.inr rfl) junk 70 (by norm_num) [moleculeSys, moleculeSys]
    (fun s hs => by
      simp only [List.mem_cons, List.not_mem_nil, or_false, or_self] at hs
      subst hs
      exact ⟨molecule_given, molecule_liquid⟩)
    (fun a ha b hb _ _ _ => by
      simp only [List.mem_cons, List.not_mem_nil, or_false, or_self] at ha hb
      rw [ha, hb]) cpu 3 (by norm_num)
  refine ⟨v, hv, fun k hk => C109_positive_partial WC.src TC.src exampleLib so "15N" false 1 exampleStill ⟨512, 8, 0, none⟩ (by norm_num) 4 junk 70
    (by norm_num) [moleculeSys, moleculeSys] ?_ cpu 3 false _ hv v (by simp) k hk⟩
  intro s hs
  simp only [List.mem_cons, List.not_mem_nil, or_false, or_self] at hs
  subst hs
  norm_num [moleculeSys]

/-! ## The end point -/

/-- One nucleus whose line is less than a point below the window. -/
noncomputable def edgeSys : Run.Sys Phys (List Trans.Tr) := ⟨["15N"], none, 100, ⟨[liquidSite (13 / 4)], []⟩⟩

theorem edge_observed (x : List ℕ × List ℕ) : Spec.Observed "15N" false edgeSys.isotopes edgeSys.phys.sites x ↔ x = ([1], [0]) := by
  constructor
  · obtain ⟨xi, xf⟩ := x
    rintro ⟨h1, h2, k, i, s, e1, e2, e3, e4, -⟩
    simp only at h1 h2 e3 e4
    have hk : k = 0 := by
      have : k < 1 := (List.getElem?_eq_some_iff.mp e1).1
      omega
    subst hk
    cases h1 with
    | @cons _ b _ u ha hb =>
      cases hb
      have : b ≤ 1 := ha
      have : b = i + 1 := by simpa using e3
      have hi : i = 0 := by omega
      refine Prod.ext ?_ ?_
      · simp only
        rw [this, hi]
      · rw [e4, hi]
        simp
  · rintro rfl
    exact ⟨List.Forall₂.cons (by norm_num [liquidSite]) List.Forall₂.nil, List.Forall₂.cons (by norm_num [liquidSite]) List.Forall₂.nil,
      0, 0, liquidSite (13 / 4), rfl, rfl, rfl, rfl, by simp⟩

theorem edge_given : Spec.Given exampleLib edgeSys := by
  refine ⟨rfl, rfl, ?_, fun k hk => by cases hk⟩
  intro x hx
  simp only [edgeSys, List.mem_cons, List.not_mem_nil, or_false] at hx
  subst hx
  simp [liquidSite]

theorem edge_liquid : Spec.Liquid "15N" edgeSys := by
  refine ⟨?_, fun k hk => by cases hk⟩
  intro k y _ hy
  have := List.mem_of_getElem? hy
  simp only [edgeSys, List.mem_cons, List.not_mem_nil, or_false] at this
  subst this
  simp [liquidSite]

/-- **C109, counterexample.** A sharp line less than a point below the window gives a negative intensity: the spectrum of one nucleus, with four points,
abundance 100 and the line at `-3/4` points, is negative at the end point for every density of orientations. -/
theorem C109_counterexample (so : Trans.SetOrder) (junk : ℕ → Phys → List Trans.Tr → ℕ → ℕ → ℂ) (cpu : ℤ) (nt : ℕ) (hn : 1 ≤ nt) :
    haveI : NeZero (Meth.SDim.count ⟨4, 4, 0, none⟩) := ⟨by norm_num⟩
    ∃ v : ZMod 4 → ℝ, Run.run (pulseEnv WC.src TC.src exampleLib so "15N" false 1 exampleStill ⟨4, 4, 0, none⟩ 1 junk nt) cpu false [edgeSys] 1
      = .ok [.spec v] ∧ v 0 < 0 := by
  have : NeZero (Meth.SDim.count ⟨4, 4, 0, none⟩) := ⟨by norm_num⟩
  refine ⟨_, pulse_sum WC.src TC.src exampleLib so "15N" false (by simp) 1 exampleStill ⟨4, 4, 0, none⟩ 1 junk nt [edgeSys]
    (fun s hs => by rw [List.mem_singleton.mp hs]; exact edge_given)
    (fun a ha b hb _ _ _ => by rw [List.mem_singleton.mp ha, List.mem_singleton.mp hb]) cpu 1 le_rfl, ?_⟩
  have hmir : ∀ u : ZMod 4 → ℝ, Run.mir (pulseEnv WC.src TC.src exampleLib so "15N" false 1 exampleStill ⟨4, 4, 0, none⟩ 1 junk nt) u 0 = u 0 := by
    intro u
    unfold Run.mir
    split_ifs
    · have := Sim.C59_mirror1 u 0
      rw [neg_zero] at this
      exact this
    · rfl
  rw [hmir, sum_apply]
  simp only [List.map_cons, List.map_nil, List.sum_cons, List.sum_nil, add_zero, Pi.smul_apply, Rat.smul_def]
  unfold lines
  rw [Finset.sum_apply]
  have hset : observedF "15N" false edgeSys.isotopes edgeSys.phys.sites = {([1], [0])} := by
    ext x
    rw [observedF_mem, edge_observed, Finset.mem_singleton]
  rw [hset, Finset.sum_singleton,
    core_liquid WC.src TC.src exampleLib so "15N" false 1 exampleStill ⟨4, 4, 0, none⟩ 1 (Or.inl rfl) junk nt hn edgeSys edge_given edge_liquid
      ([1], [0]) ((edge_observed _).mpr rfl)]
  have hE : Spec.liquidEnergy 1 edgeSys.phys [0] - Spec.liquidEnergy 1 edgeSys.phys [1] = -(13 / 4) := by
    unfold Spec.liquidEnergy
    norm_num [edgeSys, liquidSite, Spec.quantum]
  have hoff : Meth.normalizeOffset (decide (0 < exampleLib.gamma "15N")) ⟨4, 4, 0, none⟩ = 5 / 2 := by
    norm_num [Meth.normalizeOffset, exampleLib]
  rw [hE, hoff]
  have hpos := total_pos nt hn
  have hd : Bin.at_ 0 (Bin.deltaFn (-(3 / 4) : ℝ) 4 1) = -(1 / 4) := by
    have ht : Bin.trunc (-(3 / 4) : ℝ) = 0 := Bin.trunc_eq_zero.mpr ⟨by norm_num, by norm_num⟩
    unfold Bin.deltaFn
    simp only [ht]
    rw [if_neg (by norm_num), if_neg (by norm_num [Bin.TOL, abs_lt]), if_pos (by norm_num), if_neg (by simp)]
    norm_num [Bin.at_]
  have hp : ((5 / 2 : ℚ) : ℝ) + ((1 / ((4 : ℚ) / ((4 : ℕ) : ℚ)) : ℚ) : ℝ) * -(13 / 4) = -(3 / 4) := by norm_num
  have hv : ((0 : ZMod 4).val : ℤ) = 0 := rfl
  have hfin : Bin.totalAmplitude nt (Bin.weight nt) * Bin.at_ (((0 : ZMod 4).val : ℕ) : ℤ) (Bin.deltaFn (((5 / 2 : ℚ) : ℝ)
      + ((1 / ((4 : ℚ) / ((4 : ℕ) : ℚ)) : ℚ) : ℝ) * -(13 / 4)) ((4 : ℕ) : ℤ) 1) < 0 := by
    rw [hp, hv]
    change _ * Bin.at_ 0 (Bin.deltaFn _ 4 1) < 0
    rw [hd]
    linarith
  refine mul_neg_of_pos_of_neg ?_ hfin
  norm_num [edgeSys]

end MRS.Freq
