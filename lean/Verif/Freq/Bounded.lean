import Verif.Bin.Bounded
import Verif.Freq.Project

/-!
# A spectrum shows no more than there is — property C127
-/

namespace MRS.Freq

open Complex

theorem amplitude_share (W : WC) (four : Bool) (nt nOct N : ℕ) [NeZero N] (hn : 1 ≤ nt) (νr cθ sθ : ℝ) (bs : List Block)
    (j q : ℕ) (hj : j < nOct) (hq : q < Bin.nPts nt) :
    ∑ s ∈ Finset.range N, amplitudeArray W four nt nOct N νr cθ sθ bs (s * (nOct * Bin.nPts nt) + j * Bin.nPts nt + q)
      ≤ Bin.weight nt q / nOct := by
  have ha : j * Bin.nPts nt + q < nOct * Bin.nPts nt := by
    calc j * Bin.nPts nt + q < (j + 1) * Bin.nPts nt := by rw [Nat.succ_mul]; omega
      _ ≤ nOct * Bin.nPts nt := Nat.mul_le_mul_right _ hj
  have hmod : ∀ s, (s * (nOct * Bin.nPts nt) + j * Bin.nPts nt + q) % Bin.nPts nt = q := by
    intro s
    rw [← mul_assoc, ← add_mul, (index_parts (Bin.nPts nt) (s * nOct + j) q hq).2]
  have hw : 0 ≤ Bin.weight nt q := by
    obtain ⟨p, hp⟩ : ∃ p, (Bin.Spec.grid nt)[q]? = some p := by
      obtain ⟨j, q', p, α, β, h1, h2, h3, -⟩ := index_dir nt 1 hn q (by omega)
      have : j = 0 := by omega
      subst this
      rw [zero_mul, zero_add] at h1
      exact ⟨p, by rw [h1]; exact h3⟩
    rw [Bin.weight_eq nt hn _ p hp]
    have := Bin.len_pos nt hn p
    positivity
  by_cases hN : N = 1
  · subst hN
    rw [Finset.sum_range_one]
    unfold amplitudeArray Sim.normAmplitude
    simp only [if_true, hmod]
    apply le_of_eq
    push_cast
    ring
  · have e : ∀ s, (s * (nOct * Bin.nPts nt) + j * Bin.nPts nt + q) / (nOct * Bin.nPts nt) = s
        ∧ (s * (nOct * Bin.nPts nt) + j * Bin.nPts nt + q) % (nOct * Bin.nPts nt) = j * Bin.nPts nt + q := by
      intro s
      rw [add_assoc]
      exact index_parts _ s _ ha
    have hdiv : (j * Bin.nPts nt + q) / Bin.nPts nt = j := (index_parts (Bin.nPts nt) j q hq).1
    cases hb : bs[j]? with
    | none =>
      rw [Finset.sum_eq_zero]
      · positivity
      · intro s _
        unfold amplitudeArray
        simp only [if_neg hN, (e s).2, hdiv, hb]
    | some b =>
      apply le_of_eq
      rw [← Sim.C60_one_dim_partial (fun k : ZMod N => sidebandPhase W four N νr cθ sθ (b.w2 q) (b.w4 q) k.val) nOct (Bin.weight nt q),
        ← sum_zmod_range]
      refine Finset.sum_congr rfl fun s _ => ?_
      unfold amplitudeArray
      simp only [if_neg hN, (e s).1, (e s).2, hdiv, hb, hmod]

theorem amplitude_total (W : WC) (four : Bool) (nt nOct N : ℕ) [NeZero N] (hn : 1 ≤ nt) (νr cθ sθ : ℝ) (bs : List Block) :
    (∑ s ∈ Finset.range N, ∑ j ∈ Finset.range nOct, Bin.totalAmplitude nt fun q =>
      amplitudeArray W four nt nOct N νr cθ sθ bs (s * (nOct * Bin.nPts nt) + j * Bin.nPts nt + q))
      ≤ Bin.totalAmplitude nt (Bin.weight nt) := by
  rw [Finset.sum_comm]
  have hswap : ∀ (F : ℕ → ℕ → ℝ), ∑ s ∈ Finset.range N, Bin.totalAmplitude nt (F s) = Bin.totalAmplitude nt fun q => ∑ s ∈ Finset.range N, F s q := by
    intro F
    simp only [Bin.totalAmplitude_triList]
    induction Bin.triList nt with
    | nil => simp
    | cons t l ih =>
      simp only [List.map_cons, List.sum_cons, Finset.sum_add_distrib]
      rw [← ih]
  have hj : ∀ j ∈ Finset.range nOct, (∑ s ∈ Finset.range N, Bin.totalAmplitude nt fun q =>
      amplitudeArray W four nt nOct N νr cθ sθ bs (s * (nOct * Bin.nPts nt) + j * Bin.nPts nt + q)) ≤ Bin.totalAmplitude nt (Bin.weight nt) / nOct := by
    intro j hj
    rw [hswap, Bin.totalAmplitude_triList, Bin.totalAmplitude_triList, div_eq_mul_inv, ← List.sum_map_mul_right]
    refine List.sum_le_sum fun t ht => ?_
    obtain ⟨b1, b2, b3⟩ := Bin.tri_bounds nt t ht
    have k := fun p (hp : p.1 + p.2 ≤ nt) =>
      amplitude_share W four nt nOct N hn νr cθ sθ bs j (Bin.rank nt p) (Finset.mem_range.mp hj) (Bin.rank_lt nt p hp)
    have k1 := k _ b1
    have k2 := k _ b2
    have k3 := k _ b3
    rw [div_eq_mul_inv] at k1 k2 k3
    linarith
  refine le_trans (Finset.sum_le_sum hj) ?_
  rw [Finset.sum_const, Finset.card_range, nsmul_eq_mul]
  rcases Nat.eq_zero_or_pos nOct with h0 | h0
  · subst h0
    rw [Nat.cast_zero, zero_mul]
    exact (total_pos nt hn).le
  · have : (nOct : ℝ) ≠ 0 := by positivity
    apply le_of_eq
    field_simp

/-- One transition gives no more than the weights of all orientations. -/
theorem core_whole (W : WC) (T : TC) (lib : Library) (so : Trans.SetOrder) (c : String) (central : Bool) (B0 : ℝ) (r : Rotor) (d : Meth.SDim)
    [NeZero d.count] (nOct : ℕ) (junk : ℕ → Phys → List Trans.Tr → ℕ → ℕ → ℂ) (nt : ℕ) (hn : 1 ≤ nt) (ph : Phys) (t : Trans.Tr) :
    ∑ k, (pulseEnv W T lib so c central B0 r d nOct junk nt).core ph [t] k ≤ Bin.totalAmplitude nt (Bin.weight nt) := by
  have := r.seen.pos
  have h1 : 1 ≤ d.count := Nat.one_le_iff_ne_zero.mpr (NeZero.ne _)
  have h2 : 1 ≤ r.seen.sidebands := Nat.one_le_iff_ne_zero.mpr (NeZero.ne _)
  have e : ∑ k, (pulseEnv W T lib so c central B0 r d nOct junk nt).core ph [t] k
      = Bin.whole d.count (pulseWrites W T lib c B0 r d nOct (junk nt ph [t]) nt ph t) := by
    rw [← sum_zmod_range]
    refine Finset.sum_congr rfl fun k hk => ?_
    rw [Finset.mem_range] at hk
    change Bin.val (((k : ZMod d.count).val : ℕ) : ℤ) _ = _
    rw [ZMod.val_natCast_of_lt hk]
  rw [e]
  unfold pulseWrites rotorWrites spectrum
  refine le_trans (Bin.averaging1D_whole _ _ _ _ _ _ _ _ (fun q => amplitudeArray_nonneg _ _ _ _ _ hn _ _ _ _ _) _ h1) ?_
  rw [(Bin.C40_fft_order r.seen.sidebands h2 r.seen.freq).1]
  exact amplitude_total _ _ _ _ _ hn _ _ _ _

/-! ## Property -/

/-- **C127, partial.** A spectrum shows no more than there is.  After one pulse the intensities of all points add up to no more than every
spin system gives: its abundance over the increment, for each of its observed transitions.  This holds whatever the interactions, frames, rotor, number of
sidebands and of octants, for every density of orientations and with the decimals of the source; lines and sidebands outside of the window
are not folded into it.  The factor `A`, the weight of all orientations, depends on the density only and is close to `3π`.
Missing: lists in which systems with the same number of nuclei have different isotopes, whose pathways the code mixes up (C02). -/
theorem C127_bounded_partial : ∃ A : ℕ → ℝ, (∀ nt, 1 ≤ nt → 0 < A nt) ∧ Filter.Tendsto A Filter.atTop (nhds (3 * Real.pi)) ∧
    ∀ (W : WC) (T : TC) (lib : Library) (so : Trans.SetOrder) (c : String) (central : Bool) (_ : central = true → lib.twoI c % 2 = 1) (B0 : ℝ)
    (r : Rotor) (d : Meth.SDim) [NeZero d.count] (_ : 0 < d.sw) (nOct : ℕ) (junk : ℕ → Phys → List Trans.Tr → ℕ → ℕ → ℂ) (nt : ℕ) (_ : 1 ≤ nt)
    (l : List (Run.Sys Phys (List Trans.Tr))) (_ : ∀ s ∈ l, Spec.Given lib s ∧ 0 ≤ s.abundance)
    (_ : ∀ a ∈ l, ∀ b ∈ l, c ∈ a.isotopes → c ∈ b.isotopes → a.isotopes.length = b.isotopes.length → a.isotopes = b.isotopes)
    (cpu nJobs : ℤ) (_ : 1 ≤ nJobs),
    ∃ v : ZMod d.count → ℝ, Run.run (pulseEnv W T lib so c central B0 r d nOct junk nt) cpu false l nJobs = .ok [.spec v] ∧
      ∑ k, v k ≤ A nt * (l.map fun s => ((s.abundance / (d.sw / d.count) : ℚ) : ℝ) *
        (Set.ncard {x | Spec.Observed c central s.isotopes s.phys.sites x} : ℝ)).sum := by
  refine ⟨fun nt => Bin.totalAmplitude nt (Bin.weight nt), total_pos, Bin.C63_limit_partial, ?_⟩
  intro W T lib so c central hcen B0 r d _ hsw nOct junk nt hn l hl hu cpu nJobs hJ
  refine ⟨_, pulse_sum W T lib so c central hcen B0 r d nOct junk nt l (fun s hs => (hl s hs).1) hu cpu nJobs hJ, ?_⟩
  have hmir : ∀ u : ZMod d.count → ℝ, ∑ k, Run.mir (pulseEnv W T lib so c central B0 r d nOct junk nt) u k = ∑ k, u k := by
    intro u
    unfold Run.mir
    split_ifs
    · refine Eq.trans (Finset.sum_congr rfl fun k _ => ?_) (Equiv.sum_comp (Equiv.neg (ZMod d.count)) u)
      exact Sim.C59_mirror1 u _
    · rfl
  rw [hmir]
  have hline : ∀ s : Run.Sys Phys (List Trans.Tr), ∑ k, lines W T lib so c central B0 r d nOct junk nt s k
      ≤ Bin.totalAmplitude nt (Bin.weight nt) * (Set.ncard {x | Spec.Observed c central s.isotopes s.phys.sites x} : ℝ) := by
    intro s
    have hcard : Set.ncard {x | Spec.Observed c central s.isotopes s.phys.sites x} = (observedF c central s.isotopes s.phys.sites).card := by
      rw [← Set.ncard_coe_finset]
      congr 1
      ext x
      exact (observedF_mem c central s.isotopes s.phys.sites x).symm
    unfold lines
    simp only [Finset.sum_apply]
    rw [Finset.sum_comm, hcard, mul_comm, ← nsmul_eq_mul]
    exact Finset.sum_le_card_nsmul _ _ _ fun x _ => core_whole W T lib so c central B0 r d nOct junk nt hn s.phys _
  clear hu
  induction l with
  | nil => simp
  | cons s l ih =>
    have h1 := ih fun x hx => hl x (List.mem_cons_of_mem _ hx)
    simp only [List.map_cons, List.sum_cons, Pi.add_apply, Finset.sum_add_distrib, mul_add]
    refine add_le_add ?_ h1
    simp only [Pi.smul_apply, Rat.smul_def]
    rw [← Finset.mul_sum, mul_left_comm]
    refine mul_le_mul_of_nonneg_left (hline s) ?_
    have := (hl s List.mem_cons_self).2
    have h0 : (0 : ℚ) ≤ s.abundance / (d.sw / d.count) := div_nonneg this (div_nonneg hsw.le (Nat.cast_nonneg _))
    exact_mod_cast h0

/-- Runs that meet the hypotheses: molecules of two coupled nuclei with others of one, on a density of 70, and a nucleus whose only line is outside of the window, where the
bound is `100 A`. -/
example (so : Trans.SetOrder) (junk : ℕ → Phys → List Trans.Tr → ℕ → ℕ → ℂ) (cpu : ℤ) :
    haveI : NeZero (Meth.SDim.count ⟨512, 8, 0, none⟩) := ⟨by norm_num⟩
    haveI : NeZero (Meth.SDim.count ⟨4, 4, 0, none⟩) := ⟨by norm_num⟩
    (∃ v : ZMod 512 → ℝ, Run.run (pulseEnv WC.src TC.src exampleLib so "15N" false 1 exampleStill ⟨512, 8, 0, none⟩ 4 junk 70) cpu false
      [moleculeSys, edgeSys] 3 = .ok [.spec v]) ∧
    ∃ A : ℝ, 0 < A ∧ ∃ v : ZMod 4 → ℝ, Run.run (pulseEnv WC.src TC.src exampleLib so "15N" false 1 exampleStill ⟨4, 4, 0, none⟩ 1 junk 70) cpu false
      [edgeSys] 1 = .ok [.spec v] ∧ v 0 + v 1 + v 2 + v 3 ≤ A * 100 := by
  have i1 : NeZero (Meth.SDim.count ⟨512, 8, 0, none⟩) := ⟨by norm_num⟩
  have i2 : NeZero (Meth.SDim.count ⟨4, 4, 0, none⟩) := ⟨by norm_num⟩
  obtain ⟨A, hA, -, h⟩ := C127_bounded_partial
  constructor
  · obtain ⟨v, hv, -⟩ := h WC.src TC.src exampleLib so "15N" false (by simp) 1 exampleStill ⟨512, 8, 0, none⟩ (by norm_num) 4 junk 70 (by norm_num)
      [moleculeSys, edgeSys]
      (fun s hs => by
        simp only [List.mem_cons, List.not_mem_nil, or_false] at hs
        rcases hs with rfl | rfl
        · exact ⟨molecule_given, by norm_num [moleculeSys]⟩
        · exact ⟨edge_given, by norm_num [edgeSys]⟩)
      (fun a ha b hb _ _ hlen => by
        simp only [List.mem_cons, List.not_mem_nil, or_false] at ha hb
        rcases ha with rfl | rfl <;> rcases hb with rfl | rfl
        · rfl
        · simp [moleculeSys, edgeSys] at hlen
        · simp [moleculeSys, edgeSys] at hlen
        · rfl) cpu 3 (by norm_num)
    exact ⟨v, hv⟩
  · obtain ⟨v, hv, hb⟩ := h WC.src TC.src exampleLib so "15N" false (by simp) 1 exampleStill ⟨4, 4, 0, none⟩ (by norm_num) 1 junk 70 (by norm_num) [edgeSys]
      (fun s hs => by
        rw [List.mem_singleton.mp hs]
        exact ⟨edge_given, by norm_num [edgeSys]⟩)
      (fun a ha b hb _ _ _ => by rw [List.mem_singleton.mp ha, List.mem_singleton.mp hb]) cpu 1 le_rfl
    refine ⟨A 70, hA 70 (by norm_num), v, hv, ?_⟩
    have hset : {x | Spec.Observed "15N" false edgeSys.isotopes edgeSys.phys.sites x} = {([1], [0])} := by
      ext x
      exact edge_observed x
    rw [List.map_singleton, List.sum_singleton, hset, Set.ncard_singleton] at hb
    have hf : ∑ k : ZMod 4, v k = v 0 + v 1 + v 2 + v 3 := Fin.sum_univ_four v
    change ∑ k : ZMod 4, v k ≤ _ at hb
    rw [hf] at hb
    norm_num [edgeSys] at hb
    linarith

end MRS.Freq
