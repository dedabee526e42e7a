import Verif.Bin.Bounded2D
import Verif.Freq.Bounded
import Verif.Freq.PositiveMap

/-!
# A map shows no more than there is — property C127
-/

namespace MRS.Freq

open Complex

/-- The weights of the sidebands of one orientation in one dimension add up to no more than the square of their number. -/
theorem event_share (W : WC) (four : Bool) (nt nOct N : ℕ) [NeZero N] (νr cθ sθ : ℝ) (bs : List Block) (a : ℕ) (ha : a < nOct * Bin.nPts nt) :
    ∑ k ∈ Finset.range N, eventAmplitude W four nt nOct N νr cθ sθ bs (k * (nOct * Bin.nPts nt) + a) ≤ (N : ℝ) ^ 2 := by
  have hmod : ∀ k, (k * (nOct * Bin.nPts nt) + a) % Bin.nPts nt = a % Bin.nPts nt := by
    intro k
    rw [← mul_assoc, mul_comm, Nat.mul_add_mod]
  by_cases hN : N = 1
  · subst hN
    rw [Finset.sum_range_one]
    unfold eventAmplitude
    simp
  · cases hb : bs[a / Bin.nPts nt]? with
    | none =>
      rw [Finset.sum_eq_zero]
      · positivity
      · intro k _
        obtain ⟨e1, e2⟩ := index_parts (nOct * Bin.nPts nt) k a ha
        unfold eventAmplitude
        simp only [if_neg hN, e2, hb]
    | some b =>
      apply le_of_eq
      rw [← Sim.sum_sidebandAmps (fun k : ZMod N => sidebandPhase W four N νr cθ sθ (b.w2 (a % Bin.nPts nt)) (b.w4 (a % Bin.nPts nt)) k.val),
        ← sum_zmod_range]
      refine Finset.sum_congr rfl fun k _ => ?_
      obtain ⟨e1, e2⟩ := index_parts (nOct * Bin.nPts nt) k a ha
      unfold eventAmplitude
      simp only [if_neg hN, e1, e2, hb, hmod]

/-- All pairs of sidebands of one orientation. -/
theorem pair_share (W : WC) (four : Bool) (nt nOct N : ℕ) [NeZero N] (hn : 1 ≤ nt) (ν : ℝ × ℝ) (cθ sθ : ℝ) (bs bs' : List Block)
    (j q : ℕ) (hj : j < nOct) (hq : q < Bin.nPts nt) :
    ∑ i ∈ Finset.range N, ∑ k ∈ Finset.range N,
      eventAmplitude W four nt nOct N ν.1 cθ sθ bs (i * (nOct * Bin.nPts nt) + j * Bin.nPts nt + q) *
        (eventAmplitude W four nt nOct N ν.2 cθ sθ bs' (k * (nOct * Bin.nPts nt) + j * Bin.nPts nt + q) *
          Sim.normAmplitude N nOct (Bin.weight nt ((k * (nOct * Bin.nPts nt) + j * Bin.nPts nt + q) % Bin.nPts nt)))
      ≤ (N : ℝ) ^ 2 * (Bin.weight nt q / nOct) := by
  have ha : j * Bin.nPts nt + q < nOct * Bin.nPts nt := by
    calc j * Bin.nPts nt + q < (j + 1) * Bin.nPts nt := by rw [Nat.succ_mul]; omega
      _ ≤ nOct * Bin.nPts nt := Nat.mul_le_mul_right _ hj
  have hmod : ∀ s, (s * (nOct * Bin.nPts nt) + j * Bin.nPts nt + q) % Bin.nPts nt = q := by
    intro s
    rw [← mul_assoc, ← add_mul, (index_parts (Bin.nPts nt) (s * nOct + j) q hq).2]
  have hw : 0 ≤ Sim.normAmplitude N nOct (Bin.weight nt q) := by
    have := normAmplitude_nonneg nt nOct N hn q
    rwa [Nat.mod_eq_of_lt hq] at this
  have h1 := event_share W four nt nOct N ν.1 cθ sθ bs _ ha
  have h2 := event_share W four nt nOct N ν.2 cθ sθ bs' _ ha
  have n1 : 0 ≤ ∑ k ∈ Finset.range N, eventAmplitude W four nt nOct N ν.2 cθ sθ bs' (k * (nOct * Bin.nPts nt) + (j * Bin.nPts nt + q)) :=
    Finset.sum_nonneg fun k _ => eventAmplitude_nonneg _ _ _ _ _ _ _ _ _ _
  simp only [← add_assoc] at h1 h2 n1
  have e : ∀ f g : ℕ → ℝ, ∑ i ∈ Finset.range N, ∑ k ∈ Finset.range N, f i *
      (g k * Sim.normAmplitude N nOct (Bin.weight nt ((k * (nOct * Bin.nPts nt) + j * Bin.nPts nt + q) % Bin.nPts nt)))
      = (∑ i ∈ Finset.range N, f i) * (∑ k ∈ Finset.range N, g k) * Sim.normAmplitude N nOct (Bin.weight nt q) := by
    intro f g
    rw [Finset.sum_mul_sum, Finset.sum_mul]
    refine Finset.sum_congr rfl fun i _ => ?_
    rw [Finset.sum_mul]
    refine Finset.sum_congr rfl fun k _ => ?_
    rw [hmod, mul_assoc]
  rw [e]
  have hN : (0 : ℝ) < N := by
    have := Nat.pos_of_ne_zero (NeZero.ne N)
    exact_mod_cast this
  refine le_trans (mul_le_mul_of_nonneg_right (mul_le_mul h1 h2 n1 (by positivity)) hw) (le_of_eq ?_)
  unfold Sim.normAmplitude
  field_simp

theorem pair_total (W : WC) (four : Bool) (nt nOct N : ℕ) [NeZero N] (hn : 1 ≤ nt) (ν : ℝ × ℝ) (cθ sθ : ℝ) (bs bs' : List Block) :
    (∑ i ∈ Finset.range N, ∑ k ∈ Finset.range N, ∑ j ∈ Finset.range nOct, Bin.totalAmplitude nt fun q =>
      eventAmplitude W four nt nOct N ν.1 cθ sθ bs (i * (nOct * Bin.nPts nt) + j * Bin.nPts nt + q) *
        (eventAmplitude W four nt nOct N ν.2 cθ sθ bs' (k * (nOct * Bin.nPts nt) + j * Bin.nPts nt + q) *
          Sim.normAmplitude N nOct (Bin.weight nt ((k * (nOct * Bin.nPts nt) + j * Bin.nPts nt + q) % Bin.nPts nt))))
      ≤ (N : ℝ) ^ 2 * Bin.totalAmplitude nt (Bin.weight nt) := by
  have hswap : ∀ (F : ℕ → ℕ → ℝ), ∑ s ∈ Finset.range N, Bin.totalAmplitude nt (F s) = Bin.totalAmplitude nt fun q => ∑ s ∈ Finset.range N, F s q := by
    intro F
    simp only [Bin.totalAmplitude_triList]
    induction Bin.triList nt with
    | nil => simp
    | cons t l ih =>
      simp only [List.map_cons, List.sum_cons, Finset.sum_add_distrib]
      rw [← ih]
  rw [Finset.sum_congr rfl fun i _ => Finset.sum_comm, Finset.sum_comm]
  have hj : ∀ j ∈ Finset.range nOct, (∑ i ∈ Finset.range N, ∑ k ∈ Finset.range N, Bin.totalAmplitude nt fun q =>
      eventAmplitude W four nt nOct N ν.1 cθ sθ bs (i * (nOct * Bin.nPts nt) + j * Bin.nPts nt + q) *
        (eventAmplitude W four nt nOct N ν.2 cθ sθ bs' (k * (nOct * Bin.nPts nt) + j * Bin.nPts nt + q) *
          Sim.normAmplitude N nOct (Bin.weight nt ((k * (nOct * Bin.nPts nt) + j * Bin.nPts nt + q) % Bin.nPts nt))))
      ≤ (N : ℝ) ^ 2 * Bin.totalAmplitude nt (Bin.weight nt) / nOct := by
    intro j hj
    rw [Finset.sum_congr rfl fun i _ => hswap _, hswap, Bin.totalAmplitude_triList, Bin.totalAmplitude_triList, mul_div_assoc, div_eq_mul_inv,
      ← List.sum_map_mul_right, ← List.sum_map_mul_left]
    refine List.sum_le_sum fun t ht => ?_
    obtain ⟨b1, b2, b3⟩ := Bin.tri_bounds nt t ht
    have k := fun p (hp : p.1 + p.2 ≤ nt) =>
      pair_share W four nt nOct N hn ν cθ sθ bs bs' j (Bin.rank nt p) (Finset.mem_range.mp hj) (Bin.rank_lt nt p hp)
    have k1 := k _ b1
    have k2 := k _ b2
    have k3 := k _ b3
    rw [div_eq_mul_inv] at k1 k2 k3
    linarith
  refine le_trans (Finset.sum_le_sum hj) ?_
  rw [Finset.sum_const, Finset.card_range, nsmul_eq_mul]
  rcases Nat.eq_zero_or_pos nOct with h0 | h0
  · subst h0
    rw [Nat.cast_zero, zero_mul]
    exact mul_nonneg (by positivity) (total_pos nt hn).le
  · have : (nOct : ℝ) ≠ 0 := by positivity
    apply le_of_eq
    field_simp

theorem mapWrites_whole (W : WC) (T : TC) (lib : Library) (c : String) (B0 : ℝ) (r : Rotor2) (d : Meth.SDim × Meth.SDim) (a : List ℚ)
    (nOct : ℕ) (junk : ℕ → ℕ → ℂ) (nt : ℕ) (hn : 1 ≤ nt) (ph : Phys) (path : List Trans.Tr) (hd : 1 ≤ d.1.count) (hd' : 1 ≤ d.2.count) :
    Bin.whole2 d.1.count d.2.count (mapWrites W T lib c B0 r d a nOct junk nt ph path)
      ≤ (r.sidebands : ℝ) ^ 2 * Bin.totalAmplitude nt (Bin.weight nt) := by
  have h0 : 0 ≤ (r.sidebands : ℝ) ^ 2 * Bin.totalAmplitude nt (Bin.weight nt) := mul_nonneg (by positivity) (total_pos nt hn).le
  have he : ∀ e, Bin.whole2 d.1.count d.2.count (.error e) ≤ (r.sidebands : ℝ) ^ 2 * Bin.totalAmplitude nt (Bin.weight nt) := by
    intro e
    rw [Bin.whole2_error]
    exact h0
  unfold mapWrites
  split
  · have := r.pos
    unfold map2D
    simp only
    split
    · exact he _
    · split
      · exact he _
      · refine le_trans (Bin.averaging2D_whole _ _ _ _ _ _ ?_ ?_ hd hd') ?_
        · exact fun q => eventAmplitude_nonneg _ _ _ _ _ _ _ _ _ _
        · exact fun q => mul_nonneg (eventAmplitude_nonneg _ _ _ _ _ _ _ _ _ _) (normAmplitude_nonneg _ _ _ hn _)
        · exact pair_total W _ nt nOct r.sidebands hn r.freq _ _ _ _
      · exact he _
  · exact he _

/-- One pathway gives no more than the weights of all orientations, times the square of the number of sidebands. -/
theorem map_whole (W : WC) (T : TC) (lib : Library) (so : Trans.SetOrder) (c : String) (dims : List (List Trans.Query)) (a : List ℚ)
    (B0 : ℝ) (r : Rotor2) (d : Meth.SDim × Meth.SDim) [NeZero d.1.count] [NeZero d.2.count] (nOct : ℕ)
    (junk : Phys → List Trans.Tr → ℕ → ℕ → ℂ) (nt : ℕ) (hn : 1 ≤ nt) (ph : Phys) (p : List Trans.Tr) :
    ∑ k, ∑ l, (mapEnv W T lib so c dims a B0 r d nOct junk nt).core ph p k l ≤ (r.sidebands : ℝ) ^ 2 * Bin.totalAmplitude nt (Bin.weight nt) := by
  refine le_trans (le_of_eq ?_) (mapWrites_whole W T lib c B0 r d a nOct (junk ph p) nt hn ph p (Nat.one_le_iff_ne_zero.mpr (NeZero.ne _))
    (Nat.one_le_iff_ne_zero.mpr (NeZero.ne _)))
  rw [← sum_zmod_range]
  refine Finset.sum_congr rfl fun k hk => ?_
  rw [← sum_zmod_range]
  refine Finset.sum_congr rfl fun l hl => ?_
  rw [Finset.mem_range] at hk hl
  change Bin.val (((k : ZMod d.1.count).val : ℤ) * d.2.count + ((l : ZMod d.2.count).val : ℤ)) _ = _
  rw [ZMod.val_natCast_of_lt hk, ZMod.val_natCast_of_lt hl]

/-! ## Property -/

/-- **C127, partial.** A map shows no more than there is.  The intensities of all points of a map add up to no more than every spin system gives: its abundance over the
increments of the two dimensions, for each of its pathways, as many as `n s`.  This holds for every method with one event in each dimension, whatever its queries and affine
matrix, the interactions, the angle and speed of the rotor, and wherever the lines are; no pair of sidebands is folded into the window.  The factor `A` depends on the density
of orientations only and is close to `3π`; the other is the square of the number of sidebands, by which the code magnifies maps (C60).
Missing: lists in which systems with the same number of nuclei have different isotopes (C02), and two events or more in one dimension. -/
theorem C127_map_partial : ∃ A : ℕ → ℝ, (∀ nt, 1 ≤ nt → 0 < A nt) ∧ Filter.Tendsto A Filter.atTop (nhds (3 * Real.pi)) ∧
    ∀ (W : WC) (T : TC) (lib : Library) (so : Trans.SetOrder) (c : String) (dims : List (List Trans.Query)) (a : List ℚ) (B0 : ℝ) (r : Rotor2)
    (d : Meth.SDim × Meth.SDim) [NeZero d.1.count] [NeZero d.2.count] (_ : 0 < d.1.sw ∧ 0 < d.2.sw) (nOct : ℕ)
    (junk : Phys → List Trans.Tr → ℕ → ℕ → ℂ) (nt : ℕ) (_ : 1 ≤ nt) (l : List (Run.Sys Phys (List Trans.Tr))) (n : Run.Sys Phys (List Trans.Tr) → ℕ)
    (_ : ∀ s ∈ l, 0 ≤ s.abundance ∧ s.explicit = none ∧
      (c ∈ s.isotopes → ∀ ps, Trans.transitionPathways so (isoSites lib s.isotopes) [c] dims = .ok ps → ps.length ≤ n s))
    (_ : ∀ a ∈ l, ∀ b ∈ l, c ∈ a.isotopes → c ∈ b.isotopes → a.isotopes.length = b.isotopes.length → a.isotopes = b.isotopes)
    (cpu nJobs : ℤ) (_ : 1 ≤ nJobs) (ds : List (Run.Datum (ZMod d.1.count → ZMod d.2.count → ℝ)))
    (_ : Run.run (mapEnv W T lib so c dims a B0 r d nOct junk nt) cpu false l nJobs = .ok ds),
    ∃ v : ZMod d.1.count → ZMod d.2.count → ℝ, ds = [.spec v] ∧
      ∑ k, ∑ q, v k q ≤ (r.sidebands : ℝ) ^ 2 * A nt *
        (l.map fun s => ((s.abundance / ((d.1.sw / d.1.count) * (d.2.sw / d.2.count)) : ℚ) : ℝ) * (n s : ℝ)).sum := by
  refine ⟨fun nt => Bin.totalAmplitude nt (Bin.weight nt), total_pos, Bin.C63_limit_partial, ?_⟩
  intro W T lib so c dims a B0 r d _ _ hsw nOct junk nt hn l n hl hu cpu nJobs hJ ds hr
  set env := mapEnv W T lib so c dims a B0 r d nOct junk nt with henv
  rw [Run.run_sum env cpu l (fun a ha b hb h1 h2 h3 => ⟨hu a ha b hb h1 h2 h3, by rw [(hl a ha).2.1, (hl b hb).2.1]⟩) nJobs hJ] at hr
  cases eo : l.mapM (Run.alone env) with
  | error e => rw [eo] at hr; cases hr
  | ok os =>
    rw [eo] at hr
    injection hr with hr
    refine ⟨_, hr.symm, ?_⟩
    have hmir : ∀ u : ZMod d.1.count → ZMod d.2.count → ℝ, ∑ k, ∑ q, Run.mir env u k q = ∑ k, ∑ q, u k q := by
      intro u
      unfold Run.mir
      split_ifs
      · rw [← Equiv.sum_comp (Equiv.neg (ZMod d.1.count)) fun k => ∑ q, u k q]
        refine Finset.sum_congr rfl fun k _ => ?_
        rw [← Equiv.sum_comp (Equiv.neg (ZMod d.2.count)) fun q => u _ q]
        exact Finset.sum_congr rfl fun q _ => Sim.C59_mirror2 u _ _
      · rfl
    rw [hmir]
    have hnorm : (0 : ℚ) ≤ (d.1.sw / d.1.count) * (d.2.sw / d.2.count) :=
      mul_nonneg (div_nonneg hsw.1.le (Nat.cast_nonneg _)) (div_nonneg hsw.2.le (Nat.cast_nonneg _))
    have hA : 0 ≤ (r.sidebands : ℝ) ^ 2 * Bin.totalAmplitude nt (Bin.weight nt) := mul_nonneg (by positivity) (total_pos nt hn).le
    have hone : ∀ s ∈ l, ∀ o, Run.alone env s = .ok o → ∑ k, ∑ q, Run.val o k q ≤ (r.sidebands : ℝ) ^ 2 * Bin.totalAmplitude nt (Bin.weight nt) *
        (((s.abundance / ((d.1.sw / d.1.count) * (d.2.sw / d.2.count)) : ℚ) : ℝ) * (n s : ℝ)) := by
      intro s hs o ho
      obtain ⟨h1, h2, h3⟩ := hl s hs
      have hab : (0 : ℝ) ≤ ((s.abundance / ((d.1.sw / d.1.count) * (d.2.sw / d.2.count)) : ℚ) : ℝ) := by exact_mod_cast div_nonneg h1 hnorm
      have hz : (0 : ℝ) ≤ (r.sidebands : ℝ) ^ 2 * Bin.totalAmplitude nt (Bin.weight nt) *
        (((s.abundance / ((d.1.sw / d.1.count) * (d.2.sw / d.2.count)) : ℚ) : ℝ) * (n s : ℝ)) := mul_nonneg hA (mul_nonneg hab (Nat.cast_nonneg _))
      unfold Run.alone at ho
      by_cases hc : env.channel ∉ s.isotopes
      · rw [if_pos hc] at ho
        injection ho with ho
        rw [← ho]
        refine le_trans (le_of_eq ?_) hz
        exact Finset.sum_eq_zero fun _ _ => Finset.sum_eq_zero fun _ _ => rfl
      · rw [if_neg hc] at ho
        cases ep : Run.Spec.pathways env s with
        | error e => rw [ep] at ho; cases ho
        | ok ps =>
          have hlen : ps.length ≤ n s := by
            refine h3 (not_not.mp hc) ps ?_
            unfold Run.Spec.pathways at ep
            rw [h2] at ep
            exact ep
          rw [ep] at ho
          cases ps with
          | nil => cases ho
          | cons p ps =>
            injection ho with ho
            rw [← ho]
            change ∑ k, ∑ q, ((s.abundance / env.norm) • (p :: ps).foldl (fun a q => a + env.core s.phys q) 0) k q ≤ _
            rw [foldl_core]
            simp only [Pi.smul_apply, Rat.smul_def, ← Finset.mul_sum]
            rw [mul_left_comm]
            refine mul_le_mul_of_nonneg_left ?_ hab
            refine le_trans ?_ (mul_le_mul_of_nonneg_left (Nat.cast_le.mpr hlen) hA)
            generalize p :: ps = ps'
            induction ps' with
            | nil => simp
            | cons p ps ih =>
              simp only [List.map_cons, List.sum_cons, Pi.add_apply, Finset.sum_add_distrib, List.length_cons, Nat.cast_add, Nat.cast_one, mul_add, mul_one]
              rw [add_comm]
              exact add_le_add ih (map_whole W T lib so c dims a B0 r d nOct junk nt hn s.phys p)
    clear hr hu
    induction l generalizing os with
    | nil =>
      injection eo with eo
      rw [← eo]
      simp
    | cons s l ih =>
      rw [List.mapM_cons] at eo
      cases e1 : Run.alone env s with
      | error e => rw [e1] at eo; cases eo
      | ok o =>
        cases e2 : l.mapM (Run.alone env) with
        | error e => simp only [Bind.bind, Except.bind, e1, e2] at eo; cases eo
        | ok os' =>
          simp only [Bind.bind, Except.bind, e1, e2] at eo
          injection eo with eo
          subst eo
          have h1 := ih (fun x hx => hl x (List.mem_cons_of_mem _ hx)) os' e2 fun x hx => hone x (List.mem_cons_of_mem _ hx)
          simp only [List.map_cons, List.sum_cons, Pi.add_apply, Finset.sum_add_distrib]
          rw [mul_add]
          exact add_le_add (hone s List.mem_cons_self o e1) h1

/-- A nucleus of rubidium. -/
noncomputable def rubidium : Site := ⟨3, 13.9, -27, 110, 0, ⟨0, 0, 0⟩, 2000000, 0.4, ⟨0, -0.3, 0⟩⟩

/-- A run that meets the hypotheses: rubidium with `ThreeQ_VAS`, which has one pathway, on the magic angle, and a system without rubidium. -/
example (so : Trans.SetOrder) : ∃ (dims : List (List Trans.Query)) (a : List ℚ) (ν : ℝ) (v : ZMod 256 → ZMod 512 → ℝ),
    Run.run (mapEnv WC.exact TC.exact ⟨fun _ => 3, fun _ => 13.9⟩ so "87Rb" dims a 9.4
      ⟨1, ⟨one_ne_zero⟩, (ν, ν), Real.arccos (1 / √3)⟩ (⟨256, 10000, 0, none⟩, ⟨512, 20000, -1000, none⟩) 1 (fun _ _ _ _ => 0) 70)
      4 false [⟨["87Rb"], none, 50, ⟨[rubidium], []⟩⟩, ⟨["1H"], none, 50, ⟨[], []⟩⟩] 1 = .ok [.spec v] ∧
    ∃ A : ℝ, 0 < A ∧ ∑ k, ∑ q, v k q ≤ A * (50 / ((10000 / 256) * (20000 / 512))) := by
  obtain ⟨⟨dims, a⟩, hm⟩ := (Trans.C15_mq_domain "ThreeQ_VAS" 3 (by decide) 3).mpr (by decide)
  obtain ⟨path, a0, a1, hpath, -, ha, hsum, -, hx, hy, hc, -⟩ := mq_pathway so "87Rb" rubidium "ThreeQ_VAS" 3 (by decide) dims a hm _ _ rfl rfl
  have ha0 : a.getD 0 0 ≠ 0 := by
    rw [ha]
    intro h
    have h0 : a0 = 0 := h
    have := hc 0 rubidium rfl (by norm_num [rubidium])
    rw [show a1 = 1 by linarith, h0, Trans.STFc4_eq, Trans.STFc4_eq] at this
    simp only [rubidium, Spec.centralStates, Spec.multiple, List.getD_cons_zero] at this
    norm_num at this
  obtain ⟨ν, h0, hν⟩ := C100_fast ⟨fun _ => 3, fun _ => 13.9⟩ "87Rb" 9.4 (Real.arccos (1 / √3)) 1 ⟨one_ne_zero⟩
    (⟨256, 10000, 0, none⟩, ⟨512, 20000, -1000, none⟩) a ha0 ⟨[rubidium], []⟩ (by simp [rubidium]) (by simp) _ _ hx hy 0
  have hmagic : 3 * Real.cos (Real.arccos (1 / √3)) ^ 2 = 1 := by
    have h : (1 : ℝ) ≤ √3 := by rw [Real.one_le_sqrt]; norm_num
    rw [Real.cos_arccos (by have : (0 : ℝ) ≤ 1 / √3 := by positivity
                            linarith) (by rw [div_le_one (by positivity)]; exact h), div_pow, one_pow,
      Real.sq_sqrt (by norm_num)]
    norm_num
  obtain ⟨v, S, hv, -⟩ := C100_mq_partial ⟨fun _ => 3, fun _ => 13.9⟩ so "87Rb" (by norm_num) "ThreeQ_VAS" 3 (by decide) dims a hm 9.4
    ⟨1, ⟨one_ne_zero⟩, (ν, ν), Real.arccos (1 / √3)⟩ (by simp; linarith) (by simp; linarith) hmagic
    (⟨256, 10000, 0, none⟩, ⟨512, 20000, -1000, none⟩) (128, 256) ⟨rfl, rfl⟩ ⟨by norm_num, by norm_num⟩ ⟨by norm_num, by norm_num⟩ 1 (Or.inl rfl)
    (fun _ _ _ _ => 0) 70 (by norm_num)
    [⟨["87Rb"], none, 50, ⟨[rubidium], []⟩⟩, ⟨["1H"], none, 50, ⟨[], []⟩⟩] _ _ rfl rfl (by
      intro s hs
      simp only [List.mem_cons, List.not_mem_nil, or_false] at hs
      rcases hs with rfl | rfl
      · exact ⟨rfl, fun _ => ⟨rubidium, ⟨rfl, rfl, rfl⟩, hν ν le_rfl⟩⟩
      · exact ⟨rfl, fun h => by simp at h⟩) 4 1 (by norm_num)
  obtain ⟨A, hA, -, h⟩ := C127_map_partial
  obtain ⟨v', e, hb⟩ := h WC.exact TC.exact ⟨fun _ => 3, fun _ => 13.9⟩ so "87Rb" dims a 9.4 ⟨1, ⟨one_ne_zero⟩, (ν, ν), Real.arccos (1 / √3)⟩
    (⟨256, 10000, 0, none⟩, ⟨512, 20000, -1000, none⟩) ⟨by norm_num, by norm_num⟩ 1 (fun _ _ _ _ => 0) 70 (by norm_num)
    [⟨["87Rb"], none, 50, ⟨[rubidium], []⟩⟩, ⟨["1H"], none, 50, ⟨[], []⟩⟩] (fun s => if s.isotopes = ["87Rb"] then 1 else 0) (by
      intro s hs
      simp only [List.mem_cons, List.not_mem_nil, or_false] at hs
      rcases hs with rfl | rfl
      · refine ⟨by norm_num, rfl, fun _ ps hps => ?_⟩
        rw [show isoSites ⟨fun _ => 3, fun _ => 13.9⟩ ["87Rb"] = [⟨"87Rb", rubidium.n⟩] from rfl, hpath] at hps
        injection hps with hps
        rw [← hps]
        simp
      · exact ⟨by norm_num, rfl, fun h => by simp at h⟩) (by
      intro s hs s' hs' h1 h2 _
      simp only [List.mem_cons, List.not_mem_nil, or_false] at hs hs'
      rcases hs with rfl | rfl <;> rcases hs' with rfl | rfl
      · rfl
      · exact absurd h2 (by simp)
      · exact absurd h1 (by simp)
      · rfl) 4 1 le_rfl _ hv
  injection e with e
  injection e with e
  subst e
  refine ⟨dims, a, ν, v, hv, A 70, hA 70 (by norm_num), ?_⟩
  refine le_trans hb (le_of_eq ?_)
  simp only [List.map_cons, List.map_nil, List.sum_cons, List.sum_nil]
  norm_num

end MRS.Freq
