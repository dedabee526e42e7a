import Verif.Freq.SourcePowder

/-!
# The spectrum of a spun powder after one pulse with the constants of the source — property C96

For a given number of sidebands, with the decimals and the table of the source and tilts of any sign.
-/

namespace MRS.Freq
open Complex Filter Topology MeasureTheory

/-! ## Specification -/

/-- The numbers of the sidebands that are computed. -/
noncomputable def Spec.orders (N : ℕ) : Finset ℤ := (Finset.Icc (-(N : ℤ)) N).filter fun m => -(N : ℤ) ≤ 2 * m ∧ 2 * m < N

/-- The intensity of sideband `m` with those that are folded on it (C117). -/
noncomputable def Spec.spunFolded (N : ℕ) (B0 νr θ : ℝ) (ph : Phys) (x : List ℕ × List ℕ) (m : ℤ) (p : ℝ × ℝ) : ℝ :=
  ‖Spec.folded N νr (Spec.momentary true B0 p.1 p.2 θ νr ph.sites ph.couplings x.1 x.2) m‖ ^ 2

/-- The mean over the upper hemisphere of `w` where `x` is in `S`. -/
noncomputable def Spec.inBin (S : Set ℝ) (x w : ℝ × ℝ → ℝ) : ℝ := Spec.upperMean fun p => S.indicator (fun _ => w p) (x p)

open Classical in
/-- What the sidebands of a line `f` give to the frequencies `S`, with intensities `w m`: those whose isotropic position is on the axis. -/
noncomputable def Spec.sidebandsIn (pos : Bool) (d : Meth.SDim) (N : ℕ) (νr : ℝ) (f : ℝ × ℝ → ℝ) (S : Set ℝ) (w : ℤ → ℝ × ℝ → ℝ) : ℝ :=
  ∑ m ∈ Spec.orders N, if Spec.sphereMean f + (if pos then 1 else -1) * (m * νr) ∈ Spec.kept pos d then
    3 * Real.pi * Spec.inBin S (fun p => f p + (if pos then 1 else -1) * (m * νr)) (w m) else 0

/-! ## Lemmas -/

theorem inBin_measurable (S : Set ℝ) (hS : MeasurableSet S) (x w : ℝ × ℝ → ℝ) (hx : Measurable x) (hw : Measurable w) :
    Measurable fun p => S.indicator (fun _ => w p) (x p) := by
  classical
  have : (fun p => S.indicator (fun _ => w p) (x p)) = fun p => if p ∈ x ⁻¹' S then w p else 0 := by
    funext p
    rw [Set.indicator_apply]
    rfl
  rw [this]
  exact Measurable.ite (hx hS) hw measurable_const

theorem inBin_le (S T : Set ℝ) (hS : MeasurableSet S) (hT : MeasurableSet T) (x y v w : ℝ × ℝ → ℝ) (hx : Measurable x) (hy : Measurable y)
    (hv : Measurable v) (hw : Measurable w) (C : ℝ) (hvC : ∀ p, |v p| ≤ C) (hwC : ∀ p, |w p| ≤ C) (hw0 : ∀ p, 0 ≤ w p)
    (hST : ∀ p, x p ∈ S → y p ∈ T) (hvw : ∀ p, v p ≤ w p) : Spec.inBin S x v ≤ Spec.inBin T y w := by
  have hC : ∀ (S : Set ℝ) (x v : ℝ × ℝ → ℝ), (∀ p, |v p| ≤ C) → ∀ p, |S.indicator (fun _ => v p) (x p)| ≤ C := by
    intro S x v h p
    by_cases hm : x p ∈ S
    · rw [Set.indicator_of_mem hm]
      exact h p
    · rw [Set.indicator_of_notMem hm, abs_zero]
      exact (abs_nonneg _).trans (h p)
  refine upperMean_le _ _ (inBin_measurable S hS x v hx hv) (inBin_measurable T hT y w hy hw) C (hC _ _ _ hvC) (hC _ _ _ hwC) fun p => ?_
  by_cases hm : x p ∈ S
  · rw [Set.indicator_of_mem hm, Set.indicator_of_mem (hST p hm)]
    exact hvw p
  · rw [Set.indicator_of_notMem hm]
    exact Set.indicator_nonneg (fun _ _ => hw0 p) _

/-- What one transition contributes to point `j` with the decimals of the source. -/
theorem source_one (lib : Library) (c : String) (central : Bool) (B0 νr θ : ℝ) (hr : 1 / 1000 ≤ νr) (d : Meth.SDim)
    (h : ℕ) (hd : d.count = 2 * h) (hh : 1 ≤ h) (hsw : 0 < d.sw) (n nOct : ℕ) (junk : ℕ → ℕ → ℕ → ℂ)
    (s : Run.Sys Phys (List Trans.Tr)) (hs : Spec.Given lib s) (he : ∀ y ∈ s.phys.sites, |y.eta| ≤ 1 ∧ |y.etaQ| ≤ 1)
    (hke : ∀ k ∈ s.phys.couplings, |k.eta| ≤ 1)
    (hO : nOct = 4 ∨ nOct = 1 ∧ Spec.Unturned s.phys.sites s.phys.couplings)
    (x : List ℕ × List ℕ) (hxo : Spec.Observed c central s.isotopes s.phys.sites x)
    (hwide : let f := Spec.spunLine lib c B0 νr θ (Spec.upright s.phys) x
      let δ := Spec.lineTol B0 s.phys x
      ((d.sw / d.count / 1000000 : ℚ) : ℝ) + 2 * δ ≤ |f (0, Real.pi / 2) - f (Real.pi / 2, Real.pi / 2)| ∨
        ((d.sw / d.count / 1000000 : ℚ) : ℝ) + 2 * δ ≤ |f (0, Real.pi / 2) - f (0, 0)|)
    (hwin : let f := Spec.spunLine lib c B0 νr θ (Spec.upright s.phys) x
      ∀ m ∈ Spec.orders (n + 2), ∀ y, |y - (Spec.sphereMean f + (if 0 < lib.gamma c then 1 else -1) * (m * νr))| ≤ Spec.lineTol B0 s.phys x →
        (y ∈ Spec.kept (decide (0 < lib.gamma c)) d ↔
          Spec.sphereMean f + (if 0 < lib.gamma c then 1 else -1) * (m * νr) ∈ Spec.kept (decide (0 < lib.gamma c)) d))
    (j : ℕ) (hj : 1 ≤ j) (hjn : j < d.count) :
    let g := fun nt => pulseWrites WC.src TC.src lib c B0 ⟨n + 2, inferInstance, νr, θ⟩ d nOct (junk nt) nt s.phys
      (qnum (s.phys.sites.map Site.n) x.1, qnum (s.phys.sites.map Site.n) x.2)
    let f := Spec.spunLine lib c B0 νr θ (Spec.upright s.phys) x
    let δ := Spec.lineTol B0 s.phys x
    (∀ nt, 1 ≤ nt → ∃ u, g nt = .ok u) ∧
    ∃ V : ℝ, Tendsto (fun nt => Bin.val (accBin (decide (0 < lib.gamma c)) d.count j) (g nt)) atTop (𝓝 V) ∧
      Spec.sidebandsIn (decide (0 < lib.gamma c)) d (n + 2) νr f (Spec.narrow d j δ)
        (fun m p => Spec.spunFolded (n + 2) B0 νr θ (Spec.upright s.phys) x m p - 50 / 3 * δ / νr) ≤ V ∧
      V ≤ Spec.sidebandsIn (decide (0 < lib.gamma c)) d (n + 2) νr f (Spec.broad d j δ)
        (fun m p => Spec.spunFolded (n + 2) B0 νr θ (Spec.upright s.phys) x m p + 50 / 3 * δ / νr) := by
  classical
  intro g f δ
  have hν : 0 < νr := by linarith
  have hpi := Real.pi_pos
  set t := methodComponents WC.src TC.src (lib.twoI c) B0 s.phys.sites s.phys.couplings (Spec.quantum s.phys.sites x.1)
    (Spec.quantum s.phys.sites x.2) with ht
  set t' := methodComponents WC.exact TC.exact (lib.twoI c) B0 s.phys.sites s.phys.couplings (Spec.quantum s.phys.sites x.1)
    (Spec.quantum s.phys.sites x.2) with ht'
  set pos := decide (0 < lib.gamma c) with hpos
  set inv : ℝ := ((1 / (d.sw / d.count) : ℚ) : ℝ) with hinvd
  set off : ℝ := ((Meth.normalizeOffset pos d : ℚ) : ℝ) with hoff
  have hsg : (if 0 < lib.gamma c then (1 : ℝ) else -1) = if pos then 1 else -1 := by simp only [hpos, decide_eq_true_eq]
  have hg : ∀ nt, g nt = spectrum WC.src (fourth (lib.twoI c)) nt nOct (n + 2) νr (Real.cos θ) (Real.sin θ) inv
      off d.count (startRows (fourth (lib.twoI c)) (junk nt) nt) t :=
    fun nt => pulseWrites_spun WC.src TC.src lib c B0 νr θ hr d nOct n (junk nt) nt s.phys x
  simp only [hg]
  have hspec := observed_spectator lib c central s.isotopes s.phys.sites hs.spins x hxo
  have hfl := fun W T => method_dirFreq W T (lib.twoI c) B0 (Real.cos θ) (Real.sin θ) s.phys.sites s.phys.couplings x.1 x.2 hs.sites hspec
  have hA := fun W T => method_dirAmp W T (lib.twoI c) B0 (n + 2) νr (Real.cos θ) (Real.sin θ) s.phys.sites s.phys.couplings x.1 x.2
    hs.sites hspec
  set u := dirFreq WC.src (fourth (lib.twoI c)) (Real.cos θ) (Real.sin θ) t with hu
  set u' := dirFreq WC.exact (fourth (lib.twoI c)) (Real.cos θ) (Real.sin θ) t' with hu'
  have hfeq : f = fun p => (if pos then 1 else -1) * u' p := by
    funext p
    rw [hu', ht', hfl]
    have h75 := C75_average_partial true B0 p.1 p.2 θ νr hν _ _ x.1 x.2 (state_absolute _ _ hxo.initial) (state_absolute _ _ hxo.final)
      (upright_absolute s.phys.sites hs.sites) (couplings_absolute s.phys.sites s.phys.couplings hs.couplings)
    rw [components_absolute, quantum_absolute, quantum_absolute] at h75
    simp only [f, Spec.spunLine, hsg]
    congr 1
    exact h75.symm
  have hsites : ∀ y ∈ s.phys.sites, 1 ≤ y.n ∧ |y.eta| ≤ 1 ∧ |y.etaQ| ≤ 1 := fun y hy => ⟨hs.sites y hy, he y hy⟩
  have hcoup : ∀ k ∈ s.phys.couplings, k.A < s.phys.sites.length ∧ k.X < s.phys.sites.length ∧ |k.eta| ≤ 1 :=
    fun k hk => ⟨(hs.couplings k hk).1, (hs.couplings k hk).2, hke k hk⟩
  have hfreq : ∀ p, |u p - u' p| ≤ δ := by
    intro p
    rw [hu, hu', ht, ht', hfl, hfl]
    exact components_near ⟨Real.cos p.2, Real.sin p.2, exp (p.1 * I), Real.cos θ, Real.sin θ, Real.cos_sq_add_sin_sq p.2, exp_norm p.1,
      Real.cos_sq_add_sin_sq θ⟩ true B0 s.phys.sites s.phys.couplings hsites hke _ _
  have hδ : 0 ≤ δ := (abs_nonneg _).trans (hfreq 0)
  have hamp : ∀ m p, Spec.spunFolded (n + 2) B0 νr θ (Spec.upright s.phys) x m p
      = dirAmp WC.exact (fourth (lib.twoI c)) (n + 2) νr (Real.cos θ) (Real.sin θ) t' (m % ((n + 2 : ℕ) : ℤ)).toNat p := by
    intro m p
    rw [ht', hA, dirAmp_residue]
    exact (C117_tilted_partial true (n + 2) B0 p.1 p.2 θ νr hν s.phys.sites s.phys.couplings x.1 x.2 hxo.initial hxo.final hs.sites
      hs.couplings m).2.symm
  have hint : ∀ m p, |dirAmp WC.src (fourth (lib.twoI c)) (n + 2) νr (Real.cos θ) (Real.sin θ) t (m % ((n + 2 : ℕ) : ℤ)).toNat p
      - Spec.spunFolded (n + 2) B0 νr θ (Spec.upright s.phys) x m p| ≤ 50 / 3 * δ / νr := by
    intro m p
    rw [ht, hA, dirAmp_residue]
    exact C117_decimals_partial true (n + 2) B0 p.1 p.2 θ νr hν s.phys.sites s.phys.couplings x.1 x.2 hxo.initial hxo.final hsites hcoup m
  have hinc : 0 < d.sw / d.count := by
    have : (0 : ℚ) < d.count := by
      rw [hd]
      push_cast
      have : (1 : ℚ) ≤ h := by exact_mod_cast hh
      linarith
    positivity
  have hacc : 1 ≤ accBin pos d.count j ∧ accBin pos d.count j < (d.count : ℤ) := by
    unfold accBin
    split_ifs <;> omega
  -- the recorded frequency with the decimals
  set w : ℝ × ℝ → ℝ := fun p => (if pos then 1 else -1) * u p with hw
  have hnear : ∀ p, |w p - f p| ≤ δ := by
    intro p
    rw [hfeq]
    simp only [hw]
    rw [← mul_sub, abs_mul]
    have : |(if pos then (1 : ℝ) else -1)| = 1 := by split_ifs <;> simp
    rw [this, one_mul]
    exact hfreq p
  have hspread : Spread inv u := by
    refine wide_spread lib c d hinc u ?_
    rw [hsg]
    have n1 := abs_le.mp (hnear (0, Real.pi / 2))
    have n2 := abs_le.mp (hnear (Real.pi / 2, Real.pi / 2))
    have n3 := abs_le.mp (hnear (0, 0))
    refine hwide.imp (fun h => ?_) fun h => ?_
    · rw [le_abs] at h ⊢
      exact h.imp (fun h => by linarith [n1.1, n2.2]) fun h => by linarith [n1.2, n2.1]
    · rw [le_abs] at h ⊢
      exact h.imp (fun h => by linarith [n1.1, n3.2]) fun h => by linarith [n1.2, n3.1]
  have hiso : |t.R0 - t'.R0| ≤ δ := mean_close _ _ _ _ _ _ _ _ hfreq
  have hmean : Spec.sphereMean f = (if pos then 1 else -1) * t'.R0 := by rw [hfeq, sphereMean_mul, dirFreq_mean]
  have hord : ∀ m, m ∈ Spec.orders (n + 2) ↔ -((n + 2 : ℕ) : ℤ) ≤ 2 * m ∧ 2 * m < ((n + 2 : ℕ) : ℤ) := by
    intro m
    unfold Spec.orders
    rw [Finset.mem_filter, Finset.mem_Icc]
    omega
  have hkept : ∀ m ∈ Spec.orders (n + 2), ((-1 < off + inv * (t.R0 + m * νr) ∧ off + inv * (t.R0 + m * νr) < ((d.count : ℤ) : ℝ) + 1) ↔
      Spec.sphereMean f + (if pos then 1 else -1) * (m * νr) ∈ Spec.kept pos d) := by
    intro m hm
    have hm' := hwin m hm ((if pos then 1 else -1) * (t.R0 + m * νr)) (by
      rw [hsg]
      change |_ - (Spec.sphereMean f + _)| ≤ _
      rw [hmean, show (if pos then (1 : ℝ) else -1) * (t.R0 + m * νr) - ((if pos then 1 else -1) * t'.R0 + (if pos then 1 else -1) * (m * νr))
        = (if pos then 1 else -1) * (t.R0 - t'.R0) by ring, abs_mul]
      have : |(if pos then (1 : ℝ) else -1)| = 1 := by split_ifs <;> simp
      rw [this, one_mul]
      exact hiso)
    rw [hsg] at hm'
    rw [position_kept pos d h hd hh hsw]
    exact hm'
  set M := (Spec.orders (n + 2)).filter fun m : ℤ => Spec.sphereMean f + (if pos then 1 else -1) * (m * νr) ∈ Spec.kept pos d with hM
  have four := fun junk => finite_limit WC.src (fourth (lib.twoI c)) (n + 2) t (Real.cos θ) (Real.sin θ) νr junk inv off d.count
    (accBin pos d.count j) hacc.1 hacc.2 hspread M (fun m hm => (hord m).mp (Finset.mem_filter.mp hm).1) (fun m l r => by
      rw [hM, Finset.mem_filter, hkept m ((hord m).mpr ⟨l, r⟩)]
      exact ⟨fun h => h.2, fun h => ⟨(hord m).mpr ⟨l, r⟩, h⟩⟩)
  have hbt : ∀ m : ℤ, Spec.between (accBin pos d.count j) ((accBin pos d.count j : ℝ) + 1) (fun p => off + inv * (u p + m * νr))
        (dirAmp WC.src (fourth (lib.twoI c)) (n + 2) νr (Real.cos θ) (Real.sin θ) t (m % ((n + 2 : ℕ) : ℤ)).toNat)
      = Spec.inBin (Spec.bin pos d j) (fun p => w p + (if pos then 1 else -1) * (m * νr))
        (dirAmp WC.src (fourth (lib.twoI c)) (n + 2) νr (Real.cos θ) (Real.sin θ) t (m % ((n + 2 : ℕ) : ℤ)).toNat) := by
    intro m
    unfold Spec.between Spec.inBin
    congr 1
    funext p
    have hb := position_bin pos d h hd hh hsw j (u p + m * νr)
    rw [mul_add (if pos then (1 : ℝ) else -1)] at hb
    by_cases hm : w p + (if pos then 1 else -1) * (m * νr) ∈ Spec.bin pos d j
    · rw [Set.indicator_of_mem hm]
      exact if_pos (hb.mpr hm)
    · rw [Set.indicator_of_notMem hm]
      exact if_neg fun h' => hm (hb.mp h')
  have hwm : Measurable w := measurable_const.mul (dirFreq_continuous _ _ _ _ _).measurable
  have hfm : Measurable f := by
    rw [hfeq]
    exact measurable_const.mul (dirFreq_continuous _ _ _ _ _).measurable
  have ham : ∀ m, Measurable (Spec.spunFolded (n + 2) B0 νr θ (Spec.upright s.phys) x m) := fun m => by
    rw [funext (hamp m)]
    exact (dirAmp_continuous WC.exact _ _ νr _ _ t' _).measurable
  have ha1 : ∀ m p, 0 ≤ Spec.spunFolded (n + 2) B0 νr θ (Spec.upright s.phys) x m p ∧
      Spec.spunFolded (n + 2) B0 νr θ (Spec.upright s.phys) x m p ≤ 1 := fun m p => by
    rw [hamp m p]
    exact dirAmp_bounds WC.exact _ _ νr _ _ t' _ p
  have hε : 0 ≤ 50 / 3 * δ / νr := by positivity
  have hval : ∀ junk : ℕ → ℕ → ℕ → ℂ, (∀ nt, 1 ≤ nt → ∃ u, spectrum WC.src (fourth (lib.twoI c)) nt nOct (n + 2) νr (Real.cos θ) (Real.sin θ) inv
        off d.count (startRows (fourth (lib.twoI c)) (junk nt) nt) t = .ok u) ∧
      Tendsto (fun nt => Bin.val (accBin pos d.count j) (spectrum WC.src (fourth (lib.twoI c)) nt nOct (n + 2) νr (Real.cos θ) (Real.sin θ) inv
        off d.count (startRows (fourth (lib.twoI c)) (junk nt) nt) t)) atTop (𝓝 (∑ m ∈ M, 3 * Real.pi *
          Spec.between (accBin pos d.count j) ((accBin pos d.count j : ℝ) + 1) (fun p => off + inv * (u p + m * νr))
          (dirAmp WC.src (fourth (lib.twoI c)) (n + 2) νr (Real.cos θ) (Real.sin θ) t (m % ((n + 2 : ℕ) : ℤ)).toNat))) := by
    intro junk
    rcases hO with rfl | ⟨rfl, hun⟩
    · exact four junk
    · obtain ⟨h1, h2⟩ := four junk
      have h78 := fun nt (hn : 1 ≤ nt) => C78_octant WC.src TC.src (fourth (lib.twoI c)) nt (n + 2) hn B0 νr (Real.cos θ) (Real.sin θ)
        inv off d.count (by omega) (s.phys.sites.map (packed (lib.twoI c))) s.phys.couplings (Spec.quantum s.phys.sites x.1)
        (Spec.quantum s.phys.sites x.2) (unturned_packed _ _ _ hun) (junk nt) (junk nt)
      refine ⟨fun nt hn => ?_, Tendsto.congr' ?_ h2⟩
      · obtain ⟨u, v, e1, _⟩ := h78 nt hn
        exact ⟨u, e1⟩
      · filter_upwards [eventually_ge_atTop 1] with nt hn
        obtain ⟨u, v, e1, e2, e3⟩ := h78 nt hn
        change Bin.val _ (spectrum _ _ _ _ _ _ _ _ _ _ _ _ (components _ _ _ _ _ _ _ _)) = Bin.val _ (spectrum _ _ _ _ _ _ _ _ _ _ _ _ (components _ _ _ _ _ _ _ _))
        rw [e1, e2]
        exact e3 _
  refine ⟨(hval junk).1, _, (hval junk).2, ?_, ?_⟩
  · unfold Spec.sidebandsIn
    rw [← Finset.sum_filter]
    refine Finset.sum_le_sum fun m hm => mul_le_mul_of_nonneg_left ?_ (by positivity)
    rw [hbt]
    refine inBin_le _ _ measurableSet_Ioo (bin_measurable _ _ _) _ _ _ _ (hfm.add_const _) (hwm.add_const _) ((ham m).sub_const _)
      (dirAmp_continuous WC.src _ _ νr _ _ t _).measurable (1 + 50 / 3 * δ / νr) (fun p => ?_) (fun p => ?_)
      (fun p => (dirAmp_bounds WC.src _ _ νr _ _ t _ p).1) (fun p hp => ?_) (fun p => ?_)
    · rw [abs_le]; constructor <;> linarith [(ha1 m p).1, (ha1 m p).2]
    · have := dirAmp_bounds WC.src (fourth (lib.twoI c)) (n + 2) νr (Real.cos θ) (Real.sin θ) t (m % ((n + 2 : ℕ) : ℤ)).toNat p
      rw [abs_le]; constructor <;> linarith [this.1, this.2]
    · have k := abs_le.mp (hnear p)
      generalize (if pos then (1 : ℝ) else -1) * ((m : ℝ) * νr) = a at hp ⊢
      obtain ⟨p1, p2⟩ := hp
      unfold Spec.bin
      dsimp only
      split_ifs <;> constructor <;> linarith [k.1, k.2]
    · linarith [(abs_le.mp (hint m p)).1]
  · unfold Spec.sidebandsIn
    rw [← Finset.sum_filter]
    refine Finset.sum_le_sum fun m hm => mul_le_mul_of_nonneg_left ?_ (by positivity)
    rw [hbt]
    refine inBin_le _ _ (bin_measurable _ _ _) measurableSet_Icc _ _ _ _ (hwm.add_const _) (hfm.add_const _)
      (dirAmp_continuous WC.src _ _ νr _ _ t _).measurable ((ham m).add_const _) (1 + 50 / 3 * δ / νr) (fun p => ?_) (fun p => ?_)
      (fun p => by linarith [(ha1 m p).1]) (fun p hp => ?_) (fun p => ?_)
    · have := dirAmp_bounds WC.src (fourth (lib.twoI c)) (n + 2) νr (Real.cos θ) (Real.sin θ) t (m % ((n + 2 : ℕ) : ℤ)).toNat p
      rw [abs_le]; constructor <;> linarith [this.1, this.2]
    · rw [abs_le]; constructor <;> linarith [(ha1 m p).1, (ha1 m p).2]
    · have k := abs_le.mp (hnear p)
      generalize (if pos then (1 : ℝ) else -1) * ((m : ℝ) * νr) = a at hp ⊢
      unfold Spec.bin at hp
      dsimp only at hp
      split_ifs at hp
      all_goals
        obtain ⟨p1, p2⟩ := hp
        constructor <;> linarith [k.1, k.2]
    · linarith [(abs_le.mp (hint m p)).2]

/-! ## Property -/

/-- **C96 (spinning, the source), partial.** With the decimals of the source, for a given number of sidebands from 2 on and tilts of any sign: the
spectrum that `Simulator.run` computes for any list of spin systems with a Bloch decay method converges with the integration density, and each
point `j ≥ 1` of the limit is between two sums over the spin systems, their observed transitions and the sidebands of these: those for bins that
are narrower or broader by the tolerance of the line, and for intensities (those of C117) that are smaller or larger by the tolerance of
the phases.
Missing: lines that the code may take for sharp; sidebands whose isotropic position is within the tolerance of the ends of the axis; odd
numbers of points (C33); point 0. -/
theorem C96_decimals_spinning_partial (lib : Library) (so : Trans.SetOrder) (c : String) (hγ : lib.gamma c ≠ 0) (central : Bool)
    (hcen : central = true → lib.twoI c % 2 = 1) (B0 νr θ : ℝ) (hr : 1 / 1000 ≤ νr) (d : Meth.SDim) [NeZero d.count]
    (hev : d.count % 2 = 0) (hsw : 0 < d.sw)
    (n nOct : ℕ) (junk : ℕ → Phys → List Trans.Tr → ℕ → ℕ → ℂ) (l : List (Run.Sys Phys (List Trans.Tr)))
    (hl : ∀ s ∈ l, Spec.Given lib s ∧ 0 ≤ s.abundance ∧ (∀ y ∈ s.phys.sites, |y.eta| ≤ 1 ∧ |y.etaQ| ≤ 1) ∧
      ∀ k ∈ s.phys.couplings, |k.eta| ≤ 1)
    (hu : ∀ a ∈ l, ∀ b ∈ l, c ∈ a.isotopes → c ∈ b.isotopes → a.isotopes.length = b.isotopes.length → a.isotopes = b.isotopes)
    (hO : nOct = 4 ∨ nOct = 1 ∧ ∀ s ∈ l, Spec.Unturned s.phys.sites s.phys.couplings)
    (hx : ∀ s ∈ l, ∀ x, Spec.Observed c central s.isotopes s.phys.sites x →
      let f := Spec.spunLine lib c B0 νr θ (Spec.upright s.phys) x
      let δ := Spec.lineTol B0 s.phys x
      (((d.sw / d.count / 1000000 : ℚ) : ℝ) + 2 * δ ≤ |f (0, Real.pi / 2) - f (Real.pi / 2, Real.pi / 2)| ∨
        ((d.sw / d.count / 1000000 : ℚ) : ℝ) + 2 * δ ≤ |f (0, Real.pi / 2) - f (0, 0)|) ∧
      ∀ m ∈ Spec.orders (n + 2), ∀ y, |y - (Spec.sphereMean f + (if 0 < lib.gamma c then 1 else -1) * (m * νr))| ≤ δ →
        (y ∈ Spec.kept (decide (0 < lib.gamma c)) d ↔
          Spec.sphereMean f + (if 0 < lib.gamma c then 1 else -1) * (m * νr) ∈ Spec.kept (decide (0 < lib.gamma c)) d))
    (cpu nJobs : ℤ) (hJ : 1 ≤ nJobs) :
    ∃ (v : ℕ → ZMod d.count → ℝ) (L : ℕ → ℝ),
      (∀ nt, Run.run (pulseEnv WC.src TC.src lib so c central B0 ⟨n + 2, inferInstance, νr, θ⟩ d nOct junk nt) cpu false l nJobs
        = .ok [.spec (v nt)]) ∧
      (∀ nt, 1 ≤ nt → ∀ s ∈ l, ∀ x, Spec.Observed c central s.isotopes s.phys.sites x → ∀ junk, ∃ u,
        pulseWrites WC.src TC.src lib c B0 ⟨n + 2, inferInstance, νr, θ⟩ d nOct junk nt s.phys
          (qnum (s.phys.sites.map Site.n) x.1, qnum (s.phys.sites.map Site.n) x.2) = .ok u) ∧
      ∀ j, 1 ≤ j → j < d.count → Tendsto (fun nt => v nt j) atTop (𝓝 (L j)) ∧
        (l.map fun s => if c ∈ s.isotopes then ((s.abundance / (d.sw / d.count) : ℚ) : ℝ) *
          ∑ᶠ (x) (_ : Spec.Observed c central s.isotopes s.phys.sites x),
            Spec.sidebandsIn (decide (0 < lib.gamma c)) d (n + 2) νr (Spec.spunLine lib c B0 νr θ (Spec.upright s.phys) x)
              (Spec.narrow d j (Spec.lineTol B0 s.phys x)) (fun m p =>
                Spec.spunFolded (n + 2) B0 νr θ (Spec.upright s.phys) x m p - 50 / 3 * Spec.lineTol B0 s.phys x / νr) else 0).sum ≤ L j ∧
        L j ≤ (l.map fun s => if c ∈ s.isotopes then ((s.abundance / (d.sw / d.count) : ℚ) : ℝ) *
          ∑ᶠ (x) (_ : Spec.Observed c central s.isotopes s.phys.sites x),
            Spec.sidebandsIn (decide (0 < lib.gamma c)) d (n + 2) νr (Spec.spunLine lib c B0 νr θ (Spec.upright s.phys) x)
              (Spec.broad d j (Spec.lineTol B0 s.phys x)) (fun m p =>
                Spec.spunFolded (n + 2) B0 νr θ (Spec.upright s.phys) x m p + 50 / 3 * Spec.lineTol B0 s.phys x / νr) else 0).sum := by
  obtain ⟨h, hd⟩ : ∃ h, d.count = 2 * h := ⟨d.count / 2, by omega⟩
  have hcount : d.count ≠ 0 := NeZero.ne _
  have hh : 1 ≤ h := by omega
  have one := fun s hs x hxo j hj hjn junk => source_one lib c central B0 νr θ hr d h hd hh hsw n nOct junk s (hl s hs).1 (hl s hs).2.2.1
    (hl s hs).2.2.2 (hO.imp id fun hu => ⟨hu.1, hu.2 s hs⟩) x hxo (hx s hs x hxo).1 (hx s hs x hxo).2 j hj hjn
  have one' := fun s hs x hxo j hj hjn => (one s hs x hxo j hj hjn fun nt => junk nt s.phys (edge s.phys.sites x)).2
  choose! V hV1 hV2 hV3 using one'
  obtain ⟨v, h1, h3⟩ := pulse_limit WC.src TC.src lib so c hγ central hcen B0 ⟨n + 2, inferInstance, νr, θ⟩ d nOct junk l
    (fun s hs => (hl s hs).1) hu V hV1 cpu nJobs hJ
  have hinc : 0 < d.sw / d.count := by
    have : (0 : ℚ) < d.count := by exact_mod_cast Nat.pos_of_ne_zero (NeZero.ne d.count)
    positivity
  have hab : ∀ s ∈ l, (0 : ℝ) ≤ ((s.abundance / (d.sw / d.count) : ℚ) : ℝ) := fun s hs => by exact_mod_cast div_nonneg (hl s hs).2.1 hinc.le
  have hsum : ∀ s ∈ l, c ∈ s.isotopes → ∀ A B : List ℕ × List ℕ → ℝ,
      (∀ x, Spec.Observed c central s.isotopes s.phys.sites x → A x ≤ B x) →
      (∑ᶠ (x) (_ : Spec.Observed c central s.isotopes s.phys.sites x), A x) ≤ ∑ᶠ (x) (_ : Spec.Observed c central s.isotopes s.phys.sites x), B x := by
    intro s hs hc A B hAB
    have hfin := observed_finite lib c central s (hl s hs).1 hc
    have e := fun g : List ℕ × List ℕ → ℝ => finsum_mem_eq_finite_toFinset_sum g hfin
    refine (e _).le.trans (le_trans (Finset.sum_le_sum fun x hxo => ?_) (e _).ge)
    exact hAB x (by simpa using hxo)
  refine ⟨v, _, h1, fun nt hnt s hs x hxo junk => (one s hs x hxo 1 le_rfl (by omega) fun _ => junk).1 nt hnt,
    fun j hj hjn => ⟨h3 j hj hjn, ?_, ?_⟩⟩
  · refine List.sum_le_sum fun s hs => ?_
    split_ifs with hc
    · exact mul_le_mul_of_nonneg_left (hsum s hs hc _ _ fun x hxo => hV2 s hs x hxo j hj hjn) (hab s hs)
    · exact le_rfl
  · refine List.sum_le_sum fun s hs => ?_
    split_ifs with hc
    · exact mul_le_mul_of_nonneg_left (hsum s hs hc _ _ fun x hxo => hV3 s hs x hxo j hj hjn) (hab s hs)
    · exact le_rfl

/-- A spin system spun about an axis at a right angle to the field, with eight sidebands, all on the axis of 512 points: point 300 is within the
bounds for a tolerance of at most 1/1000 Hz. -/
example (so : Trans.SetOrder) (junk : ℕ → Phys → List Trans.Tr → ℕ → ℕ → ℂ) (cpu : ℤ) :
    haveI : NeZero (Meth.SDim.count ⟨512, 8, 0, none⟩) := ⟨by norm_num⟩
    let f : ℝ × ℝ → ℝ := fun p => -1 / 2 * (Real.sin p.2 ^ 2 * Real.cos p.1 ^ 2 - Real.cos p.2 ^ 2)
    let w : ℤ → ℝ × ℝ → ℝ := Spec.spunFolded 8 1 1 (Real.pi / 2) ⟨[poleSite], []⟩ ([1], [0])
    ∃ (v : ℕ → ZMod 512 → ℝ) (L δ : ℝ), δ ≤ 1 / 1000 ∧
      (∀ nt, Run.run (pulseEnv WC.src TC.src exampleLib so "15N" false 1 ⟨8, inferInstance, 1, Real.pi / 2⟩ ⟨512, 8, 0, none⟩ 4 junk nt)
        cpu false [exampleSys 70] 4 = .ok [.spec (v nt)]) ∧
      Tendsto (fun nt => v nt 300) atTop (𝓝 L) ∧
      70 * 64 * Spec.sidebandsIn false ⟨512, 8, 0, none⟩ 8 1 f (Spec.narrow ⟨512, 8, 0, none⟩ 300 δ) (fun m p => w m p - 50 / 3 * δ / 1) ≤ L ∧
      L ≤ 70 * 64 * Spec.sidebandsIn false ⟨512, 8, 0, none⟩ 8 1 f (Spec.broad ⟨512, 8, 0, none⟩ 300 δ) (fun m p => w m p + 50 / 3 * δ / 1) := by
  intro f w
  have : NeZero (Meth.SDim.count ⟨512, 8, 0, none⟩) := ⟨by norm_num⟩
  have hup : Spec.upright (exampleSys 70).phys = ⟨[poleSite], []⟩ := by
    simp only [Spec.upright, exampleSys, List.map_cons, List.map_nil, Spec.absSite, Spec.absAngles, poleSite, abs_zero]
  have hline : Spec.spunLine exampleLib "15N" 1 1 (Real.pi / 2) ⟨[poleSite], []⟩ ([1], [0]) = f := by
    funext p
    simp only [f]
    rw [← poleSite_spun]
    unfold Spec.spunLine Spec.average
    have e : Spec.momentary true 1 p.1 p.2 (Real.pi / 2) 1 [poleSite] [] [1] [0]
        = fun τ => -Spec.momentary false 1 p.1 p.2 (Real.pi / 2) 1 [poleSite] [] [0] [1] τ := funext (example_momentary _ _ _ _)
    simp only [e]
    rw [intervalIntegral.integral_neg]
    simp [exampleLib]
    norm_num
  have hmean : Spec.sphereMean f = 0 := by
    obtain ⟨hi, hf, hs⟩ := poleSite_state
    have : f = fun p : ℝ × ℝ => Spec.average 1 (Spec.momentary false 1 p.1 p.2 (Real.pi / 2) 1 [poleSite] [] [0] [1]) :=
      funext fun p => (poleSite_spun p).symm
    rw [this, funext fun p : ℝ × ℝ => (C75_average_partial false 1 p.1 p.2 (Real.pi / 2) 1 one_pos [poleSite] [] [0] [1] hi hf hs (by simp)).symm]
    exact (dirFreq_mean WC.exact false _ _ _).trans poleSite_iso
  have hsum : ∀ g : List ℕ × List ℕ → ℝ,
      (∑ᶠ (x) (_ : Spec.Observed "15N" false (exampleSys 70).isotopes (exampleSys 70).phys.sites x), g x) = g ([1], [0]) := by
    intro g
    simp only [example_observed]
    rw [finsum_eq_single _ ([1], [0]) (fun x hx => by simp [hx])]
    simp
  have hδ := example_tol 70
  have hγ : ¬ 0 < exampleLib.gamma "15N" := by norm_num [exampleLib]
  obtain ⟨v, L, h1, -, h3⟩ := C96_decimals_spinning_partial exampleLib so "15N" (by norm_num [exampleLib]) false (by simp) 1 1 (Real.pi / 2)
    (by norm_num) ⟨512, 8, 0, none⟩ (by norm_num) (by norm_num) 6 4 junk [exampleSys 70]
    (by
      intro s hs
      rw [List.mem_singleton] at hs
      rw [hs]
      exact ⟨(example_sound _).given, by norm_num [exampleSys], by simp [exampleSys, poleSite], by simp [exampleSys]⟩)
    (by
      intro a ha b hb _ _ _
      rw [List.mem_singleton] at ha hb
      rw [ha, hb])
    (Or.inl rfl)
    (by
      intro s hs x hx
      rw [List.mem_singleton] at hs
      subst hs
      rw [(example_observed 70 x).mp hx, hup, hline]
      refine ⟨Or.inl ?_, ?_⟩
      · simp only [f]
        norm_num
        linarith
      · intro m hm y hy
        rw [hmean] at hy ⊢
        unfold Spec.orders at hm
        rw [Finset.mem_filter] at hm
        obtain ⟨-, m1, m2⟩ := hm
        have m1 : (-4 : ℝ) ≤ m := by exact_mod_cast (by push_cast at m1; omega : -4 ≤ m)
        have m2 : (m : ℝ) ≤ 3 := by exact_mod_cast (by push_cast at m2; omega : m ≤ 3)
        rw [if_neg hγ] at hy ⊢
        have hy := abs_le.mp hy
        rw [decide_eq_false hγ]
        unfold Spec.kept Meth.Spec.coord
        norm_num
        constructor
        · intro
          constructor <;> linarith
        · intro
          constructor <;> linarith [hy.1, hy.2]) cpu 4 (by norm_num)
  obtain ⟨h4, h5, h6⟩ := h3 300 (by norm_num) (by norm_num)
  refine ⟨v, L 300, _, hδ, h1, h4, ?_, ?_⟩
  · refine le_trans (le_of_eq ?_) h5
    simp only [List.map_cons, List.map_nil, List.sum_cons, List.sum_nil, hsum, hup, hline, decide_eq_false hγ]
    rw [if_pos (by simp [exampleSys])]
    simp only [exampleSys, w]
    norm_num
  · refine h6.trans (le_of_eq ?_)
    simp only [List.map_cons, List.map_nil, List.sum_cons, List.sum_nil, hsum, hup, hline, decide_eq_false hγ]
    rw [if_pos (by simp [exampleSys])]
    simp only [exampleSys, w]
    norm_num

end MRS.Freq
