import Verif.Freq.OnePulse

/-!
# The spectrum of a spun powder after one pulse — property C96
-/

namespace MRS.Freq

open Complex Filter Topology

/-! ## Specification -/

/-- The frequency of a transition averaged over a turn of the rotor, as it is recorded. -/
noncomputable def Spec.spunLine (lib : Library) (c : String) (B0 νr θ : ℝ) (ph : Phys) (x : List ℕ × List ℕ) (p : ℝ × ℝ) : ℝ :=
  (if 0 < lib.gamma c then 1 else -1) * Spec.average νr (Spec.momentary true B0 p.1 p.2 θ νr ph.sites ph.couplings x.1 x.2)

/-- The intensity of its sideband `m`. -/
noncomputable def Spec.spunSideband (B0 νr θ : ℝ) (ph : Phys) (x : List ℕ × List ℕ) (m : ℤ) (p : ℝ × ℝ) : ℝ :=
  Spec.sideband νr (Spec.momentary true B0 p.1 p.2 θ νr ph.sites ph.couplings x.1 x.2) m

/-- The isotropic frequencies with which a sideband that is not sharp is drawn: those on the axis, and one increment more at one of its ends. -/
def Spec.kept (pos : Bool) (d : Meth.SDim) : Set ℝ :=
  let inc : ℚ := d.sw / d.count
  if pos then Set.Ioo ((Meth.Spec.coord d 0 - 3 / 2 * inc : ℚ) : ℝ) ((Meth.Spec.coord d d.count + 1 / 2 * inc : ℚ) : ℝ)
  else Set.Ioo ((Meth.Spec.coord d 0 - 1 / 2 * inc : ℚ) : ℝ) ((Meth.Spec.coord d d.count + 3 / 2 * inc : ℚ) : ℝ)

open Classical in
/-- What sideband `m`, with average frequency `f` and intensity `I`, gives to point `j`. -/
noncomputable def Spec.sidebandPattern (pos : Bool) (d : Meth.SDim) (j : ℕ) (νr : ℝ) (f : ℝ × ℝ → ℝ) (m : ℤ) (I : ℝ × ℝ → ℝ) : ℝ :=
  let a := (if pos then 1 else -1) * (m * νr)
  if Spec.Sharp f then Spec.peak pos d j (f (0, 0) + a) * Spec.sphereMean I
  else if Spec.sphereMean f + a ∈ Spec.kept pos d then
    Spec.sphereMean fun p => (Spec.bin pos d j).indicator (fun _ => I p) (f p + a)
  else 0

/-! ## Lemmas -/

theorem crystalPhase_flat (W : WC) (four : Bool) (N : ℕ) (νr cβ sβ : ℝ) (e : ℂ) (cθ sθ : ℝ) (t : Tens) (ht : ∀ i, t.R4 i = 0) (k : ℕ) :
    crystalPhase W four N νr cβ sβ e cθ sθ t k = crystalPhase W true N νr cβ sβ e cθ sθ t k := by
  have : t.R4 = fun _ => 0 := funext ht
  cases four
  · simp [crystalPhase, sidebandPhase, this, half_zero]
  · rfl

theorem method_dirAmp (W : WC) (T : TC) (n0 : ℕ) (B0 : ℝ) (N : ℕ) [NeZero N] (νr cθ sθ : ℝ) (ss : List Site) (ks : List Coupling) (xi xf : List ℕ)
    (hs : ∀ s ∈ ss, 1 ≤ s.n) (hx : 1 < n0 ∨ Spec.Spectator ss xi xf) :
    dirAmp W (fourth n0) N νr cθ sθ (methodComponents W T n0 B0 ss ks (Spec.quantum ss xi) (Spec.quantum ss xf))
      = dirAmp W true N νr cθ sθ (components W T true B0 ss ks (Spec.quantum ss xi) (Spec.quantum ss xf)) := by
  have h := methodComponents_eq W T n0 B0 ss ks xi xf hs hx
  rw [← h]
  funext i p
  unfold dirAmp
  by_cases h0 : 1 < n0
  · rw [fourth, decide_eq_true h0]
  · simp only [crystalPhase_flat W (fourth n0) N νr _ _ _ _ _ _ (methodComponents_flat W T n0 h0 B0 ss ks _ _)]

/-- The positions in bins of the isotropic frequencies that are kept. -/
theorem position_kept (pos : Bool) (d : Meth.SDim) (h : ℕ) (hd : d.count = 2 * h) (hh : 1 ≤ h) (hsw : 0 < d.sw) (f : ℝ) :
    (-1 < ((Meth.normalizeOffset pos d : ℚ) : ℝ) + ((1 / (d.sw / d.count) : ℚ) : ℝ) * f ∧
      ((Meth.normalizeOffset pos d : ℚ) : ℝ) + ((1 / (d.sw / d.count) : ℚ) : ℝ) * f < ((d.count : ℤ) : ℝ) + 1) ↔
      (if pos then 1 else -1) * f ∈ Spec.kept pos d := by
  have hn : (0 : ℚ) < d.count := by
    rw [hd]
    push_cast
    have : (1 : ℚ) ≤ h := by exact_mod_cast hh
    linarith
  have hinc : 0 < d.sw / d.count := by positivity
  have e := position_eq pos d h hd hh hsw 0 f
  simp only [Nat.cast_zero] at e
  have hc : Meth.Spec.coord d d.count = Meth.Spec.coord d 0 + d.count * (d.sw / d.count) := by
    unfold Meth.Spec.coord
    push_cast
    ring
  unfold Spec.kept
  simp only [hc]
  obtain ⟨inc, hi⟩ : ∃ inc : ℚ, inc = d.sw / d.count := ⟨_, rfl⟩
  obtain ⟨a, ha⟩ : ∃ a : ℚ, a = Meth.Spec.coord d 0 := ⟨_, rfl⟩
  rw [← hi] at hinc e ⊢
  rw [← ha] at e ⊢
  have hiR : (0 : ℝ) < (inc : ℝ) := by exact_mod_cast hinc
  set y := ((Meth.normalizeOffset pos d : ℚ) : ℝ) + ((1 / inc : ℚ) : ℝ) * f with hy
  cases pos
  · simp only [Bool.false_eq_true, if_false, accBin, Set.mem_Ioo] at e ⊢
    push_cast at e ⊢
    have e' : y = d.count + 1 / 2 - (-1 * f - a) / inc := by linarith
    have g : (-1 * f - a) / inc * inc = -1 * f - a := div_mul_cancel₀ _ hiR.ne'
    set q := (-1 * f - (a : ℝ)) / inc with hq
    have g' : -1 * f = a + q * inc := by linarith
    rw [e', g']
    constructor
    · rintro ⟨h1, h2⟩
      constructor <;> nlinarith
    · rintro ⟨h1, h2⟩
      have h1' : -(1 / 2) < q := by
        by_contra hh
        nlinarith
      have h2' : q < d.count + 3 / 2 := by
        by_contra hh
        nlinarith
      constructor <;> linarith
  · simp only [if_true, accBin, Set.mem_Ioo] at e ⊢
    push_cast at e ⊢
    have e' : y = 1 / 2 + (1 * f - a) / inc := by linarith
    have g : (1 * f - a) / inc * inc = 1 * f - a := div_mul_cancel₀ _ hiR.ne'
    set q := (1 * f - (a : ℝ)) / inc with hq
    have g' : 1 * f = a + q * inc := by linarith
    rw [e', g']
    constructor
    · rintro ⟨h1, h2⟩
      constructor <;> nlinarith
    · rintro ⟨h1, h2⟩
      have h1' : -(3 / 2) < q := by
        by_contra hh
        nlinarith
      have h2' : q < d.count + 1 / 2 := by
        by_contra hh
        nlinarith
      constructor <;> linarith

/-- Finitely many sidebands are in a window. -/
theorem window_finite (off inv f νr lo hi : ℝ) (hinv : 0 < inv) (hν : 0 < νr) :
    {m : ℤ | lo ≤ off + inv * (f + m * νr) ∧ off + inv * (f + m * νr) ≤ hi}.Finite := by
  have hq : 0 < inv * νr := mul_pos hinv hν
  refine (Set.finite_Icc ⌊(lo - off - inv * f) / (inv * νr)⌋ ⌈(hi - off - inv * f) / (inv * νr)⌉).subset ?_
  rintro m ⟨h1, h2⟩
  constructor
  · have : (lo - off - inv * f) / (inv * νr) ≤ m := by
      rw [div_le_iff₀ hq]
      linarith
    have := (Int.floor_le _).trans this
    exact_mod_cast this
  · have : (m : ℝ) ≤ (hi - off - inv * f) / (inv * νr) := by
      rw [le_div_iff₀ hq]
      linarith
    have := this.trans (Int.le_ceil _)
    exact_mod_cast this

theorem pulseWrites_spun (W : WC) (T : TC) (lib : Library) (c : String) (B0 νr θ : ℝ) (hr : 1 / 1000 ≤ νr) (d : Meth.SDim)
    (nOct n : ℕ) (junk : ℕ → ℕ → ℂ) (nt : ℕ) (ph : Phys) (x : List ℕ × List ℕ) :
    pulseWrites W T lib c B0 ⟨n + 2, inferInstance, νr, θ⟩ d nOct junk nt ph
        (qnum (ph.sites.map Site.n) x.1, qnum (ph.sites.map Site.n) x.2)
      = spectrum W (fourth (lib.twoI c)) nt nOct (n + 2) νr (Real.cos θ) (Real.sin θ) ((1 / (d.sw / d.count) : ℚ) : ℝ)
        ((Meth.normalizeOffset (decide (0 < lib.gamma c)) d : ℚ) : ℝ) d.count (startRows (fourth (lib.twoI c)) junk nt)
        (methodComponents W T (lib.twoI c) B0 ph.sites ph.couplings (Spec.quantum ph.sites x.1) (Spec.quantum ph.sites x.2)) := by
  have hseen : (Rotor.mk (n + 2) inferInstance νr θ).seen = ⟨n + 2, inferInstance, νr, θ⟩ := if_neg (not_lt.mpr hr)
  unfold pulseWrites
  rw [hseen]
  unfold rotorWrites
  simp only [qnum_cast]

/-- What one transition contributes to point `j`: a limit for every number of sidebands, and the limit of those. -/
theorem spun_one (lib : Library) (c : String) (central : Bool) (B0 νr θ : ℝ) (hr : 1 / 1000 ≤ νr) (d : Meth.SDim)
    (h : ℕ) (hd : d.count = 2 * h) (hh : 1 ≤ h) (hsw : 0 < d.sw) (nOct : ℕ) (junk : ℕ → ℕ → ℕ → ℕ → ℂ)
    (s : Run.Sys Phys (List Trans.Tr)) (hs : Spec.Sound lib s) (hO : nOct = 4 ∨ nOct = 1 ∧ Spec.Unturned s.phys.sites s.phys.couplings)
    (x : List ℕ × List ℕ) (hxo : Spec.Observed c central s.isotopes s.phys.sites x)
    (hx : Spec.Wide d (Spec.spunLine lib c B0 νr θ s.phys x) ∨ Spec.Sharp (Spec.spunLine lib c B0 νr θ s.phys x))
    (j : ℕ) (hj : 1 ≤ j) (hjn : j < d.count) :
    let f := fun n nt => pulseWrites WC.exact TC.exact lib c B0 ⟨n + 2, inferInstance, νr, θ⟩ d nOct (junk n nt) nt s.phys
      (qnum (s.phys.sites.map Site.n) x.1, qnum (s.phys.sites.map Site.n) x.2)
    ∃ V : ℕ → ℝ, (∀ n, (∀ nt, 1 ≤ nt → ∃ u, f n nt = .ok u) ∧
      Tendsto (fun nt => Bin.val (accBin (decide (0 < lib.gamma c)) d.count j) (f n nt)) atTop (𝓝 (V n))) ∧
      Tendsto V atTop (𝓝 (3 * Real.pi * ∑ᶠ m : ℤ, Spec.sidebandPattern (decide (0 < lib.gamma c)) d j νr
        (Spec.spunLine lib c B0 νr θ s.phys x) m (Spec.spunSideband B0 νr θ s.phys x m))) := by
  intro f
  have hν : 0 < νr := by linarith
  set t := methodComponents WC.exact TC.exact (lib.twoI c) B0 s.phys.sites s.phys.couplings (Spec.quantum s.phys.sites x.1)
    (Spec.quantum s.phys.sites x.2) with ht
  set pos := decide (0 < lib.gamma c) with hpos
  set inv : ℝ := ((1 / (d.sw / d.count) : ℚ) : ℝ) with hinvd
  set off : ℝ := ((Meth.normalizeOffset pos d : ℚ) : ℝ) with hoff
  have hf : ∀ n nt, f n nt = spectrum WC.exact (fourth (lib.twoI c)) nt nOct (n + 2) νr (Real.cos θ) (Real.sin θ) inv
      off d.count (startRows (fourth (lib.twoI c)) (junk n nt) nt) t :=
    fun n nt => pulseWrites_spun WC.exact TC.exact lib c B0 νr θ hr d nOct n (junk n nt) nt s.phys x
  simp only [hf]
  have hspec := observed_spectator lib c central s.isotopes s.phys.sites hs.spins x hxo
  have hflat := method_dirFreq WC.exact TC.exact (lib.twoI c) B0 (Real.cos θ) (Real.sin θ) s.phys.sites s.phys.couplings x.1 x.2
    (fun s' h' => (hs.sites s' h').2) hspec
  rw [← ht] at hflat
  set g := dirFreq WC.exact (fourth (lib.twoI c)) (Real.cos θ) (Real.sin θ) t with hg
  have hrec' : Spec.spunLine lib c B0 νr θ s.phys x = fun p => (if 0 < lib.gamma c then 1 else -1) * g p := by
    funext p
    rw [hflat]
    unfold Spec.spunLine
    congr 1
    exact (C75_average_partial true B0 p.1 p.2 θ νr hν s.phys.sites s.phys.couplings x.1 x.2 hxo.initial hxo.final hs.sites hs.couplings).symm
  have hrec : Spec.spunLine lib c B0 νr θ s.phys x = fun p => (if pos then 1 else -1) * g p := by
    rw [hrec']
    simp only [hpos, decide_eq_true_eq]
  have hI : ∀ m p, Tendsto (fun n : ℕ => dirAmp WC.exact (fourth (lib.twoI c)) (n + 2) νr (Real.cos θ) (Real.sin θ) t
      (m % ((n + 2 : ℕ) : ℤ)).toNat p) atTop (𝓝 (Spec.spunSideband B0 νr θ s.phys x m p)) := by
    intro m p
    have hA := fun (n i : ℕ) (p : ℝ × ℝ) => congrFun (congrFun (method_dirAmp WC.exact TC.exact (lib.twoI c) B0 (n + 2) νr (Real.cos θ)
      (Real.sin θ) s.phys.sites s.phys.couplings x.1 x.2 (fun s' h' => (hs.sites s' h').2) hspec) i) p
    simp only [← ht] at hA
    simp only [hA]
    simp only [dirAmp_residue]
    exact (tendsto_add_atTop_iff_nat 1).mpr (C76_limit_partial true B0 p.1 p.2 θ νr hν s.phys.sites s.phys.couplings x.1 x.2
      hxo.initial hxo.final hs.sites hs.couplings m)
  have hinv' : ∀ m (p : ℝ × ℝ), Spec.spunSideband B0 νr θ s.phys x m (p.1 + Real.pi, Real.pi - p.2) = Spec.spunSideband B0 νr θ s.phys x m p :=
    fun m p => (spun_inversion true B0 p.1 p.2 θ νr hν s.phys.sites s.phys.couplings x.1 x.2 hxo.initial hxo.final hs.sites hs.couplings m).2
  have hn : (0 : ℚ) < d.count := by
    rw [hd]
    push_cast
    have : (1 : ℚ) ≤ h := by exact_mod_cast hh
    linarith
  have hinc : 0 < d.sw / d.count := by positivity
  have hinv : 0 < inv := by
    have : (0 : ℚ) < 1 / (d.sw / d.count) := by positivity
    rw [hinvd]
    exact_mod_cast this
  have hacc : 1 ≤ accBin pos d.count j ∧ accBin pos d.count j < (d.count : ℤ) := by
    unfold accBin
    split_ifs <;> omega
  -- four octants
  have four : ∃ V : ℕ → ℝ, (∀ n, (∀ nt, 1 ≤ nt → ∃ u, spectrum WC.exact (fourth (lib.twoI c)) nt 4 (n + 2) νr (Real.cos θ) (Real.sin θ) inv
        off d.count (startRows (fourth (lib.twoI c)) (junk n nt) nt) t = .ok u) ∧
      Tendsto (fun nt => Bin.val (accBin pos d.count j) (spectrum WC.exact (fourth (lib.twoI c)) nt 4 (n + 2) νr (Real.cos θ) (Real.sin θ) inv
        off d.count (startRows (fourth (lib.twoI c)) (junk n nt) nt) t)) atTop (𝓝 (V n))) ∧
      Tendsto V atTop (𝓝 (3 * Real.pi * ∑ᶠ m : ℤ, Spec.sidebandPattern pos d j νr
        (Spec.spunLine lib c B0 νr θ s.phys x) m (Spec.spunSideband B0 νr θ s.phys x m))) := by
    by_cases hsh : Spec.Sharp (Spec.spunLine lib c B0 νr θ s.phys x)
    · obtain ⟨a, ha⟩ := id hsh
      have hconst : ∀ p q, g p = g q := by
        intro p q
        have e : Spec.spunLine lib c B0 νr θ s.phys x p = Spec.spunLine lib c B0 νr θ s.phys x q := by rw [ha, ha]
        rw [hrec] at e
        refine mul_left_cancel₀ ?_ e
        split_ifs <;> norm_num
      have hspread : ¬ Spread inv g := by
        unfold Spread
        rw [not_not, hconst (0, Real.pi / 2) (Real.pi / 2, Real.pi / 2), hconst (Real.pi / 2, Real.pi / 2) (0, 0)]
        simp
      have hfin : {m : ℤ | 0 ≤ off + inv * (g (0, Real.pi / 2) + m * νr) ∧
          off + inv * (g (0, Real.pi / 2) + m * νr) < ((d.count : ℤ) : ℝ)}.Finite :=
        (window_finite off inv (g (0, Real.pi / 2)) νr 0 d.count hinv hν).subset fun m hm => ⟨hm.1, by exact_mod_cast hm.2.le⟩
      obtain ⟨V, h1, h2⟩ := sharp_spin_limit WC.exact (fourth (lib.twoI c)) t (Real.cos θ) (Real.sin θ) νr
        (Spec.spunSideband B0 νr θ s.phys x) hI hinv' junk inv off d.count _ hacc.1 hacc.2 hspread hfin.toFinset
        (fun m => by rw [Set.Finite.mem_toFinset]; rfl)
      refine ⟨V, h1, h2.trans (le_of_eq ?_)⟩
      congr 1
      have key : ∀ m : ℤ, Spec.sidebandPattern pos d j νr (Spec.spunLine lib c B0 νr θ s.phys x) m (Spec.spunSideband B0 νr θ s.phys x m)
          = (if 0 ≤ off + inv * (g (0, Real.pi / 2) + m * νr) ∧ off + inv * (g (0, Real.pi / 2) + m * νr) < ((d.count : ℤ) : ℝ) then
              Bin.Spec.linear (off + inv * (g (0, Real.pi / 2) + m * νr) - ((accBin pos d.count j : ℝ) + 1 / 2)) else 0) *
            Spec.sphereMean (Spec.spunSideband B0 νr θ s.phys x m) := by
        intro m
        rw [position_peak pos d h hd hh hsw j, Spec.sidebandPattern, if_pos hsh, hrec, hconst (0, Real.pi / 2) (0, 0)]
        congr 2
        ring
      rw [finsum_eq_sum_of_support_subset (s := hfin.toFinset) _ (by
        intro m hm
        rw [Set.Finite.coe_toFinset]
        rw [Function.mem_support, key] at hm
        by_contra hout
        rw [Set.mem_ofPred_eq] at hout
        exact hm (by rw [if_neg hout, zero_mul])), Finset.mul_sum]
      refine Finset.sum_congr rfl fun m hm => ?_
      rw [Set.Finite.mem_toFinset, Set.mem_ofPred_eq] at hm
      rw [key, if_pos hm]
    · have hspread : Spread inv g := wide_spread lib c d hinc g (by rw [← hrec']; exact hx.resolve_right hsh)
      have hmean : Spec.sphereMean (Spec.spunLine lib c B0 νr θ s.phys x) = (if pos then 1 else -1) * t.R0 := by
        rw [hrec, sphereMean_mul, dirFreq_mean]
      have hfin : {m : ℤ | -1 < off + inv * (t.R0 + m * νr) ∧ off + inv * (t.R0 + m * νr) < ((d.count : ℤ) : ℝ) + 1}.Finite :=
        (window_finite off inv t.R0 νr (-1) (((d.count : ℤ) : ℝ) + 1) hinv hν).subset fun m hm => ⟨hm.1.le, hm.2.le⟩
      obtain ⟨V, h1, h2⟩ := spin_limit WC.exact (fourth (lib.twoI c)) t (Real.cos θ) (Real.sin θ) νr
        (Spec.spunSideband B0 νr θ s.phys x) hI hinv' junk inv off d.count _ hacc.1 hacc.2 hspread hfin.toFinset
        (fun m => by rw [Set.Finite.mem_toFinset]; rfl)
      refine ⟨V, h1, h2.trans (le_of_eq ?_)⟩
      congr 1
      have hkept : ∀ m : ℤ, (-1 < off + inv * (t.R0 + m * νr) ∧ off + inv * (t.R0 + m * νr) < ((d.count : ℤ) : ℝ) + 1) ↔
          Spec.sphereMean (Spec.spunLine lib c B0 νr θ s.phys x) + (if pos then 1 else -1) * (m * νr) ∈ Spec.kept pos d := by
        intro m
        rw [position_kept pos d h hd hh hsw, hmean, mul_add]
      rw [finsum_eq_sum_of_support_subset (s := hfin.toFinset) _ (by
        intro m hm
        rw [Set.Finite.coe_toFinset]
        by_contra hout
        refine hm ?_
        beta_reduce
        rw [Spec.sidebandPattern, if_neg hsh]
        exact if_neg fun h' => hout ((hkept m).mpr h')), Finset.mul_sum]
      refine Finset.sum_congr rfl fun m hm => ?_
      rw [Set.Finite.mem_toFinset] at hm
      rw [Spec.sidebandPattern, if_neg hsh]
      rw [if_pos ((hkept m).mp hm)]
      congr 2
      funext p
      have hb := position_bin pos d h hd hh hsw j (g p + m * νr)
      have e : Spec.spunLine lib c B0 νr θ s.phys x p + (if pos then 1 else -1) * (m * νr) = (if pos then 1 else -1) * (g p + m * νr) := by
        rw [hrec, mul_add]
      rw [e]
      unfold share
      by_cases hm : (if pos then (1 : ℝ) else -1) * (g p + m * νr) ∈ Spec.bin pos d j
      · rw [Set.indicator_of_mem hm]
        exact if_pos (hb.mpr hm)
      · rw [Set.indicator_of_notMem hm]
        exact if_neg fun h' => hm (hb.mp h')
  rcases hO with rfl | ⟨rfl, hu⟩
  · exact four
  · obtain ⟨V, h1, h2⟩ := four
    have h78 := fun n nt (hn : 1 ≤ nt) => C78_octant WC.exact TC.exact (fourth (lib.twoI c)) nt (n + 2) hn B0 νr (Real.cos θ) (Real.sin θ)
      inv off d.count (by omega) (s.phys.sites.map (packed (lib.twoI c))) s.phys.couplings (Spec.quantum s.phys.sites x.1)
      (Spec.quantum s.phys.sites x.2) (unturned_packed _ _ _ hu) (junk n nt) (junk n nt)
    refine ⟨V, fun n => ⟨fun nt hn => ?_, Tendsto.congr' ?_ (h1 n).2⟩, h2⟩
    · obtain ⟨u, v, e1, _⟩ := h78 n nt hn
      exact ⟨u, e1⟩
    · filter_upwards [eventually_ge_atTop 1] with nt hn
      obtain ⟨u, v, e1, e2, e3⟩ := h78 n nt hn
      change Bin.val _ (spectrum _ _ _ _ _ _ _ _ _ _ _ _ (components _ _ _ _ _ _ _ _)) = Bin.val _ (spectrum _ _ _ _ _ _ _ _ _ _ _ _ (components _ _ _ _ _ _ _ _))
      rw [e1, e2]
      exact e3 _

/-! ## Property -/

/-- **C96 (spinning), partial.** The spectrum that `Simulator.run` computes for any list of spin systems spun at any angle and any frequency above
1 mHz, with a Bloch decay method, on an axis of an even number of points, with any number of workers: for every number of sidebands from
2 on, the intensity of point `j ≥ 1` converges with the integration density, and its limit converges with the number of sidebands to the sum over
the spin systems with the isotope, of their abundance per increment times the sum over the observed transitions and their sidebands, of `3π` times
the pattern of the sideband: the mean over the directions of its intensity (the squared Fourier coefficient of the signal of the crystallite) where its
frequency is within half an increment of the coordinate of the point or, if the average frequency does not depend on the direction, the mean
intensity shared linearly between the two points next to it.  Sidebands that are not sharp are drawn if their isotropic position is on the axis (C62).
Missing: lines so narrow that the code takes them for sharp (C88); odd numbers of points (C33); point 0; tilts by negative angles (C73); the
tabulated decimals. -/
theorem C96_spinning_partial (lib : Library) (so : Trans.SetOrder) (c : String) (hγ : lib.gamma c ≠ 0) (central : Bool)
    (hcen : central = true → lib.twoI c % 2 = 1) (B0 νr θ : ℝ) (hr : 1 / 1000 ≤ νr) (d : Meth.SDim) [NeZero d.count]
    (hev : d.count % 2 = 0) (hsw : 0 < d.sw)
    (nOct : ℕ) (junk : ℕ → ℕ → Phys → List Trans.Tr → ℕ → ℕ → ℂ) (l : List (Run.Sys Phys (List Trans.Tr)))
    (hl : ∀ s ∈ l, Spec.Sound lib s)
    (hu : ∀ a ∈ l, ∀ b ∈ l, c ∈ a.isotopes → c ∈ b.isotopes → a.isotopes.length = b.isotopes.length → a.isotopes = b.isotopes)
    (hO : nOct = 4 ∨ nOct = 1 ∧ ∀ s ∈ l, Spec.Unturned s.phys.sites s.phys.couplings)
    (hx : ∀ s ∈ l, ∀ x, Spec.Observed c central s.isotopes s.phys.sites x →
      Spec.Wide d (Spec.spunLine lib c B0 νr θ s.phys x) ∨ Spec.Sharp (Spec.spunLine lib c B0 νr θ s.phys x))
    (cpu nJobs : ℤ) (hJ : 1 ≤ nJobs) :
    ∃ L : ℕ → ℕ → ℝ,
      (∀ n, ∃ v : ℕ → ZMod d.count → ℝ,
        (∀ nt, Run.run (pulseEnv WC.exact TC.exact lib so c central B0 ⟨n + 2, inferInstance, νr, θ⟩ d nOct (junk n) nt) cpu false l nJobs
          = .ok [.spec (v nt)]) ∧
        (∀ nt, 1 ≤ nt → ∀ s ∈ l, ∀ x, Spec.Observed c central s.isotopes s.phys.sites x → ∀ junk, ∃ u,
          pulseWrites WC.exact TC.exact lib c B0 ⟨n + 2, inferInstance, νr, θ⟩ d nOct junk nt s.phys
            (qnum (s.phys.sites.map Site.n) x.1, qnum (s.phys.sites.map Site.n) x.2) = .ok u) ∧
        ∀ j, 1 ≤ j → j < d.count → Tendsto (fun nt => v nt j) atTop (𝓝 (L n j))) ∧
      ∀ j, 1 ≤ j → j < d.count → Tendsto (fun n => L n j) atTop (𝓝 ((l.map fun s =>
        if c ∈ s.isotopes then ((s.abundance / (d.sw / d.count) : ℚ) : ℝ) *
          ∑ᶠ (x) (_ : Spec.Observed c central s.isotopes s.phys.sites x),
            3 * Real.pi * ∑ᶠ m : ℤ, Spec.sidebandPattern (decide (0 < lib.gamma c)) d j νr
              (Spec.spunLine lib c B0 νr θ s.phys x) m (Spec.spunSideband B0 νr θ s.phys x m)
        else 0).sum)) := by
  classical
  obtain ⟨h, hd⟩ : ∃ h, d.count = 2 * h := ⟨d.count / 2, by omega⟩
  have hcount : d.count ≠ 0 := NeZero.ne _
  have hh : 1 ≤ h := by omega
  have one := fun s hs x hxo j hj hjn junk => spun_one lib c central B0 νr θ hr d h hd hh hsw nOct junk s (hl s hs)
    (hO.imp id fun hu => ⟨hu.1, hu.2 s hs⟩) x hxo (hx s hs x hxo) j hj hjn
  have one' := fun s hs x hxo j hj hjn => one s hs x hxo j hj hjn fun n nt => junk n nt s.phys (edge s.phys.sites x)
  choose! V hV1 hV2 using one'
  have hrun := fun n => pulse_limit WC.exact TC.exact lib so c hγ central hcen B0 ⟨n + 2, inferInstance, νr, θ⟩ d nOct (junk n) l (fun s hs => (hl s hs).given) hu
    (fun s x j => V s x j n) (fun s hs x hxo j hj hjn => (hV1 s hs x hxo j hj hjn n).2) cpu nJobs hJ
  refine ⟨fun n j => (l.map fun s => if c ∈ s.isotopes then ((s.abundance / (d.sw / d.count) : ℚ) : ℝ) *
      ∑ᶠ (x) (_ : Spec.Observed c central s.isotopes s.phys.sites x), V s x j n else 0).sum, fun n => ?_, fun j hj hjn => ?_⟩
  · obtain ⟨v, h1, h2⟩ := hrun n
    refine ⟨v, h1, fun nt hnt s hs x hxo junk => ?_, h2⟩
    obtain ⟨W, hW, -⟩ := one s hs x hxo 1 le_rfl (by omega) fun _ _ => junk
    exact (hW n).1 nt hnt
  · refine tendsto_list_sum l fun s hs => ?_
    by_cases hc : c ∈ s.isotopes
    · simp only [if_pos hc]
      refine Tendsto.const_mul _ ?_
      have hfin := observed_finite lib c central s (hl s hs).given hc
      have e := fun g : List ℕ × List ℕ → ℝ => finsum_mem_eq_finite_toFinset_sum g hfin
      simp only [Set.mem_ofPred_eq] at e
      simp only [e]
      refine tendsto_finsetSum _ fun x hxo => ?_
      have hxo : Spec.Observed c central s.isotopes s.phys.sites x := by simpa using hxo
      exact hV2 s hs x hxo j hj hjn
    · simp only [if_neg hc]
      exact tendsto_const_nhds

/-! ### The magic angle -/

/-- On the magic angle, a nucleus with spin 1/2 has the isotropic frequency, the mean of that of the sample at rest, whatever its neighbours. -/
theorem magic_line (lib : Library) (c : String) (central : Bool) (hc : lib.twoI c ≤ 1) (B0 νr θ : ℝ) (hν : 0 < νr) (hθ : 3 * Real.cos θ ^ 2 = 1)
    (s : Run.Sys Phys (List Trans.Tr)) (hs : Spec.Sound lib s) (x : List ℕ × List ℕ) (hxo : Spec.Observed c central s.isotopes s.phys.sites x)
    (p : ℝ × ℝ) : Spec.spunLine lib c B0 νr θ s.phys x p = Spec.sphereMean (Spec.pulseLine lib c B0 s.phys x) := by
  have hspec := observed_spectator lib c central s.isotopes s.phys.sites hs.spins x hxo
  have hn := fun s' (h' : s' ∈ s.phys.sites) => (hs.sites s' h').2
  have hf := fun cθ sθ => method_dirFreq WC.exact TC.exact (lib.twoI c) B0 cθ sθ s.phys.sites s.phys.couplings x.1 x.2 hn hspec
  have hfalse : fourth (lib.twoI c) = false := decide_eq_false (by omega)
  rw [← recordedW_exact lib c B0 s.phys hs.sites hs.couplings x hxo.initial hxo.final]
  unfold recordedW Spec.spunLine
  rw [sphereMean_mul, ← C75_average_partial true B0 p.1 p.2 θ νr hν s.phys.sites s.phys.couplings x.1 x.2 hxo.initial hxo.final hs.sites
    hs.couplings, ← hf 1 0, dirFreq_mean]
  congr 1
  have := congrFun (hf (Real.cos θ) (Real.sin θ)) p
  unfold dirFreq at this
  rw [← this, hfalse]
  have hz : dm0Vector2 WC.exact (Real.cos θ) (Real.sin θ) 2 = 0 := by
    unfold dm0Vector2
    simp only
    norm_num
    linarith
  simp [localFreq, hz]

/-- **C96 (magic angle), partial.** On the magic angle the spectrum of a nucleus with spin 1/2 consists of sharp lines at the isotropic
frequencies and their sidebands, for any neighbours and any couplings between them: no line has to be excluded.  The same parts are
missing. -/
theorem C96_magic_partial (lib : Library) (so : Trans.SetOrder) (c : String) (hγ : lib.gamma c ≠ 0) (hhalf : lib.twoI c = 1) (central : Bool)
    (B0 νr θ : ℝ) (hr : 1 / 1000 ≤ νr) (hθ : 3 * Real.cos θ ^ 2 = 1) (d : Meth.SDim) [NeZero d.count]
    (hev : d.count % 2 = 0) (hsw : 0 < d.sw)
    (nOct : ℕ) (junk : ℕ → ℕ → Phys → List Trans.Tr → ℕ → ℕ → ℂ) (l : List (Run.Sys Phys (List Trans.Tr)))
    (hl : ∀ s ∈ l, Spec.Sound lib s)
    (hu : ∀ a ∈ l, ∀ b ∈ l, c ∈ a.isotopes → c ∈ b.isotopes → a.isotopes.length = b.isotopes.length → a.isotopes = b.isotopes)
    (hO : nOct = 4 ∨ nOct = 1 ∧ ∀ s ∈ l, Spec.Unturned s.phys.sites s.phys.couplings)
    (cpu nJobs : ℤ) (hJ : 1 ≤ nJobs) :
    ∃ L : ℕ → ℕ → ℝ,
      (∀ n, ∃ v : ℕ → ZMod d.count → ℝ,
        (∀ nt, Run.run (pulseEnv WC.exact TC.exact lib so c central B0 ⟨n + 2, inferInstance, νr, θ⟩ d nOct (junk n) nt) cpu false l nJobs
          = .ok [.spec (v nt)]) ∧
        ∀ j, 1 ≤ j → j < d.count → Tendsto (fun nt => v nt j) atTop (𝓝 (L n j))) ∧
      ∀ j, 1 ≤ j → j < d.count → Tendsto (fun n => L n j) atTop (𝓝 ((l.map fun s =>
        if c ∈ s.isotopes then ((s.abundance / (d.sw / d.count) : ℚ) : ℝ) *
          ∑ᶠ (x) (_ : Spec.Observed c central s.isotopes s.phys.sites x),
            3 * Real.pi * ∑ᶠ m : ℤ,
              Spec.peak (decide (0 < lib.gamma c)) d j (Spec.sphereMean (Spec.pulseLine lib c B0 s.phys x) + m * νr) *
              Spec.sphereMean (Spec.spunSideband B0 νr θ s.phys x (if 0 < lib.gamma c then m else -m))
        else 0).sum)) := by
  have hν : 0 < νr := by linarith
  have hline := fun s hs x hxo => magic_line lib c central hhalf.le B0 νr θ hν hθ s (hl s hs) x hxo
  have hsh : ∀ s ∈ l, ∀ x, Spec.Observed c central s.isotopes s.phys.sites x → Spec.Sharp (Spec.spunLine lib c B0 νr θ s.phys x) :=
    fun s hs x hxo => ⟨_, hline s hs x hxo⟩
  obtain ⟨L, h1, h2⟩ := C96_spinning_partial lib so c hγ central (fun _ => by rw [hhalf]) B0 νr θ hr d hev hsw nOct junk l hl hu hO
    (fun s hs x hxo => Or.inr (hsh s hs x hxo)) cpu nJobs hJ
  refine ⟨L, fun n => ?_, fun j hj hjn => (h2 j hj hjn).trans (le_of_eq ?_)⟩
  · obtain ⟨v, e1, -, e3⟩ := h1 n
    exact ⟨v, e1, e3⟩
  · congr 2
    refine List.map_congr_left fun s hs => ?_
    by_cases hc : c ∈ s.isotopes
    · rw [if_pos hc, if_pos hc]
      congr 1
      refine finsum_congr fun x => finsum_congr fun hxo => ?_
      congr 1
      by_cases hg : 0 < lib.gamma c
      · refine finsum_congr fun m => ?_
        rw [Spec.sidebandPattern, if_pos (hsh s hs x hxo), hline s hs x hxo, if_pos hg]
        simp [hg]
      · rw [← finsum_comp_equiv (Equiv.neg ℤ)]
        refine finsum_congr fun m => ?_
        rw [Spec.sidebandPattern, if_pos (hsh s hs x hxo), hline s hs x hxo, if_neg hg]
        simp [hg]
    · rw [if_neg hc, if_neg hc]

/-- The energies do not depend on the order of the theory for a spin 1/2, and the transition back has the opposite frequency. -/
theorem example_momentary (α β θ νr τ : ℝ) : Spec.momentary true 1 α β θ νr [poleSite] [] [1] [0] τ
    = -Spec.momentary false 1 α β θ νr [poleSite] [] [0] [1] τ := by
  simp [Spec.momentary, Spec.energy, Spec.siteEnergy, poleSite]

/-- The site of the example spun at 1 Hz about an axis at a right angle to the field, in any number of sidebands: point 300 converges to
`70 · 64 · 3π` times the sum over the five sidebands that are drawn of the mean of their intensities over the directions for which
`m + (sin²β cos²α - cos²β) / 2` is between `-44.5 / 64` and `-43.5 / 64`. -/
example (so : Trans.SetOrder) (junk : ℕ → ℕ → Phys → List Trans.Tr → ℕ → ℕ → ℂ) (cpu : ℤ) :
    haveI : NeZero (Meth.SDim.count ⟨512, 8, 0, none⟩) := ⟨by norm_num⟩
    ∃ L : ℕ → ℝ,
      (∀ n, ∃ v : ℕ → ZMod 512 → ℝ,
        (∀ nt, Run.run (pulseEnv WC.exact TC.exact exampleLib so "15N" false 1 ⟨n + 2, inferInstance, 1, Real.pi / 2⟩ ⟨512, 8, 0, none⟩ 4 (junk n) nt)
          cpu false [exampleSys 70] 4 = .ok [.spec (v nt)]) ∧
        Tendsto (fun nt => v nt 300) atTop (𝓝 (L n))) ∧
      Tendsto L atTop (𝓝 (70 * 64 * (3 * Real.pi * ∑ᶠ m : ℤ, Spec.sidebandPattern false ⟨512, 8, 0, none⟩ 300 1
        (fun p => -1 / 2 * (Real.sin p.2 ^ 2 * Real.cos p.1 ^ 2 - Real.cos p.2 ^ 2)) m
        (Spec.spunSideband 1 1 (Real.pi / 2) ⟨[poleSite], []⟩ ([1], [0]) m)))) := by
  have : NeZero (Meth.SDim.count ⟨512, 8, 0, none⟩) := ⟨by norm_num⟩
  have hline : Spec.spunLine exampleLib "15N" 1 1 (Real.pi / 2) (exampleSys 70).phys ([1], [0])
      = fun p => -1 / 2 * (Real.sin p.2 ^ 2 * Real.cos p.1 ^ 2 - Real.cos p.2 ^ 2) := by
    funext p
    rw [← poleSite_spun]
    unfold Spec.spunLine Spec.average
    have e : Spec.momentary true 1 p.1 p.2 (Real.pi / 2) 1 (exampleSys 70).phys.sites (exampleSys 70).phys.couplings [1] [0]
        = fun τ => -Spec.momentary false 1 p.1 p.2 (Real.pi / 2) 1 [poleSite] [] [0] [1] τ := funext (example_momentary _ _ _ _)
    simp only [e]
    rw [intervalIntegral.integral_neg]
    simp [exampleLib]
    norm_num
  have hsum : ∀ g : List ℕ × List ℕ → ℝ,
      (∑ᶠ (x) (_ : Spec.Observed "15N" false (exampleSys 70).isotopes (exampleSys 70).phys.sites x), g x) = g ([1], [0]) := by
    intro g
    simp only [example_observed]
    rw [finsum_eq_single _ ([1], [0]) (fun x hx => by simp [hx])]
    simp
  obtain ⟨L, h1, h2⟩ := C96_spinning_partial exampleLib so "15N" (by norm_num [exampleLib]) false (by simp) 1 1 (Real.pi / 2) (by norm_num)
    ⟨512, 8, 0, none⟩ (by norm_num) (by norm_num) 4 junk [exampleSys 70]
    (by
      intro s hs
      rw [List.mem_singleton] at hs
      rw [hs]
      exact example_sound _)
    (by
      intro a ha b hb _ _ _
      rw [List.mem_singleton] at ha hb
      rw [ha, hb])
    (Or.inl rfl)
    (by
      intro s hs x hx
      rw [List.mem_singleton] at hs
      subst hs
      rw [(example_observed 70 x).mp hx, hline]
      refine Or.inl (Or.inl ?_)
      norm_num)
    cpu 4 (by norm_num)
  refine ⟨fun n => L n 300, fun n => ?_, ?_⟩
  · obtain ⟨v, e1, -, e3⟩ := h1 n
    exact ⟨v, e1, e3 300 (by norm_num) (by norm_num)⟩
  · refine (h2 300 (by norm_num) (by norm_num)).trans (le_of_eq ?_)
    congr 1
    have hc : "15N" ∈ (exampleSys 70).isotopes := by simp [exampleSys]
    have hpos : decide (0 < exampleLib.gamma "15N") = false := by
      rw [decide_eq_false_iff_not]
      norm_num [exampleLib]
    simp only [List.map_cons, List.map_nil, List.sum_cons, List.sum_nil, if_pos hc, hsum, hline, hpos]
    norm_num [exampleSys]

/-- The same site on the magic angle: the centre of the axis converges to `70 · 64 · 3π` times the mean intensity of the centreband. -/
example (so : Trans.SetOrder) (junk : ℕ → ℕ → Phys → List Trans.Tr → ℕ → ℕ → ℂ) (cpu : ℤ) :
    haveI : NeZero (Meth.SDim.count ⟨512, 8, 0, none⟩) := ⟨by norm_num⟩
    ∃ L : ℕ → ℝ,
      (∀ n, ∃ v : ℕ → ZMod 512 → ℝ,
        (∀ nt, Run.run (pulseEnv WC.exact TC.exact exampleLib so "15N" false 1 ⟨n + 2, inferInstance, 1, Real.arccos (1 / √3)⟩
          ⟨512, 8, 0, none⟩ 1 (junk n) nt) cpu false [exampleSys 70] 4 = .ok [.spec (v nt)]) ∧
        Tendsto (fun nt => v nt 256) atTop (𝓝 (L n))) ∧
      Tendsto L atTop (𝓝 (70 * 64 * (3 * Real.pi *
        Spec.sphereMean (Spec.spunSideband 1 1 (Real.arccos (1 / √3)) ⟨[poleSite], []⟩ ([1], [0]) 0)))) := by
  have : NeZero (Meth.SDim.count ⟨512, 8, 0, none⟩) := ⟨by norm_num⟩
  have hθ : 3 * Real.cos (Real.arccos (1 / √3)) ^ 2 = 1 := by
    have h : (1 : ℝ) ≤ √3 := by rw [Real.one_le_sqrt]; norm_num
    have h0 : (0 : ℝ) ≤ 1 / √3 := by positivity
    rw [Real.cos_arccos (by linarith) (by rw [div_le_one (by positivity)]; exact h), div_pow, one_pow, Real.sq_sqrt (by norm_num)]
    norm_num
  have hsum : ∀ g : List ℕ × List ℕ → ℝ,
      (∑ᶠ (x) (_ : Spec.Observed "15N" false (exampleSys 70).isotopes (exampleSys 70).phys.sites x), g x) = g ([1], [0]) := by
    intro g
    simp only [example_observed]
    rw [finsum_eq_single _ ([1], [0]) (fun x hx => by simp [hx])]
    simp
  obtain ⟨L, h1, h2⟩ := C96_magic_partial exampleLib so "15N" (by norm_num [exampleLib]) rfl false 1 1 (Real.arccos (1 / √3)) (by norm_num) hθ
    ⟨512, 8, 0, none⟩ (by norm_num) (by norm_num) 1 junk [exampleSys 70]
    (by
      intro s hs
      rw [List.mem_singleton] at hs
      rw [hs]
      exact example_sound _)
    (by
      intro a ha b hb _ _ _
      rw [List.mem_singleton] at ha hb
      rw [ha, hb])
    (Or.inr ⟨rfl, by
      intro s hs
      rw [List.mem_singleton] at hs
      subst hs
      simp [Spec.Unturned, poleSite, exampleSys]⟩)
    cpu 4 (by norm_num)
  refine ⟨fun n => L n 256, fun n => ?_, ?_⟩
  · obtain ⟨v, e1, e3⟩ := h1 n
    exact ⟨v, e1, e3 256 (by norm_num) (by norm_num)⟩
  · refine (h2 256 (by norm_num) (by norm_num)).trans (le_of_eq ?_)
    congr 1
    have hc : "15N" ∈ (exampleSys 70).isotopes := by simp [exampleSys]
    have hpos : decide (0 < exampleLib.gamma "15N") = false := by
      rw [decide_eq_false_iff_not]
      norm_num [exampleLib]
    simp only [List.map_cons, List.map_nil, List.sum_cons, List.sum_nil, if_pos hc, hsum, example_mean, hpos]
    rw [finsum_eq_single _ 0]
    · have hp : Spec.peak false ⟨512, 8, 0, none⟩ 256 (0 + ((0 : ℤ) : ℝ) * 1) = 1 := by
        unfold Spec.peak
        rw [if_pos]
        · norm_num [Meth.Spec.coord, Bin.Spec.linear]
        · exact ⟨256, by norm_num, by norm_num [Spec.bin, Meth.Spec.coord]⟩
      rw [hp]
      norm_num [exampleSys]
    · intro m hm
      have hp : Spec.peak false ⟨512, 8, 0, none⟩ 256 (0 + (m : ℝ) * 1) = 0 := by
        unfold Spec.peak
        split_ifs
        · have h1 : (1 : ℝ) ≤ |(m : ℝ)| := by exact_mod_cast Int.one_le_abs hm
          have e : (0 + (m : ℝ) * 1 - ((Meth.Spec.coord ⟨512, 8, 0, none⟩ ((256 : ℕ) : ℤ) : ℚ) : ℝ)) / (((8 : ℚ) / ((512 : ℕ) : ℚ) : ℚ) : ℝ) = 64 * m := by
            norm_num [Meth.Spec.coord]
            ring
          rw [e]
          unfold Bin.Spec.linear
          rw [abs_mul, if_neg, if_pos] <;> norm_num <;> linarith
        · rfl
      rw [hp, zero_mul]

end MRS.Freq
