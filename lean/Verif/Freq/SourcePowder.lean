import Verif.Freq.TiltedMaps

/-!
# The powder pattern of a spinning sample with the constants of the source (property C88)

For a given number of sidebands, with the decimals and the table of the source and tilts of any sign.
-/

namespace MRS.Freq
open Complex Filter Topology MeasureTheory

/-! ## Specification -/

/-- The mean over the directions of the upper hemisphere, over which the code averages with four octants. -/
noncomputable def Spec.upperMean (g : ℝ × ℝ → ℝ) : ℝ :=
  1 / (2 * Real.pi) * ∫ p in Set.Ioo 0 (2 * Real.pi) ×ˢ Set.Ioo 0 (Real.pi / 2), Real.sin p.2 * g p

/-- The share of the upper hemisphere in which `x` is in `[a, b)`, weighted with `w`. -/
noncomputable def Spec.between (a b : ℝ) (x w : ℝ × ℝ → ℝ) : ℝ := Spec.upperMean fun p => if a ≤ x p ∧ x p < b then w p else 0

/-! ## Lemmas -/

theorem upperMean_le (f g : ℝ × ℝ → ℝ) (hf : Measurable f) (hg : Measurable g) (C : ℝ) (hfC : ∀ p, |f p| ≤ C) (hgC : ∀ p, |g p| ≤ C)
    (h : ∀ p, f p ≤ g p) : Spec.upperMean f ≤ Spec.upperMean g := by
  have hpi := Real.pi_pos
  unfold Spec.upperMean
  refine mul_le_mul_of_nonneg_left ?_ (by positivity)
  rw [Measure.volume_eq_prod]
  refine setIntegral_mono_on (box_integrable f hf C hfC _ _ _ _) (box_integrable g hg C hgC _ _ _ _) (measurableSet_Ioo.prod measurableSet_Ioo) ?_
  rintro p ⟨-, h1, h2⟩
  exact mul_le_mul_of_nonneg_left (h p) (Real.sin_nonneg_of_nonneg_of_le_pi h1.le (by linarith))

theorem ite_measurable (a b : ℝ) (x w : ℝ × ℝ → ℝ) (hx : Measurable x) (hw : Measurable w) :
    Measurable fun p => if a ≤ x p ∧ x p < b then w p else 0 :=
  Measurable.ite ((measurableSet_le measurable_const hx).inter (measurableSet_lt hx measurable_const)) hw measurable_const

/-- Two patterns, if the positions differ by at most `δ` and the weights by at most `ε`. -/
theorem between_near (a b δ ε : ℝ) (x y v w : ℝ × ℝ → ℝ) (hx : Measurable x) (hy : Measurable y) (hv : Measurable v) (hw : Measurable w)
    (hε : 0 ≤ ε) (hv1 : ∀ p, 0 ≤ v p ∧ v p ≤ 1) (hw1 : ∀ p, 0 ≤ w p ∧ w p ≤ 1) (hxy : ∀ p, |x p - y p| ≤ δ) (hvw : ∀ p, |v p - w p| ≤ ε) :
    Spec.between (a + δ) (b - δ) y (fun p => w p - ε) ≤ Spec.between a b x v ∧
    Spec.between a b x v ≤ Spec.between (a - δ) (b + δ) y (fun p => w p + ε) := by
  have hC : ∀ (a b : ℝ) (x v : ℝ × ℝ → ℝ), (∀ p, |v p| ≤ 1 + ε) → ∀ p, |if a ≤ x p ∧ x p < b then v p else 0| ≤ 1 + ε := by
    intro a b x v h p
    split_ifs
    · exact h p
    · rw [abs_zero]
      linarith
  have b1 : ∀ p, |v p| ≤ 1 + ε := fun p => by rw [abs_of_nonneg (hv1 p).1]; linarith [(hv1 p).2]
  have b2 : ∀ p, |w p - ε| ≤ 1 + ε := fun p => by rw [abs_le]; constructor <;> linarith [(hw1 p).1, (hw1 p).2]
  have b3 : ∀ p, |w p + ε| ≤ 1 + ε := fun p => by rw [abs_le]; constructor <;> linarith [(hw1 p).1, (hw1 p).2]
  constructor
  · refine upperMean_le _ _ (ite_measurable _ _ _ _ hy (hw.sub_const ε)) (ite_measurable _ _ _ _ hx hv) (1 + ε) (hC _ _ _ _ b2) (hC _ _ _ _ b1) fun p => ?_
    have n := abs_le.mp (hxy p)
    have m := abs_le.mp (hvw p)
    by_cases h1 : a + δ ≤ y p ∧ y p < b - δ
    · rw [if_pos h1, if_pos ⟨by linarith [h1.1, n.1], by linarith [h1.2, n.2]⟩]
      linarith [m.1]
    · rw [if_neg h1]
      split_ifs
      · exact (hv1 p).1
      · exact le_rfl
  · refine upperMean_le _ _ (ite_measurable _ _ _ _ hx hv) (ite_measurable _ _ _ _ hy (hw.add_const ε)) (1 + ε) (hC _ _ _ _ b1) (hC _ _ _ _ b3) fun p => ?_
    have n := abs_le.mp (hxy p)
    have m := abs_le.mp (hvw p)
    by_cases h1 : a ≤ x p ∧ x p < b
    · rw [if_pos h1, if_pos ⟨by linarith [h1.1, n.1, n.2], by linarith [h1.2, n.1]⟩]
      linarith [m.2]
    · rw [if_neg h1]
      split_ifs
      · linarith [(hw1 p).1]
      · exact le_rfl

/-- The list of sidebands, by their numbers, for a given length. -/
theorem fftOrder_sum_range (N : ℕ) (hN : 1 ≤ N) (νr : ℝ) (F : ℝ × ℕ → ℝ) (G : ℤ → ℝ) (M : Finset ℤ)
    (hM : ∀ m ∈ M, -(N : ℤ) ≤ 2 * m ∧ 2 * m < N)
    (hF : ∀ (m : ℤ) (i : ℕ), -(N : ℤ) ≤ 2 * m → 2 * m < N → m % N = i → F ((m : ℝ) * νr, i) = if m ∈ M then G m else 0) :
    ((Bin.fftOrder (N : ℤ) νr).zipIdx.map F).sum = ∑ m ∈ M, G m := by
  obtain ⟨hlen, hget⟩ := Bin.C40_fft_order N hN νr
  choose! mf h1 h2 h3 h4 using hget
  have hz : (Bin.fftOrder (N : ℤ) νr).zipIdx = (List.range N).map fun i => ((mf i : ℝ) * νr, i) := by
    apply List.ext_getElem?
    intro i
    rw [List.getElem?_zipIdx, List.getElem?_map]
    by_cases hi : i < N
    · rw [h1 i hi, List.getElem?_range hi]
      simp
    · rw [List.getElem?_eq_none (by omega), List.getElem?_eq_none (by simpa using hi)]
      rfl
  rw [hz, List.map_map, show ∀ f : ℕ → ℝ, ((List.range N).map f).sum = ∑ j ∈ Finset.range N, f j from fun f => rfl]
  have e : ∀ i ∈ Finset.range N, (F ∘ fun i => ((mf i : ℝ) * νr, i)) i = if mf i ∈ M then G (mf i) else 0 := by
    intro i hi
    have hi := Finset.mem_range.mp hi
    exact hF (mf i) i (h3 i hi) (h4 i hi) (h2 i hi)
  rw [Finset.sum_congr rfl e, ← Finset.sum_filter]
  have hN' : (0 : ℤ) < N := by exact_mod_cast hN
  refine Finset.sum_bij (fun i _ => mf i) ?_ ?_ ?_ ?_
  · intro i hi
    exact (Finset.mem_filter.mp hi).2
  · intro i hi i' hi' heq
    have a := h2 i (Finset.mem_range.mp (Finset.mem_filter.mp hi).1)
    have b := h2 i' (Finset.mem_range.mp (Finset.mem_filter.mp hi').1)
    rw [heq, b] at a
    exact_mod_cast a.symm
  · intro m hm
    obtain ⟨b1, b2⟩ := hM m hm
    have r0 := Int.emod_nonneg m hN'.ne'
    have r1 := Int.emod_lt_of_pos m hN'
    have hi : (m % N).toNat < N := by omega
    have c := h2 _ hi
    have c3 := h3 _ hi
    have c4 := h4 _ hi
    have hmf : mf (m % N).toNat = m := by
      rw [Int.toNat_of_nonneg r0] at c
      have hdvd : (N : ℤ) ∣ mf (m % N).toNat - m := Int.ModEq.dvd (Int.ModEq.symm c)
      obtain ⟨q, hq⟩ := hdvd
      have : q = 0 := by
        rcases lt_trichotomy q 0 with h | h | h
        · nlinarith
        · exact h
        · nlinarith
      rw [this, mul_zero] at hq
      omega
    exact ⟨(m % N).toNat, Finset.mem_filter.mpr ⟨Finset.mem_range.mpr hi, by rw [hmf]; exact hm⟩, hmf⟩
  · intro i _
    rfl

/-- The limit of the spectrum for a given number of sidebands, with any constants. -/
theorem finite_limit (W : WC) (four : Bool) (N : ℕ) [NeZero N] (t : Tens) (cθ sθ νr : ℝ) (junk : ℕ → ℕ → ℕ → ℂ) (inv off : ℝ) (count k : ℤ)
    (hk1 : 1 ≤ k) (hkm : k < count) (hd : Spread inv (dirFreq W four cθ sθ t)) (M : Finset ℤ)
    (hM : ∀ m ∈ M, -(N : ℤ) ≤ 2 * m ∧ 2 * m < N)
    (hw : ∀ m : ℤ, -(N : ℤ) ≤ 2 * m → 2 * m < N → (m ∈ M ↔ -1 < off + inv * (t.R0 + m * νr) ∧ off + inv * (t.R0 + m * νr) < count + 1)) :
    (∀ nt, 1 ≤ nt → ∃ u, spectrum W four nt 4 N νr cθ sθ inv off count (startRows four (junk nt) nt) t = .ok u) ∧
    Tendsto (fun nt => Bin.val k (spectrum W four nt 4 N νr cθ sθ inv off count (startRows four (junk nt) nt) t)) atTop
      (𝓝 (∑ m ∈ M, 3 * Real.pi * Spec.between k (k + 1) (fun p => off + inv * (dirFreq W four cθ sθ t p + m * νr))
        (dirAmp W four N νr cθ sθ t (m % (N : ℤ)).toNat))) := by
  have main := spectrum_limit W four 4 N (Or.inr rfl) junk νr cθ sθ inv off count k (by omega) hkm t hd (Or.inl hk1)
  refine ⟨main.1, main.2.trans (le_of_eq ?_)⟩
  congr 1
  have hN1 : 1 ≤ N := Nat.pos_of_ne_zero (NeZero.ne N)
  refine fftOrder_sum_range N hN1 νr _ _ M hM ?_
  intro m i h1 h2 hmi
  have hin : Bin.inWindow (off + t.R0 * inv + (m : ℝ) * νr * inv) count = true ↔ m ∈ M := by
    rw [inWindow_iff _ _ (by omega), hw m h1 h2, show off + t.R0 * inv + (m : ℝ) * νr * inv = off + inv * (t.R0 + m * νr) by ring]
  dsimp only
  by_cases hmM : m ∈ M
  · rw [if_pos hmM, if_pos (hin.mpr hmM)]
    congr 1
    have hfc : Measurable (dirFreq W four cθ sθ t) := (dirFreq_continuous W four cθ sθ t).measurable
    have e : (fun p => if (k : ℝ) ≤ off + inv * dirFreq W four cθ sθ t p + (m : ℝ) * νr * inv ∧
          off + inv * dirFreq W four cθ sθ t p + (m : ℝ) * νr * inv < k + 1 then dirAmp W four N νr cθ sθ t i p else 0)
        = share (fun p => off + inv * (dirFreq W four cθ sθ t p + m * νr)) (dirAmp W four N νr cθ sθ t (m % (N : ℤ)).toNat) k := by
      funext p
      unfold share
      rw [show off + inv * dirFreq W four cθ sθ t p + (m : ℝ) * νr * inv = off + inv * (dirFreq W four cθ sθ t p + m * νr) by ring, hmi,
        Int.toNat_natCast]
    rw [e]
    refine octantMean_four _ (share_measurable _ _ _ (measurable_const.add (measurable_const.mul (hfc.add measurable_const)))
      (dirAmp_continuous W four _ νr _ _ t _).measurable) 1 (share_bounded _ _ _ (dirAmp_bounds W four _ νr _ _ t _)) ?_
    intro p
    simp only [share, dirFreq_period, dirAmp_period]
  · rw [if_neg hmM, if_neg (fun h => hmM (hin.mp h))]

/-- Isotropic frequencies are as close as the frequencies. -/
theorem mean_close (W W' : WC) (four : Bool) (cθ sθ : ℝ) (t t' : Tens) (δ : ℝ)
    (h : ∀ p, |dirFreq W four cθ sθ t p - dirFreq W' four cθ sθ t' p| ≤ δ) : |t.R0 - t'.R0| ≤ δ := by
  have key : ∀ (W W' : WC) (t t' : Tens), (∀ p, |dirFreq W four cθ sθ t p - dirFreq W' four cθ sθ t' p| ≤ δ) → t.R0 ≤ t'.R0 + δ := by
    intro W W' t t' h
    have e : ∀ p, dirFreq W' four cθ sθ ⟨t'.R0 + δ, t'.R2, t'.R4⟩ p = dirFreq W' four cθ sθ t' p + δ := by
      intro p
      unfold dirFreq localFreq
      ring
    have := sphereMean_le (dirFreq W four cθ sθ t) (dirFreq W' four cθ sθ ⟨t'.R0 + δ, t'.R2, t'.R4⟩)
      (continuous_integrable _ (dirFreq_continuous _ _ _ _ _)) (continuous_integrable _ (dirFreq_continuous _ _ _ _ _))
      (fun p => by rw [e]; linarith [(abs_le.mp (h p)).2])
    rw [dirFreq_mean, dirFreq_mean] at this
    exact this
  rw [abs_le]
  have h1 := key W W' t t' h
  have h2 := key W' W t' t fun p => by rw [abs_sub_comm]; exact h p
  constructor <;> linarith

/-! ## Property -/

/-- **C88 (spinning, the source), partial.** With the decimals of the source, for a given number `N > 1` of sidebands and tilts of any sign, the
content of a bin tends to a limit as the averaging becomes finer.  The limit is between two numbers that are given by the interactions alone:
the share of the hemisphere with sideband `m` in the bin, weighted with the folded intensity of that sideband, for a bin that is narrower or
wider by the tolerance of the frequencies and an intensity that is smaller or larger by the tolerance of the phases.  Only the sidebands of `M`,
those with isotropic position in the window, take part.  Missing: bin 0; a single octant (C78); sidebands whose isotropic position is within the
tolerance of the border of the window. -/
theorem C88_decimals_spinning_partial (four : Bool) (N : ℕ) [NeZero N] (hN : 2 ≤ N) (B0 θ νr : ℝ) (hν : 0 < νr) (ss : List Site)
    (ks : List Coupling) (xi xf : List ℕ) (hi : Spec.IsState ss xi) (hf : Spec.IsState ss xf)
    (hs : ∀ s ∈ ss, 1 ≤ s.n ∧ |s.eta| ≤ 1 ∧ |s.etaQ| ≤ 1) (hk : ∀ k ∈ ks, k.A < ss.length ∧ k.X < ss.length ∧ |k.eta| ≤ 1)
    (junk : ℕ → ℕ → ℕ → ℂ) (inv off : ℝ) (hinv : 0 < inv) (count k : ℤ) (hk1 : 1 ≤ k) (hkm : k < count) :
    let f : ℝ × ℝ → ℝ → ℝ := fun p => Spec.momentary four B0 p.1 p.2 θ νr (ss.map Spec.absSite) (ks.map Spec.absCoupling) xi xf
    let ν : ℝ × ℝ → ℝ := fun p => Spec.average νr (f p)
    let τ := Spec.tol B0 ss ks (Spec.quantum ss xi) (Spec.quantum ss xf)
    let at_ : ℤ → ℝ × ℝ → ℝ := fun m p => off + inv * (ν p + m * νr)
    ∀ (_ : 1 / 1000000 + 2 * (inv * τ) ≤ |inv * (ν (0, Real.pi / 2) - ν (Real.pi / 2, Real.pi / 2))| ∨
        1 / 1000000 + 2 * (inv * τ) ≤ |inv * (ν (0, Real.pi / 2) - ν (0, 0))|)
      (M : Finset ℤ) (_ : ∀ m ∈ M, -(N : ℤ) ≤ 2 * m ∧ 2 * m < N ∧
        -1 + inv * τ < off + inv * (Spec.sphereMean ν + m * νr) ∧ off + inv * (Spec.sphereMean ν + m * νr) < count + 1 - inv * τ)
      (_ : ∀ m : ℤ, -(N : ℤ) ≤ 2 * m → 2 * m < N → m ∉ M →
        off + inv * (Spec.sphereMean ν + m * νr) ≤ -1 - inv * τ ∨ count + 1 + inv * τ ≤ off + inv * (Spec.sphereMean ν + m * νr)),
    let S := fun nt : ℕ => spectrum WC.src four nt 4 N νr (Real.cos θ) (Real.sin θ) inv off count (startRows four (junk nt) nt)
      (components WC.src TC.src four B0 ss ks (Spec.quantum ss xi) (Spec.quantum ss xf))
    (∀ nt, 1 ≤ nt → ∃ u, S nt = .ok u) ∧
    ∃ L : ℝ, Tendsto (fun nt => Bin.val k (S nt)) atTop (𝓝 L) ∧
      ∑ m ∈ M, 3 * Real.pi * Spec.between (k + inv * τ) (k + 1 - inv * τ) (at_ m) (fun p => ‖Spec.folded N νr (f p) m‖ ^ 2 - 50 / 3 * τ / νr) ≤ L ∧
      L ≤ ∑ m ∈ M, 3 * Real.pi * Spec.between (k - inv * τ) (k + 1 + inv * τ) (at_ m) (fun p => ‖Spec.folded N νr (f p) m‖ ^ 2 + 50 / 3 * τ / νr) := by
  intro f ν τ at_ hd M hM hO S
  obtain ⟨n, rfl⟩ : ∃ n, N = n + 2 := ⟨N - 2, by omega⟩
  have hpi := Real.pi_pos
  set t := components WC.src TC.src four B0 ss ks (Spec.quantum ss xi) (Spec.quantum ss xf) with ht
  set t' := components WC.exact TC.exact four B0 ss ks (Spec.quantum ss xi) (Spec.quantum ss xf) with ht'
  have hline : ν = dirFreq WC.exact four (Real.cos θ) (Real.sin θ) t' := by
    funext p
    have h := C75_average_partial four B0 p.1 p.2 θ νr hν _ _ xi xf (state_absolute ss xi hi) (state_absolute ss xf hf)
      (upright_absolute ss fun s h => (hs s h).1) (couplings_absolute ss ks fun k h => ⟨(hk k h).1, (hk k h).2.1⟩)
    rw [components_absolute, quantum_absolute, quantum_absolute] at h
    exact h.symm
  have hamp : ∀ m p, ‖Spec.folded (n + 2) νr (f p) m‖ ^ 2
      = dirAmp WC.exact four (n + 2) νr (Real.cos θ) (Real.sin θ) t' (m % ((n + 2 : ℕ) : ℤ)).toNat p := by
    intro m p
    rw [dirAmp_residue]
    exact (C117_tilted_partial four (n + 2) B0 p.1 p.2 θ νr hν ss ks xi xf hi hf (fun s h => (hs s h).1)
      (fun k h => ⟨(hk k h).1, (hk k h).2.1⟩) m).2.symm
  have hfreq : ∀ p, |dirFreq WC.src four (Real.cos θ) (Real.sin θ) t p - dirFreq WC.exact four (Real.cos θ) (Real.sin θ) t' p| ≤ τ := fun p =>
    components_near ⟨Real.cos p.2, Real.sin p.2, exp (p.1 * I), Real.cos θ, Real.sin θ, Real.cos_sq_add_sin_sq p.2, exp_norm p.1,
      Real.cos_sq_add_sin_sq θ⟩ four B0 ss ks hs (fun k h => (hk k h).2.2) _ _
  have hτ : 0 ≤ τ := (abs_nonneg _).trans (hfreq 0)
  have hint : ∀ m p, |dirAmp WC.src four (n + 2) νr (Real.cos θ) (Real.sin θ) t (m % ((n + 2 : ℕ) : ℤ)).toNat p
      - dirAmp WC.exact four (n + 2) νr (Real.cos θ) (Real.sin θ) t' (m % ((n + 2 : ℕ) : ℤ)).toNat p| ≤ 50 / 3 * τ / νr := by
    intro m p
    rw [← hamp, dirAmp_residue]
    exact C117_decimals_partial four (n + 2) B0 p.1 p.2 θ νr hν ss ks xi xf hi hf hs hk m
  have hiso := abs_le.mp (mean_close _ _ _ _ _ _ _ _ hfreq)
  have hmean : Spec.sphereMean ν = t'.R0 := by rw [hline, dirFreq_mean]
  rw [hmean] at hM hO
  have hτi : 0 ≤ inv * τ := by positivity
  have b1 : inv * t.R0 ≤ inv * t'.R0 + inv * τ := by nlinarith [hiso.2]
  have b2 : inv * t'.R0 - inv * τ ≤ inv * t.R0 := by nlinarith [hiso.1]
  have hnear : ∀ p, |inv * dirFreq WC.src four (Real.cos θ) (Real.sin θ) t p - inv * dirFreq WC.exact four (Real.cos θ) (Real.sin θ) t' p|
      ≤ inv * τ := by
    intro p
    rw [← mul_sub, abs_mul, abs_of_pos hinv]
    exact mul_le_mul_of_nonneg_left (hfreq p) hinv.le
  rw [hline] at hd
  have hspread : Spread inv (dirFreq WC.src four (Real.cos θ) (Real.sin θ) t) := by
    rintro ⟨g1, g2⟩
    have n1 := abs_le.mp (hnear (0, Real.pi / 2))
    have n2 := abs_le.mp (hnear (Real.pi / 2, Real.pi / 2))
    have n3 := abs_le.mp (hnear (0, 0))
    rw [mul_sub, abs_lt] at g1 g2
    rw [mul_sub, mul_sub, le_abs, le_abs] at hd
    rcases hd with (h | h) | (h | h) <;> linarith [g1.1, g1.2, g2.1, g2.2, n1.1, n1.2, n2.1, n2.2, n3.1, n3.2]
  obtain ⟨h1, h2⟩ := finite_limit WC.src four (n + 2) t (Real.cos θ) (Real.sin θ) νr junk inv off count k hk1 hkm hspread M
    (fun m hm => ⟨(hM m hm).1, (hM m hm).2.1⟩) (fun m l u => by
      constructor
      · intro hm
        obtain ⟨-, -, c1, c2⟩ := hM m hm
        constructor <;> linarith [mul_add inv t.R0 (m * νr), mul_add inv t'.R0 (m * νr)]
      · rintro ⟨c1, c2⟩
        by_contra hm
        rcases hO m l u hm with h | h <;> linarith [mul_add inv t.R0 (m * νr), mul_add inv t'.R0 (m * νr)])
  refine ⟨h1, _, h2, ?_⟩
  have main : ∀ m, _ := fun m => between_near (k : ℝ) (k + 1) (inv * τ) (50 / 3 * τ / νr)
    (fun p => off + inv * (dirFreq WC.src four (Real.cos θ) (Real.sin θ) t p + (m : ℤ) * νr)) (at_ m)
    (dirAmp WC.src four (n + 2) νr (Real.cos θ) (Real.sin θ) t (m % ((n + 2 : ℕ) : ℤ)).toNat) (fun p => ‖Spec.folded (n + 2) νr (f p) m‖ ^ 2)
    (measurable_const.add (measurable_const.mul ((dirFreq_continuous WC.src four _ _ t).measurable.add measurable_const)))
    (by
      simp only [at_, hline]
      exact measurable_const.add (measurable_const.mul ((dirFreq_continuous WC.exact four _ _ t').measurable.add measurable_const)))
    (dirAmp_continuous WC.src four _ νr _ _ t _).measurable
    (by
      simp only [hamp]
      exact (dirAmp_continuous WC.exact four _ νr _ _ t' _).measurable)
    (by positivity) (dirAmp_bounds WC.src four _ νr _ _ t _)
    (fun p => by rw [hamp]; exact dirAmp_bounds WC.exact four _ νr _ _ t' _ p)
    (fun p => by
      simp only [at_, hline]
      have := hnear p
      rw [show off + inv * (dirFreq WC.src four (Real.cos θ) (Real.sin θ) t p + m * νr)
        - (off + inv * (dirFreq WC.exact four (Real.cos θ) (Real.sin θ) t' p + m * νr))
        = inv * dirFreq WC.src four (Real.cos θ) (Real.sin θ) t p - inv * dirFreq WC.exact four (Real.cos θ) (Real.sin θ) t' p by ring]
      exact this)
    (fun p => by rw [hamp]; exact hint m p)
  exact ⟨Finset.sum_le_sum fun m _ => mul_le_mul_of_nonneg_left (main m).1 (by positivity),
    Finset.sum_le_sum fun m _ => mul_le_mul_of_nonneg_left (main m).2 (by positivity)⟩

/-- A site spun about an axis at a right angle to the field, with eight sidebands of which five are in the window; the tolerances are below
`2 / 10 ^ 7` Hz. -/
example (junk : ℕ → ℕ → ℕ → ℂ) (k : ℤ) (h1 : 1 ≤ k) (h2 : k < 512) :
    let f : ℝ × ℝ → ℝ → ℝ := fun p => Spec.momentary false 1 p.1 p.2 (Real.pi / 2) 1 [poleSite] [] [0] [1]
    ∃ τ L : ℝ, τ ≤ 2 / 10 ^ 7 ∧
      Tendsto (fun nt => Bin.val k (spectrum WC.src false nt 4 8 1 (Real.cos (Real.pi / 2)) (Real.sin (Real.pi / 2)) 100 256 512
        (startRows false (junk nt) nt)
        (components WC.src TC.src false 1 [poleSite] [] (Spec.quantum [poleSite] [0]) (Spec.quantum [poleSite] [1])))) atTop (𝓝 L) ∧
      ∑ m ∈ Finset.Icc (-2 : ℤ) 2, 3 * Real.pi * Spec.between (k + 100 * τ) (k + 1 - 100 * τ)
        (fun p => 256 + 100 * (-1 / 2 * (Real.sin p.2 ^ 2 * Real.cos p.1 ^ 2 - Real.cos p.2 ^ 2) + m * 1))
        (fun p => ‖Spec.folded 8 1 (f p) m‖ ^ 2 - 50 / 3 * τ / 1) ≤ L ∧
      L ≤ ∑ m ∈ Finset.Icc (-2 : ℤ) 2, 3 * Real.pi * Spec.between (k - 100 * τ) (k + 1 + 100 * τ)
        (fun p => 256 + 100 * (-1 / 2 * (Real.sin p.2 ^ 2 * Real.cos p.1 ^ 2 - Real.cos p.2 ^ 2) + m * 1))
        (fun p => ‖Spec.folded 8 1 (f p) m‖ ^ 2 + 50 / 3 * τ / 1) := by
  intro f
  obtain ⟨hi, hf, hs⟩ := poleSite_state
  have hT : Spec.tol 1 [poleSite] [] (Spec.quantum [poleSite] [0]) (Spec.quantum [poleSite] [1]) ≤ 2 / 10 ^ 7 := by
    norm_num [Spec.tol, Spec.sitesTol, Spec.siteTol, Spec.edge, Spec.quantum, poleSite]
  have ha : [poleSite].map Spec.absSite = [poleSite] := by
    simp only [List.map_cons, List.map_nil, Spec.absSite, Spec.absAngles, poleSite, abs_zero]
  have hmean : Spec.sphereMean (fun p : ℝ × ℝ => Spec.average 1 (Spec.momentary false 1 p.1 p.2 (Real.pi / 2) 1 [poleSite] [] [0] [1])) = 0 := by
    rw [funext fun p : ℝ × ℝ => (C75_average_partial false 1 p.1 p.2 (Real.pi / 2) 1 one_pos [poleSite] [] [0] [1] hi hf hs (by simp)).symm]
    exact (dirFreq_mean WC.exact false _ _ _).trans poleSite_iso
  have main := C88_decimals_spinning_partial false 8 (by norm_num) 1 (Real.pi / 2) 1 one_pos [poleSite] [] [0] [1] hi hf
    (by simp [poleSite]) (by simp) junk 100 256 (by norm_num) 512 k h1 h2
  simp only [poleSite_spun] at hmean
  have x := poleSite_spun (0, Real.pi / 2)
  have y := poleSite_spun (Real.pi / 2, Real.pi / 2)
  simp only at x y
  simp only [ha, List.map_nil, poleSite_spun, hmean] at main
  rw [x, y] at main
  obtain ⟨-, L, h3, h4⟩ := main (Or.inl (by
      simp
      linarith)) (Finset.Icc (-2) 2) (fun m hm => by
      obtain ⟨a, b⟩ := Finset.mem_Icc.mp hm
      have a' : (-2 : ℝ) ≤ m := by exact_mod_cast a
      have b' : (m : ℝ) ≤ 2 := by exact_mod_cast b
      refine ⟨by push_cast; omega, by push_cast; omega, ?_, ?_⟩ <;> push_cast <;> linarith) (fun m _ _ hm => by
      rw [Finset.mem_Icc, not_and_or, not_le, not_le] at hm
      rcases hm with h | h
      · left
        have : (m : ℝ) ≤ -3 := by exact_mod_cast (by omega : m ≤ -3)
        linarith
      · right
        have : (3 : ℝ) ≤ m := by exact_mod_cast (by omega : 3 ≤ m)
        push_cast
        linarith)
  exact ⟨_, L, hT, h3, h4⟩

end MRS.Freq
