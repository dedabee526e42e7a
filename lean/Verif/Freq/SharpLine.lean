import Verif.Freq.Lineshape
import Verif.Bin.Sharp

/-!
# The limit of the spectrum of a sharp line

Lemmas for C96: the limit of the spectrum, as in `spectrum_limit`, where the code draws single lines.
-/

namespace MRS.Bin

/-- The bins of a spectrum of single lines. -/
theorem averaging_sharp (nt n : ℕ) (vr : List ℝ) (inv off r0 : ℝ) (f a : ℕ → ℝ) (count : ℤ) (hd : isDelta nt f = true) (k : ℤ) :
    (∃ u, averaging1D nt n vr inv off r0 f a count = .ok u) ∧
    val k (averaging1D nt n vr inv off r0 f a count)
      = (vr.zipIdx.map fun s => if inWindow (off + r0 + f 0 + s.1 * inv) count then
          ((List.range n).map fun j => at_ k (deltaFn (off + r0 + f 0 + s.1 * inv) count
            (totalAmplitude nt fun i => a (s.2 * (n * nPts nt) + j * nPts nt + i)))).sum else 0).sum := by
  unfold averaging1D
  simp only [hd, if_true]
  obtain ⟨u, hu, su⟩ := runCalls_val (vr.zipIdx.flatMap fun s => if inWindow (off + r0 + f 0 + s.1 * inv) count then
      (List.range n).map fun j => (.ok (octDelta nt (off + r0 + f 0 + s.1 * inv)
        (fun i => a (s.2 * (n * nPts nt) + j * nPts nt + i)) count) : Py (Writes ℝ)) else []) (by
    intro c hcm
    obtain ⟨s, _, hcm⟩ := List.mem_flatMap.mp hcm
    split_ifs at hcm
    · obtain ⟨j, _, rfl⟩ := List.mem_map.mp hcm
      exact ⟨_, rfl⟩
    · cases hcm)
  refine ⟨⟨u, hu⟩, ?_⟩
  rw [hu]
  change at_ k u = _
  rw [su, sum_flatMap]
  congr 1
  refine List.map_congr_left fun s _ => ?_
  split_ifs
  · rw [List.map_map]
    rfl
  · rfl

theorem inside_window (x : ℝ) (count : ℤ) (h0 : 0 ≤ x) (h1 : x < count) : inWindow x count = true := by
  unfold inWindow
  rw [decide_eq_true_iff]
  obtain ⟨t0, t1, t2⟩ := trunc_nonneg h0
  refine ⟨t0, ?_⟩
  have : (trunc x : ℝ) < count := by linarith
  have : trunc x < count := by exact_mod_cast this
  omega

end MRS.Bin

namespace MRS.Freq

open Complex MeasureTheory Filter Topology

theorem octTotal_limit (W : WC) (four : Bool) (nOct N : ℕ) (hO : nOct = 1 ∨ nOct = 4) [NeZero N] (junk : ℕ → ℕ → ℕ → ℂ)
    (νr cθ sθ : ℝ) (t : Tens) (s j : ℕ) (hj : j < nOct) :
    Tendsto (fun nt => Bin.totalAmplitude nt fun i =>
      amplitudeArray W four nt nOct N νr cθ sθ (batch W four nOct (fun q => (gridBeta nt q).1)
        (fun q => (gridBeta nt q).2) t.R2 t.R4 nOct (startRows four (junk nt) nt)).1
        (s * (nOct * Bin.nPts nt) + j * Bin.nPts nt + i)) atTop
      (𝓝 (6 / nOct * ∫ p in Bin.octant, Real.sin p.2 * dirAmp W four N νr cθ sθ t s (qturn j p))) := by
  obtain ⟨fA, fB, fC⟩ := amplitude_facts W four nOct N hO junk νr cθ sθ t s j hj
  have h := Bin.totalAmplitude_limit
    (fun nt i => amplitudeArray W four nt nOct N νr cθ sθ (batch W four nOct (fun q => (gridBeta nt q).1)
        (fun q => (gridBeta nt q).2) t.R2 t.R4 nOct (startRows four (junk nt) nt)).1
        (s * (nOct * Bin.nPts nt) + j * Bin.nPts nt + i)) _ (3 * Real.sqrt 3) (by positivity) fA fB fC
  refine h.trans (le_of_eq ?_)
  congr 1
  have hface := Bin.integral_face fun q => dirAmp W four N νr cθ sθ t s (qturn j (Bin.angles q))
  have hm : MeasurableSet Bin.octant := measurableSet_Ioo.prod measurableSet_Ioo
  rw [setIntegral_congr_fun (g := fun p => Real.sin p.2 * dirAmp W four N νr cθ sθ t s (qturn j p)) hm (fun p hp => by
    simp only [Bin.face_angles p hp])] at hface
  rw [← hface, div_mul_eq_mul_div, mul_div_assoc, ← integral_div]
  congr 2
  funext q
  ring

/-- The limit of a spectrum of single lines: sidebands at multiples of the rotor frequency from the frequency along the first axis. -/
theorem sharp_limit (W : WC) (four : Bool) (nOct N : ℕ) (hO : nOct = 1 ∨ nOct = 4) [NeZero N] (junk : ℕ → ℕ → ℕ → ℂ)
    (νr cθ sθ inv off : ℝ) (count k : ℤ) (hk1 : 1 ≤ k) (hkm : k < count) (t : Tens)
    (hsp : ¬ Spread inv (dirFreq W four cθ sθ t)) :
    (∀ nt, 1 ≤ nt → ∃ u, spectrum W four nt nOct N νr cθ sθ inv off count (startRows four (junk nt) nt) t = .ok u) ∧
    Tendsto (fun nt => Bin.val k (spectrum W four nt nOct N νr cθ sθ inv off count (startRows four (junk nt) nt) t)) atTop
      (𝓝 (((Bin.fftOrder (N : ℤ) νr).zipIdx.map fun s =>
        if 0 ≤ off + inv * dirFreq W four cθ sθ t (0, Real.pi / 2) + s.1 * inv ∧
          off + inv * dirFreq W four cθ sθ t (0, Real.pi / 2) + s.1 * inv < count then
        3 * Real.pi * (Bin.Spec.linear (off + inv * dirFreq W four cθ sθ t (0, Real.pi / 2) + s.1 * inv - (k + 1 / 2)) *
          Spec.octantMean nOct (dirAmp W four N νr cθ sθ t s.2)) else 0).sum)) := by
  have hO0 : (0 : ℝ) < nOct := by rcases hO with rfl | rfl <;> norm_num
  have hj0 : 0 < nOct := by rcases hO with rfl | rfl <;> norm_num
  have hfirst : ∀ nt, 1 ≤ nt → frequencyArray W four (Bin.nPts nt) cθ sθ (batch W four nOct (fun q => (gridBeta nt q).1)
      (fun q => (gridBeta nt q).2) t.R2 t.R4 nOct (startRows four (junk nt) nt)).1 0
      = dirFreq W four cθ sθ t (0, Real.pi / 2) - t.R0 := by
    intro nt hn
    have hn0 : (0 : ℝ) < nt := by exact_mod_cast hn
    have := powder_dir W four nt nOct hn hO (junk nt) cθ sθ t 0 (Bin.rank nt (0, 0)) hj0 (0, 0) (Bin.grid_get nt 0 0 (by simp))
      0 (Real.pi / 2) ⟨nt, hn0, by simp [Bin.Spec.point, Spec.quarter], by simp [Bin.Spec.point, Spec.quarter], by simp [Bin.Spec.point, Spec.quarter]⟩
    rw [Nat.zero_mul, Nat.zero_add, show Bin.rank nt (0, 0) = 0 from rfl] at this
    unfold powderFrequencies at this
    unfold dirFreq
    dsimp only at this ⊢
    linarith
  have hsame : ∀ nt, 1 ≤ nt → Bin.isDelta nt (fun a => inv * frequencyArray W four (Bin.nPts nt) cθ sθ
      (batch W four nOct (fun q => (gridBeta nt q).1) (fun q => (gridBeta nt q).2) t.R2 t.R4 nOct (startRows four (junk nt) nt)).1 a) = true :=
    fun nt hn => (isDelta_iff W four nt nOct hn hO (junk nt) cθ sθ inv t).mpr hsp
  constructor
  · intro nt hn
    unfold spectrum
    exact (Bin.averaging_sharp _ _ _ _ _ _ _ _ _ (hsame nt hn) k).1
  · have hev : (fun nt : ℕ => ((Bin.fftOrder (N : ℤ) νr).zipIdx.map fun s =>
          if 0 ≤ off + inv * dirFreq W four cθ sθ t (0, Real.pi / 2) + s.1 * inv ∧
            off + inv * dirFreq W four cθ sθ t (0, Real.pi / 2) + s.1 * inv < count then
          ((List.range nOct).map fun j => (Bin.totalAmplitude nt fun i =>
            amplitudeArray W four nt nOct N νr cθ sθ (batch W four nOct (fun q => (gridBeta nt q).1)
              (fun q => (gridBeta nt q).2) t.R2 t.R4 nOct (startRows four (junk nt) nt)).1
              (s.2 * (nOct * Bin.nPts nt) + j * Bin.nPts nt + i)) *
              Bin.Spec.linear (off + inv * dirFreq W four cθ sθ t (0, Real.pi / 2) + s.1 * inv - (k + 1 / 2))).sum else 0).sum)
        =ᶠ[atTop] fun nt => Bin.val k (spectrum W four nt nOct N νr cθ sθ inv off count (startRows four (junk nt) nt) t) := by
      filter_upwards [eventually_ge_atTop 1] with nt hn
      unfold spectrum
      dsimp only
      rw [(Bin.averaging_sharp _ _ _ _ _ _ _ _ _ (hsame nt hn) k).2]
      congr 1
      refine List.map_congr_left fun s _ => ?_
      rw [hfirst nt hn, show off + t.R0 * inv + inv * (dirFreq W four cθ sθ t (0, Real.pi / 2) - t.R0) + s.1 * inv
        = off + inv * dirFreq W four cθ sθ t (0, Real.pi / 2) + s.1 * inv by ring]
      simp only [Bin.delta_tent _ _ _ _ hk1 hkm]
      by_cases hin : 0 ≤ off + inv * dirFreq W four cθ sθ t (0, Real.pi / 2) + s.1 * inv ∧
            off + inv * dirFreq W four cθ sθ t (0, Real.pi / 2) + s.1 * inv < count
      · simp only [if_pos hin]
        rw [if_pos (Bin.inside_window _ _ hin.1 hin.2)]
      · simp only [if_neg hin]
        split_ifs <;> simp
    refine Tendsto.congr' hev ?_
    refine tendsto_list_sum _ fun s hs => ?_
    split_ifs with hw
    · have hsum := tendsto_list_sum (List.range nOct) (fun j hj => (octTotal_limit W four nOct N hO junk νr cθ sθ t s.2 j
        (List.mem_range.mp hj)).mul_const
          (Bin.Spec.linear (off + inv * dirFreq W four cθ sθ t (0, Real.pi / 2) + s.1 * inv - (k + 1 / 2))))
      refine hsum.trans (le_of_eq ?_)
      congr 1
      unfold Spec.octantMean
      rw [show ∀ f : ℕ → ℝ, ((List.range nOct).map f).sum = ∑ j ∈ Finset.range nOct, f j from fun f => rfl, ← Finset.sum_mul,
        ← Finset.mul_sum]
      field_simp
      ring
    · exact tendsto_const_nhds

end MRS.Freq
