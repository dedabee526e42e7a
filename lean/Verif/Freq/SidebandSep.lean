import Verif.Freq.Isotropic
import Verif.Freq.SharpLine
import Verif.Freq.Inversion
import Verif.Trans.Correlation

/-!
# Sidebands separated by isotropic frequency — property C97

The map of `SSB2D` (methods/ssb2d.py:72-124): the same transition in both dimensions, the sample spun at the magic angle, slowly in the
first dimension and fast in the second, and the matrix `[1, -1, 0, 1]`, which takes the second frequency from the first.
-/

namespace MRS.Bin

/-- The shape of frequencies that are all alike is a line. -/
theorem rowShape_sharp (nt : ℕ) (freq amp : ℕ → ℝ) (m col : ℤ) (y : ℝ) (h : ∀ q, q < nPts nt → freq q = y) :
    rowShape nt freq amp m col = at_ col (deltaFn y m 1) * totalAmplitude nt amp := by
  unfold rowShape
  rw [totalAmplitude_triList, ← List.sum_map_mul_left]
  congr 1
  refine List.map_congr_left fun t ht => ?_
  obtain ⟨b1, b2, b3⟩ := tri_bounds nt t ht
  rw [h _ (rank_lt nt _ b1), h _ (rank_lt nt _ b2), h _ (rank_lt nt _ b3)]
  unfold triangleOrDelta
  rw [if_pos (by rw [sub_self, abs_zero]; constructor <;> simp [TOL])]
  change at_ col _ = _
  rw [show amp (rank nt t.1) + amp (rank nt t.2.1) + amp (rank nt t.2.2)
    = (amp (rank nt t.1) + amp (rank nt t.2.1) + amp (rank nt t.2.2)) * 1 by ring, deltaFn_scale, at_scaleW]
  ring

end MRS.Bin

namespace MRS.Freq

open Complex MeasureTheory Filter Topology

/-! ## Model -/

/-- simulation.c:133-147 and method.c:78-79: `freq_amplitude` of an event when `two_dimensional_averaging` reads it, sideband after sideband
with `nOct * npts` orientations each.  With a single sideband it is as allocated, ones. -/
noncomputable def eventAmplitude (W : WC) (four : Bool) (nt nOct N : ℕ) [NeZero N] (νr cθ sθ : ℝ) (bs : List Block) (a : ℕ) : ℝ :=
  let npts := Bin.nPts nt
  let total := nOct * npts
  if N = 1 then 1
  else match bs[a % total / npts]? with
    | none => 0
    | some b => Sim.sidebandAmps (fun k : ZMod N => sidebandPhase W four N νr cθ sθ (b.w2 (a % npts)) (b.w4 (a % npts)) k.val)
        ((a / total : ℕ) : ZMod N)

/-- frequency_averaging.c:122-179 and mrsimulator.c:79-87, 120: what `two_dimensional_averaging` reads of two dimensions with one event each on
the angle `θ`, of components `t` and `u`; the weights of the orientations go to the second (lines 176-179). -/
noncomputable def frames (W : WC) (four : Bool) (nt nOct N : ℕ) [NeZero N] (θ : ℝ) (ν off : ℝ × ℝ) (count : ℕ × ℕ) (P : ℕ → ℕ → ℂ)
    (t u : Tens) : Frame × Frame :=
  let blocks := fun (t : Tens) => (batch W four nOct (fun q => (gridBeta nt q).1) (fun q => (gridBeta nt q).2) t.R2 t.R4 nOct P).1
  (⟨off.1, count.1, fun i => (Bin.fftOrder (N : ℤ) ν.1).getD i 0,
      eventAmplitude W four nt nOct N ν.1 (Real.cos θ) (Real.sin θ) (blocks t)⟩,
    ⟨off.2, count.2, fun i => (Bin.fftOrder (N : ℤ) ν.2).getD i 0, fun a =>
      eventAmplitude W four nt nOct N ν.2 (Real.cos θ) (Real.sin θ) (blocks u) a
        * Sim.normAmplitude N nOct (Bin.weight nt (a % Bin.nPts nt))⟩)

/-- The map of sideband separation for the transition `x` (methods/ssb2d.py:110-119): the transition twice, and the matrix of the method. -/
noncomputable def ssbMap (W : WC) (T : TC) (four : Bool) (nt nOct N : ℕ) [NeZero N] (B0 θ : ℝ) (ν inc off : ℝ × ℝ) (count : ℕ × ℕ)
    (ss : List Site) (ks : List Coupling) (P : ℕ → ℕ → ℂ) (x : List ℕ × List ℕ) : Py (Bin.Writes ℝ) :=
  let t := components W T four B0 ss ks (Spec.quantum ss x.1) (Spec.quantum ss x.2)
  let f := frames W four nt nOct N θ ν off count P t t
  map2D W T four nt nOct N ss ks inc [1, -1, 0, 1]
    (⟨1 / inc.1, [⟨B0, 1, θ, ν.1⟩], 0, fun _ => 0⟩, ⟨1 / inc.2, [⟨B0, 1, θ, ν.2⟩], 0, fun _ => 0⟩) f.1 f.2 P (pack ss [x, x])

/-! ## Specification -/

/-- Only nuclei of spin 1/2 change their state. -/
def Spec.HalfOnly (ss : List Site) (x : List ℕ × List ℕ) : Prop :=
  ∀ (k : ℕ) (s : Site), ss[k]? = some s → 2 ≤ s.n → x.1[k]? = x.2[k]?

/-- What a line of unit weight at `f`, in bins, adds to point `k` of an axis of `n` points. -/
noncomputable def Spec.drawn (n : ℕ) (f : ℝ) (k : ℤ) : ℝ :=
  if 0 ≤ f ∧ f < n then Bin.Spec.linear (f - (k + 1 / 2)) else 0

/-! ## Components -/

theorem half_R4 (B0 : ℝ) (ss : List Site) (ks : List Coupling) (x : List ℕ × List ℕ) (hs : ∀ s ∈ ss, 1 ≤ s.n)
    (h1 : Spec.IsState ss x.1) (h2 : Spec.IsState ss x.2) (hh : Spec.HalfOnly ss x) (i : ℕ) :
    (components WC.exact TC.exact true B0 ss ks (Spec.quantum ss x.1) (Spec.quantum ss x.2)).R4 i = 0 := by
  have h := components_cancel B0 1 0 ss ks x x hs h1 h2 h1 h2 (by
    intro k s hk hn
    have := hh k s hk hn
    rw [List.getD_eq_getElem?_getD, List.getD_eq_getElem?_getD, this, STFc4_self]
    ring) i
  simpa using h

theorem half_addSites (W : WC) (T : TC) (four : Bool) (B0 : ℝ) (ss : List Site) (xi xf : List ℕ)
    (hs : ∀ s ∈ ss, 1 ≤ s.n) (hh : Spec.HalfOnly ss (xi, xf)) (t : Tens) :
    addSites W T four B0 t ss (Spec.quantum ss xi) (Spec.quantum ss xf)
      = addSites W T true B0 t ss (Spec.quantum ss xi) (Spec.quantum ss xf) := by
  induction ss generalizing xi xf t with
  | nil => simp [addSites]
  | cons s ss ih =>
    cases xi with
    | nil => simp [Spec.quantum, addSites]
    | cons a xi =>
      cases xf with
      | nil => simp [Spec.quantum, addSites]
      | cons b xf =>
        simp only [Spec.quantum, List.zipWith_cons_cons, addSites]
        have e : addSite W T four B0 t s ((b : ℝ) - s.n / 2) ((a : ℝ) - s.n / 2)
            = addSite W T true B0 t s ((b : ℝ) - s.n / 2) ((a : ℝ) - s.n / 2) := by
          unfold addSite
          by_cases hn : s.n = 1
          · simp only [hn, if_true]
          · have := hh 0 s (by simp) (by have := hs s (by simp); omega)
            simp only [List.getElem?_cons_zero, Option.some.injEq] at this
            rw [this]
            simp
        rw [e]
        exact ih xi xf (fun s' h => hs s' (by simp [h])) (fun k s' hk hn => by simpa using hh (k + 1) s' (by simpa using hk) hn) _

theorem half_components (W : WC) (T : TC) (four : Bool) (B0 : ℝ) (ss : List Site) (ks : List Coupling) (x : List ℕ × List ℕ)
    (hs : ∀ s ∈ ss, 1 ≤ s.n) (hh : Spec.HalfOnly ss x) :
    components W T four B0 ss ks (Spec.quantum ss x.1) (Spec.quantum ss x.2)
      = components W T true B0 ss ks (Spec.quantum ss x.1) (Spec.quantum ss x.2) := by
  unfold components
  rw [half_addSites W T four B0 ss x.1 x.2 hs hh]

/-- On the magic angle only the isotropic part is left. -/
theorem magic_flat (four : Bool) (θ c s : ℝ) (e : ℂ) (t : Tens) (hθ : 3 * Real.cos θ ^ 2 = 1) (h : ∀ i, t.R4 i = 0) :
    localFreq WC.exact four c s e (Real.cos θ) (Real.sin θ) t = t.R0 := by
  unfold localFreq
  rw [magic_rank2 _ _ hθ, show t.R4 = fun _ => 0 from funext h, half_zero]
  simp

theorem flat_phase (W : WC) (four : Bool) (N : ℕ) (νr cβ sβ : ℝ) (e : ℂ) (cθ sθ : ℝ) (t : Tens) (ht : ∀ i, t.R4 i = 0) (k : ℕ) :
    crystalPhase W four N νr cβ sβ e cθ sθ t k = crystalPhase W true N νr cβ sβ e cθ sθ t k := by
  have : t.R4 = fun _ => 0 := funext ht
  cases four
  · simp [crystalPhase, sidebandPhase, this, half_zero]
  · rfl

/-! ## The map as a sum of peaks -/

theorem amplitude_split (W : WC) (four : Bool) (nt nOct N : ℕ) [NeZero N] (νr cθ sθ : ℝ) (bs : List Block) (a : ℕ) :
    amplitudeArray W four nt nOct N νr cθ sθ bs a
      = eventAmplitude W four nt nOct N νr cθ sθ bs a * Sim.normAmplitude N nOct (Bin.weight nt (a % Bin.nPts nt)) := by
  unfold amplitudeArray eventAmplitude
  simp only
  split_ifs
  · rw [one_mul]
  · cases bs[a % (nOct * Bin.nPts nt) / Bin.nPts nt]? <;> simp

theorem eventAmplitude_eq (W : WC) (four : Bool) (nt nOct N : ℕ) (hn : 1 ≤ nt) [NeZero N] (hO : nOct = 1 ∨ nOct = 4) (junk : ℕ → ℕ → ℂ)
    (νr cθ sθ : ℝ) (t : Tens) (s j : ℕ) (hj : j < nOct) (p : ℕ × ℕ) (hp : p.1 + p.2 ≤ nt) :
    eventAmplitude W four nt nOct N νr cθ sθ (batch W four nOct (fun q => (gridBeta nt q).1)
        (fun q => (gridBeta nt q).2) t.R2 t.R4 nOct (startRows four junk nt)).1
        (s * (nOct * Bin.nPts nt) + j * Bin.nPts nt + Bin.rank nt p)
      = if N = 1 then 1 else Sim.sidebandAmps (fun k : ZMod N => crystalPhase W four N νr (gridBeta nt (Bin.rank nt p)).1
          (gridBeta nt (Bin.rank nt p)).2 (gridAlpha nt (Bin.rank nt p) * (-I) ^ j) cθ sθ t k.val) (s : ZMod N) := by
  have hq := Bin.rank_lt nt p hp
  have h := amplitude_eq W four nt nOct N hO junk νr cθ sθ t s j _ hj hq
  have e1 : (s * (nOct * Bin.nPts nt) + j * Bin.nPts nt + Bin.rank nt p) % Bin.nPts nt = Bin.rank nt p := by
    rw [show s * (nOct * Bin.nPts nt) + j * Bin.nPts nt + Bin.rank nt p = Bin.nPts nt * (s * nOct + j) + Bin.rank nt p by ring,
      Nat.mul_add_mod, Nat.mod_eq_of_lt hq]
  rw [amplitude_split, e1] at h
  refine mul_right_cancel₀ ?_ h
  have hn0 : (0 : ℝ) < nt := by exact_mod_cast hn
  have hw : 0 < Bin.weight nt (Bin.rank nt p) := by
    rw [Bin.weight_eq nt hn _ p (Bin.grid_get nt p.1 p.2 hp)]
    have := Bin.len_pos nt hn p
    positivity
  have hN0 : (0 : ℝ) < N := Nat.cast_pos.mpr (Nat.pos_of_ne_zero (NeZero.ne N))
  have hO0 : (0 : ℝ) < nOct := by rcases hO with rfl | rfl <;> norm_num
  unfold Sim.normAmplitude
  positivity

/-- The map is a sum of products of lines. -/
theorem ssb_sum (four : Bool) (nt nOct N : ℕ) (hn : 1 ≤ nt) [NeZero N] (hO : nOct = 1 ∨ nOct = 4) (junk : ℕ → ℕ → ℂ) (B0 θ : ℝ)
    (ν inc off : ℝ × ℝ) (hθ : 3 * Real.cos θ ^ 2 = 1) (hi : 0 < inc.1 ∧ 0 < inc.2) (count : ℕ × ℕ) (hc : 1 ≤ count.2)
    (ss : List Site) (ks : List Coupling) (x : List ℕ × List ℕ) (hx : Spec.IsState ss x.1 ∧ Spec.IsState ss x.2)
    (t : Tens) (ht : t = components WC.exact TC.exact four B0 ss ks (Spec.quantum ss x.1) (Spec.quantum ss x.2))
    (h4 : ∀ i, t.R4 i = 0) (X : ℕ → ℕ → ℝ) (Y : ℕ → ℝ)
    (hX : ∀ i k, X i k = off.1 + ((Bin.fftOrder (N : ℤ) ν.1).getD i 0 - (Bin.fftOrder (N : ℤ) ν.2).getD k 0) / inc.1)
    (hY : ∀ k, Y k = off.2 + (t.R0 + (Bin.fftOrder (N : ℤ) ν.2).getD k 0) / inc.2) :
    ∃ w, ssbMap WC.exact TC.exact four nt nOct N B0 θ ν inc off count ss ks (startRows four junk nt) x = .ok w ∧
      ∀ (r col : ℤ), 0 ≤ col → col < count.2 →
        Bin.at_ (r * count.2 + col) w = ∑ i ∈ Finset.range N, ∑ k ∈ Finset.range N,
          if Bin.inWindow (X i k) count.1 && Bin.inWindow (Y k) count.2 then
            ∑ j ∈ Finset.range nOct, Bin.at_ r (Bin.deltaFn (X i k) count.1 1) * (Bin.at_ col (Bin.deltaFn (Y k) count.2 1) *
              Bin.totalAmplitude nt (fun q =>
                (frames WC.exact four nt nOct N θ ν off count (startRows four junk nt) t t).1.amp (i * (nOct * Bin.nPts nt) + j * Bin.nPts nt + q)
                * (frames WC.exact four nt nOct N θ ν off count (startRows four junk nt) t t).2.amp (k * (nOct * Bin.nPts nt) + j * Bin.nPts nt + q)))
          else 0 := by
  have i0 : inc.1 ≠ 0 := ne_of_gt hi.1
  have i1 : inc.2 ≠ 0 := ne_of_gt hi.2
  obtain ⟨D, hD, Di, Dr, Df⟩ := single_spec WC.exact TC.exact four nt nOct hO ss ks ⟨B0, 1, θ, ν.1⟩
    ⟨1 / inc.1, [⟨B0, 1, θ, ν.1⟩], 0, fun _ => 0⟩ (startRows four junk nt) x [x] [] hx.1 hx.2
  obtain ⟨E, hE, Ei, Er, Ef⟩ := single_spec WC.exact TC.exact four nt nOct hO ss ks ⟨B0, 1, θ, ν.2⟩
    ⟨1 / inc.2, [⟨B0, 1, θ, ν.2⟩], 0, fun _ => 0⟩ (startRows four junk nt) x [] [] hx.1 hx.2
  simp only [mul_one, ← ht] at Di Dr Df Ei Er Ef
  have hloop : coreLoop WC.exact TC.exact four nt nOct ss ks
      [⟨1 / inc.1, [⟨B0, 1, θ, ν.1⟩], 0, fun _ => 0⟩, ⟨1 / inc.2, [⟨B0, 1, θ, ν.2⟩], 0, fun _ => 0⟩] (startRows four junk nt) (pack ss [x, x])
      = .ok ([D, E], startRows four junk nt) := by
    rw [List.append_nil] at hD
    rw [coreLoop, hD]
    simp only
    rw [coreLoop]
    rw [List.append_nil] at hE
    simp only [List.append_nil]
    rw [hE]
    rfl
  have hflat : ∀ q, q < nOct * Bin.nPts nt →
      (powderFrequencies WC.exact four nt nOct (startRows four junk nt) (Real.cos θ) (Real.sin θ) t).1 q = 0 := by
    intro q hq
    obtain ⟨j, q', p, α, β, rfl, hj, hq', hp⟩ := index_dir nt nOct hn q hq
    have := powder_dir WC.exact four nt nOct hn hO junk (Real.cos θ) (Real.sin θ) t j q' hj p hq' α β hp
    rw [magic_flat four θ _ _ _ t hθ h4] at this
    linarith
  obtain ⟨hprep, -⟩ := shear_value 1 (-1) inc.1 inc.2 0 0
  have hsh := fun z w => (shear_value 1 (-1) inc.1 inc.2 z w).2
  set m : List ℝ := [1 * (inc.1 / inc.1), -1 * (inc.2 / inc.1), 0, inc.2 / inc.2] with hm
  set f := frames WC.exact four nt nOct N θ ν off count (startRows four junk nt) t t with hf
  obtain ⟨w, hw, hv⟩ := Bin.averaging2D_sharp (fun n => m.getD n 0)
    ⟨D.r0, D.inv, f.1.norm, f.1.count, f.1.vr, fun q => (sheared m (D.freq q) (E.freq q)).1, f.1.amp⟩
    ⟨E.r0, E.inv, f.2.norm, f.2.count, f.2.vr, fun q => (sheared m (D.freq q) (E.freq q)).2, f.2.amp⟩ nt nOct N hc (by
      intro q hq
      change (sheared m (D.freq q) (E.freq q)).1 = 0
      rw [hm, hsh, Df, Ef, hflat q hq]
      simp)
  refine ⟨w, ?_, fun r col h0 h1 => ?_⟩
  · unfold ssbMap
    simp only [← ht, ← hf]
    unfold map2D
    rw [hprep]
    simp only
    rw [hloop]
    exact hw
  · refine (hv r col h0 h1).trans ?_
    rw [passes_sum]
    have hoff : ∀ i k, Bin.offsets2D (fun n => m.getD n 0)
        ⟨D.r0, D.inv, f.1.norm, f.1.count, f.1.vr, fun q => (sheared m (D.freq q) (E.freq q)).1, f.1.amp⟩
        ⟨E.r0, E.inv, f.2.norm, f.2.count, f.2.vr, fun q => (sheared m (D.freq q) (E.freq q)).2, f.2.amp⟩ i k = (X i k, Y k) := by
      intro i k
      unfold Bin.offsets2D
      simp only [hm, List.getD_cons_zero, List.getD_cons_succ]
      rw [hX, hY, Dr, Er, Di, Ei]
      simp only [hf, frames]
      congr 1 <;> field_simp <;> ring
    refine Finset.sum_congr rfl fun i _ => Finset.sum_congr rfl fun k _ => ?_
    unfold Bin.pass2D
    rw [hoff]
    simp only
    congr 1
    refine Finset.sum_congr rfl fun j hj => ?_
    rw [hoff]
    simp only
    congr 1
    refine Bin.rowShape_sharp nt _ _ _ _ _ fun q hq => ?_
    have hlt : j * Bin.nPts nt + q < nOct * Bin.nPts nt := by
      rw [Finset.mem_range] at hj
      calc j * Bin.nPts nt + q < j * Bin.nPts nt + Bin.nPts nt := by omega
        _ = (j + 1) * Bin.nPts nt := by ring
        _ ≤ nOct * Bin.nPts nt := Nat.mul_le_mul_right _ hj
    rw [hm, hsh, Ef, hflat _ hlt]
    simp

theorem order_zero (N : ℕ) [NeZero N] (ν : ℝ) : (Bin.fftOrder (N : ℤ) ν).getD 0 0 = 0 := by
  have hN := Nat.pos_of_ne_zero (NeZero.ne N)
  obtain ⟨m, h1, h2, h3, h4⟩ := (Bin.C40_fft_order N hN ν).2 0 hN
  rw [List.getD_eq_getElem?_getD, h1]
  obtain ⟨c, hc⟩ := Int.dvd_of_emod_eq_zero (by simpa using h2)
  have : c = 0 := by
    rcases lt_trichotomy c 0 with h | h | h
    · nlinarith
    · exact h
    · nlinarith
  simp [hc, this]

theorem order_far (N : ℕ) [NeZero N] (ν : ℝ) (hν : 0 ≤ ν) (k : ℕ) (hk : k < N) (h0 : k ≠ 0) : ν ≤ |(Bin.fftOrder (N : ℤ) ν).getD k 0| := by
  have hN := Nat.pos_of_ne_zero (NeZero.ne N)
  obtain ⟨m, h1, h2, h3, h4⟩ := (Bin.C40_fft_order N hN ν).2 k hk
  rw [List.getD_eq_getElem?_getD, h1, Option.getD_some, abs_mul, abs_of_nonneg hν]
  have hm : m ≠ 0 := by
    rintro rfl
    simp at h2
    omega
  have : (1 : ℝ) ≤ |(m : ℝ)| := by exact_mod_cast Int.one_le_abs hm
  nlinarith

theorem delta_drawn (f : ℝ) (n : ℕ) (k : ℤ) (h1 : 1 ≤ k) (h2 : k < n) : Bin.at_ k (Bin.deltaFn f n 1) = Spec.drawn n f k := by
  rw [Bin.delta_tent f 1 n k h1 h2]
  unfold Spec.drawn
  rw [one_mul]
  rfl

/-- With the second rotor frequency beyond the width of the second axis: one peak for each sideband of the first dimension. -/
theorem ssb_peaks (four : Bool) (nt nOct N : ℕ) (hn : 1 ≤ nt) [NeZero N] (hO : nOct = 1 ∨ nOct = 4) (junk : ℕ → ℕ → ℂ) (B0 θ : ℝ)
    (ν inc off : ℝ × ℝ) (hθ : 3 * Real.cos θ ^ 2 = 1) (hi : 0 < inc.1 ∧ 0 < inc.2) (count : ℕ × ℕ)
    (hfast : count.2 * inc.2 ≤ ν.2)
    (ss : List Site) (ks : List Coupling) (x : List ℕ × List ℕ) (hx : Spec.IsState ss x.1 ∧ Spec.IsState ss x.2)
    (t : Tens) (ht : t = components WC.exact TC.exact four B0 ss ks (Spec.quantum ss x.1) (Spec.quantum ss x.2))
    (h4 : ∀ i, t.R4 i = 0) (hin : 0 ≤ off.2 + t.R0 / inc.2 ∧ off.2 + t.R0 / inc.2 < count.2) :
    ∃ w, ssbMap WC.exact TC.exact four nt nOct N B0 θ ν inc off count ss ks (startRows four junk nt) x = .ok w ∧
      ∀ (r col : ℤ), 1 ≤ r → r < count.1 → 1 ≤ col → col < count.2 →
        Bin.at_ (r * count.2 + col) w = ∑ i ∈ Finset.range N,
          Spec.drawn count.1 (off.1 + (Bin.fftOrder (N : ℤ) ν.1).getD i 0 / inc.1) r * (Spec.drawn count.2 (off.2 + t.R0 / inc.2) col *
            ∑ j ∈ Finset.range nOct, Bin.totalAmplitude nt (fun q =>
                (frames WC.exact four nt nOct N θ ν off count (startRows four junk nt) t t).1.amp (i * (nOct * Bin.nPts nt) + j * Bin.nPts nt + q)
                * (frames WC.exact four nt nOct N θ ν off count (startRows four junk nt) t t).2.amp (0 * (nOct * Bin.nPts nt) + j * Bin.nPts nt + q))) := by
  have hc0 : (0 : ℝ) < count.2 := lt_of_le_of_lt hin.1 hin.2
  have hc : 1 ≤ count.2 := by exact_mod_cast hc0
  have hν : 0 ≤ ν.2 := le_trans (by have := hi.2; positivity) hfast
  obtain ⟨w, hw, hv⟩ := ssb_sum four nt nOct N hn hO junk B0 θ ν inc off hθ hi count hc ss ks x hx t ht h4 _ _ (fun _ _ => rfl) (fun _ => rfl)
  refine ⟨w, hw, fun r col hr1 hr2 hc1 hc2 => ?_⟩
  rw [hv r col (by omega) hc2]
  refine Finset.sum_congr rfl fun i _ => ?_
  simp only [delta_drawn _ _ _ hr1 hr2, delta_drawn _ _ _ hc1 hc2]
  rw [Finset.sum_eq_single_of_mem 0 (Finset.mem_range.mpr (Nat.pos_of_ne_zero (NeZero.ne N)))]
  · rw [order_zero, sub_zero, add_zero]
    split_ifs with hwin
    · rw [← Finset.mul_sum, ← Finset.mul_sum]
    · rw [Bin.inside_window (off.2 + t.R0 / inc.2) count.2 hin.1 (by push_cast; exact hin.2), Bool.and_true] at hwin
      have : Spec.drawn count.1 (off.1 + (Bin.fftOrder (N : ℤ) ν.1).getD i 0 / inc.1) r = 0 := by
        unfold Spec.drawn
        rw [if_neg]
        rintro ⟨a1, a2⟩
        exact hwin (Bin.inside_window _ _ a1 (by push_cast; exact a2))
      rw [this, zero_mul]
  · intro k hk h0
    rw [Finset.mem_range] at hk
    have hfar := order_far N ν.2 hν k hk h0
    have hz : Spec.drawn count.2 (off.2 + (t.R0 + (Bin.fftOrder (N : ℤ) ν.2).getD k 0) / inc.2) col = 0 := by
      unfold Spec.drawn
      rw [if_neg]
      rintro ⟨a1, a2⟩
      set z := (Bin.fftOrder (N : ℤ) ν.2).getD k 0
      rw [add_div] at a1 a2
      have hz : (count.2 : ℝ) ≤ |z / inc.2| := by
        rw [abs_div, abs_of_pos hi.2, le_div_iff₀ hi.2]
        exact hfast.trans hfar
      rcases abs_cases (z / inc.2) with ⟨e, _⟩ | ⟨e, _⟩
      · rw [e] at hz
        linarith [hin.1]
      · rw [e] at hz
        linarith [hin.2]
    split_ifs
    · refine Finset.sum_eq_zero fun j _ => ?_
      rw [hz, zero_mul, mul_zero]
    · rfl

/-! ## Limits -/

/-- The total of the products of the amplitudes of two events, on ever denser grids. -/
theorem pair_limit (four : Bool) (nOct N : ℕ) (hO : nOct = 1 ∨ nOct = 4) [NeZero N] (hN : N ≠ 1) (junk : ℕ → ℕ → ℕ → ℂ) (θ : ℝ) (ν off : ℝ × ℝ)
    (count : ℕ × ℕ) (t : Tens) (i k j : ℕ) (hj : j < nOct) :
    Tendsto (fun nt => Bin.totalAmplitude nt fun q =>
      (frames WC.exact four nt nOct N θ ν off count (startRows four (junk nt) nt) t t).1.amp (i * (nOct * Bin.nPts nt) + j * Bin.nPts nt + q)
      * (frames WC.exact four nt nOct N θ ν off count (startRows four (junk nt) nt) t t).2.amp (k * (nOct * Bin.nPts nt) + j * Bin.nPts nt + q)) atTop
      (𝓝 ((N : ℝ) ^ 2 * (6 / nOct * ∫ p in Bin.octant, Real.sin p.2 *
        (dirAmp WC.exact four N ν.1 (Real.cos θ) (Real.sin θ) t i (qturn j p) * dirAmp WC.exact four N ν.2 (Real.cos θ) (Real.sin θ) t k (qturn j p))))) := by
  have hN0 : (0 : ℝ) < N := Nat.cast_pos.mpr (Nat.pos_of_ne_zero (NeZero.ne N))
  have hO0 : (0 : ℝ) < nOct := by rcases hO with rfl | rfl <;> norm_num
  obtain ⟨fA, fB, fC⟩ := amplitude_facts WC.exact four nOct N hO junk ν.2 (Real.cos θ) (Real.sin θ) t k j hj
  set D := fun p => dirAmp WC.exact four N ν.1 (Real.cos θ) (Real.sin θ) t i (qturn j p) with hD
  set E := fun p => dirAmp WC.exact four N ν.2 (Real.cos θ) (Real.sin θ) t k (qturn j p) with hE
  simp only [frames, ← amplitude_split]
  have hDc : Continuous D := by
    have hq : Continuous (qturn j) := by unfold qturn; fun_prop
    exact (dirAmp_continuous WC.exact four N ν.1 _ _ t i).comp hq
  have h := Bin.totalAmplitude_limit
    (fun nt q => eventAmplitude WC.exact four nt nOct N ν.1 (Real.cos θ) (Real.sin θ) (batch WC.exact four nOct (fun q => (gridBeta nt q).1)
        (fun q => (gridBeta nt q).2) t.R2 t.R4 nOct (startRows four (junk nt) nt)).1 (i * (nOct * Bin.nPts nt) + j * Bin.nPts nt + q)
      * amplitudeArray WC.exact four nt nOct N ν.2 (Real.cos θ) (Real.sin θ) (batch WC.exact four nOct (fun q => (gridBeta nt q).1)
        (fun q => (gridBeta nt q).2) t.R2 t.R4 nOct (startRows four (junk nt) nt)).1 (k * (nOct * Bin.nPts nt) + j * Bin.nPts nt + q))
    (fun q => (N : ℝ) ^ 2 * (D (Bin.angles q) * (E (Bin.angles q) / nOct / Bin.dist0 q ^ 3))) ((N : ℝ) ^ 2 * (3 * Real.sqrt 3)) (by positivity)
    (by
      intro nt p h1 h2 h3
      obtain ⟨g1, g2⟩ := grid_inside nt p h1 h2 h3
      have hA := fA nt p h1 h2 h3
      have hev := eventAmplitude_eq WC.exact four nt nOct N (by omega) hO (junk nt) ν.1 (Real.cos θ) (Real.sin θ) t i j hj p (by omega)
      rw [g1, g2, ← exp_turn, if_neg hN] at hev
      have hd : D (Bin.angles ((p.1 : ℝ) / nt, (p.2 : ℝ) / nt)) * (N : ℝ) ^ 2
          = Sim.sidebandAmps (fun k : ZMod N => crystalPhase WC.exact four N ν.1 (Real.cos (Bin.angles ((p.1 : ℝ) / nt, (p.2 : ℝ) / nt)).2)
            (Real.sin (Bin.angles ((p.1 : ℝ) / nt, (p.2 : ℝ) / nt)).2)
            (exp (((qturn j (Bin.angles ((p.1 : ℝ) / nt, (p.2 : ℝ) / nt))).1 : ℝ) * I)) (Real.cos θ) (Real.sin θ) t k.val) (i : ZMod N) := by
        simp only [hD, dirAmp, if_neg hN, qturn]
        field_simp
      rw [hev, ← hd]
      rw [mul_left_comm, hA]
      ring)
    (by
      intro nt hn p hp
      have hev := eventAmplitude_eq WC.exact four nt nOct N hn hO (junk nt) ν.1 (Real.cos θ) (Real.sin θ) t i j hj p hp
      rw [if_neg hN] at hev
      rw [hev, abs_mul, mul_div_assoc]
      refine mul_le_mul ?_ (fB nt hn p hp) (abs_nonneg _) (by positivity)
      rw [abs_of_nonneg (sidebandAmps_bounds _ _).1]
      exact (sidebandAmps_bounds _ _).2)
    (by
      intro q hq
      exact (ContinuousAt.comp (g := D) hDc.continuousAt (Bin.angles_continuous q hq)).mul (fC q hq) |>.const_mul _)
  refine h.trans (le_of_eq ?_)
  congr 1
  have hface := Bin.integral_face fun q => D (Bin.angles q) * E (Bin.angles q)
  have hm : MeasurableSet Bin.octant := measurableSet_Ioo.prod measurableSet_Ioo
  rw [setIntegral_congr_fun (g := fun p => Real.sin p.2 * (D p * E p)) hm (fun p hp => by
    simp only [Bin.face_angles p hp])] at hface
  rw [← hface, integral_const_mul, div_mul_eq_mul_div, mul_div_assoc, ← integral_div, mul_left_comm]
  congr 3
  funext q
  ring

theorem zipIdx_range (N : ℕ) (l : List ℝ) (hl : l.length = N) (F : ℝ × ℕ → ℝ) :
    (l.zipIdx.map F).sum = ∑ i ∈ Finset.range N, F (l.getD i 0, i) := by
  have hz : l.zipIdx = (List.range N).map fun i => (l.getD i 0, i) := by
    apply List.ext_getElem?
    intro i
    rw [List.getElem?_zipIdx, List.getElem?_map]
    by_cases hi : i < N
    · rw [List.getElem?_eq_getElem (by omega), List.getElem?_range hi]
      simp [List.getD_eq_getElem?_getD, List.getElem?_eq_getElem (show i < l.length by omega)]
    · rw [List.getElem?_eq_none (by omega), List.getElem?_eq_none (by simpa using hi)]
      rfl
  rw [hz, List.map_map]
  rfl

theorem drawn_finite (n : ℕ) (off ν inc : ℝ) (hν : 0 < ν) (hi : 0 < inc) (k : ℤ) (J : ℤ → ℝ) :
    (Function.support fun m : ℤ => Spec.drawn n (off + m * ν / inc) k * J m).Finite := by
  refine (Set.finite_Icc ⌊-off * inc / ν⌋ ⌈(n - off) * inc / ν⌉).subset ?_
  intro m hm
  rw [Function.mem_support] at hm
  have h : 0 ≤ off + m * ν / inc ∧ off + m * ν / inc < n := by
    by_contra h
    exact hm (by unfold Spec.drawn; rw [if_neg h, zero_mul])
  obtain ⟨h1, h2⟩ := h
  constructor
  · have : -off * inc / ν ≤ m := by
      rw [div_le_iff₀ hν, ← le_div_iff₀ hi]
      linarith
    exact_mod_cast (Int.floor_le _).trans this
  · have : (m : ℝ) ≤ (n - off) * inc / ν := by
      rw [le_div_iff₀ hν, ← div_le_iff₀ hi]
      linarith
    exact_mod_cast this.trans (Int.le_ceil _)

/-- **C97, partial.** Sideband separation of a transition in which only nuclei of spin 1/2 take part, in any spin system, on the magic angle, with the
second rotor frequency beyond the width of the second axis and the isotropic frequency on that axis: for every number of sidebands from 2 on,
point `(r, col)` of the map, neither of them 0, converges with the integration density; and its limit, divided by the square of the number of
sidebands (C60), converges to `3π` times a sum of peaks, one for each order `m`, at `m` times the first rotor frequency in the first dimension
and at the isotropic frequency in the second, with the mean over all orientations of the intensity of sideband `m` at the first
rotor frequency times that of the centre band at the second.  Neither position depends on the orientation, the first not on the shift.
Missing: tilts by negative angles (C73); the tabulated decimals; a decimal approximation of the magic angle; row and column 0; a single
octant (C78). -/
theorem C97_peaks_partial (four : Bool) (B0 θ : ℝ) (ν inc off : ℝ × ℝ) (h0 : 0 < ν.1) (hθ : 3 * Real.cos θ ^ 2 = 1)
    (hi : 0 < inc.1 ∧ 0 < inc.2) (count : ℕ × ℕ) (hfast : count.2 * inc.2 ≤ ν.2)
    (ss : List Site) (ks : List Coupling) (x : List ℕ × List ℕ) (hx : Spec.IsState ss x.1 ∧ Spec.IsState ss x.2)
    (hs : ∀ s ∈ ss, s.Upright ∧ 1 ≤ s.n) (hk : ∀ k ∈ ks, k.Upright ∧ k.A < ss.length ∧ k.X < ss.length) (hh : Spec.HalfOnly ss x)
    (f : ℝ) (hf : f = Spec.isotropic ⟨B0, 1, θ, ν.2⟩ ss ks x) (hin : 0 ≤ off.2 + f / inc.2 ∧ off.2 + f / inc.2 < count.2)
    (junk : ℕ → ℕ → ℕ → ℕ → ℂ) (r col : ℤ) (hr : 1 ≤ r ∧ r < count.1) (hcol : 1 ≤ col ∧ col < count.2) :
    ∃ V : ℕ → ℝ, (∀ n, (∀ nt, 1 ≤ nt → ∃ w, ssbMap WC.exact TC.exact four nt 4 (n + 2) B0 θ ν inc off count ss ks (startRows four (junk n nt) nt) x = .ok w) ∧
        Tendsto (fun nt => Bin.val (r * count.2 + col) (ssbMap WC.exact TC.exact four nt 4 (n + 2) B0 θ ν inc off count ss ks
          (startRows four (junk n nt) nt) x)) atTop (𝓝 (((n + 2 : ℕ) : ℝ) ^ 2 * V n))) ∧
      Tendsto V atTop (𝓝 (3 * Real.pi * ∑ᶠ m : ℤ, Spec.drawn count.1 (off.1 + m * ν.1 / inc.1) r *
        (Spec.drawn count.2 (off.2 + f / inc.2) col * Spec.sphereMean fun p =>
          Spec.sideband ν.1 (Spec.momentary true B0 p.1 p.2 θ ν.1 ss ks x.1 x.2) m *
          Spec.sideband ν.2 (Spec.momentary true B0 p.1 p.2 θ ν.2 ss ks x.1 x.2) 0))) := by
  have hc0 : (0 : ℝ) < count.2 := lt_of_le_of_lt hin.1 hin.2
  have h1 : 0 < ν.2 := lt_of_lt_of_le (mul_pos hc0 hi.2) hfast
  have hpi := Real.pi_pos
  set t := components WC.exact TC.exact four B0 ss ks (Spec.quantum ss x.1) (Spec.quantum ss x.2) with ht
  have htrue : t = components WC.exact TC.exact true B0 ss ks (Spec.quantum ss x.1) (Spec.quantum ss x.2) :=
    half_components _ _ _ _ _ _ _ (fun s h => (hs s h).2) hh
  have h4 : ∀ i, t.R4 i = 0 := by
    rw [htrue]
    exact half_R4 B0 ss ks x (fun s h => (hs s h).2) hx.1 hx.2 hh
  have hR0 : f = t.R0 := by rw [hf, isotropic_eq _ h1 ss ks x hx.1 hx.2 hs hk, htrue]
  rw [hR0] at hin ⊢
  -- the amplitudes
  set amp : ℝ → ℕ → ℤ → ℝ × ℝ → ℝ := fun ν n m => dirAmp WC.exact four (n + 2) ν (Real.cos θ) (Real.sin θ) t (m % ((n + 2 : ℕ) : ℤ)).toNat with hamp
  have hI : ∀ ν, 0 < ν → ∀ m p, Tendsto (fun n : ℕ => amp ν n m p) atTop
      (𝓝 (Spec.sideband ν (Spec.momentary true B0 p.1 p.2 θ ν ss ks x.1 x.2) m)) := by
    intro ν hν m p
    have h := C76_limit_partial true B0 p.1 p.2 θ ν hν ss ks x.1 x.2 hx.1 hx.2 hs hk m
    rw [← htrue] at h
    refine Tendsto.congr ?_ ((tendsto_add_atTop_iff_nat 1).mpr h)
    intro n
    simp only [hamp, dirAmp_residue]
    congr 2
    funext j
    exact (flat_phase WC.exact four _ ν _ _ _ _ _ t h4 _).symm
  -- the peaks
  have hp := fun n nt (hn : 1 ≤ nt) => ssb_peaks four nt 4 (n + 2) hn (Or.inr rfl) (junk n nt) B0 θ ν inc off hθ hi count hfast ss ks x hx t ht h4 hin
  set A : ℕ → ℝ × ℕ → ℝ := fun n s => Spec.drawn count.1 (off.1 + s.1 / inc.1) r * (Spec.drawn count.2 (off.2 + t.R0 / inc.2) col *
      hemisphereMean fun p => dirAmp WC.exact four (n + 2) ν.1 (Real.cos θ) (Real.sin θ) t s.2 p *
        dirAmp WC.exact four (n + 2) ν.2 (Real.cos θ) (Real.sin θ) t 0 p) with hA
  have hmean : ∀ n i, Spec.octantMean 4 (fun p => dirAmp WC.exact four (n + 2) ν.1 (Real.cos θ) (Real.sin θ) t i p *
        dirAmp WC.exact four (n + 2) ν.2 (Real.cos θ) (Real.sin θ) t 0 p)
      = hemisphereMean fun p => dirAmp WC.exact four (n + 2) ν.1 (Real.cos θ) (Real.sin θ) t i p *
        dirAmp WC.exact four (n + 2) ν.2 (Real.cos θ) (Real.sin θ) t 0 p := by
    intro n i
    refine octantMean_four _ ((dirAmp_continuous WC.exact four _ ν.1 _ _ t _).mul (dirAmp_continuous WC.exact four _ ν.2 _ _ t _)).measurable 1 ?_ ?_
    · intro p
      have g1 := dirAmp_bounds WC.exact four (n + 2) ν.1 (Real.cos θ) (Real.sin θ) t i p
      have g2 := dirAmp_bounds WC.exact four (n + 2) ν.2 (Real.cos θ) (Real.sin θ) t 0 p
      rw [abs_mul, abs_of_nonneg g1.1, abs_of_nonneg g2.1]
      exact mul_le_one₀ g1.2 g2.1 g2.2
    · intro p
      simp only [dirAmp_period]
  refine ⟨fun n => 3 * Real.pi * ((Bin.fftOrder ((n + 2 : ℕ) : ℤ) ν.1).zipIdx.map (A n)).sum, fun n => ⟨fun nt hn => ?_, ?_⟩, ?_⟩
  · obtain ⟨w, hw, -⟩ := hp n nt hn
    exact ⟨w, hw⟩
  · have hlen := (Bin.C40_fft_order (n + 2) (by omega) ν.1).1
    beta_reduce
    rw [zipIdx_range (n + 2) _ hlen, Finset.mul_sum, Finset.mul_sum]
    refine Tendsto.congr' (f₁ := fun nt => ∑ i ∈ Finset.range (n + 2),
          Spec.drawn count.1 (off.1 + (Bin.fftOrder ((n + 2 : ℕ) : ℤ) ν.1).getD i 0 / inc.1) r * (Spec.drawn count.2 (off.2 + t.R0 / inc.2) col *
            ∑ j ∈ Finset.range 4, Bin.totalAmplitude nt (fun q =>
                (frames WC.exact four nt 4 (n + 2) θ ν off count (startRows four (junk n nt) nt) t t).1.amp (i * (4 * Bin.nPts nt) + j * Bin.nPts nt + q)
                * (frames WC.exact four nt 4 (n + 2) θ ν off count (startRows four (junk n nt) nt) t t).2.amp (0 * (4 * Bin.nPts nt) + j * Bin.nPts nt + q))))
      ?_ (tendsto_finsetSum _ fun i _ => ?_)
    · filter_upwards [eventually_ge_atTop 1] with nt hn
      obtain ⟨w, hw, hv⟩ := hp n nt hn
      rw [hw]
      exact (hv r col hr.1 hr.2 hcol.1 hcol.2).symm
    · have hsum := tendsto_finsetSum (Finset.range 4) (fun j hj => pair_limit four 4 (n + 2) (Or.inr rfl) (by omega) (junk n) θ ν off count t i 0 j
        (Finset.mem_range.mp hj))
      refine ((hsum.const_mul (Spec.drawn count.2 (off.2 + t.R0 / inc.2) col)).const_mul
        (Spec.drawn count.1 (off.1 + (Bin.fftOrder ((n + 2 : ℕ) : ℤ) ν.1).getD i 0 / inc.1) r)).trans (le_of_eq ?_)
      congr 1
      simp only [hA]
      rw [← hmean, ← Finset.mul_sum, ← Finset.mul_sum]
      unfold Spec.octantMean
      field_simp
      ring
  · have hfin := drawn_finite count.1 off.1 ν.1 inc.1 h0 hi.1 r (fun m => Spec.drawn count.2 (off.2 + t.R0 / inc.2) col * Spec.sphereMean fun p =>
          Spec.sideband ν.1 (Spec.momentary true B0 p.1 p.2 θ ν.1 ss ks x.1 x.2) m *
          Spec.sideband ν.2 (Spec.momentary true B0 p.1 p.2 θ ν.2 ss ks x.1 x.2) 0)
    have hfin1 := drawn_finite count.1 off.1 ν.1 inc.1 h0 hi.1 r (fun _ => 1)
    simp only [mul_one] at hfin1
    refine Tendsto.const_mul _ ?_
    rw [finsum_eq_sum_of_support_subset (s := hfin1.toFinset) _ (by
      intro m hm
      rw [Set.Finite.coe_toFinset]
      rw [Function.mem_support] at hm ⊢
      exact left_ne_zero_of_mul hm)]
    set M := hfin1.toFinset with hMdef
    have hprod : ∀ m, Tendsto (fun n => hemisphereMean fun p => amp ν.1 n m p * amp ν.2 n 0 p) atTop (𝓝 (Spec.sphereMean fun p =>
          Spec.sideband ν.1 (Spec.momentary true B0 p.1 p.2 θ ν.1 ss ks x.1 x.2) m *
          Spec.sideband ν.2 (Spec.momentary true B0 p.1 p.2 θ ν.2 ss ks x.1 x.2) 0)) := by
      intro m
      obtain ⟨a1, a2, a3⟩ := intensity_facts WC.exact four t (Real.cos θ) (Real.sin θ) ν.1 m _ (hI ν.1 h0 m)
      obtain ⟨b1, b2, b3⟩ := intensity_facts WC.exact four t (Real.cos θ) (Real.sin θ) ν.2 0 _ (hI ν.2 h1 0)
      have hsph := hemisphere_sphere (fun p : ℝ × ℝ => Spec.sideband ν.1 (Spec.momentary true B0 p.1 p.2 θ ν.1 ss ks x.1 x.2) m *
          Spec.sideband ν.2 (Spec.momentary true B0 p.1 p.2 θ ν.2 ss ks x.1 x.2) 0) (a1.mul b1) 1 (fun p => by
          rw [abs_mul, abs_of_nonneg (a2 p).1, abs_of_nonneg (b2 p).1]
          exact mul_le_one₀ (a2 p).2 (b2 p).1 (b2 p).2)
        (fun p => by
          have e1 := a3 p
          have e2 := b3 p
          dsimp only at e1 e2 ⊢
          rw [e1, e2])
        (fun p => by
          dsimp only
          rw [(spun_inversion true B0 p.1 p.2 θ ν.1 h0 ss ks x.1 x.2 hx.1 hx.2 hs hk m).2,
            (spun_inversion true B0 p.1 p.2 θ ν.2 h1 ss ks x.1 x.2 hx.1 hx.2 hs hk 0).2])
      rw [← hsph]
      refine hemisphere_limit _ _ (fun n => ((dirAmp_continuous WC.exact four _ ν.1 _ _ t _).mul
        (dirAmp_continuous WC.exact four _ ν.2 _ _ t _)).measurable) ?_ ?_
      · intro n p
        have g1 := dirAmp_bounds WC.exact four (n + 2) ν.1 (Real.cos θ) (Real.sin θ) t (m % ((n + 2 : ℕ) : ℤ)).toNat p
        have g2 := dirAmp_bounds WC.exact four (n + 2) ν.2 (Real.cos θ) (Real.sin θ) t (0 % ((n + 2 : ℕ) : ℤ)).toNat p
        rw [abs_mul, abs_of_nonneg g1.1, abs_of_nonneg g2.1]
        exact mul_le_one₀ g1.2 g2.1 g2.2
      · intro p
        exact (hI ν.1 h0 m p).mul (hI ν.2 h1 0 p)
    have hlim := tendsto_finsetSum M fun m _ => ((hprod m).const_mul (Spec.drawn count.2 (off.2 + t.R0 / inc.2) col)).const_mul
      (Spec.drawn count.1 (off.1 + m * ν.1 / inc.1) r)
    refine Tendsto.congr' ?_ hlim
    filter_upwards [eventually_ge_atTop (2 * ∑ m ∈ M, m.natAbs + 2)] with n hN
    rw [fftOrder_sum (n + 2) (by omega) ν.1 (A n) (fun m => Spec.drawn count.1 (off.1 + m * ν.1 / inc.1) r *
      (Spec.drawn count.2 (off.2 + t.R0 / inc.2) col * hemisphereMean fun p => amp ν.1 n m p * amp ν.2 n 0 p)) M ?_ ?_]
    · intro m hm
      have : m.natAbs ≤ ∑ m ∈ M, m.natAbs := Finset.single_le_sum (f := fun m : ℤ => m.natAbs) (fun _ _ => Nat.zero_le _) hm
      push_cast
      omega
    · intro m i hmi
      simp only [hA]
      by_cases hmM : m ∈ M
      · rw [if_pos hmM]
        simp only [hamp, hmi, Int.toNat_natCast, Int.zero_emod, Int.toNat_zero]
      · rw [if_neg hmM]
        have : Spec.drawn count.1 (off.1 + m * ν.1 / inc.1) r = 0 := by
          by_contra hne
          exact hmM (by rw [hMdef, Set.Finite.mem_toFinset, Function.mem_support]; exact hne)
        rw [this, zero_mul]

/-- **C97.** A site of spin 1/2 has one pathway in the method: its transition in either dimension, in the order of the array. -/
theorem C97_pathway (so : Trans.SetOrder) (c : String) (s : Site) (hs : s.n = 1) :
    ∃ path : List Trans.Tr, Trans.transitionPathways so [⟨c, s.n⟩] [c] Trans.ssb2d = .ok [path] ∧
      packQ path = pack [s] [([1], [0]), ([1], [0])] := by
  refine ⟨[([1 / 2], [-1 / 2]), ([1 / 2], [-1 / 2])], ?_, ?_⟩
  · obtain ⟨paths, h1, h2, h3⟩ := Trans.C85_ssb2d so [⟨c, s.n⟩] c (by simp)
    have hT : Trans.Spec.IsTransition [⟨c, s.n⟩] (([1 / 2], [-1 / 2]) : Trans.Tr) := by
      rw [hs]
      refine ⟨.cons ?_ .nil, .cons ?_ .nil⟩
      · exact Trans.half_allowed c 1 1 rfl rfl (by omega) _ (by norm_num)
      · exact Trans.half_allowed c 1 1 rfl rfl (by omega) _ (by norm_num)
    have hM : Trans.Spec.Moves [⟨c, s.n⟩] c 1 (-1) (some [1 / 2]) (([1 / 2], [-1 / 2]) : Trans.Tr) := by
      refine ⟨{0}, rfl, by simp, ?_, ?_⟩
      · intro k hk
        have : k = 0 := by simpa using hk
        subst this
        norm_num
      · intro l hl k hk
        rw [Finset.mem_singleton] at hk
        subst hk
        injection hl with hl
        subst hl
        exact ⟨1 / 2, by simp, rfl⟩
    have hone : ∀ t : Trans.Tr, Trans.Spec.IsTransition [⟨c, s.n⟩] t → Trans.Spec.Moves [⟨c, s.n⟩] c 1 (-1) (some [1 / 2]) t →
        t = ([1 / 2], [-1 / 2]) := by
      rintro ⟨t1, t2⟩ ⟨ht1, ht2⟩ ⟨K, k1, k2, k3, k4⟩
      obtain ⟨m, rfl⟩ : ∃ m, t1 = [m] := List.length_eq_one_iff.mp (by simpa using Trans.state_length ht1)
      obtain ⟨m', rfl⟩ : ∃ m, t2 = [m] := List.length_eq_one_iff.mp (by simpa using Trans.state_length ht2)
      obtain ⟨k, rfl⟩ := Finset.card_eq_one.mp k1
      have hk := k2 k (by simp)
      have hk0 : k = 0 := by
        rcases k with - | k
        · rfl
        · simp at hk
      subst hk0
      obtain ⟨z, hz, e⟩ := k4 _ rfl 0 (by simp)
      rw [List.mem_singleton] at hz
      subst hz
      have e2 := k3 0 (by simp)
      simp only [List.getElem?_cons_zero, Option.some.injEq] at e
      subst e
      norm_num at e2
      rw [e2]
      norm_num
    have hmem : ∀ p, p ∈ paths ↔ p = [([1 / 2], [-1 / 2]), ([1 / 2], [-1 / 2])] := by
      intro p
      rw [h3]
      constructor
      · intro h
        cases h with
        | cons a h =>
          cases h with
          | cons b h =>
            cases h
            rw [hone _ a.1 a.2, hone _ b.1 b.2]
      · rintro rfl
        exact .cons ⟨hT, hM⟩ (.cons ⟨hT, hM⟩ .nil)
    rw [h1]
    congr 1
    refine List.perm_singleton.mp ((List.perm_ext_iff_of_nodup h2 (List.nodup_singleton _)).mpr ?_)
    intro p
    rw [hmem, List.mem_singleton]
  · unfold packQ pack
    simp only [List.flatMap_cons, List.flatMap_nil, List.append_nil, Spec.quantum, List.zipWith_cons_cons, List.zipWith_nil_right, hs]
    norm_num

/-! ## Fast spinning in the second dimension -/

theorem momentary_scale (second : Bool) (B0 α β θ νr : ℝ) (ss : List Site) (ks : List Coupling) (xi xf : List ℕ) (τ : ℝ) :
    Spec.momentary second B0 α β θ νr ss ks xi xf τ = Spec.momentary second B0 α β θ 1 ss ks xi xf (νr * τ) := by
  unfold Spec.momentary Spec.spun
  rw [mul_one, mul_assoc (2 * Real.pi)]

theorem average_scale (νr : ℝ) (hν : 0 < νr) (g : ℝ → ℝ) : Spec.average νr (fun τ => g (νr * τ)) = Spec.average 1 g := by
  unfold Spec.average
  rw [intervalIntegral.mul_integral_comp_mul_left, mul_zero, mul_one_div_cancel hν.ne', one_mul, div_one]

/-- The centre band of a frequency that strays from its mean by at most `B`. -/
theorem centre_close (νr : ℝ) (hν : 0 < νr) (f : ℝ → ℝ) (hf : Continuous f) (B : ℝ) (hB : ∀ τ, |f τ - Spec.average νr f| ≤ B) :
    ‖(νr : ℂ) * (∫ t in (0 : ℝ)..(1 / νr), exp (((Spec.gathered νr f t - 2 * Real.pi * (0 : ℤ) * νr * t : ℝ) : ℂ) * I)) - 1‖
      ≤ 2 * Real.pi * B / νr := by
  have hpi := Real.pi_pos
  have hB0 : 0 ≤ B := (abs_nonneg _).trans (hB 0)
  have hT : 0 < 1 / νr := by positivity
  have hg : Continuous (Spec.gathered νr f) := by
    unfold Spec.gathered
    exact continuous_const.mul (intervalIntegral.continuous_primitive (fun a b => (hf.sub continuous_const).intervalIntegrable a b) 0)
  have hgb : ∀ t ∈ Set.uIoc (0 : ℝ) (1 / νr), |Spec.gathered νr f t| ≤ 2 * Real.pi * B / νr := by
    intro t ht
    rw [Set.uIoc_of_le hT.le] at ht
    have h := intervalIntegral.norm_integral_le_of_norm_le_const (a := 0) (b := t) (C := B) (f := fun τ => f τ - Spec.average νr f)
      (fun τ _ => hB τ)
    rw [Real.norm_eq_abs, sub_zero, abs_of_pos ht.1] at h
    unfold Spec.gathered
    rw [abs_mul, abs_of_pos (by positivity : 0 < 2 * Real.pi)]
    have h2 : B * t ≤ B * (1 / νr) := mul_le_mul_of_nonneg_left ht.2 hB0
    calc 2 * Real.pi * |∫ τ in (0 : ℝ)..t, (f τ - Spec.average νr f)| ≤ 2 * Real.pi * (B * (1 / νr)) :=
          mul_le_mul_of_nonneg_left (h.trans h2) (by positivity)
      _ = 2 * Real.pi * B / νr := by ring
  have hone : (1 : ℂ) = (νr : ℂ) * ∫ t in (0 : ℝ)..(1 / νr), (1 : ℂ) := by
    rw [intervalIntegral.integral_const, sub_zero, Complex.real_smul, mul_one, ← Complex.ofReal_mul, mul_one_div_cancel hν.ne',
      Complex.ofReal_one]
  have hce : Continuous fun t => exp (((Spec.gathered νr f t - 2 * Real.pi * (0 : ℤ) * νr * t : ℝ) : ℂ) * I) := by fun_prop
  conv_lhs => rw [hone]
  rw [← mul_sub, ← intervalIntegral.integral_sub (hce.intervalIntegrable _ _) (by simp), norm_mul, Complex.norm_real, Real.norm_eq_abs, abs_of_pos hν]
  have h := intervalIntegral.norm_integral_le_of_norm_le_const (a := 0) (b := 1 / νr) (C := 2 * Real.pi * B / νr)
    (f := fun t => exp (((Spec.gathered νr f t - 2 * Real.pi * (0 : ℤ) * νr * t : ℝ) : ℂ) * I) - 1) (fun t ht => by
      refine le_trans ?_ (hgb t ht)
      rw [mul_comm _ I]
      refine Real.norm_exp_I_mul_ofReal_sub_one_le.trans (le_of_eq ?_)
      simp)
  rw [sub_zero, abs_of_pos hT] at h
  calc νr * ‖∫ t in (0 : ℝ)..(1 / νr), (exp (((Spec.gathered νr f t - 2 * Real.pi * (0 : ℤ) * νr * t : ℝ) : ℂ) * I) - 1)‖
      ≤ νr * (2 * Real.pi * B / νr * (1 / νr)) := mul_le_mul_of_nonneg_left h hν.le
    _ = 2 * Real.pi * B / νr := by field_simp

/-- **C97 (fast spinning).** As the second rotor frequency grows the centre band takes the whole intensity of every orientation ... -/
theorem C97_fast (B0 α β θ : ℝ) (ss : List Site) (ks : List Coupling) (xi xf : List ℕ)
    (hi : Spec.IsState ss xi) (hf : Spec.IsState ss xf) (hs : ∀ s ∈ ss, s.Upright ∧ 1 ≤ s.n)
    (hk : ∀ k ∈ ks, k.Upright ∧ k.A < ss.length ∧ k.X < ss.length) :
    Tendsto (fun νr => Spec.sideband νr (Spec.momentary true B0 α β θ νr ss ks xi xf) 0) atTop (𝓝 1) := by
  obtain ⟨B, hB⟩ := momentary_bounded true B0 α β θ 1 one_pos ss ks xi xf hi hf hs hk
  have key : Tendsto (fun νr : ℝ => (νr : ℂ) * ∫ t in (0 : ℝ)..(1 / νr), exp (((Spec.gathered νr
      (Spec.momentary true B0 α β θ νr ss ks xi xf) t - 2 * Real.pi * (0 : ℤ) * νr * t : ℝ) : ℂ) * I)) atTop (𝓝 1) := by
    rw [tendsto_iff_norm_sub_tendsto_zero]
    have hlim : Tendsto (fun νr : ℝ => 2 * Real.pi * B / νr) atTop (𝓝 0) := tendsto_const_nhds.div_atTop tendsto_id
    refine squeeze_zero' (Eventually.of_forall fun _ => norm_nonneg _) ?_ hlim
    filter_upwards [eventually_gt_atTop 0] with νr hν
    refine centre_close νr hν _ (momentary_facts true B0 α β θ νr hν ss ks xi xf hi hf hs hk).1 B (fun τ => ?_)
    have e : Spec.momentary true B0 α β θ νr ss ks xi xf = fun τ => Spec.momentary true B0 α β θ 1 ss ks xi xf (νr * τ) :=
      funext (momentary_scale true B0 α β θ νr ss ks xi xf)
    rw [e, average_scale νr hν]
    exact hB _
  have h := (key.norm).pow 2
  rw [norm_one, one_pow] at h
  exact h

/-- **C97 (fast spinning).** ... so that the peaks of `C97_peaks_partial` take the intensities of the sidebands of the first rotor frequency alone. -/
theorem C97_fast_mean (B0 θ ν : ℝ) (hν : 0 < ν) (ss : List Site) (ks : List Coupling) (xi xf : List ℕ)
    (hi : Spec.IsState ss xi) (hf : Spec.IsState ss xf) (hs : ∀ s ∈ ss, s.Upright ∧ 1 ≤ s.n)
    (hk : ∀ k ∈ ks, k.Upright ∧ k.A < ss.length ∧ k.X < ss.length) (m : ℤ) :
    Tendsto (fun νr => Spec.sphereMean fun p => Spec.sideband ν (Spec.momentary true B0 p.1 p.2 θ ν ss ks xi xf) m *
        Spec.sideband νr (Spec.momentary true B0 p.1 p.2 θ νr ss ks xi xf) 0) atTop
      (𝓝 (Spec.sphereMean fun p => Spec.sideband ν (Spec.momentary true B0 p.1 p.2 θ ν ss ks xi xf) m)) := by
  have facts : ∀ (νr : ℝ), 0 < νr → ∀ m, Measurable (fun p : ℝ × ℝ => Spec.sideband νr (Spec.momentary true B0 p.1 p.2 θ νr ss ks xi xf) m) ∧
      ∀ p : ℝ × ℝ, 0 ≤ Spec.sideband νr (Spec.momentary true B0 p.1 p.2 θ νr ss ks xi xf) m ∧
        Spec.sideband νr (Spec.momentary true B0 p.1 p.2 θ νr ss ks xi xf) m ≤ 1 := by
    intro νr hνr m
    obtain ⟨a1, a2, -⟩ := intensity_facts WC.exact true
      (components WC.exact TC.exact true B0 ss ks (Spec.quantum ss xi) (Spec.quantum ss xf)) (Real.cos θ) (Real.sin θ) νr m
      (fun p => Spec.sideband νr (Spec.momentary true B0 p.1 p.2 θ νr ss ks xi xf) m) (fun p => by
        simp only [dirAmp_residue]
        exact (tendsto_add_atTop_iff_nat 1).mpr (C76_limit_partial true B0 p.1 p.2 θ νr hνr ss ks xi xf hi hf hs hk m))
    exact ⟨a1, a2⟩
  unfold Spec.sphereMean
  refine Tendsto.const_mul _ (tendsto_integral_filter_of_dominated_convergence (fun _ => 1) ?_ ?_ ?_ ?_)
  · filter_upwards [eventually_gt_atTop 0] with νr hνr
    exact ((Real.measurable_sin.comp measurable_snd).mul ((facts ν hν m).1.mul (facts νr hνr 0).1)).aestronglyMeasurable
  · filter_upwards [eventually_gt_atTop 0] with νr hνr
    refine Eventually.of_forall fun p => ?_
    have g1 := (facts ν hν m).2 p
    have g2 := (facts νr hνr 0).2 p
    rw [Real.norm_eq_abs, abs_mul, abs_mul, abs_of_nonneg g1.1, abs_of_nonneg g2.1]
    exact mul_le_one₀ (Real.abs_sin_le_one _) (mul_nonneg g1.1 g2.1) (mul_le_one₀ g1.2 g2.1 g2.2)
  · refine integrableOn_const ?_
    rw [Measure.volume_eq_prod, Measure.prod_prod, Real.volume_Ioo, Real.volume_Ioo]
    exact ENNReal.mul_ne_top ENNReal.ofReal_ne_top ENNReal.ofReal_ne_top
  · refine Eventually.of_forall fun p => ?_
    have h := ((C97_fast B0 p.1 p.2 θ ss ks xi xf hi hf hs hk).const_mul
      (Spec.sideband ν (Spec.momentary true B0 p.1 p.2 θ ν ss ks xi xf) m)).const_mul (Real.sin p.2)
    rw [mul_one] at h
    exact h

/-- The transition of a proton next to an aluminium, coupled to it: 32 sidebands 1.5 kHz apart, the second dimension spun a thousand times as fast. -/
example (junk : ℕ → ℕ → ℕ → ℕ → ℂ) (off : ℝ) (f : ℝ) (hf : f = Spec.isotropic ⟨9.4, 1, Real.arccos (1 / √3), 1500000⟩ exampleSites [exampleCoupling] ([1, 2], [0, 2]))
    (h0 : 0 ≤ off + f / 100) (h1 : off + f / 100 < 64) (r col : ℤ) (hr : 1 ≤ r ∧ r < 32) (hc : 1 ≤ col ∧ col < 64) :
    ∃ V : ℕ → ℝ, (∀ n, Tendsto (fun nt => Bin.val (r * 64 + col) (ssbMap WC.exact TC.exact true nt 4 (n + 2) 9.4 (Real.arccos (1 / √3))
          (1500, 1500000) (1500, 100) (16, off) (32, 64) exampleSites [exampleCoupling] (startRows true (junk n nt) nt) ([1, 2], [0, 2])))
          atTop (𝓝 (((n + 2 : ℕ) : ℝ) ^ 2 * V n))) ∧
      Tendsto V atTop (𝓝 (3 * Real.pi * ∑ᶠ m : ℤ, Spec.drawn 32 (16 + m * 1500 / 1500) r *
        (Spec.drawn 64 (off + f / 100) col * Spec.sphereMean fun p =>
          Spec.sideband 1500 (Spec.momentary true 9.4 p.1 p.2 (Real.arccos (1 / √3)) 1500 exampleSites [exampleCoupling] [1, 2] [0, 2]) m *
          Spec.sideband 1500000 (Spec.momentary true 9.4 p.1 p.2 (Real.arccos (1 / √3)) 1500000 exampleSites [exampleCoupling] [1, 2] [0, 2]) 0))) := by
  obtain ⟨V, h', h⟩ := C97_peaks_partial true 9.4 (Real.arccos (1 / √3)) (1500, 1500000) (1500, 100) (16, off) (by norm_num)
    (by
      have h : (1 : ℝ) ≤ √3 := by rw [Real.one_le_sqrt]; norm_num
      rw [Real.cos_arccos (by have : (0 : ℝ) ≤ 1 / √3 := by positivity
                              linarith) (by rw [div_le_one (by positivity)]; exact h), div_pow, one_pow,
        Real.sq_sqrt (by norm_num)]
      norm_num) (by norm_num) (32, 64) (by norm_num) exampleSites [exampleCoupling] ([1, 2], [0, 2])
    (by unfold Spec.IsState exampleSites; simp)
    (by
      unfold exampleSites Site.Upright
      intro s hs
      simp only [List.mem_cons, List.not_mem_nil, or_false] at hs
      rcases hs with rfl | rfl <;> norm_num)
    (by
      unfold exampleSites exampleCoupling Coupling.Upright
      intro k hk
      simp only [List.mem_cons, List.not_mem_nil, or_false] at hk
      subst hk
      norm_num)
    (by
      intro k s hk hn
      unfold exampleSites at hk
      match k, hk with
      | 0, hk =>
        simp only [List.getElem?_cons_zero, Option.some.injEq] at hk
        subst hk
        norm_num at hn
      | 1, _ => rfl
      | k + 2, hk => simp at hk) f hf ⟨h0, h1⟩ junk r col hr hc
  exact ⟨V, fun n => (h' n).2, h⟩

end MRS.Freq
