import Verif.Freq.Octants
import Verif.Freq.Sidebands
import Verif.Bin.Mirror
import Verif.Bin.Weights

/-!
# One octant or a hemisphere — property C78

The configuration offers the average over an octant, which takes a quarter of the time of that over a hemisphere.
Both must give the same spectrum when the principal axes of all interactions are those of the common frame, since the
frequencies are then the same in all octants.
-/

namespace MRS.Freq

open Complex ComplexConjugate

/-- mrsimulator.c:79-87, 285-350 and frequency_averaging.c:37-56: `freq_amplitude` when `__1D_averaging` reads it, sideband after
sideband with `nOct * npts` orientations each.  With a single sideband it is the copied weights. -/
noncomputable def amplitudeArray (W : WC) (four : Bool) (nt nOct N : ℕ) [NeZero N] (νr cθ sθ : ℝ) (bs : List Block)
    (a : ℕ) : ℝ :=
  let npts := Bin.nPts nt
  let total := nOct * npts
  let norm := Sim.normAmplitude N nOct (Bin.weight nt (a % npts))
  if N = 1 then norm
  else match bs[a % total / npts]? with
    | none => 0
    | some b => Sim.sidebandAmps (fun k : ZMod N => sidebandPhase W four N νr cθ sθ (b.w2 (a % npts)) (b.w4 (a % npts)) k.val)
        ((a / total : ℕ) : ZMod N) * norm

/-- simulation.c:103-151 for a method with one dimension and one event (`fraction = 1`) and one transition pathway of
weight one: what is added to the bins of the spectrum.  `inv`, `off`, `count` are `inverse_increment`,
`normalize_offset` and `count` of the dimension, `P` the phases of the scheme. -/
noncomputable def spectrum (W : WC) (four : Bool) (nt nOct N : ℕ) [NeZero N] (νr cθ sθ inv off : ℝ) (count : ℤ)
    (P : ℕ → ℕ → ℂ) (t : Tens) : Py (Bin.Writes ℝ) :=
  let bs := (batch W four nOct (fun q => (gridBeta nt q).1) (fun q => (gridBeta nt q).2) t.R2 t.R4 nOct P).1
  Bin.averaging1D nt nOct (Bin.fftOrder N νr) inv off (t.R0 * inv)
    (fun a => inv * frequencyArray W four (Bin.nPts nt) cθ sθ bs a) (amplitudeArray W four nt nOct N νr cθ sθ bs) count

/-! ## Specification -/

/-- The principal axes of all interactions are the axes of the common frame. -/
def Spec.Unturned (ss : List Site) (ks : List Coupling) : Prop :=
  (∀ s ∈ ss, s.Θs = ⟨0, 0, 0⟩ ∧ s.Θq = ⟨0, 0, 0⟩) ∧ ∀ k ∈ ks, k.Θj = ⟨0, 0, 0⟩ ∧ k.Θd = ⟨0, 0, 0⟩

/-! ## Components of aligned tensors -/

/-- Real components, those with odd `m` zero. -/
def Even (R : ℕ → ℂ) : Prop := (∀ j, conj (R j) = R j) ∧ ∀ j, j % 2 = 1 → R j = 0

theorem Even.zero : Even (fun _ => 0) := ⟨fun _ => map_zero _, fun _ _ => rfl⟩

theorem Even.add {R S : ℕ → ℂ} (h : Even R) (h' : Even S) : Even (fun i => R i + S i) :=
  ⟨fun j => by rw [map_add, h.1, h'.1], fun j hj => by simp only [h.2 j hj, h'.2 j hj, add_zero]⟩

theorem Even.smul (x : ℝ) {R : ℕ → ℂ} (h : Even R) : Even (fun i => x * R i) :=
  ⟨fun j => by rw [map_mul, h.1, Complex.conj_ofReal], fun j hj => by simp only [h.2 j hj, mul_zero]⟩

theorem Even.pas2 (a b : ℝ) : Even (pas2 a b) := by
  constructor
  · intro j
    unfold Freq.pas2
    split <;> simp
  · intro j hj
    unfold Freq.pas2
    split <;> first | rfl | omega

theorem Even.pas4 (a b c : ℝ) : Even (pas4 a b c) := by
  constructor
  · intro j
    unfold Freq.pas4
    split <;> simp
  · intro j hj
    unfold Freq.pas4
    split <;> first | rfl | omega

theorem toFrame_zero (W : WC) (l : ℕ) (R : ℕ → ℂ) : toFrame W l ⟨0, 0, 0⟩ R = R := by
  unfold toFrame
  rw [if_pos ⟨rfl, rfl, rfl⟩]

/-- Both ranks. -/
def Tens.Even (t : Tens) : Prop := Freq.Even t.R2 ∧ Freq.Even t.R4

theorem Tens.Even.add {s t : Tens} (hs : s.Even) (ht : t.Even) : (addT s t).Even :=
  ⟨Freq.Even.add hs.1 ht.1, Freq.Even.add hs.2 ht.2⟩

theorem Tens.Even.zero : zeroT.Even := ⟨Freq.Even.zero, Freq.Even.zero⟩

theorem Tens.Even.fcf (x : ℝ) {t : Tens} (ht : t.Even) : (fcf x t).Even := by
  unfold Freq.fcf
  split_ifs
  · exact Tens.Even.zero
  · exact ⟨Freq.Even.smul x ht.1, Freq.Even.smul x ht.2⟩

theorem Tens.Even.pas (W : WC) (r a b : ℝ) : (⟨r, toFrame W 2 ⟨0, 0, 0⟩ (pas2 a b), fun _ => 0⟩ : Tens).Even := by
  rw [toFrame_zero]
  exact ⟨Freq.Even.pas2 a b, Freq.Even.zero⟩

theorem addSites_even (W : WC) (T : TC) (four : Bool) (B0 : ℝ) (ss : List Site)
    (h : ∀ s ∈ ss, s.Θs = ⟨0, 0, 0⟩ ∧ s.Θq = ⟨0, 0, 0⟩) (mi mf : List ℝ) (t : Tens) (ht : t.Even) :
    (addSites W T four B0 t ss mi mf).Even := by
  induction ss generalizing mi mf t with
  | nil =>
    unfold addSites
    exact ht
  | cons s ss ih =>
    cases mi with
    | nil =>
      unfold addSites
      exact ht
    | cons a mi =>
      cases mf with
      | nil =>
        unfold addSites
        exact ht
      | cons b mf =>
        unfold addSites
        apply ih (fun s hs => h s (List.mem_cons_of_mem _ hs))
        obtain ⟨e1, e2⟩ := h s List.mem_cons_self
        have h1 : (shieldingPart W T B0 s b a).Even := by
          unfold shieldingPart ssotShielding
          rw [e1]
          exact Tens.Even.fcf _ (Tens.Even.pas W _ _ _)
        have h2 : (quad1Part W T s b a).Even := by
          unfold quad1Part ssotQuad1
          rw [e2]
          exact Tens.Even.fcf _ (Tens.Even.pas W _ _ _)
        have h3 : (quad2Part W T B0 s b a).Even := by
          unfold quad2Part ssotQuad2
          rw [e2]
          simp only [toFrame_zero]
          exact ⟨Freq.Even.smul _ (Freq.Even.pas2 _ _), Freq.Even.smul _ (Freq.Even.pas4 _ _ _)⟩
        unfold addSite
        split_ifs
        · exact ht
        · exact Tens.Even.add ht h1
        · exact Tens.Even.add (Tens.Even.add (Tens.Even.add ht h1) h2) h3
        · exact Tens.Even.add (Tens.Even.add ht h1) h2

theorem components_even (W : WC) (T : TC) (four : Bool) (B0 : ℝ) (ss : List Site) (ks : List Coupling)
    (h : Spec.Unturned ss ks) (mi mf : List ℝ) : (components W T four B0 ss ks mi mf).Even := by
  unfold components
  have h0 := addSites_even W T four B0 ss h.1 mi mf zeroT Tens.Even.zero
  have hk := h.2
  clear h
  generalize addSites W T four B0 zeroT ss mi mf = t at h0
  induction ks generalizing t with
  | nil => exact h0
  | cons k ks ih =>
    simp only [List.foldl_cons]
    obtain ⟨e1, e2⟩ := hk k List.mem_cons_self
    refine ih (fun k hk' => hk k (List.mem_cons_of_mem _ hk')) _ ?_
    refine Tens.Even.add (Tens.Even.add h0 ?_) ?_
    · unfold jPart ssotJ
      rw [e1]
      exact Tens.Even.fcf _ (Tens.Even.pas W _ _ _)
    · unfold dipolarPart ssotDipolar
      rw [e2]
      exact Tens.Even.fcf _ (Tens.Even.pas W _ _ _)

theorem halfRotation_conj (W : WC) (l : ℕ) (c s : ℝ) (e : ℂ) (R : ℕ → ℂ) (h : Even R) (i : ℕ) :
    halfRotation W l c s (conj e) R i = conj (halfRotation W l c s e R i) := by
  unfold halfRotation
  rw [map_sum]
  refine Finset.sum_congr rfl (fun j _ => ?_)
  rw [map_mul, Complex.conj_ofReal]
  congr 1
  unfold phasedHalf
  split_ifs
  · rw [map_mul, h.1, map_pow]
  · simp only [map_mul, map_pow, h.1, map_neg, map_one]

theorem halfRotation_neg (W : WC) (l : ℕ) (hl : l % 2 = 0) (c s : ℝ) (e : ℂ) (R : ℕ → ℂ) (h : Even R) (i : ℕ) :
    halfRotation W l c s (-e) R i = halfRotation W l c s e R i := by
  unfold halfRotation
  refine Finset.sum_congr rfl (fun j hj => ?_)
  have hj := Finset.mem_range.mp hj
  congr 1
  unfold phasedHalf
  by_cases h1 : j ≤ l
  · rw [if_pos h1, if_pos h1]
    rcases Nat.mod_two_eq_zero_or_one j with h2 | h2
    · rw [Even.neg_pow (Nat.even_iff.mpr (by omega))]
    · rw [h.2 j h2, zero_mul, zero_mul]
  · rw [if_neg h1, if_neg h1]
    rcases Nat.mod_two_eq_zero_or_one j with h2 | h2
    · rw [Even.neg_pow (n := j - l) (Nat.even_iff.mpr (by omega)) e]
    · rw [h.2 (2 * l - j) (by omega), zero_mul, zero_mul]

/-! ## Sidebands of the mirror image -/

theorem prePhase_conj (N : ℕ) [NeZero N] (νr : ℝ) (i : ℕ) (k : ZMod N) :
    prePhase N νr i (-k).val = conj (prePhase N νr i k.val) := by
  have hN : (N : ℝ) ≠ 0 := Nat.cast_ne_zero.mpr (NeZero.ne N)
  by_cases hk : k = 0
  · subst hk
    simp [prePhase, Complex.ext_iff]
  · have hv : ((-k).val : ℝ) = N - k.val := by
      have : NeZero k := ⟨hk⟩
      rw [ZMod.val_neg_of_ne_zero, Nat.cast_sub (ZMod.val_lt k).le]
    by_cases hν : νr = 0
    · subst hν
      simp [prePhase, Complex.ext_iff]
    · have hx : ((N : ℝ) - k.val) * (((i : ℝ) - 4) * (νr * (2 * Real.pi)) * (1 / (N * νr)))
          = ((i : ℤ) - 4 : ℤ) * (2 * Real.pi) - k.val * (((i : ℝ) - 4) * (νr * (2 * Real.pi)) * (1 / (N * νr))) := by
        push_cast
        field_simp
      unfold prePhase
      simp only [hv, hx, Real.cos_int_mul_two_pi_sub, Real.sin_int_mul_two_pi_sub]
      apply Complex.ext
      · rfl
      · simp

theorem sidebandPhase_conj (W : WC) (four : Bool) (N : ℕ) [NeZero N] (νr cθ sθ : ℝ) (w2 w4 : ℕ → ℂ) (k : ZMod N) :
    sidebandPhase W four N νr cθ sθ (fun i => conj (w2 i)) (fun i => conj (w4 i)) k.val
      = -sidebandPhase W four N νr cθ sθ w2 w4 (-k).val := by
  unfold sidebandPhase
  rw [← Complex.conj_im]
  congr 1
  rw [map_add, map_sum]
  congr 1
  · refine Finset.sum_congr rfl (fun i _ => ?_)
    rw [map_mul, map_mul, Complex.conj_ofReal, prePhase_conj, Complex.conj_conj]
  · cases four
    · simp
    · simp only [if_true, map_sum]
      refine Finset.sum_congr rfl (fun i _ => ?_)
      rw [map_mul, map_mul, Complex.conj_ofReal, prePhase_conj, Complex.conj_conj]

/-- A signal and its conjugate run backwards have the same sidebands. -/
theorem sidebandAmps_back (N : ℕ) [NeZero N] (φ : ZMod N → ℝ) :
    Sim.sidebandAmps (fun k => -φ (-k)) = Sim.sidebandAmps φ := by
  funext m
  have h : Sim.fft (fun j : ZMod N => exp (I * ((-φ (-j) : ℝ) : ℂ))) m
      = conj (Sim.fft (fun j : ZMod N => exp (I * (φ j : ℂ))) m) := by
    rw [Sim.fft_eq, Sim.fft_eq, Sim.conj_dft, ZMod.dft_apply, ZMod.dft_apply, ← Equiv.sum_comp (Equiv.neg (ZMod N))]
    refine Finset.sum_congr rfl (fun j _ => ?_)
    simp only [Equiv.neg_apply, neg_neg]
    rw [← Complex.exp_conj, map_mul, Complex.conj_I, Complex.conj_ofReal]
    congr 2
    · ring
    · push_cast
      ring
  unfold Sim.sidebandAmps
  simp only
  rw [h, Complex.conj_re, Complex.conj_im]
  ring

/-! ## The grid -/

theorem mirror_le (nt : ℕ) (p : ℕ × ℕ) (hp : p.1 + p.2 ≤ nt) : (Bin.mirror nt p).1 + (Bin.mirror nt p).2 ≤ nt := by
  unfold Bin.mirror
  dsimp only
  omega

theorem folded_le (nt j : ℕ) (p : ℕ × ℕ) (hp : p.1 + p.2 ≤ nt) : (Bin.folded nt j p).1 + (Bin.folded nt j p).2 ≤ nt := by
  unfold Bin.folded
  split_ifs
  · exact hp
  · exact mirror_le nt p hp

theorem rank_lt (nt : ℕ) (p : ℕ × ℕ) (hp : p.1 + p.2 ≤ nt) : Bin.rank nt p < Bin.nPts nt := by
  have := (List.getElem?_eq_some_iff.mp (Bin.grid_get nt p.1 p.2 hp)).1
  rw [Bin.grid_length] at this
  exact this

theorem directions_rank (nt : ℕ) (hn : 1 ≤ nt) (p : ℕ × ℕ) (hp : p.1 + p.2 ≤ nt) :
    (Bin.directions nt)[Bin.rank nt p]? = some (Bin.entry nt p) := by
  rw [Bin.directions_eq nt hn, List.getElem?_map, Bin.grid_get nt p.1 p.2 hp]
  rfl

theorem entry_mirror (nt : ℕ) (p : ℕ × ℕ) (hp : p.1 + p.2 ≤ nt) :
    Bin.entry nt (Bin.mirror nt p) = ((Bin.entry nt p).2.1, (Bin.entry nt p).1, (Bin.entry nt p).2.2) := by
  have e1 : nt - (nt - p.1 - p.2) - p.1 = p.2 := by omega
  have e2 : nt - p.1 - p.2 = nt - p.2 - p.1 := by omega
  unfold Bin.entry Bin.mirror
  simp only [e1]
  rw [e2, add_comm ((p.2 : ℝ) ^ 2) _]

theorem weight_mirror (nt : ℕ) (hn : 1 ≤ nt) (p : ℕ × ℕ) (hp : p.1 + p.2 ≤ nt) :
    Bin.weight nt (Bin.rank nt (Bin.mirror nt p)) = Bin.weight nt (Bin.rank nt p) := by
  unfold Bin.weight
  rw [directions_rank nt hn _ (mirror_le nt p hp), directions_rank nt hn p hp, entry_mirror nt p hp]

theorem gridBeta_mirror (nt : ℕ) (hn : 1 ≤ nt) (p : ℕ × ℕ) (hp : p.1 + p.2 ≤ nt) :
    gridBeta nt (Bin.rank nt (Bin.mirror nt p)) = gridBeta nt (Bin.rank nt p) := by
  unfold gridBeta Bin.expIBeta
  rw [List.getElem?_map, List.getElem?_map, directions_rank nt hn _ (mirror_le nt p hp), directions_rank nt hn p hp,
    entry_mirror nt p hp]
  simp only [Option.map_some, Option.getD_some]
  rw [add_comm]

/-- The azimuth of a grid point; none at the pole. -/
theorem gridAlpha_eq (nt : ℕ) (hn : 1 ≤ nt) (p : ℕ × ℕ) (hp : p.1 + p.2 ≤ nt) :
    gridAlpha nt (Bin.rank nt p) = if p.1 < nt then
      ⟨Real.sqrt (Bin.entry nt p).1 / Real.sqrt ((Bin.entry nt p).1 + (Bin.entry nt p).2.1),
        Real.sqrt (Bin.entry nt p).2.1 / Real.sqrt ((Bin.entry nt p).1 + (Bin.entry nt p).2.1)⟩ else 0 := by
  have hlen : (Bin.directions nt).length = Bin.nPts nt := by
    rw [Bin.directions_eq nt hn, List.length_map, Bin.grid_length]
  have hr := rank_lt nt p hp
  unfold gridAlpha Bin.expIAlpha
  split_ifs with h
  · have hlt : Bin.rank nt p < Bin.nPts nt - 1 := by
      have h1 := Bin.start_mono nt (r := p.1 + 1) (s := nt) (by omega)
      rw [Bin.start_last] at h1
      unfold Bin.rank
      rw [Bin.start] at h1
      omega
    rw [List.getElem?_append_left (by simp [hlen]; omega), List.getElem?_map, List.getElem?_dropLast,
      if_pos (by rw [hlen]; exact hlt), directions_rank nt hn p hp]
    rfl
  · have e : p = (nt, 0) := Prod.ext (by omega) (by dsimp only; omega)
    subst e
    have : Bin.rank nt (nt, 0) = Bin.nPts nt - 1 := by
      unfold Bin.rank
      dsimp only
      rw [Bin.start_last]
      omega
    rw [this, List.getElem?_append_right (by simp [hlen])]
    simp [hlen, Complex.ext_iff]

theorem gridAlpha_mirror (nt : ℕ) (hn : 1 ≤ nt) (p : ℕ × ℕ) (hp : p.1 + p.2 ≤ nt) :
    gridAlpha nt (Bin.rank nt p) * -I = conj (gridAlpha nt (Bin.rank nt (Bin.mirror nt p))) := by
  rw [gridAlpha_eq nt hn p hp, gridAlpha_eq nt hn _ (mirror_le nt p hp), entry_mirror nt p hp]
  have : (Bin.mirror nt p).1 = p.1 := rfl
  rw [this]
  split_ifs
  · rw [add_comm (Bin.entry nt p).2.1]
    apply Complex.ext <;> simp
  · simp

/-- The components in octant `j`, by those of octant 0. -/
theorem rotated_folded (W : WC) (l : ℕ) (hl : l % 2 = 0) (nt : ℕ) (hn : 1 ≤ nt) (j : ℕ) (hj : j < 4) (p : ℕ × ℕ)
    (hp : p.1 + p.2 ≤ nt) (R : ℕ → ℂ) (hR : Even R) (i : ℕ) :
    let q := Bin.rank nt p
    let q' := Bin.rank nt (Bin.folded nt j p)
    let w := halfRotation W l (gridBeta nt q').1 (gridBeta nt q').2 (gridAlpha nt q') R i
    halfRotation W l (gridBeta nt q).1 (gridBeta nt q).2 (gridAlpha nt q * (-I) ^ j) R i
      = if j % 2 = 0 then w else conj w := by
  have hm := gridAlpha_mirror nt hn p hp
  have hb := gridBeta_mirror nt hn p hp
  interval_cases j
  · simp [Bin.folded]
  · simp only [Bin.folded, pow_one]
    norm_num
    rw [← mul_neg, hm, hb, halfRotation_conj W l _ _ _ R hR]
  · simp only [Bin.folded]
    norm_num
    rw [halfRotation_neg W l hl _ _ _ R hR]
  · simp only [Bin.folded]
    norm_num
    rw [show gridAlpha nt (Bin.rank nt p) * (-I) ^ 3 = -(gridAlpha nt (Bin.rank nt p) * -I) by
        linear_combination (-gridAlpha nt (Bin.rank nt p) * I) * Complex.I_sq,
      halfRotation_neg W l hl _ _ _ R hR, hm, hb, halfRotation_conj W l _ _ _ R hR]

/-! ## Frequencies and amplitudes -/

theorem batch_block (W : WC) (four : Bool) (nt nOct : ℕ) (hO : nOct = 1 ∨ nOct = 4) (P : ℕ → ℕ → ℂ) (R2 R4 : ℕ → ℂ) (j : ℕ)
    (hj : j < nOct) :
    (batch W four nOct (fun q => (gridBeta nt q).1) (fun q => (gridBeta nt q).2) R2 R4 nOct P).1[j]? = some
      ⟨fun q => rowRotation W 2 (gridBeta nt q).1 (gridBeta nt q).2 ((turnRows four)^[j] (P q)) R2,
        fun q => rowRotation W 4 (gridBeta nt q).1 (gridBeta nt q).2 ((turnRows four)^[j] (P q)) R4⟩ := by
  rcases hO with rfl | rfl
  · have : j = 0 := by omega
    subst this
    rfl
  · exact batch_get W four 4 (by omega) _ _ _ _ 4 j hj _

theorem frequency_eq (W : WC) (four : Bool) (nt nOct : ℕ) (hO : nOct = 1 ∨ nOct = 4) (junk : ℕ → ℕ → ℂ) (cθ sθ : ℝ)
    (t : Tens) (j q : ℕ) (hj : j < nOct) (hq : q < Bin.nPts nt) :
    frequencyArray W four (Bin.nPts nt) cθ sθ (batch W four nOct (fun q => (gridBeta nt q).1)
        (fun q => (gridBeta nt q).2) t.R2 t.R4 nOct (startRows four junk nt)).1 (j * Bin.nPts nt + q)
      = localFreq W four (gridBeta nt q).1 (gridBeta nt q).2 (gridAlpha nt q * (-I) ^ j) cθ sθ t - t.R0 := by
  rw [← powder_entry W four nt nOct hO junk cθ sθ t j q hj hq, powderFrequencies]
  ring

theorem amplitude_eq (W : WC) (four : Bool) (nt nOct N : ℕ) [NeZero N] (hO : nOct = 1 ∨ nOct = 4) (junk : ℕ → ℕ → ℂ)
    (νr cθ sθ : ℝ) (t : Tens) (s j q : ℕ) (hj : j < nOct) (hq : q < Bin.nPts nt) :
    amplitudeArray W four nt nOct N νr cθ sθ (batch W four nOct (fun q => (gridBeta nt q).1)
        (fun q => (gridBeta nt q).2) t.R2 t.R4 nOct (startRows four junk nt)).1
        (s * (nOct * Bin.nPts nt) + j * Bin.nPts nt + q)
      = (if N = 1 then 1 else Sim.sidebandAmps (fun k : ZMod N => crystalPhase W four N νr (gridBeta nt q).1
          (gridBeta nt q).2 (gridAlpha nt q * (-I) ^ j) cθ sθ t k.val) (s : ZMod N))
        * Sim.normAmplitude N nOct (Bin.weight nt q) := by
  have hb := batch_block W four nt nOct hO (startRows four junk nt) t.R2 t.R4 j hj
  set n := Bin.nPts nt with hn
  have hlt : j * n + q < nOct * n := by
    calc j * n + q < j * n + n := by omega
      _ = (j + 1) * n := by ring
      _ ≤ nOct * n := Nat.mul_le_mul_right n hj
  have e1 : (s * (nOct * n) + j * n + q) % n = q := by
    rw [show s * (nOct * n) + j * n + q = n * (s * nOct + j) + q by ring, Nat.mul_add_mod, Nat.mod_eq_of_lt hq]
  have e2 : (s * (nOct * n) + j * n + q) % (nOct * n) = j * n + q := by
    rw [show s * (nOct * n) + j * n + q = (nOct * n) * s + (j * n + q) by ring, Nat.mul_add_mod,
      Nat.mod_eq_of_lt hlt]
  have e3 : (s * (nOct * n) + j * n + q) / (nOct * n) = s := by
    rw [show s * (nOct * n) + j * n + q = (nOct * n) * s + (j * n + q) by ring,
      Nat.mul_add_div (by omega), Nat.div_eq_of_lt hlt, add_zero]
  have e4 : (j * n + q) / n = j := by
    rw [mul_comm, Nat.mul_add_div (by omega), Nat.div_eq_of_lt hq, add_zero]
  unfold amplitudeArray
  simp only [← hn, e1, e2, e3, e4]
  rw [hb]
  split_ifs
  · rw [one_mul]
  · simp only
    congr 2
    funext k
    unfold crystalPhase
    simp only [startRows]
    have h2 : rowRotation W 2 (gridBeta nt q).1 (gridBeta nt q).2
        ((turnRows four)^[j] (alphaRows four (junk q) (gridAlpha nt q))) t.R2
        = halfRotation W 2 (gridBeta nt q).1 (gridBeta nt q).2 (gridAlpha nt q * (-I) ^ j) t.R2 :=
      funext fun i => rowRotation_half W 2 _ _ _ (gridAlpha nt q * (-I) ^ j) t.R2
        (fun m h1 h2 => turnRows_alpha four (junk q) (gridAlpha nt q) j m h1 (Or.inl h2)) i
    rw [h2]
    cases four
    · simp [sidebandPhase]
    · have h4 : rowRotation W 4 (gridBeta nt q).1 (gridBeta nt q).2
          ((turnRows true)^[j] (alphaRows true (junk q) (gridAlpha nt q))) t.R4
          = halfRotation W 4 (gridBeta nt q).1 (gridBeta nt q).2 (gridAlpha nt q * (-I) ^ j) t.R4 :=
        funext fun i => rowRotation_half W 4 _ _ _ (gridAlpha nt q * (-I) ^ j) t.R4
          (fun m h1 h2 => turnRows_alpha true (junk q) (gridAlpha nt q) j m h1 (Or.inr ⟨h2, rfl⟩)) i
      rw [h4]

theorem sidebands_folded (W : WC) (four : Bool) (nt N : ℕ) (hn : 1 ≤ nt) [NeZero N] (νr cθ sθ : ℝ) (t : Tens) (ht : t.Even)
    (j : ℕ) (hj : j < 4) (p : ℕ × ℕ) (hp : p.1 + p.2 ≤ nt) :
    let q := Bin.rank nt p
    let q' := Bin.rank nt (Bin.folded nt j p)
    Sim.sidebandAmps (fun k : ZMod N => crystalPhase W four N νr (gridBeta nt q).1
        (gridBeta nt q).2 (gridAlpha nt q * (-I) ^ j) cθ sθ t k.val)
      = Sim.sidebandAmps (fun k : ZMod N => crystalPhase W four N νr (gridBeta nt q').1
        (gridBeta nt q').2 (gridAlpha nt q') cθ sθ t k.val) := by
  intro q q'
  have e2 := fun i => rotated_folded W 2 rfl nt hn j hj p hp t.R2 ht.1 i
  have e4 := fun i => rotated_folded W 4 rfl nt hn j hj p hp t.R4 ht.2 i
  simp only at e2 e4
  unfold crystalPhase
  rw [funext e2, funext e4]
  by_cases h2 : j % 2 = 0
  · simp only [if_pos h2, q']
  · simp only [if_neg h2, sidebandPhase_conj]
    exact sidebandAmps_back N (fun k : ZMod N => sidebandPhase W four N νr cθ sθ
      (halfRotation W 2 (gridBeta nt q').1 (gridBeta nt q').2 (gridAlpha nt q') t.R2)
      (halfRotation W 4 (gridBeta nt q').1 (gridBeta nt q').2 (gridAlpha nt q') t.R4) k.val)

theorem frequency_folded (W : WC) (four : Bool) (nt : ℕ) (hn : 1 ≤ nt) (cθ sθ : ℝ) (t : Tens) (ht : t.Even)
    (j : ℕ) (hj : j < 4) (p : ℕ × ℕ) (hp : p.1 + p.2 ≤ nt) :
    let q := Bin.rank nt p
    let q' := Bin.rank nt (Bin.folded nt j p)
    localFreq W four (gridBeta nt q).1 (gridBeta nt q).2 (gridAlpha nt q * (-I) ^ j) cθ sθ t
      = localFreq W four (gridBeta nt q').1 (gridBeta nt q').2 (gridAlpha nt q') cθ sθ t := by
  intro q q'
  unfold localFreq
  rw [rotated_folded W 2 rfl nt hn j hj p hp t.R2 ht.1, rotated_folded W 4 rfl nt hn j hj p hp t.R4 ht.2]
  split_ifs <;> simp only [Complex.conj_re, q']

theorem normAmplitude_four (N : ℕ) [NeZero N] (w : ℝ) :
    Sim.normAmplitude N 4 w = 1 / ((4 : ℕ) : ℝ) * Sim.normAmplitude N 1 w := by
  unfold Sim.normAmplitude
  have : (N : ℝ) ≠ 0 := Nat.cast_ne_zero.mpr (NeZero.ne N)
  push_cast
  field_simp

/-- **C78.** The spectrum of a spin system whose principal axes all are the axes of the common frame is the same
whether averaged over one octant or over four: bin by bin, for every density, number of sidebands, rotor frequency and
rotor angle, for static samples and for all constants (those of the source included), and whatever the phases that
the scheme leaves unset. -/
theorem C78_octant (W : WC) (T : TC) (four : Bool) (nt N : ℕ) (hn : 1 ≤ nt) [NeZero N] (B0 νr cθ sθ inv off : ℝ)
    (count : ℤ) (hc : 1 ≤ count) (ss : List Site) (ks : List Coupling) (mi mf : List ℝ) (h : Spec.Unturned ss ks)
    (junk junk' : ℕ → ℕ → ℂ) :
    let t := components W T four B0 ss ks mi mf
    ∃ u v, spectrum W four nt 1 N νr cθ sθ inv off count (startRows four junk nt) t = .ok u ∧
      spectrum W four nt 4 N νr cθ sθ inv off count (startRows four junk' nt) t = .ok v ∧
      ∀ k, Bin.at_ k v = Bin.at_ k u := by
  intro t
  have ht := components_even W T four B0 ss ks h mi mf
  unfold spectrum
  refine Bin.averaging_folded nt 4 (by norm_num) (Bin.fftOrder N νr) inv off (t.R0 * inv) _ _ _ _ count hc ?_ ?_
  · intro j hj p hp
    have hq := rank_lt nt p hp
    have hq' := rank_lt nt _ (folded_le nt j p hp)
    have h1 := frequency_eq W four nt 1 (Or.inl rfl) junk cθ sθ t 0 _ (by norm_num) hq'
    rw [Nat.zero_mul, Nat.zero_add, pow_zero, mul_one] at h1
    rw [h1, frequency_eq W four nt 4 (Or.inr rfl) junk' cθ sθ t j _ hj hq]
    rw [frequency_folded W four nt hn cθ sθ t ht j hj p hp]
  · intro s _ j hj p hp
    have hq := rank_lt nt p hp
    have hq' := rank_lt nt _ (folded_le nt j p hp)
    have h1 := amplitude_eq W four nt 1 N (Or.inl rfl) junk νr cθ sθ t s 0 _ (by norm_num) hq'
    rw [Nat.zero_mul, Nat.add_zero, pow_zero, mul_one, one_mul] at h1
    rw [h1, amplitude_eq W four nt 4 N (Or.inr rfl) junk' νr cθ sθ t s j _ hj hq]
    have hw : Bin.weight nt (Bin.rank nt (Bin.folded nt j p)) = Bin.weight nt (Bin.rank nt p) := by
      unfold Bin.folded
      split_ifs
      · rfl
      · exact weight_mirror nt hn p hp
    rw [hw, normAmplitude_four, mul_left_comm, sidebands_folded W four nt N hn νr cθ sθ t ht j hj p hp]

/-- An asymmetric shielding tensor with a quadrupole coupling and a dipolar coupling to a second site, 64 sidebands
(the default), 70 rows of orientations (the default), 512 bins; the constants of the source. -/
example : ∃ u v,
    spectrum WC.src true 70 1 64 1500 (Real.cos 0.9553) (Real.sin 0.9553) (512 / 25000) 256 512 (startRows true (fun _ _ => 7) 70)
      (components WC.src TC.src true 9.4 [⟨3, -8.58, 10, 50, 0.3, ⟨0, 0, 0⟩, 1e6, 0.2, ⟨0, 0, 0⟩⟩,
        ⟨1, -42.6, 0, 5, 1, ⟨0, 0, 0⟩, 0, 0, ⟨0, 0, 0⟩⟩] [⟨0, 1, 20, 0, 0, ⟨0, 0, 0⟩, -500, ⟨0, 0, 0⟩⟩] [1/2, 1/2] [-1/2, 1/2])
      = .ok u ∧
    spectrum WC.src true 70 4 64 1500 (Real.cos 0.9553) (Real.sin 0.9553) (512 / 25000) 256 512 (startRows true (fun _ _ => 8) 70)
      (components WC.src TC.src true 9.4 [⟨3, -8.58, 10, 50, 0.3, ⟨0, 0, 0⟩, 1e6, 0.2, ⟨0, 0, 0⟩⟩,
        ⟨1, -42.6, 0, 5, 1, ⟨0, 0, 0⟩, 0, 0, ⟨0, 0, 0⟩⟩] [⟨0, 1, 20, 0, 0, ⟨0, 0, 0⟩, -500, ⟨0, 0, 0⟩⟩] [1/2, 1/2] [-1/2, 1/2])
      = .ok v ∧ ∀ k, Bin.at_ k v = Bin.at_ k u :=
  C78_octant WC.src TC.src true 70 64 (by norm_num) 9.4 1500 _ _ _ 256 512 (by norm_num) _ _ _ _
    ⟨by simp, by simp⟩ _ _

end MRS.Freq
