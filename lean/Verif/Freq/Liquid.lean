import Verif.Freq.Parts
import Verif.Freq.Pole
import Verif.Freq.SharpLine
import Verif.Freq.Satellite

/-!
# Spin systems without anisotropy — property C108

Shifts and J couplings that are the same in all directions give single lines, as in a liquid.  The spectrum is then known exactly, for every density of
orientations and every motion of the rotor, and with the constants of the source.
-/

namespace MRS.Bin

/-- The writes of a single line are proportional to its amplitude. -/
theorem delta_times (f amp : ℝ) (n k : ℤ) : at_ k (deltaFn f n amp) = amp * at_ k (deltaFn f n 1) := by
  unfold deltaFn
  simp only []
  have h : ∀ (i : ℤ) (y : ℝ), at_ k [(i, amp * y)] = amp * at_ k [(i, 1 * y)] := by
    intro i y
    unfold at_
    by_cases hi : i = k <;> simp [hi]
  have h' : ∀ i : ℤ, at_ k [(i, amp)] = amp * at_ k [(i, 1)] := fun i => by simpa using h i 1
  have h0 : at_ k ([] : Writes ℝ) = 0 := rfl
  split_ifs <;> simp only [at_append, List.nil_append, h, h', h0, mul_zero] <;> ring

/-- A line that is not in the window has no writes. -/
theorem delta_window (f amp : ℝ) (n : ℤ) (h : inWindow f n = false) : deltaFn f n amp = [] := by
  unfold inWindow at h
  rw [decide_eq_false_iff_not] at h
  unfold deltaFn
  simp only []
  rw [if_pos]
  by_contra hc
  push Not at hc
  exact h ⟨hc.2, hc.1.le⟩

end MRS.Bin

namespace MRS.Freq

open Complex

/-! ## Specification -/

/-- Nothing that depends on the direction takes part in the transitions of isotope `c`. -/
structure Spec.Liquid (c : String) (s : Run.Sys Phys (List Trans.Tr)) : Prop where
  sites : ∀ (k : ℕ) (y : Site), s.isotopes[k]? = some c → s.phys.sites[k]? = some y → y.zeta = 0 ∧ (1 < y.n → y.Cq = 0)
  couplings : ∀ q ∈ s.phys.couplings, q.zeta = 0 ∧ q.D = 0

/-- The energy of the state `x` of a molecule in a liquid, in Hz and without the part that all sites of an isotope share: shifts and weak couplings. -/
noncomputable def Spec.liquidEnergy (B0 : ℝ) (ph : Phys) (x : List ℕ) : ℝ :=
  ((ph.sites.zip (Spec.quantum ph.sites x)).map fun p => -B0 * p.1.gamma * p.1.iso * p.2).sum
    + (ph.couplings.map fun q => q.J * (Spec.quantum ph.sites x).getD q.A 0 * (Spec.quantum ph.sites x).getD q.X 0).sum

/-- The frequency at which a transition is recorded. -/
noncomputable def Spec.liquidLine (lib : Library) (c : String) (B0 : ℝ) (ph : Phys) (x : List ℕ × List ℕ) : ℝ :=
  (if 0 < lib.gamma c then 1 else -1) * (Spec.liquidEnergy B0 ph x.2 - Spec.liquidEnergy B0 ph x.1)

/-! ## Lemmas -/

theorem halfRotation_none (W : WC) (l : ℕ) (c s : ℝ) (e : ℂ) (R : ℕ → ℂ) (h : ∀ i, R i = 0) (i : ℕ) : halfRotation W l c s e R i = 0 := by
  have : R = fun _ => 0 := funext h
  subst this
  unfold halfRotation phasedHalf
  refine Finset.sum_eq_zero fun j _ => ?_
  simp

theorem dirFreq_flat (W : WC) (four : Bool) (cθ sθ : ℝ) (t : Tens) (h2 : ∀ i, t.R2 i = 0) (h4 : ∀ i, t.R4 i = 0) (p : ℝ × ℝ) :
    dirFreq W four cθ sθ t p = t.R0 := by
  unfold dirFreq localFreq
  simp [halfRotation_none _ _ _ _ _ _ h2, halfRotation_none _ _ _ _ _ _ h4]

/-- The amplitudes of a line that is the same in all directions: no sidebands. -/
theorem amplitude_flat (W : WC) (four : Bool) (nt nOct N : ℕ) [NeZero N] (hO : nOct = 1 ∨ nOct = 4) (junk : ℕ → ℕ → ℂ)
    (νr cθ sθ : ℝ) (t : Tens) (h2 : ∀ i, t.R2 i = 0) (h4 : ∀ i, t.R4 i = 0) (s j q : ℕ) (hs : s < N) (hj : j < nOct) (hq : q < Bin.nPts nt) :
    amplitudeArray W four nt nOct N νr cθ sθ (batch W four nOct (fun q => (gridBeta nt q).1)
        (fun q => (gridBeta nt q).2) t.R2 t.R4 nOct (startRows four junk nt)).1
        (s * (nOct * Bin.nPts nt) + j * Bin.nPts nt + q)
      = (if s = 0 then 1 / (nOct : ℝ) else 0) * Bin.weight nt q := by
  rw [amplitude_eq W four nt nOct N hO junk νr cθ sθ t s j q hj hq]
  have hN0 : (N : ℝ) ≠ 0 := Nat.cast_ne_zero.mpr (NeZero.ne N)
  have hphase : (fun k : ZMod N => crystalPhase W four N νr (gridBeta nt q).1 (gridBeta nt q).2 (gridAlpha nt q * (-I) ^ j) cθ sθ t k.val)
      = fun _ => 0 := by
    funext k
    unfold crystalPhase sidebandPhase
    simp [halfRotation_none _ _ _ _ _ _ h2, halfRotation_none _ _ _ _ _ _ h4]
  rw [hphase, sidebandAmps_zero]
  have hs0 : ((s : ZMod N) = 0) ↔ s = 0 := by
    rw [ZMod.natCast_eq_zero_iff]
    exact ⟨fun h => Nat.eq_zero_of_dvd_of_lt h hs, fun h => h ▸ dvd_zero _⟩
  simp only [hs0]
  unfold Sim.normAmplitude
  have hO0 : (nOct : ℝ) ≠ 0 := by rcases hO with rfl | rfl <;> norm_num
  by_cases h1 : N = 1
  · have : s = 0 := by omega
    rw [if_pos h1, if_pos this, h1]
    push_cast
    ring
  · rw [if_neg h1]
    split_ifs
    · field_simp
    · ring

/-- The spectrum of a line that is the same in all directions. -/
theorem spectrum_flat (W : WC) (four : Bool) (nt nOct N : ℕ) (hn : 1 ≤ nt) [NeZero N] (hO : nOct = 1 ∨ nOct = 4) (junk : ℕ → ℕ → ℂ)
    (νr cθ sθ inv off : ℝ) (count k : ℤ) (t : Tens) (h2 : ∀ i, t.R2 i = 0) (h4 : ∀ i, t.R4 i = 0) :
    (∃ u, spectrum W four nt nOct N νr cθ sθ inv off count (startRows four junk nt) t = .ok u) ∧
    Bin.val k (spectrum W four nt nOct N νr cθ sθ inv off count (startRows four junk nt) t)
      = Bin.totalAmplitude nt (Bin.weight nt) * Bin.at_ k (Bin.deltaFn (off + inv * t.R0) count 1) := by
  have hfreq := dirFreq_flat W four cθ sθ t h2 h4
  have hsp : ¬ Spread inv (dirFreq W four cθ sθ t) := by
    unfold Spread
    simp [hfreq]
  have hj0 : 0 < nOct := by rcases hO with rfl | rfl <;> norm_num
  have hn0 : (0 : ℝ) < nt := by exact_mod_cast hn
  have hfirst : frequencyArray W four (Bin.nPts nt) cθ sθ (batch W four nOct (fun q => (gridBeta nt q).1)
      (fun q => (gridBeta nt q).2) t.R2 t.R4 nOct (startRows four junk nt)).1 0 = 0 := by
    have := powder_dir W four nt nOct hn hO junk cθ sθ t 0 (Bin.rank nt (0, 0)) hj0 (0, 0) (Bin.grid_get nt 0 0 (by simp))
      0 (Real.pi / 2) ⟨nt, hn0, by simp [Bin.Spec.point, Spec.quarter], by simp [Bin.Spec.point, Spec.quarter], by simp [Bin.Spec.point, Spec.quarter]⟩
    rw [Nat.zero_mul, Nat.zero_add, show Bin.rank nt (0, 0) = 0 from rfl] at this
    have h' := hfreq (0, Real.pi / 2)
    unfold powderFrequencies at this
    unfold dirFreq at h'
    dsimp only at this h' ⊢
    linarith
  have hdelta : Bin.isDelta nt (fun a => inv * frequencyArray W four (Bin.nPts nt) cθ sθ
      (batch W four nOct (fun q => (gridBeta nt q).1) (fun q => (gridBeta nt q).2) t.R2 t.R4 nOct (startRows four junk nt)).1 a) = true :=
    (isDelta_iff W four nt nOct hn hO junk cθ sθ inv t).mpr hsp
  unfold spectrum
  dsimp only
  obtain ⟨e1, e2⟩ := Bin.averaging_sharp nt nOct (Bin.fftOrder (N : ℤ) νr) inv off (t.R0 * inv) (fun a => inv * frequencyArray W four (Bin.nPts nt) cθ sθ
      (batch W four nOct (fun q => (gridBeta nt q).1) (fun q => (gridBeta nt q).2) t.R2 t.R4 nOct (startRows four junk nt)).1 a)
      (amplitudeArray W four nt nOct N νr cθ sθ (batch W four nOct (fun q => (gridBeta nt q).1)
        (fun q => (gridBeta nt q).2) t.R2 t.R4 nOct (startRows four junk nt)).1) count hdelta k
  refine ⟨e1, ?_⟩
  rw [e2]
  -- the amplitudes of the octants
  have htot : ∀ s < N, ∀ j < nOct, Bin.totalAmplitude nt (fun i => amplitudeArray W four nt nOct N νr cθ sθ (batch W four nOct
      (fun q => (gridBeta nt q).1) (fun q => (gridBeta nt q).2) t.R2 t.R4 nOct (startRows four junk nt)).1
      (s * (nOct * Bin.nPts nt) + j * Bin.nPts nt + i)) = (if s = 0 then 1 / (nOct : ℝ) else 0) * Bin.totalAmplitude nt (Bin.weight nt) := by
    intro s hs j hj
    refine Bin.totalAmplitude_copy nt _ _ _ fun p hp => ?_
    exact amplitude_flat W four nt nOct N hO junk νr cθ sθ t h2 h4 s j _ hs hj (Bin.rank_lt nt p hp)
  obtain ⟨hlen, hget⟩ := Bin.C40_fft_order N (Nat.pos_of_ne_zero (NeZero.ne N)) νr
  obtain ⟨m, hm0, hm1, hm2, hm3⟩ := hget 0 (Nat.pos_of_ne_zero (NeZero.ne N))
  have hm : m = 0 := by
    have hN : 0 < (N : ℤ) := by exact_mod_cast Nat.pos_of_ne_zero (NeZero.ne N)
    obtain ⟨z, rfl⟩ := Int.dvd_of_emod_eq_zero hm1
    have h1 : -1 < z := by nlinarith
    have h3 : z < 1 := by nlinarith
    have : z = 0 := by omega
    rw [this, mul_zero]
  subst hm
  cases hf : Bin.fftOrder (N : ℤ) νr with
  | nil =>
    rw [hf] at hlen
    exact absurd hlen.symm (NeZero.ne N)
  | cons a rest =>
    rw [hf] at hm0 hlen
    simp only [List.getElem?_cons_zero, Option.some.injEq, Int.cast_zero, zero_mul] at hm0
    subst hm0
    rw [List.zipIdx_cons, List.map_cons, List.sum_cons]
    have hrest : (rest.zipIdx (0 + 1)).map (fun s => if Bin.inWindow (off + t.R0 * inv + inv * frequencyArray W four (Bin.nPts nt) cθ sθ
        (batch W four nOct (fun q => (gridBeta nt q).1) (fun q => (gridBeta nt q).2) t.R2 t.R4 nOct (startRows four junk nt)).1 0 + s.1 * inv) count then
        ((List.range nOct).map fun j => Bin.at_ k (Bin.deltaFn (off + t.R0 * inv + inv * frequencyArray W four (Bin.nPts nt) cθ sθ
          (batch W four nOct (fun q => (gridBeta nt q).1) (fun q => (gridBeta nt q).2) t.R2 t.R4 nOct (startRows four junk nt)).1 0 + s.1 * inv) count
          (Bin.totalAmplitude nt fun i => amplitudeArray W four nt nOct N νr cθ sθ (batch W four nOct
            (fun q => (gridBeta nt q).1) (fun q => (gridBeta nt q).2) t.R2 t.R4 nOct (startRows four junk nt)).1
            (s.2 * (nOct * Bin.nPts nt) + j * Bin.nPts nt + i)))).sum else 0) = (rest.zipIdx (0 + 1)).map fun _ => (0 : ℝ) := by
      refine List.map_congr_left fun s hs => ?_
      have h1 := List.snd_lt_add_of_mem_zipIdx hs
      have h3 := List.le_snd_of_mem_zipIdx hs
      have hlen' : rest.length + 1 = N := hlen
      split_ifs
      · refine List.sum_eq_zero fun y hy => ?_
        obtain ⟨j, hj, rfl⟩ := List.mem_map.mp hy
        rw [htot s.2 (by omega) j (List.mem_range.mp hj), if_neg (by omega), zero_mul, Bin.delta_times, zero_mul]
      · rfl
    rw [hrest]
    simp only [hfirst, mul_zero, add_zero, zero_mul, List.map_const', List.sum_replicate, smul_zero]
    have hpos : off + t.R0 * inv = off + inv * t.R0 := by ring
    rw [hpos]
    by_cases hw : Bin.inWindow (off + inv * t.R0) count = true
    · rw [if_pos hw]
      rw [List.map_congr_left (g := fun _ => 1 / (nOct : ℝ) * (Bin.totalAmplitude nt (Bin.weight nt) * Bin.at_ k (Bin.deltaFn (off + inv * t.R0) count 1)))
        fun j hj => ?_]
      swap
      · have h0 := htot 0 (Nat.pos_of_ne_zero (NeZero.ne N)) j (List.mem_range.mp hj)
        rw [if_pos rfl] at h0
        simp only [zero_mul, zero_add] at h0 ⊢
        rw [h0, Bin.delta_times, mul_assoc]
      have hO0 : (nOct : ℝ) ≠ 0 := by rcases hO with rfl | rfl <;> norm_num
      simp only [List.map_const', List.sum_replicate, List.length_range, nsmul_eq_mul]
      field_simp
    · rw [if_neg hw, Bin.delta_window _ _ _ (by simpa using hw), Bin.at_nil, mul_zero]

/-! ## Components -/

theorem pas2_none (a b : ℝ) (ha : a = 0) (hb : b = 0) : pas2 a b = fun _ => 0 := by
  subst ha hb
  funext i
  unfold pas2
  split <;> simp

theorem pas4_none (a b c : ℝ) (ha : a = 0) (hb : b = 0) (hc : c = 0) : pas4 a b c = fun _ => 0 := by
  subst ha hb hc
  funext i
  unfold pas4
  split <;> simp

theorem toFrame_none (W : WC) (l : ℕ) (Θ : Angles) (i : ℕ) : toFrame W l Θ (fun _ => 0) i = 0 := by
  unfold toFrame
  split_ifs
  · rfl
  · unfold singleRotation phased applyW
    simp

theorem fcf_R2_none (x : ℝ) (t : Tens) (h : ∀ i, t.R2 i = 0) (i : ℕ) : (fcf x t).R2 i = 0 := by
  unfold fcf scaleT zeroT
  split_ifs
  · rfl
  · simp [h]

theorem vq_none (spin : ℝ) : vq spin 0 = 0 := by simp [vq]

/-- What the nucleus that moves adds. -/
theorem mover_liquid (W : WC) (T : TC) (n0 : ℕ) (B0 : ℝ) (s : Site) (i : ℕ) (hz : s.zeta = 0) (hq : 1 < s.n → s.Cq = 0) (h1 : 1 ≤ s.n) :
    (moverPart W T n0 B0 s i).R0 = B0 * s.gamma * s.iso ∧ (∀ m, (moverPart W T n0 B0 s i).R2 m = 0) ∧ ∀ m, (moverPart W T n0 B0 s i).R4 m = 0 := by
  have hne : ((i + 1 : ℕ) : ℝ) - (s.n : ℝ) / 2 ≠ (i : ℝ) - (s.n : ℝ) / 2 := by
    push_cast
    intro h
    linarith
  obtain ⟨p1, p2, p3, p4⟩ : (packed n0 s).n = s.n ∧ (packed n0 s).gamma = s.gamma ∧ (packed n0 s).iso = s.iso ∧ (packed n0 s).zeta = 0 := by
    unfold packed
    split_ifs <;> exact ⟨rfl, rfl, rfl, hz⟩
  have p5 : s.n ≠ 1 → (packed n0 s).Cq = 0 := by
    intro h
    unfold packed
    split_ifs
    · exact hq (by omega)
    · rfl
  set y := packed n0 s with hy
  set a : ℝ := (i : ℝ) - (s.n : ℝ) / 2 with ha
  set b : ℝ := ((i + 1 : ℕ) : ℝ) - (s.n : ℝ) / 2 with hb
  have hab : a - b = -1 := by
    rw [ha, hb]
    push_cast
    ring
  have s0 : (shieldingPart W T B0 y a b).R0 = B0 * s.gamma * s.iso := by
    unfold shieldingPart
    rw [fcf_R0]
    unfold ssotShielding larmor stfP
    rw [p2, p3, hab]
    ring
  have s2 : ∀ m, (shieldingPart W T B0 y a b).R2 m = 0 := by
    intro m
    unfold shieldingPart
    refine fcf_R2_none _ _ (fun j => ?_) m
    unfold ssotShielding
    simp only [p4]
    rw [pas2_none _ _ (by ring) (by ring)]
    exact toFrame_none W 2 _ j
  have s4 : ∀ m, (shieldingPart W T B0 y a b).R4 m = 0 := fun m => fcf_R4 _ _ (fun _ => rfl) m
  unfold moverPart
  rw [← hy, ← ha, ← hb]
  unfold addSite
  rw [if_neg hne]
  simp only [p1]
  by_cases hn : s.n = 1
  · rw [if_pos hn]
    refine ⟨?_, fun m => ?_, fun m => ?_⟩ <;> simp [addT, zeroT, s0, s2, s4]
  · rw [if_neg hn]
    have hC := p5 hn
    have q0 : (quad1Part W T y a b).R0 = 0 := by
      unfold quad1Part
      rw [fcf_R0]
      simp [ssotQuad1]
    have q2 : ∀ m, (quad1Part W T y a b).R2 m = 0 := by
      intro m
      unfold quad1Part
      refine fcf_R2_none _ _ (fun j => ?_) m
      unfold ssotQuad1
      simp only [hC, vq_none]
      rw [pas2_none _ _ (by ring) (by ring)]
      exact toFrame_none W 2 _ j
    have q4 : ∀ m, (quad1Part W T y a b).R4 m = 0 := fun m => fcf_R4 _ _ (fun _ => rfl) m
    have c0 : (quad2Part W T B0 y a b).R0 = 0 ∧ (∀ m, (quad2Part W T B0 y a b).R2 m = 0) ∧ ∀ m, (quad2Part W T B0 y a b).R4 m = 0 := by
      unfold quad2Part fcfQuad2 ssotQuad2
      simp only [hC, vq_none]
      refine ⟨by simp, fun m => ?_, fun m => ?_⟩
      · rw [pas2_none _ _ (by simp) (by simp), toFrame_none, mul_zero]
      · rw [pas4_none _ _ _ (by simp) (by simp) (by simp), toFrame_none, mul_zero]
    split_ifs
    · refine ⟨?_, fun m => ?_, fun m => ?_⟩ <;> simp [addT, zeroT, s0, s2, s4, q0, q2, q4, c0.1, c0.2.1, c0.2.2]
    · refine ⟨?_, fun m => ?_, fun m => ?_⟩ <;> simp [addT, zeroT, s0, s2, s4, q0, q2, q4]

theorem coupling_liquid (W : WC) (T : TC) (mi mf : List ℝ) (q : Coupling) (hz : q.zeta = 0) (hD : q.D = 0) :
    (couplingPart W T mi mf q).R0 = q.J * mf.getD q.A 0 * mf.getD q.X 0 - q.J * mi.getD q.A 0 * mi.getD q.X 0 ∧
      ∀ m, (couplingPart W T mi mf q).R2 m = 0 := by
  constructor
  · unfold couplingPart addT jPart dipolarPart
    simp only [fcf_R0, ssotJ, ssotDipolar, stfDIS]
    ring
  · intro m
    unfold couplingPart addT jPart dipolarPart
    have h1 := fcf_R2_none (stfDIS (mf.getD q.A 0) (mi.getD q.A 0) (mf.getD q.X 0) (mi.getD q.X 0)) (ssotJ W T q.J q.zeta q.eta q.Θj) (fun j => by
      unfold ssotJ
      simp only [hz]
      rw [pas2_none _ _ (by ring) rfl]
      exact toFrame_none W 2 _ j) m
    have h2 := fcf_R2_none (stfDIS (mf.getD q.A 0) (mi.getD q.A 0) (mf.getD q.X 0) (mi.getD q.X 0)) (ssotDipolar W q.D q.Θd) (fun j => by
      unfold ssotDipolar
      simp only [hD]
      rw [pas2_none _ _ rfl (by ring)]
      exact toFrame_none W 2 _ j) m
    simp only [h1, h2, add_zero]

theorem sites_liquid (B0 : ℝ) (ss : List Site) (x : List ℕ) (k i : ℕ) (s : Site) (hs : ss[k]? = some s) (hx : x[k]? = some (i + 1)) :
    ((ss.zip (Spec.quantum ss (x.set k i))).map fun p => -B0 * p.1.gamma * p.1.iso * p.2).sum
      = ((ss.zip (Spec.quantum ss x)).map fun p => -B0 * p.1.gamma * p.1.iso * p.2).sum + B0 * s.gamma * s.iso := by
  induction ss generalizing x k with
  | nil => cases hs
  | cons a ss ih =>
    cases x with
    | nil => cases hx
    | cons j x =>
      cases k with
      | zero =>
        simp only [List.getElem?_cons_zero, Option.some.injEq] at hs hx
        subst hs hx
        simp only [List.set_cons_zero, Spec.quantum, List.zipWith_cons_cons, List.zip_cons_cons, List.map_cons, List.sum_cons]
        push_cast
        ring
      | succ k =>
        simp only [List.getElem?_cons_succ] at hs hx
        have := ih x k hs hx
        simp only [List.set_cons_succ, Spec.quantum, List.zipWith_cons_cons, List.zip_cons_cons, List.map_cons, List.sum_cons] at this ⊢
        rw [this]
        ring

theorem sum_map_minus {α : Type} (l : List α) (f g : α → ℝ) : (l.map fun a => f a - g a).sum = (l.map f).sum - (l.map g).sum := by
  induction l with
  | nil => simp
  | cons a l ih =>
    simp only [List.map_cons, List.sum_cons, ih]
    ring

/-- The components of a transition of a molecule in a liquid. -/
theorem lineTens_liquid (W : WC) (T : TC) (lib : Library) (c : String) (central : Bool) (B0 : ℝ) (s : Run.Sys Phys (List Trans.Tr))
    (hg : Spec.Given lib s) (hl : Spec.Liquid c s) (x : List ℕ × List ℕ) (hx : Spec.Observed c central s.isotopes s.phys.sites x) :
    (lineTens W T lib c B0 s.phys x).R0 = Spec.liquidEnergy B0 s.phys x.2 - Spec.liquidEnergy B0 s.phys x.1 ∧
      (∀ m, (lineTens W T lib c B0 s.phys x).R2 m = 0) ∧ ∀ m, (lineTens W T lib c B0 s.phys x).R4 m = 0 := by
  obtain ⟨k, i, y, e1, e2, e3, e4, -⟩ := hx.step
  obtain ⟨a0, a2, a4⟩ := lineTens_mover W T lib c B0 s.phys x k i y e2 e3 e4
  obtain ⟨b0, b2, b4⟩ := mover_liquid W T (lib.twoI c) B0 y i (hl.sites k y e1 e2).1 (hl.sites k y e1 e2).2 (hg.sites y (List.mem_of_getElem? e2))
  have hc := fun q hq => coupling_liquid W T (Spec.quantum s.phys.sites x.1) (Spec.quantum s.phys.sites x.2) q (hl.couplings q hq).1 (hl.couplings q hq).2
  refine ⟨?_, fun m => ?_, fun m => ?_⟩
  · rw [a0, b0, List.map_congr_left fun q hq => (hc q hq).1, sum_map_minus]
    unfold Spec.liquidEnergy
    have := sites_liquid B0 s.phys.sites x.1 k i y e2 e3
    rw [← e4] at this
    rw [this]
    ring
  · rw [a2, b2, List.map_congr_left fun q hq => (hc q hq).2 m]
    simp
  · rw [a4, b4]

/-- The weights of all triangles together. -/
theorem total_pos (nt : ℕ) (hn : 1 ≤ nt) : 0 < Bin.totalAmplitude nt (Bin.weight nt) := by
  have hn0 : (0 : ℝ) < nt := by exact_mod_cast hn
  have hw : ∀ p : ℕ × ℕ, p.1 + p.2 ≤ nt → 0 < Bin.weight nt (Bin.rank nt p) := by
    intro p hp
    rw [Bin.weight_eq nt hn _ p (Bin.grid_get nt p.1 p.2 hp)]
    exact lt_of_lt_of_le (by positivity) (Bin.weight_bounds nt hn p hp).1
  rw [Bin.totalAmplitude_triList]
  refine List.sum_pos _ (fun y hy => ?_) ?_
  · obtain ⟨t, ht, rfl⟩ := List.mem_map.mp hy
    obtain ⟨h1, h2, h3⟩ := Bin.tri_bounds nt t ht
    have := hw _ h1
    have := hw _ h2
    have := hw _ h3
    positivity
  · intro h
    rw [List.map_eq_nil_iff] at h
    have : ((0, 0), (0, 1), (1, 0)) ∈ Bin.triList nt := by
      rw [Bin.mem_triList]
      exact ⟨0, 0, Or.inl ⟨by omega, rfl⟩⟩
    rw [h] at this
    cases this

/-- What the program does with a run of one line, at every place of the array. -/
theorem core_liquid (W : WC) (T : TC) (lib : Library) (so : Trans.SetOrder) (c : String) (central : Bool) (B0 : ℝ) (r : Rotor) (d : Meth.SDim)
    [NeZero d.count] (nOct : ℕ) (hO : nOct = 1 ∨ nOct = 4) (junk : ℕ → Phys → List Trans.Tr → ℕ → ℕ → ℂ) (nt : ℕ) (hn : 1 ≤ nt)
    (s : Run.Sys Phys (List Trans.Tr)) (hg : Spec.Given lib s) (hl : Spec.Liquid c s) (x : List ℕ × List ℕ)
    (hx : Spec.Observed c central s.isotopes s.phys.sites x) (z : ZMod d.count) :
    (pulseEnv W T lib so c central B0 r d nOct junk nt).core s.phys (edge s.phys.sites x) z
      = Bin.totalAmplitude nt (Bin.weight nt) * Bin.at_ (z.val : ℤ) (Bin.deltaFn (((Meth.normalizeOffset (decide (0 < lib.gamma c)) d : ℚ) : ℝ)
          + ((1 / (d.sw / d.count) : ℚ) : ℝ) * (Spec.liquidEnergy B0 s.phys x.2 - Spec.liquidEnergy B0 s.phys x.1)) d.count 1) := by
  obtain ⟨t0, t2, t4⟩ := lineTens_liquid W T lib c central B0 s hg hl x hx
  have hpos := r.seen.pos
  have key := (spectrum_flat W (fourth (lib.twoI c)) nt nOct r.seen.sidebands hn hO (junk nt s.phys (edge s.phys.sites x)) r.seen.freq
    (Real.cos r.seen.angle) (Real.sin r.seen.angle) ((1 / (d.sw / d.count) : ℚ) : ℝ) ((Meth.normalizeOffset (decide (0 < lib.gamma c)) d : ℚ) : ℝ)
    d.count z.val (lineTens W T lib c B0 s.phys x) t2 t4).2
  rw [← t0, ← key]
  change Bin.val _ (pulseWrites _ _ _ _ _ _ _ _ _ _ _ _) = _
  unfold pulseWrites
  rw [rotorWrites_edge]

/-! ## Property -/

/-- **C108, partial.** Molecules in a liquid: if the shifts and couplings of the observed nuclei are isotropic, every spectrum after one pulse is, point by point and
for every density of orientations, every motion of the rotor and every number of sidebands, the sum of the lines at the differences of the
energies of shifts and weak couplings: each gives a linear share to the two points next to it.  The factor `A` is that of the weights of
the orientations; it depends on the density only and is close to `3π`.  This holds with the decimals of the source.
Missing: odd numbers of points (C33); point 0 (C37, `C109_counterexample`). -/
theorem C108_liquid_partial : ∃ A : ℕ → ℝ, (∀ nt, 1 ≤ nt → 0 < A nt) ∧ Filter.Tendsto A Filter.atTop (nhds (3 * Real.pi)) ∧
    ∀ (W : WC) (T : TC) (lib : Library) (so : Trans.SetOrder) (c : String) (_ : lib.gamma c ≠ 0) (central : Bool)
    (_ : central = true → lib.twoI c % 2 = 1) (B0 : ℝ) (r : Rotor) (d : Meth.SDim) [NeZero d.count] (_ : d.count % 2 = 0) (_ : 0 < d.sw)
    (nOct : ℕ) (_ : nOct = 1 ∨ nOct = 4) (junk : ℕ → Phys → List Trans.Tr → ℕ → ℕ → ℂ) (nt : ℕ) (_ : 1 ≤ nt)
    (l : List (Run.Sys Phys (List Trans.Tr))) (_ : ∀ s ∈ l, Spec.Given lib s ∧ Spec.Liquid c s)
    (_ : ∀ a ∈ l, ∀ b ∈ l, c ∈ a.isotopes → c ∈ b.isotopes → a.isotopes.length = b.isotopes.length → a.isotopes = b.isotopes)
    (cpu nJobs : ℤ) (_ : 1 ≤ nJobs),
    ∃ v : ZMod d.count → ℝ, Run.run (pulseEnv W T lib so c central B0 r d nOct junk nt) cpu false l nJobs = .ok [.spec v] ∧
      ∀ j : ℕ, 1 ≤ j → j < d.count → v j = A nt * (l.map fun s => ((s.abundance / (d.sw / d.count) : ℚ) : ℝ) *
        ∑ᶠ (x) (_ : Spec.Observed c central s.isotopes s.phys.sites x),
          Spec.peak (decide (0 < lib.gamma c)) d j (Spec.liquidLine lib c B0 s.phys x)).sum := by
  refine ⟨fun nt => Bin.totalAmplitude nt (Bin.weight nt), total_pos, Bin.C63_limit_partial, ?_⟩
  intro W T lib so c hγ central hcen B0 r d _ hev hsw nOct hO junk nt hn l hl hu cpu nJobs hJ
  obtain ⟨h, hd⟩ : ∃ h, d.count = 2 * h := ⟨d.count / 2, by omega⟩
  have hcount : d.count ≠ 0 := NeZero.ne _
  have hh : 1 ≤ h := by omega
  refine ⟨_, pulse_sum W T lib so c central hcen B0 r d nOct junk nt l (fun s hs => (hl s hs).1) hu cpu nJobs hJ, fun j hj hjn => ?_⟩
  set idx : ZMod d.count := if lib.gamma c < 0 then -(j : ZMod d.count) else j with hidx
  have hval : ((idx.val : ℕ) : ℤ) = accBin (decide (0 < lib.gamma c)) d.count j := by
    have hv : (j : ZMod d.count).val = j := ZMod.val_natCast_of_lt hjn
    unfold accBin
    rcases lt_or_gt_of_ne hγ with h0 | h0
    · rw [hidx, if_pos h0, if_neg (by simp [h0.le]), ZMod.neg_val, if_neg, hv]
      · omega
      · intro h1
        rw [h1, ZMod.val_zero] at hv
        omega
    · rw [hidx, if_neg (by linarith), if_pos (by simpa using h0), hv]
  have hacc : 1 ≤ accBin (decide (0 < lib.gamma c)) d.count j ∧ accBin (decide (0 < lib.gamma c)) d.count j < (d.count : ℤ) := by
    unfold accBin
    split_ifs <;> omega
  have hmir : ∀ u : ZMod d.count → ℝ, Run.mir (pulseEnv W T lib so c central B0 r d nOct junk nt) u j = u idx := by
    intro u
    unfold Run.mir
    by_cases h0 : lib.gamma c < 0
    · rw [if_pos (show (pulseEnv W T lib so c central B0 r d nOct junk nt).gammaNeg = true from decide_eq_true h0), hidx, if_pos h0]
      exact Sim.C59_mirror1 u j
    · rw [if_neg (show ¬ (pulseEnv W T lib so c central B0 r d nOct junk nt).gammaNeg = true from by
        change ¬ decide (lib.gamma c < 0) = true
        simpa using h0), hidx, if_neg h0]
  rw [hmir, sum_apply, List.map_map, ← List.sum_map_mul_left]
  congr 1
  refine List.map_congr_left fun s hs => ?_
  obtain ⟨hg, hq⟩ := hl s hs
  simp only [Function.comp_def, Pi.smul_apply, Rat.smul_def]
  rw [mul_left_comm]
  congr 1
  unfold lines
  rw [Finset.sum_apply]
  have hfin : (∑ᶠ (x) (_ : Spec.Observed c central s.isotopes s.phys.sites x),
      Spec.peak (decide (0 < lib.gamma c)) d j (Spec.liquidLine lib c B0 s.phys x))
      = ∑ x ∈ observedF c central s.isotopes s.phys.sites, Spec.peak (decide (0 < lib.gamma c)) d j (Spec.liquidLine lib c B0 s.phys x) := by
    rw [← finsum_mem_coe_finset]
    simp only [Finset.mem_coe, observedF_mem]
  rw [hfin, Finset.mul_sum]
  refine Finset.sum_congr rfl fun x hx => ?_
  rw [core_liquid W T lib so c central B0 r d nOct hO junk nt hn s hg hq x ((observedF_mem _ _ _ _ _).mp hx), hval,
    Bin.delta_tent _ _ _ _ hacc.1 hacc.2]
  congr 1
  unfold Spec.liquidLine
  have := position_peak (decide (0 < lib.gamma c)) d h hd hh hsw j (Spec.liquidEnergy B0 s.phys x.2 - Spec.liquidEnergy B0 s.phys x.1)
  simp only [one_mul]
  rw [this]
  simp only [decide_eq_true_eq]

/-! ## A molecule of two coupled nuclei -/

/-- A nucleus with the given shift. -/
noncomputable def liquidSite (iso : ℝ) : Site := ⟨1, -1, iso, 0, 0, ⟨0, 0, 0⟩, 0, 0, ⟨0, 0, 0⟩⟩

/-- Two nuclei with a coupling. -/
noncomputable def moleculeSys : Run.Sys Phys (List Trans.Tr) :=
  ⟨["15N", "15N"], none, 100, ⟨[liquidSite 1, liquidSite 2], [⟨0, 1, 1 / 8, 0, 0, ⟨0, 0, 0⟩, 0, ⟨0, 0, 0⟩⟩]⟩⟩

theorem molecule_given : Spec.Given exampleLib moleculeSys := by
  refine ⟨rfl, rfl, ?_, ?_⟩
  · intro x hx
    simp only [moleculeSys, List.mem_cons, List.not_mem_nil, or_false] at hx
    rcases hx with rfl | rfl <;> simp [liquidSite]
  · intro k hk
    simp only [moleculeSys, List.mem_cons, List.not_mem_nil, or_false] at hk
    subst hk
    simp [moleculeSys]

theorem molecule_liquid : Spec.Liquid "15N" moleculeSys := by
  refine ⟨?_, ?_⟩
  · intro k y _ hy
    have := List.mem_of_getElem? hy
    simp only [moleculeSys, List.mem_cons, List.not_mem_nil, or_false] at this
    rcases this with rfl | rfl <;> simp [liquidSite]
  · intro k hk
    simp only [moleculeSys, List.mem_cons, List.not_mem_nil, or_false] at hk
    subst hk
    simp

/-- The hypotheses of C108 are met; the four lines of the pair are at different frequencies: the coupling is seen. -/
example (so : Trans.SetOrder) (junk : ℕ → Phys → List Trans.Tr → ℕ → ℕ → ℂ) (cpu : ℤ) :
    haveI : NeZero (Meth.SDim.count ⟨512, 8, 0, none⟩) := ⟨by norm_num⟩
    (∃ v, Run.run (pulseEnv WC.src TC.src exampleLib so "15N" false 1 exampleStill ⟨512, 8, 0, none⟩ 4 junk 70) cpu false [moleculeSys] 3 = .ok [.spec v]) ∧
    Spec.liquidLine exampleLib "15N" 1 moleculeSys.phys ([1, 1], [0, 1]) = 1 + 1 / 16 ∧
    Spec.liquidLine exampleLib "15N" 1 moleculeSys.phys ([1, 0], [0, 0]) = 1 - 1 / 16 := by
  have : NeZero (Meth.SDim.count ⟨512, 8, 0, none⟩) := ⟨by norm_num⟩
  refine ⟨?_, ?_, ?_⟩
  · obtain ⟨A, -, -, h⟩ := C108_liquid_partial
    obtain ⟨v, hv, -⟩ := h WC.src TC.src exampleLib so "15N" (by norm_num [exampleLib]) false (by simp) 1 exampleStill ⟨512, 8, 0, none⟩ (by norm_num)
      (by norm_num) 4 (Or.inr rfl) junk 70 (by norm_num) [moleculeSys]
      (fun s hs => by
        rw [List.mem_singleton.mp hs]
        exact ⟨molecule_given, molecule_liquid⟩)
      (fun a ha b hb _ _ _ => by rw [List.mem_singleton.mp ha, List.mem_singleton.mp hb]) cpu 3 (by norm_num)
    exact ⟨v, hv⟩
  all_goals
    unfold Spec.liquidLine Spec.liquidEnergy
    norm_num [exampleLib, moleculeSys, liquidSite, Spec.quantum]

end MRS.Freq
