import Verif.Bin.Project
import Verif.Freq.RunMap
import Verif.Freq.Exact
import Verif.Freq.Turned

/-!
# The projection of a map on its first axis — property C107
-/

namespace MRS.Bin

theorem rowShape_smul (nt : ℕ) (freq amp : ℕ → ℝ) (k : ℝ) (m r : ℤ) :
    rowShape nt freq (fun q => k * amp q) m r = k * rowShape nt freq amp m r := by
  unfold rowShape
  rw [← List.sum_map_mul_left]
  congr 1
  refine List.map_congr_left fun t _ => ?_
  rw [val_triangleOrDelta, val_triangleOrDelta _ _ _ (amp _ + amp _ + amp _)]
  ring

/-- Weights that are `k` times as large. -/
theorem averaging1D_smul (nt nOct : ℕ) (vr : List ℝ) (inv norm r0 : ℝ) (freq amps : ℕ → ℝ) (k : ℝ) (m : ℕ) (hm : 1 ≤ m)
    (hO : 1 ≤ nOct) (h : Spec.Resolved nt nOct freq) :
    ∃ w w', averaging1D nt nOct vr inv norm r0 freq amps m = .ok w ∧
      averaging1D nt nOct vr inv norm r0 freq (fun a => k * amps a) m = .ok w' ∧ ∀ r, at_ r w' = k * at_ r w := by
  obtain ⟨w, e, hw⟩ := averaging1D_rows nt nOct vr inv norm r0 freq amps m hm hO h
  obtain ⟨w', e', hw'⟩ := averaging1D_rows nt nOct vr inv norm r0 freq (fun a => k * amps a) m hm hO h
  refine ⟨w, w', e, e', fun r => ?_⟩
  rw [hw, hw', ← List.sum_map_mul_left]
  congr 1
  refine List.map_congr_left fun i _ => ?_
  split_ifs
  · rw [← List.sum_map_mul_left]
    congr 1
    refine List.map_congr_left fun j _ => ?_
    rw [← rowShape_smul]
  · rw [mul_zero]

theorem inWindow_inside (x : ℝ) (m : ℕ) (h0 : 0 ≤ x) (h1 : x ≤ m) : inWindow x m = true := by
  unfold inWindow trunc
  rw [decide_eq_true_iff, if_pos h0]
  refine ⟨Int.floor_nonneg.mpr h0, ?_⟩
  have : (⌊x⌋ : ℝ) ≤ m := (Int.floor_le x).trans h1
  exact_mod_cast this

end MRS.Bin

namespace MRS.Freq

open Complex

/-! ## Lemmas: one pathway -/

theorem batch_some (W : WC) (four : Bool) (nOct : ℕ) (c s : ℕ → ℝ) (R2 R4 : ℕ → ℂ) (n j : ℕ) (hj : j < n) (P : ℕ → ℕ → ℂ) :
    ∃ b, (batch W four nOct c s R2 R4 n P).1[j]? = some b := by
  induction n generalizing j P with
  | zero => omega
  | succ n ih =>
    cases j with
    | zero => exact ⟨_, rfl⟩
    | succ j =>
      simp only [batch, List.getElem?_cons_succ]
      exact ih j (by omega) _

theorem index_parts (total i a : ℕ) (ha : a < total) : (i * total + a) / total = i ∧ (i * total + a) % total = a := by
  constructor
  · rw [mul_comm, Nat.mul_add_div (by omega), Nat.div_eq_of_lt ha, add_zero]
  · rw [mul_comm, Nat.mul_add_mod, Nat.mod_eq_of_lt ha]

theorem sum_zmod_range (N : ℕ) [NeZero N] (f : ZMod N → ℝ) : ∑ k ∈ Finset.range N, f (k : ZMod N) = ∑ k, f k := by
  refine Finset.sum_bij' (fun k _ => (k : ZMod N)) (fun z _ => z.val) (fun _ _ => Finset.mem_univ _)
    (fun z _ => Finset.mem_range.mpr (ZMod.val_lt z)) (fun k hk => ZMod.val_natCast_of_lt (Finset.mem_range.mp hk))
    (fun z _ => by simp) (fun _ _ => rfl)

/-- The weights of the sidebands of the second dimension add up to the square of their number. -/
theorem amplitudes_sum (W : WC) (four : Bool) (nt nOct N : ℕ) [NeZero N] (ν : ℝ × ℝ) (cθ sθ : ℝ) (bs bs' : List Block)
    (hb : ∀ j < nOct, ∃ b, bs'[j]? = some b) (i a : ℕ) (ha : a < nOct * Bin.nPts nt) :
    eventAmplitude W four nt nOct N ν.1 cθ sθ bs (i * (nOct * Bin.nPts nt) + a) *
        ∑ k ∈ Finset.range N, eventAmplitude W four nt nOct N ν.2 cθ sθ bs' (k * (nOct * Bin.nPts nt) + a) *
          Sim.normAmplitude N nOct (Bin.weight nt ((k * (nOct * Bin.nPts nt) + a) % Bin.nPts nt))
      = (N : ℝ) ^ 2 * amplitudeArray W four nt nOct N ν.1 cθ sθ bs (i * (nOct * Bin.nPts nt) + a) := by
  have hp := Bin.nPts_pos nt
  have hmod : ∀ k, (k * (nOct * Bin.nPts nt) + a) % Bin.nPts nt = a % Bin.nPts nt := by
    intro k
    rw [← mul_assoc, mul_comm, Nat.mul_add_mod]
  simp only [hmod]
  rw [← Finset.sum_mul]
  by_cases hN : N = 1
  · subst hN
    unfold eventAmplitude amplitudeArray
    simp [hmod]
  · obtain ⟨b, hbj⟩ := hb (a / Bin.nPts nt) ((Nat.div_lt_iff_lt_mul (by omega)).mpr ha)
    have hs : ∑ k ∈ Finset.range N, eventAmplitude W four nt nOct N ν.2 cθ sθ bs' (k * (nOct * Bin.nPts nt) + a) = (N : ℝ) ^ 2 := by
      rw [← Sim.sum_sidebandAmps (fun k : ZMod N => sidebandPhase W four N ν.2 cθ sθ (b.w2 (a % Bin.nPts nt)) (b.w4 (a % Bin.nPts nt)) k.val),
        ← sum_zmod_range]
      refine Finset.sum_congr rfl fun k _ => ?_
      obtain ⟨e1, e2⟩ := index_parts (nOct * Bin.nPts nt) k a ha
      unfold eventAmplitude
      simp only [if_neg hN, e1, e2, hbj, hmod]
    rw [hs]
    unfold eventAmplitude amplitudeArray
    simp only [if_neg hN, hmod]
    cases bs[(i * (nOct * Bin.nPts nt) + a) % (nOct * Bin.nPts nt) / Bin.nPts nt]? with
    | none => simp
    | some b => ring

theorem tens_mean_le (W : WC) (four : Bool) (cθ sθ : ℝ) (t : Tens) (x c : ℝ) (h : ∀ p, |dirFreq W four cθ sθ t p - x| ≤ c) :
    |t.R0 - x| ≤ c := by
  have := abs_mean_le (dirFreq W four cθ sθ ⟨t.R0 - x, t.R2, t.R4⟩) c (fun p => by
    have e : dirFreq W four cθ sθ ⟨t.R0 - x, t.R2, t.R4⟩ p = dirFreq W four cθ sθ t p - x := by
      unfold dirFreq localFreq
      ring
    rw [e]
    exact h p)
  rwa [dirFreq_mean] at this

/-- The frequencies at the corners of the triangles and along the axes are different, or all frequencies are the same. -/
def Clear (nt nOct : ℕ) (inv : ℝ) (g : ℝ × ℝ → ℝ) : Prop :=
  (∃ a, ∀ p, g p = a) ∨ (Spread inv g ∧ ∀ j < nOct, ∀ t, Bin.Spec.IsTriangle nt t → ∀ a b c : ℝ × ℝ,
    Spec.Points a.1 a.2 (Spec.quarter j (Bin.Spec.point nt t.1)) → Spec.Points b.1 b.2 (Spec.quarter j (Bin.Spec.point nt t.2.1)) →
    Spec.Points c.1 c.2 (Spec.quarter j (Bin.Spec.point nt t.2.2)) →
    1 / 1000000 ≤ |inv * (g a - g b)| ∨ 1 / 1000000 ≤ |inv * (g a - g c)|)

theorem Clear.resolved (W : WC) (four : Bool) (nt nOct : ℕ) (hn : 1 ≤ nt) (hO : nOct = 1 ∨ nOct = 4) (junk : ℕ → ℕ → ℂ) (cθ sθ inv : ℝ) (t : Tens)
    (h : Clear nt nOct inv (dirFreq W four cθ sθ t)) :
    Bin.Spec.Resolved nt nOct fun a => inv * (powderFrequencies W four nt nOct (startRows four junk nt) cθ sθ t).1 a := by
  have hj0 : 0 < nOct := by rcases hO with rfl | rfl <;> norm_num
  have hdir : ∀ (j q : ℕ) (p : ℕ × ℕ) (a : ℝ × ℝ), j < nOct → (Bin.Spec.grid nt)[q]? = some p →
      Spec.Points a.1 a.2 (Spec.quarter j (Bin.Spec.point nt p)) →
      (powderFrequencies W four nt nOct (startRows four junk nt) cθ sθ t).1 (j * Bin.nPts nt + q) = dirFreq W four cθ sθ t a - t.R0 := by
    intro j q p a hj hq hp
    have := powder_dir W four nt nOct hn hO junk cθ sθ t j q hj p hq a.1 a.2 hp
    unfold dirFreq
    linarith
  rcases h with ⟨a, ha⟩ | ⟨h1, h2⟩
  · left
    intro k hk
    obtain ⟨j, q, p, α, β, rfl, hj, hq, hp⟩ := index_dir nt nOct hn k hk
    have hR : t.R0 = a := by
      have := tens_mean_le W four cθ sθ t a 0 (fun p => by rw [ha, sub_self, abs_zero])
      linarith [abs_nonpos_iff.mp this]
    simp only
    rw [hdir j q p (α, β) hj hq hp, ha, hR, sub_self, mul_zero]
  · right
    constructor
    · have := isDelta_axes W four nt nOct hn hO junk cθ sθ inv t h1
      unfold Bin.isDelta at this
      rw [decide_eq_false_iff_not, not_and_or, not_lt, not_lt] at this
      exact this
    · intro j hj T hT
      obtain ⟨b1, b2, b3⟩ := Bin.tri_bounds nt T ((Bin.mem_triList nt T).mpr hT)
      have hpt : ∀ p : ℕ × ℕ, p.1 + p.2 ≤ nt → ∃ a : ℝ × ℝ, Spec.Points a.1 a.2 (Spec.quarter j (Bin.Spec.point nt p)) ∧
          (powderFrequencies W four nt nOct (startRows four junk nt) cθ sθ t).1 (j * Bin.nPts nt + Bin.rank nt p)
            = dirFreq W four cθ sθ t a - t.R0 := by
        intro p hp
        obtain ⟨α, β, hab⟩ := points_exist (Spec.quarter j (Bin.Spec.point nt p)) (by
          rw [quarter_len]
          exact Bin.len_pos nt hn _)
        exact ⟨(α, β), hab, hdir j _ p (α, β) hj (Bin.grid_get nt p.1 p.2 hp) hab⟩
      obtain ⟨a, ha, ea⟩ := hpt _ b1
      obtain ⟨b, hb, eb⟩ := hpt _ b2
      obtain ⟨c, hc, ec⟩ := hpt _ b3
      have := h2 j hj T hT a b c ha hb hc
      simp only [ea, eb, ec]
      rw [← mul_sub, ← mul_sub, sub_sub_sub_cancel_right, sub_sub_sub_cancel_right]
      exact this

theorem packQ_pair (ss : List Site) (x y : List ℕ × List ℕ) :
    packQ [(qnum (ss.map Site.n) x.1, qnum (ss.map Site.n) x.2), (qnum (ss.map Site.n) y.1, qnum (ss.map Site.n) y.2)] = pack ss [x, y] := by
  unfold packQ pack
  simp [← qnum_cast]

/-- The rows of the map of one pathway. -/
theorem map_rows (W : WC) (T : TC) (lib : Library) (c : String) (B0 : ℝ) (r : Rotor2) (d : Meth.SDim × Meth.SDim) (hd : 1 ≤ d.1.count ∧ 1 ≤ d.2.count)
    (hsw : 0 < d.1.sw ∧ 0 < d.2.sw) (nOct : ℕ) (hO : nOct = 1 ∨ nOct = 4)
    (junk junk' : ℕ → ℕ → ℂ) (nt : ℕ) (hn : 1 ≤ nt) (ph : Phys) (x y : List ℕ × List ℕ)
    (hx : Spec.IsState ph.sites x.1 ∧ Spec.IsState ph.sites x.2) (hy : Spec.IsState ph.sites y.1 ∧ Spec.IsState ph.sites y.2) (t u : Tens)
    (ht : t = methodComponents W T (lib.twoI c) B0 ph.sites ph.couplings (Spec.quantum ph.sites x.1) (Spec.quantum ph.sites x.2))
    (hu : u = methodComponents W T (lib.twoI c) B0 ph.sites ph.couplings (Spec.quantum ph.sites y.1) (Spec.quantum ph.sites y.2))
    (inc off : ℝ × ℝ) (hinc : inc = (((d.1.sw / d.1.count : ℚ) : ℝ), ((d.2.sw / d.2.count : ℚ) : ℝ)))
    (hoff : off = (((Meth.normalizeOffset (decide (0 < lib.gamma c)) d.1 : ℚ) : ℝ), ((Meth.normalizeOffset (decide (0 < lib.gamma c)) d.2 : ℚ) : ℝ)))
    (hA : Clear nt nOct (1 / inc.1) (dirFreq W (fourth (lib.twoI c)) (Real.cos r.angle) (Real.sin r.angle) t))
    (hE : ∀ m : ℤ, -(r.sidebands : ℤ) ≤ 2 * m → 2 * m < r.sidebands →
      (∀ p, -1 < off.1 + (dirFreq W (fourth (lib.twoI c)) (Real.cos r.angle) (Real.sin r.angle) t p + m * r.freq.1) / inc.1) ∨
      ∀ p, off.1 + (dirFreq W (fourth (lib.twoI c)) (Real.cos r.angle) (Real.sin r.angle) t p + m * r.freq.1) / inc.1 ≤ -1 ∨
        1 ≤ off.1 + (dirFreq W (fourth (lib.twoI c)) (Real.cos r.angle) (Real.sin r.angle) t p + m * r.freq.1) / inc.1)
    (hF : ∀ m : ℤ, -(r.sidebands : ℤ) ≤ 2 * m → 2 * m < r.sidebands → ∀ p,
      1 / 2 ≤ off.2 + (dirFreq W (fourth (lib.twoI c)) (Real.cos r.angle) (Real.sin r.angle) u p + m * r.freq.2) / inc.2 ∧
      off.2 + (dirFreq W (fourth (lib.twoI c)) (Real.cos r.angle) (Real.sin r.angle) u p + m * r.freq.2) / inc.2 ≤ d.2.count - 1 / 2) :
    ∃ w w1, mapWrites W T lib c B0 r d [1, 0, 0, 1] nOct junk nt ph
        [(qnum (ph.sites.map Site.n) x.1, qnum (ph.sites.map Site.n) x.2), (qnum (ph.sites.map Site.n) y.1, qnum (ph.sites.map Site.n) y.2)] = .ok w ∧
      rotorWrites W T lib c B0 ⟨r.sidebands, r.pos, r.freq.1, r.angle⟩ d.1 nOct junk' nt ph
        (qnum (ph.sites.map Site.n) x.1, qnum (ph.sites.map Site.n) x.2) = .ok w1 ∧
      ∀ i, Bin.Spec.rowSum d.2.count i w = (r.sidebands : ℝ) ^ 2 * Bin.at_ i w1 := by
  haveI := r.pos
  have hN : 1 ≤ r.sidebands := Nat.pos_of_ne_zero (NeZero.ne _)
  have i0 : 0 < inc.1 := by
    rw [hinc]
    have : 0 < d.1.sw / d.1.count := div_pos hsw.1 (by exact_mod_cast hd.1)
    exact Rat.cast_pos.mpr this
  have i1 : 0 < inc.2 := by
    rw [hinc]
    have : 0 < d.2.sw / d.2.count := div_pos hsw.2 (by exact_mod_cast hd.2)
    exact Rat.cast_pos.mpr this
  have hO1 : 1 ≤ nOct := by rcases hO with rfl | rfl <;> norm_num
  set four := fourth (lib.twoI c) with hfour
  set cθ := Real.cos r.angle with hcθ
  set sθ := Real.sin r.angle with hsθ
  set ss := ph.sites.map (packed (lib.twoI c)) with hss
  set P := startRows four junk nt with hP
  have hq : ∀ z : List ℕ, Spec.quantum ss z = Spec.quantum ph.sites z := fun z => quantum_packed _ _ _
  have hst : ∀ z, Spec.IsState ph.sites z → Spec.IsState ss z := by
    intro z hz
    unfold Spec.IsState at hz ⊢
    rw [hss, List.forall₂_map_left_iff]
    simpa only [packed_n] using hz
  have ht' : components W T four B0 ss ph.couplings (Spec.quantum ss x.1) (Spec.quantum ss x.2) = t := by
    rw [hq, hq, ht]
    rfl
  have hu' : components W T four B0 ss ph.couplings (Spec.quantum ss y.1) (Spec.quantum ss y.2) = u := by
    rw [hq, hq, hu]
    rfl
  obtain ⟨D, hD, Di, Dr, Df⟩ := single_spec W T four nt nOct hO ss ph.couplings ⟨B0, 1, r.angle, r.freq.1⟩ ⟨1 / inc.1, [⟨B0, 1, r.angle, r.freq.1⟩], 0, fun _ => 0⟩
    P x [y] [] (hst _ hx.1) (hst _ hx.2)
  obtain ⟨E, hE', Ei, Er, Ef⟩ := single_spec W T four nt nOct hO ss ph.couplings ⟨B0, 1, r.angle, r.freq.2⟩ ⟨1 / inc.2, [⟨B0, 1, r.angle, r.freq.2⟩], 0, fun _ => 0⟩
    P y [] [] (hst _ hy.1) (hst _ hy.2)
  simp only [mul_one, ht', hu', ← hcθ, ← hsθ] at Di Dr Df Ei Er Ef
  have hloop : coreLoop W T four nt nOct ss ph.couplings [⟨1 / inc.1, [⟨B0, 1, r.angle, r.freq.1⟩], 0, fun _ => 0⟩, ⟨1 / inc.2, [⟨B0, 1, r.angle, r.freq.2⟩], 0, fun _ => 0⟩]
      P (pack ss [x, y]) = .ok ([D, E], P) := by
    rw [List.append_nil] at hD hE'
    rw [coreLoop]
    simp only
    rw [hD]
    simp only
    rw [coreLoop]
    simp only [List.append_nil]
    rw [hE']
    rfl
  set m : List ℝ := [1 * (inc.1 / inc.1), 0 * (inc.2 / inc.1), 0, inc.2 / inc.2] with hm
  have hprep : Meth.prepareAffine [inc.1, inc.2] ([1, 0, 0, 1] : List ℝ) = .ok m := (shear_value 1 0 inc.1 inc.2 0 0).1
  have hsh : ∀ z w, sheared m z w = (z, w) := by
    intro z w
    rw [hm, (shear_value 1 0 inc.1 inc.2 z w).2, div_self i0.ne', div_self i1.ne']
    simp
  set pf := fun v : Tens => (powderFrequencies W four nt nOct P cθ sθ v).1 with hpf
  set bl := fun v : Tens => (batch W four nOct (fun q => (gridBeta nt q).1) (fun q => (gridBeta nt q).2) v.R2 v.R4 nOct P).1 with hbl
  have hDf : (fun q => (sheared m (D.freq q) (E.freq q)).1) = fun q => 1 / inc.1 * pf t q := by
    funext q
    rw [hsh, Df]
  have hEf : (fun q => (sheared m (D.freq q) (E.freq q)).2) = fun q => 1 / inc.2 * pf u q := by
    funext q
    rw [hsh, Ef]
  have hres := Clear.resolved W four nt nOct hn hO junk cθ sθ (1 / inc.1) t hA
  obtain ⟨hl, hfft1⟩ := Bin.C40_fft_order r.sidebands hN r.freq.1
  obtain ⟨-, hfft2⟩ := Bin.C40_fft_order r.sidebands hN r.freq.2
  have hdir : ∀ (v : Tens) (a : ℕ), a < nOct * Bin.nPts nt → ∃ p, pf v a = dirFreq W four cθ sθ v p - v.R0 := by
    intro v a ha
    obtain ⟨j, q, p, α, β, rfl, hj, hq, hp⟩ := index_dir nt nOct hn a ha
    refine ⟨(α, β), ?_⟩
    have := powder_dir W four nt nOct hn hO junk cθ sθ v j q hj p hq α β hp
    unfold dirFreq
    rw [hpf]
    simp only
    linarith
  set A : Bin.Axis ℝ := ⟨1 / inc.1 * t.R0, 1 / inc.1, off.1, d.1.count, fun i => (Bin.fftOrder (r.sidebands : ℤ) r.freq.1).getD i 0,
    fun q => 1 / inc.1 * pf t q, eventAmplitude W four nt nOct r.sidebands r.freq.1 cθ sθ (bl t)⟩ with hAx
  set B : Bin.Axis ℝ := ⟨1 / inc.2 * u.R0, 1 / inc.2, off.2, d.2.count, fun i => (Bin.fftOrder (r.sidebands : ℤ) r.freq.2).getD i 0,
    fun q => 1 / inc.2 * pf u q, fun a => eventAmplitude W four nt nOct r.sidebands r.freq.2 cθ sθ (bl u) a
        * Sim.normAmplitude r.sidebands nOct (Bin.weight nt (a % Bin.nPts nt))⟩ with hBx
  have hget : ∀ (l : List ℝ) (i : ℕ) (z : ℝ), l[i]? = some z → l.getD i 0 = z := by
    intro l i z h
    rw [List.getD_eq_getElem?_getD, h]
    rfl
  obtain ⟨w, w1, e, e1, hw⟩ := Bin.averaging_rows (fun n => m.getD n 0)
    (by simp [hm, div_self i0.ne']) (by simp [hm]) A B nt nOct r.sidebands hd.1 hO1
    (Bin.fftOrder (r.sidebands : ℤ) r.freq.1) hl (fun i _ => rfl)
    (fun a => (r.sidebands : ℝ) ^ 2 * amplitudeArray W four nt nOct r.sidebands r.freq.1 cθ sθ (bl t) a)
    (fun i _ a ha => amplitudes_sum W four nt nOct r.sidebands r.freq cθ sθ (bl t) (bl u)
      (fun j hj => batch_some W four nOct _ _ _ _ nOct j hj P) i a ha)
    hres
    (by
      intro i hi
      obtain ⟨k, hk, -, k1, k2⟩ := hfft1 i hi
      have hpos : ∀ a < nOct * Bin.nPts nt, ∃ p, A.freq a + (A.norm + A.r0 + A.vr i * A.inv)
          = off.1 + (dirFreq W four cθ sθ t p + k * r.freq.1) / inc.1 := by
        intro a ha
        obtain ⟨p, hp⟩ := hdir t a ha
        refine ⟨p, ?_⟩
        rw [hAx]
        simp only
        rw [hp, hget _ _ _ hk]
        field_simp
        ring
      rcases hE k k1 k2 with h | h
      · refine Or.inl fun a ha => ?_
        obtain ⟨p, hp⟩ := hpos a ha
        rw [hp]
        exact h p
      · refine Or.inr fun a ha => ?_
        obtain ⟨p, hp⟩ := hpos a ha
        rw [hp]
        exact h p)
    (by
      intro i _ k' hk' _
      right
      obtain ⟨k, hk, -, k1, k2⟩ := hfft2 k' hk'
      have ho : (Bin.offsets2D (fun n => m.getD n 0) A B i k').2 = off.2 + (u.R0 + k * r.freq.2) / inc.2 := by
        unfold Bin.offsets2D
        rw [hBx]
        simp only [hm, List.getD_cons_zero, List.getD_cons_succ, div_self i1.ne', hget _ _ _ hk]
        field_simp
        ring
      rw [ho]
      constructor
      · have hc := tens_mean_le W four cθ sθ u ((d.2.count / 2 - off.2) * inc.2 - k * r.freq.2) ((d.2.count / 2 - 1 / 2) * inc.2) (fun p => by
          obtain ⟨a1, a2⟩ := hF k k1 k2 p
          rw [abs_le]
          have e2 : off.2 + (dirFreq W four cθ sθ u p + k * r.freq.2) / inc.2 - d.2.count / 2
            = (dirFreq W four cθ sθ u p - ((d.2.count / 2 - off.2) * inc.2 - k * r.freq.2)) / inc.2 := by
            field_simp
            ring
          constructor
          · rw [← neg_mul, ← le_div_iff₀ i1, ← e2]
            linarith
          · rw [← div_le_iff₀ i1, ← e2]
            linarith)
        have e2 : off.2 + (u.R0 + k * r.freq.2) / inc.2 - d.2.count / 2
            = (u.R0 - ((d.2.count / 2 - off.2) * inc.2 - k * r.freq.2)) / inc.2 := by
          field_simp
          ring
        rw [abs_le, ← neg_mul, ← le_div_iff₀ i1, ← div_le_iff₀ i1, ← e2] at hc
        exact Bin.inWindow_inside _ _ (by linarith [hc.1]) (by linarith [hc.2])
      · intro a ha
        obtain ⟨p, hp⟩ := hdir u a ha
        have e2 : B.freq a + (off.2 + (u.R0 + k * r.freq.2) / inc.2) = off.2 + (dirFreq W four cθ sθ u p + k * r.freq.2) / inc.2 := by
          rw [hBx]
          simp only
          rw [hp]
          field_simp
          ring
        rw [e2]
        exact hF k k1 k2 p)
  obtain ⟨w2, w3, e2, e3, hw2⟩ := Bin.averaging1D_smul nt nOct (Bin.fftOrder (r.sidebands : ℤ) r.freq.1) A.inv A.norm A.r0 A.freq
    (amplitudeArray W four nt nOct r.sidebands r.freq.1 cθ sθ (bl t)) ((r.sidebands : ℝ) ^ 2) d.1.count hd.1 hO1 hres
  refine ⟨w, w2, ?_, ?_, fun i => ?_⟩
  · unfold mapWrites
    simp only
    have hpk : pack ph.sites [x, y] = pack ss [x, y] := by
      unfold pack
      simp only [hq]
    have hcast : (([1, 0, 0, 1] : List ℚ).map fun (q : ℚ) => (q : ℝ)) = [1, 0, 0, 1] := by simp
    simp only [qnum_cast]
    rw [packQ_pair, hpk, hcast, ← hinc, ← hoff, ← ht, ← hu]
    unfold map2D
    rw [hprep]
    have hi1 : ((d.1.sw / d.1.count : ℚ) : ℝ) = inc.1 := by rw [hinc]
    have hi2 : ((d.2.sw / d.2.count : ℚ) : ℝ) = inc.2 := by rw [hinc]
    simp only
    rw [hi1, hi2, ← hfour, ← hP, ← hss, hloop]
    simp only
    rw [hDf, hEf, Dr, Di, Er, Ei, ← e]
    rfl
  · rw [← e2]
    unfold rotorWrites
    simp only [qnum_cast]
    rw [spectrum_scaled W four nt nOct r.sidebands r.freq.1 r.freq.1 cθ sθ ((1 / (d.1.sw / d.1.count) : ℚ) : ℝ)
      ((1 / (d.1.sw / d.1.count) : ℚ) : ℝ) ((Meth.normalizeOffset (decide (0 < lib.gamma c)) d.1 : ℚ) : ℝ)
      ((Meth.normalizeOffset (decide (0 < lib.gamma c)) d.1 : ℚ) : ℝ) 1 one_ne_zero (Or.inr (one_mul _).symm) (one_mul _) d.1.count P _
      (startRows_alike four junk junk' nt) t _ (by rw [ht]) (by rw [ht]; simp) (by rw [ht]; simp)]
    have : ((1 / (d.1.sw / d.1.count) : ℚ) : ℝ) = 1 / inc.1 := by
      rw [hinc]
      push_cast
      rfl
    unfold spectrum
    simp only
    rw [this, mul_comm t.R0, hAx, hoff]
    rfl
  · rw [hw i, ← hw2 i]
    have : (Except.ok w1 : Py (Bin.Writes ℝ)) = .ok w3 := by rw [← e1, ← e3]
    injection this with this
    rw [this]

/-! ## Specification -/

/-- The place of a frequency on an axis, in points: the points are drawn around the places `1/2`, `3/2`, … `count - 1/2`, from the lowest
frequency to the highest, or the other way round if the gyromagnetic ratio is negative. -/
noncomputable def Spec.place (pos : Bool) (d : Meth.SDim) (f : ℝ) : ℝ :=
  ((d.count : ℝ) + 1) / 2 + (if pos then 1 else -1) * (f - d.ref) / (d.sw / d.count)

/-- The orders of the sidebands that `N` steps of the rotor resolve. -/
def Spec.Order (N : ℕ) (m : ℤ) : Prop := -(N : ℤ) ≤ 2 * m ∧ 2 * m < N

/-- The frequency `f` is the same in all directions, or it differs by a millionth of a point at least along the axes, and at the corners of every
triangle of the grid. -/
def Spec.Graded (nt nOct : ℕ) (d : Meth.SDim) (f : ℝ × ℝ → ℝ) : Prop :=
  Spec.Sharp f ∨ (Spec.Wide d f ∧ ∀ j < nOct, ∀ t, Bin.Spec.IsTriangle nt t → ∀ a b c : ℝ × ℝ,
    Spec.Points a.1 a.2 (Spec.quarter j (Bin.Spec.point nt t.1)) → Spec.Points b.1 b.2 (Spec.quarter j (Bin.Spec.point nt t.2.1)) →
    Spec.Points c.1 c.2 (Spec.quarter j (Bin.Spec.point nt t.2.2)) →
    ((d.sw / d.count / 1000000 : ℚ) : ℝ) ≤ |f a - f b| ∨ ((d.sw / d.count / 1000000 : ℚ) : ℝ) ≤ |f a - f c|)

/-- The frequencies `f` and their sidebands either all lie above the place `-1`, which is a point and a half below the first one, or
stay clear of the two points above it. -/
def Spec.ClearEdge (pos : Bool) (d : Meth.SDim) (N : ℕ) (ν : ℝ) (f : ℝ × ℝ → ℝ) : Prop :=
  ∀ m : ℤ, Spec.Order N m → (∀ p, -1 < Spec.place pos d (f p + (if pos then 1 else -1) * (m * ν))) ∨
    ∀ p, Spec.place pos d (f p + (if pos then 1 else -1) * (m * ν)) ≤ -1 ∨ 1 ≤ Spec.place pos d (f p + (if pos then 1 else -1) * (m * ν))

/-- The frequencies `f` and all their sidebands lie between the first point and the last. -/
def Spec.OnAxis (pos : Bool) (d : Meth.SDim) (N : ℕ) (ν : ℝ) (f : ℝ × ℝ → ℝ) : Prop :=
  ∀ m : ℤ, Spec.Order N m → ∀ p, 1 / 2 ≤ Spec.place pos d (f p + (if pos then 1 else -1) * (m * ν)) ∧
    Spec.place pos d (f p + (if pos then 1 else -1) * (m * ν)) ≤ d.count - 1 / 2

/-! ## Lemmas: runs -/

theorem place_position (pos : Bool) (d : Meth.SDim) (hn : 1 ≤ d.count) (hsw : 0 < d.sw) (g z : ℝ) :
    Spec.place pos d ((if pos then 1 else -1) * g + (if pos then 1 else -1) * z)
      = ((Meth.normalizeOffset pos d : ℚ) : ℝ) + (g + z) / ((d.sw / d.count : ℚ) : ℝ) := by
  rw [position_middle pos d hn hsw]
  unfold Spec.place
  push_cast
  rw [← mul_add]
  ring

/-- The rows of the map of one pathway, in the terms of the specification. -/
theorem path_rows (lib : Library) (c : String) (B0 : ℝ) (r : Rotor2) (hr : 0 < r.freq.1 ∧ 0 < r.freq.2) (d : Meth.SDim × Meth.SDim)
    (hd : 1 ≤ d.1.count ∧ 1 ≤ d.2.count) (hsw : 0 < d.1.sw ∧ 0 < d.2.sw) (nOct : ℕ) (hO : nOct = 1 ∨ nOct = 4)
    (junk junk' : ℕ → ℕ → ℂ) (nt : ℕ) (hn : 1 ≤ nt) (s : Run.Sys Phys (List Trans.Tr)) (hs : Spec.Given lib s) (central central' : Bool)
    (x y : List ℕ × List ℕ) (hx : Spec.Observed c central s.isotopes s.phys.sites x) (hy : Spec.Observed c central' s.isotopes s.phys.sites y)
    (hA : Spec.Graded nt nOct d.1 (Spec.spunLine lib c B0 r.freq.1 r.angle (Spec.upright s.phys) x))
    (hE : Spec.ClearEdge (decide (0 < lib.gamma c)) d.1 r.sidebands r.freq.1 (Spec.spunLine lib c B0 r.freq.1 r.angle (Spec.upright s.phys) x))
    (hF : Spec.OnAxis (decide (0 < lib.gamma c)) d.2 r.sidebands r.freq.2 (Spec.spunLine lib c B0 r.freq.2 r.angle (Spec.upright s.phys) y)) :
    ∃ w w1, mapWrites WC.exact TC.exact lib c B0 r d [1, 0, 0, 1] nOct junk nt s.phys (edge s.phys.sites x ++ edge s.phys.sites y) = .ok w ∧
      rotorWrites WC.exact TC.exact lib c B0 ⟨r.sidebands, r.pos, r.freq.1, r.angle⟩ d.1 nOct junk' nt s.phys
        (qnum (s.phys.sites.map Site.n) x.1, qnum (s.phys.sites.map Site.n) x.2) = .ok w1 ∧
      ∀ i, Bin.Spec.rowSum d.2.count i w = (r.sidebands : ℝ) ^ 2 * Bin.at_ i w1 := by
  have hS := upright_sound lib s hs
  set pos := decide (0 < lib.gamma c) with hpos
  have hsgn : (if 0 < lib.gamma c then (1 : ℝ) else -1) = if pos then 1 else -1 := by simp [hpos]
  have hline : ∀ (ν : ℝ), 0 < ν → ∀ (b : Bool) (z : List ℕ × List ℕ), Spec.Observed c b s.isotopes s.phys.sites z → ∀ p,
      Spec.spunLine lib c B0 ν r.angle (Spec.upright s.phys) z p = (if pos then 1 else -1) *
        dirFreq WC.exact (fourth (lib.twoI c)) (Real.cos r.angle) (Real.sin r.angle) (methodComponents WC.exact TC.exact (lib.twoI c) B0
          s.phys.sites s.phys.couplings (Spec.quantum s.phys.sites z.1) (Spec.quantum s.phys.sites z.2)) p := by
    intro ν hν b z hz p
    have hz' : Spec.Observed c b (Spec.uprightSys s).isotopes (Spec.uprightSys s).phys.sites z :=
      observed_n c b _ _ _ (absSite_n _) z hz
    have hquant : ∀ q, Spec.quantum (s.phys.sites.map Spec.absSite) q = Spec.quantum s.phys.sites q := by
      intro q
      rw [← qnum_cast, absSite_n, qnum_cast]
    have hspec := observed_spectator lib c b _ _ hS.spins z hz'
    have hflat := method_dirFreq WC.exact TC.exact (lib.twoI c) B0 (Real.cos r.angle) (Real.sin r.angle) (Spec.uprightSys s).phys.sites
      (Spec.uprightSys s).phys.couplings z.1 z.2 (fun s' h' => (hS.sites s' h').2) hspec
    have hC := C75_average_partial true B0 p.1 p.2 r.angle ν hν (Spec.uprightSys s).phys.sites (Spec.uprightSys s).phys.couplings z.1 z.2
      hz'.initial hz'.final hS.sites hS.couplings
    rw [← methodComponents_absolute, ← hquant, ← hquant]
    unfold Spec.spunLine
    rw [hsgn]
    congr 1
    refine hC.symm.trans ?_
    exact (congrFun hflat p).symm
  have hinc1 : (0 : ℝ) < ((d.1.sw / d.1.count : ℚ) : ℝ) := Rat.cast_pos.mpr (div_pos hsw.1 (by exact_mod_cast hd.1))
  set g := dirFreq WC.exact (fourth (lib.twoI c)) (Real.cos r.angle) (Real.sin r.angle) (methodComponents WC.exact TC.exact (lib.twoI c) B0
          s.phys.sites s.phys.couplings (Spec.quantum s.phys.sites x.1) (Spec.quantum s.phys.sites x.2)) with hg
  have hx1 := hline r.freq.1 hr.1 central x hx
  have hy1 := hline r.freq.2 hr.2 central' y hy
  have hss : (if pos then (1 : ℝ) else -1) * (if pos then 1 else -1) = 1 := sign_sq _
  have hdiff : ∀ a b, |Spec.spunLine lib c B0 r.freq.1 r.angle (Spec.upright s.phys) x a - Spec.spunLine lib c B0 r.freq.1 r.angle (Spec.upright s.phys) x b|
      = |g a - g b| := by
    intro a b
    rw [hx1, hx1, ← mul_sub, abs_mul]
    have h1 : |(if pos then (1 : ℝ) else -1)| = 1 := by split_ifs <;> simp
    rw [h1, one_mul]
  have hmil : ∀ a b, ((d.1.sw / d.1.count / 1000000 : ℚ) : ℝ) ≤ |Spec.spunLine lib c B0 r.freq.1 r.angle (Spec.upright s.phys) x a
        - Spec.spunLine lib c B0 r.freq.1 r.angle (Spec.upright s.phys) x b| → 1 / 1000000 ≤ |1 / ((d.1.sw / d.1.count : ℚ) : ℝ) * (g a - g b)| := by
    intro a b h
    rw [hdiff] at h
    rw [abs_mul, abs_of_pos (by positivity), one_div_mul_eq_div, le_div_iff₀ hinc1]
    rw [Rat.cast_div] at h
    push_cast at h ⊢
    linarith
  refine map_rows WC.exact TC.exact lib c B0 r d hd hsw nOct hO junk junk' nt hn s.phys x y ⟨hx.initial, hx.final⟩ ⟨hy.initial, hy.final⟩ _ _ rfl rfl
    _ _ rfl rfl ?_ ?_ ?_
  · rcases hA with ⟨a, ha⟩ | ⟨h1, h2⟩
    · refine Or.inl ⟨(if pos then 1 else -1) * a, fun p => ?_⟩
      have := ha p
      rw [hx1] at this
      rw [← this, ← mul_assoc, hss, one_mul]
    · refine Or.inr ⟨?_, fun j hj t ht a b e ha hb he => ?_⟩
      · unfold Spread
        rw [not_and_or, not_lt, not_lt]
        exact h1.imp (hmil _ _) (hmil _ _)
      · exact (h2 j hj t ht a b e ha hb he).imp (hmil _ _) (hmil _ _)
  · intro m m1 m2
    have h := hE m ⟨m1, m2⟩
    simp only [hx1, place_position pos d.1 hd.1 hsw.1] at h
    exact h
  · intro m m1 m2 p
    have h := hF m ⟨m1, m2⟩ p
    simp only [hy1, place_position pos d.2 hd.2 hsw.2] at h
    exact h

/-- Runs of which one is a linear image of the other, up to a factor. -/
theorem runs_linear {Φ Path V V' : Type} [AddCommGroup V] [Module ℚ V] [AddCommGroup V'] [Module ℚ V'] (env : Run.Env Φ Path V) (env' : Run.Env Φ Path V')
    (π : V →+ V') (k : ℚ) (hm : ∀ v, π (env.mirror v) = env'.mirror (π v))
    (hg : env'.gammaNeg = env.gammaNeg) (l : List (Run.Sys Φ Path)) (hu : Run.Spec.Uniform env l) (hu' : Run.Spec.Uniform env' l)
    (h : ∀ s ∈ l, ∃ (o : Option V) (o' : Option V'), Run.alone env s = .ok o ∧ Run.alone env' s = .ok o' ∧ π (Run.val o) = k • Run.val o')
    (cpu cpu' nJobs nJobs' : ℤ) (hJ : 1 ≤ nJobs) (hJ' : 1 ≤ nJobs') :
    ∃ v v', Run.run env cpu false l nJobs = .ok [.spec v] ∧ Run.run env' cpu' false l nJobs' = .ok [.spec v'] ∧ π v = k • v' := by
  have key : ∃ (os : List (Option V)) (os' : List (Option V')), l.mapM (Run.alone env) = .ok os ∧ l.mapM (Run.alone env') = .ok os' ∧
      π (os.map Run.val).sum = k • (os'.map Run.val).sum := by
    clear hu hu'
    induction l with
    | nil => exact ⟨[], [], rfl, rfl, by simp⟩
    | cons s l ih =>
      obtain ⟨o, o', e1, e2, e3⟩ := h s (by simp)
      obtain ⟨os, os', f1, f2, f3⟩ := ih (fun s hs => h s (by simp [hs]))
      refine ⟨o :: os, o' :: os', ?_, ?_, ?_⟩
      · rw [List.mapM_cons, e1, f1]
        rfl
      · rw [List.mapM_cons, e2, f2]
        rfl
      · rw [List.map_cons, List.sum_cons, map_add, e3, f3, List.map_cons, List.sum_cons, smul_add]
  obtain ⟨os, os', e1, e2, e3⟩ := key
  refine ⟨Run.mir env (os.map Run.val).sum, Run.mir env' (os'.map Run.val).sum, ?_, ?_, ?_⟩
  · rw [Run.run_sum env cpu l hu nJobs hJ, e1]
  · rw [Run.run_sum env' cpu' l hu' nJobs' hJ', e2]
  · unfold Run.mir
    rw [hg]
    split_ifs
    · rw [hm, e3, map_rat_smul]
    · exact e3

/-- The pathways of two dimensions with one event each: every pair of observed transitions once. -/
theorem selected_pairs (lib : Library) (so : Trans.SetOrder) (c : String) (central central' : Bool) (s : Run.Sys Phys (List Trans.Tr))
    (hs : Spec.Given lib s) (hc : c ∈ s.isotopes) :
    ∃ paths, Trans.transitionPathways so (isoSites lib s.isotopes) [c]
        ((if central then Trans.blochDecayCT else Trans.blochDecay) ++ (if central' then Trans.blochDecayCT else Trans.blochDecay)) = .ok paths ∧
      paths.Nodup ∧ ∀ p, p ∈ paths ↔ ∃ x y, Spec.Observed c central s.isotopes s.phys.sites x ∧ Spec.Observed c central' s.isotopes s.phys.sites y ∧
        p = edge s.phys.sites x ++ edge s.phys.sites y := by
  have hc' : c ∈ (isoSites lib s.isotopes).map Trans.Iso.symbol := by
    rw [isoSites, List.map_map]
    exact List.mem_map.mpr ⟨c, hc, rfl⟩
  have hsel : ∀ b : Bool, ∃ sel, Trans.eventTransitions so (isoSites lib s.isotopes) [c] ⟨[(1, [[-1]])], if b then some [(1, [[0]])] else none⟩ = .ok sel ∧
      sel.Nodup ∧ ∀ t, t ∈ sel ↔ Trans.Spec.IsTransition (isoSites lib s.isotopes) t ∧
        Trans.Spec.Moves (isoSites lib s.isotopes) c 1 (-1) (if b then some [1 / 2] else none) t := by
    intro b
    cases b
    · exact Trans.select_moves so _ c 1 (-1) (by norm_num) (by norm_num) (List.count_pos_iff.mpr hc')
    · exact Trans.ct_select so _ c hc'
  have key := Trans.pathways_two so (isoSites lib s.isotopes) [c] _ _ _ _ (hsel central) (hsel central')
  obtain ⟨paths, h1, h2, h3⟩ := key
  refine ⟨paths, ?_, h2, fun p => ?_⟩
  · rw [← h1]
    cases central <;> cases central' <;> rfl
  rw [h3]
  simp only [List.forall₂_cons_left_iff, List.forall₂_nil_left_iff]
  constructor
  · rintro ⟨t, u, ht, ⟨t', u', ht', rfl, rfl⟩, rfl⟩
    obtain ⟨x, hx, rfl⟩ := (moves_observed lib c central s.isotopes s.phys.sites hs.spins t).mp ht
    obtain ⟨y, hy, rfl⟩ := (moves_observed lib c central' s.isotopes s.phys.sites hs.spins t').mp ht'
    exact ⟨x, y, hx, hy, rfl⟩
  · rintro ⟨x, y, hx, hy, rfl⟩
    exact ⟨_, _, (moves_observed lib c central s.isotopes s.phys.sites hs.spins _).mpr ⟨x, hx, rfl⟩,
      ⟨_, [], (moves_observed lib c central' s.isotopes s.phys.sites hs.spins _).mpr ⟨y, hy, rfl⟩, rfl, rfl⟩, rfl⟩

/-- The sum of a map over its second dimension. -/
noncomputable def project (n m : ℕ) [NeZero m] : (ZMod n → ZMod m → ℝ) →+ (ZMod n → ℝ) where
  toFun := fun u i => ∑ l, u i l
  map_zero' := by funext i; simp
  map_add' := fun u v => by funext i; simp [Finset.sum_add_distrib]

theorem sum_rows (m : ℕ) [NeZero m] (r : ℤ) (w : Bin.Writes ℝ) : ∑ l : ZMod m, Bin.val (r * m + l.val) (.ok w) = Bin.Spec.rowSum m r w := by
  rw [← sum_zmod_range m (fun l => Bin.val (r * m + l.val) (.ok w))]
  unfold Bin.Spec.rowSum
  rw [Bin.sum_range_list]
  refine Finset.sum_congr rfl fun k hk => ?_
  rw [ZMod.val_natCast_of_lt (Finset.mem_range.mp hk)]
  rfl

theorem pair_inj (c : String) (central central' : Bool) (iso : List String) (ss : List Site) (z z' : (List ℕ × List ℕ) × (List ℕ × List ℕ))
    (h1 : Spec.Observed c central iso ss z.1) (h2 : Spec.Observed c central' iso ss z.2) (h1' : Spec.Observed c central iso ss z'.1)
    (h2' : Spec.Observed c central' iso ss z'.2) (h : edge ss z.1 ++ edge ss z.2 = edge ss z'.1 ++ edge ss z'.2) : z = z' := by
  obtain ⟨e1, e2⟩ := List.append_inj h rfl
  exact Prod.ext (edge_inj c central iso ss h1 h1' e1) (edge_inj c central' iso ss h2 h2' e2)

/-- What one spin system adds to the map and to the spectrum. -/
theorem system_rows (lib : Library) (so so' : Trans.SetOrder) (c : String) (central central' : Bool)
    (hcen : central = true ∨ central' = true → lib.twoI c % 2 = 1) (B0 : ℝ) (r : Rotor2)
    (hr : 1 / 1000 ≤ r.freq.1 ∧ 1 / 1000 ≤ r.freq.2) (d : Meth.SDim × Meth.SDim) [NeZero d.1.count] [NeZero d.2.count]
    (hsw : 0 < d.1.sw ∧ 0 < d.2.sw) (nOct : ℕ) (hO : nOct = 1 ∨ nOct = 4)
    (junk : Phys → List Trans.Tr → ℕ → ℕ → ℂ) (junk' : ℕ → Phys → List Trans.Tr → ℕ → ℕ → ℂ) (nt : ℕ) (hn : 1 ≤ nt)
    (s : Run.Sys Phys (List Trans.Tr)) (hs : Spec.Given lib s) (M : ℕ)
    (hM : c ∈ s.isotopes → Set.ncard {y | Spec.Observed c central' s.isotopes s.phys.sites y} = M)
    (hX : ∀ x, Spec.Observed c central s.isotopes s.phys.sites x →
      Spec.Graded nt nOct d.1 (Spec.spunLine lib c B0 r.freq.1 r.angle (Spec.upright s.phys) x) ∧
      Spec.ClearEdge (decide (0 < lib.gamma c)) d.1 r.sidebands r.freq.1 (Spec.spunLine lib c B0 r.freq.1 r.angle (Spec.upright s.phys) x))
    (hY : ∀ y, Spec.Observed c central' s.isotopes s.phys.sites y →
      Spec.OnAxis (decide (0 < lib.gamma c)) d.2 r.sidebands r.freq.2 (Spec.spunLine lib c B0 r.freq.2 r.angle (Spec.upright s.phys) y)) :
    ∃ o o', Run.alone (mapEnv WC.exact TC.exact lib so c
        ((if central then Trans.blochDecayCT else Trans.blochDecay) ++ (if central' then Trans.blochDecayCT else Trans.blochDecay))
        [1, 0, 0, 1] B0 r d nOct junk nt) s = .ok o ∧
      Run.alone (pulseEnv WC.exact TC.exact lib so' c central B0 ⟨r.sidebands, r.pos, r.freq.1, r.angle⟩ d.1 nOct junk' nt) s = .ok o' ∧
      project d.1.count d.2.count (Run.val o) = (r.sidebands ^ 2 * M / (d.2.sw / d.2.count) : ℚ) • Run.val o' := by
  classical
  have hr0 : 0 < r.freq.1 ∧ 0 < r.freq.2 := ⟨by linarith [hr.1], by linarith [hr.2]⟩
  have hd : 1 ≤ d.1.count ∧ 1 ≤ d.2.count := ⟨Nat.pos_of_ne_zero (NeZero.ne _), Nat.pos_of_ne_zero (NeZero.ne _)⟩
  set env := mapEnv WC.exact TC.exact lib so c
        ((if central then Trans.blochDecayCT else Trans.blochDecay) ++ (if central' then Trans.blochDecayCT else Trans.blochDecay))
        [1, 0, 0, 1] B0 r d nOct junk nt with henv
  set env' := pulseEnv WC.exact TC.exact lib so' c central B0 ⟨r.sidebands, r.pos, r.freq.1, r.angle⟩ d.1 nOct junk' nt with henv'
  have hp := pulse_alone WC.exact TC.exact lib so' c central (fun h => hcen (Or.inl h)) B0 ⟨r.sidebands, r.pos, r.freq.1, r.angle⟩ d.1 nOct junk' nt s hs
  rw [← henv'] at hp
  by_cases hc : c ∈ s.isotopes
  swap
  · refine ⟨none, none, ?_, ?_, ?_⟩
    · unfold Run.alone
      rw [if_pos (show env.channel ∉ s.isotopes from hc)]
    · rw [hp, if_neg hc]
    · change project _ _ 0 = _ • 0
      rw [map_zero, smul_zero]
  rw [if_pos hc] at hp
  obtain ⟨paths, p1, p2, p3⟩ := selected_pairs lib so c central central' s hs hc
  set Fx := (observed_finite lib c central s hs hc).toFinset with hFx
  set Fy := (observed_finite lib c central' s hs hc).toFinset with hFy
  have mx : ∀ x, x ∈ Fx ↔ Spec.Observed c central s.isotopes s.phys.sites x := fun x => by rw [hFx, Set.Finite.mem_toFinset]; rfl
  have my : ∀ x, x ∈ Fy ↔ Spec.Observed c central' s.isotopes s.phys.sites x := fun x => by rw [hFy, Set.Finite.mem_toFinset]; rfl
  have hcard : Fy.card = M := by
    rw [← hM hc, hFy, Set.ncard_eq_toFinset_card _ (observed_finite lib c central' s hs hc)]
  have hsum : (paths.map (env.core s.phys)).sum = ∑ x ∈ Fx, ∑ y ∈ Fy, env.core s.phys (edge s.phys.sites x ++ edge s.phys.sites y) := by
    rw [← List.sum_toFinset _ p2, ← Finset.sum_product']
    symm
    refine Finset.sum_bij (fun z _ => edge s.phys.sites z.1 ++ edge s.phys.sites z.2) (fun z hz => ?_) (fun z hz z' hz' h => ?_) (fun p hp => ?_) (fun _ _ => rfl)
    · obtain ⟨h1, h2⟩ := Finset.mem_product.mp hz
      exact List.mem_toFinset.mpr ((p3 _).mpr ⟨z.1, z.2, (mx _).mp h1, (my _).mp h2, rfl⟩)
    · obtain ⟨h1, h2⟩ := Finset.mem_product.mp hz
      obtain ⟨h1', h2'⟩ := Finset.mem_product.mp hz'
      exact pair_inj c central central' _ _ z z' ((mx _).mp h1) ((my _).mp h2) ((mx _).mp h1') ((my _).mp h2') h
    · obtain ⟨x, y, hx, hy, rfl⟩ := (p3 p).mp (List.mem_toFinset.mp hp)
      exact ⟨(x, y), Finset.mem_product.mpr ⟨(mx _).mpr hx, (my _).mpr hy⟩, rfl⟩
  have hne : paths ≠ [] := by
    intro h0
    obtain ⟨x, hx⟩ := observed_exists lib c central (fun h => hcen (Or.inl h)) s hs hc
    obtain ⟨y, hy⟩ := observed_exists lib c central' (fun h => hcen (Or.inr h)) s hs hc
    have := (p3 _).mpr ⟨x, y, hx, hy, rfl⟩
    rw [h0] at this
    cases this
  refine ⟨some ((s.abundance / ((d.1.sw / d.1.count) * (d.2.sw / d.2.count))) • (paths.map (env.core s.phys)).sum), _, ?_, hp, ?_⟩
  · unfold Run.alone
    rw [if_neg (show ¬ env.channel ∉ s.isotopes from not_not.mpr hc)]
    have : Run.Spec.pathways env s = .ok paths := by
      unfold Run.Spec.pathways
      rw [hs.explicit]
      exact p1
    rw [this]
    simp only [Bind.bind, Except.bind]
    rw [← foldl_core]
    cases hps : paths with
    | nil => exact absurd hps hne
    | cons a b => rfl
  · have hfin : (∑ᶠ (x) (_ : Spec.Observed c central s.isotopes s.phys.sites x), env'.core s.phys (edge s.phys.sites x))
        = ∑ x ∈ Fx, env'.core s.phys (edge s.phys.sites x) := by
      exact finsum_mem_eq_finite_toFinset_sum (fun x => env'.core s.phys (edge s.phys.sites x)) (observed_finite lib c central s hs hc)
    have hcore : ∀ x ∈ Fx, ∀ y ∈ Fy, project d.1.count d.2.count (env.core s.phys (edge s.phys.sites x ++ edge s.phys.sites y))
        = (r.sidebands ^ 2 : ℚ) • env'.core s.phys (edge s.phys.sites x) := by
      intro x hx y hy
      obtain ⟨w, w1, e, e1, hw⟩ := path_rows lib c B0 r hr0 d hd hsw nOct hO (junk s.phys (edge s.phys.sites x ++ edge s.phys.sites y))
        (junk' nt s.phys (edge s.phys.sites x)) nt hn s hs central central' x y ((mx _).mp hx) ((my _).mp hy) (hX x ((mx _).mp hx)).1
        (hX x ((mx _).mp hx)).2 (hY y ((my _).mp hy))
      have hseen : Rotor.seen ⟨r.sidebands, r.pos, r.freq.1, r.angle⟩ = ⟨r.sidebands, r.pos, r.freq.1, r.angle⟩ :=
        if_neg (not_lt.mpr hr.1)
      funext i
      change ∑ l : ZMod d.2.count, Bin.val ((i.val : ℤ) * d.2.count + l.val) (mapWrites _ _ _ _ _ _ _ _ _ _ _ _ _) = _
      rw [e, sum_rows, hw, Pi.smul_apply, Rat.smul_def]
      push_cast
      congr 1
      change _ = Bin.val (i.val : ℤ) (pulseWrites _ _ _ _ _ _ _ _ _ _ _ _)
      unfold pulseWrites
      rw [hseen, e1]
      rfl
    change project _ _ (_ • _) = _ • (_ • _)
    rw [map_rat_smul, hsum, map_sum, hfin, smul_smul]
    have : ∀ x ∈ Fx, project d.1.count d.2.count (∑ y ∈ Fy, env.core s.phys (edge s.phys.sites x ++ edge s.phys.sites y))
        = (r.sidebands ^ 2 * M : ℚ) • env'.core s.phys (edge s.phys.sites x) := by
      intro x hx
      rw [map_sum, Finset.sum_congr rfl (fun y hy => hcore x hx y hy), Finset.sum_const, hcard, ← Nat.cast_smul_eq_nsmul ℚ, smul_smul]
      congr 1
      ring
    rw [Finset.sum_congr rfl this, ← Finset.smul_sum, smul_smul]
    congr 1
    field_simp

theorem project_mirror (n m : ℕ) [NeZero n] [NeZero m] (u : ZMod n → ZMod m → ℝ) :
    project n m (Sim.mirror2 u) = Sim.mirror1 (project n m u) := by
  funext i
  rw [Sim.C59_mirror1]
  change ∑ l, Sim.mirror2 u i l = ∑ l, u (-i) l
  simp only [Sim.C59_mirror2]
  exact Equiv.sum_comp (Equiv.neg (ZMod m)) (fun l => u (-i) l)

/-! ## Properties -/

/-- **C107, partial.** A method of two dimensions with one event each on the same channel, without an affine matrix, for any list of spin
systems: the sum of the map over the points of its second dimension, times the increment, is a multiple of the spectrum that the method of the first
dimension alone yields, at every point of the first axis.  The factor is the number `M` of transitions of the second dimension, times the square of
the number of sidebands.

The hypotheses: the second frequencies are on the axis; the first ones differ at the corners of the triangles of the grid, or are
sharp, and stay clear of one end of the axis (without either it is false, `Bin.C107_counterexample_edge`, `Bin.C107_counterexample_narrow`); every
spin system has the same number of transitions in the second dimension.

Missing: the square of the number of sidebands should not be there (the map is normalised once, `C60_counterexample_2d`); rotors slower than 1 mHz; the tabulated decimals. -/
theorem C107_projection_partial (lib : Library) (so so' : Trans.SetOrder) (c : String) (central central' : Bool)
    (hcen : central = true ∨ central' = true → lib.twoI c % 2 = 1) (B0 : ℝ) (r : Rotor2)
    (hr : 1 / 1000 ≤ r.freq.1 ∧ 1 / 1000 ≤ r.freq.2) (d : Meth.SDim × Meth.SDim) [NeZero d.1.count] [NeZero d.2.count]
    (hsw : 0 < d.1.sw ∧ 0 < d.2.sw) (nOct : ℕ) (hO : nOct = 1 ∨ nOct = 4)
    (junk : Phys → List Trans.Tr → ℕ → ℕ → ℂ) (junk' : ℕ → Phys → List Trans.Tr → ℕ → ℕ → ℂ) (nt : ℕ) (hn : 1 ≤ nt)
    (l : List (Run.Sys Phys (List Trans.Tr))) (hl : ∀ s ∈ l, Spec.Given lib s)
    (hu : ∀ a ∈ l, ∀ b ∈ l, c ∈ a.isotopes → c ∈ b.isotopes → a.isotopes.length = b.isotopes.length → a.isotopes = b.isotopes)
    (M : ℕ) (hM : ∀ s ∈ l, c ∈ s.isotopes → Set.ncard {y | Spec.Observed c central' s.isotopes s.phys.sites y} = M)
    (hX : ∀ s ∈ l, ∀ x, Spec.Observed c central s.isotopes s.phys.sites x →
      Spec.Graded nt nOct d.1 (Spec.spunLine lib c B0 r.freq.1 r.angle (Spec.upright s.phys) x) ∧
      Spec.ClearEdge (decide (0 < lib.gamma c)) d.1 r.sidebands r.freq.1 (Spec.spunLine lib c B0 r.freq.1 r.angle (Spec.upright s.phys) x))
    (hY : ∀ s ∈ l, ∀ y, Spec.Observed c central' s.isotopes s.phys.sites y →
      Spec.OnAxis (decide (0 < lib.gamma c)) d.2 r.sidebands r.freq.2 (Spec.spunLine lib c B0 r.freq.2 r.angle (Spec.upright s.phys) y))
    (cpu cpu' nJobs nJobs' : ℤ) (hJ : 1 ≤ nJobs) (hJ' : 1 ≤ nJobs') :
    ∃ (v : ZMod d.1.count → ZMod d.2.count → ℝ) (v' : ZMod d.1.count → ℝ),
      Run.run (mapEnv WC.exact TC.exact lib so c
        ((if central then Trans.blochDecayCT else Trans.blochDecay) ++ (if central' then Trans.blochDecayCT else Trans.blochDecay))
        [1, 0, 0, 1] B0 r d nOct junk nt) cpu false l nJobs = .ok [.spec v] ∧
      Run.run (pulseEnv WC.exact TC.exact lib so' c central B0 ⟨r.sidebands, r.pos, r.freq.1, r.angle⟩ d.1 nOct junk' nt) cpu' false l nJobs'
        = .ok [.spec v'] ∧
      ∀ i, (∑ j, v i j) * ((d.2.sw / d.2.count : ℚ) : ℝ) = (r.sidebands : ℝ) ^ 2 * M * v' i := by
  obtain ⟨v, v', e, e', h⟩ := runs_linear (mapEnv WC.exact TC.exact lib so c
        ((if central then Trans.blochDecayCT else Trans.blochDecay) ++ (if central' then Trans.blochDecayCT else Trans.blochDecay))
        [1, 0, 0, 1] B0 r d nOct junk nt)
    (pulseEnv WC.exact TC.exact lib so' c central B0 ⟨r.sidebands, r.pos, r.freq.1, r.angle⟩ d.1 nOct junk' nt)
    (project d.1.count d.2.count) (r.sidebands ^ 2 * M / (d.2.sw / d.2.count)) (project_mirror _ _) rfl l
    (fun a ha b hb h1 h2 h3 => ⟨hu a ha b hb h1 h2 h3, by rw [(hl a ha).explicit, (hl b hb).explicit]⟩)
    (fun a ha b hb h1 h2 h3 => ⟨hu a ha b hb h1 h2 h3, by rw [(hl a ha).explicit, (hl b hb).explicit]⟩)
    (fun s hs => system_rows lib so so' c central central' hcen B0 r hr d hsw nOct hO junk junk' nt hn s (hl s hs) M (hM s hs) (hX s hs) (hY s hs))
    cpu cpu' nJobs nJobs' hJ hJ'
  refine ⟨v, v', e, e', fun i => ?_⟩
  have hi := congrFun h i
  change ∑ j, v i j = _ at hi
  rw [Pi.smul_apply, Rat.smul_def] at hi
  have hpos : (0 : ℝ) < ((d.2.sw / d.2.count : ℚ) : ℝ) :=
    Rat.cast_pos.mpr (div_pos hsw.2 (by exact_mod_cast Nat.pos_of_ne_zero (NeZero.ne d.2.count)))
  rw [hi, Rat.cast_div]
  field_simp
  push_cast
  ring

theorem example_place (a : ℚ) (p : ℝ × ℝ) (m : ℤ) (hm : Spec.Order 2 m) :
    1 ≤ Spec.place (decide (0 < exampleLib.gamma "15N")) ⟨512, 8, 0, none⟩
        (Spec.spunLine exampleLib "15N" 1 1 (Real.pi / 2) (exampleSys a).phys ([1], [0]) p
          + (if decide (0 < exampleLib.gamma "15N") then 1 else -1) * (m * 1)) ∧
      Spec.place (decide (0 < exampleLib.gamma "15N")) ⟨512, 8, 0, none⟩
        (Spec.spunLine exampleLib "15N" 1 1 (Real.pi / 2) (exampleSys a).phys ([1], [0]) p
          + (if decide (0 < exampleLib.gamma "15N") then 1 else -1) * (m * 1)) ≤ 511 := by
  have hg : decide (0 < exampleLib.gamma "15N") = false := by norm_num [exampleLib]
  have h1 := Real.sin_sq_add_cos_sq p.2
  have h2 := Real.sin_sq_add_cos_sq p.1
  have hm' : m = -1 ∨ m = 0 := by
    obtain ⟨h, h'⟩ := hm
    push_cast at h h'
    omega
  have b1 : 0 ≤ Real.sin p.2 ^ 2 * Real.cos p.1 ^ 2 := by positivity
  have b2 : Real.sin p.2 ^ 2 * Real.cos p.1 ^ 2 ≤ 1 := by nlinarith [sq_nonneg (Real.sin p.1), sq_nonneg (Real.sin p.2), sq_nonneg (Real.cos p.2), sq_nonneg (Real.cos p.1)]
  have b3 : 0 ≤ Real.cos p.2 ^ 2 := by positivity
  have b4 : Real.cos p.2 ^ 2 ≤ 1 := by nlinarith [sq_nonneg (Real.sin p.2)]
  rw [example_spun, hg]
  unfold Spec.place
  rcases hm' with rfl | rfl
  · norm_num
    constructor <;> linarith
  · norm_num
    constructor <;> linarith

/-- Non-vacuity: the correlation of one nitrogen nucleus with itself, with two sidebands. -/
example (so : Trans.SetOrder) (junk : Phys → List Trans.Tr → ℕ → ℕ → ℂ) (junk' : ℕ → Phys → List Trans.Tr → ℕ → ℕ → ℂ) (cpu : ℤ) :
    haveI : NeZero (Meth.SDim.count ⟨512, 8, 0, none⟩) := ⟨by norm_num⟩
    ∃ (v : ZMod 512 → ZMod 512 → ℝ) (v' : ZMod 512 → ℝ),
      Run.run (mapEnv WC.exact TC.exact exampleLib so "15N" Trans.cosy [1, 0, 0, 1] 1 ⟨2, inferInstance, (1, 1), Real.pi / 2⟩
        (⟨512, 8, 0, none⟩, ⟨512, 8, 0, none⟩) 1 junk 1) cpu false [exampleSys 100] 1 = .ok [.spec v] ∧
      Run.run (pulseEnv WC.exact TC.exact exampleLib so "15N" false 1 ⟨2, inferInstance, 1, Real.pi / 2⟩ ⟨512, 8, 0, none⟩ 1 junk' 1) cpu false
        [exampleSys 100] 1 = .ok [.spec v'] ∧
      ∀ i, (∑ j, v i j) * ((8 / (512 : ℕ) : ℚ) : ℝ) = (2 : ℕ) ^ 2 * (1 : ℕ) * v' i := by
  have : NeZero (Meth.SDim.count ⟨512, 8, 0, none⟩) := ⟨by norm_num⟩
  have hup := upright_id exampleLib _ (example_sound 100)
  refine C107_projection_partial exampleLib so so "15N" false false (by simp) 1 ⟨2, inferInstance, (1, 1), Real.pi / 2⟩ (by norm_num)
    (⟨512, 8, 0, none⟩, ⟨512, 8, 0, none⟩) (by norm_num) 1 (Or.inl rfl) junk junk' 1 le_rfl [exampleSys 100] ?_ ?_ 1 ?_ ?_ ?_ cpu cpu 1 1 le_rfl le_rfl
  · intro s hs
    rw [List.mem_singleton.mp hs]
    exact (example_sound 100).given
  · intro a ha b hb _ _ _
    rw [List.mem_singleton.mp ha, List.mem_singleton.mp hb]
  · intro s hs _
    rw [List.mem_singleton.mp hs]
    simp only [example_observed]
    exact Set.ncard_singleton _
  · intro s hs x hx
    rw [List.mem_singleton.mp hs] at hx ⊢
    rw [hup]
    refine ⟨Or.inr ⟨example_spun_wide 100 x hx, ?_⟩, ?_⟩
    · intro j hj t ht a b c ha hb _
      obtain rfl : j = 0 := by omega
      have : t = ((0, 0), (0, 1), (1, 0)) := by
        obtain ⟨r, q, ⟨h, rfl⟩ | ⟨h, rfl⟩⟩ := ht
        · obtain ⟨rfl, rfl⟩ : r = 0 ∧ q = 0 := by omega
          rfl
        · omega
      subst this
      left
      rw [(example_observed 100 x).mp hx, example_spun, example_spun]
      obtain ⟨ra, ra0, a1, a2, a3⟩ := ha
      obtain ⟨rb, rb0, b1, b2, b3⟩ := hb
      simp only [Spec.quarter, Bin.Spec.point] at a1 a2 a3 b1 b2 b3
      push_cast at a1 a2 a3 b1 b2 b3
      have ha3 : Real.cos a.2 = 0 := by
        rcases mul_eq_zero.mp a3 with h | h
        · exact absurd h ra0.ne'
        · exact h
      have hb3 : Real.cos b.2 = 0 := by
        rcases mul_eq_zero.mp b3 with h | h
        · exact absurd h rb0.ne'
        · exact h
      have ha2 : Real.sin a.2 * Real.sin a.1 = 0 := by
        rcases mul_eq_zero.mp a2 with h | h
        · exact absurd h ra0.ne'
        · exact h
      have hb1 : Real.sin b.2 * Real.cos b.1 = 0 := by
        have : rb * (Real.sin b.2 * Real.cos b.1) = 0 := by rw [b1]; norm_num
        rcases mul_eq_zero.mp this with h | h
        · exact absurd h rb0.ne'
        · exact h
      have e1 : Real.sin a.2 ^ 2 * Real.cos a.1 ^ 2 = 1 := by
        have s1 := Real.sin_sq_add_cos_sq a.2
        have s2 := Real.sin_sq_add_cos_sq a.1
        rw [ha3] at s1
        have : Real.sin a.2 ^ 2 * Real.sin a.1 ^ 2 = 0 := by rw [← mul_pow, ha2]; norm_num
        nlinarith
      have e2 : Real.sin b.2 ^ 2 * Real.cos b.1 ^ 2 = 0 := by rw [← mul_pow, hb1]; norm_num
      rw [e1, e2, ha3, hb3]
      norm_num
    · intro m hm
      left
      intro p
      rw [(example_observed 100 x).mp hx]
      have := (example_place 100 p m hm).1
      simp only at this ⊢
      linarith
  · intro s hs x hx
    rw [List.mem_singleton.mp hs] at hx ⊢
    rw [hup, (example_observed 100 x).mp hx]
    intro m hm p
    have := example_place 100 p m hm
    simp only at this ⊢
    norm_num at this ⊢
    constructor <;> linarith [this.1, this.2]

end MRS.Freq
