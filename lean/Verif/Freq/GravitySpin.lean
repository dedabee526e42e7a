import Verif.Freq.Slow
import Verif.Freq.Turned

/-!
# Centre of gravity of the spectrum of a spinning powder — property C114

A window holds finitely many of the sidebands.  What is missing of the area and of the first moment is bounded by the second moment of the
static pattern, which spinning does not change (C116).
-/

namespace MRS.Freq

open Filter Topology

/-! ## One crystallite -/

/-- The spread of the sidebands of a crystallite. -/
theorem sideband_spread (νr : ℝ) (hν : 0 < νr) (f : ℝ → ℝ) (hf : Continuous f) :
    HasSum (fun m : ℤ => (m * νr) ^ 2 * Spec.sideband νr f m) ((Spec.average νr fun τ => f τ ^ 2) - Spec.average νr f ^ 2) := by
  have h0 := sideband_zeroth νr hν f hf
  have h1 := sideband_first νr hν f hf 0
  have h2 := sideband_second νr hν f hf (Spec.average νr f)
  have e : (fun τ => (Spec.average νr f + f τ - Spec.average νr f) ^ 2) = fun τ => f τ ^ 2 := by
    funext τ
    ring
  rw [e] at h2
  have h := (h2.sub (h1.mul_left (2 * Spec.average νr f))).sub (h0.mul_left (Spec.average νr f ^ 2))
  have e1 : (fun m : ℤ => (m * νr) ^ 2 * Spec.sideband νr f m) = fun m : ℤ => (Spec.average νr f + m * νr) ^ 2 * Spec.sideband νr f m
      - 2 * Spec.average νr f * ((0 + m * νr) * Spec.sideband νr f m) - Spec.average νr f ^ 2 * Spec.sideband νr f m := by
    funext m
    ring
  rw [e1]
  simpa using h

/-- Area and first moment of the sidebands that are recorded, in full up to the distance `D`, with the error `ε` of the place, and somehow beyond. -/
theorem window_moments (νr : ℝ) (hν : 0 < νr) (f : ℝ → ℝ) (hf : Continuous f) (σ : ℝ) (hσ : σ ^ 2 = 1) (S : Finset ℤ) (a b : ℤ → ℝ) (D ε : ℝ)
    (hD : 0 < D) (hε : 0 ≤ ε) (ha : ∀ m, 0 ≤ a m ∧ a m ≤ 1)
    (hin : ∀ m : ℤ, |σ * (m * νr)| ≤ D → a m = 1 ∧ |b m - σ * (m * νr)| ≤ ε)
    (hout : ∀ m : ℤ, D < |σ * (m * νr)| → |b m - σ * (m * νr)| ≤ |σ * (m * νr)|)
    (hS : ∀ m ∉ S, a m = 0 ∧ b m = 0) :
    let V := (Spec.average νr fun τ => f τ ^ 2) - Spec.average νr f ^ 2
    |∑ m ∈ S, a m * Spec.sideband νr f m - 1| ≤ V / D ^ 2 ∧ |∑ m ∈ S, b m * Spec.sideband νr f m| ≤ V / D + ε := by
  intro V
  set J := Spec.sideband νr f with hJ
  have hJ0 : ∀ m, 0 ≤ J m := sideband_nonneg νr f
  have h0 : HasSum J 1 := sideband_zeroth νr hν f hf
  have h1 : HasSum (fun m : ℤ => σ * (m * νr) * J m) 0 := by
    have h := (sideband_first νr hν f hf 0).mul_left σ
    simp only [zero_add, mul_zero] at h
    refine h.congr_fun ?_
    intro m
    ring
  have h2 : HasSum (fun m : ℤ => (σ * (m * νr)) ^ 2 * J m) V := by
    have h := sideband_spread νr hν f hf
    refine h.congr_fun fun m => ?_
    rw [mul_pow, hσ, one_mul]
  have hA : HasSum (fun m => a m * J m) (∑ m ∈ S, a m * J m) := hasSum_sum_of_ne_finset_zero fun m hm => by rw [(hS m hm).1, zero_mul]
  have hB : HasSum (fun m => b m * J m) (∑ m ∈ S, b m * J m) := hasSum_sum_of_ne_finset_zero fun m hm => by rw [(hS m hm).2, zero_mul]
  constructor
  · have hlo : ∑ m ∈ S, a m * J m ≤ 1 := hasSum_le (fun m => by nlinarith [hJ0 m, (ha m).2]) hA h0
    have hhi : 1 - ∑ m ∈ S, a m * J m ≤ V / D ^ 2 := by
      refine hasSum_le (fun m => ?_) (h0.sub hA) (h2.div_const (D ^ 2))
      rw [show J m - a m * J m = (1 - a m) * J m by ring, mul_div_right_comm]
      refine mul_le_mul_of_nonneg_right ?_ (hJ0 m)
      rcases le_or_gt |σ * (m * νr)| D with h | h
      · rw [(hin m h).1, sub_self]
        positivity
      · have : 1 ≤ (σ * (m * νr)) ^ 2 / D ^ 2 := by
          rw [one_le_div (by positivity), ← sq_abs (σ * (m * νr))]
          exact pow_le_pow_left₀ hD.le h.le 2
        linarith [(ha m).1]
    rw [abs_le]
    have : 0 ≤ V / D ^ 2 := le_trans (by linarith) hhi
    constructor <;> linarith
  · have hd : HasSum (fun m => b m * J m - σ * (m * νr) * J m) (∑ m ∈ S, b m * J m) := by simpa using hB.sub h1
    have hbound : HasSum (fun m : ℤ => (σ * (m * νr)) ^ 2 * J m / D + ε * J m) (V / D + ε) := by
      simpa using (h2.div_const D).add (h0.mul_left ε)
    have hterm : ∀ m : ℤ, |b m * J m - σ * (m * νr) * J m| ≤ (σ * (m * νr)) ^ 2 * J m / D + ε * J m := by
      intro m
      rw [← sub_mul, abs_mul, abs_of_nonneg (hJ0 m), mul_div_right_comm, ← add_mul]
      refine mul_le_mul_of_nonneg_right ?_ (hJ0 m)
      rcases le_or_gt |σ * (m * νr)| D with h | h
      · have : 0 ≤ (σ * (m * νr)) ^ 2 / D := by positivity
        linarith [(hin m h).2]
      · refine (hout m h).trans ?_
        have : |σ * (m * νr)| ≤ (σ * (m * νr)) ^ 2 / D := by
          rw [le_div_iff₀ hD, ← sq_abs (σ * (m * νr)), sq]
          exact mul_le_mul_of_nonneg_left h.le (abs_nonneg _)
        linarith
    rw [abs_le]
    constructor
    · have := hasSum_le (fun m => (abs_le.mp (hterm m)).1) hbound.neg hd
      linarith
    · exact hasSum_le (fun m => (abs_le.mp (hterm m)).2) hd hbound

/-! ## What the points record of a line -/

/-- Shares `C j` of a line at `y`, as seen from `y₀`: they add up to one and have their centre there if `y` is in the window, and are not more and
not further away otherwise. -/
structure Fair (d : Meth.SDim) (C : ℕ → ℝ) (y₀ y : ℝ) : Prop where
  nonneg : 0 ≤ ∑ j ∈ Finset.Ico 1 d.count, C j
  le_one : ∑ j ∈ Finset.Ico 1 d.count, C j ≤ 1
  near : |∑ j ∈ Finset.Ico 1 d.count, (((Meth.Spec.coord d j : ℚ) : ℝ) - y₀) * C j - (y - y₀)| ≤ max |y - y₀| ((d.sw : ℝ) / d.count / 2)

theorem Fair.none (d : Meth.SDim) (y₀ y : ℝ) : Fair d (fun _ => 0) y₀ y := by
  refine ⟨by simp, by simp, ?_⟩
  simp only [mul_zero, Finset.sum_const_zero, zero_sub, abs_neg]
  exact le_max_left _ _

theorem coord_step (d : Meth.SDim) (j : ℕ) : ((Meth.Spec.coord d j : ℚ) : ℝ) = ((Meth.Spec.coord d 0 : ℚ) : ℝ) + j * ((d.sw : ℝ) / d.count) := by
  unfold Meth.Spec.coord
  push_cast
  ring

theorem coord_sum (d : Meth.SDim) (C : ℕ → ℝ) (y₀ : ℝ) :
    ∑ j ∈ Finset.Ico 1 d.count, (((Meth.Spec.coord d j : ℚ) : ℝ) - y₀) * C j
      = ∑ j ∈ Finset.Ico 1 d.count, ((Meth.Spec.coord d j : ℚ) : ℝ) * C j - y₀ * ∑ j ∈ Finset.Ico 1 d.count, C j := by
  rw [Finset.mul_sum, ← Finset.sum_sub_distrib]
  exact Finset.sum_congr rfl fun j _ => by ring

/-- A line in the window. -/
theorem fair_inside (d : Meth.SDim) (C : ℕ → ℝ) (y₀ y : ℝ) (h1 : ∑ j ∈ Finset.Ico 1 d.count, C j = 1)
    (h2 : |∑ j ∈ Finset.Ico 1 d.count, ((Meth.Spec.coord d j : ℚ) : ℝ) * C j - y| ≤ (d.sw : ℝ) / d.count / 2) :
    Fair d C y₀ y ∧ |∑ j ∈ Finset.Ico 1 d.count, (((Meth.Spec.coord d j : ℚ) : ℝ) - y₀) * C j - (y - y₀)| ≤ (d.sw : ℝ) / d.count / 2 := by
  have h : |∑ j ∈ Finset.Ico 1 d.count, (((Meth.Spec.coord d j : ℚ) : ℝ) - y₀) * C j - (y - y₀)| ≤ (d.sw : ℝ) / d.count / 2 := by
    rw [coord_sum, h1, mul_one, sub_sub_sub_cancel_right]
    exact h2
  exact ⟨⟨by rw [h1]; exact zero_le_one, h1.le, h.trans (le_max_right _ _)⟩, h⟩

theorem peak_inside (pos : Bool) (d : Meth.SDim) (hc : 2 ≤ d.count) (hsw : 0 < d.sw) (y : ℝ)
    (h1 : ((Meth.Spec.coord d 1 : ℚ) : ℝ) ≤ y) (h2 : y ≤ ((Meth.Spec.coord d (d.count - 1 : ℕ) : ℚ) : ℝ)) :
    ∑ j ∈ Finset.Ico 1 d.count, Spec.peak pos d j y = 1 ∧
      |∑ j ∈ Finset.Ico 1 d.count, ((Meth.Spec.coord d j : ℚ) : ℝ) * Spec.peak pos d j y - y| ≤ (d.sw : ℝ) / d.count / 2 := by
  have h := pattern_moments pos d hc hsw (fun _ => y) continuous_const (fun _ => h1) (fun _ => h2)
  have hs : Spec.Sharp fun _ : ℝ × ℝ => y := ⟨y, fun _ => rfl⟩
  simp only [Spec.pattern, if_pos hs, sphereMean_constant] at h
  push_cast at h ⊢
  exact h

theorem linear_unit (u : ℝ) : 0 ≤ Bin.Spec.linear u ∧ Bin.Spec.linear u ≤ 1 := by
  unfold Bin.Spec.linear
  have := abs_nonneg u
  split_ifs <;> constructor <;> linarith

theorem linear_far (u : ℝ) (h : 1 ≤ |u|) : Bin.Spec.linear u = 0 := by
  unfold Bin.Spec.linear
  rw [if_neg (by linarith), if_pos (by linarith)]

/-- A sharp line anywhere. -/
theorem peak_fair (pos : Bool) (d : Meth.SDim) (hc : 2 ≤ d.count) (hsw : 0 < d.sw) (y₀ y : ℝ)
    (h1 : ((Meth.Spec.coord d 1 : ℚ) : ℝ) ≤ y₀) (h2 : y₀ ≤ ((Meth.Spec.coord d (d.count - 1 : ℕ) : ℚ) : ℝ)) :
    Fair d (fun j => Spec.peak pos d j y) y₀ y := by
  classical
  have hn : (0 : ℝ) < d.count := by exact_mod_cast (by omega : 0 < d.count)
  have hsw' : (0 : ℝ) < d.sw := by exact_mod_cast hsw
  have hinc : (0 : ℝ) < (d.sw : ℝ) / d.count := by positivity
  by_cases hax : y ∈ Spec.onAxis pos d
  swap
  · have : (fun j => Spec.peak pos d j y) = fun _ => 0 := by
      funext j
      rw [Spec.peak, if_neg hax]
    rw [this]
    exact Fair.none d y₀ y
  have hp : ∀ j : ℕ, Spec.peak pos d j y = Bin.Spec.linear ((y - ((Meth.Spec.coord d j : ℚ) : ℝ)) / ((d.sw : ℝ) / d.count)) := by
    intro j
    rw [Spec.peak, if_pos hax]
    push_cast
    rfl
  have hzero : ∀ j : ℕ, (d.sw : ℝ) / d.count ≤ |y - ((Meth.Spec.coord d j : ℚ) : ℝ)| → Spec.peak pos d j y = 0 := by
    intro j hj
    rw [hp, linear_far]
    rw [abs_div, abs_of_pos hinc, one_le_div hinc]
    exact hj
  have hunit := fun j : ℕ => linear_unit ((y - ((Meth.Spec.coord d j : ℚ) : ℝ)) / ((d.sw : ℝ) / d.count))
  have single : ∀ k ∈ Finset.Ico 1 d.count, (∀ j ∈ Finset.Ico 1 d.count, j ≠ k → Spec.peak pos d j y = 0) →
      (y₀ ≤ ((Meth.Spec.coord d k : ℚ) : ℝ) ∧ ((Meth.Spec.coord d k : ℚ) : ℝ) ≤ y ∨
        y ≤ ((Meth.Spec.coord d k : ℚ) : ℝ) ∧ ((Meth.Spec.coord d k : ℚ) : ℝ) ≤ y₀) → Fair d (fun j => Spec.peak pos d j y) y₀ y := by
    intro k hk hz hb
    have hs : ∀ g : ℕ → ℝ, ∑ j ∈ Finset.Ico 1 d.count, g j * Spec.peak pos d j y = g k * Spec.peak pos d k y := fun g =>
      Finset.sum_eq_single_of_mem k hk fun j hj hjk => by rw [hz j hj hjk, mul_zero]
    have hs1 := hs fun _ => 1
    simp only [one_mul] at hs1
    have hu := hunit k
    rw [← hp] at hu
    refine ⟨by rw [hs1]; exact hu.1, by rw [hs1]; exact hu.2, ?_⟩
    rw [hs]
    refine le_trans ?_ (le_max_left _ _)
    rcases hb with ⟨b1, b2⟩ | ⟨b1, b2⟩
    · rw [abs_of_nonneg (by linarith : 0 ≤ y - y₀), abs_le]
      constructor <;> nlinarith [hu.1, hu.2]
    · rw [abs_of_nonpos (by linarith : y - y₀ ≤ 0), abs_le]
      constructor <;> nlinarith [hu.1, hu.2]
  have hstep := coord_step d
  rcases lt_or_ge y ((Meth.Spec.coord d 1 : ℚ) : ℝ) with hy | hy
  · refine single 1 (Finset.mem_Ico.mpr ⟨le_rfl, by omega⟩) (fun j hj hj1 => hzero j ?_) (Or.inr ⟨hy.le, h1⟩)
    have h2j : (2 : ℝ) ≤ j := by
      have := (Finset.mem_Ico.mp hj).1
      exact_mod_cast (by omega : 2 ≤ j)
    have e1 := hstep 1
    rw [hstep j]
    push_cast at e1
    refine le_abs.mpr (Or.inr ?_)
    nlinarith
  · rcases le_or_gt y ((Meth.Spec.coord d (d.count - 1 : ℕ) : ℚ) : ℝ) with hy' | hy'
    · obtain ⟨a1, a2⟩ := peak_inside pos d hc hsw y hy hy'
      exact (fair_inside d _ y₀ y a1 a2).1
    · refine single (d.count - 1) (Finset.mem_Ico.mpr ⟨by omega, by omega⟩) (fun j hj hj1 => hzero j ?_) (Or.inl ⟨h2, hy'.le⟩)
      have hj2 : (j : ℝ) + 1 ≤ ((d.count - 1 : ℕ) : ℝ) := by
        have := (Finset.mem_Ico.mp hj).2
        exact_mod_cast (by omega : j + 1 ≤ d.count - 1)
      rw [hstep (d.count - 1)] at hy'
      rw [hstep j]
      refine le_abs.mpr (Or.inl ?_)
      nlinarith

theorem bin_near (pos : Bool) (d : Meth.SDim) (j : ℕ) (y : ℝ) (h : y ∈ Spec.bin pos d j) :
    |((Meth.Spec.coord d j : ℚ) : ℝ) - y| ≤ (d.sw : ℝ) / d.count / 2 := by
  unfold Spec.bin at h
  cases pos
  · simp only [Bool.false_eq_true, if_false, Set.mem_Ioc] at h
    push_cast at h ⊢
    rw [abs_le]
    constructor <;> linarith [h.1, h.2]
  · simp only [if_true, Set.mem_Ico] at h
    push_cast at h ⊢
    rw [abs_le]
    constructor <;> linarith [h.1, h.2]

theorem bin_disjoint (pos : Bool) (d : Meth.SDim) (hc : 0 < d.count) (hsw : 0 < d.sw) (i j : ℕ) (y : ℝ) (hi : y ∈ Spec.bin pos d i)
    (hj : y ∈ Spec.bin pos d j) : i = j := by
  have hn : (0 : ℝ) < d.count := by exact_mod_cast hc
  have hsw' : (0 : ℝ) < d.sw := by exact_mod_cast hsw
  have hinc : (0 : ℝ) < (d.sw : ℝ) / d.count := by positivity
  have e1 := coord_step d i
  have e2 := coord_step d j
  unfold Spec.bin at hi hj
  have a : (i : ℝ) < j + 1 ∧ (j : ℝ) < i + 1 := by
    cases pos
    · simp only [Bool.false_eq_true, if_false, Set.mem_Ioc] at hi hj
      push_cast at hi hj e1 e2
      constructor
      · by_contra hh
        nlinarith [hi.1, hi.2, hj.1, hj.2]
      · by_contra hh
        nlinarith [hi.1, hi.2, hj.1, hj.2]
    · simp only [if_true, Set.mem_Ico] at hi hj
      push_cast at hi hj e1 e2
      constructor
      · by_contra hh
        nlinarith [hi.1, hi.2, hj.1, hj.2]
      · by_contra hh
        nlinarith [hi.1, hi.2, hj.1, hj.2]
  have a1 : i < j + 1 := by exact_mod_cast a.1
  have a2 : j < i + 1 := by exact_mod_cast a.2
  omega

theorem bin_inside (pos : Bool) (d : Meth.SDim) (hc : 2 ≤ d.count) (hsw : 0 < d.sw) (j : ℕ) (hj : j ∈ Finset.Ico 1 d.count) (y : ℝ)
    (hy : y ∈ Spec.bin pos d j) :
    ∑ i ∈ Finset.Ico 1 d.count, (Spec.bin pos d i).indicator (fun _ => (1 : ℝ)) y = 1 ∧
      |∑ i ∈ Finset.Ico 1 d.count, ((Meth.Spec.coord d i : ℚ) : ℝ) * (Spec.bin pos d i).indicator (fun _ => (1 : ℝ)) y - y|
        ≤ (d.sw : ℝ) / d.count / 2 := by
  have hs : ∀ g : ℕ → ℝ, ∑ i ∈ Finset.Ico 1 d.count, g i * (Spec.bin pos d i).indicator (fun _ => (1 : ℝ)) y = g j := by
    intro g
    rw [Finset.sum_eq_single_of_mem j hj fun i _ hij => by
      rw [Set.indicator_of_notMem (fun h => hij (bin_disjoint pos d (by omega) hsw i j y h hy)), mul_zero], Set.indicator_of_mem hy, mul_one]
  have hs1 := hs fun _ => 1
  simp only [one_mul] at hs1
  refine ⟨hs1, ?_⟩
  rw [hs]
  exact bin_near pos d j y hy

/-- A line counted in its bin, anywhere. -/
theorem bin_fair (pos : Bool) (d : Meth.SDim) (hc : 2 ≤ d.count) (hsw : 0 < d.sw) (y₀ y : ℝ) :
    Fair d (fun j => (Spec.bin pos d j).indicator (fun _ => (1 : ℝ)) y) y₀ y := by
  by_cases h : ∃ j ∈ Finset.Ico 1 d.count, y ∈ Spec.bin pos d j
  · obtain ⟨j, hj, hy⟩ := h
    obtain ⟨a1, a2⟩ := bin_inside pos d hc hsw j hj y hy
    exact (fair_inside d _ y₀ y a1 a2).1
  · have hz : ∀ j ∈ Finset.Ico 1 d.count, (Spec.bin pos d j).indicator (fun _ => (1 : ℝ)) y = 0 := fun j hj =>
      Set.indicator_of_notMem (fun hy => h ⟨j, hj, hy⟩) _
    have n := Fair.none d y₀ y
    have e1 : ∑ j ∈ Finset.Ico 1 d.count, (Spec.bin pos d j).indicator (fun _ => (1 : ℝ)) y = ∑ j ∈ Finset.Ico 1 d.count, (0 : ℝ) :=
      Finset.sum_congr rfl hz
    refine ⟨by rw [e1]; exact n.nonneg, by rw [e1]; exact n.le_one, ?_⟩
    rw [Finset.sum_congr rfl fun j hj => by rw [hz j hj]]
    exact n.near

/-! ## The powder -/

open Classical in
/-- The share of sideband `m`, shifted by `a`, of the crystallite `p` that point `j` records. -/
noncomputable def recorded (pos : Bool) (d : Meth.SDim) (f : ℝ × ℝ → ℝ) (a : ℝ) (p : ℝ × ℝ) (j : ℕ) : ℝ :=
  if Spec.Sharp f then Spec.peak pos d j (f p + a)
  else if Spec.sphereMean f + a ∈ Spec.kept pos d then (Spec.bin pos d j).indicator (fun _ => 1) (f p + a)
  else 0

theorem sidebandPattern_recorded (pos : Bool) (d : Meth.SDim) (j : ℕ) (νr : ℝ) (f : ℝ × ℝ → ℝ) (m : ℤ) (I : ℝ × ℝ → ℝ) :
    Spec.sidebandPattern pos d j νr f m I
      = Spec.sphereMean fun p => recorded pos d f ((if pos then 1 else -1) * (m * νr)) p j * I p := by
  unfold Spec.sidebandPattern recorded
  by_cases hs : Spec.Sharp f
  · simp only [if_pos hs]
    obtain ⟨a, ha⟩ := hs
    simp only [ha]
    rw [sphereMean_mul]
  · simp only [if_neg hs]
    by_cases hk : Spec.sphereMean f + (if pos then 1 else -1) * (m * νr) ∈ Spec.kept pos d
    · simp only [if_pos hk]
      congr 1
      funext p
      by_cases hb : f p + (if pos then 1 else -1) * (m * νr) ∈ Spec.bin pos d j
      · rw [Set.indicator_of_mem hb, Set.indicator_of_mem hb, one_mul]
      · rw [Set.indicator_of_notMem hb, Set.indicator_of_notMem hb, zero_mul]
    · simp only [if_neg hk, zero_mul]
      rw [sphereMean_constant]

theorem recorded_fair (pos : Bool) (d : Meth.SDim) (hc : 2 ≤ d.count) (hsw : 0 < d.sw) (f : ℝ × ℝ → ℝ) (a : ℝ) (p : ℝ × ℝ)
    (h1 : ((Meth.Spec.coord d 1 : ℚ) : ℝ) ≤ f p) (h2 : f p ≤ ((Meth.Spec.coord d (d.count - 1 : ℕ) : ℚ) : ℝ)) :
    Fair d (recorded pos d f a p) (f p) (f p + a) := by
  unfold recorded
  by_cases hs : Spec.Sharp f
  · simp only [if_pos hs]
    exact peak_fair pos d hc hsw _ _ h1 h2
  · simp only [if_neg hs]
    by_cases hk : Spec.sphereMean f + a ∈ Spec.kept pos d
    · simp only [if_pos hk]
      exact bin_fair pos d hc hsw _ _
    · simp only [if_neg hk]
      exact Fair.none d _ _

/-- The frequencies of the window are drawn. -/
theorem window_kept (pos : Bool) (d : Meth.SDim) (hc : 2 ≤ d.count) (hsw : 0 < d.sw) (y : ℝ)
    (h1 : ((Meth.Spec.coord d 1 : ℚ) : ℝ) ≤ y) (h2 : y ≤ ((Meth.Spec.coord d (d.count - 1 : ℕ) : ℚ) : ℝ)) : y ∈ Spec.kept pos d := by
  have hn : (0 : ℝ) < d.count := by exact_mod_cast (by omega : 0 < d.count)
  have hsw' : (0 : ℝ) < d.sw := by exact_mod_cast hsw
  have hinc : (0 : ℝ) < (d.sw : ℝ) / d.count := by positivity
  have e1 := coord_step d 1
  have e2 := coord_step d (d.count - 1)
  have e3 := coord_step d d.count
  rw [Nat.cast_sub (by omega : 1 ≤ d.count)] at e2
  push_cast [Nat.cast_sub (by omega : 1 ≤ d.count)] at e1 e2 e3 h1 h2
  unfold Spec.kept
  cases pos
  · simp only [Bool.false_eq_true, if_false, Set.mem_Ioo]
    push_cast
    constructor <;> nlinarith
  · simp only [if_true, Set.mem_Ioo]
    push_cast
    constructor <;> nlinarith

/-- A sideband that stays in the window is recorded in full. -/
theorem recorded_inside (pos : Bool) (d : Meth.SDim) (hc : 2 ≤ d.count) (hsw : 0 < d.sw) (f : ℝ × ℝ → ℝ) (hf : Continuous f) (a : ℝ) (p : ℝ × ℝ)
    (h : ∀ p, ((Meth.Spec.coord d 1 : ℚ) : ℝ) ≤ f p + a ∧ f p + a ≤ ((Meth.Spec.coord d (d.count - 1 : ℕ) : ℚ) : ℝ)) :
    ∑ j ∈ Finset.Ico 1 d.count, recorded pos d f a p j = 1 ∧
      |∑ j ∈ Finset.Ico 1 d.count, (((Meth.Spec.coord d j : ℚ) : ℝ) - f p) * recorded pos d f a p j - a| ≤ (d.sw : ℝ) / d.count / 2 := by
  have key : ∑ j ∈ Finset.Ico 1 d.count, recorded pos d f a p j = 1 ∧
      |∑ j ∈ Finset.Ico 1 d.count, ((Meth.Spec.coord d j : ℚ) : ℝ) * recorded pos d f a p j - (f p + a)| ≤ (d.sw : ℝ) / d.count / 2 := by
    unfold recorded
    by_cases hs : Spec.Sharp f
    · simp only [if_pos hs]
      exact peak_inside pos d hc hsw _ (h p).1 (h p).2
    · have hk : Spec.sphereMean f + a ∈ Spec.kept pos d := by
        have c1 := sphereMean_le (fun _ => ((Meth.Spec.coord d 1 : ℚ) : ℝ) - a) f (continuous_integrable _ continuous_const)
          (continuous_integrable _ hf) fun p => by linarith [(h p).1]
        have c2 := sphereMean_le f (fun _ => ((Meth.Spec.coord d (d.count - 1 : ℕ) : ℚ) : ℝ) - a) (continuous_integrable _ hf)
          (continuous_integrable _ continuous_const) fun p => by linarith [(h p).2]
        rw [sphereMean_constant] at c1 c2
        exact window_kept pos d hc hsw _ (by linarith) (by linarith)
      simp only [if_neg hs, if_pos hk]
      obtain ⟨j, hj, hy, -⟩ := bin_unique pos d hc hsw _ (h p).1 (h p).2
      exact bin_inside pos d hc hsw j hj _ hy
  obtain ⟨k1, k2⟩ := key
  refine ⟨k1, ?_⟩
  have := (fair_inside d _ (f p) (f p + a) k1 k2).2
  rwa [add_sub_cancel_left] at this

theorem recorded_unit (pos : Bool) (d : Meth.SDim) (f : ℝ × ℝ → ℝ) (a : ℝ) (p : ℝ × ℝ) (j : ℕ) :
    0 ≤ recorded pos d f a p j ∧ recorded pos d f a p j ≤ 1 := by
  unfold recorded Spec.peak
  by_cases hb : f p + a ∈ Spec.bin pos d j
  · rw [Set.indicator_of_mem hb]
    split_ifs
    all_goals first | exact linear_unit _ | exact ⟨le_rfl, zero_le_one⟩ | exact ⟨zero_le_one, le_rfl⟩
  · rw [Set.indicator_of_notMem hb]
    split_ifs
    all_goals first | exact linear_unit _ | exact ⟨le_rfl, zero_le_one⟩

theorem recorded_measurable (pos : Bool) (d : Meth.SDim) (f : ℝ × ℝ → ℝ) (hf : Continuous f) (a : ℝ) (j : ℕ) :
    Measurable fun p => recorded pos d f a p j := by
  unfold recorded
  by_cases hs : Spec.Sharp f
  · simp only [if_pos hs]
    obtain ⟨b, hb⟩ := hs
    simp only [hb]
    exact measurable_const
  · simp only [if_neg hs]
    by_cases hk : Spec.sphereMean f + a ∈ Spec.kept pos d
    · simp only [if_pos hk]
      exact (measurable_const.indicator (bin_measurable pos d j)).comp (hf.measurable.add measurable_const)
    · simp only [if_neg hk]
      exact measurable_const

/-- Only finitely many sidebands are recorded. -/
theorem recorded_finite (pos : Bool) (d : Meth.SDim) (f : ℝ × ℝ → ℝ) (νr : ℝ) (hν : 0 < νr) :
    ∃ S : Finset ℤ, ∀ m : ℤ, m ∉ S → ∀ p j, recorded pos d f ((if pos then 1 else -1) * (m * νr)) p j = 0 := by
  classical
  have base : ∀ (x lo hi : ℝ), {m : ℤ | lo ≤ x + (if pos then 1 else -1) * (m * νr) ∧ x + (if pos then 1 else -1) * (m * νr) ≤ hi}.Finite := by
    intro x lo hi
    cases pos
    · refine (window_finite (-x) 1 0 νr (-hi) (-lo) one_pos hν).subset fun m hm => ?_
      have h1 := hm.1
      have h2 := hm.2
      simp only [Bool.false_eq_true, if_false] at h1 h2
      constructor <;> linarith
    · refine (window_finite x 1 0 νr lo hi one_pos hν).subset fun m hm => ?_
      have h1 := hm.1
      have h2 := hm.2
      simp only [if_true] at h1 h2
      constructor <;> linarith
  by_cases hs : Spec.Sharp f
  · obtain ⟨b, hb⟩ := id hs
    have hax : ∃ lo hi : ℝ, ∀ y ∈ Spec.onAxis pos d, lo ≤ y ∧ y ≤ hi := by
      refine ⟨((Meth.Spec.coord d 0 : ℚ) : ℝ) - (d.count + 1) * |(d.sw : ℝ) / d.count|,
        ((Meth.Spec.coord d 0 : ℚ) : ℝ) + (d.count + 1) * |(d.sw : ℝ) / d.count|, ?_⟩
      rintro y ⟨j, hj, hy⟩
      have hjc : (j : ℝ) ≤ d.count := by
        have : j ≤ d.count := by split_ifs at hj <;> omega
        exact_mod_cast this
      have hj0 : (0 : ℝ) ≤ j := Nat.cast_nonneg j
      have hnear := bin_near pos d j y hy
      have e := coord_step d j
      have ha := le_abs_self ((d.sw : ℝ) / d.count)
      have hb := neg_abs_le ((d.sw : ℝ) / d.count)
      have h0 := abs_nonneg ((d.sw : ℝ) / d.count)
      rw [abs_le] at hnear
      constructor <;> nlinarith [hnear.1, hnear.2]
    obtain ⟨lo, hi, hb2⟩ := hax
    refine ⟨(base b lo hi).toFinset, fun m hm p j => ?_⟩
    rw [Set.Finite.mem_toFinset] at hm
    unfold recorded Spec.peak
    rw [if_pos hs, hb, if_neg fun hy => hm (hb2 _ hy)]
  · have hk : ∃ lo hi : ℝ, ∀ y ∈ Spec.kept pos d, lo ≤ y ∧ y ≤ hi := by
      unfold Spec.kept
      cases pos
      · exact ⟨_, _, fun y hy => ⟨hy.1.le, hy.2.le⟩⟩
      · exact ⟨_, _, fun y hy => ⟨hy.1.le, hy.2.le⟩⟩
    obtain ⟨lo, hi, hb2⟩ := hk
    refine ⟨(base (Spec.sphereMean f) lo hi).toFinset, fun m hm p j => ?_⟩
    rw [Set.Finite.mem_toFinset] at hm
    unfold recorded
    rw [if_neg hs, if_neg fun hy => hm (hb2 _ hy)]

/-- Area and first moment of what the points record of a line and its sidebands, if the window reaches `D` beyond the line on both sides. -/
theorem spun_moments (pos : Bool) (d : Meth.SDim) (hc : 2 ≤ d.count) (hsw : 0 < d.sw) (νr : ℝ) (hν : 0 < νr) (mom : ℝ × ℝ → ℝ → ℝ)
    (hmom : ∀ p, Continuous (mom p)) (f : ℝ × ℝ → ℝ) (hf : Continuous f)
    (hfm : ∀ p, f p = (if pos then 1 else -1) * Spec.average νr (mom p))
    (hq : Continuous fun p => Spec.average νr fun τ => mom p τ ^ 2)
    (hJ : ∀ m : ℤ, Measurable fun p => Spec.sideband νr (mom p) m) (D : ℝ) (hD : (d.sw : ℝ) / d.count / 2 ≤ D)
    (hwin : ∀ p y, |y| ≤ D → ((Meth.Spec.coord d 1 : ℚ) : ℝ) ≤ f p + y ∧ f p + y ≤ ((Meth.Spec.coord d (d.count - 1 : ℕ) : ℚ) : ℝ))
    (c₀ W : ℝ) (hW : ∀ p, |f p - c₀| ≤ W) :
    let G := fun j : ℕ => ∑ᶠ m : ℤ, Spec.sidebandPattern pos d j νr f m fun p => Spec.sideband νr (mom p) m
    let V := (Spec.sphereMean fun p => Spec.average νr fun τ => mom p τ ^ 2) - Spec.sphereMean fun p => f p ^ 2
    |∑ j ∈ Finset.Ico 1 d.count, G j - 1| ≤ V / D ^ 2 ∧
      |∑ j ∈ Finset.Ico 1 d.count, (((Meth.Spec.coord d j : ℚ) : ℝ) - c₀) * G j - (Spec.sphereMean f - c₀)|
        ≤ V * (W / D ^ 2 + 1 / D) + (d.sw : ℝ) / d.count / 2 := by
  classical
  intro G V
  have hn : (0 : ℝ) < d.count := by exact_mod_cast (by omega : 0 < d.count)
  have hsw' : (0 : ℝ) < d.sw := by exact_mod_cast hsw
  have hinc : (0 : ℝ) < (d.sw : ℝ) / d.count := by positivity
  have hD0 : 0 < D := by linarith
  set σ : ℝ := if pos then 1 else -1 with hσd
  have hσ : σ ^ 2 = 1 := by
    rw [hσd]
    split_ifs <;> norm_num
  obtain ⟨S, hS⟩ := recorded_finite pos d f νr hν
  rw [← hσd] at hS
  set J : ℤ → ℝ × ℝ → ℝ := fun m p => Spec.sideband νr (mom p) m with hJd
  set R : ℤ → ℕ → ℝ × ℝ → ℝ := fun m j p => recorded pos d f (σ * (m * νr)) p j with hRd
  have hJ0 : ∀ m p, 0 ≤ J m p := fun m p => sideband_nonneg _ _ _
  have hJ1 : ∀ m p, J m p ≤ 1 := fun m p => le_hasSum (sideband_zeroth νr hν _ (hmom p)) m fun k _ => sideband_nonneg _ _ _
  have hterm : ∀ m j, MeasureTheory.IntegrableOn (fun p : ℝ × ℝ => Real.sin p.2 * (R m j p * J m p)) (Set.Ioo 0 (2 * Real.pi) ×ˢ Set.Ioo 0 Real.pi) := by
    intro m j
    refine box_integrable (fun p => R m j p * J m p) ((recorded_measurable pos d f hf _ j).mul (hJ m)) 1 (fun p => ?_) _ _ _ _
    have h := recorded_unit pos d f (σ * (m * νr)) p j
    rw [abs_of_nonneg (mul_nonneg h.1 (hJ0 m p))]
    exact mul_le_one₀ h.2 (hJ0 m p) (hJ1 m p)
  have hG : ∀ j, G j = ∑ m ∈ S, Spec.sphereMean fun p => R m j p * J m p := by
    intro j
    have e : ∀ m : ℤ, Spec.sidebandPattern pos d j νr f m (fun p => Spec.sideband νr (mom p) m) = Spec.sphereMean fun p => R m j p * J m p :=
      fun m => sidebandPattern_recorded pos d j νr f m _
    have e2 : G j = ∑ᶠ m : ℤ, Spec.sphereMean fun p => R m j p * J m p := finsum_congr e
    rw [e2]
    refine finsum_eq_sum_of_support_subset _ fun m hm => ?_
    by_contra hout
    refine hm ?_
    beta_reduce
    have : (fun p => R m j p * J m p) = fun _ => 0 := by
      funext p
      rw [hRd]
      beta_reduce
      rw [hS m hout, zero_mul]
    rw [this, sphereMean_constant]
  -- a weighted sum of the points as a mean
  have hsum : ∀ g : ℕ → ℝ, ∑ j ∈ Finset.Ico 1 d.count, g j * G j
      = Spec.sphereMean (fun p => ∑ k ∈ Finset.Ico 1 d.count ×ˢ S, g k.1 * (R k.2 k.1 p * J k.2 p)) ∧
      MeasureTheory.IntegrableOn (fun p : ℝ × ℝ => Real.sin p.2 * ∑ k ∈ Finset.Ico 1 d.count ×ˢ S, g k.1 * (R k.2 k.1 p * J k.2 p))
        (Set.Ioo 0 (2 * Real.pi) ×ˢ Set.Ioo 0 Real.pi) := by
    intro g
    constructor
    · rw [sphereMean_finset (Finset.Ico 1 d.count ×ˢ S) (fun k => g k.1) (fun k p => R k.2 k.1 p * J k.2 p) fun k _ => hterm k.2 k.1,
        Finset.sum_product]
      refine Finset.sum_congr rfl fun j _ => ?_
      rw [hG, Finset.mul_sum]
    · have e : (fun p : ℝ × ℝ => Real.sin p.2 * ∑ k ∈ Finset.Ico 1 d.count ×ˢ S, g k.1 * (R k.2 k.1 p * J k.2 p))
          = fun p => ∑ k ∈ Finset.Ico 1 d.count ×ˢ S, g k.1 * (Real.sin p.2 * (R k.2 k.1 p * J k.2 p)) := by
        funext p
        rw [Finset.mul_sum]
        exact Finset.sum_congr rfl fun k _ => by ring
      rw [e]
      exact MeasureTheory.integrable_finsetSum _ fun k _ => (hterm k.2 k.1).const_mul _
  have hpoint : ∀ (g : ℕ → ℝ) p, ∑ k ∈ Finset.Ico 1 d.count ×ˢ S, g k.1 * (R k.2 k.1 p * J k.2 p)
      = ∑ m ∈ S, (∑ j ∈ Finset.Ico 1 d.count, g j * R m j p) * J m p := by
    intro g p
    rw [Finset.sum_product_right]
    refine Finset.sum_congr rfl fun m _ => ?_
    rw [Finset.sum_mul]
    exact Finset.sum_congr rfl fun j _ => by ring
  have hmean : ∀ g : ℕ → ℝ, ∑ j ∈ Finset.Ico 1 d.count, g j * G j
      = Spec.sphereMean (fun p => ∑ m ∈ S, (∑ j ∈ Finset.Ico 1 d.count, g j * R m j p) * J m p) ∧
      MeasureTheory.IntegrableOn (fun p : ℝ × ℝ => Real.sin p.2 * ∑ m ∈ S, (∑ j ∈ Finset.Ico 1 d.count, g j * R m j p) * J m p)
        (Set.Ioo 0 (2 * Real.pi) ×ˢ Set.Ioo 0 Real.pi) := by
    intro g
    have := hsum g
    simp only [hpoint g] at this
    exact this
  set A : ℝ × ℝ → ℝ := fun p => ∑ m ∈ S, (∑ j ∈ Finset.Ico 1 d.count, R m j p) * J m p with hA
  set B : ℝ × ℝ → ℝ := fun p => ∑ m ∈ S, (∑ j ∈ Finset.Ico 1 d.count, (((Meth.Spec.coord d j : ℚ) : ℝ) - f p) * R m j p) * J m p with hB
  set v : ℝ × ℝ → ℝ := fun p => (Spec.average νr fun τ => mom p τ ^ 2) - f p ^ 2 with hv
  have hAB : ∀ p, |A p - 1| ≤ v p / D ^ 2 ∧ |B p| ≤ v p / D + (d.sw : ℝ) / d.count / 2 := by
    intro p
    have hin0 : ((Meth.Spec.coord d 1 : ℚ) : ℝ) ≤ f p ∧ f p ≤ ((Meth.Spec.coord d (d.count - 1 : ℕ) : ℚ) : ℝ) := by
      have := hwin p 0 (by rw [abs_zero]; exact hD0.le)
      rwa [add_zero] at this
    have fair := fun m : ℤ => recorded_fair pos d hc hsw f (σ * (m * νr)) p hin0.1 hin0.2
    have h := window_moments νr hν (mom p) (hmom p) σ hσ S (fun m => ∑ j ∈ Finset.Ico 1 d.count, R m j p)
      (fun m => ∑ j ∈ Finset.Ico 1 d.count, (((Meth.Spec.coord d j : ℚ) : ℝ) - f p) * R m j p) D ((d.sw : ℝ) / d.count / 2) hD0 (by positivity)
      (fun m => ⟨(fair m).nonneg, (fair m).le_one⟩)
      (fun m hm => recorded_inside pos d hc hsw f hf (σ * (m * νr)) p fun p' => hwin p' _ hm)
      (fun m hm => by
        have := (fair m).near
        rw [add_sub_cancel_left, max_eq_left (by linarith)] at this
        exact this)
      (fun m hm => by
        constructor
        · exact Finset.sum_eq_zero fun j _ => hS m hm p j
        · exact Finset.sum_eq_zero fun j _ => by
            rw [show R m j p = 0 from hS m hm p j, mul_zero])
    have e : (Spec.average νr fun τ => mom p τ ^ 2) - Spec.average νr (mom p) ^ 2 = v p := by
      rw [hv]
      beta_reduce
      rw [hfm p, mul_pow, hσ, one_mul]
    rw [e] at h
    exact h
  have hvc : Continuous v := hq.sub (hf.pow 2)
  have hVm : Spec.sphereMean v = V :=
    sphereMean_diff _ _ (continuous_integrable _ hq) (continuous_integrable _ (hf.pow 2))
  have sandwich : ∀ (h k : ℝ × ℝ → ℝ), MeasureTheory.IntegrableOn (fun p : ℝ × ℝ => Real.sin p.2 * h p) (Set.Ioo 0 (2 * Real.pi) ×ˢ Set.Ioo 0 Real.pi) →
      Continuous k → (∀ p, |h p| ≤ k p) → |Spec.sphereMean h| ≤ Spec.sphereMean k := by
    intro h k hi hk hle
    rw [abs_le]
    constructor
    · have := sphereMean_le (fun p => -1 * k p) h (continuous_integrable _ (continuous_const.mul hk)) hi fun p => by
        linarith [(abs_le.mp (hle p)).1]
      rw [sphereMean_mul] at this
      linarith
    · exact sphereMean_le h k hi (continuous_integrable _ hk) fun p => (abs_le.mp (hle p)).2
  constructor
  · obtain ⟨s1, s2⟩ := hmean fun _ => 1
    simp only [one_mul] at s1 s2
    rw [s1]
    have e : Spec.sphereMean A - 1 = Spec.sphereMean fun p => A p - 1 := by
      rw [sphereMean_diff A (fun _ => 1) s2 (continuous_integrable _ continuous_const), sphereMean_constant]
    have e2 : V / D ^ 2 = Spec.sphereMean fun p => 1 / D ^ 2 * v p := by
      rw [sphereMean_mul, hVm]
      ring
    rw [show Spec.sphereMean (fun p => ∑ m ∈ S, (∑ j ∈ Finset.Ico 1 d.count, R m j p) * J m p) = Spec.sphereMean A from rfl, e, e2]
    refine sandwich _ _ ?_ (continuous_const.mul hvc) fun p => ?_
    · have := s2.sub (continuous_integrable (fun _ => 1) continuous_const)
      refine this.congr (MeasureTheory.ae_of_all _ fun p => ?_)
      simp only [Pi.sub_apply, hA]
      ring
    · rw [one_div, inv_mul_eq_div]
      exact (hAB p).1
  · obtain ⟨s1, s2⟩ := hmean fun j => ((Meth.Spec.coord d j : ℚ) : ℝ) - c₀
    rw [s1]
    have hi2 : MeasureTheory.IntegrableOn (fun p : ℝ × ℝ => Real.sin p.2 * (f p - c₀)) (Set.Ioo 0 (2 * Real.pi) ×ˢ Set.Ioo 0 Real.pi) :=
      continuous_integrable _ (hf.sub continuous_const)
    have e0 : Spec.sphereMean f - c₀ = Spec.sphereMean fun p => f p - c₀ := by
      rw [sphereMean_diff f (fun _ => c₀) (continuous_integrable _ hf) (continuous_integrable _ continuous_const), sphereMean_constant]
    rw [e0, ← sphereMean_diff _ _ s2 hi2]
    have e2 : V * (W / D ^ 2 + 1 / D) + (d.sw : ℝ) / d.count / 2
        = Spec.sphereMean fun p => (W / D ^ 2 + 1 / D) * v p - -((d.sw : ℝ) / d.count / 2) := by
      rw [sphereMean_diff (fun p => (W / D ^ 2 + 1 / D) * v p) (fun _ => -((d.sw : ℝ) / d.count / 2))
        (continuous_integrable _ (continuous_const.mul hvc)) (continuous_integrable _ continuous_const), sphereMean_mul, hVm, sphereMean_constant]
      ring
    rw [e2]
    refine sandwich _ _ ?_ ((continuous_const.mul hvc).sub continuous_const) fun p => ?_
    · have := s2.sub hi2
      refine this.congr (MeasureTheory.ae_of_all _ fun p => ?_)
      simp only [Pi.sub_apply]
      ring
    · have e3 : ∑ m ∈ S, (∑ j ∈ Finset.Ico 1 d.count, (((Meth.Spec.coord d j : ℚ) : ℝ) - c₀) * R m j p) * J m p - (f p - c₀)
          = B p + (f p - c₀) * (A p - 1) := by
        have : ∑ m ∈ S, (∑ j ∈ Finset.Ico 1 d.count, (((Meth.Spec.coord d j : ℚ) : ℝ) - c₀) * R m j p) * J m p = B p + (f p - c₀) * A p := by
          rw [hA, hB]
          beta_reduce
          rw [Finset.mul_sum, ← Finset.sum_add_distrib]
          refine Finset.sum_congr rfl fun m _ => ?_
          rw [coord_sum, coord_sum]
          ring
        rw [this]
        ring
      rw [e3]
      refine (abs_add_le _ _).trans ?_
      rw [abs_mul]
      have hv0 : 0 ≤ v p / D ^ 2 := (abs_nonneg _).trans (hAB p).1
      have h1 := mul_le_mul (hW p) (hAB p).1 (abs_nonneg _) ((abs_nonneg _).trans (hW p))
      have h2 := (hAB p).2
      have e4 : (W / D ^ 2 + 1 / D) * v p - -((d.sw : ℝ) / d.count / 2) = (v p / D + (d.sw : ℝ) / d.count / 2) + W * (v p / D ^ 2) := by ring
      rw [e4]
      exact add_le_add h2 h1

/-! ## A transition of a spin system -/

/-- The variance of the frequencies of a static powder. -/
noncomputable def Spec.variance (B0 : ℝ) (ph : Phys) (x : List ℕ × List ℕ) : ℝ :=
  (Spec.sphereMean fun p => Spec.line true B0 ph.sites ph.couplings x.1 x.2 p ^ 2) - Spec.isoFreq B0 ph.sites ph.couplings x ^ 2

theorem square_continuous (four : Bool) (B0 θ νr : ℝ) (ss : List Site) (ks : List Coupling) (xi xf : List ℕ) :
    Continuous fun p : ℝ × ℝ => Spec.average νr fun τ => Spec.momentary four B0 p.1 p.2 θ νr ss ks xi xf τ ^ 2 := by
  unfold Spec.average
  refine continuous_const.mul (intervalIntegral.continuous_parametric_intervalIntegral_of_continuous' ?_ 0 (1 / νr))
  have hspun : Continuous fun x : (ℝ × ℝ) × ℝ => Spec.spun x.1.1 x.1.2 θ νr x.2 := by
    unfold Spec.spun
    exact ((rz_continuous.comp (by fun_prop)).matrix_mul (ry_continuous.comp (by fun_prop))).matrix_mul
      ((rz_continuous.comp (by fun_prop)).matrix_mul continuous_const)
  exact (((energy_continuous four B0 ss ks xf).comp hspun).sub ((energy_continuous four B0 ss ks xi).comp hspun)).pow 2

theorem spunLine_mean (lib : Library) (c : String) (B0 νr θ : ℝ) (hν : 0 < νr) (ph : Phys) (hs : ∀ x ∈ ph.sites, x.Upright ∧ 1 ≤ x.n)
    (hk : ∀ k ∈ ph.couplings, k.Upright ∧ k.A < ph.sites.length ∧ k.X < ph.sites.length) (x : List ℕ × List ℕ)
    (hi : Spec.IsState ph.sites x.1) (hf : Spec.IsState ph.sites x.2) :
    Spec.sphereMean (Spec.spunLine lib c B0 νr θ ph x) = (if 0 < lib.gamma c then 1 else -1) * Spec.isoFreq B0 ph.sites ph.couplings x := by
  rw [← pulseLine_mean lib c B0 ph hs hk x hi hf]
  have h := momentary_power true B0 θ νr hν ph.sites ph.couplings x.1 x.2 1
  simp only [pow_one] at h
  have e1 : Spec.sphereMean (Spec.spunLine lib c B0 νr θ ph x) = (if 0 < lib.gamma c then 1 else -1) *
      Spec.sphereMean fun p => Spec.average νr (Spec.momentary true B0 p.1 p.2 θ νr ph.sites ph.couplings x.1 x.2) := sphereMean_mul _ _
  have e2 : Spec.sphereMean (Spec.pulseLine lib c B0 ph x) = (if 0 < lib.gamma c then 1 else -1) *
      Spec.sphereMean fun p => Spec.line true B0 ph.sites ph.couplings x.1 x.2 p := sphereMean_mul _ _
  rw [e1, e2, h]

/-- The mean of a square is not less than the square of the mean. -/
theorem mean_square (f : ℝ × ℝ → ℝ) (hf : Continuous f) : Spec.sphereMean f ^ 2 ≤ Spec.sphereMean fun p => f p ^ 2 := by
  set a := Spec.sphereMean f with ha
  have h := sphereMean_le (fun p => 2 * a * f p - a ^ 2) (fun p => f p ^ 2) (continuous_integrable _ ((continuous_const.mul hf).sub continuous_const))
    (continuous_integrable _ (hf.pow 2)) fun p => by nlinarith [sq_nonneg (f p - a)]
  rw [sphereMean_diff (fun p => 2 * a * f p) (fun _ => a ^ 2) (continuous_integrable _ (continuous_const.mul hf))
    (continuous_integrable _ continuous_const), sphereMean_mul, sphereMean_constant, ← ha] at h
  linarith

/-- One transition: area and first moment about the reference of what is recorded of it. -/
theorem transition_moments (lib : Library) (c : String) (central : Bool) (B0 νr θ : ℝ) (hν : 0 < νr) (d : Meth.SDim) (hev : d.count % 2 = 0)
    (hc : 2 ≤ d.count) (hsw : 0 < d.sw) (s : Run.Sys Phys (List Trans.Tr)) (hs : Spec.Sound lib s) (x : List ℕ × List ℕ)
    (hx : Spec.Observed c central s.isotopes s.phys.sites x) (D : ℝ) (hD : (d.sw : ℝ) / d.count / 2 ≤ D)
    (hwin : ∀ p y, |y| ≤ D → ((Meth.Spec.coord d 1 : ℚ) : ℝ) ≤ Spec.spunLine lib c B0 νr θ s.phys x p + y ∧
      Spec.spunLine lib c B0 νr θ s.phys x p + y ≤ ((Meth.Spec.coord d (d.count - 1 : ℕ) : ℚ) : ℝ)) :
    let G := fun j : ℕ => ∑ᶠ m : ℤ, Spec.sidebandPattern (decide (0 < lib.gamma c)) d j νr (Spec.spunLine lib c B0 νr θ s.phys x) m
      (Spec.spunSideband B0 νr θ s.phys x m)
    |∑ j ∈ Finset.Ico 1 d.count, G j - 1| ≤ Spec.variance B0 s.phys x / D ^ 2 ∧
      |∑ j ∈ Finset.Ico 1 d.count, (((Meth.Spec.coord d j : ℚ) : ℝ) - d.ref) * G j
        - ((if 0 < lib.gamma c then 1 else -1) * Spec.isoFreq B0 s.phys.sites s.phys.couplings x - d.ref)|
        ≤ Spec.variance B0 s.phys x * d.sw / D ^ 2 + (d.sw : ℝ) / d.count / 2 := by
  intro G
  have hn : (0 : ℝ) < d.count := by exact_mod_cast (by omega : 0 < d.count)
  have hsw' : (0 : ℝ) < d.sw := by exact_mod_cast hsw
  have hinc : (0 : ℝ) < (d.sw : ℝ) / d.count := by positivity
  have hD0 : 0 < D := by linarith
  obtain ⟨f1, f2⟩ := spunLine_facts lib c central B0 νr θ hν s hs x hx
  have hhalf : ((d.count / 2 : ℕ) : ℝ) = d.count / 2 := by
    obtain ⟨h, hh⟩ : ∃ h, d.count = 2 * h := ⟨d.count / 2, by omega⟩
    rw [hh, Nat.mul_div_cancel_left _ (by norm_num)]
    push_cast
    ring
  have hfull : (d.count : ℝ) * ((d.sw : ℝ) / d.count) = d.sw := by field_simp
  have hedge : ((Meth.Spec.coord d 1 : ℚ) : ℝ) = d.ref - d.sw / 2 + (d.sw : ℝ) / d.count ∧
      ((Meth.Spec.coord d (d.count - 1 : ℕ) : ℚ) : ℝ) = d.ref + d.sw / 2 - (d.sw : ℝ) / d.count := by
    unfold Meth.Spec.coord
    push_cast [Nat.cast_sub (by omega : 1 ≤ d.count)]
    rw [hhalf]
    constructor <;> linarith
  rw [hedge.1, hedge.2] at hwin
  have hW : ∀ p, |Spec.spunLine lib c B0 νr θ s.phys x p - d.ref| ≤ d.sw / 2 := by
    intro p
    have h := hwin p 0 (by rw [abs_zero]; exact hD0.le)
    rw [abs_le]
    constructor <;> linarith [h.1, h.2]
  have hDw : D ≤ d.sw / 2 := by
    have h1 := (hwin (0, 0) D (by rw [abs_of_pos hD0])).2
    have h2 := (hwin (0, 0) (-D) (by rw [abs_neg, abs_of_pos hD0])).1
    linarith
  have hσ : ∀ p, Spec.spunLine lib c B0 νr θ s.phys x p = (if decide (0 < lib.gamma c) then 1 else -1) *
      Spec.average νr (Spec.momentary true B0 p.1 p.2 θ νr s.phys.sites s.phys.couplings x.1 x.2) := by
    intro p
    simp only [decide_eq_true_eq]
    rfl
  have key := spun_moments (decide (0 < lib.gamma c)) d hc hsw νr hν
    (fun p => Spec.momentary true B0 p.1 p.2 θ νr s.phys.sites s.phys.couplings x.1 x.2) (fun p => momentary_continuous _ _ _ _ _ _ _ _ _ _)
    (Spec.spunLine lib c B0 νr θ s.phys x) f1 hσ (square_continuous true B0 θ νr s.phys.sites s.phys.couplings x.1 x.2)
    (fun m => (f2 m).1) D hD (by rw [hedge.1, hedge.2]; exact hwin) d.ref (d.sw / 2) hW
  rw [momentary_power true B0 θ νr hν s.phys.sites s.phys.couplings x.1 x.2 2,
    spunLine_mean lib c B0 νr θ hν s.phys hs.sites hs.couplings x hx.initial hx.final] at key
  have hvar : (Spec.sphereMean fun p => Spec.line true B0 s.phys.sites s.phys.couplings x.1 x.2 p ^ 2)
      - (Spec.sphereMean fun p => Spec.spunLine lib c B0 νr θ s.phys x p ^ 2) ≤ Spec.variance B0 s.phys x := by
    have h := mean_square _ f1
    rw [spunLine_mean lib c B0 νr θ hν s.phys hs.sites hs.couplings x hx.initial hx.final, mul_pow] at h
    have h1 : (if 0 < lib.gamma c then (1 : ℝ) else -1) ^ 2 = 1 := by split_ifs <;> norm_num
    rw [h1, one_mul] at h
    unfold Spec.variance
    linarith
  set V := (Spec.sphereMean fun p => Spec.line true B0 s.phys.sites s.phys.couplings x.1 x.2 p ^ 2)
      - (Spec.sphereMean fun p => Spec.spunLine lib c B0 νr θ s.phys x p ^ 2) with hV
  have hV0 : 0 ≤ V := by
    by_contra hneg
    have h1 : V / D ^ 2 < 0 := div_neg_of_neg_of_pos (by linarith) (by positivity)
    exact absurd (le_trans (abs_nonneg _) key.1) (not_le.mpr h1)
  refine ⟨key.1.trans (by gcongr), key.2.trans ?_⟩
  have h1 : (d.sw : ℝ) / 2 / D ^ 2 + 1 / D ≤ d.sw / D ^ 2 := by
    rw [show (1 : ℝ) / D = D / D ^ 2 by field_simp, ← add_div]
    gcongr
    linarith
  have h2 : V * (d.sw / 2 / D ^ 2 + 1 / D) ≤ Spec.variance B0 s.phys x * (d.sw / D ^ 2) :=
    mul_le_mul hvar h1 (by positivity) (hV0.trans hvar)
  rw [mul_div_assoc]
  linarith

/-! ## Theorem -/

theorem list_near {α : Type} (l : List α) (f g e : α → ℝ) (h : ∀ s ∈ l, |f s - g s| ≤ e s) :
    |(l.map f).sum - (l.map g).sum| ≤ (l.map e).sum := by
  induction l with
  | nil => simp
  | cons s l ih =>
    have h1 := h s List.mem_cons_self
    have h2 := ih fun t ht => h t (List.mem_cons_of_mem _ ht)
    simp only [List.map_cons, List.sum_cons]
    rw [abs_le] at h1 h2 ⊢
    constructor <;> linarith [h1.1, h1.2, h2.1, h2.2]

theorem list_swap {α : Type} (l : List α) (S : Finset ℕ) (g : ℕ → ℝ) (T : α → ℕ → ℝ) :
    ∑ j ∈ S, g j * (l.map fun s => T s j).sum = (l.map fun s => ∑ j ∈ S, g j * T s j).sum := by
  induction l with
  | nil => simp
  | cons s l ih =>
    simp only [List.map_cons, List.sum_cons, mul_add, Finset.sum_add_distrib, ih]

/-- **C114 (spinning), partial.** A Bloch decay spectrum of spin systems spun at any angle and any frequency above 1 mHz, on an axis whose points 1 to
`count - 1` reach at least the distance `D` beyond every average frequency.  As the integration density and then the number of sidebands grow, the
sum of the points tends to `3π` times the abundances per increment times the numbers of transitions, less at most the share `variance / D²`, where
the variance is that of the static powder; and the first moment about the reference offset tends to that of the isotropic frequencies, up to
`variance * width / D²` and half an increment.  So a window that is wide against the anisotropies holds the whole intensity and has its centre of
gravity at the isotropic frequencies, at any speed and angle of the rotor.  Missing: what C96 misses. -/
theorem C114_spinning_partial (lib : Library) (so : Trans.SetOrder) (c : String) (hγ : lib.gamma c ≠ 0) (central : Bool)
    (hcen : central = true → lib.twoI c % 2 = 1) (B0 νr θ : ℝ) (hr : 1 / 1000 ≤ νr) (d : Meth.SDim) [NeZero d.count]
    (hev : d.count % 2 = 0) (hsw : 0 < d.sw)
    (nOct : ℕ) (junk : ℕ → ℕ → Phys → List Trans.Tr → ℕ → ℕ → ℂ) (l : List (Run.Sys Phys (List Trans.Tr)))
    (hl : ∀ s ∈ l, Spec.Given lib s ∧ 0 ≤ s.abundance)
    (hu : ∀ a ∈ l, ∀ b ∈ l, c ∈ a.isotopes → c ∈ b.isotopes → a.isotopes.length = b.isotopes.length → a.isotopes = b.isotopes)
    (hO : nOct = 4 ∨ nOct = 1 ∧ ∀ s ∈ l, Spec.Unturned s.phys.sites s.phys.couplings)
    (D : ℝ) (hD : ((d.sw / d.count / 2 : ℚ) : ℝ) ≤ D)
    (hx : ∀ s ∈ l, ∀ x, Spec.Observed c central s.isotopes s.phys.sites x →
      (Spec.Wide d (Spec.spunLine lib c B0 νr θ (Spec.upright s.phys) x) ∨ Spec.Sharp (Spec.spunLine lib c B0 νr θ (Spec.upright s.phys) x)) ∧
      ∀ p, ((Meth.Spec.coord d 1 : ℚ) : ℝ) + D ≤ Spec.spunLine lib c B0 νr θ (Spec.upright s.phys) x p ∧
        Spec.spunLine lib c B0 νr θ (Spec.upright s.phys) x p + D ≤ ((Meth.Spec.coord d (d.count - 1 : ℕ) : ℚ) : ℝ))
    (cpu nJobs : ℤ) (hJ : 1 ≤ nJobs) :
    ∃ (L : ℕ → ℕ → ℝ) (M : ℕ → ℝ),
      (∀ n, ∃ v : ℕ → ZMod d.count → ℝ,
        (∀ nt, Run.run (pulseEnv WC.exact TC.exact lib so c central B0 ⟨n + 2, inferInstance, νr, θ⟩ d nOct (junk n) nt) cpu false l nJobs
          = .ok [.spec (v nt)]) ∧
        ∀ j, 1 ≤ j → j < d.count → Tendsto (fun nt => v nt j) atTop (𝓝 (L n j))) ∧
      (∀ j, 1 ≤ j → j < d.count → Tendsto (fun n => L n j) atTop (𝓝 (M j))) ∧
      |∑ j ∈ Finset.Ico 1 d.count, M j - 3 * Real.pi * (l.map fun s => if c ∈ s.isotopes then
          ((s.abundance / (d.sw / d.count) : ℚ) : ℝ) * {x | Spec.Observed c central s.isotopes s.phys.sites x}.ncard else 0).sum|
        ≤ 3 * Real.pi * (l.map fun s => if c ∈ s.isotopes then ((s.abundance / (d.sw / d.count) : ℚ) : ℝ) *
          ∑ᶠ (x) (_ : Spec.Observed c central s.isotopes s.phys.sites x), Spec.variance B0 (Spec.upright s.phys) x / D ^ 2 else 0).sum ∧
      |∑ j ∈ Finset.Ico 1 d.count, (((Meth.Spec.coord d j : ℚ) : ℝ) - d.ref) * M j - 3 * Real.pi * (l.map fun s => if c ∈ s.isotopes then
          ((s.abundance / (d.sw / d.count) : ℚ) : ℝ) * ∑ᶠ (x) (_ : Spec.Observed c central s.isotopes s.phys.sites x),
            ((if 0 < lib.gamma c then 1 else -1) * Spec.isoFreq B0 s.phys.sites s.phys.couplings x - d.ref) else 0).sum|
        ≤ 3 * Real.pi * (l.map fun s => if c ∈ s.isotopes then ((s.abundance / (d.sw / d.count) : ℚ) : ℝ) *
          ∑ᶠ (x) (_ : Spec.Observed c central s.isotopes s.phys.sites x),
            (Spec.variance B0 (Spec.upright s.phys) x * d.sw / D ^ 2 + ((d.sw / d.count / 2 : ℚ) : ℝ)) else 0).sum := by
  have hcount : d.count ≠ 0 := NeZero.ne _
  have hc2 : 2 ≤ d.count := by omega
  have hpi := Real.pi_pos
  have hν : 0 < νr := by linarith
  push_cast at hD
  obtain ⟨L, h1, h2⟩ := C96_tilted_spinning_partial lib so c hγ central hcen B0 νr θ hr d hev hsw nOct junk l (fun s hs => (hl s hs).1) hu hO
    (fun s hs x hxo => (hx s hs x hxo).1) cpu nJobs hJ
  refine ⟨L, _, fun n => ?_, h2, ?_⟩
  · obtain ⟨v, a1, -, a3⟩ := h1 n
    exact ⟨v, a1, a3⟩
  have win : ∀ a b F y : ℝ, a + D ≤ F → F + D ≤ b → |y| ≤ D → a ≤ F + y ∧ F + y ≤ b := by
    intro a b F y ha hb hy
    rw [abs_le] at hy
    constructor <;> linarith [hy.1, hy.2]
  have one := fun s hs x hxo => transition_moments lib c central B0 νr θ hν d hev hc2 hsw (Spec.uprightSys s) (upright_sound lib s (hl s hs).1) x
    (observed_n c central _ _ _ (absSite_n _) x hxo) D hD fun p y hy => win _ _ _ y ((hx s hs x hxo).2 p).1 ((hx s hs x hxo).2 p).2 hy
  simp only [Spec.uprightSys, upright_iso] at one
  set G : Run.Sys Phys (List Trans.Tr) → List ℕ × List ℕ → ℕ → ℝ := fun s x j => ∑ᶠ m : ℤ, Spec.sidebandPattern (decide (0 < lib.gamma c)) d j νr
    (Spec.spunLine lib c B0 νr θ (Spec.upright s.phys) x) m (Spec.spunSideband B0 νr θ (Spec.upright s.phys) x m) with hG
  have key : ∀ (g : ℕ → ℝ) (A E : Run.Sys Phys (List Trans.Tr) → List ℕ × List ℕ → ℝ),
      (∀ s ∈ l, ∀ x, Spec.Observed c central s.isotopes s.phys.sites x → |∑ j ∈ Finset.Ico 1 d.count, g j * G s x j - A s x| ≤ E s x) →
      |∑ j ∈ Finset.Ico 1 d.count, g j * (l.map fun s => if c ∈ s.isotopes then ((s.abundance / (d.sw / d.count) : ℚ) : ℝ) *
          ∑ᶠ (x) (_ : Spec.Observed c central s.isotopes s.phys.sites x), 3 * Real.pi * G s x j else 0).sum
        - 3 * Real.pi * (l.map fun s => if c ∈ s.isotopes then ((s.abundance / (d.sw / d.count) : ℚ) : ℝ) *
          ∑ᶠ (x) (_ : Spec.Observed c central s.isotopes s.phys.sites x), A s x else 0).sum|
        ≤ 3 * Real.pi * (l.map fun s => if c ∈ s.isotopes then ((s.abundance / (d.sw / d.count) : ℚ) : ℝ) *
          ∑ᶠ (x) (_ : Spec.Observed c central s.isotopes s.phys.sites x), E s x else 0).sum := by
    intro g A E h
    rw [list_swap, ← List.sum_map_mul_left, ← List.sum_map_mul_left]
    refine list_near _ _ _ _ fun s hs => ?_
    by_cases hcs : c ∈ s.isotopes
    · simp only [if_pos hcs]
      have hfin := observed_finite lib c central s (hl s hs).1 hcs
      have hfs : ∀ g : List ℕ × List ℕ → ℝ, (∑ᶠ (x) (_ : Spec.Observed c central s.isotopes s.phys.sites x), g x)
          = ∑ x ∈ hfin.toFinset, g x := by
        intro g
        exact finsum_mem_eq_finite_toFinset_sum g hfin
      have hmemo : ∀ x ∈ hfin.toFinset, Spec.Observed c central s.isotopes s.phys.sites x := fun x hx => by simpa using hx
      simp only [hfs]
      set w : ℝ := ((s.abundance / (d.sw / d.count) : ℚ) : ℝ) with hw
      have hw0 : 0 ≤ w := by
        have := (hl s hs).2
        rw [hw]
        exact_mod_cast (by positivity : 0 ≤ s.abundance / (d.sw / d.count))
      have hswap : ∑ j ∈ Finset.Ico 1 d.count, g j * (w * ∑ x ∈ hfin.toFinset, 3 * Real.pi * G s x j)
          = 3 * Real.pi * (w * ∑ x ∈ hfin.toFinset, ∑ j ∈ Finset.Ico 1 d.count, g j * G s x j) := by
        simp only [Finset.mul_sum]
        rw [Finset.sum_comm]
        exact Finset.sum_congr rfl fun j _ => Finset.sum_congr rfl fun x _ => by ring
      rw [hswap, ← mul_sub, ← mul_sub, ← Finset.sum_sub_distrib, abs_mul (3 * Real.pi), abs_mul w, abs_of_nonneg hw0,
        abs_of_pos (by positivity : 0 < 3 * Real.pi)]
      gcongr
      exact (Finset.abs_sum_le_sum_abs _ _).trans (Finset.sum_le_sum fun x hxm => h s hs x (hmemo x hxm))
    · simp only [if_neg hcs, mul_zero, Finset.sum_const_zero, sub_zero, abs_zero, le_refl]
  constructor
  · have h := key (fun _ => 1) (fun _ _ => 1) (fun s x => Spec.variance B0 (Spec.upright s.phys) x / D ^ 2) fun s hs x hxo => by
      simp only [one_mul]
      exact (one s hs x hxo).1
    simp only [one_mul] at h
    refine le_trans (le_of_eq ?_) h
    congr 3
    congr 1
    refine List.map_congr_left fun s hs => ?_
    by_cases hcs : c ∈ s.isotopes
    · simp only [if_pos hcs]
      have hfin := observed_finite lib c central s (hl s hs).1 hcs
      rw [Set.ncard_eq_toFinset_card _ hfin]
      congr 1
      have := finsum_mem_eq_finite_toFinset_sum (fun _ => (1 : ℝ)) hfin
      refine Eq.trans ?_ this.symm
      simp
    · simp only [if_neg hcs]
  · exact key (fun j => ((Meth.Spec.coord d j : ℚ) : ℝ) - d.ref)
      (fun s x => (if 0 < lib.gamma c then 1 else -1) * Spec.isoFreq B0 s.phys.sites s.phys.couplings x - d.ref)
      (fun s x => Spec.variance B0 (Spec.upright s.phys) x * d.sw / D ^ 2 + ((d.sw / d.count / 2 : ℚ) : ℝ)) fun s hs x hxo => by
        push_cast
        exact (one s hs x hxo).2

/-- The site of the example spun at 1 Hz about an axis at a right angle to the field, recorded with 512 points over 64 Hz.  The variance of its static
line is 4/15 Hz².  The sum of the points comes to `3π · 560` with an error of at most 1 in 3375. -/
example (so : Trans.SetOrder) (junk : ℕ → ℕ → Phys → List Trans.Tr → ℕ → ℕ → ℂ) (cpu : ℤ) :
    haveI : NeZero (Meth.SDim.count ⟨512, 64, 0, none⟩) := ⟨by norm_num⟩
    ∃ (L : ℕ → ℕ → ℝ) (M : ℕ → ℝ),
      (∀ n, ∃ v : ℕ → ZMod 512 → ℝ,
        (∀ nt, Run.run (pulseEnv WC.exact TC.exact exampleLib so "15N" false 1 ⟨n + 2, inferInstance, 1, Real.pi / 2⟩ ⟨512, 64, 0, none⟩ 4 (junk n) nt)
          cpu false [exampleSys 70] 4 = .ok [.spec (v nt)]) ∧
        ∀ j : ℕ, 1 ≤ j → j < 512 → Tendsto (fun nt => v nt j) atTop (𝓝 (L n j))) ∧
      (∀ j, 1 ≤ j → j < 512 → Tendsto (fun n => L n j) atTop (𝓝 (M j))) ∧
      |∑ j ∈ Finset.Ico 1 512, M j - 3 * Real.pi * 560| ≤ 3 * Real.pi * 560 / 3375 ∧
      |∑ j ∈ Finset.Ico (1 : ℕ) 512, ((Meth.Spec.coord ⟨512, 64, 0, none⟩ j : ℚ) : ℝ) * M j| ≤ 3 * Real.pi * 560 * (64 / 3375 + 1 / 16) := by
  have : NeZero (Meth.SDim.count ⟨512, 64, 0, none⟩) := ⟨by norm_num⟩
  have hup : Spec.upright (exampleSys 70).phys = (exampleSys 70).phys :=
    congrArg Run.Sys.phys (uprightSys_id exampleLib (exampleSys 70) (example_sound _))
  have hline : Spec.spunLine exampleLib "15N" 1 1 (Real.pi / 2) (exampleSys 70).phys ([1], [0])
      = fun p => -1 / 2 * (Real.sin p.2 ^ 2 * Real.cos p.1 ^ 2 - Real.cos p.2 ^ 2) := by
    funext p
    rw [← poleSite_spun]
    unfold Spec.spunLine Spec.average
    have e : Spec.momentary true 1 p.1 p.2 (Real.pi / 2) 1 (exampleSys 70).phys.sites (exampleSys 70).phys.couplings [1] [0]
        = fun τ => -Spec.momentary false 1 p.1 p.2 (Real.pi / 2) 1 [poleSite] [] [0] [1] τ := funext (example_momentary _ _ _ _)
    simp only [e]
    rw [intervalIntegral.integral_neg]
    simp [exampleLib]
    norm_num
  have hiso : Spec.isoFreq 1 (exampleSys 70).phys.sites (exampleSys 70).phys.couplings ([1], [0]) = 0 := by
    simp [exampleSys, poleSite, Spec.isoFreq, Spec.isoSite, Spec.quantum]
  have hvar : Spec.variance 1 (exampleSys 70).phys ([1], [0]) = 4 / 15 := by
    unfold Spec.variance
    rw [hiso]
    have h := static_anisotropy 1 poleSite rfl
    refine (congrArg (· - (0 : ℝ) ^ 2) h).trans ?_
    norm_num [poleSite]
  have hset : {x | Spec.Observed "15N" false (exampleSys 70).isotopes (exampleSys 70).phys.sites x} = {([1], [0])} := by
    ext x
    exact example_observed 70 x
  have hsum : ∀ g : List ℕ × List ℕ → ℝ,
      (∑ᶠ (x) (_ : Spec.Observed "15N" false (exampleSys 70).isotopes (exampleSys 70).phys.sites x), g x) = g ([1], [0]) := by
    intro g
    simp only [example_observed]
    rw [finsum_eq_single _ ([1], [0]) (fun x hx => by simp [hx])]
    simp
  obtain ⟨L, M, h1, h2, h3, h4⟩ := C114_spinning_partial exampleLib so "15N" (by norm_num [exampleLib]) false (by simp) 1 1 (Real.pi / 2) (by norm_num)
    ⟨512, 64, 0, none⟩ (by norm_num) (by norm_num) 4 junk [exampleSys 70]
    (by
      intro s hs
      rw [List.mem_singleton] at hs
      rw [hs]
      exact ⟨(example_sound _).given, by norm_num [exampleSys]⟩)
    (by
      intro a ha b hb _ _ _
      rw [List.mem_singleton] at ha hb
      rw [ha, hb])
    (Or.inl rfl) 30 (by norm_num)
    (by
      intro s hs x hx
      rw [List.mem_singleton] at hs
      subst hs
      rw [(example_observed 70 x).mp hx, hup, hline]
      refine ⟨Or.inl (Or.inl (by norm_num)), fun p => ?_⟩
      have h1 := Real.sin_sq_le_one p.2
      have h2 := Real.cos_sq_le_one p.1
      have h3 := Real.cos_sq_le_one p.2
      have h4 := mul_le_mul h1 h2 (sq_nonneg _) (by norm_num : (0 : ℝ) ≤ 1)
      have h5 := mul_nonneg (sq_nonneg (Real.sin p.2)) (sq_nonneg (Real.cos p.1))
      have h6 := sq_nonneg (Real.cos p.2)
      unfold Meth.Spec.coord
      norm_num
      constructor <;> linarith)
    cpu 4 (by norm_num)
  have hc : "15N" ∈ (exampleSys 70).isotopes := by simp [exampleSys]
  have hab : (exampleSys 70).abundance = 70 := rfl
  simp only [List.map_cons, List.map_nil, List.sum_cons, List.sum_nil, if_pos hc, hset, Set.ncard_singleton, hsum, hup, hvar, hiso, hab] at h3 h4
  refine ⟨L, M, h1, h2, h3.trans' (le_of_eq ?_) |>.trans (le_of_eq ?_), h4.trans' (le_of_eq ?_) |>.trans (le_of_eq ?_)⟩
  · norm_num
  · norm_num
    ring
  · norm_num
  · norm_num
    ring

end MRS.Freq
