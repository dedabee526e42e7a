import Verif.Freq.NearMagic
import Verif.Freq.Tilted

/-!
# Centre of gravity of a powder spectrum — property C114

Users read isotropic shifts and quadrupole-induced shifts off the centre of gravity of a line.  The specification is the textbook formula
for the isotropic frequency of a transition, and the area and the first moment of the points of the spectrum.
-/

namespace MRS.Freq

open Complex ComplexConjugate Filter Topology

/-! ## Specification -/

open Classical in
/-- The isotropic frequency of a site that goes from `m` to `m'`: the chemical shift and, for a quadrupolar nucleus, the quadrupole-induced
shift of second order, with `ν_Q = 3 C_q / (2I (2I - 1))`. -/
noncomputable def Spec.isoSite (B0 : ℝ) (s : Site) (m m' : ℝ) : ℝ :=
  -B0 * s.gamma * s.iso * (m' - m) + if s.n = 1 then 0 else
    (3 * s.Cq / (s.n * (s.n - 1))) ^ 2 * (1 + s.etaQ ^ 2 / 3) / (30 * (-B0 * s.gamma * 1e6)) *
      (3 * (m' ^ 3 - m ^ 3) - (s.n / 2) * (s.n / 2 + 1) * (m' - m))

/-- The isotropic frequency of a transition of a spin system: that of the sites and of the J couplings. -/
noncomputable def Spec.isoFreq (B0 : ℝ) (ss : List Site) (ks : List Coupling) (x : List ℕ × List ℕ) : ℝ :=
  (List.zipWith (fun (s : Site) (y : ℝ × ℝ) => Spec.isoSite B0 s y.1 y.2) ss
      (List.zip (Spec.quantum ss x.1) (Spec.quantum ss x.2))).sum
    + (ks.map fun k => k.J * ((Spec.quantum ss x.2).getD k.A 0 * (Spec.quantum ss x.2).getD k.X 0
        - (Spec.quantum ss x.1).getD k.A 0 * (Spec.quantum ss x.1).getD k.X 0)).sum

/-! ## The isotropic part of the components -/

/-- The transition function of the second order. -/
theorem stfCL_zero (mf mi I : ℝ) : (stfCL TC.exact mf mi I).1 = 1 / √5 * (3 * (mf ^ 3 - mi ^ 3) - I * (I + 1) * (mf - mi)) := by
  have h5 : (0 : ℝ) < √5 := Real.sqrt_pos.mpr (by norm_num)
  have h2 : (0 : ℝ) < √2 := Real.sqrt_pos.mpr (by norm_num)
  have e5 : √5 * √5 = (5 : ℝ) := Real.mul_self_sqrt (by norm_num)
  have e125 : √125 = 5 * √(5 : ℝ) := by
    rw [show (125 : ℝ) = 5 ^ 2 * 5 by norm_num, Real.sqrt_mul (by norm_num), Real.sqrt_sq (by norm_num)]
  have e18 : √(18 / 25) = 3 / 5 * √(2 : ℝ) := by
    rw [show (18 / 25 : ℝ) = (3 / 5) ^ 2 * 2 by norm_num, Real.sqrt_mul (by norm_num), Real.sqrt_sq (by norm_num)]
  have e10 : √10 = √2 * √(5 : ℝ) := by
    rw [show (10 : ℝ) = 2 * 5 by norm_num, Real.sqrt_mul (by norm_num)]
  simp only [stfCL, stfF, stfP, TC.exact]
  rw [e125, e18, e10]
  field_simp
  ring

theorem addSite_R0 (W : WC) (B0 : ℝ) (t : Tens) (s : Site) (mf mi : ℝ) :
    (addSite W TC.exact true B0 t s mf mi).R0 = t.R0 + Spec.isoSite B0 s mi mf := by
  unfold addSite Spec.isoSite
  have e5 : √5 * √5 = (5 : ℝ) := Real.mul_self_sqrt (by norm_num)
  have h5 : √(5 : ℝ) ≠ 0 := (Real.sqrt_pos.mpr (by norm_num)).ne'
  by_cases h : mi = mf
  · rw [if_pos h, h]
    split_ifs <;> ring
  rw [if_neg h]
  by_cases h1 : s.n = 1
  · simp only [if_pos h1]
    change t.R0 + (shieldingPart W TC.exact B0 s mf mi).R0 = _
    unfold shieldingPart
    rw [fcf_R0]
    simp only [ssotShielding, stfP, larmor]
    ring
  · simp only [if_neg h1, if_true]
    change t.R0 + (shieldingPart W TC.exact B0 s mf mi).R0 + (quad1Part W TC.exact s mf mi).R0 + (quad2Part W TC.exact B0 s mf mi).R0 = _
    unfold shieldingPart quad1Part quad2Part
    rw [fcf_R0, fcf_R0]
    simp only [fcfQuad2]
    rw [stfCL_zero]
    simp only [ssotShielding, ssotQuad1, ssotQuad2, stfP, larmor, vq, TC.exact]
    have e : 1 / (6 * √5) * (1 / √5) = (1 / 30 : ℝ) := by
      field_simp
      linarith
    have e2 : 2 * ((s.n : ℝ) / 2) = s.n := by ring
    rw [e2]
    have e3 : ∀ a b x y : ℝ, a * (1 / (6 * √5)) * b * (1 / √5 * x) = 1 / 30 * a * b * x := by
      intro a b x y
      rw [← e]
      ring
    rw [e3 _ _ _ 0]
    ring

theorem addSites_R0 (W : WC) (B0 : ℝ) : ∀ (t : Tens) (ss : List Site) (xi xf : List ℕ), Spec.IsState ss xi → Spec.IsState ss xf →
    (addSites W TC.exact true B0 t ss (Spec.quantum ss xi) (Spec.quantum ss xf)).R0 = t.R0 +
      (List.zipWith (fun (s : Site) (y : ℝ × ℝ) => Spec.isoSite B0 s y.1 y.2) ss (List.zip (Spec.quantum ss xi) (Spec.quantum ss xf))).sum := by
  intro t ss
  induction ss generalizing t with
  | nil =>
    intro xi xf hi hf
    simp [Spec.quantum, addSites]
  | cons s ss ih =>
    intro xi xf hi hf
    cases hi with
    | cons a1 a2 =>
      cases hf with
      | cons b1 b2 =>
        simp only [Spec.quantum, List.zipWith_cons_cons, addSites, List.zip_cons_cons, List.sum_cons] at ih ⊢
        rw [ih _ _ _ a2 b2, addSite_R0]
        ring

/-- The isotropic part of the components of a spin system. -/
theorem components_R0 (W : WC) (B0 : ℝ) (ss : List Site) (ks : List Coupling) (x : List ℕ × List ℕ) (hi : Spec.IsState ss x.1)
    (hf : Spec.IsState ss x.2) :
    (components W TC.exact true B0 ss ks (Spec.quantum ss x.1) (Spec.quantum ss x.2)).R0 = Spec.isoFreq B0 ss ks x := by
  have key : ∀ t : Tens, (ks.foldl (fun t k => addCoupling W TC.exact t (Spec.quantum ss x.1) (Spec.quantum ss x.2) k) t).R0 = t.R0 +
      (ks.map fun k => k.J * ((Spec.quantum ss x.2).getD k.A 0 * (Spec.quantum ss x.2).getD k.X 0
        - (Spec.quantum ss x.1).getD k.A 0 * (Spec.quantum ss x.1).getD k.X 0)).sum := by
    induction ks with
    | nil => intro t; simp
    | cons k ks ih =>
      intro t
      rw [List.foldl_cons, ih, List.map_cons, List.sum_cons]
      have : (addCoupling W TC.exact t (Spec.quantum ss x.1) (Spec.quantum ss x.2) k).R0 = t.R0 +
          k.J * ((Spec.quantum ss x.2).getD k.A 0 * (Spec.quantum ss x.2).getD k.X 0
            - (Spec.quantum ss x.1).getD k.A 0 * (Spec.quantum ss x.1).getD k.X 0) := by
        unfold addCoupling
        simp only [addT]
        unfold jPart dipolarPart
        rw [fcf_R0, fcf_R0]
        simp only [ssotJ, ssotDipolar, stfDIS]
        ring
      rw [this]
      ring
  unfold components Spec.isoFreq
  rw [key, addSites_R0 W B0 _ _ _ _ hi hf]
  simp [zeroT]

/-- The mean frequency of a transition over all directions. -/
theorem pulseLine_mean (lib : Library) (c : String) (B0 : ℝ) (ph : Phys) (hs : ∀ x ∈ ph.sites, x.Upright ∧ 1 ≤ x.n)
    (hk : ∀ k ∈ ph.couplings, k.Upright ∧ k.A < ph.sites.length ∧ k.X < ph.sites.length) (x : List ℕ × List ℕ)
    (hi : Spec.IsState ph.sites x.1) (hf : Spec.IsState ph.sites x.2) :
    Spec.sphereMean (Spec.pulseLine lib c B0 ph x) = (if 0 < lib.gamma c then 1 else -1) * Spec.isoFreq B0 ph.sites ph.couplings x := by
  rw [← recordedW_exact lib c B0 ph hs hk x hi hf]
  have : recordedW WC.exact TC.exact lib c B0 ph x = fun p => (if 0 < lib.gamma c then 1 else -1) *
      dirFreq WC.exact true 1 0 (components WC.exact TC.exact true B0 ph.sites ph.couplings (Spec.quantum ph.sites x.1)
        (Spec.quantum ph.sites x.2)) p := rfl
  rw [this, sphereMean_mul, dirFreq_mean, components_R0 WC.exact B0 _ _ _ hi hf]

theorem pulseLine_cont (lib : Library) (c : String) (B0 : ℝ) (ph : Phys) (hs : ∀ x ∈ ph.sites, x.Upright ∧ 1 ≤ x.n)
    (hk : ∀ k ∈ ph.couplings, k.Upright ∧ k.A < ph.sites.length ∧ k.X < ph.sites.length) (x : List ℕ × List ℕ)
    (hi : Spec.IsState ph.sites x.1) (hf : Spec.IsState ph.sites x.2) : Continuous (Spec.pulseLine lib c B0 ph x) := by
  rw [← recordedW_exact lib c B0 ph hs hk x hi hf]
  exact continuous_const.mul (dirFreq_continuous _ _ _ _ _)

/-! ## The points of the axis -/

theorem sphereMean_finset {ι : Type} (s : Finset ι) (a : ι → ℝ) (g : ι → ℝ × ℝ → ℝ)
    (h : ∀ i ∈ s, MeasureTheory.IntegrableOn (fun p : ℝ × ℝ => Real.sin p.2 * g i p) (Set.Ioo 0 (2 * Real.pi) ×ˢ Set.Ioo 0 Real.pi)) :
    Spec.sphereMean (fun p => ∑ i ∈ s, a i * g i p) = ∑ i ∈ s, a i * Spec.sphereMean (g i) := by
  unfold Spec.sphereMean
  have e : (fun p : ℝ × ℝ => Real.sin p.2 * ∑ i ∈ s, a i * g i p) = fun p => ∑ i ∈ s, a i * (Real.sin p.2 * g i p) := by
    funext p
    rw [Finset.mul_sum]
    exact Finset.sum_congr rfl fun i _ => by ring
  rw [e, MeasureTheory.integral_finsetSum _ (fun i hi => (h i hi).const_mul _), Finset.mul_sum]
  refine Finset.sum_congr rfl fun i _ => ?_
  rw [MeasureTheory.integral_const_mul]
  ring

theorem sphereMean_diff (f g : ℝ × ℝ → ℝ)
    (hf : MeasureTheory.IntegrableOn (fun p : ℝ × ℝ => Real.sin p.2 * f p) (Set.Ioo 0 (2 * Real.pi) ×ˢ Set.Ioo 0 Real.pi))
    (hg : MeasureTheory.IntegrableOn (fun p : ℝ × ℝ => Real.sin p.2 * g p) (Set.Ioo 0 (2 * Real.pi) ×ˢ Set.Ioo 0 Real.pi)) :
    Spec.sphereMean (fun p => f p - g p) = Spec.sphereMean f - Spec.sphereMean g := by
  unfold Spec.sphereMean
  have e : (fun p : ℝ × ℝ => Real.sin p.2 * (f p - g p)) = fun p => Real.sin p.2 * f p - Real.sin p.2 * g p := by
    funext p
    ring
  rw [e, MeasureTheory.integral_sub hf hg]
  ring

theorem sphereMean_constant (a : ℝ) : Spec.sphereMean (fun _ => a) = a := by
  have h1 := dirFreq_mean WC.exact true 1 0 ⟨a, fun _ => 0, fun _ => 0⟩
  have h2 : dirFreq WC.exact true 1 0 ⟨a, fun _ => 0, fun _ => 0⟩ = fun _ => a := by
    funext p
    unfold dirFreq localFreq
    simp [half_zero]
  rw [h2] at h1
  exact h1

/-- A frequency between the coordinates of the first two points that are not point 0 and the last belongs to one of them. -/
theorem bin_unique (pos : Bool) (d : Meth.SDim) (hc : 2 ≤ d.count) (hsw : 0 < d.sw) (y : ℝ)
    (h1 : ((Meth.Spec.coord d 1 : ℚ) : ℝ) ≤ y) (h2 : y ≤ ((Meth.Spec.coord d (d.count - 1 : ℕ) : ℚ) : ℝ)) :
    ∃ j ∈ Finset.Ico 1 d.count, y ∈ Spec.bin pos d j ∧ ∀ i, y ∈ Spec.bin pos d i → i = j := by
  have hn : (0 : ℝ) < d.count := by exact_mod_cast (by omega : 0 < d.count)
  have hsw' : (0 : ℝ) < d.sw := by exact_mod_cast hsw
  have hinc : (0 : ℝ) < (d.sw : ℝ) / d.count := by positivity
  set inc : ℝ := (d.sw : ℝ) / d.count with hi
  have hcoord : ∀ j : ℕ, ((Meth.Spec.coord d j : ℚ) : ℝ) = ((Meth.Spec.coord d 0 : ℚ) : ℝ) + j * inc := by
    intro j
    unfold Meth.Spec.coord
    push_cast
    rw [hi]
    ring
  set c0 : ℝ := ((Meth.Spec.coord d 0 : ℚ) : ℝ) with hc0
  set u : ℝ := (y - c0) / inc with hu
  have hy : y = c0 + u * inc := by
    rw [hu]
    field_simp
    ring
  have h1' : (1 : ℝ) ≤ u := by
    have := hcoord 1
    push_cast at this
    rw [this] at h1
    rw [hu, le_div_iff₀ hinc]
    linarith
  have h2' : u ≤ d.count - 1 := by
    have := hcoord (d.count - 1)
    rw [this, Nat.cast_sub (by omega)] at h2
    push_cast at h2
    rw [hu, div_le_iff₀ hinc]
    linarith
  have hmem : ∀ j : ℕ, y ∈ Spec.bin pos d j ↔
      if pos then (j : ℝ) - 1 / 2 ≤ u ∧ u < j + 1 / 2 else (j : ℝ) - 1 / 2 < u ∧ u ≤ j + 1 / 2 := by
    intro j
    have ea : ((Meth.Spec.coord d j - d.sw / d.count / 2 : ℚ) : ℝ) = c0 + ((j : ℝ) - 1 / 2) * inc := by
      have := hcoord j
      push_cast at this ⊢
      rw [this]
      ring
    have eb : ((Meth.Spec.coord d j + d.sw / d.count / 2 : ℚ) : ℝ) = c0 + ((j : ℝ) + 1 / 2) * inc := by
      have := hcoord j
      push_cast at this ⊢
      rw [this]
      ring
    unfold Spec.bin
    simp only [ea, eb, hy]
    cases pos
    · simp only [Bool.false_eq_true, if_false, Set.mem_Ioc, add_lt_add_iff_left, add_le_add_iff_left, mul_lt_mul_iff_left₀ hinc, mul_le_mul_iff_left₀ hinc]
    · simp only [if_true, Set.mem_Ico, add_lt_add_iff_left, add_le_add_iff_left, mul_lt_mul_iff_left₀ hinc, mul_le_mul_iff_left₀ hinc]
  have huniq : ∀ i j : ℕ, y ∈ Spec.bin pos d i → y ∈ Spec.bin pos d j → i = j := by
    intro i j hi hj
    rw [hmem] at hi hj
    have a : (i : ℝ) < j + 1 ∧ (j : ℝ) < i + 1 := by
      cases pos <;> simp at hi hj <;> constructor <;> linarith
    have a1 : i < j + 1 := by exact_mod_cast a.1
    have a2 : j < i + 1 := by exact_mod_cast a.2
    omega
  have hex : ∃ j : ℕ, y ∈ Spec.bin pos d j := by
    cases pos
    · refine ⟨⌈u - 1 / 2⌉₊, ?_⟩
      rw [hmem]
      simp only [Bool.false_eq_true, if_false]
      have a := Nat.le_ceil (u - 1 / 2)
      have b := Nat.ceil_lt_add_one (a := u - 1 / 2) (by linarith)
      constructor <;> linarith
    · refine ⟨⌊u + 1 / 2⌋₊, ?_⟩
      rw [hmem]
      simp only [if_true]
      have a := Nat.floor_le (a := u + 1 / 2) (by linarith)
      have b := Nat.lt_floor_add_one (u + 1 / 2)
      constructor <;> linarith
  obtain ⟨j, hj⟩ := hex
  refine ⟨j, ?_, hj, fun i hi => huniq i j hi hj⟩
  rw [hmem] at hj
  have a : (1 : ℝ) - 1 / 2 ≤ j ∧ (j : ℝ) ≤ d.count - 1 + 1 / 2 := by
    cases pos <;> simp at hj <;> constructor <;> linarith
  have a1 : 0 < j := by
    by_contra h
    have : j = 0 := by omega
    rw [this] at a
    norm_num at a
  have a2 : j < d.count := by
    by_contra h
    have : (d.count : ℝ) ≤ j := by exact_mod_cast (by omega : d.count ≤ j)
    linarith [a.2]
  exact Finset.mem_Ico.mpr ⟨a1, a2⟩

/-- Area and centre of a sharp line, in bins. -/
theorem linear_moments (n : ℕ) (u : ℝ) (h1 : 1 ≤ u) (h2 : u ≤ n - 1) :
    ∑ j ∈ Finset.Ico 1 n, Bin.Spec.linear (u - j) = 1 ∧ |∑ j ∈ Finset.Ico 1 n, (j : ℝ) * Bin.Spec.linear (u - j) - u| ≤ 1 / 2 := by
  set k := ⌊u⌋₊ with hk
  have hk1 := Nat.floor_le (a := u) (by linarith)
  have hk2 := Nat.lt_floor_add_one u
  rw [← hk] at hk1 hk2
  have hkpos : 1 ≤ k := Nat.le_floor (by exact_mod_cast h1)
  have hkn : k < n := by
    have : (k : ℝ) < n := by linarith
    exact_mod_cast this
  have hfar : ∀ j : ℕ, j ≠ k → j ≠ k + 1 → Bin.Spec.linear (u - j) = 0 := by
    intro j hj hj'
    have habs : 1 ≤ |u - j| := by
      rcases Nat.lt_or_ge j k with h | h
      · have : (j : ℝ) + 1 ≤ k := by exact_mod_cast h
        exact le_abs.mpr (Or.inl (by linarith))
      · have : (k : ℝ) + 2 ≤ j := by exact_mod_cast (by omega : k + 2 ≤ j)
        exact le_abs.mpr (Or.inr (by linarith))
    unfold Bin.Spec.linear
    rw [if_neg (by linarith), if_pos (by linarith)]
  have habs0 : |u - k| = u - k := abs_of_nonneg (by linarith)
  have habs1 : |u - (k + 1 : ℕ)| = k + 1 - u := by
    rw [abs_of_neg (by push_cast; linarith)]
    push_cast
    ring
  have hsum : ∀ g : ℕ → ℝ, ∑ j ∈ Finset.Ico 1 n, g j * Bin.Spec.linear (u - j)
      = g k * Bin.Spec.linear (u - k) + g (k + 1) * Bin.Spec.linear (u - (k + 1 : ℕ)) := by
    intro g
    rcases Nat.lt_or_ge (k + 1) n with h | h
    · exact Finset.sum_eq_add_of_mem k (k + 1) (Finset.mem_Ico.mpr ⟨hkpos, hkn⟩) (Finset.mem_Ico.mpr ⟨by omega, h⟩) (by omega)
        fun j _ hj => by rw [hfar j hj.1 hj.2, mul_zero]
    · rw [Finset.sum_eq_single_of_mem k (Finset.mem_Ico.mpr ⟨hkpos, hkn⟩) fun j hj hj' => by
        rw [hfar j hj' (by have := (Finset.mem_Ico.mp hj).2; omega), mul_zero]]
      have hn : n = k + 1 := by omega
      have hz : Bin.Spec.linear (u - (k + 1 : ℕ)) = 0 := by
        have : (u : ℝ) = k := by
          rw [hn] at h2
          push_cast at h2
          linarith
        unfold Bin.Spec.linear
        rw [habs1, this]
        norm_num
      rw [hz, mul_zero, add_zero]
  have hs1 := hsum fun _ => 1
  have hs2 := hsum fun j => j
  simp only [one_mul] at hs1
  rw [hs1, hs2]
  unfold Bin.Spec.linear
  rw [habs0, habs1]
  push_cast
  constructor
  · split_ifs <;> linarith
  · split_ifs <;> rw [abs_le] <;> constructor <;> nlinarith

/-- Area and first moment of a pattern. -/
theorem pattern_moments (pos : Bool) (d : Meth.SDim) (hc : 2 ≤ d.count) (hsw : 0 < d.sw) (f : ℝ × ℝ → ℝ) (hf : Continuous f)
    (h1 : ∀ p, ((Meth.Spec.coord d 1 : ℚ) : ℝ) ≤ f p) (h2 : ∀ p, f p ≤ ((Meth.Spec.coord d (d.count - 1 : ℕ) : ℚ) : ℝ)) :
    ∑ j ∈ Finset.Ico 1 d.count, Spec.pattern pos d j f = 1 ∧
      |∑ j ∈ Finset.Ico 1 d.count, ((Meth.Spec.coord d j : ℚ) : ℝ) * Spec.pattern pos d j f - Spec.sphereMean f|
        ≤ ((d.sw / d.count / 2 : ℚ) : ℝ) := by
  classical
  have hn : (0 : ℝ) < d.count := by exact_mod_cast (by omega : 0 < d.count)
  have hsw' : (0 : ℝ) < d.sw := by exact_mod_cast hsw
  have hinc : (0 : ℝ) < (d.sw : ℝ) / d.count := by positivity
  have hcoord : ∀ j : ℕ, ((Meth.Spec.coord d j : ℚ) : ℝ) = ((Meth.Spec.coord d 0 : ℚ) : ℝ) + j * ((d.sw : ℝ) / d.count) := by
    intro j
    unfold Meth.Spec.coord
    push_cast
    ring
  by_cases hsh : Spec.Sharp f
  · obtain ⟨y, hy⟩ := hsh
    have hsh : Spec.Sharp f := ⟨y, hy⟩
    have hfy : f = fun _ => y := funext hy
    have hm : Spec.sphereMean f = y := by rw [hfy, sphereMean_constant]
    obtain ⟨j, hj, hjy, -⟩ := bin_unique pos d hc hsw y (hy (0, 0) ▸ h1 (0, 0)) (hy (0, 0) ▸ h2 (0, 0))
    have hax : y ∈ Spec.onAxis pos d := by
      have := Finset.mem_Ico.mp hj
      refine ⟨j, ?_, hjy⟩
      split_ifs <;> omega
    set u : ℝ := (y - ((Meth.Spec.coord d 0 : ℚ) : ℝ)) / ((d.sw : ℝ) / d.count) with hu
    have hyu : y = ((Meth.Spec.coord d 0 : ℚ) : ℝ) + u * ((d.sw : ℝ) / d.count) := by
      rw [hu]
      field_simp
      ring
    have hp : ∀ i : ℕ, Spec.pattern pos d i f = Bin.Spec.linear (u - i) := by
      intro i
      rw [Spec.pattern, if_pos hsh, hy, Spec.peak, if_pos hax]
      congr 1
      rw [hcoord, hu]
      push_cast
      field_simp
      ring
    have hu1 : 1 ≤ u := by
      have a := h1 (0, 0)
      have b := hcoord 1
      push_cast at b
      rw [hy, b] at a
      rw [hu, le_div_iff₀ hinc]
      linarith
    have hu2 : u ≤ d.count - 1 := by
      have a := h2 (0, 0)
      have b := hcoord (d.count - 1)
      rw [hy, b, Nat.cast_sub (by omega)] at a
      push_cast at a
      rw [hu, div_le_iff₀ hinc]
      linarith
    obtain ⟨m1, m2⟩ := linear_moments d.count u hu1 hu2
    simp only [hp]
    refine ⟨m1, ?_⟩
    have e : ∑ i ∈ Finset.Ico 1 d.count, ((Meth.Spec.coord d i : ℚ) : ℝ) * Bin.Spec.linear (u - i) - Spec.sphereMean f
        = ((d.sw : ℝ) / d.count) * (∑ i ∈ Finset.Ico 1 d.count, (i : ℝ) * Bin.Spec.linear (u - i) - u) := by
      have : ∀ i ∈ Finset.Ico 1 d.count, ((Meth.Spec.coord d i : ℚ) : ℝ) * Bin.Spec.linear (u - i)
          = ((Meth.Spec.coord d 0 : ℚ) : ℝ) * Bin.Spec.linear (u - i) + ((d.sw : ℝ) / d.count) * ((i : ℝ) * Bin.Spec.linear (u - i)) := by
        intro i _
        rw [hcoord]
        ring
      rw [Finset.sum_congr rfl this, Finset.sum_add_distrib, ← Finset.mul_sum, ← Finset.mul_sum, m1, hm, hyu]
      ring
    rw [e, abs_mul, abs_of_pos hinc]
    push_cast
    nlinarith
  · have hp : ∀ i : ℕ, Spec.pattern pos d i f = Spec.sphereMean fun p => (Spec.bin pos d i).indicator (fun _ => 1) (f p) := by
      intro i
      rw [Spec.pattern, if_neg hsh]
      rfl
    have hint : ∀ i ∈ Finset.Ico 1 d.count, MeasureTheory.IntegrableOn
        (fun p : ℝ × ℝ => Real.sin p.2 * (Spec.bin pos d i).indicator (fun _ => (1 : ℝ)) (f p))
        (Set.Ioo 0 (2 * Real.pi) ×ˢ Set.Ioo 0 Real.pi) := fun i _ => share_integrable _ (bin_measurable _ _ _) f hf
    have hpt : ∀ (g : ℕ → ℝ) (p : ℝ × ℝ), ∃ j ∈ Finset.Ico 1 d.count, f p ∈ Spec.bin pos d j ∧
        ∑ i ∈ Finset.Ico 1 d.count, g i * (Spec.bin pos d i).indicator (fun _ => (1 : ℝ)) (f p) = g j := by
      intro g p
      obtain ⟨j, hj, hjy, hju⟩ := bin_unique pos d hc hsw (f p) (h1 p) (h2 p)
      refine ⟨j, hj, hjy, ?_⟩
      rw [Finset.sum_eq_single_of_mem j hj fun i _ hij => by
        rw [Set.indicator_of_notMem (fun h => hij (hju i h)), mul_zero], Set.indicator_of_mem hjy, mul_one]
    simp only [hp]
    constructor
    · have h := sphereMean_finset (Finset.Ico 1 d.count) (fun _ => 1) (fun i p => (Spec.bin pos d i).indicator (fun _ => 1) (f p)) hint
      simp only [one_mul] at h
      rw [← h]
      have e : (fun p => ∑ i ∈ Finset.Ico 1 d.count, (Spec.bin pos d i).indicator (fun _ => (1 : ℝ)) (f p)) = fun _ => 1 := by
        funext p
        obtain ⟨j, -, -, hs⟩ := hpt (fun _ => 1) p
        simpa only [one_mul] using hs
      rw [e, sphereMean_constant]
    · rw [← sphereMean_finset (Finset.Ico 1 d.count) (fun i => ((Meth.Spec.coord d i : ℚ) : ℝ))
        (fun i p => (Spec.bin pos d i).indicator (fun _ => 1) (f p)) hint, ← sphereMean_diff]
      · refine abs_mean_le _ _ fun p => ?_
        obtain ⟨j, -, hjy, hs⟩ := hpt (fun i => ((Meth.Spec.coord d i : ℚ) : ℝ)) p
        rw [hs]
        unfold Spec.bin at hjy
        cases pos
        · simp only [Bool.false_eq_true, if_false, Set.mem_Ioc] at hjy
          push_cast at hjy ⊢
          rw [abs_le]
          constructor <;> linarith [hjy.1, hjy.2]
        · simp only [if_true, Set.mem_Ico] at hjy
          push_cast at hjy ⊢
          rw [abs_le]
          constructor <;> linarith [hjy.1, hjy.2]
      · have e : (fun p : ℝ × ℝ => Real.sin p.2 * ∑ i ∈ Finset.Ico 1 d.count, ((Meth.Spec.coord d i : ℚ) : ℝ) *
            (Spec.bin pos d i).indicator (fun _ => (1 : ℝ)) (f p)) = fun p => ∑ i ∈ Finset.Ico 1 d.count,
              ((Meth.Spec.coord d i : ℚ) : ℝ) * (Real.sin p.2 * (Spec.bin pos d i).indicator (fun _ => (1 : ℝ)) (f p)) := by
          funext p
          rw [Finset.mul_sum]
          exact Finset.sum_congr rfl fun i _ => by ring
        rw [e]
        exact MeasureTheory.integrable_finsetSum _ fun i hi => (hint i hi).const_mul _
      · exact continuous_integrable f hf

/-! ## The spectrum -/

theorem upright_iso (B0 : ℝ) (ph : Phys) (x : List ℕ × List ℕ) :
    Spec.isoFreq B0 (Spec.upright ph).sites (Spec.upright ph).couplings x = Spec.isoFreq B0 ph.sites ph.couplings x := by
  have hq : ∀ y, Spec.quantum (ph.sites.map Spec.absSite) y = Spec.quantum ph.sites y := by
    intro y
    unfold Spec.quantum
    rw [List.zipWith_map_left]
    rfl
  unfold Spec.isoFreq Spec.upright
  simp only [hq, List.map_map, List.zipWith_map_left]
  rfl

/-- **C114** (partial). The spectrum of C96, static, for lines that lie between the coordinates of point 1 and of the last point: the
intensities converge with the integration density, the sum of the limits is `3π` times the sum over the spin systems of the abundance per
increment times the number of observed transitions, and their centre of gravity is, to half an increment, the weighted mean of the isotropic
frequencies of the transitions: the chemical shifts, the quadrupole-induced shifts of second order and the J couplings. The angles
are of any sign: the program drops the signs of the second ones (C77), which the isotropic frequencies do not depend on.  Missing: what C96
misses. -/
theorem C114_gravity_partial (lib : Library) (so : Trans.SetOrder) (c : String) (hγ : lib.gamma c ≠ 0) (central : Bool)
    (hcen : central = true → lib.twoI c % 2 = 1) (B0 : ℝ) (r : Rotor) (hr : r.freq < 1 / 1000) (d : Meth.SDim) [NeZero d.count]
    (hev : d.count % 2 = 0) (hsw : 0 < d.sw)
    (nOct : ℕ) (junk : ℕ → Phys → List Trans.Tr → ℕ → ℕ → ℂ) (l : List (Run.Sys Phys (List Trans.Tr)))
    (hl : ∀ s ∈ l, Spec.Given lib s ∧ 0 ≤ s.abundance)
    (hu : ∀ a ∈ l, ∀ b ∈ l, c ∈ a.isotopes → c ∈ b.isotopes → a.isotopes.length = b.isotopes.length → a.isotopes = b.isotopes)
    (hO : nOct = 4 ∨ nOct = 1 ∧ ∀ s ∈ l, Spec.Unturned s.phys.sites s.phys.couplings)
    (hx : ∀ s ∈ l, ∀ x, Spec.Observed c central s.isotopes s.phys.sites x →
      (Spec.Wide d (Spec.pulseLine lib c B0 (Spec.upright s.phys) x) ∨ Spec.Sharp (Spec.pulseLine lib c B0 (Spec.upright s.phys) x)) ∧
      ∀ p, ((Meth.Spec.coord d 1 : ℚ) : ℝ) ≤ Spec.pulseLine lib c B0 (Spec.upright s.phys) x p ∧
        Spec.pulseLine lib c B0 (Spec.upright s.phys) x p ≤ ((Meth.Spec.coord d (d.count - 1 : ℕ) : ℚ) : ℝ))
    (cpu nJobs : ℤ) (hJ : 1 ≤ nJobs) :
    ∃ (v : ℕ → ZMod d.count → ℝ) (L : ℕ → ℝ),
      (∀ nt, Run.run (pulseEnv WC.exact TC.exact lib so c central B0 r d nOct junk nt) cpu false l nJobs = .ok [.spec (v nt)]) ∧
      (∀ j, 1 ≤ j → j < d.count → Tendsto (fun nt => v nt j) atTop (𝓝 (L j))) ∧
      ∑ j ∈ Finset.Ico 1 d.count, L j = 3 * Real.pi * (l.map fun s => if c ∈ s.isotopes then
        ((s.abundance / (d.sw / d.count) : ℚ) : ℝ) * {x | Spec.Observed c central s.isotopes s.phys.sites x}.ncard else 0).sum ∧
      |∑ j ∈ Finset.Ico 1 d.count, ((Meth.Spec.coord d j : ℚ) : ℝ) * L j - 3 * Real.pi * (l.map fun s => if c ∈ s.isotopes then
        ((s.abundance / (d.sw / d.count) : ℚ) : ℝ) * ∑ᶠ (x) (_ : Spec.Observed c central s.isotopes s.phys.sites x),
          (if 0 < lib.gamma c then 1 else -1) * Spec.isoFreq B0 s.phys.sites s.phys.couplings x else 0).sum|
        ≤ ((d.sw / d.count / 2 : ℚ) : ℝ) * ∑ j ∈ Finset.Ico 1 d.count, L j := by
  have hcount : d.count ≠ 0 := NeZero.ne _
  have hc2 : 2 ≤ d.count := by omega
  have hpi := Real.pi_pos
  have hn : (0 : ℝ) < d.count := by exact_mod_cast (by omega : 0 < d.count)
  have hsw' : (0 : ℝ) < d.sw := by exact_mod_cast hsw
  have hcont := fun (s : Run.Sys Phys (List Trans.Tr)) (hs : s ∈ l) x (hxo : Spec.Observed c central s.isotopes s.phys.sites x) => pulseLine_cont lib c B0
    (Spec.upright s.phys) (upright_sound lib s (hl s hs).1).sites (upright_sound lib s (hl s hs).1).couplings x
    (observed_n c central s.isotopes _ (Spec.upright s.phys).sites (absSite_n _) x hxo).initial
    (observed_n c central s.isotopes _ (Spec.upright s.phys).sites (absSite_n _) x hxo).final
  have hmean := fun (s : Run.Sys Phys (List Trans.Tr)) (hs : s ∈ l) x (hxo : Spec.Observed c central s.isotopes s.phys.sites x) => pulseLine_mean lib c B0
    (Spec.upright s.phys) (upright_sound lib s (hl s hs).1).sites (upright_sound lib s (hl s hs).1).couplings x
    (observed_n c central s.isotopes _ (Spec.upright s.phys).sites (absSite_n _) x hxo).initial
    (observed_n c central s.isotopes _ (Spec.upright s.phys).sites (absSite_n _) x hxo).final
  simp only [upright_iso] at hmean
  have hinside : ∀ s ∈ l, ∀ x, Spec.Observed c central s.isotopes s.phys.sites x → Spec.Inside d (Spec.pulseLine lib c B0 (Spec.upright s.phys) x) := by
    intro s hs x hxo
    unfold Spec.Inside
    have hb := (hx s hs x hxo).2
    have e : Spec.sphereMean (Spec.pulseLine lib c B0 (Spec.upright s.phys) x) - (d.ref : ℝ)
        = Spec.sphereMean fun p => Spec.pulseLine lib c B0 (Spec.upright s.phys) x p - (d.ref : ℝ) := by
      rw [sphereMean_diff _ _ (continuous_integrable _ (hcont s hs x hxo)) (continuous_integrable _ continuous_const), sphereMean_constant]
    have hhalf : ((d.count / 2 : ℕ) : ℝ) = d.count / 2 := by
      obtain ⟨h, hh⟩ : ∃ h, d.count = 2 * h := ⟨d.count / 2, by omega⟩
      rw [hh, Nat.mul_div_cancel_left _ (by norm_num)]
      push_cast
      ring
    have hinc : (0 : ℝ) < (d.sw : ℝ) / d.count := by positivity
    have hfull : (d.count : ℝ) * ((d.sw : ℝ) / d.count) = d.sw := by field_simp
    have h := abs_mean_le (fun p => Spec.pulseLine lib c B0 (Spec.upright s.phys) x p - (d.ref : ℝ)) ((d.sw : ℝ) / 2) (by
      intro p
      have h1 := (hb p).1
      have h2 := (hb p).2
      unfold Meth.Spec.coord at h1 h2
      push_cast [Nat.cast_sub (by omega : 1 ≤ d.count)] at h1 h2
      rw [hhalf] at h1 h2
      rw [abs_le]
      constructor <;> nlinarith)
    rw [e]
    push_cast
    linarith
  obtain ⟨v, h1, -, h3⟩ := C96_tilted_partial lib so c hγ central hcen B0 r hr d hev hsw nOct junk l (fun s hs => (hl s hs).1) hu hO
    (fun s hs x hxo => (hx s hs x hxo).1.imp (fun h => ⟨h, hinside s hs x hxo⟩) id) cpu nJobs hJ
  refine ⟨v, _, h1, h3, ?_⟩
  have key : ∀ l' : List (Run.Sys Phys (List Trans.Tr)), (∀ s ∈ l', s ∈ l) →
      (∑ j ∈ Finset.Ico 1 d.count, (l'.map fun s =>
        if c ∈ s.isotopes then ((s.abundance / (d.sw / d.count) : ℚ) : ℝ) *
          ∑ᶠ (x) (_ : Spec.Observed c central s.isotopes s.phys.sites x),
            3 * Real.pi * Spec.pattern (decide (0 < lib.gamma c)) d j (Spec.pulseLine lib c B0 (Spec.upright s.phys) x)
        else 0).sum) = 3 * Real.pi * (l'.map fun s => if c ∈ s.isotopes then
        ((s.abundance / (d.sw / d.count) : ℚ) : ℝ) * {x | Spec.Observed c central s.isotopes s.phys.sites x}.ncard else 0).sum ∧
      |∑ j ∈ Finset.Ico 1 d.count, ((Meth.Spec.coord d j : ℚ) : ℝ) * (l'.map fun s =>
        if c ∈ s.isotopes then ((s.abundance / (d.sw / d.count) : ℚ) : ℝ) *
          ∑ᶠ (x) (_ : Spec.Observed c central s.isotopes s.phys.sites x),
            3 * Real.pi * Spec.pattern (decide (0 < lib.gamma c)) d j (Spec.pulseLine lib c B0 (Spec.upright s.phys) x)
        else 0).sum - 3 * Real.pi * (l'.map fun s => if c ∈ s.isotopes then
        ((s.abundance / (d.sw / d.count) : ℚ) : ℝ) * ∑ᶠ (x) (_ : Spec.Observed c central s.isotopes s.phys.sites x),
          (if 0 < lib.gamma c then 1 else -1) * Spec.isoFreq B0 s.phys.sites s.phys.couplings x else 0).sum|
        ≤ ((d.sw / d.count / 2 : ℚ) : ℝ) * (3 * Real.pi * (l'.map fun s => if c ∈ s.isotopes then
        ((s.abundance / (d.sw / d.count) : ℚ) : ℝ) * {x | Spec.Observed c central s.isotopes s.phys.sites x}.ncard else 0).sum) := by
    intro l'
    induction l' with
    | nil => intro _; simp
    | cons s l' ih =>
      intro hmem
      obtain ⟨ih1, ih2⟩ := ih fun t ht => hmem t (List.mem_cons_of_mem _ ht)
      have hs := hmem s List.mem_cons_self
      simp only [List.map_cons, List.sum_cons, mul_add, Finset.sum_add_distrib]
      rw [ih1]
      by_cases hcs : c ∈ s.isotopes
      · simp only [if_pos hcs]
        have hfin := observed_finite lib c central s (hl s hs).1 hcs
        have hfs : ∀ g : List ℕ × List ℕ → ℝ, (∑ᶠ (x) (_ : Spec.Observed c central s.isotopes s.phys.sites x), g x)
            = ∑ x ∈ hfin.toFinset, g x := by
          intro g
          exact finsum_mem_eq_finite_toFinset_sum g hfin
        have hmemo : ∀ x ∈ hfin.toFinset, Spec.Observed c central s.isotopes s.phys.sites x := fun x hx => by simpa using hx
        have hmom := fun x hxm => pattern_moments (decide (0 < lib.gamma c)) d hc2 hsw _ (hcont s hs x (hmemo x hxm))
          (fun p => ((hx s hs x (hmemo x hxm)).2 p).1) (fun p => ((hx s hs x (hmemo x hxm)).2 p).2)
        rw [Set.ncard_eq_toFinset_card _ hfin]
        simp only [hfs]
        set w : ℝ := ((s.abundance / (d.sw / d.count) : ℚ) : ℝ) with hw
        have hw0 : 0 ≤ w := by
          have := (hl s hs).2
          rw [hw]
          exact_mod_cast (by positivity : 0 ≤ s.abundance / (d.sw / d.count))
        have hswap : ∀ g : ℕ → ℝ, ∑ j ∈ Finset.Ico 1 d.count, g j * (w * ∑ x ∈ hfin.toFinset, 3 * Real.pi *
              Spec.pattern (decide (0 < lib.gamma c)) d j (Spec.pulseLine lib c B0 (Spec.upright s.phys) x))
            = 3 * Real.pi * (w * ∑ x ∈ hfin.toFinset, ∑ j ∈ Finset.Ico 1 d.count,
              g j * Spec.pattern (decide (0 < lib.gamma c)) d j (Spec.pulseLine lib c B0 (Spec.upright s.phys) x)) := by
          intro g
          simp only [Finset.mul_sum]
          rw [Finset.sum_comm]
          exact Finset.sum_congr rfl fun j _ => Finset.sum_congr rfl fun x _ => by ring
        constructor
        · have h := hswap fun _ => 1
          simp only [one_mul] at h
          rw [h, Finset.sum_congr rfl fun x hxm => (hmom x hxm).1]
          simp
        · rw [hswap]
          have hdiff : |3 * Real.pi * (w * ∑ x ∈ hfin.toFinset, ∑ j ∈ Finset.Ico 1 d.count,
                ((Meth.Spec.coord d j : ℚ) : ℝ) * Spec.pattern (decide (0 < lib.gamma c)) d j (Spec.pulseLine lib c B0 (Spec.upright s.phys) x))
              - 3 * Real.pi * (w * ∑ x ∈ hfin.toFinset, (if 0 < lib.gamma c then 1 else -1) * Spec.isoFreq B0 s.phys.sites s.phys.couplings x)|
              ≤ ((d.sw / d.count / 2 : ℚ) : ℝ) * (3 * Real.pi * (w * hfin.toFinset.card)) := by
            rw [← mul_sub, ← mul_sub, ← Finset.sum_sub_distrib, abs_mul (3 * Real.pi), abs_mul w, abs_of_nonneg hw0,
              abs_of_pos (by positivity : 0 < 3 * Real.pi)]
            have hb : |∑ x ∈ hfin.toFinset, (∑ j ∈ Finset.Ico 1 d.count,
                ((Meth.Spec.coord d j : ℚ) : ℝ) * Spec.pattern (decide (0 < lib.gamma c)) d j (Spec.pulseLine lib c B0 (Spec.upright s.phys) x)
                - (if 0 < lib.gamma c then 1 else -1) * Spec.isoFreq B0 s.phys.sites s.phys.couplings x)|
                ≤ hfin.toFinset.card * ((d.sw / d.count / 2 : ℚ) : ℝ) := by
              rw [← nsmul_eq_mul]
              refine (Finset.abs_sum_le_sum_abs _ _).trans (Finset.sum_le_card_nsmul _ _ _ fun x hxm => ?_)
              rw [← hmean s hs x (hmemo x hxm)]
              exact (hmom x hxm).2
            calc 3 * Real.pi * (w * _) ≤ 3 * Real.pi * (w * (hfin.toFinset.card * ((d.sw / d.count / 2 : ℚ) : ℝ))) := by
                  gcongr
              _ = _ := by ring
          refine le_trans ?_ (add_le_add hdiff ih2)
          refine le_trans (le_of_eq ?_) (abs_add_le _ _)
          congr 1
          ring
      · simp only [if_neg hcs, mul_zero, Finset.sum_const_zero, zero_add]
        exact ⟨trivial, ih2⟩
  obtain ⟨k1, k2⟩ := key l fun _ h => h
  refine ⟨k1, ?_⟩
  rw [k1]
  exact k2

/-- The central transition of a nucleus of spin 3/2 and coupling `Cq`: the quadrupole-induced shift is `-Cq² (1 + η² / 3) / (40 ν₀)`. -/
example (γ iso Cq η : ℝ) (Θ : Angles) : Spec.isoFreq 9 [⟨3, γ, iso, 0, 0, Θ, Cq, η, Θ⟩] [] ([2], [1])
    = 9 * γ * iso - Cq ^ 2 * (1 + η ^ 2 / 3) / (40 * (9 * γ * 1e6)) := by
  simp [Spec.isoFreq, Spec.isoSite, Spec.quantum]
  norm_num
  by_cases h : γ = 0
  · simp [h]
  · field_simp
    ring

/-- Two spin systems with an asymmetric shift tensor, in abundances of 70 and 30, on an axis of 512 points over 8 Hz: the sum of the points
converges to `3π · 100 · 64`, and the centre of gravity is zero to `1 / 128` Hz. -/
example (so : Trans.SetOrder) (junk : ℕ → Phys → List Trans.Tr → ℕ → ℕ → ℂ) (cpu : ℤ) :
    haveI : NeZero (Meth.SDim.count ⟨512, 8, 0, none⟩) := ⟨by norm_num⟩
    ∃ (v : ℕ → ZMod 512 → ℝ) (L : ℕ → ℝ),
      (∀ nt, Run.run (pulseEnv WC.exact TC.exact exampleLib so "15N" false 1 exampleStill ⟨512, 8, 0, none⟩ 1 junk nt) cpu false
        [exampleSys 70, exampleSys 30] 4 = .ok [.spec (v nt)]) ∧
      (∀ j : ℕ, 1 ≤ j → j < 512 → Tendsto (fun nt => v nt j) atTop (𝓝 (L j))) ∧
      ∑ j ∈ Finset.Ico 1 512, L j = 3 * Real.pi * 6400 ∧
      |∑ j ∈ Finset.Ico (1 : ℕ) 512, ((Meth.Spec.coord ⟨512, 8, 0, none⟩ j : ℚ) : ℝ) * L j| ≤ 1 / 128 * (3 * Real.pi * 6400) := by
  have : NeZero (Meth.SDim.count ⟨512, 8, 0, none⟩) := ⟨by norm_num⟩
  obtain ⟨v, L, h1, h3, h4, h5⟩ := C114_gravity_partial exampleLib so "15N" (by norm_num [exampleLib]) false (by simp) 1 exampleStill
    (by norm_num [exampleStill]) ⟨512, 8, 0, none⟩ (by norm_num) (by norm_num) 1 junk [exampleSys 70, exampleSys 30]
    (by
      intro s hs
      simp only [List.mem_cons, List.not_mem_nil, or_false] at hs
      rcases hs with rfl | rfl <;> exact ⟨(example_sound _).given, by norm_num [exampleSys]⟩)
    (by
      intro a ha b hb _ _ _
      simp only [List.mem_cons, List.not_mem_nil, or_false] at ha hb
      rcases ha with rfl | rfl <;> rcases hb with rfl | rfl <;> rfl)
    (Or.inr ⟨rfl, by
      intro s hs
      simp only [List.mem_cons, List.not_mem_nil, or_false] at hs
      rcases hs with rfl | rfl <;> simp [Spec.Unturned, poleSite, exampleSys]⟩)
    (by
      have key : ∀ a x, Spec.Observed "15N" false (exampleSys a).isotopes (exampleSys a).phys.sites x →
          (Spec.Wide ⟨512, 8, 0, none⟩ (Spec.pulseLine exampleLib "15N" 1 (Spec.upright (exampleSys a).phys) x) ∨
          Spec.Sharp (Spec.pulseLine exampleLib "15N" 1 (Spec.upright (exampleSys a).phys) x)) ∧
          ∀ p, ((Meth.Spec.coord ⟨512, 8, 0, none⟩ 1 : ℚ) : ℝ) ≤ Spec.pulseLine exampleLib "15N" 1 (Spec.upright (exampleSys a).phys) x p ∧
            Spec.pulseLine exampleLib "15N" 1 (Spec.upright (exampleSys a).phys) x p ≤ ((Meth.Spec.coord ⟨512, 8, 0, none⟩ (512 - 1 : ℕ) : ℚ) : ℝ) := by
        intro a x hx
        have hup : Spec.upright (exampleSys a).phys = (exampleSys a).phys := by
          simp [Spec.upright, exampleSys, poleSite, Spec.absSite, Spec.absAngles]
        rw [(example_observed a x).mp hx, hup]
        constructor
        · left
          left
          rw [example_recorded, example_recorded]
          norm_num
        · intro p
          rw [example_recorded]
          have h1 := Real.sin_sq_le_one p.2
          have h2 := Real.cos_sq_le_one p.1
          have h3 := Real.cos_sq_le_one p.2
          have h4 := mul_le_mul h1 h2 (sq_nonneg _) (by norm_num : (0 : ℝ) ≤ 1)
          have h5 := mul_nonneg (sq_nonneg (Real.sin p.2)) (sq_nonneg (Real.cos p.1))
          have h6 := sq_nonneg (Real.cos p.2)
          unfold Meth.Spec.coord
          norm_num
          constructor <;> linarith
      intro s hs x hx
      simp only [List.mem_cons, List.not_mem_nil, or_false] at hs
      rcases hs with rfl | rfl <;> exact key _ x hx) cpu 4 (by norm_num)
  have hc : ∀ a, "15N" ∈ (exampleSys a).isotopes := fun a => by simp [exampleSys]
  have hset : ∀ a, {x | Spec.Observed "15N" false (exampleSys a).isotopes (exampleSys a).phys.sites x} = {([1], [0])} := by
    intro a
    ext x
    exact example_observed a x
  have hiso : ∀ a, Spec.isoFreq 1 (exampleSys a).phys.sites (exampleSys a).phys.couplings ([1], [0]) = 0 := by
    intro a
    simp [exampleSys, poleSite, Spec.isoFreq, Spec.isoSite, Spec.quantum]
  have hsum : ∀ (a : ℚ) (g : List ℕ × List ℕ → ℝ),
      (∑ᶠ (x) (_ : Spec.Observed "15N" false (exampleSys a).isotopes (exampleSys a).phys.sites x), g x) = g ([1], [0]) := by
    intro a g
    simp only [example_observed]
    rw [finsum_eq_single _ ([1], [0]) (fun x hx => by simp [hx])]
    simp
  have hab : ∀ a, (exampleSys a).abundance = a := fun a => rfl
  simp only [List.map_cons, List.map_nil, List.sum_cons, List.sum_nil, if_pos (hc _), hset, Set.ncard_singleton, hab] at h4 h5
  simp only [hsum, hiso] at h5
  have e4 : ∑ j ∈ Finset.Ico 1 512, L j = 3 * Real.pi * 6400 := by
    refine h4.trans ?_
    push_cast
    ring
  refine ⟨v, L, h1, h3, e4, ?_⟩
  rw [e4] at h5
  refine le_trans (le_of_eq ?_) (h5.trans (le_of_eq ?_))
  · simp only [mul_zero, add_zero, sub_zero]
  · push_cast
    ring

end MRS.Freq
