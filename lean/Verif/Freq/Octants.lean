import Verif.Freq.System
import Verif.Bin.Orient

/-!
# Orientations over one octant or four — property C77

The grid of orientations is computed for one octant (C39); the other octants of a hemisphere are reached by
changing the phases `exp(i m α)` between the passes of a loop, in place.
-/

namespace MRS.Freq

open Complex ComplexConjugate

/-- angular_momentum.c:960-980 `get_exp_Im_alpha` for one orientation: index `m` is the row `4 - m` of the array, of
which the row `m = 1` was filled before (schemes.c:52-55).  The rows `m = 3, 4` keep what they hold (`junk`) unless the
fourth rank is allowed. -/
def alphaRows (four : Bool) (junk : ℕ → ℂ) (e : ℂ) (m : ℕ) : ℂ :=
  if m = 1 then e
  else if m = 2 then e * e
  else if m = 3 ∧ four then e * e * e
  else if m = 4 ∧ four then e * e * e * e
  else junk m

/-- angular_momentum.c:941-950: the step to the next octant, for one orientation. -/
noncomputable def turnRows (four : Bool) (P : ℕ → ℂ) (m : ℕ) : ℂ :=
  if m = 1 then -I * P m
  else if m = 2 then -1 * P m
  else if m = 3 ∧ four then I * P m
  else P m

/-- angular_momentum.c:540-577 with the phases read from the rows (`phasedHalf` has their values for an
untouched array). -/
noncomputable def phasedRows (l : ℕ) (P : ℕ → ℂ) (R : ℕ → ℂ) (j : ℕ) : ℂ :=
  if j < l then R j * P (l - j) else if j = l then R l else (-1) ^ (j - l) * conj (R (2 * l - j) * P (j - l))

/-- angular_momentum.c:521-593 `__wigner_rotation_2` for one orientation. -/
noncomputable def rowRotation (W : WC) (l : ℕ) (c s : ℝ) (P : ℕ → ℂ) (R : ℕ → ℂ) (i : ℕ) : ℂ :=
  ∑ j ∈ Finset.range (2 * l + 1), (wHalf W l c s ((2 * l + 1) * i + j) : ℂ) * phasedRows l P R j

/-- What a pass of the loop writes: the rotated components for every orientation of an octant
(angular_momentum.c lines 883-953). -/
structure Block where
  w2 : ℕ → ℕ → ℂ
  w4 : ℕ → ℕ → ℂ

/-- angular_momentum.c:883-953 `__batch_wigner_rotation`: the blocks that the remaining `n` passes of the loop write,
and the phases that they leave behind.  `c`, `s` are the cosine and sine of β for the orientations of the octant.
`nOct = 8` is not modelled (the configuration offers 1 and 4 only). -/
noncomputable def batch (W : WC) (four : Bool) (nOct : ℕ) (c s : ℕ → ℝ) (R2 R4 : ℕ → ℂ) :
    ℕ → (ℕ → ℕ → ℂ) → List Block × (ℕ → ℕ → ℂ)
  | 0, P => ([], P)
  | n + 1, P =>
    let b : Block := ⟨fun q => rowRotation W 2 (c q) (s q) (P q) R2, fun q => rowRotation W 4 (c q) (s q) (P q) R4⟩
    let P' := if nOct ≠ 1 then fun q => turnRows four (P q) else P
    let r := batch W four nOct c s R2 R4 n P'
    (b :: r.1, r.2)

/-- mrsimulator.c:409-451 for one event with `inverse_increment = fraction = 1`: `local_frequency`, block after block
with `npts` orientations each. -/
noncomputable def frequencyArray (W : WC) (four : Bool) (npts : ℕ) (cθ sθ : ℝ) (bs : List Block) (a : ℕ) : ℝ :=
  match bs[a / npts]? with
  | none => 0
  | some b => dm0Vector2 W cθ sθ 2 * (b.w2 (a % npts) 2).re
      + if four then dm0Vector4 W cθ sθ 4 * (b.w4 (a % npts) 4).re else 0

/-- schemes.c:31-55: the orientations of the octant, `exp(iα)` and `exp(iβ)` from octahedron.c (C39). -/
noncomputable def gridAlpha (nt q : ℕ) : ℂ :=
  match (Bin.expIAlpha nt)[q]? with
  | none => 0
  | some a => ⟨a.1, a.2⟩

/-- See `gridAlpha` (schemes.c lines 31-55). -/
noncomputable def gridBeta (nt q : ℕ) : ℝ × ℝ := ((Bin.expIBeta nt)[q]?).getD (0, 0)

/-- The frequencies of all orientations of a simulation with `nOct` octants, and the phases left behind
(mrsimulator.c lines 241-451). -/
noncomputable def powderFrequencies (W : WC) (four : Bool) (nt nOct : ℕ) (P : ℕ → ℕ → ℂ) (cθ sθ : ℝ) (t : Tens) :
    (ℕ → ℝ) × (ℕ → ℕ → ℂ) :=
  let r := batch W four nOct (fun q => (gridBeta nt q).1) (fun q => (gridBeta nt q).2) t.R2 t.R4 nOct P
  (frequencyArray W four (Bin.nPts nt) cθ sθ r.1, r.2)

/-- The phases of a new scheme (schemes.c lines 12-117). -/
noncomputable def startRows (four : Bool) (junk : ℕ → ℕ → ℂ) (nt : ℕ) : ℕ → ℕ → ℂ :=
  fun q => alphaRows four (junk q) (gridAlpha nt q)

/-! ## The phases -/

theorem turnRows_four (four : Bool) (P : ℕ → ℂ) : (turnRows four)^[4] P = P := by
  have hI : I * (I * (I * I)) = 1 := by
    rw [Complex.I_mul_I, mul_neg_one, mul_neg, Complex.I_mul_I, neg_neg]
  funext m
  simp only [Function.iterate_succ, Function.iterate_zero, Function.comp, id, turnRows]
  split_ifs
  · linear_combination P m * hI
  · ring
  · linear_combination P m * hI
  · rfl

/-- The phases of the octant `j` are those of `exp(iα)` times `(-i)^j`. -/
theorem turnRows_alpha (four : Bool) (junk : ℕ → ℂ) (e : ℂ) (j : ℕ) (m : ℕ) (hm : 1 ≤ m)
    (h : m ≤ 2 ∨ m ≤ 4 ∧ four = true) :
    (turnRows four)^[j] (alphaRows four junk e) m = (e * (-I) ^ j) ^ m := by
  induction j with
  | zero =>
    unfold alphaRows
    rcases h with h | ⟨h, rfl⟩
    · interval_cases m <;> simp [pow_succ]
    · interval_cases m <;> simp [pow_succ]
  | succ j ih =>
    rw [Function.iterate_succ_apply']
    set P := (turnRows four)^[j] (alphaRows four junk e) with hP
    unfold turnRows
    have hI := Complex.I_sq
    rcases h with h | ⟨h, rfl⟩
    · interval_cases m
      · simp only [if_true, ih]
        ring
      · simp only [ih]
        norm_num
        linear_combination (-(e ^ 2 * ((-I) ^ j) ^ 2)) * hI
    · interval_cases m
      · simp only [if_true, ih]
        ring
      · simp only [ih]
        norm_num
        linear_combination (-(e ^ 2 * ((-I) ^ j) ^ 2)) * hI
      · simp only [ih]
        norm_num
        linear_combination (e ^ 3 * ((-I) ^ j) ^ 3 * I) * hI
      · simp only [ih]
        norm_num
        linear_combination (-e ^ 4 * ((-I) ^ j) ^ 4 * (I ^ 2 - 1)) * hI

theorem rowRotation_half (W : WC) (l : ℕ) (c s : ℝ) (P : ℕ → ℂ) (e : ℂ) (R : ℕ → ℂ)
    (h : ∀ m, 1 ≤ m → m ≤ l → P m = e ^ m) (i : ℕ) : rowRotation W l c s P R i = halfRotation W l c s e R i := by
  unfold rowRotation halfRotation
  refine Finset.sum_congr rfl (fun j hj => ?_)
  have hj := Finset.mem_range.mp hj
  congr 1
  unfold phasedRows phasedHalf
  by_cases h1 : j < l
  · rw [if_pos h1, if_pos h1.le, h _ (by omega) (by omega)]
  · rw [if_neg h1]
    by_cases h2 : j = l
    · rw [if_pos h2, if_pos h2.le, h2, Nat.sub_self, pow_zero, mul_one]
    · rw [if_neg h2, if_neg (by omega), h _ (by omega) (by omega)]

theorem batch_get (W : WC) (four : Bool) (nOct : ℕ) (hO : nOct ≠ 1) (c s : ℕ → ℝ) (R2 R4 : ℕ → ℂ) (n j : ℕ)
    (hj : j < n) (P : ℕ → ℕ → ℂ) :
    (batch W four nOct c s R2 R4 n P).1[j]? =
      some ⟨fun q => rowRotation W 2 (c q) (s q) ((turnRows four)^[j] (P q)) R2,
        fun q => rowRotation W 4 (c q) (s q) ((turnRows four)^[j] (P q)) R4⟩ := by
  induction n generalizing j P with
  | zero => omega
  | succ n ih =>
    cases j with
    | zero => rfl
    | succ j =>
      simp only [batch, List.getElem?_cons_succ, if_pos hO]
      rw [ih j (by omega)]
      simp only [Function.iterate_succ_apply]

theorem batch_rows (W : WC) (four : Bool) (nOct : ℕ) (hO : nOct ≠ 1) (c s : ℕ → ℝ) (R2 R4 : ℕ → ℂ) (n : ℕ)
    (P : ℕ → ℕ → ℂ) :
    (batch W four nOct c s R2 R4 n P).2 = fun q => (turnRows four)^[n] (P q) := by
  induction n generalizing P with
  | zero => rfl
  | succ n ih =>
    simp only [batch, if_pos hO]
    rw [ih]
    simp only [Function.iterate_succ_apply]

/-- The frequency of orientation `q` of the octant `j`. -/
theorem powder_entry (W : WC) (four : Bool) (nt nOct : ℕ) (hO : nOct = 1 ∨ nOct = 4) (junk : ℕ → ℕ → ℂ) (cθ sθ : ℝ)
    (t : Tens) (j q : ℕ) (hj : j < nOct) (hq : q < Bin.nPts nt) :
    t.R0 + (powderFrequencies W four nt nOct (startRows four junk nt) cθ sθ t).1 (j * Bin.nPts nt + q)
      = localFreq W four (gridBeta nt q).1 (gridBeta nt q).2 (gridAlpha nt q * (-I) ^ j) cθ sθ t := by
  have e1 : (j * Bin.nPts nt + q) / Bin.nPts nt = j := by
    rw [mul_comm, Nat.mul_add_div (by omega), Nat.div_eq_of_lt hq, add_zero]
  have e2 : (j * Bin.nPts nt + q) % Bin.nPts nt = q := by
    rw [mul_comm, Nat.mul_add_mod, Nat.mod_eq_of_lt hq]
  have hb : (batch W four nOct (fun q => (gridBeta nt q).1) (fun q => (gridBeta nt q).2) t.R2 t.R4 nOct
      (startRows four junk nt)).1[j]? = some
        ⟨fun q => rowRotation W 2 (gridBeta nt q).1 (gridBeta nt q).2
            ((turnRows four)^[j] (startRows four junk nt q)) t.R2,
          fun q => rowRotation W 4 (gridBeta nt q).1 (gridBeta nt q).2
            ((turnRows four)^[j] (startRows four junk nt q)) t.R4⟩ := by
    rcases hO with rfl | rfl
    · have : j = 0 := by omega
      subst this
      rfl
    · exact batch_get W four 4 (by omega) _ _ _ _ 4 j hj _
  unfold powderFrequencies frequencyArray
  simp only [e1, e2]
  rw [hb]
  simp only [startRows]
  unfold localFreq
  rw [rowRotation_half W 2 _ _ _ (gridAlpha nt q * (-I) ^ j) t.R2
    (fun m h1 h2 => turnRows_alpha four (junk q) (gridAlpha nt q) j m h1 (Or.inl h2))]
  cases four
  · simp only [Bool.false_eq_true, if_false]
    ring
  · rw [rowRotation_half W 4 _ _ _ (gridAlpha nt q * (-I) ^ j) t.R4
      (fun m h1 h2 => turnRows_alpha true (junk q) (gridAlpha nt q) j m h1 (Or.inr ⟨h2, rfl⟩))]
    simp only [if_true]
    ring

/-! ## What the frequency depends on -/

/-- The frequency is the same in opposite directions. -/
theorem localFreq_inversion (W : WC) (four : Bool) (c s : ℝ) (e : ℂ) (cθ sθ : ℝ) (t : Tens) :
    localFreq W four (-c) s (-e) cθ sθ t = localFreq W four c s e cθ sθ t := by
  have h2 : halfRotation W 2 (-c) s (-e) t.R2 2 = halfRotation W 2 c s e t.R2 2 := by
    unfold halfRotation
    simp only [Finset.sum_range_succ, Finset.sum_range_zero, Nat.reduceMul, Nat.reduceAdd, wHalf, if_true, phasedHalf,
      wigner2jHalf, Nat.reduceLeDiff, Nat.reduceSub, if_false]
    norm_num
  have h4 : halfRotation W 4 (-c) s (-e) t.R4 4 = halfRotation W 4 c s e t.R4 4 := by
    unfold halfRotation
    simp only [Finset.sum_range_succ, Finset.sum_range_zero, Nat.reduceMul, Nat.reduceAdd, wHalf, if_true, phasedHalf,
      wigner4jHalf, wigner4jHalfT, Nat.reduceLeDiff, Nat.reduceSub, Nat.reduceEqDiff, if_false]
    norm_num
    ring
  unfold localFreq
  rw [h2, h4]

/-- The same direction with the polar angle counted the other way. -/
theorem localFreq_flip (W : WC) (four : Bool) (c s : ℝ) (e : ℂ) (cθ sθ : ℝ) (t : Tens) :
    localFreq W four c (-s) (-e) cθ sθ t = localFreq W four c s e cθ sθ t := by
  have h2 : halfRotation W 2 c (-s) (-e) t.R2 2 = halfRotation W 2 c s e t.R2 2 := by
    unfold halfRotation
    simp only [Finset.sum_range_succ, Finset.sum_range_zero, Nat.reduceMul, Nat.reduceAdd, wHalf, if_true, phasedHalf,
      wigner2jHalf, Nat.reduceLeDiff, Nat.reduceSub, if_false]
    norm_num
  have h4 : halfRotation W 4 c (-s) (-e) t.R4 4 = halfRotation W 4 c s e t.R4 4 := by
    unfold halfRotation
    simp only [Finset.sum_range_succ, Finset.sum_range_zero, Nat.reduceMul, Nat.reduceAdd, wHalf, if_true, phasedHalf,
      wigner4jHalf, wigner4jHalfT, Nat.reduceLeDiff, Nat.reduceSub, Nat.reduceEqDiff, if_false]
    norm_num
    ring
  unfold localFreq
  rw [h2, h4]

/-- At the pole the azimuth does not matter. -/
theorem localFreq_pole (W : WC) (four : Bool) (c : ℝ) (e e' : ℂ) (cθ sθ : ℝ) (t : Tens) :
    localFreq W four c 0 e cθ sθ t = localFreq W four c 0 e' cθ sθ t := by
  have h2 : halfRotation W 2 c 0 e t.R2 2 = halfRotation W 2 c 0 e' t.R2 2 := by
    unfold halfRotation
    simp only [Finset.sum_range_succ, Finset.sum_range_zero, Nat.reduceMul, Nat.reduceAdd, wHalf, if_true, phasedHalf,
      wigner2jHalf, Nat.reduceLeDiff, Nat.reduceSub, if_false]
    norm_num
  have h4 : halfRotation W 4 c 0 e t.R4 4 = halfRotation W 4 c 0 e' t.R4 4 := by
    unfold halfRotation
    simp only [Finset.sum_range_succ, Finset.sum_range_zero, Nat.reduceMul, Nat.reduceAdd, wHalf, if_true, phasedHalf,
      wigner4jHalf, wigner4jHalfT, Nat.reduceLeDiff, Nat.reduceSub, Nat.reduceEqDiff, if_false]
    norm_num
  unfold localFreq
  rw [h2, h4]

/-- Only the direction matters. -/
theorem localFreq_dir (W : WC) (four : Bool) (c s s' : ℝ) (e e' : ℂ) (h : (s : ℂ) * e = s' * e') (hs : s ^ 2 = s' ^ 2)
    (cθ sθ : ℝ) (t : Tens) : localFreq W four c s e cθ sθ t = localFreq W four c s' e' cθ sθ t := by
  rcases sq_eq_sq_iff_eq_or_eq_neg.mp hs with rfl | h1
  · by_cases h0 : s = 0
    · subst h0
      exact localFreq_pole W four c e e' cθ sθ t
    · have : (s : ℂ) ≠ 0 := by exact_mod_cast h0
      rw [mul_left_cancel₀ this h]
  · have h2 : s' = -s := by linarith
    subst h2
    by_cases h0 : s = 0
    · subst h0
      rw [neg_zero]
      exact localFreq_pole W four c e e' cθ sθ t
    · have h3 : (s : ℂ) ≠ 0 := by exact_mod_cast h0
      have h4 : e' = -e := by
        apply mul_left_cancel₀ h3
        push_cast at h
        linear_combination h
      rw [h4, localFreq_flip]

/-! ## Specification -/

/-- The point `v` after `j` quarter turns about the third axis, clockwise. -/
def Spec.quarter : ℕ → ℝ × ℝ × ℝ → ℝ × ℝ × ℝ
  | 0, v => v
  | j + 1, v => let w := Spec.quarter j v; (w.2.1, -w.1, w.2.2)

/-- `α`, `β` are polar angles of the direction of `v`. -/
def Spec.Points (α β : ℝ) (v : ℝ × ℝ × ℝ) : Prop :=
  ∃ r : ℝ, 0 < r ∧ r * (Real.sin β * Real.cos α) = v.1 ∧ r * (Real.sin β * Real.sin α) = v.2.1 ∧
    r * Real.cos β = v.2.2

/-! ## The grid -/

/-- The phases of the grid, the pole included. -/
theorem grid_angles (nt : ℕ) (hn : 1 ≤ nt) (q : ℕ) (p : ℕ × ℕ) (hp : (Bin.Spec.grid nt)[q]? = some p) :
    (gridBeta nt q).1 = (Bin.Spec.point nt p).2.2 / Bin.Spec.len (Bin.Spec.point nt p) ∧
    ((gridBeta nt q).2 : ℂ) * gridAlpha nt q
      = (⟨(Bin.Spec.point nt p).1, (Bin.Spec.point nt p).2.1⟩ : ℂ) / Bin.Spec.len (Bin.Spec.point nt p) ∧
    (gridBeta nt q).1 ^ 2 + (gridBeta nt q).2 ^ 2 = 1 := by
  have hmem : p.1 + p.2 ≤ nt := Bin.grid_mem nt p (List.mem_of_getElem? hp)
  have hL := Bin.len_pos nt hn p
  by_cases hl : p.1 < nt
  · obtain ⟨a, b, ha, hb, h1, h2, h3, h4, h5, h6⟩ := Bin.C39_angles_partial nt hn q p hp hl
    unfold gridBeta gridAlpha
    rw [ha, hb]
    refine ⟨h6, ?_, h2⟩
    apply Complex.ext
    · simp only [Option.getD_some, Complex.mul_re, Complex.ofReal_re, Complex.ofReal_im, zero_mul, sub_zero,
        Complex.div_ofReal_re]
      exact h4
    · simp only [Option.getD_some, Complex.mul_im, Complex.ofReal_re, Complex.ofReal_im, zero_mul, add_zero,
        Complex.div_ofReal_im]
      exact h5
  · have e1 : p = (nt, 0) := Prod.ext (by omega) (by dsimp only; omega)
    subst e1
    obtain ⟨_, hg⟩ := Bin.C39_grid nt hn
    obtain ⟨_, d, hd, d1, d2, d3, _, hsum, _⟩ := hg q _ hp
    have hn0 : (0 : ℝ) < nt := by exact_mod_cast hn
    have hlen : Bin.Spec.len (Bin.Spec.point nt (nt, 0)) = nt := by
      unfold Bin.Spec.len Bin.Spec.point
      dsimp only
      rw [show ((nt : ℝ) - nt - ((0 : ℕ) : ℝ)) ^ 2 + (((0 : ℕ) : ℝ)) ^ 2 + (nt : ℝ) ^ 2 = (nt : ℝ) ^ 2 by simp]
      exact Real.sqrt_sq hn0.le
    have hx : (Bin.Spec.point nt (nt, 0)).1 = 0 := by simp [Bin.Spec.point]
    have hy : (Bin.Spec.point nt (nt, 0)).2.1 = 0 := by simp [Bin.Spec.point]
    have hz : (Bin.Spec.point nt (nt, 0)).2.2 = nt := by simp [Bin.Spec.point]
    rw [hx] at d1
    rw [hy] at d2
    rw [hz, hlen] at d3
    have hb : gridBeta nt q = (1, 0) := by
      unfold gridBeta Bin.expIBeta
      rw [List.getElem?_map, hd]
      simp only [Option.map_some, Option.getD_some, d1, d2, d3]
      rw [div_self (by positivity)]
      simp
    rw [hb, hx, hy, hz, hlen]
    refine ⟨(div_self hn0.ne').symm, ?_, by norm_num⟩
    apply Complex.ext <;> simp

theorem quarter_len (j : ℕ) (v : ℝ × ℝ × ℝ) : Bin.Spec.len (Spec.quarter j v) = Bin.Spec.len v := by
  induction j with
  | zero => rfl
  | succ j ih =>
    rw [← ih]
    unfold Bin.Spec.len
    simp only [Spec.quarter]
    congr 1
    ring

theorem quarter_z (j : ℕ) (v : ℝ × ℝ × ℝ) : (Spec.quarter j v).2.2 = v.2.2 := by
  induction j with
  | zero => rfl
  | succ j ih => exact ih

theorem quarter_xy (j : ℕ) (v : ℝ × ℝ × ℝ) :
    (⟨(Spec.quarter j v).1, (Spec.quarter j v).2.1⟩ : ℂ) = (⟨v.1, v.2.1⟩ : ℂ) * (-I) ^ j := by
  induction j with
  | zero => rw [pow_zero, mul_one]; rfl
  | succ j ih =>
    rw [pow_succ, ← mul_assoc, ← ih]
    apply Complex.ext <;> simp [Spec.quarter]

theorem points_len (α β : ℝ) (v : ℝ × ℝ × ℝ) (h : Spec.Points α β v) :
    Real.cos β = v.2.2 / Bin.Spec.len v ∧
      (Real.sin β : ℂ) * exp (α * I) = (⟨v.1, v.2.1⟩ : ℂ) / Bin.Spec.len v := by
  obtain ⟨r, hr, h1, h2, h3⟩ := h
  have hl : Bin.Spec.len v = r := by
    unfold Bin.Spec.len
    rw [← h1, ← h2, ← h3]
    have : (r * (Real.sin β * Real.cos α)) ^ 2 + (r * (Real.sin β * Real.sin α)) ^ 2 + (r * Real.cos β) ^ 2 = r ^ 2 := by
      have a := Real.sin_sq_add_cos_sq α
      have b := Real.sin_sq_add_cos_sq β
      linear_combination r ^ 2 * Real.sin β ^ 2 * a + r ^ 2 * b
    rw [this]
    exact Real.sqrt_sq hr.le
  have hr0 : (r : ℂ) ≠ 0 := by exact_mod_cast hr.ne'
  rw [hl]
  refine ⟨by rw [← h3]; field_simp, ?_⟩
  rw [exp_parts, eq_div_iff hr0]
  generalize Real.sin β = u at h1 h2
  apply Complex.ext
  · simp [← h1]
    ring
  · simp [← h2]
    ring

/-- The entry of the array for octant `j` and grid point `p`, in any direction with these coordinates. -/
theorem powder_dir (W : WC) (four : Bool) (nt nOct : ℕ) (hn : 1 ≤ nt) (hO : nOct = 1 ∨ nOct = 4) (junk : ℕ → ℕ → ℂ)
    (cθ sθ : ℝ) (t : Tens) (j q : ℕ) (hj : j < nOct) (p : ℕ × ℕ) (hp : (Bin.Spec.grid nt)[q]? = some p) (α β : ℝ)
    (hd : Spec.Points α β (Spec.quarter j (Bin.Spec.point nt p))) :
    t.R0 + (powderFrequencies W four nt nOct (startRows four junk nt) cθ sθ t).1 (j * Bin.nPts nt + q)
      = localFreq W four (Real.cos β) (Real.sin β) (exp (α * I)) cθ sθ t := by
  have hq : q < Bin.nPts nt := by
    have := (List.getElem?_eq_some_iff.mp hp).1
    rwa [Bin.grid_length] at this
  rw [powder_entry W four nt nOct hO junk cθ sθ t j q hj hq]
  obtain ⟨g1, g2, g3⟩ := grid_angles nt hn q p hp
  obtain ⟨p1, p2⟩ := points_len α β _ hd
  rw [quarter_len, quarter_z] at p1
  rw [quarter_len, quarter_xy] at p2
  have hc : (gridBeta nt q).1 = Real.cos β := by rw [g1, p1]
  rw [hc]
  apply localFreq_dir
  · rw [p2, ← mul_assoc, g2]
    ring
  · rw [hc] at g3
    have := Real.sin_sq_add_cos_sq β
    linarith

/-- Every direction has polar angles. -/
theorem polar_exist (v : ℝ × ℝ × ℝ) (h : 0 < Bin.Spec.len v) :
    ∃ α β, (0 ≤ β ∧ β ≤ Real.pi) ∧ Spec.Points α β v := by
  have hl := Bin.len_sq v
  set r := Bin.Spec.len v with hr
  set w : ℂ := ⟨v.1, v.2.1⟩ with hw
  have hn : ‖w‖ ^ 2 = v.1 ^ 2 + v.2.1 ^ 2 := by
    rw [Complex.sq_norm, Complex.normSq_apply]
    simp only [hw]
    ring
  have hz : (v.2.2 / r) ^ 2 ≤ 1 := by
    rw [div_pow, div_le_one (by positivity)]
    nlinarith [sq_nonneg v.1, sq_nonneg v.2.1]
  have hz' := abs_le_of_sq_le_sq' (by simpa using hz : (v.2.2 / r) ^ 2 ≤ 1 ^ 2) zero_le_one
  have hs : Real.sin (Real.arccos (v.2.2 / r)) = ‖w‖ / r := by
    rw [Real.sin_arccos, show 1 - (v.2.2 / r) ^ 2 = (‖w‖ / r) ^ 2 by
      rw [div_pow, div_pow, hn]; field_simp; linarith]
    exact Real.sqrt_sq (by positivity)
  have hx := Complex.norm_mul_cos_arg w
  have hy := Complex.norm_mul_sin_arg w
  refine ⟨Complex.arg w, Real.arccos (v.2.2 / r), ⟨Real.arccos_nonneg _, Real.arccos_le_pi _⟩, r, h, ?_, ?_, ?_⟩
  · rw [hs]
    field_simp
    exact hx
  · rw [hs]
    field_simp
    exact hy
  · rw [Real.cos_arccos hz'.1 hz'.2]
    field_simp

theorem points_exist (v : ℝ × ℝ × ℝ) (h : 0 < Bin.Spec.len v) : ∃ α β, Spec.Points α β v := by
  obtain ⟨α, β, _, hp⟩ := polar_exist v h
  exact ⟨α, β, hp⟩

/-! ## One scheme for many spin systems -/

/-- simulation.c:103-151 and mrsimulator.c:409-451: the scheme with its phases is used for one transition after the
other. -/
noncomputable def powderMany (W : WC) (four : Bool) (nt nOct : ℕ) (cθ sθ : ℝ) :
    (ℕ → ℕ → ℂ) → List Tens → List (ℕ → ℝ)
  | _, [] => []
  | P, t :: ts =>
    let r := powderFrequencies W four nt nOct P cθ sθ t
    r.1 :: powderMany W four nt nOct cθ sθ r.2 ts

theorem powder_rows (W : WC) (four : Bool) (nt nOct : ℕ) (hO : nOct = 1 ∨ nOct = 4) (P : ℕ → ℕ → ℂ) (cθ sθ : ℝ)
    (t : Tens) : (powderFrequencies W four nt nOct P cθ sθ t).2 = P := by
  unfold powderFrequencies
  rcases hO with rfl | rfl
  · rfl
  · simp only
    rw [batch_rows W four 4 (by omega)]
    simp only [turnRows_four]

theorem powderMany_eq (W : WC) (four : Bool) (nt nOct : ℕ) (hO : nOct = 1 ∨ nOct = 4) (P : ℕ → ℕ → ℂ) (cθ sθ : ℝ)
    (ts : List Tens) :
    powderMany W four nt nOct cθ sθ P ts = ts.map (fun t => (powderFrequencies W four nt nOct P cθ sθ t).1) := by
  induction ts with
  | nil => rfl
  | cons t ts ih =>
    simp only [powderMany, List.map_cons]
    rw [powder_rows W four nt nOct hO, ih]

/-! ## C77 -/

/-- **C77 (octants), partial.** Grid density `nt ≥ 1`, one octant or four, any list of transitions of any spin systems
handled one after the other with the same scheme: for transition `k`, octant `j` and grid point `p` at position `q`, the
frequency at position `j * npts + q` is the difference of the energies of final and initial state with the field in the
direction of the grid point turned by `j` quarters, the pole included.  Missing: tilts by negative angles (C73), the tabulated
decimals (C74 bounds them), eight octants. -/
theorem C77_octants_partial (four : Bool) (nt nOct : ℕ) (hn : 1 ≤ nt) (hO : nOct = 1 ∨ nOct = 4)
    (junk : ℕ → ℕ → ℂ) (ts : List Tens) (k : ℕ) (B0 : ℝ) (ss : List Site) (ks : List Coupling) (xi xf : List ℕ)
    (ht : ts[k]? = some (components WC.exact TC.exact four B0 ss ks (Spec.quantum ss xi) (Spec.quantum ss xf)))
    (hi : Spec.IsState ss xi) (hf : Spec.IsState ss xf) (hs : ∀ s ∈ ss, s.Upright ∧ 1 ≤ s.n)
    (hk : ∀ k ∈ ks, k.Upright ∧ k.A < ss.length ∧ k.X < ss.length)
    (j q : ℕ) (hj : j < nOct) (p : ℕ × ℕ) (hp : (Bin.Spec.grid nt)[q]? = some p) (α β : ℝ)
    (hd : Spec.Points α β (Spec.quarter j (Bin.Spec.point nt p))) :
    ∃ f, (powderMany WC.exact four nt nOct 1 0 (startRows four junk nt) ts)[k]? = some f ∧
      (components WC.exact TC.exact four B0 ss ks (Spec.quantum ss xi) (Spec.quantum ss xf)).R0
          + f (j * Bin.nPts nt + q)
        = Spec.energy four B0 (Spec.static α β) ss ks xf - Spec.energy four B0 (Spec.static α β) ss ks xi := by
  rw [powderMany_eq _ _ _ _ hO, List.getElem?_map, ht]
  refine ⟨_, rfl, ?_⟩
  rw [powder_dir WC.exact four nt nOct hn hO junk 1 0 _ j q hj p hp α β hd,
    C73_energies_partial four B0 α β ss ks xi xf hi hf hs hk]

/-- Every direction of the octahedral grid over the whole sphere has a position in the array of four octants, with any constants. -/
theorem sphere_dir (W : WC) (four : Bool) (nt : ℕ) (hn : 1 ≤ nt) (junk : ℕ → ℕ → ℂ) (t : Tens) (x y z : ℤ)
    (hxyz : |x| + |y| + |z| = nt) (α β : ℝ) (hd : Spec.Points α β (x, y, z)) :
    ∃ a < 4 * Bin.nPts nt, t.R0 + (powderFrequencies W four nt 4 (startRows four junk nt) 1 0 t).1 a
      = localFreq W four (Real.cos β) (Real.sin β) (exp (α * I)) 1 0 t := by
  -- a direction of the upper hemisphere
  have up : ∀ (x y z : ℤ) (α β : ℝ), |x| + |y| + |z| = nt → 0 ≤ z → Spec.Points α β (x, y, z) →
      ∃ a < 4 * Bin.nPts nt, t.R0 + (powderFrequencies W four nt 4 (startRows four junk nt) 1 0 t).1 a
        = localFreq W four (Real.cos β) (Real.sin β) (exp (α * I)) 1 0 t := by
    intro x y z α β h hz hd
    have main : ∀ (j : ℕ) (hj : j < 4) (r c : ℕ) (hrc : r + c ≤ nt)
        (he : Spec.quarter j (Bin.Spec.point nt (r, c)) = ((x : ℝ), (y : ℝ), (z : ℝ))),
        ∃ a < 4 * Bin.nPts nt, t.R0 + (powderFrequencies W four nt 4 (startRows four junk nt) 1 0 t).1 a
          = localFreq W four (Real.cos β) (Real.sin β) (exp (α * I)) 1 0 t := by
      intro j hj r c hrc he
      have hg := Bin.grid_get nt r c hrc
      have hq := (List.getElem?_eq_some_iff.mp hg).1
      rw [Bin.grid_length] at hq
      refine ⟨j * Bin.nPts nt + Bin.rank nt (r, c), by nlinarith, ?_⟩
      refine powder_dir W four nt 4 hn (Or.inr rfl) junk 1 0 t j _ hj (r, c) hg α β ?_
      rw [he]
      exact hd
    obtain ⟨zn, rfl⟩ := Int.eq_ofNat_of_zero_le hz
    rw [abs_of_nonneg hz] at h
    have hnt : (nt : ℝ) = ((|x| + |y| + (zn : ℤ) : ℤ) : ℝ) := by rw [h]; simp
    rcases le_total 0 x with hx | hx <;> rcases le_total 0 y with hy | hy
    · obtain ⟨yn, rfl⟩ := Int.eq_ofNat_of_zero_le hy
      rw [abs_of_nonneg hx, abs_of_nonneg hy] at h hnt
      refine main 0 (by omega) zn yn (by omega) ?_
      simp only [Spec.quarter, Bin.Spec.point, hnt]
      push_cast
      ext <;> simp
    · obtain ⟨xn, rfl⟩ := Int.eq_ofNat_of_zero_le hx
      rw [abs_of_nonneg hx, abs_of_nonpos hy] at h hnt
      refine main 1 (by omega) zn xn (by omega) ?_
      simp only [Spec.quarter, Bin.Spec.point, hnt]
      push_cast
      ext <;> simp
    · obtain ⟨xn, hxn⟩ := Int.eq_ofNat_of_zero_le (by omega : 0 ≤ -x)
      rw [abs_of_nonpos hx, abs_of_nonneg hy] at h hnt
      have hxr : (x : ℝ) = -(xn : ℝ) := by
        have : x = -(xn : ℤ) := by omega
        rw [this]; simp
      refine main 3 (by omega) zn xn (by omega) ?_
      simp only [Spec.quarter, Bin.Spec.point, hnt]
      push_cast
      rw [hxr]
      ext <;> simp
    · obtain ⟨yn, hyn⟩ := Int.eq_ofNat_of_zero_le (by omega : 0 ≤ -y)
      rw [abs_of_nonpos hx, abs_of_nonpos hy] at h hnt
      have hyr : (y : ℝ) = -(yn : ℝ) := by
        have : y = -(yn : ℤ) := by omega
        rw [this]; simp
      refine main 2 (by omega) zn yn (by omega) ?_
      simp only [Spec.quarter, Bin.Spec.point, hnt]
      push_cast
      rw [hyr]
      ext <;> simp
  rcases le_total 0 z with hz | hz
  · exact up x y z α β hxyz hz hd
  · obtain ⟨r, hr, h1, h2, h3⟩ := hd
    obtain ⟨a, ha, he⟩ := up (-x) (-y) (-z) (α + Real.pi) (Real.pi - β) (by simpa using hxyz) (by omega)
      ⟨r, hr, by rw [Real.sin_pi_sub, Real.cos_add_pi]; push_cast; linear_combination -h1,
        by rw [Real.sin_pi_sub, Real.sin_add_pi]; push_cast; linear_combination -h2,
        by rw [Real.cos_pi_sub]; push_cast; linear_combination -h3⟩
    refine ⟨a, ha, ?_⟩
    rw [he, Real.cos_pi_sub, Real.sin_pi_sub]
    have : exp (((α + Real.pi : ℝ) : ℂ) * I) = -exp (α * I) := by
      push_cast
      rw [add_mul, Complex.exp_add, Complex.exp_pi_mul_I]
      ring
    rw [this, localFreq_inversion]

/-- **C77 (hemisphere), partial.** With four octants the frequencies are those of all directions of the octahedral grid
over the whole sphere: for integers with `|x| + |y| + |z| = nt` the frequency for the field along `(x, y, z)` is at some position of
the array.  The same parts are missing. -/
theorem C77_sphere_partial (four : Bool) (nt : ℕ) (hn : 1 ≤ nt) (junk : ℕ → ℕ → ℂ) (B0 : ℝ) (ss : List Site)
    (ks : List Coupling) (xi xf : List ℕ) (hi : Spec.IsState ss xi) (hf : Spec.IsState ss xf)
    (hs : ∀ s ∈ ss, s.Upright ∧ 1 ≤ s.n) (hk : ∀ k ∈ ks, k.Upright ∧ k.A < ss.length ∧ k.X < ss.length)
    (x y z : ℤ) (hxyz : |x| + |y| + |z| = nt) (α β : ℝ) (hd : Spec.Points α β (x, y, z)) :
    ∃ a < 4 * Bin.nPts nt,
      (components WC.exact TC.exact four B0 ss ks (Spec.quantum ss xi) (Spec.quantum ss xf)).R0
          + (powderFrequencies WC.exact four nt 4 (startRows four junk nt) 1 0
              (components WC.exact TC.exact four B0 ss ks (Spec.quantum ss xi) (Spec.quantum ss xf))).1 a
        = Spec.energy four B0 (Spec.static α β) ss ks xf - Spec.energy four B0 (Spec.static α β) ss ks xi := by
  rw [← C73_energies_partial four B0 α β ss ks xi xf hi hf hs hk]
  exact sphere_dir WC.exact four nt hn junk _ x y z hxyz α β hd

/-- The hypotheses hold for the proton and aluminium of C73, with the field along `(-1, -1, 1)`: octant 2 of the grid of density 3. -/
example : ∃ α β, Spec.Points α β (Spec.quarter 2 (Bin.Spec.point 3 (1, 1))) ∧
    (components WC.exact TC.exact true 9.4 exampleSites [exampleCoupling] (Spec.quantum exampleSites [0, 3])
        (Spec.quantum exampleSites [0, 2])).R0
      + (powderFrequencies WC.exact true 3 4 (startRows true (fun _ _ => 7) 3) 1 0
        (components WC.exact TC.exact true 9.4 exampleSites [exampleCoupling] (Spec.quantum exampleSites [0, 3])
          (Spec.quantum exampleSites [0, 2]))).1 (2 * Bin.nPts 3 + 5)
      = Spec.energy true 9.4 (Spec.static α β) exampleSites [exampleCoupling] [0, 2]
        - Spec.energy true 9.4 (Spec.static α β) exampleSites [exampleCoupling] [0, 3] := by
  obtain ⟨α, β, h⟩ := points_exist (Spec.quarter 2 (Bin.Spec.point 3 (1, 1)))
    (by rw [quarter_len]; exact Bin.len_pos 3 (by norm_num) _)
  refine ⟨α, β, h, ?_⟩
  obtain ⟨f, h1, h2⟩ := C77_octants_partial true 3 4 (by norm_num) (Or.inr rfl) (fun _ _ => 7)
    [components WC.exact TC.exact true 9.4 exampleSites [exampleCoupling] (Spec.quantum exampleSites [0, 3])
        (Spec.quantum exampleSites [0, 2])] 0 9.4 exampleSites [exampleCoupling] [0, 3] [0, 2] rfl
    (by unfold Spec.IsState exampleSites; simp) (by unfold Spec.IsState exampleSites; simp)
    (by
      unfold exampleSites Site.Upright
      intro s hs
      simp only [List.mem_cons, List.not_mem_nil, or_false] at hs
      rcases hs with rfl | rfl <;> norm_num)
    (by
      unfold exampleSites exampleCoupling Coupling.Upright
      intro k hk
      simp only [List.mem_cons, List.not_mem_nil, or_false] at hk
      subst hk
      norm_num) 2 5 (by norm_num) (1, 1) (by decide) α β h
  rw [← h2]
  simp only [powderMany, List.getElem?_cons_zero, Option.some.injEq] at h1
  rw [← h1]

/-- For the sphere: the direction `(1, -2, -1)` of the grid of density 4. -/
example : |(1 : ℤ)| + |(-2 : ℤ)| + |(-1 : ℤ)| = (4 : ℕ) ∧
    ∃ α β, Spec.Points α β (((1 : ℤ) : ℝ), ((-2 : ℤ) : ℝ), ((-1 : ℤ) : ℝ)) := by
  refine ⟨by norm_num, points_exist _ ?_⟩
  unfold Bin.Spec.len
  apply Real.sqrt_pos.mpr
  norm_num

end MRS.Freq
