import Verif.Bin.Orient

/-!
# Averaging over sidebands and octants in one dimension — properties C40, C47, C62

Model of src/c_lib/lib/frequency_averaging.c:23-96 and include/vm_common.h:96-117.
-/

namespace MRS.Bin

set_option linter.unusedSectionVars false

variable {K : Type} [Field K] [LinearOrder K] [IsStrictOrderedRing K] [FloorRing K]

/-- vm_common.h:96-117 `__get_frequency_in_FFT_order`. `Int.tdiv` is the integer division
of C. -/
def fftOrder (n : Int) (increment : K) : List K :=
  let negLimit := if n % 2 = 0 then (-n).tdiv 2 else (-(n - 1)).tdiv 2
  let posLimit := if n % 2 = 0 then -negLimit - 1 else -negLimit
  ((List.range (posLimit + 1).toNat).map fun (i : Nat) => ((i : Int) : K) * increment) ++
  ((List.range (-negLimit).toNat).map fun (i : Nat) => ((negLimit + (i : Int) : Int) : K) * increment)

/-- frequency_averaging.c:60-61, the test for the shortcut. -/
def isDelta (nt : Nat) (freq : Nat → K) : Bool :=
  decide (|freq 0 - freq nt| < TOL ∧ |freq 0 - freq (nPts nt - 1)| < TOL)

/-- frequency_averaging.c:67 and 82, the test whether a sideband is in the window. -/
def inWindow (offset : K) (count : Int) : Bool :=
  decide (trunc offset ≥ 0 ∧ trunc offset ≤ count)

/-- frequency_averaging.c:58-95, the part of `__1D_averaging` after the amplitudes have been
scaled. `vrFreq` is `plan->vr_freq`, one entry per sideband; `amps` is `freq_amplitude`;
`freq` is `local_frequency`, octant after octant. `total_orientations` is
`nOctants * npts` (schemes.c:18-29). -/
def averaging1D (nt nOctants : Nat) (vrFreq : List K) (invIncrement normalizeOffset r0Offset : K)
    (freq amps : Nat → K) (count : Int) : Py (Writes K) :=
  let npts := nPts nt
  let total := nOctants * npts
  let offset0 := normalizeOffset + r0Offset
  if isDelta nt freq then
    let offset0 := offset0 + freq 0
    runCalls ((vrFreq.zipIdx).flatMap fun s =>
      let offset := offset0 + s.1 * invIncrement
      if inWindow offset count then
        (List.range nOctants).map fun j =>
          .ok (octDelta nt offset (fun k => amps (s.2 * total + j * npts + k)) count)
      else [])
  else
    runCalls ((vrFreq.zipIdx).flatMap fun s =>
      let offset := offset0 + s.1 * invIncrement
      if inWindow offset count then
        (List.range nOctants).map fun j =>
          octInterp nt (fun k => freq (j * npts + k) + offset)
            (fun k => amps (s.2 * total + j * npts + k)) count
      else [])

/-! ## C40 -/

/-- **C40.** For every number of sidebands `n ≥ 1` there are `n` frequencies; the one at
position `i` is `m` rotor frequencies with `m ≡ i` modulo `n` and `-n ≤ 2 m < n`. -/
theorem C40_fft_order (n : Nat) (hn : 1 ≤ n) (increment : K) :
    (fftOrder (n : Int) increment).length = n ∧
    ∀ i, i < n → ∃ m : Int, (fftOrder (n : Int) increment)[i]? = some ((m : K) * increment) ∧
      m % n = i ∧ -(n : Int) ≤ 2 * m ∧ 2 * m < n := by
  unfold fftOrder
  simp only []
  have hneg : ∃ q : Nat, (if (n : Int) % 2 = 0 then (-(n : Int)).tdiv 2 else (-((n : Int) - 1)).tdiv 2) = -(q : Int)
      ∧ q = n / 2 := by
    refine ⟨n / 2, ?_, rfl⟩
    split_ifs with h
    · have he : (n : Int) = 2 * ((n / 2 : Nat) : Int) := by omega
      rw [he, Int.neg_tdiv, Int.mul_tdiv_cancel_left _ (by norm_num)]
    · have he : ((n : Int) - 1) = 2 * ((n / 2 : Nat) : Int) := by omega
      rw [he, Int.neg_tdiv, Int.mul_tdiv_cancel_left _ (by norm_num)]
  obtain ⟨q, hq, hqn⟩ := hneg
  rw [hq]
  have hp : ∃ r : Nat, (if (n : Int) % 2 = 0 then - -(q : Int) - 1 else - -(q : Int)) + 1 = r ∧
      r + q = n := by
    refine ⟨n - q, ?_, by omega⟩
    split_ifs with h <;> omega
  obtain ⟨r, hr, hrq⟩ := hp
  rw [hr, neg_neg, Int.toNat_natCast, Int.toNat_natCast]
  have hqr : q ≤ r ∧ r ≤ q + 1 := by
    constructor
    · have : 2 * q ≤ n := by omega
      omega
    · omega
  constructor
  · simp [hrq]
  intro i hi
  by_cases hir : i < r
  · refine ⟨(i : Int), ?_, ?_, by omega, by omega⟩
    · rw [List.getElem?_append_left (by simpa using hir), List.getElem?_map,
        List.getElem?_range hir]
      rfl
    · exact Int.emod_eq_of_lt (by omega) (by omega)
  · refine ⟨-(q : Int) + ((i - r : Nat) : Int), ?_, ?_, by omega, by omega⟩
    · rw [List.getElem?_append_right (by simp; omega), List.getElem?_map, List.length_map,
        List.length_range, List.getElem?_range (by omega)]
      rfl
    · have : -(q : Int) + ((i - r : Nat) : Int) = (i : Int) + (n : Int) * (-1) := by omega
      rw [this, Int.add_mul_emod_self_left]
      exact Int.emod_eq_of_lt (by omega) (by omega)

example : fftOrder 5 (10 : ℚ) = [0, 10, 20, -20, -10] := by decide +kernel
example : fftOrder 4 (10 : ℚ) = [0, 10, -20, -10] := by decide +kernel

/-! ## C47 -/

/-- Frequency of a direction for a quadratic form with symmetric matrix
`[[a, d, e], [d, b, f], [e, f, c]]`: `vᵀ A v / |v|²`. Every second-rank interaction gives
frequencies of this form. -/
def Spec.quad (a b c d e f : K) (nt : Nat) (p : Nat × Nat) : K :=
  let x : K := (nt : K) - p.1 - p.2
  let y : K := p.2
  let z : K := p.1
  (a * x * x + b * y * y + c * z * z + 2 * d * x * y + 2 * e * x * z + 2 * f * y * z) /
    (x * x + y * y + z * z)

theorem isDelta_corners (nt : Nat) (hn : 1 ≤ nt) (freq : Nat → K) (g : Nat × Nat → K)
    (hg : ∀ i p, (Spec.grid nt)[i]? = some p → freq i = g p) (h : isDelta nt freq = true) :
    |g (0, 0) - g (0, nt)| < TOL ∧ |g (0, 0) - g (nt, 0)| < TOL := by
  unfold isDelta at h
  rw [decide_eq_true_iff] at h
  have h0 := hg _ _ (grid_get nt 0 0 (by omega))
  have h1 := hg _ _ (grid_get nt 0 nt (by omega))
  have h2 := hg _ _ (grid_get nt nt 0 (by omega))
  unfold rank at h0 h1 h2
  dsimp only at h0 h1 h2
  rw [show start nt 0 + 0 = 0 by rfl] at h0
  rw [show start nt 0 + nt = nt by rw [start]; omega] at h1
  rw [start_last, Nat.add_zero] at h2
  rw [← h0, ← h1, ← h2]
  exact h

theorem weighted (T u v x y z : K) (hu1 : -T < u) (hu2 : u < T) (hv1 : -T < v) (hv2 : v < T)
    (hx : 0 ≤ x) (hy : 0 ≤ y) (hz : 0 ≤ z) (hpos : 0 < x + y + z) :
    -T * (x + y + z) < u * y + v * z ∧ u * y + v * z < T * (x + y + z) := by
  have hT : 0 < T := by linarith
  have h1 : u * y ≤ T * y := mul_le_mul_of_nonneg_right hu2.le hy
  have h2 : v * z ≤ T * z := mul_le_mul_of_nonneg_right hv2.le hz
  have h3 : -T * y ≤ u * y := mul_le_mul_of_nonneg_right hu1.le hy
  have h4 : -T * z ≤ v * z := mul_le_mul_of_nonneg_right hv1.le hz
  have h5 : 0 ≤ T * x := mul_nonneg hT.le hx
  rcases eq_or_lt_of_le hy with hy0 | hy0
  · rcases eq_or_lt_of_le hz with hz0 | hz0
    · have : 0 < T * x := mul_pos hT (by linarith)
      constructor <;> linarith
    · have h6 : v * z < T * z := mul_lt_mul_of_pos_right hv2 hz0
      have h7 : -T * z < v * z := mul_lt_mul_of_pos_right hv1 hz0
      constructor <;> linarith
  · have h6 : u * y < T * y := mul_lt_mul_of_pos_right hu2 hy0
    have h7 : -T * y < u * y := mul_lt_mul_of_pos_right hu1 hy0
    constructor <;> linarith

/-- **C47 (aligned tensors), partial.** If the frequencies of the octant come from a tensor
whose principal axes coincide with the axes of the grid, the shortcut is taken only if
every orientation has the frequency of the first one within the tolerance of `1e-6` bins.
Missing: tensors in general position, see `C47_counterexample`. -/
theorem C47_aligned_partial (nt : Nat) (hn : 1 ≤ nt) (freq : Nat → K) (a b c : K)
    (hg : ∀ i p, (Spec.grid nt)[i]? = some p → freq i = Spec.quad a b c 0 0 0 nt p)
    (h : isDelta nt freq = true) :
    ∀ i, i < (nt + 1) * (nt + 2) / 2 → |freq i - freq 0| < 1 / 1000000 := by
  have hn0 : (0 : K) < nt := by exact_mod_cast (by omega : 0 < nt)
  have hc := isDelta_corners nt hn freq _ hg h
  have h0 := hg _ _ (grid_get nt 0 0 (by omega))
  unfold rank at h0
  dsimp only at h0
  rw [show start nt 0 + 0 = 0 by rfl] at h0
  unfold Spec.quad TOL at hc
  unfold Spec.quad at h0
  simp only [Nat.cast_zero, sub_zero, sub_self, mul_zero, zero_mul, add_zero, zero_add] at hc h0
  have e : ∀ t : K, t * (nt : K) * nt / ((nt : K) * nt) = t := by
    intro t
    field_simp
  rw [e, e, e] at hc
  rw [e] at h0
  intro i hi
  obtain ⟨p, hp⟩ : ∃ p, (Spec.grid nt)[i]? = some p := by
    have : i < (Spec.grid nt).length := by rw [grid_length]; exact hi
    exact ⟨_, List.getElem?_eq_getElem this⟩
  rw [hg i p hp, h0]
  have hmem : p.1 + p.2 ≤ nt := grid_mem nt p (List.mem_of_getElem? hp)
  unfold Spec.quad
  simp only [mul_zero, zero_mul, add_zero]
  obtain ⟨hb1, hb2⟩ := abs_lt.mp hc.1
  obtain ⟨hc1, hc2⟩ := abs_lt.mp hc.2
  set x : K := (nt : K) - p.1 - p.2 with hx
  set y : K := (p.2 : K) with hy
  set z : K := (p.1 : K) with hz
  have hpos : 0 < x * x + y * y + z * z := by
    have hsum : x + y + z = nt := by rw [hx]; ring
    nlinarith [mul_self_nonneg (x - y), mul_self_nonneg (y - z), mul_self_nonneg (x - z),
      mul_pos hn0 hn0]
  have hne : x * x + y * y + z * z ≠ 0 := hpos.ne'
  have hform : (a * x * x + b * y * y + c * z * z) / (x * x + y * y + z * z) - a =
      ((b - a) * (y * y) + (c - a) * (z * z)) / (x * x + y * y + z * z) := by
    rw [div_sub' hne]
    congr 1
    ring
  rw [hform, abs_lt, lt_div_iff₀ hpos, div_lt_iff₀ hpos]
  have hx2 := mul_self_nonneg x
  have hy2 := mul_self_nonneg y
  have hz2 := mul_self_nonneg z
  exact weighted _ _ _ _ _ _ (by linarith) (by linarith) (by linarith) (by linarith)
    hx2 hy2 hz2 hpos

/-- The test can succeed: an isotropic interaction. -/
example : isDelta (K := ℚ) 3 (fun _ => 7) = true := by decide +kernel

/-- **C47 (a line is recognised).** If all orientations have the same frequency the shortcut
is taken; then every sideband in the window is binned as a sharp line. -/
theorem C47_line (nt : Nat) (freq : Nat → K) (c : K) (h : ∀ i, i < nPts nt → freq i = c) :
    isDelta nt freq = true := by
  have hpos : nt < nPts nt := by
    rw [← start_nPts]
    have : start nt 1 ≤ start nt (nt + 1) := start_mono nt (by omega)
    have h1 : start nt 1 = nt + 1 := by rw [start, start]; omega
    omega
  unfold isDelta
  rw [decide_eq_true_iff, h 0 (by omega), h nt hpos, h (nPts nt - 1) (by omega)]
  simp [TOL]

example : ∀ i, i < nPts 2 → (fun _ : Nat => (5 : ℚ)) i = 5 := fun _ _ => rfl

/-- **C47, where the code disagrees.** A traceless tensor with zero diagonal — for instance
an axially symmetric tensor along (1,1,1) — has frequency 0 at the three corners of the
octant and 1 (in units of the off-diagonal element) in between; the code takes the
shortcut and replaces its pattern by a line. -/
theorem C47_counterexample :
    let freq : Nat → ℚ := fun i =>
      match (Spec.grid 2)[i]? with
      | some p => Spec.quad 0 0 0 1 1 1 2 p
      | none => 0
    isDelta 2 freq = true ∧ (List.range 6).map freq = [0, 1, 0, 1, 1, 0] := by
  decide +kernel

/-! ## C62 -/

/-- Total of the additions of an averaging pass without the shortcut: intensities add. -/
theorem runCalls_ok (l : List (Writes K)) : runCalls (l.map .ok) = .ok l.flatten := by
  induction l with
  | nil => rfl
  | cons w l ih => rw [List.map_cons, runCalls, ih]; rfl

theorem octInterp_ok (nt : Nat) (freq amp : Nat → K) (m : Int) (hm : 1 ≤ m) :
    ∃ w, octInterp nt freq amp m = .ok w := by
  unfold octInterp
  have hE : ∀ l : List (Py (Writes K)), (∀ c ∈ l, ∃ w, c = .ok w) → ∃ w, runCalls l = .ok w := by
    intro l
    induction l with
    | nil => intro _; exact ⟨[], rfl⟩
    | cons c l ih =>
      intro h
      obtain ⟨w, rfl⟩ := h c (by simp)
      obtain ⟨v, hv⟩ := ih (fun c hc => h c (by simp [hc]))
      exact ⟨w ++ v, by rw [runCalls, hv]⟩
  have hT : ∀ a b c x : K, ∃ w, triangle a b c x m = .ok w := by
    intro a b c x
    obtain ⟨f0, f1, f2, hp, h01, h12⟩ := exists_sorted a b c
    obtain ⟨w, e, _⟩ := triangle_writes a b c f0 f1 f2 x m hm hp h01 h12
    exact ⟨w, e⟩
  apply hE
  suffices ∀ n i j (li : Int), nPts nt - 1 - i = n → ∀ c ∈ octLoop
      (fun i j => [triangle (freq i) (freq (i + 1)) (freq (nt + 1 + j))
        ((amp (i + 1) + amp (nt + 1 + j)) + amp i) m])
      (fun i j => [triangle (freq (i + 1)) (freq (nt + 1 + j)) (freq (nt + 1 + j + 1))
        ((amp (i + 1) + amp (nt + 1 + j)) + amp (nt + 1 + j + 1)) m]) nt i j li, ∃ w, c = .ok w from
    this _ 0 0 _ rfl
  intro n
  induction n using Nat.strong_induction_on with
  | _ n ih =>
    intro i j li hn c hc
    rw [octLoop] at hc
    by_cases h : i < nPts nt - 1
    · rw [if_pos h] at hc
      simp only [List.mem_append, List.mem_singleton] at hc
      rcases hc with rfl | hc
      · exact hT _ _ _ _
      · by_cases hl : (i : Int) < li
        · rw [if_pos hl] at hc
          simp only [List.mem_append, List.mem_singleton] at hc
          rcases hc with rfl | hc
          · exact hT _ _ _ _
          · exact ih (nPts nt - 1 - (i + 1)) (by omega) _ _ _ rfl c hc
        · rw [if_neg hl] at hc
          exact ih (nPts nt - 1 - (i + 2)) (by omega) _ _ _ rfl c hc
    · rw [if_neg h] at hc
      cases hc

theorem runCalls_flatMap_ok {α : Type} (l : List α) (f : α → List (Py (Writes K)))
    (g : α → List (Writes K)) (h : ∀ a ∈ l, f a = (g a).map .ok) :
    runCalls (l.flatMap f) = .ok (l.flatMap g).flatten := by
  have : l.flatMap f = (l.flatMap g).map .ok := by
    rw [List.map_flatMap]
    exact List.flatMap_congr h
  rw [this, runCalls_ok]

/-- **C62 (inside), partial.** A spinning or static pattern, not collapsed to a line: if the
isotropic position of every sideband lies within the window and all frequencies of all
sidebands fall inside the spectrum, the spectrum gains the total amplitude of all
sidebands and octants. Missing: patterns that reach into the window from an isotropic
position outside, see `C62_counterexample`. -/
theorem C62_intensity_partial (nt nOctants : Nat) (vrFreq : List K) (invInc normOff r0 : K)
    (freq amps : Nat → K) (count : Nat) (spec : Int → K) (hd : isDelta nt freq = false)
    (hwin : ∀ s ∈ vrFreq, 0 ≤ normOff + r0 + s * invInc ∧ normOff + r0 + s * invInc ≤ count)
    (hin : ∀ s ∈ vrFreq, ∀ k, k < nOctants * ((nt + 1) * (nt + 2) / 2) →
      0 ≤ freq k + (normOff + r0 + s * invInc) ∧ freq k + (normOff + r0 + s * invInc) < count) :
    ∃ w, averaging1D nt nOctants vrFreq invInc normOff r0 freq amps count = .ok w ∧
      ((List.range count).map fun (k : Nat) => applyWrites spec w k - spec k).sum =
        (vrFreq.zipIdx.flatMap fun s => (List.range nOctants).map fun j =>
          totalAmplitude nt (fun k => amps (s.2 * (nOctants * ((nt + 1) * (nt + 2) / 2)) +
            j * ((nt + 1) * (nt + 2) / 2) + k))).sum := by
  unfold averaging1D
  simp only [hd, Bool.false_eq_true, if_false, applyWrites_eq, add_sub_cancel_left]
  have hkey : ∀ l : List (K × Nat), (∀ s ∈ l, s.1 ∈ vrFreq) →
      ∃ w, runCalls (l.flatMap fun s =>
        if inWindow (normOff + r0 + s.1 * invInc) (count : Int) = true then
          (List.range nOctants).map fun j =>
            octInterp nt (fun k => freq (j * nPts nt + k) + (normOff + r0 + s.1 * invInc))
              (fun k => amps (s.2 * (nOctants * nPts nt) + j * nPts nt + k)) (count : Int)
        else []) = .ok w ∧
      ((List.range count).map fun (k : Nat) => at_ k w).sum =
        (l.flatMap fun s => (List.range nOctants).map fun j =>
          totalAmplitude nt (fun k => amps (s.2 * (nOctants * nPts nt) + j * nPts nt + k))).sum := by
    have happ : ∀ a b : List (Py (Writes K)), ∀ u v, runCalls a = .ok u → runCalls b = .ok v →
        runCalls (a ++ b) = .ok (u ++ v) := by
      intro a b u v
      induction a generalizing u with
      | nil =>
        intro h1 h2
        rw [runCalls] at h1
        cases h1
        simpa using h2
      | cons c a ih =>
        intro h1 h2
        cases c with
        | error e => rw [runCalls] at h1; cases h1
        | ok c =>
          rw [runCalls] at h1
          cases hr : runCalls a with
          | error e => rw [hr] at h1; cases h1
          | ok r =>
            rw [hr] at h1
            cases h1
            rw [List.cons_append, runCalls, ih r hr h2]
            simp
    have hrow : ∀ (s : K × Nat), s.1 ∈ vrFreq → ∀ n, n ≤ nOctants →
        ∃ w, runCalls ((List.range n).map fun j =>
            octInterp nt (fun k => freq (j * nPts nt + k) + (normOff + r0 + s.1 * invInc))
              (fun k => amps (s.2 * (nOctants * nPts nt) + j * nPts nt + k)) (count : Int)) = .ok w ∧
        ((List.range count).map fun (k : Nat) => at_ k w).sum =
          ((List.range n).map fun j =>
          totalAmplitude nt (fun k => amps (s.2 * (nOctants * nPts nt) + j * nPts nt + k))).sum := by
      intro s hs n
      induction n with
      | zero => intro _; exact ⟨[], rfl, by simp⟩
      | succ n ih =>
        intro hn
        obtain ⟨w, e, h⟩ := ih (by omega)
        obtain ⟨v, e', h'⟩ := C38_intensity nt
          (fun k => freq (n * nPts nt + k) + (normOff + r0 + s.1 * invInc))
          (fun k => amps (s.2 * (nOctants * nPts nt) + n * nPts nt + k)) count spec (by
            intro i hi
            apply hin s.1 hs
            have h1 : n * nPts nt + i < (n + 1) * nPts nt := by
              have : i < nPts nt := hi
              nlinarith
            have h2 : (n + 1) * nPts nt ≤ nOctants * nPts nt := Nat.mul_le_mul_right _ hn
            exact lt_of_lt_of_le h1 h2)
        simp only [applyWrites_eq, add_sub_cancel_left] at h'
        refine ⟨w ++ v, ?_, ?_⟩
        · rw [List.range_succ, List.map_append]
          refine happ _ _ _ _ e ?_
          rw [List.map_cons, List.map_nil]
          simp only [e', runCalls, List.append_nil]
        · rw [List.range_succ, List.map_append, List.sum_append, ← h]
          simp only [List.map_cons, List.map_nil, List.sum_cons, List.sum_nil, add_zero]
          rw [← h', ← sum_map_add]
          congr 1
          apply List.map_congr_left
          intro k _
          rw [at_append]
    intro l
    induction l with
    | nil => intro _; exact ⟨[], rfl, by simp⟩
    | cons s l ih =>
      intro hl
      obtain ⟨w2, e2, s2⟩ := ih (fun s hs => hl s (by simp [hs]))
      obtain ⟨w1, e1, s1⟩ := hrow s (hl s (by simp)) nOctants le_rfl
      have hw : inWindow (normOff + r0 + s.1 * invInc) (count : Int) = true := by
        obtain ⟨h1, h2⟩ := hwin s.1 (hl s (by simp))
        unfold inWindow
        rw [decide_eq_true_iff]
        obtain ⟨t0, t1, _⟩ := trunc_nonneg h1
        refine ⟨t0, ?_⟩
        have : ((trunc (normOff + r0 + s.1 * invInc) : Int) : K) ≤ ((count : Int) : K) := by
          push_cast
          linarith
        exact_mod_cast this
      refine ⟨w1 ++ w2, ?_, ?_⟩
      · rw [List.flatMap_cons, if_pos hw]
        exact happ _ _ _ _ e1 e2
      · rw [List.flatMap_cons, List.sum_append, ← s1, ← s2, ← sum_map_add]
        congr 1
        apply List.map_congr_left
        intro k _
        rw [at_append]
  exact hkey vrFreq.zipIdx (fun s hs => by
    obtain ⟨a, b⟩ := s
    exact (List.mem_zipIdx' hs).2 ▸ List.getElem_mem _)

/-- The hypotheses are met: one octant, two sidebands, a grid of three orientations. -/
example : let freq : Nat → ℚ := fun i => if i = 0 then 0 else if i = 1 then 1 / 2 else 1
    isDelta 1 freq = false ∧
    (∀ s ∈ [(0 : ℚ), 10], 0 ≤ (1 / 2 : ℚ) + 1 + s * (1 / 10) ∧ (1 / 2 : ℚ) + 1 + s * (1 / 10) ≤ 8) ∧
    (∀ s ∈ [(0 : ℚ), 10], ∀ k, k < 1 * ((1 + 1) * (1 + 2) / 2) →
      0 ≤ freq k + (1 / 2 + 1 + s * (1 / 10)) ∧ freq k + (1 / 2 + 1 + s * (1 / 10)) < 8) := by
  decide +kernel

/-- **C62, where the code disagrees.** The isotropic position lies three bins left of the
window, all orientations of the pattern lie between bins 2 and 4; the code bins
nothing. -/
theorem C62_counterexample :
    let freq : Nat → ℚ := fun i => if i = 0 then 5 else if i = 1 then 6 else 7
    (∀ k, k < 3 → 0 ≤ freq k + (1 / 2 + (-7 / 2) + 0) ∧ freq k + (1 / 2 + (-7 / 2) + 0) < 8) ∧
    averaging1D 1 1 [0] 1 (1 / 2) (-7 / 2) freq (fun _ => 1) 8 = .ok [] ∧
    totalAmplitude 1 (fun _ => (1 : ℚ)) = 3 := by
  refine ⟨?_, ?_, ?_⟩
  · decide +kernel
  · decide +kernel
  · decide +kernel

end MRS.Bin
