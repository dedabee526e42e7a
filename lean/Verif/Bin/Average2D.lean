import Verif.Bin.TwoDProps
import Verif.Bin.Average
import Verif.Meth.Dims

/-!
# Averaging over sidebands and octants in two dimensions — properties C34, C58, C69

Model of src/c_lib/lib/interpolation.c:703-738 `octahedronInterpolation2D` and
src/c_lib/lib/frequency_averaging.c:108-230 `two_dimensional_averaging`.
-/

namespace MRS.Bin

set_option linter.unusedSectionVars false

variable {K : Type} [Field K] [LinearOrder K] [IsStrictOrderedRing K] [FloorRing K]

/-- interpolation.c:703-738 `octahedronInterpolation2D`, with stride 1 (frequency_averaging.c:218). -/
def octInterp2D (nt : Nat) (freq1 freq2 amp : Nat → K) (m0 m1 : Int) : Py (Writes K) :=
  let P := fun i => (freq1 i, freq2 i)
  runCalls (octLoop
    (fun i j => [triangle2D (P i) (P (i + 1)) (P (nt + 1 + j))
      ((amp (i + 1) + amp (nt + 1 + j)) + amp i) m0 m1])
    (fun i j => [triangle2D (P (i + 1)) (P (nt + 1 + j)) (P (nt + 1 + j + 1))
      ((amp (i + 1) + amp (nt + 1 + j)) + amp (nt + 1 + j + 1)) m0 m1])
    nt 0 0 ((nt : Int) - 1))

/-- One dimension as `two_dimensional_averaging` sees it: `R0_offset`, `inverse_increment`,
`normalize_offset`, `count`, `plan->vr_freq`, `local_frequency` (after lines 131-150) and the product
of the `freq_amplitude` of its events (lines 156-174; for the second dimension after line 176-179). -/
structure Axis (K : Type) where
  r0 : K
  inv : K
  norm : K
  count : Nat
  vr : Nat → K
  freq : Nat → K
  amp : Nat → K

/-- frequency_averaging.c:181-199: the offsets of the pair of sidebands `(i, k)`, scaled and sheared
by the affine matrix `t`. -/
def offsets2D (t : Nat → K) (A B : Axis K) (i k : Nat) : K × K :=
  let offsetA := A.r0 + A.vr i * A.inv
  let offsetB := B.r0 + B.vr k * B.inv
  let norm0 := offsetA * t 0 + t 1 * offsetB
  let norm1 := offsetB * t 3 + t 2 * norm0
  (norm0 + A.norm, norm1 + B.norm)

/-- frequency_averaging.c:201-208, the test on a pair of sidebands. -/
def pass2D (t : Nat → K) (A B : Axis K) (i k : Nat) : Bool :=
  inWindow (offsets2D t A B i k).1 A.count && inWindow (offsets2D t A B i k).2 B.count

/-- The passes of the three loops, frequency_averaging.c:181-226: sideband of the first dimension,
of the second dimension, octant. -/
def passes2D (t : Nat → K) (A B : Axis K) (nSide nOctants : Nat) : List (Nat × Nat × Nat) :=
  (List.range nSide).flatMap fun i => (List.range nSide).flatMap fun k =>
    if pass2D t A B i k then (List.range nOctants).map fun j => (i, k, j) else []

/-- frequency_averaging.c:211-222, the body of the innermost loop. The arrays are functions; what
lies behind their end is whatever it is. -/
def body2D (t : Nat → K) (A B : Axis K) (nt nOctants : Nat) (s : Nat × Nat × Nat) : Py (Writes K) :=
  let npts := nPts nt
  let total := nOctants * npts
  let address := s.2.2 * npts
  let o := offsets2D t A B s.1 s.2.1
  octInterp2D nt (fun q => A.freq (address + q) + o.1) (fun q => B.freq (address + q) + o.2)
    (fun q => A.amp (s.1 * total + address + q) * B.amp (s.2.1 * total + address + q))
    A.count B.count

/-- frequency_averaging.c:181-226. -/
def averaging2D (t : Nat → K) (A B : Axis K) (nt nOctants nSide : Nat) : Py (Writes K) :=
  runCalls ((passes2D t A B nSide nOctants).map (body2D t A B nt nOctants))

/-- frequency_averaging.c:213-215: `vm_double_multiply(scheme->total_orientations, ...)`, the
indices read from `freq_ampA`. -/
def readsA (nt nOctants : Nat) (s : Nat × Nat × Nat) : List Nat :=
  (List.range (nOctants * nPts nt)).map fun q => s.1 * (nOctants * nPts nt) + s.2.2 * nPts nt + q

/-- The same for `freq_ampB` (frequency_averaging.c lines 108-230). -/
def readsB (nt nOctants : Nat) (s : Nat × Nat × Nat) : List Nat :=
  (List.range (nOctants * nPts nt)).map fun q =>
    s.2.1 * (nOctants * nPts nt) + s.2.2 * nPts nt + q

/-! ## Totals -/

/-- All that was added to an array of `m0` rows. -/
def Spec.total (m0 m1 : Nat) (w : Writes K) : K :=
  ((List.range m0).map fun (k : Nat) => Spec.rowSum m1 k w).sum

theorem total_append (m0 m1 : Nat) (a b : Writes K) :
    Spec.total m0 m1 (a ++ b) = Spec.total m0 m1 a + Spec.total m0 m1 b := by
  have h : ∀ k : Nat, Spec.rowSum m1 k (a ++ b) = Spec.rowSum m1 k a + Spec.rowSum m1 k b := by
    intro k
    unfold Spec.rowSum
    rw [← List.sum_map_add]
    congr 1
    apply List.map_congr_left
    intro q _
    rw [at_append]
  unfold Spec.total
  rw [← List.sum_map_add]
  congr 1
  apply List.map_congr_left
  intro k _
  rw [h]

theorem total_nil (m0 m1 : Nat) : Spec.total m0 m1 ([] : Writes K) = 0 := by
  unfold Spec.total Spec.rowSum
  simp

theorem runCalls_total {β : Type} (m0 m1 : Nat) (l : List β) (f : β → Py (Writes K)) (g : β → K)
    (h : ∀ x ∈ l, ∃ w, f x = .ok w ∧ Spec.total m0 m1 w = g x) :
    ∃ w, runCalls (l.map f) = .ok w ∧ Spec.total m0 m1 w = (l.map g).sum := by
  induction l with
  | nil => exact ⟨[], rfl, by rw [total_nil]; simp⟩
  | cons x l ih =>
    obtain ⟨w2, e2, s2⟩ := ih (fun y hy => h y (List.mem_cons_of_mem _ hy))
    obtain ⟨w1, e1, s1⟩ := h x (List.mem_cons_self ..)
    refine ⟨w1 ++ w2, by rw [List.map_cons, e1, runCalls, e2], ?_⟩
    rw [total_append, s1, s2, List.map_cons, List.sum_cons]

/-- **C58, octant, partial.** If all frequencies of an octant lie at least half a bin inside the
window, the map gains exactly the total amplitude of the octant (`get_total_amplitude`).

Missing for the full property: as for `C58_total_partial`. -/
theorem C58_octant_partial (nt : Nat) (freq1 freq2 amp : Nat → K) (m0 m1 : Nat)
    (h1 : ∀ i, i < (nt + 1) * (nt + 2) / 2 → 1/2 ≤ freq1 i ∧ freq1 i ≤ (m0 : K) - 1/2)
    (h2 : ∀ i, i < (nt + 1) * (nt + 2) / 2 → 1/2 ≤ freq2 i ∧ freq2 i ≤ (m1 : K) - 1/2) :
    ∃ w, octInterp2D nt freq1 freq2 amp m0 m1 = .ok w ∧
      Spec.total m0 m1 w = totalAmplitude nt amp := by
  unfold octInterp2D
  simp only
  have hE : octLoop
    (fun i j => [triangle2D (freq1 i, freq2 i) (freq1 (i + 1), freq2 (i + 1))
      (freq1 (nt + 1 + j), freq2 (nt + 1 + j))
      ((amp (i + 1) + amp (nt + 1 + j)) + amp i) (m0 : Int) (m1 : Int)])
    (fun i j => [triangle2D (freq1 (i + 1), freq2 (i + 1)) (freq1 (nt + 1 + j), freq2 (nt + 1 + j))
      (freq1 (nt + 1 + j + 1), freq2 (nt + 1 + j + 1))
      ((amp (i + 1) + amp (nt + 1 + j)) + amp (nt + 1 + j + 1)) (m0 : Int) (m1 : Int)])
    nt 0 0 ((nt : Int) - 1) =
    octLoop (fun i j => (fun t : Nat × Nat × Nat => [triangle2D (freq1 t.1, freq2 t.1)
        (freq1 t.2.1, freq2 t.2.1) (freq1 t.2.2, freq2 t.2.2)
        (amp t.1 + amp t.2.1 + amp t.2.2) (m0 : Int) (m1 : Int)]) (i, i + 1, nt + 1 + j))
      (fun i j => (fun t : Nat × Nat × Nat => [triangle2D (freq1 t.1, freq2 t.1)
        (freq1 t.2.1, freq2 t.2.1) (freq1 t.2.2, freq2 t.2.2)
        (amp t.1 + amp t.2.1 + amp t.2.2) (m0 : Int) (m1 : Int)])
        (i + 1, nt + 1 + j, nt + 1 + j + 1)) nt 0 0 ((nt : Int) - 1) := by
    congr 1
    funext i j
    simp only
    rw [show amp (i + 1) + amp (nt + 1 + j) + amp i = amp i + amp (i + 1) + amp (nt + 1 + j) by ring]
  rw [hE, octLoop_triList (fun t : Nat × Nat × Nat => [triangle2D (freq1 t.1, freq2 t.1)
        (freq1 t.2.1, freq2 t.2.1) (freq1 t.2.2, freq2 t.2.2)
        (amp t.1 + amp t.2.1 + amp t.2.2) (m0 : Int) (m1 : Int)]), ← List.map_eq_flatMap,
    totalAmplitude_triList]
  apply runCalls_total m0 m1
  intro t ht
  obtain ⟨b1, b2, b3⟩ := tri_bounds nt t ht
  have hr : ∀ p : Nat × Nat, p.1 + p.2 ≤ nt → rank nt p < (nt + 1) * (nt + 2) / 2 := by
    intro p hp
    have := grid_get nt p.1 p.2 hp
    have hlt := (List.getElem?_eq_some_iff.mp this).1
    rw [grid_length] at hlt
    exact hlt
  have r1 := hr t.1 b1
  have r2 := hr t.2.1 b2
  have r3 := hr t.2.2 b3
  exact C58_total_partial _ _ _ _ m0 m1
    (by intro P hP
        simp only [List.mem_cons, List.not_mem_nil, or_false] at hP
        rcases hP with rfl | rfl | rfl
        · exact h1 _ r1
        · exact h1 _ r2
        · exact h1 _ r3)
    (by intro P hP
        simp only [List.mem_cons, List.not_mem_nil, or_false] at hP
        rcases hP with rfl | rfl | rfl
        · exact h2 _ r1
        · exact h2 _ r2
        · exact h2 _ r3)

/-- Hypotheses met with anisotropy in both dimensions. -/
example : ∃ w, octInterp2D (K := ℚ) 2 (fun i => i + 1/2) (fun i => 6 - i) (fun i => i + 1)
    (6 : Nat) (7 : Nat) = .ok w ∧
    Spec.total 6 7 w = totalAmplitude 2 (fun i => (i : ℚ) + 1) := by
  apply C58_octant_partial <;> intro i hi <;> have hi : i < 6 := hi <;>
    have h1 : (i : ℚ) ≤ 5 := (by exact_mod_cast (by omega : i ≤ 5)) <;>
    have h0 : (0 : ℚ) ≤ i := (by positivity) <;> push_cast <;> constructor <;> linarith

/-- **C58, whole map, partial.** If every pair of sidebands that passes the test has all its
frequencies at least half a bin inside the window, the map gains, over the pairs that pass and the
octants, the total of the products of the amplitudes. -/
theorem C58_map_partial (t : Nat → K) (A B : Axis K) (nt nOctants nSide : Nat)
    (h1 : ∀ i k j q, i < nSide → k < nSide → pass2D t A B i k = true → j < nOctants → q < nPts nt →
      (1/2 ≤ A.freq (j * nPts nt + q) + (offsets2D t A B i k).1 ∧
        A.freq (j * nPts nt + q) + (offsets2D t A B i k).1 ≤ (A.count : K) - 1/2) ∧
      (1/2 ≤ B.freq (j * nPts nt + q) + (offsets2D t A B i k).2 ∧
        B.freq (j * nPts nt + q) + (offsets2D t A B i k).2 ≤ (B.count : K) - 1/2)) :
    ∃ w, averaging2D t A B nt nOctants nSide = .ok w ∧
      Spec.total A.count B.count w =
        ((passes2D t A B nSide nOctants).map fun s => totalAmplitude nt fun q =>
          A.amp (s.1 * (nOctants * nPts nt) + s.2.2 * nPts nt + q) *
          B.amp (s.2.1 * (nOctants * nPts nt) + s.2.2 * nPts nt + q)).sum := by
  unfold averaging2D
  apply runCalls_total
  intro s hs
  unfold passes2D at hs
  rw [List.mem_flatMap] at hs
  obtain ⟨i, hi, hs⟩ := hs
  rw [List.mem_flatMap] at hs
  obtain ⟨k, hk, hs⟩ := hs
  by_cases hp : pass2D t A B i k = true
  · rw [if_pos hp, List.mem_map] at hs
    obtain ⟨j, hj, rfl⟩ := hs
    rw [List.mem_range] at hi hk hj
    exact C58_octant_partial nt
      (fun q => A.freq (j * nPts nt + q) + (offsets2D t A B i k).1)
      (fun q => B.freq (j * nPts nt + q) + (offsets2D t A B i k).2)
      (fun q => A.amp (i * (nOctants * nPts nt) + j * nPts nt + q) *
        B.amp (k * (nOctants * nPts nt) + j * nPts nt + q)) A.count B.count
      (fun q hq => (h1 i k j q hi hk hp hj hq).1) (fun q hq => (h1 i k j q hi hk hp hj hq).2)
  · rw [if_neg hp] at hs
    simp at hs

/-- Hypotheses met with two sidebands, a shear, and two octants, where some pairs pass. -/
example : ∃ w, averaging2D (K := ℚ) (fun n => if n = 2 then 1 else if n = 1 then 0 else 1)
    ⟨0, 1, 4, 9, fun i => i, fun q => q / 10, fun _ => 1⟩
    ⟨0, 1, 4, 9, fun i => i, fun q => - q / 10, fun x => x⟩ 1 2 2 = .ok w ∧
    Spec.total 9 9 w = 132 := by
  obtain ⟨w, e, h⟩ := C58_map_partial (K := ℚ) (fun n => if n = 2 then 1 else if n = 1 then 0 else 1)
    ⟨0, 1, 4, 9, fun i => i, fun q => q / 10, fun _ => 1⟩
    ⟨0, 1, 4, 9, fun i => i, fun q => - q / 10, fun x => x⟩ 1 2 2 (by
      intro i k j q hi hk _ hj hq
      have hq : q < 3 := hq
      interval_cases i <;> interval_cases k <;> interval_cases j <;> interval_cases q <;>
        simp [offsets2D, nPts] <;> norm_num)
  refine ⟨w, e, h.trans ?_⟩
  decide +kernel

/-! ## C69 -/

theorem mem_passes (t : Nat → K) (A B : Axis K) (nSide nOctants : Nat) (i k j : Nat) :
    (i, k, j) ∈ passes2D t A B nSide nOctants ↔
      i < nSide ∧ k < nSide ∧ j < nOctants ∧ pass2D t A B i k = true := by
  unfold passes2D
  simp only [List.mem_flatMap, List.mem_range]
  constructor
  · rintro ⟨i', hi, k', hk, h⟩
    by_cases hp : pass2D t A B i' k' = true
    · rw [if_pos hp, List.mem_map] at h
      obtain ⟨j', hj, e⟩ := h
      simp only [Prod.mk.injEq] at e
      obtain ⟨rfl, rfl, rfl⟩ := e
      exact ⟨hi, hk, by simpa using hj, hp⟩
    · rw [if_neg hp] at h
      simp at h
  · rintro ⟨hi, hk, hj, hp⟩
    refine ⟨i, hi, k, hk, ?_⟩
    rw [if_pos hp, List.mem_map]
    exact ⟨j, by simpa using hj, rfl⟩

/-- **C69, partial.** With one octant every read of the amplitudes is inside the arrays (of
`total_orientations * number_of_sidebands` entries).

Missing for the full property: more octants (`C69_counterexample`). -/
theorem C69_one_octant_partial (t : Nat → K) (A B : Axis K) (nt nSide : Nat) :
    ∀ s ∈ passes2D t A B nSide 1,
      (∀ x ∈ readsA nt 1 s, x < (1 * nPts nt) * nSide) ∧
      ∀ x ∈ readsB nt 1 s, x < (1 * nPts nt) * nSide := by
  rintro ⟨i, k, j⟩ hs
  rw [mem_passes] at hs
  obtain ⟨hi, hk, hj, _⟩ := hs
  have hj0 : j = 0 := by omega
  subst hj0
  have key : ∀ i q, i < nSide → q < nPts nt → i * nPts nt + q < nPts nt * nSide := by
    intro i q hi hq
    calc i * nPts nt + q < i * nPts nt + nPts nt := by omega
      _ = (i + 1) * nPts nt := by ring
      _ ≤ nSide * nPts nt := Nat.mul_le_mul_right _ hi
      _ = nPts nt * nSide := Nat.mul_comm _ _
  constructor <;> intro x hx <;> simp only [readsA, readsB, List.mem_map, List.mem_range] at hx <;>
    obtain ⟨q, hq, rfl⟩ := hx <;> simp only [one_mul, zero_mul, add_zero] at hq ⊢
  · exact key i q hi hq
  · exact key k q hk hq

example : (0, 0, 0) ∈ passes2D (K := ℚ) (fun n => if n = 0 ∨ n = 3 then 1 else 0)
    ⟨0, 1, 4, 8, fun _ => 0, fun _ => 0, fun _ => 1⟩ ⟨0, 1, 4, 8, fun _ => 0, fun _ => 0, fun _ => 1⟩
    1 1 := by
  decide +kernel

/-- **C69, disagreement.** With more than one octant (the hemisphere and the sphere) reads go beyond
the end of the array as soon as the last sideband passes: for each such pair and each octant but the
first. -/
theorem C69_counterexample (t : Nat → K) (A B : Axis K) (nt nSide nOctants i k j : Nat)
    (hs : (i, k, j) ∈ passes2D t A B nSide nOctants) (hj : 1 ≤ j) :
    (i = nSide - 1 → ∃ x ∈ readsA nt nOctants (i, k, j), (nOctants * nPts nt) * nSide ≤ x) ∧
    (k = nSide - 1 → ∃ x ∈ readsB nt nOctants (i, k, j), (nOctants * nPts nt) * nSide ≤ x) := by
  rw [mem_passes] at hs
  obtain ⟨hi, hk, hjn, _⟩ := hs
  have hn : 1 ≤ nPts nt := by
    unfold nPts
    have : 2 ≤ (nt + 1) * (nt + 2) := by nlinarith
    omega
  have hpos : 1 ≤ nOctants * nPts nt := Nat.mul_pos (by omega) hn
  have key : (nSide - 1) * (nOctants * nPts nt) + j * nPts nt + (nOctants * nPts nt - 1) ≥
      (nOctants * nPts nt) * nSide := by
    obtain ⟨m, rfl⟩ : ∃ m, nSide = m + 1 := ⟨nSide - 1, by omega⟩
    rw [Nat.add_sub_cancel]
    have h1 : 1 ≤ j * nPts nt := Nat.mul_pos hj hn
    have h2 : nOctants * nPts nt * (m + 1) = m * (nOctants * nPts nt) + nOctants * nPts nt := by ring
    rw [h2]
    omega
  constructor
  · rintro rfl
    exact ⟨_, List.mem_map.mpr ⟨nOctants * nPts nt - 1, List.mem_range.mpr (by omega), rfl⟩, key⟩
  · rintro rfl
    exact ⟨_, List.mem_map.mpr ⟨nOctants * nPts nt - 1, List.mem_range.mpr (by omega), rfl⟩, key⟩

/-- The default number of octants is met: a pair that passes in the second of four octants. -/
example : (0, 0, 1) ∈ passes2D (K := ℚ) (fun n => if n = 0 ∨ n = 3 then 1 else 0)
    ⟨0, 1, 4, 8, fun _ => 0, fun _ => 0, fun _ => 1⟩ ⟨0, 1, 4, 8, fun _ => 0, fun _ => 0, fun _ => 1⟩
    1 4 := by
  decide +kernel

theorem octInterp2D_congr (nt : Nat) (freq1 freq2 amp amp' : Nat → K) (m0 m1 : Int)
    (h : ∀ q, q < nPts nt → amp q = amp' q) :
    octInterp2D nt freq1 freq2 amp m0 m1 = octInterp2D nt freq1 freq2 amp' m0 m1 := by
  have form : ∀ amp : Nat → K, octInterp2D nt freq1 freq2 amp m0 m1 =
      runCalls ((triList nt).map fun t => triangle2D (freq1 (rank nt t.1), freq2 (rank nt t.1))
        (freq1 (rank nt t.2.1), freq2 (rank nt t.2.1)) (freq1 (rank nt t.2.2), freq2 (rank nt t.2.2))
        (amp (rank nt t.1) + amp (rank nt t.2.1) + amp (rank nt t.2.2)) m0 m1) := by
    intro amp
    unfold octInterp2D
    simp only
    rw [List.map_eq_flatMap, ← octLoop_triList (fun t : Nat × Nat × Nat => [triangle2D
        (freq1 t.1, freq2 t.1) (freq1 t.2.1, freq2 t.2.1) (freq1 t.2.2, freq2 t.2.2)
        (amp t.1 + amp t.2.1 + amp t.2.2) m0 m1])]
    congr 2
    funext i j
    simp only
    rw [show amp (i + 1) + amp (nt + 1 + j) + amp i = amp i + amp (i + 1) + amp (nt + 1 + j) by ring]
  rw [form, form]
  congr 1
  apply List.map_congr_left
  intro t ht
  obtain ⟨b1, b2, b3⟩ := tri_bounds nt t ht
  have hr : ∀ p : Nat × Nat, p.1 + p.2 ≤ nt → rank nt p < nPts nt := by
    intro p hp
    have := grid_get nt p.1 p.2 hp
    have hlt := (List.getElem?_eq_some_iff.mp this).1
    rw [grid_length] at hlt
    exact hlt
  rw [h _ (hr _ b1), h _ (hr _ b2), h _ (hr _ b3)]

/-- **C69, the result.** What lies behind the end of the amplitude arrays has no influence on the
result. -/
theorem C69_result (t : Nat → K) (A B : Axis K) (nt nOctants nSide : Nat) (ampA ampB : Nat → K)
    (hA : ∀ x, x < (nOctants * nPts nt) * nSide → ampA x = A.amp x)
    (hB : ∀ x, x < (nOctants * nPts nt) * nSide → ampB x = B.amp x) :
    averaging2D t { A with amp := ampA } { B with amp := ampB } nt nOctants nSide =
      averaging2D t A B nt nOctants nSide := by
  have hoff : ∀ i k, offsets2D t { A with amp := ampA } { B with amp := ampB } i k =
      offsets2D t A B i k := fun _ _ => rfl
  have hpass : passes2D t { A with amp := ampA } { B with amp := ampB } nSide nOctants =
      passes2D t A B nSide nOctants := rfl
  suffices hb : ∀ s ∈ passes2D t A B nSide nOctants,
      body2D t { A with amp := ampA } { B with amp := ampB } nt nOctants s =
        body2D t A B nt nOctants s by
    unfold averaging2D
    rw [hpass, List.map_congr_left hb]
  rintro ⟨i, k, j⟩ hs
  rw [mem_passes] at hs
  obtain ⟨hi, hk, hj, _⟩ := hs
  unfold body2D
  simp only [hoff]
  apply octInterp2D_congr
  intro q hq
  have key : ∀ i, i < nSide → i * (nOctants * nPts nt) + j * nPts nt + q <
      (nOctants * nPts nt) * nSide := by
    intro i hi
    have h1 : j * nPts nt + q < nOctants * nPts nt := by
      calc j * nPts nt + q < j * nPts nt + nPts nt := by omega
        _ = (j + 1) * nPts nt := by ring
        _ ≤ nOctants * nPts nt := Nat.mul_le_mul_right _ hj
    calc i * (nOctants * nPts nt) + j * nPts nt + q < i * (nOctants * nPts nt) + nOctants * nPts nt := by
          omega
      _ = (i + 1) * (nOctants * nPts nt) := by ring
      _ ≤ nSide * (nOctants * nPts nt) := Nat.mul_le_mul_right _ hi
      _ = (nOctants * nPts nt) * nSide := Nat.mul_comm _ _
  rw [hA _ (key i hi), hB _ (key k hk)]

/-- **C34 (sidebands).** For every accepted matrix and pair of increments, the offset of a pair of sidebands, each
with its own isotropic frequency `f` and sideband frequency `vr` in Hz, is in Hz the product of the matrix with the
pair of `f + vr`, counted from the reference point of its own dimension. -/
theorem C34_sidebands (v : List ℚ) (a b c d i0 i1 : ℚ) (h0 : 0 < i0) (h1 : 0 < i1)
    (hv : Meth.validateAffine 2 v = .ok [a, b, c, d]) (A B : Axis ℚ) (f0 f1 : ℚ)
    (hA : A.inv = 1 / i0) (hB : B.inv = 1 / i1) (hA0 : A.r0 = f0 / i0) (hB0 : B.r0 = f1 / i1) (i k : Nat) :
    ∃ m, Meth.prepareAffine [i0, i1] [a, b, c, d] = .ok m ∧
      ((offsets2D (fun n => m.getD n 0) A B i k).1 - A.norm) * i0 = a * (f0 + A.vr i) + b * (f1 + B.vr k) ∧
      ((offsets2D (fun n => m.getD n 0) A B i k).2 - B.norm) * i1 = c * (f0 + A.vr i) + d * (f1 + B.vr k) := by
  obtain ⟨m, x, hm, hx, hx1, hx2⟩ := (Meth.C34_affine v i0 i1 (f0 + A.vr i) (f1 + B.vr k) h0 h1).2 a b c d hv
  refine ⟨m, hm, ?_⟩
  have key : offsets2D (fun n => m.getD n 0) A B i k = (x.1 + A.norm, x.2 + B.norm) := by
    have eA : A.r0 + A.vr i * A.inv = (f0 + A.vr i) / i0 := by rw [hA, hA0]; ring
    have eB : B.r0 + B.vr k * B.inv = (f1 + B.vr k) / i1 := by rw [hB, hB0]; ring
    unfold offsets2D
    simp only
    rw [eA, eB]
    generalize (f0 + A.vr i) / i0 = p at hx
    generalize (f1 + B.vr k) / i1 = q at hx
    unfold Meth.applyAffine at hx
    split at hx
    · injection hx with hx
      subst hx
      rename_i a' b' c' d'
      simp only [List.getD_cons_zero, List.getD_cons_succ]
      have e0 : (if b' ≠ 0 then (if a' ≠ 1 then a' * p else p) + b' * q else (if a' ≠ 1 then a' * p else p)) =
          p * a' + b' * q := by
        by_cases hb : b' = 0 <;> by_cases ha : a' = 1 <;> simp [hb, ha, mul_comm]
      rw [e0]
      have e1 : ∀ y : ℚ, (if c' ≠ 0 then (if d' ≠ 1 then d' * q else q) + c' * y else (if d' ≠ 1 then d' * q else q)) =
          q * d' + c' * y := by
        intro y
        by_cases hb : c' = 0 <;> by_cases ha : d' = 1 <;> simp [hb, ha, mul_comm]
      rw [e1]
    · cases hx
  rw [key]
  simp only [add_sub_cancel_right]
  exact ⟨hx1, hx2⟩

/-- A shear of both dimensions, increments 2 and 4 Hz, lines at 8 and 12 Hz, rotor frequency 100 Hz. -/
example : ∃ m, Meth.prepareAffine [2, 4] [1/2, 1, 3, 5] = .ok m ∧
    ((offsets2D (fun n => m.getD n 0) (⟨4, 1/2, 7, 9, fun i => 100 * i, fun _ => 0, fun _ => 1⟩ : Axis ℚ)
      ⟨3, 1/4, 6, 9, fun i => 100 * i, fun _ => 0, fun _ => 1⟩ 1 2).1 - 7) * 2 = 1/2 * (8 + 100) + 1 * (12 + 200) := by
  obtain ⟨m, hm, h, _⟩ := C34_sidebands [1/2, 1, 3, 5] (1/2) 1 3 5 2 4 (by norm_num) (by norm_num)
    (by decide +kernel) ⟨4, 1/2, 7, 9, fun i => 100 * i, fun _ => 0, fun _ => 1⟩
    ⟨3, 1/4, 6, 9, fun i => 100 * i, fun _ => 0, fun _ => 1⟩ 8 12 (by norm_num) (by norm_num) (by norm_num)
    (by norm_num) 1 2
  refine ⟨m, hm, ?_⟩
  norm_num at h ⊢
  exact h

end MRS.Bin
