import Verif.Bin.Average2D
import Verif.Bin.Mirror

/-!
# Maps that are sharp in the first dimension — lemmas for property C90

If the first frequency is the same for all orientations, `triangle_interpolation2D` (interpolation.c:156-215) writes for
each triangle the one-dimensional shape of its second frequencies into one or two rows, weighted as
`delta_fn_interpolation` weights a sharp line.
-/

namespace MRS.Bin

set_option linter.unusedSectionVars false

variable {K : Type} [Field K] [LinearOrder K] [IsStrictOrderedRing K] [FloorRing K]

theorem calls_sharp (a b c : K × K) (amp : K) (m0 : Int) (h : |a.1 - b.1| < TOL ∧ |a.1 - c.1| < TOL) :
    calls2D a b c amp m0 = .ok ((deltaFn a.1 m0 amp).map fun q => ⟨q.1, a.2, b.2, c.2, q.2⟩) := by
  unfold calls2D deltaFn
  simp only
  rw [if_pos h]
  split_ifs <;> simp

theorem at_outside (k : Int) (w : Writes K) (h : ∀ q ∈ w, q.1 = k → q.2 = 0) : at_ k w = 0 := by
  unfold at_
  apply List.sum_eq_zero
  intro x hx
  obtain ⟨q, hq, rfl⟩ := List.mem_map.mp hx
  rw [List.mem_filter] at hq
  exact h q hq.1 (by simpa using hq.2)

/-- The additions of the one-dimensional routine are inside the row, apart from `+= 0`. -/
theorem triangleOrDelta_ok (a b c amp : K) (m : Int) (hm : 1 ≤ m) :
    ∃ w, triangleOrDelta a b c amp m = .ok w ∧ ∀ k : Int, k < 0 ∨ m ≤ k → at_ k w = 0 := by
  unfold triangleOrDelta
  split_ifs with h
  · refine ⟨_, rfl, fun k hk => at_outside k _ ?_⟩
    rintro ⟨i, x⟩ hq rfl
    have := C36_delta a amp m i x hq
    simp only at hk
    omega
  · obtain ⟨f0, f1, f2, hp, h01, h12⟩ := exists_sorted a b c
    obtain ⟨w, e, hw⟩ := triangle_writes a b c f0 f1 f2 amp m hm hp h01 h12
    refine ⟨w, e, fun k hk => at_outside k _ ?_⟩
    rintro q hq rfl
    obtain ⟨h1, h2, h3, -⟩ := hw q hq
    exact h3 (by omega)

theorem triangleOrDelta_scale (t a b c x : K) (m : Int) :
    triangleOrDelta a b c (t * x) m = (triangleOrDelta a b c x m).map (scaleW t) := by
  unfold triangleOrDelta
  split_ifs
  · rw [deltaFn_scale]
    rfl
  · rw [triangle_scale]

/-- Performing calls that differ in row and amount only. -/
theorem perform_same (a b c amp : K) (m1 : Nat) (hm : 1 ≤ m1) (l : List (Int × K)) :
    ∃ w, perform (m1 : Int) (l.map fun q => ⟨q.1, a, b, c, q.2 * amp⟩) = .ok w ∧
      ∀ (r col : Int), 0 ≤ col → col < m1 →
        at_ (r * m1 + col) w = at_ r l * val col (triangleOrDelta a b c amp m1) := by
  induction l with
  | nil => exact ⟨[], rfl, fun r col _ _ => by simp⟩
  | cons q l ih =>
    obtain ⟨w, e, hw⟩ := ih
    obtain ⟨v, ev, hv⟩ := triangleOrDelta_ok a b c (q.2 * amp) m1 (by omega)
    refine ⟨v.map (fun p => (q.1 * m1 + p.1, p.2)) ++ w, ?_, ?_⟩
    · rw [List.map_cons, perform]
      simp only
      rw [ev, e]
    · intro r col h0 h1
      rw [at_append, at_map_shift, hw r col h0 h1]
      obtain ⟨i, x⟩ := q
      rw [at_cons, add_mul]
      congr 1
      simp only at ev ⊢
      by_cases hi : i = r
      · rw [if_pos hi, hi, show r * (m1 : Int) + col - r * m1 = col by ring, ← val_map_scale, ← triangleOrDelta_scale, ev]
        rfl
      · rw [if_neg hi, zero_mul]
        apply hv
        rcases lt_or_gt_of_ne hi with h' | h'
        · right
          have : 1 ≤ r - i := by omega
          nlinarith
        · left
          have : r - i ≤ -1 := by omega
          nlinarith

/-- One triangle with a sharp first frequency. -/
theorem triangle2D_sharp (a b c : K × K) (amp : K) (m0 : Int) (m1 : Nat) (hm : 1 ≤ m1)
    (h : |a.1 - b.1| < TOL ∧ |a.1 - c.1| < TOL) :
    ∃ w, triangle2D a b c amp m0 m1 = .ok w ∧
      ∀ (r col : Int), 0 ≤ col → col < m1 →
        at_ (r * m1 + col) w = at_ r (deltaFn a.1 m0 1) * val col (triangleOrDelta a.2 b.2 c.2 amp m1) := by
  obtain ⟨w, e, hw⟩ := perform_same a.2 b.2 c.2 amp m1 hm (deltaFn a.1 m0 1)
  refine ⟨w, ?_, hw⟩
  unfold triangle2D
  rw [calls_sharp a b c amp m0 h]
  simp only
  rw [← e]
  congr 1
  have : deltaFn a.1 m0 amp = scaleW amp (deltaFn a.1 m0 1) := by rw [← deltaFn_scale, mul_one]
  rw [this]
  unfold scaleW
  rw [List.map_map]
  apply List.map_congr_left
  intro q _
  simp [mul_comm]

/-- What one octant adds to column `col` of a row on which it falls wholly: the sum over its triangles. -/
def rowShape (nt : Nat) (freq amp : Nat → K) (m1 : Int) (col : Int) : K :=
  ((triList nt).map fun t => val col (triangleOrDelta (freq (rank nt t.1)) (freq (rank nt t.2.1)) (freq (rank nt t.2.2))
    (amp (rank nt t.1) + amp (rank nt t.2.1) + amp (rank nt t.2.2)) m1)).sum

theorem octInterp2D_triList (nt : Nat) (freq1 freq2 amp : Nat → K) (m0 m1 : Int) :
    octInterp2D nt freq1 freq2 amp m0 m1 =
      runCalls ((triList nt).map fun t => triangle2D (freq1 (rank nt t.1), freq2 (rank nt t.1))
        (freq1 (rank nt t.2.1), freq2 (rank nt t.2.1)) (freq1 (rank nt t.2.2), freq2 (rank nt t.2.2))
        (amp (rank nt t.1) + amp (rank nt t.2.1) + amp (rank nt t.2.2)) m0 m1) := by
  unfold octInterp2D
  simp only
  rw [List.map_eq_flatMap, ← octLoop_triList (fun t : Nat × Nat × Nat => [triangle2D
      (freq1 t.1, freq2 t.1) (freq1 t.2.1, freq2 t.2.1) (freq1 t.2.2, freq2 t.2.2)
      (amp t.1 + amp t.2.1 + amp t.2.2) m0 m1])]
  congr 2
  funext i j
  simp only
  rw [show amp (i + 1) + amp (nt + 1 + j) + amp i = amp i + amp (i + 1) + amp (nt + 1 + j) by ring]

theorem rank_lt (nt : Nat) (p : Nat × Nat) (hp : p.1 + p.2 ≤ nt) : rank nt p < nPts nt := by
  have := grid_get nt p.1 p.2 hp
  have hlt := (List.getElem?_eq_some_iff.mp this).1
  rw [grid_length] at hlt
  exact hlt

theorem octInterp2D_sharp (nt : Nat) (freq1 freq2 amp : Nat → K) (m0 : Int) (m1 : Nat) (hm : 1 ≤ m1) (x : K)
    (h : ∀ q, q < nPts nt → freq1 q = x) :
    ∃ w, octInterp2D nt freq1 freq2 amp m0 m1 = .ok w ∧
      ∀ (r col : Int), 0 ≤ col → col < m1 →
        at_ (r * m1 + col) w = at_ r (deltaFn x m0 1) * rowShape nt freq2 amp m1 col := by
  rw [octInterp2D_triList]
  have htri : ∀ t ∈ triList nt, ∃ w, triangle2D (freq1 (rank nt t.1), freq2 (rank nt t.1))
        (freq1 (rank nt t.2.1), freq2 (rank nt t.2.1)) (freq1 (rank nt t.2.2), freq2 (rank nt t.2.2))
        (amp (rank nt t.1) + amp (rank nt t.2.1) + amp (rank nt t.2.2)) m0 m1 = .ok w ∧
      ∀ (r col : Int), 0 ≤ col → col < m1 → at_ (r * m1 + col) w = at_ r (deltaFn x m0 1) *
        val col (triangleOrDelta (freq2 (rank nt t.1)) (freq2 (rank nt t.2.1)) (freq2 (rank nt t.2.2))
          (amp (rank nt t.1) + amp (rank nt t.2.1) + amp (rank nt t.2.2)) m1) := by
    intro t ht
    obtain ⟨b1, b2, b3⟩ := tri_bounds nt t ht
    have e1 := h _ (rank_lt nt _ b1)
    have e2 := h _ (rank_lt nt _ b2)
    have e3 := h _ (rank_lt nt _ b3)
    have := triangle2D_sharp (freq1 (rank nt t.1), freq2 (rank nt t.1))
        (freq1 (rank nt t.2.1), freq2 (rank nt t.2.1)) (freq1 (rank nt t.2.2), freq2 (rank nt t.2.2))
        (amp (rank nt t.1) + amp (rank nt t.2.1) + amp (rank nt t.2.2)) m0 m1 hm
        (by simp only; rw [e1, e2, e3, sub_self, abs_zero]; constructor <;> simp [TOL])
    simp only at this
    rw [e1] at this ⊢
    exact this
  obtain ⟨w, e, hw⟩ := runCalls_val _ (fun c hc => by
    obtain ⟨t, ht, rfl⟩ := List.mem_map.mp hc
    obtain ⟨w, e, -⟩ := htri t ht
    exact ⟨w, e⟩)
  refine ⟨w, e, fun r col h0 h1 => ?_⟩
  rw [hw, List.map_map, rowShape, ← List.sum_map_mul_left]
  congr 1
  apply List.map_congr_left
  intro t ht
  obtain ⟨w, e, hv⟩ := htri t ht
  simp only [Function.comp]
  rw [e]
  exact hv r col h0 h1

/-- **The map of a sharp first dimension.** If the first frequencies are equal for all orientations, the map is a sum of
products: over the pairs of sidebands and octants that pass, the line at the position of the pair in the first dimension
times the shape in the second. -/
theorem averaging2D_sharp (t : Nat → K) (A B : Axis K) (nt nOct nSide : Nat) (hm : 1 ≤ B.count)
    (h : ∀ q, q < nOct * nPts nt → A.freq q = 0) :
    ∃ w, averaging2D t A B nt nOct nSide = .ok w ∧
      ∀ (r col : Int), 0 ≤ col → col < B.count →
        at_ (r * B.count + col) w = ((passes2D t A B nSide nOct).map fun s =>
          at_ r (deltaFn (offsets2D t A B s.1 s.2.1).1 A.count 1) *
          rowShape nt (fun q => B.freq (s.2.2 * nPts nt + q) + (offsets2D t A B s.1 s.2.1).2)
            (fun q => A.amp (s.1 * (nOct * nPts nt) + s.2.2 * nPts nt + q) *
              B.amp (s.2.1 * (nOct * nPts nt) + s.2.2 * nPts nt + q)) B.count col).sum := by
  have hb : ∀ s ∈ passes2D t A B nSide nOct, ∃ w, body2D t A B nt nOct s = .ok w ∧
      ∀ (r col : Int), 0 ≤ col → col < B.count → at_ (r * B.count + col) w =
          at_ r (deltaFn (offsets2D t A B s.1 s.2.1).1 A.count 1) *
          rowShape nt (fun q => B.freq (s.2.2 * nPts nt + q) + (offsets2D t A B s.1 s.2.1).2)
            (fun q => A.amp (s.1 * (nOct * nPts nt) + s.2.2 * nPts nt + q) *
              B.amp (s.2.1 * (nOct * nPts nt) + s.2.2 * nPts nt + q)) B.count col := by
    rintro ⟨i, k, j⟩ hs
    obtain ⟨-, -, hj, -⟩ := (mem_passes t A B nSide nOct i k j).mp hs
    unfold body2D
    simp only
    apply octInterp2D_sharp _ _ _ _ _ _ hm
    intro q hq
    rw [h, zero_add]
    calc j * nPts nt + q < j * nPts nt + nPts nt := by omega
      _ = (j + 1) * nPts nt := by ring
      _ ≤ nOct * nPts nt := Nat.mul_le_mul_right _ hj
  unfold averaging2D
  obtain ⟨w, e, hw⟩ := runCalls_val _ (fun c hc => by
    obtain ⟨s, hs, rfl⟩ := List.mem_map.mp hc
    obtain ⟨w, e, -⟩ := hb s hs
    exact ⟨w, e⟩)
  refine ⟨w, e, fun r col h0 h1 => ?_⟩
  rw [hw, List.map_map]
  congr 1
  apply List.map_congr_left
  intro s hs
  obtain ⟨w, e, hv⟩ := hb s hs
  simp only [Function.comp]
  rw [e]
  exact hv r col h0 h1

end MRS.Bin
