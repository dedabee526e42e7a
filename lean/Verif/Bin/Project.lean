import Verif.Bin.Ridge

/-!
# Sums over the second dimension of a map — lemmas for property C107

`two_dimensional_averaging` (frequency_averaging.c:108-230) next to `__1D_averaging` (lines 23-96): what the rows of the map
add up to.
-/

namespace MRS.Bin

set_option linter.unusedSectionVars false

variable {K : Type} [Field K] [LinearOrder K] [IsStrictOrderedRing K] [FloorRing K]

/-! ## Specification -/

/-- The frequencies `f` of the orientations, in bins from the isotropic one, are all zero, or they are different: along the axes, and at the corners of
every triangle of the grid, by a millionth of a bin at least. -/
def Spec.Resolved (nt nOct : ℕ) (f : ℕ → K) : Prop :=
  (∀ a < nOct * nPts nt, f a = 0) ∨
  ((1 / 1000000 ≤ |f 0 - f nt| ∨ 1 / 1000000 ≤ |f 0 - f (nPts nt - 1)|) ∧
    ∀ j < nOct, ∀ t, Spec.IsTriangle nt t →
      1 / 1000000 ≤ |f (j * nPts nt + rank nt t.1) - f (j * nPts nt + rank nt t.2.1)| ∨
      1 / 1000000 ≤ |f (j * nPts nt + rank nt t.1) - f (j * nPts nt + rank nt t.2.2)|)

/-! ## Lemmas -/

/-- What a call adds to a row. -/
def rowVal (m1 : ℕ) (r : ℤ) (c : Py (Writes K)) : K := ((List.range m1).map fun (q : ℕ) => val (r * m1 + q) c).sum

theorem sum_swap {α β : Type} (l : List α) (l' : List β) (f : α → β → K) :
    (l.map fun a => (l'.map fun b => f a b).sum).sum = (l'.map fun b => (l.map fun a => f a b).sum).sum := by
  induction l with
  | nil => simp
  | cons a l ih => simp only [List.map_cons, List.sum_cons, ih, List.sum_map_add]

theorem runCalls_rows (m1 : ℕ) (l : List (Py (Writes K))) (h : ∀ c ∈ l, ∃ w, c = .ok w) :
    ∃ w, runCalls l = .ok w ∧ ∀ r, Spec.rowSum m1 r w = (l.map (rowVal m1 r)).sum := by
  obtain ⟨w, e, hw⟩ := runCalls_val l h
  refine ⟨w, e, fun r => ?_⟩
  unfold Spec.rowSum rowVal
  simp only [hw]
  rw [sum_swap]

theorem rowVal_ok (m1 : ℕ) (r : ℤ) (w : Writes K) : rowVal m1 r (.ok w) = Spec.rowSum m1 r w := rfl

/-- The rows of one octant. -/
theorem octInterp2D_rows (nt : ℕ) (freq1 freq2 amp : ℕ → K) (m0 m1 : ℕ) (hm0 : 1 ≤ m0)
    (h2 : ∀ q < nPts nt, 1 / 2 ≤ freq2 q ∧ freq2 q ≤ (m1 : K) - 1 / 2)
    (h1 : (∀ q < nPts nt, -1 < freq1 q) ∨ ∀ q < nPts nt, freq1 q ≤ -1 ∨ 1 ≤ freq1 q) :
    ∃ w, octInterp2D nt freq1 freq2 amp m0 m1 = .ok w ∧
      ∀ r, Spec.rowSum m1 r w = rowShape nt freq1 amp m0 r := by
  rw [octInterp2D_triList]
  have htri : ∀ t ∈ triList nt, ∃ w, triangle2D (freq1 (rank nt t.1), freq2 (rank nt t.1))
        (freq1 (rank nt t.2.1), freq2 (rank nt t.2.1)) (freq1 (rank nt t.2.2), freq2 (rank nt t.2.2))
        (amp (rank nt t.1) + amp (rank nt t.2.1) + amp (rank nt t.2.2)) m0 m1 = .ok w ∧
      ∀ r, Spec.rowSum m1 r w = val r (triangleOrDelta (freq1 (rank nt t.1)) (freq1 (rank nt t.2.1)) (freq1 (rank nt t.2.2))
          (amp (rank nt t.1) + amp (rank nt t.2.1) + amp (rank nt t.2.2)) m0) := by
    intro t ht
    obtain ⟨b1, b2, b3⟩ := tri_bounds nt t ht
    have r1 := rank_lt nt _ b1
    have r2 := rank_lt nt _ b2
    have r3 := rank_lt nt _ b3
    obtain ⟨w, w1, e, e1, hw⟩ := C58_rows_partial (freq1 (rank nt t.1), freq2 (rank nt t.1))
        (freq1 (rank nt t.2.1), freq2 (rank nt t.2.1)) (freq1 (rank nt t.2.2), freq2 (rank nt t.2.2))
        (amp (rank nt t.1) + amp (rank nt t.2.1) + amp (rank nt t.2.2)) m0 m1 hm0
      (by
        intro P hP
        simp only [List.mem_cons, List.not_mem_nil, or_false] at hP
        rcases hP with rfl | rfl | rfl
        · exact h2 _ r1
        · exact h2 _ r2
        · exact h2 _ r3)
      (by
        rcases h1 with h1 | h1
        · left
          intro P hP
          simp only [List.mem_cons, List.not_mem_nil, or_false] at hP
          rcases hP with rfl | rfl | rfl
          · exact h1 _ r1
          · exact h1 _ r2
          · exact h1 _ r3
        · right
          intro P hP
          simp only [List.mem_cons, List.not_mem_nil, or_false] at hP
          rcases hP with rfl | rfl | rfl
          · exact h1 _ r1
          · exact h1 _ r2
          · exact h1 _ r3)
    refine ⟨w, e, fun r => ?_⟩
    rw [hw]
    simp only at e1
    rw [e1]
    rfl
  obtain ⟨w, e, hw⟩ := runCalls_rows m1 _ (fun c hc => by
    obtain ⟨t, ht, rfl⟩ := List.mem_map.mp hc
    obtain ⟨w, e, -⟩ := htri t ht
    exact ⟨w, e⟩)
  refine ⟨w, e, fun r => ?_⟩
  rw [hw, List.map_map, rowShape]
  congr 1
  refine List.map_congr_left fun t ht => ?_
  obtain ⟨w, e, hv⟩ := htri t ht
  simp only [Function.comp]
  rw [e, rowVal_ok, hv]

theorem val_triangleOrDelta (a b c x : K) (m r : ℤ) : val r (triangleOrDelta a b c x m) = x * val r (triangleOrDelta a b c 1 m) := by
  conv_lhs => rw [show x = x * 1 by ring, triangleOrDelta_scale, val_map_scale]

theorem rowShape_congr (nt : ℕ) (freq amp amp' : ℕ → K) (m r : ℤ) (h : ∀ q < nPts nt, amp q = amp' q) :
    rowShape nt freq amp m r = rowShape nt freq amp' m r := by
  unfold rowShape
  congr 1
  refine List.map_congr_left fun t ht => ?_
  obtain ⟨b1, b2, b3⟩ := tri_bounds nt t ht
  rw [h _ (rank_lt nt _ b1), h _ (rank_lt nt _ b2), h _ (rank_lt nt _ b3)]

theorem rowShape_zero (nt : ℕ) (freq amp : ℕ → K) (m r : ℤ) (h : ∀ q < nPts nt, amp q = 0) : rowShape nt freq amp m r = 0 := by
  rw [rowShape_congr nt freq amp (fun _ => 0) m r h]
  unfold rowShape
  apply List.sum_eq_zero
  intro x hx
  obtain ⟨t, _, rfl⟩ := List.mem_map.mp hx
  rw [val_triangleOrDelta]
  simp

theorem rowShape_add (nt : ℕ) (freq a b : ℕ → K) (m r : ℤ) :
    rowShape nt freq (fun q => a q + b q) m r = rowShape nt freq a m r + rowShape nt freq b m r := by
  unfold rowShape
  rw [← List.sum_map_add]
  congr 1
  refine List.map_congr_left fun t _ => ?_
  rw [val_triangleOrDelta, val_triangleOrDelta _ _ _ (a _ + a _ + a _), val_triangleOrDelta _ _ _ (b _ + b _ + b _)]
  ring

/-- The shape is linear in the amplitudes. -/
theorem rowShape_sum (nt : ℕ) (freq : ℕ → K) (n : ℕ) (amp : ℕ → ℕ → K) (m r : ℤ) :
    ∑ k ∈ Finset.range n, rowShape nt freq (amp k) m r = rowShape nt freq (fun q => ∑ k ∈ Finset.range n, amp k q) m r := by
  induction n with
  | zero =>
    rw [Finset.sum_range_zero, rowShape_zero]
    intro q _
    rw [Finset.sum_range_zero]
  | succ n ih =>
    rw [Finset.sum_range_succ, ih, ← rowShape_add]
    congr 1
    funext q
    rw [Finset.sum_range_succ]

/-- Without sharp triangles the shape of an octant is what one-dimensional interpolation adds. -/
theorem rowShape_octInterp (nt : ℕ) (freq amp : ℕ → K) (m r : ℤ) (hm : 1 ≤ m)
    (h : ∀ t, Spec.IsTriangle nt t → 1 / 1000000 ≤ |freq (rank nt t.1) - freq (rank nt t.2.1)| ∨
      1 / 1000000 ≤ |freq (rank nt t.1) - freq (rank nt t.2.2)|) :
    rowShape nt freq amp m r = val r (octInterp nt freq amp m) := by
  rw [octInterp_val nt freq amp m hm r, rowShape]
  congr 1
  refine List.map_congr_left fun t ht => ?_
  unfold triangleOrDelta
  rw [if_neg]
  rintro ⟨u, v⟩
  unfold TOL at u v
  rcases h t ((mem_triList nt t).mp ht) with h | h <;> linarith

/-- With one frequency it is the line. -/
theorem rowShape_octDelta (nt : ℕ) (freq amp : ℕ → K) (m r : ℤ) (x : K) (h : ∀ q < nPts nt, freq q = x) :
    rowShape nt freq amp m r = at_ r (octDelta nt x amp m) := by
  have e : octDelta nt x amp m = deltaFn x m (totalAmplitude nt amp) := rfl
  rw [e, totalAmplitude_triList, rowShape]
  rw [show ((triList nt).map fun t => amp (rank nt t.1) + amp (rank nt t.2.1) + amp (rank nt t.2.2)).sum
    = ((triList nt).map fun t => amp (rank nt t.1) + amp (rank nt t.2.1) + amp (rank nt t.2.2)).sum * 1 by ring,
    deltaFn_scale, at_scaleW, ← List.sum_map_mul_right]
  congr 1
  refine List.map_congr_left fun t ht => ?_
  obtain ⟨b1, b2, b3⟩ := tri_bounds nt t ht
  rw [h _ (rank_lt nt _ b1), h _ (rank_lt nt _ b2), h _ (rank_lt nt _ b3), val_triangleOrDelta]
  unfold triangleOrDelta
  rw [if_pos (by rw [sub_self, abs_zero]; constructor <;> simp [TOL])]
  rfl

theorem sum_range_list (n : ℕ) (f : ℕ → K) : ((List.range n).map f).sum = ∑ k ∈ Finset.range n, f k := by
  induction n with
  | zero => simp
  | succ n ih => rw [List.range_succ, List.map_append, List.sum_append, ih, Finset.sum_range_succ]; simp

theorem flatMap_sum {α β : Type} (l : List α) (f : α → List β) (g : β → K) :
    ((l.flatMap f).map g).sum = (l.map fun a => ((f a).map g).sum).sum := by
  induction l with
  | nil => simp
  | cons a l ih => rw [List.flatMap_cons, List.map_append, List.sum_append, ih, List.map_cons, List.sum_cons]

theorem zipIdx_range (l : List K) : l.zipIdx = (List.range l.length).map fun i => (l.getD i 0, i) := by
  apply List.ext_getElem
  · simp
  · intro i h1 h2
    simp only [List.length_zipIdx] at h1
    simp [h1]

theorem index_lt (n p j q : ℕ) (hj : j < n) (hq : q < p) : j * p + q < n * p :=
  calc j * p + q < j * p + p := by omega
    _ = (j + 1) * p := by ring
    _ ≤ n * p := Nat.mul_le_mul_right _ hj

theorem nPts_pos (nt : ℕ) : 1 ≤ nPts nt := by
  have := rank_lt nt (0, 0) (by omega)
  omega

/-- One-dimensional averaging of resolved frequencies: sidebands and octants one by one. -/
theorem averaging1D_rows (nt nOct : ℕ) (vr : List K) (inv norm r0 : K) (freq amps : ℕ → K) (m : ℕ) (hm : 1 ≤ m)
    (hO : 1 ≤ nOct) (h : Spec.Resolved nt nOct freq) :
    ∃ w, averaging1D nt nOct vr inv norm r0 freq amps m = .ok w ∧ ∀ r, at_ r w = ((List.range vr.length).map fun i =>
      if inWindow (norm + r0 + vr.getD i 0 * inv) m then ((List.range nOct).map fun j =>
        rowShape nt (fun q => freq (j * nPts nt + q) + (norm + r0 + vr.getD i 0 * inv))
          (fun q => amps (i * (nOct * nPts nt) + j * nPts nt + q)) m r).sum else 0).sum := by
  have hp := nPts_pos nt
  have hnt : nt < nPts nt := by
    have := rank_lt nt (0, nt) (by omega)
    have e : rank nt (0, nt) = nt := by simp [rank, start]
    omega
  have hle : nPts nt ≤ nOct * nPts nt := Nat.le_mul_of_pos_left _ hO
  unfold averaging1D
  simp only
  by_cases hd : isDelta nt freq = true
  · have hsame : ∀ a < nOct * nPts nt, freq a = 0 := by
      rcases h with h | ⟨h, -⟩
      · exact h
      · unfold isDelta at hd
        rw [decide_eq_true_eq] at hd
        unfold TOL at hd
        rcases h with h | h
        · linarith [hd.1]
        · linarith [hd.2]
    rw [if_pos hd]
    obtain ⟨w, e, hw⟩ := runCalls_val (vr.zipIdx.flatMap fun s =>
      if inWindow (norm + r0 + freq 0 + s.1 * inv) m then
        (List.range nOct).map fun j =>
          (.ok (octDelta nt (norm + r0 + freq 0 + s.1 * inv) (fun k => amps (s.2 * (nOct * nPts nt) + j * nPts nt + k)) m) : Py (Writes K))
      else []) (by
        intro c hc
        obtain ⟨s, _, hc⟩ := List.mem_flatMap.mp hc
        split_ifs at hc
        · obtain ⟨j, _, rfl⟩ := List.mem_map.mp hc
          exact ⟨_, rfl⟩
        · simp at hc)
    refine ⟨w, e, fun r => ?_⟩
    rw [hw, flatMap_sum, zipIdx_range, List.map_map]
    congr 1
    refine List.map_congr_left fun i _ => ?_
    simp only [Function.comp]
    rw [show norm + r0 + freq 0 + vr.getD i 0 * inv = norm + r0 + vr.getD i 0 * inv by rw [hsame 0 (by omega)]; ring]
    split_ifs
    · rw [List.map_map]
      congr 1
      refine List.map_congr_left fun j hj => ?_
      simp only [Function.comp]
      symm
      apply rowShape_octDelta
      intro q hq
      rw [hsame _ (index_lt nOct _ j q (List.mem_range.mp hj) hq), zero_add]
    · rfl
  · rw [if_neg hd]
    have hno : ∀ j < nOct, ∀ t, Spec.IsTriangle nt t →
      1 / 1000000 ≤ |freq (j * nPts nt + rank nt t.1) - freq (j * nPts nt + rank nt t.2.1)| ∨
      1 / 1000000 ≤ |freq (j * nPts nt + rank nt t.1) - freq (j * nPts nt + rank nt t.2.2)| := by
      rcases h with h | ⟨-, h⟩
      · exfalso
        apply hd
        unfold isDelta
        rw [decide_eq_true_eq, h 0 (by omega), h nt (by omega), h (nPts nt - 1) (by omega), sub_self, abs_zero]
        simp [TOL]
      · exact h
    obtain ⟨w, e, hw⟩ := runCalls_val (vr.zipIdx.flatMap fun s =>
      if inWindow (norm + r0 + s.1 * inv) m then
        (List.range nOct).map fun j =>
          octInterp nt (fun k => freq (j * nPts nt + k) + (norm + r0 + s.1 * inv))
            (fun k => amps (s.2 * (nOct * nPts nt) + j * nPts nt + k)) m
      else []) (by
        intro c hc
        obtain ⟨s, _, hc⟩ := List.mem_flatMap.mp hc
        split_ifs at hc
        · obtain ⟨j, _, rfl⟩ := List.mem_map.mp hc
          exact octInterp_ok _ _ _ _ (by exact_mod_cast hm)
        · simp at hc)
    refine ⟨w, e, fun r => ?_⟩
    rw [hw, flatMap_sum, zipIdx_range, List.map_map]
    congr 1
    refine List.map_congr_left fun i _ => ?_
    simp only [Function.comp]
    split_ifs
    · rw [List.map_map]
      congr 1
      refine List.map_congr_left fun j hj => ?_
      simp only [Function.comp]
      symm
      apply rowShape_octInterp nt _ _ _ _ (by exact_mod_cast hm)
      intro t ht
      rw [show ∀ a b c : K, a + c - (b + c) = a - b from fun a b c => by ring, show ∀ a b c : K, a + c - (b + c) = a - b from fun a b c => by ring]
      exact hno j (List.mem_range.mp hj) t ht
    · rfl

/-- **The rows of a map.** If the first dimension is not sheared, its frequencies are resolved, and the sidebands of the second dimension
fall into the window with all their orientations or have no amplitude, the rows add up to the one-dimensional spectrum of the first
dimension, with the amplitudes of all sidebands of the second. -/
theorem averaging_rows (t : ℕ → K) (ht0 : t 0 = 1) (ht1 : t 1 = 0) (A B : Axis K) (nt nOct nSide : ℕ) (hm : 1 ≤ A.count) (hO : 1 ≤ nOct)
    (vr : List K) (hl : vr.length = nSide) (hvr : ∀ i < nSide, A.vr i = vr.getD i 0) (amps : ℕ → K)
    (hamp : ∀ i < nSide, ∀ a < nOct * nPts nt,
      A.amp (i * (nOct * nPts nt) + a) * ∑ k ∈ Finset.range nSide, B.amp (k * (nOct * nPts nt) + a) = amps (i * (nOct * nPts nt) + a))
    (hf : Spec.Resolved nt nOct A.freq)
    (h1 : ∀ i < nSide, (∀ a < nOct * nPts nt, -1 < A.freq a + (A.norm + A.r0 + A.vr i * A.inv)) ∨
      ∀ a < nOct * nPts nt, A.freq a + (A.norm + A.r0 + A.vr i * A.inv) ≤ -1 ∨ 1 ≤ A.freq a + (A.norm + A.r0 + A.vr i * A.inv))
    (h2 : ∀ i < nSide, ∀ k < nSide, inWindow (A.norm + A.r0 + A.vr i * A.inv) A.count = true →
      (inWindow (offsets2D t A B i k).2 B.count = false ∧ ∀ a < nOct * nPts nt, B.amp (k * (nOct * nPts nt) + a) = 0) ∨
      (inWindow (offsets2D t A B i k).2 B.count = true ∧
        ∀ a < nOct * nPts nt, 1 / 2 ≤ B.freq a + (offsets2D t A B i k).2 ∧ B.freq a + (offsets2D t A B i k).2 ≤ (B.count : K) - 1 / 2)) :
    ∃ w w1, averaging2D t A B nt nOct nSide = .ok w ∧
      averaging1D nt nOct vr A.inv A.norm A.r0 A.freq amps A.count = .ok w1 ∧
      ∀ r, Spec.rowSum B.count r w = at_ r w1 := by
  have ho : ∀ i k, (offsets2D t A B i k).1 = A.norm + A.r0 + A.vr i * A.inv := by
    intro i k
    unfold offsets2D
    simp only [ht0, ht1]
    ring
  obtain ⟨w1, e1, hw1⟩ := averaging1D_rows nt nOct vr A.inv A.norm A.r0 A.freq amps A.count hm hO hf
  have hb : ∀ s ∈ passes2D t A B nSide nOct, ∃ w, body2D t A B nt nOct s = .ok w ∧
      ∀ r, Spec.rowSum B.count r w = rowShape nt (fun q => A.freq (s.2.2 * nPts nt + q) + (A.norm + A.r0 + A.vr s.1 * A.inv))
        (fun q => A.amp (s.1 * (nOct * nPts nt) + s.2.2 * nPts nt + q) *
              B.amp (s.2.1 * (nOct * nPts nt) + s.2.2 * nPts nt + q)) A.count r := by
    rintro ⟨i, k, j⟩ hs
    obtain ⟨hi, hk, hj, hp⟩ := (mem_passes t A B nSide nOct i k j).mp hs
    unfold pass2D at hp
    rw [Bool.and_eq_true, ho] at hp
    unfold body2D
    simp only [ho]
    rcases h2 i hi k hk hp.1 with ⟨hw, -⟩ | ⟨-, hw⟩
    · rw [hp.2] at hw
      exact absurd hw (by simp)
    · apply octInterp2D_rows _ _ _ _ _ _ hm
      · intro q hq
        exact hw _ (index_lt nOct _ j q hj hq)
      · rcases h1 i hi with h | h
        · exact Or.inl fun q hq => h _ (index_lt nOct _ j q hj hq)
        · exact Or.inr fun q hq => h _ (index_lt nOct _ j q hj hq)
  obtain ⟨w, e, hw⟩ := runCalls_rows B.count _ (fun c hc => by
    obtain ⟨s, hs, rfl⟩ := List.mem_map.mp hc
    obtain ⟨w, e, -⟩ := hb s hs
    exact ⟨w, e⟩)
  refine ⟨w, w1, e, e1, fun r => ?_⟩
  rw [hw, hw1, hl, List.map_map]
  have e2 : ((passes2D t A B nSide nOct).map (rowVal B.count r ∘ body2D t A B nt nOct)).sum
      = ((passes2D t A B nSide nOct).map fun s => rowShape nt (fun q => A.freq (s.2.2 * nPts nt + q) + (A.norm + A.r0 + A.vr s.1 * A.inv))
        (fun q => A.amp (s.1 * (nOct * nPts nt) + s.2.2 * nPts nt + q) *
              B.amp (s.2.1 * (nOct * nPts nt) + s.2.2 * nPts nt + q)) A.count r).sum := by
    congr 1
    refine List.map_congr_left fun s hs => ?_
    obtain ⟨v, ev, hv⟩ := hb s hs
    simp only [Function.comp]
    rw [ev, rowVal_ok, hv]
  rw [e2]
  unfold passes2D
  rw [flatMap_sum]
  congr 1
  refine List.map_congr_left fun i hi => ?_
  rw [List.mem_range] at hi
  rw [flatMap_sum, ← hvr i hi]
  by_cases hp : inWindow (A.norm + A.r0 + A.vr i * A.inv) A.count = true
  · rw [if_pos hp]
    have e3 : ∀ k ∈ List.range nSide, ((if pass2D t A B i k = true then (List.range nOct).map fun j => (i, k, j) else []).map fun s : ℕ × ℕ × ℕ =>
        rowShape nt (fun q => A.freq (s.2.2 * nPts nt + q) + (A.norm + A.r0 + A.vr s.1 * A.inv))
        (fun q => A.amp (s.1 * (nOct * nPts nt) + s.2.2 * nPts nt + q) *
              B.amp (s.2.1 * (nOct * nPts nt) + s.2.2 * nPts nt + q)) A.count r).sum
        = ((List.range nOct).map fun j => rowShape nt (fun q => A.freq (j * nPts nt + q) + (A.norm + A.r0 + A.vr i * A.inv))
        (fun q => A.amp (i * (nOct * nPts nt) + j * nPts nt + q) *
              B.amp (k * (nOct * nPts nt) + j * nPts nt + q)) A.count r).sum := by
      intro k hk
      rw [List.mem_range] at hk
      rcases h2 i hi k hk hp with ⟨hn, hz⟩ | ⟨hy, -⟩
      · rw [if_neg (by unfold pass2D; rw [hn]; simp), List.map_nil, List.sum_nil]
        symm
        apply List.sum_eq_zero
        intro x hx
        obtain ⟨j, hj, rfl⟩ := List.mem_map.mp hx
        apply rowShape_zero
        intro q hq
        rw [add_assoc (k * _), hz _ (index_lt nOct _ j q (List.mem_range.mp hj) hq), mul_zero]
      · rw [if_pos (by unfold pass2D; rw [ho, hp, hy]; rfl), List.map_map]
        rfl
    rw [List.map_congr_left e3, sum_swap]
    congr 1
    refine List.map_congr_left fun j hj => ?_
    rw [sum_range_list, rowShape_sum nt _ nSide (fun k q => A.amp (i * (nOct * nPts nt) + j * nPts nt + q) *
              B.amp (k * (nOct * nPts nt) + j * nPts nt + q))]
    apply rowShape_congr
    intro q hq
    have := hamp i hi _ (index_lt nOct _ j q (List.mem_range.mp hj) hq)
    simp only [add_assoc] at this ⊢
    rw [← Finset.mul_sum, this]
  · rw [if_neg hp]
    apply List.sum_eq_zero
    intro x hx
    obtain ⟨k, _, rfl⟩ := List.mem_map.mp hx
    rw [if_neg (by
      unfold pass2D
      rw [ho, Bool.and_eq_true]
      exact fun h => hp h.1)]
    rfl

/-! ## Where the code disagrees -/

/-- The second dimension of the counterexamples: one line in the middle of eight points. -/
def middleAxis : Axis ℚ := ⟨0, 1, 4, 8, fun _ => 0, fun _ => 0, fun _ => 1⟩

/-- The unit matrix, as `two_dimensional_averaging` gets it. -/
def unitMatrix : ℕ → ℚ := fun i => if i = 0 ∨ i = 3 then 1 else 0

/-- **C107, where the code disagrees (narrow triangles).** A broad line of which one triangle of the grid has one frequency, 2.9 bins from the start, with
amplitude three. In two dimensions it is divided between the two bins next to it, as a sharp line would be; in one dimension, where only the line as a whole is
tested for being sharp, all of it is put in the bin in which it lies (interpolation.c:100-104). -/
theorem C107_counterexample_narrow :
    let A : Axis ℚ := ⟨0, 1, 29 / 10, 8, fun _ => 0, fun q => if q = 0 then 1 else 0, fun _ => 1⟩
    ((averaging2D unitMatrix A middleAxis 2 1 1).map fun w => (List.range 8).map fun (i : ℕ) => Spec.rowSum 8 (i : ℤ) w)
      = .ok [0, 0, 597 / 100, 603 / 100, 0, 0, 0, 0] ∧
    ((averaging1D 2 1 [0] A.inv A.norm A.r0 A.freq A.amp 8).map fun w => (List.range 8).map fun (i : ℕ) => at_ (i : ℤ) w)
      = .ok [0, 0, 957 / 100, 243 / 100, 0, 0, 0, 0] := by
  refine ⟨?_, ?_⟩ <;> decide +kernel

/-- **C107, where the code disagrees (the edge).** A triangle whose frequencies lie -1.5, 0.5 and 2.5 bins from the start of the first axis: in one dimension
the part on the axis is drawn, in two dimensions the result depends on a variable that is not set (C68). -/
theorem C107_counterexample_edge :
    let A : Axis ℚ := ⟨0, 1, 1 / 2, 8, fun _ => 0, fun q => if q = 0 then -2 else if q = 1 then 0 else 2, fun _ => 1⟩
    averaging2D unitMatrix A middleAxis 1 1 1 = .error .undefinedBehaviour ∧
    ((averaging1D 1 1 [0] A.inv A.norm A.r0 A.freq A.amp 8).map fun w => (List.range 8).map fun (i : ℕ) => at_ (i : ℤ) w)
      = .ok [21 / 32, 3 / 4, 3 / 32, 0, 0, 0, 0, 0] := by
  refine ⟨?_, ?_⟩ <;> decide +kernel

end MRS.Bin
