import Verif.Bin.Props
import Mathlib.Data.List.Nodup

/-!
# Octant grid: the averaging loops — property C38

Four routines walk over the triangles of an octant with the same pointer-stepping loop:
`octahedronInterpolation` (interpolation.c:670-701), `octahedronDeltaInterpolation`
(interpolation.c:641-668), `octahedronInterpolation2D` (interpolation.c:703-738) and
`get_total_amplitude` (octahedron.c:161-182).
-/

namespace MRS.Bin

set_option linter.unusedSectionVars false

variable {K : Type} [Field K] [LinearOrder K] [IsStrictOrderedRing K] [FloorRing K]

/-- `n_pts` (interpolation.c:672 and the like). -/
def nPts (nt : Nat) : Nat := (nt + 1) * (nt + 2) / 2

/-- The loop shared by the four routines, interpolation.c:682-700. `up i j` is what the
body does for the triangle `(i, i+1, nt+1+j)`, `down i j` for the triangle
`(i+1, nt+1+j, nt+1+j+1)`. The strides `int_i_stride`, `int_j_stride` equal `i * stride`
and `j * stride` throughout and `stride` is 1 in every call (frequency_averaging.c:72,
87, 218), so they are left out. -/
def octLoop {β : Type} (up down : Nat → Nat → List β) (nt : Nat) (i j : Nat) (localIndex : Int) :
    List β :=
  if i < nPts nt - 1 then
    up i j ++
      (if (i : Int) < localIndex then down i j ++ octLoop up down nt (i + 1) (j + 1) localIndex
       else octLoop up down nt (i + 2) (j + 1) ((j : Int) + nt))
  else []
termination_by nPts nt - 1 - i

/-- Index triples of the triangles visited. -/
def visited (nt : Nat) : List (Nat × Nat × Nat) :=
  octLoop (fun i j => [(i, i + 1, nt + 1 + j)]) (fun i j => [(i + 1, nt + 1 + j, nt + 1 + j + 1)])
    nt 0 0 ((nt : Int) - 1)

/-- octahedron.c:161-182 `get_total_amplitude`. -/
def totalAmplitude (nt : Nat) (amp : Nat → K) : K :=
  (octLoop (fun i j => [(amp (i + 1) + amp (nt + 1 + j)) + amp i])
    (fun i j => [(amp (i + 1) + amp (nt + 1 + j)) + amp (nt + 1 + j + 1)])
    nt 0 0 ((nt : Int) - 1)).foldl (· + ·) 0

/-- interpolation.c:641-668 `octahedronDeltaInterpolation`. -/
def octDelta (nt : Nat) (freq : K) (amp : Nat → K) (nSpec : Int) : Writes K :=
  let amp1 := (octLoop (fun i j => [(amp (i + 1) + amp (nt + 1 + j)) + amp i])
    (fun i j => [(amp (i + 1) + amp (nt + 1 + j)) + amp (nt + 1 + j + 1)])
    nt 0 0 ((nt : Int) - 1)).foldl (· + ·) 0
  deltaFn freq nSpec amp1

/-- Running the binning calls of a loop one after another. -/
def runCalls : List (Py (Writes K)) → Py (Writes K)
  | [] => .ok []
  | .error e :: _ => .error e
  | .ok w :: l => match runCalls l with
    | .error e => .error e
    | .ok v => .ok (w ++ v)

/-- interpolation.c:670-701 `octahedronInterpolation`. -/
def octInterp (nt : Nat) (freq amp : Nat → K) (m : Int) : Py (Writes K) :=
  runCalls (octLoop
    (fun i j => [triangle (freq i) (freq (i + 1)) (freq (nt + 1 + j))
      ((amp (i + 1) + amp (nt + 1 + j)) + amp i) m])
    (fun i j => [triangle (freq (i + 1)) (freq (nt + 1 + j)) (freq (nt + 1 + j + 1))
      ((amp (i + 1) + amp (nt + 1 + j)) + amp (nt + 1 + j + 1)) m])
    nt 0 0 ((nt : Int) - 1))

/-! ## Specification -/

/-- The grid points of an octant: row `r` (the z coordinate) has `nt - r + 1` points.
`c` counts the points of a row (the y coordinate). -/
def Spec.grid (nt : Nat) : List (Nat × Nat) :=
  (List.range (nt + 1)).flatMap fun r => (List.range (nt + 1 - r)).map fun c => (r, c)

/-- The triangles of the grid: between row `r` and row `r + 1` there are `nt - r` triangles
pointing to row `r + 1` and `nt - r - 1` pointing to row `r`. -/
def Spec.IsTriangle (nt : Nat) (t : (Nat × Nat) × (Nat × Nat) × (Nat × Nat)) : Prop :=
  ∃ r c, (r + c < nt ∧ t = ((r, c), (r, c + 1), (r + 1, c))) ∨
    (r + c + 1 < nt ∧ t = ((r, c + 1), (r + 1, c), (r + 1, c + 1)))

/-! ## Proof -/

/-- Index of the first point of row `r`. -/
def start (nt : Nat) : Nat → Nat
  | 0 => 0
  | r + 1 => start nt r + (nt + 1 - r)

theorem start_two (nt r : Nat) (h : r ≤ nt + 1) : 2 * start nt r + r * r = r * (2 * nt + 3) := by
  induction r with
  | zero => simp [start]
  | succ r ih =>
    have := ih (by omega)
    obtain ⟨d, hd⟩ : ∃ d, nt + 1 = r + d := ⟨nt + 1 - r, by omega⟩
    have h1 : nt + 1 - r = d := by omega
    rw [start, h1]
    have hn : 2 * nt + 3 = 2 * r + 2 * d + 1 := by omega
    rw [hn] at this ⊢
    nlinarith

theorem start_nPts (nt : Nat) : start nt (nt + 1) = nPts nt := by
  have h := start_two nt (nt + 1) le_rfl
  unfold nPts
  have : (nt + 1) * (nt + 2) = 2 * start nt (nt + 1) := by nlinarith
  rw [this]
  omega

theorem start_last (nt : Nat) : start nt nt = nPts nt - 1 := by
  have := start_nPts nt
  rw [start] at this
  omega

theorem start_mono (nt : Nat) {r s : Nat} (h : r ≤ s) : start nt r ≤ start nt s := by
  induction h with
  | refl => exact le_refl _
  | step _ ih => rw [start]; omega

/-- One row of the loop. -/
theorem octLoop_row {β : Type} (up down : Nat → Nat → List β) (nt r : Nat) (hr : r < nt) (d : Nat) :
    ∀ c, c + d + 1 = nt - r →
    octLoop up down nt (start nt r + c) (start nt (r + 1) - (nt + 1) + c)
        (start nt r + (nt - r) - 1 : Int) =
      ((List.range' c d).flatMap fun k =>
        up (start nt r + k) (start nt (r + 1) - (nt + 1) + k) ++
        down (start nt r + k) (start nt (r + 1) - (nt + 1) + k)) ++
      up (start nt r + (nt - r - 1)) (start nt (r + 1) - (nt + 1) + (nt - r - 1)) ++
      octLoop up down nt (start nt (r + 1)) (start nt (r + 2) - (nt + 1))
        (start nt (r + 1) + (nt - (r + 1 : Nat)) - 1 : Int) := by
  have hs1 : start nt (r + 1) = start nt r + (nt + 1 - r) := rfl
  have hs2 : start nt (r + 2) = start nt (r + 1) + (nt + 1 - (r + 1)) := rfl
  have hb : start nt (r + 1) ≤ nPts nt - 1 := by
    rw [← start_last]; exact start_mono nt (by omega)
  have hn : nt + 1 ≤ start nt (r + 1) := by
    have : start nt 1 ≤ start nt (r + 1) := start_mono nt (by omega)
    have h1 : start nt 1 = nt + 1 := by rw [start, start]; omega
    omega
  induction d with
  | zero =>
    intro c hc
    rw [octLoop, if_pos (by omega), if_neg (by omega)]
    have : c = nt - r - 1 := by omega
    subst this
    simp only [List.range'_zero, List.flatMap_nil, List.nil_append]
    congr 1
    congr 1 <;> omega
  | succ d ih =>
    intro c hc
    rw [octLoop, if_pos (by omega), if_pos (by omega), List.range'_succ, List.flatMap_cons]
    have := ih (c + 1) (by omega)
    rw [show start nt r + c + 1 = start nt r + (c + 1) by omega,
      show start nt (r + 1) - (nt + 1) + c + 1 = start nt (r + 1) - (nt + 1) + (c + 1) by omega, this]
    simp only [List.append_assoc]

/-- The whole loop, row by row. -/
theorem octLoop_eq {β : Type} (up down : Nat → Nat → List β) (nt : Nat) (n : Nat) :
    ∀ r, r + n = nt →
    octLoop up down nt (start nt r) (start nt (r + 1) - (nt + 1)) (start nt r + (nt - r) - 1 : Int) =
      (List.range' r n).flatMap fun r =>
        ((List.range (nt - r - 1)).flatMap fun k =>
          up (start nt r + k) (start nt (r + 1) - (nt + 1) + k) ++
          down (start nt r + k) (start nt (r + 1) - (nt + 1) + k)) ++
        up (start nt r + (nt - r - 1)) (start nt (r + 1) - (nt + 1) + (nt - r - 1)) := by
  induction n with
  | zero =>
    intro r hr
    have : r = nt := by omega
    subst this
    rw [octLoop, if_neg (by rw [start_last]; omega)]
    simp
  | succ n ih =>
    intro r hr
    have := octLoop_row up down nt r (by omega) (nt - r - 1) 0 (by omega)
    rw [Nat.add_zero, Nat.add_zero] at this
    rw [this, ih (r + 1) (by omega), List.range'_succ, List.flatMap_cons, List.range_eq_range']

/-- Index of the grid point `(r, c)`. -/
def rank (nt : Nat) (p : Nat × Nat) : Nat := start nt p.1 + p.2

/-- The triangles in the order visited. -/
def triList (nt : Nat) : List ((Nat × Nat) × (Nat × Nat) × (Nat × Nat)) :=
  (List.range nt).flatMap fun r =>
    ((List.range (nt - r - 1)).flatMap fun c =>
      [((r, c), (r, c + 1), (r + 1, c)), ((r, c + 1), (r + 1, c), (r + 1, c + 1))]) ++
    [((r, nt - r - 1), (r, nt - r), (r + 1, nt - r - 1))]

/-- Any body that only depends on the three vertices: the loop runs it over `triList`. -/
theorem octLoop_triList {β : Type} (f : Nat × Nat × Nat → List β) (nt : Nat) :
    octLoop (fun i j => f (i, i + 1, nt + 1 + j)) (fun i j => f (i + 1, nt + 1 + j, nt + 1 + j + 1))
      nt 0 0 ((nt : Int) - 1) =
    (triList nt).flatMap fun t => f (rank nt t.1, rank nt t.2.1, rank nt t.2.2) := by
  have h := octLoop_eq (fun i j => f (i, i + 1, nt + 1 + j))
    (fun i j => f (i + 1, nt + 1 + j, nt + 1 + j + 1)) nt nt 0 (by omega)
  have hs1 : start nt (0 + 1) - (nt + 1) = 0 := by simp [start]
  have hs0 : start nt 0 = 0 := rfl
  rw [hs1, hs0] at h
  have hl : ((nt : Int) - 1) = ((0 : Nat) + (nt - (0 : Nat)) - 1 : Int) := by omega
  rw [hl, h, triList, List.range_eq_range', List.flatMap_assoc]
  apply List.flatMap_congr
  intro r hr
  have hr : r < nt := by simpa using hr
  have hn : nt + 1 ≤ start nt (r + 1) := by
    have : start nt 1 ≤ start nt (r + 1) := start_mono nt (by omega)
    have h1 : start nt 1 = nt + 1 := by rw [start, start]; omega
    omega
  rw [List.flatMap_append, List.flatMap_assoc]
  congr 1
  · apply List.flatMap_congr
    intro c hc
    have hc : c < nt - r - 1 := by simpa using hc
    simp only [List.flatMap_cons, List.flatMap_nil, List.append_nil, rank]
    rw [show nt + 1 + (start nt (r + 1) - (nt + 1) + c) = start nt (r + 1) + c by omega]
    rfl
  · simp only [List.flatMap_cons, List.flatMap_nil, List.append_nil, rank]
    rw [show nt + 1 + (start nt (r + 1) - (nt + 1) + (nt - r - 1)) = start nt (r + 1) + (nt - r - 1)
      by omega, show start nt r + (nt - r - 1) + 1 = start nt r + (nt - r) by omega]

theorem grid_prefix (nt n : Nat) (h : n ≤ nt + 1) :
    ((List.range n).flatMap fun r => (List.range (nt + 1 - r)).map fun c => (r, c)).length
      = start nt n := by
  induction n with
  | zero => rfl
  | succ n ih =>
    rw [List.range_succ, List.flatMap_append, List.length_append, ih (by omega), start]
    simp

theorem grid_length (nt : Nat) : (Spec.grid nt).length = nPts nt := by
  unfold Spec.grid
  rw [grid_prefix nt (nt + 1) le_rfl, start_nPts]

theorem grid_get (nt r c : Nat) (h : r + c ≤ nt) : (Spec.grid nt)[rank nt (r, c)]? = some (r, c) := by
  unfold Spec.grid rank
  obtain ⟨d, hd⟩ : ∃ d, nt + 1 = r + (d + 1) := ⟨nt - r, by omega⟩
  have hl := grid_prefix nt r (by omega)
  rw [show List.range (nt + 1) = List.range (r + (d + 1)) by rw [hd], List.range_add,
    List.flatMap_append, List.getElem?_append_right (by rw [hl]; dsimp only; omega), hl]
  dsimp only
  rw [Nat.add_sub_cancel_left, List.range_succ_eq_map, List.map_cons, List.flatMap_cons,
    List.getElem?_append_left (by simp; omega)]
  rw [Nat.add_zero, List.getElem?_map, List.getElem?_range (by omega)]
  rfl

theorem mem_triList (nt : Nat) (t) : t ∈ triList nt ↔ Spec.IsTriangle nt t := by
  unfold triList Spec.IsTriangle
  simp only [List.mem_flatMap, List.mem_append, List.mem_cons, List.not_mem_nil, or_false,
    List.mem_range]
  constructor
  · rintro ⟨r, hr, ⟨c, hc, rfl | rfl⟩ | rfl⟩
    · exact ⟨r, c, Or.inl ⟨by omega, rfl⟩⟩
    · exact ⟨r, c, Or.inr ⟨by omega, rfl⟩⟩
    · refine ⟨r, nt - r - 1, Or.inl ⟨by omega, ?_⟩⟩
      rw [show nt - r = nt - r - 1 + 1 by omega]
      rfl
  · rintro ⟨r, c, ⟨h, rfl⟩ | ⟨h, rfl⟩⟩
    · refine ⟨r, by omega, ?_⟩
      by_cases hc : c < nt - r - 1
      · exact Or.inl ⟨c, hc, Or.inl rfl⟩
      · right
        have : c = nt - r - 1 := by omega
        subst this
        rw [show nt - r = nt - r - 1 + 1 by omega]
        rfl
    · exact ⟨r, by omega, Or.inl ⟨c, by omega, Or.inr rfl⟩⟩

theorem triList_nodup (nt : Nat) : (triList nt).Nodup := by
  unfold triList
  rw [List.nodup_flatMap]
  refine ⟨?_, ?_⟩
  · intro r hr
    have hr : r < nt := by simpa using hr
    rw [List.nodup_append]
    refine ⟨?_, by simp, ?_⟩
    · rw [List.nodup_flatMap]
      refine ⟨by intro c _; simp, ?_⟩
      refine List.Pairwise.imp ?_ (List.nodup_range (n := nt - r - 1))
      intro c c' hcc
      simp only [Function.onFun, List.disjoint_left, List.mem_cons, List.not_mem_nil, or_false]
      rintro t (rfl | rfl) h
      · simp only [Prod.mk.injEq] at h; omega
      · simp only [Prod.mk.injEq] at h; omega
    · intro t ht t' ht' he
      subst he
      simp only [List.mem_flatMap, List.mem_range, List.mem_cons, List.not_mem_nil, or_false] at ht ht'
      obtain ⟨c, hc, rfl | rfl⟩ := ht
      · simp only [Prod.mk.injEq] at ht'; omega
      · simp only [Prod.mk.injEq] at ht'; omega
  · refine List.Pairwise.imp ?_ (List.nodup_range (n := nt))
    intro r r' hrr
    simp only [Function.onFun, List.disjoint_left, List.mem_append, List.mem_flatMap, List.mem_cons,
      List.not_mem_nil, or_false]
    rintro t (⟨c, hc, rfl | rfl⟩ | rfl) (⟨c', hc', h | h⟩ | h) <;>
      simp only [Prod.mk.injEq] at h <;> omega

theorem triList_length (nt : Nat) : (triList nt).length = nt * nt := by
  unfold triList
  have hrow : ∀ r, r < nt → (((List.range (nt - r - 1)).flatMap fun c =>
      [((r, c), (r, c + 1), (r + 1, c)), ((r, c + 1), (r + 1, c), (r + 1, c + 1))]) ++
    [((r, nt - r - 1), (r, nt - r), (r + 1, nt - r - 1))]).length + 2 * r + 1 = 2 * nt := by
    intro r hr
    rw [List.length_append, List.length_flatMap]
    simp
    omega
  have : ∀ n, n ≤ nt → ((List.range n).flatMap fun r =>
      ((List.range (nt - r - 1)).flatMap fun c =>
        [((r, c), (r, c + 1), (r + 1, c)), ((r, c + 1), (r + 1, c), (r + 1, c + 1))]) ++
      [((r, nt - r - 1), (r, nt - r), (r + 1, nt - r - 1))]).length + n * n = 2 * nt * n := by
    intro n
    induction n with
    | zero => intro _; simp
    | succ n ih =>
      intro hn
      have h1 := ih (by omega)
      have h2 := hrow n (by omega)
      rw [List.range_succ, List.flatMap_append, List.length_append, List.flatMap_cons,
        List.flatMap_nil, List.append_nil]
      nlinarith
  have := this nt le_rfl
  nlinarith

theorem tri_bounds (nt : Nat) (t) (h : t ∈ triList nt) :
    t.1.1 + t.1.2 ≤ nt ∧ t.2.1.1 + t.2.1.2 ≤ nt ∧ t.2.2.1 + t.2.2.2 ≤ nt := by
  obtain ⟨r, c, ⟨h, rfl⟩ | ⟨h, rfl⟩⟩ := (mem_triList nt t).mp h
  · exact ⟨by dsimp only; omega, by dsimp only; omega, by dsimp only; omega⟩
  · exact ⟨by dsimp only; omega, by dsimp only; omega, by dsimp only; omega⟩

/-! ## C38 -/

/-- **C38 (triangles).** For every integration density: reading the visited index triples
as points of the grid (which has `n_pts` points), the loop visits exactly the triangles
of the grid, each once, `nt^2` in total, and never leaves the grid. -/
theorem C38_triangles (nt : Nat) :
    (Spec.grid nt).length = (nt + 1) * (nt + 2) / 2 ∧
    ∃ l : List ((Nat × Nat) × (Nat × Nat) × (Nat × Nat)),
      l.Nodup ∧ (∀ t, t ∈ l ↔ Spec.IsTriangle nt t) ∧ l.length = nt ^ 2 ∧
      ((visited nt).map fun t => ((Spec.grid nt)[t.1]?, (Spec.grid nt)[t.2.1]?, (Spec.grid nt)[t.2.2]?)) =
        l.map fun t => (some t.1, some t.2.1, some t.2.2) := by
  refine ⟨grid_length nt, triList nt, triList_nodup nt, mem_triList nt, ?_, ?_⟩
  · rw [triList_length]; ring
  · unfold visited
    rw [octLoop_triList (fun t => [t]) nt, List.map_flatMap]
    simp only [List.map_cons, List.map_nil]
    rw [← List.map_eq_flatMap]
    apply List.map_congr_left
    intro t ht
    obtain ⟨h1, h2, h3⟩ := tri_bounds nt t ht
    rw [grid_get nt _ _ h1, grid_get nt _ _ h2, grid_get nt _ _ h3]

example : visited 2 = [(0, 1, 3), (1, 3, 4), (1, 2, 4), (3, 4, 5)] := by
  unfold visited
  simp [octLoop, nPts]

theorem foldl_add (l : List K) (x : K) : l.foldl (· + ·) x = x + l.sum := by
  induction l generalizing x with
  | nil => simp
  | cons a l ih => rw [List.foldl_cons, ih, List.sum_cons]; ring

theorem totalAmplitude_triList (nt : Nat) (amp : Nat → K) :
    totalAmplitude nt amp =
      ((triList nt).map fun t => amp (rank nt t.1) + amp (rank nt t.2.1) + amp (rank nt t.2.2)).sum := by
  unfold totalAmplitude
  rw [foldl_add, zero_add]
  have hf : octLoop (fun i j => [(amp (i + 1) + amp (nt + 1 + j)) + amp i])
      (fun i j => [(amp (i + 1) + amp (nt + 1 + j)) + amp (nt + 1 + j + 1)]) nt 0 0 ((nt : Int) - 1) =
    octLoop (fun i j => (fun t : Nat × Nat × Nat => [amp t.1 + amp t.2.1 + amp t.2.2]) (i, i + 1, nt + 1 + j))
      (fun i j => (fun t : Nat × Nat × Nat => [amp t.1 + amp t.2.1 + amp t.2.2])
        (i + 1, nt + 1 + j, nt + 1 + j + 1)) nt 0 0 ((nt : Int) - 1) := by
    congr 1
    funext i j
    simp only [List.cons.injEq, and_true]
    ring
  rw [hf, octLoop_triList (fun t : Nat × Nat × Nat => [amp t.1 + amp t.2.1 + amp t.2.2]),
    ← List.map_eq_flatMap]

/-- **C38 (total amplitude).** `g` gives the weight of a grid point; the array `amp` holds
the weights in grid order. The total amplitude is the sum, over the triangles of the grid
(in any enumeration without repetition), of the weights of the three vertices. -/
theorem C38_total_amplitude (nt : Nat) (g : Nat × Nat → K) (amp : Nat → K)
    (hamp : ∀ i p, (Spec.grid nt)[i]? = some p → amp i = g p)
    (l : List ((Nat × Nat) × (Nat × Nat) × (Nat × Nat))) (hl : l.Nodup)
    (hm : ∀ t, t ∈ l ↔ Spec.IsTriangle nt t) :
    totalAmplitude nt amp = (l.map fun t => g t.1 + g t.2.1 + g t.2.2).sum := by
  have hperm : (triList nt).Perm l := by
    rw [List.perm_ext_iff_of_nodup (triList_nodup nt) hl]
    intro t
    rw [mem_triList, hm]
  rw [totalAmplitude_triList, ← (hperm.map _).sum_eq]
  congr 1
  apply List.map_congr_left
  intro t ht
  obtain ⟨h1, h2, h3⟩ := tri_bounds nt t ht
  rw [hamp _ _ (grid_get nt _ _ h1), hamp _ _ (grid_get nt _ _ h2), hamp _ _ (grid_get nt _ _ h3)]

/-- Density 2, weights 1, 2, .. 6: four triangles. -/
example : totalAmplitude (K := ℚ) 2 (fun i => i + 1) = (1+2+4) + (2+4+5) + (2+3+5) + (4+5+6) := by
  unfold totalAmplitude
  simp [octLoop, nPts]
  norm_num

theorem sum_map_add (l : List Nat) (f g : Nat → K) :
    (l.map fun k => f k + g k).sum = (l.map f).sum + (l.map g).sum := by
  induction l with
  | nil => simp
  | cons k l ih => simp only [List.map_cons, List.sum_cons, ih]; ring

/-- **C38 (intensity).** If all frequencies of the octant lie inside the spectrum, the
spectrum gains exactly the total amplitude. -/
theorem C38_intensity (nt : Nat) (freq amp : Nat → K) (m : Nat) (spec : Int → K)
    (hf : ∀ i, i < (nt + 1) * (nt + 2) / 2 → 0 ≤ freq i ∧ freq i < m) :
    ∃ w, octInterp nt freq amp m = .ok w ∧
      ((List.range m).map fun (k : Nat) => applyWrites spec w k - spec k).sum =
        totalAmplitude nt amp := by
  unfold octInterp
  have hE : octLoop
    (fun i j => [triangle (freq i) (freq (i + 1)) (freq (nt + 1 + j))
      ((amp (i + 1) + amp (nt + 1 + j)) + amp i) (m : Int)])
    (fun i j => [triangle (freq (i + 1)) (freq (nt + 1 + j)) (freq (nt + 1 + j + 1))
      ((amp (i + 1) + amp (nt + 1 + j)) + amp (nt + 1 + j + 1)) (m : Int)])
    nt 0 0 ((nt : Int) - 1) =
    octLoop (fun i j => (fun t : Nat × Nat × Nat => [triangle (freq t.1) (freq t.2.1) (freq t.2.2)
        (amp t.1 + amp t.2.1 + amp t.2.2) (m : Int)]) (i, i + 1, nt + 1 + j))
      (fun i j => (fun t : Nat × Nat × Nat => [triangle (freq t.1) (freq t.2.1) (freq t.2.2)
        (amp t.1 + amp t.2.1 + amp t.2.2) (m : Int)])
        (i + 1, nt + 1 + j, nt + 1 + j + 1)) nt 0 0 ((nt : Int) - 1) := by
    congr 1
    funext i j
    simp only
    rw [show amp (i + 1) + amp (nt + 1 + j) + amp i = amp i + amp (i + 1) + amp (nt + 1 + j) by ring]
  rw [hE, octLoop_triList (fun t : Nat × Nat × Nat => [triangle (freq t.1) (freq t.2.1) (freq t.2.2)
        (amp t.1 + amp t.2.1 + amp t.2.2) (m : Int)]), ← List.map_eq_flatMap, totalAmplitude_triList]
  have hb : ∀ t ∈ triList nt, ∀ p, p = t.1 ∨ p = t.2.1 ∨ p = t.2.2 → 0 ≤ freq (rank nt p) ∧ freq (rank nt p) < m := by
    intro t ht p hp
    obtain ⟨h1, h2, h3⟩ := tri_bounds nt t ht
    have hple : p.1 + p.2 ≤ nt := by rcases hp with rfl | rfl | rfl <;> assumption
    apply hf
    have := grid_get nt p.1 p.2 hple
    have hlt := (List.getElem?_eq_some_iff.mp this).1
    rw [grid_length] at hlt
    exact hlt
  generalize triList nt = l at hb
  simp only [applyWrites_eq, add_sub_cancel_left]
  induction l with
  | nil => exact ⟨[], rfl, by simp⟩
  | cons t l ih =>
    obtain ⟨w2, e2, s2⟩ := ih (fun t' ht' => hb t' (by simp [ht']))
    obtain ⟨w1, e1, s1⟩ := C35_total (freq (rank nt t.1)) (freq (rank nt t.2.1)) (freq (rank nt t.2.2))
      (amp (rank nt t.1) + amp (rank nt t.2.1) + amp (rank nt t.2.2)) m spec
      (hb t (by simp) _ (Or.inl rfl)) (hb t (by simp) _ (Or.inr (Or.inl rfl)))
      (hb t (by simp) _ (Or.inr (Or.inr rfl)))
    refine ⟨w1 ++ w2, ?_, ?_⟩
    · rw [List.map_cons, e1, runCalls, e2]
    · simp only [applyWrites_eq, add_sub_cancel_left] at s1
      rw [List.map_cons, List.sum_cons, ← s1, ← s2, ← sum_map_add]
      congr 1
      apply List.map_congr_left
      intro k _
      rw [at_append]

/-- Hypotheses met with a real anisotropy. -/
example (spec : Int → ℚ) : ∃ w, octInterp (K := ℚ) 2 (fun i => i + 1/3) (fun i => i + 1) (6 : Nat) = .ok w ∧
    ((List.range 6).map fun (k : Nat) => applyWrites spec w k - spec k).sum =
      totalAmplitude 2 (fun i => (i : ℚ) + 1) := by
  apply C38_intensity
  intro i hi
  have hi : i < 6 := hi
  have h1 : (i : ℚ) ≤ 5 := by exact_mod_cast (by omega : i ≤ 5)
  have h0 : (0 : ℚ) ≤ i := by positivity
  constructor
  · positivity
  · push_cast; linarith

/-- **C38 (sharp line).** A sharp line of the whole octant, at least half a bin inside the
spectrum, deposits the same total. -/
theorem C38_delta (nt : Nat) (freq : K) (amp : Nat → K) (m : Int) (h0 : 1/2 ≤ freq)
    (h1 : freq ≤ m - 1/2) :
    ((octDelta nt freq amp m).map (·.2)).sum = totalAmplitude nt amp :=
  (C37_inside freq _ m h0 h1).1

example : (1/2 : ℚ) ≤ 7/3 ∧ (7/3 : ℚ) ≤ (5 : Int) - 1/2 := by norm_num

end MRS.Bin
