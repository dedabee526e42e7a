import Verif.Dist.Czjzek
import Mathlib.Algebra.Order.BigOperators.Group.Finset
import Mathlib.Algebra.BigOperators.Ring.Finset
import Mathlib.Algebra.BigOperators.Field

/-!
# Distribution models on a grid — property C93

Model of `AbstractDistribution.pdf` (src/mrsimulator/models/czjzek.py lines 71-103). The random
variates are a list of pairs, floats are the elements of an ordered field (rationals in the
examples, reals where the Haeberlen parameters of C49 are used). `np.histogram2d` and
`np.meshgrid` are modelled after the numpy reference.
-/

namespace MRS.Dist

variable {K : Type} [Field K] [LinearOrder K] [IsStrictOrderedRing K]

/-! ## The histogram -/

/-- `_get_outer_edges` of numpy, the limits of one axis of a histogram with a given range: a
descending range is an error, an empty one is widened. -/
def outerEdges (lo hi : K) : Py (K × K) :=
  if hi < lo then .error .valueError
  else if lo = hi then .ok (lo - 1 / 2, hi + 1 / 2)
  else .ok (lo, hi)

/-- `np.linspace(lo, hi, n + 1)`, the edge at index k (czjzek.py lines 72-103). -/
def edge (lo hi : K) (n k : ℕ) : K := lo + k * ((hi - lo) / n)

/-- The bin of a value in `np.histogramdd`: `np.searchsorted(edges, v, side="right")`, one less on
the last edge. Bins 1, ..., n are those between the edges, 0 and n + 1 are outside. -/
def slot (lo hi : K) (n : ℕ) (v : K) : ℕ :=
  let c := (List.range (n + 1)).countP fun k => decide (edge lo hi n k ≤ v)
  if v = edge lo hi n n then c - 1 else c

/-- The number of pairs in the cell (i, j) of `np.histogram2d` (the flattened `bincount`, without
its outer rows and columns, is this count). -/
def cellCount (lx hx ly hy : K) (nx ny : ℕ) (s : List (K × K)) (i j : ℕ) : ℕ :=
  s.countP fun p => decide (slot lx hx nx p.1 = i + 1) && decide (slot ly hy ny p.2 = j + 1)

/-- `hist.sum()` (czjzek.py lines 72-103). -/
def total (h : ℕ → ℕ → ℕ) (nx ny : ℕ) : ℕ :=
  ((List.range nx).map fun i => ((List.range ny).map fun j => h i j).sum).sum

/-- What `pdf` returns: the coordinates and the amplitudes; `none` is "not a number" (czjzek.py lines 72-103). -/
structure Pdf (K : Type) where
  x : List (List K)
  y : List (List K)
  amp : List (List (Option K))

/-- A division of floats that is not a number when dividing by zero (zero by zero, here) (czjzek.py lines 72-103). -/
def share (a b : ℕ) : Option K := if b = 0 then none else some ((a : K) / b)

/-- `AbstractDistribution.pdf` (czjzek.py lines 89-103), from the random variates drawn. -/
def pdf (px py : List K) (s : List (K × K)) : Py (Pdf K) := do
  let dz := ((← pyGet px 1) - (← pyGet px 0)) / 2
  let de := ((← pyGet py 1) - (← pyGet py 0)) / 2
  let (lx, hx) ← outerEdges ((← pyGet px 0) - dz) ((← pyGet px (-1)) + dz)
  let (ly, hy) ← outerEdges ((← pyGet py 0) - de) ((← pyGet py (-1)) + de)
  let nx := px.length
  let ny := py.length
  let h := cellCount lx hx ly hy nx ny s
  let t := total h nx ny
  return {
    x := py.map fun _ => px
    y := py.map fun b => px.map fun _ => b
    amp := (List.range ny).map fun j => (List.range nx).map fun i => share (h i j) t }

/-! ## Specification -/

/-- The coordinates a, a + h, ..., n of them, at least two, ascending. -/
structure Spec.Regular (l : List K) (a h : K) : Prop where
  pos : 0 < h
  two : 2 ≤ l.length
  at' : ∀ i, i < l.length → l[i]? = some (a + i * h)

/-- The value belongs to the coordinate with index i: it is nearer to it than to any other, or
half-way to the one before; the last one also has the value half a step above it. -/
def Spec.Belongs (a h : K) (n i : ℕ) (v : K) : Prop :=
  a + i * h - h / 2 ≤ v ∧ (v < a + i * h + h / 2 ∨ (i + 1 = n ∧ v = a + i * h + h / 2))

/-- The value is at most half a step outside the coordinates. -/
def Spec.Within (a h : K) (n : ℕ) (v : K) : Prop := a - h / 2 ≤ v ∧ v ≤ a + n * h - h / 2

instance (a h : K) (n i : ℕ) (v : K) : Decidable (Spec.Belongs a h n i v) := by
  unfold Spec.Belongs; infer_instance

instance (a h : K) (n : ℕ) (v : K) : Decidable (Spec.Within a h n v) := by
  unfold Spec.Within; infer_instance

/-- The pairs inside the grid, in both coordinates. -/
def Spec.inside (a h : K) (n : ℕ) (b k : K) (m : ℕ) (s : List (K × K)) : List (K × K) :=
  s.filter fun p => Spec.Within a h n p.1 ∧ Spec.Within b k m p.2

/-! ## Lemmas -/

/-- Counting an initial segment. -/
theorem count_initial (p : ℕ → Bool) (h : ∀ k, p (k + 1) = true → p k = true) (m k : ℕ)
    (hk : k < m) : p k = true ↔ k < (List.range m).countP p := by
  have below : ∀ j i, i ≤ j → p j = true → p i = true := by
    intro j
    induction j with
    | zero => intro i hi hp; obtain rfl : i = 0 := by omega
              exact hp
    | succ j ih =>
      intro i hi hp
      rcases Nat.lt_or_ge i (j + 1) with h1 | h1
      · exact ih i (by omega) (h j hp)
      · obtain rfl : i = j + 1 := by omega
        exact hp
  induction m with
  | zero => omega
  | succ m ih =>
    rw [List.range_succ, List.countP_append, List.countP_singleton]
    have hle : (List.range m).countP p ≤ m := by
      have := List.countP_le_length (p := p) (l := List.range m); simpa using this
    by_cases hm : p m = true
    · have hall : (List.range m).countP p = m := by
        have h1 : (List.range m).countP p = (List.range m).length := by
          rw [List.countP_eq_length]
          intro i hi
          exact below m i (by have := List.mem_range.mp hi; omega) hm
        simpa using h1
      rw [hall, if_pos hm]
      constructor
      · intro _; exact hk
      · intro _; exact below m k (by omega) hm
    · rw [if_neg hm]
      rcases Nat.lt_or_ge k m with h1 | h1
      · exact ih h1
      · obtain rfl : k = m := by omega
        constructor
        · intro hp; exact absurd hp hm
        · intro hp; omega

theorem slot_iff (lo hi : K) (n i : ℕ) (hlt : lo < hi) (hi' : i < n) (v : K) :
    slot lo hi n v = i + 1 ↔ edge lo hi n i ≤ v ∧
      (v < edge lo hi n (i + 1) ∨ (i + 1 = n ∧ v = edge lo hi n (i + 1))) := by
  have hn : (0 : K) < n := by exact_mod_cast (by omega : 0 < n)
  have hw : 0 < (hi - lo) / n := div_pos (sub_pos.mpr hlt) hn
  have hstep : ∀ k, edge lo hi n (k + 1) = edge lo hi n k + (hi - lo) / n := by
    intro k; unfold edge; push_cast; ring
  have hmono : ∀ k j, k ≤ j → edge lo hi n k ≤ edge lo hi n j := by
    intro k j hkj
    unfold edge
    have : (k : K) ≤ j := by exact_mod_cast hkj
    nlinarith
  let p : ℕ → Bool := fun k => decide (edge lo hi n k ≤ v)
  have hp : ∀ k, p k = true ↔ edge lo hi n k ≤ v := fun k => by simp [p]
  have hanti : ∀ k, p (k + 1) = true → p k = true := by
    intro k hk
    rw [hp] at hk ⊢
    rw [hstep] at hk; linarith
  have hc := count_initial p hanti (n + 1)
  have hle : (List.range (n + 1)).countP p ≤ n + 1 := by
    have := List.countP_le_length (p := p) (l := List.range (n + 1)); simpa using this
  have hslot : slot lo hi n v = if v = edge lo hi n n then (List.range (n + 1)).countP p - 1
      else (List.range (n + 1)).countP p := rfl
  rw [hslot]
  by_cases hv : v = edge lo hi n n
  · rw [if_pos hv]
    have h1 := (hc n (by omega)).mp ((hp n).mpr (le_of_eq hv.symm))
    have h2 : (List.range (n + 1)).countP p = n + 1 := by omega
    rw [h2]
    constructor
    · intro h3
      obtain rfl : i + 1 = n := by omega
      exact ⟨by rw [hv]; exact hmono _ _ (by omega), .inr ⟨rfl, hv⟩⟩
    · rintro ⟨_, h3 | ⟨h3, _⟩⟩
      · exact absurd (hmono (i + 1) n (by omega)) (not_le.mpr (hv ▸ h3))
      · omega
  · rw [if_neg hv]
    have hi1 := hc i (by omega)
    have hi2 := hc (i + 1) (by omega)
    rw [hp] at hi1 hi2
    constructor
    · intro h3
      refine ⟨hi1.mpr (by omega), .inl ?_⟩
      by_contra h4
      have := hi2.mp (not_lt.mp h4)
      omega
    · rintro ⟨h3, h4 | ⟨h4, h5⟩⟩
      · have a1 := hi1.mp h3
        have a2 : ¬ (i + 1 < (List.range (n + 1)).countP p) := fun h6 =>
          absurd (hi2.mpr h6) (not_le.mpr h4)
        omega
      · exact absurd (h4 ▸ h5) hv

theorem slot_inside (lo hi : K) (n : ℕ) (hlt : lo < hi) (hn0 : 0 < n) (v : K) :
    (1 ≤ slot lo hi n v ∧ slot lo hi n v ≤ n) ↔ lo ≤ v ∧ v ≤ hi := by
  have hn : (0 : K) < n := by exact_mod_cast hn0
  have hw : 0 < (hi - lo) / n := div_pos (sub_pos.mpr hlt) hn
  have e0 : edge lo hi n 0 = lo := by unfold edge; simp
  have en : edge lo hi n n = hi := by unfold edge; field_simp; ring
  have hstep : ∀ k, edge lo hi n (k + 1) = edge lo hi n k + (hi - lo) / n := by
    intro k; unfold edge; push_cast; ring
  let p : ℕ → Bool := fun k => decide (edge lo hi n k ≤ v)
  have hp : ∀ k, p k = true ↔ edge lo hi n k ≤ v := fun k => by simp [p]
  have hanti : ∀ k, p (k + 1) = true → p k = true := by
    intro k hk
    rw [hp] at hk ⊢
    rw [hstep] at hk; linarith
  have hc := count_initial p hanti (n + 1)
  have hle : (List.range (n + 1)).countP p ≤ n + 1 := by
    have := List.countP_le_length (p := p) (l := List.range (n + 1)); simpa using this
  have hslot : slot lo hi n v = if v = edge lo hi n n then (List.range (n + 1)).countP p - 1
      else (List.range (n + 1)).countP p := rfl
  have c0 := hc 0 (by omega)
  have cn := hc n (by omega)
  rw [hp, e0] at c0
  rw [hp, en] at cn
  rw [hslot, en]
  by_cases hv : v = hi
  · rw [if_pos hv]
    have := cn.mp (le_of_eq hv.symm)
    constructor
    · intro _; exact ⟨by rw [hv]; exact le_of_lt hlt, le_of_eq hv⟩
    · intro _; omega
  · rw [if_neg hv]
    constructor
    · rintro ⟨h1, h2⟩
      refine ⟨c0.mpr (by omega), ?_⟩
      by_contra h3
      have := cn.mp (le_of_lt (not_le.mp h3))
      omega
    · rintro ⟨h1, h2⟩
      refine ⟨by have := c0.mp h1; omega, ?_⟩
      by_contra h3
      have := cn.mpr (by omega)
      exact hv (le_antisymm h2 this)

theorem total_eq (h : ℕ → ℕ → ℕ) (nx ny : ℕ) :
    total h nx ny = ∑ i ∈ Finset.range nx, ∑ j ∈ Finset.range ny, h i j := rfl

omit [LinearOrder K] [IsStrictOrderedRing K] in
/-- A pair is counted in one cell, or in none. -/
theorem cells_single (f : ℕ → ℕ → K) (nx ny a b : ℕ) :
    (∑ i ∈ Finset.range nx, ∑ j ∈ Finset.range ny,
        (if a = i + 1 ∧ b = j + 1 then f i j else 0)) =
      if (1 ≤ a ∧ a ≤ nx) ∧ (1 ≤ b ∧ b ≤ ny) then f (a - 1) (b - 1) else 0 := by
  by_cases ha : 1 ≤ a ∧ a ≤ nx
  · rw [Finset.sum_eq_single (a - 1)]
    · by_cases hb : 1 ≤ b ∧ b ≤ ny
      · rw [Finset.sum_eq_single (b - 1), if_pos (by omega), if_pos ⟨ha, hb⟩]
        · intro j _ hj; rw [if_neg (by omega)]
        · intro hj; exact absurd (Finset.mem_range.mpr (by omega)) hj
      · rw [if_neg (by tauto)]
        refine Finset.sum_eq_zero fun j hj => ?_
        have := Finset.mem_range.mp hj
        rw [if_neg (by omega)]
    · intro i _ hi
      refine Finset.sum_eq_zero fun j _ => ?_
      rw [if_neg (by omega)]
    · intro hi; exact absurd (Finset.mem_range.mpr (by omega)) hi
  · rw [if_neg (by tauto)]
    refine Finset.sum_eq_zero fun i hi => Finset.sum_eq_zero fun j _ => ?_
    have := Finset.mem_range.mp hi
    rw [if_neg (by omega)]

/-- The sum over the cells of count times value is the sum over the pairs counted. -/
theorem cells_sum (lx hx ly hy : K) (nx ny : ℕ) (f : ℕ → ℕ → K) (s : List (K × K)) :
    (∑ i ∈ Finset.range nx, ∑ j ∈ Finset.range ny,
        (cellCount lx hx ly hy nx ny s i j : K) * f i j) =
      (s.map fun p => if (1 ≤ slot lx hx nx p.1 ∧ slot lx hx nx p.1 ≤ nx) ∧
        (1 ≤ slot ly hy ny p.2 ∧ slot ly hy ny p.2 ≤ ny) then
          f (slot lx hx nx p.1 - 1) (slot ly hy ny p.2 - 1) else 0).sum := by
  induction s with
  | nil => simp [cellCount]
  | cons p s ih =>
    rw [List.map_cons, List.sum_cons, ← ih, ← cells_single f nx ny, ← Finset.sum_add_distrib]
    refine Finset.sum_congr rfl fun i _ => ?_
    rw [← Finset.sum_add_distrib]
    refine Finset.sum_congr rfl fun j _ => ?_
    unfold cellCount
    rw [List.countP_cons]
    by_cases hc : slot lx hx nx p.1 = i + 1 ∧ slot ly hy ny p.2 = j + 1
    · rw [if_pos (by simpa using hc), if_pos hc]; push_cast; ring
    · rw [if_neg (by simpa using hc), if_neg hc]; push_cast; ring

theorem total_count (lx hx ly hy : K) (nx ny : ℕ) (hx' : lx < hx) (hy' : ly < hy) (hnx : 0 < nx)
    (hny : 0 < ny) (s : List (K × K)) :
    total (cellCount lx hx ly hy nx ny s) nx ny =
      (s.filter fun p => (lx ≤ p.1 ∧ p.1 ≤ hx) ∧ (ly ≤ p.2 ∧ p.2 ≤ hy)).length := by
  have h1 : (total (cellCount lx hx ly hy nx ny s) nx ny : K) =
      ((s.filter fun p => (lx ≤ p.1 ∧ p.1 ≤ hx) ∧ (ly ≤ p.2 ∧ p.2 ≤ hy)).length : K) := by
    have h2 := cells_sum lx hx ly hy nx ny (fun _ _ => 1) s
    rw [total_eq]
    push_cast
    simp only [mul_one] at h2
    rw [h2]
    clear h2
    induction s with
    | nil => simp
    | cons p s ih =>
      rw [List.map_cons, List.sum_cons, ih, List.filter_cons]
      simp only [slot_inside lx hx nx hx' hnx, slot_inside ly hy ny hy' hny]
      by_cases hc : (lx ≤ p.1 ∧ p.1 ≤ hx) ∧ (ly ≤ p.2 ∧ p.2 ≤ hy)
      · rw [if_pos hc, if_pos (by simpa using hc), List.length_cons]; push_cast; ring
      · rw [if_neg hc, if_neg (by simpa using hc)]; ring
  exact_mod_cast h1

/-- The edges of a regular grid are half-way between the coordinates. -/
theorem edge_regular (a h : K) (n k : ℕ) (hn : 0 < n) :
    edge (a - h / 2) (a + n * h - h / 2) n k = a + k * h - h / 2 := by
  have hn' : (n : K) ≠ 0 := by exact_mod_cast (by omega : n ≠ 0)
  unfold edge
  have : (a + n * h - h / 2 - (a - h / 2)) / (n : K) = h := by field_simp; ring
  rw [this]; ring

theorem slot_belongs (a h : K) (n i : ℕ) (hh : 0 < h) (hi : i < n) (v : K) :
    slot (a - h / 2) (a + n * h - h / 2) n v = i + 1 ↔ Spec.Belongs a h n i v := by
  have hn : (0 : K) < n := by exact_mod_cast (by omega : 0 < n)
  rw [slot_iff _ _ n i (by nlinarith) hi, edge_regular a h n i (by omega),
    edge_regular a h n (i + 1) (by omega)]
  unfold Spec.Belongs
  have e : a + ((i + 1 : ℕ) : K) * h - h / 2 = a + i * h + h / 2 := by push_cast; ring
  rw [e]

/-- The limits of the histogram of a regular grid. -/
theorem limits {l : List K} {a h : K} (r : Spec.Regular l a h) :
    pyGet l 0 = .ok a ∧ pyGet l 1 = .ok (a + h) ∧
    pyGet l (-1) = .ok (a + (l.length : K) * h - h) ∧
    a - h / 2 < a + l.length * h - h / 2 := by
  have h2 := r.two
  have hp := r.pos
  have hn : (0 : K) < l.length := by exact_mod_cast (by omega : 0 < l.length)
  have g : ∀ i : ℕ, ∀ z : ℤ, pyPos l.length z = some i → i < l.length →
      pyGet l z = .ok (a + i * h) := by
    intro i z hz hi
    unfold pyGet
    rw [hz]
    simp only
    rw [r.at' i hi]
  refine ⟨?_, ?_, ?_, by nlinarith⟩
  · rw [g 0 0 (by unfold pyPos; simp only [show ¬ ((0 : Int) < 0) from by norm_num, if_false]
                  rw [if_pos ⟨by norm_num, by omega⟩]; rfl) (by omega)]
    simp
  · rw [g 1 1 (by unfold pyPos; simp only [show ¬ ((1 : Int) < 0) from by norm_num, if_false]
                  rw [if_pos ⟨by norm_num, by omega⟩]; rfl) (by omega)]
    simp
  · rw [g (l.length - 1) (-1) ?_ (by omega)]
    · rw [Nat.cast_sub (by omega)]
      congr 1; push_cast; ring
    · unfold pyPos
      simp only [show (-1 : Int) < 0 from by norm_num, if_true]
      rw [if_pos ⟨by omega, by omega⟩]
      congr 1; omega

omit [IsStrictOrderedRing K] in
theorem outer_ok {lo hi : K} (h : lo < hi) : outerEdges lo hi = .ok (lo, hi) := by
  unfold outerEdges
  rw [if_neg (not_lt.mpr (le_of_lt h)), if_neg (ne_of_lt h)]

/-- What `pdf` computes on regular grids. -/
theorem pdf_regular {px py : List K} {a h b k : K} (rx : Spec.Regular px a h)
    (ry : Spec.Regular py b k) (s : List (K × K)) :
    pdf px py s = .ok {
      x := py.map fun _ => px
      y := py.map fun b => px.map fun _ => b
      amp := (List.range py.length).map fun j => (List.range px.length).map fun i =>
        share (cellCount (a - h / 2) (a + px.length * h - h / 2) (b - k / 2)
            (b + py.length * k - k / 2) px.length py.length s i j)
          (total (cellCount (a - h / 2) (a + px.length * h - h / 2) (b - k / 2)
            (b + py.length * k - k / 2) px.length py.length s) px.length py.length) } := by
  obtain ⟨x0, x1, xl, xlt⟩ := limits rx
  obtain ⟨y0, y1, yl, ylt⟩ := limits ry
  have ex : outerEdges (a - (a + h - a) / 2) (a + (px.length : K) * h - h + (a + h - a) / 2) =
      .ok (a - h / 2, a + px.length * h - h / 2) := by
    rw [← outer_ok xlt]; congr 1 <;> ring
  have ey : outerEdges (b - (b + k - b) / 2) (b + (py.length : K) * k - k + (b + k - b) / 2) =
      .ok (b - k / 2, b + py.length * k - k / 2) := by
    rw [← outer_ok ylt]; congr 1 <;> ring
  unfold pdf
  simp only [x0, x1, xl, y0, y1, yl, bind, Except.bind, ex, ey]
  rfl

omit [IsStrictOrderedRing K] in
theorem within_iff (a h : K) (n : ℕ) (v : K) :
    Spec.Within a h n v ↔ (a - h / 2 ≤ v ∧ v ≤ a + n * h - h / 2) := Iff.rfl

theorem total_regular {px py : List K} {a h b k : K} (rx : Spec.Regular px a h)
    (ry : Spec.Regular py b k) (s : List (K × K)) :
    total (cellCount (a - h / 2) (a + px.length * h - h / 2) (b - k / 2)
      (b + py.length * k - k / 2) px.length py.length s) px.length py.length =
      (Spec.inside a h px.length b k py.length s).length := by
  have h2 := rx.two
  have h3 := ry.two
  rw [total_count _ _ _ _ _ _ (limits rx).2.2.2 (limits ry).2.2.2 (by omega) (by omega)]
  rfl

/-! ## Theorems -/

/-- **C93, cells.** On regular grids, the amplitude next to the coordinates (x, y) is the number of
variates that belong to these coordinates, over the number of variates inside the grid; it is "not
a number" exactly when there is no variate inside the grid. -/
theorem C93_cells {px py : List K} {a h b k : K} (rx : Spec.Regular px a h)
    (ry : Spec.Regular py b k) (s : List (K × K)) :
    ∃ r, pdf px py s = .ok r ∧ r.amp.length = py.length ∧
      ∀ i j, i < px.length → j < py.length →
        (r.x[j]?.bind (·[i]?)) = px[i]? ∧ (r.y[j]?.bind (·[i]?)) = py[j]? ∧
        (r.amp[j]?.bind (·[i]?)) =
          some (if Spec.inside a h px.length b k py.length s = [] then none
            else some (((s.filter fun p => Spec.Belongs a h px.length i p.1 ∧
                Spec.Belongs b k py.length j p.2).length : K) /
              (Spec.inside a h px.length b k py.length s).length)) := by
  refine ⟨_, pdf_regular rx ry s, by simp, ?_⟩
  intro i j hi hj
  refine ⟨?_, ?_, ?_⟩
  · simp [hj]
  · simp [hi, hj]
  · rw [total_regular rx ry]
    simp only [List.getElem?_map, List.getElem?_range hj, Option.map_some, Option.bind_some,
      List.getElem?_range hi, Option.some.injEq]
    unfold share
    have hc : cellCount (a - h / 2) (a + px.length * h - h / 2) (b - k / 2)
        (b + py.length * k - k / 2) px.length py.length s i j =
        (s.filter fun p => Spec.Belongs a h px.length i p.1 ∧
          Spec.Belongs b k py.length j p.2).length := by
      unfold cellCount
      rw [List.countP_eq_length_filter]
      congr 1
      refine List.filter_congr fun p _ => ?_
      rw [Bool.eq_iff_iff]
      simp only [Bool.and_eq_true, decide_eq_true_eq]
      rw [slot_belongs a h _ i rx.pos hi, slot_belongs b k _ j ry.pos hj]
    rw [hc]
    simp only [List.length_eq_zero_iff]

/-- **C93, one coordinate each.** The variates inside a regular grid are exactly those that belong
to some coordinate, and none belongs to two; one that belongs to a coordinate is at most half a
step from it. -/
theorem C93_partition (a h : K) (n : ℕ) (hh : 0 < h) (hn : 0 < n) (v : K) :
    (Spec.Within a h n v ↔ ∃ i < n, Spec.Belongs a h n i v) ∧
    (∀ i < n, ∀ j < n, Spec.Belongs a h n i v → Spec.Belongs a h n j v → i = j) ∧
    ∀ i, Spec.Belongs a h n i v → |v - (a + i * h)| ≤ h / 2 := by
  have hn' : (0 : K) < n := by exact_mod_cast hn
  have hlt : a - h / 2 < a + n * h - h / 2 := by nlinarith
  refine ⟨?_, ?_, ?_⟩
  · rw [within_iff, ← slot_inside _ _ n hlt hn]
    constructor
    · intro h1
      refine ⟨slot (a - h / 2) (a + n * h - h / 2) n v - 1, by omega, ?_⟩
      rw [← slot_belongs a h n _ hh (by omega)]
      omega
    · rintro ⟨i, hi, h1⟩
      rw [← slot_belongs a h n i hh hi] at h1
      omega
  · intro i hi j hj h1 h2
    rw [← slot_belongs a h n i hh hi] at h1
    rw [← slot_belongs a h n j hh hj] at h2
    omega
  · rintro i ⟨h1, h2⟩
    rw [abs_le]
    rcases h2 with h2 | ⟨_, h2⟩ <;> constructor <;> linarith

/-- **C93, total.** On any two grids for which `pdf` does not fail, the amplitudes are either all
"not a number", or all non-negative with sum one. -/
theorem C93_total (px py : List K) (s : List (K × K)) (r : Pdf K) (hr : pdf px py s = .ok r) :
    (∀ row ∈ r.amp, ∀ v ∈ row, v = none) ∨
    ∃ A : ℕ → ℕ → K, (∀ i j, 0 ≤ A i j) ∧
      r.amp = ((List.range py.length).map fun j => (List.range px.length).map fun i =>
        some (A i j)) ∧
      ∑ i ∈ Finset.range px.length, ∑ j ∈ Finset.range py.length, A i j = 1 := by
  have key : ∃ h : ℕ → ℕ → ℕ, r.amp = (List.range py.length).map fun j =>
      (List.range px.length).map fun i => share (h i j) (total h px.length py.length) := by
    unfold pdf at hr
    simp only [bind, Except.bind] at hr
    repeat' split at hr
    all_goals first
      | cases hr; done
      | (injection hr with hr; exact ⟨_, by rw [← hr]⟩)
  obtain ⟨h, hamp⟩ := key
  by_cases ht : total h px.length py.length = 0
  · left
    intro row hrow v hv
    rw [hamp, List.mem_map] at hrow
    obtain ⟨j, _, rfl⟩ := hrow
    rw [List.mem_map] at hv
    obtain ⟨i, _, rfl⟩ := hv
    unfold share; rw [if_pos ht]
  · right
    refine ⟨fun i j => (h i j : K) / (total h px.length py.length : ℕ), ?_, ?_, ?_⟩
    · intro i j; positivity
    · rw [hamp]
      unfold share
      simp only [if_neg ht]
    · have hne : ((total h px.length py.length : ℕ) : K) ≠ 0 := by exact_mod_cast ht
      simp only [← Finset.sum_div]
      rw [div_eq_one_iff_eq hne, total_eq]
      push_cast; rfl

/-- The sum over the cells of count times coordinate, against the sum over the variates. -/
theorem moment_bound {a h b k : K} {n m : ℕ} (hh : 0 < h) (hk : 0 < k) (hn : 0 < n) (hm : 0 < m)
    (f : ℕ → ℕ → K) (g : K × K → K) (d : K)
    (hd : ∀ i j, ∀ p : K × K, Spec.Belongs a h n i p.1 → Spec.Belongs b k m j p.2 →
      |g p - f i j| ≤ d) (s : List (K × K)) :
    |(∑ i ∈ Finset.range n, ∑ j ∈ Finset.range m,
        (cellCount (a - h / 2) (a + n * h - h / 2) (b - k / 2) (b + m * k - k / 2) n m s i j : K) *
          f i j) - ((Spec.inside a h n b k m s).map g).sum| ≤
      (Spec.inside a h n b k m s).length * d := by
  have hn' : (0 : K) < n := by exact_mod_cast hn
  have hm' : (0 : K) < m := by exact_mod_cast hm
  have hlt : a - h / 2 < a + n * h - h / 2 := by nlinarith
  have hlt' : b - k / 2 < b + m * k - k / 2 := by nlinarith
  rw [cells_sum]
  simp only [slot_inside _ _ n hlt hn, slot_inside _ _ m hlt' hm, ← within_iff]
  induction s with
  | nil => simp [Spec.inside]
  | cons p s ih =>
    unfold Spec.inside at ih ⊢
    rw [List.map_cons, List.sum_cons, List.filter_cons]
    by_cases hc : Spec.Within a h n p.1 ∧ Spec.Within b k m p.2
    · rw [if_pos hc, if_pos (by simpa using hc), List.map_cons, List.sum_cons, List.length_cons]
      obtain ⟨⟨i, hi, bi⟩, _, _⟩ := (by
        have := C93_partition a h n hh hn p.1
        exact ⟨this.1.mp hc.1, trivial, trivial⟩ :
        (∃ i < n, Spec.Belongs a h n i p.1) ∧ True ∧ True)
      obtain ⟨j, hj, bj⟩ := (C93_partition b k m hk hm p.2).1.mp hc.2
      have e1 := (slot_belongs a h n i hh hi p.1).mpr bi
      have e2 := (slot_belongs b k m j hk hj p.2).mpr bj
      rw [e1, e2]
      have hd' := hd i j p bi bj
      rw [abs_le] at ih hd' ⊢
      push_cast
      constructor <;> linarith [ih.1, ih.2, hd'.1, hd'.2]
    · rw [if_neg hc, if_neg (by simpa using hc), zero_add]
      exact ih

/-- **C93, averages.** On regular grids with a variate inside, the average over the amplitudes of
each coordinate differs from the average of the variates inside the grid by at most half a step. -/
theorem C93_averages {px py : List K} {a h b k : K} (rx : Spec.Regular px a h)
    (ry : Spec.Regular py b k) (s : List (K × K))
    (hs : Spec.inside a h px.length b k py.length s ≠ []) :
    ∃ r, ∃ A : ℕ → ℕ → K, pdf px py s = .ok r ∧
      r.amp = ((List.range py.length).map fun j => (List.range px.length).map fun i =>
        some (A i j)) ∧
      |(∑ i ∈ Finset.range px.length, ∑ j ∈ Finset.range py.length, A i j * (a + i * h)) -
        ((Spec.inside a h px.length b k py.length s).map Prod.fst).sum /
          (Spec.inside a h px.length b k py.length s).length| ≤ h / 2 ∧
      |(∑ i ∈ Finset.range px.length, ∑ j ∈ Finset.range py.length, A i j * (b + j * k)) -
        ((Spec.inside a h px.length b k py.length s).map Prod.snd).sum /
          (Spec.inside a h px.length b k py.length s).length| ≤ k / 2 := by
  have h2 := rx.two
  have h3 := ry.two
  have hx0 : 0 < px.length := by omega
  have hy0 : 0 < py.length := by omega
  have ht := total_regular rx ry s
  have hT : (0 : K) < (Spec.inside a h px.length b k py.length s).length := by
    exact_mod_cast List.length_pos_iff.mpr hs
  refine ⟨_, fun i j => (cellCount (a - h / 2) (a + px.length * h - h / 2) (b - k / 2)
    (b + py.length * k - k / 2) px.length py.length s i j : K) /
      (Spec.inside a h px.length b k py.length s).length, pdf_regular rx ry s, ?_, ?_, ?_⟩
  · rw [ht]
    unfold share
    simp only [List.length_eq_zero_iff, if_neg hs]
  · have hb := moment_bound (a := a) (b := b) rx.pos ry.pos hx0 hy0 (fun i _ => a + i * h)
      Prod.fst (h / 2)
      (fun i _ p h1 _ => (C93_partition a h _ rx.pos hx0 p.1).2.2 i h1) s
    simp only [div_mul_eq_mul_div, ← Finset.sum_div]
    rw [← sub_div, abs_div, abs_of_pos hT, div_le_iff₀ hT, mul_comm (_ / 2) (List.length _ : K)]
    exact hb
  · have hb := moment_bound (a := a) (b := b) rx.pos ry.pos hx0 hy0 (fun _ j => b + j * k)
      Prod.snd (k / 2)
      (fun _ j p _ h1 => (C93_partition b k _ ry.pos hy0 p.2).2.2 j h1) s
    simp only [div_mul_eq_mul_div, ← Finset.sum_div]
    rw [← sub_div, abs_div, abs_of_pos hT, div_le_iff₀ hT, mul_comm (_ / 2) (List.length _ : K)]
    exact hb

/-- **C93, asymmetry parameters are not lost.** When the second grid goes from zero to at least
one, the variates inside the grid are those whose anisotropy is inside the first grid: none is lost
for its asymmetry parameter. -/
theorem C93_eta {px py : List ℝ} {a h k : ℝ} (ry : Spec.Regular py 0 k)
    (hone : 1 ≤ (py.length - 1 : ℝ) * k) (t : List (ℝ × ℝ × ℝ))
    (ht : ∀ e ∈ t, e.1 + e.2.1 + e.2.2 = 0 ∧ ¬ (e.1 = 0 ∧ e.2.1 = 0 ∧ e.2.2 = 0)) :
    Spec.inside a h px.length 0 k py.length
        (t.filterMap fun e => haeberlen [e.1, e.2.1, e.2.2]) =
      (t.filterMap fun e => haeberlen [e.1, e.2.1, e.2.2]).filter fun p =>
        Spec.Within a h px.length p.1 := by
  unfold Spec.inside
  refine List.filter_congr fun p hp => ?_
  rw [List.mem_filterMap] at hp
  obtain ⟨e, he, hz⟩ := hp
  have h49 := C49_haeberlen e.1 e.2.1 e.2.2 (ht e he).1 (ht e he).2
  obtain ⟨zeta, eta, hze, h0, h1, _⟩ := h49
  have hp : p = (zeta, eta) := by rw [hze] at hz; exact (Option.some.inj hz).symm
  have hw : Spec.Within 0 k py.length p.2 := by
    have hk := ry.pos
    rw [hp]
    exact ⟨by linarith, by linarith⟩
  rw [Bool.eq_iff_iff]
  simp only [decide_eq_true_eq]
  exact ⟨fun h => h.1, fun h => ⟨h, hw⟩⟩

/-- **C93, counterexample.** On a grid with unequal steps the amplitude of a variate is not next to
its coordinates: with the coordinates 0, 1, 10 a variate at 1 is recorded at 0. A descending grid
is an error, a grid of one coordinate too, and without variate inside the grid every amplitude is
not a number. -/
theorem C93_counterexample :
    (pdf [0, 1, 10] [0, 1] [((1 : ℚ), 0)]).map Pdf.amp =
      .ok [[some 1, some 0, some 0], [some 0, some 0, some 0]] ∧
    (∀ (px py : List ℚ) (s : List (ℚ × ℚ)) (x y l : ℚ), pyGet px 0 = .ok x → pyGet px 1 = .ok y →
      pyGet px (-1) = .ok l → y < x → l < x → 2 ≤ py.length →
      pdf px py s = .error .valueError) ∧
    (∀ (x : ℚ) (py : List ℚ) (s : List (ℚ × ℚ)), pdf [x] py s = .error .indexError) ∧
    (pdf [0, 1] [0, 1] [((7 : ℚ), 0)]).map Pdf.amp = .ok [[none, none], [none, none]] := by
  refine ⟨by decide +kernel, ?_, ?_, by decide +kernel⟩
  · intro px py s x y l h0 h1 hl hyx hlx hpy
    obtain ⟨b0, hb0⟩ : ∃ b, pyGet py 0 = .ok b := ⟨_, pyGet_ofNat py 0 (by omega)⟩
    obtain ⟨b1, hb1⟩ : ∃ b, pyGet py 1 = .ok b := ⟨_, pyGet_ofNat py 1 (by omega)⟩
    unfold pdf
    simp only [h0, h1, hl, hb0, hb1, bind, Except.bind]
    unfold outerEdges
    rw [if_pos (by linarith)]
  · intro x py s
    rfl

/-! ## Examples -/

/-- Variates at and around the coordinates 0, 1, 2 and 0, 1/2, 1. -/
def exVariates : List (ℚ × ℚ) :=
  [(1 / 10, 0), (5 / 2, 1), (3 / 2, 1 / 2), (-1 / 2, 3 / 4), (3, 0), (1, 1 / 4), (2, 5 / 4)]

theorem exGrid : Spec.Regular [(0 : ℚ), 1, 2] 0 1 ∧ Spec.Regular [(0 : ℚ), 1 / 2, 1] 0 (1 / 2) := by
  constructor
  · refine ⟨by norm_num, by simp, fun i hi => ?_⟩
    match i, hi with
    | 0, _ => norm_num
    | 1, _ => norm_num
    | 2, _ => norm_num
  · refine ⟨by norm_num, by simp, fun i hi => ?_⟩
    match i, hi with
    | 0, _ => norm_num
    | 1, _ => norm_num
    | 2, _ => norm_num

/-- Six of the seven variates are inside; edges go to the upper coordinate, except the last. -/
example : (pdf [0, 1, 2] [0, 1 / 2, 1] exVariates).map Pdf.amp =
    .ok [[some (1 / 6), some 0, some 0], [some 0, some (1 / 6), some (1 / 6)],
      [some (1 / 6), some 0, some (1 / 3)]] := by decide +kernel

example : Spec.inside 0 1 3 0 (1 / 2) 3 exVariates ≠ [] := by decide +kernel

end MRS.Dist
