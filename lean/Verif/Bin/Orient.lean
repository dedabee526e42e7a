import Verif.Bin.Octant
import Mathlib.Analysis.Real.Sqrt

/-!
# The orientation grid — property C39

Model of src/c_lib/lib/octahedron.c and of the orientation counts.
-/

namespace MRS.Bin

/-- octahedron.c:12-44 `octahedronGetDirectionCosineSquareAndWeightsOverOctant`: the values
written to `xr`, `yr`, `zr`, `amp`, in order. `nt - 1`, `nt - j` and `nt - i - j` are
unsigned in C; for `nt ≥ 1` they do not wrap. -/
noncomputable def directions (nt : Nat) : List (ℝ × ℝ × ℝ × ℝ) :=
  ((List.range nt).flatMap fun j => (List.range (nt - j + 1)).map fun i =>
    let x2 : ℝ := ((nt - i - j : Nat) : ℝ) ^ 2
    let y2 : ℝ := (i : ℝ) ^ 2
    let z2 : ℝ := (j : ℝ) ^ 2
    let r2 := x2 + y2 + z2
    (x2 / r2, y2 / r2, z2 / r2, (nt : ℝ) / (r2 * Real.sqrt r2))) ++
  [(0, 0, 1, 1 / ((nt : ℝ) * nt))]

/-- octahedron.c:88-159 `octahedronGetComplexExpOfPolarAngleOverOctant`: `exp_I_beta` as
(cos, sin) pairs. -/
noncomputable def expIBeta (nt : Nat) : List (ℝ × ℝ) :=
  (directions nt).map fun d => (Real.sqrt d.2.2.1, Real.sqrt (d.1 + d.2.1))

/-- The same, `exp_I_alpha`: the division is done for all points but the last, which is
set to zero (octahedron.c:139-152). -/
noncomputable def expIAlpha (nt : Nat) : List (ℝ × ℝ) :=
  ((directions nt).dropLast.map fun d =>
    (Real.sqrt d.1 / Real.sqrt (d.1 + d.2.1), Real.sqrt d.2.1 / Real.sqrt (d.1 + d.2.1))) ++ [(0, 0)]

/-- config.py:101-116 `get_orientations_count`, with `vol` octants. The division is a float
division followed by `int`. -/
def orientationsCount (vol n : Nat) : Int := trunc (((vol * (n + 1) * (n + 2) : Nat) : ℚ) / 2)

/-- schemes.c:18-29 and 134-135: `octant_orientations` and `total_orientations` for
`integration_volume` 0 (octant), 1 (hemisphere) and 2 (sphere). -/
def totalOrientations (volume n : Nat) : Nat :=
  let octant := ((n + 1) * (n + 2)) / 2
  match volume with
  | 0 => octant
  | 1 => octant * 4
  | 2 => octant * 8
  | _ => octant

/-! ## Specification -/

/-- Direction of a grid point: the point `(x, y, z)` of the plane `x + y + z = nt`. -/
def Spec.point (nt : Nat) (p : Nat × Nat) : ℝ × ℝ × ℝ := ((nt : ℝ) - p.1 - p.2, p.2, p.1)

/-- Euclidean length. -/
noncomputable def Spec.len (v : ℝ × ℝ × ℝ) : ℝ := Real.sqrt (v.1 ^ 2 + v.2.1 ^ 2 + v.2.2 ^ 2)

/-! ## Proof -/

/-- Entry belonging to the grid point `p`. -/
noncomputable def entry (nt : Nat) (p : Nat × Nat) : ℝ × ℝ × ℝ × ℝ :=
  let x2 : ℝ := ((nt - p.2 - p.1 : Nat) : ℝ) ^ 2
  let y2 : ℝ := (p.2 : ℝ) ^ 2
  let z2 : ℝ := (p.1 : ℝ) ^ 2
  let r2 := x2 + y2 + z2
  (x2 / r2, y2 / r2, z2 / r2, (nt : ℝ) / (r2 * Real.sqrt r2))

theorem directions_eq (nt : Nat) (hn : 1 ≤ nt) : directions nt = (Spec.grid nt).map (entry nt) := by
  unfold directions Spec.grid
  rw [List.range_succ, List.flatMap_append, List.map_append, List.map_flatMap]
  congr 1
  · apply List.flatMap_congr
    intro j hj
    have hj : j < nt := by simpa using hj
    rw [List.map_map, show nt + 1 - j = nt - j + 1 by omega]
    rfl
  · have h0 : (nt : ℝ) ≠ 0 := by
      have : nt ≠ 0 := by omega
      exact_mod_cast this
    have h1 : nt + 1 - nt = 1 := by omega
    rw [List.flatMap_cons, List.flatMap_nil, List.append_nil, h1]
    simp only [List.range_one, List.map_cons, List.map_nil, List.cons.injEq, and_true]
    unfold entry
    have hs : Real.sqrt ((nt : ℝ) ^ 2) = nt := Real.sqrt_sq (by positivity)
    simp only [Nat.sub_zero, Nat.sub_self, Nat.cast_zero]
    norm_num [hs]
    refine ⟨(div_self (by positivity)).symm, ?_⟩
    field_simp

theorem grid_mem (nt : Nat) (p : Nat × Nat) (h : p ∈ Spec.grid nt) : p.1 + p.2 ≤ nt := by
  unfold Spec.grid at h
  simp only [List.mem_flatMap, List.mem_range, List.mem_map] at h
  obtain ⟨r, hr, c, hc, rfl⟩ := h
  dsimp only
  omega

theorem len_sq (v : ℝ × ℝ × ℝ) : Spec.len v ^ 2 = v.1 ^ 2 + v.2.1 ^ 2 + v.2.2 ^ 2 := by
  unfold Spec.len
  exact Real.sq_sqrt (by positivity)

theorem len_pos (nt : Nat) (hn : 1 ≤ nt) (p : Nat × Nat) : 0 < Spec.len (Spec.point nt p) := by
  unfold Spec.len Spec.point
  apply Real.sqrt_pos.mpr
  dsimp only
  by_contra h
  have h0 : ((nt : ℝ) - p.1 - p.2) ^ 2 + (p.2 : ℝ) ^ 2 + (p.1 : ℝ) ^ 2 ≤ 0 := not_lt.mp h
  have a := sq_nonneg ((nt : ℝ) - p.1 - p.2)
  have b := sq_nonneg (p.2 : ℝ)
  have c := sq_nonneg (p.1 : ℝ)
  have h1 : (p.2 : ℝ) = 0 := pow_eq_zero_iff (two_ne_zero) |>.mp (by linarith)
  have h2 : (p.1 : ℝ) = 0 := pow_eq_zero_iff (two_ne_zero) |>.mp (by linarith)
  rw [h1, h2] at a h0
  have : (nt : ℝ) = 0 := by
    have : (nt : ℝ) ^ 2 ≤ 0 := by nlinarith
    exact pow_eq_zero_iff (two_ne_zero) |>.mp (le_antisymm this (sq_nonneg _))
  have : nt = 0 := by exact_mod_cast this
  omega

theorem entry_eq (nt : Nat) (p : Nat × Nat) (hp : p.1 + p.2 ≤ nt) :
    entry nt p =
      (let v := Spec.point nt p
       let R := Spec.len v
       (v.1 ^ 2 / R ^ 2, v.2.1 ^ 2 / R ^ 2, v.2.2 ^ 2 / R ^ 2, (nt : ℝ) / R ^ 3)) := by
  unfold entry
  simp only [len_sq]
  have hx : ((nt - p.2 - p.1 : Nat) : ℝ) = (nt : ℝ) - p.1 - p.2 := by
    rw [Nat.sub_sub, Nat.cast_sub (by omega)]
    push_cast
    ring
  rw [hx]
  have h3 : Spec.len (Spec.point nt p) ^ 3 =
      (((nt : ℝ) - p.1 - p.2) ^ 2 + (p.2 : ℝ) ^ 2 + (p.1 : ℝ) ^ 2) *
        Real.sqrt (((nt : ℝ) - p.1 - p.2) ^ 2 + (p.2 : ℝ) ^ 2 + (p.1 : ℝ) ^ 2) := by
    rw [pow_succ, len_sq]
    rfl
  rw [h3]
  rfl

/-! ## C39 -/

/-- **C39 (grid).** For every density `nt ≥ 1`: as many directions as the averaging loop
assumes; the entry at the position of grid point `p` holds the squared direction cosines
of the point `v` of the octahedron face and the weight `nt / |v|^3` — also the last one,
which the code treats separately; no division by zero (`|v| > 0`); the squares add to one;
the weight is positive. -/
theorem C39_grid (nt : Nat) (hn : 1 ≤ nt) :
    (directions nt).length = (nt + 1) * (nt + 2) / 2 ∧
    ∀ (i : Nat) (p : Nat × Nat), (Spec.grid nt)[i]? = some p →
      0 < Spec.len (Spec.point nt p) ∧
      ∃ d : ℝ × ℝ × ℝ × ℝ, (directions nt)[i]? = some d ∧
        d.1 = (Spec.point nt p).1 ^ 2 / Spec.len (Spec.point nt p) ^ 2 ∧
        d.2.1 = (Spec.point nt p).2.1 ^ 2 / Spec.len (Spec.point nt p) ^ 2 ∧
        d.2.2.1 = (Spec.point nt p).2.2 ^ 2 / Spec.len (Spec.point nt p) ^ 2 ∧
        d.2.2.2 = (nt : ℝ) / Spec.len (Spec.point nt p) ^ 3 ∧
        d.1 + d.2.1 + d.2.2.1 = 1 ∧ 0 < d.2.2.2 := by
  rw [directions_eq nt hn]
  refine ⟨by rw [List.length_map, grid_length]; rfl, ?_⟩
  intro i p hp
  have hpos := len_pos nt hn p
  have hmem : p.1 + p.2 ≤ nt := grid_mem nt p (List.mem_of_getElem? hp)
  refine ⟨hpos, entry nt p, by rw [List.getElem?_map, hp]; rfl, ?_⟩
  rw [entry_eq nt p hmem]
  refine ⟨rfl, rfl, rfl, rfl, ?_, ?_⟩
  · dsimp only
    rw [← add_div, ← add_div, ← len_sq]
    exact div_self (by positivity)
  · have : (0 : ℝ) < nt := by exact_mod_cast (by omega : 0 < nt)
    dsimp only
    positivity

/-- Density 1 has three directions: the axes. -/
example : (Spec.grid 1) = [(0, 0), (0, 1), (1, 0)] := by decide

/-- **C39 (angles), partial.** For every grid point but the last one the pairs
`(cos β, sin β)`, `(cos α, sin α)` are of unit modulus, no division by zero occurs, and
`(sin β cos α, sin β sin α, cos β)` is the direction of the grid point. Missing: the last
point, see `C39_counterexample`. -/
theorem C39_angles_partial (nt : Nat) (hn : 1 ≤ nt) (i : Nat) (p : Nat × Nat)
    (hp : (Spec.grid nt)[i]? = some p) (hlast : p.1 < nt) :
    ∃ a b, (expIAlpha nt)[i]? = some a ∧ (expIBeta nt)[i]? = some b ∧
      a.1 ^ 2 + a.2 ^ 2 = 1 ∧ b.1 ^ 2 + b.2 ^ 2 = 1 ∧ 0 < b.2 ∧
      b.2 * a.1 = (Spec.point nt p).1 / Spec.len (Spec.point nt p) ∧
      b.2 * a.2 = (Spec.point nt p).2.1 / Spec.len (Spec.point nt p) ∧
      b.1 = (Spec.point nt p).2.2 / Spec.len (Spec.point nt p) := by
  obtain ⟨hlen, hgrid⟩ := C39_grid nt hn
  obtain ⟨hpos, d, hd, d1, d2, d3, _, hsum, _⟩ := hgrid i p hp
  have hmem : p.1 + p.2 ≤ nt := grid_mem nt p (List.mem_of_getElem? hp)
  set R := Spec.len (Spec.point nt p) with hR
  have hx0 : 0 ≤ (Spec.point nt p).1 := by
    unfold Spec.point
    dsimp only
    have : ((p.1 + p.2 : Nat) : ℝ) ≤ nt := by exact_mod_cast hmem
    push_cast at this
    linarith
  have hy0 : 0 ≤ (Spec.point nt p).2.1 := by unfold Spec.point; positivity
  have hz0 : 0 ≤ (Spec.point nt p).2.2 := by unfold Spec.point; positivity
  have hR2 : R ^ 2 = (Spec.point nt p).1 ^ 2 + (Spec.point nt p).2.1 ^ 2 + (Spec.point nt p).2.2 ^ 2 :=
    len_sq _
  have hxy : 0 < (Spec.point nt p).1 ^ 2 + (Spec.point nt p).2.1 ^ 2 := by
    have hne : (Spec.point nt p).1 + (Spec.point nt p).2.1 > 0 := by
      unfold Spec.point
      dsimp only
      have : ((p.1 : Nat) : ℝ) < nt := by exact_mod_cast hlast
      linarith
    nlinarith [mul_pos hne hne, sq_nonneg ((Spec.point nt p).1 - (Spec.point nt p).2.1)]
  have hq : 0 < d.1 + d.2.1 := by
    rw [d1, d2, ← add_div]
    positivity
  -- the last entry is the only one of row nt
  have hlt : i < (directions nt).length - 1 := by
    have hi : i < (Spec.grid nt).length := (List.getElem?_eq_some_iff.mp hp).1
    rw [grid_length] at hi
    rw [hlen]
    rcases Nat.lt_or_ge i ((nt + 1) * (nt + 2) / 2 - 1) with h | h
    · exact h
    · exfalso
      unfold nPts at hi
      have hi' : i = nPts nt - 1 := by unfold nPts; omega
      have hg := grid_get nt nt 0 (by omega)
      unfold rank at hg
      dsimp only at hg
      rw [start_last, Nat.add_zero, ← hi', hp] at hg
      simp only [Option.some.injEq] at hg
      rw [hg] at hlast
      simp at hlast
  have hs2 : Real.sqrt (d.1 + d.2.1) ^ 2 = d.1 + d.2.1 := Real.sq_sqrt hq.le
  have hspos : 0 < Real.sqrt (d.1 + d.2.1) := Real.sqrt_pos.mpr hq
  have e1 : Real.sqrt d.1 = (Spec.point nt p).1 / R := by
    rw [d1, ← div_pow, Real.sqrt_sq (by positivity)]
  have e2 : Real.sqrt d.2.1 = (Spec.point nt p).2.1 / R := by
    rw [d2, ← div_pow, Real.sqrt_sq (by positivity)]
  have e3 : Real.sqrt d.2.2.1 = (Spec.point nt p).2.2 / R := by
    rw [d3, ← div_pow, Real.sqrt_sq (by positivity)]
  have q1 : 0 ≤ d.1 := by rw [d1]; positivity
  have q2 : 0 ≤ d.2.1 := by rw [d2]; positivity
  have q3 : 0 ≤ d.2.2.1 := by rw [d3]; positivity
  refine ⟨(Real.sqrt d.1 / Real.sqrt (d.1 + d.2.1), Real.sqrt d.2.1 / Real.sqrt (d.1 + d.2.1)),
    (Real.sqrt d.2.2.1, Real.sqrt (d.1 + d.2.1)), ?_, ?_, ?_, ?_, hspos, ?_, ?_, e3⟩
  · unfold expIAlpha
    rw [List.getElem?_append_left (by rw [List.length_map, List.length_dropLast]; exact hlt),
      List.getElem?_map, List.getElem?_dropLast, if_pos hlt, hd]
    rfl
  · unfold expIBeta
    rw [List.getElem?_map, hd]
    rfl
  · dsimp only
    rw [div_pow, div_pow, ← add_div, Real.sq_sqrt q1, Real.sq_sqrt q2, hs2]
    exact div_self hq.ne'
  · dsimp only
    rw [Real.sq_sqrt q3, hs2]
    linarith
  · dsimp only
    rw [mul_div_cancel₀ _ hspos.ne']
    exact e1
  · dsimp only
    rw [mul_div_cancel₀ _ hspos.ne']
    exact e2

example : (Spec.grid 2)[3]? = some (1, 0) ∧ (1 : Nat) < 2 := by decide

/-- **C39, where the code disagrees.** At the last grid point, the pole, the code sets
`exp(i α)` to 0 instead of a number of modulus one, so that every tensor component with
`m ≠ 0` is dropped for that orientation. -/
theorem C39_counterexample (nt : Nat) (hn : 1 ≤ nt) :
    (Spec.grid nt)[(nt + 1) * (nt + 2) / 2 - 1]? = some (nt, 0) ∧
    (expIAlpha nt)[(nt + 1) * (nt + 2) / 2 - 1]? = some (0, 0) := by
  have hg := grid_get nt nt 0 (by omega)
  unfold rank at hg
  dsimp only at hg
  rw [start_last, Nat.add_zero] at hg
  refine ⟨hg, ?_⟩
  have hlen := (C39_grid nt hn).1
  unfold expIAlpha
  rw [List.getElem?_append_right (by rw [List.length_map, List.length_dropLast, hlen]),
    List.length_map, List.length_dropLast, hlen, Nat.sub_self]
  rfl

/-- **C39 (count).** The configuration reports, for an octant (one octant) and a hemisphere
(four), the number of orientations that is simulated; these are the points of the grid, once per octant (the
library also knows the whole sphere, which the configuration does not offer). -/
theorem C39_count (n : Nat) :
    orientationsCount 1 n = totalOrientations 0 n ∧ orientationsCount 4 n = totalOrientations 1 n ∧
      totalOrientations 0 n = (Spec.grid n).length ∧ totalOrientations 1 n = 4 * (Spec.grid n).length ∧
      totalOrientations 2 n = 8 * (Spec.grid n).length := by
  have hev : ∃ q, (n + 1) * (n + 2) = 2 * q := by
    have := Nat.even_mul_succ_self (n + 1)
    obtain ⟨q, hq⟩ := this
    exact ⟨q, by rw [show n + 2 = n + 1 + 1 by rfl]; omega⟩
  obtain ⟨q, hq⟩ := hev
  have key : ∀ v : Nat, orientationsCount v n = ((v * q : Nat) : Int) := by
    intro v
    unfold orientationsCount
    rw [show v * (n + 1) * (n + 2) = 2 * (v * q) by rw [mul_assoc, hq]; ring]
    push_cast
    rw [show (2 * ((v : ℚ) * q)) / 2 = ((v * q : Nat) : ℚ) by push_cast; ring]
    unfold trunc
    rw [if_pos (by positivity), Int.floor_natCast]
    push_cast
    rfl
  have hl : (Spec.grid n).length = q := by
    rw [grid_length, nPts, hq, Nat.mul_div_cancel_left _ (by omega : 0 < 2)]
  unfold totalOrientations
  simp only []
  rw [key, key, hl, hq, Nat.mul_div_cancel_left _ (by omega : 0 < 2)]
  refine ⟨?_, ?_, rfl, mul_comm _ _, mul_comm _ _⟩
  · push_cast; ring
  · push_cast; ring

example : orientationsCount 4 20 = 924 ∧ totalOrientations 1 20 = 924 := by decide +kernel

end MRS.Bin
