import Verif.Signal.Ops
import Mathlib.RingTheory.RootsOfUnity.Complex
import Mathlib.Algebra.Ring.GeomSum
import Mathlib.Tactic.Linarith
import Mathlib.Tactic.FieldSimp

/-!
# Shearing a data set — property C92

`[IFFT(dim_index=d), Shear(factor=a, dim_index=d, parallel=p), FFT(dim_index=d)]` (src/mrsimulator/signal_processing/affine.py lines
66-136, __init__.py lines 127-168), the usual way to shear a spectrum, on the model of `apply_operations` in `Verif/Signal/Ops.lean`.
The Fourier transform of the library enters as a hypothesis (`Spec.Forward`, `Spec.Backward`).
-/

namespace MRS.Signal

open Finset Complex

/-! ## Specification -/

/-- The exponential `e^{2πi u}`. -/
noncomputable def Spec.turn (u : ℝ) : ℂ := Complex.exp (2 * Real.pi * u * Complex.I)

/-- Dimensions that are each other's reciprocal: `n` equally spaced coordinates each, the spacings being inverse to one another up to
the count, the second with zero among the multiples of its spacing. -/
structure Spec.Reciprocal (n : ℕ) (x t : Dim) : Prop where
  pos : 0 < n
  first : ∃ p : ℤ, x.ks = (List.range n).map fun j : ℕ => (j : ℝ) - p
  second : ∃ q : ℤ, 0 ≤ q ∧ q < n ∧ t.ks = (List.range n).map fun j : ℕ => (j : ℝ) - q
  zero : t.offset = 0
  spacing : n * x.increment * t.increment = 1

/-- The coordinate at an index. -/
noncomputable def Spec.at (x : Dim) (j : ℕ) : ℝ := x.coords.getD j 0

/-- An index list that is inside the data set along a dimension of `n` points. -/
def Spec.Inside (n dim : ℕ) (ix : List ℕ) : Prop := dim < ix.length ∧ ix.getD dim 0 < n

/-- The library transforms dimension `x` to its reciprocal `t` with the kernel `e^{s 2πi x t}`, up to a factor `c` for each point. -/
def Spec.Forward (lib : ℕ → Data → Py Data) (dim n : ℕ) (s : ℝ) (x t : Dim) (c : ℕ → ℂ) : Prop :=
  ∀ d : Data, d.dims[dim]? = some x → ∃ d', lib dim d = .ok d' ∧ d'.dims = d.dims.set dim t ∧ d'.dvs.length = d.dvs.length ∧
    ∀ (v : ℕ) (g g' : List ℕ → ℂ), d.dvs[v]? = some g → d'.dvs[v]? = some g' → ∀ ix, Spec.Inside n dim ix →
      g' ix = c (ix.getD dim 0) * ∑ j ∈ range n, g (ix.set dim j) * Spec.turn (s * Spec.at x j * Spec.at t (ix.getD dim 0))

/-- The library transforms back with the opposite kernel, undoing the factors. -/
def Spec.Backward (lib : ℕ → Data → Py Data) (dim n : ℕ) (s : ℝ) (x t : Dim) (c : ℕ → ℂ) : Prop :=
  ∀ d : Data, d.dims[dim]? = some t → ∃ d', lib dim d = .ok d' ∧ d'.dims = d.dims.set dim x ∧ d'.dvs.length = d.dvs.length ∧
    ∀ (v : ℕ) (g g' : List ℕ → ℂ), d.dvs[v]? = some g → d'.dvs[v]? = some g' → ∀ ix, Spec.Inside n dim ix →
      g' ix = (n : ℂ)⁻¹ * ∑ k ∈ range n, (c k)⁻¹ * g (ix.set dim k) * Spec.turn (-(s * Spec.at x (ix.getD dim 0) * Spec.at t k))

/-- The trigonometric interpolation of `n` values at the coordinates of `x`, at any coordinate `u`. -/
noncomputable def Spec.interp (n : ℕ) (s : ℝ) (x t : Dim) (f : ℕ → ℂ) (u : ℝ) : ℂ :=
  (n : ℂ)⁻¹ * ∑ k ∈ range n, ∑ j ∈ range n, f j * Spec.turn (s * (Spec.at x j - u) * Spec.at t k)

/-- The cross-section through a position along a dimension. -/
def Spec.section (g : List ℕ → ℂ) (dim : ℕ) (ix : List ℕ) : ℕ → ℂ := fun j => g (ix.set dim j)

/-- A shear in a list of operations: factor, parallel dimension, dependent variables. -/
structure Slant where
  factor : ℝ
  parallel : ℕ
  dv : DvIndex

/-- The operation. -/
def Slant.op (dim : ℕ) (l : Slant) : Op := .shear l.factor dim l.parallel l.dv

/-- How far a list of shears displaces dependent variable `v` at a position: the sum of factor times coordinate along the parallel
dimension, each as often as the shear names the variable. -/
noncomputable def Spec.lag (dims : List Dim) (nv v : ℕ) (L : List Slant) (ix : List ℕ) : ℝ :=
  (L.map fun l => (Spec.times nv v l.dv : ℝ) * (l.factor * match dims[l.parallel]? with
    | some y => Spec.at y (ix.getD l.parallel 0)
    | none => 0)).sum

/-! ## Lemmas -/

theorem turn_add (u v : ℝ) : Spec.turn (u + v) = Spec.turn u * Spec.turn v := by
  unfold Spec.turn
  rw [← Complex.exp_add]
  congr 1
  push_cast
  ring

theorem turn_zero : Spec.turn 0 = 1 := by simp [Spec.turn]

theorem turn_int (m : ℤ) : Spec.turn m = 1 := by
  unfold Spec.turn
  rw [Complex.exp_eq_one_iff]
  exact ⟨m, by push_cast; ring⟩

theorem turn_nat_mul (u : ℝ) (k : ℕ) : Spec.turn (k * u) = Spec.turn u ^ k := by
  induction k with
  | zero => simp [turn_zero]
  | succ k ih => rw [pow_succ, ← ih, ← turn_add]; congr 1; push_cast; ring

theorem turn_conj (u : ℝ) : (starRingEnd ℂ) (Spec.turn u) = Spec.turn (-u) := by
  unfold Spec.turn
  rw [← Complex.exp_conj]
  congr 1
  simp [map_ofNat]

theorem at_eq (x : Dim) (n : ℕ) (p : ℤ) (h : x.ks = (List.range n).map fun j : ℕ => (j : ℝ) - p) (j : ℕ) (hj : j < n) :
    Spec.at x j = x.offset + x.increment * (j - p) := by
  unfold Spec.at Dim.coords
  rw [h, List.getD_eq_getElem?_getD, List.getElem?_map, List.getElem?_map, List.getElem?_range hj]
  rfl

/-- Sum of the powers of a root of unity. -/
theorem turn_sum (n : ℕ) (hn : 0 < n) (m : ℤ) (q : ℤ) (w : ℝ) (hw : n * w = m) :
    ∑ k ∈ range n, Spec.turn (w * ((k : ℝ) - q)) = if (n : ℤ) ∣ m then (n : ℂ) else 0 := by
  have hn' : (n : ℝ) ≠ 0 := by positivity
  have e : ∀ k : ℕ, Spec.turn (w * ((k : ℝ) - q)) = Spec.turn (-(w * q)) * Spec.turn w ^ k := by
    intro k
    rw [← turn_nat_mul, ← turn_add]
    congr 1
    ring
  simp only [e, ← mul_sum]
  split
  · rename_i hd
    obtain ⟨l, hl⟩ := hd
    have hwl : w = l := by
      have : (n : ℝ) * w = n * l := by rw [hw, hl]; push_cast; ring
      exact mul_left_cancel₀ hn' this
    rw [hwl, turn_int]
    have : Spec.turn (-((l : ℝ) * q)) = 1 := by
      have := turn_int (-(l * q))
      push_cast at this
      exact this
    rw [this]
    simp
  · rename_i hd
    have h1 : Spec.turn w ≠ 1 := by
      intro h
      unfold Spec.turn at h
      rw [Complex.exp_eq_one_iff] at h
      obtain ⟨l, hl⟩ := h
      apply hd
      refine ⟨l, ?_⟩
      have h2 : (w : ℂ) = l := by
        have hpi : (2 * Real.pi * Complex.I : ℂ) ≠ 0 := by
          simp [Real.pi_ne_zero]
        apply mul_right_cancel₀ hpi
        rw [← hl]
        ring
      have h3 : w = l := by exact_mod_cast h2
      have h4 : (m : ℝ) = ((n * l : ℤ) : ℝ) := by rw [← hw, h3]; push_cast; ring
      exact_mod_cast h4
    have hg : (∑ k ∈ range n, Spec.turn w ^ k) * (Spec.turn w - 1) = 0 := by
      rw [geom_sum_mul, ← turn_nat_mul, hw, turn_int, sub_self]
    rcases mul_eq_zero.mp hg with h | h
    · rw [h, mul_zero]
    · exact absurd (sub_eq_zero.mp h) h1

section grids

variable {n : ℕ} {x t : Dim} (hR : Spec.Reciprocal n x t) {s : ℝ} (hs : s = 1 ∨ s = -1)
include hR hs

/-- Orthogonality over the reciprocal coordinates. -/
theorem orth (j : ℕ) (hj : j < n) (i : ℕ) (hi : i < n) (m : ℤ) :
    ∑ k ∈ range n, Spec.turn (s * (Spec.at x j - (Spec.at x i + m * x.increment)) * Spec.at t k) =
      if (n : ℤ) ∣ (j : ℤ) - i - m then (n : ℂ) else 0 := by
  obtain ⟨p, hp⟩ := hR.first
  obtain ⟨q, _, _, hq⟩ := hR.second
  have hsp := hR.spacing
  obtain ⟨σ, hσ, hσ1⟩ : ∃ σ : ℤ, s = σ ∧ (σ = 1 ∨ σ = -1) := by
    rcases hs with h | h
    · exact ⟨1, by rw [h]; simp, Or.inl rfl⟩
    · exact ⟨-1, by rw [h]; simp, Or.inr rfl⟩
  have e : ∀ k ∈ range n, Spec.turn (s * (Spec.at x j - (Spec.at x i + m * x.increment)) * Spec.at t k) =
      Spec.turn ((s * ((j : ℝ) - i - m) * (x.increment * t.increment)) * ((k : ℝ) - q)) := by
    intro k hk
    rw [at_eq x n p hp j hj, at_eq x n p hp i hi, at_eq t n q hq k (mem_range.mp hk), hR.zero]
    congr 1
    ring
  rw [sum_congr rfl e, turn_sum n hR.pos (σ * ((j : ℤ) - i - m)) q _ ?_]
  · congr 1
    rcases hσ1 with h | h
    · rw [h, one_mul]
    · rw [h, neg_one_mul, dvd_neg]
  · rw [hσ]
    push_cast
    linear_combination (σ : ℝ) * ((j : ℝ) - i - m) * hsp

/-- The interpolation at a whole number of steps from a coordinate. -/
theorem interp_step (f : ℕ → ℂ) (i : ℕ) (hi : i < n) (m : ℤ) :
    Spec.interp n s x t f (Spec.at x i + m * x.increment) = f (((i : ℤ) + m) % n).toNat := by
  have hn : (n : ℤ) ≠ 0 := by have := hR.pos; omega
  unfold Spec.interp
  rw [sum_comm]
  simp only [← mul_sum]
  have e : ∀ j ∈ range n, f j * ∑ k ∈ range n, Spec.turn (s * (Spec.at x j - (Spec.at x i + m * x.increment)) * Spec.at t k) =
      if j = (((i : ℤ) + m) % n).toNat then f j * n else 0 := by
    intro j hj
    rw [orth hR hs j (mem_range.mp hj) i hi m]
    have hj' := mem_range.mp hj
    have key : (n : ℤ) ∣ (j : ℤ) - i - m ↔ j = (((i : ℤ) + m) % n).toNat := by
      have h0 := Int.emod_nonneg ((i : ℤ) + m) hn
      rw [show (j : ℤ) - i - m = j - (i + m) by ring]
      constructor
      · intro h
        have := (Int.emod_emod_of_dvd ((j : ℤ)) (dvd_refl (n : ℤ)))
        have h2 : (j : ℤ) % n = ((i : ℤ) + m) % n := Int.emod_eq_emod_iff_emod_sub_eq_zero.mpr (Int.emod_eq_zero_of_dvd h)
        rw [Int.emod_eq_of_lt (by omega) (by omega)] at h2
        omega
      · intro h
        apply Int.dvd_of_emod_eq_zero
        apply Int.emod_eq_emod_iff_emod_sub_eq_zero.mp
        rw [Int.emod_eq_of_lt (by omega) (by omega)]
        omega
    by_cases h : (n : ℤ) ∣ (j : ℤ) - i - m
    · rw [if_pos h, if_pos (key.mp h)]
    · rw [if_neg h, if_neg fun h' => h (key.mpr h'), mul_zero]
  rw [sum_congr rfl e, sum_ite_eq']
  have hlt : (((i : ℤ) + m) % n).toNat < n := by
    have h0 := Int.emod_nonneg ((i : ℤ) + m) hn
    have h1 := Int.emod_lt_of_pos ((i : ℤ) + m) (by have := hR.pos; omega : (0 : ℤ) < n)
    omega
  rw [if_pos (mem_range.mpr hlt)]
  have : (n : ℂ) ≠ 0 := by have := hR.pos; exact_mod_cast this.ne'
  field_simp

/-- The Fourier coefficient of `n` values at a reciprocal coordinate. -/
noncomputable def coef (n : ℕ) (s : ℝ) (x t : Dim) (f : ℕ → ℂ) (k : ℕ) : ℂ :=
  ∑ j ∈ range n, f j * Spec.turn (s * Spec.at x j * Spec.at t k)

omit hR hs in
theorem interp_coef (f : ℕ → ℂ) (u : ℝ) :
    Spec.interp n s x t f u = (n : ℂ)⁻¹ * ∑ k ∈ range n, coef n s x t f k * Spec.turn (-(s * u * Spec.at t k)) := by
  unfold Spec.interp coef
  congr 1
  refine sum_congr rfl fun k _ => ?_
  rw [sum_mul]
  refine sum_congr rfl fun j _ => ?_
  rw [mul_assoc (f j), ← turn_add]
  congr 2
  ring

/-- Orthogonality over the coordinates. -/
theorem orth' (k : ℕ) (hk : k < n) (l : ℕ) (hl : l < n) :
    ∑ j ∈ range n, Spec.turn (s * Spec.at x j * (Spec.at t k - Spec.at t l)) = if k = l then (n : ℂ) else 0 := by
  obtain ⟨p, hp⟩ := hR.first
  obtain ⟨q, _, _, hq⟩ := hR.second
  have hsp := hR.spacing
  obtain ⟨σ, hσ, hσ1⟩ : ∃ σ : ℤ, s = σ ∧ (σ = 1 ∨ σ = -1) := by
    rcases hs with h | h
    · exact ⟨1, by rw [h]; simp, Or.inl rfl⟩
    · exact ⟨-1, by rw [h]; simp, Or.inr rfl⟩
  have e : ∀ j ∈ range n, Spec.turn (s * Spec.at x j * (Spec.at t k - Spec.at t l)) =
      Spec.turn (s * x.offset * t.increment * ((k : ℝ) - l)) *
        Spec.turn ((s * ((k : ℝ) - l) * (x.increment * t.increment)) * ((j : ℝ) - p)) := by
    intro j hj
    rw [at_eq x n p hp j (mem_range.mp hj), at_eq t n q hq k hk, at_eq t n q hq l hl, hR.zero, ← turn_add]
    congr 1
    ring
  rw [sum_congr rfl e, ← mul_sum, turn_sum n hR.pos (σ * ((k : ℤ) - l)) p _ ?_]
  · by_cases h : k = l
    · subst h
      simp [turn_zero]
    · rw [if_neg h, if_neg, mul_zero]
      intro hd
      have hd' : (n : ℤ) ∣ (k : ℤ) - l := by
        rcases hσ1 with h | h
        · rwa [h, one_mul] at hd
        · rwa [h, neg_one_mul, dvd_neg] at hd
      have := Int.eq_zero_of_abs_lt_dvd hd' (by rw [abs_lt]; constructor <;> omega)
      omega
  · rw [hσ]
    push_cast
    linear_combination (σ : ℝ) * ((k : ℝ) - l) * hsp

/-- The coefficients of values that are displaced. -/
theorem coef_interp (f : ℕ → ℂ) (v : ℝ) (l : ℕ) (hl : l < n) :
    coef n s x t (fun j => Spec.interp n s x t f (Spec.at x j + v)) l = coef n s x t f l * Spec.turn (-(s * v * Spec.at t l)) := by
  have hn : (n : ℂ) ≠ 0 := by have := hR.pos; exact_mod_cast this.ne'
  rw [coef]
  simp only [interp_coef]
  have e : ∀ j ∈ range n, (n : ℂ)⁻¹ * (∑ k ∈ range n, coef n s x t f k * Spec.turn (-(s * (Spec.at x j + v) * Spec.at t k))) *
      Spec.turn (s * Spec.at x j * Spec.at t l) =
      ∑ k ∈ range n, (n : ℂ)⁻¹ * (coef n s x t f k * Spec.turn (-(s * v * Spec.at t k))) *
        Spec.turn (s * Spec.at x j * (Spec.at t l - Spec.at t k)) := by
    intro j _
    rw [mul_assoc, sum_mul, mul_sum]
    refine sum_congr rfl fun k _ => ?_
    rw [mul_assoc (coef n s x t f k), ← turn_add, mul_assoc ((n : ℂ)⁻¹), mul_assoc (coef n s x t f k), ← turn_add]
    congr 3
    ring
  rw [sum_congr rfl e, sum_comm]
  simp only [← mul_sum]
  have e2 : ∀ k ∈ range n, (n : ℂ)⁻¹ * (coef n s x t f k * Spec.turn (-(s * v * Spec.at t k))) *
      ∑ j ∈ range n, Spec.turn (s * Spec.at x j * (Spec.at t l - Spec.at t k)) =
      if l = k then coef n s x t f k * Spec.turn (-(s * v * Spec.at t k)) else 0 := by
    intro k hk
    rw [orth' hR hs l hl k (mem_range.mp hk)]
    split
    · field_simp
    · rw [mul_zero]
  rw [sum_congr rfl e2, sum_ite_eq, if_pos (mem_range.mpr hl)]

theorem interp_interp (f : ℕ → ℂ) (v u : ℝ) :
    Spec.interp n s x t (fun j => Spec.interp n s x t f (Spec.at x j + v)) u = Spec.interp n s x t f (u + v) := by
  rw [interp_coef, interp_coef]
  congr 1
  refine sum_congr rfl fun k hk => ?_
  rw [coef_interp hR hs f v k (mem_range.mp hk), mul_assoc, ← turn_add]
  congr 2
  ring

theorem interp_sum (f : ℕ → ℂ) (v : ℝ) : ∑ j ∈ range n, Spec.interp n s x t f (Spec.at x j + v) = ∑ j ∈ range n, f j := by
  obtain ⟨q, hq0, hq1, hq⟩ := hR.second
  have h := coef_interp hR hs f v q.toNat (by omega)
  have hz : Spec.at t q.toNat = 0 := by
    rw [at_eq t n q hq q.toNat (by omega), hR.zero]
    have : ((q.toNat : ℕ) : ℝ) = (q : ℝ) := by
      have : ((q.toNat : ℕ) : ℤ) = q := Int.toNat_of_nonneg hq0
      exact_mod_cast this
    rw [this]
    ring
  unfold coef at h
  simpa [hz, turn_zero] using h

theorem parseval (f : ℕ → ℂ) : ∑ k ∈ range n, coef n s x t f k * (starRingEnd ℂ) (coef n s x t f k) =
    n * ∑ j ∈ range n, f j * (starRingEnd ℂ) (f j) := by
  have e : ∀ k ∈ range n, coef n s x t f k * (starRingEnd ℂ) (coef n s x t f k) = ∑ j ∈ range n, ∑ i ∈ range n,
      f j * (starRingEnd ℂ) (f i) * Spec.turn (s * (Spec.at x j - (Spec.at x i + (0 : ℤ) * x.increment)) * Spec.at t k) := by
    intro k _
    unfold coef
    rw [map_sum, sum_mul_sum]
    refine sum_congr rfl fun j _ => sum_congr rfl fun i _ => ?_
    rw [map_mul, turn_conj, mul_mul_mul_comm, ← turn_add]
    congr 2
    push_cast
    ring
  rw [sum_congr rfl e, sum_comm, mul_sum]
  refine sum_congr rfl fun j hj => ?_
  rw [sum_comm]
  simp only [← mul_sum]
  have e2 : ∀ i ∈ range n, f j * (starRingEnd ℂ) (f i) *
      ∑ k ∈ range n, Spec.turn (s * (Spec.at x j - (Spec.at x i + (0 : ℤ) * x.increment)) * Spec.at t k) =
      if j = i then n * (f j * (starRingEnd ℂ) (f i)) else 0 := by
    intro i hi
    rw [orth hR hs j (mem_range.mp hj) i (mem_range.mp hi) 0]
    by_cases h : j = i
    · subst h
      simp
      ring
    · rw [if_neg h, if_neg, mul_zero]
      intro hd
      have hj' := mem_range.mp hj
      have hi' := mem_range.mp hi
      have := Int.eq_zero_of_abs_lt_dvd hd (by rw [abs_lt]; constructor <;> omega)
      omega
  rw [sum_congr rfl e2, sum_ite_eq, if_pos hj]

theorem interp_energy (f : ℕ → ℂ) (v : ℝ) :
    ∑ j ∈ range n, Complex.normSq (Spec.interp n s x t f (Spec.at x j + v)) = ∑ j ∈ range n, Complex.normSq (f j) := by
  have hn : (n : ℂ) ≠ 0 := by have := hR.pos; exact_mod_cast this.ne'
  have h1 := parseval hR hs f
  have h2 := parseval hR hs (fun j => Spec.interp n s x t f (Spec.at x j + v))
  have e : ∑ k ∈ range n, coef n s x t (fun j => Spec.interp n s x t f (Spec.at x j + v)) k *
      (starRingEnd ℂ) (coef n s x t (fun j => Spec.interp n s x t f (Spec.at x j + v)) k) =
      ∑ k ∈ range n, coef n s x t f k * (starRingEnd ℂ) (coef n s x t f k) := by
    refine sum_congr rfl fun k hk => ?_
    rw [coef_interp hR hs f v k (mem_range.mp hk), map_mul, turn_conj, mul_mul_mul_comm, ← turn_add]
    simp [turn_zero]
  rw [e, h1] at h2
  have h3 := mul_left_cancel₀ hn h2
  simp only [Complex.mul_conj] at h3
  exact_mod_cast h3.symm

end grids

theorem shearFactor_eq (a : ℝ) (x y : Dim) (dim par : ℕ) (ix : List ℕ) :
    shearFactor a x.coords y.coords dim par ix = Spec.turn (-(Spec.at x (ix.getD dim 0) * (a * Spec.at y (ix.getD par 0)))) := by
  unfold shearFactor Spec.turn Spec.at
  congr 1
  push_cast
  ring

/-- A run of shears. -/
theorem shears_run (lib : ℕ → Data → Py Data) (dim : ℕ) (t : Dim) (L : List Slant) (rest : List Op) (st : Store) (r : ℕ) (d : Data)
    (hd : st[r]? = some d) (ht : d.dims[dim]? = some t)
    (hL : ∀ l ∈ L, l.parallel < d.dims.length ∧ Spec.Names d.dvs.length l.dv) :
    ∃ (st' : Store) (d' : Data), applyOperations lib (L.map (Slant.op dim) ++ rest) (st, r) = applyOperations lib rest (st', r) ∧
      st'[r]? = some d' ∧ d'.dims = d.dims ∧ d'.dvs.length = d.dvs.length ∧
      ∀ (v : ℕ) (ix : List ℕ), (d'.dvs[v]?).map (fun g : List ℕ → ℂ => g ix) = (d.dvs[v]?).map fun g : List ℕ → ℂ =>
        g ix * Spec.turn (-(Spec.at t (ix.getD dim 0) * Spec.lag d.dims d.dvs.length v L ix)) := by
  induction L generalizing st d with
  | nil =>
    refine ⟨st, d, rfl, hd, rfl, rfl, fun v ix => ?_⟩
    simp [Spec.lag, turn_zero]
  | cons l L ih =>
    obtain ⟨hp, hn⟩ := hL l (by simp)
    obtain ⟨y, hy⟩ : ∃ y, d.dims[l.parallel]? = some y := ⟨_, List.getElem?_eq_getElem hp⟩
    obtain ⟨d1, h1⟩ := mulDvs_ok (shearFactor l.factor t.coords y.coords dim l.parallel) (dvIndexes l.dv d.dvs.length) d
      ((names_iff l.dv _).mpr hn)
    obtain ⟨m1, m2, _, m4⟩ := mulDvs_names _ l.dv d d1 h1
    have hlt : r < st.length := by
      by_contra h
      rw [List.getElem?_eq_none (by omega)] at hd
      simp at hd
    have hop : operate lib (l.op dim) (st, r) = (st.set r d1, .ok r) := by
      unfold Slant.op operate
      simp only [hd, inPlace, ht, hy, h1]
    obtain ⟨st', d', e1, e2, e3, e4, e5⟩ := ih (st.set r d1) d1 (List.getElem?_set_self hlt) (by rw [m1]; exact ht)
      (fun l' hl' => by rw [m1, m2]; exact hL l' (by simp [hl']))
    refine ⟨st', d', ?_, e2, e3.trans m1, e4.trans m2, fun v ix => ?_⟩
    · rw [List.map_cons, List.cons_append, applyOperations, hop]
      exact e1
    · rw [e5 v ix, m1, m2]
      have h4 := m4 v ix
      cases hv : d1.dvs[v]? with
      | none =>
        rw [hv] at h4
        rw [Option.map_none] at h4 ⊢
        cases hw : d.dvs[v]? with
        | none => rfl
        | some g => rw [hw] at h4; simp at h4
      | some g1 =>
        cases hw : d.dvs[v]? with
        | none => rw [hv, hw] at h4; simp at h4
        | some g =>
          rw [hv, hw] at h4
          simp only [Option.map_some, Option.some.injEq] at h4 ⊢
          rw [h4, shearFactor_eq, ← turn_nat_mul, mul_assoc, ← turn_add]
          congr 2
          simp only [Spec.lag, List.map_cons, List.sum_cons, hy]
          ring

theorem lag_set (dims : List Dim) (nv v : ℕ) (L : List Slant) (dim k : ℕ) (ix : List ℕ) (h : ∀ l ∈ L, l.parallel ≠ dim) :
    Spec.lag dims nv v L (ix.set dim k) = Spec.lag dims nv v L ix := by
  unfold Spec.lag
  congr 1
  refine List.map_congr_left fun l hl => ?_
  have : (ix.set dim k).getD l.parallel 0 = ix.getD l.parallel 0 := by
    rw [List.getD_eq_getElem?_getD, List.getElem?_set_ne (fun e => h l hl e.symm), List.getD_eq_getElem?_getD]
  rw [this]

/-! ## C92 -/

/-- **C92, displacement.** A transform along a dimension, any shears normal to it, and the transform back give a data set with the same
dimensions in which every value is that of the (interpolated) cross-section at the coordinate displaced by the sum of factor times
coordinate along the parallel dimension — in the sense of the kernel: `s` is 1 if the first transform has the kernel `e^{+2πi x t}`.
Missing: the transform of the library is assumed to be the Fourier transform; coordinates and factor are in matching units. -/
theorem C92_displacement_partial (lib : ℕ → Data → Py Data) (dim n : ℕ) (s : ℝ) (hs : s = 1 ∨ s = -1) (x t : Dim) (c : ℕ → ℂ)
    (hc : ∀ k, k < n → c k ≠ 0) (hF : Spec.Forward lib dim n s x t c) (hB : Spec.Backward lib dim n s x t c)
    (L : List Slant) (st : Store) (r : ℕ) (d : Data) (hd : st[r]? = some d) (hx : d.dims[dim]? = some x)
    (hL : ∀ l ∈ L, l.parallel ≠ dim ∧ l.parallel < d.dims.length ∧ Spec.Names d.dvs.length l.dv) :
    ∃ (st' : Store) (r' : ℕ) (d' : Data), applyOperations lib (.fft [dim] :: (L.map (Slant.op dim) ++ [.fft [dim]])) (st, r) = (st', .ok r') ∧
      st'[r']? = some d' ∧ d'.dims = d.dims ∧ d'.dvs.length = d.dvs.length ∧
      ∀ (v : ℕ) (g g' : List ℕ → ℂ), d.dvs[v]? = some g → d'.dvs[v]? = some g' → ∀ ix, Spec.Inside n dim ix →
        g' ix = Spec.interp n s x t (Spec.section g dim ix)
          (Spec.at x (ix.getD dim 0) + s * Spec.lag d.dims d.dvs.length v L ix) := by
  have hdim : dim < d.dims.length := by
    by_contra h
    rw [List.getElem?_eq_none (by omega)] at hx
    simp at hx
  obtain ⟨d1, f1, f2, f3, f4⟩ := hF d hx
  have ht : d1.dims[dim]? = some t := by rw [f2]; exact List.getElem?_set_self hdim
  obtain ⟨st2, d2, g1, g2, g3, g4, g5⟩ := shears_run lib dim t L [.fft [dim]] (st ++ [d1]) st.length d1 (by simp) ht
    (fun l hl => by rw [f2, f3, List.length_set]; exact (hL l hl).2)
  obtain ⟨d3, b1, b2, b3, b4⟩ := hB d2 (by rw [g3]; exact ht)
  refine ⟨st2 ++ [d3], st2.length, d3, ?_, by simp, ?_, by omega, ?_⟩
  · rw [applyOperations]
    simp only [operate, fftLoop, hd, f1]
    rw [g1, applyOperations]
    simp only [operate, fftLoop, g2, b1]
    rfl
  · rw [b2, g3, f2, List.set_set]
    apply List.ext_getElem?
    intro i
    by_cases hi : dim = i
    · subst hi
      rw [List.getElem?_set_self hdim, hx]
    · rw [List.getElem?_set_ne hi]
  · intro v g g' hg hg' ix hix
    obtain ⟨hix1, hix2⟩ := hix
    have hv : v < d.dvs.length := by
      by_contra h
      rw [List.getElem?_eq_none (by omega)] at hg
      simp at hg
    obtain ⟨ga, hga⟩ : ∃ ga, d1.dvs[v]? = some ga := ⟨_, List.getElem?_eq_getElem (by omega)⟩
    obtain ⟨gb, hgb⟩ : ∃ gb, d2.dvs[v]? = some gb := ⟨_, List.getElem?_eq_getElem (by omega)⟩
    rw [b4 v gb g' hgb hg' ix ⟨hix1, hix2⟩]
    unfold Spec.interp
    congr 1
    refine sum_congr rfl fun k hk => ?_
    have hk' := mem_range.mp hk
    have hgd : (ix.set dim k).getD dim 0 = k := by
      rw [List.getD_eq_getElem?_getD, List.getElem?_set_self hix1]
      rfl
    have h5 := g5 v (ix.set dim k)
    rw [hga, hgb] at h5
    simp only [Option.map_some, Option.some.injEq] at h5
    rw [h5, f4 v g ga hg hga (ix.set dim k) ⟨by rw [List.length_set]; exact hix1, by rw [hgd]; exact hk'⟩, hgd,
      lag_set _ _ _ _ _ _ _ fun l hl => (hL l hl).1]
    have hlag : Spec.lag d1.dims d1.dvs.length v L ix = Spec.lag d.dims d.dvs.length v L ix := by
      unfold Spec.lag
      rw [f3]
      congr 1
      refine List.map_congr_left fun l hl => ?_
      rw [f2, List.getElem?_set_ne fun e => (hL l hl).1 e.symm]
    rw [hlag]
    rw [mul_assoc ((c k)⁻¹), mul_assoc, mul_assoc (c k), inv_mul_cancel_left₀ (hc k hk'), mul_assoc, ← turn_add, sum_mul]
    refine sum_congr rfl fun j _ => ?_
    simp only [List.set_set, Spec.section]
    rw [mul_assoc, ← turn_add]
    congr 2
    have hss : s * s = 1 := by rcases hs with h | h <;> rw [h] <;> norm_num
    linear_combination (Spec.lag d.dims d.dvs.length v L ix * Spec.at t k) * hss

/-- **C92, whole steps.** Where the displacement is a whole number of steps of the grid, the cross-section is moved by that many
points, around the ends. -/
theorem C92_steps (n : ℕ) (s : ℝ) (hs : s = 1 ∨ s = -1) (x t : Dim) (hR : Spec.Reciprocal n x t) (f : ℕ → ℂ) (i : ℕ) (hi : i < n)
    (m : ℤ) (u : ℝ) (hu : u = m * x.increment) :
    Spec.interp n s x t f (Spec.at x i + u) = f (((i : ℤ) + m) % n).toNat := by
  rw [hu]
  exact interp_step hR hs f i hi m

/-- **C92, conservation.** Whatever the displacement, the sum of a cross-section and the sum of its squares stay as they are. -/
theorem C92_conserved (n : ℕ) (s : ℝ) (hs : s = 1 ∨ s = -1) (x t : Dim) (hR : Spec.Reciprocal n x t) (f : ℕ → ℂ) (u : ℝ) :
    ∑ j ∈ range n, Spec.interp n s x t f (Spec.at x j + u) = ∑ j ∈ range n, f j ∧
    ∑ j ∈ range n, Complex.normSq (Spec.interp n s x t f (Spec.at x j + u)) = ∑ j ∈ range n, Complex.normSq (f j) :=
  ⟨interp_sum hR hs f u, interp_energy hR hs f u⟩

/-- **C92, composition.** Two displacements one after the other are the displacement by the sum. -/
theorem C92_compose (n : ℕ) (s : ℝ) (hs : s = 1 ∨ s = -1) (x t : Dim) (hR : Spec.Reciprocal n x t) (f : ℕ → ℂ) (u v : ℝ) (i : ℕ) :
    Spec.interp n s x t (fun j => Spec.interp n s x t f (Spec.at x j + v)) (Spec.at x i + u) =
      Spec.interp n s x t f (Spec.at x i + (u + v)) := by
  rw [interp_interp hR hs, add_assoc]

/-! ### A transform that meets the hypotheses, and a case -/

open Classical in
/-- A library that transforms dimension `dim` between `x` and `t`. -/
noncomputable def Ex.lib (dim n : ℕ) (s : ℝ) (x t : Dim) : ℕ → Data → Py Data := fun _ d =>
  if d.dims[dim]? = some x then
    .ok ⟨d.dims.set dim t, d.dvs.map fun g ix =>
      ∑ j ∈ range n, g (ix.set dim j) * Spec.turn (s * Spec.at x j * Spec.at t (ix.getD dim 0))⟩
  else
    .ok ⟨d.dims.set dim x, d.dvs.map fun g ix => (n : ℂ)⁻¹ *
      ∑ k ∈ range n, g (ix.set dim k) * Spec.turn (-(s * Spec.at x (ix.getD dim 0) * Spec.at t k))⟩

theorem Ex.lib_forward (dim n : ℕ) (s : ℝ) (x t : Dim) : Spec.Forward (Ex.lib dim n s x t) dim n s x t fun _ => 1 := by
  intro d hd
  refine ⟨_, if_pos hd, rfl, by simp, fun v g g' hg hg' ix _ => ?_⟩
  simp only [List.getElem?_map, hg, Option.map_some, Option.some.injEq] at hg'
  rw [← hg', one_mul]

theorem Ex.lib_backward (dim n : ℕ) (s : ℝ) (x t : Dim) (h : x ≠ t) : Spec.Backward (Ex.lib dim n s x t) dim n s x t fun _ => 1 := by
  intro d hd
  refine ⟨_, if_neg (by rw [hd]; simpa using h.symm), rfl, by simp, fun v g g' hg hg' ix _ => ?_⟩
  simp only [List.getElem?_map, hg, Option.map_some, Option.some.injEq] at hg'
  rw [← hg']
  simp

/-- The first dimension. -/
noncomputable def Ex.x : Dim := ⟨(List.range 4).map fun j : ℕ => (j : ℝ) - (2 : ℤ), 10, 3, 0⟩

/-- The first dimension after the transformation. -/
noncomputable def Ex.t : Dim := ⟨(List.range 4).map fun j : ℕ => (j : ℝ) - (2 : ℤ), 1 / 40, 0, 3⟩

theorem Ex.reciprocal : Spec.Reciprocal 4 Ex.x Ex.t where
  pos := by norm_num
  first := ⟨2, rfl⟩
  second := ⟨2, by norm_num, by norm_num, rfl⟩
  zero := rfl
  spacing := by simp [Ex.x, Ex.t]; norm_num

/-- The second dimension: coordinates 0, 5, 10. -/
noncomputable def Ex.y : Dim := ⟨(List.range 3).map fun j : ℕ => (j : ℝ) - (0 : ℤ), 5, 0, 0⟩

/-- A shear by 2 moves the cross-section at coordinate 10 by 20, that is by two points. -/
example (g : List ℕ → ℂ) : ∃ (st' : Store) (r' : ℕ) (d' : Data) (g' : List ℕ → ℂ),
    applyOperations (Ex.lib 0 4 1 Ex.x Ex.t) [.fft [0], .shear 2 0 1 .all, .fft [0]] ([⟨[Ex.x, Ex.y], [g]⟩], 0) = (st', .ok r') ∧
      st'[r']? = some d' ∧ d'.dvs = [g'] ∧ g' [3, 2] = g [1, 2] := by
  have hne : Ex.x ≠ Ex.t := by
    intro h
    have := congrArg Dim.increment h
    norm_num [Ex.x, Ex.t] at this
  obtain ⟨st', r', d', h1, h2, h3, h4, h5⟩ := C92_displacement_partial (Ex.lib 0 4 1 Ex.x Ex.t) 0 4 1 (Or.inl rfl) Ex.x Ex.t (fun _ => 1) (by simp)
    (Ex.lib_forward 0 4 1 Ex.x Ex.t) (Ex.lib_backward _ _ _ _ _ hne) [⟨2, 1, .all⟩] [⟨[Ex.x, Ex.y], [g]⟩] 0 ⟨[Ex.x, Ex.y], [g]⟩ rfl rfl
    (by simp [Spec.Names])
  obtain ⟨g', hg'⟩ : ∃ g', d'.dvs = [g'] := List.length_eq_one_iff.mp h4
  refine ⟨st', r', d', g', h1, h2, hg', ?_⟩
  rw [h5 0 g g' rfl (by rw [hg']; rfl) [3, 2] ⟨by simp, by simp⟩]
  rw [C92_steps 4 1 (Or.inl rfl) Ex.x Ex.t Ex.reciprocal _ _ (by simp) 2]
  · rfl
  · have : Spec.at Ex.y 2 = 10 := by
      rw [at_eq Ex.y 3 0 rfl 2 (by norm_num)]
      norm_num [Ex.y]
    simp only [Spec.lag, Spec.times, List.map_cons, List.map_nil, List.sum_cons, List.sum_nil, Nat.cast_one]
    change 1 * (1 * (2 * Spec.at Ex.y 2) + 0) = _
    rw [this]
    norm_num [Ex.x]

end MRS.Signal
