import Verif.Bin.Orient
import Mathlib.Tactic.Linarith

/-!
# Total weight of an octant — property C63

The weights of octahedron.c:12-44 are used as they are (mrsimulator.c:74-87 only divides by
the number of octants and by the squared number of sidebands); every triangle receives the
sum of the weights of its vertices (interpolation.c:670-701).
-/

namespace MRS.Bin

/-- The array `amp` filled by octahedron.c:12-44. -/
noncomputable def weight (nt : Nat) (i : Nat) : ℝ :=
  match (directions nt)[i]? with
  | some d => d.2.2.2
  | none => 0

theorem weight_eq (nt : Nat) (hn : 1 ≤ nt) (i : Nat) (p : Nat × Nat)
    (h : (Spec.grid nt)[i]? = some p) :
    weight nt i = (nt : ℝ) / Spec.len (Spec.point nt p) ^ 3 := by
  obtain ⟨_, d, hd, _, _, _, h4, _⟩ := (C39_grid nt hn).2 i p h
  unfold weight
  rw [hd]
  exact h4

theorem len_bounds (nt : Nat) (p : Nat × Nat) (hp : p.1 + p.2 ≤ nt) :
    (nt : ℝ) / Real.sqrt 3 ≤ Spec.len (Spec.point nt p) ∧ Spec.len (Spec.point nt p) ≤ nt := by
  have h1 : (0 : ℝ) ≤ (nt : ℝ) - p.1 - p.2 := by
    have : ((p.1 + p.2 : Nat) : ℝ) ≤ nt := by exact_mod_cast hp
    push_cast at this
    linarith
  have h2 : (0 : ℝ) ≤ p.1 := Nat.cast_nonneg _
  have h3 : (0 : ℝ) ≤ p.2 := Nat.cast_nonneg _
  have key : ∀ x y z : ℝ, 0 ≤ x → 0 ≤ y → 0 ≤ z →
      (x + y + z) ^ 2 / 3 ≤ x ^ 2 + y ^ 2 + z ^ 2 ∧ x ^ 2 + y ^ 2 + z ^ 2 ≤ (x + y + z) ^ 2 := by
    intro x y z hx hy hz
    constructor
    · nlinarith [sq_nonneg (x - y), sq_nonneg (y - z), sq_nonneg (x - z)]
    · nlinarith [mul_nonneg hx hy, mul_nonneg hy hz, mul_nonneg hx hz]
  obtain ⟨k1, k2⟩ := key _ _ _ h1 h3 h2
  have hs : (nt : ℝ) - p.1 - p.2 + p.2 + p.1 = nt := by ring
  rw [hs] at k1 k2
  unfold Spec.len Spec.point
  dsimp only
  constructor
  · apply Real.le_sqrt_of_sq_le
    rw [div_pow, Real.sq_sqrt (by norm_num)]
    exact k1
  · exact (Real.sqrt_le_sqrt k2).trans (Real.sqrt_sq (Nat.cast_nonneg nt)).le

theorem weight_bounds (nt : Nat) (hn : 1 ≤ nt) (p : Nat × Nat) (hp : p.1 + p.2 ≤ nt) :
    1 / (nt : ℝ) ^ 2 ≤ (nt : ℝ) / Spec.len (Spec.point nt p) ^ 3 ∧
    (nt : ℝ) / Spec.len (Spec.point nt p) ^ 3 ≤ 3 * Real.sqrt 3 / (nt : ℝ) ^ 2 := by
  obtain ⟨l1, l2⟩ := len_bounds nt p hp
  have hn0 : (0 : ℝ) < nt := by exact_mod_cast (by omega : 0 < nt)
  have hpos := len_pos nt hn p
  have h3 : (0 : ℝ) < Real.sqrt 3 := Real.sqrt_pos.mpr (by norm_num)
  constructor
  · rw [div_le_div_iff₀ (by positivity) (by positivity)]
    have := pow_le_pow_left₀ hpos.le l2 3
    nlinarith
  · have hlow : ((nt : ℝ) / Real.sqrt 3) ^ 3 ≤ Spec.len (Spec.point nt p) ^ 3 :=
      pow_le_pow_left₀ (by positivity) l1 3
    have h33 : Real.sqrt 3 ^ 3 = 3 * Real.sqrt 3 := by
      rw [pow_succ, Real.sq_sqrt (by norm_num)]
    have hd : ((nt : ℝ) / Real.sqrt 3) ^ 3 = (nt : ℝ) ^ 3 / (3 * Real.sqrt 3) := by
      rw [div_pow, h33]
    rw [hd] at hlow
    calc (nt : ℝ) / Spec.len (Spec.point nt p) ^ 3
        ≤ (nt : ℝ) / ((nt : ℝ) ^ 3 / (3 * Real.sqrt 3)) :=
          div_le_div_of_nonneg_left hn0.le (by positivity) hlow
      _ = 3 * Real.sqrt 3 / (nt : ℝ) ^ 2 := by field_simp

theorem sum_bounds {α : Type} (l : List α) (f : α → ℝ) (a b : ℝ)
    (h : ∀ x ∈ l, a ≤ f x ∧ f x ≤ b) :
    l.length * a ≤ (l.map f).sum ∧ (l.map f).sum ≤ l.length * b := by
  induction l with
  | nil => simp
  | cons x l ih =>
    obtain ⟨h1, h2⟩ := h x (by simp)
    obtain ⟨h3, h4⟩ := ih fun y hy => h y (by simp [hy])
    simp only [List.map_cons, List.sum_cons, List.length_cons]
    push_cast
    constructor <;> linarith

/-- **C63, partial.** For every density the total weight of an octant lies between `3` and
`9√3`: no density makes the powder vanish or diverge. Missing: equality between densities,
which fails, see `C63_counterexample`. -/
theorem C63_bounds_partial (nt : Nat) (hn : 1 ≤ nt) :
    3 ≤ totalAmplitude nt (weight nt) ∧ totalAmplitude nt (weight nt) ≤ 9 * Real.sqrt 3 := by
  rw [C38_total_amplitude nt (fun p => (nt : ℝ) / Spec.len (Spec.point nt p) ^ 3) (weight nt)
    (fun i p h => weight_eq nt hn i p h) (triList nt) (triList_nodup nt) (mem_triList nt)]
  have h := sum_bounds (triList nt)
    (fun t => (nt : ℝ) / Spec.len (Spec.point nt t.1) ^ 3 + (nt : ℝ) / Spec.len (Spec.point nt t.2.1) ^ 3 +
      (nt : ℝ) / Spec.len (Spec.point nt t.2.2) ^ 3) (3 * (1 / (nt : ℝ) ^ 2))
    (3 * (3 * Real.sqrt 3 / (nt : ℝ) ^ 2)) (by
      intro t ht
      obtain ⟨h1, h2, h3⟩ := tri_bounds nt t ht
      have a := weight_bounds nt hn _ h1
      have b := weight_bounds nt hn _ h2
      have c := weight_bounds nt hn _ h3
      constructor <;> linarith [a.1, a.2, b.1, b.2, c.1, c.2])
  rw [triList_length] at h
  have hn0 : (nt : ℝ) ≠ 0 := by
    have : nt ≠ 0 := by omega
    exact_mod_cast this
  push_cast at h
  constructor
  · calc (3 : ℝ) = (nt : ℝ) * nt * (3 * (1 / (nt : ℝ) ^ 2)) := by field_simp
      _ ≤ _ := h.1
  · calc _ ≤ (nt : ℝ) * nt * (3 * (3 * Real.sqrt 3 / (nt : ℝ) ^ 2)) := h.2
      _ = 9 * Real.sqrt 3 := by field_simp; ring

/-- **C63, where the code disagrees.** Density 1 gives a total of `3`, density 2 a total above
`7`: total intensity depends on the density. -/
theorem C63_counterexample :
    totalAmplitude 1 (weight 1) = 3 ∧ 7 < totalAmplitude 2 (weight 2) := by
  have e1 : ∀ p, Spec.len (Spec.point 1 p) = Real.sqrt (((1 : ℝ) - p.1 - p.2) ^ 2 + (p.2 : ℝ) ^ 2 + (p.1 : ℝ) ^ 2) := by
    intro p; simp [Spec.len, Spec.point]
  have e2 : ∀ p, Spec.len (Spec.point 2 p) = Real.sqrt (((2 : ℝ) - p.1 - p.2) ^ 2 + (p.2 : ℝ) ^ 2 + (p.1 : ℝ) ^ 2) := by
    intro p; simp [Spec.len, Spec.point]
  constructor
  · rw [C38_total_amplitude 1 (fun p => ((1 : Nat) : ℝ) / Spec.len (Spec.point 1 p) ^ 3) (weight 1)
      (fun i p h => weight_eq 1 le_rfl i p h) (triList 1) (triList_nodup 1) (mem_triList 1)]
    have : triList 1 = [((0, 0), (0, 1), (1, 0))] := by decide
    rw [this]
    simp only [List.map_cons, List.map_nil, List.sum_cons, List.sum_nil, e1]
    norm_num
  · rw [C38_total_amplitude 2 (fun p => ((2 : Nat) : ℝ) / Spec.len (Spec.point 2 p) ^ 3) (weight 2)
      (fun i p h => weight_eq 2 (by omega) i p h) (triList 2) (triList_nodup 2) (mem_triList 2)]
    have : triList 2 = [((0, 0), (0, 1), (1, 0)), ((0, 1), (1, 0), (1, 1)), ((0, 1), (0, 2), (1, 1)),
      ((1, 0), (1, 1), (2, 0))] := by decide
    rw [this]
    simp only [List.map_cons, List.map_nil, List.sum_cons, List.sum_nil, e2]
    have h4 : Real.sqrt 4 = 2 := by
      rw [show (4 : ℝ) = 2 ^ 2 by norm_num]
      exact Real.sqrt_sq (by norm_num)
    have hs2 : Real.sqrt 2 ^ 3 = 2 * Real.sqrt 2 := by
      rw [pow_succ, Real.sq_sqrt (by norm_num)]
    have hlt : Real.sqrt 2 < 36 / 25 := by
      rw [Real.sqrt_lt' (by norm_num)]
      norm_num
    have hpos : 0 < Real.sqrt 2 := Real.sqrt_pos.mpr (by norm_num)
    have hinv : 25 / 36 < 1 / Real.sqrt 2 := by
      rw [lt_div_iff₀ hpos]
      linarith
    norm_num [h4, hs2]
    have : (2 : ℝ) / (2 * Real.sqrt 2) = 1 / Real.sqrt 2 := by field_simp
    norm_num at *
    nlinarith

example : totalAmplitude 1 (weight 1) ≠ totalAmplitude 2 (weight 2) := by
  have := C63_counterexample
  intro h
  linarith [this.1, this.2]

end MRS.Bin
