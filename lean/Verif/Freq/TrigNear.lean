import Verif.Freq.WignerNear

/-!
# Accuracy of the Wigner matrices with the table of cosines and sines of the source

`wigner_d_matrices` (src/c_lib/lib/angular_momentum.c:46-51) takes the cosine and the sine of the angle from the table of
src/c_lib/include/tables/trig.h.  The elements of the matrices are polynomials in the two, so that an error of the table
is carried over with a factor that can be read off the coefficients.
-/

set_option linter.unusedSimpArgs false

namespace MRS.Freq

open Real

/-- A polynomial given by its coefficients and exponents. -/
noncomputable def poly (l : List (ℚ × ℕ × ℕ)) (c s : ℝ) : ℝ := (l.map fun t => (t.1 : ℝ) * (c ^ t.2.1 * s ^ t.2.2)).sum

/-- How much a polynomial changes at most, in units of the change of its arguments within the unit square. -/
def lip (l : List (ℚ × ℕ × ℕ)) : ℚ := (l.map fun t => |t.1| * ((t.2.1 + t.2.2 : ℕ) : ℚ)).sum

theorem pow_near (x y ε : ℝ) (hx : |x| ≤ 1) (hy : |y| ≤ 1) (h : |x - y| ≤ ε) (n : ℕ) : |x ^ n - y ^ n| ≤ n * ε := by
  induction n with
  | zero => simp
  | succ n ih =>
    have e : x ^ (n + 1) - y ^ (n + 1) = x ^ n * (x - y) + (x ^ n - y ^ n) * y := by ring
    have a : |x ^ n * (x - y)| ≤ 1 * ε := abs_mul_le (by rw [abs_pow]; exact pow_le_one₀ (abs_nonneg x) hx) h
    have b : |(x ^ n - y ^ n) * y| ≤ n * ε * 1 := abs_mul_le ih hy
    rw [e]
    refine (abs_add_le _ _).trans ?_
    push_cast
    linarith

theorem poly_near (c s c' s' ε : ℝ) (hc : |c| ≤ 1) (hs : |s| ≤ 1) (hc' : |c'| ≤ 1) (hs' : |s'| ≤ 1) (h1 : |c - c'| ≤ ε)
    (h2 : |s - s'| ≤ ε) (l : List (ℚ × ℕ × ℕ)) : |poly l c s - poly l c' s'| ≤ lip l * ε := by
  induction l with
  | nil => simp [poly, lip]
  | cons t l ih =>
    obtain ⟨q, a, b⟩ := t
    have e : poly ((q, a, b) :: l) c s - poly ((q, a, b) :: l) c' s'
        = (q : ℝ) * (c ^ a * (s ^ b - s' ^ b) + (c ^ a - c' ^ a) * s' ^ b) + (poly l c s - poly l c' s') := by
      unfold poly
      simp only [List.map_cons, List.sum_cons]
      ring
    have e' : ((lip ((q, a, b) :: l) : ℚ) : ℝ) = |(q : ℝ)| * (a + b) + lip l := by
      unfold lip
      simp only [List.map_cons, List.sum_cons]
      push_cast
      ring
    have ha : |c ^ a| ≤ 1 := by rw [abs_pow]; exact pow_le_one₀ (abs_nonneg c) hc
    have hb : |s' ^ b| ≤ 1 := by rw [abs_pow]; exact pow_le_one₀ (abs_nonneg s') hs'
    have m1 := abs_mul_le ha (pow_near s s' ε hs hs' h2 b)
    have m2 := abs_mul_le (pow_near c c' ε hc hc' h1 a) hb
    have m3 : |(q : ℝ) * (c ^ a * (s ^ b - s' ^ b) + (c ^ a - c' ^ a) * s' ^ b)| ≤ |(q : ℝ)| * ((a + b) * ε) :=
      abs_mul_le le_rfl ((abs_add_le _ _).trans (by linarith))
    rw [e, e']
    refine (abs_add_le _ _).trans ?_
    linarith

/-- The constants by number; number zero is one. -/
noncomputable def kval (K : WC) : ℕ → ℝ
  | 0 => 1
  | 1 => K.a2
  | 2 => K.b2
  | 3 => K.a4
  | 4 => K.b4
  | 5 => K.c4
  | 6 => K.d4
  | 7 => K.e4
  | 8 => K.f4
  | 9 => K.g4
  | _ => K.h4

/-- Bounds for the constants. -/
def kbound : ℕ → ℚ
  | 0 => 1 / 1
  | 1 => 31 / 50
  | 2 => 123 / 100
  | 3 => 9 / 50
  | 4 => 47 / 100
  | 5 => 53 / 100
  | 6 => 37 / 25
  | 7 => 17 / 50
  | 8 => 2 / 5
  | 9 => 14 / 25
  | _ => 9 / 25

theorem kval_le (k : ℕ) : |kval WC.exact k| ≤ kbound k := by
  have key : ∀ n m b : ℝ, 0 < m → 0 ≤ b → n ≤ (b * m) ^ 2 → |√n / m| ≤ b := by
    intro n m b hm hb h
    rw [abs_of_nonneg (by positivity), div_le_iff₀ hm]
    exact Real.sqrt_le_iff.mpr ⟨by positivity, h⟩
  unfold kval kbound
  split <;> first
    | (norm_num; done)
    | (unfold WC.exact; refine key _ _ _ (by norm_num) (by norm_num) (by norm_num))

/-- The elements of rank 2 as multiples of polynomials. -/
def table2 : ℕ → ℕ × List (ℚ × ℕ × ℕ)
  | 0 => (0, [(1 / 4, 0, 0), (1 / 2, 1, 0), (1 / 4, 2, 0)])
  | 1 => (0, [(-1 / 2, 0, 1), (-1 / 2, 1, 1)])
  | 2 => (1, [(1, 0, 2)])
  | 3 => (0, [(-1 / 2, 0, 1), (1 / 2, 1, 1)])
  | 4 => (0, [(1 / 4, 0, 0), (-1 / 2, 1, 0), (1 / 4, 2, 0)])
  | 5 => (0, [(1 / 2, 0, 1), (1 / 2, 1, 1)])
  | 6 => (0, [(-1 / 2, 0, 0), (1 / 2, 1, 0), (1, 2, 0)])
  | 7 => (2, [(-1, 1, 1)])
  | 8 => (0, [(1 / 2, 0, 0), (1 / 2, 1, 0), (-1, 2, 0)])
  | 9 => (0, [(-1 / 2, 0, 1), (1 / 2, 1, 1)])
  | 10 => (1, [(1, 0, 2)])
  | 11 => (2, [(1, 1, 1)])
  | 12 => (0, [(-1 / 2, 0, 0), (3 / 2, 2, 0)])
  | 13 => (2, [(-1, 1, 1)])
  | 14 => (1, [(1, 0, 2)])
  | 15 => (0, [(1 / 2, 0, 1), (-1 / 2, 1, 1)])
  | 16 => (0, [(1 / 2, 0, 0), (1 / 2, 1, 0), (-1, 2, 0)])
  | 17 => (2, [(1, 1, 1)])
  | 18 => (0, [(-1 / 2, 0, 0), (1 / 2, 1, 0), (1, 2, 0)])
  | 19 => (0, [(-1 / 2, 0, 1), (-1 / 2, 1, 1)])
  | 20 => (0, [(1 / 4, 0, 0), (-1 / 2, 1, 0), (1 / 4, 2, 0)])
  | 21 => (0, [(1 / 2, 0, 1), (-1 / 2, 1, 1)])
  | 22 => (1, [(1, 0, 2)])
  | 23 => (0, [(1 / 2, 0, 1), (1 / 2, 1, 1)])
  | 24 => (0, [(1 / 4, 0, 0), (1 / 2, 1, 0), (1 / 4, 2, 0)])
  | _ => (0, [])

/-- The elements of rank 4 as multiples of polynomials. -/
def table4 : ℕ → ℕ × List (ℚ × ℕ × ℕ)
  | 0 => (0, [(1 / 16, 0, 0), (1 / 4, 1, 0), (3 / 8, 2, 0), (1 / 4, 3, 0), (1 / 16, 4, 0)])
  | 1 => (3, [(-1, 0, 1), (-3, 1, 1), (-3, 2, 1), (-1, 3, 1)])
  | 2 => (7, [(1, 0, 2), (2, 1, 2), (1, 2, 2)])
  | 3 => (4, [(-1, 0, 3), (-1, 1, 3)])
  | 4 => (5, [(1, 0, 4)])
  | 5 => (4, [(-1, 0, 3), (1, 1, 3)])
  | 6 => (7, [(1, 0, 2), (-2, 1, 2), (1, 2, 2)])
  | 7 => (3, [(-1, 0, 1), (3, 1, 1), (-3, 2, 1), (1, 3, 1)])
  | 8 => (0, [(1 / 16, 0, 0), (-1 / 4, 1, 0), (3 / 8, 2, 0), (-1 / 4, 3, 0), (1 / 16, 4, 0)])
  | 9 => (3, [(1, 0, 1), (3, 1, 1), (3, 2, 1), (1, 3, 1)])
  | 10 => (0, [(-3 / 8, 0, 0), (-5 / 8, 1, 0), (3 / 8, 2, 0), (9 / 8, 3, 0), (1 / 2, 4, 0)])
  | 11 => (4, [(1, 0, 1), (-3, 2, 1), (-2, 3, 1)])
  | 12 => (7, [(-1, 0, 0), (3, 1, 0), (5, 2, 0), (-3, 3, 0), (-4, 4, 0)])
  | 13 => (6, [(-1, 1, 3)])
  | 14 => (7, [(1, 0, 0), (3, 1, 0), (-5, 2, 0), (-3, 3, 0), (4, 4, 0)])
  | 15 => (4, [(-1, 0, 1), (3, 2, 1), (-2, 3, 1)])
  | 16 => (0, [(3 / 8, 0, 0), (-5 / 8, 1, 0), (-3 / 8, 2, 0), (9 / 8, 3, 0), (-1 / 2, 4, 0)])
  | 17 => (3, [(-1, 0, 1), (3, 1, 1), (-3, 2, 1), (1, 3, 1)])
  | 18 => (7, [(1, 0, 2), (2, 1, 2), (1, 2, 2)])
  | 19 => (4, [(-1, 0, 1), (3, 2, 1), (2, 3, 1)])
  | 20 => (0, [(1 / 4, 0, 0), (-5 / 4, 1, 0), (-3 / 2, 2, 0), (7 / 4, 3, 0), (7 / 4, 4, 0)])
  | 21 => (10, [(1 / 2, 0, 1), (4, 1, 1), (-7 / 2, 2, 1), (-7, 3, 1)])
  | 22 => (8, [(-1, 0, 2), (7, 2, 2)])
  | 23 => (10, [(1 / 2, 0, 1), (-4, 1, 1), (-7 / 2, 2, 1), (7, 3, 1)])
  | 24 => (0, [(1 / 4, 0, 0), (5 / 4, 1, 0), (-3 / 2, 2, 0), (-7 / 4, 3, 0), (7 / 4, 4, 0)])
  | 25 => (4, [(-1, 0, 1), (3, 2, 1), (-2, 3, 1)])
  | 26 => (7, [(1, 0, 2), (-2, 1, 2), (1, 2, 2)])
  | 27 => (4, [(1, 0, 3), (1, 1, 3)])
  | 28 => (7, [(-1, 0, 0), (3, 1, 0), (5, 2, 0), (-3, 3, 0), (-4, 4, 0)])
  | 29 => (10, [(-1 / 2, 0, 1), (-4, 1, 1), (7 / 2, 2, 1), (7, 3, 1)])
  | 30 => (0, [(3 / 8, 0, 0), (-3 / 8, 1, 0), (-27 / 8, 2, 0), (7 / 8, 3, 0), (7 / 2, 4, 0)])
  | 31 => (9, [(3, 1, 1), (-7, 3, 1)])
  | 32 => (0, [(-3 / 8, 0, 0), (-3 / 8, 1, 0), (27 / 8, 2, 0), (7 / 8, 3, 0), (-7 / 2, 4, 0)])
  | 33 => (10, [(1 / 2, 0, 1), (-4, 1, 1), (-7 / 2, 2, 1), (7, 3, 1)])
  | 34 => (7, [(1, 0, 0), (3, 1, 0), (-5, 2, 0), (-3, 3, 0), (4, 4, 0)])
  | 35 => (4, [(-1, 0, 3), (1, 1, 3)])
  | 36 => (5, [(1, 0, 4)])
  | 37 => (6, [(1, 1, 3)])
  | 38 => (8, [(-1, 0, 2), (7, 2, 2)])
  | 39 => (9, [(-3, 1, 1), (7, 3, 1)])
  | 40 => (0, [(3 / 8, 0, 0), (-15 / 4, 2, 0), (35 / 8, 4, 0)])
  | 41 => (9, [(3, 1, 1), (-7, 3, 1)])
  | 42 => (8, [(-1, 0, 2), (7, 2, 2)])
  | 43 => (6, [(-1, 1, 3)])
  | 44 => (5, [(1, 0, 4)])
  | 45 => (4, [(1, 0, 3), (-1, 1, 3)])
  | 46 => (7, [(1, 0, 0), (3, 1, 0), (-5, 2, 0), (-3, 3, 0), (4, 4, 0)])
  | 47 => (10, [(-1 / 2, 0, 1), (4, 1, 1), (7 / 2, 2, 1), (-7, 3, 1)])
  | 48 => (0, [(-3 / 8, 0, 0), (-3 / 8, 1, 0), (27 / 8, 2, 0), (7 / 8, 3, 0), (-7 / 2, 4, 0)])
  | 49 => (9, [(-3, 1, 1), (7, 3, 1)])
  | 50 => (0, [(3 / 8, 0, 0), (-3 / 8, 1, 0), (-27 / 8, 2, 0), (7 / 8, 3, 0), (7 / 2, 4, 0)])
  | 51 => (10, [(1 / 2, 0, 1), (4, 1, 1), (-7 / 2, 2, 1), (-7, 3, 1)])
  | 52 => (7, [(-1, 0, 0), (3, 1, 0), (5, 2, 0), (-3, 3, 0), (-4, 4, 0)])
  | 53 => (4, [(-1, 0, 3), (-1, 1, 3)])
  | 54 => (7, [(1, 0, 2), (-2, 1, 2), (1, 2, 2)])
  | 55 => (4, [(1, 0, 1), (-3, 2, 1), (2, 3, 1)])
  | 56 => (0, [(1 / 4, 0, 0), (5 / 4, 1, 0), (-3 / 2, 2, 0), (-7 / 4, 3, 0), (7 / 4, 4, 0)])
  | 57 => (10, [(-1 / 2, 0, 1), (4, 1, 1), (7 / 2, 2, 1), (-7, 3, 1)])
  | 58 => (8, [(-1, 0, 2), (7, 2, 2)])
  | 59 => (10, [(-1 / 2, 0, 1), (-4, 1, 1), (7 / 2, 2, 1), (7, 3, 1)])
  | 60 => (0, [(1 / 4, 0, 0), (-5 / 4, 1, 0), (-3 / 2, 2, 0), (7 / 4, 3, 0), (7 / 4, 4, 0)])
  | 61 => (4, [(1, 0, 1), (-3, 2, 1), (-2, 3, 1)])
  | 62 => (7, [(1, 0, 2), (2, 1, 2), (1, 2, 2)])
  | 63 => (3, [(1, 0, 1), (-3, 1, 1), (3, 2, 1), (-1, 3, 1)])
  | 64 => (0, [(3 / 8, 0, 0), (-5 / 8, 1, 0), (-3 / 8, 2, 0), (9 / 8, 3, 0), (-1 / 2, 4, 0)])
  | 65 => (4, [(1, 0, 1), (-3, 2, 1), (2, 3, 1)])
  | 66 => (7, [(1, 0, 0), (3, 1, 0), (-5, 2, 0), (-3, 3, 0), (4, 4, 0)])
  | 67 => (6, [(1, 1, 3)])
  | 68 => (7, [(-1, 0, 0), (3, 1, 0), (5, 2, 0), (-3, 3, 0), (-4, 4, 0)])
  | 69 => (4, [(-1, 0, 1), (3, 2, 1), (2, 3, 1)])
  | 70 => (0, [(-3 / 8, 0, 0), (-5 / 8, 1, 0), (3 / 8, 2, 0), (9 / 8, 3, 0), (1 / 2, 4, 0)])
  | 71 => (3, [(-1, 0, 1), (-3, 1, 1), (-3, 2, 1), (-1, 3, 1)])
  | 72 => (0, [(1 / 16, 0, 0), (-1 / 4, 1, 0), (3 / 8, 2, 0), (-1 / 4, 3, 0), (1 / 16, 4, 0)])
  | 73 => (3, [(1, 0, 1), (-3, 1, 1), (3, 2, 1), (-1, 3, 1)])
  | 74 => (7, [(1, 0, 2), (-2, 1, 2), (1, 2, 2)])
  | 75 => (4, [(1, 0, 3), (-1, 1, 3)])
  | 76 => (5, [(1, 0, 4)])
  | 77 => (4, [(1, 0, 3), (1, 1, 3)])
  | 78 => (7, [(1, 0, 2), (2, 1, 2), (1, 2, 2)])
  | 79 => (3, [(1, 0, 1), (3, 1, 1), (3, 2, 1), (1, 3, 1)])
  | 80 => (0, [(1 / 16, 0, 0), (1 / 4, 1, 0), (3 / 8, 2, 0), (1 / 4, 3, 0), (1 / 16, 4, 0)])
  | _ => (0, [])

theorem wigner2j_poly (K : WC) (c s : ℝ) (i : ℕ) (hi : i < 25) :
    wigner2j K c s i = kval K (table2 i).1 * poly (table2 i).2 c s := by
  interval_cases i <;>
    (simp only [Nat.reduceMul, Nat.reduceAdd, Nat.reduceSub, wentry, table2, kval, poly, List.map_cons, List.map_nil, List.sum_cons, List.sum_nil]
     push_cast
     ring)

theorem wigner4j_poly_0 (K : WC) (c s : ℝ) (i : ℕ) (h0 : 0 ≤ i) (hi : i < 9) :
    wigner4j K c s i = kval K (table4 i).1 * poly (table4 i).2 c s := by
  interval_cases i <;>
    (simp only [Nat.reduceMul, Nat.reduceAdd, Nat.reduceSub, wentry, table4, kval, poly, List.map_cons, List.map_nil, List.sum_cons, List.sum_nil]
     push_cast
     ring)

theorem wigner4j_poly_1 (K : WC) (c s : ℝ) (i : ℕ) (h0 : 9 ≤ i) (hi : i < 18) :
    wigner4j K c s i = kval K (table4 i).1 * poly (table4 i).2 c s := by
  interval_cases i <;>
    (simp only [Nat.reduceMul, Nat.reduceAdd, Nat.reduceSub, wentry, table4, kval, poly, List.map_cons, List.map_nil, List.sum_cons, List.sum_nil]
     push_cast
     ring)

theorem wigner4j_poly_2 (K : WC) (c s : ℝ) (i : ℕ) (h0 : 18 ≤ i) (hi : i < 27) :
    wigner4j K c s i = kval K (table4 i).1 * poly (table4 i).2 c s := by
  interval_cases i <;>
    (simp only [Nat.reduceMul, Nat.reduceAdd, Nat.reduceSub, wentry, table4, kval, poly, List.map_cons, List.map_nil, List.sum_cons, List.sum_nil]
     push_cast
     ring)

theorem wigner4j_poly_3 (K : WC) (c s : ℝ) (i : ℕ) (h0 : 27 ≤ i) (hi : i < 36) :
    wigner4j K c s i = kval K (table4 i).1 * poly (table4 i).2 c s := by
  interval_cases i <;>
    (simp only [Nat.reduceMul, Nat.reduceAdd, Nat.reduceSub, wentry, table4, kval, poly, List.map_cons, List.map_nil, List.sum_cons, List.sum_nil]
     push_cast
     ring)

theorem wigner4j_poly_4 (K : WC) (c s : ℝ) (i : ℕ) (h0 : 36 ≤ i) (hi : i < 45) :
    wigner4j K c s i = kval K (table4 i).1 * poly (table4 i).2 c s := by
  interval_cases i <;>
    (simp only [Nat.reduceMul, Nat.reduceAdd, Nat.reduceSub, wentry, table4, kval, poly, List.map_cons, List.map_nil, List.sum_cons, List.sum_nil]
     push_cast
     ring)

theorem wigner4j_poly_5 (K : WC) (c s : ℝ) (i : ℕ) (h0 : 45 ≤ i) (hi : i < 54) :
    wigner4j K c s i = kval K (table4 i).1 * poly (table4 i).2 c s := by
  interval_cases i <;>
    (simp only [Nat.reduceMul, Nat.reduceAdd, Nat.reduceSub, wentry, table4, kval, poly, List.map_cons, List.map_nil, List.sum_cons, List.sum_nil]
     push_cast
     ring)

theorem wigner4j_poly_6 (K : WC) (c s : ℝ) (i : ℕ) (h0 : 54 ≤ i) (hi : i < 63) :
    wigner4j K c s i = kval K (table4 i).1 * poly (table4 i).2 c s := by
  interval_cases i <;>
    (simp only [Nat.reduceMul, Nat.reduceAdd, Nat.reduceSub, wentry, table4, kval, poly, List.map_cons, List.map_nil, List.sum_cons, List.sum_nil]
     push_cast
     ring)

theorem wigner4j_poly_7 (K : WC) (c s : ℝ) (i : ℕ) (h0 : 63 ≤ i) (hi : i < 72) :
    wigner4j K c s i = kval K (table4 i).1 * poly (table4 i).2 c s := by
  interval_cases i <;>
    (simp only [Nat.reduceMul, Nat.reduceAdd, Nat.reduceSub, wentry, table4, kval, poly, List.map_cons, List.map_nil, List.sum_cons, List.sum_nil]
     push_cast
     ring)

theorem wigner4j_poly_8 (K : WC) (c s : ℝ) (i : ℕ) (h0 : 72 ≤ i) (hi : i < 81) :
    wigner4j K c s i = kval K (table4 i).1 * poly (table4 i).2 c s := by
  interval_cases i <;>
    (simp only [Nat.reduceMul, Nat.reduceAdd, Nat.reduceSub, wentry, table4, kval, poly, List.map_cons, List.map_nil, List.sum_cons, List.sum_nil]
     push_cast
     ring)

theorem lip2 : ∀ i < 25, kbound (table2 i).1 * lip (table2 i).2 ≤ 3 := by decide +kernel

theorem lip4 : ∀ i < 81, kbound (table4 i).1 * lip (table4 i).2 ≤ 25 := by decide +kernel

theorem multiple_near (c s c' s' ε : ℝ) (hc : |c| ≤ 1) (hs : |s| ≤ 1) (hc' : |c'| ≤ 1) (hs' : |s'| ≤ 1) (h1 : |c - c'| ≤ ε)
    (h2 : |s - s'| ≤ ε) (k : ℕ) (l : List (ℚ × ℕ × ℕ)) (b : ℚ) (hb : kbound k * lip l ≤ b) :
    |kval WC.exact k * poly l c s - kval WC.exact k * poly l c' s'| ≤ b * ε := by
  have hε : 0 ≤ ε := (abs_nonneg _).trans h1
  have hb' : (kbound k : ℝ) * lip l ≤ b := by exact_mod_cast hb
  rw [← mul_sub]
  refine (abs_mul_le (kval_le k) (poly_near c s c' s' ε hc hs hc' hs' h1 h2 l)).trans ?_
  rw [← mul_assoc]
  exact mul_le_mul_of_nonneg_right hb' hε

theorem wigner2j_lip (c s c' s' ε : ℝ) (hc : |c| ≤ 1) (hs : |s| ≤ 1) (hc' : |c'| ≤ 1) (hs' : |s'| ≤ 1) (h1 : |c - c'| ≤ ε)
    (h2 : |s - s'| ≤ ε) (i : ℕ) (hi : i < 25) : |wigner2j WC.exact c s i - wigner2j WC.exact c' s' i| ≤ 3 * ε := by
  rw [wigner2j_poly _ c s i hi, wigner2j_poly _ c' s' i hi]
  have := multiple_near c s c' s' ε hc hs hc' hs' h1 h2 _ _ 3 (lip2 i hi)
  push_cast at this
  exact this

theorem wigner4j_poly (K : WC) (c s : ℝ) (i : ℕ) (hi : i < 81) :
    wigner4j K c s i = kval K (table4 i).1 * poly (table4 i).2 c s := by
  obtain ⟨q, hq⟩ : ∃ q, q = i / 9 := ⟨_, rfl⟩
  have hq9 : q < 9 := by omega
  interval_cases q
  · exact wigner4j_poly_0 K c s i (by omega) (by omega)
  · exact wigner4j_poly_1 K c s i (by omega) (by omega)
  · exact wigner4j_poly_2 K c s i (by omega) (by omega)
  · exact wigner4j_poly_3 K c s i (by omega) (by omega)
  · exact wigner4j_poly_4 K c s i (by omega) (by omega)
  · exact wigner4j_poly_5 K c s i (by omega) (by omega)
  · exact wigner4j_poly_6 K c s i (by omega) (by omega)
  · exact wigner4j_poly_7 K c s i (by omega) (by omega)
  · exact wigner4j_poly_8 K c s i (by omega) (by omega)

theorem wigner4j_lip (c s c' s' ε : ℝ) (hc : |c| ≤ 1) (hs : |s| ≤ 1) (hc' : |c'| ≤ 1) (hs' : |s'| ≤ 1) (h1 : |c - c'| ≤ ε)
    (h2 : |s - s'| ≤ ε) (i : ℕ) (hi : i < 81) : |wigner4j WC.exact c s i - wigner4j WC.exact c' s' i| ≤ 25 * ε := by
  rw [wigner4j_poly _ c s i hi, wigner4j_poly _ c' s' i hi]
  have := multiple_near c s c' s' ε hc hs hc' hs' h1 h2 _ _ 25 (lip4 i hi)
  push_cast at this
  exact this

/-- The factor by which the table is worse close to a full turn and beyond: its last entry stands for an angle that is
`1.5 * 10^-5` away from the full turn, and folding into one turn adds a little for every turn. -/
noncomputable def Spec.edge (x : ℝ) : ℝ := if |x| < 6.2831 then 1 else 20000 * (1 + |x|)

theorem edge_ge (x : ℝ) : 1 ≤ Spec.edge x := by
  unfold Spec.edge
  split_ifs
  · exact le_rfl
  · have := abs_nonneg x
    linarith

theorem edge_small (x : ℝ) (h : |x| < 6.2831) : Spec.edge x = 1 := if_pos h

theorem table_near (x : ℝ) :
    |WC.src.trig.cos x - WC.exact.trig.cos x| ≤ 1.25 / 10 ^ 9 * Spec.edge x ∧
    |WC.src.trig.sin x - WC.exact.trig.sin x| ≤ 1.25 / 10 ^ 9 * Spec.edge x := by
  have h := Sim.tableCosSin_near x _ rfl
  set k := ⌊|x| / Sim.const2Pi⌋ with hk
  have hx := abs_nonneg x
  have hC : (6 : ℝ) ≤ Sim.const2Pi := by unfold Sim.const2Pi; norm_num
  have hk1 : (k : ℝ) * Sim.const2Pi ≤ |x| := by
    have := Int.floor_le (|x| / Sim.const2Pi)
    rw [le_div_iff₀ (by linarith)] at this
    exact this
  have hk0 : (0 : ℝ) ≤ k := by
    have : 0 ≤ k := Int.floor_nonneg.mpr (by positivity)
    exact_mod_cast this
  have hb : ‖(⟨(Sim.tableCosSin x).1, (Sim.tableCosSin x).2⟩ : ℂ) - Complex.exp (|x| * Complex.I)‖ ≤ 1.25 / 10 ^ 9 * Spec.edge x := by
    refine h.trans ?_
    unfold Spec.edge
    split_ifs with h1 h2 h2
    · have hkz : k = 0 := by
        rw [hk, Int.floor_eq_zero_iff]
        refine ⟨by positivity, ?_⟩
        rw [div_lt_one (by linarith)]
        refine h2.trans ?_
        unfold Sim.const2Pi
        norm_num
      rw [hkz]
      norm_num
    · have : (k : ℝ) * 6 ≤ |x| := le_trans (mul_le_mul_of_nonneg_left hC hk0) hk1
      norm_num at *
      linarith
    · exact absurd (by nlinarith : |x| - k * Sim.const2Pi < 6.2831) h1
    · have : (k : ℝ) * 6 ≤ |x| := le_trans (mul_le_mul_of_nonneg_left hC hk0) hk1
      norm_num at *
      linarith
  have hre := (Complex.abs_re_le_norm _).trans hb
  have him := (Complex.abs_im_le_norm _).trans hb
  rw [Complex.sub_re, Complex.exp_ofReal_mul_I_re] at hre
  rw [Complex.sub_im, Complex.exp_ofReal_mul_I_im] at him
  exact ⟨hre, him⟩

end MRS.Freq
