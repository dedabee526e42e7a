import Verif.Freq.Wigner
import Mathlib.Tactic.FieldSimp

/-!
# Accuracy of the Wigner matrices with the decimals of the source
-/

set_option linter.unusedSimpArgs false

namespace MRS.Freq

open Real

set_option linter.unusedTactic false
set_option linter.unreachableTactic false

/-! ## Accuracy of the decimals -/

theorem sqrt_within {s v e : ℝ} (hv : 0 ≤ v - e) (hlo : (v - e) ^ 2 ≤ s) (hhi : s ≤ (v + e) ^ 2) (he : 0 ≤ e) :
    |v - √s| ≤ e := by
  rw [abs_le]
  constructor
  · have : √s ≤ v + e := Real.sqrt_le_iff.mpr ⟨by linarith, hhi⟩
    linarith
  · have : v - e ≤ √s := Real.le_sqrt_of_sq_le hlo
    linarith

/-- Every decimal is its square root to within 4e-10. -/
theorem WC.src_near :
    |WC.src.a2 - WC.exact.a2| ≤ 2 / 10 ^ 10 ∧ |WC.src.b2 - WC.exact.b2| ≤ 4 / 10 ^ 10 ∧
    |WC.src.a4 - WC.exact.a4| ≤ 5 / 10 ^ 11 ∧ |WC.src.b4 - WC.exact.b4| ≤ 5 / 10 ^ 11 ∧
    |WC.src.c4 - WC.exact.c4| ≤ 5 / 10 ^ 11 ∧ |WC.src.d4 - WC.exact.d4| ≤ 5 / 10 ^ 11 ∧
    |WC.src.e4 - WC.exact.e4| ≤ 5 / 10 ^ 11 ∧ |WC.src.f4 - WC.exact.f4| ≤ 5 / 10 ^ 11 ∧
    |WC.src.g4 - WC.exact.g4| ≤ 5 / 10 ^ 11 ∧ |WC.src.h4 - WC.exact.h4| ≤ 5 / 10 ^ 11 := by
  have key : ∀ v s d e : ℝ, 0 < d → |v * d - √s| ≤ e * d → |v - √s / d| ≤ e := by
    intro v s d e hd h
    rw [show v - √s / d = (v * d - √s) / d by field_simp, abs_div, abs_of_pos hd]
    exact (div_le_iff₀ hd).mpr h
  refine ⟨?_, ?_, ?_, ?_, ?_, ?_, ?_, ?_, ?_, ?_⟩ <;>
    (refine key _ _ _ _ (by norm_num) (sqrt_within ?_ ?_ ?_ ?_) <;> norm_num [WC.src])

theorem abs_mul_le {a b A B : ℝ} (ha : |a| ≤ A) (hb : |b| ≤ B) : |a * b| ≤ A * B := by
  rw [abs_mul]
  exact mul_le_mul ha hb (abs_nonneg b) (le_trans (abs_nonneg a) ha)

theorem wigner2j_near (c s : ℝ) (hc : |c| ≤ 1) (hs : |s| ≤ 1) (i : ℕ) (hi : i < 25) :
    |wigner2j WC.src c s i - wigner2j WC.exact c s i| ≤ 1 / 10 ^ 9 := by
  obtain ⟨ha, hb, -⟩ := WC.src_near
  have h1 := abs_le.mp (abs_mul_le (abs_mul_le ha hs) hs)
  have h2 := abs_le.mp (abs_mul_le (abs_mul_le hb hs) hc)
  clear ha hb hc hs
  interval_cases i <;> simp only [Nat.reduceMul, Nat.reduceAdd, Nat.reduceSub, wentry, sub_self, abs_zero] <;>
    first
    | norm_num; done
    | rw [abs_le]; constructor <;> linarith

theorem w4near_rat (c s : ℝ) (i : ℕ) (hi : i ∈ ([0, 80, 8, 72, 10, 70, 16, 64, 20, 60, 24, 56, 30, 50, 32, 48, 40] : List ℕ)) :
    |wigner4j WC.src c s i - wigner4j WC.exact c s i| ≤ 1 / 10 ^ 8 := by
  simp only [List.mem_cons, List.not_mem_nil, or_false] at hi
  rcases hi with rfl|rfl|rfl|rfl|rfl|rfl|rfl|rfl|rfl|rfl|rfl|rfl|rfl|rfl|rfl|rfl|rfl <;> (simp only [Nat.reduceMul, Nat.reduceAdd, Nat.reduceSub, wentry, sub_self, abs_zero]; norm_num)

theorem w4near_0 (c s : ℝ) (h : |(WC.src.a4 - WC.exact.a4) * ((1 + c) * (1 + c) * (1 + c)) * s| ≤ 1 / 10 ^ 8) (i : ℕ) (hi : i ∈ ([1, 9, 71, 79] : List ℕ)) :
    |wigner4j WC.src c s i - wigner4j WC.exact c s i| ≤ 1 / 10 ^ 8 := by
  simp only [List.mem_cons, List.not_mem_nil, or_false] at hi
  rcases hi with rfl|rfl|rfl|rfl <;> (simp only [Nat.reduceMul, Nat.reduceAdd, Nat.reduceSub, wentry]; refine le_of_eq_of_le ?_ h; first | (congr 1; ring1) | (rw [← abs_neg]; congr 1; ring1))

theorem w4near_1 (c s : ℝ) (h : |(WC.src.e4 - WC.exact.e4) * (s * s) * ((1 + c) * (1 + c))| ≤ 1 / 10 ^ 8) (i : ℕ) (hi : i ∈ ([2, 18, 62, 78] : List ℕ)) :
    |wigner4j WC.src c s i - wigner4j WC.exact c s i| ≤ 1 / 10 ^ 8 := by
  simp only [List.mem_cons, List.not_mem_nil, or_false] at hi
  rcases hi with rfl|rfl|rfl|rfl <;> (simp only [Nat.reduceMul, Nat.reduceAdd, Nat.reduceSub, wentry]; refine le_of_eq_of_le ?_ h; first | (congr 1; ring1) | (rw [← abs_neg]; congr 1; ring1))

theorem w4near_2 (c s : ℝ) (h : |(WC.src.b4 - WC.exact.b4) * (1 + c) * (s * s * s)| ≤ 1 / 10 ^ 8) (i : ℕ) (hi : i ∈ ([3, 27, 53, 77] : List ℕ)) :
    |wigner4j WC.src c s i - wigner4j WC.exact c s i| ≤ 1 / 10 ^ 8 := by
  simp only [List.mem_cons, List.not_mem_nil, or_false] at hi
  rcases hi with rfl|rfl|rfl|rfl <;> (simp only [Nat.reduceMul, Nat.reduceAdd, Nat.reduceSub, wentry]; refine le_of_eq_of_le ?_ h; first | (congr 1; ring1) | (rw [← abs_neg]; congr 1; ring1))

theorem w4near_3 (c s : ℝ) (h : |(WC.src.c4 - WC.exact.c4) * (s * s * s) * s| ≤ 1 / 10 ^ 8) (i : ℕ) (hi : i ∈ ([4, 36, 44, 76] : List ℕ)) :
    |wigner4j WC.src c s i - wigner4j WC.exact c s i| ≤ 1 / 10 ^ 8 := by
  simp only [List.mem_cons, List.not_mem_nil, or_false] at hi
  rcases hi with rfl|rfl|rfl|rfl <;> (simp only [Nat.reduceMul, Nat.reduceAdd, Nat.reduceSub, wentry]; refine le_of_eq_of_le ?_ h; first | (congr 1; ring1) | (rw [← abs_neg]; congr 1; ring1))

theorem w4near_4 (c s : ℝ) (h : |(WC.src.b4 - WC.exact.b4) * (1 - c) * (s * s * s)| ≤ 1 / 10 ^ 8) (i : ℕ) (hi : i ∈ ([5, 35, 45, 75] : List ℕ)) :
    |wigner4j WC.src c s i - wigner4j WC.exact c s i| ≤ 1 / 10 ^ 8 := by
  simp only [List.mem_cons, List.not_mem_nil, or_false] at hi
  rcases hi with rfl|rfl|rfl|rfl <;> (simp only [Nat.reduceMul, Nat.reduceAdd, Nat.reduceSub, wentry]; refine le_of_eq_of_le ?_ h; first | (congr 1; ring1) | (rw [← abs_neg]; congr 1; ring1))

theorem w4near_5 (c s : ℝ) (h : |(WC.src.e4 - WC.exact.e4) * (s * s) * ((1 - c) * (1 - c))| ≤ 1 / 10 ^ 8) (i : ℕ) (hi : i ∈ ([6, 26, 54, 74] : List ℕ)) :
    |wigner4j WC.src c s i - wigner4j WC.exact c s i| ≤ 1 / 10 ^ 8 := by
  simp only [List.mem_cons, List.not_mem_nil, or_false] at hi
  rcases hi with rfl|rfl|rfl|rfl <;> (simp only [Nat.reduceMul, Nat.reduceAdd, Nat.reduceSub, wentry]; refine le_of_eq_of_le ?_ h; first | (congr 1; ring1) | (rw [← abs_neg]; congr 1; ring1))

theorem w4near_6 (c s : ℝ) (h : |(WC.src.a4 - WC.exact.a4) * ((1 - c) * (1 - c) * (1 - c)) * s| ≤ 1 / 10 ^ 8) (i : ℕ) (hi : i ∈ ([7, 17, 63, 73] : List ℕ)) :
    |wigner4j WC.src c s i - wigner4j WC.exact c s i| ≤ 1 / 10 ^ 8 := by
  simp only [List.mem_cons, List.not_mem_nil, or_false] at hi
  rcases hi with rfl|rfl|rfl|rfl <;> (simp only [Nat.reduceMul, Nat.reduceAdd, Nat.reduceSub, wentry]; refine le_of_eq_of_le ?_ h; first | (congr 1; ring1) | (rw [← abs_neg]; congr 1; ring1))

theorem w4near_7 (c s : ℝ) (h : |(WC.src.b4 - WC.exact.b4) * ((1 + c) * (1 + c)) * s * (2 * c - 1)| ≤ 1 / 10 ^ 8) (i : ℕ) (hi : i ∈ ([11, 19, 61, 69] : List ℕ)) :
    |wigner4j WC.src c s i - wigner4j WC.exact c s i| ≤ 1 / 10 ^ 8 := by
  simp only [List.mem_cons, List.not_mem_nil, or_false] at hi
  rcases hi with rfl|rfl|rfl|rfl <;> (simp only [Nat.reduceMul, Nat.reduceAdd, Nat.reduceSub, wentry]; refine le_of_eq_of_le ?_ h; first | (congr 1; ring1) | (rw [← abs_neg]; congr 1; ring1))

theorem w4near_8 (c s : ℝ) (h : |(WC.src.e4 - WC.exact.e4) * (1 - c) * ((1 + c) * (1 + c)) * (-1 + 4 * c)| ≤ 1 / 10 ^ 8) (i : ℕ) (hi : i ∈ ([12, 28, 52, 68] : List ℕ)) :
    |wigner4j WC.src c s i - wigner4j WC.exact c s i| ≤ 1 / 10 ^ 8 := by
  simp only [List.mem_cons, List.not_mem_nil, or_false] at hi
  rcases hi with rfl|rfl|rfl|rfl <;> (simp only [Nat.reduceMul, Nat.reduceAdd, Nat.reduceSub, wentry]; refine le_of_eq_of_le ?_ h; first | (congr 1; ring1) | (rw [← abs_neg]; congr 1; ring1))

theorem w4near_9 (c s : ℝ) (h : |(WC.src.d4 - WC.exact.d4) * (s * s * s) * c| ≤ 1 / 10 ^ 8) (i : ℕ) (hi : i ∈ ([13, 37, 43, 67] : List ℕ)) :
    |wigner4j WC.src c s i - wigner4j WC.exact c s i| ≤ 1 / 10 ^ 8 := by
  simp only [List.mem_cons, List.not_mem_nil, or_false] at hi
  rcases hi with rfl|rfl|rfl|rfl <;> (simp only [Nat.reduceMul, Nat.reduceAdd, Nat.reduceSub, wentry]; refine le_of_eq_of_le ?_ h; first | (congr 1; ring1) | (rw [← abs_neg]; congr 1; ring1))

theorem w4near_10 (c s : ℝ) (h : |(WC.src.e4 - WC.exact.e4) * ((1 - c) * (1 - c)) * (1 + c) * (1 + 4 * c)| ≤ 1 / 10 ^ 8) (i : ℕ) (hi : i ∈ ([14, 34, 46, 66] : List ℕ)) :
    |wigner4j WC.src c s i - wigner4j WC.exact c s i| ≤ 1 / 10 ^ 8 := by
  simp only [List.mem_cons, List.not_mem_nil, or_false] at hi
  rcases hi with rfl|rfl|rfl|rfl <;> (simp only [Nat.reduceMul, Nat.reduceAdd, Nat.reduceSub, wentry]; refine le_of_eq_of_le ?_ h; first | (congr 1; ring1) | (rw [← abs_neg]; congr 1; ring1))

theorem w4near_11 (c s : ℝ) (h : |(WC.src.b4 - WC.exact.b4) * ((1 - c) * (1 - c)) * s * (-2 * c - 1)| ≤ 1 / 10 ^ 8) (i : ℕ) (hi : i ∈ ([15, 25, 55, 65] : List ℕ)) :
    |wigner4j WC.src c s i - wigner4j WC.exact c s i| ≤ 1 / 10 ^ 8 := by
  simp only [List.mem_cons, List.not_mem_nil, or_false] at hi
  rcases hi with rfl|rfl|rfl|rfl <;> (simp only [Nat.reduceMul, Nat.reduceAdd, Nat.reduceSub, wentry]; refine le_of_eq_of_le ?_ h; first | (congr 1; ring1) | (rw [← abs_neg]; congr 1; ring1))

theorem w4near_12 (c s : ℝ) (h : |(WC.src.h4 - WC.exact.h4) * (3 - (21 / 2) * (1 - c) + 7 * ((1 - c) * (1 - c))) * s * (1 + c)| ≤ 1 / 10 ^ 8) (i : ℕ) (hi : i ∈ ([21, 29, 51, 59] : List ℕ)) :
    |wigner4j WC.src c s i - wigner4j WC.exact c s i| ≤ 1 / 10 ^ 8 := by
  simp only [List.mem_cons, List.not_mem_nil, or_false] at hi
  rcases hi with rfl|rfl|rfl|rfl <;> (simp only [Nat.reduceMul, Nat.reduceAdd, Nat.reduceSub, wentry]; refine le_of_eq_of_le ?_ h; first | (congr 1; ring1) | (rw [← abs_neg]; congr 1; ring1))

theorem w4near_13 (c s : ℝ) (h : |(WC.src.f4 - WC.exact.f4) * (s * s) * (7 * (c * c) - 1)| ≤ 1 / 10 ^ 8) (i : ℕ) (hi : i ∈ ([22, 38, 42, 58] : List ℕ)) :
    |wigner4j WC.src c s i - wigner4j WC.exact c s i| ≤ 1 / 10 ^ 8 := by
  simp only [List.mem_cons, List.not_mem_nil, or_false] at hi
  rcases hi with rfl|rfl|rfl|rfl <;> (simp only [Nat.reduceMul, Nat.reduceAdd, Nat.reduceSub, wentry]; refine le_of_eq_of_le ?_ h; first | (congr 1; ring1) | (rw [← abs_neg]; congr 1; ring1))

theorem w4near_14 (c s : ℝ) (h : |(WC.src.h4 - WC.exact.h4) * (10 - (35 / 2) * (1 - c) + 7 * ((1 - c) * (1 - c))) * s * (1 - c)| ≤ 1 / 10 ^ 8) (i : ℕ) (hi : i ∈ ([23, 33, 47, 57] : List ℕ)) :
    |wigner4j WC.src c s i - wigner4j WC.exact c s i| ≤ 1 / 10 ^ 8 := by
  simp only [List.mem_cons, List.not_mem_nil, or_false] at hi
  rcases hi with rfl|rfl|rfl|rfl <;> (simp only [Nat.reduceMul, Nat.reduceAdd, Nat.reduceSub, wentry]; refine le_of_eq_of_le ?_ h; first | (congr 1; ring1) | (rw [← abs_neg]; congr 1; ring1))

theorem w4near_15 (c s : ℝ) (h : |(WC.src.g4 - WC.exact.g4) * (4 - 18 * (1 - c) + 21 * ((1 - c) * (1 - c)) - 7 * ((1 - c) * (1 - c) * (1 - c))) * s| ≤ 1 / 10 ^ 8) (i : ℕ) (hi : i ∈ ([31, 39, 41, 49] : List ℕ)) :
    |wigner4j WC.src c s i - wigner4j WC.exact c s i| ≤ 1 / 10 ^ 8 := by
  simp only [List.mem_cons, List.not_mem_nil, or_false] at hi
  rcases hi with rfl|rfl|rfl|rfl <;> (simp only [Nat.reduceMul, Nat.reduceAdd, Nat.reduceSub, wentry]; refine le_of_eq_of_le ?_ h; first | (congr 1; ring1) | (rw [← abs_neg]; congr 1; ring1))

theorem wigner4j_near (c s : ℝ) (hc : |c| ≤ 1) (hs : |s| ≤ 1) (i : ℕ) (hi : i < 81) :
    |wigner4j WC.src c s i - wigner4j WC.exact c s i| ≤ 1 / 10 ^ 8 := by
  obtain ⟨-, -, ha, hb, hcc, hd, he, hf, hg, hh⟩ := WC.src_near
  have hcb := abs_le.mp hc
  have hp : |1 + c| ≤ 2 := abs_le.mpr ⟨by linarith, by linarith⟩
  have hm : |1 - c| ≤ 2 := abs_le.mpr ⟨by linarith, by linarith⟩
  have q1 : |2 * c - 1| ≤ 3 := abs_le.mpr ⟨by linarith, by linarith⟩
  have q2 : |-2 * c - 1| ≤ 3 := abs_le.mpr ⟨by linarith, by linarith⟩
  have q3 : |7 * (c * c) - 1| ≤ 8 := abs_le.mpr ⟨by nlinarith, by nlinarith⟩
  have q4 : |-1 + 4 * c| ≤ 5 := abs_le.mpr ⟨by linarith, by linarith⟩
  have q5 : |1 + 4 * c| ≤ 5 := abs_le.mpr ⟨by linarith, by linarith⟩
  have q6 : |4 - 18 * (1 - c) + 21 * ((1 - c) * (1 - c)) - 7 * ((1 - c) * (1 - c) * (1 - c))| ≤ 10 := by
    have h3 : |c * (c * c)| ≤ 1 * (1 * 1) := abs_mul_le hc (abs_mul_le hc hc)
    rw [show 4 - 18 * (1 - c) + 21 * ((1 - c) * (1 - c)) - 7 * ((1 - c) * (1 - c) * (1 - c))
      = 7 * (c * (c * c)) - 3 * c by ring]
    have h3' := abs_le.mp h3
    exact abs_le.mpr ⟨by linarith, by linarith⟩
  have q7 : |3 - (21 / 2) * (1 - c) + 7 * ((1 - c) * (1 - c))| ≤ 11 :=
    abs_le.mpr ⟨by nlinarith, by nlinarith⟩
  have q8 : |10 - (35 / 2) * (1 - c) + 7 * ((1 - c) * (1 - c))| ≤ 11 :=
    abs_le.mpr ⟨by nlinarith, by nlinarith⟩
  have s3 := abs_mul_le (abs_mul_le hs hs) hs
  have p3 := abs_mul_le (abs_mul_le hp hp) hp
  have m3 := abs_mul_le (abs_mul_le hm hm) hm
  have hmem : i ∈ ([0, 80, 8, 72, 10, 70, 16, 64, 20, 60, 24, 56, 30, 50, 32, 48, 40] : List ℕ) ∨
      i ∈ ([1, 9, 71, 79] : List ℕ) ∨
      i ∈ ([2, 18, 62, 78] : List ℕ) ∨
      i ∈ ([3, 27, 53, 77] : List ℕ) ∨
      i ∈ ([4, 36, 44, 76] : List ℕ) ∨
      i ∈ ([5, 35, 45, 75] : List ℕ) ∨
      i ∈ ([6, 26, 54, 74] : List ℕ) ∨
      i ∈ ([7, 17, 63, 73] : List ℕ) ∨
      i ∈ ([11, 19, 61, 69] : List ℕ) ∨
      i ∈ ([12, 28, 52, 68] : List ℕ) ∨
      i ∈ ([13, 37, 43, 67] : List ℕ) ∨
      i ∈ ([14, 34, 46, 66] : List ℕ) ∨
      i ∈ ([15, 25, 55, 65] : List ℕ) ∨
      i ∈ ([21, 29, 51, 59] : List ℕ) ∨
      i ∈ ([22, 38, 42, 58] : List ℕ) ∨
      i ∈ ([23, 33, 47, 57] : List ℕ) ∨
      i ∈ ([31, 39, 41, 49] : List ℕ) := by
    clear ha hb hcc hd he hf hg hh q1 q2 q3 q4 q5 q6 q7 q8 s3 p3 m3 hp hm hc hs hcb
    interval_cases i <;> simp
  rcases hmem with h | h | h | h | h | h | h | h | h | h | h | h | h | h | h | h | h
  · exact w4near_rat c s i h
  · exact w4near_0 c s (le_trans (abs_mul_le (abs_mul_le ha p3) hs) (by norm_num)) i h
  · exact w4near_1 c s (le_trans (abs_mul_le (abs_mul_le he (abs_mul_le hs hs)) (abs_mul_le hp hp)) (by norm_num)) i h
  · exact w4near_2 c s (le_trans (abs_mul_le (abs_mul_le hb hp) s3) (by norm_num)) i h
  · exact w4near_3 c s (le_trans (abs_mul_le (abs_mul_le hcc s3) hs) (by norm_num)) i h
  · exact w4near_4 c s (le_trans (abs_mul_le (abs_mul_le hb hm) s3) (by norm_num)) i h
  · exact w4near_5 c s (le_trans (abs_mul_le (abs_mul_le he (abs_mul_le hs hs)) (abs_mul_le hm hm)) (by norm_num)) i h
  · exact w4near_6 c s (le_trans (abs_mul_le (abs_mul_le ha m3) hs) (by norm_num)) i h
  · exact w4near_7 c s (le_trans (abs_mul_le (abs_mul_le (abs_mul_le hb (abs_mul_le hp hp)) hs) q1) (by norm_num)) i h
  · exact w4near_8 c s (le_trans (abs_mul_le (abs_mul_le (abs_mul_le he hm) (abs_mul_le hp hp)) q4) (by norm_num)) i h
  · exact w4near_9 c s (le_trans (abs_mul_le (abs_mul_le hd s3) hc) (by norm_num)) i h
  · exact w4near_10 c s (le_trans (abs_mul_le (abs_mul_le (abs_mul_le he (abs_mul_le hm hm)) hp) q5) (by norm_num)) i h
  · exact w4near_11 c s (le_trans (abs_mul_le (abs_mul_le (abs_mul_le hb (abs_mul_le hm hm)) hs) q2) (by norm_num)) i h
  · exact w4near_12 c s (le_trans (abs_mul_le (abs_mul_le (abs_mul_le hh q7) hs) hp) (by norm_num)) i h
  · exact w4near_13 c s (le_trans (abs_mul_le (abs_mul_le hf (abs_mul_le hs hs)) q3) (by norm_num)) i h
  · exact w4near_14 c s (le_trans (abs_mul_le (abs_mul_le (abs_mul_le hh q8) hs) hm) (by norm_num)) i h
  · exact w4near_15 c s (le_trans (abs_mul_le (abs_mul_le hg q6) hs) (by norm_num)) i h

/-! ## The matrices the library computes -/

/-- C70: every element of the rank 2 matrix computed for an angle is Wigner's `d²` to within 1e-9. -/
theorem C70_rank2 (β : ℝ) (i j : ℕ) (hi : i < 5) (hj : j < 5) :
    |wigner2j WC.src (cos β) (sin β) (5 * i + j) - Spec.wignerD 2 ((j : ℤ) - 2) ((i : ℤ) - 2) β|
      ≤ 1 / 10 ^ 9 := by
  rw [← wigner2j_exact β i j hi hj]
  exact wigner2j_near _ _ (Real.abs_cos_le_one β) (Real.abs_sin_le_one β) _ (by omega)

example : |wigner2j WC.src (cos 1) (sin 1) (5 * 1 + 3) - Spec.wignerD 2 1 (-1) 1| ≤ 1 / 10 ^ 9 := by
  have := C70_rank2 1 1 3 (by norm_num) (by norm_num)
  norm_num at this ⊢
  exact this

/-- C70: every element of the rank 4 matrix computed for an angle is Wigner's `d⁴` to within 1e-8. -/
theorem C70_rank4 (β : ℝ) (i j : ℕ) (hi : i < 9) (hj : j < 9) :
    |wigner4j WC.src (cos β) (sin β) (9 * i + j) - Spec.wignerD 4 ((j : ℤ) - 4) ((i : ℤ) - 4) β|
      ≤ 1 / 10 ^ 8 := by
  rw [← wigner4j_exact β i j hi hj]
  exact wigner4j_near _ _ (Real.abs_cos_le_one β) (Real.abs_sin_le_one β) _ (by omega)

example : |wigner4j WC.src (cos 1) (sin 1) (9 * 3 + 8) - Spec.wignerD 4 4 (-1) 1| ≤ 1 / 10 ^ 8 := by
  have := C70_rank4 1 3 8 (by norm_num) (by norm_num)
  norm_num at this ⊢
  exact this

theorem half2 (K : WC) (c s : ℝ) (k : ℕ) (hk : k < 15) : wigner2jHalf K c s k = wigner2j K c s k := by
  interval_cases k <;> rfl

theorem half4 (K : WC) (c s : ℝ) (k : ℕ) (hk : k < 45) : wigner4jHalf K c s k = wigner4j K c s k := by
  interval_cases k <;> rfl

theorem dm0_2 (K : WC) (c s : ℝ) (i : ℕ) (hi : i < 5) : dm0Vector2 K c s i = wigner2j K c s (10 + i) := by
  interval_cases i <;> simp only [dm0Vector2, Nat.reduceMul, Nat.reduceAdd, Nat.reduceSub, wentry] <;> ring

theorem dm0_4 (K : WC) (c s : ℝ) (h : c ^ 2 + s ^ 2 = 1) (i : ℕ) (hi : i < 9) :
    dm0Vector4 K c s i = wigner4j K c s (36 + i) := by
  have hs : s * s = 1 - c ^ 2 := by linear_combination h
  interval_cases i <;> simp only [dm0Vector4, Nat.reduceMul, Nat.reduceAdd, Nat.reduceSub, wentry] <;> (try rw [hs]) <;> ring

/-- C70: the half matrices used for the orientations of the powder (rows `m ≤ 0` only) and the vector used
for the rotor angle (column `m = 0`) agree with Wigner's formula equally well. -/
theorem C70_reduced (β : ℝ) :
    (∀ i j, i < 3 → j < 5 →
      |wigner2jHalf WC.src (cos β) (sin β) (5 * i + j) - Spec.wignerD 2 ((j : ℤ) - 2) ((i : ℤ) - 2) β|
        ≤ 1 / 10 ^ 9) ∧
    (∀ i j, i < 5 → j < 9 →
      |wigner4jHalf WC.src (cos β) (sin β) (9 * i + j) - Spec.wignerD 4 ((j : ℤ) - 4) ((i : ℤ) - 4) β|
        ≤ 1 / 10 ^ 8) ∧
    (∀ j, j < 5 →
      |dm0Vector2 WC.src (cos β) (sin β) j - Spec.wignerD 2 ((j : ℤ) - 2) 0 β| ≤ 1 / 10 ^ 9) ∧
    (∀ j, j < 9 →
      |dm0Vector4 WC.src (cos β) (sin β) j - Spec.wignerD 4 ((j : ℤ) - 4) 0 β| ≤ 1 / 10 ^ 8) := by
  refine ⟨?_, ?_, ?_, ?_⟩
  · intro i j hi hj
    rw [half2 _ _ _ _ (by omega)]
    exact C70_rank2 β i j (by omega) hj
  · intro i j hi hj
    rw [half4 _ _ _ _ (by omega)]
    exact C70_rank4 β i j (by omega) hj
  · intro j hj
    rw [dm0_2 _ _ _ _ hj]
    have := C70_rank2 β 2 j (by omega) hj
    norm_num at this ⊢
    exact this
  · intro j hj
    rw [dm0_4 _ _ _ (Real.cos_sq_add_sin_sq β) _ hj]
    have := C70_rank4 β 4 j (by omega) hj
    norm_num at this ⊢
    exact this

example : |dm0Vector4 WC.src (cos 1) (sin 1) 1 - Spec.wignerD 4 (-3) 0 1| ≤ 1 / 10 ^ 8 := by
  have := (C70_reduced 1).2.2.2 1 (by norm_num)
  norm_num at this ⊢
  exact this

end MRS.Freq
