import Verif.Trans.Methods
import Mathlib.Analysis.Real.Sqrt
import Mathlib.Tactic.NormNum

/-!
# The built-in shear and the rank-four quadrupolar term — property C17

The decimal constants of `spin_transition_functions.h` are replaced by the numbers
they approximate, which the documentation of the same functions states:
`0.316227766 = 1/√10`, `0.1434274331 = √(18/875)`, `1.2850792082 = 17/√175`.
-/

namespace MRS.Trans

/-! ## Model -/

/-- spin_transition_functions.h:29. -/
def STFp (mf mi : ℝ) : ℝ := mf - mi

/-- spin_transition_functions.h:66-72. -/
noncomputable def STFf (mf mi spin : ℝ) : ℝ :=
  ((1 - 3 * spin * (spin + 1)) * (mf - mi) + 5 * (mf * mf * mf - mi * mi * mi)) * (1 / √10)

/-- spin_transition_functions.h:98-108, third entry of `cl_value` (rank four). -/
noncomputable def STFc4 (mf mi spin : ℝ) : ℝ :=
  -√(18 / 875) * ((spin * (spin + 1) - 3 / 4) * STFp mf mi) + -(17 / √175) * STFf mf mi spin

/-! ## Specification -/

namespace Spec

/-- The rank-four contribution of a pathway (one transition per dimension) to the
first dimension after the affine transformation `a` (row by row). The spatial factor
is common to all transitions of a site, so only the spin part matters. -/
noncomputable def rank4 (a : List ℚ) (spin : ℝ) (path : List Tr) : ℝ :=
  match a, path with
  | [a00, a01, _, _], [([i0], [f0]), ([i1], [f1])] =>
      (a00 : ℝ) * STFc4 f0 i0 spin + (a01 : ℝ) * STFc4 f1 i1 spin
  | _, _ => 0

end Spec

/-! ## Lemmas -/

theorem STFc4_eq (mf mi spin : ℝ) :
    STFc4 mf mi spin = -(1 / √1750) * (6 * ((spin * (spin + 1) - 3 / 4) * (mf - mi)) +
      17 * ((1 - 3 * spin * (spin + 1)) * (mf - mi) + 5 * (mf ^ 3 - mi ^ 3))) := by
  have e1 : √(18 / 875 : ℝ) = 6 * (1 / √1750) := by
    have : (18 / 875 : ℝ) = 6 ^ 2 * (1 / 1750) := by norm_num
    rw [this, Real.sqrt_mul (by norm_num), Real.sqrt_sq (by norm_num), Real.sqrt_div (by norm_num),
      Real.sqrt_one]
  have e2 : (1 : ℝ) / √175 * (1 / √10) = 1 / √1750 := by
    have : (1750 : ℝ) = 175 * 10 := by norm_num
    rw [this, Real.sqrt_mul (by norm_num)]
    field_simp
  unfold STFc4 STFf STFp
  rw [e1]
  have : -(17 / √175) * (((1 - 3 * spin * (spin + 1)) * (mf - mi) +
      5 * (mf * mf * mf - mi * mi * mi)) * (1 / √10)) =
      -(17 * ((1 : ℝ) / √175 * (1 / √10))) * ((1 - 3 * spin * (spin + 1)) * (mf - mi) +
      5 * (mf * mf * mf - mi * mi * mi)) := by ring
  rw [this, e2]
  ring

theorem sqrt1750_ne : (1 / √1750 : ℝ) ≠ 0 := by
  have : (0 : ℝ) < √1750 := Real.sqrt_pos.mpr (by norm_num)
  positivity

/-! ## Properties -/

/-- **C17**, multiple quantum: for every supported spin and coherence order, on every
pathway the built-in shear cancels the rank-four term, and the weights add to one. -/
theorem C17_mq_shear (so : SetOrder) (c : String) (twoI : Nat) (name : String) (n : Nat)
    (hname : (name, n) ∈ mqSymmetry) (dims : List (List Query)) (a : List ℚ)
    (h : mqUpdate name twoI none = .ok (dims, a)) :
    ∃ paths, transitionPathways so [⟨c, twoI⟩] [c] dims = .ok paths ∧ paths ≠ [] ∧
      (∀ p ∈ paths, Spec.rank4 a ((twoI : ℝ) / 2) p = 0) ∧
      ∃ a0 a1, a = [a0, a1, 0, 1] ∧ a0 + a1 = 1 := by
  obtain ⟨h1, h2, h3⟩ := (C15_mq_domain name n hname twoI).mp ⟨_, h⟩
  refine ⟨_, C15_mq_vas so c twoI h1 name n hname h2 none dims a h, by simp, ?_, ?_⟩
  · intro p hp
    rw [List.mem_singleton] at hp
    subst hp
    simp only [mqSymmetry, List.mem_cons, Prod.mk.injEq, List.not_mem_nil, or_false] at hname
    rcases hname with ⟨rfl, rfl⟩ | ⟨rfl, rfl⟩ | ⟨rfl, rfl⟩ <;> interval_cases twoI <;>
      simp [mqUpdate, mqSymmetry, shearMQ, lookup2, updateAffine, List.lookup, bind, Except.bind,
        pure, Except.pure] at h h1 <;>
      (obtain ⟨-, rfl⟩ := h
       simp only [Spec.rank4, STFc4_eq]
       norm_num
       ring)
  · simp only [mqSymmetry, List.mem_cons, Prod.mk.injEq, List.not_mem_nil, or_false] at hname
    rcases hname with ⟨rfl, rfl⟩ | ⟨rfl, rfl⟩ | ⟨rfl, rfl⟩ <;> interval_cases twoI <;>
      simp [mqUpdate, mqSymmetry, shearMQ, lookup2, updateAffine, List.lookup, bind, Except.bind,
        pure, Except.pure] at h h1 <;>
      (obtain ⟨-, rfl⟩ := h
       exact ⟨_, _, rfl, by norm_num⟩)

/-- Non-vacuity: 3Q on spin 3/2. -/
example : mqUpdate "ThreeQ_VAS" 3 none =
    .ok ([[⟨[(1, [[-3]])], some [(1, [[0]])]⟩], [⟨[(1, [[-1]])], some [(1, [[0]])]⟩]],
      [9/16, 7/16, 0, 1]) := by
  simp [mqUpdate, mqSymmetry, shearMQ, lookup2, updateAffine, List.lookup, bind, Except.bind,
    pure, Except.pure]
  norm_num

/-- Spins for which the satellite methods exist with the built-in shear. -/
theorem C16_st_domain (name : String) (n : Nat) (hname : (name, n) ∈ stSymmetry) (twoI : Nat) :
    (∃ r, stUpdate name twoI none = .ok r) ↔ twoI % 2 = 1 ∧ n ≤ twoI ∧ twoI ≤ 9 := by
  have key : ∀ m (h : m ≤ 9), (∃ r, stUpdate name m none = .ok r) ↔ m % 2 = 1 ∧ n ≤ m := by
    intro m hm
    simp only [stSymmetry, List.mem_cons, Prod.mk.injEq, List.not_mem_nil, or_false] at hname
    rcases hname with ⟨rfl, rfl⟩ | ⟨rfl, rfl⟩ <;> interval_cases m <;>
      simp [stUpdate, stSymmetry, shearST, lookup2, updateAffine, List.lookup, bind, Except.bind,
        pure, Except.pure]
  by_cases hm : twoI ≤ 9
  · rw [key twoI hm]; omega
  · simp only [stSymmetry, List.mem_cons, Prod.mk.injEq, List.not_mem_nil, or_false] at hname
    have b3 : (twoI == 3) = false := by simp; omega
    have b5 : (twoI == 5) = false := by simp; omega
    have b7 : (twoI == 7) = false := by simp; omega
    have b9 : (twoI == 9) = false := by simp; omega
    constructor
    · rcases hname with ⟨rfl, rfl⟩ | ⟨rfl, rfl⟩ <;>
        simp [stUpdate, stSymmetry, shearST, lookup2, updateAffine, List.lookup, bind, Except.bind,
          b3, b5, b7, b9]
    · intro h; omega

/-- **C17**, satellite transitions, exactly: for a supported spin the built-in shear
cancels the rank-four term on all pathways iff the method is ST1 on spin 3/2 or ST2 on
spin 5/2 or 7/2. The claim of C17 therefore fails for ST1 on spin 5/2, 7/2, 9/2 and ST2
on spin 9/2, where the table of stvas.py has the wrong sign. -/
theorem C17_st_shear_partial (so : SetOrder) (c : String) (twoI : Nat) (name : String) (n : Nat)
    (hname : (name, n) ∈ stSymmetry) (dims : List (List Query)) (a : List ℚ)
    (h : stUpdate name twoI none = .ok (dims, a)) :
    ∃ paths, transitionPathways so [⟨c, twoI⟩] [c] dims = .ok paths ∧ paths ≠ [] ∧
      ((∀ p ∈ paths, Spec.rank4 a ((twoI : ℝ) / 2) p = 0) ↔
        (n = 3 ∧ twoI = 3) ∨ (n = 5 ∧ (twoI = 5 ∨ twoI = 7))) ∧
      ∃ a0 a1, a = [a0, a1, 0, 1] ∧ a0 + a1 = 1 := by
  obtain ⟨h1, h2, h3⟩ := (C16_st_domain name n hname twoI).mp ⟨_, h⟩
  have hs := sqrt1750_ne
  rw [one_div] at hs
  refine ⟨_, C16_st_vas so c twoI h1 name n hname h2 none dims a h, by simp, ?_, ?_⟩
  · simp only [List.mem_cons, List.not_mem_nil, or_false, forall_eq_or_imp, forall_eq]
    simp only [stSymmetry, List.mem_cons, Prod.mk.injEq, List.not_mem_nil, or_false] at hname
    rcases hname with ⟨rfl, rfl⟩ | ⟨rfl, rfl⟩ <;> interval_cases twoI <;>
      simp [stUpdate, stSymmetry, shearST, lookup2, updateAffine, List.lookup, bind, Except.bind,
        pure, Except.pure] at h h1 <;>
      (obtain ⟨-, rfl⟩ := h
       simp only [Spec.rank4, STFc4_eq, one_div]
       generalize (√1750)⁻¹ = s at hs
       norm_num [hs]
       first
         | (intro h'; apply hs; linarith)
         | ring)
  · simp only [stSymmetry, List.mem_cons, Prod.mk.injEq, List.not_mem_nil, or_false] at hname
    rcases hname with ⟨rfl, rfl⟩ | ⟨rfl, rfl⟩ <;> interval_cases twoI <;>
      simp [stUpdate, stSymmetry, shearST, lookup2, updateAffine, List.lookup, bind, Except.bind,
        pure, Except.pure] at h h1 <;>
      (obtain ⟨-, rfl⟩ := h
       exact ⟨_, _, rfl, by norm_num⟩)

/-- **C17**, disagreement: ST1_VAS on spin 5/2 (27Al) leaves rank-four broadening. -/
theorem C17_counterexample_st1 :
    ∃ (dims : List (List Query)) (a : List ℚ) (p : List Tr),
      stUpdate "ST1_VAS" 5 none = .ok (dims, a) ∧
      transitionPathways stdOrder [⟨"27Al", 5⟩] ["27Al"] dims =
        .ok [p, [([3/2], [1/2]), ([1/2], [-1/2])]] ∧
      Spec.rank4 a (5 / 2) p ≠ 0 := by
  have hs := sqrt1750_ne
  refine ⟨[[⟨[(1, [[-1]])], some [(1, [[2], [-2]])]⟩], [⟨[(1, [[-1]])], some [(1, [[0]])]⟩]],
    [24/31, 7/31, 0, 1], [([-1/2], [-3/2]), ([1/2], [-1/2])], ?_, by decide +kernel, ?_⟩
  · simp [stUpdate, stSymmetry, shearST, lookup2, updateAffine, List.lookup, bind, Except.bind,
      pure, Except.pure]
    norm_num
  · simp only [Spec.rank4, STFc4_eq]
    generalize 1 / √1750 = s at hs
    norm_num
    intro h
    apply hs
    linarith

/-- **C17**, given matrix: a matrix that the user gives replaces the built-in one, with any spin. -/
theorem C17_given (name : String) (n twoI : Nat) (a : List ℚ) :
    ((name, n) ∈ mqSymmetry → ∃ dims, mqUpdate name twoI (some a) = .ok (dims, a)) ∧
    ((name, n) ∈ stSymmetry → ∃ dims, stUpdate name twoI (some a) = .ok (dims, a)) := by
  constructor
  · intro h
    simp only [mqSymmetry, List.mem_cons, Prod.mk.injEq, List.not_mem_nil, or_false] at h
    rcases h with ⟨rfl, rfl⟩ | ⟨rfl, rfl⟩ | ⟨rfl, rfl⟩ <;> exact ⟨_, rfl⟩
  · intro h
    simp only [stSymmetry, List.mem_cons, Prod.mk.injEq, List.not_mem_nil, or_false] at h
    rcases h with ⟨rfl, rfl⟩ | ⟨rfl, rfl⟩ <;> exact ⟨_, rfl⟩

example : ("ThreeQ_VAS", 3) ∈ mqSymmetry ∧ ("ST1_VAS", 3) ∈ stSymmetry := by decide

end MRS.Trans
