import Verif.Py
import Mathlib.Analysis.SpecialFunctions.Trigonometric.Arctan
import Mathlib.Analysis.Real.Pi.Bounds
import Mathlib.Tactic.FieldSimp
import Mathlib.Tactic.LinearCombination
import Mathlib.Tactic.FinCases

/-!
# Distribution models — properties C48, C49, C50, C51

Model of src/mrsimulator/models. Floats are reals. The random generator and the eigenvalue
routine of the linear algebra library are parameters.
-/

namespace MRS.Dist

open Real

/-- A 3 × 3 array (czjzek.py lines 13-68). -/
abbrev Mat := Fin 3 → Fin 3 → ℝ

/-! ## The random tensors -/

/-- One tensor of `_czjzek_random_distribution_tensors` (czjzek.py lines 44-65), from the draws
U1 and sqrt_3_U2, ..., sqrt_3_U5. -/
def czjzekTensor (u1 s2 s3 s4 s5 : ℝ) : Mat
  | 0, 0 => s5 - u1
  | 0, 1 => s4
  | 0, 2 => s2
  | 1, 0 => s4
  | 1, 1 => -s5 - u1
  | 1, 2 => s3
  | 2, 0 => s2
  | 2, 1 => s3
  | 2, 2 => 2 * u1

/-- Symmetric. -/
def Spec.Symmetric (t : Mat) : Prop := ∀ i j, t i j = t j i

/-- Traceless. -/
def Spec.Traceless (t : Mat) : Prop := t 0 0 + t 1 1 + t 2 2 = 0

/-- The sum of the squares of all components. -/
def Spec.normSq (t : Mat) : ℝ :=
  t 0 0 ^ 2 + t 0 1 ^ 2 + t 0 2 ^ 2 + (t 1 0 ^ 2 + t 1 1 ^ 2 + t 1 2 ^ 2) +
    (t 2 0 ^ 2 + t 2 1 ^ 2 + t 2 2 ^ 2)

/-- **C48.** Every random tensor is symmetric and traceless, its size is that of the five draws,
and every symmetric traceless tensor can be drawn, in exactly one way. -/
theorem C48_symmetric_traceless :
    (∀ u1 s2 s3 s4 s5, Spec.Symmetric (czjzekTensor u1 s2 s3 s4 s5) ∧
      Spec.Traceless (czjzekTensor u1 s2 s3 s4 s5) ∧
      Spec.normSq (czjzekTensor u1 s2 s3 s4 s5) =
        6 * u1 ^ 2 + 2 * (s2 ^ 2 + s3 ^ 2 + s4 ^ 2 + s5 ^ 2)) ∧
    ∀ t : Mat, Spec.Symmetric t → Spec.Traceless t →
      ∃! u : ℝ × ℝ × ℝ × ℝ × ℝ, czjzekTensor u.1 u.2.1 u.2.2.1 u.2.2.2.1 u.2.2.2.2 = t := by
  refine ⟨?_, ?_⟩
  · intro u1 s2 s3 s4 s5
    refine ⟨?_, ?_, ?_⟩
    · intro i j
      fin_cases i <;> fin_cases j <;> rfl
    · simp only [Spec.Traceless, czjzekTensor]
      ring
    · simp only [Spec.normSq, czjzekTensor]
      ring
  · intro t hs ht
    unfold Spec.Traceless at ht
    refine ⟨(t 2 2 / 2, t 0 2, t 1 2, t 0 1, (t 0 0 - t 1 1) / 2), ?_, ?_⟩
    · funext i j
      have h10 := hs 1 0
      have h20 := hs 2 0
      have h21 := hs 2 1
      fin_cases i <;> fin_cases j <;> simp [czjzekTensor] <;> linarith
    · rintro ⟨a, b, c, d, e⟩ h
      have h22 := congrFun (congrFun h 2) 2
      have h02 := congrFun (congrFun h 0) 2
      have h12 := congrFun (congrFun h 1) 2
      have h01 := congrFun (congrFun h 0) 1
      have h00 := congrFun (congrFun h 0) 0
      have h11 := congrFun (congrFun h 1) 1
      simp only [czjzekTensor] at h22 h02 h12 h01 h00 h11
      simp only [Prod.mk.injEq]
      refine ⟨by linarith, h02, h12, h01, by linarith⟩

example : czjzekTensor 1 2 3 4 5 0 0 = 4 ∧ czjzekTensor 1 2 3 4 5 1 2 = 3 := by
  simp only [czjzekTensor]
  norm_num

/-! ## Haeberlen parameters -/

/-- `get_principal_components` (models/utils.py lines 8-22). -/
noncomputable def principal (zeta eta : ℝ) : List ℝ :=
  [-(1 / 2) * zeta * (eta + 1), 1 / 2 * zeta * (eta - 1), zeta]

/-- Stable insertion by absolute value: the element goes before the first one that is not
smaller (models/utils.py lines 24-43). -/
noncomputable def insertAbs (x : ℝ) : List ℝ → List ℝ
  | [] => [x]
  | y :: l => if |x| ≤ |y| then x :: y :: l else y :: insertAbs x l

/-- `eig_val[argsort(abs(eig_val), kind="mergesort")]` (models/utils.py lines 33-36): the stable
sort by absolute value. -/
noncomputable def sortAbs : List ℝ → List ℝ
  | [] => []
  | x :: l => insertAbs x (sortAbs l)

/-- `get_Haeberlen_components` (models/utils.py lines 25-44) of one tensor, from its eigenvalues.
Dividing by zero gives nan, here `none`. -/
noncomputable def haeberlen (eig : List ℝ) : Option (ℝ × ℝ) :=
  match sortAbs eig with
  | [a, b, c] => if c = 0 then none else some (c, (a - b) / c)
  | _ => none

theorem insertAbs_perm (x : ℝ) (l : List ℝ) : (insertAbs x l).Perm (x :: l) := by
  induction l with
  | nil => exact List.Perm.refl _
  | cons y l ih =>
    unfold insertAbs
    split_ifs
    · exact List.Perm.refl _
    · exact (ih.cons y).trans (List.Perm.swap x y l)

theorem sortAbs_perm (l : List ℝ) : (sortAbs l).Perm l := by
  induction l with
  | nil => exact List.Perm.refl _
  | cons x l ih => exact (insertAbs_perm x _).trans (ih.cons x)

theorem insertAbs_sorted (x : ℝ) (l : List ℝ) (h : l.Pairwise fun a b => |a| ≤ |b|) :
    (insertAbs x l).Pairwise fun a b => |a| ≤ |b| := by
  induction l with
  | nil => simp [insertAbs]
  | cons y l ih =>
    rw [List.pairwise_cons] at h
    unfold insertAbs
    split_ifs with hxy
    · rw [List.pairwise_cons, List.pairwise_cons]
      refine ⟨?_, h⟩
      intro z hz
      rcases List.mem_cons.mp hz with rfl | hz
      · exact hxy
      · exact le_trans hxy (h.1 z hz)
    · rw [List.pairwise_cons]
      refine ⟨?_, ih h.2⟩
      intro z hz
      rcases List.mem_cons.mp ((insertAbs_perm x l).mem_iff.mp hz) with rfl | hz
      · exact le_of_lt (not_le.mp hxy)
      · exact h.1 z hz

theorem sortAbs_sorted (l : List ℝ) : (sortAbs l).Pairwise fun a b => |a| ≤ |b| := by
  induction l with
  | nil => exact List.Pairwise.nil
  | cons x l ih => exact insertAbs_sorted x _ ih

/-- The case that matters: three numbers sorted by magnitude with sum zero. -/
theorem haeberlen_core (a b c : ℝ) (hab : |a| ≤ |b|) (hbc : |b| ≤ |c|) (hs : a + b + c = 0)
    (hc : c ≠ 0) : 0 ≤ (a - b) / c ∧ (a - b) / c ≤ 1 ∧
      principal c ((a - b) / c) = [b, a, c] := by
  have hp : principal c ((a - b) / c) = [b, a, c] := by
    unfold principal
    have h1 : c * ((a - b) / c) = a - b := by field_simp
    have e1 : -(1 / 2) * c * ((a - b) / c + 1) = b := by linear_combination -(1/2) * h1 - (1/2) * hs
    have e2 : 1 / 2 * c * ((a - b) / c - 1) = a := by linear_combination (1/2) * h1 - (1/2) * hs
    rw [e1, e2]
  refine ⟨?_, ?_, hp⟩
  · rcases lt_or_gt_of_ne hc with hneg | hpos
    · apply div_nonneg_of_nonpos _ hneg.le
      rcases abs_cases a with ⟨h1, h2⟩ | ⟨h1, h2⟩ <;> rcases abs_cases b with ⟨h3, h4⟩ | ⟨h3, h4⟩ <;>
        rw [h1, h3] at hab <;> linarith
    · apply div_nonneg _ hpos.le
      rcases abs_cases a with ⟨h1, h2⟩ | ⟨h1, h2⟩ <;> rcases abs_cases b with ⟨h3, h4⟩ | ⟨h3, h4⟩ <;>
        rw [h1, h3] at hab <;> linarith
  · rcases lt_or_gt_of_ne hc with hneg | hpos
    · rw [div_le_one_of_neg hneg]
      rcases abs_cases b with ⟨h3, h4⟩ | ⟨h3, h4⟩ <;> rcases abs_cases c with ⟨h5, h6⟩ | ⟨h5, h6⟩ <;>
        rw [h3, h5] at hbc <;> linarith
    · rw [div_le_one hpos]
      rcases abs_cases b with ⟨h3, h4⟩ | ⟨h3, h4⟩ <;> rcases abs_cases c with ⟨h5, h6⟩ | ⟨h5, h6⟩ <;>
        rw [h3, h5] at hbc <;> linarith

/-- **C49.** For any three eigenvalues with sum zero, in any order, not all zero: zeta and eta
are defined, 0 ≤ eta ≤ 1, zeta is an eigenvalue of the largest magnitude, and
`get_principal_components` gives the eigenvalues back. -/
theorem C49_haeberlen (x y z : ℝ) (hs : x + y + z = 0) (h0 : ¬ (x = 0 ∧ y = 0 ∧ z = 0)) :
    ∃ zeta eta, haeberlen [x, y, z] = some (zeta, eta) ∧ 0 ≤ eta ∧ eta ≤ 1 ∧
      (∀ w ∈ [x, y, z], |w| ≤ |zeta|) ∧ (principal zeta eta).Perm [x, y, z] := by
  have hperm := sortAbs_perm [x, y, z]
  have hsort := sortAbs_sorted [x, y, z]
  have hlen := hperm.length_eq
  unfold haeberlen
  match hl : sortAbs [x, y, z] with
  | [] => rw [hl] at hlen; simp at hlen
  | [_] => rw [hl] at hlen; simp at hlen
  | [_, _] => rw [hl] at hlen; simp at hlen
  | _ :: _ :: _ :: _ :: _ => rw [hl] at hlen; simp at hlen
  | [a, b, c] =>
    rw [hl] at hperm hsort
    simp only [List.pairwise_cons, List.mem_cons, List.not_mem_nil, or_false, forall_eq_or_imp,
      forall_eq, IsEmpty.forall_iff, implies_true, List.Pairwise.nil, and_true] at hsort
    obtain ⟨⟨hab, hac⟩, hbc⟩ := hsort
    have hsum : a + b + c = 0 := by
      have := hperm.sum_eq
      simp only [List.sum_cons, List.sum_nil] at this
      linarith
    have hmax : ∀ w ∈ [x, y, z], |w| ≤ |c| := by
      intro w hw
      have := hperm.mem_iff.mpr hw
      simp only [List.mem_cons, List.not_mem_nil, or_false] at this
      rcases this with rfl | rfl | rfl
      · exact hac
      · exact hbc
      · exact le_refl _
    have hc : c ≠ 0 := by
      intro hc
      apply h0
      rw [hc, abs_zero] at hmax
      refine ⟨?_, ?_, ?_⟩
      · exact abs_nonpos_iff.mp (hmax x (by simp))
      · exact abs_nonpos_iff.mp (hmax y (by simp))
      · exact abs_nonpos_iff.mp (hmax z (by simp))
    obtain ⟨h1, h2, h3⟩ := haeberlen_core a b c hab hbc hsum hc
    refine ⟨c, (a - b) / c, if_neg hc, h1, h2, hmax, ?_⟩
    rw [h3]
    exact (List.Perm.swap a b [c]).trans hperm

/-- The only exception: the zero tensor has no zeta and eta. -/
theorem C49_zero : haeberlen [0, 0, 0] = none := by
  simp [haeberlen, sortAbs, insertAbs]

example : ∃ zeta eta, haeberlen [-3, 1, 2] = some (zeta, eta) ∧ 0 ≤ eta ∧ eta ≤ 1 := by
  obtain ⟨zeta, eta, h, h1, h2, _⟩ := C49_haeberlen (-3) 1 2 (by norm_num) (by norm_num)
  exact ⟨zeta, eta, h, h1, h2⟩

/-- **C49, the other way.** The parameters come back from the principal components, in whatever
order they are listed, if zeta is not zero and 0 ≤ eta < 1. (At eta = 1 the sign of zeta is not
determined by the tensor.) -/
theorem C49_round_trip (zeta eta : ℝ) (hz : zeta ≠ 0) (h0 : 0 ≤ eta) (h1 : eta < 1)
    (eig : List ℝ) (hp : eig.Perm (principal zeta eta)) : haeberlen eig = some (zeta, eta) := by
  have hperm := (sortAbs_perm eig).trans hp
  have hsort := sortAbs_sorted eig
  have hlen := hperm.length_eq
  have hxz : |-(1 / 2) * zeta * (eta + 1)| < |zeta| := by
    rw [mul_right_comm, abs_mul, mul_comm]
    have : |-(1 / 2) * (eta + 1)| < 1 := by
      rw [abs_lt]
      constructor <;> linarith
    calc |zeta| * |-(1 / 2) * (eta + 1)| < |zeta| * 1 := by
          apply mul_lt_mul_of_pos_left this (abs_pos.mpr hz)
      _ = |zeta| := mul_one _
  have hyx : |1 / 2 * zeta * (eta - 1)| ≤ |-(1 / 2) * zeta * (eta + 1)| := by
    rw [abs_mul, abs_mul, abs_mul, abs_mul, abs_of_nonneg (by linarith : (0 : ℝ) ≤ eta + 1),
      abs_of_nonpos (by linarith : eta - 1 ≤ 0), abs_neg]
    apply mul_le_mul_of_nonneg_left (by linarith)
    positivity
  unfold haeberlen
  match hl : sortAbs eig with
  | [] => rw [hl] at hlen; simp [principal] at hlen
  | [_] => rw [hl] at hlen; simp [principal] at hlen
  | [_, _] => rw [hl] at hlen; simp [principal] at hlen
  | _ :: _ :: _ :: _ :: _ => rw [hl] at hlen; simp [principal] at hlen
  | [a, b, c] =>
    rw [hl] at hperm hsort
    simp only [List.pairwise_cons, List.mem_cons, List.not_mem_nil, or_false, forall_eq_or_imp,
      forall_eq, IsEmpty.forall_iff, implies_true, List.Pairwise.nil, and_true] at hsort
    obtain ⟨⟨hab, hac⟩, hbc⟩ := hsort
    have hsum : a + b + c = 0 := by
      have := hperm.sum_eq
      simp only [principal, List.sum_cons, List.sum_nil] at this
      linarith
    have hmem : ∀ w, w ∈ [a, b, c] ↔ w ∈ principal zeta eta := fun w => hperm.mem_iff
    have hcz : c = zeta := by
      have hc := (hmem c).mp (by simp)
      have hzm := (hmem zeta).mpr (by simp [principal])
      have hzc : |zeta| ≤ |c| := by
        simp only [List.mem_cons, List.not_mem_nil, or_false] at hzm
        rcases hzm with h | h | h
        · rw [h]; exact hac
        · rw [h]; exact hbc
        · rw [h]
      simp only [principal, List.mem_cons, List.not_mem_nil, or_false] at hc
      rcases hc with h | h | h
      · rw [← h] at hxz; linarith
      · rw [← h] at hyx; linarith
      · exact h
    subst hcz
    simp only
    rw [if_neg hz]
    congr 2
    -- the remaining two
    have hb : b = -(1 / 2) * c * (eta + 1) := by
      have h2 : [a, b].Perm [-(1 / 2) * c * (eta + 1), 1 / 2 * c * (eta - 1)] := by
        have h3 : ([a, b] ++ [c]).Perm ([-(1 / 2) * c * (eta + 1), 1 / 2 * c * (eta - 1)] ++ [c]) :=
          hperm
        exact (List.perm_append_right_iff [c]).mp h3
      have hbm := h2.mem_iff.mp (show b ∈ [a, b] by simp)
      simp only [List.mem_cons, List.not_mem_nil, or_false] at hbm
      rcases hbm with h | h
      · exact h
      · -- then a is the first one, and equal in magnitude
        have ha : a = -(1 / 2) * c * (eta + 1) := by rw [h] at hsum; linarith
        rw [ha, h] at hab
        have heq : |1 / 2 * c * (eta - 1)| = |-(1 / 2) * c * (eta + 1)| := le_antisymm hyx hab
        rw [abs_eq_abs] at heq
        rcases heq with he | he
        · rw [h, he]
        · exfalso
          apply hz
          linarith
    rw [div_eq_iff hz]
    have ha : a = -c - b := by linarith
    rw [ha, hb]
    ring

example : haeberlen [-1, 3, -2] = some (3, 1 / 3) := by
  apply C49_round_trip 3 (1 / 3) (by norm_num) (by norm_num) (by norm_num)
  unfold principal
  norm_num
  exact (List.Perm.swap 3 (-1) [-2]).trans ((List.Perm.swap (-2) (-1) []).cons 3 |>.trans
    ((List.Perm.swap (-2) 3 [-1]).trans ((List.Perm.swap (-1) 3 []).cons (-2))))

/-! ## The polar grid -/

/-- The constant on lines 54 and 59, a decimal approximation of π/4. -/
noncomputable def quarterPi : ℝ := 7853981634 / 10000000000

/-- `x_y_from_zeta_eta` (models/utils.py lines 47-67) of one point. -/
noncomputable def fromZetaEta (zeta eta : ℝ) : ℝ × ℝ :=
  let temp := tan (quarterPi * eta)
  let r := sqrt (zeta * zeta / (temp * temp + 1))
  if 0 ≤ zeta then (temp * r, r) else (r, temp * r)

/-- `x_y_to_zeta_eta` (models/utils.py lines 70-82) of one point. -/
noncomputable def toZetaEta (x y : ℝ) : ℝ × ℝ :=
  let x := |x|
  let y := |y|
  let zeta := sqrt (x ^ 2 + y ^ 2)
  if y < x then (-zeta, 4 / π * arctan (y / x))
  else if x < y then (zeta, 4 / π * arctan (x / y))
  else (zeta, 1)

theorem quarterPi_gt : π / 4 < quarterPi := by
  have := Real.pi_lt_d20
  unfold quarterPi
  linarith

theorem quarterPi_lt : quarterPi < π / 4 * (1 + 4 / 1000000000000) := by
  have := Real.pi_gt_d20
  unfold quarterPi
  linarith

theorem tan_sq_add (zeta t : ℝ) :
    (t * sqrt (zeta * zeta / (t * t + 1))) ^ 2 + sqrt (zeta * zeta / (t * t + 1)) ^ 2 = zeta ^ 2 := by
  have ht : 0 < t * t + 1 := by nlinarith [sq_nonneg t]
  have hn : 0 ≤ zeta * zeta / (t * t + 1) := div_nonneg (mul_self_nonneg _) ht.le
  rw [mul_pow, Real.sq_sqrt hn]
  field_simp

/-- **C50, partial.** Let `e` be eta scaled by the ratio of the constant 0.7853981634 to π/4. For
zeta ≠ 0 and `0 ≤ e < 1` the round trip gives back zeta exactly, and `e` for eta; `e` differs from
eta by less than 4e-12.

Missing for the full property: zeta = 0, and eta close to 1 (`C50_counterexample`). -/
theorem C50_round_trip_partial (zeta eta : ℝ) (hz : zeta ≠ 0) (h0 : 0 ≤ eta)
    (h1 : quarterPi * eta < π / 4) :
    let p := fromZetaEta zeta eta
    toZetaEta p.1 p.2 = (zeta, quarterPi / (π / 4) * eta) ∧
    eta ≤ quarterPi / (π / 4) * eta ∧ quarterPi / (π / 4) * eta - eta < 4 / 1000000000000 := by
  have hpi := Real.pi_pos
  have hq : 0 < quarterPi := by unfold quarterPi; norm_num
  intro p
  have hle1 : eta < 1 := by
    have := quarterPi_gt
    by_contra hcon
    have h2 : quarterPi * 1 ≤ quarterPi * eta :=
      mul_le_mul_of_nonneg_left (not_lt.mp hcon) hq.le
    linarith
  refine ⟨?_, ?_, ?_⟩
  · have ht0 : 0 ≤ tan (quarterPi * eta) := by
      apply Real.tan_nonneg_of_nonneg_of_le_pi_div_two (by positivity) (by linarith)
    have ht1 : tan (quarterPi * eta) < 1 := by
      rw [← Real.tan_pi_div_four]
      apply Real.tan_lt_tan_of_lt_of_lt_pi_div_two _ _ h1
      · have : 0 ≤ quarterPi * eta := by positivity
        linarith
      · linarith
    have harc : arctan (tan (quarterPi * eta)) = quarterPi * eta := by
      apply Real.arctan_tan
      · have : 0 ≤ quarterPi * eta := by positivity
        linarith
      · linarith
    have hr : 0 < sqrt (zeta * zeta / (tan (quarterPi * eta) * tan (quarterPi * eta) + 1)) := by
      apply Real.sqrt_pos.mpr
      apply div_pos (mul_self_pos.mpr hz)
      nlinarith [sq_nonneg (tan (quarterPi * eta))]
    have hsq := tan_sq_add zeta (tan (quarterPi * eta))
    have hdiv : tan (quarterPi * eta) *
        sqrt (zeta * zeta / (tan (quarterPi * eta) * tan (quarterPi * eta) + 1)) /
        sqrt (zeta * zeta / (tan (quarterPi * eta) * tan (quarterPi * eta) + 1)) =
        tan (quarterPi * eta) := by field_simp
    have hlt : tan (quarterPi * eta) *
        sqrt (zeta * zeta / (tan (quarterPi * eta) * tan (quarterPi * eta) + 1)) <
        sqrt (zeta * zeta / (tan (quarterPi * eta) * tan (quarterPi * eta) + 1)) := by
      calc _ < 1 * sqrt (zeta * zeta / (tan (quarterPi * eta) * tan (quarterPi * eta) + 1)) :=
            mul_lt_mul_of_pos_right ht1 hr
        _ = _ := one_mul _
    have heta : 4 / π * (quarterPi * eta) = quarterPi / (π / 4) * eta := by
      field_simp
    change toZetaEta (fromZetaEta zeta eta).1 (fromZetaEta zeta eta).2 = _
    unfold fromZetaEta toZetaEta
    simp only
    generalize sqrt (zeta * zeta / (tan (quarterPi * eta) * tan (quarterPi * eta) + 1)) = r at *
    by_cases hzs : 0 ≤ zeta
    · rw [if_pos hzs]
      simp only
      rw [abs_of_nonneg (mul_nonneg ht0 hr.le), abs_of_pos hr, if_neg (not_lt.mpr hlt.le),
        if_pos hlt, hdiv, harc, heta, hsq, Real.sqrt_sq hzs]
    · rw [if_neg hzs]
      simp only
      rw [abs_of_nonneg (mul_nonneg ht0 hr.le), abs_of_pos hr, if_pos hlt, hdiv, harc, heta,
        add_comm, hsq, Real.sqrt_sq_eq_abs, abs_of_neg (not_le.mp hzs), neg_neg]
  · have h2 : 1 ≤ quarterPi / (π / 4) := by
      rw [le_div_iff₀ (by positivity)]
      linarith [quarterPi_gt]
    calc eta = 1 * eta := (one_mul _).symm
      _ ≤ _ := mul_le_mul_of_nonneg_right h2 h0
  · have h2 : quarterPi / (π / 4) < 1 + 4 / 1000000000000 := by
      rw [div_lt_iff₀ (by positivity)]
      linarith [quarterPi_lt]
    have h3 : (quarterPi / (π / 4) - 1) * eta ≤ (quarterPi / (π / 4) - 1) * 1 := by
      apply mul_le_mul_of_nonneg_left hle1.le
      have : 1 ≤ quarterPi / (π / 4) := by
        rw [le_div_iff₀ (by positivity)]
        linarith [quarterPi_gt]
      linarith
    linarith

example : quarterPi * (1 / 2) < π / 4 := by
  have := Real.pi_gt_d20
  unfold quarterPi
  linarith

/-- **C50, disagreement.** At eta = 1 the constant is past π/4, and a positive zeta comes back
negative; and at zeta = 0 eta comes back as 1. -/
theorem C50_counterexample :
    (∀ zeta : ℝ, 0 < zeta →
      (toZetaEta (fromZetaEta zeta 1).1 (fromZetaEta zeta 1).2).1 = -zeta) ∧
    ∀ eta : ℝ, (toZetaEta (fromZetaEta 0 eta).1 (fromZetaEta 0 eta).2) = (0, 1) := by
  have hpi := Real.pi_pos
  refine ⟨?_, ?_⟩
  · intro zeta hz
    have ht1 : 1 < tan (quarterPi * 1) := by
      rw [mul_one, ← Real.tan_pi_div_four]
      apply Real.tan_lt_tan_of_lt_of_lt_pi_div_two
      · linarith
      · have := quarterPi_lt
        linarith
      · exact quarterPi_gt
    have hr : 0 < sqrt (zeta * zeta / (tan (quarterPi * 1) * tan (quarterPi * 1) + 1)) := by
      apply Real.sqrt_pos.mpr
      apply div_pos (mul_self_pos.mpr hz.ne')
      nlinarith [sq_nonneg (tan (quarterPi * 1))]
    have hsq := tan_sq_add zeta (tan (quarterPi * 1))
    unfold fromZetaEta toZetaEta
    simp only
    generalize sqrt (zeta * zeta / (tan (quarterPi * 1) * tan (quarterPi * 1) + 1)) = r at *
    generalize tan (quarterPi * 1) = t at *
    rw [if_pos hz.le]
    simp only
    rw [abs_of_pos (mul_pos (by linarith) hr), abs_of_pos hr, if_pos (by nlinarith), hsq,
      Real.sqrt_sq hz.le]
  · intro eta
    unfold fromZetaEta toZetaEta
    simp

/-! ## The extended model -/

/-- The principal components used for the dominant tensor (czjzek.py lines 237-240). -/
noncomputable def dominant (zeta eta : ℝ) : List ℝ :=
  if zeta ≠ 0 ∧ eta ≠ 0 then principal zeta eta else [0, 0, 0]

/-- `np.linalg.norm` of a list (czjzek.py lines 211-253). -/
noncomputable def norm2 (l : List ℝ) : ℝ := sqrt ((l.map fun x => x ^ 2).sum)

/-- `np.diag` of a list of three (czjzek.py lines 211-253). -/
def diag (l : List ℝ) : Mat := fun i j => if i = j then (l[i.val]?).getD 0 else 0

/-- One sample of `ExtCzjzekDistribution.rvs` before it is reduced to zeta and eta (czjzek.py
lines 226-249), from the random tensor. -/
noncomputable def extSample (zeta eta eps : ℝ) (t : Mat) : Mat := fun i j =>
  diag (dominant zeta eta) i j + eps * norm2 (dominant zeta eta) / sqrt 30 * t i j

/-- The tensor with the given parameters, in its principal axes. -/
noncomputable def Spec.pas (zeta eta : ℝ) : Mat
  | 0, 0 => -(zeta * (1 + eta)) / 2
  | 1, 1 => -(zeta * (1 - eta)) / 2
  | 2, 2 => zeta
  | _, _ => 0

/-- **C51, partial.** For zeta ≠ 0 and eta ≠ 0 a sample is the dominant tensor plus eps/√30 times
its size times the random tensor.

Missing for the full property: eta = 0 (`C51_counterexample`). -/
theorem C51_sample_partial (zeta eta eps : ℝ) (hz : zeta ≠ 0) (he : eta ≠ 0) (t : Mat) (i j : Fin 3) :
    extSample zeta eta eps t i j =
      Spec.pas zeta eta i j + eps * sqrt (Spec.normSq (Spec.pas zeta eta)) / sqrt 30 * t i j := by
  have hn : norm2 (dominant zeta eta) = sqrt (Spec.normSq (Spec.pas zeta eta)) := by
    unfold norm2 dominant
    rw [if_pos ⟨hz, he⟩]
    congr 1
    simp only [principal, List.map_cons, List.map_nil, List.sum_cons, List.sum_nil, Spec.normSq,
      Spec.pas]
    ring
  unfold extSample
  rw [hn]
  congr 1
  unfold dominant
  rw [if_pos ⟨hz, he⟩]
  fin_cases i <;> fin_cases j <;> simp [diag, principal, Spec.pas] <;> ring

/-- Every sample is symmetric and traceless, if the random tensor is. -/
theorem C51_symmetric_traceless (zeta eta eps : ℝ) (t : Mat) (hs : Spec.Symmetric t)
    (ht : Spec.Traceless t) :
    Spec.Symmetric (extSample zeta eta eps t) ∧ Spec.Traceless (extSample zeta eta eps t) := by
  constructor
  · intro i j
    unfold extSample diag
    rw [hs i j]
    congr 1
    by_cases hij : i = j
    · rw [hij]
    · rw [if_neg hij, if_neg (fun h => hij h.symm)]
  · unfold Spec.Traceless at ht ⊢
    have hd : diag (dominant zeta eta) 0 0 + diag (dominant zeta eta) 1 1 +
        diag (dominant zeta eta) 2 2 = 0 := by
      unfold dominant
      split_ifs
      · simp [diag, principal]; ring
      · simp [diag]
    unfold extSample
    linear_combination hd + eps * norm2 (dominant zeta eta) / sqrt 30 * ht

/-- **C51, disagreement.** For an axially symmetric dominant tensor (eta = 0), whatever its zeta,
the fraction eps and the draw, the sample is the zero tensor. -/
theorem C51_counterexample (zeta eps : ℝ) (t : Mat) : extSample zeta 0 eps t = fun _ _ => 0 := by
  funext i j
  unfold extSample dominant
  rw [if_neg (by simp)]
  have hn : norm2 [0, 0, 0] = 0 := by simp [norm2]
  rw [hn]
  fin_cases i <;> fin_cases j <;> simp [diag]

example : extSample 1 (1 / 2) 0 (fun _ _ => 1) 2 2 = 1 := by
  rw [C51_sample_partial 1 (1 / 2) 0 (by norm_num) (by norm_num)]
  simp [Spec.pas]

end MRS.Dist
