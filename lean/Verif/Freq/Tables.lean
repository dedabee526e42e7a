import Verif.Freq.Attr
import Verif.Sim.Trig
import Mathlib.Analysis.SpecialFunctions.Trigonometric.Basic
import Mathlib.Tactic.LinearCombination
import Mathlib.Tactic.NormNum
import Mathlib.Tactic.IntervalCases
import Mathlib.Tactic.Ring
import Mathlib.Tactic.FieldSimp
import Mathlib.Tactic.Linarith

/-!
# Wigner rotation matrices (src/c_lib/lib/angular_momentum.c)

The elements of the rank 2 and rank 4 matrices are modelled over ℝ, with the decimal constants of the
source held in a record so that the same formulas can be read with the decimals (`WC.src`) and with the
square roots they stand for (`WC.exact`).  The record also holds the cosine and sine that `wigner_d_matrices`
(lines 46-51) takes from a table.  Rounding of `double` arithmetic is not modelled; the error of
the truncated decimals and of the table is.
-/

namespace MRS.Freq

open Real

/-- The cosine and sine of an angle as `vm_cosine_I_sine` gives them (vm.h:290-312): entered with the absolute value
of the angle, exact for the angle zero. -/
structure Table where
  cos : ℝ → ℝ
  sin : ℝ → ℝ
  cos_neg : ∀ x, cos (-x) = cos x
  sin_neg : ∀ x, sin (-x) = sin x
  cos_zero : cos 0 = 1
  sin_zero : sin 0 = 0

/-- The table of the source (trig.h:8-24, vm.h:290-312; `Sim.tableCosSin`): linear interpolation between entries
`10^-4` apart. -/
noncomputable def Table.src : Table where
  cos x := (Sim.tableCosSin x).1
  sin x := (Sim.tableCosSin x).2
  cos_neg x := by rw [Sim.tableCosSin_neg]
  sin_neg x := by rw [Sim.tableCosSin_neg]
  cos_zero := by rw [Sim.tableCosSin_zero]
  sin_zero := by rw [Sim.tableCosSin_zero]

/-- What the table approximates (vm.h:290-312): the absolute value of the angle is taken, so that the sine loses its sign. -/
noncomputable def Table.exact : Table where
  cos x := Real.cos |x|
  sin x := Real.sin |x|
  cos_neg x := by rw [abs_neg]
  sin_neg x := by rw [abs_neg]
  cos_zero := by simp
  sin_zero := by simp

/-- The irrational constants appearing in angular_momentum.c, rank 2 (lines 54-157) and rank 4
(lines 160-433), and the table of cosines and sines used at line 48. -/
structure WC where
  a2 : ℝ
  b2 : ℝ
  a4 : ℝ
  b4 : ℝ
  c4 : ℝ
  d4 : ℝ
  e4 : ℝ
  f4 : ℝ
  g4 : ℝ
  h4 : ℝ
  trig : Table

/-- The decimals written in angular_momentum.c (81, 87; 188, 200, 212, 218, 224, 260, 290, 296). -/
noncomputable def WC.src : WC :=
  { a2 := 6123724355 / 10 ^ 10
    b2 := 1224744871 / 10 ^ 9
    a4 := 1767766953 / 10 ^ 10
    b4 := 4677071733 / 10 ^ 10
    c4 := 5229125166 / 10 ^ 10
    d4 := 14790199458 / 10 ^ 10
    e4 := 3307189139 / 10 ^ 10
    f4 := 3952847075 / 10 ^ 10
    g4 := 5590169944 / 10 ^ 10
    h4 := 3535533906 / 10 ^ 10
    trig := Table.src }

/-- The numbers those decimals approximate. -/
noncomputable def WC.exact : WC :=
  { a2 := √6 / 4
    b2 := √6 / 2
    a4 := √2 / 8
    b4 := √14 / 8
    c4 := √70 / 16
    d4 := √35 / 4
    e4 := √7 / 8
    f4 := √10 / 8
    g4 := √5 / 4
    h4 := √2 / 4
    trig := Table.exact }

theorem trig_exact (x : ℝ) : WC.exact.trig.cos x = Real.cos |x| ∧ WC.exact.trig.sin x = Real.sin |x| := ⟨rfl, rfl⟩

/-- angular_momentum.c:54-109 `wigner_2j` for one angle: the element stored at each index. -/
noncomputable def wigner2j (K : WC) (cx sx : ℝ) : ℕ → ℝ
  | 0 => (1 + cx) * (1 + cx) * (1 / 4)
  | 1 => -sx * (1 + cx) * (1 / 2)
  | 2 => K.a2 * sx * sx
  | 3 => -sx * (1 - cx) * (1 / 2)
  | 4 => (1 - cx) * (1 - cx) * (1 / 4)
  | 5 => -(-sx * (1 + cx) * (1 / 2))
  | 6 => (2 * (cx * cx) + cx - 1) * (1 / 2)
  | 7 => -(K.b2 * sx * cx)
  | 8 => -(2 * (cx * cx) - cx - 1) * (1 / 2)
  | 9 => -sx * (1 - cx) * (1 / 2)
  | 10 => K.a2 * sx * sx
  | 11 => K.b2 * sx * cx
  | 12 => (3 / 2) * (cx * cx) - (1 / 2)
  | 13 => -(K.b2 * sx * cx)
  | 14 => K.a2 * sx * sx
  | 15 => -(-sx * (1 - cx) * (1 / 2))
  | 16 => -(2 * (cx * cx) - cx - 1) * (1 / 2)
  | 17 => K.b2 * sx * cx
  | 18 => (2 * (cx * cx) + cx - 1) * (1 / 2)
  | 19 => -sx * (1 + cx) * (1 / 2)
  | 20 => (1 - cx) * (1 - cx) * (1 / 4)
  | 21 => -(-sx * (1 - cx) * (1 / 2))
  | 22 => K.a2 * sx * sx
  | 23 => -(-sx * (1 + cx) * (1 / 2))
  | 24 => (1 + cx) * (1 + cx) * (1 / 4)
  | _ => 0

/-- angular_momentum.c:112-157 `wigner_2j_half` for one angle. -/
noncomputable def wigner2jHalf (K : WC) (cx sx : ℝ) : ℕ → ℝ
  | 0 => (1 + cx) * (1 + cx) * (1 / 4)
  | 1 => -sx * (1 + cx) * (1 / 2)
  | 2 => K.a2 * sx * sx
  | 3 => -sx * (1 - cx) * (1 / 2)
  | 4 => (1 - cx) * (1 - cx) * (1 / 4)
  | 5 => -(-sx * (1 + cx) * (1 / 2))
  | 6 => (2 * (cx * cx) + cx - 1) * (1 / 2)
  | 7 => -(K.b2 * sx * cx)
  | 8 => -(2 * (cx * cx) - cx - 1) * (1 / 2)
  | 9 => -sx * (1 - cx) * (1 / 2)
  | 10 => K.a2 * sx * sx
  | 11 => K.b2 * sx * cx
  | 12 => (3 / 2) * (cx * cx) - (1 / 2)
  | 13 => -(K.b2 * sx * cx)
  | 14 => K.a2 * sx * sx
  | _ => 0

/-- The elements assigned by `wigner_4j`, in terms of its local variables; used by `wigner4j`
(angular_momentum.c lines 160-313). -/
noncomputable def wigner4jT (K : WC) (cx cx2 sx sx2 sx3 cxp1 cxm1 cxp12 cxm12 cxm13 cxp13 : ℝ) : ℕ → ℝ
  | 0 => (1 / 16) * cxp12 * cxp12
  | 1 => -K.a4 * cxp13 * sx
  | 2 => K.e4 * sx2 * cxp12
  | 3 => -K.b4 * cxp1 * sx3
  | 4 => K.c4 * sx3 * sx
  | 5 => -K.b4 * cxm1 * sx3
  | 6 => K.e4 * sx2 * cxm12
  | 7 => -K.a4 * cxm13 * sx
  | 8 => (1 / 16) * cxm12 * cxm12
  | 9 => -(-K.a4 * cxp13 * sx)
  | 10 => (1 / 8) * cxp13 * (-3 + 4 * cx)
  | 11 => -(K.b4 * cxp12 * sx * (2 * cx - 1))
  | 12 => K.e4 * cxm1 * cxp12 * (-1 + 4 * cx)
  | 13 => -K.d4 * sx3 * cx
  | 14 => K.e4 * cxm12 * cxp1 * (1 + 4 * cx)
  | 15 => K.b4 * cxm12 * sx * (-2 * cx - 1)
  | 16 => (1 / 8) * cxm13 * (3 + 4 * cx)
  | 17 => -K.a4 * cxm13 * sx
  | 18 => K.e4 * sx2 * cxp12
  | 19 => K.b4 * cxp12 * sx * (2 * cx - 1)
  | 20 => (1 / 4) * cxp12 * (1 - 7 * cxm1 + 7 * cxm12)
  | 21 => -K.h4 * (3 - (21 / 2) * cxm1 + 7 * cxm12) * sx * cxp1
  | 22 => K.f4 * sx2 * (7 * cx2 - 1)
  | 23 => -K.h4 * (10 - (35 / 2) * cxm1 + 7 * cxm12) * sx * cxm1
  | 24 => (1 / 4) * cxm12 * (1 - 7 * cxp1 + 7 * cxp12)
  | 25 => K.b4 * cxm12 * sx * (-2 * cx - 1)
  | 26 => K.e4 * sx2 * cxm12
  | 27 => -(-K.b4 * cxp1 * sx3)
  | 28 => K.e4 * cxm1 * cxp12 * (-1 + 4 * cx)
  | 29 => -(-K.h4 * (3 - (21 / 2) * cxm1 + 7 * cxm12) * sx * cxp1)
  | 30 => (1 / 2) * (1 - 9 * cxm1 + (63 / 4) * cxm12 - 7 * cxm13) * cxp1
  | 31 => -K.g4 * (4 - 18 * cxm1 + 21 * cxm12 - 7 * cxm13) * sx
  | 32 => (1 / 2) * (10 - 30 * cxm1 + (105 / 4) * cxm12 - 7 * cxm13) * cxm1
  | 33 => -K.h4 * (10 - (35 / 2) * cxm1 + 7 * cxm12) * sx * cxm1
  | 34 => K.e4 * cxm12 * cxp1 * (1 + 4 * cx)
  | 35 => -K.b4 * cxm1 * sx3
  | 36 => K.c4 * sx3 * sx
  | 37 => -(-K.d4 * sx3 * cx)
  | 38 => K.f4 * sx2 * (7 * cx2 - 1)
  | 39 => -(-K.g4 * (4 - 18 * cxm1 + 21 * cxm12 - 7 * cxm13) * sx)
  | 40 => (1 / 8) * (3 - 30 * cx2 + 35 * cx2 * cx2)
  | 41 => -K.g4 * (4 - 18 * cxm1 + 21 * cxm12 - 7 * cxm13) * sx
  | 42 => K.f4 * sx2 * (7 * cx2 - 1)
  | 43 => -K.d4 * sx3 * cx
  | 44 => K.c4 * sx3 * sx
  | 45 => -(-K.b4 * cxm1 * sx3)
  | 46 => K.e4 * cxm12 * cxp1 * (1 + 4 * cx)
  | 47 => -(-K.h4 * (10 - (35 / 2) * cxm1 + 7 * cxm12) * sx * cxm1)
  | 48 => (1 / 2) * (10 - 30 * cxm1 + (105 / 4) * cxm12 - 7 * cxm13) * cxm1
  | 49 => -(-K.g4 * (4 - 18 * cxm1 + 21 * cxm12 - 7 * cxm13) * sx)
  | 50 => (1 / 2) * (1 - 9 * cxm1 + (63 / 4) * cxm12 - 7 * cxm13) * cxp1
  | 51 => -K.h4 * (3 - (21 / 2) * cxm1 + 7 * cxm12) * sx * cxp1
  | 52 => K.e4 * cxm1 * cxp12 * (-1 + 4 * cx)
  | 53 => -K.b4 * cxp1 * sx3
  | 54 => K.e4 * sx2 * cxm12
  | 55 => -(K.b4 * cxm12 * sx * (-2 * cx - 1))
  | 56 => (1 / 4) * cxm12 * (1 - 7 * cxp1 + 7 * cxp12)
  | 57 => -(-K.h4 * (10 - (35 / 2) * cxm1 + 7 * cxm12) * sx * cxm1)
  | 58 => K.f4 * sx2 * (7 * cx2 - 1)
  | 59 => -(-K.h4 * (3 - (21 / 2) * cxm1 + 7 * cxm12) * sx * cxp1)
  | 60 => (1 / 4) * cxp12 * (1 - 7 * cxm1 + 7 * cxm12)
  | 61 => -(K.b4 * cxp12 * sx * (2 * cx - 1))
  | 62 => K.e4 * sx2 * cxp12
  | 63 => -(-K.a4 * cxm13 * sx)
  | 64 => (1 / 8) * cxm13 * (3 + 4 * cx)
  | 65 => -(K.b4 * cxm12 * sx * (-2 * cx - 1))
  | 66 => K.e4 * cxm12 * cxp1 * (1 + 4 * cx)
  | 67 => -(-K.d4 * sx3 * cx)
  | 68 => K.e4 * cxm1 * cxp12 * (-1 + 4 * cx)
  | 69 => K.b4 * cxp12 * sx * (2 * cx - 1)
  | 70 => (1 / 8) * cxp13 * (-3 + 4 * cx)
  | 71 => -K.a4 * cxp13 * sx
  | 72 => (1 / 16) * cxm12 * cxm12
  | 73 => -(-K.a4 * cxm13 * sx)
  | 74 => K.e4 * sx2 * cxm12
  | 75 => -(-K.b4 * cxm1 * sx3)
  | 76 => K.c4 * sx3 * sx
  | 77 => -(-K.b4 * cxp1 * sx3)
  | 78 => K.e4 * sx2 * cxp12
  | 79 => -(-K.a4 * cxp13 * sx)
  | 80 => (1 / 16) * cxp12 * cxp12
  | _ => 0

/-- angular_momentum.c:160-313 `wigner_4j` for one angle: the element stored at each index. -/
noncomputable def wigner4j (K : WC) (cx sx : ℝ) : ℕ → ℝ :=
  wigner4jT K cx (cx * cx) sx (sx * sx) (sx * sx * sx) (1 + cx) (1 - cx) ((1 + cx) * (1 + cx))
    ((1 - cx) * (1 - cx)) ((1 - cx) * (1 - cx) * (1 - cx)) ((1 + cx) * (1 + cx) * (1 + cx))

/-- The elements assigned by `wigner_4j_half`, in terms of its local variables; used by `wigner4jHalf`
(angular_momentum.c lines 316-433). -/
noncomputable def wigner4jHalfT (K : WC) (cx cx2 sx sx2 sx3 cxp1 cxm1 cxp12 cxm12 cxm13 cxp13 : ℝ) : ℕ → ℝ
  | 0 => (1 / 16) * cxp12 * cxp12
  | 1 => -K.a4 * cxp13 * sx
  | 2 => K.e4 * sx2 * cxp12
  | 3 => -K.b4 * cxp1 * sx3
  | 4 => K.c4 * sx3 * sx
  | 5 => -K.b4 * cxm1 * sx3
  | 6 => K.e4 * sx2 * cxm12
  | 7 => -K.a4 * cxm13 * sx
  | 8 => (1 / 16) * cxm12 * cxm12
  | 9 => -(-K.a4 * cxp13 * sx)
  | 10 => (1 / 8) * cxp13 * (-3 + 4 * cx)
  | 11 => -(K.b4 * cxp12 * sx * (2 * cx - 1))
  | 12 => K.e4 * cxm1 * cxp12 * (-1 + 4 * cx)
  | 13 => -K.d4 * sx3 * cx
  | 14 => K.e4 * cxm12 * cxp1 * (1 + 4 * cx)
  | 15 => K.b4 * cxm12 * sx * (-2 * cx - 1)
  | 16 => (1 / 8) * cxm13 * (3 + 4 * cx)
  | 17 => -K.a4 * cxm13 * sx
  | 18 => K.e4 * sx2 * cxp12
  | 19 => K.b4 * cxp12 * sx * (2 * cx - 1)
  | 20 => (1 / 4) * cxp12 * (1 - 7 * cxm1 + 7 * cxm12)
  | 21 => -K.h4 * (3 - (21 / 2) * cxm1 + 7 * cxm12) * sx * cxp1
  | 22 => K.f4 * sx2 * (7 * cx2 - 1)
  | 23 => -K.h4 * (10 - (35 / 2) * cxm1 + 7 * cxm12) * sx * cxm1
  | 24 => (1 / 4) * cxm12 * (1 - 7 * cxp1 + 7 * cxp12)
  | 25 => K.b4 * cxm12 * sx * (-2 * cx - 1)
  | 26 => K.e4 * sx2 * cxm12
  | 27 => -(-K.b4 * cxp1 * sx3)
  | 28 => K.e4 * cxm1 * cxp12 * (-1 + 4 * cx)
  | 29 => -(-K.h4 * (3 - (21 / 2) * cxm1 + 7 * cxm12) * sx * cxp1)
  | 30 => (1 / 2) * (1 - 9 * cxm1 + (63 / 4) * cxm12 - 7 * cxm13) * cxp1
  | 31 => -K.g4 * (4 - 18 * cxm1 + 21 * cxm12 - 7 * cxm13) * sx
  | 32 => (1 / 2) * (10 - 30 * cxm1 + (105 / 4) * cxm12 - 7 * cxm13) * cxm1
  | 33 => -K.h4 * (10 - (35 / 2) * cxm1 + 7 * cxm12) * sx * cxm1
  | 34 => K.e4 * cxm12 * cxp1 * (1 + 4 * cx)
  | 35 => -K.b4 * cxm1 * sx3
  | 36 => K.c4 * sx3 * sx
  | 37 => -(-K.d4 * sx3 * cx)
  | 38 => K.f4 * sx2 * (7 * cx2 - 1)
  | 39 => -(-K.g4 * (4 - 18 * cxm1 + 21 * cxm12 - 7 * cxm13) * sx)
  | 40 => (1 / 8) * (3 - 30 * cx2 + 35 * cx2 * cx2)
  | 41 => -K.g4 * (4 - 18 * cxm1 + 21 * cxm12 - 7 * cxm13) * sx
  | 42 => K.f4 * sx2 * (7 * cx2 - 1)
  | 43 => -K.d4 * sx3 * cx
  | 44 => K.c4 * sx3 * sx
  | _ => 0

/-- angular_momentum.c:316-433 `wigner_4j_half` for one angle. -/
noncomputable def wigner4jHalf (K : WC) (cx sx : ℝ) : ℕ → ℝ :=
  wigner4jHalfT K cx (cx * cx) sx (sx * sx) (sx * sx * sx) (1 + cx) (1 - cx) ((1 + cx) * (1 + cx))
    ((1 - cx) * (1 - cx)) ((1 - cx) * (1 - cx) * (1 - cx)) ((1 + cx) * (1 + cx) * (1 + cx))

/-- angular_momentum.c:596-622 `wigner_dm0_vector` with `l = 2`. -/
noncomputable def dm0Vector2 (K : WC) (cx sx : ℝ) : ℕ → ℝ
  | 0 => K.a2 * sx * sx
  | 1 => K.b2 * sx * cx
  | 2 => (3 / 2) * cx * cx - (1 / 2)
  | 3 => -(K.b2 * sx * cx)
  | 4 => K.a2 * sx * sx
  | _ => 0

/-- angular_momentum.c:596-622 `wigner_dm0_vector` with `l = 4`. -/
noncomputable def dm0Vector4 (K : WC) (cx sx : ℝ) (i : ℕ) : ℝ :=
  let sx2 := sx * sx
  let sx3 := sx2 * sx
  let cx2 := 1 - sx2
  let cxm1 := 1 - cx
  let cxm12 := cxm1 * cxm1
  let temp := 4 - 18 * cxm1 + 21 * cxm12 - 7 * cxm12 * cxm1
  match i with
  | 0 => K.c4 * sx3 * sx
  | 1 => K.d4 * sx3 * cx
  | 2 => K.f4 * sx2 * (7 * cx2 - 1)
  | 3 => K.g4 * temp * sx
  | 4 => (1 / 8) * (3 - 30 * cx2 + 35 * cx2 * cx2)
  | 5 => -(K.g4 * temp * sx)
  | 6 => K.f4 * sx2 * (7 * cx2 - 1)
  | 7 => -(K.d4 * sx3 * cx)
  | 8 => K.c4 * sx3 * sx
  | _ => 0

/-! ## Specification: Wigner's formula -/

/-- `√((l+m)! (l-m)!)` -/
noncomputable def Spec.wnorm (l : ℕ) (m : ℤ) : ℝ :=
  √(((l + m).toNat.factorial * (l - m).toNat.factorial : ℕ) : ℝ)

/-- Wigner's formula for the element `d^l_{m',m}(β)` of the rotation by `β` about the y axis
(Wigner 1931, eq. 15.27, in the phase convention of Rose and Edmonds): the sum runs over all `k` for which
no factorial has a negative argument. -/
noncomputable def Spec.wignerD (l : ℕ) (m' m : ℤ) (β : ℝ) : ℝ :=
  Spec.wnorm l m' * Spec.wnorm l m *
    ∑ k ∈ Finset.range (2 * l + 1),
      if 0 ≤ (l : ℤ) + m - k ∧ 0 ≤ m' - m + k ∧ 0 ≤ (l : ℤ) - m' - k then
        (-1) ^ (m' - m + k).toNat * cos (β / 2) ^ (2 * (l : ℤ) + m - m' - 2 * k).toNat
            * sin (β / 2) ^ (m' - m + 2 * k).toNat
          / (((l + m - k).toNat.factorial * k.factorial * (m' - m + k).toNat.factorial
              * (l - m' - k).toNat.factorial : ℕ) : ℝ)
      else 0

/-! Entries of the matrices, as rewriting rules. -/

@[wentry] theorem wigner2j_0 (K : WC) (c s : ℝ) : wigner2j K c s 0 = (1 + c) * (1 + c) * (1 / 4) := rfl
@[wentry] theorem wigner2j_1 (K : WC) (c s : ℝ) : wigner2j K c s 1 = -s * (1 + c) * (1 / 2) := rfl
@[wentry] theorem wigner2j_2 (K : WC) (c s : ℝ) : wigner2j K c s 2 = K.a2 * s * s := rfl
@[wentry] theorem wigner2j_3 (K : WC) (c s : ℝ) : wigner2j K c s 3 = -s * (1 - c) * (1 / 2) := rfl
@[wentry] theorem wigner2j_4 (K : WC) (c s : ℝ) : wigner2j K c s 4 = (1 - c) * (1 - c) * (1 / 4) := rfl
@[wentry] theorem wigner2j_5 (K : WC) (c s : ℝ) : wigner2j K c s 5 = -(-s * (1 + c) * (1 / 2)) := rfl
@[wentry] theorem wigner2j_6 (K : WC) (c s : ℝ) : wigner2j K c s 6 = (2 * (c * c) + c - 1) * (1 / 2) := rfl
@[wentry] theorem wigner2j_7 (K : WC) (c s : ℝ) : wigner2j K c s 7 = -(K.b2 * s * c) := rfl
@[wentry] theorem wigner2j_8 (K : WC) (c s : ℝ) : wigner2j K c s 8 = -(2 * (c * c) - c - 1) * (1 / 2) := rfl
@[wentry] theorem wigner2j_9 (K : WC) (c s : ℝ) : wigner2j K c s 9 = -s * (1 - c) * (1 / 2) := rfl
@[wentry] theorem wigner2j_10 (K : WC) (c s : ℝ) : wigner2j K c s 10 = K.a2 * s * s := rfl
@[wentry] theorem wigner2j_11 (K : WC) (c s : ℝ) : wigner2j K c s 11 = K.b2 * s * c := rfl
@[wentry] theorem wigner2j_12 (K : WC) (c s : ℝ) : wigner2j K c s 12 = (3 / 2) * (c * c) - (1 / 2) := rfl
@[wentry] theorem wigner2j_13 (K : WC) (c s : ℝ) : wigner2j K c s 13 = -(K.b2 * s * c) := rfl
@[wentry] theorem wigner2j_14 (K : WC) (c s : ℝ) : wigner2j K c s 14 = K.a2 * s * s := rfl
@[wentry] theorem wigner2j_15 (K : WC) (c s : ℝ) : wigner2j K c s 15 = -(-s * (1 - c) * (1 / 2)) := rfl
@[wentry] theorem wigner2j_16 (K : WC) (c s : ℝ) : wigner2j K c s 16 = -(2 * (c * c) - c - 1) * (1 / 2) := rfl
@[wentry] theorem wigner2j_17 (K : WC) (c s : ℝ) : wigner2j K c s 17 = K.b2 * s * c := rfl
@[wentry] theorem wigner2j_18 (K : WC) (c s : ℝ) : wigner2j K c s 18 = (2 * (c * c) + c - 1) * (1 / 2) := rfl
@[wentry] theorem wigner2j_19 (K : WC) (c s : ℝ) : wigner2j K c s 19 = -s * (1 + c) * (1 / 2) := rfl
@[wentry] theorem wigner2j_20 (K : WC) (c s : ℝ) : wigner2j K c s 20 = (1 - c) * (1 - c) * (1 / 4) := rfl
@[wentry] theorem wigner2j_21 (K : WC) (c s : ℝ) : wigner2j K c s 21 = -(-s * (1 - c) * (1 / 2)) := rfl
@[wentry] theorem wigner2j_22 (K : WC) (c s : ℝ) : wigner2j K c s 22 = K.a2 * s * s := rfl
@[wentry] theorem wigner2j_23 (K : WC) (c s : ℝ) : wigner2j K c s 23 = -(-s * (1 + c) * (1 / 2)) := rfl
@[wentry] theorem wigner2j_24 (K : WC) (c s : ℝ) : wigner2j K c s 24 = (1 + c) * (1 + c) * (1 / 4) := rfl
@[wentry] theorem wigner4j_0 (K : WC) (c s : ℝ) : wigner4j K c s 0 = (1 / 16) * ((1 + c) * (1 + c)) * ((1 + c) * (1 + c)) := rfl
@[wentry] theorem wigner4j_1 (K : WC) (c s : ℝ) : wigner4j K c s 1 = -K.a4 * ((1 + c) * (1 + c) * (1 + c)) * s := rfl
@[wentry] theorem wigner4j_2 (K : WC) (c s : ℝ) : wigner4j K c s 2 = K.e4 * (s * s) * ((1 + c) * (1 + c)) := rfl
@[wentry] theorem wigner4j_3 (K : WC) (c s : ℝ) : wigner4j K c s 3 = -K.b4 * (1 + c) * (s * s * s) := rfl
@[wentry] theorem wigner4j_4 (K : WC) (c s : ℝ) : wigner4j K c s 4 = K.c4 * (s * s * s) * s := rfl
@[wentry] theorem wigner4j_5 (K : WC) (c s : ℝ) : wigner4j K c s 5 = -K.b4 * (1 - c) * (s * s * s) := rfl
@[wentry] theorem wigner4j_6 (K : WC) (c s : ℝ) : wigner4j K c s 6 = K.e4 * (s * s) * ((1 - c) * (1 - c)) := rfl
@[wentry] theorem wigner4j_7 (K : WC) (c s : ℝ) : wigner4j K c s 7 = -K.a4 * ((1 - c) * (1 - c) * (1 - c)) * s := rfl
@[wentry] theorem wigner4j_8 (K : WC) (c s : ℝ) : wigner4j K c s 8 = (1 / 16) * ((1 - c) * (1 - c)) * ((1 - c) * (1 - c)) := rfl
@[wentry] theorem wigner4j_9 (K : WC) (c s : ℝ) : wigner4j K c s 9 = -(-K.a4 * ((1 + c) * (1 + c) * (1 + c)) * s) := rfl
@[wentry] theorem wigner4j_10 (K : WC) (c s : ℝ) : wigner4j K c s 10 = (1 / 8) * ((1 + c) * (1 + c) * (1 + c)) * (-3 + 4 * c) := rfl
@[wentry] theorem wigner4j_11 (K : WC) (c s : ℝ) : wigner4j K c s 11 = -(K.b4 * ((1 + c) * (1 + c)) * s * (2 * c - 1)) := rfl
@[wentry] theorem wigner4j_12 (K : WC) (c s : ℝ) : wigner4j K c s 12 = K.e4 * (1 - c) * ((1 + c) * (1 + c)) * (-1 + 4 * c) := rfl
@[wentry] theorem wigner4j_13 (K : WC) (c s : ℝ) : wigner4j K c s 13 = -K.d4 * (s * s * s) * c := rfl
@[wentry] theorem wigner4j_14 (K : WC) (c s : ℝ) : wigner4j K c s 14 = K.e4 * ((1 - c) * (1 - c)) * (1 + c) * (1 + 4 * c) := rfl
@[wentry] theorem wigner4j_15 (K : WC) (c s : ℝ) : wigner4j K c s 15 = K.b4 * ((1 - c) * (1 - c)) * s * (-2 * c - 1) := rfl
@[wentry] theorem wigner4j_16 (K : WC) (c s : ℝ) : wigner4j K c s 16 = (1 / 8) * ((1 - c) * (1 - c) * (1 - c)) * (3 + 4 * c) := rfl
@[wentry] theorem wigner4j_17 (K : WC) (c s : ℝ) : wigner4j K c s 17 = -K.a4 * ((1 - c) * (1 - c) * (1 - c)) * s := rfl
@[wentry] theorem wigner4j_18 (K : WC) (c s : ℝ) : wigner4j K c s 18 = K.e4 * (s * s) * ((1 + c) * (1 + c)) := rfl
@[wentry] theorem wigner4j_19 (K : WC) (c s : ℝ) : wigner4j K c s 19 = K.b4 * ((1 + c) * (1 + c)) * s * (2 * c - 1) := rfl
@[wentry] theorem wigner4j_20 (K : WC) (c s : ℝ) : wigner4j K c s 20 = (1 / 4) * ((1 + c) * (1 + c)) * (1 - 7 * (1 - c) + 7 * ((1 - c) * (1 - c))) := rfl
@[wentry] theorem wigner4j_21 (K : WC) (c s : ℝ) : wigner4j K c s 21 = -K.h4 * (3 - (21 / 2) * (1 - c) + 7 * ((1 - c) * (1 - c))) * s * (1 + c) := rfl
@[wentry] theorem wigner4j_22 (K : WC) (c s : ℝ) : wigner4j K c s 22 = K.f4 * (s * s) * (7 * (c * c) - 1) := rfl
@[wentry] theorem wigner4j_23 (K : WC) (c s : ℝ) : wigner4j K c s 23 = -K.h4 * (10 - (35 / 2) * (1 - c) + 7 * ((1 - c) * (1 - c))) * s * (1 - c) := rfl
@[wentry] theorem wigner4j_24 (K : WC) (c s : ℝ) : wigner4j K c s 24 = (1 / 4) * ((1 - c) * (1 - c)) * (1 - 7 * (1 + c) + 7 * ((1 + c) * (1 + c))) := rfl
@[wentry] theorem wigner4j_25 (K : WC) (c s : ℝ) : wigner4j K c s 25 = K.b4 * ((1 - c) * (1 - c)) * s * (-2 * c - 1) := rfl
@[wentry] theorem wigner4j_26 (K : WC) (c s : ℝ) : wigner4j K c s 26 = K.e4 * (s * s) * ((1 - c) * (1 - c)) := rfl
@[wentry] theorem wigner4j_27 (K : WC) (c s : ℝ) : wigner4j K c s 27 = -(-K.b4 * (1 + c) * (s * s * s)) := rfl
@[wentry] theorem wigner4j_28 (K : WC) (c s : ℝ) : wigner4j K c s 28 = K.e4 * (1 - c) * ((1 + c) * (1 + c)) * (-1 + 4 * c) := rfl
@[wentry] theorem wigner4j_29 (K : WC) (c s : ℝ) : wigner4j K c s 29 = -(-K.h4 * (3 - (21 / 2) * (1 - c) + 7 * ((1 - c) * (1 - c))) * s * (1 + c)) := rfl
@[wentry] theorem wigner4j_30 (K : WC) (c s : ℝ) : wigner4j K c s 30 = (1 / 2) * (1 - 9 * (1 - c) + (63 / 4) * ((1 - c) * (1 - c)) - 7 * ((1 - c) * (1 - c) * (1 - c))) * (1 + c) := rfl
@[wentry] theorem wigner4j_31 (K : WC) (c s : ℝ) : wigner4j K c s 31 = -K.g4 * (4 - 18 * (1 - c) + 21 * ((1 - c) * (1 - c)) - 7 * ((1 - c) * (1 - c) * (1 - c))) * s := rfl
@[wentry] theorem wigner4j_32 (K : WC) (c s : ℝ) : wigner4j K c s 32 = (1 / 2) * (10 - 30 * (1 - c) + (105 / 4) * ((1 - c) * (1 - c)) - 7 * ((1 - c) * (1 - c) * (1 - c))) * (1 - c) := rfl
@[wentry] theorem wigner4j_33 (K : WC) (c s : ℝ) : wigner4j K c s 33 = -K.h4 * (10 - (35 / 2) * (1 - c) + 7 * ((1 - c) * (1 - c))) * s * (1 - c) := rfl
@[wentry] theorem wigner4j_34 (K : WC) (c s : ℝ) : wigner4j K c s 34 = K.e4 * ((1 - c) * (1 - c)) * (1 + c) * (1 + 4 * c) := rfl
@[wentry] theorem wigner4j_35 (K : WC) (c s : ℝ) : wigner4j K c s 35 = -K.b4 * (1 - c) * (s * s * s) := rfl
@[wentry] theorem wigner4j_36 (K : WC) (c s : ℝ) : wigner4j K c s 36 = K.c4 * (s * s * s) * s := rfl
@[wentry] theorem wigner4j_37 (K : WC) (c s : ℝ) : wigner4j K c s 37 = -(-K.d4 * (s * s * s) * c) := rfl
@[wentry] theorem wigner4j_38 (K : WC) (c s : ℝ) : wigner4j K c s 38 = K.f4 * (s * s) * (7 * (c * c) - 1) := rfl
@[wentry] theorem wigner4j_39 (K : WC) (c s : ℝ) : wigner4j K c s 39 = -(-K.g4 * (4 - 18 * (1 - c) + 21 * ((1 - c) * (1 - c)) - 7 * ((1 - c) * (1 - c) * (1 - c))) * s) := rfl
@[wentry] theorem wigner4j_40 (K : WC) (c s : ℝ) : wigner4j K c s 40 = (1 / 8) * (3 - 30 * (c * c) + 35 * (c * c) * (c * c)) := rfl
@[wentry] theorem wigner4j_41 (K : WC) (c s : ℝ) : wigner4j K c s 41 = -K.g4 * (4 - 18 * (1 - c) + 21 * ((1 - c) * (1 - c)) - 7 * ((1 - c) * (1 - c) * (1 - c))) * s := rfl
@[wentry] theorem wigner4j_42 (K : WC) (c s : ℝ) : wigner4j K c s 42 = K.f4 * (s * s) * (7 * (c * c) - 1) := rfl
@[wentry] theorem wigner4j_43 (K : WC) (c s : ℝ) : wigner4j K c s 43 = -K.d4 * (s * s * s) * c := rfl
@[wentry] theorem wigner4j_44 (K : WC) (c s : ℝ) : wigner4j K c s 44 = K.c4 * (s * s * s) * s := rfl
@[wentry] theorem wigner4j_45 (K : WC) (c s : ℝ) : wigner4j K c s 45 = -(-K.b4 * (1 - c) * (s * s * s)) := rfl
@[wentry] theorem wigner4j_46 (K : WC) (c s : ℝ) : wigner4j K c s 46 = K.e4 * ((1 - c) * (1 - c)) * (1 + c) * (1 + 4 * c) := rfl
@[wentry] theorem wigner4j_47 (K : WC) (c s : ℝ) : wigner4j K c s 47 = -(-K.h4 * (10 - (35 / 2) * (1 - c) + 7 * ((1 - c) * (1 - c))) * s * (1 - c)) := rfl
@[wentry] theorem wigner4j_48 (K : WC) (c s : ℝ) : wigner4j K c s 48 = (1 / 2) * (10 - 30 * (1 - c) + (105 / 4) * ((1 - c) * (1 - c)) - 7 * ((1 - c) * (1 - c) * (1 - c))) * (1 - c) := rfl
@[wentry] theorem wigner4j_49 (K : WC) (c s : ℝ) : wigner4j K c s 49 = -(-K.g4 * (4 - 18 * (1 - c) + 21 * ((1 - c) * (1 - c)) - 7 * ((1 - c) * (1 - c) * (1 - c))) * s) := rfl
@[wentry] theorem wigner4j_50 (K : WC) (c s : ℝ) : wigner4j K c s 50 = (1 / 2) * (1 - 9 * (1 - c) + (63 / 4) * ((1 - c) * (1 - c)) - 7 * ((1 - c) * (1 - c) * (1 - c))) * (1 + c) := rfl
@[wentry] theorem wigner4j_51 (K : WC) (c s : ℝ) : wigner4j K c s 51 = -K.h4 * (3 - (21 / 2) * (1 - c) + 7 * ((1 - c) * (1 - c))) * s * (1 + c) := rfl
@[wentry] theorem wigner4j_52 (K : WC) (c s : ℝ) : wigner4j K c s 52 = K.e4 * (1 - c) * ((1 + c) * (1 + c)) * (-1 + 4 * c) := rfl
@[wentry] theorem wigner4j_53 (K : WC) (c s : ℝ) : wigner4j K c s 53 = -K.b4 * (1 + c) * (s * s * s) := rfl
@[wentry] theorem wigner4j_54 (K : WC) (c s : ℝ) : wigner4j K c s 54 = K.e4 * (s * s) * ((1 - c) * (1 - c)) := rfl
@[wentry] theorem wigner4j_55 (K : WC) (c s : ℝ) : wigner4j K c s 55 = -(K.b4 * ((1 - c) * (1 - c)) * s * (-2 * c - 1)) := rfl
@[wentry] theorem wigner4j_56 (K : WC) (c s : ℝ) : wigner4j K c s 56 = (1 / 4) * ((1 - c) * (1 - c)) * (1 - 7 * (1 + c) + 7 * ((1 + c) * (1 + c))) := rfl
@[wentry] theorem wigner4j_57 (K : WC) (c s : ℝ) : wigner4j K c s 57 = -(-K.h4 * (10 - (35 / 2) * (1 - c) + 7 * ((1 - c) * (1 - c))) * s * (1 - c)) := rfl
@[wentry] theorem wigner4j_58 (K : WC) (c s : ℝ) : wigner4j K c s 58 = K.f4 * (s * s) * (7 * (c * c) - 1) := rfl
@[wentry] theorem wigner4j_59 (K : WC) (c s : ℝ) : wigner4j K c s 59 = -(-K.h4 * (3 - (21 / 2) * (1 - c) + 7 * ((1 - c) * (1 - c))) * s * (1 + c)) := rfl
@[wentry] theorem wigner4j_60 (K : WC) (c s : ℝ) : wigner4j K c s 60 = (1 / 4) * ((1 + c) * (1 + c)) * (1 - 7 * (1 - c) + 7 * ((1 - c) * (1 - c))) := rfl
@[wentry] theorem wigner4j_61 (K : WC) (c s : ℝ) : wigner4j K c s 61 = -(K.b4 * ((1 + c) * (1 + c)) * s * (2 * c - 1)) := rfl
@[wentry] theorem wigner4j_62 (K : WC) (c s : ℝ) : wigner4j K c s 62 = K.e4 * (s * s) * ((1 + c) * (1 + c)) := rfl
@[wentry] theorem wigner4j_63 (K : WC) (c s : ℝ) : wigner4j K c s 63 = -(-K.a4 * ((1 - c) * (1 - c) * (1 - c)) * s) := rfl
@[wentry] theorem wigner4j_64 (K : WC) (c s : ℝ) : wigner4j K c s 64 = (1 / 8) * ((1 - c) * (1 - c) * (1 - c)) * (3 + 4 * c) := rfl
@[wentry] theorem wigner4j_65 (K : WC) (c s : ℝ) : wigner4j K c s 65 = -(K.b4 * ((1 - c) * (1 - c)) * s * (-2 * c - 1)) := rfl
@[wentry] theorem wigner4j_66 (K : WC) (c s : ℝ) : wigner4j K c s 66 = K.e4 * ((1 - c) * (1 - c)) * (1 + c) * (1 + 4 * c) := rfl
@[wentry] theorem wigner4j_67 (K : WC) (c s : ℝ) : wigner4j K c s 67 = -(-K.d4 * (s * s * s) * c) := rfl
@[wentry] theorem wigner4j_68 (K : WC) (c s : ℝ) : wigner4j K c s 68 = K.e4 * (1 - c) * ((1 + c) * (1 + c)) * (-1 + 4 * c) := rfl
@[wentry] theorem wigner4j_69 (K : WC) (c s : ℝ) : wigner4j K c s 69 = K.b4 * ((1 + c) * (1 + c)) * s * (2 * c - 1) := rfl
@[wentry] theorem wigner4j_70 (K : WC) (c s : ℝ) : wigner4j K c s 70 = (1 / 8) * ((1 + c) * (1 + c) * (1 + c)) * (-3 + 4 * c) := rfl
@[wentry] theorem wigner4j_71 (K : WC) (c s : ℝ) : wigner4j K c s 71 = -K.a4 * ((1 + c) * (1 + c) * (1 + c)) * s := rfl
@[wentry] theorem wigner4j_72 (K : WC) (c s : ℝ) : wigner4j K c s 72 = (1 / 16) * ((1 - c) * (1 - c)) * ((1 - c) * (1 - c)) := rfl
@[wentry] theorem wigner4j_73 (K : WC) (c s : ℝ) : wigner4j K c s 73 = -(-K.a4 * ((1 - c) * (1 - c) * (1 - c)) * s) := rfl
@[wentry] theorem wigner4j_74 (K : WC) (c s : ℝ) : wigner4j K c s 74 = K.e4 * (s * s) * ((1 - c) * (1 - c)) := rfl
@[wentry] theorem wigner4j_75 (K : WC) (c s : ℝ) : wigner4j K c s 75 = -(-K.b4 * (1 - c) * (s * s * s)) := rfl
@[wentry] theorem wigner4j_76 (K : WC) (c s : ℝ) : wigner4j K c s 76 = K.c4 * (s * s * s) * s := rfl
@[wentry] theorem wigner4j_77 (K : WC) (c s : ℝ) : wigner4j K c s 77 = -(-K.b4 * (1 + c) * (s * s * s)) := rfl
@[wentry] theorem wigner4j_78 (K : WC) (c s : ℝ) : wigner4j K c s 78 = K.e4 * (s * s) * ((1 + c) * (1 + c)) := rfl
@[wentry] theorem wigner4j_79 (K : WC) (c s : ℝ) : wigner4j K c s 79 = -(-K.a4 * ((1 + c) * (1 + c) * (1 + c)) * s) := rfl
@[wentry] theorem wigner4j_80 (K : WC) (c s : ℝ) : wigner4j K c s 80 = (1 / 16) * ((1 + c) * (1 + c)) * ((1 + c) * (1 + c)) := rfl

end MRS.Freq
