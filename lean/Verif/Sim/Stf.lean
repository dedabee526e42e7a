import Mathlib.Algebra.Order.Floor.Ring
import Mathlib.Algebra.Order.Round
import Mathlib.Data.Rat.Floor
import Mathlib.Tactic.NormNum
import Mathlib.Tactic.Linarith
import Mathlib.Tactic.LinearCombination
import Mathlib.Tactic.FieldSimp
import Verif.Bin.Model

/-!
# Spin transition functions and trigonometric tables — properties C45, C46

Model of src/c_lib/include/frequency/spin_transition_functions.h and of the table lookups of
src/c_lib/include/vm.h:290-312, 371-398 with config.h:30-32.
-/

namespace MRS.Sim

/-! ## Spin transition functions -/

/-- spin_transition_functions.h:29 `STF_p`. -/
def stfP (mf mi : ℚ) : ℚ := mf - mi

/-- spin_transition_functions.h:46-48 `STF_d`; the constant is the decimal of the source. -/
def stfD (mf mi : ℚ) : ℚ := 12247448714 / 10000000000 * (mf * mf - mi * mi)

/-- spin_transition_functions.h:66-72 `STF_f`. -/
def stfF (mf mi spin : ℚ) : ℚ :=
  let f := 1 - 3 * spin * (spin + 1)
  let f := f * (mf - mi)
  let f := f + 5 * (mf * mf * mf - mi * mi * mi)
  f * (316227766 / 1000000000)

/-- spin_transition_functions.h:98-108 `STF_cL`: the three values stored, `L = 0, 2, 4`. -/
def stfCL (mf mi spin : ℚ) : ℚ × ℚ × ℚ :=
  let f := stfF mf mi spin
  let p := stfP mf mi
  let temp := (spin * (spin + 1) - 3 / 4) * p
  (3577708764 / 10000000000 * temp + 8485281374 / 10000000000 * f,
   1069044968 / 10000000000 * temp + -10141851057 / 10000000000 * f,
   -1434274331 / 10000000000 * temp + -12850792082 / 10000000000 * f)

/-- spin_transition_functions.h:139-142 `STF_dIS`. -/
def stfDIS (mIf mIi mSf mSi : ℚ) : ℚ := mIf * mSf - mIi * mSi

/-- **C45 (reversal).** Exchanging initial and final state changes the sign of every spin
transition function, for all real quantum numbers. -/
theorem C45_reversal (mf mi spin a b c d : ℚ) :
    stfP mi mf = -stfP mf mi ∧ stfD mi mf = -stfD mf mi ∧ stfF mi mf spin = -stfF mf mi spin ∧
    stfCL mi mf spin = (-(stfCL mf mi spin).1, -(stfCL mf mi spin).2.1, -(stfCL mf mi spin).2.2) ∧
    stfDIS b a d c = -stfDIS a b c d := by
  refine ⟨by unfold stfP; ring, by unfold stfD; ring, by unfold stfF; ring, ?_, by unfold stfDIS; ring⟩
  unfold stfCL stfF stfP
  refine Prod.ext ?_ (Prod.ext ?_ ?_) <;> dsimp only <;> ring

/-- **C45 (first order).** The first-order quadrupolar function vanishes exactly for
transitions between states of equal `|m|`, and changes sign under the inversion
`(m_f, m_i) → (-m_i, -m_f)`. -/
theorem C45_first_order (mf mi : ℚ) :
    (stfD mf mi = 0 ↔ |mf| = |mi|) ∧ stfD (-mi) (-mf) = -stfD mf mi := by
  unfold stfD
  constructor
  · rw [← sq_eq_sq_iff_abs_eq_abs]
    constructor
    · intro h; nlinarith
    · intro h; nlinarith
  · ring

/-- **C45 (second order).** The second-order quadrupolar functions vanish for spin 1/2, and are
even under the inversion `(m_f, m_i) → (-m_i, -m_f)`. -/
theorem C45_second_order (mf mi spin : ℚ) :
    ((mf = 1 / 2 ∨ mf = -1 / 2) → (mi = 1 / 2 ∨ mi = -1 / 2) → stfCL mf mi (1 / 2) = (0, 0, 0)) ∧
    stfCL (-mi) (-mf) spin = stfCL mf mi spin := by
  constructor
  · intro h1 h2
    rcases h1 with rfl | rfl <;> rcases h2 with rfl | rfl <;>
      · unfold stfCL stfF stfP
        norm_num
  · unfold stfCL stfF stfP
    refine Prod.ext ?_ (Prod.ext ?_ ?_) <;> dsimp only <;> ring

/-- **C45 (central transition).** For the central transition of any half-integer spin the
first-order term vanishes and the second-order ones do not, for spin above 1/2: the
spectrum of the central transition is shifted and broadened to second order only. -/
theorem C45_central (spin : ℚ) (h : 3 / 2 ≤ spin) :
    stfD (-1 / 2) (1 / 2) = 0 ∧ (stfCL (-1 / 2) (1 / 2) spin).1 > 0 ∧
    (stfCL (-1 / 2) (1 / 2) spin).2.1 < 0 ∧ (stfCL (-1 / 2) (1 / 2) spin).2.2 < 0 := by
  have hx : 15 / 4 ≤ spin * (spin + 1) := by nlinarith
  unfold stfD stfCL stfF stfP
  refine ⟨by norm_num, ?_, ?_, ?_⟩ <;> dsimp only <;> nlinarith

/-- **C45 (couplings).** The function of a weak coupling adds up along successive transitions, as differences of energies do;
if one spin stays in the state `m` it is `m` times the change of the other, which gives the `2 S + 1` lines of a multiplet; it
vanishes exactly if the two states have the same product of quantum numbers. -/
theorem C45_coupling (mIa mIb mIc mSa mSb mSc m : ℚ) :
    stfDIS mIc mIa mSc mSa = stfDIS mIb mIa mSb mSa + stfDIS mIc mIb mSc mSb ∧
    stfDIS mIb mIa m m = m * stfP mIb mIa ∧ stfDIS m m mSb mSa = m * stfP mSb mSa ∧
    (stfDIS mIb mIa mSb mSa = 0 ↔ mIb * mSb = mIa * mSa) := by
  unfold stfDIS stfP
  refine ⟨by ring, by ring, by ring, sub_eq_zero⟩

example : stfDIS (-1 / 2) (1 / 2) (1 / 2) (1 / 2) = -1 / 2 ∧ stfDIS (-1 / 2) (1 / 2) (-1 / 2) (1 / 2) = 0 ∧
    stfDIS (-1 / 2) (1 / 2) (3 / 2) (1 / 2) = -1 := by decide +kernel

/-- **C45 (constants).** The decimals in the source are the documented surds to nine digits:
√(3/2), 1/√10, 4/√125, √(18/25), √(2/175), 6/√35, √(18/875), 17/√175. -/
theorem C45_constants :
    ∀ p ∈ [((12247448714 / 10000000000 : ℚ), (3 / 2 : ℚ)),
      (316227766 / 1000000000, 1 / 10), (3577708764 / 10000000000, 16 / 125),
      (8485281374 / 10000000000, 18 / 25), (1069044968 / 10000000000, 2 / 175),
      (10141851057 / 10000000000, 36 / 35), (1434274331 / 10000000000, 18 / 875),
      (12850792082 / 10000000000, 289 / 175)],
      |p.1 * p.1 - p.2| < 1 / 1000000000 ∧ 0 < p.1 := by
  decide +kernel

example : stfD (3 / 2) (1 / 2) ≠ 0 ∧ stfD (-3 / 2) (3 / 2) = 0 ∧
    (stfCL (-1 / 2) (1 / 2) (5 / 2)).1 ≠ 0 := by decide +kernel

/-! ## Table lookups -/

set_option linter.unusedSectionVars false

variable {K : Type} [Field K] [LinearOrder K] [IsStrictOrderedRing K] [FloorRing K]

/-- vm.h:16 `absd`. -/
def absd (x : K) : K := if x < 0 then -x else x

/-- config.h:30 `modd`. The cast to `int` is truncation. -/
def modd (x y : K) : K := x - (MRS.Bin.trunc (x / y) : Int) * y

/-- config.h:31 `lerp`. -/
def lerp (w v1 v2 : K) : K := (1 - w) * v1 + w * v2

/-- config.h:32 `sign`. -/
def signC (x : K) : K := (if x > 0 then 1 else 0) - (if x < 0 then 1 else 0)

/-- vm.h:290-299 `get_cos_sin_from_table`: the (cosine, sine) pair, with the tables and the
value of `CONST_2PI` as parameters; `inv` is `table_precision_inverse`. -/
def getCosSin (cosT sinT : Int → K) (twoPi inv x : K) : K × K :=
  let x := absd x
  let x := modd x twoPi
  let x := x * inv
  let i := MRS.Bin.trunc x
  let wt := x - (i : K)
  (lerp wt (cosT i) (cosT (i + 1)), lerp wt (sinT i) (sinT (i + 1)) * signC x)

/-- vm.h:371-398 `vm_double_complex_exp_imag_only` on one element with imaginary part `x`. -/
def expImag (cosT sinT : Int → K) (twoPi inv x : K) : K × K :=
  let y := absd x
  let y := modd y twoPi
  let y := y * inv
  let i := MRS.Bin.trunc y
  let wt := y - (i : K)
  (lerp wt (cosT i) (cosT (i + 1)), lerp wt (sinT i) (sinT (i + 1)) * signC x)

theorem absd_neg (x : K) : absd (-x) = absd x := by
  unfold absd
  rcases lt_trichotomy x 0 with h | h | h
  · rw [if_neg (by linarith), if_pos h]
  · subst h; simp
  · rw [if_pos (by linarith), if_neg (by linarith), neg_neg]

theorem signC_neg (x : K) : signC (-x) = -signC x := by
  unfold signC
  rcases lt_trichotomy x 0 with h | h | h
  · rw [if_pos (by linarith), if_neg (by linarith), if_neg (by linarith), if_pos h]; ring
  · subst h; simp
  · rw [if_neg (by linarith), if_pos (by linarith), if_pos h, if_neg (by linarith)]; ring

/-- **C46 (sideband phases).** The complex exponential used for the sideband phases is even in
its real and odd in its imaginary part, whatever the tables. -/
theorem C46_phase (cosT sinT : Int → K) (twoPi inv x : K) :
    expImag cosT sinT twoPi inv (-x) =
      ((expImag cosT sinT twoPi inv x).1, -(expImag cosT sinT twoPi inv x).2) := by
  unfold expImag
  rw [absd_neg, signC_neg]
  simp only [mul_neg]

/-- **C46 (cosine), partial.** The cosine of the pair used for rotation matrices is even in the
angle. Missing: the sine is not odd, see `C46_counterexample`. -/
theorem C46_cosine_partial (cosT sinT : Int → K) (twoPi inv x : K) :
    (getCosSin cosT sinT twoPi inv (-x)).1 = (getCosSin cosT sinT twoPi inv x).1 := by
  unfold getCosSin
  rw [absd_neg]

/-- **C46, where the code disagrees.** The sine of the pair used for rotation matrices is even,
too: the sign is taken from the folded angle. Rotations by `β` and `-β` get the same
matrix, for every angle. -/
theorem C46_counterexample (cosT sinT : Int → K) (twoPi inv x : K) :
    getCosSin cosT sinT twoPi inv (-x) = getCosSin cosT sinT twoPi inv x := by
  unfold getCosSin
  rw [absd_neg]

/-- With a coarse table the sine of an angle of a quarter turn is 1, that of minus a quarter
turn should be -1 but is 1. -/
example : let cosT : Int → ℚ := fun i => [1, 0, -1, 0, 1].getD i.toNat 0
    let sinT : Int → ℚ := fun i => [0, 1, 0, -1, 0].getD i.toNat 0
    getCosSin cosT sinT 4 1 1 = (0, 1) ∧ getCosSin cosT sinT 4 1 (-1) = (0, 1) ∧
    expImag cosT sinT 4 1 (-1) = (0, -1) := by
  decide +kernel

end MRS.Sim
