import Verif.Py
import Mathlib.Algebra.Order.Floor.Ring
import Mathlib.Algebra.Order.Field.Basic
import Mathlib.Data.Rat.Floor

/-!
# Binning of lines and triangles — model of src/c_lib/lib/interpolation.c

Floating point numbers are elements of an ordered field `K` with a floor function
(`ℚ` or `ℝ`). C `int` is unbounded here; converting a `double` that does not fit is
outside the model. A routine that adds to `spec[..]` returns the list of its additions
`(index, amount)` in order, so that every index touched is visible, also if the amount
is zero or the index lies outside the array.
-/

namespace MRS.Bin

variable {K : Type} [Field K] [LinearOrder K] [IsStrictOrderedRing K] [FloorRing K]

/-- C conversion `(int)x`: truncation towards zero (interpolation.c lines 91-153). -/
def trunc (x : K) : Int := if 0 ≤ x then ⌊x⌋ else ⌈x⌉

/-- Additions to the array `spec` (interpolation.c lines 47-153). -/
abbrev Writes (K : Type) := List (Int × K)

/-- `config.h:28` `TOL`. -/
def TOL : K := 1 / 1000000

/-- interpolation.c:15-37 `delta_fn_interpolation`. -/
def deltaFn (freq : K) (points : Int) (amp : K) : Writes K :=
  let p := trunc freq
  if p ≥ points ∨ p < 0 then []
  else
    let diff := freq - p
    if |diff - 1/2| < TOL then [(p, amp)]
    else if diff < 1/2 then
      (if p ≠ 0 then [(p - 1, amp * (1/2 - diff))] else []) ++ [(p, amp * (1/2 + diff))]
    else if diff > 1/2 then
      (if p + 1 ≠ points then [(p + 1, amp * (diff - 1/2))] else []) ++
        [(p, amp * (1 + 1/2 - diff))]
    else []

/-- interpolation.c:61 `while (p != pmid) spec[p++] += diff += df1;` with `n` passes
left. -/
def upLoop (df1 : K) : Nat → Int → K → Writes K
  | 0, _, _ => []
  | n + 1, p, diff => (p, diff + df1) :: upLoop df1 n (p + 1) (diff + df1)

/-- interpolation.c:83 `while (p != pmax) spec[p++] += diff -= df1;` -/
def downLoop (df1 : K) : Nat → Int → K → Writes K
  | 0, _, _ => []
  | n + 1, p, diff => (p, diff - df1) :: downLoop df1 n (p + 1) (diff - df1)

/-- interpolation.c:47-65 `left_triangle_interpolate`. The loop runs past the array if
it starts beyond `pmid`. -/
def leftTri (p pmid : Int) (lClip rClip : Bool) (top f0 f1 : K) : Py (Writes K) :=
  let f10 := f1 - f0
  if p = pmid then .ok [(p, if !rClip && !lClip then f10 * top * (1/2) else 0)]
  else
    let df1 := top / f10
    let diff := p + 1 - f0
    let w0 := (p, if !lClip then (1/2) * diff * diff * df1 else (diff - 1/2) * df1)
    let diff := (diff - 1/2) * df1
    if pmid < p + 1 then .error .undefinedBehaviour
    else .ok (w0 :: upLoop df1 (pmid - (p + 1)).toNat (p + 1) diff ++
      [(pmid, if !rClip then (f1 - pmid) * (f10 + (pmid - f0)) * (1/2) * df1 else 0)])

/-- interpolation.c:68-89 `right_triangle_interpolate`. -/
def rightTri (p pmax : Int) (lClip rClip : Bool) (top f1 f2 : K) : Py (Writes K) :=
  let f21 := f2 - f1
  if p = pmax then .ok [(p, if !rClip then f21 * top * (1/2) else 0)]
  else
    let df1 := top / f21
    let diff := f2 - p - 1
    let w0 := (p, if !lClip then (f21 - diff) * (diff + f21) * (1/2) * df1 else (diff + 1/2) * df1)
    let d := (diff + 1/2) * df1
    if pmax < p + 1 then .error .undefinedBehaviour
    else .ok (w0 :: downLoop df1 (pmax - (p + 1)).toNat (p + 1) d ++
      (if !rClip then [(pmax, (f2 - pmax) * (f2 - pmax) * (1/2) * df1)] else []))

/-- interpolation.c:107-115: insertion sort of three numbers, unrolled. -/
def sort3 (a b c : K) : K × K × K :=
  -- j = 1
  let (a, b) := if a > b then (b, a) else (a, b)
  -- j = 2: shift while greater than t
  if b > c then
    if a > c then (c, a, b) else (a, c, b)
  else (a, b, c)

/-- interpolation.c:117-153, the part of `__triangle_interpolation` after sorting. -/
def triangleSorted (f0 f1 f2 amp : K) (points : Int) : Py (Writes K) :=
  let p := trunc f0
  if p > points then .ok []
  else
    let pmax := trunc f2
    if pmax < 0 then .ok []
    else
      let pmid := trunc f1
      let clipRight1 := decide (pmid ≥ points)
      let pmid := if pmid ≥ points then points else pmid
      let clipRight2 := decide (pmax ≥ points)
      let pmax := if pmax ≥ points then points else pmax
      let clipLeft1 := decide (p < 0)
      let p := if p < 0 then 0 else p
      let clipLeft2 := decide (pmid < 0)
      let pmid := if pmid < 0 then 0 else pmid
      let top := amp * 2 / (f2 - f0)
      match leftTri p pmid clipLeft1 clipRight1 top f0 f1 with
      | .error e => .error e
      | .ok w1 => match rightTri pmid pmax clipLeft2 clipRight2 top f1 f2 with
        | .error e => .error e
        | .ok w2 => .ok (w1 ++ w2)

/-- interpolation.c:91-154 `__triangle_interpolation`. -/
def triangle (freq1 freq2 freq3 amp : K) (points : Int) : Py (Writes K) :=
  let p := trunc freq1
  if trunc freq1 = trunc freq2 ∧ trunc freq1 = trunc freq3 then
    if p ≥ points ∨ p < 0 then .ok [] else .ok [(p, amp)]
  else
    let f := sort3 freq1 freq2 freq3
    triangleSorted f.1 f.2.1 f.2.2 amp points

/-- interpolation.c:633-639 `triangle_interpolation`. -/
def triangleOrDelta (freq1 freq2 freq3 amp : K) (points : Int) : Py (Writes K) :=
  if |freq1 - freq2| < TOL ∧ |freq1 - freq3| < TOL then .ok (deltaFn freq1 points amp)
  else triangle freq1 freq2 freq3 amp points

end MRS.Bin
