import Verif.Bin.Props

/-!
# Two-dimensional binning — model of `triangle_interpolation2D`

src/c_lib/lib/interpolation.c:156-479. The routine cuts the triangle into rows of the first
dimension and calls the one-dimensional `triangle_interpolation` once or twice for each row. The
model first lists these calls, then performs them. Division by zero yields zero here, in C infinity
or nan; the quotients in question are not used in that case. A variable that may be read before it
is set is an `Option`; reading it unset is undefined behaviour.
-/

namespace MRS.Bin

variable {K : Type} [Field K] [LinearOrder K] [IsStrictOrderedRing K] [FloorRing K]

/-- One call `triangle_interpolation(&a, &b, &c, &amt, &spec[row * m1], &m1)` (interpolation.c lines 156-478). -/
@[ext]
structure Call (K : Type) where
  row : Int
  a : K
  b : K
  c : K
  amt : K
  deriving DecidableEq

/-- interpolation.c:283-288 (again 315-320, 339-344, 386-391, 409-414, 441-446): the two calls for a
row with two parallel sides. -/
def two (row : Int) (f00 f01 f10 f11 up down denom amt : K) : List (Call K) :=
  [⟨row, f00, f11, f10, down / denom * amt⟩, ⟨row, f00, f11, f01, up / denom * amt⟩]

/-- The same with the test `denom != 0` around it and the single call of its `else`
(interpolation.c:282-292, 312-323, 385-395, 408-418, 438-449). -/
def parts (row : Int) (f00 f01 f10 f11 up down denom amt : K) : List (Call K) :=
  if denom ≠ 0 then two row f00 f01 f10 f11 up down denom amt else [⟨row, f00, f11, f10, amt⟩]

/-- interpolation.c:304-328, Part 2: `while (p != pmid)` with `n` passes left. Returns the calls and
the final `freq10_01`, `freq11_02`, `line_up` and `denom`. -/
def upRows (s01 s02 as df1 : K) : Nat → Int → K → K → K → K → K → K →
    List (Call K) × K × K × K × K
  | 0, _, _, f10, f11, up, _, denom => ([], f10, f11, up, denom)
  | n + 1, p, diff, f10, f11, up, down, denom =>
    let r := upRows s01 s02 as df1 n (p + 1) (diff + df1) (f10 + s01) (f11 + s02) (up + as)
      (down + as) (denom + 2 * as)
    (parts p f10 f11 (f10 + s01) (f11 + s02) up down denom (diff + df1) ++ r.1, r.2)

/-- interpolation.c:430-454, Part 6: `while (p != pmax)`. Returns the calls and the final
`freq10_12` and `freq11_02`. -/
def downRows (s12 s02 as df2 : K) : Nat → Int → K → K → K → K → K → K →
    List (Call K) × K × K
  | 0, _, _, f10, f11, _, _, _ => ([], f10, f11)
  | n + 1, p, diff, f10, f11, up, down, denom =>
    let r := downRows s12 s02 as df2 n (p + 1) (diff - df2) (f10 + s12) (f11 + s02) (up - as)
      (down - as) (denom - 2 * as)
    (parts p f10 f11 (f10 + s12) (f11 + s02) up down denom (diff - df2) ++ r.1, r.2)

/-- interpolation.c:258-359, the left part, for `clip_left2 == 0`. Returns the calls and
`freq10_01`, `freq11_02` if set. At the end `p` equals `pmid`. -/
def left2D (p pmid : Int) (clipL1 clipR1 : Bool) (top x0 x1 y0 y1 s01 s02 : K) :
    Py (List (Call K) × Option (K × K)) :=
  let f10 := x1 - x0
  if p ≠ pmid then
    let df1 := top / f10
    let diff := p + 1 - x0
    -- Part 1
    let g10 := s01 * diff + y0
    let g11 := s02 * diff + y0
    let first :=
      if !clipL1 then [⟨p, y0, g11, g10, 1/2 * diff * diff * df1⟩]
      else
        let g00 := g10 - s01
        let g01 := g11 - s02
        let down := |g11 - g10|
        let up := |g01 - g00|
        parts p g00 g01 g10 g11 up down (down + up) ((diff - 1/2) * df1)
    -- Part 2
    let temp := diff * (s02 - s01)
    let up := |temp|
    let down := |temp + (s02 - s01)|
    if pmid < p + 1 then .error .undefinedBehaviour
    else
      let r := upRows s01 s02 |s02 - s01| df1 (pmid - (p + 1)).toNat (p + 1) ((diff - 1/2) * df1)
        g10 g11 up down (up + down)
      -- Part 3
      if !clipR1 then
        let amt := (x1 - pmid) * (f10 + (pmid - x0)) * (1/2) * df1
        let h10 := y1
        let h11 := s02 * (x1 - x0) + y0
        let last :=
          if r.2.2.2.2 ≠ 0 then
            two pmid r.2.1 r.2.2.1 h10 h11 r.2.2.2.1 |h11 - h10| (|h11 - h10| + r.2.2.2.1) amt
          else [⟨pmid, r.2.1, h11, h10, amt⟩]
        .ok (first ++ r.1 ++ last, some (h10, h11))
      else .ok (first ++ r.1, some (r.2.1, r.2.2.1))
  else if !clipR1 && !clipL1 then
    let g11 := s02 * (x1 - x0) + y0
    .ok ([⟨p, y0, y1, g11, f10 * top * (1/2)⟩], some (y1, g11))
  else .ok ([], none)

/-- interpolation.c:361-478, the right part. `mid` are `freq10_01` and `freq11_02`. -/
def right2D (p pmax : Int) (clipL2 clipR2 : Bool) (top x0 x1 x2 y0 y1 y2 s02 s12 : K)
    (mid : Option (K × K)) : Py (List (Call K)) :=
  let f21 := x2 - x1
  if p ≠ pmax then
    let df2 := top / f21
    let diff := x2 - p - 1
    -- Part 4: calls, freq10_12, freq11_02, line_down
    let start : Py (List (Call K) × K × K × K) :=
      if !clipL2 then
        match mid with
        | none => .error .undefinedBehaviour
        | some (g00, g01) =>
          let g10 := s12 * (p + 1 - x1) + y1
          let g11 := s02 * (p + 1 - x0) + y0
          let up := g01 - g00
          let down := g11 - g10
          .ok (parts p g00 g01 g10 g11 |up| |down| (|down| + |up|)
            ((f21 - diff) * (diff + f21) * (1/2) * df2), g10, g11, down)
      else
        let g00 := s12 * (p - x1) + y1
        let g01 := s02 * (p - x0) + y0
        let g10 := g00 + s12
        let g11 := g01 + s02
        let down := |g11 - g10|
        let up := |g01 - g00|
        .ok (parts p g00 g01 g10 g11 up down (down + up) ((diff + 1/2) * df2), g10, g11, down)
    match start with
    | .error e => .error e
    | .ok (first, g10, g11, down) =>
      -- Part 6
      let up := |down|
      let down := |down + (s02 - s12)|
      if pmax < p + 1 then .error .undefinedBehaviour
      else
        let r := downRows s12 s02 |s02 - s12| df2 (pmax - (p + 1)).toNat (p + 1)
          ((diff + 1/2) * df2) g10 g11 up down (up + down)
        -- Part 7
        .ok (first ++ r.1 ++
          if !clipR2 then [⟨pmax, r.2.1, y2, r.2.2, (x2 - pmax) * (x2 - pmax) * (1/2) * df2⟩]
          else [])
  else if !clipR2 then
    match mid with
    | none => .error .undefinedBehaviour
    | some (_, g11) => .ok [⟨p, g11, y1, y2, f21 * top * (1/2)⟩]
  else .ok []

/-- interpolation.c:217-229: insertion sort of three pairs by their first entry, unrolled. -/
def sortPairs (a b c : K × K) : (K × K) × (K × K) × (K × K) :=
  let ab := if a.1 > b.1 then (b, a) else (a, b)
  if ab.2.1 > c.1 then
    if ab.1.1 > c.1 then (c, ab.1, ab.2) else (ab.1, c, ab.2)
  else (ab.1, ab.2, c)

/-- interpolation.c:231-478, the part after sorting. -/
def sorted2D (x0 y0 x1 y1 x2 y2 amp : K) (m0 : Int) : Py (List (Call K)) :=
  let p := trunc x0
  if p > m0 then .ok []
  else
    let pmax := trunc x2
    if pmax < 0 then .ok []
    else
      let pmid := trunc x1
      let clipRight1 := decide (pmid ≥ m0)
      let pmid := if pmid ≥ m0 then m0 else pmid
      let clipRight2 := decide (pmax ≥ m0)
      let pmax := if pmax ≥ m0 then m0 else pmax
      let clipLeft1 := decide (p < 0)
      let p := if p < 0 then 0 else p
      let clipLeft2 := decide (pmid < 0)
      let pmid := if pmid < 0 then 0 else pmid
      let top := amp * 2 / (x2 - x0)
      let s01 := (y1 - y0) / (x1 - x0)
      let s02 := (y2 - y0) / (x2 - x0)
      let s12 := (y2 - y1) / (x2 - x1)
      if clipLeft2 = false then
        match left2D p pmid clipLeft1 clipRight1 top x0 x1 y0 y1 s01 s02 with
        | .error e => .error e
        | .ok (w1, mid) =>
          match right2D pmid pmax clipLeft2 clipRight2 top x0 x1 x2 y0 y1 y2 s02 s12 mid with
          | .error e => .error e
          | .ok w2 => .ok (w1 ++ w2)
      else right2D p pmax clipLeft2 clipRight2 top x0 x1 x2 y0 y1 y2 s02 s12 none

/-- interpolation.c:156-479 `triangle_interpolation2D`, the calls it makes. Each of `a b c` is the
pair of frequencies of one vertex. -/
def calls2D (a b c : K × K) (amp : K) (m0 : Int) : Py (List (Call K)) :=
  let p := trunc a.1
  let call := fun (row : Int) (amt : K) => (⟨row, a.2, b.2, c.2, amt⟩ : Call K)
  if |a.1 - b.1| < TOL ∧ |a.1 - c.1| < TOL then
    if p ≥ m0 ∨ p < 0 then .ok []
    else
      let diff := a.1 - p
      if |diff - 1/2| < TOL then .ok [call p amp]
      else if diff < 1/2 then
        .ok ((if p ≠ 0 then [call (p - 1) (amp * (1/2 - diff))] else []) ++
          [call p (amp * (1/2 + diff))])
      else if diff > 1/2 then
        .ok ((if p + 1 ≠ m0 then [call (p + 1) (amp * (diff - 1/2))] else []) ++
          [call p (amp * (1 + 1/2 - diff))])
      else .ok []
  else if trunc a.1 = trunc b.1 ∧ trunc a.1 = trunc c.1 then
    if p ≥ m0 ∨ p < 0 then .ok [] else .ok [call p amp]
  else
    let f := sortPairs a b c
    sorted2D f.1.1 f.1.2 f.2.1.1 f.2.1.2 f.2.2.1 f.2.2.2 amp m0

/-- Performing the calls: row `r` is the block `r * m1 ..` of the array (interpolation.c lines 156-478). -/
def perform (m1 : Int) : List (Call K) → Py (Writes K)
  | [] => .ok []
  | c :: l => match triangleOrDelta c.a c.b c.c c.amt m1 with
    | .error e => .error e
    | .ok w => match perform m1 l with
      | .error e => .error e
      | .ok w' => .ok (w.map (fun q => (c.row * m1 + q.1, q.2)) ++ w')

/-- interpolation.c:156-479 `triangle_interpolation2D`, its additions to `spec`. -/
def triangle2D (a b c : K × K) (amp : K) (m0 m1 : Int) : Py (Writes K) :=
  match calls2D a b c amp m0 with
  | .error e => .error e
  | .ok cs => perform m1 cs

example : (calls2D ((1/4, 0) : ℚ × ℚ) (5/2, 2) (3, 1) 10 4).map (·.map (·.row)) =
    .ok [0, 1, 1, 2, 2, 2, 2, 3] := by decide +kernel

end MRS.Bin
