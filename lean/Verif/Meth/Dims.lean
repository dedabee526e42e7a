import Verif.Bin.Model
import Mathlib.Tactic.FieldSimp
import Mathlib.Tactic.LinearCombination
import Mathlib.Algebra.Order.Field.Rat
import Mathlib.Data.Rat.Floor

/-!
# Spectral dimensions — properties C22, C32, C33, C34, C65

Model of src/mrsimulator/method/spectral_dimension.py:100-153, src/mrsimulator/utils/__init__.py:7-42,
src/mrsimulator/method/__init__.py:193-203 and 236-245, src/mrsimulator/simulator/__init__.py:561-573,
src/c_lib/base/base_model.pyx:148-192 and src/c_lib/lib/method.c:85-88. Floats are rationals.
-/

namespace MRS.Meth

open MRS.Bin

/-- The numeric fields of `SpectralDimension` (spectral_dimension.py:54-57). -/
structure SDim where
  count : Nat
  sw : ℚ
  ref : ℚ
  origin : Option ℚ
  deriving DecidableEq, Repr

/-- spectral_dimension.py:100-113 `coordinates_Hz`, entry `k`. `int(n / 2)` is exact for every
count that fits an array. -/
def coordHz (d : SDim) (k : Nat) : ℚ := ((k : ℚ) - (d.count / 2 : Nat)) * (d.sw / d.count) + d.ref

/-- spectral_dimension.py:100-113 `coordinates_Hz`. -/
def coordinatesHz (d : SDim) : List ℚ := (List.range d.count).map (coordHz d)

/-- A linear dimension of the csdmpy library, coordinates in Hz. -/
structure Lin where
  count : Nat
  inc : ℚ
  offset : ℚ
  origin : ℚ
  cfft : Bool
  deriving DecidableEq, Repr

/-- Coordinates of a linear dimension as the CSDM specification defines them: `k * inc +
offset`, where `k` starts at `-(n // 2)` if `complex_fft` is true (library, not in /repo). -/
def Spec.linCoord (l : Lin) (k : Nat) : ℚ :=
  ((k : ℚ) - (if l.cfft then ((l.count / 2 : Nat) : ℚ) else 0)) * l.inc + l.offset

/-- spectral_dimension.py:136-153 `to_csdm_dimension`; an absent origin offset is zero in the
library. -/
def toCsdm (d : SDim) : Lin := ⟨d.count, d.sw / d.count, d.ref, d.origin.getD 0, true⟩

/-- utils/__init__.py:20-40, one dimension. -/
def fromLin (l : Lin) : SDim :=
  let sw := l.count * l.inc
  let co := if l.cfft then l.offset else l.offset + sw / 2
  let r : ℚ × ℚ :=
    if sw < 0 then (-sw, l.offset + l.inc * ((((l.count + 1) / 2 : Nat) : ℚ) - 1)) else (sw, co)
  ⟨l.count, r.1, r.2, if l.origin = 0 then none else some l.origin⟩

/-- utils/__init__.py:7-42 `get_spectral_dimensions`. -/
def getSpectralDimensions (ls : List Lin) : List SDim := (ls.map fromLin).reverse

/-- simulator/__init__.py:569-573: the dimensions of the CSDM object made for a method. -/
def asCsdmDims (ds : List SDim) : List Lin := ds.reverse.map toCsdm

/-- method/__init__.py:236-245
`update_spectral_dimension_attributes_from_experiment`: the dimensions after the loop. A
non-positive width is rejected by the field validator (spectral_dimension.py:55). -/
def updateDims : Nat → List Lin → List SDim → Py (List SDim)
  | _, [], ds => .ok ds
  | i, l :: ls, ds =>
    match ds[i]? with
    | none => .error .indexError
    | some _ =>
      if (l.count : ℚ) * l.inc ≤ 0 then .error .valueError
      else updateDims (i + 1) ls (ds.set i ⟨l.count, l.count * l.inc, l.offset, some l.origin⟩)

/-! ## C32 -/

theorem count_pos (d : SDim) (h : 1 ≤ d.count) : (0 : ℚ) < d.count := by
  exact_mod_cast (by omega : 0 < d.count)

/-- **C32 (grid).** For every count, width and offset: `count` coordinates, equally spaced by
`width / count`, the reference offset at index `count // 2`, all in a window of one width
around the reference offset. -/
theorem C32_grid (d : SDim) (hn : 1 ≤ d.count) (hsw : 0 < d.sw) :
    (coordinatesHz d).length = d.count ∧
    (coordinatesHz d)[d.count / 2]? = some d.ref ∧
    (∀ k, k + 1 < d.count → ∃ a b, (coordinatesHz d)[k]? = some a ∧
      (coordinatesHz d)[k + 1]? = some b ∧ b - a = d.sw / d.count) ∧
    ∀ x ∈ coordinatesHz d, d.ref - d.sw / 2 ≤ x ∧ x < d.ref + d.sw / 2 := by
  have hc := count_pos d hn
  have hget : ∀ k, k < d.count → (coordinatesHz d)[k]? = some (coordHz d k) := by
    intro k hk
    unfold coordinatesHz
    rw [List.getElem?_map, List.getElem?_range hk]
    rfl
  refine ⟨by simp [coordinatesHz], ?_, ?_, ?_⟩
  · rw [hget _ (by omega)]
    unfold coordHz
    simp
  · intro k hk
    refine ⟨_, _, hget k (by omega), hget (k + 1) hk, ?_⟩
    unfold coordHz
    push_cast
    ring
  · intro x hx
    unfold coordinatesHz at hx
    rw [List.mem_map] at hx
    obtain ⟨k, hk, rfl⟩ := hx
    rw [List.mem_range] at hk
    unfold coordHz
    have h1 : ((d.count / 2 : Nat) : ℚ) ≤ (d.count : ℚ) / 2 := by
      have : 2 * ((d.count / 2 : Nat) : ℚ) ≤ d.count := by
        exact_mod_cast (by omega : 2 * (d.count / 2) ≤ d.count)
      linarith
    have h2 : (k : ℚ) - (d.count / 2 : Nat) < (d.count : ℚ) / 2 := by
      have : k + 1 ≤ d.count := hk
      have h3 : (d.count : ℚ) ≤ 2 * ((d.count / 2 : Nat) : ℚ) + 1 := by
        exact_mod_cast (by omega : d.count ≤ 2 * (d.count / 2) + 1)
      have h4 : (k : ℚ) + 1 ≤ d.count := by exact_mod_cast this
      linarith
    have hk0 : (0 : ℚ) ≤ k := Nat.cast_nonneg k
    have hi : 0 < d.sw / d.count := div_pos hsw hc
    have hw : (d.count : ℚ) / 2 * (d.sw / d.count) = d.sw / 2 := by field_simp
    constructor
    · have : -((d.count : ℚ) / 2) * (d.sw / d.count) ≤ ((k : ℚ) - (d.count / 2 : Nat)) * (d.sw / d.count) :=
        mul_le_mul_of_nonneg_right (by linarith) hi.le
      linarith [neg_mul ((d.count : ℚ) / 2) (d.sw / d.count)]
    · have : ((k : ℚ) - (d.count / 2 : Nat)) * (d.sw / d.count) < (d.count : ℚ) / 2 * (d.sw / d.count) :=
        mul_lt_mul_of_pos_right h2 hi
      linarith

example : coordinatesHz ⟨5, 10, 1, none⟩ = [-3, -1, 1, 3, 5] := by decide +kernel

/-- **C32 (export).** The exported dimension has the coordinates of the spectral dimension, and
importing the exported dimensions gives back every count, width and reference offset, in
order. An origin offset is kept as well, except that zero becomes absent. -/
theorem C32_round_trip (ds : List SDim) (h : ∀ d ∈ ds, 1 ≤ d.count ∧ 0 < d.sw) :
    (∀ d ∈ ds, ∀ k, Spec.linCoord (toCsdm d) k = coordHz d k) ∧
    getSpectralDimensions (asCsdmDims ds) =
      ds.map fun d => ⟨d.count, d.sw, d.ref, if d.origin = some 0 then none else d.origin⟩ := by
  constructor
  · intro d _ k
    simp [Spec.linCoord, toCsdm, coordHz]
  · unfold getSpectralDimensions asCsdmDims
    rw [List.map_map, ← List.map_reverse, List.reverse_reverse]
    apply List.map_congr_left
    intro d hd
    obtain ⟨h1, h2⟩ := h d hd
    have hc := count_pos d h1
    have hsw : (d.count : ℚ) * (d.sw / d.count) = d.sw := by field_simp
    simp only [Function.comp, fromLin, toCsdm, hsw]
    rw [if_neg (by linarith)]
    cases d with
    | mk c s r o =>
      cases o with
      | none => simp
      | some v =>
        by_cases hv : v = 0
        · simp [hv]
        · simp [hv]

example : getSpectralDimensions (asCsdmDims [⟨5, 10, 1, some 7⟩, ⟨4, 3, -2, none⟩]) =
    [⟨5, 10, 1, some 7⟩, ⟨4, 3, -2, none⟩] := by decide +kernel

/-- **C65, partial.** A dimension measured elsewhere: for a positive increment with
`complex_fft`, a positive increment without it and an even count, and a negative increment
without it, the imported spectral dimension has the same coordinates (in ascending order).
Missing: the other cases, see `C65_counterexample_odd` and
`C65_counterexample_negative`. -/
theorem C65_import_partial (l : Lin) (hn : 1 ≤ l.count)
    (hcase : (0 < l.inc ∧ l.cfft = true) ∨ (0 < l.inc ∧ l.cfft = false ∧ 2 ∣ l.count) ∨
      (l.inc < 0 ∧ l.cfft = false)) (k : Nat) (hk : k < l.count) :
    0 < (fromLin l).sw ∧
    coordHz (fromLin l) k =
      Spec.linCoord l (if 0 < l.inc then k else l.count - 1 - k) := by
  have hc : (0 : ℚ) < l.count := by exact_mod_cast (by omega : 0 < l.count)
  rcases hcase with ⟨h1, h2⟩ | ⟨h1, h2, h3⟩ | ⟨h1, h2⟩
  · have hp : 0 < (l.count : ℚ) * l.inc := mul_pos hc h1
    have hd : (l.count : ℚ) * l.inc / l.count = l.inc := by field_simp
    unfold fromLin coordHz Spec.linCoord
    simp only [h2, if_true, h1]
    rw [if_neg (by linarith)]
    refine ⟨hp, ?_⟩
    simp only [hd]
  · have hp : 0 < (l.count : ℚ) * l.inc := mul_pos hc h1
    have hd : (l.count : ℚ) * l.inc / l.count = l.inc := by field_simp
    obtain ⟨m, hm⟩ := h3
    have hm2 : l.count / 2 = m := by omega
    have hmq : (l.count : ℚ) = 2 * m := by rw [hm]; push_cast; ring
    unfold fromLin coordHz Spec.linCoord
    simp only [h2, h1, if_true]
    rw [if_neg (by linarith)]
    refine ⟨hp, ?_⟩
    simp only [hd, hm2, Bool.false_eq_true, if_false]
    rw [hmq]
    ring
  · have hp : (l.count : ℚ) * l.inc < 0 := mul_neg_of_pos_of_neg hc h1
    have hd : -((l.count : ℚ) * l.inc) / l.count = -l.inc := by field_simp
    unfold fromLin coordHz Spec.linCoord
    simp only [h2, if_neg (not_lt.mpr h1.le)]
    rw [if_pos hp]
    refine ⟨by simpa using hp, ?_⟩
    simp only [hd, Bool.false_eq_true, if_false]
    have e1 : ((l.count - 1 - k : Nat) : ℚ) = (l.count : ℚ) - 1 - k := by
      rw [Nat.cast_sub (by omega), Nat.cast_sub hn]
      simp
    have e2 : (((l.count + 1) / 2 : Nat) : ℚ) + ((l.count / 2 : Nat) : ℚ) = l.count := by
      exact_mod_cast (by omega : (l.count + 1) / 2 + l.count / 2 = l.count)
    rw [e1]
    have e3 : (((l.count + 1) / 2 : Nat) : ℚ) = l.count - ((l.count / 2 : Nat) : ℚ) := by linarith
    rw [e3]
    ring

example : coordinatesHz (fromLin ⟨4, -2, 3, 0, false⟩) = [-3, -1, 1, 3] := by decide +kernel

/-- **C65, where the code disagrees (odd count).** Without `complex_fft`, an odd count is
imported half an increment off: coordinates 0, 1, 2 become 1/2, 3/2, 5/2. -/
theorem C65_counterexample_odd :
    let l : Lin := ⟨3, 1, 0, 0, false⟩
    (List.range 3).map (Spec.linCoord l) = [0, 1, 2] ∧
    coordinatesHz (fromLin l) = [1/2, 3/2, 5/2] := by decide +kernel

/-- **C65, where the code disagrees (negative increment with `complex_fft`).** Coordinates 2, 1,
0, -1 become -3, -2, -1, 0. -/
theorem C65_counterexample_negative :
    let l : Lin := ⟨4, -1, 0, 0, true⟩
    (List.range 4).map (Spec.linCoord l) = [2, 1, 0, -1] ∧
    coordinatesHz (fromLin l) = [-3, -2, -1, 0] := by decide +kernel

/-! ## C22 -/

theorem updateDims_spec (i : Nat) (ls : List Lin) (ds : List SDim) (hlen : i + ls.length ≤ ds.length)
    (hpos : ∀ l ∈ ls, 0 < (l.count : ℚ) * l.inc) :
    updateDims i ls ds = .ok (ds.take i ++
      (ls.map fun l => ⟨l.count, l.count * l.inc, l.offset, some l.origin⟩) ++
      ds.drop (i + ls.length)) := by
  induction ls generalizing i ds with
  | nil => simp [updateDims]
  | cons l ls ih =>
    have hi : i < ds.length := by
      rw [List.length_cons] at hlen
      omega
    unfold updateDims
    rw [List.getElem?_eq_getElem hi]
    simp only
    rw [if_neg (not_le.mpr (hpos l (by simp))), ih (i + 1) _ (by
      rw [List.length_cons] at hlen
      rw [List.length_set]
      omega) (fun l' hl' => hpos l' (by simp [hl']))]
    congr 1
    rw [List.take_set, List.drop_set_of_lt (by omega), List.take_add_one, List.getElem?_eq_getElem hi]
    simp only [Option.toList_some, List.map_cons, List.length_cons]
    rw [List.set_append_right _ _ (by simp), List.length_take, min_eq_left hi.le, Nat.sub_self]
    simp only [List.set_cons_zero, List.append_assoc, List.cons_append, List.nil_append]
    rw [show i + 1 + ls.length = i + (ls.length + 1) by omega]

/-- **C22, exact behaviour.** Updating a method from an experiment with the layout that the
simulator produces for it gives the method's dimensions in reversed order. -/
theorem C22_reversed (ds : List SDim)
    (h : ∀ d ∈ ds, 1 ≤ d.count ∧ 0 < d.sw ∧ d.origin.isSome = true) :
    updateDims 0 (asCsdmDims ds) ds = .ok ds.reverse := by
  have hsw : ∀ d ∈ ds, (d.count : ℚ) * (d.sw / d.count) = d.sw := by
    intro d hd
    have := count_pos d (h d hd).1
    field_simp
  rw [updateDims_spec 0 _ _ (by simp [asCsdmDims]) (by
    intro l hl
    unfold asCsdmDims at hl
    rw [List.mem_map] at hl
    obtain ⟨d, hd, rfl⟩ := hl
    rw [List.mem_reverse] at hd
    unfold toCsdm
    simp only
    rw [hsw d hd]
    exact (h d hd).2.1)]
  simp only [List.take_zero, List.nil_append, asCsdmDims, List.length_map, List.length_reverse,
    Nat.zero_add, List.drop_length, List.append_nil, List.map_map]
  congr 1
  conv_rhs => rw [← List.map_id ds.reverse]
  apply List.map_congr_left
  intro d hd
  rw [List.mem_reverse] at hd
  simp only [Function.comp, toCsdm, id, hsw d hd]
  cases d with
  | mk c s r o =>
    have := (h _ hd).2.2
    cases o with
    | none => cases this
    | some v => rfl

/-- **C22, partial.** For a method with one spectral dimension, updating from an experiment with
the layout of its own simulation changes nothing. Missing: several dimensions, see
`C22_reversed` and `C22_counterexample`. -/
theorem C22_one_dim_partial (d : SDim) (h1 : 1 ≤ d.count) (h2 : 0 < d.sw)
    (h3 : d.origin.isSome = true) : updateDims 0 (asCsdmDims [d]) [d] = .ok [d] := by
  have := C22_reversed [d] (by
    intro d' hd
    rw [List.mem_singleton] at hd
    subst hd
    exact ⟨h1, h2, h3⟩)
  simpa using this

example : updateDims 0 (asCsdmDims [⟨5, 10, 1, some 7⟩]) [⟨5, 10, 1, some 7⟩] =
    .ok [⟨5, 10, 1, some 7⟩] := by decide +kernel

/-- **C22, where the code disagrees.** For two dimensions, count, width and offset are
exchanged. `get_spectral_dimensions` does reverse the order. -/
theorem C22_counterexample :
    let ds : List SDim := [⟨5, 10, 1, some 7⟩, ⟨4, 3, -2, some 7⟩]
    updateDims 0 (asCsdmDims ds) ds = .ok [⟨4, 3, -2, some 7⟩, ⟨5, 10, 1, some 7⟩] ∧
    getSpectralDimensions (asCsdmDims ds) = ds := by decide +kernel

/-! ## C33 -/

/-- base_model.pyx:56-60: the sign of the reference offset. -/
def refFactor (gammaPos : Bool) : ℚ := if gammaPos then -1 else 1

/-- base_model.pyx:148-151 and method.c:85-88: `normalize_offset`. -/
def normalizeOffset (gammaPos : Bool) (d : SDim) : ℚ :=
  let coordinatesOffset := -d.ref * refFactor gammaPos - d.sw / 2
  1 / 2 - coordinatesOffset * (1 / (d.sw / d.count))

/-- mrsimulator.c:477-486 and frequency_tensor_components.h:48-76: the isotropic frequency
computed for a `p = -1` transition of a site with chemical shift `shift` in ppm. -/
def computedFreq (gamma b0 shift : ℚ) : ℚ := (-1) * (shift * (-b0 * gamma))

/-- Position, in units of bins, of a line with computed frequency `fc`
(mrsimulator.c:427, frequency_averaging.c:59). -/
def linePos (gammaPos : Bool) (d : SDim) (fc : ℚ) : ℚ :=
  normalizeOffset gammaPos d + fc * (1 / (d.sw / d.count))

/-- base_model.pyx:495-503 by `C59_mirror1`: index `i` goes to `-i` modulo the count. -/
def mirrorIdx (n : Nat) (i : Int) : Int := if i = 0 then 0 else n - i

/-- What a sharp isotropic line of total amplitude `amp` adds to the recorded data. -/
def lineWrites (gamma b0 : ℚ) (d : SDim) (shift amp : ℚ) : Writes ℚ :=
  let w := deltaFn (linePos (decide (0 < gamma)) d (computedFreq gamma b0 shift)) d.count amp
  if gamma < 0 then w.map fun p => (mirrorIdx d.count p.1, p.2) else w

/-- Coordinate of a recorded bin. -/
def Spec.coord (d : SDim) (i : Int) : ℚ := ((i : ℚ) - (d.count / 2 : Nat)) * (d.sw / d.count) + d.ref

/-- The true frequency in Hz, relative to the Larmor frequency, of a site with chemical shift
`shift` (ppm). -/
def Spec.freq (gamma b0 shift : ℚ) : ℚ := |gamma * b0| * shift

theorem deltaFn_moment (x : ℚ) (n : Nat) (amp : ℚ) (h1 : 1 / 2 ≤ x) (h2 : x ≤ (n : ℚ) - 1 / 2) :
    let w := deltaFn x n amp
    (w.map Prod.snd).sum = amp ∧
    |(w.map fun p => p.2 * ((p.1 : ℚ) + 1 / 2)).sum - amp * x| ≤ |amp| * TOL ∧
    ∀ p ∈ w, p.1 ≤ (n : Int) - 1 ∧ |(p.1 : ℚ) + 1 / 2 - x| < 1 := by
  intro w
  have hx0 : 0 ≤ x := by linarith
  have ht : trunc x = ⌊x⌋ := by unfold trunc; rw [if_pos hx0]
  set p := ⌊x⌋ with hp
  have hf1 : (p : ℚ) ≤ x := Int.floor_le x
  have hf2 : x < p + 1 := Int.lt_floor_add_one x
  have hp0 : 0 ≤ p := Int.floor_nonneg.mpr hx0
  have hpn : p < n := by
    have : (p : ℚ) < n := by linarith
    exact_mod_cast this
  have hT : (0 : ℚ) ≤ TOL := by unfold TOL; norm_num
  have hw : w = deltaFn x n amp := rfl
  unfold deltaFn at hw
  simp only [ht] at hw
  rw [if_neg (by omega)] at hw
  have hbnd : 0 ≤ |amp| * TOL := mul_nonneg (abs_nonneg _) hT
  by_cases c1 : |x - p - 1 / 2| < TOL
  · rw [if_pos c1] at hw
    rw [hw]
    refine ⟨by simp, ?_, ?_⟩
    · simp only [List.map_cons, List.map_nil, List.sum_cons, List.sum_nil, add_zero]
      have : amp * ((p : ℚ) + 1 / 2) - amp * x = -(amp * (x - p - 1 / 2)) := by ring
      rw [this, abs_neg, abs_mul]
      exact mul_le_mul_of_nonneg_left c1.le (abs_nonneg _)
    · intro q hq
      rw [List.mem_singleton] at hq
      subst hq
      refine ⟨by simp only; omega, ?_⟩
      simp only
      rw [abs_lt]
      constructor <;> linarith
  · rw [if_neg c1] at hw
    by_cases c2 : x - p < 1 / 2
    · rw [if_pos c2] at hw
      have hp1 : p ≠ 0 := by
        intro h0
        rw [h0] at c2
        push_cast at c2
        linarith
      rw [if_pos hp1] at hw
      rw [hw]
      refine ⟨by simp; ring, ?_, ?_⟩
      · simp only [List.cons_append, List.nil_append, List.map_cons, List.map_nil, List.sum_cons,
          List.sum_nil, add_zero]
        push_cast
        have : amp * (1 / 2 - (x - (p : ℚ))) * ((p : ℚ) - 1 + 1 / 2) +
            amp * (1 / 2 + (x - (p : ℚ))) * ((p : ℚ) + 1 / 2) - amp * x = 0 := by ring
        rw [this, abs_zero]
        exact hbnd
      · intro q hq
        simp only [List.cons_append, List.nil_append, List.mem_cons, List.not_mem_nil, or_false] at hq
        rcases hq with rfl | rfl
        · refine ⟨by simp only; omega, ?_⟩
          simp only
          push_cast
          rw [abs_lt]
          constructor <;> linarith
        · refine ⟨by simp only; omega, ?_⟩
          simp only
          rw [abs_lt]
          constructor <;> linarith
    · rw [if_neg c2] at hw
      have c3 : x - p > 1 / 2 := by
        rcases lt_trichotomy (x - p) (1 / 2) with h | h | h
        · exact absurd h c2
        · exfalso
          apply c1
          rw [h]
          norm_num [TOL]
        · exact h
      have hpe : p + 1 ≠ n := by
        intro h0
        have : (p : ℚ) + 1 = n := by exact_mod_cast h0
        linarith
      rw [if_pos c3, if_pos hpe] at hw
      rw [hw]
      refine ⟨by simp; ring, ?_, ?_⟩
      · simp only [List.cons_append, List.nil_append, List.map_cons, List.map_nil, List.sum_cons,
          List.sum_nil, add_zero]
        push_cast
        have : amp * (x - (p : ℚ) - 1 / 2) * ((p : ℚ) + 1 + 1 / 2) +
            amp * (1 + 1 / 2 - (x - (p : ℚ))) * ((p : ℚ) + 1 / 2) - amp * x = 0 := by ring
        rw [this, abs_zero]
        exact hbnd
      · intro q hq
        simp only [List.cons_append, List.nil_append, List.mem_cons, List.not_mem_nil, or_false] at hq
        rcases hq with rfl | rfl
        · refine ⟨by simp only; omega, ?_⟩
          simp only
          push_cast
          rw [abs_lt]
          constructor <;> linarith
        · refine ⟨by simp only; omega, ?_⟩
          simp only
          rw [abs_lt]
          constructor <;> linarith

theorem linePos_eq (gammaPos : Bool) (d : SDim) (fc : ℚ) (hn : 1 ≤ d.count) (hsw : 0 < d.sw) :
    linePos gammaPos d fc = 1 / 2 + (d.count : ℚ) / 2 +
      (fc + refFactor gammaPos * d.ref) / (d.sw / d.count) := by
  have hc := count_pos d hn
  unfold linePos normalizeOffset
  field_simp
  ring

theorem sum_affine (w : Writes ℚ) (a b : ℚ) :
    (w.map fun p => p.2 * (a * ((p.1 : ℚ) + 1 / 2) + b)).sum =
      a * (w.map fun p => p.2 * ((p.1 : ℚ) + 1 / 2)).sum + b * (w.map Prod.snd).sum := by
  induction w with
  | nil => simp
  | cons p w ih =>
    simp only [List.map_cons, List.sum_cons, ih]
    ring

/-- **C33 (even counts), partial.** For an even count, any width, offset, field and either sign of
the gyromagnetic ratio: a sharp line between the first and the last coordinate (from the
second one on if the gyromagnetic ratio is negative) is recorded with its full amplitude,
only in bins less than one bin width from its true frequency, and with its centre of gravity
at its true frequency (up to the tolerance of 1e-6 bins). Missing: odd counts and the first
bin for negative gyromagnetic ratio, see the counterexamples. -/
theorem C33_line_partial (gamma b0 : ℚ) (d : SDim) (shift amp : ℚ) (hg : gamma ≠ 0) (hb : 0 < b0)
    (hn : 1 ≤ d.count) (heven : 2 ∣ d.count) (hsw : 0 < d.sw)
    (hlow : coordHz d (if 0 < gamma then 0 else 1) ≤ Spec.freq gamma b0 shift)
    (hhigh : Spec.freq gamma b0 shift ≤ coordHz d (d.count - 1)) :
    let w := lineWrites gamma b0 d shift amp
    (w.map Prod.snd).sum = amp ∧
    |(w.map fun p => p.2 * Spec.coord d p.1).sum - amp * Spec.freq gamma b0 shift| ≤
      |amp| * TOL * (d.sw / d.count) ∧
    ∀ p ∈ w, 0 ≤ p.1 ∧ p.1 < d.count ∧
      |Spec.coord d p.1 - Spec.freq gamma b0 shift| < d.sw / d.count := by
  intro w
  have hc := count_pos d hn
  obtain ⟨m, hm⟩ := heven
  have hm2 : d.count / 2 = m := by omega
  have hmq : (d.count : ℚ) = 2 * m := by rw [hm]; push_cast; ring
  have hi : 0 < d.sw / d.count := div_pos hsw hc
  set inc := d.sw / d.count with hinc
  set f := Spec.freq gamma b0 shift with hf
  have hlast : coordHz d (d.count - 1) = ((d.count : ℚ) - 1 - m) * inc + d.ref := by
    unfold coordHz
    rw [hm2, Nat.cast_sub hn]
    simp [hinc]
  have hcoord : ∀ i : Int, Spec.coord d i = inc * ((i : ℚ) + 1 / 2) + (d.ref - (m + 1 / 2) * inc) := by
    intro i
    unfold Spec.coord
    rw [hm2]
    ring
  rw [hlast] at hhigh
  rcases lt_or_gt_of_ne hg with hneg | hpos
  · -- negative gyromagnetic ratio
    have hfc : computedFreq gamma b0 shift = -f := by
      unfold computedFreq
      rw [hf]
      unfold Spec.freq
      rw [abs_of_neg (mul_neg_of_neg_of_pos hneg hb)]
      ring
    have hdec : decide (0 < gamma) = false := by simpa using hneg.le
    rw [if_neg (not_lt.mpr hneg.le)] at hlow
    have hfirst : coordHz d 1 = (1 - (m : ℚ)) * inc + d.ref := by
      unfold coordHz
      rw [hm2]
      simp [hinc]
    rw [hfirst] at hlow
    have hposn : linePos false d (-f) = 1 / 2 + m - (f - d.ref) / inc := by
      rw [linePos_eq _ _ _ hn hsw]
      unfold refFactor
      simp only [Bool.false_eq_true, if_false, ← hinc]
      linear_combination hmq / 2
    set x := 1 / 2 + (m : ℚ) - (f - d.ref) / inc with hx
    have hxinc : x * inc = (1 / 2 + m) * inc - (f - d.ref) := by
      rw [hx]
      field_simp
    have hx1 : 3 / 2 ≤ x := by
      have : 3 / 2 * inc ≤ x * inc := by rw [hxinc]; rw [hmq] at hhigh; linarith
      exact le_of_mul_le_mul_right this hi
    have hx2 : x ≤ (d.count : ℚ) - 1 / 2 := by
      have : x * inc ≤ ((d.count : ℚ) - 1 / 2) * inc := by rw [hxinc, hmq]; linarith
      exact le_of_mul_le_mul_right this hi
    obtain ⟨g1, g2, g3⟩ := deltaFn_moment x d.count amp (by linarith) hx2
    have hw : w = (deltaFn x d.count amp).map fun p => (mirrorIdx d.count p.1, p.2) := by
      show lineWrites gamma b0 d shift amp = _
      unfold lineWrites
      simp only [hdec, hfc, hposn]
      rw [if_pos hneg]
    set v := deltaFn x (d.count : Int) amp with hv
    have hpos1 : ∀ p ∈ v, 1 ≤ p.1 ∧ p.1 ≤ (d.count : Int) - 1 := by
      intro p hp
      obtain ⟨u1, u2⟩ := g3 p hp
      refine ⟨?_, u1⟩
      rw [abs_lt] at u2
      have : (0 : ℚ) < p.1 := by linarith [u2.1]
      have : (0 : Int) < p.1 := by exact_mod_cast this
      omega
    have hmir : ∀ p ∈ v, mirrorIdx d.count p.1 = (d.count : Int) - p.1 := by
      intro p hp
      unfold mirrorIdx
      rw [if_neg (by have := (hpos1 p hp).1; omega)]
    have hcm : ∀ p ∈ v, Spec.coord d (mirrorIdx d.count p.1) =
        (-inc) * ((p.1 : ℚ) + 1 / 2) + (d.ref + (m + 1 / 2) * inc) := by
      intro p hp
      rw [hcoord, hmir p hp]
      push_cast
      rw [hmq]
      ring
    rw [hw]
    refine ⟨?_, ?_, ?_⟩
    · rw [List.map_map]
      exact g1
    · rw [List.map_map]
      have hcong : v.map ((fun p : Int × ℚ => p.2 * Spec.coord d p.1) ∘ fun p : Int × ℚ => (mirrorIdx d.count p.1, p.2)) =
          v.map fun p => p.2 * ((-inc) * ((p.1 : ℚ) + 1 / 2) + (d.ref + (m + 1 / 2) * inc)) := by
        apply List.map_congr_left
        intro p hp
        simp only [Function.comp]
        rw [hcm p hp]
      rw [hcong, sum_affine, g1]
      set S := (v.map fun p => p.2 * ((p.1 : ℚ) + 1 / 2)).sum with hS
      have : -inc * S + (d.ref + (m + 1 / 2) * inc) * amp - amp * f = -inc * (S - amp * x) := by
        linear_combination (-amp) * hxinc
      rw [this, abs_mul, abs_neg, abs_of_pos hi]
      calc inc * |S - amp * x| ≤ inc * (|amp| * TOL) := mul_le_mul_of_nonneg_left g2 hi.le
        _ = |amp| * TOL * inc := by ring
    · intro q hq
      rw [List.mem_map] at hq
      obtain ⟨p, hp, rfl⟩ := hq
      have hb1 := hpos1 p hp
      obtain ⟨_, u2⟩ := g3 p hp
      refine ⟨by rw [hmir p hp]; omega, by rw [hmir p hp]; omega, ?_⟩
      rw [hcm p hp]
      have : -inc * ((p.1 : ℚ) + 1 / 2) + (d.ref + (m + 1 / 2) * inc) - f =
          -inc * ((p.1 : ℚ) + 1 / 2 - x) := by linear_combination -hxinc
      rw [this, abs_mul, abs_neg, abs_of_pos hi]
      calc inc * |(p.1 : ℚ) + 1 / 2 - x| < inc * 1 := mul_lt_mul_of_pos_left u2 hi
        _ = inc := mul_one _
  · -- positive gyromagnetic ratio
    have hfc : computedFreq gamma b0 shift = f := by
      unfold computedFreq
      rw [hf]
      unfold Spec.freq
      rw [abs_of_pos (mul_pos hpos hb)]
      ring
    have hdec : decide (0 < gamma) = true := by simpa using hpos
    rw [if_pos hpos] at hlow
    have hfirst : coordHz d 0 = (0 - (m : ℚ)) * inc + d.ref := by
      unfold coordHz
      rw [hm2]
      simp [hinc]
    rw [hfirst] at hlow
    have hposn : linePos true d f = 1 / 2 + m + (f - d.ref) / inc := by
      rw [linePos_eq _ _ _ hn hsw]
      unfold refFactor
      simp only [if_true, ← hinc]
      linear_combination hmq / 2
    set x := 1 / 2 + (m : ℚ) + (f - d.ref) / inc with hx
    have hxinc : x * inc = (1 / 2 + m) * inc + (f - d.ref) := by
      rw [hx]
      field_simp
    have hx1 : 1 / 2 ≤ x := by
      have : 1 / 2 * inc ≤ x * inc := by rw [hxinc]; linarith
      exact le_of_mul_le_mul_right this hi
    have hx2 : x ≤ (d.count : ℚ) - 1 / 2 := by
      have : x * inc ≤ ((d.count : ℚ) - 1 / 2) * inc := by rw [hxinc]; linarith
      exact le_of_mul_le_mul_right this hi
    obtain ⟨g1, g2, g3⟩ := deltaFn_moment x d.count amp hx1 hx2
    have hw : w = deltaFn x d.count amp := by
      show lineWrites gamma b0 d shift amp = _
      unfold lineWrites
      simp only [hdec, hfc, hposn]
      rw [if_neg (not_lt.mpr hpos.le)]
    set v := deltaFn x (d.count : Int) amp with hv
    rw [hw]
    refine ⟨g1, ?_, ?_⟩
    · simp only [hcoord]
      rw [sum_affine, g1]
      set S := (v.map fun p => p.2 * ((p.1 : ℚ) + 1 / 2)).sum with hS
      have : inc * S + (d.ref - (m + 1 / 2) * inc) * amp - amp * f = inc * (S - amp * x) := by
        linear_combination amp * hxinc
      rw [this, abs_mul, abs_of_pos hi]
      calc inc * |S - amp * x| ≤ inc * (|amp| * TOL) := mul_le_mul_of_nonneg_left g2 hi.le
        _ = |amp| * TOL * inc := by ring
    · intro p hp
      obtain ⟨u1, u2⟩ := g3 p hp
      refine ⟨?_, by omega, ?_⟩
      · rw [abs_lt] at u2
        have : (-1 : ℚ) < p.1 := by linarith [u2.1]
        have : (-1 : Int) < p.1 := by exact_mod_cast this
        omega
      · rw [hcoord]
        have : inc * ((p.1 : ℚ) + 1 / 2) + (d.ref - (m + 1 / 2) * inc) - f =
            inc * ((p.1 : ℚ) + 1 / 2 - x) := by linear_combination hxinc
        rw [this, abs_mul, abs_of_pos hi]
        calc inc * |(p.1 : ℚ) + 1 / 2 - x| < inc * 1 := mul_lt_mul_of_pos_left u2 hi
          _ = inc := mul_one _

/-- Four bins of 1 Hz at -2, -1, 0, 1: a line at 0.75 Hz, for both signs. -/
example : lineWrites 1 1 ⟨4, 4, 0, none⟩ (3/4) 1 = [(2, 1/4), (3, 3/4)] ∧
    lineWrites (-1) 1 ⟨4, 4, 0, none⟩ (3/4) 1 = [(2, 1/4), (3, 3/4)] := by decide +kernel

/-- **C33, where the code disagrees (odd count).** Three bins of 1 Hz at -1, 0, 1: a line at 0 Hz,
exactly a reported coordinate, is split equally between 0 Hz and 1 Hz. -/
theorem C33_counterexample_odd :
    coordinatesHz ⟨3, 3, 0, none⟩ = [-1, 0, 1] ∧ Spec.freq 1 1 0 = 0 ∧
    lineWrites 1 1 ⟨3, 3, 0, none⟩ 0 1 = [(1, 1/2), (2, 1/2)] := by decide +kernel

/-- **C33, where the code disagrees (negative gyromagnetic ratio).** Four bins at -2, -1, 0, 1 Hz:
the line at -2 Hz is lost, and a line at 2 Hz, outside the window, is recorded at -2 Hz. -/
theorem C33_counterexample_negative :
    coordinatesHz ⟨4, 4, 0, none⟩ = [-2, -1, 0, 1] ∧
    Spec.freq (-1) 1 (-2) = -2 ∧ lineWrites (-1) 1 ⟨4, 4, 0, none⟩ (-2) 1 = [] ∧
    Spec.freq (-1) 1 2 = 2 ∧ lineWrites (-1) 1 ⟨4, 4, 0, none⟩ 2 1 = [(0, 1)] := by decide +kernel

/-! ## C34 -/

/-- method/__init__.py:193-203 `validate_affine_matrix`, the flattened matrix. -/
def validateAffine (nDims : Nat) (v : List ℚ) : Py (List ℚ) :=
  if v.length ≠ nDims ^ 2 then .error .valueError
  else match v[0]? with
    | none => .error .indexError
    | some a => if a = 0 then .error .valueError else .ok v

/-- base_model.pyx:187-192: scaling by the increments, row by row, and preparation for the
in-place operations. Reading or writing beyond the array is undefined behaviour (bounds
checks are off, base_model.pyx:13). -/
def prepareAffine {K : Type} [Field K] [DecidableEq K] (incs v : List K) : Py (List K) :=
  let frac := incs.flatMap fun item => incs.map fun i => i / item
  let m := List.zipWith (· * ·) v frac
  match m with
  | [a, b, c, d] =>
    if c ≠ 0 then .ok [a, b, c / a, d - b * (c / a)] else .ok [a, b, c, d]
  | _ => .error .undefinedBehaviour

/-- frequency_averaging.c:131-150 (frequencies) and 181-189 (offsets): the two dimensions are
scaled and sheared in place, the first one first. -/
def applyAffine {K : Type} [Field K] [DecidableEq K] (m : List K) (d0 d1 : K) : Py (K × K) :=
  match m with
  | [a, b, c, d] =>
    let d0 := if a ≠ 1 then a * d0 else d0
    let d0 := if b ≠ 0 then d0 + b * d1 else d0
    let d1 := if d ≠ 1 then d * d1 else d1
    let d1 := if c ≠ 0 then d1 + c * d0 else d1
    .ok (d0, d1)
  | _ => .error .undefinedBehaviour

/-- **C34.** For two dimensions: a matrix is accepted iff it has four elements and a non-zero
first one; otherwise a `ValueError` is raised. For every accepted matrix, pair of
increments and pair of frequencies in Hz, the in-place operations on the normalised
frequencies give, in Hz, the product of the matrix with the pair. -/
theorem C34_affine (v : List ℚ) (i0 i1 f0 f1 : ℚ) (h0 : 0 < i0) (h1 : 0 < i1) :
    ((∃ a b c d, v = [a, b, c, d] ∧ a ≠ 0) ∧ validateAffine 2 v = .ok v ∨
      (¬ ∃ a b c d, v = [a, b, c, d] ∧ a ≠ 0) ∧ validateAffine 2 v = .error .valueError) ∧
    ∀ a b c d : ℚ, validateAffine 2 v = .ok [a, b, c, d] →
      ∃ m x, prepareAffine [i0, i1] [a, b, c, d] = .ok m ∧
        applyAffine m (f0 / i0) (f1 / i1) = .ok x ∧
        x.1 * i0 = a * f0 + b * f1 ∧ x.2 * i1 = c * f0 + d * f1 := by
  constructor
  · unfold validateAffine
    by_cases hl : v.length = 4
    · match v, hl with
      | [a, b, c, d], _ =>
        by_cases ha : a = 0
        · right
          refine ⟨?_, by simp [ha]⟩
          rintro ⟨a', b', c', d', h, hne⟩
          cases h
          exact hne ha
        · left
          exact ⟨⟨a, b, c, d, rfl, ha⟩, by simp [ha]⟩
    · right
      constructor
      · rintro ⟨a, b, c, d, h, _⟩
        rw [h] at hl
        exact hl rfl
      · rw [if_pos (by simpa using hl)]
  · intro a b c d hv
    have ha : a ≠ 0 := by
      unfold validateAffine at hv
      split_ifs at hv with hl
      cases hg : v[0]? with
      | none => rw [hg] at hv; cases hv
      | some a' =>
        rw [hg] at hv
        simp only at hv
        split_ifs at hv with ha
        cases hv
        simp only [List.getElem?_cons_zero, Option.some.injEq] at hg
        rw [hg]
        exact ha
    have hi0 : i0 ≠ 0 := ne_of_gt h0
    have hi1 : i1 ≠ 0 := ne_of_gt h1
    have key : ∀ (a b c d x y : ℚ), applyAffine [a, b, c, d] x y =
        .ok (a * x + b * y, d * y + c * (a * x + b * y)) := by
      intro a b c d x y
      unfold applyAffine
      simp only
      congr 1
      have e0 : (if b ≠ 0 then (if a ≠ 1 then a * x else x) + b * y else (if a ≠ 1 then a * x else x)) =
          a * x + b * y := by
        by_cases hb : b = 0 <;> by_cases ha : a = 1 <;> simp [hb, ha]
      rw [e0]
      by_cases hc : c = 0 <;> by_cases hd : d = 1 <;> simp [hc, hd]
    unfold prepareAffine
    simp only [List.flatMap_cons, List.flatMap_nil, List.append_nil, List.map_cons, List.map_nil,
      List.cons_append, List.nil_append, List.zipWith_cons_cons, List.zipWith_nil_right]
    by_cases hc : c * (i0 / i1) = 0
    · rw [if_neg (not_not.mpr hc)]
      refine ⟨_, _, rfl, key _ _ _ _ _ _, ?_, ?_⟩
      · simp only
        field_simp
      · have hc0 : c = 0 := by
          rcases mul_eq_zero.mp hc with h | h
          · exact h
          · exact absurd h (div_ne_zero hi0 hi1)
        simp only [hc0]
        field_simp
        ring
    · rw [if_pos hc]
      refine ⟨_, _, rfl, key _ _ _ _ _ _, ?_, ?_⟩
      · simp only
        field_simp
      · simp only
        field_simp
        ring

example : prepareAffine [(2 : ℚ), 3] [1/2, 1, 4, 5] = .ok [1/2, 3/2, 16/3, -3] ∧
    applyAffine [(1/2 : ℚ), 3/2, 16/3, -3] (7/2) (11/3) = .ok (29/4, 83/3) := by decide +kernel

/-- **C34, where the code disagrees (one dimension).** A one-dimensional method accepts a 1x1
matrix, and the simulation then reads and writes beyond the array. -/
theorem C34_counterexample_1d :
    validateAffine 1 [2] = .ok [2] ∧ prepareAffine [(5 : ℚ)] [2] = .error .undefinedBehaviour := by
  decide +kernel

end MRS.Meth
