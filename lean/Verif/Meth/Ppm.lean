import Verif.Meth.Dims
import Verif.Bin.Props

/-!
# The ppm axis — property C119

Model of src/mrsimulator/method/spectral_dimension.py:115-134 `coordinates_ppm` and of the origin offset that
src/mrsimulator/simulator/__init__.py:462-466 and src/c_lib/base/base_model.pyx:154 assign. Floats are rationals; a division by zero
of NumPy (infinite or not a number, with a warning) is `none`.
-/

namespace MRS.Meth

open MRS.Bin

/-! ## Model -/

/-- spectral_dimension.py:133-134, entry `k`: `coordinates_Hz / abs((reference_offset + origin_offset) / 1e6)`. -/
def ppmEntry (d : SDim) (origin : ℚ) (k : Nat) : Option ℚ :=
  if |(d.ref + origin) / 1000000| = 0 then none else some (coordHz d k / |(d.ref + origin) / 1000000|)

/-- spectral_dimension.py:115-134 `coordinates_ppm`: nothing (and a warning) without an origin offset. -/
def coordinatesPpm (d : SDim) : Option (List (Option ℚ)) :=
  match d.origin with
  | none => none
  | some o => some ((List.range d.count).map (ppmEntry d o))

/-- simulator/__init__.py:462-466, base_model.pyx:154: the dimension after a run of a method with the flux density `b0` (T) and the
gyromagnetic ratio `gamma` (MHz/T) of the first channel. -/
def afterRun (gamma b0 : ℚ) (d : SDim) : SDim := { d with origin := some |b0 * gamma * 1000000| }

/-! ## Specification -/

/-- The Larmor frequency in Hz. -/
def Spec.larmor (gamma b0 : ℚ) : ℚ := |gamma * b0| * 1000000

/-- Where data recorded in the bins of `w` are on an axis: the sum of amplitude times coordinate. -/
def Spec.moment (axis : List ℚ) (w : Writes ℚ) : ℚ := (w.map fun p => p.2 * axis.getD p.1.toNat 0).sum

/-! ## Lemmas -/

theorem map_sum_div (w : Writes ℚ) (f : Int × ℚ → ℚ) (c : ℚ) : (w.map fun p => f p / c).sum = (w.map f).sum / c := by
  induction w with
  | nil => simp
  | cons a l ih => rw [List.map_cons, List.sum_cons, ih, List.map_cons, List.sum_cons]; ring

theorem ppm_axis (gamma b0 : ℚ) (d : SDim) (h : 0 < d.ref + Spec.larmor gamma b0) :
    coordinatesPpm (afterRun gamma b0 d)
      = some ((List.range d.count).map fun k => some (coordHz d k / ((d.ref + Spec.larmor gamma b0) / 1000000))) := by
  have e : |b0 * gamma * 1000000| = Spec.larmor gamma b0 := by
    unfold Spec.larmor
    rw [abs_mul, mul_comm b0, abs_of_pos (show (0 : ℚ) < 1000000 by norm_num)]
  have hp : 0 < (d.ref + Spec.larmor gamma b0) / 1000000 := by positivity
  unfold coordinatesPpm afterRun
  simp only [e]
  congr 1
  apply List.map_congr_left
  intro k _
  unfold ppmEntry
  simp only []
  rw [abs_of_pos hp, if_neg hp.ne']
  rfl

/-! ## Property -/

/-- **C119, partial.** A site with chemical shift `shift` (ppm), in a window with coordinates on both sides of it, is found on the ppm axis at
`shift · ν₀ / (x₀ + ν₀)`, where `ν₀` is the Larmor frequency and `x₀` the reference offset: the recorded amplitudes add up to that of the
line, and their centre is there to a millionth of the distance of two points. Missing: the ppm axis shows the shift itself for the
reference offset zero only (`C119_shift_partial`, `C119_counterexample`); windows as in C33. -/
theorem C119_axis_partial (gamma b0 : ℚ) (d : SDim) (shift amp : ℚ) (hg : gamma ≠ 0) (hb : 0 < b0)
    (hn : 1 ≤ d.count) (heven : 2 ∣ d.count) (hsw : 0 < d.sw)
    (hlow : coordHz d (if 0 < gamma then 0 else 1) ≤ Spec.freq gamma b0 shift)
    (hhigh : Spec.freq gamma b0 shift ≤ coordHz d (d.count - 1)) (h : 0 < d.ref + Spec.larmor gamma b0) :
    ∃ axis : List ℚ, coordinatesPpm (afterRun gamma b0 d) = some (axis.map some) ∧ axis.length = d.count ∧
      ((lineWrites gamma b0 d shift amp).map Prod.snd).sum = amp ∧
      |Spec.moment axis (lineWrites gamma b0 d shift amp)
          - amp * (shift * (Spec.larmor gamma b0 / (d.ref + Spec.larmor gamma b0)))|
        ≤ |amp| * (1 / 1000000) * (d.sw / d.count / ((d.ref + Spec.larmor gamma b0) / 1000000)) := by
  have hp : 0 < (d.ref + Spec.larmor gamma b0) / 1000000 := by positivity
  obtain ⟨h1, h2, h3⟩ := C33_line_partial gamma b0 d shift amp hg hb hn heven hsw hlow hhigh
  refine ⟨(List.range d.count).map fun k => coordHz d k / ((d.ref + Spec.larmor gamma b0) / 1000000), ?_, by simp, h1, ?_⟩
  · rw [ppm_axis gamma b0 d h, List.map_map]
    rfl
  · have e : Spec.moment ((List.range d.count).map fun k => coordHz d k / ((d.ref + Spec.larmor gamma b0) / 1000000))
        (lineWrites gamma b0 d shift amp)
        = ((lineWrites gamma b0 d shift amp).map fun p => p.2 * Spec.coord d p.1).sum / ((d.ref + Spec.larmor gamma b0) / 1000000) := by
      rw [← map_sum_div]
      unfold Spec.moment
      congr 1
      apply List.map_congr_left
      intro p hp'
      obtain ⟨q0, q1, -⟩ := h3 p hp'
      have hlt : p.1.toNat < d.count := by omega
      rw [List.getD_eq_getElem?_getD, List.getElem?_map, List.getElem?_range hlt]
      have hc : coordHz d p.1.toNat = Spec.coord d p.1 := by
        unfold coordHz Spec.coord
        have : ((p.1.toNat : ℕ) : ℚ) = (p.1 : ℚ) := by
          have : ((p.1.toNat : ℕ) : ℤ) = p.1 := Int.toNat_of_nonneg q0
          exact_mod_cast congrArg (fun z : ℤ => (z : ℚ)) this
        rw [this]
      simp only [Option.map_some, Option.getD_some]
      rw [hc]
      ring
    have e2 : amp * (shift * (Spec.larmor gamma b0 / (d.ref + Spec.larmor gamma b0)))
        = amp * Spec.freq gamma b0 shift / ((d.ref + Spec.larmor gamma b0) / 1000000) := by
      unfold Spec.freq Spec.larmor
      unfold Spec.larmor at h
      field_simp
    rw [e, e2, ← sub_div, abs_div, abs_of_pos hp, ← mul_div_assoc]
    exact div_le_div_of_nonneg_right h2 hp.le

/-- **C119, partial** (the shift itself). With reference offset zero the centre of the line of a site is at its chemical shift on the ppm
axis. -/
theorem C119_shift_partial (gamma b0 : ℚ) (d : SDim) (shift amp : ℚ) (hg : gamma ≠ 0) (hb : 0 < b0)
    (hn : 1 ≤ d.count) (heven : 2 ∣ d.count) (hsw : 0 < d.sw) (href : d.ref = 0)
    (hlow : coordHz d (if 0 < gamma then 0 else 1) ≤ Spec.freq gamma b0 shift)
    (hhigh : Spec.freq gamma b0 shift ≤ coordHz d (d.count - 1)) :
    ∃ axis : List ℚ, coordinatesPpm (afterRun gamma b0 d) = some (axis.map some) ∧ axis.length = d.count ∧
      ((lineWrites gamma b0 d shift amp).map Prod.snd).sum = amp ∧
      |Spec.moment axis (lineWrites gamma b0 d shift amp) - amp * shift|
        ≤ |amp| * (1 / 1000000) * (d.sw / d.count / |gamma * b0|) := by
  have h0 : 0 < |gamma * b0| := abs_pos.mpr (mul_ne_zero hg hb.ne')
  have hl : 0 < d.ref + Spec.larmor gamma b0 := by
    rw [href]
    unfold Spec.larmor
    positivity
  obtain ⟨axis, a1, a2, a3, a4⟩ := C119_axis_partial gamma b0 d shift amp hg hb hn heven hsw hlow hhigh hl
  refine ⟨axis, a1, a2, a3, ?_⟩
  have e1 : Spec.larmor gamma b0 / (d.ref + Spec.larmor gamma b0) = 1 := by
    rw [href, zero_add, div_self]
    rw [href, zero_add] at hl
    exact hl.ne'
  have e2 : (d.ref + Spec.larmor gamma b0) / 1000000 = |gamma * b0| := by
    rw [href]
    unfold Spec.larmor
    ring
  rwa [e1, mul_one, e2] at a4

/-- Proton-like nucleus at 10 T, 512 points over 4 kHz, a shift of 3 ppm: the hypotheses are met. -/
example : ∃ axis : List ℚ, coordinatesPpm (afterRun 42 10 ⟨512, 4000, 0, none⟩) = some (axis.map some) ∧ axis.length = 512 ∧
      ((lineWrites 42 10 ⟨512, 4000, 0, none⟩ 3 1).map Prod.snd).sum = 1 ∧
      |Spec.moment axis (lineWrites 42 10 ⟨512, 4000, 0, none⟩ 3 1) - 3| ≤ 1 / 1000000 * (4000 / 512 / 420) := by
  have := C119_shift_partial 42 10 ⟨512, 4000, 0, none⟩ 3 1 (by norm_num) (by norm_num) (by norm_num) (by norm_num) (by norm_num) rfl
    (by norm_num [coordHz, Spec.freq]) (by norm_num [coordHz, Spec.freq])
  norm_num at this ⊢
  exact this

/-- The axis: nothing before the first run. -/
example : coordinatesPpm ⟨4, 400, 0, none⟩ = none ∧
    coordinatesPpm (afterRun 10 10 ⟨4, 400, 0, none⟩) = some [some (-2), some (-1), some 0, some 1] := by decide +kernel

/-- **C119, where the code disagrees.** For every reference offset `x₀ ≠ 0` (above `-ν₀`) and every even number of points: a site on resonance,
whose line is in the middle of the window, is recorded there in full, and the ppm coordinate of that point is not its chemical shift but
`ν₀ / (x₀ + ν₀)` times that, since the axis is divided by `x₀ + ν₀` while the shift is a fraction of `ν₀`. -/
theorem C119_counterexample (gamma b0 : ℚ) (d : SDim) (amp : ℚ) (hg : gamma ≠ 0) (hb : 0 < b0) (hn : 2 ≤ d.count)
    (heven : 2 ∣ d.count) (hsw : 0 < d.sw) (href : d.ref ≠ 0) (h : 0 < d.ref + Spec.larmor gamma b0) :
    ∃ shift : ℚ, lineWrites gamma b0 d shift amp = [(((d.count / 2 : Nat) : Int), amp)] ∧
      ∃ axis : List ℚ, coordinatesPpm (afterRun gamma b0 d) = some (axis.map some) ∧
        axis[d.count / 2]? = some (shift * (Spec.larmor gamma b0 / (d.ref + Spec.larmor gamma b0))) ∧
        axis[d.count / 2]? ≠ some shift := by
  have hc := count_pos d (by omega)
  obtain ⟨m, hm⟩ := heven
  have hm2 : d.count / 2 = m := by omega
  have hm1 : 1 ≤ m := by omega
  have h0 : 0 < |gamma * b0| := abs_pos.mpr (mul_ne_zero hg hb.ne')
  have hi : 0 < d.sw / d.count := div_pos hsw hc
  have hδ : deltaFn ((m : ℚ) + 1 / 2) d.count amp = [((m : Int), amp)] := by
    have hmq : (d.count : ℚ) = 2 * m := by rw [hm]; push_cast; ring
    have hm1q : (1 : ℚ) ≤ m := by exact_mod_cast hm1
    rw [delta_inside _ _ _ (by linarith) (by push_cast; linarith)]
    have ht : trunc ((m : ℚ) + 1 / 2) = (m : Int) := by
      obtain ⟨t0, t1, t2⟩ := trunc_nonneg (x := (m : ℚ) + 1 / 2) (by linarith)
      have a : trunc ((m : ℚ) + 1 / 2) < (m : Int) + 1 := by
        have : ((trunc ((m : ℚ) + 1 / 2) : Int) : ℚ) < ((m : Int) + 1 : Int) := by push_cast; linarith
        exact_mod_cast this
      have b : (m : Int) < trunc ((m : ℚ) + 1 / 2) + 1 := by
        have : (((m : Int)) : ℚ) < ((trunc ((m : ℚ) + 1 / 2) + 1 : Int) : ℚ) := by push_cast; linarith
        exact_mod_cast this
      omega
    simp only [ht]
    rw [if_pos (by norm_num [TOL])]
  have hax : ((List.range d.count).map fun k => coordHz d k / ((d.ref + Spec.larmor gamma b0) / 1000000))[d.count / 2]?
      = some (d.ref / ((d.ref + Spec.larmor gamma b0) / 1000000)) := by
    rw [List.getElem?_map, List.getElem?_range (by omega), Option.map_some]
    unfold coordHz
    rw [sub_self, zero_mul, zero_add]
  refine ⟨d.ref / |gamma * b0|, ?_, (List.range d.count).map fun k => coordHz d k / ((d.ref + Spec.larmor gamma b0) / 1000000), ?_, ?_, ?_⟩
  · rcases lt_or_gt_of_ne hg with hneg | hpos
    · have e : linePos false d (computedFreq gamma b0 (d.ref / |gamma * b0|)) = (m : ℚ) + 1 / 2 := by
        rw [linePos_eq _ _ _ (by omega) hsw]
        unfold computedFreq refFactor
        rw [abs_of_neg (mul_neg_of_neg_of_pos hneg hb)]
        have := hb.ne'
        have := hsw.ne'
        have : (d.count : ℚ) = 2 * m := by rw [hm]; push_cast; ring
        simp only [Bool.false_eq_true, if_false]
        field_simp
        rw [this]
        ring
      unfold lineWrites
      rw [show decide (0 < gamma) = false by simpa using hneg.le, e, hδ, if_pos hneg, hm2]
      simp only [List.map_cons, List.map_nil, mirrorIdx]
      rw [if_neg (by omega), hm]
      congr 2
      push_cast
      ring
    · have e : linePos true d (computedFreq gamma b0 (d.ref / |gamma * b0|)) = (m : ℚ) + 1 / 2 := by
        rw [linePos_eq _ _ _ (by omega) hsw]
        unfold computedFreq refFactor
        rw [abs_of_pos (mul_pos hpos hb)]
        have := hb.ne'
        have := hsw.ne'
        have : (d.count : ℚ) = 2 * m := by rw [hm]; push_cast; ring
        simp only [if_true]
        field_simp
        rw [this]
        ring
      unfold lineWrites
      rw [show decide (0 < gamma) = true by simpa using hpos, e, hδ, if_neg hpos.le.not_gt, hm2]
  · rw [ppm_axis gamma b0 d h, List.map_map]
    rfl
  · rw [hax]
    congr 1
    unfold Spec.larmor
    unfold Spec.larmor at h
    field_simp
  · rw [hax]
    intro hc'
    have h1 := Option.some.inj hc'
    have h2 : d.ref * 1000000 * |gamma * b0| = d.ref * (d.ref + Spec.larmor gamma b0) := by
      have h3 := h.ne'
      have h4 := h0.ne'
      field_simp at h1
      linear_combination d.ref * h1
    have h3 : d.ref * d.ref = 0 := by
      unfold Spec.larmor at h2
      linear_combination -h2
    exact href (mul_self_eq_zero.mp h3)

/-- A reference offset of 200 ppm (20 kHz at 100 MHz), 4 points: the hypotheses are met. The site with 200 ppm is at `200 / 1.0002`. -/
example : lineWrites 10 10 ⟨4, 400, 20000, none⟩ 200 1 = [(2, 1)] ∧
    (coordinatesPpm (afterRun 10 10 ⟨4, 400, 20000, none⟩)).map (fun l => l[2]?) = some (some (some (200 / (10002 / 10000 : ℚ)))) := by decide +kernel

end MRS.Meth
