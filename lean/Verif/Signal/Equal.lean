import Verif.Signal.Json
import Verif.Signal.Apod

/-!
# Signal processors that compare equal — property C99

`SignalProcessor` and the operations (src/mrsimulator/signal_processing) define no `__eq__`. That of pydantic 1 (setup.py asks for
`pydantic>=1.0`) compares `self.dict()` with `other.dict()`, the dictionaries of fields. `function` and `type` are properties of the
class and not fields.

Simplified: `processed_data` is None on both sides; two units are equal when they print alike; a Fourier transform and the
other operations are those of Verif/Signal/Ops.lean, with dimension indexes that are not negative.
-/

namespace MRS.Signal

open Dict

/-- Python's `==` on the values of fields: integers are compared with floats by value. -/
def JV.pyEq : JV → JV → Bool
  | .int i, .num q => decide ((i : ℚ) = q)
  | .num q, .int i => decide (q = (i : ℚ))
  | a, b => decide (a = b)

/-- Python's `==` on dictionaries: the same keys, with equal values. -/
def pyDictEq {V : Type} (eq : V → V → Bool) (a b : Dict V) : Bool :=
  (a.all fun p => match a.get? p.1, b.get? p.1 with
    | some v, some w => eq v w
    | _, _ => false) &&
  b.all fun p => (a.get? p.1).isSome

/-- `BaseModel.__eq__` of pydantic on two operations (_base.py:10-54, without `__eq__`): the fields, one of which is
`property_units` (utils/parseable.py:27). -/
def OpObj.pyEq (a b : OpObj) : Bool := pyDictEq JV.pyEq a.dict b.dict && pyDictEq (fun u v => decide (u = v)) a.units b.units

/-- The same on two signal processors (__init__.py:33-36): the lists of the dictionaries of their operations. -/
def processorEq : List OpObj → List OpObj → Bool
  | [], [] => true
  | a :: l, b :: m => a.pyEq b && processorEq l m
  | _, _ => false

/-- The choice of dependent variables of an operation. -/
def dvOf : Option Ix → DvIndex
  | none => .all
  | some (.one i) => .one i
  | some (.many l) => .many l

/-- `if isinstance(dim_index, int): dim_index = [dim_index]` (apodization.py:49-51, __init__.py:141-145). -/
def dimsOf : Ix → List ℕ
  | .one i => [i.toNat]
  | .many l => l.map Int.toNat

/-- The unit of the width of an apodisation; None where `1 / unit` raises. -/
noncomputable def unitOf (size : String → ℝ) (us : Dict PUnit) : Option ℝ :=
  match us.get? "FWHM" with
  | some (.name u) => some (size u)
  | some .one => some 1
  | _ => none

/-- What `operate` of the object does, in terms of Verif/Signal/Ops.lean and Verif/Signal/Apod.lean. A width of zero makes
`Gaussian.fn` return nan, which the model leaves out. `complex_conjugate` has no `operate`. -/
noncomputable def OpObj.meaning (size : String → ℝ) : OpObj → Option Op
  | .scale f => some (.scale ((f : ℝ) : ℂ))
  | .ifft i => some (.fft (dimsOf i))
  | .fft i => some (.fft (dimsOf i))
  | .conj => none
  | .gaussian i v q us => some (.apodize (fun x => match gaussFn q (unitOf size us) x with
      | .ok (some l) => .ok (l.map fun r : ℝ => (r : ℂ))
      | .ok none => .error .undefinedBehaviour
      | .error e => .error e) (dimsOf i) (dvOf v))
  | .exponential i v q us => some (.apodize (expFn q (unitOf size us)) (dimsOf i) (dvOf v))
  | .shear i v q p us => match us.get? "factor" with
    | some (.name u) => some (.shear (q * size u) i.toNat p.toNat (dvOf v))
    | some .one => some (.shear q i.toNat p.toNat (dvOf v))
    | _ => none
  | .affScale i _ q us => match us.get? "factor" with
    | some (.name u) => some (.affine (q * size u) i.toNat)
    | some .one => some (.affine q i.toNat)
    | _ => none

/-! ## Specification -/

/-- Two units dictionaries say the same. -/
def Spec.SameUnits (a b : Dict PUnit) : Prop := ∀ k, a.get? k = b.get? k

/-- The same class with the same parameters. -/
inductive Spec.Same : OpObj → OpObj → Prop
  | scale f : Spec.Same (.scale f) (.scale f)
  | ifft i : Spec.Same (.ifft i) (.ifft i)
  | fft i : Spec.Same (.fft i) (.fft i)
  | conj : Spec.Same .conj .conj
  | gaussian i v q us us' (h : Spec.SameUnits us us') : Spec.Same (.gaussian i v q us) (.gaussian i v q us')
  | exponential i v q us us' (h : Spec.SameUnits us us') : Spec.Same (.exponential i v q us) (.exponential i v q us')
  | shear i v q p us us' (h : Spec.SameUnits us us') : Spec.Same (.shear i v q p us) (.shear i v q p us')
  | affScale i v q us us' (h : Spec.SameUnits us us') : Spec.Same (.affScale i v q us) (.affScale i v q us')

/-- Different classes with the same parameters. -/
inductive Spec.Twin : OpObj → OpObj → Prop
  | fourier i : Spec.Twin (.ifft i) (.fft i)
  | fourier' i : Spec.Twin (.fft i) (.ifft i)
  | apodize i v q us us' (h : Spec.SameUnits us us') : Spec.Twin (.gaussian i v q us) (.exponential i v q us')
  | apodize' i v q us us' (h : Spec.SameUnits us us') : Spec.Twin (.exponential i v q us) (.gaussian i v q us')

/-- An apodisation, and which. -/
def Spec.shape : OpObj → Option Bool
  | .gaussian .. => some true
  | .exponential .. => some false
  | _ => none

/-! ## Lemmas -/

theorem get?_isSome_of_mem {V : Type} (d : Dict V) (p : String × V) (h : p ∈ d) : (d.get? p.1).isSome := by
  induction d with
  | nil => cases h
  | cons q l ih =>
    by_cases e : q.1 = p.1
    · simp [Dict.get?, e]
    · rcases List.mem_cons.mp h with rfl | h
      · exact absurd rfl e
      · simpa [Dict.get?, e] using ih h

theorem mem_of_get? {V : Type} (d : Dict V) (k : String) (v : V) (h : d.get? k = some v) : ∃ p ∈ d, p.1 = k := by
  induction d with
  | nil => simp [Dict.get?] at h
  | cons q l ih =>
    by_cases e : q.1 = k
    · exact ⟨q, by simp, e⟩
    · obtain ⟨p, hp, hk⟩ := ih (by simpa [Dict.get?, e] using h)
      exact ⟨p, by simp [hp], hk⟩

theorem pyDictEq_iff {V : Type} [DecidableEq V] (a b : Dict V) :
    pyDictEq (fun u v => decide (u = v)) a b = true ↔ ∀ k, a.get? k = b.get? k := by
  unfold pyDictEq
  rw [Bool.and_eq_true, List.all_eq_true, List.all_eq_true]
  constructor
  · rintro ⟨h1, h2⟩ k
    cases ha : a.get? k with
    | some v =>
      obtain ⟨p, hp, rfl⟩ := mem_of_get? a k v ha
      have h := h1 p hp
      rw [ha] at h
      cases hb : b.get? p.1 with
      | none => simp [hb] at h
      | some w => simpa [hb] using h
    | none =>
      cases hb : b.get? k with
      | none => rfl
      | some w =>
        obtain ⟨p, hp, rfl⟩ := mem_of_get? b k w hb
        have h := h2 p hp
        simp [ha] at h
  · intro h
    constructor
    · intro p hp
      obtain ⟨v, hv⟩ := Option.isSome_iff_exists.mp (get?_isSome_of_mem a p hp)
      simp [← h p.1, hv]
    · intro p hp
      rw [h p.1]
      exact get?_isSome_of_mem b p hp

theorem ix_val_inj (i j : Ix) : JV.pyEq i.val j.val = true ↔ i = j := by
  cases i <;> cases j <;> simp [Ix.val, JV.pyEq]

theorem dv_val_inj (i j : Option Ix) : JV.pyEq (dvVal i) (dvVal j) = true ↔ i = j := by
  rcases i with _ | (i | i) <;> rcases j with _ | (j | j) <;> simp [dvVal, Ix.val, JV.pyEq]

theorem num_inj (p q : ℚ) : JV.pyEq (.num p) (.num q) = true ↔ p = q := by simp [JV.pyEq]

theorem int_inj (p q : ℤ) : JV.pyEq (.int p) (.int q) = true ↔ p = q := by simp [JV.pyEq]

set_option maxHeartbeats 1600000 in
theorem opEq_iff (a b : OpObj) : a.pyEq b = true ↔ Spec.Same a b ∨ Spec.Twin a b := by
  unfold OpObj.pyEq
  rw [Bool.and_eq_true, pyDictEq_iff]
  constructor
  · rintro ⟨h, hu⟩
    cases a <;> cases b <;> simp [pyDictEq, OpObj.dict, Dict.get?, ix_val_inj, dv_val_inj, num_inj, int_inj] at h
    case scale.scale => subst h; exact .inl (.scale _)
    case ifft.ifft => subst h; exact .inl (.ifft _)
    case ifft.fft => subst h; exact .inr (.fourier _)
    case fft.ifft => subst h; exact .inr (.fourier' _)
    case fft.fft => subst h; exact .inl (.fft _)
    case conj.conj => exact .inl .conj
    case gaussian.gaussian => obtain ⟨rfl, rfl, rfl⟩ := h; exact .inl (.gaussian _ _ _ _ _ hu)
    case gaussian.exponential => obtain ⟨rfl, rfl, rfl⟩ := h; exact .inr (.apodize _ _ _ _ _ hu)
    case exponential.gaussian => obtain ⟨rfl, rfl, rfl⟩ := h; exact .inr (.apodize' _ _ _ _ _ hu)
    case exponential.exponential => obtain ⟨rfl, rfl, rfl⟩ := h; exact .inl (.exponential _ _ _ _ _ hu)
    case shear.shear => obtain ⟨rfl, rfl, rfl, rfl⟩ := h; exact .inl (.shear _ _ _ _ _ _ hu)
    case affScale.affScale => obtain ⟨rfl, rfl, rfl⟩ := h; exact .inl (.affScale _ _ _ _ _ hu)
  · rintro (h | h) <;> cases h <;>
      simp [pyDictEq, OpObj.dict, Dict.get?, OpObj.units, ix_val_inj, dv_val_inj, num_inj, int_inj]
    all_goals assumption

theorem processorEq_iff (a b : List OpObj) :
    processorEq a b = true ↔ List.Forall₂ (fun x y => Spec.Same x y ∨ Spec.Twin x y) a b := by
  induction a generalizing b with
  | nil => cases b <;> simp [processorEq]
  | cons x l ih =>
    cases b with
    | nil => simp [processorEq]
    | cons y m => simp [processorEq, opEq_iff, ih]

theorem unitOf_congr (size : String → ℝ) (us us' : Dict PUnit) (h : Spec.SameUnits us us') : unitOf size us = unitOf size us' := by
  unfold unitOf
  rw [h]

theorem same_meaning (size : String → ℝ) (a b : OpObj) (h : Spec.Same a b) : a.meaning size = b.meaning size := by
  cases h with
  | scale | ifft | fft | conj => rfl
  | gaussian i v q us us' h => simp only [OpObj.meaning, unitOf_congr size us us' h]
  | exponential i v q us us' h => simp only [OpObj.meaning, unitOf_congr size us us' h]
  | shear i v q p us us' h => simp only [OpObj.meaning, h "factor"]
  | affScale i v q us us' h => simp only [OpObj.meaning, h "factor"]

theorem units_trans {a b c : Dict PUnit} (h1 : Spec.SameUnits a b) (h2 : Spec.SameUnits b c) : Spec.SameUnits a c :=
  fun k => (h1 k).trans (h2 k)

theorem rel_trans (x y z : OpObj) (h1 : Spec.Same x y ∨ Spec.Twin x y) (h2 : Spec.Same y z ∨ Spec.Twin y z) :
    Spec.Same x z ∨ Spec.Twin x z := by
  rcases h1 with h1 | h1 <;> rcases h2 with h2 | h2 <;> cases h1 <;> cases h2 <;>
    first
      | (left; constructor; done)
      | (right; constructor; done)
      | (left; constructor; exact units_trans (by assumption) (by assumption))
      | (right; constructor; exact units_trans (by assumption) (by assumption))

theorem forall_trans {α : Type} (r : α → α → Prop) (h : ∀ x y z, r x y → r y z → r x z) :
    ∀ {a b c : List α}, List.Forall₂ r a b → List.Forall₂ r b c → List.Forall₂ r a c
  | _, _, _, .nil, .nil => .nil
  | _, _, _, .cons h1 t1, .cons h2 t2 => .cons (h _ _ _ h1 h2) (forall_trans r h t1 t2)

/-! ## Properties -/

/-- **C99, what is compared.** Two signal processors compare equal exactly when they have as many operations, and the operations at
each place have the same parameters and either the same class or are one of the pairs `IFFT` and `FFT`, `Gaussian` and
`Exponential`. -/
theorem C99_compared (a b : List OpObj) :
    processorEq a b = true ↔ a.length = b.length ∧
      ∀ (k : ℕ) (x y : OpObj), a[k]? = some x → b[k]? = some y → Spec.Same x y ∨ Spec.Twin x y := by
  rw [processorEq_iff, List.forall₂_iff_get]
  constructor
  · rintro ⟨hl, h⟩
    refine ⟨hl, fun k x y hx hy => ?_⟩
    obtain ⟨h1, e1⟩ := List.getElem?_eq_some_iff.mp hx
    obtain ⟨h2, e2⟩ := List.getElem?_eq_some_iff.mp hy
    have := h k h1 h2
    simpa [e1, e2] using this
  · rintro ⟨hl, h⟩
    refine ⟨hl, fun k h1 h2 => ?_⟩
    exact h k _ _ (List.getElem?_eq_getElem h1) (List.getElem?_eq_getElem h2)

/-- **C99, partial.** When two signal processors compare equal and no place has `Gaussian` in one and `Exponential` in the other,
they do the same to every data set, in every store, whatever the library's Fourier transform and units: the same list of
operations, hence the same store and the same result.

Missing for the full property: processors that differ by `Gaussian` and `Exponential` (see the counterexample). -/
theorem C99_same_partial (size : String → ℝ) (a b : List OpObj) (heq : processorEq a b = true)
    (hshape : a.map Spec.shape = b.map Spec.shape) :
    a.map (OpObj.meaning size) = b.map (OpObj.meaning size) ∧
    ∀ (opsA opsB : List Op), a.mapM (OpObj.meaning size) = some opsA → b.mapM (OpObj.meaning size) = some opsB →
      ∀ (lib : ℕ → Data → Py Data) (s : Store × ℕ), applyOperations lib opsA s = applyOperations lib opsB s := by
  have key : a.map (OpObj.meaning size) = b.map (OpObj.meaning size) := by
    rw [processorEq_iff] at heq
    induction heq with
    | nil => rfl
    | @cons x y l m hxy _ ih =>
      simp only [List.map_cons, List.cons.injEq] at hshape ⊢
      refine ⟨?_, ih hshape.2⟩
      rcases hxy with h | h
      · exact same_meaning size x y h
      · cases h with
        | fourier i => rfl
        | fourier' i => rfl
        | apodize => simp [Spec.shape] at hshape
        | apodize' => simp [Spec.shape] at hshape
  refine ⟨key, ?_⟩
  have e : a.mapM (OpObj.meaning size) = b.mapM (OpObj.meaning size) := by
    have h : ∀ l : List OpObj, l.mapM (OpObj.meaning size) = (l.map (OpObj.meaning size)).mapM id := by
      intro l
      induction l with
      | nil => rfl
      | cons x l ih =>
        rw [List.mapM_cons, List.map_cons, List.mapM_cons, ih]
        rfl
    rw [h, h, key]
  intro opsA opsB hA hB lib s
  rw [e, hB] at hA
  simp only [Option.some.injEq] at hA
  rw [hA]

/-- Two processors that compare equal without being the same: a Fourier transform written as its inverse. -/
example : processorEq [.ifft (.one 0), .exponential (.one 0) none 100 [("FWHM", .name "Hz")], .fft (.one 0)]
      [.fft (.one 0), .exponential (.one 0) none 100 [("FWHM", .name "Hz")], .fft (.one 0)] = true ∧
    ([.ifft (.one 0), .exponential (.one 0) none 100 [("FWHM", .name "Hz")], .fft (.one 0)] : List OpObj).map Spec.shape =
      [.fft (.one 0), .exponential (.one 0) none 100 [("FWHM", .name "Hz")], .fft (.one 0)].map Spec.shape := by
  decide +kernel

/-- **C99, comparing is an equivalence.** -/
theorem C99_equivalence : (∀ a, processorEq a a = true) ∧ (∀ a b, processorEq a b = true → processorEq b a = true) ∧
    ∀ a b c, processorEq a b = true → processorEq b c = true → processorEq a c = true := by
  have refl : ∀ x : OpObj, Spec.Same x x := by
    intro x
    cases x <;> constructor <;> intro k <;> rfl
  refine ⟨fun a => ?_, fun a b h => ?_, fun a b c h1 h2 => ?_⟩
  · rw [processorEq_iff]
    exact List.forall₂_same.mpr fun x _ => .inl (refl x)
  · rw [processorEq_iff] at h ⊢
    refine List.Forall₂.flip (h.imp fun x y hxy => ?_)
    rcases hxy with h | h
    · left
      cases h <;> constructor <;> exact fun k => (by assumption : Spec.SameUnits _ _) k |>.symm
    · right
      cases h <;> constructor <;> exact fun k => (by assumption : Spec.SameUnits _ _) k |>.symm
  · rw [processorEq_iff] at h1 h2 ⊢
    exact forall_trans _ rel_trans h1 h2

/-- **C99, counterexample.** A processor with a Gaussian apodisation compares equal to one with an exponential of the same width,
for every width from 3 Hz up. They are saved differently, and of the two points at times 0 and 1 s the second leaves the first as
it is and the first scales it down. -/
theorem C99_counterexample (size : String → ℝ) (hs : size "Hz" = 1) (w : ℚ) (hw : 3 ≤ w) :
    let g : OpObj := .gaussian (.one 0) none w [("FWHM", .name "Hz")]
    let e : OpObj := .exponential (.one 0) none w [("FWHM", .name "Hz")]
    processorEq [g] [e] = true ∧ jsonAll [g] ≠ jsonAll [e] ∧
    ∃ (opG opE : Op) (d dG dE : Data) (f fG fE : List ℕ → ℂ),
      g.meaning size = some opG ∧ e.meaning size = some opE ∧
      d.dvs = [f] ∧ f [0] = 1 ∧ dG.dvs = [fG] ∧ dE.dvs = [fE] ∧
      (∀ lib, applyOperations lib [opG] ([d], 0) = ([dG], .ok 0)) ∧
      (∀ lib, applyOperations lib [opE] ([d], 0) = ([dE], .ok 0)) ∧
      fE [0] = 1 ∧ ‖fG [0]‖ < 1 / 2 := by
  intro g e
  refine ⟨?_, ?_, ?_⟩
  · rw [processorEq_iff]
    exact .cons (.inr (.apodize _ _ _ _ _ fun _ => rfl)) .nil
  · intro h
    have h1 := congrArg (fun l : List (Dict JV) => l.map fun d => d.get? "type") h
    revert h1
    simp [jsonAll, g, e, OpObj.json, OpObj.dict, OpObj.units, OpObj.function, OpObj.type, Dict.get?, Dict.set, Dict.has, Ix.val, dvVal, format]
  · set x : Dim := ⟨[0, 1], 1, 0, 0⟩ with hx
    have hc : x.coords = [0, 1] := by simp [hx, Dim.coords]
    set sigma : ℝ := (w : ℝ) / (2354820045030949 / 1000000000000000) with hsig
    have hw' : (3 : ℝ) ≤ w := by exact_mod_cast hw
    have hs1 : 1 < sigma := by
      rw [hsig, lt_div_iff₀ (by norm_num)]
      linarith [show (1 : ℝ) * (2354820045030949 / 1000000000000000) < 3 by norm_num]
    have hs0 : sigma ≠ 0 := by linarith
    set v : List ℝ := (List.range 2).map fun j => gaussAmp 2 (1 * 1 - 0 * 1) sigma ((j + 2 / 2) % 2) / (sigma * √(2 * Real.pi)) with hv
    have hg : gaussFn (w : ℝ) (some 1) [0, 1] = .ok (some v) := by
      simp only [gaussFn, List.head?_cons, List.getLast?_cons_cons, List.getLast?_singleton, ← hsig]
      rw [if_neg (by push Not; exact ⟨by norm_num, hs0⟩)]
      rfl
    have hu : unitOf size [("FWHM", .name "Hz")] = some 1 := by simp [unitOf, Dict.get?, hs]
    set f : List ℕ → ℂ := fun _ => 1 with hf
    refine ⟨_, _, ⟨[x], [f]⟩, ⟨[x], [fun ix => f ix * along (v.map fun r : ℝ => (r : ℂ)) 0 ix]⟩,
      ⟨[x], [fun ix => f ix * along (([0, 1] : List ℝ).map fun t => ((Real.exp (-(w : ℝ) * Real.pi * |t * 1|) : ℝ) : ℂ)) 0 ix]⟩,
      f, _, _, rfl, rfl, rfl, rfl, rfl, rfl, ?_, ?_, ?_, ?_⟩
    · intro lib
      simp only [applyOperations, operate, inPlace, apodize, dimsOf, dvOf, dvIndexes, hu, Int.toNat_zero, List.getElem?_cons_zero, hc, hg,
        List.length_cons, List.length_nil]
      rfl
    · intro lib
      simp only [applyOperations, operate, inPlace, apodize, dimsOf, dvOf, dvIndexes, hu, Int.toNat_zero, List.getElem?_cons_zero, hc, expFn,
        List.length_cons, List.length_nil]
      rfl
    · simp [hf, along]
    · have e0 : (fun ix => f ix * along (v.map fun r : ℝ => (r : ℂ)) 0 ix) [0]
          = ((gaussAmp 2 1 sigma 1 / (sigma * √(2 * Real.pi)) : ℝ) : ℂ) := by
        simp [hf, along, hv, List.range_succ]
      change ‖(fun ix => f ix * along (v.map fun r : ℝ => (r : ℂ)) 0 ix) [0]‖ < 1 / 2
      rw [e0, Complex.norm_real, Real.norm_eq_abs, abs_div]
      have hr : 1 < √(2 * Real.pi) := by
        rw [show (1 : ℝ) = √1 by simp]
        apply Real.sqrt_lt_sqrt (by norm_num)
        linarith [Real.pi_gt_three]
      have hden : 1 < sigma * √(2 * Real.pi) := by nlinarith
      have ha : gaussAmp 2 1 sigma 1 = 1 / 2 * (1 - Real.exp (-(1 / 2) * (1 / sigma) ^ 2)) := by
        simp [gaussAmp, Finset.sum_range_succ, shifted]
        ring_nf
      have hE1 := Real.exp_pos (-(1 / 2) * (1 / sigma) ^ 2)
      have hE2 : Real.exp (-(1 / 2) * (1 / sigma) ^ 2) ≤ 1 := Real.exp_le_one_iff.mpr (by nlinarith [sq_nonneg (1 / sigma)])
      rw [ha, abs_of_nonneg (by linarith), abs_of_pos (by linarith), div_lt_iff₀ (by linarith)]
      linarith

end MRS.Signal
