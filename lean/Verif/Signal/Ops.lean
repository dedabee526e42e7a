import Verif.Py
import Mathlib.Analysis.SpecialFunctions.Trigonometric.Basic
import Mathlib.Tactic.Ring
import Mathlib.Algebra.BigOperators.Group.List.Basic

/-!
# Signal processing — property C52

Model of src/mrsimulator/signal_processing. Data sets live in a store; an operation either
changes the data set it is given or makes a new one. The Fourier transform is that of the library
and a parameter; it is trusted to return a new object.
-/

namespace MRS.Signal

/-- A dimension of a data set: its coordinates are `offset + increment * k` for the positions `k`
the library chooses (signal_processing/_base.py lines 17-52; csdmpy). -/
structure Dim where
  ks : List ℝ
  increment : ℝ
  offset : ℝ
  recOffset : ℝ

/-- The coordinates of a dimension (csdmpy, as read in apodization.py lines 40-62). -/
noncomputable def Dim.coords (d : Dim) : List ℝ := d.ks.map fun k => d.offset + d.increment * k

/-- A data set: the dimensions, and for each dependent variable the value at a position (one
index for each dimension) (signal_processing/__init__.py lines 77-164). -/
structure Data where
  dims : List Dim
  dvs : List (List ℕ → ℂ)

/-- The choice of dependent variables: None, an integer, or a list (signal_processing/_base.py lines 28-40). -/
inductive DvIndex where
  | all
  | one (i : ℤ)
  | many (l : List ℤ)

/-- The operations. `apodize` carries the function `fn` from coordinates to factors
(signal_processing/apodization.py lines 40-62, affine.py lines 108-176). -/
inductive Op where
  | scale (factor : ℂ)
  | fft (dims : List ℕ)
  | apodize (fn : List ℝ → Py (List ℂ)) (dims : List ℕ) (dv : DvIndex)
  | shear (factor : ℝ) (dim parallel : ℕ) (dv : DvIndex)
  | affine (factor : ℝ) (dim : ℕ)

/-- `_get_dv_indexes` (_base.py lines 29-42). -/
def dvIndexes : DvIndex → ℕ → List ℤ
  | .all, n => (List.range n).map fun k : ℕ => (k : ℤ)
  | .one i, _ => [i]
  | .many l, _ => l

/-- `for i in dv_indexes: data.dependent_variables[i].components *= vector` (apodization.py lines
59-60, affine.py lines 132-134). The changes made before an error stay. -/
def mulDvs (w : List ℕ → ℂ) : List ℤ → Data → Data × Option PyErr
  | [], d => (d, none)
  | i :: l, d =>
    match pyPos d.dvs.length i with
    | none => (d, some .indexError)
    | some k => mulDvs w l { d with dvs := d.dvs.modify k fun f => fun ix => f ix * w ix }

/-- The factor at a position: entry of `v` at the index of dimension `dim`
(`_get_broadcast_shape`, utils.py lines 12-20). -/
def along (v : List ℂ) (dim : ℕ) : List ℕ → ℂ := fun ix => v.getD (ix.getD dim 0) 0

/-- The loop of `AbstractApodization.operate` (apodization.py lines 52-60). -/
noncomputable def apodize (fn : List ℝ → Py (List ℂ)) (dv : DvIndex) :
    List ℕ → Data → Data × Option PyErr
  | [], d => (d, none)
  | dim :: l, d =>
    match d.dims[dim]? with
    | none => (d, some .indexError)
    | some x =>
      match fn x.coords with
      | .error e => (d, some e)
      | .ok v =>
        match mulDvs (along v dim) (dvIndexes dv d.dvs.length) d with
        | (d', some e) => (d', some e)
        | (d', none) => apodize fn dv l d'

/-- The phase factor of `Shear.operate` (affine.py lines 106-127), with coordinates and factor in
matching units. -/
noncomputable def shearFactor (factor : ℝ) (x y : List ℝ) (dim parallel : ℕ) : List ℕ → ℂ :=
  fun ix => Complex.exp (-2 * Complex.I * Real.pi *
    ((x.getD (ix.getD dim 0) 0 : ℝ) * (y.getD (ix.getD parallel 0) 0 : ℝ)) * factor)

/-- `operate` of the operations that change the data set they are given: `Scale`
(__init__.py lines 113-124), the apodisations, `Shear` (affine.py lines 102-136), `affine.Scale`
(affine.py lines 161-170). -/
noncomputable def inPlace : Op → Data → Data × Option PyErr
  | .scale f, d => ({ d with dvs := d.dvs.map fun g => fun ix => g ix * f }, none)
  | .fft _, d => (d, none)
  | .apodize fn dims dv, d => apodize fn dv dims d
  | .shear f dim parallel dv, d =>
    match d.dims[dim]?, d.dims[parallel]? with
    | some x, some y =>
      mulDvs (shearFactor f x.coords y.coords dim parallel) (dvIndexes dv d.dvs.length) d
    | _, _ => (d, some .indexError)
  | .affine f dim, d =>
    match d.dims[dim]? with
    | none => (d, some .indexError)
    | some x =>
      ({ d with dims := d.dims.set dim ⟨x.ks, x.increment * f, x.offset * f, x.recOffset / f⟩ },
        none)

/-- The store of data sets, and the reference to one (signal_processing/__init__.py lines 77-164). -/
abbrev Store := List Data

/-- The loop of `IFFT.operate` (__init__.py lines 141-153): one new data set for each axis. -/
def fftLoop (lib : ℕ → Data → Py Data) : List ℕ → Store × ℕ → Store × Py ℕ
  | [], s => (s.1, .ok s.2)
  | i :: l, s =>
    match s.1[s.2]? with
    | none => (s.1, .error .undefinedBehaviour)
    | some d =>
      match lib i d with
      | .error e => (s.1, .error e)
      | .ok d' => fftLoop lib l (s.1 ++ [d'], s.1.length)

/-- `operate` on the data set at a reference (signal_processing/apodization.py lines 40-62, affine.py lines 108-176). -/
noncomputable def operate (lib : ℕ → Data → Py Data) (op : Op) (s : Store × ℕ) : Store × Py ℕ :=
  match op with
  | .fft dims => fftLoop lib dims s
  | op =>
    match s.1[s.2]? with
    | none => (s.1, .error .undefinedBehaviour)
    | some d =>
      match inPlace op d with
      | (d', none) => (s.1.set s.2 d', .ok s.2)
      | (d', some e) => (s.1.set s.2 d', .error e)

/-- `SignalProcessor.apply_operations` (__init__.py lines 74-90): the final store and the
reference returned. -/
noncomputable def applyOperations (lib : ℕ → Data → Py Data) : List Op → Store × ℕ → Store × Py ℕ
  | [], s => (s.1, .ok s.2)
  | op :: l, s =>
    match operate lib op s with
    | (st, .error e) => (st, .error e)
    | (st, .ok r) => applyOperations lib l (st, r)

/-! ## Specification -/

/-- How often a choice names dependent variable `k` of `n`. -/
def Spec.times (n : ℕ) (k : ℕ) : DvIndex → ℕ
  | .all => 1
  | .one i => if i = k ∨ i = (k : ℤ) - n then 1 else 0
  | .many l => l.countP fun i : ℤ => decide (i = k ∨ i = (k : ℤ) - n)

/-- A choice names existing dependent variables only. -/
def Spec.Names (n : ℕ) : DvIndex → Prop
  | .all => True
  | .one i => -(n : ℤ) ≤ i ∧ i < n
  | .many l => ∀ i ∈ l, -(n : ℤ) ≤ i ∧ i < n

/-- What the operation makes of a data set, mathematically; `none` where it is not defined. -/
noncomputable def Spec.out (lib : ℕ → Data → Py Data) : Op → Data → Data → Prop
  | .scale f, d, d' => d'.dims = d.dims ∧ d'.dvs.length = d.dvs.length ∧
      ∀ (k : ℕ) (ix : List ℕ), (d'.dvs[k]?).map (fun g : List ℕ → ℂ => g ix) = (d.dvs[k]?).map fun g : List ℕ → ℂ => f * g ix
  | .fft dims, d, d' => dims.foldlM (fun d i => lib i d) d = .ok d'
  | .apodize fn dims dv, d, d' => ∃ v : ℕ → List ℂ,
      (∀ dim ∈ dims, ∃ x, d.dims[dim]? = some x ∧ fn x.coords = .ok (v dim)) ∧
      (dims ≠ [] → Spec.Names d.dvs.length dv) ∧
      d'.dims = d.dims ∧ d'.dvs.length = d.dvs.length ∧
      ∀ (k : ℕ) (ix : List ℕ), (d'.dvs[k]?).map (fun g : List ℕ → ℂ => g ix) = (d.dvs[k]?).map fun g : List ℕ → ℂ =>
        g ix * (dims.map fun dim => (v dim).getD (ix.getD dim 0) 0).prod ^
          Spec.times d.dvs.length k dv
  | .shear f dim parallel dv, d, d' => ∃ x y,
      d.dims[dim]? = some x ∧ d.dims[parallel]? = some y ∧ Spec.Names d.dvs.length dv ∧
      d'.dims = d.dims ∧ d'.dvs.length = d.dvs.length ∧
      ∀ (k : ℕ) (ix : List ℕ), (d'.dvs[k]?).map (fun g : List ℕ → ℂ => g ix) = (d.dvs[k]?).map fun g : List ℕ → ℂ =>
        g ix * Complex.exp (-2 * Complex.I * Real.pi * ((x.coords.getD (ix.getD dim 0) 0 : ℝ) *
          (y.coords.getD (ix.getD parallel 0) 0 : ℝ)) * f) ^ Spec.times d.dvs.length k dv
  | .affine f dim, d, d' => d'.dvs = d.dvs ∧ d'.dims.length = d.dims.length ∧
      (∀ j, j ≠ dim → d'.dims[j]? = d.dims[j]?) ∧
      ∃ x x', d.dims[dim]? = some x ∧ d'.dims[dim]? = some x' ∧
        x'.coords = x.coords.map (f * ·) ∧ x'.recOffset = x.recOffset / f

/-- The results of a list of operations, one after another. -/
def Spec.chain (lib : ℕ → Data → Py Data) : List Op → Data → Data → Prop
  | [], d, d' => d' = d
  | op :: l, d, d' => ∃ m, Spec.out lib op d m ∧ Spec.chain lib l m d'

/-! ## Lemmas -/

theorem pyPos_spec (n : ℕ) (i : ℤ) (k : ℕ) :
    pyPos n i = some k ↔ k < n ∧ (i = k ∨ i = (k : ℤ) - n) := by
  unfold pyPos
  simp only
  split_ifs with h1 h2 h3
  · simp only [Option.some.injEq]; omega
  · simp only [false_iff]; omega
  · simp only [Option.some.injEq]; omega
  · simp only [false_iff]; omega

theorem pyPos_none (n : ℕ) (i : ℤ) : pyPos n i = none ↔ ¬ (-(n : ℤ) ≤ i ∧ i < n) := by
  unfold pyPos
  simp only
  split_ifs <;> simp <;> omega

/-- The loop over the dependent variables. -/
theorem mulDvs_spec (w : List ℕ → ℂ) (l : List ℤ) (d d' : Data) (h : mulDvs w l d = (d', none)) :
    d'.dims = d.dims ∧ d'.dvs.length = d.dvs.length ∧
    (∀ i ∈ l, -(d.dvs.length : ℤ) ≤ i ∧ i < d.dvs.length) ∧
    ∀ (k : ℕ) (ix : List ℕ), (d'.dvs[k]?).map (fun g : List ℕ → ℂ => g ix) = (d.dvs[k]?).map fun g : List ℕ → ℂ =>
      g ix * w ix ^ (l.countP fun i : ℤ => decide (i = k ∨ i = (k : ℤ) - d.dvs.length)) := by
  induction l generalizing d with
  | nil =>
    simp only [mulDvs, Prod.mk.injEq, and_true] at h
    subst h
    simp
  | cons i l ih =>
    unfold mulDvs at h
    match hp : pyPos d.dvs.length i with
    | none => rw [hp] at h; simp at h
    | some k0 =>
      rw [hp] at h
      simp only at h
      obtain ⟨h1, h2, h3, h4⟩ := ih _ h
      simp only [List.length_modify] at h2 h3 h4
      have hk0 := (pyPos_spec _ _ _).mp hp
      refine ⟨h1, h2, ?_, ?_⟩
      · intro j hj
        rcases List.mem_cons.mp hj with rfl | hj
        · omega
        · exact h3 j hj
      · intro k ix
        rw [h4 k ix, List.getElem?_modify]
        rw [List.countP_cons]
        by_cases hk : k0 = k
        · subst hk
          rw [if_pos (by simp [hk0.2])]
          match d.dvs[k0]? with
          | none => simp
          | some g => simp only [if_true, Option.map_some, Option.map_eq_map]; rw [pow_succ]; congr 1; ring
        · by_cases hlt : k < d.dvs.length
          · rw [if_neg (by
              simp only [decide_eq_true_eq]
              rintro (he | he) <;> apply hk <;> omega)]
            match d.dvs[k]? with
            | none => simp
            | some g => simp [hk]
          · rw [List.getElem?_eq_none (by omega)]
            simp

theorem mulDvs_ok (w : List ℕ → ℂ) (l : List ℤ) (d : Data)
    (hl : ∀ i ∈ l, -(d.dvs.length : ℤ) ≤ i ∧ i < d.dvs.length) :
    ∃ d', mulDvs w l d = (d', none) := by
  induction l generalizing d with
  | nil => exact ⟨d, rfl⟩
  | cons i l ih =>
    unfold mulDvs
    match hp : pyPos d.dvs.length i with
    | none => exact absurd (hl i (List.mem_cons_self ..)) ((pyPos_none _ _).mp hp)
    | some k0 =>
      apply ih
      intro j hj
      have := hl j (List.mem_cons_of_mem _ hj)
      simpa using this

theorem countP_range_self (n k : ℕ) (hk : k < n) :
    (List.range n).countP (fun j => decide (j = k)) = 1 := by
  induction n with
  | zero => omega
  | succ n ih =>
    rw [List.range_succ, List.countP_append, List.countP_singleton]
    by_cases h : k = n
    · subst h
      have : (List.range k).countP (fun j => decide (j = k)) = 0 := by
        rw [List.countP_eq_zero]
        intro j hj
        have := List.mem_range.mp hj
        simp only [decide_eq_true_eq]; omega
      rw [this]; simp
    · rw [ih (by omega), if_neg (by simp only [decide_eq_true_eq]; omega)]

theorem times_eq (dv : DvIndex) (n k : ℕ) (hk : k < n) :
    (dvIndexes dv n).countP (fun i : ℤ => decide (i = k ∨ i = (k : ℤ) - n)) = Spec.times n k dv := by
  cases dv with
  | all =>
    simp only [dvIndexes, Spec.times]
    rw [List.countP_map]
    conv_rhs => rw [← countP_range_self n k hk]
    apply List.countP_congr
    intro j hj
    have := List.mem_range.mp hj
    simp only [Function.comp_apply, decide_eq_true_eq]
    omega
  | one i =>
    simp only [dvIndexes, Spec.times, List.countP_singleton, decide_eq_true_eq]
  | many l => rfl

theorem names_iff (dv : DvIndex) (n : ℕ) :
    (∀ i ∈ dvIndexes dv n, -(n : ℤ) ≤ i ∧ i < n) ↔ Spec.Names n dv := by
  cases dv with
  | all =>
    simp only [dvIndexes, Spec.Names, iff_true]
    intro i hi
    obtain ⟨j, hj, rfl⟩ := List.mem_map.mp hi
    have := List.mem_range.mp hj
    omega
  | one i => simp [dvIndexes, Spec.Names]
  | many l => rfl

theorem mulDvs_names (w : List ℕ → ℂ) (dv : DvIndex) (d d' : Data)
    (h : mulDvs w (dvIndexes dv d.dvs.length) d = (d', none)) :
    d'.dims = d.dims ∧ d'.dvs.length = d.dvs.length ∧ Spec.Names d.dvs.length dv ∧
    ∀ (k : ℕ) (ix : List ℕ), (d'.dvs[k]?).map (fun g : List ℕ → ℂ => g ix) = (d.dvs[k]?).map fun g : List ℕ → ℂ =>
      g ix * w ix ^ Spec.times d.dvs.length k dv := by
  obtain ⟨h1, h2, h3, h4⟩ := mulDvs_spec w _ d d' h
  refine ⟨h1, h2, (names_iff dv _).mp h3, ?_⟩
  intro k ix
  rw [h4 k ix]
  by_cases hk : k < d.dvs.length
  · rw [times_eq dv _ k hk]
  · rw [List.getElem?_eq_none (by omega)]
    rfl

theorem apodize_spec (fn : List ℝ → Py (List ℂ)) (dv : DvIndex) (dims : List ℕ) (d d' : Data)
    (h : apodize fn dv dims d = (d', none)) :
    ∃ v : ℕ → List ℂ,
      (∀ dim ∈ dims, ∃ x, d.dims[dim]? = some x ∧ fn x.coords = .ok (v dim)) ∧
      (dims ≠ [] → Spec.Names d.dvs.length dv) ∧
      d'.dims = d.dims ∧ d'.dvs.length = d.dvs.length ∧
      ∀ (k : ℕ) (ix : List ℕ), (d'.dvs[k]?).map (fun g : List ℕ → ℂ => g ix) = (d.dvs[k]?).map fun g : List ℕ → ℂ =>
        g ix * (dims.map fun dim => (v dim).getD (ix.getD dim 0) 0).prod ^
          Spec.times d.dvs.length k dv := by
  induction dims generalizing d with
  | nil =>
    simp only [apodize, Prod.mk.injEq, and_true] at h
    subst h
    exact ⟨fun _ => [], by simp, by simp, rfl, rfl, by simp⟩
  | cons dim l ih =>
    unfold apodize at h
    match hx : d.dims[dim]? with
    | none => rw [hx] at h; simp at h
    | some x =>
      rw [hx] at h
      simp only at h
      match hf : fn x.coords with
      | .error e => rw [hf] at h; simp at h
      | .ok v0 =>
        rw [hf] at h
        simp only at h
        match hm : mulDvs (along v0 dim) (dvIndexes dv d.dvs.length) d with
        | (d1, some e) => rw [hm] at h; simp at h
        | (d1, none) =>
          rw [hm] at h
          simp only at h
          obtain ⟨m1, m2, m3, m4⟩ := mulDvs_names _ dv d d1 hm
          obtain ⟨v, i1, _, i3, i4, i5⟩ := ih d1 h
          rw [m1] at i1 i3
          rw [m2] at i4 i5
          refine ⟨fun j => if j = dim then v0 else v j, ?_, fun _ => m3, i3, i4, ?_⟩
          · intro j hj
            by_cases hjd : j = dim
            · subst hjd
              exact ⟨x, hx, by simp [hf]⟩
            · rcases List.mem_cons.mp hj with h' | hj
              · exact absurd h' hjd
              · obtain ⟨x', e1, e2⟩ := i1 j hj
                exact ⟨x', e1, by simp [hjd, e2]⟩
          · intro k ix
            rw [i5 k ix]
            have hmap : (l.map fun j => (v j).getD (ix.getD j 0) 0) =
                l.map fun j => (if j = dim then v0 else v j).getD (ix.getD j 0) 0 := by
              apply List.map_congr_left
              intro j hj
              by_cases hjd : j = dim
              · subst hjd
                obtain ⟨x', e1, e2⟩ := i1 j hj
                rw [hx] at e1
                cases e1
                rw [hf] at e2
                cases e2
                simp
              · simp [hjd]
            have hk := m4 k ix
            rw [List.map_cons, List.prod_cons, ← hmap]
            simp only [if_true]
            match hd : d.dvs[k]?, hd1 : d1.dvs[k]? with
            | none, none => rfl
            | none, some g => rw [hd, hd1] at hk; simp at hk
            | some g, none => rw [hd, hd1] at hk; simp at hk
            | some g, some g1 =>
              rw [hd, hd1] at hk
              simp only [Option.map_some, Option.some.injEq] at hk ⊢
              rw [hk, mul_pow]
              unfold along
              ring

theorem fftLoop_spec (lib : ℕ → Data → Py Data) (dims : List ℕ) (s : Store × ℕ) (d : Data)
    (hd : s.1[s.2]? = some d) (st : Store) (r : ℕ) (h : fftLoop lib dims s = (st, .ok r)) :
    ∃ d', st[r]? = some d' ∧ dims.foldlM (fun d i => lib i d) d = .ok d' ∧ s.1 <+: st ∧
      (dims ≠ [] → s.1.length ≤ r) := by
  induction dims generalizing s d with
  | nil =>
    simp only [fftLoop, Prod.mk.injEq, Except.ok.injEq] at h
    obtain ⟨rfl, rfl⟩ := h
    exact ⟨d, hd, rfl, List.prefix_refl _, by simp⟩
  | cons i l ih =>
    unfold fftLoop at h
    rw [hd] at h
    simp only at h
    match hl : lib i d with
    | .error e => rw [hl] at h; simp at h
    | .ok d1 =>
      rw [hl] at h
      simp only at h
      obtain ⟨d', e1, e2, e3, e4⟩ := ih (s.1 ++ [d1], s.1.length) d1 (by simp) h
      refine ⟨d', e1, ?_, (List.prefix_append _ _).trans e3, ?_⟩
      · rw [List.foldlM_cons, hl]
        exact e2
      · intro _
        cases l with
        | nil =>
          simp only [fftLoop, Prod.mk.injEq, Except.ok.injEq] at h
          omega
        | cons j l =>
          have := e4 (by simp)
          simp only [List.length_append, List.length_cons, List.length_nil] at this
          omega

/-- In-place operations do what the specification says. -/
theorem inPlace_spec (lib : ℕ → Data → Py Data) (op : Op) (hop : ∀ dims, op ≠ .fft dims)
    (d d' : Data) (h : inPlace op d = (d', none)) : Spec.out lib op d d' := by
  cases op with
  | fft dims => exact absurd rfl (hop dims)
  | scale f =>
    simp only [inPlace, Prod.mk.injEq, and_true] at h
    subst h
    refine ⟨rfl, by simp, ?_⟩
    intro k ix
    simp only [List.getElem?_map, Option.map_map]
    congr 1
    funext g
    simp only [Function.comp_apply]
    ring
  | apodize fn dims dv =>
    simp only [inPlace] at h
    exact apodize_spec fn dv dims d d' h
  | shear f dim parallel dv =>
    simp only [inPlace] at h
    match hx : d.dims[dim]?, hy : d.dims[parallel]? with
    | none, _ => rw [hx] at h; simp at h
    | some x, none => rw [hx, hy] at h; simp at h
    | some x, some y =>
      rw [hx, hy] at h
      simp only at h
      obtain ⟨m1, m2, m3, m4⟩ := mulDvs_names _ dv d d' h
      exact ⟨x, y, hx, hy, m3, m1, m2, m4⟩
  | affine f dim =>
    simp only [inPlace] at h
    match hx : d.dims[dim]? with
    | none => rw [hx] at h; simp at h
    | some x =>
      rw [hx] at h
      simp only [Prod.mk.injEq, and_true] at h
      subst h
      have hlt : dim < d.dims.length := by
        by_contra hcon
        rw [List.getElem?_eq_none (by omega)] at hx
        simp at hx
      refine ⟨rfl, by simp, ?_, x, _, hx, List.getElem?_set_self hlt, ?_, rfl⟩
      · intro j hj
        exact List.getElem?_set_ne (fun h => hj h.symm)
      · simp only [Dim.coords, List.map_map]
        apply List.map_congr_left
        intro k _
        simp only [Function.comp_apply]
        ring

/-- One operation. -/
theorem operate_spec (lib : ℕ → Data → Py Data) (op : Op) (s : Store × ℕ) (d : Data)
    (hd : s.1[s.2]? = some d) (st : Store) (r : ℕ) (h : operate lib op s = (st, .ok r)) :
    ∃ d', st[r]? = some d' ∧ Spec.out lib op d d' ∧ s.1.length ≤ st.length ∧
      (∀ q, q < s.1.length → q ≠ s.2 → st[q]? = s.1[q]?) ∧ (r = s.2 ∨ s.1.length ≤ r) := by
  by_cases hop : ∃ dims, op = .fft dims
  · obtain ⟨dims, rfl⟩ := hop
    obtain ⟨d', e1, e2, e3, e4⟩ := fftLoop_spec lib dims s d hd st r h
    refine ⟨d', e1, e2, e3.length_le, ?_, ?_⟩
    · intro q hq _
      obtain ⟨t, rfl⟩ := e3
      exact List.getElem?_append_left hq
    · cases dims with
      | nil =>
        simp only [operate, fftLoop, Prod.mk.injEq, Except.ok.injEq] at h
        exact Or.inl h.2.symm
      | cons i l => exact Or.inr (e4 (by simp))
  · have hop' : ∀ dims, op ≠ .fft dims := fun dims he => hop ⟨dims, he⟩
    have hlt : s.2 < s.1.length := by
      by_contra hcon
      rw [List.getElem?_eq_none (by omega)] at hd
      simp at hd
    have h' : (match inPlace op d with
        | (d', none) => (s.1.set s.2 d', (.ok s.2 : Py ℕ))
        | (d', some e) => (s.1.set s.2 d', .error e)) = (st, .ok r) := by
      cases op with
      | fft dims => exact absurd rfl (hop' dims)
      | scale f => unfold operate at h; rw [hd] at h; exact h
      | apodize fn dims dv => unfold operate at h; rw [hd] at h; exact h
      | shear f a b dv => unfold operate at h; rw [hd] at h; exact h
      | affine f a => unfold operate at h; rw [hd] at h; exact h
    match hi : inPlace op d with
    | (d', some e) => rw [hi] at h'; simp at h'
    | (d', none) =>
      rw [hi] at h'
      simp only [Prod.mk.injEq, Except.ok.injEq] at h'
      obtain ⟨rfl, rfl⟩ := h'
      refine ⟨d', List.getElem?_set_self hlt, inPlace_spec lib op hop' d d' hi, by simp, ?_,
        Or.inl rfl⟩
      intro q _ hq
      exact List.getElem?_set_ne (fun h => hq h.symm)

/-- All operations. -/
theorem apply_spec (lib : ℕ → Data → Py Data) (ops : List Op) (s : Store × ℕ) (d : Data)
    (hd : s.1[s.2]? = some d) (st : Store) (r : ℕ)
    (h : applyOperations lib ops s = (st, .ok r)) :
    (∃ d', st[r]? = some d' ∧ Spec.chain lib ops d d') ∧ s.1.length ≤ st.length ∧
      (∀ q, q < s.1.length → q ≠ s.2 → st[q]? = s.1[q]?) := by
  induction ops generalizing s d with
  | nil =>
    simp only [applyOperations, Prod.mk.injEq, Except.ok.injEq] at h
    obtain ⟨rfl, rfl⟩ := h
    exact ⟨⟨d, hd, rfl⟩, le_refl _, fun _ _ _ => rfl⟩
  | cons op l ih =>
    unfold applyOperations at h
    match ho : operate lib op s with
    | (st1, .error e) => rw [ho] at h; simp at h
    | (st1, .ok r1) =>
      rw [ho] at h
      simp only at h
      obtain ⟨d1, e1, e2, e3, e4, e5⟩ := operate_spec lib op s d hd st1 r1 ho
      obtain ⟨⟨d', f1, f2⟩, f3, f4⟩ := ih (st1, r1) d1 e1 h
      refine ⟨⟨d', f1, d1, e2, f2⟩, le_trans e3 f3, ?_⟩
      intro q hq hqs
      rw [f4 q (lt_of_lt_of_le hq e3) ?_]
      · exact e4 q hq hqs
      · rcases e5 with h5 | h5
        · rw [h5]; exact hqs
        · omega

/-! ## C52 -/

/-- **C52, the result.** Whenever `apply_operations` returns, it returns the result of the listed
operations one after another, each applied to the dependent variables it names, and no data set
other than the one given is changed. -/
theorem C52_result (lib : ℕ → Data → Py Data) (ops : List Op) (s : Store × ℕ) (d : Data)
    (hd : s.1[s.2]? = some d) (st : Store) (r : ℕ)
    (h : applyOperations lib ops s = (st, .ok r)) :
    (∃ d', st[r]? = some d' ∧ Spec.chain lib ops d d') ∧
      ∀ q, q < s.1.length → q ≠ s.2 → st[q]? = s.1[q]? := by
  obtain ⟨h1, _, h3⟩ := apply_spec lib ops s d hd st r h
  exact ⟨h1, h3⟩

/-- **C52, the input, partial.** If the first operation is a Fourier transform along at least one
dimension, the data given are unchanged (also when an operation fails).

Missing for the full property: lists that begin otherwise (`C52_counterexample`). -/
theorem C52_input_partial (lib : ℕ → Data → Py Data) (i : ℕ) (dims : List ℕ) (ops : List Op)
    (s : Store × ℕ) (d : Data) (hd : s.1[s.2]? = some d) (st : Store) (r : ℕ)
    (h : applyOperations lib (.fft (i :: dims) :: ops) s = (st, .ok r)) : st[s.2]? = some d := by
  have hlt : s.2 < s.1.length := by
    by_contra hcon
    rw [List.getElem?_eq_none (by omega)] at hd
    simp at hd
  unfold applyOperations at h
  match ho : operate lib (.fft (i :: dims)) s with
  | (st1, .error e) => rw [ho] at h; simp at h
  | (st1, .ok r1) =>
    rw [ho] at h
    simp only at h
    obtain ⟨d1, e1, _, e3, e4⟩ := fftLoop_spec lib (i :: dims) s d hd st1 r1 ho
    have hr : s.1.length ≤ r1 := e4 (by simp)
    obtain ⟨_, _, f3⟩ := apply_spec lib ops (st1, r1) d1 e1 st r h
    rw [f3 s.2 (lt_of_lt_of_le hlt e3.length_le) (by simp only; omega)]
    obtain ⟨t, rfl⟩ := e3
    rw [List.getElem?_append_left hlt, hd]

/-- **C52, disagreement.** A list that begins with `Scale` returns the very data set it was given,
changed: the documented copy is not made. Applying it twice scales by the square. -/
theorem C52_counterexample (lib : ℕ → Data → Py Data) (f : ℂ) (d : Data) :
    let once := applyOperations lib [.scale f] ([d], 0)
    once.2 = .ok 0 ∧
    (once.1[0]?).map (fun d => d.dvs) = some (d.dvs.map fun g => fun ix => g ix * f) ∧
    ((applyOperations lib [.scale f] (once.1, 0)).1[0]?).map (fun d => d.dvs) =
      some (d.dvs.map fun g => fun ix => g ix * f * f) := by
  refine ⟨rfl, rfl, ?_⟩
  simp only [applyOperations, operate, inPlace, List.getElem?_cons_zero, List.set_cons_zero,
    Option.map_some, List.map_map]
  rfl

/-- Scaling a data set by 2 does change it. -/
example : ((applyOperations (fun _ d => .ok d) [.scale 2] ([⟨[], [fun _ => 1]⟩], 0)).1[0]?).map
    (fun d => (d.dvs.map fun g => g [])) = some [2] := by
  simp [applyOperations, operate, inPlace]

/-- Transform, scale, transform back: returns a new data set. -/
example : ∃ st r, applyOperations (fun _ d => .ok d) [.fft [0], .scale 2, .fft [0]]
    ([⟨[], [fun _ => 1]⟩], 0) = (st, .ok r) := ⟨_, _, rfl⟩

/-- **C52, failures.** An operation that names a dependent variable that does not exist is
rejected with an IndexError. -/
theorem C52_rejects (fn : List ℝ → Py (List ℂ)) (dims : List ℕ) (dv : DvIndex) (d : Data)
    (hne : dims ≠ []) (hd : ∀ dim ∈ dims, ∃ x v, d.dims[dim]? = some x ∧ fn x.coords = .ok v)
    (hn : ¬ Spec.Names d.dvs.length dv) :
    (inPlace (.apodize fn dims dv) d).2 = some .indexError := by
  have key : ∀ (w : List ℕ → ℂ) (l : List ℤ) (d : Data),
      ¬ (∀ i ∈ l, -(d.dvs.length : ℤ) ≤ i ∧ i < d.dvs.length) →
      (mulDvs w l d).2 = some .indexError := by
    intro w l
    induction l with
    | nil => intro d h; exact absurd (by simp) h
    | cons i l ih =>
      intro d h
      unfold mulDvs
      match hp : pyPos d.dvs.length i with
      | none => rfl
      | some k0 =>
        apply ih
        intro hcon
        apply h
        intro j hj
        rcases List.mem_cons.mp hj with rfl | hj
        · have := (pyPos_spec _ _ _).mp hp; omega
        · simpa using hcon j hj
  cases dims with
  | nil => exact absurd rfl hne
  | cons dim l =>
    obtain ⟨x, v, e1, e2⟩ := hd dim (List.mem_cons_self ..)
    simp only [inPlace, apodize]
    rw [e1]
    simp only
    rw [e2]
    simp only
    have hm := key (along v dim) (dvIndexes dv d.dvs.length) d
      (fun hcon => hn ((names_iff dv _).mp hcon))
    match hmm : mulDvs (along v dim) (dvIndexes dv d.dvs.length) d with
    | (d', none) => rw [hmm] at hm; simp at hm
    | (d', some e) => rw [hmm] at hm; exact hm

example : ¬ Spec.Names 2 (.many [0, -3]) := by
  simp [Spec.Names]

end MRS.Signal
