import Verif.Py
import Mathlib.Algebra.Order.Field.Rat
import Mathlib.Data.List.Basic

/-!
# Bulk generation of single-site systems — property C31

Model of `single_site_system_generator` in src/mrsimulator/utils/collection.py. Validation of the
values by the classes Site and SpinSystem is not modelled.
-/

namespace MRS.Coll

/-- An argument: a single value or a list (raveled array) of values (collection.py lines 14-156). -/
inductive Inp (α : Type)
  | one (a : α)
  | many (l : List α)

/-- `_get_length` (lines 231-235). -/
def Inp.len {α} : Inp α → Nat
  | .one _ => 0
  | .many l => l.length

/-- `_get_default_lists` (lines 218-222). -/
def Inp.expand {α} (n : Nat) : Inp α → List α
  | .one a => List.replicate n a
  | .many l => l

/-- SHIELDING_SYM_PARAMS (line 10). -/
def shieldKeys : List String := ["zeta", "eta", "alpha", "beta", "gamma"]

/-- QUADRUPOLAR_PARAMS (line 11). -/
def quadKeys : List String := ["Cq", "eta", "alpha", "beta", "gamma"]

/-- A tensor argument: what is given for each key (collection.py lines 159-190). -/
abbrev TInp := String → Option (Inp ℚ)

/-- The arguments (lines 14-24). -/
structure Args where
  isotopes : Inp String
  shifts : Inp ℚ
  shielding : Option TInp
  quadrupolar : Option TInp
  abundance : Option (Inp ℚ)
  labels : Inp (Option String)
  names : Inp (Option String)
  descriptions : Inp (Option String)
  rtol : ℚ

/-- A single-site spin system (collection.py lines 113-134). -/
structure Sys where
  isotope : String
  shift : ℚ
  label : Option String
  name : Option String
  description : Option String
  abundance : ℚ
  shielding : Option (List (String × Option ℚ))
  quadrupolar : Option (List (String × Option ℚ))
  deriving DecidableEq, Repr

/-- The lengths of the entries of a tensor (lines 159-173, 176-190). -/
def tensLens (keys : List String) : Option TInp → List Nat
  | none => []
  | some t => keys.filterMap fun k => (t k).map Inp.len

/-- All lengths (lines 85-96). -/
def lens (a : Args) : List Nat :=
  [a.isotopes.len, a.shifts.len] ++ tensLens shieldKeys a.shielding ++
    tensLens quadKeys a.quadrupolar ++
    [(a.abundance.map Inp.len).getD 0, a.labels.len, a.names.len, a.descriptions.len]

/-- `_check_size` (lines 238-248). -/
def checkSize (l : List Nat) : Py Nat :=
  match l.filter (0 < ·) with
  | [] => .error .indexError
  | n :: r => if (n :: r).all (· == n) then .ok n else .error .valueError

/-- `arr[index]` for an array of indices (collection.py lines 111-156). -/
def takeIdx {α} (arr : List α) : List Nat → Py (List α)
  | [] => .ok []
  | i :: l => match arr[i]?, takeIdx arr l with
    | some a, .ok r => .ok (a :: r)
    | none, _ => .error .indexError
    | _, .error e => .error e

/-- `arr.max()` (collection.py line 111). -/
def maxOf : List ℚ → Py ℚ
  | [] => .error .valueError
  | a :: l => .ok (l.foldl max a)

/-- The columns of a tensor (lines 134-139, 144-149): the given entries at the indices, None
otherwise. -/
def tensCols (t : TInp) (n : Nat) (index : List Nat) :
    List String → Py (List (String × List (Option ℚ)))
  | [] => .ok []
  | k :: keys =>
    match (match t k with
      | some x => (takeIdx (x.expand n) index).map (List.map some)
      | none => .ok (List.replicate index.length none)), tensCols t n index keys with
    | .ok c, .ok r => .ok ((k, c) :: r)
    | .error e, _ => .error e
    | _, .error e => .error e

/-- Row `i` of the columns: the dictionary assigned to system `i` (lines 197-203, 209-215). -/
def rowOf (cols : List (String × List (Option ℚ))) (i : Nat) : List (String × Option ℚ) :=
  cols.map fun c => (c.1, (c.2[i]?).getD none)

/-- The systems without tensors (lines 114-131): `zip` over the columns. -/
def zipSys : List String → List ℚ → List (Option String) → List (Option String) →
    List (Option String) → List ℚ → List Sys
  | i :: is, s :: ss, l :: ls, m :: ms, d :: ds, a :: as =>
    ⟨i, s, l, m, d, a, none, none⟩ :: zipSys is ss ls ms ds as
  | _, _, _, _, _, _ => []

/-- Setting the tensors of the systems (lines 193-215); `big` says whether the spin of the
isotope is larger than 1/2. There are as many rows as systems. -/
def populate (big : String → Bool) (sh qu : Option (List (String × List (Option ℚ))))
    (l : List Sys) : List Sys :=
  l.mapIdx fun i s => { s with
    shielding := sh.map fun c => rowOf c i
    quadrupolar := if big s.isotope then qu.map fun c => rowOf c i else none }

/-- Columns of an optional tensor (collection.py lines 159-190). -/
def optCols (t : Option TInp) (n : Nat) (index : List Nat) (keys : List String) :
    Py (Option (List (String × List (Option ℚ)))) :=
  match t with
  | none => .ok none
  | some t => (tensCols t n index keys).map some

/-- `single_site_system_generator` (lines 14-156). -/
def generate (big : String → Bool) (a : Args) : Py (List Sys) := do
  let n ← checkSize (lens a)
  let ab := ((a.abundance.getD (.one (1 / n))).expand n)
  let m ← maxOf ab
  let index := (List.range ab.length).filter fun i => a.rtol * m < (ab[i]?).getD 0
  let is ← takeIdx (a.isotopes.expand n) index
  let ss ← takeIdx (a.shifts.expand n) index
  let ls ← takeIdx (a.labels.expand n) index
  let ms ← takeIdx (a.names.expand n) index
  let ds ← takeIdx (a.descriptions.expand n) index
  let as ← takeIdx ab index
  let sh ← optCols a.shielding n index shieldKeys
  let qu ← optCols a.quadrupolar n index quadKeys
  return populate big sh qu (zipSys is ss ls ms ds as)

/-! ## Specification -/

/-- The entry for system `i`: scalars are repeated. -/
def Spec.at {α} (d : α) (x : Inp α) (i : Nat) : α :=
  match x with
  | .one a => a
  | .many l => (l[i]?).getD d

/-- The abundance of system `i` out of `n`. -/
def Spec.abundance (a : Args) (n i : Nat) : ℚ :=
  match a.abundance with
  | none => 1 / n
  | some x => Spec.at 0 x i

/-- The tensor of system `i`. -/
def Spec.tens (keys : List String) (t : Option TInp) (i : Nat) :
    Option (List (String × Option ℚ)) :=
  t.map fun t => keys.map fun k => (k, (t k).map fun x => Spec.at 0 x i)

/-- System `i` out of `n`. -/
def Spec.system (big : String → Bool) (a : Args) (n i : Nat) : Sys where
  isotope := Spec.at "" a.isotopes i
  shift := Spec.at 0 a.shifts i
  label := Spec.at none a.labels i
  name := Spec.at none a.names i
  description := Spec.at none a.descriptions i
  abundance := Spec.abundance a n i
  shielding := Spec.tens shieldKeys a.shielding i
  quadrupolar := if big (Spec.at "" a.isotopes i) then Spec.tens quadKeys a.quadrupolar i else none

/-- Every list has length `n`. -/
def Spec.Fits {α} (n : Nat) (x : Inp α) : Prop := ∀ l, x = .many l → l.length = n

/-- Every list among the arguments has length `n`. -/
structure Spec.AllFit (a : Args) (n : Nat) : Prop where
  isotopes : Spec.Fits n a.isotopes
  shifts : Spec.Fits n a.shifts
  labels : Spec.Fits n a.labels
  names : Spec.Fits n a.names
  descriptions : Spec.Fits n a.descriptions
  abundance : ∀ x, a.abundance = some x → Spec.Fits n x
  shielding : ∀ t, a.shielding = some t → ∀ k ∈ shieldKeys, ∀ x, t k = some x → Spec.Fits n x
  quadrupolar : ∀ t, a.quadrupolar = some t → ∀ k ∈ quadKeys, ∀ x, t k = some x → Spec.Fits n x

/-! ## Lemmas -/

theorem expand_length {α} (n : Nat) (x : Inp α) (h : Spec.Fits n x) : (x.expand n).length = n := by
  cases x with
  | one a => simp [Inp.expand]
  | many l => exact h l rfl

theorem expand_get {α} (d : α) (n i : Nat) (x : Inp α) (h : Spec.Fits n x) (hi : i < n) :
    (x.expand n)[i]? = some (Spec.at d x i) := by
  cases x with
  | one a => simp [Inp.expand, Spec.at, hi]
  | many l =>
    have := h l rfl
    simp only [Inp.expand, Spec.at]
    rw [List.getElem?_eq_getElem (by omega)]
    rfl

theorem takeIdx_spec {α} (d : α) (n : Nat) (x : Inp α) (h : Spec.Fits n x) (index : List Nat)
    (hi : ∀ i ∈ index, i < n) : takeIdx (x.expand n) index = .ok (index.map (Spec.at d x)) := by
  induction index with
  | nil => rfl
  | cons i index ih =>
    rw [takeIdx, expand_get d n i x h (hi i (by simp)),
      ih (fun j hj => hi j (List.mem_cons_of_mem _ hj))]
    rfl

theorem tensCols_spec (t : TInp) (n : Nat) (index : List Nat) (hi : ∀ i ∈ index, i < n)
    (keys : List String) (h : ∀ k ∈ keys, ∀ x, t k = some x → Spec.Fits n x) :
    tensCols t n index keys =
      .ok (keys.map fun k => (k, index.map fun i => (t k).map fun x => Spec.at 0 x i)) := by
  induction keys with
  | nil => rfl
  | cons k keys ih =>
    rw [tensCols, ih (fun k' hk' => h k' (List.mem_cons_of_mem _ hk'))]
    cases ht : t k with
    | none =>
      simp only [Option.map_none, List.map_cons, ht]
      congr 3
      simp
    | some x =>
      simp only
      rw [takeIdx_spec 0 n x (h k (by simp) x ht) index hi]
      simp [Except.map, ht, Function.comp_def]

theorem optCols_spec (t : Option TInp) (n : Nat) (index : List Nat) (hi : ∀ i ∈ index, i < n)
    (keys : List String)
    (h : ∀ t', t = some t' → ∀ k ∈ keys, ∀ x, t' k = some x → Spec.Fits n x) :
    optCols t n index keys = .ok (t.map fun t =>
      keys.map fun k => (k, index.map fun i => (t k).map fun x => Spec.at 0 x i)) := by
  cases t with
  | none => rfl
  | some t =>
    unfold optCols
    simp only
    rw [tensCols_spec t n index hi keys (h t rfl)]
    rfl

theorem zipSys_spec (index : List Nat) (fi : Nat → String) (fs : Nat → ℚ)
    (fl fm fd : Nat → Option String) (fa : Nat → ℚ) :
    zipSys (index.map fi) (index.map fs) (index.map fl) (index.map fm) (index.map fd)
      (index.map fa) = index.map fun i => ⟨fi i, fs i, fl i, fm i, fd i, fa i, none, none⟩ := by
  induction index with
  | nil => rfl
  | cons i index ih => simp [zipSys, ih]

theorem rowOf_spec (keys : List String) (t : TInp) (index : List Nat) (j : Nat) (i : Nat)
    (hj : index[j]? = some i) :
    rowOf (keys.map fun k => (k, index.map fun i => (t k).map fun x => Spec.at 0 x i)) j =
      keys.map fun k => (k, (t k).map fun x => Spec.at 0 x i) := by
  unfold rowOf
  rw [List.map_map]
  apply List.map_congr_left
  intro k _
  simp [hj]

theorem foldl_max (l : List ℚ) (a : ℚ) :
    (l.foldl max a = a ∨ l.foldl max a ∈ l) ∧ a ≤ l.foldl max a ∧ ∀ x ∈ l, x ≤ l.foldl max a := by
  induction l generalizing a with
  | nil => simp
  | cons b l ih =>
    rw [List.foldl_cons]
    obtain ⟨h1, h2, h3⟩ := ih (max a b)
    refine ⟨?_, le_trans (le_max_left _ _) h2, ?_⟩
    · rcases h1 with h1 | h1
      · rw [h1]
        rcases max_choice a b with h | h
        · left; exact h
        · right; rw [h]; simp
      · right; exact List.mem_cons_of_mem _ h1
    · intro x hx
      rcases List.mem_cons.mp hx with rfl | hx
      · exact le_trans (le_max_right _ _) h2
      · exact h3 x hx

theorem checkSize_ok (l : List Nat) (n : Nat) (h1 : ∀ m ∈ l, m = 0 ∨ m = n) (h2 : n ∈ l)
    (hn : 0 < n) : checkSize l = .ok n := by
  unfold checkSize
  have hall : ∀ m ∈ l.filter (0 < ·), m = n := by
    intro m hm
    rw [List.mem_filter] at hm
    rcases h1 m hm.1 with h | h
    · simp [h] at hm
    · exact h
  have hmem : n ∈ l.filter (0 < ·) := List.mem_filter.mpr ⟨h2, by simpa using hn⟩
  cases hf : l.filter (0 < ·) with
  | nil => rw [hf] at hmem; simp at hmem
  | cons m r =>
    rw [hf] at hall
    have hm := hall m (by simp)
    subst hm
    simp only
    rw [if_pos]
    rw [List.all_eq_true]
    intro x hx
    simpa using hall x hx

theorem fits_len {α} (n : Nat) (x : Inp α) (h : Spec.Fits n x) : x.len = 0 ∨ x.len = n := by
  cases x with
  | one a => left; rfl
  | many l => right; exact h l rfl

theorem tensLens_fit (keys : List String) (t : Option TInp) (n : Nat)
    (h : ∀ t', t = some t' → ∀ k ∈ keys, ∀ x, t' k = some x → Spec.Fits n x) (m : Nat)
    (hm : m ∈ tensLens keys t) : m = 0 ∨ m = n := by
  cases t with
  | none => simp [tensLens] at hm
  | some t =>
    simp only [tensLens, List.mem_filterMap, Option.map_eq_some_iff] at hm
    obtain ⟨k, hk, x, hx, rfl⟩ := hm
    exact fits_len n x (h t rfl k hk x hx)

/-- **C31.** If every list among the arguments has the same length `n`, and there is a list:
with `m` the largest of the `n` abundances, the result is, in order, for each index whose
abundance exceeds `rtol * m`, the system built from the entries of all arguments at that index. -/
theorem C31_aligned (big : String → Bool) (a : Args) (n : Nat) (hn : 0 < n)
    (hf : Spec.AllFit a n) (hl : n ∈ lens a) :
    ∃ m, (∃ i < n, Spec.abundance a n i = m) ∧ (∀ i < n, Spec.abundance a n i ≤ m) ∧
      generate big a = .ok (((List.range n).filter fun i => a.rtol * m < Spec.abundance a n i).map
        (Spec.system big a n)) := by
  have hsize : checkSize (lens a) = .ok n := by
    apply checkSize_ok _ _ _ hl hn
    intro m hm
    unfold lens at hm
    simp only [List.mem_append, List.mem_cons, List.not_mem_nil, or_false] at hm
    rcases hm with (((h | h) | h) | h) | h | h | h | h
    · rw [h]; exact fits_len n _ hf.isotopes
    · rw [h]; exact fits_len n _ hf.shifts
    · exact tensLens_fit _ _ n hf.shielding m h
    · exact tensLens_fit _ _ n hf.quadrupolar m h
    · rw [h]
      cases hab : a.abundance with
      | none => left; rfl
      | some x => exact fits_len n x (hf.abundance x hab)
    · rw [h]; exact fits_len n _ hf.labels
    · rw [h]; exact fits_len n _ hf.names
    · rw [h]; exact fits_len n _ hf.descriptions
  have habfit : Spec.Fits n (a.abundance.getD (.one (1 / (n : ℚ)))) := by
    cases hab : a.abundance with
    | none => intro l hl'; simp at hl'
    | some x => exact hf.abundance x hab
  have hspec : ∀ i, Spec.at 0 (a.abundance.getD (.one (1 / (n : ℚ)))) i = Spec.abundance a n i := by
    intro i
    unfold Spec.abundance
    cases a.abundance <;> rfl
  have hlen := expand_length n _ habfit
  have hget : ∀ i, i < n → ((a.abundance.getD (.one (1 / (n : ℚ)))).expand n)[i]? =
      some (Spec.abundance a n i) := by
    intro i hi
    rw [expand_get 0 n i _ habfit hi, hspec]
  generalize hX : a.abundance.getD (.one (1 / (n : ℚ))) = X at habfit hspec hlen hget
  obtain ⟨m, hmax, hm1, hm2⟩ : ∃ m, maxOf (X.expand n) = .ok m ∧
      (∃ i < n, Spec.abundance a n i = m) ∧ (∀ i < n, Spec.abundance a n i ≤ m) := by
    cases hx : X.expand n with
    | nil => rw [hx] at hlen; simp at hlen; omega
    | cons b l =>
      obtain ⟨h1, h2, h3⟩ := foldl_max l b
      have hmem : ∀ x, x ∈ X.expand n ↔ ∃ i < n, Spec.abundance a n i = x := by
        intro x
        rw [List.mem_iff_getElem?]
        constructor
        · rintro ⟨i, hi⟩
          have hin : i < n := by
            rw [← hlen]
            exact (List.getElem?_eq_some_iff.mp hi).1
          rw [hget i hin] at hi
          exact ⟨i, hin, by injection hi⟩
        · rintro ⟨i, hin, rfl⟩
          exact ⟨i, hget i hin⟩
      refine ⟨l.foldl max b, rfl, ?_, ?_⟩
      · rw [← hmem, hx]
        rcases h1 with h1 | h1
        · rw [h1]; simp
        · exact List.mem_cons_of_mem _ h1
      · intro i hi
        have := (hmem _).mpr ⟨i, hi, rfl⟩
        rw [hx] at this
        rcases List.mem_cons.mp this with h | h
        · rw [h]; exact h2
        · exact h3 _ h
  refine ⟨m, hm1, hm2, ?_⟩
  have hindex : ((List.range (X.expand n).length).filter fun i =>
      decide (a.rtol * m < ((X.expand n)[i]?).getD 0)) =
      (List.range n).filter fun i => decide (a.rtol * m < Spec.abundance a n i) := by
    rw [hlen]
    apply List.filter_congr
    intro i hi
    rw [hget i (List.mem_range.mp hi)]
    rfl
  have hlt : ∀ i ∈ (List.range n).filter fun i => decide (a.rtol * m < Spec.abundance a n i),
      i < n := by
    intro i hi
    exact List.mem_range.mp (List.mem_filter.mp hi).1
  unfold generate
  rw [hsize]
  simp only [bind, Except.bind, pure, Except.pure, hX]
  rw [hmax]
  simp only
  rw [hindex]
  generalize (List.range n).filter (fun i => decide (a.rtol * m < Spec.abundance a n i)) = index
    at hlt
  rw [takeIdx_spec "" n _ hf.isotopes index hlt, takeIdx_spec 0 n _ hf.shifts index hlt,
    takeIdx_spec none n _ hf.labels index hlt, takeIdx_spec none n _ hf.names index hlt,
    takeIdx_spec none n _ hf.descriptions index hlt, takeIdx_spec 0 n _ habfit index hlt]
  simp only
  rw [optCols_spec _ n index hlt _ hf.shielding, optCols_spec _ n index hlt _ hf.quadrupolar]
  simp only
  rw [zipSys_spec]
  congr 1
  unfold populate
  apply List.ext_getElem?
  intro j
  rw [List.getElem?_mapIdx, List.getElem?_map, List.getElem?_map]
  cases hj : index[j]? with
  | none => rfl
  | some i =>
    simp only [Option.map_some, Option.some.injEq]
    unfold Spec.system Spec.tens
    simp only [hspec]
    congr 1
    · cases a.shielding with
      | none => rfl
      | some t =>
        simp only [Option.map_some, Option.some.injEq]
        exact rowOf_spec shieldKeys t index j i hj
    · cases a.quadrupolar with
      | none => rfl
      | some t =>
        simp only [Option.map_some]
        rw [rowOf_spec quadKeys t index j i hj]

/-- **C31, rejection.** Lists of different lengths (empty ones apart) are rejected. -/
theorem C31_rejects (big : String → Bool) (a : Args) (n m : Nat) (hn : n ∈ lens a)
    (hm : m ∈ lens a) (hn0 : 0 < n) (hm0 : 0 < m) (h : n ≠ m) :
    generate big a = .error .valueError := by
  have : checkSize (lens a) = .error .valueError := by
    unfold checkSize
    have h1 : n ∈ (lens a).filter (0 < ·) := List.mem_filter.mpr ⟨hn, by simpa using hn0⟩
    have h2 : m ∈ (lens a).filter (0 < ·) := List.mem_filter.mpr ⟨hm, by simpa using hm0⟩
    cases hf : (lens a).filter (0 < ·) with
    | nil => rw [hf] at h1; simp at h1
    | cons x r =>
      simp only
      rw [if_neg]
      rw [List.all_eq_true]
      intro hall
      rw [hf] at h1 h2
      have e1 : n = x := by simpa using hall n h1
      have e2 : m = x := by simpa using hall m h2
      exact h (e1.trans e2.symm)
  unfold generate
  rw [this]
  rfl

/-- **C31, disagreement.** If no argument is a non-empty list, no system is made: the size check
fails with an IndexError, although a single value is a documented argument. -/
theorem C31_scalars (big : String → Bool) (a : Args) (h : ∀ n ∈ lens a, n = 0) :
    generate big a = .error .indexError := by
  have hf : (lens a).filter (0 < ·) = [] := by
    rw [List.filter_eq_nil_iff]
    intro n hn
    simp [h n hn]
  unfold generate checkSize
  rw [hf]
  rfl

/-- Three systems, the second of negligible abundance. -/
def exampleArgs : Args where
  isotopes := .many ["29Si", "1H", "27Al"]
  shifts := .many [1, 2, 3]
  shielding := some fun k => if k = "zeta" then some (.many [10, 20, 30])
    else if k = "eta" then some (.one (1 / 2)) else none
  quadrupolar := some fun k => if k = "Cq" then some (.many [4, 5, 6]) else none
  abundance := some (.many [50, 0, 50])
  labels := .one none
  names := .many [some "a", some "b", some "c"]
  descriptions := .one none
  rtol := 1 / 1000

example : Spec.AllFit exampleArgs 3 ∧ 3 ∈ lens exampleArgs := by
  refine ⟨⟨?_, ?_, ?_, ?_, ?_, ?_, ?_, ?_⟩, by decide +kernel⟩
  · intro l h; injection h with h; subst h; rfl
  · intro l h; injection h with h; subst h; rfl
  · intro l h; cases h
  · intro l h; injection h with h; subst h; rfl
  · intro l h; cases h
  · intro x hx l h; injection hx with hx; subst hx; injection h with h; subst h; rfl
  · intro t ht k _ x hx l h
    injection ht with ht; subst ht
    simp only at hx
    split_ifs at hx
    · injection hx with hx; subst hx; injection h with h; subst h; rfl
    · injection hx with hx; subst hx; cases h
  · intro t ht k _ x hx l h
    injection ht with ht; subst ht
    simp only at hx
    split_ifs at hx
    injection hx with hx; subst hx; injection h with h; subst h; rfl

example : (generate (· == "27Al") exampleArgs).map (fun l => l.map fun s =>
      (s.isotope, s.shift, s.name, s.quadrupolar.isSome)) =
    .ok [("29Si", 1, some "a", false), ("27Al", 3, some "c", true)] := by decide +kernel

example : ∀ n ∈ lens ⟨.one "1H", .one 0, none, none, none, .one none, .one none, .one none, 0⟩,
    n = 0 := by decide +kernel

end MRS.Coll
