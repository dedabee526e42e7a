import Verif.Py
import Mathlib.Algebra.BigOperators.Group.List.Basic
import Mathlib.Algebra.Order.Field.Rat
import Mathlib.Tactic.Linarith

/-!
# Methods that compare equal — property C111

`Method.__eq__` (src/mrsimulator/method/__init__.py:152-167) compares affine matrices with `np.all(a == b)`, where numpy broadcasts arrays of
different shapes; the outcome is False if they do not fit (numpy below 1.20, as in requirements.txt). The affine matrix is kept in the shape in which it is given (190-201), and flattened only by the simulation
(base_model.pyx:184-192). A simulation that is an array makes the comparison an array too.
-/

namespace MRS.Meth

/-- A numpy array: its shape, the last axis first, and its entries in the order of `ravel` (the last axis runs fastest). -/
structure Arr where
  shape : List ℕ
  data : List ℚ
  deriving DecidableEq

/-- numpy's broadcasting of two shapes: axes are compared from the last one, and those of length one, or missing, take the length of the other. -/
def bShape : List ℕ → List ℕ → Option (List ℕ)
  | [], t => some t
  | s, [] => some s
  | a :: s, b :: t =>
    if a = b then (bShape s t).map (a :: ·)
    else if a = 1 then (bShape s t).map (b :: ·)
    else if b = 1 then (bShape s t).map (a :: ·)
    else none

/-- All multi-indices of a shape. -/
def indices : List ℕ → List (List ℕ)
  | [] => [[]]
  | a :: s => (indices s).flatMap fun r => (List.range a).map fun i => i :: r

/-- The place of the entry that belongs to a multi-index; axes of length one are repeated. -/
def place : List ℕ → List ℕ → ℕ
  | [], _ => 0
  | _, [] => 0
  | a :: s, i :: r => (if a = 1 then 0 else i) + a * place s r

/-- What `==` gives when an array is involved: one truth value, or one for every entry (numpy; needed for method/__init__.py:152-167). -/
inductive Cmp
  | one (b : Bool)
  | many (l : List Bool)
  deriving DecidableEq

/-- `np.all` of the outcome of one comparison (method/__init__.py:161). -/
def npAll : Cmp → Bool
  | .one b => b
  | .many l => l.all id

/-- The truth value of the outcome of a comparison, as `if` and `and` take it. That of an array with several entries is a `ValueError`;
an empty array is False (numpy below 1.20, which the requirements ask for). -/
def truth : Cmp → Py Bool
  | .one b => .ok b
  | .many [] => .ok false
  | .many [b] => .ok b
  | .many (_ :: _ :: _) => .error .valueError

/-- `a == b` for two arrays. Shapes that do not fit give False (numpy below 1.20; since 1.25 a `ValueError`). -/
def arrCmp (a b : Arr) : Cmp :=
  match bShape a.shape b.shape with
  | none => .one false
  | some u => .many ((indices u).map fun x => decide (a.data[place a.shape x]? = b.data[place b.shape x]?))

/-- `a == None` for an array: False for every entry (numpy; needed for method/__init__.py:161-162). -/
def arrNone (a : Arr) : Cmp := .many (a.data.map fun _ => false)

/-- `np.all(self.affine_matrix == other.affine_matrix)` (method/__init__.py:161). -/
def affineEq : Option Arr → Option Arr → Bool
  | none, none => true
  | some a, some b => npAll (arrCmp a b)
  | some a, none => npAll (arrNone a)
  | none, some b => npAll (arrNone b)

/-- The attribute `simulation` (method/__init__.py:132, 182-186): a CSDM object, or the array that `run(pack_as_csdm=False)` leaves there
(simulator/__init__.py:475-479). -/
inductive Result (S : Type)
  | csdm (s : S)
  | array (a : Arr)
  deriving DecidableEq

/-- The fields of a method (method/__init__.py:126-133) whose spectral dimensions and CSDM datasets are compared by the `__eq__` of their classes,
here that of the types `D` and `S`. An experiment is never an array (169-180). -/
structure MethodObj (D S : Type) where
  name : Option String
  label : Option String
  description : Option String
  channels : List String
  dims : List D
  affine : Option Arr
  simulation : Option (Result S)
  experiment : Option S
  deriving DecidableEq

/-- method/__init__.py:190-201 `validate_affine_matrix`: any shape will do, if the number of entries is right. -/
def validateShaped (n : ℕ) (v : Arr) : Py Arr :=
  if v.data.length ≠ n ^ 2 then .error .valueError
  else if v.data[0]? = some 0 then .error .valueError
  else .ok v

variable {D S : Type} [DecidableEq D] [DecidableEq S]

/-- `self.simulation == other.simulation` (method/__init__.py:162). A CSDM object is equal to CSDM objects only; what numpy makes of an array and a CSDM
object is left open, `mix`. -/
def resultCmp (mix : Arr → S → Cmp) : Option (Result S) → Option (Result S) → Cmp
  | none, none => .one true
  | some (.csdm s), some (.csdm t) => .one (decide (s = t))
  | some (.array a), some (.array b) => arrCmp a b
  | some (.array a), some (.csdm s) => mix a s
  | some (.array a), none => arrNone a
  | none, some (.array b) => arrNone b
  | _, _ => .one false

/-- `np.all(check)` for a list of outcomes, some of which may be arrays (method/__init__.py:165): such a list makes an array of objects, which
are joined by `and` from the first to the last. -/
def allOf : List Cmp → Py Bool
  | [] => .ok true
  | c :: rest =>
    match truth c with
    | .error e => .error e
    | .ok false => .ok false
    | .ok true => allOf rest

/-- method/__init__.py:152-167 `Method.__eq__`. -/
def methodEq (mix : Arr → S → Cmp) (a b : MethodObj D S) : Py Bool :=
  allOf [.one (decide (a.name = b.name)), .one (decide (a.label = b.label)), .one (decide (a.description = b.description)),
    .one (decide (a.channels = b.channels)), .one (decide (a.dims = b.dims)), .one (affineEq a.affine b.affine),
    resultCmp mix a.simulation b.simulation, .one (decide (a.experiment = b.experiment))]

/-! ## Specification -/

/-- An array has as many entries as its shape says. -/
def Spec.Proper (a : Arr) : Prop := a.data.length = a.shape.prod

/-- The documented ways to give the matrix: `n` rows of `n`, or (as the methods of the library do) all entries in one list. -/
def Spec.Documented (n : ℕ) (a : Arr) : Prop := Spec.Proper a ∧ (a.shape = [n, n] ∨ a.shape = [n * n])

/-- What a simulation reads from a method. -/
def Spec.reads (a : MethodObj D S) : List String × List D × Option (List ℚ) := (a.channels, a.dims, a.affine.map Arr.data)

/-- The affine matrix, if there is one, is given as documented for the dimensions of the method. -/
def Spec.Usual (a : MethodObj D S) : Prop := 1 ≤ a.dims.length ∧ ∀ m, a.affine = some m → Spec.Documented a.dims.length m

/-- The method has no simulation that is an array. -/
def Spec.Packed (a : MethodObj D S) : Prop := ∀ r, a.simulation ≠ some (.array r)

/-- Methods that agree in everything; matrices of several dimensions also in the way they are written. -/
structure Spec.Agree (a b : MethodObj D S) : Prop where
  reads : Spec.reads a = Spec.reads b
  written : 2 ≤ a.dims.length → a.affine.map Arr.shape = b.affine.map Arr.shape
  text : a.name = b.name ∧ a.label = b.label ∧ a.description = b.description
  data : a.simulation = b.simulation ∧ a.experiment = b.experiment

/-! ## Lemmas -/

theorem bShape_self (s : List ℕ) : bShape s s = some s := by
  induction s with
  | nil => rfl
  | cons a s ih => simp [bShape, ih]

/-- Every entry has a multi-index. -/
theorem place_surj (s : List ℕ) (k : ℕ) (hk : k < s.prod) : ∃ x ∈ indices s, place s x = k := by
  induction s generalizing k with
  | nil =>
    refine ⟨[], by simp [indices], ?_⟩
    simp only [List.prod_nil] at hk
    unfold place
    omega
  | cons a s ih =>
    rw [List.prod_cons] at hk
    have ha : 0 < a := by
      rcases Nat.eq_zero_or_pos a with h | h
      · subst h
        simp at hk
      · exact h
    obtain ⟨r, hr, hp⟩ := ih (k / a) (by rw [Nat.div_lt_iff_lt_mul ha]; linarith [mul_comm a s.prod])
    refine ⟨(k % a) :: r, ?_, ?_⟩
    · simp only [indices, List.mem_flatMap, List.mem_map, List.mem_range]
      exact ⟨r, hr, k % a, Nat.mod_lt _ ha, rfl⟩
    · simp only [place, hp]
      have := Nat.mod_add_div k a
      split_ifs with h1
      · subst h1
        omega
      · exact this

/-- For arrays of one shape all entries are compared. -/
theorem arrCmp_same (a b : Arr) (hs : a.shape = b.shape) (ha : Spec.Proper a) (hb : Spec.Proper b) : npAll (arrCmp a b) = true ↔ a.data = b.data := by
  unfold arrCmp
  rw [← hs, bShape_self]
  simp only [npAll, List.all_map, List.all_eq_true, Function.comp, id, decide_eq_true_eq]
  constructor
  · intro h
    refine List.ext_getElem? fun k => ?_
    by_cases hk : k < a.shape.prod
    · obtain ⟨x, hx, rfl⟩ := place_surj a.shape k hk
      exact h x hx
    · rw [List.getElem?_eq_none, List.getElem?_eq_none]
      · rw [hb, ← hs]; omega
      · rw [ha]; omega
  · intro h x _
    rw [h]

/-- An n by n array is not equal to a flat one, but for n = 1. -/
theorem arrCmp_mixed (n : ℕ) (a b : Arr) (ha : Spec.Proper a) (hb : Spec.Proper b) (h : (a.shape = [n, n] ∧ b.shape = [n * n]) ∨
    (a.shape = [n * n] ∧ b.shape = [n, n])) (hn : 1 ≤ n) : npAll (arrCmp a b) = true ↔ n = 1 ∧ a.data = b.data := by
  by_cases h1 : n = 1
  · subst h1
    have la : a.data.length = 1 := by
      rw [ha]
      rcases h with ⟨p, q⟩ | ⟨p, q⟩ <;> rw [p] <;> rfl
    have lb : b.data.length = 1 := by
      rw [hb]
      rcases h with ⟨p, q⟩ | ⟨p, q⟩ <;> rw [q] <;> rfl
    obtain ⟨x, hx⟩ := List.length_eq_one_iff.mp la
    obtain ⟨y, hy⟩ := List.length_eq_one_iff.mp lb
    unfold arrCmp
    rcases h with ⟨p, q⟩ | ⟨p, q⟩
    · rw [p, q, hx, hy]
      simp [bShape, indices, place, npAll]
    · rw [p, q, hx, hy]
      simp [bShape, indices, place, npAll]
  · have h2 : n * n ≠ n := fun h => h1 (by
      have : n * n = n * 1 := by omega
      exact Nat.eq_of_mul_eq_mul_left (by omega) this)
    have h3 : n * n ≠ 1 := fun h => h1 (Nat.eq_one_of_mul_eq_one_left h)
    unfold arrCmp
    rcases h with ⟨p, q⟩ | ⟨p, q⟩
    · rw [p, q]
      simp [bShape, h1, h3, h2.symm, npAll]
    · rw [p, q]
      simp [bShape, h1, h2, h3, npAll]

theorem arrNone_false (a : Arr) (h : a.data ≠ []) : npAll (arrNone a) = false := by
  unfold arrNone npAll
  cases e : a.data with
  | nil => exact absurd e h
  | cons x l => rfl

theorem documented_nonempty (n : ℕ) (hn : 1 ≤ n) (a : Arr) (h : Spec.Documented n a) : a.data ≠ [] := by
  intro e
  have := h.1
  unfold Spec.Proper at this
  rw [e] at this
  have pos : 0 < n * n := Nat.mul_pos hn hn
  rcases h.2 with s | s <;> rw [s] at this <;> simp at this <;> omega

/-- The comparison of matrices given as documented. -/
theorem affineEq_iff (n : ℕ) (hn : 1 ≤ n) (a b : Option Arr) (ha : ∀ m, a = some m → Spec.Documented n m)
    (hb : ∀ m, b = some m → Spec.Documented n m) :
    affineEq a b = true ↔ a.map Arr.data = b.map Arr.data ∧ (2 ≤ n → a.map Arr.shape = b.map Arr.shape) := by
  cases a with
  | none =>
    cases b with
    | none => simp [affineEq]
    | some b => simp [affineEq, arrNone_false b (documented_nonempty n hn b (hb b rfl))]
  | some a =>
    cases b with
    | none => simp [affineEq, arrNone_false a (documented_nonempty n hn a (ha a rfl))]
    | some b =>
      obtain ⟨p1, s1⟩ := ha a rfl
      obtain ⟨p2, s2⟩ := hb b rfl
      have big : 2 ≤ n → n * n ≠ n ∧ [n, n] ≠ [n * n] := fun h => ⟨by nlinarith, by simp⟩
      simp only [affineEq, Option.map_some, Option.some.injEq]
      rcases s1 with s1 | s1 <;> rcases s2 with s2 | s2
      · rw [arrCmp_same a b (s1.trans s2.symm) p1 p2, s1, s2]
        simp
      · rw [arrCmp_mixed n a b p1 p2 (Or.inl ⟨s1, s2⟩) hn, s1, s2]
        constructor
        · rintro ⟨h, e⟩
          exact ⟨e, fun h2 => by omega⟩
        · rintro ⟨e, h⟩
          refine ⟨?_, e⟩
          by_contra h1
          simpa using h (by omega)
      · rw [arrCmp_mixed n a b p1 p2 (Or.inr ⟨s1, s2⟩) hn, s1, s2]
        constructor
        · rintro ⟨h, e⟩
          exact ⟨e, fun h2 => by omega⟩
        · rintro ⟨e, h⟩
          refine ⟨?_, e⟩
          by_contra h1
          simpa using h (by omega)
      · rw [arrCmp_same a b (s1.trans s2.symm) p1 p2, s1, s2]
        simp

theorem allOf_one (b : Bool) (r : List Cmp) : allOf (.one b :: r) = if b then allOf r else .ok false := by
  cases b <;> rfl

/-- All comparisons before the simulation are true. -/
def before (a b : MethodObj D S) : Prop :=
  a.name = b.name ∧ a.label = b.label ∧ a.description = b.description ∧ a.channels = b.channels ∧ a.dims = b.dims ∧
    affineEq a.affine b.affine = true

instance (a b : MethodObj D S) : Decidable (before a b) := by unfold before; infer_instance

theorem methodEq_split (mix : Arr → S → Cmp) (a b : MethodObj D S) : methodEq mix a b =
    if before a b then allOf [resultCmp mix a.simulation b.simulation, .one (decide (a.experiment = b.experiment))] else .ok false := by
  unfold methodEq before
  simp only [allOf_one]
  by_cases h1 : a.name = b.name <;> by_cases h2 : a.label = b.label <;> by_cases h3 : a.description = b.description <;>
    by_cases h4 : a.channels = b.channels <;> by_cases h5 : a.dims = b.dims <;> by_cases h6 : affineEq a.affine b.affine = true <;>
    simp only [h1, h2, h3, h4, h5, h6, decide_true, decide_false, if_true, if_false, and_true, true_and, and_false, false_and, Bool.false_eq_true,
      and_self]

theorem before_iff (a b : MethodObj D S) (ha : Spec.Usual a) (hb : Spec.Usual b) : before a b ↔
    Spec.reads a = Spec.reads b ∧ (2 ≤ a.dims.length → a.affine.map Arr.shape = b.affine.map Arr.shape) ∧
      (a.name = b.name ∧ a.label = b.label ∧ a.description = b.description) := by
  unfold before Spec.reads
  simp only [Prod.mk.injEq]
  constructor
  · rintro ⟨h1, h2, h3, h4, h5, h6⟩
    obtain ⟨g1, g2⟩ := (affineEq_iff a.dims.length ha.1 _ _ ha.2 (by rw [h5]; exact hb.2)).mp h6
    exact ⟨⟨h4, h5, g1⟩, g2, h1, h2, h3⟩
  · rintro ⟨⟨h4, h5, g1⟩, g2, h1, h2, h3⟩
    exact ⟨h1, h2, h3, h4, h5, (affineEq_iff a.dims.length ha.1 _ _ ha.2 (by rw [h5]; exact hb.2)).mpr ⟨g1, g2⟩⟩

/-- The comparison of simulations that are not arrays. -/
theorem resultCmp_packed (mix : Arr → S → Cmp) (x y : Option (Result S)) (hx : ∀ r, x ≠ some (.array r)) (hy : ∀ r, y ≠ some (.array r)) :
    resultCmp mix x y = .one (decide (x = y)) := by
  rcases x with _ | ⟨s⟩ | ⟨r⟩
  · rcases y with _ | ⟨t⟩ | ⟨r⟩
    · simp [resultCmp]
    · simp [resultCmp]
    · exact absurd rfl (hy r)
  · rcases y with _ | ⟨t⟩ | ⟨r⟩
    · simp [resultCmp]
    · simp [resultCmp]
    · exact absurd rfl (hy r)
  · exact absurd rfl (hx r)

/-- An array of several entries, compared with itself, has no truth value. -/
theorem arrCmp_self_truth (a : Arr) (ha : Spec.Proper a) (h : 2 ≤ a.data.length) : truth (arrCmp a a) = .error .valueError := by
  have len : ∀ s : List ℕ, (indices s).length = s.prod := by
    intro s
    induction s with
    | nil => rfl
    | cons x s ih => simp [indices, List.length_flatMap, ih, mul_comm]
  unfold arrCmp
  rw [bShape_self]
  dsimp only
  have l : ((indices a.shape).map fun x => decide (a.data[place a.shape x]? = a.data[place a.shape x]?)).length = a.data.length := by
    rw [List.length_map, len, ha]
  revert l
  generalize ((indices a.shape).map fun x => decide (a.data[place a.shape x]? = a.data[place a.shape x]?)) = l
  intro e
  match l, e with
  | [], e => simp at e; omega
  | [_], e => simp at e; omega
  | _ :: _ :: _, _ => rfl

/-! ## Property -/

/-- **C111, partial.** Methods that compare equal agree in all that a simulation reads, and in name, label, description and experiment, if their affine
matrices are given as documented.
Missing: matrices that are nested otherwise, for which it is false, `C111_counterexample`. -/
theorem C111_equal_partial (mix : Arr → S → Cmp) (a b : MethodObj D S) (ha : Spec.Usual a) (hb : Spec.Usual b) (h : methodEq mix a b = .ok true) :
    Spec.reads a = Spec.reads b ∧ a.name = b.name ∧ a.label = b.label ∧ a.description = b.description ∧ a.experiment = b.experiment := by
  rw [methodEq_split] at h
  split_ifs at h with hb4
  · obtain ⟨g1, _, g3, g4, g5⟩ := (before_iff a b ha hb).mp hb4
    refine ⟨g1, g3, g4, g5, ?_⟩
    unfold allOf at h
    split at h
    · cases h
    · cases h
    · rw [allOf_one] at h
      by_contra hne
      simp [hne] at h
  · simp at h

/-- **C111, partial.** For simulations that are CSDM objects, or absent, the comparison always has an outcome, and it is True exactly if the methods agree
in everything; two ways to write the same matrix count as different, but for one dimension.
Missing: simulations that are arrays, for which it is false, `C111_unpacked`. -/
theorem C111_decides_partial (mix : Arr → S → Cmp) (a b : MethodObj D S) (ha : Spec.Usual a) (hb : Spec.Usual b) (pa : Spec.Packed a)
    (pb : Spec.Packed b) : ∃ r, methodEq mix a b = .ok r ∧ (r = true ↔ Spec.Agree a b) := by
  rw [methodEq_split, resultCmp_packed mix _ _ pa pb]
  simp only [allOf_one]
  have key := before_iff a b ha hb
  by_cases h : before a b
  · obtain ⟨g1, g2, g3⟩ := key.mp h
    rw [if_pos h]
    by_cases h7 : a.simulation = b.simulation <;> by_cases h8 : a.experiment = b.experiment
    · exact ⟨true, by simp [h7, h8, allOf], by simpa using ⟨g1, g2, g3, h7, h8⟩⟩
    · exact ⟨false, by simp [h7, h8], by simp only [Bool.false_eq_true, false_iff]; exact fun x => h8 x.data.2⟩
    · exact ⟨false, by simp [h7], by simp only [Bool.false_eq_true, false_iff]; exact fun x => h7 x.data.1⟩
    · exact ⟨false, by simp [h7], by simp only [Bool.false_eq_true, false_iff]; exact fun x => h7 x.data.1⟩
  · exact ⟨false, by rw [if_neg h], by simp only [Bool.false_eq_true, false_iff]; exact fun x => h (key.mpr ⟨x.reads, x.written, x.text⟩)⟩

/-- **C111, counterexample.** A method whose simulation is an array of several entries, as `run(pack_as_csdm=False)` leaves it, cannot be compared with a
copy of itself: this is a `ValueError`. -/
theorem C111_unpacked (mix : Arr → S → Cmp) (a : MethodObj D S) (ha : Spec.Usual a) (r : Arr) (hr : a.simulation = some (.array r)) (p : Spec.Proper r)
    (l : 2 ≤ r.data.length) : methodEq mix a a = .error .valueError := by
  have h : before a a := (before_iff a a ha ha).mpr ⟨rfl, fun _ => rfl, rfl, rfl, rfl⟩
  rw [methodEq_split, if_pos h, hr]
  have : resultCmp mix (some (.array r)) (some (.array r)) = arrCmp r r := rfl
  rw [this]
  unfold allOf
  rw [arrCmp_self_truth r p l]

/-- **C111, counterexample.** The matrices `[[[1], [2]], [[1], [2]]]` and `[[[1, 1], [2, 2]]]` are both accepted for two dimensions and compare equal, but the
entries that a simulation reads are 1, 2, 1, 2 and 1, 1, 2, 2. -/
theorem C111_counterexample (mix : Arr → ℕ → Cmp) :
    ∃ a b : MethodObj ℕ ℕ, (∃ m, a.affine = some m ∧ Spec.Proper m ∧ validateShaped 2 m = .ok m) ∧
      (∃ m, b.affine = some m ∧ Spec.Proper m ∧ validateShaped 2 m = .ok m) ∧
      methodEq mix a b = .ok true ∧ Spec.reads a ≠ Spec.reads b := by
  refine ⟨⟨none, none, none, ["17O"], [1, 2], some ⟨[1, 2, 2], [1, 2, 1, 2]⟩, none, none⟩,
    ⟨none, none, none, ["17O"], [1, 2], some ⟨[2, 2, 1], [1, 1, 2, 2]⟩, none, none⟩,
    ⟨_, rfl, by unfold Spec.Proper; decide, by decide +kernel⟩, ⟨_, rfl, by unfold Spec.Proper; decide, by decide +kernel⟩, ?_,
    by decide +kernel⟩
  rw [methodEq_split]
  have : resultCmp mix (none : Option (Result ℕ)) none = .one true := rfl
  rw [this]
  decide +kernel

/-- The hypotheses are met, and the comparison tells matrices apart. -/
example : Spec.Documented 2 ⟨[4], [1, -1, 0, 1]⟩ ∧ Spec.Documented 2 ⟨[2, 2], [1, -1, 0, 1]⟩ ∧
    affineEq (some ⟨[2, 2], [1, -1, 0, 1]⟩) (some ⟨[2, 2], [1, -1, 0, 1]⟩) = true ∧
    affineEq (some ⟨[2, 2], [1, -1, 0, 1]⟩) (some ⟨[2, 2], [1, -1, 0, 2]⟩) = false ∧
    affineEq (some ⟨[2, 2], [1, -1, 0, 1]⟩) (some ⟨[4], [1, -1, 0, 1]⟩) = false := by
  refine ⟨⟨by unfold Spec.Proper; decide, Or.inr rfl⟩, ⟨by unfold Spec.Proper; decide, Or.inl rfl⟩, ?_⟩
  decide +kernel

/-- A method of two dimensions with an unpacked simulation of four entries meets the hypotheses of `C111_unpacked`. -/
example : Spec.Usual (⟨none, none, none, ["17O"], [1, 2], some ⟨[2, 2], [1, -1, 0, 1]⟩, some (.array ⟨[4], [0, 1, 3, 1]⟩), none⟩ : MethodObj ℕ ℕ) ∧
    Spec.Proper ⟨[4], [0, 1, 3, 1]⟩ := by
  refine ⟨⟨by decide, ?_⟩, by unfold Spec.Proper; decide⟩
  intro m hm
  obtain rfl : (⟨[2, 2], [1, -1, 0, 1]⟩ : Arr) = m := by simpa using hm
  exact ⟨by unfold Spec.Proper; decide, Or.inl rfl⟩

end MRS.Meth
