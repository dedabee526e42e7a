import Verif.Meth.Equal
import Mathlib.Data.List.Forall2

/-!
# Simulators that compare equal — property C126

`Simulator.__eq__` (src/mrsimulator/simulator/__init__.py:156-170) compares the lists of methods as Python compares lists: entries that are
the same object are equal, others are compared by `Method.__eq__` (C111).
-/

namespace MRS.Meth

variable {G C D S : Type} [DecidableEq G] [DecidableEq C] [DecidableEq D] [DecidableEq S]

/-- The fields of a simulator (simulator/__init__.py:145-151). Spin systems and the configuration are pydantic models, equal if all their fields are, here
the types `G` and `C`. Methods come with the place of the object in memory. Nothing in the code fills `indexes`. -/
structure SimObj (G C D S : Type) where
  name : Option String
  label : Option String
  description : Option String
  systems : List G
  methods : List (ℕ × MethodObj D S)
  config : C
  indexes : List ℚ

/-- The entries of two lists of the same length, compared from the first on (simulator/__init__.py:164, the `==` of Python lists). -/
def pairsEq (mix : Arr → S → Cmp) : List (ℕ × MethodObj D S) → List (ℕ × MethodObj D S) → Py Bool
  | x :: xs, y :: ys =>
    if x.1 = y.1 then pairsEq mix xs ys
    else
      match methodEq mix x.2 y.2 with
      | .error e => .error e
      | .ok false => .ok false
      | .ok true => pairsEq mix xs ys
  | _, _ => .ok true

/-- `self.methods == other.methods` (simulator/__init__.py:164): lists of different length are not equal. -/
def methodsEq (mix : Arr → S → Cmp) (xs ys : List (ℕ × MethodObj D S)) : Py Bool :=
  if xs.length ≠ ys.length then .ok false else pairsEq mix xs ys

/-- simulator/__init__.py:156-170 `Simulator.__eq__`; all comparisons are made before `np.all`. -/
def simEq (mix : Arr → S → Cmp) (a b : SimObj G C D S) : Py Bool :=
  match methodsEq mix a.methods b.methods with
  | .error e => .error e
  | .ok m =>
    .ok ([decide (a.name = b.name), decide (a.label = b.label), decide (a.description = b.description), decide (a.systems = b.systems), m,
      decide (a.config = b.config), decide (a.indexes = b.indexes)].all id)

/-! ## Specification -/

/-- Objects at the same place are the same. -/
def Spec.Placed (xs ys : List (ℕ × MethodObj D S)) : Prop := ∀ x ∈ xs, ∀ y ∈ ys, x.1 = y.1 → x.2 = y.2

/-- All that a run reads from a simulator: the spin systems, the configuration and what it reads from every method, in order. -/
def Spec.simReads (a : SimObj G C D S) : List G × C × List (List String × List D × Option (List ℚ)) :=
  (a.systems, a.config, a.methods.map fun m => Spec.reads m.2)

/-- Simulators that agree in everything. -/
structure Spec.SimAgree (a b : SimObj G C D S) : Prop where
  text : a.name = b.name ∧ a.label = b.label ∧ a.description = b.description
  content : a.systems = b.systems ∧ a.config = b.config ∧ a.indexes = b.indexes
  methods : List.Forall₂ (fun x y => Spec.Agree x.2 y.2) a.methods b.methods

/-! ## Lemmas -/

theorem agree_refl (a : MethodObj D S) : Spec.Agree a a := ⟨rfl, fun _ => rfl, ⟨rfl, rfl, rfl⟩, rfl, rfl⟩

theorem simEq_ok (mix : Arr → S → Cmp) (a b : SimObj G C D S) (h : simEq mix a b = .ok true) :
    methodsEq mix a.methods b.methods = .ok true ∧ a.name = b.name ∧ a.label = b.label ∧ a.description = b.description ∧ a.systems = b.systems ∧
      a.config = b.config ∧ a.indexes = b.indexes := by
  unfold simEq at h
  split at h
  · cases h
  · next m e =>
    simp only [Except.ok.injEq, List.all_cons, List.all_nil, id, Bool.and_eq_true, decide_eq_true_eq, Bool.and_true] at h
    obtain ⟨h1, h2, h3, h4, h5, h6, h7⟩ := h
    rw [h5] at e
    exact ⟨e, h1, h2, h3, h4, h6, h7⟩

theorem pairsEq_reads (mix : Arr → S → Cmp) : ∀ (xs ys : List (ℕ × MethodObj D S)), xs.length = ys.length → Spec.Placed xs ys →
    (∀ x ∈ xs, Spec.Usual x.2) → (∀ y ∈ ys, Spec.Usual y.2) → pairsEq mix xs ys = .ok true →
    xs.map (fun m => Spec.reads m.2) = ys.map (fun m => Spec.reads m.2)
  | [], [], _, _, _, _, _ => rfl
  | [], _ :: _, hl, _, _, _, _ => by simp at hl
  | _ :: _, [], hl, _, _, _, _ => by simp at hl
  | x :: xs, y :: ys, hl, hp, hx, hy, h => by
    have tail := pairsEq_reads mix xs ys (by simpa using hl) (fun u hu v hv => hp u (by simp [hu]) v (by simp [hv])) (fun u hu => hx u (by simp [hu]))
      (fun u hu => hy u (by simp [hu]))
    unfold pairsEq at h
    split_ifs at h with e
    · rw [List.map_cons, List.map_cons, tail h, hp x (by simp) y (by simp) e]
    · split at h
      · cases h
      · cases h
      · next e' =>
        rw [List.map_cons, List.map_cons, tail h, (C111_equal_partial mix x.2 y.2 (hx x (by simp)) (hy y (by simp)) e').1]

theorem pairsEq_decides (mix : Arr → S → Cmp) : ∀ (xs ys : List (ℕ × MethodObj D S)), xs.length = ys.length → Spec.Placed xs ys →
    (∀ x ∈ xs, Spec.Usual x.2 ∧ Spec.Packed x.2) → (∀ y ∈ ys, Spec.Usual y.2 ∧ Spec.Packed y.2) →
    ∃ r, pairsEq mix xs ys = .ok r ∧ (r = true ↔ List.Forall₂ (fun x y => Spec.Agree x.2 y.2) xs ys)
  | [], [], _, _, _, _ => ⟨true, rfl, by simp⟩
  | [], _ :: _, hl, _, _, _ => by simp at hl
  | _ :: _, [], hl, _, _, _ => by simp at hl
  | x :: xs, y :: ys, hl, hp, hx, hy => by
    obtain ⟨r, e1, e2⟩ := pairsEq_decides mix xs ys (by simpa using hl) (fun u hu v hv => hp u (by simp [hu]) v (by simp [hv]))
      (fun u hu => hx u (by simp [hu])) (fun u hu => hy u (by simp [hu]))
    unfold pairsEq
    by_cases e : x.1 = y.1
    · rw [if_pos e]
      refine ⟨r, e1, ?_⟩
      rw [e2, List.forall₂_cons, hp x (by simp) y (by simp) e]
      exact ⟨fun h => ⟨agree_refl _, h⟩, fun h => h.2⟩
    · rw [if_neg e]
      obtain ⟨q, g1, g2⟩ := C111_decides_partial mix x.2 y.2 (hx x (by simp)).1 (hy y (by simp)).1 (hx x (by simp)).2 (hy y (by simp)).2
      rw [g1, List.forall₂_cons]
      cases q with
      | true => exact ⟨r, e1, by rw [e2]; exact ⟨fun h => ⟨g2.mp rfl, h⟩, fun h => h.2⟩⟩
      | false => exact ⟨false, rfl, by simp only [Bool.false_eq_true, false_iff]; exact fun h => absurd (g2.mpr h.1) (by simp)⟩

/-! ## Property -/

/-- **C126, partial.** Simulators that compare equal agree in all that a run reads, if the affine matrices of their methods are given as documented.
Missing: matrices that are nested otherwise, for which it is false, `C111_counterexample`. -/
theorem C126_equal_partial (mix : Arr → S → Cmp) (a b : SimObj G C D S) (hp : Spec.Placed a.methods b.methods)
    (ha : ∀ m ∈ a.methods, Spec.Usual m.2) (hb : ∀ m ∈ b.methods, Spec.Usual m.2) (h : simEq mix a b = .ok true) :
    Spec.simReads a = Spec.simReads b := by
  obtain ⟨h1, _, _, _, h5, h6, _⟩ := simEq_ok mix a b h
  unfold methodsEq at h1
  split_ifs at h1 with hl
  · simp at h1
  · unfold Spec.simReads
    rw [h5, h6, pairsEq_reads mix _ _ (not_not.mp hl) hp ha hb h1]

/-- **C126, partial.** If no simulation is an array the comparison always has an outcome, and it is True exactly if the simulators agree in everything.
Missing: simulations that are arrays, for which it is false, `C126_counterexample`. -/
theorem C126_decides_partial (mix : Arr → S → Cmp) (a b : SimObj G C D S) (hp : Spec.Placed a.methods b.methods)
    (ha : ∀ m ∈ a.methods, Spec.Usual m.2 ∧ Spec.Packed m.2) (hb : ∀ m ∈ b.methods, Spec.Usual m.2 ∧ Spec.Packed m.2) :
    ∃ r, simEq mix a b = .ok r ∧ (r = true ↔ Spec.SimAgree a b) := by
  have key : ∃ r, methodsEq mix a.methods b.methods = .ok r ∧ (r = true ↔ List.Forall₂ (fun x y => Spec.Agree x.2 y.2) a.methods b.methods) := by
    unfold methodsEq
    by_cases hl : a.methods.length = b.methods.length
    · rw [if_neg (by simpa using hl)]
      exact pairsEq_decides mix _ _ hl hp ha hb
    · rw [if_pos hl]
      exact ⟨false, rfl, by simp only [Bool.false_eq_true, false_iff]; exact fun h => hl h.length_eq⟩
  obtain ⟨r, e1, e2⟩ := key
  refine ⟨_, by unfold simEq; rw [e1], ?_⟩
  simp only [List.all_cons, List.all_nil, id, Bool.and_eq_true, decide_eq_true_eq, Bool.and_true, e2]
  constructor
  · rintro ⟨h1, h2, h3, h4, h5, h6, h7⟩
    exact ⟨⟨h1, h2, h3⟩, ⟨h4, h6, h7⟩, h5⟩
  · rintro ⟨⟨h1, h2, h3⟩, ⟨h4, h6, h7⟩, h5⟩
    exact ⟨h1, h2, h3, h4, h5, h6, h7⟩

/-- **C126, counterexample.** After `run(pack_as_csdm=False)` a simulator is equal to itself, but cannot be compared with a copy: for every simulator whose
first method has as its simulation an array of several entries, whatever else it holds. -/
theorem C126_counterexample (mix : Arr → S → Cmp) (a b : SimObj G C D S) (p q : ℕ) (m : MethodObj D S) (xs ys : List (ℕ × MethodObj D S))
    (hpq : p ≠ q) (ea : a.methods = (p, m) :: xs) (eb : b.methods = (q, m) :: ys) (hl : xs.length = ys.length) (hm : Spec.Usual m) (r : Arr)
    (hr : m.simulation = some (.array r)) (pr : Spec.Proper r) (l : 2 ≤ r.data.length) :
    simEq mix a b = .error .valueError ∧ simEq mix a a = .ok true := by
  constructor
  · unfold simEq methodsEq
    rw [ea, eb, if_neg (by simpa using hl)]
    unfold pairsEq
    rw [if_neg hpq]
    dsimp only
    rw [C111_unpacked mix m hm r hr pr l]
  · have self : ∀ zs : List (ℕ × MethodObj D S), pairsEq mix zs zs = .ok true := by
      intro zs
      induction zs with
      | nil => rfl
      | cons z zs ih => unfold pairsEq; rw [if_pos rfl, ih]
    unfold simEq methodsEq
    rw [if_neg (by simp), self]
    simp

/-- Two simulators with one method each, at different places, that agree: the hypotheses of the first two theorems are met. -/
def sample (place : ℕ) (config : ℕ) : SimObj ℕ ℕ ℕ ℕ :=
  ⟨some "sample", none, none, [1, 2], [(place, ⟨none, none, none, ["17O"], [1, 2], some ⟨[2, 2], [1, -1, 0, 1]⟩, some (.csdm 4), none⟩)], config, []⟩

theorem sample_usual (place config : ℕ) : ∀ m ∈ (sample place config).methods, Spec.Usual m.2 ∧ Spec.Packed m.2 := by
  intro m hm
  obtain rfl : m = (place, ⟨none, none, none, ["17O"], [1, 2], some ⟨[2, 2], [1, -1, 0, 1]⟩, some (.csdm 4), none⟩) := by
    simpa [sample] using hm
  refine ⟨⟨by simp, ?_⟩, fun r => by simp⟩
  intro m hm
  obtain rfl : (⟨[2, 2], [1, -1, 0, 1]⟩ : Arr) = m := by simpa using hm
  exact ⟨by unfold Spec.Proper; decide, Or.inl rfl⟩

example (mix : Arr → ℕ → Cmp) : simEq mix (sample 0 3) (sample 1 3) = .ok true ∧ simEq mix (sample 0 3) (sample 1 4) = .ok false := by
  have placed : ∀ c d, Spec.Placed (sample 0 c).methods (sample 1 d).methods := by
    intro c d x hx y hy h
    simp [sample] at hx hy
    subst hx hy
    rfl
  have same : ∀ c d, List.Forall₂ (fun x y => Spec.Agree x.2 y.2) (sample 0 c).methods (sample 1 d).methods := fun c d => by
    unfold sample
    exact List.Forall₂.cons (agree_refl _) List.Forall₂.nil
  obtain ⟨r, e, h⟩ := C126_decides_partial mix (sample 0 3) (sample 1 3) (placed 3 3) (sample_usual 0 3) (sample_usual 1 3)
  obtain ⟨r', e', h'⟩ := C126_decides_partial mix (sample 0 3) (sample 1 4) (placed 3 4) (sample_usual 0 3) (sample_usual 1 4)
  refine ⟨by rw [e, h.mpr ⟨⟨rfl, rfl, rfl⟩, ⟨rfl, rfl, rfl⟩, same 3 3⟩], ?_⟩
  rw [e']
  cases r' with
  | false => rfl
  | true =>
    have := (h'.mp rfl).content.2.1
    simp [sample] at this

end MRS.Meth
