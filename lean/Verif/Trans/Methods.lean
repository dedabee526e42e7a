import Verif.Trans.Props
import Mathlib.Tactic.Linarith
import Mathlib.Tactic.FieldSimp
import Mathlib.Tactic.IntervalCases

/-!
# Library methods: what they select — properties C14, C15, C16
-/

namespace MRS.Trans

/-! ## Model -/

/-- methods/methods_data.json:2-23 `Bloch_decay`: one event, P = -1. -/
def blochDecay : List (List Query) := [[⟨[(1, [[-1]])], none⟩]]

/-- methods/methods_data.json:24-50 `Bloch_decay_central_transition`: P = -1, D = 0. -/
def blochDecayCT : List (List Query) := [[⟨[(1, [[-1]])], some [(1, [[0]])]⟩]]

/-- methods/mqvas.py:14-19 `shear_factor_MQ_MAS`; keys are the coherence order and
twice the spin. -/
def shearMQ : List (Nat × List (Nat × ℚ)) :=
  [(3, [(3, 21/27), (5, 114/72), (7, 303/135), (9, 546/216)]),
   (5, [(5, 150/72), (7, 165/135), (9, 570/216)]),
   (7, [(7, 483/135), (9, 84/216)]),
   (9, [(9, 1116/216)])]

/-- methods/mqvas.py:21-25 `MQ_p_symmetry`, with `2 mq`. -/
def mqSymmetry : List (String × Nat) := [("ThreeQ_VAS", 3), ("FiveQ_VAS", 5), ("SevenQ_VAS", 7)]

/-- methods/stvas.py:13-18 `shear_factor_ST_MAS`. -/
def shearST : List (Nat × List (Nat × ℚ)) :=
  [(3, [(3, 24/27), (5, 21/72), (7, 84/135), (9, 165/216)]),
   (5, [(5, 132/72), (7, 69/135), (9, 12/216)]),
   (7, [(7, 324/135), (9, 243/216)]),
   (9, [(9, 600/216)])]

/-- methods/stvas.py:20 `ST_p_symmetry`, with `2 st`. -/
def stSymmetry : List (String × Nat) := [("ST1_VAS", 3), ("ST2_VAS", 5)]

/-- `table[a][b]`, a `KeyError` when a key is missing (methods/mqvas.py lines 75-99, stvas.py lines 59-85). -/
def lookup2 (tbl : List (Nat × List (Nat × ℚ))) (a b : Nat) : Py ℚ :=
  match tbl.lookup a with
  | none => .error .keyError
  | some row => match row.lookup b with
    | none => .error .keyError
    | some k => .ok k

/-- mqvas.py:93-96, stvas.py:75-78: the affine matrix, row by row, unless given. -/
def updateAffine (k : Py ℚ) : Option (List ℚ) → Py (List ℚ)
  | some a => .ok a
  | none => do
    let k ← k
    return [1 / (1 + k), k / (1 + k), 0, 1]

/-- mqvas.py:74-99 `MQ_VAS.update`: queries of the two dimensions and affine matrix.
`mq == spin` is compared as `2 mq = 2 I`. -/
def mqUpdate (name : String) (twoI : Nat) (affine : Option (List ℚ)) :
    Py (List (List Query) × List ℚ) :=
  match mqSymmetry.lookup name with
  | none => .error .keyError
  | some nQ => do
    let P : ℚ := if nQ = twoI then -(nQ : ℚ) else (nQ : ℚ)
    let dims : List (List Query) :=
      [[⟨[(1, [[P]])], some [(1, [[0]])]⟩], [⟨[(1, [[-1]])], some [(1, [[0]])]⟩]]
    let a ← updateAffine (lookup2 shearMQ nQ twoI) affine
    return (dims, a)

/-- stvas.py:58-85 `ST_VAS.update`. -/
def stUpdate (name : String) (twoI : Nat) (affine : Option (List ℚ)) :
    Py (List (List Query) × List ℚ) :=
  match stSymmetry.lookup name with
  | none => .error .keyError
  | some st2 => do
    let st : ℚ := (st2 : ℚ) / 2
    let d : ℚ := st ^ 2 - (st - 1) ^ 2
    let dims : List (List Query) :=
      [[⟨[(1, [[-1]])], some [(1, [[d], [-d]])]⟩], [⟨[(1, [[-1]])], some [(1, [[0]])]⟩]]
    let a ← updateAffine (lookup2 shearST st2 twoI) affine
    return (dims, a)

/-! ## Lemmas: single-site systems -/

theorem rearranges_single (x y : ℚ) : Spec.Rearranges [x] [y] ↔ y = x := by
  unfold Spec.Rearranges
  simp [eq_comm]

theorem matches_single (c : String) (xs : List ℚ) (y : ℚ) :
    Spec.Matches [c] [(c, xs.map fun x => [x])] [y] ↔ y ∈ xs := by
  unfold Spec.Matches
  simp [Spec.onChannel, rearranges_single]

/-- What a query on the only site of a spin system selects. -/
theorem single_site (so : SetOrder) (c : String) (n : Nat) (xs : List ℚ) (hx : xs ≠ [])
    (ys : Option (List ℚ)) (hy : ∀ y, ys = some y → y ≠ []) :
    ∃ sel, eventTransitions so [⟨c, n⟩] [c]
      ⟨[(1, xs.map fun x => [x])], ys.map fun y => [(1, y.map fun x => [x])]⟩ = .ok sel ∧
      sel.Sublist (allTransitions [⟨c, n⟩]) ∧
      ∀ t, t ∈ sel ↔ ∃ i f : ℚ, t = ([i], [f]) ∧ Spec.Allowed ⟨c, n⟩ i ∧ Spec.Allowed ⟨c, n⟩ f ∧
        f - i ∈ xs ∧ ∀ y, ys = some y → f ^ 2 - i ^ 2 ∈ y := by
  obtain ⟨sel, h1, h2, _, h4⟩ := C09_single_channel_selection so [⟨c, n⟩] c
    ⟨[(1, xs.map fun x => [x])], ys.map fun y => [(1, y.map fun x => [x])]⟩
    (by simp) (xs.map fun x => [x]) rfl (by simpa using hx) (by simp)
    (by
      intro d hd
      cases ys with
      | none => simp at hd
      | some y =>
        simp only [Option.map_some, Option.some.injEq] at hd
        subst hd
        exact ⟨y.map fun x => [x], rfl, by simpa using hy y rfl, by simp⟩)
  refine ⟨sel, h1, h2, fun t => ?_⟩
  rw [h4]
  constructor
  · rintro ⟨⟨hi, hf⟩, hP, hD⟩
    obtain ⟨a, b⟩ := t
    cases hi with
    | cons hi h' =>
      cases h'
      cases hf with
      | cons hf h' =>
        cases h'
        refine ⟨_, _, rfl, hi, hf, ?_, ?_⟩
        · simpa [Spec.dm, matches_single] using hP
        · intro y hy'
          subst hy'
          have := hD _ _ rfl rfl
          simpa [Spec.dm2, matches_single] using this
  · rintro ⟨i, f, rfl, hi, hf, hP, hD⟩
    refine ⟨⟨List.Forall₂.cons hi List.Forall₂.nil, List.Forall₂.cons hf List.Forall₂.nil⟩, ?_, ?_⟩
    · simpa [Spec.dm, matches_single] using hP
    · intro d eD hd hl
      cases ys with
      | none => simp at hd
      | some y =>
        simp only [Option.map_some, Option.some.injEq] at hd
        subst hd
        simp only [List.lookup, beq_self_eq_true, Option.some.injEq] at hl
        subst hl
        simpa [Spec.dm2, matches_single] using hD y rfl

/-- A selection is determined by its members. -/
theorem selection_unique (sites : List Iso) (hs : sites ≠ []) (sel exp : List Tr)
    (h1 : sel.Sublist (allTransitions sites))
    (h2 : exp.Pairwise (fun t u => t.1 < u.1 ∨ (t.1 = u.1 ∧ t.2 < u.2)))
    (h : ∀ t, t ∈ sel ↔ t ∈ exp) : sel = exp := by
  have hp := (C08_all_transitions sites hs).2.1.sublist h1
  have hirr : ∀ l : List Tr, l.Pairwise (fun t u => t.1 < u.1 ∨ (t.1 = u.1 ∧ t.2 < u.2)) →
      l.Nodup := by
    intro l hl
    refine hl.imp ?_
    rintro t u (h1 | ⟨h1, h2⟩) rfl
    · exact lt_irrefl _ h1
    · exact lt_irrefl _ h2
  have hperm : sel.Perm exp := (List.perm_ext_iff_of_nodup (hirr _ hp) (hirr _ h2)).mpr h
  refine List.Perm.eq_of_pairwise ?_ hp h2 hperm
  rintro a b _ _ (h1 | ⟨h1, h2⟩) (h3 | ⟨h3, h4⟩)
  · exact absurd h3 (not_lt_of_gt h1)
  · rw [h3] at h1; exact absurd h1 (lt_irrefl _)
  · rw [h1] at h3; exact absurd h3 (lt_irrefl _)
  · exact absurd h4 (not_lt_of_gt h2)

/-- Pathways of a one-event and of a two-event method whose events select one
transition (or nothing). -/
theorem pathways_of (so : SetOrder) (sites : List Iso) (channel : List String)
    (dims : List (List Query)) (segs : List (List Tr))
    (hsegs : List.Forall₂ (fun q s => eventTransitions so sites channel q = .ok s)
      dims.flatten segs) (hne : dims.flatten ≠ []) :
    transitionPathways so sites channel dims = .ok (prod segs) := by
  have hm : segments so sites channel dims = .ok segs := by
    unfold segments
    clear hne
    revert hsegs
    generalize dims.flatten = qs
    intro hsegs
    induction hsegs with
    | nil => rfl
    | cons h _ ih => rw [List.mapM_cons, h, ih]; rfl
  have hs : segs ≠ [] := by
    rintro rfl
    have := hsegs.length_eq
    simp only [List.length_nil] at this
    exact hne (List.length_eq_zero_iff.mp this)
  unfold transitionPathways
  rw [hm]
  simp only [bind, Except.bind]
  exact pathwaysNp_eq segs hs

/-- `m` is an allowed quantum number of spin `n/2`. -/
theorem allowed_iff (c : String) (n : Nat) (m : ℚ) :
    Spec.Allowed ⟨c, n⟩ m ↔ ∃ k : ℕ, k ≤ n ∧ m = -(n : ℚ) / 2 + k := Iff.rfl

theorem allowed_half_odd (c : String) (n j : Nat) (hn : n % 2 = 1) (hj : j % 2 = 1) (hjn : j ≤ n) :
    Spec.Allowed ⟨c, n⟩ ((j : ℚ) / 2) ∧ Spec.Allowed ⟨c, n⟩ (-(j : ℚ) / 2) := by
  constructor
  · refine ⟨(n + j) / 2, by simp only []; omega, ?_⟩
    have : ((n + j) / 2 : ℕ) * 2 = n + j := by omega
    have h2 : (((n + j) / 2 : ℕ) : ℚ) * 2 = n + j := by exact_mod_cast this
    simp only []
    linarith
  · refine ⟨(n - j) / 2, by simp only []; omega, ?_⟩
    have : ((n - j) / 2 : ℕ) * 2 + j = n := by omega
    have h2 : (((n - j) / 2 : ℕ) : ℚ) * 2 + j = n := by exact_mod_cast this
    simp only []
    linarith

/-- Half of an odd number is not a quantum number of an integer spin. -/
theorem not_allowed_half (c : String) (n j : Nat) (hn : n % 2 = 0) (hj : j % 2 = 1) :
    ¬ Spec.Allowed ⟨c, n⟩ ((j : ℚ) / 2) := by
  rintro ⟨k, _, h⟩
  simp only [] at h
  have : (j : ℚ) + n = 2 * k := by linarith
  have : j + n = 2 * k := by exact_mod_cast this
  omega

/-- The event with `P = [[x]]`, `D = [[0]]`, `x ≠ 0`, on a single site. -/
theorem symmetric_event (so : SetOrder) (c : String) (n : Nat) (x : ℚ) (hx : x ≠ 0) :
    ∃ sel, eventTransitions so [⟨c, n⟩] [c] ⟨[(1, [[x]])], some [(1, [[0]])]⟩ = .ok sel ∧
      sel.Sublist (allTransitions [⟨c, n⟩]) ∧
      ∀ t, t ∈ sel ↔ t = ([-x / 2], [x / 2]) ∧ Spec.Allowed ⟨c, n⟩ (-x / 2) ∧
        Spec.Allowed ⟨c, n⟩ (x / 2) := by
  obtain ⟨sel, h1, h2, h3⟩ := single_site so c n [x] (by simp) (some [0]) (by simp)
  refine ⟨sel, h1, h2, fun t => ?_⟩
  rw [h3]
  simp only [List.mem_singleton, Option.some.injEq, forall_eq']
  constructor
  · rintro ⟨i, f, rfl, hi, hf, hP, hD⟩
    have hsum : f + i = 0 := by
      have : (f - i) * (f + i) = 0 := by linarith [hD, (by ring : (f - i) * (f + i) = f ^ 2 - i ^ 2)]
      rcases mul_eq_zero.mp this with h | h
      · exact absurd (hP.symm.trans h) hx
      · exact h
    have hi' : i = -x / 2 := by linarith
    have hf' : f = x / 2 := by linarith
    subst hi'; subst hf'
    exact ⟨rfl, hi, hf⟩
  · rintro ⟨rfl, hi, hf⟩
    exact ⟨_, _, rfl, hi, hf, by ring, by ring⟩

theorem ct_event (so : SetOrder) (c : String) (n : Nat) (hn : n % 2 = 1) :
    eventTransitions so [⟨c, n⟩] [c] ⟨[(1, [[-1]])], some [(1, [[0]])]⟩ =
      .ok [([1/2], [-1/2])] := by
  obtain ⟨sel, h1, h2, h3⟩ := symmetric_event so c n (-1) (by norm_num)
  rw [h1]
  congr 1
  apply selection_unique [⟨c, n⟩] (by simp) _ _ h2 (by simp)
  intro t
  rw [h3]
  obtain ⟨ha, hb⟩ := allowed_half_odd c n 1 hn rfl (by omega)
  have e1 : (-(-1) : ℚ) / 2 = ((1 : ℕ) : ℚ) / 2 := by norm_num
  have e2 : (-1 : ℚ) / 2 = -((1 : ℕ) : ℚ) / 2 := by norm_num
  rw [e1, e2]
  simp only [ha, hb, and_true, List.mem_singleton]
  norm_num

/-! ## Properties -/

/-- **C14**. The central-transition Bloch decay method observes the central transition
of a half-integer spin and nothing of an integer spin. -/
theorem C14_central_transition (so : SetOrder) (c : String) (twoI : Nat) :
    transitionPathways so [⟨c, twoI⟩] [c] blochDecayCT =
      if twoI % 2 = 1 then .ok [[([1/2], [-1/2])]] else .ok [] := by
  split_ifs with hn
  · exact pathways_of so _ _ _ [[([1/2], [-1/2])]]
      (List.Forall₂.cons (ct_event so c twoI hn) List.Forall₂.nil) (by decide)
  · have : eventTransitions so [⟨c, twoI⟩] [c] ⟨[(1, [[-1]])], some [(1, [[0]])]⟩ = .ok [] := by
      obtain ⟨sel, h1, h2, h3⟩ := symmetric_event so c twoI (-1) (by norm_num)
      rw [h1]
      congr 1
      apply selection_unique [⟨c, twoI⟩] (by simp) _ _ h2 (by simp)
      intro t
      rw [h3]
      have := not_allowed_half c twoI 1 (by omega) rfl
      have e1 : (-(-1) : ℚ) / 2 = ((1 : ℕ) : ℚ) / 2 := by norm_num
      rw [e1]
      exact ⟨fun h => absurd h.2.1 this, fun h => by cases h⟩
    exact pathways_of so _ _ _ [[]] (List.Forall₂.cons this List.Forall₂.nil) (by decide)

/-- **C14**. The Bloch decay method observes exactly the `2I` transitions
`m → m - 1`, in increasing order of `m`. -/
theorem C14_bloch_decay (so : SetOrder) (c : String) (twoI : Nat) :
    transitionPathways so [⟨c, twoI⟩] [c] blochDecay =
      .ok ((List.range twoI).map fun (k : Nat) =>
        [([-(twoI : ℚ) / 2 + k + 1], [-(twoI : ℚ) / 2 + k])]) := by
  obtain ⟨sel, h1, h2, h3⟩ := single_site so c twoI [-1] (by simp) none (by simp)
  have hsel : sel = (List.range twoI).map fun (k : Nat) =>
      (([-(twoI : ℚ) / 2 + k + 1], [-(twoI : ℚ) / 2 + k]) : Tr) := by
    apply selection_unique [⟨c, twoI⟩] (by simp) _ _ h2
    · rw [List.pairwise_map]
      refine List.pairwise_lt_range.imp ?_
      intro a b hab
      left
      have : (a : ℚ) < b := by exact_mod_cast hab
      simp only [List.cons_lt_cons_iff]
      left
      linarith
    · intro t
      rw [h3, List.mem_map]
      constructor
      · rintro ⟨i, f, rfl, ⟨a, ha, hi⟩, ⟨b, hb, hf⟩, hP, -⟩
        simp only [] at ha hi hb hf
        rw [List.mem_singleton] at hP
        have : (b : ℚ) + 1 = a := by linarith
        have hab : b + 1 = a := by exact_mod_cast this
        refine ⟨b, by rw [List.mem_range]; omega, ?_⟩
        rw [hi, hf, ← this]
        congr 2
        ring
      · rintro ⟨k, hk, rfl⟩
        rw [List.mem_range] at hk
        refine ⟨_, _, rfl, ⟨k + 1, by simp only []; omega, by push_cast; ring⟩,
          ⟨k, by simp only []; omega, rfl⟩, ?_, by simp⟩
        rw [List.mem_singleton]; ring
  have := pathways_of so [⟨c, twoI⟩] [c] blochDecay [sel]
    (List.Forall₂.cons h1 List.Forall₂.nil) (by decide)
  rw [this, hsel]
  congr 1
  simp only [prod, List.flatMap_map, List.map_cons, List.map_nil]
  rw [List.map_eq_flatMap]

example : transitionPathways stdOrder [⟨"27Al", 5⟩] ["27Al"] blochDecayCT =
    .ok [[([1/2], [-1/2])]] := by decide +kernel
example : transitionPathways stdOrder [⟨"14N", 2⟩] ["14N"] blochDecay =
    .ok [[([0], [-1])], [([1], [0])]] := by decide +kernel

/-- **C15**. On a half-integer spin `I ≥ n/2` the `n`-quantum method has exactly one
pathway: the symmetric `n`-quantum transition followed by the central transition. -/
theorem C15_mq_vas (so : SetOrder) (c : String) (twoI : Nat) (hodd : twoI % 2 = 1)
    (name : String) (n : Nat) (hname : (name, n) ∈ mqSymmetry) (hn : n ≤ twoI)
    (affine : Option (List ℚ)) (dims : List (List Query)) (a : List ℚ)
    (h : mqUpdate name twoI affine = .ok (dims, a)) :
    transitionPathways so [⟨c, twoI⟩] [c] dims =
      .ok [[if twoI = n then ([(n : ℚ) / 2], [-(n : ℚ) / 2]) else ([-(n : ℚ) / 2], [(n : ℚ) / 2]),
        ([1/2], [-1/2])]] := by
  have hl : mqSymmetry.lookup name = some n ∧ n % 2 = 1 := by
    simp only [mqSymmetry, List.mem_cons, Prod.mk.injEq, List.not_mem_nil, or_false] at hname
    rcases hname with ⟨rfl, rfl⟩ | ⟨rfl, rfl⟩ | ⟨rfl, rfl⟩ <;> decide
  unfold mqUpdate at h
  rw [hl.1] at h
  simp only [bind, Except.bind, pure, Except.pure] at h
  cases ha : updateAffine (lookup2 shearMQ n twoI) affine with
  | error e => rw [ha] at h; cases h
  | ok a' =>
    rw [ha] at h
    injection h with h
    rw [Prod.mk.injEq] at h
    rw [← h.1]
    set P : ℚ := if n = twoI then -(n : ℚ) else (n : ℚ) with hP
    have hnpos : (0 : ℚ) < n := by
      have : 0 < n := by omega
      exact_mod_cast this
    have hPne : P ≠ 0 := by rw [hP]; split_ifs <;> linarith
    obtain ⟨sel, h1, h2, h3⟩ := symmetric_event so c twoI P hPne
    obtain ⟨hA, hB⟩ := allowed_half_odd c twoI n hodd hl.2 hn
    have hsel : sel = [if twoI = n then ([(n : ℚ) / 2], [-(n : ℚ) / 2])
        else ([-(n : ℚ) / 2], [(n : ℚ) / 2])] := by
      apply selection_unique [⟨c, twoI⟩] (by simp) _ _ h2 (by simp)
      intro t
      rw [h3, hP, List.mem_singleton]
      by_cases he : twoI = n
      · rw [if_pos he.symm, if_pos he, neg_neg]
        simp only [hA, hB, and_true]
      · rw [if_neg (Ne.symm he), if_neg he]
        simp only [hA, hB, and_true]
    have := pathways_of so [⟨c, twoI⟩] [c]
      [[⟨[(1, [[P]])], some [(1, [[0]])]⟩], [⟨[(1, [[-1]])], some [(1, [[0]])]⟩]]
      [sel, [([1/2], [-1/2])]]
      (List.Forall₂.cons h1 (List.Forall₂.cons (ct_event so c twoI hodd) List.Forall₂.nil))
      (by simp)
    rw [this, hsel]
    rfl

/-- **C15**: with the built-in shear the method exists exactly for the spins of its
table, otherwise (integer spin, spin too small or above 9/2) it is a `KeyError`. -/
theorem C15_mq_domain (name : String) (n : Nat) (hname : (name, n) ∈ mqSymmetry) (twoI : Nat) :
    (∃ r, mqUpdate name twoI none = .ok r) ↔ twoI % 2 = 1 ∧ n ≤ twoI ∧ twoI ≤ 9 := by
  have key : ∀ m (h : m ≤ 9), (∃ r, mqUpdate name m none = .ok r) ↔ m % 2 = 1 ∧ n ≤ m := by
    intro m hm
    simp only [mqSymmetry, List.mem_cons, Prod.mk.injEq, List.not_mem_nil, or_false] at hname
    rcases hname with ⟨rfl, rfl⟩ | ⟨rfl, rfl⟩ | ⟨rfl, rfl⟩ <;> interval_cases m <;>
      simp [mqUpdate, mqSymmetry, shearMQ, lookup2, updateAffine, List.lookup, bind, Except.bind,
        pure, Except.pure]
  by_cases hm : twoI ≤ 9
  · rw [key twoI hm]; omega
  · have h3 : twoI ≠ 3 := by omega
    have h5 : twoI ≠ 5 := by omega
    have h7 : twoI ≠ 7 := by omega
    have h9 : twoI ≠ 9 := by omega
    simp only [mqSymmetry, List.mem_cons, Prod.mk.injEq, List.not_mem_nil, or_false] at hname
    have b3 : (twoI == 3) = false := by simpa using h3
    have b5 : (twoI == 5) = false := by simpa using h5
    have b7 : (twoI == 7) = false := by simpa using h7
    have b9 : (twoI == 9) = false := by simpa using h9
    constructor
    · rcases hname with ⟨rfl, rfl⟩ | ⟨rfl, rfl⟩ | ⟨rfl, rfl⟩ <;>
        simp [mqUpdate, mqSymmetry, shearMQ, lookup2, updateAffine, List.lookup, bind, Except.bind,
          b3, b5, b7, b9]
    · intro h; omega

example : mqUpdate "FiveQ_VAS" 7 none =
    .ok ([[⟨[(1, [[5]])], some [(1, [[0]])]⟩], [⟨[(1, [[-1]])], some [(1, [[0]])]⟩]],
      [9/20, 11/20, 0, 1]) := by
  simp [mqUpdate, mqSymmetry, shearMQ, lookup2, updateAffine, List.lookup, bind, Except.bind,
    pure, Except.pure]
  norm_num
example : transitionPathways stdOrder [⟨"51V", 7⟩] ["51V"]
    [[⟨[(1, [[5]])], some [(1, [[0]])]⟩], [⟨[(1, [[-1]])], some [(1, [[0]])]⟩]] =
    .ok [[([-5/2], [5/2]), ([1/2], [-1/2])]] := by decide +kernel

/-- **C16**. On a half-integer spin `I ≥ st` the satellite method has exactly two
pathways: one satellite transition followed by the central transition. -/
theorem C16_st_vas (so : SetOrder) (c : String) (twoI : Nat) (hodd : twoI % 2 = 1)
    (name : String) (s2 : Nat) (hname : (name, s2) ∈ stSymmetry) (hn : s2 ≤ twoI)
    (affine : Option (List ℚ)) (dims : List (List Query)) (a : List ℚ)
    (h : stUpdate name twoI affine = .ok (dims, a)) :
    let st : ℚ := (s2 : ℚ) / 2
    transitionPathways so [⟨c, twoI⟩] [c] dims =
      .ok [[([-(st - 1)], [-st]), ([1/2], [-1/2])], [([st], [st - 1]), ([1/2], [-1/2])]] := by
  intro st
  have hl : stSymmetry.lookup name = some s2 ∧ s2 % 2 = 1 ∧ 3 ≤ s2 := by
    simp only [stSymmetry, List.mem_cons, Prod.mk.injEq, List.not_mem_nil, or_false] at hname
    rcases hname with ⟨rfl, rfl⟩ | ⟨rfl, rfl⟩ <;> decide
  unfold stUpdate at h
  rw [hl.1] at h
  simp only [bind, Except.bind, pure, Except.pure] at h
  cases ha : updateAffine (lookup2 shearST s2 twoI) affine with
  | error e => rw [ha] at h; cases h
  | ok a' =>
    rw [ha] at h
    injection h with h
    rw [Prod.mk.injEq] at h
    rw [← h.1]
    set d : ℚ := ((s2 : ℚ) / 2) ^ 2 - ((s2 : ℚ) / 2 - 1) ^ 2 with hd
    have hdv : d = 2 * st - 1 := by rw [hd]; ring
    have hst : (3 : ℚ) / 2 ≤ st := by
      have : (3 : ℚ) ≤ s2 := by exact_mod_cast hl.2.2
      simp only [st]; linarith
    obtain ⟨sel, h1, h2, h3⟩ := single_site so c twoI [-1] (by simp) (some [d, -d]) (by simp)
    have hsel : sel = [([-(st - 1)], [-st]), ([st], [st - 1])] := by
      apply selection_unique [⟨c, twoI⟩] (by simp) _ _ h2
      · simp only [List.pairwise_cons, List.mem_singleton, forall_eq, List.not_mem_nil,
          false_imp_iff, implies_true, List.Pairwise.nil, and_true]
        left
        simp only [List.cons_lt_cons_iff]
        left; linarith
      · intro t
        rw [h3]
        simp only [Option.some.injEq, forall_eq', List.mem_cons, List.not_mem_nil, or_false]
        obtain ⟨hA, hB⟩ := allowed_half_odd c twoI s2 hodd hl.2.1 hn
        obtain ⟨hC, hD⟩ := allowed_half_odd c twoI (s2 - 2) hodd (by omega) (by omega)
        have hcast : ((s2 - 2 : ℕ) : ℚ) = s2 - 2 := by
          rw [Nat.cast_sub (by omega)]; norm_num
        rw [hcast] at hC hD
        have eA : (s2 : ℚ) / 2 = st := rfl
        have eB : -(s2 : ℚ) / 2 = -st := by simp only [st]; ring
        have eC : ((s2 : ℚ) - 2) / 2 = st - 1 := by simp only [st]; ring
        have eD : -((s2 : ℚ) - 2) / 2 = -(st - 1) := by simp only [st]; ring
        rw [eA] at hA; rw [eB] at hB; rw [eC] at hC; rw [eD] at hD
        constructor
        · rintro ⟨i, f, rfl, hi, hf, hP, hQ⟩
          have hf' : f = i - 1 := by linarith
          subst hf'
          rcases hQ with hQ | hQ
          · left
            have : i = -(st - 1) := by nlinarith [hQ, hdv]
            subst this
            congr 2; ring
          · right
            have : i = st := by nlinarith [hQ, hdv]
            rw [this]
        · rintro (rfl | rfl)
          · exact ⟨_, _, rfl, hD, hB, by ring, Or.inl (by rw [hdv]; ring)⟩
          · exact ⟨_, _, rfl, hA, hC, by ring, Or.inr (by rw [hdv]; ring)⟩
    have := pathways_of so [⟨c, twoI⟩] [c]
      [[⟨[(1, [[-1]])], some [(1, [[d], [-d]])]⟩], [⟨[(1, [[-1]])], some [(1, [[0]])]⟩]]
      [sel, [([1/2], [-1/2])]]
      (List.Forall₂.cons h1 (List.Forall₂.cons (ct_event so c twoI hodd) List.Forall₂.nil))
      (by simp)
    rw [this, hsel]
    rfl

/-- Non-vacuity of C16: ST1 on spin 5/2. -/
example : ∃ r, stUpdate "ST1_VAS" 5 none = .ok r := by
  simp [stUpdate, stSymmetry, shearST, lookup2, updateAffine, List.lookup, bind, Except.bind,
    pure, Except.pure]
example : transitionPathways stdOrder [⟨"27Al", 5⟩] ["27Al"]
    [[⟨[(1, [[-1]])], some [(1, [[2], [-2]])]⟩], [⟨[(1, [[-1]])], some [(1, [[0]])]⟩]] =
    .ok [[([-1/2], [-3/2]), ([1/2], [-1/2])], [([3/2], [1/2]), ([1/2], [-1/2])]] := by
  decide +kernel

end MRS.Trans
