import Verif.Trans.Props
import Mathlib.Tactic.Ring

/-!
# Pathways as they are handed to the C code — property C112

`one_d_spectrum` flattens the transition pathways of a spin system into one array of numbers (src/c_lib/base/base_model.pyx:438-453), without
looking at the number of events of the method. The C code walks through that array with a pointer (src/c_lib/lib/simulation.c:92-93, 148;
src/c_lib/lib/mrsimulator.c:468). Bounds are not checked (base_model.pyx:13).
-/

namespace MRS.Trans

/-- base_model.pyx:448-451: the array of numbers, `pathway_count` and `pathway_increment`. The numbers are stored as `float32`, in which
multiples of one half are exact. -/
structure Packed where
  mem : List ℚ
  count : ℕ
  increment : ℕ

/-- transition/base.py:98-108 `Transition.tolist`. -/
def trList (t : Tr) : List ℚ := t.1 ++ t.2

/-- base_model.pyx:444-451, pathways given by the user. No pathway has the shape `(0,)`, and pathways of different lengths do not form an
array of two axes: unpacking `shape[:2]` is a `ValueError` (or numpy refuses the list, which is a `ValueError` as well). Transitions with
different numbers of quantum numbers do not form an array of numbers. -/
def packGiven (n : ℕ) : List (List Tr) → Py Packed
  | [] => .error .valueError
  | p :: ps =>
    if ps.any fun q => q.length ≠ p.length then .error .valueError
    else
      let rows := (p :: ps).flatten.map trList
      if rows.any fun r => rows.any fun r' => r.length ≠ r'.length then .error .valueError
      else .ok ⟨rows.flatten, (p :: ps).length, 2 * n * p.length⟩

/-- base_model.pyx:441-443 and 450-451, pathways selected by the method: arrays of shape `(pathways, transitions, 2, sites)`. -/
def packSelected (n : ℕ) : List (List Tr) → Py Packed
  | [] => .error .valueError
  | p :: ps => .ok ⟨(p :: ps).flatten.flatMap fun t => t.1 ++ t.2, (p :: ps).length, 2 * n * p.length⟩

/-- `n` numbers from a place in the array on; `none` if that is not inside the array (the C code reads what happens to be there)
(base_model.pyx lines 439-448). -/
def readNums (mem : List ℚ) (off n : ℕ) : Option (List ℚ) :=
  if off + n ≤ mem.length then some ((mem.drop off).take n) else none

/-- mrsimulator.c:468-471: `mi = transition`, `mf = &transition[n_sites]`, for all sites; the couplings read the same numbers (545-548). -/
def readTr (mem : List ℚ) (n off : ℕ) : Option Tr :=
  match readNums mem off n, readNums mem (off + n) n with
  | some a, some b => some (a, b)
  | _, _ => none

/-- simulation.c:104-150: the loop over the events of a dimension. The pointer moves on by `transition_increment` after each event. -/
def eventReads (mem : List ℚ) (n : ℕ) : ℕ → ℕ → List (Option Tr) × ℕ
  | 0, off => ([], off)
  | e + 1, off => let r := eventReads mem n e (off + 2 * n); (readTr mem n off :: r.1, r.2)

/-- simulation.c:101-151: the loop over the dimensions, given by their numbers of events. The pointer is not set back between dimensions. -/
def dimReads (mem : List ℚ) (n : ℕ) : List ℕ → ℕ → List (Option Tr)
  | [], _ => []
  | e :: es, off => let r := eventReads mem n e off; r.1 ++ dimReads mem n es r.2

/-- base_model.pyx:468-474: the pathways one after the other, each from `pathway_increment*trans__` on. -/
def pathwayReads (n : ℕ) (events : List ℕ) (m : Packed) : List (List (Option Tr)) :=
  (List.range m.count).map fun t => dimReads m.mem n events (m.increment * t)

/-! ## Lemmas -/

theorem drop_flatMap (n : ℕ) (l : List Tr) (h : ∀ t ∈ l, t.1.length = n ∧ t.2.length = n) (j : ℕ) :
    (l.flatMap trList).drop (2 * n * j) = (l.drop j).flatMap trList := by
  induction l generalizing j with
  | nil => simp
  | cons t l ih =>
    cases j with
    | zero => simp
    | succ j =>
      have h0 := h t (by simp)
      have e : (trList t).length = 2 * n := by unfold trList; rw [List.length_append, h0.1, h0.2]; omega
      rw [List.flatMap_cons, List.drop_succ_cons, ← ih (fun x hx => h x (List.mem_cons_of_mem _ hx)) j,
        show 2 * n * (j + 1) = (trList t).length + 2 * n * j by rw [e]; ring, List.drop_append]
      simp [List.drop_eq_nil_of_le]

theorem length_flatMap (n : ℕ) (l : List Tr) (h : ∀ t ∈ l, t.1.length = n ∧ t.2.length = n) :
    (l.flatMap trList).length = 2 * n * l.length := by
  induction l with
  | nil => simp
  | cons t l ih =>
    have h0 := h t (by simp)
    rw [List.flatMap_cons, List.length_append, ih fun x hx => h x (List.mem_cons_of_mem _ hx)]
    unfold trList
    rw [List.length_append, h0.1, h0.2, List.length_cons]
    ring

/-- The number `j` of the transitions is read where it was put, and nothing is there behind the last one. -/
theorem readTr_flat (n : ℕ) (hn : 0 < n) (l : List Tr) (h : ∀ t ∈ l, t.1.length = n ∧ t.2.length = n) (j : ℕ) :
    readTr (l.flatMap trList) n (2 * n * j) = l[j]? := by
  unfold readTr readNums
  rw [length_flatMap n l h, ← List.drop_drop, drop_flatMap n l h]
  by_cases hj : j < l.length
  · have h0 : 2 * n * (j + 1) ≤ 2 * n * l.length := Nat.mul_le_mul_left _ hj
    have h0' : 2 * n * (j + 1) = 2 * n * j + 2 * n := by ring
    rw [if_pos (by omega), if_pos (by omega), List.drop_eq_getElem_cons hj, List.flatMap_cons]
    obtain ⟨h1, h2⟩ := h l[j] (List.getElem_mem hj)
    have e1 : (trList l[j] ++ (l.drop (j + 1)).flatMap trList).take n = l[j].1 := by
      unfold trList; rw [List.append_assoc, List.take_append_of_le_length (by omega), List.take_of_length_le (by omega)]
    have e2 : ((trList l[j] ++ (l.drop (j + 1)).flatMap trList).drop n).take n = l[j].2 := by
      unfold trList
      rw [List.append_assoc, List.drop_append, List.drop_eq_nil_of_le (by omega), List.nil_append, h1, Nat.sub_self, List.drop_zero,
        List.take_append_of_le_length (by omega), List.take_of_length_le (by omega)]
    rw [e1, e2, List.getElem?_eq_getElem hj]
  · have h0 : 2 * n * l.length ≤ 2 * n * j := Nat.mul_le_mul_left _ (by omega)
    rw [if_neg (by omega), List.getElem?_eq_none (by omega)]

theorem eventReads_flat (n : ℕ) (hn : 0 < n) (l : List Tr) (h : ∀ t ∈ l, t.1.length = n ∧ t.2.length = n) (e j : ℕ) :
    eventReads (l.flatMap trList) n e (2 * n * j) = ((List.range e).map fun k => l[j + k]?, 2 * n * (j + e)) := by
  induction e generalizing j with
  | zero => rfl
  | succ e ih =>
    unfold eventReads
    rw [show 2 * n * j + 2 * n = 2 * n * (j + 1) by ring, ih (j + 1), readTr_flat n hn l h, List.range_succ_eq_map, List.map_cons, List.map_map]
    simp only [Function.comp_def, Nat.succ_eq_add_one, Nat.add_zero]
    congr 1
    · congr 1
      exact List.map_congr_left fun k _ => by rw [show j + 1 + k = j + (k + 1) by omega]
    · ring

theorem dimReads_flat (n : ℕ) (hn : 0 < n) (l : List Tr) (h : ∀ t ∈ l, t.1.length = n ∧ t.2.length = n) (events : List ℕ) (j : ℕ) :
    dimReads (l.flatMap trList) n events (2 * n * j) = (List.range events.sum).map fun k => l[j + k]? := by
  induction events generalizing j with
  | nil => rfl
  | cons e es ih =>
    unfold dimReads
    rw [eventReads_flat n hn l h]
    simp only []
    rw [ih (j + e), List.sum_cons, List.range_add, List.map_append, List.map_map]
    simp only [Function.comp_def, Nat.add_assoc]

theorem flatten_getElem? {α : Type*} (ps : List (List α)) (t : ℕ) (h : ∀ p ∈ ps, p.length = t) (i : ℕ) (hi : i < ps.length) (k : ℕ)
    (hk : k < t) : ps.flatten[t * i + k]? = ps[i][k]? := by
  induction ps generalizing i with
  | nil => simp at hi
  | cons p ps ih =>
    have hp := h p (by simp)
    cases i with
    | zero => rw [List.flatten_cons, List.getElem?_append_left (by omega)]; simp
    | succ i =>
      rw [List.flatten_cons, List.getElem?_append_right (by rw [hp]; nlinarith),
        show t * (i + 1) + k - p.length = t * i + k by rw [hp, Nat.mul_succ]; omega,
        ih (fun q hq => h q (List.mem_cons_of_mem _ hq)) i (by simpa using hi)]
      rfl

/-- Whatever the number of events: event `k` of pathway `i` reads the transition `t i + k` of all transitions in a row, `t` being the number
of transitions of a pathway. -/
theorem reads_flat (n : ℕ) (hn : 0 < n) (p : List Tr) (ps : List (List Tr)) (events : List ℕ)
    (h : ∀ q ∈ p :: ps, ∀ t ∈ q, t.1.length = n ∧ t.2.length = n) :
    pathwayReads n events ⟨(p :: ps).flatten.flatMap trList, (p :: ps).length, 2 * n * p.length⟩ =
      (List.range (p :: ps).length).map fun i => (List.range events.sum).map fun k => (p :: ps).flatten[p.length * i + k]? := by
  unfold pathwayReads
  refine List.map_congr_left fun i _ => ?_
  rw [show 2 * n * p.length * i = 2 * n * (p.length * i) by ring]
  refine dimReads_flat n hn _ (fun t ht => ?_) _ _
  obtain ⟨q, hq, htq⟩ := List.mem_flatten.mp ht
  exact h q hq t htq

theorem reads_own (n : ℕ) (hn : 0 < n) (p : List Tr) (ps : List (List Tr)) (events : List ℕ)
    (h : ∀ q ∈ p :: ps, ∀ t ∈ q, t.1.length = n ∧ t.2.length = n) (hl : ∀ q ∈ p :: ps, q.length = p.length)
    (he : events.sum ≤ p.length) :
    pathwayReads n events ⟨(p :: ps).flatten.flatMap trList, (p :: ps).length, 2 * n * p.length⟩ =
      (p :: ps).map fun q => (q.take events.sum).map some := by
  rw [reads_flat n hn p ps events h]
  apply List.ext_getElem
  · simp
  · intro i h1 h2
    have hi : i < (p :: ps).length := by simpa using h2
    rw [List.getElem_map, List.getElem_map, List.getElem_range]
    have hq := hl _ (List.getElem_mem hi)
    apply List.ext_getElem
    · rw [List.length_map, List.length_map, List.length_range, List.length_take, hq, Nat.min_eq_left he]
    · intro k k1 k2
      have hk : k < events.sum := by simpa using k1
      rw [List.getElem_map, List.getElem_map, List.getElem_range, flatten_getElem? _ _ hl i hi k (by omega), List.getElem_take,
        List.getElem?_eq_getElem]

theorem eventTransitions_mem (so : SetOrder) (sites : List Iso) (channel : List String) (q : Query) (sel : List Tr)
    (h : eventTransitions so sites channel q = .ok sel) : sites ≠ [] ∧ ∀ t ∈ sel, Spec.IsTransition sites t := by
  have h0 := h
  unfold eventTransitions at h
  simp only [bind, Except.bind] at h
  cases hP : queryPermutations so q.P (sites.map Iso.symbol) channel with
  | error e => rw [hP] at h; cases h
  | ok outP =>
    rw [hP] at h
    by_cases hs : sites = []
    · simp only [if_pos hs] at h; cases h
    refine ⟨hs, fun t ht => ?_⟩
    obtain ⟨ha, hb⟩ := eventTransitions_eq so sites hs channel q outP hP
    cases hD : q.D with
    | none =>
      rw [ha hD] at h0
      injection h0 with h0
      subst h0
      exact (mem_allTransitions sites hs t).mp (List.mem_filter.mp ht).1
    | some d =>
      cases hd : queryPermutations so d (sites.map Iso.symbol) channel with
      | error e =>
        exfalso
        simp only [if_neg hs, hD, hd] at h
        revert h
        cases getSymmetryIndexes sites.length (List.map trP (allTransitions sites)) outP <;> intro h <;> cases h
      | ok outD =>
        rw [hb d outD hD hd] at h0
        injection h0 with h0
        subst h0
        exact (mem_allTransitions sites hs t).mp (List.mem_filter.mp (List.mem_filter.mp ht).1).1

theorem mapM_forall₂ {α β : Type} (f : α → Py β) (l : List α) (r : List β) (h : l.mapM f = .ok r) :
    List.Forall₂ (fun a b => f a = .ok b) l r := by
  induction l generalizing r with
  | nil => cases h; exact List.Forall₂.nil
  | cons a l ih =>
    rw [List.mapM_cons] at h
    cases e : f a with
    | error x => rw [e] at h; cases h
    | ok b =>
      cases e2 : l.mapM f with
      | error x => rw [e, e2] at h; cases h
      | ok bs =>
        rw [e, e2] at h
        cases h
        exact List.Forall₂.cons e (ih bs e2)

/-- Selected pathways have one transition per event, with quantum numbers of all sites. -/
theorem selected_shape (so : SetOrder) (sites : List Iso) (channel : List String) (dims : List (List Query)) (paths : List (List Tr))
    (h : transitionPathways so sites channel dims = .ok paths) :
    0 < sites.length ∧ ∀ p ∈ paths, p.length = (dims.map List.length).sum ∧ ∀ t ∈ p, t.1.length = sites.length ∧ t.2.length = sites.length := by
  unfold transitionPathways at h
  cases e : segments so sites channel dims with
  | error x => rw [e] at h; cases h
  | ok segs =>
    rw [e] at h
    simp only [bind, Except.bind] at h
    have hs : segs ≠ [] := by rintro rfl; cases h
    rw [pathwaysNp_eq segs hs] at h
    injection h with h
    subst h
    have hf := mapM_forall₂ _ _ _ e
    have hsum : (dims.map List.length).sum = segs.length := by rw [← List.length_flatten]; exact hf.length_eq
    have hseg : ∀ s ∈ segs, sites ≠ [] ∧ ∀ t ∈ s, Spec.IsTransition sites t := by
      intro s hs
      obtain ⟨i, hi, rfl⟩ := List.getElem_of_mem hs
      have := (List.forall₂_iff_get.mp hf).2 i (by rw [hf.length_eq]; exact hi) hi
      exact eventTransitions_mem so sites channel _ _ this
    constructor
    · obtain ⟨s, hs'⟩ := List.exists_mem_of_ne_nil _ hs
      exact List.length_pos_of_ne_nil (hseg s hs').1
    · intro q hq
      refine ⟨by rw [hsum]; exact length_of_mem_prod hq, ?_⟩
      intro t ht
      obtain ⟨i, hi, rfl⟩ := List.getElem_of_mem ht
      have hm := (mem_prod segs q).mp hq
      have hi' : i < segs.length := by rw [hm.length_eq]; exact hi
      have := (List.forall₂_iff_get.mp hm).2 i hi' hi
      have := (hseg _ (List.getElem_mem hi')).2 _ this
      exact ⟨state_length this.1, state_length this.2⟩

/-! ## Properties -/

/-- **C112**, pathways that the method selects: whenever the selection succeeds and is not empty, event `k` of pathway `i` reads the transition
`k` of pathway `i`, for every spin system, method and number of dimensions and events. -/
theorem C112_selected (so : SetOrder) (sites : List Iso) (channel : List String) (dims : List (List Query)) (paths : List (List Tr))
    (h : transitionPathways so sites channel dims = .ok paths) (hne : paths ≠ []) :
    ∃ m, packSelected sites.length paths = .ok m ∧
      pathwayReads sites.length (dims.map List.length) m = paths.map fun p => p.map some := by
  obtain ⟨hn, hshape⟩ := selected_shape so sites channel dims paths h
  cases paths with
  | nil => exact absurd rfl hne
  | cons p ps =>
    refine ⟨_, rfl, ?_⟩
    have hpl := (hshape p (by simp)).1
    refine (reads_own sites.length hn p ps _ (fun q hq => (hshape q hq).2) (fun q hq => by rw [(hshape q hq).1, hpl]) (by rw [hpl])).trans ?_
    refine List.map_congr_left fun q hq => ?_
    rw [List.take_of_length_le (by rw [(hshape q hq).1])]

/-- **C112** (partial), pathways that the user gives: with quantum numbers for all sites, and at least as many transitions as the method has
events, the same number in all pathways, event `k` of pathway `i` reads the transition `k` of pathway `i`; transitions beyond the events are
not used. Pathways of different lengths, or no pathway, are rejected. Missing: pathways with fewer transitions than events, and
transitions of other spin systems (`C112_counterexample`, `C112_counterexample_sites`). -/
theorem C112_given_partial (n : ℕ) (hn : 0 < n) (events : List ℕ) (paths : List (List Tr)) :
    (paths ≠ [] → ∀ len, events.sum ≤ len → (∀ p ∈ paths, p.length = len ∧ ∀ t ∈ p, t.1.length = n ∧ t.2.length = n) →
      ∃ m, packGiven n paths = .ok m ∧ pathwayReads n events m = paths.map fun p => (p.take events.sum).map some) ∧
    ((paths = [] ∨ ∃ p ∈ paths, ∃ q ∈ paths, p.length ≠ q.length) → packGiven n paths = .error .valueError) := by
  constructor
  · intro hne len he h
    cases paths with
    | nil => exact absurd rfl hne
    | cons p ps =>
      have hp := (h p (by simp)).1
      refine ⟨⟨(p :: ps).flatten.flatMap trList, (p :: ps).length, 2 * n * p.length⟩, ?_, ?_⟩
      · unfold packGiven
        simp only []
        rw [if_neg, if_neg]
        · rw [List.flatMap_def]
        · have key : ∀ r ∈ (p :: ps).flatten.map trList, r.length = n + n := by
            intro r hr
            obtain ⟨t, ht, rfl⟩ := List.mem_map.mp hr
            obtain ⟨q, hq, htq⟩ := List.mem_flatten.mp ht
            have := (h q hq).2 t htq
            unfold trList
            rw [List.length_append, this.1, this.2]
          simp only [List.any_eq_true, decide_eq_true_eq, not_exists, not_and, ne_eq, Decidable.not_not]
          intro r hr r' hr'
          rw [key r hr, key r' hr']
        · simp only [List.any_eq_true, decide_eq_true_eq, not_exists, not_and, ne_eq, Decidable.not_not]
          intro q hq
          rw [(h q (List.mem_cons_of_mem _ hq)).1, hp]
      · exact reads_own n hn p ps events (fun q hq => (h q hq).2) (fun q hq => by rw [(h q hq).1, hp]) (by rw [hp]; exact he)
  · rintro (rfl | ⟨p, hp, q, hq, hpq⟩)
    · rfl
    · cases paths with
      | nil => cases hp
      | cons a ps =>
        unfold packGiven
        simp only []
        rw [if_pos]
        simp only [List.any_eq_true, decide_eq_true_eq, ne_eq]
        by_cases hap : p.length = a.length
        · refine ⟨q, ?_, fun h => hpq (by rw [hap, h])⟩
          rcases List.mem_cons.mp hq with rfl | h
          · exact absurd hap hpq
          · exact h
        · refine ⟨p, ?_, hap⟩
          rcases List.mem_cons.mp hp with rfl | h
          · exact absurd rfl hap
          · exact h

/-- **C112**, disagreement: two pathways with one transition, for a method with two events. The second event of the first pathway reads the
transition of the second pathway, and that of the second pathway lies behind the end of the array. Nothing is rejected. -/
theorem C112_counterexample :
    (packGiven 1 [[([1/2], [-1/2])], [([3/2], [1/2])]]).map (pathwayReads 1 [1, 1]) =
      .ok [[some ([1/2], [-1/2]), some ([3/2], [1/2])], [some ([3/2], [1/2]), none]] := by
  decide +kernel

/-- **C112**, disagreement: a pathway with the quantum numbers of two sites in a spin system with one site. The final state is not read: the
initial states of the two sites are taken for the initial and the final state of the only site. -/
theorem C112_counterexample_sites :
    (packGiven 1 [[([1/2, 1/2], [-1/2, 1/2])]]).map (pathwayReads 1 [1]) = .ok [[some ([1/2], [1/2])]] := by
  decide +kernel

/-- The hypotheses of both theorems are met: selected pathways of two events, and given pathways with a transition more than needed. -/
example : transitionPathways stdOrder [⟨"17O", 5⟩] ["17O"]
      [[⟨[(1, [[5], [-5]])], none⟩], [⟨[(1, [[-1]])], some [(1, [[0]])]⟩]] =
      .ok [[([-5/2], [5/2]), ([1/2], [-1/2])], [([5/2], [-5/2]), ([1/2], [-1/2])]] ∧
    (packSelected 1 [[([-5/2], [5/2]), ([1/2], [-1/2])], [([5/2], [-5/2]), ([1/2], [-1/2])]]).map (pathwayReads 1 [1, 1]) =
      .ok [[some ([-5/2], [5/2]), some ([1/2], [-1/2])], [some ([5/2], [-5/2]), some ([1/2], [-1/2])]] ∧
    (packGiven 1 [[([-5/2], [5/2]), ([1/2], [-1/2])], [([5/2], [-5/2]), ([1/2], [-1/2])]]).map (pathwayReads 1 [1]) =
      .ok [[some ([-5/2], [5/2])], [some ([5/2], [-5/2])]] ∧
    packGiven 1 [[([1/2], [-1/2])], []] = .error .valueError := by
  refine ⟨by decide +kernel, by decide +kernel, by decide +kernel, ?_⟩
  exact (C112_given_partial 1 (by decide) [1] [[([1/2], [-1/2])], []]).2 (Or.inr ⟨_, List.mem_cons_self, [], by simp, by simp⟩)

end MRS.Trans
