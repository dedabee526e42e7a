import Verif.Trans.Model
import Mathlib.Data.List.Lex
import Mathlib.Algebra.BigOperators.Group.List.Basic
import Mathlib.Algebra.Order.Field.Rat
import Mathlib.Data.List.ProdSigma
import Mathlib.Tactic.NormNum
import Mathlib.Data.List.GetD
import Mathlib.Algebra.Group.Nat.Even
import Mathlib.Algebra.GroupWithZero.Action.Defs

/-!
# Energy states and the list of all transitions (C07, C08)
-/

namespace MRS.Trans

/-! ## Specification -/

namespace Spec

/-- `m` is one of `-I, -I + 1, ..., I` for the spin `I = twoI / 2`. -/
def Allowed (s : Iso) (m : ℚ) : Prop := ∃ k : ℕ, k ≤ s.twoI ∧ m = -(s.twoI : ℚ) / 2 + k

/-- One allowed quantum number for every site. -/
def IsState (sites : List Iso) (st : State) : Prop := List.Forall₂ Allowed sites st

end Spec

/-! ## Lemmas -/

/-- Lexicographically ordered product. -/
def prod {α} : List (List α) → List (List α)
  | [] => [[]]
  | l :: ls => l.flatMap fun x => (prod ls).map fun t => x :: t

theorem mem_prod {α} (ls : List (List α)) (t : List α) :
    t ∈ prod ls ↔ List.Forall₂ (fun l x => x ∈ l) ls t := by
  induction ls generalizing t with
  | nil => cases t <;> simp [prod]
  | cons l ls ih =>
    simp only [prod, List.mem_flatMap, List.mem_map]
    constructor
    · rintro ⟨x, hx, u, hu, rfl⟩
      exact List.Forall₂.cons hx ((ih u).mp hu)
    · intro h
      cases h with
      | cons hx hu => exact ⟨_, hx, _, (ih _).mpr hu, rfl⟩

theorem length_of_mem_prod {α} {ls : List (List α)} {t : List α} (h : t ∈ prod ls) :
    t.length = ls.length := ((mem_prod ls t).mp h).length_eq.symm

theorem length_prod {α} (ls : List (List α)) :
    (prod ls).length = (ls.map List.length).prod := by
  induction ls with
  | nil => simp [prod]
  | cons l ls ih =>
    simp only [prod, List.length_flatMap, List.length_map, ih, List.map_cons, List.prod_cons]
    simp

theorem pairwise_prod {α} {R : α → α → Prop} (ls : List (List α))
    (h : ∀ l ∈ ls, l.Pairwise R) : (prod ls).Pairwise (List.Lex R) := by
  induction ls with
  | nil => simp [prod]
  | cons l ls ih =>
    have ih := ih (fun m hm => h m (by simp [hm]))
    simp only [prod, List.pairwise_flatMap]
    refine ⟨fun x _ => ?_, ?_⟩
    · rw [List.pairwise_map]
      exact ih.imp fun hab => List.Lex.cons hab
    · refine (h l (by simp)).imp ?_
      intro a b hab t ht u hu
      obtain ⟨t', _, rfl⟩ := List.mem_map.mp ht
      obtain ⟨u', _, rfl⟩ := List.mem_map.mp hu
      exact List.Lex.rel hab

theorem kron_one (b : List ℚ) : kron [1] b = b := by simp [kron]

theorem kron_assoc (a b c : List ℚ) : kron (kron a b) c = kron a (kron b c) := by
  simp only [kron, List.flatMap_assoc, List.flatMap_map, List.map_flatMap, List.map_map,
    Function.comp_def, mul_assoc]

/-- Right-nested version of `column`, numbering sites from `st`. -/
def colFrom (j : Nat) : List Iso → Nat → List ℚ
  | [], _ => [1]
  | s :: ss, st => kron (if st = j then spinNumbers s else List.replicate (s.twoI + 1) 1)
      (colFrom j ss (st + 1))

theorem kron_one_right (a : List ℚ) : kron a [1] = a := by
  simp only [kron, List.map_cons, List.map_nil, mul_one]
  induction a with
  | nil => rfl
  | cons x a ih => simp

theorem column_foldl (j : Nat) (sites : List Iso) (st : Nat) (k : List ℚ) :
    (sites.zipIdx st).foldl (fun k si =>
      kron k (if si.2 = j then spinNumbers si.1 else List.replicate (si.1.twoI + 1) 1)) k
      = kron k (colFrom j sites st) := by
  induction sites generalizing st k with
  | nil => simp [colFrom, kron_one_right]
  | cons s ss ih =>
    rw [List.zipIdx_cons, List.foldl_cons, ih, kron_assoc]
    rfl

theorem spinNumbers_length (s : Iso) : (spinNumbers s).length = s.twoI + 1 := by
  simp [spinNumbers]

/-- Number of states. -/
def nStates (sites : List Iso) : Nat := (sites.map fun s => s.twoI + 1).prod

theorem kron_replicate (a b : Nat) :
    kron (List.replicate a 1) (List.replicate b 1) = List.replicate (a * b) 1 := by
  induction a with
  | zero => simp [kron]
  | succ a ih =>
    have : kron (List.replicate (a + 1) 1) (List.replicate b 1) =
        List.replicate b 1 ++ kron (List.replicate a 1) (List.replicate b 1) := by
      simp [kron, List.replicate_succ]
    rw [this, ih, List.replicate_append_replicate]
    congr 1; ring

theorem colFrom_lt (j : Nat) (sites : List Iso) (st : Nat) (h : j < st) :
    colFrom j sites st = List.replicate (nStates sites) 1 := by
  induction sites generalizing st with
  | nil => simp [colFrom, nStates]
  | cons s ss ih =>
    have hne : st ≠ j := by omega
    simp only [colFrom, hne, if_false]
    rw [ih (st + 1) (by omega), kron_replicate]
    simp [nStates]

theorem flatMap_congr_const {α β : Type*} (l : List α) (m : Nat) (c : List β)
    (h : l.length = m) : l.flatMap (fun _ => c) = (List.replicate m c).flatten := by
  subst h
  rw [← List.map_const', List.flatMap_def]

theorem length_prod_spin (sites : List Iso) :
    (prod (sites.map spinNumbers)).length = nStates sites := by
  rw [length_prod, List.map_map]
  simp [nStates, Function.comp_def, spinNumbers_length]

theorem colFrom_eq (sites : List Iso) (st i : Nat) (h : i < sites.length) :
    colFrom (st + i) sites st = (prod (sites.map spinNumbers)).map fun t => t.getD i 0 := by
  induction sites generalizing st i with
  | nil => simp at h
  | cons s ss ih =>
    cases i with
    | zero =>
      simp only [colFrom, Nat.add_zero, if_true]
      rw [colFrom_lt _ _ _ (by omega)]
      simp only [kron, prod, List.map_cons, List.map_flatMap, List.map_map, Function.comp_def,
        List.getD_cons_zero, List.map_replicate, mul_one]
      congr 1
      funext x
      rw [List.map_const', length_prod_spin]
    | succ i =>
      have hne : st ≠ st + (i + 1) := by omega
      simp only [colFrom, hne, if_false]
      have e : st + (i + 1) = (st + 1) + i := by omega
      rw [e, ih (st + 1) i (by simpa using h)]
      simp only [kron, prod, List.map_cons, List.map_flatMap, List.map_map, Function.comp_def,
        List.getD_cons_succ]
      rw [flatMap_congr_const _ (s.twoI + 1) _ (spinNumbers_length s)]
      induction s.twoI + 1 with
      | zero => simp
      | succ m ihm =>
        rw [List.replicate_succ, List.replicate_succ, List.flatMap_cons, List.flatten_cons, ihm]
        simp

theorem column_eq (sites : List Iso) (i : Nat) (h : i < sites.length) :
    column sites i = (prod (sites.map spinNumbers)).map fun t => t.getD i 0 := by
  unfold column
  rw [column_foldl, kron_one]
  have := colFrom_eq sites 0 i h
  simpa using this

theorem zeemanStates_eq (sites : List Iso) (h : sites ≠ []) :
    zeemanStates sites = prod (sites.map spinNumbers) := by
  set p := prod (sites.map spinNumbers) with hp
  have hcols : (List.range sites.length).map (column sites) =
      (List.range sites.length).map fun i => p.map fun t => t.getD i 0 := by
    apply List.map_congr_left
    intro i hi
    exact column_eq sites i (List.mem_range.mp hi)
  unfold zeemanStates
  rw [hcols]
  obtain ⟨n, hn⟩ : ∃ n, sites.length = n + 1 :=
    Nat.exists_eq_succ_of_ne_zero (by simpa using h)
  have hlen : ∀ t ∈ p, t.length = sites.length := by
    intro t ht
    have := length_of_mem_prod ht
    simpa using this
  rw [hn, List.range_succ_eq_map, List.map_cons]
  simp only [transpose]
  rw [← List.map_cons (f := fun i => p.map fun t => t.getD i 0), ← List.range_succ_eq_map]
  apply List.ext_getElem
  · simp
  · intro s h1 h2
    simp only [List.getElem_map, List.getElem_range, List.map_map, Function.comp_def]
    have hs : s < p.length := h2
    have hl : p[s].length = n + 1 := by rw [hlen _ (List.getElem_mem hs), hn]
    apply List.ext_getElem
    · simp [hl]
    · intro i h3 h4
      simp only [List.getElem_map, List.getElem_range]
      rw [List.getD_eq_getElem _ _ (by simpa using hs)]
      simp only [List.getElem_map]
      rw [List.getD_eq_getElem _ _ h4]

theorem mem_spinNumbers (s : Iso) (m : ℚ) : m ∈ spinNumbers s ↔ Spec.Allowed s m := by
  simp only [spinNumbers, List.mem_map, List.mem_range, Spec.Allowed]
  constructor
  · rintro ⟨k, hk, rfl⟩
    exact ⟨k, by omega, by ring⟩
  · rintro ⟨k, hk, rfl⟩
    exact ⟨k, by omega, by ring⟩

theorem spinNumbers_pairwise (s : Iso) : (spinNumbers s).Pairwise (· < ·) := by
  rw [spinNumbers, List.pairwise_map]
  refine List.pairwise_lt_range.imp ?_
  intro a b hab
  have : (a : ℚ) < b := by exact_mod_cast hab
  linarith

theorem mem_states_iff (sites : List Iso) (h : sites ≠ []) (st : State) :
    st ∈ zeemanStates sites ↔ Spec.IsState sites st := by
  rw [zeemanStates_eq sites h, mem_prod, Spec.IsState, List.forall₂_map_left_iff]
  constructor
  · exact fun hf => hf.imp fun a b hab => (mem_spinNumbers a b).mp hab
  · exact fun hf => hf.imp fun a b hab => (mem_spinNumbers a b).mpr hab

theorem states_pairwise (sites : List Iso) (h : sites ≠ []) :
    (zeemanStates sites).Pairwise (· < ·) := by
  rw [zeemanStates_eq sites h]
  refine (pairwise_prod (R := (· < ·)) _ ?_).imp fun hab => hab
  intro l hl
  obtain ⟨s, _, rfl⟩ := List.mem_map.mp hl
  exact spinNumbers_pairwise s

theorem allTransitions_eq (sites : List Iso) :
    allTransitions sites = (zeemanStates sites).flatMap fun a =>
      (zeemanStates sites).map fun b => (a, b) := by
  unfold allTransitions
  set states := zeemanStates sites with hst
  simp only [List.map_flatMap, List.map_map, Function.comp_def]
  have hX : ∀ a b, a < states.length → b < states.length →
      (((List.range states.length).map fun _ => List.range states.length).getD b []).getD a 0
        = a := by
    intro a b ha hb
    simp [List.getD_eq_getElem?_getD, ha, hb]
  have hY : ∀ a b, a < states.length → b < states.length →
      (((List.range states.length).map fun i =>
        (List.range states.length).map fun _ => i).getD b []).getD a 0 = b := by
    intro a b ha hb
    simp [List.getD_eq_getElem?_getD, ha, hb]
  have hmap : ∀ {β : Type} (f : State → β),
      (List.range states.length).map (fun b => f (states.getD b [])) = states.map f := by
    intro β f
    apply List.ext_getElem
    · simp
    · intro i h1 h2
      simp only [List.getElem_map, List.getElem_range]
      rw [List.getD_eq_getElem _ _ (by simpa using h2)]
  have hflat : ∀ {β : Type} (f : State → List β),
      (List.range states.length).flatMap (fun b => f (states.getD b [])) = states.flatMap f := by
    intro β f
    rw [List.flatMap_def, List.flatMap_def, hmap f]
  rw [← hflat (fun a => states.map fun b => (a, b))]
  rw [List.flatMap_def, List.flatMap_def]
  congr 1
  apply List.map_congr_left
  intro a ha
  rw [← hmap (fun b => (states.getD a [], b))]
  apply List.map_congr_left
  intro b hb
  rw [hX a b (List.mem_range.mp ha) (List.mem_range.mp hb),
    hY a b (List.mem_range.mp ha) (List.mem_range.mp hb)]

theorem mem_allTransitions (sites : List Iso) (h : sites ≠ []) (t : Tr) :
    t ∈ allTransitions sites ↔ Spec.IsState sites t.1 ∧ Spec.IsState sites t.2 := by
  rw [allTransitions_eq]
  simp only [List.mem_flatMap, List.mem_map]
  constructor
  · rintro ⟨a, ha, b, hb, rfl⟩
    exact ⟨(mem_states_iff sites h a).mp ha, (mem_states_iff sites h b).mp hb⟩
  · rintro ⟨h1, h2⟩
    exact ⟨t.1, (mem_states_iff sites h _).mpr h1, t.2, (mem_states_iff sites h _).mpr h2, rfl⟩

/-! ## Properties -/

/-- **C07**. For a non-empty spin system the energy states are exactly the allowed
combinations, in strictly increasing lexicographic order (hence each once), and
there are `∏ (2 I_k + 1)` of them. -/
theorem C07_zeeman_states (sites : List Iso) (h : sites ≠ []) :
    (∀ st, st ∈ zeemanStates sites ↔ Spec.IsState sites st) ∧
    (zeemanStates sites).Pairwise (· < ·) ∧
    (zeemanStates sites).Nodup ∧
    (zeemanStates sites).length = (sites.map fun s => s.twoI + 1).prod := by
  refine ⟨mem_states_iff sites h, states_pairwise sites h, ?_, ?_⟩
  · exact (states_pairwise sites h).imp fun hab => ne_of_lt hab
  · rw [zeemanStates_eq sites h, length_prod_spin]; rfl

example : zeemanStates [⟨"1H", 1⟩, ⟨"2H", 2⟩] =
    [[-1/2, -1], [-1/2, 0], [-1/2, 1], [1/2, -1], [1/2, 0], [1/2, 1]] := by decide +kernel

/-- **C08**. All transitions: exactly the ordered pairs of states, ordered by
initial then final state, each once. -/
theorem C08_all_transitions (sites : List Iso) (h : sites ≠ []) :
    (∀ t, t ∈ allTransitions sites ↔ Spec.IsState sites t.1 ∧ Spec.IsState sites t.2) ∧
    (allTransitions sites).Pairwise (fun t u => t.1 < u.1 ∨ (t.1 = u.1 ∧ t.2 < u.2)) ∧
    (allTransitions sites).Nodup ∧
    (allTransitions sites).length = ((sites.map fun s => s.twoI + 1).prod) ^ 2 := by
  have hp : (allTransitions sites).Pairwise
      (fun t u => t.1 < u.1 ∨ (t.1 = u.1 ∧ t.2 < u.2)) := by
    rw [allTransitions_eq, List.pairwise_flatMap]
    refine ⟨fun a _ => ?_, ?_⟩
    · rw [List.pairwise_map]
      exact (states_pairwise sites h).imp fun hab => Or.inr ⟨rfl, hab⟩
    · refine (states_pairwise sites h).imp ?_
      intro a b hab t ht u hu
      obtain ⟨_, _, rfl⟩ := List.mem_map.mp ht
      obtain ⟨_, _, rfl⟩ := List.mem_map.mp hu
      exact Or.inl hab
  refine ⟨mem_allTransitions sites h, hp, ?_, ?_⟩
  · refine hp.imp ?_
    rintro t u (h1 | ⟨h1, h2⟩) rfl
    · exact lt_irrefl _ h1
    · exact lt_irrefl _ h2
  · rw [allTransitions_eq]
    simp only [List.length_flatMap, List.length_map]
    have := (C07_zeeman_states sites h).2.2.2
    simp only [List.map_const', List.sum_replicate, smul_eq_mul, this, pow_two]

example : allTransitions [⟨"1H", 1⟩] =
    [([-1/2], [-1/2]), ([-1/2], [1/2]), ([1/2], [-1/2]), ([1/2], [1/2])] := by decide +kernel

end MRS.Trans
