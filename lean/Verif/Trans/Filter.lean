import Verif.Trans.Props
import Mathlib.Tactic.Linarith
import Mathlib.Tactic.Positivity
import Mathlib.Tactic.NormNum

/-!
# Transition attributes and `TransitionList.filter` — property C13
-/

namespace MRS.Trans

/-! ## Model -/

/-- NumPy elementwise operation on one-dimensional arrays: equal lengths, or one of
length one that is repeated, otherwise `ValueError`. -/
def bcast {α β γ} (f : α → β → γ) (a : List α) (b : List β) : Py (List γ) :=
  if a.length = b.length then .ok (List.zipWith f a b)
  else match a, b with
    | [x], b => .ok (b.map (f x))
    | a, [y] => .ok (a.map fun x => f x y)
    | _, _ => .error .valueError

/-- transition/base.py:67-76 `Transition.P`; the two states may have any length. -/
def npP (t : Tr) : Py (List ℚ) := bcast (fun f i => f - i) t.2 t.1

/-- transition/base.py:83-92 `Transition.D`. -/
def npD (t : Tr) : Py (List ℚ) :=
  bcast (fun f i => f - i) (t.2.map fun x => x ^ 2) (t.1.map fun x => x ^ 2)

/-- transition/base.py:52-60 `Transition.p`. -/
def npp (t : Tr) : Py ℚ := do return (← npP t).sum

/-- `np.isclose` with the default tolerances `rtol = 1e-5`, `atol = 1e-8`. -/
def isclose (a b : ℚ) : Bool := |a - b| ≤ 1 / 10 ^ 8 + 1 / 10 ^ 5 * |b|

/-- `np.allclose(a, b)`. -/
def allclose (a b : List ℚ) : Py Bool := do return (← bcast isclose a b).all id

/-- A list comprehension `[item for item in l if cond(item)]` whose condition may
raise. -/
def filterPy {α} (cond : α → Py Bool) : List α → Py (List α)
  | [] => .ok []
  | x :: l => do
    let b ← cond x
    let r ← filterPy cond l
    return if b then x :: r else r

/-- transition/pathway.py:32-66 `TransitionList.filter(P, PP, D)`; `PP` has no effect. -/
def filterList (ts : List Tr) (P _PP D : Option (List ℚ)) : Py (List Tr) := do
  let ts ← match P with
    | none => .ok ts
    | some p => filterPy (fun t => do allclose (← npP t) p) ts
  match D with
  | none => .ok ts
  | some d => filterPy (fun t => do allclose (← npD t) d) ts

/-! ## Specification -/

namespace Spec

/-- A number that is a multiple of one quarter. -/
def Quarter (x : ℚ) : Prop := ∃ k : ℤ, x = k / 4

/-- A quantum number: multiple of one half. -/
def HalfInt (x : ℚ) : Prop := ∃ k : ℤ, x = k / 2

/-- A transition between states of `n` sites with half-integer quantum numbers. -/
def WellFormed (n : Nat) (t : Tr) : Prop :=
  t.1.length = n ∧ t.2.length = n ∧ (∀ x ∈ t.1, HalfInt x) ∧ ∀ x ∈ t.2, HalfInt x

/-- A search value: one entry per site, multiples of one quarter of moderate size
(so that the relative tolerance cannot blur two of them). -/
def Search (n : Nat) (l : List ℚ) : Prop :=
  l.length = n ∧ ∀ x ∈ l, Quarter x ∧ |x| ≤ 10000

/-- The reversed transition. -/
def reverse (t : Tr) : Tr := (t.2, t.1)

end Spec

/-! ## Lemmas -/

theorem bcast_eq {α β γ} (f : α → β → γ) (a : List α) (b : List β) (h : a.length = b.length) :
    bcast f a b = .ok (List.zipWith f a b) := by
  unfold bcast
  rw [if_pos h]

theorem npP_eq (t : Tr) (h : t.1.length = t.2.length) : npP t = .ok (Spec.dm t) :=
  bcast_eq _ _ _ h.symm

theorem npD_eq (t : Tr) (h : t.1.length = t.2.length) : npD t = .ok (Spec.dm2 t) := by
  unfold npD
  rw [bcast_eq _ _ _ (by simpa using h.symm), List.zipWith_map]
  rfl

theorem isclose_quarter (a b : ℚ) (ha : Spec.Quarter a) (hb : Spec.Quarter b)
    (hs : |b| ≤ 10000) : isclose a b = decide (a = b) := by
  unfold isclose
  by_cases hab : a = b
  · subst hab
    simp only [sub_self, abs_zero, decide_true, decide_eq_true_eq]
    positivity
  · simp only [hab, decide_false, decide_eq_false_iff_not, not_le]
    obtain ⟨k, rfl⟩ := ha
    obtain ⟨m, rfl⟩ := hb
    have hne : k - m ≠ 0 := by
      intro h
      apply hab
      have : k = m := by omega
      rw [this]
    have h1 : (1 : ℚ) ≤ |((k - m : ℤ) : ℚ)| := by
      have := Int.one_le_abs hne
      rw [← Int.cast_abs]
      exact_mod_cast this
    have h2 : (k : ℚ) / 4 - m / 4 = ((k - m : ℤ) : ℚ) / 4 := by push_cast; ring
    have h3 : |((k - m : ℤ) : ℚ) / 4| = |((k - m : ℤ) : ℚ)| / 4 := by
      rw [abs_div]; norm_num
    rw [h2, h3]
    have : (1 : ℚ) / 10 ^ 5 * |(m : ℚ) / 4| ≤ 1 / 10 ^ 5 * 10000 :=
      mul_le_mul_of_nonneg_left hs (by norm_num)
    have h5 : (1 : ℚ) / 4 ≤ |((k - m : ℤ) : ℚ)| / 4 := by linarith
    calc 1 / 10 ^ 8 + 1 / 10 ^ 5 * |(m : ℚ) / 4| ≤ 1 / 10 ^ 8 + 1 / 10 ^ 5 * 10000 := by linarith
      _ < 1 / 4 := by norm_num
      _ ≤ _ := h5

theorem allclose_quarter (a b : List ℚ) (hl : a.length = b.length)
    (ha : ∀ x ∈ a, Spec.Quarter x) (hb : ∀ x ∈ b, Spec.Quarter x ∧ |x| ≤ 10000) :
    allclose a b = .ok (decide (a = b)) := by
  unfold allclose
  rw [bcast_eq _ _ _ hl]
  simp only [bind, Except.bind, pure, Except.pure]
  congr 1
  induction a generalizing b with
  | nil => cases b with
    | nil => rfl
    | cons y b => simp at hl
  | cons x a ih =>
    cases b with
    | nil => simp at hl
    | cons y b =>
      simp only [List.zipWith_cons_cons, List.all_cons, id]
      rw [ih b (by simpa using hl) (fun z hz => ha z (by simp [hz]))
        (fun z hz => hb z (by simp [hz])), isclose_quarter x y (ha x (by simp))
        (hb y (by simp)).1 (hb y (by simp)).2]
      simp only [List.cons.injEq, Bool.decide_and]

theorem filterPy_ok {α} (cond : α → Py Bool) (p : α → Bool) (l : List α)
    (h : ∀ x ∈ l, cond x = .ok (p x)) : filterPy cond l = .ok (l.filter p) := by
  induction l with
  | nil => rfl
  | cons x l ih =>
    simp only [filterPy]
    rw [h x (by simp), ih (fun y hy => h y (by simp [hy]))]
    simp only [bind, Except.bind, pure, Except.pure, List.filter_cons]

theorem quarter_dm {n : Nat} {t : Tr} (h : Spec.WellFormed n t) :
    ∀ x ∈ Spec.dm t, Spec.Quarter x := by
  intro x hx
  obtain ⟨i, hi, rfl⟩ := List.getElem_of_mem hx
  simp only [Spec.dm, List.length_zipWith] at hi
  simp only [Spec.dm, List.getElem_zipWith]
  obtain ⟨a, ha⟩ := h.2.2.2 _ (List.getElem_mem (show i < t.2.length by omega))
  obtain ⟨b, hb⟩ := h.2.2.1 _ (List.getElem_mem (show i < t.1.length by omega))
  rw [ha, hb]
  exact ⟨2 * a - 2 * b, by push_cast; ring⟩

theorem quarter_dm2 {n : Nat} {t : Tr} (h : Spec.WellFormed n t) :
    ∀ x ∈ Spec.dm2 t, Spec.Quarter x := by
  intro x hx
  obtain ⟨i, hi, rfl⟩ := List.getElem_of_mem hx
  simp only [Spec.dm2, List.length_zipWith] at hi
  simp only [Spec.dm2, List.getElem_zipWith]
  obtain ⟨a, ha⟩ := h.2.2.2 _ (List.getElem_mem (show i < t.2.length by omega))
  obtain ⟨b, hb⟩ := h.2.2.1 _ (List.getElem_mem (show i < t.1.length by omega))
  rw [ha, hb]
  exact ⟨a ^ 2 - b ^ 2, by push_cast; ring⟩

theorem neg_zipWith_sub (g : ℚ → ℚ) (a b : List ℚ) :
    List.zipWith (fun x y => g x - g y) a b =
      (List.zipWith (fun x y => g x - g y) b a).map fun x => -x := by
  induction a generalizing b with
  | nil => simp
  | cons x a ih => cases b with
    | nil => simp
    | cons y b => simp [ih b]

theorem sum_zipWith_sub (a b : List ℚ) (h : a.length = b.length) :
    (List.zipWith (fun x y => x - y) a b).sum = a.sum - b.sum := by
  induction a generalizing b with
  | nil => cases b with
    | nil => simp
    | cons _ _ => simp at h
  | cons x a ih => cases b with
    | nil => simp at h
    | cons y b =>
      simp only [List.zipWith_cons_cons, List.sum_cons]
      rw [ih b (by simpa using h)]
      ring

/-! ## Properties -/

/-- **C13**, attributes: for a transition between states of equal length, entry `k` of
`P` is the change at site `k`, of `D` the change of the square, and `p` is the change
of the total. -/
theorem C13_attributes (t : Tr) (h : t.1.length = t.2.length) :
    ∃ P D, npP t = .ok P ∧ npD t = .ok D ∧ npp t = .ok (t.2.sum - t.1.sum) ∧
      P.length = t.1.length ∧ D.length = t.1.length ∧
      ∀ k (hk : k < t.1.length),
        P.getD k 0 = (t.2[k]'(h ▸ hk)) - t.1[k] ∧
        D.getD k 0 = (t.2[k]'(h ▸ hk)) ^ 2 - t.1[k] ^ 2 := by
  refine ⟨Spec.dm t, Spec.dm2 t, npP_eq t h, npD_eq t h, ?_, ?_, ?_, ?_⟩
  · unfold npp
    rw [npP_eq t h]
    simp only [bind, Except.bind, pure, Except.pure, Spec.dm]
    rw [sum_zipWith_sub _ _ h.symm]
  · simp [Spec.dm, h]
  · simp [Spec.dm2, h]
  · intro k hk
    have hk2 : k < t.2.length := h ▸ hk
    rw [List.getD_eq_getElem _ _ (by simp [Spec.dm]; omega),
      List.getD_eq_getElem _ _ (by simp [Spec.dm2]; omega)]
    simp [Spec.dm, Spec.dm2]

/-- **C13**, reversal: exchanging initial and final state negates `p`, `P` and `D`. -/
theorem C13_reverse (t : Tr) (h : t.1.length = t.2.length) :
    ∃ p P D, npp t = .ok p ∧ npP t = .ok P ∧ npD t = .ok D ∧
      npp (Spec.reverse t) = .ok (-p) ∧
      npP (Spec.reverse t) = .ok (P.map fun x => -x) ∧
      npD (Spec.reverse t) = .ok (D.map fun x => -x) := by
  obtain ⟨P, D, h1, h2, h3, -⟩ := C13_attributes t h
  obtain ⟨P', D', h1', h2', h3', -⟩ := C13_attributes (Spec.reverse t) h.symm
  refine ⟨_, P, D, h3, h1, h2, ?_, ?_, ?_⟩
  · rw [h3']
    simp only [Spec.reverse]
    congr 1; ring
  · rw [npP_eq t h] at h1
    injection h1 with h1
    rw [npP_eq _ (by exact h.symm), ← h1]
    congr 1
    exact neg_zipWith_sub id t.1 t.2
  · rw [npD_eq t h] at h2
    injection h2 with h2
    rw [npD_eq _ (by exact h.symm), ← h2]
    congr 1
    exact neg_zipWith_sub (fun x => x ^ 2) t.1 t.2

/-- **C13**, filter: on transitions of an `n`-site system with half-integer quantum
numbers and search values with one entry per site, the filter keeps, in order, exactly
the members with the given `P` and `D`. -/
theorem C13_filter (n : Nat) (ts : List Tr) (hts : ∀ t ∈ ts, Spec.WellFormed n t)
    (P PP D : Option (List ℚ)) (hP : ∀ p, P = some p → Spec.Search n p)
    (hD : ∀ d, D = some d → Spec.Search n d) :
    filterList ts P PP D = .ok (ts.filter fun t =>
      decide (∀ p, P = some p → Spec.dm t = p) && decide (∀ d, D = some d → Spec.dm2 t = d)) := by
  have stepP : ∀ p, Spec.Search n p → ∀ t ∈ ts,
      (do allclose (← npP t) p : Py Bool) = .ok (decide (Spec.dm t = p)) := by
    intro p hp t ht
    have hw := hts t ht
    rw [npP_eq t (by rw [hw.1, hw.2.1])]
    simp only [bind, Except.bind]
    refine allclose_quarter _ _ ?_ (quarter_dm hw) hp.2
    rw [hp.1]; simp [Spec.dm, hw.1, hw.2.1]
  have stepD : ∀ d, Spec.Search n d → ∀ t ∈ ts,
      (do allclose (← npD t) d : Py Bool) = .ok (decide (Spec.dm2 t = d)) := by
    intro d hd t ht
    have hw := hts t ht
    rw [npD_eq t (by rw [hw.1, hw.2.1])]
    simp only [bind, Except.bind]
    refine allclose_quarter _ _ ?_ (quarter_dm2 hw) hd.2
    rw [hd.1]; simp [Spec.dm2, hw.1, hw.2.1]
  unfold filterList
  cases P with
  | none =>
    cases D with
    | none => simp [bind, Except.bind]
    | some d =>
      simp only [bind, Except.bind]
      have := filterPy_ok _ _ ts (stepD d (hD d rfl))
      simp only [bind, Except.bind] at this
      rw [this]
      congr 1
      apply List.filter_congr
      intro t _
      simp
  | some p =>
    have h1 := filterPy_ok _ _ ts (stepP p (hP p rfl))
    simp only [bind, Except.bind] at h1
    cases D with
    | none =>
      simp only [bind, Except.bind]
      rw [h1]
      simp only []
      congr 1
      apply List.filter_congr
      intro t _
      simp
    | some d =>
      simp only [bind, Except.bind]
      rw [h1]
      simp only []
      have := filterPy_ok _ _ (ts.filter fun t => decide (Spec.dm t = p))
        (fun t ht => stepD d (hD d rfl) t (List.mem_of_mem_filter ht))
      simp only [bind, Except.bind] at this
      rw [this, List.filter_filter]
      congr 1
      apply List.filter_congr
      intro t _
      simp only [Option.some.injEq, forall_eq']
      rw [Bool.and_comm]

/-- Non-vacuity: the filter on all transitions of a two-spin system. -/
example : filterList (allTransitions [⟨"1H", 1⟩, ⟨"1H", 1⟩]) (some [-1, 0]) none (some [0, 0]) =
    .ok [([1/2, -1/2], [-1/2, -1/2]), ([1/2, 1/2], [-1/2, 1/2])] := by decide +kernel

/-- **C13**, disagreement outside the documented inputs: a search list of one entry is
repeated over all sites instead of being rejected, and a `PP` criterion is ignored. -/
theorem C13_counterexample_inputs :
    filterList [([1/2, 1/2], [-1/2, -1/2])] (some [-1]) none none =
      .ok [([1/2, 1/2], [-1/2, -1/2])] ∧
    (∀ ts PP, filterList ts none PP none = .ok ts) := by
  exact ⟨by decide +kernel, fun _ _ => rfl⟩

end MRS.Trans
