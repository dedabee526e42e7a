import Verif.Bin.Tent
import Mathlib.Algebra.BigOperators.Intervals

/-!
# Binning — properties C35, C36, C37
-/

namespace MRS.Bin

set_option linter.unusedSectionVars false

variable {K : Type} [Field K] [LinearOrder K] [IsStrictOrderedRing K] [FloorRing K]

/-! ## Effect on the array -/

/-- Performing the additions one after another on the array `spec`. -/
def applyWrites (spec : Int → K) (w : Writes K) : Int → K :=
  w.foldl (fun s q => fun k => if k = q.1 then s k + q.2 else s k) spec

theorem applyWrites_eq (spec : Int → K) (w : Writes K) (k : Int) :
    applyWrites spec w k = spec k + at_ k w := by
  unfold applyWrites
  induction w generalizing spec with
  | nil => simp
  | cons q w ih =>
    obtain ⟨i, x⟩ := q
    rw [List.foldl_cons, ih, at_cons]
    by_cases h : k = i
    · subst h; simp [add_assoc]
    · rw [if_neg h, if_neg (fun h' => h h'.symm), zero_add]

theorem at_zero_of_not_mem (k : Int) (w : Writes K) (h : ∀ q ∈ w, q.1 = k → q.2 = 0) :
    at_ k w = 0 := by
  induction w with
  | nil => rfl
  | cons q w ih =>
    obtain ⟨i, x⟩ := q
    rw [at_cons, ih (fun q hq => h q (by simp [hq]))]
    split_ifs with hi
    · rw [show x = 0 from h (i, x) (by simp) hi, add_zero]
    · simp

theorem at_nonneg (k : Int) (w : Writes K) (h : ∀ q ∈ w, 0 ≤ q.2) : 0 ≤ at_ k w := by
  induction w with
  | nil => exact le_refl _
  | cons q w ih =>
    obtain ⟨i, x⟩ := q
    rw [at_cons]
    have := ih (fun q hq => h q (by simp [hq]))
    have hx := h (i, x) (by simp)
    split_ifs
    · exact add_nonneg hx this
    · simpa using this

/-- If every addition falls into `0 .. n-1`, the sum over the bins is the sum over the
additions. -/
theorem sum_at (n : Nat) (w : Writes K) (h : ∀ q ∈ w, 0 ≤ q.1 ∧ q.1 < (n : Int)) :
    ((List.range n).map fun (k : Nat) => at_ k w).sum = (w.map (·.2)).sum := by
  have hsingle : ∀ (n : Nat) (p : Int) (x : K), 0 ≤ p → p < (n : Int) →
      ((List.range n).map fun (k : Nat) => if p = k then x else 0).sum = x := by
    intro n p x h0
    induction n with
    | zero => intro h; exfalso; push_cast at h; omega
    | succ n ih =>
      intro h
      rw [List.range_succ, List.map_append, List.sum_append]
      simp only [List.map_cons, List.map_nil, List.sum_cons, List.sum_nil, add_zero]
      by_cases hp : p = n
      · rw [if_pos hp]
        have : ((List.range n).map fun (k : Nat) => if p = k then x else 0)
            = (List.range n).map fun _ => 0 := by
          apply List.map_congr_left
          intro k hk
          rw [List.mem_range] at hk
          rw [if_neg (by omega)]
        rw [this]
        simp
      · rw [if_neg hp, add_zero]
        exact ih (by push_cast at h; omega)
  induction w with
  | nil => simp
  | cons q w ih =>
    obtain ⟨i, x⟩ := q
    obtain ⟨h1, h2⟩ := h (i, x) (by simp)
    simp only [at_cons, List.map_cons, List.sum_cons]
    rw [← ih (fun q hq => h q (by simp [hq]))]
    have : ∀ (l : List Nat) (f g : Nat → K),
        (l.map fun k => f k + g k).sum = (l.map f).sum + (l.map g).sum := by
      intro l f g
      induction l with
      | nil => simp
      | cons k l ih => simp only [List.map_cons, List.sum_cons, ih]; ring
    rw [this, hsingle n i x h1 h2]

/-! ## All additions of the two halves -/

theorem upLoop_mem (df1 : K) (hdf : 0 ≤ df1) (n : Nat) (p : Int) (d : K) (q : Int × K)
    (h : q ∈ upLoop df1 n p d) : p ≤ q.1 ∧ q.1 < p + n ∧ d + df1 ≤ q.2 := by
  induction n generalizing p d with
  | zero => cases h
  | succ n ih =>
    rw [upLoop, List.mem_cons] at h
    rcases h with rfl | h
    · exact ⟨le_refl _, by push_cast; omega, le_refl _⟩
    · obtain ⟨a, b, c⟩ := ih _ _ h
      exact ⟨by omega, by push_cast; omega, by linarith⟩

theorem upLoop_idx (df1 : K) (n : Nat) (p : Int) (d : K) (q : Int × K)
    (h : q ∈ upLoop df1 n p d) : p ≤ q.1 ∧ q.1 < p + n := by
  induction n generalizing p d with
  | zero => cases h
  | succ n ih =>
    rw [upLoop, List.mem_cons] at h
    rcases h with rfl | h
    · exact ⟨le_refl _, by push_cast; omega⟩
    · obtain ⟨a, b⟩ := ih _ _ h
      exact ⟨by omega, by push_cast; omega⟩

theorem downLoop_mem (df1 : K) (hdf : 0 ≤ df1) (n : Nat) (p : Int) (d : K) (q : Int × K)
    (h : q ∈ downLoop df1 n p d) : d - n * df1 ≤ q.2 := by
  induction n generalizing p d with
  | zero => cases h
  | succ n ih =>
    rw [downLoop, List.mem_cons] at h
    have hn : 0 ≤ (n : K) * df1 := mul_nonneg (by positivity) hdf
    rcases h with rfl | h
    · push_cast; linarith
    · have := ih _ _ h
      push_cast; linarith

theorem downLoop_idx (df1 : K) (n : Nat) (p : Int) (d : K) (q : Int × K)
    (h : q ∈ downLoop df1 n p d) : p ≤ q.1 ∧ q.1 < p + n := by
  induction n generalizing p d with
  | zero => cases h
  | succ n ih =>
    rw [downLoop, List.mem_cons] at h
    rcases h with rfl | h
    · exact ⟨le_refl _, by push_cast; omega⟩
    · obtain ⟨a, b⟩ := ih _ _ h
      exact ⟨by omega, by push_cast; omega⟩

/-- Indices and signs of the additions of the rising half. -/
theorem left_writes (p m : Int) (lc rc : Bool) (top f0 f1 : K) (h01 : f0 ≤ f1) (hp : p ≤ m)
    (hf0 : f0 < p + 1) (hlc : lc = true → f0 ≤ p) (hf1 : p < m → (m : K) ≤ f1) :
    ∃ w, leftTri p m lc rc top f0 f1 = .ok w ∧ ∀ q ∈ w, p ≤ q.1 ∧ q.1 ≤ m ∧
      (q.1 = m → rc = true → q.2 = 0) ∧ (0 ≤ top → 0 ≤ q.2) := by
  unfold leftTri
  by_cases hpp : p = m
  · simp only [if_pos hpp]
    refine ⟨_, rfl, ?_⟩
    intro q hq
    rw [List.mem_singleton] at hq
    subst hq
    refine ⟨le_refl _, hp, ?_, ?_⟩
    · intro _ h; simp [h]
    · intro ht
      have : 0 ≤ f1 - f0 := by linarith
      dsimp only
      split_ifs
      · positivity
      · exact le_refl _
  · simp only [if_neg hpp]
    rw [if_neg (by omega)]
    refine ⟨_, rfl, ?_⟩
    have hlt : p < m := by omega
    have hm := hf1 hlt
    have hp1 : (p : K) + 1 ≤ m := by exact_mod_cast hlt
    have hpos : 0 < f1 - f0 := by linarith
    have htn : ((m - (p + 1)).toNat : Int) = m - (p + 1) := Int.toNat_of_nonneg (by omega)
    intro q hq
    rw [List.mem_append, List.mem_cons, List.mem_singleton] at hq
    rcases hq with (rfl | hq) | rfl
    · refine ⟨le_refl _, by omega, fun h => absurd h (by omega), ?_⟩
      intro ht
      have hd : 0 ≤ top / (f1 - f0) := div_nonneg ht hpos.le
      dsimp only
      split_ifs with hl
      · have : 0 ≤ (p : K) + 1 - f0 := by linarith
        positivity
      · have hl' : lc = true := by simpa using hl
        have := hlc hl'
        exact mul_nonneg (by linarith) hd
    · have hi := upLoop_idx _ _ _ _ _ hq
      rw [htn] at hi
      refine ⟨by omega, by omega, fun h => absurd h (by omega), ?_⟩
      intro ht
      have hd : 0 ≤ top / (f1 - f0) := div_nonneg ht hpos.le
      have := (upLoop_mem _ hd _ _ _ _ hq).2.2
      refine le_trans ?_ this
      have : ((p : K) + 1 - f0 - 1 / 2) * (top / (f1 - f0)) + top / (f1 - f0) =
        ((p : K) + 1 - f0 + 1 / 2) * (top / (f1 - f0)) := by ring
      rw [this]
      exact mul_nonneg (by linarith) hd
    · refine ⟨hp, le_refl _, ?_, ?_⟩
      · intro _ h; simp [h]
      · intro ht
        have hd : 0 ≤ top / (f1 - f0) := div_nonneg ht hpos.le
        dsimp only
        split_ifs
        · have h1 : 0 ≤ f1 - m := by linarith
          have h2 : 0 ≤ f1 - f0 + (m - f0) := by linarith
          positivity
        · exact le_refl _

/-- Indices and signs of the additions of the falling half. -/
theorem right_writes (p m : Int) (lc rc : Bool) (top f1 f2 : K) (h12 : f1 ≤ f2) (hp : p ≤ m)
    (hf1 : p < m → f1 < p + 1) (hf2 : p < m → (m : K) ≤ f2) :
    ∃ w, rightTri p m lc rc top f1 f2 = .ok w ∧ ∀ q ∈ w, p ≤ q.1 ∧ q.1 ≤ m ∧
      (q.1 = m → rc = true → p = m ∧ q.2 = 0) ∧ (0 ≤ top → 0 ≤ q.2) := by
  unfold rightTri
  by_cases hpp : p = m
  · simp only [if_pos hpp]
    refine ⟨_, rfl, ?_⟩
    intro q hq
    rw [List.mem_singleton] at hq
    subst hq
    refine ⟨le_refl _, hp, ?_, ?_⟩
    · intro _ h; simp [h, hpp]
    · intro ht
      have : 0 ≤ f2 - f1 := by linarith
      dsimp only
      split_ifs
      · positivity
      · exact le_refl _
  · simp only [if_neg hpp]
    rw [if_neg (by omega)]
    refine ⟨_, rfl, ?_⟩
    have hlt : p < m := by omega
    have hm := hf2 hlt
    have hf := hf1 hlt
    have hp1 : (p : K) + 1 ≤ m := by exact_mod_cast hlt
    have hpos : 0 < f2 - f1 := by linarith
    have htn : ((m - (p + 1)).toNat : Int) = m - (p + 1) := Int.toNat_of_nonneg (by omega)
    have htk : ((m - (p + 1)).toNat : K) = m - (p + 1) := by exact_mod_cast htn
    intro q hq
    rw [List.mem_append, List.mem_cons] at hq
    rcases hq with (rfl | hq) | hq
    · refine ⟨le_refl _, by omega, fun h => absurd h (by omega), ?_⟩
      intro ht
      have hd : 0 ≤ top / (f2 - f1) := div_nonneg ht hpos.le
      dsimp only
      split_ifs with hl
      · have h1 : 0 ≤ f2 - f1 - (f2 - p - 1) := by linarith
        have h2 : 0 ≤ f2 - p - 1 + (f2 - f1) := by linarith
        positivity
      · exact mul_nonneg (by linarith) hd
    · have hi := downLoop_idx _ _ _ _ _ hq
      rw [htn] at hi
      refine ⟨by omega, by omega, fun h => absurd h (by omega), ?_⟩
      intro ht
      have hd : 0 ≤ top / (f2 - f1) := div_nonneg ht hpos.le
      have := downLoop_mem _ hd _ _ _ _ hq
      refine le_trans ?_ this
      rw [htk, ← sub_mul]
      exact mul_nonneg (by linarith) hd
    · cases rc
      · simp only [Bool.not_false, if_true, List.mem_singleton] at hq
        subst hq
        refine ⟨hp, le_refl _, fun _ h => by simp at h, ?_⟩
        intro ht
        have hd : 0 ≤ top / (f2 - f1) := div_nonneg ht hpos.le
        have := mul_self_nonneg (f2 - (m : K))
        dsimp only
        positivity
      · simp at hq

/-- Indices and signs of all additions. -/
theorem sorted_writes (f0 f1 f2 amp : K) (points : Int) (hpts : 1 ≤ points) (h01 : f0 ≤ f1)
    (h12 : f1 ≤ f2) :
    ∃ w, triangleSorted f0 f1 f2 amp points = .ok w ∧ ∀ q ∈ w, 0 ≤ q.1 ∧ q.1 ≤ points ∧
      (q.1 = points → q.2 = 0) ∧ (trunc f1 < points → q.1 < points) ∧ (0 ≤ amp → 0 ≤ q.2) := by
  unfold triangleSorted
  have htop : 0 ≤ amp → 0 ≤ amp * 2 / (f2 - f0) :=
    fun h => div_nonneg (by linarith) (by linarith)
  revert htop
  generalize amp * 2 / (f2 - f0) = top
  intro htop
  have m01 := trunc_mono h01
  have m12 := trunc_mono h12
  have l0 := lt_trunc_add_one f0
  have l1 := lt_trunc_add_one f1
  have z0 := trunc_lt_zero (x := f0)
  have p1 := trunc_pos (x := f1)
  have p2 := trunc_pos (x := f2)
  revert m01 m12 l0 l1 z0 p1 p2
  generalize trunc f0 = P
  generalize trunc f1 = M
  generalize trunc f2 = X
  intro m01 m12 l0 l1 z0 p1 p2
  simp only []
  by_cases hP : P > points
  · rw [if_pos hP]; exact ⟨[], rfl, by simp⟩
  rw [if_neg hP]
  by_cases hX : X < 0
  · rw [if_pos hX]; exact ⟨[], rfl, by simp⟩
  rw [if_neg hX]
  obtain ⟨p, hp, hpe⟩ : ∃ p, p = (if P < 0 then 0 else P) ∧ ((P < 0 ∧ p = 0) ∨ (0 ≤ P ∧ p = P)) := by
    refine ⟨_, rfl, ?_⟩
    by_cases h : P < 0
    · rw [if_pos h]; exact Or.inl ⟨h, rfl⟩
    · rw [if_neg h]; exact Or.inr ⟨by omega, rfl⟩
  obtain ⟨c, hc, hce⟩ : ∃ c, c = (if M ≥ points then points else M) ∧
      ((points ≤ M ∧ c = points) ∨ (M < points ∧ c = M)) := by
    refine ⟨_, rfl, ?_⟩
    by_cases h : M ≥ points
    · rw [if_pos h]; exact Or.inl ⟨h, rfl⟩
    · rw [if_neg h]; exact Or.inr ⟨by omega, rfl⟩
  obtain ⟨m, hm, hme⟩ : ∃ m, m = (if c < 0 then 0 else c) ∧ ((c < 0 ∧ m = 0) ∨ (0 ≤ c ∧ m = c)) := by
    refine ⟨_, rfl, ?_⟩
    by_cases h : c < 0
    · rw [if_pos h]; exact Or.inl ⟨h, rfl⟩
    · rw [if_neg h]; exact Or.inr ⟨by omega, rfl⟩
  obtain ⟨x, hx, hxe⟩ : ∃ x, x = (if X ≥ points then points else X) ∧
      ((points ≤ X ∧ x = points) ∨ (X < points ∧ x = X)) := by
    refine ⟨_, rfl, ?_⟩
    by_cases h : X ≥ points
    · rw [if_pos h]; exact Or.inl ⟨h, rfl⟩
    · rw [if_neg h]; exact Or.inr ⟨by omega, rfl⟩
  rw [← hp, ← hc, ← hm, ← hx]
  have hP_p : (P : K) ≤ p := by exact_mod_cast (by omega : P ≤ p)
  have hM_m : M < points → (M : K) ≤ m := fun h => by exact_mod_cast (by omega : M ≤ m)
  obtain ⟨w1, a1, b1⟩ := left_writes p m (decide (P < 0)) (decide (M ≥ points)) top f0 f1 h01
    (by omega) (by linarith)
    (by
      intro h
      have hP0 : P < 0 := by simpa using h
      have := z0.mp hP0
      have hp0 : p = 0 := by omega
      rw [hp0]; push_cast; linarith)
    (by
      intro h
      have := (p1 (by omega)).1
      have h' : (m : K) ≤ M := by exact_mod_cast (by omega : m ≤ M)
      linarith)
  obtain ⟨w2, a2, b2⟩ := right_writes m x (decide (c < 0)) (decide (X ≥ points)) top f1 f2 h12
    (by omega)
    (by
      intro h
      have := hM_m (by omega)
      linarith)
    (by
      intro h
      have := (p2 (by omega)).1
      have h' : (x : K) ≤ X := by exact_mod_cast (by omega : x ≤ X)
      linarith)
  rw [a1]
  simp only []
  rw [a2]
  refine ⟨w1 ++ w2, rfl, ?_⟩
  intro q hq
  rw [List.mem_append] at hq
  rcases hq with hq | hq
  · obtain ⟨c1, c2, c3, c4⟩ := b1 q hq
    refine ⟨by omega, by omega, ?_, by intro _; omega, fun h => c4 (htop h)⟩
    intro h
    exact c3 (by omega) (by simpa using (by omega : points ≤ M))
  · obtain ⟨c1, c2, c3, c4⟩ := b2 q hq
    refine ⟨by omega, by omega, ?_, ?_, fun h => c4 (htop h)⟩
    · intro h
      exact (c3 (by omega) (by simpa using (by omega : points ≤ X))).2
    · intro hM'
      by_contra hlt
      have := (c3 (by omega) (by simpa using (by omega : points ≤ X))).1
      omega

/-! ## Sorting -/

theorem sort3_spec (a b c f0 f1 f2 : K) (hp : [a, b, c].Perm [f0, f1, f2]) (h01 : f0 ≤ f1)
    (h12 : f1 ≤ f2) : sort3 a b c = (f0, f1, f2) := by
  have hs : [(sort3 a b c).1, (sort3 a b c).2.1, (sort3 a b c).2.2].Perm [a, b, c] ∧
      (sort3 a b c).1 ≤ (sort3 a b c).2.1 ∧ (sort3 a b c).2.1 ≤ (sort3 a b c).2.2 := by
    unfold sort3
    by_cases h : a > b
    · simp only [if_pos h]
      by_cases h' : a > c
      · simp only [if_pos h']
        by_cases h'' : b > c
        · simp only [if_pos h'']
          exact ⟨((List.Perm.swap b c [a]).trans
            (((List.Perm.swap a c []).cons b).trans (List.Perm.swap a b [c]))), h''.le, h.le⟩
        · simp only [if_neg h'']
          exact ⟨((List.Perm.swap a c []).cons b).trans (List.Perm.swap a b [c]),
            not_lt.mp h'', h'.le⟩
      · simp only [if_neg h']
        exact ⟨List.Perm.swap a b [c], h.le, not_lt.mp h'⟩
    · simp only [if_neg h]
      by_cases h' : b > c
      · simp only [if_pos h']
        by_cases h'' : a > c
        · simp only [if_pos h'']
          exact ⟨(List.Perm.swap a c [b]).trans ((List.Perm.swap b c []).cons a), h''.le, not_lt.mp h⟩
        · simp only [if_neg h'']
          exact ⟨(List.Perm.swap b c []).cons a, not_lt.mp h'', h'.le⟩
      · simp only [if_neg h']
        exact ⟨List.Perm.refl _, not_lt.mp h, not_lt.mp h'⟩
  have := List.Perm.eq_of_pairwise (le := (· ≤ ·)) (fun _ _ _ _ h h' => le_antisymm h h')
    (by simp only [List.pairwise_cons, List.mem_cons, List.not_mem_nil, or_false, forall_eq_or_imp,
          forall_eq]
        exact ⟨⟨hs.2.1, hs.2.1.trans hs.2.2⟩, hs.2.2, by simp⟩)
    (by simp only [List.pairwise_cons, List.mem_cons, List.not_mem_nil, or_false, forall_eq_or_imp,
          forall_eq]
        exact ⟨⟨h01, h01.trans h12⟩, h12, by simp⟩) (hs.1.trans hp)
  simp only [List.cons.injEq, and_true] at this
  exact Prod.ext this.1 (Prod.ext this.2.1 this.2.2)

theorem perm3_all {P : K → Prop} {a b c f0 f1 f2 : K} (hp : [a, b, c].Perm [f0, f1, f2])
    (ha : P a) (hb : P b) (hc : P c) : P f0 ∧ P f1 ∧ P f2 := by
  have : ∀ x ∈ [f0, f1, f2], P x := by
    intro x hx
    have := hp.mem_iff.mpr hx
    simp only [List.mem_cons, List.not_mem_nil, or_false] at this
    rcases this with rfl | rfl | rfl <;> assumption
  exact ⟨this f0 (by simp), this f1 (by simp), this f2 (by simp)⟩

/-- Every triangle can be written with ascending vertices. -/
theorem exists_sorted (a b c : K) : ∃ f0 f1 f2, [a, b, c].Perm [f0, f1, f2] ∧ f0 ≤ f1 ∧ f1 ≤ f2 := by
  rcases le_total a b with h | h <;> rcases le_total b c with h' | h' <;>
    rcases le_total a c with h'' | h''
  · exact ⟨a, b, c, List.Perm.refl _, h, h'⟩
  · exact ⟨a, b, c, List.Perm.refl _, h, h'⟩
  · exact ⟨a, c, b, (List.Perm.swap c b []).cons a, h'', h'⟩
  · exact ⟨c, a, b, ((List.Perm.swap c b []).cons a).trans (List.Perm.swap c a [b]), h'', h⟩
  · exact ⟨b, a, c, List.Perm.swap b a [c], h, h''⟩
  · exact ⟨b, c, a, (List.Perm.swap b a [c]).trans ((List.Perm.swap c a []).cons b), h', h''⟩
  · exact ⟨c, b, a, ((List.Perm.swap b a [c]).trans ((List.Perm.swap c a []).cons b)).trans
      (List.Perm.swap c b [a]), h', h⟩
  · exact ⟨c, b, a, ((List.Perm.swap b a [c]).trans ((List.Perm.swap c a []).cons b)).trans
      (List.Perm.swap c b [a]), h', h⟩

/-- Additions of `triangle`: one line per bin, in terms of the cumulative areas. -/
theorem triangle_at (a b c f0 f1 f2 amp : K) (points k : Int)
    (hp : [a, b, c].Perm [f0, f1, f2]) (h01 : f0 ≤ f1) (h12 : f1 ≤ f2) (hlt : f0 < f2)
    (hk0 : 0 ≤ k) (hkn : k < points) (hg : k = 0 → Good0 f0 f1 f2) :
    ∃ w, triangle a b c amp points = .ok w ∧
      at_ k w = (cumL (amp * 2 / (f2 - f0)) f0 f1 (k + 1) + cumR (amp * 2 / (f2 - f0)) f1 f2 (k + 1))
        - (cumL (amp * 2 / (f2 - f0)) f0 f1 k + cumR (amp * 2 / (f2 - f0)) f1 f2 k) := by
  unfold triangle
  simp only []
  by_cases hsame : trunc a = trunc b ∧ trunc a = trunc c
  · rw [if_pos hsame]
    obtain ⟨e0, e1, e2⟩ := perm3_all (P := fun x => trunc x = trunc a) hp rfl hsame.1.symm
      hsame.2.symm
    revert e0 e1 e2
    generalize trunc a = p
    intro e0 e1 e2
    have l2 := lt_trunc_add_one f2
    have n0 := trunc_nonneg (x := f0)
    have g0 := trunc_neg (x := f0)
    have p0 := trunc_pos (x := f0)
    have z2 := trunc_lt_zero (x := f2)
    rw [e0] at n0 g0 p0
    rw [e2] at l2 z2
    have hgood : k = 0 → 0 ≤ f0 ∨ f2 ≤ -1 := by
      intro h
      rcases hg h with h | ⟨h, _, _⟩
      · exact Or.inl h
      · right
        have := trunc_lt_zero.mpr h
        rw [e0] at this
        exact z2.mp this
    by_cases hpr : p ≥ points ∨ p < 0
    · rw [if_pos hpr]
      refine ⟨[], rfl, ?_⟩
      rw [at_nil]
      rcases hpr with hpr | hpr
      · have := (p0 (by omega)).1
        have h' : (k : K) + 1 ≤ p := by exact_mod_cast (by omega : k + 1 ≤ p)
        rw [cumL_lo _ _ _ _ (by linarith), cumL_lo _ _ _ _ (by linarith),
          cumR_lo _ _ _ _ (by linarith), cumR_lo _ _ _ _ (by linarith)]
        simp
      · have := z2.mp hpr
        have hkK : (0 : K) ≤ k := by exact_mod_cast hk0
        rw [cumL_hi _ _ _ _ h01 (by linarith), cumL_hi _ _ _ _ h01 (by linarith),
          cumR_hi _ _ _ _ h12 (by linarith), cumR_hi _ _ _ _ h12 (by linarith)]
        simp
    · rw [if_neg hpr]
      refine ⟨_, rfl, ?_⟩
      rw [at_cons, at_nil, add_zero]
      rcases lt_trichotomy k p with hkp | rfl | hkp
      · rw [if_neg (by omega)]
        have := (p0 (by omega)).1
        have h' : (k : K) + 1 ≤ p := by exact_mod_cast (by omega : k + 1 ≤ p)
        rw [cumL_lo _ _ _ _ (by linarith), cumL_lo _ _ _ _ (by linarith),
          cumR_lo _ _ _ _ (by linarith), cumR_lo _ _ _ _ (by linarith)]
        simp
      · rw [if_pos rfl]
        have hle : (k : K) ≤ f0 := by
          by_cases h1 : 1 ≤ k
          · exact (p0 h1).1
          · rcases hgood (by omega) with h | h
            · exact (n0 h).2.1
            · have := z2.mpr h
              omega
        rw [cumL_hi _ _ _ _ h01 (by linarith), cumR_hi _ _ _ _ h12 (by linarith),
          cumL_lo _ _ _ _ hle, cumR_lo _ _ _ _ (by linarith)]
        have : f2 - f0 ≠ 0 := by
          intro h
          linarith
        field_simp
        ring
      · rw [if_neg (by omega)]
        have h' : (p : K) + 1 ≤ k := by exact_mod_cast (by omega : p + 1 ≤ k)
        rw [cumL_hi _ _ _ _ h01 (by linarith), cumL_hi _ _ _ _ h01 (by linarith),
          cumR_hi _ _ _ _ h12 (by linarith), cumR_hi _ _ _ _ h12 (by linarith)]
        simp
  · rw [if_neg hsame, sort3_spec a b c f0 f1 f2 hp h01 h12]
    exact sorted_at f0 f1 f2 amp points k h01 h12 hk0 hkn hg

/-- Indices and signs of the additions of `triangle`. -/
theorem triangle_writes (a b c f0 f1 f2 amp : K) (points : Int) (hpts : 1 ≤ points)
    (hp : [a, b, c].Perm [f0, f1, f2]) (h01 : f0 ≤ f1) (h12 : f1 ≤ f2) :
    ∃ w, triangle a b c amp points = .ok w ∧ ∀ q ∈ w, 0 ≤ q.1 ∧ q.1 ≤ points ∧
      (q.1 = points → q.2 = 0) ∧ (trunc f1 < points → q.1 < points) ∧ (0 ≤ amp → 0 ≤ q.2) := by
  unfold triangle
  simp only []
  by_cases hsame : trunc a = trunc b ∧ trunc a = trunc c
  · rw [if_pos hsame]
    by_cases hpr : trunc a ≥ points ∨ trunc a < 0
    · rw [if_pos hpr]
      exact ⟨[], rfl, by simp⟩
    · rw [if_neg hpr]
      refine ⟨_, rfl, ?_⟩
      intro q hq
      rw [List.mem_singleton] at hq
      subst hq
      exact ⟨by dsimp only; omega, by dsimp only; omega, fun h => absurd h (by dsimp only; omega),
        fun _ => by dsimp only; omega, fun h => h⟩
  · rw [if_neg hsame, sort3_spec a b c f0 f1 f2 hp h01 h12]
    exact sorted_writes f0 f1 f2 amp points hpts h01 h12

/-! ## C35 -/

open MeasureTheory in
/-- **C35 (bins).** Three vertices in any order, any amplitude, any number of points: bin
`k` of the spectrum grows by the integral over `[k, k+1]` of the triangle with unit-area
shape scaled to `amp`. For bin 0 this needs that no vertex lies in `(-1, 0)`, and that a
triangle starting below the spectrum has no vertex inside bin 0 — see
`C35_counterexample` for what happens otherwise, which is why the name ends in
`_partial`. -/
theorem C35_bins_partial (a b c f0 f1 f2 amp : ℝ) (points k : Int) (spec : Int → ℝ)
    (hp : [a, b, c].Perm [f0, f1, f2]) (h01 : f0 ≤ f1) (h12 : f1 ≤ f2) (hlt : f0 < f2)
    (hk0 : 0 ≤ k) (hkn : k < points)
    (hbin0 : k = 0 → 0 ≤ f0 ∨ (f0 ≤ -1 ∧ (f1 ≤ -1 ∨ 1 ≤ f1) ∧ (f2 ≤ -1 ∨ 1 ≤ f2))) :
    ∃ w, triangle a b c amp points = .ok w ∧
      applyWrites spec w k = spec k + ∫ x in (k : ℝ)..(k + 1), Spec.tent f0 f1 f2 amp x := by
  obtain ⟨w, e, h⟩ := triangle_at a b c f0 f1 f2 amp points k hp h01 h12 hlt hk0 hkn hbin0
  refine ⟨w, e, ?_⟩
  rw [applyWrites_eq, h, integral_tent f0 f1 f2 amp _ _ h01 h12]
  rfl

/-- A triangle clipped on both sides satisfies the hypotheses for each of its bins. -/
example (k : Int) (h0 : 0 ≤ k) (h1 : k < 4) :
    ∃ w, triangle (5/2 : ℝ) 7 (-3/2) 3 4 = .ok w ∧
      applyWrites (fun _ => 0) w k = 0 + ∫ x in (k : ℝ)..(k + 1), Spec.tent (-3/2) (5/2) 7 3 x :=
  C35_bins_partial _ _ _ _ _ _ _ _ _ _
    (((List.Perm.swap (-3/2) 7 []).cons (5/2)).trans (List.Perm.swap (-3/2) (5/2) [7]))
    (by norm_num) (by norm_num) (by norm_num) h0 h1 (fun _ => Or.inr (by norm_num))

/-- **C35 (total).** If the three frequencies lie inside the spectrum, the additions to
bins `0 .. points-1` sum to the amplitude. -/
theorem C35_total (a b c amp : K) (points : Nat) (spec : Int → K)
    (ha : 0 ≤ a ∧ a < points) (hb : 0 ≤ b ∧ b < points) (hc : 0 ≤ c ∧ c < points) :
    ∃ w, triangle a b c amp points = .ok w ∧
      ((List.range points).map fun (k : Nat) => applyWrites spec w k - spec k).sum = amp := by
  obtain ⟨f0, f1, f2, hp, h01, h12⟩ := exists_sorted a b c
  obtain ⟨⟨q0, r0⟩, ⟨q1, r1⟩, ⟨q2, r2⟩⟩ := perm3_all (P := fun x => 0 ≤ x ∧ x < (points : K)) hp ha hb hc
  have htele : ∀ (F : Int → K) (w : Writes K) (n : Nat),
      (∀ k : Nat, k < n → at_ k w = F (k + 1) - F k) →
      ((List.range n).map fun (k : Nat) => at_ k w).sum = F n - F 0 := by
    intro F w n
    induction n with
    | zero => intro _; simp
    | succ n ih =>
      intro h
      rw [List.range_succ, List.map_append, List.sum_append, ih (fun k hk => h k (by omega))]
      simp only [List.map_cons, List.map_nil, List.sum_cons, List.sum_nil, add_zero]
      rw [h n (by omega)]
      push_cast
      ring
  simp only [applyWrites_eq, add_sub_cancel_left]
  rcases lt_or_eq_of_le (h01.trans h12) with hlt | heq
  · -- proper triangle
    have hw : ∃ w, triangle a b c amp (points : Int) = .ok w := by
      have hpos : 1 ≤ points := by
        by_contra h
        have : points = 0 := by omega
        rw [this] at r0
        push_cast at r0
        linarith
      obtain ⟨w, e, _⟩ := triangle_writes a b c f0 f1 f2 amp points (by omega) hp h01 h12
      exact ⟨w, e⟩
    obtain ⟨w, e⟩ := hw
    refine ⟨w, e, ?_⟩
    rw [htele (fun k => cumL (amp * 2 / (f2 - f0)) f0 f1 k + cumR (amp * 2 / (f2 - f0)) f1 f2 k)]
    · simp only [Int.cast_natCast, Int.cast_zero]
      rw [cumL_hi _ _ _ _ h01 (by linarith), cumR_hi _ _ _ _ h12 r2.le, cumL_lo _ _ _ _ q0,
        cumR_lo _ _ _ _ q1]
      have : f2 - f0 ≠ 0 := by
        intro h
        linarith
      field_simp
      ring
    · intro k hk
      obtain ⟨w', e', h'⟩ := triangle_at a b c f0 f1 f2 amp points k hp h01 h12 hlt (by omega)
        (by omega) (fun _ => Or.inl q0)
      rw [e] at e'
      cases e'
      rw [h']
      push_cast
      rfl
  · -- all vertices equal
    have hf1 : f1 = f0 := le_antisymm (by rw [heq]; exact h12) h01
    obtain ⟨e0, e1, e2⟩ := perm3_all (P := fun x => x = f0) hp.symm rfl hf1 heq.symm
    subst e0
    subst e1
    subst e2
    obtain ⟨t0, t1, t2⟩ := trunc_nonneg q0
    have hlt : trunc c < (points : Int) := by
      have : ((trunc c : Int) : K) < ((points : Int) : K) := by push_cast; linarith
      exact_mod_cast this
    refine ⟨[(trunc c, amp)], ?_, ?_⟩
    · unfold triangle
      simp only []
      rw [if_pos ⟨trivial, trivial⟩, if_neg (by omega)]
    · obtain ⟨p, hpn⟩ := Int.eq_ofNat_of_zero_le t0
      rw [hpn] at hlt ⊢
      rw [sum_at _ _ (by intro q hq; rw [List.mem_singleton] at hq; subst hq
                         exact ⟨by dsimp only; omega, hlt⟩)]
      simp

/-- Hypotheses met: a triangle over three bins with vertices out of order. -/
example (spec : Int → ℚ) : ∃ w, triangle (5/2 : ℚ) (1/4) (3/2) 7 (3 : Nat) = .ok w ∧
    ((List.range 3).map fun (k : Nat) => applyWrites spec w k - spec k).sum = 7 :=
  C35_total _ _ _ _ _ _ (by norm_num) (by norm_num) (by norm_num)

/-- **C35 (no bin decreases, others unchanged).** For every input. -/
theorem C35_nonneg (a b c amp : K) (points : Int) (hpts : 1 ≤ points) (spec : Int → K) :
    ∃ w, triangle a b c amp points = .ok w ∧
      (0 ≤ amp → ∀ k, spec k ≤ applyWrites spec w k) ∧
      ∀ k, k < 0 ∨ points ≤ k → applyWrites spec w k = spec k := by
  obtain ⟨f0, f1, f2, hp, h01, h12⟩ := exists_sorted a b c
  obtain ⟨w, e, h⟩ := triangle_writes a b c f0 f1 f2 amp points hpts hp h01 h12
  refine ⟨w, e, ?_, ?_⟩
  · intro ha k
    rw [applyWrites_eq]
    have := at_nonneg k w (fun q hq => (h q hq).2.2.2.2 ha)
    linarith
  · intro k hk
    rw [applyWrites_eq, at_zero_of_not_mem k w, add_zero]
    intro q hq hqk
    obtain ⟨b1, b2, b3, _⟩ := h q hq
    exact b3 (by omega)

example : ((triangle (-1/2 : ℚ) (1/2) 9 2 3).map List.length) = .ok 4 := by decide +kernel

/-- **C35, where the code disagrees.** A triangle of area 1 over `[-1/2, 3/2]` with apex
at `1/2` has area `3/4` over bin 0; the code adds `7/8`: the part over `[-1/2, 0]`,
outside the spectrum, is folded into the first bin because C truncates towards zero. -/
theorem C35_counterexample :
    ∃ w, triangle (-1/2 : ℝ) (1/2) (3/2) 1 4 = .ok w ∧
      applyWrites (fun _ => 0) w 0 = 7 / 8 ∧
      ∫ x in (0 : ℝ)..1, Spec.tent (-1/2) (1/2) (3/2) 1 x = 3 / 4 := by
  have t0 : trunc (-1/2 : ℝ) = 0 := by
    unfold trunc; rw [if_neg (by norm_num), Int.ceil_eq_iff]; norm_num
  have t1 : trunc (1/2 : ℝ) = 0 := by
    unfold trunc; rw [if_pos (by norm_num), Int.floor_eq_iff]; norm_num
  have t2 : trunc (3/2 : ℝ) = 1 := by
    unfold trunc; rw [if_pos (by norm_num), Int.floor_eq_iff]; norm_num
  have hs : sort3 (-1/2 : ℝ) (1/2) (3/2) = (-1/2, 1/2, 3/2) :=
    sort3_spec _ _ _ _ _ _ (List.Perm.refl _) (by norm_num) (by norm_num)
  refine ⟨_, by
    unfold triangle
    simp only [t0, t1, t2, hs]
    rw [if_neg (by decide)]
    unfold triangleSorted
    simp only [t0, t1, t2]
    unfold leftTri rightTri
    simp
    rfl, ?_, ?_⟩
  · rw [applyWrites_eq]
    simp [at_cons, downLoop]
    norm_num
  · rw [integral_tent _ _ _ _ _ _ (by norm_num) (by norm_num)]
    unfold cum cumL cumR
    norm_num

/-! ## C36 -/

/-- **C36 (triangles), partial.** For every triangle and every non-empty spectrum the loops
terminate, no index below 0 or above `points` is touched, index `points` — one past the
end — only ever receives `+= 0.0`, and is not touched at all if the middle frequency
(after truncation) lies below `points`. Missing: the touch of `spec[points]` does occur,
see `C36_counterexample`. -/
theorem C36_triangle_partial (a b c f0 f1 f2 amp : K) (points : Int) (hpts : 1 ≤ points)
    (hp : [a, b, c].Perm [f0, f1, f2]) (h01 : f0 ≤ f1) (h12 : f1 ≤ f2) :
    ∃ w, triangle a b c amp points = .ok w ∧
      ∀ i x, (i, x) ∈ w → 0 ≤ i ∧ i ≤ points ∧ (i = points → x = 0 ∧ (points : K) ≤ f1) := by
  obtain ⟨w, e, h⟩ := triangle_writes a b c f0 f1 f2 amp points hpts hp h01 h12
  refine ⟨w, e, ?_⟩
  intro i x hm
  obtain ⟨b1, b2, b3, b4, _⟩ := h _ hm
  refine ⟨b1, b2, fun hi => ⟨b3 hi, ?_⟩⟩
  by_contra hlt
  rw [not_le] at hlt
  have : trunc f1 < points := by
    rcases le_or_gt 0 f1 with h0 | h0
    · have := (trunc_nonneg h0).2.1
      have h' : (trunc f1 : K) < points := lt_of_le_of_lt this hlt
      exact_mod_cast h'
    · have := (trunc_neg h0).1
      omega
  have := b4 this
  dsimp only at this hi
  omega

example : ((triangle (3/2 : ℚ) (-7) 12 5 8).map List.length) = .ok 9 := by decide +kernel

/-- **C36, where the code disagrees.** With one bin and vertices at 0, 3/2 and 5/2 the
routine performs `spec[1] += 0.0`, one element past the end. -/
theorem C36_counterexample :
    ∃ w, triangle (0 : ℚ) (3/2) (5/2) 1 1 = .ok w ∧ ∃ x, ((1 : Int), x) ∈ w :=
  ⟨[(0, 4/15), (1, 0), (1, 0)], by decide +kernel, 0, by simp⟩

/-- **C36 (sharp lines).** For every frequency and number of points, only bins
`0 .. points-1` are touched. -/
theorem C36_delta (f amp : K) (points i : Int) (x : K) (h : (i, x) ∈ deltaFn f points amp) :
    0 ≤ i ∧ i < points := by
  unfold deltaFn at h
  simp only [] at h
  by_cases hp : trunc f ≥ points ∨ trunc f < 0
  · rw [if_pos hp] at h; simp at h
  rw [if_neg hp] at h
  split_ifs at h with h1 h2 h3 h4 h5 <;> simp at h <;> omega

example : ((3 : Int), (1 : ℚ) * (1/4)) ∈ deltaFn (15/4 : ℚ) 5 1 ∨
    ((4 : Int), (1 : ℚ) * (1/4)) ∈ deltaFn (15/4 : ℚ) 5 1 := by decide +kernel

/-! ## C37 -/

/-- Closed form of the additions for a line at least half a bin inside the spectrum. -/
theorem delta_inside (f amp : K) (points : Int) (h0 : 1/2 ≤ f) (h1 : f ≤ points - 1/2) :
    deltaFn f points amp =
      (let p := trunc f
       let diff := f - p
       if |diff - 1/2| < TOL then [(p, amp)]
       else if diff < 1/2 then [(p - 1, amp * (1/2 - diff)), (p, amp * (1/2 + diff))]
       else [(p + 1, amp * (diff - 1/2)), (p, amp * (1 + 1/2 - diff))]) := by
  obtain ⟨t0, t1, t2⟩ := trunc_nonneg (x := f) (by linarith)
  unfold deltaFn
  simp only []
  have hlt : trunc f < points := by
    have : (trunc f : K) < points := by linarith
    exact_mod_cast this
  rw [if_neg (by omega)]
  by_cases hT : |f - (trunc f : K) - 1/2| < TOL
  · rw [if_pos hT, if_pos hT]
  rw [if_neg hT, if_neg hT]
  by_cases hd : f - (trunc f : K) < 1/2
  · rw [if_pos hd, if_pos hd, if_pos (by
      intro h
      rw [h] at hd
      push_cast at hd
      linarith)]
    rfl
  · rw [if_neg hd, if_neg hd]
    have hgt : f - (trunc f : K) > 1/2 := by
      rcases lt_or_eq_of_le (not_lt.mp hd) with h | h
      · exact h
      · exfalso
        apply hT
        rw [← h]
        simp [TOL]
    rw [if_pos hgt, if_pos (by
      intro h
      have : (trunc f : K) + 1 = points := by exact_mod_cast h
      linarith)]
    rfl

/-- **C37 (inside).** A line at least half a bin inside the spectrum: the additions sum to
the amplitude; their centre of mass, with bin `k` centred at `k + 1/2`, is the frequency
of the line up to the tolerance `1e-6` bins; at most two additions are made, to adjacent
bins whose centres are less than one bin (plus the tolerance) away; and no addition has the opposite sign of the amplitude. -/
theorem C37_inside (f amp : K) (points : Int) (h0 : 1/2 ≤ f) (h1 : f ≤ points - 1/2) :
    ((deltaFn f points amp).map (·.2)).sum = amp ∧
    |((deltaFn f points amp).map fun q => q.2 * ((q.1 : K) + 1/2)).sum - amp * f|
      ≤ |amp| * (1 / 1000000) ∧
    (deltaFn f points amp).length ≤ 2 ∧
    (∀ i x, (i, x) ∈ deltaFn f points amp → |(i : K) + 1/2 - f| < 1) ∧
    (0 ≤ amp → ∀ i x, (i, x) ∈ deltaFn f points amp → 0 ≤ x) := by
  obtain ⟨t0, t1, t2⟩ := trunc_nonneg (x := f) (by linarith)
  rw [delta_inside f amp points h0 h1]
  simp only []
  revert t0 t1 t2
  generalize trunc f = p
  intro t0 t1 t2
  by_cases hT : |f - (p : K) - 1/2| < TOL
  · rw [if_pos hT]
    have hT' := hT
    rw [TOL] at hT'
    refine ⟨by simp, ?_, by simp, ?_, ?_⟩
    · simp only [List.map_cons, List.map_nil, List.sum_cons, List.sum_nil, add_zero]
      have : amp * ((p : K) + 1/2) - amp * f = amp * (-(f - p - 1/2)) := by ring
      rw [this, abs_mul, abs_neg]
      exact mul_le_mul_of_nonneg_left hT'.le (abs_nonneg _)
    · intro i x h
      simp only [List.mem_singleton, Prod.mk.injEq] at h
      rw [h.1]
      rw [abs_lt] at hT' ⊢
      constructor <;> linarith
    · intro ha i x h
      simp only [List.mem_singleton, Prod.mk.injEq] at h
      rw [h.2]; exact ha
  rw [if_neg hT]
  by_cases hd : f - (p : K) < 1/2
  · rw [if_pos hd]
    refine ⟨by simp; ring, ?_, by simp, ?_, ?_⟩
    · have : (List.map (fun q : Int × K => q.2 * ((q.1 : K) + 1/2))
          [(p - 1, amp * (1/2 - (f - p))), (p, amp * (1/2 + (f - p)))]).sum - amp * f = 0 := by
        simp only [List.map_cons, List.map_nil, List.sum_cons, List.sum_nil, add_zero]
        push_cast
        ring
      rw [this, abs_zero]
      positivity
    · intro i x h
      simp only [List.mem_cons, Prod.mk.injEq, List.not_mem_nil, or_false] at h
      rw [abs_lt]
      rcases h with ⟨rfl, _⟩ | ⟨rfl, _⟩
      · push_cast; constructor <;> linarith
      · constructor <;> linarith
    · intro ha i x h
      simp only [List.mem_cons, Prod.mk.injEq, List.not_mem_nil, or_false] at h
      rcases h with ⟨_, rfl⟩ | ⟨_, rfl⟩
      · exact mul_nonneg ha (by linarith)
      · exact mul_nonneg ha (by linarith)
  · rw [if_neg hd]
    refine ⟨by simp; ring, ?_, by simp, ?_, ?_⟩
    · have : (List.map (fun q : Int × K => q.2 * ((q.1 : K) + 1/2))
          [(p + 1, amp * (f - p - 1/2)), (p, amp * (1 + 1/2 - (f - p)))]).sum - amp * f = 0 := by
        simp only [List.map_cons, List.map_nil, List.sum_cons, List.sum_nil, add_zero]
        push_cast
        ring
      rw [this, abs_zero]
      positivity
    · intro i x h
      simp only [List.mem_cons, Prod.mk.injEq, List.not_mem_nil, or_false] at h
      rw [abs_lt]
      have hgt : 1/2 < f - p ∨ f - p = 1/2 := (lt_or_eq_of_le (not_lt.mp hd)).imp id Eq.symm
      have hne : f - (p : K) ≠ 1/2 := by
        intro h
        apply hT
        rw [h]
        simp [TOL]
      have hgt := hgt.resolve_right hne
      rcases h with ⟨rfl, _⟩ | ⟨rfl, _⟩
      · push_cast; constructor <;> linarith
      · constructor <;> linarith
    · intro ha i x h
      simp only [List.mem_cons, Prod.mk.injEq, List.not_mem_nil, or_false] at h
      rcases h with ⟨_, rfl⟩ | ⟨_, rfl⟩
      · exact mul_nonneg ha (by linarith [not_lt.mp hd])
      · exact mul_nonneg ha (by linarith)

/-- A line at 2.7 with amplitude 3: bins 2 and 3 receive 2.4 and 0.6. -/
example : deltaFn (27/10 : ℚ) 5 3 = [(3, 3/5), (2, 12/5)] := by decide +kernel

/-- **C37 (never negative), partial.** For every frequency that does not lie in the
interval `(-1, -1/2)` a line of non-negative amplitude adds a non-negative amount to every
bin, and not more than the amplitude in total. Missing: that interval, see
`C37_counterexample`. -/
theorem C37_nonneg_partial (f amp : K) (points : Int) (ha : 0 ≤ amp) (hf : f ≤ -1 ∨ -1/2 ≤ f) :
    (∀ i x, (i, x) ∈ deltaFn f points amp → 0 ≤ x) ∧
    ((deltaFn f points amp).map (·.2)).sum ≤ amp := by
  unfold deltaFn
  simp only []
  by_cases hp : trunc f ≥ points ∨ trunc f < 0
  · rw [if_pos hp]; simpa using ha
  rw [if_neg hp]
  have l := lt_trunc_add_one f
  have hlo : -1/2 ≤ f - (trunc f : K) := by
    rcases hf with hf | hf
    · exact absurd (trunc_lt_zero.mpr hf) (by omega)
    · rcases le_or_gt 0 f with h | h
      · have := (trunc_nonneg h).2.1
        linarith
      · have h1 := (trunc_neg h).1
        have h2 : trunc f = 0 := by omega
        rw [h2]; push_cast; linarith
  have hneg : f - (trunc f : K) < 0 → trunc f = 0 := by
    intro h
    rcases le_or_gt 0 f with h' | h'
    · have := (trunc_nonneg h').2.1
      linarith
    · have h1 := (trunc_neg h').1
      omega
  revert l hlo hneg hp
  generalize trunc f = p
  intro hp l hlo hneg
  have hm1 : 0 ≤ amp * (1/2 + (f - p)) := mul_nonneg ha (by linarith)
  by_cases hT : |f - (p : K) - 1/2| < TOL
  · rw [if_pos hT]; simpa using ha
  rw [if_neg hT]
  by_cases hd : f - (p : K) < 1/2
  · rw [if_pos hd]
    have hm2 : 0 ≤ amp * (1/2 - (f - p)) := mul_nonneg ha (by linarith)
    constructor
    · intro i x h
      by_cases hz : p ≠ 0
      · rw [if_pos hz] at h
        simp only [List.mem_append, List.mem_singleton, Prod.mk.injEq] at h
        rcases h with ⟨_, rfl⟩ | ⟨_, rfl⟩ <;> assumption
      · rw [if_neg hz] at h
        simp only [List.nil_append, List.mem_singleton, Prod.mk.injEq] at h
        rw [h.2]; exact hm1
    · by_cases hz : p ≠ 0
      · rw [if_pos hz]
        apply le_of_eq
        simp
        ring
      · rw [if_neg hz]
        simp only [List.nil_append, List.map_cons, List.map_nil, List.sum_cons, List.sum_nil,
          add_zero]
        nlinarith
  rw [if_neg hd]
  by_cases hd2 : f - (p : K) > 1/2
  · rw [if_pos hd2]
    have hm2 : 0 ≤ amp * (f - p - 1/2) := mul_nonneg ha (by linarith)
    have hm3 : 0 ≤ amp * (1 + 1/2 - (f - p)) := mul_nonneg ha (by linarith)
    constructor
    · intro i x h
      by_cases hz : p + 1 ≠ points
      · rw [if_pos hz] at h
        simp only [List.mem_append, List.mem_singleton, Prod.mk.injEq] at h
        rcases h with ⟨_, rfl⟩ | ⟨_, rfl⟩ <;> assumption
      · rw [if_neg hz] at h
        simp only [List.nil_append, List.mem_singleton, Prod.mk.injEq] at h
        rw [h.2]; exact hm3
    · by_cases hz : p + 1 ≠ points
      · rw [if_pos hz]
        apply le_of_eq
        simp
        ring
      · rw [if_neg hz]
        simp only [List.nil_append, List.map_cons, List.map_nil, List.sum_cons, List.sum_nil,
          add_zero]
        nlinarith
  · rw [if_neg hd2]; simpa using ha

example : deltaFn (-1/4 : ℚ) 5 1 = [(0, 1/4)] := by decide +kernel

/-- **C37 (outside).** A line at or beyond the last edge, or one bin or more before the
first, adds nothing. -/
theorem C37_outside (f amp : K) (points : Int) (hpts : 0 ≤ points) (h : f ≤ -1 ∨ points ≤ f) :
    deltaFn f points amp = [] := by
  unfold deltaFn
  simp only []
  rw [if_pos]
  rcases h with h | h
  · exact Or.inr (trunc_lt_zero.mpr h)
  · left
    have hf : 0 ≤ f := le_trans (by exact_mod_cast hpts) h
    have := (trunc_nonneg hf).2.2
    have h' : (points : K) < trunc f + 1 := lt_of_le_of_lt h this
    have : points < trunc f + 1 := by exact_mod_cast h'
    omega

example : deltaFn (7 : ℚ) 7 1 = [] := by decide +kernel

/-- **C37, where the code disagrees.** A line of amplitude 1 at `-3/4`, outside the
spectrum, makes bin 0 negative: it adds `-1/4` there. -/
theorem C37_counterexample : deltaFn (-3/4 : ℚ) 4 1 = [(0, -1/4)] := by decide +kernel

end MRS.Bin
