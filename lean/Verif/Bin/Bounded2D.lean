import Verif.Bin.Bounded
import Verif.Bin.Positive2D
import Verif.Bin.TwoDBounds

/-!
# How much the average over orientations gives to a map
-/

namespace MRS.Bin

/-- What a sequence of additions gives to the whole map. -/
noncomputable def whole2 (m0 m1 : ℕ) (w : Py (Writes ℝ)) : ℝ := ∑ r ∈ Finset.range m0, ∑ k ∈ Finset.range m1, val ((r : ℤ) * m1 + k) w

theorem whole2_error (m0 m1 : ℕ) (e : PyErr) : whole2 m0 m1 (.error e) = 0 := Finset.sum_eq_zero fun _ _ => Finset.sum_eq_zero fun _ _ => rfl

theorem deltaFn_abs (f amp : ℝ) (ha : 0 ≤ amp) (m : ℤ) : ((deltaFn f m amp).map fun q => |q.2|).sum ≤ amp := by
  by_cases hf : -1 < f ∧ f < -1 / 2
  · have ht : trunc f = 0 := trunc_eq_zero.mpr ⟨hf.1, by linarith [hf.2]⟩
    have h1 : ¬ |f - ((0 : ℤ) : ℝ) - 1 / 2| < TOL := by
      rw [not_lt, show (TOL : ℝ) = 1 / 1000000 from rfl, le_abs]
      right
      push_cast
      linarith [hf.2]
    unfold deltaFn
    simp only [ht]
    by_cases hm : (0 : ℤ) ≥ m ∨ (0 : ℤ) < 0
    · rw [if_pos hm]
      exact ha
    · rw [if_neg hm, if_neg h1, if_pos (by push_cast; linarith [hf.2]), if_neg (by simp)]
      simp only [List.nil_append, List.map_cons, List.map_nil, List.sum_cons, List.sum_nil, add_zero]
      push_cast
      rw [abs_le]
      constructor <;> nlinarith [hf.1, hf.2]
  · obtain ⟨h1, h2⟩ := C37_nonneg_partial f amp m ha (by
      rcases le_or_gt f (-1) with h | h
      · exact Or.inl h
      · right
        by_contra h'
        exact hf ⟨h, not_le.mp h'⟩)
    rw [List.map_congr_left fun q hq => abs_of_nonneg (h1 q.1 q.2 hq)]
    exact h2

theorem val_map (k : ℤ) (t : ℝ) (x : Py (Writes ℝ)) : val k (x.map (scaleW t)) = t * val k x := by
  cases x with
  | error e => exact (mul_zero t).symm
  | ok w => exact at_scaleW k t w

/-- One row receives no more than the amount. -/
theorem row_whole (a b c amt : ℝ) (m : ℕ) (hm : 1 ≤ m) : whole m (triangleOrDelta a b c amt m) ≤ |amt| := by
  have hpos : ∀ x, 0 ≤ x → |whole m (triangleOrDelta a b c x m)| ≤ x := by
    intro x hx
    unfold triangleOrDelta
    split_ifs with hs
    · have hw := sum_at m (deltaFn a m x) (fun q hq => C36_delta a x m q.1 q.2 hq)
      rw [sum_range_list] at hw
      change |∑ k ∈ Finset.range m, at_ (k : ℤ) (deltaFn a m x)| ≤ x
      rw [hw]
      refine le_trans ?_ (deltaFn_abs a x hx m)
      generalize deltaFn a (m : ℤ) x = w
      induction w with
      | nil => simp
      | cons q w ih =>
        simp only [List.map_cons, List.sum_cons]
        exact le_trans (abs_add_le _ _) (add_le_add le_rfl ih)
    · have h1 := whole_triangle a b c x hx m
      obtain ⟨w, e, h2, -⟩ := C35_nonneg a b c x m (by omega) (fun _ => 0)
      rw [abs_of_nonneg]
      · exact h1
      · rw [e]
        refine Finset.sum_nonneg fun k _ => ?_
        have := h2 hx k
        rwa [applyWrites_eq, zero_add] at this
  rcases le_total 0 amt with h | h
  · rw [abs_of_nonneg h]
    exact le_trans (le_abs_self _) (hpos amt h)
  · have e : whole m (triangleOrDelta a b c amt m) = - whole m (triangleOrDelta a b c (-amt) m) := by
      rw [show amt = (-1) * (-amt) by ring, triangleOrDelta_scale]
      unfold whole
      simp only [val_map]
      rw [← Finset.sum_neg_distrib]
      refine Finset.sum_congr rfl fun k _ => ?_
      rw [show (-1 : ℝ) * (-amt) = amt by ring]
      ring
    rw [e, abs_of_nonpos h]
    exact le_trans (neg_le_abs _) (hpos (-amt) (by linarith))

theorem perform_whole (m0 m1 : ℕ) (hm : 1 ≤ m1) (cs : List (Call ℝ)) (h : ∀ q ∈ cs, 0 ≤ q.row ∧ q.row < m0) :
    whole2 m0 m1 (perform m1 cs) ≤ (cs.map fun q => |q.amt|).sum := by
  induction cs with
  | nil =>
    refine le_of_eq ?_
    exact Finset.sum_eq_zero fun _ _ => Finset.sum_eq_zero fun _ _ => rfl
  | cons c l ih =>
    have h3 := ih fun c' hc' => h c' (List.mem_cons_of_mem _ hc')
    obtain ⟨w, e, -⟩ := row_nonneg c.a c.b c.c c.amt m1 0 (by omega)
    have n2 : ∀ k : ℤ, k < 0 ∨ (m1 : ℤ) ≤ k → at_ k w = 0 := by
      intro k hk
      obtain ⟨w', e', -, h'⟩ := row_nonneg c.a c.b c.c c.amt m1 k (by omega)
      rw [e] at e'
      cases e'
      exact h' hk
    have hb := row_whole c.a c.b c.c c.amt m1 hm
    rw [e] at hb
    have hsum : 0 ≤ ((c :: l).map fun q : Call ℝ => |q.amt|).sum := List.sum_nonneg (by
      intro x hx
      obtain ⟨q, -, rfl⟩ := List.mem_map.mp hx
      exact abs_nonneg _)
    rw [perform, e]
    cases e2 : perform (m1 : ℤ) l with
    | error x =>
      change whole2 m0 m1 (.error x) ≤ _
      rw [whole2_error]
      exact hsum
    | ok w' =>
      rw [e2] at h3
      have hs : whole2 m0 m1 (.ok (w.map (fun q => (c.row * m1 + q.1, q.2)) ++ w'))
          = ∑ r ∈ Finset.range m0, ∑ k ∈ Finset.range m1, at_ ((r : ℤ) * m1 + k - c.row * m1) w + whole2 m0 m1 (.ok w') := by
        unfold whole2
        rw [← Finset.sum_add_distrib]
        refine Finset.sum_congr rfl fun r _ => ?_
        rw [← Finset.sum_add_distrib]
        refine Finset.sum_congr rfl fun k _ => ?_
        change at_ _ (_ ++ w') = _
        rw [at_append, at_map_shift]
        rfl
      change whole2 m0 m1 (.ok (w.map (fun q => (c.row * m1 + q.1, q.2)) ++ w')) ≤ _
      rw [hs, List.map_cons, List.sum_cons]
      refine add_le_add ?_ h3
      obtain ⟨r1, r2⟩ := h c List.mem_cons_self
      rw [Finset.sum_eq_single_of_mem c.row.toNat (Finset.mem_range.mpr (by omega))]
      · refine le_trans (le_of_eq (Finset.sum_congr rfl fun k _ => ?_)) hb
        change _ = at_ (k : ℤ) w
        congr 1
        rw [Int.toNat_of_nonneg r1]
        ring
      · intro r _ hne
        refine Finset.sum_eq_zero fun k hk => n2 _ ?_
        rw [Finset.mem_range] at hk
        have hk' : (k : ℤ) < m1 := by exact_mod_cast hk
        have hm' : (1 : ℤ) ≤ m1 := by exact_mod_cast hm
        rcases lt_or_gt_of_ne (show (r : ℤ) ≠ c.row by omega) with hr | hr
        · left; nlinarith
        · right; nlinarith

/-- The amounts of the calls for one triangle. -/
theorem calls2D_abs (a b c : ℝ × ℝ) (amp : ℝ) (m0 : ℕ) (hm0 : 1 ≤ m0) (ha : 0 ≤ amp) (cs : List (Call ℝ)) (h : calls2D a b c amp m0 = .ok cs) :
    (cs.map fun q => |q.amt|).sum ≤ amp := by
  by_cases hs : |a.1 - b.1| < TOL ∧ |a.1 - c.1| < TOL
  · rw [calls_sharp a b c amp m0 hs] at h
    cases h
    rw [List.map_map]
    exact deltaFn_abs a.1 amp ha m0
  · have hamt : ∀ q ∈ cs, 0 ≤ q.amt := by
      intro q hq
      have h' := h
      unfold calls2D at h'
      simp only [] at h'
      rw [if_neg hs] at h'
      by_cases h2 : trunc a.1 = trunc b.1 ∧ trunc a.1 = trunc c.1
      · rw [if_pos h2] at h'
        by_cases h3 : trunc a.1 ≥ (m0 : ℤ) ∨ trunc a.1 < 0
        · rw [if_pos h3] at h'
          simp only [Except.ok.injEq] at h'
          rw [← h'] at hq; simp at hq
        rw [if_neg h3] at h'
        simp only [Except.ok.injEq] at h'
        rw [← h', List.mem_singleton] at hq
        rw [hq]
        exact ha
      rw [if_neg h2] at h'
      obtain ⟨P0, P1, P2, e, -, l1, l2, -⟩ := sortPairs_cases a b c
      rw [e] at h'
      exact sorted2D_amt _ _ _ _ _ _ _ _ (by omega) ha l1 l2 cs h' q hq
    obtain ⟨P0, P1, P2, -, -, -, hun, hok⟩ := calls_spec a b c amp m0 (by omega) hs
    have hns : ¬ Unset P0.1 P1.1 P2.1 := by
      intro hu
      rw [hun hu] at h
      cases h
    obtain ⟨cs', e, -, w, ew, hrow⟩ := hok False (fun f => f.elim) hns
    rw [h] at e
    cases e
    have hw := whole_triangle a.1 b.1 c.1 amp ha m0
    rw [ew] at hw
    refine le_trans (le_of_eq ?_) hw
    change _ = ∑ k ∈ Finset.range m0, at_ (k : ℤ) w
    rw [Finset.sum_congr rfl fun (k : ℕ) _ => (hrow (k : ℤ)).symm, List.map_congr_left fun q hq => abs_of_nonneg (hamt q hq)]
    have hr := calls2D_row a b c amp m0 (by omega) cs h
    clear hrow h hun hok hamt
    induction cs with
    | nil => simp
    | cons q l ih =>
      simp only [rowTotal_cons, Finset.sum_add_distrib, List.map_cons, List.sum_cons]
      rw [← ih fun x hx => hr x (List.mem_cons_of_mem _ hx)]
      obtain ⟨r1, r2⟩ := hr q List.mem_cons_self
      rw [Finset.sum_eq_single_of_mem q.row.toNat (Finset.mem_range.mpr (by omega)), if_pos (by omega)]
      intro r _ hne
      rw [if_neg (by omega)]

theorem triangle2D_whole (a b c : ℝ × ℝ) (amp : ℝ) (m0 m1 : ℕ) (hm0 : 1 ≤ m0) (hm1 : 1 ≤ m1) (ha : 0 ≤ amp) :
    whole2 m0 m1 (triangle2D a b c amp m0 m1) ≤ amp := by
  unfold triangle2D
  cases e : calls2D a b c amp (m0 : ℤ) with
  | error x =>
    change whole2 m0 m1 (.error x) ≤ _
    rw [whole2_error]
    exact ha
  | ok cs =>
    exact le_trans (perform_whole m0 m1 hm1 cs (calls2D_row a b c amp m0 (by omega) cs e)) (calls2D_abs a b c amp m0 hm0 ha cs e)

theorem runCalls_whole2 {β : Type} (m0 m1 : ℕ) (l : List β) (f : β → Py (Writes ℝ)) (g : β → ℝ) (hg : ∀ x ∈ l, 0 ≤ g x)
    (h : ∀ x ∈ l, whole2 m0 m1 (f x) ≤ g x) : whole2 m0 m1 (runCalls (l.map f)) ≤ (l.map g).sum := by
  have hn : ∀ l : List β, (∀ x ∈ l, 0 ≤ g x) → 0 ≤ (l.map g).sum := by
    intro l hl
    refine List.sum_nonneg fun x hx => ?_
    obtain ⟨y, hy, rfl⟩ := List.mem_map.mp hx
    exact hl y hy
  induction l with
  | nil =>
    refine le_of_eq ?_
    exact Finset.sum_eq_zero fun _ _ => Finset.sum_eq_zero fun _ _ => rfl
  | cons x l ih =>
    have h0 := hn _ hg
    have h1 := h x List.mem_cons_self
    have h2 := ih (fun c hc => hg c (List.mem_cons_of_mem _ hc)) fun c hc => h c (List.mem_cons_of_mem _ hc)
    rw [List.map_cons]
    cases e : f x with
    | error y =>
      simp only [runCalls]
      rw [whole2_error]
      exact h0
    | ok w =>
      cases e' : runCalls (l.map f) with
      | error y =>
        simp only [runCalls, e']
        rw [whole2_error]
        exact h0
      | ok v =>
        simp only [runCalls, e']
        rw [e] at h1
        rw [e'] at h2
        rw [List.map_cons, List.sum_cons]
        refine le_trans (le_of_eq ?_) (add_le_add h1 h2)
        unfold whole2
        rw [← Finset.sum_add_distrib]
        refine Finset.sum_congr rfl fun r _ => ?_
        rw [← Finset.sum_add_distrib]
        exact Finset.sum_congr rfl fun k _ => at_append _ _ _

theorem octInterp2D_whole (nt : ℕ) (f1 f2 a : ℕ → ℝ) (ha : ∀ q, 0 ≤ a q) (m0 m1 : ℕ) (hm0 : 1 ≤ m0) (hm1 : 1 ≤ m1) :
    whole2 m0 m1 (octInterp2D nt f1 f2 a m0 m1) ≤ totalAmplitude nt a := by
  rw [octInterp2D_triList, totalAmplitude_triList]
  have hn : ∀ t : (ℕ × ℕ) × (ℕ × ℕ) × ℕ × ℕ, 0 ≤ a (rank nt t.1) + a (rank nt t.2.1) + a (rank nt t.2.2) := fun t =>
    add_nonneg (add_nonneg (ha _) (ha _)) (ha _)
  exact runCalls_whole2 m0 m1 _ _ _ (fun t _ => hn t) fun t _ => triangle2D_whole _ _ _ _ m0 m1 hm0 hm1 (hn t)

/-- What all orientations and pairs of sidebands give to the map. -/
theorem averaging2D_whole (t : ℕ → ℝ) (A B : Axis ℝ) (nt nOct nSide : ℕ) (hA : ∀ q, 0 ≤ A.amp q) (hB : ∀ q, 0 ≤ B.amp q) (hm0 : 1 ≤ A.count)
    (hm1 : 1 ≤ B.count) : whole2 A.count B.count (averaging2D t A B nt nOct nSide) ≤ ∑ i ∈ Finset.range nSide, ∑ k ∈ Finset.range nSide,
      ∑ j ∈ Finset.range nOct, totalAmplitude nt fun q =>
        A.amp (i * (nOct * nPts nt) + j * nPts nt + q) * B.amp (k * (nOct * nPts nt) + j * nPts nt + q) := by
  set g : ℕ × ℕ × ℕ → ℝ := fun s => totalAmplitude nt fun q =>
    A.amp (s.1 * (nOct * nPts nt) + s.2.2 * nPts nt + q) * B.amp (s.2.1 * (nOct * nPts nt) + s.2.2 * nPts nt + q) with hg
  have hpos : ∀ s, 0 ≤ g s := fun s => total_nonneg _ _ fun q => mul_nonneg (hA _) (hB _)
  refine le_trans (runCalls_whole2 _ _ _ _ g (fun s _ => hpos s) fun s _ => ?_) ?_
  · unfold body2D
    exact octInterp2D_whole nt _ _ _ (fun q => mul_nonneg (hA _) (hB _)) _ _ hm0 hm1
  · unfold passes2D
    rw [flatMap_sum, sum_range_list]
    refine Finset.sum_le_sum fun i _ => ?_
    rw [flatMap_sum, sum_range_list]
    refine Finset.sum_le_sum fun k _ => ?_
    split_ifs
    · rw [List.map_map, sum_range_list]
      exact le_rfl
    · exact Finset.sum_nonneg fun j _ => hpos (i, k, j)

/-! ## Property -/

/-- **C58 (never more than the amplitude).** Wherever the three pairs of frequencies are, inside of the map or not, all additions to the map together are at most the
amplitude. -/
theorem C58_no_more (a b c : ℝ × ℝ) (amp : ℝ) (ha : 0 ≤ amp) (m0 m1 : ℕ) (hm0 : 1 ≤ m0) (hm1 : 1 ≤ m1) (w : Writes ℝ)
    (h : triangle2D a b c amp m0 m1 = .ok w) (spec : ℤ → ℝ) :
    ∑ r ∈ Finset.range m0, ∑ k ∈ Finset.range m1, (applyWrites spec w ((r : ℤ) * m1 + k) - spec ((r : ℤ) * m1 + k)) ≤ amp := by
  have := triangle2D_whole a b c amp m0 m1 hm0 hm1 ha
  rw [h] at this
  refine le_trans (le_of_eq (Finset.sum_congr rfl fun r _ => Finset.sum_congr rfl fun k _ => ?_)) this
  rw [applyWrites_eq, add_sub_cancel_left]
  rfl

/-- A triangle of one first frequency less than a point below the map. -/
example (spec : ℤ → ℝ) : ∃ w, triangle2D (-3 / 4, 3 / 2) (-3 / 4, -3 / 4) (-3 / 4, 7 / 2) (1 : ℝ) (4 : ℕ) (4 : ℕ) = .ok w ∧
    ∑ r ∈ Finset.range 4, ∑ k ∈ Finset.range 4, (applyWrites spec w ((r : ℤ) * (4 : ℕ) + k) - spec ((r : ℤ) * (4 : ℕ) + k)) ≤ 1 := by
  have hs : |((-3 / 4 : ℝ)) - (-3 / 4)| < TOL := by rw [sub_self, abs_zero]; rw [show (TOL : ℝ) = 1 / 1000000 from rfl]; norm_num
  obtain ⟨w, hw⟩ : ∃ w, triangle2D ((-3 / 4 : ℝ), 3 / 2) (-3 / 4, -3 / 4) (-3 / 4, 7 / 2) (1 : ℝ) (4 : ℕ) (4 : ℕ) = .ok w := by
    unfold triangle2D
    rw [calls_sharp _ _ _ _ _ ⟨hs, hs⟩]
    dsimp only
    generalize (deltaFn (-3 / 4 : ℝ) ((4 : ℕ) : ℤ) 1).map _ = cs
    induction cs with
    | nil => exact ⟨_, rfl⟩
    | cons q l ih =>
      obtain ⟨w, e⟩ := ih
      obtain ⟨w', e', -⟩ := row_nonneg q.a q.b q.c q.amt ((4 : ℕ) : ℤ) 0 (by norm_num)
      exact ⟨_, by rw [perform, e', e]⟩
  exact ⟨w, hw, C58_no_more _ _ _ _ zero_le_one 4 4 (by norm_num) (by norm_num) w hw spec⟩

end MRS.Bin
