import Verif.Bin.TwoDProps

/-!
# Two-dimensional binning stays inside the array — property C36

`triangle_interpolation2D` (src/c_lib/lib/interpolation.c:156-479) hands `&spec[row * m1]` to the one-dimensional
routine. The rows are those of the array; what is written past the end of a row is the first element of the next one, or,
for the last row, the element past the end of the array.
-/

namespace MRS.Bin

set_option linter.unusedSectionVars false

variable {K : Type} [Field K] [LinearOrder K] [IsStrictOrderedRing K] [FloorRing K]

theorem parts_row (row : Int) (f00 f01 f10 f11 up down denom amt : K) (c : Call K)
    (h : c ∈ parts row f00 f01 f10 f11 up down denom amt) : c.row = row := by
  unfold parts two at h
  split_ifs at h <;> simp only [List.mem_cons, List.not_mem_nil, or_false] at h
  · rcases h with rfl | rfl <;> rfl
  · rw [h]

theorem upRows_row (s01 s02 as df1 : K) (n : Nat) (p : Int) (diff f10 f11 up down denom : K) (c : Call K)
    (h : c ∈ (upRows s01 s02 as df1 n p diff f10 f11 up down denom).1) : p ≤ c.row ∧ c.row < p + n := by
  induction n generalizing p diff f10 f11 up down denom with
  | zero => simp [upRows] at h
  | succ n ih =>
    simp only [upRows, List.mem_append] at h
    push_cast
    rcases h with h | h
    · have := parts_row _ _ _ _ _ _ _ _ _ _ h
      omega
    · have := ih _ _ _ _ _ _ _ h
      omega

theorem downRows_row (s12 s02 as df2 : K) (n : Nat) (p : Int) (diff f10 f11 up down denom : K) (c : Call K)
    (h : c ∈ (downRows s12 s02 as df2 n p diff f10 f11 up down denom).1) : p ≤ c.row ∧ c.row < p + n := by
  induction n generalizing p diff f10 f11 up down denom with
  | zero => simp [downRows] at h
  | succ n ih =>
    simp only [downRows, List.mem_append] at h
    push_cast
    rcases h with h | h
    · have := parts_row _ _ _ _ _ _ _ _ _ _ h
      omega
    · have := ih _ _ _ _ _ _ _ h
      omega

theorem left2D_row (p pmid m0 : Int) (clipL1 clipR1 : Bool) (top x0 x1 y0 y1 s01 s02 : K) (w : List (Call K)) (o : Option (K × K))
    (hp : 0 ≤ p) (hmid : pmid ≤ m0) (hc : clipR1 = false → pmid < m0)
    (h : left2D p pmid clipL1 clipR1 top x0 x1 y0 y1 s01 s02 = .ok (w, o)) : ∀ c ∈ w, 0 ≤ c.row ∧ c.row < m0 := by
  intro c hcw
  unfold left2D at h
  simp only [] at h
  by_cases h1 : p ≠ pmid
  · rw [if_pos h1] at h
    by_cases h2 : pmid < p + 1
    · rw [if_pos h2] at h; simp at h
    rw [if_neg h2] at h
    have hfirst : ∀ (l : List (Call K)), (l = [⟨p, y0, s02 * ((p : K) + 1 - x0) + y0, s01 * ((p : K) + 1 - x0) + y0,
        1 / 2 * ((p : K) + 1 - x0) * ((p : K) + 1 - x0) * (top / (x1 - x0))⟩] ∨
        ∃ a1 a2 a3 a4 a5 a6 a7 a8, l = parts p a1 a2 a3 a4 a5 a6 a7 a8) → ∀ c ∈ l, 0 ≤ c.row ∧ c.row < m0 := by
      rintro l (rfl | ⟨_, _, _, _, _, _, _, _, rfl⟩) c hc
      · rw [List.mem_singleton] at hc
        rw [hc]
        dsimp only
        omega
      · have := parts_row _ _ _ _ _ _ _ _ _ _ hc
        omega
    by_cases h3 : clipR1
    · simp only [h3, Bool.not_true, Bool.false_eq_true, if_false, Except.ok.injEq, Prod.mk.injEq] at h
      rw [← h.1, List.mem_append] at hcw
      rcases hcw with hcw | hcw
      · refine hfirst _ ?_ c hcw
        split_ifs
        · exact Or.inl rfl
        · exact Or.inr ⟨_, _, _, _, _, _, _, _, rfl⟩
      · have := upRows_row _ _ _ _ _ _ _ _ _ _ _ _ _ hcw
        omega
    · have h3' := eq_false_of_ne_true h3
      have hlt := hc h3'
      simp only [h3', Bool.not_false, if_true, Except.ok.injEq, Prod.mk.injEq] at h
      rw [← h.1, List.mem_append, List.mem_append] at hcw
      rcases hcw with (hcw | hcw) | hcw
      · refine hfirst _ ?_ c hcw
        split_ifs
        · exact Or.inl rfl
        · exact Or.inr ⟨_, _, _, _, _, _, _, _, rfl⟩
      · have := upRows_row _ _ _ _ _ _ _ _ _ _ _ _ _ hcw
        omega
      · have : c.row = pmid := by
          split_ifs at hcw
          · unfold two at hcw
            simp only [List.mem_cons, List.not_mem_nil, or_false] at hcw
            rcases hcw with rfl | rfl <;> rfl
          · rw [List.mem_singleton] at hcw
            rw [hcw]
        omega
  · rw [if_neg h1] at h
    by_cases h2 : (!clipR1 && !clipL1) = true
    · rw [if_pos h2] at h
      simp only [Except.ok.injEq, Prod.mk.injEq] at h
      rw [← h.1, List.mem_singleton] at hcw
      have h3 : clipR1 = false := by simpa using (Bool.and_eq_true_iff.mp h2).1
      have := hc h3
      rw [hcw]
      dsimp only
      omega
    · rw [if_neg h2] at h
      simp only [Except.ok.injEq, Prod.mk.injEq] at h
      rw [← h.1] at hcw
      simp at hcw

theorem right2D_row (p pmax m0 : Int) (clipL2 clipR2 : Bool) (top x0 x1 x2 y0 y1 y2 s02 s12 : K) (mid : Option (K × K))
    (w : List (Call K)) (hp : 0 ≤ p) (hmax : pmax ≤ m0) (hc : clipR2 = false → pmax < m0)
    (h : right2D p pmax clipL2 clipR2 top x0 x1 x2 y0 y1 y2 s02 s12 mid = .ok w) : ∀ c ∈ w, 0 ≤ c.row ∧ c.row < m0 := by
  intro c hcw
  unfold right2D at h
  simp only [] at h
  by_cases h1 : p ≠ pmax
  · rw [if_pos h1] at h
    split at h
    · simp at h
    · rename_i first g10 g11 down hs
      have hfirst : ∃ a1 a2 a3 a4 a5 a6 a7 a8, first = parts p a1 a2 a3 a4 a5 a6 a7 a8 := by
        by_cases h2 : (!clipL2) = true
        · rw [if_pos h2] at hs
          split at hs
          · simp at hs
          · simp only [Except.ok.injEq, Prod.mk.injEq] at hs
            exact ⟨_, _, _, _, _, _, _, _, hs.1.symm⟩
        · rw [if_neg h2] at hs
          simp only [Except.ok.injEq, Prod.mk.injEq] at hs
          exact ⟨_, _, _, _, _, _, _, _, hs.1.symm⟩
      obtain ⟨_, _, _, _, _, _, _, _, rfl⟩ := hfirst
      by_cases h2 : pmax < p + 1
      · rw [if_pos h2] at h; simp at h
      rw [if_neg h2] at h
      simp only [Except.ok.injEq] at h
      rw [← h, List.mem_append, List.mem_append] at hcw
      rcases hcw with (hcw | hcw) | hcw
      · have := parts_row _ _ _ _ _ _ _ _ _ _ hcw
        omega
      · have := downRows_row _ _ _ _ _ _ _ _ _ _ _ _ _ hcw
        omega
      · by_cases h3 : clipR2
        · simp [h3] at hcw
        · have h3' := eq_false_of_ne_true h3
          simp only [h3', Bool.not_false, if_true, List.mem_singleton] at hcw
          have := hc h3'
          rw [hcw]
          dsimp only
          omega
  · rw [if_neg h1] at h
    by_cases h3 : clipR2
    · simp [h3] at h
      rw [h] at hcw
      simp at hcw
    · have h3' := eq_false_of_ne_true h3
      have := hc h3'
      simp only [h3', Bool.not_false, if_true] at h
      split at h
      · simp at h
      · simp only [Except.ok.injEq] at h
        rw [← h, List.mem_singleton] at hcw
        rw [hcw]
        dsimp only
        omega

/-- The rows of the calls are rows of the array. -/
theorem calls2D_row (a b c : K × K) (amp : K) (m0 : Int) (hm0 : 1 ≤ m0) (cs : List (Call K)) (h : calls2D a b c amp m0 = .ok cs) :
    ∀ q ∈ cs, 0 ≤ q.row ∧ q.row < m0 := by
  intro q hq
  unfold calls2D at h
  simp only [] at h
  by_cases h1 : |a.1 - b.1| < TOL ∧ |a.1 - c.1| < TOL
  · rw [if_pos h1] at h
    by_cases h2 : trunc a.1 ≥ m0 ∨ trunc a.1 < 0
    · rw [if_pos h2] at h
      simp only [Except.ok.injEq] at h
      rw [← h] at hq; simp at hq
    rw [if_neg h2] at h
    split_ifs at h <;> simp only [Except.ok.injEq] at h <;> rw [← h] at hq <;>
      simp only [List.mem_cons, List.not_mem_nil, or_false, List.nil_append, List.cons_append] at hq
    all_goals (rcases hq with rfl | rfl <;> dsimp only <;> omega)
  rw [if_neg h1] at h
  by_cases h2 : trunc a.1 = trunc b.1 ∧ trunc a.1 = trunc c.1
  · rw [if_pos h2] at h
    by_cases h3 : trunc a.1 ≥ m0 ∨ trunc a.1 < 0
    · rw [if_pos h3] at h
      simp only [Except.ok.injEq] at h
      rw [← h] at hq; simp at hq
    rw [if_neg h3] at h
    simp only [Except.ok.injEq] at h
    rw [← h, List.mem_singleton] at hq
    rw [hq]
    dsimp only
    omega
  rw [if_neg h2] at h
  unfold sorted2D at h
  simp only [] at h
  set f := sortPairs a b c
  by_cases h3 : trunc f.1.1 > m0
  · rw [if_pos h3] at h
    simp only [Except.ok.injEq] at h
    rw [← h] at hq; simp at hq
  rw [if_neg h3] at h
  by_cases h4 : trunc f.2.2.1 < 0
  · rw [if_pos h4] at h
    simp only [Except.ok.injEq] at h
    rw [← h] at hq; simp at hq
  rw [if_neg h4] at h
  have hpmax : (if trunc f.2.2.1 ≥ m0 then m0 else trunc f.2.2.1) ≤ m0 := by split_ifs <;> omega
  have hpmax' : decide (trunc f.2.2.1 ≥ m0) = false → (if trunc f.2.2.1 ≥ m0 then m0 else trunc f.2.2.1) < m0 := by
    intro hd
    have := of_decide_eq_false hd
    rw [if_neg this]
    omega
  have hp0 : 0 ≤ (if trunc f.1.1 < 0 then 0 else trunc f.1.1) := by split_ifs <;> omega
  set pmid := if trunc f.2.1.1 ≥ m0 then m0 else trunc f.2.1.1 with hpm
  have hm1 : 0 ≤ (if pmid < 0 then 0 else pmid) := by split_ifs <;> omega
  have hm2 : (if pmid < 0 then 0 else pmid) ≤ m0 := by rw [hpm]; split_ifs <;> omega
  have hm3 : decide (trunc f.2.1.1 ≥ m0) = false → (if pmid < 0 then 0 else pmid) < m0 := by
    intro hd
    have := of_decide_eq_false hd
    rw [hpm, if_neg this]
    split_ifs <;> omega
  by_cases h5 : decide (pmid < 0) = false
  · rw [if_pos h5] at h
    split at h
    · simp at h
    · rename_i w1 mid hl
      split at h
      · simp at h
      · rename_i w2 hr
        simp only [Except.ok.injEq] at h
        rw [← h, List.mem_append] at hq
        rcases hq with hq | hq
        · exact left2D_row _ _ m0 _ _ _ _ _ _ _ _ _ _ _ hp0 hm2 hm3 hl q hq
        · exact right2D_row _ _ m0 _ _ _ _ _ _ _ _ _ _ _ _ _ hm1 hpmax hpmax' hr q hq
  · rw [if_neg h5] at h
    exact right2D_row _ _ m0 _ _ _ _ _ _ _ _ _ _ _ _ _ hp0 hpmax hpmax' h q hq

/-- The one-dimensional routine for any frequencies. -/
theorem triangleOrDelta_writes (a b c amp : K) (points : Int) (hpts : 1 ≤ points) :
    ∃ w, triangleOrDelta a b c amp points = .ok w ∧ ∀ q ∈ w, 0 ≤ q.1 ∧ q.1 ≤ points ∧ (q.1 = points → q.2 = 0) ∧
      (a < points → b < points → c < points → q.1 < points) := by
  unfold triangleOrDelta
  by_cases hs : |a - b| < TOL ∧ |a - c| < TOL
  · rw [if_pos hs]
    refine ⟨_, rfl, fun q hq => ?_⟩
    have := C36_delta a amp points q.1 q.2 hq
    exact ⟨by omega, by omega, fun h => by omega, fun _ _ _ => by omega⟩
  · rw [if_neg hs]
    obtain ⟨f0, f1, f2, hp, h01, h12⟩ : ∃ f0 f1 f2 : K, [a, b, c].Perm [f0, f1, f2] ∧ f0 ≤ f1 ∧ f1 ≤ f2 := by
      rcases le_total a b with h1 | h1 <;> rcases le_total b c with h2 | h2 <;> rcases le_total a c with h3 | h3
      · exact ⟨a, b, c, List.Perm.refl _, h1, h2⟩
      · exact ⟨a, b, c, List.Perm.refl _, h1, h2⟩
      · exact ⟨a, c, b, (List.Perm.swap c b []).cons a, h3, h2⟩
      · exact ⟨c, a, b, ((List.Perm.swap c b []).cons a).trans (List.Perm.swap c a [b]), h3, h1⟩
      · exact ⟨b, a, c, List.Perm.swap b a [c], h1, h3⟩
      · exact ⟨b, c, a, (List.Perm.swap b a [c]).trans ((List.Perm.swap c a []).cons b), h2, h3⟩
      · exact ⟨c, b, a, (List.reverse_perm [c, b, a]), h2, h1⟩
      · exact ⟨c, b, a, (List.reverse_perm [c, b, a]), h2, h1⟩
    obtain ⟨w, e, h⟩ := C36_triangle_partial a b c f0 f1 f2 amp points hpts hp h01 h12
    refine ⟨w, e, fun q hq => ?_⟩
    obtain ⟨k1, k2, k3⟩ := h q.1 q.2 hq
    refine ⟨k1, k2, fun hi => (k3 hi).1, fun ha hb hc => ?_⟩
    by_contra hlt
    have hi := (k3 (by omega)).2
    have hm : f1 ∈ [a, b, c] := hp.mem_iff.mpr (by simp)
    simp only [List.mem_cons, List.not_mem_nil, or_false] at hm
    rcases hm with rfl | rfl | rfl
    · exact absurd ha (not_lt.mpr hi)
    · exact absurd hb (not_lt.mpr hi)
    · exact absurd hc (not_lt.mpr hi)

theorem perform_bounds (m0 m1 : Int) (hm1 : 1 ≤ m1) (cs : List (Call K)) (h : ∀ c ∈ cs, 0 ≤ c.row ∧ c.row < m0) :
    ∃ w, perform m1 cs = .ok w ∧ ∀ q ∈ w, 0 ≤ q.1 ∧ q.1 ≤ m0 * m1 ∧ (q.1 = m0 * m1 → q.2 = 0) ∧
      ((∀ c ∈ cs, c.a < m1 ∧ c.b < m1 ∧ c.c < m1) → q.1 < m0 * m1) := by
  induction cs with
  | nil => exact ⟨[], rfl, by simp⟩
  | cons c l ih =>
    obtain ⟨w2, e2, h2⟩ := ih (fun c' hc' => h c' (List.mem_cons_of_mem _ hc'))
    obtain ⟨w1, e1, h1⟩ := triangleOrDelta_writes c.a c.b c.c c.amt m1 hm1
    obtain ⟨r0, r1⟩ := h c (List.mem_cons_self ..)
    refine ⟨w1.map (fun q => (c.row * m1 + q.1, q.2)) ++ w2, by rw [perform, e1]; simp only [e2], fun q hq => ?_⟩
    rcases List.mem_append.mp hq with hq | hq
    · obtain ⟨q', hq', rfl⟩ := List.mem_map.mp hq
      obtain ⟨k1, k2, k3, k4⟩ := h1 q' hq'
      dsimp only
      have g1 : 0 ≤ c.row * m1 := by positivity
      have g2 : c.row * m1 + m1 ≤ m0 * m1 := by nlinarith
      refine ⟨by omega, by omega, fun hi => k3 (by omega), fun hy => ?_⟩
      obtain ⟨y1, y2, y3⟩ := hy c (List.mem_cons_self ..)
      have := k4 y1 y2 y3
      omega
    · obtain ⟨k1, k2, k3, k4⟩ := h2 q hq
      exact ⟨k1, k2, k3, fun hy => k4 fun c' hc' => hy c' (List.mem_cons_of_mem _ hc')⟩

theorem inTri_lt {P0 P1 P2 P : K × K} (h : Spec.InTri P0 P1 P2 P) (hi : K) (h0 : P0.2 < hi) (h1 : P1.2 < hi) (h2 : P2.2 < hi) :
    P.2 < hi := by
  have hm : max P0.2 (max P1.2 P2.2) < hi := max_lt h0 (max_lt h1 h2)
  have lo : ∀ P' : K × K, P' = P0 ∨ P' = P1 ∨ P' = P2 →
      min P0.2 (min P1.2 P2.2) ≤ P'.2 ∧ P'.2 ≤ max P0.2 (max P1.2 P2.2) := by
    rintro P' (rfl | rfl | rfl) <;> simp
  exact lt_of_le_of_lt (inTri_range h _ _ (lo _ (by simp)) (lo _ (by simp)) (lo _ (by simp))).2 hm

/-- **C36 (two dimensions), partial.** For every triangle and every array with `m0` rows of `m1` elements: unless an unset
variable is read (`C68_unset` says when), the loops terminate, no index below 0 or above `m0 * m1` is touched, the index
`m0 * m1` — one past the end — only ever receives `+= 0.0`, and is touched only if a second frequency lies at or beyond the
end of the rows.  Missing: the touch of `spec[m0 * m1]` does occur, see `C36_plane_counterexample`, and an unset variable is
read for the triangles of `C68_unset`. -/
theorem C36_plane_partial (a b c : K × K) (amp : K) (m0 m1 : Int) (hm0 : 1 ≤ m0) (hm1 : 1 ≤ m1)
    (hset : calls2D a b c amp m0 ≠ .error .undefinedBehaviour) :
    ∃ w, triangle2D a b c amp m0 m1 = .ok w ∧
      ∀ i x, (i, x) ∈ w → 0 ≤ i ∧ i ≤ m0 * m1 ∧
        (i = m0 * m1 → x = 0 ∧ ((m1 : K) ≤ a.2 ∨ (m1 : K) ≤ b.2 ∨ (m1 : K) ≤ c.2)) := by
  obtain ⟨cs, e, hin⟩ : ∃ cs, calls2D a b c amp m0 = .ok cs ∧
      ∀ q ∈ cs, ∀ y ∈ [q.a, q.b, q.c], ∃ u, Spec.InTri a b c (u, y) := by
    by_cases hs : |a.1 - b.1| < TOL ∧ |a.1 - c.1| < TOL
    · have ia : Spec.InTri a b c a := ⟨1, 0, 0, by norm_num, le_rfl, le_rfl, by norm_num, by ring, by ring⟩
      have ib : Spec.InTri a b c b := ⟨0, 1, 0, le_rfl, by norm_num, le_rfl, by norm_num, by ring, by ring⟩
      have ic : Spec.InTri a b c c := ⟨0, 0, 1, le_rfl, le_rfl, by norm_num, by norm_num, by ring, by ring⟩
      have key : ∀ (row : Int) (amt : K) (q : Call K), q = ⟨row, a.2, b.2, c.2, amt⟩ →
          ∀ y ∈ [q.a, q.b, q.c], ∃ u, Spec.InTri a b c (u, y) := by
        rintro row amt q rfl y hy
        simp only [List.mem_cons, List.not_mem_nil, or_false] at hy
        rcases hy with rfl | rfl | rfl
        · exact ⟨_, ia⟩
        · exact ⟨_, ib⟩
        · exact ⟨_, ic⟩
      unfold calls2D
      simp only []
      rw [if_pos hs]
      split_ifs <;> refine ⟨_, rfl, fun q hq => ?_⟩ <;>
        simp only [List.mem_cons, List.not_mem_nil, or_false, List.nil_append, List.cons_append] at hq
      all_goals first
        | exact key _ _ _ hq
        | (rcases hq with hq | hq <;> exact key _ _ _ hq)
    · obtain ⟨P0, P1, P2, hperm, h01, h12, hbad, hall⟩ := calls_spec a b c amp m0 hm0 hs
      have hU : ¬ Unset P0.1 P1.1 P2.1 := fun hU => hset (hbad hU)
      obtain ⟨cs, e, hcs, _⟩ := hall False (fun h => h.elim) hU
      refine ⟨cs, e, fun q hq y hy => ?_⟩
      obtain ⟨u, v, z, i1, i2, i3, _⟩ := hcs q hq
      simp only [List.mem_cons, List.not_mem_nil, or_false] at hy
      rcases hy with rfl | rfl | rfl
      · exact ⟨u, i1⟩
      · exact ⟨v, i2⟩
      · exact ⟨z, i3⟩
  obtain ⟨w, ew, hw⟩ := perform_bounds m0 m1 hm1 cs (calls2D_row a b c amp m0 hm0 cs e)
  refine ⟨w, by unfold triangle2D; rw [e]; exact ew, fun i x hx => ?_⟩
  obtain ⟨k1, k2, k3, k4⟩ := hw _ hx
  refine ⟨k1, k2, fun hi => ⟨k3 hi, ?_⟩⟩
  by_contra hlt
  push Not at hlt
  obtain ⟨l1, l2, l3⟩ := hlt
  have := k4 fun q hq => by
    have g : ∀ y ∈ [q.a, q.b, q.c], y < (m1 : K) := fun y hy => by
      obtain ⟨u, hu⟩ := hin q hq y hy
      exact inTri_lt hu _ l1 l2 l3
    exact ⟨g _ (by simp), g _ (by simp), g _ (by simp)⟩
  dsimp only at this hi
  omega

/-- A triangle reaching out of the array on three sides. -/
example : ∃ w, triangle2D ((7, 5/2) : ℚ × ℚ) (-2, 1) (13/4, 9) 6 4 3 = .ok w ∧ ∀ i x, (i, x) ∈ w → 0 ≤ i ∧ i ≤ 12 := by
  obtain ⟨w, e, h⟩ := C36_plane_partial ((7, 5/2) : ℚ × ℚ) (-2, 1) (13/4, 9) 6 4 3 (by norm_num) (by norm_num) (by decide +kernel)
  exact ⟨w, e, fun i x hx => ⟨(h i x hx).1, (h i x hx).2.1⟩⟩

/-- **C36 (two dimensions), where the code disagrees.** An array of two rows of one element, a triangle in the last row: the
routine performs `spec[2] += 0.0`, one element past the end. -/
theorem C36_plane_counterexample :
    ∃ w, triangle2D ((5/4, 0) : ℚ × ℚ) (3/2, 3/2) (7/4, 5/2) 1 2 1 = .ok w ∧ ∃ x, ((2 : Int), x) ∈ w :=
  ⟨[(1, 4/15), (2, 0), (2, 0)], by decide +kernel, 0, by simp⟩

end MRS.Bin
