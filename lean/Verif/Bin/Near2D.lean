import Verif.Bin.TwoDBounds
import Verif.Bin.Ridge

/-!
# Where two-dimensional binning puts a narrow first dimension — for property C90

If the first frequencies of all orientations are within `δ` of a position, the rows that are farther than `δ` and a bin from it stay
empty.
-/

namespace MRS.Bin

variable {K : Type} [Field K] [LinearOrder K] [IsStrictOrderedRing K] [FloorRing K]

/-- The rows of the calls for a triangle whose first frequencies are in `[lo, hi]`. -/
theorem calls2D_near (a b c : K × K) (amp : K) (m0 : Int) (hm0 : 1 ≤ m0) (lo hi : K) (h0 : 0 ≤ lo)
    (h : ∀ P ∈ [a, b, c], lo ≤ P.1 ∧ P.1 ≤ hi) :
    ∃ cs, calls2D a b c amp m0 = .ok cs ∧ ∀ q ∈ cs, (0 ≤ q.row ∧ q.row < m0) ∧ lo - 1 < (q.row : K) + 1/2 ∧ (q.row : K) + 1/2 < hi + 1 := by
  have ha := h a (by simp)
  by_cases hs : |a.1 - b.1| < TOL ∧ |a.1 - c.1| < TOL
  · rw [calls_sharp a b c amp m0 hs]
    refine ⟨_, rfl, fun q hq => ?_⟩
    have hrow := calls2D_row a b c amp m0 hm0 _ (calls_sharp a b c amp m0 hs) q hq
    refine ⟨hrow, ?_⟩
    obtain ⟨⟨i, x⟩, hp, rfl⟩ := List.mem_map.mp hq
    obtain ⟨t0, t1, t2⟩ := trunc_nonneg (h0.trans ha.1)
    have hT : (TOL : K) < 1 / 2 := by simp [TOL]; norm_num
    simp only at hrow ⊢
    unfold deltaFn at hp
    simp only at hp
    generalize trunc a.1 = p at *
    split_ifs at hp with g1 g2 g3 g4 g5 g6 <;>
      simp only [List.mem_cons, List.mem_append, List.not_mem_nil, or_false, false_or, Prod.mk.injEq] at hp
    · obtain ⟨rfl, -⟩ := hp
      rw [abs_lt] at g2
      constructor <;> linarith
    · rcases hp with ⟨rfl, -⟩ | ⟨rfl, -⟩ <;> push_cast <;> constructor <;> linarith
    · obtain ⟨rfl, -⟩ := hp
      constructor <;> linarith
    · rcases hp with ⟨rfl, -⟩ | ⟨rfl, -⟩ <;> push_cast <;> constructor <;> linarith
    · obtain ⟨rfl, -⟩ := hp
      constructor <;> linarith
  · obtain ⟨P0, P1, P2, hperm, h01, h12, -, hg⟩ := calls_spec a b c amp m0 hm0 hs
    have hP : ∀ P ∈ [P0, P1, P2], lo ≤ P.1 := fun P hP => (h P (hperm.mem_iff.mp hP)).1
    have p0 := hP P0 (by simp)
    have p1 := hP P1 (by simp)
    obtain ⟨cs, e, hpart, -⟩ := hg True (fun _ => .inl (h0.trans p0)) (by
      rintro (⟨u, -, -⟩ | ⟨u, -, -⟩) <;> linarith)
    refine ⟨cs, e, fun q hq => ⟨calls2D_row a b c amp m0 hm0 cs e q hq, ?_⟩⟩
    obtain ⟨u, _, _, hu, -, -, hrow⟩ := hpart q hq
    have hr := (hrow trivial).1 u (by simp)
    obtain ⟨x, y, z, hx, hy, hz, hsum, hu1, -⟩ := hu
    simp only at hu1
    have hb := h b (by simp)
    have hc := h c (by simp)
    have l1 : lo ≤ u := by
      rw [hu1, show lo = x * lo + y * lo + z * lo by linear_combination (-lo) * hsum]
      exact add_le_add (add_le_add (mul_le_mul_of_nonneg_left ha.1 hx) (mul_le_mul_of_nonneg_left hb.1 hy)) (mul_le_mul_of_nonneg_left hc.1 hz)
    have l2 : u ≤ hi := by
      rw [hu1, show hi = x * hi + y * hi + z * hi by linear_combination (-hi) * hsum]
      exact add_le_add (add_le_add (mul_le_mul_of_nonneg_left ha.2 hx) (mul_le_mul_of_nonneg_left hb.2 hy)) (mul_le_mul_of_nonneg_left hc.2 hz)
    constructor <;> linarith

/-- The calls write into their own rows. -/
theorem perform_near (m1 : Nat) (hm1 : 1 ≤ m1) (cs : List (Call K)) :
    ∃ w, perform (m1 : Int) cs = .ok w ∧ ∀ (r col : Int), 0 ≤ col → col < m1 → (∀ c ∈ cs, c.row ≠ r) → at_ (r * m1 + col) w = 0 := by
  induction cs with
  | nil => exact ⟨[], rfl, fun _ _ _ _ _ => rfl⟩
  | cons c l ih =>
    obtain ⟨w2, e2, h2⟩ := ih
    obtain ⟨w1, e1, h1⟩ := triangleOrDelta_writes c.a c.b c.c c.amt m1 (by exact_mod_cast hm1)
    refine ⟨w1.map (fun q => (c.row * m1 + q.1, q.2)) ++ w2, by rw [perform, e1]; simp only [e2], fun r col g0 g1 hr => ?_⟩
    rw [at_append, h2 r col g0 g1 (fun c' hc' => hr c' (List.mem_cons_of_mem _ hc')), add_zero]
    apply at_outside
    intro q hq e
    obtain ⟨q', hq', rfl⟩ := List.mem_map.mp hq
    obtain ⟨k1, k2, k3, -⟩ := h1 q' hq'
    simp only at e ⊢
    have hne := hr c (List.mem_cons_self ..)
    apply k3
    have hm : (0 : Int) < m1 := by omega
    -- equal rows unless the write is one past the end of its row
    by_contra hlt
    have hlt : q'.1 < m1 := by omega
    apply hne
    have e3 := congrArg (· / (m1 : Int)) e
    beta_reduce at e3
    rw [add_comm, Int.add_mul_ediv_right _ _ hm.ne', add_comm (r * (m1 : Int)), Int.add_mul_ediv_right _ _ hm.ne',
      Int.ediv_eq_zero_of_lt k1 hlt, Int.ediv_eq_zero_of_lt g0 g1] at e3
    omega

/-- **One triangle.** -/
theorem triangle2D_near (a b c : K × K) (amp : K) (m0 : Int) (m1 : Nat) (hm0 : 1 ≤ m0) (hm1 : 1 ≤ m1) (lo hi : K) (h0 : 0 ≤ lo)
    (h : ∀ P ∈ [a, b, c], lo ≤ P.1 ∧ P.1 ≤ hi) :
    ∃ w, triangle2D a b c amp m0 m1 = .ok w ∧ ∀ (r col : Int), 0 ≤ col → col < m1 →
      ((r : K) + 1/2 ≤ lo - 1 ∨ hi + 1 ≤ (r : K) + 1/2) → at_ (r * m1 + col) w = 0 := by
  obtain ⟨cs, e, hc⟩ := calls2D_near a b c amp m0 hm0 lo hi h0 h
  obtain ⟨w, ew, hw⟩ := perform_near m1 hm1 cs
  refine ⟨w, by unfold triangle2D; rw [e]; exact ew, fun r col g0 g1 hr => hw r col g0 g1 fun q hq hqr => ?_⟩
  obtain ⟨-, k1, k2⟩ := hc q hq
  rw [hqr] at k1 k2
  rcases hr with hr | hr <;> linarith

/-- One octant. -/
theorem octInterp2D_near (nt : Nat) (freq1 freq2 amp : Nat → K) (m0 : Int) (m1 : Nat) (hm0 : 1 ≤ m0) (hm1 : 1 ≤ m1) (lo hi : K) (h0 : 0 ≤ lo)
    (h : ∀ q, q < nPts nt → lo ≤ freq1 q ∧ freq1 q ≤ hi) :
    ∃ w, octInterp2D nt freq1 freq2 amp m0 m1 = .ok w ∧ ∀ (r col : Int), 0 ≤ col → col < m1 →
      ((r : K) + 1/2 ≤ lo - 1 ∨ hi + 1 ≤ (r : K) + 1/2) → at_ (r * m1 + col) w = 0 := by
  rw [octInterp2D_triList]
  have htri : ∀ t ∈ triList nt, ∃ w, triangle2D (freq1 (rank nt t.1), freq2 (rank nt t.1))
        (freq1 (rank nt t.2.1), freq2 (rank nt t.2.1)) (freq1 (rank nt t.2.2), freq2 (rank nt t.2.2))
        (amp (rank nt t.1) + amp (rank nt t.2.1) + amp (rank nt t.2.2)) m0 m1 = .ok w ∧
      ∀ (r col : Int), 0 ≤ col → col < m1 → ((r : K) + 1/2 ≤ lo - 1 ∨ hi + 1 ≤ (r : K) + 1/2) → at_ (r * m1 + col) w = 0 := by
    intro t ht
    obtain ⟨b1, b2, b3⟩ := tri_bounds nt t ht
    refine triangle2D_near _ _ _ _ m0 m1 hm0 hm1 lo hi h0 ?_
    intro P hP
    simp only [List.mem_cons, List.not_mem_nil, or_false] at hP
    rcases hP with rfl | rfl | rfl
    · exact h _ (rank_lt nt _ b1)
    · exact h _ (rank_lt nt _ b2)
    · exact h _ (rank_lt nt _ b3)
  obtain ⟨w, e, hw⟩ := runCalls_val _ (fun c hc => by
    obtain ⟨t, ht, rfl⟩ := List.mem_map.mp hc
    obtain ⟨w, e, -⟩ := htri t ht
    exact ⟨w, e⟩)
  refine ⟨w, e, fun r col g0 g1 hr => ?_⟩
  rw [hw, List.map_map]
  apply List.sum_eq_zero
  intro z hz
  obtain ⟨t, ht, rfl⟩ := List.mem_map.mp hz
  obtain ⟨w, e, hv⟩ := htri t ht
  simp only [Function.comp]
  rw [e]
  exact hv r col g0 g1 hr

/-- **The map of a narrow first dimension.** `X i k` and `δ` bound the first frequency of every orientation for the pair of sidebands
`(i, k)`; only the pairs that pass the test of the window count. -/
theorem averaging2D_near (t : Nat → K) (A B : Axis K) (nt nOct nSide : Nat) (hm0 : 1 ≤ A.count) (hm1 : 1 ≤ B.count) (X : Nat → Nat → K) (δ : K)
    (hX : ∀ i < nSide, ∀ k < nSide, pass2D t A B i k = true → δ ≤ X i k)
    (h : ∀ i < nSide, ∀ k < nSide, ∀ q, q < nOct * nPts nt → |A.freq q + (offsets2D t A B i k).1 - X i k| ≤ δ) :
    ∃ w, averaging2D t A B nt nOct nSide = .ok w ∧ ∀ (r col : Int), 0 ≤ col → col < B.count →
      (∀ i < nSide, ∀ k < nSide, pass2D t A B i k = true → 1 + δ ≤ |(r : K) + 1/2 - X i k|) → at_ (r * B.count + col) w = 0 := by
  have hb : ∀ s ∈ passes2D t A B nSide nOct, ∃ w, body2D t A B nt nOct s = .ok w ∧ ∀ (r col : Int), 0 ≤ col → col < B.count →
      (∀ i < nSide, ∀ k < nSide, pass2D t A B i k = true → 1 + δ ≤ |(r : K) + 1/2 - X i k|) → at_ (r * B.count + col) w = 0 := by
    rintro ⟨i, k, j⟩ hs
    obtain ⟨hi, hk, hj, hp⟩ := (mem_passes t A B nSide nOct i k j).mp hs
    unfold body2D
    simp only
    obtain ⟨w, e, hw⟩ := octInterp2D_near nt (fun q => A.freq (j * nPts nt + q) + (offsets2D t A B i k).1)
      (fun q => B.freq (j * nPts nt + q) + (offsets2D t A B i k).2)
      (fun q => A.amp (i * (nOct * nPts nt) + j * nPts nt + q) * B.amp (k * (nOct * nPts nt) + j * nPts nt + q))
      A.count B.count (by exact_mod_cast hm0) hm1 (X i k - δ) (X i k + δ) (by linarith [hX i hi k hk hp]) (by
        intro q hq
        have := abs_le.mp (h i hi k hk (j * nPts nt + q) (by
          calc j * nPts nt + q < j * nPts nt + nPts nt := by omega
            _ = (j + 1) * nPts nt := by ring
            _ ≤ nOct * nPts nt := Nat.mul_le_mul_right _ hj))
        constructor <;> linarith)
    refine ⟨w, e, fun r col g0 g1 hr => hw r col g0 g1 ?_⟩
    rcases le_abs.mp (hr i hi k hk hp) with h1 | h1
    · right; linarith
    · left; linarith
  unfold averaging2D
  obtain ⟨w, e, hw⟩ := runCalls_val _ (fun c hc => by
    obtain ⟨s, hs, rfl⟩ := List.mem_map.mp hc
    obtain ⟨w, e, -⟩ := hb s hs
    exact ⟨w, e⟩)
  refine ⟨w, e, fun r col g0 g1 hr => ?_⟩
  rw [hw, List.map_map]
  apply List.sum_eq_zero
  intro z hz
  obtain ⟨s, hs, rfl⟩ := List.mem_map.mp hz
  obtain ⟨w, e, hv⟩ := hb s hs
  simp only [Function.comp]
  rw [e]
  exact hv r col g0 g1 hr

end MRS.Bin
