import Verif.Bin.Average2D
import Verif.Bin.TwoDBounds
import Verif.Bin.Sharp

/-!
# Maps of two dimensions add nothing negative — lemmas for C109

The amounts that `triangle_interpolation2D` (src/c_lib/lib/interpolation.c:156-479) hands to the one-dimensional routine.
-/

namespace MRS.Bin

set_option linter.unusedSectionVars false

section Amounts

variable {K : Type} [Field K] [LinearOrder K] [IsStrictOrderedRing K] [FloorRing K]

theorem two_amt (row : ℤ) (f00 f01 f10 f11 up down denom amt : K) (hu : 0 ≤ up) (hd : 0 ≤ down) (hn : 0 ≤ denom) (ha : 0 ≤ amt) :
    ∀ c ∈ two row f00 f01 f10 f11 up down denom amt, 0 ≤ c.amt := by
  intro c hc
  unfold two at hc
  simp only [List.mem_cons, List.not_mem_nil, or_false] at hc
  rcases hc with rfl | rfl
  · exact mul_nonneg (div_nonneg hd hn) ha
  · exact mul_nonneg (div_nonneg hu hn) ha

theorem parts_amt (row : ℤ) (f00 f01 f10 f11 up down denom amt : K) (hu : 0 ≤ up) (hd : 0 ≤ down) (hn : 0 ≤ denom) (ha : 0 ≤ amt) :
    ∀ c ∈ parts row f00 f01 f10 f11 up down denom amt, 0 ≤ c.amt := by
  intro c hc
  unfold parts at hc
  split_ifs at hc
  · exact two_amt _ _ _ _ _ _ _ _ _ hu hd hn ha c hc
  · rw [List.mem_singleton] at hc
    rw [hc]
    exact ha

theorem upRows_amt (s01 s02 as df1 : K) (has : 0 ≤ as) (hdf : 0 ≤ df1) (n : ℕ) (p : ℤ) (diff f10 f11 up down denom : K) (hu : 0 ≤ up)
    (hd : 0 ≤ down) (hn : 0 ≤ denom) (ha : 0 ≤ diff + df1) :
    (∀ c ∈ (upRows s01 s02 as df1 n p diff f10 f11 up down denom).1, 0 ≤ c.amt) ∧
      0 ≤ (upRows s01 s02 as df1 n p diff f10 f11 up down denom).2.2.2.1 := by
  induction n generalizing p diff f10 f11 up down denom with
  | zero => exact ⟨fun c hc => by simp [upRows] at hc, hu⟩
  | succ n ih =>
    obtain ⟨h1, h2⟩ := ih (p + 1) (diff + df1) (f10 + s01) (f11 + s02) (up + as) (down + as) (denom + 2 * as) (by linarith) (by linarith)
      (by linarith) (by linarith)
    refine ⟨fun c hc => ?_, h2⟩
    simp only [upRows, List.mem_append] at hc
    rcases hc with hc | hc
    · exact parts_amt _ _ _ _ _ _ _ _ _ hu hd hn ha c hc
    · exact h1 c hc

theorem downRows_amt (s12 s02 as df2 : K) (has : 0 ≤ as) (hdf : 0 ≤ df2) (n : ℕ) (p : ℤ) (diff f10 f11 up down denom : K) (hu : n * as ≤ up + as)
    (hd : n * as ≤ down + as) (hn : denom = up + down) (ha : n * df2 ≤ diff) :
    ∀ c ∈ (downRows s12 s02 as df2 n p diff f10 f11 up down denom).1, 0 ≤ c.amt := by
  induction n generalizing p diff f10 f11 up down denom with
  | zero => exact fun c hc => by simp [downRows] at hc
  | succ n ih =>
    push_cast at hu hd ha
    have h1 : 0 ≤ (n : K) * as := by positivity
    have h2 : 0 ≤ (n : K) * df2 := by positivity
    intro c hc
    simp only [downRows, List.mem_append] at hc
    rcases hc with hc | hc
    · exact parts_amt _ _ _ _ _ _ _ _ _ (by nlinarith) (by nlinarith) (by rw [hn]; nlinarith) (by nlinarith) c hc
    · exact ih (p + 1) _ _ _ (up - as) (down - as) (denom - 2 * as) (by nlinarith) (by nlinarith) (by rw [hn]; ring) (by nlinarith) c hc

theorem left2D_amt (p pmid : ℤ) (clipL1 clipR1 : Bool) (top x0 x1 y0 y1 s01 s02 : K) (w : List (Call K)) (o : Option (K × K))
    (ht : 0 ≤ top) (h01 : x0 ≤ x1) (hp : p ≠ pmid → x0 ≤ p + 1) (hl : clipL1 = true → x0 ≤ -1 ∧ 0 ≤ p)
    (hr : clipR1 = false → p ≠ pmid → (pmid : K) ≤ x1)
    (h : left2D p pmid clipL1 clipR1 top x0 x1 y0 y1 s01 s02 = .ok (w, o)) : ∀ c ∈ w, 0 ≤ c.amt := by
  intro c hcw
  unfold left2D at h
  simp only [] at h
  have hf : 0 ≤ x1 - x0 := by linarith
  by_cases h1 : p ≠ pmid
  · rw [if_pos h1] at h
    have hx := hp h1
    have hdiff : 0 ≤ (p : K) + 1 - x0 := by linarith
    have hdf : 0 ≤ top / (x1 - x0) := div_nonneg ht hf
    by_cases h2 : pmid < p + 1
    · rw [if_pos h2] at h; simp at h
    rw [if_neg h2] at h
    obtain ⟨u1, u2⟩ := upRows_amt s01 s02 |s02 - s01| (top / (x1 - x0)) (abs_nonneg _) hdf (pmid - (p + 1)).toNat (p + 1)
      (((p : K) + 1 - x0 - 1 / 2) * (top / (x1 - x0))) (s01 * ((p : K) + 1 - x0) + y0) (s02 * ((p : K) + 1 - x0) + y0)
      |((p : K) + 1 - x0) * (s02 - s01)| |((p : K) + 1 - x0) * (s02 - s01) + (s02 - s01)|
      (|((p : K) + 1 - x0) * (s02 - s01)| + |((p : K) + 1 - x0) * (s02 - s01) + (s02 - s01)|) (abs_nonneg _) (abs_nonneg _)
      (by positivity) (by nlinarith [mul_nonneg hdiff hdf])
    have hfirst : ∀ q ∈ (if (!clipL1) = true then [(⟨p, y0, s02 * ((p : K) + 1 - x0) + y0, s01 * ((p : K) + 1 - x0) + y0,
          1 / 2 * ((p : K) + 1 - x0) * ((p : K) + 1 - x0) * (top / (x1 - x0))⟩ : Call K)]
        else parts p (s01 * ((p : K) + 1 - x0) + y0 - s01) (s02 * ((p : K) + 1 - x0) + y0 - s02) (s01 * ((p : K) + 1 - x0) + y0)
          (s02 * ((p : K) + 1 - x0) + y0) |s02 * ((p : K) + 1 - x0) + y0 - s02 - (s01 * ((p : K) + 1 - x0) + y0 - s01)|
          |s02 * ((p : K) + 1 - x0) + y0 - (s01 * ((p : K) + 1 - x0) + y0)|
          (|s02 * ((p : K) + 1 - x0) + y0 - (s01 * ((p : K) + 1 - x0) + y0)|
            + |s02 * ((p : K) + 1 - x0) + y0 - s02 - (s01 * ((p : K) + 1 - x0) + y0 - s01)|)
          (((p : K) + 1 - x0 - 1 / 2) * (top / (x1 - x0)))), 0 ≤ q.amt := by
      intro q hq
      cases clipL1 with
      | false =>
        simp only [Bool.not_false, if_true, List.mem_singleton] at hq
        rw [hq]
        dsimp only
        positivity
      | true =>
        simp only [Bool.not_true, Bool.false_eq_true, if_false] at hq
        obtain ⟨l1, l2⟩ := hl rfl
        have : (0 : K) ≤ p := by exact_mod_cast l2
        exact parts_amt _ _ _ _ _ _ _ _ _ (abs_nonneg _) (abs_nonneg _) (by positivity) (mul_nonneg (by linarith) hdf) q hq
    by_cases h3 : clipR1
    · simp only [h3, Bool.not_true, Bool.false_eq_true, if_false, Except.ok.injEq, Prod.mk.injEq] at h
      rw [← h.1, List.mem_append] at hcw
      rcases hcw with hcw | hcw
      · exact hfirst c hcw
      · exact u1 c hcw
    · have h3' := eq_false_of_ne_true h3
      have hm := hr h3' h1
      simp only [h3', Bool.not_false, if_true, Except.ok.injEq, Prod.mk.injEq] at h
      rw [← h.1, List.mem_append, List.mem_append] at hcw
      rcases hcw with (hcw | hcw) | hcw
      · exact hfirst c hcw
      · exact u1 c hcw
      · have hpm : (p : K) + 1 ≤ pmid := by exact_mod_cast (by omega : p + 1 ≤ pmid)
        have hamt : 0 ≤ (x1 - pmid) * (x1 - x0 + (pmid - x0)) * (1 / 2) * (top / (x1 - x0)) :=
          mul_nonneg (mul_nonneg (mul_nonneg (by linarith) (by linarith)) (by norm_num)) hdf
        split_ifs at hcw
        · exact two_amt _ _ _ _ _ _ _ _ _ u2 (abs_nonneg _) (add_nonneg (abs_nonneg _) u2) hamt c hcw
        · rw [List.mem_singleton] at hcw
          rw [hcw]
          exact hamt
  · rw [if_neg h1] at h
    by_cases h2 : (!clipR1 && !clipL1) = true
    · rw [if_pos h2] at h
      simp only [Except.ok.injEq, Prod.mk.injEq] at h
      rw [← h.1, List.mem_singleton] at hcw
      rw [hcw]
      dsimp only
      positivity
    · rw [if_neg h2] at h
      simp only [Except.ok.injEq, Prod.mk.injEq] at h
      rw [← h.1] at hcw
      simp at hcw

theorem right2D_amt (p pmax : ℤ) (clipL2 clipR2 : Bool) (top x0 x1 x2 y0 y1 y2 s02 s12 : K) (mid : Option (K × K))
    (w : List (Call K)) (ht : 0 ≤ top) (h12 : x1 ≤ x2) (hp : p ≠ pmax → clipL2 = false → x1 ≤ p + 1) (hmax : p < pmax → (pmax : K) ≤ x2)
    (e02 : p < pmax → s02 * (x2 - x0) = y2 - y0) (e12 : p < pmax → s12 * (x2 - x1) = y2 - y1)
    (h : right2D p pmax clipL2 clipR2 top x0 x1 x2 y0 y1 y2 s02 s12 mid = .ok w) : ∀ c ∈ w, 0 ≤ c.amt := by
  intro c hcw
  unfold right2D at h
  simp only [] at h
  have hf : 0 ≤ x2 - x1 := by linarith
  by_cases h1 : p ≠ pmax
  · rw [if_pos h1] at h
    have hdf : 0 ≤ top / (x2 - x1) := div_nonneg ht hf
    split at h
    · simp at h
    · rename_i first g10 g11 down hs
      by_cases h2 : pmax < p + 1
      · rw [if_pos h2] at h; simp at h
      rw [if_neg h2] at h
      have hlt : p < pmax := by omega
      have hx2 := hmax hlt
      have hpm : (p : K) + 1 ≤ pmax := by exact_mod_cast (by omega : p + 1 ≤ pmax)
      have hD : s02 * ((p : K) + 1 - x0) + y0 - (s12 * ((p : K) + 1 - x1) + y1) = (s02 - s12) * ((p : K) + 1 - x2) := by
        linear_combination e02 hlt - e12 hlt
      have habs : |(s02 - s12) * ((p : K) + 1 - x2)| = |s02 - s12| * (x2 - p - 1) := by
        rw [abs_mul, abs_of_nonpos (by linarith : (p : K) + 1 - x2 ≤ 0)]
        ring
      have hfirst : (∀ q ∈ first, 0 ≤ q.amt) ∧ |down| = |s02 - s12| * (x2 - p - 1) := by
        by_cases h2 : (!clipL2) = true
        · rw [if_pos h2] at hs
          split at hs
          · simp at hs
          · simp only [Except.ok.injEq, Prod.mk.injEq] at hs
            obtain ⟨rfl, -, -, rfl⟩ := hs
            have hx1 := hp h1 (by simpa using h2)
            refine ⟨parts_amt _ _ _ _ _ _ _ _ _ (abs_nonneg _) (abs_nonneg _) (by positivity)
              (mul_nonneg (mul_nonneg (mul_nonneg (by linarith) (by linarith)) (by norm_num)) hdf), ?_⟩
            rw [hD, habs]
        · rw [if_neg h2] at hs
          simp only [Except.ok.injEq, Prod.mk.injEq] at hs
          obtain ⟨rfl, -, -, rfl⟩ := hs
          refine ⟨parts_amt _ _ _ _ _ _ _ _ _ (abs_nonneg _) (abs_nonneg _) (by positivity) (mul_nonneg (by linarith) hdf), ?_⟩
          rw [abs_abs, ← habs, ← hD]
          congr 1
          ring
      obtain ⟨f1, f2⟩ := hfirst
      simp only [Except.ok.injEq] at h
      rw [← h, List.mem_append, List.mem_append] at hcw
      rcases hcw with (hcw | hcw) | hcw
      · exact f1 c hcw
      · have hn : (((pmax - (p + 1)).toNat : ℕ) : K) = pmax - (p + 1) := by
          have : (((pmax - (p + 1)).toNat : ℕ) : ℤ) = pmax - (p + 1) := Int.toNat_of_nonneg (by omega)
          exact_mod_cast congrArg (Int.cast : ℤ → K) this
        have has := abs_nonneg (s02 - s12)
        have htri : |down| ≤ |down + (s02 - s12)| + |s02 - s12| := by
          have := abs_sub (down + (s02 - s12)) (s02 - s12)
          rwa [add_sub_cancel_right] at this
        refine downRows_amt s12 s02 |s02 - s12| (top / (x2 - x1)) has hdf _ _ _ _ _ _ _ _ ?_ ?_ rfl ?_ c hcw
        · rw [hn, f2]
          nlinarith
        · rw [hn]
          nlinarith
        · rw [hn]
          nlinarith
      · by_cases h3 : clipR2
        · simp [h3] at hcw
        · have h3' := eq_false_of_ne_true h3
          simp only [h3', Bool.not_false, if_true, List.mem_singleton] at hcw
          rw [hcw]
          dsimp only
          exact mul_nonneg (mul_nonneg (mul_self_nonneg _) (by norm_num)) hdf
  · rw [if_neg h1] at h
    by_cases h3 : clipR2
    · simp [h3] at h
      rw [h] at hcw
      simp at hcw
    · have h3' := eq_false_of_ne_true h3
      simp only [h3', Bool.not_false, if_true] at h
      split at h
      · simp at h
      · simp only [Except.ok.injEq] at h
        rw [← h, List.mem_singleton] at hcw
        rw [hcw]
        dsimp only
        positivity

theorem trunc_cases (x : K) : (trunc x < 0 ∧ x ≤ -1) ∨ (trunc x = 0 ∧ -1 < x ∧ x < 1) ∨ (1 ≤ trunc x ∧ (trunc x : K) ≤ x ∧ x < trunc x + 1) := by
  rcases lt_trichotomy (trunc x) 0 with h | h | h
  · exact Or.inl ⟨h, trunc_lt_zero.mp h⟩
  · exact Or.inr (Or.inl ⟨h, trunc_eq_zero.mp h⟩)
  · have := trunc_pos (x := x) (by omega)
    exact Or.inr (Or.inr ⟨by omega, this.1, this.2.1⟩)

theorem sorted2D_amt (x0 y0 x1 y1 x2 y2 amp : K) (m0 : ℤ) (hm0 : 1 ≤ m0) (ha : 0 ≤ amp) (h01 : x0 ≤ x1) (h12 : x1 ≤ x2) (cs : List (Call K))
    (h : sorted2D x0 y0 x1 y1 x2 y2 amp m0 = .ok cs) : ∀ q ∈ cs, 0 ≤ q.amt := by
  intro q hq
  unfold sorted2D at h
  simp only [] at h
  by_cases h3 : trunc x0 > m0
  · rw [if_pos h3] at h
    simp only [Except.ok.injEq] at h
    rw [← h] at hq; simp at hq
  rw [if_neg h3] at h
  by_cases h4 : trunc x2 < 0
  · rw [if_pos h4] at h
    simp only [Except.ok.injEq] at h
    rw [← h] at hq; simp at hq
  rw [if_neg h4] at h
  have ht : 0 ≤ amp * 2 / (x2 - x0) := div_nonneg (by linarith) (by linarith)
  have m01 := trunc_mono h01
  have m12 := trunc_mono h12
  have c0 := trunc_cases x0
  have c1 := trunc_cases x1
  have c2 := trunc_cases x2
  have low : ∀ (x : K) (n : ℤ), 1 ≤ n → n ≤ trunc x → (n : K) ≤ x := by
    intro x n h1 h2
    have : (n : K) ≤ trunc x := by exact_mod_cast h2
    exact this.trans (trunc_pos (by omega)).1
  have high : ∀ (x : K) (n : ℤ), 0 ≤ n → trunc x ≤ n → x ≤ n + 1 := by
    intro x n h1 h2
    have e1 : (0 : K) ≤ n := by exact_mod_cast h1
    have e2 : (trunc x : K) ≤ n := by exact_mod_cast h2
    rcases trunc_cases x with ⟨-, h⟩ | ⟨-, -, h⟩ | ⟨-, -, h⟩ <;> linarith
  have slope : ∀ a b u v : K, a < b → (v - u) / (b - a) * (b - a) = v - u := fun a b u v hab => div_mul_cancel₀ _ (sub_ne_zero.mpr hab.ne')
  by_cases h5 : trunc x1 < 0
  · have hm : (if trunc x1 ≥ m0 then m0 else trunc x1) = trunc x1 := if_neg (by omega)
    have hp : (if trunc x0 < 0 then 0 else trunc x0) = 0 := if_pos (by omega)
    simp only [hm, hp, h5, decide_true, Bool.true_eq_false, if_false] at h
    have hx1 : x1 ≤ -1 := trunc_lt_zero.mp h5
    refine right2D_amt _ _ _ _ _ _ _ _ _ _ _ _ _ _ _ ht h12 (fun _ h => absurd h (by simp)) ?_ ?_ ?_ h q hq
    · intro hlt
      exact low _ _ (by omega) (by split_ifs <;> omega)
    · intro hlt
      have := low x2 (if trunc x2 ≥ m0 then m0 else trunc x2) (by omega) (by split_ifs <;> omega)
      have h0 : (0 : K) ≤ ((if trunc x2 ≥ m0 then m0 else trunc x2 : ℤ) : K) := by exact_mod_cast hlt.le
      exact slope _ _ _ _ (by linarith)
    · intro hlt
      have := low x2 (if trunc x2 ≥ m0 then m0 else trunc x2) (by omega) (by split_ifs <;> omega)
      have h0 : (0 : K) ≤ ((if trunc x2 ≥ m0 then m0 else trunc x2 : ℤ) : K) := by exact_mod_cast hlt.le
      exact slope _ _ _ _ (by linarith)
  · have hm : ¬ (if trunc x1 ≥ m0 then m0 else trunc x1) < 0 := by split_ifs <;> omega
    simp only [hm, decide_false, if_true, if_false] at h
    split at h
    · simp at h
    · rename_i w1 mid hl
      split at h
      · simp at h
      · rename_i w2 hr
        simp only [Except.ok.injEq] at h
        rw [← h, List.mem_append] at hq
        rcases hq with hq | hq
        · refine left2D_amt _ _ _ _ _ _ _ _ _ _ _ _ _ ht h01 ?_ ?_ ?_ hl q hq
          · intro _
            exact high _ _ (by split_ifs <;> omega) (by split_ifs <;> omega)
          · intro hd
            have := of_decide_eq_true hd
            exact ⟨trunc_lt_zero.mp this, by split_ifs; omega⟩
          · intro hd hne
            have hd := of_decide_eq_false hd
            rw [if_neg hd] at hne ⊢
            have : 1 ≤ trunc x1 := by
              by_contra hcon
              apply hne
              split_ifs <;> omega
            exact low _ _ this le_rfl
        · have hlt' : ∀ {P : Prop}, ((if trunc x1 ≥ m0 then m0 else trunc x1) < (if trunc x2 ≥ m0 then m0 else trunc x2) → (1 ≤ trunc x2 ∧ trunc x1 < m0
              ∧ trunc x1 < (if trunc x2 ≥ m0 then m0 else trunc x2)) → P) →
              ((if trunc x1 ≥ m0 then m0 else trunc x1) < (if trunc x2 ≥ m0 then m0 else trunc x2) → P) := by
            intro P f hlt
            refine f hlt ?_
            split_ifs at hlt ⊢ <;> omega
          have hx2 : trunc x1 < (if trunc x2 ≥ m0 then m0 else trunc x2) → trunc x1 < m0 → x1 < x2 := by
            intro h1 h2
            by_contra hcon
            have := trunc_mono (not_lt.mp hcon)
            split_ifs at h1 <;> omega
          refine right2D_amt _ _ _ _ _ _ _ _ _ _ _ _ _ _ _ ht h12 ?_ ?_ ?_ ?_ hr q hq
          · intro hne _
            have : ¬ trunc x1 ≥ m0 := by
              intro hcon
              apply hne
              rw [if_pos hcon, if_pos (by omega)]
            rw [if_neg this]
            exact high _ _ (by omega) le_rfl
          · intro hlt
            exact low _ _ (by split_ifs at hlt ⊢ <;> omega) (by split_ifs <;> omega)
          · exact hlt' fun _ h => slope _ _ _ _ (h01.trans_lt (hx2 h.2.2 h.2.1))
          · exact hlt' fun _ h => slope _ _ _ _ (hx2 h.2.2 h.2.1)

/-- The amounts are not negative, except perhaps in the first row. -/
theorem calls2D_amt (a b c : K × K) (amp : K) (m0 : ℤ) (hm0 : 1 ≤ m0) (ha : 0 ≤ amp) (cs : List (Call K)) (h : calls2D a b c amp m0 = .ok cs) :
    ∀ q ∈ cs, q.row ≠ 0 → 0 ≤ q.amt := by
  intro q hq hrow
  unfold calls2D at h
  simp only [] at h
  by_cases h1 : |a.1 - b.1| < TOL ∧ |a.1 - c.1| < TOL
  · rw [if_pos h1] at h
    by_cases h2 : trunc a.1 ≥ m0 ∨ trunc a.1 < 0
    · rw [if_pos h2] at h
      simp only [Except.ok.injEq] at h
      rw [← h] at hq; simp at hq
    rw [if_neg h2] at h
    have hc := trunc_cases a.1
    split_ifs at h with i1 i2 i3 i4 i5 <;> simp only [Except.ok.injEq] at h <;> rw [← h] at hq <;>
      simp only [List.mem_cons, List.not_mem_nil, or_false, List.nil_append, List.cons_append] at hq
    · rw [hq]; exact ha
    · rcases hq with rfl | rfl
      · exact mul_nonneg ha (by linarith)
      · dsimp only at hrow ⊢
        rcases hc with hc | hc | hc
        · omega
        · omega
        · exact mul_nonneg ha (by linarith [hc.2.1])
    · subst hq
      dsimp only at hrow
      omega
    all_goals
      have hup : a.1 - trunc a.1 ≤ 1 := by
        rcases hc with hc | hc | hc
        · omega
        · rw [hc.1]; push_cast; linarith [hc.2.2]
        · linarith [hc.2.2]
    · rcases hq with rfl | rfl
      · exact mul_nonneg ha (by linarith)
      · exact mul_nonneg ha (by linarith)
    · rw [hq]
      exact mul_nonneg ha (by linarith)
  rw [if_neg h1] at h
  by_cases h2 : trunc a.1 = trunc b.1 ∧ trunc a.1 = trunc c.1
  · rw [if_pos h2] at h
    by_cases h3 : trunc a.1 ≥ m0 ∨ trunc a.1 < 0
    · rw [if_pos h3] at h
      simp only [Except.ok.injEq] at h
      rw [← h] at hq; simp at hq
    rw [if_neg h3] at h
    simp only [Except.ok.injEq] at h
    rw [← h, List.mem_singleton] at hq
    rw [hq]
    exact ha
  rw [if_neg h2] at h
  obtain ⟨P0, P1, P2, e, -, l1, l2, -⟩ := sortPairs_cases a b c
  rw [e] at h
  exact sorted2D_amt _ _ _ _ _ _ _ _ hm0 ha l1 l2 cs h q hq

end Amounts

/-- One row: nothing negative but at the first point, nothing outside. -/
theorem row_nonneg (a b c amt : ℝ) (m k : ℤ) (hm : 1 ≤ m) :
    ∃ w, triangleOrDelta a b c amt m = .ok w ∧ (0 ≤ amt → 1 ≤ k → k < m → 0 ≤ at_ k w) ∧ (k < 0 ∨ m ≤ k → at_ k w = 0) := by
  unfold triangleOrDelta
  by_cases hs : |a - b| < TOL ∧ |a - c| < TOL
  · rw [if_pos hs]
    refine ⟨_, rfl, fun ha h1 h2 => ?_, fun h => ?_⟩
    · rw [delta_tent _ _ _ _ h1 h2]
      split_ifs
      · refine mul_nonneg ha ?_
        unfold Spec.linear
        split_ifs <;> linarith
      · exact le_rfl
    · apply at_zero_of_not_mem
      intro q hq hqk
      have := C36_delta a amt m q.1 q.2 hq
      omega
  · rw [if_neg hs]
    obtain ⟨w, e, h1, h2⟩ := C35_nonneg a b c amt m hm (fun _ => 0)
    refine ⟨w, e, fun ha _ _ => ?_, fun h => ?_⟩
    · have := h1 ha k
      rwa [applyWrites_eq, zero_add] at this
    · have := h2 k h
      rwa [applyWrites_eq, zero_add] at this

theorem perform_nonneg (m1 : ℕ) (r k : ℤ) (h1 : 1 ≤ k) (h2 : k < m1) (cs : List (Call ℝ)) (h : ∀ c ∈ cs, c.row = r → 0 ≤ c.amt) :
    0 ≤ val (r * m1 + k) (perform m1 cs) := by
  induction cs with
  | nil => exact le_rfl
  | cons c l ih =>
    have h3 := ih fun c' hc' => h c' (List.mem_cons_of_mem _ hc')
    obtain ⟨w, e, n1, n2⟩ := row_nonneg c.a c.b c.c c.amt m1 (r * m1 + k - c.row * m1) (by omega)
    rw [perform, e]
    cases e2 : perform (m1 : ℤ) l with
    | error x => exact le_rfl
    | ok w' =>
      rw [e2] at h3
      change 0 ≤ at_ _ (_ ++ w')
      rw [at_append, at_map_shift]
      refine add_nonneg ?_ h3
      rcases lt_trichotomy c.row r with hr | hr | hr
      · rw [n2 (Or.inr (by nlinarith))]
      · have hk : r * (m1 : ℤ) + k - c.row * m1 = k := by rw [hr]; ring
        rw [hk] at n1 ⊢
        exact n1 (h c List.mem_cons_self hr) h1 h2
      · rw [n2 (Or.inl (by nlinarith))]

theorem triangle2D_nonneg (a b c : ℝ × ℝ) (amp : ℝ) (m0 m1 : ℕ) (hm0 : 1 ≤ m0) (ha : 0 ≤ amp) (r k : ℤ) (hr : r ≠ 0) (h1 : 1 ≤ k) (h2 : k < m1) :
    0 ≤ val (r * m1 + k) (triangle2D a b c amp m0 m1) := by
  unfold triangle2D
  cases e : calls2D a b c amp (m0 : ℤ) with
  | error x => exact le_rfl
  | ok cs =>
    exact perform_nonneg m1 r k h1 h2 cs fun q hq hrow => calls2D_amt a b c amp m0 (by omega) ha cs e q hq (by rw [hrow]; exact hr)

/-- Adding up calls that add nothing negative. -/
theorem runCalls_pos (k : ℤ) (l : List (Py (Writes ℝ))) (h : ∀ c ∈ l, 0 ≤ val k c) : 0 ≤ val k (runCalls l) := by
  induction l with
  | nil => exact le_rfl
  | cons c l ih =>
    have h1 := h c List.mem_cons_self
    have h2 := ih fun c hc => h c (List.mem_cons_of_mem _ hc)
    cases c with
    | error e => exact le_rfl
    | ok w =>
      cases e : runCalls l with
      | error x =>
        simp only [runCalls, e]
        exact le_rfl
      | ok v =>
        simp only [runCalls, e]
        rw [e] at h2
        change 0 ≤ at_ k (w ++ v)
        rw [at_append]
        exact add_nonneg h1 h2

theorem octLoop_all {β : Type} (P : β → Prop) (up down : ℕ → ℕ → List β) (hu : ∀ i j, ∀ x ∈ up i j, P x) (hd : ∀ i j, ∀ x ∈ down i j, P x)
    (nt i j : ℕ) (li : ℤ) : ∀ x ∈ octLoop up down nt i j li, P x := by
  induction i, j, li using octLoop.induct nt with
  | case1 i j li h1 ih1 ih2 =>
    rw [octLoop, if_pos h1]
    intro x hx
    rcases List.mem_append.mp hx with hx | hx
    · exact hu _ _ x hx
    · split_ifs at hx
      · rcases List.mem_append.mp hx with hx | hx
        · exact hd _ _ x hx
        · exact ih1 x hx
      · exact ih2 x hx
  | case2 i j li h1 =>
    rw [octLoop, if_neg h1]
    simp

theorem averaging2D_nonneg (t : ℕ → ℝ) (A B : Axis ℝ) (nt nOct nSide : ℕ) (hA : ∀ q, 0 ≤ A.amp q) (hB : ∀ q, 0 ≤ B.amp q) (hm : 1 ≤ A.count)
    (r k : ℤ) (hr : r ≠ 0) (h1 : 1 ≤ k) (h2 : k < B.count) : 0 ≤ val (r * B.count + k) (averaging2D t A B nt nOct nSide) := by
  refine runCalls_pos _ _ fun c hc => ?_
  obtain ⟨s, -, rfl⟩ := List.mem_map.mp hc
  unfold body2D octInterp2D
  simp only []
  refine runCalls_pos _ _ (octLoop_all _ _ _ (fun i j x hx => ?_) (fun i j x hx => ?_) _ _ _ _)
  all_goals
    rw [List.mem_singleton] at hx
    rw [hx]
    exact triangle2D_nonneg _ _ _ _ _ _ hm
      (add_nonneg (add_nonneg (mul_nonneg (hA _) (hB _)) (mul_nonneg (hA _) (hB _))) (mul_nonneg (hA _) (hB _))) r k hr h1 h2

end MRS.Bin
