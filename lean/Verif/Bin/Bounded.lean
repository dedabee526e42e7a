import Verif.Freq.Positive
import Verif.Bin.Project

/-!
# How much the average over orientations gives to a spectrum
-/

namespace MRS.Bin

/-- What a sequence of additions gives to the whole spectrum. -/
noncomputable def whole (m : ℕ) (w : Py (Writes ℝ)) : ℝ := ∑ k ∈ Finset.range m, val (k : ℤ) w

theorem whole_deltaFn (f amp : ℝ) (ha : 0 ≤ amp) (m : ℕ) : whole m (.ok (deltaFn f m amp)) ≤ amp := by
  have hs := sum_at m (deltaFn f m amp) (fun q hq => C36_delta f amp m q.1 q.2 hq)
  rw [sum_range_list] at hs
  change ∑ k ∈ Finset.range m, at_ (k : ℤ) (deltaFn f m amp) ≤ amp
  rw [hs]
  by_cases hf : -1 < f ∧ f < -1 / 2
  · have ht : trunc f = 0 := trunc_eq_zero.mpr ⟨hf.1, by linarith [hf.2]⟩
    have h1 : ¬ |f - ((0 : ℤ) : ℝ) - 1 / 2| < TOL := by
      rw [not_lt, show (TOL : ℝ) = 1 / 1000000 from rfl, le_abs]
      right
      push_cast
      linarith [hf.2]
    unfold deltaFn
    simp only [ht]
    by_cases hm : (0 : ℤ) ≥ m ∨ (0 : ℤ) < 0
    · rw [if_pos hm]
      exact ha
    · rw [if_neg hm, if_neg h1, if_pos (by push_cast; linarith [hf.2]), if_neg (by simp)]
      simp only [List.nil_append, List.map_cons, List.map_nil, List.sum_cons, List.sum_nil, add_zero]
      push_cast
      nlinarith [hf.2]
  · exact (C37_nonneg_partial f amp (m : ℤ) ha (by
      rcases le_or_gt f (-1) with h | h
      · exact Or.inl h
      · right
        by_contra h'
        exact hf ⟨h, not_le.mp h'⟩)).2

/-! ## The first bin -/

theorem left_first (pmid : ℤ) (hpm : 0 ≤ pmid) (lc rc : Bool) (top f0 f1 : ℝ) (htop : 0 ≤ top) (h0 : f0 < 0) (h01 : f0 ≤ f1)
    (hz : pmid = 0 → f1 < 1) (ho : pmid ≠ 0 → 1 ≤ f1) : ∃ w, leftTri 0 pmid lc rc top f0 f1 = .ok w ∧ at_ 0 w ≤ cumL top f0 f1 1 := by
  unfold leftTri
  simp only []
  by_cases hp : 0 = pmid
  · rw [if_pos hp]
    refine ⟨_, rfl, ?_⟩
    rw [at_cons, if_pos rfl, at_nil, add_zero, cumL_hi _ _ _ _ h01 (hz hp.symm).le]
    have : 0 ≤ top * (f1 - f0) / 2 := by
      have := mul_nonneg htop (sub_nonneg.mpr h01)
      linarith
    split_ifs
    · linarith
    · exact this
  · rw [if_neg hp, if_neg (by omega)]
    refine ⟨_, rfl, ?_⟩
    have h1 := ho (fun h => hp h.symm)
    have hdf : 0 ≤ top / (f1 - f0) := div_nonneg htop (by linarith)
    have hup : ∀ (n : ℕ) (d : ℝ), at_ 0 (upLoop (top / (f1 - f0)) n (0 + 1) d) = 0 := by
      intro n d
      rw [at_upLoop, if_neg (by omega)]
    have hlast : ∀ x : ℝ, at_ 0 [(pmid, x)] = 0 := by
      intro x
      rw [at_cons, if_neg (by omega), at_nil, add_zero]
    rw [List.cons_append, at_cons, if_pos rfl, at_append, hup, hlast, add_zero, add_zero, cumL_mid _ _ _ _ (by linarith) h1]
    push_cast
    split_ifs
    · apply le_of_eq
      ring
    · nlinarith [mul_nonneg hdf (sq_nonneg f0)]

theorem right_first (pmid pmax : ℤ) (hpm : 0 ≤ pmid) (hle : pmid ≤ pmax) (lc rc : Bool) (top f1 f2 : ℝ) (htop : 0 ≤ top) (h12 : f1 ≤ f2)
    (hz : pmid = 0 → f1 < 1) (hz' : pmax = 0 → f2 < 1) (ho : pmax ≠ 0 → 1 ≤ f2) (hlc : lc = true → f1 ≤ 0) :
    ∃ w, rightTri pmid pmax lc rc top f1 f2 = .ok w ∧ at_ 0 w ≤ cumR top f1 f2 1 := by
  have hn : 0 ≤ cumR top f1 f2 1 := by
    rcases le_total 1 f1 with h | h
    · rw [cumR_lo _ _ _ _ h]
    · rcases le_total 1 f2 with h' | h'
      · rcases eq_or_lt_of_le h12 with e | hlt
        · rw [cumR_lo _ _ _ _ (by linarith)]
        · rw [cumR_mid _ _ _ _ h h' hlt]
          have : 0 ≤ top / (f2 - f1) := div_nonneg htop (by linarith)
          have e : top * (f2 - f1) / 2 = top / (f2 - f1) * (f2 - f1) ^ 2 / 2 := by
            have : f2 - f1 ≠ 0 := by linarith
            field_simp
          have h3 : (f2 - 1) ^ 2 ≤ (f2 - f1) ^ 2 := by nlinarith
          nlinarith [mul_nonneg this (sub_nonneg.mpr h3)]
      · rw [cumR_hi _ _ _ _ h12 h']
        have := mul_nonneg htop (sub_nonneg.mpr h12)
        linarith
  unfold rightTri
  simp only []
  by_cases hp : pmid = pmax
  · rw [if_pos hp]
    refine ⟨_, rfl, ?_⟩
    rw [at_cons, at_nil, add_zero]
    split_ifs with e
    · rw [cumR_hi _ _ _ _ h12 (hz' (by omega)).le]
      linarith
    · exact hn
    · exact hn
  · rw [if_neg hp, if_neg (by omega)]
    refine ⟨_, rfl, ?_⟩
    have h2 := ho (by omega)
    have htail : at_ 0 (if (!rc) = true then [(pmax, (f2 - (pmax : ℝ)) * (f2 - pmax) * (1 / 2) * (top / (f2 - f1)))] else []) = 0 := by
      split_ifs
      · rw [at_cons, if_neg (by omega), at_nil, add_zero]
      · rfl
    have hdown : ∀ (n : ℕ) (d : ℝ), at_ 0 (downLoop (top / (f2 - f1)) n (pmid + 1) d) = 0 := by
      intro n d
      rw [at_downLoop, if_neg (by omega)]
    rw [List.cons_append, at_cons, at_append, hdown, htail, add_zero, add_zero]
    split_ifs with e hl
    · have h1 := hz e
      have hlt : f1 < f2 := by linarith
      rw [cumR_mid _ _ _ _ h1.le h2 hlt, e]
      apply le_of_eq
      have : f2 - f1 ≠ 0 := by linarith
      push_cast
      field_simp
      ring
    · have h1 := hz e
      have hlt : f1 < f2 := by linarith
      have h0 := hlc (by simpa using hl)
      rw [cumR_mid _ _ _ _ h1.le h2 hlt, e]
      have hdf : 0 ≤ top / (f2 - f1) := div_nonneg htop (by linarith)
      have e' : top * (f2 - f1) / 2 = top / (f2 - f1) * (f2 - f1) ^ 2 / 2 := by
        have : f2 - f1 ≠ 0 := by linarith
        field_simp
      have h3 : f2 ^ 2 ≤ (f2 - f1) ^ 2 := by nlinarith
      rw [e']
      push_cast
      nlinarith [mul_nonneg hdf (sub_nonneg.mpr h3)]
    · exact hn

/-- A triangle adds to the first bin no more than its area below the end of that bin. -/
theorem triangle_first (a b c f0 f1 f2 amp : ℝ) (ha : 0 ≤ amp) (m : ℤ) (hm : 1 ≤ m) (hp : [a, b, c].Perm [f0, f1, f2]) (h01 : f0 ≤ f1) (h12 : f1 ≤ f2)
    (hlt : f0 < f2) : val 0 (triangle a b c amp m) ≤ amp * cum f0 f1 f2 1 1 := by
  by_cases h0 : 0 ≤ f0
  · obtain ⟨w, e, h⟩ := triangle_at a b c f0 f1 f2 amp m 0 hp h01 h12 hlt le_rfl (by omega) (fun _ => Or.inl h0)
    have h' : at_ 0 w = cum f0 f1 f2 amp (((0 : ℤ) : ℝ) + 1) - cum f0 f1 f2 amp ((0 : ℤ) : ℝ) := h
    rw [e]
    change at_ 0 w ≤ _
    rw [h', cum_scale f0 f1 f2 amp, cum_scale f0 f1 f2 amp]
    have := cum_unit_bounds f0 f1 f2 ((0 : ℤ) : ℝ) h01 h12 hlt
    push_cast at this ⊢
    rw [zero_add]
    nlinarith [mul_nonneg ha this.1]
  · push Not at h0
    have htop : 0 ≤ amp * 2 / (f2 - f0) := div_nonneg (by linarith) (by linarith)
    have t0 : trunc f0 ≤ 0 := (trunc_neg h0).1
    have l1 := lt_trunc_add_one f1
    have l2 := lt_trunc_add_one f2
    have m12 := trunc_mono h12
    have hcum := cum_unit_bounds f0 f1 f2 1 h01 h12 hlt
    have hge : ∀ x : ℝ, 1 ≤ trunc x → 1 ≤ x := by
      intro x h
      have := (trunc_pos h).1
      have h' : (1 : ℝ) ≤ trunc x := by exact_mod_cast h
      linarith
    have hlt1 : ∀ x : ℝ, trunc x ≤ 0 → x < 1 := by
      intro x h
      have h1 := lt_trunc_add_one x
      have h' : (trunc x : ℝ) ≤ 0 := by exact_mod_cast h
      linarith
    unfold triangle
    simp only []
    by_cases hsame : trunc a = trunc b ∧ trunc a = trunc c
    · rw [if_pos hsame]
      obtain ⟨e0, e1, e2⟩ := perm3_all (P := fun x => trunc x = trunc a) hp rfl hsame.1.symm hsame.2.symm
      split_ifs
      · exact mul_nonneg ha hcum.1
      · change at_ 0 [(trunc a, amp)] ≤ _
        rw [at_cons, at_nil, add_zero, cum_hi _ _ _ _ _ h01 h12 hlt (hlt1 f2 (by omega)).le, mul_one]
        split_ifs
        · exact le_rfl
        · exact ha
    · rw [if_neg hsame, sort3_spec a b c f0 f1 f2 hp h01 h12]
      unfold triangleSorted
      simp only []
      rw [if_neg (by omega)]
      by_cases hpm : trunc f2 < 0
      · rw [if_pos hpm]
        exact mul_nonneg ha hcum.1
      · rw [if_neg hpm]
        have hp0 : (if trunc f0 < 0 then 0 else trunc f0) = 0 := by split_ifs <;> omega
        rw [hp0]
        set q1 : ℤ := if (if trunc f1 ≥ m then m else trunc f1) < 0 then 0 else if trunc f1 ≥ m then m else trunc f1 with hq1
        set q2 : ℤ := if trunc f2 ≥ m then m else trunc f2 with hq2
        have hq1' : 0 ≤ q1 ∧ q1 ≤ q2 ∧ (q1 = 0 → trunc f1 ≤ 0) ∧ (q1 ≠ 0 → 1 ≤ trunc f1) ∧ (q2 = 0 → trunc f2 ≤ 0) ∧ (q2 ≠ 0 → 1 ≤ trunc f2) := by
          rw [hq1, hq2]
          split_ifs <;> refine ⟨?_, ?_, ?_, ?_, ?_, ?_⟩ <;> omega
        obtain ⟨b1, b2, b3, b4, b5, b6⟩ := hq1'
        obtain ⟨w1, e1, k1⟩ := left_first q1 b1 (decide (trunc f0 < 0)) (decide (trunc f1 ≥ m)) (amp * 2 / (f2 - f0)) f0 f1 htop h0 h01
          (fun h => hlt1 _ (b3 h)) (fun h => hge _ (b4 h))
        obtain ⟨w2, e2, k2⟩ := right_first q1 q2 b1 b2 (decide ((if trunc f1 ≥ m then m else trunc f1) < 0)) (decide (trunc f2 ≥ m))
          (amp * 2 / (f2 - f0)) f1 f2 htop h12 (fun h => hlt1 _ (b3 h)) (fun h => hlt1 _ (b5 h)) (fun h => hge _ (b6 h)) (fun h => by
            have h := of_decide_eq_true h
            have : trunc f1 < 0 := by split_ifs at h <;> omega
            linarith [trunc_lt_zero.mp this])
        rw [e1]
        simp only []
        rw [e2]
        change at_ 0 (w1 ++ w2) ≤ _
        rw [at_append, ← cum_scale]
        unfold cum
        linarith

theorem whole_triangle (a b c amp : ℝ) (ha : 0 ≤ amp) (m : ℕ) : whole m (triangle a b c amp m) ≤ amp := by
  obtain ⟨f0, f1, f2, hp, h01, h12⟩ := exists_sorted a b c
  unfold whole
  by_cases hlt : f0 < f2
  · rcases Nat.lt_or_ge m 1 with hm | hm
    · rw [Finset.range_eq_empty_iff.mpr (by omega), Finset.sum_empty]
      exact ha
    have hk : ∀ k ∈ Finset.Ico 1 m, val (k : ℤ) (triangle a b c amp m)
        = amp * (cum f0 f1 f2 1 ((k + 1 : ℕ) : ℝ) - cum f0 f1 f2 1 (k : ℝ)) := by
      intro k hk
      rw [Finset.mem_Ico] at hk
      obtain ⟨w, e, h⟩ := triangle_at a b c f0 f1 f2 amp m k hp h01 h12 hlt (by omega) (by omega) (by omega)
      rw [e, mul_sub, ← cum_scale, ← cum_scale]
      change at_ (k : ℤ) w = _
      rw [h]
      push_cast
      rfl
    have h0 := triangle_first a b c f0 f1 f2 amp ha m (by omega) hp h01 h12 hlt
    rw [Finset.range_eq_Ico, Finset.sum_eq_sum_Ico_succ_bot (by omega), zero_add, Finset.sum_congr rfl hk, ← Finset.mul_sum,
      Finset.sum_Ico_sub (fun k : ℕ => cum f0 f1 f2 1 (k : ℝ)) hm]
    have b1 := (cum_unit_bounds f0 f1 f2 ((m : ℕ) : ℝ) h01 h12 hlt).2
    push_cast at h0 ⊢
    nlinarith [mul_nonneg ha (sub_nonneg.mpr b1)]
  · have e1 : f0 = f1 := by linarith
    have e2 : f1 = f2 := by linarith
    subst e1 e2
    obtain ⟨ea, eb, ec⟩ := perm3_all (P := fun x => x = f0) hp.symm rfl rfl rfl
    subst ea
    subst eb ec
    have hv : triangle c c c amp m = if trunc c ≥ m ∨ trunc c < 0 then .ok [] else .ok [(trunc c, amp)] := by
      unfold triangle
      simp
    have hcase : ∀ k ∈ Finset.range m, val (k : ℤ) (triangle c c c amp m) ≤ if (trunc c).toNat = k then amp else 0 := by
      intro k hk
      rw [Finset.mem_range] at hk
      rw [hv]
      by_cases h1 : trunc c ≥ m ∨ trunc c < 0
      · rw [if_pos h1]
        change 0 ≤ _
        split_ifs
        · exact ha
        · exact le_rfl
      · rw [if_neg h1]
        show at_ k [(trunc c, amp)] ≤ _
        rw [at_cons, at_nil, add_zero]
        refine le_of_eq (if_congr ?_ rfl rfl)
        omega
    refine le_trans (Finset.sum_le_sum hcase) ?_
    rw [Finset.sum_ite_eq]
    split_ifs
    · exact le_rfl
    · exact ha

theorem runCalls_whole (m : ℕ) (l : List (Py (Writes ℝ))) (h : ∀ c ∈ l, ∃ w, c = .ok w) : whole m (runCalls l) = (l.map (whole m)).sum := by
  obtain ⟨w, e, hw⟩ := runCalls_val l h
  rw [e]
  change ∑ k ∈ Finset.range m, at_ (k : ℤ) w = _
  rw [Finset.sum_congr rfl fun (k : ℕ) _ => hw (k : ℤ)]
  clear e hw h
  induction l with
  | nil => simp
  | cons c l ih =>
    simp only [List.map_cons, List.sum_cons, Finset.sum_add_distrib]
    rw [ih]
    rfl

theorem octInterp_whole (nt : ℕ) (f a : ℕ → ℝ) (ha : ∀ q, 0 ≤ a q) (m : ℕ) (hm : 1 ≤ m) :
    whole m (octInterp nt f a m) ≤ totalAmplitude nt a := by
  rw [totalAmplitude_triList]
  have : whole m (octInterp nt f a m) = ((triList nt).map fun t => whole m (triangle (f (rank nt t.1)) (f (rank nt t.2.1)) (f (rank nt t.2.2))
        (a (rank nt t.1) + a (rank nt t.2.1) + a (rank nt t.2.2)) m)).sum := by
    unfold whole
    rw [Finset.sum_congr rfl fun (k : ℕ) _ => octInterp_val nt f a (m : ℤ) (by omega) (k : ℤ)]
    induction triList nt with
    | nil => simp
    | cons t l ih =>
      simp only [List.map_cons, List.sum_cons, Finset.sum_add_distrib]
      rw [ih]
  rw [this]
  refine List.sum_le_sum fun t _ => whole_triangle _ _ _ _ (add_nonneg (add_nonneg (ha _) (ha _)) (ha _)) m

theorem sum_zipIdx (l : List ℝ) (g : ℕ → ℝ) : (l.zipIdx.map fun s => g s.2).sum = ∑ i ∈ Finset.range l.length, g i := by
  rw [← sum_range_list]
  congr 1
  rw [show (fun s : ℝ × ℕ => g s.2) = g ∘ Prod.snd from rfl, ← List.map_map, List.zipIdx_map_snd, List.range_eq_range']

/-- What all orientations and sidebands give to the spectrum. -/
theorem averaging1D_whole (nt nOct : ℕ) (vr : List ℝ) (inv off r0 : ℝ) (freq amps : ℕ → ℝ) (ha : ∀ q, 0 ≤ amps q) (m : ℕ) (hm : 1 ≤ m) :
    whole m (averaging1D nt nOct vr inv off r0 freq amps m) ≤ ∑ s ∈ Finset.range vr.length, ∑ j ∈ Finset.range nOct,
      totalAmplitude nt fun q => amps (s * (nOct * nPts nt) + j * nPts nt + q) := by
  have ht : ∀ s j, 0 ≤ totalAmplitude nt fun q => amps (s * (nOct * nPts nt) + j * nPts nt + q) := fun s j => total_nonneg _ _ fun q => ha _
  have main : ∀ F : ℝ × ℕ → ℕ → Py (Writes ℝ), ∀ P : ℝ × ℕ → Bool, (∀ s j, ∃ w, F s j = .ok w) →
      (∀ s j, whole m (F s j) ≤ totalAmplitude nt fun q => amps (s.2 * (nOct * nPts nt) + j * nPts nt + q)) →
      whole m (runCalls (vr.zipIdx.flatMap fun s => if P s = true then (List.range nOct).map (F s) else []))
        ≤ ∑ s ∈ Finset.range vr.length, ∑ j ∈ Finset.range nOct, totalAmplitude nt fun q => amps (s * (nOct * nPts nt) + j * nPts nt + q) := by
    intro F P h0 h1
    rw [runCalls_whole m _ (by
      intro c hc
      obtain ⟨s, -, hc⟩ := List.mem_flatMap.mp hc
      split_ifs at hc
      · obtain ⟨j, -, rfl⟩ := List.mem_map.mp hc
        exact h0 s j
      · cases hc),
      ← sum_zipIdx vr (fun s => ∑ j ∈ Finset.range nOct, totalAmplitude nt fun q => amps (s * (nOct * nPts nt) + j * nPts nt + q))]
    have : ∀ l : List (ℝ × ℕ), ((l.flatMap fun s => if P s = true then (List.range nOct).map (F s) else []).map (whole m)).sum
        ≤ (l.map fun s => ∑ j ∈ Finset.range nOct, totalAmplitude nt fun q => amps (s.2 * (nOct * nPts nt) + j * nPts nt + q)).sum := by
      intro l
      induction l with
      | nil => simp
      | cons s l ih =>
        simp only [List.flatMap_cons, List.map_append, List.sum_append, List.map_cons, List.sum_cons]
        refine add_le_add ?_ ih
        split_ifs
        · rw [List.map_map, sum_range_list]
          exact Finset.sum_le_sum fun j _ => h1 s j
        · exact Finset.sum_nonneg fun j _ => ht _ _
    exact this _
  unfold averaging1D
  simp only
  split_ifs with hd
  · refine main (fun s j => .ok (octDelta nt (off + r0 + freq 0 + s.1 * inv) (fun k => amps (s.2 * (nOct * nPts nt) + j * nPts nt + k)) m))
      (fun s => inWindow (off + r0 + freq 0 + s.1 * inv) m) (fun s j => ⟨_, rfl⟩) (fun s j => ?_)
    rw [octDelta_total]
    exact whole_deltaFn _ _ (ht _ _) m
  · exact main (fun s j => octInterp nt (fun k => freq (j * nPts nt + k) + (off + r0 + s.1 * inv))
      (fun k => amps (s.2 * (nOct * nPts nt) + j * nPts nt + k)) m) (fun s => inWindow (off + r0 + s.1 * inv) m)
      (fun s j => octInterp_ok _ _ _ _ (by omega)) (fun s j => octInterp_whole nt _ _ (fun q => ha _) m hm)

/-! ## Properties -/

/-- **C35 (never more than the amplitude).** Wherever the three frequencies are, all additions to the spectrum together are at most the amplitude: what the code folds into
the first bin is at most what is missing below it. -/
theorem C35_no_more (a b c amp : ℝ) (ha : 0 ≤ amp) (points : ℕ) (hp : 1 ≤ points) (spec : ℤ → ℝ) :
    ∃ w, triangle a b c amp points = .ok w ∧ ∑ k ∈ Finset.range points, (applyWrites spec w k - spec k) ≤ amp := by
  obtain ⟨w, e, -⟩ := C35_nonneg a b c amp points (by omega) spec
  refine ⟨w, e, ?_⟩
  have := whole_triangle a b c amp ha points
  rw [e] at this
  refine le_trans (le_of_eq (Finset.sum_congr rfl fun k _ => ?_)) this
  rw [applyWrites_eq, add_sub_cancel_left]
  rfl

/-- A triangle with two vertices below the spectrum, one of them in the bin that the code counts as the first. -/
example (spec : ℤ → ℝ) : ∃ w, triangle (-1 / 2 : ℝ) (7 / 2) (-5) 2 (3 : ℕ) = .ok w ∧ ∑ k ∈ Finset.range 3, (applyWrites spec w k - spec k) ≤ 2 :=
  C35_no_more _ _ _ _ (by norm_num) 3 (by norm_num) spec

/-- **C37 (never more than the amplitude).** Wherever a sharp line is, all additions to the spectrum together are at most the amplitude. -/
theorem C37_no_more (f amp : ℝ) (ha : 0 ≤ amp) (points : ℕ) (spec : ℤ → ℝ) :
    ∑ k ∈ Finset.range points, (applyWrites spec (deltaFn f points amp) k - spec k) ≤ amp := by
  refine le_trans (le_of_eq (Finset.sum_congr rfl fun k _ => ?_)) (whole_deltaFn f amp ha points)
  rw [applyWrites_eq, add_sub_cancel_left]
  rfl

/-- Less than a point below the spectrum. -/
example (spec : ℤ → ℝ) : ∑ k ∈ Finset.range 4, (applyWrites spec (deltaFn (-3 / 4) (4 : ℕ) 1) k - spec k) ≤ 1 := C37_no_more _ _ (by norm_num) 4 spec

end MRS.Bin
