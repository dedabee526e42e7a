import Verif.Bin.Model
import Mathlib.Tactic.FieldSimp
import Mathlib.Tactic.LinearCombination
import Mathlib.Tactic.Positivity
import Mathlib.Tactic.GCongr

/-!
# Lemmas on triangle binning
-/

namespace MRS.Bin

set_option linter.unusedSectionVars false

variable {K : Type} [Field K] [LinearOrder K] [IsStrictOrderedRing K] [FloorRing K]

/-- Total amount added to `spec[k]`. -/
def at_ (k : Int) (w : Writes K) : K := ((w.filter fun p => p.1 = k).map (·.2)).sum

omit [LinearOrder K] [IsStrictOrderedRing K] [FloorRing K] in
@[simp] theorem at_nil (k : Int) : at_ k ([] : Writes K) = 0 := rfl

omit [LinearOrder K] [IsStrictOrderedRing K] [FloorRing K] in
theorem at_cons (k i : Int) (x : K) (w : Writes K) :
    at_ k ((i, x) :: w) = (if i = k then x else 0) + at_ k w := by
  unfold at_
  by_cases h : i = k
  · simp [h]
  · simp [h]

omit [LinearOrder K] [IsStrictOrderedRing K] [FloorRing K] in
theorem at_append (k : Int) (a b : Writes K) : at_ k (a ++ b) = at_ k a + at_ k b := by
  unfold at_
  simp

omit [LinearOrder K] [IsStrictOrderedRing K] [FloorRing K] in
theorem at_upLoop (df1 : K) (n : Nat) (p k : Int) (d : K) :
    at_ k (upLoop df1 n p d) =
      if p ≤ k ∧ k < p + n then d + ((k - p + 1 : Int) : K) * df1 else 0 := by
  induction n generalizing p d with
  | zero =>
    rw [if_neg (by push_cast; omega)]
    rfl
  | succ n ih =>
    rw [upLoop, at_cons, ih]
    by_cases h1 : p = k
    · subst h1
      rw [if_pos rfl, if_neg (by omega), if_pos (by push_cast; omega)]
      push_cast
      ring
    · rw [if_neg h1]
      by_cases h2 : p + 1 ≤ k ∧ k < p + 1 + n
      · rw [if_pos h2, if_pos (by push_cast; omega)]
        push_cast
        ring
      · rw [if_neg h2, if_neg (by push_cast; omega)]
        ring

omit [LinearOrder K] [IsStrictOrderedRing K] [FloorRing K] in
theorem at_downLoop (df1 : K) (n : Nat) (p k : Int) (d : K) :
    at_ k (downLoop df1 n p d) =
      if p ≤ k ∧ k < p + n then d - ((k - p + 1 : Int) : K) * df1 else 0 := by
  induction n generalizing p d with
  | zero =>
    rw [if_neg (by push_cast; omega)]
    rfl
  | succ n ih =>
    rw [downLoop, at_cons, ih]
    by_cases h1 : p = k
    · subst h1
      rw [if_pos rfl, if_neg (by omega), if_pos (by push_cast; omega)]
      push_cast
      ring
    · rw [if_neg h1]
      by_cases h2 : p + 1 ≤ k ∧ k < p + 1 + n
      · rw [if_pos h2, if_pos (by push_cast; omega)]
        push_cast
        ring
      · rw [if_neg h2, if_neg (by push_cast; omega)]
        ring

/-! ## Area under the two halves up to `x` -/

/-- Area under the rising half, up to `x`. -/
def cumL (top f0 f1 x : K) : K :=
  if x ≤ f0 then 0 else if x ≤ f1 then top / (f1 - f0) * (x - f0) ^ 2 / 2 else top * (f1 - f0) / 2

/-- Area under the falling half, up to `x`. -/
def cumR (top f1 f2 x : K) : K :=
  if x ≤ f1 then 0
  else if x ≤ f2 then top * (f2 - f1) / 2 - top / (f2 - f1) * (f2 - x) ^ 2 / 2
  else top * (f2 - f1) / 2

omit [IsStrictOrderedRing K] [FloorRing K] in
theorem cumL_lo (top f0 f1 x : K) (h : x ≤ f0) : cumL top f0 f1 x = 0 := if_pos h

omit [FloorRing K] in
theorem cumL_mid (top f0 f1 x : K) (h0 : f0 ≤ x) (h1 : x ≤ f1) :
    cumL top f0 f1 x = top / (f1 - f0) * (x - f0) ^ 2 / 2 := by
  unfold cumL
  split_ifs with h
  · have : x = f0 := le_antisymm h h0
    subst this; ring
  · rfl

omit [FloorRing K] in
theorem cumL_hi (top f0 f1 x : K) (h0 : f0 ≤ f1) (h1 : f1 ≤ x) :
    cumL top f0 f1 x = top * (f1 - f0) / 2 := by
  rcases eq_or_lt_of_le h0 with he | hlt
  · subst he
    unfold cumL
    split_ifs <;> ring
  · unfold cumL
    split_ifs with h h'
    · exact absurd (lt_of_lt_of_le hlt h1) (not_lt.mpr h)
    · have : x = f1 := le_antisymm h' h1
      subst this
      have : x - f0 ≠ 0 := ne_of_gt (sub_pos.mpr hlt)
      field_simp
    · rfl

omit [IsStrictOrderedRing K] [FloorRing K] in
theorem cumR_lo (top f1 f2 x : K) (h : x ≤ f1) : cumR top f1 f2 x = 0 := if_pos h

omit [FloorRing K] in
theorem cumR_mid (top f1 f2 x : K) (h0 : f1 ≤ x) (h1 : x ≤ f2) (hlt : f1 < f2) :
    cumR top f1 f2 x = top * (f2 - f1) / 2 - top / (f2 - f1) * (f2 - x) ^ 2 / 2 := by
  unfold cumR
  split_ifs with h
  · have : x = f1 := le_antisymm h h0
    subst this
    have : f2 - x ≠ 0 := ne_of_gt (sub_pos.mpr hlt)
    field_simp
    ring
  · rfl

omit [FloorRing K] in
theorem cumR_hi (top f1 f2 x : K) (h0 : f1 ≤ f2) (h1 : f2 ≤ x) :
    cumR top f1 f2 x = top * (f2 - f1) / 2 := by
  unfold cumR
  split_ifs with h h'
  · have : f1 = f2 := le_antisymm h0 (h1.trans h)
    subst this; ring
  · have : x = f2 := le_antisymm h' h1
    subst this; ring
  · rfl

/-! ## The two halves -/

/-- Additions of the rising half at a bin `k` it can reach. -/
theorem left_at (p pmid k : Int) (lc rc : Bool) (top f0 f1 : K) (h01 : f0 ≤ f1)
    (hp : p ≤ pmid) (hf0 : f0 < p + 1) (hf1 : p < pmid → (pmid : K) ≤ f1)
    (hk : p ≤ k) (hkm : k ≤ pmid) (hkr : rc = true → k < pmid)
    (h1 : k = p → (lc = false ∧ (p : K) ≤ f0) ∨ (lc = true ∧ f0 ≤ p ∧ p < pmid))
    (h2 : k = pmid → (pmid : K) ≤ f1 ∧ f1 ≤ pmid + 1) :
    ∃ w, leftTri p pmid lc rc top f0 f1 = .ok w ∧
      at_ k w = cumL top f0 f1 (k + 1) - cumL top f0 f1 k := by
  unfold leftTri
  by_cases hpp : p = pmid
  · subst hpp
    have hkp : k = p := le_antisymm hkm hk
    subst hkp
    simp only [if_true]
    refine ⟨_, rfl, ?_⟩
    rw [at_cons, if_pos rfl, at_nil, add_zero]
    have hrc : rc = false := by
      cases rc
      · rfl
      · exact absurd (hkr rfl) (lt_irrefl _)
    obtain ⟨h2a, h2b⟩ := h2 rfl
    rcases h1 rfl with ⟨hl, hl2⟩ | ⟨_, _, hlt⟩
    · subst hl hrc
      rw [cumL_lo _ _ _ _ hl2, cumL_hi _ _ _ _ h01 h2b]
      simp
      ring
    · exact absurd hlt (lt_irrefl _)
  · have hlt : p < pmid := lt_of_le_of_ne hp hpp
    have hf1' := hf1 hlt
    have hp1 : (p : K) + 1 ≤ pmid := by exact_mod_cast hlt
    have hf01 : f0 < f1 := lt_of_lt_of_le hf0 (hp1.trans hf1')
    have hne : f1 - f0 ≠ 0 := ne_of_gt (sub_pos.mpr hf01)
    simp only [if_neg hpp]
    rw [if_neg (by omega)]
    refine ⟨_, rfl, ?_⟩
    rw [List.cons_append, at_cons, at_append, at_upLoop, at_cons, at_nil, add_zero]
    have htn : ((pmid - (p + 1)).toNat : Int) = pmid - (p + 1) := Int.toNat_of_nonneg (by omega)
    rw [htn]
    by_cases hkp : k = p
    · subst hkp
      rw [if_pos rfl, if_neg (show ¬ (k + 1 ≤ k ∧ k < k + 1 + (pmid - (k + 1))) by omega),
        if_neg (show ¬ pmid = k by omega)]
      rw [cumL_mid top f0 f1 (k + 1) hf0.le (hp1.trans hf1')]
      rcases h1 rfl with ⟨hl, hl2⟩ | ⟨hl, hl2, _⟩
      · subst hl
        rw [cumL_lo _ _ _ _ hl2]
        simp
        field_simp
      · subst hl
        rw [cumL_mid top f0 f1 k hl2 ((le_of_lt (lt_add_one _)).trans (hp1.trans hf1'))]
        simp
        field_simp
        ring
    · rw [if_neg (fun h => hkp h.symm)]
      have hpk : p < k := lt_of_le_of_ne hk (fun h => hkp h.symm)
      have hpk' : (p : K) + 1 ≤ k := by exact_mod_cast hpk
      by_cases hkm' : k = pmid
      · subst hkm'
        have hrc : rc = false := by
          cases rc
          · rfl
          · exact absurd (hkr rfl) (lt_irrefl _)
        obtain ⟨h2a, h2b⟩ := h2 rfl
        rw [if_neg (show ¬ (p + 1 ≤ k ∧ k < p + 1 + (k - (p + 1))) by omega), if_pos rfl]
        rw [cumL_hi _ _ _ _ h01 h2b, cumL_mid top f0 f1 k (hf0.le.trans hpk') h2a]
        subst hrc
        simp
        field_simp
        ring
      · have hkm2 : k < pmid := lt_of_le_of_ne hkm hkm'
        have hkm3 : (k : K) + 1 ≤ pmid := by exact_mod_cast hkm2
        rw [if_pos (show p + 1 ≤ k ∧ k < p + 1 + (pmid - (p + 1)) by omega),
          if_neg (show ¬ pmid = k by omega)]
        rw [cumL_mid top f0 f1 (k + 1) (by linarith) (hkm3.trans hf1'),
          cumL_mid top f0 f1 k (by linarith) (by linarith)]
        push_cast
        field_simp
        ring

/-- Outside the bins it reaches the rising half adds nothing. -/
theorem left_out (p pmid k : Int) (lc rc : Bool) (top f0 f1 : K) (hp : p ≤ pmid)
    (h : k < p ∨ pmid < k ∨ (k = pmid ∧ rc = true ∧ p < pmid) ∨
      (k = pmid ∧ p = pmid ∧ (rc = true ∨ lc = true))) :
    ∃ w, leftTri p pmid lc rc top f0 f1 = .ok w ∧ at_ k w = 0 := by
  unfold leftTri
  by_cases hpp : p = pmid
  · simp only [if_pos hpp]
    refine ⟨_, rfl, ?_⟩
    rw [at_cons, at_nil, add_zero]
    split_ifs with h1 h2
    · exfalso
      have : rc = false ∧ lc = false := by simpa using h2
      rcases h with h | h | ⟨_, h, _⟩ | ⟨_, _, h | h⟩
      · omega
      · omega
      · simp [this] at h
      · simp [this] at h
      · simp [this] at h
    · rfl
    · rfl
  · simp only [if_neg hpp]
    rw [if_neg (by omega)]
    refine ⟨_, rfl, ?_⟩
    rw [List.cons_append, at_cons, at_append, at_upLoop, at_cons, at_nil, add_zero]
    have htn : ((pmid - (p + 1)).toNat : Int) = pmid - (p + 1) := Int.toNat_of_nonneg (by omega)
    rw [htn, if_neg (show ¬ (p + 1 ≤ k ∧ k < p + 1 + (pmid - (p + 1))) by omega),
      if_neg (show ¬ p = k by omega)]
    by_cases h1 : pmid = k
    · rcases h with h | h | ⟨_, h, _⟩ | ⟨_, h, _⟩
      · omega
      · omega
      · simp [h]
      · omega
    · rw [if_neg h1]; simp

/-- Additions of the falling half at a bin `k` it can reach. -/
theorem right_at (p pmax k : Int) (lc rc : Bool) (top f1 f2 : K) (h12 : f1 ≤ f2)
    (hp : p ≤ pmax) (hf1 : f1 < p + 1) (hf2 : p < pmax → (pmax : K) ≤ f2)
    (hk : p ≤ k) (hkm : k ≤ pmax) (hkr : rc = true → k < pmax)
    (h1 : k = p → (lc = false ∧ (p : K) ≤ f1) ∨ (lc = true ∧ f1 ≤ p ∧ p < pmax))
    (h2 : k = pmax → (pmax : K) ≤ f2 ∧ f2 ≤ pmax + 1) :
    ∃ w, rightTri p pmax lc rc top f1 f2 = .ok w ∧
      at_ k w = cumR top f1 f2 (k + 1) - cumR top f1 f2 k := by
  unfold rightTri
  by_cases hpp : p = pmax
  · subst hpp
    have hkp : k = p := le_antisymm hkm hk
    subst hkp
    simp only [if_true]
    refine ⟨_, rfl, ?_⟩
    rw [at_cons, if_pos rfl, at_nil, add_zero]
    have hrc : rc = false := by
      cases rc
      · rfl
      · exact absurd (hkr rfl) (lt_irrefl _)
    obtain ⟨h2a, h2b⟩ := h2 rfl
    rcases h1 rfl with ⟨hl, hl2⟩ | ⟨_, _, hlt⟩
    · subst hl hrc
      rw [cumR_lo _ _ _ _ hl2, cumR_hi _ _ _ _ h12 h2b]
      simp
      ring
    · exact absurd hlt (lt_irrefl _)
  · have hlt : p < pmax := lt_of_le_of_ne hp hpp
    have hf2' := hf2 hlt
    have hp1 : (p : K) + 1 ≤ pmax := by exact_mod_cast hlt
    have hf12 : f1 < f2 := lt_of_lt_of_le hf1 (hp1.trans hf2')
    have hne : f2 - f1 ≠ 0 := ne_of_gt (sub_pos.mpr hf12)
    simp only [if_neg hpp]
    rw [if_neg (by omega)]
    refine ⟨_, rfl, ?_⟩
    rw [List.cons_append, at_cons, at_append, at_downLoop]
    have htn : ((pmax - (p + 1)).toNat : Int) = pmax - (p + 1) := Int.toNat_of_nonneg (by omega)
    rw [htn]
    by_cases hkp : k = p
    · subst hkp
      have hlast : at_ k (if (!rc) = true then
          [(pmax, (f2 - pmax) * (f2 - pmax) * (1/2) * (top / (f2 - f1)))] else []) = 0 := by
        split_ifs
        · rw [at_cons, if_neg (fun h => hpp h.symm), at_nil, add_zero]
        · rfl
      rw [if_pos rfl, if_neg (show ¬ (k + 1 ≤ k ∧ k < k + 1 + (pmax - (k + 1))) by omega), hlast]
      rw [cumR_mid top f1 f2 (k + 1) hf1.le (hp1.trans hf2') hf12]
      rcases h1 rfl with ⟨hl, hl2⟩ | ⟨hl, hl2, _⟩
      · subst hl
        rw [cumR_lo _ _ _ _ hl2]
        simp
        field_simp
        ring
      · subst hl
        rw [cumR_mid top f1 f2 k hl2 ((le_of_lt (lt_add_one _)).trans (hp1.trans hf2')) hf12]
        simp
        field_simp
        ring
    · rw [if_neg (fun h => hkp h.symm)]
      have hpk : p < k := lt_of_le_of_ne hk (fun h => hkp h.symm)
      have hpk' : (p : K) + 1 ≤ k := by exact_mod_cast hpk
      by_cases hkm' : k = pmax
      · subst hkm'
        have hrc : rc = false := by
          cases rc
          · rfl
          · exact absurd (hkr rfl) (lt_irrefl _)
        obtain ⟨h2a, h2b⟩ := h2 rfl
        subst hrc
        rw [if_neg (show ¬ (p + 1 ≤ k ∧ k < p + 1 + (k - (p + 1))) by omega)]
        rw [cumR_hi _ _ _ _ h12 h2b, cumR_mid top f1 f2 k (hf1.le.trans hpk') h2a hf12]
        simp [at_cons]
        field_simp
      · have hkm2 : k < pmax := lt_of_le_of_ne hkm hkm'
        have hkm3 : (k : K) + 1 ≤ pmax := by exact_mod_cast hkm2
        have hlast : at_ k (if (!rc) = true then
            [(pmax, (f2 - pmax) * (f2 - pmax) * (1/2) * (top / (f2 - f1)))] else []) = 0 := by
          split_ifs
          · rw [at_cons, if_neg (fun h => hkm' h.symm), at_nil, add_zero]
          · rfl
        rw [if_pos (show p + 1 ≤ k ∧ k < p + 1 + (pmax - (p + 1)) by omega), hlast]
        rw [cumR_mid top f1 f2 (k + 1) (by linarith) (hkm3.trans hf2') hf12,
          cumR_mid top f1 f2 k (by linarith) (by linarith) hf12]
        push_cast
        field_simp
        ring

/-- Outside the bins it reaches the falling half adds nothing. -/
theorem right_out (p pmax k : Int) (lc rc : Bool) (top f1 f2 : K) (hp : p ≤ pmax)
    (h : k < p ∨ pmax < k ∨ (k = pmax ∧ rc = true)) :
    ∃ w, rightTri p pmax lc rc top f1 f2 = .ok w ∧ at_ k w = 0 := by
  unfold rightTri
  by_cases hpp : p = pmax
  · simp only [if_pos hpp]
    refine ⟨_, rfl, ?_⟩
    rw [at_cons, at_nil, add_zero]
    rcases h with h | h | ⟨_, h⟩
    · rw [if_neg (by omega)]
    · rw [if_neg (by omega)]
    · simp [h]
  · simp only [if_neg hpp]
    rw [if_neg (by omega)]
    refine ⟨_, rfl, ?_⟩
    rw [List.cons_append, at_cons, at_append, at_downLoop]
    have htn : ((pmax - (p + 1)).toNat : Int) = pmax - (p + 1) := Int.toNat_of_nonneg (by omega)
    rw [htn, if_neg (show ¬ (p + 1 ≤ k ∧ k < p + 1 + (pmax - (p + 1))) by omega),
      if_neg (show ¬ p = k by omega)]
    rcases h with h | h | ⟨_, h⟩
    · split_ifs
      · rw [at_cons, if_neg (by omega), at_nil]; simp
      · simp
    · split_ifs
      · rw [at_cons, if_neg (by omega), at_nil]; simp
      · simp
    · simp [h]

/-! ## Truncation -/

theorem trunc_nonneg {x : K} (h : 0 ≤ x) : 0 ≤ trunc x ∧ (trunc x : K) ≤ x ∧ x < trunc x + 1 := by
  unfold trunc
  rw [if_pos h]
  exact ⟨Int.floor_nonneg.mpr h, Int.floor_le x, Int.lt_floor_add_one x⟩

theorem trunc_neg {x : K} (h : x < 0) : trunc x ≤ 0 ∧ x ≤ trunc x := by
  unfold trunc
  rw [if_neg (not_le.mpr h)]
  exact ⟨Int.ceil_le.mpr (by simpa using h.le), Int.le_ceil x⟩

theorem trunc_lt_zero {x : K} : trunc x < 0 ↔ x ≤ -1 := by
  constructor
  · intro h
    rcases lt_or_ge x 0 with h0 | h0
    · have := (trunc_neg h0).2
      have h1 : trunc x ≤ -1 := by omega
      have h2 : (trunc x : K) ≤ -1 := by exact_mod_cast h1
      linarith
    · exact absurd (trunc_nonneg h0).1 (not_le.mpr h)
  · intro h
    unfold trunc
    have h0 : x < 0 := by linarith
    rw [if_neg (not_le.mpr h0)]
    have : ⌈x⌉ ≤ -1 := Int.ceil_le.mpr (by simpa using h)
    omega

theorem trunc_mono {x y : K} (h : x ≤ y) : trunc x ≤ trunc y := by
  rcases lt_or_ge x 0 with hx | hx
  · rcases lt_or_ge y 0 with hy | hy
    · unfold trunc
      rw [if_neg (not_le.mpr hx), if_neg (not_le.mpr hy)]
      exact Int.ceil_le_ceil h
    · exact (trunc_neg hx).1.trans (trunc_nonneg hy).1
  · unfold trunc
    rw [if_pos hx, if_pos (hx.trans h)]
    exact Int.floor_le_floor h

/-- A positive index obtained by truncation is the floor. -/
theorem trunc_pos {x : K} (h : 1 ≤ trunc x) : (trunc x : K) ≤ x ∧ x < trunc x + 1 ∧ 0 ≤ x := by
  rcases lt_or_ge x 0 with hx | hx
  · have := (trunc_neg hx).1; omega
  · exact ⟨(trunc_nonneg hx).2.1, (trunc_nonneg hx).2.2, hx⟩

/-- In any case `x < trunc x + 1`. -/
theorem lt_trunc_add_one (x : K) : x < trunc x + 1 := by
  rcases lt_or_ge x 0 with hx | hx
  · have := (trunc_neg hx).2; linarith
  · exact (trunc_nonneg hx).2.2

/-- Bin 0 is filled correctly: nothing below zero, or vertices at least one bin away
from it. -/
def Good0 (f0 f1 f2 : K) : Prop :=
  0 ≤ f0 ∨ (f0 ≤ -1 ∧ (f1 ≤ -1 ∨ 1 ≤ f1) ∧ (f2 ≤ -1 ∨ 1 ≤ f2))

/-- After sorting, every bin of the spectrum (bin 0 with a proviso) receives the area
over it. -/
theorem sorted_at (f0 f1 f2 amp : K) (points k : Int) (h01 : f0 ≤ f1) (h12 : f1 ≤ f2)
    (hk0 : 0 ≤ k) (hkn : k < points) (hg : k = 0 → Good0 f0 f1 f2) :
    ∃ w, triangleSorted f0 f1 f2 amp points = .ok w ∧
      at_ k w = (cumL (amp * 2 / (f2 - f0)) f0 f1 (k + 1) + cumR (amp * 2 / (f2 - f0)) f1 f2 (k + 1))
        - (cumL (amp * 2 / (f2 - f0)) f0 f1 k + cumR (amp * 2 / (f2 - f0)) f1 f2 k) := by
  have hkK : (0 : K) ≤ k := by exact_mod_cast hk0
  unfold triangleSorted
  generalize htop : amp * 2 / (f2 - f0) = top
  have m01 := trunc_mono h01
  have m12 := trunc_mono h12
  have l0 := lt_trunc_add_one f0
  have l1 := lt_trunc_add_one f1
  have l2 := lt_trunc_add_one f2
  have z0 := trunc_lt_zero (x := f0)
  have z1 := trunc_lt_zero (x := f1)
  have z2 := trunc_lt_zero (x := f2)
  have p0 := trunc_pos (x := f0)
  have p1 := trunc_pos (x := f1)
  have p2 := trunc_pos (x := f2)
  have n0 := trunc_nonneg (x := f0)
  have n1 := trunc_nonneg (x := f1)
  have n2 := trunc_nonneg (x := f2)
  have g0 := trunc_neg (x := f0)
  have g1 := trunc_neg (x := f1)
  have g2 := trunc_neg (x := f2)
  revert m01 m12 l0 l1 l2 z0 z1 z2 p0 p1 p2 n0 n1 n2 g0 g1 g2
  generalize trunc f0 = P
  generalize trunc f1 = M
  generalize trunc f2 = X
  intro m01 m12 l0 l1 l2 z0 z1 z2 p0 p1 p2 n0 n1 n2 g0 g1 g2
  simp only []
  by_cases hP : P > points
  · -- everything above the spectrum
    rw [if_pos hP]
    refine ⟨[], rfl, ?_⟩
    obtain ⟨a, _, _⟩ := p0 (by omega)
    have : (k : K) + 1 ≤ P := by exact_mod_cast (by omega : k + 1 ≤ P)
    rw [cumL_lo _ _ _ _ (by linarith), cumL_lo _ _ _ _ (by linarith),
      cumR_lo _ _ _ _ (by linarith), cumR_lo _ _ _ _ (by linarith)]
    simp
  rw [if_neg hP]
  by_cases hX : X < 0
  · rw [if_pos hX]
    refine ⟨[], rfl, ?_⟩
    have := z2.mp hX
    rw [cumL_hi _ _ _ _ h01 (by linarith), cumL_hi _ _ _ _ h01 (by linarith),
      cumR_hi _ _ _ _ h12 (by linarith), cumR_hi _ _ _ _ h12 (by linarith)]
    simp
  rw [if_neg hX]
  -- indices after clipping
  obtain ⟨p, hp, hpe⟩ : ∃ p, p = (if P < 0 then 0 else P) ∧ ((P < 0 ∧ p = 0) ∨ (0 ≤ P ∧ p = P)) := by
    refine ⟨_, rfl, ?_⟩
    by_cases h : P < 0
    · rw [if_pos h]; exact Or.inl ⟨h, rfl⟩
    · rw [if_neg h]; exact Or.inr ⟨by omega, rfl⟩
  obtain ⟨c, hc, hce⟩ : ∃ c, c = (if M ≥ points then points else M) ∧
      ((points ≤ M ∧ c = points) ∨ (M < points ∧ c = M)) := by
    refine ⟨_, rfl, ?_⟩
    by_cases h : M ≥ points
    · rw [if_pos h]; exact Or.inl ⟨h, rfl⟩
    · rw [if_neg h]; exact Or.inr ⟨by omega, rfl⟩
  obtain ⟨m, hm, hme⟩ : ∃ m, m = (if c < 0 then 0 else c) ∧ ((c < 0 ∧ m = 0) ∨ (0 ≤ c ∧ m = c)) := by
    refine ⟨_, rfl, ?_⟩
    by_cases h : c < 0
    · rw [if_pos h]; exact Or.inl ⟨h, rfl⟩
    · rw [if_neg h]; exact Or.inr ⟨by omega, rfl⟩
  obtain ⟨x, hx, hxe⟩ : ∃ x, x = (if X ≥ points then points else X) ∧
      ((points ≤ X ∧ x = points) ∨ (X < points ∧ x = X)) := by
    refine ⟨_, rfl, ?_⟩
    by_cases h : X ≥ points
    · rw [if_pos h]; exact Or.inl ⟨h, rfl⟩
    · rw [if_neg h]; exact Or.inr ⟨by omega, rfl⟩
  rw [← hp, ← hc, ← hm, ← hx]
  -- the rising half
  have hleft : ∃ w, leftTri p m (decide (P < 0)) (decide (M ≥ points)) top f0 f1 = .ok w ∧
      at_ k w = cumL top f0 f1 (k + 1) - cumL top f0 f1 k := by
    have hpm : p ≤ m := by omega
    by_cases hkp : k < p
    · obtain ⟨w, w1, w2⟩ := left_out p m k (decide (P < 0)) (decide (M ≥ points)) top f0 f1 hpm
        (Or.inl hkp)
      refine ⟨w, w1, ?_⟩
      obtain ⟨a, _, _⟩ := p0 (by omega)
      have : (k : K) + 1 ≤ P := by exact_mod_cast (by omega : k + 1 ≤ P)
      rw [w2, cumL_lo _ _ _ _ (by linarith), cumL_lo _ _ _ _ (by linarith), sub_zero]
    by_cases hkm : m < k
    · obtain ⟨w, w1, w2⟩ := left_out p m k (decide (P < 0)) (decide (M ≥ points)) top f0 f1 hpm
        (Or.inr (Or.inl hkm))
      refine ⟨w, w1, ?_⟩
      have hMk : M + 1 ≤ k := by omega
      have : (M : K) + 1 ≤ k := by exact_mod_cast hMk
      rw [w2, cumL_hi _ _ _ _ h01 (by linarith), cumL_hi _ _ _ _ h01 (by linarith), sub_self]
    by_cases hspec : k = 0 ∧ f0 ≤ -1 ∧ f1 ≤ -1
    · obtain ⟨rfl, a, b⟩ := hspec
      have := z0.mpr a
      have := z1.mpr b
      obtain ⟨w, w1, w2⟩ := left_out p m 0 (decide (P < 0)) (decide (M ≥ points)) top f0 f1 hpm
        (Or.inr (Or.inr (Or.inr ⟨by omega, by omega, Or.inr (by simpa using z0.mpr a)⟩)))
      refine ⟨w, w1, ?_⟩
      push_cast
      rw [w2, cumL_hi _ _ _ _ h01 (by linarith), cumL_hi _ _ _ _ h01 (by linarith), sub_self]
    · apply left_at p m k _ _ top f0 f1 h01 hpm
      · have : (P : K) ≤ p := by exact_mod_cast (by omega : P ≤ p)
        linarith
      · intro h
        obtain ⟨a, _, _⟩ := p1 (by omega)
        have : (m : K) ≤ M := by exact_mod_cast (by omega : m ≤ M)
        linarith
      · omega
      · omega
      · intro h
        have : points ≤ M := by simpa using h
        omega
      · intro hkp'
        by_cases hk1 : 1 ≤ k
        · obtain ⟨a, _, b⟩ := p0 (by omega)
          left
          refine ⟨by simpa using (by omega : 0 ≤ P), ?_⟩
          have : p = P := by omega
          rw [this]; exact a
        · have hk0' : k = 0 := by omega
          rcases hg hk0' with hpos | ⟨ha, hb, hc'⟩
          · left
            obtain ⟨a, b, _⟩ := n0 hpos
            refine ⟨by simpa using a, ?_⟩
            have : p = P := by omega
            rw [this]; exact b
          · right
            have hP0 := z0.mpr ha
            rcases hb with hb | hb
            · exact absurd ⟨hk0', ha, hb⟩ hspec
            · refine ⟨by simpa using hP0, ?_, ?_⟩
              · have : p = 0 := by omega
                rw [this]; push_cast; linarith
              · obtain ⟨a, b, d⟩ := n1 (by linarith)
                have : (1 : K) < M + 1 := by linarith
                have : (1 : Int) < M + 1 := by exact_mod_cast this
                omega
      · intro hkm'
        by_cases hk1 : 1 ≤ k
        · obtain ⟨a, b, _⟩ := p1 (by omega)
          have : m = M := by omega
          rw [this]; exact ⟨a, b.le⟩
        · have hk0' : k = 0 := by omega
          have hf1 : 0 ≤ f1 := by
            rcases hg hk0' with hpos | ⟨ha, hb, hc'⟩
            · linarith
            · rcases hb with hb | hb
              · exact absurd ⟨hk0', ha, hb⟩ hspec
              · linarith
          obtain ⟨a, b, d⟩ := n1 hf1
          have : m = M := by omega
          rw [this]; exact ⟨b, d.le⟩
  -- the falling half
  have hright : ∃ w, rightTri m x (decide (c < 0)) (decide (X ≥ points)) top f1 f2 = .ok w ∧
      at_ k w = cumR top f1 f2 (k + 1) - cumR top f1 f2 k := by
    have hmx : m ≤ x := by omega
    by_cases hkm : k < m
    · obtain ⟨w, w1, w2⟩ := right_out m x k (decide (c < 0)) (decide (X ≥ points)) top f1 f2 hmx
        (Or.inl hkm)
      refine ⟨w, w1, ?_⟩
      obtain ⟨a, _, _⟩ := p1 (by omega)
      have : (k : K) + 1 ≤ M := by exact_mod_cast (by omega : k + 1 ≤ M)
      rw [w2, cumR_lo _ _ _ _ (by linarith), cumR_lo _ _ _ _ (by linarith), sub_zero]
    by_cases hkx : x < k
    · obtain ⟨w, w1, w2⟩ := right_out m x k (decide (c < 0)) (decide (X ≥ points)) top f1 f2 hmx
        (Or.inr (Or.inl hkx))
      refine ⟨w, w1, ?_⟩
      have : (X : K) + 1 ≤ k := by exact_mod_cast (by omega : X + 1 ≤ k)
      rw [w2, cumR_hi _ _ _ _ h12 (by linarith), cumR_hi _ _ _ _ h12 (by linarith), sub_self]
    apply right_at m x k _ _ top f1 f2 h12 hmx
    · have : (M : K) ≤ m := by exact_mod_cast (by omega : M ≤ m)
      linarith
    · intro h
      obtain ⟨a, _, _⟩ := p2 (by omega)
      have : (x : K) ≤ X := by exact_mod_cast (by omega : x ≤ X)
      linarith
    · omega
    · omega
    · intro h
      have : points ≤ X := by simpa using h
      omega
    · intro hkm'
      by_cases hk1 : 1 ≤ k
      · obtain ⟨a, _, b⟩ := p1 (by omega)
        left
        refine ⟨by simpa using (by omega : 0 ≤ c), ?_⟩
        have : m = M := by omega
        rw [this]; exact a
      · have hk0' : k = 0 := by omega
        by_cases hf1 : 0 ≤ f1
        · obtain ⟨a, b, _⟩ := n1 hf1
          left
          refine ⟨by simpa using (by omega : 0 ≤ c), ?_⟩
          have : m = M := by omega
          rw [this]; exact b
        · right
          rcases hg hk0' with hpos | ⟨ha, hb, hc'⟩
          · exact absurd (hpos.trans h01) hf1
          · have hb' : f1 ≤ -1 := by
              rcases hb with hb | hb
              · exact hb
              · exact absurd (by linarith) hf1
            have hM := z1.mpr hb'
            refine ⟨by simpa using (by omega : c < 0), ?_, ?_⟩
            · have : m = 0 := by omega
              rw [this]; push_cast; linarith
            · rcases hc' with hc' | hc'
              · exact absurd (z2.mpr hc') hX
              · obtain ⟨a, b, d⟩ := n2 (by linarith)
                have : (1 : K) < X + 1 := by linarith
                have : (1 : Int) < X + 1 := by exact_mod_cast this
                omega
    · intro hkx'
      by_cases hk1 : 1 ≤ k
      · obtain ⟨a, b, _⟩ := p2 (by omega)
        have : x = X := by omega
        rw [this]; exact ⟨a, b.le⟩
      · have hk0' : k = 0 := by omega
        have hf2 : 0 ≤ f2 := by
          rcases hg hk0' with hpos | ⟨ha, hb, hc'⟩
          · linarith
          · rcases hc' with hc' | hc'
            · exact absurd (z2.mpr hc') hX
            · linarith
        obtain ⟨a, b, d⟩ := n2 hf2
        have : x = X := by omega
        rw [this]; exact ⟨b, d.le⟩
  obtain ⟨w1, a1, b1⟩ := hleft
  obtain ⟨w2, a2, b2⟩ := hright
  rw [a1]
  simp only []
  rw [a2]
  refine ⟨w1 ++ w2, rfl, ?_⟩
  rw [at_append, b1, b2]
  ring

end MRS.Bin
