import Verif.Bin.TwoD

/-!
# Two-dimensional binning — properties C58, C67, C68
-/

namespace MRS.Bin

set_option linter.unusedSectionVars false

variable {K : Type} [Field K] [LinearOrder K] [IsStrictOrderedRing K] [FloorRing K]

/-! ## Specification -/

/-- Sum of row `k` of the array: what was added to `spec[k * m1] .. spec[k * m1 + m1 - 1]`. -/
def Spec.rowSum (m1 : Nat) (k : Int) (w : Writes K) : K :=
  ((List.range m1).map fun (q : Nat) => at_ (k * m1 + q) w).sum

/-- The point `P` belongs to the triangle. -/
def Spec.InTri (P0 P1 P2 P : K × K) : Prop :=
  ∃ a b c : K, 0 ≤ a ∧ 0 ≤ b ∧ 0 ≤ c ∧ a + b + c = 1 ∧
    P.1 = a * P0.1 + b * P1.1 + c * P2.1 ∧ P.2 = a * P0.2 + b * P1.2 + c * P2.2

/-- Twice the area of a triangle. -/
def Spec.area2 (P Q R : K × K) : K :=
  |(Q.1 - P.1) * (R.2 - P.2) - (R.1 - P.1) * (Q.2 - P.2)|

/-- The call stands for a part of the triangle: there are first frequencies for its three second
frequencies such that the three points belong to the triangle and to the row of the call, and the
amount is to the amplitude as the area of the part is to the area of the triangle. -/
def Spec.Piece (P0 P1 P2 : K × K) (amp : K) (c : Call K) : Prop :=
  ∃ u v w : K, Spec.InTri P0 P1 P2 (u, c.a) ∧ Spec.InTri P0 P1 P2 (v, c.b) ∧
    Spec.InTri P0 P1 P2 (w, c.c) ∧
    (∀ x ∈ [u, v, w], (c.row : K) ≤ x ∧ x ≤ c.row + 1) ∧
    c.amt * Spec.area2 P0 P1 P2 = amp * Spec.area2 (u, c.a) (v, c.b) (w, c.c)

/-! ## Lemmas -/

/-- Sum of the amounts of the calls for row `k`. -/
def rowTotal (k : Int) (cs : List (Call K)) : K := ((cs.filter fun c => c.row = k).map (·.amt)).sum

@[simp] theorem rowTotal_nil (k : Int) : rowTotal k ([] : List (Call K)) = 0 := rfl

theorem rowTotal_cons (k : Int) (c : Call K) (l : List (Call K)) :
    rowTotal k (c :: l) = (if c.row = k then c.amt else 0) + rowTotal k l := by
  unfold rowTotal
  by_cases h : c.row = k <;> simp [h]

theorem rowTotal_append (k : Int) (a b : List (Call K)) :
    rowTotal k (a ++ b) = rowTotal k a + rowTotal k b := by
  unfold rowTotal
  simp

/-- As `Spec.Piece`, with row and amount only if `good`. -/
def Part (P0 P1 P2 : K × K) (amp : K) (good : Prop) (c : Call K) : Prop :=
  ∃ u v w : K, Spec.InTri P0 P1 P2 (u, c.a) ∧ Spec.InTri P0 P1 P2 (v, c.b) ∧
    Spec.InTri P0 P1 P2 (w, c.c) ∧
    (good → (∀ x ∈ [u, v, w], (c.row : K) ≤ x ∧ x ≤ c.row + 1) ∧
      c.amt * Spec.area2 P0 P1 P2 = amp * Spec.area2 (u, c.a) (v, c.b) (w, c.c))

theorem rowTotal_two (k row : Int) (f00 f01 f10 f11 up down denom amt : K) (h : denom = up + down)
    (h0 : denom ≠ 0) : rowTotal k (two row f00 f01 f10 f11 up down denom amt) =
      if row = k then amt else 0 := by
  unfold two
  rw [rowTotal_cons, rowTotal_cons, rowTotal_nil]
  by_cases hk : row = k
  · rw [if_pos hk, if_pos hk, if_pos hk]
    have : down / denom * amt + (up / denom * amt + 0) = (up + down) / denom * amt := by ring
    rw [this, ← h, div_self h0, one_mul]
  · simp [hk]

theorem rowTotal_parts (k row : Int) (f00 f01 f10 f11 up down denom amt : K)
    (h : denom = up + down) : rowTotal k (parts row f00 f01 f10 f11 up down denom amt) =
      if row = k then amt else 0 := by
  unfold parts
  split_ifs with h0 hk hk
  · rw [rowTotal_two k row _ _ _ _ _ _ _ _ h h0, if_pos hk]
  · rw [rowTotal_two k row _ _ _ _ _ _ _ _ h h0, if_neg hk]
  · simp [rowTotal_cons, hk]
  · simp [rowTotal_cons, hk]

theorem rowTotal_upRows (s01 s02 as df1 : K) (k : Int) (n : Nat) (p : Int)
    (diff f10 f11 up down denom : K) (h : denom = up + down) :
    rowTotal k (upRows s01 s02 as df1 n p diff f10 f11 up down denom).1 =
      at_ k (upLoop df1 n p diff) := by
  induction n generalizing p diff f10 f11 up down denom with
  | zero => rfl
  | succ n ih =>
    simp only [upRows, upLoop]
    rw [rowTotal_append, rowTotal_parts k p _ _ _ _ _ _ _ _ h, at_cons, ih]
    rw [h]; ring

theorem rowTotal_downRows (s12 s02 as df2 : K) (k : Int) (n : Nat) (p : Int)
    (diff f10 f11 up down denom : K) (h : denom = up + down) :
    rowTotal k (downRows s12 s02 as df2 n p diff f10 f11 up down denom).1 =
      at_ k (downLoop df2 n p diff) := by
  induction n generalizing p diff f10 f11 up down denom with
  | zero => rfl
  | succ n ih =>
    simp only [downRows, downLoop]
    rw [rowTotal_append, rowTotal_parts k p _ _ _ _ _ _ _ _ h, at_cons, ih]
    rw [h]; ring

theorem upRows_final (s01 s02 as df1 : K) (n : Nat) (p : Int)
    (diff f10 f11 up down denom : K) :
    (upRows s01 s02 as df1 n p diff f10 f11 up down denom).2 =
      (f10 + n * s01, f11 + n * s02, up + n * as, denom + 2 * n * as) := by
  induction n generalizing p diff f10 f11 up down denom with
  | zero => simp [upRows]
  | succ n ih =>
    simp only [upRows]
    rw [ih]
    push_cast
    ext <;> simp <;> ring

theorem downRows_final (s12 s02 as df2 : K) (n : Nat) (p : Int)
    (diff f10 f11 up down denom : K) :
    (downRows s12 s02 as df2 n p diff f10 f11 up down denom).2 =
      (f10 + n * s12, f11 + n * s02) := by
  induction n generalizing p diff f10 f11 up down denom with
  | zero => simp [downRows]
  | succ n ih =>
    simp only [downRows]
    rw [ih]
    push_cast
    ext <;> simp <;> ring

/-! ### Points on the sides -/

section sides

variable (x0 y0 x1 y1 x2 y2 : K)

theorem in01 (h : x0 < x1) (u : K) (h0 : x0 ≤ u) (h1 : u ≤ x1) :
    Spec.InTri (x0, y0) (x1, y1) (x2, y2) (u, (y1 - y0) / (x1 - x0) * (u - x0) + y0) := by
  have hd : x1 - x0 ≠ 0 := by intro h'; linarith
  have hd' : 0 < x1 - x0 := by linarith
  refine ⟨1 - (u - x0) / (x1 - x0), (u - x0) / (x1 - x0), 0, ?_, ?_, le_refl _, by ring, ?_, ?_⟩
  · rw [sub_nonneg, div_le_one hd']; linarith
  · exact div_nonneg (by linarith) hd'.le
  · simp only; field_simp; ring
  · simp only; field_simp; ring

theorem in02 (h : x0 < x2) (u : K) (h0 : x0 ≤ u) (h1 : u ≤ x2) :
    Spec.InTri (x0, y0) (x1, y1) (x2, y2) (u, (y2 - y0) / (x2 - x0) * (u - x0) + y0) := by
  have hd : x2 - x0 ≠ 0 := by intro h'; linarith
  have hd' : 0 < x2 - x0 := by linarith
  refine ⟨1 - (u - x0) / (x2 - x0), 0, (u - x0) / (x2 - x0), ?_, le_refl _, ?_, by ring, ?_, ?_⟩
  · rw [sub_nonneg, div_le_one hd']; linarith
  · exact div_nonneg (by linarith) hd'.le
  · simp only; field_simp; ring
  · simp only; field_simp; ring

theorem in12 (h : x1 < x2) (u : K) (h0 : x1 ≤ u) (h1 : u ≤ x2) :
    Spec.InTri (x0, y0) (x1, y1) (x2, y2) (u, (y2 - y1) / (x2 - x1) * (u - x1) + y1) := by
  have hd : x2 - x1 ≠ 0 := by intro h'; linarith
  have hd' : 0 < x2 - x1 := by linarith
  refine ⟨0, 1 - (u - x1) / (x2 - x1), (u - x1) / (x2 - x1), le_refl _, ?_, ?_, by ring, ?_, ?_⟩
  · rw [sub_nonneg, div_le_one hd']; linarith
  · exact div_nonneg (by linarith) hd'.le
  · simp only; field_simp; ring
  · simp only; field_simp; ring

theorem in0 : Spec.InTri (x0, y0) (x1, y1) (x2, y2) (x0, y0) :=
  ⟨1, 0, 0, by simp, le_refl _, le_refl _, by ring, by simp, by simp⟩

theorem in1 : Spec.InTri (x0, y0) (x1, y1) (x2, y2) (x1, y1) :=
  ⟨0, 1, 0, le_refl _, by simp, le_refl _, by ring, by simp, by simp⟩

theorem in2 : Spec.InTri (x0, y0) (x1, y1) (x2, y2) (x2, y2) :=
  ⟨0, 0, 1, le_refl _, le_refl _, by simp, by ring, by simp, by simp⟩

/-- Area in terms of the slopes at the first vertex. -/
theorem area_left (h01 : x0 < x1) (h02 : x0 < x2) :
    Spec.area2 (x0, y0) (x1, y1) (x2, y2) =
      (x2 - x0) * (x1 - x0) * |(y2 - y0) / (x2 - x0) - (y1 - y0) / (x1 - x0)| := by
  have hd : 0 < (x2 - x0) * (x1 - x0) := mul_pos (by linarith) (by linarith)
  have hd1 : x1 - x0 ≠ 0 := by intro h'; linarith
  have hd2 : x2 - x0 ≠ 0 := by intro h'; linarith
  unfold Spec.area2
  rw [← abs_of_pos hd, ← abs_mul]
  congr 1
  simp only
  field_simp

/-- Area in terms of the slopes at the last vertex. -/
theorem area_right (h12 : x1 < x2) (h02 : x0 < x2) :
    Spec.area2 (x0, y0) (x1, y1) (x2, y2) =
      (x2 - x0) * (x2 - x1) * |(y2 - y0) / (x2 - x0) - (y2 - y1) / (x2 - x1)| := by
  have hd : 0 < (x2 - x0) * (x2 - x1) := mul_pos (by linarith) (by linarith)
  have hd1 : x2 - x1 ≠ 0 := by intro h'; linarith
  have hd2 : x2 - x0 ≠ 0 := by intro h'; linarith
  unfold Spec.area2
  rw [← abs_of_pos hd, ← abs_mul, ← abs_neg]
  congr 1
  simp only
  field_simp
  ring

end sides

theorem area_one (u v l l' m : K) (huv : u ≤ v) :
    Spec.area2 (u, l) (v, m) (v, l') = (v - u) * |m - l'| := by
  have h : 0 ≤ v - u := by linarith
  unfold Spec.area2
  rw [← abs_of_nonneg h, ← abs_mul, abs_of_nonneg h, ← abs_neg]
  congr 1
  simp only
  ring

theorem area_two (u v l m m' : K) (huv : u ≤ v) :
    Spec.area2 (u, l) (v, m) (u, m') = (v - u) * |m' - l| := by
  have h : 0 ≤ v - u := by linarith
  unfold Spec.area2
  rw [← abs_of_nonneg h, ← abs_mul, abs_of_nonneg h]
  congr 1
  simp only
  ring

/-- The two calls (or the single call) for the part of the triangle between `u` and `v`, whose
sides parallel to the second axis have lengths `up` and `down`. `A` is twice its area. -/
theorem part_two (P0 P1 P2 : K × K) (amp : K) (good : Prop) (row : Int)
    (u v f00 f01 f10 f11 up down denom amt : K)
    (i00 : Spec.InTri P0 P1 P2 (u, f00)) (i01 : Spec.InTri P0 P1 P2 (u, f01))
    (i10 : Spec.InTri P0 P1 P2 (v, f10)) (i11 : Spec.InTri P0 P1 P2 (v, f11)) (huv : u ≤ v)
    (hg : good → (row : K) ≤ u ∧ v ≤ row + 1 ∧ up = |f01 - f00| ∧ down = |f11 - f10| ∧
      denom = up + down ∧ amt * Spec.area2 P0 P1 P2 = amp * ((v - u) * (up + down)))
    (h0 : denom ≠ 0) :
    ∀ c ∈ two row f00 f01 f10 f11 up down denom amt, Part P0 P1 P2 amp good c := by
  intro c hc
  unfold two at hc
  simp only [List.mem_cons, List.not_mem_nil, or_false] at hc
  rcases hc with rfl | rfl
  · refine ⟨u, v, v, i00, i11, i10, fun g => ?_⟩
    obtain ⟨g1, g2, g3, g4, g5, g6⟩ := hg g
    refine ⟨?_, ?_⟩
    · intro x hx
      simp only [List.mem_cons, List.not_mem_nil, or_false] at hx
      rcases hx with rfl | rfl | rfl <;> constructor <;> linarith
    · rw [area_one _ _ _ _ _ huv, ← g4]
      have : down / denom * amt * Spec.area2 P0 P1 P2 =
        down / denom * (amt * Spec.area2 P0 P1 P2) := by ring
      simp only
      rw [this, g6, ← g5]
      field_simp
  · refine ⟨u, v, u, i00, i11, i01, fun g => ?_⟩
    obtain ⟨g1, g2, g3, g4, g5, g6⟩ := hg g
    refine ⟨?_, ?_⟩
    · intro x hx
      simp only [List.mem_cons, List.not_mem_nil, or_false] at hx
      rcases hx with rfl | rfl | rfl <;> constructor <;> linarith
    · rw [area_two _ _ _ _ _ huv, ← g3]
      have : up / denom * amt * Spec.area2 P0 P1 P2 =
        up / denom * (amt * Spec.area2 P0 P1 P2) := by ring
      simp only
      rw [this, g6, ← g5]
      field_simp

theorem part_one (P0 P1 P2 : K × K) (amp : K) (good : Prop) (row : Int)
    (u v f00 f10 f11 amt : K)
    (i00 : Spec.InTri P0 P1 P2 (u, f00))
    (i10 : Spec.InTri P0 P1 P2 (v, f10)) (i11 : Spec.InTri P0 P1 P2 (v, f11)) (huv : u ≤ v)
    (hg : good → (row : K) ≤ u ∧ v ≤ row + 1 ∧
      amt * Spec.area2 P0 P1 P2 = amp * ((v - u) * |f11 - f10|)) :
    Part P0 P1 P2 amp good ⟨row, f00, f11, f10, amt⟩ := by
  refine ⟨u, v, v, i00, i11, i10, fun g => ?_⟩
  obtain ⟨g1, g2, g3⟩ := hg g
  refine ⟨?_, ?_⟩
  · intro x hx
    simp only [List.mem_cons, List.not_mem_nil, or_false] at hx
    rcases hx with rfl | rfl | rfl <;> constructor <;> linarith
  · rw [area_one _ _ _ _ _ huv]
    exact g3

theorem part_parts (P0 P1 P2 : K × K) (amp : K) (good : Prop) (row : Int)
    (u v f00 f01 f10 f11 up down denom amt : K)
    (i00 : Spec.InTri P0 P1 P2 (u, f00)) (i01 : Spec.InTri P0 P1 P2 (u, f01))
    (i10 : Spec.InTri P0 P1 P2 (v, f10)) (i11 : Spec.InTri P0 P1 P2 (v, f11)) (huv : u ≤ v)
    (hg : good → (row : K) ≤ u ∧ v ≤ row + 1 ∧ up = |f01 - f00| ∧ down = |f11 - f10| ∧
      denom = up + down ∧ amt * Spec.area2 P0 P1 P2 = amp * ((v - u) * (up + down))) :
    ∀ c ∈ parts row f00 f01 f10 f11 up down denom amt, Part P0 P1 P2 amp good c := by
  unfold parts
  split_ifs with h0
  · exact part_two P0 P1 P2 amp good row u v f00 f01 f10 f11 up down denom amt i00 i01 i10 i11 huv
      hg h0
  · intro c hc
    rw [List.mem_singleton] at hc
    subst hc
    apply part_one P0 P1 P2 amp good row u v f00 f10 f11 amt i00 i10 i11 huv
    intro g
    obtain ⟨g1, g2, g3, g4, g5, g6⟩ := hg g
    refine ⟨g1, g2, ?_⟩
    rw [not_not] at h0
    have hu : 0 ≤ up := g3 ▸ abs_nonneg _
    have hd : 0 ≤ down := g4 ▸ abs_nonneg _
    have hd0 : down = 0 := by linarith
    have hu0 : up = 0 := by linarith
    rw [g6, ← g4, hd0, hu0]
    ring

/-! ### Left part -/

/-- Part 2 of the left part. -/
theorem upRows_part (x0 y0 x1 y1 x2 y2 amp : K) (h01 : x0 < x1) (h02 : x0 < x2) (h12 : x1 ≤ x2)
    (good : Prop) (n : Nat) (p : Int) (hp0 : x0 ≤ p) (hp1 : (p : K) + n ≤ x1)
    (diff f10 f11 up down denom s01 s02 df1 : K)
    (hs01 : s01 = (y1 - y0) / (x1 - x0)) (hs02 : s02 = (y2 - y0) / (x2 - x0))
    (hdf : df1 = amp * 2 / (x2 - x0) / (x1 - x0))
    (hdiff : diff = (p - x0 - 1/2) * df1)
    (h10 : f10 = s01 * (p - x0) + y0) (h11 : f11 = s02 * (p - x0) + y0)
    (hup : up = (p - x0) * |s02 - s01|) (hdown : down = (p + 1 - x0) * |s02 - s01|)
    (hden : denom = up + down) :
    ∀ c ∈ (upRows s01 s02 |s02 - s01| df1 n p diff f10 f11 up down denom).1,
      Part (x0, y0) (x1, y1) (x2, y2) amp good c := by
  induction n generalizing p diff f10 f11 up down denom with
  | zero => intro c hc; simp [upRows] at hc
  | succ n ih =>
    push_cast at hp1
    have hn : (0 : K) ≤ n := Nat.cast_nonneg n
    simp only [upRows]
    intro c hc
    rw [List.mem_append] at hc
    rcases hc with hc | hc
    · have e10 : f10 + s01 = s01 * ((p + 1 : K) - x0) + y0 := by rw [h10]; ring
      have e11 : f11 + s02 = s02 * ((p + 1 : K) - x0) + y0 := by rw [h11]; ring
      refine part_parts (x0, y0) (x1, y1) (x2, y2) amp good p p (p + 1) f10 f11 (f10 + s01)
        (f11 + s02) up down denom (diff + df1) ?_ ?_ ?_ ?_ (by linarith) ?_ c hc
      · rw [h10, hs01]; exact in01 _ _ _ _ _ _ h01 _ hp0 (by linarith)
      · rw [h11, hs02]; exact in02 _ _ _ _ _ _ h02 _ hp0 (by linarith)
      · rw [e10, hs01]; exact in01 _ _ _ _ _ _ h01 _ (by linarith) (by linarith)
      · rw [e11, hs02]; exact in02 _ _ _ _ _ _ h02 _ (by linarith) (by linarith)
      · intro _
        refine ⟨le_refl _, le_refl _, ?_, ?_, hden, ?_⟩
        · rw [hup, h11, h10, show s02 * (p - x0) + y0 - (s01 * (p - x0) + y0) =
            (p - x0) * (s02 - s01) by ring, abs_mul, abs_of_nonneg (show (0 : K) ≤ p - x0 by linarith)]
        · rw [hdown, e11, e10, show s02 * ((p + 1 : K) - x0) + y0 - (s01 * ((p + 1 : K) - x0) + y0) =
            (p + 1 - x0) * (s02 - s01) by ring, abs_mul,
            abs_of_nonneg (show (0 : K) ≤ p + 1 - x0 by linarith)]
        · rw [area_left _ _ _ _ _ _ h01 h02, ← hs01, ← hs02, hup, hdown, hdiff, hdf]
          have d1 : x1 - x0 ≠ 0 := by intro h'; linarith
          have d2 : x2 - x0 ≠ 0 := by intro h'; linarith
          field_simp
          ring
    · refine ih (p + 1) (by push_cast; linarith) (by push_cast; linarith) _ _ _ _ _ _ ?_ ?_ ?_ ?_ ?_ ?_ c hc
      · rw [hdiff]; push_cast; ring
      · rw [h10]; push_cast; ring
      · rw [h11]; push_cast; ring
      · rw [hup]; push_cast; ring
      · rw [hdown]; push_cast; ring
      · rw [hden]; ring

/-- The left part: its calls are parts of the triangle, its result is as expected, and its row
totals are those of the one-dimensional routine. -/
theorem left_spec (x0 y0 x1 y1 x2 y2 amp : K) (h01 : x0 ≤ x1) (h02 : x0 < x2) (h12 : x1 ≤ x2)
    (good : Prop) (p pmid : Int) (clipL1 clipR1 : Bool) (hp : p ≤ pmid) (hlt : x0 < p + 1)
    (hne : p ≠ pmid → (pmid : K) ≤ x1) (hc : clipL1 = true → x0 ≤ p)
    (hg1 : good → clipL1 = false → (p : K) ≤ x0)
    (hg2 : good → clipR1 = false → x1 ≤ pmid + 1) :
    ∃ cs mid, left2D p pmid clipL1 clipR1 (amp * 2 / (x2 - x0)) x0 x1 y0 y1
        ((y1 - y0) / (x1 - x0)) ((y2 - y0) / (x2 - x0)) = .ok (cs, mid) ∧
      (∀ c ∈ cs, Part (x0, y0) (x1, y1) (x2, y2) amp good c) ∧
      (clipR1 = false → mid = if p = pmid ∧ clipL1 = true then none
        else some (y1, (y2 - y0) / (x2 - x0) * (x1 - x0) + y0)) ∧
      ∃ w, leftTri p pmid clipL1 clipR1 (amp * 2 / (x2 - x0)) x0 x1 = .ok w ∧
        ∀ k, rowTotal k cs = at_ k w := by
  have d2 : x2 - x0 ≠ 0 := by intro h'; linarith
  by_cases hpm : p = pmid
  · subst hpm
    simp only [left2D, leftTri, ne_eq, not_true_eq_false, if_false, if_true]
    by_cases hb : (!clipR1 && !clipL1) = true
    · rw [if_pos hb, if_pos hb]
      have hcl : clipL1 = false := by cases clipL1 <;> simp_all
      have hcr : clipR1 = false := by cases clipR1 <;> simp_all
      refine ⟨_, _, rfl, ?_, ?_, _, rfl, ?_⟩
      · intro c hcm
        rw [List.mem_singleton] at hcm
        subst hcm
        refine ⟨x0, x1, x1, in0 .., in1 .., in02 _ _ _ _ _ _ h02 _ h01 h12, fun g => ⟨?_, ?_⟩⟩
        · have g1 := hg1 g hcl
          have g2 := hg2 g hcr
          intro x hx
          simp only [List.mem_cons, List.not_mem_nil, or_false] at hx
          rcases hx with rfl | rfl | rfl <;> constructor <;> simp only <;> linarith
        · simp only
          rw [area_one _ _ _ _ _ h01]
          rcases eq_or_lt_of_le h01 with heq | hlt'
          · subst heq; simp
          · rw [area_left _ _ _ _ _ _ hlt' h02]
            have d1 : x1 - x0 ≠ 0 := by intro h'; linarith
            have : y1 - ((y2 - y0) / (x2 - x0) * (x1 - x0) + y0) =
                -((x1 - x0) * ((y2 - y0) / (x2 - x0) - (y1 - y0) / (x1 - x0))) := by
              field_simp; ring
            rw [this, abs_neg, abs_mul, abs_of_pos (show (0 : K) < x1 - x0 by linarith)]
            field_simp
      · intro _
        rw [if_neg (by simp [hcl])]
      · intro k
        rw [rowTotal_cons, rowTotal_nil, at_cons, at_nil]
    · rw [if_neg hb, if_neg hb]
      refine ⟨_, _, rfl, by simp, ?_, _, rfl, ?_⟩
      · intro hr
        rw [if_pos]
        cases clipL1 <;> simp_all
      · intro k
        rw [at_cons, at_nil, rowTotal_nil]
        split_ifs <;> ring
  · have hm := hne hpm
    have hp1 : p + 1 ≤ pmid := by omega
    have hp1' : (p : K) + 1 ≤ pmid := by exact_mod_cast hp1
    have hlt' : x0 < x1 := by linarith
    have d1 : x1 - x0 ≠ 0 := by intro h'; linarith
    obtain ⟨n, hn⟩ := Int.eq_ofNat_of_zero_le (show 0 ≤ pmid - (p + 1) by omega)
    have hpn : pmid = p + 1 + n := by omega
    have hpn' : (pmid : K) = p + 1 + n := by rw [hpn]; push_cast; ring
    generalize hs01 : (y1 - y0) / (x1 - x0) = s01
    generalize hs02 : (y2 - y0) / (x2 - x0) = s02
    have hdiff : (0 : K) < p + 1 - x0 := by linarith
    have eup : |((p : K) + 1 - x0) * (s02 - s01)| = (((p + 1 : Int) : K) - x0) * |s02 - s01| := by
      rw [abs_mul, abs_of_pos hdiff]; push_cast; ring
    have edown : |((p : K) + 1 - x0) * (s02 - s01) + (s02 - s01)| =
        (((p + 1 : Int) : K) + 1 - x0) * |s02 - s01| := by
      rw [show ((p : K) + 1 - x0) * (s02 - s01) + (s02 - s01) =
        ((p : K) + 1 + 1 - x0) * (s02 - s01) by ring, abs_mul,
        abs_of_pos (show (0 : K) < p + 1 + 1 - x0 by linarith)]
      push_cast; ring
    have hrows := upRows_part x0 y0 x1 y1 x2 y2 amp hlt' h02 h12 good n (p + 1)
      (by push_cast; linarith) (by push_cast; linarith)
      ((p + 1 - x0 - 1/2) * (amp * 2 / (x2 - x0) / (x1 - x0)))
      (s01 * (p + 1 - x0) + y0) (s02 * (p + 1 - x0) + y0)
      |((p : K) + 1 - x0) * (s02 - s01)| |((p : K) + 1 - x0) * (s02 - s01) + (s02 - s01)|
      (|((p : K) + 1 - x0) * (s02 - s01)| + |((p : K) + 1 - x0) * (s02 - s01) + (s02 - s01)|)
      s01 s02 (amp * 2 / (x2 - x0) / (x1 - x0)) hs01.symm hs02.symm rfl
      (by push_cast; ring) (by push_cast; ring) (by push_cast; ring) eup edown rfl
    have hfirst : ∀ c ∈ (if (!clipL1) = true then
        [(⟨p, y0, s02 * (p + 1 - x0) + y0, s01 * (p + 1 - x0) + y0,
          1/2 * (p + 1 - x0) * (p + 1 - x0) * (amp * 2 / (x2 - x0) / (x1 - x0))⟩ : Call K)]
        else parts p (s01 * (p + 1 - x0) + y0 - s01) (s02 * (p + 1 - x0) + y0 - s02)
          (s01 * (p + 1 - x0) + y0) (s02 * (p + 1 - x0) + y0)
          |s02 * (p + 1 - x0) + y0 - s02 - (s01 * (p + 1 - x0) + y0 - s01)|
          |s02 * (p + 1 - x0) + y0 - (s01 * (p + 1 - x0) + y0)|
          (|s02 * (p + 1 - x0) + y0 - (s01 * (p + 1 - x0) + y0)| +
            |s02 * (p + 1 - x0) + y0 - s02 - (s01 * (p + 1 - x0) + y0 - s01)|)
          ((p + 1 - x0 - 1/2) * (amp * 2 / (x2 - x0) / (x1 - x0)))),
        Part (x0, y0) (x1, y1) (x2, y2) amp good c := by
      have i10 : Spec.InTri (x0, y0) (x1, y1) (x2, y2) ((p : K) + 1, s01 * (p + 1 - x0) + y0) := by
        rw [← hs01]; exact in01 _ _ _ _ _ _ hlt' _ (by linarith) (by linarith)
      have i11 : Spec.InTri (x0, y0) (x1, y1) (x2, y2) ((p : K) + 1, s02 * (p + 1 - x0) + y0) := by
        rw [← hs02]; exact in02 _ _ _ _ _ _ h02 _ (by linarith) (by linarith)
      have edn : |s02 * (p + 1 - x0) + y0 - (s01 * (p + 1 - x0) + y0)| =
          ((p : K) + 1 - x0) * |s02 - s01| := by
        rw [show s02 * (p + 1 - x0) + y0 - (s01 * (p + 1 - x0) + y0) =
          ((p : K) + 1 - x0) * (s02 - s01) by ring, abs_mul, abs_of_pos hdiff]
      by_cases hcl : clipL1 = true
      · have hx := hc hcl
        rw [if_neg (by simp [hcl])]
        have e00 : s01 * (p + 1 - x0) + y0 - s01 = s01 * (p - x0) + y0 := by ring
        have e01 : s02 * (p + 1 - x0) + y0 - s02 = s02 * (p - x0) + y0 := by ring
        refine part_parts (x0, y0) (x1, y1) (x2, y2) amp good p p (p + 1) _ _ _ _ _ _ _ _
          ?_ ?_ i10 i11 (by linarith) ?_
        · rw [e00, ← hs01]; exact in01 _ _ _ _ _ _ hlt' _ hx (by linarith)
        · rw [e01, ← hs02]; exact in02 _ _ _ _ _ _ h02 _ hx (by linarith)
        · intro _
          refine ⟨le_refl _, le_refl _, rfl, rfl, add_comm _ _, ?_⟩
          rw [area_left _ _ _ _ _ _ hlt' h02, hs01, hs02, edn, e00, e01,
            show s02 * (p - x0) + y0 - (s01 * (p - x0) + y0) =
              ((p : K) - x0) * (s02 - s01) by ring, abs_mul,
            abs_of_nonneg (show (0 : K) ≤ p - x0 by linarith)]
          field_simp
          ring
      · rw [if_pos (by simp [hcl])]
        intro c hcm
        rw [List.mem_singleton] at hcm
        subst hcm
        refine part_one (x0, y0) (x1, y1) (x2, y2) amp good p x0 (p + 1) _ _ _ _ (in0 ..)
          i10 i11 hlt.le ?_
        intro g
        refine ⟨hg1 g (by simpa using hcl), le_refl _, ?_⟩
        rw [area_left _ _ _ _ _ _ hlt' h02, hs01, hs02, edn]
        field_simp
    have hfirstTotal : ∀ k, rowTotal k (if (!clipL1) = true then
        [(⟨p, y0, s02 * (p + 1 - x0) + y0, s01 * (p + 1 - x0) + y0,
          1/2 * (p + 1 - x0) * (p + 1 - x0) * (amp * 2 / (x2 - x0) / (x1 - x0))⟩ : Call K)]
        else parts p (s01 * (p + 1 - x0) + y0 - s01) (s02 * (p + 1 - x0) + y0 - s02)
          (s01 * (p + 1 - x0) + y0) (s02 * (p + 1 - x0) + y0)
          |s02 * (p + 1 - x0) + y0 - s02 - (s01 * (p + 1 - x0) + y0 - s01)|
          |s02 * (p + 1 - x0) + y0 - (s01 * (p + 1 - x0) + y0)|
          (|s02 * (p + 1 - x0) + y0 - (s01 * (p + 1 - x0) + y0)| +
            |s02 * (p + 1 - x0) + y0 - s02 - (s01 * (p + 1 - x0) + y0 - s01)|)
          ((p + 1 - x0 - 1/2) * (amp * 2 / (x2 - x0) / (x1 - x0)))) =
        if p = k then (if !clipL1 then
          (1/2) * (p + 1 - x0) * (p + 1 - x0) * (amp * 2 / (x2 - x0) / (x1 - x0))
          else (p + 1 - x0 - 1/2) * (amp * 2 / (x2 - x0) / (x1 - x0))) else 0 := by
      intro k
      by_cases hcl : clipL1 = true
      · simp only [hcl, Bool.not_true, Bool.false_eq_true, if_false]
        rw [rowTotal_parts k p _ _ _ _ _ _ _ _ (add_comm _ _)]
      · simp only [hcl, Bool.not_false, if_true]
        rw [rowTotal_cons, rowTotal_nil, add_zero]
    have hfin := upRows_final s01 s02 |s02 - s01| (amp * 2 / (x2 - x0) / (x1 - x0)) n (p + 1)
      ((p + 1 - x0 - 1/2) * (amp * 2 / (x2 - x0) / (x1 - x0)))
      (s01 * (p + 1 - x0) + y0) (s02 * (p + 1 - x0) + y0)
      |((p : K) + 1 - x0) * (s02 - s01)| |((p : K) + 1 - x0) * (s02 - s01) + (s02 - s01)|
      (|((p : K) + 1 - x0) * (s02 - s01)| + |((p : K) + 1 - x0) * (s02 - s01) + (s02 - s01)|)
    have hrowsTotal := fun k => rowTotal_upRows s01 s02 |s02 - s01|
      (amp * 2 / (x2 - x0) / (x1 - x0)) k n (p + 1)
      ((p + 1 - x0 - 1/2) * (amp * 2 / (x2 - x0) / (x1 - x0)))
      (s01 * (p + 1 - x0) + y0) (s02 * (p + 1 - x0) + y0)
      |((p : K) + 1 - x0) * (s02 - s01)| |((p : K) + 1 - x0) * (s02 - s01) + (s02 - s01)|
      (|((p : K) + 1 - x0) * (s02 - s01)| + |((p : K) + 1 - x0) * (s02 - s01) + (s02 - s01)|) rfl
    have hnot : ¬ pmid < p + 1 := by omega
    simp only [left2D, leftTri, ne_eq, hpm, not_false_eq_true, if_true, if_false, hnot,
      show (pmid - (p + 1)).toNat = n by omega]
    generalize hR : upRows s01 s02 |s02 - s01| (amp * 2 / (x2 - x0) / (x1 - x0)) n (p + 1)
      ((p + 1 - x0 - 1/2) * (amp * 2 / (x2 - x0) / (x1 - x0)))
      (s01 * (p + 1 - x0) + y0) (s02 * (p + 1 - x0) + y0)
      |((p : K) + 1 - x0) * (s02 - s01)| |((p : K) + 1 - x0) * (s02 - s01) + (s02 - s01)|
      (|((p : K) + 1 - x0) * (s02 - s01)| + |((p : K) + 1 - x0) * (s02 - s01) + (s02 - s01)|) = R
      at hrows hfin hrowsTotal
    obtain ⟨rows, r10, r11, rup, rden⟩ := R
    simp only [Prod.mk.injEq] at hfin
    obtain ⟨f1, f2, f3, f4⟩ := hfin
    have f1' : r10 = s01 * ((pmid : K) - x0) + y0 := by rw [f1, hpn']; ring
    have f2' : r11 = s02 * ((pmid : K) - x0) + y0 := by rw [f2, hpn']; ring
    have f3' : rup = ((pmid : K) - x0) * |s02 - s01| := by rw [f3, eup, hpn']; push_cast; ring
    have f4' : rden = (2 * ((pmid : K) - x0) + 1) * |s02 - s01| := by
      rw [f4, eup, edown, hpn']; push_cast; ring
    by_cases hcr : clipR1 = true
    · simp only [hcr, Bool.not_true, Bool.false_eq_true, if_false]
      refine ⟨_, _, rfl, ?_, ?_, _, rfl, ?_⟩
      · intro c hcm
        rw [List.mem_append] at hcm
        exact hcm.elim (hfirst c) (hrows c)
      · intro h'; exact absurd h' (by simp)
      · intro k
        rw [rowTotal_append, hfirstTotal, hrowsTotal, List.cons_append, at_cons, at_append, at_cons,
          at_nil]
        split_ifs <;> ring
    · rw [Bool.not_eq_true] at hcr
      simp only [hcr, Bool.not_false, if_true]
      have hpos : (0 : K) < pmid - x0 := by linarith
      have h11 : |s02 * (x1 - x0) + y0 - y1| = (x1 - x0) * |s02 - s01| := by
        rw [show s02 * (x1 - x0) + y0 - y1 = (x1 - x0) * (s02 - s01) by
          rw [← hs01]; field_simp; ring, abs_mul,
          abs_of_pos (show (0 : K) < x1 - x0 by linarith)]
      have i00 : Spec.InTri (x0, y0) (x1, y1) (x2, y2) ((pmid : K), r10) := by
        rw [f1', ← hs01]; exact in01 _ _ _ _ _ _ hlt' _ (by linarith) hm
      have i01 : Spec.InTri (x0, y0) (x1, y1) (x2, y2) ((pmid : K), r11) := by
        rw [f2', ← hs02]; exact in02 _ _ _ _ _ _ h02 _ (by linarith) (by linarith)
      have i11 : Spec.InTri (x0, y0) (x1, y1) (x2, y2) (x1, s02 * (x1 - x0) + y0) := by
        rw [← hs02]; exact in02 _ _ _ _ _ _ h02 _ h01 h12
      have hlines : |r11 - r10| = rup := by
        rw [f1', f2', f3', show s02 * ((pmid : K) - x0) + y0 - (s01 * ((pmid : K) - x0) + y0) =
          ((pmid : K) - x0) * (s02 - s01) by ring, abs_mul, abs_of_pos hpos]
      refine ⟨_, _, rfl, ?_, ?_, _, rfl, ?_⟩
      · intro c hcm
        rw [List.mem_append, List.mem_append] at hcm
        rcases hcm with (hcm | hcm) | hcm
        · exact hfirst c hcm
        · exact hrows c hcm
        · by_cases h0 : rden = 0
          · rw [if_neg (by simpa using h0), List.mem_singleton] at hcm
            subst hcm
            refine part_one (x0, y0) (x1, y1) (x2, y2) amp good pmid pmid x1 _ _ _ _ i00 (in1 ..)
              i11 hm ?_
            intro g
            refine ⟨le_refl _, hg2 g hcr, ?_⟩
            have hs0 : |s02 - s01| = 0 := by
              rw [f4'] at h0
              rcases mul_eq_zero.mp h0 with h | h
              · exfalso; linarith
              · exact h
            rw [area_left _ _ _ _ _ _ hlt' h02, hs01, hs02, h11, hs0]
            ring
          · rw [if_pos h0] at hcm
            refine part_two (x0, y0) (x1, y1) (x2, y2) amp good pmid pmid x1 _ _ _ _ _ _ _ _
              i00 i01 (in1 ..) i11 hm ?_ ?_ c hcm
            · intro g
              refine ⟨le_refl _, hg2 g hcr, hlines.symm, rfl, add_comm _ _, ?_⟩
              rw [area_left _ _ _ _ _ _ hlt' h02, hs01, hs02, h11, f3']
              field_simp
              ring
            · rw [h11, f3']
              have hs0 : 0 < |s02 - s01| := by
                rcases eq_or_lt_of_le (abs_nonneg (s02 - s01)) with h | h
                · exfalso; apply h0; rw [f4', ← h, mul_zero]
                · exact h
              have a1 : 0 < (x1 - x0) * |s02 - s01| := mul_pos (by linarith) hs0
              have a2 : 0 < ((pmid : K) - x0) * |s02 - s01| := mul_pos hpos hs0
              exact ne_of_gt (add_pos a1 a2)
      · intro _
        rw [if_neg (by simp [hpm])]
      · intro k
        rw [rowTotal_append, rowTotal_append, hfirstTotal, hrowsTotal, List.cons_append, at_cons,
          at_append, at_cons, at_nil]
        have hlast : rowTotal k (if rden ≠ 0 then
            two pmid r10 r11 y1 (s02 * (x1 - x0) + y0) rup |s02 * (x1 - x0) + y0 - y1|
              (|s02 * (x1 - x0) + y0 - y1| + rup)
              ((x1 - pmid) * (x1 - x0 + (pmid - x0)) * (1/2) * (amp * 2 / (x2 - x0) / (x1 - x0)))
            else [⟨pmid, r10, s02 * (x1 - x0) + y0, y1,
              (x1 - pmid) * (x1 - x0 + (pmid - x0)) * (1/2) * (amp * 2 / (x2 - x0) / (x1 - x0))⟩]) =
            if pmid = k then
              (x1 - pmid) * (x1 - x0 + (pmid - x0)) * (1/2) * (amp * 2 / (x2 - x0) / (x1 - x0))
            else 0 := by
          by_cases h0 : rden = 0
          · rw [if_neg (by simpa using h0), rowTotal_cons, rowTotal_nil, add_zero]
          · rw [if_pos h0, rowTotal_two _ _ _ _ _ _ _ _ _ _ (add_comm _ _)]
            rw [h11, f3']
            have hs0 : 0 < |s02 - s01| := by
              rcases eq_or_lt_of_le (abs_nonneg (s02 - s01)) with h | h
              · exfalso; apply h0; rw [f4', ← h, mul_zero]
              · exact h
            have a1 : 0 < (x1 - x0) * |s02 - s01| := mul_pos (by linarith) hs0
            have a2 : 0 < ((pmid : K) - x0) * |s02 - s01| := mul_pos hpos hs0
            exact ne_of_gt (add_pos a1 a2)
        rw [hlast]
        ring

/-! ### Right part -/

/-- Part 6 of the right part. -/
theorem downRows_part (x0 y0 x1 y1 x2 y2 amp : K) (h12 : x1 < x2) (h02 : x0 < x2) (h01 : x0 ≤ x1)
    (good : Prop) (n : Nat) (p : Int) (hp0 : x1 ≤ p) (hp1 : (p : K) + n ≤ x2)
    (diff f10 f11 up down denom s12 s02 df2 : K)
    (hs12 : s12 = (y2 - y1) / (x2 - x1)) (hs02 : s02 = (y2 - y0) / (x2 - x0))
    (hdf : df2 = amp * 2 / (x2 - x0) / (x2 - x1))
    (hdiff : diff = (x2 - p + 1/2) * df2)
    (h10 : f10 = s12 * (p - x1) + y1) (h11 : f11 = s02 * (p - x0) + y0)
    (hlines : good → 0 < n → up = (x2 - p) * |s02 - s12| ∧ down = (x2 - p - 1) * |s02 - s12|)
    (hden : denom = up + down) :
    ∀ c ∈ (downRows s12 s02 |s02 - s12| df2 n p diff f10 f11 up down denom).1,
      Part (x0, y0) (x1, y1) (x2, y2) amp good c := by
  have d1 : x2 - x1 ≠ 0 := by intro h'; linarith
  have d2 : x2 - x0 ≠ 0 := by intro h'; linarith
  induction n generalizing p diff f10 f11 up down denom with
  | zero => intro c hc; simp [downRows] at hc
  | succ n ih =>
    push_cast at hp1
    have hn : (0 : K) ≤ n := Nat.cast_nonneg n
    simp only [downRows]
    intro c hc
    rw [List.mem_append] at hc
    have line : ∀ x : K, s02 * (x - x0) + y0 - (s12 * (x - x1) + y1) = (x - x2) * (s02 - s12) := by
      intro x
      rw [hs12, hs02]
      field_simp
      ring
    rcases hc with hc | hc
    · have e10 : f10 + s12 = s12 * ((p + 1 : K) - x1) + y1 := by rw [h10]; ring
      have e11 : f11 + s02 = s02 * ((p + 1 : K) - x0) + y0 := by rw [h11]; ring
      refine part_parts (x0, y0) (x1, y1) (x2, y2) amp good p p (p + 1) f10 f11 (f10 + s12)
        (f11 + s02) up down denom (diff - df2) ?_ ?_ ?_ ?_ (by linarith) ?_ c hc
      · rw [h10, hs12]; exact in12 _ _ _ _ _ _ h12 _ hp0 (by linarith)
      · rw [h11, hs02]; exact in02 _ _ _ _ _ _ h02 _ (by linarith) (by linarith)
      · rw [e10, hs12]; exact in12 _ _ _ _ _ _ h12 _ (by linarith) (by linarith)
      · rw [e11, hs02]; exact in02 _ _ _ _ _ _ h02 _ (by linarith) (by linarith)
      · intro g
        obtain ⟨hup, hdown⟩ := hlines g (by omega)
        refine ⟨le_refl _, le_refl _, ?_, ?_, hden, ?_⟩
        · rw [hup, h11, h10, line, abs_mul, abs_of_nonpos (show (p : K) - x2 ≤ 0 by linarith)]
          ring
        · rw [hdown, e11, e10, line, abs_mul,
            abs_of_nonpos (show (p : K) + 1 - x2 ≤ 0 by linarith)]
          ring
        · rw [area_right _ _ _ _ _ _ h12 h02, ← hs12, ← hs02, hup, hdown, hdiff, hdf]
          field_simp
          ring
    · refine ih (p + 1) (by push_cast; linarith) (by push_cast; linarith) _ _ _ _ _ _ ?_ ?_ ?_ ?_ ?_ c hc
      · rw [hdiff]; push_cast; ring
      · rw [h10]; push_cast; ring
      · rw [h11]; push_cast; ring
      · intro g _
        obtain ⟨hup, hdown⟩ := hlines g (by omega)
        rw [hup, hdown]
        push_cast
        constructor <;> ring
      · rw [hden]; ring

/-- The right part. -/
theorem right_spec (x0 y0 x1 y1 x2 y2 amp : K) (h01 : x0 ≤ x1) (h02 : x0 < x2) (h12 : x1 ≤ x2)
    (good : Prop) (p pmax : Int) (clipL2 clipR2 : Bool) (mid : Option (K × K)) (hp : p ≤ pmax)
    (hlt : p ≠ pmax → x1 < p + 1)
    (hne : p ≠ pmax → (pmax : K) ≤ x2) (hc : clipL2 = true → x1 ≤ p)
    (hmid : (clipL2 = false ∨ p = pmax) → (p ≠ pmax ∨ clipR2 = false) →
      mid = some (y1, (y2 - y0) / (x2 - x0) * (x1 - x0) + y0))
    (hg0 : good → clipL2 = true → (y2 - y0) / (x2 - x0) ≤ (y2 - y1) / (x2 - x1))
    (hg1 : good → clipL2 = false → (p : K) ≤ x1)
    (hg3 : good → clipL2 = true → p ≠ pmax)
    (hg2 : good → clipR2 = false → x2 ≤ pmax + 1) :
    ∃ cs, right2D p pmax clipL2 clipR2 (amp * 2 / (x2 - x0)) x0 x1 x2 y0 y1 y2
        ((y2 - y0) / (x2 - x0)) ((y2 - y1) / (x2 - x1)) mid = .ok cs ∧
      (∀ c ∈ cs, Part (x0, y0) (x1, y1) (x2, y2) amp good c) ∧
      ∃ w, rightTri p pmax clipL2 clipR2 (amp * 2 / (x2 - x0)) x1 x2 = .ok w ∧
        ∀ k, rowTotal k cs = at_ k w := by
  have d2 : x2 - x0 ≠ 0 := by intro h'; linarith
  by_cases hpm : p = pmax
  · subst hpm
    simp only [right2D, rightTri, ne_eq, not_true_eq_false, if_false, if_true]
    by_cases hb : clipR2 = true
    · simp only [hb, Bool.not_true, Bool.false_eq_true, if_false]
      refine ⟨_, rfl, by simp, _, rfl, ?_⟩
      intro k
      rw [at_cons, at_nil, rowTotal_nil]
      split_ifs <;> ring
    · rw [Bool.not_eq_true] at hb
      simp only [hb, Bool.not_false, if_true]
      rw [hmid (Or.inr rfl) (Or.inr hb)]
      refine ⟨_, rfl, ?_, _, rfl, ?_⟩
      · intro c hcm
        rw [List.mem_singleton] at hcm
        subst hcm
        refine ⟨x1, x1, x2, in02 _ _ _ _ _ _ h02 _ h01 h12, in1 .., in2 .., fun g => ⟨?_, ?_⟩⟩
        · have hcl : clipL2 = false := by
            by_contra hcon
            exact hg3 g (by simpa using hcon) rfl
          have g1 := hg1 g hcl
          have g2 := hg2 g hb
          intro x hx
          simp only [List.mem_cons, List.not_mem_nil, or_false] at hx
          rcases hx with rfl | rfl | rfl <;> constructor <;> simp only <;> linarith
        · simp only
          have hsub : Spec.area2 (x1, (y2 - y0) / (x2 - x0) * (x1 - x0) + y0) (x1, y1) (x2, y2) =
              (x2 - x1) * |(y2 - y0) / (x2 - x0) * (x1 - x0) + y0 - y1| := by
            have h : 0 ≤ x2 - x1 := by linarith
            unfold Spec.area2
            rw [← abs_of_nonneg h, ← abs_mul, abs_of_nonneg h]
            congr 1
            simp only
            ring
          rw [hsub]
          rcases eq_or_lt_of_le h12 with heq | hlt'
          · subst heq; simp
          · rw [area_right _ _ _ _ _ _ hlt' h02]
            have d1 : x2 - x1 ≠ 0 := by intro h'; linarith
            have : (y2 - y0) / (x2 - x0) * (x1 - x0) + y0 - y1 =
                -((x2 - x1) * ((y2 - y0) / (x2 - x0) - (y2 - y1) / (x2 - x1))) := by
              field_simp; ring
            rw [this, abs_neg, abs_mul, abs_of_pos (show (0 : K) < x2 - x1 by linarith)]
            field_simp
      · intro k
        rw [rowTotal_cons, rowTotal_nil, at_cons, at_nil]
  · have hm := hne hpm
    have hl := hlt hpm
    have hp1 : p + 1 ≤ pmax := by omega
    have hp1' : (p : K) + 1 ≤ pmax := by exact_mod_cast hp1
    have hlt' : x1 < x2 := by linarith
    have d1 : x2 - x1 ≠ 0 := by intro h'; linarith
    obtain ⟨n, hn⟩ := Int.eq_ofNat_of_zero_le (show 0 ≤ pmax - (p + 1) by omega)
    have hpn : pmax = p + 1 + n := by omega
    have hpn' : (pmax : K) = p + 1 + n := by rw [hpn]; push_cast; ring
    have hnot : ¬ pmax < p + 1 := by omega
    generalize hs12 : (y2 - y1) / (x2 - x1) = s12 at *
    generalize hs02 : (y2 - y0) / (x2 - x0) = s02 at *
    have line : ∀ x : K, s02 * (x - x0) + y0 - (s12 * (x - x1) + y1) = (x - x2) * (s02 - s12) := by
      intro x
      rw [← hs12, ← hs02]
      field_simp
      ring
    have i02 : ∀ x : K, x0 ≤ x → x ≤ x2 →
        Spec.InTri (x0, y0) (x1, y1) (x2, y2) (x, s02 * (x - x0) + y0) := by
      intro x h h'; rw [← hs02]; exact in02 _ _ _ _ _ _ h02 _ h h'
    have i12 : ∀ x : K, x1 ≤ x → x ≤ x2 →
        Spec.InTri (x0, y0) (x1, y1) (x2, y2) (x, s12 * (x - x1) + y1) := by
      intro x h h'; rw [← hs12]; exact in12 _ _ _ _ _ _ hlt' _ h h'
    -- everything after Part 4
    have rest : ∀ (first : List (Call K)) (a0 down : K),
        (∀ c ∈ first, Part (x0, y0) (x1, y1) (x2, y2) amp good c) →
        (∀ k, rowTotal k first = if p = k then a0 else 0) →
        (good → 0 < n → |down| = (x2 - (p + 1)) * |s02 - s12| ∧
          |down + (s02 - s12)| = (x2 - (p + 1) - 1) * |s02 - s12|) →
        ∃ cs, (.ok (first ++ (downRows s12 s02 |s02 - s12| (amp * 2 / (x2 - x0) / (x2 - x1)) n
            (p + 1) ((x2 - p - 1 + 1/2) * (amp * 2 / (x2 - x0) / (x2 - x1)))
            (s12 * (p + 1 - x1) + y1) (s02 * (p + 1 - x0) + y0) |down| |down + (s02 - s12)|
            (|down| + |down + (s02 - s12)|)).1 ++
            if (!clipR2) = true then
              [⟨pmax, (downRows s12 s02 |s02 - s12| (amp * 2 / (x2 - x0) / (x2 - x1)) n
                (p + 1) ((x2 - p - 1 + 1/2) * (amp * 2 / (x2 - x0) / (x2 - x1)))
                (s12 * (p + 1 - x1) + y1) (s02 * (p + 1 - x0) + y0) |down| |down + (s02 - s12)|
                (|down| + |down + (s02 - s12)|)).2.1, y2,
                (downRows s12 s02 |s02 - s12| (amp * 2 / (x2 - x0) / (x2 - x1)) n
                (p + 1) ((x2 - p - 1 + 1/2) * (amp * 2 / (x2 - x0) / (x2 - x1)))
                (s12 * (p + 1 - x1) + y1) (s02 * (p + 1 - x0) + y0) |down| |down + (s02 - s12)|
                (|down| + |down + (s02 - s12)|)).2.2,
                (x2 - pmax) * (x2 - pmax) * (1/2) * (amp * 2 / (x2 - x0) / (x2 - x1))⟩]
            else []) : Py (List (Call K))) = .ok cs ∧
          (∀ c ∈ cs, Part (x0, y0) (x1, y1) (x2, y2) amp good c) ∧
          ∀ k, rowTotal k cs = at_ k ((p, a0) :: downLoop (amp * 2 / (x2 - x0) / (x2 - x1)) n (p + 1)
            ((x2 - p - 1 + 1/2) * (amp * 2 / (x2 - x0) / (x2 - x1))) ++
            if (!clipR2) = true then
              [(pmax, (x2 - pmax) * (x2 - pmax) * (1/2) * (amp * 2 / (x2 - x0) / (x2 - x1)))]
            else []) := by
      intro first a0 down hfirst htot hlines
      have hrows := downRows_part x0 y0 x1 y1 x2 y2 amp hlt' h02 h01 good n (p + 1)
        (by push_cast; linarith) (by push_cast; linarith)
        ((x2 - p - 1 + 1/2) * (amp * 2 / (x2 - x0) / (x2 - x1)))
        (s12 * (p + 1 - x1) + y1) (s02 * (p + 1 - x0) + y0) |down| |down + (s02 - s12)|
        (|down| + |down + (s02 - s12)|) s12 s02 (amp * 2 / (x2 - x0) / (x2 - x1)) hs12.symm
        hs02.symm rfl (by push_cast; ring) (by push_cast; ring) (by push_cast; ring)
        (by push_cast; exact hlines) rfl
      have hfin := downRows_final s12 s02 |s02 - s12| (amp * 2 / (x2 - x0) / (x2 - x1)) n (p + 1)
        ((x2 - p - 1 + 1/2) * (amp * 2 / (x2 - x0) / (x2 - x1)))
        (s12 * (p + 1 - x1) + y1) (s02 * (p + 1 - x0) + y0) |down| |down + (s02 - s12)|
        (|down| + |down + (s02 - s12)|)
      have hrowsTotal := fun k => rowTotal_downRows s12 s02 |s02 - s12|
        (amp * 2 / (x2 - x0) / (x2 - x1)) k n (p + 1)
        ((x2 - p - 1 + 1/2) * (amp * 2 / (x2 - x0) / (x2 - x1)))
        (s12 * (p + 1 - x1) + y1) (s02 * (p + 1 - x0) + y0) |down| |down + (s02 - s12)|
        (|down| + |down + (s02 - s12)|) rfl
      generalize downRows s12 s02 |s02 - s12| (amp * 2 / (x2 - x0) / (x2 - x1)) n
        (p + 1) ((x2 - p - 1 + 1/2) * (amp * 2 / (x2 - x0) / (x2 - x1)))
        (s12 * (p + 1 - x1) + y1) (s02 * (p + 1 - x0) + y0) |down| |down + (s02 - s12)|
        (|down| + |down + (s02 - s12)|) = R at hrows hfin hrowsTotal
      obtain ⟨rows, r10, r11⟩ := R
      simp only [Prod.mk.injEq] at hfin
      obtain ⟨f1, f2⟩ := hfin
      have f1' : r10 = s12 * ((pmax : K) - x1) + y1 := by rw [f1, hpn']; ring
      have f2' : r11 = s02 * ((pmax : K) - x0) + y0 := by rw [f2, hpn']; ring
      refine ⟨_, rfl, ?_, ?_⟩
      · intro c hcm
        rw [List.mem_append, List.mem_append] at hcm
        rcases hcm with (hcm | hcm) | hcm
        · exact hfirst c hcm
        · exact hrows c hcm
        · by_cases hcr : clipR2 = true
          · simp [hcr] at hcm
          · rw [Bool.not_eq_true] at hcr
            simp only [hcr, Bool.not_false, if_true, List.mem_singleton] at hcm
            subst hcm
            refine ⟨pmax, x2, pmax, ?_, in2 .., ?_, fun g => ⟨?_, ?_⟩⟩
            · simp only; rw [f1']; exact i12 _ (by linarith) hm
            · simp only; rw [f2']; exact i02 _ (by linarith) hm
            · have g2 := hg2 g hcr
              intro x hx
              simp only [List.mem_cons, List.not_mem_nil, or_false] at hx
              rcases hx with rfl | rfl | rfl <;> constructor <;> simp only <;> linarith
            · simp only
              rw [area_two _ _ _ _ _ hm, f1', f2', line, abs_mul,
                abs_of_nonpos (show (pmax : K) - x2 ≤ 0 by linarith),
                area_right _ _ _ _ _ _ hlt' h02, hs12, hs02]
              field_simp
              ring
      · intro k
        rw [rowTotal_append, rowTotal_append, htot, hrowsTotal, List.cons_append, at_cons,
          at_append]
        by_cases hcr : clipR2 = true
        · simp only [hcr, Bool.not_true, Bool.false_eq_true, if_false, rowTotal_nil, at_nil]
          ring
        · simp only [hcr, Bool.not_false, if_true, rowTotal_cons, rowTotal_nil, at_cons, at_nil]
          ring
    by_cases hcl : clipL2 = true
    · have hx := hc hcl
      simp only [right2D, rightTri, ne_eq, hpm, not_false_eq_true, if_true, if_false, hcl,
        Bool.not_true, Bool.false_eq_true, hnot, show (pmax - (p + 1)).toNat = n by omega]
      have e10 : s12 * ((p : K) - x1) + y1 + s12 = s12 * (p + 1 - x1) + y1 := by ring
      have e11 : s02 * ((p : K) - x0) + y0 + s02 = s02 * (p + 1 - x0) + y0 := by ring
      rw [e10, e11]
      have key := rest (parts p (s12 * (p - x1) + y1) (s02 * (p - x0) + y0)
          (s12 * (p + 1 - x1) + y1) (s02 * (p + 1 - x0) + y0)
          |s02 * (p - x0) + y0 - (s12 * (p - x1) + y1)|
          |s02 * (p + 1 - x0) + y0 - (s12 * (p + 1 - x1) + y1)|
          (|s02 * (p + 1 - x0) + y0 - (s12 * (p + 1 - x1) + y1)| +
            |s02 * (p - x0) + y0 - (s12 * (p - x1) + y1)|)
          ((x2 - p - 1 + 1/2) * (amp * 2 / (x2 - x0) / (x2 - x1))))
          ((x2 - p - 1 + 1/2) * (amp * 2 / (x2 - x0) / (x2 - x1)))
          |s02 * (p + 1 - x0) + y0 - (s12 * (p + 1 - x1) + y1)|
      have key' := fun A => key A (fun k => rowTotal_parts k p _ _ _ _ _ _ _ _ (add_comm _ _))
      suffices hAB : _ ∧ _ by
        obtain ⟨cs, e, hcs, htot⟩ := key' hAB.1 hAB.2
        exact ⟨cs, e, hcs, _, rfl, htot⟩
      constructor
      · refine part_parts (x0, y0) (x1, y1) (x2, y2) amp good p p (p + 1) _ _ _ _ _ _ _ _
          (i12 _ hx (by linarith)) (i02 _ (by linarith) (by linarith))
          (i12 _ (by linarith) (by linarith)) (i02 _ (by linarith) (by linarith)) (by linarith) ?_
        intro _
        refine ⟨le_refl _, le_refl _, rfl, rfl, add_comm _ _, ?_⟩
        rw [area_right _ _ _ _ _ _ hlt' h02, hs12, hs02, line, line, abs_mul, abs_mul,
          abs_of_nonpos (show (p : K) - x2 ≤ 0 by linarith),
          abs_of_nonpos (show (p : K) + 1 - x2 ≤ 0 by linarith)]
        field_simp
        ring
      · intro g hn0
        have hs := hg0 g hcl
        have hn1 : (1 : K) ≤ n := by exact_mod_cast hn0
        rw [abs_abs, line, abs_mul, abs_of_nonpos (show (p : K) + 1 - x2 ≤ 0 by linarith),
          abs_of_nonpos (show s02 - s12 ≤ 0 by linarith)]
        refine ⟨by ring, ?_⟩
        rw [show -((p : K) + 1 - x2) * -(s02 - s12) + (s02 - s12) =
          (x2 - (p + 1) - 1) * -(s02 - s12) by ring]
        exact abs_of_nonneg (mul_nonneg (by linarith) (by linarith))
    · rw [Bool.not_eq_true] at hcl
      simp only [right2D, rightTri, ne_eq, hpm, not_false_eq_true, if_true, if_false, hcl,
        Bool.not_false, hnot, show (pmax - (p + 1)).toNat = n by omega]
      rw [hmid (Or.inl hcl) (Or.inl hpm)]
      simp only
      have key := rest (parts p y1 (s02 * (x1 - x0) + y0)
          (s12 * (p + 1 - x1) + y1) (s02 * (p + 1 - x0) + y0)
          |s02 * (x1 - x0) + y0 - y1|
          |s02 * (p + 1 - x0) + y0 - (s12 * (p + 1 - x1) + y1)|
          (|s02 * (p + 1 - x0) + y0 - (s12 * (p + 1 - x1) + y1)| +
            |s02 * (x1 - x0) + y0 - y1|)
          ((x2 - x1 - (x2 - p - 1)) * (x2 - p - 1 + (x2 - x1)) * (1/2) *
            (amp * 2 / (x2 - x0) / (x2 - x1))))
          ((x2 - x1 - (x2 - p - 1)) * (x2 - p - 1 + (x2 - x1)) * (1/2) *
            (amp * 2 / (x2 - x0) / (x2 - x1)))
          (s02 * (p + 1 - x0) + y0 - (s12 * (p + 1 - x1) + y1))
      have key' := fun A => key A (fun k => rowTotal_parts k p _ _ _ _ _ _ _ _ (add_comm _ _))
      suffices hAB : _ ∧ _ by
        obtain ⟨cs, e, hcs, htot⟩ := key' hAB.1 hAB.2
        exact ⟨cs, e, hcs, _, rfl, htot⟩
      constructor
      · refine part_parts (x0, y0) (x1, y1) (x2, y2) amp good p x1 (p + 1) _ _ _ _ _ _ _ _
          (in1 ..) (i02 _ (by linarith) (by linarith))
          (i12 _ (by linarith) (by linarith)) (i02 _ (by linarith) (by linarith)) (by linarith) ?_
        intro g
        refine ⟨hg1 g hcl, le_refl _, rfl, rfl, add_comm _ _, ?_⟩
        have l1 : s02 * (x1 - x0) + y0 - y1 = (x1 - x2) * (s02 - s12) := by
          have := line x1
          rw [← this]; ring
        rw [area_right _ _ _ _ _ _ hlt' h02, hs12, hs02, line, l1, abs_mul, abs_mul,
          abs_of_nonpos (show x1 - x2 ≤ 0 by linarith),
          abs_of_nonpos (show (p : K) + 1 - x2 ≤ 0 by linarith)]
        field_simp
        ring
      · intro g hn0
        have hn1 : (1 : K) ≤ n := by exact_mod_cast hn0
        rw [line]
        refine ⟨?_, ?_⟩
        · rw [abs_mul, abs_of_nonpos (show (p : K) + 1 - x2 ≤ 0 by linarith)]
          ring
        · rw [show ((p : K) + 1 - x2) * (s02 - s12) + (s02 - s12) =
            -(x2 - (p + 1) - 1) * (s02 - s12) by ring, abs_mul,
            abs_of_nonpos (show -(x2 - ((p : K) + 1) - 1) ≤ 0 by linarith)]
          ring

/-! ### The whole routine -/

/-- First frequencies, in order, for which an unset variable is read. -/
def Unset (x0 x1 x2 : K) : Prop := (x0 ≤ -1 ∧ -1 < x1 ∧ x1 < 1) ∨ (x1 ≤ -1 ∧ -1 < x2 ∧ x2 < 1)

theorem trunc_eq_zero {x : K} : trunc x = 0 ↔ -1 < x ∧ x < 1 := by
  constructor
  · intro h
    refine ⟨?_, ?_⟩
    · by_contra hcon
      have := trunc_lt_zero.mpr (not_lt.mp hcon)
      omega
    · have := lt_trunc_add_one x
      rw [h] at this
      simpa using this
  · rintro ⟨h1, h2⟩
    have a : ¬ trunc x < 0 := fun h => absurd (trunc_lt_zero.mp h) (not_le.mpr h1)
    by_contra hcon
    have b := (trunc_pos (x := x) (by omega)).1
    have c : (1 : K) ≤ trunc x := by exact_mod_cast (by omega : 1 ≤ trunc x)
    linarith

theorem sorted_spec (x0 y0 x1 y1 x2 y2 amp : K) (m0 : Int) (hm0 : 1 ≤ m0) (h01 : x0 ≤ x1)
    (h12 : x1 ≤ x2) (h02 : x0 < x2) (good : Prop)
    (hg : good → 0 ≤ x0 ∨ (x0 ≤ -1 ∧ 1 ≤ x1) ∨
      (x1 ≤ -1 ∧ 1 ≤ x2 ∧ (y2 - y0) / (x2 - x0) ≤ (y2 - y1) / (x2 - x1))) :
    (Unset x0 x1 x2 → sorted2D x0 y0 x1 y1 x2 y2 amp m0 = .error .undefinedBehaviour) ∧
    (¬ Unset x0 x1 x2 → ∃ cs, sorted2D x0 y0 x1 y1 x2 y2 amp m0 = .ok cs ∧
      (∀ c ∈ cs, Part (x0, y0) (x1, y1) (x2, y2) amp good c) ∧
      ∃ w, triangleSorted x0 x1 x2 amp m0 = .ok w ∧ ∀ k, rowTotal k cs = at_ k w) := by
  have t01 := trunc_mono h01
  have t12 := trunc_mono h12
  have l0 := lt_trunc_add_one x0
  have l1 := lt_trunc_add_one x1
  have l2 := lt_trunc_add_one x2
  constructor
  · intro hU
    unfold sorted2D
    simp only
    rcases hU with ⟨u0, u1, u2⟩ | ⟨u1, u2, u3⟩
    · have e0 := trunc_lt_zero.mpr u0
      have e1 := trunc_eq_zero.mpr ⟨u1, u2⟩
      rw [if_neg (by omega), if_neg (by omega), e1]
      simp only [show ¬ (0 ≥ m0) by omega, if_false, e0, if_true, decide_true, decide_false,
        lt_irrefl, left2D, ne_eq, not_true_eq_false, Bool.not_true, Bool.and_false,
        Bool.false_eq_true]
      by_cases hx : trunc x2 = 0
      · simp only [hx, show ¬ (0 ≥ m0) by omega, if_false, right2D, ne_eq, not_true_eq_false,
          decide_false, Bool.not_false, if_true]
      · have : ¬ (0 = if trunc x2 ≥ m0 then m0 else trunc x2) := by split_ifs <;> omega
        simp only [right2D, ne_eq, this, not_false_eq_true, if_true, Bool.not_false]
    · have e1 := trunc_lt_zero.mpr u1
      have e2 := trunc_eq_zero.mpr ⟨u2, u3⟩
      rw [if_neg (by omega), if_neg (by omega), e2]
      simp only [show ¬ (trunc x1 ≥ m0) by omega, show ¬ (0 ≥ m0) by omega, if_false,
        show trunc x0 < 0 by omega, if_true, decide_true, decide_false, e1, Bool.true_eq_false,
        right2D, ne_eq, not_true_eq_false, Bool.not_false]
  · intro hU
    have hU1 : ¬ (trunc x0 < 0 ∧ trunc x1 = 0) := by
      rintro ⟨a, b⟩
      exact hU (Or.inl ⟨trunc_lt_zero.mp a, trunc_eq_zero.mp b⟩)
    have hU2 : ¬ (trunc x1 < 0 ∧ trunc x2 = 0) := by
      rintro ⟨a, b⟩
      exact hU (Or.inr ⟨trunc_lt_zero.mp a, trunc_eq_zero.mp b⟩)
    unfold sorted2D triangleSorted
    simp only
    by_cases hbig : trunc x0 > m0
    · rw [if_pos hbig, if_pos hbig]
      exact ⟨_, rfl, by simp, _, rfl, fun k => by simp⟩
    rw [if_neg hbig, if_neg hbig]
    by_cases hneg : trunc x2 < 0
    · rw [if_pos hneg, if_pos hneg]
      exact ⟨_, rfl, by simp, _, rfl, fun k => by simp⟩
    rw [if_neg hneg, if_neg hneg]
    have hpmax0 : ∀ q : Int, q = (if trunc x2 ≥ m0 then m0 else trunc x2) → 1 ≤ q → (q : K) ≤ x2 := by
      intro q hq h1
      have h2 : q ≤ trunc x2 := by rw [hq]; split_ifs <;> omega
      have h3 := (trunc_pos (x := x2) (by omega)).1
      have h4 : (q : K) ≤ trunc x2 := by exact_mod_cast h2
      linarith
    have hx2lt : trunc x2 < m0 → x2 ≤ ((if trunc x2 ≥ m0 then m0 else trunc x2 : Int) : K) + 1 := by
      intro h
      rw [if_neg (by omega)]
      exact l2.le
    generalize hpm : (if trunc x2 ≥ m0 then m0 else trunc x2) = pmax at *
    have hpm' : (trunc x2 ≥ m0 ∧ pmax = m0) ∨ (trunc x2 < m0 ∧ pmax = trunc x2) := by
      rw [← hpm]; split_ifs <;> omega
    clear hpm
    by_cases hL2 : trunc x1 < 0
    · -- clip_left2
      have e1 : ¬ (trunc x1 ≥ m0) := by omega
      have e0 : trunc x0 < 0 := by omega
      simp only [e1, if_false, hL2, e0, if_true, decide_true, decide_false, Bool.true_eq_false,
        leftTri, Bool.not_true, Bool.and_false, Bool.false_eq_true]
      have hp0 : pmax ≠ 0 := by
        have := hU2
        omega
      have x1n := trunc_lt_zero.mp hL2
      obtain ⟨cs, e, hcs, w, ew, htot⟩ := right_spec x0 y0 x1 y1 x2 y2 amp h01 h02 h12 good 0 pmax
        true (decide (trunc x2 ≥ m0)) none (by omega) (fun _ => by push_cast; linarith)
        (fun h => hpmax0 pmax rfl (by omega)) (fun _ => by push_cast; linarith)
        (by rintro (h | h) _
            · exact absurd h (by simp)
            · exact absurd h.symm hp0)
        (by intro g _
            rcases hg g with h | ⟨_, h⟩ | ⟨_, _, h⟩
            · exfalso; linarith
            · exfalso; linarith
            · exact h)
        (by intro _ h; exact absurd h (by simp))
        (fun _ _ => hp0.symm)
        (by intro _ h
            exact hx2lt (by simpa using h))
      refine ⟨cs, e, hcs, ?_⟩
      rw [ew]
      simp only
      refine ⟨_, rfl, ?_⟩
      intro k
      rw [htot, at_append, at_cons, at_nil]
      split_ifs <;> ring
    · have hclip : ¬ ((if trunc x1 ≥ m0 then m0 else trunc x1) < 0) := by split_ifs <;> omega
      simp only [hclip, decide_false, if_false, if_true]
      have hmidx : ∀ q : Int, q = (if trunc x1 ≥ m0 then m0 else trunc x1) → 1 ≤ q → (q : K) ≤ x1 := by
        intro q hq h1
        have h2 : q ≤ trunc x1 := by rw [hq]; split_ifs <;> omega
        have h3 := (trunc_pos (x := x1) (by omega)).1
        have h4 : (q : K) ≤ trunc x1 := by exact_mod_cast h2
        linarith
      have hx1lt : trunc x1 < m0 → (if trunc x1 ≥ m0 then m0 else trunc x1) = trunc x1 := by
        intro h
        rw [if_neg (by omega)]
      generalize hpmi : (if trunc x1 ≥ m0 then m0 else trunc x1) = pmid at *
      have hpmi' : (trunc x1 ≥ m0 ∧ pmid = m0) ∨ (trunc x1 < m0 ∧ pmid = trunc x1) := by
        rw [← hpmi]; split_ifs <;> omega
      have hpx : (trunc x0 < 0 ∧ (if trunc x0 < 0 then 0 else trunc x0) = 0) ∨
          (0 ≤ trunc x0 ∧ (if trunc x0 < 0 then 0 else trunc x0) = trunc x0) := by
        split_ifs <;> omega
      generalize hpx0 : (if trunc x0 < 0 then 0 else trunc x0) = p at *
      have hplt : x0 < p + 1 := by
        rcases hpx with ⟨a, b⟩ | ⟨a, b⟩
        · rw [b]
          have := trunc_lt_zero.mp a
          push_cast
          linarith
        · rw [b]; exact l0
      obtain ⟨cs1, mid, e1, hcs1, hmid, w1, ew1, htot1⟩ := left_spec x0 y0 x1 y1 x2 y2 amp h01 h02
        h12 good p pmid (decide (trunc x0 < 0)) (decide (trunc x1 ≥ m0)) (by omega) hplt
        (fun h => hmidx pmid rfl (by omega))
        (by intro h
            have h' : trunc x0 < 0 := by simpa using h
            rw [show p = 0 by omega]
            have := trunc_lt_zero.mp h'
            push_cast
            linarith)
        (by intro g h
            have h' : 0 ≤ trunc x0 := by simpa using h
            have hxx : ¬ x0 ≤ -1 := fun h'' => absurd (trunc_lt_zero.mpr h'') (by omega)
            rcases hg g with hz | ⟨hz, _⟩ | ⟨hz, _⟩
            · rw [show p = trunc x0 by omega]; exact (trunc_nonneg hz).2.1
            · exact absurd hz hxx
            · exfalso; apply hxx; linarith)
        (by intro _ h
            rw [show pmid = trunc x1 by simp at h; omega]
            exact l1.le)
      obtain ⟨cs2, e2, hcs2, w2, ew2, htot2⟩ := right_spec x0 y0 x1 y1 x2 y2 amp h01 h02 h12 good
        pmid pmax false (decide (trunc x2 ≥ m0)) mid (by omega)
        (by intro h
            rw [show pmid = trunc x1 by omega]
            exact l1)
        (fun h => hpmax0 pmax rfl (by omega)) (by intro h; exact absurd h (by simp))
        (by intro _ h
            have hx1 : trunc x1 < m0 := by
              rcases h with h | h
              · omega
              · simp at h; omega
            rw [hmid (by simpa using hx1), if_neg]
            simp only [decide_eq_true_eq]
            omega)
        (by intro _ h; exact absurd h (by simp))
        (by intro g _
            rcases hpmi' with ⟨_, b⟩ | ⟨a, b⟩
            · by_cases hz : 1 ≤ pmid
              · exact hmidx pmid rfl hz
              · omega
            · rw [b]
              rcases hg g with hz | ⟨_, hz⟩ | ⟨hz, _⟩
              · exact (trunc_nonneg (hz.trans h01)).2.1
              · exact (trunc_nonneg (le_trans zero_le_one hz)).2.1
              · exact absurd (trunc_lt_zero.mpr hz) (by omega))
        (by intro _ h; exact absurd h (by simp))
        (by intro _ h
            exact hx2lt (by simpa using h))
      rw [e1, ew1]
      simp only
      rw [e2, ew2]
      refine ⟨_, rfl, ?_, _, rfl, ?_⟩
      · intro c hc
        rw [List.mem_append] at hc
        exact hc.elim (hcs1 c) (hcs2 c)
      · intro k
        rw [rowTotal_append, at_append, htot1, htot2]

theorem inTri_swap01 {P0 P1 P2 P : K × K} (h : Spec.InTri P0 P1 P2 P) : Spec.InTri P1 P0 P2 P := by
  obtain ⟨a, b, c, h1, h2, h3, h4, h5, h6⟩ := h
  exact ⟨b, a, c, h2, h1, h3, by rw [← h4]; ring, by rw [h5]; ring, by rw [h6]; ring⟩

theorem inTri_swap12 {P0 P1 P2 P : K × K} (h : Spec.InTri P0 P1 P2 P) : Spec.InTri P0 P2 P1 P := by
  obtain ⟨a, b, c, h1, h2, h3, h4, h5, h6⟩ := h
  exact ⟨a, c, b, h1, h3, h2, by rw [← h4]; ring, by rw [h5]; ring, by rw [h6]; ring⟩

theorem area2_swap01 (P0 P1 P2 : K × K) : Spec.area2 P0 P1 P2 = Spec.area2 P1 P0 P2 := by
  unfold Spec.area2
  rw [← abs_neg]
  congr 1
  ring

theorem area2_swap12 (P0 P1 P2 : K × K) : Spec.area2 P0 P1 P2 = Spec.area2 P0 P2 P1 := by
  unfold Spec.area2
  rw [← abs_neg]
  congr 1
  ring

theorem part_swap01 {P0 P1 P2 : K × K} {amp : K} {good : Prop} {c : Call K}
    (h : Part P0 P1 P2 amp good c) : Part P1 P0 P2 amp good c := by
  obtain ⟨u, v, w, h1, h2, h3, h4⟩ := h
  refine ⟨u, v, w, inTri_swap01 h1, inTri_swap01 h2, inTri_swap01 h3, fun g => ?_⟩
  rw [← area2_swap01 P0 P1 P2]
  exact h4 g

theorem part_swap12 {P0 P1 P2 : K × K} {amp : K} {good : Prop} {c : Call K}
    (h : Part P0 P1 P2 amp good c) : Part P0 P2 P1 amp good c := by
  obtain ⟨u, v, w, h1, h2, h3, h4⟩ := h
  refine ⟨u, v, w, inTri_swap12 h1, inTri_swap12 h2, inTri_swap12 h3, fun g => ?_⟩
  rw [← area2_swap12 P0 P1 P2]
  exact h4 g

theorem sortPairs_cases (a b c : K × K) :
    ∃ P0 P1 P2, sortPairs a b c = (P0, P1, P2) ∧
      sort3 a.1 b.1 c.1 = (P0.1, P1.1, P2.1) ∧ P0.1 ≤ P1.1 ∧ P1.1 ≤ P2.1 ∧
      [P0, P1, P2].Perm [a, b, c] ∧
      (∀ amp good k, Part P0 P1 P2 amp good k → Part a b c amp good k) := by
  unfold sortPairs sort3
  by_cases h1 : a.1 > b.1
  · simp only [h1, if_true]
    by_cases h2 : a.1 > c.1
    · simp only [h2, if_true]
      by_cases h3 : b.1 > c.1
      · simp only [h3, if_true]
        refine ⟨_, _, _, rfl, rfl, h3.le, h1.le, ?_, ?_⟩
        · exact ((List.Perm.swap b c [a]).trans ((List.Perm.swap a c []).cons b)).trans
            (List.Perm.swap a b [c])
        · intro amp good k h
          exact part_swap01 (part_swap12 (part_swap01 h))
      · simp only [h3, if_false]
        refine ⟨_, _, _, rfl, rfl, not_lt.mp h3, h2.le, ?_, ?_⟩
        · exact ((List.Perm.swap a c []).cons b).trans (List.Perm.swap a b [c])
        · intro amp good k h
          exact part_swap01 (part_swap12 h)
    · simp only [h2, if_false]
      refine ⟨_, _, _, rfl, rfl, h1.le, not_lt.mp h2, List.Perm.swap a b [c], ?_⟩
      intro amp good k h
      exact part_swap01 h
  · simp only [h1, if_false]
    by_cases h2 : b.1 > c.1
    · simp only [h2, if_true]
      by_cases h3 : a.1 > c.1
      · simp only [h3, if_true]
        refine ⟨_, _, _, rfl, rfl, h3.le, not_lt.mp h1, ?_, ?_⟩
        · exact (List.Perm.swap a c [b]).trans ((List.Perm.swap b c []).cons a)
        · intro amp good k h
          exact part_swap12 (part_swap01 h)
      · simp only [h3, if_false]
        refine ⟨_, _, _, rfl, rfl, not_lt.mp h3, h2.le, (List.Perm.swap b c []).cons a, ?_⟩
        intro amp good k h
        exact part_swap12 h
    · simp only [h2, if_false]
      exact ⟨_, _, _, rfl, rfl, not_lt.mp h1, not_lt.mp h2, List.Perm.refl _, fun _ _ _ h => h⟩

/-- The calls of the whole routine, apart from sharp first frequencies. -/
theorem calls_spec (a b c : K × K) (amp : K) (m0 : Int) (hm0 : 1 ≤ m0)
    (hsharp : ¬ (|a.1 - b.1| < TOL ∧ |a.1 - c.1| < TOL)) :
    ∃ P0 P1 P2, [P0, P1, P2].Perm [a, b, c] ∧ P0.1 ≤ P1.1 ∧ P1.1 ≤ P2.1 ∧
      (Unset P0.1 P1.1 P2.1 → calls2D a b c amp m0 = .error .undefinedBehaviour) ∧
      ∀ good : Prop, (good → 0 ≤ P0.1 ∨ (P0.1 ≤ -1 ∧ 1 ≤ P1.1) ∨ (P1.1 ≤ -1 ∧ 1 ≤ P2.1 ∧
        (P2.2 - P0.2) / (P2.1 - P0.1) ≤ (P2.2 - P1.2) / (P2.1 - P1.1))) →
      ¬ Unset P0.1 P1.1 P2.1 → ∃ cs, calls2D a b c amp m0 = .ok cs ∧
        (∀ k ∈ cs, Part a b c amp good k) ∧
        ∃ w, triangle a.1 b.1 c.1 amp m0 = .ok w ∧ ∀ k, rowTotal k cs = at_ k w := by
  obtain ⟨P0, P1, P2, e2, e1, h01, h12, hperm, hpart⟩ := sortPairs_cases a b c
  refine ⟨P0, P1, P2, hperm, h01, h12, ?_⟩
  have hmem : ∀ P ∈ [P0, P1, P2], P = a ∨ P = b ∨ P = c := by
    intro P hP
    simpa using hperm.mem_iff.mp hP
  have hmem' : ∀ P ∈ [a, b, c], P = P0 ∨ P = P1 ∨ P = P2 := by
    intro P hP
    simpa using hperm.mem_iff.mpr hP
  have hle : ∀ P ∈ [a, b, c], P0.1 ≤ P.1 ∧ P.1 ≤ P2.1 := by
    intro P hP
    rcases hmem' P hP with rfl | rfl | rfl
    · exact ⟨le_refl _, h01.trans h12⟩
    · exact ⟨h01, h12⟩
    · exact ⟨h01.trans h12, le_refl _⟩
  have ra := hle a (by simp)
  have rb := hle b (by simp)
  have rc := hle c (by simp)
  unfold calls2D triangle
  simp only
  rw [if_neg hsharp]
  by_cases hs : trunc a.1 = trunc b.1 ∧ trunc a.1 = trunc c.1
  · have ht : ∀ P ∈ [P0, P1, P2], trunc P.1 = trunc a.1 := by
      intro P hP
      rcases hmem P hP with rfl | rfl | rfl
      · rfl
      · exact hs.1.symm
      · exact hs.2.symm
    have t0 := ht P0 (by simp)
    have t1 := ht P1 (by simp)
    have t2 := ht P2 (by simp)
    rw [if_pos hs]
    refine ⟨?_, ?_⟩
    · intro hU
      exfalso
      rcases hU with ⟨u0, u1, _⟩ | ⟨u0, u1, _⟩
      · have e0 := trunc_lt_zero.mpr u0
        have e1 : trunc P1.1 < 0 := by omega
        exact absurd (trunc_lt_zero.mp e1) (not_le.mpr u1)
      · have e0 := trunc_lt_zero.mpr u0
        have e1 : trunc P2.1 < 0 := by omega
        exact absurd (trunc_lt_zero.mp e1) (not_le.mpr u1)
    · intro good hg _
      rw [if_pos hs]
      by_cases hr : trunc a.1 ≥ m0 ∨ trunc a.1 < 0
      · rw [if_pos hr, if_pos hr]
        exact ⟨_, rfl, by simp, _, rfl, fun k => rfl⟩
      · rw [if_neg hr, if_neg hr]
        refine ⟨_, rfl, ?_, _, rfl, fun k => by rw [rowTotal_cons, rowTotal_nil, at_cons, at_nil]⟩
        intro k hk
        rw [List.mem_singleton] at hk
        subst hk
        refine ⟨a.1, b.1, c.1, ?_, ?_, ?_, ?_⟩
        · exact ⟨1, 0, 0, by simp, le_refl _, le_refl _, by ring, by simp, by simp⟩
        · exact ⟨0, 1, 0, le_refl _, by simp, le_refl _, by ring, by simp, by simp⟩
        · exact ⟨0, 0, 1, le_refl _, le_refl _, by simp, by ring, by simp, by simp⟩
        · intro g
          have hz : 0 ≤ P0.1 := by
            rcases hg g with h | ⟨h, _⟩ | ⟨h, _⟩
            · exact h
            · exact absurd (trunc_lt_zero.mpr h) (by omega)
            · exact absurd (trunc_lt_zero.mpr h) (by omega)
          refine ⟨?_, rfl⟩
          have f1 := (trunc_nonneg hz).2.1
          have f2 := lt_trunc_add_one P2.1
          rw [t0] at f1
          rw [t2] at f2
          intro x hx
          simp only [List.mem_cons, List.not_mem_nil, or_false] at hx
          rcases hx with rfl | rfl | rfl <;> constructor <;> simp only <;> linarith
  · rw [if_neg hs, e2, e1]
    simp only
    have h02 : P0.1 < P2.1 := by
      rcases lt_or_eq_of_le (h01.trans h12) with h | h
      · exact h
      · exfalso
        apply hs
        have e : ∀ P ∈ [a, b, c], P.1 = P0.1 := by
          intro P hP
          have := hle P hP
          exact le_antisymm (by linarith) this.1
        rw [e a (by simp), e b (by simp), e c (by simp)]
        exact ⟨rfl, rfl⟩
    refine ⟨?_, ?_⟩
    · intro hU
      exact (sorted_spec P0.1 P0.2 P1.1 P1.2 P2.1 P2.2 amp m0 hm0 h01 h12 h02 False
        (fun h => h.elim)).1 hU
    · intro good hg hU
      rw [if_neg hs]
      obtain ⟨cs, e, hcs, hw⟩ := (sorted_spec P0.1 P0.2 P1.1 P1.2 P2.1 P2.2 amp m0 hm0 h01 h12 h02
        good hg).2 hU
      exact ⟨cs, e, fun k hk => hpart amp good k (hcs k hk), hw⟩

/-! ### Performing the calls -/

theorem at_map_shift (k r : Int) (w : Writes K) :
    at_ k (w.map fun q => (r + q.1, q.2)) = at_ (k - r) w := by
  induction w with
  | nil => rfl
  | cons q w ih =>
    obtain ⟨i, x⟩ := q
    rw [List.map_cons, at_cons, at_cons, ih]
    congr 1
    by_cases h : i = k - r
    · rw [if_pos h, if_pos (by omega)]
    · rw [if_neg h, if_neg (by omega)]

/-- One-dimensional binning well inside the spectrum: total, and nothing outside. -/
theorem inside_1D (a b c amt : K) (m : Nat)
    (ha : 1/2 ≤ a ∧ a ≤ m - 1/2) (hb : 1/2 ≤ b ∧ b ≤ m - 1/2) (hc : 1/2 ≤ c ∧ c ≤ m - 1/2) :
    ∃ w, triangleOrDelta a b c amt m = .ok w ∧
      ((List.range m).map fun (k : Nat) => at_ k w).sum = amt ∧
      ∀ k : Int, k < 0 ∨ (m : Int) ≤ k → at_ k w = 0 := by
  have hm : 1 ≤ m := by
    by_contra h
    have : m = 0 := by omega
    subst this
    have h1 := ha.1.trans ha.2
    norm_num at h1
  unfold triangleOrDelta
  by_cases hs : |a - b| < TOL ∧ |a - c| < TOL
  · rw [if_pos hs]
    refine ⟨_, rfl, ?_, ?_⟩
    · have h := C37_inside a amt (m : Int) ha.1 (by push_cast; exact ha.2)
      rw [sum_at, h.1]
      intro q hq
      have h4 := h.2.2.2.1 q.1 q.2 hq
      rw [abs_lt] at h4
      constructor
      · by_contra hcon
        have : (q.1 : K) ≤ -1 := by exact_mod_cast (by omega : q.1 ≤ -1)
        linarith
      · by_contra hcon
        have : (m : K) ≤ (q.1 : K) := by exact_mod_cast (by omega : (m : Int) ≤ q.1)
        linarith [ha.2]
    · intro k hk
      have h := C37_inside a amt (m : Int) ha.1 (by push_cast; exact ha.2)
      apply at_zero_of_not_mem
      intro q hq hqk
      exfalso
      have h4 := h.2.2.2.1 q.1 q.2 hq
      rw [abs_lt] at h4
      rw [hqk] at h4
      rcases hk with hk | hk
      · have : (k : K) ≤ -1 := by exact_mod_cast (by omega : k ≤ -1)
        linarith
      · have : (m : K) ≤ (k : K) := by exact_mod_cast hk
        linarith [ha.2]
  · rw [if_neg hs]
    have tr : ∀ x : K, 1/2 ≤ x ∧ x ≤ m - 1/2 → 0 ≤ x ∧ x < m := by
      intro x hx
      constructor <;> linarith [hx.1, hx.2]
    obtain ⟨w, e, h⟩ := C35_total a b c amt m (fun _ => 0) (tr a ha) (tr b hb) (tr c hc)
    refine ⟨w, e, ?_, ?_⟩
    · simpa [applyWrites_eq] using h
    · intro k hk
      obtain ⟨w', e', _, h'⟩ := C35_nonneg a b c amt (m : Int) (by omega) (fun _ => (0 : K))
      rw [e] at e'
      cases e'
      have := h' k hk
      rw [applyWrites_eq] at this
      simpa using this

theorem perform_rows (m1 : Nat) (cs : List (Call K))
    (h : ∀ c ∈ cs, ∀ y ∈ [c.a, c.b, c.c], 1/2 ≤ y ∧ y ≤ (m1 : K) - 1/2) :
    ∃ w, perform (m1 : Int) cs = .ok w ∧ ∀ k, Spec.rowSum m1 k w = rowTotal k cs := by
  induction cs with
  | nil => exact ⟨[], rfl, fun k => by simp [Spec.rowSum]⟩
  | cons c l ih =>
    obtain ⟨w2, e2, h2⟩ := ih (fun c' hc' => h c' (List.mem_cons_of_mem _ hc'))
    have hc := h c (List.mem_cons_self ..)
    obtain ⟨w1, e1, s1, z1⟩ := inside_1D c.a c.b c.c c.amt m1 (hc _ (by simp)) (hc _ (by simp))
      (hc _ (by simp))
    refine ⟨w1.map (fun q => (c.row * m1 + q.1, q.2)) ++ w2, by rw [perform, e1]; simp only [e2], ?_⟩
    intro k
    have : Spec.rowSum m1 k (w1.map (fun q => (c.row * (m1 : Int) + q.1, q.2)) ++ w2) =
        ((List.range m1).map fun (q : Nat) => at_ ((k - c.row) * m1 + q) w1).sum +
          Spec.rowSum m1 k w2 := by
      unfold Spec.rowSum
      rw [← List.sum_map_add]
      congr 1
      apply List.map_congr_left
      intro q _
      rw [at_append, at_map_shift]
      congr 2
      ring
    rw [this, h2, rowTotal_cons]
    congr 1
    by_cases hk : c.row = k
    · rw [if_pos hk, hk, sub_self, zero_mul]
      simpa using s1
    · rw [if_neg hk]
      apply List.sum_eq_zero
      intro x hx
      obtain ⟨q, hq, rfl⟩ := List.mem_map.mp hx
      rw [List.mem_range] at hq
      apply z1
      rcases lt_or_gt_of_ne hk with h' | h'
      · right
        have : 1 ≤ k - c.row := by omega
        nlinarith
      · left
        have : k - c.row ≤ -1 := by omega
        nlinarith

theorem inTri_range {P0 P1 P2 P : K × K} (h : Spec.InTri P0 P1 P2 P) (lo hi : K)
    (h0 : lo ≤ P0.2 ∧ P0.2 ≤ hi) (h1 : lo ≤ P1.2 ∧ P1.2 ≤ hi) (h2 : lo ≤ P2.2 ∧ P2.2 ≤ hi) :
    lo ≤ P.2 ∧ P.2 ≤ hi := by
  obtain ⟨a, b, c, ha, hb, hc, hs, _, he⟩ := h
  rw [he]
  have e : ∀ z : K, z = a * z + b * z + c * z := by
    intro z
    rw [← add_mul, ← add_mul, hs, one_mul]
  constructor
  · rw [e lo]
    exact add_le_add (add_le_add (mul_le_mul_of_nonneg_left h0.1 ha)
      (mul_le_mul_of_nonneg_left h1.1 hb)) (mul_le_mul_of_nonneg_left h2.1 hc)
  · rw [e hi]
    exact add_le_add (add_le_add (mul_le_mul_of_nonneg_left h0.2 ha)
      (mul_le_mul_of_nonneg_left h1.2 hb)) (mul_le_mul_of_nonneg_left h2.2 hc)

/-! ## C58 -/

/-- **C58, sum over the second dimension, partial.** If all second frequencies lie at least half a
bin inside the window, the sum of each row is what one-dimensional binning of the first frequencies
adds to that bin. The first frequencies may lie anywhere, except that those to the left of the
window (-1 or less) must not be mixed with ones in the first bin or its mirror (`C68`).

Missing for the full property: sharp lines within half a bin of the edges of the second dimension
(`C58_counterexample`). -/
theorem C58_rows_partial (a b c : K × K) (amp : K) (m0 m1 : Nat) (hm0 : 1 ≤ m0)
    (h2 : ∀ P ∈ [a, b, c], 1/2 ≤ P.2 ∧ P.2 ≤ (m1 : K) - 1/2)
    (h1 : (∀ P ∈ [a, b, c], -1 < P.1) ∨ ∀ P ∈ [a, b, c], P.1 ≤ -1 ∨ 1 ≤ P.1) :
    ∃ w w1, triangle2D a b c amp m0 m1 = .ok w ∧
      triangleOrDelta a.1 b.1 c.1 amp m0 = .ok w1 ∧
      ∀ k, Spec.rowSum m1 k w = at_ k w1 := by
  have ha := h2 a (by simp)
  have hb := h2 b (by simp)
  have hc := h2 c (by simp)
  suffices H : ∃ cs w1, calls2D a b c amp m0 = .ok cs ∧
      triangleOrDelta a.1 b.1 c.1 amp m0 = .ok w1 ∧ (∀ k, rowTotal k cs = at_ k w1) ∧
      ∀ k ∈ cs, ∀ y ∈ [k.a, k.b, k.c], 1/2 ≤ y ∧ y ≤ (m1 : K) - 1/2 by
    obtain ⟨cs, w1, e, e1, ht, hin⟩ := H
    obtain ⟨w, ew, hw⟩ := perform_rows m1 cs hin
    exact ⟨w, w1, by unfold triangle2D; rw [e]; exact ew, e1, fun k => by rw [hw, ht]⟩
  by_cases hs : |a.1 - b.1| < TOL ∧ |a.1 - c.1| < TOL
  · have hcall : ∀ (r : Int) (x : K), ∀ y ∈ [(⟨r, a.2, b.2, c.2, x⟩ : Call K).a,
        (⟨r, a.2, b.2, c.2, x⟩ : Call K).b, (⟨r, a.2, b.2, c.2, x⟩ : Call K).c],
        1/2 ≤ y ∧ y ≤ (m1 : K) - 1/2 := by
      intro r x y hy
      simp only [List.mem_cons, List.not_mem_nil, or_false] at hy
      rcases hy with rfl | rfl | rfl
      · exact ha
      · exact hb
      · exact hc
    unfold calls2D triangleOrDelta deltaFn
    simp only
    rw [if_pos hs, if_pos hs]
    by_cases hr : trunc a.1 ≥ (m0 : Int) ∨ trunc a.1 < 0
    · rw [if_pos hr, if_pos hr]
      exact ⟨_, _, rfl, rfl, fun k => rfl, by simp⟩
    rw [if_neg hr, if_neg hr]
    by_cases hT : |a.1 - (trunc a.1 : K) - 1/2| < TOL
    · rw [if_pos hT, if_pos hT]
      refine ⟨_, _, rfl, rfl, fun k => by rw [rowTotal_cons, rowTotal_nil, at_cons, at_nil], ?_⟩
      intro k hk
      rw [List.mem_singleton] at hk
      subst hk
      exact hcall _ _
    rw [if_neg hT, if_neg hT]
    by_cases hd : a.1 - (trunc a.1 : K) < 1/2
    · rw [if_pos hd, if_pos hd]
      refine ⟨_, _, rfl, rfl, ?_, ?_⟩
      · intro k
        by_cases hz : trunc a.1 ≠ 0
        · simp only [if_pos hz, rowTotal_append, rowTotal_cons, rowTotal_nil, at_append, at_cons,
            at_nil]
        · simp only [if_neg hz, rowTotal_append, rowTotal_cons, rowTotal_nil, at_append, at_cons,
            at_nil]
      · intro k hk
        rw [List.mem_append, List.mem_singleton] at hk
        rcases hk with hk | rfl
        · by_cases hz : trunc a.1 ≠ 0
          · rw [if_pos hz, List.mem_singleton] at hk
            subst hk
            exact hcall _ _
          · rw [if_neg hz] at hk
            simp at hk
        · exact hcall _ _
    rw [if_neg hd, if_neg hd]
    by_cases hd2 : a.1 - (trunc a.1 : K) > 1/2
    · rw [if_pos hd2, if_pos hd2]
      refine ⟨_, _, rfl, rfl, ?_, ?_⟩
      · intro k
        by_cases hz : trunc a.1 + 1 ≠ (m0 : Int)
        · simp only [if_pos hz, rowTotal_append, rowTotal_cons, rowTotal_nil, at_append, at_cons,
            at_nil]
        · simp only [if_neg hz, rowTotal_append, rowTotal_cons, rowTotal_nil, at_append, at_cons,
            at_nil]
      · intro k hk
        rw [List.mem_append, List.mem_singleton] at hk
        rcases hk with hk | rfl
        · by_cases hz : trunc a.1 + 1 ≠ (m0 : Int)
          · rw [if_pos hz, List.mem_singleton] at hk
            subst hk
            exact hcall _ _
          · rw [if_neg hz] at hk
            simp at hk
        · exact hcall _ _
    · rw [if_neg hd2, if_neg hd2]
      exact ⟨_, _, rfl, rfl, fun k => rfl, by simp⟩
  · obtain ⟨P0, P1, P2, hperm, h01, h12, _, hall⟩ := calls_spec a b c amp m0 (by exact_mod_cast hm0) hs
    have hU : ¬ Unset P0.1 P1.1 P2.1 := by
      have hm : ∀ P ∈ [P0, P1, P2], P ∈ [a, b, c] := fun P hP => hperm.mem_iff.mp hP
      rcases h1 with h1 | h1
      · have q0 := h1 P0 (hm _ (by simp))
        have q1 := h1 P1 (hm _ (by simp))
        rintro (⟨u, _⟩ | ⟨u, _⟩) <;> linarith
      · have q1 := h1 P1 (hm _ (by simp))
        have q2 := h1 P2 (hm _ (by simp))
        rintro (⟨_, u, v⟩ | ⟨_, u, v⟩)
        · rcases q1 with q | q <;> linarith
        · rcases q2 with q | q <;> linarith
    obtain ⟨cs, e, hcs, w, ew, ht⟩ := hall False (fun h => h.elim) hU
    refine ⟨cs, w, e, by unfold triangleOrDelta; rw [if_neg hs]; exact ew, ht, ?_⟩
    intro k hk y hy
    obtain ⟨u, v, z, i1, i2, i3, _⟩ := hcs k hk
    simp only [List.mem_cons, List.not_mem_nil, or_false] at hy
    rcases hy with rfl | rfl | rfl
    · exact inTri_range i1 _ _ ha hb hc
    · exact inTri_range i2 _ _ ha hb hc
    · exact inTri_range i3 _ _ ha hb hc

/-- **C58, total, partial.** If all frequencies lie at least half a bin inside the window, binning
adds exactly the amplitude in total.

Missing for the full property: sharp lines within half a bin of an edge. -/
theorem C58_total_partial (a b c : K × K) (amp : K) (m0 m1 : Nat)
    (h1 : ∀ P ∈ [a, b, c], 1/2 ≤ P.1 ∧ P.1 ≤ (m0 : K) - 1/2)
    (h2 : ∀ P ∈ [a, b, c], 1/2 ≤ P.2 ∧ P.2 ≤ (m1 : K) - 1/2) :
    ∃ w, triangle2D a b c amp m0 m1 = .ok w ∧
      ((List.range m0).map fun (k : Nat) => Spec.rowSum m1 k w).sum = amp := by
  have ha := h1 a (by simp)
  have hb := h1 b (by simp)
  have hc := h1 c (by simp)
  have hm : 1 ≤ m0 := by
    by_contra h
    have : m0 = 0 := by omega
    subst this
    have h1 := ha.1.trans ha.2
    norm_num at h1
  obtain ⟨w, w1, e, e1, hr⟩ := C58_rows_partial a b c amp m0 m1 hm h2
    (Or.inl fun P hP => by have := (h1 P hP).1; linarith)
  obtain ⟨w', e', ht, _⟩ := inside_1D a.1 b.1 c.1 amp m0 ha hb hc
  rw [e1] at e'
  cases e'
  exact ⟨w, e, by simp only [hr]; exact ht⟩

/-- Hypotheses met by a triangle over four rows and several columns. -/
example : ∃ w, triangle2D ((3/4, 5/2) : ℚ × ℚ) (3, 1) (13/4, 4) 6 (4 : Nat) (5 : Nat) = .ok w ∧
    ((List.range 4).map fun (k : Nat) => Spec.rowSum 5 k w).sum = 6 := by
  apply C58_total_partial <;> intro P hP <;>
    simp only [List.mem_cons, List.not_mem_nil, or_false] at hP <;>
    rcases hP with rfl | rfl | rfl <;> norm_num

/-- **C58, disagreement.** A sharp line in a corner of the window, a quarter of a bin from both
edges, deposits nine sixteenths of the amplitude. -/
theorem C58_counterexample :
    (triangle2D ((1/4, 1/4) : ℚ × ℚ) (1/4, 1/4) (1/4, 1/4) 16 4 4).map
      (fun w => (List.range 16).map fun (i : Nat) => at_ i w) =
    .ok [9, 0, 0, 0, 0, 0, 0, 0, 0, 0, 0, 0, 0, 0, 0, 0] := by decide +kernel

/-! ## C67 -/

/-- **C67, partial.** For a triangle with no first frequency below zero and not sharp in the first
dimension, each call of the one-dimensional routine stands for a part of the triangle within the row
it writes to, with its share of the amplitude by area; the parts exhaust the triangle, in each row
(together with `C58_rows_partial`). Triangles to the left of the window are included if none of
their first frequencies lies strictly between -1 and 1 and no more than one is negative.

Missing for the full property: two vertices to the left of the window
(`C67_counterexample`), a negative first frequency in the bin counted as bin 0, and sharp first
frequencies, which are split between two rows instead. -/
theorem C67_pieces_partial (a b c : K × K) (amp : K) (m0 : Int) (hm0 : 1 ≤ m0)
    (hsharp : ¬ (|a.1 - b.1| < TOL ∧ |a.1 - c.1| < TOL))
    (h1 : (0 ≤ a.1 ∧ 0 ≤ b.1 ∧ 0 ≤ c.1) ∨
      ∃ x y z, [x, y, z].Perm [a.1, b.1, c.1] ∧ x ≤ -1 ∧ 1 ≤ y ∧ 1 ≤ z) :
    ∃ cs, calls2D a b c amp m0 = .ok cs ∧ (∀ k ∈ cs, Spec.Piece a b c amp k) ∧
      ∃ w, triangle a.1 b.1 c.1 amp m0 = .ok w ∧
        ∀ k, ((cs.filter fun c => c.row = k).map (·.amt)).sum = at_ k w := by
  obtain ⟨P0, P1, P2, hperm, h01, h12, _, hall⟩ := calls_spec a b c amp m0 hm0 hsharp
  have hgood : 0 ≤ P0.1 ∨ (P0.1 ≤ -1 ∧ 1 ≤ P1.1) := by
    rcases h1 with ⟨ha, hb, hc⟩ | ⟨x, y, z, hp, hx, hy, hz⟩
    · left
      have hm : P0 ∈ [a, b, c] := hperm.mem_iff.mp (by simp)
      simp only [List.mem_cons, List.not_mem_nil, or_false] at hm
      rcases hm with rfl | rfl | rfl <;> assumption
    · right
      have hp' : [P0.1, P1.1, P2.1].Perm [x, y, z] := (hperm.map Prod.fst).trans hp.symm
      -- sorted versions agree
      have e1 := sort3_spec P0.1 P1.1 P2.1 P0.1 P1.1 P2.1 (List.Perm.refl _) h01 h12
      rcases le_total y z with hyz | hyz
      · have e2 := sort3_spec P0.1 P1.1 P2.1 x y z hp' (by linarith) hyz
        rw [e1] at e2
        simp only [Prod.mk.injEq] at e2
        rw [e2.1, e2.2.1]
        exact ⟨hx, hy⟩
      · have e2 := sort3_spec P0.1 P1.1 P2.1 x z y (hp'.trans ((List.Perm.swap z y []).cons x))
          (by linarith) hyz
        rw [e1] at e2
        simp only [Prod.mk.injEq] at e2
        rw [e2.1, e2.2.1]
        exact ⟨hx, hz⟩
  have hU : ¬ Unset P0.1 P1.1 P2.1 := by
    rcases hgood with h | ⟨_, h⟩
    · rintro (⟨u, _⟩ | ⟨u, _⟩) <;> linarith
    · rintro (⟨_, _, u⟩ | ⟨u, _⟩) <;> linarith
  obtain ⟨cs, e, hcs, w, ew, ht⟩ := hall True
    (fun _ => hgood.elim Or.inl (fun h => Or.inr (Or.inl h))) hU
  refine ⟨cs, e, ?_, w, ew, ht⟩
  intro k hk
  obtain ⟨u, v, z, i1, i2, i3, i4⟩ := hcs k hk
  exact ⟨u, v, z, i1, i2, i3, (i4 trivial).1, (i4 trivial).2⟩

/-- Hypotheses met by a triangle reaching out of the window on both sides. -/
example : ∃ cs, calls2D ((7, 5/2) : ℚ × ℚ) (-2, 1) (13/4, 4) 6 4 = .ok cs ∧
    (∀ k ∈ cs, Spec.Piece ((7, 5/2) : ℚ × ℚ) (-2, 1) (13/4, 4) 6 k) := by
  obtain ⟨cs, e, h, _⟩ := C67_pieces_partial ((7, 5/2) : ℚ × ℚ) (-2, 1) (13/4, 4) 6 4 (by norm_num)
    (by unfold TOL; norm_num) (Or.inr ⟨-2, 7, 13/4, List.Perm.swap _ _ _, by norm_num, by norm_num,
      by norm_num⟩)
  exact ⟨cs, e, h⟩

/-- **C67, disagreement.** A triangle with two vertices to the left of the window and its mirror
image (second frequencies `y` and `8 - y`) are not binned to mirror images: row 1 receives other
shares. -/
theorem C67_counterexample :
    (triangle2D ((-3, 1) : ℚ × ℚ) (-2, 2) (7/2, 5) 1 5 8).map
      (fun w => (List.range 8).map fun (q : Nat) => at_ (8 + q) w) =
        .ok [0, 0, 0, 13219 / 162162, 4925 / 162162, 0, 0, 0] ∧
    (triangle2D ((-3, 7) : ℚ × ℚ) (-2, 6) (7/2, 3) 1 5 8).map
      (fun w => (List.range 8).map fun (q : Nat) => at_ (8 + (7 - q)) w) =
        .ok [0, 0, 0, 157 / 1716, 35 / 1716, 0, 0, 0] := by decide +kernel

/-! ## C68 -/

/-- **C68, where the code disagrees.** Exactly when is an unset variable read: the triangle is not
sharp in the first dimension, and in increasing order of the first frequencies either the first is
-1 or less and the second strictly between -1 and 1, or the second is -1 or less and the third
strictly between -1 and 1. In every other case the routine performs a list of calls. -/
theorem C68_unset (a b c : K × K) (amp : K) (m0 : Int) (hm0 : 1 ≤ m0) (x0 x1 x2 : K)
    (hp : [a.1, b.1, c.1].Perm [x0, x1, x2]) (h01 : x0 ≤ x1) (h12 : x1 ≤ x2) :
    (calls2D a b c amp m0 = .error .undefinedBehaviour ↔
      ¬ (|a.1 - b.1| < 1/1000000 ∧ |a.1 - c.1| < 1/1000000) ∧
      ((x0 ≤ -1 ∧ -1 < x1 ∧ x1 < 1) ∨ (x1 ≤ -1 ∧ -1 < x2 ∧ x2 < 1))) ∧
    (calls2D a b c amp m0 ≠ .error .undefinedBehaviour → ∃ cs, calls2D a b c amp m0 = .ok cs) := by
  have hT : (|a.1 - b.1| < 1/1000000 ∧ |a.1 - c.1| < 1/1000000) ↔
      (|a.1 - b.1| < TOL ∧ |a.1 - c.1| < TOL) := Iff.rfl
  rw [hT]
  by_cases hs : |a.1 - b.1| < TOL ∧ |a.1 - c.1| < TOL
  · have : ∃ cs, calls2D a b c amp m0 = .ok cs := by
      unfold calls2D
      simp only
      rw [if_pos hs]
      split_ifs <;> exact ⟨_, rfl⟩
    obtain ⟨cs, e⟩ := this
    rw [e]
    exact ⟨⟨fun h => by simp at h, fun h => absurd hs h.1⟩, fun _ => ⟨cs, rfl⟩⟩
  · obtain ⟨P0, P1, P2, hperm, g01, g12, hbad, hall⟩ := calls_spec a b c amp m0 hm0 hs
    have e1 := sort3_spec P0.1 P1.1 P2.1 P0.1 P1.1 P2.1 (List.Perm.refl _) g01 g12
    have e2 := sort3_spec P0.1 P1.1 P2.1 x0 x1 x2 ((hperm.map Prod.fst).trans hp) h01 h12
    rw [e1] at e2
    simp only [Prod.mk.injEq] at e2
    obtain ⟨q0, q1, q2⟩ := e2
    by_cases hU : Unset P0.1 P1.1 P2.1
    · have e := hbad hU
      rw [e]
      unfold Unset at hU
      rw [q0, q1, q2] at hU
      exact ⟨⟨fun _ => ⟨hs, hU⟩, fun _ => rfl⟩, fun h => absurd rfl h⟩
    · obtain ⟨cs, e, _⟩ := hall False (fun h => h.elim) hU
      rw [e]
      unfold Unset at hU
      rw [q0, q1, q2] at hU
      exact ⟨⟨fun h => by simp at h, fun h => absurd h.2 hU⟩, fun _ => ⟨cs, rfl⟩⟩

/-- A triangle across the left edge of the window. -/
theorem C68_counterexample : calls2D ((-3/2, 1) : ℚ × ℚ) (1/2, 2) (5/2, 3) 1 4 =
    .error .undefinedBehaviour := by decide +kernel

end MRS.Bin
