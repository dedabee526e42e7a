import Verif.Bin.Average

/-!
# Mirror images of an octant

Lemmas for C78: what is binned for an octant does not change when the octant is reflected in the plane `x = y`, and it
is proportional to the amplitudes.
-/

namespace MRS.Bin

set_option linter.unusedSectionVars false

variable {K : Type} [Field K] [LinearOrder K] [IsStrictOrderedRing K] [FloorRing K]

/-! ## Scaling -/

/-- All additions multiplied by `t`. -/
def scaleW (t : K) (w : Writes K) : Writes K := w.map fun q => (q.1, t * q.2)

theorem at_scaleW (k : Int) (t : K) (w : Writes K) : at_ k (scaleW t w) = t * at_ k w := by
  induction w with
  | nil => simp [scaleW]
  | cons q w ih =>
    obtain ⟨i, x⟩ := q
    have : scaleW t ((i, x) :: w) = (i, t * x) :: scaleW t w := rfl
    rw [this, at_cons, at_cons, ih, mul_add]
    split_ifs <;> simp

theorem upLoop_scale (t df1 : K) (n : Nat) (p : Int) (d : K) :
    upLoop (t * df1) n p (t * d) = scaleW t (upLoop df1 n p d) := by
  induction n generalizing p d with
  | zero => rfl
  | succ n ih =>
    rw [upLoop, upLoop, ← mul_add, ih]
    rfl

theorem downLoop_scale (t df1 : K) (n : Nat) (p : Int) (d : K) :
    downLoop (t * df1) n p (t * d) = scaleW t (downLoop df1 n p d) := by
  induction n generalizing p d with
  | zero => rfl
  | succ n ih =>
    rw [downLoop, downLoop, ← mul_sub, ih]
    rfl

theorem cons_loop_scale (t : K) (p : Int) (x x' : K) (l l' r r' : Writes K) (hx : x' = t * x) (hl : l' = scaleW t l)
    (hr : r' = scaleW t r) : (p, x') :: l' ++ r' = scaleW t ((p, x) :: l ++ r) := by
  subst hx hl hr
  simp [scaleW]

theorem one_scale (t : K) (p : Int) (x x' : K) (hx : x' = t * x) : [(p, x')] = scaleW t [(p, x)] := by
  subst hx
  rfl

theorem leftTri_scale (t : K) (p pmid : Int) (lc rc : Bool) (top f0 f1 : K) :
    leftTri p pmid lc rc (t * top) f0 f1 = (leftTri p pmid lc rc top f0 f1).map (scaleW t) := by
  have hu : upLoop (t * top / (f1 - f0)) (pmid - (p + 1)).toNat (p + 1) (((p : K) + 1 - f0 - 1 / 2) * (t * top / (f1 - f0)))
      = scaleW t (upLoop (top / (f1 - f0)) (pmid - (p + 1)).toNat (p + 1)
        (((p : K) + 1 - f0 - 1 / 2) * (top / (f1 - f0)))) := by
    rw [show ((p : K) + 1 - f0 - 1 / 2) * (t * top / (f1 - f0)) = t * (((p : K) + 1 - f0 - 1 / 2) * (top / (f1 - f0)))
      by ring, mul_div_assoc, upLoop_scale]
  unfold leftTri
  dsimp only
  by_cases h : p = pmid
  · rw [if_pos h, if_pos h]
    exact congrArg Except.ok (one_scale t p _ _ (by split_ifs <;> ring))
  · rw [if_neg h, if_neg h]
    by_cases h' : pmid < p + 1
    · rw [if_pos h', if_pos h']
      rfl
    · rw [if_neg h', if_neg h']
      exact congrArg Except.ok (cons_loop_scale t p _ _ _ _ _ _ (by split_ifs <;> ring) hu
        (one_scale t pmid _ _ (by split_ifs <;> ring)))

theorem rightTri_scale (t : K) (p pmax : Int) (lc rc : Bool) (top f1 f2 : K) :
    rightTri p pmax lc rc (t * top) f1 f2 = (rightTri p pmax lc rc top f1 f2).map (scaleW t) := by
  have hu : downLoop (t * top / (f2 - f1)) (pmax - (p + 1)).toNat (p + 1) ((f2 - (p : K) - 1 + 1 / 2) * (t * top / (f2 - f1)))
      = scaleW t (downLoop (top / (f2 - f1)) (pmax - (p + 1)).toNat (p + 1)
        ((f2 - (p : K) - 1 + 1 / 2) * (top / (f2 - f1)))) := by
    rw [show (f2 - (p : K) - 1 + 1 / 2) * (t * top / (f2 - f1)) = t * ((f2 - (p : K) - 1 + 1 / 2) * (top / (f2 - f1)))
      by ring, mul_div_assoc, downLoop_scale]
  unfold rightTri
  dsimp only
  by_cases h : p = pmax
  · rw [if_pos h, if_pos h]
    exact congrArg Except.ok (one_scale t p _ _ (by split_ifs <;> ring))
  · rw [if_neg h, if_neg h]
    by_cases h' : pmax < p + 1
    · rw [if_pos h', if_pos h']
      rfl
    · rw [if_neg h', if_neg h']
      refine congrArg Except.ok (cons_loop_scale t p _ _ _ _ _ _ (by split_ifs <;> ring) hu ?_)
      split_ifs
      · exact one_scale t pmax _ _ (by ring)
      · rfl

theorem triangle_scale (t a b c x : K) (m : Int) :
    triangle a b c (t * x) m = (triangle a b c x m).map (scaleW t) := by
  unfold triangle
  simp only
  split_ifs
  · rfl
  · rfl
  · unfold triangleSorted
    simp only
    split_ifs <;> try rfl
    all_goals
      rw [show t * x * 2 / ((sort3 a b c).2.2 - (sort3 a b c).1) = t * (x * 2 / ((sort3 a b c).2.2 - (sort3 a b c).1)) by
        ring, leftTri_scale, rightTri_scale]
      generalize leftTri (K := K) _ _ _ _ _ _ _ = l
      generalize rightTri (K := K) _ _ _ _ _ _ _ = r
      cases l with
      | error e => rfl
      | ok l =>
        cases r with
        | error e => rfl
        | ok r => simp [Except.map, scaleW]

theorem deltaFn_scale (f : K) (m : Int) (t x : K) : deltaFn f m (t * x) = scaleW t (deltaFn f m x) := by
  unfold deltaFn
  simp only
  split_ifs <;> simp [scaleW] <;> ring_nf <;> try trivial

/-! ## Order of the vertices -/

theorem sort3_perm {a b c a' b' c' : K} (h : [a', b', c'].Perm [a, b, c]) : sort3 a' b' c' = sort3 a b c := by
  obtain ⟨f0, f1, f2, hp, h01, h12⟩ := exists_sorted a b c
  rw [sort3_spec a b c f0 f1 f2 hp h01 h12, sort3_spec a' b' c' f0 f1 f2 (h.trans hp) h01 h12]

theorem triangle_swap12 (a b c x : K) (m : Int) : triangle b a c x m = triangle a b c x m := by
  unfold triangle
  simp only
  rw [sort3_perm (List.Perm.swap a b [c])]
  by_cases h : trunc a = trunc b ∧ trunc a = trunc c
  · have h' : trunc b = trunc a ∧ trunc b = trunc c := ⟨h.1.symm, h.1.symm.trans h.2⟩
    rw [if_pos h, if_pos h', h.1]
  · have h' : ¬ (trunc b = trunc a ∧ trunc b = trunc c) := fun h' => h ⟨h'.1.symm, h'.1.symm.trans h'.2⟩
    rw [if_neg h, if_neg h']

theorem triangle_swap23 (a b c x : K) (m : Int) : triangle a c b x m = triangle a b c x m := by
  unfold triangle
  simp only
  rw [sort3_perm ((List.Perm.swap b c []).cons a)]
  by_cases h : trunc a = trunc b ∧ trunc a = trunc c
  · rw [if_pos h, if_pos ⟨h.2, h.1⟩]
  · rw [if_neg h, if_neg (fun h' => h ⟨h'.2, h'.1⟩)]

/-! ## Additions of a list of calls -/

/-- What a call adds to bin `k`. -/
def val (k : Int) (r : Py (Writes K)) : K :=
  match r with
  | .ok w => at_ k w
  | .error _ => 0

theorem val_map_scale (k : Int) (t : K) (r : Py (Writes K)) : val k (r.map (scaleW t)) = t * val k r := by
  cases r with
  | error e => simp [val, Except.map]
  | ok w => exact at_scaleW k t w

theorem runCalls_val (l : List (Py (Writes K))) (h : ∀ c ∈ l, ∃ w, c = .ok w) :
    ∃ w, runCalls l = .ok w ∧ ∀ k, at_ k w = (l.map (val k)).sum := by
  induction l with
  | nil => exact ⟨[], rfl, fun k => rfl⟩
  | cons c l ih =>
    obtain ⟨u, rfl⟩ := h c (by simp)
    obtain ⟨v, hv, hs⟩ := ih (fun c hc => h c (by simp [hc]))
    refine ⟨u ++ v, by rw [runCalls, hv], fun k => ?_⟩
    rw [at_append, hs, List.map_cons, List.sum_cons]
    rfl

theorem triangle_ok (a b c x : K) (m : Int) (hm : 1 ≤ m) : ∃ w, triangle a b c x m = .ok w := by
  obtain ⟨f0, f1, f2, hp, h01, h12⟩ := exists_sorted a b c
  obtain ⟨w, e, _⟩ := triangle_writes a b c f0 f1 f2 x m hm hp h01 h12
  exact ⟨w, e⟩

theorem octInterp_triList (nt : Nat) (freq amp : Nat → K) (m : Int) :
    octInterp nt freq amp m = runCalls ((triList nt).map fun t =>
      triangle (freq (rank nt t.1)) (freq (rank nt t.2.1)) (freq (rank nt t.2.2))
        (amp (rank nt t.1) + amp (rank nt t.2.1) + amp (rank nt t.2.2)) m) := by
  unfold octInterp
  have hE : octLoop
    (fun i j => [triangle (freq i) (freq (i + 1)) (freq (nt + 1 + j))
      ((amp (i + 1) + amp (nt + 1 + j)) + amp i) m])
    (fun i j => [triangle (freq (i + 1)) (freq (nt + 1 + j)) (freq (nt + 1 + j + 1))
      ((amp (i + 1) + amp (nt + 1 + j)) + amp (nt + 1 + j + 1)) m])
    nt 0 0 ((nt : Int) - 1) =
    octLoop (fun i j => (fun t : Nat × Nat × Nat => [triangle (freq t.1) (freq t.2.1) (freq t.2.2)
        (amp t.1 + amp t.2.1 + amp t.2.2) m]) (i, i + 1, nt + 1 + j))
      (fun i j => (fun t : Nat × Nat × Nat => [triangle (freq t.1) (freq t.2.1) (freq t.2.2)
        (amp t.1 + amp t.2.1 + amp t.2.2) m])
        (i + 1, nt + 1 + j, nt + 1 + j + 1)) nt 0 0 ((nt : Int) - 1) := by
    congr 1
    funext i j
    simp only
    rw [show amp (i + 1) + amp (nt + 1 + j) + amp i = amp i + amp (i + 1) + amp (nt + 1 + j) by ring]
  rw [hE, octLoop_triList (fun t : Nat × Nat × Nat => [triangle (freq t.1) (freq t.2.1) (freq t.2.2)
        (amp t.1 + amp t.2.1 + amp t.2.2) m]), ← List.map_eq_flatMap]

theorem octInterp_val (nt : Nat) (freq amp : Nat → K) (m : Int) (hm : 1 ≤ m) (k : Int) :
    val k (octInterp nt freq amp m) = ((triList nt).map fun t =>
      val k (triangle (freq (rank nt t.1)) (freq (rank nt t.2.1)) (freq (rank nt t.2.2))
        (amp (rank nt t.1) + amp (rank nt t.2.1) + amp (rank nt t.2.2)) m)).sum := by
  rw [octInterp_triList]
  obtain ⟨w, e, h⟩ := runCalls_val ((triList nt).map fun t =>
      triangle (freq (rank nt t.1)) (freq (rank nt t.2.1)) (freq (rank nt t.2.2))
        (amp (rank nt t.1) + amp (rank nt t.2.1) + amp (rank nt t.2.2)) m) (by
    intro c hc
    obtain ⟨t, _, rfl⟩ := List.mem_map.mp hc
    exact triangle_ok _ _ _ _ _ hm)
  rw [e]
  show at_ k w = _
  rw [h, List.map_map]
  rfl

/-! ## Reflection -/

theorem triList_sum (nt : Nat) (G : (Nat × Nat) × (Nat × Nat) × (Nat × Nat) → K) :
    ((triList nt).map G).sum = ∑ r ∈ Finset.range nt,
      (∑ c ∈ Finset.range (nt - r), G ((r, c), (r, c + 1), (r + 1, c))
        + ∑ c ∈ Finset.range (nt - r - 1), G ((r, c + 1), (r + 1, c), (r + 1, c + 1))) := by
  have key : ∀ (n : Nat) (f : Nat → List K), ((List.range n).flatMap f).sum = ∑ r ∈ Finset.range n, (f r).sum := by
    intro n f
    induction n with
    | zero => rfl
    | succ n ih => rw [List.range_succ, List.flatMap_append, List.sum_append, ih, Finset.sum_range_succ]; simp
  unfold triList
  rw [List.map_flatMap, key]
  refine Finset.sum_congr rfl (fun r hr => ?_)
  have hr := Finset.mem_range.mp hr
  rw [List.map_append, List.sum_append, List.map_flatMap, key]
  obtain ⟨d, hd⟩ : ∃ d, nt - r = d + 1 := ⟨nt - r - 1, by omega⟩
  rw [hd, Finset.sum_range_succ, Nat.add_sub_cancel]
  simp only [List.map_cons, List.map_nil, List.sum_cons, List.sum_nil, add_zero, Finset.sum_add_distrib]
  ring

/-- The grid point with `x` and `y` exchanged. -/
def mirror (nt : Nat) (p : Nat × Nat) : Nat × Nat := (p.1, nt - p.1 - p.2)

theorem triList_mirror (nt : Nat) (G G' : (Nat × Nat) × (Nat × Nat) × (Nat × Nat) → K)
    (h1 : ∀ r c, r + c < nt → G' ((r, c), (r, c + 1), (r + 1, c))
      = G (mirror nt (r, c + 1), mirror nt (r, c), mirror nt (r + 1, c)))
    (h2 : ∀ r c, r + c + 1 < nt → G' ((r, c + 1), (r + 1, c), (r + 1, c + 1))
      = G (mirror nt (r, c + 1), mirror nt (r + 1, c + 1), mirror nt (r + 1, c))) :
    ((triList nt).map G').sum = ((triList nt).map G).sum := by
  rw [triList_sum, triList_sum]
  refine Finset.sum_congr rfl (fun r hr => ?_)
  have hr := Finset.mem_range.mp hr
  congr 1
  · rw [← Finset.sum_range_reflect]
    refine Finset.sum_congr rfl (fun c hc => ?_)
    have hc := Finset.mem_range.mp hc
    rw [h1 _ _ (by omega)]
    congr 1
    simp only [mirror, Prod.mk.injEq, true_and]
    omega
  · rw [← Finset.sum_range_reflect]
    refine Finset.sum_congr rfl (fun c hc => ?_)
    have hc := Finset.mem_range.mp hc
    rw [h2 _ _ (by omega)]
    congr 1
    simp only [mirror, Prod.mk.injEq, true_and]
    omega

/-- An octant reflected in the plane `x = y`, with its amplitudes multiplied by `t`. -/
theorem octInterp_mirror (nt : Nat) (freq amp freq' amp' : Nat → K) (m : Int) (hm : 1 ≤ m) (t : K)
    (hf : ∀ p : Nat × Nat, p.1 + p.2 ≤ nt → freq' (rank nt p) = freq (rank nt (mirror nt p)))
    (ha : ∀ p : Nat × Nat, p.1 + p.2 ≤ nt → amp' (rank nt p) = t * amp (rank nt (mirror nt p))) (k : Int) :
    val k (octInterp nt freq' amp' m) = t * val k (octInterp nt freq amp m) := by
  rw [octInterp_val nt freq' amp' m hm, octInterp_val nt freq amp m hm, ← List.sum_map_mul_left]
  apply triList_mirror
  · intro r c h
    dsimp only
    rw [hf _ (by dsimp only; omega), hf _ (by dsimp only; omega), hf _ (by dsimp only; omega),
      ha _ (by dsimp only; omega), ha _ (by dsimp only; omega), ha _ (by dsimp only; omega), ← val_map_scale,
      ← triangle_scale, triangle_swap12]
    congr 2
    ring
  · intro r c h
    dsimp only
    rw [hf _ (by dsimp only; omega), hf _ (by dsimp only; omega), hf _ (by dsimp only; omega),
      ha _ (by dsimp only; omega), ha _ (by dsimp only; omega), ha _ (by dsimp only; omega), ← val_map_scale,
      ← triangle_scale, triangle_swap23]
    congr 2
    ring

theorem octInterp_copy (nt : Nat) (freq amp freq' amp' : Nat → K) (m : Int) (hm : 1 ≤ m) (t : K)
    (hf : ∀ p : Nat × Nat, p.1 + p.2 ≤ nt → freq' (rank nt p) = freq (rank nt p))
    (ha : ∀ p : Nat × Nat, p.1 + p.2 ≤ nt → amp' (rank nt p) = t * amp (rank nt p)) (k : Int) :
    val k (octInterp nt freq' amp' m) = t * val k (octInterp nt freq amp m) := by
  rw [octInterp_val nt freq' amp' m hm, octInterp_val nt freq amp m hm, ← List.sum_map_mul_left]
  congr 1
  refine List.map_congr_left (fun s hs => ?_)
  obtain ⟨h1, h2, h3⟩ := tri_bounds nt s hs
  rw [hf _ h1, hf _ h2, hf _ h3, ha _ h1, ha _ h2, ha _ h3, ← val_map_scale, ← triangle_scale]
  congr 2
  ring

theorem totalAmplitude_mirror (nt : Nat) (amp amp' : Nat → K) (t : K)
    (ha : ∀ p : Nat × Nat, p.1 + p.2 ≤ nt → amp' (rank nt p) = t * amp (rank nt (mirror nt p))) :
    totalAmplitude nt amp' = t * totalAmplitude nt amp := by
  rw [totalAmplitude_triList, totalAmplitude_triList, ← List.sum_map_mul_left]
  apply triList_mirror
  · intro r c h
    dsimp only
    rw [ha _ (by dsimp only; omega), ha _ (by dsimp only; omega), ha _ (by dsimp only; omega)]
    ring
  · intro r c h
    dsimp only
    rw [ha _ (by dsimp only; omega), ha _ (by dsimp only; omega), ha _ (by dsimp only; omega)]
    ring

theorem totalAmplitude_copy (nt : Nat) (amp amp' : Nat → K) (t : K)
    (ha : ∀ p : Nat × Nat, p.1 + p.2 ≤ nt → amp' (rank nt p) = t * amp (rank nt p)) :
    totalAmplitude nt amp' = t * totalAmplitude nt amp := by
  rw [totalAmplitude_triList, totalAmplitude_triList, ← List.sum_map_mul_left]
  congr 1
  refine List.map_congr_left (fun s hs => ?_)
  obtain ⟨h1, h2, h3⟩ := tri_bounds nt s hs
  rw [ha _ h1, ha _ h2, ha _ h3]
  ring

/-- Grid point of octant 0 to which the point `p` of octant `j` is the mirror image or the copy. -/
def folded (nt j : Nat) (p : Nat × Nat) : Nat × Nat := if j % 2 = 0 then p else mirror nt p

theorem octInterp_folded (nt j : Nat) (freq amp freq' amp' : Nat → K) (m : Int) (hm : 1 ≤ m) (t : K)
    (hf : ∀ p : Nat × Nat, p.1 + p.2 ≤ nt → freq' (rank nt p) = freq (rank nt (folded nt j p)))
    (ha : ∀ p : Nat × Nat, p.1 + p.2 ≤ nt → amp' (rank nt p) = t * amp (rank nt (folded nt j p))) (k : Int) :
    val k (octInterp nt freq' amp' m) = t * val k (octInterp nt freq amp m) := by
  by_cases h : j % 2 = 0
  · simp only [folded, h, if_true] at hf ha
    exact octInterp_copy nt freq amp freq' amp' m hm t hf ha k
  · simp only [folded, h, if_false] at hf ha
    exact octInterp_mirror nt freq amp freq' amp' m hm t hf ha k

theorem octDelta_folded (nt j : Nat) (f : K) (amp amp' : Nat → K) (m : Int) (t : K)
    (ha : ∀ p : Nat × Nat, p.1 + p.2 ≤ nt → amp' (rank nt p) = t * amp (rank nt (folded nt j p))) (k : Int) :
    at_ k (octDelta nt f amp' m) = t * at_ k (octDelta nt f amp m) := by
  have : totalAmplitude nt amp' = t * totalAmplitude nt amp := by
    by_cases h : j % 2 = 0
    · simp only [folded, h, if_true] at ha
      exact totalAmplitude_copy nt amp amp' t ha
    · simp only [folded, h, if_false] at ha
      exact totalAmplitude_mirror nt amp amp' t ha
  have e : ∀ amp : Nat → K, octDelta nt f amp m = deltaFn f m (totalAmplitude nt amp) := fun _ => rfl
  rw [e, e, this, deltaFn_scale, at_scaleW]

/-! ## Averaging -/

theorem sum_flatMap {α : Type} (l : List α) (f : α → List (Py (Writes K))) (k : Int) :
    ((l.flatMap f).map (val k)).sum = (l.map fun a => ((f a).map (val k)).sum).sum := by
  induction l with
  | nil => rfl
  | cons a l ih => simp only [List.flatMap_cons, List.map_append, List.sum_append, List.map_cons, List.sum_cons, ih]

/-- `n` octants that are copies or mirror images of one, with `1/n` of its amplitudes. -/
theorem averaging_folded (nt n : Nat) (hn : 1 ≤ n) (vr : List K) (inv off r0 : K) (f1 a1 fn an : Nat → K) (count : Int)
    (hc : 1 ≤ count)
    (hf : ∀ j < n, ∀ p : Nat × Nat, p.1 + p.2 ≤ nt → fn (j * nPts nt + rank nt p) = f1 (rank nt (folded nt j p)))
    (ha : ∀ s < vr.length, ∀ j < n, ∀ p : Nat × Nat, p.1 + p.2 ≤ nt →
      an (s * (n * nPts nt) + j * nPts nt + rank nt p) = 1 / (n : K) * a1 (s * nPts nt + rank nt (folded nt j p))) :
    ∃ u v, averaging1D nt 1 vr inv off r0 f1 a1 count = .ok u ∧ averaging1D nt n vr inv off r0 fn an count = .ok v ∧
      ∀ k, at_ k v = at_ k u := by
  have hnK : (n : K) ≠ 0 := by
    have : n ≠ 0 := by omega
    exact_mod_cast this
  have hrank0 : rank nt (0, 0) = 0 := rfl
  have hrank1 : rank nt (0, nt) = nt := by unfold rank; dsimp only; rw [start]; omega
  have hrank2 : rank nt (nt, 0) = nPts nt - 1 := by unfold rank; dsimp only; rw [start_last]; omega
  have c0 := hf 0 (by omega) (0, 0) (by simp)
  have c1 := hf 0 (by omega) (0, nt) (by simp)
  have c2 := hf 0 (by omega) (nt, 0) (by simp)
  rw [Nat.zero_mul, Nat.zero_add] at c0 c1 c2
  change _ = f1 (rank nt (0, 0)) at c0
  change _ = f1 (rank nt (0, nt)) at c1
  change _ = f1 (rank nt (nt, 0)) at c2
  rw [hrank0] at c0
  rw [hrank1] at c1
  rw [hrank2] at c2
  have hdelta : isDelta nt fn = isDelta nt f1 := by
    unfold isDelta
    rw [c0, c1, c2]
  have hs : ∀ s ∈ vr.zipIdx, s.2 < vr.length := by
    intro s hs
    obtain ⟨x, i⟩ := s
    have := (List.mem_zipIdx' hs).1
    exact this
  have part : ∀ (g1 gn : K × Nat → Nat → Py (Writes K)) (win : K × Nat → Bool),
      (∀ s ∈ vr.zipIdx, ∀ j < n, (∃ w, g1 s 0 = .ok w) ∧ (∃ w, gn s j = .ok w) ∧
        ∀ k, val k (gn s j) = 1 / (n : K) * val k (g1 s 0)) →
      ∃ u v, runCalls (vr.zipIdx.flatMap fun s => if win s then (List.range 1).map (g1 s) else []) = .ok u ∧
        runCalls (vr.zipIdx.flatMap fun s => if win s then (List.range n).map (gn s) else []) = .ok v ∧
        ∀ k, at_ k v = at_ k u := by
    intro g1 gn win h
    obtain ⟨u, hu, su⟩ := runCalls_val (vr.zipIdx.flatMap fun s => if win s then (List.range 1).map (g1 s) else []) (by
      intro c hc
      obtain ⟨s, hs, hc⟩ := List.mem_flatMap.mp hc
      split_ifs at hc
      · obtain ⟨j, hj, rfl⟩ := List.mem_map.mp hc
        have : j = 0 := by simpa using hj
        subst this
        exact (h s hs 0 (by omega)).1
      · cases hc)
    obtain ⟨v, hv, sv⟩ := runCalls_val (vr.zipIdx.flatMap fun s => if win s then (List.range n).map (gn s) else []) (by
      intro c hc
      obtain ⟨s, hs, hc⟩ := List.mem_flatMap.mp hc
      split_ifs at hc
      · obtain ⟨j, hj, rfl⟩ := List.mem_map.mp hc
        exact (h s hs j (by simpa using hj)).2.1
      · cases hc)
    refine ⟨u, v, hu, hv, fun k => ?_⟩
    rw [su, sv, sum_flatMap, sum_flatMap]
    congr 1
    refine List.map_congr_left (fun s hs => ?_)
    split_ifs
    · rw [List.map_map, List.map_map]
      have : (List.range n).map (val k ∘ gn s) = (List.range n).map (fun _ => 1 / (n : K) * val k (g1 s 0)) := by
        refine List.map_congr_left (fun j hj => ?_)
        exact (h s hs j (by simpa using hj)).2.2 k
      rw [this]
      simp
      field_simp
    · rfl
  unfold averaging1D
  simp only [hdelta]
  by_cases hd : isDelta nt f1 = true
  · simp only [hd, if_true, c0]
    refine part (fun s j => .ok (octDelta nt (off + r0 + f1 0 + s.1 * inv)
        (fun k => a1 (s.2 * (1 * nPts nt) + j * nPts nt + k)) count))
      (fun s j => .ok (octDelta nt (off + r0 + f1 0 + s.1 * inv)
        (fun k => an (s.2 * (n * nPts nt) + j * nPts nt + k)) count))
      (fun s => inWindow (off + r0 + f1 0 + s.1 * inv) count) ?_
    intro s hs' j hj
    refine ⟨⟨_, rfl⟩, ⟨_, rfl⟩, fun k => ?_⟩
    refine octDelta_folded nt j _ _ _ count _ (fun p hp => ?_) k
    rw [ha s.2 (hs s hs') j hj p hp, one_mul, Nat.zero_mul, Nat.add_zero]
  · simp only [hd, Bool.false_eq_true, if_false]
    refine part (fun s j => octInterp nt (fun k => f1 (j * nPts nt + k) + (off + r0 + s.1 * inv))
        (fun k => a1 (s.2 * (1 * nPts nt) + j * nPts nt + k)) count)
      (fun s j => octInterp nt (fun k => fn (j * nPts nt + k) + (off + r0 + s.1 * inv))
        (fun k => an (s.2 * (n * nPts nt) + j * nPts nt + k)) count)
      (fun s => inWindow (off + r0 + s.1 * inv) count) ?_
    intro s hs' j hj
    refine ⟨octInterp_ok _ _ _ _ hc, octInterp_ok _ _ _ _ hc, fun k => ?_⟩
    refine octInterp_folded nt j _ _ _ _ count hc _ (fun p hp => ?_) (fun p hp => ?_) k
    · rw [hf j hj p hp, Nat.zero_mul, Nat.zero_add]
    · rw [ha s.2 (hs s hs') j hj p hp, one_mul, Nat.zero_mul, Nat.add_zero]

end MRS.Bin
