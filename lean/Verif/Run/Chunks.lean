import Verif.Py

/-!
# Splitting the spin systems over workers (C01)
-/

namespace MRS.Chunks

/-- src/mrsimulator/simulator/__init__.py:666-667 — the number of workers a given
`n_jobs` resolves to (`cpu` is the module constant `__CPU_count__`). -/
def resolve (cpu nJobs : Int) : Int :=
  if nJobs < 0 then nJobs + (cpu + 1) else nJobs

/-- simulator/__init__.py:672-673 — `for i in range(n_left): chunks[i + 1] += 1`. -/
def incrLoop (nLeft : Int) (chunks : List Int) : Py (List Int) :=
  (pyRange nLeft).foldlM (fun c (i : Nat) => do
    let v ← pyGet c (i + 1 : Nat)
    pySet c (i + 1 : Nat) (v + 1)) chunks

/-- simulator/__init__.py:675-676 —
`for i in range(1, n_jobs + 1): chunks[i] += chunks[i - 1]` (`i` shifted by one). -/
def prefixLoop (n : Int) (chunks : List Int) : Py (List Int) :=
  (pyRange n).foldlM (fun c (i : Nat) => do
    let v ← pyGet c (i + 1 : Nat)
    let w ← pyGet c (i : Nat)
    pySet c (i + 1 : Nat) (v + w)) chunks

/-- simulator/__init__.py:659-678 — `get_chunks(items_list, n_jobs)`. -/
def getChunks {α} (cpu : Int) (items : List α) (nJobs : Int) : Py (List (List α)) := do
  let n := resolve cpu nJobs
  if n = 0 then throw .zeroDivision
  let nBlocks := Int.fdiv items.length n
  let nLeft := Int.fmod items.length n
  let chunks ← incrLoop nLeft (0 :: pyRepeat nBlocks n)
  let chunks ← prefixLoop n chunks
  (pyRange n).mapM fun i => do
    let a ← pyGet chunks (i : Nat)
    let b ← pyGet chunks (i + 1 : Nat)
    return pySlice items a b

/-! ## Lemmas -/

/-- Tabulated list, used only in proofs. -/
private def tab (m : Nat) (f : Nat → Int) : List Int := (List.range m).map f

private theorem tab_length (m f) : (tab m f).length = m := by simp [tab]

private theorem get_tab (m : Nat) (f : Nat → Int) (i : Nat) (h : i < m) :
    pyGet (tab m f) (i : Int) = .ok (f i) := by
  rw [pyGet_ofNat _ _ (by simpa [tab] using h)]
  simp [tab]

private theorem set_tab (m : Nat) (f : Nat → Int) (i : Nat) (v : Int) (h : i < m) :
    pySet (tab m f) (i : Int) v = .ok (tab m (fun j => if j = i then v else f j)) := by
  rw [pySet_ofNat _ _ _ (by simpa [tab] using h)]
  congr 1
  apply List.ext_getElem
  · simp [tab]
  · intro j h1 h2
    rw [List.getElem_set]
    simp only [tab, List.getElem_map, List.getElem_range]
    by_cases hij : i = j
    · simp [hij]
    · simp [hij, Ne.symm hij]

private theorem tab_congr (m : Nat) (f g : Nat → Int) (h : ∀ i, i < m → f i = g i) :
    tab m f = tab m g := by
  apply List.map_congr_left
  intro i hi
  exact h i (List.mem_range.mp hi)

private theorem init_tab (n : Nat) (q : Int) :
    (0 :: pyRepeat q (n : Int)) = tab (n + 1) (fun j => if j = 0 then 0 else q) := by
  apply List.ext_getElem
  · simp [tab, pyRepeat]
  · intro j h1 h2
    cases j with
    | zero => simp [tab]
    | succ j => simp [tab, pyRepeat]

private theorem incrLoop_tab (n : Nat) (q : Int) (k : Nat) (hk : k ≤ n) :
    incrLoop (k : Int) (tab (n + 1) (fun j => if j = 0 then 0 else q)) =
      .ok (tab (n + 1) (fun j => if j = 0 then 0 else if j ≤ k then q + 1 else q)) := by
  induction k with
  | zero =>
    simp only [incrLoop, pyRange]
    simp only [Nat.cast_zero, Int.toNat_zero, List.range_zero,
      List.foldlM_nil]
    show Except.ok _ = _
    congr 1
    apply tab_congr
    intro i _
    by_cases h : i = 0 <;> simp [h]
  | succ k ih =>
    have ih := ih (by omega)
    simp only [incrLoop, pyRange, Int.toNat_natCast] at ih ⊢
    rw [List.range_succ, List.foldlM_append, ih]
    simp only [List.foldlM_cons, List.foldlM_nil, bind, Except.bind]
    rw [get_tab _ _ _ (by omega)]
    simp only []
    rw [set_tab _ _ _ _ (by omega)]
    simp only [pure, Except.pure]
    congr 1
    apply tab_congr
    intro i _
    rcases Nat.lt_trichotomy i (k + 1) with h | h | h
    · have : i ≠ k + 1 := by omega
      have h2 : i ≤ k := by omega
      have h3 : i ≤ k + 1 := by omega
      simp [this, h2, h3]
    · subst h; simp
    · have : i ≠ k + 1 := by omega
      have h2 : ¬ i ≤ k := by omega
      have h3 : ¬ i ≤ k + 1 := by omega
      simp [this, h2, h3]

/-- Chunk boundary number `j`: the first `r` chunks have `q + 1` items. -/
private def bnd (q r : Nat) (j : Nat) : Nat := j * q + min j r

private theorem prefixLoop_tab (n q r : Nat) (k : Nat) (hk : k ≤ n) :
    prefixLoop (k : Int)
      (tab (n + 1) (fun j => if j = 0 then 0 else if j ≤ r then (q : Int) + 1 else q)) =
      .ok (tab (n + 1) (fun j => if j ≤ k then (bnd q r j : Int)
        else if j ≤ r then (q : Int) + 1 else q)) := by
  induction k with
  | zero =>
    simp only [prefixLoop, pyRange, Nat.cast_zero, Int.toNat_zero, List.range_zero,
      List.foldlM_nil]
    show Except.ok _ = _
    congr 1
    apply tab_congr
    intro i _
    by_cases h : i = 0 <;> simp [h, bnd]
  | succ k ih =>
    have ih := ih (by omega)
    simp only [prefixLoop, pyRange, Int.toNat_natCast] at ih ⊢
    rw [List.range_succ, List.foldlM_append, ih]
    simp only [List.foldlM_cons, List.foldlM_nil, bind, Except.bind]
    rw [get_tab _ _ _ (by omega)]
    simp only []
    rw [get_tab _ _ _ (by omega)]
    simp only []
    rw [set_tab _ _ _ _ (by omega)]
    simp only [pure, Except.pure]
    congr 1
    apply tab_congr
    intro i _
    rcases Nat.lt_trichotomy i (k + 1) with h | h | h
    · have : i ≠ k + 1 := by omega
      have h2 : i ≤ k := by omega
      have h3 : i ≤ k + 1 := by omega
      simp [this, h2, h3]
    · subst h
      simp only [if_true, le_refl, if_true]
      have : ¬ (k + 1 ≤ k) := by omega
      simp only [this, if_false]
      by_cases h2 : k + 1 ≤ r
      · have e1 : min (k + 1) r = k + 1 := by omega
        have e2 : min k r = k := by omega
        simp only [h2, if_true, bnd, e1, e2]
        push_cast
        ring
      · have e1 : min (k + 1) r = r := by omega
        have e2 : min k r = r := by omega
        simp only [h2, if_false, bnd, e1, e2]
        push_cast
        ring
    · have : i ≠ k + 1 := by omega
      have h2 : ¬ i ≤ k := by omega
      have h3 : ¬ i ≤ k + 1 := by omega
      simp [this, h2, h3]

private theorem mapM_ok {α β} (l : List α) (f : α → Py β) (g : α → β)
    (h : ∀ a ∈ l, f a = .ok (g a)) : l.mapM f = .ok (l.map g) := by
  induction l with
  | nil => rfl
  | cons a l ih =>
    rw [List.mapM_cons, h a (by simp), ih (fun b hb => h b (by simp [hb]))]
    rfl

private theorem bnd_mono (q r : Nat) {i j : Nat} (h : i ≤ j) : bnd q r i ≤ bnd q r j := by
  unfold bnd
  have : i * q ≤ j * q := Nat.mul_le_mul_right q h
  omega

private theorem getChunks_eq {α} (cpu : Int) (items : List α) (nJobs : Int) (n : Nat)
    (hn : resolve cpu nJobs = (n : Int)) (hpos : 0 < n) :
    getChunks cpu items nJobs = .ok ((List.range n).map fun i =>
      (items.take (bnd (items.length / n) (items.length % n) (i + 1))).drop
        (bnd (items.length / n) (items.length % n) i)) := by
  set q := items.length / n with hq
  set r := items.length % n with hr
  have hlen : n * q + r = items.length := Nat.div_add_mod _ _
  have hrn : r < n := Nat.mod_lt _ hpos
  have hn0 : ¬ ((n : Int) = 0) := by omega
  have e1 : Int.fdiv (items.length : Int) (n : Int) = (q : Int) := by
    rw [Int.fdiv_eq_ediv_of_nonneg _ (by omega)]; rfl
  have e2 : Int.fmod (items.length : Int) (n : Int) = (r : Int) := by
    rw [Int.fmod_eq_emod_of_nonneg _ (by omega)]; rfl
  have hend : bnd q r n = items.length := by
    unfold bnd; rw [← hlen]; have : min n r = r := by omega
    rw [this]
  unfold getChunks
  simp only [hn, hn0, if_false, e1, e2, init_tab, bind, Except.bind]
  rw [incrLoop_tab n q r (by omega)]
  simp only []
  rw [prefixLoop_tab n q r n (le_refl n)]
  simp only [pure, Except.pure]
  have hR : pyRange (n : Int) = List.range n := by simp [pyRange]
  rw [hR]
  apply mapM_ok
  intro i hi
  have hi : i < n := List.mem_range.mp hi
  rw [get_tab _ _ _ (by omega)]
  simp only []
  rw [get_tab _ _ _ (by omega)]
  have h1 : i ≤ n := by omega
  have h2 : i + 1 ≤ n := by omega
  simp only [h1, h2, if_true]
  rw [pySlice_ofNat _ _ _ _ (bnd_mono q r (by omega))]
  rw [← hend]
  exact bnd_mono q r h2

private theorem flatten_slices {α} (items : List α) (b : Nat → Nat) (h0 : b 0 = 0)
    (hm : ∀ i, b i ≤ b (i + 1)) (n : Nat) :
    ((List.range n).map fun i => (items.take (b (i + 1))).drop (b i)).flatten
      = items.take (b n) := by
  induction n with
  | zero => simp [h0]
  | succ n ih =>
    rw [List.range_succ, List.map_append, List.flatten_append, ih]
    simp only [List.map_cons, List.map_nil, List.flatten_cons, List.flatten_nil,
      List.append_nil]
    have : items.take (b n) = (items.take (b (n + 1))).take (b n) := by
      rw [List.take_take]; congr 1; have := hm n; omega
    rw [this, List.take_append_drop]

/-! ## Properties -/

/-- **C01**, positive number of workers: exactly `n` chunks, concatenating to the
input in order, sizes at most one apart. -/
theorem C01_chunks_partition {α} (cpu : Int) (items : List α) (nJobs : Int) (n : Nat)
    (hn : (if nJobs < 0 then nJobs + (cpu + 1) else nJobs) = (n : Int)) (hpos : 0 < n) :
    ∃ cs, getChunks cpu items nJobs = .ok cs ∧ cs.length = n ∧ cs.flatten = items ∧
      ∀ a ∈ cs, ∀ b ∈ cs, a.length ≤ b.length + 1 := by
  refine ⟨_, getChunks_eq cpu items nJobs n hn hpos, by simp, ?_, ?_⟩
  · rw [flatten_slices items _ (by simp [bnd]) (fun i => bnd_mono _ _ (by omega))]
    have hlen : n * (items.length / n) + items.length % n = items.length :=
      Nat.div_add_mod _ _
    have hrn : items.length % n < n := Nat.mod_lt _ hpos
    have : bnd (items.length / n) (items.length % n) n = items.length := by
      unfold bnd
      have : min n (items.length % n) = items.length % n := by omega
      omega
    rw [this, List.take_length]
  · have key : ∀ a ∈ ((List.range n).map fun i =>
      (items.take (bnd (items.length / n) (items.length % n) (i + 1))).drop
        (bnd (items.length / n) (items.length % n) i)),
        a.length = items.length / n ∨ a.length = items.length / n + 1 := by
      intro a ha
      obtain ⟨i, hi, rfl⟩ := List.mem_map.mp ha
      have hi : i < n := List.mem_range.mp hi
      have hlen : n * (items.length / n) + items.length % n = items.length :=
        Nat.div_add_mod _ _
      have hrn : items.length % n < n := Nat.mod_lt _ hpos
      have hle : bnd (items.length / n) (items.length % n) (i + 1) ≤ items.length := by
        calc _ ≤ bnd (items.length / n) (items.length % n) n := bnd_mono _ _ (by omega)
          _ = items.length := by unfold bnd; omega
      rw [List.length_drop, List.length_take, Nat.min_eq_left hle]
      unfold bnd
      have : (i + 1) * (items.length / n) = i * (items.length / n) + items.length / n := by
        ring
      rw [this]
      clear hn
      generalize items.length / n = q
      generalize items.length % n = r
      generalize i * q = u
      omega
    intro a ha b hb
    have := key a ha
    have := key b hb
    omega

/-- **C01**, error side: resolving to zero workers is a `ZeroDivisionError`. -/
theorem C01_zero_workers {α} (cpu : Int) (items : List α) (nJobs : Int)
    (hn : (if nJobs < 0 then nJobs + (cpu + 1) else nJobs) = 0) :
    getChunks cpu items nJobs = .error .zeroDivision := by
  have : resolve cpu nJobs = 0 := hn
  simp [getChunks, this, bind, Except.bind, throw, throwThe, MonadExceptOf.throw]

/-- **C01**, error side: resolving to a negative number of workers gives no chunk. -/
theorem C01_negative_workers {α} (cpu : Int) (items : List α) (nJobs : Int)
    (hn : (if nJobs < 0 then nJobs + (cpu + 1) else nJobs) < 0) :
    getChunks cpu items nJobs = .ok [] := by
  have h : resolve cpu nJobs < 0 := hn
  have h0 : ¬ resolve cpu nJobs = 0 := by omega
  have e1 : (resolve cpu nJobs).toNat = 0 := by omega
  have e2 : (Int.fmod (items.length : Int) (resolve cpu nJobs)).toNat = 0 := by
    have h1 := Int.fmod_nonneg_of_pos (-(items.length : Int)) (b := -(resolve cpu nJobs))
      (by omega)
    rw [Int.neg_fmod_neg] at h1
    omega
  simp [getChunks, h0, bind, Except.bind, incrLoop, prefixLoop, pyRange, e1, e2,
    pure, Except.pure]

/-- Non-vacuity: 7 items over 3 workers; 2 items over 5 workers; `n_jobs = -1` on 4 CPUs. -/
example : getChunks 4 [1, 2, 3, 4, 5, 6, 7] 3 = .ok [[1, 2, 3], [4, 5], [6, 7]] := by rfl
example : getChunks 4 [1, 2] 5 = .ok [[1], [2], [], [], []] := by rfl
example : getChunks 4 [1, 2, 3, 4, 5] (-1) = .ok [[1, 2], [3], [4], [5]] := by rfl
example : getChunks 4 [1, 2] (-5) = .error .zeroDivision := by rfl
example : getChunks 4 [1, 2] (-6) = .ok [] := by rfl

end MRS.Chunks
