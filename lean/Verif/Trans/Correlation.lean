import Verif.Trans.Methods
import Mathlib.Data.Finset.Card
import Mathlib.Data.Finset.Range
import Mathlib.Data.List.Duplicate
import Mathlib.Data.List.NodupEquivFin
import Mathlib.Tactic.Linarith

/-!
# Library methods on spin systems of many sites — properties C84, C85

src/mrsimulator/methods/correlation.py, ssb2d.py, and the queries of mqvas.py, stvas.py and methods_data.json (`Methods.lean`).
-/

namespace MRS.Trans

/-! ## Model -/

/-- methods/correlation.py:92-101 `Cosy.update`: the queries of the two dimensions. -/
def cosy : List (List Query) := [[⟨[(1, [[-1]])], none⟩], [⟨[(1, [[-1]])], none⟩]]

/-- methods/correlation.py:178-187 `Inadequate.update`. -/
def inadequate : List (List Query) := [[⟨[(1, [[-1, -1]])], none⟩], [⟨[(1, [[-1]])], none⟩]]

/-- methods/ssb2d.py:108-113 `SSB2D.update`. -/
def ssb2d : List (List Query) := [[⟨[(1, [[-1]])], some [(1, [[0]])]⟩], [⟨[(1, [[-1]])], some [(1, [[0]])]⟩]]

/-! ## Specification -/

/-- In the transition `t` the quantum numbers of exactly `r` sites, all of isotope `c`, change, each by `d`. If `start` is
given, they start from one of these values. -/
def Spec.Moves (sites : List Iso) (c : String) (r : ℕ) (d : ℚ) (start : Option (List ℚ)) (t : Tr) : Prop :=
  ∃ K : Finset ℕ, K.card = r ∧ (∀ k ∈ K, (sites[k]?).map Iso.symbol = some c) ∧
    (∀ k < sites.length, t.2[k]? = (t.1[k]?).map fun m => if k ∈ K then m + d else m) ∧
    ∀ l, start = some l → ∀ k ∈ K, ∃ m ∈ l, t.1[k]? = some m

/-! ## Lemmas: entries of queries -/

theorem count_add_count (d : ℚ) (hd : d ≠ 0) (w : List ℚ) (h : ∀ x ∈ w, x = d ∨ x = 0) :
    w.count d + w.count 0 = w.length := by
  induction w with
  | nil => rfl
  | cons x w ih =>
    have := ih (fun y hy => h y (by simp [hy]))
    rcases h x (by simp) with rfl | rfl
    · rw [List.count_cons_self, List.count_cons_of_ne hd, List.length_cons]
      omega
    · rw [List.count_cons_self, List.count_cons_of_ne (Ne.symm hd), List.length_cons]
      omega

theorem rearranges_replicate (r : ℕ) (d : ℚ) (hd : d ≠ 0) (w : List ℚ) :
    Spec.Rearranges (List.replicate r d) w ↔ w.count d = r ∧ ∀ x ∈ w, x = d ∨ x = 0 := by
  unfold Spec.Rearranges
  rw [List.length_replicate]
  constructor
  · rintro ⟨h1, h2⟩
    refine ⟨?_, ?_⟩
    · rw [h2.count_eq, List.count_append, List.count_replicate_self, List.count_replicate]
      simp [Ne.symm hd]
    · intro x hx
      have := h2.mem_iff.mp hx
      simp only [List.mem_append, List.mem_replicate] at this
      tauto
  · rintro ⟨h1, h2⟩
    have hl : r ≤ w.length := by
      rw [← h1]
      exact List.count_le_length
    refine ⟨hl, ?_⟩
    rw [List.perm_iff_count]
    intro a
    have hs := count_add_count d hd w h2
    rw [List.count_append, List.count_replicate, List.count_replicate]
    by_cases ha : a = d
    · subst ha
      simp [h1, Ne.symm hd]
    · by_cases h0 : a = 0
      · subst h0
        simp [hd]
        omega
      · simp only [beq_iff_eq, Ne.symm ha, if_false, Ne.symm h0, Nat.add_zero]
        rw [List.count_eq_zero]
        intro hm
        rcases h2 a hm with h | h
        · exact ha h
        · exact h0 h

theorem count_onChannel (isotope : List String) (c : String) (v : List ℚ) (hv : v.length = isotope.length) (d : ℚ) (hd : d ≠ 0)
    (h : ∀ p ∈ isotope.zip v, p.1 ≠ c → p.2 = 0) : (Spec.onChannel isotope c v).count d = v.count d := by
  induction isotope generalizing v with
  | nil =>
    cases v with
    | nil => rfl
    | cons => simp at hv
  | cons i isotope ih =>
    cases v with
    | nil => simp at hv
    | cons x v =>
      have := ih v (by simpa using hv) (fun p hp => h p (by simp [hp]))
      unfold Spec.onChannel at this ⊢
      rw [List.zip_cons_cons, List.filter_cons]
      by_cases hi : i = c
      · simp only [hi, decide_true, if_true, List.map_cons, List.count_cons, this]
      · have h0 : x = 0 := h (i, x) (by simp) hi
        simp only [hi, decide_false, Bool.false_eq_true, if_false]
        rw [this, h0, List.count_cons_of_ne (Ne.symm hd)]

theorem card_positions (v : List ℚ) (d : ℚ) :
    ((Finset.range v.length).filter fun k => v[k]? = some d).card = v.count d := by
  induction v using List.reverseRecOn with
  | nil => rfl
  | append_singleton v y ih =>
    rw [List.length_append, List.length_singleton, Finset.range_add_one, Finset.filter_insert, List.count_append, ← ih]
    have hrest : (Finset.range v.length).filter (fun k => (v ++ [y])[k]? = some d)
        = (Finset.range v.length).filter fun k => v[k]? = some d := by
      apply Finset.filter_congr
      intro k hk
      rw [List.getElem?_append_left (Finset.mem_range.mp hk)]
    rw [hrest]
    have hy : (v ++ [y])[v.length]? = some y := by simp
    rw [hy]
    by_cases h : y = d
    · subst h
      rw [if_pos rfl, Finset.card_insert_of_notMem (by simp)]
      simp
    · rw [if_neg (by simpa using h)]
      simp [h]

theorem mem_zip_iff {α β : Type} (a : List α) (b : List β) (p : α × β) :
    p ∈ a.zip b ↔ ∃ k : ℕ, a[k]? = some p.1 ∧ b[k]? = some p.2 := by
  rw [List.mem_iff_getElem?]
  constructor
  · rintro ⟨k, hk⟩
    rw [List.getElem?_zip_eq_some] at hk
    exact ⟨k, hk⟩
  · rintro ⟨k, hk⟩
    exact ⟨k, List.getElem?_zip_eq_some.mpr hk⟩

/-- `r` sites of the channel have `d`, the others zero. -/
theorem matches_replicate (isotope : List String) (c : String) (v : List ℚ) (hv : v.length = isotope.length) (r : ℕ) (d : ℚ)
    (hd : d ≠ 0) :
    Spec.Matches isotope [(c, [List.replicate r d])] v ↔
      ∃ K : Finset ℕ, K.card = r ∧ (∀ k ∈ K, isotope[k]? = some c) ∧
        ∀ k < isotope.length, v[k]? = some (if k ∈ K then d else 0) := by
  have hm : Spec.Matches isotope [(c, [List.replicate r d])] v ↔
      ((Spec.onChannel isotope c v).count d = r ∧ ∀ x ∈ Spec.onChannel isotope c v, x = d ∨ x = 0) ∧
        ∀ p ∈ isotope.zip v, p.1 ≠ c → p.2 = 0 := by
    unfold Spec.Matches
    simp [rearranges_replicate r d hd]
  rw [hm]
  constructor
  · rintro ⟨⟨h1, h2⟩, h3⟩
    refine ⟨(Finset.range v.length).filter fun k => v[k]? = some d, ?_, ?_, ?_⟩
    · rw [card_positions, ← count_onChannel isotope c v hv d hd h3, h1]
    · intro k hk
      obtain ⟨h4, h5⟩ := Finset.mem_filter.mp hk
      have h4 := Finset.mem_range.mp h4
      rw [List.getElem?_eq_getElem (by omega)]
      by_contra hne
      have := h3 (isotope[k], d) ((mem_zip_iff _ _ _).mpr ⟨k, List.getElem?_eq_getElem (by omega), h5⟩)
        (fun h => hne (congrArg some h))
      exact hd this
    · intro k hk
      have hkv : k < v.length := by omega
      rw [List.getElem?_eq_getElem hkv]
      by_cases hc : isotope[k] = c
      · have : v[k] ∈ Spec.onChannel isotope c v := by
          unfold Spec.onChannel
          rw [List.mem_map]
          refine ⟨(isotope[k], v[k]), ?_, rfl⟩
          rw [List.mem_filter]
          exact ⟨(mem_zip_iff _ _ _).mpr ⟨k, List.getElem?_eq_getElem hk, List.getElem?_eq_getElem hkv⟩, by simpa using hc⟩
        rcases h2 _ this with h | h
        · simp [h, hkv]
        · simp [h, hkv, Ne.symm hd]
      · have := h3 (isotope[k], v[k]) ((mem_zip_iff _ _ _).mpr ⟨k, List.getElem?_eq_getElem hk, List.getElem?_eq_getElem hkv⟩) hc
        simp only at this
        simp [this, hkv, Ne.symm hd]
  · rintro ⟨K, h1, h2, h3⟩
    have hzip : ∀ p ∈ isotope.zip v, p.1 ≠ c → p.2 = 0 := by
      intro p hp hne
      obtain ⟨k, e1, e2⟩ := (mem_zip_iff _ _ _).mp hp
      have hk : k < isotope.length := (List.getElem?_eq_some_iff.mp e1).1
      have := h3 k hk
      rw [e2] at this
      by_cases hK : k ∈ K
      · rw [h2 k hK] at e1
        injection e1 with e1
        exact absurd e1.symm hne
      · rw [if_neg hK] at this
        injection this
    refine ⟨⟨?_, ?_⟩, hzip⟩
    · rw [count_onChannel isotope c v hv d hd hzip, ← card_positions, ← h1]
      congr 1
      ext k
      rw [Finset.mem_filter, Finset.mem_range, hv]
      constructor
      · rintro ⟨e1, e2⟩
        rw [h3 k e1] at e2
        by_contra hK
        rw [if_neg hK] at e2
        injection e2 with e2
        exact hd e2.symm
      · intro hK
        have hk : k < isotope.length := (List.getElem?_eq_some_iff.mp (h2 k hK)).1
        exact ⟨hk, by rw [h3 k hk, if_pos hK]⟩
    · intro x hx
      unfold Spec.onChannel at hx
      rw [List.mem_map] at hx
      obtain ⟨p, hp, rfl⟩ := hx
      obtain ⟨k, e1, e2⟩ := (mem_zip_iff _ _ _).mp (List.mem_filter.mp hp).1
      have hk : k < isotope.length := (List.getElem?_eq_some_iff.mp e1).1
      have := h3 k hk
      rw [e2] at this
      injection this with this
      rw [this]
      by_cases hK : k ∈ K <;> simp [hK]

theorem rearranges_zero (y : ℚ) (w : List ℚ) (hw : w ≠ []) :
    Spec.Rearranges [y] (0 :: w) ↔ Spec.Rearranges [y] w := by
  unfold Spec.Rearranges
  have hl : 1 ≤ w.length := List.length_pos_of_ne_nil hw
  obtain ⟨n, hn⟩ : ∃ n, w.length = n + 1 := ⟨w.length - 1, by omega⟩
  simp only [List.length_cons, List.length_nil, hn, Nat.zero_add, Nat.add_sub_cancel]
  refine and_congr (by simp) ?_
  rw [List.replicate_succ]
  have : ([y] ++ 0 :: List.replicate n 0).Perm (0 :: ([y] ++ List.replicate n 0)) := List.perm_middle
  constructor
  · intro h
    exact (List.perm_cons 0).mp (h.trans this)
  · intro h
    exact ((List.perm_cons 0).mpr h).trans this.symm

theorem onChannel_ne_nil (isotope : List String) (c : String) (v : List ℚ) (hv : v.length = isotope.length) (hc : c ∈ isotope) :
    Spec.onChannel isotope c v ≠ [] := by
  intro h
  have := onChannel_length isotope c v hv
  rw [h, isoIndex_length] at this
  have := List.count_pos_iff.mpr hc
  simp only [List.length_nil] at *
  omega

/-- On numbers that are zero except at one site of the channel, an entry of one number asks for the value there. -/
theorem rearranges_at (isotope : List String) (c : String) (v : List ℚ) (hv : v.length = isotope.length) (k : ℕ)
    (hc : isotope[k]? = some c) (a : ℚ) (ha : v[k]? = some a) (h0 : ∀ j < v.length, j ≠ k → v[j]? = some 0) (y : ℚ) :
    Spec.Rearranges [y] (Spec.onChannel isotope c v) ↔ a = y := by
  induction isotope generalizing v k with
  | nil => simp at hc
  | cons i isotope ih =>
    cases v with
    | nil => simp at hv
    | cons x v =>
      have hv' : v.length = isotope.length := by simpa using hv
      cases k with
      | zero =>
        simp only [List.getElem?_cons_zero, Option.some.injEq] at hc ha
        subst hc ha
        have hz : Spec.onChannel isotope i v = List.replicate (Spec.onChannel isotope i v).length 0 := by
          rw [List.eq_replicate_iff]
          refine ⟨rfl, ?_⟩
          intro b hb
          unfold Spec.onChannel at hb
          rw [List.mem_map] at hb
          obtain ⟨p, hp, rfl⟩ := hb
          obtain ⟨j, _, e2⟩ := (mem_zip_iff _ _ _).mp (List.mem_filter.mp hp).1
          have hj : j < v.length := (List.getElem?_eq_some_iff.mp e2).1
          have := h0 (j + 1) (by simpa using hj) (by omega)
          rw [List.getElem?_cons_succ, e2] at this
          injection this
        have he : Spec.onChannel (i :: isotope) i (x :: v) = [x] ++ Spec.onChannel isotope i v := by
          unfold Spec.onChannel
          simp
        rw [he]
        unfold Spec.Rearranges
        rw [hz]
        simp only [List.length_append, List.length_singleton, List.length_replicate, Nat.add_sub_cancel_left]
        rw [List.perm_append_right_iff, List.singleton_perm_singleton]
        constructor
        · exact fun h => h.2
        · exact fun h => ⟨by omega, h⟩
      | succ k =>
        simp only [List.getElem?_cons_succ] at hc ha
        have hx : x = 0 := by
          have := h0 0 (by simp) (by omega)
          simpa using this
        subst hx
        have hrec := ih v hv' k hc ha (fun j hj hne => by
          have := h0 (j + 1) (by simpa using hj) (by omega)
          simpa using this)
        by_cases hi : i = c
        · have he : Spec.onChannel (i :: isotope) c (0 :: v) = 0 :: Spec.onChannel isotope c v := by
            unfold Spec.onChannel
            simp [hi]
          rw [he, rearranges_zero y _ (onChannel_ne_nil isotope c v hv' (List.mem_of_getElem? hc)), hrec]
        · have he : Spec.onChannel (i :: isotope) c (0 :: v) = Spec.onChannel isotope c v := by
            unfold Spec.onChannel
            simp [hi]
          rw [he, hrec]

theorem matches_at (isotope : List String) (c : String) (v : List ℚ) (hv : v.length = isotope.length) (k : ℕ)
    (hc : isotope[k]? = some c) (a : ℚ) (ha : v[k]? = some a) (h0 : ∀ j < v.length, j ≠ k → v[j]? = some 0) (ys : List ℚ) :
    Spec.Matches isotope [(c, ys.map fun y => [y])] v ↔ a ∈ ys := by
  unfold Spec.Matches
  constructor
  · rintro ⟨h, -⟩
    obtain ⟨e, he, hr⟩ := h (c, ys.map fun y => [y]) (by simp)
    obtain ⟨y, hy, rfl⟩ := List.mem_map.mp he
    rw [rearranges_at isotope c v hv k hc a ha h0] at hr
    rw [hr]
    exact hy
  · intro h
    refine ⟨?_, ?_⟩
    · intro ce hce
      rw [List.mem_singleton] at hce
      subst hce
      exact ⟨[a], List.mem_map.mpr ⟨a, h, rfl⟩, (rearranges_at isotope c v hv k hc a ha h0 a).mpr rfl⟩
    · intro p hp hne
      obtain ⟨j, e1, e2⟩ := (mem_zip_iff _ _ _).mp hp
      have hj : j < v.length := (List.getElem?_eq_some_iff.mp e2).1
      by_cases hjk : j = k
      · subst hjk
        rw [hc] at e1
        injection e1 with e1
        exact absurd (by simp [e1]) hne
      · have := h0 j hj hjk
        rw [e2] at this
        injection this

/-! ## Lemmas: selections -/

theorem getElem?_dm (t : Tr) (k : ℕ) (i f : ℚ) (hi : t.1[k]? = some i) (hf : t.2[k]? = some f) :
    (Spec.dm t)[k]? = some (f - i) := by
  unfold Spec.dm
  rw [List.getElem?_zipWith, hi, hf]

theorem getElem?_dm2 (t : Tr) (k : ℕ) (i f : ℚ) (hi : t.1[k]? = some i) (hf : t.2[k]? = some f) :
    (Spec.dm2 t)[k]? = some (f ^ 2 - i ^ 2) := by
  unfold Spec.dm2
  rw [List.getElem?_zipWith, hi, hf]

theorem state_get {sites : List Iso} {st : State} (h : Spec.IsState sites st) (k : ℕ) (hk : k < sites.length) :
    ∃ m, st[k]? = some m := ⟨st[k]'(by rw [state_length h]; exact hk), List.getElem?_eq_getElem _⟩

theorem moves_iff (sites : List Iso) (c : String) (r : ℕ) (d : ℚ) (hd : d ≠ 0) (t : Tr) (ht : Spec.IsTransition sites t) :
    Spec.Matches (sites.map Iso.symbol) [(c, [List.replicate r d])] (Spec.dm t) ↔ Spec.Moves sites c r d none t := by
  have hl : (Spec.dm t).length = (sites.map Iso.symbol).length := by
    rw [List.length_map]
    exact trP_length ht
  rw [matches_replicate _ c _ hl r d hd]
  unfold Spec.Moves
  refine exists_congr fun K => and_congr Iff.rfl (and_congr ?_ ?_)
  · simp only [List.getElem?_map]
  · simp only [List.length_map, reduceCtorEq, false_imp_iff, implies_true, and_true]
    refine forall_congr' fun k => forall_congr' fun hk => ?_
    obtain ⟨i, hi⟩ := state_get ht.1 k hk
    obtain ⟨f, hf⟩ := state_get ht.2 k hk
    rw [getElem?_dm t k i f hi hf, hi, hf, Option.map_some, Option.some.injEq, Option.some.injEq]
    by_cases hK : k ∈ K
    · simp only [hK, if_true]
      constructor <;> intro h <;> linarith
    · simp only [hK, if_false]
      constructor <;> intro h <;> linarith

theorem moves_start_iff (sites : List Iso) (c : String) (d : ℚ) (ys : List ℚ) (t : Tr)
    (ht : Spec.IsTransition sites t) (hm : Spec.Moves sites c 1 d none t) :
    Spec.Matches (sites.map Iso.symbol) [(c, ys.map fun y => [y])] (Spec.dm2 t) ↔
      ∃ (k : ℕ) (i : ℚ), (sites[k]?).map Iso.symbol = some c ∧ t.1[k]? = some i ∧ t.2[k]? = some (i + d) ∧
        (∀ j < sites.length, j ≠ k → t.2[j]? = t.1[j]?) ∧ (i + d) ^ 2 - i ^ 2 ∈ ys := by
  have hl : (Spec.dm2 t).length = (sites.map Iso.symbol).length := by
    rw [List.length_map]
    exact trD_length ht
  have key : ∀ (k : ℕ) (i : ℚ), (sites[k]?).map Iso.symbol = some c → t.1[k]? = some i → t.2[k]? = some (i + d) →
      (∀ j < sites.length, j ≠ k → t.2[j]? = t.1[j]?) →
      (Spec.Matches (sites.map Iso.symbol) [(c, ys.map fun y => [y])] (Spec.dm2 t) ↔ (i + d) ^ 2 - i ^ 2 ∈ ys) := by
    intro k i e1 e2 e3 e4
    apply matches_at _ c _ hl k (by rw [List.getElem?_map]; exact e1) _ (getElem?_dm2 t k i (i + d) e2 e3)
    intro j hj hne
    rw [hl, List.length_map] at hj
    obtain ⟨m, hm⟩ := state_get ht.1 j hj
    rw [getElem?_dm2 t j m m hm (by rw [e4 j hj hne]; exact hm)]
    simp
  constructor
  · intro h
    obtain ⟨K, h1, h2, h3, -⟩ := hm
    obtain ⟨k, rfl⟩ := Finset.card_eq_one.mp h1
    have hk := h2 k (by simp)
    have hlt : k < sites.length := by
      by_contra hge
      rw [List.getElem?_eq_none (by omega)] at hk
      cases hk
    obtain ⟨i, hi⟩ := state_get ht.1 k hlt
    have hf : t.2[k]? = some (i + d) := by
      rw [h3 k hlt, hi]
      simp
    have hrest : ∀ j < sites.length, j ≠ k → t.2[j]? = t.1[j]? := by
      intro j hj hne
      rw [h3 j hj]
      simp [hne]
    exact ⟨k, i, hk, hi, hf, hrest, (key k i hk hi hf hrest).mp h⟩
  · rintro ⟨k, i, hk, hi, hf, hrest, hy⟩
    exact (key k i hk hi hf hrest).mpr hy

/-- Selection by one entry of equal numbers. -/
theorem select_moves (so : SetOrder) (sites : List Iso) (c : String) (r : ℕ) (d : ℚ) (hd : d ≠ 0) (hr : 0 < r)
    (hc : r ≤ (sites.map Iso.symbol).count c) :
    ∃ sel, eventTransitions so sites [c] ⟨[(1, [List.replicate r d])], none⟩ = .ok sel ∧ sel.Nodup ∧
      ∀ t, t ∈ sel ↔ Spec.IsTransition sites t ∧ Spec.Moves sites c r d none t := by
  obtain ⟨sel, h1, _, h3, h4⟩ := C09_single_channel_selection so sites c ⟨[(1, [List.replicate r d])], none⟩
    (List.count_pos_iff.mp (by omega)) [List.replicate r d] rfl (by simp) (by simpa using hc) (by simp)
  refine ⟨sel, h1, h3, fun t => ?_⟩
  rw [h4]
  simp only [reduceCtorEq, false_imp_iff, implies_true, and_true]
  exact and_congr_right fun ht => moves_iff sites c r d hd t ht

/-- Selection by one number for `P` and several possible ones for `D`. -/
theorem select_start (so : SetOrder) (sites : List Iso) (c : String) (d : ℚ) (hd : d ≠ 0)
    (hc : c ∈ sites.map Iso.symbol) (ys ms : List ℚ) (hy : ys ≠ [])
    (hms : ∀ i : ℚ, (i + d) ^ 2 - i ^ 2 ∈ ys ↔ i ∈ ms) :
    ∃ sel, eventTransitions so sites [c] ⟨[(1, [[d]])], some [(1, ys.map fun y => [y])]⟩ = .ok sel ∧ sel.Nodup ∧
      ∀ t, t ∈ sel ↔ Spec.IsTransition sites t ∧ Spec.Moves sites c 1 d (some ms) t := by
  have hpos : 1 ≤ (sites.map Iso.symbol).count c := List.count_pos_iff.mpr hc
  obtain ⟨sel, h1, _, h3, h4⟩ := C09_single_channel_selection so sites c
    ⟨[(1, [[d]])], some [(1, ys.map fun y => [y])]⟩ hc [[d]] rfl (by simp) (by simpa using hpos) (by
      intro D hD
      injection hD with hD
      subst hD
      refine ⟨_, rfl, by simpa using hy, ?_⟩
      intro e he
      obtain ⟨y, _, rfl⟩ := List.mem_map.mp he
      simpa using hpos)
  refine ⟨sel, h1, h3, fun t => ?_⟩
  rw [h4]
  refine and_congr_right fun ht => ?_
  have hm := moves_iff sites c 1 d hd t ht
  simp only [List.replicate_one] at hm
  rw [hm]
  constructor
  · rintro ⟨h5, h6⟩
    obtain ⟨k, i, e1, e2, e3, e4, e5⟩ := (moves_start_iff sites c d ys t ht h5).mp (h6 _ _ rfl rfl)
    refine ⟨{k}, by simp, by simpa using e1, ?_, ?_⟩
    · intro j hj
      by_cases hjk : j = k
      · subst hjk
        rw [e2, e3]
        simp
      · rw [e4 j hj hjk]
        simp [hjk]
    · intro l hl j hj
      injection hl with hl
      subst hl
      rw [Finset.mem_singleton] at hj
      subst hj
      exact ⟨i, (hms i).mp e5, e2⟩
  · rintro ⟨K, h5, h6, h7, h8⟩
    have h9 : Spec.Moves sites c 1 d none t := ⟨K, h5, h6, h7, by simp⟩
    refine ⟨h9, ?_⟩
    intro D eD hD hl
    injection hD with hD
    subst hD
    simp only [List.lookup, beq_self_eq_true, Option.some.injEq] at hl
    subst hl
    rw [moves_start_iff sites c d ys t ht h9]
    obtain ⟨k, rfl⟩ := Finset.card_eq_one.mp h5
    obtain ⟨i, hi, he⟩ := h8 ms rfl k (by simp)
    have hlt : k < sites.length := by
      have := h6 k (by simp)
      by_contra hge
      rw [List.getElem?_eq_none (by omega)] at this
      cases this
    refine ⟨k, i, h6 k (by simp), he, ?_, ?_, (hms i).mpr hi⟩
    · rw [h7 k hlt, he]
      simp
    · intro j hj hne
      rw [h7 j hj]
      simp [hne]

/-! ## Properties -/

/-- The pathways `p` are, each once, those in which the transitions are as described, one after the other. -/
def Spec.Pathways (sites : List Iso) (conds : List (Tr → Prop)) (r : Py (List (List Tr))) : Prop :=
  ∃ paths, r = .ok paths ∧ paths.Nodup ∧
    ∀ p, p ∈ paths ↔ List.Forall₂ (fun (C : Tr → Prop) t => Spec.IsTransition sites t ∧ C t) conds p

theorem pathways_one (so : SetOrder) (sites : List Iso) (channel : List String) (q : Query) (C : Tr → Prop)
    (h : ∃ sel, eventTransitions so sites channel q = .ok sel ∧ sel.Nodup ∧ ∀ t, t ∈ sel ↔ Spec.IsTransition sites t ∧ C t) :
    Spec.Pathways sites [C] (transitionPathways so sites channel [[q]]) := by
  obtain ⟨sel, h1, h2, h3⟩ := h
  obtain ⟨paths, p1, p2, -, p4, -, -⟩ := C11_pathways so sites channel [[q]] [sel]
    (List.Forall₂.cons h1 List.Forall₂.nil) (by simp)
  refine ⟨paths, p1, p4 (by simpa using h2), fun p => ?_⟩
  rw [p2]
  simp only [List.forall₂_cons_left_iff, List.forall₂_nil_left_iff, h3]

theorem pathways_two (so : SetOrder) (sites : List Iso) (channel : List String) (q q' : Query) (C C' : Tr → Prop)
    (h : ∃ sel, eventTransitions so sites channel q = .ok sel ∧ sel.Nodup ∧ ∀ t, t ∈ sel ↔ Spec.IsTransition sites t ∧ C t)
    (h' : ∃ sel, eventTransitions so sites channel q' = .ok sel ∧ sel.Nodup ∧ ∀ t, t ∈ sel ↔ Spec.IsTransition sites t ∧ C' t) :
    Spec.Pathways sites [C, C'] (transitionPathways so sites channel [[q], [q']]) := by
  obtain ⟨sel, h1, h2, h3⟩ := h
  obtain ⟨sel', h1', h2', h3'⟩ := h'
  obtain ⟨paths, p1, p2, -, p4, -, -⟩ := C11_pathways so sites channel [[q], [q']] [sel, sel']
    (List.Forall₂.cons h1 (List.Forall₂.cons h1' List.Forall₂.nil)) (by simp)
  refine ⟨paths, p1, p4 (by simp [h2, h2']), fun p => ?_⟩
  rw [p2]
  simp only [List.forall₂_cons_left_iff, List.forall₂_nil_left_iff, h3, h3']

theorem ct_start (i : ℚ) : (i + -1) ^ 2 - i ^ 2 ∈ [(0 : ℚ)] ↔ i ∈ [(1 / 2 : ℚ)] := by
  rw [List.mem_singleton, List.mem_singleton]
  constructor
  · intro h
    linarith [(by ring : (i + -1) ^ 2 - i ^ 2 = 1 - 2 * i)]
  · rintro rfl
    norm_num

theorem ct_select (so : SetOrder) (sites : List Iso) (c : String) (hc : c ∈ sites.map Iso.symbol) :
    ∃ sel, eventTransitions so sites [c] ⟨[(1, [[-1]])], some [(1, [[0]])]⟩ = .ok sel ∧ sel.Nodup ∧
      ∀ t, t ∈ sel ↔ Spec.IsTransition sites t ∧ Spec.Moves sites c 1 (-1) (some [1 / 2]) t :=
  select_start so sites c (-1) (by norm_num) hc [0] [1 / 2] (by simp) ct_start

/-- **C84**. In a spin system of any number of sites of any isotopes, the Bloch decay method observes exactly the transitions
in which one site of its isotope goes from `m` to `m - 1` and no other site changes. -/
theorem C84_bloch_decay (so : SetOrder) (sites : List Iso) (c : String) (hc : c ∈ sites.map Iso.symbol) :
    Spec.Pathways sites [Spec.Moves sites c 1 (-1) none] (transitionPathways so sites [c] blochDecay) :=
  pathways_one so sites [c] _ _ (select_moves so sites c 1 (-1) (by norm_num) (by norm_num) (List.count_pos_iff.mpr hc))

/-- **C84**. The central-transition method: one site of its isotope goes from `1/2` to `-1/2`. -/
theorem C84_central_transition (so : SetOrder) (sites : List Iso) (c : String) (hc : c ∈ sites.map Iso.symbol) :
    Spec.Pathways sites [Spec.Moves sites c 1 (-1) (some [1 / 2])] (transitionPathways so sites [c] blochDecayCT) :=
  pathways_one so sites [c] _ _ (ct_select so sites c hc)

/-- Two carbons and a proton: the eight lines of the two carbons. A pair of deuterium and carbon. -/
example : (∃ paths, transitionPathways stdOrder [⟨"13C", 1⟩, ⟨"1H", 1⟩, ⟨"13C", 1⟩] ["13C"] blochDecay = .ok paths ∧ paths.length = 8) ∧
    ∃ paths, transitionPathways stdOrder [⟨"2H", 2⟩, ⟨"13C", 1⟩] ["13C"] blochDecayCT = .ok paths ∧ paths.length = 3 := by
  refine ⟨⟨_, rfl, ?_⟩, ⟨_, rfl, ?_⟩⟩ <;> decide +kernel

/-- **C84**. Cosy: all pairs of single-quantum transitions of one site. -/
theorem C84_cosy (so : SetOrder) (sites : List Iso) (c : String) (hc : c ∈ sites.map Iso.symbol) :
    Spec.Pathways sites [Spec.Moves sites c 1 (-1) none, Spec.Moves sites c 1 (-1) none]
      (transitionPathways so sites [c] cosy) :=
  pathways_two so sites [c] _ _ _ _
    (select_moves so sites c 1 (-1) (by norm_num) (by norm_num) (List.count_pos_iff.mpr hc))
    (select_moves so sites c 1 (-1) (by norm_num) (by norm_num) (List.count_pos_iff.mpr hc))

/-- **C84**. Inadequate: a double-quantum transition of two sites together, then a single-quantum transition. For spin
systems with at least two sites of the isotope, or none. -/
theorem C84_inadequate_partial (so : SetOrder) (sites : List Iso) (hs : sites ≠ []) (c : String)
    (hc : (sites.map Iso.symbol).count c ≠ 1) :
    Spec.Pathways sites [Spec.Moves sites c 2 (-1) none, Spec.Moves sites c 1 (-1) none]
      (transitionPathways so sites [c] inadequate) := by
  by_cases h0 : c ∈ sites.map Iso.symbol
  · have hpos : 0 < (sites.map Iso.symbol).count c := List.count_pos_iff.mpr h0
    exact pathways_two so sites [c] _ _ _ _
      (select_moves so sites c 2 (-1) (by norm_num) (by norm_num) (by omega))
      (select_moves so sites c 1 (-1) (by norm_num) (by norm_num) hpos)
  · have none_moves : ∀ (r : ℕ) (t : Tr), 0 < r → ¬ Spec.Moves sites c r (-1) none t := by
      rintro r t hr ⟨K, h1, h2, -⟩
      obtain ⟨k, hk⟩ := Finset.card_pos.mp (by omega : 0 < K.card)
      have := h2 k hk
      rw [← List.getElem?_map] at this
      exact h0 (List.mem_of_getElem? this)
    refine pathways_two so sites [c] _ _ _ _ ⟨[], C10_absent_single so sites hs c _ h0, by simp, ?_⟩
      ⟨[], C10_absent_single so sites hs c _ h0, by simp, ?_⟩
    · intro t
      simp [none_moves 2 t (by norm_num)]
    · intro t
      simp [none_moves 1 t (by norm_num)]

/-- **C84, where the code disagrees.** A spin system with a single site of the isotope — most of a sample at natural
abundance — has no double-quantum transition, and the method is refused for it instead of observing nothing. -/
theorem C84_counterexample (so : SetOrder) (sites : List Iso) (c : String) (hc : (sites.map Iso.symbol).count c = 1) :
    transitionPathways so sites [c] inadequate = .error .valueError ∧ ∀ t, ¬ Spec.Moves sites c 2 (-1) none t := by
  constructor
  · have := C10_too_long so sites c ⟨[(1, [[-1, -1]])], none⟩ (List.count_pos_iff.mp (by omega)) [[-1, -1]] rfl
      (Or.inl ⟨[-1, -1], by simp, by rw [hc]; simp⟩)
    unfold transitionPathways segments inadequate
    simp only [List.flatten_cons, List.flatten_nil, List.append_nil, List.cons_append, List.nil_append, List.mapM_cons]
    rw [this]
    rfl
  · rintro t ⟨K, h1, h2, -⟩
    obtain ⟨a, b, hab, rfl⟩ := Finset.card_eq_two.mp h1
    have ha := h2 a (by simp)
    have hb := h2 b (by simp)
    rw [← List.getElem?_map] at ha hb
    have hdup : List.Duplicate c (sites.map Iso.symbol) := by
      rw [List.duplicate_iff_exists_distinct_get]
      obtain ⟨ha1, ha2⟩ := List.getElem?_eq_some_iff.mp ha
      obtain ⟨hb1, hb2⟩ := List.getElem?_eq_some_iff.mp hb
      rcases Nat.lt_or_gt_of_ne hab with h | h
      · exact ⟨⟨a, ha1⟩, ⟨b, hb1⟩, h, ha2.symm, hb2.symm⟩
      · exact ⟨⟨b, hb1⟩, ⟨a, ha1⟩, h, hb2.symm, ha2.symm⟩
    have := List.duplicate_iff_two_le_count.mp hdup
    omega

/-- A carbon pair with a proton, and a lone carbon with a proton. -/
example :
    (∃ paths, transitionPathways stdOrder [⟨"13C", 1⟩, ⟨"13C", 1⟩] ["13C"] inadequate = .ok paths ∧ paths.length = 4) ∧
    transitionPathways stdOrder [⟨"13C", 1⟩, ⟨"1H", 1⟩] ["13C"] inadequate = .error .valueError := by
  refine ⟨⟨_, rfl, ?_⟩, ?_⟩ <;> decide +kernel

/-- The sixteen pathways of the documentation of `Cosy`. -/
example : ∃ paths, transitionPathways stdOrder [⟨"13C", 1⟩, ⟨"13C", 1⟩] ["13C"] cosy = .ok paths ∧ paths.length = 16 := by
  refine ⟨_, rfl, ?_⟩
  decide +kernel

/-- **C85**. Multiple-quantum methods on any spin system: first one site makes the symmetric `n`-quantum transition,
then one site makes the central transition. `I` is the spin of the channel. -/
theorem C85_mq_vas (so : SetOrder) (sites : List Iso) (c : String) (hc : c ∈ sites.map Iso.symbol) (twoI : Nat)
    (name : String) (n : Nat) (hname : (name, n) ∈ mqSymmetry) (affine : Option (List ℚ)) (dims : List (List Query)) (a : List ℚ)
    (h : mqUpdate name twoI affine = .ok (dims, a)) :
    Spec.Pathways sites
      [Spec.Moves sites c 1 (if twoI = n then -(n : ℚ) else n) (some [if twoI = n then (n : ℚ) / 2 else -(n : ℚ) / 2]),
        Spec.Moves sites c 1 (-1) (some [1 / 2])] (transitionPathways so sites [c] dims) := by
  have hl : mqSymmetry.lookup name = some n ∧ 0 < n := by
    simp only [mqSymmetry, List.mem_cons, Prod.mk.injEq, List.not_mem_nil, or_false] at hname
    rcases hname with ⟨rfl, rfl⟩ | ⟨rfl, rfl⟩ | ⟨rfl, rfl⟩ <;> decide
  have hpos : (0 : ℚ) < n := by exact_mod_cast hl.2
  unfold mqUpdate at h
  rw [hl.1] at h
  simp only [bind, Except.bind, pure, Except.pure] at h
  cases ha : updateAffine (lookup2 shearMQ n twoI) affine with
  | error e => rw [ha] at h; cases h
  | ok a' =>
    rw [ha] at h
    injection h with h
    rw [Prod.mk.injEq] at h
    rw [← h.1]
    have sym : ∀ P : ℚ, P ≠ 0 → ∀ i : ℚ, (i + P) ^ 2 - i ^ 2 ∈ [(0 : ℚ)] ↔ i ∈ [-P / 2] := by
      intro P hP i
      rw [List.mem_singleton, List.mem_singleton]
      have e : (i + P) ^ 2 - i ^ 2 = P * (2 * i + P) := by ring
      rw [e, mul_eq_zero]
      constructor
      · rintro (h | h)
        · exact absurd h hP
        · linarith
      · rintro rfl
        right
        ring
    by_cases he : twoI = n
    · have hne : (-(n : ℚ)) ≠ 0 := by linarith
      have := select_start so sites c (-(n : ℚ)) hne hc [0] [(n : ℚ) / 2] (by simp) (by
        intro i
        rw [sym _ hne, neg_neg])
      simp only [he, if_true]
      exact pathways_two so sites [c] _ _ _ _ this (ct_select so sites c hc)
    · have hne : (n : ℚ) ≠ 0 := by linarith
      have := select_start so sites c (n : ℚ) hne hc [0] [-(n : ℚ) / 2] (by simp) (sym _ hne)
      simp only [he, Ne.symm he, if_false]
      exact pathways_two so sites [c] _ _ _ _ this (ct_select so sites c hc)

/-- **C85**. Satellite methods: first one site makes one of the two satellite transitions, then one site makes the central
transition. -/
theorem C85_st_vas (so : SetOrder) (sites : List Iso) (c : String) (hc : c ∈ sites.map Iso.symbol) (twoI : Nat)
    (name : String) (s2 : Nat) (hname : (name, s2) ∈ stSymmetry) (affine : Option (List ℚ)) (dims : List (List Query)) (a : List ℚ)
    (h : stUpdate name twoI affine = .ok (dims, a)) :
    Spec.Pathways sites
      [Spec.Moves sites c 1 (-1) (some [(s2 : ℚ) / 2, 1 - (s2 : ℚ) / 2]),
        Spec.Moves sites c 1 (-1) (some [1 / 2])] (transitionPathways so sites [c] dims) := by
  have hl : stSymmetry.lookup name = some s2 := by
    simp only [stSymmetry, List.mem_cons, Prod.mk.injEq, List.not_mem_nil, or_false] at hname
    rcases hname with ⟨rfl, rfl⟩ | ⟨rfl, rfl⟩ <;> decide
  unfold stUpdate at h
  rw [hl] at h
  simp only [bind, Except.bind, pure, Except.pure] at h
  cases ha : updateAffine (lookup2 shearST s2 twoI) affine with
  | error e => rw [ha] at h; cases h
  | ok a' =>
    rw [ha] at h
    injection h with h
    rw [Prod.mk.injEq] at h
    rw [← h.1]
    have := select_start so sites c (-1) (by norm_num) hc
      [((s2 : ℚ) / 2) ^ 2 - ((s2 : ℚ) / 2 - 1) ^ 2, -(((s2 : ℚ) / 2) ^ 2 - ((s2 : ℚ) / 2 - 1) ^ 2)]
      [(s2 : ℚ) / 2, 1 - (s2 : ℚ) / 2] (by simp) (by
        intro i
        simp only [List.mem_cons, List.not_mem_nil, or_false]
        constructor
        · rintro (h | h)
          · right; linarith [(by ring : (i + -1) ^ 2 - i ^ 2 = 1 - 2 * i), (by ring : ((s2 : ℚ) / 2) ^ 2 - ((s2 : ℚ) / 2 - 1) ^ 2 = s2 - 1)]
          · left; linarith [(by ring : (i + -1) ^ 2 - i ^ 2 = 1 - 2 * i), (by ring : ((s2 : ℚ) / 2) ^ 2 - ((s2 : ℚ) / 2 - 1) ^ 2 = s2 - 1)]
        · rintro (rfl | rfl)
          · right; ring
          · left; ring)
    exact pathways_two so sites [c] _ _ _ _ this (ct_select so sites c hc)

/-- **C85**. Sideband separation: one site makes the central transition, in each of the dimensions. -/
theorem C85_ssb2d (so : SetOrder) (sites : List Iso) (c : String) (hc : c ∈ sites.map Iso.symbol) :
    Spec.Pathways sites [Spec.Moves sites c 1 (-1) (some [1 / 2]), Spec.Moves sites c 1 (-1) (some [1 / 2])]
      (transitionPathways so sites [c] ssb2d) :=
  pathways_two so sites [c] _ _ _ _ (ct_select so sites c hc) (ct_select so sites c hc)

/-- All transitions of the pathway are of one and the same site, while the others stay in one state throughout. -/
def Spec.OneSite (p : List Tr) : Prop :=
  ∃ (k : ℕ) (rest : ℕ → Option ℚ), ∀ t ∈ p, ∀ j, j ≠ k → t.1[j]? = rest j ∧ t.2[j]? = rest j

theorem one_site (s : Iso) (conds : List (Tr → Prop)) (r : Py (List (List Tr))) (h : Spec.Pathways [s] conds r) :
    ∃ paths, r = .ok paths ∧ ∀ p ∈ paths, Spec.OneSite p := by
  obtain ⟨paths, h1, -, h3⟩ := h
  refine ⟨paths, h1, ?_⟩
  intro p hm
  refine ⟨0, fun _ => none, ?_⟩
  intro t ht j hj
  have h4 := (h3 p).mp hm
  have hT : Spec.IsTransition [s] t := by
    obtain ⟨i, hi, rfl⟩ := List.getElem_of_mem ht
    obtain ⟨hl, hg⟩ := List.forall₂_iff_get.mp h4
    exact (hg i (by rw [hl]; exact hi) hi).1
  constructor
  · exact List.getElem?_eq_none (by rw [state_length hT.1]; simp; omega)
  · exact List.getElem?_eq_none (by rw [state_length hT.2]; simp; omega)

/-- **C85**. For a spin system of one site these methods correlate the site with itself. -/
theorem C85_one_site_partial (so : SetOrder) (s : Iso) (dims : List (List Query))
    (h : dims = ssb2d ∨
      (∃ name n twoI affine a, (name, n) ∈ mqSymmetry ∧ mqUpdate name twoI affine = .ok (dims, a)) ∨
      ∃ name n twoI affine a, (name, n) ∈ stSymmetry ∧ stUpdate name twoI affine = .ok (dims, a)) :
    ∃ paths, transitionPathways so [s] [s.symbol] dims = .ok paths ∧ ∀ p ∈ paths, Spec.OneSite p := by
  have hc : s.symbol ∈ [s].map Iso.symbol := by simp
  rcases h with rfl | ⟨name, n, twoI, affine, a, hn, hu⟩ | ⟨name, n, twoI, affine, a, hn, hu⟩
  · exact one_site s _ _ (C85_ssb2d so [s] _ hc)
  · exact one_site s _ _ (C85_mq_vas so [s] _ hc twoI name n hn affine dims a hu)
  · exact one_site s _ _ (C85_st_vas so [s] _ hc twoI name n hn affine dims a hu)

/-- Rubidium in a triple-quantum experiment. -/
example : ∃ dims a, mqUpdate "ThreeQ_VAS" 3 none = .ok (dims, a) ∧ ∃ paths,
    transitionPathways stdOrder [⟨"87Rb", 3⟩] ["87Rb"] dims = .ok paths ∧ paths.length = 1 ∧ ∀ p ∈ paths, Spec.OneSite p := by
  refine ⟨_, _, rfl, ?_⟩
  obtain ⟨paths, h1, h2⟩ := C85_one_site_partial stdOrder ⟨"87Rb", 3⟩ _
    (Or.inr (Or.inl ⟨"ThreeQ_VAS", 3, 3, none, _, by decide, rfl⟩))
  refine ⟨paths, h1, ?_, h2⟩
  have h3 := C15_mq_vas stdOrder "87Rb" 3 (by decide) "ThreeQ_VAS" 3 (by decide) (by decide) none _ _ rfl
  injection h1.symm.trans h3 with h3
  rw [h3]
  rfl

theorem not_oneSite (t u : Tr) (h0 : t.1[0]? ≠ t.2[0]?) (h1 : ∀ k : ℕ, k = 0 → ¬ (u.1[1]? = u.2[1]? ∧ u.1[1]? = t.1[1]?)) :
    ¬ Spec.OneSite [t, u] := by
  rintro ⟨k, rest, h⟩
  by_cases hk : k = 0
  · subst hk
    have ht := h t (by simp) 1 (by omega)
    have hu := h u (by simp) 1 (by omega)
    exact h1 0 rfl ⟨hu.1.trans hu.2.symm, hu.1.trans ht.1.symm⟩
  · have ht := h t (by simp) 0 (Ne.symm hk)
    exact h0 (ht.1.trans ht.2.symm)

theorem half_allowed (c : String) (n j : ℕ) (hn : n % 2 = 1) (hj : j % 2 = 1) (hjn : j ≤ n) (m : ℚ)
    (hm : m = (j : ℚ) / 2 ∨ m = -(j : ℚ) / 2) : Spec.Allowed ⟨c, n⟩ m := by
  rcases hm with rfl | rfl
  · exact (allowed_half_odd c n j hn hj hjn).1
  · exact (allowed_half_odd c n j hn hj hjn).2

/-- **C85, where the code disagrees.** With two sites of the isotope the methods also correlate one site with the other, and
with a site of another isotope the transitions of a pathway may belong to different states of it. -/
theorem C85_counterexample (so : SetOrder) :
    (∃ paths p, transitionPathways so [⟨"13C", 1⟩, ⟨"13C", 1⟩] ["13C"] ssb2d = .ok paths ∧ p ∈ paths ∧ ¬ Spec.OneSite p) ∧
    (∃ paths p, transitionPathways so [⟨"13C", 1⟩, ⟨"1H", 1⟩] ["13C"] ssb2d = .ok paths ∧ p ∈ paths ∧ ¬ Spec.OneSite p) ∧
    (∃ dims a paths p, mqUpdate "ThreeQ_VAS" 3 none = .ok (dims, a) ∧
      transitionPathways so [⟨"87Rb", 3⟩, ⟨"87Rb", 3⟩] ["87Rb"] dims = .ok paths ∧ p ∈ paths ∧ ¬ Spec.OneSite p) := by
  refine ⟨?_, ?_, ?_⟩
  · obtain ⟨paths, h1, -, h3⟩ := C85_ssb2d so [⟨"13C", 1⟩, ⟨"13C", 1⟩] "13C" (by simp)
    refine ⟨paths, [([1/2, 1/2], [-1/2, 1/2]), ([1/2, 1/2], [1/2, -1/2])], h1, (h3 _).mpr ?_, ?_⟩
    · refine .cons ⟨⟨.cons ?_ (.cons ?_ .nil), .cons ?_ (.cons ?_ .nil)⟩, {0}, ?_, ?_, ?_, ?_⟩
        (.cons ⟨⟨.cons ?_ (.cons ?_ .nil), .cons ?_ (.cons ?_ .nil)⟩, {1}, ?_, ?_, ?_, ?_⟩ .nil)
      all_goals first
        | (refine half_allowed _ 1 1 rfl rfl (by omega) _ ?_; norm_num; done)
        | (simp; done)
        | (intro k hk
           simp only [List.length_cons, List.length_nil] at hk
           interval_cases k <;> simp <;> norm_num)
    · apply not_oneSite
      · simp; norm_num
      · intro _ _; simp; norm_num
  · obtain ⟨paths, h1, -, h3⟩ := C85_ssb2d so [⟨"13C", 1⟩, ⟨"1H", 1⟩] "13C" (by simp)
    refine ⟨paths, [([1/2, 1/2], [-1/2, 1/2]), ([1/2, -1/2], [-1/2, -1/2])], h1, (h3 _).mpr ?_, ?_⟩
    · refine .cons ⟨⟨.cons ?_ (.cons ?_ .nil), .cons ?_ (.cons ?_ .nil)⟩, {0}, ?_, ?_, ?_, ?_⟩
        (.cons ⟨⟨.cons ?_ (.cons ?_ .nil), .cons ?_ (.cons ?_ .nil)⟩, {0}, ?_, ?_, ?_, ?_⟩ .nil)
      all_goals first
        | (refine half_allowed _ 1 1 rfl rfl (by omega) _ ?_; norm_num; done)
        | (simp; done)
        | (intro k hk
           simp only [List.length_cons, List.length_nil] at hk
           interval_cases k <;> simp <;> norm_num)
    · apply not_oneSite
      · simp; norm_num
      · intro _ _; simp; norm_num
  · obtain ⟨paths, h1, -, h3⟩ := C85_mq_vas so [⟨"87Rb", 3⟩, ⟨"87Rb", 3⟩] "87Rb" (by simp) 3 "ThreeQ_VAS" 3 (by decide) none _ _ rfl
    refine ⟨_, _, paths, [([3/2, 1/2], [-3/2, 1/2]), ([1/2, 1/2], [1/2, -1/2])], rfl, h1, (h3 _).mpr ?_, ?_⟩
    · refine .cons ⟨⟨.cons ?_ (.cons ?_ .nil), .cons ?_ (.cons ?_ .nil)⟩, {0}, ?_, ?_, ?_, ?_⟩
        (.cons ⟨⟨.cons ?_ (.cons ?_ .nil), .cons ?_ (.cons ?_ .nil)⟩, {1}, ?_, ?_, ?_, ?_⟩ .nil)
      all_goals first
        | (refine half_allowed _ 3 1 rfl rfl (by omega) _ ?_; norm_num; done)
        | (refine half_allowed _ 3 3 rfl rfl (by omega) _ ?_; norm_num; done)
        | (simp; done)
        | (intro k hk
           simp only [List.length_cons, List.length_nil] at hk
           interval_cases k <;> simp <;> norm_num)
    · apply not_oneSite
      · simp; norm_num
      · intro _ _; simp; norm_num

end MRS.Trans
