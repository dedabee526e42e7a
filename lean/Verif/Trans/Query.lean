import Verif.Trans.States
import Mathlib.Data.List.Perm.Basic
import Mathlib.Data.List.Nodup
import Mathlib.Data.List.Infix

/-!
# Transition queries — specification and lemmas (C09, C10, C12)
-/

namespace MRS.Trans

/-! ## Specification -/

namespace Spec

/-- The entries of `v` at the sites of isotope `c`, in site order. -/
def onChannel (isotope : List String) (c : String) (v : List ℚ) : List ℚ :=
  ((isotope.zip v).filter fun p => p.1 = c).map Prod.snd

/-- `vals` is a rearrangement of `entry` padded with zeros. -/
def Rearranges (entry vals : List ℚ) : Prop :=
  entry.length ≤ vals.length ∧
    vals.Perm (entry ++ List.replicate (vals.length - entry.length) 0)

/-- `v` (one number per site) is described by the channels: on the sites of each
channel it rearranges one of the entries of that channel, elsewhere it is zero. -/
def Matches (isotope : List String) (chs : List (String × List (List ℚ))) (v : List ℚ) : Prop :=
  (∀ ce ∈ chs, ∃ e ∈ ce.2, Rearranges e (onChannel isotope ce.1 v)) ∧
  ∀ p ∈ isotope.zip v, p.1 ∉ chs.map Prod.fst → p.2 = 0

end Spec

/-! ## numpy set operations on sorted index lists -/

theorem insertionSort_filter_range (m : Nat) (p : Nat → Bool) :
    ((List.range m).filter p).insertionSort (· ≤ ·) = (List.range m).filter p := by
  apply List.Pairwise.insertionSort_eq
  exact (List.pairwise_lt_range.filter _).imp fun h => le_of_lt h

theorem nodup_filter_range (m : Nat) (p : Nat → Bool) : ((List.range m).filter p).Nodup :=
  List.nodup_range.filter _

theorem intersect1d_filter (m : Nat) (p q : Nat → Bool) :
    intersect1d ((List.range m).filter p) ((List.range m).filter q) =
      (List.range m).filter fun r => p r && q r := by
  unfold intersect1d
  have : (((List.range m).filter p).filter fun x => x ∈ (List.range m).filter q) =
      (List.range m).filter fun r => p r && q r := by
    rw [List.filter_filter]
    apply List.filter_congr
    intro x hx
    simp [List.mem_range.mp hx, Bool.and_comm]
  rw [this, (nodup_filter_range m _).dedup, insertionSort_filter_range]

theorem union1d_filter (m : Nat) (p q : Nat → Bool) :
    union1d ((List.range m).filter p) ((List.range m).filter q) =
      (List.range m).filter fun r => p r || q r := by
  unfold union1d
  have hperm : (((List.range m).filter p ++ (List.range m).filter q).dedup).Perm
      ((List.range m).filter fun r => p r || q r) := by
    rw [List.perm_ext_iff_of_nodup (List.nodup_dedup _) (nodup_filter_range m _)]
    intro a
    simp only [List.mem_dedup, List.mem_append, List.mem_filter, Bool.or_eq_true]
    tauto
  refine List.Perm.eq_of_pairwise (fun a b _ _ hab hba => le_antisymm hab hba)
    (List.pairwise_insertionSort _ _) ?_ ((List.perm_insertionSort _ _).trans hperm)
  exact (List.pairwise_lt_range.filter _).imp fun h => le_of_lt h

/-! ## `get_symmetry_indexes` -/

/-- Row `r` agrees with `s` in the first `n` columns. -/
def agree (n : Nat) (v s : List ℚ) : Bool :=
  decide (∀ i < n, v.getD i 0 = s.getD i 0)

theorem foldl_intersect (m : Nat) (f : Nat → Nat → Bool) (l : List Nat) (p : Nat → Bool) :
    (l.map fun i => (List.range m).filter (f i)).foldl intersect1d ((List.range m).filter p) =
      (List.range m).filter fun r => p r && l.all fun i => f i r := by
  induction l generalizing p with
  | nil => simp
  | cons i l ih =>
    simp only [List.map_cons, List.foldl_cons]
    rw [intersect1d_filter, ih]
    apply List.filter_congr
    intro r _
    simp [Bool.and_assoc]

theorem foldl_union (m : Nat) (g : List ℚ → Nat → Bool) (l : List (List ℚ)) (p : Nat → Bool) :
    (l.map fun s => (List.range m).filter (g s)).foldl union1d ((List.range m).filter p) =
      (List.range m).filter fun r => p r || l.any fun s => g s r := by
  induction l generalizing p with
  | nil => simp
  | cons i l ih =>
    simp only [List.map_cons, List.foldl_cons]
    rw [union1d_filter, ih]
    apply List.filter_congr
    intro r _
    simp [Bool.or_assoc]

theorem mapM_ok {α β} (l : List α) (f : α → Py β) (g : α → β)
    (h : ∀ a ∈ l, f a = .ok (g a)) : l.mapM f = .ok (l.map g) := by
  induction l with
  | nil => rfl
  | cons a l ih =>
    rw [List.mapM_cons, h a (by simp), ih (fun b hb => h b (by simp [hb]))]
    rfl

theorem getSymmetryIndexes_eq (n : Nat) (hn : 0 < n) (fn : List (List ℚ))
    (syms : List (List ℚ)) :
    getSymmetryIndexes n fn syms = .ok ((List.range fn.length).filter fun r =>
      syms.any fun s => agree n (fn.getD r []) s) := by
  obtain ⟨k, rfl⟩ : ∃ k, n = k + 1 := ⟨n - 1, by omega⟩
  unfold getSymmetryIndexes
  have h1 : ∀ s ∈ syms, reduce1 intersect1d ((List.range (k + 1)).map fun i =>
      whereEq fn i (s.getD i 0)) = .ok ((List.range fn.length).filter fun r =>
        agree (k + 1) (fn.getD r []) s) := by
    intro s _
    rw [List.range_succ_eq_map, List.map_cons]
    simp only [reduce1, whereEq]
    congr 1
    rw [foldl_intersect fn.length
      (fun i r => decide ((fn.getD r []).getD i 0 = s.getD i 0))]
    apply List.filter_congr
    intro r _
    rw [Bool.eq_iff_iff]
    simp only [List.all_map, Bool.and_eq_true, List.all_eq_true, decide_eq_true_eq,
      List.mem_range, agree, Function.comp]
    constructor
    · rintro ⟨h0, h⟩ i hi
      cases i with
      | zero => exact h0
      | succ i => exact h i (by omega)
    · intro h
      exact ⟨h 0 (by omega), fun i hi => h (i + 1) (by omega)⟩
  rw [mapM_ok _ _ _ h1]
  simp only [bind, Except.bind, pure, Except.pure]
  congr 1
  have hnil : ([] : List Nat) = (List.range fn.length).filter fun _ => false := by simp
  rw [hnil, foldl_union fn.length (fun s r => agree (k + 1) (fn.getD r []) s)]
  simp

theorem map_getD_filter_range {α} (all : List α) (d : α) (P : α → Bool) :
    (((List.range all.length).filter fun r => P (all.getD r d)).map fun r => all.getD r d) =
      all.filter P := by
  have h : (List.range all.length).map (fun r => all.getD r d) = all := by
    apply List.ext_getElem
    · simp
    · intro i h1 h2
      simp only [List.getElem_map, List.getElem_range]
      exact List.getD_eq_getElem _ _ h2
  conv_rhs => rw [← h, List.filter_map]
  rfl

/-- Selecting by index list equals filtering. -/
theorem select_eq (n : Nat) (hn : 0 < n) (all : List Tr) (f : Tr → List ℚ)
    (syms : List (List ℚ)) :
    (do let idx ← getSymmetryIndexes n (all.map f) syms
        pure (idx.map fun r => all.getD r ([], []))) =
      (.ok (all.filter fun t => syms.any fun s => agree n (f t) s) : Py (List Tr)) := by
  rw [getSymmetryIndexes_eq n hn]
  simp only [bind, Except.bind, pure, Except.pure]
  congr 1
  rw [← map_getD_filter_range all ([], [])]
  congr 1
  rw [List.length_map]
  apply List.filter_congr
  intro r hr
  have hr := List.mem_range.mp hr
  rw [List.getD_eq_getElem _ _ (by simpa using hr), List.getD_eq_getElem _ _ hr]
  simp

/-! ## Rows of the expanded query -/

theorem rowSet_length (row : List ℚ) (idx : List Nat) (vals : List ℚ) :
    (rowSet row idx vals).length = row.length := by
  induction idx generalizing row vals with
  | nil => simp [rowSet]
  | cons i is ih =>
    cases vals with
    | nil => simp [rowSet]
    | cons v vs => simp [rowSet, ih]

theorem getD_set (row : List ℚ) (i s : Nat) (x : ℚ) (hi : i < row.length) :
    (row.set i x).getD s 0 = if s = i then x else row.getD s 0 := by
  simp only [List.getD_eq_getElem?_getD, List.getElem?_set]
  by_cases h : i = s
  · subst h; simp [hi]
  · simp [h, Ne.symm h]

theorem rowSet_agree (n : Nat) (Q : Nat → Prop) (v : List ℚ) (row : List ℚ) (hrow : row.length = n)
    (idx : List Nat) (vals : List ℚ) (hlen : vals.length = idx.length) (hnd : idx.Nodup)
    (hlt : ∀ i ∈ idx, i < n) (hQ : ∀ i ∈ idx, Q i) :
    (∀ s < n, Q s → v.getD s 0 = (rowSet row idx vals).getD s 0) ↔
      (idx.map (fun s => v.getD s 0) = vals ∧
        ∀ s < n, Q s → s ∉ idx → v.getD s 0 = row.getD s 0) := by
  induction idx generalizing row vals with
  | nil =>
    cases vals with
    | nil => simp [rowSet]
    | cons => simp at hlen
  | cons i is ih =>
    cases vals with
    | nil => simp at hlen
    | cons x vs =>
      have hi : i < row.length := by rw [hrow]; exact hlt i (by simp)
      rw [List.nodup_cons] at hnd
      simp only [rowSet]
      rw [ih (row.set i x) (by simpa using hrow) vs (by simpa using hlen) hnd.2
        (fun j hj => hlt j (by simp [hj])) (fun j hj => hQ j (by simp [hj]))]
      simp only [List.map_cons, List.cons.injEq, List.mem_cons, not_or]
      constructor
      · rintro ⟨h1, h2⟩
        refine ⟨⟨?_, h1⟩, ?_⟩
        · have := h2 i (hlt i (by simp)) (hQ i (by simp)) hnd.1
          rw [getD_set _ _ _ _ hi] at this
          simpa using this
        · rintro s hs hq ⟨hsi, hsis⟩
          have := h2 s hs hq hsis
          rw [getD_set _ _ _ _ hi, if_neg hsi] at this
          exact this
      · rintro ⟨⟨h0, h1⟩, h2⟩
        refine ⟨h1, ?_⟩
        intro s hs hq hsis
        rw [getD_set _ _ _ _ hi]
        by_cases hsi : s = i
        · subst hsi; simpa using h0
        · rw [if_neg hsi]; exact h2 s hs hq ⟨hsi, hsis⟩

theorem isoIndex_nodup (isotope : List String) (c : String) : (isoIndex isotope c).Nodup :=
  nodup_filter_range _ _

theorem mem_isoIndex (isotope : List String) (c : String) (s : Nat) :
    s ∈ isoIndex isotope c ↔ s < isotope.length ∧ isotope.getD s "" = c := by
  simp [isoIndex]

theorem isoIndex_map (isotope : List String) (c : String) (v : List ℚ)
    (h : v.length = isotope.length) :
    (isoIndex isotope c).map (fun s => v.getD s 0) = Spec.onChannel isotope c v := by
  unfold Spec.onChannel
  have hz : isotope.zip v = (List.range isotope.length).map
      fun s => (isotope.getD s "", v.getD s 0) := by
    apply List.ext_getElem
    · simp [h]
    · intro i h1 h2
      have hi : i < isotope.length := by simpa using h2
      simp only [List.getElem_zip, List.getElem_map, List.getElem_range]
      rw [List.getD_eq_getElem _ _ hi, List.getD_eq_getElem _ _ (by omega)]
  rw [hz, List.filter_map, List.map_map]
  rfl

theorem onChannel_length (isotope : List String) (c : String) (v : List ℚ)
    (h : v.length = isotope.length) :
    (Spec.onChannel isotope c v).length = (isoIndex isotope c).length := by
  rw [← isoIndex_map isotope c v h, List.length_map]

/-- Successive assignment of all channels to one row. -/
def fillRow (isotope : List String) : List String → List (List ℚ) → List ℚ → List ℚ
  | c :: cs, v :: vs, row => fillRow isotope cs vs (rowSet row (isoIndex isotope c) v)
  | _, _, row => row

theorem fillRow_length (isotope : List String) (cs : List String) (vs : List (List ℚ))
    (row : List ℚ) : (fillRow isotope cs vs row).length = row.length := by
  induction cs generalizing vs row with
  | nil => cases vs <;> simp [fillRow]
  | cons c cs ih =>
    cases vs with
    | nil => simp [fillRow]
    | cons v vs => simp [fillRow, ih, rowSet_length]

theorem fillRow_agree (isotope : List String) (v : List ℚ) (hv : v.length = isotope.length)
    (cs : List String) (hcs : cs.Nodup) (vals : List (List ℚ))
    (hvals : List.Forall₂ (fun c x => x.length = (isoIndex isotope c).length) cs vals)
    (row : List ℚ) (hrow : row.length = isotope.length) :
    (∀ s < isotope.length, v.getD s 0 = (fillRow isotope cs vals row).getD s 0) ↔
      List.Forall₂ (fun c x => Spec.onChannel isotope c v = x) cs vals ∧
      ∀ s < isotope.length, isotope.getD s "" ∉ cs → v.getD s 0 = row.getD s 0 := by
  induction hvals generalizing row with
  | nil => simp [fillRow]
  | @cons c x cs vals hx hrest ih =>
    rw [List.nodup_cons] at hcs
    simp only [fillRow]
    rw [ih hcs.2 _ (by rw [rowSet_length]; exact hrow)]
    rw [rowSet_agree isotope.length (fun s => isotope.getD s "" ∉ cs) v row hrow _ x hx
      (isoIndex_nodup _ _) (fun i hi => ((mem_isoIndex _ _ _).mp hi).1)
      (fun i hi => by rw [((mem_isoIndex _ _ _).mp hi).2]; exact hcs.1)]
    rw [isoIndex_map isotope c v hv, List.forall₂_cons]
    constructor
    · rintro ⟨h1, h2, h3⟩
      refine ⟨⟨h2, h1⟩, fun s hs hn => ?_⟩
      simp only [List.mem_cons, not_or] at hn
      exact h3 s hs hn.2 (fun hm => hn.1 ((mem_isoIndex _ _ _).mp hm).2)
    · rintro ⟨⟨h2, h1⟩, h3⟩
      refine ⟨h1, h2, fun s hs hn hni => h3 s hs ?_⟩
      simp only [List.mem_cons, not_or]
      exact ⟨fun he => hni ((mem_isoIndex _ _ _).mpr ⟨hs, he⟩), hn⟩

/-- The value of one channel used in row `r`. -/
def pick (L : Nat) (temp : List (List ℚ)) (r : Nat) : List ℚ :=
  temp.getD (if temp.length = L then r else 0) []

theorem assignCols_cases (L : Nat) (rows : List (List ℚ)) (idx : List Nat)
    (value : List (List ℚ)) (out : List (List ℚ)) (hL : rows.length = L)
    (h : assignCols L rows idx value = .ok out) :
    0 < value.length ∧ (value.length = L ∨ value.length = 1) ∧
    out.length = L ∧ ∀ r < L, out.getD r [] = rowSet (rows.getD r []) idx (pick L value r) := by
  unfold assignCols at h
  split_ifs at h with h0 h1 h2
  · injection h with h
    subst h
    refine ⟨by omega, Or.inl h1, by simp [hL, h1], fun r hr => ?_⟩
    rw [List.getD_eq_getElem _ _ (by simp [hL, h1, hr])]
    rw [List.getD_eq_getElem _ _ (by omega)]
    simp only [List.getElem_zipWith, pick, h1, if_true]
    rw [List.getD_eq_getElem _ _ (by omega)]
  · injection h with h
    subst h
    refine ⟨by omega, Or.inr h2, by simp [hL], fun r hr => ?_⟩
    rw [List.getD_eq_getElem _ _ (by simp [hL, hr])]
    rw [List.getD_eq_getElem _ _ (by omega)]
    simp only [List.getElem_map, pick, h1, if_false]
    cases value with
    | nil => simp at h2
    | cons a l => simp

theorem fillLoop_ok (L : Nat) (isotope : List String) (cs : List String)
    (perms : List (List (List ℚ))) (hlen : cs.length = perms.length)
    (rows out : List (List ℚ)) (hL : rows.length = L)
    (h : fillLoop L isotope cs perms rows = .ok out) :
    (∀ t ∈ perms, 0 < t.length ∧ (t.length = L ∨ t.length = 1)) ∧ out.length = L ∧
    ∀ r < L, out.getD r [] = fillRow isotope cs (perms.map fun t => pick L t r) (rows.getD r []) := by
  induction cs generalizing perms rows with
  | nil =>
    cases perms with
    | nil =>
      simp only [fillLoop] at h
      injection h with h
      subst h
      simp [fillRow, hL]
    | cons => simp at hlen
  | cons c cs ih =>
    cases perms with
    | nil => simp at hlen
    | cons t perms =>
      simp only [fillLoop, bind, Except.bind] at h
      cases ha : assignCols L rows (isoIndex isotope c) t with
      | error e => rw [ha] at h; cases h
      | ok rows' =>
        rw [ha] at h
        obtain ⟨h1, h2, h3, h4⟩ := assignCols_cases L rows _ t rows' hL ha
        obtain ⟨h5, h6, h7⟩ := ih perms (by simpa using hlen) rows' h3 h
        refine ⟨?_, h6, ?_⟩
        · intro u hu
          rcases List.mem_cons.mp hu with rfl | hu
          · exact ⟨h1, h2⟩
          · exact h5 u hu
        · intro r hr
          rw [h7 r hr, h4 r hr]
          rfl

theorem fillLoop_isOk (L : Nat) (isotope : List String) (cs : List String)
    (perms : List (List (List ℚ))) (hlen : cs.length = perms.length)
    (rows : List (List ℚ)) (hL : rows.length = L)
    (hp : ∀ t ∈ perms, 0 < t.length ∧ (t.length = L ∨ t.length = 1)) :
    ∃ out, fillLoop L isotope cs perms rows = .ok out := by
  induction cs generalizing perms rows with
  | nil => cases perms <;> exact ⟨rows, rfl⟩
  | cons c cs ih =>
    cases perms with
    | nil => exact ⟨rows, rfl⟩
    | cons t perms =>
      have ht := hp t (by simp)
      have : ∃ rows', assignCols L rows (isoIndex isotope c) t = .ok rows' := by
        unfold assignCols
        have h0 : ¬ t.length = 0 := by omega
        rcases ht.2 with h | h
        · exact ⟨_, by rw [if_neg h0, if_pos h]⟩
        · by_cases h' : t.length = L
          · exact ⟨_, by rw [if_neg h0, if_pos h']⟩
          · exact ⟨_, by rw [if_neg h0, if_neg h', if_pos h]⟩
      obtain ⟨rows', hr⟩ := this
      obtain ⟨_, _, h3, _⟩ := assignCols_cases L rows _ t rows' hL hr
      obtain ⟨out, ho⟩ := ih perms (by simpa using hlen) rows' h3 (fun u hu => hp u (by simp [hu]))
      exact ⟨out, by simp only [fillLoop, bind, Except.bind, hr]; exact ho⟩

/-! ## `channelPerms` and `permLoop` -/

theorem channelPerms_error (so : SetOrder) (n : Nat) (entries : List (List ℚ))
    (h : ∃ e ∈ entries, n < e.length) : channelPerms so n entries = .error .valueError := by
  induction entries with
  | nil => simp at h
  | cons e es ih =>
    simp only [channelPerms]
    by_cases he : e.length > n
    · rw [if_pos he]
    · rw [if_neg he]
      have : ∃ e ∈ es, n < e.length := by
        obtain ⟨e', he', hl⟩ := h
        rcases List.mem_cons.mp he' with rfl | h'
        · exact absurd hl he
        · exact ⟨e', h', hl⟩
      rw [ih this]
      rfl

theorem mem_order (so : SetOrder) (l : List (List ℚ)) (t : List ℚ) :
    t ∈ so.order l ↔ t ∈ l := by
  rw [(so.perm l).mem_iff, List.mem_dedup]

theorem channelPerms_ok (so : SetOrder) (n : Nat) (entries : List (List ℚ))
    (h : ∀ e ∈ entries, e.length ≤ n) :
    ∃ temp, channelPerms so n entries = .ok temp ∧
      (∀ t, t ∈ temp ↔ ∃ e ∈ entries, t.Perm (e ++ List.replicate (n - e.length) 0)) ∧
      (entries ≠ [] → temp ≠ []) := by
  induction entries with
  | nil => exact ⟨[], rfl, by simp, by simp⟩
  | cons e es ih =>
    obtain ⟨temp, h1, h2, _⟩ := ih (fun x hx => h x (by simp [hx]))
    have he : ¬ e.length > n := by have := h e (by simp); omega
    refine ⟨so.order (e ++ List.replicate (n - e.length) 0).permutations' ++ temp, ?_, ?_, ?_⟩
    · simp only [channelPerms]
      rw [if_neg he, h1]
      rfl
    · intro t
      rw [List.mem_append, mem_order, List.mem_permutations', h2]
      constructor
      · rintro (h | ⟨e', he', h⟩)
        · exact ⟨e, by simp, h⟩
        · exact ⟨e', by simp [he'], h⟩
      · rintro ⟨e', he', hp⟩
        rcases List.mem_cons.mp he' with rfl | he'
        · exact Or.inl hp
        · exact Or.inr ⟨e', he', hp⟩
    · intro _ hnil
      have : (e ++ List.replicate (n - e.length) 0) ∈
          so.order (e ++ List.replicate (n - e.length) 0).permutations' := by
        rw [mem_order, List.mem_permutations']
      rw [List.append_eq_nil_iff] at hnil
      rw [hnil.1] at this
      cases this

theorem channelPerms_inv (so : SetOrder) (n : Nat) (entries temp : List (List ℚ))
    (h : channelPerms so n entries = .ok temp) :
    (∀ e ∈ entries, e.length ≤ n) ∧
      (∀ t, t ∈ temp ↔ ∃ e ∈ entries, t.Perm (e ++ List.replicate (n - e.length) 0)) := by
  have hle : ∀ e ∈ entries, e.length ≤ n := by
    intro e he
    by_contra hc
    rw [channelPerms_error so n entries ⟨e, he, by omega⟩] at h
    cases h
  obtain ⟨temp', h1, h2, _⟩ := channelPerms_ok so n entries hle
  rw [h1] at h
  injection h with h
  subst h
  exact ⟨hle, h2⟩

/-- The vectors of one channel, in terms of the specification. -/
theorem mem_temp_iff (isotope : List String) (c : String) (v : List ℚ)
    (hv : v.length = isotope.length) (entries temp : List (List ℚ))
    (hle : ∀ e ∈ entries, e.length ≤ (isoIndex isotope c).length)
    (hm : ∀ t, t ∈ temp ↔ ∃ e ∈ entries,
      t.Perm (e ++ List.replicate ((isoIndex isotope c).length - e.length) 0)) :
    Spec.onChannel isotope c v ∈ temp ↔
      ∃ e ∈ entries, Spec.Rearranges e (Spec.onChannel isotope c v) := by
  rw [hm]
  constructor
  · rintro ⟨e, he, hp⟩
    refine ⟨e, he, ?_, ?_⟩
    · rw [onChannel_length _ _ _ hv]; exact hle e he
    · rw [onChannel_length _ _ _ hv]; exact hp
  · rintro ⟨e, he, _, hp⟩
    rw [onChannel_length _ _ _ hv] at hp
    exact ⟨e, he, hp⟩

theorem temp_length (isotope : List String) (c : String) (entries temp : List (List ℚ))
    (hle : ∀ e ∈ entries, e.length ≤ (isoIndex isotope c).length)
    (hm : ∀ t, t ∈ temp ↔ ∃ e ∈ entries,
      t.Perm (e ++ List.replicate ((isoIndex isotope c).length - e.length) 0)) :
    ∀ t ∈ temp, t.length = (isoIndex isotope c).length := by
  intro t ht
  obtain ⟨e, he, hp⟩ := (hm t).mp ht
  rw [hp.length_eq, List.length_append, List.length_replicate]
  have := hle e he
  omega

/-- What `permLoop` returns when it returns the permutations of all channels. -/
theorem permLoop_some (so : SetOrder) (isotope : List String) (q : Sym)
    (cs : List (String × Nat)) (perms : List (List (List ℚ)))
    (h : permLoop so isotope q cs = .ok (some perms)) :
    List.Forall₂ (fun ci temp => ci.1 ∈ isotope ∧ ∃ entries, q.lookup (ci.2 + 1) = some entries ∧
      channelPerms so (isoIndex isotope ci.1).length entries = .ok temp) cs perms := by
  induction cs generalizing perms with
  | nil =>
    simp only [permLoop] at h
    injection h with h
    injection h with h
    subst h
    exact List.Forall₂.nil
  | cons ci cs ih =>
    obtain ⟨c, i⟩ := ci
    simp only [permLoop] at h
    by_cases hc : c ∈ isotope
    swap
    · rw [if_pos hc] at h; cases h
    rw [if_neg (not_not.mpr hc)] at h
    cases hq : q.lookup (i + 1) with
    | none => rw [hq] at h; cases h
    | some entries =>
      rw [hq] at h
      simp only [bind, Except.bind] at h
      cases ht : channelPerms so (isoIndex isotope c).length entries with
      | error e => rw [ht] at h; cases h
      | ok temp =>
        rw [ht] at h
        simp only [] at h
        cases hr : permLoop so isotope q cs with
        | error e => rw [hr] at h; cases h
        | ok o =>
          rw [hr] at h
          simp only [] at h
          cases o with
          | none => cases h
          | some tl =>
            injection h with h
            injection h with h
            subst h
            exact List.Forall₂.cons ⟨by simpa using hc, entries, hq, ht⟩ (ih tl hr)

theorem permLoop_of (so : SetOrder) (isotope : List String) (q : Sym)
    (cs : List (String × Nat)) (perms : List (List (List ℚ)))
    (h : List.Forall₂ (fun ci temp => ci.1 ∈ isotope ∧ ∃ entries,
      q.lookup (ci.2 + 1) = some entries ∧
      channelPerms so (isoIndex isotope ci.1).length entries = .ok temp) cs perms) :
    permLoop so isotope q cs = .ok (some perms) := by
  induction h with
  | nil => rfl
  | @cons ci temp cs perms h1 _ ih =>
    obtain ⟨c, i⟩ := ci
    obtain ⟨hc, entries, hq, ht⟩ := h1
    simp only [permLoop]
    rw [if_neg (by simpa using hc), hq]
    simp only [bind, Except.bind, ht, ih]
    rfl

/-- `permLoop` returns "nothing" exactly through an absent channel. -/
theorem permLoop_none (so : SetOrder) (isotope : List String) (q : Sym)
    (cs : List (String × Nat)) (h : permLoop so isotope q cs = .ok none) :
    ∃ ci ∈ cs, ci.1 ∉ isotope := by
  induction cs with
  | nil => simp [permLoop] at h
  | cons ci cs ih =>
    obtain ⟨c, i⟩ := ci
    simp only [permLoop] at h
    by_cases hc : c ∈ isotope
    swap
    · exact ⟨(c, i), by simp, hc⟩
    · rw [if_neg (not_not.mpr hc)] at h
      cases hq : q.lookup (i + 1) with
      | none => rw [hq] at h; cases h
      | some entries =>
        rw [hq] at h
        simp only [bind, Except.bind] at h
        cases ht : channelPerms so (isoIndex isotope c).length entries with
        | error e => rw [ht] at h; cases h
        | ok temp =>
          rw [ht] at h
          simp only [] at h
          cases hr : permLoop so isotope q cs with
          | error e => rw [hr] at h; cases h
          | ok o =>
            rw [hr] at h
            simp only [] at h
            cases o with
            | none =>
              obtain ⟨ci, hci, hn⟩ := ih hr
              exact ⟨ci, by simp [hci], hn⟩
            | some tl => cases h

/-- Membership of a vector among the expanded rows, in terms of the picked values. -/
theorem queryPermutations_rows (so : SetOrder) (q : Sym) (isotope channel : List String)
    (hch : channel.Nodup) (perms : List (List (List ℚ))) (out : List (List ℚ))
    (hp : permLoop so isotope q channel.zipIdx = .ok (some perms))
    (hout : queryPermutations so q isotope channel = .ok out)
    (v : List ℚ) (hv : v.length = isotope.length) :
    let L := (perms.map List.length).foldl max 0
    (∀ t ∈ perms, 0 < t.length ∧ (t.length = L ∨ t.length = 1)) ∧
    ((out.any fun s => agree isotope.length v s) = true ↔
      ∃ r < L, List.Forall₂ (fun c t => Spec.onChannel isotope c v = pick L t r) channel perms ∧
        ∀ s < isotope.length, isotope.getD s "" ∉ channel → v.getD s 0 = 0) := by
  intro L
  have hF := permLoop_some so isotope q _ perms hp
  have hlen : channel.length = perms.length := by
    have := hF.length_eq; simpa using this
  unfold queryPermutations at hout
  rw [hp] at hout
  simp only [bind, Except.bind] at hout
  by_cases hnil : perms = []
  · rw [if_pos hnil] at hout; cases hout
  rw [if_neg hnil] at hout
  obtain ⟨h1, h2, h3⟩ := fillLoop_ok L isotope channel perms hlen _ out (by simp [L]) hout
  refine ⟨h1, ?_⟩
  -- lengths of the picked values
  have hpl : ∀ r < L, List.Forall₂ (fun c x => x.length = (isoIndex isotope c).length) channel
      (perms.map fun t => pick L t r) := by
    intro r hr
    rw [List.forall₂_map_right_iff]
    have hF' : List.Forall₂ (fun c t => ∀ x ∈ t, x.length = (isoIndex isotope c).length)
        channel perms := by
      have hz : channel = channel.zipIdx.map Prod.fst := by simp
      rw [hz, List.forall₂_map_left_iff]
      refine hF.imp ?_
      rintro ⟨c, i⟩ t ⟨_, entries, _, ht⟩
      obtain ⟨hle, hm⟩ := channelPerms_inv so _ entries t ht
      exact temp_length isotope c entries t hle hm
    rw [List.forall₂_iff_get] at hF' ⊢
    refine ⟨hF'.1, fun i hi1 hi2 => ?_⟩
    have := hF'.2 i hi1 hi2
    apply this
    have hmem := h1 _ (List.get_mem perms ⟨i, hi2⟩)
    unfold pick
    split_ifs with hh
    · rw [List.getD_eq_getElem _ _ (by omega)]; exact List.getElem_mem _
    · rw [List.getD_eq_getElem _ _ (by omega)]; exact List.getElem_mem _
  have hrow : ∀ r < L, agree isotope.length v (out.getD r []) = true ↔
      List.Forall₂ (fun c t => Spec.onChannel isotope c v = pick L t r) channel perms ∧
        ∀ s < isotope.length, isotope.getD s "" ∉ channel → v.getD s 0 = 0 := by
    intro r hr
    rw [agree, decide_eq_true_eq, h3 r hr]
    rw [List.getD_eq_getElem _ _ (by simpa using hr), List.getElem_replicate]
    rw [fillRow_agree isotope v hv channel hch _ (hpl r hr) _ (by simp)]
    rw [List.forall₂_map_right_iff]
    have hz : ∀ s < isotope.length, (List.replicate isotope.length (0 : ℚ)).getD s 0 = 0 := by
      intro s hs
      rw [List.getD_eq_getElem _ _ (by simpa using hs), List.getElem_replicate]
    constructor
    · rintro ⟨ha, hb⟩
      exact ⟨ha, fun s hs hn => by rw [hb s hs hn, hz s hs]⟩
    · rintro ⟨ha, hb⟩
      exact ⟨ha, fun s hs hn => by rw [hb s hs hn, hz s hs]⟩
  rw [List.any_eq_true]
  constructor
  · rintro ⟨row, hmem, hag⟩
    obtain ⟨r, hr, rfl⟩ := List.getElem_of_mem hmem
    refine ⟨r, by omega, (hrow r (by omega)).mp ?_⟩
    rw [List.getD_eq_getElem _ _ hr]
    exact hag
  · rintro ⟨r, hr, hh⟩
    refine ⟨out.getD r [], ?_, (hrow r hr).mpr hh⟩
    rw [List.getD_eq_getElem _ _ (by omega)]
    exact List.getElem_mem _

end MRS.Trans
