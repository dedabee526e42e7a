import Verif.Trans.Query

/-!
# Transition queries and pathways — properties C09, C10, C11, C12
-/

namespace MRS.Trans

namespace Spec

/-- Change of quantum number, one entry per site. -/
def dm (t : Tr) : List ℚ := List.zipWith (fun f i => f - i) t.2 t.1

/-- Change of squared quantum number, one entry per site. -/
def dm2 (t : Tr) : List ℚ := List.zipWith (fun f i => f ^ 2 - i ^ 2) t.2 t.1

/-- A transition of the spin system. -/
def IsTransition (sites : List Iso) (t : Tr) : Prop := IsState sites t.1 ∧ IsState sites t.2

end Spec

/-! ## Lemmas -/

theorem state_length {sites : List Iso} {st : State} (h : Spec.IsState sites st) :
    st.length = sites.length := h.length_eq.symm

theorem trP_length {sites : List Iso} {t : Tr} (h : Spec.IsTransition sites t) :
    (trP t).length = sites.length := by
  simp [trP, state_length h.1, state_length h.2]

theorem trD_length {sites : List Iso} {t : Tr} (h : Spec.IsTransition sites t) :
    (trD t).length = sites.length := by
  simp [trD, state_length h.1, state_length h.2]

theorem isoIndex_length (isotope : List String) (c : String) :
    (isoIndex isotope c).length = isotope.count c := by
  have h : isotope = (List.range isotope.length).map fun s => isotope.getD s "" := by
    apply List.ext_getElem
    · simp
    · intro i h1 h2
      simp only [List.getElem_map, List.getElem_range]
      exact (List.getD_eq_getElem _ _ h1).symm
  conv_rhs => rw [h]
  rw [List.count, List.countP_map, List.countP_eq_length_filter]
  unfold isoIndex
  congr 1

theorem forall_sites_iff (isotope : List String) (v : List ℚ) (hv : v.length = isotope.length)
    (channel : List String) :
    (∀ s < isotope.length, isotope.getD s "" ∉ channel → v.getD s 0 = 0) ↔
      ∀ p ∈ isotope.zip v, p.1 ∉ channel → p.2 = 0 := by
  constructor
  · intro h p hp hn
    obtain ⟨i, hi, rfl⟩ := List.getElem_of_mem hp
    have h1 : i < isotope.length := by simp at hi; omega
    have h2 : i < v.length := by omega
    have := h i h1
    rw [List.getD_eq_getElem _ _ h1, List.getD_eq_getElem _ _ h2] at this
    simp only [List.getElem_zip] at hn ⊢
    exact this hn
  · intro h s hs hn
    have h2 : s < v.length := by omega
    rw [List.getD_eq_getElem _ _ hs] at hn
    rw [List.getD_eq_getElem _ _ h2]
    have hz : s < (isotope.zip v).length := by simp; omega
    have := h _ (List.getElem_mem hz)
    simp only [List.getElem_zip] at this
    exact this hn

/-- Pairing the channels with their query entries. -/
theorem query_sound (so : SetOrder) (q : Sym) (isotope channel : List String)
    (hch : channel.Nodup) (perms : List (List (List ℚ))) (out : List (List ℚ))
    (hp : permLoop so isotope q channel.zipIdx = .ok (some perms))
    (hout : queryPermutations so q isotope channel = .ok out)
    (v : List ℚ) (hv : v.length = isotope.length)
    (chs : List (String × List (List ℚ)))
    (hchs : List.Forall₂ (fun ci ce => ci.1 = ce.1 ∧ q.lookup (ci.2 + 1) = some ce.2)
      channel.zipIdx chs)
    (h : (out.any fun s => agree isotope.length v s) = true) :
    Spec.Matches isotope chs v := by
  obtain ⟨h1, h2⟩ := queryPermutations_rows so q isotope channel hch perms out hp hout v hv
  obtain ⟨r, hr, hF, hz⟩ := h2.mp h
  have hfst : chs.map Prod.fst = channel := by
    have : List.Forall₂ (fun a b => a = b) (channel.zipIdx.map Prod.fst) (chs.map Prod.fst) := by
      rw [List.forall₂_map_left_iff, List.forall₂_map_right_iff]
      exact hchs.imp fun _ _ h => h.1
    rw [List.forall₂_eq_eq_eq] at this
    rw [← this]; simp
  refine ⟨?_, ?_⟩
  · intro ce hce
    obtain ⟨i, hi, rfl⟩ := List.getElem_of_mem hce
    rw [List.forall₂_iff_get] at hchs hF
    have hP := permLoop_some so isotope q _ perms hp
    rw [List.forall₂_iff_get] at hP
    have hlz : channel.zipIdx.length = chs.length := hchs.1
    have hlc : channel.length = chs.length := by simpa using hlz
    have hlp : channel.length = perms.length := hF.1
    have e1 := hchs.2 i (by omega) hi
    have e2 := hF.2 i (by omega) (by omega)
    have e3 := hP.2 i (by omega) (by omega)
    simp only [List.get_eq_getElem, List.getElem_zipIdx] at e1 e2 e3
    obtain ⟨hin, entries, hq, ht⟩ := e3
    rw [e1.2] at hq
    injection hq with hq
    obtain ⟨hle, hm⟩ := channelPerms_inv so _ entries _ ht
    have hmem : Spec.onChannel isotope channel[i] v ∈ perms[i] := by
      rw [e2]
      have hpi := h1 _ (List.getElem_mem (h := by omega) : perms[i]'(by omega) ∈ perms)
      unfold pick
      split_ifs with hh
      · rw [List.getD_eq_getElem _ _ (by omega)]; exact List.getElem_mem _
      · rw [List.getD_eq_getElem _ _ (by omega)]; exact List.getElem_mem _
    rw [mem_temp_iff isotope _ v hv entries _ hle hm] at hmem
    rw [hq, ← e1.1]
    exact hmem
  · rw [hfst]
    exact (forall_sites_iff isotope v hv channel).mp hz

/-- Single channel: the expanded query rows describe exactly the matching vectors. -/
theorem query_single (so : SetOrder) (q : Sym) (isotope : List String) (c : String)
    (hc : c ∈ isotope) (entries : List (List ℚ)) (hq : q.lookup 1 = some entries)
    (hne : entries ≠ []) (hle : ∀ e ∈ entries, e.length ≤ isotope.count c) :
    ∃ out, queryPermutations so q isotope [c] = .ok out ∧
      ∀ v : List ℚ, v.length = isotope.length →
        ((out.any fun s => agree isotope.length v s) = true ↔
          Spec.Matches isotope [(c, entries)] v) := by
  rw [← isoIndex_length] at hle
  obtain ⟨temp, ht, hm, htne⟩ := channelPerms_ok so _ entries hle
  have htl : 0 < temp.length := List.length_pos_of_ne_nil (htne hne)
  have hp : permLoop so isotope q [c].zipIdx = .ok (some [temp]) := by
    apply permLoop_of
    exact List.Forall₂.cons ⟨hc, entries, by simpa using hq, ht⟩ List.Forall₂.nil
  have hout : ∃ out, queryPermutations so q isotope [c] = .ok out := by
    unfold queryPermutations
    rw [hp]
    simp only [bind, Except.bind, List.map_cons, List.map_nil, List.foldl_cons, List.foldl_nil,
      Nat.zero_max]
    rw [if_neg (by simp)]
    exact fillLoop_isOk _ isotope [c] [temp] rfl _ (by simp)
      (by intro t ht; rw [List.mem_singleton] at ht; subst ht; exact ⟨htl, Or.inl rfl⟩)
  obtain ⟨out, hout⟩ := hout
  refine ⟨out, hout, fun v hv => ?_⟩
  obtain ⟨_, h2⟩ := queryPermutations_rows so q isotope [c] (by simp) [temp] out hp hout v hv
  rw [h2]
  simp only [List.map_cons, List.map_nil, List.foldl_cons, List.foldl_nil, Nat.zero_max,
    List.forall₂_cons, List.Forall₂.nil, and_true]
  rw [forall_sites_iff isotope v hv]
  unfold Spec.Matches
  simp only [List.mem_singleton, forall_eq, List.map_cons, List.map_nil]
  rw [← mem_temp_iff isotope c v hv entries temp hle hm]
  constructor
  · rintro ⟨r, hr, h1, h2⟩
    refine ⟨?_, h2⟩
    rw [h1]
    simp only [pick, if_true]
    rw [List.getD_eq_getElem _ _ hr]
    exact List.getElem_mem _
  · rintro ⟨h1, h2⟩
    obtain ⟨r, hr, he⟩ := List.getElem_of_mem h1
    refine ⟨r, hr, ?_, h2⟩
    simp only [pick, if_true]
    rw [List.getD_eq_getElem _ _ hr, he]

theorem eventTransitions_eq (so : SetOrder) (sites : List Iso) (hs : sites ≠ [])
    (channel : List String) (q : Query) (outP : List (List ℚ))
    (hP : queryPermutations so q.P (sites.map Iso.symbol) channel = .ok outP) :
    (q.D = none → eventTransitions so sites channel q =
      .ok ((allTransitions sites).filter fun t =>
        outP.any fun s => agree sites.length (trP t) s)) ∧
    (∀ d outD, q.D = some d →
      queryPermutations so d (sites.map Iso.symbol) channel = .ok outD →
      eventTransitions so sites channel q =
        .ok (((allTransitions sites).filter fun t =>
          outP.any fun s => agree sites.length (trP t) s).filter fun t =>
            outD.any fun s => agree sites.length (trD t) s)) := by
  have hn : 0 < sites.length := List.length_pos_of_ne_nil hs
  have hsel := select_eq sites.length hn (allTransitions sites) trP outP
  simp only [bind, Except.bind, pure, Except.pure] at hsel
  cases hi : getSymmetryIndexes sites.length ((allTransitions sites).map trP) outP with
  | error e => rw [hi] at hsel; cases hsel
  | ok idx =>
    rw [hi] at hsel
    injection hsel with hsel
    constructor
    · intro hD
      unfold eventTransitions
      simp only [bind, Except.bind, pure, Except.pure, hP, if_neg hs, hi, hD]
      rw [hsel]
    · intro d outD hD hout
      have hsel2 := select_eq sites.length hn
        (idx.map fun r => (allTransitions sites).getD r ([], [])) trD outD
      simp only [bind, Except.bind, pure, Except.pure] at hsel2
      unfold eventTransitions
      simp only [bind, Except.bind, pure, Except.pure, hP, if_neg hs, hi, hD, hout]
      rw [hsel2, hsel]

/-! ## Properties -/

/-- **C09**. Single-channel query: the selected transitions are exactly those the
query describes, each once, in the order of `all_transitions`. -/
theorem C09_single_channel_selection (so : SetOrder) (sites : List Iso) (c : String)
    (q : Query) (hc : c ∈ sites.map Iso.symbol) (eP : List (List ℚ))
    (hP : q.P.lookup 1 = some eP) (hPne : eP ≠ [])
    (hPle : ∀ e ∈ eP, e.length ≤ (sites.map Iso.symbol).count c)
    (hD : ∀ d, q.D = some d → ∃ eD, d.lookup 1 = some eD ∧ eD ≠ [] ∧
      ∀ e ∈ eD, e.length ≤ (sites.map Iso.symbol).count c) :
    ∃ sel, eventTransitions so sites [c] q = .ok sel ∧
      sel.Sublist (allTransitions sites) ∧ sel.Nodup ∧
      ∀ t, t ∈ sel ↔ Spec.IsTransition sites t ∧
        Spec.Matches (sites.map Iso.symbol) [(c, eP)] (Spec.dm t) ∧
        ∀ d eD, q.D = some d → d.lookup 1 = some eD →
          Spec.Matches (sites.map Iso.symbol) [(c, eD)] (Spec.dm2 t) := by
  have hs : sites ≠ [] := by rintro rfl; simp at hc
  obtain ⟨outP, ho, hmP⟩ := query_single so q.P _ c hc eP hP hPne hPle
  obtain ⟨ha, hb⟩ := eventTransitions_eq so sites hs [c] q outP ho
  have hnd := (C08_all_transitions sites hs).2.2.1
  cases hq : q.D with
  | none =>
    refine ⟨_, ha hq, List.filter_sublist, hnd.filter _, fun t => ?_⟩
    rw [List.mem_filter, mem_allTransitions sites hs]
    constructor
    · rintro ⟨h1, h2⟩
      have := (hmP (trP t) (by rw [trP_length h1]; simp)).mp (by simpa using h2)
      exact ⟨h1, this, by simp⟩
    · rintro ⟨h1, h2, _⟩
      refine ⟨h1, ?_⟩
      have := (hmP (trP t) (by rw [trP_length h1]; simp)).mpr h2
      simpa using this
  | some d =>
    obtain ⟨eD, hdl, hDne, hDle⟩ := hD d hq
    obtain ⟨outD, ho2, hmD⟩ := query_single so d _ c hc eD hdl hDne hDle
    refine ⟨_, hb d outD hq ho2, ?_, (hnd.filter _).filter _, fun t => ?_⟩
    · exact List.filter_sublist.trans List.filter_sublist
    rw [List.mem_filter, List.mem_filter, mem_allTransitions sites hs]
    constructor
    · rintro ⟨⟨h1, h2⟩, h3⟩
      refine ⟨h1, (hmP (trP t) (by rw [trP_length h1]; simp)).mp (by simpa using h2), ?_⟩
      intro d' eD' hd' hl
      injection hd' with hd'
      subst hd'
      rw [hdl] at hl
      injection hl with hl
      subst hl
      exact (hmD (trD t) (by rw [trD_length h1]; simp)).mp (by simpa using h3)
    · rintro ⟨h1, h2, h3⟩
      refine ⟨⟨h1, ?_⟩, ?_⟩
      · have := (hmP (trP t) (by rw [trP_length h1]; simp)).mpr h2
        simpa using this
      · have := (hmD (trD t) (by rw [trD_length h1]; simp)).mpr (h3 d eD rfl hdl)
        simpa using this

/-- A concrete set iteration order, for examples. -/
def stdOrder : SetOrder := ⟨fun l => l.dedup, fun _ => List.Perm.refl _⟩

/-- Non-vacuity: single-quantum transitions of either proton of a two-site system. -/
example : eventTransitions stdOrder [⟨"1H", 1⟩, ⟨"1H", 1⟩] ["1H"]
    ⟨[(1, [[-1]])], some [(1, [[0]])]⟩ =
    .ok [([-1/2, 1/2], [-1/2, -1/2]), ([1/2, -1/2], [-1/2, -1/2]),
      ([1/2, 1/2], [-1/2, 1/2]), ([1/2, 1/2], [1/2, -1/2])] := by decide +kernel

/-- **C10**, absent isotope (any number of channels): a query that does not fail
selects nothing as soon as one channel isotope is absent. -/
theorem C10_absent_channel (so : SetOrder) (sites : List Iso) (channel : List String)
    (q : Query) (c : String) (hc : c ∈ channel) (habs : c ∉ sites.map Iso.symbol)
    (sel : List Tr) (h : eventTransitions so sites channel q = .ok sel) : sel = [] := by
  have key : ∀ (s : Sym) out, queryPermutations so s (sites.map Iso.symbol) channel = .ok out →
      out = [] := by
    intro s out ho
    unfold queryPermutations at ho
    cases hp : permLoop so (sites.map Iso.symbol) s channel.zipIdx with
    | error e => rw [hp] at ho; cases ho
    | ok o =>
      cases o with
      | none =>
        rw [hp] at ho
        simp only [bind, Except.bind, pure, Except.pure] at ho
        injection ho with ho
        exact ho.symm
      | some perms =>
        exfalso
        have hF := permLoop_some so _ s _ perms hp
        have : ∀ ci ∈ channel.zipIdx, ci.1 ∈ sites.map Iso.symbol := by
          intro ci hci
          obtain ⟨i, hi, rfl⟩ := List.getElem_of_mem hci
          rw [List.forall₂_iff_get] at hF
          exact (hF.2 i hi (by rw [← hF.1]; exact hi)).1
        obtain ⟨i, hi, he⟩ := List.getElem_of_mem hc
        have := this (channel.zipIdx[i]'(by simpa using hi)) (List.getElem_mem _)
        rw [List.getElem_zipIdx] at this
        rw [he] at this
        exact habs this
  unfold eventTransitions at h
  simp only [bind, Except.bind] at h
  cases hP : queryPermutations so q.P (sites.map Iso.symbol) channel with
  | error e => rw [hP] at h; cases h
  | ok outP =>
    rw [hP] at h
    have := key _ _ hP
    subst this
    by_cases hs : sites = []
    · simp only [if_pos hs] at h
      cases h
    obtain ⟨ha, hb⟩ := eventTransitions_eq so sites hs channel q [] hP
    have h' : eventTransitions so sites channel q = .ok sel := by
      unfold eventTransitions
      simp only [bind, Except.bind, hP]
      exact h
    cases hD : q.D with
    | none =>
      rw [ha hD] at h'
      injection h' with h'
      simpa using h'.symm
    | some d =>
      cases hd : queryPermutations so d (sites.map Iso.symbol) channel with
      | error e =>
        unfold eventTransitions at h'
        simp only [bind, Except.bind, hP, if_neg hs, hD, hd] at h'
        rw [getSymmetryIndexes_eq _ (List.length_pos_of_ne_nil hs)] at h'
        cases h'
      | ok outD =>
        rw [hb d outD hD hd] at h'
        injection h' with h'
        simpa using h'.symm

/-- **C10**, single channel absent: no error, nothing selected. -/
theorem C10_absent_single (so : SetOrder) (sites : List Iso) (hs : sites ≠ []) (c : String)
    (q : Query) (habs : c ∉ sites.map Iso.symbol) :
    eventTransitions so sites [c] q = .ok [] := by
  have hperm : ∀ s : Sym, queryPermutations so s (sites.map Iso.symbol) [c] = .ok [] := by
    intro s
    unfold queryPermutations
    have : permLoop so (sites.map Iso.symbol) s [c].zipIdx = .ok none := by
      simp only [List.zipIdx_cons, List.zipIdx_nil, permLoop]
      rw [if_pos habs]
    rw [this]
    rfl
  obtain ⟨ha, hb⟩ := eventTransitions_eq so sites hs [c] q [] (hperm _)
  cases hD : q.D with
  | none => rw [ha hD]; simp
  | some d => rw [hb d [] hD (hperm d)]; simp

/-- **C10**, over-long entry in `P` or `D`: `ValueError`. -/
theorem C10_too_long (so : SetOrder) (sites : List Iso) (c : String) (q : Query)
    (hc : c ∈ sites.map Iso.symbol) (eP : List (List ℚ)) (hP : q.P.lookup 1 = some eP)
    (h : (∃ e ∈ eP, (sites.map Iso.symbol).count c < e.length) ∨
      (eP ≠ [] ∧ ∃ d eD, q.D = some d ∧ d.lookup 1 = some eD ∧
        ∃ e ∈ eD, (sites.map Iso.symbol).count c < e.length)) :
    eventTransitions so sites [c] q = .error .valueError := by
  have hbad : ∀ (s : Sym) (es : List (List ℚ)), s.lookup 1 = some es →
      (∃ e ∈ es, (sites.map Iso.symbol).count c < e.length) →
      queryPermutations so s (sites.map Iso.symbol) [c] = .error .valueError := by
    intro s es hl he
    rw [← isoIndex_length] at he
    unfold queryPermutations
    have : permLoop so (sites.map Iso.symbol) s [c].zipIdx = .error .valueError := by
      simp only [List.zipIdx_cons, List.zipIdx_nil, permLoop]
      rw [if_neg (not_not.mpr hc)]
      simp only [Nat.zero_add, hl]
      rw [channelPerms_error so _ es he]
      rfl
    rw [this]
    rfl
  by_cases hPl : ∃ e ∈ eP, (sites.map Iso.symbol).count c < e.length
  · unfold eventTransitions
    simp only [hbad q.P eP hP hPl]
    rfl
  · obtain ⟨hne, d, eD, hD, hl, he⟩ := h.resolve_left hPl
    have hs : sites ≠ [] := by rintro rfl; simp at hc
    push Not at hPl
    obtain ⟨outP, ho, _⟩ := query_single so q.P _ c hc eP hP hne hPl
    unfold eventTransitions
    simp only [bind, Except.bind, ho, if_neg hs, hD]
    rw [getSymmetryIndexes_eq _ (List.length_pos_of_ne_nil hs)]
    simp only []
    rw [hbad d eD hl he]

example : eventTransitions stdOrder [⟨"1H", 1⟩, ⟨"13C", 1⟩] ["29Si"] ⟨[(1, [[-1]])], none⟩ =
    .ok [] := by decide +kernel
example : eventTransitions stdOrder [⟨"1H", 1⟩, ⟨"13C", 1⟩] ["1H"] ⟨[(1, [[-1, 1]])], none⟩ =
    .error .valueError := by decide +kernel

/-! ### Pathways -/

theorem indexTuples_eq {α} (segs : List (List α)) (d : α) :
    (indexTuples (segs.map List.length)).map (fun t =>
      List.zipWith (fun seg j => seg.getD j d) segs t) = prod segs := by
  induction segs with
  | nil => simp [indexTuples, prod]
  | cons s segs ih =>
    simp only [indexTuples, prod, List.map_cons, List.map_flatMap, List.map_map,
      Function.comp_def, List.zipWith_cons_cons]
    have hmap : (List.range s.length).map (fun i => (s.getD i d)) = s := by
      apply List.ext_getElem
      · simp
      · intro i h1 h2
        simp only [List.getElem_map, List.getElem_range]
        exact List.getD_eq_getElem _ _ h2
    conv_rhs => rw [← hmap, List.flatMap_map]
    congr 1
    funext i
    rw [← ih, List.map_map]
    rfl

theorem mem_indexTuples (ns : List Nat) (t : List Nat) :
    t ∈ indexTuples ns ↔ List.Forall₂ (fun n i => i < n) ns t := by
  induction ns generalizing t with
  | nil => cases t <;> simp [indexTuples]
  | cons n ns ih =>
    simp only [indexTuples, List.mem_flatMap, List.mem_map, List.mem_range]
    constructor
    · rintro ⟨i, hi, u, hu, rfl⟩
      exact List.Forall₂.cons hi ((ih u).mp hu)
    · intro h
      cases h with
      | cons hx hu => exact ⟨_, hx, _, (ih _).mpr hu, rfl⟩

theorem cartesianProduct_ranges (ns : List Nat) :
    cartesianProduct (ns.map List.range) = indexTuples ns := by
  unfold cartesianProduct
  have h1 : (ns.map List.range).map List.length = ns := by
    rw [List.map_map]; conv_rhs => rw [← List.map_id ns]
    apply List.map_congr_left; intro a _; simp
  rw [h1]
  conv_rhs => rw [← List.map_id (indexTuples ns)]
  apply List.map_congr_left
  intro t ht
  rw [mem_indexTuples] at ht
  simp only [id]
  induction ht with
  | nil => rfl
  | @cons n i ns t hi _ ih =>
    simp only [List.map_cons, List.zipWith_cons_cons]
    rw [ih (by simp [Function.comp_def])]
    rw [List.getD_eq_getElem _ _ (by simpa using hi)]
    simp

theorem pathwaysNp_eq (segs : List (List Tr)) (h : segs ≠ []) :
    pathwaysNp segs = .ok (prod segs) := by
  unfold pathwaysNp
  rw [if_neg h]
  have : (segs.map fun s => List.range s.length) = (segs.map List.length).map List.range := by
    rw [List.map_map]; rfl
  simp only [this, cartesianProduct_ranges]
  rw [indexTuples_eq]

/-- **C11**. If every event's selection succeeds (giving `segs`, one list of
transitions per event), the pathways are exactly the choices of one selected
transition per event, in lexicographic order, `∏` many, each once when the
selections have no repetition; a method without events fails. -/
theorem C11_pathways (so : SetOrder) (sites : List Iso) (channel : List String)
    (dims : List (List Query)) (segs : List (List Tr))
    (hsegs : List.Forall₂ (fun q s => eventTransitions so sites channel q = .ok s)
      dims.flatten segs) (hne : dims.flatten ≠ []) :
    ∃ paths, transitionPathways so sites channel dims = .ok paths ∧
      (∀ p, p ∈ paths ↔ List.Forall₂ (fun s t => t ∈ s) segs p) ∧
      (∀ R : Tr → Tr → Prop, (∀ s ∈ segs, s.Pairwise R) → paths.Pairwise (List.Lex R)) ∧
      ((∀ s ∈ segs, s.Nodup) → paths.Nodup) ∧
      paths.length = (segs.map List.length).prod ∧
      ([] ∈ segs → paths = []) := by
  have hm : segments so sites channel dims = .ok segs := by
    unfold segments
    clear hne
    revert hsegs
    generalize dims.flatten = qs
    intro hsegs
    induction hsegs with
    | nil => rfl
    | cons h _ ih => rw [List.mapM_cons, h, ih]; rfl
  have hs : segs ≠ [] := by
    rintro rfl
    have := hsegs.length_eq
    simp only [List.length_nil] at this
    exact hne (List.length_eq_zero_iff.mp this)
  have hpw : ∀ R : Tr → Tr → Prop, (∀ s ∈ segs, s.Pairwise R) →
      (prod segs).Pairwise (List.Lex R) := fun R hR => pairwise_prod segs hR
  refine ⟨prod segs, ?_, mem_prod segs, hpw, ?_, length_prod segs, ?_⟩
  · unfold transitionPathways
    rw [hm]
    simp only [bind, Except.bind]
    exact pathwaysNp_eq segs hs
  · intro h
    refine (hpw (fun a b => a ≠ b) h).imp ?_
    intro a b hab
    rintro rfl
    induction a with
    | nil => cases hab
    | cons x a ih =>
      cases hab with
      | cons h => exact ih h
      | rel h => exact h rfl
  · intro hmem
    rw [List.eq_nil_iff_forall_not_mem]
    intro p hp
    rw [mem_prod] at hp
    rw [List.forall₂_iff_get] at hp
    obtain ⟨i, hi, he⟩ := List.getElem_of_mem hmem
    have := hp.2 i hi (by rw [← hp.1]; exact hi)
    simp only [List.get_eq_getElem, he] at this
    cases this

/-- **C11**: a method whose dimensions hold no event at all is rejected. -/
theorem C11_no_event (so : SetOrder) (sites : List Iso) (channel : List String)
    (dims : List (List Query)) (h : dims.flatten = []) :
    transitionPathways so sites channel dims = .error .valueError := by
  unfold transitionPathways segments
  rw [h]
  rfl

example : transitionPathways stdOrder [⟨"17O", 5⟩] ["17O"]
    [[⟨[(1, [[5], [-5]])], none⟩], [⟨[(1, [[-1]])], some [(1, [[0]])]⟩]] =
    .ok [[([-5/2], [5/2]), ([1/2], [-1/2])], [([5/2], [-5/2]), ([1/2], [-1/2])]] := by
  decide +kernel

/-! ### Several channels -/

namespace Spec

/-- A channel query with only one rearrangement: a single entry whose values, padded
with zeros to the number of sites, are all equal. -/
def Rigid (n : Nat) (entries : List (List ℚ)) : Prop :=
  ∃ e, entries = [e] ∧ ∀ x ∈ e ++ List.replicate (n - e.length) 0,
    ∀ y ∈ e ++ List.replicate (n - e.length) 0, x = y

/-- The channels of a method paired with the entries of the symmetry `q`. -/
def Channels (channel : List String) (q : Sym) (chs : List (String × List (List ℚ))) : Prop :=
  List.Forall₂ (fun ci ce => ci.1 = ce.1 ∧ q.lookup (ci.2 + 1) = some ce.2) channel.zipIdx chs

end Spec

theorem eq_of_perm_const {l t : List ℚ} (hc : ∀ x ∈ l, ∀ y ∈ l, x = y) (hp : t.Perm l) :
    t = l := by
  apply List.ext_getElem hp.length_eq
  intro i h1 h2
  exact hc _ (hp.mem_iff.mp (List.getElem_mem h1)) _ (List.getElem_mem h2)

theorem channelPerms_rigid (so : SetOrder) (n : Nat) (entries temp : List (List ℚ))
    (h : channelPerms so n entries = .ok temp) (hr : Spec.Rigid n entries) :
    temp.length = 1 := by
  obtain ⟨e, rfl, hc⟩ := hr
  simp only [channelPerms] at h
  by_cases hl : e.length > n
  · rw [if_pos hl] at h; cases h
  rw [if_neg hl] at h
  injection h with h
  rw [← h, List.append_nil, (so.perm _).length_eq]
  have hnd := List.nodup_dedup (e ++ List.replicate (n - e.length) 0).permutations'
  have hmem : ∀ t, t ∈ (e ++ List.replicate (n - e.length) 0).permutations'.dedup →
      t = e ++ List.replicate (n - e.length) 0 := by
    intro t ht
    rw [List.mem_dedup, List.mem_permutations'] at ht
    exact eq_of_perm_const hc ht
  have hin : (e ++ List.replicate (n - e.length) 0) ∈
      (e ++ List.replicate (n - e.length) 0).permutations'.dedup := by
    rw [List.mem_dedup, List.mem_permutations']
  revert hnd hmem hin
  generalize (e ++ List.replicate (n - e.length) 0).permutations'.dedup = l
  intro hnd hmem hin
  match l with
  | [] => cases hin
  | [_] => rfl
  | a :: b :: l =>
    exfalso
    have h1 := hmem a (by simp)
    have h2 := hmem b (by simp)
    rw [h1, h2] at hnd
    simp at hnd

theorem foldl_max_spec (l : List Nat) (a : Nat) :
    a ≤ l.foldl max a ∧ (∀ x ∈ l, x ≤ l.foldl max a) ∧ (l.foldl max a = a ∨ l.foldl max a ∈ l) := by
  induction l generalizing a with
  | nil => simp
  | cons b l ih =>
    obtain ⟨h1, h2, h3⟩ := ih (max a b)
    simp only [List.foldl_cons]
    refine ⟨by omega, ?_, ?_⟩
    · intro x hx
      rcases List.mem_cons.mp hx with rfl | hx
      · omega
      · exact h2 x hx
    · rcases h3 with h3 | h3
      · rcases Nat.le_total a b with hab | hab
        · right; rw [h3, max_eq_right hab]; simp
        · left; rw [h3, max_eq_left hab]
      · right; exact List.mem_cons_of_mem _ h3

/-- At most channel `k` has more than one rearrangement: the expanded rows describe
exactly the matching vectors. -/
theorem query_rigid (so : SetOrder) (q : Sym) (isotope channel : List String)
    (hch : channel.Nodup) (hcne : channel ≠ []) (chs : List (String × List (List ℚ)))
    (hchs : Spec.Channels channel q chs)
    (hok : ∀ ce ∈ chs, ce.1 ∈ isotope ∧ ce.2 ≠ [] ∧ ∀ e ∈ ce.2, e.length ≤ isotope.count ce.1)
    (k : Nat) (hrig : ∀ i (h : i < chs.length), i ≠ k →
      Spec.Rigid (isotope.count chs[i].1) chs[i].2) :
    ∃ out, queryPermutations so q isotope channel = .ok out ∧
      ∀ v : List ℚ, v.length = isotope.length →
        ((out.any fun s => agree isotope.length v s) = true ↔
          Spec.Matches isotope chs v) := by
  unfold Spec.Channels at hchs
  have hex : ∃ perms, List.Forall₂ (fun ci temp => ci.1 ∈ isotope ∧ ∃ entries,
      q.lookup (ci.2 + 1) = some entries ∧
      channelPerms so (isoIndex isotope ci.1).length entries = .ok temp) channel.zipIdx perms ∧
      List.Forall₂ (fun ce temp => channelPerms so (isoIndex isotope ce.1).length ce.2 = .ok temp ∧
        0 < temp.length) chs perms := by
    clear hrig hch hcne
    revert hchs
    generalize channel.zipIdx = cz
    intro hchs
    induction hchs with
    | nil => exact ⟨[], List.Forall₂.nil, List.Forall₂.nil⟩
    | @cons ci ce cz chs h1 _ ih =>
      obtain ⟨perms, hF1, hF2⟩ := ih (fun x hx => hok x (by simp [hx]))
      obtain ⟨hin, hne, hle⟩ := hok ce (by simp)
      rw [← isoIndex_length] at hle
      obtain ⟨temp, ht, _, htne⟩ := channelPerms_ok so _ ce.2 hle
      refine ⟨temp :: perms, List.Forall₂.cons ⟨by rw [h1.1]; exact hin, ce.2, h1.2,
        by rw [h1.1]; exact ht⟩ hF1, List.Forall₂.cons ⟨ht, ?_⟩ hF2⟩
      exact List.length_pos_of_ne_nil (htne hne)
  obtain ⟨perms, hF1, hF2⟩ := hex
  have hp := permLoop_of so isotope q _ perms hF1
  have hlen : channel.length = perms.length := by simpa using hF1.length_eq
  have hlen2 : chs.length = perms.length := hF2.length_eq
  have hpne : perms ≠ [] := by
    rintro rfl; simp only [List.length_nil, List.length_eq_zero_iff] at hlen; exact hcne hlen
  rw [List.forall₂_iff_get] at hF2
  have hpos : ∀ t ∈ perms, 0 < t.length := by
    intro t ht
    obtain ⟨i, hi, rfl⟩ := List.getElem_of_mem ht
    exact (hF2.2 i (by omega) hi).2
  have hone : ∀ i (h : i < perms.length), i ≠ k → perms[i].length = 1 := by
    intro i h hik
    have h1 := (hF2.2 i (by omega) h).1
    have h2 := hrig i (by omega) hik
    rw [← isoIndex_length] at h2
    exact channelPerms_rigid so _ _ _ h1 h2
  obtain ⟨_, hmax, hmem⟩ := foldl_max_spec (perms.map List.length) 0
  set L := (perms.map List.length).foldl max 0 with hL
  have hle1 : ∀ t ∈ perms, t.length ≤ L := fun t ht => hmax _ (List.mem_map_of_mem ht)
  have hL1 : ∃ i, ∃ h : i < perms.length, perms[i].length = L := by
    rcases hmem with h0 | hm
    · exfalso
      have h1 := hpos _ (List.head_mem hpne)
      have h2 := hle1 _ (List.head_mem hpne)
      omega
    · obtain ⟨t, ht, he⟩ := List.mem_map.mp hm
      obtain ⟨i, hi, rfl⟩ := List.getElem_of_mem ht
      exact ⟨i, hi, he⟩
  have hcases : ∀ t ∈ perms, t.length = L ∨ t.length = 1 := by
    intro t ht
    obtain ⟨i, hi, rfl⟩ := List.getElem_of_mem ht
    by_cases hik : i = k
    · obtain ⟨j, hj, he⟩ := hL1
      by_cases hjk : j = k
      · left; subst hik; subst hjk; exact he
      · have h1 := hone j hj hjk
        have h2 := hle1 _ ht
        have h3 := hpos _ ht
        right; omega
    · right; exact hone i hi hik
  have hout : ∃ out, queryPermutations so q isotope channel = .ok out := by
    unfold queryPermutations
    rw [hp]
    simp only [bind, Except.bind]
    rw [if_neg hpne]
    exact fillLoop_isOk _ isotope channel perms hlen _ (by simp)
      (fun t ht => ⟨hpos t ht, hcases t ht⟩)
  obtain ⟨out, hout⟩ := hout
  refine ⟨out, hout, fun v hv => ⟨query_sound so q isotope channel hch perms out hp hout v hv chs hchs, ?_⟩⟩
  rintro ⟨hm1, hm2⟩
  obtain ⟨_, h2⟩ := queryPermutations_rows so q isotope channel hch perms out hp hout v hv
  rw [h2]
  have hfst : chs.map Prod.fst = channel := by
    have : List.Forall₂ (fun a b => a = b) (channel.zipIdx.map Prod.fst) (chs.map Prod.fst) := by
      rw [List.forall₂_map_left_iff, List.forall₂_map_right_iff]
      exact hchs.imp fun _ _ h => h.1
    rw [List.forall₂_eq_eq_eq] at this
    rw [← this]; simp
  have hin : ∀ i (h : i < perms.length) (h' : i < channel.length),
      Spec.onChannel isotope channel[i] v ∈ perms[i] := by
    intro i h h'
    have h1 := (hF2.2 i (by omega) h).1
    simp only [List.get_eq_getElem] at h1
    obtain ⟨hle, hm⟩ := channelPerms_inv so _ _ _ h1
    have hce : (chs[i]'(by omega)).1 = channel[i] := by
      simp only [← hfst, List.getElem_map]
    rw [← hce, mem_temp_iff isotope _ v hv _ _ hle hm]
    exact hm1 _ (List.getElem_mem _)
  rw [hfst] at hm2
  obtain ⟨j, hj, hjL⟩ := hL1
  obtain ⟨r, hr, hre⟩ := List.getElem_of_mem (hin j hj (by omega))
  refine ⟨r, by omega, ?_, (forall_sites_iff isotope v hv channel).mpr hm2⟩
  rw [List.forall₂_iff_get]
  refine ⟨hlen, fun i hi hi' => ?_⟩
  simp only [List.get_eq_getElem]
  have hii := hin i hi' hi
  by_cases hij : i = j
  · subst hij
    unfold pick
    rw [if_pos hjL, List.getD_eq_getElem _ _ hr, hre]
  · -- every other channel has one rearrangement only
    have h1 : perms[i].length = 1 := by
      by_cases hik : i = k
      · have := hone j hj (by omega)
        have h3 := hle1 _ (List.getElem_mem hi')
        have h4 := hpos _ (List.getElem_mem hi')
        omega
      · exact hone i hi' hik
    have h0 : (if perms[i].length = L then r else 0) = 0 := by
      split_ifs with h
      · omega
      · rfl
    unfold pick
    rw [h0, List.getD_eq_getElem _ _ (by omega)]
    obtain ⟨m, hm, hme⟩ := List.getElem_of_mem hii
    have : m = 0 := by omega
    subst this
    exact hme.symm

/-- What an event selects, given what its expanded queries describe. -/
theorem selection_of_rows (so : SetOrder) (sites : List Iso) (hs : sites ≠ [])
    (channel : List String) (q : Query) (MP : List ℚ → Prop) (MD : Sym → List ℚ → Prop)
    (hP : ∃ out, queryPermutations so q.P (sites.map Iso.symbol) channel = .ok out ∧
      ∀ v : List ℚ, v.length = (sites.map Iso.symbol).length →
        ((out.any fun s => agree (sites.map Iso.symbol).length v s) = true ↔ MP v))
    (hD : ∀ d, q.D = some d →
      ∃ out, queryPermutations so d (sites.map Iso.symbol) channel = .ok out ∧
      ∀ v : List ℚ, v.length = (sites.map Iso.symbol).length →
        ((out.any fun s => agree (sites.map Iso.symbol).length v s) = true ↔ MD d v)) :
    ∃ sel, eventTransitions so sites channel q = .ok sel ∧
      sel.Sublist (allTransitions sites) ∧ sel.Nodup ∧
      ∀ t, t ∈ sel ↔ Spec.IsTransition sites t ∧ MP (Spec.dm t) ∧
        ∀ d, q.D = some d → MD d (Spec.dm2 t) := by
  obtain ⟨outP, ho, hmP⟩ := hP
  obtain ⟨ha, hb⟩ := eventTransitions_eq so sites hs channel q outP ho
  have hnd := (C08_all_transitions sites hs).2.2.1
  simp only [List.length_map] at hmP hD
  cases hq : q.D with
  | none =>
    refine ⟨_, ha hq, List.filter_sublist, hnd.filter _, fun t => ?_⟩
    rw [List.mem_filter, mem_allTransitions sites hs]
    constructor
    · rintro ⟨h1, h2⟩
      exact ⟨h1, (hmP (trP t) (trP_length h1)).mp h2, by simp⟩
    · rintro ⟨h1, h2, _⟩
      exact ⟨h1, (hmP (trP t) (trP_length h1)).mpr h2⟩
  | some d =>
    obtain ⟨outD, ho2, hmD⟩ := hD d hq
    refine ⟨_, hb d outD hq ho2, ?_, (hnd.filter _).filter _, fun t => ?_⟩
    · exact List.filter_sublist.trans List.filter_sublist
    rw [List.mem_filter, List.mem_filter, mem_allTransitions sites hs]
    constructor
    · rintro ⟨⟨h1, h2⟩, h3⟩
      refine ⟨h1, (hmP (trP t) (trP_length h1)).mp h2, ?_⟩
      rintro d' hd'
      injection hd' with hd'
      subst hd'
      exact (hmD (trD t) (trD_length h1)).mp h3
    · rintro ⟨h1, h2, h3⟩
      exact ⟨⟨h1, (hmP (trP t) (trP_length h1)).mpr h2⟩,
        (hmD (trD t) (trD_length h1)).mpr (h3 d rfl)⟩

/-- **C12**, the part that holds: with distinct channels of which at most one (number
`kP` for `P`, `kD` for `D`) has several rearrangements, exactly the transitions
matching all channels are selected. Missing: several channels with more than one
rearrangement, where the claim is false (`C12_counterexample_*`). -/
theorem C12_multi_channel_partial (so : SetOrder) (sites : List Iso) (hs : sites ≠ [])
    (channel : List String) (hch : channel.Nodup) (hcne : channel ≠ []) (q : Query)
    (chP : List (String × List (List ℚ))) (hchP : Spec.Channels channel q.P chP)
    (hokP : ∀ ce ∈ chP, ce.1 ∈ sites.map Iso.symbol ∧ ce.2 ≠ [] ∧
      ∀ e ∈ ce.2, e.length ≤ (sites.map Iso.symbol).count ce.1)
    (kP : Nat) (hrigP : ∀ i (h : i < chP.length), i ≠ kP →
      Spec.Rigid ((sites.map Iso.symbol).count chP[i].1) chP[i].2)
    (chD : List (String × List (List ℚ)))
    (hD : ∀ d, q.D = some d → Spec.Channels channel d chD ∧
      (∀ ce ∈ chD, ce.1 ∈ sites.map Iso.symbol ∧ ce.2 ≠ [] ∧
        ∀ e ∈ ce.2, e.length ≤ (sites.map Iso.symbol).count ce.1) ∧
      ∃ kD, ∀ i (h : i < chD.length), i ≠ kD →
        Spec.Rigid ((sites.map Iso.symbol).count chD[i].1) chD[i].2) :
    ∃ sel, eventTransitions so sites channel q = .ok sel ∧
      sel.Sublist (allTransitions sites) ∧ sel.Nodup ∧
      ∀ t, t ∈ sel ↔ Spec.IsTransition sites t ∧
        Spec.Matches (sites.map Iso.symbol) chP (Spec.dm t) ∧
        (q.D ≠ none → Spec.Matches (sites.map Iso.symbol) chD (Spec.dm2 t)) := by
  obtain ⟨sel, h1, h2, h3, h4⟩ := selection_of_rows so sites hs channel q
    (fun v => Spec.Matches (sites.map Iso.symbol) chP v)
    (fun _ v => Spec.Matches (sites.map Iso.symbol) chD v)
    (query_rigid so q.P _ channel hch hcne chP hchP hokP kP hrigP)
    (by
      intro d hd
      obtain ⟨ha, hb, kD, hc⟩ := hD d hd
      exact query_rigid so d _ channel hch hcne chD ha hb kD hc)
  refine ⟨sel, h1, h2, h3, fun t => ?_⟩
  rw [h4]
  constructor
  · rintro ⟨a, b, c⟩
    refine ⟨a, b, fun hn => ?_⟩
    obtain ⟨d, hd⟩ := Option.ne_none_iff_exists'.mp hn
    exact c d hd
  · rintro ⟨a, b, c⟩
    exact ⟨a, b, fun d hd => c (by rw [hd]; simp)⟩

/-- **C12**, soundness for any channels and any set order: whatever an event without
`D` selects matches the query of every channel and is unchanged elsewhere. -/
theorem C12_sound (so : SetOrder) (sites : List Iso) (channel : List String)
    (hch : channel.Nodup) (q : Query) (hD : q.D = none)
    (chs : List (String × List (List ℚ))) (hchs : Spec.Channels channel q.P chs)
    (sel : List Tr) (h : eventTransitions so sites channel q = .ok sel) :
    sel.Sublist (allTransitions sites) ∧
    ∀ t ∈ sel, Spec.IsTransition sites t ∧
      Spec.Matches (sites.map Iso.symbol) chs (Spec.dm t) := by
  have h0 := h
  unfold eventTransitions at h
  simp only [bind, Except.bind] at h
  cases hP : queryPermutations so q.P (sites.map Iso.symbol) channel with
  | error e => rw [hP] at h; cases h
  | ok outP =>
    rw [hP] at h
    by_cases hs : sites = []
    · simp only [if_pos hs] at h; cases h
    have ha := (eventTransitions_eq so sites hs channel q outP hP).1 hD
    rw [ha] at h0
    injection h0 with h0
    subst h0
    refine ⟨List.filter_sublist, fun t ht => ?_⟩
    rw [List.mem_filter, mem_allTransitions sites hs] at ht
    refine ⟨ht.1, ?_⟩
    have hlen : (trP t).length = (sites.map Iso.symbol).length := by
      rw [trP_length ht.1]; simp
    cases hp : permLoop so (sites.map Iso.symbol) q.P channel.zipIdx with
    | error e =>
      unfold queryPermutations at hP; rw [hp] at hP; cases hP
    | ok o =>
      cases o with
      | none =>
        exfalso
        unfold queryPermutations at hP
        rw [hp] at hP
        simp only [bind, Except.bind, pure, Except.pure] at hP
        injection hP with hP
        subst hP
        simp at ht
      | some perms =>
        exact query_sound so q.P _ channel hch perms outP hp hP (trP t) hlen chs hchs
          (by simpa using ht.2)

/-- **C12**, disagreement: two channels with two entries each. The transition
`1H: -1/2 → +1/2, 13C: +1/2 → -1/2` matches both channel queries, but the entries are
paired instead of combined and it is not selected. -/
theorem C12_counterexample_paired :
    ∃ (sites : List Iso) (q : Query) (chs : List (String × List (List ℚ))) (t : Tr) (sel : List Tr),
      Spec.Channels ["1H", "13C"] q.P chs ∧ q.D = none ∧
      eventTransitions stdOrder sites ["1H", "13C"] q = .ok sel ∧
      Spec.IsTransition sites t ∧
      Spec.Matches (sites.map Iso.symbol) chs (Spec.dm t) ∧ t ∉ sel := by
  refine ⟨[⟨"1H", 1⟩, ⟨"13C", 1⟩], ⟨[(1, [[1], [-1]]), (2, [[1], [-1]])], none⟩,
    [("1H", [[1], [-1]]), ("13C", [[1], [-1]])], ([-1/2, 1/2], [1/2, -1/2]),
    [([-1/2, -1/2], [1/2, 1/2]), ([1/2, 1/2], [-1/2, -1/2])], ?_, rfl, ?_, ?_, ?_, ?_⟩
  · refine List.Forall₂.cons ⟨rfl, rfl⟩ (List.Forall₂.cons ⟨rfl, rfl⟩ List.Forall₂.nil)
  · decide +kernel
  · refine ⟨?_, ?_⟩
    · exact List.Forall₂.cons ⟨0, by decide, by norm_num⟩
        (List.Forall₂.cons ⟨1, by decide, by norm_num⟩ List.Forall₂.nil)
    · exact List.Forall₂.cons ⟨1, by decide, by norm_num⟩
        (List.Forall₂.cons ⟨0, by decide, by norm_num⟩ List.Forall₂.nil)
  · refine ⟨?_, ?_⟩
    · intro ce hce
      simp only [List.mem_cons, List.not_mem_nil, or_false] at hce
      rcases hce with rfl | rfl
      · exact ⟨[1], by simp, by decide +kernel, by decide +kernel⟩
      · exact ⟨[-1], by simp, by decide +kernel, by decide +kernel⟩
    · decide +kernel
  · decide +kernel

/-- **C12**, disagreement: three entries on one channel and two on the other is a
`ValueError` although both channel queries are valid. -/
theorem C12_counterexample_error :
    eventTransitions stdOrder [⟨"27Al", 5⟩, ⟨"1H", 1⟩] ["27Al", "1H"]
      ⟨[(1, [[-1], [-3], [-5]]), (2, [[1], [-1]])], none⟩ = .error .valueError := by
  decide +kernel

/-- Non-vacuity of `C12_multi_channel_partial`: `P` is rigid on both channels. -/
example : eventTransitions stdOrder [⟨"1H", 1⟩, ⟨"13C", 1⟩, ⟨"1H", 1⟩] ["1H", "13C"]
    ⟨[(1, [[-1]]), (2, [[-1]])], none⟩ =
    .ok [([-1/2, 1/2, 1/2], [-1/2, -1/2, -1/2]), ([1/2, 1/2, -1/2], [-1/2, -1/2, -1/2]),
      ([1/2, 1/2, 1/2], [-1/2, -1/2, 1/2]), ([1/2, 1/2, 1/2], [1/2, -1/2, -1/2])] := by
  decide +kernel

end MRS.Trans
