import Verif.Util.Reduce
import Verif.Parse.Nested

/-!
# The table of sites — property C94

Model of `Sites.to_pd` (src/mrsimulator/simulator/__init__.py lines 614-656). The data frame is
the dictionary of columns it is made from.
-/

namespace MRS.Util

open Dict

/-- `self.site_labels` (lines 620-628). -/
def siteLabels : List String :=
  ["name", "label", "description", "isotope", "isotropic_chemical_shift",
   "shielding_symmetric.zeta", "shielding_symmetric.eta", "shielding_symmetric.alpha",
   "shielding_symmetric.beta", "shielding_symmetric.gamma",
   "quadrupolar.Cq", "quadrupolar.eta", "quadrupolar.alpha", "quadrupolar.beta",
   "quadrupolar.gamma"]

/-- One turn of the inner loop (lines 646-648); the column exists because `row` starts with all
labels. -/
def addCell (flat : Dict Val) (row : Dict (List Val)) (item : String) : Dict (List Val) :=
  row.set item ((row.get? item).getD [] ++ [(flat.get? item).getD .none])

/-- One turn of the loop over the sites (lines 643-648). -/
def addRow (row : Dict (List Val)) (site : List (String × Val)) : Dict (List Val) :=
  siteLabels.foldl (addCell (flatten site)) row

/-- Lines 650-654: a column without any value is removed. -/
def dropEmpty (n : ℕ) (row : Dict (List Val)) (item : String) : Dict (List Val) :=
  if row.get? item = some (List.replicate n .none) then row.pop item else row

/-- `to_pd` (lines 639-656), from the `json()` of the sites: the columns of the data frame. -/
def toPd (sites : List (List (String × Val))) : Dict (List Val) :=
  let row := sites.foldl addRow (siteLabels.map fun item => (item, []))
  siteLabels.foldl (dropEmpty ((row.get? "name").getD []).length) row

/-! ## Specification -/

/-- The attributes the table has columns for, in order. -/
def Spec.columns : List (List String) :=
  [["name"], ["label"], ["description"], ["isotope"], ["isotropic_chemical_shift"]] ++
  (["zeta", "eta", "alpha", "beta", "gamma"].map fun a => ["shielding_symmetric", a]) ++
  (["Cq", "eta", "alpha", "beta", "gamma"].map fun a => ["quadrupolar", a])

/-- The value at a path of one or two keys; `None` if there is none. -/
def Spec.valueAt (d : List (String × Val)) : List String → Val
  | [k] => match get? d k with
    | some (.dict _) => .none
    | some v => v
    | none => .none
  | [k, k'] => match get? d k with
    | some (.dict e) => (get? e k').getD .none
    | _ => .none
  | _ => .none

/-- The table: for every attribute that some site has, in order, the values of all sites. -/
def Spec.table (sites : List (List (String × Val))) : Dict (List Val) :=
  (Spec.columns.filter fun p => sites.any fun s => decide (Spec.valueAt s p ≠ .none)).map fun p =>
    (Spec.dotted p, sites.map fun s => Spec.valueAt s p)

/-! ## Lemmas -/

/-- Two dictionaries with the same keys in the same order and the same entries are equal. -/
theorem dict_ext {V : Type} (d e : Dict V) (hk : d.map Prod.fst = e.map Prod.fst) (hd : WF d)
    (h : ∀ k, d.get? k = e.get? k) : d = e := by
  induction d generalizing e with
  | nil => cases e with
    | nil => rfl
    | cons q e => simp at hk
  | cons p d ih =>
    cases e with
    | nil => simp at hk
    | cons q e =>
      rw [List.map_cons, List.map_cons, List.cons.injEq] at hk
      obtain ⟨hk1, hk2⟩ := hk
      have hp := h p.1
      rw [get?_cons, get?_cons, if_pos rfl, if_pos hk1.symm] at hp
      have hpq : p = q := Prod.ext hk1 (Option.some.inj hp)
      unfold WF at hd
      rw [List.map_cons, List.nodup_cons] at hd
      rw [hpq, ih e hk2 hd.2]
      intro k
      have hk' := h k
      rw [get?_cons, get?_cons, ← hk1] at hk'
      by_cases hc : p.1 = k
      · have h1 : get? d k = none := by rw [get?_eq_none_iff, ← hc]; exact hd.1
        have h2 : get? e k = none := by rw [get?_eq_none_iff, ← hc, ← hk2]; exact hd.1
        rw [h1, h2]
      · rw [if_neg hc, if_neg hc] at hk'
        exact hk'

theorem keys_set {V : Type} (d : Dict V) (k : String) (v : V) (h : k ∈ d.map Prod.fst) :
    (d.set k v).map Prod.fst = d.map Prod.fst := by
  rw [map_fst_set, if_pos]
  rw [has_iff_mem]; exact h

theorem cells (flat : Dict Val) (L : List String) (hL : L.Nodup) (row : Dict (List Val))
    (hsub : ∀ k ∈ L, k ∈ row.map Prod.fst) :
    (L.foldl (addCell flat) row).map Prod.fst = row.map Prod.fst ∧
    ∀ k, get? (L.foldl (addCell flat) row) k = if k ∈ L then
      some ((row.get? k).getD [] ++ [(flat.get? k).getD .none]) else row.get? k := by
  induction L generalizing row with
  | nil => exact ⟨rfl, fun k => by simp⟩
  | cons a L ih =>
    rw [List.nodup_cons] at hL
    have hk : (addCell flat row a).map Prod.fst = row.map Prod.fst :=
      keys_set row a _ (hsub a (by simp))
    obtain ⟨i1, i2⟩ := ih hL.2 (addCell flat row a) (fun k hk' => by
      rw [hk]; exact hsub k (List.mem_cons_of_mem _ hk'))
    refine ⟨by rw [List.foldl_cons, i1, hk], fun k => ?_⟩
    rw [List.foldl_cons, i2]
    unfold addCell
    rw [get?_set]
    by_cases h1 : a = k
    · subst h1
      rw [if_neg hL.1, if_pos rfl, if_pos (by simp)]
    · rw [if_neg h1]
      by_cases h2 : k ∈ L
      · rw [if_pos h2, if_pos (by simp [h2])]
      · rw [if_neg h2, if_neg (by simp [h2, Ne.symm h1])]

theorem siteLabels_nodup : siteLabels.Nodup := by decide

/-- The columns before the empty ones are removed. -/
theorem rows (sites : List (List (String × Val))) (col : String → List Val) :
    sites.foldl addRow (siteLabels.map fun item => (item, col item)) =
      siteLabels.map fun item => (item, col item ++ sites.map fun s =>
        ((flatten s).get? item).getD .none) := by
  have g : ∀ (c : String → List Val) k, get? (siteLabels.map fun item => (item, c item)) k =
      if k ∈ siteLabels then some (c k) else none := by
    intro c k
    have hw : WF (siteLabels.map fun item => (item, c item)) := by
      unfold WF
      rw [List.map_map, show (Prod.fst ∘ fun item => (item, c item)) = id from rfl, List.map_id]
      exact siteLabels_nodup
    by_cases hk : k ∈ siteLabels
    · rw [if_pos hk]
      exact mem_get? _ hw k _ (List.mem_map.mpr ⟨k, hk, rfl⟩)
    · rw [if_neg hk, get?_eq_none_iff, List.map_map]
      simpa using hk
  have kk : ∀ c : String → List Val, (siteLabels.map fun item => (item, c item)).map Prod.fst =
      siteLabels := by
    intro c
    rw [List.map_map, show (Prod.fst ∘ fun item => (item, c item)) = id from rfl, List.map_id]
  induction sites generalizing col with
  | nil => simp
  | cons s sites ih =>
    have h1 : addRow (siteLabels.map fun item => (item, col item)) s =
        siteLabels.map fun item => (item, col item ++ [((flatten s).get? item).getD .none]) := by
      obtain ⟨c1, c2⟩ := cells (flatten s) siteLabels siteLabels_nodup
        (siteLabels.map fun item => (item, col item)) (fun k hk => by rw [kk]; exact hk)
      unfold addRow
      refine dict_ext _ _ (by rw [c1, kk, kk]) ?_ fun k => ?_
      · unfold WF; rw [c1, kk]; exact siteLabels_nodup
      · rw [c2, g, g]
        by_cases hk : k ∈ siteLabels
        · simp only [if_pos hk, Option.getD_some]
        · simp only [if_neg hk]
    rw [List.foldl_cons, h1, ih fun item => col item ++ [((flatten s).get? item).getD .none]]
    simp

/-- Removing columns one by one. -/
theorem drops (n : ℕ) (L : List String) (row : Dict (List Val)) (hw : WF row) :
    L.foldl (dropEmpty n) row =
      row.filter fun p => !(decide (p.1 ∈ L ∧ p.2 = List.replicate n .none)) := by
  induction L generalizing row with
  | nil => simp
  | cons a L ih =>
    rw [List.foldl_cons]
    unfold dropEmpty
    by_cases h : row.get? a = some (List.replicate n .none)
    · rw [if_pos h]
      have := ih (row.pop a) (WF_pop row hw a)
      unfold dropEmpty at this
      rw [this]
      unfold pop
      rw [List.filter_filter]
      refine List.filter_congr fun p hp => ?_
      by_cases hpa : p.1 = a
      · have hv : p.2 = List.replicate n .none := by
          have := mem_get? row hw p.1 p.2 hp
          rw [hpa, h] at this
          exact (Option.some.inj this).symm
        simp [hpa, hv]
      · simp [hpa]
    · rw [if_neg h]
      have := ih row hw
      unfold dropEmpty at this
      rw [this]
      refine List.filter_congr fun p hp => ?_
      by_cases hpa : p.1 = a
      · have hv : p.2 ≠ List.replicate n .none := by
          intro hv
          have := mem_get? row hw p.1 p.2 hp
          rw [hpa, hv] at this
          exact h this
        simp [hv]
      · simp [hpa]

theorem columns_labels : Spec.columns.map Spec.dotted = siteLabels := by decide +kernel

/-- What is looked up in the flattened dictionary is the value at the path. -/
theorem flat_value (d : List (String × Val)) (hs : Spec.Shallow d) (p : List String)
    (hp : (∃ k, p = [k] ∧ '.' ∉ k.toList) ∨
      (∃ k k', p = [k, k'] ∧ '.' ∉ k.toList ∧ '.' ∉ k'.toList)) :
    ((flatten d).get? (Spec.dotted p)).getD .none = Spec.valueAt d p := by
  obtain ⟨h1, h2, h3⟩ := C27_flatten_partial d hs
  by_cases hm : ∃ v, (p, v) ∈ Spec.leaves d
  · obtain ⟨v, hv⟩ := hm
    rw [h3 _ hv, Option.getD_some]
    unfold Spec.leaves at hv
    rw [List.mem_flatMap] at hv
    obtain ⟨⟨k, w⟩, hkw, hv⟩ := hv
    have hget := mem_get? d hs.1 k w hkw
    cases w with
    | dict e =>
      simp only [List.mem_map, Prod.mk.injEq] at hv
      obtain ⟨q, hq, rfl, rfl⟩ := hv
      have he := mem_get? e ((hs.2 k _ hkw).2 e rfl).1 q.1 q.2 hq
      simp only [Spec.valueAt, hget, he, Option.getD_some]
    | _ =>
      simp only [List.mem_singleton, Prod.mk.injEq] at hv
      obtain ⟨rfl, rfl⟩ := hv
      simp only [Spec.valueAt, hget]
  · have hn : (flatten d).get? (Spec.dotted p) = none := by
      rw [get?_eq_none_iff]
      intro hmem
      obtain ⟨q, hq, hqe⟩ := List.mem_map.mp hmem
      rw [h1, List.mem_map] at hq
      obtain ⟨l, hl, rfl⟩ := hq
      have := dotted_inj l.1 p (leaf_path d hs l hl) hp hqe
      exact hm ⟨l.2, by rw [← this]; exact hl⟩
    rw [hn, Option.getD_none]
    rcases hp with ⟨k, rfl, _⟩ | ⟨k, k', rfl, _, _⟩
    · simp only [Spec.valueAt]
      split
      · rfl
      · rename_i v hnd hg
        exfalso
        apply hm
        refine ⟨v, List.mem_flatMap.mpr ⟨(k, v), get?_mem _ _ _ hg, ?_⟩⟩
        cases v with
        | dict e => exact absurd rfl (hnd e)
        | _ => simp
      · rfl
    · simp only [Spec.valueAt]
      split
      · rename_i e hg
        cases he : get? e k' with
        | none => rfl
        | some w =>
          exfalso
          apply hm
          exact ⟨w, List.mem_flatMap.mpr ⟨(k, .dict e), get?_mem _ _ _ hg,
            List.mem_map.mpr ⟨(k', w), get?_mem _ _ _ he, rfl⟩⟩⟩
      · rfl

theorem columns_paths : ∀ p ∈ Spec.columns, (∃ k, p = [k] ∧ '.' ∉ k.toList) ∨
    (∃ k k', p = [k, k'] ∧ '.' ∉ k.toList ∧ '.' ∉ k'.toList) := by
  intro p hp
  have hall : Spec.columns.all (fun p => match p with
      | [k] => decide ('.' ∉ k.toList)
      | [k, k'] => decide ('.' ∉ k.toList) && decide ('.' ∉ k'.toList)
      | _ => false) = true := by decide +kernel
  have := List.all_eq_true.mp hall p hp
  match p, this with
  | [k], h => exact .inl ⟨k, rfl, by simpa using h⟩
  | [k, k'], h => exact .inr ⟨k, k', rfl, by simpa using h⟩

/-- **C94.** The table has one row per site, in order, and one column per attribute that some site
has, in the order of the labels; every cell is the value of that attribute of that site, or empty
where the site has none. -/
theorem C94_table (sites : List (List (String × Val))) (hs : ∀ s ∈ sites, Spec.Shallow s) :
    toPd sites = Spec.table sites := by
  have hrow := rows sites (fun _ => [])
  simp only [List.nil_append] at hrow
  have hlen : (((get? (siteLabels.map fun item => (item, sites.map fun s =>
      ((flatten s).get? item).getD Val.none)) "name").getD []).length) = sites.length := by
    simp [siteLabels, get?_cons]
  have hw : WF (siteLabels.map fun item => (item, sites.map fun s =>
      ((flatten s).get? item).getD Val.none)) := by
    unfold WF
    rw [List.map_map, show (Prod.fst ∘ fun item => (item, sites.map fun s =>
      ((flatten s).get? item).getD Val.none)) = id from rfl, List.map_id]
    exact siteLabels_nodup
  unfold toPd
  simp only
  rw [hrow, hlen, drops _ _ _ hw, ← columns_labels, List.map_map, List.filter_map]
  unfold Spec.table
  have hcell : ∀ p ∈ Spec.columns, (sites.map fun s =>
      ((flatten s).get? (Spec.dotted p)).getD Val.none) = sites.map fun s => Spec.valueAt s p := by
    intro p hp
    exact List.map_congr_left fun s hsm => flat_value s (hs s hsm) p (columns_paths p hp)
  have hf : Spec.columns.filter ((fun p : String × List Val => !(decide (p.1 ∈
        Spec.columns.map Spec.dotted ∧ p.2 = List.replicate sites.length .none))) ∘
      ((fun item => (item, sites.map fun s => ((flatten s).get? item).getD Val.none)) ∘
        Spec.dotted)) =
      Spec.columns.filter fun p => sites.any fun s => decide (Spec.valueAt s p ≠ .none) := by
    refine List.filter_congr fun p hp => ?_
    rw [Bool.eq_iff_iff, List.any_eq_true]
    simp only [Function.comp_apply, Bool.not_eq_true', decide_eq_false_iff_not]
    rw [hcell p hp]
    constructor
    · intro h
      by_contra hno
      apply h
      refine ⟨List.mem_map.mpr ⟨p, hp, rfl⟩, ?_⟩
      rw [List.eq_replicate_iff]
      refine ⟨by simp, fun v hv => ?_⟩
      obtain ⟨s, hsm, rfl⟩ := List.mem_map.mp hv
      by_contra hne
      exact hno ⟨s, hsm, by simpa using hne⟩
    · rintro ⟨s, hsm, hne⟩ ⟨_, h⟩
      rw [List.eq_replicate_iff] at h
      have := h.2 (Spec.valueAt s p) (List.mem_map.mpr ⟨s, hsm, rfl⟩)
      simp [this] at hne
  rw [hf]
  refine List.map_congr_left fun p hp => ?_
  simp only [Function.comp_apply]
  rw [hcell p (List.mem_of_mem_filter hp)]

/-! ## From the sites themselves -/

open Parse (NObj Obj Slot jsonN jsonFlat keep fmt qty)

/-- What a slot of the dictionary of a site holds; references to other dictionaries do not occur
in it. -/
def plain : Slot → Val
  | .val v => v
  | _ => .none

/-- `item.json()` of a site (parseable.py lines 87-112), the model of C23 as one dictionary. The
tensors come last here; their place in the dictionary plays no role in `to_pd`. -/
def siteJson (o : NObj) : List (String × Val) :=
  (jsonN o).1.map (fun p => (p.1, plain p.2)) ++
  (jsonN o).2.map fun p => (p.1, .dict (p.2.map fun q => (q.1, plain q.2)))

/-- The attributes of a `Site` that are not tensors (site.py lines 154-158). -/
def Spec.siteAttrs : List String :=
  ["name", "label", "description", "isotope", "isotropic_chemical_shift"]

/-- The tensors of a site. -/
def Spec.tensors : List String :=
  ["shielding_symmetric", "shielding_antisymmetric", "quadrupolar"]

/-- The attributes of a tensor (tensors.py lines 86-92). -/
def Spec.tensorAttrs : List String := ["zeta", "Cq", "D", "eta", "alpha", "beta", "gamma"]

/-- The attributes of an object, given once, with numbers or strings as values. -/
structure Spec.Attributes (attrs : List String) (o : Obj) : Prop where
  vals : o.vals.WF
  units : o.units.WF
  keys : ∀ k s, (k, s) ∈ o.vals → k ∈ attrs ∧
    (s = .val .none ∨ (∃ q, s = .val (.num q)) ∨ ∃ t, s = .val (.str t))

/-- A site as pydantic makes it. -/
structure Spec.SiteLike (o : NObj) : Prop where
  base : Spec.Attributes Spec.siteAttrs o.base
  subs : o.subs.WF
  tensors : ∀ k t, (k, t) ∈ o.subs → k ∈ Spec.tensors ∧ Spec.Attributes Spec.tensorAttrs t

/-- How an attribute is shown: with its unit, if it has one; missing attributes and empty strings
are not shown. -/
def Spec.shown (o : Obj) (k : String) : Val :=
  match Parse.Spec.field o k with
  | .val .none => .none
  | .val (.str t) => if t = "" then .none else match o.units.get? k with
    | none => .str t
    | some u => .list [.str t, .str (if u = "pct" then "%" else u)]
  | .val v => match o.units.get? k with
    | none => v
    | some u => .list [v, .str (if u = "pct" then "%" else u)]
  | _ => .none

/-- What the table shows of a site under a path. -/
def Spec.attribute (o : NObj) : List String → Val
  | [k] => Spec.shown o.base k
  | [k, k'] => match o.subs.get? k with
    | some t => Spec.shown t k'
    | none => .none
  | _ => .none

theorem keys_json (o : Obj) : (jsonFlat o).map Prod.fst =
    (o.vals.filter fun p => keep p.2).map Prod.fst := by
  unfold jsonFlat
  generalize (o.vals.filter fun p => keep p.2) = t
  have : ∀ us : Dict String, ∀ t : Dict Slot, (us.foldl (fun t p => match t.get? p.1 with
      | some v => t.set p.1 (fmt v p.2)
      | none => t) t).map Prod.fst = t.map Prod.fst := by
    intro us
    induction us with
    | nil => intro t; rfl
    | cons p us ih =>
      intro t
      rw [List.foldl_cons, ih]
      split
      · rename_i v hv
        refine keys_set t p.1 _ ?_
        exact List.mem_map.mpr ⟨_, get?_mem _ _ _ hv, rfl⟩
      · rfl
  exact this o.units t

theorem json_wf (o : Obj) (h : o.vals.WF) : WF (jsonFlat o) := by
  unfold WF
  rw [keys_json]
  exact (List.Sublist.map _ List.filter_sublist).nodup h

theorem get?_map {V W : Type} (f : V → W) (d : Dict V) (k : String) :
    get? (d.map fun p => (p.1, f p.2)) k = (d.get? k).map f := by
  induction d with
  | nil => rfl
  | cons p d ih =>
    rw [List.map_cons, get?_cons, get?_cons, ih]
    by_cases h : p.1 = k <;> simp [h]

/-- The dictionary of an object holds its attributes as they are shown. -/
theorem json_shown (attrs : List String) (o : Obj) (h : Spec.Attributes attrs o) (k : String) :
    ((get? (jsonFlat o) k).map plain).getD .none = Spec.shown o k ∧
    ∀ s, get? (jsonFlat o) k = some s → k ∈ attrs ∧ ¬ Spec.IsDict (plain s) := by
  rw [Parse.get?_json o h.vals h.units]
  unfold Spec.shown Parse.Spec.field
  cases hv : o.vals.get? k with
  | none => exact ⟨rfl, fun s hs => by simp at hs⟩
  | some v =>
    obtain ⟨hk, hval⟩ := h.keys k v (get?_mem _ _ _ hv)
    rcases hval with rfl | ⟨q, rfl⟩ | ⟨t, rfl⟩
    · refine ⟨rfl, fun s hs => ?_⟩
      have : (Option.some (Slot.val .none)).filter keep = none := by decide
      rw [this] at hs
      simp at hs
    · have hkeep : keep (.val (.num q)) = true := by simp [keep]
      rw [Option.filter_some, if_pos hkeep, Option.getD_some]
      cases hu : o.units.get? k with
      | none => exact ⟨rfl, fun s hs => ⟨hk, by simp at hs; rw [← hs]; simp [plain, Spec.IsDict]⟩⟩
      | some u =>
        exact ⟨rfl, fun s hs => ⟨hk, by simp at hs; rw [← hs]; simp [plain, fmt, qty, Spec.IsDict]⟩⟩
    · by_cases ht : t = ""
      · subst ht
        have : (Option.some (Slot.val (.str ""))).filter keep = none := by decide
        rw [this]
        exact ⟨rfl, fun s hs => by simp at hs⟩
      · have hkeep : keep (.val (.str t)) = true := by simp [keep, ht]
        rw [Option.filter_some, if_pos hkeep, Option.getD_some]
        simp only [if_neg ht]
        cases hu : o.units.get? k with
        | none => exact ⟨rfl, fun s hs => ⟨hk, by simp at hs; rw [← hs]; simp [plain, Spec.IsDict]⟩⟩
        | some u =>
          exact ⟨rfl, fun s hs => ⟨hk, by simp at hs; rw [← hs]; simp [plain, fmt, Spec.IsDict]⟩⟩

theorem json_keys (attrs : List String) (o : Obj) (h : Spec.Attributes attrs o) (k : String)
    (hk : k ∈ (jsonFlat o).map Prod.fst) : k ∈ attrs := by
  obtain ⟨q, hq, rfl⟩ := List.mem_map.mp hk
  exact ((json_shown attrs o h q.1).2 q.2 (mem_get? _ (json_wf o h.vals) _ _ hq)).1

theorem attrs_plain : (∀ k ∈ Spec.siteAttrs ++ Spec.tensors ++ Spec.tensorAttrs,
    '.' ∉ k.toList) ∧ ∀ k ∈ Spec.siteAttrs, k ∉ Spec.tensors := by decide +kernel

/-- The dictionary of a site is one of those that are flattened faithfully. -/
theorem site_shallow (o : NObj) (h : Spec.SiteLike o) : Spec.Shallow (siteJson o) := by
  have f1 : ((jsonFlat o.base).map fun p => (p.1, plain p.2)).map Prod.fst =
      (jsonFlat o.base).map Prod.fst := by rw [List.map_map]; rfl
  have f2 : ((o.subs.map fun p => (p.1, jsonFlat p.2)).map fun p =>
      (p.1, Val.dict (p.2.map fun q => (q.1, plain q.2)))).map Prod.fst = o.subs.map Prod.fst := by
    rw [List.map_map, List.map_map]; rfl
  constructor
  · unfold siteJson jsonN WF
    rw [List.map_append, f1, f2, List.nodup_append]
    refine ⟨json_wf _ h.base.vals, h.subs, ?_⟩
    intro a ha b hb hab
    have h1 := json_keys _ _ h.base a ha
    obtain ⟨q, hq, rfl⟩ := List.mem_map.mp hb
    exact attrs_plain.2 a h1 (hab ▸ (h.tensors q.1 q.2 hq).1)
  · intro k v hm
    unfold siteJson jsonN at hm
    rw [List.mem_append] at hm
    rcases hm with hm | hm
    · obtain ⟨q, hq, he⟩ := List.mem_map.mp hm
      obtain ⟨rfl, rfl⟩ := Prod.mk.inj he
      have h1 := (json_shown _ _ h.base q.1).2 q.2 (mem_get? _ (json_wf _ h.base.vals) _ _ hq)
      refine ⟨attrs_plain.1 _ (by simp [h1.1]), fun e he => ?_⟩
      rw [he] at h1
      exact absurd trivial h1.2
    · rw [List.map_map] at hm
      obtain ⟨q, hq, he⟩ := List.mem_map.mp hm
      obtain ⟨rfl, rfl⟩ := Prod.mk.inj he
      have h1 := h.tensors q.1 q.2 hq
      refine ⟨attrs_plain.1 _ (by simp [h1.1]), fun e he => ?_⟩
      injection he with he
      subst he
      constructor
      · unfold WF
        rw [List.map_map, show (Prod.fst ∘ fun q : String × Slot => (q.1, plain q.2)) = Prod.fst
          from rfl]
        exact json_wf _ h1.2.vals
      · intro k' w hm'
        obtain ⟨q', hq', he'⟩ := List.mem_map.mp hm'
        obtain ⟨rfl, rfl⟩ := Prod.mk.inj he'
        have h2 := (json_shown _ _ h1.2 q'.1).2 q'.2 (mem_get? _ (json_wf _ h1.2.vals) _ _ hq')
        exact ⟨attrs_plain.1 _ (by simp [h2.1]), h2.2⟩

/-- The dictionary of a site holds what the table is to show. -/
theorem site_value (o : NObj) (h : Spec.SiteLike o) (p : List String) (hp : p ∈ Spec.columns) :
    Spec.valueAt (siteJson o) p = Spec.attribute o p := by
  have hcol : (∃ k ∈ Spec.siteAttrs, p = [k]) ∨ (∃ k ∈ Spec.tensors, ∃ k', p = [k, k']) := by
    have : ∀ p ∈ Spec.columns, (∃ k ∈ Spec.siteAttrs, p = [k]) ∨
        (∃ k ∈ Spec.tensors, ∃ k' ∈ Spec.tensorAttrs, p = [k, k']) := by decide +kernel
    rcases this p hp with h1 | ⟨k, hk, k', _, e⟩
    · exact .inl h1
    · exact .inr ⟨k, hk, k', e⟩
  have gs : ∀ k, get? (siteJson o) k = match (get? (jsonFlat o.base) k).map plain with
      | some v => some v
      | none => (o.subs.get? k).map fun t =>
        .dict ((jsonFlat t).map fun q => (q.1, plain q.2)) := by
    intro k
    unfold siteJson jsonN
    rw [get?_append, get?_map, List.map_map,
      show ((fun p : String × Dict Slot => (p.1, Val.dict (p.2.map fun q => (q.1, plain q.2)))) ∘
        fun p : String × Obj => (p.1, jsonFlat p.2)) = fun p => (p.1, (fun t =>
          Val.dict ((jsonFlat t).map fun q => (q.1, plain q.2))) p.2) from rfl,
      get?_map (fun t => Val.dict ((jsonFlat t).map fun q => (q.1, plain q.2)))]
    cases (get? (jsonFlat o.base) k).map plain <;> rfl
  rcases hcol with ⟨k, hk, rfl⟩ | ⟨k, hk, k', rfl⟩
  · have hb := json_shown _ _ h.base k
    have hno : o.subs.get? k = none := by
      rw [get?_eq_none_iff]
      intro hm
      obtain ⟨q, hq, rfl⟩ := List.mem_map.mp hm
      exact attrs_plain.2 _ hk (h.tensors q.1 q.2 hq).1
    simp only [Spec.valueAt, Spec.attribute, gs, hno]
    rw [← hb.1]
    cases hj : get? (jsonFlat o.base) k with
    | none => rfl
    | some s =>
      have := (hb.2 s hj).2
      simp only [Option.map_some, Option.getD_some]
      cases hpl : plain s with
      | dict e => rw [hpl] at this; exact absurd trivial this
      | _ => rfl
  · have hno : get? (jsonFlat o.base) k = none := by
      rw [get?_eq_none_iff]
      intro hm
      exact attrs_plain.2 _ (json_keys _ _ h.base k hm) hk
    simp only [Spec.valueAt, Spec.attribute, gs, hno, Option.map_none]
    cases hs : o.subs.get? k with
    | none => rfl
    | some t =>
      have ht := (h.tensors k t (get?_mem _ _ _ hs)).2
      simp only [Option.map_some]
      rw [get?_map, ← (json_shown _ _ ht k').1]

/-- **C94, sites.** The table of a list of sites: a column for every attribute of the list of
labels that is set in some site; in row i the attribute of site i with its unit, or nothing. -/
theorem C94_sites (sites : List NObj) (h : ∀ o ∈ sites, Spec.SiteLike o) :
    toPd (sites.map siteJson) =
      (Spec.columns.filter fun p => sites.any fun o => decide (Spec.attribute o p ≠ .none)).map
        fun p => (Spec.dotted p, sites.map fun o => Spec.attribute o p) := by
  rw [C94_table _ fun s hs => by
    obtain ⟨o, ho, rfl⟩ := List.mem_map.mp hs
    exact site_shallow o (h o ho)]
  unfold Spec.table
  have hf : (Spec.columns.filter fun p => (sites.map siteJson).any fun s =>
      decide (Spec.valueAt s p ≠ .none)) =
      Spec.columns.filter fun p => sites.any fun o => decide (Spec.attribute o p ≠ .none) := by
    refine List.filter_congr fun p hp => ?_
    rw [List.any_map, Bool.eq_iff_iff, List.any_eq_true, List.any_eq_true]
    constructor <;> rintro ⟨o, ho, h1⟩ <;> refine ⟨o, ho, ?_⟩
    · rw [← site_value o (h o ho) p hp]; exact h1
    · simp only [Function.comp_apply]; rw [site_value o (h o ho) p hp]; exact h1
  rw [hf]
  refine List.map_congr_left fun p hp => ?_
  rw [List.map_map]
  congr 1
  refine List.map_congr_left fun o ho => ?_
  exact site_value o (h o ho) p (List.mem_of_mem_filter hp)

/-- **C94, what is not shown.** Antisymmetric shielding has no column: two sites that differ in it,
which `Simulator.sites` lists separately (C05), have equal rows. -/
theorem C94_counterexample :
    let o (z : ℚ) : NObj := ⟨⟨[("isotope", .val (.str "1H"))], []⟩,
      [("shielding_antisymmetric", ⟨[("zeta", .val (.num z))], [("zeta", "ppm")]⟩)]⟩
    o 1 ≠ o 2 ∧ toPd ([o 1, o 2].map siteJson) = [("isotope", [.str "1H", .str "1H"])] := by
  decide +kernel

/-! ## Examples -/

/-- A site with shielding and quadrupolar tensor, and one without. -/
def exSites : List NObj :=
  [Parse.exampleSite,
   ⟨⟨[("name", .val (.str "")), ("isotope", .val (.str "1H")),
      ("isotropic_chemical_shift", .val (.num 0)), ("label", .val .none)],
     [("isotropic_chemical_shift", "ppm")]⟩, []⟩]

example : toPd (exSites.map siteJson) =
    [("isotope", [.str "27Al", .str "1H"]),
     ("isotropic_chemical_shift", [qty 20 "ppm", qty 0 "ppm"]),
     ("shielding_symmetric.zeta", [qty 10 "ppm", .none]),
     ("shielding_symmetric.eta", [.num (1 / 2), .none]),
     ("quadrupolar.Cq", [qty 1000 "Hz", .none]),
     ("quadrupolar.alpha", [qty 3 "rad", .none])] := by decide +kernel

example : ∀ o ∈ exSites, Spec.SiteLike o := by
  intro o ho
  simp only [exSites, List.mem_cons, List.not_mem_nil, or_false] at ho
  rcases ho with rfl | rfl
  · refine ⟨⟨by unfold WF; decide, by unfold WF; decide, ?_⟩, by unfold WF; decide, ?_⟩
    · intro k s hm
      simp only [Parse.exampleSite, List.mem_cons, Prod.mk.injEq, List.not_mem_nil, or_false] at hm
      rcases hm with ⟨rfl, rfl⟩ | ⟨rfl, rfl⟩
      · exact ⟨by decide, .inr (.inr ⟨_, rfl⟩)⟩
      · exact ⟨by decide, .inr (.inl ⟨_, rfl⟩)⟩
    · intro k t hm
      simp only [Parse.exampleSite, List.mem_cons, Prod.mk.injEq, List.not_mem_nil, or_false] at hm
      rcases hm with ⟨rfl, rfl⟩ | ⟨rfl, rfl⟩ <;>
      · refine ⟨by decide, by unfold WF; decide, by unfold WF; decide, ?_⟩
        intro k s hm
        simp only [List.mem_cons, Prod.mk.injEq, List.not_mem_nil, or_false] at hm
        rcases hm with ⟨rfl, rfl⟩ | ⟨rfl, rfl⟩ <;> exact ⟨by decide, .inr (.inl ⟨_, rfl⟩)⟩
  · refine ⟨⟨by unfold WF; decide, by unfold WF; decide, ?_⟩, by unfold WF; decide, ?_⟩
    · intro k s hm
      simp only [List.mem_cons, Prod.mk.injEq, List.not_mem_nil, or_false] at hm
      rcases hm with ⟨rfl, rfl⟩ | ⟨rfl, rfl⟩ | ⟨rfl, rfl⟩ | ⟨rfl, rfl⟩
      · exact ⟨by decide, .inr (.inr ⟨_, rfl⟩)⟩
      · exact ⟨by decide, .inr (.inr ⟨_, rfl⟩)⟩
      · exact ⟨by decide, .inr (.inl ⟨_, rfl⟩)⟩
      · exact ⟨by decide, .inl rfl⟩
    · intro k t hm
      simp at hm

end MRS.Util
