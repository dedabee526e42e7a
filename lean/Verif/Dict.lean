import Verif.Py

/-!
# Python dictionaries

A dictionary is the list of its items in insertion order. Python guarantees that keys are
distinct (`Dict.WF`); all operations below keep that.
-/

namespace MRS

/-- A Python dictionary with string keys. -/
abbrev Dict (V : Type) := List (String × V)

namespace Dict

variable {V : Type}

/-- Keys are distinct. -/
def WF (d : Dict V) : Prop := (d.map Prod.fst).Nodup

/-- `d.get(k)`. -/
def get? (d : Dict V) (k : String) : Option V := (d.find? fun p => p.1 == k).map Prod.snd

/-- `k in d`. -/
def has (d : Dict V) (k : String) : Bool := d.any fun p => p.1 == k

/-- `d[k] = v`: an existing key keeps its position. -/
def set (d : Dict V) (k : String) (v : V) : Dict V :=
  if d.has k then d.map fun p => if p.1 == k then (k, v) else p else d ++ [(k, v)]

/-- `d.pop(k)` (the remaining dictionary; no error if missing). -/
def pop (d : Dict V) (k : String) : Dict V := d.filter fun p => !(p.1 == k)

/-- `d.update(e)`. -/
def update (d e : Dict V) : Dict V := e.foldl (fun d p => d.set p.1 p.2) d

@[simp] theorem get?_nil (k : String) : get? ([] : Dict V) k = none := rfl

theorem get?_cons (p : String × V) (d : Dict V) (k : String) :
    get? (p :: d) k = if p.1 = k then some p.2 else get? d k := by
  unfold get?
  rw [List.find?_cons]
  by_cases h : p.1 = k
  · simp [h]
  · have hb : (p.1 == k) = false := by simpa using h
    rw [hb, if_neg h]

theorem has_iff (d : Dict V) (k : String) : d.has k = true ↔ ∃ v, d.get? k = some v := by
  induction d with
  | nil => simp [has]
  | cons p d ih =>
    rw [get?_cons]
    have : has (p :: d) k = (p.1 == k || has d k) := rfl
    rw [this]
    by_cases h : p.1 = k
    · simp [h]
    · simp [h, ih]

theorem has_false_iff (d : Dict V) (k : String) : d.has k = false ↔ d.get? k = none := by
  rw [← Bool.not_eq_true, has_iff]
  cases d.get? k <;> simp

theorem has_iff_mem (d : Dict V) (k : String) : d.has k = true ↔ k ∈ d.map Prod.fst := by
  unfold has
  simp [List.any_eq_true]

theorem get?_eq_none_iff (d : Dict V) (k : String) : d.get? k = none ↔ k ∉ d.map Prod.fst := by
  rw [← has_false_iff, ← has_iff_mem]
  simp

theorem get?_mem (d : Dict V) (k : String) (v : V) (h : d.get? k = some v) : (k, v) ∈ d := by
  induction d with
  | nil => simp at h
  | cons p d ih =>
    rw [get?_cons] at h
    split_ifs at h with hk
    · injection h with h
      subst h hk
      simp
    · exact List.mem_cons_of_mem _ (ih h)

theorem mem_get? (d : Dict V) (h : d.WF) (k : String) (v : V) (hm : (k, v) ∈ d) :
    d.get? k = some v := by
  induction d with
  | nil => simp at hm
  | cons p d ih =>
    unfold WF at h
    rw [List.map_cons, List.nodup_cons] at h
    rw [get?_cons]
    rcases List.mem_cons.mp hm with rfl | hm
    · simp
    · have hne : p.1 ≠ k := by
        intro he
        apply h.1
        rw [he]
        exact List.mem_map_of_mem (f := Prod.fst) hm
      rw [if_neg hne]
      exact ih h.2 hm

theorem get?_append (d e : Dict V) (k : String) :
    get? (d ++ e) k = (get? d k).or (get? e k) := by
  induction d with
  | nil => simp
  | cons p d ih =>
    rw [List.cons_append, get?_cons, get?_cons, ih]
    split_ifs <;> simp

theorem get?_set (d : Dict V) (k : String) (v : V) (k' : String) :
    (d.set k v).get? k' = if k = k' then some v else d.get? k' := by
  unfold set
  by_cases h : d.has k
  · rw [if_pos h]
    induction d with
    | nil => simp [has] at h
    | cons p d ih =>
      rw [List.map_cons, get?_cons, get?_cons]
      by_cases hp : p.1 = k
      · have hpb : (p.1 == k) = true := by simpa using hp
        rw [if_pos hpb]
        by_cases hk : k = k'
        · simp [hk]
        · rw [if_neg (show ¬ (k, v).1 = k' by exact hk), if_neg hk, if_neg (by rw [hp]; exact hk)]
          by_cases hd : has d k
          · rw [ih hd, if_neg hk]
          · have hid : d.map (fun p => if p.1 == k then (k, v) else p) = d := by
              conv_rhs => rw [← List.map_id d]
              apply List.map_congr_left
              intro q hq
              have : ¬ (q.1 == k) = true := by
                intro he
                apply hd
                rw [has_iff_mem]
                rw [← (by simpa using he : q.1 = k)]
                exact List.mem_map_of_mem (f := Prod.fst) hq
              rw [if_neg this]
              rfl
            rw [hid]
      · have hpb : ¬ (p.1 == k) = true := by simpa using hp
        rw [if_neg hpb]
        have hd : has d k = true := by
          have : has (p :: d) k = (p.1 == k || has d k) := rfl
          rw [this] at h
          simpa [hp] using h
        by_cases hk : p.1 = k'
        · rw [if_pos hk, if_pos hk, if_neg]
          intro he
          exact hp (hk.trans he.symm)
        · rw [if_neg hk, if_neg hk, ih hd]
  · rw [if_neg h, get?_append, get?_cons, get?_nil]
    by_cases hk : k = k'
    · subst hk
      rw [(has_false_iff d k).mp (by simpa using h)]
      simp
    · simp [hk]

theorem get?_pop (d : Dict V) (k k' : String) :
    (d.pop k).get? k' = if k = k' then none else d.get? k' := by
  induction d with
  | nil => simp [pop]
  | cons p d ih =>
    unfold pop at *
    rw [List.filter_cons]
    by_cases hp : p.1 = k
    · rw [if_neg (by simp [hp]), ih, get?_cons]
      by_cases hk : k = k'
      · simp [hk]
      · rw [if_neg hk, if_neg hk, if_neg (by rw [hp]; exact hk)]
    · rw [if_pos (by simp [hp]), get?_cons, get?_cons, ih]
      by_cases hk : k = k'
      · subst hk
        simp [hp]
      · simp [hk]

theorem update_cons (d : Dict V) (p : String × V) (e : Dict V) :
    d.update (p :: e) = (d.set p.1 p.2).update e := rfl

/-- `update` prefers the argument. -/
theorem get?_update (d e : Dict V) (h : e.WF) (k : String) :
    (d.update e).get? k = (e.get? k).or (d.get? k) := by
  induction e generalizing d with
  | nil => simp [update]
  | cons p e ih =>
    unfold WF at h
    rw [List.map_cons, List.nodup_cons] at h
    rw [update_cons, ih _ h.2, get?_set, get?_cons]
    by_cases hk : p.1 = k
    · rw [if_pos hk, if_pos hk]
      have : get? e k = none := by
        rw [get?_eq_none_iff, ← hk]
        exact h.1
      rw [this]
      simp
    · rw [if_neg hk, if_neg hk]

theorem map_fst_set (d : Dict V) (k : String) (v : V) :
    (d.set k v).map Prod.fst = if d.has k then d.map Prod.fst else d.map Prod.fst ++ [k] := by
  unfold set
  split_ifs with h
  · rw [List.map_map]
    apply List.map_congr_left
    intro p _
    simp only [Function.comp]
    split_ifs with hp
    · simpa using (by simpa using hp : p.1 = k).symm
    · rfl
  · simp

theorem WF_set (d : Dict V) (h : d.WF) (k : String) (v : V) : (d.set k v).WF := by
  unfold WF
  rw [map_fst_set]
  split_ifs with hk
  · exact h
  · rw [List.nodup_append]
    refine ⟨h, by simp, ?_⟩
    intro a ha b hb
    rw [List.mem_singleton] at hb
    subst hb
    intro he
    subst he
    exact hk ((has_iff_mem d a).mpr ha)

theorem WF_pop (d : Dict V) (h : d.WF) (k : String) : (d.pop k).WF := by
  unfold WF pop
  exact (List.Sublist.map _ List.filter_sublist).nodup h

theorem WF_update (d e : Dict V) (h : d.WF) : (d.update e).WF := by
  induction e generalizing d with
  | nil => exact h
  | cons p e ih => exact ih _ (WF_set d h _ _)

theorem pop_of_not_has (d : Dict V) (k : String) (h : d.has k = false) : d.pop k = d := by
  unfold pop
  rw [List.filter_eq_self]
  intro p hp
  have : p.1 ≠ k := by
    intro he
    have : d.has k = true := by
      rw [has_iff_mem, ← he]
      exact List.mem_map_of_mem (f := Prod.fst) hp
    rw [this] at h
    exact Bool.noConfusion h
  simpa using this

end Dict

end MRS
