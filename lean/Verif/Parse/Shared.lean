import Verif.Parse.Nested

/-!
# Tensors that several sites and couplings are made from — property C124

The validators of sites and couplings (src/mrsimulator/spin_system/site.py:166-191, coupling.py:163-182) change the dictionary `property_units`
of the tensor they are given.  pydantic (before version 2) makes a shallow copy of a model that is given for a field, which has values of its own
but the same dictionary.  So sites and couplings that are made from one tensor object share that dictionary.
-/

namespace MRS.Parse

open Dict

/-- A tensor object (tensors.py lines 84-123 and 150-170): the attribute of a site or coupling that holds it, if any, its class, its values, and
the place of its `property_units`. -/
structure TObj where
  role : Option NField
  table : Table
  vals : Dict Slot
  addr : ℕ

/-- All tensor objects of a program, and their dictionaries of units (parseable.py line 31). -/
structure Mem where
  units : List (Dict String)
  objs : List TObj

/-- The dictionary of units at a place. -/
def Mem.at (m : Mem) (a : ℕ) : Dict String := m.units.getD a []

/-- A tensor with its units, as `json` sees it (parseable.py lines 92-117). -/
def Mem.obj (m : Mem) (o : TObj) : Obj := ⟨o.vals, m.at o.addr⟩

/-- The attributes of sites and couplings that hold tensors (site.py lines 159-161, coupling.py lines 155-157). -/
def tensorFields : List NField := siteFields ++ couplingFields

/-- What a program does with tensors: it makes one from values, gives one (also one that a site or coupling holds) to a site or coupling, at its
construction or by assignment, or changes a value.  The units of new tensors are those of the class.  Attempts that fail are not modelled, nor are
tensors read with units, user-given `property_units`, and tensors of the other class, which pydantic converts. -/
inductive TOp
  | new (anti : Bool) (vals : Dict Slot)
  | hold (f : NField) (i : ℕ)
  | edit (i : ℕ) (k : String) (v : Slot)

/-- The default of `property_units` (tensors.py lines 110-117 and 163), which pydantic copies for every object. -/
def defaultUnits (T : Table) : Dict String := T.map fun p => (p.1, p.2.first)

/-- One step (site.py lines 166-191, coupling.py lines 163-182). -/
def tstep (m : Mem) : TOp → Mem
  | .new anti vals =>
    let T := if anti then antiTable else symTable
    ⟨m.units ++ [defaultUnits T], m.objs ++ [⟨none, T, vals, m.units.length⟩]⟩
  | .hold f i =>
    match m.objs[i]? with
    | none => m
    | some o =>
      if f ∈ tensorFields ∧ f.table = o.table then
        ⟨m.units.set o.addr (validateSub f (m.obj o)).units, m.objs ++ [⟨some f, o.table, o.vals, o.addr⟩]⟩
      else m
  | .edit i k v => ⟨m.units, m.objs.modify i fun o => ⟨o.role, o.table, o.vals.set k v, o.addr⟩⟩

/-- A program (site.py lines 166-191, coupling.py lines 163-182). -/
def trun (ops : List TOp) : Mem := ops.foldl tstep ⟨[], []⟩

/-! ## Specification -/

/-- The unit in which the simulation reads an attribute of a tensor, by what the tensor is for; none for attributes it does not read. -/
def Spec.unitOf (what attr : String) : Option String :=
  if attr = "alpha" ∨ attr = "beta" then some "rad"
  else if attr = "gamma" then (if what = "shielding_antisymmetric" ∨ what = "j_antisymmetric" then none else some "rad")
  else if attr = "zeta" then
    (if what = "shielding_symmetric" ∨ what = "shielding_antisymmetric" then some "ppm"
     else if what = "j_symmetric" ∨ what = "j_antisymmetric" then some "Hz" else none)
  else if attr = "Cq" then (if what = "quadrupolar" then some "Hz" else none)
  else if attr = "D" then (if what = "dipolar" then some "Hz" else none)
  else none

/-- A tensor in a site or coupling has the units of what it is for. -/
def Spec.Right (m : Mem) (o : TObj) (f : NField) : Prop := ∀ k, (m.obj o).units.get? k = Spec.unitOf f.key k

/-- A tensor with numbers for the attributes that are read for its purpose, and none for the other ones with units; a J tensor is symmetric and has
a value of zeta (C25). -/
structure Spec.Plain (f : NField) (o : TObj) : Prop where
  vals : o.vals.WF
  noUnits : o.vals.has "property_units" = false
  numbers : ∀ k ∈ ["zeta", "Cq", "D", "alpha", "beta", "gamma"],
    Spec.field ⟨o.vals, []⟩ k = .val .none ∨ Spec.unitOf f.key k ≠ none ∧ ∃ q, Spec.field ⟨o.vals, []⟩ k = .val (.num q)
  coupling : f.key ≠ "j_antisymmetric" ∧ (f.key = "j_symmetric" → Spec.field ⟨o.vals, []⟩ "zeta" ≠ .val .none)

/-- Tensors that share their units are for the same. -/
def Spec.OneUse (m : Mem) : Prop :=
  ∀ o ∈ m.objs, ∀ o' ∈ m.objs, o.addr = o'.addr → ∀ f f', o.role = some f → o'.role = some f' → f.key = f'.key

/-! ## Lemmas -/

/-- What the validators do to a dictionary of units. -/
def retag (us : Dict String) (f : NField) : Dict String := (validateSub f ⟨[], us⟩).units

theorem retag_get (us : Dict String) (f : NField) (k : String) :
    (retag us f).get? k = if f.freqOnly = true ∧ k = "zeta" then some "Hz" else if k ∈ f.pops then none else us.get? k := by
  unfold retag validateSub
  dsimp only
  by_cases hf : f.freqOnly = true
  · rw [if_pos hf, get?_set, get?_pops]
    by_cases hk : k = "zeta"
    · simp [hf, hk]
    · have hk' : ¬ "zeta" = k := fun h => hk h.symm
      simp [hk, hk']
  · rw [if_neg hf, get?_pops]
    simp [hf]

theorem retag_WF (us : Dict String) (h : us.WF) (f : NField) : (retag us f).WF := by
  have hp : ∀ (l : List String) (us : Dict String), us.WF → Dict.WF (l.foldl (fun us k => Dict.pop us k) us) := by
    intro l
    induction l with
    | nil => exact fun us h => h
    | cons a l ih => exact fun us h => ih _ (WF_pop us h a)
  unfold retag validateSub
  dsimp only
  split_ifs
  · exact WF_set _ (hp _ _ h) _ _
  · exact hp _ _ h

theorem first_right (f : NField) (hf : f ∈ tensorFields) (k : String) :
    (retag (defaultUnits f.table) f).get? k = Spec.unitOf f.key k := by
  rw [retag_get]
  have hs : Dict.get? (defaultUnits symTable) k = if k = "zeta" then some "ppm" else if k = "Cq" then some "Hz" else if k = "D" then some "Hz" else
      if k = "alpha" then some "rad" else if k = "beta" then some "rad" else if k = "gamma" then some "rad" else none := by
    simp only [defaultUnits, symTable, List.map_cons, List.map_nil, get?_cons, get?_nil, Req.first, eq_comm (b := k)]
  have ha : Dict.get? (defaultUnits antiTable) k = if k = "zeta" then some "ppm" else
      if k = "alpha" then some "rad" else if k = "beta" then some "rad" else none := by
    simp only [defaultUnits, antiTable, List.map_cons, List.map_nil, get?_cons, get?_nil, Req.first, eq_comm (b := k)]
  unfold tensorFields siteFields couplingFields at hf
  simp only [List.cons_append, List.nil_append, List.mem_cons, List.not_mem_nil, or_false] at hf
  by_cases h1 : k = "alpha"
  · subst h1; rcases hf with rfl | rfl | rfl | rfl | rfl | rfl <;> decide
  by_cases h2 : k = "beta"
  · subst h2; rcases hf with rfl | rfl | rfl | rfl | rfl | rfl <;> decide
  by_cases h3 : k = "gamma"
  · subst h3; rcases hf with rfl | rfl | rfl | rfl | rfl | rfl <;> decide
  by_cases h4 : k = "zeta"
  · subst h4; rcases hf with rfl | rfl | rfl | rfl | rfl | rfl <;> decide
  by_cases h5 : k = "Cq"
  · subst h5; rcases hf with rfl | rfl | rfl | rfl | rfl | rfl <;> decide
  by_cases h6 : k = "D"
  · subst h6; rcases hf with rfl | rfl | rfl | rfl | rfl | rfl <;> decide
  unfold Spec.unitOf
  rcases hf with rfl | rfl | rfl | rfl | rfl | rfl <;> simp only [hs, ha] <;> simp [h1, h2, h3, h4, h5, h6]

/-- Once more makes no difference. -/
theorem again_right (f : NField) (hf : f ∈ tensorFields) (us : Dict String) (h : ∀ k, us.get? k = Spec.unitOf f.key k) (k : String) :
    (retag us f).get? k = Spec.unitOf f.key k := by
  rw [← first_right f hf, retag_get, retag_get, h, ← first_right f hf k, retag_get]
  split_ifs <;> rfl

/-- The state of a dictionary of units: made for a class, then changed by those it was given to. -/
structure Traced (m : Mem) (a : ℕ) (T : Table) (rs : List NField) : Prop where
  units : m.at a = rs.foldl retag (defaultUnits T)
  fields : ∀ f ∈ rs, f ∈ tensorFields ∧ f.table = T
  table : ∀ o ∈ m.objs, o.addr = a → o.table = T
  used : ∀ f, f ∈ rs ↔ ∃ o ∈ m.objs, o.addr = a ∧ o.role = some f

structure MemInv (m : Mem) : Prop where
  inside : ∀ o ∈ m.objs, o.addr < m.units.length
  traced : ∀ a < m.units.length, ∃ T rs, (T = symTable ∨ T = antiTable) ∧ Traced m a T rs

theorem mem_step (m : Mem) (h : MemInv m) (op : TOp) : MemInv (tstep m op) := by
  cases op with
  | new anti vals =>
    constructor
    · intro o ho
      simp only [tstep, List.mem_append, List.mem_singleton, List.length_append, List.length_singleton] at ho ⊢
      rcases ho with ho | rfl
      · have := h.inside o ho
        omega
      · simp
    · intro a ha
      simp only [tstep, List.length_append, List.length_singleton] at ha
      by_cases h' : a < m.units.length
      · obtain ⟨T, rs, hT, t⟩ := h.traced a h'
        refine ⟨T, rs, hT, ?_, t.fields, ?_, ?_⟩
        · rw [← t.units]
          simp [tstep, Mem.at, List.getD_eq_getElem?_getD, List.getElem?_append_left h']
        · intro o ho hoa
          simp only [tstep, List.mem_append, List.mem_singleton] at ho
          rcases ho with ho | rfl
          · exact t.table o ho hoa
          · simp only at hoa
            omega
        · intro f
          rw [t.used f]
          simp only [tstep, List.mem_append, List.mem_singleton]
          constructor
          · rintro ⟨o, ho, h2⟩
            exact ⟨o, Or.inl ho, h2⟩
          · rintro ⟨o, ho | rfl, h2, h3⟩
            · exact ⟨o, ho, h2, h3⟩
            · cases h3
      · obtain rfl : a = m.units.length := by omega
        refine ⟨if anti then antiTable else symTable, [], by cases anti <;> simp, ?_, by simp, ?_, ?_⟩
        · simp [tstep, Mem.at, List.getD_eq_getElem?_getD]
        · intro o ho hoa
          simp only [tstep, List.mem_append, List.mem_singleton] at ho
          rcases ho with ho | rfl
          · have := h.inside o ho
            omega
          · rfl
        · intro f
          simp only [tstep, List.mem_append, List.mem_singleton, List.not_mem_nil, false_iff]
          rintro ⟨o, ho | rfl, h2, h3⟩
          · have := h.inside o ho
            omega
          · cases h3
  | hold f i =>
    unfold tstep
    dsimp only
    cases ho : m.objs[i]? with
    | none => exact h
    | some o =>
      dsimp only
      split_ifs with hc
      · have hmem : o ∈ m.objs := List.mem_of_getElem? ho
        have hin := h.inside o hmem
        have hval : (validateSub f (m.obj o)).units = retag (m.at o.addr) f := rfl
        rw [hval]
        constructor
        · intro o' ho'
          simp only [List.mem_append, List.mem_singleton, List.length_set] at ho' ⊢
          rcases ho' with ho' | rfl
          · exact h.inside o' ho'
          · exact hin
        · intro a ha
          rw [List.length_set] at ha
          obtain ⟨T, rs, hT, t⟩ := h.traced a ha
          by_cases e : o.addr = a
          · subst e
            refine ⟨T, rs ++ [f], hT, ?_, ?_, ?_, ?_⟩
            · rw [List.foldl_append, ← t.units]
              simp [Mem.at, List.getD_eq_getElem?_getD, hin]
            · intro g hg
              rw [List.mem_append, List.mem_singleton] at hg
              rcases hg with hg | rfl
              · exact t.fields g hg
              · exact ⟨hc.1, hc.2.trans (t.table o hmem rfl)⟩
            · intro o' ho' hoa
              simp only [List.mem_append, List.mem_singleton] at ho'
              rcases ho' with ho' | rfl
              · exact t.table o' ho' hoa
              · exact t.table o hmem rfl
            · intro g
              rw [List.mem_append, List.mem_singleton, t.used g]
              simp only [List.mem_append, List.mem_singleton]
              constructor
              · rintro (⟨o', ho', h2⟩ | rfl)
                · exact ⟨o', Or.inl ho', h2⟩
                · exact ⟨_, Or.inr rfl, rfl, rfl⟩
              · rintro ⟨o', ho' | rfl, h2, h3⟩
                · exact Or.inl ⟨o', ho', h2, h3⟩
                · simp only [Option.some.injEq] at h3
                  exact Or.inr h3.symm
          · refine ⟨T, rs, hT, ?_, t.fields, ?_, ?_⟩
            · rw [← t.units]
              simp [Mem.at, List.getD_eq_getElem?_getD, List.getElem?_set_ne e]
            · intro o' ho' hoa
              simp only [List.mem_append, List.mem_singleton] at ho'
              rcases ho' with ho' | rfl
              · exact t.table o' ho' hoa
              · exact absurd hoa e
            · intro g
              rw [t.used g]
              simp only [List.mem_append, List.mem_singleton]
              constructor
              · rintro ⟨o', ho', h2⟩
                exact ⟨o', Or.inl ho', h2⟩
              · rintro ⟨o', ho' | rfl, h2, h3⟩
                · exact ⟨o', ho', h2, h3⟩
                · exact absurd h2 e
      · exact h
  | edit i k v =>
    have key : ∀ o', o' ∈ (tstep m (.edit i k v)).objs → ∃ o ∈ m.objs, o.addr = o'.addr ∧ o.role = o'.role ∧ o.table = o'.table := by
      intro o' ho'
      obtain ⟨j, hj⟩ := List.mem_iff_getElem?.mp ho'
      simp only [tstep, List.getElem?_modify] at hj
      cases hm : m.objs[j]? with
      | none => rw [hm] at hj; cases hj
      | some o =>
        rw [hm] at hj
        refine ⟨o, List.mem_of_getElem? hm, ?_⟩
        simp only [Option.map_eq_map, Option.map_some, Option.some.injEq] at hj
        split_ifs at hj <;> subst hj <;> exact ⟨rfl, rfl, rfl⟩
    have back : ∀ o ∈ m.objs, ∃ o' ∈ (tstep m (.edit i k v)).objs, o'.addr = o.addr ∧ o'.role = o.role := by
      intro o ho
      obtain ⟨j, hj⟩ := List.mem_iff_getElem?.mp ho
      refine ⟨if i = j then ⟨o.role, o.table, o.vals.set k v, o.addr⟩ else o, List.mem_of_getElem? (i := j) ?_, ?_⟩
      · simp only [tstep, List.getElem?_modify, hj]
        split_ifs <;> rfl
      · split_ifs <;> exact ⟨rfl, rfl⟩
    constructor
    · intro o' ho'
      obtain ⟨o, ho, h1, -⟩ := key o' ho'
      rw [← h1]
      exact h.inside o ho
    · intro a ha
      obtain ⟨T, rs, hT, t⟩ := h.traced a ha
      refine ⟨T, rs, hT, t.units, t.fields, ?_, ?_⟩
      · intro o' ho' hoa
        obtain ⟨o, ho, h1, -, h3⟩ := key o' ho'
        rw [← h3]
        exact t.table o ho (h1.trans hoa)
      · intro f
        rw [t.used f]
        constructor
        · rintro ⟨o, ho, h1, h2⟩
          obtain ⟨o', ho', h3, h4⟩ := back o ho
          exact ⟨o', ho', h3.trans h1, h4.trans h2⟩
        · rintro ⟨o', ho', h1, h2⟩
          obtain ⟨o, ho, h3, h4, -⟩ := key o' ho'
          exact ⟨o, ho, h3.trans h1, h4.trans h2⟩

theorem mem_run (ops : List TOp) : MemInv (trun ops) := by
  have : ∀ (ops : List TOp) (m : Mem), MemInv m → MemInv (ops.foldl tstep m) := by
    intro ops
    induction ops with
    | nil => exact fun m h => h
    | cons op ops ih => exact fun m h => ih _ (mem_step m h op)
  exact this ops _ ⟨by simp, by simp⟩

theorem key_inj (f g : NField) (hf : f ∈ tensorFields) (hg : g ∈ tensorFields) (h : f.key = g.key) : f = g := by
  revert hg h
  revert hf
  have : ∀ f ∈ tensorFields, ∀ g ∈ tensorFields, f.key = g.key → f = g := by decide
  exact fun hf hg h => this f hf g hg h

theorem unit_inj (f g : NField) (hf : f ∈ tensorFields) (hg : g ∈ tensorFields) (h : ∀ k, Spec.unitOf f.key k = Spec.unitOf g.key k) :
    f.key = g.key := by
  have : ∀ f ∈ tensorFields, ∀ g ∈ tensorFields,
      (∀ k ∈ ["zeta", "Cq", "D", "gamma"], Spec.unitOf f.key k = Spec.unitOf g.key k) → f.key = g.key := by decide
  exact this f hf g hg fun k _ => h k

theorem fold_right (f : NField) (hf : f ∈ tensorFields) (rs : List NField) (h : ∀ g ∈ rs, g = f) (us : Dict String)
    (hu : ∀ k, us.get? k = Spec.unitOf f.key k) (k : String) : (rs.foldl retag us).get? k = Spec.unitOf f.key k := by
  induction rs generalizing us with
  | nil => exact hu k
  | cons g rs ih =>
    obtain rfl := h g (by simp)
    exact ih (fun g' hg' => h g' (by simp [hg'])) _ (again_right g hf us hu)

/-! ## Properties -/

/-- **C124 (units), partial.** After any program that makes sites and couplings from tensor objects, all their tensors have the units of what they
are for exactly if none of those that share their units are for different things.
Missing: tensors that are shared, for which it is false, `C124_counterexample`. -/
theorem C124_units_partial (ops : List TOp) :
    (∀ o ∈ (trun ops).objs, ∀ f, o.role = some f → Spec.Right (trun ops) o f) ↔ Spec.OneUse (trun ops) := by
  have hI := mem_run ops
  set m := trun ops
  constructor
  · intro h o ho o' ho' ha f f' hf hf'
    obtain ⟨T, rs, -, t⟩ := hI.traced o.addr (hI.inside o ho)
    have m1 := (t.fields f ((t.used f).mpr ⟨o, ho, rfl, hf⟩)).1
    have m2 := (t.fields f' ((t.used f').mpr ⟨o', ho', ha.symm, hf'⟩)).1
    refine unit_inj f f' m1 m2 fun k => ?_
    rw [← h o ho f hf k, ← h o' ho' f' hf' k]
    unfold Mem.obj
    rw [ha]
  · intro h o ho f hf k
    obtain ⟨T, rs, -, t⟩ := hI.traced o.addr (hI.inside o ho)
    have hfr := (t.used f).mpr ⟨o, ho, rfl, hf⟩
    obtain ⟨m1, m2⟩ := t.fields f hfr
    have all : ∀ g ∈ rs, g = f := by
      intro g hg
      obtain ⟨o', ho', h1, h2⟩ := (t.used g).mp hg
      exact key_inj g f (t.fields g hg).1 m1 (h o' ho' o ho h1 g f h2 hf)
    change (m.at o.addr).get? k = _
    rw [t.units, ← m2]
    cases rs with
    | nil => cases hfr
    | cons g rs =>
      obtain rfl := all g (by simp)
      exact fold_right g m1 rs (fun g' hg' => all g' (by simp [hg'])) _ (first_right g m1) k

theorem units_WF (ops : List TOp) (o : TObj) (ho : o ∈ (trun ops).objs) : ((trun ops).at o.addr).WF := by
  have hI := mem_run ops
  obtain ⟨T, rs, hT, t⟩ := hI.traced o.addr (hI.inside o ho)
  rw [t.units]
  have : ∀ (rs : List NField) (us : Dict String), us.WF → Dict.WF (rs.foldl retag us) := by
    intro rs
    induction rs with
    | nil => exact fun us h => h
    | cons f rs ih => exact fun us h => ih _ (retag_WF us h f)
  refine this _ _ ?_
  rcases hT with rfl | rfl <;> (unfold Dict.WF; decide)

theorem sub_sound (ops : List TOp) (f : NField) (hf : f ∈ tensorFields) (o : TObj) (ho : o ∈ (trun ops).objs) (hr : Spec.Right (trun ops) o f)
    (hp : Spec.Plain f o) : Spec.SubSound f ((trun ops).obj o) := by
  have t1 : ∀ f ∈ tensorFields, f.key ≠ "j_antisymmetric" → ∀ p ∈ f.table, ∀ u, Spec.unitOf f.key p.1 = some u → u ∈ p.2.pairs.map Prod.snd := by
    have : ∀ f ∈ tensorFields, f.key ≠ "j_antisymmetric" → ∀ p ∈ f.table, ∀ u ∈ Spec.unitOf f.key p.1, u ∈ p.2.pairs.map Prod.snd := by decide
    exact this
  have t2 : ∀ f ∈ tensorFields, ∀ p ∈ f.table, p.1 ∈ ["zeta", "Cq", "D", "alpha", "beta", "gamma"] := by decide
  have t3 : ∀ f ∈ tensorFields, ∀ k ∈ f.pops, Spec.unitOf f.key k = none := by decide
  have t4 : ∀ f ∈ tensorFields, "zeta" ∈ f.table.map Prod.fst := by decide
  have t5 : ∀ f ∈ tensorFields, f.key ≠ "j_antisymmetric" → f.freqOnly = true → f.key = "j_symmetric" := by decide
  refine ⟨⟨hp.vals, units_WF ops o ho, hp.noUnits, ?_, ?_⟩, ?_, ?_⟩
  · intro k r hm
    rcases hp.numbers k (t2 f hf _ hm) with h | ⟨h, q, hq⟩
    · exact Or.inl h
    · obtain ⟨u, hu⟩ := Option.ne_none_iff_exists'.mp h
      exact Or.inr ⟨q, u, hq, (hr k).trans hu, t1 f hf hp.coupling.1 _ hm u hu⟩
  · intro k hk
    rw [hr k, ← first_right f hf k, retag_get, if_neg]
    · split_ifs
      · rfl
      · refine (get?_eq_none_iff _ _).mpr ?_
        unfold defaultUnits
        rw [List.map_map]
        exact hk
    · rintro ⟨-, rfl⟩
      exact hk (t4 f hf)
  · intro k hk
    rw [hr k]
    exact t3 f hf k hk
  · intro h
    have hj := t5 f hf hp.coupling.1 h
    refine ⟨hp.coupling.2 hj, ?_⟩
    rw [hr "zeta", hj]
    decide

/-- **C124 (saving), partial.** A site or coupling made from such tensors survives writing and reading. -/
theorem C124_saved_partial (U : Units) (hU : U.Ok) (hK : U.Knows) (ops : List TOp) (h : Spec.OneUse (trun ops)) (fs : List NField) (T : Table)
    (hfs : (fs, T) = (siteFields, siteTable) ∨ (fs, T) = (couplingFields, couplingTable)) (base : Obj) (hb : Spec.Sound T base)
    (subs : List (NField × TObj))
    (hs : ∀ p ∈ subs, p.1 ∈ fs ∧ p.2 ∈ (trun ops).objs ∧ p.2.role = some p.1 ∧ Spec.Plain p.1 p.2) :
    let o : NObj := ⟨base, subs.map fun p => (p.1.key, (trun ops).obj p.2)⟩
    ∃ o', parseN U fs T (jsonN o) = .ok o' ∧ Spec.SameN o o' := by
  intro o
  have hR := (C124_units_partial ops).mpr h
  have hsub : ∀ f ∈ fs, f ∈ tensorFields := by
    intro f hf
    unfold tensorFields
    rcases hfs with e | e <;> (injection e with e1 e2; subst e1) <;> simp [hf]
  have key : ∀ k s, o.subs.get? k = some s → ∃ p ∈ subs, p.1.key = k ∧ (trun ops).obj p.2 = s := by
    intro k s hk
    have := get?_mem _ _ _ hk
    simp only [o, List.mem_map, Prod.mk.injEq] at this
    obtain ⟨p, hp, h1, h2⟩ := this
    exact ⟨p, hp, h1, h2⟩
  refine round_trip_nested U hU hK fs ?_ ?_ ?_ T ?_ o hb ?_ ?_
  · rcases hfs with e | e <;> (injection e with e1 e2; subst e1) <;> decide
  · rcases hfs with e | e <;> (injection e with e1 e2; subst e1) <;> decide
  · rcases hfs with e | e <;> (injection e with e1 e2; subst e1) <;> decide
  · rcases hfs with e | e <;> (injection e with e1 e2; subst e2) <;> decide
  · intro k hk
    obtain ⟨s, hs'⟩ := (has_iff _ _).mp hk
    obtain ⟨p, hp, h1, -⟩ := key k s hs'
    exact List.mem_map.mpr ⟨p.1, (hs p hp).1, h1⟩
  · intro f hf s hs'
    obtain ⟨p, hp, h1, rfl⟩ := key f.key s hs'
    obtain ⟨q1, q2, q3, q4⟩ := hs p hp
    obtain rfl : p.1 = f := key_inj _ _ (hsub _ q1) (hsub f hf) h1
    exact sub_sound ops p.1 (hsub _ q1) p.2 q2 (hR p.2 q2 p.1 q3) q4

/-- A program that makes a shielding tensor, gives it to a site, and makes a second tensor for the quadrupolar interaction of another site. -/
def apartOps : List TOp :=
  [.new false [("zeta", .val (.num 10)), ("beta", .val (.num 1))], .hold ⟨"shielding_symmetric", symTable, ["Cq", "D"], false⟩ 0,
   .new false [("Cq", .val (.num 1000)), ("beta", .val (.num 1))], .hold ⟨"quadrupolar", symTable, ["D", "zeta"], false⟩ 2,
   .hold ⟨"shielding_symmetric", symTable, ["Cq", "D"], false⟩ 1]

example : Spec.OneUse (trun apartOps) ∧ (trun apartOps).objs.length = 5 ∧
    (∃ o ∈ (trun apartOps).objs, o.role = some ⟨"quadrupolar", symTable, ["D", "zeta"], false⟩ ∧
      Spec.Plain ⟨"quadrupolar", symTable, ["D", "zeta"], false⟩ o) := by
  have e : (trun apartOps).objs = [⟨none, symTable, [("zeta", .val (.num 10)), ("beta", .val (.num 1))], 0⟩,
      ⟨some ⟨"shielding_symmetric", symTable, ["Cq", "D"], false⟩, symTable, [("zeta", .val (.num 10)), ("beta", .val (.num 1))], 0⟩,
      ⟨none, symTable, [("Cq", .val (.num 1000)), ("beta", .val (.num 1))], 1⟩,
      ⟨some ⟨"quadrupolar", symTable, ["D", "zeta"], false⟩, symTable, [("Cq", .val (.num 1000)), ("beta", .val (.num 1))], 1⟩,
      ⟨some ⟨"shielding_symmetric", symTable, ["Cq", "D"], false⟩, symTable, [("zeta", .val (.num 10)), ("beta", .val (.num 1))], 0⟩] := rfl
  unfold Spec.OneUse
  rw [e]
  refine ⟨?_, rfl, _, List.mem_cons_of_mem _ (List.mem_cons_of_mem _ (List.mem_cons_of_mem _ List.mem_cons_self)), rfl, ?_⟩
  · simp only [List.forall_mem_cons, List.not_mem_nil, false_implies, implies_true, and_true]
    simp
  · refine ⟨by unfold Dict.WF; decide, by decide, ?_, by decide⟩
    simp only [List.forall_mem_cons, List.not_mem_nil, false_implies, implies_true, and_true]
    refine ⟨Or.inl (by decide), Or.inr ⟨by decide, 1000, by decide⟩, Or.inl (by decide), Or.inl (by decide), Or.inr ⟨by decide, 1, by decide⟩,
      Or.inl (by decide)⟩

/-- **C124, counterexample.** A tensor is given to a site as shielding, then changed, with zeta removed and Cq given, and given to a second site as
quadrupolar tensor.  Then zeta of the first site and Cq of the second are written as bare numbers, and neither site can be read back.  Had it been
given to a coupling as J tensor instead, zeta of the first site would be written in Hz. -/
theorem C124_counterexample :
    let sh : NField := ⟨"shielding_symmetric", symTable, ["Cq", "D"], false⟩
    let qd : NField := ⟨"quadrupolar", symTable, ["D", "zeta"], false⟩
    let jj : NField := ⟨"j_symmetric", symTable, ["Cq", "D"], true⟩
    let m := trun [.new false [("zeta", .val (.num 10))], .hold sh 0, .edit 0 "zeta" (.val .none), .edit 0 "Cq" (.val (.num 1000)), .hold qd 0]
    let m' := trun [.new false [("zeta", .val (.num 10))], .hold sh 0, .hold jj 0]
    let site : Mem → String → ℕ → NObj := fun m k i => ⟨⟨[("isotope", .val (.str "27Al"))], [("isotropic_chemical_shift", "ppm")]⟩,
      [(k, (m.objs[i]?.map m.obj).getD ⟨[], []⟩)]⟩
    (jsonN (site m "shielding_symmetric" 1)).2 = [("shielding_symmetric", [("zeta", .val (.num 10))])] ∧
    (jsonN (site m "quadrupolar" 2)).2 = [("quadrupolar", [("Cq", .val (.num 1000))])] ∧
    (parseN stdUnits siteFields siteTable (jsonN (site m "shielding_symmetric" 1))).map (fun _ => ()) = .error .indexError ∧
    (parseN stdUnits siteFields siteTable (jsonN (site m "quadrupolar" 2))).map (fun _ => ()) = .error .exception ∧
    (jsonN (site m' "shielding_symmetric" 1)).2 = [("shielding_symmetric", [("zeta", .val (qty 10 "Hz"))])] := by
  decide +kernel

end MRS.Parse
