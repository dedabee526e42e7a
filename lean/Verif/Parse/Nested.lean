import Verif.Parse.Units

/-!
# Sites and couplings: objects that contain tensors — properties C23, C25, C66

Model of src/mrsimulator/spin_system/site.py:166-233 and src/mrsimulator/spin_system/coupling.py:162-231.
-/

namespace MRS.Parse

open Dict

/-- A tensor attribute of a site or coupling: its name, its class, the units removed by the
validator, and whether it must be given in frequency units (site.py lines 201-232, coupling.py lines 196-227). -/
structure NField where
  key : String
  table : Table
  pops : List String
  freqOnly : Bool
  deriving DecidableEq, Repr

/-- site.py:219-223 and the validators 166-191. The check of the spin quantum number
(site.py:171-178) is outside this model. -/
def siteFields : List NField :=
  [⟨"shielding_symmetric", symTable, ["Cq", "D"], false⟩,
   ⟨"shielding_antisymmetric", antiTable, ["Cq", "D"], false⟩,
   ⟨"quadrupolar", symTable, ["D", "zeta"], false⟩]

/-- coupling.py:215-219 and the validators 163-182. -/
def couplingFields : List NField :=
  [⟨"j_symmetric", symTable, ["Cq", "D"], true⟩,
   ⟨"j_antisymmetric", antiTable, ["Cq", "D"], true⟩,
   ⟨"dipolar", symTable, ["Cq", "zeta"], false⟩]

/-- The validators coupling.py:163-182 and site.py:178-191: what they do to the units of a tensor
when the containing object is made. -/
def validateSub (f : NField) (o : Obj) : Obj :=
  let us := f.pops.foldl (fun us k => us.pop k) o.units
  ⟨o.vals, if f.freqOnly then us.set "zeta" "Hz" else us⟩

/-- A site or a coupling (site.py lines 154-165, coupling.py lines 150-161). -/
structure NObj where
  base : Obj
  subs : Dict Obj
  deriving DecidableEq, Repr

/-- `json` (parseable.py:92-98): tensors are written by their own `json`. -/
def jsonN (o : NObj) : Dict Slot × Dict (Dict Slot) :=
  (jsonFlat o.base, o.subs.map fun p => (p.1, jsonFlat p.2))

/-- coupling.py:221-228 and site.py:225-227: the loop over the tensors, and what the validators make
of them. Both tensor classes always record a unit for "zeta". -/
def parseSubs (U : Units) : List NField → Dict (Dict Slot) → Py (Dict Obj)
  | [], _ => .ok []
  | f :: fs, subs =>
    match subs.get? f.key with
    | none => parseSubs U fs subs
    | some d =>
      match (parseFlat U f.table d).2 with
      | .error e => .error e
      | .ok o =>
        if f.freqOnly = true ∧ o.units.get? "zeta" = some "ppm" then .error .valueError
        else match parseSubs U fs subs with
          | .error e => .error e
          | .ok rest => .ok ((f.key, validateSub f o) :: rest)

/-- coupling.py:195-229, site.py:200-229. -/
def parseN (U : Units) (fs : List NField) (T : Table) (d : Dict Slot × Dict (Dict Slot)) : Py NObj :=
  match parseSubs U fs d.2 with
  | .error e => .error e
  | .ok subs =>
    match (parseFlat U T d.1).2 with
    | .error e => .error e
    | .ok b => .ok ⟨b, subs⟩

/-! ## Specification -/

/-- Same values, and the same unit for every value present. -/
def Spec.Same (o o' : Obj) : Prop :=
  (∀ k, Spec.field o' k = Spec.norm (Spec.field o k)) ∧
  ∀ k, Spec.norm (Spec.field o k) ≠ .val .none → o'.units.get? k = o.units.get? k

/-- A tensor as a validated site or coupling holds it: attributes in accepted units, none of the
attributes whose units the validator removes, and, where frequency units are required, a
value of zeta in Hz. -/
structure Spec.SubSound (f : NField) (o : Obj) : Prop where
  sound : Spec.Sound f.table o
  popped : ∀ k ∈ f.pops, o.units.get? k = none
  freq : f.freqOnly = true → Spec.field o "zeta" ≠ .val .none ∧ o.units.get? "zeta" = some "Hz"

theorem get?_pops (l : List String) (us : Dict String) (k : String) :
    Dict.get? (l.foldl (fun us k => Dict.pop us k) us) k = if k ∈ l then none else us.get? k := by
  induction l generalizing us with
  | nil => simp
  | cons a l ih =>
    rw [List.foldl_cons, ih, get?_pop]
    by_cases h1 : k ∈ l
    · simp [h1]
    · by_cases h2 : a = k
      · simp [h2]
      · have h3 : ¬ k = a := fun e => h2 e.symm
        simp [h1, h2, h3]

theorem norm_ne_none (s : Slot) (h : Spec.norm s ≠ .val .none) : s ≠ .val .none := by
  intro e
  rw [e] at h
  exact h (by decide)

theorem round_trip_same (U : Units) (hU : U.Ok) (T : Table) (hT : Spec.TableOk U T) (o : Obj)
    (ho : Spec.Sound T o) :
    ∃ o', (parseFlat U T (jsonFlat o)).2 = .ok o' ∧ Spec.Same o o' := by
  obtain ⟨o', h1, h2, h3, _, h5⟩ := round_trip U hU T hT o ho
  refine ⟨o', h1, h2, ?_⟩
  intro k hk
  by_cases hm : k ∈ T.map Prod.fst
  · exact h3 k hm (norm_ne_none _ hk)
  · rw [h5 k hm, ho.only k hm]

/-- The loop over the tensors gives back the tensors. -/
theorem parseSubs_ok (U : Units) (hU : U.Ok) (fs : List NField) (hnd : (fs.map NField.key).Nodup)
    (hT : ∀ f ∈ fs, Spec.TableOk U f.table) (hz : ∀ f ∈ fs, "zeta" ∈ f.table.map Prod.fst)
    (subs : Dict Obj) (hs : ∀ f ∈ fs, ∀ o, subs.get? f.key = some o → Spec.SubSound f o) :
    ∃ res, parseSubs U fs (subs.map fun p => (p.1, jsonFlat p.2)) = .ok res ∧
      (∀ k, k ∉ fs.map NField.key → Dict.get? res k = none) ∧
      ∀ f ∈ fs, match subs.get? f.key with
        | none => Dict.get? res f.key = none
        | some o => ∃ o', Dict.get? res f.key = some o' ∧ Spec.Same o o' := by
  have hget : ∀ k, Dict.get? (subs.map fun p => (p.1, jsonFlat p.2)) k = (subs.get? k).map jsonFlat := by
    intro k
    clear hs
    induction subs with
    | nil => rfl
    | cons p l ih =>
      rw [List.map_cons, get?_cons, get?_cons, ih]
      by_cases h : p.1 = k <;> simp [h]
  induction fs with
  | nil => exact ⟨[], rfl, by simp, by simp⟩
  | cons f fs ih =>
    rw [List.map_cons, List.nodup_cons] at hnd
    obtain ⟨res, e1, e2, e3⟩ := ih hnd.2 (fun g hg => hT g (by simp [hg])) (fun g hg => hz g (by simp [hg]))
      (fun g hg => hs g (by simp [hg]))
    unfold parseSubs
    rw [hget]
    cases hsub : subs.get? f.key with
    | none =>
      simp only [Option.map_none]
      refine ⟨res, e1, ?_, ?_⟩
      · intro k hk
        rw [List.map_cons, List.mem_cons, not_or] at hk
        exact e2 k hk.2
      · intro g hg
        rw [List.mem_cons] at hg
        rcases hg with rfl | hg
        · rw [hsub]
          exact e2 _ hnd.1
        · exact e3 g hg
    | some o =>
      simp only [Option.map_some]
      have hso := hs f (by simp) o hsub
      obtain ⟨o', h1, h2, h3, h4, h5⟩ := round_trip U hU f.table (hT f (by simp)) o hso.sound
      rw [h1]
      simp only
      have hzeta : ¬ (f.freqOnly = true ∧ o'.units.get? "zeta" = some "ppm") := by
        rintro ⟨hf, hc⟩
        obtain ⟨g1, g2⟩ := hso.freq hf
        rw [h3 "zeta" (hz f (by simp)) g1, g2] at hc
        exact absurd hc (by decide)
      rw [if_neg hzeta, e1]
      refine ⟨_, rfl, ?_, ?_⟩
      · intro k hk
        rw [List.map_cons, List.mem_cons, not_or] at hk
        rw [get?_cons, if_neg (fun e => hk.1 e.symm)]
        exact e2 k hk.2
      · intro g hg
        rw [List.mem_cons] at hg
        rcases hg with rfl | hg
        · rw [hsub]
          refine ⟨validateSub g o', by rw [get?_cons, if_pos rfl], ?_, ?_⟩
          · intro k
            exact h2 k
          · intro k hk
            have hne := norm_ne_none _ hk
            have hu : o'.units.get? k = o.units.get? k := by
              by_cases hm : k ∈ g.table.map Prod.fst
              · exact h3 k hm hne
              · rw [h5 k hm, hso.sound.only k hm]
            have hp : Dict.get? (g.pops.foldl (fun us k => Dict.pop us k) o'.units) k = o.units.get? k := by
              rw [get?_pops]
              by_cases hm : k ∈ g.pops
              · rw [if_pos hm, hso.popped k hm]
              · rw [if_neg hm, hu]
            unfold validateSub
            simp only
            by_cases hf : g.freqOnly = true
            · rw [if_pos hf, get?_set]
              by_cases hzk : "zeta" = k
              · rw [if_pos hzk, ← hzk]
                exact (hso.freq hf).2.symm
              · rw [if_neg hzk]
                exact hp
            · rw [if_neg hf]
              exact hp
        · have hne : f.key ≠ g.key := by
            intro e
            apply hnd.1
            rw [e]
            exact List.mem_map.mpr ⟨g, hg, rfl⟩
          rw [get?_cons, if_neg hne]
          exact e3 g hg

theorem tables_ok (U : Units) (hK : U.Knows) (T : Table) (h : T ∈ tables) : Spec.TableOk U T :=
  C23_tables U hK T T h (List.Perm.refl _)

/-- Reading back what `json` wrote, for an object with tensors. -/
theorem round_trip_nested (U : Units) (hU : U.Ok) (hK : U.Knows) (fs : List NField)
    (hnd : (fs.map NField.key).Nodup) (hT : ∀ f ∈ fs, f.table ∈ tables)
    (hz : ∀ f ∈ fs, "zeta" ∈ f.table.map Prod.fst) (T : Table) (hTb : T ∈ tables) (o : NObj)
    (hbase : Spec.Sound T o.base) (hkeys : ∀ k, o.subs.has k = true → k ∈ fs.map NField.key)
    (hs : ∀ f ∈ fs, ∀ s, o.subs.get? f.key = some s → Spec.SubSound f s) :
    ∃ o', parseN U fs T (jsonN o) = .ok o' ∧ Spec.Same o.base o'.base ∧
      ∀ k, match o.subs.get? k with
        | none => Dict.get? o'.subs k = none
        | some s => ∃ s', Dict.get? o'.subs k = some s' ∧ Spec.Same s s' := by
  obtain ⟨res, e1, e2, e3⟩ := parseSubs_ok U hU fs hnd (fun f hf => tables_ok U hK _ (hT f hf)) hz o.subs hs
  obtain ⟨b, h1, h2⟩ := round_trip_same U hU T (tables_ok U hK T hTb) o.base hbase
  refine ⟨⟨b, res⟩, ?_, h2, ?_⟩
  · unfold parseN jsonN
    simp only
    rw [e1]
    simp only
    rw [h1]
  · intro k
    by_cases hk : k ∈ fs.map NField.key
    · obtain ⟨f, hf, rfl⟩ := List.mem_map.mp hk
      exact e3 f hf
    · have : o.subs.get? k = none := by
        rw [← has_false_iff]
        cases hh : o.subs.has k with
        | false => rfl
        | true => exact absurd (hkeys k hh) hk
      rw [this]
      exact e2 k hk

/-- **C23 (sites).** Reading back the dictionary of a site with any combination of tensors gives
the same site. -/
theorem C23_site (U : Units) (hU : U.Ok) (hK : U.Knows) (o : NObj) (hbase : Spec.Sound siteTable o.base)
    (hkeys : ∀ k, o.subs.has k = true → k ∈ siteFields.map NField.key)
    (hs : ∀ f ∈ siteFields, ∀ s, o.subs.get? f.key = some s → Spec.SubSound f s) :
    ∃ o', parseN U siteFields siteTable (jsonN o) = .ok o' ∧ Spec.Same o.base o'.base ∧
      ∀ k, match o.subs.get? k with
        | none => Dict.get? o'.subs k = none
        | some s => ∃ s', Dict.get? o'.subs k = some s' ∧ Spec.Same s s' :=
  round_trip_nested U hU hK siteFields (by decide) (by decide) (by decide) siteTable (by decide) o
    hbase hkeys hs

/-- A site with a shielding tensor in ppm and a quadrupolar tensor. -/
def exampleSite : NObj :=
  ⟨⟨[("isotope", .val (.str "27Al")), ("isotropic_chemical_shift", .val (.num 20))],
    [("isotropic_chemical_shift", "ppm")]⟩,
   [("shielding_symmetric", ⟨[("zeta", .val (.num 10)), ("eta", .val (.num (1/2)))],
      [("zeta", "ppm"), ("alpha", "rad"), ("beta", "rad"), ("gamma", "rad")]⟩),
    ("quadrupolar", ⟨[("Cq", .val (.num 1000)), ("alpha", .val (.num 3))],
      [("Cq", "Hz"), ("alpha", "rad"), ("beta", "rad"), ("gamma", "rad")]⟩)]⟩

example : (parseN stdUnits siteFields siteTable (jsonN exampleSite)).map
    (fun o => (o.base.vals, o.subs.map fun p => (p.1, p.2.vals))) =
    .ok (exampleSite.base.vals, exampleSite.subs.map fun p => (p.1, p.2.vals)) := by decide +kernel

/-- **C23, where the code disagrees.** The validators do not reject a quadrupolar tensor with a
value of zeta; they only forget its unit. The site is then written with a bare number, which
cannot be read back. -/
theorem C23_counterexample :
    let tensor : Obj := ⟨[("Cq", .val (.num 1000)), ("zeta", .val (.num 10))],
      [("zeta", "ppm"), ("Cq", "Hz"), ("D", "Hz"), ("alpha", "rad"), ("beta", "rad"), ("gamma", "rad")]⟩
    let site : NObj := ⟨⟨[("isotope", .val (.str "27Al"))], [("isotropic_chemical_shift", "ppm")]⟩,
      [("quadrupolar", validateSub ⟨"quadrupolar", symTable, ["D", "zeta"], false⟩ tensor)]⟩
    (jsonN site).2 = [("quadrupolar", [("Cq", .val (qty 1000 "Hz")), ("zeta", .val (.num 10))])] ∧
    (parseN stdUnits siteFields siteTable (jsonN site)).map (fun _ => ()) = .error .indexError := by
  decide +kernel

/-! ## C25 -/

/-- **C25, partial.** A coupling without antisymmetric J tensor, whose symmetric J tensor (if any)
has a value of zeta, survives writing and reading. Missing: the other couplings, see
`C25_counterexample` and `C25_antisymmetric_never`. -/
theorem C25_round_trip_partial (U : Units) (hU : U.Ok) (hK : U.Knows) (o : NObj)
    (hbase : Spec.Sound couplingTable o.base)
    (hkeys : ∀ k, o.subs.has k = true → k = "j_symmetric" ∨ k = "dipolar")
    (hj : ∀ s, o.subs.get? "j_symmetric" = some s → Spec.Sound symTable s ∧
      s.units.get? "Cq" = none ∧ s.units.get? "D" = none ∧
      Spec.field s "zeta" ≠ .val .none ∧ s.units.get? "zeta" = some "Hz")
    (hd : ∀ s, o.subs.get? "dipolar" = some s → Spec.Sound symTable s ∧
      s.units.get? "Cq" = none ∧ s.units.get? "zeta" = none) :
    ∃ o', parseN U couplingFields couplingTable (jsonN o) = .ok o' ∧ Spec.Same o.base o'.base ∧
      ∀ k, match o.subs.get? k with
        | none => Dict.get? o'.subs k = none
        | some s => ∃ s', Dict.get? o'.subs k = some s' ∧ Spec.Same s s' := by
  refine round_trip_nested U hU hK couplingFields (by decide) (by decide) (by decide) couplingTable
    (by decide) o hbase ?_ ?_
  · intro k hk
    rcases hkeys k hk with rfl | rfl <;> decide
  · intro f hf s hs
    unfold couplingFields at hf
    simp only [List.mem_cons, List.not_mem_nil, or_false] at hf
    rcases hf with rfl | rfl | rfl
    · obtain ⟨h1, h2, h3, h4, h5⟩ := hj s hs
      refine ⟨h1, ?_, fun _ => ⟨h4, h5⟩⟩
      intro k hk
      simp only [List.mem_cons, List.not_mem_nil, or_false] at hk
      rcases hk with rfl | rfl
      · exact h2
      · exact h3
    · exfalso
      have := hkeys "j_antisymmetric" ((has_iff _ _).mpr ⟨s, hs⟩)
      rcases this with h | h <;> exact absurd h (by decide)
    · obtain ⟨h1, h2, h3⟩ := hd s hs
      refine ⟨h1, ?_, fun h => absurd h (by decide)⟩
      intro k hk
      simp only [List.mem_cons, List.not_mem_nil, or_false] at hk
      rcases hk with rfl | rfl
      · exact h2
      · exact h3

example :
    let c : NObj := ⟨⟨[("site_index", .val (.list [.num 0, .num 1])), ("isotropic_j", .val (.num 20))],
      [("isotropic_j", "Hz")]⟩,
      [("j_symmetric", ⟨[("zeta", .val (.num 10))], [("zeta", "Hz"), ("alpha", "rad")]⟩),
       ("dipolar", ⟨[("D", .val (.num 5100))], [("D", "Hz"), ("alpha", "rad")]⟩)]⟩
    (parseN stdUnits couplingFields couplingTable (jsonN c)).map
      (fun o => (o.base.vals, o.subs.map fun p => (p.1, p.2.vals))) =
      .ok (c.base.vals, c.subs.map fun p => (p.1, p.2.vals)) := by decide +kernel

/-- **C25, where the code disagrees.** No coupling with an antisymmetric J tensor can be read
from a dictionary, whatever the dictionary holds: in ppm (or without zeta) it is refused
because frequency units are required, in frequency units because the class requires
ppm. -/
theorem C25_antisymmetric_never (U : Units) (d : Dict Slot × Dict (Dict Slot))
    (h : d.2.has "j_antisymmetric" = true) :
    ∃ e, parseN U couplingFields couplingTable d = .error e := by
  obtain ⟨t, ht⟩ := (has_iff _ _).mp h
  have hmid : ∃ e, parseSubs U [⟨"j_antisymmetric", antiTable, ["Cq", "D"], true⟩,
      ⟨"dipolar", symTable, ["Cq", "zeta"], false⟩] d.2 = .error e := by
    unfold parseSubs
    simp only
    rw [ht]
    simp only
    cases hp : (parseFlat U antiTable t).2 with
    | error e => exact ⟨e, rfl⟩
    | ok o =>
      simp only
      have hz : o.units.get? "zeta" = some "ppm" := by
        have hus : ∀ (T : Table) (d : Dict Slot) (us : Dict String) d' us',
            (∀ k r, (k, r) ∈ T → k = "zeta" → r = .one "dimensionless" "ppm") →
            us.get? "zeta" = some "ppm" → parseProps U T d us = (d', .ok us') →
            us'.get? "zeta" = some "ppm" := by
          intro T
          induction T with
          | nil =>
            intro d us d' us' _ hz hp
            unfold parseProps at hp
            injection hp with _ hp
            injection hp with hp
            rw [← hp]
            exact hz
          | cons p T ih =>
            intro d us d' us' hT hz hp
            obtain ⟨k, r⟩ := p
            unfold parseProps at hp
            cases hk : d.get? k with
            | none =>
              rw [hk] at hp
              exact ih d us d' us' (fun k' r' hm => hT k' r' (by simp [hm])) hz hp
            | some s =>
              rw [hk] at hp
              simp only at hp
              cases he : enforceReq U s r with
              | none =>
                rw [he] at hp
                injection hp with _ hp
                cases hp
              | some x =>
                rw [he] at hp
                simp only at hp
                refine ih _ _ d' us' (fun k' r' hm => hT k' r' (by simp [hm])) ?_ hp
                rw [get?_set]
                by_cases hkz : k = "zeta"
                · rw [if_pos hkz]
                  have hr := hT k r (by simp) hkz
                  subst hr
                  unfold enforceReq at he
                  simp only [Req.pairs, List.findSome?_cons, List.findSome?_nil] at he
                  cases hen : enforce U s "dimensionless" "ppm" with
                  | none => rw [hen] at he; cases he
                  | some v =>
                    rw [hen] at he
                    simp only [Option.map_some, Option.some.injEq] at he
                    rw [← he]
                · rw [if_neg hkz]
                  exact hz
        unfold parseFlat at hp
        cases hq : parseProps U antiTable t (antiTable.map fun p => (p.1, p.2.first)) with
        | mk d' res =>
          rw [hq] at hp
          cases res with
          | error e => cases hp
          | ok us' =>
            simp only at hp
            split_ifs at hp
            injection hp with hp
            rw [← hp]
            refine hus antiTable t _ d' us' ?_ (by decide) hq
            intro k r hm hk
            subst hk
            unfold antiTable at hm
            simp only [List.mem_cons, List.not_mem_nil, or_false, Prod.mk.injEq] at hm
            rcases hm with ⟨_, h⟩ | ⟨h, _⟩ | ⟨h, _⟩
            · exact h
            · exact absurd h (by decide)
            · exact absurd h (by decide)
      rw [if_pos ⟨trivial, hz⟩]
      exact ⟨_, rfl⟩
  obtain ⟨e, he⟩ := hmid
  have htop : ∃ e, parseSubs U couplingFields d.2 = .error e := by
    unfold couplingFields
    rw [parseSubs]
    simp only
    cases d.2.get? "j_symmetric" with
    | none => exact ⟨e, he⟩
    | some s =>
      simp only
      cases (parseFlat U symTable s).2 with
      | error e' => exact ⟨e', rfl⟩
      | ok o =>
        simp only
        split_ifs
        · exact ⟨_, rfl⟩
        · rw [he]
          exact ⟨e, rfl⟩
  obtain ⟨e', he'⟩ := htop
  unfold parseN
  rw [he']
  exact ⟨e', rfl⟩

/-- **C25, where the code disagrees (symmetric tensor).** A symmetric J tensor without a value of
zeta is written without it and then refused, as if it were in ppm. -/
theorem C25_counterexample :
    let c : NObj := ⟨⟨[("site_index", .val (.list [.num 0, .num 1]))], [("isotropic_j", "Hz")]⟩,
      [("j_symmetric", ⟨[("eta", .val (.num (1/2)))], [("zeta", "Hz"), ("alpha", "rad")]⟩)]⟩
    (parseN stdUnits couplingFields couplingTable (jsonN c)).map (fun _ => ()) = .error .valueError ∧
    (parseN stdUnits couplingFields couplingTable
      (jsonN ⟨c.base, [("j_antisymmetric", ⟨[("zeta", .val (.num 10))], [("zeta", "Hz"), ("alpha", "rad")]⟩)]⟩)).map
        (fun _ => ()) = .error .exception := by decide +kernel

/-! ### Spin systems -/

/-- A spin system: the plain attributes, the sites, and the couplings if there are any
(spin_system/__init__.py lines 152-186). -/
structure SSObj where
  base : Obj
  sites : List NObj
  couplings : Option (List NObj)
  deriving DecidableEq, Repr

/-- A spin-system dictionary: plain entries, "sites" and "couplings" (spin_system/__init__.py lines 319-357). -/
structure SSDict where
  base : Dict Slot
  sites : Option (List (Dict Slot × Dict (Dict Slot)))
  couplings : Option (List (Dict Slot × Dict (Dict Slot)))
  deriving Repr

/-- SpinSystem.json (parseable.py:87-112, `get_list` 132-140). -/
def jsonSS (o : SSObj) : SSDict :=
  ⟨jsonFlat o.base, some (o.sites.map jsonN), o.couplings.map fun l => l.map jsonN⟩

/-- `[cls.parse_dict_with_units(s) for s in l]` (spin_system/__init__.py lines 319-357). -/
def parseList (U : Units) (fs : List NField) (T : Table) :
    List (Dict Slot × Dict (Dict Slot)) → Py (List NObj)
  | [] => .ok []
  | d :: l =>
    match parseN U fs T d with
    | .error e => .error e
    | .ok o =>
      match parseList U fs T l with
      | .error e => .error e
      | .ok os => .ok (o :: os)

/-- spin_system/__init__.py:318-357, without shared dictionaries (see `Verif.Parse.World`). -/
def parseSS (U : Units) (d : SSDict) : Py SSObj :=
  match parseList U siteFields siteTable (d.sites.getD []) with
  | .error e => .error e
  | .ok sites =>
    match (match d.couplings with
      | none => .ok none
      | some l => (parseList U couplingFields couplingTable l).map some : Py (Option (List NObj))) with
    | .error e => .error e
    | .ok cs =>
      match (parseFlat U spinSystemTable d.base).2 with
      | .error e => .error e
      | .ok b => .ok ⟨b, sites, cs⟩

/-- Same plain attributes and same tensors. -/
def Spec.SameN (o o' : NObj) : Prop :=
  Spec.Same o.base o'.base ∧
  ∀ k, match o.subs.get? k with
    | none => Dict.get? o'.subs k = none
    | some s => ∃ s', Dict.get? o'.subs k = some s' ∧ Spec.Same s s'

/-- A site or coupling whose attributes are all in accepted units. -/
structure Spec.SoundN (fs : List NField) (T : Table) (o : NObj) : Prop where
  base : Spec.Sound T o.base
  keys : ∀ k, o.subs.has k = true → k ∈ fs.map NField.key
  subs : ∀ f ∈ fs, ∀ s, o.subs.get? f.key = some s → Spec.SubSound f s

theorem parseList_ok (U : Units) (hU : U.Ok) (hK : U.Knows) (fs : List NField)
    (hnd : (fs.map NField.key).Nodup) (hT : ∀ f ∈ fs, f.table ∈ tables)
    (hz : ∀ f ∈ fs, "zeta" ∈ f.table.map Prod.fst) (T : Table) (hTb : T ∈ tables) (l : List NObj)
    (hl : ∀ o ∈ l, Spec.SoundN fs T o) :
    ∃ l', parseList U fs T (l.map jsonN) = .ok l' ∧ List.Forall₂ Spec.SameN l l' := by
  induction l with
  | nil => exact ⟨[], rfl, List.Forall₂.nil⟩
  | cons o l ih =>
    obtain ⟨l', e1, e2⟩ := ih fun o' ho' => hl o' (by simp [ho'])
    have ho := hl o (by simp)
    obtain ⟨o', h1, h2⟩ := round_trip_nested U hU hK fs hnd hT hz T hTb o ho.base ho.keys ho.subs
    refine ⟨o' :: l', ?_, List.Forall₂.cons h2 e2⟩
    rw [List.map_cons]
    unfold parseList
    rw [h1]
    simp only
    rw [e1]

/-- **C23 (spin systems).** Reading back the dictionary of a spin system gives the same spin
system: abundance and other attributes, and one by one the same sites and couplings. The
couplings are restricted as in `C25_round_trip_partial`. -/
theorem C23_spin_system (U : Units) (hU : U.Ok) (hK : U.Knows) (o : SSObj)
    (hb : Spec.Sound spinSystemTable o.base) (hs : ∀ s ∈ o.sites, Spec.SoundN siteFields siteTable s)
    (hc : ∀ l, o.couplings = some l → ∀ c ∈ l, Spec.SoundN couplingFields couplingTable c) :
    ∃ o', parseSS U (jsonSS o) = .ok o' ∧ Spec.Same o.base o'.base ∧
      List.Forall₂ Spec.SameN o.sites o'.sites ∧
      (o.couplings = none ∧ o'.couplings = none ∨
        ∃ l l', o.couplings = some l ∧ o'.couplings = some l' ∧ List.Forall₂ Spec.SameN l l') := by
  obtain ⟨sites, e1, e2⟩ := parseList_ok U hU hK siteFields (by decide) (by decide) (by decide) siteTable
    (by decide) o.sites hs
  obtain ⟨b, h1, h2⟩ := round_trip_same U hU spinSystemTable (tables_ok U hK _ (by decide)) o.base hb
  unfold parseSS jsonSS
  simp only [Option.getD_some]
  rw [e1]
  simp only
  cases hcs : o.couplings with
  | none =>
    simp only [Option.map_none]
    rw [h1]
    refine ⟨_, rfl, h2, e2, Or.inl ?_⟩
    simp
  | some l =>
    obtain ⟨cs, c1, c2⟩ := parseList_ok U hU hK couplingFields (by decide) (by decide) (by decide)
      couplingTable (by decide) l (hc l hcs)
    simp only [Option.map_some]
    rw [c1]
    simp only [Except.map]
    rw [h1]
    exact ⟨_, rfl, h2, e2, Or.inr ⟨l, cs, rfl, rfl, c2⟩⟩

example : ((parseSS stdUnits (jsonSS ⟨⟨[("abundance", .val (.num 50))], [("abundance", "pct")]⟩,
    [exampleSite], none⟩)).map fun o => (o.base.vals, o.sites.length)) =
    .ok ([("abundance", .val (.num 50))], 1) := by decide +kernel

/-! ## C66 -/

/-- The physical quantity, in the base unit, that a dictionary entry stands for. -/
def Spec.quantity (U : Units) : Slot → Option (String × ℚ)
  | .val (.list [.num v, .str u]) => (U.phys u).map fun t => (t, v * U.scale u)
  | _ => none

/-- **C66, partial (the stored value and unit).** Whatever accepted unit an attribute is given in,
the number stored together with the stored unit stands for the quantity given. Missing: the
simulation ignores the stored unit, see `C66_counterexample`. -/
theorem C66_stored_partial (U : Units) (hU : U.Ok) (T : Table) (hT : Spec.TableOk U T) (d : Dict Slot)
    (o : Obj) (h : (parseFlat U T d).2 = .ok o) (k : String) (r : Req) (hm : (k, r) ∈ T) (s : Slot)
    (hs : d.get? k = some s) :
    ∃ v u, o.vals.get? k = some (.val (.num v)) ∧ o.units.get? k = some u ∧
      Spec.quantity U s = (U.phys u).map fun t => (t, v * U.scale u) := by
  have hall : ∀ k r, (k, r) ∈ T → ∀ s, d.get? k = some s → ∃ x, enforceReq U s r = some x := by
    intro k r hm s hs
    cases he : enforceReq U s r with
    | some x => exact ⟨x, rfl⟩
    | none =>
      exfalso
      have hbad : ∀ p ∈ r.pairs, Spec.physType U s ≠ some p.1 := by
        intro p hp hc
        unfold enforceReq at he
        rw [List.findSome?_eq_none_iff] at he
        have := he p hp
        rw [Option.map_eq_none_iff] at this
        unfold enforce at this
        unfold Spec.physType at hc
        split at this
        · simp only at hc
          rw [if_pos hc] at this
          cases this
        · next hx => 
          split at hc
          · next v u => exact hx v u rfl
          · cases hc
      obtain ⟨e, hee⟩ := C23_rejects U T hT.nodup d k r hm s hs hbad
      rw [hee] at h
      cases h
  classical
  let g : String → ℚ × String := fun k =>
    match Dict.get? T k, d.get? k with
    | some r, some s => (enforceReq U s r).getD (0, "")
    | _, _ => (0, "")
  obtain ⟨d', us', e1, e2, e3⟩ := parseProps_ok U T hT.nodup d (T.map fun p => (p.1, p.2.first)) g (by
    intro k r hm s hs
    obtain ⟨x, hx⟩ := hall k r hm s hs
    have hg : g k = (enforceReq U s r).getD (0, "") := by
      show (match Dict.get? T k, d.get? k with
        | some r, some s => (enforceReq U s r).getD (0, "")
        | _, _ => (0, "")) = _
      rw [mem_get? T hT.nodup k r hm, hs]
    rw [hg, hx]
    rfl)
  unfold parseFlat at h
  rw [e1] at h
  simp only at h
  split_ifs at h
  injection h with h
  rw [← h]
  have hh : k ∈ T.map Prod.fst ∧ d.has k = true :=
    ⟨List.mem_map.mpr ⟨_, hm, rfl⟩, (has_iff _ _).mpr ⟨s, hs⟩⟩
  refine ⟨(g k).1, (g k).2, by rw [e2, if_pos hh], by rw [e3, if_pos hh], ?_⟩
  obtain ⟨x, hx⟩ := hall k r hm s hs
  have hg : g k = x := by
    show (match Dict.get? T k, d.get? k with
      | some r, some s => (enforceReq U s r).getD (0, "")
      | _, _ => (0, "")) = _
    rw [mem_get? T hT.nodup k r hm, hs]
    simp only
    rw [hx]
    rfl
  rw [hg]
  unfold enforceReq at hx
  obtain ⟨p, hp, hv⟩ := List.exists_of_findSome?_eq_some hx
  rw [Option.map_eq_some_iff] at hv
  obtain ⟨v, hv, he⟩ := hv
  have hty := hT.typed k r hm p hp
  rw [← he]
  simp only
  rw [hty]
  unfold enforce at hv
  split at hv
  · next w u =>
    by_cases hph : U.phys u = some p.1
    · rw [if_pos hph] at hv
      injection hv with hv
      unfold Spec.quantity
      simp only
      rw [hph]
      simp only [Option.map_some]
      have hne := hU.nonzero p.2 p.1 hty
      rw [← hv]
      congr 2
      field_simp
    · rw [if_neg hph] at hv
      cases hv
  · cases hv

example : ((parseFlat stdUnits symTable [("Cq", .val (qty 3 "MHz"))]).2.map fun o => o.vals) =
    .ok [("Cq", .val (.num 3000000))] := by decide +kernel

/-- base_model.pyx:292-293 and mrsimulator.c:483: the shielding anisotropy in Hz that enters the
simulation, for a Larmor frequency in MHz: zeta is taken to be in ppm. -/
def simulatedZeta (tensor : Obj) (larmor : ℚ) : ℚ :=
  match Spec.field tensor "zeta" with
  | .val (.num q) => q * larmor
  | _ => 0

/-- base_model.pyx:149-151: the increment in Hz that enters the simulation. -/
def simulatedIncrement (dim : Obj) (count : Nat) : ℚ :=
  match Spec.field dim "spectral_width" with
  | .val (.num q) => q / count
  | _ => 0

/-- **C66, where the code disagrees.** A shielding anisotropy of "100 Hz" is accepted and simulated
as 100 ppm: at a Larmor frequency of 100 MHz as 10000 Hz. A spectral width of "50 ppm" is
accepted and simulated as 50 Hz. -/
theorem C66_counterexample :
    ((parseN stdUnits siteFields siteTable
      ([], [("shielding_symmetric", [("zeta", .val (qty 100 "Hz"))])])).map fun o =>
        (o.subs.map fun p => simulatedZeta p.2 100)) = .ok [10000] ∧
    ((parseFlat stdUnits dimensionTable [("spectral_width", .val (qty 50 "ppm"))]).2.map fun o =>
        simulatedIncrement o 1) = .ok 50 := by decide +kernel

end MRS.Parse
