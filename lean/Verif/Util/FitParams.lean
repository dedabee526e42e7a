import Verif.Util.Fit
import Mathlib.Algebra.BigOperators.Group.List.Lemmas
import Mathlib.Algebra.Order.Ring.Rat
import Mathlib.Tactic.Ring

/-!
# Fit parameters: values, bounds and the dependent abundance — properties C28, C29, C30

Model of `make_LMFIT_params` in src/mrsimulator/utils/spectral_fitting.py.
-/

namespace MRS.Fit

open Dict MRS.Util

/-! ## The model -/

/-- A parameter: `Parameters.add(name, value, min, max, expr)`. An expression is 100 minus the
named parameters; that LMFIT evaluates the string "100-a-b-..." to that is trusted (spectral_fitting.py lines 284-297). -/
structure Param where
  name : Str
  value : ℚ
  lo : Option ℚ
  hi : Option ℚ
  expr : Option (List Str)
  deriving DecidableEq, Repr

/-- f"{length - 1}_abundance" (line 284), for at least one spin system. -/
def lastAbundance (n : Nat) : Str := digits (n - 1) ++ "_abundance".toList

/-- The names in the expression (lines 285-286). -/
def exprNames (n : Nat) : List Str :=
  (List.range (n - 1)).map fun i => "sys_".toList ++ (digits i ++ "_abundance".toList)

/-- One turn of the loop (lines 287-299). -/
def addParam (sim : Val) (n : Nat) (scale : ℚ) (name : Str) : Py Param :=
  match getValue sim name with
  | .error e => .error e
  | .ok (.num q) => .ok (
    if isIn "_eta".toList name then ⟨name, q, some 0, some 1, none⟩
    else if isIn (lastAbundance n) name then ⟨name, q, some 0, some 100, some (exprNames n)⟩
    else if isIn "abundance".toList name then ⟨name, q * scale, some 0, some 100, none⟩
    else ⟨name, q, none, none, none⟩)
  | .ok _ => .error .typeError

/-- The loop over the names (spectral_fitting.py lines 284-297). -/
def addParams (sim : Val) (n : Nat) (scale : ℚ) : List Str → Py (List Param)
  | [] => .ok []
  | x :: l => match addParam sim n scale x with
    | .error e => .error e
    | .ok p => match addParams sim n scale l with
      | .error e => .error e
      | .ok ps => .ok (p :: ps)

/-- `make_LMFIT_params(sim)` (lines 254-300), without post-simulation parameters. The argument
`exclude_key` is never used. -/
def makeParams (S : List FSys) : Py (List Param) :=
  if (S.map FSys.abundance).sum = 0 then .error .zeroDivision
  else addParams (simVal S) S.length (100 / (S.map FSys.abundance).sum) (names S)

/-- The value of an expression, given the values of the parameters. -/
def Spec.evalExpr (env : Str → ℚ) (e : List Str) : ℚ := 100 - (e.map env).sum

/-- The name documented for the abundance of spin system `i`. -/
def Spec.abundanceName (i : Nat) : Str := ("sys_" ++ toString i ++ "_abundance").toList

/-! ## Reading and writing -/

theorem getPath_iff (p : List Step) (v w : Val) :
    getPath p v = .ok w ↔ Spec.lookup p v = some w := by
  induction p generalizing v with
  | nil => simp [getPath, Spec.lookup]
  | cons s p ih =>
    cases s with
    | key k =>
      cases v with
      | dict d =>
        simp only [getPath, Spec.lookup]
        cases get? d k with
        | none => simp
        | some u => exact ih u
      | _ => simp [getPath, Spec.lookup]
    | idx i =>
      cases v with
      | list l =>
        simp only [getPath, Spec.lookup]
        cases l[i]? with
        | none => simp
        | some u => exact ih u
      | _ => simp [getPath, Spec.lookup]

theorem setPath_spec (x : Val) (p : List Step) (v w : Val) (hl : Spec.lookup p v = some w)
    (hlast : ∃ q k, p = q ++ [Step.key k]) :
    ∃ v', setPath x p v = .ok v' ∧ Spec.lookup p v' = some x ∧
      ∀ q, ¬ p <+: q → ¬ q <+: p → Spec.lookup q v' = Spec.lookup q v := by
  induction p generalizing v with
  | nil =>
    obtain ⟨q, k, h⟩ := hlast
    simp at h
  | cons s p ih =>
    -- one step down, in a dictionary
    have down : ∀ (v u v' u' : Val), (∀ q, Spec.lookup (s :: q) v = Spec.lookup q u) →
        (∀ q, Spec.lookup (s :: q) v' = Spec.lookup q u') →
        (∀ t q, t ≠ s → Spec.lookup (t :: q) v' = Spec.lookup (t :: q) v) →
        Spec.lookup p u' = some x →
        (∀ q, ¬ p <+: q → ¬ q <+: p → Spec.lookup q u' = Spec.lookup q u) →
        Spec.lookup (s :: p) v' = some x ∧
        ∀ q, ¬ s :: p <+: q → ¬ q <+: s :: p → Spec.lookup q v' = Spec.lookup q v := by
      intro v u v' u' h1 h2 h3 h4 h5
      refine ⟨by rw [h2]; exact h4, ?_⟩
      intro q hq1 hq2
      cases q with
      | nil => exact absurd (List.nil_prefix) hq2
      | cons t q =>
        by_cases hts : t = s
        · subst hts
          rw [h1, h2]
          apply h5
          · intro h
            exact hq1 (List.cons_prefix_cons.mpr ⟨rfl, h⟩)
          · intro h
            exact hq2 (List.cons_prefix_cons.mpr ⟨rfl, h⟩)
        · exact h3 t q hts
    by_cases hp : p = []
    · subst hp
      obtain ⟨q, k, h⟩ := hlast
      have hs : s = .key k := by
        cases q with
        | nil => simpa using h
        | cons t q => simp at h
      subst hs
      cases v with
      | dict d =>
        cases hg : get? d k with
        | none => simp [Spec.lookup, hg] at hl
        | some u =>
          have hh : has d k = true := (Dict.has_iff d k).mpr ⟨u, hg⟩
          refine ⟨.dict (set d k x), by simp [setPath, hh], ?_⟩
          refine down (.dict d) u _ x ?_ ?_ ?_ rfl ?_
          · intro q; simp [Spec.lookup, hg]
          · intro q; simp [Spec.lookup, Dict.get?_set]
          · intro t q ht
            cases t with
            | idx i => simp [Spec.lookup]
            | key k' =>
              have : k ≠ k' := by
                intro he
                exact ht (by rw [he])
              simp [Spec.lookup, Dict.get?_set, this]
          · intro q h
            exact absurd (List.nil_prefix) h
      | _ => simp [Spec.lookup] at hl
    · have hlast' : ∃ q k, p = q ++ [Step.key k] := by
        obtain ⟨q, k, h⟩ := hlast
        cases q with
        | nil => simp at h; exact absurd h.2 hp
        | cons t q =>
          simp only [List.cons_append, List.cons.injEq] at h
          exact ⟨q, k, h.2⟩
      cases s with
      | key k =>
        cases v with
        | dict d =>
          cases hg : get? d k with
          | none => simp [Spec.lookup, hg] at hl
          | some u =>
            simp only [Spec.lookup, hg] at hl
            obtain ⟨u', h1, h2, h3⟩ := ih u hl hlast'
            have hset : setPath x (.key k :: p) (.dict d) = .ok (.dict (set d k u')) := by
              cases p with
              | nil => exact absurd rfl hp
              | cons t p => simp [setPath, hg, h1]
            refine ⟨_, hset, ?_⟩
            refine down (.dict d) u _ u' ?_ ?_ ?_ h2 h3
            · intro q; simp [Spec.lookup, hg]
            · intro q; simp [Spec.lookup, Dict.get?_set]
            · intro t q ht
              cases t with
              | idx i => simp [Spec.lookup]
              | key k' =>
                have : k ≠ k' := by
                  intro he
                  exact ht (by rw [he])
                simp [Spec.lookup, Dict.get?_set, this]
        | _ => simp [Spec.lookup] at hl
      | idx i =>
        cases v with
        | list l =>
          cases hg : l[i]? with
          | none => simp [Spec.lookup, hg] at hl
          | some u =>
            simp only [Spec.lookup, hg] at hl
            obtain ⟨u', h1, h2, h3⟩ := ih u hl hlast'
            have hset : setPath x (.idx i :: p) (.list l) = .ok (.list (l.set i u')) := by
              simp [setPath, hg, h1]
            have hi : i < l.length := (List.getElem?_eq_some_iff.mp hg).1
            refine ⟨_, hset, ?_⟩
            refine down (.list l) u _ u' ?_ ?_ ?_ h2 h3
            · intro q; simp [Spec.lookup, hg]
            · intro q; simp [Spec.lookup, hi]
            · intro t q ht
              cases t with
              | key k => simp [Spec.lookup]
              | idx i' =>
                have : i ≠ i' := by
                  intro he
                  exact ht (by rw [he])
                simp [Spec.lookup, List.getElem?_set_ne this]
        | _ => simp [Spec.lookup] at hl

/-! ## The attributes exist -/

theorem get?_tens (t : Tens) (keys : List String) (k : String) (h : k ∈ keys)
    (hp : k ≠ "property_units") :
    get? (("property_units", Val.dict []) :: keys.map fun k => (k, optNum (t k))) k =
      some (optNum (t k)) := by
  rw [Dict.get?_cons, if_neg (by exact fun h => hp h.symm)]
  induction keys with
  | nil => simp at h
  | cons a keys ih =>
    rw [List.map_cons, Dict.get?_cons]
    by_cases ha : a = k
    · subst ha; simp
    · rw [if_neg (by exact ha)]
      exact ih ((List.mem_cons.mp h).resolve_left (fun e => ha e.symm))

theorem tens_lookup (t : Option Tens) (k : String) (h : k ∈ tensAttrs t) :
    ∃ q, Spec.lookup [.key k] (tensVal symKeys t) = some (.num q) := by
  have hm := tensAttrs_mem t k h
  cases t with
  | none => simp [tensAttrs] at h
  | some t =>
    unfold tensAttrs at h
    have hs := (List.mem_filter.mp h).2
    obtain ⟨q, hq⟩ := Option.isSome_iff_exists.mp hs
    refine ⟨q, ?_⟩
    have : k ≠ "property_units" := by
      rintro rfl
      exact absurd hm (by decide)
    have hg := get?_tens t symKeys k hm this
    rw [hq] at hg
    simp only [tensVal, Spec.lookup]
    rw [hg]
    rfl

theorem lookup_sys (S : List FSys) (i : Nat) (p : List Step) :
    Spec.lookup (.key "spin_systems" :: .idx i :: p) (simVal S) =
      match S[i]? with
      | some s => Spec.lookup p (sysVal s)
      | none => none := by
  simp only [Spec.lookup, simVal, Dict.get?_cons, if_true, List.getElem?_map]
  cases S[i]? <;> rfl

theorem lookup_site (s : FSys) (j : Nat) (t : FSite) (h : s.sites[j]? = some t) (p : List Step) :
    Spec.lookup (.key "sites" :: .idx j :: p) (sysVal s) = Spec.lookup p (siteVal t) := by
  simp [Spec.lookup, sysVal, Dict.get?_cons, h]

theorem lookup_coup (s : FSys) (j : Nat) (c : FCoupling) (h : (s.couplings.getD [])[j]? = some c)
    (p : List Step) :
    Spec.lookup (.key "couplings" :: .idx j :: p) (sysVal s) = Spec.lookup p (couplingVal c) := by
  cases hc : s.couplings with
  | none => rw [hc] at h; simp at h
  | some l =>
    rw [hc] at h
    simp only [Option.getD_some] at h
    simp [Spec.lookup, sysVal, Dict.get?_cons, hc, h]

theorem abund_lookup (S : List FSys) (i : Nat) (s : FSys) (h : S[i]? = some s) :
    Spec.lookup (Attr.abund i).path (simVal S) = some (.num s.abundance) := by
  unfold Attr.path
  rw [lookup_sys, h]
  simp [Spec.lookup, sysVal, Dict.get?_cons]

theorem attr_lookup (S : List FSys) (a : Attr) (h : a ∈ attrs S) :
    ∃ q, Spec.lookup a.path (simVal S) = some (.num q) := by
  unfold attrs at h
  obtain ⟨i, s, hs, h⟩ := mem_blocks _ _ _ _ h
  rw [Nat.zero_add] at h
  unfold sysAttrs at h
  rw [List.mem_append, List.mem_append] at h
  rcases h with (h | h) | h
  · obtain ⟨j, t, ht, h⟩ := mem_blocks _ _ _ _ h
    rw [Nat.zero_add] at h
    unfold siteAttrs at h
    rw [List.mem_append, List.mem_append] at h
    rcases h with (h | h) | h
    · rw [List.mem_singleton] at h
      subst h
      refine ⟨t.iso, ?_⟩
      unfold Attr.path
      rw [lookup_sys, hs]
      simp only
      rw [lookup_site s j t ht]
      simp [Spec.lookup, siteVal, Dict.get?_cons]
    · obtain ⟨k, hk, rfl⟩ := List.mem_map.mp h
      obtain ⟨q, hq⟩ := tens_lookup _ k hk
      refine ⟨q, ?_⟩
      unfold Attr.path
      rw [lookup_sys, hs]
      simp only
      rw [lookup_site s j t ht, ← hq]
      simp [Spec.lookup, siteVal, Dict.get?_cons]
    · obtain ⟨k, hk, rfl⟩ := List.mem_map.mp h
      obtain ⟨q, hq⟩ := tens_lookup _ k hk
      refine ⟨q, ?_⟩
      unfold Attr.path
      rw [lookup_sys, hs]
      simp only
      rw [lookup_site s j t ht, ← hq]
      simp [Spec.lookup, siteVal, Dict.get?_cons]
  · obtain ⟨j, t, ht, h⟩ := mem_blocks _ _ _ _ h
    rw [Nat.zero_add] at h
    unfold coupAttrs at h
    rw [List.mem_append] at h
    rcases h with h | h
    · rw [List.mem_singleton] at h
      subst h
      refine ⟨t.isoJ, ?_⟩
      unfold Attr.path
      rw [lookup_sys, hs]
      simp only
      rw [lookup_coup s j t ht]
      simp [Spec.lookup, couplingVal, Dict.get?_cons]
    · obtain ⟨k, hk, rfl⟩ := List.mem_map.mp h
      obtain ⟨q, hq⟩ := tens_lookup _ k hk
      refine ⟨q, ?_⟩
      unfold Attr.path
      rw [lookup_sys, hs]
      simp only
      rw [lookup_coup s j t ht, ← hq]
      simp [Spec.lookup, couplingVal, Dict.get?_cons]
  · rw [List.mem_singleton] at h
    subst h
    exact ⟨_, abund_lookup S i s hs⟩

theorem path_last (a : Attr) : ∃ q k, a.path = q ++ [Step.key k] := by
  cases a with
  | abund i => exact ⟨[.key "spin_systems", .idx i], _, rfl⟩
  | siteIso i j => exact ⟨[.key "spin_systems", .idx i, .key "sites", .idx j], _, rfl⟩
  | siteT i j key k => exact ⟨[.key "spin_systems", .idx i, .key "sites", .idx j, .key key], _, rfl⟩
  | coupIso i j => exact ⟨[.key "spin_systems", .idx i, .key "couplings", .idx j], _, rfl⟩
  | coupT i j key k =>
    exact ⟨[.key "spin_systems", .idx i, .key "couplings", .idx j, .key key], _, rfl⟩

/-- The characters of a name are letters, digits and underscores. -/
def Spec.NameChar (c : Char) : Prop := c.isAlphanum = true ∨ c = '_'

instance (c : Char) : Decidable (Spec.NameChar c) := by unfold Spec.NameChar; infer_instance

theorem digits_nameChar (n : Nat) (c : Char) (h : c ∈ digits n) : Spec.NameChar c := by
  left
  have := digits_isDigit n c h
  simp [Char.isAlphanum, this]

theorem tensN_nameChar (key k : String) (hk : key ∈ ["shielding_symmetric", "quadrupolar",
    "dipolar"]) (h : k ∈ symKeys) (c : Char) (hc : c ∈ tensN key k) : Spec.NameChar c := by
  have : ∀ key ∈ ["shielding_symmetric", "quadrupolar", "dipolar"], ∀ k ∈ symKeys,
      ∀ c ∈ tensN key k, Spec.NameChar c := by decide +kernel
  exact this key hk k h c hc

theorem sysN_nameChar (i : Nat) (t : Str) (ht : ∀ c ∈ t, Spec.NameChar c) (c : Char)
    (hc : c ∈ sysN i t) : Spec.NameChar c := by
  unfold sysN at hc
  rw [List.mem_append, List.mem_append] at hc
  rcases hc with hc | hc | hc
  · have : ∀ c ∈ "sys_".toList, Spec.NameChar c := by decide +kernel
    exact this c hc
  · exact digits_nameChar i c hc
  · exact ht c hc

theorem siteN_nameChar (i j : Nat) (t : Str) (ht : ∀ c ∈ t, Spec.NameChar c) (c : Char)
    (hc : c ∈ siteN i j t) : Spec.NameChar c := by
  refine sysN_nameChar i _ ?_ c hc
  intro c hc
  rw [List.mem_append, List.mem_append] at hc
  rcases hc with hc | hc | hc
  · have : ∀ c ∈ "_site_".toList, Spec.NameChar c := by decide +kernel
    exact this c hc
  · exact digits_nameChar j c hc
  · exact ht c hc

theorem coupN_nameChar (i j : Nat) (t : Str) (ht : ∀ c ∈ t, Spec.NameChar c) (c : Char)
    (hc : c ∈ coupN i j t) : Spec.NameChar c := by
  refine sysN_nameChar i _ ?_ c hc
  intro c hc
  rw [List.mem_append, List.mem_append] at hc
  rcases hc with hc | hc | hc
  · have : ∀ c ∈ "_coupling_".toList, Spec.NameChar c := by decide +kernel
    exact this c hc
  · exact digits_nameChar j c hc
  · exact ht c hc

theorem str_nameChar (a : Attr) (h : a.Valid) (c : Char) (hc : c ∈ a.str) : Spec.NameChar c := by
  cases a with
  | abund i => exact sysN_nameChar i _ (by decide +kernel) c hc
  | siteIso i j => exact siteN_nameChar i j _ (by decide +kernel) c hc
  | siteT i j key k =>
    exact siteN_nameChar i j _ (tensN_nameChar key k (by rcases h.1 with h | h <;> simp [h]) h.2)
      c hc
  | coupIso i j => exact coupN_nameChar i j _ (by decide +kernel) c hc
  | coupT i j key k =>
    exact coupN_nameChar i j _ (tensN_nameChar key k (by simp [h.1]) h.2) c hc

/-- **C28, partial.** For every simulator without antisymmetric tensors and without symmetric J
tensors: decoding the names made gives the paths of all attributes that can be fitted, one each;
the names are distinct and consist of letters, digits and underscores; reading through a name
gives the attribute, and writing through it changes the attribute at that path and nothing else.

Missing for the full property: the tensors left out (`C28_counterexample`). -/
theorem C28_names_partial (S : List FSys) (h : Spec.Supported S) :
    (names S).map (fun n => (decode n).map stepOf) = Spec.paths S ∧
    (names S).Nodup ∧
    (∀ n ∈ names S, ∀ c ∈ n, Spec.NameChar c) ∧
    ∀ n ∈ names S, ∃ p q, p ∈ Spec.paths S ∧ Spec.lookup p (simVal S) = some (.num q) ∧
      getValue (simVal S) n = .ok (.num q) ∧
      ∀ x, ∃ sim', setValue (simVal S) n (.num x) = .ok sim' ∧
        Spec.lookup p sim' = some (.num x) ∧
        ∀ r, ¬ p <+: r → ¬ r <+: p → Spec.lookup r sim' = Spec.lookup r (simVal S) := by
  have hdec : (names S).map (fun n => (decode n).map stepOf) = Spec.paths S := by
    rw [names_eq S h, paths_eq, List.map_map]
    apply List.map_congr_left
    intro a ha
    exact decode_str a (attrs_valid S a ha)
  refine ⟨hdec, ?_, ?_, ?_⟩
  · apply List.Nodup.of_map (fun n => (decode n).map stepOf)
    rw [hdec, paths_eq]
    exact (attrs_nodup S).map path_injective
  · intro n hn
    rw [names_eq S h] at hn
    obtain ⟨a, ha, rfl⟩ := List.mem_map.mp hn
    exact str_nameChar a (attrs_valid S a ha)
  · intro n hn
    rw [names_eq S h] at hn
    obtain ⟨a, ha, rfl⟩ := List.mem_map.mp hn
    have hd := decode_str a (attrs_valid S a ha)
    obtain ⟨q, hq⟩ := attr_lookup S a ha
    refine ⟨a.path, q, ?_, hq, ?_, ?_⟩
    · rw [paths_eq]
      exact List.mem_map.mpr ⟨a, ha, rfl⟩
    · unfold getValue
      rw [hd, getPath_iff]
      exact hq
    · intro x
      unfold setValue
      rw [hd]
      exact setPath_spec (.num x) a.path (simVal S) _ hq (path_last a)

/-- A simulator for the examples. -/
def exampleSim : List FSys :=
  [⟨some "a",
    [⟨none, "29Si", -90, some fun k => if k = "zeta" then some 50
        else if k = "eta" then some (1 / 2) else none, none, none⟩,
     ⟨none, "27Al", 10, none, none, some fun k => if k = "Cq" then some 3000000
        else if k = "eta" then some 0 else none⟩],
    some [⟨none, 0, 1, 5, none, none, some fun k => if k = "D" then some 100 else none⟩], 30⟩,
   ⟨none, [⟨none, "1H", 1, none, none, none⟩], none, 20⟩]

example : Spec.Supported exampleSim ∧ (names exampleSim).map String.ofList =
    ["sys_0_site_0_isotropic_chemical_shift", "sys_0_site_0_shielding_symmetric_zeta",
     "sys_0_site_0_shielding_symmetric_eta", "sys_0_site_1_isotropic_chemical_shift",
     "sys_0_site_1_quadrupolar_Cq", "sys_0_site_1_quadrupolar_eta",
     "sys_0_coupling_0_isotropic_j", "sys_0_coupling_0_dipolar_D", "sys_0_abundance",
     "sys_1_site_0_isotropic_chemical_shift", "sys_1_abundance"] := by
  refine ⟨?_, by decide +kernel⟩
  intro s hs
  simp only [exampleSim, List.mem_cons, List.not_mem_nil, or_false] at hs
  rcases hs with rfl | rfl <;> simp

/-- **C28, disagreement.** With a symmetric J tensor, or with an antisymmetric shielding tensor,
no parameters are made: the name does not lead back to the attribute. -/
theorem C28_counterexample :
    let t : Tens := fun k => if k = "zeta" then some 10 else none
    makeParams [⟨none, [⟨none, "1H", 0, none, none, none⟩, ⟨none, "1H", 0, none, none, none⟩],
      some [⟨none, 0, 1, 0, some t, none, none⟩], 100⟩] = .error .attributeError ∧
    makeParams [⟨none, [⟨none, "1H", 0, none, some t, none⟩], none, 100⟩] =
      .error .attributeError := by
  decide +kernel

/-! ## Substring tests -/

theorem isIn_iff (old s : Str) : isIn old s = true ↔ old <:+: s := by
  induction s with
  | nil => simp [isIn]
  | cons c s ih =>
    rw [isIn, Bool.or_eq_true, ih, List.isPrefixOf_iff_prefix, List.infix_cons_iff]

theorem isIn_append (old : Str) (d : Char) (h : d ∉ old) (a b : Str) :
    isIn old (a ++ d :: b) = (isIn old a || isIn old b) := by
  induction a with
  | nil =>
    rw [List.nil_append]
    conv_lhs => rw [isIn]
    have := isPrefixOf_append old [] b d h
    rw [List.nil_append] at this
    rw [this, isIn]
    cases old <;> rfl
  | cons c a ih =>
    rw [List.cons_append, isIn, isIn, ih, ← List.cons_append, isPrefixOf_append old _ b d h,
      Bool.or_assoc]

theorem isIn_digits' (old : Str) (ho : old ≠ []) (h : ∀ c ∈ old, c.isDigit = false) (D : Str)
    (hD : ∀ c ∈ D, c.isDigit = true) (hn : D ≠ []) (a b : Str) :
    isIn old (a ++ (D ++ b)) = (isIn old a || isIn old b) := by
  have hnot : ∀ d, d.isDigit = true → d ∉ old := by
    intro d hd hm
    rw [h d hm] at hd
    cases hd
  induction D generalizing a with
  | nil => exact absurd rfl hn
  | cons d D ih =>
    rw [List.cons_append, isIn_append old d (hnot d (hD d (by simp)))]
    by_cases hD0 : D = []
    · subst hD0; rfl
    · have h1 := ih (fun c hc => hD c (List.mem_cons_of_mem _ hc)) hD0 []
      rw [List.nil_append] at h1
      rw [h1]
      cases old with
      | nil => exact absurd rfl ho
      | cons o old => simp [isIn]

theorem isIn_digits (old : Str) (ho : old ≠ []) (h : ∀ c ∈ old, c.isDigit = false) (n : Nat)
    (a b : Str) : isIn old (a ++ (digits n ++ b)) = (isIn old a || isIn old b) :=
  isIn_digits' old ho h _ (fun c hc => digits_isDigit n c hc) (digits_ne_nil n) a b

/-- Is it an asymmetry parameter? -/
def Attr.isEta : Attr → Bool
  | .siteT _ _ _ k => k = "eta"
  | .coupT _ _ _ k => k = "eta"
  | _ => false

/-- Is it an abundance? -/
def Attr.isAbund : Attr → Bool
  | .abund _ => true
  | _ => false

theorem eta_iff (a : Attr) (h : a.Valid) : isIn "_eta".toList a.str = a.isEta := by
  have e1 : isIn "_eta".toList "sys_".toList = false := by decide +kernel
  have e2 : isIn "_eta".toList "_site_".toList = false := by decide +kernel
  have e3 : isIn "_eta".toList "_coupling_".toList = false := by decide +kernel
  have e4 : isIn "_eta".toList "_abundance".toList = false := by decide +kernel
  have e5 : isIn "_eta".toList "_isotropic_chemical_shift".toList = false := by decide +kernel
  have e6 : isIn "_eta".toList "_isotropic_j".toList = false := by decide +kernel
  have e7 : ∀ key ∈ ["shielding_symmetric", "quadrupolar", "dipolar"], ∀ k ∈ symKeys,
    isIn "_eta".toList (tensN key k) = decide (k = "eta") := by decide +kernel
  have hd : ∀ c ∈ "_eta".toList, c.isDigit = false := by decide +kernel
  have hn : "_eta".toList ≠ [] := by decide +kernel
  cases a with
  | abund i => simp only [Attr.str, sysN, isIn_digits _ hn hd, e1, e4]; rfl
  | siteIso i j =>
    simp only [Attr.str, siteN, sysN, isIn_digits _ hn hd, e1, e2, e5]; rfl
  | coupIso i j =>
    simp only [Attr.str, coupN, sysN, isIn_digits _ hn hd, e1, e3, e6]; rfl
  | siteT i j key k =>
    simp only [Attr.str, siteN, sysN, isIn_digits _ hn hd, e1, e2,
      e7 key (by rcases h.1 with h | h <;> simp [h]) k h.2]
    simp [Attr.isEta]
  | coupT i j key k =>
    simp only [Attr.str, coupN, sysN, isIn_digits _ hn hd, e1, e3,
      e7 key (by simp [h.1]) k h.2]
    simp [Attr.isEta]

theorem abund_iff (a : Attr) (h : a.Valid) : isIn "abundance".toList a.str = a.isAbund := by
  have e1 : isIn "abundance".toList "sys_".toList = false := by decide +kernel
  have e2 : isIn "abundance".toList "_site_".toList = false := by decide +kernel
  have e3 : isIn "abundance".toList "_coupling_".toList = false := by decide +kernel
  have e4 : isIn "abundance".toList "_abundance".toList = true := by decide +kernel
  have e5 : isIn "abundance".toList "_isotropic_chemical_shift".toList = false := by
    decide +kernel
  have e6 : isIn "abundance".toList "_isotropic_j".toList = false := by decide +kernel
  have e7 : ∀ key ∈ ["shielding_symmetric", "quadrupolar", "dipolar"], ∀ k ∈ symKeys,
    isIn "abundance".toList (tensN key k) = false := by decide +kernel
  have hd : ∀ c ∈ "abundance".toList, c.isDigit = false := by decide +kernel
  have hn : "abundance".toList ≠ [] := by decide +kernel
  cases a with
  | abund i => simp only [Attr.str, sysN, isIn_digits _ hn hd, e1, e4]; rfl
  | siteIso i j =>
    simp only [Attr.str, siteN, sysN, isIn_digits _ hn hd, e1, e2, e5]; rfl
  | coupIso i j =>
    simp only [Attr.str, coupN, sysN, isIn_digits _ hn hd, e1, e3, e6]; rfl
  | siteT i j key k =>
    simp only [Attr.str, siteN, sysN, isIn_digits _ hn hd, e1, e2,
      e7 key (by rcases h.1 with h | h <;> simp [h]) k h.2]
    rfl
  | coupT i j key k =>
    simp only [Attr.str, coupN, sysN, isIn_digits _ hn hd, e1, e3,
      e7 key (by simp [h.1]) k h.2]
    rfl

theorem char_split (x : Char) (a b a' b' : Str) (h : a ++ x :: b = a' ++ x :: b')
    (ha : x ∉ a) (ha' : x ∉ a') : a = a' ∧ b = b' := by
  induction a generalizing a' with
  | nil =>
    cases a' with
    | nil => simpa using h
    | cons c a' =>
      simp only [List.nil_append, List.cons_append, List.cons.injEq] at h
      exact absurd (by simp [← h.1]) ha'
  | cons c a ih =>
    cases a' with
    | nil =>
      simp only [List.nil_append, List.cons_append, List.cons.injEq] at h
      exact absurd (by simp [h.1]) ha
    | cons c' a' =>
      simp only [List.cons_append, List.cons.injEq] at h
      have := ih a' h.2 (by intro hm; exact ha (List.mem_cons_of_mem _ hm))
        (by intro hm; exact ha' (List.mem_cons_of_mem _ hm))
      exact ⟨by rw [h.1, this.1], this.2⟩

theorem not_in_digits (x : Char) (hx : x.isDigit = false) (n : Nat) : x ∉ digits n := by
  intro h
  rw [digits_isDigit n x h] at hx
  cases hx

/-- The numeral of the last index ends no earlier numeral. -/
theorem last_iff (m i : Nat) (hi : i ≤ m) :
    isIn (digits m ++ "_abundance".toList) (sysN i "_abundance".toList) = decide (i = m) := by
  rw [Bool.eq_iff_iff, isIn_iff, decide_eq_true_iff]
  constructor
  · rintro ⟨u, w, h⟩
    have hb : ∀ n, 'b' ∉ digits n := not_in_digits 'b' (by decide)
    have hcount := congrArg (List.count 'b') h
    unfold sysN at hcount
    simp only [List.count_append, List.count_eq_zero_of_not_mem (hb _)] at hcount
    have c1 : List.count 'b' "_abundance".toList = 1 := by decide +kernel
    have c2 : List.count 'b' "sys_".toList = 0 := by decide +kernel
    rw [c1, c2] at hcount
    have hu : 'b' ∉ u := by
      rw [← List.count_eq_zero]
      omega
    have hsplit : "_abundance".toList = "_a".toList ++ 'b' :: "undance".toList := by decide +kernel
    unfold sysN at h
    rw [hsplit] at h
    have h' : (u ++ digits m ++ "_a".toList) ++ 'b' :: ("undance".toList ++ w) =
        ("sys_".toList ++ digits i ++ "_a".toList) ++ 'b' :: "undance".toList := by
      simpa using h
    obtain ⟨h1, _⟩ := char_split 'b' _ _ _ _ h' (by
        rw [List.mem_append, List.mem_append]
        rintro ((hm | hm) | hm)
        · exact hu hm
        · exact hb m hm
        · revert hm; decide +kernel)
      (by
        rw [List.mem_append, List.mem_append]
        rintro ((hm | hm) | hm)
        · revert hm; decide +kernel
        · exact hb i hm
        · revert hm; decide +kernel)
    have h2 := List.append_cancel_right h1
    rcases List.append_eq_append_iff.mp h2 with ⟨t, ht1, ht2⟩ | ⟨t, ht1, ht2⟩
    · -- the numeral would begin inside "sys_"
      have ht : t = [] := by
        by_contra hne
        have hlast : t.getLast hne = '_' := by
          have h3 : ("sys_".toList).getLast (by decide +kernel) = '_' := by decide +kernel
          rw [← h3]
          simp only [ht1]
          rw [List.getLast_append_of_ne_nil _ hne]
        have : '_' ∈ digits m := by
          rw [ht2, ← hlast]
          exact List.mem_append_left _ (List.getLast_mem hne)
        exact not_in_digits '_' (by decide) m this
      rw [ht, List.nil_append] at ht2
      have := congrArg (fun l => Nat.ofDigitChars 10 l 0) ht2
      simp only [digits, Nat.ofDigitChars_ten_toDigits] at this
      exact this.symm
    · have := congrArg (fun l => Nat.ofDigitChars 10 l 0) ht2
      simp only [digits, Nat.ofDigitChars_append, Nat.ofDigitChars_ten_toDigits] at this
      rw [Nat.ofDigitChars_eq_ofDigitChars_zero, Nat.ofDigitChars_ten_toDigits] at this
      omega
  · rintro rfl
    exact ⟨"sys_".toList, [], by simp [sysN]⟩

theorem last_attr (n : Nat) (a : Attr) (h : a.Valid) (hs : a.sys < n) :
    isIn (lastAbundance n) a.str = decide (a = .abund (n - 1)) := by
  cases ha : a.isAbund with
  | false =>
    have h1 := abund_iff a h
    rw [ha] at h1
    have h2 : isIn (lastAbundance n) a.str = false := by
      rw [← Bool.not_eq_true, isIn_iff]
      intro hi
      rw [← Bool.not_eq_true, isIn_iff] at h1
      apply h1
      refine List.IsInfix.trans ?_ hi
      refine ⟨digits (n - 1) ++ ['_'], [], ?_⟩
      unfold lastAbundance
      have : "_abundance".toList = '_' :: "abundance".toList := by decide +kernel
      rw [this]
      simp
    rw [h2]
    symm
    rw [decide_eq_false_iff_not]
    rintro rfl
    cases ha
  | true =>
    cases a with
    | abund i =>
      simp only [Attr.sys] at hs
      unfold lastAbundance Attr.str
      rw [last_iff _ _ (by omega)]
      simp
    | _ => cases ha

/-! ## The parameters -/

/-- The parameter made for an attribute with value `q`. -/
def paramOf (n : Nat) (scale : ℚ) (a : Attr) (q : ℚ) : Param :=
  if a.isEta then ⟨a.str, q, some 0, some 1, none⟩
  else if a = .abund (n - 1) then ⟨a.str, q, some 0, some 100, some (exprNames n)⟩
  else if a.isAbund then ⟨a.str, q * scale, some 0, some 100, none⟩
  else ⟨a.str, q, none, none, none⟩

theorem attrs_sys (S : List FSys) (a : Attr) (h : a ∈ attrs S) : a.sys < S.length := by
  unfold attrs at h
  obtain ⟨i, s, hs, h⟩ := mem_blocks _ _ _ _ h
  rw [sysAttrs_mem _ _ _ h, Nat.zero_add]
  exact (List.getElem?_eq_some_iff.mp hs).1

theorem addParam_eq (S : List FSys) (scale : ℚ) (a : Attr) (ha : a ∈ attrs S) (q : ℚ)
    (hq : Spec.lookup a.path (simVal S) = some (.num q)) :
    addParam (simVal S) S.length scale a.str = .ok (paramOf S.length scale a q) := by
  have hv := attrs_valid S a ha
  have hg : getValue (simVal S) a.str = .ok (.num q) := by
    unfold getValue
    rw [decode_str a hv, getPath_iff]
    exact hq
  unfold addParam
  rw [hg]
  simp only
  rw [eta_iff a hv, last_attr _ a hv (attrs_sys S a ha), abund_iff a hv]
  unfold paramOf
  simp only [decide_eq_true_eq]

theorem addParams_eq (S : List FSys) (scale : ℚ) (l : List Attr) (hl : ∀ a ∈ l, a ∈ attrs S) :
    ∃ ps, addParams (simVal S) S.length scale (l.map Attr.str) = .ok ps ∧
      ps.map Param.name = l.map Attr.str ∧
      (∀ p ∈ ps, ∃ a ∈ l, ∃ q, Spec.lookup a.path (simVal S) = some (.num q) ∧
        p = paramOf S.length scale a q) ∧
      (∀ a ∈ l, ∀ q, Spec.lookup a.path (simVal S) = some (.num q) →
        paramOf S.length scale a q ∈ ps) := by
  induction l with
  | nil => exact ⟨[], by simp [addParams]⟩
  | cons a l ih =>
    obtain ⟨ps, h1, h2, h3, h4⟩ := ih (fun b hb => hl b (List.mem_cons_of_mem _ hb))
    obtain ⟨q, hq⟩ := attr_lookup S a (hl a (by simp))
    have ha := addParam_eq S scale a (hl a (by simp)) q hq
    have hname : (paramOf S.length scale a q).name = a.str := by
      unfold paramOf
      split_ifs <;> rfl
    refine ⟨paramOf S.length scale a q :: ps, ?_, ?_, ?_, ?_⟩
    · rw [List.map_cons, addParams, ha, h1]
    · rw [List.map_cons, List.map_cons, h2, hname]
    · intro p hp
      rcases List.mem_cons.mp hp with rfl | hp
      · exact ⟨a, by simp, q, hq, rfl⟩
      · obtain ⟨b, hb, r, hr, he⟩ := h3 p hp
        exact ⟨b, List.mem_cons_of_mem _ hb, r, hr, he⟩
    · intro b hb r hr
      rcases List.mem_cons.mp hb with rfl | hb
      · rw [hq] at hr
        injection hr with hr
        injection hr with hr
        subst hr
        simp
      · exact List.mem_cons_of_mem _ (h4 b hb r hr)

theorem blocks_mem {α β : Type} (f : Nat → α → List β) (n : Nat) (l : List α) (i : Nat) (a : α)
    (h : l[i]? = some a) (b : β) (hb : b ∈ f (n + i) a) : b ∈ Spec.blocks f n l := by
  induction l generalizing n i with
  | nil => simp at h
  | cons x l ih =>
    rw [Spec.blocks, List.mem_append]
    cases i with
    | zero =>
      left
      simp only [List.getElem?_cons_zero, Option.some.injEq] at h
      subst h
      exact hb
    | succ i =>
      right
      simp only [List.getElem?_cons_succ] at h
      refine ih (n + 1) i h ?_
      rw [show n + 1 + i = n + (i + 1) by omega]
      exact hb

theorem abund_mem (S : List FSys) (i : Nat) (hi : i < S.length) : Attr.abund i ∈ attrs S := by
  unfold attrs
  apply blocks_mem _ 0 S i S[i] (List.getElem?_eq_getElem hi)
  rw [Nat.zero_add]
  unfold sysAttrs
  simp

theorem abundanceName_eq (i : Nat) : Spec.abundanceName i = sysN i "_abundance".toList := by
  unfold Spec.abundanceName sysN digits
  simp [String.toList_append, Nat.toList_repr]

/-- **C30.** Whatever the simulator, a parameter is bounded to [0, 1] exactly if its attribute is
an asymmetry, to [0, 100] exactly if it is an abundance, and not at all otherwise. (Simulators
with the tensors of `C28_counterexample` make no parameters.) -/
theorem C30_bounds (S : List FSys) (h : Spec.Supported S) (ps : List Param)
    (hp : makeParams S = .ok ps) (p : Param) (hm : p ∈ ps) :
    ∃ q k, (decode p.name).map stepOf = q ++ [.key k] ∧
      ((k = "eta" ∧ p.lo = some 0 ∧ p.hi = some 1) ∨
       (k = "abundance" ∧ p.lo = some 0 ∧ p.hi = some 100) ∨
       (k ≠ "eta" ∧ k ≠ "abundance" ∧ p.lo = none ∧ p.hi = none)) := by
  unfold makeParams at hp
  split_ifs at hp with h0
  rw [names_eq S h] at hp
  obtain ⟨ps', h1, _, h3, _⟩ := addParams_eq S (100 / (S.map FSys.abundance).sum) (attrs S)
    (fun a ha => ha)
  rw [h1] at hp
  injection hp with hp
  subst hp
  obtain ⟨a, ha, q, _, rfl⟩ := h3 p hm
  have hv := attrs_valid S a ha
  have hname : (paramOf S.length (100 / (S.map FSys.abundance).sum) a q).name = a.str := by
    unfold paramOf
    split_ifs <;> rfl
  rw [hname, decode_str a hv]
  unfold paramOf
  cases a with
  | abund i =>
    refine ⟨[.key "spin_systems", .idx i], "abundance", rfl, Or.inr (Or.inl ⟨rfl, ?_⟩)⟩
    rw [if_neg (by simp [Attr.isEta])]
    split_ifs with h1 h2
    · exact ⟨rfl, rfl⟩
    · exact ⟨rfl, rfl⟩
    · exact absurd rfl h2
  | siteIso i j =>
    refine ⟨[.key "spin_systems", .idx i, .key "sites", .idx j], _, rfl,
      Or.inr (Or.inr ⟨by decide, by decide, ?_⟩)⟩
    simp [Attr.isEta, Attr.isAbund]
  | coupIso i j =>
    refine ⟨[.key "spin_systems", .idx i, .key "couplings", .idx j], _, rfl,
      Or.inr (Or.inr ⟨by decide, by decide, ?_⟩)⟩
    simp [Attr.isEta, Attr.isAbund]
  | siteT i j key k =>
    refine ⟨[.key "spin_systems", .idx i, .key "sites", .idx j, .key key], k, rfl, ?_⟩
    by_cases hk : k = "eta"
    · left
      simp [Attr.isEta, hk]
    · right; right
      refine ⟨hk, ?_, ?_⟩
      · rintro rfl
        exact absurd hv.2 (by decide)
      · simp [Attr.isEta, Attr.isAbund, hk]
  | coupT i j key k =>
    refine ⟨[.key "spin_systems", .idx i, .key "couplings", .idx j, .key key], k, rfl, ?_⟩
    by_cases hk : k = "eta"
    · left
      simp [Attr.isEta, hk]
    · right; right
      refine ⟨hk, ?_, ?_⟩
      · rintro rfl
        exact absurd hv.2 (by decide)
      · simp [Attr.isEta, Attr.isAbund, hk]

/-- **C29.** For every simulator with at least one spin system and non-zero total abundance,
exactly one parameter, the last abundance, is an expression; it is 100 minus the other
abundances, so that whatever their values the abundances add to 100; the other abundances are
rescaled by 100 over the total, and with these values the expression is the rescaled last
abundance. -/
theorem C29_abundances (S : List FSys) (h : Spec.Supported S) (hS : S ≠ [])
    (h0 : (S.map FSys.abundance).sum ≠ 0) :
    ∃ ps, makeParams S = .ok ps ∧ ps.map Param.name = names S ∧
      (∀ p ∈ ps, p.expr ≠ none → p.name = Spec.abundanceName (S.length - 1)) ∧
      (∃ p ∈ ps, ∃ e, p.name = Spec.abundanceName (S.length - 1) ∧ p.expr = some e ∧
        (∀ env : Str → ℚ, ((List.range (S.length - 1)).map
          fun i => env (Spec.abundanceName i)).sum + Spec.evalExpr env e = 100) ∧
        ∀ env : Str → ℚ,
          (∀ i (hi : i < S.length - 1), env (Spec.abundanceName i) =
            (S[i]).abundance * 100 / (S.map FSys.abundance).sum) →
          Spec.evalExpr env e =
            (S.getLast hS).abundance * 100 / (S.map FSys.abundance).sum) ∧
      ∀ i (hi : i < S.length - 1), ∃ p ∈ ps, p.name = Spec.abundanceName i ∧ p.expr = none ∧
        p.value = (S[i]).abundance * 100 / (S.map FSys.abundance).sum := by
  have hlen : 0 < S.length := List.length_pos_iff.mpr hS
  obtain ⟨ps, h1, h2, h3, h4⟩ := addParams_eq S (100 / (S.map FSys.abundance).sum) (attrs S)
    (fun a ha => ha)
  have hexpr : ∀ env : Str → ℚ, (exprNames S.length).map env =
      (List.range (S.length - 1)).map fun i => env (Spec.abundanceName i) := by
    intro env
    unfold exprNames
    rw [List.map_map]
    apply List.map_congr_left
    intro i _
    rw [abundanceName_eq]
    rfl
  refine ⟨ps, ?_, ?_, ?_, ?_, ?_⟩
  · unfold makeParams
    rw [if_neg h0, names_eq S h]
    exact h1
  · rw [h2, names_eq S h]
  · intro p hp he
    obtain ⟨a, ha, q, _, rfl⟩ := h3 p hp
    unfold paramOf at he ⊢
    split_ifs at he ⊢ with h5 h6 h7
    · exact absurd rfl he
    · rw [h6, abundanceName_eq]; rfl
    · exact absurd rfl he
    · exact absurd rfl he
  · have hm := abund_mem S (S.length - 1) (by omega)
    have hl := abund_lookup S (S.length - 1) S[S.length - 1]
      (List.getElem?_eq_getElem (by omega))
    refine ⟨_, h4 _ hm _ hl, exprNames S.length, ?_, ?_, ?_, ?_⟩
    · rw [abundanceName_eq]
      unfold paramOf
      rw [if_neg (by simp [Attr.isEta]), if_pos rfl]
      rfl
    · unfold paramOf
      rw [if_neg (by simp [Attr.isEta]), if_pos rfl]
    · intro env
      unfold Spec.evalExpr
      rw [hexpr]
      ring
    · intro env henv
      unfold Spec.evalExpr
      rw [hexpr]
      have hsum : ((List.range (S.length - 1)).map fun i => env (Spec.abundanceName i)).sum =
          ((S.dropLast).map FSys.abundance).sum * (100 / (S.map FSys.abundance).sum) := by
        have hmul : ∀ (l : List FSys) (c : ℚ), (l.map FSys.abundance).sum * c =
            (l.map fun s => s.abundance * c).sum := by
          intro l c
          induction l with
          | nil => simp
          | cons s l ih => rw [List.map_cons, List.sum_cons, add_mul, ih, List.map_cons,
              List.sum_cons]
        rw [hmul]
        congr 1
        apply List.ext_getElem
        · simp
        · intro i hi1 hi2
          simp only [List.length_map, List.length_range] at hi1
          simp only [List.getElem_map, List.getElem_range, List.getElem_dropLast]
          rw [henv i hi1]
          ring
      have htot : (S.map FSys.abundance).sum =
          ((S.dropLast).map FSys.abundance).sum + (S.getLast hS).abundance := by
        conv_lhs => rw [← List.dropLast_append_getLast hS]
        simp
      rw [hsum]
      have h0' := h0
      rw [htot] at h0' ⊢
      field_simp
      ring
  · intro i hi
    have hm := abund_mem S i (by omega)
    have hl := abund_lookup S i S[i] (List.getElem?_eq_getElem (by omega))
    refine ⟨_, h4 _ hm _ hl, ?_⟩
    unfold paramOf
    rw [if_neg (by simp [Attr.isEta]), if_neg (by
      intro he
      injection he with he
      omega), if_pos (show (Attr.abund i).isAbund = true from rfl)]
    refine ⟨by rw [abundanceName_eq]; rfl, rfl, ?_⟩
    simp only
    ring

/-- The rescaled example: 60 is free, 40 follows. -/
example : (makeParams exampleSim).map (fun ps => (ps.filter (fun p => isIn "abundance".toList p.name)).map
    fun p => (String.ofList p.name, p.value, p.expr.map fun l => l.map String.ofList)) =
    .ok [("sys_0_abundance", 60, none), ("sys_1_abundance", 20, some ["sys_0_abundance"])] := by
  decide +kernel

/-- The hypotheses of `C29_abundances` are met by the example. -/
example : (exampleSim.map FSys.abundance).sum ≠ 0 ∧ exampleSim ≠ [] := by decide +kernel

/-- **C29, disagreement at the boundary.** If all abundances are zero, or there is no spin
system, no parameters are made: the total is used as a divisor. -/
theorem C29_zero_total (S : List FSys) (h : (S.map FSys.abundance).sum = 0) :
    makeParams S = .error .zeroDivision := by
  unfold makeParams
  rw [if_pos h]

example : makeParams [] = .error .zeroDivision := C29_zero_total [] rfl

end MRS.Fit
