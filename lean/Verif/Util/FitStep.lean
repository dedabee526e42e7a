import Verif.Util.FitParams

/-!
# One step of a fit — property C83

Model of `_post_sim_LMFIT_params`, `_update_post_sim_from_LMFIT_params` and `LMFIT_min_function` in
src/mrsimulator/utils/spectral_fitting.py. The simulation, the processing of its result and the library that proposes
the values are parameters. Validation on assignment is not modelled.
-/

namespace MRS.Fit

open Dict MRS.Util

/-! ## The model -/

/-- An operation of a signal processor: the name of its class and its numerical attributes
(spectral_fitting.py lines 204-246). -/
structure FOp where
  cls : String
  attrs : Dict ℚ
  deriving DecidableEq, Repr

/-- POST_SIM_DICT (line 55). -/
def postSimDict : Dict String := [("Gaussian", "FWHM"), ("Exponential", "FWHM"), ("Scale", "factor")]

/-- f"operation_{i}_{name}_{attr}" (line 223). -/
def opKey (i : Nat) (cls attr : String) : Str :=
  "operation_".toList ++ (digits i ++ ('_' :: (cls.toList ++ '_' :: attr.toList)))

/-- `_post_sim_LMFIT_params` (lines 204-225): names and values, counting from `i`. -/
def postParams (i : Nat) : List FOp → Py (List (Str × ℚ))
  | [] => .ok []
  | o :: l =>
    match postSimDict.get? o.cls with
    | none => postParams (i + 1) l
    | some a =>
      match o.attrs.get? a with
      | none => .error .attributeError
      | some v =>
        match postParams (i + 1) l with
        | .error e => .error e
        | .ok ps => .ok ((opKey i o.cls a, v) :: ps)

/-- `s.split("_")` (spectral_fitting.py lines 204-246). -/
def splitU : Str → List Str
  | [] => [[]]
  | c :: s =>
    if c = '_' then [] :: splitU s
    else match splitU s with
      | [] => [[c]]
      | w :: l => (c :: w) :: l

/-- `int(s)`, for the strings that occur (spectral_fitting.py lines 204-246). -/
def toIntStr (s : Str) : Py Nat := if isNumeric s then .ok (Nat.ofDigitChars 10 s 0) else .error .valueError

/-- Lines 236-246: one parameter. -/
def updateOp (ops : List FOp) (p : Str × ℚ) : Py (List FOp) :=
  if isIn "operation_".toList p.1 then
    match (splitU p.1)[1]? with
    | none => .error .indexError
    | some w =>
      match toIntStr w with
      | .error e => .error e
      | .ok i =>
        match ops[i]? with
        | none => .error .indexError
        | some o =>
          match (splitU p.1)[2]? with
          | none => .error .indexError
          | some c =>
            match postSimDict.get? (String.ofList c) with
            | none => .error .keyError
            | some a => if o.attrs.has a then .ok (ops.set i ⟨o.cls, o.attrs.set a p.2⟩) else .error .valueError
  else .ok ops

/-- `_update_post_sim_from_LMFIT_params` (lines 228-246). -/
def updateOps (ops : List FOp) : List (Str × ℚ) → Py (List FOp)
  | [] => .ok ops
  | p :: l =>
    match updateOp ops p with
    | .error e => .error e
    | .ok ops => updateOps ops l

/-- The loop of `LMFIT_min_function` (lines 340-345) over the parameters that remain, where `all` are all of them. -/
def setLoop (all : List (Str × ℚ)) : List (Str × ℚ) → Val → Option (List FOp) → Py (Val × Option (List FOp))
  | [], sim, post => .ok (sim, post)
  | p :: l, sim, post =>
    if !isIn "operation_".toList p.1 then
      match setValue sim p.1 (.num p.2) with
      | .error e => .error e
      | .ok sim => setLoop all l sim post
    else
      match post with
      | none => setLoop all l sim none
      | some ops =>
        match updateOps ops all with
        | .error e => .error e
        | .ok ops => setLoop all l sim (some ops)

/-- `LMFIT_min_function` (lines 313-358): the simulator and the processor afterwards, and what `apply_operations` makes of the
simulation, from which the residual is taken. -/
def minFunction {D R : Type} (run : Val → Py D) (apply : List FOp → D → Py R) (params : List (Str × ℚ)) (sim : Val)
    (post : Option (List FOp)) : Py (Val × List FOp × R) :=
  match setLoop params params sim post with
  | .error e => .error e
  | .ok (sim, post) =>
    match run sim with
    | .error e => .error e
    | .ok d =>
      match post with
      | none => .error .attributeError
      | some ops =>
        match apply ops d with
        | .error e => .error e
        | .ok r => .ok (sim, ops, r)

/-! ## Specification -/

/-- The attribute of an operation that is fitted. -/
def Spec.fitAttr (cls : String) : Option String :=
  if cls = "Gaussian" ∨ cls = "Exponential" then some "FWHM" else if cls = "Scale" then some "factor" else none

/-- The documented name of the parameter of operation number `i`. -/
def Spec.opName (i : Nat) (cls attr : String) : Str := ("operation_" ++ toString i ++ "_" ++ cls ++ "_" ++ attr).toList

/-- Operations have the attributes of their class. -/
def Spec.Fittable (ops : List FOp) : Prop := ∀ o ∈ ops, ∀ a, Spec.fitAttr o.cls = some a → o.attrs.has a = true

/-- `n` is the name of the parameter of one of the operations. -/
def Spec.IsOpName (ops : List FOp) (n : Str) : Prop :=
  ∃ (i : Nat) (o : FOp) (a : String), ops[i]? = some o ∧ Spec.fitAttr o.cls = some a ∧ n = Spec.opName i o.cls a

/-! ## Names of operations -/

theorem fitAttr_eq (cls : String) : Spec.fitAttr cls = postSimDict.get? cls := by
  unfold Spec.fitAttr postSimDict
  simp only [Dict.get?_cons, Dict.get?_nil]
  by_cases h1 : "Gaussian" = cls
  · subst h1; simp
  · by_cases h2 : "Exponential" = cls
    · subst h2; simp
    · by_cases h3 : "Scale" = cls
      · subst h3; simp
      · simp [h1, h2, h3, Ne.symm h1, Ne.symm h2, Ne.symm h3]

theorem opName_eq (i : Nat) (cls attr : String) : Spec.opName i cls attr = opKey i cls attr := by
  unfold Spec.opName opKey digits
  simp [String.toList_append, Nat.toList_repr]

theorem splitU_word (w s : Str) (h : '_' ∉ w) : splitU (w ++ '_' :: s) = w :: splitU s := by
  induction w with
  | nil => simp [splitU]
  | cons c w ih =>
    have hc : c ≠ '_' := fun e => h (by simp [e])
    have := ih (fun e => h (by simp [e]))
    simp [splitU, hc, this]

theorem splitU_last (w : Str) (h : '_' ∉ w) : splitU w = [w] := by
  induction w with
  | nil => simp [splitU]
  | cons c w ih =>
    have hc : c ≠ '_' := fun e => h (by simp [e])
    have := ih (fun e => h (by simp [e]))
    simp [splitU, hc, this]

theorem toIntStr_digits (n : Nat) : toIntStr (digits n) = .ok n := by
  have h := stepOf_digits n
  unfold stepOf at h
  unfold toIntStr
  by_cases hn : isNumeric (digits n) = true
  · rw [if_pos hn] at h ⊢
    injection h with h
    rw [h]
  · rw [if_neg hn] at h
    cases h

theorem fitAttr_cases (cls a : String) (h : Spec.fitAttr cls = some a) :
    (cls = "Gaussian" ∧ a = "FWHM") ∨ (cls = "Exponential" ∧ a = "FWHM") ∨ (cls = "Scale" ∧ a = "factor") := by
  unfold Spec.fitAttr at h
  split_ifs at h with h1 h2
  · injection h with h
    rcases h1 with h1 | h1
    · exact Or.inl ⟨h1, h.symm⟩
    · exact Or.inr (Or.inl ⟨h1, h.symm⟩)
  · injection h with h
    exact Or.inr (Or.inr ⟨h2, h.symm⟩)

theorem splitU_opKey (i : Nat) (cls a : String) (h : Spec.fitAttr cls = some a) :
    splitU (opKey i cls a) = ["operation".toList, digits i, cls.toList, a.toList] := by
  have h1 : opKey i cls a = "operation".toList ++ '_' :: (digits i ++ '_' :: (cls.toList ++ '_' :: a.toList)) := by
    unfold opKey
    rfl
  rw [h1, splitU_word _ _ (by decide +kernel), splitU_word _ _ (not_in_digits '_' (by decide +kernel) i)]
  rcases fitAttr_cases cls a h with ⟨rfl, rfl⟩ | ⟨rfl, rfl⟩ | ⟨rfl, rfl⟩ <;>
    rw [splitU_word _ _ (by decide +kernel), splitU_last _ (by decide +kernel)]

theorem opKey_index (i j : Nat) (c c' a a' : String) (h : Spec.fitAttr c = some a) (h' : Spec.fitAttr c' = some a')
    (he : opKey i c a = opKey j c' a') : i = j := by
  have h1 := splitU_opKey i c a h
  rw [he, splitU_opKey j c' a' h'] at h1
  injection h1 with _ h1
  injection h1 with h1 _
  have := toIntStr_digits j
  rw [h1, toIntStr_digits i] at this
  injection this

theorem isIn_opKey (i : Nat) (c a : String) : isIn "operation_".toList (opKey i c a) = true := by
  rw [isIn_iff]
  exact ⟨[], digits i ++ ('_' :: (c.toList ++ '_' :: a.toList)), rfl⟩

theorem isIn_sys (a : Attr) (h : a.Valid) : isIn "operation_".toList a.str = false := by
  have hd : ∀ c ∈ "operation_".toList, c.isDigit = false := by decide +kernel
  have hne : "operation_".toList ≠ [] := by decide +kernel
  have htens : ∀ key ∈ ["shielding_symmetric", "quadrupolar", "dipolar"], ∀ k ∈ symKeys,
      isIn "operation_".toList (tensN key k) = false := by decide +kernel
  cases a with
  | abund i =>
    unfold Attr.str sysN
    rw [isIn_digits _ hne hd]
    decide +kernel
  | siteIso i j =>
    unfold Attr.str siteN sysN
    rw [isIn_digits _ hne hd, isIn_digits _ hne hd]
    decide +kernel
  | siteT i j key k =>
    unfold Attr.str siteN sysN
    rw [isIn_digits _ hne hd, isIn_digits _ hne hd, htens key (by rcases h.1 with h | h <;> simp [h]) k h.2]
    decide +kernel
  | coupIso i j =>
    unfold Attr.str coupN sysN
    rw [isIn_digits _ hne hd, isIn_digits _ hne hd]
    decide +kernel
  | coupT i j key k =>
    unfold Attr.str coupN sysN
    rw [isIn_digits _ hne hd, isIn_digits _ hne hd, htens key (by simp [h.1]) k h.2]
    decide +kernel

/-! ## Updating the operations -/

/-- The operations with the parameters named in `l` set to the values `x`. -/
def updated (x : Str → ℚ) (l : List Str) (ops : List FOp) : List FOp :=
  ops.mapIdx fun i o => match Spec.fitAttr o.cls with
    | some a => if opKey i o.cls a ∈ l then ⟨o.cls, o.attrs.set a (x (opKey i o.cls a))⟩ else o
    | none => o

theorem set_set {V : Type} (d : Dict V) (k : String) (v : V) : (d.set k v).set k v = d.set k v := by
  unfold Dict.set
  by_cases h : d.has k = true
  · have h2 : Dict.has (d.map fun p => if p.1 == k then (k, v) else p) k = true := by
      unfold Dict.has at h ⊢
      rw [List.any_map]
      obtain ⟨p, hp, hk⟩ := List.any_eq_true.mp h
      refine List.any_eq_true.mpr ⟨p, hp, ?_⟩
      simp only [Function.comp]
      rw [if_pos hk]
      simp
    rw [if_pos h, if_pos h2, List.map_map]
    apply List.map_congr_left
    intro p _
    simp only [Function.comp]
    by_cases hk : (p.1 == k) = true
    · simp [hk]
    · simp [hk]
  · have h2 : Dict.has (d ++ [(k, v)]) k = true := by
      unfold Dict.has
      simp
    rw [if_neg h, if_pos h2, List.map_append]
    congr 1
    · conv_rhs => rw [← List.map_id d]
      apply List.map_congr_left
      intro p hp
      have : ¬ (p.1 == k) = true := by
        intro hk
        exact h (List.any_eq_true.mpr ⟨p, hp, hk⟩)
      simp [this]
    · simp

theorem updated_getElem? (x : Str → ℚ) (l : List Str) (ops : List FOp) (j : Nat) :
    (updated x l ops)[j]? = (ops[j]?).map fun o => match Spec.fitAttr o.cls with
      | some a => if opKey j o.cls a ∈ l then ⟨o.cls, o.attrs.set a (x (opKey j o.cls a))⟩ else o
      | none => o := by
  unfold updated
  rw [List.getElem?_mapIdx]

theorem updateOp_opKey (x : Str → ℚ) (l : List Str) (ops : List FOp) (hf : Spec.Fittable ops) (i : Nat) (o : FOp) (a : String)
    (hi : ops[i]? = some o) (ha : Spec.fitAttr o.cls = some a) :
    updateOp (updated x l ops) (opKey i o.cls a, x (opKey i o.cls a)) = .ok (updated x (l ++ [opKey i o.cls a]) ops) := by
  have hmem : o ∈ ops := List.mem_of_getElem? hi
  have hhas := hf o hmem a ha
  unfold updateOp
  simp only
  rw [if_pos (isIn_opKey i o.cls a), splitU_opKey i o.cls a ha]
  simp only [List.getElem?_cons_succ, List.getElem?_cons_zero, toIntStr_digits, updated_getElem?, hi, Option.map_some, ha]
  have hcls : String.ofList o.cls.toList = o.cls := by simp
  rw [hcls, ← fitAttr_eq, ha]
  simp only
  have key : ∀ o' : FOp, (o' = o ∨ o' = ⟨o.cls, o.attrs.set a (x (opKey i o.cls a))⟩) → o'.cls = o.cls ∧ o'.attrs.has a = true ∧
      o'.attrs.set a (x (opKey i o.cls a)) = o.attrs.set a (x (opKey i o.cls a)) := by
    rintro o' (rfl | rfl)
    · exact ⟨rfl, hhas, rfl⟩
    · refine ⟨rfl, ?_, set_set _ _ _⟩
      rw [Dict.has_iff]
      exact ⟨_, by rw [Dict.get?_set, if_pos rfl]⟩
  have hcase : (if opKey i o.cls a ∈ l then (⟨o.cls, o.attrs.set a (x (opKey i o.cls a))⟩ : FOp) else o) = o ∨
      (if opKey i o.cls a ∈ l then (⟨o.cls, o.attrs.set a (x (opKey i o.cls a))⟩ : FOp) else o)
        = ⟨o.cls, o.attrs.set a (x (opKey i o.cls a))⟩ := by
    split_ifs
    · exact Or.inr rfl
    · exact Or.inl rfl
  obtain ⟨k1, k2, k3⟩ := key _ hcase
  rw [if_pos k2, k1, k3]
  congr 1
  apply List.ext_getElem?
  intro j
  rw [updated_getElem?]
  by_cases hj : i = j
  · subst hj
    have hlt : i < (updated x l ops).length := by
      unfold updated
      rw [List.length_mapIdx]
      exact (List.getElem?_eq_some_iff.mp hi).1
    rw [List.getElem?_set_self hlt, hi]
    simp [ha]
  · rw [List.getElem?_set_ne hj, updated_getElem?]
    cases hoj : ops[j]? with
    | none => rfl
    | some o' =>
      simp only [Option.map_some]
      cases ha' : Spec.fitAttr o'.cls with
      | none => rfl
      | some a' =>
        have hne : opKey j o'.cls a' ≠ opKey i o.cls a := by
          intro he
          exact hj (opKey_index j i o'.cls o.cls a' a ha' ha he).symm
        simp [hne]

theorem updateOps_eq (x : Str → ℚ) (ops : List FOp) (hf : Spec.Fittable ops) (l0 l : List Str)
    (hl : ∀ n ∈ l, isIn "operation_".toList n = false ∨ Spec.IsOpName ops n) :
    updateOps (updated x l0 ops) (l.map fun n => (n, x n)) = .ok (updated x (l0 ++ l) ops) := by
  induction l generalizing l0 with
  | nil => simp [updateOps]
  | cons n l ih =>
    simp only [List.map_cons, updateOps]
    have hstep : updateOp (updated x l0 ops) (n, x n) = .ok (updated x (l0 ++ [n]) ops) := by
      rcases hl n (by simp) with h | ⟨i, o, a, hi, ha, rfl⟩
      · unfold updateOp
        simp only
        rw [h, if_neg Bool.false_ne_true]
        congr 1
        apply List.ext_getElem?
        intro j
        rw [updated_getElem?, updated_getElem?]
        cases ops[j]? with
        | none => rfl
        | some o' =>
          simp only [Option.map_some]
          cases Spec.fitAttr o'.cls with
          | none => rfl
          | some a' =>
            have hne : opKey j o'.cls a' ≠ n := by
              rintro rfl
              rw [isIn_opKey] at h
              cases h
            simp [hne]
      · rw [opName_eq]
        exact updateOp_opKey x l0 ops hf i o a hi ha
    rw [hstep]
    simp only
    rw [ih (l0 ++ [n]) (fun m hm => hl m (by simp [hm])), List.append_assoc]
    rfl

theorem updated_nil (x : Str → ℚ) (ops : List FOp) : updated x [] ops = ops := by
  apply List.ext_getElem?
  intro j
  rw [updated_getElem?]
  cases ops[j]? with
  | none => rfl
  | some o =>
    simp only [Option.map_some, List.not_mem_nil, if_false]
    cases Spec.fitAttr o.cls <;> rfl

theorem updated_updated (x : Str → ℚ) (l l' : List Str) (ops : List FOp) :
    updated x l' (updated x l ops) = updated x (l ++ l') ops := by
  apply List.ext_getElem?
  intro j
  rw [updated_getElem?, updated_getElem?, updated_getElem?]
  cases ops[j]? with
  | none => rfl
  | some o =>
    simp only [Option.map_some]
    cases ha : Spec.fitAttr o.cls with
    | none => simp [ha]
    | some a =>
      by_cases h1 : opKey j o.cls a ∈ l
      · by_cases h2 : opKey j o.cls a ∈ l'
        · simp [h1, h2, ha, set_set]
        · simp [h1, h2, ha]
      · by_cases h2 : opKey j o.cls a ∈ l'
        · simp [h1, h2, ha]
        · simp [h1, h2, ha]

/-! ## Updating the simulator -/

theorem lookup_append (p t : List Step) (v : Val) :
    Spec.lookup (p ++ t) v = (Spec.lookup p v).bind (Spec.lookup t) := by
  induction p generalizing v with
  | nil => simp [Spec.lookup]
  | cons s p ih =>
    cases s with
    | key k =>
      cases v with
      | dict d =>
        simp only [List.cons_append, Spec.lookup]
        cases get? d k with
        | none => rfl
        | some w => exact ih w
      | _ => simp [Spec.lookup]
    | idx i =>
      cases v with
      | list l =>
        simp only [List.cons_append, Spec.lookup]
        cases l[i]? with
        | none => rfl
        | some w => exact ih w
      | _ => simp [Spec.lookup]

/-- No fitted attribute lies inside another one. -/
theorem leaf (p r : List Step) (v : Val) (q q' : ℚ) (hp : Spec.lookup p v = some (.num q))
    (hr : Spec.lookup r v = some (.num q')) (h : p <+: r) : p = r := by
  obtain ⟨t, rfl⟩ := h
  rw [lookup_append, hp] at hr
  cases t with
  | nil => simp
  | cons s t =>
    exfalso
    cases s <;> simp [Spec.lookup] at hr

/-- The state of the simulator while parameters are set: `f` are the values of the attributes. -/
structure Held (S : List FSys) (sim : Val) (f : Attr → ℚ) : Prop where
  vals : ∀ a ∈ attrs S, Spec.lookup a.path sim = some (.num (f a))
  rest : ∀ r, (∀ p ∈ Spec.paths S, ¬ p <+: r ∧ ¬ r <+: p) → Spec.lookup r sim = Spec.lookup r (simVal S)

theorem held_step (S : List FSys) (sim : Val) (f : Attr → ℚ) (h : Held S sim f) (a : Attr) (ha : a ∈ attrs S) (y : ℚ) :
    ∃ sim', setValue sim a.str (.num y) = .ok sim' ∧ Held S sim' (Function.update f a y) := by
  have hd := decode_str a (attrs_valid S a ha)
  unfold setValue
  rw [hd]
  obtain ⟨sim', h1, h2, h3⟩ := setPath_spec (.num y) a.path sim _ (h.vals a ha) (path_last a)
  refine ⟨sim', h1, ?_, ?_⟩
  · intro b hb
    by_cases hab : b = a
    · subst hab
      rw [h2, Function.update_self]
    · rw [Function.update_of_ne hab, ← h.vals b hb]
      apply h3
      · intro hp
        exact hab (path_injective (leaf _ _ _ _ _ (h.vals a ha) (h.vals b hb) hp).symm)
      · intro hp
        exact hab (path_injective (leaf _ _ _ _ _ (h.vals b hb) (h.vals a ha) hp))
  · intro r hr
    rw [← h.rest r hr]
    have := hr a.path (by rw [paths_eq]; exact List.mem_map.mpr ⟨a, ha, rfl⟩)
    exact h3 r this.1 this.2

theorem str_injective (S : List FSys) (a b : Attr) (ha : a ∈ attrs S) (hb : b ∈ attrs S) (h : a.str = b.str) : a = b := by
  have h1 := decode_str a (attrs_valid S a ha)
  rw [h, decode_str b (attrs_valid S b hb)] at h1
  exact path_injective h1.symm

theorem updated_congr (x : Str → ℚ) (m m' : List Str) (ops : List FOp)
    (h : ∀ n, Spec.IsOpName ops n → (n ∈ m ↔ n ∈ m')) : updated x m ops = updated x m' ops := by
  apply List.ext_getElem?
  intro j
  rw [updated_getElem?, updated_getElem?]
  cases hj : ops[j]? with
  | none => rfl
  | some o =>
    simp only [Option.map_some]
    cases ha : Spec.fitAttr o.cls with
    | none => rfl
    | some a =>
      have := h (opKey j o.cls a) ⟨j, o, a, hj, ha, (opName_eq j o.cls a).symm⟩
      by_cases hm : opKey j o.cls a ∈ m
      · simp [hm, this.mp hm]
      · have hm' : opKey j o.cls a ∉ m' := fun h => hm (this.mpr h)
        simp [hm, hm']

theorem isIn_isOpName (ops : List FOp) (n : Str) (h : Spec.IsOpName ops n) : isIn "operation_".toList n = true := by
  obtain ⟨i, o, a, _, _, rfl⟩ := h
  rw [opName_eq]
  exact isIn_opKey i o.cls a

theorem isIn_names (S : List FSys) (hS : Spec.Supported S) (n : Str) (h : n ∈ names S) :
    ∃ a ∈ attrs S, n = a.str ∧ isIn "operation_".toList n = false := by
  rw [names_eq S hS] at h
  obtain ⟨a, ha, rfl⟩ := List.mem_map.mp h
  exact ⟨a, ha, rfl, isIn_sys a (attrs_valid S a ha)⟩

/-- Values of the attributes after the parameters `l` have been set. -/
def after (x : Str → ℚ) (l : List Str) (f : Attr → ℚ) (a : Attr) : ℚ := if a.str ∈ l then x a.str else f a

theorem held_congr (S : List FSys) (sim : Val) (f g : Attr → ℚ) (h : Held S sim f) (hfg : ∀ a ∈ attrs S, f a = g a) :
    Held S sim g := ⟨fun a ha => by rw [h.vals a ha, hfg a ha], h.rest⟩

theorem setLoop_some (S : List FSys) (hS : Spec.Supported S) (ops : List FOp) (hf : Spec.Fittable ops) (x : Str → ℚ)
    (all : List Str) (hall : ∀ n ∈ all, n ∈ names S ∨ Spec.IsOpName ops n) (l : List Str) (hl : ∀ n ∈ l, n ∈ all)
    (m : List Str) (hm : ∀ n ∈ m, n ∈ all) (hml : ∀ n ∈ all, Spec.IsOpName ops n → n ∈ m ∨ n ∈ l)
    (sim : Val) (f : Attr → ℚ) (h : Held S sim f) :
    ∃ sim', setLoop (all.map fun n => (n, x n)) (l.map fun n => (n, x n)) sim (some (updated x m ops))
      = .ok (sim', some (updated x all ops)) ∧ Held S sim' (after x l f) := by
  induction l generalizing m sim f with
  | nil =>
    refine ⟨sim, ?_, held_congr S sim f _ h (fun a _ => by simp [after])⟩
    simp only [List.map_nil, setLoop]
    rw [updated_congr x m all ops]
    intro n hn
    refine ⟨hm n, fun h => ?_⟩
    rcases hml n h hn with h | h
    · exact h
    · simp at h
  | cons n l ih =>
    rcases hall n (hl n (by simp)) with hn | hn
    · obtain ⟨a, ha, rfl, hi⟩ := isIn_names S hS n hn
      obtain ⟨sim1, h1, h2⟩ := held_step S sim f h a ha (x a.str)
      obtain ⟨sim', h3, h4⟩ := ih (fun n hn => hl n (by simp [hn])) m hm (by
        intro n hn ho
        rcases hml n hn ho with h | h
        · exact Or.inl h
        · rcases List.mem_cons.mp h with rfl | h
          · rw [isIn_isOpName ops _ ho] at hi
            cases hi
          · exact Or.inr h) sim1 _ h2
      refine ⟨sim', ?_, ?_⟩
      · simp only [List.map_cons, setLoop, hi, Bool.not_false, if_true, h1]
        exact h3
      · refine held_congr S sim' _ _ h4 ?_
        intro b hb
        unfold after
        by_cases hbl : b.str ∈ l
        · simp [hbl]
        · by_cases hba : b = a
          · subst hba
            simp [Function.update_self]
          · have : b.str ≠ a.str := fun he => hba (str_injective S b a hb ha he)
            simp [hbl, this, Function.update_of_ne hba]
    · have hi := isIn_isOpName ops n hn
      have hu := updateOps_eq x ops hf m all (fun n hn => by
        rcases hall n hn with h | h
        · obtain ⟨a, ha, rfl, hi⟩ := isIn_names S hS n h
          exact Or.inl hi
        · exact Or.inr h)
      obtain ⟨sim', h3, h4⟩ := ih (fun n hn => hl n (by simp [hn])) (m ++ all) (by
        intro n hn
        rcases List.mem_append.mp hn with h | h
        · exact hm n h
        · exact h) (fun n hn _ => Or.inl (by simp [hn])) sim f h
      refine ⟨sim', ?_, ?_⟩
      · simp only [List.map_cons, setLoop, hi, Bool.not_true, hu]
        exact h3
      · refine held_congr S sim' _ _ h4 ?_
        intro b hb
        unfold after
        have : b.str ≠ n := by
          rintro rfl
          rw [isIn_sys b (attrs_valid S b hb)] at hi
          cases hi
        simp [this]

theorem setLoop_none (S : List FSys) (hS : Spec.Supported S) (x : Str → ℚ) (all : List (Str × ℚ))
    (l : List Str) (hl : ∀ n ∈ l, n ∈ names S ∨ isIn "operation_".toList n = true) (sim : Val) (f : Attr → ℚ) (h : Held S sim f) :
    ∃ sim', setLoop all (l.map fun n => (n, x n)) sim none = .ok (sim', none) := by
  induction l generalizing sim f with
  | nil => exact ⟨sim, rfl⟩
  | cons n l ih =>
    rcases hl n (by simp) with hn | hn
    · obtain ⟨a, ha, rfl, hi⟩ := isIn_names S hS n hn
      obtain ⟨sim1, h1, h2⟩ := held_step S sim f h a ha (x a.str)
      obtain ⟨sim', h3⟩ := ih (fun n hn => hl n (by simp [hn])) sim1 _ h2
      refine ⟨sim', ?_⟩
      simp only [List.map_cons, setLoop, hi, Bool.not_false, if_true, h1]
      exact h3
    · obtain ⟨sim', h3⟩ := ih (fun n hn => hl n (by simp [hn])) sim f h
      refine ⟨sim', ?_⟩
      simp only [List.map_cons, setLoop, hn, Bool.not_true]
      exact h3

theorem held_start (S : List FSys) : ∃ f, Held S (simVal S) f := by
  choose! g hg using fun (a : Attr) (ha : a ∈ attrs S) => attr_lookup S a ha
  exact ⟨g, fun a ha => hg a ha, fun _ _ => rfl⟩

/-! ## Statements -/

theorem mem_postParams (i : Nat) (ops : List FOp) (hf : Spec.Fittable ops) :
    ∃ ps, postParams i ops = .ok ps ∧ ∀ n v, (n, v) ∈ ps ↔
      ∃ (k : Nat) (o : FOp) (a : String), ops[k]? = some o ∧ Spec.fitAttr o.cls = some a ∧ n = Spec.opName (i + k) o.cls a ∧
        o.attrs.get? a = some v := by
  induction ops generalizing i with
  | nil => exact ⟨[], rfl, by simp⟩
  | cons o l ih =>
    obtain ⟨ps, h1, h2⟩ := ih (i + 1) (fun o ho => hf o (by simp [ho]))
    have shift : ∀ n v, (n, v) ∈ ps ↔ ∃ (k : Nat) (o' : FOp) (a : String), (o :: l)[k + 1]? = some o' ∧
        Spec.fitAttr o'.cls = some a ∧ n = Spec.opName (i + (k + 1)) o'.cls a ∧ o'.attrs.get? a = some v := by
      intro n v
      rw [h2]
      simp only [List.getElem?_cons_succ]
      constructor
      · rintro ⟨k, o', a, e1, e2, e3, e4⟩
        exact ⟨k, o', a, e1, e2, by rw [e3]; congr 1; omega, e4⟩
      · rintro ⟨k, o', a, e1, e2, e3, e4⟩
        exact ⟨k, o', a, e1, e2, by rw [e3]; congr 1; omega, e4⟩
    unfold postParams
    rw [← fitAttr_eq]
    cases ha : Spec.fitAttr o.cls with
    | none =>
      refine ⟨ps, h1, ?_⟩
      intro n v
      rw [shift]
      constructor
      · rintro ⟨k, o', a, e⟩
        exact ⟨k + 1, o', a, e⟩
      · rintro ⟨k, o', a, e1, e2, e3, e4⟩
        cases k with
        | zero =>
          simp only [List.getElem?_cons_zero, Option.some.injEq] at e1
          subst e1
          rw [ha] at e2
          cases e2
        | succ k => exact ⟨k, o', a, e1, e2, e3, e4⟩
    | some a =>
      obtain ⟨w, hw⟩ := (Dict.has_iff _ _).mp (hf o (by simp) a ha)
      simp only [hw, h1]
      refine ⟨_, rfl, ?_⟩
      intro n v
      rw [List.mem_cons, shift]
      constructor
      · rintro (e | ⟨k, o', a, e⟩)
        · injection e with e1 e2
          exact ⟨0, o, a, rfl, ha, by rw [e1, opName_eq]; rfl, by rw [e2]; exact hw⟩
        · exact ⟨k + 1, o', a, e⟩
      · rintro ⟨k, o', a', e1, e2, e3, e4⟩
        cases k with
        | zero =>
          simp only [List.getElem?_cons_zero, Option.some.injEq] at e1
          subst e1
          rw [ha] at e2
          injection e2 with e2
          subst e2
          rw [hw] at e4
          injection e4 with e4
          left
          rw [e3, opName_eq, e4]
          rfl
        | succ k => exact Or.inr ⟨k, o', a', e1, e2, e3, e4⟩

/-- **C83 (parameters of the processing).** The parameters made for a processor are, for each operation with a width or a
factor, that attribute under its documented name, with its present value; and no others. -/
theorem C83_parameters (ops : List FOp) (hf : Spec.Fittable ops) :
    ∃ ps, postParams 0 ops = .ok ps ∧ ∀ n v, (n, v) ∈ ps ↔
      ∃ (k : Nat) (o : FOp) (a : String), ops[k]? = some o ∧ Spec.fitAttr o.cls = some a ∧ n = Spec.opName k o.cls a ∧
        o.attrs.get? a = some v := by
  obtain ⟨ps, h1, h2⟩ := mem_postParams 0 ops hf
  refine ⟨ps, h1, ?_⟩
  intro n v
  rw [h2]
  simp only [Nat.zero_add]

/-- **C83 (a step sets what is named, and nothing else).** Whatever selection `l` of the parameters of the simulator and of
the processor the fit varies, in whatever order, and whatever values `x` it proposes: afterwards every named attribute
of the spin systems and every named attribute of the operations has its proposed value, all others are as before. The
simulation is run and processed in that state. -/
theorem C83_step {D R : Type} (run : Val → Py D) (apply : List FOp → D → Py R) (S : List FSys) (hS : Spec.Supported S)
    (ops : List FOp) (hf : Spec.Fittable ops) (x : Str → ℚ) (l : List Str)
    (hl : ∀ n ∈ l, n ∈ names S ∨ Spec.IsOpName ops n) :
    ∃ (sim' : Val) (ops' : List FOp),
      minFunction run apply (l.map fun n => (n, x n)) (simVal S) (some ops)
        = (run sim').bind (fun d => (apply ops' d).bind fun r => .ok (sim', ops', r)) ∧
      (∀ (i : Nat) (n : Str) (p : List Step), (names S)[i]? = some n → (Spec.paths S)[i]? = some p →
        Spec.lookup p sim' = if n ∈ l then some (.num (x n)) else Spec.lookup p (simVal S)) ∧
      (∀ r, (∀ p ∈ Spec.paths S, ¬ p <+: r ∧ ¬ r <+: p) → Spec.lookup r sim' = Spec.lookup r (simVal S)) ∧
      ops'.length = ops.length ∧
      ∀ (i : Nat) (o o' : FOp), ops[i]? = some o → ops'[i]? = some o' → o'.cls = o.cls ∧
        ∀ k, o'.attrs.get? k = if Spec.fitAttr o.cls = some k ∧ Spec.opName i o.cls k ∈ l then some (x (Spec.opName i o.cls k))
          else o.attrs.get? k := by
  obtain ⟨f, hstart⟩ := held_start S
  obtain ⟨sim', h1, h2⟩ := setLoop_some S hS ops hf x l hl l (fun _ h => h) [] (by simp) (fun n hn _ => Or.inr hn) _ f hstart
  rw [updated_nil] at h1
  refine ⟨sim', updated x l ops, ?_, ?_, h2.rest, ?_, ?_⟩
  · unfold minFunction
    rw [h1]
    simp only
    cases run sim' with
    | error e => rfl
    | ok d =>
      simp only [Except.bind]
      cases apply (updated x l ops) d <;> rfl
  · intro i n p hn hp
    rw [names_eq S hS, List.getElem?_map] at hn
    rw [paths_eq, List.getElem?_map] at hp
    cases ha : (attrs S)[i]? with
    | none => rw [ha] at hn; cases hn
    | some a =>
      rw [ha] at hn hp
      simp only [Option.map_some, Option.some.injEq] at hn hp
      subst hn hp
      have hm : a ∈ attrs S := List.mem_of_getElem? ha
      rw [h2.vals a hm]
      unfold after
      split_ifs with hc
      · rfl
      · exact (hstart.vals a hm).symm
  · unfold updated
    rw [List.length_mapIdx]
  · intro i o o' ho ho'
    rw [updated_getElem?, ho] at ho'
    simp only [Option.map_some, Option.some.injEq] at ho'
    subst ho'
    cases ha : Spec.fitAttr o.cls with
    | none => simp
    | some a =>
      by_cases hm : opKey i o.cls a ∈ l
      · simp only [hm, if_true]
        refine ⟨trivial, ?_⟩
        intro k
        rw [Dict.get?_set]
        by_cases hk : a = k
        · subst hk
          simp [opName_eq, hm]
        · simp [hk]
      · simp only [hm, if_false]
        refine ⟨trivial, ?_⟩
        intro k
        by_cases hk : a = k
        · subst hk
          simp [opName_eq, hm]
        · simp [hk]

/-- The simulator of C28 with a processor of four operations; one chemical shift and the width are varied. -/
example :
    let ops : List FOp := [⟨"IFFT", []⟩, ⟨"Gaussian", [("FWHM", 100)]⟩, ⟨"FFT", []⟩, ⟨"Scale", [("factor", 10)]⟩]
    let l := ["sys_1_site_0_isotropic_chemical_shift".toList, "operation_1_Gaussian_FWHM".toList]
    (Spec.Supported exampleSim ∧ Spec.Fittable ops ∧ ∀ n ∈ l, n ∈ names exampleSim ∨ Spec.IsOpName ops n) ∧
    ∃ sim', minFunction (D := Unit) (R := Unit) (fun _ => .ok ()) (fun _ _ => .ok ()) (l.map fun n => (n, 7))
      (simVal exampleSim) (some ops) =
        .ok (sim', [⟨"IFFT", []⟩, ⟨"Gaussian", [("FWHM", 7)]⟩, ⟨"FFT", []⟩, ⟨"Scale", [("factor", 10)]⟩], ()) ∧
      Spec.lookup [.key "spin_systems", .idx 1, .key "sites", .idx 0, .key "isotropic_chemical_shift"] sim' = some (.num 7) := by
  refine ⟨⟨?_, ?_, ?_⟩, ?_⟩
  · intro s hs
    simp only [exampleSim, List.mem_cons, List.not_mem_nil, or_false] at hs
    rcases hs with rfl | rfl <;> simp
  · intro o ho a ha
    simp only [List.mem_cons, List.not_mem_nil, or_false] at ho
    rcases ho with rfl | rfl | rfl | rfl <;> simp [Spec.fitAttr] at ha <;> subst ha <;> decide +kernel
  · intro n hn
    simp only [List.mem_cons, List.not_mem_nil, or_false] at hn
    rcases hn with rfl | rfl
    · left
      decide +kernel
    · right
      exact ⟨1, ⟨"Gaussian", [("FWHM", 100)]⟩, "FWHM", rfl, by decide +kernel, by decide +kernel⟩
  · exact ⟨_, by rfl, by decide +kernel⟩

/-- **C83, where the code disagrees.** The processor is documented as optional and defaults to None, but without one every
evaluation fails after the simulation has been run, whatever the simulator, the parameters and their values. -/
theorem C83_counterexample {D R : Type} (run : Val → Py D) (apply : List FOp → D → Py R) (hrun : ∀ v, ∃ d, run v = .ok d)
    (S : List FSys) (hS : Spec.Supported S) (x : Str → ℚ) (l : List Str) (hl : ∀ n ∈ l, n ∈ names S) :
    minFunction run apply (l.map fun n => (n, x n)) (simVal S) none = .error .attributeError := by
  obtain ⟨f, hstart⟩ := held_start S
  obtain ⟨sim', h1⟩ := setLoop_none S hS x (l.map fun n => (n, x n)) l (fun n hn => Or.inl (hl n hn)) _ f hstart
  obtain ⟨d, hd⟩ := hrun sim'
  unfold minFunction
  rw [h1]
  simp only [hd]

/-- One spin system whose shift is fitted. -/
example : minFunction (D := Unit) (R := Unit) (fun _ => .ok ()) (fun _ _ => .ok ())
    (["sys_1_site_0_isotropic_chemical_shift".toList].map fun n => (n, 7)) (simVal exampleSim) none = .error .attributeError := by
  apply C83_counterexample (x := fun _ => 7)
  · exact fun _ => ⟨(), rfl⟩
  · intro s hs
    simp only [exampleSim, List.mem_cons, List.not_mem_nil, or_false] at hs
    rcases hs with rfl | rfl <;> simp
  · decide +kernel

end MRS.Fit
