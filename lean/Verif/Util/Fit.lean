import Verif.Val
import Verif.Py
import Verif.Util.Reduce
import Mathlib.Data.List.Nodup
import Mathlib.Data.List.Infix
import Mathlib.Algebra.Order.Field.Rat
import Mathlib.Tactic.FieldSimp

/-!
# Fit parameters — properties C28, C29, C30

Model of src/mrsimulator/utils/spectral_fitting.py. Strings are lists of characters. A simulator
is the tree of its attributes: objects are dictionaries, lists are lists. Attribute validation on
assignment and the LMFIT library are not modelled.
-/

namespace MRS.Fit

open Dict MRS.Util

/-- A string. -/
abbrev Str := List Char

/-! ## Python string functions -/

/-- `s.replace(old, new)` after `skip` characters that belong to the occurrence just replaced:
occurrences are taken from the left and do not overlap. -/
def repFrom (old new : Str) : Nat → Str → Str
  | _, [] => []
  | 0, c :: s =>
    if old.isPrefixOf (c :: s) then new ++ repFrom old new (old.length - 1) s
    else c :: repFrom old new 0 s
  | k + 1, _ :: s => repFrom old new k s

/-- `s.replace(old, new)` for a non-empty `old`. -/
def rep (old new s : Str) : Str := repFrom old new 0 s

/-- `s.split(".")`. -/
def split : Str → List Str
  | [] => [[]]
  | c :: s =>
    if c = '.' then [] :: split s
    else match split s with
      | [] => [[c]]
      | w :: l => (c :: w) :: l

/-- `old in s`. -/
def isIn (old : Str) : Str → Bool
  | [] => old.isEmpty
  | c :: s => old.isPrefixOf (c :: s) || isIn old s

/-- `str(n)`, as in f"{n}". -/
def digits (n : Nat) : Str := Nat.toDigits 10 n

/-- `s.isnumeric()`, for the characters that occur. -/
def isNumeric (s : Str) : Bool := !s.isEmpty && s.all Char.isDigit

/-! ## Names -/

/-- ENCODING_PAIRS (lines 10-29). -/
def encodingPairs : List (String × String) :=
  [("spin_systems[", "sys_"), ("].abundance", "_abundance"), ("].sites[", "_site_"),
   ("].isotropic_chemical_shift", "_isotropic_chemical_shift"),
   ("].shielding_symmetric.", "_shielding_symmetric_"), ("].quadrupolar.", "_quadrupolar_"),
   ("].couplings[", "_coupling_"), ("].isotropic_j", "_isotropic_j"),
   ("].j_symmetric.", "_j_symmetric_"), ("].dipolar.", "_dipolar_"),
   ("].post_simulation", "_POST_SIM_"), (".scale", "scale"), (".apodization[", "APODIZATION_"),
   ("].args", "_args")]

/-- DECODING_PAIRS (lines 31-44), reversed as on line 95. -/
def decodingPairs : List (String × String) :=
  [("sys_", "spin_systems."), ("_abundance", ".abundance"), ("_site_", ".sites."),
   ("_isotropic_chemical_shift", ".isotropic_chemical_shift"),
   ("_shielding_symmetric_", ".shielding_symmetric."), ("_quadrupolar_", ".quadrupolar."),
   ("_coupling_", ".couplings."), ("_isotropic_j", ".isotropic_j"),
   ("_shielding_j_", ".shielding_j."), ("_dipolar_", ".dipolar.")]

/-- A sequence of replacements (spectral_fitting.py lines 58-97). -/
def repAll (l : List (String × String)) (s : Str) : Str :=
  l.foldl (fun s p => rep p.1.toList p.2.toList s) s

/-- `_str_encode` (lines 58-72). -/
def encode (s : Str) : Str := repAll encodingPairs s

/-- `_str_decode` (lines 75-97). -/
def decode (s : Str) : List Str := split (repAll decodingPairs s)

/-- EXCLUDE (lines 46-53). -/
def exclude : List String :=
  ["property_units", "isotope", "name", "label", "description", "transition_pathways"]

/-- f"{parent}.{key}" (spectral_fitting.py lines 173-201). -/
def dotKey (parent : Str) (k : String) : Str := parent ++ '.' :: k.toList

/-- f"{parent}[{i}]" (spectral_fitting.py lines 159-201). -/
def brIdx (parent : Str) (i : Nat) : Str := parent ++ '[' :: digits i ++ [']']

mutual
/-- `_traverse_dictionaries` (lines 173-201). -/
def traverse (parent : Str) : Val → List Str
  | .dict d => traverseD parent d
  | .list l => traverseL parent 0 l
  | .none => []
  | .num _ => []
  | .str _ => []

/-- The loop over a dictionary (lines 189-197). -/
def traverseD (parent : Str) : List (String × Val) → List Str
  | [] => []
  | (k, v) :: d =>
    (if k ∈ exclude then [] else traverseE parent k v) ++ traverseD parent d

/-- An entry that is not excluded (lines 191-197). -/
def traverseE (parent : Str) (k : String) : Val → List Str
  | .dict d => traverseD (encode (dotKey parent k)) d
  | .list l => traverseL (encode (dotKey parent k)) 0 l
  | .none => []
  | .num _ => [encode (dotKey parent k)]
  | .str _ => [encode (dotKey parent k)]

/-- The loop over a list (lines 198-200). -/
def traverseL (parent : Str) (i : Nat) : List Val → List Str
  | [] => []
  | v :: l => traverse (encode (brIdx parent i)) v ++ traverseL parent (i + 1) l
end

/-- The path a decoded name stands for: numeric parts are indices (line 128). -/
def stepOf (s : Str) : Step :=
  if isNumeric s then .idx (Nat.ofDigitChars 10 s 0) else .key (String.ofList s)

/-- Following attributes and indices (lines 127-129, 153-155). -/
def getPath : List Step → Val → Py Val
  | [], v => .ok v
  | .key k :: p, .dict d => match get? d k with
    | some w => getPath p w
    | none => .error .attributeError
  | .idx i :: p, .list l => match l[i]? with
    | some w => getPath p w
    | none => .error .indexError
  | .key _ :: _, _ => .error .attributeError
  | .idx _ :: _, _ => .error .typeError

/-- `_get_simulator_object_value` (lines 100-129). -/
def getValue (sim : Val) (name : Str) : Py Val := getPath ((decode name).map stepOf) sim

/-- Setting the attribute at the end of a path (lines 153-156). -/
def setPath (x : Val) : List Step → Val → Py Val
  | [.key k], .dict d => if has d k then .ok (.dict (set d k x)) else .error .valueError
  | .key k :: p, .dict d => match get? d k with
    | some w => match setPath x p w with
      | .ok w' => .ok (.dict (set d k w'))
      | .error e => .error e
    | none => .error .attributeError
  | .idx i :: p, .list l => match l[i]? with
    | some w => match setPath x p w with
      | .ok w' => .ok (.list (l.set i w'))
      | .error e => .error e
    | none => .error .indexError
  | _, _ => .error .attributeError

/-- `_set_simulator_object_value` (lines 132-156). -/
def setValue (sim : Val) (name : Str) (x : Val) : Py Val :=
  setPath x ((decode name).map stepOf) sim

/-! ## Simulators -/

/-- The attributes of a SymmetricTensor (tensors.py lines 85-91). -/
def symKeys : List String := ["zeta", "Cq", "D", "eta", "alpha", "beta", "gamma"]

/-- The attributes of an AntisymmetricTensor (tensors.py). -/
def antiKeys : List String := ["zeta", "alpha", "beta"]

/-- A tensor: its attributes that are not None (tensors.py lines 86-92 and 153-155). -/
abbrev Tens := String → Option ℚ

/-- A number or None. -/
def optNum : Option ℚ → Val
  | some q => .num q
  | none => .none

/-- A string or None. -/
def optStr : Option String → Val
  | some q => .str q
  | none => .none

/-- A tensor as a dictionary; None if there is no tensor (spectral_fitting.py lines 159-201). -/
def tensVal (keys : List String) : Option Tens → Val
  | some t => .dict (("property_units", .dict []) :: keys.map fun k => (k, optNum (t k)))
  | none => .none

/-- A site (site.py lines 154-165). -/
structure FSite where
  name : Option String
  isotope : String
  iso : ℚ
  shielding : Option Tens
  antisymmetric : Option Tens
  quadrupolar : Option Tens

/-- A coupling (coupling.py lines 150-161). -/
structure FCoupling where
  name : Option String
  i : Nat
  j : Nat
  isoJ : ℚ
  symmetric : Option Tens
  antisymmetric : Option Tens
  dipolar : Option Tens

/-- A spin system (spin_system/__init__.py lines 152-162). -/
structure FSys where
  name : Option String
  sites : List FSite
  couplings : Option (List FCoupling)
  abundance : ℚ

/-- `site.dict()`; label and description are like the name (site.py lines 154-161). -/
def siteVal (s : FSite) : Val :=
  .dict [("property_units", .dict []), ("name", optStr s.name), ("isotope", .str s.isotope),
    ("isotropic_chemical_shift", .num s.iso), ("shielding_symmetric", tensVal symKeys s.shielding),
    ("shielding_antisymmetric", tensVal antiKeys s.antisymmetric),
    ("quadrupolar", tensVal symKeys s.quadrupolar)]

/-- `coupling.dict()` (coupling.py lines 150-157). -/
def couplingVal (c : FCoupling) : Val :=
  .dict [("property_units", .dict []), ("name", optStr c.name),
    ("site_index", .list [.num c.i, .num c.j]), ("isotropic_j", .num c.isoJ),
    ("j_symmetric", tensVal symKeys c.symmetric),
    ("j_antisymmetric", tensVal antiKeys c.antisymmetric),
    ("dipolar", tensVal symKeys c.dipolar)]

/-- `system.dict()`; the transition pathways are left out, they are excluded (spin_system/__init__.py lines 152-164). -/
def sysVal (s : FSys) : Val :=
  .dict [("property_units", .dict []), ("name", optStr s.name),
    ("sites", .list (s.sites.map siteVal)),
    ("couplings", match s.couplings with
      | some l => .list (l.map couplingVal)
      | none => .none),
    ("abundance", .num s.abundance)]

/-- The simulator (spectral_fitting.py lines 159-201). -/
def simVal (S : List FSys) : Val := .dict [("spin_systems", .list (S.map sysVal))]

/-- The names made from the spin systems (line 277). -/
def names (S : List FSys) : List Str :=
  traverse "spin_systems".toList (.list (S.map sysVal))

/-! ## Specification -/

/-- The blocks of a list, numbered. -/
def Spec.blocks {α β : Type} (f : Nat → α → List β) (n : Nat) : List α → List β
  | [] => []
  | a :: l => f n a ++ Spec.blocks f (n + 1) l

/-- The attributes a tensor has. -/
def Spec.tens (pre : List Step) (key : String) : Option Tens → List (List Step)
  | none => []
  | some t => (symKeys.filter fun k => (t k).isSome).map fun k => pre ++ [.key key, .key k]

/-- The attributes of a site. -/
def Spec.sitePaths (i : Nat) (j : Nat) (s : FSite) : List (List Step) :=
  let pre := [Step.key "spin_systems", .idx i, .key "sites", .idx j]
  [pre ++ [.key "isotropic_chemical_shift"]] ++ Spec.tens pre "shielding_symmetric" s.shielding ++
    Spec.tens pre "quadrupolar" s.quadrupolar

/-- The attributes of a coupling. -/
def Spec.couplingPaths (i : Nat) (j : Nat) (c : FCoupling) : List (List Step) :=
  let pre := [Step.key "spin_systems", .idx i, .key "couplings", .idx j]
  [pre ++ [.key "isotropic_j"]] ++ Spec.tens pre "dipolar" c.dipolar

/-- The attributes of a spin system. -/
def Spec.sysPaths (i : Nat) (s : FSys) : List (List Step) :=
  Spec.blocks (Spec.sitePaths i) 0 s.sites ++
  Spec.blocks (Spec.couplingPaths i) 0 (s.couplings.getD []) ++
  [[.key "spin_systems", .idx i, .key "abundance"]]

/-- All attributes that can be fitted, for systems without antisymmetric tensors and without
symmetric J tensors. -/
def Spec.paths (S : List FSys) : List (List Step) := Spec.blocks Spec.sysPaths 0 S

/-- No antisymmetric tensors and no symmetric J tensors. -/
def Spec.Supported (S : List FSys) : Prop :=
  ∀ s ∈ S, (∀ t ∈ s.sites, t.antisymmetric = none) ∧
    ∀ c ∈ s.couplings.getD [], c.antisymmetric = none ∧ c.symmetric = none

/-! ## Lemmas on strings -/

theorem isPrefixOf_append (old x b : Str) (d : Char) (h : d ∉ old) :
    old.isPrefixOf (x ++ d :: b) = old.isPrefixOf x := by
  induction old generalizing x with
  | nil => rfl
  | cons o old ih =>
    cases x with
    | nil =>
      have : (o == d) = false := by
        rw [beq_eq_false_iff_ne]
        intro he
        exact h (by simp [he])
      simp [List.isPrefixOf, this]
    | cons c x =>
      simp only [List.cons_append, List.isPrefixOf]
      rw [ih x (fun hm => h (List.mem_cons_of_mem _ hm))]

theorem repFrom_append (old new : Str) (ho : old ≠ []) (d : Char) (h : d ∉ old) (b : Str)
    (a : Str) (k : Nat) (hk : k ≤ a.length) :
    repFrom old new k (a ++ d :: b) = repFrom old new k a ++ d :: repFrom old new 0 b := by
  induction a generalizing k with
  | nil =>
    have hk0 : k = 0 := by simpa using hk
    subst hk0
    rw [List.nil_append]
    conv_lhs => rw [repFrom]
    have := isPrefixOf_append old [] b d h
    rw [List.nil_append] at this
    rw [this]
    cases old with
    | nil => exact absurd rfl ho
    | cons o old => simp [repFrom, List.isPrefixOf]
  | cons c a ih =>
    cases k with
    | zero =>
      rw [List.cons_append, repFrom, repFrom]
      have := isPrefixOf_append old (c :: a) b d h
      rw [List.cons_append] at this
      rw [this]
      by_cases hp : old.isPrefixOf (c :: a)
      · rw [if_pos hp, if_pos hp, ih]
        · simp
        · have := (List.isPrefixOf_iff_prefix.mp hp).length_le
          simp only [List.length_cons] at this
          omega
      · rw [if_neg hp, if_neg hp, ih 0 (by omega)]
        simp
    | succ k =>
      rw [List.cons_append, repFrom, repFrom, ih k (by simpa using hk)]

theorem rep_append (old new : Str) (ho : old ≠ []) (d : Char) (h : d ∉ old) (a b : Str) :
    rep old new (a ++ d :: b) = rep old new a ++ d :: rep old new b :=
  repFrom_append old new ho d h b a 0 (by omega)

/-- All patterns are non-empty and without digits. -/
def NoDigits (l : List (String × String)) : Prop :=
  ∀ p ∈ l, p.1.toList ≠ [] ∧ ∀ c ∈ p.1.toList, c.isDigit = false

instance (l : List (String × String)) : Decidable (NoDigits l) := by
  unfold NoDigits; infer_instance

theorem repAll_append (l : List (String × String)) (hl : NoDigits l) (d : Char)
    (hd : d.isDigit = true) (a b : Str) :
    repAll l (a ++ d :: b) = repAll l a ++ d :: repAll l b := by
  unfold repAll
  induction l generalizing a b with
  | nil => rfl
  | cons p l ih =>
    rw [List.foldl_cons, List.foldl_cons, List.foldl_cons]
    have hp := hl p (by simp)
    rw [rep_append _ _ hp.1 d]
    · exact ih (fun q hq => hl q (List.mem_cons_of_mem _ hq)) _ _
    · intro hm
      rw [hp.2 d hm] at hd
      cases hd

theorem repAll_digits' (l : List (String × String)) (hl : NoDigits l) (D : Str)
    (hD : ∀ c ∈ D, c.isDigit = true) (a b : Str) (d : Char) (hd : d.isDigit = true) :
    repAll l (a ++ (d :: D) ++ b) = repAll l a ++ (d :: D) ++ repAll l b := by
  induction D generalizing a d with
  | nil => simpa using repAll_append l hl d hd a b
  | cons c D ih =>
    have h1 : a ++ (d :: c :: D) ++ b = a ++ d :: ([] ++ (c :: D) ++ b) := by simp
    have h0 : repAll l [] = [] := by
      unfold repAll
      clear hl ih h1
      induction l with
      | nil => rfl
      | cons p l ih =>
        rw [List.foldl_cons]
        exact ih
    rw [h1, repAll_append l hl d hd, ih (fun x hx => hD x (List.mem_cons_of_mem _ hx)) [] c
      (hD c (by simp)), h0]
    simp

theorem digits_isDigit (n : Nat) (c : Char) (h : c ∈ digits n) : c.isDigit = true :=
  Nat.isDigit_of_mem_toDigits (by norm_num) (le_refl _) h

theorem digits_ne_nil (n : Nat) : digits n ≠ [] := Nat.toDigits_ne_nil

theorem repAll_digits (l : List (String × String)) (hl : NoDigits l) (n : Nat) (a b : Str) :
    repAll l (a ++ (digits n ++ b)) = repAll l a ++ (digits n ++ repAll l b) := by
  cases hd : digits n with
  | nil => exact absurd hd (digits_ne_nil n)
  | cons d D =>
    have h : ∀ c ∈ d :: D, c.isDigit = true := by
      intro c hc
      rw [← hd] at hc
      exact digits_isDigit n c hc
    rw [← List.append_assoc, ← List.append_assoc]
    exact repAll_digits' l hl D (fun c hc => h c (List.mem_cons_of_mem _ hc)) a b d (h d (by simp))

theorem encode_digits (n : Nat) (a b : Str) :
    encode (a ++ (digits n ++ b)) = encode a ++ (digits n ++ encode b) :=
  repAll_digits _ (by decide +kernel) n a b

theorem decodeStr_digits (n : Nat) (a b : Str) :
    repAll decodingPairs (a ++ (digits n ++ b)) =
      repAll decodingPairs a ++ (digits n ++ repAll decodingPairs b) :=
  repAll_digits _ (by decide +kernel) n a b

theorem split_word (w s : Str) (h : '.' ∉ w) : split (w ++ '.' :: s) = w :: split s := by
  induction w with
  | nil => simp [split]
  | cons c w ih =>
    have hc : c ≠ '.' := by
      intro he
      exact h (by simp [he])
    rw [List.cons_append, split, if_neg hc, ih (fun hm => h (List.mem_cons_of_mem _ hm))]

theorem split_last (w : Str) (h : '.' ∉ w) : split w = [w] := by
  induction w with
  | nil => simp [split]
  | cons c w ih =>
    have hc : c ≠ '.' := by
      intro he
      exact h (by simp [he])
    rw [split, if_neg hc, ih (fun hm => h (List.mem_cons_of_mem _ hm))]

theorem dot_not_in_digits (n : Nat) : '.' ∉ digits n := by
  intro h
  have := digits_isDigit n _ h
  revert this
  decide

theorem stepOf_digits (n : Nat) : stepOf (digits n) = .idx n := by
  unfold stepOf
  rw [if_pos]
  · rw [show digits n = Nat.toDigits 10 n from rfl, Nat.ofDigitChars_ten_toDigits]
  · unfold isNumeric
    rw [Bool.and_eq_true]
    constructor
    · cases h : digits n with
      | nil => exact absurd h (digits_ne_nil n)
      | cons => rfl
    · rw [List.all_eq_true]
      exact fun c hc => digits_isDigit n c hc

/-- The steps of a decoded word. -/
def stepsOf (s : Str) : List Step := (split s).map stepOf

theorem stepsOf_digits (n : Nat) (s : Str) :
    stepsOf (digits n ++ '.' :: s) = .idx n :: stepsOf s := by
  unfold stepsOf
  rw [split_word _ _ (dot_not_in_digits n), List.map_cons, stepOf_digits]

theorem stepsOf_word (k : String) (s : Str) (h : '.' ∉ k.toList)
    (hn : isNumeric k.toList = false) :
    stepsOf (k.toList ++ '.' :: s) = .key k :: stepsOf s := by
  unfold stepsOf
  rw [split_word _ _ h, List.map_cons]
  unfold stepOf
  rw [hn]
  simp

theorem stepsOf_last (k : String) (h : '.' ∉ k.toList) (hn : isNumeric k.toList = false) :
    stepsOf k.toList = [.key k] := by
  unfold stepsOf
  rw [split_last _ h]
  unfold stepOf
  simp [hn]

/-! ## The names that are made -/

/-- The attributes that can be fitted. -/
inductive Attr
  | abund (i : Nat)
  | siteIso (i j : Nat)
  | siteT (i j : Nat) (key k : String)
  | coupIso (i j : Nat)
  | coupT (i j : Nat) (key k : String)
  deriving DecidableEq, Repr

/-- sys_i followed by `t`. -/
def sysN (i : Nat) (t : Str) : Str := "sys_".toList ++ (digits i ++ t)

/-- sys_i_site_j followed by `t`. -/
def siteN (i j : Nat) (t : Str) : Str := sysN i ("_site_".toList ++ (digits j ++ t))

/-- sys_i_coupling_j followed by `t`. -/
def coupN (i j : Nat) (t : Str) : Str := sysN i ("_coupling_".toList ++ (digits j ++ t))

/-- The end of the name of an attribute of a tensor. -/
def tensN (key k : String) : Str := '_' :: key.toList ++ '_' :: k.toList

/-- The name of an attribute. -/
def Attr.str : Attr → Str
  | .abund i => sysN i "_abundance".toList
  | .siteIso i j => siteN i j "_isotropic_chemical_shift".toList
  | .siteT i j key k => siteN i j (tensN key k)
  | .coupIso i j => coupN i j "_isotropic_j".toList
  | .coupT i j key k => coupN i j (tensN key k)

/-- The path of an attribute. -/
def Attr.path : Attr → List Step
  | .abund i => [.key "spin_systems", .idx i, .key "abundance"]
  | .siteIso i j => [.key "spin_systems", .idx i, .key "sites", .idx j,
      .key "isotropic_chemical_shift"]
  | .siteT i j key k => [.key "spin_systems", .idx i, .key "sites", .idx j, .key key, .key k]
  | .coupIso i j => [.key "spin_systems", .idx i, .key "couplings", .idx j, .key "isotropic_j"]
  | .coupT i j key k => [.key "spin_systems", .idx i, .key "couplings", .idx j, .key key, .key k]

/-- The tensor attributes that occur. -/
def Attr.Valid : Attr → Prop
  | .siteT _ _ key k => (key = "shielding_symmetric" ∨ key = "quadrupolar") ∧ k ∈ symKeys
  | .coupT _ _ key k => key = "dipolar" ∧ k ∈ symKeys
  | _ => True

/-- The attributes a tensor has. -/
def tensAttrs : Option Tens → List String
  | none => []
  | some t => symKeys.filter fun k => (t k).isSome

/-- The attributes of a site. -/
def siteAttrs (i j : Nat) (s : FSite) : List Attr :=
  [.siteIso i j] ++ (tensAttrs s.shielding).map (.siteT i j "shielding_symmetric") ++
    (tensAttrs s.quadrupolar).map (.siteT i j "quadrupolar")

/-- The attributes of a coupling. -/
def coupAttrs (i j : Nat) (c : FCoupling) : List Attr :=
  [.coupIso i j] ++ (tensAttrs c.dipolar).map (.coupT i j "dipolar")

/-- The attributes of a spin system. -/
def sysAttrs (i : Nat) (s : FSys) : List Attr :=
  Spec.blocks (siteAttrs i) 0 s.sites ++ Spec.blocks (coupAttrs i) 0 (s.couplings.getD []) ++
    [.abund i]

/-- The attributes of a simulator. -/
def attrs (S : List FSys) : List Attr := Spec.blocks sysAttrs 0 S

theorem blocks_map {α β γ : Type} (f : Nat → α → List β) (g : β → γ) (n : Nat) (l : List α) :
    (Spec.blocks f n l).map g = Spec.blocks (fun i a => (f i a).map g) n l := by
  induction l generalizing n with
  | nil => rfl
  | cons a l ih => rw [Spec.blocks, List.map_append, ih, Spec.blocks]

theorem blocks_congr {α β : Type} (f g : Nat → α → List β) (n : Nat) (l : List α)
    (h : ∀ i, ∀ a ∈ l, f i a = g i a) : Spec.blocks f n l = Spec.blocks g n l := by
  induction l generalizing n with
  | nil => rfl
  | cons a l ih =>
    rw [Spec.blocks, Spec.blocks, h n a (by simp), ih (n + 1)
      (fun i b hb => h i b (List.mem_cons_of_mem _ hb))]

theorem mem_blocks {α β : Type} (f : Nat → α → List β) (n : Nat) (l : List α) (b : β)
    (h : b ∈ Spec.blocks f n l) : ∃ i a, l[i]? = some a ∧ b ∈ f (n + i) a := by
  induction l generalizing n with
  | nil => simp [Spec.blocks] at h
  | cons a l ih =>
    rw [Spec.blocks, List.mem_append] at h
    rcases h with h | h
    · exact ⟨0, a, rfl, h⟩
    · obtain ⟨i, a', h1, h2⟩ := ih (n + 1) h
      refine ⟨i + 1, a', h1, ?_⟩
      rw [show n + (i + 1) = n + 1 + i by omega]
      exact h2

theorem blocks_nodup {α β : Type} (f : Nat → α → List β) (tag : β → Nat) (n : Nat) (l : List α)
    (h : ∀ i, ∀ a ∈ l, (f i a).Nodup) (ht : ∀ i a b, b ∈ f i a → tag b = i) :
    (Spec.blocks f n l).Nodup := by
  induction l generalizing n with
  | nil => simp [Spec.blocks]
  | cons a l ih =>
    rw [Spec.blocks, List.nodup_append]
    refine ⟨h n a (by simp), ih (n + 1) (fun i b hb => h i b (List.mem_cons_of_mem _ hb)), ?_⟩
    intro x hx y hy hxy
    subst hxy
    obtain ⟨i, a', _, h2⟩ := mem_blocks f (n + 1) l x hy
    have h1 := ht n a x hx
    have h3 := ht _ a' x h2
    omega

theorem tensAttrs_mem (t : Option Tens) (k : String) (h : k ∈ tensAttrs t) : k ∈ symKeys := by
  cases t with
  | none => simp [tensAttrs] at h
  | some t =>
    unfold tensAttrs at h
    exact (List.mem_filter.mp h).1

theorem tens_paths (pre : List Step) (key : String) (t : Option Tens) :
    Spec.tens pre key t = (tensAttrs t).map fun k => pre ++ [.key key, .key k] := by
  cases t <;> rfl

theorem paths_eq (S : List FSys) : Spec.paths S = (attrs S).map Attr.path := by
  unfold Spec.paths attrs
  rw [blocks_map]
  apply blocks_congr
  intro i s _
  unfold sysAttrs Spec.sysPaths
  rw [List.map_append, List.map_append, blocks_map, blocks_map]
  congr 1
  congr 1
  · apply blocks_congr
    intro j a _
    simp only [Spec.sitePaths, siteAttrs, tens_paths, List.map_append, List.map_map]
    rfl
  · apply blocks_congr
    intro j a _
    simp only [Spec.couplingPaths, coupAttrs, tens_paths, List.map_append, List.map_map]
    rfl

/-! ### Encoding -/

theorem encode_brIdx (parent : Str) (i : Nat) :
    encode (brIdx parent i) = encode (parent ++ ['[']) ++ (digits i ++ encode [']']) := by
  rw [← encode_digits]
  simp [brIdx]

theorem encode_sysN (i : Nat) (t : Str) : encode (sysN i t) = sysN i (encode t) := by
  unfold sysN
  rw [encode_digits]
  congr 1

theorem encode_siteN (i j : Nat) (t : Str) : encode (siteN i j t) = siteN i j (encode t) := by
  unfold siteN
  rw [encode_sysN, encode_digits]
  congr 1

theorem encode_coupN (i j : Nat) (t : Str) : encode (coupN i j t) = coupN i j (encode t) := by
  unfold coupN
  rw [encode_sysN, encode_digits]
  congr 1

theorem sysN_append (i : Nat) (t u : Str) : sysN i t ++ u = sysN i (t ++ u) := by
  simp [sysN]

theorem siteN_append (i j : Nat) (t u : Str) : siteN i j t ++ u = siteN i j (t ++ u) := by
  simp [siteN, sysN]

theorem coupN_append (i j : Nat) (t u : Str) : coupN i j t ++ u = coupN i j (t ++ u) := by
  simp [coupN, sysN]

theorem enc_top (i : Nat) : encode (brIdx "spin_systems".toList i) = sysN i [']'] := by
  rw [encode_brIdx]
  have h1 : encode ("spin_systems".toList ++ ['[']) = "sys_".toList := by decide +kernel
  have h2 : encode [']'] = [']'] := by decide +kernel
  rw [h1, h2]
  rfl

theorem enc_sys_key (i : Nat) (k : String) :
    encode (dotKey (sysN i [']']) k) = sysN i (encode (']' :: '.' :: k.toList)) := by
  unfold dotKey
  rw [sysN_append, encode_sysN]
  rfl

theorem enc_site_idx (i j : Nat) :
    encode (brIdx (sysN i "].sites".toList) j) = siteN i j [']'] := by
  rw [encode_brIdx, sysN_append, encode_sysN]
  have h1 : encode ("].sites".toList ++ ['[']) = "_site_".toList := by decide +kernel
  have h2 : encode [']'] = [']'] := by decide +kernel
  rw [h1, h2, sysN_append]
  rfl

theorem enc_coup_idx (i j : Nat) :
    encode (brIdx (sysN i "].couplings".toList) j) = coupN i j [']'] := by
  rw [encode_brIdx, sysN_append, encode_sysN]
  have h1 : encode ("].couplings".toList ++ ['[']) = "_coupling_".toList := by decide +kernel
  have h2 : encode [']'] = [']'] := by decide +kernel
  rw [h1, h2, sysN_append]
  rfl

theorem enc_site_key (i j : Nat) (t : Str) (k : String) :
    encode (dotKey (siteN i j t) k) = siteN i j (encode (t ++ '.' :: k.toList)) := by
  unfold dotKey
  rw [siteN_append, encode_siteN]

theorem enc_coup_key (i j : Nat) (t : Str) (k : String) :
    encode (dotKey (coupN i j t) k) = coupN i j (encode (t ++ '.' :: k.toList)) := by
  unfold dotKey
  rw [coupN_append, encode_coupN]

/-! ### Traversal -/

theorem traverseD_tens (P : Str) (t : Tens) (keys : List String) (h : ∀ k ∈ keys, k ∉ exclude) :
    traverseD P (keys.map fun k => (k, optNum (t k))) =
      (keys.filter fun k => (t k).isSome).map fun k => encode (dotKey P k) := by
  induction keys with
  | nil => simp [traverseD]
  | cons k keys ih =>
    rw [List.map_cons, traverseD, if_neg (h k (by simp)),
      ih (fun x hx => h x (List.mem_cons_of_mem _ hx))]
    cases hk : t k with
    | none => simp [optNum, traverseE, hk]
    | some q => simp [optNum, traverseE, hk]

theorem traverseE_tens (P : Str) (key : String) (t : Option Tens) :
    traverseE P key (tensVal symKeys t) =
      (tensAttrs t).map fun k => encode (dotKey (encode (dotKey P key)) k) := by
  cases t with
  | none => simp [tensVal, traverseE, tensAttrs]
  | some t =>
    unfold tensVal
    simp only
    rw [traverseE, traverseD, if_pos (by decide), List.nil_append,
      traverseD_tens _ _ _ (by decide +kernel)]
    rfl

theorem traverseE_optStr_excluded (P : Str) (d : List (String × Val)) (k : String) (v : Val)
    (h : k ∈ exclude) : traverseD P ((k, v) :: d) = traverseD P d := by
  rw [traverseD, if_pos h, List.nil_append]

theorem traverseD_kept (P : Str) (d : List (String × Val)) (k : String) (v : Val)
    (h : k ∉ exclude) : traverseD P ((k, v) :: d) = traverseE P k v ++ traverseD P d := by
  rw [traverseD, if_neg h]

theorem tens_site (i j : Nat) (key : String) (t : Option Tens)
    (h1 : encode ("]".toList ++ '.' :: key.toList) = "]".toList ++ '.' :: key.toList)
    (h2 : ∀ k ∈ symKeys, encode ("]".toList ++ '.' :: key.toList ++ '.' :: k.toList) =
      tensN key k) :
    traverseE (siteN i j "]".toList) key (tensVal symKeys t) =
      ((tensAttrs t).map (.siteT i j key)).map Attr.str := by
  rw [traverseE_tens, List.map_map]
  apply List.map_congr_left
  intro k hk
  rw [enc_site_key, h1, enc_site_key, h2]
  · rfl
  · exact tensAttrs_mem t k hk

theorem tens_coup (i j : Nat) (key : String) (t : Option Tens)
    (h1 : encode ("]".toList ++ '.' :: key.toList) = "]".toList ++ '.' :: key.toList)
    (h2 : ∀ k ∈ symKeys, encode ("]".toList ++ '.' :: key.toList ++ '.' :: k.toList) =
      tensN key k) :
    traverseE (coupN i j "]".toList) key (tensVal symKeys t) =
      ((tensAttrs t).map (.coupT i j key)).map Attr.str := by
  rw [traverseE_tens, List.map_map]
  apply List.map_congr_left
  intro k hk
  rw [enc_coup_key, h1, enc_coup_key, h2]
  · rfl
  · exact tensAttrs_mem t k hk

theorem traverse_site (i j : Nat) (s : FSite) (h : s.antisymmetric = none) :
    traverse (siteN i j "]".toList) (siteVal s) = (siteAttrs i j s).map Attr.str := by
  unfold siteVal
  rw [traverse, traverseE_optStr_excluded _ _ _ _ (by decide),
    traverseE_optStr_excluded _ _ _ _ (by decide), traverseE_optStr_excluded _ _ _ _ (by decide),
    traverseD_kept _ _ _ _ (by decide), traverseD_kept _ _ _ _ (by decide),
    traverseD_kept _ _ _ _ (by decide), traverseD_kept _ _ _ _ (by decide), h,
    tens_site i j _ _ (by decide +kernel) (by decide +kernel),
    tens_site i j _ _ (by decide +kernel) (by decide +kernel)]
  have h1 : traverseE (siteN i j "]".toList) "isotropic_chemical_shift" (.num s.iso) =
      [Attr.str (.siteIso i j)] := by
    rw [traverseE, enc_site_key]
    have : encode ("]".toList ++ '.' :: "isotropic_chemical_shift".toList) =
      "_isotropic_chemical_shift".toList := by decide +kernel
    rw [this]
    rfl
  have h2 : ∀ P k, traverseE P k (tensVal antiKeys none) = [] := by
    intro P k
    rw [tensVal, traverseE]
  rw [h1, h2, traverseD]
  simp [siteAttrs]

theorem traverse_coup (i j : Nat) (c : FCoupling)
    (h : c.antisymmetric = none ∧ c.symmetric = none) :
    traverse (coupN i j "]".toList) (couplingVal c) = (coupAttrs i j c).map Attr.str := by
  unfold couplingVal
  rw [traverse, traverseE_optStr_excluded _ _ _ _ (by decide),
    traverseE_optStr_excluded _ _ _ _ (by decide),
    traverseD_kept _ _ _ _ (by decide), traverseD_kept _ _ _ _ (by decide),
    traverseD_kept _ _ _ _ (by decide), traverseD_kept _ _ _ _ (by decide),
    traverseD_kept _ _ _ _ (by decide), h.1, h.2,
    tens_coup i j "dipolar" _ (by decide +kernel) (by decide +kernel)]
  have h1 : traverseE (coupN i j "]".toList) "isotropic_j" (.num c.isoJ) =
      [Attr.str (.coupIso i j)] := by
    rw [traverseE, enc_coup_key]
    have : encode ("]".toList ++ '.' :: "isotropic_j".toList) =
      "_isotropic_j".toList := by decide +kernel
    rw [this]
    rfl
  have h2 : ∀ P k l, traverseE P k (tensVal l none) = [] := by
    intro P k l
    rw [tensVal, traverseE]
  have h3 : ∀ P, traverseE P "site_index" (.list [.num c.i, .num c.j]) = [] := by
    intro P
    rw [traverseE, traverseL, traverseL, traverseL, traverse, traverse]
    rfl
  rw [h1, h2, h2, h3, traverseD]
  simp [coupAttrs]

theorem traverseL_blocks {α : Type} (g : α → Val) (P : Str) (f : Nat → α → List Str) (n : Nat)
    (l : List α) (h : ∀ i, ∀ a ∈ l, traverse (encode (brIdx P i)) (g a) = f i a) :
    traverseL P n (l.map g) = Spec.blocks f n l := by
  induction l generalizing n with
  | nil => rw [List.map_nil, traverseL]; rfl
  | cons a l ih =>
    rw [List.map_cons, traverseL, h n a (by simp),
      ih (n + 1) (fun i b hb => h i b (List.mem_cons_of_mem _ hb))]
    rfl

theorem traverse_sys (i : Nat) (s : FSys) (h : (∀ t ∈ s.sites, t.antisymmetric = none) ∧
    ∀ c ∈ s.couplings.getD [], c.antisymmetric = none ∧ c.symmetric = none) :
    traverse (sysN i [']']) (sysVal s) = (sysAttrs i s).map Attr.str := by
  unfold sysVal
  rw [traverse, traverseE_optStr_excluded _ _ _ _ (by decide),
    traverseE_optStr_excluded _ _ _ _ (by decide),
    traverseD_kept _ _ _ _ (by decide), traverseD_kept _ _ _ _ (by decide),
    traverseD_kept _ _ _ _ (by decide)]
  have h1 : traverseE (sysN i [']']) "sites" (.list (s.sites.map siteVal)) =
      (Spec.blocks (siteAttrs i) 0 s.sites).map Attr.str := by
    rw [traverseE, enc_sys_key, blocks_map]
    apply traverseL_blocks
    intro j a ha
    have : encode (']' :: '.' :: "sites".toList) = "].sites".toList := by decide +kernel
    rw [this, enc_site_idx]
    exact traverse_site i j a (h.1 a ha)
  have h2 : traverseE (sysN i [']']) "couplings" (match s.couplings with
      | some l => .list (l.map couplingVal)
      | none => .none) = (Spec.blocks (coupAttrs i) 0 (s.couplings.getD [])).map Attr.str := by
    have hc := h.2
    cases hcs : s.couplings with
    | none =>
      simp only [Option.getD_none, Spec.blocks, List.map_nil]
      rw [traverseE]
    | some l =>
      rw [hcs] at hc
      simp only [Option.getD_some] at hc ⊢
      rw [traverseE, enc_sys_key, blocks_map]
      apply traverseL_blocks
      intro j a ha
      have : encode (']' :: '.' :: "couplings".toList) = "].couplings".toList := by decide +kernel
      rw [this, enc_coup_idx]
      exact traverse_coup i j a (hc a ha)
  have h3 : traverseE (sysN i [']']) "abundance" (.num s.abundance) = [Attr.str (.abund i)] := by
    rw [traverseE, enc_sys_key]
    have : encode (']' :: '.' :: "abundance".toList) = "_abundance".toList := by decide +kernel
    rw [this]
    rfl
  rw [h1, h2, h3, traverseD]
  simp [sysAttrs]

theorem names_eq (S : List FSys) (h : Spec.Supported S) : names S = (attrs S).map Attr.str := by
  unfold names attrs
  rw [traverse, blocks_map]
  apply traverseL_blocks
  intro i s hs
  rw [enc_top]
  exact traverse_sys i s (h s hs)

/-! ### Decoding -/

theorem attrs_valid (S : List FSys) (a : Attr) (h : a ∈ attrs S) : a.Valid := by
  unfold attrs at h
  obtain ⟨i, s, _, h⟩ := mem_blocks _ _ _ _ h
  unfold sysAttrs at h
  rw [List.mem_append, List.mem_append] at h
  rcases h with (h | h) | h
  · obtain ⟨j, t, _, h⟩ := mem_blocks _ _ _ _ h
    unfold siteAttrs at h
    rw [List.mem_append, List.mem_append] at h
    rcases h with (h | h) | h
    · rw [List.mem_singleton] at h
      subst h; trivial
    · obtain ⟨k, hk, rfl⟩ := List.mem_map.mp h
      exact ⟨Or.inl rfl, tensAttrs_mem _ _ hk⟩
    · obtain ⟨k, hk, rfl⟩ := List.mem_map.mp h
      exact ⟨Or.inr rfl, tensAttrs_mem _ _ hk⟩
  · obtain ⟨j, t, _, h⟩ := mem_blocks _ _ _ _ h
    unfold coupAttrs at h
    rw [List.mem_append] at h
    rcases h with h | h
    · rw [List.mem_singleton] at h
      subst h; trivial
    · obtain ⟨k, hk, rfl⟩ := List.mem_map.mp h
      exact ⟨rfl, tensAttrs_mem _ _ hk⟩
  · rw [List.mem_singleton] at h
    subst h; trivial

theorem decode_sysN (i : Nat) (t : Str) (u : Str)
    (h : repAll decodingPairs t = '.' :: u) :
    (decode (sysN i t)).map stepOf = .key "spin_systems" :: .idx i :: stepsOf u := by
  unfold decode sysN
  rw [decodeStr_digits, h]
  have h1 : repAll decodingPairs "sys_".toList = "spin_systems".toList ++ ['.'] := by
    decide +kernel
  rw [h1]
  change stepsOf _ = _
  rw [List.append_assoc, List.singleton_append, stepsOf_word _ _ (by decide) (by decide +kernel),
    stepsOf_digits]

theorem decode_siteN (i j : Nat) (t : Str) (u : Str)
    (h : repAll decodingPairs t = '.' :: u) :
    (decode (siteN i j t)).map stepOf =
      .key "spin_systems" :: .idx i :: .key "sites" :: .idx j :: stepsOf u := by
  unfold siteN
  rw [decode_sysN i _ ("sites".toList ++ '.' :: (digits j ++ '.' :: u)),
    stepsOf_word _ _ (by decide) (by decide +kernel), stepsOf_digits]
  rw [decodeStr_digits, h]
  have h1 : repAll decodingPairs "_site_".toList = '.' :: "sites".toList ++ ['.'] := by
    decide +kernel
  rw [h1]
  simp

theorem decode_coupN (i j : Nat) (t : Str) (u : Str)
    (h : repAll decodingPairs t = '.' :: u) :
    (decode (coupN i j t)).map stepOf =
      .key "spin_systems" :: .idx i :: .key "couplings" :: .idx j :: stepsOf u := by
  unfold coupN
  rw [decode_sysN i _ ("couplings".toList ++ '.' :: (digits j ++ '.' :: u)),
    stepsOf_word _ _ (by decide) (by decide +kernel), stepsOf_digits]
  rw [decodeStr_digits, h]
  have h1 : repAll decodingPairs "_coupling_".toList = '.' :: "couplings".toList ++ ['.'] := by
    decide +kernel
  rw [h1]
  simp

theorem decode_tens (key : String) (hk : key = "shielding_symmetric" ∨ key = "quadrupolar" ∨
    key = "dipolar") (k : String) (h : k ∈ symKeys) :
    repAll decodingPairs (tensN key k) = '.' :: (key.toList ++ '.' :: k.toList) ∧
    stepsOf (key.toList ++ '.' :: k.toList) = [.key key, .key k] := by
  have h1 : ∀ key ∈ ["shielding_symmetric", "quadrupolar", "dipolar"], ∀ k ∈ symKeys,
      repAll decodingPairs (tensN key k) = '.' :: (key.toList ++ '.' :: k.toList) := by
    decide +kernel
  have h2 : ∀ key ∈ ["shielding_symmetric", "quadrupolar", "dipolar"],
      '.' ∉ key.toList ∧ isNumeric key.toList = false := by
    decide +kernel
  have h3 : ∀ key ∈ symKeys, '.' ∉ key.toList ∧ isNumeric key.toList = false := by
    decide +kernel
  have hm : key ∈ ["shielding_symmetric", "quadrupolar", "dipolar"] := by simpa using hk
  refine ⟨h1 key hm k h, ?_⟩
  rw [stepsOf_word _ _ (h2 key hm).1 (h2 key hm).2, stepsOf_last _ (h3 k h).1 (h3 k h).2]

theorem decode_str (a : Attr) (h : a.Valid) : (decode a.str).map stepOf = a.path := by
  cases a with
  | abund i =>
    unfold Attr.str
    rw [decode_sysN i _ "abundance".toList (by decide +kernel),
      stepsOf_last _ (by decide) (by decide +kernel)]
    rfl
  | siteIso i j =>
    unfold Attr.str
    rw [decode_siteN i j _ "isotropic_chemical_shift".toList (by decide +kernel),
      stepsOf_last _ (by decide) (by decide +kernel)]
    rfl
  | coupIso i j =>
    unfold Attr.str
    rw [decode_coupN i j _ "isotropic_j".toList (by decide +kernel),
      stepsOf_last _ (by decide) (by decide +kernel)]
    rfl
  | siteT i j key k =>
    unfold Attr.str
    have hd := decode_tens key (by rcases h.1 with h | h <;> simp [h]) k h.2
    rw [decode_siteN i j _ _ hd.1, hd.2]
    rfl
  | coupT i j key k =>
    unfold Attr.str
    have hd := decode_tens key (by simp [h.1]) k h.2
    rw [decode_coupN i j _ _ hd.1, hd.2]
    rfl

/-! ### Distinct names -/

theorem path_injective : Function.Injective Attr.path := by
  intro a b h
  cases a <;> cases b <;> simp [Attr.path] at h ⊢ <;> simp_all

theorem tensAttrs_nodup (t : Option Tens) : (tensAttrs t).Nodup := by
  cases t with
  | none => simp [tensAttrs]
  | some t => exact List.Nodup.filter _ (by decide)

/-- The system of an attribute. -/
def Attr.sys : Attr → Nat
  | .abund i => i
  | .siteIso i _ => i
  | .siteT i _ _ _ => i
  | .coupIso i _ => i
  | .coupT i _ _ _ => i

/-- The site or coupling of an attribute. -/
def Attr.sub : Attr → Nat
  | .abund _ => 0
  | .siteIso _ j => j
  | .siteT _ j _ _ => j
  | .coupIso _ j => j
  | .coupT _ j _ _ => j

/-- Site, coupling or neither. -/
def Attr.kind : Attr → Nat
  | .abund _ => 0
  | .siteIso _ _ => 1
  | .siteT _ _ _ _ => 1
  | .coupIso _ _ => 2
  | .coupT _ _ _ _ => 2

theorem siteAttrs_mem (i j : Nat) (s : FSite) (a : Attr) (h : a ∈ siteAttrs i j s) :
    a.sys = i ∧ a.sub = j ∧ a.kind = 1 := by
  unfold siteAttrs at h
  simp only [List.mem_append, List.mem_singleton, List.mem_map] at h
  rcases h with (rfl | ⟨k, _, rfl⟩) | ⟨k, _, rfl⟩ <;> exact ⟨rfl, rfl, rfl⟩

theorem coupAttrs_mem (i j : Nat) (s : FCoupling) (a : Attr) (h : a ∈ coupAttrs i j s) :
    a.sys = i ∧ a.sub = j ∧ a.kind = 2 := by
  unfold coupAttrs at h
  simp only [List.mem_append, List.mem_singleton, List.mem_map] at h
  rcases h with rfl | ⟨k, _, rfl⟩ <;> exact ⟨rfl, rfl, rfl⟩

theorem siteAttrs_nodup (i j : Nat) (s : FSite) : (siteAttrs i j s).Nodup := by
  unfold siteAttrs
  simp only [List.nodup_append, List.nodup_cons, List.not_mem_nil, not_false_eq_true,
    List.nodup_nil, and_self, true_and, List.mem_append, List.mem_map, List.mem_singleton]
  refine ⟨⟨(tensAttrs_nodup _).map fun a b h => by injection h, ?_⟩,
    (tensAttrs_nodup _).map fun a b h => by injection h, ?_⟩
  · rintro a rfl b ⟨k, _, rfl⟩ h
    cases h
  · rintro a (rfl | ⟨k, _, rfl⟩) b ⟨k', _, rfl⟩ h
    · cases h
    · injection h with _ _ h
      revert h
      decide

theorem coupAttrs_nodup (i j : Nat) (s : FCoupling) : (coupAttrs i j s).Nodup := by
  unfold coupAttrs
  simp only [List.nodup_append, List.nodup_cons, List.not_mem_nil, not_false_eq_true,
    List.nodup_nil, and_self, true_and, List.mem_map, List.mem_singleton]
  refine ⟨(tensAttrs_nodup _).map fun a b h => by injection h, ?_⟩
  rintro a rfl b ⟨k, _, rfl⟩ h
  cases h

theorem sysAttrs_mem (i : Nat) (s : FSys) (a : Attr) (h : a ∈ sysAttrs i s) : a.sys = i := by
  unfold sysAttrs at h
  rw [List.mem_append, List.mem_append] at h
  rcases h with (h | h) | h
  · obtain ⟨j, t, _, h⟩ := mem_blocks _ _ _ _ h
    exact (siteAttrs_mem _ _ _ _ h).1
  · obtain ⟨j, t, _, h⟩ := mem_blocks _ _ _ _ h
    exact (coupAttrs_mem _ _ _ _ h).1
  · rw [List.mem_singleton] at h
    subst h; rfl

theorem attrs_nodup (S : List FSys) : (attrs S).Nodup := by
  unfold attrs
  refine blocks_nodup _ Attr.sys _ _ ?_ (fun i a b h => sysAttrs_mem i a b h)
  intro i s _
  unfold sysAttrs
  have hs : ∀ a ∈ Spec.blocks (siteAttrs i) 0 s.sites, a.kind = 1 := by
    intro a h
    obtain ⟨j, t, _, h⟩ := mem_blocks _ _ _ _ h
    exact (siteAttrs_mem _ _ _ _ h).2.2
  have hc : ∀ a ∈ Spec.blocks (coupAttrs i) 0 (s.couplings.getD []), a.kind = 2 := by
    intro a h
    obtain ⟨j, t, _, h⟩ := mem_blocks _ _ _ _ h
    exact (coupAttrs_mem _ _ _ _ h).2.2
  rw [List.nodup_append, List.nodup_append]
  refine ⟨⟨?_, ?_, ?_⟩, by simp, ?_⟩
  · exact blocks_nodup _ Attr.sub _ _ (fun j a _ => siteAttrs_nodup i j a)
      (fun j a b h => (siteAttrs_mem i j a b h).2.1)
  · exact blocks_nodup _ Attr.sub _ _ (fun j a _ => coupAttrs_nodup i j a)
      (fun j a b h => (coupAttrs_mem i j a b h).2.1)
  · intro a ha b hb hab
    have h1 := hs a ha
    have h2 := hc b hb
    rw [hab] at h1
    omega
  · intro a ha b hb hab
    rw [List.mem_singleton] at hb
    subst hb
    rw [List.mem_append] at ha
    rcases ha with ha | ha
    · have h1 := hs a ha
      rw [hab] at h1
      cases h1
    · have h1 := hc a ha
      rw [hab] at h1
      cases h1

end MRS.Fit
