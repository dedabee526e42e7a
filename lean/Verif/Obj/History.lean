import Verif.Obj.Isotope
import Mathlib.Data.Rat.Defs
import Mathlib.Algebra.Order.Ring.Rat
import Mathlib.Tactic.NormNum
import Mathlib.Data.List.Forall2

/-!
# Histories of construction and assignment — properties C54 and C55

Model of the validation in src/mrsimulator/spin_system: which constructions and which assignments
are accepted, and the state they leave. An object given to another is copied by pydantic; the
model copies it entirely (pydantic shares the nested tensors, which allows fewer distinct states).
Only the attributes with constraints are kept.
-/

namespace MRS.Obj

/-- A tensor: its asymmetry (tensors.py lines 86-92). -/
structure Ten where
  eta : Option ℚ

/-- A site (site.py lines 154-161). -/
structure SiteO where
  iso : List Char
  shielding : Option Ten
  quad : Option Ten

/-- A coupling (coupling.py lines 149-156). -/
structure CoupO where
  idx : List ℤ
  j : Option Ten
  dipolar : Option Ten

/-- A spin system (spin_system/__init__.py lines 149-155). -/
structure SysO where
  sites : List SiteO
  couplings : Option (List CoupO)
  abundance : ℚ

/-- All objects made so far. -/
structure World where
  tensors : List Ten
  sites : List SiteO
  couplings : List CoupO
  systems : List SysO

/-- Assignments to (attributes of) a site (site.py lines 154-198). -/
inductive SiteEdit where
  | iso (v : List Char)
  | shielding (t : Option Ten)
  | quad (t : Option Ten)
  | shieldingEta (v : Option ℚ)
  | quadEta (v : Option ℚ)

/-- Assignments to (attributes of) a coupling. `item k v` is `coupling.site_index[k] = v` (coupling.py lines 150-193). -/
inductive CoupEdit where
  | idx (v : List ℤ)
  | item (k : ℕ) (v : ℤ)
  | j (t : Option Ten)
  | dipolar (t : Option Ten)
  | jEta (v : Option ℚ)
  | dipolarEta (v : Option ℚ)

/-- What a program can do. Objects are referred to by their position in the world. -/
inductive Act where
  | newTensor (eta : Option ℚ)
  | tensorEta (i : ℕ) (v : Option ℚ)
  | newSite (iso : List Char) (shielding quad : Option ℕ)
  | editSite (i : ℕ) (e : SiteEdit)
  | newCoupling (idx : List ℤ) (j dipolar : Option ℕ)
  | editCoupling (i : ℕ) (e : CoupEdit)
  | newSystem (sites : List ℕ) (couplings : Option (List ℕ)) (abundance : ℚ)
  | abundance (i : ℕ) (v : ℚ)
  | sysSites (i : ℕ) (sites : List ℕ)
  | sysCouplings (i : ℕ) (couplings : List ℕ)
  | editSysSite (i k : ℕ) (e : SiteEdit)
  | editSysCoupling (i k : ℕ) (e : CoupEdit)

/-- The asymmetry is accepted by a constructor: `Field(default=None, ge=0.0, le=1.0)`
(tensors.py line 89). -/
def etaOk (v : Option ℚ) : Bool :=
  match v with
  | none => true
  | some e => decide (0 ≤ e ∧ e ≤ 1)

/-- The validator of `quadrupolar` (site.py lines 167-184) for an isotope that has been
validated. -/
def quadOk (iso : List Char) (t : Option Ten) : Bool :=
  match t with
  | none => true
  | some _ =>
    match twiceSpin iso with
    | none => false
    | some s => decide (2 ≤ s)

/-- The validator of `site_index` (coupling.py lines 184-190). -/
def idxOk (v : List ℤ) : Bool :=
  match v with
  | [a, b] => decide (a ≠ b)
  | _ => false

/-- Assignment to a site (`validate_assignment`, site.py lines 167-201): only the validator of the
assigned attribute runs. Tensors have no `validate_assignment`. The shielding validator fails on
None. -/
def editSite (K : Classes) (s : SiteO) : SiteEdit → Py SiteO
  | .iso v =>
    match formatIsotope K v with
    | .error e => .error e
    | .ok r => .ok { s with iso := r }
  | .shielding none => .error .attributeError
  | .shielding (some t) => .ok { s with shielding := some t }
  | .quad t => if quadOk s.iso t then .ok { s with quad := t } else .error .valueError
  | .shieldingEta v =>
    match s.shielding with
    | none => .error .attributeError
    | some _ => .ok { s with shielding := some ⟨v⟩ }
  | .quadEta v =>
    match s.quad with
    | none => .error .attributeError
    | some _ => .ok { s with quad := some ⟨v⟩ }

/-- Assignment to a coupling (coupling.py lines 162-193). -/
def editCoupling (c : CoupO) : CoupEdit → Py CoupO
  | .idx v => if idxOk v then .ok { c with idx := v } else .error .valueError
  | .item k v => if k < c.idx.length then .ok { c with idx := c.idx.set k v } else .error .indexError
  | .j t => .ok { c with j := t }
  | .dipolar t => .ok { c with dipolar := t }
  | .jEta v =>
    match c.j with
    | none => .error .attributeError
    | some _ => .ok { c with j := some ⟨v⟩ }
  | .dipolarEta v =>
    match c.dipolar with
    | none => .error .attributeError
    | some _ => .ok { c with dipolar := some ⟨v⟩ }

/-- The object at a reference, if a reference is given. -/
def optRef {α} (l : List α) : Option ℕ → Py (Option α)
  | none => .ok none
  | some i =>
    match l[i]? with
    | none => .error .indexError
    | some x => .ok (some x)

/-- The objects at several references. -/
def refs {α} (l : List α) : List ℕ → Py (List α)
  | [] => .ok []
  | i :: r =>
    match l[i]?, refs l r with
    | some x, .ok xs => .ok (x :: xs)
    | _, _ => .error .indexError

/-- Change the entry of a list by a function that may fail. -/
def editAt {α} (l : List α) (i : ℕ) (f : α → Py α) : Py (List α) :=
  match l[i]? with
  | none => .error .indexError
  | some x =>
    match f x with
    | .error e => .error e
    | .ok y => .ok (l.set i y)

/-- Construction of a site (site.py lines 167-198). -/
def newSite (K : Classes) (w : World) (iso : List Char) (sh qu : Option ℕ) : Py SiteO :=
  match formatIsotope K iso, optRef w.tensors sh, optRef w.tensors qu with
  | .error e, _, _ => .error e
  | _, .error e, _ => .error e
  | _, _, .error e => .error e
  | .ok r, .ok s, .ok q => if quadOk r q then .ok ⟨r, s, q⟩ else .error .valueError

/-- Construction of a coupling (coupling.py lines 163-193). -/
def newCoupling (w : World) (idx : List ℤ) (j d : Option ℕ) : Py CoupO :=
  match optRef w.tensors j, optRef w.tensors d with
  | .error e, _ => .error e
  | _, .error e => .error e
  | .ok a, .ok b => if idxOk idx then .ok ⟨idx, a, b⟩ else .error .valueError

/-- The abundance is accepted: `Field(default=100.0, ge=0.0, le=100.0)` (line 154). -/
def abundanceOk (v : ℚ) : Bool := decide (0 ≤ v ∧ v ≤ 100)

/-- The couplings given to a spin system. -/
def optRefs {α} (l : List α) : Option (List ℕ) → Py (Option (List α))
  | none => .ok none
  | some r =>
    match refs l r with
    | .error e => .error e
    | .ok xs => .ok (some xs)

/-- Construction of a spin system. The sites and the couplings are not compared (spin_system/__init__.py lines 152-186). -/
def newSystem (w : World) (sites : List ℕ) (cs : Option (List ℕ)) (ab : ℚ) : Py SysO :=
  match refs w.sites sites, optRefs w.couplings cs with
  | .error e, _ => .error e
  | _, .error e => .error e
  | .ok s, .ok c => if abundanceOk ab then .ok ⟨s, c, ab⟩ else .error .valueError

/-- Assignment of the abundance of a spin system (spin_system/__init__.py lines 152-186). -/
def setAbundance (v : ℚ) (y : SysO) : Py SysO :=
  if abundanceOk v then .ok { y with abundance := v } else .error .valueError

/-- Assignment of the sites (spin_system/__init__.py lines 152-186). -/
def setSites (w : World) (r : List ℕ) (y : SysO) : Py SysO :=
  match refs w.sites r with
  | .error e => .error e
  | .ok s => .ok { y with sites := s }

/-- Assignment of the couplings (spin_system/__init__.py lines 152-186). -/
def setCouplings (w : World) (r : List ℕ) (y : SysO) : Py SysO :=
  match refs w.couplings r with
  | .error e => .error e
  | .ok s => .ok { y with couplings := some s }

/-- Assignment to an attribute of a site of a spin system (site.py lines 154-198). -/
def setSysSite (K : Classes) (k : ℕ) (e : SiteEdit) (y : SysO) : Py SysO :=
  match editAt y.sites k fun s => editSite K s e with
  | .error e => .error e
  | .ok s => .ok { y with sites := s }

/-- Assignment to an attribute of a coupling of a spin system (coupling.py lines 150-193). -/
def setSysCoupling (k : ℕ) (e : CoupEdit) (y : SysO) : Py SysO :=
  match y.couplings with
  | none => .error .typeError
  | some cs =>
    match editAt cs k fun c => editCoupling c e with
    | .error e => .error e
    | .ok s => .ok { y with couplings := some s }

/-- A new tensor (tensors.py lines 86-92). -/
def newTensor (eta : Option ℚ) : Py Ten := if etaOk eta then .ok ⟨eta⟩ else .error .valueError

/-- Put a result into the world, or leave the world as it is. -/
def commit {α} (w : World) (r : Py α) (f : α → World) : World :=
  match r with
  | .error _ => w
  | .ok x => f x

/-- One action. A rejected one changes nothing. -/
def act (K : Classes) (w : World) : Act → World
  | .newTensor eta => commit w (newTensor eta) fun t => { w with tensors := w.tensors ++ [t] }
  | .tensorEta i v => commit w (editAt w.tensors i fun _ => .ok ⟨v⟩) fun l => { w with tensors := l }
  | .newSite iso a b => commit w (newSite K w iso a b) fun s => { w with sites := w.sites ++ [s] }
  | .editSite i e => commit w (editAt w.sites i fun s => editSite K s e) fun l => { w with sites := l }
  | .newCoupling idx a b =>
    commit w (newCoupling w idx a b) fun c => { w with couplings := w.couplings ++ [c] }
  | .editCoupling i e =>
    commit w (editAt w.couplings i fun c => editCoupling c e) fun l => { w with couplings := l }
  | .newSystem a b c => commit w (newSystem w a b c) fun y => { w with systems := w.systems ++ [y] }
  | .abundance i v => commit w (editAt w.systems i (setAbundance v)) fun l => { w with systems := l }
  | .sysSites i r => commit w (editAt w.systems i (setSites w r)) fun l => { w with systems := l }
  | .sysCouplings i r =>
    commit w (editAt w.systems i (setCouplings w r)) fun l => { w with systems := l }
  | .editSysSite i k e =>
    commit w (editAt w.systems i (setSysSite K k e)) fun l => { w with systems := l }
  | .editSysCoupling i k e =>
    commit w (editAt w.systems i (setSysCoupling k e)) fun l => { w with systems := l }

/-- A history. -/
def run (K : Classes) (w : World) (acts : List Act) : World := acts.foldl (act K) w

/-- The beginning. -/
def World.empty : World := ⟨[], [], [], []⟩

/-! ## Specification -/

/-- The asymmetry, if there is one, is between 0 and 1. -/
def Spec.EtaIn (t : Ten) : Prop := ∀ e, t.eta = some e → 0 ≤ e ∧ e ≤ 1

/-- A sound site: tensors in range, a quadrupolar tensor only for spin one or more. -/
def Spec.SiteIn (s : SiteO) : Prop :=
  (∀ t, s.shielding = some t → Spec.EtaIn t) ∧
  (∀ t, s.quad = some t → Spec.EtaIn t ∧ ∃ n, twiceSpin s.iso = some n ∧ 2 ≤ n)

/-- A sound coupling: two distinct site indices, tensors in range. -/
def Spec.CoupIn (c : CoupO) : Prop :=
  (∃ a b, c.idx = [a, b] ∧ a ≠ b) ∧
  (∀ t, c.j = some t → Spec.EtaIn t) ∧ (∀ t, c.dipolar = some t → Spec.EtaIn t)

/-- A sound spin system. -/
def Spec.SysIn (y : SysO) : Prop :=
  (0 ≤ y.abundance ∧ y.abundance ≤ 100) ∧ (∀ s ∈ y.sites, Spec.SiteIn s) ∧
  (∀ cs, y.couplings = some cs → ∀ c ∈ cs, Spec.CoupIn c)

/-- Everything is sound. -/
def Spec.WorldIn (w : World) : Prop :=
  (∀ t ∈ w.tensors, Spec.EtaIn t) ∧ (∀ s ∈ w.sites, Spec.SiteIn s) ∧
  (∀ c ∈ w.couplings, Spec.CoupIn c) ∧ ∀ y ∈ w.systems, Spec.SysIn y

/-- The assignments to a site that are harmless: asymmetries in range, and an isotope of spin
one or more if the site has a quadrupolar tensor. -/
def Spec.SiteCareful (K : Classes) (s : SiteO) : SiteEdit → Prop
  | .iso v => s.quad = none ∨ ∃ r n, formatIsotope K v = .ok r ∧ twiceSpin r = some n ∧ 2 ≤ n
  | .shielding (some t) => Spec.EtaIn t
  | .shielding none => True
  | .quad (some t) => Spec.EtaIn t
  | .quad none => True
  | .shieldingEta v => Spec.EtaIn ⟨v⟩
  | .quadEta v => Spec.EtaIn ⟨v⟩

/-- The assignments to a coupling that are harmless: asymmetries in range, no item assignment
into the list of site indices. -/
def Spec.CoupCareful : CoupEdit → Prop
  | .idx _ => True
  | .item _ _ => False
  | .j t => ∀ x, t = some x → Spec.EtaIn x
  | .dipolar t => ∀ x, t = some x → Spec.EtaIn x
  | .jEta v => Spec.EtaIn ⟨v⟩
  | .dipolarEta v => Spec.EtaIn ⟨v⟩

/-- The actions that are harmless in a world. -/
def Spec.Careful (K : Classes) (w : World) : Act → Prop
  | .tensorEta _ v => Spec.EtaIn ⟨v⟩
  | .editSite i e => ∀ s, w.sites[i]? = some s → Spec.SiteCareful K s e
  | .editCoupling _ e => Spec.CoupCareful e
  | .editSysSite i k e => ∀ y s, w.systems[i]? = some y → y.sites[k]? = some s →
      Spec.SiteCareful K s e
  | .editSysCoupling _ _ e => Spec.CoupCareful e
  | _ => True

/-- A history of harmless actions. -/
def Spec.CarefulRun (K : Classes) : World → List Act → Prop
  | _, [] => True
  | w, a :: l => Spec.Careful K w a ∧ Spec.CarefulRun K (act K w a) l

/-! ## Lemmas -/

theorem editAt_mem {α} (l l' : List α) (i : ℕ) (f : α → Py α) (h : editAt l i f = .ok l') :
    ∃ x y, l[i]? = some x ∧ f x = .ok y ∧ ∀ z ∈ l', z = y ∨ z ∈ l := by
  unfold editAt at h
  match hx : l[i]? with
  | none => rw [hx] at h; simp at h
  | some x =>
    rw [hx] at h
    simp only at h
    match hf : f x with
    | .error e => rw [hf] at h; simp at h
    | .ok y =>
      rw [hf] at h
      simp only [Except.ok.injEq] at h
      subst h
      exact ⟨x, y, rfl, hf, fun z hz => (List.mem_or_eq_of_mem_set hz).symm⟩

theorem refs_mem {α} (l : List α) (r : List ℕ) (xs : List α) (h : refs l r = .ok xs) :
    ∀ x ∈ xs, x ∈ l := by
  induction r generalizing xs with
  | nil =>
    simp only [refs, Except.ok.injEq] at h
    subst h
    simp
  | cons i r ih =>
    unfold refs at h
    match hi : l[i]?, hr : refs l r with
    | none, _ => rw [hi] at h; simp at h
    | some x, .error e => rw [hi, hr] at h; simp at h
    | some x, .ok ys =>
      rw [hi, hr] at h
      simp only [Except.ok.injEq] at h
      subst h
      intro z hz
      rcases List.mem_cons.mp hz with rfl | hz
      · exact List.mem_of_getElem? hi
      · exact ih ys hr z hz

theorem optRef_mem {α} (l : List α) (r : Option ℕ) (o : Option α) (h : optRef l r = .ok o) :
    ∀ x, o = some x → x ∈ l := by
  intro x hx
  subst hx
  cases r with
  | none => simp [optRef] at h
  | some i =>
    simp only [optRef] at h
    match hi : l[i]? with
    | none => rw [hi] at h; simp at h
    | some y =>
      rw [hi] at h
      simp only [Except.ok.injEq, Option.some.injEq] at h
      subst h
      exact List.mem_of_getElem? hi

theorem commit_cases {α} (w : World) (r : Py α) (f : α → World) :
    commit w r f = w ∨ ∃ x, r = .ok x ∧ commit w r f = f x := by
  cases r with
  | error e => exact Or.inl rfl
  | ok x => exact Or.inr ⟨x, rfl, rfl⟩

theorem etaOk_spec (v : Option ℚ) (h : etaOk v = true) : Spec.EtaIn ⟨v⟩ := by
  intro e he
  simp only at he
  subst he
  simpa [etaOk] using h

theorem quadOk_spec (iso : List Char) (t : Ten) (h : quadOk iso (some t) = true) :
    ∃ n, twiceSpin iso = some n ∧ 2 ≤ n := by
  unfold quadOk at h
  match hs : twiceSpin iso with
  | none => rw [hs] at h; simp at h
  | some n =>
    rw [hs] at h
    exact ⟨n, rfl, by simpa using h⟩

theorem idxOk_spec (v : List ℤ) (h : idxOk v = true) : ∃ a b, v = [a, b] ∧ a ≠ b := by
  match v with
  | [] => simp [idxOk] at h
  | [_] => simp [idxOk] at h
  | [a, b] => exact ⟨a, b, rfl, by simpa [idxOk] using h⟩
  | _ :: _ :: _ :: _ => simp [idxOk] at h

theorem editSite_sound (K : Classes) (s s' : SiteO) (e : SiteEdit) (hs : Spec.SiteIn s)
    (hc : Spec.SiteCareful K s e) (h : editSite K s e = .ok s') : Spec.SiteIn s' := by
  cases e with
  | iso v =>
    simp only [editSite] at h
    match hf : formatIsotope K v with
    | .error e => rw [hf] at h; simp at h
    | .ok r =>
      rw [hf] at h
      simp only [Except.ok.injEq] at h
      subst h
      refine ⟨hs.1, ?_⟩
      intro t ht
      refine ⟨(hs.2 t ht).1, ?_⟩
      rcases hc with hc | ⟨r', n, h1, h2, h3⟩
      · simp only at ht; rw [hc] at ht; simp at ht
      · rw [hf] at h1
        cases h1
        exact ⟨n, h2, h3⟩
  | shielding t =>
    cases t with
    | none => simp [editSite] at h
    | some t =>
      simp only [editSite, Except.ok.injEq] at h
      subst h
      refine ⟨?_, hs.2⟩
      intro t' ht'
      simp only [Option.some.injEq] at ht'
      subst ht'
      exact hc
  | quad t =>
    simp only [editSite] at h
    split_ifs at h with hq
    simp only [Except.ok.injEq] at h
    subst h
    refine ⟨hs.1, ?_⟩
    intro t' ht'
    simp only at ht'
    subst ht'
    exact ⟨hc, quadOk_spec _ _ hq⟩
  | shieldingEta v =>
    simp only [editSite] at h
    match hq : s.shielding with
    | none => rw [hq] at h; simp at h
    | some t =>
      rw [hq] at h
      simp only [Except.ok.injEq] at h
      subst h
      refine ⟨?_, hs.2⟩
      intro t' ht'
      simp only [Option.some.injEq] at ht'
      subst ht'
      exact hc
  | quadEta v =>
    simp only [editSite] at h
    match hq : s.quad with
    | none => rw [hq] at h; simp at h
    | some t =>
      rw [hq] at h
      simp only [Except.ok.injEq] at h
      subst h
      refine ⟨hs.1, ?_⟩
      intro t' ht'
      simp only [Option.some.injEq] at ht'
      subst ht'
      exact ⟨hc, (hs.2 t hq).2⟩

theorem editCoupling_sound (c c' : CoupO) (e : CoupEdit) (hs : Spec.CoupIn c)
    (hc : Spec.CoupCareful e) (h : editCoupling c e = .ok c') : Spec.CoupIn c' := by
  cases e with
  | idx v =>
    simp only [editCoupling] at h
    split_ifs at h with hv
    simp only [Except.ok.injEq] at h
    subst h
    exact ⟨idxOk_spec v hv, hs.2⟩
  | item k v => exact absurd hc (by simp [Spec.CoupCareful])
  | j t =>
    simp only [editCoupling, Except.ok.injEq] at h
    subst h
    exact ⟨hs.1, hc, hs.2.2⟩
  | dipolar t =>
    simp only [editCoupling, Except.ok.injEq] at h
    subst h
    exact ⟨hs.1, hs.2.1, hc⟩
  | jEta v =>
    simp only [editCoupling] at h
    match hq : c.j with
    | none => rw [hq] at h; simp at h
    | some t =>
      rw [hq] at h
      simp only [Except.ok.injEq] at h
      subst h
      refine ⟨hs.1, ?_, hs.2.2⟩
      intro t' ht'
      simp only [Option.some.injEq] at ht'
      subst ht'
      exact hc
  | dipolarEta v =>
    simp only [editCoupling] at h
    match hq : c.dipolar with
    | none => rw [hq] at h; simp at h
    | some t =>
      rw [hq] at h
      simp only [Except.ok.injEq] at h
      subst h
      refine ⟨hs.1, hs.2.1, ?_⟩
      intro t' ht'
      simp only [Option.some.injEq] at ht'
      subst ht'
      exact hc

theorem newSite_sound (K : Classes) (w : World) (hw : Spec.WorldIn w) (iso : List Char)
    (a b : Option ℕ) (s : SiteO) (h : newSite K w iso a b = .ok s) : Spec.SiteIn s := by
  unfold newSite at h
  match hf : formatIsotope K iso, ha : optRef w.tensors a, hb : optRef w.tensors b with
  | .error e, _, _ => rw [hf] at h; simp at h
  | .ok r, .error e, _ => rw [hf, ha] at h; simp at h
  | .ok r, .ok x, .error e => rw [hf, ha, hb] at h; simp at h
  | .ok r, .ok x, .ok q =>
    rw [hf, ha, hb] at h
    simp only at h
    split_ifs at h with hq
    simp only [Except.ok.injEq] at h
    subst h
    refine ⟨fun t ht => hw.1 t (optRef_mem _ _ _ ha t ht), ?_⟩
    intro t ht
    refine ⟨hw.1 t (optRef_mem _ _ _ hb t ht), ?_⟩
    simp only at ht
    subst ht
    exact quadOk_spec _ _ hq

theorem newCoupling_sound (w : World) (hw : Spec.WorldIn w) (idx : List ℤ) (a b : Option ℕ)
    (c : CoupO) (h : newCoupling w idx a b = .ok c) : Spec.CoupIn c := by
  unfold newCoupling at h
  match ha : optRef w.tensors a, hb : optRef w.tensors b with
  | .error e, _ => rw [ha] at h; simp at h
  | .ok x, .error e => rw [ha, hb] at h; simp at h
  | .ok x, .ok q =>
    rw [ha, hb] at h
    simp only at h
    split_ifs at h with hq
    simp only [Except.ok.injEq] at h
    subst h
    exact ⟨idxOk_spec _ hq, fun t ht => hw.1 t (optRef_mem _ _ _ ha t ht),
      fun t ht => hw.1 t (optRef_mem _ _ _ hb t ht)⟩

theorem abundanceOk_spec (v : ℚ) (h : abundanceOk v = true) : 0 ≤ v ∧ v ≤ 100 := by
  simpa [abundanceOk] using h

theorem newSystem_sound (w : World) (hw : Spec.WorldIn w) (sites : List ℕ) (cs : Option (List ℕ))
    (ab : ℚ) (y : SysO) (h : newSystem w sites cs ab = .ok y) : Spec.SysIn y := by
  unfold newSystem at h
  match ha : refs w.sites sites, hb : optRefs w.couplings cs with
  | .error e, _ => rw [ha] at h; simp at h
  | .ok x, .error e => rw [ha, hb] at h; simp at h
  | .ok x, .ok q =>
    rw [ha, hb] at h
    simp only at h
    split_ifs at h with hq
    simp only [Except.ok.injEq] at h
    subst h
    refine ⟨abundanceOk_spec _ hq, fun s hs => hw.2.1 s (refs_mem _ _ _ ha s hs), ?_⟩
    intro l hl c hc
    simp only at hl
    subst hl
    cases cs with
    | none => simp [optRefs] at hb
    | some r =>
      simp only [optRefs] at hb
      match hr : refs w.couplings r with
      | .error e => rw [hr] at hb; simp at hb
      | .ok ys =>
        rw [hr] at hb
        simp only [Except.ok.injEq, Option.some.injEq] at hb
        subst hb
        exact hw.2.2.1 c (refs_mem _ _ _ hr c hc)

theorem edited {α} {P : α → Prop} {l l' : List α} {i : ℕ} {f : α → Py α} (hl : ∀ x ∈ l, P x)
    (h : editAt l i f = .ok l') (hf : ∀ x y, l[i]? = some x → P x → f x = .ok y → P y) :
    ∀ x ∈ l', P x := by
  obtain ⟨x, y, h1, h2, h3⟩ := editAt_mem l l' i f h
  intro z hz
  rcases h3 z hz with rfl | hz
  · exact hf x z h1 (hl x (List.mem_of_getElem? h1)) h2
  · exact hl z hz

theorem act_sound (K : Classes) (w : World) (hw : Spec.WorldIn w) (a : Act)
    (hc : Spec.Careful K w a) : Spec.WorldIn (act K w a) := by
  obtain ⟨w1, w2, w3, w4⟩ := hw
  have hw : Spec.WorldIn w := ⟨w1, w2, w3, w4⟩
  cases a with
  | newTensor eta =>
    rcases commit_cases w (newTensor eta) (fun t => { w with tensors := w.tensors ++ [t] })
      with h | ⟨t, ht, h⟩
    · simp only [act]; rw [h]; exact hw
    · simp only [act]; rw [h]
      refine ⟨?_, w2, w3, w4⟩
      intro x hx
      rcases List.mem_append.mp hx with hx | hx
      · exact w1 x hx
      · rw [List.mem_singleton] at hx
        subst hx
        unfold newTensor at ht
        split_ifs at ht with he
        simp only [Except.ok.injEq] at ht
        subst ht
        exact etaOk_spec _ he
  | tensorEta i v =>
    rcases commit_cases w (editAt w.tensors i fun _ => .ok ⟨v⟩) (fun l => { w with tensors := l })
      with h | ⟨t, ht, h⟩
    · simp only [act]; rw [h]; exact hw
    · simp only [act]; rw [h]
      refine ⟨edited w1 ht ?_, w2, w3, w4⟩
      intro x y _ _ hy
      simp only [Except.ok.injEq] at hy
      subst hy
      exact hc
  | newSite iso a b =>
    rcases commit_cases w (newSite K w iso a b) (fun s => { w with sites := w.sites ++ [s] })
      with h | ⟨t, ht, h⟩
    · simp only [act]; rw [h]; exact hw
    · simp only [act]; rw [h]
      refine ⟨w1, ?_, w3, w4⟩
      intro x hx
      rcases List.mem_append.mp hx with hx | hx
      · exact w2 x hx
      · rw [List.mem_singleton] at hx
        subst hx
        exact newSite_sound K w hw iso a b x ht
  | editSite i e =>
    rcases commit_cases w (editAt w.sites i fun s => editSite K s e) (fun l => { w with sites := l })
      with h | ⟨t, ht, h⟩
    · simp only [act]; rw [h]; exact hw
    · simp only [act]; rw [h]
      refine ⟨w1, edited w2 ht ?_, w3, w4⟩
      intro x y hx hP hy
      exact editSite_sound K x y e hP (hc x hx) hy
  | newCoupling idx a b =>
    rcases commit_cases w (newCoupling w idx a b)
      (fun s => { w with couplings := w.couplings ++ [s] }) with h | ⟨t, ht, h⟩
    · simp only [act]; rw [h]; exact hw
    · simp only [act]; rw [h]
      refine ⟨w1, w2, ?_, w4⟩
      intro x hx
      rcases List.mem_append.mp hx with hx | hx
      · exact w3 x hx
      · rw [List.mem_singleton] at hx
        subst hx
        exact newCoupling_sound w hw idx a b x ht
  | editCoupling i e =>
    rcases commit_cases w (editAt w.couplings i fun c => editCoupling c e)
      (fun l => { w with couplings := l }) with h | ⟨t, ht, h⟩
    · simp only [act]; rw [h]; exact hw
    · simp only [act]; rw [h]
      refine ⟨w1, w2, edited w3 ht ?_, w4⟩
      intro x y _ hP hy
      exact editCoupling_sound x y e hP hc hy
  | newSystem a b c =>
    rcases commit_cases w (newSystem w a b c) (fun y => { w with systems := w.systems ++ [y] })
      with h | ⟨t, ht, h⟩
    · simp only [act]; rw [h]; exact hw
    · simp only [act]; rw [h]
      refine ⟨w1, w2, w3, ?_⟩
      intro x hx
      rcases List.mem_append.mp hx with hx | hx
      · exact w4 x hx
      · rw [List.mem_singleton] at hx
        subst hx
        exact newSystem_sound w hw a b c x ht
  | abundance i v =>
    rcases commit_cases w (editAt w.systems i (setAbundance v)) (fun l => { w with systems := l })
      with h | ⟨t, ht, h⟩
    · simp only [act]; rw [h]; exact hw
    · simp only [act]; rw [h]
      refine ⟨w1, w2, w3, edited w4 ht ?_⟩
      intro x y _ hP hy
      unfold setAbundance at hy
      split_ifs at hy with hv
      simp only [Except.ok.injEq] at hy
      subst hy
      exact ⟨abundanceOk_spec _ hv, hP.2⟩
  | sysSites i r =>
    rcases commit_cases w (editAt w.systems i (setSites w r)) (fun l => { w with systems := l })
      with h | ⟨t, ht, h⟩
    · simp only [act]; rw [h]; exact hw
    · simp only [act]; rw [h]
      refine ⟨w1, w2, w3, edited w4 ht ?_⟩
      intro x y _ hP hy
      unfold setSites at hy
      match hr : refs w.sites r with
      | .error e => rw [hr] at hy; simp at hy
      | .ok s =>
        rw [hr] at hy
        simp only [Except.ok.injEq] at hy
        subst hy
        exact ⟨hP.1, fun z hz => w2 z (refs_mem _ _ _ hr z hz), hP.2.2⟩
  | sysCouplings i r =>
    rcases commit_cases w (editAt w.systems i (setCouplings w r)) (fun l => { w with systems := l })
      with h | ⟨t, ht, h⟩
    · simp only [act]; rw [h]; exact hw
    · simp only [act]; rw [h]
      refine ⟨w1, w2, w3, edited w4 ht ?_⟩
      intro x y _ hP hy
      unfold setCouplings at hy
      match hr : refs w.couplings r with
      | .error e => rw [hr] at hy; simp at hy
      | .ok s =>
        rw [hr] at hy
        simp only [Except.ok.injEq] at hy
        subst hy
        refine ⟨hP.1, hP.2.1, ?_⟩
        intro cs hcs c hcm
        simp only [Option.some.injEq] at hcs
        subst hcs
        exact w3 c (refs_mem _ _ _ hr c hcm)
  | editSysSite i k e =>
    rcases commit_cases w (editAt w.systems i (setSysSite K k e)) (fun l => { w with systems := l })
      with h | ⟨t, ht, h⟩
    · simp only [act]; rw [h]; exact hw
    · simp only [act]; rw [h]
      refine ⟨w1, w2, w3, edited w4 ht ?_⟩
      intro x y hx hP hy
      unfold setSysSite at hy
      match hr : editAt x.sites k fun s => editSite K s e with
      | .error e => rw [hr] at hy; simp at hy
      | .ok s =>
        rw [hr] at hy
        simp only [Except.ok.injEq] at hy
        subst hy
        refine ⟨hP.1, edited hP.2.1 hr ?_, hP.2.2⟩
        intro a b ha hPa hb
        exact editSite_sound K a b e hPa (hc x a hx ha) hb
  | editSysCoupling i k e =>
    rcases commit_cases w (editAt w.systems i (setSysCoupling k e)) (fun l => { w with systems := l })
      with h | ⟨t, ht, h⟩
    · simp only [act]; rw [h]; exact hw
    · simp only [act]; rw [h]
      refine ⟨w1, w2, w3, edited w4 ht ?_⟩
      intro x y hx hP hy
      unfold setSysCoupling at hy
      match hq : x.couplings with
      | none => rw [hq] at hy; simp at hy
      | some cs =>
        rw [hq] at hy
        simp only at hy
        match hr : editAt cs k fun s => editCoupling s e with
        | .error e => rw [hr] at hy; simp at hy
        | .ok s =>
          rw [hr] at hy
          simp only [Except.ok.injEq] at hy
          subst hy
          refine ⟨hP.1, hP.2.1, ?_⟩
          intro cs' hcs c hcm
          simp only [Option.some.injEq] at hcs
          subst hcs
          exact edited (hP.2.2 cs hq) hr
            (fun a b _ hPa hb => editCoupling_sound a b e hPa hc hb) c hcm

/-! ## C54 -/

/-- **C54, partial.** After any history in which no asymmetry out of range is assigned to an
existing tensor, no isotope of spin one half is assigned to a site with a quadrupolar tensor and no
item of a list of site indices is assigned, everything satisfies its constraints. Actions that are
rejected, at any point of the history, do no harm.

Missing for the full property: the three kinds of assignment that are not checked
(`C54_counterexample`). -/
theorem C54_invariants_partial (K : Classes) (acts : List Act)
    (hc : Spec.CarefulRun K World.empty acts) : Spec.WorldIn (run K World.empty acts) := by
  have key : ∀ (acts : List Act) (w : World), Spec.WorldIn w → Spec.CarefulRun K w acts →
      Spec.WorldIn (run K w acts) := by
    intro acts
    induction acts with
    | nil => intro w hw _; exact hw
    | cons a l ih => intro w hw h; exact ih _ (act_sound K w hw a h.1) h.2
  apply key acts _ _ hc
  refine ⟨?_, ?_, ?_, ?_⟩ <;> intro x hx <;> simp [World.empty] at hx

/-- **C54, abundances.** After any history whatever every abundance is between 0 and 100. -/
theorem C54_abundance (K : Classes) (acts : List Act) :
    ∀ y ∈ (run K World.empty acts).systems, 0 ≤ y.abundance ∧ y.abundance ≤ 100 := by
  have step : ∀ (w : World) (a : Act),
      (∀ y ∈ w.systems, 0 ≤ y.abundance ∧ y.abundance ≤ 100) →
      ∀ y ∈ (act K w a).systems, 0 ≤ y.abundance ∧ y.abundance ≤ 100 := by
    intro w a hw
    have edit : ∀ (i : ℕ) (f : SysO → Py SysO),
        (∀ x y, 0 ≤ x.abundance ∧ x.abundance ≤ 100 → f x = .ok y →
          0 ≤ y.abundance ∧ y.abundance ≤ 100) →
        ∀ y ∈ (commit w (editAt w.systems i f) fun l => { w with systems := l }).systems,
          0 ≤ y.abundance ∧ y.abundance ≤ 100 := by
      intro i f hf
      rcases commit_cases w (editAt w.systems i f) (fun l => { w with systems := l })
        with h | ⟨t, ht, h⟩
      · rw [h]; exact hw
      · rw [h]
        exact edited hw ht (fun x y _ hP hy => hf x y hP hy)
    have same : ∀ {α} (r : Py α) (f : α → World), (∀ x, (f x).systems = w.systems) →
        ∀ y ∈ (commit w r f).systems, 0 ≤ y.abundance ∧ y.abundance ≤ 100 := by
      intro α r f hf
      rcases commit_cases w r f with h | ⟨t, _, h⟩
      · rw [h]; exact hw
      · rw [h, hf]; exact hw
    cases a with
    | newTensor eta => exact same _ _ (fun _ => rfl)
    | tensorEta i v => exact same _ _ (fun _ => rfl)
    | newSite iso a b => exact same _ _ (fun _ => rfl)
    | editSite i e => exact same _ _ (fun _ => rfl)
    | newCoupling idx a b => exact same _ _ (fun _ => rfl)
    | editCoupling i e => exact same _ _ (fun _ => rfl)
    | newSystem a b c =>
      rcases commit_cases w (newSystem w a b c) (fun y => { w with systems := w.systems ++ [y] })
        with h | ⟨t, ht, h⟩
      · simp only [act]; rw [h]; exact hw
      · simp only [act]; rw [h]
        intro x hx
        rcases List.mem_append.mp hx with hx | hx
        · exact hw x hx
        · rw [List.mem_singleton] at hx
          subst hx
          unfold newSystem at ht
          match ha : refs w.sites a, hb : optRefs w.couplings b with
          | .error e, _ => rw [ha] at ht; simp at ht
          | .ok x, .error e => rw [ha, hb] at ht; simp at ht
          | .ok s, .ok q =>
            rw [ha, hb] at ht
            simp only at ht
            split_ifs at ht with hq
            simp only [Except.ok.injEq] at ht
            subst ht
            exact abundanceOk_spec _ hq
    | abundance i v =>
      apply edit
      intro x y _ hy
      unfold setAbundance at hy
      split_ifs at hy with hv
      simp only [Except.ok.injEq] at hy
      subst hy
      exact abundanceOk_spec _ hv
    | sysSites i r =>
      apply edit
      intro x y hP hy
      unfold setSites at hy
      match hr : refs w.sites r with
      | .error e => rw [hr] at hy; simp at hy
      | .ok s =>
        rw [hr] at hy
        simp only [Except.ok.injEq] at hy
        subst hy
        exact hP
    | sysCouplings i r =>
      apply edit
      intro x y hP hy
      unfold setCouplings at hy
      match hr : refs w.couplings r with
      | .error e => rw [hr] at hy; simp at hy
      | .ok s =>
        rw [hr] at hy
        simp only [Except.ok.injEq] at hy
        subst hy
        exact hP
    | editSysSite i k e =>
      apply edit
      intro x y hP hy
      unfold setSysSite at hy
      match hr : editAt x.sites k fun s => editSite K s e with
      | .error e => rw [hr] at hy; simp at hy
      | .ok s =>
        rw [hr] at hy
        simp only [Except.ok.injEq] at hy
        subst hy
        exact hP
    | editSysCoupling i k e =>
      apply edit
      intro x y hP hy
      unfold setSysCoupling at hy
      match hq : x.couplings with
      | none => rw [hq] at hy; simp at hy
      | some cs =>
        rw [hq] at hy
        simp only at hy
        match hr : editAt cs k fun s => editCoupling s e with
        | .error e => rw [hr] at hy; simp at hy
        | .ok s =>
          rw [hr] at hy
          simp only [Except.ok.injEq] at hy
          subst hy
          exact hP
  have key : ∀ (acts : List Act) (w : World),
      (∀ y ∈ w.systems, 0 ≤ y.abundance ∧ y.abundance ≤ 100) →
      ∀ y ∈ (run K w acts).systems, 0 ≤ y.abundance ∧ y.abundance ≤ 100 := by
    intro acts
    induction acts with
    | nil => intro w hw; exact hw
    | cons a l ih => intro w hw; exact ih _ (step w a hw)
  apply key
  intro y hy
  simp [World.empty] at hy

/-- A history with every kind of object, and a rejected assignment. -/
example : (run ascii World.empty [.newTensor (some (1 / 2)), .newSite "27Al".toList none (some 0),
    .newSite "1H".toList none none, .newCoupling [0, 1] none none, .newSystem [0, 1] (some [0]) 60,
    .abundance 0 150, .editSysSite 0 0 (.iso "13C".toList)]).systems.map
      (fun y => (y.abundance, y.sites.map fun s => String.ofList s.iso)) =
    [(60, ["13C", "1H"])] := by decide +kernel

/-- Such a history is careful, up to the last action. -/
example : Spec.CarefulRun ascii World.empty [.newTensor (some (1 / 2)),
    .newSite "27Al".toList none (some 0), .newSite "1H".toList none none,
    .newCoupling [0, 1] none none, .newSystem [0, 1] (some [0]) 60, .abundance 0 150] :=
  ⟨trivial, trivial, trivial, trivial, trivial, trivial, trivial⟩

/-- **C54, disagreement.** An asymmetry of 5 can be assigned; a site with a quadrupolar tensor can
become 13C, spin one half; the two site indices can be made equal. -/
theorem C54_counterexample (K : Classes) :
    (∃ acts, ∃ t ∈ (run K World.empty acts).tensors, t.eta = some 5) ∧
    (∃ acts, ∃ s ∈ (run K World.empty acts).sites, s.iso = "13C".toList ∧ s.quad ≠ none ∧
      twiceSpin s.iso = some 1) ∧
    (∃ acts, ∃ c ∈ (run K World.empty acts).couplings, c.idx = [0, 0]) := by
  have fmt : ∀ s ∈ known, formatIsotope K s = .ok s := (C57_format K).2.1
  refine ⟨⟨[.newTensor none, .tensorEta 0 (some 5)], ⟨some 5⟩,
    by simp [run, act, commit, newTensor, etaOk, World.empty, editAt], rfl⟩, ?_,
    ⟨[.newCoupling [0, 1] none none, .editCoupling 0 (.item 1 0)], ⟨[0, 0], none, none⟩,
      by simp [run, act, commit, newCoupling, optRef, idxOk, World.empty, editAt, editCoupling],
      rfl⟩⟩
  refine ⟨[.newTensor none, .newSite "27Al".toList none (some 0),
    .editSite 0 (.iso "13C".toList)], ⟨"13C".toList, none, some ⟨none⟩⟩, ?_, rfl, by simp,
    by decide +kernel⟩
  have e1 : formatIsotope K "27Al".toList = .ok "27Al".toList := fmt _ (by decide +kernel)
  have e2 : formatIsotope K "13C".toList = .ok "13C".toList := fmt _ (by decide +kernel)
  have e3 : quadOk "27Al".toList (some ⟨none⟩) = true := by decide +kernel
  simp only [run, List.foldl_cons, List.foldl_nil, act, newTensor, etaOk, if_true, commit,
    World.empty, List.nil_append, newSite, optRef, List.getElem?_cons_zero, e1, e3, editAt,
    editSite, e2, List.set_cons_zero, List.mem_singleton]

/-! ## C55 -/

/-- Reading an element of a C array: undefined outside the array. -/
def cRead (a : List ℚ) (i : ℤ) : Py ℚ :=
  if i < 0 then .error .undefinedBehaviour
  else
    match a[i.toNat]? with
    | none => .error .undefinedBehaviour
    | some v => .ok v

/-- The quantum numbers read for one coupling (mrsimulator.c lines 540-548), in the order mIi, mSi,
mIf, mSf. `transition` has the initial, then the final quantum number of every site. -/
def readCoupling (transition : List ℚ) (n : ℕ) : List ℤ → Py (List ℚ)
  | [a, x] => do
    let mIi ← cRead transition a
    let mSi ← cRead transition x
    let mIf ← cRead transition (a + n)
    let mSf ← cRead transition (x + n)
    .ok [mIi, mSi, mIf, mSf]
  | _ => .error .undefinedBehaviour

theorem cRead_ok (a : List ℚ) (i : ℤ) :
    (∃ v, cRead a i = .ok v) ↔ 0 ≤ i ∧ i < a.length := by
  unfold cRead
  split_ifs with h
  · simp; omega
  · match hv : a[i.toNat]? with
    | none =>
      have := List.getElem?_eq_none_iff.mp hv
      simp; omega
    | some v =>
      have : i.toNat < a.length := by
        by_contra hcon
        rw [List.getElem?_eq_none (by omega)] at hv
        simp at hv
      simp; omega

theorem cRead_eq (a : List ℚ) (i : ℕ) (h : i < a.length) : cRead a i = .ok a[i] := by
  unfold cRead
  rw [if_neg (by omega)]
  simp [h]

/-- **C55, partial.** For a transition of `n` sites the reads for a coupling are defined exactly if
both indices are site indices, and then they are the initial and final quantum numbers of the two
sites.

Missing for the full property: that the indices are site indices (`C55_counterexample`). -/
theorem C55_reads_partial (initial final : List ℚ) (hl : initial.length = final.length) (a x : ℤ) :
    ((∃ v, readCoupling (initial ++ final) initial.length [a, x] = .ok v) ↔
      (0 ≤ a ∧ a < initial.length) ∧ 0 ≤ x ∧ x < initial.length) ∧
    ∀ (i j : ℕ) (hi : i < initial.length) (hj : j < initial.length), a = i → x = j →
      readCoupling (initial ++ final) initial.length [a, x] =
        .ok [initial[i], initial[j], final[i]'(hl ▸ hi), final[j]'(hl ▸ hj)] := by
  have hlen : (initial ++ final).length = initial.length + initial.length := by
    rw [List.length_append, hl]
  have second : ∀ (i j : ℕ) (hi : i < initial.length) (hj : j < initial.length), a = i → x = j →
      readCoupling (initial ++ final) initial.length [a, x] =
        .ok [initial[i], initial[j], final[i]'(hl ▸ hi), final[j]'(hl ▸ hj)] := by
    intro i j hi hj ha hx
    subst ha hx
    have e1 := cRead_eq (initial ++ final) i (by omega)
    have e2 := cRead_eq (initial ++ final) j (by omega)
    have e3 := cRead_eq (initial ++ final) (i + initial.length) (by omega)
    have e4 := cRead_eq (initial ++ final) (j + initial.length) (by omega)
    push_cast at e3 e4
    rw [List.getElem_append_left hi] at e1
    rw [List.getElem_append_left hj] at e2
    rw [List.getElem_append_right (by omega)] at e3 e4
    simp only [Nat.add_sub_cancel] at e3 e4
    simp only [readCoupling]
    rw [e1, e2, e3, e4]
    rfl
  refine ⟨⟨?_, ?_⟩, second⟩
  · rintro ⟨v, hv⟩
    simp only [readCoupling] at hv
    have ha := cRead_ok (initial ++ final) a
    have hx := cRead_ok (initial ++ final) x
    have ha2 := cRead_ok (initial ++ final) (a + initial.length)
    have hx2 := cRead_ok (initial ++ final) (x + initial.length)
    match h1 : cRead (initial ++ final) a, h2 : cRead (initial ++ final) x,
      h3 : cRead (initial ++ final) (a + initial.length),
      h4 : cRead (initial ++ final) (x + initial.length) with
    | .error e, _, _, _ => rw [h1] at hv; simp [bind, Except.bind] at hv
    | .ok _, .error e, _, _ => rw [h1, h2] at hv; simp [bind, Except.bind] at hv
    | .ok _, .ok _, .error e, _ => rw [h1, h2, h3] at hv; simp [bind, Except.bind] at hv
    | .ok _, .ok _, .ok _, .error e => rw [h1, h2, h3, h4] at hv; simp [bind, Except.bind] at hv
    | .ok v1, .ok v2, .ok v3, .ok v4 =>
      have b1 := ha.mp ⟨v1, h1⟩
      have b2 := hx.mp ⟨v2, h2⟩
      have b3 := ha2.mp ⟨v3, h3⟩
      have b4 := hx2.mp ⟨v4, h4⟩
      rw [hlen] at b3 b4
      push_cast at b3 b4
      omega
  · rintro ⟨⟨a1, a2⟩, x1, x2⟩
    exact ⟨_, second a.toNat x.toNat (by omega) (by omega) (by omega) (by omega)⟩

example : readCoupling ([1 / 2, 3 / 2] ++ [-1 / 2, 5 / 2]) 2 [1, 0] =
    .ok [3 / 2, 1 / 2, 5 / 2, -1 / 2] := by decide +kernel

/-- **C55, disagreement.** Whatever sites a spin system has, a coupling between any two different
numbers, for instance 1000 and -1, is accepted for it; the reads are then undefined. -/
theorem C55_counterexample (w : World) (sites : List ℕ) (s : List SiteO)
    (hs : refs w.sites sites = .ok s) (a x : ℤ) (hax : a ≠ x) :
    ∃ c, newCoupling w [a, x] none none = .ok c ∧
      newSystem { w with couplings := w.couplings ++ [c] } sites (some [w.couplings.length]) 100 =
        .ok ⟨s, some [c], 100⟩ ∧
      ∀ initial final : List ℚ, initial.length = s.length → final.length = s.length →
        ¬ ((0 ≤ a ∧ a < s.length) ∧ 0 ≤ x ∧ x < s.length) →
        ¬ ∃ v, readCoupling (initial ++ final) initial.length c.idx = .ok v := by
  refine ⟨⟨[a, x], none, none⟩, ?_, ?_, ?_⟩
  · simp [newCoupling, optRef, idxOk, hax]
  · simp [newSystem, hs, optRefs, refs, abundanceOk]
  · intro initial final h1 h2 hn hv
    apply hn
    rw [← h1]
    exact (C55_reads_partial initial final (by omega) a x).1.mp hv

example : refs (run ascii World.empty [.newSite "1H".toList none none]).sites [0] =
    .ok [⟨"1H".toList, none, none⟩] := by rfl

end MRS.Obj
