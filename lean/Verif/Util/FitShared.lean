import Verif.Util.Fit
import Mathlib.Logic.Function.Basic

/-!
# Parameters of a fit that are stored in one place — property C125

`LMFIT_min_function` (src/mrsimulator/utils/spectral_fitting.py:339-344) sets the attributes of a simulator one by one by following references
between objects (`_set_simulator_object_value`, lines 132-156).  pydantic (before version 2) makes a shallow copy of a model that is given for a
field: a site that is given to a spin system is copied, but the copy has the same tensor objects.  So spin systems that are made from one site
share its tensors.  Here objects live in a heap.
-/

namespace MRS.Fit

open Dict MRS.Util

/-! ## The model -/

/-- A site or a coupling as the program made it: its numbers and its tensors (site.py lines 152-165, coupling.py lines 147-161).  Other
attributes are not modelled. -/
structure Child where
  nums : Dict ℚ
  tensors : Dict (Dict ℚ)

/-- A spin system as the program made it: its abundance and the numbers of the sites and couplings it is made from
(spin_system/__init__.py lines 148-165). -/
structure Made where
  abundance : ℚ
  sites : List ℕ
  couplings : List ℕ

/-- A program: it makes sites and couplings, each with its tensors, and from them spin systems, which it appends to those of a simulator
(simulator/__init__.py lines 145-151). -/
structure Prog where
  sites : List Child
  couplings : List Child
  systems : List Made

/-- The objects in memory: the simulator, the spin systems, their copies of sites (true) and couplings (false), and the tensors of the sites and
couplings that were made (simulator/__init__.py lines 145-151). -/
inductive Addr
  | sim
  | sys (i : ℕ)
  | child (kind : Bool) (i j : ℕ)
  | tens (kind : Bool) (s : ℕ) (key : String)
  deriving DecidableEq

/-- What an attribute holds (spectral_fitting.py lines 132-156). -/
inductive Cell
  | num (q : ℚ)
  | ref (a : Addr)
  | refs (l : List Addr)

/-- The memory (spectral_fitting.py lines 132-156). -/
abbrev Heap := Addr → Option (Dict Cell)

/-- The number of the site or coupling from which number `j` of spin system `i` was copied (spin_system/__init__.py lines 148-165). -/
def Prog.used (p : Prog) (kind : Bool) (i j : ℕ) : Option ℕ := p.systems[i]?.bind fun s => (if kind then s.sites else s.couplings)[j]?

/-- A site or coupling that was made (site.py lines 152-165, coupling.py lines 147-161). -/
def Prog.made (p : Prog) (kind : Bool) (s : ℕ) : Option Child := (if kind then p.sites else p.couplings)[s]?

/-- The memory after the program: copies of sites and couplings have their own numbers, but refer to the tensors of the original
(spin_system/__init__.py lines 148-165, with the shallow copy of pydantic). -/
def Prog.heap (p : Prog) : Heap
  | .sim => some [("spin_systems", .refs ((List.range p.systems.length).map .sys))]
  | .sys i => p.systems[i]?.map fun s =>
      [("abundance", .num s.abundance), ("sites", .refs ((List.range s.sites.length).map (.child true i))),
       ("couplings", .refs ((List.range s.couplings.length).map (.child false i)))]
  | .child kind i j => (p.used kind i j).bind fun s => (p.made kind s).map fun c =>
      (c.nums.map fun e => (e.1, Cell.num e.2)) ++ c.tensors.map fun e => (e.1, Cell.ref (.tens kind s e.1))
  | .tens kind s key => (p.made kind s).bind fun c => (c.tensors.get? key).map fun t => t.map fun e => (e.1, Cell.num e.2)

/-- The content of an attribute (spectral_fitting.py line 129). -/
def cell (h : Heap) (a : Addr) (k : String) : Option Cell := (h a).bind fun d => d.get? k

/-- The loop over the names but the last (spectral_fitting.py lines 152-155). -/
def walk (h : Heap) : Addr → List Step → Py Addr
  | a, [] => .ok a
  | a, .key k :: .idx i :: p =>
    match cell h a k with
    | some (.refs l) => match l[i]? with
      | some b => walk h b p
      | none => .error .indexError
    | _ => .error .attributeError
  | a, .key k :: p =>
    match cell h a k with
    | some (.ref b) => walk h b p
    | _ => .error .attributeError
  | _, _ => .error .attributeError

/-- `_set_simulator_object_value` (lines 132-156) for a path that ends in `k`; only numbers are set. -/
def setAttr (h : Heap) (q : List Step) (k : String) (x : ℚ) : Py Heap :=
  match walk h .sim q with
  | .error e => .error e
  | .ok a =>
    match h a, cell h a k with
    | some d, some (.num _) => .ok (Function.update h a (some (d.set k (.num x))))
    | _, _ => .error .valueError

/-- `_get_simulator_object_value` (lines 102-129). -/
def readAttr (h : Heap) (q : List Step) (k : String) : Py ℚ :=
  match walk h .sim q with
  | .error e => .error e
  | .ok a =>
    match cell h a k with
    | some (.num x) => .ok x
    | _ => .error .attributeError

/-- The loop of `LMFIT_min_function` (lines 339-344) over parameters of the simulator. -/
def setAll (h : Heap) : List ((List Step × String) × ℚ) → Py Heap
  | [] => .ok h
  | e :: l =>
    match setAttr h e.1.1 e.1.2 e.2 with
    | .error e => .error e
    | .ok h => setAll h l

/-! ## Specification -/

/-- A number in a simulator: an abundance, a number of a site (true) or coupling (false), or a number of one of its tensors. -/
inductive Spec.Number
  | abundance (i : ℕ)
  | plain (kind : Bool) (i j : ℕ) (k : String)
  | tensor (kind : Bool) (i j : ℕ) (key k : String)
  deriving DecidableEq

/-- The name of the list of sites or couplings. -/
def Spec.listName (kind : Bool) : String := if kind then "sites" else "couplings"

/-- How the number is reached from the simulator: `spin_systems[i].sites[j].key.k`. -/
def Spec.Number.path : Spec.Number → List Step × String
  | .abundance i => ([.key "spin_systems", .idx i], "abundance")
  | .plain kind i j k => ([.key "spin_systems", .idx i, .key (Spec.listName kind), .idx j], k)
  | .tensor kind i j key k => ([.key "spin_systems", .idx i, .key (Spec.listName kind), .idx j, .key key], k)

/-- The site or coupling number `j` of spin system `i`. -/
def Spec.child (p : Prog) (kind : Bool) (i j : ℕ) : Option Child := (p.used kind i j).bind (p.made kind)

/-- The simulator has that number. -/
def Spec.Number.In (p : Prog) : Spec.Number → Prop
  | .abundance i => i < p.systems.length
  | .plain kind i j k => ∃ c, Spec.child p kind i j = some c ∧ c.nums.has k = true
  | .tensor kind i j key k => ∃ c t, Spec.child p kind i j = some c ∧ c.tensors.get? key = some t ∧ t.has k = true

/-- No attribute is both a number and a tensor. -/
def Spec.Tidy (p : Prog) : Prop := ∀ kind s c, p.made kind s = some c → ∀ k, c.nums.has k = true → c.tensors.has k = false

/-- No site or coupling with a number in a tensor is used in two places. -/
def Spec.Own (p : Prog) : Prop := ∀ kind i j i' j' s, p.used kind i j = some s → p.used kind i' j' = some s → (i, j) ≠ (i', j') →
  ∀ c, p.made kind s = some c → ∀ key t, c.tensors.get? key = some t → ∀ k, t.has k = false

/-- Whatever values are proposed for any choice of the numbers, afterwards each has its value and all others are as before. -/
def Spec.Independent (p : Prog) : Prop :=
  ∀ (l : List Spec.Number) (x : Spec.Number → ℚ), (∀ a ∈ l, a.In p) →
    ∃ h', setAll p.heap (l.map fun a => (a.path, x a)) = .ok h' ∧
      ∀ a : Spec.Number, a.In p → readAttr h' a.path.1 a.path.2 = if a ∈ l then .ok (x a) else readAttr p.heap a.path.1 a.path.2

/-! ## Lemmas -/

theorem cell_update (h : Heap) (a : Addr) (d : Dict Cell) (hd : h a = some d) (k : String) (x : ℚ) (c : Addr) (k' : String) :
    cell (Function.update h a (some (d.set k (.num x)))) c k' = if c = a ∧ k' = k then some (.num x) else cell h c k' := by
  unfold cell
  by_cases hc : c = a
  · subst hc
    rw [Function.update_self, hd]
    simp only [Option.bind_some, true_and]
    rw [get?_set]
    simp only [eq_comm]
  · rw [Function.update_of_ne hc]
    simp [hc]

theorem walk_key (g : Heap) (a : Addr) (k : String) (p : List Step) (hp : ∀ i q, p = .idx i :: q → False) :
    walk g a (.key k :: p) = match cell g a k with
      | some (.ref b) => walk g b p
      | _ => .error .attributeError := by
  rcases p with - | ⟨s, p⟩
  · rw [walk]
    exact hp
  · cases s with
    | key k' => rw [walk]; exact hp
    | idx i => exact (hp _ _ rfl).elim

/-- Numbers are not followed. -/
theorem walk_same (h h' : Heap) (hh : ∀ c k, cell h' c k = cell h c k ∨ (∃ x, cell h c k = some (.num x)) ∧ ∃ x, cell h' c k = some (.num x))
    (a : Addr) (q : List Step) : walk h' a q = walk h a q := by
  fun_induction walk h a q with
  | case1 a => rfl
  | case2 a k i p l e b hb ih =>
    rcases hh a k with e' | ⟨⟨x, e'⟩, -⟩
    · simp only [walk, e', e, hb, ih]
    · rw [e] at e'; cases e'
  | case3 a k i p l e hb =>
    rcases hh a k with e' | ⟨⟨x, e'⟩, -⟩
    · simp only [walk, e', e, hb]
    · rw [e] at e'; cases e'
  | case4 a k i p e =>
    rcases hh a k with e' | ⟨-, ⟨x, e'⟩⟩
    · unfold walk
      rw [e']
      split
      · next l hl => exact absurd hl (e l)
      · rfl
    · simp only [walk, e']
  | case5 a k p hp b e ih =>
    rcases hh a k with e' | ⟨⟨x, e'⟩, -⟩
    · rw [walk_key h' a k p hp, e', e]
      exact ih
    · rw [e] at e'; cases e'
  | case6 a k p hp e =>
    rw [walk_key h' a k p hp]
    split
    · next b hb =>
      rcases hh a k with e' | ⟨-, ⟨x, e'⟩⟩
      · rw [e'] at hb
        exact (e b hb).elim
      · rw [e'] at hb; cases hb
    · rfl
  | case7 p a h1 h2 h3 =>
    rcases p with - | ⟨s, p⟩
    · exact (h1 rfl).elim
    · cases s with
      | key k => exact (h3 _ _ rfl).elim
      | idx i => rfl

/-- Where a number is stored. -/
def place (p : Prog) : Spec.Number → Addr × String
  | .abundance i => (.sys i, "abundance")
  | .plain kind i j k => (.child kind i j, k)
  | .tensor kind i j key k => (.tens kind ((p.used kind i j).getD 0) key, k)

/-- The path leads to the place, which has a number. -/
def Leads (h : Heap) (q : List Step) (w : Addr × String) (k : String) : Prop :=
  k = w.2 ∧ walk h .sim q = .ok w.1 ∧ ∃ y, cell h w.1 w.2 = some (.num y)

theorem setAttr_leads (h : Heap) (q : List Step) (w : Addr × String) (k : String) (hl : Leads h q w k) (x : ℚ) :
    ∃ h', setAttr h q k x = .ok h' ∧ (∀ c k', cell h' c k' = if w = (c, k') then some (.num x) else cell h c k') ∧
      (∀ q', walk h' .sim q' = walk h .sim q') ∧ ∀ q' w' k', Leads h q' w' k' → Leads h' q' w' k' := by
  obtain ⟨rfl, hw, y, hy⟩ := hl
  obtain ⟨a, k⟩ := w
  dsimp only at hw hy ⊢
  have hd : ∃ d, h a = some d := by
    unfold cell at hy
    cases hd : h a with
    | none => rw [hd] at hy; cases hy
    | some d => exact ⟨d, rfl⟩
  obtain ⟨d, hd⟩ := hd
  have hc : ∀ c k', cell (Function.update h a (some (d.set k (.num x)))) c k' = if (a, k) = (c, k') then some (.num x) else cell h c k' := by
    intro c k'
    rw [cell_update h a d hd]
    by_cases e : c = a ∧ k' = k
    · obtain ⟨rfl, rfl⟩ := e
      simp
    · rw [if_neg e, if_neg]
      intro e'
      simp only [Prod.mk.injEq] at e'
      exact e ⟨e'.1.symm, e'.2.symm⟩
  have hwalk : ∀ q', walk (Function.update h a (some (d.set k (.num x)))) .sim q' = walk h .sim q' := by
    intro q'
    apply walk_same
    intro c k'
    rw [hc]
    by_cases e : (a, k) = (c, k')
    · simp only [Prod.mk.injEq] at e
      obtain ⟨rfl, rfl⟩ := e
      exact Or.inr ⟨⟨y, hy⟩, x, by simp⟩
    · rw [if_neg e]
      exact Or.inl rfl
  refine ⟨_, ?_, hc, hwalk, ?_⟩
  · unfold setAttr
    rw [hw]
    simp only [hd, hy]
  · rintro q' w' k' ⟨e, h1, z, h2⟩
    refine ⟨e, by rw [hwalk]; exact h1, ?_⟩
    rw [hc]
    split
    · exact ⟨x, rfl⟩
    · exact ⟨z, h2⟩

theorem setAll_leads (pl : Spec.Number → Addr × String) (x : Spec.Number → ℚ) (l : List Spec.Number) :
    ∀ h : Heap, (∀ a ∈ l, Leads h a.path.1 (pl a) a.path.2) →
    ∃ h', setAll h (l.map fun a => (a.path, x a)) = .ok h' ∧ (∀ q', walk h' .sim q' = walk h .sim q') ∧
      ∀ c k', cell h' c k' = l.foldl (fun acc a => if pl a = (c, k') then some (.num (x a)) else acc) (cell h c k') := by
  induction l with
  | nil => intro h _; exact ⟨h, rfl, fun _ => rfl, fun _ _ => rfl⟩
  | cons a l ih =>
    intro h hl
    obtain ⟨h1, e1, c1, w1, l1⟩ := setAttr_leads h _ _ _ (hl a (by simp)) (x a)
    obtain ⟨h2, e2, w2, c2⟩ := ih h1 fun b hb => l1 _ _ _ (hl b (by simp [hb]))
    refine ⟨h2, ?_, fun q' => (w2 q').trans (w1 q'), ?_⟩
    · simp only [List.map_cons, setAll, e1]
      exact e2
    · intro c k'
      rw [c2, c1, List.foldl_cons]

theorem foldl_not (pl : Spec.Number → Addr × String) (x : Spec.Number → ℚ) (w : Addr × String) (l : List Spec.Number) :
    ∀ acc, (∀ a ∈ l, pl a ≠ w) → l.foldl (fun acc a => if pl a = w then some (Cell.num (x a)) else acc) acc = acc := by
  induction l with
  | nil => intro acc _; rfl
  | cons a l ih =>
    intro acc h
    rw [List.foldl_cons, if_neg (h a (by simp))]
    exact ih acc fun b hb => h b (by simp [hb])

theorem foldl_mem (pl : Spec.Number → Addr × String) (x : Spec.Number → ℚ) (b : Spec.Number) (l : List Spec.Number) :
    ∀ acc, (∀ a ∈ l, pl a = pl b → a = b) → (b ∈ l ∨ acc = some (Cell.num (x b))) →
      l.foldl (fun acc a => if pl a = pl b then some (Cell.num (x a)) else acc) acc = some (.num (x b)) := by
  induction l with
  | nil => intro acc _ h; simpa using h
  | cons a l ih =>
    intro acc h hb
    rw [List.foldl_cons]
    apply ih _ fun c hc => h c (by simp [hc])
    by_cases e : pl a = pl b
    · right
      rw [if_pos e, h a (by simp) e]
    · rw [if_neg e]
      rcases hb with hb | hb
      · rcases List.mem_cons.mp hb with rfl | hb
        · exact absurd rfl e
        · exact Or.inl hb
      · exact Or.inr hb

theorem read_leads (h : Heap) (q : List Step) (w : Addr × String) (k : String) (hl : Leads h q w k) (y : ℚ)
    (hy : cell h w.1 w.2 = some (.num y)) : readAttr h q k = .ok y := by
  obtain ⟨rfl, hw, -⟩ := hl
  unfold readAttr
  rw [hw]
  simp only [hy]

theorem get?_mapKey {V W : Type} (f : String → V → W) (d : Dict V) (k : String) :
    get? (d.map fun e => (e.1, f e.1 e.2) : Dict W) k = (get? d k).map (f k) := by
  induction d with
  | nil => rfl
  | cons e d ih =>
    rw [List.map_cons, get?_cons, get?_cons]
    by_cases h : e.1 = k
    · subst h
      simp
    · simp [h, ih]

theorem cell_child (p : Prog) (kind : Bool) (i j s : ℕ) (c : Child) (hs : p.used kind i j = some s) (hc : p.made kind s = some c) (k : String) :
    cell p.heap (.child kind i j) k = ((c.nums.get? k).map Cell.num).or ((c.tensors.get? k).map fun _ => Cell.ref (.tens kind s k)) := by
  unfold cell Prog.heap
  simp only [hs, hc, Option.bind_some, Option.map_some]
  rw [get?_append, get?_mapKey (fun _ q => Cell.num q), get?_mapKey (fun k' _ => Cell.ref (.tens kind s k'))]

theorem walk_child (p : Prog) (kind : Bool) (i j s : ℕ) (hs : p.used kind i j = some s) (q : List Step) :
    walk p.heap .sim (.key "spin_systems" :: .idx i :: .key (Spec.listName kind) :: .idx j :: q) = walk p.heap (.child kind i j) q := by
  unfold Prog.used at hs
  cases hm : p.systems[i]? with
  | none => rw [hm] at hs; cases hs
  | some m =>
    rw [hm] at hs
    simp only [Option.bind_some] at hs
    have hi : i < p.systems.length := by
      rw [List.getElem?_eq_some_iff] at hm
      exact hm.1
    have hj : j < (if kind then m.sites else m.couplings).length := by
      rw [List.getElem?_eq_some_iff] at hs
      exact hs.1
    have e1 : cell p.heap .sim "spin_systems" = some (.refs ((List.range p.systems.length).map .sys)) := rfl
    have e2 : cell p.heap (.sys i) (Spec.listName kind) =
        some (.refs ((List.range (if kind then m.sites else m.couplings).length).map (.child kind i))) := by
      unfold cell Prog.heap
      dsimp only
      rw [hm]
      cases kind <;> rfl
    rw [walk, e1]
    simp only [List.getElem?_map, List.getElem?_range hi, Option.map_some]
    rw [walk, e2]
    simp only [List.getElem?_map, List.getElem?_range hj, Option.map_some]

theorem leads (p : Prog) (ht : Spec.Tidy p) (a : Spec.Number) (ha : a.In p) : Leads p.heap a.path.1 (place p a) a.path.2 := by
  cases a with
  | abundance i =>
    refine ⟨rfl, ?_, ?_⟩
    · have hi : i < p.systems.length := ha
      have e1 : cell p.heap .sim "spin_systems" = some (.refs ((List.range p.systems.length).map .sys)) := rfl
      dsimp only [Spec.Number.path, place]
      rw [walk, e1]
      simp only [List.getElem?_map, List.getElem?_range hi, Option.map_some]
      rfl
    · have hi : i < p.systems.length := ha
      refine ⟨p.systems[i].abundance, ?_⟩
      dsimp only [place]
      unfold cell Prog.heap
      dsimp only
      rw [List.getElem?_eq_getElem hi]
      rfl
  | plain kind i j k =>
    obtain ⟨c, hc, hk⟩ := ha
    unfold Spec.child at hc
    rw [Option.bind_eq_some_iff] at hc
    obtain ⟨s, hs, hc⟩ := hc
    refine ⟨rfl, ?_, ?_⟩
    · dsimp only [Spec.Number.path, place]
      rw [walk_child p kind i j s hs]
      rfl
    · obtain ⟨v, hv⟩ := (has_iff _ _).mp hk
      refine ⟨v, ?_⟩
      dsimp only [place]
      rw [cell_child p kind i j s c hs hc, hv]
      rfl
  | tensor kind i j key k =>
    obtain ⟨c, t, hc, hkey, hk⟩ := ha
    unfold Spec.child at hc
    rw [Option.bind_eq_some_iff] at hc
    obtain ⟨s, hs, hc⟩ := hc
    have hn : c.nums.get? key = none := by
      rw [← has_false_iff]
      by_contra h
      have := ht kind s c hc key (by simpa using h)
      rw [has_false_iff, hkey] at this
      cases this
    refine ⟨rfl, ?_, ?_⟩
    · dsimp only [Spec.Number.path, place]
      rw [walk_child p kind i j s hs, walk_key _ _ _ _ (by intro _ _ h; cases h), cell_child p kind i j s c hs hc, hn, hkey, hs]
      rfl
    · obtain ⟨v, hv⟩ := (has_iff _ _).mp hk
      refine ⟨v, ?_⟩
      dsimp only [place]
      rw [hs]
      unfold cell Prog.heap
      simp only [Option.getD_some, hc, Option.bind_some, hkey, Option.map_some]
      rw [get?_mapKey (fun _ q => Cell.num q), hv]
      rfl

/-- Numbers are independent when each has its own place. -/
theorem independent_iff (p : Prog) (ht : Spec.Tidy p) :
    Spec.Independent p ↔ ∀ a b : Spec.Number, a.In p → b.In p → place p a = place p b → a = b := by
  constructor
  · intro h a b ha hb e
    by_contra hab
    obtain ⟨h1, e1, hr⟩ := h [a, b] (fun c => if c = b then 1 else 0) (by simp [ha, hb])
    obtain ⟨h2, e2, w2, c2⟩ := setAll_leads (place p) (fun c => if c = b then 1 else 0) [a, b] p.heap
      (by intro c hc; rcases List.mem_pair.mp hc with rfl | rfl <;> exact leads p ht _ (by assumption))
    rw [e1] at e2
    cases e2
    have hra := hr a ha
    have hc := c2 (place p b).1 (place p b).2
    simp only [List.foldl_cons, List.foldl_nil, Prod.mk.eta, if_true] at hc
    have la := leads p ht a ha
    rw [read_leads h1 _ (place p a) _ ⟨la.1, by rw [w2]; exact la.2.1, 1, by rw [e]; exact hc⟩ 1 (by rw [e]; exact hc)] at hra
    simp [hab] at hra
  · intro inj l x hl
    obtain ⟨h', e', w', c'⟩ := setAll_leads (place p) x l p.heap fun a ha => leads p ht a (hl a ha)
    refine ⟨h', e', fun a ha => ?_⟩
    have la := leads p ht a ha
    have hc := c' (place p a).1 (place p a).2
    simp only [Prod.mk.eta] at hc
    by_cases hm : a ∈ l
    · rw [if_pos hm]
      rw [foldl_mem (place p) x a l _ (fun b hb => inj b a (hl b hb) ha) (Or.inl hm)] at hc
      exact read_leads h' _ (place p a) _ ⟨la.1, by rw [w']; exact la.2.1, _, hc⟩ _ hc
    · rw [if_neg hm]
      obtain ⟨y, hy⟩ := la.2.2
      rw [foldl_not (place p) x _ l _ (fun b hb e => hm (inj b a (hl b hb) ha e ▸ hb)), hy] at hc
      rw [read_leads h' _ (place p a) _ ⟨la.1, by rw [w']; exact la.2.1, _, hc⟩ _ hc, read_leads p.heap _ (place p a) _ la y hy]

/-! ## C125 -/

/-- **C125 (partial).**  For every program that makes sites, couplings and from them spin systems: a step of the fit gives each of its parameters
the proposed value and leaves all other numbers as they were, for every choice of parameters and values, exactly when no site or coupling with a
tensor is used in two places.  Partial: the property asks for it without that condition (`C125_counterexample`); programs that append one spin
system twice, or that change objects after making them, are left out. -/
theorem C125_independent_partial (p : Prog) (ht : Spec.Tidy p) : Spec.Independent p ↔ Spec.Own p := by
  rw [independent_iff p ht]
  constructor
  · intro inj kind i j i' j' s hs hs' hne c hc key t hkey k
    by_contra hk
    have hk : t.has k = true := by simpa using hk
    have h1 : Spec.Number.In p (.tensor kind i j key k) := ⟨c, t, by simp [Spec.child, hs, hc], hkey, hk⟩
    have h2 : Spec.Number.In p (.tensor kind i' j' key k) := ⟨c, t, by simp [Spec.child, hs', hc], hkey, hk⟩
    have := inj _ _ h1 h2 (by simp [place, hs, hs'])
    simp only [Spec.Number.tensor.injEq, true_and, and_true] at this
    exact hne (by rw [this.1, this.2])
  · intro own a b ha hb e
    cases a <;> cases b <;> simp only [place, Prod.mk.injEq, Addr.sys.injEq, Addr.child.injEq, Addr.tens.injEq, reduceCtorEq, false_and,
      and_true] at e
    · rw [e]
    · obtain ⟨⟨rfl, rfl, rfl⟩, rfl⟩ := e
      rfl
    · next kind i j key k kind' i' j' key' k' =>
      obtain ⟨⟨rfl, he, rfl⟩, rfl⟩ := e
      obtain ⟨c, t, hc, hkey, hk⟩ := ha
      obtain ⟨c', t', hc', hkey', hk'⟩ := hb
      unfold Spec.child at hc hc'
      rw [Option.bind_eq_some_iff] at hc hc'
      obtain ⟨s, hs, hc⟩ := hc
      obtain ⟨s', hs', hc'⟩ := hc'
      rw [hs, hs'] at he
      simp only [Option.getD_some] at he
      subst he
      by_cases hne : (i, j) = (i', j')
      · simp only [Prod.mk.injEq] at hne
        rw [hne.1, hne.2]
      · rw [own kind i j i' j' s hs hs' hne c hc key t hkey k] at hk
        cases hk

/-- A silicon site with a shift and a shielding tensor. -/
def silicon : Child := ⟨[("isotropic_chemical_shift", -100)], [("shielding_symmetric", [("zeta", 50), ("eta", 1 / 2)])]⟩

/-- Two spin systems made from two sites that are alike. -/
def apart : Prog := ⟨[silicon, silicon], [], [⟨60, [0], []⟩, ⟨40, [1], []⟩]⟩

/-- Two spin systems made from one site. -/
def reused : Prog := ⟨[silicon], [], [⟨60, [0], []⟩, ⟨40, [0], []⟩]⟩

theorem tidy_of (l : List Child) (h : ∀ c ∈ l, c = silicon) (m : List Made) : Spec.Tidy ⟨l, [], m⟩ := by
  intro kind s c hc k hk
  cases kind with
  | false => simp [Prog.made] at hc
  | true =>
    have : c ∈ l := List.mem_of_getElem? (by simpa [Prog.made] using hc)
    rw [h c this] at hk ⊢
    rw [has_iff_mem] at hk
    simp only [silicon, List.map_cons, List.map_nil, List.mem_singleton] at hk
    subst hk
    decide

/-- **C125, the disagreement.**  Two spin systems are made from one site object and the fit proposes 50 for ζ of the first and 80 for that of the
second.  After the step both are 80: the first is not simulated with its proposed value. -/
theorem C125_counterexample : Spec.Tidy reused ∧ ¬ Spec.Independent reused ∧
    ∃ h', setAll reused.heap [((Spec.Number.tensor true 0 0 "shielding_symmetric" "zeta").path, 50),
      ((Spec.Number.tensor true 1 0 "shielding_symmetric" "zeta").path, 80)] = .ok h' ∧
      readAttr h' (Spec.Number.tensor true 0 0 "shielding_symmetric" "zeta").path.1 "zeta" = .ok 80 := by
  have ht : Spec.Tidy reused := tidy_of _ (by simp) _
  refine ⟨ht, ?_, _, rfl, by decide +kernel⟩
  rw [C125_independent_partial reused ht]
  intro own
  have := own true 0 0 1 0 0 rfl rfl (by decide) silicon rfl "shielding_symmetric" _ rfl "zeta"
  revert this
  decide

/-- Sites that are alike but made one by one do not interfere. -/
example : Spec.Tidy apart ∧ Spec.Independent apart ∧ (Spec.Number.tensor true 1 0 "shielding_symmetric" "zeta").In apart := by
  have ht : Spec.Tidy apart := tidy_of _ (by simp) _
  refine ⟨ht, (C125_independent_partial apart ht).mpr ?_, silicon, _, rfl, rfl, by decide⟩
  intro kind i j i' j' s hs hs' hne
  exfalso
  have key : ∀ i j s, apart.used kind i j = some s → j = 0 ∧ i = s := by
    intro i j s h
    unfold Prog.used apart at h
    cases kind <;> rcases i with - | - | i <;> rcases j with - | j <;> simp at h <;> simp [h]
  obtain ⟨rfl, rfl⟩ := key _ _ _ hs
  obtain ⟨rfl, rfl⟩ := key _ _ _ hs'
  exact hne rfl

end MRS.Fit
