import Verif.Py

/-!
# Typed lists — property C56

Model of src/mrsimulator/utils/abstract_list.py, of `TransitionList` and `TransitionPathway`
(transition/pathway.py) and of `Sites` (simulator/__init__.py). The remaining list methods are
those of `collections.abc.MutableSequence`.
-/

namespace MRS.Obj

/-- An entry of a list: an object of the type of the list, or something else (abstract_list.py lines 10-57). -/
inductive Entry (α : Type) where
  | obj (a : α)
  | other
  deriving DecidableEq

/-- What is given to a list: an object of its type, a dictionary (from which an object is made, or
not), or something else (transition/pathway.py lines 11-30). -/
inductive Given (α : Type) where
  | obj (a : α)
  | dict (r : Py α)
  | other

/-- The two kinds of list: `TransitionList` (and `TransitionPathway`, which inherits all
of this), and `Sites` (transition/pathway.py lines 11-30 and 90-127). -/
inductive Kind where
  | transitions
  | sites
  deriving DecidableEq

/-- `_check_for_transition_object` (pathway.py lines 15-24), and the test in `Sites.__setitem__`
(simulator/__init__.py lines 631-638). -/
def check {α} : Given α → Py α
  | .obj a => .ok a
  | .dict r => r
  | .other => .error .valueError

/-- An item stored as it is (abstract_list.py lines 36-42). -/
def raw {α} : Given α → Entry α
  | .obj a => .obj a
  | .dict _ => .other
  | .other => .other

/-- The entry that `append` of the kind of list stores: checked for transitions (pathway.py lines
29-30), as it is for sites (abstract_list.py lines 40-42). -/
def appended {α} : Kind → Given α → Py (Entry α)
  | .transitions, g =>
    match check g with
    | .error e => .error e
    | .ok a => .ok (.obj a)
  | .sites, g => .ok (raw g)

/-- `append` for each item in turn (`extend` and `+=` of `MutableSequence`): those before an error
stay (abstract_list.py lines 36-42). -/
def extend {α} (K : Kind) : List (Given α) → List (Entry α) → List (Entry α)
  | [], l => l
  | g :: r, l =>
    match appended K g with
    | .error _ => l
    | .ok e => extend K r (l ++ [e])

/-- Operations on a list. `setSlice` is `l[a:b] = item`; the object is unpacked into its `n` fields,
as pydantic objects are iterable. -/
inductive LOp (α : Type) where
  | setItem (i : ℤ) (g : Given α)
  | setSlice (a b : ℕ) (g : Given α) (n : ℕ)
  | append (g : Given α)
  | extend (gs : List (Given α))
  | insert (i : ℕ) (g : Given α)
  | delete (i : ℤ)
  | clear
  | reverse

/-- One operation; a rejected one leaves the list as it is. `__setitem__` is checked for both kinds
(pathway.py lines 26-27, simulator/__init__.py lines 631-638), `insert` for neither
(abstract_list.py lines 36-38), `__delitem__` lines 32-34. -/
def lop {α} (K : Kind) (l : List (Entry α)) : LOp α → List (Entry α)
  | .setItem i g =>
    match check g with
    | .error _ => l
    | .ok a =>
      match pyPos l.length i with
      | none => l
      | some k => l.set k (.obj a)
  | .setSlice a b g n =>
    match check g with
    | .error _ => l
    | .ok _ => l.take a ++ List.replicate n .other ++ l.drop (max a b)
  | .append g =>
    match appended K g with
    | .error _ => l
    | .ok e => l ++ [e]
  | .extend gs => extend K gs l
  | .insert i g => l.take i ++ raw g :: l.drop i
  | .delete i =>
    match pyPos l.length i with
    | none => l
    | some k => l.eraseIdx k
  | .clear => []
  | .reverse => l.reverse

/-- Construction: the items are checked for transitions (pathway.py lines 12-13), kept as they are
for sites (abstract_list.py lines 11-13). -/
def construct {α} : Kind → List (Given α) → Py (List (Entry α))
  | .transitions, gs =>
    gs.mapM fun g =>
      match check g with
      | .error e => .error e
      | .ok a => .ok (.obj a)
  | .sites, gs => .ok (gs.map raw)

/-- Every entry is an object of the type of the list. -/
def Spec.Typed {α} (l : List (Entry α)) : Prop := ∀ e ∈ l, ∃ a, e = .obj a

/-- The given thing is an object of the type. -/
def Spec.IsObj {α} (g : Given α) : Prop := ∃ a, g = .obj a

/-- The operations that keep a list typed: item assignment and appending of anything (for sites
appending of objects only), insertion of objects, no assignment to slices. -/
def Spec.Safe {α} (K : Kind) : LOp α → Prop
  | .setItem _ _ => True
  | .setSlice _ _ _ _ => False
  | .append g => K = .transitions ∨ Spec.IsObj g
  | .extend gs => K = .transitions ∨ ∀ g ∈ gs, Spec.IsObj g
  | .insert _ g => Spec.IsObj g
  | .delete _ => True
  | .clear => True
  | .reverse => True

theorem raw_isObj {α} (g : Given α) (h : Spec.IsObj g) : ∃ a, raw g = .obj a := by
  obtain ⟨a, rfl⟩ := h
  exact ⟨a, rfl⟩

theorem appended_typed {α} (K : Kind) (g : Given α) (h : K = .transitions ∨ Spec.IsObj g)
    (e : Entry α) (he : appended K g = .ok e) : ∃ a, e = .obj a := by
  cases K with
  | transitions =>
    unfold appended at he
    match hc : check g with
    | .error x => simp only [hc] at he; simp at he
    | .ok a =>
      simp only [hc, Except.ok.injEq] at he
      exact ⟨a, he.symm⟩
  | sites =>
    rcases h with h | h
    · exact absurd h (by decide)
    · simp only [appended, Except.ok.injEq] at he
      obtain ⟨a, ha⟩ := raw_isObj g h
      exact ⟨a, by rw [← he, ha]⟩

theorem extend_typed {α} (K : Kind) (gs : List (Given α)) (l : List (Entry α))
    (h : K = .transitions ∨ ∀ g ∈ gs, Spec.IsObj g) (hl : Spec.Typed l) :
    Spec.Typed (extend K gs l) := by
  induction gs generalizing l with
  | nil => exact hl
  | cons g r ih =>
    unfold extend
    match ha : appended K g with
    | .error e => exact hl
    | .ok e =>
      apply ih
      · rcases h with h | h
        · exact Or.inl h
        · exact Or.inr fun g' hg' => h g' (List.mem_cons_of_mem _ hg')
      · intro x hx
        rcases List.mem_append.mp hx with hx | hx
        · exact hl x hx
        · rw [List.mem_singleton] at hx
          subst hx
          apply appended_typed K g _ x ha
          rcases h with h | h
          · exact Or.inl h
          · exact Or.inr (h g (List.mem_cons_self ..))

theorem lop_typed {α} (K : Kind) (l : List (Entry α)) (op : LOp α) (h : Spec.Safe K op)
    (hl : Spec.Typed l) : Spec.Typed (lop K l op) := by
  cases op with
  | setItem i g =>
    unfold lop
    match hc : check g with
    | .error e => simp only [hc]; exact hl
    | .ok a =>
      simp only [hc]
      match hp : pyPos l.length i with
      | none => exact hl
      | some k =>
        intro x hx
        rcases List.mem_or_eq_of_mem_set hx with hx | hx
        · exact hl x hx
        · exact ⟨a, hx⟩
  | setSlice a b g n => exact absurd h (by simp [Spec.Safe])
  | append g =>
    have := extend_typed K [g] l (by
      rcases h with h | h
      · exact Or.inl h
      · exact Or.inr (by simpa using h)) hl
    unfold extend at this
    unfold lop
    match ha : appended K g with
    | .error e => simp only [ha]; exact hl
    | .ok e => simp only [ha] at this ⊢; exact this
  | extend gs => exact extend_typed K gs l h hl
  | insert i g =>
    intro x hx
    simp only [lop] at hx
    rcases List.mem_append.mp hx with hx | hx
    · exact hl x (List.mem_of_mem_take hx)
    · rcases List.mem_cons.mp hx with rfl | hx
      · exact raw_isObj g h
      · exact hl x (List.mem_of_mem_drop hx)
  | delete i =>
    unfold lop
    simp only
    match pyPos l.length i with
    | none => exact hl
    | some k => exact fun x hx => hl x (List.mem_of_mem_eraseIdx hx)
  | clear => intro x hx; simp [lop] at hx
  | reverse => intro x hx; exact hl x (List.mem_reverse.mp hx)

theorem construct_typed {α} (K : Kind) (gs : List (Given α)) (l : List (Entry α))
    (h : K = .transitions ∨ ∀ g ∈ gs, Spec.IsObj g) (hc : construct K gs = .ok l) :
    Spec.Typed l := by
  cases K with
  | transitions =>
    unfold construct at hc
    simp only at hc
    clear h
    induction gs generalizing l with
    | nil =>
      simp only [List.mapM_nil, pure, Except.pure, Except.ok.injEq] at hc
      subst hc
      intro x hx
      simp at hx
    | cons g r ih =>
      rw [List.mapM_cons] at hc
      match hg : check g with
      | .error e => simp only [hg, bind, Except.bind] at hc; simp at hc
      | .ok a =>
        simp only [hg, bind, Except.bind] at hc
        match hr : (r.mapM fun g => (match check g with
            | .error e => .error e
            | .ok a => .ok (.obj a) : Py (Entry α))) with
        | .error e => simp only [hr] at hc; simp at hc
        | .ok l' =>
          simp only [hr, pure, Except.pure, Except.ok.injEq] at hc
          subst hc
          intro x hx
          rcases List.mem_cons.mp hx with rfl | hx
          · exact ⟨a, rfl⟩
          · exact ih l' hr x hx
  | sites =>
    simp only [construct, Except.ok.injEq] at hc
    subst hc
    rcases h with h | h
    · exact absurd h (by decide)
    · intro x hx
      obtain ⟨g, hg, rfl⟩ := List.mem_map.mp hx
      exact raw_isObj g (h g hg)

/-- **C56, partial.** A transition list that has been constructed from anything, and a list of sites
that has been constructed from sites, hold objects of their type only after any sequence of item
assignments, appending, extension, insertion of objects, deletion, clearing and reversal (for
sites: appending and extension by sites).

Missing for the full property: `insert` and assignment to a slice, and for sites also construction,
`append` and `extend`, are not checked (`C56_counterexample`). -/
theorem C56_typed_partial {α} (K : Kind) (gs : List (Given α)) (l : List (Entry α))
    (h : K = .transitions ∨ ∀ g ∈ gs, Spec.IsObj g) (hc : construct K gs = .ok l)
    (ops : List (LOp α)) (hops : ∀ op ∈ ops, Spec.Safe K op) :
    Spec.Typed (ops.foldl (lop K) l) := by
  have hl := construct_typed K gs l h hc
  clear hc h
  induction ops generalizing l with
  | nil => exact hl
  | cons op r ih =>
    exact ih _ (fun o ho => hops o (List.mem_cons_of_mem _ ho))
      (lop_typed K l op (hops op (List.mem_cons_self ..)) hl)

example : construct .transitions [Given.obj 1, .dict (.ok 2)] = .ok [Entry.obj 1, Entry.obj 2] := rfl

example : [LOp.append (.obj 3), .setItem (-1) .other, .extend [.dict (.ok 4), .other, .obj 5],
    .delete 0].foldl (lop .transitions) [Entry.obj 1] = [Entry.obj 3, Entry.obj 4] := by decide

/-- **C56, disagreement.** Inserting anything into any list, assigning an object with a field to a
slice of it, and for sites appending or constructing, is accepted and leaves an entry of another
type. -/
theorem C56_counterexample {α} (a : α) :
    (∀ (K : Kind) (l : List (Entry α)) (i : ℕ), ¬ Spec.Typed (lop K l (.insert i .other))) ∧
    (∀ (K : Kind) (l : List (Entry α)) (i j n : ℕ),
      ¬ Spec.Typed (lop K l (.setSlice i j (.obj a) (n + 1)))) ∧
    (∀ l : List (Entry α), ¬ Spec.Typed (lop .sites l (.append .other))) ∧
    (∃ l : List (Entry α), construct .sites [.other] = .ok l ∧ ¬ Spec.Typed l) := by
  have bad : ∀ l : List (Entry α), Entry.other ∈ l → ¬ Spec.Typed l := by
    intro l hl ht
    obtain ⟨b, hb⟩ := ht _ hl
    exact absurd hb (by simp)
  refine ⟨?_, ?_, ?_, [.other], rfl, bad _ (by simp)⟩
  · intro K l i
    apply bad
    simp [lop, raw]
  · intro K l i j n
    apply bad
    simp [lop, check]
  · intro l
    apply bad
    simp [lop, appended, raw]

end MRS.Obj
