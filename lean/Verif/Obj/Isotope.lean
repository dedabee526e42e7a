import Verif.Py
import Mathlib.Tactic.SplitIfs

/-!
# Isotope symbols — property C57

Model of src/mrsimulator/spin_system/isotope.py. Strings are lists of characters. What counts as
a digit, a blank or a word character is a parameter (Python decides by Unicode tables) with the
few laws that are used.
-/

namespace MRS.Obj

/-- The keys of isotope_data.json with twice the spin, in file order. -/
def isotopeTable : List (String × ℕ) :=
  [
    ("2H", 2), ("1H", 1), ("3He", 1), ("6Li", 2), ("7Li", 3), ("9Be", 3), ("10B", 6), ("11B", 3),
    ("13C", 1), ("15N", 1), ("14N", 2), ("17O", 5), ("19F", 1), ("21Ne", 3), ("23Na", 3),
    ("25Mg", 5), ("27Al", 5), ("29Si", 1), ("31P", 1), ("33S", 3), ("37Cl", 3), ("35Cl", 3),
    ("41K", 3), ("39K", 3), ("43Ca", 7), ("45Sc", 7), ("49Ti", 7), ("47Ti", 5), ("51V", 7),
    ("53Cr", 3), ("55Mn", 5), ("57Fe", 1), ("59Co", 7), ("61Ni", 3), ("63Cu", 3), ("65Cu", 3),
    ("67Zn", 5), ("69Ga", 3), ("71Ga", 3), ("73Ge", 9), ("75As", 3), ("77Se", 1), ("79Br", 3),
    ("81Br", 3), ("83Kr", 9), ("85Rb", 5), ("87Rb", 3), ("87Sr", 9), ("89Y", 1), ("91Zr", 5),
    ("93Nb", 9), ("97Mo", 5), ("95Mo", 5), ("101Ru", 5), ("99Ru", 5), ("103Rh", 1), ("105Pd", 5),
    ("109Ag", 1), ("107Ag", 1), ("111Cd", 1), ("113In", 9), ("119Sn", 1), ("117Sn", 1),
    ("115Sn", 1), ("123Sb", 7), ("121Sb", 5), ("125Te", 1), ("127I", 5), ("129Xe", 1),
    ("131Xe", 3), ("133Cs", 7), ("135Ba", 3), ("137Ba", 3), ("139La", 7), ("141Pr", 5),
    ("143Nd", 7), ("145Nd", 7), ("149Sm", 7), ("153Eu", 5), ("151Eu", 5), ("157Gd", 3),
    ("155Gd", 3), ("159Tb", 3), ("161Dy", 5), ("163Dy", 5), ("165Ho", 7), ("167Er", 7),
    ("169Tm", 1), ("173Yb", 5), ("171Yb", 1), ("175Lu", 7), ("179Hf", 9), ("177Hf", 7),
    ("181Ta", 7), ("183W", 1), ("185Re", 5), ("187Os", 1), ("189Os", 3), ("191Ir", 3),
    ("193Ir", 3), ("195Pt", 1), ("197Au", 3), ("201Hg", 3), ("199Hg", 1), ("203Tl", 1),
    ("205Tl", 1), ("207Pb", 1)
  ]

/-- The known symbols (isotope.py lines 106-111). -/
def known : List (List Char) := isotopeTable.map fun p => p.1.toList

/-- The character classes of regular expressions: a digit is a word character, a blank is
neither; the ASCII digits and letters are as expected. -/
structure Classes where
  digit : Char → Bool
  blank : Char → Bool
  word : Char → Bool
  digit_word : ∀ c, digit c = true → word c = true
  blank_word : ∀ c, blank c = true → word c = false
  ascii_digit : ∀ c, c.isDigit = true → digit c = true
  ascii_letter : ∀ c, c.isAlpha = true → word c = true ∧ digit c = false

/-- The match of `\s*(\w+)` at the front: group 2, if there is one. A blank is no word character,
so taking fewer blanks cannot help (isotope.py lines 90-103). -/
def matchTail (K : Classes) (s : List Char) : Option (List Char) :=
  match (s.dropWhile K.blank).takeWhile K.word with
  | [] => none
  | w => some w

/-- `(\d+)` takes `k` characters if it can, otherwise one fewer, and so on, but at least one (isotope.py lines 90-103). -/
def matchFrom (K : Classes) (s : List Char) : ℕ → Option (List Char × List Char)
  | 0 => none
  | k + 1 =>
    match matchTail K (s.drop (k + 1)) with
    | some w => some (s.take (k + 1), w)
    | none => matchFrom K s k

/-- `match(r"(\d+)\s*(\w+)", s)`: groups 1 and 2 (isotope.py line 92). -/
def reMatch (K : Classes) (s : List Char) : Option (List Char × List Char) :=
  matchFrom K s (s.takeWhile K.digit).length

/-- `format_isotope_string` (isotope.py lines 88-102). -/
def formatIsotope (K : Classes) (s : List Char) : Py (List Char) :=
  match reMatch K s with
  | none => .error .exception
  | some (a, iso) => if a ++ iso ∈ known then .ok (a ++ iso) else .error .exception

/-- The Python classes on ASCII. -/
def ascii : Classes where
  digit := Char.isDigit
  blank := Char.isWhitespace
  word := fun c => c.isAlphanum || c == '_'
  digit_word := by
    intro c h
    simp [Char.isAlphanum, h]
  blank_word := by
    intro c h
    simp only [Char.isWhitespace, Bool.or_eq_true, decide_eq_true_eq] at h
    rcases h with ((rfl | rfl) | rfl) | rfl <;> decide
  ascii_digit := fun _ h => h
  ascii_letter := by
    intro c h
    refine ⟨by simp [Char.isAlphanum, h], ?_⟩
    simp only [Char.isAlpha, Char.isUpper, Char.isLower, Char.isDigit, Bool.or_eq_true,
      Bool.and_eq_true, decide_eq_true_eq, Bool.and_eq_false_iff, decide_eq_false_iff_not] at h ⊢
    rcases h with h | h
    · exact Or.inr fun h' => absurd (UInt32.le_trans h.1 h') (by decide)
    · exact Or.inr fun h' => absurd (UInt32.le_trans h.1 h') (by decide)

/-- A symbol is well formed: some digits, then one or more letters. -/
def Spec.WellFormed (s : List Char) : Bool :=
  !(s.takeWhile Char.isDigit).isEmpty && !(s.dropWhile Char.isDigit).isEmpty &&
    (s.dropWhile Char.isDigit).all Char.isAlpha

/-- Every key of the table is well formed (the table is finite). -/
theorem known_wellFormed : ∀ s ∈ known, Spec.WellFormed s = true := by
  decide +kernel

theorem takeWhile_append_all {α} (p : α → Bool) (a b : List α) (ha : ∀ x ∈ a, p x = true)
    (hb : ∀ x ∈ b.head?, p x = false) : (a ++ b).takeWhile p = a := by
  induction a with
  | nil =>
    cases b with
    | nil => rfl
    | cons x b => simp [hb x (by simp)]
  | cons x a ih =>
    rw [List.cons_append, List.takeWhile_cons, ha x (List.mem_cons_self ..)]
    simp only [if_true]
    rw [ih (fun y hy => ha y (List.mem_cons_of_mem _ hy))]

theorem dropWhile_all {α} (p : α → Bool) (a : List α) (ha : ∀ x ∈ a, p x = true) :
    a.dropWhile p = [] := by
  induction a with
  | nil => rfl
  | cons x a ih =>
    rw [List.dropWhile_cons, ha x (List.mem_cons_self ..)]
    exact ih (fun y hy => ha y (List.mem_cons_of_mem _ hy))

/-- A well-formed symbol is matched entirely. -/
theorem reMatch_wellFormed (K : Classes) (s : List Char) (h : Spec.WellFormed s = true) :
    ∃ a w, reMatch K s = some (a, w) ∧ a ++ w = s := by
  unfold Spec.WellFormed at h
  simp only [Bool.and_eq_true, Bool.not_eq_true', List.isEmpty_eq_false_iff, List.all_eq_true] at h
  obtain ⟨⟨h1, h2⟩, h3⟩ := h
  set a := s.takeWhile Char.isDigit with ha
  set w := s.dropWhile Char.isDigit with hw
  have hs : a ++ w = s := List.takeWhile_append_dropWhile
  have had : ∀ c ∈ a, K.digit c = true := fun c hc =>
    K.ascii_digit c (by
      have := List.all_takeWhile (p := Char.isDigit) (l := s)
      exact List.all_eq_true.mp this c hc)
  have hwd : ∀ c ∈ w, K.word c = true ∧ K.digit c = false := fun c hc => K.ascii_letter c (h3 c hc)
  have htake : s.takeWhile K.digit = a := by
    rw [← hs]
    apply takeWhile_append_all _ _ _ had
    intro c hc
    exact (hwd c (List.mem_of_mem_head? hc)).2
  refine ⟨a, w, ?_, hs⟩
  unfold reMatch
  rw [htake]
  match hl : a.length with
  | 0 => exact absurd (List.length_eq_zero_iff.mp hl) h1
  | k + 1 =>
    unfold matchFrom
    rw [show k + 1 = a.length from hl.symm]
    have hd : s.drop a.length = w := by rw [← hs]; exact List.drop_left ..
    have ht : s.take a.length = a := by rw [← hs]; exact List.take_left ..
    rw [hd, ht]
    have hm : matchTail K w = some w := by
      unfold matchTail
      have hb : w.dropWhile K.blank = w := by
        cases hw' : w with
        | nil => rfl
        | cons c l =>
          rw [List.dropWhile_cons]
          have hcw := (hwd c (by rw [hw']; exact List.mem_cons_self ..)).1
          have : K.blank c = false := by
            by_contra hcon
            rw [Bool.not_eq_false] at hcon
            rw [K.blank_word c hcon] at hcw
            exact absurd hcw (by simp)
          rw [this]
          simp
      have ht : w.takeWhile K.word = w := by
        have := takeWhile_append_all K.word w [] (fun c hc => (hwd c hc).1) (by simp)
        rwa [List.append_nil] at this
      rw [hb, ht]
      cases hw' : w with
      | nil => exact absurd hw' h2
      | cons c l => rfl
    rw [hm]

/-- **C57.** Formatting either raises an exception or returns a known symbol; known symbols are
returned unchanged; hence formatting twice is formatting once. -/
theorem C57_format (K : Classes) :
    (∀ s, formatIsotope K s = .error .exception ∨ ∃ r ∈ known, formatIsotope K s = .ok r) ∧
    (∀ s ∈ known, formatIsotope K s = .ok s) ∧
    (∀ s r, formatIsotope K s = .ok r → formatIsotope K r = .ok r) := by
  have h2 : ∀ s ∈ known, formatIsotope K s = .ok s := by
    intro s hs
    obtain ⟨a, w, hm, he⟩ := reMatch_wellFormed K s (known_wellFormed s hs)
    unfold formatIsotope
    rw [hm]
    simp only
    rw [he, if_pos hs]
  have h1 : ∀ s, formatIsotope K s = .error .exception ∨
      ∃ r ∈ known, formatIsotope K s = .ok r := by
    intro s
    unfold formatIsotope
    match reMatch K s with
    | none => exact Or.inl rfl
    | some (a, w) =>
      simp only
      split_ifs with hk
      · exact Or.inr ⟨_, hk, rfl⟩
      · exact Or.inl rfl
  refine ⟨h1, h2, ?_⟩
  intro s r h
  rcases h1 s with he | ⟨r', hr', he⟩
  · rw [he] at h; exact absurd h (by simp)
  · rw [he] at h
    cases h
    exact h2 r hr'

example : formatIsotope ascii "29 Si".toList = .ok "29Si".toList := by decide +kernel

/-- Anything after the symbol that does not continue the word is ignored, and blanks after the
number are dropped: for every known symbol `a ++ w` of digits `a` and letters `w`. -/
theorem C57_forgiving (K : Classes) (a w blanks junk : List Char) (hk : a ++ w ∈ known)
    (ha : ∀ c ∈ a, c.isDigit = true) (hw : ∀ c ∈ w, c.isAlpha = true) (ha0 : a ≠ []) (hw0 : w ≠ [])
    (hb : ∀ c ∈ blanks, K.blank c = true) (hj : ∀ c ∈ junk.head?, K.word c = false) :
    formatIsotope K (a ++ (blanks ++ (w ++ junk))) = .ok (a ++ w) := by
  have had : ∀ c ∈ a, K.digit c = true := fun c hc => K.ascii_digit c (ha c hc)
  have hwd : ∀ c ∈ w, K.word c = true ∧ K.digit c = false := fun c hc => K.ascii_letter c (hw c hc)
  have hbd : ∀ c, K.blank c = true → K.digit c = false := by
    intro c hc
    by_contra hcon
    rw [Bool.not_eq_false] at hcon
    have := K.digit_word c hcon
    rw [K.blank_word c hc] at this
    exact absurd this (by simp)
  have hwb : ∀ c ∈ w, K.blank c = false := by
    intro c hc
    by_contra hcon
    rw [Bool.not_eq_false] at hcon
    have := (hwd c hc).1
    rw [K.blank_word c hcon] at this
    exact absurd this (by simp)
  have htake : (a ++ (blanks ++ (w ++ junk))).takeWhile K.digit = a := by
    apply takeWhile_append_all _ _ _ had
    intro c hc
    cases blanks with
    | nil =>
      cases w with
      | nil => exact absurd rfl hw0
      | cons x w =>
        simp only [List.nil_append, List.cons_append, List.head?_cons, Option.mem_def,
          Option.some.injEq] at hc
        subst hc
        exact (hwd x (List.mem_cons_self ..)).2
    | cons x blanks =>
      simp only [List.cons_append, List.head?_cons, Option.mem_def, Option.some.injEq] at hc
      subst hc
      exact hbd x (hb x (List.mem_cons_self ..))
  have hdrop : (blanks ++ (w ++ junk)).dropWhile K.blank = w ++ junk := by
    rw [List.dropWhile_append, dropWhile_all K.blank blanks hb]
    simp only [List.isEmpty_nil, if_true]
    cases w with
    | nil => exact absurd rfl hw0
    | cons x w =>
      rw [List.cons_append, List.dropWhile_cons, hwb x (List.mem_cons_self ..)]
      simp
  have htw : (w ++ junk).takeWhile K.word = w :=
    takeWhile_append_all _ _ _ (fun c hc => (hwd c hc).1) hj
  unfold formatIsotope reMatch
  rw [htake]
  match hl : a.length with
  | 0 => exact absurd (List.length_eq_zero_iff.mp hl) ha0
  | k + 1 =>
    unfold matchFrom
    rw [show k + 1 = a.length from hl.symm, List.drop_left, List.take_left]
    have hm : matchTail K (blanks ++ (w ++ junk)) = some w := by
      unfold matchTail
      rw [hdrop, htw]
      cases w with
      | nil => exact absurd rfl hw0
      | cons c l => rfl
    rw [hm]
    simp only
    rw [if_pos hk]

example : formatIsotope ascii "13C-labelled glycine".toList = .ok "13C".toList := by
  decide +kernel

/-- Twice the spin of a known symbol (isotope.py lines 60-63). -/
def twiceSpin (s : List Char) : Option ℕ :=
  (isotopeTable.find? fun p => decide (p.1.toList = s)).map (·.2)

end MRS.Obj
