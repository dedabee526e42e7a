import Verif.Val
import Verif.Py
import Mathlib.Data.List.Nodup

/-!
# Reduced and flattened dictionaries — properties C26, C27

Model of src/mrsimulator/utils/extra.py and of `flatten_dict` in
src/mrsimulator/utils/__init__.py.
-/

namespace MRS.Util

open Dict

/-! ## `_reduce_dict` -/

/-- The default of the argument `exclude` (extra.py line 2). -/
def dflt : List String := ["property_units"]

/-- `v["symbol"]` (extra.py lines 15-16). A list or a string raises TypeError. -/
def symbolOf : Val → Py Val
  | .dict d => match get? d "symbol" with
    | some s => .ok s
    | none => .error .keyError
  | _ => .error .typeError

/-- `[item["symbol"] for item in v]` over a list of items (extra.py line 19). -/
def symbolsOf : List Val → Py (List Val)
  | [] => .ok []
  | v :: l => match symbolOf v, symbolsOf l with
    | .ok s, .ok r => .ok (s :: r)
    | .error e, _ => .error e
    | _, .error e => .error e

/-- The value at key "channels" (extra.py lines 18-20). Iterating over a dictionary or string
gives strings, whose item "symbol" is a TypeError unless there are none. -/
def channelsOf : Val → Py Val
  | .list l => match symbolsOf l with
    | .ok r => .ok (.list r)
    | .error e => .error e
  | .dict [] => .ok (.list [])
  | .str "" => .ok (.list [])
  | _ => .error .typeError

mutual
/-- `_reduce_dict(dict_obj, exclude)` (extra.py lines 2-42). -/
def reduceV (E : List String) : Val → Py Val
  | .dict d => match reduceD E d with
    | .ok e => .ok (.dict e)
    | .error x => .error x
  | .none => .ok .none
  | .num q => .ok (.num q)
  | .str s => .ok (.str s)
  | .list l => .ok (.list l)

/-- The value of an entry other than "isotope" and "channels" (extra.py lines 21-26): the
argument `exclude` is not passed on. -/
def reduceE : Val → Py Val
  | .dict d => match reduceD dflt d with
    | .ok e => .ok (.dict e)
    | .error x => .error x
  | .list l => match reduceL l with
    | .ok e => .ok (.list e)
    | .error x => .error x
  | .none => .ok .none
  | .num q => .ok (.num q)
  | .str s => .ok (.str s)

/-- The loop over the items (extra.py lines 11-27). The keys of a dictionary are distinct, so
that `obj[k] = ...` always adds a new item. -/
def reduceD (E : List String) : List (String × Val) → Py (List (String × Val))
  | [] => .ok []
  | (k, v) :: d =>
    if k ∈ E ∨ v = .none then reduceD E d
    else
      match (if k = "isotope" then symbolOf v
        else if k = "channels" then channelsOf v else reduceE v), reduceD E d with
      | .ok r, .ok e => .ok ((k, r) :: e)
      | .error x, _ => .error x
      | _, .error x => .error x

/-- `[_reduce_dict(_) for _ in v]` (extra.py line 24). -/
def reduceL : List Val → Py (List Val)
  | [] => .ok []
  | v :: l => match reduceV dflt v, reduceL l with
    | .ok r, .ok e => .ok (r :: e)
    | .error x, _ => .error x
    | _, .error x => .error x
end

/-- A step into a nested value: the item of a key or of an index. -/
inductive Step
  | key (k : String)
  | idx (i : Nat)
  deriving DecidableEq, Repr

/-- The value at a path. -/
def Spec.lookup : List Step → Val → Option Val
  | [], v => some v
  | .key k :: p, .dict d => match get? d k with
    | some w => Spec.lookup p w
    | none => none
  | .idx i :: p, .list l => match l[i]? with
    | some w => Spec.lookup p w
    | none => none
  | _ :: _, _ => none

/-- What is seen of a value without going into it. -/
inductive Shape
  | none
  | num (q : ℚ)
  | str (s : String)
  | list (n : Nat)
  | dict
  deriving DecidableEq, Repr

/-- See `Shape`. -/
def Spec.shape : Val → Shape
  | .none => .none
  | .num q => .num q
  | .str s => .str s
  | .list l => .list l.length
  | .dict _ => .dict

/-- No entry on the path is missing (None) or excluded. -/
def Spec.Kept (E : List String) (p : List Step) (v : Val) : Prop :=
  ∀ q k r, p = q ++ Step.key k :: r → k ∉ E ∧ Spec.lookup (q ++ [Step.key k]) v ≠ some .none

/-- The path does not go into an isotope or a list of channels. -/
def Spec.Plain (p : List Step) : Prop := Step.key "isotope" ∉ p ∧ Step.key "channels" ∉ p

/-- The keys of every dictionary inside the value are distinct. -/
def Spec.Distinct (v : Val) : Prop := ∀ p d, Spec.lookup p v = some (.dict d) → Dict.WF d

/-- No list is directly inside a list. -/
def Spec.FlatLists (v : Val) : Prop :=
  ∀ p i l, Spec.lookup (p ++ [Step.idx i]) v ≠ some (.list l)

theorem lookup_append (p q : List Step) (v : Val) :
    Spec.lookup (p ++ q) v = (Spec.lookup p v).bind (Spec.lookup q) := by
  induction p generalizing v with
  | nil => simp [Spec.lookup]
  | cons s p ih =>
    cases s <;> cases v <;> simp only [List.cons_append, Spec.lookup, Option.bind_none]
    · split <;> simp [ih]
    · split <;> simp [ih]

/-- The image of an entry. -/
def conv (k : String) (v : Val) : Py Val :=
  if k = "isotope" then symbolOf v else if k = "channels" then channelsOf v else reduceE v

theorem reduceD_keep (E : List String) (d e : List (String × Val)) (h : reduceD E d = .ok e)
    (k : String) (w : Val) (hg : get? d k = some w) (hk : k ∉ E) (hw : w ≠ .none) :
    ∃ r, conv k w = .ok r ∧ get? e k = some r := by
  induction d generalizing e with
  | nil => simp at hg
  | cons p d ih =>
    obtain ⟨a, v⟩ := p
    rw [get?_cons] at hg
    rw [reduceD] at h
    by_cases hd : a ∈ E ∨ v = .none
    · rw [if_pos hd] at h
      refine ih e h ?_
      split_ifs at hg with hak
      · simp only at hak
        injection hg with hg
        simp only at hg
        subst hak hg
        rcases hd with hd | hd
        · exact absurd hd hk
        · exact absurd hd hw
      · exact hg
    · rw [if_neg hd] at h
      change (match conv a v, reduceD E d with
        | .ok r, .ok e => .ok ((a, r) :: e)
        | .error x, _ => .error x
        | _, .error x => .error x) = Except.ok e at h
      cases hc : conv a v with
      | error x => rw [hc] at h; simp at h
      | ok r =>
        cases hr : reduceD E d with
        | error x => rw [hc, hr] at h; simp at h
        | ok e' =>
          rw [hc, hr] at h
          injection h with h
          subst h
          split_ifs at hg with hak
          · simp only at hak
            injection hg with hg
            simp only at hg
            subst hak hg
            exact ⟨r, hc, by simp [get?_cons]⟩
          · obtain ⟨r', h1, h2⟩ := ih e' hr hg
            refine ⟨r', h1, ?_⟩
            rw [get?_cons, if_neg hak]
            exact h2

theorem reduceD_drop (E : List String) (d e : List (String × Val)) (hwf : Dict.WF d)
    (h : reduceD E d = .ok e) (k : String)
    (hk : k ∈ E ∨ get? d k = none ∨ get? d k = some .none) : get? e k = none := by
  induction d generalizing e with
  | nil => rw [reduceD] at h; injection h with h; subst h; simp
  | cons p d ih =>
    obtain ⟨a, v⟩ := p
    have hwf' : Dict.WF d := by
      unfold Dict.WF at hwf ⊢
      rw [List.map_cons, List.nodup_cons] at hwf
      exact hwf.2
    have hna : get? d a = none := by
      unfold Dict.WF at hwf
      rw [List.map_cons, List.nodup_cons] at hwf
      rw [get?_eq_none_iff]
      exact hwf.1
    have hk' : k ∈ E ∨ get? d k = none ∨ get? d k = some .none := by
      rw [get?_cons] at hk
      by_cases hak : a = k
      · right; left
        rw [← hak]; exact hna
      · rw [if_neg (show ¬ (a, v).1 = k by exact hak)] at hk
        exact hk
    rw [reduceD] at h
    by_cases hd : a ∈ E ∨ v = .none
    · rw [if_pos hd] at h
      exact ih e hwf' h hk'
    · rw [if_neg hd] at h
      change (match conv a v, reduceD E d with
        | .ok r, .ok e => .ok ((a, r) :: e)
        | .error x, _ => .error x
        | _, .error x => .error x) = Except.ok e at h
      cases hc : conv a v with
      | error x => rw [hc] at h; simp at h
      | ok r =>
        cases hr : reduceD E d with
        | error x => rw [hc, hr] at h; simp at h
        | ok e' =>
          rw [hc, hr] at h
          injection h with h
          subst h
          rw [get?_cons, if_neg]
          · exact ih e' hwf' hr hk'
          · intro hak
            simp only at hak
            subst hak
            rw [get?_cons, if_pos rfl] at hk
            rcases hk with hk | hk | hk
            · exact hd (Or.inl hk)
            · cases hk
            · injection hk with hk
              exact hd (Or.inr hk)

theorem reduceL_get (l e : List Val) (h : reduceL l = .ok e) (i : Nat) :
    e.length = l.length ∧ ∀ w, l[i]? = some w → ∃ r, reduceV dflt w = .ok r ∧ e[i]? = some r := by
  induction l generalizing e i with
  | nil => rw [reduceL] at h; injection h with h; subst h; simp
  | cons v l ih =>
    rw [reduceL] at h
    cases hc : reduceV dflt v with
    | error x => rw [hc] at h; simp at h
    | ok r =>
      cases hr : reduceL l with
      | error x => rw [hc, hr] at h; simp at h
      | ok e' =>
        rw [hc, hr] at h
        injection h with h
        subst h
        refine ⟨by simp [(ih e' hr 0).1], ?_⟩
        intro w hw
        cases i with
        | zero =>
          simp only [List.getElem?_cons_zero, Option.some.injEq] at hw ⊢
          subst hw
          exact ⟨r, hc, rfl⟩
        | succ i =>
          simp only [List.getElem?_cons_succ] at hw ⊢
          exact (ih e' hr i).2 w hw

theorem reduceE_shape (v r : Val) (h : reduceE v = .ok r) : Spec.shape r = Spec.shape v := by
  cases v with
  | dict d =>
    rw [reduceE] at h
    split at h
    · injection h with h; subst h; rfl
    · cases h
  | list l =>
    rw [reduceE] at h
    split at h
    · rename_i e he
      injection h with h; subst h
      simp [Spec.shape, (reduceL_get l e he 0).1]
    · cases h
  | _ => rw [reduceE] at h; injection h with h; subst h; rfl

theorem reduceV_eq_reduceE (v : Val) (h : ∀ l, v ≠ .list l) : reduceV dflt v = reduceE v := by
  cases v with
  | list l => exact absurd rfl (h l)
  | _ => rw [reduceV, reduceE]

/-- The top level behaves like an entry, with its own exclusion list. -/
def reduceT (E : List String) : Val → Py Val
  | .dict d => reduceV E (.dict d)
  | v => reduceE v

theorem reduceT_dflt (v : Val) : reduceT dflt v = reduceE v := by
  cases v with
  | dict d => exact reduceV_eq_reduceE _ (by intro l e; cases e)
  | _ => rfl

theorem kept_tail {E : List String} {s : Step} {p : List Step} {v w : Val}
    (hs : ∀ q, Spec.lookup (s :: q) v = Spec.lookup q w) (h : Spec.Kept E (s :: p) v) :
    Spec.Kept E p w := by
  intro q k r he
  have := h (s :: q) k r (by rw [he]; rfl)
  rw [List.cons_append, hs] at this
  exact this

/-- Following a path that is kept. -/
theorem follow (E : List String) (hE : "property_units" ∈ E) (p : List Step) (v r w : Val)
    (hf : Spec.FlatLists v)
    (hr : reduceT E v = .ok r) (hp : Spec.Plain p) (hk : Spec.Kept E p v)
    (hl : Spec.lookup p v = some w) :
    ∃ r', Spec.lookup p r = some r' ∧
      (if p = [] then reduceT E w = .ok r' else reduceE w = .ok r') := by
  induction p generalizing E v r with
  | nil =>
    simp only [Spec.lookup, Option.some.injEq] at hl
    subst hl
    exact ⟨r, rfl, by simpa using hr⟩
  | cons s p ih =>
    have hpp : Spec.Plain p :=
      ⟨fun h => hp.1 (List.mem_cons_of_mem _ h), fun h => hp.2 (List.mem_cons_of_mem _ h)⟩
    -- one step down
    have step : ∀ v' r', reduceE v' = .ok r' → (∀ q, Spec.lookup (s :: q) v = Spec.lookup q v') →
        (∀ q, Spec.lookup (s :: q) r = Spec.lookup q r') →
        ∃ r', Spec.lookup (s :: p) r = some r' ∧
          (if s :: p = [] then reduceT E w = .ok r' else reduceE w = .ok r') := by
      intro v' r' hrv hv hrr
      have hf' : Spec.FlatLists v' := by
        intro q i l he
        exact hf (s :: q) i l (by rw [List.cons_append, hv]; exact he)
      have hT : reduceT dflt v' = .ok r' := by
        rw [reduceT_dflt]
        exact hrv
      have hk' : Spec.Kept dflt p v' := by
        have := kept_tail hv hk
        intro q k t he
        refine ⟨?_, (this q k t he).2⟩
        intro hd
        have hd : k = "property_units" := by simpa [dflt] using hd
        rw [hd] at he
        exact (this q _ t he).1 hE
      obtain ⟨r'', h1, h2⟩ := ih dflt (by simp [dflt]) v' r' hf' hT hpp hk' (by rw [← hv]; exact hl)
      refine ⟨r'', by rw [hrr]; exact h1, ?_⟩
      rw [if_neg (by simp)]
      by_cases hp0 : p = []
      · rw [if_pos hp0] at h2
        rw [reduceT_dflt] at h2
        exact h2
      · rw [if_neg hp0] at h2
        exact h2
    cases s with
    | key k =>
      cases v with
      | dict d =>
        change reduceV E (.dict d) = .ok r at hr
        rw [reduceV] at hr
        cases hd : reduceD E d with
        | error x => rw [hd] at hr; cases hr
        | ok e =>
          rw [hd] at hr
          injection hr with hr
          subst hr
          cases hg : get? d k with
          | none => simp [Spec.lookup, hg] at hl
          | some v' =>
            have hkk := hk [] k p rfl
            have hne : v' ≠ .none := by
              intro he
              apply hkk.2
              simp [Spec.lookup, hg, he]
            obtain ⟨r', h1, h2⟩ := reduceD_keep E d e hd k v' hg hkk.1 hne
            have hki : k ≠ "isotope" := by
              intro he; apply hp.1; simp [he]
            have hkc : k ≠ "channels" := by
              intro he; apply hp.2; simp [he]
            unfold conv at h1
            rw [if_neg hki, if_neg hkc] at h1
            exact step v' r' h1 (by intro q; simp [Spec.lookup, hg])
              (by intro q; simp [Spec.lookup, h2])
      | _ => simp [Spec.lookup] at hl
    | idx i =>
      cases v with
      | list l =>
        change reduceE (.list l) = .ok r at hr
        rw [reduceE] at hr
        cases hd : reduceL l with
        | error x => rw [hd] at hr; cases hr
        | ok e =>
          rw [hd] at hr
          injection hr with hr
          subst hr
          cases hg : l[i]? with
          | none => simp [Spec.lookup, hg] at hl
          | some v' =>
            obtain ⟨r', h1, h2⟩ := (reduceL_get l e hd i).2 v' hg
            rw [reduceV_eq_reduceE] at h1
            · exact step v' r' h1 (by intro q; simp [Spec.lookup, hg])
                (by intro q; simp [Spec.lookup, h2])
            · intro l' he
              apply hf [] i l'
              simp [Spec.lookup, hg, he]
      | _ => simp [Spec.lookup] at hl

/-- A path that is cut or that led nowhere. -/
theorem cut (E : List String) (hE : "property_units" ∈ E) (p : List Step) (v r : Val)
    (hwf : Spec.Distinct v) (hf : Spec.FlatLists v)
    (htop : ∀ k ∈ E, k ≠ "property_units" → ∀ s q, Step.key k ∈ q → Spec.lookup (s :: q) v = none)
    (hr : reduceT E v = .ok r) (hp : Spec.Plain p)
    (h : Spec.lookup p v = none ∨ ¬ Spec.Kept E p v) : Spec.lookup p r = none := by
  induction p generalizing E v r with
  | nil =>
    rcases h with h | h
    · simp [Spec.lookup] at h
    · exfalso
      apply h
      intro q k t he
      simp at he
  | cons s p ih =>
    have hpp : Spec.Plain p :=
      ⟨fun h => hp.1 (List.mem_cons_of_mem _ h), fun h => hp.2 (List.mem_cons_of_mem _ h)⟩
    have step : ∀ v' r', reduceE v' = .ok r' → (∀ q, Spec.lookup (s :: q) v = Spec.lookup q v') →
        (∀ q, Spec.lookup (s :: q) r = Spec.lookup q r') →
        (∀ k, s = .key k → k ∉ E ∧ v' ≠ .none) →
        Spec.lookup (s :: p) r = none := by
      intro v' r' hrv hv hrr hs
      rw [hrr]
      refine ih dflt (by simp [dflt]) v' r' ?_ ?_ ?_ ?_ hpp ?_
      · intro q d he
        exact hwf (s :: q) d (by rw [hv]; exact he)
      · intro q i l he
        exact hf (s :: q) i l (by rw [List.cons_append, hv]; exact he)
      · intro k hk hn
        exact absurd (by simpa [dflt] using hk) hn
      · rw [reduceT_dflt]; exact hrv
      · rcases h with h | h
        · left; rw [← hv]; exact h
        · unfold Spec.Kept at h
          push Not at h
          obtain ⟨q, k, t, he, hb⟩ := h
          cases q with
          | nil =>
            rw [List.nil_append, List.cons.injEq] at he
            have hs' := hs k he.1
            exfalso
            have := hb hs'.1
            rw [List.nil_append, ← he.1, hv] at this
            simp only [Spec.lookup, Option.some.injEq] at this
            exact hs'.2 this
          | cons a q =>
            rw [List.cons_append, List.cons.injEq] at he
            obtain ⟨rfl, he⟩ := he
            by_cases hkE : k ∈ E
            · by_cases hku : k = "property_units"
              · right
                intro hK
                exact (hK q k t he).1 (by simp [dflt, hku])
              · left
                rw [← hv]
                exact htop k hkE hku s p (by rw [he]; simp)
            · right
              intro hK
              apply (hK q k t he).2
              have := hb hkE
              rw [List.cons_append, hv] at this
              exact this
    cases s with
    | key k =>
      cases v with
      | dict d =>
        change reduceV E (.dict d) = .ok r at hr
        rw [reduceV] at hr
        cases hd : reduceD E d with
        | error x => rw [hd] at hr; cases hr
        | ok e =>
          rw [hd] at hr
          injection hr with hr
          subst hr
          have hd' := hwf [] d rfl
          by_cases hx : k ∈ E ∨ get? d k = none ∨ get? d k = some .none
          · have := reduceD_drop E d e hd' hd k hx
            simp [Spec.lookup, this]
          · push Not at hx
            obtain ⟨hx1, hx2, hx3⟩ := hx
            cases hg : get? d k with
            | none => exact absurd hg hx2
            | some v' =>
              have hne : v' ≠ .none := by
                intro he
                apply hx3
                rw [hg, he]
              obtain ⟨r', h1, h2⟩ := reduceD_keep E d e hd k v' hg hx1 hne
              have hki : k ≠ "isotope" := by
                intro he; apply hp.1; simp [he]
              have hkc : k ≠ "channels" := by
                intro he; apply hp.2; simp [he]
              unfold conv at h1
              rw [if_neg hki, if_neg hkc] at h1
              refine step v' r' h1 (by intro q; simp [Spec.lookup, hg])
                (by intro q; simp [Spec.lookup, h2]) ?_
              intro k' hk'
              injection hk' with hk'
              subst hk'
              exact ⟨hx1, hne⟩
      | list l =>
        change reduceE (.list l) = .ok r at hr
        have := reduceE_shape _ _ hr
        cases r <;> simp [Spec.shape] at this
        simp [Spec.lookup]
      | _ =>
        change Except.ok _ = Except.ok r at hr
        injection hr with hr
        subst hr
        simp [Spec.lookup]
    | idx i =>
      cases v with
      | list l =>
        change reduceE (.list l) = .ok r at hr
        rw [reduceE] at hr
        cases hd : reduceL l with
        | error x => rw [hd] at hr; cases hr
        | ok e =>
          rw [hd] at hr
          injection hr with hr
          subst hr
          cases hg : l[i]? with
          | none =>
            have hlen := (reduceL_get l e hd i).1
            have : e[i]? = none := by
              rw [List.getElem?_eq_none_iff] at hg ⊢
              omega
            simp [Spec.lookup, this]
          | some v' =>
            obtain ⟨r', h1, h2⟩ := (reduceL_get l e hd i).2 v' hg
            rw [reduceV_eq_reduceE] at h1
            · exact step v' r' h1 (by intro q; simp [Spec.lookup, hg])
                (by intro q; simp [Spec.lookup, h2]) (by intro k hk; cases hk)
            · intro l' he
              apply hf [] i l'
              simp [Spec.lookup, hg, he]
      | dict d =>
        change reduceV E (.dict d) = .ok r at hr
        rw [reduceV] at hr
        cases hd : reduceD E d with
        | error x => rw [hd] at hr; cases hr
        | ok e =>
          rw [hd] at hr
          injection hr with hr
          subst hr
          simp [Spec.lookup]
      | _ =>
        change Except.ok _ = Except.ok r at hr
        injection hr with hr
        subst hr
        simp [Spec.lookup]

theorem symbolsOf_spec (l r : List Val) (h : symbolsOf l = .ok r) :
    r.map some = l.map (Spec.lookup [.key "symbol"]) := by
  induction l generalizing r with
  | nil => rw [symbolsOf] at h; injection h with h; subst h; rfl
  | cons v l ih =>
    rw [symbolsOf] at h
    cases hs : symbolOf v with
    | error x => rw [hs] at h; simp at h
    | ok s =>
      cases hl : symbolsOf l with
      | error x => rw [hs, hl] at h; simp at h
      | ok t =>
        rw [hs, hl] at h
        injection h with h
        subst h
        rw [List.map_cons, List.map_cons, ih t hl]
        congr 1
        unfold symbolOf at hs
        split at hs
        · rename_i d
          cases hg : get? d "symbol" with
          | none => rw [hg] at hs; simp at hs
          | some s' =>
            rw [hg] at hs
            injection hs with hs
            subst hs
            simp [Spec.lookup, hg]
        · cases hs

theorem symbolOf_spec (v r : Val) (h : symbolOf v = .ok r) :
    Spec.lookup [.key "symbol"] v = some r := by
  have := symbolsOf_spec [v] [r] (by rw [symbolsOf, h, symbolsOf])
  simpa using this.symm

/-- What is at a special entry of a kept dictionary. -/
theorem follow_entry (E : List String) (hE : "property_units" ∈ E) (p : List Step) (k : String)
    (d : List (String × Val)) (r w : Val) (hf : Spec.FlatLists (.dict d))
    (hr : reduceV E (.dict d) = .ok r) (hp : Spec.Plain p)
    (hk : Spec.Kept E (p ++ [.key k]) (.dict d))
    (hl : Spec.lookup (p ++ [.key k]) (.dict d) = some w) :
    ∃ r', Spec.lookup (p ++ [.key k]) r = some r' ∧ conv k w = .ok r' := by
  have hkp : Spec.Kept E p (.dict d) := by
    intro q k' t he
    exact hk q k' (t ++ [.key k]) (by rw [he]; simp)
  rw [lookup_append] at hl
  cases hu : Spec.lookup p (.dict d) with
  | none => rw [hu] at hl; simp at hl
  | some u =>
    rw [hu, Option.bind_some] at hl
    obtain ⟨r', h1, h2⟩ := follow E hE p (.dict d) r u hf hr hp hkp hu
    cases u with
    | dict g =>
      have hlast := hk p k [] rfl
      cases hg : get? g k with
      | none => simp [Spec.lookup, hg] at hl
      | some w' =>
        have hw : w' = w := by simpa [Spec.lookup, hg] using hl
        subst hw
        have hne : w' ≠ .none := by
          intro he
          apply hlast.2
          rw [lookup_append, hu]
          simp [Spec.lookup, hg, he]
        have key : ∀ E', k ∉ E' → reduceV E' (.dict g) = .ok r' →
            ∃ r', Spec.lookup (p ++ [.key k]) r = some r' ∧ conv k w' = .ok r' := by
          intro E' hE' hv
          rw [reduceV] at hv
          cases hd : reduceD E' g with
          | error x => rw [hd] at hv; cases hv
          | ok e =>
            rw [hd] at hv
            injection hv with hv
            subst hv
            obtain ⟨r'', h3, h4⟩ := reduceD_keep E' g e hd k w' hg hE' hne
            refine ⟨r'', ?_, h3⟩
            rw [lookup_append, h1]
            simp [Spec.lookup, h4]
        by_cases hp0 : p = []
        · rw [if_pos hp0] at h2
          exact key E hlast.1 h2
        · rw [if_neg hp0, ← reduceV_eq_reduceE _ (by intro l e; cases e)] at h2
          refine key dflt ?_ h2
          intro hd
          have hd : k = "property_units" := by simpa [dflt] using hd
          rw [hd] at hlast
          exact hlast.1 hE
    | _ => simp [Spec.lookup] at hl

/-- **C26, partial.** For a dictionary without lists directly inside lists, and an exclusion
list that contains "property_units" and whose other members do not occur below the top level:
what is at a path of the reduced dictionary is what was at that path before if no entry on the
path is None or excluded, and otherwise there is nothing; isotopes and channels are replaced by
their symbols.

Missing for the full property: other exclusion lists and nested lists (`C26_counterexample`). -/
theorem C26_reduced_partial (E : List String) (hE : "property_units" ∈ E)
    (d : List (String × Val)) (r : Val) (hr : reduceV E (.dict d) = .ok r)
    (hwf : Spec.Distinct (.dict d)) (hf : Spec.FlatLists (.dict d))
    (htop : ∀ k ∈ E, k ≠ "property_units" → ∀ s q, Step.key k ∈ q →
      Spec.lookup (s :: q) (.dict d) = none) :
    (∀ p, Spec.Plain p → Spec.Kept E p (.dict d) →
      (Spec.lookup p r).map Spec.shape = (Spec.lookup p (.dict d)).map Spec.shape) ∧
    (∀ p, Spec.Plain p → ¬ Spec.Kept E p (.dict d) → Spec.lookup p r = none) ∧
    (∀ p, Spec.Plain p → Spec.Kept E (p ++ [.key "isotope"]) (.dict d) →
      ∀ w, Spec.lookup (p ++ [.key "isotope"]) (.dict d) = some w →
        Spec.lookup (p ++ [.key "isotope"]) r = Spec.lookup [.key "symbol"] w) ∧
    (∀ p, Spec.Plain p → Spec.Kept E (p ++ [.key "channels"]) (.dict d) →
      ∀ l, Spec.lookup (p ++ [.key "channels"]) (.dict d) = some (.list l) →
        ∃ l', Spec.lookup (p ++ [.key "channels"]) r = some (.list l') ∧
          l'.map some = l.map (Spec.lookup [.key "symbol"])) := by
  refine ⟨?_, ?_, ?_, ?_⟩
  · intro p hp hk
    cases hl : Spec.lookup p (.dict d) with
    | none => rw [cut E hE p (.dict d) r hwf hf htop hr hp (Or.inl hl)]
    | some w =>
      obtain ⟨r', h1, h2⟩ := follow E hE p (.dict d) r w hf hr hp hk hl
      rw [h1, Option.map_some, Option.map_some]
      congr 1
      by_cases hp0 : p = []
      · subst hp0
        simp only [Spec.lookup, Option.some.injEq] at hl h1
        subst hl h1
        rw [reduceV] at hr
        split at hr
        · injection hr with hr
          subst hr
          rfl
        · cases hr
      · rw [if_neg hp0] at h2
        exact reduceE_shape w r' h2
  · intro p hp hk
    exact cut E hE p (.dict d) r hwf hf htop hr hp (Or.inr hk)
  · intro p hp hk w hl
    obtain ⟨r', h1, h2⟩ := follow_entry E hE p "isotope" d r w hf hr hp hk hl
    rw [h1]
    unfold conv at h2
    rw [if_pos rfl] at h2
    exact (symbolOf_spec w r' h2).symm
  · intro p hp hk l hl
    obtain ⟨r', h1, h2⟩ := follow_entry E hE p "channels" d r (.list l) hf hr hp hk hl
    unfold conv at h2
    rw [if_neg (by decide), if_pos rfl, channelsOf] at h2
    split at h2
    · rename_i l' hl'
      injection h2 with h2
      subst h2
      exact ⟨l', h1, symbolsOf_spec l l' hl'⟩
    · cases h2

/-- A simulator with a spin system; its own "indexes" are excluded. -/
def exampleDict : List (String × Val) :=
  [("indexes", .list [.num 0]), ("name", .none),
   ("spin_systems", .list [.dict [("property_units", .dict []), ("sites", .list [.dict
      [("isotope", .dict [("symbol", .str "29Si"), ("spin", .num 1)]), ("label", .none),
       ("isotropic_chemical_shift", .num (-90))]])]]),
   ("channels", .list [.dict [("symbol", .str "29Si")]])]

example : reduceV ["property_units", "indexes"] (.dict exampleDict) = .ok (.dict
    [("spin_systems", .list [.dict [("sites", .list [.dict
      [("isotope", .str "29Si"), ("isotropic_chemical_shift", .num (-90))]])]]),
     ("channels", .list [.str "29Si"])]) := by decide +kernel

/-- The hypotheses of `C26_reduced_partial` can be met. -/
example : ∃ r, reduceV dflt (.dict [("x", .num 3), ("name", .none)]) = .ok r ∧
    Spec.lookup [.key "x"] r = some (.num 3) ∧ Spec.lookup [.key "name"] r = none := by
  have hl : ∀ p v, Spec.lookup p (.dict [("x", .num 3), ("name", .none)]) = some v →
      (p = [] ∧ v = .dict [("x", .num 3), ("name", .none)]) ∨ (p = [.key "x"] ∧ v = .num 3) ∨
        (p = [.key "name"] ∧ v = .none) := by
    intro p v h
    cases p with
    | nil => left; simpa [Spec.lookup, eq_comm] using h
    | cons s p =>
      cases s with
      | idx i => simp [Spec.lookup] at h
      | key k =>
        simp only [Spec.lookup, get?_cons, get?_nil] at h
        by_cases h1 : "x" = k
        · rw [if_pos h1] at h
          subst h1
          cases p with
          | nil => right; left; simpa [Spec.lookup, eq_comm] using h
          | cons s p => cases s <;> simp [Spec.lookup] at h
        · rw [if_neg h1] at h
          by_cases h2 : "name" = k
          · rw [if_pos h2] at h
            subst h2
            cases p with
            | nil => right; right; simpa [Spec.lookup, eq_comm] using h
            | cons s p => cases s <;> simp [Spec.lookup] at h
          · rw [if_neg h2] at h
            cases h
  have hr : reduceV dflt (.dict [("x", .num 3), ("name", .none)]) =
      .ok (.dict [("x", .num 3)]) := by decide +kernel
  obtain ⟨h1, h2, -, -⟩ := C26_reduced_partial dflt (by simp [dflt])
    [("x", .num 3), ("name", .none)] (.dict [("x", .num 3)]) hr
    (by
      intro p d h
      rcases hl p _ h with ⟨_, h⟩ | ⟨_, h⟩ | ⟨_, h⟩
      · injection h with h
        subst h
        unfold Dict.WF
        decide
      · cases h
      · cases h)
    (by
      intro p i l h
      rcases hl _ _ h with ⟨_, h⟩ | ⟨_, h⟩ | ⟨_, h⟩ <;> cases h)
    (by
      intro k hk hn
      exact absurd (by simpa [dflt] using hk) hn)
  refine ⟨_, hr, by decide +kernel, h2 [.key "name"] (by unfold Spec.Plain; decide) ?_⟩
  intro hK
  exact (hK [] "name" [] rfl).2 (by decide +kernel)

/-- **C26, disagreement.** An excluded key survives below the top level, and an entry that is
None survives in a list inside a list. -/
theorem C26_counterexample :
    (reduceV ["property_units", "indexes"] (.dict [("a", .dict [("indexes", .num 1)])]) =
      .ok (.dict [("a", .dict [("indexes", .num 1)])])) ∧
    (reduceV dflt (.dict [("a", .list [.list [.dict [("b", .none)]]])]) =
      .ok (.dict [("a", .list [.list [.dict [("b", .none)]]])])) := by
  decide +kernel

/-! ## `flatten_dict` -/

/-- The key of a leaf (line 50). -/
def flatKey (prev : Option String) (k : String) : String :=
  match prev with
  | some p => p ++ "." ++ k
  | none => k

mutual
/-- The loop of `flatten_dict(obj, previous_key)` (utils/__init__.py lines 45-55), with the
result so far. Only the last key is handed down. -/
def flattenD (prev : Option String) (acc : Dict Val) : List (String × Val) → Dict Val
  | [] => acc
  | (k, v) :: d => flattenD prev (flattenV prev acc k v) d

/-- One turn of the loop (lines 48-53). -/
def flattenV (prev : Option String) (acc : Dict Val) (k : String) : Val → Dict Val
  | .dict e => acc.update (flattenD (some k) [] e)
  | .none => acc.set (flatKey prev k) .none
  | .num q => acc.set (flatKey prev k) (.num q)
  | .str s => acc.set (flatKey prev k) (.str s)
  | .list l => acc.set (flatKey prev k) (.list l)
end

/-- `flatten_dict(obj)` (utils/__init__.py lines 45-55). -/
def flatten (d : List (String × Val)) : Dict Val := flattenD none [] d

/-- Is it a dictionary (line 49)? -/
def Spec.IsDict : Val → Prop
  | .dict _ => True
  | _ => False

/-- The leaves of a dictionary of depth at most two, with their paths. -/
def Spec.leaves (d : List (String × Val)) : List (List String × Val) :=
  d.flatMap fun p => match p.2 with
    | .dict e => e.map fun q => ([p.1, q.1], q.2)
    | v => [([p.1], v)]

/-- A dictionary of depth at most two, with distinct keys without dots. -/
def Spec.Shallow (d : List (String × Val)) : Prop :=
  Dict.WF d ∧ ∀ k v, (k, v) ∈ d → '.' ∉ k.toList ∧ ∀ e, v = .dict e →
    Dict.WF e ∧ ∀ k' w, (k', w) ∈ e → '.' ∉ k'.toList ∧ ¬ Spec.IsDict w

/-- The key that belongs to a path. -/
def Spec.dotted (p : List String) : String := String.intercalate "." p

theorem flattenV_leaf (prev : Option String) (acc : Dict Val) (k : String) (v : Val)
    (h : ¬ Spec.IsDict v) : flattenV prev acc k v = acc.set (flatKey prev k) v := by
  cases v with
  | dict e => exact absurd trivial h
  | _ => rw [flattenV]

theorem set_fresh {V : Type} (d : Dict V) (k : String) (v : V) (h : k ∉ d.map Prod.fst) :
    d.set k v = d ++ [(k, v)] := by
  unfold Dict.set
  rw [if_neg]
  rw [Dict.has_iff_mem]
  exact h

theorem update_fresh {V : Type} (d e : Dict V) (h : ((d ++ e).map Prod.fst).Nodup) :
    d.update e = d ++ e := by
  induction e generalizing d with
  | nil => simp [Dict.update]
  | cons p e ih =>
    rw [Dict.update_cons, set_fresh, ih]
    · simp
    · simpa using h
    · intro hm
      rw [List.map_append, List.nodup_append] at h
      exact h.2.2 _ hm p.1 (by simp) rfl

theorem flattenD_leaves (prev : Option String) (acc : Dict Val) (d : List (String × Val))
    (hl : ∀ k v, (k, v) ∈ d → ¬ Spec.IsDict v)
    (hn : ((acc ++ d.map fun q => (flatKey prev q.1, q.2)).map Prod.fst).Nodup) :
    flattenD prev acc d = acc ++ d.map fun q => (flatKey prev q.1, q.2) := by
  induction d generalizing acc with
  | nil => simp [flattenD]
  | cons p d ih =>
    obtain ⟨k, v⟩ := p
    rw [flattenD, flattenV_leaf _ _ _ _ (hl k v (by simp)), set_fresh, ih]
    · simp
    · intro k' v' hm
      exact hl k' v' (List.mem_cons_of_mem _ hm)
    · simpa using hn
    · intro hm
      rw [List.map_append, List.nodup_append] at hn
      exact hn.2.2 _ hm (flatKey prev k) (by simp) rfl

/-- The items the flattened dictionary should have. -/
def flatItems (d : List (String × Val)) : Dict Val :=
  d.flatMap fun p => match p.2 with
    | .dict e => e.map fun q => (flatKey (some p.1) q.1, q.2)
    | v => [(p.1, v)]

theorem flatItems_cons_leaf (k : String) (v : Val) (d : List (String × Val))
    (h : ¬ Spec.IsDict v) : flatItems ((k, v) :: d) = (k, v) :: flatItems d := by
  cases v with
  | dict e => exact absurd trivial h
  | _ => rfl

theorem flatItems_cons_dict (k : String) (e d : List (String × Val)) :
    flatItems ((k, .dict e) :: d) =
      (e.map fun q => (flatKey (some k) q.1, q.2)) ++ flatItems d := rfl

theorem flattenD_top (acc : Dict Val) (d : List (String × Val))
    (hs : ∀ k e, (k, Val.dict e) ∈ d → ∀ k' w, (k', w) ∈ e → ¬ Spec.IsDict w)
    (hn : ((acc ++ flatItems d).map Prod.fst).Nodup) :
    flattenD none acc d = acc ++ flatItems d := by
  induction d generalizing acc with
  | nil => simp [flattenD, flatItems]
  | cons p d ih =>
    obtain ⟨k, v⟩ := p
    have hs' : ∀ k e, (k, Val.dict e) ∈ d → ∀ k' w, (k', w) ∈ e → ¬ Spec.IsDict w :=
      fun k e hm => hs k e (List.mem_cons_of_mem _ hm)
    by_cases hv : Spec.IsDict v
    · cases v with
      | dict e =>
        rw [flatItems_cons_dict] at hn ⊢
        have hne : ((acc ++ e.map fun q => (flatKey (some k) q.1, q.2)).map Prod.fst).Nodup := by
          rw [← List.append_assoc, List.map_append, List.nodup_append] at hn
          exact hn.1
        have hne' : ((([] : Dict Val) ++ e.map fun q => (flatKey (some k) q.1, q.2)).map
            Prod.fst).Nodup := by
          rw [List.map_append, List.nodup_append] at hne
          rw [List.nil_append]
          exact hne.2.1
        rw [flattenD, flattenV, flattenD_leaves (some k) [] e (hs k e (by simp)) hne',
          List.nil_append, update_fresh _ _ hne, ih _ hs']
        · simp
        · rw [List.append_assoc]; exact hn
      | _ => exact absurd hv (by simp [Spec.IsDict])
    · rw [flatItems_cons_leaf _ _ _ hv] at hn ⊢
      rw [flattenD, flattenV_leaf _ _ _ _ hv, set_fresh, ih _ hs']
      · simp [flatKey]
      · simpa [flatKey] using hn
      · intro hm
        rw [List.map_append, List.nodup_append] at hn
        exact hn.2.2 _ hm k (by simp) rfl

theorem dotted_one (k : String) : Spec.dotted [k] = k := by
  simp [Spec.dotted]

theorem dotted_two (p k : String) : Spec.dotted [p, k] = flatKey (some p) k := by
  unfold Spec.dotted flatKey
  rfl

theorem flatItems_eq (d : List (String × Val)) :
    flatItems d = (Spec.leaves d).map fun l => (Spec.dotted l.1, l.2) := by
  induction d with
  | nil => rfl
  | cons p d ih =>
    obtain ⟨k, v⟩ := p
    by_cases hv : Spec.IsDict v
    · cases v with
      | dict e =>
        rw [flatItems_cons_dict, ih]
        simp [Spec.leaves, dotted_two, Function.comp_def]
      | _ => exact absurd hv (by simp [Spec.IsDict])
    · rw [flatItems_cons_leaf _ _ _ hv, ih]
      cases v with
      | dict e => exact absurd trivial hv
      | _ => simp [Spec.leaves, dotted_one]

theorem dot_split (a b a' b' : List Char) (h : a ++ '.' :: b = a' ++ '.' :: b')
    (ha : '.' ∉ a) (ha' : '.' ∉ a') : a = a' ∧ b = b' := by
  induction a generalizing a' with
  | nil =>
    cases a' with
    | nil => simpa using h
    | cons c a' =>
      simp only [List.nil_append, List.cons_append, List.cons.injEq] at h
      exact absurd (by simp [← h.1]) ha'
  | cons c a ih =>
    cases a' with
    | nil =>
      simp only [List.nil_append, List.cons_append, List.cons.injEq] at h
      exact absurd (by simp [h.1]) ha
    | cons c' a' =>
      simp only [List.cons_append, List.cons.injEq] at h
      have := ih a' h.2 (by intro hm; exact ha (List.mem_cons_of_mem _ hm))
        (by intro hm; exact ha' (List.mem_cons_of_mem _ hm))
      exact ⟨by rw [h.1, this.1], this.2⟩

theorem leaf_path (d : List (String × Val)) (hs : Spec.Shallow d) (l : List String × Val)
    (hl : l ∈ Spec.leaves d) :
    (∃ k, l.1 = [k] ∧ '.' ∉ k.toList) ∨
    (∃ k k', l.1 = [k, k'] ∧ '.' ∉ k.toList ∧ '.' ∉ k'.toList) := by
  unfold Spec.leaves at hl
  rw [List.mem_flatMap] at hl
  obtain ⟨⟨k, v⟩, hm, hl⟩ := hl
  obtain ⟨h1, h2⟩ := hs.2 k v hm
  cases v with
  | dict e =>
    simp only [List.mem_map] at hl
    obtain ⟨⟨k', w⟩, hm', rfl⟩ := hl
    exact Or.inr ⟨k, k', rfl, h1, ((h2 e rfl).2 k' w hm').1⟩
  | _ =>
    simp only [List.mem_singleton] at hl
    subst hl
    exact Or.inl ⟨k, rfl, h1⟩

theorem dotted_inj (p q : List String)
    (hp : (∃ k, p = [k] ∧ '.' ∉ k.toList) ∨
      (∃ k k', p = [k, k'] ∧ '.' ∉ k.toList ∧ '.' ∉ k'.toList))
    (hq : (∃ k, q = [k] ∧ '.' ∉ k.toList) ∨
      (∃ k k', q = [k, k'] ∧ '.' ∉ k.toList ∧ '.' ∉ k'.toList))
    (h : Spec.dotted p = Spec.dotted q) : p = q := by
  have tl : ∀ a b : String, (flatKey (some a) b).toList = a.toList ++ '.' :: b.toList := by
    intro a b
    simp [flatKey]
  rcases hp with ⟨k, rfl, hk⟩ | ⟨k, k', rfl, hk, hk'⟩ <;>
    rcases hq with ⟨m, rfl, hm⟩ | ⟨m, m', rfl, hm, hm'⟩
  · rw [dotted_one, dotted_one] at h
    rw [h]
  · rw [dotted_one, dotted_two] at h
    exfalso
    apply hk
    rw [h, tl]
    simp
  · rw [dotted_one, dotted_two] at h
    exfalso
    apply hm
    rw [← h, tl]
    simp
  · rw [dotted_two, dotted_two] at h
    have := congrArg String.toList h
    rw [tl, tl] at this
    obtain ⟨h1, h2⟩ := dot_split _ _ _ _ this hk hm
    rw [String.toList_inj.mp h1, String.toList_inj.mp h2]

theorem leaves_nodup (d : List (String × Val)) (hs : Spec.Shallow d) :
    ((Spec.leaves d).map Prod.fst).Nodup := by
  obtain ⟨hwf, hs⟩ := hs
  induction d with
  | nil => simp [Spec.leaves]
  | cons p d ih =>
    obtain ⟨k, v⟩ := p
    unfold Dict.WF at hwf
    rw [List.map_cons, List.nodup_cons] at hwf
    have ih := ih hwf.2 (fun k v hm => hs k v (List.mem_cons_of_mem _ hm))
    have hhead : ∀ l ∈ Spec.leaves d, ∀ t, l.1 ≠ k :: t := by
      intro l hl t he
      apply hwf.1
      unfold Spec.leaves at hl
      rw [List.mem_flatMap] at hl
      obtain ⟨⟨a, b⟩, hm, hl⟩ := hl
      have : k = a := by
        cases b with
        | dict e =>
          simp only [List.mem_map] at hl
          obtain ⟨q, _, rfl⟩ := hl
          simp only [List.cons.injEq] at he
          exact he.1.symm
        | _ =>
          simp only [List.mem_singleton] at hl
          subst hl
          simp only [List.cons.injEq] at he
          exact he.1.symm
      exact List.mem_map.mpr ⟨_, hm, this.symm⟩
    have happ : ∀ L : List (List String × Val), (L.map Prod.fst).Nodup →
        (∀ l ∈ L, ∃ t, l.1 = k :: t) → ((L ++ Spec.leaves d).map Prod.fst).Nodup := by
      intro L hL hk
      rw [List.map_append, List.nodup_append]
      refine ⟨hL, ih, ?_⟩
      intro a ha b hb hab
      obtain ⟨l, hl, rfl⟩ := List.mem_map.mp ha
      obtain ⟨m, hm, rfl⟩ := List.mem_map.mp hb
      obtain ⟨t, ht⟩ := hk l hl
      exact hhead m hm t (by rw [← hab]; exact ht)
    have hcons : Spec.leaves ((k, v) :: d) = Spec.leaves [(k, v)] ++ Spec.leaves d := by
      simp [Spec.leaves]
    rw [hcons]
    apply happ
    · cases v with
      | dict e =>
        have := ((hs k (.dict e) (by simp)).2 e rfl).1
        unfold Dict.WF at this
        have hc : (Spec.leaves [(k, .dict e)]).map Prod.fst =
            (e.map Prod.fst).map (fun s : String => [k, s]) := by
          simp [Spec.leaves]
        rw [hc]
        exact this.map (fun a b h => by simpa using h)
      | _ => simp [Spec.leaves]
    · intro l hl
      cases v with
      | dict e =>
        simp only [Spec.leaves, List.flatMap_cons, List.flatMap_nil, List.append_nil,
          List.mem_map] at hl
        obtain ⟨q, _, rfl⟩ := hl
        exact ⟨_, rfl⟩
      | _ =>
        simp only [Spec.leaves, List.flatMap_cons, List.flatMap_nil, List.append_nil,
          List.mem_singleton] at hl
        subst hl
        exact ⟨_, rfl⟩

/-- **C27, partial.** For a dictionary of depth at most two, with keys without dots, the
flattened dictionary has exactly the leaves of the dictionary, each under its own key: the keys
on the path joined by dots.

Missing for the full property: deeper dictionaries (`C27_counterexample`). -/
theorem C27_flatten_partial (d : List (String × Val)) (hs : Spec.Shallow d) :
    flatten d = (Spec.leaves d).map (fun l => (Spec.dotted l.1, l.2)) ∧
    Dict.WF (flatten d) ∧
    ∀ l ∈ Spec.leaves d, (flatten d).get? (Spec.dotted l.1) = some l.2 := by
  have hn : ((flatItems d).map Prod.fst).Nodup := by
    rw [flatItems_eq, List.map_map]
    have hc : (Prod.fst ∘ fun l : List String × Val => (Spec.dotted l.1, l.2)) =
        Spec.dotted ∘ Prod.fst := rfl
    rw [hc, ← List.map_map]
    refine List.Nodup.map_on ?_ (leaves_nodup d hs)
    intro a ha b hb hab
    obtain ⟨l, hl, rfl⟩ := List.mem_map.mp ha
    obtain ⟨m, hm, rfl⟩ := List.mem_map.mp hb
    exact dotted_inj _ _ (leaf_path d hs l hl) (leaf_path d hs m hm) hab
  have hf : flatten d = flatItems d := by
    unfold flatten
    rw [flattenD_top]
    · rfl
    · intro k e hm k' w hm'
      exact (((hs.2 k _ hm).2 e rfl).2 k' w hm').2
    · simpa using hn
  have hwf : Dict.WF (flatten d) := by
    rw [hf]
    exact hn
  refine ⟨by rw [hf, flatItems_eq], hwf, ?_⟩
  intro l hl
  apply Dict.mem_get? _ hwf
  rw [hf, flatItems_eq]
  exact List.mem_map.mpr ⟨l, hl, rfl⟩

/-- A serialised site is such a dictionary. -/
def exampleSite : List (String × Val) :=
  [("isotope", .str "27Al"), ("shielding_symmetric", .dict [("zeta", .num 10), ("eta", .num 0)]),
   ("quadrupolar", .dict [("Cq", .num 5), ("eta", .num 1)])]

example : Spec.Shallow exampleSite ∧ flatten exampleSite =
    [("isotope", .str "27Al"), ("shielding_symmetric.zeta", .num 10),
     ("shielding_symmetric.eta", .num 0), ("quadrupolar.Cq", .num 5),
     ("quadrupolar.eta", .num 1)] := by
  refine ⟨⟨by unfold Dict.WF; decide, ?_⟩, by decide +kernel⟩
  intro k v hm
  simp only [exampleSite, List.mem_cons, Prod.mk.injEq, List.not_mem_nil, or_false] at hm
  rcases hm with ⟨rfl, rfl⟩ | ⟨rfl, rfl⟩ | ⟨rfl, rfl⟩
  · exact ⟨by decide, by intro e he; cases he⟩
  all_goals
    refine ⟨by decide, ?_⟩
    intro e he
    injection he with he
    subst he
    refine ⟨by unfold Dict.WF; decide, ?_⟩
    intro k' w hm'
    simp only [List.mem_cons, Prod.mk.injEq, List.not_mem_nil, or_false] at hm'
    rcases hm' with ⟨rfl, rfl⟩ | ⟨rfl, rfl⟩ <;> exact ⟨by decide, by simp [Spec.IsDict]⟩

/-- **C27, disagreement.** At depth three only the last two keys are used: one of two leaves is
lost. -/
theorem C27_counterexample :
    flatten [("a", .dict [("x", .dict [("k", .num 1)])]),
      ("b", .dict [("x", .dict [("k", .num 2)])])] = [("x.k", .num 2)] := by
  decide +kernel

end MRS.Util
