import Verif.Run.Model
import Mathlib.Algebra.Module.Rat
import Mathlib.Algebra.Module.BigOperators
import Mathlib.Algebra.BigOperators.GroupWithZero.Action

/-!
# Images of runs — lemmas

Two runs that take the same decisions and whose contributions correspond give results that correspond, failures included, whatever the
pathways are.
-/

namespace MRS.Run

set_option linter.unusedSectionVars false

variable {Φ Φ' Path V V' : Type} [AddCommGroup V] [Module ℚ V] [AddCommGroup V'] [Module ℚ V']

/-- The image of an item of the result. -/
def Datum.image (π : V → V') : Datum V → Datum V'
  | .spec v => .spec (π v)
  | .empty => .empty
  | .strayRow => .strayRow

/-- Two environments that take the same decisions. -/
structure Parallel (env : Env Φ Path V) (env' : Env Φ' Path V') (π : V →+ V') : Prop where
  channel : env'.channel = env.channel
  gammaNeg : env'.gammaNeg = env.gammaNeg
  sel : env'.sel = env.sel
  rows : env'.rows = env.rows
  mirror : ∀ v, env'.mirror (π v) = π (env.mirror v)

/-- Two spin systems that take the same pathways, and contribute correspondingly whatever the pathway. -/
structure Match (env : Env Φ Path V) (env' : Env Φ' Path V') (π : V →+ V') (s : Sys Φ Path) (s' : Sys Φ' Path) : Prop where
  isotopes : s'.isotopes = s.isotopes
  explicit : s'.explicit = s.explicit
  core : ∀ p, (s'.abundance / env'.norm) • env'.core s'.phys p = π ((s.abundance / env.norm) • env.core s.phys p)

/-- Two spin systems that take the same pathways, and contribute correspondingly with all the lists of pathways that are `Good` for their number of
sites; their own is one of them. -/
structure MatchOn (env : Env Φ Path V) (env' : Env Φ' Path V') (π : V →+ V') (Good : ℕ → List Path → Prop) (s : Sys Φ Path) (s' : Sys Φ' Path) :
    Prop where
  isotopes : s'.isotopes = s.isotopes
  explicit : s'.explicit = s.explicit
  own : env.channel ∈ s.isotopes → ∀ ps, userOrSelected env s = .ok ps → Good s.isotopes.length ps
  core : env.channel ∈ s.isotopes → ∀ ps, Good s.isotopes.length ps →
    (s'.abundance / env'.norm) • (ps.map (env'.core s'.phys)).sum = π ((s.abundance / env.norm) • (ps.map (env.core s.phys)).sum)

theorem Match.on {env : Env Φ Path V} {env' : Env Φ' Path V'} {π : V →+ V'} {s : Sys Φ Path} {s' : Sys Φ' Path} (h : Match env env' π s s') :
    MatchOn env env' π (fun _ _ => True) s s' := by
  refine ⟨h.isotopes, h.explicit, fun _ _ _ => trivial, fun _ ps _ => ?_⟩
  rw [List.smul_sum, List.smul_sum, map_list_sum, List.map_map, List.map_map, List.map_map]
  congr 1
  exact List.map_congr_left fun p _ => h.core p

/-- What the state remembers is good for the number of sites that it remembers. -/
def St.Sane (Good : ℕ → List Path → Prop) (st : St Path V) : Prop :=
  Good st.pN st.paths ∧ ∀ iso, st.pIso = some iso → iso.length = st.pN

/-- The image of a state. -/
def St.image (π : V → V') (st : St Path V) : St Path V' := ⟨st.pN, st.pIso, st.paths, π st.amp1, st.ind.map fun o => o.map π⟩

/-- The image of a result. -/
def Out.image (π : V → V') : Out V → Out V'
  | .arr v => .arr (π v)
  | .list l => .list (l.map fun o => o.map π)

theorem cache_image {env : Env Φ Path V} {env' : Env Φ' Path V'} {π : V →+ V'} (h : Parallel env env' π) (st : St Path V)
    {Good : ℕ → List Path → Prop} {s : Sys Φ Path} {s' : Sys Φ' Path} (hs : MatchOn env env' π Good s s') :
    cache env' (st.image π) s' = (cache env st s).map (St.image π) := by
  unfold cache userOrSelected
  rw [hs.isotopes, hs.explicit, h.sel]
  change (if s.isotopes.length ≠ st.pN ∧ some s.isotopes ≠ st.pIso then _ else _) = _
  by_cases hc : s.isotopes.length ≠ st.pN ∧ some s.isotopes ≠ st.pIso
  · rw [if_pos hc, if_pos hc]
    cases s.explicit with
    | none =>
      simp only [Bind.bind, Except.bind]
      cases env.sel s.isotopes with
      | error e => rfl
      | ok p => cases p <;> rfl
    | some p => cases p <;> rfl
  · rw [if_neg hc, if_neg hc]
    rfl

theorem cache_sane {env : Env Φ Path V} {env' : Env Φ' Path V'} {π : V →+ V'} {Good : ℕ → List Path → Prop} (st st1 : St Path V)
    {s : Sys Φ Path} {s' : Sys Φ' Path} (hs : MatchOn env env' π Good s s') (hc : env.channel ∈ s.isotopes) (hst : st.Sane Good)
    (e : cache env st s = .ok st1) : st1.Sane Good ∧ s.isotopes.length = st1.pN := by
  unfold cache at e
  by_cases h : s.isotopes.length ≠ st.pN ∧ some s.isotopes ≠ st.pIso
  · rw [if_pos h] at e
    simp only [Bind.bind, Except.bind] at e
    cases hu : userOrSelected env s with
    | error x => rw [hu] at e; cases e
    | ok ps =>
      have hg := hs.own hc ps hu
      rw [hu] at e
      cases ps with
      | nil => cases e
      | cons p ps =>
        simp only at e
        injection e with e
        subst e
        refine ⟨⟨hg, fun iso hi => ?_⟩, rfl⟩
        injection hi with hi
        rw [← hi]
  · rw [if_neg h] at e
    injection e with e
    subst e
    refine ⟨hst, ?_⟩
    by_contra hne
    exact h ⟨hne, fun hp => hne (hst.2 _ hp.symm)⟩

theorem foldl_sum (f : Path → V) (l : List Path) (a : V) : l.foldl (fun a p => a + f p) a = a + (l.map f).sum := by
  induction l generalizing a with
  | nil => simp
  | cons p l ih => rw [List.foldl_cons, ih, List.map_cons, List.sum_cons, add_assoc]

theorem step_image {env : Env Φ Path V} {env' : Env Φ' Path V'} {π : V →+ V'} (h : Parallel env env' π) (dec : Bool) (st : St Path V)
    {Good : ℕ → List Path → Prop} (hst : st.Sane Good) {s : Sys Φ Path} {s' : Sys Φ' Path} (hs : MatchOn env env' π Good s s') :
    step env' dec (st.image π) s' = (step env dec st s).map (St.image π) ∧ ∀ st1, step env dec st s = .ok st1 → st1.Sane Good := by
  unfold step
  rw [h.channel, hs.isotopes]
  by_cases hc : env.channel ∉ s.isotopes
  · rw [if_pos hc, if_pos hc]
    constructor
    · cases dec
      · rfl
      · simp [Except.map, St.image]
    · intro st1 e
      injection e with e
      subst e
      cases dec <;> exact hst
  · rw [if_neg hc, if_neg hc, cache_image h st hs]
    rw [not_not] at hc
    cases e1 : cache env st s with
    | error e => exact ⟨rfl, fun _ e => by cases e⟩
    | ok st1 =>
      obtain ⟨hs1, hn⟩ := cache_sane st st1 hs hc hst e1
      have key : (s'.abundance / env'.norm) • (st1.paths.foldl (fun a p => a + env'.core s'.phys p) 0)
          = π ((s.abundance / env.norm) • (st1.paths.foldl (fun a p => a + env.core s.phys p) 0)) := by
        rw [foldl_sum, foldl_sum, zero_add, zero_add]
        exact hs.core hc _ (hn ▸ hs1.1)
      simp only [Except.map, Bind.bind, Except.bind, pure, Except.pure]
      constructor
      · change (Except.ok (if dec = true then _ else _) : Py (St Path V')) = _
        cases dec
        · simp only [Bool.false_eq_true, if_false]
          simp only [St.image, key, map_add]
        · simp only [if_true]
          simp only [St.image, key, List.map_append, List.map_cons, List.map_nil, Option.map_some]
      · intro st2 e
        injection e with e
        subst e
        cases dec <;> exact hs1

theorem foldlM_image {env : Env Φ Path V} {env' : Env Φ' Path V'} {π : V →+ V'} (h : Parallel env env' π) (dec : Bool)
    {Good : ℕ → List Path → Prop} {l : List (Sys Φ Path)} {l' : List (Sys Φ' Path)} (hl : List.Forall₂ (MatchOn env env' π Good) l l')
    (st : St Path V) (hst : st.Sane Good) :
    l'.foldlM (step env' dec) (st.image π) = (l.foldlM (step env dec) st).map (St.image π) := by
  induction hl generalizing st with
  | nil => rfl
  | cons h1 h2 ih =>
    obtain ⟨e1, e2⟩ := step_image h dec st hst h1
    rw [List.foldlM_cons, List.foldlM_cons, e1]
    rename_i a b c d
    cases hh : step env dec st a with
    | error e => rfl
    | ok st1 => exact ih st1 (e2 st1 hh)

theorem mapM_mirror {env : Env Φ Path V} {env' : Env Φ' Path V'} {π : V →+ V'} (h : Parallel env env' π) (l : List (Option V)) :
    (l.map fun o => o.map π).mapM (mirrorEntry env') = (l.mapM (mirrorEntry env)).map (List.map fun o => o.map π) := by
  induction l with
  | nil => rfl
  | cons o l ih =>
    rw [List.map_cons, List.mapM_cons, List.mapM_cons, ih]
    cases o with
    | none => rfl
    | some v =>
      simp only [Option.map_some, mirrorEntry, h.mirror, Bind.bind, Except.bind]
      cases l.mapM (mirrorEntry env) <;> rfl

theorem oneD_image {env : Env Φ Path V} {env' : Env Φ' Path V'} {π : V →+ V'} (h : Parallel env env' π) (dec : Bool)
    {Good : ℕ → List Path → Prop} (h0 : Good 0 []) {l : List (Sys Φ Path)} {l' : List (Sys Φ' Path)}
    (hl : List.Forall₂ (MatchOn env env' π Good) l l') : oneD env' dec l' = (oneD env dec l).map (Out.image π) := by
  unfold oneD
  have e := foldlM_image h dec hl ⟨0, none, [], 0, []⟩ ⟨h0, fun _ e => by cases e⟩
  rw [show St.image π (⟨0, none, [], 0, []⟩ : St Path V) = ⟨0, none, [], 0, []⟩ by simp [St.image]] at e
  rw [e]
  cases l.foldlM (step env dec) ⟨0, none, [], 0, []⟩ with
  | error e => rfl
  | ok st =>
    change finish env' dec (st.image π) = (finish env dec st).map (Out.image π)
    unfold finish
    have hlen : (st.image π).ind.length = st.ind.length := by simp [St.image]
    rw [hlen, h.gammaNeg]
    by_cases hd : dec = true ∧ st.ind.length ≠ 0
    · rw [if_pos hd, if_pos hd]
      cases env.gammaNeg
      · rfl
      · simp only [if_true]
        rw [show (st.image π).ind = st.ind.map fun o => o.map π from rfl, mapM_mirror h]
        cases st.ind.mapM (mirrorEntry env) <;> rfl
    · rw [if_neg hd, if_neg hd]
      cases env.gammaNeg
      · rfl
      · simp only [if_true]
        rw [show (st.image π).amp1 = π st.amp1 from rfl, h.mirror]
        rfl

theorem sumArrays_image (π : V →+ V') (l : List (Out V)) : sumArrays (l.map (Out.image π)) = (sumArrays l).map π := by
  induction l with
  | nil => simp [sumArrays, Except.map]
  | cons o l ih =>
    cases o with
    | list l => rfl
    | arr v =>
      simp only [List.map_cons, Out.image, sumArrays, ih]
      cases sumArrays l with
      | error e => rfl
      | ok w => simp [Except.map, Bind.bind, Except.bind, pure, Except.pure]

theorem collect_image {env : Env Φ Path V} {env' : Env Φ' Path V'} {π : V →+ V'} (h : Parallel env env' π) (l : List (Out V)) :
    collect env' (l.map (Out.image π)) = (collect env l).map (List.map (Datum.image π)) := by
  have hsp : ∀ o : Out V, spliced env' (o.image π) = (spliced env o).map (Datum.image π) := by
    intro o
    cases o with
    | arr v => simp [Out.image, spliced, h.rows, Datum.image]
    | list l =>
      simp only [Out.image, spliced, List.map_map]
      refine List.map_congr_left fun o _ => ?_
      cases o <;> rfl
  cases l with
  | nil => rfl
  | cons o l =>
    cases o with
    | arr v =>
      change (do return [.spec (← sumArrays (List.map (Out.image π) (.arr v :: l)))] : Py (List (Datum V'))) = _
      rw [sumArrays_image]
      change _ = Except.map _ (do return [.spec (← sumArrays (.arr v :: l))] : Py (List (Datum V)))
      cases sumArrays (.arr v :: l) <;> rfl
    | list k =>
      change Except.ok ((List.map (Out.image π) (.list k :: l)).flatMap (spliced env')) = Except.ok (List.map _ _)
      congr 1
      rw [List.flatMap_map, List.map_flatMap]
      exact List.flatMap_congr fun o _ => hsp o

theorem getChunks_map {α β : Type} (f : α → β) (cpu : ℤ) (items : List α) (n : ℤ) :
    Chunks.getChunks cpu (items.map f) n = (Chunks.getChunks cpu items n).map (List.map (List.map f)) := by
  have hs : ∀ a b, pySlice (items.map f) a b = (pySlice items a b).map f := by
    intro a b
    unfold pySlice
    simp
  have hm : ∀ (g : ℕ → Py (List α)) (g' : ℕ → Py (List β)) (l : List ℕ), (∀ i, g' i = (g i).map (List.map f)) →
      l.mapM g' = (l.mapM g).map (List.map (List.map f)) := by
    intro g g' l h
    induction l with
    | nil => rfl
    | cons i l ih =>
      rw [List.mapM_cons, List.mapM_cons, ih, h]
      cases g i with
      | error e => rfl
      | ok v => cases l.mapM g <;> rfl
  unfold Chunks.getChunks
  simp only [List.length_map, hs]
  simp only [Bind.bind, Except.bind]
  split_ifs
  · rfl
  · simp only [pure, Except.pure]
    cases Chunks.incrLoop _ _ with
    | error e => rfl
    | ok c1 =>
      simp only
      cases Chunks.prefixLoop _ c1 with
      | error e => rfl
      | ok c2 =>
        simp only
        apply hm
        intro i
        cases pyGet c2 (i : ℕ) with
        | error e => rfl
        | ok a =>
          simp only
          cases pyGet c2 (i + 1 : ℕ) <;> rfl

theorem mem_chunks {α : Type} {P : α → Prop} (cpu : ℤ) (items : List α) (n : ℤ) (cs : List (List α)) (h : Chunks.getChunks cpu items n = .ok cs)
    (hP : ∀ a ∈ items, P a) : ∀ c ∈ cs, ∀ a ∈ c, P a := by
  have e : items.attach.map Subtype.val = items := List.attach_map_subtype_val _
  rw [← e, getChunks_map] at h
  cases hc : Chunks.getChunks cpu items.attach n with
  | error e => rw [hc] at h; cases h
  | ok cs' =>
    rw [hc] at h
    injection h with h
    intro c hcm a ha
    rw [← h] at hcm
    obtain ⟨c', -, rfl⟩ := List.mem_map.mp hcm
    obtain ⟨x, -, rfl⟩ := List.mem_map.mp ha
    exact hP _ x.2

/-- The result of the second run is the image of the first. -/
theorem run_image_on {env : Env Φ Path V} {env' : Env Φ' Path V'} {π : V →+ V'} (h : Parallel env env' π) (cpu : ℤ) (dec : Bool)
    {Good : ℕ → List Path → Prop} (h0 : Good 0 []) {l : List (Sys Φ Path)} {l' : List (Sys Φ' Path)}
    (hl : List.Forall₂ (MatchOn env env' π Good) l l') (nJobs : ℤ) :
    run env' cpu dec l' nJobs = (run env cpu dec l nJobs).map (List.map (Datum.image π)) := by
  have hz1 : (l.zip l').map Prod.fst = l := List.map_fst_zip (le_of_eq hl.length_eq)
  have hz2 : (l.zip l').map Prod.snd = l' := List.map_snd_zip (le_of_eq hl.length_eq.symm)
  have hz : ∀ p ∈ l.zip l', MatchOn env env' π Good p.1 p.2 := by
    intro p hp
    exact List.forall₂_zip hl hp
  unfold run
  conv_lhs => rw [← hz2]
  conv_rhs => rw [← hz1]
  rw [getChunks_map, getChunks_map]
  cases hc : Chunks.getChunks cpu (l.zip l') nJobs with
  | error e => rfl
  | ok cs =>
    have hcs := mem_chunks cpu _ nJobs cs hc hz
    have key : (cs.map (List.map Prod.snd)).mapM (oneD env' dec)
        = ((cs.map (List.map Prod.fst)).mapM (oneD env dec)).map (List.map (Out.image π)) := by
      clear hc
      induction cs with
      | nil => rfl
      | cons c cs ih =>
        have e := oneD_image h dec h0 (l := c.map Prod.fst) (l' := c.map Prod.snd) (by
          rw [List.forall₂_map_left_iff, List.forall₂_map_right_iff, List.forall₂_same]
          exact hcs c List.mem_cons_self)
        rw [List.map_cons, List.map_cons, List.mapM_cons, List.mapM_cons, e, ih fun c' h' => hcs c' (List.mem_cons_of_mem _ h')]
        cases oneD env dec (c.map Prod.fst) with
        | error e => rfl
        | ok o => cases (cs.map (List.map Prod.fst)).mapM (oneD env dec) <;> rfl
    simp only [Except.map, Bind.bind, Except.bind]
    rw [key]
    cases (cs.map (List.map Prod.fst)).mapM (oneD env dec) with
    | error e => rfl
    | ok amp => exact collect_image h amp

theorem run_image {env : Env Φ Path V} {env' : Env Φ' Path V'} {π : V →+ V'} (h : Parallel env env' π) (cpu : ℤ) (dec : Bool)
    {l : List (Sys Φ Path)} {l' : List (Sys Φ' Path)} (hl : List.Forall₂ (Match env env' π) l l') (nJobs : ℤ) :
    run env' cpu dec l' nJobs = (run env cpu dec l nJobs).map (List.map (Datum.image π)) :=
  run_image_on h cpu dec (Good := fun _ _ => True) trivial (hl.imp fun _ _ => Match.on) nJobs

end MRS.Run
