import Verif.Run.Model
import Verif.Trans.Methods

/-!
# Mixtures, decomposition and workers — properties C02, C03, C61
-/

namespace MRS.Run

variable {Φ Path V : Type} [AddCommMonoid V] [Module ℚ V]

/-! ## Specification -/

namespace Spec

/-- The pathways of a spin system: those given by the user, else those the method
selects (base_model.pyx lines 439-448). -/
def pathways (env : Env Φ Path V) (s : Sys Φ Path) : Py (List Path) :=
  match s.explicit with
  | none => env.sel s.isotopes
  | some p => .ok p

/-- Among the spin systems that contain the observed isotope, those with equally many
sites have the same isotopes in the same order and the same user-given pathways. -/
def Uniform (env : Env Φ Path V) (l : List (Sys Φ Path)) : Prop :=
  ∀ a ∈ l, ∀ b ∈ l, env.channel ∈ a.isotopes → env.channel ∈ b.isotopes →
    a.isotopes.length = b.isotopes.length → a.isotopes = b.isotopes ∧ a.explicit = b.explicit

end Spec

/-! ## Lemmas -/

/-- The contribution of one system computed afresh. -/
def alone (env : Env Φ Path V) (s : Sys Φ Path) : Py (Option V) :=
  if env.channel ∉ s.isotopes then .ok none
  else do
    let p ← Spec.pathways env s
    match p with
    | [] => .error .valueError
    | p => .ok (some ((s.abundance / env.norm) • p.foldl (fun a q => a + env.core s.phys q) 0))

/-- The cache holds nothing, or what system `a` of the list needs. -/
def Inv (env : Env Φ Path V) (l : List (Sys Φ Path)) (st : St Path V) : Prop :=
  (st.pN = 0 ∧ st.pIso = none) ∨
    ∃ a ∈ l, env.channel ∈ a.isotopes ∧ st.pN = a.isotopes.length ∧ st.pIso = some a.isotopes ∧
      Spec.pathways env a = .ok st.paths ∧ st.paths ≠ []

/-- Value of an optional contribution. -/
def val (o : Option V) : V := o.getD 0

theorem step_spec (env : Env Φ Path V) (dec : Bool) (l : List (Sys Φ Path))
    (hu : Spec.Uniform env l) (st : St Path V) (hI : Inv env l st) (s : Sys Φ Path) (hs : s ∈ l) :
    (∀ e, alone env s = .error e → step env dec st s = .error e) ∧
    ∀ o, alone env s = .ok o → ∃ st', step env dec st s = .ok st' ∧ Inv env l st' ∧
      st'.amp1 = st.amp1 + (if dec then 0 else val o) ∧
      st'.ind = st.ind ++ (if dec then [o] else []) := by
  by_cases hc : env.channel ∉ s.isotopes
  · constructor
    · intro e h
      unfold alone at h
      rw [if_pos hc] at h
      cases h
    · intro o h
      unfold alone at h
      rw [if_pos hc] at h
      injection h with h
      subst h
      unfold step
      rw [if_pos hc]
      cases dec
      · exact ⟨st, rfl, hI, by simp [val], by simp⟩
      · exact ⟨_, rfl, hI, by simp, by simp⟩
  · have hc' : env.channel ∈ s.isotopes := not_not.mp hc
    have hpos : s.isotopes.length ≠ 0 := by
      intro h
      rw [List.length_eq_zero_iff.mp h] at hc'
      cases hc'
    -- the cached or recomputed pathways are those of `s`
    have hcache : (∀ e, alone env s = .error e → cache env st s = .error e) ∧
        ∀ o, alone env s = .ok o → ∃ st', cache env st s = .ok st' ∧ Inv env l st' ∧
          st'.amp1 = st.amp1 ∧ st'.ind = st.ind ∧
          o = some ((s.abundance / env.norm) •
            st'.paths.foldl (fun a q => a + env.core s.phys q) 0) := by
      have hcompute : s.isotopes.length ≠ st.pN → some s.isotopes ≠ st.pIso →
          ((∀ e, alone env s = .error e → cache env st s = .error e) ∧
          ∀ o, alone env s = .ok o → ∃ st', cache env st s = .ok st' ∧ Inv env l st' ∧
            st'.amp1 = st.amp1 ∧ st'.ind = st.ind ∧
            o = some ((s.abundance / env.norm) •
              st'.paths.foldl (fun a q => a + env.core s.phys q) 0)) := by
        intro h1 h2
        have hcond : s.isotopes.length ≠ st.pN ∧ some s.isotopes ≠ st.pIso := ⟨h1, h2⟩
        unfold alone cache
        rw [if_neg hc, if_pos hcond]
        have hp : userOrSelected env s = Spec.pathways env s := rfl
        rw [hp]
        cases hsel : Spec.pathways env s with
        | error e =>
          constructor
          · intro e' h; injection h with h; subst h; rfl
          · intro o h; cases h
        | ok p =>
          simp only [bind, Except.bind]
          cases p with
          | nil =>
            constructor
            · intro e' h; injection h with h; subst h; rfl
            · intro o h; cases h
          | cons q p =>
            constructor
            · intro e h; cases h
            · intro o h
              injection h with h
              refine ⟨_, rfl, ?_, rfl, rfl, h.symm⟩
              exact Or.inr ⟨s, hs, hc', rfl, rfl, hsel, by simp⟩
      rcases hI with ⟨h0, h1⟩ | ⟨a, ha, hac, hN, hIso, hpa, hne⟩
      · exact hcompute (by rw [h0]; exact hpos) (by rw [h1]; simp)
      · by_cases hlen : s.isotopes.length = st.pN
        · obtain ⟨e1, e2⟩ := hu a ha s hs hac hc' (by rw [← hN, hlen])
          have hps : Spec.pathways env s = .ok st.paths := by
            rw [← hpa]; unfold Spec.pathways; rw [e1, e2]
          have hcond : ¬ (s.isotopes.length ≠ st.pN ∧ some s.isotopes ≠ st.pIso) :=
            fun h => h.1 hlen
          have hcs : cache env st s = .ok st := by unfold cache; rw [if_neg hcond]
          have hal : alone env s = .ok (some ((s.abundance / env.norm) •
              st.paths.foldl (fun a q => a + env.core s.phys q) 0)) := by
            unfold alone
            rw [if_neg hc, hps]
            simp only [bind, Except.bind]
          constructor
          · intro e h; rw [hal] at h; cases h
          · intro o h
            rw [hal] at h
            injection h with h
            exact ⟨st, hcs, Or.inr ⟨a, ha, hac, hN, hIso, hpa, hne⟩, rfl, rfl, h.symm⟩
        · refine hcompute hlen ?_
          rw [hIso]
          intro h
          injection h with h
          exact hlen (by rw [h, hN])
    constructor
    · intro e h
      unfold step
      rw [if_neg hc, hcache.1 e h]
      rfl
    · intro o h
      obtain ⟨st', h1, h2, h3, h4, h5⟩ := hcache.2 o h
      unfold step
      rw [if_neg hc, h1]
      simp only [bind, Except.bind, pure, Except.pure]
      subst h5
      cases dec
      · refine ⟨_, rfl, h2, ?_, ?_⟩
        · simp [h3, val]
        · simp [h4]
      · refine ⟨_, rfl, h2, ?_, ?_⟩
        · simp [h3]
        · simp [h4]

theorem foldlM_spec (env : Env Φ Path V) (dec : Bool) (L l : List (Sys Φ Path))
    (hu : Spec.Uniform env L) (hl : ∀ s ∈ l, s ∈ L) (st : St Path V) (hI : Inv env L st) :
    (∀ e, l.mapM (alone env) = .error e → l.foldlM (step env dec) st = .error e) ∧
    ∀ os, l.mapM (alone env) = .ok os → ∃ st', l.foldlM (step env dec) st = .ok st' ∧
      st'.amp1 = st.amp1 + (if dec then 0 else (os.map val).sum) ∧
      st'.ind = st.ind ++ (if dec then os else []) := by
  induction l generalizing st with
  | nil =>
    constructor
    · intro e h; cases h
    · intro os h
      injection h with h
      subst h
      exact ⟨st, rfl, by cases dec <;> simp, by cases dec <;> simp⟩
  | cons s l ih =>
    obtain ⟨hs1, hs2⟩ := step_spec env dec L hu st hI s (hl s (by simp))
    simp only [List.mapM_cons, List.foldlM_cons]
    cases ha : alone env s with
    | error e =>
      constructor
      · intro e' h
        rw [hs1 e ha]
        injection h with h
        subst h
        rfl
      · intro os h; cases h
    | ok o =>
      obtain ⟨st1, e1, e2, e3, e4⟩ := hs2 o ha
      obtain ⟨i1, i2⟩ := ih (fun x hx => hl x (by simp [hx])) st1 e2
      rw [e1]
      simp only [bind, Except.bind, pure, Except.pure] at i1 i2 ⊢
      cases hm : l.mapM (alone env) with
      | error e =>
        constructor
        · intro e' h
          injection h with h
          subst h
          exact i1 _ hm
        · intro os h; cases h
      | ok os' =>
        constructor
        · intro e' h; cases h
        · intro os h
          injection h with h
          subst h
          obtain ⟨st', f1, f2, f3⟩ := i2 os' hm
          refine ⟨st', f1, ?_, ?_⟩
          · rw [f2, e3]
            cases dec
            · simp [add_assoc]
            · simp
          · rw [f3, e4]
            cases dec <;> simp

/-- `mapM` over a concatenation of chunks. -/
theorem mapM_flatten {α β} (f : α → Py β) (cs : List (List α)) :
    cs.flatten.mapM f = (do return (← cs.mapM (fun c => c.mapM f)).flatten) := by
  induction cs with
  | nil => rfl
  | cons c cs ih =>
    simp only [List.flatten_cons, List.mapM_append, List.mapM_cons, ih, bind, Except.bind,
      pure, Except.pure]
    cases c.mapM f with
    | error e => rfl
    | ok x =>
      simp only []
      cases List.mapM (fun c => List.mapM f c) cs with
      | error e => rfl
      | ok y => simp

/-- Mirroring if the gyromagnetic ratio is negative. -/
def mir (env : Env Φ Path V) (v : V) : V := if env.gammaNeg then env.mirror v else v

theorem oneD_sum (env : Env Φ Path V) (L l : List (Sys Φ Path)) (hu : Spec.Uniform env L)
    (hl : ∀ s ∈ l, s ∈ L) :
    (∀ e, l.mapM (alone env) = .error e → oneD env false l = .error e) ∧
    ∀ os, l.mapM (alone env) = .ok os → oneD env false l = .ok (.arr (mir env (os.map val).sum)) := by
  obtain ⟨h1, h2⟩ := foldlM_spec env false L l hu hl ⟨0, none, [], 0, []⟩ (Or.inl ⟨rfl, rfl⟩)
  constructor
  · intro e h
    unfold oneD
    rw [h1 e h]
    rfl
  · intro os h
    obtain ⟨st', a, b, c⟩ := h2 os h
    unfold oneD
    rw [a]
    simp only [bind, Except.bind, finish, Bool.false_eq_true, false_and, if_false]
    simp only [Bool.false_eq_true, if_false, zero_add] at b
    rw [b]
    rfl

theorem oneD_list (env : Env Φ Path V) (L l : List (Sys Φ Path)) (hu : Spec.Uniform env L)
    (hl : ∀ s ∈ l, s ∈ L) (hne : l ≠ []) :
    (∀ e, l.mapM (alone env) = .error e → oneD env true l = .error e) ∧
    ∀ os, l.mapM (alone env) = .ok os → oneD env true l =
      (if env.gammaNeg then do return .list (← os.mapM (mirrorEntry env)) else .ok (.list os)) := by
  obtain ⟨h1, h2⟩ := foldlM_spec env true L l hu hl ⟨0, none, [], 0, []⟩ (Or.inl ⟨rfl, rfl⟩)
  constructor
  · intro e h
    unfold oneD
    rw [h1 e h]
    rfl
  · intro os h
    obtain ⟨st', a, b, c⟩ := h2 os h
    have hos : os.length = l.length := by
      clear a b c h1 h2 hl hne hu
      induction l generalizing os with
      | nil => injection h with h; subst h; rfl
      | cons s l ih =>
        simp only [List.mapM_cons, bind, Except.bind, pure, Except.pure] at h
        cases ha : alone env s with
        | error e => rw [ha] at h; cases h
        | ok o =>
          rw [ha] at h
          simp only [] at h
          cases hm : l.mapM (alone env) with
          | error e => rw [hm] at h; cases h
          | ok os' =>
            rw [hm] at h
            injection h with h
            subst h
            simp [ih os' hm]
    unfold oneD
    rw [a]
    simp only [List.nil_append, if_true] at c
    have hlen : st'.ind.length ≠ 0 := by
      rw [c, hos]
      simpa using hne
    simp only [bind, Except.bind, finish, true_and]
    rw [if_pos hlen, c]

omit [Module ℚ V] in
theorem sumArrays_arr (vs : List V) : sumArrays (vs.map Out.arr) = .ok vs.sum := by
  induction vs with
  | nil => rfl
  | cons v vs ih =>
    simp only [List.map_cons, sumArrays, ih, bind, Except.bind, pure, Except.pure, List.sum_cons]

theorem mapM_cons_ok {α β} (f : α → Py β) (a : α) (l : List α) {b : β} (h : f a = .ok b) :
    (a :: l).mapM f = (match l.mapM f with | .error e => .error e | .ok x => .ok (b :: x)) := by
  simp only [List.mapM_cons, h, bind, Except.bind, pure, Except.pure]
  cases l.mapM f <;> rfl

theorem mapM_cons_err {α β} (f : α → Py β) (a : α) (l : List α) {e} (h : f a = .error e) :
    (a :: l).mapM f = .error e := by
  simp only [List.mapM_cons, h, bind, Except.bind]

theorem mapM_append_py {α β} (f : α → Py β) (a b : List α) :
    (a ++ b).mapM f = (match a.mapM f with
      | .error e => .error e
      | .ok x => match b.mapM f with
        | .error e => .error e
        | .ok y => .ok (x ++ y)) := by
  simp only [List.mapM_append, bind, Except.bind, pure, Except.pure]
  cases a.mapM f with
  | error e => rfl
  | ok x => cases b.mapM f <;> rfl

theorem mir_sum (env : Env Φ Path V) (vs : List V) : mir env vs.sum = (vs.map (mir env)).sum := by
  unfold mir
  cases env.gammaNeg
  · simp
  · simp [map_list_sum]

theorem mir_add (env : Env Φ Path V) (a b : V) : mir env (a + b) = mir env a + mir env b := by
  unfold mir
  cases env.gammaNeg <;> simp

/-- All chunks together, not decomposed. -/
theorem chunks_sum (env : Env Φ Path V) (L : List (Sys Φ Path)) (hu : Spec.Uniform env L)
    (cs : List (List (Sys Φ Path))) (hl : ∀ s ∈ cs.flatten, s ∈ L) :
    (∀ e, cs.flatten.mapM (alone env) = .error e → cs.mapM (oneD env false) = .error e) ∧
    ∀ os, cs.flatten.mapM (alone env) = .ok os → ∃ vs : List V, vs.length = cs.length ∧
      cs.mapM (oneD env false) = .ok (vs.map .arr) ∧ vs.sum = mir env (os.map val).sum := by
  induction cs with
  | nil =>
    constructor
    · intro e h; cases h
    · intro os h
      injection h with h
      subst h
      refine ⟨[], rfl, rfl, ?_⟩
      have := mir_sum env ([] : List V)
      simpa using this.symm
  | cons c cs ih =>
    obtain ⟨i1, i2⟩ := ih (fun s hs => hl s (by simp only [List.flatten_cons, List.mem_append]; exact Or.inr hs))
    obtain ⟨c1, c2⟩ := oneD_sum env L c hu (fun s hs => hl s (by simp only [List.flatten_cons, List.mem_append]; exact Or.inl hs))
    rw [List.flatten_cons, mapM_append_py]
    cases hc : c.mapM (alone env) with
    | error e =>
      constructor
      · intro e' h
        injection h with h
        subst h
        exact mapM_cons_err _ _ _ (c1 _ hc)
      · intro os h; cases h
    | ok x =>
      rw [mapM_cons_ok _ _ _ (c2 x hc)]
      simp only []
      cases hd : cs.flatten.mapM (alone env) with
      | error e =>
        constructor
        · intro e' h
          injection h with h
          subst h
          rw [i1 _ hd]
        · intro os h; cases h
      | ok y =>
        constructor
        · intro e' h; cases h
        · intro os h
          injection h with h
          subst h
          obtain ⟨vs, v1, v2, v3⟩ := i2 y hd
          refine ⟨mir env (x.map val).sum :: vs, by simp [v1], ?_, ?_⟩
          · rw [v2]; rfl
          · rw [List.sum_cons, v3, ← mir_add, List.map_append, List.sum_append]

theorem run_sum (env : Env Φ Path V) (cpu : Int) (l : List (Sys Φ Path)) (hu : Spec.Uniform env l)
    (nJobs : Int) (hn : 1 ≤ nJobs) :
    run env cpu false l nJobs = (match l.mapM (alone env) with
      | .error e => .error e
      | .ok os => .ok [.spec (mir env (os.map val).sum)]) := by
  obtain ⟨cs, hcs, hlen, hflat, -⟩ := Chunks.C01_chunks_partition cpu l nJobs nJobs.toNat
    (by rw [if_neg (by omega)]; omega) (by omega)
  unfold run
  rw [hcs]
  simp only [bind, Except.bind]
  obtain ⟨h1, h2⟩ := chunks_sum env l hu cs (by rw [hflat]; exact fun s hs => hs)
  rw [hflat] at h1 h2
  cases hm : l.mapM (alone env) with
  | error e => rw [h1 e hm]
  | ok os =>
    obtain ⟨vs, v1, v2, v3⟩ := h2 os hm
    rw [v2]
    cases vs with
    | nil => simp at v1; omega
    | cons v vs =>
      have := sumArrays_arr (v :: vs)
      simp only [List.map_cons] at this
      simp only [List.map_cons, collect, this, bind, Except.bind, pure, Except.pure, v3]

theorem uniform_single (env : Env Φ Path V) (s : Sys Φ Path) : Spec.Uniform env [s] := by
  intro a ha b hb _ _ _
  rw [List.mem_singleton.mp ha, List.mem_singleton.mp hb]
  exact ⟨rfl, rfl⟩

theorem run_single (env : Env Φ Path V) (cpu : Int) (s : Sys Φ Path) :
    run env cpu false [s] 1 = (match alone env s with
      | .error e => .error e
      | .ok o => .ok [.spec (mir env (val o))]) := by
  rw [run_sum env cpu [s] (uniform_single env s) 1 (by omega)]
  cases h : alone env s with
  | error e => rw [mapM_cons_err _ _ _ h]
  | ok o =>
    rw [mapM_cons_ok _ _ _ h]
    simp [List.mapM_nil, pure, Except.pure]

/-! ## C02 -/

/-- **C02 (partial)**. If every spin system can be simulated alone, giving the array
`f s`, then the mixture can be, with any number of workers, and gives the sum of the
`f s`. Holds for lists in which the systems that contain the observed isotope and have
equally many sites agree in their isotopes and user-given pathways; without that it is
false, see `C02_counterexample`. -/
theorem C02_mixture_partial (env : Env Φ Path V) (cpu : Int) (l : List (Sys Φ Path))
    (hu : Spec.Uniform env l) (nJobs : Int) (hn : 1 ≤ nJobs) (f : Sys Φ Path → V)
    (h : ∀ s ∈ l, run env cpu false [s] 1 = .ok [.spec (f s)]) :
    run env cpu false l nJobs = .ok [.spec (l.map f).sum] := by
  rw [run_sum env cpu l hu nJobs hn]
  have key : ∃ os, l.mapM (alone env) = .ok os ∧ (os.map val).map (mir env) = l.map f := by
    clear hu
    induction l with
    | nil => exact ⟨[], rfl, rfl⟩
    | cons s l ih =>
      have hs := h s (by simp)
      rw [run_single] at hs
      cases ha : alone env s with
      | error e => rw [ha] at hs; cases hs
      | ok o =>
        rw [ha] at hs
        simp only [Except.ok.injEq, List.cons.injEq, Datum.spec.injEq, and_true] at hs
        obtain ⟨os, o1, o2⟩ := ih (fun x hx => h x (by simp [hx]))
        refine ⟨o :: os, ?_, ?_⟩
        · rw [mapM_cons_ok _ _ _ ha, o1]
        · simp only [List.map_cons, hs, o2]
  obtain ⟨os, o1, o2⟩ := key
  rw [o1]
  simp only [mir_sum, o2]

/-- **C02 (partial)**, workers: the outcome, exceptions included, is the same for any
two numbers of workers. Same restriction. -/
theorem C02_workers_partial (env : Env Φ Path V) (cpu : Int) (l : List (Sys Φ Path))
    (hu : Spec.Uniform env l) (m n : Int) (hm : 1 ≤ m) (hn : 1 ≤ n) :
    run env cpu false l m = run env cpu false l n := by
  rw [run_sum env cpu l hu m hm, run_sum env cpu l hu n hn]

theorem mapM_perm {α β} (f : α → Py β) {l l' : List α} (hp : l.Perm l') {os : List β}
    (h : l.mapM f = .ok os) : ∃ os', l'.mapM f = .ok os' ∧ os.Perm os' := by
  induction hp generalizing os with
  | nil => exact ⟨os, h, List.Perm.refl _⟩
  | cons a _ ih =>
    cases ha : f a with
    | error e => rw [mapM_cons_err _ _ _ ha] at h; cases h
    | ok b =>
      rw [mapM_cons_ok _ _ _ ha] at h ⊢
      rename_i l1 l2 _
      cases hm : l1.mapM f with
      | error e => rw [hm] at h; cases h
      | ok x =>
        rw [hm] at h
        injection h with h
        subst h
        obtain ⟨os', q1, q2⟩ := ih hm
        exact ⟨b :: os', by rw [q1], q2.cons b⟩
  | swap a b l =>
    cases ha : f a with
    | error e =>
      cases hb : f b with
      | error e => rw [mapM_cons_err _ _ _ hb] at h; cases h
      | ok y => rw [mapM_cons_ok _ _ _ hb, mapM_cons_err _ _ _ ha] at h; cases h
    | ok x =>
      cases hb : f b with
      | error e => rw [mapM_cons_err _ _ _ hb] at h; cases h
      | ok y =>
        rw [mapM_cons_ok _ _ _ hb, mapM_cons_ok _ _ _ ha] at h
        rw [mapM_cons_ok _ _ _ ha, mapM_cons_ok _ _ _ hb]
        cases hm : l.mapM f with
        | error e => rw [hm] at h; cases h
        | ok z =>
          rw [hm] at h
          injection h with h
          subst h
          exact ⟨x :: y :: z, rfl, List.Perm.swap ..⟩
  | trans _ _ i1 i2 =>
    obtain ⟨o1, a1, b1⟩ := i1 h
    obtain ⟨o2, a2, b2⟩ := i2 a1
    exact ⟨o2, a2, b1.trans b2⟩

/-- **C02 (partial)**, order: a permutation of the spin systems gives the same data.
Same restriction. -/
theorem C02_order_partial (env : Env Φ Path V) (cpu : Int) (l l' : List (Sys Φ Path))
    (hp : l.Perm l') (hu : Spec.Uniform env l) (m n : Int) (hm : 1 ≤ m) (hn : 1 ≤ n)
    (d : List (Datum V)) (h : run env cpu false l m = .ok d) :
    run env cpu false l' n = .ok d := by
  have hu' : Spec.Uniform env l' :=
    fun a ha b hb => hu a (hp.mem_iff.mpr ha) b (hp.mem_iff.mpr hb)
  rw [run_sum env cpu l hu m hm] at h
  rw [run_sum env cpu l' hu' n hn]
  cases ho : l.mapM (alone env) with
  | error e => rw [ho] at h; cases h
  | ok os =>
    rw [ho] at h
    obtain ⟨os', q1, q2⟩ := mapM_perm _ hp ho
    rw [q1, ← h]
    simp only []
    rw [(q2.map val).sum_eq]

/-- **C02 (partial)**, failure: the mixture fails exactly when some member fails alone.
Same restriction. -/
theorem C02_failure_partial (env : Env Φ Path V) (cpu : Int) (l : List (Sys Φ Path))
    (hu : Spec.Uniform env l) (n : Int) (hn : 1 ≤ n) :
    (∃ e, run env cpu false l n = .error e) ↔
      ∃ s ∈ l, ∃ e, run env cpu false [s] 1 = .error e := by
  rw [run_sum env cpu l hu n hn]
  clear hu
  induction l with
  | nil => simp [List.mapM_nil, pure, Except.pure]
  | cons s l ih =>
    simp only [List.mem_cons, exists_eq_or_imp]
    rw [← ih, run_single]
    cases ha : alone env s with
    | error e => rw [mapM_cons_err _ _ _ ha]; simp
    | ok o =>
      rw [mapM_cons_ok _ _ _ ha]
      cases l.mapM (alone env) with
      | error e => simp
      | ok x => simp

/-! A concrete method: observe the given isotope with `BlochDecaySpectrum`, intensity
arrays replaced by their first moment for purely isotropic shifts (a linear functional
of the array), and pathways selected by the model of `Method.get_transition_pathways`. -/

/-- The isotopes used in the examples, with twice their spins. -/
def exampleSpins : List (String × Nat) := [("1H", 1), ("13C", 1), ("14N", 2), ("29Si", 1)]

/-- A method with queries for one channel; the spectrum of a system is read off its number. -/
def exampleEnv (channel : String) (dims : List (List Trans.Query)) (neg : Bool) :
    Env (List ℚ) (List Trans.Tr) ℚ where
  channel := channel
  norm := 1
  gammaNeg := neg
  mirror := AddMonoidHom.id ℚ
  sel := fun iso => Trans.transitionPathways Trans.stdOrder
    (iso.map fun c => ⟨c, (exampleSpins.lookup c).getD 0⟩) [channel] dims
  core := fun shifts path =>
    (path.map fun t => (List.zipWith (fun w d => -w * d) shifts (Trans.trP t)).sum).sum
  rows := 4

/-- **C02**, disagreement: two spin systems with the same two isotopes listed in
opposite order. Each alone gives a first moment of 20 and 14; together, with one
worker, 220 instead of 34 (the second system is simulated with the pathways of the
first, base_model.pyx:439), with two workers 34. -/
theorem C02_counterexample :
    ∃ a b : Sys (List ℚ) (List Trans.Tr),
      let env := exampleEnv "1H" Trans.blochDecay false
      run env 4 false [a] 1 = .ok [.spec 20] ∧
      run env 4 false [b] 1 = .ok [.spec 14] ∧
      run env 4 false [a, b] 1 = .ok [.spec 220] ∧
      run env 4 false [a, b] 2 = .ok [.spec 34] := by
  refine ⟨⟨["1H", "13C"], none, 1, [10, 0]⟩, ⟨["13C", "1H"], none, 1, [100, 7]⟩, ?_, ?_, ?_, ?_⟩
  all_goals decide +kernel

/-- Non-vacuity of the C02 theorems: a uniform list of three systems, one without the
observed isotope, and a system with a different number of sites. -/
example :
    let env := exampleEnv "1H" Trans.blochDecay false
    let l : List (Sys (List ℚ) (List Trans.Tr)) :=
      [⟨["1H", "13C"], none, 1, [10, 0]⟩, ⟨["29Si"], none, 3, [5]⟩, ⟨["1H"], none, 2, [3]⟩,
        ⟨["1H", "13C"], none, 1/2, [-4, 8]⟩]
    Spec.Uniform env l ∧
      l.map (fun s => run env 4 false [s] 1) =
        [.ok [.spec 20], .ok [.spec 0], .ok [.spec 6], .ok [.spec (-4)]] ∧
      run env 4 false l 3 = .ok [.spec 22] := by
  refine ⟨?_, ?_, ?_⟩
  · unfold Spec.Uniform
    decide +kernel
  · decide +kernel
  · decide +kernel

/-! ## C03 -/

/-- Decomposed result of one system. -/
def entry (env : Env Φ Path V) (s : Sys Φ Path) : Py (Datum V) := do
  let o ← alone env s
  let o ← if env.gammaNeg then mirrorEntry env o else .ok o
  return .ofEntry o

theorem entry_eq (env : Env Φ Path V) (s : Sys Φ Path) (o : Option V) (h : alone env s = .ok o)
    (hg : env.gammaNeg = true → env.channel ∈ s.isotopes) :
    entry env s = .ok (.ofEntry (o.map (mir env))) := by
  unfold entry
  rw [h]
  simp only [bind, Except.bind, pure, Except.pure]
  cases hn : env.gammaNeg with
  | false =>
    have : mir env = id := by funext v; simp [mir, hn]
    simp [this]
  | true =>
    cases o with
    | none =>
      unfold alone at h
      rw [if_neg (not_not.mpr (hg hn))] at h
      simp only [bind, Except.bind] at h
      cases hp : Spec.pathways env s with
      | error e => rw [hp] at h; cases h
      | ok p => rw [hp] at h; cases p <;> cases h
    | some v => simp [mirrorEntry, mir, hn]

/-- A nonempty chunk, decomposed. -/
theorem oneD_entries (env : Env Φ Path V) (L l : List (Sys Φ Path)) (hu : Spec.Uniform env L)
    (hl : ∀ s ∈ l, s ∈ L) (hne : l ≠ []) (d : Sys Φ Path → Datum V)
    (hd : ∀ s ∈ l, entry env s = .ok (d s)) :
    ∃ os : List (Option V), oneD env true l = .ok (.list os) ∧ os.map Datum.ofEntry = l.map d := by
  obtain ⟨-, h2⟩ := oneD_list env L l hu hl hne
  have key : ∃ os os' : List (Option V), l.mapM (alone env) = .ok os ∧
      (if env.gammaNeg then os.mapM (mirrorEntry env) else .ok os) = .ok os' ∧
      os'.map Datum.ofEntry = l.map d := by
    clear h2 hne hl
    induction l with
    | nil => exact ⟨[], [], rfl, by cases env.gammaNeg <;> rfl, rfl⟩
    | cons s l ih =>
      obtain ⟨os, os', i1, i2, i3⟩ := ih (fun x hx => hd x (by simp [hx]))
      have hs := hd s (by simp)
      unfold entry at hs
      cases ha : alone env s with
      | error e => rw [ha] at hs; cases hs
      | ok o =>
        rw [ha] at hs
        cases hn : env.gammaNeg with
        | false =>
          rw [hn] at hs i2
          simp only [bind, Except.bind, pure, Except.pure, Bool.false_eq_true, if_false] at hs i2
          injection hs with hs
          injection i2 with i2
          subst i2
          exact ⟨o :: os, o :: os, by rw [mapM_cons_ok _ _ _ ha, i1], by simp,
            by simp [hs, i3]⟩
        | true =>
          rw [hn] at hs i2
          simp only [bind, Except.bind, pure, Except.pure, if_true] at hs i2
          cases hm : mirrorEntry env o with
          | error e => rw [hm] at hs; cases hs
          | ok o' =>
            rw [hm] at hs
            injection hs with hs
            refine ⟨o :: os, o' :: os', by rw [mapM_cons_ok _ _ _ ha, i1], ?_, by simp [hs, i3]⟩
            simp only [if_true]
            rw [mapM_cons_ok _ _ _ hm, i2]
  obtain ⟨os, os', k1, k2, k3⟩ := key
  refine ⟨os', ?_, k3⟩
  rw [h2 os k1]
  cases hn : env.gammaNeg with
  | false => rw [hn] at k2; simp only [Bool.false_eq_true, if_false] at k2 ⊢; injection k2 with k2; rw [k2]
  | true =>
    rw [hn] at k2
    simp only [if_true] at k2 ⊢
    rw [k2]
    rfl

theorem run_entries (env : Env Φ Path V) (cpu : Int) (l : List (Sys Φ Path))
    (hu : Spec.Uniform env l) (n : Int) (hn : 1 ≤ n) (hle : n ≤ l.length)
    (d : Sys Φ Path → Datum V) (hd : ∀ s ∈ l, entry env s = .ok (d s)) :
    run env cpu true l n = .ok (l.map d) := by
  obtain ⟨cs, hcs, hlen, hflat, hbal⟩ := Chunks.C01_chunks_partition cpu l n n.toNat
    (by rw [if_neg (by omega)]; omega) (by omega)
  -- no chunk is empty
  have hne : ∀ c ∈ cs, c ≠ [] := by
    intro c hc h0
    subst h0
    have h1 : ∀ b ∈ cs, b.length ≤ 1 := fun b hb => by simpa using hbal b hb [] hc
    have hsum : ∀ cs : List (List (Sys Φ Path)), (∀ b ∈ cs, b.length ≤ 1) → [] ∈ cs →
        cs.flatten.length < cs.length := by
      intro cs
      induction cs with
      | nil => intro _ h; cases h
      | cons b cs ih =>
        intro hb hm
        have hrest : cs.flatten.length ≤ cs.length := by
          clear ih hm
          induction cs with
          | nil => simp
          | cons x cs ih =>
            have := hb x (by simp)
            have := ih (fun y hy => hb y (by
              rcases List.mem_cons.mp hy with rfl | hy
              · simp
              · simp [hy]))
            simp only [List.flatten_cons, List.length_append, List.length_cons]
            omega
        simp only [List.flatten_cons, List.length_append, List.length_cons]
        rcases List.mem_cons.mp hm with rfl | hm
        · simp only [List.length_nil]; omega
        · have := ih (fun y hy => hb y (by simp [hy])) hm
          have := hb b (by simp)
          omega
    have := hsum cs h1 hc
    rw [hflat, hlen] at this
    omega
  -- results of the chunks
  have key : ∀ cs : List (List (Sys Φ Path)), (∀ c ∈ cs, c ≠ []) → (∀ s ∈ cs.flatten, s ∈ l) →
      ∃ oss : List (List (Option V)), cs.mapM (oneD env true) = .ok (oss.map .list) ∧
        (oss.map (List.map Datum.ofEntry)).flatten = cs.flatten.map d := by
    intro cs
    induction cs with
    | nil => intro _ _; exact ⟨[], rfl, rfl⟩
    | cons c cs ih =>
      intro hne hin
      simp only [List.flatten_cons, List.mem_append] at hin
      obtain ⟨oss, i1, i2⟩ := ih (fun x hx => hne x (by simp [hx])) (fun s hs => hin s (Or.inr hs))
      obtain ⟨os, j1, j2⟩ := oneD_entries env l c hu (fun s hs => hin s (Or.inl hs))
        (hne c (by simp)) d (fun s hs => hd s (hin s (Or.inl hs)))
      refine ⟨os :: oss, ?_, ?_⟩
      · rw [mapM_cons_ok _ _ _ j1, i1]; rfl
      · simp only [List.map_cons, List.flatten_cons, List.map_append, i2, j2]
  obtain ⟨oss, k1, k2⟩ := key cs hne (by rw [hflat]; exact fun s hs => hs)
  unfold run
  rw [hcs]
  simp only [bind, Except.bind, k1]
  rw [hflat] at k2
  cases oss with
  | nil =>
    exfalso
    simp only [List.map_nil, List.flatten_nil] at k2
    have : l = [] := by simpa using k2.symm
    subst this
    simp at hle
    omega
  | cons os oss =>
    simp only [List.map_cons, collect]
    rw [← k2]
    congr 1
    rw [← List.map_cons (f := Out.list), List.flatMap_def, List.map_map]
    rfl

theorem entry_single (env : Env Φ Path V) (cpu : Int) (s : Sys Φ Path) (x : Datum V)
    (h : run env cpu true [s] 1 = .ok [x]) : entry env s = .ok x := by
  have hu := uniform_single env s
  obtain ⟨c, hcs, hlen, hflat, -⟩ := Chunks.C01_chunks_partition cpu [s] 1 1 (by simp) (by omega)
  have hc : c = [[s]] := by
    match c, hlen, hflat with
    | [b], _, hf => simpa using hf
  subst hc
  unfold run at h
  rw [hcs] at h
  simp only [bind, Except.bind] at h
  obtain ⟨h1, h2⟩ := oneD_list env [s] [s] hu (fun _ h => h) (by simp)
  cases ha : alone env s with
  | error e =>
    rw [mapM_cons_err _ _ _ (h1 e (mapM_cons_err _ _ _ ha))] at h
    cases h
  | ok o =>
    have hm : List.mapM (alone env) [s] = .ok [o] := by rw [mapM_cons_ok _ _ _ ha]; rfl
    unfold entry
    rw [ha]
    simp only [bind, Except.bind, pure, Except.pure]
    have h2 := h2 _ hm
    cases hn : env.gammaNeg with
    | false =>
      rw [hn] at h2
      simp only [Bool.false_eq_true, if_false] at h2 ⊢
      rw [mapM_cons_ok _ _ _ h2] at h
      simp only [List.mapM_nil, pure, Except.pure, collect, List.flatMap_cons, List.flatMap_nil,
        spliced, List.map_cons, List.map_nil, List.append_nil, Except.ok.injEq, List.cons.injEq,
        and_true] at h
      rw [h]
    | true =>
      rw [hn] at h2
      simp only [if_true, bind, Except.bind, pure, Except.pure] at h2 ⊢
      cases hme : mirrorEntry env o with
      | error e =>
        rw [mapM_cons_err _ _ _ hme] at h2
        rw [mapM_cons_err _ _ _ h2] at h
        cases h
      | ok o' =>
        rw [mapM_cons_ok _ _ _ hme] at h2
        simp only [List.mapM_nil, pure, Except.pure] at h2
        rw [mapM_cons_ok _ _ _ h2] at h
        simp only [List.mapM_nil, pure, Except.pure, collect, List.flatMap_cons, List.flatMap_nil,
          spliced, List.map_cons, List.map_nil, List.append_nil, Except.ok.injEq, List.cons.injEq,
          and_true] at h
        simp only []
        rw [h]

/-- **C03 (partial)**. For `1 ≤ n_jobs ≤` number of spin systems: if each spin system
alone gives the one entry `d s`, the decomposed result of the mixture is the list of
these entries in order. Missing, and false: more workers than spin systems, the empty
list, and lists that are not uniform (`C03_counterexample_*`, `C02_counterexample`). -/
theorem C03_decomposed_partial (env : Env Φ Path V) (cpu : Int) (l : List (Sys Φ Path))
    (hu : Spec.Uniform env l) (n : Int) (hn : 1 ≤ n) (hle : n ≤ l.length)
    (d : Sys Φ Path → Datum V) (hd : ∀ s ∈ l, run env cpu true [s] 1 = .ok [d s]) :
    run env cpu true l n = .ok (l.map d) :=
  run_entries env cpu l hu n hn hle d fun s hs => entry_single env cpu s (d s) (hd s hs)

/-- **C03**: alone, an entry is empty exactly when the observed isotope is absent, and
otherwise a spectrum, namely the one obtained without decomposition. -/
theorem C03_entry (env : Env Φ Path V) (cpu : Int) (s : Sys Φ Path) (x : Datum V)
    (h : run env cpu true [s] 1 = .ok [x]) :
    (x = .empty ↔ env.channel ∉ s.isotopes) ∧
    (env.channel ∈ s.isotopes → run env cpu false [s] 1 = .ok [x]) := by
  have he := entry_single env cpu s x h
  have hal : ∀ o, alone env s = .ok o → (o = none ↔ env.channel ∉ s.isotopes) := by
    intro o ho
    unfold alone at ho
    by_cases hc : env.channel ∉ s.isotopes
    · rw [if_pos hc] at ho
      injection ho with ho
      simp [← ho, hc]
    · rw [if_neg hc] at ho
      simp only [bind, Except.bind] at ho
      cases hp : Spec.pathways env s with
      | error e => rw [hp] at ho; cases ho
      | ok p =>
        rw [hp] at ho
        cases p with
        | nil => cases ho
        | cons q p =>
          injection ho with ho
          simp [← ho, hc]
  cases ha : alone env s with
  | error e => unfold entry at he; rw [ha] at he; cases he
  | ok o =>
    have hnone := hal o ha
    by_cases hg : env.gammaNeg = true ∧ env.channel ∉ s.isotopes
    · exfalso
      have : o = none := hnone.mpr hg.2
      subst this
      unfold entry at he
      rw [ha] at he
      simp only [bind, Except.bind, hg.1, if_true, mirrorEntry] at he
      cases he
    · have hg' : env.gammaNeg = true → env.channel ∈ s.isotopes := by
        intro h; by_contra hc; exact hg ⟨h, hc⟩
      rw [entry_eq env s o ha hg'] at he
      injection he with he
      subst he
      constructor
      · rw [← hnone]
        cases o <;> simp [Datum.ofEntry]
      · intro hc
        rw [run_single, ha]
        cases o with
        | none => exact absurd hc (hnone.mp rfl)
        | some v => simp [Datum.ofEntry, val]

/-- **C03**, disagreement: with more workers than spin systems the surplus workers
return an array of zeros, whose rows become further entries. -/
theorem C03_counterexample_workers :
    ∃ s : Sys (List ℚ) (List Trans.Tr),
      run (exampleEnv "1H" Trans.blochDecay false) 4 true [s] 1 = .ok [.spec 10] ∧
      run (exampleEnv "1H" Trans.blochDecay false) 4 true [s] 2 =
        .ok [.spec 10, .strayRow, .strayRow, .strayRow, .strayRow] :=
  ⟨⟨["1H"], none, 1, [10]⟩, by decide +kernel, by decide +kernel⟩

/-- **C03**, disagreement: no spin systems give one entry. -/
theorem C03_counterexample_empty (env : Env Φ Path V) (cpu : Int) :
    run env cpu true [] 1 = .ok [.spec 0] := by
  have hc : Chunks.getChunks cpu ([] : List (Sys Φ Path)) 1 = .ok [[]] := by
    obtain ⟨c, hcs, hlen, hflat, -⟩ := Chunks.C01_chunks_partition cpu ([] : List (Sys Φ Path)) 1 1
      (by simp) (by omega)
    match c, hlen, hflat with
    | [b], _, hf =>
      have : b = [] := by simpa using hf
      rw [hcs, this]
  unfold run
  rw [hc]
  cases hn : env.gammaNeg <;>
    simp [bind, Except.bind, pure, Except.pure, oneD, finish, hn, collect, sumArrays]

/-- **C03**, disagreement: observing an isotope of negative gyromagnetic ratio, a spin
system without that isotope is an error instead of an empty entry. -/
theorem C03_counterexample_negative (env : Env Φ Path V) (hneg : env.gammaNeg = true) (cpu : Int)
    (s : Sys Φ Path) (h : env.channel ∉ s.isotopes) :
    ∃ e, run env cpu true [s] 1 = .error e := by
  cases hr : run env cpu true [s] 1 with
  | error e => exact ⟨e, rfl⟩
  | ok d =>
    exfalso
    obtain ⟨c, hcs, hlen, hflat, -⟩ := Chunks.C01_chunks_partition cpu [s] 1 1 (by simp) (by omega)
    have hc : c = [[s]] := by
      match c, hlen, hflat with
      | [b], _, hf => simpa using hf
    subst hc
    unfold run at hr
    rw [hcs] at hr
    have ha : alone env s = .ok none := by unfold alone; rw [if_pos h]
    have hm : List.mapM (alone env) [s] = .ok [none] := by rw [mapM_cons_ok _ _ _ ha]; rfl
    obtain ⟨-, h2⟩ := oneD_list env [s] [s] (uniform_single env s) (fun _ h => h) (by simp)
    have h3 := h2 _ hm
    rw [hneg] at h3
    simp only [if_true, bind, Except.bind, List.mapM_cons, mirrorEntry] at h3
    simp only [bind, Except.bind] at hr
    rw [mapM_cons_err _ _ _ h3] at hr
    cases hr

/-- Non-vacuity of `C03_decomposed_partial`: three systems, one without the observed
isotope, two workers. -/
example :
    let env := exampleEnv "1H" Trans.blochDecay false
    run env 4 true [⟨["1H", "13C"], none, 1, [10, 0]⟩, ⟨["29Si"], none, 3, [5]⟩,
      ⟨["1H"], none, 2, [3]⟩] 2 = .ok [.spec 20, .empty, .spec 6] := by
  decide +kernel

/-! ## C61 -/

/-- **C61 (partial)**: a spin system without the observed isotope can be added to any
uniform list, at any place, without changing the data. Missing, and false: a spin system
that has the isotope but from which the method selects no pathway. -/
theorem C61_no_pathway_partial (env : Env Φ Path V) (cpu : Int) (l₁ l₂ : List (Sys Φ Path))
    (s : Sys Φ Path) (h : env.channel ∉ s.isotopes) (hu : Spec.Uniform env (l₁ ++ l₂)) (n : Int)
    (hn : 1 ≤ n) :
    run env cpu false (l₁ ++ s :: l₂) n = run env cpu false (l₁ ++ l₂) n := by
  have hu' : Spec.Uniform env (l₁ ++ s :: l₂) := by
    intro a ha b hb hac hbc
    apply hu a _ b _ hac hbc
    · simp only [List.mem_append, List.mem_cons] at ha ⊢
      rcases ha with ha | rfl | ha
      · exact Or.inl ha
      · exact absurd hac h
      · exact Or.inr ha
    · simp only [List.mem_append, List.mem_cons] at hb ⊢
      rcases hb with hb | rfl | hb
      · exact Or.inl hb
      · exact absurd hbc h
      · exact Or.inr hb
  rw [run_sum env cpu _ hu' n hn, run_sum env cpu _ hu n hn]
  have ha : alone env s = .ok none := by unfold alone; rw [if_pos h]
  rw [mapM_append_py, mapM_append_py, mapM_cons_ok _ _ _ ha]
  cases l₁.mapM (alone env) with
  | error e => rfl
  | ok x =>
    cases l₂.mapM (alone env) with
    | error e => rfl
    | ok y => simp [val]

/-- **C61**, disagreement: whenever the method selects no pathway from a spin system
that has the observed isotope, the simulation fails. -/
theorem C61_counterexample (env : Env Φ Path V) (cpu : Int) (s : Sys Φ Path)
    (hc : env.channel ∈ s.isotopes) (hx : s.explicit = none) (hs : env.sel s.isotopes = .ok []) :
    run env cpu false [s] 1 = .error .valueError := by
  rw [run_single]
  have : alone env s = .error .valueError := by
    unfold alone
    rw [if_neg (not_not.mpr hc)]
    unfold Spec.pathways
    rw [hx]
    simp only [hs, bind, Except.bind]
  rw [this]

/-- The hypotheses of `C61_counterexample` are met by the central-transition method on
an integer spin. -/
example : run (exampleEnv "14N" Trans.blochDecayCT false) 4 false [⟨["14N"], none, 1, [10]⟩] 1 =
    .error .valueError :=
  C61_counterexample _ _ _ (by decide) rfl (Trans.C14_central_transition _ "14N" 2)

end MRS.Run
