import Verif.Run.Mixture
import Verif.Run.Image
import Verif.Trans.Layout

/-!
# Pathways that are given to a spin system — property C121

`sys.transition_pathways = method.get_transition_pathways(sys)` is the recommended way to save time in a fit
(src/mrsimulator/spin_system/__init__.py lines 108-144 and the scripts in fitting_source).
-/

namespace MRS.Run

variable {Φ Path V : Type} [AddCommMonoid V] [Module ℚ V]

/-- A spin system after its pathways have been left alone or set to those that the method selects for it. -/
def Spec.Preset (env : Env Φ Path V) (s s' : Sys Φ Path) : Prop :=
  s' = s ∨ s.explicit = none ∧ ∃ p, env.sel s.isotopes = .ok p ∧ s' = { s with explicit := some p }

theorem preset_step (env : Env Φ Path V) (dec : Bool) (st : St Path V) (s s' : Sys Φ Path) (h : Spec.Preset env s s') :
    step env dec st s' = step env dec st s := by
  rcases h with rfl | ⟨h1, p, h2, rfl⟩
  · rfl
  · have hu : userOrSelected env { s with explicit := some p } = userOrSelected env s := by
      unfold userOrSelected
      rw [h1]
      exact h2.symm
    unfold step cache
    simp only [hu]

theorem preset_foldlM (env : Env Φ Path V) (dec : Bool) (l : List (Sys Φ Path × Sys Φ Path))
    (h : ∀ q ∈ l, Spec.Preset env q.1 q.2) (st : St Path V) :
    (l.map Prod.snd).foldlM (step env dec) st = (l.map Prod.fst).foldlM (step env dec) st := by
  induction l generalizing st with
  | nil => rfl
  | cons q l ih =>
    rw [List.map_cons, List.map_cons, List.foldlM_cons, List.foldlM_cons, preset_step env dec st q.1 q.2 (h q (by simp))]
    congr 1
    funext st'
    exact ih (fun q' h' => h q' (by simp [h'])) st'

/-- **C121, pathways of the method.** Setting the pathways of any of the spin systems to those that the method selects for them changes nothing:
neither the spectrum, with any number of workers, nor the entries of a decomposed one, nor an error. -/
theorem C121_preset (env : Env Φ Path V) (cpu : Int) (decompose : Bool) (l : List (Sys Φ Path × Sys Φ Path))
    (h : ∀ q ∈ l, Spec.Preset env q.1 q.2) (nJobs : Int) :
    run env cpu decompose (l.map Prod.snd) nJobs = run env cpu decompose (l.map Prod.fst) nJobs := by
  unfold run
  rw [getChunks_map, getChunks_map]
  cases hc : Chunks.getChunks cpu l nJobs with
  | error e => rfl
  | ok cs =>
    have hm := mem_chunks (P := fun q => Spec.Preset env q.1 q.2) cpu l nJobs cs hc h
    have e : (cs.map (List.map Prod.snd)).mapM (oneD env decompose) = (cs.map (List.map Prod.fst)).mapM (oneD env decompose) := by
      clear hc
      induction cs with
      | nil => rfl
      | cons c cs ih =>
        rw [List.map_cons, List.map_cons, List.mapM_cons, List.mapM_cons, ih fun c' h' => hm c' (by simp [h'])]
        congr 1
        unfold oneD
        rw [preset_foldlM env decompose c (hm c (by simp))]
    simp only [Except.map, bind, Except.bind]
    rw [e]

/-- **C121, other pathways, partial.** A spin system with the observed isotope and pathways of its own gives the sum over these pathways, in
its abundance, whatever the method would select.  By C02 this carries over to lists in which spin systems with equally many sites have the same
isotopes and pathways.  Missing, and false: the others (`C121_counterexample`). -/
theorem C121_override_partial (env : Env Φ Path V) (cpu : Int) (l : List (Sys Φ Path)) (hu : Spec.Uniform env l) (nJobs : Int)
    (hn : 1 ≤ nJobs) (paths : Sys Φ Path → List Path)
    (h : ∀ s ∈ l, env.channel ∈ s.isotopes → s.explicit = some (paths s) ∧ paths s ≠ []) :
    run env cpu false l nJobs = .ok [.spec ((l.map fun s => if env.channel ∈ s.isotopes then
      (if env.gammaNeg then env.mirror else AddMonoidHom.id V) ((s.abundance / env.norm) • ((paths s).map (env.core s.phys)).sum)
      else 0).sum)] := by
  have hm : ∀ v, (if env.gammaNeg then env.mirror else AddMonoidHom.id V) v = mir env v := by
    intro v
    unfold mir
    split_ifs <;> rfl
  simp only [hm]
  refine C02_mixture_partial env cpu l hu nJobs hn _ fun s hs => ?_
  rw [run_single]
  unfold alone
  by_cases hc : env.channel ∈ s.isotopes
  · obtain ⟨h1, h2⟩ := h s hs hc
    rw [if_neg (not_not.mpr hc), if_pos hc]
    unfold Spec.pathways
    simp only [h1, bind, Except.bind]
    rcases hp : paths s with _ | ⟨p, ps⟩
    · exact absurd hp h2
    · simp only [val, Option.getD_some]
      have hf : ∀ (k : List Path) (a : V), k.foldl (fun a q => a + env.core s.phys q) a = a + (k.map (env.core s.phys)).sum := by
        intro k
        induction k with
        | nil => intro a; simp
        | cons q k ih => intro a; rw [List.foldl_cons, ih, List.map_cons, List.sum_cons, add_assoc]
      rw [hf, zero_add]
  · rw [if_pos hc, if_neg hc]
    simp only [val, Option.getD_none]
    have : mir env (0 : V) = 0 := by
      unfold mir
      split_ifs
      · exact map_zero _
      · rfl
    rw [this]

/-- **C121, disagreement.** Of two spin systems with one proton each, the pathways given to the second are not used if the first has the same
isotope, and those given to the first are used for the second, for which nothing was given.  The pathway here is the transition in the opposite
direction, which counts negative; alone, or with two workers, it is used. -/
theorem C121_counterexample :
    ∃ a b : Sys (List ℚ) (List Trans.Tr), ∃ p : List (List Trans.Tr),
      let env := exampleEnv "1H" Trans.blochDecay false
      a.explicit = none ∧ b.explicit = none ∧
      run env 4 false [{ b with explicit := some p }] 1 = .ok [.spec (-7)] ∧
      run env 4 false [a, b] 1 = .ok [.spec 17] ∧
      run env 4 false [a, { b with explicit := some p }] 1 = .ok [.spec 17] ∧
      run env 4 false [a, { b with explicit := some p }] 2 = .ok [.spec 3] ∧
      run env 4 false [{ b with explicit := some p }, a] 1 = .ok [.spec (-17)] := by
  refine ⟨⟨["1H"], none, 1, [10]⟩, ⟨["1H"], none, 1, [7]⟩, [[([-1/2], [1/2])]], ?_⟩
  decide +kernel

/-- Three spin systems, of which the first and the last have been given the pathways of the method: the hypotheses of `C121_preset` hold, and
the spectrum is that of `C02`. -/
example :
    let env := exampleEnv "1H" Trans.blochDecay false
    let p : List (List Trans.Tr) := [[([1/2, 1/2], [-1/2, 1/2])], [([1/2, -1/2], [-1/2, -1/2])]]
    let a : Sys (List ℚ) (List Trans.Tr) := ⟨["1H", "13C"], none, 1, [10, 0]⟩
    let b : Sys (List ℚ) (List Trans.Tr) := ⟨["1H"], none, 2, [3]⟩
    let c : Sys (List ℚ) (List Trans.Tr) := ⟨["1H", "13C"], none, 1/2, [-4, 8]⟩
    run env 4 false [{ a with explicit := some p }, b, { c with explicit := some p }] 2 = .ok [.spec 22] ∧
    run env 4 false [a, b, c] 2 = .ok [.spec 22] := by decide +kernel

/-- Two protons with the same pathway of their own, and a nucleus that is not observed, with two workers: the hypotheses of
`C121_override_partial` hold. -/
example :
    let env := exampleEnv "1H" Trans.blochDecay false
    let p : List (List Trans.Tr) := [[([-1/2], [1/2])]]
    run env 4 false [⟨["1H"], some p, 1, [10]⟩, ⟨["29Si"], none, 3, [5]⟩, ⟨["1H"], some p, 2, [7]⟩] 2 = .ok [.spec (-24)] := by
  intro env p
  rw [C121_override_partial env 4 _ (by unfold Spec.Uniform; decide +kernel) 2 (by norm_num) (fun _ => p) (by
    intro s hs hc
    simp only [List.mem_cons, List.not_mem_nil, or_false] at hs
    rcases hs with rfl | rfl | rfl
    · exact ⟨rfl, by simp [p]⟩
    · exact absurd hc (by decide)
    · exact ⟨rfl, by simp [p]⟩)]
  decide +kernel

end MRS.Run

namespace MRS.Trans

/-- **C121, layout.** Given as objects, the pathways that the method selects are handed to the C code as the same array of numbers. -/
theorem C121_layout (so : SetOrder) (sites : List Iso) (channel : List String) (dims : List (List Query)) (paths : List (List Tr))
    (h : transitionPathways so sites channel dims = .ok paths) : packGiven sites.length paths = packSelected sites.length paths := by
  obtain ⟨hn, hshape⟩ := selected_shape so sites channel dims paths h
  cases paths with
  | nil => rfl
  | cons p ps =>
    unfold packGiven packSelected
    simp only []
    rw [if_neg, if_neg]
    · rw [List.flatMap_def]
      rfl
    · have key : ∀ r ∈ (p :: ps).flatten.map trList, r.length = sites.length + sites.length := by
        intro r hr
        obtain ⟨t, ht, rfl⟩ := List.mem_map.mp hr
        obtain ⟨q, hq, htq⟩ := List.mem_flatten.mp ht
        have := (hshape q hq).2 t htq
        unfold trList
        rw [List.length_append, this.1, this.2]
      simp only [List.any_eq_true, decide_eq_true_eq, not_exists, not_and, ne_eq, Decidable.not_not]
      intro r hr r' hr'
      rw [key r hr, key r' hr']
    · simp only [List.any_eq_true, decide_eq_true_eq, not_exists, not_and, ne_eq, Decidable.not_not]
      intro q hq
      rw [(hshape q (List.mem_cons_of_mem _ hq)).1, (hshape p (by simp)).1]

/-- Two sites: two pathways of one transition. -/
example : (transitionPathways stdOrder [⟨"1H", 1⟩, ⟨"13C", 1⟩] ["1H"] blochDecay).map List.length = .ok 2 := by decide +kernel

end MRS.Trans
