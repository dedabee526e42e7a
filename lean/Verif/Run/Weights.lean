import Verif.Run.Image
import Verif.Run.Mixture

/-!
# Abundances are weights — property C110
-/

namespace MRS.Run

variable {Φ Path V : Type} [AddCommGroup V] [Module ℚ V]

/-- The spin system in another abundance. -/
def Spec.inAbundance (a : ℚ) (s : Sys Φ Path) : Sys Φ Path := ⟨s.isotopes, s.explicit, a, s.phys⟩

/-- The result with all intensities multiplied by `q`. -/
def Spec.times (q : ℚ) : Datum V → Datum V
  | .spec v => .spec (q • v)
  | .empty => .empty
  | .strayRow => .strayRow

/-- **C110.** If all abundances are multiplied by a number, so are all intensities, in the sum as in the list of the spectra; and the run fails
with the same error if it fails. For every method, every list of spin systems and every number of processes. -/
theorem C110_scaling (env : Env Φ Path V) (cpu : ℤ) (decompose : Bool) (l : List (Sys Φ Path)) (nJobs : ℤ) (q : ℚ) :
    run env cpu decompose (l.map fun s => Spec.inAbundance (q * s.abundance) s) nJobs
      = (run env cpu decompose l nJobs).map (List.map (Spec.times q)) := by
  have hd : (Spec.times q : Datum V → Datum V) = Datum.image (DistribSMul.toAddMonoidHom V q) := by
    funext d
    cases d <;> rfl
  rw [hd]
  refine run_image (env := env) (env' := env) (π := DistribSMul.toAddMonoidHom V q) ⟨rfl, rfl, rfl, rfl, fun v => ?_⟩ cpu decompose ?_ nJobs
  · exact map_rat_smul env.mirror q v
  · rw [List.forall₂_map_right_iff, List.forall₂_same]
    intro s _
    refine ⟨rfl, rfl, fun p => ?_⟩
    change (q * s.abundance / env.norm) • env.core s.phys p = q • ((s.abundance / env.norm) • env.core s.phys p)
    rw [smul_smul, mul_div_assoc]

theorem cache_twice (env : Env Φ Path V) (st st' : St Path V) (s s' : Sys Φ Path) (hs : s'.isotopes = s.isotopes) (w : V)
    (h : cache env st s = .ok st') : cache env { st' with amp1 := w } s' = .ok { st' with amp1 := w } := by
  unfold cache at h ⊢
  rw [hs]
  by_cases hc : s.isotopes.length ≠ st.pN ∧ some s.isotopes ≠ st.pIso
  · rw [if_pos hc] at h
    simp only [Bind.bind, Except.bind] at h
    cases hu : userOrSelected env s with
    | error e => rw [hu] at h; cases h
    | ok ps =>
      rw [hu] at h
      cases ps with
      | nil => cases h
      | cons p ps =>
        simp only at h
        injection h with h
        subst h
        rw [if_neg (by simp)]
  · rw [if_neg hc] at h
    injection h with h
    subst h
    rw [if_neg hc]

theorem step_split (env : Env Φ Path V) (st : St Path V) (s : Sys Φ Path) (a b : ℚ) :
    (step env false st (Spec.inAbundance a s)).bind (fun st' => step env false st' (Spec.inAbundance b s))
      = step env false st (Spec.inAbundance (a + b) s) := by
  by_cases hc : env.channel ∉ s.isotopes
  · have h : ∀ (st : St Path V) x, step env false st (Spec.inAbundance x s) = .ok st := by
      intro st x
      unfold step
      rw [if_pos (show env.channel ∉ (Spec.inAbundance x s).isotopes from hc)]
      rfl
    rw [h]
    change step env false st _ = _
    rw [h, h]
  · have hcache : ∀ (st : St Path V) x, cache env st (Spec.inAbundance x s) = cache env st s := fun st x => rfl
    have h : ∀ (st : St Path V) x, step env false st (Spec.inAbundance x s)
        = (cache env st s).map fun st => { st with amp1 := st.amp1 + (x / env.norm) • st.paths.foldl (fun a p => a + env.core s.phys p) 0 } := by
      intro st x
      unfold step
      rw [if_neg (show ¬ env.channel ∉ (Spec.inAbundance x s).isotopes from hc), hcache]
      cases cache env st s <;> rfl
    rw [h, h]
    cases e : cache env st s with
    | error x => rfl
    | ok st1 =>
      change step env false _ _ = _
      rw [h, cache_twice env st st1 s s rfl _ e]
      simp only [Except.map]
      rw [add_div, add_smul, add_assoc]

theorem one_chunk (env : Env Φ Path V) (cpu : ℤ) (l : List (Sys Φ Path)) :
    run env cpu false l 1 = (oneD env false l).bind fun o => collect env [o] := by
  obtain ⟨cs, h1, h2, h3, -⟩ := Chunks.C01_chunks_partition cpu l 1 1 rfl one_pos
  obtain ⟨c, rfl⟩ := List.length_eq_one_iff.mp h2
  rw [List.flatten_singleton] at h3
  subst h3
  unfold run
  rw [h1]
  simp only [Bind.bind, Except.bind, List.mapM_cons, List.mapM_nil, pure, Except.pure]
  cases oneD env false c <;> rfl

/-- **C110.** A spin system given twice in a row, in the abundances `a` and `b`, counts as if it were given once in the abundance `a + b`,
anywhere in any list. -/
theorem C110_split (env : Env Φ Path V) (cpu : ℤ) (l₁ l₂ : List (Sys Φ Path)) (s : Sys Φ Path) (a b : ℚ) :
    run env cpu false (l₁ ++ Spec.inAbundance a s :: Spec.inAbundance b s :: l₂) 1
      = run env cpu false (l₁ ++ Spec.inAbundance (a + b) s :: l₂) 1 := by
  rw [one_chunk, one_chunk]
  congr 1
  unfold oneD
  congr 1
  rw [List.foldlM_append, List.foldlM_append]
  congr 1
  funext st
  rw [List.foldlM_cons, List.foldlM_cons, ← step_split]
  simp only [Bind.bind, Except.bind]
  cases step env false st (Spec.inAbundance a s) with
  | error e => rfl
  | ok st1 =>
    simp only [List.foldlM_cons, Bind.bind, Except.bind]

/-- A case: two different spin systems, the second in two parts. -/
example : run (exampleEnv "1H" Trans.blochDecay false) 4 false
      [⟨["1H", "13C"], none, 30, [10, 0]⟩, ⟨["1H"], none, 40, [7]⟩, ⟨["1H"], none, 30, [7]⟩] 1 = .ok [.spec 1090] ∧
    run (exampleEnv "1H" Trans.blochDecay false) 4 false [⟨["1H", "13C"], none, 30, [10, 0]⟩, ⟨["1H"], none, 70, [7]⟩] 1 = .ok [.spec 1090] ∧
    run (exampleEnv "1H" Trans.blochDecay false) 4 false [⟨["1H", "13C"], none, 60, [10, 0]⟩, ⟨["1H"], none, 140, [7]⟩] 1 = .ok [.spec 2180] := by
  decide +kernel

end MRS.Run
