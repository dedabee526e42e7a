import Verif.Run.Image

/-!
# Invariants of runs — lemmas

What holds of all contributions, and is kept by sums, by scaling with the abundances and by the mirror, holds of all results.
-/

namespace MRS.Run

variable {Φ Path V : Type} [AddCommGroup V] [Module ℚ V]

/-- A property of arrays that is kept by all that a run does to them. -/
structure Kept (env : Env Φ Path V) (P : V → Prop) : Prop where
  zero : P 0
  add : ∀ v w, P v → P w → P (v + w)
  scale : ∀ (q : ℚ) v, 0 ≤ q → P v → P (q • v)
  mirror : ∀ v, P v → P (env.mirror v)

theorem Kept.sum {env : Env Φ Path V} {P : V → Prop} (h : Kept env P) (f : Path → V) (l : List Path) (hf : ∀ p, P (f p)) (a : V) (ha : P a) :
    P (l.foldl (fun a p => a + f p) a) := by
  induction l generalizing a with
  | nil => exact ha
  | cons p l ih => exact ih _ (h.add _ _ ha (hf p))

/-- All arrays in the state have the property. -/
def St.All (P : V → Prop) (st : St Path V) : Prop := P st.amp1 ∧ ∀ v, some v ∈ st.ind → P v

/-- All arrays of a result have the property. -/
def Out.All (P : V → Prop) : Out V → Prop
  | .arr v => P v
  | .list l => ∀ v, some v ∈ l → P v

theorem step_kept {env : Env Φ Path V} {P : V → Prop} (h : Kept env P) (dec : Bool) (st st' : St Path V) (hst : st.All P) (s : Sys Φ Path)
    (hs : ∀ p, P (env.core s.phys p)) (ha : 0 ≤ s.abundance / env.norm) (e : step env dec st s = .ok st') : st'.All P := by
  unfold step at e
  by_cases hc : env.channel ∉ s.isotopes
  · rw [if_pos hc] at e
    injection e with e
    subst e
    cases dec
    · exact hst
    · refine ⟨hst.1, fun v hv => hst.2 v ?_⟩
      simpa using hv
  · rw [if_neg hc] at e
    cases e1 : cache env st s with
    | error x => rw [e1] at e; cases e
    | ok st1 =>
      have h1 : st1.All P := by
        unfold cache at e1
        split_ifs at e1
        · simp only [Bind.bind, Except.bind] at e1
          cases hu : userOrSelected env s with
          | error x => rw [hu] at e1; cases e1
          | ok ps =>
            rw [hu] at e1
            cases ps with
            | nil => cases e1
            | cons p ps =>
              simp only at e1
              injection e1 with e1
              subst e1
              exact hst
        · injection e1 with e1
          subst e1
          exact hst
      rw [e1] at e
      have ht := h.scale (s.abundance / env.norm) _ ha (h.sum (env.core s.phys) st1.paths hs 0 h.zero)
      injection e with e
      subst e
      cases dec
      · exact ⟨h.add _ _ h1.1 ht, h1.2⟩
      · refine ⟨h1.1, fun v hv => ?_⟩
        simp only [if_true, List.mem_append, List.mem_singleton, Option.some.injEq] at hv
        rcases hv with hv | rfl
        · exact h1.2 v hv
        · exact ht

theorem oneD_kept {env : Env Φ Path V} {P : V → Prop} (h : Kept env P) (dec : Bool) (l : List (Sys Φ Path))
    (hs : ∀ s ∈ l, ∀ p, P (env.core s.phys p)) (ha : ∀ s ∈ l, 0 ≤ s.abundance / env.norm) (o : Out V) (e : oneD env dec l = .ok o) : o.All P := by
  have key : ∀ (l : List (Sys Φ Path)), (∀ s ∈ l, ∀ p, P (env.core s.phys p)) → (∀ s ∈ l, 0 ≤ s.abundance / env.norm) →
      ∀ st st' : St Path V, st.All P → l.foldlM (step env dec) st = .ok st' → st'.All P := by
    intro l
    induction l with
    | nil =>
      intro _ _ st st' h1 e
      injection e with e
      exact e ▸ h1
    | cons s l ih =>
      intro hs ha st st' h1 e
      rw [List.foldlM_cons] at e
      cases e1 : step env dec st s with
      | error x => rw [e1] at e; cases e
      | ok st1 =>
        rw [e1] at e
        exact ih (fun s hm => hs s (List.mem_cons_of_mem _ hm)) (fun s hm => ha s (List.mem_cons_of_mem _ hm)) st1 st'
          (step_kept h dec st st1 h1 s (hs s List.mem_cons_self) (ha s List.mem_cons_self) e1) e
  unfold oneD at e
  cases e1 : l.foldlM (step env dec) ⟨0, none, [], 0, []⟩ with
  | error x => rw [e1] at e; cases e
  | ok st =>
    have hst := key l hs ha _ st ⟨h.zero, fun v hv => by simp at hv⟩ e1
    rw [e1] at e
    change finish env dec st = .ok o at e
    unfold finish at e
    split_ifs at e with hd hg hg
    · have hm : ∀ (l l' : List (Option V)), (∀ v, some v ∈ l → P v) → l.mapM (mirrorEntry env) = .ok l' → ∀ v, some v ∈ l' → P v := by
        intro l
        induction l with
        | nil =>
          intro l' _ e v hv
          injection e with e
          subst e
          simp at hv
        | cons o l ih =>
          intro l' hl e v hv
          rw [List.mapM_cons] at e
          cases o with
          | none => cases e
          | some w =>
            cases e2 : l.mapM (mirrorEntry env) with
            | error x => simp only [mirrorEntry, Bind.bind, Except.bind, e2] at e; cases e
            | ok l2 =>
              simp only [mirrorEntry, Bind.bind, Except.bind, e2] at e
              injection e with e
              subst e
              rcases List.mem_cons.mp hv with hv | hv
              · injection hv with hv
                exact hv ▸ h.mirror w (hl w List.mem_cons_self)
              · exact ih l2 (fun v hv => hl v (List.mem_cons_of_mem _ hv)) e2 v hv
      cases e2 : st.ind.mapM (mirrorEntry env) with
      | error x => rw [e2] at e; cases e
      | ok l2 =>
        rw [e2] at e
        injection e with e
        subst e
        exact hm _ _ hst.2 e2
    · injection e with e
      subst e
      exact hst.2
    · injection e with e
      subst e
      exact h.mirror _ hst.1
    · injection e with e
      subst e
      exact hst.1

/-- A property that is kept holds of all spectra of the result. -/
theorem run_kept {env : Env Φ Path V} {P : V → Prop} (h : Kept env P) (cpu : ℤ) (dec : Bool) (l : List (Sys Φ Path)) (n : ℤ)
    (hs : ∀ s ∈ l, ∀ p, P (env.core s.phys p)) (ha : ∀ s ∈ l, 0 ≤ s.abundance / env.norm) (ds : List (Datum V))
    (e : run env cpu dec l n = .ok ds) (v : V) (hv : Datum.spec v ∈ ds) : P v := by
  unfold run at e
  cases e1 : Chunks.getChunks cpu l n with
  | error x => rw [e1] at e; cases e
  | ok cs =>
    have hc := mem_chunks (P := fun s => (∀ p, P (env.core s.phys p)) ∧ 0 ≤ s.abundance / env.norm) cpu l n cs e1 (fun s hm => ⟨hs s hm, ha s hm⟩)
    rw [e1] at e
    simp only [Bind.bind, Except.bind] at e
    have key : ∀ (cs : List (List (Sys Φ Path))), (∀ c ∈ cs, ∀ s ∈ c, (∀ p, P (env.core s.phys p)) ∧ 0 ≤ s.abundance / env.norm) →
        ∀ os, cs.mapM (oneD env dec) = .ok os → ∀ o ∈ os, Out.All P o := by
      intro cs
      induction cs with
      | nil =>
        intro _ os e o ho
        injection e with e
        subst e
        simp at ho
      | cons c cs ih =>
        intro hcs os e o ho
        rw [List.mapM_cons] at e
        cases e2 : oneD env dec c with
        | error x => rw [e2] at e; cases e
        | ok o1 =>
          cases e3 : cs.mapM (oneD env dec) with
          | error x => simp only [Bind.bind, Except.bind, e2, e3] at e; cases e
          | ok os1 =>
            simp only [Bind.bind, Except.bind, e2, e3] at e
            injection e with e
            subst e
            rcases List.mem_cons.mp ho with rfl | ho
            · exact oneD_kept h dec c (fun s hm => (hcs c List.mem_cons_self s hm).1) (fun s hm => (hcs c List.mem_cons_self s hm).2) _ e2
            · exact ih (fun c hm => hcs c (List.mem_cons_of_mem _ hm)) os1 e3 o ho
    cases e2 : cs.mapM (oneD env dec) with
    | error x => rw [e2] at e; cases e
    | ok os =>
      have ho := key cs hc os e2
      rw [e2] at e
      simp only at e
      cases os with
      | nil => cases e
      | cons o os =>
        cases o with
        | list k =>
          change Except.ok ((.list k :: os).flatMap (spliced env)) = _ at e
          injection e with e
          subst e
          obtain ⟨o, hom, hv⟩ := List.mem_flatMap.mp hv
          have := ho o hom
          cases o with
          | arr w => simp [spliced] at hv
          | list k =>
            obtain ⟨x, hx, hxe⟩ := List.mem_map.mp hv
            cases x with
            | none => cases hxe
            | some w =>
              injection hxe with hxe
              exact hxe ▸ this w hx
        | arr w =>
          change (do return [.spec (← sumArrays (.arr w :: os))] : Py (List (Datum V))) = _ at e
          have hsum : ∀ (os : List (Out V)), (∀ o ∈ os, Out.All P o) → ∀ u, sumArrays os = .ok u → P u := by
            intro os
            induction os with
            | nil =>
              intro _ u e
              injection e with e
              exact e ▸ h.zero
            | cons o os ih =>
              intro ho u e
              cases o with
              | list k => cases e
              | arr w =>
                cases e3 : sumArrays os with
                | error x => simp only [sumArrays, Bind.bind, Except.bind, e3] at e; cases e
                | ok u1 =>
                  simp only [sumArrays, Bind.bind, Except.bind, e3] at e
                  injection e with e
                  subst e
                  exact h.add _ _ (ho _ List.mem_cons_self) (ih (fun o hm => ho o (List.mem_cons_of_mem _ hm)) u1 e3)
          cases e3 : sumArrays (.arr w :: os) with
          | error x => simp only [Bind.bind, Except.bind, e3] at e; cases e
          | ok u =>
            simp only [Bind.bind, Except.bind, e3] at e
            injection e with e
            subst e
            rw [List.mem_singleton] at hv
            injection hv with hv
            exact hv ▸ hsum _ ho u e3

end MRS.Run
