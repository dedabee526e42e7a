import Verif.Freq.Bounded

/-!
# Each of the spectra of a decomposition shows no more than there is — property C127
-/

namespace MRS.Freq

/-- What a system that has the isotope gives alone. -/
theorem alone_some {Φ Path V : Type} [AddCommGroup V] [Module ℚ V] (env : Run.Env Φ Path V) (s : Run.Sys Φ Path) (o : Option V)
    (h : Run.alone env s = .ok o) : (env.channel ∈ s.isotopes → ∃ v, o = some v) ∧ (env.channel ∉ s.isotopes → o = none) := by
  unfold Run.alone at h
  by_cases hc : env.channel ∉ s.isotopes
  · rw [if_pos hc] at h
    injection h with h
    exact ⟨fun h' => absurd h' hc, fun _ => h.symm⟩
  · rw [if_neg hc] at h
    refine ⟨fun _ => ?_, fun h' => absurd h' hc⟩
    simp only [bind, Except.bind] at h
    cases hp : Run.Spec.pathways env s with
    | error e => rw [hp] at h; cases h
    | ok p =>
      rw [hp] at h
      cases p with
      | nil => cases h
      | cons q p =>
        injection h with h
        exact ⟨_, h.symm⟩

/-! ## Property -/

/-- **C127, partial.** With `decompose_spectrum="spin_system"`, each spectrum shows no more than its spin system gives: the abundance over the increment, for each of its
observed transitions, times the weight `A` of the orientations.  Systems without the isotope have an empty entry.
Missing: lists in which systems with the same number of nuclei have different isotopes (C02), more jobs than systems, and isotopes of negative gyromagnetic ratio that a
system lacks, where the run is an error (C03). -/
theorem C127_each_partial : ∃ A : ℕ → ℝ, (∀ nt, 1 ≤ nt → 0 < A nt) ∧ Filter.Tendsto A Filter.atTop (nhds (3 * Real.pi)) ∧
    ∀ (W : WC) (T : TC) (lib : Library) (so : Trans.SetOrder) (c : String) (central : Bool) (_ : central = true → lib.twoI c % 2 = 1) (B0 : ℝ)
    (r : Rotor) (d : Meth.SDim) [NeZero d.count] (_ : 0 < d.sw) (nOct : ℕ) (junk : ℕ → Phys → List Trans.Tr → ℕ → ℕ → ℂ) (nt : ℕ) (_ : 1 ≤ nt)
    (l : List (Run.Sys Phys (List Trans.Tr))) (_ : ∀ s ∈ l, Spec.Given lib s ∧ 0 ≤ s.abundance)
    (_ : ∀ a ∈ l, ∀ b ∈ l, c ∈ a.isotopes → c ∈ b.isotopes → a.isotopes.length = b.isotopes.length → a.isotopes = b.isotopes)
    (_ : lib.gamma c < 0 → ∀ s ∈ l, c ∈ s.isotopes) (cpu nJobs : ℤ) (_ : 1 ≤ nJobs) (_ : nJobs ≤ l.length),
    ∃ e : Run.Sys Phys (List Trans.Tr) → Run.Datum (ZMod d.count → ℝ),
      Run.run (pulseEnv W T lib so c central B0 r d nOct junk nt) cpu true l nJobs = .ok (l.map e) ∧
      ∀ s ∈ l, (c ∉ s.isotopes → e s = .empty) ∧ (c ∈ s.isotopes → ∃ v, e s = .spec v ∧
        ∑ k, v k ≤ A nt * (((s.abundance / (d.sw / d.count) : ℚ) : ℝ) * (Set.ncard {x | Spec.Observed c central s.isotopes s.phys.sites x} : ℝ))) := by
  obtain ⟨A, hA, hlim, hall⟩ := C127_bounded_partial
  refine ⟨A, hA, hlim, ?_⟩
  intro W T lib so c central hcen B0 r d _ hsw nOct junk nt hn l hl hu hg cpu nJobs hJ hle
  set env := pulseEnv W T lib so c central B0 r d nOct junk nt with henv
  have hone : ∀ s ∈ l, ∃ e, Run.entry env s = .ok e ∧ (c ∉ s.isotopes → e = .empty) ∧ (c ∈ s.isotopes → ∃ v, e = .spec v ∧
      ∑ k, v k ≤ A nt * (((s.abundance / (d.sw / d.count) : ℚ) : ℝ) * (Set.ncard {x | Spec.Observed c central s.isotopes s.phys.sites x} : ℝ))) := by
    intro s hs
    obtain ⟨v, hv, hb⟩ := hall W T lib so c central hcen B0 r d hsw nOct junk nt hn [s] (fun x hx => by rw [List.mem_singleton.mp hx]; exact hl s hs)
      (fun a ha b hb _ _ _ => by rw [List.mem_singleton.mp ha, List.mem_singleton.mp hb]) cpu 1 le_rfl
    rw [List.map_singleton, List.sum_singleton] at hb
    rw [← henv, Run.run_single] at hv
    cases ha : Run.alone env s with
    | error x => rw [ha] at hv; cases hv
    | ok o =>
      rw [ha] at hv
      obtain ⟨h1, h2⟩ := alone_some env s o ha
      have he := Run.entry_eq env s o ha (fun h => hg (by simpa [henv, pulseEnv] using h) s hs)
      refine ⟨_, he, fun hc => ?_, fun hc => ?_⟩
      · rw [h2 hc]
        rfl
      · obtain ⟨w, rfl⟩ := h1 hc
        refine ⟨_, rfl, ?_⟩
        injection hv with hv
        injection hv with hv
        injection hv with hv
        rw [← hv] at hb
        exact hb
  have : Nonempty (Run.Datum (ZMod d.count → ℝ)) := ⟨.empty⟩
  choose! e he1 he2 using hone
  exact ⟨e, Run.run_entries env cpu l (fun a ha b hb h1 h2 h3 =>
    ⟨hu a ha b hb h1 h2 h3, by rw [(hl a ha).1.explicit, (hl b hb).1.explicit]⟩) nJobs hJ hle e he1, he2⟩

/-- Molecules of two nuclei and of one, in two jobs. -/
example (so : Trans.SetOrder) (junk : ℕ → Phys → List Trans.Tr → ℕ → ℕ → ℂ) (cpu : ℤ) :
    haveI : NeZero (Meth.SDim.count ⟨512, 8, 0, none⟩) := ⟨by norm_num⟩
    ∃ v w : ZMod 512 → ℝ, Run.run (pulseEnv WC.src TC.src exampleLib so "15N" false 1 exampleStill ⟨512, 8, 0, none⟩ 4 junk 70) cpu true
      [moleculeSys, edgeSys] 2 = .ok [.spec v, .spec w] := by
  have i1 : NeZero (Meth.SDim.count ⟨512, 8, 0, none⟩) := ⟨by norm_num⟩
  obtain ⟨A, -, -, h⟩ := C127_each_partial
  have hm : ∀ s ∈ [moleculeSys, edgeSys], "15N" ∈ s.isotopes := by
    intro s hs
    simp only [List.mem_cons, List.not_mem_nil, or_false] at hs
    rcases hs with rfl | rfl <;> simp [moleculeSys, edgeSys]
  obtain ⟨e, he, hs⟩ := h WC.src TC.src exampleLib so "15N" false (by simp) 1 exampleStill ⟨512, 8, 0, none⟩ (by norm_num) 4 junk 70 (by norm_num)
    [moleculeSys, edgeSys]
    (fun s hs => by
      simp only [List.mem_cons, List.not_mem_nil, or_false] at hs
      rcases hs with rfl | rfl
      · exact ⟨molecule_given, by norm_num [moleculeSys]⟩
      · exact ⟨edge_given, by norm_num [edgeSys]⟩)
    (fun a ha b hb _ _ hlen => by
      simp only [List.mem_cons, List.not_mem_nil, or_false] at ha hb
      rcases ha with rfl | rfl <;> rcases hb with rfl | rfl
      · rfl
      · simp [moleculeSys, edgeSys] at hlen
      · simp [moleculeSys, edgeSys] at hlen
      · rfl) (fun _ => hm) cpu 2 (by norm_num) (by simp)
  obtain ⟨v, hv, -⟩ := (hs moleculeSys (by simp)).2 (hm _ (by simp))
  obtain ⟨w, hw, -⟩ := (hs edgeSys (by simp)).2 (hm _ (by simp))
  refine ⟨v, w, ?_⟩
  rw [List.map_cons, List.map_singleton, hv, hw] at he
  exact he

end MRS.Freq
