import Verif.Freq.OnePulse

/-!
# What a spectrum after one pulse depends on

Lemmas for the laws of Laws.lean, Signs.lean, Order.lean and Uncoupled.lean.  They hold at every integration density and with any
constants.
-/

namespace MRS.Freq

open Complex ComplexConjugate

/-! ## One transition -/

/-- Phases that agree where they are read. -/
def RowsAlike (four : Bool) (P P' : ℕ → ℕ → ℂ) : Prop :=
  ∀ (q m : ℕ), 1 ≤ m → (m ≤ 2 ∨ m ≤ 4 ∧ four = true) → P q m = P' q m

theorem startRows_alike (four : Bool) (junk junk' : ℕ → ℕ → ℂ) (nt : ℕ) :
    RowsAlike four (startRows four junk nt) (startRows four junk' nt) := by
  intro q m h1 h
  have e := turnRows_alpha four (junk q) (gridAlpha nt q) 0 m h1 h
  have e' := turnRows_alpha four (junk' q) (gridAlpha nt q) 0 m h1 h
  simp only [Function.iterate_zero, id] at e e'
  unfold startRows
  rw [e, e']

theorem RowsAlike.turn {four : Bool} {P P' : ℕ → ℕ → ℂ} (h : RowsAlike four P P') :
    RowsAlike four (fun q => turnRows four (P q)) (fun q => turnRows four (P' q)) := by
  intro q m h1 hm
  simp only [turnRows]
  rw [h q m h1 hm]

theorem rowRotation_alike (W : WC) (l : ℕ) (c s : ℝ) (P P' : ℕ → ℂ) (hP : ∀ m, 1 ≤ m → m ≤ l → P m = P' m) (R R' : ℕ → ℂ) (k : ℝ)
    (hR : ∀ i, R' i = k * R i) (i : ℕ) : rowRotation W l c s P' R' i = k * rowRotation W l c s P R i := by
  unfold rowRotation
  rw [Finset.mul_sum]
  refine Finset.sum_congr rfl fun j hj => ?_
  have hj := Finset.mem_range.mp hj
  have e : phasedRows l P' R' j = k * phasedRows l P R j := by
    unfold phasedRows
    by_cases h1 : j < l
    · rw [if_pos h1, if_pos h1, hR, hP _ (by omega) (by omega)]
      ring
    · rw [if_neg h1, if_neg h1]
      by_cases h2 : j = l
      · rw [if_pos h2, if_pos h2, hR]
      · rw [if_neg h2, if_neg h2, hR, hP _ (by omega) (by omega)]
        simp only [map_mul, Complex.conj_ofReal]
        ring
  rw [e]
  ring

/-- Blocks that differ by a factor. -/
def BlocksAlike (four : Bool) (k : ℝ) (b b' : Block) : Prop :=
  (∀ q i, b'.w2 q i = k * b.w2 q i) ∧ (four = true → ∀ q i, b'.w4 q i = k * b.w4 q i)

theorem batch_alike (W : WC) (four : Bool) (nOct : ℕ) (c s : ℕ → ℝ) (R2 R4 R2' R4' : ℕ → ℂ) (k : ℝ) (h2 : ∀ i, R2' i = k * R2 i)
    (h4 : four = true → ∀ i, R4' i = k * R4 i) (n : ℕ) (P P' : ℕ → ℕ → ℂ) (hP : RowsAlike four P P') :
    List.Forall₂ (BlocksAlike four k) (batch W four nOct c s R2 R4 n P).1 (batch W four nOct c s R2' R4' n P').1 := by
  induction n generalizing P P' with
  | zero => exact List.Forall₂.nil
  | succ n ih =>
    simp only [batch]
    refine List.Forall₂.cons ⟨fun q i => ?_, fun hf q i => ?_⟩ ?_
    · exact rowRotation_alike W 2 (c q) (s q) (P q) (P' q) (fun m h1 h => hP q m h1 (Or.inl h)) R2 R2' k h2 i
    · exact rowRotation_alike W 4 (c q) (s q) (P q) (P' q) (fun m h1 h => hP q m h1 (Or.inr ⟨h, hf⟩)) R4 R4' k (h4 hf) i
    · by_cases hO : nOct ≠ 1
      · simp only [if_pos hO]
        exact ih _ _ hP.turn
      · simp only [if_neg hO]
        exact ih _ _ hP

theorem forall₂_get {α β : Type} {R : α → β → Prop} {l : List α} {l' : List β} (h : List.Forall₂ R l l') (i : ℕ) :
    (l[i]? = none ∧ l'[i]? = none) ∨ ∃ a b, l[i]? = some a ∧ l'[i]? = some b ∧ R a b := by
  induction h generalizing i with
  | nil => exact Or.inl ⟨rfl, rfl⟩
  | cons h1 h2 ih =>
    cases i with
    | zero => exact Or.inr ⟨_, _, rfl, rfl, h1⟩
    | succ i => simpa using ih i

theorem frequencyArray_alike (W : WC) (four : Bool) (npts : ℕ) (cθ sθ : ℝ) (k : ℝ) (bs bs' : List Block)
    (h : List.Forall₂ (BlocksAlike four k) bs bs') (a : ℕ) :
    frequencyArray W four npts cθ sθ bs' a = k * frequencyArray W four npts cθ sθ bs a := by
  unfold frequencyArray
  rcases forall₂_get h (a / npts) with ⟨e1, e2⟩ | ⟨b, b', e1, e2, hb⟩
  · rw [e1, e2, mul_zero]
  · rw [e1, e2]
    simp only
    rw [hb.1, Complex.re_ofReal_mul]
    cases hf : four
    · simp only [Bool.false_eq_true, if_false]
      ring
    · simp only [if_true]
      rw [hb.2 hf, Complex.re_ofReal_mul]
      ring

theorem prePhase_scaled (N : ℕ) (νr k : ℝ) (hk : k ≠ 0) (i j : ℕ) : (k : ℂ) * prePhase N (k * νr) i j = prePhase N νr i j := by
  have e1 : ((i : ℝ) - 4) * (k * νr * (2 * Real.pi)) * (1 / (N * (k * νr))) = ((i : ℝ) - 4) * (νr * (2 * Real.pi)) * (1 / (N * νr)) := by
    by_cases hν : νr = 0
    · simp [hν]
    by_cases hN : (N : ℝ) = 0
    · simp [hN]
    field_simp
  have e2 : k * (4 * Real.pi / (((i : ℝ) - 4) * (k * νr * (2 * Real.pi)))) = 4 * Real.pi / (((i : ℝ) - 4) * (νr * (2 * Real.pi))) := by
    rw [show ((i : ℝ) - 4) * (k * νr * (2 * Real.pi)) = k * (((i : ℝ) - 4) * (νr * (2 * Real.pi))) by ring, ← mul_div_assoc,
      mul_div_mul_left _ _ hk]
  unfold prePhase
  simp only [e1]
  apply Complex.ext
  · rw [Complex.re_ofReal_mul]
    simp only
    rw [← mul_assoc, e2]
  · rw [Complex.im_ofReal_mul]
    simp only
    rw [← mul_assoc, e2]

theorem sidebandPhase_scaled (W : WC) (four : Bool) (N : ℕ) (νr cθ sθ k : ℝ) (hk : k ≠ 0) (w2 w4 w2' w4' : ℕ → ℂ) (h2 : ∀ i, w2' i = k * w2 i)
    (h4 : four = true → ∀ i, w4' i = k * w4 i) (j : ℕ) :
    sidebandPhase W four N (k * νr) cθ sθ w2' w4' j = sidebandPhase W four N νr cθ sθ w2 w4 j := by
  unfold sidebandPhase
  congr 2
  · refine Finset.sum_congr rfl fun i _ => ?_
    rw [h2, ← prePhase_scaled N νr k hk]
    ring
  · cases hf : four
    · rfl
    · simp only [if_true]
      refine Finset.sum_congr rfl fun i _ => ?_
      rw [h4 hf, ← prePhase_scaled N νr k hk]
      ring

theorem amplitudeArray_scaled (W : WC) (four : Bool) (nt nOct N : ℕ) [NeZero N] (νr νr' cθ sθ k : ℝ) (hk : k ≠ 0) (hν : N = 1 ∨ νr' = k * νr)
    (bs bs' : List Block) (h : List.Forall₂ (BlocksAlike four k) bs bs') (a : ℕ) :
    amplitudeArray W four nt nOct N νr' cθ sθ bs' a = amplitudeArray W four nt nOct N νr cθ sθ bs a := by
  unfold amplitudeArray
  simp only
  by_cases hN : N = 1
  · rw [if_pos hN, if_pos hN]
  · rw [if_neg hN, if_neg hN, hν.resolve_left hN]
    rcases forall₂_get h (a % (nOct * Bin.nPts nt) / Bin.nPts nt) with ⟨e1, e2⟩ | ⟨b, b', e1, e2, hb⟩
    · rw [e1, e2]
    · rw [e1, e2]
      simp only
      congr 2
      funext z
      exact sidebandPhase_scaled W four N νr cθ sθ k hk _ _ _ _ (hb.1 _) (fun hf => hb.2 hf _) _

theorem fftOrder_scaled (n : ℤ) (k x : ℝ) : Bin.fftOrder n (k * x) = (Bin.fftOrder n x).map fun y => k * y := by
  unfold Bin.fftOrder
  simp only [List.map_append, List.map_map]
  congr 1
  · refine List.map_congr_left fun i _ => ?_
    simp only [Function.comp]
    ring
  · refine List.map_congr_left fun i _ => ?_
    simp only [Function.comp]
    ring

theorem fftOrder_one (x y : ℝ) : Bin.fftOrder ((1 : ℕ) : ℤ) x = Bin.fftOrder ((1 : ℕ) : ℤ) y := by
  simp [Bin.fftOrder]

/-- What the averaging depends on. -/
theorem averaging1D_scaled (nt nOct : ℕ) (vr : List ℝ) (k inv inv' off off' r r' : ℝ) (hi : k * inv' = inv) (ho : off' + r' = off + r)
    (freq amps : ℕ → ℝ) (count : ℤ) :
    Bin.averaging1D nt nOct (vr.map fun y => k * y) inv' off' r' freq amps count = Bin.averaging1D nt nOct vr inv off r freq amps count := by
  have e : ∀ y : ℝ, k * y * inv' = y * inv := by
    intro y
    rw [← hi]
    ring
  unfold Bin.averaging1D
  simp only [ho, List.zipIdx_map, List.flatMap_map, Prod.map, id, e]

/-- The spectrum of one transition is determined by the isotropic frequency and the components relative to the increment; what the
memory contained does not matter. -/
theorem spectrum_scaled (W : WC) (four : Bool) (nt nOct N : ℕ) [NeZero N] (νr νr' cθ sθ inv inv' off off' k : ℝ) (hk : k ≠ 0)
    (hν : N = 1 ∨ νr' = k * νr) (hi : k * inv' = inv) (count : ℤ) (P P' : ℕ → ℕ → ℂ) (hP : RowsAlike four P P') (t t' : Tens)
    (h0 : off' + t'.R0 * inv' = off + t.R0 * inv) (h2 : ∀ i, t'.R2 i = k * t.R2 i) (h4 : four = true → ∀ i, t'.R4 i = k * t.R4 i) :
    spectrum W four nt nOct N νr' cθ sθ inv' off' count P' t' = spectrum W four nt nOct N νr cθ sθ inv off count P t := by
  have hb := batch_alike W four nOct (fun q => (gridBeta nt q).1) (fun q => (gridBeta nt q).2) t.R2 t.R4 t'.R2 t'.R4 k h2 h4 nOct P P' hP
  have hfft : Bin.fftOrder (N : ℤ) νr' = (Bin.fftOrder (N : ℤ) νr).map fun y => k * y := by
    rw [← fftOrder_scaled]
    rcases hν with h | h
    · subst h
      exact fftOrder_one _ _
    · rw [h]
  unfold spectrum
  simp only
  rw [hfft, averaging1D_scaled nt nOct _ k inv inv' off off' _ _ hi h0]
  congr 1
  · funext a
    rw [frequencyArray_alike W four _ cθ sθ k _ _ hb, ← hi]
    ring
  · funext a
    exact amplitudeArray_scaled W four nt nOct N νr νr' cθ sθ k hk hν _ _ hb a

/-! ## Lists of spin systems -/

/-- The components that belong to a transition between numbered states. -/
noncomputable def lineTens (W : WC) (T : TC) (lib : Library) (c : String) (B0 : ℝ) (ph : Phys) (x : List ℕ × List ℕ) : Tens :=
  methodComponents W T (lib.twoI c) B0 ph.sites ph.couplings (Spec.quantum ph.sites x.1) (Spec.quantum ph.sites x.2)

/-- The writes of one transition with the rotor as it is seen. -/
theorem rotorWrites_edge (W : WC) (T : TC) (lib : Library) (c : String) (B0 : ℝ) (r : Rotor) (d : Meth.SDim) (nOct : ℕ)
    (junk : ℕ → ℕ → ℂ) (nt : ℕ) (ph : Phys) (x : List ℕ × List ℕ) :
    rotorWrites W T lib c B0 r d nOct junk nt ph (qnum (ph.sites.map Site.n) x.1, qnum (ph.sites.map Site.n) x.2)
      = haveI := r.pos
        spectrum W (fourth (lib.twoI c)) nt nOct r.sidebands r.freq (Real.cos r.angle) (Real.sin r.angle) ((1 / (d.sw / d.count) : ℚ) : ℝ)
          ((Meth.normalizeOffset (decide (0 < lib.gamma c)) d : ℚ) : ℝ) d.count (startRows (fourth (lib.twoI c)) junk nt)
          (lineTens W T lib c B0 ph x) := by
  unfold rotorWrites lineTens
  simp only [qnum_cast]

/-- The contribution of one spin system: the sum over the observed transitions. -/
theorem pulse_alone (W : WC) (T : TC) (lib : Library) (so : Trans.SetOrder) (c : String) (central : Bool)
    (hcen : central = true → lib.twoI c % 2 = 1) (B0 : ℝ) (r : Rotor) (d : Meth.SDim) [NeZero d.count] (nOct : ℕ)
    (junk : ℕ → Phys → List Trans.Tr → ℕ → ℕ → ℂ) (nt : ℕ) (s : Run.Sys Phys (List Trans.Tr)) (hs : Spec.Given lib s) :
    Run.alone (pulseEnv W T lib so c central B0 r d nOct junk nt) s = .ok (if c ∈ s.isotopes then
      some ((s.abundance / (d.sw / d.count)) • ∑ᶠ (x) (_ : Spec.Observed c central s.isotopes s.phys.sites x),
        (pulseEnv W T lib so c central B0 r d nOct junk nt).core s.phys (edge s.phys.sites x)) else none) := by
  classical
  unfold Run.alone
  set env := pulseEnv W T lib so c central B0 r d nOct junk nt with henv
  by_cases hc : c ∈ s.isotopes
  · obtain ⟨paths, hp1, hp2, hp3⟩ := selected lib so c central s hs hc
    rw [if_neg (show ¬ env.channel ∉ s.isotopes from not_not.mpr hc), if_pos hc]
    have : Run.Spec.pathways env s = .ok paths := by
      unfold Run.Spec.pathways
      rw [hs.explicit]
      exact hp1
    rw [this]
    simp only [Bind.bind, Except.bind]
    have hne : paths ≠ [] := by
      intro h0
      obtain ⟨x, hx⟩ := observed_exists lib c central hcen s hs hc
      have := (hp3 _).mpr ⟨x, hx, rfl⟩
      rw [h0] at this
      cases this
    have hbij : Set.BijOn (edge s.phys.sites) {x | Spec.Observed c central s.isotopes s.phys.sites x} (paths.toFinset : Set (List Trans.Tr)) := by
      refine ⟨fun x hx => ?_, edge_inj _ _ _ _, fun p hp => ?_⟩
      · simp only [List.coe_toFinset, Set.mem_ofPred_eq]
        exact (hp3 _).mpr ⟨x, hx, rfl⟩
      · simp only [List.coe_toFinset, Set.mem_ofPred_eq] at hp
        obtain ⟨x, hx, rfl⟩ := (hp3 _).mp hp
        exact ⟨x, hx, rfl⟩
    have hsum : (∑ᶠ (x) (_ : Spec.Observed c central s.isotopes s.phys.sites x), env.core s.phys (edge s.phys.sites x))
        = (paths.map (env.core s.phys)).sum := by
      rw [← List.sum_toFinset _ hp2, ← finsum_mem_coe_finset]
      exact finsum_mem_eq_of_bijOn (edge s.phys.sites) hbij fun x hx => rfl
    rw [hsum, ← foldl_core]
    cases hps : paths with
    | nil => exact absurd hps hne
    | cons a b => rfl
  · rw [if_pos (show env.channel ∉ s.isotopes from hc), if_neg hc]

/-- Runs over lists whose members contribute the same up to a factor. -/
theorem runs_alike {Φ Path V : Type} [AddCommGroup V] [Module ℚ V] (env env' : Run.Env Φ Path V) (k : ℚ) (hm : env'.mirror = env.mirror)
    (hg : env'.gammaNeg = env.gammaNeg) (l l' : List (Run.Sys Φ Path)) (hu : Run.Spec.Uniform env l) (hu' : Run.Spec.Uniform env' l')
    (h : List.Forall₂ (fun s s' => ∃ o : Option V, Run.alone env s = .ok o ∧ Run.alone env' s' = .ok (o.map fun v => k • v)) l l')
    (cpu cpu' nJobs nJobs' : ℤ) (hJ : 1 ≤ nJobs) (hJ' : 1 ≤ nJobs') :
    ∃ v, Run.run env cpu false l nJobs = .ok [.spec v] ∧ Run.run env' cpu' false l' nJobs' = .ok [.spec (k • v)] := by
  have key : ∃ os : List (Option V), l.mapM (Run.alone env) = .ok os ∧ l'.mapM (Run.alone env') = .ok (os.map fun o => o.map fun v => k • v) := by
    clear hu hu'
    induction h with
    | nil => exact ⟨[], rfl, rfl⟩
    | cons h1 h2 ih =>
      obtain ⟨o, e1, e2⟩ := h1
      obtain ⟨os, e3, e4⟩ := ih
      refine ⟨o :: os, ?_, ?_⟩
      · rw [List.mapM_cons, e1, e3]
        rfl
      · rw [List.mapM_cons, e2, e4]
        rfl
  obtain ⟨os, e1, e2⟩ := key
  have hsum : ((os.map fun o => o.map fun v => k • v).map Run.val).sum = k • (os.map Run.val).sum := by
    rw [List.smul_sum, List.map_map, List.map_map]
    congr 1
    refine List.map_congr_left fun o _ => ?_
    cases o
    · exact (smul_zero k).symm
    · rfl
  refine ⟨Run.mir env (os.map Run.val).sum, ?_, ?_⟩
  · rw [Run.run_sum env cpu l hu nJobs hJ, e1]
  · rw [Run.run_sum env' cpu' l' hu' nJobs' hJ', e2]
    simp only
    rw [hsum]
    unfold Run.mir
    rw [hm, hg]
    split_ifs
    · rw [map_rat_smul]
    · rfl

/-! ## The components of a transition in which one nucleus moves -/

theorem quantum_get (ss : List Site) (x : List ℕ) (k : ℕ) :
    (Spec.quantum ss x)[k]? = match ss[k]?, x[k]? with
      | some s, some j => some ((j : ℝ) - (s.n : ℝ) / 2)
      | _, _ => none := by
  unfold Spec.quantum
  rw [List.getElem?_zipWith]
  cases ss[k]? <;> cases x[k]? <;> rfl

theorem addSites_same (W : WC) (T : TC) (four : Bool) (B0 : ℝ) (t : Tens) (ss : List Site) (m : List ℝ) :
    addSites W T four B0 t ss m m = t := by
  induction ss generalizing t m with
  | nil => rfl
  | cons s ss ih =>
    cases m with
    | nil => rfl
    | cons a m =>
      rw [addSites, addSite, if_pos rfl]
      exact ih t m

/-- The site that moves is the only one that counts. -/
theorem addSites_mover (W : WC) (T : TC) (four : Bool) (B0 : ℝ) (t : Tens) (ss : List Site) (mi mf : List ℝ) (k : ℕ) (s : Site) (a b : ℝ)
    (hs : ss[k]? = some s) (ha : mi[k]? = some a) (hb : mf[k]? = some b) (ho : ∀ j : ℕ, j ≠ k → mi[j]? = mf[j]?) :
    addSites W T four B0 t ss mi mf = addSite W T four B0 t s b a := by
  induction ss generalizing k mi mf with
  | nil => cases hs
  | cons s0 ss ih =>
    cases mi with
    | nil => cases ha
    | cons a0 mi =>
      cases mf with
      | nil => cases hb
      | cons b0 mf =>
        rw [addSites]
        cases k with
        | zero =>
          have h1 : s0 = s := by simpa using hs
          have h2 : a0 = a := by simpa using ha
          have h3 : b0 = b := by simpa using hb
          have h4 : mi = mf := by
            apply List.ext_getElem?
            intro j
            simpa using ho (j + 1) (by omega)
          rw [h1, h2, h3, h4, addSites_same]
        | succ k =>
          have h1 : a0 = b0 := by simpa using ho 0 (by omega)
          rw [h1, addSite, if_pos rfl]
          refine ih mi mf k (by simpa using hs) (by simpa using ha) (by simpa using hb) fun j hj => ?_
          simpa using ho (j + 1) (by omega)

/-- What a coupling adds. -/
noncomputable def couplingPart (W : WC) (T : TC) (mi mf : List ℝ) (k : Coupling) : Tens :=
  addT (jPart W T k (mf.getD k.A 0) (mi.getD k.A 0) (mf.getD k.X 0) (mi.getD k.X 0))
    (dipolarPart W k (mf.getD k.A 0) (mi.getD k.A 0) (mf.getD k.X 0) (mi.getD k.X 0))

theorem couplingPart_R4 (W : WC) (T : TC) (mi mf : List ℝ) (k : Coupling) (i : ℕ) : (couplingPart W T mi mf k).R4 i = 0 := by
  have h1 := fun a b c d => fcf_R4 (stfDIS a b c d) (ssotJ W T k.J k.zeta k.eta k.Θj) (fun _ => rfl) i
  have h2 := fun a b c d => fcf_R4 (stfDIS a b c d) (ssotDipolar W k.D k.Θd) (fun _ => rfl) i
  simp [couplingPart, addT, jPart, dipolarPart, h1, h2]

theorem couplings_R0 (W : WC) (T : TC) (mi mf : List ℝ) (ks : List Coupling) (t : Tens) :
    (ks.foldl (fun t k => addCoupling W T t mi mf k) t).R0 = t.R0 + (ks.map fun k => (couplingPart W T mi mf k).R0).sum := by
  induction ks generalizing t with
  | nil => simp
  | cons k ks ih =>
    rw [List.foldl_cons, ih, List.map_cons, List.sum_cons]
    simp only [addCoupling, couplingPart, addT]
    ring

theorem couplings_R2 (W : WC) (T : TC) (mi mf : List ℝ) (ks : List Coupling) (t : Tens) (i : ℕ) :
    (ks.foldl (fun t k => addCoupling W T t mi mf k) t).R2 i = t.R2 i + (ks.map fun k => (couplingPart W T mi mf k).R2 i).sum := by
  induction ks generalizing t with
  | nil => simp
  | cons k ks ih =>
    rw [List.foldl_cons, ih, List.map_cons, List.sum_cons]
    simp only [addCoupling, couplingPart, addT]
    ring

theorem couplings_R4' (W : WC) (T : TC) (mi mf : List ℝ) (ks : List Coupling) (t : Tens) (i : ℕ) :
    (ks.foldl (fun t k => addCoupling W T t mi mf k) t).R4 i = t.R4 i := by
  induction ks generalizing t with
  | nil => simp
  | cons k ks ih =>
    rw [List.foldl_cons, ih]
    have := couplingPart_R4 W T mi mf k i
    simp only [couplingPart, addT] at this
    simp only [addCoupling, addT]
    linear_combination this

/-- What the nucleus that moves adds. -/
noncomputable def moverPart (W : WC) (T : TC) (n0 : ℕ) (B0 : ℝ) (s : Site) (i : ℕ) : Tens :=
  addSite W T (fourth n0) B0 zeroT (packed n0 s) ((i : ℝ) - (s.n : ℝ) / 2) (((i + 1 : ℕ) : ℝ) - (s.n : ℝ) / 2)

/-- The components of a transition in which site `k` goes from state `i + 1` to `i`. -/
theorem lineTens_mover (W : WC) (T : TC) (lib : Library) (c : String) (B0 : ℝ) (ph : Phys) (x : List ℕ × List ℕ)
    (k i : ℕ) (s : Site) (hs : ph.sites[k]? = some s) (h1 : x.1[k]? = some (i + 1)) (h2 : x.2 = x.1.set k i) :
    (lineTens W T lib c B0 ph x).R0 = (moverPart W T (lib.twoI c) B0 s i).R0
        + (ph.couplings.map fun q => (couplingPart W T (Spec.quantum ph.sites x.1) (Spec.quantum ph.sites x.2) q).R0).sum ∧
      (∀ j, (lineTens W T lib c B0 ph x).R2 j = (moverPart W T (lib.twoI c) B0 s i).R2 j
        + (ph.couplings.map fun q => (couplingPart W T (Spec.quantum ph.sites x.1) (Spec.quantum ph.sites x.2) q).R2 j).sum) ∧
      ∀ j, (lineTens W T lib c B0 ph x).R4 j = (moverPart W T (lib.twoI c) B0 s i).R4 j := by
  have hx2 : x.2[k]? = some i := by
    rw [h2, List.getElem?_set_self (List.getElem?_eq_some_iff.mp h1).1]
  have key : addSites W T (fourth (lib.twoI c)) B0 zeroT (ph.sites.map (packed (lib.twoI c))) (Spec.quantum ph.sites x.1)
      (Spec.quantum ph.sites x.2) = moverPart W T (lib.twoI c) B0 s i := by
    refine addSites_mover W T _ B0 zeroT _ _ _ k (packed (lib.twoI c) s) _ _ (by rw [List.getElem?_map, hs]; rfl) ?_ ?_ fun j hj => ?_
    · rw [quantum_get, hs, h1]
    · rw [quantum_get, hs, hx2]
    · rw [quantum_get, quantum_get, h2, List.getElem?_set_ne (Ne.symm hj)]
  unfold lineTens methodComponents components
  rw [key]
  exact ⟨couplings_R0 W T _ _ _ _, couplings_R2 W T _ _ _ _, couplings_R4' W T _ _ _ _⟩

/-- Contributions of two spin systems whose transitions correspond. -/
theorem pulse_alike (W : WC) (T : TC) (lib : Library) (so so' : Trans.SetOrder) (c : String) (central : Bool)
    (hcen : central = true → lib.twoI c % 2 = 1) (B0 B0' : ℝ) (r r' : Rotor) (d : Meth.SDim) [NeZero d.count] (sw' ref' : ℚ) (nOct : ℕ)
    (junk junk' : ℕ → Phys → List Trans.Tr → ℕ → ℕ → ℂ) (nt : ℕ) (k : ℚ) (s s' : Run.Sys Phys (List Trans.Tr)) (hs : Spec.Given lib s)
    (hs' : Spec.Given lib s') (hc : c ∈ s'.isotopes ↔ c ∈ s.isotopes)
    (hab : c ∈ s.isotopes → s'.abundance / (sw' / d.count) = k * (s.abundance / (d.sw / d.count)))
    (σ : List ℕ × List ℕ → List ℕ × List ℕ)
    (hσ : c ∈ s.isotopes → Set.BijOn σ {x | Spec.Observed c central s.isotopes s.phys.sites x}
      {x | Spec.Observed c central s'.isotopes s'.phys.sites x})
    (hw : ∀ x, Spec.Observed c central s.isotopes s.phys.sites x → ∀ junk junk' : ℕ → ℕ → ℂ,
      pulseWrites W T lib c B0' r' { d with sw := sw', ref := ref' } nOct junk' nt s'.phys
        (qnum (s'.phys.sites.map Site.n) (σ x).1, qnum (s'.phys.sites.map Site.n) (σ x).2)
      = pulseWrites W T lib c B0 r d nOct junk nt s.phys
        (qnum (s.phys.sites.map Site.n) x.1, qnum (s.phys.sites.map Site.n) x.2)) :
    haveI : NeZero ({ d with sw := sw', ref := ref' } : Meth.SDim).count := inferInstanceAs (NeZero d.count)
    ∃ o : Option (ZMod d.count → ℝ), Run.alone (pulseEnv W T lib so c central B0 r d nOct junk nt) s = .ok o ∧
      Run.alone (pulseEnv W T lib so' c central B0' r' { d with sw := sw', ref := ref' } nOct junk' nt) s' = .ok (o.map fun v => k • v) := by
  have hne : NeZero ({ d with sw := sw', ref := ref' } : Meth.SDim).count := inferInstanceAs (NeZero d.count)
  refine ⟨_, pulse_alone W T lib so c central hcen B0 r d nOct junk nt s hs, ?_⟩
  rw [pulse_alone W T lib so' c central hcen B0' r' { d with sw := sw', ref := ref' } nOct junk' nt s' hs']
  by_cases h : c ∈ s.isotopes
  · rw [if_pos h, if_pos (hc.mpr h), Option.map_some, smul_smul]
    simp only
    rw [hab h]
    congr 3
    refine (finsum_mem_eq_of_bijOn σ (hσ h) fun x hx => ?_).symm
    funext z
    change Bin.val _ (pulseWrites _ _ _ _ _ _ _ _ _ _ _ _) = Bin.val _ (pulseWrites _ _ _ _ _ _ _ _ _ _ _ _)
    rw [hw x hx]
  · rw [if_neg h, if_neg (fun h' => h (hc.mp h'))]
    rfl

/-- Two runs over lists of spin systems whose transitions correspond. -/
theorem pulse_runs (W : WC) (T : TC) (lib : Library) (so so' : Trans.SetOrder) (c : String) (central : Bool)
    (hcen : central = true → lib.twoI c % 2 = 1) (B0 B0' : ℝ) (r r' : Rotor) (d : Meth.SDim) [NeZero d.count] (sw' ref' : ℚ) (nOct : ℕ)
    (junk junk' : ℕ → Phys → List Trans.Tr → ℕ → ℕ → ℂ) (nt : ℕ) (k : ℚ) (l l' : List (Run.Sys Phys (List Trans.Tr)))
    (hl : ∀ s ∈ l, Spec.Given lib s) (hl' : ∀ s ∈ l', Spec.Given lib s)
    (hu : ∀ a ∈ l, ∀ b ∈ l, c ∈ a.isotopes → c ∈ b.isotopes → a.isotopes.length = b.isotopes.length → a.isotopes = b.isotopes)
    (hu' : ∀ a ∈ l', ∀ b ∈ l', c ∈ a.isotopes → c ∈ b.isotopes → a.isotopes.length = b.isotopes.length → a.isotopes = b.isotopes)
    (h : List.Forall₂ (fun s s' : Run.Sys Phys (List Trans.Tr) => (c ∈ s'.isotopes ↔ c ∈ s.isotopes) ∧
      (c ∈ s.isotopes → s'.abundance / (sw' / d.count) = k * (s.abundance / (d.sw / d.count))) ∧
      ∃ σ : List ℕ × List ℕ → List ℕ × List ℕ,
        (c ∈ s.isotopes → Set.BijOn σ {x | Spec.Observed c central s.isotopes s.phys.sites x}
          {x | Spec.Observed c central s'.isotopes s'.phys.sites x}) ∧
        ∀ x, Spec.Observed c central s.isotopes s.phys.sites x → ∀ junk junk' : ℕ → ℕ → ℂ,
          pulseWrites W T lib c B0' r' { d with sw := sw', ref := ref' } nOct junk' nt s'.phys
            (qnum (s'.phys.sites.map Site.n) (σ x).1, qnum (s'.phys.sites.map Site.n) (σ x).2)
          = pulseWrites W T lib c B0 r d nOct junk nt s.phys
            (qnum (s.phys.sites.map Site.n) x.1, qnum (s.phys.sites.map Site.n) x.2)) l l')
    (cpu cpu' nJobs nJobs' : ℤ) (hJ : 1 ≤ nJobs) (hJ' : 1 ≤ nJobs') :
    haveI : NeZero ({ d with sw := sw', ref := ref' } : Meth.SDim).count := inferInstanceAs (NeZero d.count)
    ∃ v : ZMod d.count → ℝ, Run.run (pulseEnv W T lib so c central B0 r d nOct junk nt) cpu false l nJobs = .ok [.spec v] ∧
      Run.run (pulseEnv W T lib so' c central B0' r' { d with sw := sw', ref := ref' } nOct junk' nt) cpu' false l' nJobs' = .ok [.spec (k • v)] := by
  have hne : NeZero ({ d with sw := sw', ref := ref' } : Meth.SDim).count := inferInstanceAs (NeZero d.count)
  refine runs_alike (V := ZMod d.count → ℝ) (pulseEnv W T lib so c central B0 r d nOct junk nt)
    (pulseEnv W T lib so' c central B0' r' { d with sw := sw', ref := ref' } nOct junk' nt) k rfl rfl l l'
    (fun a ha b hb h1 h2 h3 => ⟨hu a ha b hb h1 h2 h3, by rw [(hl a ha).explicit, (hl b hb).explicit]⟩)
    (fun a ha b hb h1 h2 h3 => ⟨hu' a ha b hb h1 h2 h3, by rw [(hl' a ha).explicit, (hl' b hb).explicit]⟩) ?_ cpu cpu' nJobs nJobs' hJ hJ'
  rw [List.forall₂_iff_get] at h ⊢
  refine ⟨h.1, fun i h1 h2 => ?_⟩
  obtain ⟨hc, hab, σ, hσ, hw⟩ := h.2 i h1 h2
  exact pulse_alike W T lib so so' c central hcen B0 B0' r r' d sw' ref' nOct junk junk' nt k _ _ (hl _ (List.getElem_mem _))
    (hl' _ (List.getElem_mem _)) hc hab σ hσ hw

end MRS.Freq
