import Verif.Freq.Units
import Verif.Freq.Signs

/-!
# The signs of couplings in all lists of spin systems — property C103

The pathways that a run keeps from one spin system for the next ones (C02) are those of some order of isotopes, and come in the pairs that the
signs exchange, whichever system they are used for.
-/

namespace MRS.Freq

open Complex

/-! ## Lemmas -/

/-- A spin system that has nothing but isotopes. -/
noncomputable def bareSites (lib : Library) (iso : List String) : List Site :=
  iso.map fun i => ⟨lib.twoI i, 0, 0, 0, 0, ⟨0, 0, 0⟩, 0, 0, ⟨0, 0, 0⟩⟩

/-- The components of a transition in which site `k` moves, with quantum numbers that need not be those of the sites. -/
theorem components_mover (W : WC) (T : TC) (n0 : ℕ) (B0 : ℝ) (ph : Phys) (mi mf : List ℝ) (k : ℕ) (s : Site) (a b : ℝ)
    (hs : ph.sites[k]? = some s) (ha : mi[k]? = some a) (hb : mf[k]? = some b) (ho : ∀ j : ℕ, j ≠ k → mi[j]? = mf[j]?) :
    (methodComponents W T n0 B0 ph.sites ph.couplings mi mf).R0 = (addSite W T (fourth n0) B0 zeroT (packed n0 s) b a).R0
        + (ph.couplings.map fun q => (couplingPart W T mi mf q).R0).sum ∧
      (∀ j, (methodComponents W T n0 B0 ph.sites ph.couplings mi mf).R2 j = (addSite W T (fourth n0) B0 zeroT (packed n0 s) b a).R2 j
        + (ph.couplings.map fun q => (couplingPart W T mi mf q).R2 j).sum) ∧
      ∀ j, (methodComponents W T n0 B0 ph.sites ph.couplings mi mf).R4 j = (addSite W T (fourth n0) B0 zeroT (packed n0 s) b a).R4 j := by
  have key := addSites_mover W T (fourth n0) B0 zeroT (ph.sites.map (packed n0)) mi mf k (packed n0 s) a b
    (by rw [List.getElem?_map, hs]; rfl) ha hb ho
  unfold methodComponents components
  rw [key]
  exact ⟨couplings_R0 W T _ _ _ _, couplings_R2 W T _ _ _ _, couplings_R4' W T _ _ _ _⟩

theorem mover_mirrored (W : WC) (T : TC) (n0 : ℕ) (B0 : ℝ) (s : Site) (a b : ℝ) (e : Bool) :
    Times 1 (addSite W T (fourth n0) B0 zeroT (packed n0 s) b a)
      (addSite W T (fourth n0) B0 zeroT (packed n0 (if e then { s with Cq := -s.Cq } else s)) (if e then -a else b) (if e then -b else a)) := by
  cases e
  · exact ⟨(one_mul _).symm, fun i => by simp, fun i => by simp⟩
  · simp only [if_true]
    have hp : packed n0 { s with Cq := -s.Cq } = { packed n0 s with Cq := -(packed n0 s).Cq } := by
      unfold packed
      split_ifs
      · rfl
      · simp
    rw [hp]
    exact addSite_mirrored W T _ B0 _ _ (Times.zero 1) _ _ _

theorem quantum_getD_none (ss : List Site) (x : List ℕ) (k : ℕ) (hs : ss.length ≤ k) : (Spec.quantum ss x).getD k 0 = 0 := by
  rw [List.getD_eq_getElem?_getD, quantum_get, List.getElem?_eq_none hs]
  rfl

/-- The transitions of the sites `gs` that correspond have the same components, also when they are used for another system. -/
theorem components_mirrored (W : WC) (T : TC) (n0 : ℕ) (c : String) (central : Bool) (B0 : ℝ) (ε : ℕ → Bool) (σ : ℕ → ℕ → Bool)
    (hσ : ∀ a b, σ a b = σ b a) (s s' : Run.Sys Phys (List Trans.Tr)) (hd : ∀ q ∈ s.phys.couplings, q.A ≠ q.X)
    (h : Spec.SameButSigns ε σ s s') (iso : List String) (gs : List Site) (hg : gs.length = s.phys.sites.length)
    (x : List ℕ × List ℕ) (hx : Spec.Observed c central iso gs x) :
    Times 1 (methodComponents W T n0 B0 s.phys.sites s.phys.couplings (Spec.quantum gs x.1) (Spec.quantum gs x.2))
      (methodComponents W T n0 B0 s'.phys.sites s'.phys.couplings (Spec.quantum gs (mirrored (gs.map Site.n) ε σ x).1)
        (Spec.quantum gs (mirrored (gs.map Site.n) ε σ x).2)) := by
  obtain ⟨k, i, g, e1, e2, e3, e4, -⟩ := hx.step
  obtain ⟨y, ey⟩ : ∃ y, s.phys.sites[k]? = some y := ⟨_, List.getElem?_eq_getElem (hg ▸ (List.getElem?_eq_some_iff.mp e2).1)⟩
  obtain ⟨hl, hst⟩ := state_get _ x.1 hx.initial
  obtain ⟨a, ha, hle⟩ := hst k g e2
  rw [e3] at ha
  injection ha with ha
  subst ha
  have hn : (gs.map Site.n)[k]? = some g.n := by rw [List.getElem?_map, e2]; rfl
  obtain ⟨m1, m2, m3, m4⟩ := mirrored_get (gs.map Site.n) ε σ x k i g.n hn e3 e4 (by simpa using hl)
  set z := mirrored (gs.map Site.n) ε σ x with hz
  have hx2 : x.2[k]? = some i := by rw [e4, List.getElem?_set_self (List.getElem?_eq_some_iff.mp e3).1]
  have hz2 : z.2[k]? = some (if ε k then g.n - i - 1 else i) := by rw [m2, List.getElem?_set_self (List.getElem?_eq_some_iff.mp m1).1]
  set a : ℝ := ((i + 1 : ℕ) : ℝ) - (g.n : ℝ) / 2 with hadef
  set b : ℝ := (i : ℝ) - (g.n : ℝ) / 2 with hbdef
  have qa : (Spec.quantum gs x.1)[k]? = some a := by rw [quantum_get, e2, e3]
  have qb : (Spec.quantum gs x.2)[k]? = some b := by rw [quantum_get, e2, hx2]
  have qa' : (Spec.quantum gs z.1)[k]? = some (if ε k then -b else a) := by
    rw [quantum_get, e2, m1]
    simp only [Option.some.injEq]
    split_ifs
    · rw [hbdef, show g.n - i - 1 + 1 = g.n - i by omega, Nat.cast_sub (by omega)]
      ring
    · rfl
  have qb' : (Spec.quantum gs z.2)[k]? = some (if ε k then -a else b) := by
    rw [quantum_get, e2, hz2]
    simp only [Option.some.injEq]
    split_ifs
    · rw [hadef, Nat.sub_sub, Nat.cast_sub hle]
      ring
    · rfl
  have a1 := components_mover W T n0 B0 s.phys _ _ k y a b ey qa qb fun j hj => by
    rw [quantum_get, quantum_get, e4, List.getElem?_set_ne (Ne.symm hj)]
  have a2 := components_mover W T n0 B0 s'.phys _ _ k (if ε k then { y with Cq := -y.Cq } else y) _ _ (by rw [h.sites, ey]; rfl) qa' qb' fun j hj => by
    rw [quantum_get, quantum_get, m2, List.getElem?_set_ne (Ne.symm hj)]
  have hm := mover_mirrored W T n0 B0 y a b (ε k)
  have hq : ∀ q ∈ s.phys.couplings, Times 1 (couplingPart W T (Spec.quantum gs x.1) (Spec.quantum gs x.2) q)
      (couplingPart W T (Spec.quantum gs z.1) (Spec.quantum gs z.2) (if σ q.A q.X then Spec.reversed q else q)) := by
    intro q hq
    refine couplingPart_mirrored W T _ _ _ _ q _ ?_
    -- the quantum numbers of a site that does not move
    have hrest : ∀ j, j ≠ k → ∃ m : ℝ,
        (Spec.quantum gs x.1).getD j 0 = m ∧ (Spec.quantum gs x.2).getD j 0 = m ∧
        (Spec.quantum gs z.1).getD j 0 = (if σ k j then -1 else 1) * m ∧
        (Spec.quantum gs z.2).getD j 0 = (if σ k j then -1 else 1) * m := by
      intro j hjk
      by_cases hj : j < gs.length
      · obtain ⟨t, ht⟩ : ∃ t, gs[j]? = some t := ⟨_, List.getElem?_eq_getElem hj⟩
        obtain ⟨b, hb, hbn⟩ := hst j t ht
        have hb2 : x.2[j]? = some b := by rw [e4, List.getElem?_set_ne (Ne.symm hjk), hb]
        have hz1 := m3 j t.n b hjk (by rw [List.getElem?_map, ht]; rfl) hb
        have hz2 : z.2[j]? = some (if σ k j then t.n - b else b) := by rw [m2, List.getElem?_set_ne (Ne.symm hjk), hz1]
        refine ⟨(b : ℝ) - (t.n : ℝ) / 2, quantum_getD _ _ _ _ _ ht hb, quantum_getD _ _ _ _ _ ht hb2, ?_, ?_⟩
        · rw [quantum_getD _ _ _ _ _ ht hz1]
          split_ifs
          · rw [Nat.cast_sub hbn]
            ring
          · ring
        · rw [quantum_getD _ _ _ _ _ ht hz2]
          split_ifs
          · rw [Nat.cast_sub hbn]
            ring
          · ring
      · have := fun w => quantum_getD_none gs w j (not_lt.mp hj)
        exact ⟨0, this _, this _, by rw [this, mul_zero], by rw [this, mul_zero]⟩
    have g1 : (Spec.quantum gs x.1).getD k 0 = a := by rw [List.getD_eq_getElem?_getD, qa]; rfl
    have g2 : (Spec.quantum gs x.2).getD k 0 = b := by rw [List.getD_eq_getElem?_getD, qb]; rfl
    have g3 : (Spec.quantum gs z.1).getD k 0 = if ε k then -b else a := by rw [List.getD_eq_getElem?_getD, qa']; rfl
    have g4 : (Spec.quantum gs z.2).getD k 0 = if ε k then -a else b := by rw [List.getD_eq_getElem?_getD, qb']; rfl
    have hab : a = b + 1 := by
      rw [hadef, hbdef]
      push_cast
      ring
    have hAX := hd q hq
    unfold stfDIS
    by_cases hkA : q.A = k
    · obtain ⟨m, n1, n2, n3, n4⟩ := hrest q.X (fun h => hAX (hkA.trans h.symm))
      rw [n1, n2, n3, n4, hkA, g1, g2, g3, g4, hab]
      split_ifs <;> ring
    · obtain ⟨m, n1, n2, n3, n4⟩ := hrest q.A hkA
      by_cases hkX : q.X = k
      · rw [n1, n2, n3, n4, hkX, g1, g2, g3, g4, hσ q.A k, hab]
        split_ifs <;> ring
      · obtain ⟨m', n1', n2', n3', n4'⟩ := hrest q.X hkX
        rw [n1, n2, n3, n4, n1', n2', n3', n4']
        ring
  refine ⟨?_, fun m => ?_, fun m => ?_⟩
  · rw [a1.1, a2.1, hm.R0, h.couplings, List.map_map, one_mul, one_mul]
    congr 2
    refine List.map_congr_left fun q hq' => ?_
    simp only [Function.comp]
    rw [(hq q hq').R0, one_mul]
  · rw [a1.2.1, a2.2.1, hm.R2, h.couplings, List.map_map, Complex.ofReal_one, one_mul, one_mul]
    congr 2
    refine List.map_congr_left fun q hq' => ?_
    simp only [Function.comp]
    rw [(hq q hq').R2, Complex.ofReal_one, one_mul]
  · rw [a1.2.2, a2.2.2, hm.R4]

theorem bare_n (lib : Library) (iso : List String) : (bareSites lib iso).map Site.n = iso.map lib.twoI := by
  unfold bareSites
  rw [List.map_map]
  rfl

/-- The pathways that were selected for some spin system with `n` sites. -/
def Selected (lib : Library) (so : Trans.SetOrder) (c : String) (central : Bool) (n : ℕ) (ps : List (List Trans.Tr)) : Prop :=
  ps = [] ∨ ∃ iso : List String, iso.length = n ∧ c ∈ iso ∧ (∀ i ∈ iso, 1 ≤ lib.twoI i) ∧
    Trans.transitionPathways so (isoSites lib iso) [c] (if central then Trans.blochDecayCT else Trans.blochDecay) = .ok ps

theorem selected_sum {V : Type} [AddCommMonoid V] (lib : Library) (so : Trans.SetOrder) (c : String) (central : Bool) (iso : List String)
    (hc : c ∈ iso) (h1 : ∀ i ∈ iso, 1 ≤ lib.twoI i) (ps : List (List Trans.Tr))
    (h : Trans.transitionPathways so (isoSites lib iso) [c] (if central then Trans.blochDecayCT else Trans.blochDecay) = .ok ps)
    (f : List Trans.Tr → V) :
    (ps.map f).sum = ∑ᶠ (x) (_ : Spec.Observed c central iso (bareSites lib iso) x), f (edge (bareSites lib iso) x) := by
  classical
  have hG : Spec.Given lib ⟨iso, none, 0, ⟨bareSites lib iso, []⟩⟩ := by
    refine ⟨rfl, bare_n lib iso, fun x hx => ?_, fun k hk => by cases hk⟩
    obtain ⟨i, hi, rfl⟩ := List.mem_map.mp hx
    exact h1 i hi
  obtain ⟨paths, hp1, hp2, hp3⟩ := selected lib so c central _ hG hc
  have e : ps = paths := by
    have := h.symm.trans hp1
    injection this
  subst e
  have hbij : Set.BijOn (edge (bareSites lib iso)) {x | Spec.Observed c central iso (bareSites lib iso) x} (ps.toFinset : Set (List Trans.Tr)) := by
    refine ⟨fun x hx => ?_, edge_inj _ _ _ _, fun p hp => ?_⟩
    · simp only [List.coe_toFinset, Set.mem_ofPred_eq]
      exact (hp3 _).mpr ⟨x, hx, rfl⟩
    · simp only [List.coe_toFinset, Set.mem_ofPred_eq] at hp
      obtain ⟨x, hx, rfl⟩ := (hp3 _).mp hp
      exact ⟨x, hx, rfl⟩
  rw [← List.sum_toFinset _ hp2, ← finsum_mem_coe_finset]
  exact (finsum_mem_eq_of_bijOn (edge (bareSites lib iso)) hbij fun x hx => rfl).symm

/-- The contributions of two transitions that correspond. -/
theorem core_mirrored (W : WC) (T : TC) (lib : Library) (so : Trans.SetOrder) (c : String) (central : Bool) (B0 : ℝ) (r : Rotor)
    (d : Meth.SDim) [NeZero d.count] (nOct : ℕ) (junk junk' : ℕ → Phys → List Trans.Tr → ℕ → ℕ → ℂ) (nt : ℕ) (ph ph' : Phys)
    (gs : List Site) (x z : List ℕ × List ℕ)
    (m : Times 1 (methodComponents W T (lib.twoI c) B0 ph.sites ph.couplings (Spec.quantum gs x.1) (Spec.quantum gs x.2))
      (methodComponents W T (lib.twoI c) B0 ph'.sites ph'.couplings (Spec.quantum gs z.1) (Spec.quantum gs z.2))) :
    (pulseEnv W T lib so c central B0 r d nOct junk' nt).core ph' (edge gs z)
      = (pulseEnv W T lib so c central B0 r d nOct junk nt).core ph (edge gs x) := by
  funext j
  have hw : pulseWrites W T lib c B0 r d nOct (junk' nt ph' (edge gs z)) nt ph' (qnum (gs.map Site.n) z.1, qnum (gs.map Site.n) z.2)
      = pulseWrites W T lib c B0 r d nOct (junk nt ph (edge gs x)) nt ph (qnum (gs.map Site.n) x.1, qnum (gs.map Site.n) x.2) := by
    have hpos := r.seen.pos
    unfold pulseWrites rotorWrites
    simp only [qnum_cast]
    refine spectrum_scaled W _ nt nOct _ _ _ _ _ _ _ _ _ 1 one_ne_zero (Or.inr (one_mul _).symm) (one_mul _) _ _ _ (startRows_alike _ _ _ _) _ _
      ?_ m.R2 (fun _ => m.R4)
    rw [m.R0, one_mul]
  exact congrArg (Bin.val (j.val : ℤ)) hw

theorem selected_mirrored {V : Type} [AddCommMonoid V] (lib : Library) (so : Trans.SetOrder) (c : String) (central : Bool) (iso : List String)
    (hc : c ∈ iso) (h1 : ∀ i ∈ iso, 1 ≤ lib.twoI i) (ps : List (List Trans.Tr))
    (h : Trans.transitionPathways so (isoSites lib iso) [c] (if central then Trans.blochDecayCT else Trans.blochDecay) = .ok ps)
    (ε : ℕ → Bool) (σ : ℕ → ℕ → Bool) (f f' : List Trans.Tr → V)
    (hf : ∀ x, Spec.Observed c central iso (bareSites lib iso) x →
      f' (edge (bareSites lib iso) (mirrored ((bareSites lib iso).map Site.n) ε σ x)) = f (edge (bareSites lib iso) x)) :
    (ps.map f').sum = (ps.map f).sum := by
  rw [selected_sum lib so c central iso hc h1 ps h f, selected_sum lib so c central iso hc h1 ps h f']
  exact (finsum_mem_eq_of_bijOn (mirrored ((bareSites lib iso).map Site.n) ε σ)
    (mirrored_bij c central iso (bareSites lib iso) ε σ) fun x hx => (hf x hx).symm).symm

/-- The sums over the pathways that a run can have. -/
theorem sum_mirrored (W : WC) (T : TC) (lib : Library) (so : Trans.SetOrder) (c : String) (central : Bool) (B0 : ℝ) (r : Rotor)
    (d : Meth.SDim) [NeZero d.count] (nOct : ℕ) (junk junk' : ℕ → Phys → List Trans.Tr → ℕ → ℕ → ℂ) (nt : ℕ) (s s' : Run.Sys Phys (List Trans.Tr))
    (ε : ℕ → Bool) (σ : ℕ → ℕ → Bool) (hσ : ∀ a b, σ a b = σ b a) (hh : Spec.SameButSigns ε σ s s')
    (hd : ∀ q ∈ s.phys.couplings, q.A ≠ q.X) (hlen : s.isotopes.length = s.phys.sites.length) (ps : List (List Trans.Tr))
    (hps : Selected lib so c central s.isotopes.length ps) :
    (ps.map ((pulseEnv W T lib so c central B0 r d nOct junk' nt).core s'.phys)).sum
      = (ps.map ((pulseEnv W T lib so c central B0 r d nOct junk nt).core s.phys)).sum := by
  rcases hps with rfl | ⟨iso, hi, hci, htwo', hps⟩
  · rw [List.map_nil, List.map_nil]
  · refine selected_mirrored lib so c central iso hci htwo' ps hps ε σ _ _ fun x hx => ?_
    exact core_mirrored W T lib so c central B0 r d nOct junk junk' nt s.phys s'.phys (bareSites lib iso) x _
      (components_mirrored W T (lib.twoI c) c central B0 ε σ hσ s s' hd hh iso (bareSites lib iso)
        (by rw [bareSites, List.length_map, hi, hlen]) x hx)

/-! ## Property -/

/-- **C103.** The signs of couplings do not matter: in any list of spin systems without pathways of their own, let the quadrupole couplings of any
sites and the couplings (isotropic, anisotropic and dipolar together) between any pairs of sites be reversed.  Every run with a method of one pulse
gives the same result, point by point, at every integration density, static or spinning, with `decompose_spectrum` or
without; if it fails, it fails in the same way.  (With the second-order quadrupole term, which is even in the coupling.) -/
theorem C103_signs (W : WC) (T : TC) (lib : Library) (so : Trans.SetOrder) (c : String) (central : Bool) (B0 : ℝ) (r : Rotor)
    (d : Meth.SDim) [NeZero d.count] (nOct : ℕ) (junk junk' : ℕ → Phys → List Trans.Tr → ℕ → ℕ → ℂ) (nt : ℕ)
    (l l' : List (Run.Sys Phys (List Trans.Tr)))
    (hl : ∀ s ∈ l, s.explicit = none ∧ s.isotopes.length = s.phys.sites.length ∧ ∀ i ∈ s.isotopes, 1 ≤ lib.twoI i)
    (hd : ∀ s ∈ l, ∀ q ∈ s.phys.couplings, q.A ≠ q.X)
    (h : List.Forall₂ (fun s s' => ∃ ε σ, (∀ a b, σ a b = σ b a) ∧ Spec.SameButSigns ε σ s s') l l')
    (cpu nJobs : ℤ) (decompose : Bool) :
    Run.run (pulseEnv W T lib so c central B0 r d nOct junk' nt) cpu decompose l' nJobs
      = Run.run (pulseEnv W T lib so c central B0 r d nOct junk nt) cpu decompose l nJobs := by
  have main := Run.run_image_on (env := pulseEnv W T lib so c central B0 r d nOct junk nt)
    (env' := pulseEnv W T lib so c central B0 r d nOct junk' nt) (π := AddMonoidHom.id (ZMod d.count → ℝ)) ⟨rfl, rfl, rfl, rfl, fun v => rfl⟩
    cpu decompose (Good := Selected lib so c central) (Or.inl rfl) (l := l) (l' := l') (by
      rw [List.forall₂_iff_get] at h ⊢
      refine ⟨h.1, fun i h1 h2 => ?_⟩
      obtain ⟨ε, σ, hσ, hh⟩ := h.2 i h1 h2
      have hm : l.get ⟨i, h1⟩ ∈ l := List.getElem_mem _
      generalize l.get ⟨i, h1⟩ = s at hh hm
      generalize l'.get ⟨i, h2⟩ = s' at hh
      obtain ⟨hn, hlen, htwo⟩ := hl s hm
      refine ⟨hh.isotopes, hh.explicit, fun hc ps hps => Or.inr ⟨s.isotopes, rfl, hc, htwo, ?_⟩, fun hc ps hps => ?_⟩
      · rw [Run.userOrSelected, hn] at hps
        exact hps
      · rw [sum_mirrored W T lib so c central B0 r d nOct junk junk' nt s s' ε σ hσ hh (hd s hm) hlen ps hps, hh.abundance]
        rfl) nJobs
  rw [main]
  have hid : (Run.Datum.image (AddMonoidHom.id (ZMod d.count → ℝ)) : Run.Datum (ZMod d.count → ℝ) → Run.Datum (ZMod d.count → ℝ)) = id := by
    funext o
    cases o <;> rfl
  rw [hid, List.map_id_fun]
  cases Run.run (pulseEnv W T lib so c central B0 r d nOct junk nt) cpu decompose l nJobs <;> rfl

/-! ### An example -/

/-- The spin system `swappedSys` with the coupling between the nuclei reversed. -/
noncomputable def swappedOpposite : Run.Sys Phys (List Trans.Tr) :=
  ⟨["1H", "27Al"], none, 50, ⟨[⟨1, 42.6, 2, 5, 0, ⟨0, 0, 0⟩, 0, 0, ⟨0, 0, 0⟩⟩, ⟨5, 11.1, 60, 20, 0.3, ⟨0, 0, 0⟩, 3000000, 0.1, ⟨0.2, 0.4, 0⟩⟩],
    [⟨0, 1, -20, -0, 0, ⟨0, 0, 0⟩, - -3000, ⟨0.3, 0.5, 0⟩⟩]⟩⟩

theorem swapped_opposite : Spec.SameButSigns (fun _ => false) (fun _ _ => true) swappedSys swappedOpposite := by
  refine ⟨rfl, rfl, rfl, fun k => ?_, ?_⟩
  · simp [swappedSys, swappedOpposite]
  · simp [swappedSys, swappedOpposite, Spec.reversed]

/-- Two spin systems that list their isotopes in different orders: the second is computed with the transitions of the first. -/
example (W : WC) (T : TC) (so : Trans.SetOrder) (junk : ℕ → Phys → List Trans.Tr → ℕ → ℕ → ℂ) (cpu : ℤ) :
    haveI : NeZero (Meth.SDim.count ⟨512, 25000, 100, none⟩) := ⟨by norm_num⟩
    Run.run (pulseEnv W T pairLib so "27Al" false 9.4 pairRotor ⟨512, 25000, 100, none⟩ 4 junk 70) cpu true [pairOpposite 70, swappedOpposite] 1
      = Run.run (pulseEnv W T pairLib so "27Al" false 9.4 pairRotor ⟨512, 25000, 100, none⟩ 4 junk 70) cpu true [pairSys 70, swappedSys] 1 := by
  have : NeZero (Meth.SDim.count ⟨512, 25000, 100, none⟩) := ⟨by norm_num⟩
  refine C103_signs W T pairLib so "27Al" false 9.4 pairRotor ⟨512, 25000, 100, none⟩ 4 junk junk 70 [pairSys 70, swappedSys]
    [pairOpposite 70, swappedOpposite] ?_ ?_
    (List.Forall₂.cons ⟨_, _, fun _ _ => rfl, pair_opposite _⟩ (List.Forall₂.cons ⟨_, _, fun _ _ => rfl, swapped_opposite⟩ List.Forall₂.nil))
    cpu 1 true
  · intro s hs
    simp only [List.mem_cons, List.not_mem_nil, or_false] at hs
    rcases hs with rfl | rfl
    · simp [pairSys, pairLib]
    · simp [swappedSys, pairLib]
  · intro s hs q hq
    simp only [List.mem_cons, List.not_mem_nil, or_false] at hs
    rcases hs with rfl | rfl
    · simp only [pairSys, List.mem_cons, List.not_mem_nil, or_false] at hq
      subst hq
      norm_num
    · simp only [swappedSys, List.mem_cons, List.not_mem_nil, or_false] at hq
      subst hq
      norm_num

end MRS.Freq
