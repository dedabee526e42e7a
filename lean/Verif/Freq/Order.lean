import Verif.Freq.Signs

/-!
# The order of sites and couplings — property C105
-/

namespace MRS.Freq

open Complex

/-! ## Specification -/

/-- The same coupling between renumbered sites; the two sites may be named in either order. -/
def Spec.Renamed (p : Equiv.Perm ℕ) (q q' : Coupling) : Prop :=
  q' = { q with A := p q.A, X := p q.X } ∨ q' = { q with A := p q.X, X := p q.A }

/-- The same spin system with its sites in another order, site `k` being site `p k` of the other, and its couplings in any order. -/
structure Spec.Reordered (p : Equiv.Perm ℕ) (s s' : Run.Sys Phys (List Trans.Tr)) : Prop where
  explicit : s'.explicit = s.explicit
  abundance : s'.abundance = s.abundance
  isotopes : ∀ k : ℕ, s'.isotopes[p k]? = s.isotopes[k]?
  sites : ∀ k : ℕ, s'.phys.sites[p k]? = s.phys.sites[k]?
  couplings : ∃ ks, ks.Perm s'.phys.couplings ∧ List.Forall₂ (Spec.Renamed p) s.phys.couplings ks

/-! ## The transition that corresponds to a transition -/

/-- A list in another order. -/
def reorder (p : Equiv.Perm ℕ) (n : ℕ) (x : List ℕ) : List ℕ := (List.range n).map fun j => x.getD (p.symm j) 0

theorem length_of_get {α : Type} (p : Equiv.Perm ℕ) (l l' : List α) (h : ∀ k : ℕ, l'[p k]? = l[k]?) : l'.length = l.length := by
  have key : ∀ k, p k < l'.length ↔ k < l.length := by
    intro k
    rw [← not_iff_not, not_lt, not_lt, ← List.getElem?_eq_none_iff, ← List.getElem?_eq_none_iff, h]
  have e : (Finset.range l.length).map p.toEmbedding = Finset.range l'.length := by
    ext j
    simp only [Finset.mem_map_equiv, Finset.mem_range]
    rw [← key, Equiv.apply_symm_apply]
  have := congrArg Finset.card e
  rw [Finset.card_map, Finset.card_range, Finset.card_range] at this
  exact this.symm

theorem reorder_get (p : Equiv.Perm ℕ) (ss ss' : List Site) (h : ∀ k : ℕ, ss'[p k]? = ss[k]?) (x : List ℕ) (hx : x.length = ss.length) (k : ℕ) :
    (reorder p ss.length x)[p k]? = x[k]? := by
  have hlen := length_of_get p ss ss' h
  unfold reorder
  rw [List.getElem?_map]
  by_cases hk : k < ss.length
  · have hp : p k < ss.length := by
      by_contra hn
      have : ss'[p k]? = none := List.getElem?_eq_none (by omega)
      rw [h, List.getElem?_eq_getElem hk] at this
      cases this
    rw [List.getElem?_range hp]
    simp only [Option.map_some, Equiv.symm_apply_apply]
    rw [List.getD_eq_getElem?_getD, List.getElem?_eq_getElem (by omega)]
    rfl
  · have hp : ¬ p k < ss.length := by
      intro hn
      have : ss'[p k]? = none := by rw [h, List.getElem?_eq_none (by omega)]
      rw [List.getElem?_eq_none_iff] at this
      omega
    rw [List.getElem?_eq_none (by simpa using hp), List.getElem?_eq_none (by omega)]
    rfl

theorem reorder_set (p : Equiv.Perm ℕ) (ss ss' : List Site) (h : ∀ k : ℕ, ss'[p k]? = ss[k]?) (x : List ℕ) (hx : x.length = ss.length) (k i : ℕ) :
    reorder p ss.length (x.set k i) = (reorder p ss.length x).set (p k) i := by
  apply List.ext_getElem?
  intro j
  obtain ⟨m, rfl⟩ := p.surjective j
  rw [reorder_get p ss ss' h _ (by simpa using hx)]
  by_cases hm : k = m
  · subst hm
    by_cases hk : k < x.length
    · have hk' : p k < (reorder p ss.length x).length := by
        by_contra hn
        have := reorder_get p ss ss' h x hx k
        rw [List.getElem?_eq_none (by omega), List.getElem?_eq_getElem hk] at this
        cases this
      rw [List.getElem?_set_self hk, List.getElem?_set_self hk']
    · have hk' : ¬ p k < (reorder p ss.length x).length := by
        intro hn
        have := reorder_get p ss ss' h x hx k
        rw [List.getElem?_eq_getElem hn, List.getElem?_eq_none (by omega)] at this
        cases this
      rw [List.getElem?_eq_none (by simpa using hk), List.getElem?_eq_none (by simpa using hk')]
  · rw [List.getElem?_set_ne hm, List.getElem?_set_ne (fun e => hm (p.injective e)), reorder_get p ss ss' h x hx]

theorem reorder_observed (c : String) (central : Bool) (p : Equiv.Perm ℕ) (iso iso' : List String) (ss ss' : List Site)
    (hi : ∀ k : ℕ, iso'[p k]? = iso[k]?) (h : ∀ k : ℕ, ss'[p k]? = ss[k]?)
    (x : List ℕ × List ℕ) (hx : Spec.Observed c central iso ss x) :
    Spec.Observed c central iso' ss' (reorder p ss.length x.1, reorder p ss.length x.2) := by
  have hlen := length_of_get p ss ss' h
  have hst : ∀ y, Spec.IsState ss y → Spec.IsState ss' (reorder p ss.length y) := by
    intro y hy
    obtain ⟨hl, hg⟩ := state_get ss y hy
    refine state_of_get ss' _ (by simp [reorder, hlen]) fun j s a hs ha => ?_
    obtain ⟨m, rfl⟩ := p.surjective j
    rw [h] at hs
    rw [reorder_get p ss ss' h y hl] at ha
    obtain ⟨b, hb, hle⟩ := hg m s hs
    rw [ha] at hb
    injection hb with hb
    omega
  obtain ⟨k, i, s, e1, e2, e3, e4, e5⟩ := hx.step
  have hl := (state_get ss x.1 hx.initial).1
  refine ⟨hst _ hx.initial, hst _ hx.final, p k, i, s, by rw [hi, e1], by rw [h, e2], ?_, ?_, e5⟩
  · simp only
    rw [reorder_get p ss ss' h _ hl, e3]
  · simp only
    rw [e4, reorder_set p ss ss' h _ hl]

theorem reorder_back (p : Equiv.Perm ℕ) (ss ss' : List Site) (h : ∀ k : ℕ, ss'[p k]? = ss[k]?) (x : List ℕ) (hx : x.length = ss.length) :
    reorder p.symm ss'.length (reorder p ss.length x) = x := by
  have hlen := length_of_get p ss ss' h
  have h' : ∀ k : ℕ, ss[p.symm k]? = ss'[k]? := fun k => by rw [← h, Equiv.apply_symm_apply]
  apply List.ext_getElem?
  intro j
  have := reorder_get p.symm ss' ss h' (reorder p ss.length x) (by simp [reorder, hlen]) (p j)
  rw [Equiv.symm_apply_apply] at this
  rw [this, reorder_get p ss ss' h x hx]

theorem reorder_bij (c : String) (central : Bool) (p : Equiv.Perm ℕ) (iso iso' : List String) (ss ss' : List Site)
    (hi : ∀ k : ℕ, iso'[p k]? = iso[k]?) (h : ∀ k : ℕ, ss'[p k]? = ss[k]?) :
    Set.BijOn (fun x : List ℕ × List ℕ => (reorder p ss.length x.1, reorder p ss.length x.2)) {x | Spec.Observed c central iso ss x}
      {x | Spec.Observed c central iso' ss' x} := by
  have hi' : ∀ k : ℕ, iso[p.symm k]? = iso'[k]? := fun k => by rw [← hi, Equiv.apply_symm_apply]
  have h' : ∀ k : ℕ, ss[p.symm k]? = ss'[k]? := fun k => by rw [← h, Equiv.apply_symm_apply]
  refine Set.InvOn.bijOn (f' := fun x : List ℕ × List ℕ => (reorder p.symm ss'.length x.1, reorder p.symm ss'.length x.2)) ⟨fun x hx => ?_, fun x hx => ?_⟩
    (fun x hx => reorder_observed c central p iso iso' ss ss' hi h x hx) (fun x hx => reorder_observed c central p.symm iso' iso ss' ss hi' h' x hx)
  · exact Prod.ext (reorder_back p ss ss' h _ (state_get ss _ hx.initial).1) (reorder_back p ss ss' h _ (state_get ss _ hx.final).1)
  · have e1 := reorder_back p.symm ss' ss h' x.1 (state_get ss' _ hx.initial).1
    have e2 := reorder_back p.symm ss' ss h' x.2 (state_get ss' _ hx.final).1
    rw [Equiv.symm_symm] at e1 e2
    exact Prod.ext e1 e2

/-! ## Its components -/

theorem quantum_reorder (p : Equiv.Perm ℕ) (ss ss' : List Site) (h : ∀ k : ℕ, ss'[p k]? = ss[k]?) (x : List ℕ) (hx : x.length = ss.length) (k : ℕ) :
    (Spec.quantum ss' (reorder p ss.length x)).getD (p k) 0 = (Spec.quantum ss x).getD k 0 := by
  rw [List.getD_eq_getElem?_getD, List.getD_eq_getElem?_getD, quantum_get, quantum_get, h, reorder_get p ss ss' h x hx]

theorem stfDIS_comm (a b c d : ℝ) : stfDIS a b c d = stfDIS c d a b := by
  unfold stfDIS
  ring

theorem couplingPart_renamed (W : WC) (T : TC) (p : Equiv.Perm ℕ) (ss ss' : List Site) (h : ∀ k : ℕ, ss'[p k]? = ss[k]?) (x y : List ℕ)
    (hx : x.length = ss.length) (hy : y.length = ss.length) (q q' : Coupling) (hq : Spec.Renamed p q q') :
    couplingPart W T (Spec.quantum ss' (reorder p ss.length x)) (Spec.quantum ss' (reorder p ss.length y)) q'
      = couplingPart W T (Spec.quantum ss x) (Spec.quantum ss y) q := by
  unfold couplingPart jPart dipolarPart
  rcases hq with rfl | rfl
  · simp only [quantum_reorder p ss ss' h _ hx, quantum_reorder p ss ss' h _ hy]
  · simp only [quantum_reorder p ss ss' h _ hx, quantum_reorder p ss ss' h _ hy]
    rw [stfDIS_comm]

theorem forall₂_map_eq {α β γ : Type} {R : α → β → Prop} (f : α → γ) (g : β → γ) (h : ∀ a b, R a b → f a = g b) {l : List α} {l' : List β}
    (hl : List.Forall₂ R l l') : l.map f = l'.map g := by
  induction hl with
  | nil => rfl
  | cons h1 _ ih => rw [List.map_cons, List.map_cons, ih, h _ _ h1]

theorem lineTens_reordered (W : WC) (T : TC) (lib : Library) (c : String) (central : Bool) (B0 : ℝ) (p : Equiv.Perm ℕ)
    (s s' : Run.Sys Phys (List Trans.Tr)) (h : Spec.Reordered p s s') (x : List ℕ × List ℕ)
    (hx : Spec.Observed c central s.isotopes s.phys.sites x) :
    Times 1 (lineTens W T lib c B0 s.phys x)
      (lineTens W T lib c B0 s'.phys (reorder p s.phys.sites.length x.1, reorder p s.phys.sites.length x.2)) := by
  obtain ⟨k, i, y, -, e2, e3, e4, -⟩ := hx.step
  have hl := (state_get _ _ hx.initial).1
  have hl2 := (state_get _ _ hx.final).1
  have a1 := lineTens_mover W T lib c B0 s.phys x k i y e2 e3 e4
  have a2 := lineTens_mover W T lib c B0 s'.phys (reorder p s.phys.sites.length x.1, reorder p s.phys.sites.length x.2) (p k) i y
    (by rw [h.sites, e2]) (by rw [reorder_get p _ _ h.sites _ hl, e3]) (by rw [e4, reorder_set p _ _ h.sites _ hl])
  obtain ⟨ks, hperm, hks⟩ := h.couplings
  have hsum0 := ((hperm.map fun q => (couplingPart W T (Spec.quantum s'.phys.sites (reorder p s.phys.sites.length x.1))
    (Spec.quantum s'.phys.sites (reorder p s.phys.sites.length x.2)) q).R0).sum_eq).symm
  have hsum2 := fun m => ((hperm.map fun q => (couplingPart W T (Spec.quantum s'.phys.sites (reorder p s.phys.sites.length x.1))
    (Spec.quantum s'.phys.sites (reorder p s.phys.sites.length x.2)) q).R2 m).sum_eq).symm
  refine ⟨?_, fun m => ?_, fun m => ?_⟩
  · rw [a1.1, a2.1, one_mul, hsum0]
    congr 2
    exact (forall₂_map_eq _ _ (fun q q' hq => by rw [couplingPart_renamed W T p _ _ h.sites _ _ hl hl2 q q' hq]) hks).symm
  · rw [a1.2.1, a2.2.1, Complex.ofReal_one, one_mul, hsum2]
    congr 2
    exact (forall₂_map_eq _ _ (fun q q' hq => by rw [couplingPart_renamed W T p _ _ h.sites _ _ hl hl2 q q' hq]) hks).symm
  · rw [a1.2.2, a2.2.2, Complex.ofReal_one, one_mul]

theorem given_reordered {lib : Library} {p : Equiv.Perm ℕ} {s s' : Run.Sys Phys (List Trans.Tr)} (hs : Spec.Given lib s)
    (h : Spec.Reordered p s s') : Spec.Given lib s' := by
  have hlen := length_of_get p _ _ h.sites
  refine ⟨by rw [h.explicit, hs.explicit], ?_, fun x hx => ?_, fun q hq => ?_⟩
  · apply List.ext_getElem?
    intro j
    obtain ⟨m, rfl⟩ := p.surjective j
    have := congrArg (fun l => l[m]?) hs.spins
    simp only [List.getElem?_map] at this ⊢
    rw [h.sites, h.isotopes, this]
  · obtain ⟨j, hj, e⟩ := List.mem_iff_getElem.mp hx
    obtain ⟨m, rfl⟩ := p.surjective j
    have e' := h.sites m
    rw [List.getElem?_eq_getElem hj, e] at e'
    exact hs.sites x (List.mem_of_getElem? e'.symm)
  · have hlt : ∀ k, k < s.phys.sites.length → p k < s'.phys.sites.length := by
      intro k hk
      have := h.sites k
      rw [List.getElem?_eq_getElem hk] at this
      exact (List.getElem?_eq_some_iff.mp this).1
    obtain ⟨ks, hperm, hks⟩ := h.couplings
    have hq' := hperm.mem_iff.mpr hq
    obtain ⟨i, hi, e⟩ := List.mem_iff_getElem.mp hq'
    rcases forall₂_get hks i with ⟨-, e2⟩ | ⟨a, b, e1, e2, hr⟩
    · rw [List.getElem?_eq_getElem hi] at e2
      cases e2
    · rw [List.getElem?_eq_getElem hi, e] at e2
      injection e2 with e2
      obtain ⟨hA, hX⟩ := hs.couplings a (List.mem_of_getElem? e1)
      rw [← e2] at hr
      rcases hr with rfl | rfl
      · exact ⟨hlt _ hA, hlt _ hX⟩
      · exact ⟨hlt _ hX, hlt _ hA⟩

/-! ## Property -/

/-- **C105, partial.** The order in which a user lists the sites and the couplings of the spin systems, and the two sites of a coupling, does not
matter: every spectrum after one pulse remains the same, point by point, if each spin system is replaced by a reordered one.  In both lists of
spin systems those with equally many sites must have their isotopes in one order.
Missing: lists in which they have not, for which it is false, since the transitions are selected once for all spin systems with equally many sites (C02). -/
theorem C105_order_partial (W : WC) (T : TC) (lib : Library) (so so' : Trans.SetOrder) (c : String) (central : Bool)
    (hcen : central = true → lib.twoI c % 2 = 1) (B0 : ℝ) (r : Rotor) (d : Meth.SDim) [NeZero d.count] (nOct : ℕ)
    (junk junk' : ℕ → Phys → List Trans.Tr → ℕ → ℕ → ℂ) (nt : ℕ) (l l' : List (Run.Sys Phys (List Trans.Tr)))
    (hl : ∀ s ∈ l, Spec.Given lib s)
    (hu : ∀ a ∈ l, ∀ b ∈ l, c ∈ a.isotopes → c ∈ b.isotopes → a.isotopes.length = b.isotopes.length → a.isotopes = b.isotopes)
    (hu' : ∀ a ∈ l', ∀ b ∈ l', c ∈ a.isotopes → c ∈ b.isotopes → a.isotopes.length = b.isotopes.length → a.isotopes = b.isotopes)
    (h : List.Forall₂ (fun s s' => ∃ p, Spec.Reordered p s s') l l')
    (cpu cpu' nJobs nJobs' : ℤ) (hJ : 1 ≤ nJobs) (hJ' : 1 ≤ nJobs') :
    ∃ v : ZMod d.count → ℝ, Run.run (pulseEnv W T lib so c central B0 r d nOct junk nt) cpu false l nJobs = .ok [.spec v] ∧
      Run.run (pulseEnv W T lib so' c central B0 r d nOct junk' nt) cpu' false l' nJobs' = .ok [.spec v] := by
  have main := pulse_runs W T lib so so' c central hcen B0 B0 r r d d.sw d.ref nOct junk junk' nt 1 l l' hl
    (by
      intro s' hs'
      obtain ⟨i, hi, e⟩ := List.mem_iff_getElem.mp hs'
      rcases forall₂_get h i with ⟨-, e2⟩ | ⟨s, t, e1, e2, p, hh⟩
      · rw [List.getElem?_eq_getElem hi] at e2
        cases e2
      · rw [List.getElem?_eq_getElem hi, e] at e2
        injection e2 with e2
        exact given_reordered (hl s (List.mem_of_getElem? e1)) (e2 ▸ hh))
    hu hu'
    (by
      rw [List.forall₂_iff_get] at h ⊢
      refine ⟨h.1, fun i h1 h2 => ?_⟩
      obtain ⟨p, hh⟩ := h.2 i h1 h2
      have hm : l.get ⟨i, h1⟩ ∈ l := List.getElem_mem _
      generalize l.get ⟨i, h1⟩ = s at hh hm
      generalize l'.get ⟨i, h2⟩ = s' at hh
      refine ⟨?_, fun _ => by rw [hh.abundance, one_mul], fun x => (reorder p s.phys.sites.length x.1, reorder p s.phys.sites.length x.2),
        fun _ => reorder_bij c central p _ _ _ _ hh.isotopes hh.sites, fun x hx jk jk' => ?_⟩
      · rw [List.mem_iff_getElem?, List.mem_iff_getElem?]
        constructor
        · rintro ⟨j, hj⟩
          obtain ⟨m, rfl⟩ := p.surjective j
          exact ⟨m, by rw [← hh.isotopes, hj]⟩
        · rintro ⟨j, hj⟩
          exact ⟨p j, by rw [hh.isotopes, hj]⟩
      · unfold pulseWrites
        have e1 := rotorWrites_edge W T lib c B0 r.seen { d with sw := d.sw, ref := d.ref } nOct jk' nt s'.phys
          (reorder p s.phys.sites.length x.1, reorder p s.phys.sites.length x.2)
        rw [e1, rotorWrites_edge]
        have hpos := r.seen.pos
        have m := lineTens_reordered W T lib c central B0 p s s' hh x hx
        refine spectrum_scaled W _ nt nOct _ _ _ _ _ _ _ _ _ 1 one_ne_zero (Or.inr (one_mul _).symm) (one_mul _) _ _ _ (startRows_alike _ _ _ _) _ _
          ?_ m.R2 (fun _ => m.R4)
        rw [m.R0, one_mul])
    cpu cpu' nJobs nJobs' hJ hJ'
  obtain ⟨v, h1, h2⟩ := main
  rw [one_smul] at h2
  exact ⟨v, h1, h2⟩

/-- The proton first. -/
noncomputable def pairReordered (a : ℚ) : Run.Sys Phys (List Trans.Tr) :=
  ⟨["1H", "27Al"], none, a, ⟨[⟨1, 42.6, 2, 5, 0, ⟨0, 0, 0⟩, 0, 0, ⟨0, 0, 0⟩⟩, ⟨5, 11.1, 60, 20, 0.3, ⟨0, 0, 0⟩, 3000000, 0.1, ⟨0.2, 0.4, 0⟩⟩],
    [⟨0, 1, 20, 0, 0, ⟨0, 0, 0⟩, -3000, ⟨0.3, 0.5, 0⟩⟩]⟩⟩

theorem pair_reordered (a : ℚ) : Spec.Reordered (Equiv.swap 0 1) (pairSys a) (pairReordered a) := by
  refine ⟨rfl, rfl, fun k => ?_, fun k => ?_, [⟨0, 1, 20, 0, 0, ⟨0, 0, 0⟩, -3000, ⟨0.3, 0.5, 0⟩⟩], List.Perm.refl _, ?_⟩
  · match k with
    | 0 => simp [pairSys, pairReordered]
    | 1 => simp [pairSys, pairReordered]
    | k + 2 =>
      rw [Equiv.swap_apply_of_ne_of_ne (by omega) (by omega)]
      simp [pairSys, pairReordered]
  · match k with
    | 0 => simp [pairSys, pairReordered]
    | 1 => simp [pairSys, pairReordered]
    | k + 2 =>
      rw [Equiv.swap_apply_of_ne_of_ne (by omega) (by omega)]
      simp [pairSys, pairReordered]
  · refine List.Forall₂.cons (Or.inr ?_) List.Forall₂.nil
    simp

example (W : WC) (T : TC) (so : Trans.SetOrder) (junk : ℕ → Phys → List Trans.Tr → ℕ → ℕ → ℂ) (cpu : ℤ) :
    haveI : NeZero (Meth.SDim.count ⟨512, 25000, 100, none⟩) := ⟨by norm_num⟩
    ∃ v : ZMod 512 → ℝ, Run.run (pulseEnv W T pairLib so "27Al" false 9.4 pairRotor ⟨512, 25000, 100, none⟩ 4 junk 70) cpu false
        [pairSys 70, pairSys 30] 1 = .ok [.spec v] ∧
      Run.run (pulseEnv W T pairLib so "27Al" false 9.4 pairRotor ⟨512, 25000, 100, none⟩ 4 junk 70) cpu false
        [pairReordered 70, pairReordered 30] 4 = .ok [.spec v] := by
  have : NeZero (Meth.SDim.count ⟨512, 25000, 100, none⟩) := ⟨by norm_num⟩
  refine C105_order_partial W T pairLib so so "27Al" false (by simp) 9.4 pairRotor ⟨512, 25000, 100, none⟩ 4 junk junk 70
    [pairSys 70, pairSys 30] [pairReordered 70, pairReordered 30] (pair_list _ pair_given) (pair_uniform _) ?_
    (List.Forall₂.cons ⟨_, pair_reordered _⟩ (List.Forall₂.cons ⟨_, pair_reordered _⟩ List.Forall₂.nil))
    cpu cpu 1 4 le_rfl (by norm_num)
  intro a ha b hb _ _ _
  simp only [List.mem_cons, List.not_mem_nil, or_false] at ha hb
  rcases ha with rfl | rfl <;> rcases hb with rfl | rfl <;> rfl

end MRS.Freq
