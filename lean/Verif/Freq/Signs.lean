import Verif.Freq.Laws

/-!
# The signs of couplings — property C103

The spectrum after one pulse does not tell the sign of a quadrupole coupling, nor that of a weak coupling between two nuclei: the levels
of a nucleus, or those of its neighbour, are all equally populated.
-/

namespace MRS.Freq

open Complex

/-! ## Specification -/

/-- The same coupling with the opposite sign. -/
def Spec.reversed (q : Coupling) : Coupling := { q with J := -q.J, zeta := -q.zeta, D := -q.D }

/-- The same spin system but for the signs: `ε` tells for which sites the quadrupole coupling, `σ` for which pairs of sites
the coupling (isotropic, anisotropic and dipolar) is reversed. -/
structure Spec.SameButSigns (ε : ℕ → Bool) (σ : ℕ → ℕ → Bool) (s s' : Run.Sys Phys (List Trans.Tr)) : Prop where
  explicit : s'.explicit = s.explicit
  isotopes : s'.isotopes = s.isotopes
  abundance : s'.abundance = s.abundance
  sites : ∀ k : ℕ, s'.phys.sites[k]? = (s.phys.sites[k]?).map fun x => if ε k then { x with Cq := -x.Cq } else x
  couplings : s'.phys.couplings = s.phys.couplings.map fun q => if σ q.A q.X then Spec.reversed q else q

/-! ## The transition that corresponds to a transition -/

open Classical in
/-- The site that moves. -/
noncomputable def moverOf (x : List ℕ × List ℕ) : ℕ := if h : ∃ k : ℕ, x.1[k]? ≠ x.2[k]? then Nat.find h else 0

/-- The states of the sites with the levels counted from the other end where the signs ask for it. -/
noncomputable def mirrored (ns : List ℕ) (ε : ℕ → Bool) (σ : ℕ → ℕ → Bool) (x : List ℕ × List ℕ) : List ℕ × List ℕ :=
  let k := moverOf x
  let i := x.2.getD k 0
  let i' := if ε k then ns.getD k 0 - i - 1 else i
  let y := (List.range ns.length).map fun j => if j = k then i' + 1 else if σ k j then ns.getD j 0 - x.1.getD j 0 else x.1.getD j 0
  (y, y.set k i')

theorem moverOf_eq (x : List ℕ × List ℕ) (k i : ℕ) (h1 : x.1[k]? = some (i + 1)) (h2 : x.2 = x.1.set k i) : moverOf x = k := by
  have hk : k < x.1.length := (List.getElem?_eq_some_iff.mp h1).1
  have hx2 : x.2[k]? = some i := by rw [h2, List.getElem?_set_self hk]
  have h : ∃ k : ℕ, x.1[k]? ≠ x.2[k]? := ⟨k, by rw [h1, hx2]; simp⟩
  unfold moverOf
  rw [dif_pos h]
  have hf := Nat.find_spec h
  by_contra hne
  apply hf
  generalize Nat.find h = m at hne
  rw [h2, List.getElem?_set_ne (Ne.symm hne)]

theorem mirrored_get (ns : List ℕ) (ε : ℕ → Bool) (σ : ℕ → ℕ → Bool) (x : List ℕ × List ℕ) (k i n : ℕ) (hn : ns[k]? = some n)
    (h1 : x.1[k]? = some (i + 1)) (h2 : x.2 = x.1.set k i) (hl : x.1.length = ns.length) :
    (mirrored ns ε σ x).1[k]? = some ((if ε k then n - i - 1 else i) + 1) ∧
      (mirrored ns ε σ x).2 = (mirrored ns ε σ x).1.set k (if ε k then n - i - 1 else i) ∧
      (∀ (j m a : ℕ), j ≠ k → ns[j]? = some m → x.1[j]? = some a → (mirrored ns ε σ x).1[j]? = some (if σ k j then m - a else a)) ∧
      (mirrored ns ε σ x).1.length = ns.length := by
  have hk : k < x.1.length := (List.getElem?_eq_some_iff.mp h1).1
  have hx2 : x.2[k]? = some i := by rw [h2, List.getElem?_set_self hk]
  have hm := moverOf_eq x k i h1 h2
  have hg : x.2.getD k 0 = i := by rw [List.getD_eq_getElem?_getD, hx2]; rfl
  have hgn : ns.getD k 0 = n := by rw [List.getD_eq_getElem?_getD, hn]; rfl
  unfold mirrored
  simp only [hm, hg, hgn]
  refine ⟨?_, trivial, fun j m a hj hjn hja => ?_, by simp⟩
  · rw [List.getElem?_map, List.getElem?_range (by omega)]
    simp
  · have hjl : j < ns.length := (List.getElem?_eq_some_iff.mp hjn).1
    rw [List.getElem?_map, List.getElem?_range hjl]
    simp only [Option.map_some, if_neg hj, List.getD_eq_getElem?_getD, hjn, hja, Option.getD_some]

/-- The states of an observed transition, site by site. -/
theorem state_get (ss : List Site) (y : List ℕ) (h : Spec.IsState ss y) :
    y.length = ss.length ∧ ∀ (j : ℕ) (s : Site), ss[j]? = some s → ∃ a, y[j]? = some a ∧ a ≤ s.n := by
  refine ⟨h.length_eq.symm, fun j s hs => ?_⟩
  rcases forall₂_get h j with ⟨e1, -⟩ | ⟨s', a, e1, e2, hb⟩
  · rw [e1] at hs
    cases hs
  · rw [e1] at hs
    injection hs with hs
    exact ⟨a, e2, hs ▸ hb⟩

theorem state_of_get (ss : List Site) (y : List ℕ) (hl : y.length = ss.length)
    (h : ∀ (j : ℕ) (s : Site) (a : ℕ), ss[j]? = some s → y[j]? = some a → a ≤ s.n) : Spec.IsState ss y := by
  rw [Spec.IsState, List.forall₂_iff_get]
  refine ⟨hl.symm, fun j h1 h2 => ?_⟩
  exact h j _ _ (List.getElem?_eq_getElem h1) (List.getElem?_eq_getElem h2)

theorem mirrored_observed (c : String) (central : Bool) (iso : List String) (ss : List Site) (ε : ℕ → Bool) (σ : ℕ → ℕ → Bool)
    (x : List ℕ × List ℕ) (hx : Spec.Observed c central iso ss x) : Spec.Observed c central iso ss (mirrored (ss.map Site.n) ε σ x) := by
  obtain ⟨k, i, s, e1, e2, e3, e4, e5⟩ := hx.step
  obtain ⟨hl, hst⟩ := state_get ss x.1 hx.initial
  obtain ⟨a, ha, hle⟩ := hst k s e2
  rw [e3] at ha
  injection ha with ha
  subst ha
  have hn : (ss.map Site.n)[k]? = some s.n := by rw [List.getElem?_map, e2]; rfl
  obtain ⟨m1, m2, m3, m4⟩ := mirrored_get (ss.map Site.n) ε σ x k i s.n hn e3 e4 (by simpa using hl)
  have hi' : (if ε k then s.n - i - 1 else i) + 1 ≤ s.n := by split_ifs <;> omega
  have hs1 : Spec.IsState ss (mirrored (ss.map Site.n) ε σ x).1 := by
    refine state_of_get ss _ (by simpa using m4) fun j t b ht hb => ?_
    by_cases hj : j = k
    · subst hj
      rw [m1] at hb
      injection hb with hb
      rw [e2] at ht
      injection ht with ht
      rw [← ht, ← hb]
      exact hi'
    · obtain ⟨a, ha, hle'⟩ := hst j t ht
      rw [m3 j t.n a hj (by rw [List.getElem?_map, ht]; rfl) ha] at hb
      injection hb with hb
      rw [← hb]
      split_ifs <;> omega
  refine ⟨hs1, ?_, k, (if ε k then s.n - i - 1 else i), s, e1, e2, m1, m2, fun hc => ?_⟩
  · rw [m2]
    refine state_of_get ss _ (by simpa using m4) fun j t b ht hb => ?_
    by_cases hj : j = k
    · subst hj
      have hjl := (List.getElem?_eq_some_iff.mp m1).1
      rw [List.getElem?_set_self hjl] at hb
      injection hb with hb
      rw [e2] at ht
      injection ht with ht
      rw [← ht, ← hb]
      omega
    · rw [List.getElem?_set_ne (Ne.symm hj)] at hb
      obtain ⟨b', hb', hle'⟩ := (state_get ss _ hs1).2 j t ht
      rw [hb'] at hb
      injection hb with hb
      rw [← hb]
      exact hle'
  · have := e5 hc
    split_ifs <;> omega

theorem mirrored_twice (c : String) (central : Bool) (iso : List String) (ss : List Site) (ε : ℕ → Bool) (σ : ℕ → ℕ → Bool)
    (x : List ℕ × List ℕ) (hx : Spec.Observed c central iso ss x) :
    mirrored (ss.map Site.n) ε σ (mirrored (ss.map Site.n) ε σ x) = x := by
  obtain ⟨k, i, s, e1, e2, e3, e4, e5⟩ := hx.step
  obtain ⟨hl, hst⟩ := state_get ss x.1 hx.initial
  obtain ⟨a, ha, hle⟩ := hst k s e2
  rw [e3] at ha
  injection ha with ha
  subst ha
  have hn : (ss.map Site.n)[k]? = some s.n := by rw [List.getElem?_map, e2]; rfl
  obtain ⟨m1, m2, m3, m4⟩ := mirrored_get (ss.map Site.n) ε σ x k i s.n hn e3 e4 (by simpa using hl)
  obtain ⟨p1, p2, p3, p4⟩ := mirrored_get (ss.map Site.n) ε σ (mirrored (ss.map Site.n) ε σ x) k _ s.n hn m1 m2 m4
  have hi : (if ε k then s.n - (if ε k then s.n - i - 1 else i) - 1 else if ε k then s.n - i - 1 else i) = i := by
    split_ifs <;> omega
  rw [hi] at p1 p2
  have h1 : (mirrored (ss.map Site.n) ε σ (mirrored (ss.map Site.n) ε σ x)).1 = x.1 := by
    apply List.ext_getElem?
    intro j
    by_cases hj : j = k
    · subst hj
      rw [p1, e3]
    · by_cases hjl : j < ss.length
      · obtain ⟨t, ht⟩ : ∃ t, ss[j]? = some t := ⟨_, List.getElem?_eq_getElem hjl⟩
        obtain ⟨a, ha, hle'⟩ := hst j t ht
        have htn : (ss.map Site.n)[j]? = some t.n := by rw [List.getElem?_map, ht]; rfl
        rw [p3 j t.n _ hj htn (m3 j t.n a hj htn ha), ha]
        congr 1
        split_ifs <;> omega
      · rw [List.getElem?_eq_none (by rw [p4, List.length_map]; omega), List.getElem?_eq_none (by omega)]
  refine Prod.ext h1 ?_
  rw [p2, h1, e4]

theorem mirrored_bij (c : String) (central : Bool) (iso : List String) (ss : List Site) (ε : ℕ → Bool) (σ : ℕ → ℕ → Bool) :
    Set.BijOn (mirrored (ss.map Site.n) ε σ) {x | Spec.Observed c central iso ss x} {x | Spec.Observed c central iso ss x} :=
  Set.InvOn.bijOn (f' := mirrored (ss.map Site.n) ε σ)
    ⟨fun x hx => mirrored_twice c central iso ss ε σ x hx, fun x hx => mirrored_twice c central iso ss ε σ x hx⟩
    (fun x hx => mirrored_observed c central iso ss ε σ x hx) (fun x hx => mirrored_observed c central iso ss ε σ x hx)

/-! ## Its components -/

theorem addSite_mirrored (W : WC) (T : TC) (four : Bool) (B0 : ℝ) (t t' : Tens) (h : Times 1 t t') (s : Site) (mf mi : ℝ) :
    Times 1 (addSite W T four B0 t s mf mi) (addSite W T four B0 t' { s with Cq := -s.Cq } (-mi) (-mf)) := by
  have hneg : -s.Cq = -1 * s.Cq := by ring
  have h1 : Times 1 (shieldingPart W T B0 s mf mi) (shieldingPart W T B0 { s with Cq := -s.Cq } (-mi) (-mf)) := by
    unfold shieldingPart
    rw [show stfP (-mi) (-mf) = stfP mf mi by unfold stfP; ring]
    exact Times.fcf_same _ (ssotShielding_times W T 1 _ _ _ _ _ _ (one_mul _).symm (one_mul _).symm)
  have h2 : Times 1 (quad1Part W T s mf mi) (quad1Part W T { s with Cq := -s.Cq } (-mi) (-mf)) := by
    unfold quad1Part
    rw [show stfD T (-mi) (-mf) = -1 * stfD T mf mi by unfold stfD; ring]
    simp only [hneg]
    exact Times.fcf _ (by norm_num) (ssotQuad1_times W T _ (-1) _ _ _) (by norm_num)
  have h3 : Times 1 (quad2Part W T B0 s mf mi) (quad2Part W T B0 { s with Cq := -s.Cq } (-mi) (-mf)) := by
    unfold quad2Part
    have hcl : stfCL T (-mi) (-mf) (s.n / 2) = stfCL T mf mi (s.n / 2) := by
      unfold stfCL
      rw [show stfP (-mi) (-mf) = stfP mf mi by unfold stfP; ring,
        show stfF T (-mi) (-mf) (s.n / 2) = stfF T mf mi (s.n / 2) by unfold stfF; ring]
    simp only [hcl]
    refine fcfQuad2_times _ _ _ (ssotQuad2_times W T _ _ _ _ _ _ 1 _ ?_)
    rw [hneg, vq_mul]
    have hl : larmor B0 { s with Cq := -1 * s.Cq } = larmor B0 s := rfl
    rw [hl]
    ring
  have hc : (-mf = -mi) ↔ (mi = mf) := by rw [neg_inj]; exact eq_comm
  unfold addSite
  simp only [hc]
  split_ifs
  · exact h
  · exact h.add h1
  · exact (h.add h1).add h2 |>.add h3
  · exact (h.add h1).add h2

theorem moverPart_mirrored (W : WC) (T : TC) (n0 : ℕ) (B0 : ℝ) (s : Site) (i : ℕ) (hi : i + 1 ≤ s.n) (e : Bool) :
    Times 1 (moverPart W T n0 B0 s i)
      (moverPart W T n0 B0 (if e then { s with Cq := -s.Cq } else s) (if e then s.n - i - 1 else i)) := by
  cases e
  · exact ⟨(one_mul _).symm, fun i => by simp, fun i => by simp⟩
  · simp only [if_true]
    unfold moverPart
    have hp : packed n0 { s with Cq := -s.Cq } = { packed n0 s with Cq := -(packed n0 s).Cq } := by
      unfold packed
      split_ifs
      · rfl
      · simp
    rw [hp]
    have e1 : ((s.n - i - 1 : ℕ) : ℝ) - (s.n : ℝ) / 2 = -(((i + 1 : ℕ) : ℝ) - (s.n : ℝ) / 2) := by
      rw [Nat.sub_sub, Nat.cast_sub hi]
      ring
    have e2 : ((s.n - i - 1 + 1 : ℕ) : ℝ) - (s.n : ℝ) / 2 = -((i : ℝ) - (s.n : ℝ) / 2) := by
      rw [show s.n - i - 1 + 1 = s.n - i by omega, Nat.cast_sub (by omega)]
      ring
    rw [e1, e2]
    exact addSite_mirrored W T _ B0 _ _ (Times.zero 1) _ _ _

theorem couplingPart_mirrored (W : WC) (T : TC) (mi mf mi' mf' : List ℝ) (q : Coupling) (e : Bool)
    (h : stfDIS (mf'.getD q.A 0) (mi'.getD q.A 0) (mf'.getD q.X 0) (mi'.getD q.X 0)
      = (if e then -1 else 1) * stfDIS (mf.getD q.A 0) (mi.getD q.A 0) (mf.getD q.X 0) (mi.getD q.X 0)) :
    Times 1 (couplingPart W T mi mf q) (couplingPart W T mi' mf' (if e then Spec.reversed q else q)) := by
  cases e
  · simp only [Bool.false_eq_true, if_false, one_mul] at h ⊢
    unfold couplingPart jPart dipolarPart
    rw [h]
    exact ⟨(one_mul _).symm, fun i => by simp, fun i => by simp⟩
  · simp only [if_true] at h ⊢
    unfold couplingPart jPart dipolarPart Spec.reversed
    simp only
    rw [h, show -q.J = -1 * q.J by ring, show -q.zeta = -1 * q.zeta by ring, show -q.D = -1 * q.D by ring]
    exact (Times.fcf _ (by norm_num) (ssotJ_times W T (-1) _ _ _ _) (by norm_num)).add
      (Times.fcf _ (by norm_num) (ssotDipolar_times W (-1) _ _) (by norm_num))

theorem quantum_getD (ss : List Site) (x : List ℕ) (k : ℕ) (s : Site) (a : ℕ) (hs : ss[k]? = some s) (ha : x[k]? = some a) :
    (Spec.quantum ss x).getD k 0 = (a : ℝ) - (s.n : ℝ) / 2 := by
  rw [List.getD_eq_getElem?_getD, quantum_get, hs, ha]
  rfl

theorem lineTens_mirrored (W : WC) (T : TC) (lib : Library) (c : String) (central : Bool) (B0 : ℝ) (ε : ℕ → Bool) (σ : ℕ → ℕ → Bool)
    (hσ : ∀ a b, σ a b = σ b a) (s s' : Run.Sys Phys (List Trans.Tr)) (hs : Spec.Given lib s)
    (hd : ∀ q ∈ s.phys.couplings, q.A ≠ q.X) (h : Spec.SameButSigns ε σ s s')
    (x : List ℕ × List ℕ) (hx : Spec.Observed c central s.isotopes s.phys.sites x) :
    Times 1 (lineTens W T lib c B0 s.phys x) (lineTens W T lib c B0 s'.phys (mirrored (s.phys.sites.map Site.n) ε σ x)) := by
  have hspins : s'.phys.sites.map Site.n = s.phys.sites.map Site.n := by
    apply List.ext_getElem?
    intro k
    rw [List.getElem?_map, List.getElem?_map, h.sites, Option.map_map]
    congr 1
    funext y
    simp only [Function.comp]
    split_ifs <;> rfl
  obtain ⟨k, i, y, e1, e2, e3, e4, -⟩ := hx.step
  obtain ⟨hl, hst⟩ := state_get _ x.1 hx.initial
  obtain ⟨a, ha, hle⟩ := hst k y e2
  rw [e3] at ha
  injection ha with ha
  subst ha
  have hn : (s.phys.sites.map Site.n)[k]? = some y.n := by rw [List.getElem?_map, e2]; rfl
  obtain ⟨m1, m2, m3, m4⟩ := mirrored_get (s.phys.sites.map Site.n) ε σ x k i y.n hn e3 e4 (by simpa using hl)
  set z := mirrored (s.phys.sites.map Site.n) ε σ x with hz
  have a1 := lineTens_mover W T lib c B0 s.phys x k i y e2 e3 e4
  have a2 := lineTens_mover W T lib c B0 s'.phys z k _ (if ε k then { y with Cq := -y.Cq } else y) (by rw [h.sites, e2]; rfl) m1 m2
  rw [quantum_sites _ _ hspins, quantum_sites _ _ hspins] at a2
  have hm := moverPart_mirrored W T (lib.twoI c) B0 y i hle (ε k)
  have hq : ∀ q ∈ s.phys.couplings, Times 1 (couplingPart W T (Spec.quantum s.phys.sites x.1) (Spec.quantum s.phys.sites x.2) q)
      (couplingPart W T (Spec.quantum s.phys.sites z.1) (Spec.quantum s.phys.sites z.2) (if σ q.A q.X then Spec.reversed q else q)) := by
    intro q hq
    refine couplingPart_mirrored W T _ _ _ _ q _ ?_
    have hx2 : x.2[k]? = some i := by rw [e4, List.getElem?_set_self (List.getElem?_eq_some_iff.mp e3).1]
    have hz2 : z.2[k]? = some (if ε k then y.n - i - 1 else i) := by rw [m2, List.getElem?_set_self (List.getElem?_eq_some_iff.mp m1).1]
    -- the quantum numbers of a site that does not move
    have hrest : ∀ j, j < s.phys.sites.length → j ≠ k → ∃ m : ℝ,
        (Spec.quantum s.phys.sites x.1).getD j 0 = m ∧ (Spec.quantum s.phys.sites x.2).getD j 0 = m ∧
        (Spec.quantum s.phys.sites z.1).getD j 0 = (if σ k j then -1 else 1) * m ∧
        (Spec.quantum s.phys.sites z.2).getD j 0 = (if σ k j then -1 else 1) * m := by
      intro j hj hjk
      obtain ⟨t, ht⟩ : ∃ t, s.phys.sites[j]? = some t := ⟨_, List.getElem?_eq_getElem hj⟩
      obtain ⟨b, hb, hbn⟩ := hst j t ht
      have hb2 : x.2[j]? = some b := by rw [e4, List.getElem?_set_ne (Ne.symm hjk), hb]
      have hz1 := m3 j t.n b hjk (by rw [List.getElem?_map, ht]; rfl) hb
      have hz2 : z.2[j]? = some (if σ k j then t.n - b else b) := by rw [m2, List.getElem?_set_ne (Ne.symm hjk), hz1]
      refine ⟨(b : ℝ) - (t.n : ℝ) / 2, quantum_getD _ _ _ _ _ ht hb, quantum_getD _ _ _ _ _ ht hb2, ?_, ?_⟩
      · rw [quantum_getD _ _ _ _ _ ht hz1]
        split_ifs
        · rw [Nat.cast_sub hbn]
          ring
        · ring
      · rw [quantum_getD _ _ _ _ _ ht hz2]
        split_ifs
        · rw [Nat.cast_sub hbn]
          ring
        · ring
    have g1 := quantum_getD _ _ _ _ _ e2 e3
    have g2 := quantum_getD _ _ _ _ _ e2 hx2
    have g3 := quantum_getD _ _ _ _ _ e2 m1
    have g4 := quantum_getD _ _ _ _ _ e2 hz2
    obtain ⟨hA, hX⟩ := hs.couplings q hq
    have hAX := hd q hq
    unfold stfDIS
    by_cases hkA : q.A = k
    · obtain ⟨m, n1, n2, n3, n4⟩ := hrest q.X hX (fun h => hAX (hkA.trans h.symm))
      rw [n1, n2, n3, n4, hkA, g1, g2, g3, g4]
      push_cast
      ring
    · obtain ⟨m, n1, n2, n3, n4⟩ := hrest q.A hA hkA
      by_cases hkX : q.X = k
      · rw [n1, n2, n3, n4, hkX, g1, g2, g3, g4, hσ q.A k]
        push_cast
        ring
      · obtain ⟨m', n1', n2', n3', n4'⟩ := hrest q.X hX hkX
        rw [n1, n2, n3, n4, n1', n2', n3', n4']
        ring
  refine ⟨?_, fun m => ?_, fun m => ?_⟩
  · rw [a1.1, a2.1, hm.R0, h.couplings, List.map_map, one_mul, one_mul]
    congr 2
    refine List.map_congr_left fun q hq' => ?_
    simp only [Function.comp]
    rw [(hq q hq').R0, one_mul]
  · rw [a1.2.1, a2.2.1, hm.R2, h.couplings, List.map_map, Complex.ofReal_one, one_mul, one_mul]
    congr 2
    refine List.map_congr_left fun q hq' => ?_
    simp only [Function.comp]
    rw [(hq q hq').R2, Complex.ofReal_one, one_mul]
  · rw [a1.2.2, a2.2.2, hm.R4]

/-! ## Property -/

/-- **C103, partial.** The signs of couplings do not matter: in any list of spin systems, let the quadrupole couplings of any sites and the couplings
(isotropic, anisotropic and dipolar together) between any pairs of sites be reversed.  Every spectrum after one pulse remains the same, point
by point, at every integration density, static or spinning.  (With the second-order quadrupole term, which is even in the coupling.)
Missing: lists of spin systems with equally many sites in another order of isotopes (C02). -/
theorem C103_signs_partial (W : WC) (T : TC) (lib : Library) (so so' : Trans.SetOrder) (c : String) (central : Bool)
    (hcen : central = true → lib.twoI c % 2 = 1) (B0 : ℝ) (r : Rotor) (d : Meth.SDim) [NeZero d.count] (nOct : ℕ)
    (junk junk' : ℕ → Phys → List Trans.Tr → ℕ → ℕ → ℂ) (nt : ℕ) (l l' : List (Run.Sys Phys (List Trans.Tr)))
    (hl : ∀ s ∈ l, Spec.Given lib s) (hd : ∀ s ∈ l, ∀ q ∈ s.phys.couplings, q.A ≠ q.X)
    (hu : ∀ a ∈ l, ∀ b ∈ l, c ∈ a.isotopes → c ∈ b.isotopes → a.isotopes.length = b.isotopes.length → a.isotopes = b.isotopes)
    (h : List.Forall₂ (fun s s' => ∃ ε σ, (∀ a b, σ a b = σ b a) ∧ Spec.SameButSigns ε σ s s') l l')
    (cpu cpu' nJobs nJobs' : ℤ) (hJ : 1 ≤ nJobs) (hJ' : 1 ≤ nJobs') :
    ∃ v : ZMod d.count → ℝ, Run.run (pulseEnv W T lib so c central B0 r d nOct junk nt) cpu false l nJobs = .ok [.spec v] ∧
      Run.run (pulseEnv W T lib so' c central B0 r d nOct junk' nt) cpu' false l' nJobs' = .ok [.spec v] := by
  have hback : ∀ s' ∈ l', ∃ s ∈ l, ∃ ε σ, Spec.SameButSigns ε σ s s' := by
    intro s' hs'
    obtain ⟨i, hi, e⟩ := List.mem_iff_getElem.mp hs'
    rcases forall₂_get h i with ⟨-, e2⟩ | ⟨s, t, e1, e2, ε, σ, -, hh⟩
    · rw [List.getElem?_eq_getElem hi] at e2
      cases e2
    · rw [List.getElem?_eq_getElem hi, e] at e2
      injection e2 with e2
      exact ⟨s, List.mem_of_getElem? e1, ε, σ, e2 ▸ hh⟩
  have hspins : ∀ (ε σ) (s s' : Run.Sys Phys (List Trans.Tr)), Spec.SameButSigns ε σ s s' →
      s'.phys.sites.map Site.n = s.phys.sites.map Site.n := by
    intro ε σ s s' h
    apply List.ext_getElem?
    intro k
    rw [List.getElem?_map, List.getElem?_map, h.sites, Option.map_map]
    congr 1
    funext y
    simp only [Function.comp]
    split_ifs <;> rfl
  have main := pulse_runs W T lib so so' c central hcen B0 B0 r r d d.sw d.ref nOct junk junk' nt 1 l l' hl
    (by
      intro s' hs'
      obtain ⟨s, hs, ε, σ, hh⟩ := hback s' hs'
      refine given_of_spins (hl s hs) hh.explicit hh.isotopes (hspins ε σ s s' hh) fun q hq => ?_
      rw [hh.couplings] at hq
      obtain ⟨p, hp, rfl⟩ := List.mem_map.mp hq
      refine ⟨p, hp, ?_, ?_⟩ <;> split_ifs <;> rfl)
    hu
    (by
      intro a ha b hb
      obtain ⟨a', ha', _, _, h1⟩ := hback a ha
      obtain ⟨b', hb', _, _, h2⟩ := hback b hb
      rw [h1.isotopes, h2.isotopes]
      exact hu a' ha' b' hb')
    (by
      rw [List.forall₂_iff_get] at h ⊢
      refine ⟨h.1, fun i h1 h2 => ?_⟩
      obtain ⟨ε, σ, hσ, hh⟩ := h.2 i h1 h2
      have hm : l.get ⟨i, h1⟩ ∈ l := List.getElem_mem _
      generalize l.get ⟨i, h1⟩ = s at hh hm
      generalize l'.get ⟨i, h2⟩ = s' at hh
      refine ⟨by rw [hh.isotopes], fun _ => by rw [hh.abundance, one_mul], mirrored (s.phys.sites.map Site.n) ε σ, fun _ => ?_, fun x hx jk jk' => ?_⟩
      · rw [hh.isotopes]
        exact (observed_same c central _ _ _ (hspins ε σ s s' hh)).comp (mirrored_bij c central s.isotopes s.phys.sites ε σ)
      · unfold pulseWrites
        rw [rotorWrites_edge, rotorWrites_edge]
        have hpos := r.seen.pos
        have m := lineTens_mirrored W T lib c central B0 ε σ hσ s s' (hl s hm) (hd s hm) hh x hx
        refine spectrum_scaled W _ nt nOct _ _ _ _ _ _ _ _ _ 1 one_ne_zero (Or.inr (one_mul _).symm) (one_mul _) _ _ _ (startRows_alike _ _ _ _) _ _
          ?_ m.R2 (fun _ => m.R4)
        rw [m.R0, one_mul])
    cpu cpu' nJobs nJobs' hJ hJ'
  obtain ⟨v, h1, h2⟩ := main
  rw [one_smul] at h2
  exact ⟨v, h1, h2⟩

/-- The same pair of nuclei with a positive dipolar, and negative quadrupole and J couplings. -/
noncomputable def pairOpposite (a : ℚ) : Run.Sys Phys (List Trans.Tr) :=
  ⟨["27Al", "1H"], none, a, ⟨[⟨5, 11.1, 60, 20, 0.3, ⟨0, 0, 0⟩, -3000000, 0.1, ⟨0.2, 0.4, 0⟩⟩, ⟨1, 42.6, 2, 5, 0, ⟨0, 0, 0⟩, 0, 0, ⟨0, 0, 0⟩⟩],
    [⟨0, 1, -20, -0, 0, ⟨0, 0, 0⟩, - -3000, ⟨0.3, 0.5, 0⟩⟩]⟩⟩

theorem pair_opposite (a : ℚ) : Spec.SameButSigns (fun k => k == 0) (fun _ _ => true) (pairSys a) (pairOpposite a) := by
  refine ⟨rfl, rfl, rfl, fun k => ?_, ?_⟩
  · match k with
    | 0 => simp [pairSys, pairOpposite]
    | 1 => simp [pairSys, pairOpposite]
    | k + 2 => simp [pairSys, pairOpposite]
  · simp [pairSys, pairOpposite, Spec.reversed]

example (W : WC) (T : TC) (so : Trans.SetOrder) (junk : ℕ → Phys → List Trans.Tr → ℕ → ℕ → ℂ) (cpu : ℤ) :
    haveI : NeZero (Meth.SDim.count ⟨512, 25000, 100, none⟩) := ⟨by norm_num⟩
    ∃ v : ZMod 512 → ℝ, Run.run (pulseEnv W T pairLib so "27Al" false 9.4 pairRotor ⟨512, 25000, 100, none⟩ 4 junk 70) cpu false
        [pairSys 70, pairSys 30] 1 = .ok [.spec v] ∧
      Run.run (pulseEnv W T pairLib so "27Al" false 9.4 pairRotor ⟨512, 25000, 100, none⟩ 4 junk 70) cpu false
        [pairOpposite 70, pairOpposite 30] 4 = .ok [.spec v] := by
  have : NeZero (Meth.SDim.count ⟨512, 25000, 100, none⟩) := ⟨by norm_num⟩
  exact C103_signs_partial W T pairLib so so "27Al" false (by simp) 9.4 pairRotor ⟨512, 25000, 100, none⟩ 4 junk junk 70
    [pairSys 70, pairSys 30] [pairOpposite 70, pairOpposite 30] (pair_list _ pair_given)
    (pair_list _ fun a q hq => by
      simp only [pairSys, List.mem_cons, List.not_mem_nil, or_false] at hq
      subst hq
      norm_num)
    (pair_uniform _)
    (List.Forall₂.cons ⟨_, _, fun _ _ => rfl, pair_opposite _⟩ (List.Forall₂.cons ⟨_, _, fun _ _ => rfl, pair_opposite _⟩ List.Forall₂.nil))
    cpu cpu 1 4 le_rfl (by norm_num)

end MRS.Freq
