import Verif.Freq.Exact

/-!
# Units and origins of the frequency axis — properties C102, C104

Exact laws of the spectrum after one pulse: adding to all chemical shifts of the observed isotope moves the spectrum along the axis,
and multiplying all frequencies by a number stretches it.
-/

namespace MRS.Freq

open Complex

/-! ## Specification -/

/-- The sites of isotope `c` have the gyromagnetic ratio of the isotope. -/
def Spec.Tuned (lib : Library) (c : String) (s : Run.Sys Phys (List Trans.Tr)) : Prop :=
  ∀ (k : ℕ) (x : Site), s.isotopes[k]? = some c → s.phys.sites[k]? = some x → x.gamma = lib.gamma c

/-- The same spin system with `δ` added to the isotropic chemical shifts of the sites of isotope `c`. -/
noncomputable def Spec.shifted (c : String) (δ : ℝ) (s : Run.Sys Phys (List Trans.Tr)) : Run.Sys Phys (List Trans.Tr) :=
  { s with phys := { s.phys with
      sites := List.zipWith (fun (i : String) (x : Site) => if i = c then { x with iso := x.iso + δ } else x) s.isotopes s.phys.sites } }

/-- The same spin system with the frequencies that do not depend on the field multiplied by `k`. -/
noncomputable def Spec.stretched (k : ℝ) (s : Run.Sys Phys (List Trans.Tr)) : Run.Sys Phys (List Trans.Tr) :=
  { s with phys :=
    { sites := s.phys.sites.map fun x => { x with Cq := k * x.Cq }
      couplings := s.phys.couplings.map fun q => { q with J := k * q.J, zeta := k * q.zeta, D := k * q.D } } }

/-! ## Lemmas -/

theorem observed_sites (c : String) (central : Bool) (iso : List String) (ss ss' : List Site) (h : ss'.map Site.n = ss.map Site.n)
    (x : List ℕ × List ℕ) (hx : Spec.Observed c central iso ss x) : Spec.Observed c central iso ss' x := by
  have hst : ∀ y, Spec.IsState ss y → Spec.IsState ss' y := by
    intro y hy
    unfold Spec.IsState at hy ⊢
    have e : ∀ (l : List Site) (y : List ℕ), List.Forall₂ (fun s j => j ≤ s.n) l y ↔ List.Forall₂ (fun (n j : ℕ) => j ≤ n) (l.map Site.n) y := by
      intro l y
      rw [List.forall₂_map_left_iff]
    rw [e, h, ← e]
    exact hy
  obtain ⟨k, i, s, e1, e2, e3, e4, e5⟩ := hx.step
  have hk : (ss'.map Site.n)[k]? = (ss.map Site.n)[k]? := by rw [h]
  rw [List.getElem?_map, List.getElem?_map, e2, Option.map_some, Option.map_eq_some_iff] at hk
  obtain ⟨s', e2', e6⟩ := hk
  exact ⟨hst _ hx.initial, hst _ hx.final, k, i, s', e1, e2', e3, e4, fun hc => by rw [e6]; exact e5 hc⟩

theorem observed_same (c : String) (central : Bool) (iso : List String) (ss ss' : List Site) (h : ss'.map Site.n = ss.map Site.n) :
    Set.BijOn id {x | Spec.Observed c central iso ss x} {x | Spec.Observed c central iso ss' x} :=
  ⟨fun x hx => observed_sites c central iso ss ss' h x hx, Function.injective_id.injOn,
    fun x hx => ⟨x, observed_sites c central iso ss' ss h.symm x hx, rfl⟩⟩

theorem singleRotation_smul (W : WC) (l : ℕ) (α β γ : ℝ) (R R' : ℕ → ℂ) (k : ℝ) (h : ∀ i, R' i = k * R i) (i : ℕ) :
    singleRotation W l α β γ R' i = k * singleRotation W l α β γ R i := by
  have hp : ∀ (z : ℂ) (A A' : ℕ → ℂ), (∀ i, A' i = k * A i) → ∀ i, phased l z A' i = k * phased l z A i := by
    intro z A A' hA i
    unfold phased
    rw [hA]
    split_ifs <;> ring
  unfold singleRotation
  refine hp _ _ _ (fun i => ?_) i
  unfold applyW
  rw [Finset.mul_sum]
  refine Finset.sum_congr rfl fun j _ => ?_
  rw [hp _ _ _ h]
  ring

theorem toFrame_smul (W : WC) (l : ℕ) (Θ : Angles) (R R' : ℕ → ℂ) (k : ℝ) (h : ∀ i, R' i = k * R i) (i : ℕ) :
    toFrame W l Θ R' i = k * toFrame W l Θ R i := by
  unfold toFrame
  split_ifs
  · exact h i
  · exact singleRotation_smul W l _ _ _ R R' k h i

theorem pas2_smul (k a b a' b' : ℝ) (ha : a' = k * a) (hb : b' = k * b) (i : ℕ) : pas2 a' b' i = k * pas2 a b i := by
  unfold pas2
  split <;> simp [ha, hb]

theorem pas4_smul (k a b c a' b' c' : ℝ) (ha : a' = k * a) (hb : b' = k * b) (hc : c' = k * c) (i : ℕ) :
    pas4 a' b' c' i = k * pas4 a b c i := by
  unfold pas4
  split <;> simp [ha, hb, hc]

/-- Components that differ by a factor. -/
structure Times (k : ℝ) (t t' : Tens) : Prop where
  R0 : t'.R0 = k * t.R0
  R2 : ∀ i, t'.R2 i = k * t.R2 i
  R4 : ∀ i, t'.R4 i = k * t.R4 i

theorem Times.zero (k : ℝ) : Times k zeroT zeroT := ⟨by simp [zeroT], fun _ => by simp [zeroT], fun _ => by simp [zeroT]⟩

theorem Times.add {k : ℝ} {t t' u u' : Tens} (h : Times k t t') (h' : Times k u u') : Times k (addT t u) (addT t' u') :=
  ⟨by simp only [addT, h.R0, h'.R0]; ring, fun i => by simp only [addT, h.R2, h'.R2]; ring, fun i => by simp only [addT, h.R4, h'.R4]; ring⟩

/-- A first-order term: the transition function times the tensor. -/
theorem Times.fcf {k a b : ℝ} {t t' : Tens} (f : ℝ) (hb : b ≠ 0) (h : Times a t t') (hk : k = b * a) :
    Times k (Freq.fcf f t) (Freq.fcf (b * f) t') := by
  unfold Freq.fcf
  by_cases hf : f = 0
  · rw [if_pos hf, if_pos (by rw [hf, mul_zero])]
    exact Times.zero k
  · rw [if_neg hf, if_neg (mul_ne_zero hb hf)]
    refine ⟨?_, fun i => ?_, fun i => ?_⟩
    · simp only [scaleT, h.R0, hk]
      ring
    · simp only [scaleT, h.R2, hk]
      push_cast
      ring
    · simp only [scaleT, h.R4, hk]
      push_cast
      ring

theorem Times.fcf_same {k : ℝ} {t t' : Tens} (f : ℝ) (h : Times k t t') : Times k (Freq.fcf f t) (Freq.fcf f t') := by
  have := Times.fcf (b := 1) f one_ne_zero h (by rw [one_mul])
  rwa [one_mul] at this

theorem ssotShielding_times (W : WC) (T : TC) (k iso zeta eta iso' zeta' : ℝ) (Θ : Angles) (h1 : iso' = k * iso) (h2 : zeta' = k * zeta) :
    Times k (ssotShielding W T iso zeta eta Θ) (ssotShielding W T iso' zeta' eta Θ) :=
  ⟨h1, fun i => toFrame_smul W 2 Θ _ _ k (pas2_smul k _ _ _ _ (by rw [h2]; ring) (by rw [h2]; ring)) i, fun i => by simp [ssotShielding]⟩

theorem vq_mul (spin k Cq : ℝ) : vq spin (k * Cq) = k * vq spin Cq := by
  unfold vq
  ring

theorem ssotQuad1_times (W : WC) (T : TC) (spin k Cq eta : ℝ) (Θ : Angles) :
    Times k (ssotQuad1 W T spin Cq eta Θ) (ssotQuad1 W T spin (k * Cq) eta Θ) :=
  ⟨by simp [ssotQuad1], fun i => toFrame_smul W 2 Θ _ _ k (pas2_smul k _ _ _ _ (by rw [vq_mul]; ring) (by rw [vq_mul]; ring)) i,
    fun i => by simp [ssotQuad1]⟩

theorem ssotQuad2_times (W : WC) (T : TC) (spin v0 v0' Cq Cq' eta k : ℝ) (Θ : Angles)
    (h : vq spin Cq' * vq spin Cq' / v0' = k * (vq spin Cq * vq spin Cq / v0)) :
    Times k (ssotQuad2 W T spin v0 Cq eta Θ) (ssotQuad2 W T spin v0' Cq' eta Θ) := by
  refine ⟨?_, fun i => ?_, fun i => ?_⟩
  · simp only [ssotQuad2]
    rw [h]
    ring
  · exact toFrame_smul W 2 Θ _ _ k (pas2_smul k _ _ _ _ (by simp only [h]; ring) (by simp only [h]; ring)) i
  · exact toFrame_smul W 4 Θ _ _ k (pas4_smul k _ _ _ _ _ _ (by simp only [h]; ring) (by simp only [h]; ring) (by simp only [h]; ring)) i

theorem ssotJ_times (W : WC) (T : TC) (k iso zeta eta : ℝ) (Θ : Angles) :
    Times k (ssotJ W T iso zeta eta Θ) (ssotJ W T (k * iso) (k * zeta) eta Θ) :=
  ⟨rfl, fun i => toFrame_smul W 2 Θ _ _ k (pas2_smul k _ _ _ _ (by ring) rfl) i, fun i => by simp [ssotJ]⟩

theorem ssotDipolar_times (W : WC) (k D : ℝ) (Θ : Angles) : Times k (ssotDipolar W D Θ) (ssotDipolar W (k * D) Θ) :=
  ⟨by simp [ssotDipolar], fun i => toFrame_smul W 2 Θ _ _ k (pas2_smul k _ _ _ _ (by ring) (by ring)) i, fun i => by simp [ssotDipolar]⟩

theorem fcfQuad2_times {k : ℝ} {t t' : Tens} (c0 c2 c4 : ℝ) (h : Times k t t') : Times k (fcfQuad2 c0 c2 c4 t) (fcfQuad2 c0 c2 c4 t') :=
  ⟨by simp only [fcfQuad2, h.R0]; ring, fun i => by simp only [fcfQuad2, h.R2]; ring, fun i => by simp only [fcfQuad2, h.R4]; ring⟩

theorem addSite_times (W : WC) (T : TC) (four : Bool) (k : ℝ) (hk : k ≠ 0) (B0 : ℝ) (t t' : Tens) (h : Times k t t') (s : Site) (mf mi : ℝ) :
    Times k (addSite W T four B0 t s mf mi) (addSite W T four (k * B0) t' { s with Cq := k * s.Cq } mf mi) := by
  have hl : ∀ y : Site, y.gamma = s.gamma → larmor (k * B0) y = k * larmor B0 s := by
    intro y hy
    unfold larmor
    rw [hy]
    ring
  have h1 : Times k (shieldingPart W T B0 s mf mi) (shieldingPart W T (k * B0) { s with Cq := k * s.Cq } mf mi) := by
    unfold shieldingPart
    refine Times.fcf_same _ (ssotShielding_times W T k _ _ _ _ _ _ ?_ ?_)
    · rw [hl { s with Cq := k * s.Cq } rfl]
      simp only
      ring
    · rw [hl { s with Cq := k * s.Cq } rfl]
      simp only
      ring
  have h2 : Times k (quad1Part W T s mf mi) (quad1Part W T { s with Cq := k * s.Cq } mf mi) := by
    unfold quad1Part
    exact Times.fcf_same _ (ssotQuad1_times W T _ k _ _ _)
  have h3 : Times k (quad2Part W T B0 s mf mi) (quad2Part W T (k * B0) { s with Cq := k * s.Cq } mf mi) := by
    unfold quad2Part
    refine fcfQuad2_times _ _ _ (ssotQuad2_times W T _ _ _ _ _ _ k _ ?_)
    simp only [vq_mul, hl { s with Cq := k * s.Cq } rfl]
    rw [show k * vq (s.n / 2) s.Cq * (k * vq (s.n / 2) s.Cq) = k * (k * (vq (s.n / 2) s.Cq * vq (s.n / 2) s.Cq)) by ring,
      show k * larmor B0 s * 1e6 = k * (larmor B0 s * 1e6) by ring, mul_div_mul_left _ _ hk]
    ring
  unfold addSite
  simp only
  split_ifs
  · exact h
  · exact h.add h1
  · exact (h.add h1).add h2 |>.add h3
  · exact (h.add h1).add h2

theorem couplingPart_times (W : WC) (T : TC) (k : ℝ) (mi mf : List ℝ) (q : Coupling) :
    Times k (couplingPart W T mi mf q) (couplingPart W T mi mf { q with J := k * q.J, zeta := k * q.zeta, D := k * q.D }) := by
  unfold couplingPart jPart dipolarPart
  exact (Times.fcf_same _ (ssotJ_times W T k _ _ _ _)).add (Times.fcf_same _ (ssotDipolar_times W k _ _))

theorem packed_times (n0 : ℕ) (k : ℝ) (s : Site) :
    packed n0 { s with Cq := k * s.Cq } = { packed n0 s with Cq := k * (packed n0 s).Cq } := by
  unfold packed
  split_ifs
  · rfl
  · simp

theorem quantum_sites (ss ss' : List Site) (h : ss'.map Site.n = ss.map Site.n) (x : List ℕ) : Spec.quantum ss' x = Spec.quantum ss x := by
  rw [← qnum_cast, ← qnum_cast, h]

theorem list_sum_mul (k : ℝ) (l : List Coupling) (f g : Coupling → ℝ) (u : Coupling → Coupling) (h : ∀ q, g (u q) = k * f q) :
    ((l.map u).map g).sum = k * (l.map f).sum := by
  rw [List.map_map, ← List.sum_map_mul_left]
  congr 1
  exact List.map_congr_left fun q _ => h q

theorem list_sum_mul' (k : ℂ) (l : List Coupling) (f g : Coupling → ℂ) (u : Coupling → Coupling) (h : ∀ q, g (u q) = k * f q) :
    ((l.map u).map g).sum = k * (l.map f).sum := by
  rw [List.map_map, ← List.sum_map_mul_left]
  congr 1
  exact List.map_congr_left fun q _ => h q

theorem stretched_spins (k : ℝ) (s : Run.Sys Phys (List Trans.Tr)) :
    (Spec.stretched k s).phys.sites.map Site.n = s.phys.sites.map Site.n := by
  unfold Spec.stretched
  simp only [List.map_map]
  exact List.map_congr_left fun _ _ => rfl

theorem lineTens_stretched (W : WC) (T : TC) (lib : Library) (c : String) (central : Bool) (B0 k : ℝ) (hk : k ≠ 0)
    (s : Run.Sys Phys (List Trans.Tr)) (x : List ℕ × List ℕ) (hx : Spec.Observed c central s.isotopes s.phys.sites x) :
    Times k (lineTens W T lib c B0 s.phys x) (lineTens W T lib c (k * B0) (Spec.stretched k s).phys x) := by
  obtain ⟨j, i, y, -, e2, e3, e4, -⟩ := hx.step
  have a := lineTens_mover W T lib c B0 s.phys x j i y e2 e3 e4
  have a' := lineTens_mover W T lib c (k * B0) (Spec.stretched k s).phys x j i { y with Cq := k * y.Cq }
    (by unfold Spec.stretched; simp only [List.getElem?_map, e2, Option.map_some]) e3 e4
  have hm : Times k (moverPart W T (lib.twoI c) B0 y i) (moverPart W T (lib.twoI c) (k * B0) { y with Cq := k * y.Cq } i) := by
    unfold moverPart
    rw [packed_times]
    exact addSite_times W T _ k hk B0 _ _ (Times.zero k) _ _ _
  rw [quantum_sites _ _ (stretched_spins k s), quantum_sites _ _ (stretched_spins k s)] at a'
  have hkp := fun q => couplingPart_times W T k (Spec.quantum s.phys.sites x.1) (Spec.quantum s.phys.sites x.2) q
  refine ⟨?_, fun m => ?_, fun m => ?_⟩
  · rw [a.1, a'.1, hm.R0, mul_add]
    congr 1
    exact list_sum_mul k _ _ _ _ fun q => (hkp q).R0
  · rw [a.2.1, a'.2.1, hm.R2, mul_add]
    congr 1
    exact list_sum_mul' k _ _ _ _ fun q => (hkp q).R2 m
  · rw [a.2.2, a'.2.2, hm.R4]

theorem shifted_spins (c : String) (δ : ℝ) (s : Run.Sys Phys (List Trans.Tr)) (hl : s.isotopes.length = s.phys.sites.length) :
    (Spec.shifted c δ s).phys.sites.map Site.n = s.phys.sites.map Site.n := by
  unfold Spec.shifted
  simp only
  apply List.ext_getElem?
  intro k
  rw [List.getElem?_map, List.getElem?_map, List.getElem?_zipWith]
  by_cases hk : k < s.phys.sites.length
  · rw [List.getElem?_eq_getElem hk, List.getElem?_eq_getElem (by omega : k < s.isotopes.length)]
    simp only [Option.map_some]
    congr 1
    split_ifs <;> rfl
  · rw [List.getElem?_eq_none (by omega : s.phys.sites.length ≤ k), List.getElem?_eq_none (by omega : s.isotopes.length ≤ k)]

theorem given_length {lib : Library} {s : Run.Sys Phys (List Trans.Tr)} (h : Spec.Given lib s) : s.isotopes.length = s.phys.sites.length := by
  simpa using (congrArg List.length h.spins).symm

theorem given_of_spins {lib : Library} {s s' : Run.Sys Phys (List Trans.Tr)} (h : Spec.Given lib s) (h1 : s'.explicit = s.explicit)
    (h2 : s'.isotopes = s.isotopes) (h3 : s'.phys.sites.map Site.n = s.phys.sites.map Site.n)
    (h4 : ∀ k' ∈ s'.phys.couplings, ∃ k ∈ s.phys.couplings, k'.A = k.A ∧ k'.X = k.X) : Spec.Given lib s' := by
  have hlen : s'.phys.sites.length = s.phys.sites.length := by simpa using congrArg List.length h3
  refine ⟨by rw [h1, h.explicit], by rw [h3, h2, h.spins], fun x hx => ?_, fun k' hk' => ?_⟩
  · have : x.n ∈ s'.phys.sites.map Site.n := List.mem_map.mpr ⟨x, hx, rfl⟩
    rw [h3] at this
    obtain ⟨y, hy, e⟩ := List.mem_map.mp this
    rw [← e]
    exact h.sites y hy
  · obtain ⟨k, hk, e1, e2⟩ := h4 k' hk'
    rw [e1, e2, hlen]
    exact h.couplings k hk

/-- Moved components. -/
theorem lineTens_shifted (W : WC) (T : TC) (lib : Library) (c : String) (central : Bool) (B0 δ : ℝ)
    (s : Run.Sys Phys (List Trans.Tr)) (hs : Spec.Given lib s) (hg : Spec.Tuned lib c s) (x : List ℕ × List ℕ)
    (hx : Spec.Observed c central s.isotopes s.phys.sites x) :
    (lineTens W T lib c B0 (Spec.shifted c δ s).phys x).R0 = (lineTens W T lib c B0 s.phys x).R0 + δ * B0 * lib.gamma c ∧
      (∀ j, (lineTens W T lib c B0 (Spec.shifted c δ s).phys x).R2 j = (lineTens W T lib c B0 s.phys x).R2 j) ∧
      ∀ j, (lineTens W T lib c B0 (Spec.shifted c δ s).phys x).R4 j = (lineTens W T lib c B0 s.phys x).R4 j := by
  obtain ⟨j, i, y, e1, e2, e3, e4, -⟩ := hx.step
  have a := lineTens_mover W T lib c B0 s.phys x j i y e2 e3 e4
  have a' := lineTens_mover W T lib c B0 (Spec.shifted c δ s).phys x j i { y with iso := y.iso + δ }
    (by unfold Spec.shifted; simp only [List.getElem?_zipWith, e1, e2, if_true]) e3 e4
  have hsp := shifted_spins c δ s (given_length hs)
  rw [quantum_sites _ _ hsp, quantum_sites _ _ hsp] at a'
  have hγ := hg j y e1 e2
  have hpk : packed (lib.twoI c) { y with iso := y.iso + δ } = { packed (lib.twoI c) y with iso := (packed (lib.twoI c) y).iso + δ } := by
    unfold packed
    split_ifs <;> rfl
  have hpg : (packed (lib.twoI c) y).gamma = lib.gamma c := by
    rw [← hγ]
    unfold packed
    split_ifs <;> rfl
  have hstep : ((i : ℝ) - (y.n : ℝ) / 2) - (((i + 1 : ℕ) : ℝ) - (y.n : ℝ) / 2) = -1 := by
    push_cast
    ring
  have hne : ¬ (((i + 1 : ℕ) : ℝ) - (y.n : ℝ) / 2) = (i : ℝ) - (y.n : ℝ) / 2 := by
    intro h
    rw [h] at hstep
    norm_num at hstep
  have hm : (moverPart W T (lib.twoI c) B0 { y with iso := y.iso + δ } i).R0 = (moverPart W T (lib.twoI c) B0 y i).R0 + δ * B0 * lib.gamma c ∧
      (∀ j, (moverPart W T (lib.twoI c) B0 { y with iso := y.iso + δ } i).R2 j = (moverPart W T (lib.twoI c) B0 y i).R2 j) ∧
      ∀ j, (moverPart W T (lib.twoI c) B0 { y with iso := y.iso + δ } i).R4 j = (moverPart W T (lib.twoI c) B0 y i).R4 j := by
    unfold moverPart
    rw [hpk]
    generalize packed (lib.twoI c) y = z at hpg
    unfold addSite
    simp only [if_neg hne]
    have h0 : (shieldingPart W T B0 { z with iso := z.iso + δ } ((i : ℝ) - (y.n : ℝ) / 2) (((i + 1 : ℕ) : ℝ) - (y.n : ℝ) / 2)).R0
        = (shieldingPart W T B0 z ((i : ℝ) - (y.n : ℝ) / 2) (((i + 1 : ℕ) : ℝ) - (y.n : ℝ) / 2)).R0 + δ * B0 * lib.gamma c := by
      unfold shieldingPart fcf
      have hP : stfP ((i : ℝ) - (y.n : ℝ) / 2) (((i + 1 : ℕ) : ℝ) - (y.n : ℝ) / 2) = -1 := hstep
      rw [hP, if_neg (by norm_num), if_neg (by norm_num)]
      simp only [scaleT, ssotShielding, larmor, hpg]
      ring
    have h2 : (shieldingPart W T B0 { z with iso := z.iso + δ } ((i : ℝ) - (y.n : ℝ) / 2) (((i + 1 : ℕ) : ℝ) - (y.n : ℝ) / 2)).R2
        = (shieldingPart W T B0 z ((i : ℝ) - (y.n : ℝ) / 2) (((i + 1 : ℕ) : ℝ) - (y.n : ℝ) / 2)).R2 := by
      unfold shieldingPart fcf
      split_ifs <;> rfl
    have h4 : (shieldingPart W T B0 { z with iso := z.iso + δ } ((i : ℝ) - (y.n : ℝ) / 2) (((i + 1 : ℕ) : ℝ) - (y.n : ℝ) / 2)).R4
        = (shieldingPart W T B0 z ((i : ℝ) - (y.n : ℝ) / 2) (((i + 1 : ℕ) : ℝ) - (y.n : ℝ) / 2)).R4 := by
      unfold shieldingPart fcf
      split_ifs <;> rfl
    have q1 : quad1Part W T { z with iso := z.iso + δ } = quad1Part W T z := rfl
    have q2 : quad2Part W T B0 { z with iso := z.iso + δ } = quad2Part W T B0 z := rfl
    split_ifs
    · refine ⟨?_, fun j => ?_, fun j => ?_⟩ <;> simp only [addT]
      · rw [h0]; ring
      · rw [h2]
      · rw [h4]
    · rw [q1, q2]
      refine ⟨?_, fun j => ?_, fun j => ?_⟩ <;> simp only [addT]
      · rw [h0]; ring
      · rw [h2]
      · rw [h4]
    · rw [q1]
      refine ⟨?_, fun j => ?_, fun j => ?_⟩ <;> simp only [addT]
      · rw [h0]; ring
      · rw [h2]
      · rw [h4]
  refine ⟨?_, fun m => ?_, fun m => ?_⟩
  · rw [a.1, a'.1, hm.1]
    simp only [Spec.shifted]
    ring
  · rw [a.2.1, a'.2.1, hm.2.1]
    rfl
  · rw [a.2.2, a'.2.2, hm.2.2]

theorem offset_shifted (d : Meth.SDim) (q : ℚ) (pos : Bool) :
    Meth.normalizeOffset pos { d with ref := d.ref + q }
      = Meth.normalizeOffset pos d + (if pos then -q else q) * (1 / (d.sw / d.count)) := by
  unfold Meth.normalizeOffset Meth.refFactor
  cases pos
  · simp only [Bool.false_eq_true, if_false]
    ring
  · simp only [if_true]
    ring

theorem offset_stretched (d : Meth.SDim) (k : ℚ) (hk : k ≠ 0) (pos : Bool) :
    Meth.normalizeOffset pos { d with sw := k * d.sw, ref := k * d.ref } = Meth.normalizeOffset pos d := by
  unfold Meth.normalizeOffset
  simp only
  rw [show -(k * d.ref) * Meth.refFactor pos - k * d.sw / 2 = k * (-d.ref * Meth.refFactor pos - d.sw / 2) by ring,
    show k * d.sw / (d.count : ℚ) = k * (d.sw / d.count) by ring, one_div, one_div, mul_inv]
  have e : k * (-d.ref * Meth.refFactor pos - d.sw / 2) * (k⁻¹ * (d.sw / d.count)⁻¹)
      = k * k⁻¹ * ((-d.ref * Meth.refFactor pos - d.sw / 2) * (d.sw / d.count)⁻¹) := by ring
  rw [e, mul_inv_cancel₀ hk, one_mul, one_div (d.sw / (d.count : ℚ))]

/-! ## Properties -/

/-- **C102, partial.** Only the distance between the chemical shifts and the reference offset matters: with `δ` ppm added to the isotropic chemical
shifts of all sites of the observed isotope, and the corresponding frequency `q = δ B₀ |γ|` to the reference offset of the axis, every
spectrum after one pulse is the same point by point — at every integration density and on one octant or four, static or
spinning, with any number of workers and whatever the memory contained.  (The two runs need not agree in those last respects.)
Missing: lists of spin systems with equally many sites in another order of isotopes, for which it is false (C02). -/
theorem C102_translation_partial (W : WC) (T : TC) (lib : Library) (so so' : Trans.SetOrder) (c : String) (central : Bool)
    (hcen : central = true → lib.twoI c % 2 = 1) (B0 : ℝ) (r : Rotor) (d : Meth.SDim) [NeZero d.count] (nOct : ℕ)
    (junk junk' : ℕ → Phys → List Trans.Tr → ℕ → ℕ → ℂ) (nt : ℕ) (l : List (Run.Sys Phys (List Trans.Tr)))
    (hl : ∀ s ∈ l, Spec.Given lib s) (hg : ∀ s ∈ l, Spec.Tuned lib c s)
    (hu : ∀ a ∈ l, ∀ b ∈ l, c ∈ a.isotopes → c ∈ b.isotopes → a.isotopes.length = b.isotopes.length → a.isotopes = b.isotopes)
    (δ : ℝ) (q : ℚ) (hq : (q : ℝ) = δ * B0 * |lib.gamma c|) (cpu cpu' nJobs nJobs' : ℤ) (hJ : 1 ≤ nJobs) (hJ' : 1 ≤ nJobs') :
    haveI : NeZero ({ d with ref := d.ref + q } : Meth.SDim).count := inferInstanceAs (NeZero d.count)
    ∃ v : ZMod d.count → ℝ, Run.run (pulseEnv W T lib so c central B0 r d nOct junk nt) cpu false l nJobs = .ok [.spec v] ∧
      Run.run (pulseEnv W T lib so' c central B0 r { d with ref := d.ref + q } nOct junk' nt) cpu' false (l.map (Spec.shifted c δ)) nJobs'
        = .ok [.spec v] := by
  have main := pulse_runs W T lib so so' c central hcen B0 B0 r r d d.sw (d.ref + q) nOct junk junk' nt 1 l (l.map (Spec.shifted c δ)) hl
    (by
      intro s' hs'
      obtain ⟨s, hs, rfl⟩ := List.mem_map.mp hs'
      exact given_of_spins (hl s hs) rfl rfl (shifted_spins c δ s (given_length (hl s hs))) fun k hk => ⟨k, hk, rfl, rfl⟩)
    hu
    (by
      intro a ha b hb
      obtain ⟨a', ha', rfl⟩ := List.mem_map.mp ha
      obtain ⟨b', hb', rfl⟩ := List.mem_map.mp hb
      exact hu a' ha' b' hb')
    (by
      rw [List.forall₂_map_right_iff, List.forall₂_same]
      intro s hs
      have hsp := shifted_spins c δ s (given_length (hl s hs))
      refine ⟨Iff.rfl, fun _ => by rw [one_mul]; rfl, id, fun _ => observed_same c central _ _ _ hsp, fun x hx jk jk' => ?_⟩
      unfold pulseWrites
      simp only [id]
      rw [rotorWrites_edge, rotorWrites_edge]
      have hpos := r.seen.pos
      obtain ⟨m0, m2, m4⟩ := lineTens_shifted W T lib c central B0 δ s (hl s hs) (hg s hs) x hx
      refine spectrum_scaled W _ nt nOct _ _ _ _ _ _ _ _ _ 1 one_ne_zero (Or.inr (one_mul _).symm) (one_mul _) _ _ _ (startRows_alike _ _ _ _) _ _
        ?_ (fun i => by rw [m2]; simp) (fun _ i => by rw [m4]; simp)
      have e := offset_shifted d q (decide (0 < lib.gamma c))
      rw [show ({ count := d.count, sw := d.sw, ref := d.ref + q, origin := d.origin } : Meth.SDim) = { d with ref := d.ref + q } from rfl, e, m0]
      push_cast
      by_cases hpos : 0 < lib.gamma c
      · rw [abs_of_pos hpos] at hq
        rw [decide_eq_true hpos, if_pos rfl, ← hq]
        push_cast
        ring
      · rw [abs_of_nonpos (not_lt.mp hpos)] at hq
        rw [decide_eq_false hpos, if_neg (by simp), show δ * B0 * lib.gamma c = -(q : ℝ) by rw [hq]; ring]
        ring)
    cpu cpu' nJobs nJobs' hJ hJ'
  obtain ⟨v, h1, h2⟩ := main
  rw [one_smul] at h2
  exact ⟨v, h1, h2⟩

/-- **C104, partial.** The unit of frequency does not matter: with the field, the quadrupole, J and dipolar couplings, the rotor frequency, and the
width and the offset of the axis multiplied by a positive number `k`, every spectrum after one pulse has the same shape, point by point;
the intensities, which are per Hz, are divided by `k`.  The threshold of 1 mHz at which a rotor counts as static is an exception.
Missing: lists of spin systems with equally many sites in another order of isotopes (C02). -/
theorem C104_scaling_partial (W : WC) (T : TC) (lib : Library) (so so' : Trans.SetOrder) (c : String) (central : Bool)
    (hcen : central = true → lib.twoI c % 2 = 1) (B0 : ℝ) (r : Rotor) (d : Meth.SDim) [NeZero d.count] (nOct : ℕ)
    (junk junk' : ℕ → Phys → List Trans.Tr → ℕ → ℕ → ℂ) (nt : ℕ) (l : List (Run.Sys Phys (List Trans.Tr)))
    (hl : ∀ s ∈ l, Spec.Given lib s)
    (hu : ∀ a ∈ l, ∀ b ∈ l, c ∈ a.isotopes → c ∈ b.isotopes → a.isotopes.length = b.isotopes.length → a.isotopes = b.isotopes)
    (k : ℚ) (hk : 0 < k) (hr : (k : ℝ) * r.freq < 1 / 1000 ↔ r.freq < 1 / 1000) (cpu cpu' nJobs nJobs' : ℤ) (hJ : 1 ≤ nJobs) (hJ' : 1 ≤ nJobs') :
    haveI : NeZero ({ d with sw := k * d.sw, ref := k * d.ref } : Meth.SDim).count := inferInstanceAs (NeZero d.count)
    ∃ v : ZMod d.count → ℝ, Run.run (pulseEnv W T lib so c central B0 r d nOct junk nt) cpu false l nJobs = .ok [.spec v] ∧
      Run.run (pulseEnv W T lib so' c central (k * B0) { r with freq := k * r.freq } { d with sw := k * d.sw, ref := k * d.ref } nOct junk' nt)
        cpu' false (l.map (Spec.stretched k)) nJobs' = .ok [.spec ((1 / k) • v)] := by
  have hkR : (k : ℝ) ≠ 0 := by exact_mod_cast hk.ne'
  refine pulse_runs W T lib so so' c central hcen B0 (k * B0) r { r with freq := k * r.freq } d (k * d.sw) (k * d.ref) nOct junk junk' nt (1 / k) l
    (l.map (Spec.stretched k)) hl
    (by
      intro s' hs'
      obtain ⟨s, hs, rfl⟩ := List.mem_map.mp hs'
      refine given_of_spins (hl s hs) rfl rfl (stretched_spins k s) fun q hq => ?_
      obtain ⟨p, hp, rfl⟩ := List.mem_map.mp hq
      exact ⟨p, hp, rfl, rfl⟩)
    hu
    (by
      intro a ha b hb
      obtain ⟨a', ha', rfl⟩ := List.mem_map.mp ha
      obtain ⟨b', hb', rfl⟩ := List.mem_map.mp hb
      exact hu a' ha' b' hb')
    (by
      rw [List.forall₂_map_right_iff, List.forall₂_same]
      intro s hs
      refine ⟨Iff.rfl, fun _ => ?_, id, fun _ => observed_same c central _ _ _ (stretched_spins k s), fun x hx jk jk' => ?_⟩
      · rw [show k * d.sw / (d.count : ℚ) = k * (d.sw / d.count) by ring, div_mul_eq_div_div_swap]
        change s.abundance / (d.sw / d.count) / k = _
        ring
      · have hN : ({ r with freq := k * r.freq } : Rotor).seen = { r.seen with freq := if r.freq < 1 / 1000 then r.seen.freq else k * r.seen.freq } := by
          unfold Rotor.seen
          simp only
          by_cases h : r.freq < 1 / 1000
          · simp only [if_pos (hr.mpr h), if_pos h]
          · simp only [if_neg (fun h' => h (hr.mp h')), if_neg h]
        unfold pulseWrites
        simp only [id]
        rw [rotorWrites_edge, rotorWrites_edge, hN]
        simp only
        have hpos := r.seen.pos
        have m := lineTens_stretched W T lib c central B0 k hkR s x hx
        refine spectrum_scaled W _ nt nOct _ _ _ _ _ _ _ _ _ (k : ℝ) hkR ?_ ?_ _ _ _ (startRows_alike _ _ _ _) _ _ ?_ m.R2 (fun _ => m.R4)
        · by_cases h : r.freq < 1 / 1000
          · left
            unfold Rotor.seen
            rw [if_pos h]
          · right
            rw [if_neg h]
        · push_cast
          rw [show (k : ℝ) * (d.sw : ℝ) / (d.count : ℝ) = k * (d.sw / d.count) by ring, one_div, one_div, mul_inv, ← mul_assoc,
            mul_inv_cancel₀ hkR, one_mul]
        · have e := offset_stretched d k hk.ne' (decide (0 < lib.gamma c))
          rw [show ({ count := d.count, sw := k * d.sw, ref := k * d.ref, origin := d.origin } : Meth.SDim)
            = { d with sw := k * d.sw, ref := k * d.ref } from rfl, e, m.R0]
          congr 1
          push_cast
          rw [show (k : ℝ) * (d.sw : ℝ) / (d.count : ℝ) = k * (d.sw / d.count) by ring, one_div, one_div, mul_inv]
          rw [show (k : ℝ) * (lineTens W T lib c B0 s.phys x).R0 * ((k : ℝ)⁻¹ * ((d.sw : ℝ) / d.count)⁻¹)
            = (k : ℝ) * (k : ℝ)⁻¹ * ((lineTens W T lib c B0 s.phys x).R0 * ((d.sw : ℝ) / d.count)⁻¹) by ring, mul_inv_cancel₀ hkR, one_mul])
    cpu cpu' nJobs nJobs' hJ hJ'

/-! ### An example -/

/-- A library with a quadrupolar nucleus and the proton. -/
noncomputable def pairLib : Library := ⟨fun c => if c = "27Al" then 5 else 1, fun c => if c = "27Al" then 11.1 else 42.6⟩

/-- A site of aluminium next to a proton. -/
noncomputable def pairSys (a : ℚ) : Run.Sys Phys (List Trans.Tr) :=
  ⟨["27Al", "1H"], none, a, ⟨[⟨5, 11.1, 60, 20, 0.3, ⟨0, 0, 0⟩, 3000000, 0.1, ⟨0.2, 0.4, 0⟩⟩, ⟨1, 42.6, 2, 5, 0, ⟨0, 0, 0⟩, 0, 0, ⟨0, 0, 0⟩⟩],
    [⟨0, 1, 20, 0, 0, ⟨0, 0, 0⟩, -3000, ⟨0.3, 0.5, 0⟩⟩]⟩⟩

/-- The sample spins at 12.5 kHz at the magic angle. -/
noncomputable def pairRotor : Rotor := ⟨64, inferInstance, 12500, 0.9553⟩

theorem pair_given (a : ℚ) : Spec.Given pairLib (pairSys a) := by
  refine ⟨rfl, by simp [pairSys, pairLib], fun x hx => ?_, fun k hk => ?_⟩
  · simp only [pairSys, List.mem_cons, List.not_mem_nil, or_false] at hx
    rcases hx with rfl | rfl <;> norm_num
  · simp only [pairSys, List.mem_cons, List.not_mem_nil, or_false] at hk
    subst hk
    simp [pairSys]

theorem pair_tuned (a : ℚ) : Spec.Tuned pairLib "27Al" (pairSys a) := by
  intro k x h1 h2
  match k with
  | 0 =>
    have : x = ⟨5, 11.1, 60, 20, 0.3, ⟨0, 0, 0⟩, 3000000, 0.1, ⟨0.2, 0.4, 0⟩⟩ := by simpa [pairSys] using h2.symm
    rw [this]
    simp [pairLib]
  | 1 => simp [pairSys] at h1
  | k + 2 => simp [pairSys] at h1

theorem pair_list (P : Run.Sys Phys (List Trans.Tr) → Prop) (h : ∀ a, P (pairSys a)) : ∀ s ∈ [pairSys 70, pairSys 30], P s := by
  intro s hs
  simp only [List.mem_cons, List.not_mem_nil, or_false] at hs
  rcases hs with rfl | rfl <;> exact h _

theorem pair_uniform (c : String) : ∀ a ∈ [pairSys 70, pairSys 30], ∀ b ∈ [pairSys 70, pairSys 30], c ∈ a.isotopes → c ∈ b.isotopes →
    a.isotopes.length = b.isotopes.length → a.isotopes = b.isotopes := by
  intro a ha b hb _ _ _
  simp only [List.mem_cons, List.not_mem_nil, or_false] at ha hb
  rcases ha with rfl | rfl <;> rcases hb with rfl | rfl <;> rfl

/-- Ten ppm of 27Al at 9.4 T are 1043.4 Hz. -/
example (W : WC) (T : TC) (so : Trans.SetOrder) (junk : ℕ → Phys → List Trans.Tr → ℕ → ℕ → ℂ) (cpu : ℤ) :
    haveI : NeZero (Meth.SDim.count ⟨512, 25000, 100, none⟩) := ⟨by norm_num⟩
    haveI : NeZero (Meth.SDim.count ⟨512, 25000, 100 + 1043.4, none⟩) := ⟨by norm_num⟩
    ∃ v : ZMod 512 → ℝ, Run.run (pulseEnv W T pairLib so "27Al" true 9.4 pairRotor ⟨512, 25000, 100, none⟩ 4 junk 70) cpu false
        [pairSys 70, pairSys 30] 1 = .ok [.spec v] ∧
      Run.run (pulseEnv W T pairLib so "27Al" true 9.4 pairRotor ⟨512, 25000, 100 + 1043.4, none⟩ 4 junk 70) cpu false
        [Spec.shifted "27Al" 10 (pairSys 70), Spec.shifted "27Al" 10 (pairSys 30)] 4 = .ok [.spec v] := by
  have : NeZero (Meth.SDim.count ⟨512, 25000, 100, none⟩) := ⟨by norm_num⟩
  exact C102_translation_partial W T pairLib so so "27Al" true (by simp [pairLib]) 9.4 pairRotor ⟨512, 25000, 100, none⟩ 4 junk junk 70
    [pairSys 70, pairSys 30] (pair_list _ pair_given) (pair_list _ pair_tuned) (pair_uniform _) 10 1043.4
    (by simp [pairLib]; rw [abs_of_pos (by norm_num)]; norm_num) cpu cpu 1 4 le_rfl (by norm_num)

/-- The shifted spin system. -/
example : ((Spec.shifted "27Al" 10 (pairSys 70)).phys.sites.map Site.iso) = [60 + 10, 2] := by
  simp [Spec.shifted, pairSys]

/-- Twice the field, twice the couplings, twice the rotor frequency. -/
example (W : WC) (T : TC) (so : Trans.SetOrder) (junk : ℕ → Phys → List Trans.Tr → ℕ → ℕ → ℂ) (cpu : ℤ) :
    haveI : NeZero (Meth.SDim.count ⟨512, 25000, 100, none⟩) := ⟨by norm_num⟩
    haveI : NeZero (Meth.SDim.count ⟨512, 2 * 25000, 2 * 100, none⟩) := ⟨by norm_num⟩
    ∃ v : ZMod 512 → ℝ, Run.run (pulseEnv W T pairLib so "27Al" true 9.4 pairRotor ⟨512, 25000, 100, none⟩ 4 junk 70) cpu false
        [pairSys 70, pairSys 30] 1 = .ok [.spec v] ∧
      Run.run (pulseEnv W T pairLib so "27Al" true ((2 : ℚ) * 9.4) { pairRotor with freq := (2 : ℚ) * pairRotor.freq }
        ⟨512, 2 * 25000, 2 * 100, none⟩ 4 junk 70) cpu false
        [Spec.stretched (2 : ℚ) (pairSys 70), Spec.stretched (2 : ℚ) (pairSys 30)] 4 = .ok [.spec ((1 / 2 : ℚ) • v)] := by
  have : NeZero (Meth.SDim.count ⟨512, 25000, 100, none⟩) := ⟨by norm_num⟩
  exact C104_scaling_partial W T pairLib so so "27Al" true (by simp [pairLib]) 9.4 pairRotor ⟨512, 25000, 100, none⟩ 4 junk junk 70
    [pairSys 70, pairSys 30] (pair_list _ pair_given) (pair_uniform _) 2 (by norm_num) (by norm_num [pairRotor]) cpu cpu 1 4 le_rfl (by norm_num)

end MRS.Freq
