import Verif.Freq.Isotropic
import Verif.Freq.Aligned

/-!
# Satellite-transition methods on the magic angle — property C98

`ST1_VAS` and `ST2_VAS` (methods/stvas.py) from the query to the map, with the models of `Isotropic.lean` (C90).  The matrix comes from the
table of stvas.py, of which only some entries remove the fourth rank (C17).
-/

namespace MRS.Freq

open Complex

/-! ## Mirror images -/

theorem fcf_R0 (x : ℝ) (t : Tens) : (fcf x t).R0 = t.R0 * x := by
  unfold fcf
  split_ifs with h
  · rw [h, mul_zero]
    rfl
  · rfl

/-- The isotropic parts of a transition and of its mirror image. -/
theorem mirror_R0 (B0 : ℝ) (s : Site) (mf mi : ℝ) :
    (addSite WC.exact TC.exact true B0 zeroT s (-mi) (-mf)).R0 = (addSite WC.exact TC.exact true B0 zeroT s mf mi).R0 := by
  unfold addSite
  by_cases h : mi = mf
  · rw [if_pos (by rw [h]), if_pos h]
  · rw [if_neg (by intro h'; exact h (neg_injective h').symm), if_neg h]
    by_cases hn : s.n = 1
    · simp only [hn, if_true, addT, shieldingPart, fcf_R0, stfP]
      ring
    · simp only [hn, if_false, if_true, addT, shieldingPart, quad1Part, quad2Part, fcf_R0, stfP, stfD, fcfQuad2, stfCL, stfF, ssotQuad1]
      ring

theorem single_components (B0 : ℝ) (s : Site) (i f : ℕ) :
    components WC.exact TC.exact true B0 [s] [] (Spec.quantum [s] [i]) (Spec.quantum [s] [f])
      = addSite WC.exact TC.exact true B0 zeroT s ((f : ℝ) - s.n / 2) ((i : ℝ) - s.n / 2) := by
  simp [components, addSites, Spec.quantum]

/-! ## C98 -/

/-- One pathway of a satellite method: states `x` of the first transition, central transition in the second dimension. -/
theorem st_path (s : Site) (n : ℕ) (hn : n % 2 = 1) (h3 : 3 ≤ n) (hodd : s.n % 2 = 1) (hle : n ≤ s.n) :
    packQ [([-((n : ℚ) / 2 - 1)], [-((n : ℚ) / 2)]), ([1/2], [-1/2])]
        = pack [s] [([(s.n - n) / 2 + 1], [(s.n - n) / 2]), ([(s.n - 1) / 2 + 1], [(s.n - 1) / 2])] ∧
    packQ [([(n : ℚ) / 2], [(n : ℚ) / 2 - 1]), ([1/2], [-1/2])]
        = pack [s] [([(s.n - n) / 2 + n], [(s.n - n) / 2 + n - 1]), ([(s.n - 1) / 2 + 1], [(s.n - 1) / 2])] := by
  obtain ⟨u, hu⟩ : ∃ u : ℕ, s.n = n + 2 * u := ⟨(s.n - n) / 2, by omega⟩
  obtain ⟨v, hv⟩ : ∃ v : ℕ, s.n = 1 + 2 * v := ⟨(s.n - 1) / 2, by omega⟩
  have e1 : (s.n - n) / 2 = u := by omega
  have e2 : (s.n - 1) / 2 = v := by omega
  rw [e1, e2]
  have r1 : (s.n : ℝ) = n + 2 * u := by exact_mod_cast hu
  have r2 : (s.n : ℝ) = 1 + 2 * v := by exact_mod_cast hv
  have r3 : ((u + n - 1 : ℕ) : ℝ) = u + n - 1 := by
    rw [Nat.cast_sub (by omega)]
    push_cast
    ring
  constructor
  · unfold packQ pack
    simp only [List.flatMap_cons, List.flatMap_nil, List.append_nil, Spec.quantum, List.zipWith_cons_cons, List.zipWith_nil_right,
      List.map_cons, List.map_nil, List.cons_append, List.nil_append, List.cons.injEq, and_true]
    push_cast
    refine ⟨?_, ?_, ?_, ?_⟩ <;> linarith
  · unfold packQ pack
    simp only [List.flatMap_cons, List.flatMap_nil, List.append_nil, Spec.quantum, List.zipWith_cons_cons, List.zipWith_nil_right,
      List.map_cons, List.map_nil, List.cons_append, List.nil_append, List.cons.injEq, and_true, r3]
    push_cast
    refine ⟨?_, ?_, ?_, ?_⟩ <;> linarith

theorem cancels_single (a0 a1 : ℝ) (s : Site) (i f i' f' : ℕ)
    (h : a0 * Trans.STFc4 ((f : ℝ) - s.n / 2) ((i : ℝ) - s.n / 2) (s.n / 2)
      + a1 * Trans.STFc4 ((f' : ℝ) - s.n / 2) ((i' : ℝ) - s.n / 2) (s.n / 2) = 0) :
    Spec.Cancels a0 a1 [s] ([i], [f]) ([i'], [f']) := by
  intro k s' hk _
  have hk0 : k = 0 := by
    have := (List.getElem?_eq_some_iff.mp hk).1
    simpa using this
  subst hk0
  simp only [List.getElem?_cons_zero, Option.some.injEq] at hk
  subst hk
  simpa using h

/-- The states of the two satellite transitions of order `n`. -/
def Spec.lowSatellite (twoI n : ℕ) : List ℕ × List ℕ := ([(twoI - n) / 2 + 1], [(twoI - n) / 2])

/-- The satellite transition on the other side. -/
def Spec.highSatellite (twoI n : ℕ) : List ℕ × List ℕ := ([(twoI - n) / 2 + n], [(twoI - n) / 2 + n - 1])

/-- The two pathways of a satellite method on one site, for the spins its table is right for. -/
theorem st_pathway (so : Trans.SetOrder) (c : String) (s : Site) (name : String) (n : ℕ)
    (hname : (name, n) ∈ Trans.stSymmetry) (hgood : (n = 3 ∧ s.n = 3) ∨ (n = 5 ∧ (s.n = 5 ∨ s.n = 7)))
    (dims : List (List Trans.Query)) (a : List ℚ) (h : Trans.stUpdate name s.n none = .ok (dims, a)) (x x' y : List ℕ × List ℕ)
    (hxd : x = Spec.lowSatellite s.n n) (hxd' : x' = Spec.highSatellite s.n n) (hyd : y = Spec.centralStates s.n) :
    ∃ (p p' : List Trans.Tr) (a0 a1 : ℚ),
      Trans.transitionPathways so [⟨c, s.n⟩] [c] dims = .ok [p, p'] ∧ (p.length = 2 ∧ p'.length = 2) ∧ a = [a0, a1, 0, 1] ∧ a0 + a1 = 1 ∧
      (packQ p = pack [s] [x, y] ∧ packQ p' = pack [s] [x', y]) ∧ (Spec.IsState [s] x.1 ∧ Spec.IsState [s] x.2) ∧
      (Spec.IsState [s] x'.1 ∧ Spec.IsState [s] x'.2) ∧ (Spec.IsState [s] y.1 ∧ Spec.IsState [s] y.2) ∧
      (Spec.Cancels (a0 : ℝ) (a1 : ℝ) [s] x y ∧ Spec.Cancels (a0 : ℝ) (a1 : ℝ) [s] x' y) ∧ 1 < s.n ∧
      (s.Upright → ∀ e : Event, 0 < e.νr → Spec.isotropic e [s] [] x' = Spec.isotropic e [s] [] x) := by
  obtain ⟨g1, g2, g3⟩ := (Trans.C16_st_domain name n hname s.n).mp ⟨_, h⟩
  obtain ⟨paths, hp, -, hr, a0, a1, ha, hsum⟩ := Trans.C17_st_shear_partial so c s.n name n hname dims a h
  have hpath := Trans.C16_st_vas so c s.n g1 name n hname g2 none dims a h
  rw [hp] at hpath
  injection hpath with hpath
  have hr := hr.mpr hgood
  obtain ⟨hn1, hn3⟩ : n % 2 = 1 ∧ 3 ≤ n := by omega
  obtain ⟨k1, k2⟩ := st_path s n hn1 hn3 g1 g2
  obtain ⟨u, hu⟩ : ∃ u : ℕ, s.n = n + 2 * u := ⟨(s.n - n) / 2, by omega⟩
  obtain ⟨v, hv⟩ : ∃ v : ℕ, s.n = 1 + 2 * v := ⟨(s.n - 1) / 2, by omega⟩
  have e1 : (s.n - n) / 2 = u := by omega
  have e2 : (s.n - 1) / 2 = v := by omega
  rw [e1, e2] at k1 k2
  have r1 : (s.n : ℝ) = n + 2 * u := by exact_mod_cast hu
  have r2 : (s.n : ℝ) = 1 + 2 * v := by exact_mod_cast hv
  have r3 : ((u + n - 1 : ℕ) : ℝ) = u + n - 1 := by
    rw [Nat.cast_sub (by omega)]
    push_cast
    ring
  have hstate : ∀ j, j ≤ s.n → Spec.IsState [s] [j] := fun j hj => .cons hj .nil
  -- the two satellites have one isotropic frequency
  have hiso : s.Upright → ∀ e : Event, 0 < e.νr → Spec.isotropic e [s] [] ([u + n], [u + n - 1]) = Spec.isotropic e [s] [] ([u + 1], [u]) := by
    intro hs e h0
    have hsite : ∀ s' ∈ [s], s'.Upright ∧ 1 ≤ s'.n := by
      intro s' hs'
      rw [List.mem_singleton] at hs'
      subst hs'
      exact ⟨hs, by omega⟩
    rw [isotropic_eq _ h0 [s] [] _ (hstate _ (by omega)) (hstate _ (by omega)) hsite (by simp),
      isotropic_eq _ h0 [s] [] _ (hstate _ (by omega)) (hstate _ (by omega)) hsite (by simp)]
    simp only [single_components]
    rw [← mirror_R0]
    congr 2
    · push_cast
      linarith
    · rw [r3]
      push_cast
      linarith
  have hr1 := hr _ (by rw [hpath]; exact List.mem_cons_self)
  have hr2 := hr _ (by rw [hpath]; exact List.mem_cons_of_mem _ (List.mem_singleton.mpr rfl))
  rw [ha] at hr1 hr2
  unfold Trans.Spec.rank4 at hr1 hr2
  simp only at hr1 hr2
  push_cast at hr1 hr2
  have c0 : ((v : ℝ) - s.n / 2) = -1 / 2 ∧ ((v + 1 : ℕ) : ℝ) - s.n / 2 = 1 / 2 := by
    push_cast
    constructor <;> linarith
  have hc1 : Spec.Cancels (a0 : ℝ) (a1 : ℝ) [s] ([u + 1], [u]) ([v + 1], [v]) := by
    apply cancels_single
    rw [c0.1, c0.2, show (u : ℝ) - s.n / 2 = -((n : ℝ) / 2) by linarith,
      show ((u + 1 : ℕ) : ℝ) - s.n / 2 = -((n : ℝ) / 2 - 1) by push_cast; linarith]
    exact hr1
  have hc2 : Spec.Cancels (a0 : ℝ) (a1 : ℝ) [s] ([u + n], [u + n - 1]) ([v + 1], [v]) := by
    apply cancels_single
    rw [c0.1, c0.2, r3, show (u : ℝ) + n - 1 - s.n / 2 = (n : ℝ) / 2 - 1 by linarith,
      show ((u + n : ℕ) : ℝ) - s.n / 2 = (n : ℝ) / 2 by push_cast; linarith]
    exact hr2
  have hx : x = ([u + 1], [u]) := by rw [hxd, Spec.lowSatellite, e1]
  have hx' : x' = ([u + n], [u + n - 1]) := by rw [hxd', Spec.highSatellite, e1]
  have hy : y = ([v + 1], [v]) := by rw [hyd, Spec.centralStates, e2]
  subst hx hx' hy
  refine ⟨_, _, a0, a1, by rw [hp, hpath], ⟨rfl, rfl⟩, ha, hsum, ⟨k1, k2⟩, ⟨hstate _ (by omega), hstate _ (by omega)⟩,
    ⟨hstate _ (by omega), hstate _ (by omega)⟩, ⟨hstate _ (by omega), hstate _ (by omega)⟩, ⟨hc1, hc2⟩, by omega, hiso⟩

/-- **C98, partial.** `ST1_VAS` on spin 3/2 and `ST2_VAS` on spin 5/2 and 7/2, with the affine matrix that they come with, on the magic
angle and for any site: the method has two pathways, and the maps of both are ridges at one and the same frequency `X` of the first
dimension, the weighted sum of the isotropic frequencies of the satellite and of the central transition.

Missing: the other spins, for which the property fails (`C98_counterexample`); tilts by negative angles (C73), the tabulated decimals, a rotor
angle that is a decimal approximation of the magic angle. -/
theorem C98_st_partial (so : Trans.SetOrder) (c : String) (s : Site) (hs : s.Upright) (name : String) (n : ℕ)
    (hname : (name, n) ∈ Trans.stSymmetry) (hgood : (n = 3 ∧ s.n = 3) ∨ (n = 5 ∧ (s.n = 5 ∨ s.n = 7)))
    (dims : List (List Trans.Query)) (a : List ℚ) (h : Trans.stUpdate name s.n none = .ok (dims, a))
    (nt nOct nSide : ℕ) (hn : 1 ≤ nt) (hO : nOct = 1 ∨ nOct = 4) (junk : ℕ → ℕ → ℂ)
    (B0 θ ν0 ν1 : ℝ) (h0 : 0 < ν0) (h1 : 0 < ν1) (hθ : 3 * Real.cos θ ^ 2 = 1) (inc : ℝ × ℝ)
    (hi : 0 < inc.1 ∧ 0 < inc.2) (d : Dimension × Dimension)
    (hd : d.1.inv = 1 / inc.1 ∧ d.1.events = [⟨B0, 1, θ, ν0⟩]) (he : d.2.inv = 1 / inc.2 ∧ d.2.events = [⟨B0, 1, θ, ν1⟩])
    (F G : Frame) (hG : 1 ≤ G.count) :
    ∃ (paths : List (List Trans.Tr)) (a0 a1 : ℚ) (y : List ℕ × List ℕ) (X : ℕ → ℕ → ℝ),
      Trans.transitionPathways so [⟨c, s.n⟩] [c] dims = .ok paths ∧ paths.length = 2 ∧ a = [a0, a1, 0, 1] ∧ a0 + a1 = 1 ∧
      ∀ path ∈ paths, ∃ (x : List ℕ × List ℕ) (ν : ℕ → ℝ) (w : Bin.Writes ℝ),
        packQ path = pack [s] [x, y] ∧ Spec.Lists nt nOct ν ⟨B0, 1, θ, ν1⟩ [s] [] y ∧
        map2D WC.exact TC.exact true nt nOct nSide [s] [] inc (a.map fun (q : ℚ) => (q : ℝ)) d F G (startRows true junk nt)
          (packQ path) = .ok w ∧
        (∀ i k, X i k = F.norm + ((a0 : ℝ) * (Spec.isotropic ⟨B0, 1, θ, ν0⟩ [s] [] x + F.vr i)
          + (a1 : ℝ) * (Spec.isotropic ⟨B0, 1, θ, ν1⟩ [s] [] y + G.vr k)) / inc.1) ∧
        Spec.Ridge nt nOct nSide inc.2 F G X (fun k => G.norm + (Spec.isotropic ⟨B0, 1, θ, ν1⟩ [s] [] y + G.vr k) / inc.2) ν w := by
  obtain ⟨p, p', a0, a1, hp, -, ha, hsum, ⟨k1, k2⟩, sx, sx', sy, ⟨hc1, hc2⟩, hlt, hiso⟩ :=
    st_pathway so c s name n hname hgood dims a h _ _ _ rfl rfl rfl
  set x := Spec.lowSatellite s.n n
  set x' := Spec.highSatellite s.n n
  set y := Spec.centralStates s.n
  have hsite : ∀ s' ∈ [s], s'.Upright ∧ 1 ≤ s'.n := by
    intro s' hs'
    rw [List.mem_singleton] at hs'
    subst hs'
    exact ⟨hs, by omega⟩
  refine ⟨[p, p'], a0, a1, y, fun i k => F.norm + ((a0 : ℝ) * (Spec.isotropic ⟨B0, 1, θ, ν0⟩ [s] [] x + F.vr i)
          + (a1 : ℝ) * (Spec.isotropic ⟨B0, 1, θ, ν1⟩ [s] [] y + G.vr k)) / inc.1, hp, rfl, ha, hsum, ?_⟩
  have key : ∀ (path : List Trans.Tr) (z : List ℕ × List ℕ), packQ path = pack [s] [z, y] → Spec.IsState [s] z.1 → Spec.IsState [s] z.2 →
      Spec.Cancels (a0 : ℝ) (a1 : ℝ) [s] z y →
      Spec.isotropic ⟨B0, 1, θ, ν0⟩ [s] [] z = Spec.isotropic ⟨B0, 1, θ, ν0⟩ [s] [] x →
      ∃ (z : List ℕ × List ℕ) (ν : ℕ → ℝ) (w : Bin.Writes ℝ),
        packQ path = pack [s] [z, y] ∧ Spec.Lists nt nOct ν ⟨B0, 1, θ, ν1⟩ [s] [] y ∧
        map2D WC.exact TC.exact true nt nOct nSide [s] [] inc (a.map fun (q : ℚ) => (q : ℝ)) d F G (startRows true junk nt)
          (packQ path) = .ok w ∧
        (∀ i k, F.norm + ((a0 : ℝ) * (Spec.isotropic ⟨B0, 1, θ, ν0⟩ [s] [] x + F.vr i)
          + (a1 : ℝ) * (Spec.isotropic ⟨B0, 1, θ, ν1⟩ [s] [] y + G.vr k)) / inc.1
          = F.norm + ((a0 : ℝ) * (Spec.isotropic ⟨B0, 1, θ, ν0⟩ [s] [] z + F.vr i)
          + (a1 : ℝ) * (Spec.isotropic ⟨B0, 1, θ, ν1⟩ [s] [] y + G.vr k)) / inc.1) ∧
        Spec.Ridge nt nOct nSide inc.2 F G (fun i k => F.norm + ((a0 : ℝ) * (Spec.isotropic ⟨B0, 1, θ, ν0⟩ [s] [] x + F.vr i)
          + (a1 : ℝ) * (Spec.isotropic ⟨B0, 1, θ, ν1⟩ [s] [] y + G.vr k)) / inc.1)
          (fun k => G.norm + (Spec.isotropic ⟨B0, 1, θ, ν1⟩ [s] [] y + G.vr k) / inc.2) ν w := by
    intro path z hx hx1 hx2 hcan hxi
    obtain ⟨ν, w, hl, hm, hR⟩ := C90_ridge_partial nt nOct nSide hn hO junk a0 a1 B0 θ ν0 ν1 h0 h1 hθ inc hi d hd he F G hG
      [s] [] z y ⟨hx1, hx2⟩ sy hsite (by simp) hcan _ _ (fun _ _ => rfl) (fun _ => rfl)
    refine ⟨z, ν, w, hx, hl, ?_, fun i k => by rw [hxi], ?_⟩
    · rw [hx, ha]
      simpa using hm
    · rw [hxi] at hR
      exact hR
  intro path hmem
  rcases List.mem_cons.mp hmem with rfl | hmem
  · exact key _ _ k1 sx.1 sx.2 hc1 rfl
  · rw [List.mem_singleton] at hmem
    subst hmem
    exact key _ _ k2 sx'.1 sx'.2 hc2 (hiso hs _ h0)

/-- Frequencies of a site along the axis of its quadrupole coupling. -/
theorem pole_rank4 (R : ℕ → ℂ) : halfRotation WC.exact 4 1 0 1 R 4 = R 4 := by
  unfold halfRotation
  simp only [Finset.sum_range_succ, Finset.sum_range_zero, Nat.reduceMul, Nat.reduceAdd, wHalf, if_true, phasedHalf,
    wigner4jHalf, wigner4jHalfT, Nat.reduceLeDiff, Nat.reduceSub, Nat.reduceEqDiff, if_false]
  norm_num

/-- A site with nothing but an axial quadrupole coupling, along the axes of the crystal. -/
noncomputable def axialSite (twoI : ℕ) (Cq : ℝ) : Site := ⟨twoI, 1, 0, 0, 0, ⟨0, 0, 0⟩, Cq, 0, ⟨0, 0, 0⟩⟩

theorem axialSite_facts (twoI : ℕ) (h : 2 ≤ twoI) (Cq B0 : ℝ) (hC : Cq ≠ 0) (hB : B0 ≠ 0) :
    ∃ z : ℝ, z ≠ 0 ∧ site4 B0 (axialSite twoI Cq) 4 = z := by
  have hn : (2 : ℝ) ≤ twoI := by exact_mod_cast h
  refine ⟨TC.exact.k4c * (vq (twoI / 2) Cq * vq (twoI / 2) Cq / (larmor B0 (axialSite twoI Cq) * 1e6)), ?_, ?_⟩
  · have hv : vq (twoI / 2) Cq ≠ 0 := by
      unfold vq
      refine div_ne_zero (mul_ne_zero (by norm_num) hC) (mul_ne_zero ?_ ?_)
      · linarith
      · linarith
    have hl : larmor B0 (axialSite twoI Cq) ≠ 0 := by
      unfold larmor axialSite
      simpa using hB
    have hk : TC.exact.k4c ≠ 0 := by
      unfold TC.exact
      positivity
    exact mul_ne_zero hk (div_ne_zero (mul_ne_zero hv hv) (mul_ne_zero hl (by norm_num)))
  · unfold site4 ssotQuad2
    rw [if_neg (by unfold axialSite; simp; omega)]
    simp only [axialSite, toFrame_zero, pas4]
    simp

theorem spinning_pole (B0 θ νr fr : ℝ) (hν : 0 < νr) (hθ : 3 * Real.cos θ ^ 2 = 1) (s : Site) (hs : s.Upright ∧ 1 ≤ s.n) (i f : ℕ)
    (h1 : i ≤ s.n) (h2 : f ≤ s.n) :
    Spec.spinning ⟨B0, fr, θ, νr⟩ [s] [] ([i], [f]) (0, 0) - Spec.isotropic ⟨B0, fr, θ, νr⟩ [s] [] ([i], [f])
      = -(7 / 18) * (Trans.STFc4 ((f : ℝ) - s.n / 2) ((i : ℝ) - s.n / 2) (s.n / 2) * site4 B0 s 4).re := by
  have hsite : ∀ s' ∈ [s], s'.Upright ∧ 1 ≤ s'.n := by
    intro s' hs'
    rw [List.mem_singleton] at hs'
    subst hs'
    exact hs
  rw [isotropic_eq ⟨B0, fr, θ, νr⟩ hν [s] [] ([i], [f]) (.cons h1 .nil) (.cons h2 .nil) hsite (by simp)]
  unfold Spec.spinning
  simp only
  rw [← C75_average_partial true B0 0 0 θ νr hν [s] [] [i] [f] (.cons h1 .nil) (.cons h2 .nil) hsite (by simp), single_components]
  unfold localFreq
  rw [magic_rank2 _ _ hθ]
  simp only [Real.cos_zero, Real.sin_zero, Complex.ofReal_zero, zero_mul, Complex.exp_zero, add_zero, if_true, pole_rank4, addSite_R4, zeroT, zero_add,
    add_sub_cancel_left]
  have hd : dm0Vector4 WC.exact (Real.cos θ) (Real.sin θ) 4 = -(7 / 18) := by
    have hc : 1 - Real.sin θ * Real.sin θ = 1 / 3 := by
      have := Real.sin_sq_add_cos_sq θ
      nlinarith
    unfold dm0Vector4
    simp only [hc]
    norm_num
  rw [hd]

/-- **C98, where the code disagrees.** For every other spin that the methods accept, and every site with nothing but an axial quadrupole
coupling: on the magic angle the first dimension of a pathway is not isotropic, the orientation along the axis is not at the mean. -/
theorem C98_counterexample (so : Trans.SetOrder) (c : String) (twoI : ℕ) (name : String) (n : ℕ)
    (hname : (name, n) ∈ Trans.stSymmetry) (hbad : ¬ ((n = 3 ∧ twoI = 3) ∨ (n = 5 ∧ (twoI = 5 ∨ twoI = 7))))
    (dims : List (List Trans.Query)) (a : List ℚ) (h : Trans.stUpdate name twoI none = .ok (dims, a))
    (Cq B0 θ ν0 ν1 : ℝ) (hC : Cq ≠ 0) (hB : B0 ≠ 0) (h0 : 0 < ν0) (h1 : 0 < ν1) (hθ : 3 * Real.cos θ ^ 2 = 1) :
    ∃ (paths : List (List Trans.Tr)) (path : List Trans.Tr) (a0 a1 : ℚ) (x y : List ℕ × List ℕ),
      Trans.transitionPathways so [⟨c, twoI⟩] [c] dims = .ok paths ∧ path ∈ paths ∧ a = [a0, a1, 0, 1] ∧
      packQ path = pack [axialSite twoI Cq] [x, y] ∧
      (a0 : ℝ) * Spec.spinning ⟨B0, 1, θ, ν0⟩ [axialSite twoI Cq] [] x (0, 0) + a1 * Spec.spinning ⟨B0, 1, θ, ν1⟩ [axialSite twoI Cq] [] y (0, 0)
        ≠ a0 * Spec.isotropic ⟨B0, 1, θ, ν0⟩ [axialSite twoI Cq] [] x + a1 * Spec.isotropic ⟨B0, 1, θ, ν1⟩ [axialSite twoI Cq] [] y := by
  obtain ⟨g1, g2, g3⟩ := (Trans.C16_st_domain name n hname twoI).mp ⟨_, h⟩
  obtain ⟨paths, hp, -, hr, a0, a1, ha, hsum⟩ := Trans.C17_st_shear_partial so c twoI name n hname dims a h
  have hpath := Trans.C16_st_vas so c twoI g1 name n hname g2 none dims a h
  rw [hp] at hpath
  injection hpath with hpath
  obtain ⟨hn1, hn3⟩ : n % 2 = 1 ∧ 3 ≤ n := by
    simp only [Trans.stSymmetry, List.mem_cons, Prod.mk.injEq, List.not_mem_nil, or_false] at hname
    omega
  have hne : ∃ p ∈ paths, Trans.Spec.rank4 a ((twoI : ℝ) / 2) p ≠ 0 := by
    by_contra hcon
    push Not at hcon
    exact hbad (hr.mp hcon)
  obtain ⟨path, hmem, hne⟩ := hne
  set s := axialSite twoI Cq with hsdef
  have hsn : s.n = twoI := rfl
  have hup : s.Upright ∧ 1 ≤ s.n := by
    refine ⟨?_, by omega⟩
    unfold Site.Upright
    simp [hsdef, axialSite]
  obtain ⟨z, hz, hz4⟩ := axialSite_facts twoI (by omega) Cq B0 hC hB
  obtain ⟨k1, k2⟩ := st_path s n hn1 hn3 (by omega) (by omega)
  obtain ⟨u, hu⟩ : ∃ u : ℕ, s.n = n + 2 * u := ⟨(s.n - n) / 2, by omega⟩
  obtain ⟨v, hv⟩ : ∃ v : ℕ, s.n = 1 + 2 * v := ⟨(s.n - 1) / 2, by omega⟩
  have e1 : (s.n - n) / 2 = u := by omega
  have e2 : (s.n - 1) / 2 = v := by omega
  rw [e1, e2] at k1 k2
  have r1 : (s.n : ℝ) = n + 2 * u := by exact_mod_cast hu
  have r2 : (s.n : ℝ) = 1 + 2 * v := by exact_mod_cast hv
  have r3 : ((u + n - 1 : ℕ) : ℝ) = u + n - 1 := by
    rw [Nat.cast_sub (by omega)]
    push_cast
    ring
  have c0 : ((v : ℝ) - s.n / 2) = -1 / 2 ∧ ((v + 1 : ℕ) : ℝ) - s.n / 2 = 1 / 2 := by
    push_cast
    constructor <;> linarith
  rw [ha] at hne
  have key : ∀ i f : ℕ, i ≤ s.n → f ≤ s.n → (a0 : ℝ) * Trans.STFc4 ((f : ℝ) - s.n / 2) ((i : ℝ) - s.n / 2) (s.n / 2)
      + a1 * Trans.STFc4 (-1 / 2) (1 / 2) (s.n / 2) ≠ 0 →
      (a0 : ℝ) * Spec.spinning ⟨B0, 1, θ, ν0⟩ [s] [] ([i], [f]) (0, 0) + a1 * Spec.spinning ⟨B0, 1, θ, ν1⟩ [s] [] ([v + 1], [v]) (0, 0)
        ≠ a0 * Spec.isotropic ⟨B0, 1, θ, ν0⟩ [s] [] ([i], [f]) + a1 * Spec.isotropic ⟨B0, 1, θ, ν1⟩ [s] [] ([v + 1], [v]) := by
    intro i f hi hf hne heq
    have d0 := spinning_pole B0 θ ν0 1 h0 hθ s hup i f hi hf
    have d1 := spinning_pole B0 θ ν1 1 h1 hθ s hup (v + 1) v (by omega) (by omega)
    rw [c0.1, c0.2] at d1
    rw [hz4, ← Complex.ofReal_mul, Complex.ofReal_re] at d0 d1
    have : (-(7 / 18) * z) * ((a0 : ℝ) * Trans.STFc4 ((f : ℝ) - s.n / 2) ((i : ℝ) - s.n / 2) (s.n / 2)
      + a1 * Trans.STFc4 (-1 / 2) (1 / 2) (s.n / 2)) = 0 := by
      linear_combination heq - (a0 : ℝ) * d0 - (a1 : ℝ) * d1
    rcases mul_eq_zero.mp this with h' | h'
    · exact hz (by linarith)
    · exact hne h'
  have hmem0 := hmem
  rw [hpath] at hmem
  rcases List.mem_cons.mp hmem with rfl | hmem
  · refine ⟨paths, _, a0, a1, _, _, hp, hmem0, ha, k1, key _ _ (by omega) (by omega) ?_⟩
    unfold Trans.Spec.rank4 at hne
    simp only at hne
    push_cast at hne
    rw [show (u : ℝ) - s.n / 2 = -((n : ℝ) / 2) by linarith, show ((u + 1 : ℕ) : ℝ) - s.n / 2 = -((n : ℝ) / 2 - 1) by push_cast; linarith]
    exact hne
  · rw [List.mem_singleton] at hmem
    subst hmem
    refine ⟨paths, _, a0, a1, _, _, hp, hmem0, ha, k2, key _ _ (by omega) (by omega) ?_⟩
    unfold Trans.Spec.rank4 at hne
    simp only at hne
    push_cast at hne
    rw [r3, show (u : ℝ) + n - 1 - s.n / 2 = (n : ℝ) / 2 - 1 by linarith, show ((u + n : ℕ) : ℝ) - s.n / 2 = (n : ℝ) / 2 by push_cast; linarith]
    exact hne

/-- Cases that meet the hypotheses: rubidium for `C98_st_partial`, aluminium for `C98_counterexample`. -/
example : (⟨3, 13.9, -27, 110, 0, ⟨0, 0, 0⟩, 2000000, 0.4, ⟨0, 0.3, 0⟩⟩ : Site).Upright ∧ ("ST1_VAS", 3) ∈ Trans.stSymmetry ∧
    (∃ r, Trans.stUpdate "ST1_VAS" 3 none = .ok r) ∧ ∃ r, Trans.stUpdate "ST1_VAS" 5 none = .ok r := by
  refine ⟨by unfold Site.Upright; norm_num, by decide, ?_, ?_⟩
  · exact (Trans.C16_st_domain "ST1_VAS" 3 (by decide) 3).mpr (by decide)
  · exact (Trans.C16_st_domain "ST1_VAS" 3 (by decide) 5).mpr (by decide)

end MRS.Freq
