import Verif.Freq.Core
import Verif.Freq.PowderPattern
import Verif.Bin.Ridge
import Verif.Trans.Shear

/-!
# Isotropic dimensions under magic-angle spinning — property C90

The chain from `__mrsimulator_core` (C89) over the affine matrix (base_model.pyx:180-192,
frequency_averaging.c:131-150 and 181-199, C34) to the interpolation of the map (C58), for methods of two dimensions
with one event each, such as `ThreeQ_VAS` (C15, C17).
-/

namespace MRS.Freq

open Complex ComplexConjugate

/-! ## Model -/

/-- frequency_averaging.c:131-150 for one orientation, the matrix as prepared in base_model.pyx:181-192
(`Meth.prepareAffine` always gives four numbers for two increments). -/
noncomputable def sheared (m : List ℝ) (x y : ℝ) : ℝ × ℝ :=
  match Meth.applyAffine m x y with
  | .ok z => z
  | .error _ => (0, 0)

/-- What the averaging reads of a dimension and is not written by the loop over the events:
`normalize_offset` and `count`, `plan->vr_freq`, and the product of the amplitudes of the events. -/
structure Frame where
  norm : ℝ
  count : ℕ
  vr : ℕ → ℝ
  amp : ℕ → ℝ

/-- simulation.c:100-165 for two dimensions: the loops, then `two_dimensional_averaging`
(frequency_averaging.c:108-230).  `inc` are the increments, `a` the affine matrix of the method. -/
noncomputable def map2D (W : WC) (T : TC) (four : Bool) (nt nOct nSide : ℕ) (ss : List Site) (ks : List Coupling)
    (inc : ℝ × ℝ) (a : List ℝ) (d : Dimension × Dimension) (F G : Frame) (P : ℕ → ℕ → ℂ) (path : List ℝ) :
    Py (Bin.Writes ℝ) :=
  match Meth.prepareAffine [inc.1, inc.2] a with
  | .error x => .error x
  | .ok m =>
    match coreLoop W T four nt nOct ss ks [d.1, d.2] P path with
    | .error x => .error x
    | .ok ([D, E], _) =>
      Bin.averaging2D (fun n => m.getD n 0)
        ⟨D.r0, D.inv, F.norm, F.count, F.vr, fun q => (sheared m (D.freq q) (E.freq q)).1, F.amp⟩
        ⟨E.r0, E.inv, G.norm, G.count, G.vr, fun q => (sheared m (D.freq q) (E.freq q)).2, G.amp⟩ nt nOct nSide
    | .ok _ => .error .undefinedBehaviour

/-! ## Specification -/

/-- The frequency of a transition of a crystallite, averaged over the turn of the rotor. -/
noncomputable def Spec.spinning (e : Event) (ss : List Site) (ks : List Coupling) (x : List ℕ × List ℕ) (p : ℝ × ℝ) : ℝ :=
  Spec.average e.νr (Spec.momentary true e.B0 p.1 p.2 e.θ e.νr ss ks x.1 x.2)

/-- Its mean over all orientations. -/
noncomputable def Spec.isotropic (e : Event) (ss : List Site) (ks : List Coupling) (x : List ℕ × List ℕ) : ℝ :=
  Spec.sphereMean (Spec.spinning e ss ks x)

/-- The fourth-rank parts of the two transitions cancel, site by site, with the weights `a0` and `a1`. -/
def Spec.Cancels (a0 a1 : ℝ) (ss : List Site) (x y : List ℕ × List ℕ) : Prop :=
  ∀ (k : ℕ) (s : Site), ss[k]? = some s → 2 ≤ s.n →
    a0 * Trans.STFc4 ((x.2.getD k 0 : ℝ) - s.n / 2) ((x.1.getD k 0 : ℝ) - s.n / 2) (s.n / 2)
      + a1 * Trans.STFc4 ((y.2.getD k 0 : ℝ) - s.n / 2) ((y.1.getD k 0 : ℝ) - s.n / 2) (s.n / 2) = 0

/-- A map that is sharp in the first dimension: entry `(r, col)` is a sum, over the pairs of sidebands `(i, k)` in the window and
the octants, of the line at `X i k` in bin `r` of the first dimension times the shape of the frequencies `ν` in bin `col` of the
second. -/
def Spec.Ridge (nt nOct nSide : ℕ) (inc : ℝ) (F G : Frame) (X : ℕ → ℕ → ℝ) (Y : ℕ → ℝ) (ν : ℕ → ℝ) (w : Bin.Writes ℝ) : Prop :=
  ∀ (r col : ℤ), 0 ≤ col → col < G.count →
    Bin.at_ (r * G.count + col) w = ∑ i ∈ Finset.range nSide, ∑ k ∈ Finset.range nSide,
      if Bin.inWindow (X i k) F.count && Bin.inWindow (Y k) G.count then
        ∑ j ∈ Finset.range nOct, Bin.at_ r (Bin.deltaFn (X i k) F.count 1) *
          Bin.rowShape nt (fun q => G.norm + (ν (j * Bin.nPts nt + q) + G.vr k) / inc)
            (fun q => F.amp (i * (nOct * Bin.nPts nt) + j * Bin.nPts nt + q)
              * G.amp (k * (nOct * Bin.nPts nt) + j * Bin.nPts nt + q)) G.count col
      else 0

/-- `ν` lists the frequencies of a transition over the orientations of the grid. -/
def Spec.Lists (nt nOct : ℕ) (ν : ℕ → ℝ) (e : Event) (ss : List Site) (ks : List Coupling) (x : List ℕ × List ℕ) : Prop :=
  ∀ (j q : ℕ) (p : ℕ × ℕ) (α β : ℝ), j < nOct → (Bin.Spec.grid nt)[q]? = some p →
    Spec.Points α β (Spec.quarter j (Bin.Spec.point nt p)) → ν (j * Bin.nPts nt + q) = Spec.spinning e ss ks x (α, β)

/-! ## The fourth rank -/

theorem stfCL_four (mf mi spin : ℝ) : (stfCL TC.exact mf mi spin).2.2 = Trans.STFc4 mf mi spin := by
  unfold stfCL Trans.STFc4 stfF Trans.STFf stfP Trans.STFp TC.exact
  simp only
  ring

theorem STFc4_self (m spin : ℝ) : Trans.STFc4 m m spin = 0 := by
  rw [Trans.STFc4_eq]
  ring

/-- The fourth-rank components of a site but for the transition function. -/
noncomputable def site4 (B0 : ℝ) (s : Site) (i : ℕ) : ℂ :=
  if s.n = 1 then 0 else (ssotQuad2 WC.exact TC.exact (s.n / 2) (larmor B0 s * 1e6) s.Cq s.etaQ s.Θq).R4 i

theorem fcf_R4 (x : ℝ) (t : Tens) (h : ∀ i, t.R4 i = 0) (i : ℕ) : (fcf x t).R4 i = 0 := by
  unfold fcf
  split_ifs
  · rfl
  · simp [scaleT, h]

theorem addSite_R4 (B0 : ℝ) (t : Tens) (s : Site) (mf mi : ℝ) (i : ℕ) :
    (addSite WC.exact TC.exact true B0 t s mf mi).R4 i = t.R4 i + Trans.STFc4 mf mi (s.n / 2) * site4 B0 s i := by
  have h1 : (shieldingPart WC.exact TC.exact B0 s mf mi).R4 i = 0 := fcf_R4 _ _ (fun _ => rfl) i
  have h2 : (quad1Part WC.exact TC.exact s mf mi).R4 i = 0 := fcf_R4 _ _ (fun _ => rfl) i
  unfold addSite
  by_cases hm : mi = mf
  · rw [if_pos hm, hm, STFc4_self]
    simp
  · rw [if_neg hm]
    simp only
    unfold site4
    by_cases hn : s.n = 1
    · rw [if_pos hn, if_pos hn]
      simp only [addT, h1]
      ring
    · rw [if_neg hn, if_neg hn, if_pos trivial]
      simp only [addT, h1, h2]
      unfold quad2Part
      simp only [fcfQuad2, stfCL_four]
      ring

/-- Two transitions of which the fourth-rank parts cancel. -/
theorem addSites_cancel (B0 a0 a1 : ℝ) (ss : List Site) (x y : List ℕ × List ℕ) (hs : ∀ s ∈ ss, 1 ≤ s.n)
    (h1 : Spec.IsState ss x.1) (h2 : Spec.IsState ss x.2) (h3 : Spec.IsState ss y.1) (h4 : Spec.IsState ss y.2)
    (hc : Spec.Cancels a0 a1 ss x y) (t u : Tens) (i : ℕ) :
    (a0 : ℂ) * (addSites WC.exact TC.exact true B0 t ss (Spec.quantum ss x.1) (Spec.quantum ss x.2)).R4 i
        + a1 * (addSites WC.exact TC.exact true B0 u ss (Spec.quantum ss y.1) (Spec.quantum ss y.2)).R4 i
      = a0 * t.R4 i + a1 * u.R4 i := by
  induction ss generalizing x y t u with
  | nil => simp [addSites]
  | cons s ss ih =>
    obtain ⟨xi, xf⟩ := x
    obtain ⟨yi, yf⟩ := y
    simp only at h1 h2 h3 h4 ⊢
    cases h1 with
    | @cons _ p _ xi e1 h1 =>
    cases h2 with
    | @cons _ q _ xf e2 h2 =>
    cases h3 with
    | @cons _ p' _ yi e3 h3 =>
    cases h4 with
    | @cons _ q' _ yf e4 h4 =>
    simp only [Spec.quantum, List.zipWith_cons_cons, addSites]
    have := ih (xi, xf) (yi, yf) (fun s' h => hs s' (by simp [h])) h1 h2 h3 h4
      (fun k s' hk hn => by simpa using hc (k + 1) s' (by simpa using hk) hn)
      (addSite WC.exact TC.exact true B0 t s ((q : ℝ) - s.n / 2) ((p : ℝ) - s.n / 2))
      (addSite WC.exact TC.exact true B0 u s ((q' : ℝ) - s.n / 2) ((p' : ℝ) - s.n / 2))
    simp only [Spec.quantum] at this
    rw [this, addSite_R4, addSite_R4]
    by_cases hn : s.n = 1
    · simp [site4, hn]
    · have h0 := hc 0 s (by simp) (by have := hs s (by simp); omega)
      simp only [List.getD_cons_zero] at h0
      have h0' : (a0 : ℂ) * (Trans.STFc4 ((q : ℝ) - s.n / 2) ((p : ℝ) - s.n / 2) (s.n / 2) : ℝ)
        + a1 * (Trans.STFc4 ((q' : ℝ) - s.n / 2) ((p' : ℝ) - s.n / 2) (s.n / 2) : ℝ) = 0 := by
        rw [← Complex.ofReal_mul, ← Complex.ofReal_mul, ← Complex.ofReal_add, h0, Complex.ofReal_zero]
      linear_combination (site4 B0 s i) * h0'

theorem addCouplings_R4 (mi mf : List ℝ) (ks : List Coupling) (t : Tens) (i : ℕ) :
    (ks.foldl (fun t k => addCoupling WC.exact TC.exact t mi mf k) t).R4 i = t.R4 i := by
  induction ks generalizing t with
  | nil => rfl
  | cons k ks ih =>
    rw [List.foldl_cons, ih]
    unfold addCoupling
    simp only [addT, jPart, dipolarPart]
    rw [fcf_R4 _ _ (fun _ => rfl), fcf_R4 _ _ (fun _ => rfl)]
    ring

theorem components_cancel (B0 a0 a1 : ℝ) (ss : List Site) (ks : List Coupling) (x y : List ℕ × List ℕ)
    (hs : ∀ s ∈ ss, 1 ≤ s.n)
    (h1 : Spec.IsState ss x.1) (h2 : Spec.IsState ss x.2) (h3 : Spec.IsState ss y.1) (h4 : Spec.IsState ss y.2)
    (hc : Spec.Cancels a0 a1 ss x y) (i : ℕ) :
    (a0 : ℂ) * (components WC.exact TC.exact true B0 ss ks (Spec.quantum ss x.1) (Spec.quantum ss x.2)).R4 i
        + a1 * (components WC.exact TC.exact true B0 ss ks (Spec.quantum ss y.1) (Spec.quantum ss y.2)).R4 i = 0 := by
  unfold components
  rw [addCouplings_R4, addCouplings_R4, addSites_cancel B0 a0 a1 ss x y hs h1 h2 h3 h4 hc]
  simp [zeroT]

theorem magic_rank2 (c s : ℝ) (h : 3 * c ^ 2 = 1) : dm0Vector2 WC.exact c s 2 = 0 := by
  rw [dm0_2 _ _ _ 2 (by norm_num)]
  simp only [wigner2j]
  norm_num
  nlinarith

/-- On the magic angle, with fourth-rank parts that cancel, the weighted sum of the two frequencies is the weighted sum of
the isotropic ones. -/
theorem magic_sum (a0 a1 θ c s : ℝ) (e : ℂ) (t u : Tens) (hθ : 3 * Real.cos θ ^ 2 = 1)
    (h : ∀ i, (a0 : ℂ) * t.R4 i + a1 * u.R4 i = 0) :
    a0 * (localFreq WC.exact true c s e (Real.cos θ) (Real.sin θ) t - t.R0)
      + a1 * (localFreq WC.exact true c s e (Real.cos θ) (Real.sin θ) u - u.R0) = 0 := by
  unfold localFreq
  rw [magic_rank2 _ _ hθ]
  simp only [if_true, zero_mul, add_zero]
  have : a0 * (halfRotation WC.exact 4 c s e t.R4 4).re + a1 * (halfRotation WC.exact 4 c s e u.R4 4).re = 0 := by
    have h2 : halfRotation WC.exact 4 c s e (fun i => (a0 : ℂ) * t.R4 i + a1 * u.R4 i) 4 = 0 := by
      simp only [h]
      exact half_zero _ _ _ _ _ _
    rw [half_add _ _ _ _ _ (fun i => (a0 : ℂ) * t.R4 i) (fun i => (a1 : ℂ) * u.R4 i), half_smul, half_smul] at h2
    have h3 := congrArg Complex.re h2
    simpa using h3
  linear_combination dm0Vector4 WC.exact (Real.cos θ) (Real.sin θ) 4 * this

/-! ## C90 -/

theorem isotropic_eq (e : Event) (he : 0 < e.νr) (ss : List Site) (ks : List Coupling) (x : List ℕ × List ℕ)
    (h1 : Spec.IsState ss x.1) (h2 : Spec.IsState ss x.2) (hs : ∀ s ∈ ss, s.Upright ∧ 1 ≤ s.n)
    (hk : ∀ k ∈ ks, k.Upright ∧ k.A < ss.length ∧ k.X < ss.length) :
    Spec.isotropic e ss ks x
      = (components WC.exact TC.exact true e.B0 ss ks (Spec.quantum ss x.1) (Spec.quantum ss x.2)).R0 := by
  unfold Spec.isotropic
  rw [← dirFreq_mean WC.exact true (Real.cos e.θ) (Real.sin e.θ)]
  congr 1
  funext p
  exact (C75_average_partial true e.B0 p.1 p.2 e.θ e.νr he ss ks x.1 x.2 h1 h2 hs hk).symm

/-- **C90 (orientations), partial.** On the magic angle, for any spin system and any two transitions of which the fourth-rank
parts cancel with the weights `a0` and `a1`: the same weighted sum of their frequencies, each averaged over the turn of the
rotor, is the same for all orientations, namely the weighted sum of their means over the sphere. -/
theorem C90_orientations_partial (a0 a1 B0 θ ν0 ν1 f0 f1 : ℝ) (h0 : 0 < ν0) (h1 : 0 < ν1) (hθ : 3 * Real.cos θ ^ 2 = 1)
    (ss : List Site) (ks : List Coupling) (x y : List ℕ × List ℕ) (hx : Spec.IsState ss x.1 ∧ Spec.IsState ss x.2)
    (hy : Spec.IsState ss y.1 ∧ Spec.IsState ss y.2) (hs : ∀ s ∈ ss, s.Upright ∧ 1 ≤ s.n)
    (hk : ∀ k ∈ ks, k.Upright ∧ k.A < ss.length ∧ k.X < ss.length) (hc : Spec.Cancels a0 a1 ss x y) (p : ℝ × ℝ) :
    a0 * Spec.spinning ⟨B0, f0, θ, ν0⟩ ss ks x p + a1 * Spec.spinning ⟨B0, f1, θ, ν1⟩ ss ks y p
      = a0 * Spec.isotropic ⟨B0, f0, θ, ν0⟩ ss ks x + a1 * Spec.isotropic ⟨B0, f1, θ, ν1⟩ ss ks y := by
  rw [isotropic_eq _ h0 ss ks x hx.1 hx.2 hs hk, isotropic_eq _ h1 ss ks y hy.1 hy.2 hs hk]
  unfold Spec.spinning
  simp only
  rw [← C75_average_partial true B0 p.1 p.2 θ ν0 h0 ss ks x.1 x.2 hx.1 hx.2 hs hk,
    ← C75_average_partial true B0 p.1 p.2 θ ν1 h1 ss ks y.1 y.2 hy.1 hy.2 hs hk]
  have := magic_sum a0 a1 θ (Real.cos p.2) (Real.sin p.2) (exp (p.1 * I)) _ _ hθ
    (components_cancel B0 a0 a1 ss ks x y (fun s h => (hs s h).2) hx.1 hx.2 hy.1 hy.2 hc)
  linarith

/-- Every index of the array belongs to a direction. -/
theorem index_dir (nt nOct : ℕ) (hn : 1 ≤ nt) (a : ℕ) (ha : a < nOct * Bin.nPts nt) :
    ∃ j q p α β, a = j * Bin.nPts nt + q ∧ j < nOct ∧ (Bin.Spec.grid nt)[q]? = some p ∧
      Spec.Points α β (Spec.quarter j (Bin.Spec.point nt p)) := by
  have hpos : 0 < Bin.nPts nt := by
    rcases Nat.eq_zero_or_pos (Bin.nPts nt) with h | h
    · rw [h] at ha
      simp at ha
    · exact h
  have hq : a % Bin.nPts nt < (Bin.Spec.grid nt).length := by
    rw [Bin.grid_length]
    exact Nat.mod_lt _ hpos
  obtain ⟨α, β, h⟩ := points_exist (Spec.quarter (a / Bin.nPts nt) (Bin.Spec.point nt (Bin.Spec.grid nt)[a % Bin.nPts nt]))
    (by
      rw [quarter_len]
      exact Bin.len_pos nt hn _)
  exact ⟨a / Bin.nPts nt, a % Bin.nPts nt, _, α, β, (Nat.div_add_mod' a (Bin.nPts nt)).symm,
    (Nat.div_lt_iff_lt_mul hpos).mpr ha, List.getElem?_eq_getElem hq, h⟩

theorem passes_sum (t : ℕ → ℝ) (A B : Bin.Axis ℝ) (nSide nOct : ℕ) (g : ℕ × ℕ × ℕ → ℝ) :
    ((Bin.passes2D t A B nSide nOct).map g).sum
      = ∑ i ∈ Finset.range nSide, ∑ k ∈ Finset.range nSide,
          if Bin.pass2D t A B i k then ∑ j ∈ Finset.range nOct, g (i, k, j) else 0 := by
  have h : ∀ (n : ℕ) (f : ℕ → List (ℕ × ℕ × ℕ)),
      (((List.range n).flatMap f).map g).sum = ∑ i ∈ Finset.range n, ((f i).map g).sum := by
    intro n f
    rw [show ∑ i ∈ Finset.range n, ((f i).map g).sum = ((List.range n).map fun i => ((f i).map g).sum).sum from rfl]
    induction List.range n with
    | nil => rfl
    | cons i l ih => rw [List.flatMap_cons, List.map_append, List.sum_append, ih, List.map_cons, List.sum_cons]
  unfold Bin.passes2D
  rw [h]
  refine Finset.sum_congr rfl fun i _ => ?_
  rw [h]
  refine Finset.sum_congr rfl fun k _ => ?_
  split_ifs
  · rw [List.map_map]
    rfl
  · rfl

theorem shear_value (a0 a1 i0 i1 x y : ℝ) :
    Meth.prepareAffine [i0, i1] [a0, a1, 0, 1] = .ok [a0 * (i0 / i0), a1 * (i1 / i0), 0, i1 / i1] ∧
    sheared [a0 * (i0 / i0), a1 * (i1 / i0), 0, i1 / i1] x y
      = (a0 * (i0 / i0) * x + a1 * (i1 / i0) * y, i1 / i1 * y) := by
  constructor
  · simp [Meth.prepareAffine]
  · unfold sheared Meth.applyAffine
    simp only [ne_eq, not_true_eq_false, if_false]
    congr 1
    · by_cases h0 : a0 * (i0 / i0) = 1 <;> by_cases h1 : a1 * (i1 / i0) = 0 <;> simp only [h0, h1, not_true_eq_false, not_false_eq_true, if_true, if_false] <;> ring
    · by_cases h : i1 / i1 = 1 <;> simp [h]

/-- **C90, partial.** A method of two dimensions with one event each on the magic angle, with the matrix `[a0, a1, 0, 1]`, in any
spin system: for a pathway of two transitions of which the fourth-rank parts cancel with the weights `a0`, `a1`, the map that
the simulation adds is a sum, over the pairs of sidebands in the window, of products of a sharp line in the first dimension
at `X`, the weighted sum of the isotropic frequencies, and a shape in the second dimension, that of the frequencies of the
second transition.  All orientations fall on the same row or pair of rows.

Missing: tilts by negative angles (C73), the tabulated decimals, a rotor angle that is a decimal approximation of the
magic angle. -/
theorem C90_ridge_partial (nt nOct nSide : ℕ) (hn : 1 ≤ nt) (hO : nOct = 1 ∨ nOct = 4) (junk : ℕ → ℕ → ℂ)
    (a0 a1 B0 θ ν0 ν1 : ℝ) (h0 : 0 < ν0) (h1 : 0 < ν1) (hθ : 3 * Real.cos θ ^ 2 = 1) (inc : ℝ × ℝ)
    (hi : 0 < inc.1 ∧ 0 < inc.2) (d : Dimension × Dimension)
    (hd : d.1.inv = 1 / inc.1 ∧ d.1.events = [⟨B0, 1, θ, ν0⟩]) (he : d.2.inv = 1 / inc.2 ∧ d.2.events = [⟨B0, 1, θ, ν1⟩])
    (F G : Frame) (hG : 1 ≤ G.count)
    (ss : List Site) (ks : List Coupling) (x y : List ℕ × List ℕ) (hx : Spec.IsState ss x.1 ∧ Spec.IsState ss x.2)
    (hy : Spec.IsState ss y.1 ∧ Spec.IsState ss y.2) (hs : ∀ s ∈ ss, s.Upright ∧ 1 ≤ s.n)
    (hk : ∀ k ∈ ks, k.Upright ∧ k.A < ss.length ∧ k.X < ss.length) (hc : Spec.Cancels a0 a1 ss x y) (X : ℕ → ℕ → ℝ) (Y : ℕ → ℝ)
    (hX : ∀ i k, X i k = F.norm + (a0 * (Spec.isotropic ⟨B0, 1, θ, ν0⟩ ss ks x + F.vr i)
      + a1 * (Spec.isotropic ⟨B0, 1, θ, ν1⟩ ss ks y + G.vr k)) / inc.1)
    (hY : ∀ k, Y k = G.norm + (Spec.isotropic ⟨B0, 1, θ, ν1⟩ ss ks y + G.vr k) / inc.2) :
    ∃ (ν : ℕ → ℝ) (w : Bin.Writes ℝ), Spec.Lists nt nOct ν ⟨B0, 1, θ, ν1⟩ ss ks y ∧
      map2D WC.exact TC.exact true nt nOct nSide ss ks inc [a0, a1, 0, 1] d F G (startRows true junk nt) (pack ss [x, y])
        = .ok w ∧ Spec.Ridge nt nOct nSide inc.2 F G X Y ν w := by
  have i0 : inc.1 ≠ 0 := ne_of_gt hi.1
  have i1 : inc.2 ≠ 0 := ne_of_gt hi.2
  set t := components WC.exact TC.exact true B0 ss ks (Spec.quantum ss x.1) (Spec.quantum ss x.2) with ht
  set u := components WC.exact TC.exact true B0 ss ks (Spec.quantum ss y.1) (Spec.quantum ss y.2) with hu
  obtain ⟨D, hD, Di, Dr, Df⟩ := single_spec WC.exact TC.exact true nt nOct hO ss ks ⟨B0, 1, θ, ν0⟩ d.1
    (startRows true junk nt) x [y] [] hx.1 hx.2
  obtain ⟨E, hE, Ei, Er, Ef⟩ := single_spec WC.exact TC.exact true nt nOct hO ss ks ⟨B0, 1, θ, ν1⟩ d.2
    (startRows true junk nt) y [] [] hy.1 hy.2
  simp only [hd.1, he.1, mul_one, ← ht, ← hu] at Di Dr Df Ei Er Ef
  have hloop : coreLoop WC.exact TC.exact true nt nOct ss ks [d.1, d.2] (startRows true junk nt) (pack ss [x, y])
      = .ok ([D, E], startRows true junk nt) := by
    rw [List.append_nil] at hD
    rw [coreLoop, hd.2, hD]
    simp only
    rw [coreLoop, he.2]
    rw [List.append_nil] at hE hD
    simp only [List.append_nil]
    rw [hE]
    rfl
  have hiso0 : Spec.isotropic ⟨B0, 1, θ, ν0⟩ ss ks x = t.R0 := isotropic_eq _ h0 ss ks x hx.1 hx.2 hs hk
  have hiso1 : Spec.isotropic ⟨B0, 1, θ, ν1⟩ ss ks y = u.R0 := isotropic_eq _ h1 ss ks y hy.1 hy.2 hs hk
  have hdir : ∀ (t : Tens) (j q : ℕ) (p : ℕ × ℕ) (α β : ℝ), j < nOct → (Bin.Spec.grid nt)[q]? = some p →
      Spec.Points α β (Spec.quarter j (Bin.Spec.point nt p)) →
      (powderFrequencies WC.exact true nt nOct (startRows true junk nt) (Real.cos θ) (Real.sin θ) t).1 (j * Bin.nPts nt + q)
        = localFreq WC.exact true (Real.cos β) (Real.sin β) (exp (α * I)) (Real.cos θ) (Real.sin θ) t - t.R0 := by
    intro t j q p α β hj hq hp
    have := powder_dir WC.exact true nt nOct hn hO junk (Real.cos θ) (Real.sin θ) t j q hj p hq α β hp
    linarith
  obtain ⟨hprep, -⟩ := shear_value a0 a1 inc.1 inc.2 0 0
  have hsh := fun z w => (shear_value a0 a1 inc.1 inc.2 z w).2
  -- the first dimension
  have hzero : ∀ q, q < nOct * Bin.nPts nt →
      (sheared [a0 * (inc.1 / inc.1), a1 * (inc.2 / inc.1), 0, inc.2 / inc.2] (D.freq q) (E.freq q)).1 = 0 := by
    intro q hq
    obtain ⟨j, q', p, α, β, rfl, hj, hq', hp⟩ := index_dir nt nOct hn q hq
    rw [hsh, Df, Ef, hdir t j q' p α β hj hq' hp, hdir u j q' p α β hj hq' hp]
    have := magic_sum a0 a1 θ (Real.cos β) (Real.sin β) (exp (α * I)) t u hθ
      (components_cancel B0 a0 a1 ss ks x y (fun s h => (hs s h).2) hx.1 hx.2 hy.1 hy.2 hc)
    simp only
    field_simp
    linarith
  obtain ⟨w, hw, hv⟩ := Bin.averaging2D_sharp
    (fun n => [a0 * (inc.1 / inc.1), a1 * (inc.2 / inc.1), 0, inc.2 / inc.2].getD n 0)
    ⟨D.r0, D.inv, F.norm, F.count, F.vr, fun q => (sheared [a0 * (inc.1 / inc.1), a1 * (inc.2 / inc.1), 0, inc.2 / inc.2]
      (D.freq q) (E.freq q)).1, F.amp⟩
    ⟨E.r0, E.inv, G.norm, G.count, G.vr, fun q => (sheared [a0 * (inc.1 / inc.1), a1 * (inc.2 / inc.1), 0, inc.2 / inc.2]
      (D.freq q) (E.freq q)).2, G.amp⟩ nt nOct nSide hG hzero
  refine ⟨fun q => u.R0 + (powderFrequencies WC.exact true nt nOct (startRows true junk nt) (Real.cos θ) (Real.sin θ) u).1 q,
    w, ?_, ?_, ?_⟩
  · intro j q p α β hj hq hp
    simp only
    rw [hdir u j q p α β hj hq hp]
    unfold Spec.spinning
    simp only
    rw [← C75_average_partial true B0 α β θ ν1 h1 ss ks y.1 y.2 hy.1 hy.2 hs hk]
    ring
  · unfold map2D
    rw [hprep]
    simp only
    rw [hloop]
    exact hw
  · intro r col hc0 hc1
    rw [hv r col hc0 hc1, passes_sum]
    have hoff : ∀ i k, Bin.offsets2D (fun n => [a0 * (inc.1 / inc.1), a1 * (inc.2 / inc.1), 0, inc.2 / inc.2].getD n 0)
        ⟨D.r0, D.inv, F.norm, F.count, F.vr, fun q => (sheared [a0 * (inc.1 / inc.1), a1 * (inc.2 / inc.1), 0, inc.2 / inc.2]
          (D.freq q) (E.freq q)).1, F.amp⟩
        ⟨E.r0, E.inv, G.norm, G.count, G.vr, fun q => (sheared [a0 * (inc.1 / inc.1), a1 * (inc.2 / inc.1), 0, inc.2 / inc.2]
          (D.freq q) (E.freq q)).2, G.amp⟩ i k = (X i k, Y k) := by
      intro i k
      unfold Bin.offsets2D
      simp only [List.getD_cons_zero, List.getD_cons_succ]
      rw [hX, hY, hiso0, hiso1, Dr, Er, Di, Ei]
      congr 1 <;> field_simp <;> ring
    refine Finset.sum_congr rfl fun i _ => Finset.sum_congr rfl fun k _ => ?_
    unfold Bin.pass2D
    rw [hoff]
    congr 1
    refine Finset.sum_congr rfl fun j _ => ?_
    simp only [hoff]
    congr 2
    funext q
    rw [hsh, Ef, hY, hiso1]
    simp only
    field_simp
    ring

/-- A sharp line touches only bins whose centre is less than a bin away. -/
theorem delta_away (f : ℝ) (m : ℤ) (hf : 0 ≤ f) (r : ℤ) (h : 1 ≤ |(r : ℝ) + 1 / 2 - f|) : Bin.at_ r (Bin.deltaFn f m 1) = 0 := by
  apply Bin.at_outside
  rintro ⟨i, x⟩ hq rfl
  exfalso
  obtain ⟨t0, t1, t2⟩ := Bin.trunc_nonneg hf
  unfold Bin.deltaFn at hq
  simp only at hq h
  generalize Bin.trunc f = p at *
  have hT : (Bin.TOL : ℝ) < 1 / 2 := by simp [Bin.TOL]; norm_num
  split_ifs at hq with g1 g2 g3 g4 g5 g6 <;>
    simp only [List.mem_cons, List.mem_append, List.not_mem_nil, or_false, false_or, Prod.mk.injEq] at hq
  · obtain ⟨rfl, -⟩ := hq
    rw [abs_lt] at g2
    have : |(i : ℝ) + 1 / 2 - f| < 1 := by rw [abs_lt]; constructor <;> linarith
    linarith
  · rcases hq with ⟨rfl, -⟩ | ⟨rfl, -⟩
    · have : |((p - 1 : ℤ) : ℝ) + 1 / 2 - f| < 1 := by push_cast; rw [abs_lt]; constructor <;> linarith
      linarith
    · have : |(i : ℝ) + 1 / 2 - f| < 1 := by rw [abs_lt]; constructor <;> linarith
      linarith
  · obtain ⟨rfl, -⟩ := hq
    have : |(i : ℝ) + 1 / 2 - f| < 1 := by rw [abs_lt]; constructor <;> linarith
    linarith
  · rcases hq with ⟨rfl, -⟩ | ⟨rfl, -⟩
    · have : |((p + 1 : ℤ) : ℝ) + 1 / 2 - f| < 1 := by push_cast; rw [abs_lt]; constructor <;> linarith
      linarith
    · have : |(i : ℝ) + 1 / 2 - f| < 1 := by rw [abs_lt]; constructor <;> linarith
      linarith
  · obtain ⟨rfl, -⟩ := hq
    have : |(i : ℝ) + 1 / 2 - f| < 1 := by rw [abs_lt]; constructor <;> linarith
    linarith

/-- What a ridge means: rows a bin or more away from all the lines stay empty; and for a single pair of sidebands at least half a
bin inside the window, all rows are multiples of one shape `S`, with weights that add up to one and have their centre at `X`, up
to a millionth of a bin. -/
theorem C90_rows (nt nOct nSide : ℕ) (inc : ℝ) (F G : Frame) (X : ℕ → ℕ → ℝ) (Y : ℕ → ℝ) (ν : ℕ → ℝ) (w : Bin.Writes ℝ)
    (h : Spec.Ridge nt nOct nSide inc F G X Y ν w) :
    (∀ (r col : ℤ), 0 ≤ col → col < G.count → (∀ i < nSide, ∀ k < nSide, 0 ≤ X i k ∧ 1 ≤ |(r : ℝ) + 1 / 2 - X i k|) →
      Bin.at_ (r * G.count + col) w = 0) ∧
    (nSide = 1 → 1 / 2 ≤ X 0 0 → X 0 0 ≤ F.count - 1 / 2 → ∃ (W : ℤ → ℝ) (S : ℤ → ℝ),
      (∀ (r col : ℤ), 0 ≤ col → col < G.count → Bin.at_ (r * G.count + col) w = W r * S col) ∧
      (∀ r, 0 ≤ W r) ∧ (∀ r : ℤ, 1 ≤ |(r : ℝ) + 1 / 2 - X 0 0| → W r = 0) ∧ ∑ r ∈ Finset.range F.count, W r = 1 ∧
      |∑ r ∈ Finset.range F.count, W r * ((r : ℝ) + 1 / 2) - X 0 0| ≤ 1 / 1000000) := by
  constructor
  · intro r col h0 h1 hr
    rw [h r col h0 h1]
    refine Finset.sum_eq_zero fun i hi => Finset.sum_eq_zero fun k hk => ?_
    rw [Finset.mem_range] at hi hk
    obtain ⟨g0, g1⟩ := hr i hi k hk
    split_ifs
    · refine Finset.sum_eq_zero fun j _ => ?_
      rw [delta_away _ _ g0 r g1, zero_mul]
    · rfl
  · intro hN h0 h1
    subst hN
    obtain ⟨c1, c2, -, -, c5⟩ := Bin.C37_inside (X 0 0) (1 : ℝ) (F.count : ℤ) h0 (by push_cast; exact h1)
    have hsum : ∀ g : ℤ → ℝ, ∑ r ∈ Finset.range F.count, Bin.at_ (r : ℤ) (Bin.deltaFn (X 0 0) F.count 1) * g r
        = ((Bin.deltaFn (X 0 0) (F.count : ℤ) 1).map fun q => q.2 * g q.1).sum := by
      intro g
      have hin : ∀ q ∈ Bin.deltaFn (X 0 0) (F.count : ℤ) (1 : ℝ), 0 ≤ q.1 ∧ q.1 < F.count := fun q hq =>
        Bin.C36_delta _ _ _ q.1 q.2 hq
      generalize Bin.deltaFn (X 0 0) (F.count : ℤ) (1 : ℝ) = l at hin
      induction l with
      | nil => simp
      | cons q l ih =>
        obtain ⟨i, z⟩ := q
        rw [List.map_cons, List.sum_cons, ← ih (fun q hq => hin q (by simp [hq]))]
        have hi := hin (i, z) (by simp)
        simp only at hi
        simp only [Bin.at_cons, add_mul, Finset.sum_add_distrib]
        congr 1
        rw [Finset.sum_eq_single_of_mem i.toNat (Finset.mem_range.mpr (by omega))]
        · rw [Int.toNat_of_nonneg hi.1, if_pos rfl]
        · intro b _ hb
          rw [if_neg (by omega), zero_mul]
    refine ⟨fun r => Bin.at_ r (Bin.deltaFn (X 0 0) F.count 1), fun col =>
      if Bin.inWindow (X 0 0) F.count && Bin.inWindow (Y 0) G.count then
        ∑ j ∈ Finset.range nOct, Bin.rowShape nt (fun q => G.norm + (ν (j * Bin.nPts nt + q) + G.vr 0) / inc)
            (fun q => F.amp (0 * (nOct * Bin.nPts nt) + j * Bin.nPts nt + q)
              * G.amp (0 * (nOct * Bin.nPts nt) + j * Bin.nPts nt + q)) G.count col
      else 0, ?_, ?_, ?_, ?_, ?_⟩
    · intro r col hc0 hc1
      rw [h r col hc0 hc1]
      simp only [Finset.sum_range_one]
      split_ifs
      · rw [Finset.mul_sum]
      · rw [mul_zero]
    · intro r
      unfold Bin.at_
      apply List.sum_nonneg
      intro z hz
      obtain ⟨q, hq, rfl⟩ := List.mem_map.mp hz
      exact c5 zero_le_one q.1 q.2 (List.mem_filter.mp hq).1
    · intro r hr
      exact delta_away _ _ (by linarith) r hr
    · have := hsum (fun _ => 1)
      simp only [mul_one] at this
      rw [this]
      exact c1
    · have := hsum (fun r => (r : ℝ) + 1 / 2)
      simp only [Int.cast_natCast] at this
      rw [this]
      simpa using c2

/-- base_model.pyx:441-448: the quantum numbers of a pathway in the order of the array. -/
def packQ (path : List Trans.Tr) : List ℝ := path.flatMap fun t => t.1.map (fun (m : ℚ) => (m : ℝ)) ++ t.2.map (fun (m : ℚ) => (m : ℝ))

/-- The states of the `n`-quantum transition of a spin `twoI / 2` that the multiple-quantum methods excite (C15): from `n/2` to `-n/2` if
that is the whole spin and from `-n/2` to `n/2` otherwise. -/
def Spec.multiple (twoI n : ℕ) : List ℕ × List ℕ := if twoI = n then ([n], [0]) else ([(twoI - n) / 2], [(twoI - n) / 2 + n])

/-- The states of the central transition, from `1/2` to `-1/2`. -/
def Spec.centralStates (twoI : ℕ) : List ℕ × List ℕ := ([(twoI - 1) / 2 + 1], [(twoI - 1) / 2])

/-- The pathway of a multiple-quantum method on one site and its weights. -/
theorem mq_pathway (so : Trans.SetOrder) (c : String) (s : Site) (name : String) (n : ℕ)
    (hname : (name, n) ∈ Trans.mqSymmetry) (dims : List (List Trans.Query)) (a : List ℚ)
    (h : Trans.mqUpdate name s.n none = .ok (dims, a)) (x y : List ℕ × List ℕ) (hxd : x = Spec.multiple s.n n)
    (hyd : y = Spec.centralStates s.n) :
    ∃ (path : List Trans.Tr) (a0 a1 : ℚ),
      Trans.transitionPathways so [⟨c, s.n⟩] [c] dims = .ok [path] ∧ path.length = 2 ∧ a = [a0, a1, 0, 1] ∧ a0 + a1 = 1 ∧
      packQ path = pack [s] [x, y] ∧ (Spec.IsState [s] x.1 ∧ Spec.IsState [s] x.2) ∧ (Spec.IsState [s] y.1 ∧ Spec.IsState [s] y.2) ∧
      Spec.Cancels (a0 : ℝ) (a1 : ℝ) [s] x y ∧ 1 < s.n := by
  obtain ⟨g1, g2, g3⟩ := (Trans.C15_mq_domain name n hname s.n).mp ⟨_, h⟩
  obtain ⟨paths, hp, -, hr, a0, a1, ha, hsum⟩ := Trans.C17_mq_shear so c s.n name n hname dims a h
  have hpath := Trans.C15_mq_vas so c s.n g1 name n hname g2 none dims a h
  rw [hp] at hpath
  injection hpath with hpath
  have hodd : n % 2 = 1 := by
    simp only [Trans.mqSymmetry, List.mem_cons, Prod.mk.injEq, List.not_mem_nil, or_false] at hname
    rcases hname with ⟨-, rfl⟩ | ⟨-, rfl⟩ | ⟨-, rfl⟩ <;> rfl
  have hn1 : 1 ≤ n := by omega
  -- the states of the two transitions
  obtain ⟨u, hu⟩ : ∃ u : ℕ, s.n = n + 2 * u := ⟨(s.n - n) / 2, by omega⟩
  obtain ⟨v, hv⟩ : ∃ v : ℕ, s.n = 1 + 2 * v := ⟨(s.n - 1) / 2, by omega⟩
  obtain ⟨hx1, hx2, hxp⟩ : Spec.IsState [s] x.1 ∧ Spec.IsState [s] x.2 ∧
      (Spec.quantum [s] x.1, Spec.quantum [s] x.2) = (if s.n = n then ([(n : ℝ) / 2], [-(n : ℝ) / 2])
        else ([-(n : ℝ) / 2], [(n : ℝ) / 2])) := by
    have e1 : ((n + u : ℕ) : ℝ) - (s.n : ℝ) / 2 = (n : ℝ) / 2 := by rw [hu]; push_cast; ring
    have e2 : ((u : ℕ) : ℝ) - (s.n : ℝ) / 2 = -(n : ℝ) / 2 := by rw [hu]; push_cast; ring
    by_cases hsn : s.n = n
    · have hx : x = ([n + u], [u]) := by
        rw [hxd, Spec.multiple, if_pos hsn, show u = 0 by omega, add_zero]
      rw [hx]
      refine ⟨?_, ?_, ?_⟩
      · simp [Spec.IsState]; omega
      · simp [Spec.IsState]; omega
      · rw [if_pos hsn]
        simp only [Spec.quantum, List.zipWith_cons_cons, List.zipWith_nil_right, e1, e2]
    · have hx : x = ([u], [n + u]) := by
        rw [hxd, Spec.multiple, if_neg hsn, show (s.n - n) / 2 = u by omega, add_comm]
      rw [hx]
      refine ⟨?_, ?_, ?_⟩
      · simp [Spec.IsState]; omega
      · simp [Spec.IsState]; omega
      · rw [if_neg hsn]
        simp only [Spec.quantum, List.zipWith_cons_cons, List.zipWith_nil_right, e1, e2]
  obtain ⟨hy1, hy2, hyp⟩ : Spec.IsState [s] y.1 ∧ Spec.IsState [s] y.2 ∧
      (Spec.quantum [s] y.1, Spec.quantum [s] y.2) = ([(1 : ℝ) / 2], [-(1 : ℝ) / 2]) := by
    have e1 : ((1 + v : ℕ) : ℝ) - (s.n : ℝ) / 2 = (1 : ℝ) / 2 := by rw [hv]; push_cast; ring
    have e2 : ((v : ℕ) : ℝ) - (s.n : ℝ) / 2 = -(1 : ℝ) / 2 := by rw [hv]; push_cast; ring
    have hy : y = ([1 + v], [v]) := by
      rw [hyd, Spec.centralStates, show (s.n - 1) / 2 = v by omega, add_comm]
    rw [hy]
    refine ⟨?_, ?_, ?_⟩
    · simp [Spec.IsState]; omega
    · simp [Spec.IsState]; omega
    · simp only [Spec.quantum, List.zipWith_cons_cons, List.zipWith_nil_right, e1, e2]
  have hq : ∀ z : List ℕ, Spec.IsState [s] z → Spec.quantum [s] z = [(z.getD 0 0 : ℝ) - s.n / 2] := by
    intro z hz
    cases hz with
    | cons h1 h2 =>
      cases h2
      simp [Spec.quantum]
  have hpack : packQ [if s.n = n then ([(n : ℚ) / 2], [-(n : ℚ) / 2]) else ([-(n : ℚ) / 2], [(n : ℚ) / 2]), ([1/2], [-1/2])]
      = pack [s] [x, y] := by
    unfold packQ pack
    simp only [List.flatMap_cons, List.flatMap_nil, List.append_nil]
    have k1 := congrArg Prod.fst hxp
    have k2 := congrArg Prod.snd hxp
    have k3 := congrArg Prod.fst hyp
    have k4 := congrArg Prod.snd hyp
    simp only at k1 k2 k3 k4
    rw [k1, k2, k3, k4]
    split_ifs <;> simp
  have hcan : Spec.Cancels (a0 : ℝ) (a1 : ℝ) [s] x y := by
    intro k s' hk _
    have hk0 : k = 0 := by
      have := (List.getElem?_eq_some_iff.mp hk).1
      simpa using this
    subst hk0
    simp only [List.getElem?_cons_zero, Option.some.injEq] at hk
    subst hk
    have h4 := hr _ (by rw [hpath]; exact List.mem_singleton.mpr rfl)
    have k1 := congrArg Prod.fst hxp
    have k2 := congrArg Prod.snd hxp
    have k3 := congrArg Prod.fst hyp
    have k4 := congrArg Prod.snd hyp
    simp only at k1 k2 k3 k4
    rw [hq _ hx1] at k1
    rw [hq _ hx2] at k2
    rw [hq _ hy1] at k3
    rw [hq _ hy2] at k4
    rw [ha] at h4
    unfold Trans.Spec.rank4 at h4
    by_cases hsn : s.n = n
    · rw [if_pos hsn] at k1 k2 h4
      simp only [List.cons.injEq, and_true] at k1 k2 k3 k4
      rw [k1, k2, k3, k4]
      simp only at h4
      push_cast at h4
      exact h4
    · rw [if_neg hsn] at k1 k2 h4
      simp only [List.cons.injEq, and_true] at k1 k2 k3 k4
      rw [k1, k2, k3, k4]
      simp only at h4
      push_cast at h4
      exact h4
  have hn3 : 1 < n := by
    simp only [Trans.mqSymmetry, List.mem_cons, Prod.mk.injEq, List.not_mem_nil, or_false] at hname
    omega
  exact ⟨_, a0, a1, by rw [hp, hpath], rfl, ha, hsum, hpack, ⟨hx1, hx2⟩, ⟨hy1, hy2⟩, hcan, by omega⟩

/-- The same for states that are not named. -/
theorem mq_states (so : Trans.SetOrder) (c : String) (s : Site) (name : String) (n : ℕ)
    (hname : (name, n) ∈ Trans.mqSymmetry) (dims : List (List Trans.Query)) (a : List ℚ)
    (h : Trans.mqUpdate name s.n none = .ok (dims, a)) :
    ∃ (path : List Trans.Tr) (a0 a1 : ℚ) (x y : List ℕ × List ℕ),
      Trans.transitionPathways so [⟨c, s.n⟩] [c] dims = .ok [path] ∧ a = [a0, a1, 0, 1] ∧ a0 + a1 = 1 ∧
      packQ path = pack [s] [x, y] ∧ (Spec.IsState [s] x.1 ∧ Spec.IsState [s] x.2) ∧ (Spec.IsState [s] y.1 ∧ Spec.IsState [s] y.2) ∧
      Spec.Cancels (a0 : ℝ) (a1 : ℝ) [s] x y ∧ 1 ≤ s.n := by
  obtain ⟨path, a0, a1, hp, -, ha, hsum, hpack, hx, hy, hcan, hn1⟩ := mq_pathway so c s name n hname dims a h _ _ rfl rfl
  exact ⟨path, a0, a1, _, _, hp, ha, hsum, hpack, hx, hy, hcan, by omega⟩

/-- **C90 (multiple quantum), partial.** For every multiple-quantum method and spin that it supports, with the affine matrix that
it comes with, on the magic angle and for any site: the method has one pathway, and the map of the site is a ridge at the
weighted sum of the isotropic frequencies of the two transitions. -/
theorem C90_mq_partial (so : Trans.SetOrder) (c : String) (s : Site) (hs : s.Upright) (name : String) (n : ℕ)
    (hname : (name, n) ∈ Trans.mqSymmetry) (dims : List (List Trans.Query)) (a : List ℚ)
    (h : Trans.mqUpdate name s.n none = .ok (dims, a))
    (nt nOct nSide : ℕ) (hn : 1 ≤ nt) (hO : nOct = 1 ∨ nOct = 4) (junk : ℕ → ℕ → ℂ)
    (B0 θ ν0 ν1 : ℝ) (h0 : 0 < ν0) (h1 : 0 < ν1) (hθ : 3 * Real.cos θ ^ 2 = 1) (inc : ℝ × ℝ)
    (hi : 0 < inc.1 ∧ 0 < inc.2) (d : Dimension × Dimension)
    (hd : d.1.inv = 1 / inc.1 ∧ d.1.events = [⟨B0, 1, θ, ν0⟩]) (he : d.2.inv = 1 / inc.2 ∧ d.2.events = [⟨B0, 1, θ, ν1⟩])
    (F G : Frame) (hG : 1 ≤ G.count) :
    ∃ (path : List Trans.Tr) (a0 a1 : ℚ) (x y : List ℕ × List ℕ) (ν : ℕ → ℝ) (w : Bin.Writes ℝ),
      Trans.transitionPathways so [⟨c, s.n⟩] [c] dims = .ok [path] ∧ a = [a0, a1, 0, 1] ∧ a0 + a1 = 1 ∧
      packQ path = pack [s] [x, y] ∧ Spec.Lists nt nOct ν ⟨B0, 1, θ, ν1⟩ [s] [] y ∧
      map2D WC.exact TC.exact true nt nOct nSide [s] [] inc (a.map fun (q : ℚ) => (q : ℝ)) d F G (startRows true junk nt)
        (packQ path) = .ok w ∧
      Spec.Ridge nt nOct nSide inc.2 F G
        (fun i k => F.norm + ((a0 : ℝ) * (Spec.isotropic ⟨B0, 1, θ, ν0⟩ [s] [] x + F.vr i)
          + (a1 : ℝ) * (Spec.isotropic ⟨B0, 1, θ, ν1⟩ [s] [] y + G.vr k)) / inc.1)
        (fun k => G.norm + (Spec.isotropic ⟨B0, 1, θ, ν1⟩ [s] [] y + G.vr k) / inc.2) ν w := by
  obtain ⟨path, a0, a1, x, y, hp, ha, hsum, hpack, hx, hy, hcan, hn1⟩ := mq_states so c s name n hname dims a h
  obtain ⟨ν, w, hl, hm, hR⟩ := C90_ridge_partial nt nOct nSide hn hO junk a0 a1 B0 θ ν0 ν1 h0 h1 hθ inc hi d hd he F G hG
    [s] [] x y hx hy
    (by
      intro s' hs'
      rw [List.mem_singleton] at hs'
      subst hs'
      exact ⟨hs, hn1⟩)
    (by simp) hcan _ _ (fun _ _ => rfl) (fun _ => rfl)
  refine ⟨path, a0, a1, x, y, ν, w, hp, ha, hsum, hpack, hl, ?_, hR⟩
  rw [hpack, ha]
  simpa using hm

/-- The magic angle. -/
example : 3 * Real.cos (Real.arccos (1 / √3)) ^ 2 = 1 := by
  have h : (1 : ℝ) ≤ √3 := by rw [Real.one_le_sqrt]; norm_num
  rw [Real.cos_arccos (by have : (0 : ℝ) ≤ 1 / √3 := by positivity
                          linarith) (by rw [div_le_one (by positivity)]; exact h), div_pow, one_pow,
    Real.sq_sqrt (by norm_num)]
  norm_num

/-- The coupled pair of `exampleSites`: the triple-quantum and the central transition of the aluminium, with the weights that
`ThreeQ_VAS` uses for spin 5/2. -/
example : Spec.Cancels (12 / 31) (19 / 31) exampleSites ([0, 1], [0, 4]) ([0, 3], [0, 2]) := by
  intro k s hk hn
  unfold exampleSites at hk
  match k, hk with
  | 0, hk =>
    simp only [List.getElem?_cons_zero, Option.some.injEq] at hk
    subst hk
    norm_num at hn
  | 1, hk =>
    simp only [List.getElem?_cons_succ, List.getElem?_cons_zero, Option.some.injEq] at hk
    subst hk
    simp only [Trans.STFc4_eq, List.getD_cons_zero, List.getD_cons_succ]
    norm_num
    ring
  | k + 2, hk => simp at hk

/-- A site and a method that meet the hypotheses of `C90_mq_partial`. -/
example : (⟨3, 11.2, 4, 0, 0, ⟨0, 0, 0⟩, 2000000, 0.4, ⟨0, 0.3, 0⟩⟩ : Site).Upright ∧
    (∃ r, Trans.mqUpdate "ThreeQ_VAS" 3 none = .ok r) ∧ ("ThreeQ_VAS", 3) ∈ Trans.mqSymmetry := by
  refine ⟨by unfold Site.Upright; norm_num, ?_, by decide⟩
  exact (Trans.C15_mq_domain "ThreeQ_VAS" 3 (by decide) 3).mpr (by decide)

end MRS.Freq
