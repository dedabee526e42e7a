import Verif.Freq.OnePulse
import Verif.Freq.NearMagic
import Verif.Freq.SidebandSep
import Verif.Freq.Satellite

/-!
# `Simulator.run` with a two-dimensional method — property C100

The map that is recorded for a list of spin systems: the loop over the systems (Run/Model.lean), the selection of the pathways, the
frequencies and the averaging of `Isotropic.lean`, the offsets of the two dimensions (Meth/Dims.lean) and the mirror image for a negative
gyromagnetic ratio.
-/

namespace MRS.Bin

/-- A triangle, or the line it shrinks to, leaves the points more than a bin away from all its corners alone. -/
theorem triangleOrDelta_away (a b c amp : ℝ) (m col : ℤ) (h1 : 1 ≤ col) (h2 : col < m)
    (h : (∀ f ∈ [a, b, c], f ≤ col - 1 / 2) ∨ ∀ f ∈ [a, b, c], (col : ℝ) + 3 / 2 ≤ f) : val col (triangleOrDelta a b c amp m) = 0 := by
  unfold triangleOrDelta
  by_cases hs : |a - b| < TOL ∧ |a - c| < TOL
  · rw [if_pos hs]
    change at_ col _ = 0
    rw [delta_tent a amp m col h1 h2]
    have ha : 1 ≤ |a - (col + 1 / 2)| := by
      rcases h with h | h
      · have := h a (by simp)
        rw [abs_of_nonpos (by linarith)]
        linarith
      · have := h a (by simp)
        rw [abs_of_nonneg (by linarith)]
        linarith
    have : Spec.linear (a - (col + 1 / 2)) = 0 := by
      unfold Spec.linear
      rw [if_neg (by linarith), if_pos (by linarith)]
    rw [this, mul_zero, ite_self]
  · rw [if_neg hs]
    obtain ⟨f0, f1, f2, hp, h01, h12⟩ := exists_sorted a b c
    have hlt : f0 < f2 := by
      rcases lt_or_ge f0 f2 with h' | h'
      · exact h'
      · exfalso
        apply hs
        have e1 : f1 = f0 := by linarith
        have e2 : f2 = f0 := by linarith
        have hall : ∀ f ∈ [a, b, c], f = f0 := by
          intro f hf
          have := hp.mem_iff.mp hf
          simp only [List.mem_cons, List.not_mem_nil, or_false] at this
          rcases this with h | h | h <;> linarith
        rw [hall a (by simp), hall b (by simp), hall c (by simp), sub_self, abs_zero]
        constructor <;> simp [TOL]
    obtain ⟨w, e, hw⟩ := triangle_at a b c f0 f1 f2 amp m col hp h01 h12 hlt (by omega) h2 (fun h => by omega)
    rw [e]
    change at_ col w = 0
    rw [hw]
    have hm : ∀ f ∈ [f0, f1, f2], f ∈ [a, b, c] := fun f hf => hp.mem_iff.mpr hf
    rcases h with h | h
    · have g0 := h f0 (hm f0 (by simp))
      have g1 := h f1 (hm f1 (by simp))
      have g2 := h f2 (hm f2 (by simp))
      rw [cumL_hi _ _ _ _ h01 (by linarith), cumR_hi _ _ _ _ h12 (by linarith), cumL_hi _ _ _ _ h01 (by linarith),
        cumR_hi _ _ _ _ h12 (by linarith), sub_self]
    · have g0 := h f0 (hm f0 (by simp))
      have g1 := h f1 (hm f1 (by simp))
      rw [cumL_lo _ _ _ _ (by linarith), cumR_lo _ _ _ _ (by linarith), cumL_lo _ _ _ _ (by linarith), cumR_lo _ _ _ _ (by linarith), sub_self]

theorem triangleOrDelta_nonneg (a b c amp : ℝ) (ha : 0 ≤ amp) (m col : ℤ) (h1 : 1 ≤ col) (h2 : col < m) :
    0 ≤ val col (triangleOrDelta a b c amp m) := by
  unfold triangleOrDelta
  by_cases hs : |a - b| < TOL ∧ |a - c| < TOL
  · rw [if_pos hs]
    change 0 ≤ at_ col _
    rw [delta_tent a amp m col h1 h2]
    split_ifs
    · refine mul_nonneg ha ?_
      unfold Spec.linear
      split_ifs <;> linarith
    · exact le_rfl
  · rw [if_neg hs]
    obtain ⟨f0, f1, f2, hp, h01, h12⟩ := exists_sorted a b c
    obtain ⟨w, e, h⟩ := triangle_writes a b c f0 f1 f2 amp m (by omega) hp h01 h12
    rw [e]
    exact at_nonneg col w fun q hq => (h q hq).2.2.2.2 ha

/-- A triangle between the middles of the second and of the last point gives all its amplitude to these points. -/
theorem triangleOrDelta_total (a b c amp : ℝ) (n : ℕ) (h : ∀ f ∈ [a, b, c], 3 / 2 ≤ f ∧ f ≤ n - 1 / 2) :
    ∑ col ∈ Finset.Ico 1 n, val col (triangleOrDelta a b c amp n) = amp := by
  have ha := h a (by simp)
  have hb := h b (by simp)
  have hc := h c (by simp)
  have hn : 0 < n := by
    by_contra h'
    have : n = 0 := by omega
    subst this
    push_cast at ha
    linarith
  have key : ∀ w : Writes ℝ, at_ 0 w = 0 → ((List.range n).map fun (k : ℕ) => at_ k w).sum = amp →
      ∑ col ∈ Finset.Ico 1 n, at_ col w = amp := by
    intro w h0 h1
    rw [← h1, ← List.sum_toFinset _ List.nodup_range, List.toFinset_range, Finset.range_eq_Ico, Finset.sum_eq_sum_Ico_succ_bot hn]
    push_cast
    rw [h0, zero_add]
  unfold triangleOrDelta
  by_cases hs : |a - b| < TOL ∧ |a - c| < TOL
  · rw [if_pos hs]
    obtain ⟨c1, -, -, c4, -⟩ := C37_inside a amp (n : ℤ) (by linarith) (by push_cast; linarith)
    apply key
    · unfold at_
      apply List.sum_eq_zero
      intro z hz
      obtain ⟨q, hq, rfl⟩ := List.mem_map.mp hz
      obtain ⟨hq1, hq2⟩ := List.mem_filter.mp hq
      have := c4 q.1 q.2 hq1
      have h0 : q.1 = 0 := by simpa using hq2
      rw [h0, abs_of_nonpos (by push_cast; linarith)] at this
      push_cast at this
      linarith
    · rw [sum_at n _ (fun q hq => C36_delta _ _ _ q.1 q.2 hq), c1]
  · rw [if_neg hs]
    obtain ⟨w, e, hw⟩ := C35_total a b c amp n (fun _ => 0) ⟨by linarith, by linarith⟩ ⟨by linarith, by linarith⟩ ⟨by linarith, by linarith⟩
    rw [e]
    change ∑ col ∈ Finset.Ico 1 n, at_ col w = amp
    apply key
    · have h1 : triangleOrDelta a b c amp n = .ok w := by rw [triangleOrDelta, if_neg hs, e]
      obtain ⟨f0, f1, f2, hp, h01, h12⟩ := exists_sorted a b c
      have hm := h f0 (hp.mem_iff.mpr (by simp))
      have hlt : f0 < f2 := by
        rcases lt_or_ge f0 f2 with h' | h'
        · exact h'
        · exfalso
          apply hs
          have hall : ∀ f ∈ [a, b, c], f = f0 := by
            intro f hf
            have := hp.mem_iff.mp hf
            simp only [List.mem_cons, List.not_mem_nil, or_false] at this
            rcases this with h | h | h <;> linarith
          rw [hall a (by simp), hall b (by simp), hall c (by simp), sub_self, abs_zero]
          constructor <;> simp [TOL]
      obtain ⟨w', e', hw'⟩ := triangle_at a b c f0 f1 f2 amp n 0 hp h01 h12 hlt le_rfl (by omega) (fun _ => by unfold Good0; left; linarith)
      have : w' = w := by
        rw [e] at e'
        exact (Except.ok.inj e').symm
      rw [← this, hw']
      push_cast
      rw [cumL_lo _ _ _ _ (by linarith), cumR_lo _ _ _ _ (by linarith), cumL_lo _ _ _ _ (by linarith), cumR_lo _ _ _ _ (by linarith), sub_self]
    · simpa only [applyWrites_eq, zero_add, sub_zero] using hw

theorem rowShape_total (nt : ℕ) (freq amp : ℕ → ℝ) (n : ℕ) (h : ∀ q < nPts nt, 3 / 2 ≤ freq q ∧ freq q ≤ n - 1 / 2) :
    ∑ col ∈ Finset.Ico 1 n, rowShape nt freq amp n col = totalAmplitude nt amp := by
  have hsw : ∀ l : List ((ℕ × ℕ) × (ℕ × ℕ) × (ℕ × ℕ)), (∀ t ∈ l, t ∈ triList nt) →
      ∑ col ∈ Finset.Ico 1 n, (l.map fun t => val col (triangleOrDelta (freq (rank nt t.1)) (freq (rank nt t.2.1)) (freq (rank nt t.2.2))
        (amp (rank nt t.1) + amp (rank nt t.2.1) + amp (rank nt t.2.2)) n)).sum
      = (l.map fun t => amp (rank nt t.1) + amp (rank nt t.2.1) + amp (rank nt t.2.2)).sum := by
    intro l hl
    induction l with
    | nil => simp
    | cons t l ih =>
      simp only [List.map_cons, List.sum_cons]
      rw [Finset.sum_add_distrib, ih (fun t h => hl t (by simp [h]))]
      congr 1
      obtain ⟨b1, b2, b3⟩ := tri_bounds nt t (hl t (by simp))
      refine triangleOrDelta_total _ _ _ _ n ?_
      intro f hf
      simp only [List.mem_cons, List.not_mem_nil, or_false] at hf
      rcases hf with rfl | rfl | rfl
      · exact h _ (rank_lt nt _ b1)
      · exact h _ (rank_lt nt _ b2)
      · exact h _ (rank_lt nt _ b3)
  rw [totalAmplitude_triList]
  exact hsw _ fun _ h => h

theorem rowShape_away (nt : ℕ) (freq amp : ℕ → ℝ) (m col : ℤ) (h1 : 1 ≤ col) (h2 : col < m)
    (h : (∀ q < nPts nt, freq q ≤ col - 1 / 2) ∨ ∀ q < nPts nt, (col : ℝ) + 3 / 2 ≤ freq q) : rowShape nt freq amp m col = 0 := by
  unfold rowShape
  apply List.sum_eq_zero
  intro z hz
  obtain ⟨t, ht, rfl⟩ := List.mem_map.mp hz
  obtain ⟨b1, b2, b3⟩ := tri_bounds nt t ht
  have r1 := rank_lt nt _ b1
  have r2 := rank_lt nt _ b2
  have r3 := rank_lt nt _ b3
  refine triangleOrDelta_away _ _ _ _ m col h1 h2 ?_
  rcases h with h | h
  · left
    intro f hf
    simp only [List.mem_cons, List.not_mem_nil, or_false] at hf
    rcases hf with rfl | rfl | rfl
    · exact h _ r1
    · exact h _ r2
    · exact h _ r3
  · right
    intro f hf
    simp only [List.mem_cons, List.not_mem_nil, or_false] at hf
    rcases hf with rfl | rfl | rfl
    · exact h _ r1
    · exact h _ r2
    · exact h _ r3

theorem rowShape_nonneg (nt : ℕ) (freq amp : ℕ → ℝ) (ha : ∀ q < nPts nt, 0 ≤ amp q) (m col : ℤ) (h1 : 1 ≤ col) (h2 : col < m) :
    0 ≤ rowShape nt freq amp m col := by
  unfold rowShape
  apply List.sum_nonneg
  intro z hz
  obtain ⟨t, ht, rfl⟩ := List.mem_map.mp hz
  obtain ⟨b1, b2, b3⟩ := tri_bounds nt t ht
  have r1 := ha _ (rank_lt nt _ b1)
  have r2 := ha _ (rank_lt nt _ b2)
  have r3 := ha _ (rank_lt nt _ b3)
  exact triangleOrDelta_nonneg _ _ _ _ (by linarith) m col h1 h2

end MRS.Bin

namespace MRS.Freq

open Complex

/-! ## Model -/

/-- The rotor of the two dimensions: one angle and a frequency for each (base_model.pyx lines 119-144). -/
structure Rotor2 where
  sidebands : ℕ
  pos : NeZero sidebands
  freq : ℝ × ℝ
  angle : ℝ

/-- base_model.pyx:119-175 and 441-480, simulation.c:37-171 for two dimensions with one event each: what one pathway adds to the map.  `a` is the
affine matrix of the method, `junk` what the allocated memory contains.  Simplified: the two events have one field and one rotor angle; a
rotor slower than 1 mHz, which base_model.pyx:122-128 replaces, is not modelled here. -/
noncomputable def mapWrites (W : WC) (T : TC) (lib : Library) (c : String) (B0 : ℝ) (r : Rotor2) (d : Meth.SDim × Meth.SDim) (a : List ℚ)
    (nOct : ℕ) (junk : ℕ → ℕ → ℂ) (nt : ℕ) (ph : Phys) (path : List Trans.Tr) : Py (Bin.Writes ℝ) :=
  match path with
  | [p, q] =>
    haveI := r.pos
    let four := fourth (lib.twoI c)
    let pos := decide (0 < lib.gamma c)
    let inc : ℝ × ℝ := (((d.1.sw / d.1.count : ℚ) : ℝ), ((d.2.sw / d.2.count : ℚ) : ℝ))
    let P := startRows four junk nt
    let comp := fun (t : Trans.Tr) => methodComponents W T (lib.twoI c) B0 ph.sites ph.couplings
      (t.1.map fun (m : ℚ) => (m : ℝ)) (t.2.map fun (m : ℚ) => (m : ℝ))
    let f := frames W four nt nOct r.sidebands r.angle r.freq
      (((Meth.normalizeOffset pos d.1 : ℚ) : ℝ), ((Meth.normalizeOffset pos d.2 : ℚ) : ℝ)) (d.1.count, d.2.count) P (comp p) (comp q)
    map2D W T four nt nOct r.sidebands (ph.sites.map (packed (lib.twoI c))) ph.couplings inc (a.map fun (q : ℚ) => (q : ℝ))
      (⟨1 / inc.1, [⟨B0, 1, r.angle, r.freq.1⟩], 0, fun _ => 0⟩, ⟨1 / inc.2, [⟨B0, 1, r.angle, r.freq.2⟩], 0, fun _ => 0⟩) f.1 f.2 P (packQ path)
  | _ => .error .undefinedBehaviour

/-- base_model.pyx:15-508 for a method of two dimensions with one event each, on channel `c`, with the queries `dims` and the affine matrix
`a`: what is fixed during a call with integration density `nt` on `nOct` octants.  Simplified: a pathway that is not of two transitions, or with
undefined behaviour, counts nothing. -/
noncomputable def mapEnv (W : WC) (T : TC) (lib : Library) (so : Trans.SetOrder) (c : String) (dims : List (List Trans.Query)) (a : List ℚ)
    (B0 : ℝ) (r : Rotor2) (d : Meth.SDim × Meth.SDim) [NeZero d.1.count] [NeZero d.2.count] (nOct : ℕ)
    (junk : Phys → List Trans.Tr → ℕ → ℕ → ℂ) (nt : ℕ) : Run.Env Phys (List Trans.Tr) (ZMod d.1.count → ZMod d.2.count → ℝ) where
  channel := c
  norm := (d.1.sw / d.1.count) * (d.2.sw / d.2.count)
  gammaNeg := decide (lib.gamma c < 0)
  mirror :=
    { toFun := Sim.mirror2
      map_zero' := by funext k l; rw [Sim.C59_mirror2]; rfl
      map_add' := fun x y => by funext k l; simp only [Sim.C59_mirror2, Pi.add_apply] }
  sel := fun iso => Trans.transitionPathways so (isoSites lib iso) [c] dims
  core := fun ph path => fun k l => Bin.val ((k.val : ℤ) * d.2.count + l.val) (mapWrites W T lib c B0 r d a nOct (junk ph path) nt ph path)
  rows := d.1.count

/-! ## Specification -/

/-- The frequency at which the ridge of two transitions is recorded in the first dimension: the sum of their isotropic frequencies, weighted by
the first row of the matrix of the method. -/
noncomputable def Spec.ridgeAt (lib : Library) (c : String) (B0 : ℝ) (r : Rotor2) (a : List ℚ) (ph : Phys) (x y : List ℕ × List ℕ) : ℝ :=
  (if 0 < lib.gamma c then 1 else -1) *
    (((a.getD 0 0 : ℚ) : ℝ) * Spec.isotropic ⟨B0, 1, r.angle, r.freq.1⟩ ph.sites ph.couplings x
      + ((a.getD 1 0 : ℚ) : ℝ) * Spec.isotropic ⟨B0, 1, r.angle, r.freq.2⟩ ph.sites ph.couplings y)

/-- The frequency at which an orientation is recorded in the second dimension. -/
noncomputable def Spec.secondAt (lib : Library) (c : String) (B0 : ℝ) (r : Rotor2) (ph : Phys) (y : List ℕ × List ℕ) (p : ℝ × ℝ) : ℝ :=
  (if 0 < lib.gamma c then 1 else -1) * Spec.spinning ⟨B0, 1, r.angle, r.freq.2⟩ ph.sites ph.couplings y p

/-- Its mean over all orientations. -/
noncomputable def Spec.secondMean (lib : Library) (c : String) (B0 : ℝ) (r : Rotor2) (ph : Phys) (y : List ℕ × List ℕ) : ℝ :=
  (if 0 < lib.gamma c then 1 else -1) * Spec.isotropic ⟨B0, 1, r.angle, r.freq.2⟩ ph.sites ph.couplings y

/-- A pattern in the second dimension, of frequencies `f` with the mean `mean`: nowhere negative, nothing a point or more away from all the
frequencies and, with a single sideband and all frequencies on the axis, the weight `total` in all. -/
structure Spec.Pattern (d : Meth.SDim) (N : ℕ) (total : ℝ) (f : ℝ × ℝ → ℝ) (mean : ℝ) (S : ℕ → ℝ) : Prop where
  nonneg : ∀ col, 1 ≤ col → col < d.count → 0 ≤ S col
  above : ∀ col, 1 ≤ col → col < d.count → (∀ p, f p ≤ ((Meth.Spec.coord d col - d.sw / d.count : ℚ) : ℝ)) → S col = 0
  below : ∀ col, 1 ≤ col → col < d.count → (∀ p, ((Meth.Spec.coord d col + d.sw / d.count : ℚ) : ℝ) ≤ f p) → S col = 0
  all : N = 1 → (∀ p, ((Meth.Spec.coord d 1 : ℚ) : ℝ) ≤ f p ∧ f p ≤ ((Meth.Spec.coord d (d.count - 1) : ℚ) : ℝ)) →
    ((Meth.Spec.coord d 1 : ℚ) : ℝ) ≤ mean ∧ mean ≤ ((Meth.Spec.coord d (d.count - 1) : ℚ) : ℝ) → ∑ col ∈ Finset.Ico 1 d.count, S col = total

/-- The matrix `a` takes the fourth rank out of the first dimension of the pathway `path`, of the transitions `x` and `y`. -/
structure Spec.Refocused (a : List ℚ) (ph : Phys) (path : List Trans.Tr) (x y : List ℕ × List ℕ) : Prop where
  length : path.length = 2
  matrix : a = [a.getD 0 0, a.getD 1 0, 0, 1]
  numbers : packQ path = pack ph.sites [x, y]
  first : Spec.IsState ph.sites x.1 ∧ Spec.IsState ph.sites x.2
  second : Spec.IsState ph.sites y.1 ∧ Spec.IsState ph.sites y.2
  cancels : Spec.Cancels ((a.getD 0 0 : ℚ) : ℝ) ((a.getD 1 0 : ℚ) : ℝ) ph.sites x y

/-- A spin system of one site of the isotope `c`. -/
structure Spec.Single (lib : Library) (c : String) (s : Run.Sys Phys (List Trans.Tr)) (t : Site) : Prop where
  isotopes : s.isotopes = [c]
  phys : s.phys = ⟨[t], []⟩
  spin : t.n = lib.twoI c

/-- The spinning sidebands of both dimensions fall off the axes. -/
def Spec.SidebandsOff (lib : Library) (c : String) (B0 : ℝ) (r : Rotor2) (d : Meth.SDim × Meth.SDim) (a : List ℚ) (ph : Phys)
    (x y : List ℕ × List ℕ) (e : ℝ × ℝ) : Prop :=
  |Spec.ridgeAt lib c B0 r a ph x y - d.1.ref| + (2 * d.1.sw + e.1) ≤ |((a.getD 0 0 : ℚ) : ℝ)| * r.freq.1 ∧
  |Spec.secondMean lib c B0 r ph y - d.2.ref| + (2 * d.2.sw + e.2) ≤ r.freq.2

/-! ## Lemmas: positions -/

/-- The position in bins of a frequency, from the middle of the axis. -/
theorem position_middle (pos : Bool) (d : Meth.SDim) (hn : 1 ≤ d.count) (hsw : 0 < d.sw) (f : ℝ) :
    ((Meth.normalizeOffset pos d : ℚ) : ℝ) + f / ((d.sw / d.count : ℚ) : ℝ)
      = 1 / 2 + (d.count : ℝ) / 2 + (if pos then 1 else -1) * ((if pos then 1 else -1) * f - (d.ref : ℝ)) / ((d.sw / d.count : ℚ) : ℝ) := by
  have hn' : (0 : ℝ) < d.count := by exact_mod_cast hn
  have hsw' : (0 : ℝ) < (d.sw : ℝ) := by exact_mod_cast hsw
  unfold Meth.normalizeOffset Meth.refFactor
  cases pos
  all_goals
    simp only [Bool.false_eq_true, if_false, if_true]
    push_cast
    field_simp
    ring

theorem sign_cases (P : Prop) [Decidable P] : (if P then (1 : ℝ) else -1) = 1 ∨ (if P then (1 : ℝ) else -1) = -1 := by
  split_ifs <;> simp

theorem sign_sq (P : Prop) [Decidable P] : (if P then (1 : ℝ) else -1) * (if P then (1 : ℝ) else -1) = 1 := by
  split_ifs <;> norm_num

/-- A frequency more than two widths from the middle is off the axis. -/
theorem position_off (pos : Bool) (d : Meth.SDim) (hn : 1 ≤ d.count) (hsw : 0 < d.sw) (f δ : ℝ) (hδ : 0 ≤ δ)
    (h : 2 * (d.sw : ℝ) + δ ≤ |(if pos then 1 else -1) * f - (d.ref : ℝ)|) :
    let X := ((Meth.normalizeOffset pos d : ℚ) : ℝ) + f / ((d.sw / d.count : ℚ) : ℝ)
    let e := δ / ((d.sw / d.count : ℚ) : ℝ)
    (X ≤ -1 - e ∨ (d.count : ℝ) + 1 + e ≤ X) ∧ ∀ k : ℤ, 0 ≤ k → k < d.count → 1 + e ≤ |(k : ℝ) + 1 / 2 - X| := by
  intro X e
  have hn' : (1 : ℝ) ≤ d.count := by exact_mod_cast hn
  have hsw' : (0 : ℝ) < (d.sw : ℝ) := by exact_mod_cast hsw
  have hinc : ((d.sw / d.count : ℚ) : ℝ) = d.sw / d.count := by push_cast; rfl
  have hpos : (0 : ℝ) < d.sw / d.count := by positivity
  set z := (if pos then (1 : ℝ) else -1) * ((if pos then 1 else -1) * f - (d.ref : ℝ)) with hz
  have hX : X = 1 / 2 + (d.count : ℝ) / 2 + z / (d.sw / d.count) := by
    change _ + _ = _
    rw [position_middle pos d hn hsw f, hinc]
  have hz1 : 2 * (d.sw : ℝ) + δ ≤ |z| := by
    rw [hz, abs_mul]
    rcases sign_cases (pos = true) with h' | h' <;> rw [h'] at h ⊢ <;> simpa using h
  have hz2 : 2 * (d.count : ℝ) + e ≤ |z / (d.sw / d.count)| := by
    rw [abs_div, abs_of_pos hpos, le_div_iff₀ hpos]
    have h1 : e * (d.sw / d.count) = δ := by
      change δ / _ * _ = δ
      rw [hinc, div_mul_cancel₀ _ hpos.ne']
    have h2 : 2 * (d.count : ℝ) * (d.sw / d.count) = 2 * d.sw := by field_simp
    rw [add_mul, h1, h2]
    exact hz1
  have he : 0 ≤ e := by
    change 0 ≤ δ / _
    rw [hinc]
    positivity
  constructor
  · rw [hX]
    rcases le_abs.mp hz2 with h' | h'
    · right; linarith
    · left; linarith
  · intro k h0 h1
    have k0 : (0 : ℝ) ≤ k := by exact_mod_cast h0
    have k1 : (k : ℝ) + 1 ≤ d.count := by exact_mod_cast h1
    rw [hX]
    rcases le_abs.mp hz2 with h' | h'
    · rw [abs_of_nonpos (by linarith)]
      linarith
    · rw [abs_of_nonneg (by linarith)]
      linarith

theorem accBin_range (pos : Bool) (n j : ℕ) (h1 : 1 ≤ j) (h2 : j < n) : 1 ≤ accBin pos n j ∧ accBin pos n j < n := by
  unfold accBin
  split_ifs <;> omega

/-! ## Lemmas: the list of spin systems -/

theorem sum_apply2 {ι κ : Type} (l : List (ι → κ → ℝ)) (k : ι) (j : κ) : l.sum k j = (l.map fun g => g k j).sum := by
  induction l with
  | nil => rfl
  | cons g l ih => rw [List.sum_cons, List.map_cons, List.sum_cons, Pi.add_apply, Pi.add_apply, ih]

/-- The map of a list of spin systems is the sum over the systems and their pathways. -/
theorem map_run (W : WC) (T : TC) (lib : Library) (so : Trans.SetOrder) (c : String) (hγ : lib.gamma c ≠ 0) (dims : List (List Trans.Query))
    (a : List ℚ) (B0 : ℝ) (r : Rotor2) (d : Meth.SDim × Meth.SDim) [NeZero d.1.count] [NeZero d.2.count] (nOct : ℕ)
    (junk : Phys → List Trans.Tr → ℕ → ℕ → ℂ) (nt : ℕ) (l : List (Run.Sys Phys (List Trans.Tr)))
    (paths : Run.Sys Phys (List Trans.Tr) → List (List Trans.Tr))
    (hl : ∀ s ∈ l, s.explicit = none ∧ (c ∈ s.isotopes →
      Trans.transitionPathways so (isoSites lib s.isotopes) [c] dims = .ok (paths s) ∧ paths s ≠ []))
    (hu : ∀ a ∈ l, ∀ b ∈ l, c ∈ a.isotopes → c ∈ b.isotopes → a.isotopes.length = b.isotopes.length → a.isotopes = b.isotopes)
    (cpu nJobs : ℤ) (hJ : 1 ≤ nJobs) :
    ∃ v : ZMod d.1.count → ZMod d.2.count → ℝ,
      Run.run (mapEnv W T lib so c dims a B0 r d nOct junk nt) cpu false l nJobs = .ok [.spec v] ∧
      ∀ i j : ℕ, 1 ≤ i → i < d.1.count → 1 ≤ j → j < d.2.count → v i j = (l.map fun s =>
        if c ∈ s.isotopes then ((s.abundance / ((d.1.sw / d.1.count) * (d.2.sw / d.2.count)) : ℚ) : ℝ) *
          ((paths s).map fun p => Bin.val (accBin (decide (0 < lib.gamma c)) d.1.count i * d.2.count
            + accBin (decide (0 < lib.gamma c)) d.2.count j) (mapWrites W T lib c B0 r d a nOct (junk s.phys p) nt s.phys p)).sum
        else 0).sum := by
  classical
  set env := mapEnv W T lib so c dims a B0 r d nOct junk nt with henv
  set con : Run.Sys Phys (List Trans.Tr) → ZMod d.1.count → ZMod d.2.count → ℝ := fun s => if c ∈ s.isotopes then
      (s.abundance / ((d.1.sw / d.1.count) * (d.2.sw / d.2.count))) • ((paths s).map (env.core s.phys)).sum else 0 with hcon
  have halone : ∀ s ∈ l, Run.alone env s = .ok (if c ∈ s.isotopes then
      some ((s.abundance / ((d.1.sw / d.1.count) * (d.2.sw / d.2.count))) • ((paths s).map (env.core s.phys)).sum) else none) := by
    intro s hs
    unfold Run.alone
    by_cases hc : c ∈ s.isotopes
    · obtain ⟨h1, h2⟩ := (hl s hs).2 hc
      rw [if_neg (show ¬ env.channel ∉ s.isotopes from not_not.mpr hc), if_pos hc]
      have : Run.Spec.pathways env s = .ok (paths s) := by
        unfold Run.Spec.pathways
        rw [(hl s hs).1]
        exact h1
      rw [this]
      simp only [Bind.bind, Except.bind]
      rw [← foldl_core]
      cases hps : paths s with
      | nil => exact absurd hps h2
      | cons a b => rfl
    · rw [if_pos (show env.channel ∉ s.isotopes from hc), if_neg hc]
  have huni : Run.Spec.Uniform env l := by
    intro a ha b hb h1 h2 h3
    exact ⟨hu a ha b hb h1 h2 h3, by rw [(hl a ha).1, (hl b hb).1]⟩
  refine ⟨Run.mir env (l.map con).sum, ?_, fun i j hi1 hi2 hj1 hj2 => ?_⟩
  · rw [Run.run_sum env cpu l huni nJobs hJ, mapM_ok _ _ l halone]
    simp only
    rw [List.map_map]
    have : (Run.val ∘ fun s : Run.Sys Phys (List Trans.Tr) => if c ∈ s.isotopes then
        some ((s.abundance / ((d.1.sw / d.1.count) * (d.2.sw / d.2.count))) • ((paths s).map (env.core s.phys)).sum) else none) = con := by
      funext s
      simp only [Function.comp, hcon]
      split_ifs <;> rfl
    rw [this]
  · have hval : ∀ (n k : ℕ) [NeZero n], 1 ≤ k → k < n →
        (((if lib.gamma c < 0 then -(k : ZMod n) else k).val : ℕ) : ℤ) = accBin (decide (0 < lib.gamma c)) n k := by
      intro n k _ h1 h2
      have hv : (k : ZMod n).val = k := ZMod.val_natCast_of_lt h2
      unfold accBin
      rcases lt_or_gt_of_ne hγ with h0 | h0
      · rw [if_pos h0, if_neg (by simp [h0.le]), ZMod.neg_val, if_neg, hv]
        · omega
        · intro h3
          rw [h3, ZMod.val_zero] at hv
          omega
      · rw [if_neg (by linarith), if_pos (by simpa using h0), hv]
    have hmir : ∀ u : ZMod d.1.count → ZMod d.2.count → ℝ, Run.mir env u i j
        = u (if lib.gamma c < 0 then -(i : ZMod d.1.count) else i) (if lib.gamma c < 0 then -(j : ZMod d.2.count) else j) := by
      intro u
      unfold Run.mir
      by_cases h0 : lib.gamma c < 0
      · rw [if_pos (show env.gammaNeg = true from decide_eq_true h0), if_pos h0, if_pos h0]
        exact Sim.C59_mirror2 u i j
      · rw [if_neg (show ¬ env.gammaNeg = true from by
          change ¬ decide (lib.gamma c < 0) = true
          simpa using h0), if_neg h0, if_neg h0]
    rw [hmir, sum_apply2, List.map_map]
    congr 1
    refine List.map_congr_left fun s _ => ?_
    simp only [Function.comp, hcon]
    by_cases hc : c ∈ s.isotopes
    · rw [if_pos hc, if_pos hc, Pi.smul_apply, Pi.smul_apply, sum_apply2, List.map_map, Rat.smul_def]
      congr 2
      refine List.map_congr_left fun p _ => ?_
      simp only [Function.comp]
      change Bin.val _ _ = _
      rw [hval d.1.count i hi1 hi2, hval d.2.count j hj1 hj2]
    · rw [if_neg hc, if_neg hc]
      rfl

/-! ## Lemmas: negative tilts -/

theorem eventLoop_upright (W : WC) (T : TC) (four : Bool) (nt nOct : ℕ) (ss : List Site) (ks : List Coupling) (es : List Event) (b : Bool)
    (s : CoreState) :
    eventLoop W T four nt nOct (ss.map Spec.absSite) (ks.map Spec.absCoupling) b es s = eventLoop W T four nt nOct ss ks b es s := by
  induction es generalizing b s with
  | nil => rfl
  | cons e es ih =>
    have : eventStep W T four nt nOct (ss.map Spec.absSite) (ks.map Spec.absCoupling) b e s = eventStep W T four nt nOct ss ks b e s := by
      unfold eventStep
      simp only [List.length_map, components_absolute]
    rw [eventLoop, eventLoop, this]
    cases eventStep W T four nt nOct ss ks b e s with
    | error x => rfl
    | ok s => exact ih _ _

theorem coreLoop_upright (W : WC) (T : TC) (four : Bool) (nt nOct : ℕ) (ss : List Site) (ks : List Coupling) (ds : List Dimension)
    (P : ℕ → ℕ → ℂ) (path : List ℝ) :
    coreLoop W T four nt nOct (ss.map Spec.absSite) (ks.map Spec.absCoupling) ds P path = coreLoop W T four nt nOct ss ks ds P path := by
  induction ds generalizing P path with
  | nil => rfl
  | cons d ds ih =>
    rw [coreLoop, coreLoop, eventLoop_upright]
    cases eventLoop W T four nt nOct ss ks true d.events ⟨d, P, path⟩ with
    | error x => rfl
    | ok s => simp only [ih]

/-- The program computes with the absolute values of the second Euler angles. -/
theorem mapWrites_upright (W : WC) (T : TC) (lib : Library) (c : String) (htwo : 1 < lib.twoI c) (B0 : ℝ) (r : Rotor2)
    (d : Meth.SDim × Meth.SDim) (a : List ℚ) (nOct : ℕ) (junk : ℕ → ℕ → ℂ) (nt : ℕ) (ph : Phys) (path : List Trans.Tr) :
    mapWrites W T lib c B0 r d a nOct junk nt (Spec.upright ph) path = mapWrites W T lib c B0 r d a nOct junk nt ph path := by
  unfold mapWrites
  split
  · simp only [packed_big _ htwo, Spec.upright, methodComponents, components_absolute, map2D, coreLoop_upright]
  · rfl

theorem refocused_upright (a : List ℚ) (ph : Phys) (path : List Trans.Tr) (x y : List ℕ × List ℕ) (h : Spec.Refocused a ph path x y) :
    Spec.Refocused a (Spec.upright ph) path x y := by
  refine ⟨h.length, h.matrix, ?_, ⟨isState_abs _ _ h.first.1, isState_abs _ _ h.first.2⟩, ⟨isState_abs _ _ h.second.1, isState_abs _ _ h.second.2⟩, ?_⟩
  · rw [h.numbers]
    unfold pack
    simp only [Spec.upright, quantum_absolute]
  · intro k s hs hn
    simp only [Spec.upright, List.getElem?_map, Option.map_eq_some_iff] at hs
    obtain ⟨s', hs', rfl⟩ := hs
    exact h.cancels k s' hs' hn

/-! ## Lemmas: one pathway -/

theorem frames_nonneg (W : WC) (four : Bool) (nt nOct N : ℕ) [NeZero N] (hn : 1 ≤ nt) (θ : ℝ) (ν off : ℝ × ℝ) (count : ℕ × ℕ) (P : ℕ → ℕ → ℂ)
    (t u : Tens) (i : ℕ) :
    0 ≤ (frames W four nt nOct N θ ν off count P t u).1.amp i ∧ 0 ≤ (frames W four nt nOct N θ ν off count P t u).2.amp i := by
  have hev : ∀ (νr cθ sθ : ℝ) (bs : List Block) (a : ℕ), 0 ≤ eventAmplitude W four nt nOct N νr cθ sθ bs a := by
    intro νr cθ sθ bs a
    unfold eventAmplitude
    simp only
    split_ifs
    · exact zero_le_one
    · split
      · exact le_rfl
      · unfold Sim.sidebandAmps
        simp only
        exact add_nonneg (mul_self_nonneg _) (mul_self_nonneg _)
  refine ⟨hev _ _ _ _ _, mul_nonneg (hev _ _ _ _ _) ?_⟩
  have hq : i % Bin.nPts nt < Bin.nPts nt := Nat.mod_lt _ (by
    have := Bin.rank_lt nt (0, 0) (by simp)
    omega)
  unfold Sim.normAmplitude
  refine mul_nonneg ?_ (by positivity)
  obtain ⟨p, hp⟩ : ∃ p, (Bin.Spec.grid nt)[i % Bin.nPts nt]? = some p := by
    obtain ⟨j, q, p, α, β, h1, h2, h3, -⟩ := index_dir nt 1 hn (i % Bin.nPts nt) (by omega)
    have : j = 0 := by omega
    subst this
    rw [zero_mul, zero_add] at h1
    exact ⟨p, by rw [h1]; exact h3⟩
  rw [Bin.weight_eq nt hn _ p hp]
  have := Bin.len_pos nt hn p
  positivity

theorem sum_accBin (pos : Bool) (n : ℕ) (f : ℤ → ℝ) : ∑ col ∈ Finset.Ico 1 n, f (accBin pos n col) = ∑ col ∈ Finset.Ico 1 n, f col := by
  cases pos
  · refine Finset.sum_nbij' (fun k => n - k) (fun k => n - k) ?_ ?_ ?_ ?_ ?_
    · intro k hk
      rw [Finset.mem_Ico] at hk ⊢
      omega
    · intro k hk
      rw [Finset.mem_Ico] at hk ⊢
      omega
    · intro k hk
      rw [Finset.mem_Ico] at hk
      omega
    · intro k hk
      rw [Finset.mem_Ico] at hk
      omega
    · intro k hk
      rw [Finset.mem_Ico] at hk
      congr 1
      unfold accBin
      simp only [Bool.false_eq_true, if_false]
      omega
  · rfl

theorem totalAmplitude_sum (nt nOct N : ℕ) (hO : 1 ≤ nOct) (hN : N = 1) (amp : ℕ → ℕ → ℝ)
    (h : ∀ j q, q < Bin.nPts nt → amp j q = Sim.normAmplitude N nOct (Bin.weight nt q)) :
    ∑ j ∈ Finset.range nOct, Bin.totalAmplitude nt (amp j) = Bin.totalAmplitude nt (Bin.weight nt) := by
  have hO' : (nOct : ℝ) ≠ 0 := by
    have : nOct ≠ 0 := by omega
    exact_mod_cast this
  have : ∀ j, Bin.totalAmplitude nt (amp j) = (1 / nOct) * Bin.totalAmplitude nt (Bin.weight nt) := by
    intro j
    rw [Bin.totalAmplitude_triList, Bin.totalAmplitude_triList, ← List.sum_map_mul_left]
    congr 1
    refine List.map_congr_left fun t ht => ?_
    obtain ⟨b1, b2, b3⟩ := Bin.tri_bounds nt t ht
    rw [h j _ (Bin.rank_lt nt _ b1), h j _ (Bin.rank_lt nt _ b2), h j _ (Bin.rank_lt nt _ b3)]
    unfold Sim.normAmplitude
    subst hN
    push_cast
    ring
  rw [Finset.sum_congr rfl fun j _ => this j, Finset.sum_const, Finset.card_range, nsmul_eq_mul]
  field_simp

/-- What one pathway gives to the map. -/
theorem path_ridge (lib : Library) (c : String) (htwo : 1 < lib.twoI c) (B0 : ℝ) (r : Rotor2) (h0 : 0 < r.freq.1) (h1 : 0 < r.freq.2)
    (hθ : 3 * Real.cos r.angle ^ 2 = 1) (d : Meth.SDim × Meth.SDim) (h : ℕ × ℕ) (hd : d.1.count = 2 * h.1 ∧ d.2.count = 2 * h.2)
    (hh : 1 ≤ h.1 ∧ 1 ≤ h.2) (hsw : 0 < d.1.sw ∧ 0 < d.2.sw) (a : List ℚ) (nOct : ℕ) (hO : nOct = 1 ∨ nOct = 4) (junk : ℕ → ℕ → ℂ)
    (nt : ℕ) (hn : 1 ≤ nt) (ph : Phys) (hs : ∀ s ∈ ph.sites, s.Upright ∧ 1 ≤ s.n)
    (hk : ∀ k ∈ ph.couplings, k.Upright ∧ k.A < ph.sites.length ∧ k.X < ph.sites.length) (path : List Trans.Tr) (x y : List ℕ × List ℕ)
    (hr : Spec.Refocused a ph path x y) (hoff : Spec.SidebandsOff lib c B0 r d a ph x y 0) :
    ∃ S : ℕ → ℝ, Spec.Pattern d.2 r.sidebands (Bin.totalAmplitude nt (Bin.weight nt)) (Spec.secondAt lib c B0 r ph y)
        (Spec.secondMean lib c B0 r ph y) S ∧
      (∃ w, mapWrites WC.exact TC.exact lib c B0 r d a nOct junk nt ph path = .ok w) ∧
      ∀ i j : ℕ, 1 ≤ i → i < d.1.count → 1 ≤ j → j < d.2.count →
        Bin.val (accBin (decide (0 < lib.gamma c)) d.1.count i * d.2.count + accBin (decide (0 < lib.gamma c)) d.2.count j)
          (mapWrites WC.exact TC.exact lib c B0 r d a nOct junk nt ph path)
        = Spec.peak (decide (0 < lib.gamma c)) d.1 i (Spec.ridgeAt lib c B0 r a ph x y) * S j := by
  have := r.pos
  have hn0 : 1 ≤ d.1.count := by omega
  have hn1 : 1 ≤ d.2.count := by omega
  have hO1 : 1 ≤ nOct := by omega
  obtain ⟨p, q, rfl⟩ : ∃ p q, path = [p, q] := by
    have := hr.length
    match path, this with
    | [p, q], _ => exact ⟨p, q, rfl⟩
  set a0 := ((a.getD 0 0 : ℚ) : ℝ) with ha0
  set a1 := ((a.getD 1 0 : ℚ) : ℝ) with ha1
  have hamap : (a.map fun (q : ℚ) => (q : ℝ)) = [a0, a1, 0, 1] := by
    rw [hr.matrix, ha0, ha1]
    simp
  set pos := decide (0 < lib.gamma c) with hpos
  have hsgn : (if 0 < lib.gamma c then (1 : ℝ) else -1) = if pos then 1 else -1 := by
    rw [hpos]
    simp only [decide_eq_true_eq]
  set inc0 : ℝ := ((d.1.sw / d.1.count : ℚ) : ℝ) with hinc0
  set inc1 : ℝ := ((d.2.sw / d.2.count : ℚ) : ℝ) with hinc1
  have i0 : 0 < inc0 := by
    have : (0 : ℚ) < d.1.sw / d.1.count := div_pos hsw.1 (by exact_mod_cast hn0)
    rw [hinc0]
    exact_mod_cast this
  have i1 : 0 < inc1 := by
    have : (0 : ℚ) < d.2.sw / d.2.count := div_pos hsw.2 (by exact_mod_cast hn1)
    rw [hinc1]
    exact_mod_cast this
  set off0 : ℝ := ((Meth.normalizeOffset pos d.1 : ℚ) : ℝ) with hoff0
  set off1 : ℝ := ((Meth.normalizeOffset pos d.2 : ℚ) : ℝ) with hoff1
  set P := startRows true junk nt with hP
  set f := frames WC.exact true nt nOct r.sidebands r.angle r.freq (off0, off1) (d.1.count, d.2.count) P
    (methodComponents WC.exact TC.exact (lib.twoI c) B0 ph.sites ph.couplings (p.1.map fun (m : ℚ) => (m : ℝ)) (p.2.map fun (m : ℚ) => (m : ℝ)))
    (methodComponents WC.exact TC.exact (lib.twoI c) B0 ph.sites ph.couplings (q.1.map fun (m : ℚ) => (m : ℝ)) (q.2.map fun (m : ℚ) => (m : ℝ)))
    with hf
  set isox := Spec.isotropic ⟨B0, 1, r.angle, r.freq.1⟩ ph.sites ph.couplings x with hisox
  set isoy := Spec.isotropic ⟨B0, 1, r.angle, r.freq.2⟩ ph.sites ph.couplings y with hisoy
  have hfour : fourth (lib.twoI c) = true := decide_eq_true htwo
  have hct : f.1.count = d.1.count ∧ f.2.count = d.2.count := ⟨rfl, rfl⟩
  have hno : f.1.norm = off0 ∧ f.2.norm = off1 := ⟨rfl, rfl⟩
  obtain ⟨ν, w, hν, hw, hR⟩ := C90_ridge_partial nt nOct r.sidebands hn hO junk a0 a1 B0 r.angle r.freq.1 r.freq.2 h0 h1 hθ (inc0, inc1) ⟨i0, i1⟩
    (⟨1 / inc0, [⟨B0, 1, r.angle, r.freq.1⟩], 0, fun _ => 0⟩, ⟨1 / inc1, [⟨B0, 1, r.angle, r.freq.2⟩], 0, fun _ => 0⟩)
    ⟨rfl, rfl⟩ ⟨rfl, rfl⟩ f.1 f.2 hn1 ph.sites ph.couplings x y hr.first hr.second hs hk hr.cancels
    (fun i k => off0 + (a0 * (isox + f.1.vr i) + a1 * (isoy + f.2.vr k)) / inc0) (fun k => off1 + (isoy + f.2.vr k) / inc1)
    (fun _ _ => rfl) (fun _ => rfl)
  have hamp : ∀ i, 0 ≤ f.1.amp i ∧ 0 ≤ f.2.amp i := fun i => frames_nonneg WC.exact true nt nOct r.sidebands hn r.angle r.freq (off0, off1)
    (d.1.count, d.2.count) P _ _ i
  have hone : r.sidebands = 1 → ∀ i, f.1.amp i * f.2.amp i = Sim.normAmplitude r.sidebands nOct (Bin.weight nt (i % Bin.nPts nt)) := by
    intro hN i
    rw [hf]
    unfold frames eventAmplitude
    simp only [if_pos hN, one_mul]
  have hval : mapWrites WC.exact TC.exact lib c B0 r d a nOct junk nt ph [p, q] = .ok w := by
    rw [← hw]
    unfold mapWrites
    simp only
    rw [hfour, packed_big _ htwo, hamap, hr.numbers]
  have hvr1 : f.1.vr 0 = 0 := order_zero r.sidebands r.freq.1
  have hvr2 : f.2.vr 0 = 0 := order_zero r.sidebands r.freq.2
  have hfar1 : ∀ k < r.sidebands, k ≠ 0 → r.freq.1 ≤ |f.1.vr k| := fun k hk h => order_far r.sidebands r.freq.1 h0.le k hk h
  have hfar2 : ∀ k < r.sidebands, k ≠ 0 → r.freq.2 ≤ |f.2.vr k| := fun k hk h => order_far r.sidebands r.freq.2 h1.le k hk h
  clear_value f
  clear hf hw
  obtain ⟨ho1, ho2⟩ := hoff
  simp only [Prod.fst_zero, Prod.snd_zero, add_zero] at ho1 ho2
  unfold Spec.ridgeAt at ho1
  unfold Spec.secondMean at ho2
  rw [hsgn, ← ha0, ← ha1, ← hisox, ← hisoy] at ho1
  rw [hsgn, ← hisoy] at ho2
  -- the sidebands
  have hY : ∀ k < r.sidebands, k ≠ 0 → Bin.inWindow (off1 + (isoy + f.2.vr k) / inc1) d.2.count = false := by
    intro k hk hk0
    have := (position_off pos d.2 hn1 hsw.2 (isoy + f.2.vr k) 0 le_rfl (by
      have h3 := hfar2 k hk hk0
      have h4 : |(if pos then (1 : ℝ) else -1) * f.2.vr k| = |f.2.vr k| := by
        rcases sign_cases (pos = true) with h' | h' <;> rw [h'] <;> simp
      have h5 := abs_sub_abs_le_abs_sub ((if pos then (1 : ℝ) else -1) * f.2.vr k) (-((if pos then 1 else -1) * isoy - (d.2.ref : ℝ)))
      rw [h4, abs_neg] at h5
      rw [show ∀ a b c e : ℝ, e * (a + b) - c = e * b - -(e * a - c) by intros; ring]
      linarith)).1
    rw [zero_div, sub_zero, add_zero, ← hoff1, ← hinc1] at this
    rw [← Bool.not_eq_true, inWindow_iff _ _ (by omega)]
    push_cast
    rintro ⟨g1, g2⟩
    rcases this with h' | h' <;> linarith
  have hX : ∀ k < r.sidebands, k ≠ 0 → Bin.inWindow (off0 + (a0 * (isox + f.1.vr k) + a1 * (isoy + f.2.vr 0)) / inc0) d.1.count = false := by
    intro k hk hk0
    have := (position_off pos d.1 hn0 hsw.1 (a0 * (isox + f.1.vr k) + a1 * (isoy + f.2.vr 0)) 0 le_rfl (by
      have h3 := mul_le_mul_of_nonneg_left (hfar1 k hk hk0) (abs_nonneg a0)
      have h4 : |(if pos then (1 : ℝ) else -1) * (a0 * f.1.vr k)| = |a0| * |f.1.vr k| := by
        rcases sign_cases (pos = true) with h' | h' <;> rw [h'] <;> simp [abs_mul]
      have h5 := abs_sub_abs_le_abs_sub ((if pos then (1 : ℝ) else -1) * (a0 * f.1.vr k)) (-((if pos then 1 else -1) * (a0 * isox + a1 * isoy) - (d.1.ref : ℝ)))
      rw [h4, abs_neg] at h5
      rw [hvr2, show ∀ e u v : ℝ, e * (a0 * (isox + u) + a1 * (isoy + 0)) - v = e * (a0 * u) - -(e * (a0 * isox + a1 * isoy) - v) by intros; ring]
      linarith)).1
    rw [zero_div, sub_zero, add_zero, ← hoff0, ← hinc0] at this
    rw [← Bool.not_eq_true, inWindow_iff _ _ (by omega)]
    push_cast
    rintro ⟨g1, g2⟩
    rcases this with h' | h' <;> linarith
  set X := off0 + (a0 * isox + a1 * isoy) / inc0 with hXd
  have hNpos : 0 < r.sidebands := Nat.pos_of_ne_zero (NeZero.ne _)
  -- the pattern
  set Sz : ℤ → ℝ := fun col => if Bin.inWindow (off1 + isoy / inc1) d.2.count then ∑ j ∈ Finset.range nOct,
    Bin.rowShape nt (fun q => off1 + ν (j * Bin.nPts nt + q) / inc1)
      (fun q => f.1.amp (0 * (nOct * Bin.nPts nt) + j * Bin.nPts nt + q) * f.2.amp (0 * (nOct * Bin.nPts nt) + j * Bin.nPts nt + q))
      d.2.count col else 0 with hSz
  have hentry : ∀ i col : ℤ, 0 ≤ col → col < d.2.count → Bin.at_ (i * d.2.count + col) w
      = if Bin.inWindow X d.1.count then Bin.at_ i (Bin.deltaFn X d.1.count 1) * Sz col else 0 := by
    intro i col hc0 hc1
    have hR' := hR i col hc0 (by rw [hct.2]; exact hc1)
    rw [hct.1, hct.2, hno.2] at hR'
    rw [hR']
    rw [Finset.sum_eq_single_of_mem 0 (Finset.mem_range.mpr hNpos), Finset.sum_eq_single_of_mem 0 (Finset.mem_range.mpr hNpos)]
    · simp only [hvr1, hvr2, add_zero]
      change (if Bin.inWindow X d.1.count && Bin.inWindow (off1 + isoy / inc1) d.2.count then _ else _) = _
      rw [hSz]
      beta_reduce
      by_cases g1 : Bin.inWindow X d.1.count = true
      · by_cases g2 : Bin.inWindow (off1 + isoy / inc1) d.2.count = true
        · rw [if_pos (by rw [g1, g2]; rfl), if_pos g1, if_pos g2, Finset.mul_sum]
        · rw [if_neg (by simp [g2]), if_pos g1, if_neg g2, mul_zero]
      · rw [if_neg (by simp [g1]), if_neg g1]
    · intro k hk hk0
      rw [Finset.mem_range] at hk
      rw [if_neg]
      rw [Bool.and_eq_true]
      rintro ⟨-, g⟩
      rw [hY k hk hk0] at g
      cases g
    · intro i hi hi0
      rw [Finset.mem_range] at hi
      refine Finset.sum_eq_zero fun k hk => ?_
      rw [Finset.mem_range] at hk
      rw [if_neg]
      rw [Bool.and_eq_true]
      rintro ⟨g, g'⟩
      by_cases hk0 : k = 0
      · subst hk0
        rw [hX i hi hi0] at g
        cases g
      · rw [hY k hk hk0] at g'
        cases g'
  have hnu : ∀ j < nOct, ∀ q < Bin.nPts nt, ∃ o : ℝ × ℝ, ν (j * Bin.nPts nt + q) = Spec.spinning ⟨B0, 1, r.angle, r.freq.2⟩ ph.sites ph.couplings y o := by
    intro j hj q hq
    have hlt : j * Bin.nPts nt + q < nOct * Bin.nPts nt := by
      calc j * Bin.nPts nt + q < j * Bin.nPts nt + Bin.nPts nt := by omega
        _ = (j + 1) * Bin.nPts nt := by ring
        _ ≤ nOct * Bin.nPts nt := Nat.mul_le_mul_right _ hj
    obtain ⟨j', q', p', α, β, e, hj', hq', hp'⟩ := index_dir nt nOct hn _ hlt
    rw [e]
    exact ⟨_, hν j' q' p' α β hj' hq' hp'⟩
  have hposn : ∀ (g : ℝ) (col : ℕ), off1 + g / inc1 - ((accBin pos d.2.count col : ℝ) + 1 / 2)
      = (if pos then 1 else -1) * (((if pos then 1 else -1) * g - ((Meth.Spec.coord d.2 col : ℚ) : ℝ)) / inc1) := by
    intro g col
    have h' := position_eq pos d.2 h.2 hd.2 hh.2 hsw.2 col g
    rw [show ((1 / (d.2.sw / d.2.count) : ℚ) : ℝ) * g = g / inc1 by rw [Rat.cast_div, Rat.cast_one, ← hinc1]; ring,
      ← hoff1, ← hinc1] at h'
    exact h'
  have hsec : ∀ o, Spec.secondAt lib c B0 r ph y o
      = (if pos then 1 else -1) * Spec.spinning ⟨B0, 1, r.angle, r.freq.2⟩ ph.sites ph.couplings y o := by
    intro o
    unfold Spec.secondAt
    rw [hsgn]
  refine ⟨fun j => Sz (accBin pos d.2.count j), ⟨?_, ?_, ?_, ?_⟩, ⟨w, hval⟩, ?_⟩
  · intro col hc1 hc2
    obtain ⟨b1, b2⟩ := accBin_range pos d.2.count col hc1 hc2
    simp only [hSz]
    split_ifs
    · refine Finset.sum_nonneg fun j _ => Bin.rowShape_nonneg _ _ _ (fun q _ => ?_) _ _ b1 b2
      exact mul_nonneg (hamp _).1 (hamp _).2
    · exact le_rfl
  · intro col hc1 hc2 hall
    obtain ⟨b1, b2⟩ := accBin_range pos d.2.count col hc1 hc2
    simp only [hSz]
    split_ifs
    · refine Finset.sum_eq_zero fun j hj => Bin.rowShape_away _ _ _ _ _ b1 b2 ?_
      rw [Finset.mem_range] at hj
      have key : ∀ q < Bin.nPts nt, (if pos then (1 : ℝ) else -1) * (off1 + ν (j * Bin.nPts nt + q) / inc1 - ((accBin pos d.2.count col : ℝ) + 1 / 2)) ≤ -1 := by
        intro q hq
        obtain ⟨o, ho⟩ := hnu j hj q hq
        have g := hall o
        rw [hsec, ← ho] at g
        push_cast at g
        have g' : ((if pos then 1 else -1) * ν (j * Bin.nPts nt + q) - ((Meth.Spec.coord d.2 col : ℚ) : ℝ)) / inc1 ≤ -1 := by
          rw [div_le_iff₀ i1, hinc1]
          push_cast
          linarith
        rw [hposn, ← mul_assoc, sign_sq, one_mul]
        exact g'
      cases hp : pos
      · right
        intro q hq
        have := key q hq
        rw [hp] at this
        simp only [Bool.false_eq_true, if_false] at this
        linarith
      · left
        intro q hq
        have := key q hq
        rw [hp] at this
        simp only [if_true] at this
        linarith
    · rfl
  · intro col hc1 hc2 hall
    obtain ⟨b1, b2⟩ := accBin_range pos d.2.count col hc1 hc2
    simp only [hSz]
    split_ifs
    · refine Finset.sum_eq_zero fun j hj => Bin.rowShape_away _ _ _ _ _ b1 b2 ?_
      rw [Finset.mem_range] at hj
      have key : ∀ q < Bin.nPts nt, 1 ≤ (if pos then (1 : ℝ) else -1) * (off1 + ν (j * Bin.nPts nt + q) / inc1 - ((accBin pos d.2.count col : ℝ) + 1 / 2)) := by
        intro q hq
        obtain ⟨o, ho⟩ := hnu j hj q hq
        have g := hall o
        rw [hsec, ← ho] at g
        push_cast at g
        have g' : 1 ≤ ((if pos then 1 else -1) * ν (j * Bin.nPts nt + q) - ((Meth.Spec.coord d.2 col : ℚ) : ℝ)) / inc1 := by
          rw [le_div_iff₀ i1, hinc1]
          push_cast
          linarith
        rw [hposn, ← mul_assoc, sign_sq, one_mul]
        exact g'
      cases hp : pos
      · left
        intro q hq
        have := key q hq
        rw [hp] at this
        simp only [Bool.false_eq_true, if_false] at this
        linarith
      · right
        intro q hq
        have := key q hq
        rw [hp] at this
        simp only [if_true] at this
        linarith
    · rfl
  · intro hN hall hmean
    have hin : ∀ g : ℝ, ((Meth.Spec.coord d.2 1 : ℚ) : ℝ) ≤ (if pos then 1 else -1) * g ∧
        (if pos then 1 else -1) * g ≤ ((Meth.Spec.coord d.2 (d.2.count - 1) : ℚ) : ℝ) →
        3 / 2 ≤ off1 + g / inc1 ∧ off1 + g / inc1 ≤ d.2.count - 1 / 2 := by
      intro g hg
      have p1 := hposn g 1
      have p2 := hposn g (d.2.count - 1)
      have q1 : 0 ≤ ((if pos then 1 else -1) * g - ((Meth.Spec.coord d.2 1 : ℚ) : ℝ)) / inc1 := div_nonneg (by linarith [hg.1]) i1.le
      have q2 : ((if pos then 1 else -1) * g - ((Meth.Spec.coord d.2 (d.2.count - 1) : ℚ) : ℝ)) / inc1 ≤ 0 :=
        div_nonpos_of_nonpos_of_nonneg (by linarith [hg.2]) i1.le
      rw [show (((d.2.count - 1 : ℕ) : ℕ) : ℤ) = (d.2.count : ℤ) - 1 by omega] at p2
      rw [Nat.cast_one] at p1
      unfold accBin at p1 p2
      cases hp : pos
      · rw [hp] at p1 p2 q1 q2
        simp only [Bool.false_eq_true, if_false] at p1 p2 q1 q2
        rw [show (d.2.count : ℤ) - ((d.2.count - 1 : ℕ) : ℤ) = 1 by omega] at p2
        push_cast at p1 p2
        constructor <;> linarith
      · rw [hp] at p1 p2 q1 q2
        simp only [if_true] at p1 p2 q1 q2
        rw [show ((d.2.count - 1 : ℕ) : ℤ) = (d.2.count : ℤ) - 1 by omega] at p2
        push_cast at p1 p2
        constructor <;> linarith
    have hmw : Bin.inWindow (off1 + isoy / inc1) d.2.count = true := by
      unfold Spec.secondMean at hmean
      rw [hsgn, ← hisoy] at hmean
      have := hin isoy hmean
      rw [inWindow_iff _ _ (by omega)]
      push_cast
      exact ⟨by linarith [this.1], by linarith [this.2]⟩
    rw [sum_accBin pos d.2.count Sz]
    simp only [hSz, if_pos hmw]
    rw [Finset.sum_comm, ← totalAmplitude_sum nt nOct r.sidebands hO1 hN
      (fun j q => f.1.amp (0 * (nOct * Bin.nPts nt) + j * Bin.nPts nt + q) * f.2.amp (0 * (nOct * Bin.nPts nt) + j * Bin.nPts nt + q))]
    · refine Finset.sum_congr rfl fun j hj => Bin.rowShape_total _ _ _ _ fun q hq => hin _ ?_
      rw [Finset.mem_range] at hj
      obtain ⟨o, ho⟩ := hnu j hj q hq
      have := hall o
      rw [hsec, ← ho] at this
      exact this
    · intro j q hq
      rw [hone hN, zero_mul, zero_add, Nat.mul_comm, Nat.mul_add_mod, Nat.mod_eq_of_lt hq]
  · intro i j hi1 hi2 hj1 hj2
    obtain ⟨b1, b2⟩ := accBin_range pos d.1.count i hi1 hi2
    obtain ⟨c1, c2⟩ := accBin_range pos d.2.count j hj1 hj2
    rw [hval]
    change Bin.at_ _ w = _
    rw [hentry _ _ (by omega) c2]
    have hpk := position_peak pos d.1 h.1 hd.1 hh.1 hsw.1 i (a0 * isox + a1 * isoy)
    have hXe : ((Meth.normalizeOffset pos d.1 : ℚ) : ℝ) + ((1 / (d.1.sw / d.1.count) : ℚ) : ℝ) * (a0 * isox + a1 * isoy) = X := by
      rw [hXd, Rat.cast_div, Rat.cast_one, one_div, ← hoff0, ← hinc0, div_eq_inv_mul]
    rw [hXe] at hpk
    have hridge : Spec.ridgeAt lib c B0 r a ph x y = (if pos then 1 else -1) * (a0 * isox + a1 * isoy) := by
      unfold Spec.ridgeAt
      rw [hsgn]
    rw [hridge, ← hpk, Bin.delta_tent X 1 _ _ b1 b2]
    by_cases hin : 0 ≤ X ∧ X < ((d.1.count : ℤ) : ℝ)
    · rw [if_pos hin, if_pos hin, one_mul, if_pos (by
        rw [inWindow_iff _ _ (by omega)]
        exact ⟨by linarith [hin.1], by linarith [hin.2]⟩)]
    · rw [if_neg hin, if_neg hin, zero_mul, ite_self]

/-- The same for axes of any tilt. -/
theorem path_upright (lib : Library) (c : String) (htwo : 1 < lib.twoI c) (B0 : ℝ) (r : Rotor2) (h0 : 0 < r.freq.1) (h1 : 0 < r.freq.2)
    (hθ : 3 * Real.cos r.angle ^ 2 = 1) (d : Meth.SDim × Meth.SDim) (h : ℕ × ℕ) (hd : d.1.count = 2 * h.1 ∧ d.2.count = 2 * h.2)
    (hh : 1 ≤ h.1 ∧ 1 ≤ h.2) (hsw : 0 < d.1.sw ∧ 0 < d.2.sw) (a : List ℚ) (nOct : ℕ) (hO : nOct = 1 ∨ nOct = 4) (junk : ℕ → ℕ → ℂ)
    (nt : ℕ) (hn : 1 ≤ nt) (ph : Phys) (hs : ∀ s ∈ ph.sites, 1 ≤ s.n)
    (hk : ∀ k ∈ ph.couplings, k.A < ph.sites.length ∧ k.X < ph.sites.length) (path : List Trans.Tr) (x y : List ℕ × List ℕ)
    (hr : Spec.Refocused a ph path x y) (hoff : Spec.SidebandsOff lib c B0 r d a (Spec.upright ph) x y 0) :
    ∃ S : ℕ → ℝ, Spec.Pattern d.2 r.sidebands (Bin.totalAmplitude nt (Bin.weight nt)) (Spec.secondAt lib c B0 r (Spec.upright ph) y)
        (Spec.secondMean lib c B0 r (Spec.upright ph) y) S ∧
      (∃ w, mapWrites WC.exact TC.exact lib c B0 r d a nOct junk nt ph path = .ok w) ∧
      ∀ i j : ℕ, 1 ≤ i → i < d.1.count → 1 ≤ j → j < d.2.count →
        Bin.val (accBin (decide (0 < lib.gamma c)) d.1.count i * d.2.count + accBin (decide (0 < lib.gamma c)) d.2.count j)
          (mapWrites WC.exact TC.exact lib c B0 r d a nOct junk nt ph path)
        = Spec.peak (decide (0 < lib.gamma c)) d.1 i (Spec.ridgeAt lib c B0 r a (Spec.upright ph) x y) * S j := by
  have := path_ridge lib c htwo B0 r h0 h1 hθ d h hd hh hsw a nOct hO junk nt hn (Spec.upright ph)
    (by
      intro s hs'
      obtain ⟨s', h', rfl⟩ := List.mem_map.mp hs'
      exact ⟨⟨abs_nonneg _, abs_nonneg _⟩, hs s' h'⟩)
    (by
      intro k hk'
      obtain ⟨k', h', rfl⟩ := List.mem_map.mp hk'
      simp only [Spec.upright, List.length_map]
      exact ⟨⟨abs_nonneg _, abs_nonneg _⟩, hk k' h'⟩) path x y (refocused_upright a ph path x y hr) hoff
  simpa only [mapWrites_upright _ _ lib c htwo] using this

/-- The same with the decimals of the source, on any angle. -/
theorem path_near (lib : Library) (c : String) (htwo : 1 < lib.twoI c) (B0 : ℝ) (r : Rotor2) (h0 : 0 < r.freq.1) (h1 : 0 < r.freq.2)
    (d : Meth.SDim × Meth.SDim) (h : ℕ × ℕ) (hd : d.1.count = 2 * h.1 ∧ d.2.count = 2 * h.2)
    (hh : 1 ≤ h.1 ∧ 1 ≤ h.2) (hsw : 0 < d.1.sw ∧ 0 < d.2.sw) (a : List ℚ) (nOct : ℕ) (hO : nOct = 1 ∨ nOct = 4) (junk : ℕ → ℕ → ℂ)
    (nt : ℕ) (hn : 1 ≤ nt) (ph : Phys) (hs : ∀ s ∈ ph.sites, 1 ≤ s.n ∧ |s.eta| ≤ 1 ∧ |s.etaQ| ≤ 1)
    (hk : ∀ k ∈ ph.couplings, k.A < ph.sites.length ∧ k.X < ph.sites.length ∧ |k.eta| ≤ 1) (path : List Trans.Tr) (x y : List ℕ × List ℕ)
    (hr : Spec.Refocused a ph path x y) (M : ℝ) (e : ℝ × ℝ) (he : 0 ≤ e.1 ∧ 0 ≤ e.2)
    (hM : ∀ p, |Spec.anisotropy ((a.getD 0 0 : ℚ) : ℝ) ((a.getD 1 0 : ℚ) : ℝ) B0 (Spec.upright ph).sites (Spec.upright ph).couplings x y p| ≤ M)
    (he1 : |3 * Real.cos r.angle ^ 2 - 1| / 2 * M
      + |((a.getD 0 0 : ℚ) : ℝ)| * Spec.tol B0 ph.sites ph.couplings (Spec.quantum ph.sites x.1) (Spec.quantum ph.sites x.2)
      + |((a.getD 1 0 : ℚ) : ℝ)| * Spec.tol B0 ph.sites ph.couplings (Spec.quantum ph.sites y.1) (Spec.quantum ph.sites y.2) ≤ e.1)
    (he2 : Spec.tol B0 ph.sites ph.couplings (Spec.quantum ph.sites y.1) (Spec.quantum ph.sites y.2) ≤ e.2)
    (hoff : Spec.SidebandsOff lib c B0 r d a (Spec.upright ph) x y e)
    (hin : |Spec.ridgeAt lib c B0 r a (Spec.upright ph) x y - d.1.ref| + e.1 ≤ d.1.sw / 2) :
    (∃ w, mapWrites WC.src TC.src lib c B0 r d a nOct junk nt ph path = .ok w) ∧
    ∀ i j : ℕ, 1 ≤ i → i < d.1.count → 1 ≤ j → j < d.2.count →
      ((d.1.sw / d.1.count : ℚ) : ℝ) + e.1 ≤ |((Meth.Spec.coord d.1 i : ℚ) : ℝ) - Spec.ridgeAt lib c B0 r a (Spec.upright ph) x y| →
        Bin.val (accBin (decide (0 < lib.gamma c)) d.1.count i * d.2.count + accBin (decide (0 < lib.gamma c)) d.2.count j)
          (mapWrites WC.src TC.src lib c B0 r d a nOct junk nt ph path) = 0 := by
  have := r.pos
  have hn0 : 1 ≤ d.1.count := by omega
  have hn1 : 1 ≤ d.2.count := by omega
  obtain ⟨p, q, rfl⟩ : ∃ p q, path = [p, q] := by
    have := hr.length
    match path, this with
    | [p, q], _ => exact ⟨p, q, rfl⟩
  set a0 := ((a.getD 0 0 : ℚ) : ℝ) with ha0
  set a1 := ((a.getD 1 0 : ℚ) : ℝ) with ha1
  have hamap : (a.map fun (q : ℚ) => (q : ℝ)) = [a0, a1, 0, 1] := by
    rw [hr.matrix, ha0, ha1]
    simp
  set pos := decide (0 < lib.gamma c) with hpos
  have hsgn : (if 0 < lib.gamma c then (1 : ℝ) else -1) = if pos then 1 else -1 := by
    rw [hpos]
    simp only [decide_eq_true_eq]
  set inc0 : ℝ := ((d.1.sw / d.1.count : ℚ) : ℝ) with hinc0
  set inc1 : ℝ := ((d.2.sw / d.2.count : ℚ) : ℝ) with hinc1
  have i0 : 0 < inc0 := by
    have : (0 : ℚ) < d.1.sw / d.1.count := div_pos hsw.1 (by exact_mod_cast hn0)
    rw [hinc0]
    exact_mod_cast this
  have i1 : 0 < inc1 := by
    have : (0 : ℚ) < d.2.sw / d.2.count := div_pos hsw.2 (by exact_mod_cast hn1)
    rw [hinc1]
    exact_mod_cast this
  set off0 : ℝ := ((Meth.normalizeOffset pos d.1 : ℚ) : ℝ) with hoff0
  set off1 : ℝ := ((Meth.normalizeOffset pos d.2 : ℚ) : ℝ) with hoff1
  set P := startRows true junk nt with hP
  set f := frames WC.src true nt nOct r.sidebands r.angle r.freq (off0, off1) (d.1.count, d.2.count) P
    (methodComponents WC.src TC.src (lib.twoI c) B0 ph.sites ph.couplings (p.1.map fun (m : ℚ) => (m : ℝ)) (p.2.map fun (m : ℚ) => (m : ℝ)))
    (methodComponents WC.src TC.src (lib.twoI c) B0 ph.sites ph.couplings (q.1.map fun (m : ℚ) => (m : ℝ)) (q.2.map fun (m : ℚ) => (m : ℝ)))
    with hf
  set isox := Spec.isotropic ⟨B0, 1, r.angle, r.freq.1⟩ (Spec.upright ph).sites (Spec.upright ph).couplings x with hisox
  set isoy := Spec.isotropic ⟨B0, 1, r.angle, r.freq.2⟩ (Spec.upright ph).sites (Spec.upright ph).couplings y with hisoy
  have hfour : fourth (lib.twoI c) = true := decide_eq_true htwo
  have hvr1 : f.1.vr 0 = 0 := order_zero r.sidebands r.freq.1
  have hvr2 : f.2.vr 0 = 0 := order_zero r.sidebands r.freq.2
  have hfar1 : ∀ k < r.sidebands, k ≠ 0 → r.freq.1 ≤ |f.1.vr k| := fun k hk h => order_far r.sidebands r.freq.1 h0.le k hk h
  have hfar2 : ∀ k < r.sidebands, k ≠ 0 → r.freq.2 ≤ |f.2.vr k| := fun k hk h => order_far r.sidebands r.freq.2 h1.le k hk h
  obtain ⟨ho1, ho2⟩ := hoff
  have hridge : Spec.ridgeAt lib c B0 r a (Spec.upright ph) x y = (if pos then 1 else -1) * (a0 * isox + a1 * isoy) := by
    unfold Spec.ridgeAt
    rw [hsgn]
  rw [hridge] at ho1 hin ⊢
  unfold Spec.secondMean at ho2
  rw [hsgn, ← hisoy] at ho2
  rw [← ha0] at ho1
  have hY : ∀ k < r.sidebands, k ≠ 0 → off1 + (isoy + f.2.vr k) / inc1 ≤ -1 - e.2 / inc1 ∨ (d.2.count : ℝ) + 1 + e.2 / inc1 ≤ off1 + (isoy + f.2.vr k) / inc1 := by
    intro k hk hk0
    exact (position_off pos d.2 hn1 hsw.2 (isoy + f.2.vr k) e.2 he.2 (by
      have h3 := hfar2 k hk hk0
      have h4 : |(if pos then (1 : ℝ) else -1) * f.2.vr k| = |f.2.vr k| := by
        rcases sign_cases (pos = true) with h' | h' <;> rw [h'] <;> simp
      have h5 := abs_sub_abs_le_abs_sub ((if pos then (1 : ℝ) else -1) * f.2.vr k) (-((if pos then 1 else -1) * isoy - (d.2.ref : ℝ)))
      rw [h4, abs_neg] at h5
      rw [show ∀ a b c e : ℝ, e * (a + b) - c = e * b - -(e * a - c) by intros; ring]
      linarith)).1
  have hX := fun (k : ℕ) (hk : k < r.sidebands) (hk0 : k ≠ 0) =>
    position_off pos d.1 hn0 hsw.1 (a0 * (isox + f.1.vr k) + a1 * (isoy + f.2.vr 0)) e.1 he.1 (by
      have h3 := mul_le_mul_of_nonneg_left (hfar1 k hk hk0) (abs_nonneg a0)
      have h4 : |(if pos then (1 : ℝ) else -1) * (a0 * f.1.vr k)| = |a0| * |f.1.vr k| := by
        rcases sign_cases (pos = true) with h' | h' <;> rw [h'] <;> simp [abs_mul]
      have h5 := abs_sub_abs_le_abs_sub ((if pos then (1 : ℝ) else -1) * (a0 * f.1.vr k)) (-((if pos then 1 else -1) * (a0 * isox + a1 * isoy) - (d.1.ref : ℝ)))
      rw [h4, abs_neg] at h5
      rw [hvr2, show ∀ e u v : ℝ, e * (a0 * (isox + u) + a1 * (isoy + 0)) - v = e * (a0 * u) - -(e * (a0 * isox + a1 * isoy) - v) by intros; ring]
      linarith)
  simp only [← hoff0, ← hinc0] at hX
  have hmid := position_middle pos d.1 hn0 hsw.1 (a0 * isox + a1 * isoy)
  rw [← hoff0, ← hinc0] at hmid
  have hcount : (d.1.sw : ℝ) = d.1.count * inc0 := by
    rw [hinc0]
    push_cast
    have : (d.1.count : ℝ) ≠ 0 := by
      have : d.1.count ≠ 0 := by omega
      exact_mod_cast this
    field_simp
  have hX0 : e.1 / inc0 ≤ off0 + (a0 * isox + a1 * isoy) / inc0 := by
    rw [hmid]
    have g1 : |(if pos then (1 : ℝ) else -1) * ((if pos then 1 else -1) * (a0 * isox + a1 * isoy) - (d.1.ref : ℝ)) / inc0|
        ≤ d.1.count / 2 - e.1 / inc0 := by
      rw [abs_div, abs_of_pos i0, abs_mul, div_le_iff₀ i0, sub_mul, div_mul_cancel₀ _ i0.ne']
      have : |(if pos then (1 : ℝ) else -1)| = 1 := by
        rcases sign_cases (pos = true) with h' | h' <;> rw [h'] <;> simp
      rw [this, one_mul]
      rw [hcount] at hin
      linarith
    have := (abs_le.mp g1).1
    linarith
  obtain ⟨w, hw, hz⟩ := near_map nt nOct r.sidebands hn hO junk a0 a1 B0 r.angle r.freq.1 r.freq.2 h0 h1 (inc0, inc1) ⟨i0, i1⟩
    (⟨1 / inc0, [⟨B0, 1, r.angle, r.freq.1⟩], 0, fun _ => 0⟩, ⟨1 / inc1, [⟨B0, 1, r.angle, r.freq.2⟩], 0, fun _ => 0⟩)
    ⟨rfl, rfl⟩ ⟨rfl, rfl⟩ f.1 f.2 hn0 hn1 ph.sites ph.couplings x y hr.first hr.second hs hk hr.cancels M (e.1 / inc0) hM
    (by rw [div_mul_cancel₀ _ i0.ne']; exact he1) (e.2 / inc1) (by rw [div_mul_cancel₀ _ i1.ne']; exact he2) (fun _ k => k = 0)
    (fun i k => off0 + (a0 * (isox + f.1.vr i) + a1 * (isoy + f.2.vr k)) / inc0) (fun k => off1 + (isoy + f.2.vr k) / inc1)
    (fun _ _ => rfl) (fun _ => rfl)
    (by
      intro i hi k hk
      by_cases hk0 : k = 0
      · left; exact hk0
      · right; exact hY k hk hk0)
    (by
      intro i hi k hk hk0
      beta_reduce
      rw [hk0]
      by_cases hi0 : i = 0
      · left
        rw [hi0, hvr1, hvr2, add_zero, add_zero]
        exact hX0
      · rcases (hX i hi hi0).1 with h' | h'
        · right; exact h'
        · left
          have : (0 : ℝ) ≤ d.1.count := by positivity
          linarith)
  have hval : mapWrites WC.src TC.src lib c B0 r d a nOct junk nt ph [p, q] = .ok w := by
    rw [← hw]
    unfold mapWrites
    simp only
    rw [hfour, packed_big _ htwo, hamap, hr.numbers]
  refine ⟨⟨w, hval⟩, fun i j hi1 hi2 hj1 hj2 hfar => ?_⟩
  obtain ⟨b1, b2⟩ := accBin_range pos d.1.count i hi1 hi2
  obtain ⟨c1, c2⟩ := accBin_range pos d.2.count j hj1 hj2
  rw [hval]
  change Bin.at_ _ w = 0
  refine hz _ _ (by omega) c2 ?_
  intro i' hi' k hk hk0
  beta_reduce
  rw [hk0]
  by_cases hi0 : i' = 0
  · rw [hi0, hvr1, hvr2, add_zero, add_zero, abs_sub_comm]
    have h' := position_eq pos d.1 h.1 hd.1 hh.1 hsw.1 i (a0 * isox + a1 * isoy)
    rw [show ((1 / (d.1.sw / d.1.count) : ℚ) : ℝ) * (a0 * isox + a1 * isoy) = (a0 * isox + a1 * isoy) / inc0 by
      rw [Rat.cast_div, Rat.cast_one, ← hinc0]; ring, ← hoff0, ← hinc0] at h'
    rw [h', abs_mul, abs_div, abs_of_pos i0]
    have : |(if pos then (1 : ℝ) else -1)| = 1 := by
      rcases sign_cases (pos = true) with h' | h' <;> rw [h'] <;> simp
    rw [this, one_mul, le_div_iff₀ i0, add_mul, div_mul_cancel₀ _ i0.ne', one_mul, abs_sub_comm]
    exact hfar
  · exact (hX i' hi' hi0).2 _ (by omega) b2

/-! ## C100 -/

/-- **C100 (partial: the map of a list of spin systems).** A method of two dimensions of one event each, spinning on the magic angle: a list
of spin systems whose pathways are refocused by the matrix of the method gives the sum, over the systems weighted by their abundances
and over their pathways, of a peak at the isotropic frequency in the first dimension times a pattern of the frequencies of the second
transition in the second dimension.  Missing: row and column 0, odd counts, sidebands on the axes, the decimals of the source
(`C100_near_partial`). -/
theorem C100_map_partial (lib : Library) (so : Trans.SetOrder) (c : String) (hγ : lib.gamma c ≠ 0) (htwo : 1 < lib.twoI c)
    (dims : List (List Trans.Query)) (a : List ℚ) (B0 : ℝ) (r : Rotor2) (h0 : 0 < r.freq.1) (h1 : 0 < r.freq.2)
    (hθ : 3 * Real.cos r.angle ^ 2 = 1) (d : Meth.SDim × Meth.SDim) [NeZero d.1.count] [NeZero d.2.count] (h : ℕ × ℕ)
    (hd : d.1.count = 2 * h.1 ∧ d.2.count = 2 * h.2) (hh : 1 ≤ h.1 ∧ 1 ≤ h.2) (hsw : 0 < d.1.sw ∧ 0 < d.2.sw) (nOct : ℕ)
    (hO : nOct = 1 ∨ nOct = 4) (junk : Phys → List Trans.Tr → ℕ → ℕ → ℂ) (nt : ℕ) (hn : 1 ≤ nt) (l : List (Run.Sys Phys (List Trans.Tr)))
    (paths : Run.Sys Phys (List Trans.Tr) → List (List Trans.Tr))
    (st : Run.Sys Phys (List Trans.Tr) → List Trans.Tr → (List ℕ × List ℕ) × (List ℕ × List ℕ))
    (hl : ∀ s ∈ l, s.explicit = none ∧ (c ∈ s.isotopes →
      (Trans.transitionPathways so (isoSites lib s.isotopes) [c] dims = .ok (paths s) ∧ paths s ≠ []) ∧
      (∀ x ∈ s.phys.sites, 1 ≤ x.n) ∧
      (∀ k ∈ s.phys.couplings, k.A < s.phys.sites.length ∧ k.X < s.phys.sites.length) ∧
      ∀ p ∈ paths s, Spec.Refocused a s.phys p (st s p).1 (st s p).2 ∧ Spec.SidebandsOff lib c B0 r d a (Spec.upright s.phys) (st s p).1 (st s p).2 0))
    (hu : ∀ a ∈ l, ∀ b ∈ l, c ∈ a.isotopes → c ∈ b.isotopes → a.isotopes.length = b.isotopes.length → a.isotopes = b.isotopes)
    (cpu nJobs : ℤ) (hJ : 1 ≤ nJobs) :
    ∃ (v : ZMod d.1.count → ZMod d.2.count → ℝ) (S : Run.Sys Phys (List Trans.Tr) → List Trans.Tr → ℕ → ℝ),
      Run.run (mapEnv WC.exact TC.exact lib so c dims a B0 r d nOct junk nt) cpu false l nJobs = .ok [.spec v] ∧
      (∀ s ∈ l, c ∈ s.isotopes → ∀ p ∈ paths s,
        Spec.Pattern d.2 r.sidebands (Bin.totalAmplitude nt (Bin.weight nt)) (Spec.secondAt lib c B0 r (Spec.upright s.phys) (st s p).2)
          (Spec.secondMean lib c B0 r (Spec.upright s.phys) (st s p).2) (S s p) ∧
        ∃ w, mapWrites WC.exact TC.exact lib c B0 r d a nOct (junk s.phys p) nt s.phys p = .ok w) ∧
      ∀ i j : ℕ, 1 ≤ i → i < d.1.count → 1 ≤ j → j < d.2.count → v i j = (l.map fun s =>
        if c ∈ s.isotopes then ((s.abundance / ((d.1.sw / d.1.count) * (d.2.sw / d.2.count)) : ℚ) : ℝ) *
          ((paths s).map fun p => Spec.peak (decide (0 < lib.gamma c)) d.1 i
            (Spec.ridgeAt lib c B0 r a (Spec.upright s.phys) (st s p).1 (st s p).2) * S s p j).sum
        else 0).sum := by
  obtain ⟨v, hv, hval⟩ := map_run WC.exact TC.exact lib so c hγ dims a B0 r d nOct junk nt l paths
    (fun s hs => ⟨(hl s hs).1, fun hc => ((hl s hs).2 hc).1⟩) hu cpu nJobs hJ
  have hp := fun s (hs : s ∈ l) (hc : c ∈ s.isotopes) p (hp : p ∈ paths s) => by
    obtain ⟨-, hsites, hcoup, hpaths⟩ := (hl s hs).2 hc
    exact path_upright lib c htwo B0 r h0 h1 hθ d h hd hh hsw a nOct hO (junk s.phys p) nt hn s.phys hsites hcoup p (st s p).1 (st s p).2
      (hpaths p hp).1 (hpaths p hp).2
  choose! S hS hok hent using hp
  refine ⟨v, S, hv, fun s hs hc p hp => ⟨hS s hs hc p hp, hok s hs hc p hp⟩, fun i j hi1 hi2 hj1 hj2 => ?_⟩
  rw [hval i j hi1 hi2 hj1 hj2]
  congr 1
  refine List.map_congr_left fun s hs => ?_
  by_cases hc : c ∈ s.isotopes
  · rw [if_pos hc, if_pos hc]
    congr 2
    exact List.map_congr_left fun p hp => hent s hs hc p hp i j hi1 hi2 hj1 hj2
  · rw [if_neg hc, if_neg hc]

/-- **C100 (partial: the decimals of the source).** With the constants the source is written with, on any rotor angle and for axes of any
tilt: no system leaves anything in the points of the first dimension that are more than one point and the bound `e` away from the
isotropic frequencies of its pathways. -/
theorem C100_near_partial (lib : Library) (so : Trans.SetOrder) (c : String) (hγ : lib.gamma c ≠ 0) (htwo : 1 < lib.twoI c)
    (dims : List (List Trans.Query)) (a : List ℚ) (B0 : ℝ) (r : Rotor2) (h0 : 0 < r.freq.1) (h1 : 0 < r.freq.2)
    (d : Meth.SDim × Meth.SDim) [NeZero d.1.count] [NeZero d.2.count] (h : ℕ × ℕ)
    (hd : d.1.count = 2 * h.1 ∧ d.2.count = 2 * h.2) (hh : 1 ≤ h.1 ∧ 1 ≤ h.2) (hsw : 0 < d.1.sw ∧ 0 < d.2.sw) (nOct : ℕ)
    (hO : nOct = 1 ∨ nOct = 4) (junk : Phys → List Trans.Tr → ℕ → ℕ → ℂ) (nt : ℕ) (hn : 1 ≤ nt) (l : List (Run.Sys Phys (List Trans.Tr)))
    (paths : Run.Sys Phys (List Trans.Tr) → List (List Trans.Tr))
    (st : Run.Sys Phys (List Trans.Tr) → List Trans.Tr → (List ℕ × List ℕ) × (List ℕ × List ℕ))
    (M : Run.Sys Phys (List Trans.Tr) → List Trans.Tr → ℝ) (e : Run.Sys Phys (List Trans.Tr) → List Trans.Tr → ℝ × ℝ)
    (hl : ∀ s ∈ l, s.explicit = none ∧ (c ∈ s.isotopes →
      (Trans.transitionPathways so (isoSites lib s.isotopes) [c] dims = .ok (paths s) ∧ paths s ≠ []) ∧
      (∀ x ∈ s.phys.sites, 1 ≤ x.n ∧ |x.eta| ≤ 1 ∧ |x.etaQ| ≤ 1) ∧
      (∀ k ∈ s.phys.couplings, k.A < s.phys.sites.length ∧ k.X < s.phys.sites.length ∧ |k.eta| ≤ 1) ∧
      ∀ p ∈ paths s, Spec.Refocused a s.phys p (st s p).1 (st s p).2 ∧
        (∀ o, |Spec.anisotropy ((a.getD 0 0 : ℚ) : ℝ) ((a.getD 1 0 : ℚ) : ℝ) B0 (Spec.upright s.phys).sites (Spec.upright s.phys).couplings
          (st s p).1 (st s p).2 o| ≤ M s p) ∧
        |3 * Real.cos r.angle ^ 2 - 1| / 2 * M s p
          + |((a.getD 0 0 : ℚ) : ℝ)| * Spec.tol B0 s.phys.sites s.phys.couplings (Spec.quantum s.phys.sites (st s p).1.1)
            (Spec.quantum s.phys.sites (st s p).1.2)
          + |((a.getD 1 0 : ℚ) : ℝ)| * Spec.tol B0 s.phys.sites s.phys.couplings (Spec.quantum s.phys.sites (st s p).2.1)
            (Spec.quantum s.phys.sites (st s p).2.2) ≤ (e s p).1 ∧
        Spec.tol B0 s.phys.sites s.phys.couplings (Spec.quantum s.phys.sites (st s p).2.1)
            (Spec.quantum s.phys.sites (st s p).2.2) ≤ (e s p).2 ∧ (0 ≤ (e s p).1 ∧ 0 ≤ (e s p).2) ∧
        Spec.SidebandsOff lib c B0 r d a (Spec.upright s.phys) (st s p).1 (st s p).2 (e s p) ∧
        |Spec.ridgeAt lib c B0 r a (Spec.upright s.phys) (st s p).1 (st s p).2 - d.1.ref| + (e s p).1 ≤ d.1.sw / 2))
    (hu : ∀ a ∈ l, ∀ b ∈ l, c ∈ a.isotopes → c ∈ b.isotopes → a.isotopes.length = b.isotopes.length → a.isotopes = b.isotopes)
    (cpu nJobs : ℤ) (hJ : 1 ≤ nJobs) :
    ∃ v : ZMod d.1.count → ZMod d.2.count → ℝ,
      Run.run (mapEnv WC.src TC.src lib so c dims a B0 r d nOct junk nt) cpu false l nJobs = .ok [.spec v] ∧
      (∀ s ∈ l, c ∈ s.isotopes → ∀ p ∈ paths s, ∃ w, mapWrites WC.src TC.src lib c B0 r d a nOct (junk s.phys p) nt s.phys p = .ok w) ∧
      ∀ i j : ℕ, 1 ≤ i → i < d.1.count → 1 ≤ j → j < d.2.count →
        (∀ s ∈ l, c ∈ s.isotopes → ∀ p ∈ paths s, ((d.1.sw / d.1.count : ℚ) : ℝ) + (e s p).1
          ≤ |((Meth.Spec.coord d.1 i : ℚ) : ℝ) - Spec.ridgeAt lib c B0 r a (Spec.upright s.phys) (st s p).1 (st s p).2|) → v i j = 0 := by
  obtain ⟨v, hv, hval⟩ := map_run WC.src TC.src lib so c hγ dims a B0 r d nOct junk nt l paths
    (fun s hs => ⟨(hl s hs).1, fun hc => ((hl s hs).2 hc).1⟩) hu cpu nJobs hJ
  have hp := fun s (hs : s ∈ l) (hc : c ∈ s.isotopes) p (hp : p ∈ paths s) => by
    obtain ⟨-, hsites, hcoup, hpaths⟩ := (hl s hs).2 hc
    obtain ⟨p1, p2, p3, p4, p5, p6, p7⟩ := hpaths p hp
    exact path_near lib c htwo B0 r h0 h1 d h hd hh hsw a nOct hO (junk s.phys p) nt hn s.phys hsites hcoup p (st s p).1 (st s p).2
      p1 (M s p) (e s p) p5 p2 p3 p4 p6 p7
  refine ⟨v, hv, fun s hs hc p hp' => (hp s hs hc p hp').1, fun i j hi1 hi2 hj1 hj2 hfar => ?_⟩
  rw [hval i j hi1 hi2 hj1 hj2]
  apply List.sum_eq_zero
  intro z hz
  obtain ⟨s, hs, rfl⟩ := List.mem_map.mp hz
  by_cases hc : c ∈ s.isotopes
  · rw [if_pos hc, List.sum_eq_zero, mul_zero]
    intro z hz
    obtain ⟨p, hp', rfl⟩ := List.mem_map.mp hz
    exact (hp s hs hc p hp').2 i j hi1 hi2 hj1 hj2 (hfar s hs hc p hp')
  · rw [if_neg hc]

/-- **C100 (partial: multiple-quantum methods).** `ThreeQ_VAS`, `FiveQ_VAS` or `SevenQ_VAS` on the magic angle: every spin system of one
site of the isotope gives a peak at the frequency `a₀ ν(mQ) + a₁ ν(1Q)` of the isotropic frequencies in the first dimension times
the pattern of its central transition in the second; systems without the isotope give nothing.  Missing: as for
`C100_map_partial`. -/
theorem C100_mq_partial (lib : Library) (so : Trans.SetOrder) (c : String) (hγ : lib.gamma c ≠ 0) (name : String) (n : ℕ)
    (hname : (name, n) ∈ Trans.mqSymmetry) (dims : List (List Trans.Query)) (a : List ℚ)
    (hm : Trans.mqUpdate name (lib.twoI c) none = .ok (dims, a)) (B0 : ℝ) (r : Rotor2) (h0 : 0 < r.freq.1) (h1 : 0 < r.freq.2)
    (hθ : 3 * Real.cos r.angle ^ 2 = 1) (d : Meth.SDim × Meth.SDim) [NeZero d.1.count] [NeZero d.2.count] (h : ℕ × ℕ)
    (hd : d.1.count = 2 * h.1 ∧ d.2.count = 2 * h.2) (hh : 1 ≤ h.1 ∧ 1 ≤ h.2) (hsw : 0 < d.1.sw ∧ 0 < d.2.sw) (nOct : ℕ)
    (hO : nOct = 1 ∨ nOct = 4) (junk : Phys → List Trans.Tr → ℕ → ℕ → ℂ) (nt : ℕ) (hn : 1 ≤ nt) (l : List (Run.Sys Phys (List Trans.Tr)))
    (x y : List ℕ × List ℕ) (hx : x = Spec.multiple (lib.twoI c) n) (hy : y = Spec.centralStates (lib.twoI c))
    (hl : ∀ s ∈ l, s.explicit = none ∧ (c ∈ s.isotopes →
      ∃ t, Spec.Single lib c s t ∧ Spec.SidebandsOff lib c B0 r d a (Spec.upright s.phys) x y 0))
    (cpu nJobs : ℤ) (hJ : 1 ≤ nJobs) :
    ∃ (v : ZMod d.1.count → ZMod d.2.count → ℝ) (S : Run.Sys Phys (List Trans.Tr) → ℕ → ℝ),
      Run.run (mapEnv WC.exact TC.exact lib so c dims a B0 r d nOct junk nt) cpu false l nJobs = .ok [.spec v] ∧
      (∀ s ∈ l, c ∈ s.isotopes →
        Spec.Pattern d.2 r.sidebands (Bin.totalAmplitude nt (Bin.weight nt)) (Spec.secondAt lib c B0 r (Spec.upright s.phys) y)
          (Spec.secondMean lib c B0 r (Spec.upright s.phys) y) (S s)) ∧
      ∀ i j : ℕ, 1 ≤ i → i < d.1.count → 1 ≤ j → j < d.2.count → v i j = (l.map fun s =>
        if c ∈ s.isotopes then ((s.abundance / ((d.1.sw / d.1.count) * (d.2.sw / d.2.count)) : ℚ) : ℝ) *
          (Spec.peak (decide (0 < lib.gamma c)) d.1 i (Spec.ridgeAt lib c B0 r a (Spec.upright s.phys) x y) * S s j)
        else 0).sum := by
  -- the pathway
  set t0 : Site := ⟨lib.twoI c, 0, 0, 0, 0, ⟨0, 0, 0⟩, 0, 0, ⟨0, 0, 0⟩⟩ with ht0
  obtain ⟨path, a0, a1, hp, hlen, ha, -, hpack, -, -, -, htwo⟩ := mq_pathway so c t0 name n hname dims a hm x y hx hy
  have hsel : ∀ s ∈ l, c ∈ s.isotopes → Trans.transitionPathways so (isoSites lib s.isotopes) [c] dims = .ok [path] := by
    intro s hs hc
    obtain ⟨t, ht, -⟩ := (hl s hs).2 hc
    rw [ht.isotopes]
    exact hp
  have href : ∀ s ∈ l, c ∈ s.isotopes → Spec.Refocused a s.phys path x y := by
    intro s hs hc
    obtain ⟨t, ht, -⟩ := (hl s hs).2 hc
    obtain ⟨path', a0', a1', hp', hlen', ha', -, hpack', hx', hy', hc', -⟩ := mq_pathway so c t name n hname dims a (by rw [ht.spin]; exact hm)
      x y (by rw [ht.spin]; exact hx) (by rw [ht.spin]; exact hy)
    have e : path' = path := by
      rw [ht.spin, show Trans.transitionPathways so [⟨c, lib.twoI c⟩] [c] dims = .ok [path] from hp] at hp'
      have := Except.ok.inj hp'
      simpa using this.symm
    subst e
    rw [ht.phys]
    exact ⟨hlen', by rw [ha']; rfl, hpack', hx', hy', by rw [ha']; exact hc'⟩
  obtain ⟨v, S, hv, hS, hent⟩ := C100_map_partial lib so c hγ htwo dims a B0 r h0 h1 hθ d h hd hh hsw nOct hO junk nt hn l
    (fun _ => [path]) (fun _ _ => (x, y)) (fun s hs => ⟨(hl s hs).1, fun hc => by
      obtain ⟨t, ht, hoff⟩ := (hl s hs).2 hc
      refine ⟨⟨hsel s hs hc, by simp⟩, ?_, ?_, ?_⟩
      · rw [ht.phys]
        intro z hz
        rw [List.mem_singleton] at hz
        subst hz
        rw [ht.spin]
        exact htwo.le
      · rw [ht.phys]
        simp
      · intro p hp
        rw [List.mem_singleton] at hp
        subst hp
        exact ⟨href s hs hc, hoff⟩⟩)
    (fun u hu w hw hc1 hc2 _ => by
      obtain ⟨t, ht, -⟩ := (hl u hu).2 hc1
      obtain ⟨t', ht', -⟩ := (hl w hw).2 hc2
      rw [ht.isotopes, ht'.isotopes]) cpu nJobs hJ
  refine ⟨v, fun s => S s path, hv, fun s hs hc => (hS s hs hc path (by simp)).1, fun i j hi1 hi2 hj1 hj2 => ?_⟩
  rw [hent i j hi1 hi2 hj1 hj2]
  simp only [List.map_cons, List.map_nil, List.sum_cons, List.sum_nil, add_zero]

/-- **C100 (partial: satellite methods).** `ST1_VAS` and `ST2_VAS`, for the spins their tables are right for (C98): the two satellites of a
site give their patterns to one peak of the first dimension.  Missing: as for `C100_map_partial`; for the other spins there is no
sharp peak (`C98_counterexample`). -/
theorem C100_st_partial (lib : Library) (so : Trans.SetOrder) (c : String) (hγ : lib.gamma c ≠ 0) (name : String) (n : ℕ)
    (hname : (name, n) ∈ Trans.stSymmetry) (hgood : (n = 3 ∧ lib.twoI c = 3) ∨ (n = 5 ∧ (lib.twoI c = 5 ∨ lib.twoI c = 7)))
    (dims : List (List Trans.Query)) (a : List ℚ)
    (hm : Trans.stUpdate name (lib.twoI c) none = .ok (dims, a)) (B0 : ℝ) (r : Rotor2) (h0 : 0 < r.freq.1) (h1 : 0 < r.freq.2)
    (hθ : 3 * Real.cos r.angle ^ 2 = 1) (d : Meth.SDim × Meth.SDim) [NeZero d.1.count] [NeZero d.2.count] (h : ℕ × ℕ)
    (hd : d.1.count = 2 * h.1 ∧ d.2.count = 2 * h.2) (hh : 1 ≤ h.1 ∧ 1 ≤ h.2) (hsw : 0 < d.1.sw ∧ 0 < d.2.sw) (nOct : ℕ)
    (hO : nOct = 1 ∨ nOct = 4) (junk : Phys → List Trans.Tr → ℕ → ℕ → ℂ) (nt : ℕ) (hn : 1 ≤ nt) (l : List (Run.Sys Phys (List Trans.Tr)))
    (x y : List ℕ × List ℕ) (hx : x = Spec.lowSatellite (lib.twoI c) n) (hy : y = Spec.centralStates (lib.twoI c))
    (hl : ∀ s ∈ l, s.explicit = none ∧ (c ∈ s.isotopes →
      ∃ t, Spec.Single lib c s t ∧ Spec.SidebandsOff lib c B0 r d a (Spec.upright s.phys) x y 0))
    (cpu nJobs : ℤ) (hJ : 1 ≤ nJobs) :
    ∃ (v : ZMod d.1.count → ZMod d.2.count → ℝ) (S S' : Run.Sys Phys (List Trans.Tr) → ℕ → ℝ),
      Run.run (mapEnv WC.exact TC.exact lib so c dims a B0 r d nOct junk nt) cpu false l nJobs = .ok [.spec v] ∧
      (∀ s ∈ l, c ∈ s.isotopes →
        Spec.Pattern d.2 r.sidebands (Bin.totalAmplitude nt (Bin.weight nt)) (Spec.secondAt lib c B0 r (Spec.upright s.phys) y)
          (Spec.secondMean lib c B0 r (Spec.upright s.phys) y) (S s) ∧
        Spec.Pattern d.2 r.sidebands (Bin.totalAmplitude nt (Bin.weight nt)) (Spec.secondAt lib c B0 r (Spec.upright s.phys) y)
          (Spec.secondMean lib c B0 r (Spec.upright s.phys) y) (S' s)) ∧
      ∀ i j : ℕ, 1 ≤ i → i < d.1.count → 1 ≤ j → j < d.2.count → v i j = (l.map fun s =>
        if c ∈ s.isotopes then ((s.abundance / ((d.1.sw / d.1.count) * (d.2.sw / d.2.count)) : ℚ) : ℝ) *
          (Spec.peak (decide (0 < lib.gamma c)) d.1 i (Spec.ridgeAt lib c B0 r a (Spec.upright s.phys) x y) * (S s j + S' s j))
        else 0).sum := by
  set x' := Spec.highSatellite (lib.twoI c) n with hx'
  set t0 : Site := ⟨lib.twoI c, 0, 0, 0, 0, ⟨0, 0, 0⟩, 0, 0, ⟨0, 0, 0⟩⟩ with ht0
  obtain ⟨p, p', a0, a1, hp, -, -, -, hpk, -, -, -, -, htwo, -⟩ := st_pathway so c t0 name n hname hgood dims a hm x x' y hx hx' hy
  have hpp : p ≠ p' := by
    rintro rfl
    have h2 := hpk.1.symm.trans hpk.2
    rw [hx, hx'] at h2
    unfold pack Spec.quantum Spec.lowSatellite Spec.highSatellite at h2
    simp only [List.flatMap_cons, List.flatMap_nil, List.append_nil, List.zipWith_cons_cons, List.zipWith_nil_right, List.cons_append,
      List.nil_append, List.cons.injEq, sub_left_inj, Nat.cast_inj] at h2
    omega
  have hsel : ∀ s ∈ l, c ∈ s.isotopes → Trans.transitionPathways so (isoSites lib s.isotopes) [c] dims = .ok [p, p'] := by
    intro s hs hc
    obtain ⟨t, ht, -⟩ := (hl s hs).2 hc
    rw [ht.isotopes]
    exact hp
  have href : ∀ s ∈ l, c ∈ s.isotopes → Spec.Refocused a s.phys p x y ∧ Spec.Refocused a s.phys p' x' y ∧
      Spec.ridgeAt lib c B0 r a (Spec.upright s.phys) x' y = Spec.ridgeAt lib c B0 r a (Spec.upright s.phys) x y := by
    intro s hs hc
    obtain ⟨t, ht, -⟩ := (hl s hs).2 hc
    obtain ⟨q, q', a0', a1', hp', hlen', ha', -, hpack', sx, sx', sy, hc', -, -⟩ := st_pathway so c t name n hname
      (by rw [ht.spin]; exact hgood) dims a (by rw [ht.spin]; exact hm)
      x x' y (by rw [ht.spin]; exact hx) (by rw [ht.spin]) (by rw [ht.spin]; exact hy)
    have e : q = p ∧ q' = p' := by
      rw [ht.spin, show Trans.transitionPathways so [⟨c, lib.twoI c⟩] [c] dims = .ok [p, p'] from hp] at hp'
      have := Except.ok.inj hp'
      simp only [List.cons.injEq, and_true] at this
      exact ⟨this.1.symm, this.2.symm⟩
    obtain ⟨rfl, rfl⟩ := e
    obtain ⟨_, _, _, _, -, -, -, -, -, -, -, -, -, -, hiso⟩ := st_pathway so c (Spec.absSite t) name n hname
      (by rw [show (Spec.absSite t).n = lib.twoI c from ht.spin]; exact hgood) dims a
      (by change Trans.stUpdate name t.n none = _; rw [ht.spin]; exact hm)
      x x' y (by change x = Spec.lowSatellite t.n n; rw [ht.spin]; exact hx) (by change x' = Spec.highSatellite t.n n; rw [ht.spin])
      (by change y = Spec.centralStates t.n; rw [ht.spin]; exact hy)
    replace hiso := hiso ⟨abs_nonneg _, abs_nonneg _⟩
    rw [ht.phys]
    refine ⟨⟨hlen'.1, by rw [ha']; rfl, hpack'.1, sx, sy, by rw [ha']; exact hc'.1⟩,
      ⟨hlen'.2, by rw [ha']; rfl, hpack'.2, sx', sy, by rw [ha']; exact hc'.2⟩, ?_⟩
    unfold Spec.ridgeAt
    simp only [Spec.upright, List.map_cons, List.map_nil]
    rw [hiso _ h0]
  classical
  obtain ⟨v, S, hv, hS, hent⟩ := C100_map_partial lib so c hγ htwo dims a B0 r h0 h1 hθ d h hd hh hsw nOct hO junk nt hn l
    (fun _ => [p, p']) (fun _ q => if q = p then (x, y) else (x', y)) (fun s hs => ⟨(hl s hs).1, fun hc => by
      obtain ⟨t, ht, hoff⟩ := (hl s hs).2 hc
      obtain ⟨r1, r2, r3⟩ := href s hs hc
      refine ⟨⟨hsel s hs hc, by simp⟩, ?_, ?_, ?_⟩
      · rw [ht.phys]
        intro z hz
        rw [List.mem_singleton] at hz
        subst hz
        rw [ht.spin]
        exact htwo.le
      · rw [ht.phys]
        simp
      · intro q hq
        simp only [List.mem_cons, List.not_mem_nil, or_false] at hq
        rcases hq with rfl | rfl
        · rw [if_pos rfl]
          exact ⟨r1, hoff⟩
        · rw [if_neg hpp.symm]
          refine ⟨r2, ?_⟩
          unfold Spec.SidebandsOff
          rw [r3]
          exact hoff⟩)
    (fun u hu w hw hc1 hc2 _ => by
      obtain ⟨t, ht, -⟩ := (hl u hu).2 hc1
      obtain ⟨t', ht', -⟩ := (hl w hw).2 hc2
      rw [ht.isotopes, ht'.isotopes]) cpu nJobs hJ
  refine ⟨v, fun s => S s p, fun s => S s p', hv, fun s hs hc => ?_, fun i j hi1 hi2 hj1 hj2 => ?_⟩
  · have g1 := (hS s hs hc p (by simp)).1
    have g2 := (hS s hs hc p' (by simp)).1
    rw [if_pos rfl] at g1
    rw [if_neg hpp.symm] at g2
    exact ⟨g1, g2⟩
  · rw [hent i j hi1 hi2 hj1 hj2]
    congr 1
    refine List.map_congr_left fun s hs => ?_
    by_cases hc : c ∈ s.isotopes
    · rw [if_pos hc, if_pos hc]
      simp only [List.map_cons, List.map_nil, List.sum_cons, List.sum_nil, add_zero, if_true, if_neg hpp.symm]
      rw [(href s hs hc).2.2]
      ring
    · rw [if_neg hc, if_neg hc]

/-- Every spin system meets the condition on the sidebands if the sample spins fast enough. -/
theorem C100_fast (lib : Library) (c : String) (B0 θ : ℝ) (N : ℕ) (hN : NeZero N) (d : Meth.SDim × Meth.SDim) (a : List ℚ) (ha : a.getD 0 0 ≠ 0)
    (ph : Phys) (hs : ∀ s ∈ ph.sites, 1 ≤ s.n) (hk : ∀ k ∈ ph.couplings, k.A < ph.sites.length ∧ k.X < ph.sites.length) (x y : List ℕ × List ℕ)
    (hx : Spec.IsState ph.sites x.1 ∧ Spec.IsState ph.sites x.2) (hy : Spec.IsState ph.sites y.1 ∧ Spec.IsState ph.sites y.2) (e : ℝ × ℝ) :
    ∃ ν0, 0 < ν0 ∧ ∀ ν, ν0 ≤ ν → Spec.SidebandsOff lib c B0 ⟨N, hN, (ν, ν), θ⟩ d a (Spec.upright ph) x y e := by
  have hs' : ∀ s ∈ (Spec.upright ph).sites, s.Upright ∧ 1 ≤ s.n := by
    intro s h
    obtain ⟨s', h', rfl⟩ := List.mem_map.mp h
    exact ⟨⟨abs_nonneg _, abs_nonneg _⟩, hs s' h'⟩
  have hk' : ∀ k ∈ (Spec.upright ph).couplings, k.Upright ∧ k.A < (Spec.upright ph).sites.length ∧ k.X < (Spec.upright ph).sites.length := by
    intro k h
    obtain ⟨k', h', rfl⟩ := List.mem_map.mp h
    simp only [Spec.upright, List.length_map]
    exact ⟨⟨abs_nonneg _, abs_nonneg _⟩, hk k' h'⟩
  obtain ⟨X, hX⟩ : ∃ X, ∀ ν, 0 < ν → Spec.isotropic ⟨B0, 1, θ, ν⟩ (Spec.upright ph).sites (Spec.upright ph).couplings x = X :=
    ⟨(components WC.exact TC.exact true B0 (Spec.upright ph).sites (Spec.upright ph).couplings
      (Spec.quantum (Spec.upright ph).sites x.1) (Spec.quantum (Spec.upright ph).sites x.2)).R0, fun ν hν =>
      isotropic_eq ⟨B0, 1, θ, ν⟩ hν (Spec.upright ph).sites (Spec.upright ph).couplings x (isState_abs _ _ hx.1) (isState_abs _ _ hx.2) hs' hk'⟩
  obtain ⟨Y, hY⟩ : ∃ Y, ∀ ν, 0 < ν → Spec.isotropic ⟨B0, 1, θ, ν⟩ (Spec.upright ph).sites (Spec.upright ph).couplings y = Y :=
    ⟨(components WC.exact TC.exact true B0 (Spec.upright ph).sites (Spec.upright ph).couplings
      (Spec.quantum (Spec.upright ph).sites y.1) (Spec.quantum (Spec.upright ph).sites y.2)).R0, fun ν hν =>
      isotropic_eq ⟨B0, 1, θ, ν⟩ hν (Spec.upright ph).sites (Spec.upright ph).couplings y (isState_abs _ _ hy.1) (isState_abs _ _ hy.2) hs' hk'⟩
  set a0 := ((a.getD 0 0 : ℚ) : ℝ) with ha0
  have hpos : 0 < |a0| := abs_pos.mpr (by rw [ha0]; exact_mod_cast ha)
  set A := |(if 0 < lib.gamma c then (1 : ℝ) else -1) * (a0 * X + ((a.getD 1 0 : ℚ) : ℝ) * Y) - d.1.ref| + (2 * d.1.sw + e.1) with hA
  set B := |(if 0 < lib.gamma c then (1 : ℝ) else -1) * Y - d.2.ref| + (2 * d.2.sw + e.2) with hB
  refine ⟨max 1 (max (A / |a0|) B), lt_max_of_lt_left one_pos, fun ν hν => ?_⟩
  have h1 : 0 < ν := lt_of_lt_of_le one_pos ((le_max_left _ _).trans hν)
  have h2 : A / |a0| ≤ ν := (le_max_left _ _).trans ((le_max_right _ _).trans hν)
  have h3 : B ≤ ν := (le_max_right _ _).trans ((le_max_right _ _).trans hν)
  unfold Spec.SidebandsOff Spec.ridgeAt Spec.secondMean
  simp only
  rw [hX ν h1, hY ν h1]
  exact ⟨((div_le_iff₀ hpos).mp h2).trans_eq (mul_comm _ _), h3⟩

/-- Rubidium with `ThreeQ_VAS` on the magic angle, one site with a tilted quadrupole coupling and a system without rubidium: fast enough
spinning gives a map. -/
example (so : Trans.SetOrder) : ∃ (dims : List (List Trans.Query)) (a : List ℚ) (ν0 : ℝ), ∀ ν, ν0 ≤ ν →
    ∃ v, Run.run (mapEnv WC.exact TC.exact ⟨fun _ => 3, fun _ => 13.9⟩ so "87Rb" dims a 9.4
      ⟨1, ⟨one_ne_zero⟩, (ν, ν), Real.arccos (1 / √3)⟩ (⟨256, 10000, 0, none⟩, ⟨512, 20000, -1000, none⟩) 1 (fun _ _ _ _ => 0) 70)
      4 false [⟨["87Rb"], none, 50, ⟨[⟨3, 13.9, -27, 110, 0, ⟨0, 0, 0⟩, 2000000, 0.4, ⟨0, -0.3, 0⟩⟩], []⟩⟩, ⟨["1H"], none, 50, ⟨[], []⟩⟩] 1 = .ok [.spec v] := by
  obtain ⟨⟨dims, a⟩, hm⟩ := (Trans.C15_mq_domain "ThreeQ_VAS" 3 (by decide) 3).mpr (by decide)
  set t : Site := ⟨3, 13.9, -27, 110, 0, ⟨0, 0, 0⟩, 2000000, 0.4, ⟨0, -0.3, 0⟩⟩ with ht
  obtain ⟨path, a0, a1, -, -, ha, hsum, -, hx, hy, hc, -⟩ := mq_pathway so "87Rb" t "ThreeQ_VAS" 3 (by decide) dims a hm _ _ rfl rfl
  have ha0 : a.getD 0 0 ≠ 0 := by
    rw [ha]
    intro h
    have h0 : a0 = 0 := h
    have := hc 0 t rfl (by rw [ht]; norm_num)
    rw [show a1 = 1 by linarith, h0, Trans.STFc4_eq, Trans.STFc4_eq] at this
    simp only [ht, Spec.centralStates, Spec.multiple, List.getD_cons_zero] at this
    norm_num at this
  obtain ⟨ν0, h0, hν⟩ := C100_fast ⟨fun _ => 3, fun _ => 13.9⟩ "87Rb" 9.4 (Real.arccos (1 / √3)) 1 ⟨one_ne_zero⟩
    (⟨256, 10000, 0, none⟩, ⟨512, 20000, -1000, none⟩) a ha0 ⟨[t], []⟩ (by simp [ht]) (by simp) _ _ hx hy 0
  refine ⟨dims, a, ν0, fun ν h => ?_⟩
  have hmagic : 3 * Real.cos (Real.arccos (1 / √3)) ^ 2 = 1 := by
    have h : (1 : ℝ) ≤ √3 := by rw [Real.one_le_sqrt]; norm_num
    rw [Real.cos_arccos (by have : (0 : ℝ) ≤ 1 / √3 := by positivity
                            linarith) (by rw [div_le_one (by positivity)]; exact h), div_pow, one_pow,
      Real.sq_sqrt (by norm_num)]
    norm_num
  obtain ⟨v, S, hv, -⟩ := C100_mq_partial ⟨fun _ => 3, fun _ => 13.9⟩ so "87Rb" (by norm_num) "ThreeQ_VAS" 3 (by decide) dims a hm 9.4
    ⟨1, ⟨one_ne_zero⟩, (ν, ν), Real.arccos (1 / √3)⟩ (by simp; linarith) (by simp; linarith) hmagic
    (⟨256, 10000, 0, none⟩, ⟨512, 20000, -1000, none⟩) (128, 256) ⟨rfl, rfl⟩ ⟨by norm_num, by norm_num⟩ ⟨by norm_num, by norm_num⟩ 1 (Or.inl rfl)
    (fun _ _ _ _ => 0) 70 (by norm_num)
    [⟨["87Rb"], none, 50, ⟨[t], []⟩⟩, ⟨["1H"], none, 50, ⟨[], []⟩⟩] _ _ rfl rfl (by
      intro s hs
      simp only [List.mem_cons, List.not_mem_nil, or_false] at hs
      rcases hs with rfl | rfl
      · exact ⟨rfl, fun _ => ⟨t, ⟨rfl, rfl, rfl⟩, hν ν h⟩⟩
      · exact ⟨rfl, fun h => by simp at h⟩) 4 1 (by norm_num)
  exact ⟨v, hv⟩

end MRS.Freq
