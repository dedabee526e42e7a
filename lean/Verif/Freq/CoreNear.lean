import Verif.Freq.Core
import Verif.Freq.NearMagic

/-!
# The loops with the constants of the source — property C89, continued
-/

namespace MRS.Freq

open Complex ComplexConjugate

/-- The tolerance of a dimension: that of its transitions, each in the field of its event and weighted by its fraction. -/
noncomputable def Spec.recordedTol (ss : List Site) (ks : List Coupling) : List Event → List (List ℕ × List ℕ) → ℝ
  | e :: es, x :: xs => |e.fraction| * Spec.tol e.B0 ss ks (Spec.quantum ss x.1) (Spec.quantum ss x.2) + Spec.recordedTol ss ks es xs
  | _, _ => 0

theorem recorded_near (four : Bool) (nt nOct : ℕ) (hn : 1 ≤ nt) (hO : nOct = 1 ∨ nOct = 4) (junk : ℕ → ℕ → ℂ)
    (ss : List Site) (ks : List Coupling) (hs : ∀ s ∈ ss, 1 ≤ s.n ∧ |s.eta| ≤ 1 ∧ |s.etaQ| ≤ 1)
    (hk : ∀ k ∈ ks, k.A < ss.length ∧ k.X < ss.length ∧ |k.eta| ≤ 1) (es : List Event) (xs : List (List ℕ × List ℕ))
    (hx : ∀ x ∈ xs, Spec.IsState ss x.1 ∧ Spec.IsState ss x.2) (he : ∀ e ∈ es, 0 < e.νr)
    (j q : ℕ) (hj : j < nOct) (p : ℕ × ℕ) (hp : (Bin.Spec.grid nt)[q]? = some p) (α β : ℝ)
    (hd : Spec.Points α β (Spec.quarter j (Bin.Spec.point nt p))) :
    |(List.zipWith (fun (e : Event) x => e.fraction *
        ((components WC.src TC.src four e.B0 ss ks (Spec.quantum ss x.1) (Spec.quantum ss x.2)).R0
          + (powderFrequencies WC.src four nt nOct (startRows four junk nt) (Real.cos e.θ) (Real.sin e.θ)
              (components WC.src TC.src four e.B0 ss ks (Spec.quantum ss x.1) (Spec.quantum ss x.2))).1
                (j * Bin.nPts nt + q))) es xs).sum
      - Spec.recorded four α β (ss.map Spec.absSite) (ks.map Spec.absCoupling) es xs| ≤ Spec.recordedTol ss ks es xs := by
  induction es generalizing xs with
  | nil => cases xs <;> simp [Spec.recorded, Spec.recordedTol]
  | cons e es ih =>
    cases xs with
    | nil => simp [Spec.recorded, Spec.recordedTol]
    | cons x xs =>
      obtain ⟨hx1, hx2⟩ := hx x (by simp)
      have h1 := ih xs (fun y hy => hx y (by simp [hy])) (fun y hy => he y (by simp [hy]))
      have h2 := components_near ⟨Real.cos β, Real.sin β, exp (α * I), Real.cos e.θ, Real.sin e.θ, Real.cos_sq_add_sin_sq β, exp_unit α,
        Real.cos_sq_add_sin_sq e.θ⟩ four e.B0 ss ks hs (fun k h => (hk k h).2.2) (Spec.quantum ss x.1) (Spec.quantum ss x.2)
      have h3 := C75_average_partial four e.B0 α β e.θ e.νr (he e (by simp)) (ss.map Spec.absSite) (ks.map Spec.absCoupling) x.1 x.2
        (isState_abs ss _ hx1) (isState_abs ss _ hx2)
        (by
          intro s h
          obtain ⟨s', h', rfl⟩ := List.mem_map.mp h
          exact ⟨⟨abs_nonneg _, abs_nonneg _⟩, (hs s' h').1⟩)
        (by
          intro k h
          obtain ⟨k', h', rfl⟩ := List.mem_map.mp h
          rw [List.length_map]
          exact ⟨⟨abs_nonneg _, abs_nonneg _⟩, (hk k' h').1, (hk k' h').2.1⟩)
      rw [components_absolute, quantum_absolute, quantum_absolute] at h3
      rw [List.zipWith_cons_cons, List.sum_cons, Spec.recorded, Spec.recordedTol,
        powder_dir WC.src four nt nOct hn hO junk _ _ _ j q hj p hp α β hd, ← h3, add_sub_add_comm, ← mul_sub]
      refine (abs_add_le _ _).trans (add_le_add ?_ h1)
      rw [abs_mul]
      exact mul_le_mul_of_nonneg_left h2 (abs_nonneg _)

/-- **C89 (decimals), partial.** As `C89_core_partial`, with the constants as the source has them and tilts of any sign: every dimension holds, to about seven
digits of every interaction, the fraction-weighted sum over its own events.  Missing: the signs of the tilts (the code uses their absolute
values, C73), flags (C41) and plans (C42). -/
theorem C89_decimals_partial (four : Bool) (nt nOct : ℕ) (hn : 1 ≤ nt) (hO : nOct = 1 ∨ nOct = 4) (junk : ℕ → ℕ → ℂ)
    (ss : List Site) (ks : List Coupling) (hs : ∀ s ∈ ss, 1 ≤ s.n ∧ |s.eta| ≤ 1 ∧ |s.etaQ| ≤ 1)
    (hk : ∀ k ∈ ks, k.A < ss.length ∧ k.X < ss.length ∧ |k.eta| ≤ 1)
    (f : List Dimension → List Dimension)
    (hf : ∀ l, (f l).map (fun d => (d.inv, d.events)) = l.map (fun d => (d.inv, d.events)))
    (ds : List Dimension) (hds : ∀ d ∈ ds, d.events ≠ [] ∧ ∀ e ∈ d.events, 0 < e.νr)
    (paths : List (List (List (List ℕ × List ℕ))))
    (hp : ∀ path ∈ paths, List.Forall₂ (fun (d : Dimension) x => x.length = d.events.length) ds path ∧
      ∀ l ∈ path, ∀ x ∈ l, Spec.IsState ss x.1 ∧ Spec.IsState ss x.2) :
    ∃ r, corePathways WC.src TC.src four nt nOct ss ks f ds (startRows four junk nt)
        (paths.map fun path => pack ss path.flatten) = .ok r ∧ r.length = paths.length ∧
      ∀ (i k : ℕ) (path : List (List (List ℕ × List ℕ))) (d : Dimension) (x : List (List ℕ × List ℕ)),
        paths[i]? = some path → ds[k]? = some d → path[k]? = some x →
        ∃ l d', r[i]? = some l ∧ l.length = ds.length ∧ l[k]? = some d' ∧
          ∀ (j q : ℕ) (p : ℕ × ℕ) (α β : ℝ), j < nOct → (Bin.Spec.grid nt)[q]? = some p →
            Spec.Points α β (Spec.quarter j (Bin.Spec.point nt p)) →
            |d'.r0 + d'.freq (j * Bin.nPts nt + q)
                - d.inv * Spec.recorded four α β (ss.map Spec.absSite) (ks.map Spec.absCoupling) d.events x|
              ≤ |d.inv| * Spec.recordedTol ss ks d.events x := by
  obtain ⟨r, hr, hlen, hv⟩ := corePathways_spec WC.src TC.src four nt nOct hO (startRows four junk nt) ss ks f hf ds
    (fun d h => (hds d h).1) paths hp
  refine ⟨r, hr, hlen, fun i k path d x hi hkd hkx => ?_⟩
  obtain ⟨l, d', h1, h2, h3, h4⟩ := hv i k path d x hi hkd hkx
  refine ⟨l, d', h1, h2, h3, fun j q p α β hj hq hd => ?_⟩
  rw [h4, ← mul_sub, abs_mul]
  exact mul_le_mul_of_nonneg_left (recorded_near four nt nOct hn hO junk ss ks hs hk d.events x
    (fun y hy => (hp path (List.mem_of_getElem? hi)).2 x (List.mem_of_getElem? hkx) y hy) (hds d (List.mem_of_getElem? hkd)).2
    j q hj p hq α β hd) (abs_nonneg _)

/-- The coupled pair of `exampleSites`, which has the asymmetries required. -/
example : ∀ s ∈ exampleSites, 1 ≤ s.n ∧ |s.eta| ≤ 1 ∧ |s.etaQ| ≤ 1 := by
  intro s hs
  simp only [exampleSites, List.mem_cons, List.not_mem_nil, or_false] at hs
  rcases hs with rfl | rfl <;> norm_num [abs_of_nonneg]

/-- A proton with a negative tilt, anisotropy 10 ppm at 400 MHz: the tolerance of a dimension of one event is below 1 mHz. -/
example : Spec.recordedTol [⟨1, 42.5, 3, 10, 0.2, ⟨0.1, -0.2, 0.3⟩, 0, 0, ⟨0, 0, 0⟩⟩] [] [⟨9.4, 1, 0.9553, 12500⟩] [([1], [0])] ≤ 1 / 1000 := by
  norm_num [Spec.recordedTol, Spec.tol, Spec.sitesTol, Spec.siteTol, Spec.edge, Spec.quantum]

end MRS.Freq
