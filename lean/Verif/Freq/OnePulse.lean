import Verif.Freq.PowderPattern
import Verif.Freq.Near
import Verif.Freq.Channel
import Verif.Run.Mixture
import Verif.Trans.Correlation
import Verif.Sim.Fourier
import Verif.Meth.Dims
import Mathlib.Algebra.BigOperators.Finprod

/-!
# The spectrum of a static powder after one pulse — property C96

The models of the earlier files put together: `Simulator.run` over a list of spin systems (`Run`), the transitions that the Bloch decay methods
select (`Trans`), the frequencies and the averaging over the powder of each (`Freq`), and the axis on which they are recorded (`Meth`, `Sim`).
-/

namespace MRS.Freq

open Complex Filter Topology

/-! ## Model -/

/-- utils/utils.py and spin_system/isotope.py: what the library knows about an isotope, `2I` and the gyromagnetic ratio in MHz/T. -/
structure Library where
  twoI : String → ℕ
  gamma : String → ℝ

/-- The interactions of a spin system (base_model.pyx lines 249-430). -/
structure Phys where
  sites : List Site
  couplings : List Coupling

/-- The sites as the selection of transitions sees them (spin_system/__init__.py lines 188-235). -/
def isoSites (lib : Library) (iso : List String) : List Trans.Iso := iso.map fun s => ⟨s, lib.twoI s⟩

/-- The sample rotation of an event and the number of sidebands of the configuration (base_model.pyx lines 119-144). -/
structure Rotor where
  sidebands : ℕ
  pos : NeZero sidebands
  freq : ℝ
  angle : ℝ

/-- base_model.pyx:122-128: a rotor slower than 1 mHz is static; the frequency is then 1 GHz, the angle 0 and the number of sidebands 1. -/
noncomputable def Rotor.seen (r : Rotor) : Rotor := if r.freq < 1 / 1000 then ⟨1, inferInstance, 1000000000, 0⟩ else r

/-- simulation.c:37-171 for one event: what one transition adds to the bins.  `W`, `T` are the constants of the source, `junk` what the
allocated memory contains. -/
noncomputable def rotorWrites (W : WC) (T : TC) (lib : Library) (c : String) (B0 : ℝ) (r : Rotor) (d : Meth.SDim) (nOct : ℕ)
    (junk : ℕ → ℕ → ℂ) (nt : ℕ) (ph : Phys) (t : Trans.Tr) : Py (Bin.Writes ℝ) :=
  haveI := r.pos
  spectrum W (fourth (lib.twoI c)) nt nOct r.sidebands r.freq (Real.cos r.angle) (Real.sin r.angle) ((1 / (d.sw / d.count) : ℚ) : ℝ)
    ((Meth.normalizeOffset (decide (0 < lib.gamma c)) d : ℚ) : ℝ) d.count (startRows (fourth (lib.twoI c)) junk nt)
    (methodComponents W T (lib.twoI c) B0 ph.sites ph.couplings (t.1.map fun (m : ℚ) => (m : ℝ)) (t.2.map fun (m : ℚ) => (m : ℝ)))

/-- base_model.pyx:119-175 and 470-480: the same with the rotor as the event has it. -/
noncomputable def pulseWrites (W : WC) (T : TC) (lib : Library) (c : String) (B0 : ℝ) (r : Rotor) (d : Meth.SDim) (nOct : ℕ)
    (junk : ℕ → ℕ → ℂ) (nt : ℕ) (ph : Phys) (t : Trans.Tr) : Py (Bin.Writes ℝ) :=
  rotorWrites W T lib c B0 r.seen d nOct junk nt ph t

/-- base_model.pyx:15-508 for a method of one dimension with one event on channel `c` (`blochDecay`, or
`blochDecayCT` if `central`): what is fixed during a call with integration density `nt` on `nOct` octants.
Simplified: a pathway of more than one transition, which these queries do not yield, counts nothing; nor do writes
outside of the array, which C96 shows do not happen. -/
noncomputable def pulseEnv (W : WC) (T : TC) (lib : Library) (so : Trans.SetOrder) (c : String) (central : Bool) (B0 : ℝ)
    (r : Rotor) (d : Meth.SDim) [NeZero d.count] (nOct : ℕ) (junk : ℕ → Phys → List Trans.Tr → ℕ → ℕ → ℂ) (nt : ℕ) :
    Run.Env Phys (List Trans.Tr) (ZMod d.count → ℝ) where
  channel := c
  norm := d.sw / d.count
  gammaNeg := decide (lib.gamma c < 0)
  mirror :=
    { toFun := Sim.mirror1
      map_zero' := by funext k; rw [Sim.C59_mirror1]; rfl
      map_add' := fun x y => by funext k; simp only [Sim.C59_mirror1, Pi.add_apply] }
  sel := fun iso => Trans.transitionPathways so (isoSites lib iso) [c] (if central then Trans.blochDecayCT else Trans.blochDecay)
  core := fun ph path => match path with
    | [t] => fun k => Bin.val (k.val : ℤ) (pulseWrites W T lib c B0 r d nOct (junk nt ph path) nt ph t)
    | _ => 0
  rows := d.count

/-! ## Specification -/

/-- One nucleus of isotope `c` goes down by one state, `m` to `m - 1`, and no other nucleus changes; for the central-transition method
from `m = 1/2`. -/
structure Spec.Observed (c : String) (central : Bool) (iso : List String) (ss : List Site) (x : List ℕ × List ℕ) : Prop where
  initial : Spec.IsState ss x.1
  final : Spec.IsState ss x.2
  step : ∃ k i s, iso[k]? = some c ∧ ss[k]? = some s ∧ x.1[k]? = some (i + 1) ∧ x.2 = x.1.set k i ∧
    (central = true → 2 * i + 1 = s.n)

/-- The frequency at which a transition is recorded. -/
noncomputable def Spec.pulseLine (lib : Library) (c : String) (B0 : ℝ) (ph : Phys) (x : List ℕ × List ℕ) (p : ℝ × ℝ) : ℝ :=
  (if 0 < lib.gamma c then 1 else -1) * Spec.line true B0 ph.sites ph.couplings x.1 x.2 p

/-- The frequencies that belong to point `j` of the axis: those within half an increment of its coordinate. -/
def Spec.bin (pos : Bool) (d : Meth.SDim) (j : ℕ) : Set ℝ :=
  let a : ℝ := ((Meth.Spec.coord d j - d.sw / d.count / 2 : ℚ) : ℝ)
  let b : ℝ := ((Meth.Spec.coord d j + d.sw / d.count / 2 : ℚ) : ℝ)
  if pos then Set.Ico a b else Set.Ioc a b

/-- The share of the directions of the sphere with `f` in `S`. -/
noncomputable def Spec.shareIn (S : Set ℝ) (f : ℝ × ℝ → ℝ) : ℝ := Spec.sphereMean fun p => S.indicator (fun _ => 1) (f p)

/-- The frequencies along the three axes are not the same to a millionth of an increment. -/
def Spec.Wide (d : Meth.SDim) (f : ℝ × ℝ → ℝ) : Prop :=
  ((d.sw / d.count / 1000000 : ℚ) : ℝ) ≤ |f (0, Real.pi / 2) - f (Real.pi / 2, Real.pi / 2)| ∨
    ((d.sw / d.count / 1000000 : ℚ) : ℝ) ≤ |f (0, Real.pi / 2) - f (0, 0)|

/-- The isotropic frequency is on the axis. -/
def Spec.Inside (d : Meth.SDim) (f : ℝ × ℝ → ℝ) : Prop :=
  |Spec.sphereMean f - (d.ref : ℝ)| < ((d.sw / 2 + d.sw / d.count / 2 : ℚ) : ℝ)

/-- The frequency does not depend on the direction. -/
def Spec.Sharp (f : ℝ × ℝ → ℝ) : Prop := ∃ a, ∀ p, f p = a

/-- The frequencies that belong to a point of the axis; for a negative gyromagnetic ratio the axis is that of the mirrored points, which
lacks the first point and has one more at the end. -/
def Spec.onAxis (pos : Bool) (d : Meth.SDim) : Set ℝ :=
  {f | ∃ j, (if pos then j < d.count else 1 ≤ j ∧ j ≤ d.count) ∧ f ∈ Spec.bin pos d j}

open Classical in
/-- What a sharp line at frequency `f` gives to point `j`: a linear share of the two points next to it. -/
noncomputable def Spec.peak (pos : Bool) (d : Meth.SDim) (j : ℕ) (f : ℝ) : ℝ :=
  if f ∈ Spec.onAxis pos d then Bin.Spec.linear ((f - ((Meth.Spec.coord d j : ℚ) : ℝ)) / ((d.sw / d.count : ℚ) : ℝ)) else 0

open Classical in
/-- What a line gives to point `j`. -/
noncomputable def Spec.pattern (pos : Bool) (d : Meth.SDim) (j : ℕ) (f : ℝ × ℝ → ℝ) : ℝ :=
  if Spec.Sharp f then Spec.peak pos d j (f (0, 0)) else Spec.shareIn (Spec.bin pos d j) f

/-- A spin system as a user gives it: an isotope of the library for every site, axes not tilted by negative angles. -/
structure Spec.Sound (lib : Library) (s : Run.Sys Phys (List Trans.Tr)) : Prop where
  explicit : s.explicit = none
  spins : s.phys.sites.map Site.n = s.isotopes.map lib.twoI
  sites : ∀ x ∈ s.phys.sites, x.Upright ∧ 1 ≤ x.n
  couplings : ∀ k ∈ s.phys.couplings, k.Upright ∧ k.A < s.phys.sites.length ∧ k.X < s.phys.sites.length

/-- A spin system as a user gives it, with any angles. -/
structure Spec.Given (lib : Library) (s : Run.Sys Phys (List Trans.Tr)) : Prop where
  explicit : s.explicit = none
  spins : s.phys.sites.map Site.n = s.isotopes.map lib.twoI
  sites : ∀ x ∈ s.phys.sites, 1 ≤ x.n
  couplings : ∀ k ∈ s.phys.couplings, k.A < s.phys.sites.length ∧ k.X < s.phys.sites.length

/-- A spin system with the second Euler angles made positive, which is what the program computes with (C77). -/
noncomputable def Spec.upright (ph : Phys) : Phys := ⟨ph.sites.map Spec.absSite, ph.couplings.map Spec.absCoupling⟩

theorem Spec.Sound.given {lib : Library} {s : Run.Sys Phys (List Trans.Tr)} (h : Spec.Sound lib s) : Spec.Given lib s :=
  ⟨h.explicit, h.spins, fun x hx => (h.sites x hx).2, fun k hk => (h.couplings k hk).2⟩

/-! ## Lemmas: transitions as pairs of numbered states -/

/-- Quantum numbers of numbered states. -/
def qnum (ns : List ℕ) (x : List ℕ) : List ℚ := List.zipWith (fun (n j : ℕ) => -(n : ℚ) / 2 + j) ns x

theorem qnum_get (ns x : List ℕ) (hl : x.length = ns.length) (k : ℕ) :
    (qnum ns x)[k]? = (x[k]?).map fun (j : ℕ) => -((ns.getD k 0 : ℕ) : ℚ) / 2 + j := by
  unfold qnum
  rw [List.getElem?_zipWith]
  by_cases hk : k < ns.length
  · rw [List.getElem?_eq_getElem hk, List.getElem?_eq_getElem (by omega : k < x.length)]
    simp [List.getD_eq_getElem?_getD, hk]
  · rw [List.getElem?_eq_none (by omega : ns.length ≤ k), List.getElem?_eq_none (by omega : x.length ≤ k)]
    rfl

theorem qnum_inj (ns x y : List ℕ) (hx : x.length = ns.length) (hy : y.length = ns.length) (h : qnum ns x = qnum ns y) : x = y := by
  apply List.ext_getElem?
  intro k
  have e : (qnum ns x)[k]? = (qnum ns y)[k]? := by rw [h]
  rw [qnum_get ns x hx, qnum_get ns y hy] at e
  refine Option.map_injective ?_ e
  intro a b hab
  have : (a : ℚ) = b := by simpa using hab
  exact_mod_cast this

theorem qnum_cast (ss : List Site) (x : List ℕ) :
    (qnum (ss.map Site.n) x).map (fun (m : ℚ) => (m : ℝ)) = Spec.quantum ss x := by
  unfold qnum Spec.quantum
  rw [List.zipWith_map_left, List.map_zipWith]
  congr 1
  funext s j
  push_cast
  ring

theorem state_iff (ss : List Site) (sites : List Trans.Iso) (h : ss.map Site.n = sites.map Trans.Iso.twoI) (st : List ℚ) :
    Trans.Spec.IsState sites st ↔ ∃ x, Spec.IsState ss x ∧ st = qnum (ss.map Site.n) x := by
  induction sites generalizing ss st with
  | nil =>
    have : ss = [] := by simpa using h
    subst this
    unfold Trans.Spec.IsState Spec.IsState
    constructor
    · intro h
      cases h
      exact ⟨[], List.Forall₂.nil, rfl⟩
    · rintro ⟨x, hx, rfl⟩
      cases hx
      exact List.Forall₂.nil
  | cons i sites ih =>
    cases ss with
    | nil => simp at h
    | cons s ss =>
      simp only [List.map_cons, List.cons.injEq] at h
      obtain ⟨h1, h2⟩ := h
      unfold Trans.Spec.IsState Spec.IsState
      constructor
      · intro hh
        cases hh with
        | cons ha hb =>
          obtain ⟨x, hx, rfl⟩ := (ih ss h2 _).mp hb
          obtain ⟨j, hj, rfl⟩ := ha
          refine ⟨j :: x, List.Forall₂.cons (by omega) hx, ?_⟩
          simp [qnum, h1]
      · rintro ⟨x, hx, rfl⟩
        cases hx with
        | cons ha hb =>
          refine List.Forall₂.cons ⟨_, h1 ▸ ha, ?_⟩ ((ih ss h2 _).mpr ⟨_, hb, rfl⟩)
          simp [h1]

/-- The conditions of C84 on one transition, with the states numbered. -/
theorem moves_observed (lib : Library) (c : String) (central : Bool) (iso : List String) (ss : List Site)
    (h : ss.map Site.n = iso.map lib.twoI) (t : Trans.Tr) :
    (Trans.Spec.IsTransition (isoSites lib iso) t ∧
      Trans.Spec.Moves (isoSites lib iso) c 1 (-1) (if central then some [1 / 2] else none) t) ↔
      ∃ x, Spec.Observed c central iso ss x ∧ t = (qnum (ss.map Site.n) x.1, qnum (ss.map Site.n) x.2) := by
  have hn : ss.map Site.n = (isoSites lib iso).map Trans.Iso.twoI := by
    rw [h, isoSites, List.map_map]
    rfl
  have hlen : ss.length = iso.length := by simpa using congrArg List.length h
  have hli : (isoSites lib iso).length = iso.length := by simp [isoSites]
  have hsym : ∀ k : ℕ, ((isoSites lib iso)[k]?).map Trans.Iso.symbol = iso[k]? := by
    intro k
    rw [isoSites, List.getElem?_map, Option.map_map]
    cases iso[k]? <;> rfl
  have hget : ∀ (k : ℕ) (s : Site), ss[k]? = some s → (ss.map Site.n).getD k 0 = s.n := by
    intro k s hk
    rw [List.getD_eq_getElem?_getD, List.getElem?_map, hk]
    rfl
  constructor
  · rintro ⟨⟨h1, h2⟩, K, hK, hKc, hmv, hst⟩
    obtain ⟨x, hx, e1⟩ := (state_iff ss _ hn _).mp h1
    obtain ⟨y, hy, e2⟩ := (state_iff ss _ hn _).mp h2
    obtain ⟨k, rfl⟩ := Finset.card_eq_one.mp hK
    have hkc := hKc k (by simp)
    rw [hsym] at hkc
    have hk : k < iso.length := (List.getElem?_eq_some_iff.mp hkc).1
    have hxl : x.length = ss.length := hx.length_eq.symm
    have hyl : y.length = ss.length := hy.length_eq.symm
    have gx := qnum_get (ss.map Site.n) x (by simpa using hxl)
    have gy := qnum_get (ss.map Site.n) y (by simpa using hyl)
    have hs : ss[k]? = some ss[k] := List.getElem?_eq_getElem (by omega)
    have hxk : x[k]? = some x[k] := List.getElem?_eq_getElem (by omega)
    have hyk : y[k]? = some y[k] := List.getElem?_eq_getElem (by omega)
    have hstep : x[k] = y[k] + 1 := by
      have := hmv k (by omega)
      rw [e1, e2, gx, gy, hxk, hyk] at this
      simp only [Option.map_some, Option.some.injEq, Finset.mem_singleton, if_true] at this
      have h3 : ((y[k] : ℕ) : ℚ) + 1 = (x[k] : ℕ) := by linarith
      exact_mod_cast h3.symm
    refine ⟨(x, y), ⟨hx, hy, k, y[k], ss[k], hkc, hs, by rw [hxk, hstep], ?_, ?_⟩, by rw [← e1, ← e2]⟩
    · apply List.ext_getElem?
      intro j
      rw [List.getElem?_set]
      by_cases hj : j < iso.length
      · by_cases hjk : k = j
        · subst hjk
          simp only [if_true]
          rw [if_pos (by omega), hyk]
        · rw [if_neg hjk]
          have := hmv j (by omega)
          rw [e1, e2, gx, gy] at this
          rw [List.getElem?_eq_getElem (by omega : j < x.length), List.getElem?_eq_getElem (by omega : j < y.length)] at this ⊢
          simp only [Option.map_some, Option.some.injEq, Finset.mem_singleton, Ne.symm hjk, if_false] at this
          have h3 : ((y[j] : ℕ) : ℚ) = (x[j] : ℕ) := by linarith
          rw [show y[j] = x[j] by exact_mod_cast h3]
      · rw [if_neg (by omega), List.getElem?_eq_none (show y.length ≤ j by omega), List.getElem?_eq_none (show x.length ≤ j by omega)]
    · intro hc
      obtain ⟨m, hm, e⟩ := hst [1 / 2] (by rw [hc]; rfl) k (by simp)
      have hm : m = 1 / 2 := by simpa using hm
      rw [e1, gx, hxk, hm, hget k _ hs, hstep] at e
      simp only [Option.map_some, Option.some.injEq] at e
      push_cast at e
      have h3 : (2 * (y[k] : ℕ) + 1 : ℚ) = (ss[k].n : ℕ) := by linarith
      exact_mod_cast h3
  · rintro ⟨⟨x, y⟩, ⟨hx, hy, k, i, s, hkc, hs, hxk, hset, hcen⟩, rfl⟩
    refine ⟨⟨(state_iff ss _ hn _).mpr ⟨x, hx, rfl⟩, (state_iff ss _ hn _).mpr ⟨y, hy, rfl⟩⟩, {k}, by simp, ?_, ?_, ?_⟩
    · intro j hj
      rw [Finset.mem_singleton] at hj
      rw [hj, hsym, hkc]
    · have hxl : x.length = ss.length := hx.length_eq.symm
      have hyl : y.length = ss.length := hy.length_eq.symm
      intro j hj
      simp only at hset hxk ⊢
      rw [qnum_get _ _ (by simpa using hyl), qnum_get _ _ (by simpa using hxl), hset, List.getElem?_set]
      by_cases hjk : k = j
      · subst hjk
        rw [if_pos rfl, if_pos (by omega), hxk]
        simp only [Option.map_some, Finset.mem_singleton, if_true]
        push_cast
        congr 1
        ring
      · rw [if_neg hjk, Option.map_map]
        simp only [Finset.mem_singleton, Ne.symm hjk, if_false]
        rfl
    · intro l hl j hj
      rw [Finset.mem_singleton] at hj
      subst hj
      cases central with
      | false => simp at hl
      | true =>
        simp only [if_true, Option.some.injEq] at hl
        subst hl
        refine ⟨1 / 2, by simp, ?_⟩
        have hxl : x.length = ss.length := hx.length_eq.symm
        simp only at hxk ⊢
        rw [qnum_get _ _ (by simpa using hxl), hxk, hget j s hs, ← hcen rfl]
        simp only [Option.map_some, Option.some.injEq]
        push_cast
        ring

/-! ## Lemmas: one transition -/

theorem sphereMean_mul (a : ℝ) (g : ℝ × ℝ → ℝ) : Spec.sphereMean (fun p => a * g p) = a * Spec.sphereMean g := by
  unfold Spec.sphereMean
  have e : (fun p : ℝ × ℝ => Real.sin p.2 * (a * g p)) = fun p => a * (Real.sin p.2 * g p) := by
    funext p
    ring
  rw [e, MeasureTheory.integral_const_mul]
  ring

/-- The frequency recorded for a transition, with any constants. -/
noncomputable def recordedW (W : WC) (T : TC) (lib : Library) (c : String) (B0 : ℝ) (ph : Phys) (x : List ℕ × List ℕ) (p : ℝ × ℝ) : ℝ :=
  (if 0 < lib.gamma c then 1 else -1) *
    dirFreq W true 1 0 (components W T true B0 ph.sites ph.couplings (Spec.quantum ph.sites x.1) (Spec.quantum ph.sites x.2)) p

/-- The nucleus that moves is one of isotope `c`, so that no quadrupolar nucleus moves if that is a spin 1/2. -/
theorem observed_spectator (lib : Library) (c : String) (central : Bool) (iso : List String) (ss : List Site)
    (h : ss.map Site.n = iso.map lib.twoI) (x : List ℕ × List ℕ) (hx : Spec.Observed c central iso ss x) :
    1 < lib.twoI c ∨ Spec.Spectator ss x.1 x.2 := by
  by_cases h1 : 1 < lib.twoI c
  · exact Or.inl h1
  · refine Or.inr fun i s hs hn => ?_
    obtain ⟨k, j, s', e1, e2, e3, e4, -⟩ := hx.step
    have hne : k ≠ i := by
      rintro rfl
      rw [hs] at e2
      injection e2 with e2
      have : (ss.map Site.n)[k]? = (iso.map lib.twoI)[k]? := by rw [h]
      rw [List.getElem?_map, List.getElem?_map, hs, e1] at this
      simp only [Option.map_some, Option.some.injEq] at this
      omega
    rw [e4, List.getElem?_set, if_neg hne]

theorem methodComponents_flat (W : WC) (T : TC) (n0 : ℕ) (h0 : ¬ 1 < n0) (B0 : ℝ) (ss : List Site) (ks : List Coupling) (mi mf : List ℝ) (i : ℕ) :
    (methodComponents W T n0 B0 ss ks mi mf).R4 i = 0 := by
  unfold methodComponents components
  rw [fourth, decide_eq_false h0]
  exact couplings_R4 _ _ _ _ _ _ (addSites_R4 _ _ _ _ _ _ _ (fun _ => rfl)) i

theorem method_dirFreq (W : WC) (T : TC) (n0 : ℕ) (B0 cθ sθ : ℝ) (ss : List Site) (ks : List Coupling) (xi xf : List ℕ)
    (hs : ∀ s ∈ ss, 1 ≤ s.n) (hx : 1 < n0 ∨ Spec.Spectator ss xi xf) :
    dirFreq W (fourth n0) cθ sθ (methodComponents W T n0 B0 ss ks (Spec.quantum ss xi) (Spec.quantum ss xf))
      = dirFreq W true cθ sθ (components W T true B0 ss ks (Spec.quantum ss xi) (Spec.quantum ss xf)) := by
  have h := methodComponents_eq W T n0 B0 ss ks xi xf hs hx
  rw [← h]
  funext p
  unfold dirFreq
  by_cases h0 : 1 < n0
  · rw [fourth, decide_eq_true h0]
  · exact localFreq_flat _ _ _ _ _ _ _ _ (methodComponents_flat W T n0 h0 B0 ss ks _ _)

theorem unturned_packed (n0 : ℕ) (ss : List Site) (ks : List Coupling) (h : Spec.Unturned ss ks) :
    Spec.Unturned (ss.map (packed n0)) ks := by
  refine ⟨fun s hs => ?_, h.2⟩
  obtain ⟨s', hs', rfl⟩ := List.mem_map.mp hs
  have := h.1 s' hs'
  unfold packed
  split_ifs
  · exact this
  · exact ⟨this.1, rfl⟩

/-- The bin that becomes point `j` of the axis. -/
def accBin (pos : Bool) (n j : ℕ) : ℤ := if pos then j else n - j

/-- A position in bins is in the bin of point `j` if the recorded frequency is in the interval of that point. -/
theorem position_bin (pos : Bool) (d : Meth.SDim) (h : ℕ) (hd : d.count = 2 * h) (hh : 1 ≤ h) (hsw : 0 < d.sw) (j : ℕ) (f : ℝ) :
    ((accBin pos d.count j : ℝ) ≤ ((Meth.normalizeOffset pos d : ℚ) : ℝ) + ((1 / (d.sw / d.count) : ℚ) : ℝ) * f ∧
      ((Meth.normalizeOffset pos d : ℚ) : ℝ) + ((1 / (d.sw / d.count) : ℚ) : ℝ) * f < (accBin pos d.count j : ℝ) + 1) ↔
      (if pos then 1 else -1) * f ∈ Spec.bin pos d j := by
  obtain ⟨inc, hinc⟩ : ∃ inc : ℚ, inc = d.sw / d.count := ⟨_, rfl⟩
  have hn : (0 : ℚ) < d.count := by
    rw [hd]
    push_cast
    have : (1 : ℚ) ≤ h := by exact_mod_cast hh
    linarith
  have hpos : 0 < inc := by
    rw [hinc]
    positivity
  have hs : d.sw = inc * (2 * h) := by
    rw [hinc, hd]
    have : (h : ℚ) ≠ 0 := by
      have : (1 : ℚ) ≤ h := by exact_mod_cast hh
      linarith
    field_simp
    push_cast
    field_simp
  have hhalf : d.count / 2 = h := by omega
  have hposR : (0 : ℝ) < (inc : ℝ) := by exact_mod_cast hpos
  unfold Spec.bin Meth.Spec.coord Meth.normalizeOffset Meth.refFactor accBin
  simp only [← hinc]
  simp only [hhalf, hs]
  cases pos
  · simp only [Bool.false_eq_true, if_false, Set.mem_Ioc]
    push_cast
    rw [hd]
    push_cast
    have e : (1 : ℝ) / 2 - (-(d.ref : ℝ) * 1 - (inc : ℝ) * (2 * h) / 2) * (1 / inc) + 1 / inc * f
        = 1 / 2 + h + (f + d.ref) / inc := by
      field_simp
      ring
    rw [e]
    have e1 : (2 * (h : ℝ) - j ≤ 1 / 2 + h + (f + d.ref) / inc) ↔ (h - j - 1 / 2) * inc ≤ f + d.ref := by
      rw [← le_div_iff₀ hposR]
      constructor <;> intro h <;> linarith
    have e2 : (1 / 2 + h + (f + d.ref) / inc < 2 * (h : ℝ) - j + 1) ↔ f + d.ref < (h - j + 1 / 2) * inc := by
      rw [← div_lt_iff₀ hposR]
      constructor <;> intro h <;> linarith
    rw [e1, e2]
    constructor
    · rintro ⟨a, b⟩
      constructor <;> nlinarith
    · rintro ⟨a, b⟩
      constructor <;> nlinarith
  · simp only [if_true, Set.mem_Ico]
    push_cast
    have e : (1 : ℝ) / 2 - (-(d.ref : ℝ) * -1 - (inc : ℝ) * (2 * h) / 2) * (1 / inc) + 1 / inc * f
        = 1 / 2 + h + (f - d.ref) / inc := by
      field_simp
      ring
    rw [e]
    have e1 : ((j : ℝ) ≤ 1 / 2 + h + (f - d.ref) / inc) ↔ (j - h - 1 / 2) * inc ≤ f - d.ref := by
      rw [← le_div_iff₀ hposR]
      constructor <;> intro h <;> linarith
    have e2 : (1 / 2 + h + (f - d.ref) / inc < (j : ℝ) + 1) ↔ f - d.ref < (j - h + 1 / 2) * inc := by
      rw [← div_lt_iff₀ hposR]
      constructor <;> intro h <;> linarith
    rw [e1, e2]
    constructor
    · rintro ⟨a, b⟩
      constructor <;> nlinarith
    · rintro ⟨a, b⟩
      constructor <;> nlinarith

/-- An isotropic frequency on the axis is in the window of the bins. -/
theorem position_window (pos : Bool) (d : Meth.SDim) (h : ℕ) (hd : d.count = 2 * h) (hh : 1 ≤ h) (hsw : 0 < d.sw) (f : ℝ)
    (hf : |(if pos then 1 else -1) * f - (d.ref : ℝ)| < ((d.sw / 2 + d.sw / d.count / 2 : ℚ) : ℝ)) :
    -1 < ((Meth.normalizeOffset pos d : ℚ) : ℝ) + ((1 / (d.sw / d.count) : ℚ) : ℝ) * f ∧
      ((Meth.normalizeOffset pos d : ℚ) : ℝ) + ((1 / (d.sw / d.count) : ℚ) : ℝ) * f < ((d.count : ℤ) : ℝ) + 1 := by
  obtain ⟨inc, hinc⟩ : ∃ inc : ℚ, inc = d.sw / d.count := ⟨_, rfl⟩
  have hn : (0 : ℚ) < d.count := by
    rw [hd]
    push_cast
    have : (1 : ℚ) ≤ h := by exact_mod_cast hh
    linarith
  have hpos : 0 < inc := by
    rw [hinc]
    positivity
  have hs : d.sw = inc * (2 * h) := by
    rw [hinc, hd]
    have : (h : ℚ) ≠ 0 := by
      have : (1 : ℚ) ≤ h := by exact_mod_cast hh
      linarith
    field_simp
    push_cast
    field_simp
  have hposR : (0 : ℝ) < (inc : ℝ) := by exact_mod_cast hpos
  unfold Meth.normalizeOffset Meth.refFactor
  simp only [← hinc] at hf ⊢
  simp only [hs] at hf ⊢
  rw [abs_lt] at hf
  obtain ⟨f1, f2⟩ := hf
  push_cast at f1 f2
  cases pos
  · simp only [Bool.false_eq_true, if_false] at f1 f2 ⊢
    push_cast
    rw [hd]
    push_cast
    have e : (1 : ℝ) / 2 - (-(d.ref : ℝ) * 1 - (inc : ℝ) * (2 * h) / 2) * (1 / inc) + 1 / inc * f
        = 1 / 2 + h + (f + d.ref) / inc := by
      field_simp
      ring
    rw [e]
    have g1 : -((h : ℝ) + 1 / 2) < (f + d.ref) / inc := by
      rw [lt_div_iff₀ hposR]
      nlinarith
    have g2 : (f + d.ref) / inc < (h : ℝ) + 1 / 2 := by
      rw [div_lt_iff₀ hposR]
      nlinarith
    constructor <;> linarith
  · simp only [if_true] at f1 f2 ⊢
    push_cast
    rw [hd]
    push_cast
    have e : (1 : ℝ) / 2 - (-(d.ref : ℝ) * -1 - (inc : ℝ) * (2 * h) / 2) * (1 / inc) + 1 / inc * f
        = 1 / 2 + h + (f - d.ref) / inc := by
      field_simp
      ring
    rw [e]
    have g1 : -((h : ℝ) + 1 / 2) < (f - d.ref) / inc := by
      rw [lt_div_iff₀ hposR]
      nlinarith
    have g2 : (f - d.ref) / inc < (h : ℝ) + 1 / 2 := by
      rw [div_lt_iff₀ hposR]
      nlinarith
    constructor <;> linarith

theorem pulseWrites_static (W : WC) (T : TC) (lib : Library) (c : String) (B0 : ℝ) (r : Rotor) (hr : r.freq < 1 / 1000) (d : Meth.SDim)
    (nOct : ℕ) (junk : ℕ → ℕ → ℂ) (nt : ℕ) (ph : Phys) (x : List ℕ × List ℕ) :
    pulseWrites W T lib c B0 r d nOct junk nt ph (qnum (ph.sites.map Site.n) x.1, qnum (ph.sites.map Site.n) x.2)
      = spectrum W (fourth (lib.twoI c)) nt nOct 1 1000000000 1 0 ((1 / (d.sw / d.count) : ℚ) : ℝ)
        ((Meth.normalizeOffset (decide (0 < lib.gamma c)) d : ℚ) : ℝ) d.count (startRows (fourth (lib.twoI c)) junk nt)
        (methodComponents W T (lib.twoI c) B0 ph.sites ph.couplings (Spec.quantum ph.sites x.1) (Spec.quantum ph.sites x.2)) := by
  have hseen : r.seen = ⟨1, inferInstance, 1000000000, 0⟩ := if_pos hr
  unfold pulseWrites
  rw [hseen]
  unfold rotorWrites
  simp only [qnum_cast, Real.cos_zero, Real.sin_zero]

/-- A line that is not sharp is interpolated. -/
theorem wide_spread (lib : Library) (c : String) (d : Meth.SDim) (hinc : 0 < d.sw / d.count) (f : ℝ × ℝ → ℝ)
    (hw : Spec.Wide d fun p => (if 0 < lib.gamma c then 1 else -1) * f p) : Spread ((1 / (d.sw / d.count) : ℚ) : ℝ) f := by
  have hi' : (0 : ℝ) < ((d.sw / d.count : ℚ) : ℝ) := by exact_mod_cast hinc
  unfold Spread
  rintro ⟨h1, h2⟩
  have habs : ∀ a b : ℝ, |((1 / (d.sw / d.count) : ℚ) : ℝ) * (a - b)| < 1 / 1000000 →
      |(if 0 < lib.gamma c then 1 else -1) * a - (if 0 < lib.gamma c then 1 else -1) * b| < ((d.sw / d.count / 1000000 : ℚ) : ℝ) := by
    intro a b hab
    have e : |(if 0 < lib.gamma c then 1 else -1) * a - (if 0 < lib.gamma c then 1 else -1) * b| = |a - b| := by
      split_ifs
      · rw [one_mul, one_mul]
      · rw [← abs_neg]
        congr 1
        ring
    rw [e]
    rw [abs_mul] at hab
    push_cast at hab hi' ⊢
    rw [abs_of_pos (by positivity), one_div, inv_mul_lt_iff₀ hi'] at hab
    linarith
  unfold Spec.Wide at hw
  simp only at hw
  rcases hw with hw | hw
  · exact absurd (habs _ _ h1) (not_lt.mpr hw)
  · exact absurd (habs _ _ h2) (not_lt.mpr hw)

/-- What one transition contributes to point `j`, in the limit. -/
theorem one_limit (W : WC) (T : TC) (lib : Library) (c : String) (central : Bool) (B0 : ℝ) (r : Rotor) (hr : r.freq < 1 / 1000) (d : Meth.SDim)
    (h : ℕ) (hd : d.count = 2 * h) (hh : 1 ≤ h) (hsw : 0 < d.sw) (nOct : ℕ) (junk : ℕ → ℕ → ℕ → ℂ)
    (s : Run.Sys Phys (List Trans.Tr)) (hs : Spec.Sound lib s) (hO : nOct = 4 ∨ nOct = 1 ∧ Spec.Unturned s.phys.sites s.phys.couplings)
    (x : List ℕ × List ℕ) (hx : Spec.Observed c central s.isotopes s.phys.sites x)
    (hw : Spec.Wide d (recordedW W T lib c B0 s.phys x)) (hi : Spec.Inside d (recordedW W T lib c B0 s.phys x))
    (j : ℕ) (hj : 1 ≤ j) (hjn : j < d.count) :
    let f := fun nt => pulseWrites W T lib c B0 r d nOct (junk nt) nt s.phys
      (qnum (s.phys.sites.map Site.n) x.1, qnum (s.phys.sites.map Site.n) x.2)
    (∀ nt, 1 ≤ nt → ∃ u, f nt = .ok u) ∧
      Tendsto (fun nt => Bin.val (accBin (decide (0 < lib.gamma c)) d.count j) (f nt)) atTop
        (𝓝 (3 * Real.pi * Spec.shareIn (Spec.bin (decide (0 < lib.gamma c)) d j) (recordedW W T lib c B0 s.phys x))) := by
  intro f
  set t := methodComponents W T (lib.twoI c) B0 s.phys.sites s.phys.couplings (Spec.quantum s.phys.sites x.1) (Spec.quantum s.phys.sites x.2)
    with ht
  have hf : f = fun nt => spectrum W (fourth (lib.twoI c)) nt nOct 1 1000000000 1 0 ((1 / (d.sw / d.count) : ℚ) : ℝ)
      ((Meth.normalizeOffset (decide (0 < lib.gamma c)) d : ℚ) : ℝ) d.count (startRows (fourth (lib.twoI c)) (junk nt) nt) t :=
    funext fun nt => pulseWrites_static W T lib c B0 r hr d nOct (junk nt) nt s.phys x
  rw [hf]
  have hflat := method_dirFreq W T (lib.twoI c) B0 1 0 s.phys.sites s.phys.couplings x.1 x.2 (fun s' h' => (hs.sites s' h').2)
    (observed_spectator lib c central s.isotopes s.phys.sites hs.spins x hx)
  change dirFreq W (fourth (lib.twoI c)) 1 0 t = _ at hflat
  have hrec : recordedW W T lib c B0 s.phys x = fun p => (if 0 < lib.gamma c then 1 else -1) * dirFreq W (fourth (lib.twoI c)) 1 0 t p := by
    funext p
    rw [hflat]
    rfl
  have hsgn : ∀ y : ℝ, (if 0 < lib.gamma c then (1 : ℝ) else -1) * y = (if decide (0 < lib.gamma c) = true then (1 : ℝ) else -1) * y := by
    intro y
    simp only [decide_eq_true_eq]
  have hn : (0 : ℚ) < d.count := by
    rw [hd]
    push_cast
    have : (1 : ℚ) ≤ h := by exact_mod_cast hh
    linarith
  have hinc : 0 < d.sw / d.count := by positivity
  have hspread : Spread ((1 / (d.sw / d.count) : ℚ) : ℝ) (dirFreq W (fourth (lib.twoI c)) 1 0 t) := by
    refine wide_spread lib c d hinc _ ?_
    rw [← hrec]
    exact hw
  have hwin := position_window (decide (0 < lib.gamma c)) d h hd hh hsw t.R0 (by
    unfold Spec.Inside at hi
    rw [hrec, sphereMean_mul, dirFreq_mean, hsgn] at hi
    exact hi)
  have hacc : 1 ≤ accBin (decide (0 < lib.gamma c)) d.count j ∧ accBin (decide (0 < lib.gamma c)) d.count j < (d.count : ℤ) := by
    unfold accBin
    split_ifs <;> omega
  have main := static_limit W T (fourth (lib.twoI c)) B0 (s.phys.sites.map (packed (lib.twoI c))) s.phys.couplings
    (Spec.quantum s.phys.sites x.1) (Spec.quantum s.phys.sites x.2) nOct
    (hO.imp id fun hu => ⟨hu.1, unturned_packed _ _ _ hu.2⟩) junk 1000000000 ((1 / (d.sw / d.count) : ℚ) : ℝ)
    ((Meth.normalizeOffset (decide (0 < lib.gamma c)) d : ℚ) : ℝ) d.count (accBin (decide (0 < lib.gamma c)) d.count j)
    (by omega) hacc.2 hspread hwin (Or.inl hacc.1)
  refine ⟨main.1, ?_⟩
  refine main.2.trans (le_of_eq ?_)
  congr 2
  unfold Spec.shareIn
  congr 1
  funext p
  rw [hrec]
  simp only
  rw [hsgn]
  have hb := position_bin (decide (0 < lib.gamma c)) d h hd hh hsw j (dirFreq W (fourth (lib.twoI c)) 1 0 t p)
  by_cases hm : (if decide (0 < lib.gamma c) = true then (1 : ℝ) else -1) * dirFreq W (fourth (lib.twoI c)) 1 0 t p
      ∈ Spec.bin (decide (0 < lib.gamma c)) d j
  · rw [Set.indicator_of_mem hm]
    exact if_pos (hb.mpr hm)
  · rw [Set.indicator_of_notMem hm]
    exact if_neg fun h' => hm (hb.mp h')

/-- The position in bins of a frequency. -/
theorem position_eq (pos : Bool) (d : Meth.SDim) (h : ℕ) (hd : d.count = 2 * h) (hh : 1 ≤ h) (hsw : 0 < d.sw) (j : ℕ) (f : ℝ) :
    ((Meth.normalizeOffset pos d : ℚ) : ℝ) + ((1 / (d.sw / d.count) : ℚ) : ℝ) * f - ((accBin pos d.count j : ℝ) + 1 / 2)
      = (if pos then 1 else -1) * (((if pos then 1 else -1) * f - ((Meth.Spec.coord d j : ℚ) : ℝ)) / ((d.sw / d.count : ℚ) : ℝ)) := by
  obtain ⟨inc, hinc⟩ : ∃ inc : ℚ, inc = d.sw / d.count := ⟨_, rfl⟩
  have hn : (0 : ℚ) < d.count := by
    rw [hd]
    push_cast
    have : (1 : ℚ) ≤ h := by exact_mod_cast hh
    linarith
  have hpos : 0 < inc := by
    rw [hinc]
    positivity
  have hs : d.sw = inc * (2 * h) := by
    rw [hinc, hd]
    have : (h : ℚ) ≠ 0 := by
      have : (1 : ℚ) ≤ h := by exact_mod_cast hh
      linarith
    field_simp
    push_cast
    field_simp
  have hhalf : d.count / 2 = h := by omega
  have hposR : (0 : ℝ) < (inc : ℝ) := by exact_mod_cast hpos
  unfold Meth.Spec.coord Meth.normalizeOffset Meth.refFactor accBin
  simp only [← hinc]
  simp only [hhalf, hs]
  cases pos
  · simp only [Bool.false_eq_true, if_false]
    push_cast
    rw [hd]
    push_cast
    field_simp
    ring
  · simp only [if_true]
    push_cast
    field_simp
    ring

/-- The positions at which single lines are drawn. -/
theorem position_axis (pos : Bool) (d : Meth.SDim) (h : ℕ) (hd : d.count = 2 * h) (hh : 1 ≤ h) (hsw : 0 < d.sw) (f : ℝ) :
    (0 ≤ ((Meth.normalizeOffset pos d : ℚ) : ℝ) + ((1 / (d.sw / d.count) : ℚ) : ℝ) * f ∧
      ((Meth.normalizeOffset pos d : ℚ) : ℝ) + ((1 / (d.sw / d.count) : ℚ) : ℝ) * f < ((d.count : ℤ) : ℝ)) ↔
      (if pos then 1 else -1) * f ∈ Spec.onAxis pos d := by
  set y := ((Meth.normalizeOffset pos d : ℚ) : ℝ) + ((1 / (d.sw / d.count) : ℚ) : ℝ) * f with hy
  unfold Spec.onAxis
  simp only [Set.mem_ofPred_eq]
  constructor
  · rintro ⟨h0, h1⟩
    have f0 : 0 ≤ ⌊y⌋ := Int.floor_nonneg.mpr h0
    have f1 : ⌊y⌋ < d.count := Int.floor_lt.mpr h1
    obtain ⟨k, hk⟩ := Int.eq_ofNat_of_zero_le f0
    have hle := Int.floor_le y
    have hlt := Int.lt_floor_add_one y
    refine ⟨if pos then k else d.count - k, ?_, (position_bin pos d h hd hh hsw _ f).mp ?_⟩
    · cases pos
      · simp only [Bool.false_eq_true, if_false]
        omega
      · simp only [if_true]
        omega
    · have e : accBin pos d.count (if pos then k else d.count - k) = ⌊y⌋ := by
        unfold accBin
        cases pos
        · simp only [Bool.false_eq_true, if_false]
          omega
        · simp only [if_true]
          omega
      rw [e]
      exact ⟨hle, hlt⟩
  · rintro ⟨j, hj, hb⟩
    obtain ⟨a, b⟩ := (position_bin pos d h hd hh hsw j f).mpr hb
    have hacc : 0 ≤ accBin pos d.count j ∧ accBin pos d.count j + 1 ≤ (d.count : ℤ) := by
      unfold accBin
      cases pos
      · simp only [Bool.false_eq_true, if_false] at hj ⊢
        omega
      · simp only [if_true] at hj ⊢
        omega
    have a' : (0 : ℝ) ≤ (accBin pos d.count j : ℝ) := by exact_mod_cast hacc.1
    have b' : (accBin pos d.count j : ℝ) + 1 ≤ ((d.count : ℤ) : ℝ) := by exact_mod_cast hacc.2
    exact ⟨a'.trans a, b.trans_le b'⟩

theorem linear_neg (u : ℝ) : Bin.Spec.linear (-u) = Bin.Spec.linear u := by
  unfold Bin.Spec.linear
  rw [abs_neg]

/-- The share of point `j` of a single line. -/
theorem position_peak (pos : Bool) (d : Meth.SDim) (h : ℕ) (hd : d.count = 2 * h) (hh : 1 ≤ h) (hsw : 0 < d.sw) (j : ℕ) (f : ℝ) :
    (if 0 ≤ ((Meth.normalizeOffset pos d : ℚ) : ℝ) + ((1 / (d.sw / d.count) : ℚ) : ℝ) * f ∧
      ((Meth.normalizeOffset pos d : ℚ) : ℝ) + ((1 / (d.sw / d.count) : ℚ) : ℝ) * f < ((d.count : ℤ) : ℝ) then
      Bin.Spec.linear (((Meth.normalizeOffset pos d : ℚ) : ℝ) + ((1 / (d.sw / d.count) : ℚ) : ℝ) * f - ((accBin pos d.count j : ℝ) + 1 / 2))
      else 0) = Spec.peak pos d j ((if pos then 1 else -1) * f) := by
  have hax := position_axis pos d h hd hh hsw f
  unfold Spec.peak
  by_cases hin : (if pos then (1 : ℝ) else -1) * f ∈ Spec.onAxis pos d
  · rw [if_pos hin, if_pos (hax.mpr hin), position_eq pos d h hd hh hsw j f]
    cases pos
    · simp only [Bool.false_eq_true, if_false]
      rw [neg_one_mul, linear_neg]
    · simp only [if_true]
      rw [one_mul]
  · rw [if_neg hin, if_neg (fun h' => hin (hax.mp h'))]

/-- What one sharp line contributes to point `j`, in the limit. -/
theorem sharp_one (W : WC) (T : TC) (lib : Library) (c : String) (central : Bool) (B0 : ℝ) (r : Rotor) (hr : r.freq < 1 / 1000) (d : Meth.SDim)
    (h : ℕ) (hd : d.count = 2 * h) (hh : 1 ≤ h) (hsw : 0 < d.sw) (nOct : ℕ) (hO : nOct = 1 ∨ nOct = 4) (junk : ℕ → ℕ → ℕ → ℂ)
    (s : Run.Sys Phys (List Trans.Tr)) (hs : Spec.Sound lib s)
    (x : List ℕ × List ℕ) (hx : Spec.Observed c central s.isotopes s.phys.sites x)
    (hsh : Spec.Sharp (recordedW W T lib c B0 s.phys x)) (j : ℕ) (hj : 1 ≤ j) (hjn : j < d.count) :
    let f := fun nt => pulseWrites W T lib c B0 r d nOct (junk nt) nt s.phys
      (qnum (s.phys.sites.map Site.n) x.1, qnum (s.phys.sites.map Site.n) x.2)
    (∀ nt, 1 ≤ nt → ∃ u, f nt = .ok u) ∧
      Tendsto (fun nt => Bin.val (accBin (decide (0 < lib.gamma c)) d.count j) (f nt)) atTop
        (𝓝 (3 * Real.pi * Spec.peak (decide (0 < lib.gamma c)) d j (recordedW W T lib c B0 s.phys x (0, 0)))) := by
  intro f
  set t := methodComponents W T (lib.twoI c) B0 s.phys.sites s.phys.couplings (Spec.quantum s.phys.sites x.1) (Spec.quantum s.phys.sites x.2)
    with ht
  have hf : f = fun nt => spectrum W (fourth (lib.twoI c)) nt nOct 1 1000000000 1 0 ((1 / (d.sw / d.count) : ℚ) : ℝ)
      ((Meth.normalizeOffset (decide (0 < lib.gamma c)) d : ℚ) : ℝ) d.count (startRows (fourth (lib.twoI c)) (junk nt) nt) t :=
    funext fun nt => pulseWrites_static W T lib c B0 r hr d nOct (junk nt) nt s.phys x
  rw [hf]
  have hflat := method_dirFreq W T (lib.twoI c) B0 1 0 s.phys.sites s.phys.couplings x.1 x.2 (fun s' h' => (hs.sites s' h').2)
    (observed_spectator lib c central s.isotopes s.phys.sites hs.spins x hx)
  rw [← ht] at hflat
  have hrec : ∀ p, recordedW W T lib c B0 s.phys x p
      = (if decide (0 < lib.gamma c) = true then 1 else -1) * dirFreq W (fourth (lib.twoI c)) 1 0 t p := by
    intro p
    rw [hflat]
    simp only [decide_eq_true_eq]
    rfl
  obtain ⟨a, ha⟩ := hsh
  have hconst : ∀ p q, dirFreq W (fourth (lib.twoI c)) 1 0 t p = dirFreq W (fourth (lib.twoI c)) 1 0 t q := by
    intro p q
    have e : recordedW W T lib c B0 s.phys x p = recordedW W T lib c B0 s.phys x q := by rw [ha, ha]
    rw [hrec, hrec] at e
    refine mul_left_cancel₀ ?_ e
    split_ifs <;> norm_num
  have hspread : ¬ Spread ((1 / (d.sw / d.count) : ℚ) : ℝ) (dirFreq W (fourth (lib.twoI c)) 1 0 t) := by
    unfold Spread
    rw [not_not, hconst (0, Real.pi / 2) (Real.pi / 2, Real.pi / 2), hconst (Real.pi / 2, Real.pi / 2) (0, 0)]
    simp
  have hacc : 1 ≤ accBin (decide (0 < lib.gamma c)) d.count j ∧ accBin (decide (0 < lib.gamma c)) d.count j < (d.count : ℤ) := by
    unfold accBin
    split_ifs <;> omega
  have main := sharp_limit W (fourth (lib.twoI c)) nOct 1 hO junk 1000000000 1 0 ((1 / (d.sw / d.count) : ℚ) : ℝ)
    ((Meth.normalizeOffset (decide (0 < lib.gamma c)) d : ℚ) : ℝ) d.count _ hacc.1 hacc.2 t hspread
  refine ⟨main.1, main.2.trans (le_of_eq ?_)⟩
  congr 1
  have hamp : Spec.octantMean nOct (dirAmp W (fourth (lib.twoI c)) 1 1000000000 1 0 t 0) = 1 := by
    have : dirAmp W (fourth (lib.twoI c)) 1 1000000000 1 0 t 0 = fun _ => 1 := by
      funext p
      simp [dirAmp]
    rw [this]
    unfold Spec.octantMean
    simp only [mul_one]
    have hpi := Real.pi_pos
    rw [Bin.octant_sine, Finset.sum_const, Finset.card_range, nsmul_eq_mul]
    have : (0 : ℝ) < nOct := by rcases hO with rfl | rfl <;> norm_num
    field_simp
  rw [hrec, ← position_peak (decide (0 < lib.gamma c)) d h hd hh hsw j]
  have hone : (Bin.fftOrder ((1 : ℕ) : ℤ) (1000000000 : ℝ)).zipIdx = [(0, 0)] := by
    simp [Bin.fftOrder]
  rw [hone]
  simp only [List.map_cons, List.map_nil, List.sum_cons, List.sum_nil, hamp, zero_mul, add_zero, mul_one]
  rw [hconst (0, Real.pi / 2) (0, 0)]
  split_ifs <;> simp

/-! ## Lemmas: the whole run -/

theorem mapM_ok {α β : Type} (f : α → Py β) (g : α → β) (l : List α) (h : ∀ a ∈ l, f a = .ok (g a)) : l.mapM f = .ok (l.map g) := by
  induction l with
  | nil => rfl
  | cons a l ih =>
    rw [List.mapM_cons, h a (by simp), ih fun b hb => h b (by simp [hb])]
    rfl

theorem foldl_core {α V : Type} [AddCommMonoid V] (f : α → V) (l : List α) : l.foldl (fun a q => a + f q) 0 = (l.map f).sum := by
  rw [List.sum_eq_foldl, List.foldl_map]

theorem sum_apply {ι : Type} (l : List (ι → ℝ)) (k : ι) : l.sum k = (l.map fun g => g k).sum := by
  induction l with
  | nil => rfl
  | cons g l ih => rw [List.sum_cons, List.map_cons, List.sum_cons, Pi.add_apply, ih]

/-- What is selected for a spin system: every observed transition once. -/
theorem selected (lib : Library) (so : Trans.SetOrder) (c : String) (central : Bool) (s : Run.Sys Phys (List Trans.Tr))
    (hs : Spec.Given lib s) (hc : c ∈ s.isotopes) :
    ∃ paths, Trans.transitionPathways so (isoSites lib s.isotopes) [c] (if central then Trans.blochDecayCT else Trans.blochDecay) = .ok paths ∧
      paths.Nodup ∧ ∀ p, p ∈ paths ↔ ∃ x, Spec.Observed c central s.isotopes s.phys.sites x ∧
        p = [(qnum (s.phys.sites.map Site.n) x.1, qnum (s.phys.sites.map Site.n) x.2)] := by
  have hc' : c ∈ (isoSites lib s.isotopes).map Trans.Iso.symbol := by
    rw [isoSites, List.map_map]
    exact List.mem_map.mpr ⟨c, hc, rfl⟩
  have key : Trans.Spec.Pathways (isoSites lib s.isotopes)
      [Trans.Spec.Moves (isoSites lib s.isotopes) c 1 (-1) (if central then some [1 / 2] else none)]
      (Trans.transitionPathways so (isoSites lib s.isotopes) [c] (if central then Trans.blochDecayCT else Trans.blochDecay)) := by
    cases central
    · exact Trans.C84_bloch_decay so _ c hc'
    · exact Trans.C84_central_transition so _ c hc'
  obtain ⟨paths, h1, h2, h3⟩ := key
  refine ⟨paths, h1, h2, fun p => ?_⟩
  rw [h3]
  simp only [List.forall₂_cons_left_iff, List.forall₂_nil_left_iff]
  constructor
  · rintro ⟨t, u, ht, rfl, rfl⟩
    obtain ⟨x, hx, rfl⟩ := (moves_observed lib c central s.isotopes s.phys.sites hs.spins t).mp ht
    exact ⟨x, hx, rfl⟩
  · rintro ⟨x, hx, rfl⟩
    exact ⟨_, [], (moves_observed lib c central s.isotopes s.phys.sites hs.spins _).mpr ⟨x, hx, rfl⟩, rfl, rfl⟩

/-- The transition between two numbered states, as a pathway. -/
def edge (ss : List Site) (x : List ℕ × List ℕ) : List Trans.Tr := [(qnum (ss.map Site.n) x.1, qnum (ss.map Site.n) x.2)]

theorem edge_inj (c : String) (central : Bool) (iso : List String) (ss : List Site) :
    Set.InjOn (edge ss) {x | Spec.Observed c central iso ss x} := by
  intro x hx y hy hxy
  simp only [edge, List.cons.injEq, Prod.mk.injEq, and_true] at hxy
  have hl1 : ∀ z, Spec.IsState ss z → z.length = (ss.map Site.n).length := fun z hz => by
    rw [List.length_map]
    exact hz.length_eq.symm
  exact Prod.ext (qnum_inj _ _ _ (hl1 _ hx.initial) (hl1 _ hy.initial) hxy.1)
    (qnum_inj _ _ _ (hl1 _ hx.final) (hl1 _ hy.final) hxy.2)

theorem observed_finite (lib : Library) (c : String) (central : Bool) (s : Run.Sys Phys (List Trans.Tr)) (hs : Spec.Given lib s)
    (hc : c ∈ s.isotopes) : {x | Spec.Observed c central s.isotopes s.phys.sites x}.Finite := by
  classical
  obtain ⟨paths, -, -, h3⟩ := selected lib Trans.stdOrder c central s hs hc
  refine Set.Finite.of_injOn (t := (paths.toFinset : Set (List Trans.Tr))) (f := edge s.phys.sites) (fun x hx => ?_) (edge_inj _ _ _ _)
    (Finset.finite_toSet _)
  simp only [List.coe_toFinset, Set.mem_ofPred_eq]
  exact (h3 _).mpr ⟨x, hx, rfl⟩

/-- A nucleus of the channel can always go down; for the central transition its spin must be half-integer. -/
theorem observed_exists (lib : Library) (c : String) (central : Bool) (hcen : central = true → lib.twoI c % 2 = 1)
    (s : Run.Sys Phys (List Trans.Tr)) (hs : Spec.Given lib s) (hc : c ∈ s.isotopes) :
    ∃ x, Spec.Observed c central s.isotopes s.phys.sites x := by
  obtain ⟨k, hk, e⟩ := List.mem_iff_getElem.mp hc
  have hl : s.phys.sites.length = s.isotopes.length := by simpa using congrArg List.length hs.spins
  have hn : (s.phys.sites[k]'(by omega)).n = lib.twoI c := by
    have : (s.phys.sites.map Site.n)[k]? = (s.isotopes.map lib.twoI)[k]? := by rw [hs.spins]
    rw [List.getElem?_map, List.getElem?_map, List.getElem?_eq_getElem (by omega), List.getElem?_eq_getElem hk, e] at this
    simpa using this
  have h1 := hs.sites _ (List.getElem_mem (by omega : k < s.phys.sites.length))
  have hst : ∀ i, i ≤ lib.twoI c → Spec.IsState s.phys.sites ((List.replicate s.phys.sites.length 0).set k i) := by
    intro i hi
    rw [Spec.IsState, List.forall₂_iff_get]
    refine ⟨by simp, fun m hm1 hm2 => ?_⟩
    simp only [List.get_eq_getElem, List.getElem_set, List.getElem_replicate]
    split_ifs with hkm
    · subst hkm
      omega
    · omega
  set i := if central then (lib.twoI c - 1) / 2 else 0 with hi
  have hile : i + 1 ≤ lib.twoI c := by
    rw [hi]
    split_ifs <;> omega
  refine ⟨((List.replicate s.phys.sites.length 0).set k (i + 1), (List.replicate s.phys.sites.length 0).set k i), hst _ hile,
    hst _ (by omega), k, i, s.phys.sites[k]'(by omega), ?_, List.getElem?_eq_getElem _, ?_, ?_, ?_⟩
  · rw [List.getElem?_eq_getElem hk, e]
  · simp only
    rw [List.getElem?_set_self (by simp; omega)]
  · simp
  · intro h2
    have := hcen h2
    rw [hi, if_pos h2, hn]
    omega

/-- The spectrum of a list of spin systems in the limit, from the limits for single transitions. -/
theorem pulse_limit (W : WC) (T : TC) (lib : Library) (so : Trans.SetOrder) (c : String) (hγ : lib.gamma c ≠ 0) (central : Bool)
    (hcen : central = true → lib.twoI c % 2 = 1) (B0 : ℝ) (r : Rotor) (d : Meth.SDim) [NeZero d.count]
    (nOct : ℕ) (junk : ℕ → Phys → List Trans.Tr → ℕ → ℕ → ℂ) (l : List (Run.Sys Phys (List Trans.Tr)))
    (hl : ∀ s ∈ l, Spec.Given lib s)
    (hu : ∀ a ∈ l, ∀ b ∈ l, c ∈ a.isotopes → c ∈ b.isotopes → a.isotopes.length = b.isotopes.length → a.isotopes = b.isotopes)
    (S : Run.Sys Phys (List Trans.Tr) → List ℕ × List ℕ → ℕ → ℝ)
    (hS : ∀ s ∈ l, ∀ x, Spec.Observed c central s.isotopes s.phys.sites x → ∀ j, 1 ≤ j → j < d.count →
      Tendsto (fun nt => Bin.val (accBin (decide (0 < lib.gamma c)) d.count j) (pulseWrites W T lib c B0 r d nOct
        (junk nt s.phys (edge s.phys.sites x)) nt s.phys
        (qnum (s.phys.sites.map Site.n) x.1, qnum (s.phys.sites.map Site.n) x.2))) atTop (𝓝 (S s x j)))
    (cpu nJobs : ℤ) (hJ : 1 ≤ nJobs) :
    ∃ v : ℕ → ZMod d.count → ℝ,
      (∀ nt, Run.run (pulseEnv W T lib so c central B0 r d nOct junk nt) cpu false l nJobs = .ok [.spec (v nt)]) ∧
      ∀ j, 1 ≤ j → j < d.count → Tendsto (fun nt => v nt j) atTop (𝓝 ((l.map fun s =>
        if c ∈ s.isotopes then ((s.abundance / (d.sw / d.count) : ℚ) : ℝ) *
          ∑ᶠ (x) (_ : Spec.Observed c central s.isotopes s.phys.sites x), S s x j
        else 0).sum)) := by
  classical
  have hsel := fun s (hs : s ∈ l) (hc : c ∈ s.isotopes) => selected lib so c central s (hl s hs) hc
  choose! paths hp1 hp2 hp3 using hsel
  set env := pulseEnv W T lib so c central B0 r d nOct junk with henv
  have hpne : ∀ s ∈ l, c ∈ s.isotopes → paths s ≠ [] := by
    intro s hs hc h0
    obtain ⟨x, hx⟩ := observed_exists lib c central hcen s (hl s hs) hc
    have := (hp3 s hs hc _).mpr ⟨x, hx, rfl⟩
    rw [h0] at this
    cases this
  have halone : ∀ nt, ∀ s ∈ l, Run.alone (env nt) s = .ok (if c ∈ s.isotopes then
      some ((s.abundance / (d.sw / d.count)) • ((paths s).map ((env nt).core s.phys)).sum) else none) := by
    intro nt s hs
    unfold Run.alone
    by_cases hc : c ∈ s.isotopes
    · rw [if_neg (show ¬ (env nt).channel ∉ s.isotopes from not_not.mpr hc), if_pos hc]
      have : Run.Spec.pathways (env nt) s = .ok (paths s) := by
        unfold Run.Spec.pathways
        rw [(hl s hs).explicit]
        exact hp1 s hs hc
      rw [this]
      simp only [Bind.bind, Except.bind]
      have hne := hpne s hs hc
      rw [← foldl_core]
      cases hps : paths s with
      | nil => exact absurd hps hne
      | cons a b => rfl
    · rw [if_pos (show (env nt).channel ∉ s.isotopes from hc), if_neg hc]
  have huni : ∀ nt, Run.Spec.Uniform (env nt) l := by
    intro nt a ha b hb h1 h2 h3
    exact ⟨hu a ha b hb h1 h2 h3, by rw [(hl a ha).explicit, (hl b hb).explicit]⟩
  set con : ℕ → Run.Sys Phys (List Trans.Tr) → ZMod d.count → ℝ := fun nt s => if c ∈ s.isotopes then
      (s.abundance / (d.sw / d.count)) • ((paths s).map ((env nt).core s.phys)).sum else 0 with hcon
  refine ⟨fun nt => Run.mir (env nt) (l.map (con nt)).sum, fun nt => ?_, fun j hj hjn => ?_⟩
  · rw [Run.run_sum (env nt) cpu l (huni nt) nJobs hJ, mapM_ok _ _ l (halone nt)]
    simp only
    rw [List.map_map]
    have : (Run.val ∘ fun s : Run.Sys Phys (List Trans.Tr) => if c ∈ s.isotopes then
        some ((s.abundance / (d.sw / d.count)) • ((paths s).map ((env nt).core s.phys)).sum) else none) = con nt := by
      funext s
      simp only [Function.comp, hcon]
      split_ifs <;> rfl
    rw [this]
  · set idx : ZMod d.count := if lib.gamma c < 0 then -(j : ZMod d.count) else j with hidx
    have hval : ((idx.val : ℕ) : ℤ) = accBin (decide (0 < lib.gamma c)) d.count j := by
      have hv : (j : ZMod d.count).val = j := ZMod.val_natCast_of_lt hjn
      unfold accBin
      rcases lt_or_gt_of_ne hγ with h0 | h0
      · rw [hidx, if_pos h0, if_neg (by simp [h0.le]), ZMod.neg_val, if_neg, hv]
        · omega
        · intro h1
          rw [h1, ZMod.val_zero] at hv
          omega
      · rw [hidx, if_neg (by linarith), if_pos (by simpa using h0), hv]
    have hmir : ∀ nt (u : ZMod d.count → ℝ), Run.mir (env nt) u j = u idx := by
      intro nt u
      unfold Run.mir
      by_cases h0 : lib.gamma c < 0
      · rw [if_pos (show (env nt).gammaNeg = true from decide_eq_true h0), hidx, if_pos h0]
        exact Sim.C59_mirror1 u j
      · rw [if_neg (show ¬ (env nt).gammaNeg = true from by
          change ¬ decide (lib.gamma c < 0) = true
          simpa using h0), hidx, if_neg h0]
    simp only [hmir, sum_apply, List.map_map, Function.comp_def]
    refine tendsto_list_sum l fun s hs => ?_
    by_cases hc : c ∈ s.isotopes
    · simp only [hcon, if_pos hc, Pi.smul_apply, sum_apply, List.map_map, Function.comp_def, Rat.smul_def]
      refine Tendsto.const_mul _ ?_
      -- the limits, by pathways
      set e := edge s.phys.sites with he
      set O : Set (List ℕ × List ℕ) := {x | Spec.Observed c central s.isotopes s.phys.sites x} with hO
      have hinj : Set.InjOn e O := edge_inj c central s.isotopes s.phys.sites
      set g : List ℕ × List ℕ → ℝ := fun x => S s x j with hg
      have hbij : Set.BijOn e O ((paths s).toFinset : Set (List Trans.Tr)) := by
        refine ⟨fun x hx => ?_, hinj, fun p hp => ?_⟩
        · simp only [List.coe_toFinset, Set.mem_ofPred_eq]
          exact (hp3 s hs hc _).mpr ⟨x, hx, rfl⟩
        · simp only [List.coe_toFinset, Set.mem_ofPred_eq] at hp
          obtain ⟨x, hx, rfl⟩ := (hp3 s hs hc _).mp hp
          exact ⟨x, hx, rfl⟩
      have hsum : (∑ᶠ (x) (_ : Spec.Observed c central s.isotopes s.phys.sites x), g x)
          = ((paths s).map fun p => g (Function.invFunOn e O p)).sum := by
        rw [← List.sum_toFinset _ (hp2 s hs hc), ← finsum_mem_coe_finset]
        refine finsum_mem_eq_of_bijOn (s := O) e hbij fun x hx => ?_
        rw [show Function.invFunOn e O (e x) = x from
          hinj (Function.invFunOn_mem ⟨x, hx, rfl⟩) hx (Function.invFunOn_eq ⟨x, hx, rfl⟩)]
      rw [hsum]
      refine tendsto_list_sum (paths s) fun p hp => ?_
      obtain ⟨x, hxo, rfl⟩ := (hp3 s hs hc _).mp hp
      have hback : Function.invFunOn e O (e x) = x :=
        hinj (Function.invFunOn_mem ⟨x, hxo, rfl⟩) hxo (Function.invFunOn_eq ⟨x, hxo, rfl⟩)
      change Tendsto _ _ (𝓝 (g (Function.invFunOn e O (e x))))
      rw [hback]
      have main := hS s hs x hxo j hj hjn
      rw [← hval] at main
      exact main
    · simp only [hcon, if_neg hc, Pi.zero_apply]
      exact tendsto_const_nhds

/-! ## Lemmas: means -/

theorem sphereMean_le (f g : ℝ × ℝ → ℝ)
    (hf : MeasureTheory.IntegrableOn (fun p : ℝ × ℝ => Real.sin p.2 * f p) (Set.Ioo 0 (2 * Real.pi) ×ˢ Set.Ioo 0 Real.pi))
    (hg : MeasureTheory.IntegrableOn (fun p : ℝ × ℝ => Real.sin p.2 * g p) (Set.Ioo 0 (2 * Real.pi) ×ˢ Set.Ioo 0 Real.pi))
    (h : ∀ p, f p ≤ g p) : Spec.sphereMean f ≤ Spec.sphereMean g := by
  have hpi := Real.pi_pos
  unfold Spec.sphereMean
  refine mul_le_mul_of_nonneg_left ?_ (by positivity)
  refine MeasureTheory.setIntegral_mono_on hf hg (measurableSet_Ioo.prod measurableSet_Ioo) fun p hp => ?_
  exact mul_le_mul_of_nonneg_left (h p) (Real.sin_pos_of_pos_of_lt_pi hp.2.1 hp.2.2).le

theorem continuous_integrable (f : ℝ × ℝ → ℝ) (hf : Continuous f) :
    MeasureTheory.IntegrableOn (fun p : ℝ × ℝ => Real.sin p.2 * f p) (Set.Ioo 0 (2 * Real.pi) ×ˢ Set.Ioo 0 Real.pi) := by
  have hc : Continuous fun p : ℝ × ℝ => Real.sin p.2 * f p := (Real.continuous_sin.comp continuous_snd).mul hf
  exact (hc.continuousOn.integrableOn_compact (isCompact_Icc.prod isCompact_Icc)).mono_set
    (Set.prod_mono Set.Ioo_subset_Icc_self Set.Ioo_subset_Icc_self)

theorem share_integrable (S : Set ℝ) (hS : MeasurableSet S) (f : ℝ × ℝ → ℝ) (hf : Continuous f) :
    MeasureTheory.IntegrableOn (fun p : ℝ × ℝ => Real.sin p.2 * S.indicator (fun _ => (1 : ℝ)) (f p))
      (Set.Ioo 0 (2 * Real.pi) ×ˢ Set.Ioo 0 Real.pi) := by
  refine box_integrable (fun p => S.indicator (fun _ => (1 : ℝ)) (f p)) ((measurable_const.indicator hS).comp hf.measurable) 1 (fun p => ?_) _ _ _ _
  by_cases h : f p ∈ S
  · rw [Set.indicator_of_mem h, abs_one]
  · rw [Set.indicator_of_notMem h, abs_zero]
    exact zero_le_one

/-- Shares of sets and functions that are comparable. -/
theorem shareIn_le (S S' : Set ℝ) (hS : MeasurableSet S) (hS' : MeasurableSet S') (f f' : ℝ × ℝ → ℝ) (hf : Continuous f) (hf' : Continuous f')
    (h : ∀ p, f p ∈ S → f' p ∈ S') : Spec.shareIn S f ≤ Spec.shareIn S' f' := by
  refine sphereMean_le _ _ (share_integrable S hS f hf) (share_integrable S' hS' f' hf') fun p => ?_
  by_cases h1 : f p ∈ S
  · rw [Set.indicator_of_mem h1, Set.indicator_of_mem (h p h1)]
  · rw [Set.indicator_of_notMem h1]
    exact Set.indicator_nonneg (fun _ _ => zero_le_one) _

theorem bin_measurable (pos : Bool) (d : Meth.SDim) (j : ℕ) : MeasurableSet (Spec.bin pos d j) := by
  unfold Spec.bin
  cases pos
  · exact measurableSet_Ioc
  · exact measurableSet_Ico

/-- Isotropic frequencies are as close as the frequencies. -/
theorem mean_near (W W' : WC) (t t' : Tens) (δ : ℝ) (h : ∀ p, |dirFreq W true 1 0 t p - dirFreq W' true 1 0 t' p| ≤ δ) :
    |Spec.sphereMean (dirFreq W true 1 0 t) - Spec.sphereMean (dirFreq W' true 1 0 t')| ≤ δ := by
  have key : ∀ (W W' : WC) (t t' : Tens), (∀ p, |dirFreq W true 1 0 t p - dirFreq W' true 1 0 t' p| ≤ δ) →
      Spec.sphereMean (dirFreq W true 1 0 t) ≤ Spec.sphereMean (dirFreq W' true 1 0 t') + δ := by
    intro W W' t t' h
    have e : ∀ p, dirFreq W' true 1 0 ⟨t'.R0 + δ, t'.R2, t'.R4⟩ p = dirFreq W' true 1 0 t' p + δ := by
      intro p
      unfold dirFreq localFreq
      ring
    have := sphereMean_le (dirFreq W true 1 0 t) (dirFreq W' true 1 0 ⟨t'.R0 + δ, t'.R2, t'.R4⟩)
      (continuous_integrable _ (dirFreq_continuous _ _ _ _ _)) (continuous_integrable _ (dirFreq_continuous _ _ _ _ _))
      (fun p => by rw [e]; linarith [(abs_le.mp (h p)).2])
    rw [dirFreq_mean, dirFreq_mean] at this
    rw [dirFreq_mean, dirFreq_mean]
    exact this
  rw [abs_le]
  have h1 := key W W' t t' h
  have h2 := key W' W t' t fun p => by rw [abs_sub_comm]; exact h p
  constructor <;> linarith

/-! ## Properties -/

theorem recordedW_exact (lib : Library) (c : String) (B0 : ℝ) (ph : Phys) (hs : ∀ x ∈ ph.sites, x.Upright ∧ 1 ≤ x.n)
    (hk : ∀ k ∈ ph.couplings, k.Upright ∧ k.A < ph.sites.length ∧ k.X < ph.sites.length) (x : List ℕ × List ℕ)
    (hi : Spec.IsState ph.sites x.1) (hf : Spec.IsState ph.sites x.2) :
    recordedW WC.exact TC.exact lib c B0 ph x = Spec.pulseLine lib c B0 ph x := by
  funext p
  unfold recordedW Spec.pulseLine
  congr 1
  exact C73_energies_partial true B0 p.1 p.2 ph.sites ph.couplings x.1 x.2 hi hf hs hk

/-- The part of the contribution of a static line that does not depend on whether it is sharp. -/
theorem static_shape (lib : Library) (c : String) (central : Bool) (B0 : ℝ) (r : Rotor) (hr : r.freq < 1 / 1000) (d : Meth.SDim)
    (h : ℕ) (hd : d.count = 2 * h) (hh : 1 ≤ h) (hsw : 0 < d.sw) (nOct : ℕ) (junk : ℕ → ℕ → ℕ → ℂ)
    (s : Run.Sys Phys (List Trans.Tr)) (hs : Spec.Sound lib s) (hO : nOct = 4 ∨ nOct = 1 ∧ Spec.Unturned s.phys.sites s.phys.couplings)
    (x : List ℕ × List ℕ) (hxo : Spec.Observed c central s.isotopes s.phys.sites x)
    (hx : Spec.Wide d (Spec.pulseLine lib c B0 s.phys x) ∧ Spec.Inside d (Spec.pulseLine lib c B0 s.phys x) ∨
      Spec.Sharp (Spec.pulseLine lib c B0 s.phys x)) (j : ℕ) (hj : 1 ≤ j) (hjn : j < d.count) :
    let f := fun nt => pulseWrites WC.exact TC.exact lib c B0 r d nOct (junk nt) nt s.phys
      (qnum (s.phys.sites.map Site.n) x.1, qnum (s.phys.sites.map Site.n) x.2)
    (∀ nt, 1 ≤ nt → ∃ u, f nt = .ok u) ∧
      Tendsto (fun nt => Bin.val (accBin (decide (0 < lib.gamma c)) d.count j) (f nt)) atTop
        (𝓝 (3 * Real.pi * Spec.pattern (decide (0 < lib.gamma c)) d j (Spec.pulseLine lib c B0 s.phys x))) := by
  have hrec := recordedW_exact lib c B0 s.phys hs.sites hs.couplings x hxo.initial hxo.final
  rw [← hrec] at hx ⊢
  by_cases hsh : Spec.Sharp (recordedW WC.exact TC.exact lib c B0 s.phys x)
  · rw [Spec.pattern, if_pos hsh]
    exact sharp_one WC.exact TC.exact lib c central B0 r hr d h hd hh hsw nOct (by tauto) junk s hs x hxo hsh j hj hjn
  · rw [Spec.pattern, if_neg hsh]
    have hx := hx.resolve_right hsh
    exact one_limit WC.exact TC.exact lib c central B0 r hr d h hd hh hsw nOct junk s hs hO x hxo hx.1 hx.2 j hj hjn

/-- **C96, partial.** The spectrum that `Simulator.run` computes for any list of spin systems, static, with a Bloch decay
method, on an axis of an even number of points: with any number of workers, and whatever the allocated memory contained,
the intensity of point `j ≥ 1` converges with the integration density to the sum over the spin systems with the isotope, of their abundance per
increment times the sum over the transitions in which one nucleus of the isotope goes from `m` to `m - 1` (from 1/2 if `central`), of `3π` times
the pattern of the transition: the share of the directions of the sphere for which the frequency is within half an increment of the coordinate
of the point or, if the frequency does not depend on the direction, a linear share of the two points next to it.
The frequency is the difference of the energies of the two states, to second order in the quadrupole couplings, with the sign of the
gyromagnetic ratio.  Hypotheses: spin systems with equally many sites have the same isotopes (C02); four octants are averaged, or one if the
principal axes are those of the common frame (C78); a line that is not sharp is not so narrow that the code takes it for sharp (C88) and has its
isotropic frequency on the axis (C62).
Missing: odd numbers of points, for which it is false (C33); point 0 (C88); tilts by negative angles (C73). -/
theorem C96_static_partial (lib : Library) (so : Trans.SetOrder) (c : String) (hγ : lib.gamma c ≠ 0) (central : Bool)
    (hcen : central = true → lib.twoI c % 2 = 1) (B0 : ℝ) (r : Rotor) (hr : r.freq < 1 / 1000) (d : Meth.SDim) [NeZero d.count]
    (hev : d.count % 2 = 0) (hsw : 0 < d.sw)
    (nOct : ℕ) (junk : ℕ → Phys → List Trans.Tr → ℕ → ℕ → ℂ) (l : List (Run.Sys Phys (List Trans.Tr)))
    (hl : ∀ s ∈ l, Spec.Sound lib s)
    (hu : ∀ a ∈ l, ∀ b ∈ l, c ∈ a.isotopes → c ∈ b.isotopes → a.isotopes.length = b.isotopes.length → a.isotopes = b.isotopes)
    (hO : nOct = 4 ∨ nOct = 1 ∧ ∀ s ∈ l, Spec.Unturned s.phys.sites s.phys.couplings)
    (hx : ∀ s ∈ l, ∀ x, Spec.Observed c central s.isotopes s.phys.sites x →
      Spec.Wide d (Spec.pulseLine lib c B0 s.phys x) ∧ Spec.Inside d (Spec.pulseLine lib c B0 s.phys x) ∨
        Spec.Sharp (Spec.pulseLine lib c B0 s.phys x))
    (cpu nJobs : ℤ) (hJ : 1 ≤ nJobs) :
    ∃ v : ℕ → ZMod d.count → ℝ,
      (∀ nt, Run.run (pulseEnv WC.exact TC.exact lib so c central B0 r d nOct junk nt) cpu false l nJobs = .ok [.spec (v nt)]) ∧
      (∀ nt, 1 ≤ nt → ∀ s ∈ l, ∀ x, Spec.Observed c central s.isotopes s.phys.sites x → ∀ junk, ∃ u,
        pulseWrites WC.exact TC.exact lib c B0 r d nOct junk nt s.phys
          (qnum (s.phys.sites.map Site.n) x.1, qnum (s.phys.sites.map Site.n) x.2) = .ok u) ∧
      ∀ j, 1 ≤ j → j < d.count → Tendsto (fun nt => v nt j) atTop (𝓝 ((l.map fun s =>
        if c ∈ s.isotopes then ((s.abundance / (d.sw / d.count) : ℚ) : ℝ) *
          ∑ᶠ (x) (_ : Spec.Observed c central s.isotopes s.phys.sites x),
            3 * Real.pi * Spec.pattern (decide (0 < lib.gamma c)) d j (Spec.pulseLine lib c B0 s.phys x)
        else 0).sum)) := by
  obtain ⟨h, hd⟩ : ∃ h, d.count = 2 * h := ⟨d.count / 2, by omega⟩
  have hcount : d.count ≠ 0 := NeZero.ne _
  have hh : 1 ≤ h := by omega
  have one := fun s hs x hxo j hj hjn junk => static_shape lib c central B0 r hr d h hd hh hsw nOct junk s (hl s hs)
    (hO.imp id fun hu => ⟨hu.1, hu.2 s hs⟩) x hxo (hx s hs x hxo) j hj hjn
  obtain ⟨v, h1, h3⟩ := pulse_limit WC.exact TC.exact lib so c hγ central hcen B0 r d nOct junk l (fun s hs => (hl s hs).given) hu
    (fun s x j => 3 * Real.pi * Spec.pattern (decide (0 < lib.gamma c)) d j (Spec.pulseLine lib c B0 s.phys x))
    (fun s hs x hxo j hj hjn => (one s hs x hxo j hj hjn _).2) cpu nJobs hJ
  exact ⟨v, h1, fun nt hnt s hs x hxo junk => (one s hs x hxo 1 le_rfl (by omega) fun _ => junk).1 nt hnt, h3⟩

/-! ### An example -/

/-- A spin 1/2 with a negative gyromagnetic ratio. -/
noncomputable def exampleLib : Library := ⟨fun _ => 1, fun _ => -1⟩

/-- A sample at rest, with the default number of sidebands. -/
noncomputable def exampleStill : Rotor := ⟨64, inferInstance, 0, 0⟩

/-- One site with an asymmetric tensor, in given abundance. -/
noncomputable def exampleSys (a : ℚ) : Run.Sys Phys (List Trans.Tr) := ⟨["15N"], none, a, ⟨[poleSite], []⟩⟩

theorem example_sound (a : ℚ) : Spec.Sound exampleLib (exampleSys a) :=
  ⟨rfl, rfl, poleSite_state.2.2, fun k hk => by cases hk⟩

/-- The one transition. -/
theorem example_observed (a : ℚ) (x : List ℕ × List ℕ) :
    Spec.Observed "15N" false (exampleSys a).isotopes (exampleSys a).phys.sites x ↔ x = ([1], [0]) := by
  constructor
  · obtain ⟨xi, xf⟩ := x
    rintro ⟨h1, h2, k, i, s, e1, e2, e3, e4, -⟩
    simp only at h1 h2 e3 e4
    have hk : k = 0 := by
      have : k < 1 := (List.getElem?_eq_some_iff.mp e1).1
      omega
    subst hk
    cases h1 with
    | @cons _ b _ u ha hb =>
      cases hb
      have : b ≤ 1 := ha
      have : b = i + 1 := by simpa using e3
      have hi : i = 0 := by omega
      refine Prod.ext ?_ ?_
      · simp only
        rw [this, hi]
      · rw [e4, hi]
        simp
  · rintro rfl
    exact ⟨poleSite_state.2.1, poleSite_state.1, 0, 0, poleSite, rfl, rfl, rfl, rfl, by simp⟩

theorem example_recorded (a : ℚ) (p : ℝ × ℝ) :
    Spec.pulseLine exampleLib "15N" 1 (exampleSys a).phys ([1], [0]) p = Real.sin p.2 ^ 2 * Real.cos p.1 ^ 2 - Real.cos p.2 ^ 2 := by
  rw [← poleSite_line]
  unfold Spec.pulseLine exampleLib exampleSys
  simp only
  rw [if_neg (by norm_num)]
  simp [Spec.line, Spec.energy, Spec.siteEnergy, poleSite]

theorem example_broad : ¬ Spec.Sharp fun p : ℝ × ℝ => Real.sin p.2 ^ 2 * Real.cos p.1 ^ 2 - Real.cos p.2 ^ 2 := by
  rintro ⟨a, ha⟩
  have h1 := ha (0, 0)
  have h2 := ha (Real.pi / 2, Real.pi / 2)
  simp at h1 h2
  linarith

theorem example_mean (a : ℚ) : Spec.sphereMean (Spec.pulseLine exampleLib "15N" 1 (exampleSys a).phys ([1], [0])) = 0 := by
  have : Spec.pulseLine exampleLib "15N" 1 (exampleSys a).phys ([1], [0]) = dirFreq WC.exact false 1 0
      (components WC.exact TC.exact false 1 [poleSite] [] (Spec.quantum [poleSite] [0]) (Spec.quantum [poleSite] [1])) := by
    funext p
    rw [example_recorded, ← poleSite_line, poleSite_dir]
  rw [this, dirFreq_mean, poleSite_iso]

/-- Two spin systems, in abundances of 70 and 30, and four workers: point 300 of 512 converges to
`100 · 64 · 3π` times the share of the directions for which `sin²β cos²α - cos²β` is between `43.5 / 64` and `44.5 / 64`. -/
example (so : Trans.SetOrder) (junk : ℕ → Phys → List Trans.Tr → ℕ → ℕ → ℂ) (cpu : ℤ) :
    haveI : NeZero (Meth.SDim.count ⟨512, 8, 0, none⟩) := ⟨by norm_num⟩
    ∃ v : ℕ → ZMod 512 → ℝ,
      (∀ nt, Run.run (pulseEnv WC.exact TC.exact exampleLib so "15N" false 1 exampleStill ⟨512, 8, 0, none⟩ 1 junk nt) cpu false
        [exampleSys 70, exampleSys 30] 4 = .ok [.spec (v nt)]) ∧
      Tendsto (fun nt => v nt 300) atTop (𝓝 (100 * 64 * (3 * Real.pi * Spec.shareIn (Set.Ioc (43.5 / 64) (44.5 / 64))
        fun p => Real.sin p.2 ^ 2 * Real.cos p.1 ^ 2 - Real.cos p.2 ^ 2))) := by
  have : NeZero (Meth.SDim.count ⟨512, 8, 0, none⟩) := ⟨by norm_num⟩
  obtain ⟨v, h1, -, h3⟩ := C96_static_partial exampleLib so "15N" (by norm_num [exampleLib]) false (by simp) 1 exampleStill (by norm_num [exampleStill])
    ⟨512, 8, 0, none⟩ (by norm_num)
    (by norm_num) 1 junk [exampleSys 70, exampleSys 30]
    (by
      intro s hs
      simp only [List.mem_cons, List.not_mem_nil, or_false] at hs
      rcases hs with rfl | rfl <;> exact example_sound _)
    (by
      intro a ha b hb _ _ _
      simp only [List.mem_cons, List.not_mem_nil, or_false] at ha hb
      rcases ha with rfl | rfl <;> rcases hb with rfl | rfl <;> rfl)
    (Or.inr ⟨rfl, by
      intro s hs
      simp only [List.mem_cons, List.not_mem_nil, or_false] at hs
      rcases hs with rfl | rfl <;> simp [Spec.Unturned, poleSite, exampleSys]⟩)
    (by
      have key : ∀ a x, Spec.Observed "15N" false (exampleSys a).isotopes (exampleSys a).phys.sites x →
          Spec.Wide ⟨512, 8, 0, none⟩ (Spec.pulseLine exampleLib "15N" 1 (exampleSys a).phys x) ∧
          Spec.Inside ⟨512, 8, 0, none⟩ (Spec.pulseLine exampleLib "15N" 1 (exampleSys a).phys x) := by
        intro a x hx
        rw [(example_observed a x).mp hx]
        constructor
        · left
          rw [example_recorded, example_recorded]
          norm_num
        · unfold Spec.Inside
          rw [example_mean]
          norm_num
      intro s hs x hx
      simp only [List.mem_cons, List.not_mem_nil, or_false] at hs
      rcases hs with rfl | rfl <;> exact Or.inl (key _ x hx)) cpu 4 (by norm_num)
  refine ⟨v, h1, ?_⟩
  have := h3 300 (by norm_num) (by norm_num)
  refine this.trans (le_of_eq ?_)
  congr 1
  have hsum : ∀ (a : ℚ) (g : List ℕ × List ℕ → ℝ),
      (∑ᶠ (x) (_ : Spec.Observed "15N" false (exampleSys a).isotopes (exampleSys a).phys.sites x), g x) = g ([1], [0]) := by
    intro a g
    simp only [example_observed]
    rw [finsum_eq_single _ ([1], [0]) (fun x hx => by simp [hx])]
    simp
  have hbin : Spec.bin (decide (0 < exampleLib.gamma "15N")) ⟨512, 8, 0, none⟩ 300 = Set.Ioc (43.5 / 64) (44.5 / 64) := by
    unfold Spec.bin exampleLib Meth.Spec.coord
    norm_num
  have hc : ∀ a, "15N" ∈ (exampleSys a).isotopes := fun a => by simp [exampleSys]
  simp only [List.map_cons, List.map_nil, List.sum_cons, List.sum_nil, hsum, if_pos (hc _)]
  have hf : ∀ a, Spec.pulseLine exampleLib "15N" 1 (exampleSys a).phys ([1], [0])
      = fun p => Real.sin p.2 ^ 2 * Real.cos p.1 ^ 2 - Real.cos p.2 ^ 2 := fun a => funext (example_recorded a)
  rw [hf, hf, Spec.pattern, if_neg example_broad, hbin]
  simp only [exampleSys]
  push_cast
  ring

/-- The points within `δ` of a bin, and those that stay in it when they are moved by `δ`. -/
def Spec.broad (d : Meth.SDim) (j : ℕ) (δ : ℝ) : Set ℝ :=
  Set.Icc (((Meth.Spec.coord d j - d.sw / d.count / 2 : ℚ) : ℝ) - δ) (((Meth.Spec.coord d j + d.sw / d.count / 2 : ℚ) : ℝ) + δ)

/-- See `Spec.broad`. -/
def Spec.narrow (d : Meth.SDim) (j : ℕ) (δ : ℝ) : Set ℝ :=
  Set.Ioo (((Meth.Spec.coord d j - d.sw / d.count / 2 : ℚ) : ℝ) + δ) (((Meth.Spec.coord d j + d.sw / d.count / 2 : ℚ) : ℝ) - δ)

/-- The tolerance of a transition: about six digits of every interaction (C73). -/
noncomputable def Spec.lineTol (B0 : ℝ) (ph : Phys) (x : List ℕ × List ℕ) : ℝ :=
  Spec.tol B0 ph.sites ph.couplings (Spec.quantum ph.sites x.1) (Spec.quantum ph.sites x.2)

/-- **C96 with the constants as the source has them, partial.** The limit exists, and is between the sums for bins that are narrower and
broader by the tolerance of each line. -/
theorem C96_decimals_partial (lib : Library) (so : Trans.SetOrder) (c : String) (hγ : lib.gamma c ≠ 0) (central : Bool)
    (hcen : central = true → lib.twoI c % 2 = 1) (B0 : ℝ) (r : Rotor) (hr : r.freq < 1 / 1000) (d : Meth.SDim) [NeZero d.count]
    (hev : d.count % 2 = 0) (hsw : 0 < d.sw)
    (nOct : ℕ) (junk : ℕ → Phys → List Trans.Tr → ℕ → ℕ → ℂ) (l : List (Run.Sys Phys (List Trans.Tr)))
    (hl : ∀ s ∈ l, Spec.Sound lib s ∧ 0 ≤ s.abundance ∧ (∀ x ∈ s.phys.sites, |x.eta| ≤ 1 ∧ |x.etaQ| ≤ 1) ∧
      ∀ k ∈ s.phys.couplings, |k.eta| ≤ 1)
    (hu : ∀ a ∈ l, ∀ b ∈ l, c ∈ a.isotopes → c ∈ b.isotopes → a.isotopes.length = b.isotopes.length → a.isotopes = b.isotopes)
    (hO : nOct = 4 ∨ nOct = 1 ∧ ∀ s ∈ l, Spec.Unturned s.phys.sites s.phys.couplings)
    (hx : ∀ s ∈ l, ∀ x, Spec.Observed c central s.isotopes s.phys.sites x →
      let f := Spec.pulseLine lib c B0 s.phys x
      let δ := Spec.lineTol B0 s.phys x
      (((d.sw / d.count / 1000000 : ℚ) : ℝ) + 2 * δ ≤ |f (0, Real.pi / 2) - f (Real.pi / 2, Real.pi / 2)| ∨
        ((d.sw / d.count / 1000000 : ℚ) : ℝ) + 2 * δ ≤ |f (0, Real.pi / 2) - f (0, 0)|) ∧
      |Spec.sphereMean f - (d.ref : ℝ)| + δ < ((d.sw / 2 + d.sw / d.count / 2 : ℚ) : ℝ))
    (cpu nJobs : ℤ) (hJ : 1 ≤ nJobs) :
    ∃ (v : ℕ → ZMod d.count → ℝ) (L : ℕ → ℝ),
      (∀ nt, Run.run (pulseEnv WC.src TC.src lib so c central B0 r d nOct junk nt) cpu false l nJobs = .ok [.spec (v nt)]) ∧
      (∀ nt, 1 ≤ nt → ∀ s ∈ l, ∀ x, Spec.Observed c central s.isotopes s.phys.sites x → ∀ junk, ∃ u,
        pulseWrites WC.src TC.src lib c B0 r d nOct junk nt s.phys
          (qnum (s.phys.sites.map Site.n) x.1, qnum (s.phys.sites.map Site.n) x.2) = .ok u) ∧
      ∀ j, 1 ≤ j → j < d.count → Tendsto (fun nt => v nt j) atTop (𝓝 (L j)) ∧
        (l.map fun s => if c ∈ s.isotopes then ((s.abundance / (d.sw / d.count) : ℚ) : ℝ) *
          ∑ᶠ (x) (_ : Spec.Observed c central s.isotopes s.phys.sites x),
            3 * Real.pi * Spec.shareIn (Spec.narrow d j (Spec.lineTol B0 s.phys x)) (Spec.pulseLine lib c B0 s.phys x) else 0).sum ≤ L j ∧
        L j ≤ (l.map fun s => if c ∈ s.isotopes then ((s.abundance / (d.sw / d.count) : ℚ) : ℝ) *
          ∑ᶠ (x) (_ : Spec.Observed c central s.isotopes s.phys.sites x),
            3 * Real.pi * Spec.shareIn (Spec.broad d j (Spec.lineTol B0 s.phys x)) (Spec.pulseLine lib c B0 s.phys x) else 0).sum := by
  have hrec : ∀ s ∈ l, ∀ x, Spec.Observed c central s.isotopes s.phys.sites x →
      recordedW WC.exact TC.exact lib c B0 s.phys x = Spec.pulseLine lib c B0 s.phys x := fun s hs x hxo =>
    recordedW_exact lib c B0 s.phys (hl s hs).1.sites (hl s hs).1.couplings x hxo.initial hxo.final
  have hsgn : ∀ a b : ℝ, |(if 0 < lib.gamma c then 1 else -1) * a - (if 0 < lib.gamma c then 1 else -1) * b| = |a - b| := by
    intro a b
    split_ifs
    · rw [one_mul, one_mul]
    · rw [← abs_neg]
      congr 1
      ring
  have hcont : ∀ W T (s : Run.Sys Phys (List Trans.Tr)) x, Continuous (recordedW W T lib c B0 s.phys x) := fun W T s x =>
    continuous_const.mul (dirFreq_continuous _ _ _ _ _)
  have hdir : ∀ s ∈ l, ∀ x : List ℕ × List ℕ, ∀ p,
      |dirFreq WC.src true 1 0 (components WC.src TC.src true B0 s.phys.sites s.phys.couplings
          (Spec.quantum s.phys.sites x.1) (Spec.quantum s.phys.sites x.2)) p
        - dirFreq WC.exact true 1 0 (components WC.exact TC.exact true B0 s.phys.sites s.phys.couplings
          (Spec.quantum s.phys.sites x.1) (Spec.quantum s.phys.sites x.2)) p| ≤ Spec.lineTol B0 s.phys x := by
    intro s hs x p
    exact components_near ⟨Real.cos p.2, Real.sin p.2, exp (p.1 * I), 1, 0, Real.cos_sq_add_sin_sq p.2, exp_norm p.1, by norm_num⟩
      true B0 s.phys.sites s.phys.couplings (fun y hy => ⟨((hl s hs).1.sites y hy).2, (hl s hs).2.2.1 y hy⟩) (hl s hs).2.2.2 _ _
  have hnear : ∀ s ∈ l, ∀ x, Spec.Observed c central s.isotopes s.phys.sites x → ∀ p,
      |recordedW WC.src TC.src lib c B0 s.phys x p - Spec.pulseLine lib c B0 s.phys x p| ≤ Spec.lineTol B0 s.phys x := by
    intro s hs x hxo p
    rw [← hrec s hs x hxo]
    unfold recordedW
    rw [hsgn]
    exact hdir s hs x p
  have hmean : ∀ s ∈ l, ∀ x, Spec.Observed c central s.isotopes s.phys.sites x →
      |Spec.sphereMean (recordedW WC.src TC.src lib c B0 s.phys x) - Spec.sphereMean (Spec.pulseLine lib c B0 s.phys x)|
        ≤ Spec.lineTol B0 s.phys x := by
    intro s hs x hxo
    rw [← hrec s hs x hxo]
    unfold recordedW
    rw [sphereMean_mul, sphereMean_mul, hsgn]
    exact mean_near _ _ _ _ _ (hdir s hs x)
  have hWI : ∀ s ∈ l, ∀ x, Spec.Observed c central s.isotopes s.phys.sites x →
      Spec.Wide d (recordedW WC.src TC.src lib c B0 s.phys x) ∧ Spec.Inside d (recordedW WC.src TC.src lib c B0 s.phys x) :=
    fun s hs x hxo => by
      obtain ⟨g1, g2⟩ := hx s hs x hxo
      have n1 := abs_le.mp (hnear s hs x hxo (0, Real.pi / 2))
      have n2 := abs_le.mp (hnear s hs x hxo (Real.pi / 2, Real.pi / 2))
      have n3 := abs_le.mp (hnear s hs x hxo (0, 0))
      have n4 := abs_le.mp (hmean s hs x hxo)
      constructor
      · refine g1.imp (fun g => ?_) fun g => ?_
        · rw [le_abs] at g ⊢
          rcases g with g | g
          · exact Or.inl (by linarith [n1.1, n2.2])
          · exact Or.inr (by linarith [n1.2, n2.1])
        · rw [le_abs] at g ⊢
          rcases g with g | g
          · exact Or.inl (by linarith [n1.1, n3.2])
          · exact Or.inr (by linarith [n1.2, n3.1])
      · unfold Spec.Inside
        have g3 := lt_sub_iff_add_lt.mpr g2
        rw [abs_lt] at g3 ⊢
        constructor <;> linarith [g3.1, g3.2, n4.1, n4.2]
  obtain ⟨h, hd⟩ : ∃ h, d.count = 2 * h := ⟨d.count / 2, by omega⟩
  have hcount : d.count ≠ 0 := NeZero.ne _
  have hh : 1 ≤ h := by omega
  have one := fun s hs x hxo j hj hjn junk => one_limit WC.src TC.src lib c central B0 r hr d h hd hh hsw nOct junk s (hl s hs).1
    (hO.imp id fun hu => ⟨hu.1, hu.2 s hs⟩) x hxo (hWI s hs x hxo).1 (hWI s hs x hxo).2 j hj hjn
  obtain ⟨v, h1, h3⟩ := pulse_limit WC.src TC.src lib so c hγ central hcen B0 r d nOct junk l (fun s hs => (hl s hs).1.given) hu
    (fun s x j => 3 * Real.pi * Spec.shareIn (Spec.bin (decide (0 < lib.gamma c)) d j) (recordedW WC.src TC.src lib c B0 s.phys x))
    (fun s hs x hxo j hj hjn => (one s hs x hxo j hj hjn _).2) cpu nJobs hJ
  have hinc : 0 < d.sw / d.count := by
    have : (0 : ℚ) < d.count := by exact_mod_cast Nat.pos_of_ne_zero (NeZero.ne d.count)
    positivity
  refine ⟨v, _, h1, fun nt hnt s hs x hxo junk => (one s hs x hxo 1 le_rfl (by omega) fun _ => junk).1 nt hnt, fun j hj hjn => ⟨h3 j hj hjn, ?_, ?_⟩⟩
  · refine List.sum_le_sum fun s hs => ?_
    split_ifs with hc
    · refine mul_le_mul_of_nonneg_left ?_ (by exact_mod_cast div_nonneg (hl s hs).2.1 hinc.le)
      have hfin := observed_finite lib c central s (hl s hs).1.given hc
      have e := fun g : List ℕ × List ℕ → ℝ => finsum_mem_eq_finite_toFinset_sum g hfin
      refine (e _).le.trans (le_trans (Finset.sum_le_sum fun x hxo => ?_) (e _).ge)
      have hxo : Spec.Observed c central s.isotopes s.phys.sites x := by simpa using hxo
      refine mul_le_mul_of_nonneg_left ?_ (by have := Real.pi_pos; positivity)
      have hcr : Continuous (Spec.pulseLine lib c B0 s.phys x) := by
        rw [← hrec s hs x hxo]
        exact hcont _ _ s x
      refine shareIn_le _ _ measurableSet_Ioo (bin_measurable _ _ _) _ _ hcr (hcont _ _ s x) fun p hp => ?_
      have n := abs_le.mp (hnear s hs x hxo p)
      obtain ⟨p1, p2⟩ := hp
      unfold Spec.bin
      dsimp only
      split_ifs <;> constructor <;> linarith [n.1, n.2]
    · exact le_rfl
  · refine List.sum_le_sum fun s hs => ?_
    split_ifs with hc
    · refine mul_le_mul_of_nonneg_left ?_ (by exact_mod_cast div_nonneg (hl s hs).2.1 hinc.le)
      have hfin := observed_finite lib c central s (hl s hs).1.given hc
      have e := fun g : List ℕ × List ℕ → ℝ => finsum_mem_eq_finite_toFinset_sum g hfin
      refine (e _).le.trans (le_trans (Finset.sum_le_sum fun x hxo => ?_) (e _).ge)
      have hxo : Spec.Observed c central s.isotopes s.phys.sites x := by simpa using hxo
      refine mul_le_mul_of_nonneg_left ?_ (by have := Real.pi_pos; positivity)
      have hcr : Continuous (Spec.pulseLine lib c B0 s.phys x) := by
        rw [← hrec s hs x hxo]
        exact hcont _ _ s x
      refine shareIn_le _ _ (bin_measurable _ _ _) measurableSet_Icc _ _ (hcont _ _ s x) hcr fun p hp => ?_
      have n := abs_le.mp (hnear s hs x hxo p)
      unfold Spec.bin at hp
      dsimp only at hp
      split_ifs at hp
      all_goals
        obtain ⟨p1, p2⟩ := hp
        constructor <;> linarith [n.1, n.2]
    · exact le_rfl

theorem example_tol (a : ℚ) : Spec.lineTol 1 (exampleSys a).phys ([1], [0]) ≤ 1 / 1000 := by
  norm_num [Spec.lineTol, exampleSys, poleSite, Spec.tol, Spec.sitesTol, Spec.siteTol, Spec.edge, Spec.quantum]

/-- The spectrum of the example with the decimals of the source: point 300 is within the bounds for bins of 1/64 ± 1/500 Hz. -/
example (so : Trans.SetOrder) (junk : ℕ → Phys → List Trans.Tr → ℕ → ℕ → ℂ) (cpu : ℤ) :
    haveI : NeZero (Meth.SDim.count ⟨512, 8, 0, none⟩) := ⟨by norm_num⟩
    ∃ (v : ℕ → ZMod 512 → ℝ) (L : ℝ),
      (∀ nt, Run.run (pulseEnv WC.src TC.src exampleLib so "15N" false 1 exampleStill ⟨512, 8, 0, none⟩ 1 junk nt) cpu false
        [exampleSys 70] 4 = .ok [.spec (v nt)]) ∧
      Tendsto (fun nt => v nt 300) atTop (𝓝 L) ∧
      L ≤ 70 * 64 * (3 * Real.pi * Spec.shareIn (Spec.broad ⟨512, 8, 0, none⟩ 300 (Spec.lineTol 1 (exampleSys 70).phys ([1], [0])))
        fun p => Real.sin p.2 ^ 2 * Real.cos p.1 ^ 2 - Real.cos p.2 ^ 2) := by
  have : NeZero (Meth.SDim.count ⟨512, 8, 0, none⟩) := ⟨by norm_num⟩
  have hsum : ∀ g : List ℕ × List ℕ → ℝ,
      (∑ᶠ (x) (_ : Spec.Observed "15N" false (exampleSys 70).isotopes (exampleSys 70).phys.sites x), g x) = g ([1], [0]) := by
    intro g
    simp only [example_observed]
    rw [finsum_eq_single _ ([1], [0]) (fun x hx => by simp [hx])]
    simp
  obtain ⟨v, L, h1, -, h3⟩ := C96_decimals_partial exampleLib so "15N" (by norm_num [exampleLib]) false (by simp) 1 exampleStill (by norm_num [exampleStill])
    ⟨512, 8, 0, none⟩ (by norm_num)
    (by norm_num) 1 junk [exampleSys 70]
    (by
      intro s hs
      simp only [List.mem_cons, List.not_mem_nil, or_false] at hs
      subst hs
      refine ⟨example_sound _, by norm_num [exampleSys], ?_, fun k hk => by cases hk⟩
      intro x hx
      simp only [exampleSys, List.mem_cons, List.not_mem_nil, or_false] at hx
      subst hx
      norm_num [poleSite])
    (by
      intro a ha b hb _ _ _
      simp only [List.mem_cons, List.not_mem_nil, or_false] at ha hb
      rw [ha, hb])
    (Or.inr ⟨rfl, by
      intro s hs
      simp only [List.mem_cons, List.not_mem_nil, or_false] at hs
      subst hs
      simp [Spec.Unturned, poleSite, exampleSys]⟩)
    (by
      intro s hs x hx
      simp only [List.mem_cons, List.not_mem_nil, or_false] at hs
      subst hs
      rw [(example_observed 70 x).mp hx]
      have ht := example_tol 70
      refine ⟨Or.inl ?_, ?_⟩
      · rw [example_recorded, example_recorded]
        norm_num
        linarith
      · rw [example_mean]
        norm_num
        linarith) cpu 4 (by norm_num)
  obtain ⟨a, -, c⟩ := h3 300 (by norm_num) (by norm_num)
  refine ⟨v, L 300, h1, a, c.trans (le_of_eq ?_)⟩
  have hc : "15N" ∈ (exampleSys 70).isotopes := by simp [exampleSys]
  have hf : Spec.pulseLine exampleLib "15N" 1 (exampleSys 70).phys ([1], [0])
      = fun p => Real.sin p.2 ^ 2 * Real.cos p.1 ^ 2 - Real.cos p.2 ^ 2 := funext (example_recorded 70)
  simp only [List.map_cons, List.map_nil, List.sum_cons, List.sum_nil, hsum, if_pos hc, hf]
  norm_num [exampleSys]

end MRS.Freq
