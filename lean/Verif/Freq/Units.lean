import Verif.Run.Image
import Verif.Freq.Laws
import Verif.Freq.RunMap

/-!
# The unit of frequency — property C104

In one dimension and in two, for every list of spin systems, whatever the pathways, and with the failures.
-/

namespace MRS.Freq

open Complex

/-! ## Lemmas: components -/

theorem addSites_times (W : WC) (T : TC) (four : Bool) (k : ℝ) (hk : k ≠ 0) (B0 : ℝ) (ss : List Site) (mi mf : List ℝ) (t t' : Tens)
    (h : Times k t t') :
    Times k (addSites W T four B0 t ss mi mf)
      (addSites W T four (k * B0) t' (ss.map fun x => { x with Cq := k * x.Cq }) mi mf) := by
  induction ss generalizing mi mf t t' with
  | nil => simpa [addSites] using h
  | cons s ss ih =>
    cases mi with
    | nil => simpa [addSites] using h
    | cons a mi =>
      cases mf with
      | nil => simpa [addSites] using h
      | cons b mf =>
        simp only [List.map_cons, addSites]
        exact ih mi mf _ _ (addSite_times W T four k hk B0 t t' h s b a)

theorem couplings_times (W : WC) (T : TC) (k : ℝ) (ks : List Coupling) (mi mf : List ℝ) (t t' : Tens) (h : Times k t t') :
    Times k (ks.foldl (fun t q => addCoupling W T t mi mf q) t)
      ((ks.map fun q => { q with J := k * q.J, zeta := k * q.zeta, D := k * q.D }).foldl (fun t q => addCoupling W T t mi mf q) t') := by
  induction ks generalizing t t' with
  | nil => exact h
  | cons q ks ih =>
    simp only [List.map_cons, List.foldl_cons]
    refine ih _ _ ?_
    unfold addCoupling jPart dipolarPart
    exact (h.add (Times.fcf_same _ (ssotJ_times W T k _ _ _ _))).add (Times.fcf_same _ (ssotDipolar_times W k _ _))

theorem components_times (W : WC) (T : TC) (four : Bool) (k : ℝ) (hk : k ≠ 0) (B0 : ℝ) (ss : List Site) (ks : List Coupling) (mi mf : List ℝ) :
    Times k (components W T four B0 ss ks mi mf)
      (components W T four (k * B0) (ss.map fun x => { x with Cq := k * x.Cq })
        (ks.map fun q => { q with J := k * q.J, zeta := k * q.zeta, D := k * q.D }) mi mf) :=
  couplings_times W T k ks mi mf _ _ (addSites_times W T four k hk B0 ss mi mf _ _ (Times.zero k))

theorem packed_stretched (n0 : ℕ) (k : ℝ) (ss : List Site) :
    (ss.map fun x => { x with Cq := k * x.Cq }).map (packed n0) = (ss.map (packed n0)).map fun x => { x with Cq := k * x.Cq } := by
  rw [List.map_map, List.map_map]
  exact List.map_congr_left fun x _ => packed_times n0 k x

theorem methodComponents_stretched (W : WC) (T : TC) (n0 : ℕ) (k : ℝ) (hk : k ≠ 0) (B0 : ℝ) (s : Run.Sys Phys (List Trans.Tr)) (mi mf : List ℝ) :
    Times k (methodComponents W T n0 B0 s.phys.sites s.phys.couplings mi mf)
      (methodComponents W T n0 (k * B0) (Spec.stretched k s).phys.sites (Spec.stretched k s).phys.couplings mi mf) := by
  unfold methodComponents Spec.stretched
  simp only
  rw [packed_stretched]
  exact components_times W T _ k hk B0 _ _ mi mf

/-! ## Lemmas: one dimension -/

theorem pulseWrites_stretched (W : WC) (T : TC) (lib : Library) (c : String) (B0 : ℝ) (r : Rotor) (d : Meth.SDim) (nOct : ℕ)
    (junk junk' : ℕ → ℕ → ℂ) (nt : ℕ) (s : Run.Sys Phys (List Trans.Tr)) (k : ℚ) (hk : 0 < k)
    (hr : (k : ℝ) * r.freq < 1 / 1000 ↔ r.freq < 1 / 1000) (t : Trans.Tr) :
    pulseWrites W T lib c (k * B0) { r with freq := k * r.freq } { d with sw := k * d.sw, ref := k * d.ref } nOct junk' nt
        (Spec.stretched k s).phys t
      = pulseWrites W T lib c B0 r d nOct junk nt s.phys t := by
  have hkR : (k : ℝ) ≠ 0 := by exact_mod_cast hk.ne'
  have hN : ({ r with freq := k * r.freq } : Rotor).seen = { r.seen with freq := if r.freq < 1 / 1000 then r.seen.freq else k * r.seen.freq } := by
    unfold Rotor.seen
    simp only
    by_cases h : r.freq < 1 / 1000
    · simp only [if_pos (hr.mpr h), if_pos h]
    · simp only [if_neg (fun h' => h (hr.mp h')), if_neg h]
  unfold pulseWrites rotorWrites
  rw [hN]
  simp only
  have hpos := r.seen.pos
  have m := methodComponents_stretched W T (lib.twoI c) (k : ℝ) hkR B0 s (t.1.map fun (m : ℚ) => (m : ℝ)) (t.2.map fun (m : ℚ) => (m : ℝ))
  refine spectrum_scaled W _ nt nOct _ _ _ _ _ _ _ _ _ (k : ℝ) hkR ?_ ?_ _ _ _ (startRows_alike _ _ _ _) _ _ ?_ m.R2 (fun _ => m.R4)
  · by_cases h : r.freq < 1 / 1000
    · left
      unfold Rotor.seen
      rw [if_pos h]
    · right
      rw [if_neg h]
  · push_cast
    rw [show (k : ℝ) * (d.sw : ℝ) / (d.count : ℝ) = k * (d.sw / d.count) by ring, one_div, one_div, mul_inv, ← mul_assoc,
      mul_inv_cancel₀ hkR, one_mul]
  · have e := offset_stretched d k hk.ne' (decide (0 < lib.gamma c))
    rw [show ({ count := d.count, sw := k * d.sw, ref := k * d.ref, origin := d.origin } : Meth.SDim)
      = { d with sw := k * d.sw, ref := k * d.ref } from rfl, e, m.R0]
    congr 1
    push_cast
    rw [show (k : ℝ) * (d.sw : ℝ) / (d.count : ℝ) = k * (d.sw / d.count) by ring, one_div, one_div, mul_inv]
    generalize (methodComponents W T (lib.twoI c) B0 s.phys.sites s.phys.couplings _ _).R0 = z
    rw [show (k : ℝ) * z * ((k : ℝ)⁻¹ * ((d.sw : ℝ) / d.count)⁻¹)
      = (k : ℝ) * (k : ℝ)⁻¹ * (z * ((d.sw : ℝ) / d.count)⁻¹) by ring, mul_inv_cancel₀ hkR, one_mul]

/-! ## Lemmas: two dimensions -/

/-- Two results that are related, or the same failure. -/
def Both {α β : Type} (R : α → β → Prop) : Py α → Py β → Prop
  | .ok a, .ok b => R a b
  | .error x, .error y => x = y
  | _, _ => False

/-- The events with the frequencies multiplied by `k`. -/
noncomputable def fast (k : ℝ) (e : Event) : Event := { e with B0 := k * e.B0, νr := k * e.νr }

/-- Two dimensions that have the same content, in bins. -/
structure DimsAlike (k : ℝ) (d d' : Dimension) : Prop where
  inv : k * d'.inv = d.inv
  events : d'.events = d.events.map (fast k)
  r0 : d'.r0 = d.r0
  freq : d'.freq = d.freq

/-- Two states of the loops with the same content, in bins. -/
structure StatesAlike (four : Bool) (k : ℝ) (s s' : CoreState) : Prop where
  dim : DimsAlike k s.dim s'.dim
  rows : RowsAlike four s.rows s'.rows
  path : s'.path = s.path

theorem batch_rowsAlike (W : WC) (four : Bool) (nOct : ℕ) (c s : ℕ → ℝ) (R2 R4 R2' R4' : ℕ → ℂ) (n : ℕ) (P P' : ℕ → ℕ → ℂ) (hP : RowsAlike four P P') :
    RowsAlike four (batch W four nOct c s R2 R4 n P).2 (batch W four nOct c s R2' R4' n P').2 := by
  induction n generalizing P P' with
  | zero => exact hP
  | succ n ih =>
    simp only [batch]
    by_cases hO : nOct ≠ 1
    · simp only [if_pos hO]
      exact ih _ _ hP.turn
    · simp only [if_neg hO]
      exact ih _ _ hP

theorem normalized_alike (W : WC) (four : Bool) (npts : ℕ) (k : ℝ) (t t' : Tens) (ht : Times k t t') (refresh : Bool) (e : Event)
    (bs bs' : List Block) (hb : List.Forall₂ (BlocksAlike four k) bs bs') (d d' : Dimension) (hd : DimsAlike k d d') :
    DimsAlike k (normalized W four npts t refresh e bs d) (normalized W four npts t' refresh (fast k e) bs' d') := by
  refine ⟨hd.inv, hd.events, ?_, ?_⟩
  · simp only [normalized, hd.r0, ht.R0, ← hd.inv, fast]
    ring
  · funext a
    simp only [normalized, hd.freq, fast]
    generalize (if refresh = true then fun a => 0 * d.freq a else d.freq) a = f
    rcases forall₂_get hb (a / npts) with ⟨e1, e2⟩ | ⟨b, b', e1, e2, h⟩
    · cases four
      · simp only [Bool.false_eq_true, if_false, e1, e2]
      · simp only [if_true, e1, e2]
    · cases hf : four
      · simp only [Bool.false_eq_true, if_false, e1, e2]
        rw [h.1, Complex.re_ofReal_mul, ← hd.inv]
        ring
      · simp only [if_true, e1, e2]
        rw [h.1, Complex.re_ofReal_mul, ← hd.inv, h.2 hf, Complex.re_ofReal_mul]
        ring

theorem eventStep_alike (W : WC) (T : TC) (four : Bool) (nt nOct : ℕ) (ss : List Site) (ks : List Coupling) (k : ℝ) (hk : k ≠ 0)
    (refresh : Bool) (e : Event) (s s' : CoreState) (h : StatesAlike four k s s') :
    Both (StatesAlike four k) (eventStep W T four nt nOct ss ks refresh e s)
      (eventStep W T four nt nOct (ss.map fun x => { x with Cq := k * x.Cq })
        (ks.map fun q => { q with J := k * q.J, zeta := k * q.zeta, D := k * q.D }) refresh (fast k e) s') := by
  unfold eventStep
  rw [h.path, List.length_map]
  cases hn : nextTransition ss.length s.path with
  | error x => exact rfl
  | ok m =>
    obtain ⟨m, path⟩ := m
    simp only
    have ht := components_times W T four k hk e.B0 ss ks m.1 m.2
    refine ⟨?_, ?_, rfl⟩
    · exact normalized_alike W four _ k _ _ ht refresh e _ _
        (batch_alike W four nOct _ _ _ _ _ _ k ht.R2 (fun _ => ht.R4) nOct _ _ h.rows) _ _ h.dim
    · exact batch_rowsAlike W four nOct _ _ _ _ _ _ nOct _ _ h.rows

theorem eventLoop_alike (W : WC) (T : TC) (four : Bool) (nt nOct : ℕ) (ss : List Site) (ks : List Coupling) (k : ℝ) (hk : k ≠ 0)
    (es : List Event) (refresh : Bool) (s s' : CoreState) (h : StatesAlike four k s s') :
    Both (StatesAlike four k) (eventLoop W T four nt nOct ss ks refresh es s)
      (eventLoop W T four nt nOct (ss.map fun x => { x with Cq := k * x.Cq })
        (ks.map fun q => { q with J := k * q.J, zeta := k * q.zeta, D := k * q.D }) refresh (es.map (fast k)) s') := by
  induction es generalizing refresh s s' with
  | nil => exact h
  | cons e es ih =>
    simp only [List.map_cons, eventLoop]
    have h1 := eventStep_alike W T four nt nOct ss ks k hk refresh e s s' h
    revert h1
    cases eventStep W T four nt nOct ss ks refresh e s with
    | error x =>
      cases eventStep W T four nt nOct (ss.map fun x => { x with Cq := k * x.Cq })
          (ks.map fun q => { q with J := k * q.J, zeta := k * q.zeta, D := k * q.D }) refresh (fast k e) s' with
      | error y => exact id
      | ok y => exact False.elim
    | ok x =>
      cases eventStep W T four nt nOct (ss.map fun x => { x with Cq := k * x.Cq })
          (ks.map fun q => { q with J := k * q.J, zeta := k * q.zeta, D := k * q.D }) refresh (fast k e) s' with
      | error y => exact False.elim
      | ok y => exact fun h1 => ih false x y h1

theorem coreLoop_alike (W : WC) (T : TC) (four : Bool) (nt nOct : ℕ) (ss : List Site) (ks : List Coupling) (k : ℝ) (hk : k ≠ 0)
    (ds ds' : List Dimension) (hd : List.Forall₂ (DimsAlike k) ds ds') (P P' : ℕ → ℕ → ℂ) (hP : RowsAlike four P P') (path : List ℝ) :
    Both (fun r r' => List.Forall₂ (DimsAlike k) r.1 r'.1 ∧ RowsAlike four r.2 r'.2) (coreLoop W T four nt nOct ss ks ds P path)
      (coreLoop W T four nt nOct (ss.map fun x => { x with Cq := k * x.Cq })
        (ks.map fun q => { q with J := k * q.J, zeta := k * q.zeta, D := k * q.D }) ds' P' path) := by
  induction hd generalizing P P' path with
  | nil => exact ⟨List.Forall₂.nil, hP⟩
  | @cons d d' ds ds' hd _ ih =>
    simp only [coreLoop]
    have h1 := eventLoop_alike W T four nt nOct ss ks k hk d.events true ⟨d, P, path⟩ ⟨d', P', path⟩ ⟨hd, hP, rfl⟩
    rw [← hd.events] at h1
    revert h1
    cases eventLoop W T four nt nOct ss ks true d.events ⟨d, P, path⟩ with
    | error x =>
      cases eventLoop W T four nt nOct (ss.map fun x => { x with Cq := k * x.Cq })
          (ks.map fun q => { q with J := k * q.J, zeta := k * q.zeta, D := k * q.D }) true d'.events ⟨d', P', path⟩ with
      | error y => exact id
      | ok y => exact False.elim
    | ok x =>
      cases eventLoop W T four nt nOct (ss.map fun x => { x with Cq := k * x.Cq })
          (ks.map fun q => { q with J := k * q.J, zeta := k * q.zeta, D := k * q.D }) true d'.events ⟨d', P', path⟩ with
      | error y => exact False.elim
      | ok y =>
        intro h1
        simp only
        have h2 := ih x.rows y.rows h1.rows x.path
        rw [h1.path]
        revert h2
        cases coreLoop W T four nt nOct ss ks ds x.rows x.path with
        | error z =>
          cases coreLoop W T four nt nOct (ss.map fun x => { x with Cq := k * x.Cq })
              (ks.map fun q => { q with J := k * q.J, zeta := k * q.zeta, D := k * q.D }) ds' y.rows x.path with
          | error y => exact id
          | ok y => exact False.elim
        | ok z =>
          cases coreLoop W T four nt nOct (ss.map fun x => { x with Cq := k * x.Cq })
              (ks.map fun q => { q with J := k * q.J, zeta := k * q.zeta, D := k * q.D }) ds' y.rows x.path with
          | error y => exact False.elim
          | ok y => exact fun h2 => ⟨List.Forall₂.cons h1.dim h2.1, h2.2⟩

theorem prepareAffine_scaled (k : ℝ) (hk : k ≠ 0) (a b : ℝ) (v : List ℝ) :
    Meth.prepareAffine [k * a, k * b] v = Meth.prepareAffine [a, b] v := by
  unfold Meth.prepareAffine
  simp only [List.flatMap_cons, List.flatMap_nil, List.map_cons, List.map_nil, mul_div_mul_left _ _ hk]

theorem eventAmplitude_scaled (W : WC) (four : Bool) (nt nOct N : ℕ) [NeZero N] (νr cθ sθ k : ℝ) (hk : k ≠ 0)
    (bs bs' : List Block) (h : List.Forall₂ (BlocksAlike four k) bs bs') (a : ℕ) :
    eventAmplitude W four nt nOct N (k * νr) cθ sθ bs' a = eventAmplitude W four nt nOct N νr cθ sθ bs a := by
  unfold eventAmplitude
  simp only
  by_cases hN : N = 1
  · rw [if_pos hN, if_pos hN]
  · rw [if_neg hN, if_neg hN]
    rcases forall₂_get h (a % (nOct * Bin.nPts nt) / Bin.nPts nt) with ⟨e1, e2⟩ | ⟨b, b', e1, e2, hb⟩
    · rw [e1, e2]
    · rw [e1, e2]
      simp only
      congr 2
      funext z
      exact sidebandPhase_scaled W four N νr cθ sθ k hk _ _ _ _ (hb.1 _) (fun hf => hb.2 hf _) _

theorem fftOrder_getD (N : ℤ) (k x : ℝ) (i : ℕ) : (Bin.fftOrder N (k * x)).getD i 0 = k * (Bin.fftOrder N x).getD i 0 := by
  rw [fftOrder_scaled, List.getD_eq_getElem?_getD, List.getD_eq_getElem?_getD, List.getElem?_map]
  cases (Bin.fftOrder N x)[i]? with
  | none => simp
  | some y => rfl

/-- What the averaging of two dimensions depends on. -/
theorem averaging2D_scaled (t : ℕ → ℝ) (A B A' B' : Bin.Axis ℝ) (k : ℝ) (nt nOct nSide : ℕ)
    (hA : A' = { A with inv := A'.inv, vr := fun i => k * A.vr i }) (hB : B' = { B with inv := B'.inv, vr := fun i => k * B.vr i })
    (iA : k * A'.inv = A.inv) (iB : k * B'.inv = B.inv) :
    Bin.averaging2D t A' B' nt nOct nSide = Bin.averaging2D t A B nt nOct nSide := by
  generalize A'.inv = a at *
  generalize B'.inv = b at *
  subst hA hB
  have ho : ∀ i j, Bin.offsets2D t { A with inv := a, vr := fun i => k * A.vr i } { B with inv := b, vr := fun i => k * B.vr i } i j
      = Bin.offsets2D t A B i j := by
    intro i j
    unfold Bin.offsets2D
    simp only
    rw [show k * A.vr i * a = A.vr i * A.inv by rw [← iA]; ring, show k * B.vr j * b = B.vr j * B.inv by rw [← iB]; ring]
  unfold Bin.averaging2D Bin.passes2D Bin.pass2D Bin.body2D
  simp only [ho]

theorem mapWrites_stretched (W : WC) (T : TC) (lib : Library) (c : String) (B0 : ℝ) (r : Rotor2) (d : Meth.SDim × Meth.SDim) (a : List ℚ)
    (nOct : ℕ) (junk junk' : ℕ → ℕ → ℂ) (nt : ℕ) (s : Run.Sys Phys (List Trans.Tr)) (k : ℚ) (hk : 0 < k) (path : List Trans.Tr) :
    mapWrites W T lib c (k * B0) { r with freq := (k * r.freq.1, k * r.freq.2) }
        ({ d.1 with sw := k * d.1.sw, ref := k * d.1.ref }, { d.2 with sw := k * d.2.sw, ref := k * d.2.ref }) a nOct junk' nt
        (Spec.stretched k s).phys path
      = mapWrites W T lib c B0 r d a nOct junk nt s.phys path := by
  have hkR : (k : ℝ) ≠ 0 := by exact_mod_cast hk.ne'
  have hp := r.pos
  have hinc : ∀ e : Meth.SDim, ((k * e.sw / e.count : ℚ) : ℝ) = k * ((e.sw / e.count : ℚ) : ℝ) := by
    intro e
    push_cast
    ring
  have hi : ∀ x : ℝ, k * (1 / (k * x)) = 1 / x := by
    intro x
    rw [one_div, one_div, mul_inv, ← mul_assoc, mul_inv_cancel₀ hkR, one_mul]
  have hoff : ∀ (e : Meth.SDim) (pos : Bool), Meth.normalizeOffset pos { e with sw := k * e.sw, ref := k * e.ref } = Meth.normalizeOffset pos e :=
    fun e pos => offset_stretched e k hk.ne' pos
  match path with
  | [] => rfl
  | [_] => rfl
  | _ :: _ :: _ :: _ => rfl
  | [p, q] =>
    unfold mapWrites
    simp only [hinc, hoff]
    set four := fourth (lib.twoI c) with hfour
    have mp := methodComponents_stretched W T (lib.twoI c) (k : ℝ) hkR B0 s (p.1.map fun (m : ℚ) => (m : ℝ)) (p.2.map fun (m : ℚ) => (m : ℝ))
    have mq := methodComponents_stretched W T (lib.twoI c) (k : ℝ) hkR B0 s (q.1.map fun (m : ℚ) => (m : ℝ)) (q.2.map fun (m : ℚ) => (m : ℝ))
    set P := startRows four junk nt with hP
    set P' := startRows four junk' nt with hP'
    have hPP : RowsAlike four P P' := startRows_alike _ _ _ _
    generalize methodComponents W T (lib.twoI c) B0 s.phys.sites s.phys.couplings (p.1.map fun (m : ℚ) => (m : ℝ))
      (p.2.map fun (m : ℚ) => (m : ℝ)) = t at *
    generalize methodComponents W T (lib.twoI c) B0 s.phys.sites s.phys.couplings (q.1.map fun (m : ℚ) => (m : ℝ))
      (q.2.map fun (m : ℚ) => (m : ℝ)) = u at *
    generalize methodComponents W T (lib.twoI c) (k * B0) (Spec.stretched k s).phys.sites (Spec.stretched k s).phys.couplings
      (p.1.map fun (m : ℚ) => (m : ℝ)) (p.2.map fun (m : ℚ) => (m : ℝ)) = t' at *
    generalize methodComponents W T (lib.twoI c) (k * B0) (Spec.stretched k s).phys.sites (Spec.stretched k s).phys.couplings
      (q.1.map fun (m : ℚ) => (m : ℝ)) (q.2.map fun (m : ℚ) => (m : ℝ)) = u' at *
    have hloop := coreLoop_alike W T four nt nOct (s.phys.sites.map (packed (lib.twoI c))) s.phys.couplings (k : ℝ) hkR
      [⟨1 / ((d.1.sw / d.1.count : ℚ) : ℝ), [⟨B0, 1, r.angle, r.freq.1⟩], 0, fun _ => 0⟩,
        ⟨1 / ((d.2.sw / d.2.count : ℚ) : ℝ), [⟨B0, 1, r.angle, r.freq.2⟩], 0, fun _ => 0⟩]
      [⟨1 / (k * ((d.1.sw / d.1.count : ℚ) : ℝ)), [⟨k * B0, 1, r.angle, k * r.freq.1⟩], 0, fun _ => 0⟩,
        ⟨1 / (k * ((d.2.sw / d.2.count : ℚ) : ℝ)), [⟨k * B0, 1, r.angle, k * r.freq.2⟩], 0, fun _ => 0⟩]
      (List.Forall₂.cons ⟨hi _, rfl, rfl, rfl⟩ (List.Forall₂.cons ⟨hi _, rfl, rfl, rfl⟩ List.Forall₂.nil)) P P' hPP (packQ [p, q])
    have hsites : (Spec.stretched k s).phys.sites.map (packed (lib.twoI c))
        = (s.phys.sites.map (packed (lib.twoI c))).map fun x => { x with Cq := k * x.Cq } := packed_stretched _ _ _
    have hcoup : (Spec.stretched k s).phys.couplings
        = s.phys.couplings.map fun q => { q with J := k * q.J, zeta := k * q.zeta, D := k * q.D } := rfl
    unfold map2D
    rw [prepareAffine_scaled _ hkR]
    cases Meth.prepareAffine [((d.1.sw / d.1.count : ℚ) : ℝ), ((d.2.sw / d.2.count : ℚ) : ℝ)] (a.map fun (q : ℚ) => (q : ℝ)) with
    | error x => rfl
    | ok m =>
      simp only
      rw [hsites, hcoup]
      revert hloop
      generalize coreLoop W T four nt nOct (s.phys.sites.map (packed (lib.twoI c))) s.phys.couplings _ P (packQ [p, q]) = R
      generalize coreLoop W T four nt nOct ((s.phys.sites.map (packed (lib.twoI c))).map fun x => { x with Cq := k * x.Cq }) _ _ P' (packQ [p, q]) = R'
      intro h
      match R, R', h with
      | .error x, .error y, h => rw [show x = y from h]
      | .ok ([], _), .ok ([], _), _ => rfl
      | .ok ([_], _), .ok ([_], _), _ => rfl
      | .ok (_ :: _ :: _ :: _, _), .ok (_ :: _ :: _ :: _, _), _ => rfl
      | .ok ([D, E], _), .ok ([D', E'], _), h =>
        obtain ⟨h, -⟩ := h
        simp only at h
        rw [List.forall₂_cons] at h
        obtain ⟨hD, h⟩ := h
        rw [List.forall₂_cons] at h
        obtain ⟨hE, -⟩ := h
        simp only
        have hb1 := batch_alike W four nOct (fun q => (gridBeta nt q).1) (fun q => (gridBeta nt q).2) t.R2 t.R4 t'.R2 t'.R4 k mp.R2
          (fun _ => mp.R4) nOct P P' hPP
        have hb2 := batch_alike W four nOct (fun q => (gridBeta nt q).1) (fun q => (gridBeta nt q).2) u.R2 u.R4 u'.R2 u'.R4 k mq.R2
          (fun _ => mq.R4) nOct P P' hPP
        refine averaging2D_scaled _ _ _ _ _ (k : ℝ) nt nOct r.sidebands ?_ ?_ hD.inv hE.inv
        · simp only [frames, fftOrder_getD, hD.r0, hD.freq, hE.freq]
          congr 1
          funext x
          exact eventAmplitude_scaled W four nt nOct r.sidebands _ _ _ (k : ℝ) hkR _ _ hb1 x
        · simp only [frames, fftOrder_getD, hE.r0, hD.freq, hE.freq]
          congr 1
          funext x
          rw [eventAmplitude_scaled W four nt nOct r.sidebands _ _ _ (k : ℝ) hkR _ _ hb2 x]

/-! ## Properties -/

/-- **C104.** The unit of frequency does not matter: with the field, the quadrupole, J and dipolar couplings, the rotor frequency, and the
width and the offset of the axis multiplied by a positive number `k`, every spectrum after one pulse has the same shape, point by point;
the intensities, which are per Hz, are divided by `k`.  For every list of spin systems, whatever the pathways, with `decompose_spectrum`
or without; a run that fails fails in the same way.  The threshold of 1 mHz at which a rotor counts as static is the only exception. -/
theorem C104_scaling (W : WC) (T : TC) (lib : Library) (so : Trans.SetOrder) (c : String) (central : Bool) (B0 : ℝ) (r : Rotor)
    (d : Meth.SDim) [NeZero d.count] (nOct : ℕ) (junk junk' : ℕ → Phys → List Trans.Tr → ℕ → ℕ → ℂ) (nt : ℕ)
    (l : List (Run.Sys Phys (List Trans.Tr))) (k : ℚ) (hk : 0 < k) (hr : (k : ℝ) * r.freq < 1 / 1000 ↔ r.freq < 1 / 1000)
    (cpu nJobs : ℤ) (decompose : Bool) :
    haveI : NeZero ({ d with sw := k * d.sw, ref := k * d.ref } : Meth.SDim).count := inferInstanceAs (NeZero d.count)
    Run.run (pulseEnv W T lib so c central (k * B0) { r with freq := k * r.freq } { d with sw := k * d.sw, ref := k * d.ref } nOct junk' nt)
        cpu decompose (l.map (Spec.stretched k)) nJobs
      = (Run.run (pulseEnv W T lib so c central B0 r d nOct junk nt) cpu decompose l nJobs).map
          (List.map (Run.Datum.image fun v : ZMod d.count → ℝ => (1 / k) • v)) := by
  have : NeZero ({ d with sw := k * d.sw, ref := k * d.ref } : Meth.SDim).count := inferInstanceAs (NeZero d.count)
  refine Run.run_image (env := pulseEnv W T lib so c central B0 r d nOct junk nt)
    (env' := pulseEnv W T lib so c central (k * B0) { r with freq := k * r.freq } { d with sw := k * d.sw, ref := k * d.ref } nOct junk' nt)
    (π := DistribSMul.toAddMonoidHom (ZMod d.count → ℝ) (1 / k)) ⟨rfl, rfl, rfl, rfl, fun v => ?_⟩ cpu decompose ?_ nJobs
  · exact map_rat_smul (pulseEnv W T lib so c central B0 r d nOct junk nt).mirror (1 / k) v
  · rw [List.forall₂_map_right_iff, List.forall₂_same]
    intro s _
    refine ⟨rfl, rfl, fun p => ?_⟩
    have hc : (pulseEnv W T lib so c central (k * B0) { r with freq := k * r.freq } { d with sw := k * d.sw, ref := k * d.ref } nOct junk' nt).core
        (Spec.stretched k s).phys p = (pulseEnv W T lib so c central B0 r d nOct junk nt).core s.phys p := by
      match p with
      | [] => rfl
      | _ :: _ :: _ => rfl
      | [t] =>
        funext j
        exact congrArg (Bin.val (j.val : ℤ)) (pulseWrites_stretched W T lib c B0 r d nOct _ _ nt s k hk hr t)
    rw [hc]
    change _ = (1 / k) • ((s.abundance / (d.sw / d.count)) • (pulseEnv W T lib so c central B0 r d nOct junk nt).core s.phys p)
    rw [smul_smul]
    congr 1
    change s.abundance / (k * d.sw / d.count) = _
    rw [show k * d.sw / (d.count : ℚ) = k * (d.sw / d.count) by ring, div_mul_eq_div_div_swap]
    ring

/-- **C104, two dimensions.** The same of the maps of methods with two dimensions of one event each, with any queries and any affine matrix;
the intensities are divided by `k²`. -/
theorem C104_scaling_map (W : WC) (T : TC) (lib : Library) (so : Trans.SetOrder) (c : String) (dims : List (List Trans.Query)) (a : List ℚ)
    (B0 : ℝ) (r : Rotor2) (d : Meth.SDim × Meth.SDim) [NeZero d.1.count] [NeZero d.2.count] (nOct : ℕ)
    (junk junk' : Phys → List Trans.Tr → ℕ → ℕ → ℂ) (nt : ℕ)
    (l : List (Run.Sys Phys (List Trans.Tr))) (k : ℚ) (hk : 0 < k) (cpu nJobs : ℤ) (decompose : Bool) :
    haveI : NeZero ({ d.1 with sw := k * d.1.sw, ref := k * d.1.ref } : Meth.SDim).count := inferInstanceAs (NeZero d.1.count)
    haveI : NeZero ({ d.2 with sw := k * d.2.sw, ref := k * d.2.ref } : Meth.SDim).count := inferInstanceAs (NeZero d.2.count)
    Run.run (mapEnv W T lib so c dims a (k * B0) { r with freq := (k * r.freq.1, k * r.freq.2) }
          ({ d.1 with sw := k * d.1.sw, ref := k * d.1.ref }, { d.2 with sw := k * d.2.sw, ref := k * d.2.ref }) nOct junk' nt)
        cpu decompose (l.map (Spec.stretched k)) nJobs
      = (Run.run (mapEnv W T lib so c dims a B0 r d nOct junk nt) cpu decompose l nJobs).map
          (List.map (Run.Datum.image fun v : ZMod d.1.count → ZMod d.2.count → ℝ => (1 / k ^ 2) • v)) := by
  have i1 : NeZero ({ d.1 with sw := k * d.1.sw, ref := k * d.1.ref } : Meth.SDim).count := inferInstanceAs (NeZero d.1.count)
  have i2 : NeZero ({ d.2 with sw := k * d.2.sw, ref := k * d.2.ref } : Meth.SDim).count := inferInstanceAs (NeZero d.2.count)
  refine Run.run_image (env := mapEnv W T lib so c dims a B0 r d nOct junk nt)
    (env' := mapEnv W T lib so c dims a (k * B0) { r with freq := (k * r.freq.1, k * r.freq.2) }
          ({ d.1 with sw := k * d.1.sw, ref := k * d.1.ref }, { d.2 with sw := k * d.2.sw, ref := k * d.2.ref }) nOct junk' nt)
    (π := DistribSMul.toAddMonoidHom (ZMod d.1.count → ZMod d.2.count → ℝ) (1 / k ^ 2)) ⟨rfl, rfl, rfl, rfl, fun v => ?_⟩ cpu decompose ?_ nJobs
  · exact map_rat_smul (mapEnv W T lib so c dims a B0 r d nOct junk nt).mirror (1 / k ^ 2) v
  · rw [List.forall₂_map_right_iff, List.forall₂_same]
    intro s _
    refine ⟨rfl, rfl, fun p => ?_⟩
    have hc : (mapEnv W T lib so c dims a (k * B0) { r with freq := (k * r.freq.1, k * r.freq.2) }
          ({ d.1 with sw := k * d.1.sw, ref := k * d.1.ref }, { d.2 with sw := k * d.2.sw, ref := k * d.2.ref }) nOct junk' nt).core
        (Spec.stretched k s).phys p = (mapEnv W T lib so c dims a B0 r d nOct junk nt).core s.phys p := by
      funext i j
      exact congrArg (Bin.val ((i.val : ℤ) * d.2.count + j.val)) (mapWrites_stretched W T lib c B0 r d a nOct _ _ nt s k hk p)
    rw [hc]
    change _ = (1 / k ^ 2) • ((s.abundance / ((d.1.sw / d.1.count) * (d.2.sw / d.2.count))) • (mapEnv W T lib so c dims a B0 r d nOct junk nt).core s.phys p)
    rw [smul_smul]
    congr 1
    change s.abundance / (k * d.1.sw / d.1.count * (k * d.2.sw / d.2.count)) = _
    rw [show k * d.1.sw / (d.1.count : ℚ) * (k * d.2.sw / d.2.count) = k ^ 2 * (d.1.sw / d.1.count * (d.2.sw / d.2.count)) by ring,
      div_mul_eq_div_div_swap]
    ring

/-! ### Examples -/

/-- A list of spin systems in which the order of the isotopes differs. -/
noncomputable def swappedSys : Run.Sys Phys (List Trans.Tr) :=
  ⟨["1H", "27Al"], none, 50, ⟨[⟨1, 42.6, 2, 5, 0, ⟨0, 0, 0⟩, 0, 0, ⟨0, 0, 0⟩⟩, ⟨5, 11.1, 60, 20, 0.3, ⟨0, 0, 0⟩, 3000000, 0.1, ⟨0.2, 0.4, 0⟩⟩],
    [⟨0, 1, 20, 0, 0, ⟨0, 0, 0⟩, -3000, ⟨0.3, 0.5, 0⟩⟩]⟩⟩

/-- Twice the field, twice the couplings, twice the rotor frequency. -/
example (W : WC) (T : TC) (so : Trans.SetOrder) (junk : ℕ → Phys → List Trans.Tr → ℕ → ℕ → ℂ) (cpu : ℤ) :
    haveI : NeZero (Meth.SDim.count ⟨512, 25000, 100, none⟩) := ⟨by norm_num⟩
    haveI : NeZero (Meth.SDim.count ⟨512, 2 * 25000, 2 * 100, none⟩) := ⟨by norm_num⟩
    Run.run (pulseEnv W T pairLib so "27Al" true ((2 : ℚ) * 9.4) { pairRotor with freq := (2 : ℚ) * pairRotor.freq }
        ⟨512, 2 * 25000, 2 * 100, none⟩ 4 junk 70) cpu true [Spec.stretched (2 : ℚ) (pairSys 70), Spec.stretched (2 : ℚ) swappedSys] 4
      = (Run.run (pulseEnv W T pairLib so "27Al" true 9.4 pairRotor ⟨512, 25000, 100, none⟩ 4 junk 70) cpu true
        [pairSys 70, swappedSys] 4).map (List.map (Run.Datum.image fun v : ZMod 512 → ℝ => (1 / 2 : ℚ) • v)) := by
  have : NeZero (Meth.SDim.count ⟨512, 25000, 100, none⟩) := ⟨by norm_num⟩
  exact C104_scaling W T pairLib so "27Al" true 9.4 pairRotor ⟨512, 25000, 100, none⟩ 4 junk junk 70
    [pairSys 70, swappedSys] 2 (by norm_num) (by norm_num [pairRotor]) cpu 4 true

/-- A correlation map at half the field. -/
example (W : WC) (T : TC) (so : Trans.SetOrder) (junk : Phys → List Trans.Tr → ℕ → ℕ → ℂ) (cpu : ℤ) :
    haveI : NeZero (Meth.SDim.count ⟨128, 25000, 100, none⟩) := ⟨by norm_num⟩
    haveI : NeZero (Meth.SDim.count ⟨64, 12000, -50, none⟩) := ⟨by norm_num⟩
    haveI : NeZero (Meth.SDim.count ⟨128, 1 / 2 * 25000, 1 / 2 * 100, none⟩) := ⟨by norm_num⟩
    haveI : NeZero (Meth.SDim.count ⟨64, 1 / 2 * 12000, 1 / 2 * -50, none⟩) := ⟨by norm_num⟩
    Run.run (mapEnv W T pairLib so "27Al" Trans.cosy [1, -1, 0, 1] (((1 / 2 : ℚ) : ℝ) * 9.4)
        ⟨16, inferInstance, (((1 / 2 : ℚ) : ℝ) * 12500, ((1 / 2 : ℚ) : ℝ) * 12500), 0.9553⟩
        (⟨128, 1 / 2 * 25000, 1 / 2 * 100, none⟩, ⟨64, 1 / 2 * 12000, 1 / 2 * -50, none⟩) 4 junk 70) cpu false
        [Spec.stretched ((1 / 2 : ℚ) : ℝ) (pairSys 70), Spec.stretched ((1 / 2 : ℚ) : ℝ) swappedSys] 1
      = (Run.run (mapEnv W T pairLib so "27Al" Trans.cosy [1, -1, 0, 1] 9.4 ⟨16, inferInstance, (12500, 12500), 0.9553⟩
          (⟨128, 25000, 100, none⟩, ⟨64, 12000, -50, none⟩) 4 junk 70) cpu false [pairSys 70, swappedSys] 1).map
          (List.map (Run.Datum.image fun v : ZMod 128 → ZMod 64 → ℝ => (1 / (1 / 2) ^ 2 : ℚ) • v)) := by
  have : NeZero (Meth.SDim.count ⟨128, 25000, 100, none⟩) := ⟨by norm_num⟩
  have : NeZero (Meth.SDim.count ⟨64, 12000, -50, none⟩) := ⟨by norm_num⟩
  exact C104_scaling_map W T pairLib so "27Al" Trans.cosy [1, -1, 0, 1] 9.4 ⟨16, inferInstance, (12500, 12500), 0.9553⟩
    (⟨128, 25000, 100, none⟩, ⟨64, 12000, -50, none⟩) 4 junk junk 70 [pairSys 70, swappedSys] (1 / 2) (by norm_num) cpu 1 false

end MRS.Freq
