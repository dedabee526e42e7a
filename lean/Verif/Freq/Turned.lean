import Verif.Freq.SphereTurn
import Verif.Freq.Tilted

/-!
# Turned spin systems — property C101

The orientation of the crystal frame is a choice of the user: turning all tensors of a spin system by one rotation changes what a single crystallite
does, not what a powder of all orientations does.
-/

namespace MRS.Freq

open MeasureTheory Real Matrix Filter Topology

/-! ## Specification -/

/-- A proper rotation. -/
def Spec.Rotation (Q : Matrix (Fin 3) (Fin 3) ℝ) : Prop := Qᵀ * Q = 1 ∧ Q.det = 1

/-- The axes with Euler angles `Θ'` are those with `Θ` turned by `Q`. -/
def Spec.TurnedAxes (Q : Matrix (Fin 3) (Fin 3) ℝ) (Θ Θ' : Angles) : Prop :=
  Spec.euler Θ'.α Θ'.β Θ'.γ = Spec.euler Θ.α Θ.β Θ.γ * Q

/-- The same site with its tensors, if it has any, turned by `Q`. -/
structure Spec.TurnedSite (Q : Matrix (Fin 3) (Fin 3) ℝ) (s s' : Site) : Prop where
  same : s' = { s with Θs := s'.Θs, Θq := s'.Θq }
  shift : s.zeta = 0 ∨ Spec.TurnedAxes Q s.Θs s'.Θs
  quad : s.n ≤ 1 ∨ s.Cq = 0 ∨ Spec.TurnedAxes Q s.Θq s'.Θq

/-- The same coupling with its tensors, if it has any, turned by `Q`. -/
structure Spec.TurnedCoupling (Q : Matrix (Fin 3) (Fin 3) ℝ) (k k' : Coupling) : Prop where
  same : k' = { k with Θj := k'.Θj, Θd := k'.Θd }
  j : k.zeta = 0 ∨ Spec.TurnedAxes Q k.Θj k'.Θj
  dipole : k.D = 0 ∨ Spec.TurnedAxes Q k.Θd k'.Θd

/-- The same spin system with all tensors turned by `Q`. -/
structure Spec.TurnedPhys (Q : Matrix (Fin 3) (Fin 3) ℝ) (ph ph' : Phys) : Prop where
  sites : List.Forall₂ (Spec.TurnedSite Q) ph.sites ph'.sites
  couplings : List.Forall₂ (Spec.TurnedCoupling Q) ph.couplings ph'.couplings

/-- The same spin system up to a common rotation of all its tensors. -/
structure Spec.TurnedSys (s s' : Run.Sys Phys (List Trans.Tr)) : Prop where
  isotopes : s'.isotopes = s.isotopes
  abundance : s'.abundance = s.abundance
  turned : ∃ Q, Spec.Rotation Q ∧ Spec.TurnedPhys Q s.phys s'.phys

/-- Two spin systems of one site with one tensor, that differ in the Euler angles only. -/
structure Spec.Lone (s s' : Run.Sys Phys (List Trans.Tr)) : Prop where
  isotopes : s'.isotopes = s.isotopes
  abundance : s'.abundance = s.abundance
  site : ∃ t t' : Site, s.phys = ⟨[t], []⟩ ∧ s'.phys = ⟨[t'], []⟩ ∧ t' = { t with Θs := t'.Θs, Θq := t'.Θq } ∧
    (t.zeta = 0 ∨ t.n ≤ 1 ∨ t.Cq = 0)

/-! ## Energies -/

theorem turned_seen (Q : Matrix (Fin 3) (Fin 3) ℝ) (Θ Θ' : Angles) (h : Spec.TurnedAxes Q Θ Θ') (n : Fin 3 → ℝ) :
    Spec.seen Θ' n = Spec.seen Θ (Q *ᵥ n) := by
  unfold Spec.seen
  rw [h, Matrix.mulVec_mulVec]

theorem haeberlen_zero (η : ℝ) : Spec.haeberlen 0 η = 0 := by
  unfold Spec.haeberlen
  rw [← Matrix.diagonal_zero]
  congr 1
  funext i
  fin_cases i <;> simp

theorem along_turned (Q : Matrix (Fin 3) (Fin 3) ℝ) (ζ η : ℝ) (Θ Θ' : Angles) (h : ζ = 0 ∨ Spec.TurnedAxes Q Θ Θ') (n n' : Fin 3 → ℝ)
    (hn : Q *ᵥ n' = n) :
    Spec.along (Spec.haeberlen ζ η) (Spec.seen Θ' n') = Spec.along (Spec.haeberlen ζ η) (Spec.seen Θ n) := by
  rcases h with rfl | h
  · simp only [haeberlen_zero, Spec.along, Matrix.zero_mulVec, dotProduct_zero]
  · rw [turned_seen Q Θ Θ' h, hn]

/-- The invariants of the gradient depend on the direction of the field only. -/
theorem gradient_turned (Q : Matrix (Fin 3) (Fin 3) ℝ) (η : ℝ) (Θ Θ' : Angles) (h : Spec.TurnedAxes Q Θ Θ') (M M' : Matrix (Fin 3) (Fin 3) ℝ)
    (hM : M * Mᵀ = 1) (hM' : M' * M'ᵀ = 1) (hn : Q *ᵥ Spec.field M' = Spec.field M) :
    Spec.gradient η Θ' M' 2 2 = Spec.gradient η Θ M 2 2 ∧
    Spec.gradient η Θ' M' 0 2 ^ 2 + Spec.gradient η Θ' M' 1 2 ^ 2 = Spec.gradient η Θ M 0 2 ^ 2 + Spec.gradient η Θ M 1 2 ^ 2 ∧
    (Spec.gradient η Θ' M' 0 0 - Spec.gradient η Θ' M' 1 1) ^ 2 + 4 * Spec.gradient η Θ' M' 0 1 ^ 2
      = (Spec.gradient η Θ M 0 0 - Spec.gradient η Θ M 1 1) ^ 2 + 4 * Spec.gradient η Θ M 0 1 ^ 2 := by
  unfold Spec.field at hn
  have h22 : Spec.gradient η Θ' M' 2 2 = Spec.gradient η Θ M 2 2 := by
    unfold Spec.gradient
    rw [← along_frame, ← along_frame, turned_seen Q Θ Θ' h, hn]
  obtain ⟨a, b⟩ := gradient_inv η Θ M hM
  obtain ⟨a', b'⟩ := gradient_inv η Θ' M' hM'
  rw [turned_seen Q Θ Θ' h, hn] at a'
  rw [h22] at a' b'
  refine ⟨h22, ?_, ?_⟩ <;> linarith

theorem quad_turned (n : ℕ) (Cq v0 : ℝ) (Q : Matrix (Fin 3) (Fin 3) ℝ) (η : ℝ) (Θ Θ' : Angles) (h : Cq = 0 ∨ Spec.TurnedAxes Q Θ Θ')
    (M M' : Matrix (Fin 3) (Fin 3) ℝ) (hM : M * Mᵀ = 1) (hM' : M' * M'ᵀ = 1) (hn : Q *ᵥ Spec.field M' = Spec.field M) (j : Fin (n + 1)) :
    Spec.E1 (Spec.quadH n Cq (Spec.gradient η Θ' M')) j = Spec.E1 (Spec.quadH n Cq (Spec.gradient η Θ M)) j ∧
    Spec.E2 (Spec.quadH n Cq (Spec.gradient η Θ' M')) v0 j = Spec.E2 (Spec.quadH n Cq (Spec.gradient η Θ M)) v0 j := by
  have s := gradient_symm η Θ M
  have s' := gradient_symm η Θ' M'
  have t := gradient_trace η Θ M hM
  have t' := gradient_trace η Θ' M' hM'
  have key := fun hq => gradient_turned Q η Θ Θ' hq M M' hM hM' hn
  generalize Spec.gradient η Θ M = V at s t key ⊢
  generalize Spec.gradient η Θ' M' = V' at s' t' key ⊢
  rw [E1_quad n Cq V s t j, E1_quad n Cq V' s' t' j, E2_quad n Cq V s t v0 j, E2_quad n Cq V' s' t' v0 j]
  rcases h with hc | hq
  · have : Spec.cfac n Cq = 0 := by
      unfold Spec.cfac
      rw [hc, zero_div]
    simp only [this, zero_mul, ne_eq, OfNat.ofNat_ne_zero, not_false_eq_true, zero_pow, and_self]
  · obtain ⟨a, b, c⟩ := key hq
    rw [a, b, c]
    exact ⟨rfl, rfl⟩

theorem siteEnergy_turned (second : Bool) (B0 : ℝ) (Q M M' : Matrix (Fin 3) (Fin 3) ℝ) (hM : M * Mᵀ = 1) (hM' : M' * M'ᵀ = 1)
    (hn : Q *ᵥ Spec.field M' = Spec.field M) (s s' : Site) (h : Spec.TurnedSite Q s s') (j : ℕ) :
    Spec.siteEnergy second B0 M' s' (Fin.ofNat (s'.n + 1) j) = Spec.siteEnergy second B0 M s (Fin.ofNat (s.n + 1) j) := by
  obtain ⟨same, shift, quad⟩ := h
  obtain ⟨n, γ, iso, ζ, η, Θs, Cq, ηq, Θq⟩ := s
  obtain ⟨n', γ', iso', ζ', η', Θs', Cq', ηq', Θq'⟩ := s'
  simp only [Site.mk.injEq, and_true, true_and] at same shift quad
  obtain ⟨rfl, rfl, rfl, rfl, rfl, rfl, rfl⟩ := same
  have e1 := along_turned Q ζ' η' Θs Θs' shift _ _ hn
  unfold Spec.siteEnergy
  simp only
  by_cases h1 : n' ≤ 1
  · rw [if_pos h1, if_pos h1, e1]
  · obtain ⟨a, b⟩ := quad_turned n' Cq' (-B0 * γ' * 10 ^ 6) Q ηq' Θq Θq' (quad.resolve_left h1) M M' hM hM' hn (Fin.ofNat (n' + 1) j)
    rw [if_neg h1, if_neg h1, e1, a, b]

theorem couplingEnergy_turned (Q M M' : Matrix (Fin 3) (Fin 3) ℝ) (hn : Q *ᵥ Spec.field M' = Spec.field M) (k k' : Coupling)
    (h : Spec.TurnedCoupling Q k k') (a x : ℝ) : Spec.couplingEnergy M' k' a x = Spec.couplingEnergy M k a x := by
  obtain ⟨same, hj, hd⟩ := h
  generalize k'.Θj = A at same hj
  generalize k'.Θd = B at same hd
  subst same
  unfold Spec.couplingEnergy
  dsimp only
  rw [along_turned Q k.zeta k.eta k.Θj A hj _ _ hn]
  rcases hd with hd | hd
  · rw [hd, zero_mul, zero_mul]
  · rw [turned_seen Q _ _ hd, hn]

theorem turned_n (Q : Matrix (Fin 3) (Fin 3) ℝ) (ss ss' : List Site) (hs : List.Forall₂ (Spec.TurnedSite Q) ss ss') :
    ss'.map Site.n = ss.map Site.n := by
  induction hs with
  | nil => rfl
  | cons h _ ih => rw [List.map_cons, List.map_cons, ih, h.same]

theorem turned_quantum (Q : Matrix (Fin 3) (Fin 3) ℝ) (ss ss' : List Site) (hs : List.Forall₂ (Spec.TurnedSite Q) ss ss') (x : List ℕ) :
    Spec.quantum ss' x = Spec.quantum ss x := by
  unfold Spec.quantum
  have := turned_n Q ss ss' hs
  have e : ∀ l : List Site, List.zipWith (fun (s : Site) (j : ℕ) => (j : ℝ) - (s.n : ℝ) / 2) l x
      = List.zipWith (fun (n : ℕ) (j : ℕ) => (j : ℝ) - (n : ℝ) / 2) (l.map Site.n) x := fun l => by rw [List.zipWith_map_left]
  rw [e, e, this]

theorem sites_turned (second : Bool) (B0 : ℝ) (Q M M' : Matrix (Fin 3) (Fin 3) ℝ) (hM : M * Mᵀ = 1) (hM' : M' * M'ᵀ = 1)
    (hn : Q *ᵥ Spec.field M' = Spec.field M) (ss ss' : List Site) (hs : List.Forall₂ (Spec.TurnedSite Q) ss ss') (x : List ℕ) :
    (List.zipWith (fun s j => Spec.siteEnergy second B0 M' s (Fin.ofNat (s.n + 1) j)) ss' x).sum
      = (List.zipWith (fun s j => Spec.siteEnergy second B0 M s (Fin.ofNat (s.n + 1) j)) ss x).sum := by
  induction hs generalizing x with
  | nil => rw [List.zipWith_nil_left, List.zipWith_nil_left]
  | @cons s s' _ _ h' _ ih =>
    cases x with
    | nil => simp only [List.zipWith_nil_right]
    | cons j x =>
      have e := siteEnergy_turned second B0 Q M M' hM hM' hn s s' h' j
      simp only [List.zipWith_cons_cons, List.sum_cons, ih]
      rw [e]

theorem couplings_turned (Q M M' : Matrix (Fin 3) (Fin 3) ℝ) (hn : Q *ᵥ Spec.field M' = Spec.field M) (ks ks' : List Coupling)
    (hk : List.Forall₂ (Spec.TurnedCoupling Q) ks ks') (q : List ℝ) :
    (ks'.map (fun k => Spec.couplingEnergy M' k (q.getD k.A 0) (q.getD k.X 0))).sum
      = (ks.map (fun k => Spec.couplingEnergy M k (q.getD k.A 0) (q.getD k.X 0))).sum := by
  induction hk with
  | nil => rw [List.map_nil, List.map_nil]
  | @cons k k' _ _ h' _ ih =>
    have hA : k'.A = k.A := by rw [h'.same]
    have hX : k'.X = k.X := by rw [h'.same]
    simp only [List.map_cons, List.sum_cons, ih, hA, hX, couplingEnergy_turned Q M M' hn k k' h']

/-- The energy of a state of a turned spin system in a given direction of the field is that of the original one in the turned direction. -/
theorem energy_turned (second : Bool) (B0 : ℝ) (Q M M' : Matrix (Fin 3) (Fin 3) ℝ) (hM : M * Mᵀ = 1) (hM' : M' * M'ᵀ = 1)
    (hn : Q *ᵥ Spec.field M' = Spec.field M) (ph ph' : Phys) (h : Spec.TurnedPhys Q ph ph') (x : List ℕ) :
    Spec.energy second B0 M' ph'.sites ph'.couplings x = Spec.energy second B0 M ph.sites ph.couplings x := by
  unfold Spec.energy
  rw [turned_quantum Q _ _ h.sites, sites_turned second B0 Q M M' hM hM' hn _ _ h.sites, couplings_turned Q M M' hn _ _ h.couplings]

theorem line_turned (four : Bool) (B0 : ℝ) (Q : Matrix (Fin 3) (Fin 3) ℝ) (ph ph' : Phys) (h : Spec.TurnedPhys Q ph ph') (xi xf : List ℕ)
    (p p' : ℝ × ℝ) (hp : Q *ᵥ Spec.dir p.1 p.2 = Spec.dir p'.1 p'.2) :
    Spec.line four B0 ph'.sites ph'.couplings xi xf p = Spec.line four B0 ph.sites ph.couplings xi xf p' := by
  have hn : Q *ᵥ Spec.field (Spec.static p.1 p.2) = Spec.field (Spec.static p'.1 p'.2) := by
    unfold Spec.field
    rw [field_dir, field_dir, hp]
  unfold Spec.line
  rw [energy_turned four B0 Q _ _ (static_orth _ _) (static_orth _ _) hn ph ph' h, energy_turned four B0 Q _ _ (static_orth _ _) (static_orth _ _) hn ph ph' h]

/-! ## Turning the rotor -/

theorem rz_mul (a b : ℝ) : Spec.Rz a * Spec.Rz b = Spec.Rz (a + b) := by
  unfold Spec.Rz
  rw [cos_add, sin_add]
  ext i j
  fin_cases i <;> fin_cases j <;> simp [Matrix.mul_apply, Fin.sum_univ_three] <;> ring

theorem rz_det (a : ℝ) : (Spec.Rz a).det = 1 := by
  have := sin_sq_add_cos_sq a
  unfold Spec.Rz
  rw [Matrix.det_fin_three]
  simp
  linarith

theorem ry_det (a : ℝ) : (Spec.Ry a).det = 1 := by
  have := sin_sq_add_cos_sq a
  unfold Spec.Ry
  rw [Matrix.det_fin_three]
  simp
  linarith

/-- A rotation that leaves the z axis where it is. -/
theorem rotation_z (N : Matrix (Fin 3) (Fin 3) ℝ) (hN : Spec.Rotation N) (hz : N *ᵥ ![0, 0, 1] = ![0, 0, 1]) : ∃ ψ, N = Spec.Rz ψ := by
  obtain ⟨ho, hd⟩ := hN
  have z0 : N 0 2 = 0 := by simpa [Matrix.mulVec, dotProduct, Fin.sum_univ_three] using congrFun hz 0
  have z1 : N 1 2 = 0 := by simpa [Matrix.mulVec, dotProduct, Fin.sum_univ_three] using congrFun hz 1
  have z2 : N 2 2 = 1 := by simpa [Matrix.mulVec, dotProduct, Fin.sum_univ_three] using congrFun hz 2
  have o : ∀ i j, N 0 i * N 0 j + N 1 i * N 1 j + N 2 i * N 2 j = (1 : Matrix (Fin 3) (Fin 3) ℝ) i j := by
    intro i j
    have := congrFun (congrFun ho i) j
    rw [Matrix.mul_apply, Fin.sum_univ_three] at this
    simpa [Matrix.transpose_apply] using this
  have w0 : N 2 0 = 0 := by
    have := o 0 2
    rw [z0, z1, z2] at this
    simpa using this
  have w1 : N 2 1 = 0 := by
    have := o 1 2
    rw [z0, z1, z2] at this
    simpa using this
  rw [Matrix.det_fin_three, z0, z1, z2, w0, w1] at hd
  have a := o 0 0
  have b := o 1 1
  have c := o 0 1
  rw [w0] at a c
  rw [w1] at b c
  simp at a b c
  have e1 : N 0 0 = N 1 1 := by
    nlinarith [sq_nonneg (N 0 0 - N 1 1), sq_nonneg (N 0 1 + N 1 0)]
  have e2 : N 0 1 = -N 1 0 := by
    nlinarith [sq_nonneg (N 0 0 - N 1 1), sq_nonneg (N 0 1 + N 1 0)]
  have hu : N 0 0 ^ 2 + N 1 0 ^ 2 = 1 := by nlinarith
  refine ⟨Complex.arg ⟨N 0 0, N 1 0⟩, ?_⟩
  have hnorm : ‖(⟨N 0 0, N 1 0⟩ : ℂ)‖ = 1 := by
    rw [Complex.norm_eq_sqrt_sq_add_sq, hu, Real.sqrt_one]
  have hc := Complex.norm_mul_cos_arg (⟨N 0 0, N 1 0⟩ : ℂ)
  have hs := Complex.norm_mul_sin_arg (⟨N 0 0, N 1 0⟩ : ℂ)
  rw [hnorm, one_mul] at hc hs
  simp only at hc hs
  unfold Spec.Rz
  rw [hc, hs]
  ext i j
  fin_cases i <;> fin_cases j <;> simp [z0, z1, z2, w0, w1, e2]; linarith

/-- Directions that differ by a rotation: so do the crystallites, up to a turn about the field. -/
theorem static_turned (Q : Matrix (Fin 3) (Fin 3) ℝ) (hQ : Spec.Rotation Q) (p p' : ℝ × ℝ)
    (hp : Q *ᵥ Spec.dir p.1 p.2 = Spec.dir p'.1 p'.2) : ∃ ψ, Q * Spec.static p.1 p.2 = Spec.static p'.1 p'.2 * Spec.Rz ψ := by
  have ho' := static_orth p'.1 p'.2
  have ho'' : (Spec.static p'.1 p'.2)ᵀ * Spec.static p'.1 p'.2 = 1 := mul_eq_one_comm.mp ho'
  have hN : Spec.Rotation ((Spec.static p'.1 p'.2)ᵀ * (Q * Spec.static p.1 p.2)) := by
    constructor
    · have h1 : (Spec.static p.1 p.2)ᵀ * Spec.static p.1 p.2 = 1 := mul_eq_one_comm.mp (static_orth p.1 p.2)
      rw [Matrix.transpose_mul, Matrix.transpose_mul, Matrix.transpose_transpose]
      calc _ = (Spec.static p.1 p.2)ᵀ * (Qᵀ * (Spec.static p'.1 p'.2 * (Spec.static p'.1 p'.2)ᵀ) * Q) * Spec.static p.1 p.2 := by
            simp only [Matrix.mul_assoc]
        _ = 1 := by rw [ho', Matrix.mul_one, hQ.1, Matrix.mul_one, h1]
    · rw [Matrix.det_mul, Matrix.det_mul, Matrix.det_transpose, Spec.static, Spec.static, Matrix.det_mul, Matrix.det_mul, rz_det, rz_det, ry_det,
        ry_det, hQ.2]
      norm_num
  obtain ⟨ψ, hψ⟩ := rotation_z _ hN (by
    rw [← Matrix.mulVec_mulVec, ← Matrix.mulVec_mulVec, field_dir, hp, ← field_dir, Matrix.mulVec_mulVec, ho'', Matrix.one_mulVec])
  refine ⟨ψ, ?_⟩
  rw [← hψ, ← Matrix.mul_assoc (Spec.static p'.1 p'.2), ho', Matrix.one_mul]

theorem spun_orth' (α β θ νr τ : ℝ) : Spec.spun α β θ νr τ * (Spec.spun α β θ νr τ)ᵀ = 1 :=
  mul_orth _ _ (static_orth _ _) (mul_orth _ _ (rz_orth _) (ry_orth _))

/-- A turned crystallite goes through the frequencies of the original one, from another moment on. -/
theorem momentary_turned (four : Bool) (B0 θ νr : ℝ) (hν : 0 < νr) (Q : Matrix (Fin 3) (Fin 3) ℝ) (hQ : Spec.Rotation Q) (ph ph' : Phys)
    (h : Spec.TurnedPhys Q ph ph') (xi xf : List ℕ) (p p' : ℝ × ℝ) (hp : Q *ᵥ Spec.dir p.1 p.2 = Spec.dir p'.1 p'.2) :
    ∃ s, ∀ τ, Spec.momentary four B0 p.1 p.2 θ νr ph'.sites ph'.couplings xi xf τ
      = Spec.momentary four B0 p'.1 p'.2 θ νr ph.sites ph.couplings xi xf (s + τ) := by
  obtain ⟨ψ, hψ⟩ := static_turned Q hQ p p' hp
  refine ⟨-ψ / (2 * π * νr), fun τ => ?_⟩
  have hm : Q * Spec.spun p.1 p.2 θ νr τ = Spec.spun p'.1 p'.2 θ νr (-ψ / (2 * π * νr) + τ) := by
    unfold Spec.spun
    rw [← Matrix.mul_assoc Q, hψ, Matrix.mul_assoc (Spec.static p'.1 p'.2), ← Matrix.mul_assoc (Spec.Rz ψ), rz_mul]
    have hπ := Real.pi_pos
    have e : ψ + -(2 * π * νr * τ) = -(2 * π * νr * (-ψ / (2 * π * νr) + τ)) := by
      field_simp
      ring
    rw [e]
  have hn : Q *ᵥ Spec.field (Spec.spun p.1 p.2 θ νr τ) = Spec.field (Spec.spun p'.1 p'.2 θ νr (-ψ / (2 * π * νr) + τ)) := by
    unfold Spec.field
    rw [Matrix.mulVec_mulVec, hm]
  unfold Spec.momentary
  rw [energy_turned four B0 Q _ _ (spun_orth' _ _ _ _ _) (spun_orth' _ _ _ _ _) hn ph ph' h,
    energy_turned four B0 Q _ _ (spun_orth' _ _ _ _ _) (spun_orth' _ _ _ _ _) hn ph ph' h]

/-- The sidebands of a signal from another moment on. -/
theorem sideband_shift (νr : ℝ) (hν : 0 < νr) (f : ℝ → ℝ) (hf : Continuous f) (hp : Function.Periodic f (1 / νr)) (s : ℝ) (m : ℤ) :
    Spec.average νr (fun τ => f (s + τ)) = Spec.average νr f ∧ Spec.sideband νr (fun τ => f (s + τ)) m = Spec.sideband νr f m := by
  have h1 := sideband_reverse νr hν f hf hp s m
  have hf' : Continuous fun τ => f (s - τ) := hf.comp (continuous_const.sub continuous_id)
  have hp' : Function.Periodic (fun τ => f (s - τ)) (1 / νr) := by
    intro τ
    have := hp (s - (τ + 1 / νr))
    rw [show s - (τ + 1 / νr) + 1 / νr = s - τ by ring] at this
    exact this.symm
  have h2 := sideband_reverse νr hν _ hf' hp' 0 m
  simp only [zero_sub, sub_neg_eq_add] at h2
  exact ⟨h2.1.trans h1.1, h2.2.trans h1.2⟩

/-! ## Patterns -/

theorem turn_forth (Q : Matrix (Fin 3) (Fin 3) ℝ) (hQ : Qᵀ * Q = 1) (p : ℝ × ℝ) : ∃ p' : ℝ × ℝ, Q *ᵥ Spec.dir p.1 p.2 = Spec.dir p'.1 p'.2 :=
  ⟨_, (dir_polar _ (by rw [orth_dot Q hQ, dir_unit])).symm⟩

theorem turn_back (Q : Matrix (Fin 3) (Fin 3) ℝ) (hQ : Qᵀ * Q = 1) (p' : ℝ × ℝ) : ∃ p : ℝ × ℝ, Q *ᵥ Spec.dir p.1 p.2 = Spec.dir p'.1 p'.2 := by
  have hQ' : Q * Qᵀ = 1 := mul_eq_one_comm.mp hQ
  obtain ⟨p, hp⟩ := turn_forth Qᵀ (by rw [Matrix.transpose_transpose]; exact hQ') p'
  exact ⟨p, by rw [← hp, Matrix.mulVec_mulVec, hQ', Matrix.one_mulVec]⟩

theorem sharp_turn (f f' : ℝ × ℝ → ℝ) (Q : Matrix (Fin 3) (Fin 3) ℝ) (hQ : Qᵀ * Q = 1)
    (h : ∀ p p' : ℝ × ℝ, Q *ᵥ Spec.dir p.1 p.2 = Spec.dir p'.1 p'.2 → f' p = f p') :
    (Spec.Sharp f' ↔ Spec.Sharp f) ∧ (Spec.Sharp f → f' (0, 0) = f (0, 0)) := by
  refine ⟨⟨?_, ?_⟩, ?_⟩
  · rintro ⟨a, ha⟩
    refine ⟨a, fun p' => ?_⟩
    obtain ⟨p, hp⟩ := turn_back Q hQ p'
    rw [← h p p' hp, ha]
  · rintro ⟨a, ha⟩
    refine ⟨a, fun p => ?_⟩
    obtain ⟨p', hp⟩ := turn_forth Q hQ p
    rw [h p p' hp, ha]
  · rintro ⟨a, ha⟩
    obtain ⟨p', hp⟩ := turn_forth Q hQ (0, 0)
    rw [h _ p' hp, ha, ha]

theorem pattern_turn (pos : Bool) (d : Meth.SDim) (j : ℕ) (f f' : ℝ × ℝ → ℝ) (hf : Measurable f) (hf' : Measurable f')
    (Q : Matrix (Fin 3) (Fin 3) ℝ) (hQ : Qᵀ * Q = 1)
    (h : ∀ p p' : ℝ × ℝ, Q *ᵥ Spec.dir p.1 p.2 = Spec.dir p'.1 p'.2 → f' p = f p') : Spec.pattern pos d j f' = Spec.pattern pos d j f := by
  obtain ⟨h1, h2⟩ := sharp_turn f f' Q hQ h
  unfold Spec.pattern
  by_cases hs : Spec.Sharp f
  · rw [if_pos hs, if_pos (h1.mpr hs), h2 hs]
  · rw [if_neg hs, if_neg fun h' => hs (h1.mp h')]
    unfold Spec.shareIn
    have hm : Measurable ((Spec.bin pos d j).indicator fun _ => (1 : ℝ)) := measurable_const.indicator (bin_measurable pos d j)
    exact sphereMean_turn _ _ (hm.comp hf) (hm.comp hf') (fun p => Set.indicator_nonneg (fun _ _ => zero_le_one) _) Q hQ
      fun p p' e => by rw [h p p' e]

theorem sidebandPattern_turn (pos : Bool) (d : Meth.SDim) (j : ℕ) (νr : ℝ) (m : ℤ) (f f' I I' : ℝ × ℝ → ℝ) (hf : Continuous f)
    (hf' : Continuous f') (hI : Measurable I) (hI' : Measurable I') (h0 : ∀ p, 0 ≤ I p) (Q : Matrix (Fin 3) (Fin 3) ℝ) (hQ : Qᵀ * Q = 1)
    (h : ∀ p p' : ℝ × ℝ, Q *ᵥ Spec.dir p.1 p.2 = Spec.dir p'.1 p'.2 → f' p = f p' ∧ I' p = I p') :
    Spec.sidebandPattern pos d j νr f' m I' = Spec.sidebandPattern pos d j νr f m I := by
  obtain ⟨h1, h2⟩ := sharp_turn f f' Q hQ fun p p' e => (h p p' e).1
  unfold Spec.sidebandPattern
  rw [sphereMean_turn I I' hI hI' h0 Q hQ fun p p' e => (h p p' e).2, sphereMean_turn_continuous f f' hf hf' Q hQ fun p p' e => (h p p' e).1]
  by_cases hs : Spec.Sharp f
  · rw [if_pos hs, if_pos (h1.mpr hs), h2 hs]
  · rw [if_neg hs, if_neg fun h' => hs (h1.mp h')]
    congr 1
    have hm : ∀ g G : ℝ × ℝ → ℝ, Measurable g → Measurable G →
        Measurable fun p => (Spec.bin pos d j).indicator (fun _ => G p) (g p + (if pos then 1 else -1) * (m * νr)) := by
      intro g G hg hG
      have : (fun p => (Spec.bin pos d j).indicator (fun _ => G p) (g p + (if pos then 1 else -1) * (m * νr)))
          = ((fun p => g p + (if pos then 1 else -1) * (m * νr)) ⁻¹' Spec.bin pos d j).indicator G := by
        funext p
        rfl
      rw [this]
      exact hG.indicator ((hg.add_const _) (bin_measurable pos d j))
    exact sphereMean_turn _ _ (hm f I hf.measurable hI) (hm f' I' hf'.measurable hI') (fun p => Set.indicator_nonneg (fun _ _ => h0 p) _) Q hQ
      fun p p' e => by rw [(h p p' e).1, (h p p' e).2]

theorem pulseLine_continuous (lib : Library) (c : String) (central : Bool) (B0 : ℝ) (s : Run.Sys Phys (List Trans.Tr)) (hs : Spec.Sound lib s)
    (x : List ℕ × List ℕ) (hx : Spec.Observed c central s.isotopes s.phys.sites x) : Continuous (Spec.pulseLine lib c B0 s.phys x) := by
  have e : Spec.pulseLine lib c B0 s.phys x = fun p => (if 0 < lib.gamma c then 1 else -1) * dirFreq WC.exact true 1 0
      (components WC.exact TC.exact true B0 s.phys.sites s.phys.couplings (Spec.quantum s.phys.sites x.1) (Spec.quantum s.phys.sites x.2)) p := by
    funext p
    unfold Spec.pulseLine
    congr 1
    exact (C73_energies_partial true B0 p.1 p.2 _ _ _ _ hx.initial hx.final hs.sites hs.couplings).symm
  rw [e]
  exact continuous_const.mul (dirFreq_continuous _ _ _ _ _)

theorem spunLine_facts (lib : Library) (c : String) (central : Bool) (B0 νr θ : ℝ) (hν : 0 < νr) (s : Run.Sys Phys (List Trans.Tr))
    (hs : Spec.Sound lib s) (x : List ℕ × List ℕ) (hx : Spec.Observed c central s.isotopes s.phys.sites x) :
    Continuous (Spec.spunLine lib c B0 νr θ s.phys x) ∧
      ∀ m, Measurable (Spec.spunSideband B0 νr θ s.phys x m) ∧ ∀ p, 0 ≤ Spec.spunSideband B0 νr θ s.phys x m p := by
  set t := components WC.exact TC.exact true B0 s.phys.sites s.phys.couplings (Spec.quantum s.phys.sites x.1) (Spec.quantum s.phys.sites x.2)
  constructor
  · have e : Spec.spunLine lib c B0 νr θ s.phys x = fun p => (if 0 < lib.gamma c then 1 else -1) * dirFreq WC.exact true (cos θ) (sin θ) t p := by
      funext p
      unfold Spec.spunLine
      congr 1
      exact (C75_average_partial true B0 p.1 p.2 θ νr hν _ _ _ _ hx.initial hx.final hs.sites hs.couplings).symm
    rw [e]
    exact continuous_const.mul (dirFreq_continuous _ _ _ _ _)
  · intro m
    have hI : ∀ p, Tendsto (fun n : ℕ => dirAmp WC.exact true (n + 2) νr (cos θ) (sin θ) t (m % ((n + 2 : ℕ) : ℤ)).toNat p)
        atTop (𝓝 (Spec.spunSideband B0 νr θ s.phys x m p)) := by
      intro p
      simp only [dirAmp_residue]
      exact (tendsto_add_atTop_iff_nat 1).mpr (C76_limit_partial true B0 p.1 p.2 θ νr hν _ _ _ _ hx.initial hx.final hs.sites hs.couplings m)
    obtain ⟨h1, h2, -⟩ := intensity_facts WC.exact true t (cos θ) (sin θ) νr m _ hI
    exact ⟨h1, fun p => (h2 p).1⟩

/-- The patterns of a transition of turned spin systems. -/
theorem pattern_turned (lib : Library) (c : String) (central : Bool) (B0 : ℝ) (d : Meth.SDim) (j : ℕ) (s s' : Run.Sys Phys (List Trans.Tr))
    (hs : Spec.Sound lib s) (hs' : Spec.Sound lib s') (ht : Spec.TurnedSys s s') (x : List ℕ × List ℕ)
    (hx : Spec.Observed c central s.isotopes s.phys.sites x) :
    Spec.pattern (decide (0 < lib.gamma c)) d j (Spec.pulseLine lib c B0 s'.phys x)
      = Spec.pattern (decide (0 < lib.gamma c)) d j (Spec.pulseLine lib c B0 s.phys x) := by
  obtain ⟨Q, hQ, h⟩ := ht.turned
  have hx' : Spec.Observed c central s'.isotopes s'.phys.sites x := by
    rw [ht.isotopes]
    exact observed_n c central _ _ _ (turned_n Q _ _ h.sites) x hx
  refine pattern_turn _ d j _ _ (pulseLine_continuous lib c central B0 s hs x hx).measurable
    (pulseLine_continuous lib c central B0 s' hs' x hx').measurable Q hQ.1 fun p p' e => ?_
  unfold Spec.pulseLine
  rw [line_turned true B0 Q s.phys s'.phys h x.1 x.2 p p' e]

theorem sidebandPattern_turned (lib : Library) (c : String) (central : Bool) (B0 νr θ : ℝ) (hν : 0 < νr) (d : Meth.SDim) (j : ℕ)
    (s s' : Run.Sys Phys (List Trans.Tr)) (hs : Spec.Sound lib s) (hs' : Spec.Sound lib s') (ht : Spec.TurnedSys s s') (x : List ℕ × List ℕ)
    (hx : Spec.Observed c central s.isotopes s.phys.sites x) (m : ℤ) :
    Spec.sidebandPattern (decide (0 < lib.gamma c)) d j νr (Spec.spunLine lib c B0 νr θ s'.phys x) m (Spec.spunSideband B0 νr θ s'.phys x m)
      = Spec.sidebandPattern (decide (0 < lib.gamma c)) d j νr (Spec.spunLine lib c B0 νr θ s.phys x) m (Spec.spunSideband B0 νr θ s.phys x m) := by
  obtain ⟨Q, hQ, h⟩ := ht.turned
  have hx' : Spec.Observed c central s'.isotopes s'.phys.sites x := by
    rw [ht.isotopes]
    exact observed_n c central _ _ _ (turned_n Q _ _ h.sites) x hx
  obtain ⟨c1, c2⟩ := spunLine_facts lib c central B0 νr θ hν s hs x hx
  obtain ⟨c1', c2'⟩ := spunLine_facts lib c central B0 νr θ hν s' hs' x hx'
  refine sidebandPattern_turn _ d j νr m _ _ _ _ c1 c1' (c2 m).1 (c2' m).1 (c2 m).2 Q hQ.1 fun p p' e => ?_
  obtain ⟨τ, hτ⟩ := momentary_turned true B0 θ νr hν Q hQ s.phys s'.phys h x.1 x.2 p p' e
  obtain ⟨k1, k2⟩ := momentary_facts true B0 p'.1 p'.2 θ νr hν s.phys.sites s.phys.couplings x.1 x.2 hx.initial hx.final hs.sites hs.couplings
  have key := sideband_shift νr hν _ k1 k2 τ m
  unfold Spec.spunLine Spec.spunSideband
  rw [show Spec.momentary true B0 p.1 p.2 θ νr s'.phys.sites s'.phys.couplings x.1 x.2 = _ from funext hτ, key.1, key.2]
  exact ⟨rfl, rfl⟩

/-! ## Spectra -/

theorem upright_id (lib : Library) (s : Run.Sys Phys (List Trans.Tr)) (h : Spec.Sound lib s) : Spec.upright s.phys = s.phys := by
  have ha : ∀ Θ : Angles, 0 ≤ Θ.β → Spec.absAngles Θ = Θ := fun Θ hΘ => by
    unfold Spec.absAngles
    rw [abs_of_nonneg hΘ]
  have h1 : s.phys.sites.map Spec.absSite = s.phys.sites := by
    conv_rhs => rw [← List.map_id s.phys.sites]
    refine List.map_congr_left fun x hx => ?_
    unfold Spec.absSite
    rw [ha _ (h.sites x hx).1.1, ha _ (h.sites x hx).1.2]
    rfl
  have h2 : s.phys.couplings.map Spec.absCoupling = s.phys.couplings := by
    conv_rhs => rw [← List.map_id s.phys.couplings]
    refine List.map_congr_left fun x hx => ?_
    unfold Spec.absCoupling
    rw [ha _ (h.couplings x hx).1.1, ha _ (h.couplings x hx).1.2]
    rfl
  unfold Spec.upright
  rw [h1, h2]

theorem uprightSys_id (lib : Library) (s : Run.Sys Phys (List Trans.Tr)) (h : Spec.Sound lib s) : Spec.uprightSys s = s := by
  unfold Spec.uprightSys
  rw [upright_id lib s h]

theorem rotation_between (Θ Θ' : Angles) : ∃ Q, Spec.Rotation Q ∧ Spec.TurnedAxes Q Θ Θ' := by
  have hd : ∀ Θ : Angles, (Spec.euler Θ.α Θ.β Θ.γ).det = 1 := fun Θ => by
    unfold Spec.euler
    rw [Matrix.det_mul, Matrix.det_mul, rz_det, ry_det, rz_det, one_mul, one_mul]
  have ho := fun Θ : Angles => euler_orth Θ.α Θ.β Θ.γ
  refine ⟨(Spec.euler Θ.α Θ.β Θ.γ)ᵀ * Spec.euler Θ'.α Θ'.β Θ'.γ, ⟨?_, ?_⟩, ?_⟩
  · rw [Matrix.transpose_mul, Matrix.transpose_transpose]
    calc _ = (Spec.euler Θ'.α Θ'.β Θ'.γ)ᵀ * (Spec.euler Θ.α Θ.β Θ.γ * (Spec.euler Θ.α Θ.β Θ.γ)ᵀ) * Spec.euler Θ'.α Θ'.β Θ'.γ := by
          simp only [Matrix.mul_assoc]
      _ = 1 := by rw [ho Θ, Matrix.mul_one, mul_eq_one_comm.mp (ho Θ')]
  · rw [Matrix.det_mul, Matrix.det_transpose, hd, hd, one_mul]
  · unfold Spec.TurnedAxes
    rw [← Matrix.mul_assoc, ho Θ, Matrix.one_mul]

theorem lone_turned (s s' : Run.Sys Phys (List Trans.Tr)) (h : Spec.Lone s s') : Spec.TurnedSys (Spec.uprightSys s) (Spec.uprightSys s') := by
  obtain ⟨t, t', e, e', same, one⟩ := h.site
  have hu : ∀ (s : Run.Sys Phys (List Trans.Tr)) t, s.phys = ⟨[t], []⟩ → (Spec.uprightSys s).phys = ⟨[Spec.absSite t], []⟩ := by
    intro s t e
    unfold Spec.uprightSys Spec.upright
    rw [e]
    rfl
  have same' : Spec.absSite t' = { Spec.absSite t with Θs := (Spec.absSite t').Θs, Θq := (Spec.absSite t').Θq } := by
    generalize ha : t'.Θs = A at same
    generalize hb : t'.Θq = B at same
    subst same
    rfl
  refine ⟨h.isotopes, h.abundance, ?_⟩
  rw [hu s t e, hu s' t' e']
  rcases one with h0 | h0
  · obtain ⟨Q, hQ, hT⟩ := rotation_between (Spec.absSite t).Θq (Spec.absSite t').Θq
    exact ⟨Q, hQ, List.Forall₂.cons ⟨same', Or.inl h0, Or.inr (Or.inr hT)⟩ List.Forall₂.nil, List.Forall₂.nil⟩
  · obtain ⟨Q, hQ, hT⟩ := rotation_between (Spec.absSite t).Θs (Spec.absSite t').Θs
    exact ⟨Q, hQ, List.Forall₂.cons ⟨same', Or.inr hT, h0.imp id Or.inl⟩ List.Forall₂.nil, List.Forall₂.nil⟩

theorem sum_turned {α : Type} (R : α → α → Prop) (f f' : α → ℝ) (l l' : List α) (h : List.Forall₂ R l l')
    (hf : ∀ a ∈ l, ∀ b ∈ l', R a b → f' b = f a) : (l'.map f').sum = (l.map f).sum := by
  induction h with
  | nil => rw [List.map_nil, List.map_nil]
  | @cons a b l l' hab _ ih =>
    rw [List.map_cons, List.map_cons, List.sum_cons, List.sum_cons, hf a (by simp) b (by simp) hab,
      ih fun a ha b hb => hf a (List.mem_cons_of_mem _ ha) b (List.mem_cons_of_mem _ hb)]

theorem forall₂_members {α : Type} (R S : α → α → Prop) (l l' : List α) (h : List.Forall₂ R l l')
    (hf : ∀ a ∈ l, ∀ b ∈ l', R a b → S a b) : List.Forall₂ S l l' := by
  induction h with
  | nil => exact List.Forall₂.nil
  | @cons a b l l' hab _ ih =>
    exact List.Forall₂.cons (hf a (by simp) b (by simp) hab)
      (ih fun a ha b hb => hf a (List.mem_cons_of_mem _ ha) b (List.mem_cons_of_mem _ hb))

/-- The observed transitions of turned spin systems. -/
theorem observed_turned (c : String) (central : Bool) (s s' : Run.Sys Phys (List Trans.Tr))
    (ht : Spec.TurnedSys (Spec.uprightSys s) (Spec.uprightSys s')) (x : List ℕ × List ℕ) :
    Spec.Observed c central s'.isotopes s'.phys.sites x ↔ Spec.Observed c central s.isotopes s.phys.sites x := by
  obtain ⟨Q, -, h⟩ := ht.turned
  have hn : s'.phys.sites.map Site.n = s.phys.sites.map Site.n := by
    have := turned_n Q _ _ h.sites
    unfold Spec.uprightSys Spec.upright at this
    simpa only [absSite_n] using this
  rw [show s'.isotopes = s.isotopes from ht.isotopes]
  exact observed_iff c central _ _ _ hn x

/-- Static samples whose spin systems differ, without the signs of the angles, by rotations. -/
theorem turned_static (lib : Library) (so : Trans.SetOrder) (c : String) (hγ : lib.gamma c ≠ 0) (central : Bool)
    (hcen : central = true → lib.twoI c % 2 = 1) (B0 : ℝ) (r : Rotor) (hr : r.freq < 1 / 1000) (d : Meth.SDim) [NeZero d.count]
    (hev : d.count % 2 = 0) (hsw : 0 < d.sw) (junk junk' : ℕ → Phys → List Trans.Tr → ℕ → ℕ → ℂ) (l l' : List (Run.Sys Phys (List Trans.Tr)))
    (ht : List.Forall₂ (fun s s' => Spec.TurnedSys (Spec.uprightSys s) (Spec.uprightSys s')) l l')
    (hl : ∀ s ∈ l, Spec.Given lib s) (hl' : ∀ s ∈ l', Spec.Given lib s)
    (hu : ∀ a ∈ l, ∀ b ∈ l, c ∈ a.isotopes → c ∈ b.isotopes → a.isotopes.length = b.isotopes.length → a.isotopes = b.isotopes)
    (hx : ∀ s, s ∈ l ∨ s ∈ l' → ∀ x, Spec.Observed c central s.isotopes s.phys.sites x →
      Spec.Wide d (Spec.pulseLine lib c B0 (Spec.upright s.phys) x) ∧ Spec.Inside d (Spec.pulseLine lib c B0 (Spec.upright s.phys) x) ∨
        Spec.Sharp (Spec.pulseLine lib c B0 (Spec.upright s.phys) x))
    (cpu nJobs : ℤ) (hJ : 1 ≤ nJobs) :
    ∃ (v v' : ℕ → ZMod d.count → ℝ) (L : ℕ → ℝ),
      (∀ nt, Run.run (pulseEnv WC.exact TC.exact lib so c central B0 r d 4 junk nt) cpu false l nJobs = .ok [.spec (v nt)] ∧
        Run.run (pulseEnv WC.exact TC.exact lib so c central B0 r d 4 junk' nt) cpu false l' nJobs = .ok [.spec (v' nt)]) ∧
      ∀ j, 1 ≤ j → j < d.count → Tendsto (fun nt => v nt j) atTop (𝓝 (L j)) ∧ Tendsto (fun nt => v' nt j) atTop (𝓝 (L j)) := by
  have hiso : ∀ b ∈ l', ∃ a ∈ l, b.isotopes = a.isotopes := by
    intro b hb
    obtain ⟨i, hi, e⟩ := List.mem_iff_getElem.mp hb
    have h2 := List.forall₂_iff_get.mp ht
    have hi' : i < l.length := by rw [h2.1]; exact hi
    have := h2.2 i hi' hi
    simp only [List.get_eq_getElem, e] at this
    exact ⟨_, List.getElem_mem hi', this.isotopes⟩
  have hu' : ∀ a ∈ l', ∀ b ∈ l', c ∈ a.isotopes → c ∈ b.isotopes → a.isotopes.length = b.isotopes.length → a.isotopes = b.isotopes := by
    intro a ha b hb
    obtain ⟨a0, ha0, ea⟩ := hiso a ha
    obtain ⟨b0, hb0, eb⟩ := hiso b hb
    rw [ea, eb]
    exact hu a0 ha0 b0 hb0
  obtain ⟨v, h1, -, h2⟩ := C96_tilted_partial lib so c hγ central hcen B0 r hr d hev hsw 4 junk l hl hu (Or.inl rfl)
    (fun s hs => hx s (Or.inl hs)) cpu nJobs hJ
  obtain ⟨v', h1', -, h2'⟩ := C96_tilted_partial lib so c hγ central hcen B0 r hr d hev hsw 4 junk' l' hl' hu' (Or.inl rfl)
    (fun s hs => hx s (Or.inr hs)) cpu nJobs hJ
  refine ⟨v, v', _, fun nt => ⟨h1 nt, h1' nt⟩, fun j hj hjn => ⟨h2 j hj hjn, ?_⟩⟩
  refine (h2' j hj hjn).trans (le_of_eq ?_)
  congr 1
  refine sum_turned _ _ _ l l' ht fun s hs s' hs' h => ?_
  have hi : s'.isotopes = s.isotopes := h.isotopes
  have ha : s'.abundance = s.abundance := h.abundance
  have ho := observed_turned c central s s' h
  rw [ha]
  by_cases hc : c ∈ s.isotopes
  · rw [if_pos hc, if_pos (hi ▸ hc)]
    congr 1
    refine finsum_congr fun x => ?_
    refine finsum_congr_Prop (propext (ho x)) fun hxo => ?_
    congr 1
    exact pattern_turned lib c central B0 d j (Spec.uprightSys s) (Spec.uprightSys s') (upright_sound lib s (hl s hs))
      (upright_sound lib s' (hl' s' hs')) h x (observed_n c central _ _ _ (absSite_n _) x hxo)
  · rw [if_neg hc, if_neg (hi ▸ hc)]

/-- Spinning samples whose spin systems differ, without the signs of the angles, by rotations. -/
theorem turned_spinning (lib : Library) (so : Trans.SetOrder) (c : String) (hγ : lib.gamma c ≠ 0) (central : Bool)
    (hcen : central = true → lib.twoI c % 2 = 1) (B0 νr θ : ℝ) (hr : 1 / 1000 ≤ νr) (d : Meth.SDim) [NeZero d.count]
    (hev : d.count % 2 = 0) (hsw : 0 < d.sw) (junk junk' : ℕ → ℕ → Phys → List Trans.Tr → ℕ → ℕ → ℂ)
    (l l' : List (Run.Sys Phys (List Trans.Tr)))
    (ht : List.Forall₂ (fun s s' => Spec.TurnedSys (Spec.uprightSys s) (Spec.uprightSys s')) l l')
    (hl : ∀ s ∈ l, Spec.Given lib s) (hl' : ∀ s ∈ l', Spec.Given lib s)
    (hu : ∀ a ∈ l, ∀ b ∈ l, c ∈ a.isotopes → c ∈ b.isotopes → a.isotopes.length = b.isotopes.length → a.isotopes = b.isotopes)
    (hx : ∀ s, s ∈ l ∨ s ∈ l' → ∀ x, Spec.Observed c central s.isotopes s.phys.sites x →
      Spec.Wide d (Spec.spunLine lib c B0 νr θ (Spec.upright s.phys) x) ∨ Spec.Sharp (Spec.spunLine lib c B0 νr θ (Spec.upright s.phys) x))
    (cpu nJobs : ℤ) (hJ : 1 ≤ nJobs) :
    ∃ (v v' : ℕ → ℕ → ZMod d.count → ℝ),
      (∀ n nt, Run.run (pulseEnv WC.exact TC.exact lib so c central B0 ⟨n + 2, inferInstance, νr, θ⟩ d 4 (junk n) nt) cpu false l nJobs
          = .ok [.spec (v n nt)] ∧
        Run.run (pulseEnv WC.exact TC.exact lib so c central B0 ⟨n + 2, inferInstance, νr, θ⟩ d 4 (junk' n) nt) cpu false l' nJobs
          = .ok [.spec (v' n nt)]) ∧
      ∀ j, 1 ≤ j → j < d.count → ∀ ε > 0, ∃ n0, ∀ n, n0 ≤ n → ∃ nt0, ∀ nt, nt0 ≤ nt → |v' n nt j - v n nt j| < ε := by
  have hν : 0 < νr := by linarith
  have hiso : ∀ b ∈ l', ∃ a ∈ l, b.isotopes = a.isotopes := by
    intro b hb
    obtain ⟨i, hi, e⟩ := List.mem_iff_getElem.mp hb
    have h2 := List.forall₂_iff_get.mp ht
    have hi' : i < l.length := by rw [h2.1]; exact hi
    have := h2.2 i hi' hi
    simp only [List.get_eq_getElem, e] at this
    exact ⟨_, List.getElem_mem hi', this.isotopes⟩
  have hu' : ∀ a ∈ l', ∀ b ∈ l', c ∈ a.isotopes → c ∈ b.isotopes → a.isotopes.length = b.isotopes.length → a.isotopes = b.isotopes := by
    intro a ha b hb
    obtain ⟨a0, ha0, ea⟩ := hiso a ha
    obtain ⟨b0, hb0, eb⟩ := hiso b hb
    rw [ea, eb]
    exact hu a0 ha0 b0 hb0
  obtain ⟨L, h1, h2⟩ := C96_tilted_spinning_partial lib so c hγ central hcen B0 νr θ hr d hev hsw 4 junk l hl hu (Or.inl rfl)
    (fun s hs => hx s (Or.inl hs)) cpu nJobs hJ
  obtain ⟨L', h1', h2'⟩ := C96_tilted_spinning_partial lib so c hγ central hcen B0 νr θ hr d hev hsw 4 junk' l' hl' hu' (Or.inl rfl)
    (fun s hs => hx s (Or.inr hs)) cpu nJobs hJ
  choose v hv1 _ hv2 using h1
  choose v' hv1' _ hv2' using h1'
  refine ⟨v, v', fun n nt => ⟨hv1 n nt, hv1' n nt⟩, fun j hj hjn ε hε => ?_⟩
  have hsame : Tendsto (fun n => L' n j - L n j) atTop (𝓝 0) := by
    have := (h2' j hj hjn).sub (h2 j hj hjn)
    refine this.trans (le_of_eq ?_)
    congr 1
    rw [sub_eq_zero]
    refine sum_turned _ _ _ l l' ht fun s hs s' hs' h => ?_
    have hi : s'.isotopes = s.isotopes := h.isotopes
    have ha : s'.abundance = s.abundance := h.abundance
    have ho := observed_turned c central s s' h
    rw [ha]
    by_cases hc : c ∈ s.isotopes
    · rw [if_pos hc, if_pos (hi ▸ hc)]
      congr 1
      refine finsum_congr fun x => ?_
      refine finsum_congr_Prop (propext (ho x)) fun hxo => ?_
      congr 1
      refine finsum_congr fun m => ?_
      exact sidebandPattern_turned lib c central B0 νr θ hν d j (Spec.uprightSys s) (Spec.uprightSys s') (upright_sound lib s (hl s hs))
        (upright_sound lib s' (hl' s' hs')) h x (observed_n c central _ _ _ (absSite_n _) x hxo) m
    · rw [if_neg hc, if_neg (hi ▸ hc)]
  obtain ⟨n0, hn0⟩ := Metric.tendsto_atTop.mp hsame (ε / 2) (by positivity)
  refine ⟨n0, fun n hn => ?_⟩
  have hd := (hv2' n j hj hjn).sub (hv2 n j hj hjn)
  obtain ⟨nt0, hnt0⟩ := Metric.tendsto_atTop.mp hd (ε / 2) (by positivity)
  refine ⟨nt0, fun nt hnt => ?_⟩
  have := (dist_triangle _ _ _).trans_lt (add_lt_add (hnt0 nt hnt) (hn0 n hn))
  rw [add_halves, Real.dist_eq, sub_zero] at this
  exact this

/-! ## Property -/

/-- **C101 (at rest), partial.** Two samples at rest, whose spin systems differ by rotations of all tensors of a system together, a rotation for each
system: for any contents of the allocated memory the two computed spectra converge with the integration density to the same intensities.
Missing: one octant, for which it is false (C78); tilts by negative angles, for which it is false (C77) unless there is one tensor only
(`C101_lone_partial`); lines that the code takes for sharp in one of the orientations, for which it is false (`C101_counterexample`); odd
numbers of points (C33); point 0 (C88); the tabulated decimals. -/
theorem C101_static_partial (lib : Library) (so : Trans.SetOrder) (c : String) (hγ : lib.gamma c ≠ 0) (central : Bool)
    (hcen : central = true → lib.twoI c % 2 = 1) (B0 : ℝ) (r : Rotor) (hr : r.freq < 1 / 1000) (d : Meth.SDim) [NeZero d.count]
    (hev : d.count % 2 = 0) (hsw : 0 < d.sw) (junk junk' : ℕ → Phys → List Trans.Tr → ℕ → ℕ → ℂ) (l l' : List (Run.Sys Phys (List Trans.Tr)))
    (ht : List.Forall₂ Spec.TurnedSys l l') (hl : ∀ s ∈ l, Spec.Sound lib s) (hl' : ∀ s ∈ l', Spec.Sound lib s)
    (hu : ∀ a ∈ l, ∀ b ∈ l, c ∈ a.isotopes → c ∈ b.isotopes → a.isotopes.length = b.isotopes.length → a.isotopes = b.isotopes)
    (hx : ∀ s, s ∈ l ∨ s ∈ l' → ∀ x, Spec.Observed c central s.isotopes s.phys.sites x →
      Spec.Wide d (Spec.pulseLine lib c B0 s.phys x) ∧ Spec.Inside d (Spec.pulseLine lib c B0 s.phys x) ∨
        Spec.Sharp (Spec.pulseLine lib c B0 s.phys x))
    (cpu nJobs : ℤ) (hJ : 1 ≤ nJobs) :
    ∃ (v v' : ℕ → ZMod d.count → ℝ) (L : ℕ → ℝ),
      (∀ nt, Run.run (pulseEnv WC.exact TC.exact lib so c central B0 r d 4 junk nt) cpu false l nJobs = .ok [.spec (v nt)] ∧
        Run.run (pulseEnv WC.exact TC.exact lib so c central B0 r d 4 junk' nt) cpu false l' nJobs = .ok [.spec (v' nt)]) ∧
      ∀ j, 1 ≤ j → j < d.count → Tendsto (fun nt => v nt j) atTop (𝓝 (L j)) ∧ Tendsto (fun nt => v' nt j) atTop (𝓝 (L j)) := by
  refine turned_static lib so c hγ central hcen B0 r hr d hev hsw junk junk' l l' (forall₂_members _ _ l l' ht fun a ha b hb h => ?_)
    (fun s hs => (hl s hs).given) (fun s hs => (hl' s hs).given) hu (fun s hs x hxo => ?_) cpu nJobs hJ
  · rw [uprightSys_id lib a (hl a ha), uprightSys_id lib b (hl' b hb)]
    exact h
  · rw [upright_id lib s (hs.elim (hl s) (hl' s))]
    exact hx s hs x hxo

/-- **C101 (spinning), partial.** The same for samples that spin about any axis: for enough sidebands, and then at a high enough integration density,
the two computed spectra differ by less than any `ε`.
Missing: as for `C101_static_partial`. -/
theorem C101_spinning_partial (lib : Library) (so : Trans.SetOrder) (c : String) (hγ : lib.gamma c ≠ 0) (central : Bool)
    (hcen : central = true → lib.twoI c % 2 = 1) (B0 νr θ : ℝ) (hr : 1 / 1000 ≤ νr) (d : Meth.SDim) [NeZero d.count]
    (hev : d.count % 2 = 0) (hsw : 0 < d.sw) (junk junk' : ℕ → ℕ → Phys → List Trans.Tr → ℕ → ℕ → ℂ)
    (l l' : List (Run.Sys Phys (List Trans.Tr))) (ht : List.Forall₂ Spec.TurnedSys l l')
    (hl : ∀ s ∈ l, Spec.Sound lib s) (hl' : ∀ s ∈ l', Spec.Sound lib s)
    (hu : ∀ a ∈ l, ∀ b ∈ l, c ∈ a.isotopes → c ∈ b.isotopes → a.isotopes.length = b.isotopes.length → a.isotopes = b.isotopes)
    (hx : ∀ s, s ∈ l ∨ s ∈ l' → ∀ x, Spec.Observed c central s.isotopes s.phys.sites x →
      Spec.Wide d (Spec.spunLine lib c B0 νr θ s.phys x) ∨ Spec.Sharp (Spec.spunLine lib c B0 νr θ s.phys x))
    (cpu nJobs : ℤ) (hJ : 1 ≤ nJobs) :
    ∃ (v v' : ℕ → ℕ → ZMod d.count → ℝ),
      (∀ n nt, Run.run (pulseEnv WC.exact TC.exact lib so c central B0 ⟨n + 2, inferInstance, νr, θ⟩ d 4 (junk n) nt) cpu false l nJobs
          = .ok [.spec (v n nt)] ∧
        Run.run (pulseEnv WC.exact TC.exact lib so c central B0 ⟨n + 2, inferInstance, νr, θ⟩ d 4 (junk' n) nt) cpu false l' nJobs
          = .ok [.spec (v' n nt)]) ∧
      ∀ j, 1 ≤ j → j < d.count → ∀ ε > 0, ∃ n0, ∀ n, n0 ≤ n → ∃ nt0, ∀ nt, nt0 ≤ nt → |v' n nt j - v n nt j| < ε := by
  refine turned_spinning lib so c hγ central hcen B0 νr θ hr d hev hsw junk junk' l l' (forall₂_members _ _ l l' ht fun a ha b hb h => ?_)
    (fun s hs => (hl s hs).given) (fun s hs => (hl' s hs).given) hu (fun s hs x hxo => ?_) cpu nJobs hJ
  · rw [uprightSys_id lib a (hl a ha), uprightSys_id lib b (hl' b hb)]
    exact h
  · rw [upright_id lib s (hs.elim (hl s) (hl' s))]
    exact hx s hs x hxo

/-- **C101 (one tensor), partial.** The Euler angles, of any sign, of spin systems of one site with one tensor have no effect on the spectrum
of a powder at rest: those that the user gives can be left out.
Missing: as for `C101_static_partial`, except for the signs. -/
theorem C101_lone_partial (lib : Library) (so : Trans.SetOrder) (c : String) (hγ : lib.gamma c ≠ 0) (central : Bool)
    (hcen : central = true → lib.twoI c % 2 = 1) (B0 : ℝ) (r : Rotor) (hr : r.freq < 1 / 1000) (d : Meth.SDim) [NeZero d.count]
    (hev : d.count % 2 = 0) (hsw : 0 < d.sw) (junk junk' : ℕ → Phys → List Trans.Tr → ℕ → ℕ → ℂ) (l l' : List (Run.Sys Phys (List Trans.Tr)))
    (ht : List.Forall₂ Spec.Lone l l') (hl : ∀ s ∈ l, Spec.Given lib s) (hl' : ∀ s ∈ l', Spec.Given lib s)
    (hu : ∀ a ∈ l, ∀ b ∈ l, c ∈ a.isotopes → c ∈ b.isotopes → a.isotopes.length = b.isotopes.length → a.isotopes = b.isotopes)
    (hx : ∀ s, s ∈ l ∨ s ∈ l' → ∀ x, Spec.Observed c central s.isotopes s.phys.sites x →
      Spec.Wide d (Spec.pulseLine lib c B0 (Spec.upright s.phys) x) ∧ Spec.Inside d (Spec.pulseLine lib c B0 (Spec.upright s.phys) x) ∨
        Spec.Sharp (Spec.pulseLine lib c B0 (Spec.upright s.phys) x))
    (cpu nJobs : ℤ) (hJ : 1 ≤ nJobs) :
    ∃ (v v' : ℕ → ZMod d.count → ℝ) (L : ℕ → ℝ),
      (∀ nt, Run.run (pulseEnv WC.exact TC.exact lib so c central B0 r d 4 junk nt) cpu false l nJobs = .ok [.spec (v nt)] ∧
        Run.run (pulseEnv WC.exact TC.exact lib so c central B0 r d 4 junk' nt) cpu false l' nJobs = .ok [.spec (v' nt)]) ∧
      ∀ j, 1 ≤ j → j < d.count → Tendsto (fun nt => v nt j) atTop (𝓝 (L j)) ∧ Tendsto (fun nt => v' nt j) atTop (𝓝 (L j)) :=
  turned_static lib so c hγ central hcen B0 r hr d hev hsw junk junk' l l' (ht.imp fun a b h => lone_turned a b h) hl hl' hu hx cpu nJobs hJ

/-- **C101 (one tensor, spinning), partial.** The same for samples that spin about any axis.
Missing: as for `C101_lone_partial`. -/
theorem C101_lone_spinning_partial (lib : Library) (so : Trans.SetOrder) (c : String) (hγ : lib.gamma c ≠ 0) (central : Bool)
    (hcen : central = true → lib.twoI c % 2 = 1) (B0 νr θ : ℝ) (hr : 1 / 1000 ≤ νr) (d : Meth.SDim) [NeZero d.count]
    (hev : d.count % 2 = 0) (hsw : 0 < d.sw) (junk junk' : ℕ → ℕ → Phys → List Trans.Tr → ℕ → ℕ → ℂ)
    (l l' : List (Run.Sys Phys (List Trans.Tr))) (ht : List.Forall₂ Spec.Lone l l')
    (hl : ∀ s ∈ l, Spec.Given lib s) (hl' : ∀ s ∈ l', Spec.Given lib s)
    (hu : ∀ a ∈ l, ∀ b ∈ l, c ∈ a.isotopes → c ∈ b.isotopes → a.isotopes.length = b.isotopes.length → a.isotopes = b.isotopes)
    (hx : ∀ s, s ∈ l ∨ s ∈ l' → ∀ x, Spec.Observed c central s.isotopes s.phys.sites x →
      Spec.Wide d (Spec.spunLine lib c B0 νr θ (Spec.upright s.phys) x) ∨ Spec.Sharp (Spec.spunLine lib c B0 νr θ (Spec.upright s.phys) x))
    (cpu nJobs : ℤ) (hJ : 1 ≤ nJobs) :
    ∃ (v v' : ℕ → ℕ → ZMod d.count → ℝ),
      (∀ n nt, Run.run (pulseEnv WC.exact TC.exact lib so c central B0 ⟨n + 2, inferInstance, νr, θ⟩ d 4 (junk n) nt) cpu false l nJobs
          = .ok [.spec (v n nt)] ∧
        Run.run (pulseEnv WC.exact TC.exact lib so c central B0 ⟨n + 2, inferInstance, νr, θ⟩ d 4 (junk' n) nt) cpu false l' nJobs
          = .ok [.spec (v' n nt)]) ∧
      ∀ j, 1 ≤ j → j < d.count → ∀ ε > 0, ∃ n0, ∀ n, n0 ≤ n → ∃ nt0, ∀ nt, nt0 ≤ nt → |v' n nt j - v n nt j| < ε :=
  turned_spinning lib so c hγ central hcen B0 νr θ hr d hev hsw junk junk' l l' (ht.imp fun a b h => lone_turned a b h) hl hl' hu hx cpu nJobs hJ

/-! ### Examples -/

theorem example_wide (a : ℚ) (x : List ℕ × List ℕ) (hx : Spec.Observed "15N" false (exampleSys a).isotopes (exampleSys a).phys.sites x) :
    Spec.Wide ⟨512, 8, 0, none⟩ (Spec.pulseLine exampleLib "15N" 1 (exampleSys a).phys x) ∧
      Spec.Inside ⟨512, 8, 0, none⟩ (Spec.pulseLine exampleLib "15N" 1 (exampleSys a).phys x) := by
  rw [(example_observed a x).mp hx]
  constructor
  · left
    rw [example_recorded, example_recorded]
    norm_num
  · unfold Spec.Inside
    rw [example_mean]
    norm_num

theorem example_spun (a : ℚ) (p : ℝ × ℝ) : Spec.spunLine exampleLib "15N" 1 1 (Real.pi / 2) (exampleSys a).phys ([1], [0]) p
    = -1 / 2 * (Real.sin p.2 ^ 2 * Real.cos p.1 ^ 2 - Real.cos p.2 ^ 2) := by
  rw [← poleSite_spun]
  unfold Spec.spunLine Spec.average
  have e : Spec.momentary true 1 p.1 p.2 (Real.pi / 2) 1 (exampleSys a).phys.sites (exampleSys a).phys.couplings [1] [0]
      = fun τ => -Spec.momentary false 1 p.1 p.2 (Real.pi / 2) 1 [poleSite] [] [0] [1] τ := funext (example_momentary _ _ _ _)
  simp only [e]
  rw [intervalIntegral.integral_neg]
  simp [exampleLib]
  norm_num

theorem example_spun_wide (a : ℚ) (x : List ℕ × List ℕ) (hx : Spec.Observed "15N" false (exampleSys a).isotopes (exampleSys a).phys.sites x) :
    Spec.Wide ⟨512, 8, 0, none⟩ (Spec.spunLine exampleLib "15N" 1 1 (Real.pi / 2) (exampleSys a).phys x) := by
  rw [(example_observed a x).mp hx]
  left
  rw [example_spun, example_spun]
  norm_num

/-- The site of the examples, and the same tilted by a right angle. -/
noncomputable def fallenSys (a : ℚ) : Run.Sys Phys (List Trans.Tr) := Spec.uprightSys (tiltedSys a)

theorem fallen_sound (a : ℚ) : Spec.Sound exampleLib (fallenSys a) := upright_sound _ _ (tilted_given a)

theorem fallen_turned (a : ℚ) : Spec.TurnedSys (exampleSys a) (fallenSys a) := by
  obtain ⟨Q, hQ, hT⟩ := rotation_between poleSite.Θs fallenSite.Θs
  refine ⟨rfl, rfl, Q, hQ, ?_⟩
  unfold fallenSys Spec.uprightSys
  rw [tilted_upright]
  exact ⟨List.Forall₂.cons ⟨rfl, Or.inr hT, Or.inl le_rfl⟩ List.Forall₂.nil, List.Forall₂.nil⟩

theorem tilted_lone (a : ℚ) : Spec.Lone (exampleSys a) (tiltedSys a) :=
  ⟨rfl, rfl, poleSite, tiltedSite, rfl, rfl, rfl, Or.inr (Or.inl le_rfl)⟩

/-- A sample with the site and one with the tilted site, at rest. -/
example (so : Trans.SetOrder) (junk junk' : ℕ → Phys → List Trans.Tr → ℕ → ℕ → ℂ) (cpu : ℤ) :
    haveI : NeZero (Meth.SDim.count ⟨512, 8, 0, none⟩) := ⟨by norm_num⟩
    ∃ (v v' : ℕ → ZMod 512 → ℝ) (L : ℕ → ℝ),
      (∀ nt, Run.run (pulseEnv WC.exact TC.exact exampleLib so "15N" false 1 exampleStill ⟨512, 8, 0, none⟩ 4 junk nt) cpu false
          [exampleSys 70, exampleSys 30] 4 = .ok [.spec (v nt)] ∧
        Run.run (pulseEnv WC.exact TC.exact exampleLib so "15N" false 1 exampleStill ⟨512, 8, 0, none⟩ 4 junk' nt) cpu false
          [fallenSys 70, fallenSys 30] 4 = .ok [.spec (v' nt)]) ∧
      ∀ j : ℕ, 1 ≤ j → j < 512 → Tendsto (fun nt => v nt j) atTop (𝓝 (L j)) ∧ Tendsto (fun nt => v' nt j) atTop (𝓝 (L j)) := by
  have : NeZero (Meth.SDim.count ⟨512, 8, 0, none⟩) := ⟨by norm_num⟩
  refine C101_static_partial exampleLib so "15N" (by norm_num [exampleLib]) false (by simp) 1 exampleStill (by norm_num [exampleStill])
    ⟨512, 8, 0, none⟩ (by norm_num) (by norm_num) junk junk' _ _
    (List.Forall₂.cons (fallen_turned 70) (List.Forall₂.cons (fallen_turned 30) List.Forall₂.nil)) ?_ ?_ ?_ ?_ cpu 4 (by norm_num)
  · intro s hs
    simp only [List.mem_cons, List.not_mem_nil, or_false] at hs
    rcases hs with rfl | rfl <;> exact example_sound _
  · intro s hs
    simp only [List.mem_cons, List.not_mem_nil, or_false] at hs
    rcases hs with rfl | rfl <;> exact fallen_sound _
  · intro a ha b hb _ _ _
    simp only [List.mem_cons, List.not_mem_nil, or_false] at ha hb
    rcases ha with rfl | rfl <;> rcases hb with rfl | rfl <;> rfl
  · intro s hs x hx
    simp only [List.mem_cons, List.not_mem_nil, or_false] at hs
    left
    rcases hs with (rfl | rfl) | rfl | rfl
    · exact example_wide _ x hx
    · exact example_wide _ x hx
    · exact tilted_wide 70 x ((tilted_observed 70 x).mpr ((example_observed 70 x).mp
        ((observed_iff "15N" false ["15N"] [poleSite] (fallenSys 70).phys.sites rfl x).mp hx)))
    · exact tilted_wide 30 x ((tilted_observed 30 x).mpr ((example_observed 30 x).mp
        ((observed_iff "15N" false ["15N"] [poleSite] (fallenSys 30).phys.sites rfl x).mp hx)))

/-- The same, spinning at a right angle to the field. -/
example (so : Trans.SetOrder) (junk junk' : ℕ → ℕ → Phys → List Trans.Tr → ℕ → ℕ → ℂ) (cpu : ℤ) :
    haveI : NeZero (Meth.SDim.count ⟨512, 8, 0, none⟩) := ⟨by norm_num⟩
    ∃ (v v' : ℕ → ℕ → ZMod 512 → ℝ),
      (∀ n nt, Run.run (pulseEnv WC.exact TC.exact exampleLib so "15N" false 1 ⟨n + 2, inferInstance, 1, Real.pi / 2⟩ ⟨512, 8, 0, none⟩ 4 (junk n) nt)
          cpu false [exampleSys 70] 4 = .ok [.spec (v n nt)] ∧
        Run.run (pulseEnv WC.exact TC.exact exampleLib so "15N" false 1 ⟨n + 2, inferInstance, 1, Real.pi / 2⟩ ⟨512, 8, 0, none⟩ 4 (junk' n) nt)
          cpu false [fallenSys 70] 4 = .ok [.spec (v' n nt)]) ∧
      ∀ ε > 0, ∃ n0, ∀ n, n0 ≤ n → ∃ nt0, ∀ nt, nt0 ≤ nt → |v' n nt 300 - v n nt 300| < ε := by
  have : NeZero (Meth.SDim.count ⟨512, 8, 0, none⟩) := ⟨by norm_num⟩
  obtain ⟨v, v', h1, h2⟩ := C101_spinning_partial exampleLib so "15N" (by norm_num [exampleLib]) false (by simp) 1 1 (Real.pi / 2) (by norm_num)
    ⟨512, 8, 0, none⟩ (by norm_num) (by norm_num) junk junk' [exampleSys 70] [fallenSys 70]
    (List.Forall₂.cons (fallen_turned 70) List.Forall₂.nil)
    (fun s hs => by rw [List.mem_singleton.mp hs]; exact example_sound _) (fun s hs => by rw [List.mem_singleton.mp hs]; exact fallen_sound _)
    (fun a ha b hb _ _ _ => by rw [List.mem_singleton.mp ha, List.mem_singleton.mp hb])
    (fun s hs x hx => by
      left
      rcases hs with hs | hs
      · rw [List.mem_singleton.mp hs] at hx ⊢
        exact example_spun_wide _ x hx
      · rw [List.mem_singleton.mp hs] at hx ⊢
        exact tilted_spun_wide 70 x ((tilted_observed 70 x).mpr ((example_observed 70 x).mp
          ((observed_iff "15N" false ["15N"] [poleSite] (fallenSys 70).phys.sites rfl x).mp hx)))) cpu 4 (by norm_num)
  exact ⟨v, v', h1, h2 300 (by norm_num) (by norm_num)⟩

/-- A sample with the site and one with the site tilted by a negative angle, at rest. -/
example (so : Trans.SetOrder) (junk junk' : ℕ → Phys → List Trans.Tr → ℕ → ℕ → ℂ) (cpu : ℤ) :
    haveI : NeZero (Meth.SDim.count ⟨512, 8, 0, none⟩) := ⟨by norm_num⟩
    ∃ (v v' : ℕ → ZMod 512 → ℝ) (L : ℕ → ℝ),
      (∀ nt, Run.run (pulseEnv WC.exact TC.exact exampleLib so "15N" false 1 exampleStill ⟨512, 8, 0, none⟩ 4 junk nt) cpu false
          [exampleSys 70] 4 = .ok [.spec (v nt)] ∧
        Run.run (pulseEnv WC.exact TC.exact exampleLib so "15N" false 1 exampleStill ⟨512, 8, 0, none⟩ 4 junk' nt) cpu false
          [tiltedSys 70] 4 = .ok [.spec (v' nt)]) ∧
      ∀ j : ℕ, 1 ≤ j → j < 512 → Tendsto (fun nt => v nt j) atTop (𝓝 (L j)) ∧ Tendsto (fun nt => v' nt j) atTop (𝓝 (L j)) := by
  have : NeZero (Meth.SDim.count ⟨512, 8, 0, none⟩) := ⟨by norm_num⟩
  exact C101_lone_partial exampleLib so "15N" (by norm_num [exampleLib]) false (by simp) 1 exampleStill (by norm_num [exampleStill])
    ⟨512, 8, 0, none⟩ (by norm_num) (by norm_num) junk junk' _ _ (List.Forall₂.cons (tilted_lone 70) List.Forall₂.nil)
    (fun s hs => by rw [List.mem_singleton.mp hs]; exact (example_sound _).given)
    (fun s hs => by rw [List.mem_singleton.mp hs]; exact tilted_given _)
    (fun a ha b hb _ _ _ => by rw [List.mem_singleton.mp ha, List.mem_singleton.mp hb])
    (fun s hs x hx => by
      left
      rcases hs with hs | hs
      · rw [List.mem_singleton.mp hs] at hx ⊢
        rw [upright_id _ _ (example_sound _)]
        exact example_wide _ x hx
      · rw [List.mem_singleton.mp hs] at hx ⊢
        exact tilted_wide _ x hx) cpu 4 (by norm_num)

/-- The same, spinning at a right angle to the field. -/
example (so : Trans.SetOrder) (junk junk' : ℕ → ℕ → Phys → List Trans.Tr → ℕ → ℕ → ℂ) (cpu : ℤ) :
    haveI : NeZero (Meth.SDim.count ⟨512, 8, 0, none⟩) := ⟨by norm_num⟩
    ∃ (v v' : ℕ → ℕ → ZMod 512 → ℝ),
      (∀ n nt, Run.run (pulseEnv WC.exact TC.exact exampleLib so "15N" false 1 ⟨n + 2, inferInstance, 1, Real.pi / 2⟩ ⟨512, 8, 0, none⟩ 4 (junk n) nt)
          cpu false [exampleSys 70] 4 = .ok [.spec (v n nt)] ∧
        Run.run (pulseEnv WC.exact TC.exact exampleLib so "15N" false 1 ⟨n + 2, inferInstance, 1, Real.pi / 2⟩ ⟨512, 8, 0, none⟩ 4 (junk' n) nt)
          cpu false [tiltedSys 70] 4 = .ok [.spec (v' n nt)]) ∧
      ∀ ε > 0, ∃ n0, ∀ n, n0 ≤ n → ∃ nt0, ∀ nt, nt0 ≤ nt → |v' n nt 300 - v n nt 300| < ε := by
  have : NeZero (Meth.SDim.count ⟨512, 8, 0, none⟩) := ⟨by norm_num⟩
  obtain ⟨v, v', h1, h2⟩ := C101_lone_spinning_partial exampleLib so "15N" (by norm_num [exampleLib]) false (by simp) 1 1 (Real.pi / 2) (by norm_num)
    ⟨512, 8, 0, none⟩ (by norm_num) (by norm_num) junk junk' [exampleSys 70] [tiltedSys 70]
    (List.Forall₂.cons (tilted_lone 70) List.Forall₂.nil)
    (fun s hs => by rw [List.mem_singleton.mp hs]; exact (example_sound _).given) (fun s hs => by rw [List.mem_singleton.mp hs]; exact tilted_given _)
    (fun a ha b hb _ _ _ => by rw [List.mem_singleton.mp ha, List.mem_singleton.mp hb])
    (fun s hs x hx => by
      left
      rcases hs with hs | hs
      · rw [List.mem_singleton.mp hs] at hx ⊢
        rw [upright_id _ _ (example_sound _)]
        exact example_spun_wide _ x hx
      · rw [List.mem_singleton.mp hs] at hx ⊢
        exact tilted_spun_wide 70 x hx) cpu 4 (by norm_num)
  exact ⟨v, v', h1, h2 300 (by norm_num) (by norm_num)⟩

/-! ### Where the code disagrees -/

/-- The tensor of `diagonalSite` along an axis of the common frame. -/
noncomputable def alignedSite : Site := { diagonalSite with Θs := ⟨0, 0, 0⟩ }

/-- **C101, where the code disagrees.** The same tensor along an axis and along the diagonal of the common frame: at rest, point 205 of the first
converges to a positive intensity and point 205 of the second is empty for every integration density. -/
theorem C101_counterexample :
    (∃ Q, Spec.Rotation Q ∧ Spec.TurnedSite Q alignedSite diagonalSite) ∧ alignedSite.Upright ∧ diagonalSite.Upright ∧
    ∀ (nOct : ℕ) (junk : ℕ → ℕ → ℕ → ℂ), nOct = 1 ∨ nOct = 4 →
      (∃ L > 0, Tendsto (fun nt => Bin.val 205 (spectrum WC.exact false nt nOct 1 0 1 0 101 256 512 (startRows false (junk nt) nt)
        (components WC.exact TC.exact false 1 [alignedSite] [] (Spec.quantum [alignedSite] [0]) (Spec.quantum [alignedSite] [1])))) atTop (𝓝 L)) ∧
      ∀ nt, 1 ≤ nt → Bin.val 205 (spectrum WC.exact false nt nOct 1 0 1 0 101 256 512 (startRows false (junk nt) nt)
        (components WC.exact TC.exact false 1 [diagonalSite] [] (Spec.quantum [diagonalSite] [0]) (Spec.quantum [diagonalSite] [1]))) = 0 := by
  obtain ⟨hd, hz, -⟩ := C88_counterexample
  have hup : alignedSite.Upright := ⟨le_rfl, le_rfl⟩
  refine ⟨?_, hup, hd, fun nOct junk hO => ⟨?_, ?_⟩⟩
  · obtain ⟨Q, hQ, hT⟩ := rotation_between alignedSite.Θs diagonalSite.Θs
    exact ⟨Q, hQ, rfl, Or.inr hT, Or.inl le_rfl⟩
  · have hl : ∀ p : ℝ × ℝ, Spec.line false 1 [alignedSite] [] [0] [1] p = 1 / 2 - 3 / 2 * Real.cos p.2 ^ 2 := by
      intro p
      have := axial_line 0 0 p
      simp only [Real.sin_zero, Real.cos_zero, zero_mul, mul_zero, add_zero, sub_zero, one_mul] at this
      exact this
    have hs : Spec.IsState [alignedSite] [0] ∧ Spec.IsState [alignedSite] [1] ∧ ∀ s ∈ [alignedSite], s.Upright ∧ 1 ≤ s.n := by
      refine ⟨by unfold Spec.IsState alignedSite diagonalSite; simp, by unfold Spec.IsState alignedSite diagonalSite; simp, ?_⟩
      intro s hs
      rw [List.mem_singleton.mp hs]
      exact ⟨hup, le_rfl⟩
    have hiso : (components WC.exact TC.exact false 1 [alignedSite] [] (Spec.quantum [alignedSite] [0]) (Spec.quantum [alignedSite] [1])).R0 = 0 := by
      norm_num [components, addSites, addSite, alignedSite, diagonalSite, Spec.quantum, shieldingPart, addT, zeroT, fcf, ssotShielding]
      split_ifs <;> simp [scaleT]
    have hmean : Spec.sphereMean (Spec.line false 1 [alignedSite] [] [0] [1]) = 0 := by
      rw [← hiso, ← dirFreq_mean WC.exact false 1 0]
      congr 1
      funext p
      exact (C73_energies_partial false 1 p.1 p.2 [alignedSite] [] [0] [1] hs.1 hs.2.1 hs.2.2 (by simp)).symm
    refine ⟨_, ?_, (C88_static_partial false 1 [alignedSite] [] [0] [1] hs.1 hs.2.1 hs.2.2 (by simp) nOct
      (hO.elim (fun h => Or.inr ⟨h, by simp [Spec.Unturned, alignedSite, diagonalSite]⟩) Or.inl) junk 0 101 256 512 205 (by norm_num) (by norm_num) ?_ ?_ ?_).2⟩
    · refine mul_pos (by positivity) (positive_mean _ ?_ _ _ (Real.pi / 2, Real.arccos (√(333 / 500))) ?_ ?_ ?_)
      · simp only [hl]
        fun_prop
      · have h1 : √(333 / 500 : ℝ) < 1 := by
          rw [Real.sqrt_lt' one_pos]
          norm_num
        have h0 := Real.sqrt_nonneg (333 / 500 : ℝ)
        have hpi := Real.pi_pos
        refine ⟨⟨by positivity, by linarith⟩, Real.arccos_pos.mpr h1, ?_⟩
        have : Real.arccos √(333 / 500) ≤ Real.pi / 2 := Real.arccos_le_pi_div_two.mpr h0
        show Real.arccos √(333 / 500) < Real.pi
        linarith
      all_goals
        have h1 : √(333 / 500 : ℝ) ≤ 1 := Real.sqrt_le_one.mpr (by norm_num)
        have h0 := Real.sqrt_nonneg (333 / 500 : ℝ)
        simp only [hl]
        rw [Real.cos_arccos (by linarith) h1, Real.sq_sqrt (by norm_num)]
        norm_num
    · simp only [hl]
      norm_num
    · rw [hmean]
      norm_num
    · exact Or.inl (by norm_num)
  · intro nt hnt
    obtain ⟨u, hu, h0⟩ := hz nt nOct (junk nt) hnt hO
    rw [hu]
    exact h0

end MRS.Freq
