import Verif.Freq.RunMap
import Verif.Freq.Positive
import Verif.Bin.Positive2D

/-!
# Maps are not negative — property C109
-/

namespace MRS.Freq

open Complex

theorem eventAmplitude_nonneg (W : WC) (four : Bool) (nt nOct N : ℕ) [NeZero N] (νr cθ sθ : ℝ) (bs : List Block) (a : ℕ) :
    0 ≤ eventAmplitude W four nt nOct N νr cθ sθ bs a := by
  unfold eventAmplitude
  simp only
  split_ifs
  · exact zero_le_one
  · split
    · exact le_rfl
    · exact (sidebandAmps_bounds _ _).1

theorem normAmplitude_nonneg (nt nOct N : ℕ) (hn : 1 ≤ nt) (a : ℕ) : 0 ≤ Sim.normAmplitude N nOct (Bin.weight nt (a % Bin.nPts nt)) := by
  have hq : a % Bin.nPts nt < Bin.nPts nt := Nat.mod_lt _ (by
    have := Bin.rank_lt nt (0, 0) (by simp)
    omega)
  unfold Sim.normAmplitude
  refine mul_nonneg ?_ (by positivity)
  obtain ⟨p, hp⟩ : ∃ p, (Bin.Spec.grid nt)[a % Bin.nPts nt]? = some p := by
    obtain ⟨j, q, p, α, β, h1, h2, h3, -⟩ := index_dir nt 1 hn (a % Bin.nPts nt) (by omega)
    have : j = 0 := by omega
    subst this
    rw [zero_mul, zero_add] at h1
    exact ⟨p, by rw [h1]; exact h3⟩
  rw [Bin.weight_eq nt hn _ p hp]
  have := Bin.len_pos nt hn p
  positivity

theorem map2D_nonneg (W : WC) (T : TC) (four : Bool) (nt nOct nSide : ℕ) (ss : List Site) (ks : List Coupling) (inc : ℝ × ℝ) (a : List ℝ)
    (d : Dimension × Dimension) (F G : Frame) (P : ℕ → ℕ → ℂ) (path : List ℝ) (hF : ∀ q, 0 ≤ F.amp q) (hG : ∀ q, 0 ≤ G.amp q) (hm : 1 ≤ F.count)
    (r k : ℤ) (hr : r ≠ 0) (h1 : 1 ≤ k) (h2 : k < G.count) :
    0 ≤ Bin.val (r * G.count + k) (map2D W T four nt nOct nSide ss ks inc a d F G P path) := by
  unfold map2D
  split
  · exact le_rfl
  · split
    · exact le_rfl
    · exact Bin.averaging2D_nonneg _ _ _ _ _ _ hF hG hm r k hr h1 h2
    · exact le_rfl

theorem mapWrites_nonneg (W : WC) (T : TC) (lib : Library) (c : String) (B0 : ℝ) (r : Rotor2) (d : Meth.SDim × Meth.SDim) (a : List ℚ)
    (nOct : ℕ) (junk : ℕ → ℕ → ℂ) (nt : ℕ) (hn : 1 ≤ nt) (ph : Phys) (path : List Trans.Tr) (hd : 1 ≤ d.1.count) (i k : ℤ) (hi : i ≠ 0) (h1 : 1 ≤ k)
    (h2 : k < d.2.count) : 0 ≤ Bin.val (i * d.2.count + k) (mapWrites W T lib c B0 r d a nOct junk nt ph path) := by
  unfold mapWrites
  split
  · have := r.pos
    exact map2D_nonneg _ _ _ _ _ _ _ _ _ _ _ _ _ _ _ (fun q => eventAmplitude_nonneg _ _ _ _ _ _ _ _ _ _)
      (fun q => mul_nonneg (eventAmplitude_nonneg _ _ _ _ _ _ _ _ _ _) (normAmplitude_nonneg _ _ _ hn _)) hd i k hi h1 h2
  · exact le_rfl

/-- The points of a map other than those of the first row and of the first column are not negative. -/
def Spec.Lit2 {m n : ℕ} (v : ZMod m → ZMod n → ℝ) : Prop := ∀ (k : ZMod m) (l : ZMod n), k ≠ 0 → l ≠ 0 → 0 ≤ v k l

theorem map_kept (W : WC) (T : TC) (lib : Library) (so : Trans.SetOrder) (c : String) (dims : List (List Trans.Query)) (a : List ℚ)
    (B0 : ℝ) (r : Rotor2) (d : Meth.SDim × Meth.SDim) [NeZero d.1.count] [NeZero d.2.count] (nOct : ℕ)
    (junk : Phys → List Trans.Tr → ℕ → ℕ → ℂ) (nt : ℕ) : Run.Kept (mapEnv W T lib so c dims a B0 r d nOct junk nt) Spec.Lit2 := by
  refine ⟨fun k l _ _ => le_rfl, fun v w hv hw k l hk hl => add_nonneg (hv k l hk hl) (hw k l hk hl), fun q v hq hv k l hk hl => ?_,
    fun v hv k l hk hl => ?_⟩
  · rw [Pi.smul_apply, Pi.smul_apply, Rat.smul_def]
    exact mul_nonneg (by exact_mod_cast hq) (hv k l hk hl)
  · change 0 ≤ Sim.mirror2 v k l
    rw [Sim.C59_mirror2]
    exact hv _ _ (by simpa using hk) (by simpa using hl)

theorem map_lit (W : WC) (T : TC) (lib : Library) (so : Trans.SetOrder) (c : String) (dims : List (List Trans.Query)) (a : List ℚ)
    (B0 : ℝ) (r : Rotor2) (d : Meth.SDim × Meth.SDim) [NeZero d.1.count] [NeZero d.2.count] (nOct : ℕ)
    (junk : Phys → List Trans.Tr → ℕ → ℕ → ℂ) (nt : ℕ) (hn : 1 ≤ nt) (ph : Phys) (p : List Trans.Tr) :
    Spec.Lit2 ((mapEnv W T lib so c dims a B0 r d nOct junk nt).core ph p) := by
  intro k l hk hl
  have h0 : (k.val : ℤ) ≠ 0 := by
    have : k.val ≠ 0 := by simpa [ZMod.val_eq_zero] using hk
    omega
  have h1 : 1 ≤ (l.val : ℤ) := by
    have : l.val ≠ 0 := by simpa [ZMod.val_eq_zero] using hl
    omega
  have h2 : (l.val : ℤ) < d.2.count := by exact_mod_cast ZMod.val_lt l
  exact mapWrites_nonneg W T lib c B0 r d a nOct (junk ph p) nt hn ph p (Nat.one_le_iff_ne_zero.mpr (NeZero.ne _)) _ _ h0 h1 h2

/-! ## Property -/

/-- **C109, partial.** Maps of two dimensions are nowhere negative, except perhaps in the first row and the first column: whatever the method, its affine
matrix, the spin systems and their pathways, with abundances that are not negative, for the list of all maps as for their sum, on any number of processes.
Missing: the first row and column, where the statement is false, `C109_edge`, and two events or more in one dimension. -/
theorem C109_map_partial (W : WC) (T : TC) (lib : Library) (so : Trans.SetOrder) (c : String) (dims : List (List Trans.Query)) (a : List ℚ)
    (B0 : ℝ) (r : Rotor2) (d : Meth.SDim × Meth.SDim) [NeZero d.1.count] [NeZero d.2.count] (hsw : 0 < d.1.sw ∧ 0 < d.2.sw) (nOct : ℕ)
    (junk : Phys → List Trans.Tr → ℕ → ℕ → ℂ) (nt : ℕ) (hn : 1 ≤ nt) (l : List (Run.Sys Phys (List Trans.Tr))) (ha : ∀ s ∈ l, 0 ≤ s.abundance)
    (cpu nJobs : ℤ) (decompose : Bool) (ds : List (Run.Datum (ZMod d.1.count → ZMod d.2.count → ℝ)))
    (h : Run.run (mapEnv W T lib so c dims a B0 r d nOct junk nt) cpu decompose l nJobs = .ok ds)
    (v : ZMod d.1.count → ZMod d.2.count → ℝ) (hv : Run.Datum.spec v ∈ ds) (k : ZMod d.1.count) (hk : k ≠ 0) (q : ZMod d.2.count) (hq : q ≠ 0) :
    0 ≤ v k q := by
  refine Run.run_kept (map_kept W T lib so c dims a B0 r d nOct junk nt) cpu decompose l nJobs
    (fun s _ p => map_lit W T lib so c dims a B0 r d nOct junk nt hn s.phys p) (fun s hs => ?_) ds h v hv k q hk hq
  exact div_nonneg (ha s hs) (mul_nonneg (div_nonneg hsw.1.le (Nat.cast_nonneg _)) (div_nonneg hsw.2.le (Nat.cast_nonneg _)))

/-- A run that meets the hypotheses: rubidium with `ThreeQ_VAS` on the magic angle and a system without rubidium. -/
example (so : Trans.SetOrder) : ∃ (dims : List (List Trans.Query)) (a : List ℚ) (ν : ℝ) (v : ZMod 256 → ZMod 512 → ℝ),
    Run.run (mapEnv WC.exact TC.exact ⟨fun _ => 3, fun _ => 13.9⟩ so "87Rb" dims a 9.4
      ⟨1, ⟨one_ne_zero⟩, (ν, ν), Real.arccos (1 / √3)⟩ (⟨256, 10000, 0, none⟩, ⟨512, 20000, -1000, none⟩) 1 (fun _ _ _ _ => 0) 70)
      4 false [⟨["87Rb"], none, 50, ⟨[⟨3, 13.9, -27, 110, 0, ⟨0, 0, 0⟩, 2000000, 0.4, ⟨0, -0.3, 0⟩⟩], []⟩⟩, ⟨["1H"], none, 50, ⟨[], []⟩⟩] 1 = .ok [.spec v] ∧
    ∀ (k : ZMod 256) (q : ZMod 512), k ≠ 0 → q ≠ 0 → 0 ≤ v k q := by
  obtain ⟨⟨dims, a⟩, hm⟩ := (Trans.C15_mq_domain "ThreeQ_VAS" 3 (by decide) 3).mpr (by decide)
  set t : Site := ⟨3, 13.9, -27, 110, 0, ⟨0, 0, 0⟩, 2000000, 0.4, ⟨0, -0.3, 0⟩⟩ with ht
  obtain ⟨path, a0, a1, -, -, ha, hsum, -, hx, hy, hc, -⟩ := mq_pathway so "87Rb" t "ThreeQ_VAS" 3 (by decide) dims a hm _ _ rfl rfl
  have ha0 : a.getD 0 0 ≠ 0 := by
    rw [ha]
    intro h
    have h0 : a0 = 0 := h
    have := hc 0 t rfl (by rw [ht]; norm_num)
    rw [show a1 = 1 by linarith, h0, Trans.STFc4_eq, Trans.STFc4_eq] at this
    simp only [ht, Spec.centralStates, Spec.multiple, List.getD_cons_zero] at this
    norm_num at this
  obtain ⟨ν, h0, hν⟩ := C100_fast ⟨fun _ => 3, fun _ => 13.9⟩ "87Rb" 9.4 (Real.arccos (1 / √3)) 1 ⟨one_ne_zero⟩
    (⟨256, 10000, 0, none⟩, ⟨512, 20000, -1000, none⟩) a ha0 ⟨[t], []⟩ (by simp [ht]) (by simp) _ _ hx hy 0
  have hmagic : 3 * Real.cos (Real.arccos (1 / √3)) ^ 2 = 1 := by
    have h : (1 : ℝ) ≤ √3 := by rw [Real.one_le_sqrt]; norm_num
    rw [Real.cos_arccos (by have : (0 : ℝ) ≤ 1 / √3 := by positivity
                            linarith) (by rw [div_le_one (by positivity)]; exact h), div_pow, one_pow,
      Real.sq_sqrt (by norm_num)]
    norm_num
  obtain ⟨v, S, hv, -⟩ := C100_mq_partial ⟨fun _ => 3, fun _ => 13.9⟩ so "87Rb" (by norm_num) "ThreeQ_VAS" 3 (by decide) dims a hm 9.4
    ⟨1, ⟨one_ne_zero⟩, (ν, ν), Real.arccos (1 / √3)⟩ (by simp; linarith) (by simp; linarith) hmagic
    (⟨256, 10000, 0, none⟩, ⟨512, 20000, -1000, none⟩) (128, 256) ⟨rfl, rfl⟩ ⟨by norm_num, by norm_num⟩ ⟨by norm_num, by norm_num⟩ 1 (Or.inl rfl)
    (fun _ _ _ _ => 0) 70 (by norm_num)
    [⟨["87Rb"], none, 50, ⟨[t], []⟩⟩, ⟨["1H"], none, 50, ⟨[], []⟩⟩] _ _ rfl rfl (by
      intro s hs
      simp only [List.mem_cons, List.not_mem_nil, or_false] at hs
      rcases hs with rfl | rfl
      · exact ⟨rfl, fun _ => ⟨t, ⟨rfl, rfl, rfl⟩, hν ν le_rfl⟩⟩
      · exact ⟨rfl, fun h => by simp at h⟩) 4 1 (by norm_num)
  refine ⟨dims, a, ν, v, hv, fun k q hk hq => C109_map_partial _ _ _ _ _ _ _ _ _ _ ⟨by norm_num, by norm_num⟩ _ _ _ (by norm_num) _ ?_ _ _ _ _ hv v
    (by simp) k hk q hq⟩
  intro s hs
  simp only [List.mem_cons, List.not_mem_nil, or_false] at hs
  rcases hs with rfl | rfl <;> norm_num

/-- **C109, counterexample.** A triangle of orientations with one first frequency, less than a point below the window, and one second frequency inside it, of
amplitude one on a map of four by four points, adds `-1/4` to the first row. -/
theorem C109_edge : Bin.val (0 * 4 + 1) (Bin.triangle2D ((-3 / 4, 3 / 2) : ℚ × ℚ) (-3 / 4, 3 / 2) (-3 / 4, 3 / 2) 1 4 4) = -1 / 4 := by
  decide +kernel

end MRS.Freq
