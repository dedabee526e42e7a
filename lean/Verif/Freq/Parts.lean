import Verif.Freq.Order

/-!
# Spin systems of parts that are not coupled — property C106
-/

namespace MRS.Freq

open Complex

/-! ## Specification -/

/-- A coupling between sites with numbers higher by `n`. -/
def Spec.moved (n : ℕ) (q : Coupling) : Coupling := { q with A := q.A + n, X := q.X + n }

/-- One spin system of the sites of two, with the couplings of both and none between them.  It has the abundance of the first. -/
def Spec.joined (a b : Run.Sys Phys (List Trans.Tr)) : Run.Sys Phys (List Trans.Tr) :=
  ⟨a.isotopes ++ b.isotopes, none, a.abundance,
    ⟨a.phys.sites ++ b.phys.sites, a.phys.couplings ++ b.phys.couplings.map (Spec.moved a.phys.sites.length)⟩⟩

/-- The number of Zeeman states. -/
def Spec.levels (ss : List Site) : ℚ := (ss.map fun x => (x.n : ℚ) + 1).prod

/-- Two spin systems in place of one with two parts: the abundance of each is multiplied by the number of states of the other. -/
def Spec.parts (p : Run.Sys Phys (List Trans.Tr) × Run.Sys Phys (List Trans.Tr)) : List (Run.Sys Phys (List Trans.Tr)) :=
  [{ p.1 with abundance := p.1.abundance * Spec.levels p.2.phys.sites }, { p.2 with abundance := p.1.abundance * Spec.levels p.1.phys.sites }]

/-- Each site as a spin system of its own: the abundance is multiplied by the number of states of all other sites. -/
def Spec.singles (s : Run.Sys Phys (List Trans.Tr)) : List (Run.Sys Phys (List Trans.Tr)) :=
  (s.isotopes.zip s.phys.sites).mapIdx fun k x => ⟨[x.1], none, s.abundance * Spec.levels (s.phys.sites.eraseIdx k), ⟨[x.2], []⟩⟩

/-! ## All states -/

/-- The states of a list of sites. -/
def states : List Site → Finset (List ℕ)
  | [] => {[]}
  | s :: ss => (Finset.range (s.n + 1) ×ˢ states ss).map ⟨fun p => p.1 :: p.2, fun p q h => by
      injection h with h1 h2
      exact Prod.ext h1 h2⟩

theorem states_mem (ss : List Site) (x : List ℕ) : x ∈ states ss ↔ Spec.IsState ss x := by
  unfold Spec.IsState
  induction ss generalizing x with
  | nil => simp [states]
  | cons s ss ih =>
    rw [states]
    simp only [Finset.mem_map, Finset.mem_product, Finset.mem_range, Function.Embedding.coeFn_mk, Prod.exists, ih]
    constructor
    · rintro ⟨j, y, ⟨hj, hy⟩, rfl⟩
      exact List.Forall₂.cons (by omega) hy
    · intro h
      cases h with
      | cons h1 h2 => exact ⟨_, _, ⟨by omega, h2⟩, rfl⟩

theorem states_card (ss : List Site) : ((states ss).card : ℚ) = Spec.levels ss := by
  unfold Spec.levels
  induction ss with
  | nil => simp [states]
  | cons s ss ih =>
    rw [states, Finset.card_map, Finset.card_product, Finset.card_range, List.map_cons, List.prod_cons, ← ih]
    push_cast
    ring

open Classical in
/-- The transitions that are observed. -/
noncomputable def observedF (c : String) (central : Bool) (iso : List String) (ss : List Site) : Finset (List ℕ × List ℕ) :=
  (states ss ×ˢ states ss).filter (Spec.Observed c central iso ss)

theorem observedF_mem (c : String) (central : Bool) (iso : List String) (ss : List Site) (x : List ℕ × List ℕ) :
    x ∈ observedF c central iso ss ↔ Spec.Observed c central iso ss x := by
  classical
  unfold observedF
  rw [Finset.mem_filter, Finset.mem_product, states_mem, states_mem]
  exact ⟨fun h => h.2, fun h => ⟨⟨h.initial, h.final⟩, h⟩⟩

theorem state_append (sa sb : List Site) (u v : List ℕ) (hu : Spec.IsState sa u) (hv : Spec.IsState sb v) : Spec.IsState (sa ++ sb) (u ++ v) :=
  List.rel_append hu hv

theorem state_split (sa sb : List Site) (x : List ℕ) (hx : Spec.IsState (sa ++ sb) x) :
    ∃ u v, x = u ++ v ∧ Spec.IsState sa u ∧ Spec.IsState sb v := by
  unfold Spec.IsState at hx ⊢
  induction sa generalizing x with
  | nil => exact ⟨[], x, rfl, List.Forall₂.nil, hx⟩
  | cons s sa ih =>
    cases hx with
    | cons h1 h2 =>
      obtain ⟨u, v, rfl, hu, hv⟩ := ih _ h2
      exact ⟨_ :: u, v, rfl, List.Forall₂.cons h1 hu, hv⟩

/-- In a system of two parts either part makes a transition, and the other is in any state. -/
theorem observed_append (c : String) (central : Bool) (ia ib : List String) (sa sb : List Site) (hi : ia.length = sa.length) (x : List ℕ × List ℕ) :
    Spec.Observed c central (ia ++ ib) (sa ++ sb) x ↔
      (∃ y z, Spec.Observed c central ia sa y ∧ Spec.IsState sb z ∧ x = (y.1 ++ z, y.2 ++ z)) ∨
      (∃ y z, Spec.Observed c central ib sb y ∧ Spec.IsState sa z ∧ x = (z ++ y.1, z ++ y.2)) := by
  constructor
  · intro hx
    obtain ⟨u, v, e, hu, hv⟩ := state_split sa sb x.1 hx.initial
    obtain ⟨u', v', e', hu', hv'⟩ := state_split sa sb x.2 hx.final
    have lu := (state_get _ _ hu).1
    have lu' := (state_get _ _ hu').1
    obtain ⟨k, i, s, h1, h2, h3, h4, h5⟩ := hx.step
    rw [e] at h3 h4
    rw [e'] at h4
    by_cases hk : k < sa.length
    · rw [List.getElem?_append_left (by omega)] at h1 h2 h3
      rw [List.set_append_left _ _ (by omega)] at h4
      obtain ⟨h6, h7⟩ := List.append_inj h4 (by rw [List.length_set]; omega)
      refine Or.inl ⟨(u, u'), v, ⟨hu, hu', k, i, s, h1, h2, h3, h6, h5⟩, hv, ?_⟩
      exact Prod.ext e (by rw [e', h7])
    · rw [List.getElem?_append_right (by omega)] at h1 h2 h3
      rw [List.set_append_right _ _ (by omega)] at h4
      obtain ⟨h6, h7⟩ := List.append_inj h4 (by omega)
      refine Or.inr ⟨(v, v'), u, ⟨hv, hv', k - sa.length, i, s, by rw [← hi]; exact h1, h2, by rw [← lu]; exact h3, by rw [← lu]; exact h7, h5⟩, hu, ?_⟩
      exact Prod.ext e (by rw [e', h6])
  · rintro (⟨y, z, hy, hz, rfl⟩ | ⟨y, z, hy, hz, rfl⟩)
    · obtain ⟨k, i, s, h1, h2, h3, h4, h5⟩ := hy.step
      have hk := (List.getElem?_eq_some_iff.mp h2).1
      have ly := (state_get _ _ hy.initial).1
      refine ⟨state_append _ _ _ _ hy.initial hz, state_append _ _ _ _ hy.final hz, k, i, s, ?_, ?_, ?_, ?_, h5⟩
      · rw [List.getElem?_append_left (by omega), h1]
      · rw [List.getElem?_append_left (by omega), h2]
      · simp only
        rw [List.getElem?_append_left (by omega), h3]
      · simp only
        rw [List.set_append_left _ _ (by omega), h4]
    · obtain ⟨k, i, s, h1, h2, h3, h4, h5⟩ := hy.step
      have lz := (state_get _ _ hz).1
      refine ⟨state_append _ _ _ _ hz hy.initial, state_append _ _ _ _ hz hy.final, sa.length + k, i, s, ?_, ?_, ?_, ?_, h5⟩
      · rw [List.getElem?_append_right (by omega), hi, Nat.add_sub_cancel_left, h1]
      · rw [List.getElem?_append_right (by omega), Nat.add_sub_cancel_left, h2]
      · simp only
        rw [List.getElem?_append_right (by omega), lz, Nat.add_sub_cancel_left, h3]
      · simp only
        rw [List.set_append_right _ _ (by omega), lz, Nat.add_sub_cancel_left, h4]

theorem observed_moves {c : String} {central : Bool} {iso : List String} {ss : List Site} {x : List ℕ × List ℕ}
    (hx : Spec.Observed c central iso ss x) : x.1 ≠ x.2 := by
  obtain ⟨k, i, s, -, -, h3, h4, -⟩ := hx.step
  intro e
  rw [← e] at h4
  have := congrArg (fun l => l[k]?) h4
  simp only [h3] at this
  rw [List.getElem?_set_self (List.getElem?_eq_some_iff.mp h3).1] at this
  injection this with this
  omega

/-- Sums over the transitions of a system of two parts. -/
theorem observed_sum {V : Type} [AddCommGroup V] [Module ℚ V] (c : String) (central : Bool) (ia ib : List String) (sa sb : List Site)
    (hi : ia.length = sa.length) (f fa fb : List ℕ × List ℕ → V)
    (ha : ∀ y z, Spec.Observed c central ia sa y → Spec.IsState sb z → f (y.1 ++ z, y.2 ++ z) = fa y)
    (hb : ∀ y z, Spec.Observed c central ib sb y → Spec.IsState sa z → f (z ++ y.1, z ++ y.2) = fb y) :
    ∑ x ∈ observedF c central (ia ++ ib) (sa ++ sb), f x
      = Spec.levels sb • ∑ y ∈ observedF c central ia sa, fa y + Spec.levels sa • ∑ y ∈ observedF c central ib sb, fb y := by
  classical
  have hset : observedF c central (ia ++ ib) (sa ++ sb)
      = (observedF c central ia sa ×ˢ states sb).image (fun p => (p.1.1 ++ p.2, p.1.2 ++ p.2))
        ∪ (observedF c central ib sb ×ˢ states sa).image (fun p => (p.2 ++ p.1.1, p.2 ++ p.1.2)) := by
    ext x
    rw [observedF_mem, observed_append c central ia ib sa sb hi, Finset.mem_union, Finset.mem_image, Finset.mem_image]
    simp only [Finset.mem_product, observedF_mem, states_mem]
    constructor
    · rintro (⟨y, z, h1, h2, rfl⟩ | ⟨y, z, h1, h2, rfl⟩)
      · exact Or.inl ⟨(y, z), ⟨h1, h2⟩, rfl⟩
      · exact Or.inr ⟨(y, z), ⟨h1, h2⟩, rfl⟩
    · rintro (⟨⟨y, z⟩, ⟨h1, h2⟩, rfl⟩ | ⟨⟨y, z⟩, ⟨h1, h2⟩, rfl⟩)
      · exact Or.inl ⟨y, z, h1, h2, rfl⟩
      · exact Or.inr ⟨y, z, h1, h2, rfl⟩
  rw [hset, Finset.sum_union, Finset.sum_image, Finset.sum_image, Finset.sum_product, Finset.sum_product]
  · congr 1
    · rw [Finset.smul_sum]
      refine Finset.sum_congr rfl fun y hy => ?_
      rw [Finset.sum_congr rfl fun z hz => ha y z ((observedF_mem _ _ _ _ _).mp hy) ((states_mem _ _).mp hz), Finset.sum_const, ← states_card,
        Nat.cast_smul_eq_nsmul]
    · rw [Finset.smul_sum]
      refine Finset.sum_congr rfl fun y hy => ?_
      rw [Finset.sum_congr rfl fun z hz => hb y z ((observedF_mem _ _ _ _ _).mp hy) ((states_mem _ _).mp hz), Finset.sum_const, ← states_card,
        Nat.cast_smul_eq_nsmul]
  · rintro ⟨y, z⟩ h1 ⟨y', z'⟩ h2 e
    simp only [Finset.coe_product, Set.mem_prod, Finset.mem_coe, observedF_mem, states_mem] at h1 h2
    have l1 := (state_get _ _ h1.2).1
    have l2 := (state_get _ _ h2.2).1
    simp only [Prod.mk.injEq] at e
    obtain ⟨e1, e2⟩ := List.append_inj e.1 (by omega)
    obtain ⟨-, e3⟩ := List.append_inj e.2 (by omega)
    exact Prod.ext (Prod.ext e2 e3) e1
  · rintro ⟨y, z⟩ h1 ⟨y', z'⟩ h2 e
    simp only [Finset.coe_product, Set.mem_prod, Finset.mem_coe, observedF_mem, states_mem] at h1 h2
    have l1 := (state_get _ _ h1.1.initial).1
    have l2 := (state_get _ _ h2.1.initial).1
    have l3 := (state_get _ _ h1.1.final).1
    have l4 := (state_get _ _ h2.1.final).1
    simp only [Prod.mk.injEq] at e
    obtain ⟨e1, e2⟩ := List.append_inj e.1 (by omega)
    obtain ⟨e3, -⟩ := List.append_inj e.2 (by omega)
    exact Prod.ext (Prod.ext e1 e3) e2
  · rw [Finset.disjoint_left]
    intro x h1 h2
    simp only [Finset.mem_image, Finset.mem_product, observedF_mem, states_mem, Prod.exists] at h1 h2
    obtain ⟨y, y', z, ⟨h3, h4⟩, rfl⟩ := h1
    obtain ⟨w, w', t, ⟨h5, h6⟩, e⟩ := h2
    have l1 := (state_get _ _ h3.initial).1
    have l2 := (state_get _ _ h3.final).1
    have l3 := (state_get _ _ h6).1
    simp only [Prod.mk.injEq] at e
    simp only at l1 l2
    obtain ⟨e1, -⟩ := List.append_inj e.1 (by omega)
    obtain ⟨e2, -⟩ := List.append_inj e.2 (by omega)
    exact observed_moves h3 (e1.symm.trans e2)

/-! ## Components -/

theorem quantum_append (sa sb : List Site) (u v : List ℕ) (h : u.length = sa.length) :
    Spec.quantum (sa ++ sb) (u ++ v) = Spec.quantum sa u ++ Spec.quantum sb v := by
  unfold Spec.quantum
  exact List.zipWith_append h.symm

theorem quantum_len (sa : List Site) (u : List ℕ) (h : u.length = sa.length) : (Spec.quantum sa u).length = sa.length := by
  unfold Spec.quantum
  rw [List.length_zipWith, h, min_self]

theorem couplingPart_left (W : WC) (T : TC) (mi mf ni nf : List ℝ) (q : Coupling) (hA : q.A < mi.length) (hX : q.X < mi.length) (hl : mf.length = mi.length) :
    couplingPart W T (mi ++ ni) (mf ++ nf) q = couplingPart W T mi mf q := by
  unfold couplingPart
  rw [List.getD_append _ _ _ _ hA, List.getD_append _ _ _ _ hX, List.getD_append _ _ _ _ (hl ▸ hA), List.getD_append _ _ _ _ (hl ▸ hX)]

theorem couplingPart_right (W : WC) (T : TC) (mi mf ni nf : List ℝ) (n : ℕ) (q : Coupling) (hi : mi.length = n) (hf : mf.length = n) :
    couplingPart W T (mi ++ ni) (mf ++ nf) (Spec.moved n q) = couplingPart W T ni nf q := by
  unfold couplingPart jPart dipolarPart Spec.moved
  simp only
  rw [List.getD_append_right _ _ _ _ (by omega), List.getD_append_right _ _ _ _ (by omega), List.getD_append_right _ _ _ _ (by omega),
    List.getD_append_right _ _ _ _ (by omega), hi, hf, Nat.add_sub_cancel, Nat.add_sub_cancel]

theorem couplingPart_still (W : WC) (T : TC) (m : List ℝ) (q : Coupling) : couplingPart W T m m q = zeroT := by
  unfold couplingPart jPart dipolarPart
  have : ∀ a b : ℝ, stfDIS a a b b = 0 := fun a b => by unfold stfDIS; ring
  rw [this]
  unfold fcf
  rw [if_pos rfl, if_pos rfl]
  simp [addT, zeroT]

theorem couplingPart_rest (W : WC) (T : TC) (mi mf n : List ℝ) (k : ℕ) (q : Coupling) (hi : mi.length = k) (hf : mf.length = k) :
    couplingPart W T (mi ++ n) (mf ++ n) (Spec.moved k q) = zeroT := by
  rw [couplingPart_right W T mi mf n n k q hi hf, couplingPart_still]

theorem couplingPart_before (W : WC) (T : TC) (mi mf n : List ℝ) (q : Coupling) (hA : q.A < n.length) (hX : q.X < n.length) :
    couplingPart W T (n ++ mi) (n ++ mf) q = zeroT := by
  rw [couplingPart_left W T n n mi mf q hA hX rfl, couplingPart_still]

theorem lineTens_left (W : WC) (T : TC) (lib : Library) (c : String) (central : Bool) (B0 : ℝ) (a b : Run.Sys Phys (List Trans.Tr))
    (ha : Spec.Given lib a) (y : List ℕ × List ℕ) (z : List ℕ)
    (hy : Spec.Observed c central a.isotopes a.phys.sites y) :
    Times 1 (lineTens W T lib c B0 a.phys y) (lineTens W T lib c B0 (Spec.joined a b).phys (y.1 ++ z, y.2 ++ z)) := by
  obtain ⟨k, i, s, -, e2, e3, e4, -⟩ := hy.step
  have hl := (state_get _ _ hy.initial).1
  have hl2 := (state_get _ _ hy.final).1
  have hk := (List.getElem?_eq_some_iff.mp e2).1
  have a1 := lineTens_mover W T lib c B0 a.phys y k i s e2 e3 e4
  have a2 := lineTens_mover W T lib c B0 (Spec.joined a b).phys (y.1 ++ z, y.2 ++ z) k i s
    (by simp only [Spec.joined]; rw [List.getElem?_append_left hk, e2])
    (by simp only; rw [List.getElem?_append_left (by omega), e3])
    (by simp only; rw [List.set_append_left _ _ (by omega), e4])
  have key : (Spec.joined a b).phys.couplings.map (couplingPart W T (Spec.quantum (Spec.joined a b).phys.sites (y.1 ++ z))
      (Spec.quantum (Spec.joined a b).phys.sites (y.2 ++ z)))
      = a.phys.couplings.map (couplingPart W T (Spec.quantum a.phys.sites y.1) (Spec.quantum a.phys.sites y.2))
        ++ b.phys.couplings.map fun _ => zeroT := by
    simp only [Spec.joined, List.map_append, List.map_map]
    rw [quantum_append _ _ _ _ hl, quantum_append _ _ _ _ hl2]
    congr 1
    · refine List.map_congr_left fun q hq => ?_
      obtain ⟨hA, hX⟩ := ha.couplings q hq
      exact couplingPart_left W T _ _ _ _ q (by rw [quantum_len _ _ hl]; exact hA) (by rw [quantum_len _ _ hl]; exact hX)
        (by rw [quantum_len _ _ hl, quantum_len _ _ hl2])
    · refine List.map_congr_left fun q hq => ?_
      exact couplingPart_rest W T _ _ _ _ q (quantum_len _ _ hl) (quantum_len _ _ hl2)
  have key0 := congrArg (fun l => (l.map Tens.R0).sum) key
  have key2 := fun m => congrArg (fun l => (l.map fun t => Tens.R2 t m).sum) key
  simp only [List.map_append, List.map_map, List.sum_append] at key0 key2
  refine ⟨?_, fun m => ?_, fun m => ?_⟩
  · rw [a1.1, a2.1, one_mul]
    simp only [Function.comp_def] at key0
    rw [key0]
    simp [zeroT]
  · rw [a1.2.1, a2.2.1, Complex.ofReal_one, one_mul]
    have := key2 m
    simp only [Function.comp_def] at this
    rw [this]
    simp [zeroT]
  · rw [a1.2.2, a2.2.2, Complex.ofReal_one, one_mul]

theorem lineTens_right (W : WC) (T : TC) (lib : Library) (c : String) (central : Bool) (B0 : ℝ) (a b : Run.Sys Phys (List Trans.Tr))
    (ha : Spec.Given lib a) (y : List ℕ × List ℕ) (z : List ℕ) (hz : Spec.IsState a.phys.sites z)
    (hy : Spec.Observed c central b.isotopes b.phys.sites y) :
    Times 1 (lineTens W T lib c B0 b.phys y) (lineTens W T lib c B0 (Spec.joined a b).phys (z ++ y.1, z ++ y.2)) := by
  obtain ⟨k, i, s, -, e2, e3, e4, -⟩ := hy.step
  have hl := (state_get _ _ hz).1
  have a1 := lineTens_mover W T lib c B0 b.phys y k i s e2 e3 e4
  have a2 := lineTens_mover W T lib c B0 (Spec.joined a b).phys (z ++ y.1, z ++ y.2) (a.phys.sites.length + k) i s
    (by simp only [Spec.joined]; rw [List.getElem?_append_right (by omega), Nat.add_sub_cancel_left, e2])
    (by simp only; rw [List.getElem?_append_right (by omega), hl, Nat.add_sub_cancel_left, e3])
    (by simp only; rw [List.set_append_right _ _ (by omega), hl, Nat.add_sub_cancel_left, e4])
  have key : (Spec.joined a b).phys.couplings.map (couplingPart W T (Spec.quantum (Spec.joined a b).phys.sites (z ++ y.1))
      (Spec.quantum (Spec.joined a b).phys.sites (z ++ y.2)))
      = (a.phys.couplings.map fun _ => zeroT)
        ++ b.phys.couplings.map (couplingPart W T (Spec.quantum b.phys.sites y.1) (Spec.quantum b.phys.sites y.2)) := by
    simp only [Spec.joined, List.map_append, List.map_map]
    rw [quantum_append _ _ _ _ hl, quantum_append _ _ _ _ hl]
    congr 1
    · refine List.map_congr_left fun q hq => ?_
      obtain ⟨hA, hX⟩ := ha.couplings q hq
      exact couplingPart_before W T _ _ _ q (by rw [quantum_len _ _ hl]; exact hA) (by rw [quantum_len _ _ hl]; exact hX)
    · refine List.map_congr_left fun q hq => ?_
      exact couplingPart_right W T _ _ _ _ _ q (quantum_len _ _ hl) (quantum_len _ _ hl)
  have key0 := congrArg (fun l => (l.map Tens.R0).sum) key
  have key2 := fun m => congrArg (fun l => (l.map fun t => Tens.R2 t m).sum) key
  simp only [List.map_append, List.map_map, List.sum_append] at key0 key2
  refine ⟨?_, fun m => ?_, fun m => ?_⟩
  · rw [a1.1, a2.1, one_mul]
    simp only [Function.comp_def] at key0
    rw [key0]
    simp [zeroT]
  · rw [a1.2.1, a2.2.1, Complex.ofReal_one, one_mul]
    have := key2 m
    simp only [Function.comp_def] at this
    rw [this]
    simp [zeroT]
  · rw [a1.2.2, a2.2.2, Complex.ofReal_one, one_mul]

/-! ## Runs -/

theorem joined_given {lib : Library} {a b : Run.Sys Phys (List Trans.Tr)} (ha : Spec.Given lib a) (hb : Spec.Given lib b) :
    Spec.Given lib (Spec.joined a b) := by
  refine ⟨rfl, ?_, fun x hx => ?_, fun q hq => ?_⟩
  · simp only [Spec.joined, List.map_append, ha.spins, hb.spins]
  · simp only [Spec.joined, List.mem_append] at hx
    exact hx.elim (ha.sites x) (hb.sites x)
  · simp only [Spec.joined, List.mem_append, List.mem_map, List.length_append] at hq ⊢
    rcases hq with hq | ⟨q, hq, rfl⟩
    · have := ha.couplings q hq
      omega
    · have := hb.couplings q hq
      simp only [Spec.moved]
      omega

/-- What one spin system of unit abundance contributes. -/
noncomputable def lines (W : WC) (T : TC) (lib : Library) (so : Trans.SetOrder) (c : String) (central : Bool) (B0 : ℝ) (r : Rotor) (d : Meth.SDim)
    [NeZero d.count] (nOct : ℕ) (junk : ℕ → Phys → List Trans.Tr → ℕ → ℕ → ℂ) (nt : ℕ) (s : Run.Sys Phys (List Trans.Tr)) : ZMod d.count → ℝ :=
  ∑ x ∈ observedF c central s.isotopes s.phys.sites, (pulseEnv W T lib so c central B0 r d nOct junk nt).core s.phys (edge s.phys.sites x)

theorem core_alike (W : WC) (T : TC) (lib : Library) (so so' : Trans.SetOrder) (c : String) (central : Bool) (B0 : ℝ) (r : Rotor) (d : Meth.SDim)
    [NeZero d.count] (nOct : ℕ) (junk junk' : ℕ → Phys → List Trans.Tr → ℕ → ℕ → ℂ) (nt : ℕ) (ph ph' : Phys) (x x' : List ℕ × List ℕ)
    (m : Times 1 (lineTens W T lib c B0 ph x) (lineTens W T lib c B0 ph' x')) :
    (pulseEnv W T lib so' c central B0 r d nOct junk' nt).core ph' (edge ph'.sites x')
      = (pulseEnv W T lib so c central B0 r d nOct junk nt).core ph (edge ph.sites x) := by
  have key : ∀ jk jk' : ℕ → ℕ → ℂ, pulseWrites W T lib c B0 r d nOct jk' nt ph' (qnum (ph'.sites.map Site.n) x'.1, qnum (ph'.sites.map Site.n) x'.2)
      = pulseWrites W T lib c B0 r d nOct jk nt ph (qnum (ph.sites.map Site.n) x.1, qnum (ph.sites.map Site.n) x.2) := by
    intro jk jk'
    unfold pulseWrites
    rw [rotorWrites_edge, rotorWrites_edge]
    have hpos := r.seen.pos
    refine spectrum_scaled W _ nt nOct _ _ _ _ _ _ _ _ _ 1 one_ne_zero (Or.inr (one_mul _).symm) (one_mul _) _ _ _ (startRows_alike _ _ _ _) _ _
      ?_ m.R2 (fun _ => m.R4)
    rw [m.R0, one_mul]
  funext z
  change Bin.val _ (pulseWrites _ _ _ _ _ _ _ _ _ _ _ _) = Bin.val _ (pulseWrites _ _ _ _ _ _ _ _ _ _ _ _)
  rw [key]

theorem lines_same (W : WC) (T : TC) (lib : Library) (so so' : Trans.SetOrder) (c : String) (central : Bool) (B0 : ℝ) (r : Rotor) (d : Meth.SDim)
    [NeZero d.count] (nOct : ℕ) (junk junk' : ℕ → Phys → List Trans.Tr → ℕ → ℕ → ℂ) (nt : ℕ) (s : Run.Sys Phys (List Trans.Tr)) :
    lines W T lib so' c central B0 r d nOct junk' nt s = lines W T lib so c central B0 r d nOct junk nt s := by
  unfold lines
  refine Finset.sum_congr rfl fun x _ => ?_
  exact core_alike W T lib so so' c central B0 r d nOct junk junk' nt _ _ _ _
    ⟨(one_mul _).symm, fun i => by rw [Complex.ofReal_one, one_mul], fun i => by rw [Complex.ofReal_one, one_mul]⟩

theorem lines_congr (W : WC) (T : TC) (lib : Library) (so : Trans.SetOrder) (c : String) (central : Bool) (B0 : ℝ) (r : Rotor) (d : Meth.SDim)
    [NeZero d.count] (nOct : ℕ) (junk : ℕ → Phys → List Trans.Tr → ℕ → ℕ → ℂ) (nt : ℕ) (s s' : Run.Sys Phys (List Trans.Tr))
    (h1 : s.isotopes = s'.isotopes) (h2 : s.phys = s'.phys) :
    lines W T lib so c central B0 r d nOct junk nt s = lines W T lib so c central B0 r d nOct junk nt s' := by
  unfold lines
  rw [h1, h2]

theorem mir_same (W : WC) (T : TC) (lib : Library) (so so' : Trans.SetOrder) (c : String) (central : Bool) (B0 : ℝ) (r : Rotor) (d : Meth.SDim)
    [NeZero d.count] (nOct : ℕ) (junk junk' : ℕ → Phys → List Trans.Tr → ℕ → ℕ → ℂ) (nt : ℕ) (v : ZMod d.count → ℝ) :
    Run.mir (pulseEnv W T lib so' c central B0 r d nOct junk' nt) v = Run.mir (pulseEnv W T lib so c central B0 r d nOct junk nt) v := by
  unfold Run.mir pulseEnv
  rfl

theorem mir_smul (W : WC) (T : TC) (lib : Library) (so : Trans.SetOrder) (c : String) (central : Bool) (B0 : ℝ) (r : Rotor) (d : Meth.SDim)
    [NeZero d.count] (nOct : ℕ) (junk : ℕ → Phys → List Trans.Tr → ℕ → ℕ → ℂ) (nt : ℕ) (k : ℚ) (v : ZMod d.count → ℝ) :
    Run.mir (pulseEnv W T lib so c central B0 r d nOct junk nt) (k • v) = k • Run.mir (pulseEnv W T lib so c central B0 r d nOct junk nt) v := by
  unfold Run.mir
  split_ifs
  · exact map_rat_smul _ _ _
  · rfl

theorem lines_joined (W : WC) (T : TC) (lib : Library) (so : Trans.SetOrder) (c : String) (central : Bool) (B0 : ℝ) (r : Rotor) (d : Meth.SDim)
    [NeZero d.count] (nOct : ℕ) (junk : ℕ → Phys → List Trans.Tr → ℕ → ℕ → ℂ) (nt : ℕ) (a b : Run.Sys Phys (List Trans.Tr))
    (ha : Spec.Given lib a) :
    lines W T lib so c central B0 r d nOct junk nt (Spec.joined a b)
      = Spec.levels b.phys.sites • lines W T lib so c central B0 r d nOct junk nt a
        + Spec.levels a.phys.sites • lines W T lib so c central B0 r d nOct junk nt b := by
  unfold lines
  refine observed_sum c central a.isotopes b.isotopes a.phys.sites b.phys.sites (given_length ha) _ _ _ (fun y z hy hz => ?_) (fun y z hy hz => ?_)
  · exact core_alike W T lib so so c central B0 r d nOct junk junk nt _ _ _ _ (lineTens_left W T lib c central B0 a b ha y z hy)
  · exact core_alike W T lib so so c central B0 r d nOct junk junk nt _ _ _ _ (lineTens_right W T lib c central B0 a b ha y z hz hy)

/-- A run over any list. -/
theorem pulse_sum (W : WC) (T : TC) (lib : Library) (so : Trans.SetOrder) (c : String) (central : Bool)
    (hcen : central = true → lib.twoI c % 2 = 1) (B0 : ℝ) (r : Rotor) (d : Meth.SDim) [NeZero d.count] (nOct : ℕ)
    (junk : ℕ → Phys → List Trans.Tr → ℕ → ℕ → ℂ) (nt : ℕ) (l : List (Run.Sys Phys (List Trans.Tr)))
    (hl : ∀ s ∈ l, Spec.Given lib s)
    (hu : ∀ a ∈ l, ∀ b ∈ l, c ∈ a.isotopes → c ∈ b.isotopes → a.isotopes.length = b.isotopes.length → a.isotopes = b.isotopes)
    (cpu nJobs : ℤ) (hJ : 1 ≤ nJobs) :
    Run.run (pulseEnv W T lib so c central B0 r d nOct junk nt) cpu false l nJobs = .ok [.spec (Run.mir (pulseEnv W T lib so c central B0 r d nOct junk nt)
      (l.map fun s => (s.abundance / (d.sw / d.count)) • lines W T lib so c central B0 r d nOct junk nt s).sum)] := by
  rw [Run.run_sum _ cpu l (fun a ha b hb h1 h2 h3 => ⟨hu a ha b hb h1 h2 h3, by rw [(hl a ha).explicit, (hl b hb).explicit]⟩) nJobs hJ]
  have key : ∃ os : List (Option (ZMod d.count → ℝ)), l.mapM (Run.alone (pulseEnv W T lib so c central B0 r d nOct junk nt)) = .ok os ∧
      os.map Run.val = l.map fun s => (s.abundance / (d.sw / d.count)) • lines W T lib so c central B0 r d nOct junk nt s := by
    clear hu
    induction l with
    | nil => exact ⟨[], rfl, rfl⟩
    | cons s l ih =>
      obtain ⟨os, e1, e2⟩ := ih fun x hx => hl x (by simp [hx])
      have hs := pulse_alone W T lib so c central hcen B0 r d nOct junk nt s (hl s (by simp))
      have hsum : (∑ᶠ (x) (_ : Spec.Observed c central s.isotopes s.phys.sites x),
          (pulseEnv W T lib so c central B0 r d nOct junk nt).core s.phys (edge s.phys.sites x))
          = lines W T lib so c central B0 r d nOct junk nt s := by
        unfold lines
        rw [← finsum_mem_coe_finset]
        simp only [Finset.mem_coe, observedF_mem]
      rw [hsum] at hs
      refine ⟨_, by rw [List.mapM_cons, hs, e1]; rfl, ?_⟩
      rw [List.map_cons, List.map_cons, e2]
      congr 1
      by_cases hc : c ∈ s.isotopes
      · rw [if_pos hc]
        rfl
      · rw [if_neg hc]
        have : observedF c central s.isotopes s.phys.sites = ∅ := by
          rw [Finset.eq_empty_iff_forall_notMem]
          intro x hx
          obtain ⟨k, i, y, h1, -⟩ := ((observedF_mem _ _ _ _ _).mp hx).step
          exact hc (List.mem_of_getElem? h1)
        unfold lines
        rw [this, Finset.sum_empty, smul_zero]
        rfl
  obtain ⟨os, e1, e2⟩ := key
  rw [e1]
  simp only
  rw [e2]

theorem map_of_mapIdx {α β γ : Type} (f : ℕ → α → β) (g : β → γ) (l : List α) : (l.mapIdx f).map g = l.mapIdx fun k x => g (f k x) := by
  apply List.ext_getElem?
  intro i
  simp only [List.getElem?_map, List.getElem?_mapIdx, Option.map_map]
  rfl

theorem lines_single (W : WC) (T : TC) (lib : Library) (so : Trans.SetOrder) (c : String) (central : Bool) (B0 : ℝ) (r : Rotor) (d : Meth.SDim)
    [NeZero d.count] (nOct : ℕ) (junk : ℕ → Phys → List Trans.Tr → ℕ → ℕ → ℂ) (nt : ℕ) (ab : ℚ) (iso : List String) (ss : List Site)
    (h : ss.map Site.n = iso.map lib.twoI) (h1 : ∀ x ∈ ss, 1 ≤ x.n) :
    lines W T lib so c central B0 r d nOct junk nt ⟨iso, none, ab, ⟨ss, []⟩⟩
      = ((iso.zip ss).mapIdx fun k x => Spec.levels (ss.eraseIdx k) • lines W T lib so c central B0 r d nOct junk nt ⟨[x.1], none, ab, ⟨[x.2], []⟩⟩).sum := by
  induction ss generalizing iso with
  | nil =>
    cases iso with
    | nil =>
      have : observedF c central [] [] = ∅ := by
        rw [Finset.eq_empty_iff_forall_notMem]
        intro x hx
        obtain ⟨k, i, y, h1, -⟩ := ((observedF_mem _ _ _ _ _).mp hx).step
        cases h1
      simp [lines, this]
    | cons i iso => cases h
  | cons s ss ih =>
    cases iso with
    | nil => cases h
    | cons i iso =>
      simp only [List.map_cons, List.cons.injEq] at h
      have hg : Spec.Given lib ⟨[i], none, ab, ⟨[s], []⟩⟩ := by
        refine ⟨rfl, by simp [h.1], fun x hx => h1 x ?_, fun q hq => by cases hq⟩
        simp only [List.mem_cons, List.not_mem_nil, or_false] at hx
        simp [hx]
      have e := lines_joined W T lib so c central B0 r d nOct junk nt ⟨[i], none, ab, ⟨[s], []⟩⟩ ⟨iso, none, ab, ⟨ss, []⟩⟩ hg
      have e1 : Spec.joined ⟨[i], none, ab, ⟨[s], []⟩⟩ ⟨iso, none, ab, ⟨ss, []⟩⟩ = (⟨i :: iso, none, ab, ⟨s :: ss, []⟩⟩ : Run.Sys Phys (List Trans.Tr)) := rfl
      rw [e1] at e
      rw [e, ih iso h.2 fun x hx => h1 x (by simp [hx]), List.zip_cons_cons, List.mapIdx_cons, List.sum_cons]
      congr 1
      rw [List.smul_sum, map_of_mapIdx]
      congr 1
      refine List.mapIdx_eq_mapIdx_iff.mpr fun k hk => ?_
      rw [smul_smul, List.eraseIdx_cons_succ]
      congr 1
      simp [Spec.levels]

theorem singles_one (W : WC) (T : TC) (lib : Library) (so so' : Trans.SetOrder) (c : String) (central : Bool) (B0 : ℝ) (r : Rotor) (d : Meth.SDim)
    [NeZero d.count] (nOct : ℕ) (junk junk' : ℕ → Phys → List Trans.Tr → ℕ → ℕ → ℂ) (nt : ℕ) (iso : List String) (ab : ℚ) (ss : List Site)
    (h : ss.map Site.n = iso.map lib.twoI) (h1 : ∀ x ∈ ss, 1 ≤ x.n) :
    ((Spec.singles ⟨iso, none, ab, ⟨ss, []⟩⟩).map fun t => (t.abundance / (d.sw / d.count)) • lines W T lib so' c central B0 r d nOct junk' nt t).sum
      = (ab / (d.sw / d.count)) • lines W T lib so c central B0 r d nOct junk nt ⟨iso, none, ab, ⟨ss, []⟩⟩ := by
  rw [lines_single W T lib so c central B0 r d nOct junk nt ab iso ss h h1, List.smul_sum]
  unfold Spec.singles
  rw [map_of_mapIdx, map_of_mapIdx]
  refine congrArg List.sum (List.mapIdx_eq_mapIdx_iff.mpr fun k hk => ?_)
  generalize (iso.zip ss)[k] = x
  simp only
  rw [lines_same W T lib so so' c central B0 r d nOct junk junk', smul_smul,
    lines_congr W T lib so c central B0 r d nOct junk nt ⟨[x.1], none, ab * Spec.levels (ss.eraseIdx k), ⟨[x.2], []⟩⟩ ⟨[x.1], none, ab, ⟨[x.2], []⟩⟩ rfl rfl,
    show ab * Spec.levels (ss.eraseIdx k) / (d.sw / d.count) = ab / (d.sw / d.count) * Spec.levels (ss.eraseIdx k) by ring]

theorem singles_sum (W : WC) (T : TC) (lib : Library) (so so' : Trans.SetOrder) (c : String) (central : Bool) (B0 : ℝ) (r : Rotor) (d : Meth.SDim)
    [NeZero d.count] (nOct : ℕ) (junk junk' : ℕ → Phys → List Trans.Tr → ℕ → ℕ → ℂ) (nt : ℕ) (l : List (Run.Sys Phys (List Trans.Tr)))
    (hl : ∀ s ∈ l, Spec.Given lib s) (hc : ∀ s ∈ l, s.phys.couplings = []) :
    ((l.flatMap Spec.singles).map fun t => (t.abundance / (d.sw / d.count)) • lines W T lib so' c central B0 r d nOct junk' nt t).sum
      = (l.map fun s => (s.abundance / (d.sw / d.count)) • lines W T lib so c central B0 r d nOct junk nt s).sum := by
  induction l with
  | nil => simp only [List.flatMap_nil, List.map_nil]
  | cons s l ih =>
    rw [List.flatMap_cons, List.map_append, List.sum_append, ih (fun q hq => hl q (by simp [hq])) (fun q hq => hc q (by simp [hq])),
      List.map_cons, List.sum_cons]
    have hg := hl s (by simp)
    have h2 := hc s (by simp)
    have h3 := hg.explicit
    obtain ⟨iso, ex, ab, ss, ks⟩ := s
    simp only at h2 h3
    subst h2 h3
    rw [singles_one W T lib so so' c central B0 r d nOct junk junk' nt iso ab ss hg.spins hg.sites]

/-! ## Property -/

/-- **C106, partial.** Parts of spin systems that are not coupled are independent: in any list of spin systems each of which consists of two
parts with no couplings between them (and any couplings within them), every spectrum after one pulse is, point by point, the one of the list
in which the parts are spin systems of their own, with the abundance multiplied by the number of states of the other part.
Missing: the factor should not be there (`C106_counterexample`). -/
theorem C106_parts_partial (W : WC) (T : TC) (lib : Library) (so so' : Trans.SetOrder) (c : String) (central : Bool)
    (hcen : central = true → lib.twoI c % 2 = 1) (B0 : ℝ) (r : Rotor) (d : Meth.SDim) [NeZero d.count] (nOct : ℕ)
    (junk junk' : ℕ → Phys → List Trans.Tr → ℕ → ℕ → ℂ) (nt : ℕ) (l : List (Run.Sys Phys (List Trans.Tr) × Run.Sys Phys (List Trans.Tr)))
    (hl : ∀ p ∈ l, Spec.Given lib p.1 ∧ Spec.Given lib p.2)
    (hu : ∀ a ∈ l.map fun p => Spec.joined p.1 p.2, ∀ b ∈ l.map fun p => Spec.joined p.1 p.2,
      c ∈ a.isotopes → c ∈ b.isotopes → a.isotopes.length = b.isotopes.length → a.isotopes = b.isotopes)
    (hu' : ∀ a ∈ l.flatMap Spec.parts, ∀ b ∈ l.flatMap Spec.parts,
      c ∈ a.isotopes → c ∈ b.isotopes → a.isotopes.length = b.isotopes.length → a.isotopes = b.isotopes)
    (cpu cpu' nJobs nJobs' : ℤ) (hJ : 1 ≤ nJobs) (hJ' : 1 ≤ nJobs') :
    ∃ v : ZMod d.count → ℝ,
      Run.run (pulseEnv W T lib so c central B0 r d nOct junk nt) cpu false (l.map fun p => Spec.joined p.1 p.2) nJobs = .ok [.spec v] ∧
      Run.run (pulseEnv W T lib so' c central B0 r d nOct junk' nt) cpu' false (l.flatMap Spec.parts) nJobs' = .ok [.spec v] := by
  refine ⟨_, pulse_sum W T lib so c central hcen B0 r d nOct junk nt _ (fun s hs => ?_) hu cpu nJobs hJ, ?_⟩
  · obtain ⟨p, hp, rfl⟩ := List.mem_map.mp hs
    exact joined_given (hl p hp).1 (hl p hp).2
  rw [pulse_sum W T lib so' c central hcen B0 r d nOct junk' nt _ (fun s hs => ?_) hu' cpu' nJobs' hJ']
  · rw [mir_same W T lib so so' c central B0 r d nOct junk junk']
    congr 4
    rw [List.map_map]
    clear hu hu'
    induction l with
    | nil => rfl
    | cons p l ih =>
      rw [List.flatMap_cons, List.map_append, List.sum_append, ih fun q hq => hl q (by simp [hq]), List.map_cons, List.sum_cons]
      congr 1
      simp only [Spec.parts, List.map_cons, List.map_nil, List.sum_cons, List.sum_nil, add_zero, Function.comp_def]
      rw [lines_joined W T lib so c central B0 r d nOct junk nt p.1 p.2 (hl p (by simp)).1, smul_add, smul_smul, smul_smul,
        lines_same W T lib so so' c central B0 r d nOct junk junk', lines_same W T lib so so' c central B0 r d nOct junk junk']
      rw [lines_congr W T lib so c central B0 r d nOct junk nt { p.1 with abundance := p.1.abundance * Spec.levels p.2.phys.sites } p.1 rfl rfl,
        lines_congr W T lib so c central B0 r d nOct junk nt { p.2 with abundance := p.1.abundance * Spec.levels p.1.phys.sites } p.2 rfl rfl]
      have e : (Spec.joined p.1 p.2).abundance = p.1.abundance := rfl
      rw [e]
      congr 2 <;> ring
  · obtain ⟨p, hp, h⟩ := List.mem_flatMap.mp hs
    simp only [Spec.parts, List.mem_cons, List.not_mem_nil, or_false] at h
    rcases h with rfl | rfl
    · exact ⟨(hl p hp).1.explicit, (hl p hp).1.spins, (hl p hp).1.sites, (hl p hp).1.couplings⟩
    · exact ⟨(hl p hp).2.explicit, (hl p hp).2.spins, (hl p hp).2.sites, (hl p hp).2.couplings⟩

/-- An aluminium nucleus without neighbours. -/
noncomputable def loneSys : Run.Sys Phys (List Trans.Tr) :=
  ⟨["27Al"], none, 100, ⟨[⟨5, 11.1, 10, 0, 0, ⟨0, 0, 0⟩, 1000000, 0, ⟨0, 0, 0⟩⟩], []⟩⟩

example (W : WC) (T : TC) (so : Trans.SetOrder) (junk : ℕ → Phys → List Trans.Tr → ℕ → ℕ → ℂ) (cpu : ℤ) :
    haveI : NeZero (Meth.SDim.count ⟨512, 25000, 100, none⟩) := ⟨by norm_num⟩
    ∃ v : ZMod 512 → ℝ, Run.run (pulseEnv W T pairLib so "27Al" false 9.4 pairRotor ⟨512, 25000, 100, none⟩ 4 junk 70) cpu false
        [Spec.joined (pairSys 70) loneSys] 1 = .ok [.spec v] ∧
      Run.run (pulseEnv W T pairLib so "27Al" false 9.4 pairRotor ⟨512, 25000, 100, none⟩ 4 junk 70) cpu false
        (Spec.parts (pairSys 70, loneSys)) 4 = .ok [.spec v] := by
  have : NeZero (Meth.SDim.count ⟨512, 25000, 100, none⟩) := ⟨by norm_num⟩
  have hg : Spec.Given pairLib loneSys := by
    refine ⟨rfl, ?_, fun x hx => ?_, fun k hk => by cases hk⟩
    · simp [loneSys, pairLib]
    · simp only [loneSys, List.mem_cons, List.not_mem_nil, or_false] at hx
      subst hx
      norm_num
  have := C106_parts_partial W T pairLib so so "27Al" false (by simp) 9.4 pairRotor ⟨512, 25000, 100, none⟩ 4 junk junk 70
    [(pairSys 70, loneSys)] (by simpa using ⟨pair_given 70, hg⟩) (by simp)
    (by
      intro a ha b hb _ _ h
      simp only [List.flatMap_cons, List.flatMap_nil, List.append_nil, Spec.parts, List.mem_cons, List.not_mem_nil, or_false] at ha hb
      rcases ha with rfl | rfl <;> rcases hb with rfl | rfl <;> simp [pairSys, loneSys] at h ⊢)
    cpu cpu 1 4 le_rfl (by norm_num)
  simpa using this

/-- **C106, sites that are not coupled, partial.** In any list of spin systems without couplings, every spectrum after one pulse is, point by
point, the one of the list of all sites as spin systems of their own, with the abundance multiplied by the number of states of the other sites.
Missing: the factor should not be there (`C106_counterexample`). -/
theorem C106_uncoupled_partial (W : WC) (T : TC) (lib : Library) (so so' : Trans.SetOrder) (c : String) (central : Bool)
    (hcen : central = true → lib.twoI c % 2 = 1) (B0 : ℝ) (r : Rotor) (d : Meth.SDim) [NeZero d.count] (nOct : ℕ)
    (junk junk' : ℕ → Phys → List Trans.Tr → ℕ → ℕ → ℂ) (nt : ℕ) (l : List (Run.Sys Phys (List Trans.Tr)))
    (hl : ∀ s ∈ l, Spec.Given lib s) (hc : ∀ s ∈ l, s.phys.couplings = [])
    (hu : ∀ a ∈ l, ∀ b ∈ l, c ∈ a.isotopes → c ∈ b.isotopes → a.isotopes.length = b.isotopes.length → a.isotopes = b.isotopes)
    (cpu cpu' nJobs nJobs' : ℤ) (hJ : 1 ≤ nJobs) (hJ' : 1 ≤ nJobs') :
    ∃ v : ZMod d.count → ℝ,
      Run.run (pulseEnv W T lib so c central B0 r d nOct junk nt) cpu false l nJobs = .ok [.spec v] ∧
      Run.run (pulseEnv W T lib so' c central B0 r d nOct junk' nt) cpu' false (l.flatMap Spec.singles) nJobs' = .ok [.spec v] := by
  refine ⟨_, pulse_sum W T lib so c central hcen B0 r d nOct junk nt _ hl hu cpu nJobs hJ, ?_⟩
  have hs : ∀ t ∈ l.flatMap Spec.singles, ∃ s ∈ l, ∃ (k : ℕ) (i : String) (x : Site) (ab : ℚ), s.isotopes[k]? = some i ∧ s.phys.sites[k]? = some x ∧ t = ⟨[i], none, ab, ⟨[x], []⟩⟩ := by
    intro t ht
    obtain ⟨s, hs, h⟩ := List.mem_flatMap.mp ht
    obtain ⟨k, hk, rfl⟩ := List.mem_mapIdx.mp h
    rw [List.length_zip] at hk
    refine ⟨s, hs, k, s.isotopes[k], s.phys.sites[k], s.abundance * Spec.levels (s.phys.sites.eraseIdx k), List.getElem?_eq_getElem _, List.getElem?_eq_getElem _, ?_⟩
    rw [List.getElem_zip]
  rw [pulse_sum W T lib so' c central hcen B0 r d nOct junk' nt _ (fun t ht => ?_) (fun a ha b hb h1 h2 _ => ?_) cpu' nJobs' hJ']
  · rw [mir_same W T lib so so' c central B0 r d nOct junk junk', singles_sum W T lib so so' c central B0 r d nOct junk junk' nt l hl hc]
  · obtain ⟨s, hs, k, i, x, ab, h1, h2, rfl⟩ := hs t ht
    have hg := hl s hs
    refine ⟨rfl, ?_, fun y hy => ?_, fun q hq => by cases hq⟩
    · have := congrArg (fun l => l[k]?) hg.spins
      simp only [List.getElem?_map, h1, h2, Option.map_some, Option.some.injEq] at this
      simp [this]
    · simp only [List.mem_cons, List.not_mem_nil, or_false] at hy
      subst hy
      exact hg.sites _ (List.mem_of_getElem? h2)
  · obtain ⟨_, _, _, i, _, _, _, _, rfl⟩ := hs a ha
    obtain ⟨_, _, _, j, _, _, _, _, rfl⟩ := hs b hb
    simp only [List.mem_cons, List.not_mem_nil, or_false] at h1 h2
    rw [← h1, ← h2]

example (W : WC) (T : TC) (so : Trans.SetOrder) (junk : ℕ → Phys → List Trans.Tr → ℕ → ℕ → ℂ) (cpu : ℤ) :
    haveI : NeZero (Meth.SDim.count ⟨512, 25000, 100, none⟩) := ⟨by norm_num⟩
    ∃ v : ZMod 512 → ℝ, Run.run (pulseEnv W T pairLib so "27Al" true 9.4 pairRotor ⟨512, 25000, 100, none⟩ 4 junk 70) cpu false
        [Spec.joined loneSys loneSys] 1 = .ok [.spec v] ∧
      Run.run (pulseEnv W T pairLib so "27Al" true 9.4 pairRotor ⟨512, 25000, 100, none⟩ 4 junk 70) cpu false
        [{ loneSys with abundance := 600 }, { loneSys with abundance := 600 }] 4 = .ok [.spec v] := by
  have : NeZero (Meth.SDim.count ⟨512, 25000, 100, none⟩) := ⟨by norm_num⟩
  have hg : Spec.Given pairLib loneSys := by
    refine ⟨rfl, ?_, fun x hx => ?_, fun k hk => by cases hk⟩
    · simp [loneSys, pairLib]
    · simp only [loneSys, List.mem_cons, List.not_mem_nil, or_false] at hx
      subst hx
      norm_num
  have key := C106_uncoupled_partial W T pairLib so so "27Al" true (by simp [pairLib]) 9.4 pairRotor ⟨512, 25000, 100, none⟩ 4 junk junk 70
    [Spec.joined loneSys loneSys] (by simpa using joined_given hg hg) (by simp [Spec.joined, loneSys]) (by simp) cpu cpu 1 4 le_rfl (by norm_num)
  have e : [Spec.joined loneSys loneSys].flatMap Spec.singles = [{ loneSys with abundance := 600 }, { loneSys with abundance := 600 }] := by
    norm_num [Spec.singles, Spec.joined, loneSys, Spec.levels]
  rw [e] at key
  exact key

/-- **C106, spectators, partial.** Parts that are not coupled to the rest and do not contain the isotope of the channel do not change the shape
of a spectrum: the intensities are multiplied by the number `k` of their states.
Missing: the factor should not be there (`C106_counterexample`). -/
theorem C106_spectators_partial (W : WC) (T : TC) (lib : Library) (so so' : Trans.SetOrder) (c : String) (central : Bool)
    (hcen : central = true → lib.twoI c % 2 = 1) (B0 : ℝ) (r : Rotor) (d : Meth.SDim) [NeZero d.count] (nOct : ℕ)
    (junk junk' : ℕ → Phys → List Trans.Tr → ℕ → ℕ → ℂ) (nt : ℕ) (k : ℚ) (l : List (Run.Sys Phys (List Trans.Tr) × Run.Sys Phys (List Trans.Tr)))
    (hl : ∀ p ∈ l, Spec.Given lib p.1 ∧ Spec.Given lib p.2) (hc : ∀ p ∈ l, c ∉ p.2.isotopes) (hk : ∀ p ∈ l, Spec.levels p.2.phys.sites = k)
    (hu : ∀ a ∈ l.map Prod.fst, ∀ b ∈ l.map Prod.fst, c ∈ a.isotopes → c ∈ b.isotopes → a.isotopes.length = b.isotopes.length → a.isotopes = b.isotopes)
    (hu' : ∀ a ∈ l.map fun p => Spec.joined p.1 p.2, ∀ b ∈ l.map fun p => Spec.joined p.1 p.2,
      c ∈ a.isotopes → c ∈ b.isotopes → a.isotopes.length = b.isotopes.length → a.isotopes = b.isotopes)
    (cpu cpu' nJobs nJobs' : ℤ) (hJ : 1 ≤ nJobs) (hJ' : 1 ≤ nJobs') :
    ∃ v : ZMod d.count → ℝ,
      Run.run (pulseEnv W T lib so c central B0 r d nOct junk nt) cpu false (l.map Prod.fst) nJobs = .ok [.spec v] ∧
      Run.run (pulseEnv W T lib so' c central B0 r d nOct junk' nt) cpu' false (l.map fun p => Spec.joined p.1 p.2) nJobs' = .ok [.spec (k • v)] := by
  refine ⟨_, pulse_sum W T lib so c central hcen B0 r d nOct junk nt _ (fun s hs => ?_) hu cpu nJobs hJ, ?_⟩
  · obtain ⟨p, hp, rfl⟩ := List.mem_map.mp hs
    exact (hl p hp).1
  rw [pulse_sum W T lib so' c central hcen B0 r d nOct junk' nt _ (fun s hs => ?_) hu' cpu' nJobs' hJ']
  · have e : ((l.map fun p => Spec.joined p.1 p.2).map fun s => (s.abundance / (d.sw / d.count)) • lines W T lib so' c central B0 r d nOct junk' nt s).sum
        = k • ((l.map Prod.fst).map fun s => (s.abundance / (d.sw / d.count)) • lines W T lib so c central B0 r d nOct junk nt s).sum := by
      rw [List.smul_sum, List.map_map, List.map_map, List.map_map]
      congr 1
      refine List.map_congr_left fun p hp => ?_
      simp only [Function.comp_def]
      have h0 : lines W T lib so c central B0 r d nOct junk nt p.2 = 0 := by
        have : observedF c central p.2.isotopes p.2.phys.sites = ∅ := by
          rw [Finset.eq_empty_iff_forall_notMem]
          intro x hx
          obtain ⟨j, i, y, h1, -⟩ := ((observedF_mem _ _ _ _ _).mp hx).step
          exact hc p hp (List.mem_of_getElem? h1)
        unfold lines
        rw [this, Finset.sum_empty]
      rw [lines_same W T lib so so' c central B0 r d nOct junk junk', lines_joined W T lib so c central B0 r d nOct junk nt p.1 p.2 (hl p hp).1, h0,
        smul_zero, add_zero, hk p hp, smul_comm]
      rfl
    rw [e, mir_same W T lib so so' c central B0 r d nOct junk junk', mir_smul]
  · obtain ⟨p, hp, rfl⟩ := List.mem_map.mp hs
    exact joined_given (hl p hp).1 (hl p hp).2

/-- A nucleus without anisotropy. -/
noncomputable def plainSite : Site := ⟨1, -1, 0, 0, 0, ⟨0, 0, 0⟩, 0, 0, ⟨0, 0, 0⟩⟩

/-- The nucleus alone. -/
noncomputable def plainSys : Run.Sys Phys (List Trans.Tr) := ⟨["15N"], none, 100, ⟨[plainSite], []⟩⟩

/-- A proton that is not coupled to anything. -/
noncomputable def plainProton : Run.Sys Phys (List Trans.Tr) := ⟨["1H"], none, 100, ⟨[plainSite], []⟩⟩

theorem plain_line (p : ℝ × ℝ) (x : List ℕ × List ℕ) : Spec.pulseLine exampleLib "15N" 1 plainSys.phys x p = 0 := by
  have h : ∀ n, Spec.along (Spec.haeberlen 0 0) n = 0 := by
    intro n
    have : Spec.haeberlen 0 0 = 0 := by
      unfold Spec.haeberlen
      ext i j
      fin_cases i <;> fin_cases j <;> simp
    rw [this, Spec.along, Matrix.zero_mulVec, dotProduct_zero]
  have e : ∀ M y, Spec.energy true 1 M [plainSite] [] y = 0 := by
    intro M y
    unfold Spec.energy
    cases y with
    | nil => simp
    | cons j y => simp [Spec.siteEnergy, plainSite, h]
  unfold Spec.pulseLine Spec.line plainSys
  simp only
  rw [e, e]
  simp

theorem plain_observed (x : List ℕ × List ℕ) : Spec.Observed "15N" false plainSys.isotopes plainSys.phys.sites x ↔ x = ([1], [0]) := by
  constructor
  · obtain ⟨xi, xf⟩ := x
    rintro ⟨h1, h2, k, i, s, e1, e2, e3, e4, -⟩
    simp only at h1 h2 e3 e4
    have hk : k = 0 := by
      have : k < 1 := (List.getElem?_eq_some_iff.mp e1).1
      omega
    subst hk
    cases h1 with
    | @cons _ b _ u ha hb =>
      cases hb
      have : b ≤ 1 := ha
      have : b = i + 1 := by simpa using e3
      have hi : i = 0 := by omega
      refine Prod.ext ?_ ?_
      · simp only
        rw [this, hi]
      · rw [e4, hi]
        simp
  · rintro rfl
    exact ⟨List.Forall₂.cons (by norm_num [plainSite]) List.Forall₂.nil, List.Forall₂.cons (by norm_num [plainSite]) List.Forall₂.nil,
      0, 0, plainSite, rfl, rfl, rfl, rfl, by simp⟩

theorem plain_sound : Spec.Sound exampleLib plainSys := by
  refine ⟨rfl, rfl, fun x hx => ?_, fun k hk => by cases hk⟩
  simp only [plainSys, List.mem_cons, List.not_mem_nil, or_false] at hx
  subst hx
  simp [Site.Upright, plainSite]

/-- **C106, counterexample.** A proton that is not coupled to anything, added to the spin system of one nitrogen nucleus, doubles the
intensities of the nitrogen spectrum. -/
theorem C106_counterexample (so : Trans.SetOrder) (junk : ℕ → Phys → List Trans.Tr → ℕ → ℕ → ℂ) (cpu : ℤ) :
    haveI : NeZero (Meth.SDim.count ⟨512, 8, 0, none⟩) := ⟨by norm_num⟩
    ∃ (nt : ℕ) (v v' : ZMod 512 → ℝ),
      Run.run (pulseEnv WC.exact TC.exact exampleLib so "15N" false 1 exampleStill ⟨512, 8, 0, none⟩ 1 junk nt) cpu false [plainSys] 1 = .ok [.spec v] ∧
      Run.run (pulseEnv WC.exact TC.exact exampleLib so "15N" false 1 exampleStill ⟨512, 8, 0, none⟩ 1 junk nt) cpu false
        [Spec.joined plainSys plainProton] 1 = .ok [.spec v'] ∧ v' = (2 : ℚ) • v ∧ v' ≠ v := by
  have : NeZero (Meth.SDim.count ⟨512, 8, 0, none⟩) := ⟨by norm_num⟩
  obtain ⟨v, h1, -, h3⟩ := C96_static_partial exampleLib so "15N" (by norm_num [exampleLib]) false (by simp) 1 exampleStill (by norm_num [exampleStill])
    ⟨512, 8, 0, none⟩ (by norm_num)
    (by norm_num) 1 junk [plainSys]
    (by
      intro s hs
      simp only [List.mem_cons, List.not_mem_nil, or_false] at hs
      subst hs
      exact plain_sound)
    (by
      intro a ha b hb _ _ _
      simp only [List.mem_cons, List.not_mem_nil, or_false] at ha hb
      rw [ha, hb])
    (Or.inr ⟨rfl, by
      intro s hs
      simp only [List.mem_cons, List.not_mem_nil, or_false] at hs
      subst hs
      simp [Spec.Unturned, plainSite, plainSys]⟩)
    (by
      intro s hs x hx
      simp only [List.mem_cons, List.not_mem_nil, or_false] at hs
      subst hs
      exact Or.inr ⟨0, fun p => plain_line p x⟩) cpu 1 le_rfl
  have hlim := h3 256 (by norm_num) (by norm_num)
  have hval : ([plainSys].map fun s => if "15N" ∈ s.isotopes then ((s.abundance / (8 / (512 : ℕ)) : ℚ) : ℝ) *
      ∑ᶠ (x) (_ : Spec.Observed "15N" false s.isotopes s.phys.sites x),
        3 * Real.pi * Spec.pattern (decide (0 < exampleLib.gamma "15N")) ⟨512, 8, 0, none⟩ 256 (Spec.pulseLine exampleLib "15N" 1 s.phys x)
      else 0).sum = 6400 * (3 * Real.pi) := by
    have hsum : ∀ g : List ℕ × List ℕ → ℝ,
        (∑ᶠ (x) (_ : Spec.Observed "15N" false plainSys.isotopes plainSys.phys.sites x), g x) = g ([1], [0]) := by
      intro g
      simp only [plain_observed]
      rw [finsum_eq_single _ ([1], [0]) (fun x hx => by simp [hx])]
      simp
    have hf : Spec.pulseLine exampleLib "15N" 1 plainSys.phys ([1], [0]) = fun _ => 0 := funext fun p => plain_line p _
    have hon : (0 : ℝ) ∈ Spec.onAxis (decide (0 < exampleLib.gamma "15N")) ⟨512, 8, 0, none⟩ := by
      refine ⟨256, ?_, ?_⟩
      · rw [if_neg (by norm_num [exampleLib])]
        norm_num
      · unfold Spec.bin exampleLib Meth.Spec.coord
        norm_num
    have hp : Spec.pattern (decide (0 < exampleLib.gamma "15N")) ⟨512, 8, 0, none⟩ 256 (fun _ => (0 : ℝ)) = 1 := by
      rw [Spec.pattern, if_pos ⟨0, fun _ => rfl⟩, Spec.peak, if_pos hon]
      unfold Bin.Spec.linear Meth.Spec.coord
      norm_num
    have hc : "15N" ∈ plainSys.isotopes := by simp [plainSys]
    simp only [List.map_cons, List.map_nil, List.sum_cons, List.sum_nil, hsum, if_pos hc]
    rw [hf, hp]
    simp only [plainSys]
    push_cast
    ring
  have hlim' : Filter.Tendsto (fun nt => v nt 256) Filter.atTop (nhds (6400 * (3 * Real.pi))) := by
    rw [← hval]
    exact hlim
  have hpos : (0 : ℝ) < 6400 * (3 * Real.pi) := by positivity
  obtain ⟨nt, hnt⟩ := (hlim'.eventually (lt_mem_nhds hpos)).exists
  have hg : Spec.Given exampleLib plainSys := plain_sound.given
  have hg' : Spec.Given exampleLib plainProton := by
    refine ⟨rfl, rfl, fun x hx => ?_, fun k hk => by cases hk⟩
    simp only [plainProton, List.mem_cons, List.not_mem_nil, or_false] at hx
    subst hx
    simp [plainSite]
  obtain ⟨w, w1, w2⟩ := C106_spectators_partial WC.exact TC.exact exampleLib so so "15N" false (by simp) 1 exampleStill ⟨512, 8, 0, none⟩ 1 junk junk nt 2
    [(plainSys, plainProton)] (by simpa using ⟨hg, hg'⟩)
    (by simp [plainProton]) (by norm_num [Spec.levels, plainProton, plainSite]) (by simp) (by simp) cpu cpu 1 1 le_rfl le_rfl
  have e := (h1 nt).symm.trans w1
  simp only [Except.ok.injEq, List.cons.injEq, Run.Datum.spec.injEq, and_true] at e
  refine ⟨nt, v nt, (2 : ℚ) • v nt, h1 nt, by rw [e]; exact w2, rfl, fun h => ?_⟩
  have := congrFun h 256
  simp only [Pi.smul_apply, Rat.smul_def] at this
  push_cast at this
  linarith

end MRS.Freq
