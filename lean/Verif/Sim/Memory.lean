import Mathlib.Algebra.Order.BigOperators.Group.List
import Mathlib.Algebra.Order.BigOperators.Group.Multiset
import Mathlib.Data.Multiset.Filter
import Mathlib.Data.Rat.Defs
import Mathlib.Algebra.Order.Group.Multiset
import Mathlib.Algebra.BigOperators.Group.Multiset.Basic
import Mathlib.Tactic.Ring
import Mathlib.Tactic.Abel
import Mathlib.Tactic.Linarith

/-!
# Memory of a simulation — property C115

The C code allocates an averaging scheme, dimensions with their events and plans, an FFT scheme, and temporary buffers for every pathway, and
frees some of them (lib/schemes.c, lib/method.c, lib/mrsimulator.c, lib/simulation.c, lib/frequency_averaging.c, called from
base/base_model.pyx).  The model is the sequence of allocations, releases and accesses; the values that are stored are not modelled.

Simplified: `malloc` never fails and never returns an address twice, so that every access to memory that was released is seen.  An access is
one of the whole buffer (indices are the subject of C36 and C69).  Calls of `single_wigner_rotation` by the interactions of first order,
which release what they allocate in the same way as those of second order, are left out.  The integration volume is an octant or a
hemisphere (simulator/config.py:71).
-/

namespace MRS.Mem

/-- A C pointer: `NULL`, not initialised, or an address. -/
inductive Ptr where
  | null
  | wild
  | to (a : ℕ)
  deriving DecidableEq, Repr

/-- What can go wrong: access or release of memory that is not (or no longer) allocated, of `NULL` or through a pointer that is not set. -/
inductive Fault where
  | freed
  | null
  | wild
  deriving DecidableEq, Repr

/-- The next fresh address, and the allocated blocks with their sizes in bytes. -/
structure Heap where
  next : ℕ
  live : Multiset (ℕ × ℕ)

/-- A C function: it changes the allocated memory, or ends in a fault. -/
abbrev Prog := StateT Heap (Except Fault)

/-- `malloc` of the C library. -/
def malloc (n : ℕ) : Prog Ptr := fun h => .ok (.to h.next, ⟨h.next + 1, (h.next, n) ::ₘ h.live⟩)

/-- Reading or writing a buffer. -/
def access : Ptr → Prog Unit
  | .null => fun _ => .error .null
  | .wild => fun _ => .error .wild
  | .to a => fun h => if a ∈ h.live.map Prod.fst then .ok ((), h) else .error .freed

/-- `free` of the C library; `free(NULL)` does nothing. -/
def free : Ptr → Prog Unit
  | .null => pure ()
  | .wild => fun _ => .error .wild
  | .to a => fun h => if a ∈ h.live.map Prod.fst then .ok ((), ⟨h.next, h.live.filter fun b => b.1 ≠ a⟩) else .error .freed

/-- `malloc` if `b`, and `NULL` otherwise. -/
def mallocIf (b : Bool) (n : ℕ) : Prog Ptr := if b then malloc n else pure .null

/-- `if (b) m`. -/
def when (b : Prop) [Decidable b] (m : Prog Unit) : Prog Unit := if b then m else pure ()

/-- The sizes of the structures, which depend on the compiler (include/schemes.h:19-48, include/mrsimulator.h:36-96, include/method.h:15-38) and
of the plan that FFTW keeps. -/
structure Sizes where
  scheme : ℕ
  fftw : ℕ
  fftwPlan : ℕ
  plan : ℕ
  event : ℕ
  dimension : ℕ

/-- Orientations of an octant, octants, sidebands, and `allow_fourth_rank` (base_model.pyx:81-90). -/
structure Cfg where
  octant : ℕ
  nOct : ℕ
  ssb : ℕ
  four : Bool

/-- schemes.c:16-28 `total_orientations`. -/
def Cfg.total (c : Cfg) : ℕ := c.octant * c.nOct

/-- The pointers of `MRS_averaging_scheme` (include/schemes.h:19-48). -/
structure Scheme where
  self : Ptr
  alpha : Ptr
  amps : Ptr
  wig2 : Ptr
  wig4 : Ptr
  w2 : Ptr
  w4 : Ptr

/-- octahedron.c:88-159 (`octahedronGetComplexExpOfPolarAngleOverOctant`, called by `averaging_setup`, 184-188). -/
def averagingSetup (c : Cfg) (alpha beta amps : Ptr) : Prog Unit := do
  let xr ← malloc (8 * c.octant)
  let yr ← malloc (8 * c.octant)
  let zr ← malloc (8 * c.octant)
  access amps
  access beta
  access alpha
  free xr
  free yr
  free zr

/-- schemes.c:129-155 `MRS_create_averaging_scheme` with 12-116 `averaging_scheme_setup`. -/
def createScheme (S : Sizes) (c : Cfg) : Prog Scheme := do
  let self ← malloc S.scheme
  let alpha ← malloc (16 * (4 * c.octant))
  let beta ← malloc (16 * c.octant)
  let amps ← malloc (8 * c.octant)
  averagingSetup c alpha beta amps
  let wig2 ← malloc (8 * (15 * c.octant))
  access beta
  let wig4 ← mallocIf c.four (8 * (45 * c.octant))
  free beta
  let w2 ← malloc (16 * (3 * c.total))
  let w4 ← mallocIf c.four (16 * (5 * c.total))
  pure ⟨self, alpha, amps, wig2, wig4, w2, w4⟩

/-- schemes.c:118-127 `MRS_free_averaging_scheme`.  The structure itself is not freed. -/
def freeScheme (s : Scheme) : Prog Unit := do
  access s.self
  free s.amps
  free s.alpha
  free s.w2
  free s.w4
  free s.wig2
  free s.wig4

/-- The pointers of `MRS_plan` (include/mrsimulator.h:36-96).  They do not change once the plan is made, so that an event holds the record
itself. -/
structure Plan where
  self : Ptr
  norm : Ptr
  vr : Ptr
  phase : Ptr
  d2 : Ptr
  d4 : Ptr
  phase2 : Ptr
  phase4 : Ptr

/-- mrsimulator.c:133-205 `MRS_plan_update_from_rotor_angle_in_rad`. -/
def updateAngle (c : Cfg) (p : Plan) : Prog Plan := do
  access p.self
  let d2 ← malloc (8 * 5)
  let d4 ← mallocIf c.four (8 * 9)
  let phase2 ← malloc (16 * (2 * c.ssb))
  access p.phase
  let phase4 ← mallocIf c.four (16 * (4 * c.ssb))
  pure ⟨p.self, p.norm, p.vr, p.phase, d2, d4, phase2, phase4⟩

/-- mrsimulator.c:97-128 `MRS_plan_update_from_sample_rotation_frequency_in_Hz`, with vm_common.h:96-117. -/
def updateFrequency (c : Cfg) (p : Plan) : Prog Plan := do
  access p.self
  let vr ← malloc (8 * c.ssb)
  let phase ← malloc (16 * (4 * c.ssb))
  updateAngle c ⟨p.self, p.norm, vr, phase, p.d2, p.d4, p.phase2, p.phase4⟩

/-- mrsimulator.c:53-95 `MRS_create_plan`. -/
def createPlan (S : Sizes) (c : Cfg) (s : Scheme) : Prog Plan := do
  let self ← malloc S.plan
  access s.self
  let norm ← malloc (8 * c.octant)
  access s.amps
  updateFrequency c ⟨self, norm, .wild, .wild, .wild, .wild, .wild, .wild⟩

/-- mrsimulator.c:210-231 `MRS_copy_plan`: the buffers are shared. -/
def copyPlan (S : Sizes) (p : Plan) : Prog Plan := do
  let self ← malloc S.plan
  access p.self
  pure ⟨self, p.norm, p.vr, p.phase, p.d2, p.d4, p.phase2, p.phase4⟩

/-- `event->plan` (method.h lines 15-22). -/
inductive PlanRef where
  | null
  | wild
  | set (p : Plan)

/-- The pointers of `MRS_event` (include/method.h:15-22). -/
structure Event where
  amp : Ptr
  plan : PlanRef

/-- The rotor frequency and the rotor angle of an event (method.c lines 20-53). -/
abbrev Spin := ℚ × ℚ

/-- method.c:20-54 `MRS_set_event`; `first` is what the plan was made for. -/
def setEvent (S : Sizes) (c : Cfg) (plan : Plan) (first spin : Spin) : Prog PlanRef := do
  access plan.self
  if spin.1 = first.1 ∧ spin.2 = first.2 then pure (.set plan)
  else if spin.1 ≠ first.1 ∧ spin.2 = first.2 then do
    let p ← copyPlan S plan
    let p ← updateFrequency c p
    pure (.set p)
  else if spin.1 = first.1 ∧ spin.2 ≠ first.2 then do
    let p ← copyPlan S plan
    let p ← updateAngle c p
    pure (.set p)
  else pure .wild

/-- The pointers of `MRS_dimension` (include/method.h:24-38); `evs` is what the array `events` holds. -/
structure Dim where
  events : Ptr
  evs : List Event
  loc : Ptr
  off : Ptr

/-- method.c:77-83, the loop over the events. -/
def createEvents (S : Sizes) (c : Cfg) (plan : Plan) (first : Spin) : List Spin → Prog (List Event)
  | [] => pure []
  | spin :: spins => do
    let amp ← malloc (8 * (c.total * c.ssb))
    access amp
    let r ← setEvent S c plan first spin
    let rest ← createEvents S c plan first spins
    pure (⟨amp, r⟩ :: rest)

/-- method.c:61-92 `create_plans_for_events_in_dimension`.  Without events the frequency of the plan is read elsewhere; the theorems ask for
one event. -/
def createDim (S : Sizes) (c : Cfg) (s : Scheme) (spins : List Spin) : Prog Dim := do
  let events ← malloc (spins.length * S.event)
  let plan ← createPlan S c s
  let evs ← createEvents S c plan (spins.headD (0, 0)) spins
  let loc ← malloc (8 * c.total)
  let off ← malloc (8 * c.octant)
  pure ⟨events, evs, loc, off⟩

/-- method.c:102-112, the loop over the dimensions. -/
def createDims (S : Sizes) (c : Cfg) (s : Scheme) : List (List Spin) → Prog (List Dim)
  | [] => pure []
  | spins :: rest => do
    let d ← createDim S c s spins
    let ds ← createDims S c s rest
    pure (d :: ds)

/-- mrsimulator.c:17-26 `MRS_free_plan`: the tests are the wrong way round, so that only `NULL` is freed. -/
def freePlan (p : Plan) : Prog Unit := do
  access p.self
  when (p.vr = .null) (free p.vr)
  when (p.d2 = .null) (free p.d2)
  when (p.d4 = .null) (free p.d4)
  when (p.norm = .null) (free p.norm)
  when (p.phase = .null) (free p.phase)
  when (p.phase2 = .null) (free p.phase2)
  when (p.phase4 = .null) (free p.phase4)

/-- method.c:14-16: again, the plan is freed if the pointer is `NULL`. -/
def freeEventPlan : PlanRef → Prog Unit
  | .null => freePlan ⟨.null, .null, .null, .null, .null, .null, .null, .null⟩
  | .wild => pure ()
  | .set _ => pure ()

/-- method.c:13-18 `MRS_free_event`. -/
def freeEvent (e : Event) : Prog Unit := do
  freeEventPlan e.plan
  free e.amp

/-- method.c:137-139. -/
def freeEvents : List Event → Prog Unit
  | [] => pure ()
  | e :: es => do
    freeEvent e
    freeEvents es

/-- method.c:132-143 `MRS_free_dimension`.  Neither the array of events nor that of the dimensions is freed. -/
def freeDims : List Dim → Prog Unit
  | [] => pure ()
  | d :: ds => do
    access d.events
    freeEvents d.evs
    free d.loc
    free d.off
    freeDims ds

/-- The pointers of `MRS_fftw_scheme` (schemes.h lines 107-113). -/
structure Fftw where
  self : Ptr
  vector : Ptr
  plan : Ptr

/-- schemes.c:185-211 `create_fftw_scheme`. -/
def createFftw (S : Sizes) (c : Cfg) : Prog Fftw := do
  let self ← malloc S.fftw
  let vector ← malloc (16 * (c.total * c.ssb))
  let plan ← malloc S.fftwPlan
  pure ⟨self, vector, plan⟩

/-- schemes.c:213-216 `MRS_free_fftw_scheme`. -/
def freeFftw (f : Fftw) : Prog Unit := do
  access f.self
  free f.plan
  free f.vector

/-- angular_momentum.c:754-824 `single_wigner_rotation` and 46-51 `wigner_d_matrices`. -/
def singleRotation (l : ℕ) : Prog Unit := do
  let wigner ← malloc (8 * ((2 * l + 1) * (2 * l + 1)))
  let temp ← malloc (8 * (2 * (2 * l + 1)))
  let beta ← malloc 16
  access beta
  free beta
  access wigner
  access temp
  free wigner
  free temp

/-- frequency_tensor_components.h:161-181: the buffer of the transition functions is not freed. -/
def secondOrder : Prog Unit := do
  let cl ← malloc (8 * 3)
  access cl
  singleRotation 2
  singleRotation 4
  access cl

/-- mrsimulator.c:511-514, for `q` sites of a transition. -/
def secondOrders : ℕ → Prog Unit
  | 0 => pure ()
  | q + 1 => do
    secondOrder
    secondOrders q

/-- angular_momentum.c:521-593 `__wigner_rotation_2`. -/
def rotation (l : ℕ) (wigner alpha R out : Ptr) : Prog Unit := do
  let temp ← malloc (8 * (2 * (2 * l + 1)))
  access wigner
  access alpha
  access R
  access out
  access temp
  free temp

/-- angular_momentum.c:883-951 `__batch_wigner_rotation`: once for every octant (the case of eight octants is not modelled). -/
def rotations (s : Scheme) (R2 R4 : Ptr) : ℕ → Prog Unit
  | 0 => pure ()
  | j + 1 => do
    rotation 2 s.wig2 s.alpha R2 s.w2
    when (s.w4 ≠ .null) (rotation 4 s.wig4 s.alpha R4 s.w4)
    rotations s R2 R4 j

/-- simulation.c:106-150, the body of the loop over the events, with mrsimulator.c:409-451 and 241-345; `q` is the number of sites whose
second order is evaluated. -/
def coreEvent (c : Cfg) (s : Scheme) (f : Fftw) (R2 R4 R2t R4t : Ptr) (d : Dim) (e : Event) (q : ℕ) : Prog Unit := do
  access d.events
  match e.plan with
  | .null => access .null
  | .wild => access .wild
  | .set p => do
    access p.self
    access R2
    access R4
    secondOrders q
    access R2t
    access R4t
    access s.self
    rotations s R2 R4 c.nOct
    access d.loc
    access p.d2
    access s.w2
    when c.four do
      access p.d4
      access s.w4
    when (c.ssb ≠ 1) do
      access f.self
      access p.phase2
      access s.w2
      access f.vector
      when (s.w4 ≠ .null) do
        access p.phase4
        access s.w4
      access f.plan
      access e.amp

/-- simulation.c:106-150 over the events of a dimension; the list holds the number of sites of second order of each event. -/
def coreEvents (c : Cfg) (s : Scheme) (f : Fftw) (R2 R4 R2t R4t : Ptr) (d : Dim) : List Event → List ℕ → Prog Unit
  | [], _ => pure ()
  | e :: es, qs => do
    coreEvent c s f R2 R4 R2t R4t d e (qs.headD 0)
    coreEvents c s f R2 R4 R2t R4t d es qs.tail

/-- simulation.c:103-151 over the dimensions. -/
def coreDims (c : Cfg) (s : Scheme) (f : Fftw) (R2 R4 R2t R4t : Ptr) : List Dim → List (List ℕ) → Prog Unit
  | [], _ => pure ()
  | d :: ds, qs => do
    coreEvents c s f R2 R4 R2t R4t d d.evs (qs.headD [])
    coreDims c s f R2 R4 R2t R4t ds qs.tail

/-- The amplitudes of all events (frequency_averaging.c:13-21, 156-161, 164-169). -/
def accessAmps : List Event → Prog Unit
  | [] => pure ()
  | e :: es => do
    access e.amp
    accessAmps es

/-- The structure and the tables that the averages read from a plan (frequency_averaging.c:34-81, 158-179). -/
def accessPlan (e : Event) : Prog Unit :=
  match e.plan with
  | .null => access .null
  | .wild => access .wild
  | .set p => do
    access p.self
    access p.norm
    access p.vr

/-- The event that the average reads the plan of; without events an element outside the array
(frequency_averaging.c lines 13-95). -/
def accessOf : Option Event → Prog Unit
  | none => access .wild
  | some e => accessPlan e

/-- The amplitudes of the first event (frequency_averaging.c lines 13-95). -/
def accessAmp : Option Event → Prog Unit
  | none => access .wild
  | some e => access e.amp

/-- frequency_averaging.c:98-106 `one_dimensional_averaging` with 23-96. -/
def average1 (d : Dim) : Prog Unit := do
  access d.events
  when (d.evs.length ≠ 1) (accessAmps d.evs)
  accessAmp d.evs.head?
  accessOf d.evs.head?
  access d.loc
  access d.off

/-- frequency_averaging.c:108-230 `two_dimensional_averaging`; the plans are those of the last events. -/
def average2 (c : Cfg) (d0 d1 : Dim) : Prog Unit := do
  let ampA ← malloc (8 * (c.total * c.ssb))
  let ampB ← malloc (8 * (c.total * c.ssb))
  let amp ← malloc (8 * c.total)
  access d0.loc
  access d1.loc
  access d0.events
  accessAmps d0.evs
  access d1.events
  accessAmps d1.evs
  accessOf d0.evs.getLast?
  accessOf d1.evs.getLast?
  access d0.off
  access d1.off
  free amp
  free ampA
  free ampB

/-- simulation.c:38-172 `__mrsimulator_core`. -/
def core (c : Cfg) (s : Scheme) (f : Fftw) (arr : Ptr) (dims : List Dim) (qs : List (List ℕ)) : Prog Unit := do
  let R2 ← malloc (16 * 5)
  let R4 ← malloc (16 * 9)
  let R2t ← malloc (16 * 5)
  let R4t ← malloc (16 * 9)
  access arr
  coreDims c s f R2 R4 R2t R4t dims qs
  free R2
  free R4
  free R2t
  free R4t
  match dims with
  | [d] => average1 d
  | [d0, d1] => average2 c d0 d1
  | _ => pure ()

/-- base_model.pyx:468-484, all pathways of all spin systems one after the other. -/
def cores (c : Cfg) (s : Scheme) (f : Fftw) (arr : Ptr) (dims : List Dim) : List (List (List ℕ)) → Prog Unit
  | [] => pure ()
  | qs :: rest => do
    core c s f arr dims qs
    cores c s f arr dims rest

/-- base_model.pyx:86-508 `one_d_spectrum`: the calls of the C library. -/
def simulate (S : Sizes) (c : Cfg) (dims : List (List Spin)) (paths : List (List (List ℕ))) : Prog Unit := do
  let s ← createScheme S c
  let arr ← malloc (dims.length * S.dimension)
  let ds ← createDims S c s dims
  let f ← createFftw S c
  cores c s f arr ds paths
  access arr
  freeDims ds
  freeScheme s
  freeFftw f

/-! ## Specification -/

/-- The allocated bytes. -/
def Heap.bytes (h : Heap) : ℕ := (h.live.map Prod.snd).sum

/-- Addresses are given once, and below the next one. -/
def Heap.Sound (h : Heap) : Prop := (h.live.map Prod.fst).Nodup ∧ ∀ b ∈ h.live, b.1 < h.next

/-- No event of a dimension differs from the first in the rotor frequency and in the rotor angle (C42). -/
def Spec.Planned (spins : List Spin) : Prop :=
  spins ≠ [] ∧ ∀ s ∈ spins, s.1 = (spins.headD (0, 0)).1 ∨ s.2 = (spins.headD (0, 0)).2

/-- The tables for a rotor angle: two Wigner vectors and two phases. -/
def Spec.angleTables (c : Cfg) : ℕ := 40 + 32 * c.ssb + if c.four then 72 + 64 * c.ssb else 0

/-- What an event has of its own besides the buffer of its amplitudes, if it differs from the first. -/
def Spec.eventLeft (S : Sizes) (c : Cfg) (first spin : Spin) : ℕ :=
  if spin = first then 0 else if spin.2 = first.2 then S.plan + 72 * c.ssb + Spec.angleTables c else S.plan + Spec.angleTables c

/-- What is left of a dimension: the array of events, the plan with its tables, and the plans of the other events. -/
def Spec.dimLeft (S : Sizes) (c : Cfg) (spins : List Spin) : ℕ :=
  spins.length * S.event + (S.plan + 8 * c.octant + 72 * c.ssb + Spec.angleTables c) +
    (spins.map fun spin => Spec.eventLeft S c (spins.headD (0, 0)) spin).sum

/-- What is left of a pathway: three numbers for every site of second order and every event. -/
def Spec.pathLeft (dims : List (List Spin)) (qs : List (List ℕ)) : ℕ :=
  24 * (List.zipWith (fun (spins : List Spin) (q : List ℕ) => (q.take spins.length).sum) dims qs).sum

/-- The bytes that a simulation leaves behind. -/
def Spec.left (S : Sizes) (c : Cfg) (dims : List (List Spin)) (paths : List (List (List ℕ))) : ℕ :=
  S.scheme + S.fftw + dims.length * S.dimension + (dims.map (Spec.dimLeft S c)).sum + (paths.map (Spec.pathLeft dims)).sum

/-! ## Triples -/

/-- Allocated blocks: address and size. -/
abbrev Blocks := Multiset (ℕ × ℕ)

/-- From `P`, and whatever else is allocated, to `R`, without a fault. -/
def Triple {α : Type} (P : Blocks) (m : Prog α) (Q : α → Blocks → Prop) : Prop :=
  ∀ h F, h.Sound → h.live = P + F → ∃ a h' R, m h = .ok (a, h') ∧ h'.Sound ∧ h.next ≤ h'.next ∧ h'.live = R + F ∧ Q a R

theorem Triple.bind {α β : Type} {P : Blocks} {m : Prog α} {f : α → Prog β} {Q : α → Blocks → Prop} {T : β → Blocks → Prop}
    (hm : Triple P m Q) (hf : ∀ a R, Q a R → Triple R (f a) T) : Triple P (m >>= f) T := by
  intro h F hs hl
  obtain ⟨a, h', R, e, hs', hn, hl', hq⟩ := hm h F hs hl
  obtain ⟨b, h'', R', e', hs'', hn', hl'', hq'⟩ := hf a R hq h' F hs' hl'
  refine ⟨b, h'', R', ?_, hs'', hn.trans hn', hl'', hq'⟩
  show (StateT.bind m f) h = _
  unfold StateT.bind
  rw [e]
  exact e'

theorem Triple.pure {α : Type} {P : Blocks} {a : α} {Q : α → Blocks → Prop} (hq : Q a P) : Triple P (pure a : Prog α) Q :=
  fun h _ hs hl => ⟨a, h, P, rfl, hs, le_rfl, hl, hq⟩

theorem Triple.post {α : Type} {P : Blocks} {m : Prog α} {Q T : α → Blocks → Prop} (hm : Triple P m Q) (hq : ∀ a R, Q a R → T a R) :
    Triple P m T := by
  intro h F hs hl
  obtain ⟨a, h', R, e, hs', hn, hl', hq'⟩ := hm h F hs hl
  exact ⟨a, h', R, e, hs', hn, hl', hq a R hq'⟩

theorem Triple.pre {α : Type} {P P' : Blocks} {m : Prog α} {Q : α → Blocks → Prop} (e : P = P') (hm : Triple P' m Q) : Triple P m Q := e ▸ hm

/-- The block at a pointer. -/
def blk : Ptr → ℕ → Blocks
  | .to a, n => {(a, n)}
  | _, _ => 0

/-- The pointer is an address. -/
def Ptr.Valid (p : Ptr) : Prop := ∃ a, p = .to a

/-- The pointer leads to an allocated block. -/
def Reach (P : Blocks) (p : Ptr) : Prop := ∃ a n, p = .to a ∧ (a, n) ∈ P

theorem Reach.mono {P P' : Blocks} {p : Ptr} (h : Reach P p) (hle : P ≤ P') : Reach P' p := by
  obtain ⟨a, n, e, hm⟩ := h
  exact ⟨a, n, e, Multiset.mem_of_le hle hm⟩

theorem reach_blk {p : Ptr} (hp : p.Valid) (n : ℕ) : Reach (blk p n) p := by
  obtain ⟨a, rfl⟩ := hp
  exact ⟨a, n, rfl, Multiset.mem_singleton_self _⟩

theorem malloc_spec (P : Blocks) (n : ℕ) : Triple P (malloc n) fun p R => p.Valid ∧ R = blk p n + P := by
  intro h F hs hl
  refine ⟨.to h.next, ⟨h.next + 1, (h.next, n) ::ₘ h.live⟩, blk (.to h.next) n + P, rfl, ⟨?_, ?_⟩, Nat.le_succ _, ?_, ⟨_, rfl⟩, rfl⟩
  · rw [Multiset.map_cons, Multiset.nodup_cons]
    refine ⟨fun hm => ?_, hs.1⟩
    obtain ⟨b, hb, e⟩ := Multiset.mem_map.mp hm
    have := hs.2 b hb
    simp only at e
    omega
  · intro b hb
    rcases Multiset.mem_cons.mp hb with rfl | hb
    · exact Nat.lt_succ_self _
    · exact (hs.2 b hb).trans (Nat.lt_succ_self _)
  · show (h.next, n) ::ₘ h.live = _
    rw [hl, ← Multiset.singleton_add]
    exact (add_assoc _ _ _).symm

theorem access_spec {P : Blocks} {p : Ptr} (hp : Reach P p) : Triple P (access p) fun _ R => R = P := by
  obtain ⟨a, n, rfl, hm⟩ := hp
  intro h F hs hl
  refine ⟨(), h, P, ?_, hs, le_rfl, hl, rfl⟩
  have : a ∈ h.live.map Prod.fst := Multiset.mem_map.mpr ⟨(a, n), by rw [hl]; exact Multiset.mem_add.mpr (Or.inl hm), rfl⟩
  simp only [access, if_pos this]

theorem free_spec {p : Ptr} (hp : p.Valid) (n : ℕ) (P : Blocks) : Triple (blk p n + P) (free p) fun _ R => R = P := by
  obtain ⟨a, rfl⟩ := hp
  intro h F hs hl
  have hl' : h.live = (a, n) ::ₘ (P + F) := by
    rw [hl, ← Multiset.singleton_add]
    exact add_assoc _ _ _
  have hmem : a ∈ h.live.map Prod.fst := by
    rw [hl']
    simp
  have hnot : a ∉ (P + F).map Prod.fst := by
    have := hs.1
    rw [hl', Multiset.map_cons, Multiset.nodup_cons] at this
    exact this.1
  have hfil : (h.live.filter fun b => b.1 ≠ a) = P + F := by
    rw [hl', Multiset.filter_cons_of_neg _ (by simp), Multiset.filter_eq_self]
    intro b hb e
    exact hnot (Multiset.mem_map.mpr ⟨b, hb, e⟩)
  refine ⟨(), ⟨h.next, P + F⟩, P, ?_, ⟨?_, ?_⟩, le_rfl, rfl, rfl⟩
  · simp only [free, if_pos hmem, hfil]
  · have := hs.1
    rw [hl', Multiset.map_cons, Multiset.nodup_cons] at this
    exact this.2
  · intro b hb
    exact hs.2 b (by rw [hl']; exact Multiset.mem_cons_of_mem hb)

theorem freeOpt_spec {p : Ptr} (hp : p.Valid ∨ p = .null) (n : ℕ) (P : Blocks) : Triple (blk p n + P) (free p) fun _ R => R = P := by
  rcases hp with hp | rfl
  · exact free_spec hp n P
  · exact Triple.pre (zero_add P) (Triple.pure rfl)

/-- `NULL` or valid, as `allow_fourth_rank` says. -/
def Ptr.Opt (b : Bool) (p : Ptr) : Prop := if b then p.Valid else p = .null

theorem Ptr.Opt.or {b : Bool} {p : Ptr} (h : p.Opt b) : p.Valid ∨ p = .null := by
  cases b
  · exact Or.inr h
  · exact Or.inl h

theorem mallocIf_spec (P : Blocks) (b : Bool) (n : ℕ) : Triple P (mallocIf b n) fun p R => p.Opt b ∧ R = blk p n + P := by
  cases b
  · exact Triple.pure ⟨rfl, (zero_add P).symm⟩
  · exact malloc_spec P n

/-- The bytes of blocks. -/
def bytes (P : Blocks) : ℕ := (P.map Prod.snd).sum

theorem bytes_add (P Q : Blocks) : bytes (P + Q) = bytes P + bytes Q := by
  unfold bytes
  rw [Multiset.map_add, Multiset.sum_add]

theorem bytes_zero : bytes 0 = 0 := rfl

theorem bytes_blk {p : Ptr} (hp : p.Valid) (n : ℕ) : bytes (blk p n) = n := by
  obtain ⟨a, rfl⟩ := hp
  simp [bytes, blk]

theorem bytes_opt {b : Bool} {p : Ptr} (hp : p.Opt b) (n : ℕ) : bytes (blk p n) = if b then n else 0 := by
  cases b
  · have : p = .null := hp
    subst this
    rfl
  · exact bytes_blk hp n

theorem reach_add {P Q : Blocks} {p : Ptr} : Reach (P + Q) p ↔ Reach P p ∨ Reach Q p := by
  constructor
  · rintro ⟨a, n, e, hm⟩
    rcases Multiset.mem_add.mp hm with h | h
    · exact Or.inl ⟨a, n, e, h⟩
    · exact Or.inr ⟨a, n, e, h⟩
  · rintro (⟨a, n, e, hm⟩ | ⟨a, n, e, hm⟩)
    · exact ⟨a, n, e, Multiset.mem_add.mpr (Or.inl hm)⟩
    · exact ⟨a, n, e, Multiset.mem_add.mpr (Or.inr hm)⟩

/-- A program that only adds `n` bytes. -/
def Adds (P : Blocks) (m : Prog Unit) (n : ℕ) : Prop := Triple P m fun _ R => ∃ L, R = L + P ∧ bytes L = n

theorem Adds.bind {P : Blocks} {m : Prog Unit} {m' : Unit → Prog Unit} {n n' k : ℕ} (hm : Adds P m n) (hm' : ∀ L, Adds (L + P) (m' ()) n')
    (hk : k = n + n') : Adds P (m >>= m') k := by
  refine Triple.bind hm ?_
  rintro _ _ ⟨L, rfl, hL⟩
  refine (hm' L).post ?_
  rintro _ _ ⟨L', rfl, hL'⟩
  exact ⟨L' + L, (add_assoc _ _ _).symm, by rw [bytes_add, hk, hL, hL', add_comm]⟩

theorem Adds.pure {P : Blocks} : Adds P (pure ()) 0 := Triple.pure ⟨0, (zero_add P).symm, rfl⟩

theorem Adds.access {P : Blocks} {p : Ptr} (hp : Reach P p) : Adds P (access p) 0 :=
  (access_spec hp).post fun _ _ e => ⟨0, by rw [e, zero_add], rfl⟩

/-- An access first. -/
theorem Triple.access {α : Type} {P : Blocks} {p : Ptr} {m : Unit → Prog α} {Q : α → Blocks → Prop} (hp : Reach P p) (hm : Triple P (m ()) Q) :
    Triple P (Mem.access p >>= m) Q := by
  refine (access_spec hp).bind ?_
  rintro _ _ rfl
  exact hm

/-- A release first. -/
theorem Triple.free {α : Type} {P : Blocks} {p : Ptr} {m : Unit → Prog α} {Q : α → Blocks → Prop} (n : ℕ) (R : Blocks)
    (hp : p.Valid ∨ p = .null) (e : P = blk p n + R) (hm : Triple R (m ()) Q) : Triple P (Mem.free p >>= m) Q := by
  subst e
  refine (freeOpt_spec hp n R).bind ?_
  rintro _ _ rfl
  exact hm

/-- An allocation first. -/
theorem Triple.malloc {α : Type} {P : Blocks} {n : ℕ} {m : Ptr → Prog α} {Q : α → Blocks → Prop}
    (hm : ∀ p : Ptr, p.Valid → Triple (blk p n + P) (m p) Q) : Triple P (Mem.malloc n >>= m) Q := by
  refine (malloc_spec P n).bind ?_
  rintro p _ ⟨hp, rfl⟩
  exact hm p hp

theorem Triple.mallocIf {α : Type} {P : Blocks} {b : Bool} {n : ℕ} {m : Ptr → Prog α} {Q : α → Blocks → Prop}
    (hm : ∀ p : Ptr, p.Opt b → Triple (blk p n + P) (m p) Q) : Triple P (Mem.mallocIf b n >>= m) Q := by
  refine (mallocIf_spec P b n).bind ?_
  rintro p _ ⟨hp, rfl⟩
  exact hm p hp

theorem frame {α : Type} {P X : Blocks} {m : Prog α} {Q : α → Blocks → Prop} (hm : Triple P m Q) :
    Triple (X + P) m fun a R => ∃ R', R = X + R' ∧ Q a R' := by
  intro h F hs hl
  obtain ⟨a, h', R, e, hs', hn, hl', hq⟩ := hm h (X + F) hs (by rw [hl]; abel)
  exact ⟨a, h', X + R, e, hs', hn, by rw [hl']; abel, R, rfl, hq⟩

/-! ## The averaging scheme -/

/-- What a scheme owns and gives back. -/
def schemeOwn (c : Cfg) (s : Scheme) : Blocks :=
  blk s.amps (8 * c.octant) + (blk s.alpha (16 * (4 * c.octant)) + (blk s.w2 (16 * (3 * c.total)) + (blk s.w4 (16 * (5 * c.total)) +
    (blk s.wig2 (8 * (15 * c.octant)) + blk s.wig4 (8 * (45 * c.octant))))))

/-- The buffers of a scheme are as its constructor leaves them. -/
structure SchemeOk (c : Cfg) (s : Scheme) : Prop where
  self : s.self.Valid
  alpha : s.alpha.Valid
  amps : s.amps.Valid
  wig2 : s.wig2.Valid
  wig4 : s.wig4.Opt c.four
  w2 : s.w2.Valid
  w4 : s.w4.Opt c.four

theorem averagingSetup_spec {P : Blocks} (c : Cfg) {alpha beta amps : Ptr} (h1 : Reach P alpha) (h2 : Reach P beta) (h3 : Reach P amps) :
    Triple P (averagingSetup c alpha beta amps) fun _ R => R = P := by
  unfold averagingSetup
  refine Triple.malloc fun xr hx => Triple.malloc fun yr hy => Triple.malloc fun zr hz => ?_
  refine Triple.access (by simp [reach_add, h3]) (Triple.access (by simp [reach_add, h2]) (Triple.access (by simp [reach_add, h1]) ?_))
  refine Triple.free (8 * c.octant) (blk zr (8 * c.octant) + (blk yr (8 * c.octant) + P)) (Or.inl hx) (by abel) ?_
  refine Triple.free (8 * c.octant) (blk zr (8 * c.octant) + P) (Or.inl hy) (by abel) ?_
  exact free_spec hz _ _

theorem createScheme_spec (P : Blocks) (S : Sizes) (c : Cfg) :
    Triple P (createScheme S c) fun s R => SchemeOk c s ∧ R = schemeOwn c s + (blk s.self S.scheme + P) := by
  unfold createScheme
  refine Triple.malloc fun self hself => Triple.malloc fun alpha halpha => Triple.malloc fun beta hbeta => Triple.malloc fun amps hamps => ?_
  refine (averagingSetup_spec c (by simp [reach_add, reach_blk halpha]) (by simp [reach_add, reach_blk hbeta])
    (by simp [reach_add, reach_blk hamps])).bind ?_
  rintro _ _ rfl
  refine Triple.malloc fun wig2 hwig2 => Triple.access (by simp [reach_add, reach_blk hbeta]) (Triple.mallocIf fun wig4 hwig4 => ?_)
  refine Triple.free (16 * c.octant) (blk wig4 (8 * (45 * c.octant)) + (blk wig2 (8 * (15 * c.octant)) + (blk amps (8 * c.octant) +
    (blk alpha (16 * (4 * c.octant)) + (blk self S.scheme + P))))) (Or.inl hbeta) (by abel) ?_
  refine Triple.malloc fun w2 hw2 => Triple.mallocIf fun w4 hw4 => Triple.pure ⟨⟨hself, halpha, hamps, hwig2, hwig4, hw2, hw4⟩, ?_⟩
  simp only [schemeOwn]
  abel

theorem freeScheme_spec {P : Blocks} {c : Cfg} {s : Scheme} (h : SchemeOk c s) (hs : Reach P s.self) :
    Triple (schemeOwn c s + P) (freeScheme s) fun _ R => R = P := by
  unfold freeScheme schemeOwn
  refine Triple.access (by simp [reach_add, hs]) ?_
  refine Triple.free _ _ (Or.inl h.amps) (add_assoc _ _ _) ?_
  refine Triple.free _ _ (Or.inl h.alpha) (add_assoc _ _ _) ?_
  refine Triple.free _ _ (Or.inl h.w2) (add_assoc _ _ _) ?_
  refine Triple.free _ _ h.w4.or (add_assoc _ _ _) ?_
  refine Triple.free _ _ (Or.inl h.wig2) (add_assoc _ _ _) ?_
  exact freeOpt_spec h.wig4.or _ _

/-! ## Plans -/

/-- The tables of a plan can be used. -/
structure PlanOk (four : Bool) (P : Blocks) (p : Plan) : Prop where
  self : Reach P p.self
  norm : Reach P p.norm
  vr : Reach P p.vr
  phase : Reach P p.phase
  d2 : Reach P p.d2
  d4 : four = true → Reach P p.d4
  phase2 : Reach P p.phase2
  phase4 : four = true → Reach P p.phase4

theorem PlanOk.mono {four : Bool} {P P' : Blocks} {p : Plan} (h : PlanOk four P p) (hle : P ≤ P') : PlanOk four P' p :=
  ⟨h.self.mono hle, h.norm.mono hle, h.vr.mono hle, h.phase.mono hle, h.d2.mono hle, fun e => (h.d4 e).mono hle, h.phase2.mono hle,
    fun e => (h.phase4 e).mono hle⟩

theorem Ptr.Opt.reach {b : Bool} {p : Ptr} (h : p.Opt b) (n : ℕ) (e : b = true) : Reach (blk p n) p := by
  subst e
  exact reach_blk h n

theorem updateAngle_spec {P : Blocks} (c : Cfg) {p : Plan} (h1 : Reach P p.self) (h2 : Reach P p.norm) (h3 : Reach P p.vr)
    (h4 : Reach P p.phase) :
    Triple P (updateAngle c p) fun p' R => ∃ L, R = L + P ∧ bytes L = Spec.angleTables c ∧ PlanOk c.four R p' := by
  unfold updateAngle
  refine Triple.access h1 (Triple.malloc fun d2 hd2 => Triple.mallocIf fun d4 hd4 => Triple.malloc fun q2 hq2 =>
    Triple.access (by simp [reach_add, h4]) (Triple.mallocIf fun q4 hq4 => Triple.pure ?_))
  refine ⟨blk q4 (16 * (4 * c.ssb)) + (blk q2 (16 * (2 * c.ssb)) + (blk d4 (8 * 9) + blk d2 (8 * 5))), by abel, ?_, ?_⟩
  · rw [bytes_add, bytes_add, bytes_add, bytes_blk hd2, bytes_blk hq2, bytes_opt hd4, bytes_opt hq4, Spec.angleTables]
    cases c.four <;> simp <;> ring
  · exact ⟨by simp [reach_add, h1], by simp [reach_add, h2], by simp [reach_add, h3], by simp [reach_add, h4],
      by simp [reach_add, reach_blk hd2], fun e => by simp [reach_add, hd4.reach _ e], by simp [reach_add, reach_blk hq2],
      fun e => by simp [reach_add, hq4.reach _ e]⟩

theorem updateFrequency_spec {P : Blocks} (c : Cfg) {p : Plan} (h1 : Reach P p.self) (h2 : Reach P p.norm) :
    Triple P (updateFrequency c p) fun p' R =>
      ∃ L, R = L + P ∧ bytes L = 72 * c.ssb + Spec.angleTables c ∧ PlanOk c.four R p' := by
  unfold updateFrequency
  refine Triple.access h1 (Triple.malloc fun vr hvr => Triple.malloc fun ph hph => ?_)
  refine (updateAngle_spec c (p := ⟨p.self, p.norm, vr, ph, p.d2, p.d4, p.phase2, p.phase4⟩) (by simp [reach_add, h1])
    (by simp [reach_add, h2]) (by simp [reach_add, reach_blk hvr]) (by simp [reach_add, reach_blk hph])).post ?_
  rintro p' _ ⟨L, rfl, hL, hok⟩
  refine ⟨L + (blk ph (16 * (4 * c.ssb)) + blk vr (8 * c.ssb)), by abel, ?_, hok⟩
  rw [bytes_add, bytes_add, bytes_blk hvr, bytes_blk hph, hL]
  ring

theorem createPlan_spec {P : Blocks} (S : Sizes) (c : Cfg) {s : Scheme} (h1 : Reach P s.self) (h2 : Reach P s.amps) :
    Triple P (createPlan S c s) fun p R =>
      ∃ L, R = L + P ∧ bytes L = S.plan + 8 * c.octant + 72 * c.ssb + Spec.angleTables c ∧ PlanOk c.four R p := by
  unfold createPlan
  refine Triple.malloc fun self hself => Triple.access (by simp [reach_add, h1]) (Triple.malloc fun norm hnorm =>
    Triple.access (by simp [reach_add, h2]) ?_)
  refine (updateFrequency_spec c (p := ⟨self, norm, .wild, .wild, .wild, .wild, .wild, .wild⟩) (by simp [reach_add, reach_blk hself])
    (by simp [reach_add, reach_blk hnorm])).post ?_
  rintro p _ ⟨L, rfl, hL, hok⟩
  refine ⟨L + (blk norm (8 * c.octant) + blk self S.plan), by abel, ?_, hok⟩
  rw [bytes_add, bytes_add, bytes_blk hself, bytes_blk hnorm, hL]
  ring

/-- The rotor frequency or the rotor angle is that of the first event. -/
def Near (first spin : Spin) : Prop := spin.1 = first.1 ∨ spin.2 = first.2

theorem setEvent_spec {P : Blocks} (S : Sizes) (c : Cfg) {plan : Plan} (h : PlanOk c.four P plan) (first spin : Spin) :
    Triple P (setEvent S c plan first spin) fun r R =>
      ∃ L, R = L + P ∧ (Near first spin → bytes L = Spec.eventLeft S c first spin ∧ ∃ p, r = .set p ∧ PlanOk c.four R p) ∧
        (¬ Near first spin → r = .wild) := by
  unfold setEvent
  refine Triple.access h.self ?_
  by_cases e1 : spin.1 = first.1 <;> by_cases e2 : spin.2 = first.2
  · rw [if_pos ⟨e1, e2⟩]
    refine Triple.pure ⟨0, (zero_add P).symm, fun _ => ⟨?_, plan, rfl, h⟩, fun hn => absurd (Or.inl e1) hn⟩
    rw [Spec.eventLeft, if_pos (Prod.ext e1 e2), bytes_zero]
  · rw [if_neg (fun h => e2 h.2), if_neg (fun h => e2 h.2), if_pos ⟨e1, e2⟩]
    unfold copyPlan
    rw [bind_assoc]
    refine Triple.malloc fun self hself => ?_
    rw [bind_assoc]
    refine Triple.access (by simp [reach_add, h.self]) ?_
    rw [pure_bind]
    have hle : P ≤ blk self S.plan + P := Multiset.le_add_left _ _
    refine (updateAngle_spec c (p := ⟨self, plan.norm, plan.vr, plan.phase, plan.d2, plan.d4, plan.phase2, plan.phase4⟩)
      (by simp [reach_add, reach_blk hself]) (h.norm.mono hle) (h.vr.mono hle) (h.phase.mono hle)).bind ?_
    rintro p _ ⟨L, rfl, hL, hok⟩
    refine Triple.pure ⟨L + blk self S.plan, (add_assoc _ _ _).symm, fun _ => ⟨?_, p, rfl, hok⟩, fun hn => absurd (Or.inl e1) hn⟩
    rw [Spec.eventLeft, if_neg (fun h => e2 (by rw [h])), if_neg e2, bytes_add, bytes_blk hself, hL, add_comm]
  · rw [if_neg (fun h => e1 h.1), if_pos ⟨e1, e2⟩]
    unfold copyPlan
    rw [bind_assoc]
    refine Triple.malloc fun self hself => ?_
    rw [bind_assoc]
    refine Triple.access (by simp [reach_add, h.self]) ?_
    rw [pure_bind]
    have hle : P ≤ blk self S.plan + P := Multiset.le_add_left _ _
    refine (updateFrequency_spec c (p := ⟨self, plan.norm, plan.vr, plan.phase, plan.d2, plan.d4, plan.phase2, plan.phase4⟩)
      (by simp [reach_add, reach_blk hself]) (h.norm.mono hle)).bind ?_
    rintro p _ ⟨L, rfl, hL, hok⟩
    refine Triple.pure ⟨L + blk self S.plan, (add_assoc _ _ _).symm, fun _ => ⟨?_, p, rfl, hok⟩, fun hn => absurd (Or.inr e2) hn⟩
    rw [Spec.eventLeft, if_neg (fun h => e1 (by rw [h])), if_pos e2, bytes_add, bytes_blk hself, hL]
    ring
  · rw [if_neg (fun h => e1 h.1), if_neg (fun h => e2 h.2), if_neg (fun h => e1 h.1)]
    exact Triple.pure ⟨0, (zero_add P).symm, fun hn => absurd hn (by simp [Near, e1, e2]), fun _ => rfl⟩

/-! ## Events and dimensions -/

/-- The buffers of amplitudes. -/
def ampOwn (c : Cfg) (es : List Event) : Blocks := (es.map fun e => blk e.amp (8 * (c.total * c.ssb))).sum

/-- An event can be used with what is in `P`. -/
structure EvOk (four : Bool) (P : Blocks) (e : Event) : Prop where
  amp : e.amp.Valid
  plan : ∃ p, e.plan = .set p ∧ PlanOk four P p

theorem EvOk.mono {four : Bool} {P P' : Blocks} {e : Event} (h : EvOk four P e) (hle : P ≤ P') : EvOk four P' e := by
  obtain ⟨ha, p, e, hp⟩ := h
  exact ⟨ha, p, e, hp.mono hle⟩

/-- An event as it was made: its plan can be used, or was not set. -/
structure EvMade (four : Bool) (P : Blocks) (first : Spin) (e : Event) (spin : Spin) : Prop where
  amp : e.amp.Valid
  near : Near first spin → EvOk four P e
  far : ¬ Near first spin → e.plan = .wild

theorem EvMade.mono {four : Bool} {P P' : Blocks} {first spin : Spin} {e : Event} (h : EvMade four P first e spin) (hle : P ≤ P') :
    EvMade four P' first e spin := ⟨h.amp, fun hn => (h.near hn).mono hle, h.far⟩

theorem createEvents_spec (S : Sizes) (c : Cfg) {plan : Plan} (first : Spin) (spins : List Spin) : ∀ {P : Blocks}, PlanOk c.four P plan →
    Triple P (createEvents S c plan first spins) fun es R =>
      ∃ L, R = ampOwn c es + (L + P) ∧ ((∀ s ∈ spins, Near first s) → bytes L = (spins.map (Spec.eventLeft S c first)).sum) ∧
        List.Forall₂ (EvMade c.four (L + P) first) es spins := by
  induction spins with
  | nil =>
    intro P _
    exact Triple.pure ⟨0, by simp [ampOwn], fun _ => rfl, List.Forall₂.nil⟩
  | cons spin spins ih =>
    intro P h
    unfold createEvents
    refine Triple.malloc fun amp hamp => Triple.access (by simp [reach_add, reach_blk hamp]) ?_
    -- the plan of the event is made beside the buffer
    refine (frame (X := blk amp (8 * (c.total * c.ssb))) (setEvent_spec S c h first spin)).bind ?_
    rintro r _ ⟨_, rfl, L, rfl, hnear, hfar⟩
    refine (frame (X := blk amp (8 * (c.total * c.ssb))) (ih (P := L + P) (h.mono (Multiset.le_add_left _ _)))).bind ?_
    rintro es _ ⟨_, rfl, L', rfl, hL', hes⟩
    refine Triple.pure ⟨L' + L, ?_, fun hs => ?_, ?_⟩
    · simp only [ampOwn, List.map_cons, List.sum_cons]
      abel
    · rw [bytes_add, (hnear (hs spin (by simp))).1, hL' fun s hs' => hs s (by simp [hs']), List.map_cons, List.sum_cons, add_comm]
    · rw [add_assoc]
      refine List.Forall₂.cons ⟨hamp, fun hn => ?_, hfar⟩ hes
      obtain ⟨-, p, hp, hok⟩ := hnear hn
      exact ⟨hamp, p, hp, hok.mono (Multiset.le_add_left _ _)⟩

/-- What a dimension gives back. -/
def dimOwn (c : Cfg) (d : Dim) : Blocks := ampOwn c d.evs + (blk d.loc (8 * c.total) + blk d.off (8 * c.octant))

/-- A dimension as it was made. -/
structure DimMade (four : Bool) (P : Blocks) (d : Dim) (spins : List Spin) : Prop where
  events : Reach P d.events
  loc : d.loc.Valid
  off : d.off.Valid
  evs : List.Forall₂ (EvMade four P (spins.headD (0, 0))) d.evs spins

theorem DimMade.mono {four : Bool} {P P' : Blocks} {spins : List Spin} {d : Dim} (h : DimMade four P d spins) (hle : P ≤ P') :
    DimMade four P' d spins := ⟨h.events.mono hle, h.loc, h.off, h.evs.imp fun _ _ he => he.mono hle⟩

theorem createDim_spec {P : Blocks} (S : Sizes) (c : Cfg) {s : Scheme} (h1 : Reach P s.self) (h2 : Reach P s.amps) (spins : List Spin) :
    Triple P (createDim S c s spins) fun d R =>
      ∃ L, R = dimOwn c d + (L + P) ∧ (Spec.Planned spins → bytes L = Spec.dimLeft S c spins) ∧ DimMade c.four (L + P) d spins := by
  unfold createDim
  refine Triple.malloc fun events hev => ?_
  refine (createPlan_spec S c (by simp [reach_add, h1]) (by simp [reach_add, h2])).bind ?_
  rintro plan _ ⟨L, rfl, hL, hok⟩
  refine (createEvents_spec S c _ spins hok).bind ?_
  rintro es _ ⟨L', rfl, hL', hes⟩
  refine Triple.malloc fun loc hloc => Triple.malloc fun off hoff => Triple.pure ?_
  have e : L' + (L + blk events (spins.length * S.event)) + P = L' + (L + (blk events (spins.length * S.event) + P)) := by abel
  refine ⟨L' + (L + blk events (spins.length * S.event)), ?_, fun hs => ?_, ?_⟩
  · rw [e]
    simp only [dimOwn]
    abel
  · rw [bytes_add, bytes_add, bytes_blk hev, hL, hL' hs.2, Spec.dimLeft]
    have : (spins.map (Spec.eventLeft S c (spins.headD (0, 0)))) = spins.map fun spin => Spec.eventLeft S c (spins.headD (0, 0)) spin := rfl
    rw [this]
    ring
  · rw [e]
    exact ⟨by simp [reach_add, reach_blk hev], hloc, hoff, hes⟩

/-- What the dimensions give back. -/
def dimsOwn (c : Cfg) (ds : List Dim) : Blocks := (ds.map (dimOwn c)).sum

theorem createDims_spec (S : Sizes) (c : Cfg) {s : Scheme} (dims : List (List Spin)) : ∀ {P : Blocks}, Reach P s.self → Reach P s.amps →
    Triple P (createDims S c s dims) fun ds R =>
      ∃ L, R = dimsOwn c ds + (L + P) ∧ ((∀ spins ∈ dims, Spec.Planned spins) → bytes L = (dims.map (Spec.dimLeft S c)).sum) ∧
        List.Forall₂ (DimMade c.four (L + P)) ds dims := by
  induction dims with
  | nil =>
    intro P _ _
    exact Triple.pure ⟨0, by simp [dimsOwn], fun _ => rfl, List.Forall₂.nil⟩
  | cons spins dims ih =>
    intro P h1 h2
    unfold createDims
    refine (createDim_spec S c h1 h2 spins).bind ?_
    rintro d _ ⟨L, rfl, hL, hd⟩
    have hle : P ≤ L + P := Multiset.le_add_left _ _
    refine (frame (X := dimOwn c d) (ih (P := L + P) (h1.mono hle) (h2.mono hle))).bind ?_
    rintro ds _ ⟨_, rfl, L', rfl, hL', hds⟩
    refine Triple.pure ⟨L' + L, ?_, fun hs => ?_, ?_⟩
    · simp only [dimsOwn, List.map_cons, List.sum_cons]
      abel
    · rw [bytes_add, hL (hs spins (by simp)), hL' fun t ht => hs t (by simp [ht]), List.map_cons, List.sum_cons, add_comm]
    · rw [add_assoc]
      exact List.Forall₂.cons (hd.mono (Multiset.le_add_left _ _)) hds

theorem evs_valid {four : Bool} {X : Blocks} {first : Spin} {es : List Event} {spins : List Spin} (h : List.Forall₂ (EvMade four X first) es spins) :
    ∀ e ∈ es, e.amp.Valid ∧ e.plan ≠ .null := by
  induction h with
  | nil => simp
  | @cons e spin es spins he _ ih =>
    intro e' he'
    rcases List.mem_cons.mp he' with rfl | he'
    · refine ⟨he.amp, ?_⟩
      by_cases hn : Near first spin
      · obtain ⟨-, p, hp, -⟩ := he.near hn
        rw [hp]
        simp
      · rw [he.far hn]
        simp
    · exact ih e' he'

theorem freeEvents_spec (c : Cfg) (es : List Event) : ∀ {P : Blocks}, (∀ e ∈ es, e.amp.Valid ∧ e.plan ≠ .null) →
    Triple (ampOwn c es + P) (freeEvents es) fun _ R => R = P := by
  induction es with
  | nil =>
    intro P _
    exact Triple.pure (by simp [ampOwn])
  | cons e es ih =>
    intro P h
    obtain ⟨ha, hp⟩ := h e (by simp)
    unfold freeEvents freeEvent
    have : freeEventPlan e.plan = pure () := by
      cases hc : e.plan with
      | null => exact absurd hc hp
      | wild => rfl
      | set p => rfl
    rw [this, pure_bind]
    refine Triple.free (8 * (c.total * c.ssb)) (ampOwn c es + P) (Or.inl ha) ?_ (ih fun e' he => h e' (by simp [he]))
    simp only [ampOwn, List.map_cons, List.sum_cons]
    abel

theorem freeDims_spec (c : Cfg) (four : Bool) (ds : List Dim) (dims : List (List Spin)) : ∀ {P : Blocks},
    List.Forall₂ (DimMade four P) ds dims →
    Triple (dimsOwn c ds + P) (freeDims ds) fun _ R => R = P := by
  induction ds generalizing dims with
  | nil =>
    intro P _
    exact Triple.pure (by simp [dimsOwn])
  | cons d ds ih =>
    intro P h
    rcases h with _ | ⟨hd, hds⟩
    unfold freeDims
    refine Triple.access (hd.events.mono (Multiset.le_add_left _ _)) ?_
    refine Triple.pre (P' := ampOwn c d.evs + (blk d.loc (8 * c.total) + (blk d.off (8 * c.octant) + (dimsOwn c ds + P)))) ?_ ?_
    · simp only [dimsOwn, dimOwn, List.map_cons, List.sum_cons]
      abel
    refine (freeEvents_spec c d.evs (evs_valid hd.evs)).bind ?_
    rintro _ _ rfl
    refine Triple.free _ _ (Or.inl hd.loc) rfl (Triple.free _ _ (Or.inl hd.off) rfl ?_)
    exact ih _ hds

/-! ## The loops -/

theorem Adds.mono {P : Blocks} {m : Prog Unit} {n k : ℕ} (hm : Adds P m n) (hk : k = n) : Adds P m k := hk ▸ hm

/-- An access first. -/
theorem Adds.accessBind {P : Blocks} {p : Ptr} {m : Unit → Prog Unit} {n : ℕ} (hp : Reach P p) (hm : Adds P (m ()) n) :
    Adds P (Mem.access p >>= m) n := Triple.access hp hm

theorem Triple.when {P : Blocks} {b : Prop} [Decidable b] {m : Prog Unit} (hm : b → Triple P m fun _ R => R = P) :
    Triple P (Mem.when b m) fun _ R => R = P := by
  unfold Mem.when
  split
  · exact hm ‹_›
  · exact Triple.pure rfl

theorem Triple.next {α : Type} {P : Blocks} {m : Prog Unit} {m' : Unit → Prog α} {Q : α → Blocks → Prop} (hm : Triple P m fun _ R => R = P)
    (hm' : Triple P (m' ()) Q) : Triple P (m >>= m') Q := by
  refine Triple.bind hm ?_
  rintro _ _ rfl
  exact hm'

/-- A program that adds nothing. -/
theorem Adds.skip {P : Blocks} {m : Prog Unit} (hm : Triple P m fun _ R => R = P) : Adds P m 0 :=
  hm.post fun _ _ e => ⟨0, by rw [e, zero_add], rfl⟩

theorem le_left (P Q : Blocks) : P ≤ Q + P := Multiset.le_add_left _ _

theorem singleRotation_spec (P : Blocks) (l : ℕ) : Triple P (singleRotation l) fun _ R => R = P := by
  unfold singleRotation
  refine Triple.malloc fun w hw => Triple.malloc fun t ht => Triple.malloc fun b hb => Triple.access (by simp [reach_add, reach_blk hb]) ?_
  refine Triple.free _ _ (Or.inl hb) rfl ?_
  refine Triple.access (by simp [reach_add, reach_blk hw]) (Triple.access (by simp [reach_add, reach_blk ht]) ?_)
  refine Triple.free (8 * ((2 * l + 1) * (2 * l + 1))) (blk t (8 * (2 * (2 * l + 1))) + P) (Or.inl hw) (by abel) ?_
  exact free_spec ht _ _

theorem secondOrder_spec (P : Blocks) : Adds P secondOrder 24 := by
  unfold secondOrder
  refine Triple.malloc fun cl hcl => Triple.access (by simp [reach_add, reach_blk hcl]) ?_
  refine (singleRotation_spec _ 2).bind ?_
  rintro _ _ rfl
  refine (singleRotation_spec _ 4).bind ?_
  rintro _ _ rfl
  refine (access_spec (by simp [reach_add, reach_blk hcl])).post ?_
  rintro _ _ rfl
  exact ⟨blk cl (8 * 3), rfl, bytes_blk hcl _⟩

theorem secondOrders_spec (q : ℕ) : ∀ P : Blocks, Adds P (secondOrders q) (24 * q) := by
  induction q with
  | zero => intro P; exact Adds.pure
  | succ q ih =>
    intro P
    unfold secondOrders
    exact (secondOrder_spec P).bind (fun L => ih _) (by ring)

theorem rotation_spec {P : Blocks} (l : ℕ) {w a r o : Ptr} (hw : Reach P w) (ha : Reach P a) (hr : Reach P r) (ho : Reach P o) :
    Triple P (rotation l w a r o) fun _ R => R = P := by
  unfold rotation
  refine Triple.malloc fun t ht => Triple.access (hw.mono (le_left _ _)) (Triple.access (ha.mono (le_left _ _))
    (Triple.access (hr.mono (le_left _ _)) (Triple.access (ho.mono (le_left _ _)) (Triple.access (by simp [reach_add, reach_blk ht]) ?_))))
  exact free_spec ht _ _

/-- The tables of a scheme can be used. -/
structure Tables (four : Bool) (P : Blocks) (s : Scheme) : Prop where
  self : Reach P s.self
  alpha : Reach P s.alpha
  amps : Reach P s.amps
  wig2 : Reach P s.wig2
  w2 : Reach P s.w2
  wig4 : four = true → Reach P s.wig4
  w4 : four = true → Reach P s.w4
  none : four = false → s.w4 = .null

theorem Tables.mono {four : Bool} {P P' : Blocks} {s : Scheme} (h : Tables four P s) (hle : P ≤ P') : Tables four P' s :=
  ⟨h.self.mono hle, h.alpha.mono hle, h.amps.mono hle, h.wig2.mono hle, h.w2.mono hle, fun e => (h.wig4 e).mono hle,
    fun e => (h.w4 e).mono hle, h.none⟩

theorem rotations_spec {P : Blocks} {four : Bool} {s : Scheme} (h : Tables four P s) {R2 R4 : Ptr} (h2 : Reach P R2) (h4 : Reach P R4) (j : ℕ) :
    Triple P (rotations s R2 R4 j) fun _ R => R = P := by
  induction j with
  | zero => exact Triple.pure rfl
  | succ j ih =>
    unfold rotations
    refine (rotation_spec 2 h.wig2 h.alpha h2 h.w2).next (Triple.next (Triple.when fun hw => ?_) ih)
    cases four with
    | false => exact absurd (h.none rfl) hw
    | true => exact rotation_spec 4 (h.wig4 rfl) h.alpha h4 (h.w4 rfl)

/-- The FFT scheme can be used. -/
structure FftwOk (P : Blocks) (f : Fftw) : Prop where
  self : Reach P f.self
  vector : Reach P f.vector
  plan : Reach P f.plan

theorem FftwOk.mono {P P' : Blocks} {f : Fftw} (h : FftwOk P f) (hle : P ≤ P') : FftwOk P' f :=
  ⟨h.self.mono hle, h.vector.mono hle, h.plan.mono hle⟩

/-- The temporary components. -/
structure Comps (P : Blocks) (R2 R4 R2t R4t : Ptr) : Prop where
  R2 : Reach P R2
  R4 : Reach P R4
  R2t : Reach P R2t
  R4t : Reach P R4t

theorem Comps.mono {P P' : Blocks} {R2 R4 R2t R4t : Ptr} (h : Comps P R2 R4 R2t R4t) (hle : P ≤ P') : Comps P' R2 R4 R2t R4t :=
  ⟨h.R2.mono hle, h.R4.mono hle, h.R2t.mono hle, h.R4t.mono hle⟩

/-- The buffers of a dimension can be used. -/
structure DimReady (four : Bool) (P : Blocks) (d : Dim) (spins : List Spin) : Prop where
  made : DimMade four P d spins
  loc : Reach P d.loc
  off : Reach P d.off
  amps : ∀ e ∈ d.evs, Reach P e.amp

theorem DimReady.mono {four : Bool} {P P' : Blocks} {spins : List Spin} {d : Dim} (h : DimReady four P d spins) (hle : P ≤ P') :
    DimReady four P' d spins :=
  ⟨h.made.mono hle, h.loc.mono hle, h.off.mono hle, fun e he => (h.amps e he).mono hle⟩

theorem DimReady.evs {four : Bool} {P : Blocks} {spins : List Spin} {d : Dim} (h : DimReady four P d spins) (hs : Spec.Planned spins) :
    ∀ e ∈ d.evs, EvOk four P e := by
  have key : ∀ (first : Spin) (es : List Event) (t : List Spin), (∀ s ∈ t, Near first s) → List.Forall₂ (EvMade four P first) es t →
      ∀ e ∈ es, EvOk four P e := by
    intro first es t ht hf
    induction hf with
    | nil => simp
    | @cons e spin es t he _ ih =>
      intro e' he'
      rcases List.mem_cons.mp he' with rfl | he'
      · exact he.near (ht spin (by simp))
      · exact ih (fun s hs => ht s (by simp [hs])) e' he'
  exact key _ _ _ hs.2 h.made.evs

theorem coreEvent_spec {P : Blocks} {c : Cfg} {s : Scheme} {f : Fftw} {R2 R4 R2t R4t : Ptr} {d : Dim} {e : Event} (q : ℕ)
    (ht : Tables c.four P s) (hf : FftwOk P f) (hr : Comps P R2 R4 R2t R4t) {spins : List Spin} (hd : DimReady c.four P d spins)
    (he : e ∈ d.evs) (hev : EvOk c.four P e) : Adds P (coreEvent c s f R2 R4 R2t R4t d e q) (24 * q) := by
  obtain ⟨-, p, hp, hok⟩ := hev
  unfold coreEvent
  refine Adds.accessBind hd.made.events ?_
  rw [hp]
  refine Adds.accessBind hok.self (Adds.accessBind hr.R2 (Adds.accessBind hr.R4 ?_))
  refine Adds.bind (n' := 0) (secondOrders_spec q P) (fun L => ?_) (by simp)
  have hle := le_left P L
  replace hok := hok.mono hle
  replace ht := ht.mono hle
  replace hf := hf.mono hle
  replace hr := hr.mono hle
  replace hd := hd.mono hle
  refine Adds.accessBind hr.R2t (Adds.accessBind hr.R4t (Adds.accessBind ht.self ?_))
  refine Triple.bind (rotations_spec ht hr.R2 hr.R4 _) ?_
  rintro _ _ rfl
  refine Adds.accessBind hd.loc (Adds.accessBind hok.d2 (Adds.accessBind ht.w2 ?_))
  refine Triple.next (Triple.when fun hfour => Triple.access (hok.d4 hfour) (access_spec (ht.w4 hfour))) ?_
  refine Adds.skip (Triple.when fun _ => Triple.access hf.self (Triple.access hok.phase2 (Triple.access ht.w2 (Triple.access hf.vector ?_))))
  refine Triple.next (Triple.when fun hw => ?_) (Triple.access hf.plan (access_spec (hd.amps e he)))
  have hfour : c.four = true := by
    by_contra hne
    exact hw (ht.none (by simpa using hne))
  exact Triple.access (hok.phase4 hfour) (access_spec (ht.w4 hfour))

theorem coreEvents_spec {c : Cfg} {s : Scheme} {f : Fftw} {R2 R4 R2t R4t : Ptr} {d : Dim} {spins : List Spin} (es : List Event) :
    ∀ (P : Blocks) (qs : List ℕ), Tables c.four P s → FftwOk P f → Comps P R2 R4 R2t R4t → DimReady c.four P d spins →
    (∀ e ∈ es, e ∈ d.evs ∧ EvOk c.four P e) →
    Adds P (coreEvents c s f R2 R4 R2t R4t d es qs) (24 * (qs.take es.length).sum) := by
  induction es with
  | nil =>
    intro P qs _ _ _ _ _
    exact Adds.pure
  | cons e es ih =>
    intro P qs ht hf hr hd he
    unfold coreEvents
    refine (coreEvent_spec (qs.headD 0) ht hf hr hd (he e (by simp)).1 (he e (by simp)).2).bind
      (fun L => ih (L + P) qs.tail (ht.mono (le_left _ _)) (hf.mono (le_left _ _)) (hr.mono (le_left _ _)) (hd.mono (le_left _ _))
        fun e' he' => ⟨(he e' (by simp [he'])).1, (he e' (by simp [he'])).2.mono (le_left _ _)⟩) ?_
    cases qs with
    | nil => simp
    | cons q qs =>
      simp only [List.length_cons, List.take_succ_cons, List.sum_cons, List.headD_cons, List.tail_cons]
      ring

theorem coreDims_spec {c : Cfg} {s : Scheme} {f : Fftw} {R2 R4 R2t R4t : Ptr} (ds : List Dim) :
    ∀ (P : Blocks) (dims : List (List Spin)) (qs : List (List ℕ)), Tables c.four P s → FftwOk P f → Comps P R2 R4 R2t R4t →
    List.Forall₂ (DimReady c.four P) ds dims → (∀ spins ∈ dims, Spec.Planned spins) →
    Adds P (coreDims c s f R2 R4 R2t R4t ds qs) (Spec.pathLeft dims qs) := by
  induction ds with
  | nil =>
    intro P dims qs _ _ _ h _
    rcases h
    exact Adds.pure.mono (by simp [Spec.pathLeft])
  | cons d ds ih =>
    intro P dims qs ht hf hr h hs
    rcases h with _ | ⟨hd, hds⟩
    rename_i spins dims
    unfold coreDims
    refine (coreEvents_spec d.evs P (qs.headD []) ht hf hr hd fun e he => ⟨he, hd.evs (hs spins (by simp)) e he⟩).bind
      (fun L => ih (L + P) dims qs.tail (ht.mono (le_left _ _)) (hf.mono (le_left _ _)) (hr.mono (le_left _ _))
        (hds.imp fun _ _ h => h.mono (le_left _ _)) fun t ht => hs t (by simp [ht])) ?_
    rw [hd.made.evs.length_eq]
    cases qs with
    | nil => simp [Spec.pathLeft]
    | cons q qs =>
      simp only [Spec.pathLeft, List.zipWith_cons_cons, List.sum_cons, List.headD_cons, List.tail_cons]
      ring

theorem accessAmps_spec {P : Blocks} (es : List Event) (h : ∀ e ∈ es, Reach P e.amp) : Triple P (accessAmps es) fun _ R => R = P := by
  induction es with
  | nil => exact Triple.pure rfl
  | cons e es ih =>
    unfold accessAmps
    exact Triple.access (h e (by simp)) (ih fun e' he => h e' (by simp [he]))

theorem accessPlan_spec {P : Blocks} {four : Bool} {e : Event} (h : EvOk four P e) : Triple P (accessPlan e) fun _ R => R = P := by
  obtain ⟨-, p, hp, hok⟩ := h
  unfold accessPlan
  rw [hp]
  exact Triple.access hok.self (Triple.access hok.norm (access_spec hok.vr))

theorem accessOf_spec {P : Blocks} {four : Bool} {es : List Event} (h : ∀ e ∈ es, EvOk four P e) {o : Option Event} (ho : o ≠ none)
    (hm : ∀ e ∈ o, e ∈ es) : Triple P (accessOf o) fun _ R => R = P := by
  rcases o with _ | e
  · exact absurd rfl ho
  · exact accessPlan_spec (h e (hm e rfl))

theorem average1_spec {P : Blocks} {four : Bool} {spins : List Spin} {d : Dim} (h : DimReady four P d spins) (hs : Spec.Planned spins) :
    Triple P (average1 d) fun _ R => R = P := by
  unfold average1
  refine Triple.access h.made.events (Triple.next (Triple.when fun _ => accessAmps_spec d.evs h.amps) ?_)
  have hlen := h.made.evs.length_eq
  rcases hev : d.evs with _ | ⟨e, es⟩
  · rw [hev] at hlen
    exact absurd (List.length_eq_zero_iff.mp hlen.symm) hs.1
  · have he : e ∈ d.evs := by rw [hev]; simp
    refine Triple.next (access_spec (h.amps e he)) (Triple.next (accessPlan_spec (h.evs hs e he)) ?_)
    exact Triple.access h.loc (access_spec h.off)

theorem lastPlan_spec {P : Blocks} {four : Bool} {spins : List Spin} {d : Dim} (h : DimReady four P d spins) (hs : Spec.Planned spins) :
    Triple P (accessOf d.evs.getLast?) fun _ R => R = P := by
  refine accessOf_spec (h.evs hs) ?_ fun e he => List.mem_of_getLast? he
  rw [Ne, List.getLast?_eq_none_iff]
  intro hev
  exact hs.1 (List.length_eq_zero_iff.mp (by rw [← h.made.evs.length_eq, hev]; rfl))

theorem average2_spec {P : Blocks} (c : Cfg) {four : Bool} {s0 s1 : List Spin} {d0 d1 : Dim} (h0 : DimReady four P d0 s0)
    (h1 : DimReady four P d1 s1) (hn0 : Spec.Planned s0) (hn1 : Spec.Planned s1) : Triple P (average2 c d0 d1) fun _ R => R = P := by
  unfold average2
  refine Triple.malloc fun A hA => Triple.malloc fun B hB => Triple.malloc fun a ha => ?_
  have hle : P ≤ blk a (8 * c.total) + (blk B (8 * (c.total * c.ssb)) + (blk A (8 * (c.total * c.ssb)) + P)) :=
    (le_left _ _).trans ((le_left _ _).trans (le_left _ _))
  replace h0 := h0.mono hle
  replace h1 := h1.mono hle
  refine Triple.access h0.loc (Triple.access h1.loc (Triple.access h0.made.events ?_))
  refine (accessAmps_spec d0.evs h0.amps).bind ?_
  rintro _ _ rfl
  refine Triple.access h1.made.events ?_
  refine (accessAmps_spec d1.evs h1.amps).bind ?_
  rintro _ _ rfl
  refine (lastPlan_spec h0 hn0).bind ?_
  rintro _ _ rfl
  refine (lastPlan_spec h1 hn1).bind ?_
  rintro _ _ rfl
  refine Triple.access h0.off (Triple.access h1.off ?_)
  refine Triple.free _ _ (Or.inl ha) rfl ?_
  refine Triple.free (8 * (c.total * c.ssb)) (blk B (8 * (c.total * c.ssb)) + P) (Or.inl hA) (by abel) ?_
  exact free_spec hB _ _

theorem core_spec {P : Blocks} {c : Cfg} {s : Scheme} {f : Fftw} {arr : Ptr} {ds : List Dim} {dims : List (List Spin)} (qs : List (List ℕ))
    (ht : Tables c.four P s) (hf : FftwOk P f) (ha : Reach P arr)
    (hd : List.Forall₂ (DimReady c.four P) ds dims) (hs : ∀ spins ∈ dims, Spec.Planned spins) :
    Adds P (core c s f arr ds qs) (Spec.pathLeft dims qs) := by
  unfold core
  refine Triple.malloc fun R2 h2 => Triple.malloc fun R4 h4 => Triple.malloc fun R2t h2t => Triple.malloc fun R4t h4t => ?_
  have hle : P ≤ blk R4t (16 * 9) + (blk R2t (16 * 5) + (blk R4 (16 * 9) + (blk R2 (16 * 5) + P))) :=
    (le_left _ _).trans ((le_left _ _).trans ((le_left _ _).trans (le_left _ _)))
  refine Triple.access (ha.mono hle) ?_
  refine Triple.bind (coreDims_spec ds _ dims qs (ht.mono hle) (hf.mono hle) ⟨by simp [reach_add, reach_blk h2],
    by simp [reach_add, reach_blk h4], by simp [reach_add, reach_blk h2t], by simp [reach_add, reach_blk h4t]⟩
    (hd.imp fun _ _ h => h.mono hle) hs) ?_
  rintro _ _ ⟨L, rfl, hL⟩
  refine Triple.free (16 * 5) (blk R4 (16 * 9) + (blk R2t (16 * 5) + (blk R4t (16 * 9) + (L + P)))) (Or.inl h2) (by abel) ?_
  refine Triple.free _ _ (Or.inl h4) rfl (Triple.free _ _ (Or.inl h2t) rfl (Triple.free _ _ (Or.inl h4t) rfl ?_))
  have done : ∀ {m : Prog Unit}, Triple (L + P) m (fun _ R => R = L + P) → Triple (L + P) m fun _ R =>
      ∃ L, R = L + P ∧ bytes L = Spec.pathLeft dims qs := fun hm => hm.post fun _ _ e => ⟨L, e, hL⟩
  have hd' := hd.imp fun _ _ h => h.mono (le_left P L)
  match ds, dims, hd', hs with
  | [], _, _, _ => exact done (Triple.pure rfl)
  | [d], [_], .cons h0 .nil, hs => exact done (average1_spec h0 (hs _ (by simp)))
  | [d0, d1], [_, _], .cons h0 (.cons h1 .nil), hs => exact done (average2_spec c h0 h1 (hs _ (by simp)) (hs _ (by simp)))
  | _ :: _ :: _ :: _, _, _, _ => exact done (Triple.pure rfl)

theorem cores_spec {c : Cfg} {s : Scheme} {f : Fftw} {arr : Ptr} {ds : List Dim} {dims : List (List Spin)} (paths : List (List (List ℕ))) :
    ∀ (P : Blocks), Tables c.four P s → FftwOk P f → Reach P arr →
    List.Forall₂ (DimReady c.four P) ds dims → (∀ spins ∈ dims, Spec.Planned spins) →
    Adds P (cores c s f arr ds paths) (paths.map (Spec.pathLeft dims)).sum := by
  induction paths with
  | nil =>
    intro P _ _ _ _ _
    exact Adds.pure
  | cons qs paths ih =>
    intro P ht hf ha hd hne
    unfold cores
    exact (core_spec qs ht hf ha hd hne).bind (fun L => ih (L + P) (ht.mono (le_left _ _)) (hf.mono (le_left _ _)) (ha.mono (le_left _ _))
      (hd.imp fun _ _ h => h.mono (le_left _ _)) hne) (by simp)

/-! ## A simulation -/

theorem SchemeOk.tables {c : Cfg} {s : Scheme} {P : Blocks} (h : SchemeOk c s) (n : ℕ) (hle : schemeOwn c s + blk s.self n ≤ P) :
    Tables c.four P s := by
  refine Tables.mono ?_ hle
  unfold schemeOwn
  refine ⟨by simp [reach_add, reach_blk h.self], by simp [reach_add, reach_blk h.alpha], by simp [reach_add, reach_blk h.amps],
    by simp [reach_add, reach_blk h.wig2], by simp [reach_add, reach_blk h.w2], fun e => by simp [reach_add, h.wig4.reach _ e],
    fun e => by simp [reach_add, h.w4.reach _ e], fun e => ?_⟩
  have := h.w4
  rw [Ptr.Opt, e] at this
  exact this

theorem dimsReady {c : Cfg} {ds : List Dim} {dims : List (List Spin)} {P : Blocks}
    (h : List.Forall₂ (DimMade c.four P) ds dims) :
    List.Forall₂ (DimReady c.four (dimsOwn c ds + P)) ds dims := by
  have amps : ∀ (es : List Event), (∀ e ∈ es, e.amp.Valid) → ∀ e ∈ es, Reach (ampOwn c es) e.amp := by
    intro es
    induction es with
    | nil => simp
    | cons a es ih =>
      intro hv e he
      simp only [ampOwn, List.map_cons, List.sum_cons]
      rcases List.mem_cons.mp he with rfl | he
      · exact reach_add.mpr (Or.inl (reach_blk (hv e (by simp)) _))
      · exact reach_add.mpr (Or.inr (ih (fun e he => hv e (by simp [he])) e he))
  have key : ∀ (X : Blocks), X ≤ dimsOwn c ds + P → ∀ (t : List Dim) (u : List (List Spin)), dimsOwn c t ≤ X →
      List.Forall₂ (DimMade c.four P) t u →
      List.Forall₂ (DimReady c.four (dimsOwn c ds + P)) t u := by
    intro X hX t u ht hf
    induction hf with
    | nil => exact List.Forall₂.nil
    | @cons d spins t u hd _ ih =>
      have e : dimsOwn c (d :: t) = dimOwn c d + dimsOwn c t := by simp [dimsOwn]
      rw [e] at ht
      refine List.Forall₂.cons ?_ (ih ((Multiset.le_add_left _ _).trans ht))
      have hown : dimOwn c d ≤ dimsOwn c ds + P := (Multiset.le_add_right _ _).trans (ht.trans hX)
      refine ⟨hd.mono (le_left _ _), Reach.mono ?_ hown, Reach.mono ?_ hown, fun e he => Reach.mono ?_ hown⟩
      · simp [dimOwn, reach_add, reach_blk hd.loc]
      · simp [dimOwn, reach_add, reach_blk hd.off]
      · exact reach_add.mpr (Or.inl (amps d.evs (fun e he => (evs_valid hd.evs e he).1) e he))
  exact key (dimsOwn c ds) (Multiset.le_add_right _ _) ds dims le_rfl h

theorem simulate_spec (P : Blocks) (S : Sizes) (c : Cfg) (dims : List (List Spin)) (paths : List (List (List ℕ)))
    (hs : ∀ spins ∈ dims, Spec.Planned spins) : Adds P (simulate S c dims paths) (Spec.left S c dims paths) := by
  unfold simulate
  refine Triple.bind (createScheme_spec P S c) ?_
  rintro s _ ⟨hok, rfl⟩
  refine Triple.malloc fun arr harr => ?_
  have ht1 : Tables c.four (blk arr (dims.length * S.dimension) + (schemeOwn c s + (blk s.self S.scheme + P))) s := by
    refine hok.tables S.scheme (le_trans ?_ (le_left _ _))
    rw [← add_assoc]
    exact Multiset.le_add_right _ _
  refine Triple.bind (createDims_spec S c dims ht1.self ht1.amps) ?_
  rintro ds _ ⟨L, rfl, hL, hds⟩
  unfold createFftw
  rw [bind_assoc]
  refine Triple.malloc fun fs hfs => ?_
  rw [bind_assoc]
  refine Triple.malloc fun fv hfv => ?_
  rw [bind_assoc]
  refine Triple.malloc fun fp hfp => ?_
  rw [pure_bind]
  have hle : L + (blk arr (dims.length * S.dimension) + (schemeOwn c s + (blk s.self S.scheme + P))) ≤ blk fp S.fftwPlan +
      (blk fv (16 * (c.total * c.ssb)) + (blk fs S.fftw + (dimsOwn c ds + (L + (blk arr (dims.length * S.dimension) +
        (schemeOwn c s + (blk s.self S.scheme + P))))))) :=
    (le_left _ _).trans ((le_left _ _).trans ((le_left _ _).trans (le_left _ _)))
  refine Triple.bind (cores_spec paths _ (ht1.mono ((le_left _ _).trans hle)) ⟨by simp [reach_add, reach_blk hfs],
    by simp [reach_add, reach_blk hfv], by simp [reach_add, reach_blk hfp]⟩ (by simp [reach_add, reach_blk harr])
    ((dimsReady hds).imp fun _ _ h => h.mono ((le_left _ _).trans ((le_left _ _).trans (le_left _ _)))) hs) ?_
  rintro _ _ ⟨L', rfl, hL'⟩
  refine Triple.access (by simp [reach_add, reach_blk harr]) ?_
  -- the dimensions
  refine Triple.pre (P' := dimsOwn c ds + (schemeOwn c s + (blk fp S.fftwPlan + (blk fv (16 * (c.total * c.ssb)) + (L' + blk fs S.fftw + L +
    blk arr (dims.length * S.dimension) + blk s.self S.scheme + P))))) (by abel) ?_
  have hle' : L + (blk arr (dims.length * S.dimension) + (schemeOwn c s + (blk s.self S.scheme + P))) ≤ schemeOwn c s + (blk fp S.fftwPlan +
      (blk fv (16 * (c.total * c.ssb)) + (L' + blk fs S.fftw + L + blk arr (dims.length * S.dimension) + blk s.self S.scheme + P))) := by
    have : schemeOwn c s + (blk fp S.fftwPlan + (blk fv (16 * (c.total * c.ssb)) + (L' + blk fs S.fftw + L +
        blk arr (dims.length * S.dimension) + blk s.self S.scheme + P))) = (blk fp S.fftwPlan + (blk fv (16 * (c.total * c.ssb)) + (L' +
        blk fs S.fftw))) + (L + (blk arr (dims.length * S.dimension) + (schemeOwn c s + (blk s.self S.scheme + P)))) := by abel
    rw [this]
    exact le_left _ _
  refine Triple.bind (freeDims_spec c c.four ds dims (hds.imp fun _ _ h => h.mono hle')) ?_
  rintro _ _ rfl
  -- the scheme
  refine (freeScheme_spec hok (by simp [reach_add, reach_blk hok.self])).bind ?_
  rintro _ _ rfl
  -- the FFT scheme
  unfold freeFftw
  refine Triple.access (by simp [reach_add, reach_blk hfs]) (Triple.free _ _ (Or.inl hfp) rfl ?_)
  refine (free_spec hfv _ _).post ?_
  rintro _ _ rfl
  refine ⟨_, rfl, ?_⟩
  simp only [bytes_add, bytes_blk hfs, bytes_blk harr, bytes_blk hok.self, hL hs, hL', Spec.left]
  ring

/-! ## The property -/

/-- A simulation releases nothing twice, uses nothing that it has released, and leaves the memory of others as it was; what is left behind of
its own has the size given by `Spec.left`. -/
theorem C115_memory_partial (S : Sizes) (c : Cfg) (dims : List (List Spin)) (paths : List (List (List ℕ)))
    (hs : ∀ spins ∈ dims, Spec.Planned spins) (h : Heap) (hh : h.Sound) :
    ∃ h' L, simulate S c dims paths h = .ok ((), h') ∧ h'.Sound ∧ h'.live = h.live + L ∧
      h'.bytes = h.bytes + Spec.left S c dims paths := by
  obtain ⟨a, h', R, e, hs', hn, hl, L, rfl, hL⟩ := simulate_spec 0 S c dims paths hs h h.live hh (zero_add _).symm
  refine ⟨h', L, e, hs', ?_, ?_⟩
  · rw [hl, add_zero, add_comm]
  · have : h'.bytes = bytes h'.live := rfl
    rw [this, hl, add_zero, bytes_add, hL, add_comm]
    rfl

/-- `n` simulations one after the other. -/
def repeated (S : Sizes) (c : Cfg) (dims : List (List Spin)) (paths : List (List (List ℕ))) : ℕ → Prog Unit
  | 0 => pure ()
  | n + 1 => do
    simulate S c dims paths
    repeated S c dims paths n

/-- The memory is not given back: a simulation that is repeated `n` times leaves `n` times as much behind. -/
theorem C115_repeated (S : Sizes) (c : Cfg) (dims : List (List Spin)) (paths : List (List (List ℕ))) (hs : ∀ spins ∈ dims, Spec.Planned spins)
    (n : ℕ) (h : Heap) (hh : h.Sound) :
    ∃ h', repeated S c dims paths n h = .ok ((), h') ∧ h'.Sound ∧ h.live ≤ h'.live ∧ h'.bytes = h.bytes + n * Spec.left S c dims paths := by
  induction n generalizing h with
  | zero => exact ⟨h, rfl, hh, le_rfl, by simp⟩
  | succ n ih =>
    obtain ⟨h1, L, e1, hs1, hl1, hb1⟩ := C115_memory_partial S c dims paths hs h hh
    obtain ⟨h2, e2, hs2, hl2, hb2⟩ := ih h1 hs1
    refine ⟨h2, ?_, hs2, ?_, ?_⟩
    · show (StateT.bind (simulate S c dims paths) fun _ => repeated S c dims paths n) h = _
      unfold StateT.bind
      rw [e1]
      exact e2
    · exact (by rw [hl1]; exact Multiset.le_add_right _ _ : h.live ≤ h1.live).trans hl2
    · rw [hb2, hb1]
      ring

/-- The sizes of the structures on a machine with pointers of eight bytes, and of a plan of FFTW. -/
def exSizes : Sizes := ⟨120, 16, 600, 136, 32, 72⟩

/-- Three orientations of an octant, four sidebands. -/
def exCfg : Cfg := ⟨3, 1, 4, true⟩

-- Two dimensions; in the first, two events of which the second is at another rotor frequency.
example : ∀ spins ∈ ([[(1000, 1), (0, 1)], [(1000, 1)]] : List (List Spin)), Spec.Planned spins := by
  intro spins hs
  rcases List.mem_cons.mp hs with rfl | hs
  · refine ⟨by simp, fun s hs => Or.inr ?_⟩
    rcases List.mem_cons.mp hs with rfl | hs
    · rfl
    · rw [List.mem_singleton.mp hs]
      rfl
  · rw [List.mem_singleton.mp hs]
    exact ⟨by simp, fun s hs => Or.inl (by rw [List.mem_singleton.mp hs]; rfl)⟩

-- One pathway, with two sites of second order in the last event.
example : Spec.left exSizes exCfg [[(1000, 1), (0, 1)], [(1000, 1)]] [[[0, 0], [2]]] = 3232 := by decide +kernel

/-! ## Plans that are not set -/

/-- The program ends with a fault. -/
def Fails {α : Type} (P : Blocks) (m : Prog α) (e : Fault) : Prop := ∀ h F, h.Sound → h.live = P + F → m h = .error e

theorem Fails.left {α β : Type} {P : Blocks} {m : Prog α} {f : α → Prog β} {e : Fault} (hm : Fails P m e) : Fails P (m >>= f) e := by
  intro h F hs hl
  show (StateT.bind m f) h = _
  unfold StateT.bind
  rw [hm h F hs hl]
  rfl

theorem Triple.fails {α β : Type} {P : Blocks} {m : Prog α} {f : α → Prog β} {Q : α → Blocks → Prop} {e : Fault} (hm : Triple P m Q)
    (hf : ∀ a R, Q a R → Fails R (f a) e) : Fails P (m >>= f) e := by
  intro h F hs hl
  obtain ⟨a, h', R, he, hs', -, hl', hq⟩ := hm h F hs hl
  show (StateT.bind m f) h = _
  unfold StateT.bind
  rw [he]
  exact hf a R hq h' F hs' hl'

theorem Adds.fails {P : Blocks} {m : Prog Unit} {f : Unit → Prog Unit} {n : ℕ} {e : Fault} (hm : Adds P m n)
    (hf : ∀ L, Fails (L + P) (f ()) e) : Fails P (m >>= f) e := by
  refine Triple.fails hm ?_
  rintro _ _ ⟨L, rfl, -⟩
  exact hf L

theorem coreEvent_fails {P : Blocks} (c : Cfg) (s : Scheme) (f : Fftw) (R2 R4 R2t R4t : Ptr) {d : Dim} {e : Event} (q : ℕ)
    (hd : Reach P d.events) (he : e.plan = .wild) : Fails P (coreEvent c s f R2 R4 R2t R4t d e q) .wild := by
  unfold coreEvent
  refine Triple.fails (access_spec hd) ?_
  rintro _ _ rfl
  rw [he]
  intro h F _ _
  rfl

theorem coreEvents_fails {c : Cfg} {s : Scheme} {f : Fftw} {R2 R4 R2t R4t : Ptr} {d : Dim} {spins : List Spin} {first : Spin} (es : List Event) :
    ∀ (P : Blocks) (qs : List ℕ) (t : List Spin), Tables c.four P s → FftwOk P f → Comps P R2 R4 R2t R4t → DimReady c.four P d spins →
    (∀ e ∈ es, e ∈ d.evs) → List.Forall₂ (EvMade c.four P first) es t → (∃ spin ∈ t, ¬ Near first spin) →
    Fails P (coreEvents c s f R2 R4 R2t R4t d es qs) .wild := by
  induction es with
  | nil =>
    intro P qs t _ _ _ _ _ h hx
    rcases h
    simp at hx
  | cons e es ih =>
    intro P qs t ht hf hr hd he h hx
    rcases h with _ | ⟨h0, h1⟩
    rename_i spin t
    unfold coreEvents
    by_cases hn : Near first spin
    · refine (coreEvent_spec (qs.headD 0) ht hf hr hd (he e (by simp)) (h0.near hn)).fails fun L => ?_
      refine ih (L + P) qs.tail t (ht.mono (le_left _ _)) (hf.mono (le_left _ _)) (hr.mono (le_left _ _)) (hd.mono (le_left _ _))
        (fun e' he' => he e' (by simp [he'])) (h1.imp fun _ _ h => h.mono (le_left _ _)) ?_
      obtain ⟨x, hx, hx'⟩ := hx
      rcases List.mem_cons.mp hx with rfl | hx
      · exact absurd hn hx'
      · exact ⟨x, hx, hx'⟩
    · exact (coreEvent_fails c s f R2 R4 R2t R4t _ hd.made.events (h0.far hn)).left

theorem coreDims_fails {c : Cfg} {s : Scheme} {f : Fftw} {R2 R4 R2t R4t : Ptr} (ds : List Dim) :
    ∀ (P : Blocks) (dims : List (List Spin)) (qs : List (List ℕ)), Tables c.four P s → FftwOk P f → Comps P R2 R4 R2t R4t →
    List.Forall₂ (DimReady c.four P) ds dims → (∀ spins ∈ dims, spins ≠ []) → (∃ spins ∈ dims, ¬ Spec.Planned spins) →
    Fails P (coreDims c s f R2 R4 R2t R4t ds qs) .wild := by
  induction ds with
  | nil =>
    intro P dims qs _ _ _ h _ hx
    rcases h
    simp at hx
  | cons d ds ih =>
    intro P dims qs ht hf hr h hne hx
    rcases h with _ | ⟨hd, hds⟩
    rename_i spins dims
    unfold coreDims
    by_cases hp : Spec.Planned spins
    · refine (coreEvents_spec d.evs P (qs.headD []) ht hf hr hd fun e he => ⟨he, hd.evs hp e he⟩).fails fun L => ?_
      refine ih (L + P) dims qs.tail (ht.mono (le_left _ _)) (hf.mono (le_left _ _)) (hr.mono (le_left _ _))
        (hds.imp fun _ _ h => h.mono (le_left _ _)) (fun t ht => hne t (by simp [ht])) ?_
      obtain ⟨x, hx, hx'⟩ := hx
      rcases List.mem_cons.mp hx with rfl | hx
      · exact absurd hp hx'
      · exact ⟨x, hx, hx'⟩
    · refine (coreEvents_fails d.evs P _ spins ht hf hr hd (fun _ h => h) hd.made.evs ?_).left
      by_contra hall
      push Not at hall
      exact hp ⟨hne spins (by simp), hall⟩

/-- One event whose rotor frequency and rotor angle both differ from those of the first event of its dimension makes every simulation with a
pathway follow a pointer that was never set. -/
theorem C115_counterexample (S : Sizes) (c : Cfg) (dims : List (List Spin)) (paths : List (List (List ℕ))) (hp : paths ≠ [])
    (hne : ∀ spins ∈ dims, spins ≠ []) (hx : ∃ spins ∈ dims, ∃ s ∈ spins, s.1 ≠ (spins.headD (0, 0)).1 ∧ s.2 ≠ (spins.headD (0, 0)).2)
    (h : Heap) (hh : h.Sound) : simulate S c dims paths h = .error .wild := by
  have key : Fails 0 (simulate S c dims paths) .wild := by
    unfold simulate
    refine Triple.fails (createScheme_spec 0 S c) ?_
    rintro s _ ⟨hok, rfl⟩
    refine Triple.fails (malloc_spec _ _) ?_
    rintro arr _ ⟨harr, rfl⟩
    have ht1 : Tables c.four (blk arr (dims.length * S.dimension) + (schemeOwn c s + (blk s.self S.scheme + 0))) s := by
      refine hok.tables S.scheme (le_trans ?_ (le_left _ _))
      rw [← add_assoc]
      exact Multiset.le_add_right _ _
    refine Triple.fails (createDims_spec S c dims ht1.self ht1.amps) ?_
    rintro ds _ ⟨L, rfl, hL, hds⟩
    unfold createFftw
    rw [bind_assoc]
    refine Triple.fails (malloc_spec _ _) ?_
    rintro fs _ ⟨hfs, rfl⟩
    rw [bind_assoc]
    refine Triple.fails (malloc_spec _ _) ?_
    rintro fv _ ⟨hfv, rfl⟩
    rw [bind_assoc]
    refine Triple.fails (malloc_spec _ _) ?_
    rintro fp _ ⟨hfp, rfl⟩
    rw [pure_bind]
    refine Fails.left ?_
    obtain ⟨qs, rest, rfl⟩ : ∃ qs rest, paths = qs :: rest := by
      cases paths with
      | nil => exact absurd rfl hp
      | cons qs rest => exact ⟨qs, rest, rfl⟩
    unfold cores
    refine Fails.left ?_
    unfold core
    refine Triple.fails (malloc_spec _ _) ?_
    rintro R2 _ ⟨h2, rfl⟩
    refine Triple.fails (malloc_spec _ _) ?_
    rintro R4 _ ⟨h4, rfl⟩
    refine Triple.fails (malloc_spec _ _) ?_
    rintro R2t _ ⟨h2t, rfl⟩
    refine Triple.fails (malloc_spec _ _) ?_
    rintro R4t _ ⟨h4t, rfl⟩
    refine Triple.fails (access_spec (by simp [reach_add, reach_blk harr])) ?_
    rintro _ _ rfl
    refine Fails.left ?_
    have hup : ∀ {A X : Blocks}, A ≤ X → A ≤ blk R4t (16 * 9) + (blk R2t (16 * 5) + (blk R4 (16 * 9) + (blk R2 (16 * 5) +
        (blk fp S.fftwPlan + (blk fv (16 * (c.total * c.ssb)) + (blk fs S.fftw + X)))))) := fun h =>
      h.trans ((le_left _ _).trans ((le_left _ _).trans ((le_left _ _).trans ((le_left _ _).trans ((le_left _ _).trans ((le_left _ _).trans
        (le_left _ _)))))))
    refine coreDims_fails ds _ dims qs (ht1.mono (hup ((le_left _ _).trans (le_left _ _)))) ⟨by simp [reach_add, reach_blk hfs],
      by simp [reach_add, reach_blk hfv], by simp [reach_add, reach_blk hfp]⟩ ⟨by simp [reach_add, reach_blk h2],
      by simp [reach_add, reach_blk h4], by simp [reach_add, reach_blk h2t], by simp [reach_add, reach_blk h4t]⟩
      ((dimsReady hds).imp fun _ _ h => h.mono (hup le_rfl)) hne ?_
    obtain ⟨spins, hm, x, hxm, hx1, hx2⟩ := hx
    exact ⟨spins, hm, fun hpl => (hpl.2 x hxm).elim hx1 hx2⟩
  exact key h h.live hh (zero_add _).symm

example : ∃ spins ∈ ([[(1000, 1), (0, 2)]] : List (List Spin)), ∃ s ∈ spins, s.1 ≠ (spins.headD (0, 0)).1 ∧ s.2 ≠ (spins.headD (0, 0)).2 :=
  ⟨_, List.mem_singleton_self _, (0, 2), by simp, by simp, by simp⟩

end MRS.Mem
