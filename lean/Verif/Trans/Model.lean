import Verif.Py
import Mathlib.Data.Rat.Defs
import Mathlib.Data.List.Sort
import Mathlib.Data.List.Permutation
import Mathlib.Data.List.Dedup

/-!
# Energy states, transitions, transition queries and pathways — model

Quantum numbers are rationals (the code uses binary floats; multiples of one half
are exact there). An isotope is its symbol together with twice its spin
(`ISOTOPE_DATA[symbol]["spin"]`, src/mrsimulator/spin_system/isotope.py:59-63).
-/

namespace MRS.Trans

/-- The part of a site that matters here: isotope symbol and `2 I` (base_model.pyx lines 439-448). -/
structure Iso where
  symbol : String
  twoI : Nat
  deriving DecidableEq, Repr

/-- A state is the list of quantum numbers, one per site (spin_system/__init__.py lines 237-243). -/
abbrev State := List ℚ

/-- A transition as (initial, final), as in `Transition(initial=.., final=..)` (transition/base.py lines 34-35). -/
abbrev Tr := State × State

/-! ## src/c_lib/base/base_model.pyx:514-531 `get_zeeman_states` -/

/-- `np.arange(two_Ip1) - spin` (base_model.pyx:517-520). -/
def spinNumbers (s : Iso) : List ℚ :=
  (List.range (s.twoI + 1)).map fun (k : Nat) => (k : ℚ) - (s.twoI : ℚ) / 2

/-- `np.kron` of one-dimensional arrays. -/
def kron (a b : List ℚ) : List ℚ := a.flatMap fun x => b.map fun y => x * y

/-- base_model.pyx:524-530: column `j`, the left-nested product over `i` with the
quantum numbers at `i = j` and ones elsewhere. `k = 1` is the array `[1]`. -/
def column (sites : List Iso) (j : Nat) : List ℚ :=
  (sites.zipIdx).foldl (fun k si =>
    kron k (if si.2 = j then spinNumbers si.1 else List.replicate (si.1.twoI + 1) 1)) [1]

/-- `np.asarray(lst).T` for a list of equally long rows; `[]` stays empty. -/
def transpose (cols : List (List ℚ)) : List (List ℚ) :=
  match cols with
  | [] => []
  | c :: cs => (List.range c.length).map fun s => (c :: cs).map fun col => col.getD s 0

/-- base_model.pyx:514-531; `SpinSystem._zeeman_energy_states` (spin_system/__init__.py:237-243) returns it, and `zeeman_energy_states`
(245-266) the same states as objects. -/
def zeemanStates (sites : List Iso) : List State :=
  transpose ((List.range sites.length).map (column sites))

/-! ## src/mrsimulator/spin_system/__init__.py:268-316 -/

/-- spin_system/__init__.py:268-280, and 282-316 for the same as objects: `meshgrid`, `.T.reshape(-1, 2)` and fancy
indexing. With `X[i][j] = lst[j]`, `Y[i][j] = lst[i]`, the transposed array has
`T[a][b] = (X[b][a], Y[b][a])`. -/
def allTransitions (sites : List Iso) : List Tr :=
  let states := zeemanStates sites
  let s := states.length
  let lst := List.range s
  let X : List (List Nat) := lst.map fun _ => lst
  let Y : List (List Nat) := lst.map fun i => lst.map fun _ => i
  let at2 (M : List (List Nat)) (i j : Nat) : Nat := (M.getD i []).getD j 0
  let indexes := lst.flatMap fun a => lst.map fun b => (at2 X b a, at2 Y b a)
  indexes.map fun p => (states.getD p.1 [], states.getD p.2 [])

/-! ## src/mrsimulator/transition/base.py -/

/-- transition/base.py:67-76 `P`; method/utils.py:54-56 `P_symmetry_indexes` computes it for all transitions at once. -/
def trP (t : Tr) : List ℚ := List.zipWith (fun f i => f - i) t.2 t.1

/-- transition/base.py:83-92 `D`; method/utils.py:59-61 `D_symmetry_indexes` computes it for all transitions at once. -/
def trD (t : Tr) : List ℚ := List.zipWith (fun f i => f ^ 2 - i ^ 2) t.2 t.1

/-- transition/base.py:52-60 `p` and its alias `delta_m` (62-65). -/
def trp (t : Tr) : ℚ := (trP t).sum

/-! ## src/mrsimulator/method/utils.py -/

/-- `np.union1d`: sorted distinct elements of both. -/
def union1d (a b : List Nat) : List Nat := ((a ++ b).dedup).insertionSort (· ≤ ·)

/-- `np.intersect1d`: sorted distinct common elements. -/
def intersect1d (a b : List Nat) : List Nat :=
  ((a.filter fun x => x ∈ b).dedup).insertionSort (· ≤ ·)

/-- `np.where(fn[:, i] == v)` (method/utils.py lines 42-51). -/
def whereEq (fn : List (List ℚ)) (i : Nat) (v : ℚ) : List Nat :=
  (List.range fn.length).filter fun r => (fn.getD r []).getD i 0 = v

/-- `reduce(f, l)` without initial value: a `TypeError` on the empty list (method/utils.py lines 42-51). -/
def reduce1 {α} (f : α → α → α) : List α → Py α
  | [] => .error .typeError
  | a :: l => .ok (l.foldl f a)

/-- method/utils.py:42-51. `n` is `fn.shape[1]`. -/
def getSymmetryIndexes (n : Nat) (fn : List (List ℚ)) (listOfSym : List (List ℚ)) :
    Py (List Nat) := do
  let sets ← listOfSym.mapM fun search =>
    reduce1 intersect1d ((List.range n).map fun i => whereEq fn i (search.getD i 0))
  return sets.foldl union1d []

/-- method/utils.py:73-75: indices of the sites of isotope `c` (`np.where`). -/
def isoIndex (isotope : List String) (c : String) : List Nat :=
  (List.range isotope.length).filter fun s => isotope.getD s "" = c

/-- Iteration order of Python sets of tuples: arbitrary, but each element once. -/
structure SetOrder where
  order : List (List ℚ) → List (List ℚ)
  perm : ∀ l, (order l).Perm l.dedup

/-- One symmetry (`P` or `D`) of a query: the entry of key `channel-k` is stored
under `k`. A missing key is a `KeyError` (method/utils.py lines 78-130). -/
abbrev Sym := List (Nat × List (List ℚ))

/-- method/utils.py:112-121 for one channel with `n` sites: pad every entry with
zeros and list its distinct rearrangements. -/
def channelPerms (so : SetOrder) (n : Nat) : List (List ℚ) → Py (List (List ℚ))
  | [] => .ok []
  | item :: rest =>
    if item.length > n then .error .valueError
    else do
      let padded := item ++ List.replicate (n - item.length) 0
      let tl ← channelPerms so n rest
      return so.order padded.permutations' ++ tl

/-- method/utils.py:103-121: the loop over channels. `none` is the early
`return np.asarray([])` of line 107. -/
def permLoop (so : SetOrder) (isotope : List String) (q : Sym) :
    List (String × Nat) → Py (Option (List (List (List ℚ))))
  | [] => .ok (some [])
  | (c, i) :: rest =>
    if c ∉ isotope then .ok none
    else match q.lookup (i + 1) with
      | none => .error .keyError
      | some entries => do
        let temp ← channelPerms so (isoIndex isotope c).length entries
        match ← permLoop so isotope q rest with
        | none => return none
        | some tl => return some (temp :: tl)

/-- Assignment of `vals` to the positions `idx` of one row (method/utils.py lines 78-130). -/
def rowSet (row : List ℚ) : List Nat → List ℚ → List ℚ
  | i :: is, v :: vs => rowSet (row.set i v) is vs
  | _, _ => row

/-- method/utils.py:128 `P_expanded[:, idx] = value`, with broadcasting of a value
of one row. Any other number of rows (also an empty value) is a `ValueError`. -/
def assignCols (L : Nat) (rows : List (List ℚ)) (idx : List Nat)
    (value : List (List ℚ)) : Py (List (List ℚ)) :=
  if value.length = 0 then .error .valueError
  else if value.length = L then .ok (List.zipWith (fun row v => rowSet row idx v) rows value)
  else if value.length = 1 then .ok (rows.map fun row => rowSet row idx (value.headD []))
  else .error .valueError

/-- method/utils.py:126-128: the loop that fills `P_expanded`. -/
def fillLoop (L : Nat) (isotope : List String) :
    List String → List (List (List ℚ)) → List (List ℚ) → Py (List (List ℚ))
  | c :: cs, v :: vs, rows => do
    let rows ← assignCols L rows (isoIndex isotope c) v
    fillLoop L isotope cs vs rows
  | _, _, rows => .ok rows

/-- method/utils.py:78-130. `channel = []` would make `max()` fail (`ValueError`). -/
def queryPermutations (so : SetOrder) (q : Sym) (isotope channel : List String) :
    Py (List (List ℚ)) := do
  match ← permLoop so isotope q channel.zipIdx with
  | none => return []
  | some perms =>
    if perms = [] then throw .valueError
    let L := (perms.map List.length).foldl max 0
    fillLoop L isotope channel perms (List.replicate L (List.replicate isotope.length 0))

/-- A transition query: `P` and the optional `D`
(method/transition_query.py:46-47; `P = None` is not modelled). -/
structure Query where
  P : Sym
  D : Option Sym

/-- method/__init__.py:342-363: the transitions one event selects. Indexing the
transition array of an empty system (`transitions[:, 1, :]`) is an `IndexError`. -/
def eventTransitions (so : SetOrder) (sites : List Iso) (channel : List String)
    (q : Query) : Py (List Tr) := do
  let isotope := sites.map Iso.symbol
  let all := allTransitions sites
  let listP ← queryPermutations so q.P isotope channel
  if sites = [] then throw .indexError
  let idx ← getSymmetryIndexes sites.length (all.map trP) listP
  let sel := idx.map fun r => all.getD r ([], [])
  match q.D with
  | none => return sel
  | some d =>
    let listD ← queryPermutations so d isotope channel
    let idx ← getSymmetryIndexes sites.length (sel.map trD) listD
    return idx.map fun r => sel.getD r ([], [])

/-- method/__init__.py:336-364: the segments of a method, given as its dimensions,
each a list of events (queries). -/
def segments (so : SetOrder) (sites : List Iso) (channel : List String)
    (dims : List (List Query)) : Py (List (List Tr)) :=
  dims.flatten.mapM (eventTransitions so sites channel)

/-- method/utils.py:33-39 `cartesian_product(*arrays)`: `arr[..., i] = ix_(..)[i]`
then `reshape(-1, la)`, i.e. rows in C order. Index tuples of an array with the given
shape, last index fastest. -/
def indexTuples : List Nat → List (List Nat)
  | [] => [[]]
  | n :: ns => (List.range n).flatMap fun i => (indexTuples ns).map fun t => i :: t

/-- method/utils.py:33-39 for `arrays = [arange(n_0), ...]`. -/
def cartesianProduct (arrays : List (List Nat)) : List (List Nat) :=
  (indexTuples (arrays.map List.length)).map fun t =>
    List.zipWith (fun a i => a.getD i 0) arrays t

/-- method/__init__.py:366-372. `np.result_type()` of no array is a `ValueError`
(a method without any event). -/
def pathwaysNp (segs : List (List Tr)) : Py (List (List Tr)) :=
  if segs = [] then .error .valueError
  else
    let segIndex := segs.map fun s => List.range s.length
    .ok ((cartesianProduct segIndex).map fun item =>
      List.zipWith (fun seg j => seg.getD j ([], [])) segs item)

/-- method/__init__.py:374-406 `get_transition_pathways`. -/
def transitionPathways (so : SetOrder) (sites : List Iso) (channel : List String)
    (dims : List (List Query)) : Py (List (List Tr)) := do
  let segs ← segments so sites channel dims
  pathwaysNp segs

end MRS.Trans
