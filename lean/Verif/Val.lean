import Verif.Dict
import Mathlib.Data.Rat.Defs

/-!
# Python values

JSON-like values: what the dictionaries handled by the package contain. Tuples are lists;
booleans do not occur in the modelled code.
-/

namespace MRS

/-- A Python value. -/
inductive Val
  | none
  | num (q : ℚ)
  | str (s : String)
  | list (l : List Val)
  | dict (d : List (String × Val))
  deriving Repr

namespace Val

mutual
/-- Equality of values is decidable. -/
def decEq : (a b : Val) → Decidable (a = b)
  | .none, .none => isTrue rfl
  | .num p, .num q => if h : p = q then isTrue (by rw [h]) else isFalse (by intro e; cases e; exact h rfl)
  | .str p, .str q => if h : p = q then isTrue (by rw [h]) else isFalse (by intro e; cases e; exact h rfl)
  | .list p, .list q =>
    match decEqList p q with
    | isTrue h => isTrue (by rw [h])
    | isFalse h => isFalse (by intro e; cases e; exact h rfl)
  | .dict p, .dict q =>
    match decEqDict p q with
    | isTrue h => isTrue (by rw [h])
    | isFalse h => isFalse (by intro e; cases e; exact h rfl)
  | .none, .num _ => isFalse nofun
  | .none, .str _ => isFalse nofun
  | .none, .list _ => isFalse nofun
  | .none, .dict _ => isFalse nofun
  | .num _, .none => isFalse nofun
  | .num _, .str _ => isFalse nofun
  | .num _, .list _ => isFalse nofun
  | .num _, .dict _ => isFalse nofun
  | .str _, .none => isFalse nofun
  | .str _, .num _ => isFalse nofun
  | .str _, .list _ => isFalse nofun
  | .str _, .dict _ => isFalse nofun
  | .list _, .none => isFalse nofun
  | .list _, .num _ => isFalse nofun
  | .list _, .str _ => isFalse nofun
  | .list _, .dict _ => isFalse nofun
  | .dict _, .none => isFalse nofun
  | .dict _, .num _ => isFalse nofun
  | .dict _, .str _ => isFalse nofun
  | .dict _, .list _ => isFalse nofun

/-- See `decEq`. -/
def decEqList : (a b : List Val) → Decidable (a = b)
  | [], [] => isTrue rfl
  | [], _ :: _ => isFalse nofun
  | _ :: _, [] => isFalse nofun
  | x :: xs, y :: ys =>
    match decEq x y, decEqList xs ys with
    | isTrue h, isTrue h' => isTrue (by rw [h, h'])
    | isFalse h, _ => isFalse (by intro e; cases e; exact h rfl)
    | _, isFalse h => isFalse (by intro e; cases e; exact h rfl)

/-- See `decEq`. -/
def decEqDict : (a b : List (String × Val)) → Decidable (a = b)
  | [], [] => isTrue rfl
  | [], _ :: _ => isFalse nofun
  | _ :: _, [] => isFalse nofun
  | (k, x) :: xs, (l, y) :: ys =>
    if hk : k = l then
      match decEq x y, decEqDict xs ys with
      | isTrue h, isTrue h' => isTrue (by rw [hk, h, h'])
      | isFalse h, _ => isFalse (by intro e; cases e; exact h rfl)
      | _, isFalse h => isFalse (by intro e; cases e; exact h rfl)
    else isFalse (by intro e; cases e; exact hk rfl)
end

instance : DecidableEq Val := decEq

example : Val.list [.num 1, .dict [("a", .none)]] ≠ .list [.num 1, .dict [("b", .none)]] := by
  decide +kernel

end Val

end MRS
