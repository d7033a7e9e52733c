import Verif.Model.Distance
/-
The same algorithm statement by statement: the table in one vector with computed indices, and every index and every
subtraction checked.  `none` is a panic.
-/
set_option autoImplicit false

namespace Qlc

/-- Rust `v[i]`: panics if the index is out of range. -/
def vecGet (l : List Nat) (i : Nat) : Option Nat := l[i]?

/-- Rust `v[i] = x`: panics if the index is out of range. -/
def vecSet (l : List Nat) (i x : Nat) : Option (List Nat) := if i < l.length then some (l.set i x) else none

/-- Rust `a - b` on `usize`: panics (or wraps around) if the result would be negative. -/
def usizeSub (a b : Nat) : Option Nat := if b ≤ a then some (a - b) else none

/-- strsim: `for i in 0..(a_len + 1) { distances[i + 1] = max_distance; distances[(i + 1) + width] = i; }`; the first
argument counts the rounds left. -/
def vecTop (width max : Nat) : Nat → Nat → List Nat → Option (List Nat)
  | 0, _, l => some l
  | n + 1, i, l => do
    let l ← vecSet l (i + 1) max
    let l ← vecSet l ((i + 1) + width) i
    vecTop width max n (i + 1) l

/-- strsim: `for j in 0..(b_len + 1) { distances[(j + 1) * width] = max_distance; distances[(j + 1) * width + 1] = j; }`. -/
def vecLeft (width max : Nat) : Nat → Nat → List Nat → Option (List Nat)
  | 0, _, l => some l
  | n + 1, j, l => do
    let l ← vecSet l ((j + 1) * width) max
    let l ← vecSet l ((j + 1) * width + 1) j
    vecLeft width max n (j + 1) l

variable {α : Type} [DecidableEq α]

/-- strsim: the inner loop. -/
def vecRow (width i : Nat) (x : α) (elems : α → Nat) : List α → Nat → Nat → List Nat → Option (List Nat)
  | [], _, _, l => some l
  | y :: rest, j, db, l => do
    let k := elems y
    let insertion := (← vecGet l (j * width + i + 1)) + 1
    let deletion := (← vecGet l ((j + 1) * width + i)) + 1
    let transposition := (← vecGet l (db * width + k)) + (← usizeSub (← usizeSub i k) 1) + 1 +
      (← usizeSub (← usizeSub j db) 1)
    let sub := (← vecGet l (j * width + i)) + 1
    let substitution ← if x = y then usizeSub sub 1 else some sub
    let db' := if x = y then j else db
    let l ← vecSet l ((j + 1) * width + i + 1) (min substitution (min insertion (min deletion transposition)))
    vecRow width i x elems rest (j + 1) db' l

/-- strsim: the outer loop. -/
def vecRows (width : Nat) (b : List α) : List α → Nat → (α → Nat) → List Nat → Option (List Nat)
  | [], _, _, l => some l
  | x :: rest, i, elems, l => do
    let l ← vecRow width i x elems b 1 0 l
    vecRows width b rest (i + 1) (fun y => if y = x then i else elems y) l

/-- strsim `generic_damerau_levenshtein`, statement by statement. -/
def damerauVec (a b : List α) : Option Nat :=
  if a.length = 0 then some b.length
  else if b.length = 0 then some a.length
  else do
    let width := a.length + 2
    let l := List.replicate ((a.length + 2) * (b.length + 2)) 0
    let max := a.length + b.length
    let l ← vecSet l 0 max
    let l ← vecTop width max (a.length + 1) 0 l
    let l ← vecLeft width max (b.length + 1) 0 l
    let l ← vecRows width b a 1 (fun _ => 0) l
    vecGet l ((b.length + 1) * width + a.length + 1)

end Qlc
