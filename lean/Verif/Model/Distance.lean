import Verif.Spec.JsonText
/-
Model of the edit distance that the suggestions use: `generic_damerau_levenshtein` of the crate strsim 0.10.0 (its `lib.rs`;
called at cli.rs:508).  The crate is not in /repo; the model follows its published source loop by loop.
-/
set_option autoImplicit false

namespace Qlc

/-- strsim `distances: Vec<usize>`: the table, as a function of row and column.  The crate keeps it in one vector, at
`row * (a_len + 2) + column`; columns are below `a_len + 2`, so no two cells share a place. -/
abbrev DistTable := Nat → Nat → Nat

/-- strsim: one assignment to `distances[..]`. -/
def DistTable.set (T : DistTable) (row col v : Nat) : DistTable :=
  fun r c => if r = row ∧ c = col then v else T r c

/-- strsim: the table before the loops: the first row and the first column hold `max_distance`, the second row and the second
column count from 0. -/
def DistTable.start (max : Nat) : DistTable := fun r c =>
  if r = 0 ∨ c = 0 then max else if c = 1 then r - 1 else if r = 1 then c - 1 else 0

variable {α : Type} [DecidableEq α]

/-- strsim: the inner loop, `for j in 1..b_len + 1`: `rest` are the elements of `b` from `j` on, `x` is `a_elems[i - 1]`,
`elems` the map from an element to the last index in `a` where it was seen (0 if none), `db` the last `j` where `x` was seen. -/
def distRow (i : Nat) (x : α) (elems : α → Nat) : List α → Nat → Nat → DistTable → DistTable
  | [], _, _, T => T
  | y :: rest, j, db, T =>
    let k := elems y
    let insertion := T j (i + 1) + 1
    let deletion := T (j + 1) i + 1
    let transposition := T db k + (i - k - 1) + 1 + (j - db - 1)
    let substitution := if x = y then T j i else T j i + 1
    let db' := if x = y then j else db
    distRow i x elems rest (j + 1) db'
      (T.set (j + 1) (i + 1) (min substitution (min insertion (min deletion transposition))))

/-- strsim: the outer loop, `for i in 1..a_len + 1`: `rest` are the elements of `a` from `i` on; after each round
`elems.insert(a_elems[i - 1], i)`. -/
def distRows (b : List α) : List α → Nat → (α → Nat) → DistTable → DistTable
  | [], _, _, T => T
  | x :: rest, i, elems, T =>
    distRows b rest (i + 1) (fun y => if y = x then i else elems y) (distRow i x elems b 1 0 T)

/-- strsim `generic_damerau_levenshtein`. -/
def damerau (a b : List α) : Nat :=
  if a.length = 0 then b.length
  else if b.length = 0 then a.length
  else distRows b a 1 (fun _ => 0) (DistTable.start (a.length + b.length)) (b.length + 1) (a.length + 1)

/-- cli.rs:505-508: the distance of two names, taken on their bytes (`as_ref()` gives `&[u8]`). -/
def nameDistance (a b : String) : Nat := damerau (Spec.utf8Bytes a.toList) (Spec.utf8Bytes b.toList)

end Qlc
