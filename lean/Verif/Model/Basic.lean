/-
Shared vocabulary of the model: hash iteration oracles, association lists, sorting, and the
handful of Rust string functions the code uses.  No Mathlib is needed here.
-/
set_option autoImplicit false

namespace Qlc

/-- Results can be compared (used in examples only). -/
instance {ε α : Type} [DecidableEq ε] [DecidableEq α] : DecidableEq (Except ε α)
  | .ok a, .ok b => if h : a = b then isTrue (h ▸ rfl) else isFalse (fun e => h (by injection e))
  | .error a, .error b =>
    if h : a = b then isTrue (h ▸ rfl) else isFalse (fun e => h (by injection e))
  | .ok _, .error _ => isFalse (fun e => by cases e)
  | .error _, .ok _ => isFalse (fun e => by cases e)

/-- Iteration order of Rust's `HashMap`/`HashSet` (`RandomState`): whenever the code iterates over a
hash table, the model applies `perm site` to the entries.  `site` is a label for the place (and, where
the code is recursive, the path) of the iteration, so different iterations may use unrelated orders.
Every theorem quantifies over all oracles. -/
structure Hash where
  perm : List String → {α : Type} → List α → List α
  isPerm : ∀ site {α : Type} (l : List α), (perm site l).Perm l

/-- The oracle that iterates in insertion order (only used in examples). -/
def Hash.inOrder : Hash := ⟨fun _ _ l => l, fun _ _ l => List.Perm.refl l⟩

/-- The oracle that iterates in reverse insertion order (only used in examples). -/
def Hash.reversed : Hash := ⟨fun _ _ l => l.reverse, fun _ _ l => List.reverse_perm l⟩

/-- Model of `std::collections::HashMap`: an association list. -/
abbrev AMap (K V : Type) := List (K × V)

variable {K V : Type} [DecidableEq K]

/-- `HashMap::get`. -/
def AMap.get? (m : AMap K V) (k : K) : Option V :=
  match m with
  | [] => none
  | (k', v) :: rest => if k' = k then some v else AMap.get? rest k

/-- `HashMap::insert`: replaces the value of an existing key, otherwise adds an entry. -/
def AMap.insert (m : AMap K V) (k : K) (v : V) : AMap K V :=
  match m with
  | [] => [(k, v)]
  | (k', v') :: rest => if k' = k then (k', v) :: rest else (k', v') :: AMap.insert rest k v

/-- `HashMap::keys`, in list order. -/
def AMap.keys (m : AMap K V) : List K := m.map Prod.fst

/-- `HashSet::insert`. -/
def setInsert (s : List K) (x : K) : List K := if x ∈ s then s else s ++ [x]

/-- Insertion into a list sorted by a `String` key. -/
def insertBy {α : Type} (key : α → String) (x : α) : List α → List α
  | [] => [x]
  | y :: ys => if key x ≤ key y then x :: y :: ys else y :: insertBy key x ys

/-- `sort_unstable_by_key` on a `String` key (Rust compares strings bytewise, which for UTF-8 is the
code point order used by Lean's `String` order).  The relative order of equal keys, which Rust leaves
unspecified, is covered because every use in the model sorts a list that the hash oracle permuted
first. -/
def sortBy {α : Type} (key : α → String) : List α → List α
  | [] => []
  | x :: xs => insertBy key x (sortBy key xs)

/-- `sort_unstable` on strings. -/
def sortStr (l : List String) : List String := sortBy id l

/-- `collect::<Result<Vec<_>, E>>()`: the first error in iteration order wins. -/
def seqE {ε α : Type} : List (Except ε α) → Except ε (List α)
  | [] => .ok []
  | .error e :: _ => .error e
  | .ok a :: rest =>
    match seqE rest with
    | .ok as => .ok (a :: as)
    | .error e => .error e

/-- `[&str]::join`. -/
def joinWith (sep : String) : List String → String
  | [] => ""
  | [x] => x
  | x :: y :: rest => x ++ sep ++ joinWith sep (y :: rest)

/-- `str::repeat` of a single space. -/
def spaces (n : Nat) : String := String.ofList (List.replicate n ' ')

/-- Rust `char::is_whitespace` (Unicode `White_Space`). -/
def isWs (c : Char) : Bool :=
  let n := c.toNat
  (9 ≤ n && n ≤ 13) || n == 0x20 || n == 0x85 || n == 0xA0 || n == 0x1680 ||
  (0x2000 ≤ n && n ≤ 0x200A) || n == 0x2028 || n == 0x2029 || n == 0x202F || n == 0x205F ||
  n == 0x3000

/-- `str::split('\n')` without the rest of `lines` post-processing. -/
def splitNl : List Char → List (List Char)
  | [] => [[]]
  | c :: cs =>
    if c = '\n' then [] :: splitNl cs
    else match splitNl cs with
      | [] => [[c]]
      | l :: ls => (c :: l) :: ls

/-- Drop one trailing `'\r'`. -/
def stripCr (l : List Char) : List Char :=
  if l.getLast? = some '\r' then l.dropLast else l

/-- `str::lines`: split at `'\n'`, drop the empty piece after a final newline, drop a `'\r'` that
precedes a `'\n'`.  (Rust keeps a lone trailing `'\r'` on an unterminated last line; so does this.) -/
def linesC (cs : List Char) : List (List Char) :=
  let parts := splitNl cs
  let last := parts.getLast?.getD []
  let init := parts.dropLast.map stripCr
  if last = [] then init else init ++ [last]

/-- `str::lines` on strings. -/
def lines (s : String) : List String := (linesC s.toList).map String.ofList

/-- `str::trim`. -/
def trimC (cs : List Char) : List Char :=
  ((cs.dropWhile isWs).reverse.dropWhile isWs).reverse

/-- `str::replace(pat, "")` for a two character pattern: non-overlapping matches, left to right. -/
def remove2 (a b : Char) : List Char → List Char
  | [] => []
  | [c] => [c]
  | c :: d :: rest => if c = a ∧ d = b then remove2 a b rest else c :: remove2 a b (d :: rest)

/-- `str::replace('\n', new)`. -/
def replaceNl (new : List Char) : List Char → List Char
  | [] => []
  | c :: cs => if c = '\n' then new ++ replaceNl new cs else c :: replaceNl new cs

end Qlc
