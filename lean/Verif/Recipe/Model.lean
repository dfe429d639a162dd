/-
  Model of `src/recipe.cc`: parameter maps written as text and read back.

  Strings are lists of bytes.  `cook` reads the C string of its argument, that is, up to the
  first NUL; the end of the list stands for that NUL.  Where the code returns the pointer to
  the place of an error, the model answers `none`.
-/
namespace Verif.Recipe

abbrev Str := List UInt8

/-- `isspace` in the C locale -/
def isSpace (c : UInt8) : Bool := c == 0x20 || (0x09 ≤ c && c ≤ 0x0D)

/-- src/recipe.cc 13-15; `isalpha` and `isdigit` in the C locale -/
def identifier (c : UInt8) : Bool :=
  c == 0x2D || c == 0x5F || c == 0x2E || (0x41 ≤ c && c ≤ 0x5A) || (0x61 ≤ c && c ≤ 0x7A) ||
    (0x30 ≤ c && c ≤ 0x39)

/-- the order of `std::string` -/
def less : Str → Str → Bool
  | [], [] => false
  | [], _ :: _ => true
  | _ :: _, [] => false
  | a :: s, b :: t => a < b || (a == b && less s t)

/-- `std::map<std::string, std::string>`, in the order of its keys -/
abbrev Map := List (Str × Str)

/-- `map[key] = value` -/
def put (k v : Str) : Map → Map
  | [] => [(k, v)]
  | (k', v') :: m =>
    if less k k' then (k, v) :: (k', v') :: m
    else if k = k' then (k, v) :: m
    else (k', v') :: put k v m

/-- `map.find(key)` -/
def find (k : Str) : Map → Option Str
  | [] => none
  | (k', v) :: m => if k' = k then some v else find k m

/-- src/recipe.cc 17-32 `munch_string`: the value (empty if there is an error) and what is
left, from the closing quote on -/
def munchString (q : UInt8) : Str → Str → Str × Str
  | [], _ => ([], [])
  | c :: s, acc =>
    if c = q then (acc, c :: s)
    else if c = 0x5C then
      match s with
      | [] => ([], [])
      | d :: s' => if d ≠ 0x5C ∧ d ≠ q then ([], d :: s') else munchString q s' (acc ++ [d])
    else munchString q s (acc ++ [c])

/-- src/recipe.cc 34-64 `munch_map`: the value (empty if there is an error) and what is left,
from the closing bracket on.  The first argument is the quote within which the inner loop
(46-53) is; the second is `count`, an `int` in the code. -/
def munchMap : Option UInt8 → Nat → Str → Str → Str × Str
  | _, _, [], _ => ([], [])
  | some q, n, c :: s, acc =>
    if c = q then munchMap none n s (acc ++ [c])
    else if c = 0x5C then
      match s with
      | [] => ([], [])
      | d :: s' => if d ≠ 0x5C ∧ d ≠ q then ([], d :: s') else munchMap (some q) n s' (acc ++ [d])
    else munchMap (some q) n s (acc ++ [c])
  | none, n, c :: s, acc =>
    if c = 0x5D then
      match n with
      | 0 => (acc, c :: s)
      | n + 1 => munchMap none n s (acc ++ [c])
    else if c = 0x5B then munchMap none (n + 1) s (acc ++ [c])
    else if c = 0x27 ∨ c = 0x22 then munchMap (some c) n s (acc ++ [c])
    else munchMap none n s (acc ++ [c])

/-- src/recipe.cc 95-107: a value, from its opening quote or bracket to after the closing one -/
def value : Str → Option (Str × Str)
  | [] => none
  | q :: s =>
    if q = 0x27 ∨ q = 0x22 then
      match munchString q s [] with
      | (v, c :: r) => if c = q then some (v, r) else none
      | (_, []) => none
    else if q = 0x5B then
      match munchMap none 0 s [] with
      | (v, c :: r) => if c = 0x5D then some ([0x5B] ++ v ++ [0x5D], r) else none
      | (_, []) => none
    else none

def skipSpace (s : Str) : Str := s.dropWhile isSpace

/-- src/recipe.cc 122-128 -/
def finish (s : Str) (m : Map) : Option Map := if skipSpace s = [] then some m else none

/-- src/recipe.cc 81-121: the loop over the items of a map.  (After a comma the code skips
blanks and looks for the closing bracket, 117-120, as it does again at the head of the loop;
here only the latter.) -/
def items : Nat → Str → Map → Option Map
  | 0, _, _ => none
  | fuel + 1, s, m =>
    match skipSpace s with
    | [] => none
    | c :: s =>
      if c = 0x5D then finish s m
      else if identifier c then
        let key := c :: s.takeWhile identifier
        match skipSpace (s.dropWhile identifier) with
        | [] => none
        | c :: s =>
          if c = 0x3A then
            match value (skipSpace s) with
            | none => none
            | some (v, s) =>
              match skipSpace s with
              | [] => none
              | c :: s =>
                if c = 0x5D then finish s (put key v m)
                else if c = 0x2C then items fuel s (put key v m)
                else none
          else none
      else none

/-- src/recipe.cc 73-128 -/
def parse (s : Str) : Option Map :=
  match skipSpace s with
  | [] => none
  | c :: s => if c = 0x5B then items (s.length + 1) s [] else none

/-- src/recipe.cc 163-190 `cook` -/
def cook (recipe : Str) : Option Map := parse (recipe.takeWhile (· ≠ 0))

/-- two blanks for each level -/
def indent (d : Nat) : Str := List.replicate (2 * d) 0x20

/-- src/recipe.cc 143-159 `dump` of a map, given how values are written -/
def dumpWith (f : Str → Str) (m : Map) (d : Nat) : Str :=
  match m with
  | [] => [0x5B, 0x5D]
  | _ => [0x5B, 0x0A] ++ m.flatMap (fun kv => indent (d + 1) ++ kv.1 ++ [0x3A] ++ f kv.2 ++ [0x0A]) ++
      indent d ++ [0x5D]

/-- src/recipe.cc 133-141 `dump` of a value.  The first argument bounds the depth of the
recursion; the length of the value is enough (`dumpVal_more`). -/
def dumpVal : Nat → Str → Nat → Str
  | 0, _, _ => []
  | n + 1, v, d =>
    (match cook v with
      | some m => dumpWith (fun w => dumpVal n w (d + 1)) m d
      | none => [0x22] ++ v ++ [0x22]) ++ [0x2C]

/-- src/recipe.cc 192-197 `freeze` of a map -/
def freeze (m : Map) : Str := dumpWith (fun w => dumpVal (w.length + 1) w 1) m 0 ++ [0x0A]

end Verif.Recipe
