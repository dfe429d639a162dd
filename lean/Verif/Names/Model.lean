/-
Model of the names of shard files: src/owsla.cc 16-66, src/hazel.cc 1344-1369, 1424-1551.
A string is the list of its bytes, written as characters.  Sequence numbers are natural
numbers: the code never names a shard with a negative one.
-/
namespace Verif.Names

/-- The digits of a number, as `operator<<` writes them. -/
def decimal (n : Nat) : List Char :=
  if n < 10 then [Char.ofNat (48 + n)] else decimal (n / 10) ++ [Char.ofNat (48 + n % 10)]
termination_by n

/-- `seq2str` owsla.cc 16-22: at least 20 characters, filled with zeros on the left -/
def seq2str (n : Nat) : List Char := List.replicate (20 - (decimal n).length) '0' ++ decimal n

/-- `owsla_shard_name` owsla.cc 28-31; with `hazel`, `hazel_default_name` 24-26; the recipe
of a `Fiver`, with its name in front, is the same (fiver.cc 636-638, 740-746) -/
def shardName (pre : List Char) (lo hi : Nat) : List Char :=
  pre ++ ['.'] ++ seq2str lo ++ ['.'] ++ seq2str hi

def isDigit (c : Char) : Bool := '0'.toNat ≤ c.toNat && c.toNat ≤ '9'.toNat

/-- `all_digits` owsla.cc 35-42 -/
def allDigits (s : List Char) : Bool := !s.isEmpty && s.all isDigit

/-- `std::stoll` of a string of digits; `none` where it throws `std::out_of_range` -/
def stoll (s : List Char) : Option Nat :=
  let v := s.foldl (fun w c => 10 * w + (c.toNat - 48)) 0
  if v < 2 ^ 63 then some v else none

/-- What `owsla_parse_shard_name` and `parse_hazel_name` have in common: owsla.cc 48-59,
hazel.cc 1346-1363. -/
def parseRange (name pre : List Char) : Option (Nat × Nat) :=
  let full := pre ++ ['.']
  if name.take full.length ≠ full then none
  else
    let rest := name.drop full.length
    match rest.dropWhile (· ≠ '.') with
    | [] => none
    | _ :: e =>
      let s := rest.takeWhile (· ≠ '.')
      if allDigits s && allDigits e then
        match stoll s, stoll e with
        | some a, some b => some (a, b)
        | _, _ => none
      else none

/-- `owsla_parse_shard_name` owsla.cc 46-70 -/
def parseName (name pre : List Char) : Option (Nat × Nat) :=
  match parseRange name pre with
  | some (a, b) => if b < a then none else some (a, b)
  | none => none

/-- `parse_hazel_name` hazel.cc 1344-1369, which does not compare the two numbers -/
def parseHazelName (name : List Char) : Option (Nat × Nat) := parseRange name ['h', 'a', 'z', 'e', 'l']

/-- `hazel_sidecar_name` hazel.cc 1428-1437, without the directory -/
def sidecarName (pre target : List Char) : List Char := pre ++ ['.'] ++ target

/-- `parse_hazel_sidecar` hazel.cc 1543-1551 -/
def parseSidecar (name pre : List Char) : Option (Nat × Nat) :=
  let full := pre ++ ['.']
  if name.take full.length ≠ full then none
  else parseName (name.drop full.length) ['h', 'a', 'z', 'e', 'l']

/-- the loop of `parse_old_hazel_sidecar` hazel.cc 1532-1541 over the suffixes -/
def parseOldLoop (name : List Char) : List (List Char) → Option (Nat × Nat)
  | [] => none
  | suffix :: l =>
    if suffix.length ≤ name.length ∧ name.drop (name.length - suffix.length) = suffix then
      parseName (name.take (name.length - suffix.length)) ['h', 'a', 'z', 'e', 'l']
    else parseOldLoop name l

def parseOldSidecar (name : List Char) : Option (Nat × Nat) :=
  parseOldLoop name [['.', 't', 'm', 'p'], ['.', 'p', 's', 't'], ['.', 'd', 'c', 't']]

/-- What `Hazel::sanitize` takes a listed name for: hazel.cc 1826-1840 -/
inductive Kind | shard (lo hi : Nat) | oldSidecar | error
  deriving DecidableEq

def classify (name : List Char) : Kind :=
  match parseName name ['h', 'a', 'z', 'e', 'l'] with
  | some (a, b) => .shard a b
  | none => match parseOldSidecar name with
    | some _ => .oldSidecar
    | none => .error

end Verif.Names
