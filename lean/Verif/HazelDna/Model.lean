import Verif.Recipe.Options
import Verif.Dna.Model
import Verif.Hazel.Model
import Verif.Names.Model
/-
  Model of the descriptions of static shards: how they are read when a shard is opened (`src/warren.cc` 72-113, `Hazel::make`), and
  what happens to them when shards are merged (`src/hazel.cc` 1651-1812, 1911-2024).
-/
namespace Verif.HazelDna
open Verif.Recipe Verif.Hopper Verif.Dna

/-- `"hazel"`, `"sequence_start"`, `"sequence_end"`, `"warren"`, `"featurizer"`, `"tokenizer"`, `"idx"`, `"txt"` -/
def hazelKey : Str := [0x68, 0x61, 0x7A, 0x65, 0x6C]
def startKey : Str := [0x73, 0x65, 0x71, 0x75, 0x65, 0x6E, 0x63, 0x65, 0x5F, 0x73, 0x74, 0x61, 0x72, 0x74]
def endKey : Str := [0x73, 0x65, 0x71, 0x75, 0x65, 0x6E, 0x63, 0x65, 0x5F, 0x65, 0x6E, 0x64]
def warrenKey : Str := [0x77, 0x61, 0x72, 0x72, 0x65, 0x6E]
def featurizerKey : Str := [0x66, 0x65, 0x61, 0x74, 0x75, 0x72, 0x69, 0x7A, 0x65, 0x72]
def tokenizerKey : Str := [0x74, 0x6F, 0x6B, 0x65, 0x6E, 0x69, 0x7A, 0x65, 0x72]
def idxKey : Str := [0x69, 0x64, 0x78]
def txtKey : Str := [0x74, 0x78, 0x74]

/-- `map.erase(key)` -/
def erase (k : Str) (m : Map) : Map := m.filter fun kv => kv.1 ≠ k

/-- `normalize_dna_for_activated_hazel_merge` hazel.cc 1651-1667 -/
def normalize (input : Map) : Option Str :=
  let parameters := erase parametersKey input
  match find hazelKey parameters with
  | none => some (freeze parameters)
  | some text =>
    match cook text with
    | none => none
    | some metadata => some (freeze (put hazelKey (freeze (erase endKey (erase startKey metadata))) parameters))

def isDigit (c : UInt8) : Bool := 0x30 ≤ c && c ≤ 0x39

/-- the number the digits stand for -/
def number (s : Str) : Nat := s.foldl (fun w c => 10 * w + (c.toNat - 48)) 0

/-- `std::stoll`: blanks, a sign, digits, and then anything; `none` is an exception -/
def stoll (s : Str) : Option Int :=
  let s := s.dropWhile isSpace
  let neg := s.head? == some 0x2D
  let s := if s.head? = some 0x2D ∨ s.head? = some 0x2B then s.drop 1 else s
  let digits := s.takeWhile isDigit
  if digits = [] then none
  else
    let v : Int := if neg then -(number digits : Int) else number digits
    if -9223372036854775808 ≤ v ∧ v ≤ 9223372036854775807 then some v else none

/-- `std::to_string` of a number that is not negative -/
def toString' (n : Nat) : Str := (Names.decimal n).map fun c => UInt8.ofNat c.toNat

/-- `hazel_sequence_range` hazel.cc 1669-1700; outer `none` is an error, inner `none`: there is no range -/
def sequenceRange (parameters : Map) : Option (Option (Int × Int)) :=
  match find hazelKey parameters with
  | none => some none
  | some text =>
    match cook text with
    | none => none
    | some metadata =>
      match find startKey metadata, find endKey metadata with
      | none, none => some none
      | some s, some e =>
        match stoll s, stoll e with
        | some s, some e => if s < 0 ∨ e < s then none else some (some (s, e))
        | _, _ => none
      | _, _ => none

/-- `merged_activated_hazel_dna` hazel.cc 1702-1734, its first part: the settings of the first shard with the new range, which is there
if `sequence_present`.  (The range is not negative: `hazel_sequence_range`.) -/
def ranged (first : Map) (range : Option (Int × Int)) : Option Map :=
  match range with
  | none => some first
  | some (s, e) =>
    match find hazelKey first with
    | none => none
    | some text =>
      match cook text with
      | none => none
      | some metadata =>
        some (put hazelKey (freeze (put endKey (toString' e.toNat) (put startKey (toString' s.toNat) metadata))) first)

/-- `merged_activated_hazel_dna` hazel.cc 1702-1734; `given` are the parameters, if not `nullptr` -/
def mergedDna (first last : Map) (range : Option (Int × Int)) (given : Option Map) : Option Str :=
  match ranged first range with
  | none => none
  | some output => match given with
    | some parameters => some (freeze (put parametersKey (freeze parameters) output))
    | none => match find parametersKey last with
      | none => some (freeze (erase parametersKey output))
      | some inherited => some (freeze (put parametersKey inherited output))

/-- the loop of `Hazel::merge` hazel.cc 1949-2016, after the first shard: the end of the last range, or an error -/
def checkLoop (normalized : Str) (present : Bool) : Int → List Map → Option Int
  | previous, [] => some previous
  | previous, A :: l =>
    match normalize A with
    | none => none
    | some current =>
      if current ≠ normalized then none
      else match sequenceRange A with
        | none => none
        | some none => if present then none else checkLoop normalized present previous l
        | some (some (s, e)) =>
          if present = false then none
          else if previous = maxfinity ∨ s ≠ previous + 1 then none
          else checkLoop normalized present e l

/-- `Hazel::merge` hazel.cc 1911-2024, as far as descriptions go: the new one, or an error -/
def merge (hazels : List Map) (given : Option Map) : Option Str :=
  match hazels with
  | [] => none
  | [_] => none
  | first :: l =>
    match normalize first with
    | none => none
    | some normalized =>
      match sequenceRange first with
      | none => none
      | some none =>
        match checkLoop normalized false 0 l with
        | none => none
        | some _ => mergedDna first ((first :: l).getLast (by simp)) none given
      | some (some (s, e)) =>
        match checkLoop normalized true e l with
        | none => none
        | some e' => mergedDna first ((first :: l).getLast (by simp)) (some (s, e')) given

/-- the loop of `Hazel::merge` by names, hazel.cc 1768-1807, after the first: the end of the last range -/
def nameLoop : Nat → List (List Char × Map) → Option Nat
  | previous, [] => some previous
  | previous, (name, A) :: l =>
    match Names.parseHazelName name with
    | none => none
    | some (s, e) =>
      if (previous : Int) = maxfinity ∨ s ≠ previous + 1 then none
      else match sequenceRange A with
        | none => none
        | some none => nameLoop e l
        | some (some (s', e')) => if s' ≠ s ∨ e' ≠ e then none else nameLoop e l

/-- `Hazel::merge` by names, hazel.cc 1750-1812, for shards that were opened: the name and the description of the new shard.
(Its argument `parameters` is not used: 1753.) -/
def mergeNames (hazels : List (List Char × Map)) (_parameters : Str) : Option (List Char × Str) :=
  match hazels with
  | [] => none
  | [_] => none
  | (name, A) :: l =>
    match Names.parseHazelName name with
    | none => none
    | some (s, e) =>
      match sequenceRange A with
      | none => none
      | some r =>
        if r.any fun x => x.1 ≠ (s : Int) ∨ x.2 ≠ (e : Int) then none
        else match nameLoop e l with
          | none => none
          | some e' => match merge (A :: l.map (·.2)) none with
            | none => none
            | some dna => some (Names.shardName ['h', 'a', 'z', 'e', 'l'] s e', dna)

/-! ### Opening -/

/-- warren.cc 86-95: the lines up to an empty one; the first argument is what there is of the current line -/
def dnaLines : Str → Str → Str → Option Str
  | _, _, [] => none
  | line, dna, c :: s =>
    if c = 10 then (if line = [] then some dna else dnaLines [] (dna ++ (line ++ [10])) s)
    else dnaLines (line ++ [c]) dna s

/-- warren.cc 72-99 `single_file_burrow`: the description in a file -/
def fileDna (s : List UInt8) : Option Str :=
  if s.take 12 ≠ Hazel.fileMagic then none else dnaLines [] [] (s.drop 12)

/-- an open shard, as far as this model goes -/
structure Opened where
  parameters : Map
  range : Option (Int × Int)
  idx : List UInt8
  txt : List UInt8
deriving DecidableEq

/-- `Hazel::make` hazel.cc 2094-2130: what is asked of the settings.  `makes` says which featurizers and tokenizers (by their key) can be
made of a name and a recipe. -/
def settingsFine (makes : Str → Str → Str → Bool) (P : Map) : Bool :=
  decide (find warrenKey P = some hazelKey) &&
  (match nameAndRecipe P featurizerKey, nameAndRecipe P tokenizerKey, nameAndRecipe P idxKey, nameAndRecipe P txtKey with
    | some f, some t, some i, some x =>
      decide (i.1 = hazelKey) && decide (x.1 = hazelKey) && makes featurizerKey f.1 f.2 && makes tokenizerKey t.1 t.2
    | _, _, _, _ => false)

/-- `Hazel::make` hazel.cc 2186-2200: what is asked of the parameters.  `stems` says which stemmers there are. -/
def parametersFine (stems : Str → Bool) (P : Map) : Bool :=
  match find parametersKey P with
  | none => true
  | some text => match cook text with
    | none => false
    | some extra => match find stemmerKey extra with
      | none => true
      | some stemmer => decide (stemmer = []) || stems stemmer

def complete (makes : Str → Str → Str → Bool) (stems : Str → Bool) (P : Map) : Bool := settingsFine makes P && parametersFine stems P

/-- warren.cc 72-113 and `Hazel::make` hazel.cc 2090-2201; that the two parts can be opened is Verif/Hazel and Verif/HazelText -/
def openHazel (makes : Str → Str → Str → Bool) (stems : Str → Bool) (bytes : List UInt8) : Option Opened :=
  match fileDna bytes with
  | none => none
  | some dna => match cook dna with
    | none => none
    | some P =>
      if complete makes stems P then
        match sequenceRange P, Hazel.openFile bytes with
        | some range, some (idx, txt) => some ⟨P, range, idx, txt⟩
        | _, _ => none
      else none

/-- `Hazel::get_parameter_` hazel.cc 2247-2263 -/
def getParameter (P : Map) (key : Str) : Option Str :=
  match find parametersKey P with
  | none => some []
  | some text => match cook text with
    | none => none
    | some extra => match find key extra with
      | none => some []
      | some v => some v

end Verif.HazelDna
