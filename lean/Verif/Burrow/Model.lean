import Verif.Parts.Model
import Verif.Clone.Model
/-
  Model of how warrens of shards and meadows are made and opened: `src/bigwig.cc` (making and opening), `src/warren.cc` and
  `meadowlark/meadowlark.cc`.  The shards themselves are not modelled here (C01, C70).
-/
namespace Verif.Burrow
open Verif.Recipe Verif.Dna Verif.HazelDna Verif.Parts

def bigwigName : Str := [0x62, 0x69, 0x67, 0x77, 0x69, 0x67]
def porterName : Str := [0x70, 0x6F, 0x72, 0x74, 0x65, 0x72]
def formatKey : Str := [0x66, 0x6F, 0x72, 0x6D, 0x61, 0x74]
def meadowlarkName : Str := [0x6D, 0x65, 0x61, 0x64, 0x6F, 0x77, 0x6C, 0x61, 0x72, 0x6B]

/-- a warren of shards that is open: its parts, whether its text is read as JSON, and its parameters with the file they are kept in -/
structure Opened where
  parts : Parts
  json : Bool
  big : Big

/-- `src/bigwig.cc:484-510` of `Bigwig::make`: the compressors; neither here nor in `Compressor::make` is a recipe checked -/
def openStores (parameters : Map) (featurizer : Featurizer) (tokenizer : Tokenizer) : Outcome (Parts × Bool) :=
  match cook (look idxKey parameters) with
  | none => .refused
  | some ip => match cook (look recipeKey ip) with
    | none => .refused
    | some ir => match makeCompressor (look postingKey ir) (look postingRecipeKey ir) with
      | none => .refused
      | some posting => match makeCompressor (look fvalueKey ir) (look fvalueRecipeKey ir) with
        | none => .refused
        | some fvalue => match cook (look txtKey parameters) with
          | none => .refused
          | some xp => match cook (look recipeKey xp) with
            | none => .refused
            | some xr => match makeCompressor (look compressorKey xr) (look compressorRecipeKey xr) with
              | none => .refused
              | some text => .ok (⟨featurizer, tokenizer, text, fvalue, posting⟩, Clone.shouldWrap (look recipeKey xp))

/-- `src/bigwig.cc:463-510` of `Bigwig::make`, with `597` and `725`: the parts of the warren, and whether its text is wrapped -/
def openParts (counted : Bool) (file : File) : Outcome (Parts × Bool) :=
  match readDna file with
  | none => .refused
  | some dna => match cook dna with
    | none => .refused
    | some parameters => match cook (look featurizerKey parameters) with
      | none => .refused
      | some fp => match make (some counted) (look nameKey fp) (look recipeKey fp) with
        | none => .refused
        | some featurizer => match cook (look tokenizerKey parameters) with
          | none => .refused
          | some tp => match makeTokenizer (look nameKey tp) (look recipeKey tp) with
            | .refused => .refused
            | .undefined => .undefined
            | .ok tokenizer => openStores parameters featurizer tokenizer

/-- `src/stemmer.cc:11-25` `Stemmer::make` and `src/stemmer.h:22`: the `name()` of the stemmer with the given name; the one called `null`
does not know its name -/
def stemmerMade (name : Str) : Option Str :=
  if name = [] ∨ name = nullName then some []
  else if name = porterName then some name
  else none

/-- `src/bigwig.cc:511-529` and `536`: the parameters; `none`: they cannot be read, or there is no such stemmer -/
def openExtra (file : File) : Option Map :=
  match readDna file with
  | none => none
  | some dna => match cook dna with
    | none => none
    | some settings => match find parametersKey settings with
      | none => some []
      | some text => match cook text with
        | none => none
        | some extra =>
          if look stemmerKey extra = [] then some extra
          else match stemmerMade (look stemmerKey extra) with
            | none => none
            | some _ => some extra

/-- `src/bigwig.cc:598-601`: the name of the stemmer, if one was asked for -/
def stemmerFound (extra : Map) : Option Str :=
  if look stemmerKey extra = [] then none else stemmerMade (look stemmerKey extra)

/-- `src/bigwig.cc:598-599` (with `src/warren.h:82-88`): a stemmer is set under its own name, which may be empty -/
def setStemmer (dev : Device) (found : Option Str) (b : Big) : Big :=
  match found with
  | none => b
  | some name => (b.set dev stemmerKey name).2

/-- `src/bigwig.cc:455-604` `Bigwig::make`: a warren of shards is opened; there are no other refusals (those of its shards are in C70);
the stemmer and the container that were found are set again -/
def openBigwig (dev dev' : Device) (counted : Bool) (file : File) : Outcome Opened :=
  match openParts counted file with
  | .refused => .refused
  | .undefined => .undefined
  | .ok (parts, json) => match openExtra file with
    | none => .refused
    | some extra =>
      .ok ⟨parts, json, (setStemmer dev (stemmerFound extra) ⟨file, extra⟩).again dev' containerKey (find containerKey extra)⟩

/-- `src/bigwig.cc:396-424` `default_dna` -/
def defaultDna : Str :=
  [0x5B, 0x20, 0x20, 0x66, 0x65, 0x61, 0x74, 0x75, 0x72, 0x69, 0x7A, 0x65, 0x72, 0x3A, 0x5B, 0x20, 0x20, 0x20, 0x20, 0x6E, 0x61, 0x6D, 0x65, 0x3A, 0x22, 0x68, 0x61, 0x73, 0x68, 0x69, 0x6E, 0x67, 0x22, 0x2C, 0x20, 0x20, 0x20, 0x20, 0x72, 0x65, 0x63, 0x69, 0x70, 0x65, 0x3A, 0x22, 0x22, 0x2C, 0x20, 0x20, 0x5D, 0x2C] ++
  [0x20, 0x20, 0x69, 0x64, 0x78, 0x3A, 0x5B, 0x20, 0x20, 0x20, 0x20, 0x6E, 0x61, 0x6D, 0x65, 0x3A, 0x22, 0x62, 0x69, 0x67, 0x77, 0x69, 0x67, 0x22, 0x2C, 0x20, 0x20, 0x20, 0x20, 0x72, 0x65, 0x63, 0x69, 0x70, 0x65, 0x3A, 0x5B, 0x20, 0x20, 0x20, 0x20, 0x20, 0x20, 0x66, 0x76, 0x61, 0x6C, 0x75, 0x65, 0x5F, 0x63, 0x6F, 0x6D, 0x70, 0x72, 0x65, 0x73, 0x73, 0x6F, 0x72, 0x3A, 0x22, 0x6E, 0x75, 0x6C, 0x6C, 0x22, 0x2C, 0x20, 0x20, 0x20, 0x20, 0x20, 0x20, 0x66, 0x76, 0x61, 0x6C, 0x75, 0x65, 0x5F, 0x63, 0x6F, 0x6D, 0x70, 0x72, 0x65, 0x73, 0x73, 0x6F, 0x72, 0x5F, 0x72, 0x65, 0x63, 0x69, 0x70, 0x65, 0x3A, 0x22, 0x22, 0x2C] ++
  [0x20, 0x20, 0x20, 0x20, 0x20, 0x20, 0x70, 0x6F, 0x73, 0x74, 0x69, 0x6E, 0x67, 0x5F, 0x63, 0x6F, 0x6D, 0x70, 0x72, 0x65, 0x73, 0x73, 0x6F, 0x72, 0x3A, 0x22, 0x6E, 0x75, 0x6C, 0x6C, 0x22, 0x2C, 0x20, 0x20, 0x20, 0x20, 0x20, 0x20, 0x70, 0x6F, 0x73, 0x74, 0x69, 0x6E, 0x67, 0x5F, 0x63, 0x6F, 0x6D, 0x70, 0x72, 0x65, 0x73, 0x73, 0x6F, 0x72, 0x5F, 0x72, 0x65, 0x63, 0x69, 0x70, 0x65, 0x3A, 0x22, 0x22, 0x2C, 0x20, 0x20, 0x20, 0x20, 0x5D, 0x2C, 0x20, 0x20, 0x5D, 0x2C, 0x20, 0x20, 0x70, 0x61, 0x72, 0x61, 0x6D, 0x65, 0x74, 0x65, 0x72, 0x73, 0x3A, 0x5B, 0x5D, 0x2C] ++
  [0x20, 0x20, 0x74, 0x6F, 0x6B, 0x65, 0x6E, 0x69, 0x7A, 0x65, 0x72, 0x3A, 0x5B, 0x20, 0x20, 0x20, 0x20, 0x6E, 0x61, 0x6D, 0x65, 0x3A, 0x22, 0x75, 0x74, 0x66, 0x38, 0x22, 0x2C, 0x20, 0x20, 0x20, 0x20, 0x72, 0x65, 0x63, 0x69, 0x70, 0x65, 0x3A, 0x22, 0x22, 0x2C, 0x20, 0x20, 0x5D, 0x2C] ++
  [0x20, 0x20, 0x74, 0x78, 0x74, 0x3A, 0x5B, 0x20, 0x20, 0x20, 0x20, 0x6E, 0x61, 0x6D, 0x65, 0x3A, 0x22, 0x62, 0x69, 0x67, 0x77, 0x69, 0x67, 0x22, 0x2C, 0x20, 0x20, 0x20, 0x20, 0x72, 0x65, 0x63, 0x69, 0x70, 0x65, 0x3A, 0x5B, 0x20, 0x20, 0x20, 0x20, 0x20, 0x20, 0x63, 0x6F, 0x6D, 0x70, 0x72, 0x65, 0x73, 0x73, 0x6F, 0x72, 0x3A, 0x22, 0x6E, 0x75, 0x6C, 0x6C, 0x22, 0x2C, 0x20, 0x20, 0x20, 0x20, 0x20, 0x20, 0x63, 0x6F, 0x6D, 0x70, 0x72, 0x65, 0x73, 0x73, 0x6F, 0x72, 0x5F, 0x72, 0x65, 0x63, 0x69, 0x70, 0x65, 0x3A, 0x22, 0x22, 0x2C, 0x20, 0x20, 0x20, 0x20, 0x20, 0x20, 0x6A, 0x73, 0x6F, 0x6E, 0x3A, 0x22, 0x6E, 0x6F, 0x22, 0x2C, 0x20, 0x20, 0x20, 0x20, 0x5D, 0x2C, 0x20, 0x20, 0x5D, 0x2C] ++
  [0x20, 0x20, 0x77, 0x61, 0x72, 0x72, 0x65, 0x6E, 0x3A, 0x22, 0x62, 0x69, 0x67, 0x77, 0x69, 0x67, 0x22, 0x2C, 0x5D]

/-- `src/bigwig.cc:428-453` `Bigwig::make` with options -/
def makeBigwig (counted : Bool) (recipe : Str) (file : File) : Outcome Opened :=
  match readDna file with
  | some _ => .refused
  | none => match applyOptions defaultDna (options recipe []) with
    | .refused => .refused
    | .undefined => .undefined
    | .ok dna => match writeDna .works dna file with
      | (false, _) => .refused
      | (true, file) => openBigwig .works .works counted file

/-- `src/bigwig.cc:1421-1474` `Bigwig::recipe_` -/
def description (featurizer : Featurizer) (tokenizer : Tokenizer) (text fvalue posting : Str × Str) (extra : Map) : Map :=
  let txt := put compressorRecipeKey text.2 (put compressorKey text.1 [])
  let idx := put postingRecipeKey posting.2 (put postingKey posting.1 (put fvalueRecipeKey fvalue.2 (put fvalueKey fvalue.1 [])))
  let package (name recipe : Str) := freeze (put recipeKey recipe (put nameKey name []))
  put parametersKey (freeze extra) (put idxKey (package bigwigName (freeze idx)) (put txtKey (package bigwigName (freeze txt))
    (put featurizerKey (package featurizer.name featurizer.recipe) (put tokenizerKey (package tokenizer.name tokenizer.recipe)
      (put warrenKey bigwigName [])))))

/-- `src/bigwig.cc:636-652`: a compressor that is not given is the one that does nothing -/
def given (c : Option (Str × Str)) : Str × Str := c.getD (nullName, [])

/-- `src/bigwig.cc:606-660` `Bigwig::make` with parts: a compressor is what `Compressor::make` made of a name and a recipe, and knows
both (`src/compressor.cc:35-36`); `extra` are the parameters of the `Fluffle`, or none of them (`src/fluffle.h:17-26`) -/
def makeFrom (featurizer : Option Featurizer) (tokenizer : Option Tokenizer) (text fvalue posting : Option (Str × Str)) (extra : Map)
    (file : File) : Outcome Big :=
  match readDna file with
  | some _ => .refused
  | none => match featurizer, tokenizer with
    | some f, some t =>
      match writeDna .works (freeze (description f t (given text) (given fvalue) (given posting) extra)) file with
      | (false, _) => .refused
      | (true, file) => .ok ⟨file, extra⟩
    | _, _ => .refused

/-- a warren that `Warren::make` opened -/
inductive Warren
  | simple (parts : Parts) (file : File)
  | bigwig (opened : Opened)

/-- `Warren::get_parameter`: `src/simple_warren.cc:148-151` and `src/bigwig.cc:759-775` -/
def Warren.get (key : Str) : Warren → Option Str
  | .simple _ file => getParameter key file
  | .bigwig o => some (o.big.get key)

/-- `src/warren.cc:41-60`: the container and the stemmer are looked up once more -/
def settle (w : Warren) : Outcome Warren :=
  match w.get containerKey with
  | none => .refused
  | some _ => match w.get stemmerKey with
    | none => .refused
    | some name => if name = [] then .ok w else match stemmerMade name with
      | none => .refused
      | some _ => .ok w

/-- `src/warren.cc:18-62` `Warren::make` with a name; of a `SimpleWarren` without the parts for adding to it (`Verif.Parts.openSimple`) -/
def openNamed (dev dev' : Device) (counted : Bool) (name : Str) (file : File) : Outcome Warren :=
  if name = [] ∨ name = simpleName then
    match openSimple counted file with
    | .refused => .refused
    | .undefined => .undefined
    | .ok parts => settle (.simple parts file)
  else if name = bigwigName then
    match openBigwig dev dev' counted file with
    | .refused => .refused
    | .undefined => .undefined
    | .ok o => settle (.bigwig o)
  else .refused

/-- `src/warren.cc:116-138` `Warren::make`; the burrow is a directory (a burrow in a single file is in C77) -/
def openWarren (dev dev' : Device) (counted : Bool) (file : File) : Outcome Warren :=
  match readDna file with
  | none => .refused
  | some dna => match cook dna with
    | none => .refused
    | some parameters => openNamed dev dev' counted ((find warrenKey parameters).getD simpleName) file

/-- `meadowlark/meadowlark.cc:25-31` `is_meadow` -/
def isMeadow (w : Warren) : Bool := decide (w.get formatKey = some meadowlarkName)

/-- `meadowlark/meadowlark.cc:37-39` -/
def meadowOptions : Str :=
  [0x74, 0x6F, 0x6B, 0x65, 0x6E, 0x69, 0x7A, 0x65, 0x72, 0x3A, 0x6E, 0x61, 0x6D, 0x65, 0x3A, 0x75, 0x74, 0x66, 0x38, 0x20, 0x66, 0x65, 0x61, 0x74, 0x75, 0x72, 0x69, 0x7A, 0x65, 0x72, 0x40, 0x6A, 0x73, 0x6F, 0x6E, 0x20, 0x69, 0x64, 0x78, 0x3A, 0x66, 0x76, 0x61, 0x6C, 0x75, 0x65, 0x5F, 0x63, 0x6F, 0x6D, 0x70, 0x72, 0x65, 0x73, 0x73, 0x6F, 0x72, 0x3A, 0x7A, 0x6C, 0x69, 0x62, 0x20] ++ [0x69, 0x64, 0x78, 0x3A, 0x70, 0x6F, 0x73, 0x74, 0x69, 0x6E, 0x67, 0x5F, 0x63, 0x6F, 0x6D, 0x70, 0x72, 0x65, 0x73, 0x73, 0x6F, 0x72, 0x3A, 0x70, 0x6F, 0x73, 0x74, 0x20, 0x74, 0x78, 0x74, 0x3A, 0x63, 0x6F, 0x6D, 0x70, 0x72, 0x65, 0x73, 0x73, 0x6F, 0x72, 0x3A, 0x7A, 0x6C, 0x69, 0x62, 0x20]

/-- `meadowlark/meadowlark.cc:35-46` `create_meadow` -/
def createMeadow (counted : Bool) (file : File) : Outcome Opened :=
  match makeBigwig counted meadowOptions file with
  | .refused => .refused
  | .undefined => .undefined
  | .ok o => match o.big.set .works formatKey meadowlarkName with
    | (false, _) => .refused
    | (true, b) => .ok { o with big := b }

/-- `meadowlark/meadowlark.cc:52-63` `open_meadow`: a burrow that cannot be opened is not looked for before it is used -/
def openMeadow (dev dev' : Device) (counted : Bool) (file : File) : Outcome Warren :=
  match openWarren dev dev' counted file with
  | .refused => .undefined
  | .undefined => .undefined
  | .ok w => if isMeadow w then .ok w else .refused

end Verif.Burrow
