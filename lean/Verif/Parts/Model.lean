import Verif.Recipe.Options
import Verif.Dna.Model
import Verif.HazelDna.Model
import Verif.Feature.Model
/-
  Model of how the parts of a warren are made from their names and recipes, how they describe themselves, and how a burrow is built and
  opened with them: `src/featurizer.cc`, `src/tagging_featurizer.cc`, `src/vocab_featurizer.cc`, `src/wrapping_featurizer.cc`,
  `src/tokenizer.cc`, `src/compressor.cc`, and the recipes in `src/simple_txt.cc`, `src/simple_idx.cc`, `src/simple_builder.cc` and
  `src/simple_warren.cc`.
-/
namespace Verif.Parts
open Verif.Recipe Verif.Dna Verif.HazelDna

/-! ### featurizers -/

/-- the names of featurizers -/
def hashingName : Str := [0x68, 0x61, 0x73, 0x68, 0x69, 0x6E, 0x67]
def taggingName : Str := [0x74, 0x61, 0x67, 0x67, 0x69, 0x6E, 0x67]
def vocabName : Str := [0x76, 0x6F, 0x63, 0x61, 0x62]
def jsonName : Str := [0x6A, 0x73, 0x6F, 0x6E]
def nullName : Str := [0x6E, 0x75, 0x6C, 0x6C]
/-- `"tag"` -/
def tagKey : Str := [0x74, 0x61, 0x67]

/-- a featurizer; of a `VocabFeaturizer` only what it wraps -/
inductive Featurizer
  | hashing
  | null
  | tagging (base : Featurizer) (tag : Str)
  | json (wrapped : Featurizer)
  | vocab (wrapped : Featurizer)
deriving DecidableEq

/-- `name()`: `src/hashing_featurizer.h:31`, `src/null_featurizer.h:30`, `src/tagging_featurizer.h:31`, `src/json_featurizer.h:25`,
`src/vocab_featurizer.cc:95` -/
def Featurizer.name : Featurizer → Str
  | .hashing => hashingName
  | .null => nullName
  | .tagging _ _ => taggingName
  | .json _ => jsonName
  | .vocab w => w.name

/-- `recipe()`: `src/hashing_featurizer.cc:113`, `src/null_featurizer.h:31`, `src/tagging_featurizer.cc:87-94`,
`src/wrapping_featurizer.cc:11-21`, `src/vocab_featurizer.cc:97-99` -/
def Featurizer.recipe : Featurizer → Str
  | .hashing => []
  | .null => []
  | .tagging b tag => freeze (put recipeKey b.recipe (put nameKey b.name (put tagKey tag [])))
  | .json w => if w.name = [] then [] else freeze (put recipeKey w.recipe (put nameKey w.name []))
  | .vocab w => w.recipe

/-- `featurize()`: `src/null_featurizer.h:32`, `src/tagging_featurizer.h:33-36`, `src/json_featurizer.cc:17-22`,
`src/vocab_featurizer.cc:101-108` without the counting -/
def Featurizer.featurize : Featurizer → Str → Int
  | .hashing, key => Feature.featurize key
  | .null, _ => 0
  | .tagging b tag, key => b.featurize (tag ++ [0x3A] ++ key)
  | .json w, key => if Feature.jsonInternal key then 0 else w.featurize key
  | .vocab w, key => w.featurize key

/-- `src/tagging_featurizer.cc:14-41` and `59-83`: the name and recipe of the base, and the tag -/
def taggingParts (recipe : Str) : Option (Str × Str × Str) :=
  match cook recipe with
  | none => none
  | some m => match find nameKey m with
    | none => none
    | some name => match find tagKey m with
      | none => none
      | some tag => some (name, (find recipeKey m).getD [], tag)

/-- `src/vocab_featurizer.cc:18-38` of `interpret_recipe`, without the check at its end -/
def vocabParts (recipe : Str) : Option (Str × Str) :=
  if recipe = [] then some (hashingName, [])
  else match cook recipe with
    | some m => match find nameKey m, find recipeKey m with
      | some name, some r => some (name, r)
      | _, _ => none
    | none => some (recipe, [])

/-- `src/featurizer.cc:49-69` `Featurizer::check`, with `src/hashing_featurizer.cc:166-173`, `src/tagging_featurizer.cc:58-85`,
`src/vocab_featurizer.cc:74-78` and `20-24`, and `src/null_featurizer.h:18-20`; the first argument bounds the nesting -/
def checkWith : Nat → Str → Str → Bool
  | 0, _, _ => false
  | n + 1, name, recipe =>
    if name = [] ∨ name = hashingName then decide (recipe = [])
    else if name = taggingName then
      match taggingParts recipe with
      | none => false
      | some (bn, br, _) => checkWith n bn br
    else if name = vocabName then
      match vocabParts recipe with
      | none => false
      | some (wn, wr) => decide (recipe = []) || checkWith n wn wr
    else if name = jsonName then
      match unwrap recipe with
      | none => false
      | some (wn, wr) => checkWith n wn wr
    else decide (name = nullName)

/-- `Featurizer::check`.  What is nested in a recipe is shorter than the recipe. -/
def check (name recipe : Str) : Bool := checkWith (recipe.length + 2) name recipe

/-- `src/featurizer.cc:17-47` `Featurizer::make`, with `src/hashing_featurizer.cc:156-164`, `src/tagging_featurizer.cc:11-56`,
`src/vocab_featurizer.cc:44-72` and `src/null_featurizer.h:14-17`; the first argument bounds the nesting.  `dir`: there is no working
directory, or there is one and it has, or has not, got a vocabulary in it. -/
def makeWith (dir : Option Bool) : Nat → Str → Str → Option Featurizer
  | 0, _, _ => none
  | n + 1, name, recipe =>
    if name = [] ∨ name = hashingName then if recipe = [] then some .hashing else none
    else if name = taggingName then
      match taggingParts recipe with
      | none => none
      | some (bn, br, tag) => (makeWith dir n bn br).map (.tagging · tag)
    else if name = vocabName then
      match dir with
      | none => none
      | some counted =>
        match vocabParts recipe with
        | none => none
        | some (wn, wr) =>
          if recipe = [] ∨ check wn wr = true then (makeWith dir n wn wr).map fun w => if counted then w else .vocab w
          else none
    else if name = jsonName then
      match unwrap recipe with
      | none => none
      | some (wn, wr) => (makeWith dir n wn wr).map .json
    else if name = nullName then some .null
    else none

/-- `Featurizer::make` -/
def make (dir : Option Bool) (name recipe : Str) : Option Featurizer := makeWith dir (recipe.length + 2) name recipe

/-! ### tokenizers -/

def asciiName : Str := [0x61, 0x73, 0x63, 0x69, 0x69]
def utf8Name : Str := [0x75, 0x74, 0x66, 0x38]
def xmlRecipe : Str := [0x78, 0x6D, 0x6C]
def noxmlRecipe : Str := [0x6E, 0x6F, 0x78, 0x6D, 0x6C]

inductive Tokenizer
  | ascii (xml : Bool)
  | utf8
deriving DecidableEq

/-- `name()` as `Tokenizer::make` sets it (`src/tokenizer.cc:19`, `22`) -/
def Tokenizer.name : Tokenizer → Str
  | .ascii _ => asciiName
  | .utf8 => utf8Name

/-- `recipe()`: `src/ascii_tokenizer.cc:205-210`, `src/utf8_tokenizer.cc:380` -/
def Tokenizer.recipe : Tokenizer → Str
  | .ascii true => xmlRecipe
  | .ascii false => noxmlRecipe
  | .utf8 => []

/-- `src/tokenizer.cc:12-27` `Tokenizer::make`, with `src/ascii_tokenizer.cc:212-222` and `src/utf8_tokenizer.cc:359-369`; with a recipe
that it does not know it dereferences a null pointer (`19`, `22`) -/
def makeTokenizer (name recipe : Str) : Outcome Tokenizer :=
  if name = [] ∨ name = asciiName then
    if recipe = [] ∨ recipe = noxmlRecipe then .ok (.ascii false)
    else if recipe = xmlRecipe then .ok (.ascii true)
    else .undefined
  else if name = utf8Name then
    if recipe = [] then .ok .utf8 else .undefined
  else .refused

/-- `src/tokenizer.cc:29-40` `Tokenizer::check`, with `src/ascii_tokenizer.cc:224-231` and `src/utf8_tokenizer.cc:371-378` -/
def checkTokenizer (name recipe : Str) : Bool :=
  if name = [] ∨ name = asciiName then decide (recipe = [] ∨ recipe = xmlRecipe ∨ recipe = noxmlRecipe)
  else if name = utf8Name then decide (recipe = [])
  else false

/-! ### compressors -/

def zlibName : Str := [0x7A, 0x6C, 0x69, 0x62]
def postName : Str := [0x70, 0x6F, 0x73, 0x74]
def tfdfName : Str := [0x74, 0x66, 0x64, 0x66]
def badName : Str := [0x62, 0x61, 0x64]
def componentRecipe : Str := [0x63, 0x6F, 0x6D, 0x70, 0x6F, 0x6E, 0x65, 0x6E, 0x74]

/-- what a compressor does -/
inductive Compressor
  | zlib
  | null
  | post
  | tfdf (component : Bool)
  | bad
deriving DecidableEq

/-- `src/compressor.cc:15-38` `Compressor::make`, with `src/zlib_compressor.h:16-22`, `src/null_compressor.h:16-22`,
`src/post_compressor.h:16-22`, `src/tfdf_compressor.h:16-25` and `src/bad_compressor.h:19-25`: most do not look at the recipe -/
def makeCompressor (name recipe : Str) : Option Compressor :=
  if name = [] ∨ name = zlibName then some .zlib
  else if name = nullName then some .null
  else if name = postName then some .post
  else if name = tfdfName then
    if recipe = componentRecipe then some (.tfdf true) else if recipe = [] then some (.tfdf false) else none
  else if name = badName then some .bad
  else none

/-- `src/compressor.cc:40-56` `Compressor::check`, with `src/zlib_compressor.h:23-30`, `src/null_compressor.h:23-30`,
`src/post_compressor.h:23-30`, `src/tfdf_compressor.h:29-36` and `src/bad_compressor.h:26-28` -/
def checkCompressor (name recipe : Str) : Bool :=
  if name = [] ∨ name = zlibName ∨ name = nullName ∨ name = postName then decide (recipe = [])
  else if name = tfdfName then decide (recipe = [] ∨ recipe = componentRecipe)
  else decide (name = badName)

/-- `Compressor::check` and then `Compressor::make`, as text and index call them (`src/simple_txt.cc:97-112`,
`src/simple_idx.cc:99-122`) -/
def checkedCompressor (name recipe : Str) : Option Compressor :=
  if checkCompressor name recipe then makeCompressor name recipe else none

/-! ### text and index -/

def simpleName : Str := [0x73, 0x69, 0x6D, 0x70, 0x6C, 0x65]
def compressorKey : Str := [0x63, 0x6F, 0x6D, 0x70, 0x72, 0x65, 0x73, 0x73, 0x6F, 0x72]
def compressorRecipeKey : Str := [0x63, 0x6F, 0x6D, 0x70, 0x72, 0x65, 0x73, 0x73, 0x6F, 0x72, 0x5F, 0x72, 0x65, 0x63, 0x69, 0x70, 0x65]
def postingKey : Str := [0x70, 0x6F, 0x73, 0x74, 0x69, 0x6E, 0x67, 0x5F, 0x63, 0x6F, 0x6D, 0x70, 0x72, 0x65, 0x73, 0x73, 0x6F, 0x72]
def postingRecipeKey : Str := [0x70, 0x6F, 0x73, 0x74, 0x69, 0x6E, 0x67, 0x5F, 0x63, 0x6F, 0x6D, 0x70, 0x72, 0x65, 0x73, 0x73, 0x6F, 0x72, 0x5F, 0x72, 0x65, 0x63, 0x69, 0x70, 0x65]
def fvalueKey : Str := [0x66, 0x76, 0x61, 0x6C, 0x75, 0x65, 0x5F, 0x63, 0x6F, 0x6D, 0x70, 0x72, 0x65, 0x73, 0x73, 0x6F, 0x72]
def fvalueRecipeKey : Str := [0x66, 0x76, 0x61, 0x6C, 0x75, 0x65, 0x5F, 0x63, 0x6F, 0x6D, 0x70, 0x72, 0x65, 0x73, 0x73, 0x6F, 0x72, 0x5F, 0x72, 0x65, 0x63, 0x69, 0x70, 0x65]

/-- `src/simple_txt.cc:62-87` `interpret_simple_txt_recipe`: the name and the recipe of the compressor; the defaults are
`src/simple.h:26-27` -/
def interpretTxt (recipe : Str) : Option (Str × Str) :=
  if recipe = [] then some (zlibName, [])
  else match cook recipe with
    | none => none
    | some m => some ((find compressorKey m).getD zlibName, (find compressorRecipeKey m).getD [])

/-- `src/simple_idx.cc:25-88` `interpret_simple_idx_recipe` without the size of files: names and recipes of the compressors for values and
for postings; the defaults are `src/simple.h:30-35` -/
def interpretIdx (recipe : Str) : Option ((Str × Str) × (Str × Str)) :=
  if recipe = [] then some ((zlibName, []), (postName, []))
  else match cook recipe with
    | none => none
    | some m => match find fvalueKey m, find fvalueRecipeKey m, find postingKey m, find postingRecipeKey m with
      | some fn, some fr, some pn, some pr => some ((fn, fr), (pn, pr))
      | _, _, _, _ => none

/-- the compressor of a `SimpleTxt`: `src/simple_txt.cc:89-112` of `SimpleTxt::make` and `src/txt.cc:12-27` of `Txt::make`; the files can
be opened; whether the text is read as JSON is not modelled here -/
def makeTxt (name recipe : Str) : Option Compressor :=
  if name = [] ∨ name = simpleName then
    match interpretTxt recipe with
    | none => none
    | some (n, r) => checkedCompressor n r
  else none

/-- `src/simple_txt.cc:128-136` `SimpleTxt::check` -/
def checkTxt (recipe : Str) : Bool :=
  if recipe = [] then true
  else match interpretTxt recipe with
    | none => false
    | some (n, r) => checkCompressor n r

/-- the compressors of a `SimpleIdx`, for values and for postings: `src/simple_idx.cc:90-122` of `SimpleIdx::make` and `src/idx.cc:14-33`
of `Idx::make`; the files can be opened.  A `NullIdx` is not modelled. -/
def makeIdx (name recipe : Str) : Option (Compressor × Compressor) :=
  if name = [] ∨ name = simpleName then
    match interpretIdx recipe with
    | none => none
    | some (f, p) => match checkedCompressor f.1 f.2, checkedCompressor p.1 p.2 with
      | some a, some b => some (a, b)
      | _, _ => none
  else none

/-- `src/simple_idx.cc:182-196` `SimpleIdx::check` -/
def checkIdx (recipe : Str) : Bool :=
  if recipe = [] then true
  else match interpretIdx recipe with
    | none => false
    | some (f, p) => checkCompressor f.1 f.2 && checkCompressor p.1 p.2

/-! ### opening -/

/-- the parts of a warren that decide what is found and how it is read -/
structure Parts where
  featurizer : Featurizer
  tokenizer : Tokenizer
  text : Compressor
  fvalue : Compressor
  posting : Compressor
deriving DecidableEq

/-- `map[key]` of a map that may lack the key -/
def look (key : Str) (m : Map) : Str := (find key m).getD []

/-- `src/simple_warren.cc:55-57` and `88-91` -/
def openIdx (parameters : Map) (featurizer : Featurizer) (tokenizer : Tokenizer) (text : Compressor) : Outcome Parts :=
  match cook (look idxKey parameters) with
  | none => .refused
  | some ip => match makeIdx (look nameKey ip) (look recipeKey ip) with
    | none => .refused
    | some (f, p) => .ok ⟨featurizer, tokenizer, text, f, p⟩

/-- `src/simple_warren.cc:47-54` -/
def openTxt (parameters : Map) (featurizer : Featurizer) (tokenizer : Tokenizer) : Outcome Parts :=
  match cook (look txtKey parameters) with
  | none => .refused
  | some xp => match makeTxt (look nameKey xp) (look recipeKey xp) with
    | none => .refused
    | some text => openIdx parameters featurizer tokenizer text

/-- `src/simple_warren.cc:40-46` -/
def openTokenizer (parameters : Map) (featurizer : Featurizer) : Outcome Parts :=
  match cook (look tokenizerKey parameters) with
  | none => .refused
  | some tp => match makeTokenizer (look nameKey tp) (look recipeKey tp) with
    | .refused => .refused
    | .undefined => .undefined
    | .ok tokenizer => openTxt parameters featurizer tokenizer

/-- `src/simple_warren.cc:26-57` and `88-91` of `SimpleWarren::make`: the parts of the warren.  Its parameters, and the parts for adding to
it, are not modelled here. -/
def openSimple (counted : Bool) (file : File) : Outcome Parts :=
  match readDna file with
  | none => .refused
  | some dna => match cook dna with
    | none => .refused
    | some parameters => match cook (look featurizerKey parameters) with
      | none => .refused
      | some fp => match make (some counted) (look nameKey fp) (look recipeKey fp) with
        | none => .refused
        | some featurizer => openTokenizer parameters featurizer

/-! ### building -/

/-- `src/simple_builder.cc:696-722` of `SimpleBuilder::finalize_`: the description that it writes -/
def description (featurizer : Featurizer) (tokenizer : Tokenizer) (text fvalue posting : Str × Str) : Map :=
  let txt := put compressorRecipeKey text.2 (put compressorKey text.1 [])
  let idx := put fvalueRecipeKey fvalue.2 (put fvalueKey fvalue.1 (put postingRecipeKey posting.2 (put postingKey posting.1 [])))
  let package (name recipe : Str) := freeze (put recipeKey recipe (put nameKey name []))
  put featurizerKey (package featurizer.name featurizer.recipe) (put tokenizerKey (package tokenizer.name tokenizer.recipe)
    (put idxKey (package simpleName (freeze idx)) (put txtKey (package simpleName (freeze txt)) (put warrenKey simpleName []))))

/-- `src/simple_builder.cc:360-426` `SimpleBuilder::make` with parts: the compressors that it uses; files can be created -/
def buildParts (featurizer : Featurizer) (tokenizer : Tokenizer) (text fvalue posting : Str × Str) : Option Parts :=
  match makeCompressor text.1 text.2 with
  | none => none
  | some t => match makeCompressor posting.1 posting.2 with
    | none => none
    | some p => match makeCompressor fvalue.1 fvalue.2 with
      | none => none
      | some f => some ⟨featurizer, tokenizer, t, f, p⟩

/-- `src/simple_builder.cc:217-244` `default_dna` -/
def defaultDna : Str :=
  [0x5B, 0x20, 0x20, 0x77, 0x61, 0x72, 0x72, 0x65, 0x6E, 0x3A, 0x22, 0x73, 0x69, 0x6D, 0x70, 0x6C, 0x65, 0x22, 0x2C] ++
  [0x20, 0x20, 0x66, 0x65, 0x61, 0x74, 0x75, 0x72, 0x69, 0x7A, 0x65, 0x72, 0x3A, 0x5B, 0x20, 0x20, 0x20, 0x20, 0x6E, 0x61, 0x6D, 0x65, 0x3A, 0x22, 0x68, 0x61, 0x73, 0x68, 0x69, 0x6E, 0x67, 0x22, 0x2C, 0x20, 0x20, 0x20, 0x20, 0x72, 0x65, 0x63, 0x69, 0x70, 0x65, 0x3A, 0x22, 0x22, 0x2C, 0x20, 0x20, 0x5D, 0x2C] ++
  [0x20, 0x20, 0x69, 0x64, 0x78, 0x3A, 0x5B, 0x20, 0x20, 0x20, 0x20, 0x6E, 0x61, 0x6D, 0x65, 0x3A, 0x22, 0x73, 0x69, 0x6D, 0x70, 0x6C, 0x65, 0x22, 0x2C, 0x20, 0x20, 0x20, 0x20, 0x72, 0x65, 0x63, 0x69, 0x70, 0x65, 0x3A, 0x5B] ++
  [0x20, 0x20, 0x20, 0x20, 0x20, 0x20, 0x66, 0x76, 0x61, 0x6C, 0x75, 0x65, 0x5F, 0x63, 0x6F, 0x6D, 0x70, 0x72, 0x65, 0x73, 0x73, 0x6F, 0x72, 0x3A, 0x22, 0x7A, 0x6C, 0x69, 0x62, 0x22, 0x2C, 0x20, 0x20, 0x20, 0x20, 0x20, 0x20, 0x66, 0x76, 0x61, 0x6C, 0x75, 0x65, 0x5F, 0x63, 0x6F, 0x6D, 0x70, 0x72, 0x65, 0x73, 0x73, 0x6F, 0x72, 0x5F, 0x72, 0x65, 0x63, 0x69, 0x70, 0x65, 0x3A, 0x22, 0x22, 0x2C] ++
  [0x20, 0x20, 0x20, 0x20, 0x20, 0x20, 0x70, 0x6F, 0x73, 0x74, 0x69, 0x6E, 0x67, 0x5F, 0x63, 0x6F, 0x6D, 0x70, 0x72, 0x65, 0x73, 0x73, 0x6F, 0x72, 0x3A, 0x22, 0x70, 0x6F, 0x73, 0x74, 0x22, 0x2C, 0x20, 0x20, 0x20, 0x20, 0x20, 0x20, 0x70, 0x6F, 0x73, 0x74, 0x69, 0x6E, 0x67, 0x5F, 0x63, 0x6F, 0x6D, 0x70, 0x72, 0x65, 0x73, 0x73, 0x6F, 0x72, 0x5F, 0x72, 0x65, 0x63, 0x69, 0x70, 0x65, 0x3A, 0x22, 0x22, 0x2C, 0x20, 0x20, 0x20, 0x20, 0x5D, 0x2C, 0x20, 0x20, 0x5D, 0x2C] ++
  [0x20, 0x20, 0x74, 0x6F, 0x6B, 0x65, 0x6E, 0x69, 0x7A, 0x65, 0x72, 0x3A, 0x5B, 0x20, 0x20, 0x20, 0x20, 0x6E, 0x61, 0x6D, 0x65, 0x3A, 0x22, 0x61, 0x73, 0x63, 0x69, 0x69, 0x22, 0x2C, 0x20, 0x20, 0x20, 0x20, 0x72, 0x65, 0x63, 0x69, 0x70, 0x65, 0x3A, 0x22, 0x78, 0x6D, 0x6C, 0x22, 0x2C, 0x20, 0x20, 0x5D, 0x2C] ++
  [0x20, 0x20, 0x74, 0x78, 0x74, 0x3A, 0x5B, 0x20, 0x20, 0x20, 0x20, 0x6E, 0x61, 0x6D, 0x65, 0x3A, 0x22, 0x73, 0x69, 0x6D, 0x70, 0x6C, 0x65, 0x22, 0x2C, 0x20, 0x20, 0x20, 0x20, 0x72, 0x65, 0x63, 0x69, 0x70, 0x65, 0x3A, 0x5B] ++
  [0x20, 0x20, 0x20, 0x20, 0x20, 0x20, 0x63, 0x6F, 0x6D, 0x70, 0x72, 0x65, 0x73, 0x73, 0x6F, 0x72, 0x3A, 0x22, 0x7A, 0x6C, 0x69, 0x62, 0x22, 0x2C, 0x20, 0x20, 0x20, 0x20, 0x20, 0x20, 0x63, 0x6F, 0x6D, 0x70, 0x72, 0x65, 0x73, 0x73, 0x6F, 0x72, 0x5F, 0x72, 0x65, 0x63, 0x69, 0x70, 0x65, 0x3A, 0x22, 0x22, 0x2C, 0x20, 0x20, 0x20, 0x20, 0x20, 0x20, 0x6A, 0x73, 0x6F, 0x6E, 0x3A, 0x22, 0x6E, 0x6F, 0x22, 0x2C, 0x20, 0x20, 0x20, 0x20, 0x5D, 0x2C, 0x20, 0x20, 0x5D, 0x2C, 0x5D]

/-- `src/simple_builder.cc:249-252`: the options in a recipe are what is between blanks; the second argument is the option so far.  Two
blanks have an option between them here, which is empty and so does nothing. -/
def options : Str → Str → List Str
  | [], w => [w]
  | c :: s, w => if isSpace c then w :: options s [] else options s (w ++ [c])

/-- `src/simple_builder.cc:253-255` and `303-305` -/
def applyOptions : Str → List Str → Outcome Str
  | dna, [] => .ok dna
  | dna, o :: os => match interpret dna o with
    | .refused => .refused
    | .undefined => .undefined
    | .ok dna => applyOptions dna os

/-- `src/dna.cc:101-134` `name_and_recipe` -/
def named (dna key : Str) : Option (Str × Str) :=
  match cook dna with
  | none => none
  | some m => nameAndRecipe m key

/-- `src/simple_builder.cc:256-290` of `SimpleBuilder::check` -/
def checkDna (dna : Str) : Bool :=
  match named dna tokenizerKey, named dna featurizerKey, named dna idxKey, named dna txtKey with
  | some t, some f, some i, some x =>
    checkTokenizer t.1 t.2 && check f.1 f.2 && decide (i.1 = simpleName) && checkIdx i.2 && decide (x.1 = simpleName) && checkTxt x.2
  | _, _, _, _ => false

/-- `src/simple_builder.cc:247-291` `SimpleBuilder::check` -/
def checkRecipe (recipe : Str) : Outcome Bool :=
  match applyOptions defaultDna (options recipe []) with
  | .refused => .ok false
  | .undefined => .undefined
  | .ok dna => .ok (checkDna dna)

def optionKey (part key : Str) : Str := part ++ [0x3A] ++ key

/-- `src/simple_builder.cc:310-315`, `316-321` and `322-327`: a compressor's name and recipe -/
def extractPair (dna part key recipeKey : Str) : Outcome (Str × Str) :=
  match extract dna (optionKey part key) with
  | .refused => .refused
  | .undefined => .undefined
  | .ok n => match extract dna (optionKey part recipeKey) with
    | .refused => .refused
    | .undefined => .undefined
    | .ok r => .ok (n, r)

/-- `src/simple_builder.cc:328-357`: what is left to do when the compressors are known.  If the builder cannot be made a null pointer is
dereferenced (`356`). -/
def buildWith (counted : Bool) (dna : Str) (text fvalue posting : Str × Str) : Outcome (Parts × Str) :=
  match named dna tokenizerKey with
  | none => .refused
  | some t => match makeTokenizer t.1 t.2 with
    | .refused => .refused
    | .undefined => .undefined
    | .ok tokenizer => match named dna featurizerKey with
      | none => .refused
      | some f => match make (some counted) f.1 f.2 with
        | none => .refused
        | some featurizer => match buildParts featurizer tokenizer text fvalue posting with
          | none => .undefined
          | some parts => .ok (parts, dna)

/-- `src/simple_builder.cc:306-327` -/
def buildDna (counted : Bool) (dna : Str) : Outcome (Parts × Str) :=
  match extractPair dna idxKey postingKey postingRecipeKey with
  | .refused => .refused
  | .undefined => .undefined
  | .ok posting => match extractPair dna idxKey fvalueKey fvalueRecipeKey with
    | .refused => .refused
    | .undefined => .undefined
    | .ok fvalue => match extractPair dna txtKey compressorKey compressorRecipeKey with
      | .refused => .refused
      | .undefined => .undefined
      | .ok text => buildWith counted dna text fvalue posting

/-- `src/simple_builder.cc:293-358` `SimpleBuilder::make` with a recipe: the parts that the builder uses, and the description that it
writes -/
def buildRecipe (counted : Bool) (recipe : Str) : Outcome (Parts × Str) :=
  match checkRecipe recipe with
  | .refused => .refused
  | .undefined => .undefined
  | .ok false => .refused
  | .ok true => match applyOptions defaultDna (options recipe []) with
    | .refused => .refused
    | .undefined => .undefined
    | .ok dna => buildDna counted dna

end Verif.Parts
