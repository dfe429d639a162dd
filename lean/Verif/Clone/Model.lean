/-
Model of readers and their copies: `Bigwig::clone_`, `start_` and `end_` (src/bigwig.cc 670-738), `Txt::wrap` and
`JsonTxt` (src/txt.cc 39-42, src/json_txt.cc), and `SimpleTxt::clone_` (src/simple_txt.cc 145-163).

What a list of shards says between two addresses (`BigwigTxt::translate_`, C27 and C39) is a parameter, and so is the
type of shards.  Simplified: the index of a reader is its list of shards (`BigwigIdx::make` is given that list and what
all readers share; C15, C18); a stemmer is its name (`Stemmer::make` makes one by its name, src/stemmer.cc 11-25).
-/
import Verif.Recipe.Model
import Verif.Json.Model
import Verif.SimpleText.Spec
namespace Verif.Clone
open Verif.Text (Text)
open Verif.Json (jsonTranslate)
open Verif.Recipe (Str cook find)

/-- `okay` src/core.cc 11-16 -/
def okay (s : Str) : Bool :=
  [[0x79], [0x79, 0x65, 0x73], [0x6F, 0x6E], [0x74, 0x72, 0x75, 0x65], [0x6F, 0x6B, 0x61, 0x79], [0x6F, 0x6B],
    [0x59], [0x59, 0x65, 0x73], [0x4F, 0x6E], [0x54, 0x72, 0x75, 0x65], [0x4F, 0x6B, 0x61, 0x79], [0x4F, 0x6B],
    [0x4F, 0x4B]].contains s

/-- `json` -/
def jsonKey : Str := [0x6A, 0x73, 0x6F, 0x6E]

/-- `jason` -/
def jasonKey : Str := [0x6A, 0x61, 0x73, 0x6F, 0x6E]

/-- `should_wrap` src/json_txt.cc 15-31 -/
def shouldWrap (recipe : Str) : Bool :=
  if recipe = jsonKey then true
  else match cook recipe with
    | some m => match find jsonKey m with
      | some v => okay v
      | none => false
    | none => false

/-- `JsonTxt::recipe_` src/json_txt.cc 74-81, of a text with the recipe `inner` -/
def jsonRecipe (inner : Str) : Str :=
  match (if inner = [] then some [] else cook inner) with
  | none => inner
  | some m => Recipe.freeze (Recipe.put jasonKey [0x79, 0x65, 0x73] m)

/-- The fields of a `Bigwig` that readers use (src/bigwig.h 70-80, src/warren.h 110-130): `snap` is `warrens_` while
`warrens_valid_`; `txt` is `txt_`, the shards that it reads and whether it is a `JsonTxt`. -/
structure Handle (σ : Type) where
  recipe : Str
  container : Str
  stemmer : Str
  snap : Option (List σ)
  txt : Option (Bool × List σ)
  started : Bool

/-- the handles of a burrow and the list of shards that they share -/
structure World (σ : Type) where
  shards : List σ
  handles : Nat → Option (Handle σ)

variable {σ : Type}

/-- `Bigwig::make` of an existing burrow (src/bigwig.cc 585-604), as to what readers use -/
def opened (recipe container stemmer : Str) : Handle σ := ⟨recipe, container, stemmer, none, none, false⟩

/-- `Warren::start` (src/warren.h 42-46) and `Bigwig::start_` (src/bigwig.cc 702-727); `none` is a failed assertion -/
def start (shared : List σ) (h : Handle σ) : Option (Handle σ) :=
  if h.started then none
  else
    let l := h.snap.getD shared
    some { h with snap := some l, txt := some (shouldWrap h.recipe, l), started := true }

/-- `Warren::end` (src/warren.h 47-52) and `Bigwig::end_` (src/bigwig.cc 729-738) -/
def stop (h : Handle σ) : Handle σ :=
  if h.started then { h with snap := none, txt := none, started := false } else h

/-- `Bigwig::clone_` src/bigwig.cc 670-701: `txt_recipe_` is not copied -/
def clone (shared : List σ) (h : Handle σ) : Option (Handle σ) :=
  let c : Handle σ := { opened [] h.container h.stemmer with snap := h.snap }
  if h.snap.isSome then start shared c else some c

/-- What is done by anyone: a transaction commits or shards are merged, so that there is another list of shards; a
handle is started or ended, or copied, or given another default container or stemmer (src/warren.h 71-87). -/
inductive Act (σ : Type)
  | publish (shards : List σ)
  | start (i : Nat)
  | stop (i : Nat)
  | clone (i j : Nat)
  | container (i : Nat) (s : Str)
  | stemmer (i : Nat) (s : Str)

def put (w : World σ) (i : Nat) (h : Handle σ) : World σ :=
  { w with handles := fun k => if k = i then some h else w.handles k }

/-- One action; `none` where there is no such handle, where `j` is in use, or where an assertion fails. -/
def step (w : World σ) : Act σ → Option (World σ)
  | .publish l => some { w with shards := l }
  | .start i => match w.handles i with
    | none => none
    | some h => (start w.shards h).map (put w i)
  | .stop i => (w.handles i).map fun h => put w i (stop h)
  | .clone i j => match w.handles i, w.handles j with
    | some h, none => (clone w.shards h).map (put w j)
    | _, _ => none
  | .container i s => (w.handles i).map fun h => put w i { h with container := s }
  | .stemmer i s => (w.handles i).map fun h => put w i { h with stemmer := s }

def run : World σ → List (Act σ) → Option (World σ)
  | w, [] => some w
  | w, a :: l => match step w a with
    | none => none
    | some w => run w l

/-- `txt()->raw(p, q)`: `JsonTxt::raw_` (src/json_txt.cc 91-93) or `Txt::raw_` (src/txt.h 48); `none` where `txt_` is null -/
def raw (says : List σ → Int → Int → Text) (h : Handle σ) (p q : Int) : Option Text := h.txt.map fun t => says t.2 p q

/-- `txt()->translate(p, q)`: `JsonTxt::translate_` (src/json_txt.cc 87-89) or `BigwigTxt::translate_` -/
def translate (says : List σ → Int → Int → Text) (h : Handle σ) (p q : Int) : Option Text :=
  h.txt.map fun t => if t.1 then jsonTranslate (says t.2 p q) else says t.2 p q

/-- `SimpleTxt::clone_` src/simple_txt.cc 145-163; that the copy of the store reads the same is C29 -/
def cloneReader (r : SimpleText.Reader) : SimpleText.Reader := { r with memo := none }

/-- `ask` for each call, and the reader after that -/
def asked (T : Text.Tokenizer) : SimpleText.Reader → List SimpleText.Call → Option (SimpleText.Reader × List (Text ⊕ Int))
  | r, [] => some (r, [])
  | r, c :: cs => match SimpleText.ask T r c with
    | none => none
    | some (r, a) => (asked T r cs).map fun x => (x.1, a :: x.2)

end Verif.Clone
