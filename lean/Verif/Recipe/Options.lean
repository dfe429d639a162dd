import Verif.Recipe.Model
/-
  Model of the command line options of `src/recipe.cc`: `interpret_option`, `extract_option`,
  `unwrap` and `name_and_recipe`.
-/
namespace Verif.Recipe

/-- what a call does: it succeeds, is refused with an error and without effect, or its
behaviour is undefined -/
inductive Outcome (α : Type)
  | ok (a : α)
  | refused
  | undefined
deriving DecidableEq

/-- the text between separators -/
def splitAt (c : UInt8) : Str → List Str
  | [] => [[]]
  | d :: s =>
    if d = c then [] :: splitAt c s
    else match splitAt c s with
      | [] => [[d]]
      | p :: ps => (d :: p) :: ps

/-- `std::sregex_token_iterator(..., sep, -1)` for a separator of one character
(src/recipe.cc 221-223, 239-241, 299-301): the pieces between the separators, without the
last if there was a separator and nothing follows it. -/
def pieces (c : UInt8) (s : Str) : List Str :=
  match splitAt c s with
  | [p] => [p]
  | ps => if ps.getLast? = some [] then ps.dropLast else ps

/-- `"name"` -/
def nameKey : Str := [0x6E, 0x61, 0x6D, 0x65]
/-- `"recipe"` -/
def recipeKey : Str := [0x72, 0x65, 0x63, 0x69, 0x70, 0x65]

/-- src/recipe.cc 242-284: the part of `interpret_option` for options with colons, given
their pieces: the new recipe.  A number of pieces other than two or three is only noted as an
error (242-244): with one the code then reads a piece that is not there, and with more than
three the others are ignored.  The test for a missing `recipe` (264) compares iterators of
different maps, so that it never finds it missing; the model takes the comparison for
harmless when it is there. -/
def interpretColon (parameters : Map) (ps : List Str) : Outcome Str :=
  match ps with
  | [] => .undefined
  | x :: rest => match find x parameters with
    | none => .refused
    | some item => match cook item with
      | none => .refused
      | some itemParameters =>
        match rest with
        | [] => .undefined
        | [y] => .ok (freeze (put x (freeze (put recipeKey y itemParameters)) parameters))
        | y :: z :: _ =>
          if y = nameKey then
            .ok (freeze (put x (freeze (put recipeKey [] (put nameKey z itemParameters))) parameters))
          else match find recipeKey itemParameters with
            | none => .undefined
            | some itemRecipe => match cook itemRecipe with
              | none => .refused
              | some l => match find y l with
                | none => .refused
                | some _ =>
                  .ok (freeze (put x (freeze (put recipeKey (freeze (put y z l)) itemParameters))
                    parameters))

/-- src/recipe.cc 211-285 `interpret_option`: the new recipe. -/
def interpret (recipe option : Str) : Outcome Str :=
  if option = [] then .ok recipe
  else match cook recipe with
    | none => .refused
    | some parameters =>
      match pieces 0x40 option with
      | [x, y] => match find x parameters with
        | none => .refused
        | some item =>
          let package := put recipeKey item (put nameKey y [])
          .ok (freeze (put x (freeze package) parameters))
      | _ => interpretColon parameters (pieces 0x3A option)

/-- src/recipe.cc 292-343 `extract_option`.  The tests for a missing `name` and `recipe`
(318, 324) compare iterators of different maps; a parameter that is not there is read all the
same (340). -/
def extract (recipe option : Str) : Outcome Str :=
  match cook recipe with
  | none => .refused
  | some parameters =>
    match pieces 0x3A option with
    | [] => .undefined
    | x :: rest => match find x parameters with
      | none => .refused
      | some item => match cook item with
        | none => .refused
        | some itemParameters => match find nameKey itemParameters, find recipeKey itemParameters with
          | some name, some itemRecipe => match rest with
            | [] => .ok itemRecipe
            | y :: _ =>
              if y = nameKey then .ok name
              else match cook itemRecipe with
                | none => .refused
                | some l => match find y l with
                  | none => .undefined
                  | some z => .ok z
          | _, _ => .undefined

/-- src/recipe.cc 345-365 `unwrap` -/
def unwrap (package : Str) : Option (Str × Str) :=
  match cook package with
  | none => none
  | some m => match find nameKey m with
    | none => none
    | some name => match find recipeKey m with
      | none => none
      | some recipe => some (name, recipe)

/-- src/recipe.cc 367-376 `name_and_recipe` -/
def nameAndRecipe (m : Map) (key : Str) : Option (Str × Str) :=
  match find key m with
  | none => none
  | some item => unwrap item

end Verif.Recipe
