import Verif.Burrow.Model
import Verif.Parts.Spec
/-
  Specification for C80: how a warren of shards comes to be, and what may happen to its parameters later.
-/
namespace Verif.Burrow
open Verif.Recipe Verif.Dna Verif.Parts

/-- The compressor that is meant: none is the one that does nothing, and otherwise there are a name and a recipe, which can be kept. -/
def Meant (c : Option (Str × Str)) (x : Compressor) : Prop :=
  match c with
  | none => x = .null
  | some (name, recipe) => makeCompressor name recipe = some x ∧ Keepable recipe

/-- A warren of shards was made, with these parts: with options, from parts, or as a meadow. -/
inductive Made : Parts → Bool → Big → Prop
  | options {counted : Bool} {recipe : Str} {file : File} {o : Opened} :
      CleanRecipe recipe → makeBigwig counted recipe file = .ok o → Made o.parts o.json o.big
  | parts {f : Featurizer} {t : Tokenizer} {text fvalue posting : Option (Str × Str)} {x v p : Compressor} {extra : Map} {file : File}
      {b : Big} : Meant text x → Meant fvalue v → Meant posting p → GoodMap extra → AllKeepable extra →
      makeFrom (some f) (some t) text fvalue posting extra file = .ok b → Made ⟨f, t, x, v, p⟩ false b
  | meadow {counted : Bool} {file : File} {o : Opened} : createMeadow counted file = .ok o → Made o.parts o.json o.big

/-- What may happen later, any number of times and in any order: parameters are set, of those that may be, and the warren is opened. -/
inductive Later (may : Str → Prop) : Big → Big → Prop
  | here {b : Big} : Later may b b
  | set {b b' b'' : Big} {k v : Str} : Later may b b' → may k → Word k → Keepable v → b'.set .works k v = (true, b'') → Later may b b''
  | opened {b b' : Big} {counted : Bool} {o : Opened} : Later may b b' → openBigwig .works .works counted b'.file = .ok o → Later may b o.big

end Verif.Burrow
