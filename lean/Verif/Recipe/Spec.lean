import Verif.Recipe.Model
/-
  Specification: which values survive being written and read, and when two values mean the
  same.  A value is text; if it can be cooked it stands for a map, and is otherwise just text.
-/
namespace Verif.Recipe

/-- a text that can stand between double quotes as it is -/
def Quotable (v : Str) : Prop := ∀ c ∈ v, c ≠ 0 ∧ c ≠ 0x22 ∧ c ≠ 0x5C

/-- Neither the value, if it is just text, nor any text at any depth within it, if it is a
map, contains a NUL, a double quote or a backslash. -/
inductive Safe : Str → Prop
  | leaf {v : Str} : cook v = none → Quotable v → Safe v
  | node {v : Str} {p : Map} : cook v = some p → (∀ k w, find k p = some w → Safe w) → Safe v

/-- Two values mean the same: they are the same text, or maps with the same keys, whose
values mean the same. -/
inductive Same : Str → Str → Prop
  | leaf {v : Str} : cook v = none → Same v v
  | node {v v' : Str} {p p' : Map} : cook v = some p → cook v' = some p' →
      p.map (·.1) = p'.map (·.1) →
      (∀ k w w', find k p = some w → find k p' = some w' → Same w w') → Same v v'

/-- A byte that may stand in a key: an ASCII letter or digit, `-`, `_` or `.`. -/
def keyChar (c : UInt8) : Bool :=
  c < 0x80 && ((Char.ofNat c.toNat).isAlphanum || ['-', '_', '.'].contains (Char.ofNat c.toNat))

/-- A parameter map: the keys are words of letters, digits, `-`, `_` and `.`, each occurs
once, and they are in the order `std::map` keeps them in. -/
structure GoodMap (m : Map) : Prop where
  sorted : m.Pairwise fun a b => less a.1 b.1 = true
  words : ∀ kv ∈ m, kv.1 ≠ [] ∧ ∀ c ∈ kv.1, keyChar c = true

end Verif.Recipe
