import Verif.Inhale.Model
/-
  Specification of reading input files (C74) and of builds (C75).
-/
namespace Verif.Inhale

/-- the endings that mark compressed files -/
def endings : List (List Char) :=
  [['.', 'z'], ['.', 'Z'], ['.', 'g', 'z'], ['.', 'G', 'Z'], ['.', '0', 'z'], ['.', '1', 'z'], ['.', '2', 'z']]

/-- The name is that of a compressed file: one of the endings, with something before it. -/
def Compressed (name : Bytes) : Prop :=
  ∃ stem e, stem ≠ [] ∧ e ∈ endings ∧ name = stem ++ e.map fun c => UInt8.ofNat c.toNat

/-- a name a file can have -/
def Legal (name : Bytes) : Prop := 0 ∉ name

instance (name : Bytes) : Decidable (Legal name) := inferInstanceAs (Decidable (0 ∉ name))

/-- there is a `zcat`, and it can be started -/
def Unzips (W : World) : Prop :=
  ((W.files usrBinZcat).isSome ∨ (W.files binZcat).isSome) ∧ W.popens = true

/-- The steps of a build that are carried out: up to the first that fails, or the end of the build. -/
def Carried (I : Inner σ) : σ → List Op → σ → Prop
  | s, [], s' => s' = s
  | s, o :: os, s' => (I s o).2 = true ∧ Carried I (I s o).1 os s'

end Verif.Inhale
