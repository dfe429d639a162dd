import Verif.BuilderScribe.Model
/-
  Specification of scribes of builders (C77).
-/
namespace Verif.BuilderScribe

open Verif.Inhale (Bytes Op)

/-- the steps of the build that a call asks for: a text; an annotation, unless its feature says that there is none; the
annotations of a file; the end -/
def meant : Call → List Op
  | .append text => [.text text]
  | .annotate f p q v => if 0 < f then [.feature f p q v] else []
  | .annotations (some bs) =>
    ((Verif.Extsort.records bs).filter fun a => decide (0 < a.feature)).map fun a => .feature a.feature a.p a.q a.v
  | .finalize => [.finalize]
  | _ => []

/-- the call is not one of the annotator's or the appender's own transactions -/
def Whole : Call → Prop
  | .transaction x | .ready x | .commit x | .abort x => x = .scribe
  | _ => True

instance (c : Call) : Decidable (Whole c) := by cases c <;> unfold Whole <;> infer_instance

/-- A transaction of this part is open after these calls: the last call that could open or close one opened one. -/
def InTransaction (x : Part) (h : List Call) : Prop :=
  ∃ pre post, h = pre ++ .transaction x :: post ∧ .commit x ∉ post ∧ .abort x ∉ post

end Verif.BuilderScribe
