import Verif.Hopper.Spec
/-
  Specification of the query language: syntax trees and the solution list each denotes.
  Written from the documentation of the operators, without reference to how the program
  evaluates them (in particular with n-ary operators taken at face value).
-/
namespace Verif.Gcl
open Verif.Hopper

/-- `gcl/parse.h:21-33` -/
inductive Op where
  | term | fixed | oneOf | allOf | followedBy | containedIn | containing | notContainedIn
  | notContaining | link | materialize
deriving DecidableEq, Repr

/-- `gcl/parse.h:35-62` `SExpression`: kind, term text, width, operands.  Bytes of the
text are written as characters. -/
inductive SExpr where
  | node (kind : Op) (term : List Char) (width : Int) (sub : List SExpr)

namespace SExpr
abbrev kind : SExpr → Op | node k _ _ _ => k
abbrev text : SExpr → List Char | node _ t _ _ => t
abbrev width : SExpr → Int | node _ _ w _ => w
abbrev sub : SExpr → List SExpr | node _ _ _ s => s
end SExpr

/-- an interval inside which every one of the lists has a solution -/
def coversAll (Ss : List GC) (p q : Int) : Prop :=
  p ≤ q ∧ minfinity < p ∧ q < maxfinity ∧ ∀ S ∈ Ss, ∃ a, S a ∧ p ≤ a.p ∧ a.q ≤ q
/-- an interval that is a solution of one of the lists -/
def solvesOne (Ss : List GC) (p q : Int) : Prop := ∃ S ∈ Ss, ∃ a, S a ∧ p = a.p ∧ q = a.q
/-- an interval spanning a solution of each list, in order, without overlap -/
def inOrder : List GC → Int → Int → Prop
  | [], _, _ => False
  | [S], p, q => ∃ a, S a ∧ p = a.p ∧ q = a.q
  | S :: Ss, p, q => ∃ a p', S a ∧ p = a.p ∧ a.q < p' ∧ inOrder Ss p' q

/-- what an operator means, given what its operands mean -/
def opMeaning (k : Op) (w : Int) (T : GC) : List GC → GC
  | [] => match k with
    | .term => T
    | .fixed => fixedWidth w
    | _ => fun _ => False
  | [A] => match k with
    | .link => linkOf A
    | .oneOf | .allOf | .followedBy | .materialize => A
    | _ => fun _ => False
  | A :: B :: Ss => match k with
    | .oneOf => minimal (solvesOne (A :: B :: Ss))
    | .allOf => minimal (coversAll (A :: B :: Ss))
    | .followedBy => minimal (inOrder (A :: B :: Ss))
    | .containedIn => fun a => A a ∧ ∀ S ∈ B :: Ss, ∃ b, S b ∧ inside a b
    | .containing => fun a => A a ∧ ∀ S ∈ B :: Ss, ∃ b, S b ∧ inside b a
    | .notContainedIn => fun a => A a ∧ ∀ S ∈ B :: Ss, ¬ ∃ b, S b ∧ inside a b
    | .notContaining => fun a => A a ∧ ∀ S ∈ B :: Ss, ¬ ∃ b, S b ∧ inside b a
    | _ => fun _ => False

mutual
/-- the solutions of a query, given the solutions of each term -/
def den (T : List Char → GC) : SExpr → GC
  | .node k t w sub => opMeaning k w (T t) (denL T sub)
def denL (T : List Char → GC) : List SExpr → List GC
  | [] => []
  | e :: es => den T e :: denL T es
end

/-- operand counts the language allows (`gcl/parse.cc:55-74`); widths are positive -/
def arityOk (k : Op) (w : Int) (n : Nat) : Prop :=
  match k with
  | .term => n = 0
  | .fixed => n = 0 ∧ 1 ≤ w ∧ w ≤ maxfinity
  | .oneOf | .allOf | .followedBy => 1 ≤ n
  | .containedIn | .containing | .notContainedIn | .notContaining => 2 ≤ n
  | .link | .materialize => n = 1

mutual
/-- a legal query -/
def Legal : SExpr → Prop
  | .node k _ w sub => arityOk k w sub.length ∧ LegalL sub
def LegalL : List SExpr → Prop
  | [] => True
  | e :: es => Legal e ∧ LegalL es
end

end Verif.Gcl
