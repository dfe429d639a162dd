import Verif.Gcl.Spec
import Verif.Hopper.Model2
/-
  Model of gcl/parse.cc (to_binary, to_hopper) and gcl/optimizer.cc.
-/
namespace Verif.Gcl
open Verif.Hopper

/-- `gcl/parse.cc:244-256`: the first two operands, then each further operand wrapped
around what has been built so far. -/
def binFold (k : Op) (t : List Char) (w : Int) : List SExpr → SExpr
  | a :: b :: rest => rest.foldl (fun e x => .node k t w [e, x]) (.node k t w [a, b])
  | l => .node k t w l

mutual
/-- `gcl/parse.cc:239-257` `SExpression::to_binary` -/
def toBinary : SExpr → SExpr
  | .node k t w sub => binFold k t w (toBinaryL sub)
/-- the calls `subx_[i]->to_binary()` of `gcl/parse.cc:245-255` -/
def toBinaryL : List SExpr → List SExpr
  | [] => []
  | e :: es => toBinary e :: toBinaryL es
end

mutual
/-- (proof device, no counterpart in the code) how many nodes have more than two operands -/
def wide : SExpr → Nat
  | .node _ _ _ sub => (if sub.length > 2 then 1 else 0) + wideL sub
def wideL : List SExpr → Nat
  | [] => 0
  | e :: es => wide e + wideL es
end

theorem toBinaryL_eq (l : List SExpr) : toBinaryL l = l.map toBinary := by
  induction l with
  | nil => rfl
  | cons e es ih => simp [toBinaryL, ih]

theorem wideL_zero {l : List SExpr} (h : ∀ e ∈ l, wide e = 0) : wideL l = 0 := by
  induction l with
  | nil => rfl
  | cons e es ih =>
    simp [wideL, h e List.mem_cons_self, ih fun x hx => h x (List.mem_cons_of_mem _ hx)]

theorem wide_le_wideL {l : List SExpr} {e : SExpr} (h : e ∈ l) : wide e ≤ wideL l := by
  induction l with
  | nil => simp at h
  | cons x xs ih =>
    rcases List.mem_cons.1 h with rfl | h
    · simp [wideL]
    · have := ih h; simp [wideL]; omega

theorem SExpr.ind {P : SExpr → Prop}
    (h : ∀ k t w sub, (∀ e ∈ sub, P e) → P (.node k t w sub)) : ∀ e, P e
  | .node k t w sub => h k t w sub fun e _he => SExpr.ind h e
termination_by e => sizeOf e
decreasing_by
  have := List.sizeOf_lt_of_mem _he
  simp; omega

theorem binFold_wide (k t w) {l : List SExpr} (h : ∀ e ∈ l, wide e = 0) :
    wide (binFold k t w l) = 0 := by
  match l, h with
  | [], _ => simp [binFold, wide, wideL]
  | [a], h => simp [binFold, wide, wideL, h a]
  | a :: b :: rest, h =>
    have key : ∀ (rest : List SExpr) (x : SExpr), wide x = 0 → (∀ e ∈ rest, wide e = 0) →
        wide (rest.foldl (fun e x => .node k t w [e, x]) x) = 0 := by
      intro rest
      induction rest with
      | nil => intro x hx _; exact hx
      | cons y ys ih =>
        intro x hx hr
        refine ih _ ?_ fun e he => hr e (List.mem_cons_of_mem _ he)
        simp [wide, wideL, hx, hr y]
    refine key rest _ ?_ fun e he => h e (by simp [he])
    simp [wide, wideL, h a, h b]

theorem toBinary_wide (e : SExpr) : wide (toBinary e) = 0 := by
  induction e using SExpr.ind with
  | h k t w sub ih =>
    rw [toBinary, toBinaryL_eq]
    refine binFold_wide k t w fun e he => ?_
    obtain ⟨x, hx, rfl⟩ := List.mem_map.1 he
    exact ih x hx

theorem lex_le {a b c d : Nat} (h1 : a ≤ c) (h2 : b < d) :
    Prod.Lex (fun x y : Nat => x < y) (fun x y : Nat => x < y) (a, b) (c, d) := by
  rcases Nat.lt_or_eq_of_le h1 with h | rfl
  · exact Prod.Lex.left _ _ h
  · exact Prod.Lex.right _ h2

/-- `gcl/parse.cc:259-329` `SExpression::to_hopper`; `leaf` stands for
`idx->hopper(featurizer->featurize(term_))` (line 263).  `none` is a null result, or the
use of one as an operand (lines 273 and 299-323 wrap a null pointer without a check). -/
def toHopper (leaf : List Char → Obj) : SExpr → Option Obj
  | .node .term t _ _ => some (leaf t)
  | .node .fixed _ w _ => some (fixedObj w)
  | .node .link _ _ [e] => (toHopper leaf e).map linkObj
  | .node .link _ _ _ => none
  | .node .materialize _ _ [e] => (toHopper leaf e).map matObj
  | .node .materialize _ _ _ => none
  | .node k t w (a :: b :: c :: rest) => toHopper leaf (toBinary (.node k t w (a :: b :: c :: rest)))
  | .node k _ _ [e] =>
    match k with
    | .oneOf | .allOf | .followedBy => toHopper leaf e
    | _ => none
  | .node k _ _ [a, b] => do
    let l ← toHopper leaf a
    let r ← toHopper leaf b
    match k with
    | .oneOf => some (orObj l r)
    | .allOf => some (andObj l r)
    | .followedBy => some (followedByObj l r)
    | .containedIn => some (cinObj l r)
    | .containing => some (cgObj l r)
    | .notContainedIn => some (nciObj l r)
    | .notContaining => some (ncgObj l r)
    | _ => none
  | .node _ _ _ [] => none
termination_by e => (wide e, sizeOf e)
decreasing_by
  all_goals first
    | (apply Prod.Lex.left; rw [toBinary_wide]; simp [wide]; omega)
    | (refine lex_le ?_ ?_ <;> simp [wide, wideL] <;> omega)
    | (refine lex_le ?_ ?_ <;> simp [wide, wideL])

/-! ### optimizer -/

/-- `gcl/optimizer.cc:100-102` -/
def isAtomic (e : SExpr) : Bool := e.kind == .term || e.kind == .fixed

mutual
/-- `gcl/optimizer.cc:81-98` `collect_all_of_atoms` (`none` = returned false) -/
def collect : SExpr → Option (List SExpr)
  | .node k t w sub =>
    if k = .allOf then
      if sub.length = 0 then none else collectL sub
    else if isAtomic (.node k t w sub) then some [.node k t w sub] else none
/-- the loop of `gcl/optimizer.cc:89-91` -/
def collectL : List SExpr → Option (List SExpr)
  | [] => some []
  | e :: es => match collect e with
    | none => none
    | some a => match collectL es with
      | none => none
      | some b => some (a ++ b)
end

mutual
/-- `gcl/optimizer.cc:128-136` `clone` -/
def clone : SExpr → SExpr
  | .node k t w sub => .node k t w (cloneL sub)
def cloneL : List SExpr → List SExpr
  | [] => []
  | e :: es => clone e :: cloneL es
end

/-- `gcl/optimizer.cc:104-110`; `count` stands for
`idx()->count(featurizer()->featurize(term))` -/
def cost (count : List Char → Int) (e : SExpr) : Int :=
  if e.kind = .term then count e.text else maxfinity

/-- insertion step of a stable sort: before the first element of larger cost -/
def insertBy (c : SExpr → Int) (x : SExpr) : List SExpr → List SExpr
  | [] => [x]
  | y :: ys => if c x ≤ c y then x :: y :: ys else y :: insertBy c x ys

/-- `gcl/optimizer.cc:58-66`: `std::stable_sort` by cost then index, as an insertion sort
from the right (a stable sort by cost has exactly one result). -/
def sortBy (c : SExpr → Int) (l : List SExpr) : List SExpr := l.foldr (insertBy c) []

/-- `gcl/optimizer.cc:112-126` `materialize(make(CONTAINED_IN, {make(ALL_OF, {a, b}), d}))` -/
def step (d a b : SExpr) : SExpr :=
  .node .materialize [] 0 [.node .containedIn [] 0 [.node .allOf [] 0 [a, b], clone d]]

/-- `gcl/optimizer.cc:42-79` `rewrite_contained_in_all_of` -/
def rewrite (count : List Char → Int) : SExpr → SExpr
  | .node .containedIn t w [x, d] =>
    if isAtomic d then
      match collect x with
      | none => .node .containedIn t w [x, d]
      | some atoms =>
        if atoms.length < 3 then .node .containedIn t w [x, d]
        else
          match sortBy (cost count) atoms with
          | s0 :: s1 :: rest =>
            rest.foldl (fun cur s => step d cur (clone s)) (step d (clone s0) (clone s1))
          | _ => .node .containedIn t w [x, d]
    else .node .containedIn t w [x, d]
  | e => e

mutual
/-- `gcl/optimizer.cc:30-40` `optimize_` -/
def optimize (count : List Char → Int) : SExpr → SExpr
  | .node k t w sub => rewrite count (.node k t w (optimizeL count sub))
def optimizeL (count : List Char → Int) : List SExpr → List SExpr
  | [] => []
  | e :: es => optimize count e :: optimizeL count es
end

end Verif.Gcl
