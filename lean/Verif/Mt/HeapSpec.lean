import Verif.Mt.Heap
/-
  What a program that converts queries should see, and what its memory should be.
-/
namespace Verif.Mt

/-! ### what is in memory -/

mutual
/-- the query at an address, and all the memory it has -/
inductive Tree (h : Ptr → Option Cell) : Ptr → Q → List Ptr → Prop
  | bin {p a b op l r n1 n2} : h p = some (.node ⟨.bin op, a, b⟩) → Tree h a l n1 → Tree h b r n2 →
      Tree h p (.bin op l r) (p :: (n1 ++ n2))
  | nofm {p a n es n1} : h p = some (.node ⟨.nofm, a, n⟩) → TreeL h a es n1 → Tree h p (.some n es) (p :: n1)
  | term {p t w r s} : h p = some (.node ⟨.term, t, w⟩) → h t = some (.cgrep r) → h r = some (.text s) → Tree h p (.term s) [p, t, r]
  | fixed {p w n} : h p = some (.node ⟨.fixed, w, n⟩) → Tree h p (.fixed n) [p]
/-- the elements of a combination at an address, and all the memory they have -/
inductive TreeL (h : Ptr → Option Cell) : Ptr → List Q → List Ptr → Prop
  | nil : TreeL h 0 [] []
  | cons {p a b e es n1 n2} : h p = some (.node ⟨.element, a, b⟩) → Tree h a e n1 → TreeL h b es n2 →
      TreeL h p (e :: es) (p :: (n1 ++ n2))
end

/-- a list of free nodes -/
inductive Chain (h : Ptr → Option Cell) : Ptr → List Ptr → Prop
  | nil : Chain h 0 []
  | cons {p n l} : h p = some (.node n) → Chain h n.w1 l → Chain h p (p :: l)

/-- the definitions at an address, and all the memory they have -/
inductive EnvTree (h : Ptr → Option Cell) : Ptr → Env → List Ptr → Prop
  | nil : EnvTree h 0 [] []
  | cons {e nx s p name q fp env efp} : h e = some (.env nx s p) → h s = some (.text name) → Tree h p q fp →
      EnvTree h nx env efp → EnvTree h e ((name, q) :: env) (e :: s :: (fp ++ efp))

/-! ### all of memory -/

/-- the lists of free nodes of the threads, and all the memory they have -/
inductive Frees (h : Ptr → Option Cell) : List (Ptr × Option Msg) → List Ptr → Prop
  | nil : Frees h [] []
  | cons {f msg ts l fp} : Chain h f l → Frees h ts fp → Frees h ((f, msg) :: ts) (l ++ fp)

/-- the definitions of the converters that are not destroyed, and all the memory they have -/
inductive Defines (h : Ptr → Option Cell) : List (Option HMt) → List (Option Env) → List Ptr → Prop
  | nil : Defines h [] [] []
  | gone {cs es fp} : Defines h cs es fp → Defines h (none :: cs) (none :: es) fp
  | cons {c env efp cs es fp} : EnvTree h c.env env efp → Defines h cs es fp → Defines h (some c :: cs) (some env :: es) (efp ++ fp)

/-- All the memory a program has is the free nodes of its threads, the definitions `es` of its converters, and `lost`,
which nothing points to; and no piece of memory is two of these. -/
def Accounted (w : World) (es : List (Option Env)) (lost : List Ptr) : Prop :=
  ∃ a b, Frees w.heap w.threads a ∧ Defines w.heap w.mts es b ∧ (a ++ (b ++ lost)).Nodup ∧ ∀ p, w.heap p ≠ none ↔ p ∈ a ++ (b ++ lost)

mutual
/-- the pieces of memory of a query: a node for each operator, number and term, two more for the text of a term -/
def cells : Q → Nat
  | .bin _ l r => 1 + (cells l + cells r)
  | .some _ es => 1 + cellsL es
  | .term _ => 3
  | .fixed _ => 1
/-- those of the elements of a combination, each of which has a node more -/
def cellsL : List Q → Nat
  | [] => 0
  | e :: es => 1 + (cells e + cellsL es)
end

/-! ### what a program sees -/

/-- the calls are of threads and converters that there are: `live` says of each converter whether it is not yet destroyed -/
def Sensible (n : Nat) : List Bool → List Op → Prop
  | _, [] => True
  | live, .create :: ops => Sensible n (live ++ [true]) ops
  | live, .convert t i _ :: ops => t < n ∧ live[i]? = some true ∧ Sensible n live ops
  | live, .destroy i :: ops => live[i]? = some true ∧ Sensible n (live.set i false) ops

/-- the texts that one converter is given -/
def texts (i : Nat) : List Op → List (List Char)
  | [] => []
  | .convert _ j text :: ops => if j = i then text :: texts i ops else texts i ops
  | _ :: ops => texts i ops

/-- what a program sees of one converter -/
def shown (i : Nat) : List Op → List (Option Seen) → List Seen
  | .convert _ j _ :: ops, some s :: ss => if j = i then s :: shown i ops ss else shown i ops ss
  | _ :: ops, _ :: ss => shown i ops ss
  | _, _ => []

/-- what a converter shows that is the only one, if it begins like this -/
def alone (env : Env) (s : List Char) : List (List Char) → List Seen
  | [] => []
  | text :: l =>
    let r := Mt.infix ⟨env, s, none⟩ text
    seen r.1 r.2.message r.2.sExpression :: alone r.2.env r.2.sExpression l

/-- the definitions that a converter has after some texts, if it begins like this -/
def after (env : Env) (s : List Char) : List (List Char) → Env
  | [] => env
  | text :: l => after (Mt.infix ⟨env, s, none⟩ text).2.env (Mt.infix ⟨env, s, none⟩ text).2.sExpression l

/-- The same is seen, up to refusals that give no message: then there may be an older message of the thread. -/
def Agree : List Seen → List Seen → Prop
  | [], [] => True
  | a :: as, b :: bs => (a.ok = b.ok ∧ a.sExpression = b.sExpression ∧ (b.error ≠ none → a.error = b.error)) ∧ Agree as bs
  | _, _ => False

end Verif.Mt
