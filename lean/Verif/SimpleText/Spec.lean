import Verif.SimpleText.Model
/-
  Specification of the text of a simple warren.
-/
namespace Verif.SimpleText
open Verif.Text

/-- The block map of the text `X`: one entry for every address that is a multiple of 1024, in order,
with the place in `X` where the token of this address starts. -/
def blockMap (T : Tokenizer) (X : Text) : List (Int × Int) :=
  ((List.range (T.addresses X)).filter fun n => n % 1024 = 0).map fun (n : Nat) => ((n : Int), (T.skip X n : Int))

/-- The bytes of `X` from its `m`-th token up to its `n`-th. -/
def between (T : Tokenizer) (X : Text) (m n : Nat) : Text := (X.drop (T.skip X m)).take (T.skip X n - T.skip X m)

/-- No address that is a multiple of 1024 has two tokens. -/
def Undoubled (T : Tokenizer) (X : Text) : Prop :=
  ∀ n, n % 1024 = 0 → (T.tokenize X).countP (fun t => t.address = n) ≤ 1

/-- the texts of the committed transactions -/
def committed : List Txn → List Text
  | [] => []
  | t :: ts => (if t.commit then t.texts else []) ++ committed ts

/-- What users ask of a text. -/
inductive Call
  | translate (p q : Int)
  | tokens

/-- The answers due: for a range of addresses the bytes from its first token up to the token after
its last; for the number of tokens, the number of addresses. -/
def due (T : Tokenizer) (X : Text) : Call → Text ⊕ Int
  | .translate p q => .inl (between T X p.toNat (q + 1).toNat)
  | .tokens => .inr (T.addresses X)

/-- a call made of a reader -/
def ask (T : Tokenizer) (r : Reader) : Call → Option (Reader × (Text ⊕ Int))
  | .translate p q => (translate T r p q).map fun x => (x.1, .inl x.2)
  | .tokens => (tokens T r).map fun x => (x.1, .inr x.2)

/-- calls made one after the other -/
def askAll (T : Tokenizer) : Reader → List Call → Option (List (Text ⊕ Int))
  | _, [] => some []
  | r, c :: cs => match ask T r c with
    | none => none
    | some (r, a) => (askAll T r cs).map (a :: ·)

end Verif.SimpleText
