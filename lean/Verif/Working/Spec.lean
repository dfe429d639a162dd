import Verif.Working.Model
import Verif.Inhale.Spec
/-
  Specification of what is done to a burrow's directory (C81).
-/
namespace Verif.Working

open Verif.Inhale (Bytes plain Legal)

/-- a name that the shell reads as it is written: no blanks, quotes or other special characters, and no dash at its
beginning -/
def PlainName (s : Bytes) : Prop := s ≠ [] ∧ s.all plain = true ∧ s.head? ≠ some 45

instance (s : Bytes) : Decidable (PlainName s) := inferInstanceAs (Decidable (_ ∧ _ ∧ _))

/-- a path that no command takes for an option -/
def Proper (p : Bytes) : Prop := p ≠ [] ∧ p.head? ≠ some 45 ∧ Legal p

instance (p : Bytes) : Decidable (Proper p) := inferInstanceAs (Decidable (_ ∧ _ ∧ _))

/-- the path of a temporary file of this directory -/
def Temporary (dir p : Bytes) : Prop := ∃ rest, 47 ∉ rest ∧ p = dir ++ [0x2F, 0x74, 0x65, 0x6D, 0x70, 0x2E] /- /temp. -/ ++ rest

def IsFile (fs : FS) (p : Bytes) : Prop := ∃ b x, fs p = some (.file b x)

/-- Temporary files of the directory are gone, everything else is as it was. -/
def Cleaned (dir : Bytes) (fs fs' : FS) : Prop :=
  ∀ p, (Temporary dir p ∧ IsFile fs p → fs' p = none) ∧ (¬ (Temporary dir p ∧ IsFile fs p) → fs' p = fs p)

/-- `q` is `p` or one of the directories on the way to it -/
def Above (q p : Bytes) : Prop := q = p ∨ (q ≠ [] ∧ ∃ rest, p = q ++ 47 :: rest)

/-- Each file has moved to its new name, unless there was a file of that name; nothing is left under the old one; and
nothing else has changed. -/
def Moved (pairs : List (Bytes × Bytes)) (fs fs' : FS) : Prop :=
  (∀ r f, (r, f) ∈ pairs → fs' r = none ∧ (fs f ≠ none → fs' f = fs f) ∧ (fs f = none → fs' f = fs r)) ∧
  (∀ p, (∀ r f, (r, f) ∈ pairs → p ≠ r ∧ p ≠ f) → fs' p = fs p)

/-- no path occurs twice, and no command takes one for an option -/
def Apart (pairs : List (Bytes × Bytes)) : Prop :=
  (pairs.flatMap fun x => [x.1, x.2]).Nodup ∧ ∀ x ∈ pairs, Proper x.1 ∧ Proper x.2

/-- no directory is in the way -/
def NoDirs (pairs : List (Bytes × Bytes)) (fs : FS) : Prop := ∀ x ∈ pairs, fs x.1 ≠ some .dir ∧ fs x.2 ≠ some .dir

/-- `listing` has the names of a directory, each once; hidden names are not shown -/
def Lists (dir : Bytes) (fs : FS) (listing : List Bytes) : Prop :=
  listing.Nodup ∧
  ∀ n, n ∈ listing ↔ n ≠ [] ∧ 47 ∉ n ∧ n.head? ≠ some 46 ∧ fs (dir ++ 47 :: n) ≠ none

/-- names that fit on a line -/
def Short (listing : List Bytes) : Prop := ∀ n ∈ listing, 10 ∉ n ∧ n.length ≤ 255

/-- the name of a commit script, "commit.", something, ".sh" -/
def ScriptName (n : Bytes) : Prop := ∃ mid, mid ≠ [] ∧ n = [0x63, 0x6F, 0x6D, 0x6D, 0x69, 0x74, 0x2E] /- commit. -/ ++ mid ++ [0x2E, 0x73, 0x68] /- .sh -/

/-- what one transaction is called before and after it is committed -/
def before (dir x : Bytes) : Bytes := dir ++ [0x2F, 0x6B, 0x69, 0x74, 0x74, 0x65, 0x6E, 0x2E] /- /kitten. -/ ++ x
def afterwards (dir x : Bytes) : Bytes := dir ++ [0x2F, 0x66, 0x69, 0x76, 0x65, 0x72, 0x2E] /- /fiver. -/ ++ x

/-- Several transactions can be committed: their files are there, nothing has their new names, no commit script is
left from before, and the directory is not a file. -/
structure Ready (dir : Bytes) (xs : List Bytes) (fs : FS) : Prop where
  apart : xs.Nodup
  proper : ∀ x ∈ xs, Legal x ∧ 47 ∉ x
  written : ∀ x ∈ xs, IsFile fs (before dir x)
  fresh : ∀ x ∈ xs, fs (afterwards dir x) = none
  scripts : ∀ n, ScriptName n → 47 ∉ n → fs (dir ++ 47 :: n) = none

/-- None of the transactions is committed: only temporary files are gone. -/
def NoneCommitted (dir : Bytes) (fs fs' : FS) : Prop := Cleaned dir fs fs'

/-- All of the transactions are committed, temporary files are gone and nothing else has changed. -/
def AllCommitted (dir : Bytes) (xs : List Bytes) (fs fs' : FS) : Prop :=
  (∀ x ∈ xs, fs' (afterwards dir x) = fs (before dir x) ∧ fs' (before dir x) = none) ∧
  (∀ p, (∀ x ∈ xs, p ≠ before dir x ∧ p ≠ afterwards dir x) →
    (Temporary dir p ∧ IsFile fs p → fs' p = none) ∧ (¬ (Temporary dir p ∧ IsFile fs p) → fs' p = fs p))

end Verif.Working
