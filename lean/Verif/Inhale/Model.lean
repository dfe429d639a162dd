/-
  Model of reading input files (src/builder.cc 20-152) and of the protocol of builders (src/builder.h).

  The disk, the shell's way to run a command and `gzip` are parameters of the model (`World`).  Texts and names are
  lists of bytes; a name handed to the operating system ends at its first NUL.
-/
namespace Verif.Inhale

abbrev Bytes := List UInt8

/-- src/builder.cc 20-24 `has_extension` -/
def hasExtension (filename extension : Bytes) : Bool :=
  decide (filename.length > extension.length) &&
    (filename.drop (filename.length - extension.length) == extension)

/-- src/builder.cc 26-32 `has_zcat_extension`: ".z", ".Z", ".gz", ".GZ", ".0z", ".1z", ".2z" -/
def hasZcatExtension (filename : Bytes) : Bool :=
  hasExtension filename [46, 122] || hasExtension filename [46, 90] ||
  hasExtension filename [46, 103, 122] || hasExtension filename [46, 71, 90] ||
  hasExtension filename [46, 48, 122] || hasExtension filename [46, 49, 122] ||
  hasExtension filename [46, 50, 122]

/-- src/builder.cc 36-41: the loop of `shell_quote` -/
def quoteLoop : Bytes → Bytes → Bytes
  | quoted, [] => quoted
  | quoted, c :: s => if c = 39 then quoteLoop (quoted ++ [39, 92, 39, 39]) s else quoteLoop (quoted ++ [c]) s

/-- src/builder.cc 34-44 `shell_quote` -/
def shellQuote (s : Bytes) : Bytes := quoteLoop [39] s ++ [39]

/-- "/usr/bin/zcat" and "/bin/zcat" -/
def usrBinZcat : Bytes := [47, 117, 115, 114, 47, 98, 105, 110, 47, 122, 99, 97, 116]
def binZcat : Bytes := [47, 98, 105, 110, 47, 122, 99, 97, 116]

/-- What surrounds the program. -/
structure World where
  /-- `fopen(name, "r")`: the bytes that can be read, and whether reading then ends with an error -/
  files : Bytes → Option (Bytes × Bool)
  /-- what `gzip -cd` prints for this content, and whether it succeeds -/
  gunzip : Bytes → Bytes × Bool
  /-- what `zcat` prints when its argument is an option -/
  option : Bytes → Bytes
  /-- what any other command prints -/
  other : Bytes → Bytes
  /-- whether `popen` can start a process -/
  popens : Bool

/-- `c_str()`, as read by the operating system -/
def cstr (s : Bytes) : Bytes := s.takeWhile (· ≠ 0)

/-- src/builder.cc 46-60 `zcat` -/
def zcat (W : World) : Option Bytes :=
  if (W.files usrBinZcat).isSome then some usrBinZcat
  else if (W.files binZcat).isSome then some binZcat
  else none

/-! ### The shell that `popen` runs

POSIX.1-2017, volume "Shell & Utilities", 2.2 and 2.3, for commands that are words with single quotes and
backslashes; anything else is `none` here, and can do anything. -/

/-- between words; in a word; after a backslash; between single quotes -/
inductive Mode where
  | blank
  | bare
  | escape
  | single
deriving DecidableEq, Repr

/-- a byte that stands for itself outside quotes: none of ``| & ; < > ( ) $ ` \ " ' * ? [ # ~ = %``, blank, newline, NUL -/
def plain (c : UInt8) : Bool :=
  !(c ∈ [124, 38, 59, 60, 62, 40, 41, 36, 96, 92, 34, 39, 42, 63, 91, 35, 126, 61, 37, 32, 9, 10, 0])

/-- POSIX token recognition -/
def shellWords : Mode → Bytes → Bytes → Option (List Bytes)
  | .blank, _, [] => some []
  | .bare, cur, [] => some [cur]
  | .single, _, [] => none
  | .escape, _, [] => none
  | .escape, cur, c :: s => if c = 10 then none else shellWords .bare (cur ++ [c]) s
  | .single, cur, c :: s => if c = 39 then shellWords .bare cur s else shellWords .single (cur ++ [c]) s
  | .blank, _, c :: s =>
    if c = 32 ∨ c = 9 then shellWords .blank [] s
    else if c = 39 then shellWords .single [] s
    else if plain c then shellWords .bare [c] s
    else none
  | .bare, cur, c :: s =>
    if c = 32 ∨ c = 9 then (shellWords .blank [] s).map (cur :: ·)
    else if c = 39 then shellWords .single cur s
    else if plain c then shellWords .bare (cur ++ [c]) s
    else if c = 92 then shellWords .escape cur s
    else none

/-- what `sh -c command` prints: `zcat` with one argument, or something else -/
def runCommand (W : World) (command : Bytes) : Bytes :=
  match shellWords .blank [] command with
  | some [path, arg] =>
    if path = usrBinZcat ∨ path = binZcat then
      if arg.head? = some 45 then W.option arg
      else match W.files arg with
        | some (content, _) => (W.gunzip content).1
        | none => []
    else W.other command
  | _ => W.other command

/-! ### Streams -/

/-- src/builder.cc 62-95 `FileStreamBuffer`: the bytes between `gptr` and `egptr`, and those of the file not yet read.
(That `fread` stops at an error and not at the end of the file is not looked at: builder.cc 73-75; nor is what `pclose` says: 85.) -/
structure Buffer where
  avail : Bytes := []
  file : Bytes
deriving DecidableEq, Repr

def Buffer.left (b : Buffer) : Nat := b.avail.length + b.file.length

/-- src/builder.cc 68-78 `underflow`; `none` is `eof` -/
def underflow (size : Nat) (b : Buffer) : Option Buffer :=
  if b.avail ≠ [] then some b
  else
    let got := b.file.take size
    if got.length = 0 then none else some ⟨got, b.file.drop size⟩

/-- `std::streambuf::xsgetn`: what there is in the buffer is copied, and the buffer filled again, until there are `n` bytes -/
def sgetn (size : Nat) (b : Buffer) (n : Nat) : Bytes × Buffer :=
  if hn : n = 0 then ([], b)
  else match underflow size b with
    | none => ([], b)
    | some b' =>
      if hk : min n b'.avail.length = 0 then ([], b')
      else
        let r := sgetn size ⟨b'.avail.drop (min n b'.avail.length), b'.file⟩ (n - min n b'.avail.length)
        (b'.avail.take (min n b'.avail.length) ++ r.1, r.2)
termination_by n
decreasing_by omega

theorem underflow_left {size : Nat} {b b' : Buffer} (h : underflow size b = some b') :
    b'.avail ++ b'.file = b.avail ++ b.file := by
  unfold underflow at h
  split at h
  · cases h; rfl
  · rename_i he
    have he : b.avail = [] := Classical.byContradiction fun hh => he hh
    dsimp only at h
    split at h
    · cases h
    · cases h; simp [he, List.take_append_drop]

theorem sgetn_left (size : Nat) : ∀ (b : Buffer) (n : Nat),
    (sgetn size b n).1 ++ ((sgetn size b n).2.avail ++ (sgetn size b n).2.file) = b.avail ++ b.file := by
  intro b n
  fun_induction sgetn size b n with
  | case1 => rfl
  | case2 => rfl
  | case3 b n hn b' hu hk => exact underflow_left hu
  | case4 b n hn b' hu hk r ih =>
    rw [← underflow_left hu]
    simp only [List.append_assoc]
    rw [ih]
    rw [← List.append_assoc, List.take_append_drop]

/-- src/builder.cc 143-146: `read` gives fewer bytes than asked for only at the end, and the stream is then not good, so that
the next `read` gives none and the loop ends -/
def readLoop (size : Nat) (hs : 0 < size) (b : Buffer) (contents : Bytes) : Bytes :=
  let r := sgetn size b size
  if r.1.length = size then readLoop size hs r.2 (contents ++ r.1)
  else if r.1.length > 0 then contents ++ r.1
  else contents
termination_by b.left
decreasing_by
  have := congrArg List.length (sgetn_left size b size)
  simp only [List.length_append] at this
  have hl : (sgetn size b size).1.length = size := by assumption
  show (sgetn size b size).2.avail.length + (sgetn size b size).2.file.length < b.avail.length + b.file.length
  omega

/-- 256 * 1024: src/builder.cc 93, 143 -/
def bufferSize : Nat := 262144

/-- src/builder.cc 110-135 `maybe_zipped`: the bytes of the stream; `none` is `nullptr` -/
def maybeZipped (W : World) (filename : Bytes) : Option Bytes :=
  match W.files (cstr filename) with
  | none => none
  | some (content, _) =>
    if hasZcatExtension filename = false then some content
    else match zcat W with
      | none => none
      | some path =>
        let command := path ++ [32] ++ shellQuote filename
        if W.popens then some (runCommand W (cstr command)) else none

/-- src/builder.cc 137-152 `inhale`.  (`bad()` is never so: the buffer throws nothing.) -/
def inhale (W : World) (filename : Bytes) : Option Bytes :=
  match maybeZipped W filename with
  | none => none
  | some file => some (readLoop bufferSize (by decide) { file } [])

/-! ### Builders (src/builder.h) -/

/-- a step of a build: `add_text`, `add_annotation` for a tag or a feature, `finalize` -/
inductive Op where
  | text (t : Bytes)
  | tag (t : Bytes) (p q v : Int)
  | feature (f p q v : Int)
  | finalize
deriving DecidableEq, Repr

/-- `add_text_`, `add_annotation_` and `finalize_` of a builder -/
abbrev Inner (σ : Type) := σ → Op → σ × Bool

/-- src/builder.h 118-119 -/
structure Builder (σ : Type) where
  inner : σ
  failed : Bool := false
  finalized : Bool := false

/-- src/builder.h 21-33 `add_text`, 38-50 and 59-71 `add_annotation`, 80-91 `finalize` -/
def perform (I : Inner σ) (b : Builder σ) (o : Op) : Builder σ × Bool :=
  if b.failed then (b, false)
  else if b.finalized then (b, o = .finalize)
  else
    let r := I b.inner o
    ({ inner := r.1, failed := !r.2, finalized := o = .finalize }, r.2)

/-- a history of a builder, with what each step said -/
def performAll (I : Inner σ) : Builder σ → List Op → Builder σ × List Bool
  | b, [] => (b, [])
  | b, o :: os =>
    let r := perform I b o
    let s := performAll I r.1 os
    (s.1, r.2 :: s.2)

/-- src/builder.cc 157-164: the loop of `build_trec`; outer `none`: a null pointer is read -/
def trecLoop (W : World) (I : Inner σ) : Builder σ → List Bytes → Option (Builder σ × Bool)
  | b, [] => some (b, true)
  | b, f :: fs =>
    match inhale W f with
    | none => none
    | some contents =>
      let r := perform I b (.text contents)
      if r.2 then trecLoop W I r.1 fs else some (r.1, false)

/-- src/builder.cc 154-172 `build_trec` -/
def buildTrec (W : World) (I : Inner σ) (b : Builder σ) (text : List Bytes) : Option (Builder σ × Bool) :=
  match trecLoop W I b text with
  | none => none
  | some (b, false) => some (b, false)
  | some (b, true) => some (perform I b .finalize)

end Verif.Inhale
