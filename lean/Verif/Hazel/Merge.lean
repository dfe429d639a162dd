import Verif.Hazel.Model
/-
Model of merging static shards (src/hazel.cc 425-928, 1370-1525, 1911-2088): the files it
writes, in the order it writes them, and what it does with files left by an earlier attempt.
-/
namespace Verif.Hazel
open Verif.Hopper Verif.Store

/-- the files of one merge: the checkpoint of the postings ("pst.…"), the checkpoint of the
directory ("dct.…"), the new shard under its temporary name ("mrg.…") and under its final name;
`none`: there is no such file -/
structure FS where
  pst : Option (List UInt8) := none
  dct : Option (List UInt8) := none
  mrg : Option (List UInt8) := none
  dst : Option (List UInt8) := none
deriving DecidableEq

/-- a run of part of the program: every state of the files in which the process may be killed,
what the part returns (`none`: the merge as a whole gives up, or never ends), and the files -/
structure Out (α : Type) where
  crashes : List FS
  value : Option α
  fs : FS

/-- a part of the program -/
abbrev W (α : Type) := FS → Out α

def W.pure {α : Type} (a : α) : W α := fun s => ⟨[s], some a, s⟩

def W.bind {α β : Type} (m : W α) (k : α → W β) : W β := fun s =>
  let r := m s
  match r.value with
  | none => ⟨r.crashes, none, r.fs⟩
  | some a =>
    let t := k a r.fs
    ⟨r.crashes ++ t.crashes, t.value, t.fs⟩

instance : Monad W where
  pure := W.pure
  bind := W.bind

/-- `return false` -/
def W.fail {α : Type} : W α := fun s => ⟨[s], none, s⟩

/-- look at the files -/
def W.see {α : Type} (f : FS → α) : W α := fun s => ⟨[s], some (f s), s⟩

/-- a step the file system makes at once -/
def W.step (f : FS → FS) : W Unit := fun s => ⟨[s, f s], some (), f s⟩

/-- give up on `none` -/
def W.ofOption {α : Type} : Option α → W α
  | some a => W.pure a
  | none => W.fail

/-- writing `b` at the end of `x`: every part of `b` may have been written -/
def tornStates (x b : List UInt8) : List (List UInt8) := (List.range (b.length + 1)).map fun k => x ++ b.take k

/-- `truncate(2)`: cuts, or pads with zeros -/
def resizeTo (n : Nat) (b : List UInt8) : List UInt8 := b.take n ++ List.replicate (n - b.length) 0

/-- `hazel_truncate_file` hazel.cc 447-459, for the postings and for the directory -/
def truncatePst (n : Int) : W Unit := fun s =>
  if n < 0 then W.fail s else match s.pst with
    | none => W.fail s
    | some b => W.step (fun s => { s with pst := some (resizeTo n.toNat b) }) s
def truncateDct (n : Int) : W Unit := fun s =>
  if n < 0 then W.fail s else match s.dct with
    | none => W.fail s
    | some b => W.step (fun s => { s with dct := some (resizeTo n.toNat b) }) s

/-- `hazel_reset_checkpoints` hazel.cc 461-466 with `hazel_reset_file` 436-445 -/
def resetCheckpoints : W Unit := do
  W.step fun s => { s with pst := some [] }
  W.step fun s => { s with dct := some [] }

/-- writing at the end of the postings and flushing -/
def appendPst (b : List UInt8) : W Unit := fun s => match s.pst with
  | none => W.fail s
  | some x => ⟨(tornStates x b).map fun y => { s with pst := some y }, some (), { s with pst := some (x ++ b) }⟩
/-- writing at the end of the directory and flushing -/
def appendDct (b : List UInt8) : W Unit := fun s => match s.dct with
  | none => W.fail s
  | some x => ⟨(tornStates x b).map fun y => { s with dct := some y }, some (), { s with dct := some (x ++ b) }⟩
/-- writing at the end of the new shard -/
def appendMrg (b : List UInt8) : W Unit := fun s => match s.mrg with
  | none => W.fail s
  | some x => ⟨(tornStates x b).map fun y => { s with mrg := some y }, some (), { s with mrg := some (x ++ b) }⟩

/-- `b` written over `x` from offset `at` on -/
def overlay (off : Nat) (b x : List UInt8) : List UInt8 := x.take off ++ b ++ x.drop (off + b.length)

/-- writing over part of the new shard -/
def patchMrg (off : Nat) (b : List UInt8) : W Unit := fun s => match s.mrg with
  | none => W.fail s
  | some x => ⟨(List.range (b.length + 1)).map fun k => { s with mrg := some (overlay off (b.take k) x) },
      some (), { s with mrg := some (overlay off b x) }⟩

/-! ### The checkpoint -/

/-- hazel.cc 495-503: the records of the directory -/
def entriesOf : Nat → List UInt8 → List Entry
  | 0, _ => []
  | n + 1, b => entryOf b :: entriesOf n (b.drop 24)

/-- `hazel_read_checkpoint_directory` hazel.cc 468-505 (`none`: it returns false) -/
def readDct : W (Option (List Entry)) := do
  match ← W.see (·.dct) with
  | none => pure none
  | some b =>
    let usable := b.length - b.length % 24
    if usable ≠ b.length then truncateDct usable
    pure (some (entriesOf (usable / 24) b))

/-- hazel.cc 519-530: how many records to keep.  (`last` is the feature of the record before.) -/
def keepOf (covered : Int) (prev : Int) (last : Option Int) : List Entry → Nat
  | [] => 0
  | e :: d =>
    if e.stop < prev ∨ last.any (fun f => decide (e.feature ≤ f)) then 0
    else if e.stop > covered then 0
    else keepOf covered e.stop (some e.feature) d + 1

/-- the end of the last record: hazel.cc 536-537, 807 -/
def lastStop (d : List Entry) : Int := match d.getLast? with
  | none => headerLen
  | some e => e.stop

/-- `hazel_repair_checkpoint` hazel.cc 507-539 (`none`: it returns false) -/
def repair : W (Option (List Entry)) := do
  match ← W.see (·.pst) with
  | none => pure none
  | some pst =>
    match ← readDct with
    | none => pure none
    | some d =>
      let keep := keepOf (headerLen + pst.length) headerLen none d
      let d' := d.take keep
      if keep < d.length then truncateDct (keep * 24)
      truncatePst (if d'.isEmpty then 0 else lastStop d' - headerLen)
      pure (some d')

/-- `hazel_append_checkpoint_posting` hazel.cc 555-594 with `hazel_write_checkpoint_entry`
541-553 (`none` = `nullptr`); the entry, if one was written -/
def appendPosting (pc fc : Codec) (P : Option Posting) : W (Option Entry) :=
  match P with
  | none => pure none
  | some P =>
    if P.size = 0 then pure none
    else do
      let n ← W.see fun s => (s.pst.map List.length).getD 0
      let (z, e) ← W.ofOption (put pc fc (headerLen + n) P.feature P)
      appendPst z
      appendDct (entryBytes e)
      pure (some e)

/-- `hazel_checkpoint_posting` hazel.cc 596-634, for the first record (`none` = `nullptr`) -/
def checkpointPosting (pc fc : Codec) (pst : List UInt8) (e : Entry) : Option Posting :=
  if e.stop = headerLen then some (({ feature := e.feature } : Posting).push ⟨e.cp, e.cp, 0⟩)
  else if e.stop < headerLen then none
  else if (pst.length : Int) < e.stop - headerLen then none
  else match readBlob pc fc (pst.take (e.stop - headerLen).toNat) with
    | some P => if P.feature ≠ e.feature then none else some P
    | none => none

/-! ### The merged postings -/

/-- `has_source_feature` hazel.cc 708-715 -/
def hasFeature (idxs : List HIdx) (f : Int) : Bool := idxs.any fun H => (locate H.dir f).isSome

/-- `postings_for_feature` hazel.cc 717-732 -/
def postingsFor (pc fc : Codec) (idxs : List HIdx) (f : Int) : Option (List Posting) :=
  match idxs with
  | [] => some []
  | H :: idxs => match locate H.dir f with
    | none => postingsFor pc fc idxs f
    | some i => do
      let P ← H.postingAt pc fc i
      let Ps ← postingsFor pc fc idxs f
      return P :: Ps

/-- hazel.cc 700-706: where each shard's text starts -/
def textBases (base : Int) : List Int → List Int
  | [] => []
  | n :: ns => base :: textBases (base + n) ns

/-- hazel.cc 737-752: the pushes of `text_chunk_posting`; outer `none`: a posting cannot be
read -/
def pushChunks (pc fc : Codec) (tcf : Int) : List (HIdx × Int) → Posting → Option Posting
  | [], P => some P
  | (H, base) :: rest, P => match locate H.dir tcf with
    | none => pushChunks pc fc tcf rest P
    | some i => do
      let S ← H.postingAt pc fc i
      pushChunks pc fc tcf rest (S.anns.foldl (fun P a => P.push { a with v := a.v + base }) P)

/-- hazel.cc 868-879: the posting for one feature, with what `posting_from_merge` and
`text_chunk_posting` (734-756) return; outer `none`: the merge gives up -/
def featurePosting (pc fc : Codec) (idxs : List HIdx) (lens : List Int) (tcf : Int) (exclude : Option Posting) (f : Int) :
    Option (Option Posting) :=
  if f = tcf then do
    let P ← pushChunks pc fc tcf (idxs.zip (textBases 0 lens)) { feature := tcf }
    if P.size = 0 then none else some (some P)
  else do
    let Ps ← postingsFor pc fc idxs f
    mergeExcluding Ps exclude

/-- hazel.cc 860-863: the smallest feature any of the directories comes to next.  (A position in
a directory is modelled by what follows it.) -/
def nextFeature (rest : List (List Entry)) : Int :=
  rest.foldl (fun m d => match d.head? with | some e => min m e.feature | none => m) maxfinity

/-- hazel.cc 867-870 -/
def advance (f : Int) (d : List Entry) : List Entry := match d with
  | e :: d' => if e.feature = f then d' else d
  | [] => []

theorem foldl_min_le (rest : List (List Entry)) : ∀ m, rest.foldl (fun m d => match d.head? with | some e => min m e.feature | none => m) m ≤ m ∧
    (rest.foldl (fun m d => match d.head? with | some e => min m e.feature | none => m) m = m ∨
      ∃ d ∈ rest, ∃ e, d.head? = some e ∧
        e.feature = rest.foldl (fun m d => match d.head? with | some e => min m e.feature | none => m) m) := by
  induction rest with
  | nil => intro m; exact ⟨Int.le_refl _, Or.inl rfl⟩
  | cons d rest ih =>
    intro m
    simp only [List.foldl_cons]
    cases hd : d.head? with
    | none =>
      obtain ⟨h1, h2⟩ := ih m
      exact ⟨h1, h2.imp_right fun ⟨d', a, b⟩ => ⟨d', by simp [a], b⟩⟩
    | some e =>
      obtain ⟨h1, h2⟩ := ih (min m e.feature)
      refine ⟨by simp only; omega, ?_⟩
      rcases h2 with h2 | ⟨d', a, b⟩
      · simp only [h2]
        by_cases hm : m ≤ e.feature
        · left; omega
        · right; exact ⟨d, by simp, e, hd, by omega⟩
      · right; exact ⟨d', by simp [a], b⟩

theorem nextFeature_mem {rest : List (List Entry)} (h : nextFeature rest ≠ maxfinity) :
    ∃ d ∈ rest, ∃ e, d.head? = some e ∧ e.feature = nextFeature rest :=
  ((foldl_min_le rest maxfinity).2).resolve_left h

theorem advance_le (f : Int) (d : List Entry) : (advance f d).length ≤ d.length := by
  unfold advance
  cases d with
  | nil => simp
  | cons e d => simp only; split <;> simp

theorem advance_sum (rest : List (List Entry)) (h : nextFeature rest ≠ maxfinity) :
    ((rest.map (advance (nextFeature rest))).map List.length).sum < (rest.map List.length).sum := by
  obtain ⟨d, hd, e, he, hf⟩ := nextFeature_mem h
  generalize nextFeature rest = f at hf
  clear h
  have le : ∀ l : List (List Entry), ((l.map (advance f)).map List.length).sum ≤ (l.map List.length).sum := by
    intro l
    induction l with
    | nil => simp
    | cons x l ih => have := advance_le f x; simp only [List.map_cons, List.sum_cons]; omega
  induction rest with
  | nil => simp at hd
  | cons x l ih =>
    simp only [List.map_cons, List.sum_cons]
    rcases List.mem_cons.1 hd with rfl | hd
    · have := le l
      have : (advance f d).length < d.length := by
        cases d with
        | nil => simp at he
        | cons e' d => simp at he; subst he; simp [advance, hf]
      omega
    · have := ih hd
      have := advance_le f x
      omega

/-- hazel.cc 867-870 for every directory -/
def advanceAll (rest : List (List Entry)) : List (List Entry) := rest.map (advance (nextFeature rest))

/-- hazel.cc 859-892: the loop over the features -/
def mergeLoop (pc fc : Codec) (idxs : List HIdx) (lens : List Int) (tcf : Int) (exclude : Option Posting)
    (rest : List (List Entry)) : W Unit :=
  if _h : nextFeature rest = maxfinity then pure ()
  else do
    let P ← W.ofOption (featurePosting pc fc idxs lens tcf exclude (nextFeature rest))
    let _ ← appendPosting pc fc P
    mergeLoop pc fc idxs lens tcf exclude (advanceAll rest)
termination_by (rest.map List.length).sum
decreasing_by exact advance_sum rest (by assumption)

/-- hazel.cc 799-803: whether to start again -/
def mustReset (sourceHasNull : Bool) (d : Option (List Entry)) : Bool :=
  match d with
  | none => true
  | some d =>
    let frontNull := d.head?.any fun e => e.feature == nullFeature
    (sourceHasNull && !frontNull) || (!sourceHasNull && frontNull)

/-- hazel.cc 792-813: the checkpoint to go on from -/
def openCheckpoint (sourceHasNull : Bool) : W (List Entry) := do
  let d ← repair
  if mustReset sourceHasNull d then do
    resetCheckpoints
    pure []
  else do
    let d := d.getD []
    truncatePst (if d.isEmpty then 0 else lastStop d - headerLen)
    pure d

/-- hazel.cc 815-825: the erasures, if the checkpoint has them -/
def savedErasures (pc fc : Codec) (d : List Entry) : W (List Entry × Option Posting) :=
  match d with
  | [] => pure ([], none)
  | e :: _ =>
    if e.feature = nullFeature then do
      let pst ← W.see fun s => s.pst.getD []
      match checkpointPosting pc fc pst e with
      | some P => pure (d, some P)
      | none => do
        resetCheckpoints
        pure ([], none)
    else pure (d, none)

/-- hazel.cc 832-845: the erasures, merged and written first if they are not there yet -/
def writeErasures (pc fc : Codec) (idxs : List HIdx) (d : List Entry) (exclude : Option Posting) :
    W (List Entry × Option Posting) :=
  if d.isEmpty && hasFeature idxs nullFeature then do
    let Ps ← W.ofOption (postingsFor pc fc idxs nullFeature)
    let E := mergePostings Ps
    let e ← appendPosting pc fc E
    pure (d ++ e.toList, E)
  else pure (d, exclude)

/-- hazel.cc 893-928: the blob from the complete checkpoint -/
def finalBlob : W (List UInt8) := do
  let pst ← W.see fun s => s.pst.getD []
  let dct ← W.see fun s => s.dct.getD []
  if dct.length % 24 ≠ 0 then W.fail
  else
    pure (idxMagic ++ addrsBytes [headerLen + pst.length, dct.length, (dct.length / 24 : Nat)] ++ pst ++ dct)

/-- hazel.cc 851-852 -/
def lastFeature (d : List Entry) : Int := match d.getLast? with | none => nullFeature | some e => e.feature

/-- `HazelIdx::merge` hazel.cc 661-928; the bytes of the index.  (The checks of the arguments,
669-697, are not modelled.) -/
def mergeIdx (pc fc : Codec) (idxs : List HIdx) (lens : List Int) (tcf : Int) : W (List UInt8) := do
  let d ← openCheckpoint (hasFeature idxs nullFeature)
  let (d, exclude) ← savedErasures pc fc d
  let (d, exclude) ← writeErasures pc fc idxs d exclude
  mergeLoop pc fc idxs lens tcf exclude (idxs.map fun H => H.dir.dropWhile fun e => e.feature ≤ lastFeature d)
  finalBlob

/-- `hazel_cleanup_merge_sidecars` hazel.cc 1518-1528.  (Files of an older naming scheme, 1472-1516,
are not modelled.) -/
def cleanup : W Unit := do
  W.step fun s => { s with mrg := none }
  W.step fun s => { s with pst := none }
  W.step fun s => { s with dct := none }

/-- what a merge is given: the indexes of the shards, in order of their ranges, the lengths of
their texts, the feature of text chunks, the DNA of the merged shard (1704-1735) and the merged
text blob (`HazelTxt::merge`), which depend on the sources only -/
structure Job where
  pc : Codec
  fc : Codec
  idxs : List HIdx
  lens : List Int
  tcf : Int
  dna : List UInt8
  txt : List UInt8

/-- `Hazel::merge` hazel.cc 1911-2088.  (Checking the sources, 1944-2020, is not modelled; nor
are failing disk operations.) -/
def mergeRun (J : Job) : W Unit := do
  if (← W.see (·.dst)).isSome then cleanup
  else
    W.step fun s => { s with mrg := none }
    W.step fun s => { s with mrg := some [] }
    let head := fileMagic ++ J.dna ++ [10]
    let zeros := blobDictionary [⟨idxName, 0, 0⟩, ⟨txtName, 0, 0⟩]
    appendMrg (head ++ zeros)
    let i := head.length + zeros.length
    let idx ← mergeIdx J.pc J.fc J.idxs J.lens J.tcf
    appendMrg idx
    appendMrg J.txt
    patchMrg head.length (blobDictionary [⟨idxName, i, idx.length⟩, ⟨txtName, i + idx.length, J.txt.length⟩])
    W.step fun s => if s.dst.isSome then s else { s with dst := s.mrg }
    cleanup

end Verif.Hazel
