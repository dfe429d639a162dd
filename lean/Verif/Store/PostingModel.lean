import Verif.Store.PostModel
import Verif.Store.TfdfModel
import Verif.Hopper.Model
/-
  Model of src/simple_posting.cc: posting lists, their construction, merging and storage.
-/
namespace Verif.Store
open Verif.Hopper

/-- `v != 0.0` is false for both zeros; `-0.0` has the bit pattern of `minfinity` -/
def isZero (v : Int) : Bool := v == 0 || v == minfinity

/-- `src/simple_posting.h:47-52`: the feature and three parallel arrays, of which
`qostings_` and `fostings_` may be left empty.  (The `CacheGate` is not modelled here.) -/
structure Posting where
  feature : Int
  ps : List Int := []
  qs : List Int := []
  fs : List Int := []
deriving DecidableEq, Repr

/-- `src/simple_posting.h:29` -/
def Posting.size (P : Posting) : Nat := P.ps.length

/-- `src/simple_posting.cc:483-498` `get`; reading beyond an array is `none` too -/
def Posting.get (P : Posting) (i : Nat) : Option Ann :=
  if i < P.ps.length then do
    let p ← P.ps[i]?
    let q ← if P.qs.length > 0 then P.qs[i]? else some p
    let v ← if P.fs.length > 0 then P.fs[i]? else some 0
    return ⟨p, q, v⟩
  else none

/-- `src/simple_posting.cc:500-516` `push` -/
def Posting.push (P : Posting) (a : Ann) : Posting :=
  let qs := if a.p < a.q then (if P.qs.length = 0 then P.ps else P.qs) ++ [a.q]
    else if P.qs.length > 0 then P.qs ++ [a.p] else P.qs
  let fs := if !isZero a.v then
      (if P.fs.length = 0 then List.replicate P.ps.length 0 else P.fs) ++ [a.v]
    else if P.fs.length > 0 then P.fs ++ [0] else P.fs
  { P with ps := P.ps ++ [a.p], qs := qs, fs := fs }

/-- `std::vector::resize(n, 0.0)` -/
def resize0 (n : Nat) (l : List Int) : List Int := l.take n ++ List.replicate (n - l.length) 0

/-- `src/simple_posting.cc:446-481` `append` -/
def Posting.append (P M : Posting) : Posting :=
  let qs := if P.qs.length > 0 then
      (if M.qs.length > 0 then P.qs ++ M.qs else P.qs ++ M.ps)
    else if M.qs.length > 0 then P.ps ++ M.qs else P.qs
  let fs := if P.fs.length > 0 then
      (if M.fs.length > 0 then P.fs ++ M.fs else resize0 (P.ps.length + M.ps.length) P.fs)
    else if M.fs.length > 0 then resize0 P.ps.length P.fs ++ M.fs else P.fs
  { P with ps := P.ps ++ M.ps, qs := qs, fs := fs }

/-- `src/simple_posting.cc:574-601` `invariants` -/
def Posting.invariants (P : Posting) : Bool :=
  (P.qs.length == 0 || P.qs.length == P.ps.length) &&
  (P.fs.length == 0 || P.fs.length == P.ps.length) &&
  decide (P.ps.Pairwise (· ≤ ·)) && decide (P.qs.Pairwise (· ≤ ·)) &&
  (P.qs.length == 0 || (P.ps.zip P.qs).all fun x => x.1 ≤ x.2)

/-! ### construction -/

/-- `src/simple_posting.cc:20-38` `posting_from_tokens`, for the addresses of one run of
tokens of one feature.  (The assertion that addresses do not decrease is not modelled.) -/
def fromTokens (feature : Int) (addrs : List Int) : Posting :=
  { feature := feature,
    ps := addrs.foldl (fun ps a => match ps.getLast? with
      | none => ps ++ [a]
      | some b => if a > b then ps ++ [a] else ps) [] }

/-- one turn of the loop `src/simple_posting.cc:53-66`: the arrays and the two flags -/
structure Building where
  ps : List Int := []
  qs : List Int := []
  fs : List Int := []
  clearQ : Bool := true
  clearF : Bool := true

/-- `src/simple_posting.cc:54-58`: the two flags -/
def Building.flags (b : Building) (a : Ann) : Building :=
  { b with clearQ := b.clearQ && !decide (a.p < a.q), clearF := b.clearF && isZero a.v }

/-- `src/simple_posting.cc:60-64`: the three `push_back`s -/
def Building.put (b : Building) (a : Ann) : Building :=
  { b with ps := b.ps ++ [a.p], qs := b.qs ++ [a.q], fs := b.fs ++ [a.v] }

/-- `src/simple_posting.cc:54-66` -/
def Building.add (b : Building) (a : Ann) : Building :=
  if a.p ≤ a.q then
    match b.ps.getLast?, b.qs.getLast? with
    | some p, some q => if a.p ≥ p ∧ a.q ≥ q then (b.flags a).put a else b.flags a
    | _, _ => (b.flags a).put a
  else b

/-- `src/simple_posting.cc:40-72` `posting_from_annotations`: consumes the run of
annotations with the feature of the first, and returns the rest. -/
def fromAnnotations : List (Int × Ann) → Option (Posting × List (Int × Ann))
  | [] => none
  | (f, a) :: l =>
    let run := ((f, a) :: l).takeWhile fun x => x.1 == f
    let b : Building := run.foldl (fun (b : Building) x => b.add x.2) {}
    some ({ feature := f, ps := b.ps, qs := if b.clearQ then [] else b.qs,
            fs := if b.clearF then [] else b.fs },
          ((f, a) :: l).dropWhile fun x => x.1 == f)

/-! ### merging -/

/-- `src/simple_posting.cc:312-347` `Element`: index of the list, current element, and the
elements after it -/
structure Elem where
  index : Nat
  a : Ann
  rest : List Ann

/-- `src/simple_posting.cc:349-358` `Compare`, negated: `x` comes out of the queue before
`y`.  (The C++ comparator also answers true for an element against itself; the queue never
compares an element with itself, indices being distinct.) -/
def before (x y : Elem) : Bool :=
  x.a.q < y.a.q || (x.a.q == y.a.q && (x.a.p > y.a.p || (x.a.p == y.a.p && x.index > y.index)))

/-- `queue.top()` and `queue.pop()`: the element that comes before the others -/
def popTop : List Elem → Option (Elem × List Elem)
  | [] => none
  | e :: es => match popTop es with
    | none => some (e, [])
    | some (m, r) => if before e m then some (e, m :: r) else some (m, e :: r)

/-- `src/simple_posting.cc:332-344` `next()` and `queue.push(e)` if there is a next -/
def requeue (e : Elem) (q : List Elem) : List Elem :=
  match e.rest with
  | [] => q
  | a :: rest => { e with a := a, rest := rest } :: q

/-- the order in which the loop `while (queue.size() > 0)` sees the elements
(`src/simple_posting.cc:432-441`); what it does with an element does not influence the
queue.  The first argument bounds the number of turns by the number of elements. -/
def drain : Nat → List Elem → List (Nat × Ann)
  | 0, _ => []
  | n + 1, q => match popTop q with
    | none => []
    | some (e, q) => (e.index, e.a) :: drain n (requeue e q)

/-- the elements of a posting, in order (`get` for each index) -/
def Posting.anns (P : Posting) : List Ann := (List.range P.size).filterMap P.get

/-- `src/simple_posting.cc:428-430` -/
def mkQueue : Nat → List Posting → List Elem
  | _, [] => []
  | i, P :: Ps => match P.anns with
    | [] => mkQueue (i + 1) Ps
    | a :: rest => ⟨i, a, rest⟩ :: mkQueue (i + 1) Ps

/-- total number of elements -/
def total (Ps : List Posting) : Nat := (Ps.map Posting.size).sum

/-- `src/simple_posting.cc:432-442`: `k` and the merged posting -/
def keepRising (k : Int) (P : Posting) : List (Nat × Ann) → Posting
  | [] => P
  | (_, a) :: l => if a.p > k then keepRising a.p (P.push a) l else keepRising k P l

/-- `src/simple_posting.cc:402-413` -/
def canAppend : List Posting → Bool
  | P :: Q :: Ps =>
    (match P.get (P.size - 1), Q.get 0 with
     | some a, some b => decide (a.p < b.p) && decide (a.q < b.q)
     | _, _ => true) && canAppend (Q :: Ps)
  | _ => true

/-- `src/simple_posting.cc:395-444` `posting_from_merge` without exclusions -/
def mergePostings (Ps : List Posting) : Option Posting :=
  match Ps with
  | [] => none
  | [P] => some P
  | P :: _ =>
    if canAppend Ps then
      some (Ps.foldl (fun acc Q => Q.anns.foldl Posting.push acc) { feature := P.feature })
    else
      some (keepRising minfinity { feature := P.feature } (drain (total Ps) (mkQueue 0 Ps)))

/-- `src/simple_posting.cc:378-389`: `k`, `px`, `qx`, and the merged posting; `X` is the
hopper over the exclusions -/
def keepOutside (X : Obj) (k px qx : Int) (P : Posting) : List (Nat × Ann) → M X.σ Posting
  | [] => return P
  | (_, a) :: l =>
    if a.p > k then do
      let (px, qx) ← (if qx < a.q then do let r ← X.rho a.q; pure (r.p, r.q) else pure (px, qx))
      keepOutside X a.p px qx (if px > a.p then P.push a else P) l
    else keepOutside X k px qx P l

/-- the arrays `ArrayHopper::bind` takes from a posting (`src/array_hopper.cc:203-219`) -/
def Posting.arrays (P : Posting) : Arrays :=
  { ps := P.ps, qs := if P.qs.length = 0 then P.ps else P.qs,
    vs := if P.fs.length = 0 then none else some P.fs }

/-- `src/simple_posting.cc:362-393` `posting_from_merge` with exclusions (outer `none`: an
assertion, overflow or bad read inside the hopper; inner `none`: `nullptr`) -/
def mergeExcluding (Ps : List Posting) (exclude : Option Posting) : Option (Option Posting) :=
  match Ps with
  | [] => some none
  | P :: _ =>
    match exclude with
    | none => some (mergePostings Ps)
    | some E =>
      if E.size = 0 then some (mergePostings Ps)
      else do
        let X := arrayObj E.arrays
        let (R, _) ← keepOutside X minfinity minfinity minfinity { feature := P.feature }
          (drain (total Ps) (mkQueue 0 Ps)) X.init
        return if R.size = 0 then none else some R

/-! ### storage -/

/-- `src/compressor.h:18-49`; `none` stands for an assertion failure or never ending -/
structure Codec where
  crush : List UInt8 → Option (List UInt8)
  tang : List UInt8 → Nat → Option (List UInt8)

/-- the `post` compressor -/
def postCodec : Codec := ⟨postCrush, postTang⟩
/-- the `null` compressor (`src/null_compressor.h:37-46`) -/
def nullCodec : Codec := ⟨fun b => some b, fun b n => some (b.take n)⟩
/-- `src/bad_compressor.h:37-45` -/
def badCrush (input : List UInt8) : List UInt8 := input.flatMap fun b => [b, b]
/-- `src/bad_compressor.h:46-54` -/
def badTang : List UInt8 → Option (List UInt8)
  | [] => some []
  | [_] => none
  | b :: c :: l => if b = c then (badTang l).map (b :: ·) else none
/-- the `bad` compressor -/
def badCodec : Codec :=
  ⟨fun b => some (badCrush b), fun b n => if n ≥ b.length / 2 then badTang b else none⟩

/-- `src/simple_posting.cc:518-572` `write`: the bytes appended to the file -/
def Posting.write (pc fc : Codec) (P : Posting) : Option (List UInt8) :=
  let n := P.ps.length
  if n = 0 then some (addrsBytes [P.feature, 0, 0, 0, 0])
  else do
    let pz ← pc.crush (addrsBytes P.ps)
    let qz ← (if P.qs.length ≠ 0 then (if P.qs.length = n then pc.crush (addrsBytes P.qs) else none)
      else some [])
    let fz ← (if P.fs.length ≠ 0 then (if P.fs.length = n then fc.crush (addrsBytes P.fs) else none)
      else some [])
    return addrsBytes [P.feature, n, pz.length, qz.length, fz.length] ++ pz ++ qz ++ fz

/-- `f->read(buffer, n)`: fails at the end of the file -/
def readN (n : Nat) (s : List UInt8) : Option (List UInt8 × List UInt8) :=
  if n ≤ s.length then some (s.take n, s.drop n) else none

/-- decompress one array of exactly `n` elements (`src/simple_posting.cc:276-284` and its
two repetitions; the assertion on the size is `none`) -/
def tangArray (c : Codec) (z : List UInt8) (n : Nat) : Option (List Int) := do
  let t ← c.tang z (8 * n)
  if t.length = 8 * n then some (bytesAddrs n t) else none

/-- `src/simple_posting.cc:257-309` `posting_from_file`: the posting and the rest of the
file -/
def readFile (pc fc : Codec) (s : List UInt8) : Option (Posting × List UInt8) := do
  let (h, s) ← readN 40 s
  match bytesAddrs 5 h with
  | [feature, n, pst, qst, fst] =>
    if n = 0 then some ({ feature := feature }, s)
    else do
      let (pz, s) ← readN pst.toNat s
      let ps ← tangArray pc pz n.toNat
      let (qs, s) ← (if qst > 0 then do
          let (qz, s) ← readN qst.toNat s
          let qs ← tangArray pc qz n.toNat
          pure (qs, s)
        else pure ([], s))
      let (fs, s) ← (if fst > 0 then do
          let (fz, s) ← readN fst.toNat s
          let fs ← tangArray fc fz n.toNat
          pure (fs, s)
        else pure ([], s))
      return ({ feature := feature, ps := ps, qs := qs, fs := fs }, s)
  | _ => none

/-- `src/simple_posting.cc:82-158` `posting_from_compressed_blob` (`none` = `nullptr`) -/
def readBlob (pc fc : Codec) (data : List UInt8) : Option Posting :=
  let length : Int := data.length
  if length < 40 then none
  else match bytesAddrs 5 data with
    | [feature, n, pst, qst, fst] =>
      if n < 0 ∨ pst < 0 ∨ qst < 0 ∨ fst < 0 then none
      else if pst > length - 40 then none
      else
        let qoffset := 40 + pst
        if qst > length - qoffset then none
        else
          let foffset := qoffset + qst
          if fst > length - foffset then none
          else if n = 0 then some { feature := feature }
          else do
            let ps ← tangArray pc ((data.drop 40).take pst.toNat) n.toNat
            let qs ← (if qst > 0 then
                tangArray pc ((data.drop qoffset.toNat).take qst.toNat) n.toNat else some [])
            let fs ← (if fst > 0 then
                tangArray fc ((data.drop foffset.toNat).take fst.toNat) n.toNat else some [])
            return { feature := feature, ps := ps, qs := qs, fs := fs }
    | _ => none

/-- `src/simple_posting.cc:160-255` `cache_entry_from_compressed_blob`: the arrays put in a
cache line whose expected length is `m` -/
def readCache (pc fc : Codec) (m : Int) (data : List UInt8) : Option Arrays :=
  match bytesAddrs 5 data with
  | _ :: n :: _ =>
    if (data.length : Int) < 40 then none
    else if n ≠ m then none
    else (readBlob pc fc data).map Posting.arrays
  | _ => none

end Verif.Store
