import Verif.Terms.Spec
import Verif.Hopper.Model2
/-
  Model of the programs that compute term statistics: `TfIdfForager` (meadowlark/tf-idf_forager.cc),
  `forage` (meadowlark/meadowlark.cc), `tf_annotations` and `tf_df_annotations` (src/ranking.cc);
  and of those that read them: `TfIdfStats` (meadowlark/tf-idf_stats.cc) and `DfStats`
  (src/df_stats.cc).
-/
namespace Verif.Terms
open Verif.Hopper

/-- `it = m.find(k); if (it == m.end()) m[k] = 1; else it->second++` of a `std::map`, as a list of
its entries; the order of the entries is not that of the map. -/
def bump {κ : Type} [DecidableEq κ] (k : κ) : List (κ × Int) → List (κ × Int)
  | [] => [(k, 1)]
  | (j, n) :: m => if j = k then (j, n + 1) :: m else (j, n) :: bump k m

/-- `src/annotator.h:26-46` `annotate`: nothing is kept for the null feature -/
def annotate (f p v : Int) (notes : List Note) : List Note := if f ≤ 0 then notes else notes ++ [⟨f, p, v⟩]

section
variable {Tok Stem : Type} [DecidableEq Tok] [DecidableEq Stem]

/-- What the programs use: `read p q` is `tokenizer->split(txt->translate(p, q))`. -/
structure Env (Tok Stem : Type) where
  read : Int → Int → List Tok
  stem : Tok → Stem
  F : Features Stem

variable (E : Env Tok Stem)

/-! ### the forager -/

/-- `meadowlark/tf-idf_forager.h:38-43`: `p_min_`, `total_items_`, `total_length_`, `df_`, `stems_`;
with the annotations made so far in the transaction -/
structure Forager (Tok Stem : Type) where
  pmin : Int := maxfinity
  items : Int := 0
  length : Int := 0
  df : List (Int × Int) := []
  stems : List (Tok × Stem) := []
  notes : List Note := []

/-- `meadowlark/tf-idf_forager.cc:67-83`: the counts of the tokens' stems; `stems_` remembers the
stems -/
def countTokens : List Tok → List (Tok × Stem) → List (Stem × Int) → List (Tok × Stem) × List (Stem × Int)
  | [], c, tf => (c, tf)
  | t :: ts, c, tf => match c.lookup t with
    | some s => countTokens ts c (bump s tf)
    | none => countTokens ts ((t, E.stem t) :: c) (bump (E.stem t) tf)

/-- `meadowlark/tf-idf_forager.cc:84-96` -/
def noteDoc (p : Int) : List (Stem × Int) → List (Int × Int) → List Note → List (Int × Int) × List Note
  | [], df, notes => (df, notes)
  | (s, n) :: tf, df, notes => noteDoc p tf (bump (E.F.df s) df) (annotate (E.F.tf s) p n notes)

/-- `meadowlark/tf-idf_forager.cc:56-98` `forage_`; `none` is `return false`.  Annotating does not
fail. -/
def forageOne (p q : Int) (g : Forager Tok Stem) : Option (Forager Tok Stem) :=
  if p > q ∨ p = minfinity ∨ q = maxfinity then none
  else
    let c := countTokens E (E.read p q) g.stems []
    let r := noteDoc E p c.2 g.df g.notes
    some { pmin := min g.pmin p, items := g.items + 1, length := g.length + (q - p + 1),
           df := r.1, stems := c.1, notes := r.2 }

/-- `meadowlark/forager.h:46-53` `forage`: the intervals from `start` on, `n` of them (`l` are these
intervals) -/
def forageList : List (Int × Int) → Forager Tok Stem → Option (Forager Tok Stem)
  | [], g => some g
  | (p, q) :: l, g => match forageOne E p q g with
    | none => none
    | some g => forageList l g

/-- annotate all of `df` at `p` (`meadowlark/tf-idf_forager.cc:103-106`) -/
def noteDf (p : Int) (df : List (Int × Int)) (notes : List Note) : List Note :=
  df.foldl (fun notes x => annotate x.1 p x.2 notes) notes

/-- `meadowlark/tf-idf_forager.cc:100-114` `ready_`, after which the annotations are committed -/
def ready (g : Forager Tok Stem) : List Note :=
  if g.pmin = maxfinity then g.notes
  else
    annotate E.F.length g.pmin g.length (annotate E.F.items g.pmin g.items (noteDf g.pmin g.df g.notes))

/-- `meadowlark/meadowlark.cc:440-477`, a worker: what it commits, or `none` if it gives up.  The
label of the first worker, which is text, is left out. -/
def worker (l : List (Int × Int)) : Option (List Note) := (forageList E l {}).map (ready E)

/-- `meadowlark/meadowlark.cc:288-297` `thread_count`; `cores` is `hardware_concurrency()` -/
def threadCount (cores threads count : Nat) : Nat :=
  let threads := if count ≤ 64 * 1024 then 1 else threads
  if threads = 0 then cores + 1 else threads

/-- `meadowlark/meadowlark.cc:479-486`: the intervals of workers `i`, …, `threads - 1`; `start` are
those not yet given out -/
def shares {α : Type} (size split threads : Nat) (intervals : List α) : Nat → Nat → Nat → List (List α)
  | 0, _, _ => []
  | left + 1, i, start =>
    let n := if i = threads - 1 then size - start else split
    ((intervals.drop start).take n) :: shares size split threads intervals left (i + 1) (start + split)

/-- `meadowlark/meadowlark.cc:421-489` `forage`: what each worker does.  `none` for one is that the
whole returns false. -/
def forage (cores threads : Nat) (intervals : List (Int × Int)) : List (Option (List Note)) :=
  if intervals.length = 0 then []
  else
    let threads := threadCount cores threads intervals.length
    (shares intervals.length (intervals.length / threads) threads intervals threads 0 0).map (worker E)

/-- `meadowlark/meadowlark.cc:513-514`: `for (hopper->tau(p, &p, &q); q < end; hopper->tau(p + 1, &p, &q))` -/
def collect {σ} (tau : Int → M σ Ann) (stop : Int) : Nat → Int → M σ (List (Int × Int))
  | 0, _ => ub
  | fuel + 1, k => do
    let r ← tau k
    if r.q < stop then
      let k' ← ck (r.p + 1)
      let rest ← collect tau stop fuel k'
      return (r.p, r.q) :: rest
    else return []

/-- `meadowlark/meadowlark.cc:499-520` `forage` of the solutions of a query in `[start, stop]`: the
intervals -/
def intervals (H : Obj) (start stop : Int) : Option (List (Int × Int)) :=
  let stop := if stop < maxfinity then stop + 1 else maxfinity
  let p := if start = minfinity then minfinity + 1 else start
  ((collect H.tau stop (loopFuel) p) H.init).map Prod.fst

/-! ### over the whole of a text -/

/-- `src/ranking.cc:900-901` and `805-807`: `tokens[j - ps[0]]` for `j` in `[p, q]` (`n` of them);
`none` is an access past the end -/
def slice (tokens : List Tok) (base : Int) : Nat → Int → Option (List Tok)
  | 0, _ => some []
  | n + 1, j => match tokens[(j - base).toNat]? with
    | none => none
    | some t => (slice tokens base n (j + 1)).map (t :: ·)

/-- `src/ranking.cc:899-907`: the counts of the stems of tokens -/
def countStems (l : List Tok) : List (Stem × Int) := l.foldl (fun tf t => bump (E.stem t) tf) []

/-- `src/ranking.cc:898-922`: the documents `batch` (`ps`, `qs`), whose text from the first to the
last is `tokens` -/
def batchDocs (tokens : List Tok) (base : Int) : List (Int × Int) → List (Int × Int) → List Note →
    Option (List (Int × Int) × List Note)
  | [], df, notes => some (df, notes)
  | (p, q) :: l, df, notes => match slice tokens base (q - p + 1).toNat p with
    | none => none
    | some ts =>
      let r := noteDoc E p (countStems E ts) df notes
      batchDocs tokens base l r.1 r.2

/-- `src/ranking.cc:895-925` and `799-823`: the batch, if there is one -/
def flush (batch : List (Int × Int)) (df : List (Int × Int)) (notes : List Note) :
    Option (List (Int × Int) × List Note) :=
  match batch.head?, batch.getLast? with
  | some a, some b => batchDocs E (E.read a.1 b.2) a.1 batch df notes
  | _, _ => some (df, notes)

/-- `src/ranking.cc:884` and `786`: `HUGE` -/
abbrev HUGE : Int := 1014 * 1024

/-- `src/ranking.cc:887-926`: the loop of `tf_df_annotations` over the solutions `l` of the content
query (enumerated by `tauAll`); `batch` are the documents not yet counted.  `none` is an access past
the end of the tokens. -/
def dfLoop (huge : Int) : List Ann → Int → Int → List (Int × Int) → List (Int × Int) → List Note →
    Option (Int × Int × List (Int × Int) × List Note)
  | [], items, length, batch, df, notes => (flush E batch df notes).map fun r => (items, length, r)
  | d :: l, items, length, batch, df, notes =>
    let items := items + 1
    let length := length + (d.q - d.p + 1)
    let batch := batch ++ [(d.p, d.q)]
    match batch.head? with
    | some a =>
      if d.q - a.1 > huge then match flush E batch df notes with
        | none => none
        | some r => dfLoop huge l items length [] r.1 r.2
      else dfLoop huge l items length batch df notes
    | none => none

/-- `src/ranking.cc:855-959` `tf_df_annotations`: what it commits.  `none` is an access past the end,
`some none` is `return false`. -/
def tfDfAnnotations (huge : Int) (D : List Ann) : Option (Option (List Note)) :=
  match dfLoop E huge D 0 0 [] [] [] with
  | none => none
  | some (items, length, df, notes) =>
    if items = 0 then some none
    else some (some (annotate E.F.length 0 length (annotate E.F.items 0 items (noteDf 0 df notes))))

/-- `src/ranking.cc:788-824`: the loop of `tf_annotations`, from `start` on (`l` are the solutions of
the content query that start there or later): it stops at the first that ends after `stop`, and
counts a batch when it is large or when a document ends at `stop` -/
def tfLoop (huge stop : Int) : List Ann → Int → Int → List (Int × Int) → List Note → Option (Int × Int × List Note)
  | [], items, length, _, notes => some (items, length, notes)
  | d :: l, items, length, batch, notes =>
    if d.q ≤ stop then
      let items := items + 1
      let length := length + (d.q - d.p + 1)
      let batch := batch ++ [(d.p, d.q)]
      match batch.head? with
      | some a =>
        if d.q ≥ stop ∨ d.q - a.1 > huge then match flush E batch [] notes with
          | none => none
          | some r => tfLoop huge stop l items length [] r.2
        else tfLoop huge stop l items length batch notes
      | none => none
    else some (items, length, notes)

/-- `src/ranking.cc:761-852` `tf_annotations`: what it commits -/
def tfAnnotations (huge start stop : Int) (D : List Ann) : Option (Option (List Note)) :=
  match tfLoop E huge stop (D.filter fun d => decide (start ≤ d.p)) 0 0 [] [] with
  | none => none
  | some (items, length, notes) =>
    if items = 0 then some none
    else some (some (annotate E.F.length start length (annotate E.F.items start items notes)))

end

/-! ### reading the statistics -/

/-- `src/df_stats.cc:35-38` and `49-52`, `meadowlark/tf-idf_stats.cc:108-111` and `128-131`: the values of
a hopper's solutions, added up -/
def sumAll (H : Obj) : Option Int :=
  ((tauAll H.tau (loopFuel) (minfinity + 1)) H.init).map fun r => (r.1.map Ann.v).sum

/-- `src/df_stats.cc:30-57` and `meadowlark/tf-idf_stats.cc:99-139`: `items_` and `length`, whose quotient
is the average; `some none` is that the statistics cannot be had -/
def readTotals (items length : Obj) : Option (Option (Int × Int)) :=
  match sumAll items with
  | none => none
  | some n =>
    if n < 1 then some none
    else match sumAll length with
      | none => none
      | some m => if m < 1 then some none else some (some (n, m))

/-- `src/df_stats.cc:106-114` and `meadowlark/tf-idf_stats.cc:178-186` `rsj_`: of the number of documents
and of those that have the term; `log` is the logarithm -/
def rsj (log : Rat → Rat) (items df : Int) : Rat :=
  if df = 0 then 0
  else
    let r := log ((items - df + 1 / 2) / (df + 1 / 2))
    if r < 0 then 0 else r

end Verif.Terms
