import Verif.Scribing.Proof
import Verif.Props.Json
/-
  C55: scribing files is one whole transaction for each file, in order.

  The specification is `fileTxn` (what a file should leave in the index), `Cut` (a text and its
  lines) and `linesTxn` (the documents of the lines, scribed in order, C34 says how, and the
  name of the file over all of them).
-/
namespace Verif.Props
open Verif.Text Verif.Json Verif.Hopper
open Verif.Scribing (Rules World Grants Cut linesTxn scribeFiles scribeJsonl Pair commitAll pathOf fileTag filenameTag contentTag)

/-- A file that is scribed: its name and then its content, which are marked as `filename:` and
`content:`, and together as `file:`. -/
def fileTxn (T : Tokenizer) (name content : Text) : Scribe :=
  let n : Int := T.addresses name
  let m : Int := T.addresses content
  { app := App.all T {} [name, content]
    notes := [⟨fileTag, 0, n + m - 1, .zero⟩, ⟨filenameTag, 0, n - 1, .zero⟩, ⟨contentTag, n, n + m - 1, .zero⟩] }

/-- The names and contents are texts that can be stored next to each other (C27), with at least
one token. -/
def Storable (T : Tokenizer) (read : Text → Option Text) (names : List Text) : Prop :=
  ∀ n ∈ names, ∀ c, read n = some c → Clean T n ∧ 0 < T.addresses n ∧ Clean T c ∧ 0 < T.addresses c

/-- C55, files (what is missing: files that cannot be read and files without tokens, see
`C55_missing_stops`, `C55_missing_last` and `C55_empty_file` below).

When all files can be read and nothing is refused, scribing them succeeds, adds one transaction
for each file, in the order of the files, and leaves no transaction open. -/
theorem C55_files_partial {T : Tokenizer} (hT : Lawful T) {R : Rules} (hR : Grants R) {read : Text → Option Text}
    {names : List Text} (hs : Storable T read names) (hr : ∀ n ∈ names, ∃ c, read n = some c) {w : World}
    (hw : w.started = false) :
    (scribeFiles R T read names w).2 = true ∧ (scribeFiles R T read names w).1.started = false ∧
      (scribeFiles R T read names w).1.done = w.done ++ names.map fun n => fileTxn T n ((read n).getD []) := by
  have hg := Scribing.files_grants (T := T) hR names w hw hr
  obtain ⟨k, -, -, h3, h4⟩ := Scribing.files_prefix (T := T) (R := R)
    (read := fun n => if n ∈ names then read n else none)
    (txn := fun n => fileTxn T n ((read n).getD [])) (by
      intro n c st hc hf
      split at hc
      · rename_i hn
        obtain ⟨a, b, d, e⟩ := hs n hn c hc
        rw [hc]
        exact Scribing.fill_file hT ⟨a, b⟩ ⟨d, e⟩ hf
      · cases hc) names w
  have hread : ∀ (l : List Text) (w : World), (∀ n ∈ l, n ∈ names) →
      scribeFiles R T (fun n => if n ∈ names then read n else none) l w = scribeFiles R T read l w := by
    intro l
    induction l with
    | nil => intro w _; rfl
    | cons n l ih =>
      intro w hl
      rw [scribeFiles, scribeFiles, if_pos (hl n (List.mem_cons_self ..))]
      simp only [ih _ fun x hx => hl x (List.mem_cons_of_mem _ hx)]
  rw [hread names w fun _ h => h] at h3 h4
  rcases h4 hg hw with ⟨e1, e2⟩ | ⟨n, e1, e2, -⟩
  · refine ⟨hg, e2, ?_⟩
    rw [h3, e1, List.take_length]
  · have hn : n ∈ names := by rw [e1]; simp
    rw [if_pos hn] at e2
    obtain ⟨c, hc⟩ := hr n hn
    rw [hc] at e2; cases e2

/-- Whatever is refused, and wherever it stops: the transactions that were added are those of
the first files, each whole; nothing of the others is in the index.  When it says that it
succeeded, they are those of all the files, or of all but the last, which could not be read. -/
theorem C55_files_prefix {T : Tokenizer} (hT : Lawful T) {R : Rules} {read : Text → Option Text} {names : List Text}
    (hs : ∀ l, Storable T read l) {w : World} (hw : w.started = false) :
    ∃ k, k ≤ names.length ∧ (∀ n ∈ names.take k, ∃ c, read n = some c) ∧
      (scribeFiles R T read names w).1.done = w.done ++ (names.take k).map (fun n => fileTxn T n ((read n).getD [])) ∧
      ((scribeFiles R T read names w).2 = true →
        (k = names.length ∧ (scribeFiles R T read names w).1.started = false) ∨
        (∃ n, names = names.take k ++ [n] ∧ read n = none ∧ (scribeFiles R T read names w).1.started = true)) := by
  obtain ⟨k, h1, h2, h3, h4⟩ := Scribing.files_prefix (T := T) (R := R) (read := read)
    (txn := fun n => fileTxn T n ((read n).getD [])) (by
      intro n c st hc hf
      obtain ⟨a, b, d, e⟩ := hs [n] n (List.mem_cons_self ..) c hc
      rw [hc]
      exact Scribing.fill_file hT ⟨a, b⟩ ⟨d, e⟩ hf) names w
  exact ⟨k, h1, h2, h3, fun h => h4 h hw⟩

theorem small_lawful : Lawful (utf8 jsonTable) := utf8_lawful jsonTable

/-- The file `a` has the text `b c`, and `d` has `e`; there is no other file. -/
def someFiles (n : Text) : Option Text :=
  if n = [0x61] then some [0x62, 0x20, 0x63] else if n = [0x64] then some [0x65] else none

def allowAll : Rules := ⟨fun _ => true, fun _ _ => true, fun _ _ => true, fun _ _ => true, fun _ => true⟩
theorem allowAll_grants : Grants allowAll := ⟨fun _ => rfl, fun _ _ => rfl, fun _ _ => rfl, fun _ _ => rfl, fun _ => rfl⟩

theorem someFiles_storable : ∀ l, Storable (utf8 jsonTable) someFiles l := by
  intro l n _ c hc
  have hcl : ∀ s : Text, (∀ b ∈ body s, b < 0xC0) → Clean (utf8 jsonTable) s := fun s h =>
    utf8_clean jsonTable_fits.separates (complete_low h)
  unfold someFiles at hc
  split at hc
  · rename_i h; subst h; cases hc
    exact ⟨hcl _ (by decide), by decide +kernel, hcl _ (by decide), by decide +kernel⟩
  · split at hc
    · rename_i h; subst h; cases hc
      exact ⟨hcl _ (by decide), by decide +kernel, hcl _ (by decide), by decide +kernel⟩
    · cases hc

example := C55_files_partial small_lawful allowAll_grants (someFiles_storable [[0x61], [0x64]])
  (by intro n hn; simp at hn; rcases hn with rfl | rfl <;> exact ⟨_, rfl⟩) (w := {}) rfl

/-- `file:` is `a b c`, `filename:` is `a` and `content:` is `b c`. -/
example : (fileTxn (utf8 jsonTable) [0x61] [0x62, 0x20, 0x63]).notes =
    [⟨fileTag, 0, 2, .zero⟩, ⟨filenameTag, 0, 0, .zero⟩, ⟨contentTag, 1, 2, .zero⟩] := by decide +kernel

/-- A warren that refuses a second transaction: `k` is 1. -/
example := C55_files_prefix small_lawful (R := { allowAll with begins := fun d => decide (d.length < 1) })
  (names := [[0x61], [0x64]]) someFiles_storable (w := {}) rfl
example : ((scribeFiles { allowAll with begins := fun d => decide (d.length < 1) } (utf8 jsonTable) someFiles
    [[0x61], [0x64]] {}).1.done.length, (scribeFiles { allowAll with begins := fun d => decide (d.length < 1) }
    (utf8 jsonTable) someFiles [[0x61], [0x64]] {}).2) = (1, false) := by decide +kernel

/-! ### files that cannot be read, and files without tokens -/

/-- The claim fails: a file that cannot be read is passed over, but the transaction that was
begun for it stays open, and so the next file is refused.  With such a file before the last,
scribing always fails. -/
theorem C55_missing_stops {T : Tokenizer} {R : Rules} {read : Text → Option Text} {pre post : List Text} {n m : Text}
    (hn : read n = none) (w : World) : (scribeFiles R T read (pre ++ n :: m :: post) w).2 = false := by
  induction pre generalizing w with
  | nil =>
    rw [List.nil_append, scribeFiles]
    cases ht : w.transaction R with
    | none => rfl
    | some w1 =>
      simp only [hn]
      rw [scribeFiles]
      have : w1.transaction R = none := by
        unfold World.transaction; rw [if_pos (Scribing.World.transaction_some ht).2.1]
      rw [this]
  | cons x pre ih =>
    rw [List.cons_append, scribeFiles]
    cases ht : w.transaction R with
    | none => rfl
    | some w1 =>
      simp only []
      cases read x with
      | none => exact ih _
      | some c =>
        simp only []
        cases Scribing.fillFile R T x c w1.cur with
        | none => rfl
        | some st =>
          simp only []
          rcases Scribing.finish_cases (R := R) { w1 with cur := st } with h | h
          · rw [h]
          · rw [h]; exact ih _

/-- What is refused is never committed, and scribing says so: if the warren will not append the name or the content of a file, or
will not make one of its three annotations, or will not get ready, then scribing fails, and at most the files before it
are committed. -/
theorem C55_refused {T : Tokenizer} {R : Rules} {read : Text → Option Text} {pre post : List Text} {n c : Text} (hn : read n = some c)
    (h : (∀ st, R.appends st n = false) ∨ (∀ st, R.appends st c = false) ∨ (∀ st, R.annotates st fileTag = false) ∨
      (∀ st, R.annotates st filenameTag = false) ∨ (∀ st, R.annotates st contentTag = false) ∨ ∀ st, R.readies st = false)
    (w : World) : (scribeFiles R T read (pre ++ n :: post) w).2 = false ∧
      (scribeFiles R T read (pre ++ n :: post) w).1.done.length ≤ w.done.length + pre.length := by
  induction pre generalizing w with
  | nil =>
    rw [List.nil_append, scribeFiles]
    cases ht : w.transaction R with
    | none => exact ⟨rfl, Nat.le_refl _⟩
    | some w1 =>
      have hd := (Scribing.World.transaction_some ht).2.2.2
      simp only [hn]
      cases hf : Scribing.fillFile R T n c w1.cur with
      | none => exact ⟨rfl, by simp [hd]⟩
      | some st =>
        have hr : ∀ st, R.readies st = false := by
          unfold Scribing.fillFile at hf
          rcases h with h | h | h | h | h | h
          · simp [h] at hf
          · simp [h] at hf
          · simp [Scribing.note, h] at hf
          · simp [Scribing.note, h] at hf
          · simp [Scribing.note, h] at hf
          · exact h
        simp only [World.finish, hr]
        exact ⟨rfl, by simp [hd]⟩
  | cons x pre ih =>
    rw [List.cons_append, scribeFiles]
    cases ht : w.transaction R with
    | none => exact ⟨rfl, Nat.le_add_right _ _⟩
    | some w1 =>
      have hd := (Scribing.World.transaction_some ht).2.2.2
      simp only []
      cases read x with
      | none =>
        have := ih w1
        exact ⟨this.1, by have h2 := this.2; rw [hd] at h2; simp only [List.length_cons]; omega⟩
      | some c =>
        simp only []
        cases Scribing.fillFile R T x c w1.cur with
        | none => exact ⟨rfl, by simp [hd]⟩
        | some st =>
          simp only []
          rcases Scribing.finish_cases (R := R) { w1 with cur := st } with h | h
          · rw [h]; exact ⟨rfl, by simp [hd]⟩
          · rw [h]
            have := ih { started := false, cur := {}, done := w1.done ++ [st] }
            refine ⟨this.1, ?_⟩
            have h2 : (scribeFiles R T read (pre ++ n :: post) { started := false, cur := {}, done := w1.done ++ [st] }).1.done.length ≤
              (w1.done ++ [st]).length + pre.length := this.2
            rw [List.length_append, List.length_singleton, hd] at h2
            simp only [List.length_cons]
            rw [hd]
            omega

/-- A warren that makes no annotation for `content:`. -/
example := C55_refused (T := utf8 jsonTable) (R := { allowAll with annotates := fun _ t => t != contentTag }) (read := someFiles)
  (pre := []) (post := []) (n := [0x61]) rfl (.inr (.inr (.inr (.inr (.inl fun _ => by show (contentTag != contentTag) = false; decide))))) {}

/-- The claim fails: when the last file cannot be read, scribing says that it succeeded, and
leaves a transaction open; so the next transaction is refused. -/
theorem C55_missing_last :
    let r := scribeFiles allowAll (utf8 jsonTable) someFiles [[0x61], [0x7A]] {}
    someFiles [0x7A] = none ∧ r.2 = true ∧ r.1.done.length = 1 ∧ r.1.started = true ∧
      (r.1.transaction allowAll).isNone = true := by decide +kernel

/-- The claim fails: the file `a` is empty.  There is one token, at 0, but `file:` is [0,1], with
the first token of what is added next; and `content:` is [2,1]. -/
theorem C55_empty_file :
    let r := scribeFiles allowAll (utf8 jsonTable) (fun _ => some []) [[0x61]] {}
    r.2 = true ∧ r.1.done.map (·.app.address) = [1] ∧ r.1.done.map (·.notes) =
      [[⟨fileTag, 0, 1, .zero⟩, ⟨filenameTag, 0, 0, .zero⟩, ⟨contentTag, 2, 1, .zero⟩]] := by decide +kernel

/-! ### files of documents -/

/-- All the lines of the files that end in a newline are documents; `parse` is the parser of
src/nlohmann.h. -/
def LinesParse (parse : Text → Option Value) (ls : List Text) : Prop :=
  ∀ l ∈ ls, (parse (if containsNonchar l then Json.sanitize l else l)).isSome

/-- C55, files of lines (what is missing: a last line without a newline, see
`C55_last_line_lost`).

When nothing is refused, scribing succeeds exactly if all the files can be read and all their
lines are documents.  Then it adds one transaction for each file, in order, and leaves none
open. -/
theorem C55_jsonl_partial {act : Nat → Action} (hA : JsonTable act) {R : Rules} (hR : Grants R)
    {parse : Text → Option Value} (hp : ∀ s v, parse s = some v → v.Fit) {read : Text → Option Text}
    {lines : Text → List Text} {rest : Text → Text} (hc : ∀ n c, read n = some c → Cut c (lines n) (rest n))
    {names : List Text} {w : World} (hw : w.started = false) :
    ((scribeJsonl R parse (utf8 act) read names w).2 = true ↔
      ∀ n ∈ names, (read n).isSome ∧ LinesParse parse (lines n)) ∧
    ((scribeJsonl R parse (utf8 act) read names w).2 = true →
      (scribeJsonl R parse (utf8 act) read names w).1.started = false ∧
      (scribeJsonl R parse (utf8 act) read names w).1.done =
        w.done ++ names.map fun n => linesTxn parse (utf8 act) n (lines n)) := by
  have hT := utf8_lawful act
  have hok : ∀ s v, parse s = some v → ∀ x ∈ texts v, Json.Ok (utf8 act) x :=
    fun s v h x hx => Good.ok hA (texts_good hA v (hp s v h) x hx)
  obtain ⟨k, -, h2, h3, h4⟩ := Scribing.jsonl_prefix (T := utf8 act) (R := R) (parse := parse) (read := read)
    (txn := fun n => linesTxn parse (utf8 act) n (lines n))
    (fun n c st hr hf => Scribing.fill_jsonl hT hok (hc n c hr) hf) names w
  refine ⟨⟨fun h n hn => ?_, fun h => ?_⟩, fun h => ?_⟩
  · obtain ⟨e, -⟩ := h4 h
    rw [e, List.take_length] at h2
    obtain ⟨c, hr, hs⟩ := h2 n hn
    exact ⟨by rw [hr]; rfl, Scribing.fill_jsonl_isSome (hc n c hr) hs⟩
  · refine Scribing.jsonl_grants hR names w hw fun n hn => ?_
    obtain ⟨a, b⟩ := h n hn
    obtain ⟨c, hr⟩ := Option.isSome_iff_exists.1 a
    exact ⟨c, hr, Scribing.fill_jsonl_grants hR (hc n c hr) b⟩
  · obtain ⟨e, e2⟩ := h4 h
    rw [e, List.take_length] at h3
    exact ⟨e2 hw, h3⟩

/-- Whatever is refused, and wherever it stops: the transactions that were added are those of the
first files, all of whose lines are documents. -/
theorem C55_jsonl_prefix {act : Nat → Action} (hA : JsonTable act) {R : Rules}
    {parse : Text → Option Value} (hp : ∀ s v, parse s = some v → v.Fit) {read : Text → Option Text}
    {lines : Text → List Text} {rest : Text → Text} (hc : ∀ n c, read n = some c → Cut c (lines n) (rest n))
    (names : List Text) (w : World) :
    ∃ k, k ≤ names.length ∧ (∀ n ∈ names.take k, (read n).isSome ∧ LinesParse parse (lines n)) ∧
      (scribeJsonl R parse (utf8 act) read names w).1.done =
        w.done ++ (names.take k).map (fun n => linesTxn parse (utf8 act) n (lines n)) ∧
      ((scribeJsonl R parse (utf8 act) read names w).2 = true → k = names.length) := by
  have hT := utf8_lawful act
  have hok : ∀ s v, parse s = some v → ∀ x ∈ texts v, Json.Ok (utf8 act) x :=
    fun s v h x hx => Good.ok hA (texts_good hA v (hp s v h) x hx)
  obtain ⟨k, h1, h2, h3, h4⟩ := Scribing.jsonl_prefix (T := utf8 act) (R := R) (parse := parse) (read := read)
    (txn := fun n => linesTxn parse (utf8 act) n (lines n))
    (fun n c st hr hf => Scribing.fill_jsonl hT hok (hc n c hr) hf) names w
  refine ⟨k, h1, fun n hn => ?_, h3, fun h => (h4 h).1⟩
  obtain ⟨c, hr, hs⟩ := h2 n hn
  exact ⟨by rw [hr]; rfl, Scribing.fill_jsonl_isSome (hc n c hr) hs⟩

/-- What is in the transaction of a file: the texts of its documents, in order, and nothing
else; and the name of the file over all of them. -/
theorem C55_jsonl_content {act : Nat → Action} (hA : JsonTable act) {parse : Text → Option Value}
    (hp : ∀ s v, parse s = some v → v.Fit) {ls : List Text} {vs : List Value}
    (hv : ls.map (fun l => parse (if containsNonchar l then Json.sanitize l else l)) = vs.map some) (name : Text) :
    (linesTxn parse (utf8 act) name ls).app = App.all (utf8 act) {} (vs.map texts).flatten ∧
    (ls ≠ [] → (linesTxn parse (utf8 act) name ls).notes.getLast? = some ⟨pathOf name, 0,
      (((vs.map texts).flatten.map (utf8 act).addresses).sum : Nat) - 1, .zero⟩) := by
  have hT := utf8_lawful act
  have hok : ∀ s v, parse s = some v → ∀ x ∈ texts v, Json.Ok (utf8 act) x :=
    fun s v h x hx => Good.ok hA (texts_good hA v (hp s v h) x hx)
  obtain ⟨st, e1, e2⟩ := Scribing.each_app hT hok (st := {}) (start_inv hT) hv
  have hall : ∀ x ∈ (vs.map texts).flatten, Clean (utf8 act) x := by
    intro x hx
    rw [List.mem_flatten] at hx
    obtain ⟨t, ht, hx⟩ := hx
    rw [List.mem_map] at ht
    obtain ⟨v, hv', rfl⟩ := ht
    have hm : some v ∈ ls.map (fun l => parse (if containsNonchar l then Json.sanitize l else l)) := by
      rw [hv]; exact List.mem_map_of_mem hv'
    rw [List.mem_map] at hm
    obtain ⟨l, -, hl⟩ := hm
    exact (hok _ _ hl x hx).1
  obtain ⟨-, -, a⟩ := all_inv hT (start_inv hT) hall
  unfold linesTxn
  rw [e1]
  simp only [Option.getD_some]
  refine ⟨?_, fun hls => ?_⟩
  · split
    · exact e2
    · exact e2
  · rw [if_neg hls]
    simp only [Scribe.annotate, List.getLast?_append, List.getLast?_singleton, Option.some_or]
    have z : (({} : Scribe).app.address) = 0 := rfl
    have hx : st.app.address = ((vs.map texts).flatten.map (utf8 act).addresses).sum := by
      rw [e2]; simpa [z] using a
    rw [hx]

/-- a parser of `1` -/
def parseOne (s : Text) : Option Value := if s = [0x31] then some (.num 1 false 1000000) else none

theorem parseOne_fit : ∀ s v, parseOne s = some v → v.Fit := by
  intro s v h
  unfold parseOne at h
  split at h
  · cases h; simp [Value.Fit]
  · cases h

/-- `a` has two lines; `b` has one, and another without a newline; `c` has a blank line. -/
def someLines (n : Text) : Option Text :=
  if n = [0x61] then some [0x31, 0x0A, 0x31, 0x0A] else if n = [0x62] then some [0x31, 0x0A, 0x31]
  else if n = [0x63] then some [0x31, 0x0A, 0x0A] else none

def linesOf (n : Text) : List Text :=
  if n = [0x61] then [[0x31], [0x31]] else if n = [0x62] then [[0x31]] else if n = [0x63] then [[0x31], []] else []
def restOf (n : Text) : Text := if n = [0x62] then [0x31] else []

theorem someLines_cut : ∀ n c, someLines n = some c → Cut c (linesOf n) (restOf n) := by
  intro n c h
  unfold someLines at h
  split at h
  · rename_i e; subst e; cases h; exact ⟨by decide, by decide, by decide⟩
  · split at h
    · rename_i e; subst e; cases h; exact ⟨by decide, by decide, by decide⟩
    · split at h
      · rename_i e; subst e; cases h; exact ⟨by decide, by decide, by decide⟩
      · cases h

example := C55_jsonl_partial jsonTable_fits allowAll_grants parseOne_fit someLines_cut (names := [[0x61], [0x62]]) (w := {}) rfl
example : (scribeJsonl allowAll parseOne (utf8 jsonTable) someLines [[0x61], [0x62]] {}).2 = true := by decide +kernel
example := C55_jsonl_prefix jsonTable_fits (R := allowAll) parseOne_fit someLines_cut [[0x61], [0x62]] {}
example : (linesTxn parseOne (utf8 jsonTable) [0x61] (linesOf [0x61])).notes.getLast? =
    some ⟨[0x2E, 0x2F, 0x61], 0, 7, .zero⟩ := by decide +kernel
example := C55_jsonl_content jsonTable_fits parseOne_fit (ls := [[0x31], [0x31]])
  (vs := [.num 1 false 1000000, .num 1 false 1000000]) rfl [0x61]

/-- The same of documents: if the warren will not take a line of a file, or will not get ready, or will not annotate its name over
lines that there are, then scribing fails, and at most the files before it are committed. -/
theorem C55_jsonl_refused {act : Nat → Action} (hA : JsonTable act) {R : Rules}
    {parse : Text → Option Value} (hp : ∀ s v, parse s = some v → v.Fit) {read : Text → Option Text}
    {ls : List Text} {rest : Text} {pre post : List Text} {n c : Text} (hn : read n = some c) (hc : Cut c ls rest)
    (h : (∃ l ∈ ls, ∀ st, R.takes st l = false) ∨ (ls ≠ [] ∧ ∀ st, R.annotates st (pathOf n) = false) ∨ ∀ st, R.readies st = false)
    (w : World) : (scribeJsonl R parse (utf8 act) read (pre ++ n :: post) w).2 = false ∧
      (scribeJsonl R parse (utf8 act) read (pre ++ n :: post) w).1.done.length ≤ w.done.length + pre.length := by
  have hT := utf8_lawful act
  have hok : ∀ s v, parse s = some v → ∀ x ∈ texts v, Json.Ok (utf8 act) x :=
    fun s v h x hx => Good.ok hA (texts_good hA v (hp s v h) x hx)
  induction pre generalizing w with
  | nil =>
    rw [List.nil_append, scribeJsonl]
    simp only [hn]
    cases ht : w.transaction R with
    | none => exact ⟨rfl, Nat.le_refl _⟩
    | some w1 =>
      obtain ⟨-, -, hcur, hd⟩ := Scribing.World.transaction_some ht
      simp only []
      cases hf : Scribing.fillJsonl R parse (utf8 act) n c w1.cur with
      | none => exact ⟨rfl, by simp [hd]⟩
      | some st =>
        have hr : ∀ st, R.readies st = false := by
          rw [hcur] at hf
          rcases h with ⟨l, hl, h⟩ | ⟨hne, h⟩ | h
          · exact absurd (Scribing.fill_jsonl_takes hc (by rw [hf]; rfl) l hl) (by simp [h])
          · exact absurd (Scribing.fill_jsonl_notes hT hok hc hne (by rw [hf]; rfl)) (by simp [h])
          · exact h
        simp only [World.finish, hr]
        exact ⟨rfl, by simp [hd]⟩
  | cons x pre ih =>
    rw [List.cons_append, scribeJsonl]
    cases read x with
    | none => exact ⟨rfl, Nat.le_add_right _ _⟩
    | some c =>
      simp only []
      cases ht : w.transaction R with
      | none => exact ⟨rfl, Nat.le_add_right _ _⟩
      | some w1 =>
        have hd := (Scribing.World.transaction_some ht).2.2.2
        simp only []
        cases Scribing.fillJsonl R parse (utf8 act) x c w1.cur with
        | none => exact ⟨rfl, by simp [hd]⟩
        | some st =>
          simp only []
          rcases Scribing.finish_cases (R := R) { w1 with cur := st } with h | h
          · rw [h]; exact ⟨rfl, by simp [hd]⟩
          · rw [h]
            have := ih { started := false, cur := {}, done := w1.done ++ [st] }
            refine ⟨this.1, ?_⟩
            have h2 : (scribeJsonl R parse (utf8 act) read (pre ++ n :: post) { started := false, cur := {}, done := w1.done ++ [st] }).1.done.length ≤
              (w1.done ++ [st]).length + pre.length := this.2
            rw [List.length_append, List.length_singleton, hd] at h2
            simp only [List.length_cons]
            rw [hd]
            omega

/-- A warren that does not annotate the name of `a`. -/
example := C55_jsonl_refused jsonTable_fits (R := { allowAll with annotates := fun _ t => t != pathOf [0x61] }) parseOne_fit
  (read := someLines) (pre := []) (post := []) (n := [0x61]) rfl (someLines_cut [0x61] _ rfl)
  (.inr (.inl ⟨by decide, fun _ => by show (pathOf [0x61] != pathOf [0x61]) = false; decide⟩)) {}

/-- The claim fails: a last line that does not end in a newline is dropped, and scribing says
that it succeeded.  `b` is `1`, newline, `1`. -/
theorem C55_last_line_lost :
    let r := scribeJsonl allowAll parseOne (utf8 jsonTable) someLines [[0x62]] {}
    let s := scribeJsonl allowAll parseOne (utf8 jsonTable) (fun _ => some [0x31, 0x0A]) [[0x62]] {}
    r.2 = true ∧ r.1.done.map (·.app.text) = s.1.done.map (·.app.text) ∧
      r.1.done.map (·.app.text) = [[0xEF, 0xB7, 0x98, 0x31, 0x2E, 0x30, 0x30, 0x30, 0x30, 0x30, 0x30, 0xEF, 0xB7, 0x99, 0x0A]] := by
  refine ⟨?_, ?_, ?_⟩ <;> decide +kernel

/-- A line that is not a document, for example a blank line, stops it: the transaction is left
open with the lines before it. -/
theorem C55_blank_line :
    let r := scribeJsonl allowAll parseOne (utf8 jsonTable) someLines [[0x61], [0x63], [0x62]] {}
    r.2 = false ∧ r.1.done.length = 1 ∧ r.1.started = true := by decide +kernel

/-! ### committing several at once -/

/-- Scribes in the middle of transactions are committed together, each warren exactly once,
whether they are all scribes of warrens or not; after that all transactions are closed, and the
next transaction of each is committed once, too. -/
theorem C55_commit_all (all : Bool) (xs : List Pair) (h : ∀ x ∈ xs, x.scribe = true ∧ x.warren = true ∧ x.committed = false) :
    (commitAll all xs).length = xs.length ∧
    ∀ (i : Nat) x, xs[i]? = some x → ∃ y, (commitAll all xs)[i]? = some y ∧
      y.commits = x.commits + 1 ∧ y.scribe = false ∧ y.warren = false ∧ y.committed = false ∧
      y.transaction.commit.commits = x.commits + 2 := by
  unfold commitAll
  refine ⟨by cases all <;> simp, fun i x hx => ?_⟩
  obtain ⟨a, b, c⟩ := h x (List.mem_of_getElem? hx)
  obtain ⟨s, w, d, n⟩ := x
  cases a; cases b; cases c
  cases all
  · refine ⟨Pair.commit ⟨true, true, false, n⟩, ?_, rfl, rfl, rfl, rfl, rfl⟩
    simp only [Bool.false_eq_true, if_false, List.getElem?_map, hx, Option.map_some]
  · refine ⟨Pair.commit ⟨true, false, true, n + 1⟩, ?_, rfl, rfl, rfl, rfl, rfl⟩
    simp only [if_true, List.getElem?_map, hx, Option.map_some]
    rfl

/-- Between transactions, `committed_` is never set: beginning, committing and aborting keep it
so. -/
theorem C55_rested (x : Pair) (h : x.committed = false) :
    x.transaction.committed = false ∧ x.commit.committed = false ∧ x.abort.committed = false := by
  obtain ⟨s, w, d, n⟩ := x
  cases h
  cases s <;> exact ⟨rfl, rfl, rfl⟩

example := C55_commit_all true [({} : Pair).transaction, { ({} : Pair) with commits := 3 }.transaction] (by decide)

end Verif.Props
