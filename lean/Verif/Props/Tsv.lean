import Verif.Tsv.Proof
import Verif.Props.Text
import Verif.Props.Store
/-
  C49: tables.
-/
namespace Verif.Props
open Verif.Hopper Verif.Store
open Verif.Tsv (Lines Unbroken Fields Words splitLines splitTsv texts width rows whole fieldNotes Tidy addShare)
open Verif.Text (Text Tokenizer App)

/-! ### lines -/

/-- C49: a file is cut into its lines, whatever ends them. -/
theorem C49_lines (s : Text) (ls : List Text) : Lines s ls ↔ splitLines [] s = ls := by
  refine ⟨Tsv.lines_unique, fun h => ?_⟩
  obtain ⟨ls', h'⟩ := Tsv.lines_exist s.length s (Nat.le_refl _)
  rw [← h, Tsv.lines_unique h']; exact h'

/-- `a`, an empty line, `b` and `c`, with four ends -/
example : Lines ([0x61] ++ 0x0A :: ([] ++ 0x0D :: 0x0A :: ([0x62] ++ 0x0D :: [0x63]))) [[0x61], [], [0x62], [0x63]] :=
  .newline (by unfold Unbroken; decide) (.both (by unfold Unbroken; decide)
    (.return_ (by unfold Unbroken; decide) (by decide) (.open_ (by unfold Unbroken; decide) (by decide))))

/-- No line has an end in it. -/
theorem C49_unbroken {s l : Text} (h : l ∈ splitLines [] s) : Unbroken l := by
  have := (C49_lines s _).2 rfl
  revert h
  generalize splitLines [] s = ls at this
  intro h
  induction this with
  | none => simp at h
  | open_ h1 => simp only [List.mem_cons, List.not_mem_nil, or_false] at h; rw [h]; exact h1
  | newline h1 _ ih => exact (List.mem_cons.1 h).elim (fun e => e ▸ h1) ih
  | both h1 _ ih => exact (List.mem_cons.1 h).elim (fun e => e ▸ h1) ih
  | return_ h1 _ _ ih => exact (List.mem_cons.1 h).elim (fun e => e ▸ h1) ih

/-! ### fields -/

/-- C49: a line is cut at a separator, from the left. -/
theorem C49_fields (s : Text) {sep : Text} (h : sep ≠ []) : Fields sep s (splitTsv s sep) := by
  unfold splitTsv
  rw [if_neg h]
  exact Tsv.splitSep_fields h _ _ (Nat.lt_succ_self _)

/-- … so that the fields, with the separators between them, are the line, … -/
theorem C49_join (s : Text) {sep : Text} (h : sep ≠ []) :
    (texts sep (splitTsv s sep)).flatten = s ∧ splitTsv s sep ≠ [] := by
  have := C49_fields s h
  generalize splitTsv s sep = fs at this
  induction this with
  | last _ => simp [texts]
  | more _ _ ih =>
    refine ⟨?_, by simp⟩
    rw [Tsv.texts_cons, if_pos ih.2, List.flatten_cons, ih.1]

/-- … and no field has a separator in it. -/
theorem C49_whole (s : Text) {sep : Text} (h : sep ≠ []) : ∀ f ∈ splitTsv s sep, ¬ sep <:+: f := by
  have := C49_fields s h
  generalize splitTsv s sep = fs at this
  induction this with
  | last hn => intro f hf; simp only [List.mem_cons, List.not_mem_nil, or_false] at hf; rw [hf]; exact hn
  | @more g t fs hn _ ih =>
    intro f hf
    rcases List.mem_cons.1 hf with rfl | hf
    · rintro ⟨a, b, e⟩
      refine hn a.length ?_ ?_
      · have := congrArg List.length e
        simp only [List.length_append] at this
        have : 0 < sep.length := List.length_pos_iff.2 h
        omega
      · refine ⟨b ++ sep ++ t, ?_⟩
        rw [← e]; simp
    · exact ih f hf

/-- three fields, of which the second is empty -/
example : splitTsv [0x61, 0x09, 0x09, 0x62] [0x09] = [[0x61], [], [0x62]] := by decide
/-- `aaa` at `aa` -/
example : splitTsv [0x61, 0x61, 0x61] [0x61, 0x61] = [[], [0x61]] := by decide

/-- C49: without a separator, a line is cut at blanks. -/
theorem C49_words (s : Text) : Words s (splitTsv s []) := by
  unfold splitTsv
  rw [if_pos rfl]
  exact Tsv.splitBlank_words _ _ (Nat.lt_succ_self _)

example : splitTsv [0x20, 0x61, 0x09, 0x20, 0x62, 0x63, 0x20] [] = [[0x61], [0x62, 0x63]] := by decide

/-! ### annotations -/

/-- what follows a field in its text -/
def between (sep : Text) : Text := if sep = [] then [0x09] else sep

/-- the texts of the rows of a table -/
def tableOf (sep : Text) (lines : List Text) : List (List Text) := lines.map fun l => texts (between sep) (splitTsv l sep)

/-- C49 (what is missing: rows whose last field has no tokens; see `C49_trailing`).

A thread that has some lines of a table appends the fields of each in order, with separators, and annotates: each field
that has tokens, by its number; each row that has tokens, as a record, or a header if it is the first of the file and
there is one; and all of them, if they have tokens, by the file's path. -/
theorem C49_rows_partial {T : Tokenizer} {Fit : Text → Prop} (hS : Setting T Fit) (sep : Text) (first : Bool)
    (lines : List Text) (hfit : ∀ ts ∈ tableOf sep lines, ∀ s ∈ ts, Fit s) (htidy : Tidy T (tableOf sep lines))
    (hb : (width T (tableOf sep lines).flatten : Int) < maxfinity) :
    (addShare T sep first lines).app = App.all T {} (tableOf sep lines).flatten ∧
    (addShare T sep first lines).notes =
      rows T first 0 (tableOf sep lines) ++ whole .path 0 (width T (tableOf sep lines).flatten) := by
  obtain ⟨hT, -, hc⟩ := hS.lawful
  have h := Tsv.lines_ok hT sep (between sep) lines first {} maxfinity minfinity (Text.start_inv hT)
    (fun l hl s hs => hc s (hfit _ (List.mem_map.2 ⟨l, hl, rfl⟩) s hs)) htidy
    (by simpa [tableOf] using hb) (by decide) (by decide)
  rw [show (lines.map fun l => texts (between sep) (splitTsv l sep)) = tableOf sep lines from rfl] at h
  have e : addShare T sep first lines =
      let r := Tsv.addLines T sep (between sep) first lines {} maxfinity minfinity
      if r.2.1 ≤ r.2.2 then { r.1 with notes := r.1.notes ++ [(.path, r.2.1, r.2.2)] } else r.1 := rfl
  rw [e]
  generalize Tsv.addLines T sep (between sep) first lines {} maxfinity minfinity = r at h ⊢
  obtain ⟨h1, h2, h3, h4⟩ := h
  simp only at h1 h2 h3 h4 ⊢
  have e0 : ((({} : Tsv.Clone).app.address : Nat) : Int) = 0 := rfl
  unfold whole
  by_cases hw : 0 < width T (tableOf sep lines).flatten
  · obtain ⟨a1, a2⟩ := h3 hw
    rw [e0] at a1 a2
    have b1 : r.2.1 = 0 := by rw [a1]; decide
    have b2 : r.2.2 = 0 + (width T (tableOf sep lines).flatten : Int) - 1 := by rw [a2]; omega
    rw [if_pos (by omega), if_pos hw]
    exact ⟨h1, by simp only [h2, b1, b2]; simp⟩
  · obtain ⟨a1, a2⟩ := h4 (by omega)
    rw [a1, a2, if_neg (by decide), if_neg hw]
    exact ⟨h1, by rw [h2]; simp⟩

/-- `id⇥name`, `1⇥x y`, an empty line and `2⇥⇥z`, with a header -/
def sampleTable : List Text :=
  [[0x69, 0x64, 0x09, 0x6E, 0x61, 0x6D, 0x65], [0x31, 0x09, 0x78, 0x20, 0x79], [], [0x32, 0x09, 0x09, 0x7A]]

example : Tidy (Text.ascii false) (tableOf [0x09] sampleTable) ∧
    (width (Text.ascii false) (tableOf [0x09] sampleTable).flatten : Int) < maxfinity := by
  refine ⟨⟨.inr (.inl ⟨[0x6E, 0x61, 0x6D, 0x65], ?_, ?_⟩), .inr (.inl ⟨[0x78, 0x20, 0x79], ?_, ?_⟩), .inr (.inr ⟨?_, ?_⟩),
    .inr (.inl ⟨[0x7A], ?_, ?_⟩), trivial⟩, ?_⟩ <;> decide +kernel
example : (addShare (Text.ascii false) [0x09] true sampleTable).notes =
    [(.field 0, 0, 0), (.field 1, 1, 1), (.header, 0, 1),
     (.field 0, 2, 2), (.field 1, 3, 4), (.data, 2, 4),
     (.field 0, 5, 5), (.field 2, 6, 6), (.data, 5, 6), (.path, 0, 6)] := by decide +kernel

/-- What is annotated of a thread's rows is apart from what else is annotated as the same. -/
theorem C49_apart (T : Tokenizer) (first : Bool) (table : List (List Text)) :
    (rows T first 0 table ++ whole .path 0 (width T table.flatten)).Pairwise fun x y => x.1 = y.1 → x.2.2 < y.2.1 := by
  refine List.pairwise_append.2 ⟨Tsv.rows_apart T table first 0, by unfold whole; split <;> simp, ?_⟩
  intro x hx y hy e
  unfold whole at hy
  split at hy
  · simp only [List.mem_cons, List.not_mem_nil, or_false] at hy
    subst hy
    exact absurd e (Tsv.rows_in T _ _ _ x hx).2.2.2
  · simp at hy

/-- an annotation as the transaction holds it -/
def staged (code : Tsv.Feature → Int) (x : Tsv.Note) : Int × Ann := (code x.1, ⟨staging + x.2.1, staging + x.2.2, 0⟩)

/-- C49: so once it is committed, at the address `base`, all of it can be found, and nothing else, under features that
are those of nothing else. -/
theorem C49_kept_partial {T : Tokenizer} {Fit : Text → Prop} (hS : Setting T Fit) (sep : Text) (first : Bool)
    (lines : List Text) (hfit : ∀ ts ∈ tableOf sep lines, ∀ s ∈ ts, Fit s) (htidy : Tidy T (tableOf sep lines))
    (hb : (width T (tableOf sep lines).flatten : Int) < maxfinity)
    {code : Tsv.Feature → Int} (hcode : ∀ f g, code f = code g → f = g)
    {others sorted : List (Int × Ann)} (ho : ∀ x ∈ others, ∀ f, x.1 ≠ code f) {base : Int}
    (hsort : SortedFrom ((others ++ (addShare T sep first lines).notes.map (staged code)).map (relocate base)) sorted)
    (f : Tsv.Feature) (a : Ann) :
    a ∈ (annsOf (indexOf sorted) (code f)).map plus0 ↔
      ∃ p q, (f, p, q) ∈ rows T first 0 (tableOf sep lines) ++ whole .path 0 (width T (tableOf sep lines).flatten) ∧
        a = ⟨base + p, base + q, 0⟩ := by
  rw [(C49_rows_partial hS sep first lines hfit htidy hb).2] at hsort
  have hap := C49_apart T first (tableOf sep lines)
  have hin : ∀ x ∈ rows T first 0 (tableOf sep lines) ++ whole .path 0 (width T (tableOf sep lines).flatten),
      0 ≤ x.2.1 ∧ x.2.1 ≤ x.2.2 := by
    intro x hx
    rcases List.mem_append.1 hx with hx | hx
    · have := Tsv.rows_in T _ _ _ x hx
      exact ⟨this.1, this.2.1⟩
    · unfold whole at hx
      split at hx
      · simp only [List.mem_cons, List.not_mem_nil, or_false] at hx
        subst hx
        simp only; omega
      · simp at hx
  generalize rows T first 0 (tableOf sep lines) ++ whole .path 0 (width T (tableOf sep lines).flatten) = notes at hsort hap hin ⊢
  have hmem : ∀ b, b ∈ atFinal base (others ++ notes.map (staged code)) (code f) ↔
      ∃ p q, (f, p, q) ∈ notes ∧ b = ⟨base + p, base + q, 0⟩ := by
    intro b
    have hmv : ∀ x ∈ notes, relocate base (staged code x) = (code x.1, ⟨base + x.2.1, base + x.2.2, 0⟩) := by
      intro x hx
      have := (hin x hx).1
      unfold relocate staged
      simp only
      rw [if_pos (by omega)]
      have e1 : staging + x.2.1 - (staging - base) = base + x.2.1 := by omega
      have e2 : staging + x.2.2 - (staging - base) = base + x.2.2 := by omega
      rw [e1, e2]
    have hot : ∀ x ∈ others, (relocate base x).1 = x.1 := by
      intro x _; unfold relocate; split <;> rfl
    have hof : ∀ l : List (Int × Ann), b ∈ ofFeature (code f) l ↔ (code f, b) ∈ l := by
      intro l
      simp only [ofFeature, List.mem_map, List.mem_filter]
      constructor
      · rintro ⟨x, ⟨hx, e⟩, rfl⟩
        have : x.1 = code f := by simpa using e
        rw [← this]; exact hx
      · intro h; exact ⟨_, ⟨h, by simp⟩, rfl⟩
    unfold atFinal
    rw [hof]
    simp only [List.map_append, List.map_map, List.mem_append, List.mem_map, Function.comp]
    constructor
    · rintro (⟨x, hx, e⟩ | ⟨x, hx, e⟩)
      · have := hot x hx
        rw [e] at this
        exact absurd this.symm (ho x hx f)
      · rw [hmv x hx] at e
        simp only [Prod.mk.injEq] at e
        have := hcode _ _ e.1
        subst this
        exact ⟨x.2.1, x.2.2, hx, e.2.symm⟩
    · rintro ⟨p, q, hx, rfl⟩
      exact .inr ⟨_, hx, hmv _ hx⟩
  have two : ∀ x ∈ notes, ∀ y ∈ notes, x.1 = y.1 → y.2.2 ≤ x.2.2 → y.2.1 ≤ x.2.1 := by
    clear hmem hsort
    induction notes with
    | nil => simp
    | cons z l ih =>
      obtain ⟨h1, h2⟩ := List.pairwise_cons.1 hap
      intro x hx y hy e hle
      rcases List.mem_cons.1 hx with ex | hx' <;> rcases List.mem_cons.1 hy with ey | hy'
      · rw [ex, ey]; exact Int.le_refl _
      · subst ex
        have := h1 y hy' e
        have := hin y hy
        omega
      · subst ey
        have := h1 x hx' e.symm
        have := hin y hy
        omega
      · exact ih h2 (fun x hx => hin x (List.mem_cons_of_mem _ hx)) x hx' y hy' e hle
  rw [C12_kept hsort]
  constructor
  · rintro ⟨b, hb, rfl, -, -⟩
    obtain ⟨p, q, hx, rfl⟩ := (hmem b).1 hb
    exact ⟨p, q, hx, rfl⟩
  · rintro ⟨p, q, hx, rfl⟩
    refine ⟨_, (hmem _).2 ⟨p, q, hx, rfl⟩, rfl, ?_, ?_⟩
    · have := (hin _ hx).2
      simp only at this ⊢; omega
    · intro c hc _ hle
      obtain ⟨p', q', hx', rfl⟩ := (hmem c).1 hc
      have := two _ hx _ hx' rfl
      simp only at this hle ⊢
      omega

/-- numbers for features -/
def sampleCode : Tsv.Feature → Int
  | .field j => 3 + j | .data => 0 | .header => 1 | .path => 2
theorem sampleCode_inj : ∀ f g, sampleCode f = sampleCode g → f = g := by
  intro f g h
  cases f <;> cases g <;> simp [sampleCode] at h ⊢ <;> omega
/-- the table at 100, with the token `x` of it -/
example : SortedFrom (([((50 : Int), (⟨staging + 3, staging + 3, 0⟩ : Ann))] ++
      (addShare (Text.ascii false) [0x09] true sampleTable).notes.map (staged sampleCode)).map (relocate 100))
    [(0, ⟨102, 104, 0⟩), (0, ⟨105, 106, 0⟩), (1, ⟨100, 101, 0⟩), (2, ⟨100, 106, 0⟩), (3, ⟨100, 100, 0⟩), (3, ⟨102, 102, 0⟩),
     (3, ⟨105, 105, 0⟩), (4, ⟨101, 101, 0⟩), (4, ⟨103, 104, 0⟩), (5, ⟨106, 106, 0⟩), (50, ⟨103, 103, 0⟩)] := by
  refine ⟨?_, ?_⟩ <;> decide +kernel

/-- C49 is false of a row whose last field is empty (or has no tokens).  The rows `x⇥` and `y` of a file are of one token
each, at 0 and 1; the first is annotated as reaching into the second, and once they are indexed, it is not there. -/
theorem C49_trailing :
    (addShare (Text.ascii false) [0x09] false [[0x78, 0x09], [0x79]]).notes =
      [(.field 0, 0, 0), (.data, 0, 1), (.field 0, 1, 1), (.data, 1, 1), (.path, 0, 1)] ∧
    width (Text.ascii false) (texts [0x09] (splitTsv [0x78, 0x09] [0x09])) = 1 ∧
    ∀ sorted, SortedFrom ([(7, ⟨staging + 0, staging + 1, 0⟩), (7, ⟨staging + 1, staging + 1, 0⟩)].map (relocate 0)) sorted →
      (⟨0, 1, 0⟩ : Ann) ∉ (annsOf (indexOf sorted) 7).map plus0 ∧ (⟨1, 1, 0⟩ : Ann) ∈ (annsOf (indexOf sorted) 7).map plus0 := by
  refine ⟨by decide +kernel, by decide +kernel, fun sorted h => ?_⟩
  rw [C12_kept h, C12_kept h]
  decide

/-- … and a file whose last row ends so is annotated as reaching past what it has: into the next that is committed. -/
theorem C49_past :
    (addShare (Text.ascii false) [0x09] false [[0x78, 0x09]]).notes = [(.field 0, 0, 0), (.data, 0, 1), (.path, 0, 1)] ∧
    (addShare (Text.ascii false) [0x09] false [[0x78, 0x09]]).app.address = 1 := by
  refine ⟨?_, ?_⟩ <;> decide +kernel

end Verif.Props
