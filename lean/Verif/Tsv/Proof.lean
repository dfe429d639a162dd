import Verif.Tsv.Spec
import Verif.Text.Layout
/-
  Lines, fields and words are found, and annotated where they are.
-/
namespace Verif.Tsv
open Verif.Text Verif.Hopper

/-! ### lines -/

theorem splitLines_plain {l : Text} (h : Unbroken l) : ∀ (cur s : Text), splitLines cur (l ++ s) = splitLines (cur ++ l) s := by
  induction l with
  | nil => intro cur s; simp
  | cons c l ih =>
    intro cur s
    have h1 : c ≠ 0x0A := fun e => h.1 (by simp [e])
    have h2 : c ≠ 0x0D := fun e => h.2 (by simp [e])
    have e : splitLines cur (c :: (l ++ s)) = splitLines (cur ++ [c]) (l ++ s) := by
      rw [splitLines.eq_def]
      split
      · rename_i e; simp at e
      · rename_i e; simp only [List.cons.injEq] at e; exact absurd e.1 h2
      · rename_i e
        simp only [List.cons.injEq] at e
        obtain ⟨rfl, rfl⟩ := e
        simp [h1, h2]
    rw [List.cons_append, e, ih ⟨fun h' => h.1 (by simp [h']), fun h' => h.2 (by simp [h'])⟩]
    simp

theorem lines_unique {s : Text} {ls : List Text} (h : Lines s ls) : splitLines [] s = ls := by
  induction h with
  | none => rfl
  | open_ h1 h2 =>
    rename_i l
    have := splitLines_plain h1 [] []
    rw [List.append_nil, List.nil_append] at this
    rw [this]; simp [splitLines, h2]
  | newline h1 _ ih => rw [splitLines_plain h1]; simp [splitLines, ih]
  | both h1 _ ih => rw [splitLines_plain h1]; simp [splitLines, ih]
  | @return_ l s ls h1 h2 _ ih =>
    rw [splitLines_plain h1]
    cases s with
    | nil =>
      have e : ls = [] := ih.symm
      subst e; simp [splitLines]
    | cons c s =>
      have hc : c ≠ 0x0A := fun e => h2 (by simp [e])
      rw [splitLines.eq_def]
      split
      · rename_i e; simp at e
      · rename_i e; simp only [List.cons.injEq] at e; exact absurd e.2.1 hc
      · rename_i e
        simp only [List.cons.injEq] at e
        obtain ⟨rfl, rfl⟩ := e
        simp [ih]

theorem lines_exist : ∀ (n : Nat) (s : Text), s.length ≤ n → ∃ ls, Lines s ls
  | 0, s, h => by
    have : s = [] := List.length_eq_zero_iff.1 (by omega)
    subst this; exact ⟨_, .none⟩
  | n + 1, s, h => by
    -- up to the first end
    have key : ∀ s : Text, Unbroken s ∨ ∃ l c r, s = l ++ c :: r ∧ Unbroken l ∧ (c = 0x0A ∨ c = 0x0D) := by
      intro s
      induction s with
      | nil => exact .inl ⟨by simp, by simp⟩
      | cons c s ih =>
        by_cases hc : c = 0x0A ∨ c = 0x0D
        · exact .inr ⟨[], c, s, rfl, ⟨by simp, by simp⟩, hc⟩
        · simp only [not_or] at hc
          rcases ih with ih | ⟨l, d, r, e, hl, hd⟩
          · exact .inl ⟨by simp [Ne.symm hc.1, ih.1], by simp [Ne.symm hc.2, ih.2]⟩
          · exact .inr ⟨c :: l, d, r, by simp [e], ⟨by simp [Ne.symm hc.1, hl.1], by simp [Ne.symm hc.2, hl.2]⟩, hd⟩
    rcases key s with hu | ⟨l, c, r, rfl, hl, rfl | rfl⟩
    · by_cases hs : s = []
      · subst hs; exact ⟨_, .none⟩
      · exact ⟨_, .open_ hu hs⟩
    · obtain ⟨ls, hls⟩ := lines_exist n r (by simp at h; omega)
      exact ⟨_, .newline hl hls⟩
    · match r, h with
      | 0x0A :: r, h =>
        obtain ⟨ls, hls⟩ := lines_exist n r (by simp at h; omega)
        exact ⟨_, .both hl hls⟩
      | [], h => exact ⟨_, .return_ hl (by simp) .none⟩
      | d :: r, h =>
        by_cases hd : d = 0x0A
        · subst hd
          obtain ⟨ls, hls⟩ := lines_exist n r (by simp at h; omega)
          exact ⟨_, .both hl hls⟩
        · obtain ⟨ls, hls⟩ := lines_exist n (d :: r) (by simp at h ⊢; omega)
          exact ⟨_, .return_ hl (by simp [hd]) hls⟩

/-! ### fields -/

theorem find_none {sep : Text} : ∀ {s : Text}, find sep s = none → ¬ sep <:+: s
  | [], h => by
    unfold find at h
    split at h
    · simp at h
    · rename_i hne
      intro hi
      exact hne (by simpa using hi)
  | c :: s, h => by
    unfold find at h
    split at h
    · simp at h
    · rename_i hp
      rw [Option.map_eq_none_iff] at h
      intro hi
      rcases List.infix_cons_iff.1 hi with hi | hi
      · exact hp (List.isPrefixOf_iff_prefix.2 hi)
      · exact find_none h hi

theorem find_some {sep : Text} : ∀ {s : Text} {k : Nat}, find sep s = some k →
    k ≤ s.length ∧ sep <+: s.drop k ∧ ∀ i < k, ¬ sep <+: s.drop i
  | [], k, h => by
    unfold find at h
    split at h
    · rename_i e
      have := Option.some.inj h
      subst this
      exact ⟨by simp, by simp [e], fun i hi => by omega⟩
    · simp at h
  | c :: s, k, h => by
    unfold find at h
    split at h
    · rename_i hp
      have := Option.some.inj h
      subst this
      exact ⟨by simp, List.isPrefixOf_iff_prefix.1 hp, fun i hi => by omega⟩
    · rename_i hp
      obtain ⟨m, hm, rfl⟩ := Option.map_eq_some_iff.1 h
      obtain ⟨h1, h2, h3⟩ := find_some hm
      refine ⟨by simpa using h1, by simpa using h2, fun i hi => ?_⟩
      cases i with
      | zero => exact fun hi => hp (List.isPrefixOf_iff_prefix.2 hi)
      | succ i => exact h3 i (by omega)

theorem splitSep_fields {sep : Text} (hs : sep ≠ []) : ∀ (n : Nat) (s : Text), s.length < n → Fields sep s (splitSep sep n s)
  | 0, _, h => by omega
  | n + 1, s, h => by
    unfold splitSep
    rcases hf : find sep s with _ | k
    · exact .last (find_none hf)
    · obtain ⟨h1, ⟨t, h2⟩, h3⟩ := find_some hf
      have hl : 0 < sep.length := by cases sep <;> simp at hs ⊢
      have e2 : s.drop (k + sep.length) = t := by
        rw [← List.drop_drop, ← h2]; simp
      have e : s = s.take k ++ sep ++ t := by
        conv => lhs; rw [← List.take_append_drop k s, ← h2]
        simp
      have hlen : (s.drop (k + sep.length)).length < n := by
        have := congrArg List.length h2
        rw [List.length_append, List.length_drop] at this
        rw [List.length_drop]; omega
      have ih := splitSep_fields hs n (s.drop (k + sep.length)) hlen
      have hm := Fields.more (sep := sep) (f := s.take k) (s := t) (fs := splitSep sep n t) (by
        rw [← e, List.length_take]
        intro i hi
        exact h3 i (by omega)) (e2 ▸ ih)
      rw [← e] at hm
      simpa [e2] using hm

/-! ### words -/

theorem mem_takeWhile {p : UInt8 → Bool} : ∀ {l : Text} {c : UInt8}, c ∈ l.takeWhile p → p c = true
  | [], _, h => by simp at h
  | d :: l, c, h => by
    rw [List.takeWhile_cons] at h
    split at h
    · rename_i hd
      rcases List.mem_cons.1 h with rfl | h
      · exact hd
      · exact mem_takeWhile h
    · simp at h

theorem head_dropWhile {p : UInt8 → Bool} : ∀ {l : Text} {c : UInt8}, (l.dropWhile p).head? = some c → p c = false
  | [], _, h => by simp at h
  | d :: l, c, h => by
    rw [List.dropWhile_cons] at h
    split at h
    · exact head_dropWhile h
    · rename_i hd
      simp at h
      subst h
      simpa using hd

theorem splitBlank_words : ∀ (n : Nat) (s : Text), s.length < n → Words s (splitBlank n s)
  | 0, _, h => by omega
  | n + 1, s, h => by
    unfold splitBlank
    have e := List.takeWhile_append_dropWhile (p := isSpace) (l := s)
    rcases hd : s.dropWhile isSpace with _ | ⟨c, r⟩
    · rw [hd, List.append_nil] at e
      exact .none fun c hc => by rw [← e] at hc; exact mem_takeWhile hc
    · have hc : isSpace c = false := head_dropWhile (l := s) (by rw [hd]; rfl)
      have e2 := List.takeWhile_append_dropWhile (p := fun c => !isSpace c) (l := c :: r)
      have hlen : ((c :: r).dropWhile fun c => !isSpace c).length < n := by
        have h1 : (s.dropWhile isSpace).length ≤ s.length := by
          have := congrArg List.length e
          rw [List.length_append] at this
          omega
        have h2 : 0 < ((c :: r).takeWhile fun c => !isSpace c).length := by simp [hc]
        have h3 := congrArg List.length e2
        rw [List.length_append] at h3
        rw [hd] at h1
        omega
      have hm := Words.more (g := s.takeWhile isSpace) (w := (c :: r).takeWhile fun c => !isSpace c)
        (s := (c :: r).dropWhile fun c => !isSpace c) (fun c hc => mem_takeWhile hc) (by simp [hc])
        (fun c hc => by simpa using mem_takeWhile hc) (fun c hc => by simpa using head_dropWhile hc)
        (splitBlank_words n _ hlen)
      rw [List.append_assoc, e2] at hm
      have e' : s.takeWhile isSpace ++ c :: r = s := by rw [← hd]; exact e
      rw [e'] at hm
      exact hm

/-! ### annotations -/

theorem texts_cons (wsep f : Text) (fs : List Text) :
    texts wsep (f :: fs) = (if fs ≠ [] then f ++ wsep else f) :: texts wsep fs := by
  cases fs with
  | nil => simp [texts]
  | cons g fs => simp [texts]

theorem width_cons (T : Tokenizer) (s : Text) (ts : List Text) : width T (s :: ts) = T.addresses s + width T ts := by
  simp [width]

theorem width_append (T : Tokenizer) (a b : List Text) : width T (a ++ b) = width T a + width T b := by
  simp [width]

theorem all_append (T : Tokenizer) : ∀ (a b : List Text) (st : App), App.all T st (a ++ b) = App.all T (App.all T st a) b
  | [], _, _ => rfl
  | s :: a, b, st => by
    show App.all T _ (a ++ b) = App.all T (App.all T _ a) b
    exact all_append T a b _

theorem app_all_cons (T : Tokenizer) (s : Text) (a : List Text) (st : App) : App.all T st (s :: a) = App.all T (st.append T s).1 a := rfl

section
variable {T : Tokenizer} (hT : Lawful T)
include hT

/-- The fields of a line.  If the last has tokens, the record starts where the line does and ends where it ends; if there
are none, it is empty. -/
theorem fields_ok (wsep : Text) : ∀ (fields : List Text) (j : Nat) (c : Clone) (p0 q0 : Int), AppInv T c.app →
    (∀ s ∈ texts wsep fields, Clean T s) →
    let r := addFields T wsep j fields c p0 q0
    r.1.app = App.all T c.app (texts wsep fields) ∧
    r.1.notes = c.notes ++ fieldNotes T c.app.address j (texts wsep fields) ∧
    ((∃ s, (texts wsep fields).getLast? = some s ∧ 0 < T.addresses s) →
      r.2.1 = min p0 c.app.address ∧ r.2.2 = max q0 ((c.app.address : Int) + width T (texts wsep fields) - 1)) ∧
    (width T (texts wsep fields) = 0 → fields ≠ [] → r.2.1 = min p0 (c.app.address + 1) ∧ r.2.2 = max q0 c.app.address)
  | [], j, c, p0, q0, _, _ => by
    refine ⟨by simp [addFields, texts, App.all], by simp [addFields, texts, fieldNotes], ?_, fun _ h => absurd rfl h⟩
    rintro ⟨s, h, -⟩
    simp [texts] at h
  | f :: fs, j, c, p0, q0, hi, hc => by
    rw [texts_cons] at hc ⊢
    generalize hs : (if fs ≠ [] then f ++ wsep else f) = s at hc ⊢
    obtain ⟨i1, i2, i3, i4, i5⟩ := append_inv hT hi (hc s (List.mem_cons_self ..))
    have ih := fields_ok wsep fs (j + 1) ⟨(c.app.append T s).1, if (c.app.append T s).2.1 ≤ (c.app.append T s).2.2 then
        c.notes ++ [(.field j, (c.app.append T s).2.1, (c.app.append T s).2.2)] else c.notes⟩
      (min p0 (c.app.append T s).2.1) (max q0 (c.app.append T s).2.2) i1 (fun s hs => hc s (List.mem_cons_of_mem _ hs))
    have er : addFields T wsep j (f :: fs) c p0 q0 = addFields T wsep (j + 1) fs ⟨(c.app.append T s).1, if (c.app.append T s).2.1 ≤ (c.app.append T s).2.2 then
        c.notes ++ [(.field j, (c.app.append T s).2.1, (c.app.append T s).2.2)] else c.notes⟩
      (min p0 (c.app.append T s).2.1) (max q0 (c.app.append T s).2.2) := by
      rw [addFields]; simp only [hs]
    rw [er]
    simp only at ih ⊢
    obtain ⟨h1, h2, h3, h4⟩ := ih
    refine ⟨by rw [h1, app_all_cons], ?_, ?_, ?_⟩
    · rw [h2, i3]
      simp only [fieldNotes]
      by_cases hp : 0 < T.addresses s
      · rw [i5 hp, if_pos (by simp only; omega), if_pos hp]
        simp
      · rw [i4 (by omega), if_neg (by simp only; omega), if_neg hp]
        simp
    · rintro ⟨l, hl, hlp⟩
      rw [width_cons]
      by_cases hfs : fs = []
      · subst hfs
        simp only [texts, List.dropLast_nil, List.map_nil, List.getLast?_nil, Option.toList, List.append_nil,
          List.getLast?_singleton, Option.some.injEq] at hl
        subst hl
        simp only [addFields, i5 hlp, texts, List.dropLast_nil, List.map_nil, List.getLast?_nil, Option.toList, List.append_nil, width, List.sum_nil]
        constructor
        · trivial
        · simp
      · have hne : texts wsep fs ≠ [] := by
          cases fs with
          | nil => exact absurd rfl hfs
          | cons g fs => rw [texts_cons]; simp
        have hl' : (texts wsep fs).getLast? = some l := by
          rcases ht : texts wsep fs with _ | ⟨a, t⟩
          · exact absurd ht hne
          · rw [ht] at hl; simpa using hl
        obtain ⟨e1, e2⟩ := h3 ⟨l, hl', hlp⟩
        have hw : 0 < width T (texts wsep fs) := by
          have : T.addresses l ≤ width T (texts wsep fs) := by
            obtain ⟨t, ht⟩ := List.getLast?_eq_some_iff.1 hl'
            rw [ht, width_append, width_cons]; omega
          omega
        rw [e1, e2, i3]
        by_cases hp : 0 < T.addresses s
        · rw [i5 hp]; simp only; constructor <;> omega
        · rw [i4 (by omega)]; simp only; constructor <;> omega
    · intro hw _
      rw [width_cons] at hw
      have hp : T.addresses s = 0 := by omega
      by_cases hfs : fs = []
      · subst hfs
        simp only [addFields, i4 hp]
        exact ⟨trivial, trivial⟩
      · obtain ⟨e1, e2⟩ := h4 (by omega) hfs
        rw [e1, e2, i3, i4 hp]
        simp only
        constructor <;> omega

/-- The lines of a thread. -/
theorem lines_ok (sep wsep : Text) : ∀ (lines : List Text) (first : Bool) (c : Clone) (p q : Int), AppInv T c.app →
    (∀ l ∈ lines, ∀ s ∈ texts wsep (splitTsv l sep), Clean T s) →
    Tidy T (lines.map fun l => texts wsep (splitTsv l sep)) →
    (c.app.address : Int) + width T (lines.map fun l => texts wsep (splitTsv l sep)).flatten < maxfinity →
    p ≤ maxfinity → minfinity ≤ q →
    let r := addLines T sep wsep first lines c p q
    r.1.app = App.all T c.app (lines.map fun l => texts wsep (splitTsv l sep)).flatten ∧
    r.1.notes = c.notes ++ rows T first c.app.address (lines.map fun l => texts wsep (splitTsv l sep)) ∧
    (0 < width T (lines.map fun l => texts wsep (splitTsv l sep)).flatten →
      r.2.1 = min p c.app.address ∧
      r.2.2 = max q ((c.app.address : Int) + width T (lines.map fun l => texts wsep (splitTsv l sep)).flatten - 1)) ∧
    (width T (lines.map fun l => texts wsep (splitTsv l sep)).flatten = 0 → r.2.1 = p ∧ r.2.2 = q) := by
  intro lines
  induction lines with
  | nil =>
    intro first c p q _ _ _ _ _ _
    simp [addLines, App.all, rows, width]
  | cons l lines lines_ok =>
    intro first c p q hi hc htidy hb hp hq
    have hmap : (l :: lines).map (fun l => texts wsep (splitTsv l sep)) =
      texts wsep (splitTsv l sep) :: lines.map fun l => texts wsep (splitTsv l sep) := rfl
    rw [hmap] at htidy hb ⊢
    obtain ⟨ht1, ht2⟩ := htidy
    obtain ⟨f1, f2, f3, f4⟩ := fields_ok hT wsep (splitTsv l sep) 0 c maxfinity minfinity hi (hc l (List.mem_cons_self ..))
    have hi' := (all_inv hT hi (hc l (List.mem_cons_self ..)))
    have f0 : splitTsv l sep = [] → addFields T wsep 0 (splitTsv l sep) c maxfinity minfinity = (c, maxfinity, minfinity) := by
      intro e; rw [e]; rfl
    have ftexts : texts wsep (splitTsv l sep) = [] → splitTsv l sep = [] := by
      intro e
      rcases h : splitTsv l sep with _ | ⟨a, t⟩
      · rfl
      · rw [h, texts_cons] at e; simp at e
    generalize hts : texts wsep (splitTsv l sep) = ts at *
    generalize hr0 : addFields T wsep 0 (splitTsv l sep) c maxfinity minfinity = r0 at *
    generalize hL : (lines.map fun l => texts wsep (splitTsv l sep)) = L at *
    rw [List.flatten_cons, width_append] at hb ⊢
    have ih := lines_ok false
      { r0.1 with notes := if r0.2.1 ≤ r0.2.2 then r0.1.notes ++ [(if first then .header else .data, r0.2.1, r0.2.2)] else r0.1.notes }
      (min p r0.2.1) (max q r0.2.2) (by simp only [f1]; exact hi'.1) (fun l hl => hc l (List.mem_cons_of_mem _ hl))
      ht2 (by
        simp only [f1, hi'.2.2]
        have : (ts.map T.addresses).sum = width T ts := rfl
        omega) (by omega) (by omega)
    have er : addLines T sep wsep first (l :: lines) c p q = addLines T sep wsep false lines
      { r0.1 with notes := if r0.2.1 ≤ r0.2.2 then r0.1.notes ++ [(if first then .header else .data, r0.2.1, r0.2.2)] else r0.1.notes }
      (min p r0.2.1) (max q r0.2.2) := by
      rw [addLines]; simp only [hr0]
    rw [er]
    have haddr : (r0.1.app.address : Int) = (c.app.address : Int) + width T ts := by
      rw [f1, hi'.2.2]; simp [width]
    have haddr' : r0.1.app.address = c.app.address + width T ts := by omega
    simp only at ih ⊢
    obtain ⟨g1, g2, g3, g4⟩ := ih
    -- the record
    have hrec : (r0.2.1 = maxfinity ∧ r0.2.2 = minfinity ∧ width T ts = 0) ∨
        (0 < width T ts ∧ r0.2.1 = c.app.address ∧ r0.2.2 = (c.app.address : Int) + width T ts - 1) ∨
        (width T ts = 0 ∧ 0 < width T L.flatten ∧ r0.2.1 = (c.app.address : Int) + 1 ∧ r0.2.2 = c.app.address) := by
      rcases ht1 with e | ⟨s, hs, hsp⟩ | ⟨e, hlater⟩
      · have := f0 (ftexts e)
        subst e
        exact .inl ⟨by rw [this], by rw [this], rfl⟩
      · obtain ⟨e1, e2⟩ := f3 ⟨s, hs, hsp⟩
        have hw : 0 < width T ts := by
          obtain ⟨t, ht⟩ := List.getLast?_eq_some_iff.1 hs
          rw [ht, width_append, width_cons]; omega
        exact .inr (.inl ⟨hw, by rw [e1]; omega, by rw [e2]; omega⟩)
      · by_cases he : splitTsv l sep = []
        · have := f0 he
          exact .inl ⟨by rw [this], by rw [this], e⟩
        · obtain ⟨e1, e2⟩ := f4 e he
          exact .inr (.inr ⟨e, hlater, by rw [e1]; omega, by rw [e2]; omega⟩)
    have hnotes : (if r0.2.1 ≤ r0.2.2 then r0.1.notes ++ [((if first then Feature.header else .data), r0.2.1, r0.2.2)] else r0.1.notes) =
        c.notes ++ (fieldNotes T c.app.address 0 ts ++ whole (if first then .header else .data) c.app.address (width T ts)) := by
      rw [f2]
      unfold whole
      rcases hrec with ⟨e1, e2, e3⟩ | ⟨e1, e2, e3⟩ | ⟨e1, e2, e3, e4⟩
      · rw [e1, e2, if_neg (by omega), if_neg (by omega)]; simp
      · rw [e2, e3, if_pos (by omega), if_pos e1]; simp
      · rw [e3, e4, if_neg (by omega), if_neg (by omega)]; simp
    refine ⟨by rw [g1, f1, all_append], ?_, ?_, ?_⟩
    · rw [g2, hnotes, haddr']; simp [rows]
    · intro hw
      by_cases hL0 : width T L.flatten = 0
      · obtain ⟨e1, e2⟩ := g4 hL0
        rw [e1, e2]
        rcases hrec with ⟨a1, a2, a3⟩ | ⟨a1, a2, a3⟩ | ⟨a1, a2, a3, a4⟩
        · omega
        · rw [a2, a3]; constructor <;> omega
        · omega
      · obtain ⟨e1, e2⟩ := g3 (by omega)
        rw [e1, e2]
        rcases hrec with ⟨a1, a2, a3⟩ | ⟨a1, a2, a3⟩ | ⟨a1, a2, a3, a4⟩
        · rw [a1, a2]; constructor <;> omega
        · rw [a2, a3]; constructor <;> omega
        · rw [a3, a4]; constructor <;> omega
    · intro hw
      obtain ⟨e1, e2⟩ := g4 (by omega)
      rw [e1, e2]
      rcases hrec with ⟨a1, a2, a3⟩ | ⟨a1, a2, a3⟩ | ⟨a1, a2, a3, a4⟩
      · rw [a1, a2]; constructor <;> omega
      · omega
      · omega

end

/-! ### the annotations of a feature are apart -/

theorem fieldNotes_in (T : Tokenizer) : ∀ (ts : List Text) (b j : Nat) (x : Note), x ∈ fieldNotes T b j ts →
    (b : Int) ≤ x.2.1 ∧ x.2.1 ≤ x.2.2 ∧ x.2.2 < (b : Int) + width T ts ∧ ∃ i, x.1 = .field i ∧ j ≤ i
  | [], _, _, _, h => by simp [fieldNotes] at h
  | s :: ts, b, j, x, h => by
    rw [width_cons]
    rcases List.mem_append.1 h with h | h
    · split at h
      · simp only [List.mem_cons, List.not_mem_nil, or_false] at h
        subst h
        exact ⟨by simp only; omega, by simp only; omega, by simp only; omega, j, rfl, Nat.le_refl _⟩
      · simp at h
    · obtain ⟨h1, h2, h3, i, h4, h5⟩ := fieldNotes_in T ts _ _ x h
      exact ⟨by omega, h2, by omega, i, h4, by omega⟩

theorem fieldNotes_apart (T : Tokenizer) : ∀ (ts : List Text) (b j : Nat),
    (fieldNotes T b j ts).Pairwise fun x y => x.1 ≠ y.1
  | [], _, _ => by simp [fieldNotes]
  | s :: ts, b, j => by
    simp only [fieldNotes]
    refine List.pairwise_append.2 ⟨?_, fieldNotes_apart T ts _ _, ?_⟩
    · split <;> simp
    · intro x hx y hy
      split at hx
      · simp only [List.mem_cons, List.not_mem_nil, or_false] at hx
        subst hx
        obtain ⟨-, -, -, i, h4, h5⟩ := fieldNotes_in T ts _ _ y hy
        rw [h4]
        intro e
        simp only [Feature.field.injEq] at e
        omega
      · simp at hx

theorem rows_in (T : Tokenizer) : ∀ (l : List (List Text)) (first : Bool) (b : Nat) (x : Note), x ∈ rows T first b l →
    (b : Int) ≤ x.2.1 ∧ x.2.1 ≤ x.2.2 ∧ x.2.2 < (b : Int) + width T l.flatten ∧ x.1 ≠ .path
  | [], _, _, _, h => by simp [rows] at h
  | ts :: l, first, b, x, h => by
    rw [List.flatten_cons, width_append]
    simp only [rows, List.append_assoc] at h
    rcases List.mem_append.1 h with h | h
    · obtain ⟨h1, h2, h3, i, h4, -⟩ := fieldNotes_in T ts _ _ x h
      exact ⟨h1, h2, by omega, by rw [h4]; simp⟩
    · rcases List.mem_append.1 h with h | h
      · unfold whole at h
        split at h
        · simp only [List.mem_cons, List.not_mem_nil, or_false] at h
          subst h
          exact ⟨by simp only; omega, by simp only; omega, by simp only; omega, by cases first <;> simp⟩
        · simp at h
      · obtain ⟨h1, h2, h3, h4⟩ := rows_in T l _ _ x h
        exact ⟨by omega, h2, by omega, h4⟩

theorem rows_apart (T : Tokenizer) : ∀ (l : List (List Text)) (first : Bool) (b : Nat),
    (rows T first b l).Pairwise fun x y => x.1 = y.1 → x.2.2 < y.2.1
  | [], _, _ => by simp [rows]
  | ts :: l, first, b => by
    simp only [rows]
    refine List.pairwise_append.2 ⟨List.pairwise_append.2 ⟨?_, ?_, ?_⟩, rows_apart T l _ _, ?_⟩
    · exact (fieldNotes_apart T ts b 0).imp fun h e => absurd e h
    · unfold whole; split <;> simp
    · intro x hx y hy e
      obtain ⟨-, -, -, i, h4, -⟩ := fieldNotes_in T ts _ _ x hx
      unfold whole at hy
      split at hy
      · simp only [List.mem_cons, List.not_mem_nil, or_false] at hy
        subst hy
        rw [h4] at e
        cases first <;> simp at e
      · simp at hy
    · intro x hx y hy _
      have h1 := (rows_in T l _ _ y hy).1
      have h2 : x.2.2 < (b : Int) + width T ts := by
        rcases List.mem_append.1 hx with h | h
        · exact (fieldNotes_in T ts _ _ x h).2.2.1
        · unfold whole at h
          split at h
          · simp only [List.mem_cons, List.not_mem_nil, or_false] at h
            subst h
            simp only; omega
          · simp at h
      omega

end Verif.Tsv
