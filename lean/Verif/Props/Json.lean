import Verif.Json.Read
import Verif.Props.Text
/-
  C34: JSON documents survive the round trip.
-/
namespace Verif.Props
open Verif.Text Verif.Hopper Verif.Json

/-- Asking a warren for the addresses of an annotation, through JSON translation
(`JsonTxt::translate_`), gives JSON for the value; the readers can be asked again.  `base` is
the address of the transaction. -/
def ReadsAs (act : Nat → Action) (rs : List TextReader) (xs : List Shard) (base : Nat) (x : Note) (w : Value) : Prop :=
  ∃ X rs', readAll (utf8 act) (base + x.p) (base + x.q) rs = some (X, rs') ∧ ServesAll rs' xs ∧
    IsJson (jsonTranslate X) w

/-- A document of the value `v` scribed into the transaction `t` of a warren, after the texts
`l` and before the texts `r`.  The rest of the warren is any transactions, merged in any way.
If the document has the first token of its transaction, only white space was appended before
it; and what is stored after it, `F`, is white space up to the next token. -/
structure Scribed (act : Nat → Action) (v : Value) (l r : List Text) (before after : List (List Txn))
    (L R : List Txn) (t : Txn) (F : Text) : Prop where
  texts : t.texts = l ++ Json.texts v ++ r
  fit : ∀ g ∈ before ++ (L ++ t :: R) :: after, ∀ u ∈ g, ∀ x ∈ u.texts, Complete (body x)
  order : InOrder (utf8 act) (before ++ (L ++ t :: R) :: after).flatten
  first : (l.map (utf8 act).addresses).sum = 0 → Spaces (l.map stored).flatten
  follows : t.text ++ (R.map Txn.text).flatten =
    (l.map stored).flatten ++ ((Json.texts v).map stored).flatten ++ F
  last : Spaces (F.take ((utf8 act).skip F 0))

/-- What `json_scribe` does with a document that parses as `v`: it appends the texts
`texts v`, one after the other, and returns the range of their addresses. -/
theorem C34_scribe {act : Nat → Action} (hA : JsonTable act) {parse : Text → Option Value} {doc : Text} {v : Value}
    (hp : parse (if containsNonchar doc then sanitize doc else doc) = some v) (hv : v.Fit) {st : Scribe} {l : List Text}
    (hl : ∀ s ∈ l, Complete (body s)) (hst : st.app = App.all (utf8 act) {} l) :
    ∃ st' p q, jsonScribe parse (utf8 act) doc st = some (st', p, q) ∧
      st'.app = App.all (utf8 act) {} (l ++ texts v) ∧ p = ((l.map (utf8 act).addresses).sum : Nat) ∧
      q = (((l ++ texts v).map (utf8 act).addresses).sum : Nat) - 1 ∧ p ≤ q := by
  have hT := utf8_lawful act
  obtain ⟨i1, -, i3⟩ := all_inv hT (start_inv hT) (fun s hs => utf8_clean hA.separates (hl s hs))
  rw [← hst] at i1 i3
  have hok : ∀ s ∈ texts v, Ok (utf8 act) s := fun s hs => Good.ok hA (texts_good hA v hv s hs)
  have h1 := doJson_eq hT v hok [0x3A] st i1
  refine ⟨_, _, _, by rw [jsonScribe, hp], ?_, ?_, ?_, ?_⟩
  all_goals rw [h1]
  · show App.all _ st.app _ = _
    rw [hst, all_append]
  · show (st.app.address : Int) = _
    rw [i3]; simp
  · show (st.app.address : Int) + cnt (utf8 act) (texts v) - 1 = _
    rw [i3]; simp [cnt]
  · have : 0 < cnt (utf8 act) (texts v) := by
      cases hx : texts v with
      | nil => exact absurd hx (texts_ne v)
      | cons s k =>
        have := (hok s (by rw [hx]; exact List.mem_cons_self ..)).2
        rw [cnt_cons]; omega
    show (st.app.address : Int) ≤ st.app.address + cnt (utf8 act) (texts v) - 1
    omega

theorem read_part {act : Nat → Action} (hA : JsonTable act) {v : Value} (hv : v.Fit) {l r : List Text}
    {before after : List (List Txn)} {L R : List Txn} {t : Txn} {F : Text}
    (h : Scribed act v l r before after L R t F) {rs : List TextReader}
    (hrs : ServesAll rs (shardsOf (utf8 act) (before ++ (L ++ t :: R) :: after)))
    {w : Value} (hw : w.Fit) {A B : List Text} (hAB : texts v = A ++ texts w ++ B) (hs : Sides w v A B)
    {x : Note} (hx : On (utf8 act) x (cnt (utf8 act) l + cnt (utf8 act) A) (texts w)) :
    ReadsAs act rs (shardsOf (utf8 act) (before ++ (L ++ t :: R) :: after)) t.base x w := by
  have hT := utf8_lawful act
  have hg := texts_good hA v hv
  have hgw : ∀ s ∈ texts w, Good act s := fun s hs => hg s (by rw [hAB]; simp [hs])
  have hgA : ∀ s ∈ A, Good act s := fun s hs => hg s (by rw [hAB]; simp [hs])
  have hpos : ∀ k : List Text, k ≠ [] → (∀ s ∈ k, Good act s) → 0 < cnt (utf8 act) k := by
    intro k hk hgk
    cases k with
    | nil => exact absurd rfl hk
    | cons s k =>
      have := (Good.ok hA (hgk s (List.mem_cons_self ..))).2
      rw [cnt_cons]; omega
  have hc := hpos _ (texts_ne w) hgw
  -- a list of such texts starts with a token
  have hstart : ∀ k : List Text, k ≠ [] → (∀ s ∈ k, Good act s) → ∀ G, (utf8 act).skip (store k ++ G) 0 = 0 := by
    intro k hk hgk G
    cases k with
    | nil => exact absurd rfl hk
    | cons s k =>
      rw [store_cons]
      unfold stored
      rw [List.append_assoc, List.append_assoc]
      exact (hgk s (List.mem_cons_self ..)).1.2 _
  have hX : t.text ++ (R.map Txn.text).flatten = store (l ++ A) ++ (store (texts w) ++ (store B ++ F)) := by
    rw [h.follows]
    show store l ++ store (texts v) ++ F = _
    rw [hAB]
    simp only [store_append, List.append_assoc]
  have hcount : t.count (utf8 act) = cnt (utf8 act) l + (cnt (utf8 act) A + cnt (utf8 act) (texts w) +
      (cnt (utf8 act) B + cnt (utf8 act) r)) := by
    show cnt (utf8 act) t.texts = _
    rw [h.texts, hAB]; simp only [cnt_append]; omega
  have hlc : ∀ u ∈ l, Clean (utf8 act) u := by
    intro u hu
    refine utf8_clean hA.separates (h.fit (L ++ t :: R) (by simp) t (by simp) u ?_)
    rw [h.texts]; simp [hu]
  have hlA : ∀ u ∈ l ++ A, Clean (utf8 act) u := by
    intro u hu; rw [List.mem_append] at hu
    rcases hu with hu | hu
    · exact hlc u hu
    · exact (Good.ok hA (hgA u hu)).1
  have hsl := slice_texts hT (l := l ++ A) (M := texts w) (F := store B ++ F) hlA
    (fun u hu => (Good.ok hA (hgw u hu)).1) (hstart _ (texts_ne w) hgw _) rfl rfl
  rw [cnt_append] at hsl
  obtain ⟨rs', h1, h2⟩ := C27_range_partial (.utf8 act hA.separates) h.fit h.order hrs
    (i := cnt (utf8 act) l + cnt (utf8 act) A)
    (j := cnt (utf8 act) l + cnt (utf8 act) A + cnt (utf8 act) (texts w) - 1) (by omega) (by omega) hX.symm rfl
  have e1 : cnt (utf8 act) l + cnt (utf8 act) A + cnt (utf8 act) (texts w) - 1 + 1 =
    cnt (utf8 act) l + cnt (utf8 act) A + cnt (utf8 act) (texts w) := by omega
  rw [e1, hsl] at h1
  have e2 : ((cnt (utf8 act) l + cnt (utf8 act) A + cnt (utf8 act) (texts w) - 1 : Nat) : Int) = x.q := by
    rw [hx.2]; omega
  rw [e2, ← hx.1] at h1
  refine ⟨_, rs', h1, h2, ?_⟩
  rcases hs with ⟨rfl, rfl, rfl⟩ | ⟨hA0, hB0⟩
  · refine json_between ?_ ?_ hw
    · split
      · rename_i h0
        rw [List.append_nil]
        exact h.first (by simp only [cnt_nil] at h0; exact h0)
      · exact spaces_nil
    · exact h.last
  · have hA1 := hpos A hA0 hgA
    rw [if_neg (by omega)]
    have hgB : ∀ s ∈ B, Good act s := fun s hs => hg s (by rw [hAB]; simp [hs])
    rw [hstart B hB0 hgB F]
    exact json_between spaces_nil spaces_nil hw

/-- C34 (what is missing: strings and keys with control characters, with U+FDD0 to U+FDD9, or
ending within a UTF-8 sequence, see `C34_newline`, `C34_tab`, `C34_nul` and
`C34_noncharacter` below; and numbers, of which six decimals are kept).

Every part of a document that is scribed has an annotation under its name with its value,
and asking for the addresses of that annotation gives JSON for the part, whatever
transactions the warren holds and whatever of them are merged. -/
theorem C34_parts_partial {act : Nat → Action} (hA : JsonTable act) {parse : Text → Option Value} {doc : Text} {v : Value}
    (hp : parse (if containsNonchar doc then sanitize doc else doc) = some v) (hv : v.Fit)
    {l r : List Text} {before after : List (List Txn)} {L R : List Txn} {t : Txn} {F : Text}
    (h : Scribed act v l r before after L R t F) {rs : List TextReader}
    (hrs : ServesAll rs (shardsOf (utf8 act) (before ++ (L ++ t :: R) :: after)))
    {st st' : Scribe} {p q : Int} (hst : st.app = App.all (utf8 act) {} l)
    (hs : jsonScribe parse (utf8 act) doc st = some (st', p, q))
    {tag : Text} {m : Mark} {w : Value} (hw : Tagged [0x3A] v tag m w) :
    ∃ x ∈ st'.notes, x.tag = tag ∧ x.v = m ∧
      ReadsAs act rs (shardsOf (utf8 act) (before ++ (L ++ t :: R) :: after)) t.base x w := by
  have hT := utf8_lawful act
  have hl : ∀ s ∈ l, Clean (utf8 act) s := fun s hs =>
    utf8_clean hA.separates (h.fit (L ++ t :: R) (by simp) t (by simp) s (by rw [h.texts]; simp [hs]))
  obtain ⟨i1, -, i3⟩ := all_inv hT (start_inv hT) hl
  rw [← hst] at i1 i3
  have hok : ∀ s ∈ texts v, Ok (utf8 act) s := fun s hs => Good.ok hA (texts_good hA v hv s hs)
  have h1 := doJson_eq hT v hok [0x3A] st i1
  rw [jsonScribe, hp] at hs
  simp only [h1, Option.some.injEq, Prod.mk.injEq] at hs
  obtain ⟨hs, -⟩ := hs
  obtain ⟨A, B, e1, e2, e3⟩ := tagged_place (T := utf8 act) hw
  obtain ⟨x, hx, x1, x2, x3⟩ := e3 st.app.address
  refine ⟨x, by rw [← hs]; exact List.mem_append_right _ hx, x1, x2, ?_⟩
  have ea : st.app.address = cnt (utf8 act) l := by rw [i3]; simp [cnt]
  rw [ea] at x3
  exact read_part hA hv h hrs (tagged_fit hw hv) e1 e2 x3

/-- No other annotations are made: each is that of a part of the document, under its name
and with its value, and its addresses read as JSON for that part. -/
theorem C34_only_partial {act : Nat → Action} (hA : JsonTable act) {parse : Text → Option Value} {doc : Text} {v : Value}
    (hp : parse (if containsNonchar doc then sanitize doc else doc) = some v) (hv : v.Fit)
    {l r : List Text} {before after : List (List Txn)} {L R : List Txn} {t : Txn} {F : Text}
    (h : Scribed act v l r before after L R t F) {rs : List TextReader}
    (hrs : ServesAll rs (shardsOf (utf8 act) (before ++ (L ++ t :: R) :: after)))
    {st st' : Scribe} {p q : Int} (hst : st.app = App.all (utf8 act) {} l)
    (hs : jsonScribe parse (utf8 act) doc st = some (st', p, q)) :
    ∃ ns, st'.notes = st.notes ++ ns ∧ ∀ x ∈ ns, ∃ w, Tagged [0x3A] v x.tag x.v w ∧
      ReadsAs act rs (shardsOf (utf8 act) (before ++ (L ++ t :: R) :: after)) t.base x w := by
  have hT := utf8_lawful act
  have hl : ∀ s ∈ l, Clean (utf8 act) s := fun s hs =>
    utf8_clean hA.separates (h.fit (L ++ t :: R) (by simp) t (by simp) s (by rw [h.texts]; simp [hs]))
  obtain ⟨i1, -, i3⟩ := all_inv hT (start_inv hT) hl
  rw [← hst] at i1 i3
  have hok : ∀ s ∈ texts v, Ok (utf8 act) s := fun s hs => Good.ok hA (texts_good hA v hv s hs)
  have h1 := doJson_eq hT v hok [0x3A] st i1
  rw [jsonScribe, hp] at hs
  simp only [h1, Option.some.injEq, Prod.mk.injEq] at hs
  obtain ⟨hs, -⟩ := hs
  refine ⟨notesOf (utf8 act) v [0x3A] st.app.address, by rw [← hs]; rfl, fun x hx => ?_⟩
  obtain ⟨w, A, B, hw, e1, e2, e3⟩ := notes_place v [0x3A] st.app.address x hx
  have ea : st.app.address = cnt (utf8 act) l := by rw [i3]; simp [cnt]
  rw [ea] at e3
  exact ⟨w, hw, read_part hA hv h hrs (tagged_fit hw hv) e1 e2 e3⟩

/-! ### noncharacters in the document -/

/-- A document without the bytes `EF B7` (U+FDC0 to U+FDFF) is parsed as it is. -/
theorem C34_as_it_is {doc : Text} (h : ¬ [0xEF, 0xB7] <:+: doc) :
    (if containsNonchar doc then sanitize doc else doc) = doc := by
  cases hc : containsNonchar doc with
  | false => rfl
  | true => exact absurd ((contains_infix doc).1 hc) h

/-- `sanitize` changes nothing in a text without NUL that has none of U+FDD0 to U+FDFF … -/
theorem C34_sanitize_keeps {doc : Text} (h0 : (0 : UInt8) ∉ doc)
    (h : ∀ c : UInt8, c ≠ 0 → c < 0x80 ∨ 0x90 ≤ c → ¬ [0xEF, 0xB7, c] <:+: doc) : sanitize doc = doc :=
  sanitize_id h0 fun c hc => h c hc.1 hc.2

/-- … and leaves none of U+FDD0 to U+FDD9, with which documents are marked up. -/
theorem C34_sanitize_removes (doc : Text) {t : UInt8} (h1 : 0x90 ≤ t) (h2 : t ≤ 0x99) :
    ¬ [0xEF, 0xB7, t] <:+: sanitize doc := by
  refine sanitize_free doc 0 t ⟨?_, Or.inr h1⟩
  rintro rfl; revert h1; decide

/-! ### examples -/

/-- a table with the noncharacters -/
def jsonTable (c : Nat) : Action := if 0xFDD0 ≤ c ∧ c ≤ 0xFDEF then .uni else smallTable c

theorem jsonTable_fits : JsonTable jsonTable :=
  ⟨⟨by decide, by decide, by decide⟩, by decide, by decide⟩

/-- `{"a":[1,"x\"y"],"b":null}` -/
def exampleValue : Value :=
  .obj (.cons [0x61] (.arr (.cons (.num 1 false 1000000) (.cons (.str [0x78, 0x22, 0x79]) .nil)))
    (.cons [0x62] .null .nil))

theorem plain_ascii {s : Text} (h : ∀ b ∈ s, (0x20 : UInt8) ≤ b ∧ b < 0x80) : Plain s := by
  refine ⟨fun b hb => (h b hb).1, ?_, complete_low fun c hc => UInt8.lt_trans (h c hc).2 (by decide)⟩
  intro t _ _ hx
  have := h 0xEF (hx.subset (List.mem_cons_self ..))
  exact absurd this.2 (by decide)

theorem exampleValue_fits : exampleValue.Fit := by
  simp only [exampleValue, Value.Fit, Elems.Fit, Members.Fit, and_true, true_and]
  exact ⟨plain_ascii (by decide), plain_ascii (by decide), plain_ascii (by decide)⟩

/-- the document between the texts `z` and ` z`, and another transaction -/
def exampleTxn : Txn := ⟨7, [[0x7A]] ++ texts exampleValue ++ [[0x20, 0x7A]]⟩

theorem example_scribed : Scribed jsonTable exampleValue [[0x7A]] [[0x20, 0x7A]] [] [] [] [⟨60, [[0x7A]]⟩] exampleTxn
    [0x20, 0x7A, 0x0A, 0x7A, 0x0A] := by
  have hg : ∀ g ∈ [[exampleTxn, ⟨60, [[0x7A]]⟩]], ∀ u ∈ g, ∀ x ∈ u.texts, Complete (body x) := by
    intro g hg u hu x hx
    rw [List.mem_singleton] at hg; subst hg
    rw [List.mem_cons, List.mem_singleton] at hu
    have hz : Complete (body [0x7A]) ∧ Complete (body [0x20, 0x7A]) :=
      ⟨complete_low (by decide), complete_low (by decide)⟩
    rcases hu with rfl | rfl
    · have : x = [0x7A] ∨ x ∈ texts exampleValue ∨ x = [0x20, 0x7A] := by
        simpa [exampleTxn] using hx
      rcases this with rfl | h | rfl
      · exact hz.1
      · exact (texts_good jsonTable_fits exampleValue exampleValue_fits x h).2
      · exact hz.2
    · have : x = [0x7A] := by simpa using hx
      rw [this]; exact hz.1
  refine ⟨rfl, hg, ⟨by decide +kernel, by decide +kernel⟩, ?_, by decide +kernel, ?_⟩
  · intro h; exact absurd h (by decide)
  · have : ([0x20, 0x7A, 0x0A, 0x7A, 0x0A] : Text).take ((utf8 jsonTable).skip [0x20, 0x7A, 0x0A, 0x7A, 0x0A] 0) = [0x20] := by
      decide
    rw [this]; exact spaces_one

/-- `:a:[1]:` names the string `x"y` -/
theorem example_tagged : Tagged [0x3A] exampleValue [0x3A, 0x61, 0x3A, 0x5B, 0x31, 0x5D, 0x3A] .zero (.str [0x78, 0x22, 0x79]) :=
  .member (k := [0x61]) (List.mem_cons_self ..) (.element (i := 1) rfl (.self _ _))

/-- All the hypotheses hold of it: the string is read from the warren as JSON. -/
example : ∃ x ∈ (doJson (utf8 jsonTable) exampleValue [0x3A] ⟨App.all (utf8 jsonTable) {} [[0x7A]], []⟩).1.notes,
    x.tag = [0x3A, 0x61, 0x3A, 0x5B, 0x31, 0x5D, 0x3A] ∧ x.v = .zero ∧
    ReadsAs jsonTable (freshReaders (utf8 jsonTable) [[exampleTxn, ⟨60, [[0x7A]]⟩]])
      (shardsOf (utf8 jsonTable) [[exampleTxn, ⟨60, [[0x7A]]⟩]]) 7 x (.str [0x78, 0x22, 0x79]) :=
  C34_parts_partial jsonTable_fits (parse := fun _ => some exampleValue) (doc := []) rfl exampleValue_fits
    example_scribed (C27_fresh (.utf8 jsonTable jsonTable_fits.separates) example_scribed.fit example_scribed.order)
    (st := ⟨App.all (utf8 jsonTable) {} [[0x7A]], []⟩) rfl rfl example_tagged

/-- The document `{"a":[1,"x\"y"],"b":null}` reads back as
`{ "a": [ 1.000000 , "x\"y" ] , "b": null }`. -/
example : jsonTranslate ((texts exampleValue).map stored).flatten =
    [0x7B, 0x20, 0x22, 0x61, 0x22, 0x3A, 0x20, 0x5B, 0x20, 0x31, 0x2E, 0x30, 0x30, 0x30, 0x30, 0x30, 0x30, 0x20,
     0x2C, 0x20, 0x22, 0x78, 0x5C, 0x22, 0x79, 0x22, 0x20, 0x5D, 0x20, 0x2C, 0x20, 0x22, 0x62, 0x22, 0x3A, 0x20,
     0x6E, 0x75, 0x6C, 0x6C, 0x20, 0x7D] := by decide +kernel

/-! ### where documents are changed -/

/-- A newline in a string becomes a blank: `"a\nb"` reads as `"a b"`. -/
theorem C34_newline : jsonTranslate ((texts (.str [0x61, 0x0A, 0x62])).map stored).flatten =
      [0x22, 0x61, 0x20, 0x62, 0x22] ∧
    IsJson [0x22, 0x61, 0x20, 0x62, 0x22] (.str [0x61, 0x20, 0x62]) := by
  refine ⟨by decide, [], _, [], rfl, spaces_nil, .str (x := [0x61, 0x20, 0x62]) ?_, spaces_nil⟩
  exact .plain _ (by decide) (by decide) (by decide) (.plain _ (by decide) (by decide) (by decide)
    (.plain _ (by decide) (by decide) (by decide) .nil))

/-- A tab in a string is put out as it is, which is no JSON at all. -/
theorem C34_tab : jsonTranslate ((texts (.str [0x09])).map stored).flatten = [0x22, 0x09, 0x22] ∧
    ∀ v, ¬ IsJson [0x22, 0x09, 0x22] v := by
  refine ⟨by decide, fun v h => ?_⟩
  obtain ⟨k, s, e, hk⟩ := json_string h (by intro b hb; cases hb; unfold Space; decide)
  have : k = [0x09] := by
    injection e with _ e
    exact ((List.append_inj' (s₁ := [0x09]) (t₁ := [0x22]) e rfl).1).symm
  subst this
  cases hk with
  | plain _ h1 => exact absurd h1 (by decide)

/-- A NUL byte in a string (`"a\u0000b"`) ends the text that is read: `"a`, no JSON. -/
theorem C34_nul : jsonTranslate ((texts (.str [0x61, 0x00, 0x62])).map stored).flatten = [0x22, 0x61] ∧
    ∀ v, ¬ IsJson [0x22, 0x61] v := by
  refine ⟨by decide, fun v h => ?_⟩
  obtain ⟨k, s, e, hk⟩ := json_string h (by intro b hb; cases hb; unfold Space; decide)
  injection e with _ e
  have := congrArg List.getLast? e
  simp at this

/-- A string of the noncharacter U+FDD5, written `"\ufdd5"` in the document, which `sanitize`
cannot see: it reads as three quotation marks, no JSON. -/
theorem C34_noncharacter :
    sanitize [0x22, 0x5C, 0x75, 0x66, 0x64, 0x64, 0x35, 0x22] = [0x22, 0x5C, 0x75, 0x66, 0x64, 0x64, 0x35, 0x22] ∧
    IsJson [0x22, 0x5C, 0x75, 0x66, 0x64, 0x64, 0x35, 0x22] (.str [0xEF, 0xB7, 0x95]) ∧
    jsonTranslate ((texts (.str [0xEF, 0xB7, 0x95])).map stored).flatten = [0x22, 0x22, 0x22] ∧
    ∀ v, ¬ IsJson [0x22, 0x22, 0x22] v := by
  refine ⟨by decide, ⟨[], _, [], rfl, spaces_nil, .str (x := [0x5C, 0x75, 0x66, 0x64, 0x64, 0x35]) ?_, spaces_nil⟩,
    by decide, fun v h => ?_⟩
  · exact .code (h := [0x66, 0x64, 0x64, 0x35]) (n := 0xFDD5)
      ⟨_, _, _, _, 15, 13, 13, 5, rfl, by decide, by decide, by decide, by decide, by decide⟩ (Or.inr (by decide)) .nil
  · obtain ⟨k, s, e, hk⟩ := json_string h (by intro b hb; cases hb; unfold Space; decide)
    have : k = [0x22] := by
      injection e with _ e
      exact ((List.append_inj' (s₁ := [0x22]) (t₁ := [0x22]) e rfl).1).symm
    subst this
    cases hk with
    | plain _ _ h1 => exact absurd rfl h1

/-- `sanitize` replaces U+FDF0, an Arabic ligature, by U+FFFD as well, because it compares
signed bytes (src/json.cc 148-151): the string is another one when it is read back. -/
theorem C34_ligature : containsNonchar [0x22, 0xEF, 0xB7, 0xB0, 0x22] = true ∧
    sanitize [0x22, 0xEF, 0xB7, 0xB0, 0x22] = [0x22, 0xEF, 0xBF, 0xBD, 0x22] := by decide

/-- With the ASCII tokenizer the brackets are no tokens: the array `[1]` is annotated at
addresses 1 to 2, its element at 0 to 1. -/
theorem C34_ascii : (doJson (ascii false) (.arr (.cons (.num 1 false 1000000) .nil)) [0x3A] {}).1.notes =
    [⟨[0x3A, 0x5B, 0x30, 0x5D, 0x3A], 0, 1, .double 1⟩, ⟨[0x3A], 1, 2, .size 1⟩] := by decide +kernel

/-- What `json_encode` puts between its marks writes the string, whatever its bytes are … -/
theorem C34_encode_chars (s : Text) : ∃ x, jsonEncode s = [0xEF, 0xB7, 0x94] ++ x ++ [0xEF, 0xB7, 0x95] ∧ Chars x s :=
  ⟨_, rfl, chars_encode s⟩

/-- … but `json_encode` escapes what `json_translate` escapes again: `"` reads as `\"`. -/
theorem C34_encode : jsonTranslate (jsonEncode [0x22]) = [0x22, 0x5C, 0x5C, 0x5C, 0x22, 0x22] ∧
    IsJson [0x22, 0x5C, 0x5C, 0x5C, 0x22, 0x22] (.str [0x5C, 0x22]) := by
  refine ⟨by decide, [], _, [], rfl, spaces_nil, .str (x := [0x5C, 0x5C, 0x5C, 0x22]) ?_, spaces_nil⟩
  exact .short (e := 0x5C) rfl (.short (e := 0x22) rfl .nil)

end Verif.Props
