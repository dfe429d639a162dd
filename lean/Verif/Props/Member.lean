import Verif.Member.Write
/-
  C82: a label in any JSON is read as JSON says.
-/
namespace Verif.Props
open Verif.Text Verif.Member
open Verif.Label (forager2json)
open Verif.Json (Value Members Elems Space Spaces Chars)

/-- **C82**, the label: of any JSON text of an object, whatever the order of its members, its white space and how
often it repeats a member, and whatever other members it has, however deep, the name is the last name, the tag is
the last tag or empty, and a parameter is what it was set to last.  If the object does not describe a forager
nothing is read.  Zeros may follow.  The proviso is that either no character beyond ASCII is written with `\u`, or that what
the object says of the forager is ASCII. -/
theorem C82_label_partial {x : Text} {ms : Members} (h : IsText x (.obj ms)) (hw : NoWide x ∨ AsciiLabel ms)
    {z : Text} (hz : ∀ c ∈ z, c = 0) :
    (Describes ms → ∃ n m, last name (strings ms.toList) = some n ∧
      readLabel (x ++ z) = some (n, (last tag (strings ms.toList)).getD [], m) ∧
      (m.map (·.1)).Nodup ∧ ∀ k, m.lookup k = last k (settings ms)) ∧
    (¬ Describes ms → readLabel (x ++ z) = none) := by
  rw [label_read h hw hz]
  refine ⟨fun hd => ?_, fun hd => outcome_not hd⟩
  obtain ⟨v, hv⟩ := hd.named
  obtain ⟨s, rfl⟩ := hd.names v hv
  obtain ⟨n, hn⟩ := Option.isSome_iff_exists.1 (last_isSome.2 ⟨s, mem_strings.2 hv⟩)
  refine ⟨n, assignAll (settings ms) [], hn, ?_, assignAll_nodup _ _ (by simp), fun k => ?_⟩
  · rw [outcome_described hd, hn]; rfl
  · rw [assignAll_lookup]; simp

/-- **C82**, anything else: of a JSON text that is not an object nothing is read, whatever follows it. -/
theorem C82_other {x : Text} {v : Value} (h : IsText x v) (hv : ∀ ms, v ≠ .obj ms) (z : Text) : readLabel (x ++ z) = none :=
  other_read h hv z

/-- **C82**, what is not known: a JSON value of any kind and depth is passed over, white space before it with it, up to what
follows: the end of the text, white space, a comma or a closing bracket. -/
theorem C82_skip {a x rest : Text} {v : Value} (ha : Spaces a) (h : Writes x v)
    (hr : rest = [] ∨ ∃ c t, rest = c :: t ∧ (Space c ∨ c = 0x2C ∨ c = 0x5D ∨ c = 0x7D)) :
    skipValue (a ++ x ++ rest) = some rest :=
  skip_value ha h hr

/-- **C82**, what is written: the label of a forager, of any bytes, is a JSON text, of the object that has the name, the tag
and the parameters. -/
theorem C82_written (n t : Text) (ps : List (Text × Text)) : ∃ ms qs,
    IsText (forager2json n t ps) (.obj ms) ∧
    ms.toList = [(name, .str n), (tag, .str t), (parameters, .obj qs)] ∧ strings qs.toList = ps ∧ qs.toList.length = ps.length := by
  refine ⟨_, members ps, label_writes n t ps, rfl, ?_, ?_⟩
  · induction ps with
    | nil => rfl
    | cons e ps ih => rw [members, Members.toList, strings_cons, ih]; rfl
  · induction ps with
    | nil => rfl
    | cons e ps ih => rw [members, Members.toList, List.length_cons, ih]; rfl

/-! ### a case -/

/-- an object with a member that is not known, two names and two sets of parameters -/
def wideText : Text := [0x20, 0x7B, 0x20, 0x22, 0x78, 0x22, 0x3A, 0x20, 0x5B, 0x31, 0x2E, 0x35, 0x65, 0x2D, 0x33, 0x2C, 0x20, 0x7B, 0x22, 0x6E, 0x61, 0x6D, 0x65, 0x22, 0x3A, 0x20, 0x6E, 0x75, 0x6C, 0x6C, 0x7D, 0x5D, 0x2C, 0x20, 0x22, 0x6E, 0x61, 0x6D, 0x65, 0x22, 0x3A, 0x22, 0x61, 0x22, 0x20, 0x2C, 0x22, 0x70, 0x61, 0x72, 0x61, 0x6D, 0x65, 0x74, 0x65, 0x72, 0x73, 0x22, 0x3A, 0x7B, 0x22, 0x70, 0x22, 0x3A, 0x22, 0x31, 0x22, 0x2C, 0x22, 0x71, 0x22, 0x3A, 0x22, 0x32, 0x22, 0x7D, 0x2C, 0x22, 0x6E, 0x61, 0x6D, 0x65, 0x22, 0x3A, 0x22, 0x5C, 0x75, 0x30, 0x30, 0x36, 0x32, 0x22, 0x2C, 0x22, 0x70, 0x61, 0x72, 0x61, 0x6D, 0x65, 0x74, 0x65, 0x72, 0x73, 0x22, 0x3A, 0x7B, 0x22, 0x70, 0x22, 0x3A, 0x22, 0x33, 0x22, 0x7D, 0x7D] /- { "x": [1.5e-3, {"name": null}], "name":"a" ,"parameters":{"p":"1","q":"2"},"name":"\u0062","parameters":{"p":"3"}} -/

def wideMembers : Members :=
  .cons [0x78] (.arr (.cons (.num 0 false 1500) (.cons (.obj (.cons name .null .nil)) .nil)))
    (.cons name (.str [0x61]) (.cons parameters (.obj (.cons [0x70] (.str [0x31]) (.cons [0x71] (.str [0x32]) .nil)))
      (.cons name (.str [0x62]) (.cons parameters (.obj (.cons [0x70] (.str [0x33]) .nil)) .nil))))

theorem sp0 : Spaces [] := by intro c h; cases h
theorem sp1 : Spaces [0x20] := by intro c h; simp at h; exact .inl h
theorem plain1 {c : UInt8} (h1 : 0x20 ≤ c) (h2 : c ≠ 0x22) (h3 : c ≠ 0x5C) : Chars [c] [c] := .plain c h1 h2 h3 .nil
theorem chars_name : Chars name name := chars_plain (by decide)
theorem chars_parameters : Chars parameters parameters := chars_plain (by decide)
theorem chars_b : Chars [0x5C, 0x75, 0x30, 0x30, 0x36, 0x32] /- \u0062 -/ [0x62] :=
  .code (h := [0x30, 0x30, 0x36, 0x32] /- 0062 -/) (n := 0x62) ⟨0x30, 0x30, 0x36, 0x32, 0, 0, 6, 2, rfl, by decide, by decide, by decide, by decide, rfl⟩ (.inl (by decide)) .nil

theorem wide_number : IsNumber [0x31, 0x2E, 0x35, 0x65, 0x2D, 0x33] /- 1.5e-3 -/ :=
  ⟨[], [0x31], [0x2E, 0x35] /- .5 -/, [0x65, 0x2D, 0x33] /- e-3 -/, rfl, .inl rfl, by decide, by simp [Json.Digit], by decide, .inr ⟨[0x35], rfl, by decide, by simp [Json.Digit]⟩,
    .inr ⟨0x65, [0x2D], [0x33], rfl, .inl rfl, .inr (.inr rfl), by decide, by simp [Json.Digit]⟩⟩

theorem wide_text : IsText wideText (.obj wideMembers) := by
  have hs : ∀ {c : UInt8}, 0x20 ≤ c → c ≠ 0x22 → c ≠ 0x5C → Writes [0x22, c, 0x22] (.str [c]) :=
    fun h1 h2 h3 => .str (plain1 h1 h2 h3)
  have p3 : Pairs [0x22, 0x70, 0x22, 0x3A, 0x22, 0x33, 0x22] /- "p":"3" -/ (.cons [0x70] (.str [0x33]) .nil) :=
    .one (a := []) (b := []) (c := []) (d := []) sp0 (plain1 (by decide) (by decide) (by decide)) sp0 sp0 (hs (by decide) (by decide) (by decide)) sp0
  have q2 : Pairs [0x22, 0x71, 0x22, 0x3A, 0x22, 0x32, 0x22] /- "q":"2" -/ (.cons [0x71] (.str [0x32]) .nil) :=
    .one (a := []) (b := []) (c := []) (d := []) sp0 (plain1 (by decide) (by decide) (by decide)) sp0 sp0 (hs (by decide) (by decide) (by decide)) sp0
  have p1 : Pairs [0x22, 0x70, 0x22, 0x3A, 0x22, 0x31, 0x22, 0x2C, 0x22, 0x71, 0x22, 0x3A, 0x22, 0x32, 0x22] /- "p":"1","q":"2" -/ (.cons [0x70] (.str [0x31]) (.cons [0x71] (.str [0x32]) .nil)) :=
    .more (a := []) (b := []) (c := []) (d := []) sp0 (plain1 (by decide) (by decide) (by decide)) sp0 sp0 (hs (by decide) (by decide) (by decide)) sp0 q2
  have m5 := Pairs.one (a := []) (b := []) (c := []) (d := []) sp0 chars_parameters sp0 sp0 (.obj p3) sp0
  have m4 := Pairs.more (a := []) (b := []) (c := []) (d := []) sp0 chars_name sp0 sp0 (.str chars_b) sp0 m5
  have m3 := Pairs.more (a := []) (b := []) (c := []) (d := []) sp0 chars_parameters sp0 sp0 (.obj p1) sp0 m4
  have m2 := Pairs.more (a := [0x20]) (b := []) (c := []) (d := [0x20]) sp1 chars_name sp0 sp0 (hs (c := 0x61) (by decide) (by decide) (by decide)) sp1 m3
  have inner := Pairs.one (a := []) (b := []) (c := [0x20]) (d := []) sp0 chars_name sp0 sp1 .null sp0
  have items := Items.more (a := []) (b := []) sp0 (.num (v := 0) (neg := false) (m := 1500) wide_number) sp0
    (Items.one (a := [0x20]) (b := []) sp1 (.obj inner) sp0)
  have m1 := Pairs.more (a := [0x20]) (b := []) (c := [0x20]) (d := []) sp1 (plain1 (c := 0x78) (by decide) (by decide) (by decide)) sp0 sp1 (.arr items) sp0 m2
  exact ⟨[0x20], _, [], rfl, sp1, .obj m1, sp0⟩

example : Describes wideMembers where
  named := ⟨.str [0x61], by simp [wideMembers, Members.toList]⟩
  names := fun v hv => by
    simp [wideMembers, Members.toList, name, parameters] at hv
    rcases hv with rfl | rfl <;> exact ⟨_, rfl⟩
  tags := fun v hv => by simp [wideMembers, Members.toList, name, parameters, tag] at hv
  settings := fun ps hv k v h => by
    simp [wideMembers, Members.toList, name, parameters] at hv
    rcases hv with rfl | rfl <;> simp [Members.toList] at h
    · rcases h with ⟨-, rfl⟩ | ⟨-, rfl⟩ <;> exact ⟨_, rfl⟩
    · exact ⟨_, h.2⟩

example : AsciiLabel wideMembers where
  name := fun s hs => by
    simp [wideMembers, Members.toList, name, parameters] at hs
    rcases hs with rfl | rfl <;> intro c hc <;> simp at hc <;> subst hc <;> decide
  tag := fun s hs => by simp [wideMembers, Members.toList, name, parameters, tag] at hs
  settings := fun k s hs => by
    simp [wideMembers, settings, Members.toList, name, parameters, membersOf, strings] at hs
    rcases hs with ⟨rfl, rfl⟩ | ⟨rfl, rfl⟩ | ⟨rfl, rfl⟩ <;> constructor <;> intro c hc <;> simp at hc <;> subst hc <;> decide

example : readLabel wideText = some ([0x62], [], [([0x70], [0x33]), ([0x71], [0x32])]) := by decide +kernel

/-! ### where it is not read as JSON says -/

/-- **C82**, beyond ASCII: a name of one character whose escape has the digits `00e9` is read as one byte, which is not UTF-8
and not the name, and names whose escapes have the digits `0100` and `0101` are read as the same. -/
theorem C82_wide :
    (∃ x ms, IsText x (.obj ms) ∧ Describes ms ∧ last name (strings ms.toList) = some [0xC3, 0xA9] ∧
      readLabel x = some ([0xE9], [], [])) ∧
    (∃ x ms x' ms', IsText x (.obj ms) ∧ Describes ms ∧ IsText x' (.obj ms') ∧ Describes ms' ∧
      last name (strings ms.toList) ≠ last name (strings ms'.toList) ∧ (readLabel x).isSome ∧ readLabel x = readLabel x') := by
  have one : ∀ {h : Text} {n : Nat} (_ : Json.Hex4 h n) (_ : n < 0xD800),
      IsText ([0x7B, 0x22, 0x6E, 0x61, 0x6D, 0x65, 0x22, 0x3A, 0x22, 0x5C, 0x75] /- {"name":"\u -/ ++ h ++ [0x22, 0x7D] /- "} -/) (.obj (.cons name (.str (encode n)) .nil)) ∧
        Describes (.cons name (.str (encode n)) .nil) := by
    intro h n hh hn
    have hc : Chars (0x5C :: 0x75 :: (h ++ [])) (encode n ++ []) := .code hh (.inl hn) .nil
    rw [List.append_nil, List.append_nil] at hc
    have := Writes.obj (Pairs.one (a := []) (b := []) (c := []) (d := []) sp0 chars_name sp0 sp0 (.str hc) sp0)
    refine ⟨⟨[], _, [], ?_, sp0, this, sp0⟩, ⟨_, List.mem_cons_self⟩, fun v hv => ?_, fun v hv => ?_, fun ps hv => ?_⟩
    · simp [name]
    · simp [Members.toList] at hv; exact ⟨_, hv⟩
    · simp [Members.toList, name, tag] at hv
    · simp [Members.toList, name, parameters] at hv
  refine ⟨?_, ?_⟩
  · have := one (h := [0x30, 0x30, 0x65, 0x39] /- 00e9 -/) (n := 0xE9) ⟨0x30, 0x30, 0x65, 0x39, 0, 0, 14, 9, rfl, by decide, by decide, by decide, by decide, rfl⟩ (by decide)
    exact ⟨_, _, this.1, this.2, by decide, by decide +kernel⟩
  · have h1 := one (h := [0x30, 0x31, 0x30, 0x30] /- 0100 -/) (n := 0x100) ⟨0x30, 0x31, 0x30, 0x30, 0, 1, 0, 0, rfl, by decide, by decide, by decide, by decide, rfl⟩ (by decide)
    have h2 := one (h := [0x30, 0x31, 0x30, 0x31] /- 0101 -/) (n := 0x101) ⟨0x30, 0x31, 0x30, 0x31, 0, 1, 0, 1, rfl, by decide, by decide, by decide, by decide, rfl⟩ (by decide)
    exact ⟨_, _, _, _, h1.1, h1.2, h2.1, h2.2, by decide, by decide +kernel, by decide +kernel⟩

/-- **C82**, lenient: a number with a leading `+`, or with a leading zero, is no JSON value but is passed over. -/
theorem C82_lenient : (¬ ∃ v, Writes [0x2B, 0x31] /- +1 -/ v) ∧ skipValue [0x2B, 0x31] /- +1 -/ = some [] ∧ (¬ ∃ v, Writes [0x30, 0x31] /- 01 -/ v) ∧ skipValue [0x30, 0x31] /- 01 -/ = some [] := by
  have num : ∀ {x : Text}, (∃ v, Writes x v) → x.head? = some 0x2B ∨ x.head? = some 0x30 → IsNumber x := by
    rintro x ⟨v, h⟩ hx
    cases h <;> first | assumption | simp at hx
  refine ⟨fun h => ?_, by decide, fun h => ?_, by decide⟩
  · obtain ⟨c, t, e, -⟩ := number_begins (num h (.inl rfl))
    obtain ⟨sign, w, f, e, hx, hs, hne, hw, -⟩ := num h (.inl rfl)
    cases w with
    | nil => exact hne rfl
    | cons d w =>
      rcases hs with rfl | rfl
      · simp at hx
        have := digit_facts (hw d (by simp))
        exact this.2.2.2.2.2.2.2.1 hx.1.symm
      · simp at hx
  · obtain ⟨sign, w, f, e, hx, hs, hne, hw, hz, hf, he⟩ := num h (.inr rfl)
    cases w with
    | nil => exact hne rfl
    | cons d w =>
      rcases hs with rfl | rfl
      · simp only [List.nil_append, List.cons_append, List.cons.injEq] at hx
        obtain ⟨rfl, hx⟩ := hx
        have hw0 := hz rfl
        cases hw0
        rcases hf with rfl | ⟨ds, rfl, -⟩
        · rcases he with rfl | ⟨e, sg, ds, rfl, he, -⟩
          · simp at hx
          · simp at hx
            rcases he with rfl | rfl <;> simp at hx
        · simp at hx
      · simp at hx

end Verif.Props
