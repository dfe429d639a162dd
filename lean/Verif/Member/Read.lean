import Verif.Member.Proof
/-
  Proofs about labels in any JSON (C82): what is read of an object.
-/
namespace Verif.Member
open Verif.Text Verif.Label
open Verif.Json (Value Elems Members Space Spaces Digit Hex4 Chars hex escaped)

/-- the parameters of an object, one after the other -/
def takeParams : List (Text × Value) → List (Text × Text) → Option (List (Text × Text))
  | [], m => some m
  | (k, .str s) :: l, m => takeParams l (assign k s m)
  | _ :: _, _ => none

/-- one member of a label -/
def takeOne (k : Text) (v : Value) (r : Read) : Option Read :=
  if k = name then match v with
    | .str s => some { r with name := s, sawName := true }
    | _ => none
  else if k = tag then match v with
    | .str s => some { r with tag := s }
    | _ => none
  else if k = parameters then match v with
    | .obj ps => (takeParams ps.toList r.params).map fun m => { r with params := m }
    | _ => some r
  else some r

/-- the members of a label, one after the other -/
def takeAll : List (Text × Value) → Read → Option Read
  | [], r => some r
  | (k, v) :: l, r => (takeOne k v r).bind (takeAll l)

theorem mem_strings {l : List (Text × Value)} {k s : Text} : (k, s) ∈ strings l ↔ (k, .str s) ∈ l := by
  unfold strings
  rw [List.mem_filterMap]
  constructor
  · rintro ⟨⟨k', v⟩, hm, h⟩
    cases v <;> simp at h
    obtain ⟨rfl, rfl⟩ := h
    exact hm
  · intro h
    exact ⟨_, h, rfl⟩

/-- not a string -/
theorem string_not {a x rest : Text} {v : Value} (ha : Spaces a) (h : Writes x v) (hv : ¬ IsStr v) : parseString (a ++ (x ++ rest)) = none := by
  obtain ⟨c, t, rfl, hc⟩ := begins h
  rw [string_spaces ha]
  unfold parseString
  rw [List.cons_append, skipWs_of _ hc.space]
  exact if_neg fun e => hv (hc.str.1 e)

theorem str_chars {x s : Text} (h : Writes x (.str s)) : ∃ y, x = 0x22 :: (y ++ [0x22]) ∧ Chars y s := by
  cases h with
  | str h => exact ⟨_, rfl, h⟩

/-- a string, after white space -/
theorem string_read {a x s : Text} (ha : Spaces a) (h : Writes x (.str s)) (hw : NoWide x ∨ Ascii s) (rest : Text) :
    parseString (a ++ (x ++ rest)) = some (s, rest) := by
  obtain ⟨y, rfl, hy⟩ := str_chars h
  obtain ⟨t, ht, hs⟩ := string_chars hy
  rw [show 0x22 :: (y ++ [0x22]) ++ rest = 0x22 :: (y ++ 0x22 :: rest) by simp, ht _ _ ha, hs]
  rcases hw with hw | hw
  · exact .inl (hw.infix ⟨[0x22], [0x22], by simp⟩)
  · exact .inr (.inl hw)

theorem params_loop {y : Text} {ms : Members} (h : Pairs y ms) :
    NoWide y ∨ (∀ k s, (k, s) ∈ strings ms.toList → Ascii k ∧ Ascii s) →
    ∀ fuel, y.length ≤ fuel → ∀ m rest,
      paramsLoop fuel (y ++ 0x7D :: rest) m = (takeParams ms.toList m).map fun m => (m, rest) := by
  refine Pairs.rec (motive_1 := fun _ _ _ => True) (motive_2 := fun _ _ _ => True)
    (motive_3 := fun y ms _ => NoWide y ∨ (∀ k s, (k, s) ∈ strings ms.toList → Ascii k ∧ Ascii s) →
      ∀ fuel, y.length ≤ fuel → ∀ m rest,
        paramsLoop fuel (y ++ 0x7D :: rest) m = (takeParams ms.toList m).map fun m => (m, rest))
    trivial trivial trivial (fun _ => trivial) (fun _ => trivial) (fun _ => trivial) (fun _ _ => trivial) (fun _ => trivial)
    (fun _ _ => trivial) (fun _ _ _ _ => trivial) (fun _ _ _ _ _ _ => trivial) ?_ ?_ h
  · intro a kx b c x d key v ha hk hb hc hx hd _ hw fuel hf m rest
    obtain ⟨f, rfl⟩ : ∃ f, fuel = f + 1 := ⟨fuel - 1, by simp at hf; omega⟩
    obtain ⟨t, ht, hs⟩ := string_chars hk
    simp only [List.append_assoc, List.cons_append, List.nil_append]
    rw [paramsLoop, ht _ _ ha]
    simp only [Option.bind_eq_bind, Option.bind_some, consume_hit hb (show isSpace 0x3A = false by decide)]
    by_cases hv : IsStr v
    · obtain ⟨s, rfl⟩ := hv
      have e : t = key := by
        apply hs
        rcases hw with hw | hw
        · exact .inl (hw.infix ⟨a ++ [0x22], 0x22 :: (b ++ 0x3A :: (c ++ x ++ d)), by simp⟩)
        · exact .inr (.inl (hw key s (mem_strings.2 (by simp [Members.toList]))).1)
      have e2 := string_read hc hx (rest := d ++ 0x7D :: rest) (by
        rcases hw with hw | hw
        · exact .inl (hw.infix ⟨a ++ 0x22 :: (kx ++ [0x22]) ++ b ++ 0x3A :: c, d, by simp⟩)
        · exact .inr (hw key s (mem_strings.2 (by simp [Members.toList]))).2)
      rw [e2, e]
      simp [consume_hit hd (show isSpace 0x7D = false by decide), Members.toList, takeParams]
    · rw [string_not hc hx hv]
      have : takeParams (Members.cons key v .nil).toList m = none := by
        cases v <;> first | rfl | exact absurd ⟨_, rfl⟩ hv
      simp [this]
  · intro a kx b c x d key v y ms ha hk hb hc hx hd hy _ ihy hw fuel hf m rest
    obtain ⟨f, rfl⟩ : ∃ f, fuel = f + 1 := ⟨fuel - 1, by simp at hf; omega⟩
    obtain ⟨t, ht, hs⟩ := string_chars hk
    simp only [List.append_assoc, List.cons_append, List.nil_append]
    rw [paramsLoop, ht _ _ ha]
    simp only [Option.bind_eq_bind, Option.bind_some, consume_hit hb (show isSpace 0x3A = false by decide)]
    by_cases hv : IsStr v
    · obtain ⟨s, rfl⟩ := hv
      have e : t = key := by
        apply hs
        rcases hw with hw | hw
        · exact .inl (hw.infix ⟨a ++ [0x22], 0x22 :: (b ++ 0x3A :: (c ++ x ++ d ++ 0x2C :: y)), by simp⟩)
        · exact .inr (.inl (hw key s (mem_strings.2 (by simp [Members.toList]))).1)
      have e2 := string_read hc hx (rest := d ++ 0x2C :: (y ++ 0x7D :: rest)) (by
        rcases hw with hw | hw
        · exact .inl (hw.infix ⟨a ++ 0x22 :: (kx ++ [0x22]) ++ b ++ 0x3A :: c, d ++ 0x2C :: y, by simp⟩)
        · exact .inr (hw key s (mem_strings.2 (by simp [Members.toList]))).2)
      have ih := ihy (by
        rcases hw with hw | hw
        · exact .inl (hw.infix ⟨a ++ 0x22 :: (kx ++ [0x22]) ++ b ++ 0x3A :: (c ++ x ++ d ++ [0x2C]), [], by simp⟩)
        · exact .inr fun k' s' h' => hw k' s' (mem_strings.2 (by simp [Members.toList, mem_strings.1 h']))) f
        (by simp at hf; omega) (assign key s m) rest
      rw [e2, e]
      simp only [Option.bind_some, consume_not hd (show isSpace 0x2C = false by decide) (show (0x2C : UInt8) ≠ 0x7D by decide),
        consume_hit hd (show isSpace 0x2C = false by decide), ih, Members.toList, takeParams]
    · rw [string_not hc hx hv]
      have : takeParams (Members.cons key v ms).toList m = none := by
        cases v <;> first | rfl | exact absurd ⟨_, rfl⟩ hv
      simp [this]

theorem params_read' {a x : Text} {ps : Members} (ha : Spaces a) (h : Writes x (.obj ps))
    (hw : NoWide x ∨ ∀ k s, (k, s) ∈ strings ps.toList → Ascii k ∧ Ascii s) (m : List (Text × Text)) (rest : Text) :
    parseParams (a ++ (x ++ rest)) m = (takeParams ps.toList m).map fun m => (m, rest) := by
  unfold parseParams
  cases h with
  | obj0 hs =>
    simp only [List.cons_append, List.append_assoc, List.nil_append, consume_hit ha (show isSpace 0x7B = false by decide),
      consume_hit hs (show isSpace 0x7D = false by decide), Option.bind_eq_bind, Option.bind_some]
    rfl
  | @obj y _ hy =>
    have hl := params_loop hy (by
      rcases hw with hw | hw
      · exact .inl (hw.infix ⟨[0x7B], [0x7D], by simp⟩)
      · exact .inr hw) ((y ++ 0x7D :: rest).length + 1) (by simp; omega) m rest
    obtain ⟨b, t, rfl, hb⟩ := pairs_begin hy
    have := consume_not hb (show isSpace 0x22 = false by decide) (show (0x22 : UInt8) ≠ 0x7D by decide) (t ++ 0x7D :: rest)
    simp only [List.cons_append, List.append_assoc, List.nil_append] at hl ⊢
    simp only [consume_hit ha (show isSpace 0x7B = false by decide), this, Option.bind_eq_bind, Option.bind_some]
    exact hl

/-- the value of a key -/
theorem value_read {c x rest k t : Text} {key : Text} {v : Value} (hs : Same k key t) (hc : Spaces c) (h : Writes x v) (hr : Stop rest)
    (hw : NoWide x ∨ AsciiLabel (.cons key v .nil)) (r : Read) :
    readValue skipValue t (c ++ (x ++ rest)) r = (takeOne key v r).map fun r => (r, rest) := by
  have same : ∀ w : Text, (∀ b ∈ w, b < 0x80 ∧ b ≠ 0x3F) → (t = w ↔ key = w) := by
    intro w hw
    constructor
    · intro e
      rw [← hs (.inr (.inr (by rw [e]; exact hw))), e]
    · intro e
      rw [hs (.inr (.inl (by rw [e]; exact fun b hb => (hw b hb).1))), e]
  have e1 : t = nameKey ↔ key = name := same name (by decide)
  have e2 : t = tagKey ↔ key = tag := same tag (by decide)
  have e3 : t = paramsKey ↔ key = parameters := same parameters (by decide)
  have hskip : skipValue (c ++ (x ++ rest)) = some rest := by
    rw [← List.append_assoc]; exact skip_value hc h hr
  unfold readValue takeOne
  by_cases h1 : key = name
  · rw [if_pos (e1.2 h1), if_pos h1]
    by_cases hv : IsStr v
    · obtain ⟨s, rfl⟩ := hv
      rw [string_read hc h (hw.imp id fun hw => hw.name s (by simp [Members.toList, h1]))]
      rfl
    · rw [string_not hc h hv]
      cases v <;> first | rfl | exact absurd ⟨_, rfl⟩ hv
  rw [if_neg (fun e => h1 (e1.1 e)), if_neg h1]
  by_cases h2 : key = tag
  · rw [if_pos (e2.2 h2), if_pos h2]
    by_cases hv : IsStr v
    · obtain ⟨s, rfl⟩ := hv
      rw [string_read hc h (hw.imp id fun hw => hw.tag s (by simp [Members.toList, h2]))]
      rfl
    · rw [string_not hc h hv]
      cases v <;> first | rfl | exact absurd ⟨_, rfl⟩ hv
  rw [if_neg (fun e => h2 (e2.1 e)), if_neg h2]
  by_cases h3 : key = parameters
  · rw [if_pos (e3.2 h3), if_pos h3]
    obtain ⟨b, u, e, hb⟩ := begins h
    have ews : skipWs (c ++ (x ++ rest)) = b :: (u ++ rest) := by
      rw [ws_spaces hc, e, List.cons_append, skipWs_of _ hb.space]
    by_cases ho : ∃ ps, v = .obj ps
    · have hb' := hb.obj.2 ho
      obtain ⟨ps, rfl⟩ := ho
      rw [ews, hb']
      simp only []
      rw [params_read' hc h (hw.imp id fun hw k s hk => hw.settings k s (by simp [settings, Members.toList, h3, membersOf, hk]))]
      cases takeParams ps.toList r.params <;> rfl
    · have hb' : b ≠ 0x7B := fun e => ho (hb.obj.1 e)
      rw [ews]
      split
      · rename_i e; cases e; exact absurd rfl hb'
      · rw [hskip]
        cases v <;> first | rfl | exact absurd ⟨_, rfl⟩ ho
  · rw [if_neg (fun e => h3 (e3.1 e)), if_neg h3, hskip]
    rfl

theorem AsciiLabel.head {k : Text} {v : Value} {ms : Members} (h : AsciiLabel (.cons k v ms)) : AsciiLabel (.cons k v .nil) where
  name := fun s hs => h.name s (by simp [Members.toList] at hs ⊢; exact .inl hs)
  tag := fun s hs => h.tag s (by simp [Members.toList] at hs ⊢; exact .inl hs)
  settings := fun k' s hs => h.settings k' s (by
    unfold Member.settings at hs ⊢
    simp only [Members.toList, List.filter_cons, List.filter_nil] at hs ⊢
    split at hs
    · rename_i hk
      rw [if_pos hk]
      simp only [List.flatMap_cons, List.flatMap_nil, List.append_nil] at hs ⊢
      exact List.mem_append_left _ hs
    · simp at hs)

theorem AsciiLabel.tail {k : Text} {v : Value} {ms : Members} (h : AsciiLabel (.cons k v ms)) : AsciiLabel ms where
  name := fun s hs => h.name s (by simp [Members.toList, hs])
  tag := fun s hs => h.tag s (by simp [Members.toList, hs])
  settings := fun k' s hs => h.settings k' s (by
    unfold Member.settings at hs ⊢
    simp only [Members.toList, List.filter_cons]
    split
    · exact List.mem_append_right _ hs
    · exact hs)

theorem read_loop {y : Text} {ms : Members} (h : Pairs y ms) :
    NoWide y ∨ AsciiLabel ms → ∀ fuel, y.length ≤ fuel → ∀ r rest,
      readLoop skipValue fuel (y ++ 0x7D :: rest) r = (takeAll ms.toList r).map fun r => (r, rest) := by
  refine Pairs.rec (motive_1 := fun _ _ _ => True) (motive_2 := fun _ _ _ => True)
    (motive_3 := fun y ms _ => NoWide y ∨ AsciiLabel ms → ∀ fuel, y.length ≤ fuel → ∀ r rest,
      readLoop skipValue fuel (y ++ 0x7D :: rest) r = (takeAll ms.toList r).map fun r => (r, rest))
    trivial trivial trivial (fun _ => trivial) (fun _ => trivial) (fun _ => trivial) (fun _ _ => trivial) (fun _ => trivial)
    (fun _ _ => trivial) (fun _ _ _ _ => trivial) (fun _ _ _ _ _ _ => trivial) ?_ ?_ h
  · intro a kx b c x d key v ha hk hb hc hx hd _ hw fuel hf r rest
    obtain ⟨f, rfl⟩ : ∃ f, fuel = f + 1 := ⟨fuel - 1, by simp at hf; omega⟩
    obtain ⟨t, ht, hs⟩ := string_chars hk
    have hv := value_read (rest := d ++ 0x7D :: rest) hs hc hx (stop_of hd (by simp) _) (by
      rcases hw with hw | hw
      · exact .inl (hw.infix ⟨a ++ 0x22 :: (kx ++ [0x22]) ++ b ++ 0x3A :: c, d, by simp⟩)
      · exact .inr hw) r
    simp only [List.append_assoc, List.cons_append, List.nil_append]
    rw [readLoop, ht _ _ ha]
    simp only [Option.bind_eq_bind, Option.bind_some, consume_hit hb (show isSpace 0x3A = false by decide), hv]
    rw [Members.toList, Members.toList, takeAll]
    cases takeOne key v r with
    | none => rfl
    | some r' => simp [consume_hit hd (show isSpace 0x7D = false by decide), takeAll]
  · intro a kx b c x d key v y ms ha hk hb hc hx hd hy _ ihy hw fuel hf r rest
    obtain ⟨f, rfl⟩ : ∃ f, fuel = f + 1 := ⟨fuel - 1, by simp at hf; omega⟩
    obtain ⟨t, ht, hs⟩ := string_chars hk
    have hv := value_read (rest := d ++ 0x2C :: (y ++ 0x7D :: rest)) hs hc hx (stop_of hd (by simp) _) (by
      rcases hw with hw | hw
      · exact .inl (hw.infix ⟨a ++ 0x22 :: (kx ++ [0x22]) ++ b ++ 0x3A :: c, d ++ 0x2C :: y, by simp⟩)
      · exact .inr hw.head) r
    have ih := ihy (by
      rcases hw with hw | hw
      · exact .inl (hw.infix ⟨a ++ 0x22 :: (kx ++ [0x22]) ++ b ++ 0x3A :: (c ++ x ++ d ++ [0x2C]), [], by simp⟩)
      · exact .inr hw.tail) f (by simp at hf; omega)
    simp only [List.append_assoc, List.cons_append, List.nil_append]
    rw [readLoop, ht _ _ ha]
    simp only [Option.bind_eq_bind, Option.bind_some, consume_hit hb (show isSpace 0x3A = false by decide), hv]
    rw [Members.toList, takeAll]
    cases takeOne key v r with
    | none => rfl
    | some r' =>
      simp only [Option.map_some, Option.bind_some, consume_not hd (show isSpace 0x2C = false by decide) (show (0x2C : UInt8) ≠ 0x7D by decide),
        consume_hit hd (show isSpace 0x2C = false by decide), ih]

/-- what `json2forager` returns of an object -/
def outcome (r : Option Read) : Option (Text × Text × List (Text × Text)) :=
  r.bind fun r => if r.sawName then some (r.name, r.tag, r.params) else none

theorem nulls_all {z : Text} (hz : ∀ c ∈ z, c = 0) : skipNulls z = [] := by
  have := dropWhile_all (p := fun c => c == 0) (l := z) (fun c hc => by simp [hz c hc]) []
  simpa [skipNulls] using this

theorem end_read {b z : Text} (hb : Spaces b) (hz : ∀ c ∈ z, c = 0) : skipNulls (skipWs (b ++ z)) = [] := by
  rw [ws_spaces hb]
  have : skipWs z = z := by
    cases z with
    | nil => rfl
    | cons c z => rw [hz c (by simp)]; exact skipWs_of z (by decide)
  rw [this, nulls_all hz]

theorem label_read {x : Text} {ms : Members} (h : IsText x (.obj ms)) (hw : NoWide x ∨ AsciiLabel ms) {z : Text} (hz : ∀ c ∈ z, c = 0) :
    readLabel (x ++ z) = outcome (takeAll ms.toList {}) := by
  obtain ⟨a, w, b, rfl, ha, hx, hb⟩ := h
  have he := end_read hb hz
  unfold readLabel json2forager
  cases hx with
  | obj0 hs =>
    simp only [List.cons_append, List.append_assoc, List.nil_append, consume_hit ha (show isSpace 0x7B = false by decide),
      consume_hit hs (show isSpace 0x7D = false by decide), Option.bind_eq_bind, Option.bind_some, he]
    rfl
  | @obj y _ hy =>
    have hl := read_loop hy (by
      rcases hw with hw | hw
      · exact .inl (hw.infix ⟨a ++ [0x7B], 0x7D :: b, by simp⟩)
      · exact .inr hw) ((y ++ 0x7D :: (b ++ z)).length + 1) (by simp; omega) {} (b ++ z)
    obtain ⟨c, t, rfl, hc⟩ := pairs_begin hy
    have := consume_not hc (show isSpace 0x22 = false by decide) (show (0x22 : UInt8) ≠ 0x7D by decide) (t ++ 0x7D :: (b ++ z))
    simp only [List.cons_append, List.append_assoc, List.nil_append] at hl ⊢
    simp only [consume_hit ha (show isSpace 0x7B = false by decide), this, Option.bind_eq_bind, Option.bind_some, hl]
    cases takeAll ms.toList {} with
    | none => rfl
    | some r =>
      simp only [Option.map_some, Option.bind_some, he, outcome]
      cases r.sawName <;> rfl

theorem other_read {x : Text} {v : Value} (h : IsText x v) (hv : ∀ ms, v ≠ .obj ms) (z : Text) : readLabel (x ++ z) = none := by
  obtain ⟨a, w, b, rfl, ha, hx, hb⟩ := h
  obtain ⟨c, t, rfl, hc⟩ := begins hx
  unfold readLabel json2forager
  have := consume_not ha hc.space (d := 0x7B) (fun e => (hc.obj.1 e).elim hv) (t ++ b ++ z)
  simp only [List.cons_append, List.append_assoc, List.nil_append] at this ⊢
  simp [this]

/-! ### what an object says -/

theorem assign_lookup (k v j : Text) : ∀ m : List (Text × Text), (assign k v m).lookup j = if j = k then some v else m.lookup j
  | [] => by
    by_cases h : j = k <;> simp [assign, List.lookup, h]
  | (i, u) :: m => by
    have ih := assign_lookup k v j m
    simp only [assign]
    by_cases hi : i = k
    · rw [if_pos hi, List.lookup_cons, List.lookup_cons, hi]
      by_cases h : j = k
      · simp [h]
      · have : (j == k) = Bool.false := by simpa using h
        simp [h, this]
    · rw [if_neg hi, List.lookup_cons, List.lookup_cons, ih]
      by_cases h : j = k
      · have : (k == i) = Bool.false := by simpa using fun e : k = i => hi e.symm
        simp [h, this]
      · simp [h]

theorem assign_keys (k v : Text) : ∀ m : List (Text × Text), (m.map (·.1)).Nodup →
    ((assign k v m).map (·.1)).Nodup ∧ ∀ j, j ∈ (assign k v m).map (·.1) → j = k ∨ j ∈ m.map (·.1)
  | [], _ => by simp [assign]
  | (i, u) :: m, h => by
    simp only [List.map_cons, List.nodup_cons] at h
    obtain ⟨h1, h2⟩ := assign_keys k v m h.2
    simp only [assign]
    by_cases hi : i = k
    · rw [if_pos hi]
      simp only [List.map_cons, List.nodup_cons]
      exact ⟨h, fun j hj => .inr hj⟩
    · rw [if_neg hi]
      simp only [List.map_cons, List.nodup_cons]
      refine ⟨⟨fun hm => ?_, h1⟩, fun j hj => ?_⟩
      · rcases h2 _ hm with e | e
        · exact hi e
        · exact h.1 e
      · rcases List.mem_cons.1 hj with e | e
        · exact .inr (by simp [e])
        · rcases h2 _ e with e | e
          · exact .inl e
          · exact .inr (List.mem_cons_of_mem _ e)

/-- assigning all of them -/
def assignAll (l : List (Text × Text)) (m : List (Text × Text)) : List (Text × Text) := l.foldl (fun m e => assign e.1 e.2 m) m

theorem assignAll_nodup : ∀ (l m : List (Text × Text)), (m.map (·.1)).Nodup → ((assignAll l m).map (·.1)).Nodup
  | [], _, h => h
  | e :: l, m, h => assignAll_nodup l _ (assign_keys e.1 e.2 m h).1

theorem last_cons (k : Text) (e : Text × Text) (l : List (Text × Text)) :
    last k (e :: l) = (last k l).or (if e.1 = k then some e.2 else none) := by
  unfold last
  rw [List.filter_cons]
  by_cases h : e.1 = k
  · simp only [h, decide_true, if_true, List.map_cons, List.getLast?_cons]
    cases (List.map (·.2) (List.filter (fun m => decide (m.1 = k)) l)).getLast? <;> rfl
  · simp [h]

theorem assignAll_lookup (k : Text) : ∀ (l m : List (Text × Text)), (assignAll l m).lookup k = (last k l).or (m.lookup k)
  | [], m => by simp [assignAll, last]
  | e :: l, m => by
    have ih := assignAll_lookup k l (assign e.1 e.2 m)
    rw [show assignAll (e :: l) m = assignAll l (assign e.1 e.2 m) from rfl, ih, assign_lookup, last_cons]
    by_cases h : k = e.1
    · simp [h]
    · have : ¬ e.1 = k := fun e => h e.symm
      simp [h, this]

theorem takeParams_eq : ∀ (l : List (Text × Value)) (m : List (Text × Text)),
    ((∀ k v, (k, v) ∈ l → IsStr v) → takeParams l m = some (assignAll (strings l) m)) ∧
    (¬ (∀ k v, (k, v) ∈ l → IsStr v) → takeParams l m = none)
  | [], m => ⟨fun _ => rfl, fun h => absurd (by simp) h⟩
  | (k, v) :: l, m => by
    by_cases hv : IsStr v
    · obtain ⟨s, rfl⟩ := hv
      obtain ⟨h1, h2⟩ := takeParams_eq l (assign k s m)
      constructor
      · intro h
        exact h1 fun k' v' hm => h k' v' (by simp [hm])
      · intro h
        exact h2 fun h' => h fun k' v' hm => by
          rcases List.mem_cons.1 hm with e | e
          · cases e; exact ⟨s, rfl⟩
          · exact h' k' v' e
    · constructor
      · intro h
        exact absurd (h k v (by simp)) hv
      · intro _
        cases v <;> first | rfl | exact absurd ⟨_, rfl⟩ hv

/-- nothing in the members is wrong -/
structure Right (l : List (Text × Value)) : Prop where
  names : ∀ v, (name, v) ∈ l → IsStr v
  tags : ∀ v, (tag, v) ∈ l → IsStr v
  settings : ∀ ps, (parameters, .obj ps) ∈ l → ∀ k v, (k, v) ∈ ps.toList → IsStr v

/-- the settings of the members -/
def settingsOf (l : List (Text × Value)) : List (Text × Text) :=
  (l.filter fun m => m.1 = parameters).flatMap fun m => strings (membersOf m.2)

theorem settingsOf_cons (k : Text) (v : Value) (l : List (Text × Value)) :
    settingsOf ((k, v) :: l) = (if k = parameters then strings (membersOf v) else []) ++ settingsOf l := by
  unfold settingsOf
  rw [List.filter_cons]
  by_cases h : k = parameters <;> simp [h]

/-- a member, if it is a string -/
def own (k : Text) : Value → List (Text × Text)
  | .str s => [(k, s)]
  | _ => []

theorem strings_cons (k : Text) (v : Value) (l : List (Text × Value)) : strings ((k, v) :: l) = own k v ++ strings l := by
  cases v <;> rfl

theorem one_name {v : Value} (hv : ¬ IsStr v) (r : Read) : takeOne name v r = none := by
  unfold takeOne; rw [if_pos rfl]
  cases v <;> first | rfl | exact absurd ⟨_, rfl⟩ hv

theorem one_tag {v : Value} (hv : ¬ IsStr v) (r : Read) : takeOne tag v r = none := by
  unfold takeOne; rw [if_neg (by decide), if_pos rfl]
  cases v <;> first | rfl | exact absurd ⟨_, rfl⟩ hv

theorem one_params {v : Value} (hv : ¬ ∃ ps, v = .obj ps) (r : Read) : takeOne parameters v r = some r := by
  unfold takeOne; rw [if_neg (by decide), if_neg (by decide), if_pos rfl]
  cases v <;> first | rfl | exact absurd ⟨_, rfl⟩ hv

theorem assignAll_append (a b m : List (Text × Text)) : assignAll (a ++ b) m = assignAll b (assignAll a m) := by
  simp [assignAll]

theorem takeAll_eq : ∀ (l : List (Text × Value)) (r : Read),
    (Right l → takeAll l r = some {
      name := (last name (strings l)).getD r.name
      sawName := r.sawName || (last name (strings l)).isSome
      tag := (last tag (strings l)).getD r.tag
      params := assignAll (settingsOf l) r.params }) ∧
    (¬ Right l → takeAll l r = none)
  | [], r => by
    refine ⟨fun _ => ?_, fun h => absurd ⟨by simp, by simp, by simp⟩ h⟩
    simp [takeAll, strings, last, settingsOf, assignAll]
  | (k, v) :: l, r => by
    rw [takeAll, settingsOf_cons, strings_cons, assignAll_append]
    have tl : Right ((k, v) :: l) → Right l := fun h => ⟨fun v hv => h.names v (by simp [hv]), fun v hv => h.tags v (by simp [hv]),
      fun ps hv => h.settings ps (by simp [hv])⟩
    have nt : name ≠ tag := by decide
    have np : name ≠ parameters := by decide
    have tp : tag ≠ parameters := by decide
    by_cases h1 : k = name
    · subst h1
      rw [if_neg np]
      by_cases hv : IsStr v
      · obtain ⟨s, rfl⟩ := hv
        rw [show takeOne name (.str s) r = some { r with name := s, sawName := Bool.true } from rfl]
        obtain ⟨i1, i2⟩ := takeAll_eq l { r with name := s, sawName := Bool.true }
        simp only [Option.bind_some, own, List.cons_append, List.nil_append]
        constructor
        · intro h
          rw [i1 (tl h), last_cons, last_cons, if_pos rfl, if_neg nt]
          cases last name (strings l) <;> simp [assignAll]
        · intro h
          refine i2 fun h' => h ⟨fun v hv => ?_, fun v hv => ?_, fun ps hv => ?_⟩
          · rcases List.mem_cons.1 hv with e | e
            · cases e; exact ⟨s, rfl⟩
            · exact h'.names v e
          · rcases List.mem_cons.1 hv with e | e
            · exact absurd (congrArg Prod.fst e).symm nt
            · exact h'.tags v e
          · rcases List.mem_cons.1 hv with e | e
            · exact absurd (congrArg Prod.fst e).symm np
            · exact h'.settings ps e
      · rw [one_name hv]
        exact ⟨fun h => absurd (h.names v (by simp)) hv, fun _ => rfl⟩
    by_cases h2 : k = tag
    · subst h2
      rw [if_neg tp]
      by_cases hv : IsStr v
      · obtain ⟨s, rfl⟩ := hv
        rw [show takeOne tag (.str s) r = some { r with tag := s } from rfl]
        obtain ⟨i1, i2⟩ := takeAll_eq l { r with tag := s }
        simp only [Option.bind_some, own, List.cons_append, List.nil_append]
        constructor
        · intro h
          rw [i1 (tl h), last_cons, last_cons, if_pos rfl, if_neg (Ne.symm nt)]
          cases last tag (strings l) <;> simp [assignAll]
        · intro h
          refine i2 fun h' => h ⟨fun v hv => ?_, fun v hv => ?_, fun ps hv => ?_⟩
          · rcases List.mem_cons.1 hv with e | e
            · exact absurd (congrArg Prod.fst e) nt
            · exact h'.names v e
          · rcases List.mem_cons.1 hv with e | e
            · cases e; exact ⟨s, rfl⟩
            · exact h'.tags v e
          · rcases List.mem_cons.1 hv with e | e
            · exact absurd (congrArg Prod.fst e).symm tp
            · exact h'.settings ps e
      · rw [one_tag hv]
        exact ⟨fun h => absurd (h.tags v (by simp)) hv, fun _ => rfl⟩
    have hs : ∀ a : Text, a = name ∨ a = tag → last a (own k v ++ strings l) = last a (strings l) := by
      intro a ha
      have : k ≠ a := by rcases ha with rfl | rfl <;> assumption
      cases v <;> simp [own, last_cons, this]
    rw [hs name (.inl rfl), hs tag (.inr rfl)]
    by_cases h3 : k = parameters
    · subst h3
      rw [if_pos rfl]
      by_cases ho : ∃ ps, v = .obj ps
      · obtain ⟨ps, rfl⟩ := ho
        obtain ⟨p1, p2⟩ := takeParams_eq ps.toList r.params
        rw [show takeOne parameters (.obj ps) r = (takeParams ps.toList r.params).map fun m => { r with params := m } from rfl]
        by_cases hp : ∀ k v, (k, v) ∈ ps.toList → IsStr v
        · obtain ⟨i1, i2⟩ := takeAll_eq l { r with params := assignAll (strings ps.toList) r.params }
          simp only [p1 hp, Option.map_some, Option.bind_some]
          refine ⟨fun h => i1 (tl h), fun h => i2 fun h' => h ⟨fun v hv => ?_, fun v hv => ?_, fun qs hv => ?_⟩⟩
          · rcases List.mem_cons.1 hv with e | e
            · exact absurd (congrArg Prod.fst e) np
            · exact h'.names v e
          · rcases List.mem_cons.1 hv with e | e
            · exact absurd (congrArg Prod.fst e) tp
            · exact h'.tags v e
          · rcases List.mem_cons.1 hv with e | e
            · cases e; exact hp
            · exact h'.settings qs e
        · simp only [p2 hp, Option.map_none, Option.bind_none]
          exact ⟨fun h => absurd (h.settings ps (by simp)) hp, fun _ => trivial⟩
      · have e' : strings (membersOf v) = [] := by cases v <;> first | rfl | exact absurd ⟨_, rfl⟩ ho
        obtain ⟨i1, i2⟩ := takeAll_eq l r
        rw [one_params ho, e']
        refine ⟨fun h => i1 (tl h), fun h => i2 fun h' => h ⟨fun v hv => ?_, fun v hv => ?_, fun qs hv => ?_⟩⟩
        · rcases List.mem_cons.1 hv with e | e
          · exact absurd (congrArg Prod.fst e) np
          · exact h'.names v e
        · rcases List.mem_cons.1 hv with e | e
          · exact absurd (congrArg Prod.fst e) tp
          · exact h'.tags v e
        · rcases List.mem_cons.1 hv with e | e
          · exact absurd ⟨qs, (congrArg Prod.snd e).symm⟩ ho
          · exact h'.settings qs e
    · obtain ⟨i1, i2⟩ := takeAll_eq l r
      rw [if_neg h3, show takeOne k v r = some r by unfold takeOne; rw [if_neg h1, if_neg h2, if_neg h3]]
      refine ⟨fun h => i1 (tl h), fun h => i2 fun h' => h ⟨fun v hv => ?_, fun v hv => ?_, fun qs hv => ?_⟩⟩
      · rcases List.mem_cons.1 hv with e | e
        · exact absurd (congrArg Prod.fst e).symm h1
        · exact h'.names v e
      · rcases List.mem_cons.1 hv with e | e
        · exact absurd (congrArg Prod.fst e).symm h2
        · exact h'.tags v e
      · rcases List.mem_cons.1 hv with e | e
        · exact absurd (congrArg Prod.fst e).symm h3
        · exact h'.settings qs e

theorem last_isSome {k : Text} {l : List (Text × Text)} : (last k l).isSome = Bool.true ↔ ∃ s, (k, s) ∈ l := by
  unfold last
  rw [List.getLast?_isSome]
  constructor
  · intro h
    obtain ⟨s, hs⟩ := List.exists_mem_of_ne_nil _ h
    rw [List.mem_map] at hs
    obtain ⟨⟨k', s'⟩, hm, rfl⟩ := hs
    rw [List.mem_filter] at hm
    have : k' = k := by simpa using hm.2
    subst this
    exact ⟨s', hm.1⟩
  · rintro ⟨s, hs⟩ e
    have : s ∈ (l.filter fun m => m.1 = k).map (·.2) := List.mem_map.2 ⟨(k, s), List.mem_filter.2 ⟨hs, by simp⟩, rfl⟩
    rw [e] at this
    simp at this

theorem outcome_described {ms : Members} (h : Describes ms) :
    outcome (takeAll ms.toList {}) = some ((last name (strings ms.toList)).getD [], (last tag (strings ms.toList)).getD [],
      assignAll (settings ms) []) := by
  rw [(takeAll_eq ms.toList {}).1 ⟨h.names, h.tags, h.settings⟩]
  have : (last name (strings ms.toList)).isSome = Bool.true := by
    obtain ⟨v, hv⟩ := h.named
    obtain ⟨s, rfl⟩ := h.names v hv
    exact last_isSome.2 ⟨s, mem_strings.2 hv⟩
  simp [outcome, this, settings, settingsOf]

theorem outcome_not {ms : Members} (h : ¬ Describes ms) : outcome (takeAll ms.toList {}) = none := by
  by_cases hr : Right ms.toList
  · rw [(takeAll_eq ms.toList {}).1 hr]
    have : (last name (strings ms.toList)).isSome = Bool.false := by
      rw [Bool.eq_false_iff]
      intro e
      obtain ⟨s, hs⟩ := last_isSome.1 e
      exact h ⟨⟨_, mem_strings.1 hs⟩, hr.names, hr.tags, hr.settings⟩
    simp [outcome, this]
  · rw [(takeAll_eq ms.toList {}).2 hr]
    rfl

end Verif.Member
