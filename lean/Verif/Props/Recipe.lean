import Verif.Recipe.Proof
/-
  C30: parameter maps written as text and read back.
-/
namespace Verif.Props
open Verif.Recipe

/-- Freezing and cooking, with what comes back named. -/
theorem freeze_back {m : Map} (hm : GoodMap m) (hs : ∀ k v, find k m = some v → Safe v) :
    cook (freeze m) = some (m.map fun kv => (kv.1, back (kv.2.length + 1) kv.2 1)) := by
  refine cook_dump (f := fun w => dumpVal (w.length + 1) w 1)
    (g := fun w => back (w.length + 1) w 1) hm ?_ 0 (z := [0x0A]) ?_
  · intro kv hkv
    exact ((hs kv.1 kv.2 (mem_find hm hkv)).form (by omega)).1
  · intro c hc
    obtain rfl : c = 0x0A := by simpa using hc
    decide

/-- C30 (what is missing: values with a double quote, a backslash or a NUL in them, see
`C30_quote`, `C30_backslash` and `C30_backslash_lost`; keys that are not words, see `C30_key`).

A parameter map that is frozen and cooked gives a parameter map with the same keys, and the
values mean the same: text comes back byte for byte, and a value that is itself a map comes
back as a map with the same keys and values that mean the same, to any depth. -/
theorem C30_freeze_cook_partial {m : Map} (hm : GoodMap m) (hs : ∀ k v, find k m = some v → Safe v) :
    ∃ m', cook (freeze m) = some m' ∧ m'.map (·.1) = m.map (·.1) ∧
      ∀ k v, find k m = some v → ∃ v', find k m' = some v' ∧ Same v v' := by
  refine ⟨_, freeze_back hm hs, by simp, ?_⟩
  intro k v h
  refine ⟨back (v.length + 1) v 1, ?_, ((hs k v h).form (by omega)).2.1⟩
  rw [find_map (fun w => back (w.length + 1) w 1), h]; rfl

/-- Where no value is a map, the map comes back as it was. -/
theorem C30_flat_partial {m : Map} (hm : GoodMap m)
    (hs : ∀ k v, find k m = some v → cook v = none ∧ ∀ c ∈ v, c ≠ 0 ∧ c ≠ 0x22 ∧ c ≠ 0x5C) :
    cook (freeze m) = some m := by
  rw [freeze_back hm fun k v h => .leaf (hs k v h).1 (hs k v h).2]
  congr 1
  have : ∀ l : Map, (∀ kv ∈ l, kv ∈ m) → l.map (fun kv => (kv.1, back (kv.2.length + 1) kv.2 1)) = l := by
    intro l
    induction l with
    | nil => intro _; rfl
    | cons x l ih =>
      intro hl
      rw [List.map_cons, ih fun y hy => hl y (List.mem_cons_of_mem _ hy)]
      have h1 := (hs x.1 x.2 (mem_find hm (hl x (List.mem_cons_self ..)))).1
      simp only [back, h1]
  exact this m fun _ h => h

/-- What comes back is frozen to the same text again. -/
theorem C30_stable_partial {m m' : Map} (hm : GoodMap m) (hs : ∀ k v, find k m = some v → Safe v)
    (h : cook (freeze m) = some m') : freeze m' = freeze m := by
  rw [freeze_back hm hs] at h
  obtain rfl : m.map (fun kv => (kv.1, back (kv.2.length + 1) kv.2 1)) = m' := by simpa using h
  have : ∀ l : Map, (∀ kv ∈ l, kv ∈ m) →
      (l.map fun kv => (kv.1, back (kv.2.length + 1) kv.2 1)).flatMap
        (itemText 0 fun w => dumpVal (w.length + 1) w 1) =
      l.flatMap (itemText 0 fun w => dumpVal (w.length + 1) w 1) := by
    intro l
    induction l with
    | nil => intro _; rfl
    | cons x l ih =>
      intro hl
      rw [List.map_cons, List.flatMap_cons, List.flatMap_cons,
        ih fun y hy => hl y (List.mem_cons_of_mem _ hy)]
      congr 1
      unfold itemText
      simp only
      rw [((hs x.1 x.2 (mem_find hm (hl x (List.mem_cons_self ..)))).form (by omega)).2.2 _ (by omega)]
  unfold freeze
  cases m with
  | nil => rfl
  | cons x m =>
    have := this (x :: m) fun _ h => h
    rw [List.map_cons] at this ⊢
    rw [dumpWith_cons, dumpWith_cons, this]

/-- Whatever is cooked is a parameter map. -/
theorem C30_cooked {s : Str} {m : Map} (h : cook s = some m) : GoodMap m := (cook_good h).1

/-- a text with a backslash before every backslash and every quote -/
def escaped (q : UInt8) (v : Str) : Str := v.flatMap fun c => if c = 0x5C ∨ c = q then [0x5C, c] else [c]

/-- Any text can be the value of a parameter in a text that is cooked, whichever quotes are
used: it is written between them with a backslash before every backslash and quote. -/
theorem C30_written {k v : Str} {q : UInt8} (hq : q = 0x22 ∨ q = 0x27) (hk : k ≠ [])
    (hid : ∀ c ∈ k, keyChar c = true) (hv : ∀ c ∈ v, c ≠ 0) :
    cook ([0x5B] ++ k ++ [0x3A, q] ++ escaped q v ++ [q, 0x5D]) = some [(k, v)] := by
  rw [keyChar_eq] at hid
  have hqs : q ≠ 0x5C ∧ q ≠ 0 ∧ isSpace q = false := by
    rcases hq with rfl | rfl <;> decide
  have h0 : ∀ c ∈ [0x5B] ++ k ++ [0x3A, q] ++ escaped q v ++ [q, 0x5D], c ≠ 0 := by
    intro c hc
    simp only [List.mem_append, List.mem_cons, List.not_mem_nil, or_false] at hc
    rcases hc with (((rfl | hc) | (rfl | rfl)) | hc) | (rfl | rfl)
    · decide
    · exact (ident_plain (hid c hc)).2.1
    · decide
    · exact hqs.2.1
    · obtain ⟨x, hx, hc⟩ := List.mem_flatMap.mp hc
      split at hc
      · simp only [List.mem_cons, List.not_mem_nil, or_false] at hc
        rcases hc with rfl | rfl
        · decide
        · exact hv _ hx
      · simp only [List.mem_cons, List.not_mem_nil, or_false] at hc
        subst hc; exact hv _ hx
    · exact hqs.2.1
    · decide
  have htw := List.takeWhile_append_of_pos (p := fun c : UInt8 => decide (c ≠ 0))
      (l₁ := [0x5B] ++ k ++ [0x3A, q] ++ escaped q v ++ [q, 0x5D]) (l₂ := []) (by simpa using h0)
  have hm : ∀ (w acc r : Str), munchString q (escaped q w ++ q :: r) acc = (acc ++ w, q :: r) := by
    intro w
    induction w with
    | nil =>
      intro acc r
      show munchString q (q :: r) acc = _
      rw [munchString.eq_def]; simp
    | cons c w ih =>
      intro acc r
      have e : escaped q (c :: w) = (if c = 0x5C ∨ c = q then [0x5C, c] else [c]) ++ escaped q w := rfl
      rw [e]
      by_cases hc : c = 0x5C ∨ c = q
      · rw [if_pos hc]
        show munchString q (0x5C :: c :: (escaped q w ++ q :: r)) acc = _
        rw [munchString.eq_def]
        simp only
        rw [if_neg (Ne.symm hqs.1), if_pos trivial, if_neg (by
          intro h; rcases hc with hc | hc
          · exact h.1 hc
          · exact h.2 hc), ih]
        simp
      · rw [if_neg hc]
        show munchString q (c :: (escaped q w ++ q :: r)) acc = _
        rw [munchString.eq_def]
        simp only
        rw [if_neg (fun h => hc (Or.inr h)), if_neg (fun h => hc (Or.inl h)), ih]
        simp
  unfold cook
  simp only [List.takeWhile_nil, List.append_nil] at htw
  rw [htw]
  cases k with
  | nil => exact absurd rfl hk
  | cons c k =>
    have hc := ident_plain (hid c (List.mem_cons_self ..))
    have hk' : ∀ x ∈ k, identifier x = true := fun x hx => hid x (List.mem_cons_of_mem _ hx)
    have e : [0x5B] ++ (c :: k) ++ [0x3A, q] ++ escaped q v ++ [q, 0x5D] =
        0x5B :: c :: (k ++ 0x3A :: q :: (escaped q v ++ q :: [0x5D])) := by simp
    rw [e]
    unfold parse
    rw [skipSpace_head (by decide)]
    simp only
    rw [if_pos trivial]
    unfold items
    rw [skipSpace_head hc.2.2.2]
    simp only
    rw [if_neg hc.1.1, if_pos (hid c (List.mem_cons_self ..)),
      List.takeWhile_append_of_pos hk', List.dropWhile_append_of_pos hk',
      List.takeWhile_cons, if_neg (by decide), List.dropWhile_cons, if_neg (by decide),
      skipSpace_head (by decide)]
    simp only
    rw [if_pos trivial, skipSpace_head hqs.2.2, value, if_pos (by
      rcases hq with rfl | rfl
      · exact Or.inr rfl
      · exact Or.inl rfl), hm]
    simp only [List.nil_append, if_pos]
    rw [skipSpace_head (by decide)]
    simp [finish, skipSpace, put]

/-! ### examples -/

/-- `a` with the text `x y`, `m` with the map of `b` with `z` -/
def exampleMap : Map :=
  [([0x61], [0x78, 0x20, 0x79]), ([0x6D], [0x5B, 0x62, 0x3A, 0x22, 0x7A, 0x22, 0x5D])]

theorem exampleMap_good : GoodMap exampleMap ∧ ∀ k v, find k exampleMap = some v → Safe v := by
  refine ⟨⟨by decide, by decide⟩, ?_⟩
  intro k v h
  have hm := find_mem h
  simp only [exampleMap, List.mem_cons, List.not_mem_nil, or_false, Prod.mk.injEq] at hm
  rcases hm with ⟨-, rfl⟩ | ⟨-, rfl⟩
  · exact .leaf (by decide) (by unfold Quotable; decide)
  · refine .node (p := [([0x62], [0x7A])]) (by decide) ?_
    intro k v h
    have hm := find_mem h
    simp only [List.mem_cons, List.not_mem_nil, or_false, Prod.mk.injEq] at hm
    obtain ⟨-, rfl⟩ := hm
    exact .leaf (by decide) (by unfold Quotable; decide)

/-- The map within the map comes back laid out over lines: not the same text, but the same
map. -/
example : (cook (freeze exampleMap)).map (find [0x6D]) = some (some
    [0x5B, 0x0A, 0x20, 0x20, 0x20, 0x20, 0x62, 0x3A, 0x22, 0x7A, 0x22, 0x2C, 0x0A, 0x20, 0x20, 0x5D]) := by
  decide

example : cook ([0x5B] ++ [0x61] ++ [0x3A, 0x22] ++ escaped 0x22 [0x22, 0x5C, 0x27] ++ [0x22, 0x5D]) =
    some [([0x61], [0x22, 0x5C, 0x27])] :=
  C30_written (Or.inl rfl) (by decide) (by decide) (by decide)

/-! ### what does not come back -/

/-- A value with a double quote is frozen to a text that cannot be cooked. -/
theorem C30_quote : cook (freeze [([0x61], [0x22])]) = none := by decide

/-- A value with a backslash, as in `a\\b`, too. -/
theorem C30_backslash : cook (freeze [([0x61], [0x61, 0x5C, 0x62])]) = none := by decide

/-- Two backslashes come back as one. -/
theorem C30_backslash_lost :
    cook (freeze [([0x61], [0x5C, 0x5C])]) = some [([0x61], [0x5C])] := by decide

/-- A key with a blank in it is frozen to a text that cannot be cooked. -/
theorem C30_key : cook (freeze [([0x61, 0x20, 0x62], [0x63])]) = none := by decide

/-- A value with `x\\\\y` quoted within a map is a map, but when the map is a value in another
map the backslashes are resolved too early, and it is no longer a map. -/
theorem C30_nested_escape :
    cook [0x5B, 0x61, 0x3A, 0x22, 0x78, 0x5C, 0x5C, 0x79, 0x22, 0x5D] =
      some [([0x61], [0x78, 0x5C, 0x79])] ∧
    cook ([0x5B, 0x6D, 0x3A] ++ [0x5B, 0x61, 0x3A, 0x22, 0x78, 0x5C, 0x5C, 0x79, 0x22, 0x5D] ++ [0x5D]) =
      some [([0x6D], [0x5B, 0x61, 0x3A, 0x22, 0x78, 0x5C, 0x79, 0x22, 0x5D])] ∧
    cook [0x5B, 0x61, 0x3A, 0x22, 0x78, 0x5C, 0x79, 0x22, 0x5D] = none := by decide

/-- The text `[a:["\\]]`, with a quote that is not closed, is cooked: `a` is the empty map. -/
theorem C30_unclosed_quote :
    cook [0x5B, 0x61, 0x3A, 0x5B, 0x22, 0x5C, 0x5D, 0x5D] = some [([0x61], [0x5B, 0x5D])] := by decide

end Verif.Props
