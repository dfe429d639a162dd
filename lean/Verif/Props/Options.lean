import Verif.Recipe.OptionsProof
/-
  C41: options set in recipes.
-/
namespace Verif.Props
open Verif.Recipe

/-- `x:y` -/
def opt2 (x y : Str) : Str := x ++ 0x3A :: y
/-- `x:y:z` -/
def opt3 (x y z : Str) : Str := x ++ 0x3A :: (y ++ 0x3A :: z)
/-- `x@y` -/
def optAt (x y : Str) : Str := x ++ 0x40 :: y

/-- a text without the separators of options -/
def Unseparated (s : Str) : Prop := 0x3A ∉ s ∧ 0x40 ∉ s

theorem ident_plain' {s : Str} (h : ∀ c ∈ s, identifier c = true) : Unseparated s := by
  constructor
  · intro hc; have := h _ hc; revert this; decide
  · intro hc; have := h _ hc; revert this; decide

theorem interpret_colon {recipe o : Str} {ps : List Str} {m : Map} (hm : cook recipe = some m)
    (ho : o ≠ []) (hat : 0x40 ∉ o) (hp : pieces 0x3A o = ps) :
    interpret recipe o = interpretColon m ps := by
  unfold interpret
  rw [if_neg ho, hm]
  simp only
  rw [pieces_one hat, hp]

theorem pieces_opt2 {x y : Str} (hx : 0x3A ∉ x) (hy : 0x3A ∉ y) (h : y ≠ []) :
    pieces 0x3A (opt2 x y) = [x, y] := pieces_two hx hy h

theorem recipeKey_ok : recipeKey ≠ [] ∧ ∀ c ∈ recipeKey, identifier c = true := by decide
theorem nameKey_ok : nameKey ≠ [] ∧ ∀ c ∈ nameKey, identifier c = true := by decide

/-- what extracting gives from a recipe that was changed at `x` and written -/
theorem extract_put {m : Map} (hs : SafeMap m) {x item' : Str} (hx : ∃ item, find x m = some item)
    (hi : Safe item') {recipe o x' : Str} {rest : List Str} (hm : cook recipe = some m)
    (hp : pieces 0x3A o = x' :: rest) :
    if x' = x then SameOutcome (extractItem item' rest) (extract (freeze (put x item' m)) o)
    else SameOutcome (extract recipe o) (extract (freeze (put x item' m)) o) := by
  obtain ⟨item, hx⟩ := hx
  obtain ⟨k1, k2⟩ := hs.key hx
  obtain ⟨m', h1, ⟨v', h2, h3⟩, h4, h5⟩ := cooked_at (hs.put k1 k2 hi) hs.1.sorted
  rw [extract_eq h1 hp, extract_eq hm hp]
  split
  · rename_i e
    subst e
    rw [h2]
    exact extractItem_same h3
  · rename_i e
    cases hf : find x' m with
    | none => rw [h5 x' e hf]; exact .refused
    | some w =>
      obtain ⟨w', h6, h7⟩ := h4 x' w e hf
      rw [h6]
      exact extractItem_same h7

/-- C41, `X:Y:Z` (what is missing: recipes and values with a double quote, a backslash or a
NUL in them, and the empty value and values with a colon or an at sign: see
`C41_empty_value`, `C41_colon`).

Where `X` has a recipe with a parameter `Y`, setting it succeeds; extracting `X:Y` then gives
`Z`, or a map that means the same if `Z` is a map; and extracting any other parameter
does what it did before. -/
theorem C41_set_partial {recipe x y z item name r old : Str} {m n l : Map}
    (hm : cook recipe = some m) (hs : ∀ k v, find k m = some v → Safe v)
    (hx : find x m = some item) (hn : cook item = some n) (hname : find nameKey n = some name)
    (hr : find recipeKey n = some r) (hl : cook r = some l) (hy : find y l = some old)
    (hyn : y ≠ nameKey) (hz : Safe z) (hz0 : z ≠ []) (hzp : Unseparated z) :
    ∃ recipe', interpret recipe (opt3 x y z) = .ok recipe' ∧
      (∃ z', extract recipe' (opt2 x y) = .ok z' ∧ Same z z') ∧
      ∀ x' y', 0x3A ∉ x' → 0x3A ∉ y' → y' ≠ [] → (x', y') ≠ (x, y) →
        SameOutcome (extract recipe (opt2 x' y')) (extract recipe' (opt2 x' y')) := by
  have sm : SafeMap m := ⟨(cook_good hm).1, hs⟩
  have sn := (hs x item hx).map hn
  have sl := (sn.2 _ _ hr).map hl
  obtain ⟨hx1, hx2⟩ := sm.key hx
  obtain ⟨hy1, hy2⟩ := sl.key hy
  have px := ident_plain' hx2
  have py := ident_plain' hy2
  have sl' := sl.put hy1 hy2 hz
  have sn' := sn.put recipeKey_ok.1 recipeKey_ok.2 sl'.freeze
  have e := interpret_colon (o := opt3 x y z) (ps := [x, y, z]) hm (by unfold opt3; simp)
    (by simp [opt3, px.2, py.2, hzp.2]) (pieces_three px.1 py.1 hzp.1 hz0)
  simp only [interpretColon, hx, hn, hyn, if_false, hr, hl, hy] at e
  refine ⟨_, e, ?_, ?_⟩
  · have h := extract_put sm ⟨item, hx⟩ sn'.freeze hm (pieces_opt2 px.1 py.1 hy1)
    rw [if_pos rfl] at h
    obtain ⟨n', h1, ⟨r', h2, h3⟩, h4, -⟩ := cooked_at sn' sn.1.sorted
    obtain ⟨a', h5, -⟩ := h4 nameKey name (by decide) hname
    obtain ⟨l', h6, ⟨z', h7, h8⟩, -, -⟩ := cooked_at sl' sl.1.sorted
    obtain ⟨l'', h9, h10⟩ := h3.cook_some h6
    obtain ⟨z'', h11, h12⟩ := h10.find_some h7
    have e1 : extractItem (freeze (put recipeKey (freeze (put y z l)) n)) [y] = .ok z'' := by
      unfold extractItem extractIn
      simp only [h1, h2, h5, hyn, if_false, h9, h11]
    rw [e1] at h
    generalize extract (freeze _) _ = o at h ⊢
    cases h with
    | ok h => exact ⟨_, rfl, (h8.trans h12).trans h⟩
  · intro x' y' hx' hy' hy0 hne
    have h := extract_put sm ⟨item, hx⟩ sn'.freeze hm (pieces_opt2 hx' hy' hy0)
    split at h
    · rename_i ex
      subst ex
      refine SameOutcome.trans ?_ h
      rw [extract_eq hm (pieces_opt2 hx' hy' hy0), hx]
      simp only
      have hyy : y' ≠ y := fun e => hne (by rw [e])
      obtain ⟨n', h1, ⟨r', h2, h3⟩, h4, -⟩ := cooked_at sn' sn.1.sorted
      obtain ⟨a', h5, h5'⟩ := h4 nameKey name (by decide) hname
      obtain ⟨l', h6, -, h7, h8⟩ := cooked_at sl' sl.1.sorted
      obtain ⟨l'', h9, h10⟩ := h3.cook_some h6
      unfold extractItem
      rw [hn, h1]
      simp only
      rw [hname, hr, h5, h2]
      simp only
      split
      · exact .ok h5'
      · unfold extractIn
        rw [hl, h9]
        simp only
        cases hf : find y' l with
        | none => rw [h10.find_none (h8 y' hyy hf)]; exact .undefined
        | some w =>
          obtain ⟨w', k1, k2⟩ := h7 y' w hyy hf
          obtain ⟨w'', k3, k4⟩ := h10.find_some k1
          rw [k3]
          exact .ok (k2.trans k4)
    · exact h

/-- C41, `X:Z`: extracting `X` then gives `Z`, and other items are as before. -/
theorem C41_recipe_partial {recipe x z item name : Str} {m n : Map}
    (hm : cook recipe = some m) (hs : ∀ k v, find k m = some v → Safe v)
    (hx : find x m = some item) (hn : cook item = some n) (hname : find nameKey n = some name)
    (hz : Safe z) (hz0 : z ≠ []) (hzp : Unseparated z) :
    ∃ recipe', interpret recipe (opt2 x z) = .ok recipe' ∧
      (∃ z', extract recipe' x = .ok z' ∧ Same z z') ∧
      SameOutcome (.ok name) (extract recipe' (opt2 x nameKey)) ∧
      ∀ x' o, (o = x' ∨ ∃ y', 0x3A ∉ y' ∧ y' ≠ [] ∧ o = opt2 x' y') → 0x3A ∉ x' → x' ≠ x →
        SameOutcome (extract recipe o) (extract recipe' o) := by
  have sm : SafeMap m := ⟨(cook_good hm).1, hs⟩
  have sn := (hs x item hx).map hn
  obtain ⟨hx1, hx2⟩ := sm.key hx
  have px := ident_plain' hx2
  have sn' := sn.put recipeKey_ok.1 recipeKey_ok.2 hz
  have e := interpret_colon (o := opt2 x z) (ps := [x, z]) hm (by unfold opt2; simp)
    (by simp [opt2, px.2, hzp.2]) (pieces_two px.1 hzp.1 hz0)
  simp only [interpretColon, hx, hn] at e
  obtain ⟨n', h1, ⟨r', h2, h3⟩, h4, -⟩ := cooked_at sn' sn.1.sorted
  obtain ⟨a', h5, h5'⟩ := h4 nameKey name (by decide) hname
  refine ⟨_, e, ?_, ?_, ?_⟩
  · have h := extract_put sm ⟨item, hx⟩ sn'.freeze hm (pieces_one px.1)
    rw [if_pos rfl] at h
    have e1 : extractItem (freeze (put recipeKey z n)) [] = .ok r' := by
      unfold extractItem
      simp only [h1, h2, h5]
    rw [e1] at h
    generalize extract (freeze _) _ = o at h ⊢
    cases h with
    | ok h => exact ⟨_, rfl, h3.trans h⟩
  · have h := extract_put sm ⟨item, hx⟩ sn'.freeze hm (pieces_opt2 (y := nameKey) px.1 (by decide) (by decide))
    rw [if_pos rfl] at h
    have e1 : extractItem (freeze (put recipeKey z n)) [nameKey] = .ok a' := by
      unfold extractItem
      simp only [h1, h2, h5, if_true]
    rw [e1] at h
    exact .trans (.ok h5') h
  · intro x' o ho hx' hne
    have hp : ∃ rest, pieces 0x3A o = x' :: rest := by
      rcases ho with rfl | ⟨y', a, b, rfl⟩
      · exact ⟨[], pieces_one hx'⟩
      · exact ⟨[y'], pieces_two hx' a b⟩
    obtain ⟨rest, hp⟩ := hp
    have h := extract_put sm ⟨item, hx⟩ sn'.freeze hm hp
    rw [if_neg hne] at h
    exact h

/-- C41, `X:name:Z`: extracting `X:name` then gives `Z`, and the recipe of `X` is empty. -/
theorem C41_name_partial {recipe x z item : Str} {m n : Map}
    (hm : cook recipe = some m) (hs : ∀ k v, find k m = some v → Safe v)
    (hx : find x m = some item) (hn : cook item = some n) (hz : Safe z) (hz0 : z ≠ []) (hzp : Unseparated z) :
    ∃ recipe', interpret recipe (opt3 x nameKey z) = .ok recipe' ∧
      (∃ z', extract recipe' (opt2 x nameKey) = .ok z' ∧ Same z z') ∧ extract recipe' x = .ok [] := by
  have sm : SafeMap m := ⟨(cook_good hm).1, hs⟩
  have sn := (hs x item hx).map hn
  obtain ⟨hx1, hx2⟩ := sm.key hx
  have px := ident_plain' hx2
  have s1 := sn.put nameKey_ok.1 nameKey_ok.2 hz
  have hempty : Safe [] := .leaf rfl (fun c hc => by cases hc)
  have s2 := s1.put recipeKey_ok.1 recipeKey_ok.2 hempty
  have e := interpret_colon (o := opt3 x nameKey z) (ps := [x, nameKey, z]) hm (by unfold opt3; simp)
    (by simp [opt3, px.2, hzp.2, nameKey]) (pieces_three px.1 (by decide) hzp.1 hz0)
  simp only [interpretColon, hx, hn, if_true] at e
  obtain ⟨n', h1, ⟨r', h2, h3⟩, h4, -⟩ := cooked_at s2 s1.1.sorted
  obtain ⟨a', h5, h5'⟩ := h4 nameKey z (by decide) (by rw [find_put sn.1.sorted, if_pos rfl])
  have hr' : r' = [] := h3.cook_none rfl
  subst hr'
  refine ⟨_, e, ?_, ?_⟩
  · have h := extract_put sm ⟨item, hx⟩ s2.freeze hm (pieces_opt2 (y := nameKey) px.1 (by decide) (by decide))
    rw [if_pos rfl] at h
    have e1 : extractItem (freeze (put recipeKey [] (put nameKey z n))) [nameKey] = .ok a' := by
      unfold extractItem
      simp only [h1, h2, h5, if_true]
    rw [e1] at h
    generalize extract (freeze _) _ = o at h ⊢
    cases h with
    | ok h => exact ⟨_, rfl, h5'.trans h⟩
  · have h := extract_put sm ⟨item, hx⟩ s2.freeze hm (pieces_one px.1)
    rw [if_pos rfl] at h
    have e1 : extractItem (freeze (put recipeKey [] (put nameKey z n))) [] = .ok [] := by
      unfold extractItem
      simp only [h1, h2, h5]
    rw [e1] at h
    generalize extract (freeze _) _ = o at h ⊢
    cases h with
    | ok h => rw [h.cook_none rfl]

/-- C41, `X@Y`: the name found for `X` then is `Y`, and its recipe is what `X` was. -/
theorem C41_wrap_partial {recipe x y item : Str} {m : Map}
    (hm : cook recipe = some m) (hs : ∀ k v, find k m = some v → Safe v)
    (hx : find x m = some item) (hy : Safe y) (hy0 : y ≠ []) (hyp : 0x40 ∉ y) :
    ∃ recipe' m' y' item', interpret recipe (optAt x y) = .ok recipe' ∧ cook recipe' = some m' ∧
      nameAndRecipe m' x = some (y', item') ∧ Same y y' ∧ Same item item' ∧
      ∀ k, k ≠ x → ∀ v, find k m = some v → ∃ v', find k m' = some v' ∧ Same v v' := by
  have sm : SafeMap m := ⟨(cook_good hm).1, hs⟩
  obtain ⟨hx1, hx2⟩ := sm.key hx
  have px := ident_plain' hx2
  have s0 : SafeMap [] := ⟨⟨List.Pairwise.nil, fun kv h => by cases h⟩, fun k v h => by cases h⟩
  have s1 := s0.put nameKey_ok.1 nameKey_ok.2 hy
  have s2 := s1.put recipeKey_ok.1 recipeKey_ok.2 (hs x item hx)
  obtain ⟨n', h1, ⟨r', h2, h3⟩, h4, -⟩ := cooked_at s2 s1.1.sorted
  obtain ⟨a', h5, h5'⟩ := h4 nameKey y (by decide) (by rw [find_put s0.1.sorted, if_pos rfl])
  obtain ⟨m', k1, ⟨w, k2, k3⟩, k4, -⟩ := cooked_at (sm.put hx1 hx2 s2.freeze) sm.1.sorted
  obtain ⟨n'', h6, h7⟩ := k3.cook_some h1
  obtain ⟨a'', h8, h9⟩ := h7.find_some h5
  obtain ⟨r'', h10, h11⟩ := h7.find_some h2
  refine ⟨_, m', a'', r'', ?_, k1, ?_, h5'.trans h9, h3.trans h11, ?_⟩
  · unfold interpret
    rw [if_neg (by unfold optAt; simp), hm]
    simp only
    rw [show pieces 0x40 (optAt x y) = [x, y] from pieces_two px.2 hyp hy0]
    simp only
    rw [hx]
  · unfold nameAndRecipe unwrap
    rw [k2]
    simp only
    rw [h6]
    simp only
    rw [h8]
    simp only
    rw [h10]
  · intro k hk v hv
    exact k4 k v hk hv

/-! ### examples -/

/-- `[t:[name:"n",recipe:"[a:'1',b:'2']"]]` -/
def exampleRecipe : Str :=
  [0x5B, 0x74, 0x3A, 0x5B] ++ nameKey ++ [0x3A, 0x22, 0x6E, 0x22, 0x2C] ++ recipeKey ++
    [0x3A, 0x22, 0x5B, 0x61, 0x3A, 0x27, 0x31, 0x27, 0x2C, 0x62, 0x3A, 0x27, 0x32, 0x27, 0x5D, 0x22, 0x5D, 0x5D]

def exampleInner : Str := [0x5B, 0x61, 0x3A, 0x27, 0x31, 0x27, 0x2C, 0x62, 0x3A, 0x27, 0x32, 0x27, 0x5D]
def exampleItem : Str := [0x5B] ++ nameKey ++ [0x3A, 0x22, 0x6E, 0x22, 0x2C] ++ recipeKey ++
  [0x3A, 0x22] ++ exampleInner ++ [0x22, 0x5D]

/-- The hypotheses of `C41_set_partial` hold, for setting `t:a` to `9` in this recipe. -/
example : ∃ item m n l, cook exampleRecipe = some m ∧ (∀ k v, find k m = some v → Safe v) ∧
    find [0x74] m = some item ∧ cook item = some n ∧ find nameKey n = some [0x6E] ∧
    (∃ r, find recipeKey n = some r ∧ cook r = some l) ∧ find [0x61] l = some [0x31] ∧
    Safe [0x39] ∧ Unseparated [0x39] := by
  refine ⟨exampleItem, [([0x74], exampleItem)], [(nameKey, [0x6E]), (recipeKey, exampleInner)],
    [([0x61], [0x31]), ([0x62], [0x32])], by decide, ?_, by decide, by decide, by decide,
    ⟨exampleInner, by decide, by decide⟩, by decide, .leaf (by decide) (by unfold Quotable; decide),
    by unfold Unseparated; decide⟩
  intro k v h
  have hm := find_mem h
  simp only [List.mem_cons, List.not_mem_nil, or_false, Prod.mk.injEq] at hm
  obtain ⟨-, rfl⟩ := hm
  refine .node (p := [(nameKey, [0x6E]), (recipeKey, exampleInner)]) (by decide) ?_
  intro k v h
  have hm := find_mem h
  simp only [List.mem_cons, List.not_mem_nil, or_false, Prod.mk.injEq] at hm
  rcases hm with ⟨-, rfl⟩ | ⟨-, rfl⟩
  · exact .leaf (by decide) (by unfold Quotable; decide)
  refine .node (p := [([0x61], [0x31]), ([0x62], [0x32])]) (by decide) ?_
  intro k v h
  have hm := find_mem h
  simp only [List.mem_cons, List.not_mem_nil, or_false, Prod.mk.injEq] at hm
  rcases hm with ⟨-, rfl⟩ | ⟨-, rfl⟩
  · exact .leaf (by decide) (by unfold Quotable; decide)
  · exact .leaf (by decide) (by unfold Quotable; decide)

/-- the value extracted after setting an option -/
def setGet (recipe option asked : Str) : Outcome Str :=
  match interpret recipe option with
  | .ok r => extract r asked
  | .refused => .refused
  | .undefined => .undefined

example : setGet exampleRecipe (opt3 [0x74] [0x61] [0x39]) (opt2 [0x74] [0x61]) = .ok [0x39] := by decide
example : setGet exampleRecipe (opt3 [0x74] [0x61] [0x39]) (opt2 [0x74] [0x62]) = .ok [0x32] := by decide

/-! ### what is not as one would expect -/

/-- A value with a colon, `9:8`, is cut short: the option is taken for `t:a:9`. -/
theorem C41_colon :
    setGet exampleRecipe (opt3 [0x74] [0x61] [0x39, 0x3A, 0x38]) (opt2 [0x74] [0x61]) = .ok [0x39] := by decide

/-- With an empty value, `t:a:`, the option is taken for `t:a`: instead of emptying one
parameter it replaces the whole recipe by `a`. -/
theorem C41_empty_value :
    setGet exampleRecipe (opt3 [0x74] [0x61] []) [0x74] = .ok [0x61] := by decide

/-- An option without a value, `t`, or with nothing after the colon, `t:`, is not refused:
a piece that is not there is read. -/
theorem C41_no_value : interpret exampleRecipe [0x74] = .undefined ∧
    interpret exampleRecipe [0x74, 0x3A] = .undefined := by decide

/-- Extracting a parameter that is not there is not refused. -/
theorem C41_extract_missing : extract exampleRecipe (opt2 [0x74] [0x63]) = .undefined := by decide

/-- A value with a double quote is set without an error; then nothing can be extracted, nor
any option set. -/
theorem C41_quote :
    setGet exampleRecipe (opt3 [0x74] [0x61] [0x22]) (opt2 [0x74] [0x61]) = .refused ∧
    setGet exampleRecipe (opt3 [0x74] [0x61] [0x22]) (opt2 [0x74] [0x62]) = .refused := by decide

end Verif.Props
