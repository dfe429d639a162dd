import Verif.Recipe.Proof
import Verif.Recipe.Options
/-
  Lemmas on options.
-/
namespace Verif.Recipe

/-- two maps mean the same -/
def SameMap (m m' : Map) : Prop :=
  m.map (·.1) = m'.map (·.1) ∧ ∀ k v v', find k m = some v → find k m' = some v' → Same v v'

theorem find_keys : ∀ {m m' : Map} {k : Str}, m.map (·.1) = m'.map (·.1) →
    ((find k m).isSome ↔ (find k m').isSome) := by
  intro m
  induction m with
  | nil =>
    intro m' k h
    cases m' with
    | nil => exact Iff.rfl
    | cons y m' => simp at h
  | cons x m ih =>
    intro m' k h
    cases m' with
    | nil => simp at h
    | cons y m' =>
      obtain ⟨a, b⟩ := x
      obtain ⟨c, d⟩ := y
      simp only [List.map_cons, List.cons.injEq] at h
      obtain ⟨rfl, h⟩ := h
      unfold find
      split
      · simp
      · exact ih h

theorem SameMap.find_some {m m' : Map} (h : SameMap m m') {k v : Str} (hf : find k m = some v) :
    ∃ v', find k m' = some v' ∧ Same v v' := by
  have := (find_keys (k := k) h.1).mp (by rw [hf]; rfl)
  obtain ⟨v', hv'⟩ := Option.isSome_iff_exists.mp this
  exact ⟨v', hv', h.2 k v v' hf hv'⟩

theorem SameMap.find_none {m m' : Map} (h : SameMap m m') {k : Str} (hf : find k m = none) :
    find k m' = none := by
  cases hm : find k m' with
  | none => rfl
  | some v =>
    have := (find_keys (k := k) h.1).mpr (by rw [hm]; rfl)
    rw [hf] at this
    cases this

theorem SameMap.find_some' {m m' : Map} (h : SameMap m m') {k v' : Str} (hf : find k m' = some v') :
    ∃ v, find k m = some v ∧ Same v v' := by
  have := (find_keys (k := k) h.1).mpr (by rw [hf]; rfl)
  obtain ⟨v, hv⟩ := Option.isSome_iff_exists.mp this
  exact ⟨v, hv, h.2 k v v' hv hf⟩

theorem Same.cook_some {v v' : Str} (h : Same v v') {m : Map} (hc : cook v = some m) :
    ∃ m', cook v' = some m' ∧ SameMap m m' := by
  cases h with
  | leaf h => rw [hc] at h; cases h
  | node h1 h2 h3 h4 =>
    rw [hc] at h1
    cases h1
    exact ⟨_, h2, h3, h4⟩

theorem Same.cook_none {v v' : Str} (h : Same v v') (hc : cook v = none) : v' = v := by
  cases h with
  | leaf h => rfl
  | node h1 => rw [hc] at h1; cases h1

theorem Same.trans {a b c : Str} (h : Same a b) : Same b c → Same a c := by
  intro k
  induction h generalizing c with
  | leaf _ => exact k
  | @node v v' p p' h1 h2 h3 h4 ih =>
    obtain ⟨p'', e1, e2⟩ := k.cook_some h2
    refine .node h1 e1 (h3.trans e2.1) ?_
    intro x w w'' hw hw''
    obtain ⟨w', hw', hs⟩ := e2.find_some' hw''
    exact ih x w w' hw hw' hs

theorem Same.refl (v : Str) : Same v v := by
  have : ∀ n, ∀ v : Str, v.length ≤ n → Same v v := by
    intro n
    induction n with
    | zero =>
      intro v hv
      obtain rfl : v = [] := List.length_eq_zero_iff.mp (by omega)
      exact .leaf rfl
    | succ n ih =>
      intro v hv
      cases hc : cook v with
      | none => exact .leaf hc
      | some m =>
        refine .node hc hc rfl ?_
        intro k w w' h1 h2
        rw [h1] at h2
        obtain rfl : w = w' := by simpa using h2
        have := (cook_good hc).2 _ (find_mem h1)
        simp only at this
        exact ih w (by omega)
  exact this v.length v (Nat.le_refl _)

theorem SameMap.refl (m : Map) : SameMap m m := by
  refine ⟨rfl, ?_⟩
  intro k v v' h1 h2
  rw [h1] at h2
  obtain rfl : v = v' := by simpa using h2
  exact .refl v

theorem SameMap.trans {a b c : Map} (h : SameMap a b) (k : SameMap b c) : SameMap a c := by
  refine ⟨h.1.trans k.1, ?_⟩
  intro x v v'' h1 h2
  obtain ⟨v', hv', hs⟩ := k.find_some' h2
  exact (h.2 x v v' h1 hv').trans hs

theorem Safe.same {v v' : Str} (h : Safe v) (k : Same v v') : Safe v' := by
  induction h generalizing v' with
  | leaf h1 h2 => rw [k.cook_none h1]; exact .leaf h1 h2
  | @node v p h1 h2 ih =>
    obtain ⟨p', e1, e2⟩ := k.cook_some h1
    refine .node e1 ?_
    intro x w' hw'
    obtain ⟨w, hw, hs⟩ := e2.find_some' hw'
    exact ih x w hw hs

/-- all values can be written -/
def SafeMap (m : Map) : Prop := GoodMap m ∧ ∀ k v, find k m = some v → Safe v

theorem Safe.map {v : Str} (h : Safe v) {m : Map} (hc : cook v = some m) : SafeMap m := by
  refine ⟨(cook_good hc).1, ?_⟩
  cases h with
  | leaf h _ => rw [hc] at h; cases h
  | node h1 h2 => rw [hc] at h1; cases h1; exact h2

theorem find_put {k v : Str} {m : Map} (h : m.Pairwise fun a b => less a.1 b.1 = true) (x : Str) :
    find x (put k v m) = if x = k then some v else find x m := by
  induction m with
  | nil =>
    unfold put
    by_cases e : k = x
    · subst e; simp [find]
    · simp [find, e, Ne.symm e]
  | cons y m ih =>
    obtain ⟨k', v'⟩ := y
    rw [List.pairwise_cons] at h
    unfold put
    split
    · rename_i hl
      by_cases e : k = x
      · subst e; simp [find]
      · rw [find, if_neg e, if_neg (Ne.symm e)]
    · split
      · rename_i e
        subst e
        by_cases e : k = x
        · subst e; simp [find]
        · rw [find, if_neg e, if_neg (Ne.symm e), find, if_neg e]
      · rename_i hl e
        rw [find, ih h.2]
        by_cases e1 : k' = x
        · subst e1
          rw [if_pos rfl, if_neg (Ne.symm e), find, if_pos rfl]
        · rw [if_neg e1]
          split
          · rfl
          · rw [find, if_neg e1]

theorem put_keys {k v : Str} {m : Map} (h : m.Pairwise fun a b => less a.1 b.1 = true)
    (hk : (find k m).isSome) : (put k v m).map (·.1) = m.map (·.1) := by
  induction m with
  | nil => cases hk
  | cons y m ih =>
    obtain ⟨k', v'⟩ := y
    rw [List.pairwise_cons] at h
    unfold find at hk
    unfold put
    split
    · rename_i hl
      split at hk
      · rename_i e; subst e; rw [less_irrefl] at hl; cases hl
      · obtain ⟨w, hw⟩ := Option.isSome_iff_exists.mp hk
        have h1 := h.1 _ (find_mem hw)
        have := less_trans hl h1
        simp only [less_irrefl] at this
        cases this
    · split
      · rename_i e; subst e; rfl
      · rename_i e
        rw [if_neg (Ne.symm e)] at hk
        rw [List.map_cons, List.map_cons, ih h.2 hk]

theorem SafeMap.put {m : Map} (h : SafeMap m) {k v : Str} (hk : k ≠ []) (hid : ∀ c ∈ k, identifier c = true)
    (hv : Safe v) : SafeMap (put k v m) := by
  refine ⟨GoodMap.of (put_sorted h.1.sorted) ?_, ?_⟩
  · intro kv hkv
    rcases mem_put hkv with rfl | hkv
    · exact ⟨hk, hid⟩
    · exact h.1.keys kv hkv
  · intro x w hw
    rw [find_put h.1.sorted] at hw
    split at hw
    · obtain rfl : v = w := by simpa using hw
      exact hv
    · exact h.2 x w hw

theorem SafeMap.key {m : Map} (h : SafeMap m) {k v : Str} (hf : find k m = some v) :
    k ≠ [] ∧ ∀ c ∈ k, identifier c = true := h.1.keys _ (find_mem hf)

theorem SafeMap.cooked {m : Map} (h : SafeMap m) : ∃ m', cook (freeze m) = some m' ∧ SameMap m m' := by
  have hc := cook_dump (f := fun w => dumpVal (w.length + 1) w 1)
    (g := fun w => back (w.length + 1) w 1) h.1 (by
      intro kv hkv
      exact ((h.2 kv.1 kv.2 (mem_find h.1 hkv)).form (by omega)).1) 0 (z := [0x0A]) (by
      intro c hc
      obtain rfl : c = 0x0A := by simpa using hc
      decide)
  refine ⟨_, hc, by simp, ?_⟩
  intro k v v' h1 h2
  rw [find_map (fun w => back (w.length + 1) w 1), h1] at h2
  obtain rfl : back (v.length + 1) v 1 = v' := by simpa using h2
  exact ((h.2 k v h1).form (by omega)).2.1

theorem SafeMap.freeze {m : Map} (h : SafeMap m) : Safe (freeze m) := by
  obtain ⟨m', h1, h2⟩ := h.cooked
  refine .node h1 ?_
  intro k v hv
  obtain ⟨w, hw, hs⟩ := h2.find_some' hv
  exact (h.2 k w hw).same hs

/-- what is read at a key after a map was changed at it and written -/
theorem cooked_at {m : Map} (h : SafeMap (put k v m)) (hs : m.Pairwise fun a b => less a.1 b.1 = true) :
    ∃ m', cook (freeze (put k v m)) = some m' ∧ (∃ v', find k m' = some v' ∧ Same v v') ∧
      (∀ x w, x ≠ k → find x m = some w → ∃ w', find x m' = some w' ∧ Same w w') ∧
      ∀ x, x ≠ k → find x m = none → find x m' = none := by
  obtain ⟨m', h1, h2⟩ := h.cooked
  refine ⟨m', h1, h2.find_some (by rw [find_put hs, if_pos rfl]), ?_, ?_⟩
  · intro x w hx hw
    exact h2.find_some (by rw [find_put hs, if_neg hx, hw])
  · intro x hx hw
    exact h2.find_none (by rw [find_put hs, if_neg hx, hw])

/-! ### the pieces of an option -/

theorem splitAt_none {c : UInt8} {s : Str} (h : c ∉ s) : splitAt c s = [s] := by
  induction s with
  | nil => rfl
  | cons d s ih =>
    unfold splitAt
    rw [if_neg (fun e => h (by simp [e])), ih (fun hs => h (List.mem_cons_of_mem _ hs))]

theorem splitAt_append {c : UInt8} {s r : Str} (h : c ∉ s) : splitAt c (s ++ c :: r) = s :: splitAt c r := by
  induction s with
  | nil => show splitAt c (c :: r) = _; rw [splitAt, if_pos rfl]
  | cons d s ih =>
    show splitAt c (d :: (s ++ c :: r)) = _
    rw [splitAt, if_neg (fun e => h (by simp [e])), ih (fun hs => h (List.mem_cons_of_mem _ hs))]

theorem pieces_one {c : UInt8} {s : Str} (h : c ∉ s) : pieces c s = [s] := by
  unfold pieces; rw [splitAt_none h]

theorem pieces_two {c : UInt8} {x y : Str} (hx : c ∉ x) (hy : c ∉ y) (h : y ≠ []) :
    pieces c (x ++ c :: y) = [x, y] := by
  unfold pieces; rw [splitAt_append hx, splitAt_none hy]
  simp [h]

theorem pieces_three {c : UInt8} {x y z : Str} (hx : c ∉ x) (hy : c ∉ y) (hz : c ∉ z) (h : z ≠ []) :
    pieces c (x ++ c :: (y ++ c :: z)) = [x, y, z] := by
  unfold pieces; rw [splitAt_append hx, splitAt_append hy, splitAt_none hz]
  simp [h]

/-! ### extracting -/

/-- both succeed, with values that mean the same, or neither does and for the same reason -/
inductive SameOutcome : Outcome Str → Outcome Str → Prop
  | ok {a b} : Same a b → SameOutcome (.ok a) (.ok b)
  | refused : SameOutcome .refused .refused
  | undefined : SameOutcome .undefined .undefined

theorem SameOutcome.refl (a : Outcome Str) : SameOutcome a a := by
  cases a with
  | ok a => exact .ok (.refl a)
  | refused => exact .refused
  | undefined => exact .undefined

theorem SameOutcome.trans {a b c : Outcome Str} (h : SameOutcome a b) (k : SameOutcome b c) :
    SameOutcome a c := by
  cases h with
  | ok h => cases k with | ok k => exact .ok (h.trans k)
  | refused => exact k
  | undefined => exact k

/-- the part of `extract` that looks within the recipe of an item -/
def extractIn (itemRecipe y : Str) : Outcome Str :=
  match cook itemRecipe with
  | none => .refused
  | some l => match find y l with
    | none => .undefined
    | some z => .ok z

/-- the part of `extract` that looks within an item -/
def extractItem (item : Str) (rest : List Str) : Outcome Str :=
  match cook item with
  | none => .refused
  | some itemParameters => match find nameKey itemParameters, find recipeKey itemParameters with
    | some name, some itemRecipe => match rest with
      | [] => .ok itemRecipe
      | y :: _ => if y = nameKey then .ok name else extractIn itemRecipe y
    | _, _ => .undefined

theorem extract_eq {recipe option x : Str} {rest : List Str} {m : Map} (hm : cook recipe = some m)
    (hp : pieces 0x3A option = x :: rest) : extract recipe option =
      match find x m with
      | none => .refused
      | some item => extractItem item rest := by
  unfold extract
  rw [hm]
  simp only
  rw [hp]
  rfl

theorem extractIn_same {r r' y : Str} (h : Same r r') : SameOutcome (extractIn r y) (extractIn r' y) := by
  unfold extractIn
  cases hc : cook r with
  | none => rw [h.cook_none hc, hc]; exact .refused
  | some l =>
    obtain ⟨l', h1, h2⟩ := h.cook_some hc
    rw [h1]
    simp only
    cases hf : find y l with
    | none => rw [h2.find_none hf]; exact .undefined
    | some z =>
      obtain ⟨z', h3, h4⟩ := h2.find_some hf
      rw [h3]; exact .ok h4

theorem extractItem_same {i i' : Str} {rest : List Str} (h : Same i i') :
    SameOutcome (extractItem i rest) (extractItem i' rest) := by
  unfold extractItem
  cases hc : cook i with
  | none => rw [h.cook_none hc, hc]; exact .refused
  | some n =>
    obtain ⟨n', h1, h2⟩ := h.cook_some hc
    rw [h1]
    simp only
    cases hf : find nameKey n with
    | none => rw [h2.find_none hf]; exact .undefined
    | some a =>
      obtain ⟨a', h3, h4⟩ := h2.find_some hf
      rw [h3]
      cases hg : find recipeKey n with
      | none => rw [h2.find_none hg]; exact .undefined
      | some r =>
        obtain ⟨r', h5, h6⟩ := h2.find_some hg
        rw [h5]
        simp only
        cases rest with
        | nil => exact .ok h6
        | cons y _ =>
          simp only
          split
          · exact .ok h4
          · exact extractIn_same h6

end Verif.Recipe
