import Verif.Collect.Cbor
/-
  Reading what was written in CBOR (C89).
-/
namespace Verif.Collect.Cbor

/-! ### numbers -/

theorem big_append (a : Bytes) (d : Nat) : big (a ++ [d]) = big a * 256 + d := by
  unfold big; rw [List.foldl_append]; rfl

theorem bigEndian_length : ∀ k n, (bigEndian k n).length = k := by
  intro k
  induction k with
  | zero => intro n; rfl
  | succ k ih => intro n; simp [bigEndian, ih]

theorem big_bigEndian : ∀ k n, n < 256 ^ k → big (bigEndian k n) = n := by
  intro k
  induction k with
  | zero => intro n h; simp at h; subst h; rfl
  | succ k ih =>
    intro n h
    rw [bigEndian, big_append, ih _ (by rw [Nat.pow_succ] at h; omega)]
    omega

theorem size_ok {major n : Nat} {b : Bytes} (h : WritesSize major n b) :
    ∃ c r, b = c :: r ∧ c / 32 = major ∧ c % 32 ≠ 31 ∧ ∀ rest, size c (r ++ rest) = some (n, rest) := by
  cases h with
  | short h =>
    refine ⟨_, [], rfl, by omega, by omega, fun rest => ?_⟩
    have : (major * 32 + n) % 32 = n := by omega
    unfold size; simp [this, h]
  | @wide k code hc hn =>
    refine ⟨_, _, rfl, by omega, by omega, fun rest => ?_⟩
    have hl := bigEndian_length k n
    have w : (if (bigEndian k n ++ rest).length < k then none else
        some (big ((bigEndian k n ++ rest).take k), (bigEndian k n ++ rest).drop k)) = some (n, rest) := by
      rw [if_neg (by simp; omega), List.take_left' hl, List.drop_left' hl, big_bigEndian k n hn]
    unfold size
    rcases hc with ⟨rfl, rfl⟩ | ⟨rfl, rfl⟩ | ⟨rfl, rfl⟩ | ⟨rfl, rfl⟩
    · have : (major * 32 + 24) % 32 = 24 := by omega
      simp only [this]; exact w
    · have : (major * 32 + 25) % 32 = 25 := by omega
      simp only [this]; exact w
    · have : (major * 32 + 26) % 32 = 26 := by omega
      simp only [this]; exact w
    · have : (major * 32 + 27) % 32 = 27 := by omega
      simp only [this]; exact w

/-! ### trees -/

mutual
/-- what reading a tree builds -/
def walk (depth mode : Nat) : Tree → Build → Build
  | .int _, s => s
  | .str t, s => apply mode (clean t) s
  | .indef ts, s =>
    if mode = 1 then buildit (walkAll (depth + 1) 2 ts s) else walkAll (depth + 1) mode ts s
  | .arr ts, s => walkFrom depth mode ts.length 0 ts s

def walkAll (depth mode : Nat) : List Tree → Build → Build
  | [], s => s
  | t :: ts, s => walkAll depth mode ts (walk depth mode t s)

def walkFrom (depth mode n : Nat) : Nat → List Tree → Build → Build
  | _, [], s => s
  | i, t :: ts, s => walkFrom depth mode n (i + 1) ts (walk (depth + 1) (modeOf depth mode n i) t s)
end

theorem writes_ne {b : Bytes} {t : Tree} (h : Writes b t) : 0 < b.length := by
  cases h with
  | int _ h => obtain ⟨c, r, rfl, -⟩ := size_ok h; simp
  | str _ h => obtain ⟨c, r, rfl, -⟩ := size_ok h; simp
  | arr h _ => obtain ⟨c, r, rfl, -⟩ := size_ok h; simp
  | indef _ => simp

/-- reading an item -/
def ItemOk (b : Bytes) (t : Tree) : Prop := ∀ fuel depth mode rest s, (b ++ rest).length < fuel →
  (item fuel depth mode (b ++ rest) s).build = walk depth mode t s ∧ (item fuel depth mode (b ++ rest) s).next = some (false, rest)

/-- reading items up to a break, or up to the end of the file; and so many items -/
def AllOk (bs : Bytes) (ts : List Tree) : Prop :=
  (∀ fuel depth mode rest s k, (bs ++ 0xff :: rest).length < fuel → (bs ++ 0xff :: rest).length < k →
    (untilBreak (item fuel depth mode) k (bs ++ 0xff :: rest) s).build = walkAll depth mode ts s ∧
    (untilBreak (item fuel depth mode) k (bs ++ 0xff :: rest) s).next = some (true, rest)) ∧
  (∀ fuel depth mode s k, bs.length < fuel → bs.length < k →
    (untilBreak (item fuel depth mode) k bs s).build = walkAll depth mode ts s ∧
    (untilBreak (item fuel depth mode) k bs s).next = some (true, [])) ∧
  (∀ fuel depth mode n i rest s, (bs ++ rest).length < fuel →
    (count (fun i => item fuel (depth + 1) (modeOf depth mode n i)) ts.length i (bs ++ rest) s).build = walkFrom depth mode n i ts s ∧
    (count (fun i => item fuel (depth + 1) (modeOf depth mode n i)) ts.length i (bs ++ rest) s).next = some (false, rest))

theorem untilBreak_cons {step : Bytes → Build → Res} {k : Nat} {f f' : Bytes} {s s' : Build}
    (h : (step f s).build = s' ∧ (step f s).next = some (false, f')) :
    (untilBreak step (k + 1) f s).build = (untilBreak step k f' s').build ∧
    (untilBreak step (k + 1) f s).next = (untilBreak step k f' s').next := by
  obtain ⟨h1, h2⟩ := h
  rw [untilBreak]
  simp only [h2, h1]
  trivial

theorem count_cons {step : Nat → Bytes → Build → Res} {n i : Nat} {f f' : Bytes} {s s' : Build} {b : Bool}
    (h : (step i f s).build = s' ∧ (step i f s).next = some (b, f')) :
    (count step (n + 1) i f s).build = (count step n (i + 1) f' s').build ∧
    (count step (n + 1) i f s).next = (count step n (i + 1) f' s').next := by
  obtain ⟨h1, h2⟩ := h
  rw [count]
  simp only [h2, h1]
  trivial

theorem item_break (fuel depth mode : Nat) (rest : Bytes) (s : Build) :
    item (fuel + 1) depth mode (0xff :: rest) s = ⟨s, 1, some (true, rest)⟩ := by
  simp [item]

theorem item_ok {b : Bytes} {t : Tree} (h : Writes b t) : ItemOk b t := by
  refine Writes.rec (motive_1 := fun b t _ => ItemOk b t) (motive_2 := fun bs ts _ => AllOk bs ts)
    ?_ ?_ ?_ ?_ ?_ ?_ h
  · intro m n b hm hb fuel depth mode rest s hf
    obtain ⟨c, r, rfl, h1, -, h2⟩ := size_ok hb
    obtain ⟨fuel, rfl⟩ : ∃ k, fuel = k + 1 := ⟨fuel - 1, by omega⟩
    rw [List.cons_append, item]
    simp only
    rw [if_pos (by omega), h2]
    exact ⟨rfl, rfl⟩
  · intro m t b hm hb fuel depth mode rest s hf
    obtain ⟨c, r, rfl, h1, -, h2⟩ := size_ok hb
    obtain ⟨fuel, rfl⟩ : ∃ k, fuel = k + 1 := ⟨fuel - 1, by omega⟩
    rw [List.append_assoc, List.cons_append, item]
    simp only
    rw [if_neg (by omega), if_pos (by omega)]
    have : text c (r ++ (t ++ rest)) = some (clean t, rest) := by
      unfold text
      rw [h2]
      simp only
      rw [if_neg (by simp), List.take_left, List.drop_left]
    rw [this]
    exact ⟨rfl, rfl⟩
  · intro b bs ts hb _ ih fuel depth mode rest s hf
    obtain ⟨c, r, rfl, h1, h31, h2⟩ := size_ok hb
    obtain ⟨fuel, rfl⟩ : ∃ k, fuel = k + 1 := ⟨fuel - 1, by omega⟩
    rw [List.append_assoc, List.cons_append, item]
    simp only
    rw [if_neg (by omega), if_neg (by omega), if_pos h1, if_neg (by rintro rfl; exact h31 (by decide)), h2]
    simp only
    obtain ⟨i1, i2⟩ := ih.2.2 fuel depth mode ts.length 0 rest s (by simp at hf ⊢; omega)
    rw [i2]
    exact ⟨i1, rfl⟩
  · intro bs ts _ ih fuel depth mode rest s hf
    obtain ⟨fuel, rfl⟩ : ∃ k, fuel = k + 1 := ⟨fuel - 1, by omega⟩
    have e : 0x9f :: (bs ++ [0xff]) ++ rest = 0x9f :: (bs ++ 0xff :: rest) := by simp
    rw [e, item]
    simp only
    rw [if_neg (by decide), if_neg (by decide), if_pos (by decide), if_pos True.intro]
    obtain ⟨i1, i2⟩ := ih.1 fuel (depth + 1) (if mode = 1 then 2 else mode) rest s ((bs ++ 0xff :: rest).length + 1)
      (by simp at hf ⊢; omega) (by omega)
    rw [i2, i1]
    refine ⟨?_, rfl⟩
    simp only [walk]
    split
    · rfl
    · rfl
  · refine ⟨?_, ?_, ?_⟩
    · intro fuel depth mode rest s k hf hk
      obtain ⟨fuel, rfl⟩ : ∃ k, fuel = k + 1 := ⟨fuel - 1, by omega⟩
      obtain ⟨k, rfl⟩ : ∃ j, k = j + 1 := ⟨k - 1, by omega⟩
      rw [List.nil_append, untilBreak, item_break]
      exact ⟨rfl, rfl⟩
    · intro fuel depth mode s k hf hk
      obtain ⟨fuel, rfl⟩ : ∃ k, fuel = k + 1 := ⟨fuel - 1, by omega⟩
      obtain ⟨k, rfl⟩ : ∃ j, k = j + 1 := ⟨k - 1, by omega⟩
      simp [untilBreak, item, walkAll]
    · intro fuel depth mode n i rest s hf
      exact ⟨rfl, rfl⟩
  · intro b t bs ts hb _ h1 h2
    have hpos := writes_ne hb
    refine ⟨?_, ?_, ?_⟩
    · intro fuel depth mode rest s k hf hk
      obtain ⟨k, rfl⟩ : ∃ j, k = j + 1 := ⟨k - 1, by omega⟩
      rw [List.append_assoc] at hf hk ⊢
      obtain ⟨u1, u2⟩ := untilBreak_cons (k := k) (h1 fuel depth mode (bs ++ 0xff :: rest) s hf)
      obtain ⟨v1, v2⟩ := h2.1 fuel depth mode rest (walk depth mode t s) k (by simp at hf ⊢; omega) (by simp at hk ⊢; omega)
      exact ⟨by rw [u1, v1]; rfl, by rw [u2, v2]⟩
    · intro fuel depth mode s k hf hk
      obtain ⟨k, rfl⟩ : ∃ j, k = j + 1 := ⟨k - 1, by omega⟩
      obtain ⟨u1, u2⟩ := untilBreak_cons (k := k) (h1 fuel depth mode bs s hf)
      obtain ⟨v1, v2⟩ := h2.2.1 fuel depth mode (walk depth mode t s) k (by simp at hf ⊢; omega) (by simp at hk ⊢; omega)
      exact ⟨by rw [u1, v1]; rfl, by rw [u2, v2]⟩
    · intro fuel depth mode n i rest s hf
      rw [List.append_assoc] at hf ⊢
      obtain ⟨u1, u2⟩ := count_cons (step := fun i => item fuel (depth + 1) (modeOf depth mode n i)) (n := ts.length) (i := i)
        (h1 fuel (depth + 1) (modeOf depth mode n i) (bs ++ rest) s hf)
      obtain ⟨v1, v2⟩ := h2.2.2 fuel depth mode n (i + 1) rest (walk (depth + 1) (modeOf depth mode n i) t s) (by simp at hf ⊢; omega)
      exact ⟨by rw [List.length_cons, u1, v1]; rfl, by rw [List.length_cons, u2, v2]⟩

theorem all_ok {bs : Bytes} {ts : List Tree} (h : WritesAll bs ts) : AllOk bs ts := by
  -- as the contents of an array
  induction ts generalizing bs with
  | nil =>
    cases h
    refine ⟨?_, ?_, fun fuel depth mode n i rest s hf => ⟨rfl, rfl⟩⟩
    · intro fuel depth mode rest s k hf hk
      obtain ⟨fuel, rfl⟩ : ∃ k, fuel = k + 1 := ⟨fuel - 1, by omega⟩
      obtain ⟨k, rfl⟩ : ∃ j, k = j + 1 := ⟨k - 1, by omega⟩
      rw [List.nil_append, untilBreak, item_break]
      exact ⟨rfl, rfl⟩
    · intro fuel depth mode s k hf hk
      obtain ⟨fuel, rfl⟩ : ∃ k, fuel = k + 1 := ⟨fuel - 1, by omega⟩
      obtain ⟨k, rfl⟩ : ∃ j, k = j + 1 := ⟨k - 1, by omega⟩
      simp [untilBreak, item, walkAll]
  | cons t ts ih =>
    cases h with
    | @cons b _ bs _ hb hbs =>
      have h1 := item_ok hb
      have h2 := ih hbs
      have hpos := writes_ne hb
      refine ⟨?_, ?_, ?_⟩
      · intro fuel depth mode rest s k hf hk
        obtain ⟨k, rfl⟩ : ∃ j, k = j + 1 := ⟨k - 1, by omega⟩
        rw [List.append_assoc] at hf hk ⊢
        obtain ⟨u1, u2⟩ := untilBreak_cons (k := k) (h1 fuel depth mode (bs ++ 0xff :: rest) s hf)
        obtain ⟨v1, v2⟩ := h2.1 fuel depth mode rest (walk depth mode t s) k (by simp at hf ⊢; omega) (by simp at hk ⊢; omega)
        exact ⟨by rw [u1, v1]; rfl, by rw [u2, v2]⟩
      · intro fuel depth mode s k hf hk
        obtain ⟨k, rfl⟩ : ∃ j, k = j + 1 := ⟨k - 1, by omega⟩
        obtain ⟨u1, u2⟩ := untilBreak_cons (k := k) (h1 fuel depth mode bs s hf)
        obtain ⟨v1, v2⟩ := h2.2.1 fuel depth mode (walk depth mode t s) k (by simp at hf ⊢; omega) (by simp at hk ⊢; omega)
        exact ⟨by rw [u1, v1]; rfl, by rw [u2, v2]⟩
      · intro fuel depth mode n i rest s hf
        rw [List.append_assoc] at hf ⊢
        obtain ⟨u1, u2⟩ := count_cons (step := fun i => item fuel (depth + 1) (modeOf depth mode n i)) (n := ts.length) (i := i)
          (h1 fuel (depth + 1) (modeOf depth mode n i) (bs ++ rest) s hf)
        obtain ⟨v1, v2⟩ := h2.2.2 fuel depth mode n (i + 1) rest (walk (depth + 1) (modeOf depth mode n i) t s) (by simp at hf ⊢; omega)
        exact ⟨by rw [List.length_cons, u1, v1]; rfl, by rw [List.length_cons, u2, v2]⟩

/-- the items of a file, up to its end -/
theorem items_ok : ∀ {bs : Bytes} {ts : List Tree}, WritesAll bs ts → ∀ (s : Build) (k : Nat), bs.length < k →
    (items k bs s).1 = walkAll 0 0 ts s ∧ (items k bs s).2.1 = false := by
  intro bs ts
  induction ts generalizing bs with
  | nil =>
    intro h s k hk
    cases h
    obtain ⟨k, rfl⟩ : ∃ j, k = j + 1 := ⟨k - 1, by omega⟩
    simp [items, item, walkAll]
  | cons t ts ih =>
    intro h s k hk
    cases h with
    | @cons b _ bs _ hb hbs =>
      have hpos := writes_ne hb
      obtain ⟨k, rfl⟩ : ∃ j, k = j + 1 := ⟨k - 1, by omega⟩
      obtain ⟨u1, u2⟩ := item_ok hb ((b ++ bs).length + 1) 0 0 bs s (by omega)
      rw [items]
      simp only [u1, u2]
      exact ih hbs _ k (by simp at hk; omega)

/-! ### paragraphs -/

mutual
theorem walk_quiet (depth : Nat) : ∀ (t : Tree) (s : Build), depth ≠ 1 ∨ (∀ us, t = .arr us → us.length ≠ 3) → 0 < depth → walk depth 0 t s = s
  | .int _, s, _, _ => rfl
  | .str t, s, _, _ => by simp [walk, apply]
  | .indef ts, s, h, h0 => by
    simp only [walk, Nat.zero_ne_one, if_false]
    exact walkAll_quiet (depth + 1) ts s (by omega)
  | .arr ts, s, h, h0 => by
    simp only [walk]
    exact walkFrom_quiet depth ts.length 0 ts s (by
      rcases h with h | h
      · exact .inl h
      · exact .inr (h ts rfl)) h0

theorem walkAll_quiet (depth : Nat) : ∀ (ts : List Tree) (s : Build), 1 < depth → walkAll depth 0 ts s = s
  | [], _, _ => rfl
  | t :: ts, s, h => by
    simp only [walkAll]
    rw [walk_quiet depth t s (.inl (by omega)) (by omega), walkAll_quiet depth ts s h]

theorem walkFrom_quiet (depth n : Nat) : ∀ (i : Nat) (ts : List Tree) (s : Build), depth ≠ 1 ∨ n ≠ 3 → 0 < depth → walkFrom depth 0 n i ts s = s
  | _, [], _, _, _ => rfl
  | i, t :: ts, s, h, h0 => by
    simp only [walkFrom]
    have hm : modeOf depth 0 n i = 0 := by unfold modeOf; simp; omega
    rw [hm, walk_quiet (depth + 1) t s (.inl (by omega)) (by omega), walkFrom_quiet depth n (i + 1) ts s h h0]
end

theorem header_quiet {t : Tree} (h : Header t) (s : Build) : walk 0 0 t s = s := by
  cases h with
  | int => rfl
  | str => simp [walk, apply]
  | @arr ts h =>
    have key : ∀ (ts : List Tree) n i s, (∀ t ∈ ts, ∀ us, t = .arr us → us.length ≠ 3) → walkFrom 0 0 n i ts s = s := by
      intro ts
      induction ts with
      | nil => intros; rfl
      | cons t ts ih =>
        intro n i s h
        simp only [walkFrom]
        have hm : modeOf 0 0 n i = 0 := by unfold modeOf; simp
        rw [hm, walk_quiet 1 t s (.inr (h t (by simp))) (by decide), ih _ _ _ fun t ht => h t (by simp [ht])]
    exact key ts _ _ s h

/-- a text of a paragraph or a keyword -/
def say (s : Build) (x : Bool × Bytes) : Build := if x.1 then addKeyword (clean x.2) s else addText (clean x.2) s

/-- all texts are for the same -/
def sayAll (mode : Nat) (xs : List Bytes) (s : Build) : Build := xs.foldl (fun s x => apply mode (clean x) s) s

mutual
theorem walk_leaves (depth mode : Nat) (hm : mode ≠ 0 ∧ mode ≠ 1) : ∀ (t : Tree) (s : Build), 4 < depth ∨ mode ≠ 2 →
    walk depth mode t s = sayAll mode (leaves t) s
  | .int _, s, _ => rfl
  | .str t, s, _ => rfl
  | .indef ts, s, h => by
    simp only [walk, hm.2, if_false, leaves]
    exact walkAll_leaves (depth + 1) mode hm ts s (by omega)
  | .arr ts, s, h => by
    simp only [walk, leaves]
    exact walkFrom_leaves depth mode ts.length hm 0 ts s h

theorem walkAll_leaves (depth mode : Nat) (hm : mode ≠ 0 ∧ mode ≠ 1) : ∀ (ts : List Tree) (s : Build), 4 < depth ∨ mode ≠ 2 →
    walkAll depth mode ts s = sayAll mode (leavesAll ts) s
  | [], _, _ => rfl
  | t :: ts, s, h => by
    simp only [walkAll, leavesAll, sayAll, List.foldl_append]
    rw [walk_leaves depth mode hm t s h, walkAll_leaves depth mode hm ts _ h]
    rfl

theorem walkFrom_leaves (depth mode n : Nat) (hm : mode ≠ 0 ∧ mode ≠ 1) : ∀ (i : Nat) (ts : List Tree) (s : Build), 4 < depth ∨ mode ≠ 2 →
    walkFrom depth mode n i ts s = sayAll mode (leavesAll ts) s
  | _, [], _, _ => rfl
  | i, t :: ts, s, h => by
    simp only [walkFrom, leavesAll, sayAll, List.foldl_append]
    have : modeOf depth mode n i = mode := by
      obtain ⟨h1, h2⟩ := hm
      unfold modeOf
      rw [if_neg (by omega), if_neg (by omega), if_neg (by omega)]
    rw [this, walk_leaves (depth + 1) mode hm t s (by omega), walkFrom_leaves depth mode n hm (i + 1) ts _ h]
    rfl
end

theorem sayAll_text (xs : List Bytes) (s : Build) : sayAll 2 xs s = (xs.map fun x => (false, x)).foldl say s := by
  unfold sayAll; rw [List.foldl_map]; rfl

theorem sayAll_keyword (xs : List Bytes) (s : Build) : sayAll 3 xs s = (xs.map fun x => (true, x)).foldl say s := by
  unfold sayAll; rw [List.foldl_map]; rfl

theorem sayAll_nothing (xs : List Bytes) (s : Build) : sayAll 4 xs s = s := by
  unfold sayAll
  induction xs with
  | nil => rfl
  | cons x xs ih => exact ih

theorem walkFrom_link (n : Nat) : ∀ (i : Nat) (ts : List Tree) (s : Build), walkFrom 4 2 n i ts s = (linkWords i ts).foldl say s := by
  intro i ts
  induction ts generalizing i with
  | nil => intro s; rfl
  | cons t ts ih =>
    intro s
    simp only [walkFrom, linkWords, List.foldl_append]
    rw [ih]
    congr 1
    by_cases h3 : i = 3
    · have : modeOf 4 2 n i = 4 := by simp [modeOf, h3]
      rw [this, walk_leaves 5 4 (by decide) t s (by omega), sayAll_nothing, if_pos h3]; rfl
    · by_cases h1 : i = 1
      · have : modeOf 4 2 n i = 3 := by simp [modeOf, h1]
        rw [this, walk_leaves 5 3 (by decide) t s (by omega), sayAll_keyword, if_neg h3]; simp [h1]
      · have : modeOf 4 2 n i = 2 := by simp [modeOf, h1, h3]
        rw [this, walk_leaves 5 2 (by decide) t s (by omega), sayAll_text, if_neg h3]; simp [h1]

theorem walk_inner (t : Tree) (s : Build) : walk 4 2 t s = (innerWords t).foldl say s := by
  cases t with
  | int => rfl
  | str t => rfl
  | arr ts => exact walkFrom_link _ 0 ts s
  | indef ts =>
    have : walk 4 2 (.indef ts) s = walkAll 5 2 ts s := by simp [walk]
    rw [this, walkAll_leaves 5 2 (by decide) ts s (by omega), sayAll_text]; rfl

theorem walk_part (t : Tree) (s : Build) : walk 3 2 t s = (partWords t).foldl say s := by
  have all : ∀ (ts : List Tree) (s : Build), walkAll 4 2 ts s = (ts.flatMap innerWords).foldl say s := by
    intro ts
    induction ts with
    | nil => intro s; rfl
    | cons t ts ih =>
      intro s
      simp only [walkAll, List.flatMap_cons, List.foldl_append]
      rw [walk_inner, ih]
  have «from» : ∀ (ts : List Tree) n i (s : Build), walkFrom 3 2 n i ts s = (ts.flatMap innerWords).foldl say s := by
    intro ts
    induction ts with
    | nil => intro n i s; rfl
    | cons t ts ih =>
      intro n i s
      simp only [walkFrom, List.flatMap_cons, List.foldl_append]
      have : modeOf 3 2 n i = 2 := by simp [modeOf]
      rw [this, walk_inner, ih]
  cases t with
  | int => rfl
  | str t => rfl
  | arr ts => exact «from» ts _ 0 s
  | indef ts =>
    have : walk 3 2 (.indef ts) s = walkAll 4 2 ts s := by simp [walk]
    rw [this, all]; rfl

theorem walkAll_body : ∀ (ts : List Tree) (s : Build), walkAll 3 2 ts s = (ts.flatMap partWords).foldl say s := by
  intro ts
  induction ts with
  | nil => intro s; rfl
  | cons t ts ih =>
    intro s
    simp only [walkAll, List.flatMap_cons, List.foldl_append]
    rw [walk_part, ih]

/-- a list of texts is put together one after the other -/
theorem join_snoc (sep : Bytes) (xs : List Bytes) (x : Bytes) :
    join sep (xs ++ [x]) = if x = [] then join sep xs else (if join sep xs = [] then [] else join sep xs ++ sep) ++ x := by
  unfold join
  rw [List.filter_append]
  by_cases hx : x = []
  · simp [hx]
  · rw [if_neg hx]
    have hf : [x].filter (fun y => decide (y ≠ [])) = [x] := by simp [hx]
    rw [hf]
    have hne : ∀ y ∈ xs.filter (fun y => decide (y ≠ [])), y ≠ [] := by intro y hy; simpa using (List.mem_filter.1 hy).2
    generalize xs.filter (fun y => decide (y ≠ [])) = l at hne
    induction l with
    | nil => simp [List.intercalate]
    | cons y l ih =>
      have hy := hne y (by simp)
      cases l with
      | nil => simp [List.intercalate, hy]
      | cons z l =>
        have := ih fun w hw => hne w (by simp [hw])
        have hz := hne z (by simp)
        have e : ∀ m : List Bytes, List.intercalate sep (y :: z :: m) = y ++ sep ++ List.intercalate sep (z :: m) := by
          intro m; simp [List.intercalate, List.intersperse]
        have n1 : List.intercalate sep (z :: l) ≠ [] := by
          cases l <;> simp [List.intercalate, List.intersperse, hz]
        rw [List.cons_append, List.cons_append, e, e, ← List.cons_append, this, if_neg n1, if_neg (by simp [hy])]
        simp

/-- the texts and the keywords of a list of words -/
def textsOf (ws : List (Bool × Bytes)) : Bytes := join [32] ((ws.filter fun x => !x.1).map fun x => clean x.2)
def keywordsOf (ws : List (Bool × Bytes)) : Bytes := join [44, 32] ((ws.filter fun x => x.1).map fun x => clean x.2)

theorem say_all (pid : Bytes) (out : List (Bytes × Bytes)) (answers : List Bool) (ws : List (Bool × Bytes)) :
    ws.foldl say ⟨pid, [], [], out, answers⟩ =
      ⟨pid, textsOf ws, if keywordsOf ws = [] then [] else [62, 62, 62, 32] ++ keywordsOf ws, out, answers⟩ := by
  have key : ∀ n (ws : List (Bool × Bytes)), ws.length = n → ws.foldl say ⟨pid, [], [], out, answers⟩ =
      ⟨pid, textsOf ws, if keywordsOf ws = [] then [] else [62, 62, 62, 32] ++ keywordsOf ws, out, answers⟩ := by
    intro n
    induction n with
    | zero =>
      intro ws h
      have : ws = [] := List.length_eq_zero_iff.1 h
      subst this
      rfl
    | succ n ih =>
      intro ws h
      have hne : ws ≠ [] := by rintro rfl; simp at h
      obtain ⟨init, x, rfl⟩ : ∃ init x, ws = init ++ [x] := ⟨_, _, (List.dropLast_concat_getLast hne).symm⟩
      rw [List.foldl_append, ih init (by simpa using h)]
      obtain ⟨b, x⟩ := x
      cases b with
      | false =>
        have e1 : textsOf (init ++ [(false, x)]) = if clean x = [] then textsOf init else
            (if textsOf init = [] then [] else textsOf init ++ [32]) ++ clean x := by
          unfold textsOf
          rw [List.filter_append]
          have : [(false, x)].filter (fun y : Bool × Bytes => !y.1) = [(false, x)] := rfl
          rw [this, List.map_append, List.map_cons, List.map_nil]
          exact join_snoc _ _ _
        have e2 : keywordsOf (init ++ [(false, x)]) = keywordsOf init := by unfold keywordsOf; simp
        rw [e1, e2]
        simp only [List.foldl_cons, List.foldl_nil, say, addText, Bool.false_eq_true, if_false]
        split
        · rfl
        · rfl
      | true =>
        have e1 : keywordsOf (init ++ [(true, x)]) = if clean x = [] then keywordsOf init else
            (if keywordsOf init = [] then [] else keywordsOf init ++ [44, 32]) ++ clean x := by
          unfold keywordsOf
          rw [List.filter_append]
          have : [(true, x)].filter (fun y : Bool × Bytes => y.1) = [(true, x)] := rfl
          rw [this, List.map_append, List.map_cons, List.map_nil]
          exact join_snoc _ _ _
        have e2 : textsOf (init ++ [(true, x)]) = textsOf init := by unfold textsOf; simp
        rw [e1, e2]
        simp only [List.foldl_cons, List.foldl_nil, say, addKeyword, if_true]
        by_cases hx : clean x = []
        · simp [hx]
        · simp only [hx, if_false]
          by_cases hk : keywordsOf init = []
          · simp [hk, hx]
          · simp [hk]
  exact key _ ws rfl

theorem content_eq (p : Para) : p.content = join [32] [textsOf p.words, if keywordsOf p.words = [] then [] else [62, 62, 62, 32] ++ keywordsOf p.words] := rfl

theorem join_two (a b : Bytes) : join [32] [a, b] = if b = [] then a else (if a = [] then [] else a ++ [32]) ++ b := by
  unfold join
  by_cases ha : a = [] <;> by_cases hb : b = [] <;> simp [ha, hb, List.intercalate, List.intersperse]

/-- a paragraph, whose builder answers yes -/
theorem walk_para (p : Para) (out : List (Bytes × Bytes)) : walk 1 0 p.tree ⟨[], [], [], out, []⟩ = ⟨[], [], [], out ++ wanted [p], []⟩ := by
  have h1 : walk 1 0 p.tree ⟨[], [], [], out, []⟩ =
      buildit ((p.words).foldl say ⟨[67, 65, 82, 95] ++ clean p.id, [], [], out, []⟩) := by
    have := walkAll_body p.body ⟨[67, 65, 82, 95] ++ clean p.id, [], [], out, []⟩
    have m1 : modeOf 1 0 3 1 = 1 := by decide
    have m2 : modeOf 1 0 3 2 = 1 := by decide
    simp only [Para.tree, walk, walkFrom, List.length_cons, List.length_nil, Nat.zero_add, Nat.reduceAdd, m1, m2, if_true]
    show buildit (walkAll 3 2 p.body ⟨[67, 65, 82, 95] ++ clean p.id, [], [], out, []⟩) = _
    rw [this]
    rfl
  rw [h1, say_all]
  have hc := content_eq p
  rw [join_two] at hc
  have hb : ∀ t k o, buildit ⟨[67, 65, 82, 95] ++ clean p.id, t, k, o, []⟩ =
      ⟨[], [], [], o ++ (if (if k = [] then t else (if t = [] then [] else t ++ [32]) ++ k) = [] then []
        else [([67, 65, 82, 95] ++ clean p.id, if k = [] then t else (if t = [] then [] else t ++ [32]) ++ k)]), []⟩ := by
    intro t k o
    unfold buildit
    generalize (if k = [] then t else (if t = [] then [] else t ++ [32]) ++ k) = c
    by_cases h : c = [] <;> simp [h]
  rw [hb, ← hc]
  congr 2
  unfold wanted
  by_cases h : p.content = [] <;> simp [h]

theorem wanted_append (a b : List Para) : wanted (a ++ b) = wanted a ++ wanted b := by
  unfold wanted; simp

/-- the paragraphs of an array -/
theorem walkAll_paras : ∀ (ps : List Para) (out : List (Bytes × Bytes)),
    walkAll 1 0 (ps.map Para.tree) ⟨[], [], [], out, []⟩ = ⟨[], [], [], out ++ wanted ps, []⟩ := by
  intro ps
  induction ps with
  | nil => intro out; simp [walkAll, wanted]
  | cons p ps ih =>
    intro out
    simp only [List.map_cons, walkAll]
    rw [walk_para, ih, List.append_assoc, ← wanted_append]; rfl

theorem walkFrom_paras (n : Nat) : ∀ (ps : List Para) (i : Nat) (out : List (Bytes × Bytes)),
    walkFrom 0 0 n i (ps.map Para.tree) ⟨[], [], [], out, []⟩ = ⟨[], [], [], out ++ wanted ps, []⟩ := by
  intro ps
  induction ps with
  | nil => intro i out; simp [walkFrom, wanted]
  | cons p ps ih =>
    intro i out
    simp only [List.map_cons, walkFrom]
    have : modeOf 0 0 n i = 0 := by simp [modeOf]
    rw [this, walk_para, ih, List.append_assoc, ← wanted_append]; rfl

end Verif.Collect.Cbor
