import Verif.Collect.CborProof
/-
  C89: a file of paragraphs in CBOR gives the index each of its paragraphs, with its name, its texts and its keywords, once
  and in order, and a damaged file is reported.
-/
namespace Verif.Props
open Verif.Collect.Cbor

/-! ### with something after it -/

theorem cbor_length : ∀ {bs : Bytes} {ts : List Tree}, WritesAll bs ts → ts.length ≤ bs.length := by
  intro bs ts
  induction ts generalizing bs with
  | nil => intro _; simp
  | cons t ts ih =>
    intro h
    cases h with
    | @cons b _ bs _ hb hbs =>
      have := writes_ne hb
      have := ih hbs
      simp; omega

/-- elements of an array and whatever follows them -/
theorem untilBreak_append (depth mode : Nat) (rest : Bytes) : ∀ {bs : Bytes} {ts : List Tree}, WritesAll bs ts → ∀ (fuel k : Nat) (s : Build),
    (bs ++ rest).length < fuel →
    (untilBreak (item fuel depth mode) (k + ts.length) (bs ++ rest) s).build =
      (untilBreak (item fuel depth mode) k rest (walkAll depth mode ts s)).build ∧
    (untilBreak (item fuel depth mode) (k + ts.length) (bs ++ rest) s).next =
      (untilBreak (item fuel depth mode) k rest (walkAll depth mode ts s)).next := by
  intro bs ts
  induction ts generalizing bs with
  | nil => intro h fuel k s _; cases h; exact ⟨rfl, rfl⟩
  | cons t ts ih =>
    intro h fuel k s hf
    cases h with
    | @cons b _ bs _ hb hbs =>
      rw [List.append_assoc] at hf ⊢
      have u := untilBreak_cons (k := k + ts.length) (item_ok hb fuel depth mode (bs ++ rest) s hf)
      have v := ih hbs fuel k (walk depth mode t s) (by simp at hf ⊢; omega)
      exact ⟨u.1.trans v.1, u.2.trans v.2⟩

/-- items of a file and whatever follows them -/
theorem items_append (rest : Bytes) : ∀ {bs : Bytes} {ts : List Tree}, WritesAll bs ts → ∀ (k : Nat) (s : Build),
    (items (k + ts.length) (bs ++ rest) s).1 = (items k rest (walkAll 0 0 ts s)).1 ∧
    (items (k + ts.length) (bs ++ rest) s).2.1 = (items k rest (walkAll 0 0 ts s)).2.1 := by
  intro bs ts
  induction ts generalizing bs with
  | nil => intro h k s; cases h; exact ⟨rfl, rfl⟩
  | cons t ts ih =>
    intro h k s
    cases h with
    | @cons b _ bs _ hb hbs =>
      rw [List.append_assoc, List.length_cons, ← Nat.add_assoc]
      obtain ⟨u1, u2⟩ := item_ok hb ((b ++ (bs ++ rest)).length + 1) 0 0 (bs ++ rest) s (by omega)
      rw [items]
      simp only [u1, u2]
      exact ih hbs k _

theorem headers_quiet : ∀ (hs : List Tree), (∀ t ∈ hs, Header t) → ∀ s, walkAll 0 0 hs s = s := by
  intro hs
  induction hs with
  | nil => intro _ s; rfl
  | cons t ts ih =>
    intro h s
    simp only [walkAll]
    rw [header_quiet (h t (by simp)), ih fun t ht => h t (by simp [ht])]

/-- what comes before the paragraphs does not matter -/
theorem collection_header {hb : Bytes} {hs : List Tree} (hw : WritesAll hb hs) (hh : ∀ t ∈ hs, Header t) (f : Bytes) (answers : List Bool) :
    ∃ k, f.length < k ∧ collection (hb ++ f) answers = ⟨(items k f { answers := answers }).1.out, true, (items k f { answers := answers }).2.1⟩ := by
  have hl := cbor_length hw
  refine ⟨(hb ++ f).length + 1 - hs.length, by simp; omega, ?_⟩
  have e : (hb ++ f).length + 1 = ((hb ++ f).length + 1 - hs.length) + hs.length := by simp; omega
  have u := items_append f hw ((hb ++ f).length + 1 - hs.length) { answers := answers }
  rw [← e, headers_quiet hs hh] at u
  show Outcome.mk _ _ _ = _
  rw [u.1, u.2]

/-- an item and the end of the file -/
theorem items_last {k : Nat} {f : Bytes} {s s' : Build} (hk : f.length < k)
    (h : (item (f.length + 1) 0 0 f s).build = s' ∧ (item (f.length + 1) 0 0 f s).next = some (false, [])) (hf : f ≠ []) :
    (items k f s).1 = s' ∧ (items k f s).2.1 = false := by
  obtain ⟨j, rfl⟩ : ∃ j, k = j + 1 + 1 := ⟨k - 2, by
    have : 0 < f.length := List.length_pos_iff.2 hf
    omega⟩
  rw [items]
  simp only [h.1, h.2]
  simp [items, item]

/-! ### the claim -/

/-- **C89** (part): a file that has, perhaps after other things, an array of paragraphs, of known or unknown length, gives the
builder all paragraphs that say something, in order and each with its name, and there is no complaint.  (With assertions a
paragraph whose name is empty ends the program.) -/
theorem C89_read_partial (hs : List Tree) (ps : List Para) (outer : Tree) (f : Bytes) (hh : ∀ t ∈ hs, Header t)
    (ho : outer = .indef (ps.map Para.tree) ∨ outer = .arr (ps.map Para.tree)) (hf : WritesAll f (hs ++ [outer])) :
    collection f [] = ⟨wanted ps, true, false⟩ := by
  have h := items_ok hf { } (f.length + 1) (by omega)
  have w : walkAll 0 0 (hs ++ [outer]) { } = ⟨[], [], [], wanted ps, []⟩ := by
    have split : ∀ (xs ys : List Tree) (s : Build), walkAll 0 0 (xs ++ ys) s = walkAll 0 0 ys (walkAll 0 0 xs s) := by
      intro xs
      induction xs with
      | nil => intro ys s; rfl
      | cons x xs ih => intro ys s; simp only [List.cons_append, walkAll]; exact ih ys _
    rw [split, headers_quiet hs hh]
    rcases ho with rfl | rfl
    · have := walkAll_paras ps []
      simpa [walkAll, walk] using this
    · have := walkFrom_paras (ps.map Para.tree).length ps 0 []
      simpa [walkAll, walk] using this
  show Outcome.mk _ _ _ = _
  rw [h.2, h.1, w]

/-- a paragraph with two texts and a link, and one that says nothing -/
def aCborPara : Para := ⟨0, [55], [.arr [.int 0, .str [97, 10]], .arr [.int 1, .arr [.int 0, .str [75], .arr [], .str [76], .str [98]]]]⟩
def aMutePara : Para := ⟨0, [56], []⟩
/-- `"CAR"` and the array, as bytes -/
def aCborFile : Bytes :=
  [0x63, 67, 65, 82] ++ ([0x9f] ++ ([0x83, 0, 0x61, 55, 0x9f, 0x82, 0, 0x62, 97, 10, 0x82, 1, 0x85, 0, 0x61, 75, 0x80, 0x61, 76, 0x61, 98, 0xff] ++
    [0x83, 0, 0x61, 56, 0x9f, 0xff]) ++ [0xff])

/-- they are written so: the first gives `CAR_7` with `a  b >>> K` (the newline has become a blank), the second nothing -/
example : collection aCborFile [] = ⟨[([67, 65, 82, 95, 55], [97, 32, 32, 98, 32, 62, 62, 62, 32, 75])], true, false⟩ := by
  have i0 : ∀ n, n < 24 → Writes [n] (.int n) := fun n h => .int (m := 0) (.inl rfl) (by have := WritesSize.short (major := 0) h; simpa using this)
  have st : ∀ t : Bytes, t.length < 24 → Writes ([96 + t.length] ++ t) (.str t) := fun t h => .str (m := 3) (.inr rfl) (.short h)
  have ar : ∀ (ts : List Tree) (bs : Bytes), ts.length < 24 → WritesAll bs ts → Writes ((128 + ts.length) :: bs) (.arr ts) :=
    fun ts bs h w => .arr (.short h) w
  have two : ∀ {a b : Bytes} {t u : Tree}, Writes a t → Writes b u → WritesAll (a ++ b) [t, u] := by
    intro a b t u h1 h2
    have := WritesAll.cons h1 (.cons h2 .nil)
    simpa using this
  have three : ∀ {a b c : Bytes} {t u v : Tree}, Writes a t → Writes b u → Writes c v → WritesAll (a ++ (b ++ c)) [t, u, v] :=
    fun h1 h2 h3 => .cons h1 (two h2 h3)
  have link : Writes _ (.arr [.int 0, .str [75], .arr [], .str [76], .str [98]]) :=
    ar _ _ (by decide) (.cons (i0 0 (by decide)) (.cons (st [75] (by decide)) (three (ar [] [] (by decide) .nil) (st [76] (by decide)) (st [98] (by decide)))))
  have p1 : Writes _ aCborPara.tree := ar _ _ (by decide) (three (i0 0 (by decide)) (st [55] (by decide)) (.indef (two
    (ar _ _ (by decide) (two (i0 0 (by decide)) (st [97, 10] (by decide)))) (ar _ _ (by decide) (two (i0 1 (by decide)) link)))))
  have p2 : Writes _ aMutePara.tree := ar _ _ (by decide) (three (i0 0 (by decide)) (st [56] (by decide)) (.indef .nil))
  have l : WritesAll aCborFile ([.str [67, 65, 82]] ++ [.indef ([aCborPara, aMutePara].map Para.tree)]) := by
    have := two (st [67, 65, 82] (by decide)) (.indef (two p1 p2))
    exact this
  have := C89_read_partial [.str [67, 65, 82]] [aCborPara, aMutePara] _ aCborFile (by intro t ht; simp at ht; subst ht; exact .str) (.inl rfl) l
  rw [this]
  rfl

/-! ### where the code differs -/

/-- **C89** is violated: a file that ends within the body of a paragraph (it was copied in part, say) is taken for a whole
one; what is left of the paragraph is added and there is no complaint. -/
theorem C89_cut (hs : List Tree) (ps : List Para) (tag : Nat) (id : Bytes) (kept : List Tree) (hb bs pb kb : Bytes) (hh : ∀ t ∈ hs, Header t)
    (hw : WritesAll hb hs) (hp : WritesAll bs (ps.map Para.tree))
    (h1 : WritesAll pb [.int tag, .str id]) (h2 : WritesAll kb kept) :
    collection (hb ++ 0x9f :: (bs ++ 0x83 :: (pb ++ 0x9f :: kb))) [] = ⟨wanted (ps ++ [⟨tag, id, kept⟩]), true, false⟩ := by
  obtain ⟨k, hk, e⟩ := collection_header hw hh (0x9f :: (bs ++ 0x83 :: (pb ++ 0x9f :: kb))) []
  rw [e]
  -- the body
  have body : ∀ fuel, kb.length + 1 < fuel → ∀ s,
      (item fuel 2 1 (0x9f :: kb) s).build = walk 2 1 (.indef kept) s ∧ (item fuel 2 1 (0x9f :: kb) s).next = some (false, []) := by
    intro fuel hf s
    obtain ⟨fuel, rfl⟩ : ∃ j, fuel = j + 1 := ⟨fuel - 1, by omega⟩
    obtain ⟨u1, u2⟩ := (all_ok h2).2.1 fuel 3 2 s (kb.length + 1) (by omega) (by omega)
    rw [item]
    simp only
    rw [if_neg (by decide), if_neg (by decide), if_pos (by decide), if_pos True.intro]
    simp only [if_true, u1, u2, walk]
    exact ⟨trivial, trivial⟩
  -- the paragraph
  have para : ∀ fuel, (0x83 :: (pb ++ 0x9f :: kb)).length < fuel → ∀ s,
      (item fuel 1 0 (0x83 :: (pb ++ 0x9f :: kb)) s).build = walk 1 0 (Para.tree ⟨tag, id, kept⟩) s ∧
      (item fuel 1 0 (0x83 :: (pb ++ 0x9f :: kb)) s).next = some (false, []) := by
    intro fuel hf s
    obtain ⟨fuel, rfl⟩ : ∃ j, fuel = j + 1 := ⟨fuel - 1, by omega⟩
    have hsz : size 0x83 (pb ++ 0x9f :: kb) = some (3, pb ++ 0x9f :: kb) := by unfold size; simp
    cases h1 with
    | @cons b1 _ r1 _ w1 v1 =>
      cases v1 with
      | @cons b2 _ r2 _ w2 v2 =>
        cases v2
        have m0 : modeOf 1 0 3 0 = 1 := by decide
        have m1 : modeOf 1 0 3 1 = 1 := by decide
        have m2 : modeOf 1 0 3 2 = 1 := by decide
        have i1 := item_ok w1 fuel 2 1 (b2 ++ 0x9f :: kb) s (by simp at hf ⊢; omega)
        have i2 := item_ok w2 fuel 2 1 (0x9f :: kb) (walk 2 1 (.int tag) s) (by simp at hf ⊢; omega)
        have i3 := body fuel (by simp at hf; omega) (walk 2 1 (.str id) (walk 2 1 (.int tag) s))
        have c1 := count_cons (step := fun i => item fuel 2 (modeOf 1 0 3 i)) (n := 2) (i := 0) (by simpa only [m0] using i1)
        have c2 := count_cons (step := fun i => item fuel 2 (modeOf 1 0 3 i)) (n := 1) (i := 1) (by simpa only [m1] using i2)
        have c3 := count_cons (step := fun i => item fuel 2 (modeOf 1 0 3 i)) (n := 0) (i := 2) (by simpa only [m2] using i3)
        have cb := c1.1.trans (c2.1.trans c3.1)
        have cn := c1.2.trans (c2.2.trans c3.2)
        have ef : b1 ++ (b2 ++ []) ++ 0x9f :: kb = b1 ++ (b2 ++ 0x9f :: kb) := by simp
        rw [ef] at hsz ⊢
        rw [item]
        simp only
        rw [if_neg (by decide), if_neg (by decide), if_pos (by decide), if_neg (by decide), hsz]
        simp only [count] at cb cn ⊢
        rw [cn]
        refine ⟨?_, rfl⟩
        simp only
        rw [cb]
        simp only [Para.tree, walk, walkFrom, List.length_cons, List.length_nil, Nat.zero_add, Nat.reduceAdd, m1, m2]
  -- the array
  have arr : ∀ fuel, (0x9f :: (bs ++ 0x83 :: (pb ++ 0x9f :: kb))).length < fuel →
      (item fuel 0 0 (0x9f :: (bs ++ 0x83 :: (pb ++ 0x9f :: kb))) { }).build = ⟨[], [], [], wanted (ps ++ [⟨tag, id, kept⟩]), []⟩ ∧
      (item fuel 0 0 (0x9f :: (bs ++ 0x83 :: (pb ++ 0x9f :: kb))) { }).next = some (false, []) := by
    intro fuel hf
    obtain ⟨fuel, rfl⟩ : ∃ j, fuel = j + 1 := ⟨fuel - 1, by omega⟩
    have hl := cbor_length hp
    obtain ⟨j, hj⟩ : ∃ j, (bs ++ 0x83 :: (pb ++ 0x9f :: kb)).length + 1 = (j + 1 + 1) + (ps.map Para.tree).length :=
      ⟨(bs ++ 0x83 :: (pb ++ 0x9f :: kb)).length + 1 - (ps.map Para.tree).length - 2, by
        simp only [List.length_append, List.length_cons] at *; omega⟩
    have u := untilBreak_append 1 0 (0x83 :: (pb ++ 0x9f :: kb)) hp fuel (j + 1 + 1) { } (by simp at hf ⊢; omega)
    have v := untilBreak_cons (k := j + 1) (para fuel (by simp at hf ⊢; omega) (walkAll 1 0 (ps.map Para.tree) { }))
    have z : ∀ s, untilBreak (item fuel 1 0) (j + 1) [] s = ⟨s, 1, some (true, [])⟩ := by
      intro s
      obtain ⟨fuel, rfl⟩ : ∃ j, fuel = j + 1 := ⟨fuel - 1, by simp at hf; omega⟩
      simp [untilBreak, item]
    rw [z] at v
    have ub := u.1.trans v.1
    have un := u.2.trans v.2
    rw [← hj] at ub un
    rw [item]
    simp only
    rw [if_neg (by decide), if_neg (by decide), if_pos (by decide), if_pos True.intro]
    simp only [Nat.zero_ne_one, if_false, Nat.zero_add, ub, un]
    refine ⟨?_, trivial⟩
    have w := walkAll_paras ps []
    have w2 := walk_para ⟨tag, id, kept⟩ (wanted ps)
    simp only [List.nil_append] at w
    rw [w, w2, wanted_append]
  have := items_last hk (arr _ (by omega)) (by simp)
  rw [this.1, this.2]

/-- the file from above, cut after the first part of the first paragraph -/
example : collection (aCborFile.take 15) [] = ⟨[([67, 65, 82, 95, 55], [97, 32])], true, false⟩ := by rfl

/-- **C89** is violated: something that is none of integer, text and array (a map, a tag, a number with a point) ends the
reading; all paragraphs after it are lost, and the answer is still that all went well. -/
theorem C89_rest_lost (hs : List Tree) (ps : List Para) (hb bs rest : Bytes) (c : Nat) (hh : ∀ t ∈ hs, Header t) (hw : WritesAll hb hs)
    (hp : WritesAll bs (ps.map Para.tree)) (hc : 5 ≤ c / 32) (hff : c ≠ 0xff) :
    collection (hb ++ 0x9f :: (bs ++ c :: rest)) [] = ⟨wanted ps, true, true⟩ := by
  obtain ⟨k, hk, e⟩ := collection_header hw hh (0x9f :: (bs ++ c :: rest)) []
  rw [e]
  have arr : ∀ fuel, (0x9f :: (bs ++ c :: rest)).length < fuel →
      (item fuel 0 0 (0x9f :: (bs ++ c :: rest)) { }).build = ⟨[], [], [], wanted ps, []⟩ ∧
      (item fuel 0 0 (0x9f :: (bs ++ c :: rest)) { }).next = none := by
    intro fuel hf
    obtain ⟨fuel, rfl⟩ : ∃ j, fuel = j + 1 := ⟨fuel - 1, by omega⟩
    have hl := cbor_length hp
    obtain ⟨j, hj⟩ : ∃ j, (bs ++ c :: rest).length + 1 = (j + 1) + (ps.map Para.tree).length :=
      ⟨(bs ++ c :: rest).length + 1 - (ps.map Para.tree).length - 1, by
        simp only [List.length_append, List.length_cons] at *; omega⟩
    have u := untilBreak_append 1 0 (c :: rest) hp fuel (j + 1) { } (by simp at hf ⊢; omega)
    have z : ∀ s, untilBreak (item fuel 1 0) (j + 1) (c :: rest) s = ⟨s, 1, none⟩ := by
      intro s
      obtain ⟨fuel, rfl⟩ : ∃ j, fuel = j + 1 := ⟨fuel - 1, by simp at hf; omega⟩
      have : item (fuel + 1) 1 0 (c :: rest) s = ⟨s, 1, none⟩ := by
        rw [item]
        simp only
        rw [if_neg (by omega), if_neg (by omega), if_neg (by omega), if_neg hff]
      simp [untilBreak, this]
    rw [z, ← hj] at u
    rw [item]
    simp only
    rw [if_neg (by decide), if_neg (by decide), if_pos (by decide), if_pos True.intro]
    simp only [Nat.zero_ne_one, if_false, Nat.zero_add, u.1, u.2]
    refine ⟨?_, trivial⟩
    have w := walkAll_paras ps []
    simpa using w
  obtain ⟨j, rfl⟩ : ∃ j, k = j + 1 := ⟨k - 1, by omega⟩
  obtain ⟨a1, a2⟩ := arr ((0x9f :: (bs ++ c :: rest)).length + 1) (by omega)
  rw [items]
  simp only [a1, a2]

/-- a map after the first paragraph -/
example : collection ([0x9f] ++ [0x83, 0, 0x61, 49, 0x9f, 0x61, 120, 0xff] ++ [0xa0] ++ [0x83, 0, 0x61, 50, 0x9f, 0x61, 121, 0xff] ++ [0xff]) [] =
    ⟨[([67, 65, 82, 95, 49], [120])], true, true⟩ := by rfl

/-- **C89** is violated: when the bodies are arrays of known length, nothing at all is added, and there is no complaint. -/
theorem C89_definite (hs : List Tree) (ps : List (Nat × Bytes × List Bytes)) (f : Bytes) (hh : ∀ t ∈ hs, Header t)
    (hf : WritesAll f (hs ++ [.indef (ps.map fun p => .arr [.int p.1, .str p.2.1, .arr (p.2.2.map .str)])])) :
    collection f [] = ⟨[], true, false⟩ := by
  have h := items_ok hf { } (f.length + 1) (by omega)
  have m : ∀ d i n, d = 2 → modeOf d 1 n i = 1 := by intro d i n hd; simp [modeOf]
  have names : ∀ (xs : List Bytes) n i (s : Build), s.content = [] ∧ s.keywords = [] ∧ s.out = [] →
      (walkFrom 2 1 n i (xs.map .str) s).content = [] ∧ (walkFrom 2 1 n i (xs.map .str) s).keywords = [] ∧ (walkFrom 2 1 n i (xs.map .str) s).out = [] := by
    intro xs
    induction xs with
    | nil => intro n i s h; exact h
    | cons x xs ih =>
      intro n i s h
      simp only [List.map_cons, walkFrom, m 2 i n rfl, walk]
      exact ih n (i + 1) _ h
  have all : ∀ (ps : List (Nat × Bytes × List Bytes)) (s : Build), s.content = [] ∧ s.keywords = [] ∧ s.out = [] →
      (walkAll 1 0 (ps.map fun p => .arr [.int p.1, .str p.2.1, .arr (p.2.2.map .str)]) s).out = [] := by
    intro ps
    induction ps with
    | nil => intro s h; exact h.2.2
    | cons p ps ih =>
      intro s h
      simp only [List.map_cons, walkAll]
      apply ih
      have m0 : modeOf 1 0 3 0 = 1 := by decide
      have m1 : modeOf 1 0 3 1 = 1 := by decide
      have m2 : modeOf 1 0 3 2 = 1 := by decide
      simp only [walk, walkFrom, List.length_cons, List.length_nil, Nat.zero_add, Nat.reduceAdd, m1, m2]
      exact names _ _ _ _ h
  have w : (walkAll 0 0 (hs ++ [.indef (ps.map fun p => .arr [.int p.1, .str p.2.1, .arr (p.2.2.map .str)])]) { }).out = [] := by
    have split : ∀ (xs ys : List Tree) (s : Build), walkAll 0 0 (xs ++ ys) s = walkAll 0 0 ys (walkAll 0 0 xs s) := by
      intro xs
      induction xs with
      | nil => intro ys s; rfl
      | cons x xs ih => intro ys s; simp only [List.cons_append, walkAll]; exact ih ys _
    rw [split, headers_quiet hs hh]
    have := all ps { } ⟨rfl, rfl, rfl⟩
    simpa [walkAll, walk] using this
  show Outcome.mk _ _ _ = _
  rw [h.2, h.1, w]

/-- a paragraph with a text -/
example : collection ([0x9f] ++ [0x83, 0, 0x61, 49, 0x81, 0x61, 120] ++ [0xff]) [] = ⟨[], true, false⟩ := by rfl

/-- **C89** is violated: nine bytes that claim an array of `n` elements take at least `n` calls, with no complaint: for the
largest `n` the program does not end in a lifetime. -/
theorem C89_spin (n : Nat) (h : n < 256 ^ 8) :
    (items 10 (0x9b :: bigEndian 8 n) { }).2.2 = n + 2 ∧ (items 10 (0x9b :: bigEndian 8 n) { }).2.1 = false := by
  have c : ∀ n i m s, count (fun i => item 9 1 (modeOf 0 0 m i)) n i [] s = ⟨s, n, some (false, [])⟩ := by
    intro n
    induction n with
    | zero => intro i m s; rfl
    | succ n ih =>
      intro i m s
      have : item 9 1 (modeOf 0 0 m i) [] s = ⟨s, 1, some (true, [])⟩ := by rw [item]
      simp [count, this, ih, Nat.add_comm]
  have hl := bigEndian_length 8 n
  have hsz : size 0x9b (bigEndian 8 n) = some (n, []) := by
    have : size 0x9b (bigEndian 8 n) =
        if (bigEndian 8 n).length < 8 then none else some (big ((bigEndian 8 n).take 8), (bigEndian 8 n).drop 8) := rfl
    rw [this, if_neg (by omega), List.take_of_length_le (by omega), List.drop_of_length_le (by omega), big_bigEndian 8 n h]
  have it : ∀ s, item 10 0 0 (0x9b :: bigEndian 8 n) s = ⟨s, n + 1, some (false, [])⟩ := by
    intro s
    rw [item]
    simp only
    rw [if_neg (by decide), if_neg (by decide), if_pos (by decide), if_neg (by decide), hsz]
    simp only [Nat.zero_add, c]
  rw [items, List.length_cons, hl]
  simp only [it]
  simp [items, item]

/-- **C89** is violated: a paragraph that the builder refuses is not reported; its text becomes part of the next one. -/
theorem C89_builder :
    collection ([0x9f] ++ [0x83, 0, 0x61, 49, 0x9f, 0x61, 120, 0xff] ++ [0x83, 0, 0x61, 50, 0x9f, 0x61, 121, 0xff] ++ [0xff]) [false] =
      ⟨[([67, 65, 82, 95, 50], [120, 32, 121])], true, false⟩ := by
  rfl

end Verif.Props
