import Verif.Qap.Proof
import Verif.Props.Pipeline
/-
  C65: short answers (`qap`, src/ranking.cc).
-/
namespace Verif.Props
open Verif.Qap
open Verif.Pipe (Word Weights Total weightOf sum)

/-! ### what is returned -/

/-- candidates are sorted by their scores -/
def SortsBy {V : Type} (better : V → V → Bool) (sort : (Nat → V) → List Nat → List Nat) : Prop :=
  ∀ score l, (sort score l).Perm l ∧ (sort score l).Pairwise fun i j => better (score j) (score i) = false

/-- **C65.** The answers are candidates, at most `depth` of them: the best of each fragment, of the fragments whose best are best. -/
theorem C65_answers {V : Type} (T : Qap.Tools V) (better : V → V → Bool) (hb : ∀ s, better s s = false) (hs : SortsBy better T.sort)
    (depth length window : Nat) (h0 : 0 < length) (covers : List Cover) (query : Txt) :
    ∃ cs, candidates T length 0 (covers.map (fragmentOf T window)) = some cs ∧
      ∃ picks, qap T depth length window covers query = some (picks.map fun i => (cs[i]?.getD ([], 0)).1) ∧
        Selects cs.length (fun i => scoreOf T (weights T window covers query) (cs[i]?.getD ([], 0)).1)
          (fun i => (cs[i]?.getD ([], 0)).2) better depth picks := by
  obtain ⟨cs, hcs, _⟩ := candidates_ok (T := T) h0 (covers.map (fragmentOf T window)) 0
  refine ⟨cs, hcs, pick (fun i => (cs[i]?.getD ([], 0)).2) depth []
    (T.sort (fun i => scoreOf T (weights T window covers query) (cs[i]?.getD ([], 0)).1) (List.range cs.length)), ?_, ?_⟩
  · unfold qap
    simp only [hcs]
  · exact pick_selects (hs _ _).1 (hs _ _).2 hb _ _

/-- **C65.** The candidates: a fragment of at most `length` words; and of a longer one the windows of `length` words — but not the last
(`C65_last_window`). -/
theorem C65_candidates_partial {V : Type} (T : Qap.Tools V) (length : Nat) (h0 : 0 < length) (fs : List Txt) :
    ∃ cs, candidates T length 0 fs = some cs ∧ ∀ t k, (t, k) ∈ cs ↔ ∃ f, fs[k]? = some f ∧
      (((T.tokenize f).length ≤ length ∧ t = f) ∨
        ∃ i, i + length < (T.tokenize f).length ∧ Window f (T.tokenize f) length i t) := by
  obtain ⟨cs, hcs, hm⟩ := candidates_ok (T := T) h0 fs 0
  refine ⟨cs, hcs, fun t k => (hm t k).trans ?_⟩
  constructor
  · rintro ⟨i, f, L, e, h1, h2, h3⟩
    have e : k = i := by omega
    subst e
    refine ⟨f, h1, ?_⟩
    obtain ⟨L', h2', h⟩ := candidatesOf_ok (T := T) h0 f
    rw [h2] at h2'
    cases h2'
    rcases h with ⟨h4, rfl⟩ | ⟨h4, h5, h6⟩
    · exact .inl ⟨h4, List.mem_singleton.1 h3⟩
    · obtain ⟨i, hi⟩ := List.mem_iff_getElem?.1 h3
      have hlt := (List.getElem?_eq_some_iff.1 hi).1
      exact .inr ⟨i, by omega, h6 i t hi⟩
  · rintro ⟨f, h1, h⟩
    obtain ⟨L, h2, h'⟩ := candidatesOf_ok (T := T) h0 f
    refine ⟨k, f, L, by omega, h1, h2, ?_⟩
    rcases h with ⟨h4, rfl⟩ | ⟨i, h4, h5⟩
    · rcases h' with ⟨_, rfl⟩ | ⟨h6, _⟩
      · exact List.mem_singleton.2 rfl
      · omega
    · rcases h' with ⟨h6, _⟩ | ⟨_, h6, h7⟩
      · omega
      · have hlt : i < L.length := by omega
        obtain ⟨a, b, a1, b1, rfl⟩ := h5
        obtain ⟨a', b', a2, b2, e⟩ := h7 i L[i] (List.getElem?_eq_getElem hlt)
        rw [a1] at a2
        rw [b1] at b2
        cases a2
        cases b2
        rw [← e]
        exact List.getElem_mem _

/-- **C65.** The fragments: at most `window` words around the passage, in its container. -/
theorem C65_fragments {V : Type} (T : Qap.Tools V) (window : Nat) (c : Cover) : fragmentOf T window c = around T.translate window c := by
  unfold fragmentOf around
  rw [spread_eq]

/-- **C65.** The score of a candidate: the sum of the weights of its different words. -/
theorem C65_score {V : Type} (T : Qap.Tools V) (ht : Total T.lt) (ws : Weights V) (t : Txt) :
    ∃ words : List Word, words.Pairwise (fun a b => T.lt a b = true) ∧ words.Nodup ∧ (∀ w, w ∈ words ↔ w ∈ T.split t) ∧
      scoreOf T ws t = (words.filterMap (weightOf ws)).foldl T.add T.zero := by
  obtain ⟨h1, h2⟩ := insertWords_ok ht (T.split t) [] List.Pairwise.nil
  refine ⟨_, h1, ?_, fun w => by simpa using h2 w, ?_⟩
  · refine List.Pairwise.imp ?_ h1
    intro a b h e
    subst e
    rw [ht.irrefl] at h
    cases h
  · unfold scoreOf
    exact score_fold T.add (weightOf ws) _ T.zero

/-! ### the weights -/

/-- **C65.** A word of the query has no weight; any other the cube of the sum of what it is worth in each fragment it is in. -/
theorem C65_weights {V : Type} (T : Qap.Tools V) (ht : Total T.lt) (window : Nat) (covers : List Cover) (query : Txt) (w : Word) :
    weightOf (weights T window covers query) w =
      if w ∈ T.split query then none
      else (sum T.add (covers.filterMap fun c => (locationIn (locations T window c) w).map (T.weigh w))).map T.cube :=
  weights_ok ht window covers query w

/-- **C65.** How far a word is from the passage, as the program has it, when the passage is in the first half of the addresses up to it
(`c.p ≤ 2 * first`): the distance of the *first* occurrence if that is before or in the passage, and 1 if it is after it
(`C65_after`).  A word of the fragment that occurs again nearer to the passage is as far as its first occurrence (`C65_nearer`). -/
theorem C65_locations_partial {V : Type} (T : Qap.Tools V) (window : Nat) (c : Cover) (hc : c.Good) (first : Int)
    (hf : first = max (c.p - window) c.cp) (h2 : c.p ≤ 2 * first) (w : Word) :
    locationIn (locations T window c) w =
      ((T.split (around T.translate window c)).idxOf? w).map fun k =>
        if first + (k : Nat) ≤ c.q then distance c (first + (k : Nat)) else 1 := by
  obtain ⟨g1, g2, g3, g4⟩ := hc
  have e0 : max (c.p - (spread window c).1) 0 = seenAt c (spread window c).1 := by
    rw [spread_eq]; simp only []
    unfold seenAt
    rw [if_pos (by omega)]
  have hb : ∀ x, first ≤ x → ∀ y, first ≤ y → y < x → seenAt c y ≤ x := by
    intro x hx y hy hyx
    unfold seenAt
    split <;> omega
  unfold locations
  rw [e0, C65_fragments, spread_eq]
  simp only []
  rw [← hf]
  rw [(locate_first g3 hb (T.split (around T.translate window c)) first [] (Int.le_refl _) (by simp) (by
    intro w v h
    simp [locationIn] at h)).2 w]
  simp only [locationIn, List.find?_nil, Option.map_none, Option.none_or]
  cases (T.split (around T.translate window c)).idxOf? w with
  | none => rfl
  | some k =>
    simp only [Option.map_some]
    congr 1
    unfold seenAt distance
    split
    · split
      · omega
      · omega
    · rfl

/-! ### an example, and where it goes wrong -/

/-- a collection of the words of one letter each, the first of which is at address 10 -/
def oneLetter (doc : List Char) : Qap.Tools Nat where
  translate p q := ((doc.drop (p - 10).toNat).take (q - p + 1).toNat).flatMap fun c => [c, ' ']
  split t := (t.filter (· ≠ ' ')).map fun c => [c]
  tokenize t := (List.range (t.length / 2)).map fun i => (2 * i, 1)
  weigh _ location := 60 / (location + 1).toNat
  cube v := v * v * v
  zero := 0
  add := (· + ·)
  lt := wordLess
  sort score l := l.foldr (fun i m => m.takeWhile (fun j => score j > score i) ++ i :: m.dropWhile (fun j => score j > score i)) []

/-- sorting as in the example is sorting -/
theorem oneLetter_sorts (doc : List Char) : SortsBy (fun a b : Nat => decide (a > b)) (oneLetter doc).sort := by
  intro score l
  show (l.foldr (fun i m => m.takeWhile (fun j => score j > score i) ++ i :: m.dropWhile (fun j => score j > score i)) []).Perm l ∧
    (l.foldr (fun i m => m.takeWhile (fun j => score j > score i) ++ i :: m.dropWhile (fun j => score j > score i)) []).Pairwise
      fun i j => decide (score j > score i) = false
  induction l with
  | nil => exact ⟨.refl _, .nil⟩
  | cons i l ih =>
    obtain ⟨h1, h2⟩ := ih
    simp only [List.foldr_cons]
    generalize l.foldr (fun i m => m.takeWhile (fun j => score j > score i) ++ i :: m.dropWhile (fun j => score j > score i)) [] = m at h1 h2
    have e := List.takeWhile_append_dropWhile (p := fun j => decide (score j > score i)) (l := m)
    refine ⟨List.perm_middle.trans (List.Perm.cons _ (by rw [e]; exact h1)), ?_⟩
    have h3 : (m.dropWhile fun j => decide (score j > score i)).Pairwise fun i j => decide (score j > score i) = false := by
      rw [← e] at h2
      exact (List.pairwise_append.1 h2).2.1
    rw [List.pairwise_append]
    refine ⟨?_, ?_, ?_⟩
    · rw [← e] at h2
      exact (List.pairwise_append.1 h2).1
    · rw [List.pairwise_cons]
      refine ⟨?_, h3⟩
      intro j hj
      cases hd : m.dropWhile fun j => decide (score j > score i) with
      | nil => rw [hd] at hj; cases hj
      | cons a r =>
        have ha := List.head?_dropWhile_not (fun j => decide (score j > score i)) m
        rw [hd] at ha hj h3
        simp only [List.head?_cons] at ha
        rcases List.mem_cons.1 hj with rfl | hj
        · exact ha
        · have h4 := (List.pairwise_cons.1 h3).1 j hj
          simp only [decide_eq_false_iff_not] at ha h4 ⊢
          omega
    · intro a ha b hb
      have h5 : score a > score i := by
        have := List.all_takeWhile (p := fun j => decide (score j > score i)) (l := m)
        simpa using List.all_eq_true.1 this a ha
      rcases List.mem_cons.1 hb with rfl | hb
      · simp only [decide_eq_false_iff_not]; omega
      · rw [← e] at h2
        exact (List.pairwise_append.1 h2).2.2 a ha b hb

/-- the passage `x` among other words, which is asked for -/
def xCover : Cover := ⟨13, 13, 10, 20⟩

example : xCover.Good ∧ xCover.p ≤ 2 * max (xCover.p - (4 : Nat)) xCover.cp := by unfold Cover.Good; decide

example : qap (oneLetter ['a', 'b', 'c', 'x', 'd', 'e', 'f', 'g', 'h', 'i', 'j']) 3 2 4 [xCover] ['x'] = some [['d', ' ', 'e']] := by
  decide +kernel

/-- **C65 (violated).** After the passage a word has the distance 1 however far it is. -/
theorem C65_after : ∃ (T : Qap.Tools Nat) (window : Nat) (c : Cover) (k : Nat) (w : Word), c.Good ∧
    (T.split (around T.translate window c)).idxOf? w = some k ∧
    distance c (max (c.p - window) c.cp + k) = 4 ∧ locationIn (locations T window c) w = some 1 := by
  refine ⟨oneLetter ['a', 'b', 'c', 'x', 'd', 'e', 'f', 'g', 'h', 'i', 'j'], 4, xCover, 7, ['g'], by unfold Cover.Good; decide, ?_, ?_, ?_⟩ <;> decide +kernel

/-- **C65 (violated).** A word that is next to the passage has the distance of an earlier occurrence: the program compares an address with
a distance. -/
theorem C65_nearer : ∃ (T : Qap.Tools Nat) (window : Nat) (c : Cover) (k : Nat) (w : Word), c.Good ∧
    (T.split (around T.translate window c))[k]? = some w ∧
    distance c (max (c.p - window) c.cp + k) = 1 ∧ locationIn (locations T window c) w = some 3 := by
  refine ⟨oneLetter ['a', 'b', 'a', 'x', 'd', 'e', 'f', 'g', 'h', 'i', 'j'], 4, xCover, 2, ['a'], by unfold Cover.Good; decide, ?_, ?_, ?_⟩ <;> decide +kernel

/-- **C65 (violated).** The last words of a fragment that is longer than an answer are in no candidate: here the word `k`. -/
theorem C65_last_window : ∃ (T : Qap.Tools Nat) (fragment t : Txt) (cs : List (Txt × Nat)),
    candidates T 2 0 [fragment] = some cs ∧ Window fragment (T.tokenize fragment) 2 1 t ∧ (T.tokenize fragment).length = 3 ∧
    (t, 0) ∉ cs ∧ ∀ x ∈ cs, ['k'] ∉ T.split x.1 := by
  refine ⟨oneLetter [], ['a', ' ', 'b', ' ', 'k', ' '], ['b', ' ', 'k'], [(['a', ' ', 'b'], 0)], ?_, ⟨(2, 1), (4, 1), ?_, ?_, ?_⟩, ?_, ?_, ?_⟩ <;> decide +kernel

/-- **C65.** With a length of 0 and any word in a fragment the program reads before the beginning of a vector. -/
theorem C65_zero_length {V : Type} (T : Qap.Tools V) (depth window : Nat) (covers : List Cover) (query : Txt) (c : Cover) (hc : c ∈ covers)
    (hw : T.tokenize (fragmentOf T window c) ≠ []) : qap T depth 0 window covers query = none := by
  have one : candidatesOf T 0 (fragmentOf T window c) = none := by
    unfold candidatesOf
    simp only []
    have hl := List.length_pos_iff.2 hw
    rw [if_neg (by omega)]
    obtain ⟨n, hn⟩ : ∃ n, (T.tokenize (fragmentOf T window c)).length - 0 = n + 1 := ⟨(T.tokenize (fragmentOf T window c)).length - 1, by omega⟩
    rw [hn, List.range_succ_eq_map, List.mapM_cons]
    rfl
  have all : ∀ (fs : List Txt) (j : Nat), fragmentOf T window c ∈ fs → candidates T 0 j fs = none := by
    intro fs
    induction fs with
    | nil => intro j h; cases h
    | cons f fs ih =>
      intro j h
      rcases List.mem_cons.1 h with e | h
      · subst e
        simp only [candidates, one]
      · simp only [candidates, ih (j + 1) h]
        split <;> simp_all
  unfold qap
  simp only [all _ 0 (List.mem_map.2 ⟨c, hc, rfl⟩)]

example : (oneLetter ['a', 'x']).tokenize (fragmentOf (oneLetter ['a', 'x']) 4 ⟨11, 11, 10, 11⟩) ≠ [] := by decide +kernel

/-- **C65 (violated).** The same fragment, from two passages, counts twice and gives the same answer twice: `seen` is never filled. -/
theorem C65_duplicates : ∃ (T : Qap.Tools Nat) (c d : Cover) (t : Txt), c ≠ d ∧ c.Good ∧ d.Good ∧
    qap T 5 2 4 [c, d] ['x'] = some [t, t] := by
  refine ⟨oneLetter ['a', 'x', 'k', 'x'], ⟨11, 11, 10, 13⟩, ⟨13, 13, 10, 13⟩, ['x', ' ', 'k'], by decide, by unfold Cover.Good; decide,
    by unfold Cover.Good; decide, ?_⟩
  decide +kernel

end Verif.Props
