import Verif.Props.Bm25
import Verif.Rank.Daat
/-
  Properties of the rankings that visit one passage after the other (C62): dot products, language models and random
  rankings, and the parameters of rankings.
-/
namespace Verif.Props
open Verif.Hopper Verif.Gcl Verif.Rank

/-- the term has this weight, and its hopper answers with these passages -/
structure Supplies {τ : Type} (t : τ × Obj) (l : Lane τ) : Prop where
  weight : t.1 = l.weight
  listing : Listing l.docs
  hopper : Implements t.2 (ofList l.docs)

theorem supplies_given {τ : Type} {query : List (τ × Obj)} {lanes : List (Lane τ)} (h : Both Supplies query lanes) :
    Both Given query lanes := by
  refine both_imp h fun t _ l g => ?_
  obtain ⟨I, hI⟩ := g.hopper
  exact ⟨g.weight, g.listing, I, walks_impl hI⟩

section
variable {σ τ : Type} {sc : Scores σ} {sort : List (Result σ) → List (Result σ)} {query : List (τ × Obj)} {lanes : List (Lane τ)}

/-- any depth, zero as well -/
theorem daat_top (hs : sc.Ordered) (hsort : SortsBy sc sort) (part : τ → Int → Int → σ) (hq : Both Supplies query lanes) (depth : Nat) :
    ∃ all R, daat sc part sort depth query = some R ∧ Passages sc part lanes all ∧ Top sc depth all R := by
  by_cases hd : depth = 0
  · obtain ⟨all, _, _, h, _⟩ := daat_ok (depth := 1) (part := part) hs hsort (by omega) (supplies_given hq)
    subst hd
    exact ⟨all, [], by unfold daat; rw [if_pos (.inl rfl)], h, top_none sc all⟩
  · exact daat_ok hs hsort (by omega) (supplies_given hq)

theorem toSize_some {x : Rat} (h0 : 0 ≤ x) (h1 : x < 18446744073709551616) : toSize x = some x.floor.toNat := by
  unfold toSize
  rw [if_pos ⟨by grind, h1⟩]

/-- **C62**: `product_ranking` returns the best `depth` of all the passages that some term of the query annotates and whose score is
greater than zero, best first; the score of a passage is the sum of weight times value over its terms. -/
theorem C62_product_partial (hs : sc.Ordered) (hsort : SortsBy sc sort) (part : τ → Int → Int → σ) (hq : Both Supplies query lanes)
    {tag : List Char} {m : Params} {x : Rat} (hx : rankingParameter tag ['d', 'e', 'p', 't', 'h'] m = some x) (h0 : 0 ≤ x)
    (h1 : x < 18446744073709551616) :
    ∃ all R, productRanking sc part sort tag m query = some R ∧ Passages sc part lanes all ∧ Top sc x.floor.toNat all R := by
  unfold productRanking
  rw [show depthName = ['d', 'e', 'p', 't', 'h'] from rfl, hx]
  simp only [Option.bind_some, toSize_some h0 h1]
  exact daat_top hs hsort part hq _

/-- **C62**: so does `lmd_ranking`, whose terms add what their frequency says -/
theorem C62_lmd_partial (hs : sc.Ordered) (hsort : SortsBy sc sort) (part : Rat → τ → Int → Int → σ) (hq : Both Supplies query lanes)
    {m : Params} {mu x : Rat} (hmu : rankingParameter ['l', 'm', 'd'] ['m', 'u'] m = some mu)
    (hx : rankingParameter ['l', 'm', 'd'] ['d', 'e', 'p', 't', 'h'] m = some x) (h0 : 0 ≤ x) (h1 : x < 18446744073709551616) :
    ∃ all R, lmdRanking sc part sort m query = some R ∧ Passages sc (part mu) lanes all ∧ Top sc x.floor.toNat all R := by
  unfold lmdRanking
  rw [hmu, show depthName = ['d', 'e', 'p', 't', 'h'] from rfl, hx]
  simp only [Option.bind_some, toSize_some h0 h1]
  exact daat_top hs hsort (part mu) hq _

/-- **C62**: `random_ranking` gives every passage of the container the next number drawn, and returns the best `depth`, best first.
(A number that is not greater than zero, or is none, is no score.) -/
theorem C62_random (hs : sc.Ordered) (hsort : SortsBy sc sort) (ix : Index) (count : Option (List Char → Int)) {c : SExpr} (hc : Legal c)
    {D : List Ann} (hD : Lists D (den ix.solutions c)) (depth : Nat) (draw : Nat → Option σ) :
    ∃ R, randomRanking sc sort depth (compile ix count c) draw = some R ∧ Top sc depth (lottery sc draw D) R := by
  obtain ⟨K, eK, J, hJ⟩ := compile_impl ix count c hc
  have sD : den ix.solutions c = ofList D := by funext a; exact propext (hD.2 a).symm
  rw [sD] at hJ
  rw [eK]
  exact random_ok hs hsort hD.1 (walks_impl hJ) draw

/-- the passages of a query are determined -/
theorem passages_unique {part : τ → Int → Int → σ} {all all' : List (Result σ)} (h : Passages sc part lanes all)
    (h' : Passages sc part lanes all') : all = all' := by
  have nodup : ∀ {l : List (Result σ)}, l.Pairwise (fun a b => a.p < b.p) → l.Nodup :=
    fun h => h.imp fun {a b} g e => by rw [e] at g; omega
  refine ((List.perm_ext_iff_of_nodup (nodup h.ordered) (nodup h'.ordered)).2 fun r => (h.mem r).trans (h'.mem r).symm).eq_of_pairwise
    (fun a b _ _ h1 h2 => by omega) h.ordered h'.ordered

/-- everything returned is a passage, with its score, and that is greater than zero: passages with other scores are never returned, even
when there is room for them -/
theorem returned {part : τ → Int → Int → σ} {all R : List (Result σ)} {depth : Nat} (h : Passages sc part lanes all) (ht : Top sc depth all R)
    {r : Result σ} (hr : r ∈ R) : passageAt sc part lanes r.p = some r ∧ sc.gt r.score sc.zero = true := by
  obtain ⟨o, p, _⟩ := ht.best
  exact (h.mem r).1 (p.mem_iff.1 (List.mem_append_left _ hr))

end

/-! ### parameters -/

/-- **C62**: a parameter given under its full name counts; else one given under its short name; else there is a default, unless the
ranker has no name that is known, and then a null pointer is followed. -/
theorem C62_parameter (ranker name : List Char) (m : Params) :
    (∀ x, m.get (ranker ++ ':' :: name) = some x → rankingParameter ranker name m = some x) ∧
    (m.get (ranker ++ ':' :: name) = none → ∀ x, m.get name = some x → rankingParameter ranker name m = some x) ∧
    (m.get (ranker ++ ':' :: name) = none → m.get name = none → (rankingParameter ranker name m = none ↔
      ranker ∉ [['b', 'm', '2', '5'], ['k', 'l', 'd'], ['l', 'm', 'd'], ['r', 's', 'j'], ['s', 's', 'r'],
        ['t', 'i', 'e', 'r', 'e', 'd'], ['q', 'a', 'p']])) := by
  refine ⟨fun x h => by simp only [rankingParameter, h], fun h x h' => by simp only [rankingParameter, h, h'], fun h h' => ?_⟩
  have hn : rankerDefaults ranker = none ↔ ranker ∉ [['b', 'm', '2', '5'], ['k', 'l', 'd'], ['l', 'm', 'd'], ['r', 's', 'j'], ['s', 's', 'r'],
      ['t', 'i', 'e', 'r', 'e', 'd'], ['q', 'a', 'p']] := by
    unfold rankerDefaults
    simp only [List.mem_cons, List.not_mem_nil, or_false, not_or]
    constructor
    · intro g
      repeat' split at g
      all_goals first | cases g | skip
      simp [*]
    · rintro ⟨h1, h2, h3, h4, h5, h6, h7⟩
      rw [if_neg h1, if_neg h2, if_neg h3, if_neg h4, if_neg h5, if_neg h6, if_neg h7]
  rw [← hn]
  simp only [rankingParameter, h, h']
  cases rankerDefaults ranker <;> simp

/-- **C62**: the defaults -/
theorem C62_defaults :
    rankingParameter ['b', 'm', '2', '5'] ['b'] [] = some (1/4) ∧ rankingParameter ['b', 'm', '2', '5'] ['k', '1'] [] = some (1/2) ∧
    rankingParameter ['l', 'm', 'd'] ['m', 'u'] [] = some 2000 ∧ rankingParameter ['s', 's', 'r'] ['K'] [] = some 42 ∧
    rankingParameter ['t', 'i', 'e', 'r', 'e', 'd'] ['d', 'e', 'l', 't', 'a'] [] = some 1 ∧
    rankingParameter ['b', 'm', '2', '5'] ['d', 'e', 'p', 't', 'h'] [] = some 1000 ∧
    rankingParameter ['l', 'm', 'd'] ['d', 'e', 'p', 't', 'h'] [] = some 1000 ∧
    rankingParameter ['s', 's', 'r'] ['d', 'e', 'p', 't', 'h'] [] = some 1000 ∧
    rankingParameter ['t', 'i', 'e', 'r', 'e', 'd'] ['d', 'e', 'p', 't', 'h'] [] = some 1000 ∧
    rankingParameter ['k', 'l', 'd'] ['d', 'e', 'p', 't', 'h'] [] = some 16 ∧
    rankingParameter ['k', 'l', 'd'] ['e', 'x', 'p', 'a', 'n', 's', 'i', 'o', 'n', 's'] [] = some 8 ∧
    rankingParameter ['k', 'l', 'd'] ['w', 'i', 'n', 'd', 'o', 'w'] [] = some 64 ∧
    rankingParameter ['k', 'l', 'd'] ['g', 'a', 'm', 'm', 'a'] [] = some (1/3) ∧
    rankingParameter ['r', 's', 'j'] ['d', 'e', 'p', 't', 'h'] [] = some 10 ∧
    rankingParameter ['r', 's', 'j'] ['e', 'x', 'p', 'a', 'n', 's', 'i', 'o', 'n', 's'] [] = some 25 ∧
    rankingParameter ['r', 's', 'j'] ['g', 'a', 'm', 'm', 'a'] [] = some (1/5) ∧
    rankingParameter ['q', 'a', 'p'] ['d', 'e', 'p', 't', 'h'] [] = some 5 ∧
    rankingParameter ['q', 'a', 'p'] ['l', 'e', 'n', 'g', 't', 'h'] [] = some 64 ∧
    rankingParameter ['q', 'a', 'p'] ['p', 'a', 's', 's', 'a', 'g', 'e', 's'] [] = some 32 ∧
    rankingParameter ['q', 'a', 'p'] ['w', 'i', 'n', 'd', 'o', 'w'] [] = some 64 := by
  refine ⟨?_, ?_, ?_, ?_, ?_, ?_, ?_, ?_, ?_, ?_, ?_, ?_, ?_, ?_, ?_, ?_, ?_, ?_, ?_, ?_⟩ <;> decide +kernel

/-- **C62**, violated: a dot product with a tag that is not the name of a ranker, asked without a depth, follows a null pointer whatever
the query is.  So the function without parameters can only be called with such a name. -/
theorem C62_depth_undefined {σ τ : Type} (sc : Scores σ) (part : τ → Int → Int → σ) (sort : List (Result σ) → List (Result σ))
    {tag : List Char} {m : Params}
    (htag : tag ∉ [['b', 'm', '2', '5'], ['k', 'l', 'd'], ['l', 'm', 'd'], ['r', 's', 'j'], ['s', 's', 'r'],
      ['t', 'i', 'e', 'r', 'e', 'd'], ['q', 'a', 'p']])
    (h1 : m.get (tag ++ ':' :: ['d', 'e', 'p', 't', 'h']) = none) (h2 : m.get ['d', 'e', 'p', 't', 'h'] = none) (query : List (τ × Obj)) :
    productRanking sc part sort tag m query = none := by
  have := ((C62_parameter tag ['d', 'e', 'p', 't', 'h'] m).2.2 h1 h2).2 htag
  unfold productRanking
  rw [show depthName = ['d', 'e', 'p', 't', 'h'] from rfl, this]
  rfl

/-- and a depth of -1 or less, or of 2^64 or more, is undefined for all these rankings -/
theorem C62_depth_range {σ τ : Type} (sc : Scores σ) (part : τ → Int → Int → σ) (sort : List (Result σ) → List (Result σ))
    {tag : List Char} {m : Params} {x : Rat} (hx : rankingParameter tag ['d', 'e', 'p', 't', 'h'] m = some x)
    (h : x ≤ -1 ∨ 18446744073709551616 ≤ x) (query : List (τ × Obj)) : productRanking sc part sort tag m query = none := by
  unfold productRanking
  rw [show depthName = ['d', 'e', 'p', 't', 'h'] from rfl, hx]
  have : toSize x = none := by
    unfold toSize
    rw [if_neg]
    grind
  simp only [Option.bind_some, this]

/-! ### the words of a query -/

section
variable {α : Type} [DecidableEq α] {lt : α → α → Bool}

theorem addWord_mem {w x : α} {n : Nat} : ∀ {m : List (α × Nat)}, (x, n) ∈ addWord lt w m → (x = w ∨ ∃ n', (x, n') ∈ m) := by
  intro m
  induction m with
  | nil =>
    intro h
    simp only [addWord, List.mem_singleton, Prod.mk.injEq] at h
    exact .inl h.1
  | cons y m ih =>
    obtain ⟨y, k⟩ := y
    intro h
    unfold addWord at h
    split at h
    · rename_i e
      rcases List.mem_cons.1 h with h | h
      · exact .inl ((Prod.mk.inj h).1.trans e.symm)
      · exact .inr ⟨n, List.mem_cons_of_mem _ h⟩
    · split at h
      · rcases List.mem_cons.1 h with h | h
        · exact .inl (Prod.mk.inj h).1
        · exact .inr ⟨n, h⟩
      · rcases List.mem_cons.1 h with h | h
        · exact .inr ⟨k, by rw [(Prod.mk.inj h).1]; exact List.mem_cons_self ..⟩
        · rcases ih h with h | ⟨n', h⟩
          · exact .inl h
          · exact .inr ⟨n', List.mem_cons_of_mem _ h⟩

/-- the words counted so far -/
structure Counted (lt : α → α → Bool) (words : List α) (m : List (α × Nat)) : Prop where
  ordered : m.Pairwise fun a b => lt a.1 b.1 = true
  mem : ∀ w n, (w, n) ∈ m ↔ 0 < n ∧ n = words.count w

theorem addWord_ordered (htr : ∀ {a b c}, lt a b = true → lt b c = true → lt a c = true) (htot : ∀ {a b}, a ≠ b → lt a b = false → lt b a = true)
    {w : α} : ∀ {m : List (α × Nat)}, m.Pairwise (fun a b => lt a.1 b.1 = true) → (addWord lt w m).Pairwise fun a b => lt a.1 b.1 = true := by
  intro m
  induction m with
  | nil => intro _; simp [addWord]
  | cons y m ih =>
    obtain ⟨y, k⟩ := y
    intro h
    obtain ⟨h1, h2⟩ := List.pairwise_cons.1 h
    unfold addWord
    split
    · exact List.pairwise_cons.2 ⟨h1, h2⟩
    · rename_i hne
      split
      · rename_i hlt
        refine List.pairwise_cons.2 ⟨fun b hb => ?_, h⟩
        rcases List.mem_cons.1 hb with rfl | hb
        · exact hlt
        · exact htr hlt (h1 b hb)
      · rename_i hlt
        refine List.pairwise_cons.2 ⟨fun b hb => ?_, ih h2⟩
        obtain ⟨b, n⟩ := b
        rcases addWord_mem hb with rfl | ⟨n', hb⟩
        · exact htot hne (by simpa using hlt)
        · exact h1 (b, n') hb

theorem addWord_count (hirr : ∀ a, lt a a = false) (htr : ∀ {a b c}, lt a b = true → lt b c = true → lt a c = true)
    (w : α) : ∀ {m : List (α × Nat)}, m.Pairwise (fun a b => lt a.1 b.1 = true) → ∀ x n,
      (x, n) ∈ addWord lt w m ↔ (x ≠ w ∧ (x, n) ∈ m) ∨ (x = w ∧ ((∃ k, (w, k) ∈ m ∧ n = k + 1) ∨ (∀ k, (w, k) ∉ m) ∧ n = 1)) := by
  intro m
  induction m with
  | nil =>
    intro _ x n
    simp [addWord]
  | cons y m ih =>
    obtain ⟨y, k⟩ := y
    intro h x n
    obtain ⟨h1, h2⟩ := List.pairwise_cons.1 h
    unfold addWord
    by_cases hy : w = y
    · rw [if_pos hy]
      subst hy
      have hno : ∀ k, (w, k) ∉ m := fun k hk => by have := h1 _ hk; rw [hirr] at this; cases this
      simp only [List.mem_cons, Prod.mk.injEq, true_and]
      constructor
      · rintro (⟨rfl, rfl⟩ | h)
        · exact .inr ⟨rfl, .inl ⟨k, .inl rfl, rfl⟩⟩
        · exact .inl ⟨fun e => hno n (e ▸ h), .inr h⟩
      · rintro (⟨hne, ⟨rfl, _⟩ | h⟩ | ⟨rfl, ⟨j, rfl | hj, rfl⟩ | ⟨h, _⟩⟩)
        · exact (hne rfl).elim
        · exact .inr h
        · exact .inl ⟨rfl, rfl⟩
        · exact (hno j hj).elim
        · exact (h k (.inl rfl)).elim
    · rw [if_neg hy]
      by_cases hlt : lt w y = true
      · rw [if_pos hlt]
        have hno : ∀ j, (w, j) ∉ (y, k) :: m := by
          intro j hj
          rcases List.mem_cons.1 hj with e | hj
          · exact hy (Prod.mk.inj e).1
          · have := htr hlt (h1 _ hj)
            rw [hirr] at this; cases this
        constructor
        · intro hx
          rcases List.mem_cons.1 hx with e | hx
          · obtain ⟨rfl, rfl⟩ := Prod.mk.inj e
            exact .inr ⟨rfl, .inr ⟨hno, rfl⟩⟩
          · exact .inl ⟨fun e => hno n (e ▸ hx), hx⟩
        · rintro (⟨_, hx⟩ | ⟨rfl, ⟨j, hj, rfl⟩ | ⟨_, rfl⟩⟩)
          · exact List.mem_cons_of_mem _ hx
          · exact (hno j hj).elim
          · exact List.mem_cons_self ..
      · rw [if_neg hlt, List.mem_cons, ih h2]
        simp only [List.mem_cons, Prod.mk.injEq]
        constructor
        · rintro (⟨rfl, rfl⟩ | ⟨hne, hx⟩ | ⟨rfl, ⟨j, hj, rfl⟩ | ⟨hno, rfl⟩⟩)
          · exact .inl ⟨fun e => hy e.symm, .inl ⟨rfl, rfl⟩⟩
          · exact .inl ⟨hne, .inr hx⟩
          · exact .inr ⟨rfl, .inl ⟨j, .inr hj, rfl⟩⟩
          · refine .inr ⟨rfl, .inr ⟨fun j hj => ?_, rfl⟩⟩
            rcases hj with ⟨e, _⟩ | hj
            · exact hy e
            · exact hno j hj
        · rintro (⟨hne, ⟨rfl, rfl⟩ | hx⟩ | ⟨rfl, ⟨j, ⟨e, _⟩ | hj, rfl⟩ | ⟨hno, rfl⟩⟩)
          · exact .inl ⟨rfl, rfl⟩
          · exact .inr (.inl ⟨hne, hx⟩)
          · exact (hy e).elim
          · exact .inr (.inr ⟨rfl, .inl ⟨j, hj, rfl⟩⟩)
          · exact .inr (.inr ⟨rfl, .inr ⟨fun j hj => hno j (.inr hj), rfl⟩⟩)

/-- **C62**: the weight of a word in a query is how often it is said; every word of the query is there once, in order. -/
theorem C62_weights (hirr : ∀ a, lt a a = false) (htr : ∀ {a b c}, lt a b = true → lt b c = true → lt a c = true)
    (htot : ∀ {a b}, a ≠ b → lt a b = false → lt b a = true) (words : List α) :
    (weighted lt words).Pairwise (fun a b => lt a.1 b.1 = true) ∧
      ∀ w n, (w, n) ∈ weighted lt words ↔ w ∈ words ∧ n = words.count w := by
  have key : ∀ (ws done : List α) (m : List (α × Nat)), Counted lt done m →
      Counted lt (done ++ ws) (ws.foldl (fun m w => addWord lt w m) m) := by
    intro ws
    induction ws with
    | nil => intro done m h; simpa using h
    | cons w ws ih =>
      intro done m h
      have : Counted lt (done ++ [w]) (addWord lt w m) := by
        refine ⟨addWord_ordered (lt := lt) (fun h h' => htr h h') (fun h h' => htot h h') h.ordered, fun x n => ?_⟩
        rw [addWord_count hirr htr w h.ordered, List.count_append, List.count_singleton]
        by_cases hx : x = w
        · subst hx
          simp only [ne_eq, not_true_eq_false, false_and, true_and, false_or, beq_self_eq_true, if_true]
          constructor
          · rintro (⟨k, hk, rfl⟩ | ⟨hno, rfl⟩)
            · have := (h.mem _ _).1 hk
              omega
            · refine ⟨by omega, ?_⟩
              have : ¬ 0 < done.count x := fun hc => hno _ ((h.mem x _).2 ⟨hc, rfl⟩)
              omega
          · rintro ⟨_, rfl⟩
            by_cases hc : 0 < done.count x
            · exact .inl ⟨_, (h.mem x _).2 ⟨hc, rfl⟩, rfl⟩
            · refine .inr ⟨fun k hk => ?_, by omega⟩
              have := (h.mem x k).1 hk
              omega
        · have : (w == x) = false := by simpa using fun e => hx e.symm
          simp only [ne_eq, hx, not_false_eq_true, true_and, false_and, or_false, h.mem, this, Bool.false_eq_true, if_false, Nat.add_zero]
      have := ih _ _ this
      simpa using this
  have h := key words [] [] ⟨.nil, fun w n => by simp; omega⟩
  refine ⟨h.ordered, fun w n => ?_⟩
  show (w, n) ∈ words.foldl _ [] ↔ _
  rw [h.mem]
  simp only [List.nil_append]
  constructor
  · rintro ⟨h1, h2⟩
    exact ⟨List.count_pos_iff.1 (by omega), h2⟩
  · rintro ⟨h1, h2⟩
    have := List.count_pos_iff.2 h1
    exact ⟨by omega, h2⟩

end

/-! ### what the scores of a language model are -/

/-- The logarithm of the likelihood of the query, with Dirichlet smoothing, apart from what is the same for every passage: for every term
of the query `log (mu + tf * tokens / count) - log (mu + length)`, with a frequency of zero for a term the passage does not have. -/
def likelihood (log : Rat → Rat) (mu : Rat) (lanes : List (Lane (Rat × Rat))) (p len : Int) : Rat :=
  tot (lanes.map fun l => l.weight.1 * (log (mu + (((l.docs.find? fun a => a.p == p).map fun a => a.v).getD 0 : Int) * l.weight.2) - log (mu + len)))

theorem foldl_tot {α : Type} (f : α → Rat) : ∀ (l : List α) (s : Rat), l.foldl (fun s y => s + f y) s = s + tot (l.map f) := by
  intro l
  induction l with
  | nil => intro s; show s = s + 0; grind
  | cons a l ih =>
    intro s
    rw [List.foldl_cons, ih]
    show s + f a + tot (l.map f) = s + (f a + tot (l.map f))
    grind

/-- the score of a passage, summed up -/
theorem lmd_score {log : Rat → Rat} {mu : Rat} {lanes : List (Lane (Rat × Rat))} {p : Int} {r : Result Rat}
    (h : passageAt ratScores (lmdPart log mu) lanes p = some r) :
    r.p = p ∧ r.score = tot ((lanesAt lanes p).map fun y => lmdPart log mu y.1 y.2.v (r.q - p + 1)) := by
  unfold passageAt at h
  split at h
  · cases h
  · rename_i x xs e
    cases h
    refine ⟨rfl, ?_⟩
    rw [e]
    simp only
    have := foldl_tot (fun y : (Rat × Rat) × Ann => lmdPart log mu y.1 y.2.v (x.2.q - p + 1)) (x :: xs) 0
    rw [show (ratScores.zero : Rat) = 0 from rfl, show ratScores.add = (· + ·) from rfl]
    simp only
    rw [this]
    grind

/-- **C62**: the score of a passage is at least the likelihood of the query, and is the likelihood when the passage has every term.  What
is missing: for other passages it is another number (`C62_lmd_reversed`). -/
theorem C62_likelihood_partial {log : Rat → Rat} (hlog : ∀ x y : Rat, 0 < x → x < y → log x < log y) {mu : Rat} (hmu : 0 < mu)
    {lanes : List (Lane (Rat × Rat))} (hw : ∀ l ∈ lanes, 0 ≤ l.weight.1) {p : Int} {r : Result Rat}
    (h : passageAt ratScores (lmdPart log mu) lanes p = some r) (hr : p ≤ r.q) :
    likelihood log mu lanes p (r.q - p + 1) ≤ r.score ∧
      ((∀ l ∈ lanes, ∃ a ∈ l.docs, a.p = p) → r.score = likelihood log mu lanes p (r.q - p + 1)) := by
  obtain ⟨_, e⟩ := lmd_score h
  rw [e]
  generalize hlen : r.q - p + 1 = len
  have hl : (0 : Rat) < len := by
    have : 0 < len := by omega
    exact_mod_cast this
  clear h e
  have hterm : ∀ w : Rat, 0 ≤ w → w * (log mu - log (mu + len)) ≤ 0 := by
    intro w hw
    have h1 := hlog mu (mu + len) hmu (by grind)
    have h2 : log mu - log (mu + len) ≤ 0 := by grind
    have := Rat.mul_le_mul_of_nonneg_left (c := w) h2 hw
    grind
  induction lanes with
  | nil => exact ⟨Rat.le_refl, fun _ => rfl⟩
  | cons l lanes ih =>
    obtain ⟨i1, i2⟩ := ih fun x hx => hw x (List.mem_cons_of_mem _ hx)
    have el : likelihood log mu (l :: lanes) p len = l.weight.1 * (log (mu + (((l.docs.find? fun a => a.p == p).map fun a => a.v).getD 0 : Int)
        * l.weight.2) - log (mu + len)) + likelihood log mu lanes p len := rfl
    rw [el]
    have es : lanesAt (l :: lanes) p = (((l.docs.find? fun a => a.p == p).map fun a => (l.weight, a)).toList) ++ lanesAt lanes p := by
      unfold lanesAt
      rw [List.filterMap_cons]
      cases l.docs.find? fun a => a.p == p <;> rfl
    rw [es]
    cases hf : l.docs.find? fun a => a.p == p with
    | none =>
      simp only [Option.map_none, Option.getD_none, Option.toList_none, List.nil_append]
      have h0 := hterm _ (hw l (List.mem_cons_self ..))
      have hz : mu + ((0 : Int) : Rat) * l.weight.2 = mu := by
        rw [show ((0 : Int) : Rat) = 0 from rfl]; grind
      rw [hz]
      refine ⟨by grind, fun hall => ?_⟩
      obtain ⟨a, ha, hp⟩ := hall l (List.mem_cons_self ..)
      exact absurd (by simpa using hp) (List.find?_eq_none.1 hf a ha)
    | some a =>
      simp only [Option.map_some, Option.getD_some, Option.toList_some, List.cons_append, List.nil_append, List.map_cons]
      have et : tot (lmdPart log mu l.weight a.v len :: (lanesAt lanes p).map fun y => lmdPart log mu y.1 y.2.v len)
          = lmdPart log mu l.weight a.v len + tot ((lanesAt lanes p).map fun y => lmdPart log mu y.1 y.2.v len) := rfl
      rw [et]
      refine ⟨?_, fun hall => ?_⟩
      · unfold lmdPart at *
        grind
      · rw [i2 fun x hx => hall x (List.mem_cons_of_mem _ hx)]
        rfl

/-- **C62**, violated: a term that a passage has can only count against it, when it is common.  So of two passages of the same length, the
one that has the whole query, and is the likelier, is ranked below the one that has half of it — with any logarithm. -/
theorem C62_lmd_reversed {log : Rat → Rat} (hlog : ∀ x y : Rat, 0 < x → x < y → log x < log y) {mu : Rat} (hmu : 0 < mu) :
    ∃ lanes : List (Lane (Rat × Rat)), (∀ l ∈ lanes, l.weight.1 = 1 ∧ Listing l.docs) ∧
      ∃ r s, passageAt ratScores (lmdPart log mu) lanes 0 = some r ∧ passageAt ratScores (lmdPart log mu) lanes 20 = some s ∧
        r.q - r.p = s.q - s.p ∧ s.score < r.score ∧
        likelihood log mu lanes 0 10 < likelihood log mu lanes 20 10 := by
  refine ⟨[⟨(1, 100), [⟨0, 9, 1⟩, ⟨20, 29, 1⟩]⟩, ⟨(1, 2), [⟨20, 29, 1⟩]⟩], ?_, ?_⟩
  · intro l hl
    simp only [List.mem_cons, List.not_mem_nil, or_false] at hl
    rcases hl with rfl | rfl
    · exact ⟨rfl, by simp, by simp⟩
    · exact ⟨rfl, by simp, by simp⟩
  refine ⟨_, _, rfl, rfl, rfl, ?_, ?_⟩
  · show (0 : Rat) + 1 * (log (mu + ((1 : Int) : Rat) * 100) - log (mu + ((29 - 20 + 1 : Int) : Rat)))
        + 1 * (log (mu + ((1 : Int) : Rat) * 2) - log (mu + ((29 - 20 + 1 : Int) : Rat)))
      < 0 + 1 * (log (mu + ((1 : Int) : Rat) * 100) - log (mu + ((9 - 0 + 1 : Int) : Rat)))
    have e1 : ((29 - 20 + 1 : Int) : Rat) = 10 := by decide +kernel
    have e2 : ((9 - 0 + 1 : Int) : Rat) = 10 := by decide +kernel
    have e3 : ((1 : Int) : Rat) = 1 := rfl
    rw [e1, e2, e3]
    have := hlog (mu + 1 * 2) (mu + 10) (by grind) (by grind)
    grind
  · show (1 : Rat) * (log (mu + ((1 : Int) : Rat) * 100) - log (mu + ((10 : Int) : Rat)))
        + (1 * (log (mu + ((0 : Int) : Rat) * 2) - log (mu + ((10 : Int) : Rat))) + 0)
      < 1 * (log (mu + ((1 : Int) : Rat) * 100) - log (mu + ((10 : Int) : Rat)))
        + (1 * (log (mu + ((1 : Int) : Rat) * 2) - log (mu + ((10 : Int) : Rat))) + 0)
    have e3 : ((1 : Int) : Rat) = 1 := rfl
    have e4 : ((0 : Int) : Rat) = 0 := rfl
    rw [e3, e4]
    have := hlog (mu + 0 * 2) (mu + 1 * 2) (by grind) (by grind)
    grind

/-- **C62**, violated: a passage whose terms are all common (`tf * tokens < count * length`) is never returned, whatever the depth. -/
theorem C62_common_dropped {log : Rat → Rat} (hlog : ∀ x y : Rat, 0 < x → x < y → log x < log y) {mu : Rat} (hmu : 0 < mu)
    {sort : List (Result Rat) → List (Result Rat)} (hsort : SortsBy ratScores sort) {query : List ((Rat × Rat) × Obj)}
    {lanes : List (Lane (Rat × Rat))} (hq : Both Supplies query lanes) {m : Params}
    (hm : rankingParameter ['l', 'm', 'd'] ['m', 'u'] m = some mu) {R : List (Result Rat)}
    (hR : lmdRanking ratScores (lmdPart log) sort m query = some R) {p : Int} {r : Result Rat}
    (hp : passageAt ratScores (lmdPart log mu) lanes p = some r)
    (hc : ∀ l ∈ lanes, 0 ≤ l.weight.1 ∧ ∀ a ∈ l.docs, a.p = p → 0 ≤ (a.v : Rat) * l.weight.2 ∧ (a.v : Rat) * l.weight.2 ≤ ((r.q - p + 1 : Int) : Rat)) :
    ∀ s ∈ R, s.p ≠ p := by
  intro s hs hsp
  have hx : ∃ depth, (rankingParameter ['l', 'm', 'd'] depthName m).bind toSize = some depth := by
    unfold lmdRanking at hR
    rw [hm] at hR
    simp only at hR
    cases h : (rankingParameter ['l', 'm', 'd'] depthName m).bind toSize with
    | none => rw [h] at hR; cases hR
    | some d => exact ⟨d, rfl⟩
  obtain ⟨depth, hd⟩ := hx
  unfold lmdRanking at hR
  simp only [hm, hd] at hR
  obtain ⟨all, R', e, hall, ht⟩ := daat_top ratScores_lawful.toOrdered hsort (lmdPart log mu) hq depth
  rw [hR] at e
  cases e
  obtain ⟨h1, h2⟩ := returned hall ht hs
  rw [hsp, hp] at h1
  cases h1
  obtain ⟨_, e⟩ := lmd_score hp
  have hle : tot ((lanesAt lanes p).map fun y => lmdPart log mu y.1 y.2.v (r.q - p + 1)) ≤ 0 := by
    have : ∀ y ∈ lanesAt lanes p, lmdPart log mu y.1 y.2.v (r.q - p + 1) ≤ (fun _ => (0 : Rat)) y := by
      intro y hy
      unfold lanesAt at hy
      obtain ⟨l, hl, hf⟩ := List.mem_filterMap.1 hy
      rcases hg : l.docs.find? (fun a => a.p == p) with _ | a
      · rw [hg] at hf; cases hf
      · rw [hg] at hf
        simp only [Option.map_some, Option.some.injEq] at hf
        subst hf
        have ha := List.mem_of_find?_eq_some hg
        have hap := List.find?_some hg
        simp only [beq_iff_eq] at hap
        obtain ⟨c1, c2⟩ := hc l hl
        obtain ⟨c3, c4⟩ := c2 a ha hap
        unfold lmdPart
        simp only
        have : log (mu + (a.v : Rat) * l.weight.2) ≤ log (mu + ((r.q - p + 1 : Int) : Rat)) := by
          by_cases g : (a.v : Rat) * l.weight.2 < ((r.q - p + 1 : Int) : Rat)
          · exact Rat.le_of_lt (hlog _ _ (by grind) (by grind))
          · have : (a.v : Rat) * l.weight.2 = ((r.q - p + 1 : Int) : Rat) := by grind
            rw [this]; exact Rat.le_refl
        have h3 : log (mu + (a.v : Rat) * l.weight.2) - log (mu + ((r.q - p + 1 : Int) : Rat)) ≤ 0 := by grind
        have := Rat.mul_le_mul_of_nonneg_left (c := l.weight.1) h3 c1
        grind
    have h3 := tot_le_map this
    have h4 : tot ((lanesAt lanes p).map fun _ => (0 : Rat)) = 0 := tot_zero fun x hx => by
      obtain ⟨_, _, h⟩ := List.mem_map.1 hx
      exact h.symm
    grind
  have h2 := gt_true.1 h2
  rw [e] at h2
  have : (ratScores.zero : Rat) = 0 := rfl
  rw [this] at h2
  grind

/-- frequencies annotated at the first word of a passage only, as two of the three programs that annotate them do: every passage has length one, and none ends
where it ends -/
theorem C62_point_annotations {σ τ : Type} (sc : Scores σ) (part : τ → Int → Int → σ) {lanes : List (Lane τ)}
    (h : ∀ l ∈ lanes, ∀ a ∈ l.docs, a.q = a.p) (p : Int) :
    passageAt sc part lanes p = passageAt sc (fun w v _ => part w v 1) lanes p ∧
      ∀ r, passageAt sc part lanes p = some r → r.q = p := by
  have hx : ∀ y ∈ lanesAt lanes p, y.2.q = p := by
    intro y hy
    unfold lanesAt at hy
    obtain ⟨l, hl, hf⟩ := List.mem_filterMap.1 hy
    rcases hg : l.docs.find? (fun a => a.p == p) with _ | a
    · rw [hg] at hf; cases hf
    · rw [hg] at hf
      simp only [Option.map_some, Option.some.injEq] at hf
      subst hf
      have hap := List.find?_some hg
      simp only [beq_iff_eq] at hap
      have := h l hl a (List.mem_of_find?_eq_some hg)
      simp only
      omega
  unfold passageAt
  split
  · exact ⟨rfl, fun r h => by cases h⟩
  · rename_i x xs e
    have : x.2.q = p := hx x (by rw [e]; exact List.mem_cons_self ..)
    refine ⟨?_, fun r h => by cases h; exact this⟩
    simp only [this, show p - p + 1 = (1 : Int) by omega]

/-! ### terms that are not counted -/

/-- numbers with infinity (`none`) -/
def infScores : Scores (Option Rat) where
  zero := some 0
  add := fun a b => match a, b with
    | some a, some b => some (a + b)
    | _, _ => none
  gt := fun a b => match a, b with
    | some a, some b => decide (a > b)
    | none, some _ => true
    | _, none => false
  weight := fun _ _ => some 0

theorem infScores_ordered : infScores.Ordered := by
  constructor
  · rintro (_ | a) (_ | b) h <;> simp only [infScores, decide_eq_true_eq, decide_eq_false_iff_not] at * <;> first | rfl | (cases h; done) | grind
  · rintro (_ | a) (_ | b) (_ | c) h <;> simp only [infScores, decide_eq_true_eq] at * <;> first | (left; rfl) | (right; rfl) | (cases h; done) | grind

/-- `tokens / 0` is infinite (`src/ranking.cc:1244`), and so are the logarithm and the sum -/
def infPart (log : Rat → Rat) (mu : Rat) (w : Rat × Option Rat) (tf len : Int) : Option Rat :=
  w.2.map fun x => lmdPart log mu (w.1, x) tf len

/-- **C62**, violated: a term for which frequencies are annotated but that is not itself in the index (as when frequencies are those of
stems) makes the score of every passage infinite that has it: nothing else counts among these. -/
theorem C62_uncounted {log : Rat → Rat} {mu : Rat} {lanes : List (Lane (Rat × Option Rat))} {l : Lane (Rat × Option Rat)} (hl : l ∈ lanes)
    (hw : l.weight.2 = none) {a : Ann} (ha : a ∈ l.docs) :
    ∃ r, passageAt infScores (infPart log mu) lanes a.p = some r ∧ r.score = none := by
  have hf : ∃ b, (l.docs.find? fun x => x.p == a.p) = some b := by
    cases h : l.docs.find? fun x => x.p == a.p with
    | none => exact absurd (by simp) (List.find?_eq_none.1 h a ha)
    | some b => exact ⟨b, rfl⟩
  obtain ⟨b, hb⟩ := hf
  have hmem : (l.weight, b) ∈ lanesAt lanes a.p := by
    unfold lanesAt
    exact List.mem_filterMap.2 ⟨l, hl, by rw [hb]; rfl⟩
  have stuck : ∀ (len : Int) (ys : List ((Rat × Option Rat) × Ann)),
      ys.foldl (fun s y => infScores.add s (infPart log mu y.1 y.2.v len)) none = none := by
    intro len ys
    induction ys with
    | nil => rfl
    | cons y ys ih => exact ih
  have key : ∀ (len : Int) (ys : List ((Rat × Option Rat) × Ann)), (l.weight, b) ∈ ys → ∀ s,
      ys.foldl (fun s y => infScores.add s (infPart log mu y.1 y.2.v len)) s = none := by
    intro len ys
    induction ys with
    | nil => intro h; cases h
    | cons y ys ih =>
      intro h s
      rw [List.foldl_cons]
      rcases List.mem_cons.1 h with rfl | h
      · have : infScores.add s (infPart log mu l.weight b.v len) = none := by
          simp only [infPart, hw, Option.map_none]
          cases s <;> rfl
        rw [this]
        exact stuck len ys
      · exact ih h _
  unfold passageAt
  cases e : lanesAt lanes a.p with
  | nil => rw [e] at hmem; cases hmem
  | cons x xs =>
    refine ⟨_, rfl, ?_⟩
    simp only
    exact key _ _ (e ▸ hmem) _

/-! ### the hypotheses are met -/

/-- two terms, and where a passage ends -/
def someLanes : List (Lane Rat) :=
  [⟨2, [⟨0, 9, 3⟩, ⟨20, 29, 1⟩]⟩, ⟨1, [⟨0, 5, 4⟩, ⟨10, 15, 5⟩, ⟨20, 29, -7⟩]⟩]

/-- the query for them -/
def someAsked : List (Rat × Obj) := someLanes.map fun l => (l.weight, listObj l.docs)

theorem someAsked_supplies : Both Supplies someAsked someLanes := by
  have h1 : Listing [⟨0, 9, 3⟩, (⟨20, 29, 1⟩ : Ann)] := ⟨by simp, by simp⟩
  have h2 : Listing [⟨0, 5, 4⟩, ⟨10, 15, 5⟩, (⟨20, 29, -7⟩ : Ann)] := ⟨by simp, by simp⟩
  exact .cons ⟨rfl, h1, _, list_impl h1⟩ (.cons ⟨rfl, h2, _, list_impl h2⟩ .nil)

/-- the passage at 0 ends where its first term says and has 2 * 3 + 1 * 4; that at 20 has less than nothing -/
example : passageAt ratScores productPart someLanes 0 = some ⟨0, 9, 0, 9, 10⟩ ∧
    passageAt ratScores productPart someLanes 20 = some ⟨20, 29, 20, 29, -5⟩ ∧ passageAt ratScores productPart someLanes 5 = none := by
  refine ⟨?_, ?_, ?_⟩ <;> decide +kernel

/-- in the other order of the terms it ends elsewhere -/
example : passageAt ratScores productPart someLanes.reverse 0 = some ⟨0, 5, 0, 5, 10⟩ := by decide +kernel

/-- the program on this query -/
example : ∃ R, productRanking ratScores productPart (byScore ratScores) ['s', 'p', 'l', 'a', 'd', 'e'] [(['d', 'e', 'p', 't', 'h'], 1)] someAsked =
    some R ∧ R = [⟨0, 9, 0, 9, 10⟩] := by
  obtain ⟨all, R, e, hall, ht⟩ := C62_product_partial ratScores_lawful.toOrdered (byScore_sorts ratScores_lawful.toOrdered) productPart someAsked_supplies
    (tag := ['s', 'p', 'l', 'a', 'd', 'e']) (m := [(['d', 'e', 'p', 't', 'h'], 1)]) (x := 1) (by decide +kernel) (by decide +kernel) (by decide +kernel)
  refine ⟨R, e, ?_⟩
  have hall' : Passages ratScores productPart someLanes [⟨0, 9, 0, 9, 10⟩, ⟨10, 15, 10, 15, 5⟩] := by
    refine ⟨by simp, fun r => ?_⟩
    constructor
    · intro h
      simp only [List.mem_cons, List.not_mem_nil, or_false] at h
      rcases h with rfl | rfl <;> exact ⟨by decide +kernel, by decide +kernel⟩
    · rintro ⟨h1, h2⟩
      by_cases a0 : r.p = 0
      · rw [a0, show passageAt ratScores productPart someLanes 0 = some ⟨0, 9, 0, 9, 10⟩ by decide +kernel] at h1
        cases h1; simp
      by_cases a1 : r.p = 10
      · rw [a1, show passageAt ratScores productPart someLanes 10 = some ⟨10, 15, 10, 15, 5⟩ by decide +kernel] at h1
        cases h1; simp
      by_cases a2 : r.p = 20
      · rw [a2, show passageAt ratScores productPart someLanes 20 = some ⟨20, 29, 20, 29, -5⟩ by decide +kernel] at h1
        cases h1
        exact absurd h2 (by decide +kernel)
      · have : lanesAt someLanes r.p = [] := by
          refine lanesAt_nil fun l hl a ha e => ?_
          simp only [someLanes, List.mem_cons, List.not_mem_nil, or_false] at hl
          rcases hl with rfl | rfl <;> simp only [List.mem_cons, List.not_mem_nil, or_false] at ha
          · rcases ha with rfl | rfl <;> simp_all
          · rcases ha with rfl | rfl | rfl <;> simp_all
        unfold passageAt at h1
        rw [this] at h1
        cases h1
  cases passages_unique hall hall'
  have e1 : (1 : Rat).floor.toNat = 1 := by decide +kernel
  rw [e1] at ht
  obtain ⟨o, p, hb⟩ := ht.best
  match R, ht.size with
  | [r], _ =>
    have hr : r ∈ [(⟨0, 9, 0, 9, 10⟩ : Result Rat), ⟨10, 15, 10, 15, 5⟩] := p.mem_iff.1 (by simp)
    simp only [List.mem_cons, List.not_mem_nil, or_false] at hr
    rcases hr with rfl | rfl
    · rfl
    · have : (⟨0, 9, 0, 9, 10⟩ : Result Rat) ∈ o := by
        have := p.mem_iff.2 (show (⟨0, 9, 0, 9, 10⟩ : Result Rat) ∈ [(⟨0, 9, 0, 9, 10⟩ : Result Rat), ⟨10, 15, 10, 15, 5⟩] by simp)
        simpa using this
      have := hb _ this _ (List.mem_singleton.2 rfl)
      exact absurd this (by decide +kernel)

/-- "splade" is no name of a ranker -/
example : productRanking ratScores productPart (byScore ratScores) ['s', 'p', 'l', 'a', 'd', 'e'] [] someAsked = none :=
  C62_depth_undefined _ _ _ (by decide +kernel) rfl rfl _

/-- a common term, with a logarithm that is the identity: the passage is there, and is not returned -/
example : ∃ R, lmdRanking ratScores (lmdPart fun x => x) (byScore ratScores) [] [((1, 2), listObj [⟨0, 9, 1⟩])] = some R ∧ ∀ s ∈ R, s.p ≠ 0 := by
  have hl : Listing [(⟨0, 9, 1⟩ : Ann)] := ⟨by simp, by simp⟩
  have hq : Both Supplies [(((1 : Rat), (2 : Rat)), listObj [⟨0, 9, 1⟩])] [(⟨(1, 2), [⟨0, 9, 1⟩]⟩ : Lane (Rat × Rat))] :=
    .cons ⟨rfl, hl, _, list_impl hl⟩ .nil
  obtain ⟨_, R, e, _, _⟩ := C62_lmd_partial ratScores_lawful.toOrdered (byScore_sorts ratScores_lawful.toOrdered) (lmdPart fun x => x) hq (m := [])
    (mu := 2000) (x := 1000) (by decide +kernel) (by decide +kernel) (by decide +kernel) (by decide +kernel)
  refine ⟨R, e, C62_common_dropped (log := fun x => x) (fun x y _ h => h) (mu := 2000) (by decide +kernel) (byScore_sorts ratScores_lawful.toOrdered) hq
    (m := []) (by decide +kernel) e (p := 0) (r := ⟨0, 9, 0, 9, -8⟩) (by decide +kernel) ?_⟩
  intro l hl
  rw [List.mem_singleton.1 hl]
  refine ⟨by decide +kernel, fun a ha _ => ?_⟩
  rw [List.mem_singleton.1 ha]
  exact ⟨by decide +kernel, by decide +kernel⟩

/-- a passage with the whole query -/
example : ∃ r, passageAt ratScores (lmdPart (fun x => x) 2000) [⟨(1, 100), [⟨0, 9, 3⟩]⟩, ⟨(2, 5), [⟨0, 9, 1⟩, ⟨20, 29, 1⟩]⟩] 0 = some r ∧
    r.score = likelihood (fun x => x) 2000 [⟨(1, 100), [⟨0, 9, 3⟩]⟩, ⟨(2, 5), [⟨0, 9, 1⟩, ⟨20, 29, 1⟩]⟩] 0 10 := by
  refine ⟨_, rfl, ?_⟩
  refine (C62_likelihood_partial (log := fun x => x) (fun x y _ h => h) (mu := 2000) (by decide +kernel) ?_ (p := 0) rfl (by simp)).2 ?_
  · intro l hl
    simp only [List.mem_cons, List.not_mem_nil, or_false] at hl
    rcases hl with rfl | rfl <;> decide +kernel
  · intro l hl
    simp only [List.mem_cons, List.not_mem_nil, or_false] at hl
    rcases hl with rfl | rfl
    · exact ⟨⟨0, 9, 3⟩, by simp, rfl⟩
    · exact ⟨⟨0, 9, 1⟩, by simp, rfl⟩

/-- numbers drawn for three passages, of which the first is none -/
example : lottery ratScores (fun i => if i = 0 then none else some (i : Rat)) [⟨0, 9, 0⟩, ⟨10, 19, 0⟩, ⟨20, 29, 0⟩] =
    [⟨10, 19, 10, 19, 1⟩, ⟨20, 29, 20, 29, 2⟩] := by decide +kernel

/-- three words -/
example : weighted (fun a b : Nat => decide (a < b)) [5, 3, 5] = [(3, 1), (5, 2)] := by decide +kernel

end Verif.Props
