import Verif.Props.Ranking
import Verif.Rank.Combine
import Verif.Rank.Tiers
/-
  Properties of combined rankings (C58): fusion and tiers.
-/
namespace Verif.Props
open Verif.Hopper Verif.Gcl Verif.Rank

/-! ### fusion -/

/-- **C58** Fusing rankings: every beginning of a passage that occurs in some ranking is there exactly
once; its passage and container are those of its first occurrence, and its score is the sum of the
shares of all the ranks at which it occurs; the best come first. -/
theorem C58_fusion_partial {σ : Type} (sc : Scores σ) {sort : List (Result σ) → List (Result σ)} (hsort : SortsBy sc sort)
    (share : Nat → σ) (rankings : List (List (Result σ))) :
    let R := rrfFusion sc sort share rankings
    (R.map (·.p)).Nodup ∧
    (∀ p, p ∈ R.map (·.p) ↔ ∃ Q ∈ rankings, ∃ x ∈ Q, x.p = p) ∧
    (∀ r ∈ R, ∃ x, rankings.flatten.find? (fun x => x.p == r.p) = some x ∧
      r.q = x.q ∧ r.cp = x.cp ∧ r.cq = x.cq ∧ sumShares sc share (rankings.flatMap (ranksOf r.p 0)) = some r.score) ∧
    R.Pairwise fun a b => sc.gt b.score a.score = false := by
  intro R
  have e : R = _ := rrf_eq (sort := sort) share rankings
  obtain ⟨s1, s2⟩ := hsort ((firsts (·.p) [] rankings.flatten).map (scored sc (allShares sc share rankings fun _ => none)))
  rw [← e] at s1 s2
  clear_value R
  have keys : (R.map (·.p)).Perm ((firsts (·.p) [] rankings.flatten).map (·.p)) := by
    refine (s1.map _).trans ?_
    rw [List.map_map]
    exact .refl _
  refine ⟨keys.nodup_iff.2 firsts_nodup, fun p => ?_, fun r hr => ?_, s2⟩
  · rw [keys.mem_iff]
    constructor
    · intro h
      obtain ⟨x, hx, rfl⟩ := List.mem_map.1 h
      obtain ⟨Q, h1, h2⟩ := List.mem_flatten.1 (firsts_mem hx).1
      exact ⟨Q, h1, x, h2, rfl⟩
    · rintro ⟨Q, h1, x, h2, rfl⟩
      obtain ⟨r, h3, h4⟩ := firsts_key (key := fun x : Result σ => x.p) (s := []) (List.mem_flatten.2 ⟨Q, h1, h2⟩) (by simp)
      exact List.mem_map.2 ⟨r, h3, h4⟩
  · obtain ⟨x, hx, rfl⟩ := List.mem_map.1 (s1.mem_iff.1 hr)
    refine ⟨x, firsts_find hx, rfl, rfl, rfl, ?_⟩
    obtain ⟨Q, h1, h2⟩ := List.mem_flatten.1 (firsts_mem hx).1
    show sumShares sc share (rankings.flatMap (ranksOf x.p 0)) = some ((allShares sc share rankings (fun _ => none) x.p).getD sc.zero)
    rw [allShares_eq]
    show _ = some ((sumShares sc share _).getD sc.zero)
    have hne : rankings.flatMap (ranksOf x.p 0) ≠ [] := by
      obtain ⟨i, hi⟩ := List.exists_mem_of_ne_nil _ (ranksOf_ne (i := 0) h2 rfl)
      exact List.ne_nil_of_mem (List.mem_flatMap.2 ⟨Q, h1, hi⟩)
    cases hl : rankings.flatMap (ranksOf x.p 0) with
    | nil => exact absurd hl hne
    | cons i l => rfl

/-- exact reciprocal ranks: `1 / (60 + i + 1)` (`src/ranking.cc` 66, 72) -/
def reciprocal (i : Nat) : Rat := 1 / (60 + i + 1)

theorem sumShares_tot (l : List Nat) (hl : l ≠ []) : sumShares (exactScores 16) reciprocal l = some (l.map reciprocal).sum := by
  have fold : ∀ (l : List Nat) (s : Rat), l.foldl (fun s j => s + reciprocal j) s = s + (l.map reciprocal).sum := by
    intro l
    induction l with
    | nil => intro s; simp only [List.foldl_nil, List.map_nil, List.sum_nil]; grind
    | cons i l ih => intro s; simp only [List.foldl_cons, List.map_cons, List.sum_cons, ih]; grind
  cases l with
  | nil => exact absurd rfl hl
  | cons i l =>
    simp only [sumShares, exactScores, List.map_cons, List.sum_cons, fold]

/-- **C58** With exact arithmetic it does not matter in which order the rankings are given: each
beginning of a passage gets the same score. -/
theorem C58_fusion_order {sort : List (Result Rat) → List (Result Rat)} (hsort : SortsBy (exactScores 16) sort)
    {rankings rankings' : List (List (Result Rat))} (hp : rankings.Perm rankings') (r r' : Result Rat)
    (h : r ∈ rrfFusion (exactScores 16) sort reciprocal rankings) (h' : r' ∈ rrfFusion (exactScores 16) sort reciprocal rankings')
    (he : r.p = r'.p) : r.score = r'.score := by
  obtain ⟨-, -, a, -⟩ := C58_fusion_partial (exactScores 16) hsort reciprocal rankings
  obtain ⟨-, -, b, -⟩ := C58_fusion_partial (exactScores 16) hsort reciprocal rankings'
  obtain ⟨x, -, -, -, -, hx⟩ := a r h
  obtain ⟨y, -, -, -, -, hy⟩ := b r' h'
  rw [he] at hx
  have perm : (rankings.flatMap (ranksOf r'.p 0)).Perm (rankings'.flatMap (ranksOf r'.p 0)) := hp.flatMap_right _
  have ne : ∀ {l : List Nat} {s : Rat}, sumShares (exactScores 16) reciprocal l = some s → l ≠ [] := by
    rintro _ s h rfl; cases h
  rw [sumShares_tot _ (ne hx)] at hx
  rw [sumShares_tot _ (ne hy)] at hy
  have sums : ∀ {l m : List Rat}, l.Perm m → l.sum = m.sum := by
    intro l m h
    induction h with
    | nil => rfl
    | cons a _ ih => simp only [List.sum_cons, ih]
    | swap a b l => simp only [List.sum_cons]; grind
    | trans _ _ ih1 ih2 => exact ih1.trans ih2
  rw [sums (perm.map reciprocal)] at hx
  exact Option.some.inj (hx.symm.trans hy)

/-- What is fused is told apart by where it begins only: the passage `[5, 20]` takes the place of
`[5, 6]`, which is in another ranking, with the score of both. -/
theorem C58_fusion_conflates :
    rrfFusion (exactScores 16) (byScore (exactScores 16)) reciprocal
      [[⟨5, 20, 1, 30, 0⟩, ⟨40, 41, 40, 50, 0⟩], [⟨40, 41, 40, 50, 0⟩, ⟨5, 6, 5, 9, 0⟩]] =
      [⟨5, 20, 1, 30, 1/61 + 1/62⟩, ⟨40, 41, 40, 50, 1/61 + 1/62⟩] := by decide +kernel

/-! ### tiers -/

theorem full_ranking {σ : Type} {sc : Scores σ} {sort : List (Result σ) → List (Result σ)} (hsort : SortsBy sc sort) {depth : Nat}
    {all R : List (Result σ)} (h : Top sc depth all R) :
    ∃ S : List (Result σ), S.Perm all ∧ S.Pairwise (fun a b => sc.gt b.score a.score = false) ∧ S.take depth = R := by
  obtain ⟨hl, hs, others, hp, hb⟩ := h
  obtain ⟨s1, s2⟩ := hsort others
  refine ⟨R ++ sort others, (s1.append_left R).trans hp, ?_, ?_⟩
  · rw [List.pairwise_append]
    exact ⟨hs, s2, fun a ha b hb' => hb b (s1.mem_iff.1 hb') a ha⟩
  · have := hp.length_eq
    rw [List.length_append] at this
    by_cases hd : R.length = depth
    · rw [← hd, List.take_left]
    · have h0 : others.length = 0 := by omega
      have h1 : sort others = [] := List.eq_nil_of_length_eq_zero (by rw [s1.length_eq, h0])
      rw [h1, List.append_nil, List.take_of_length_le (by omega)]

theorem results_containers {σ : Type} {sc : Scores σ} {L cs : List Ann} {all : List (Result σ)} (h : Results sc L cs all) :
    all.map (·.cp) = cs.map (·.p) := by
  induction h with
  | nil => rfl
  | cons h _ ih => rw [List.map_cons, List.map_cons, ih, h.1]

/-- the complete ranking of the containers for a query: all the containers with a solution in them, best first -/
def Complete {σ : Type} (sc : Scores σ) (ix : Index) (C : List Ann) (e : SExpr) (S : List (Result σ)) : Prop :=
  ∃ L all, Lists L (den ix.solutions e) ∧ Results sc L (matching L C minfinity maxfinity) all ∧ S.Perm all ∧
    S.Pairwise fun a b => sc.gt b.score a.score = false

theorem complete_apart {σ : Type} {sc : Scores σ} {ix : Index} {C : List Ann} (hC : Listing C) {e : SExpr} {S : List (Result σ)}
    (h : Complete sc ix C e S) : (S.map (·.cp)).Nodup := by
  obtain ⟨L, all, -, h2, h3, -⟩ := h
  refine (h3.map _).nodup_iff.2 ?_
  rw [results_containers h2]
  unfold List.Nodup
  rw [List.pairwise_map]
  exact (hC.sorted.imp (fun {a b} h => Int.ne_of_lt h.1)).sublist List.filter_sublist

/-- **C58** `tiered_ranking` with given tiers: the complete rankings of the tiers one after the other, of
each container only the first, and of that the first `depth`; the scores count down from `depth`.  That
the ranking of each tier is cut at `depth` loses nothing. -/
theorem C58_tiered_partial {σ : Type} {sc : Scores σ} (hs : sc.Lawful) {sort : List (Result σ) → List (Result σ)}
    (hsort : SortsBy sc sort) (fake : Nat → σ) (ix : Index) (count : Option (List Char → Int)) {tiers : List SExpr} (ht : ∀ e ∈ tiers, Legal e)
    {c : SExpr} (hc : Legal c) {C : List Ann} (hC : Lists C (den ix.solutions c)) (apart : C.Pairwise fun c d => c.q < d.p) (depth : Nat) :
    ∃ S : SExpr → List (Result σ), (∀ e ∈ tiers, Complete sc ix C e (S e)) ∧
      tieredRanking sc sort fake (tiers.map (compile ix count)) (compile ix count c) depth =
        some (rescored (fun n => fake (depth - n)) 0 ((firsts (·.cp) [] (tiers.map S).flatten).take depth)) := by
  have each : ∀ e, ∃ S, e ∈ tiers → Complete sc ix C e S ∧
      ssrRanking sc sort depth (compile ix count e) (compile ix count c) minfinity maxfinity = some (S.take depth) := by
    intro e
    by_cases he : e ∈ tiers
    · obtain ⟨L, hL⟩ := lists_exists ix e (ht e he)
      obtain ⟨all, R, h1, h2, h3⟩ := C44_ssr_partial hs hsort ix count (ht e he) hc hL hC apart depth (start := minfinity) (stop := maxfinity)
        ⟨by omega, by omega⟩ ⟨by omega, by omega⟩
      obtain ⟨S, h4, h5, h6⟩ := full_ranking hsort h3
      exact ⟨S, fun _ => ⟨⟨L, all, hL, h2, h4, h5⟩, by rw [h6]; exact h1⟩⟩
    · exact ⟨[], fun h => absurd h he⟩
  obtain ⟨S, hS⟩ := Classical.axiomOfChoice each
  refine ⟨S, fun e he => (hS e he).1, ?_⟩
  unfold tieredRanking
  by_cases h0 : tiers = []
  · subst h0
    simp [firsts, rescored]
  · rw [if_neg (by simpa using h0)]
    have e : (tiers.map (compile ix count)).map (fun H => ssrRanking sc sort depth H (compile ix count c) minfinity maxfinity) =
        (tiers.map S).map fun S => some (S.take depth) := by
      rw [List.map_map, List.map_map]
      exact List.map_congr_left fun e he => (hS e he).2
    rw [e, tiersLoop_eq fake depth (tiers.map S) [] [] (fun T hT => by
      obtain ⟨e, he, rfl⟩ := List.mem_map.1 hT
      exact complete_apart hC.1 (hS e he).1) (Nat.zero_le _) rfl]
    simp

/-- Two tiers: the first finds the second container, the second tier both. -/
example : tieredRanking (exactScores 16) (byScore (exactScores 16)) (fun n => (n : Rat))
    [some (listObj [⟨11, 12, 0⟩]), some (listObj [⟨2, 3, 0⟩, ⟨3, 7, 0⟩, ⟨11, 12, 0⟩, ⟨21, 21, 0⟩])]
    (some (listObj rankedContainers)) 2 = some [⟨11, 12, 10, 19, 2⟩, ⟨2, 3, 1, 9, 1⟩] := by decide +kernel

/-! ### the tiers of a query -/

/-- the groups: all others are near the first, the first of the next group is not -/
def Stepped {α : Type} (near : α → α → Bool) : List (List α) → Prop
  | [] => True
  | [] :: _ => False
  | (x :: g) :: gs => (∀ y ∈ g, near x y = true) ∧ (∀ y ∈ gs.flatten.head?, near x y = false) ∧ Stepped near gs

theorem perm_map_back {α β : Type} (f : α → β) : ∀ {l : List β} {c : List α}, l.Perm (c.map f) → ∃ c' : List α, c'.Perm c ∧ l = c'.map f
  | [], c, h => by
    have := h.symm.eq_nil
    have : c = [] := by simpa using this
    subst this
    exact ⟨[], .refl _, rfl⟩
  | x :: l, c, h => by
    obtain ⟨a, ha, rfl⟩ := List.mem_map.1 (h.mem_iff.1 (List.mem_cons_self ..))
    obtain ⟨c1, c2, rfl⟩ := List.append_of_mem ha
    have h2 : l.Perm ((c1 ++ c2).map f) := by
      refine List.Perm.cons_inv (h.trans ?_)
      rw [List.map_append, List.map_append, List.map_cons]
      exact List.perm_middle
    obtain ⟨c', h3, h4⟩ := perm_map_back f h2
    exact ⟨a :: c', (h3.cons a).trans List.perm_middle.symm, by rw [h4]; rfl⟩

theorem flatten_map_back {α β : Type} (f : α → β) : ∀ {gs : List (List β)} {c : List α}, gs.flatten = c.map f →
    ∃ cs : List (List α), cs.flatten = c ∧ gs = cs.map (·.map f)
  | [], c, h => by
    have : c = [] := by simpa using h.symm
    exact ⟨[], by simp [this], rfl⟩
  | g :: gs, c, h => by
    rw [List.flatten_cons] at h
    obtain ⟨c1, c2, rfl, h1, h2⟩ := List.map_eq_append_iff.1 h.symm
    obtain ⟨cs, h3, h4⟩ := flatten_map_back f h2.symm
    exact ⟨c1 :: cs, by rw [List.flatten_cons, h3], by rw [List.map_cons, h1, h4]⟩

theorem stepped_of_grouped {σ α : Type} {close : σ → σ → Bool} {f : α → List Char × σ} {l : List (List Char × σ)}
    {gs : List (List (List Char × σ))} (h : Grouped close l gs) : ∀ {cs : List (List α)}, gs = cs.map (·.map f) →
    Stepped (fun a b => close (f a).2 (f b).2) cs := by
  induction h with
  | nil =>
    intro cs e
    cases cs with
    | nil => trivial
    | cons _ _ => cases e
  | @cons x g rest gs h1 h2 h3 ih =>
    intro cs e
    cases cs with
    | nil => cases e
    | cons c cs =>
      rw [List.map_cons] at e
      obtain ⟨e1, e2⟩ := List.cons.inj e
      cases c with
      | nil => cases e1
      | cons a c =>
        rw [List.map_cons] at e1
        obtain ⟨e3, e4⟩ := List.cons.inj e1
        subst e3 e4
        refine ⟨fun y hy => h1 _ (List.mem_map_of_mem hy), fun y hy => h2 (f y) ?_, ih e2⟩
        have hf := h3.flatten
        rw [e2] at hf
        rw [← hf]
        have : (cs.map (·.map f)).flatten = cs.flatten.map f := by
          rw [List.map_flatten]
        rw [this, List.head?_map]
        rw [Option.mem_def] at hy ⊢
        rw [hy]
        rfl

/-- the terms that are used, and the tiers, each of which is some choices of terms -/
structure TiersOf {σ : Type} (sc : Scores σ) (close : σ → σ → Bool) (weight : List Char → σ) (raw terms : List (List Char))
    (tiers : List (List (List (List Char)))) : Prop where
  /-- each term is used once -/
  once : terms.Nodup
  /-- the terms are of the query -/
  from_query : ∀ t ∈ terms, t ∈ raw
  /-- at most 16 -/
  few : terms.length ≤ 16
  /-- a term is left out only if there are 16 that are no lighter -/
  heaviest : ∀ u ∈ raw, u ∉ terms → terms.length = 16 ∧ ∀ t ∈ terms, sc.gt (weight u) (weight t) = false
  /-- no choice is made twice -/
  distinct : tiers.flatten.Nodup
  /-- all choices are made -/
  all : ∀ s, s ∈ tiers.flatten ↔ s.Sublist terms ∧ s ≠ []
  /-- heavier choices come first -/
  sorted : tiers.flatten.Pairwise fun a b => sc.gt (weightOf sc weight b) (weightOf sc weight a) = false
  /-- a tier ends where the weight falls -/
  stepped : Stepped (fun a b => close (weightOf sc weight a) (weightOf sc weight b)) tiers

/-- **C58** The tiers that are made of a query.  Of its different terms the 16 with the greatest
weights are used.  Every choice of one or more of them is in exactly one tier, once; the greater the sum
of the weights the earlier; a tier holds what is close to its first choice.  The text of a tier is read
by the query parser as what was meant: one of the choices, and of a choice all of the terms. -/
theorem C58_tiers_partial {σ : Type} (sc : Scores σ) (close : σ → σ → Bool) (weight : List Char → σ)
    {sortT : List (List Char) → List (List Char)} {sortS : List (List Char × σ) → List (List Char × σ)}
    (hT : ∀ l, (sortT l).Perm l ∧ (sortT l).Pairwise fun a b => sc.gt (weight b) (weight a) = false)
    (hS : ∀ l, (sortS l).Perm l ∧ (sortS l).Pairwise fun a b => sc.gt b.2 a.2 = false)
    (raw : List (List Char)) (hw : ∀ t ∈ raw, Word t) :
    ∃ terms tiers, TiersOf sc close weight raw terms tiers ∧
      buildTiers sc close weight sortT sortS raw = tiers.map (fun t => tierText (t.map subqueryText)) ∧
      ∀ t ∈ tiers, ∃ rest, fromString (tierText (t.map subqueryText)) = .good rest (tierTree t) := by
  by_cases h0 : raw = []
  · subst h0
    refine ⟨[], [], ⟨List.nodup_nil, by simp, by simp, by simp, List.nodup_nil, ?_, .nil, trivial⟩, rfl, by simp⟩
    intro s
    constructor
    · intro h; cases h
    · rintro ⟨h1, h2⟩
      exact absurd (List.sublist_nil.1 h1) h2
  · obtain ⟨t1, t2⟩ := hT (distinctTerms [] raw)
    generalize hsorted : sortT (distinctTerms [] raw) = sorted at t1 t2
    have nd : sorted.Nodup := t1.nodup_iff.2 distinct_nodup
    have ndt : (sorted.take 16).Nodup := nd.sublist (List.take_sublist ..)
    have inRaw : ∀ t ∈ sorted, t ∈ raw := fun t ht => (distinct_mem.1 (t1.mem_iff.1 ht)).1
    obtain ⟨s1, s2⟩ := hS ((choices (sorted.take 16)).map fun c => (subqueryText c, weightOf sc weight c))
    obtain ⟨gs, g1, g2⟩ := tierGroups_start close sc.zero
      (sortS ((choices (sorted.take 16)).map fun c => (subqueryText c, weightOf sc weight c)))
    obtain ⟨c', c1, c2⟩ := perm_map_back _ s1
    obtain ⟨cs, d1, d2⟩ := flatten_map_back _ (g1.flatten.trans c2)
    have mem : ∀ s, s ∈ cs.flatten ↔ s.Sublist (sorted.take 16) ∧ s ≠ [] := fun s => by
      rw [d1, c1.mem_iff, choices_mem ndt]
    have l16 : (sorted.take 16).length ≤ 16 := List.length_take_le ..
    refine ⟨sorted.take 16, cs, ⟨ndt, fun t ht => inRaw t (List.mem_of_mem_take ht), l16, fun u hu hn => ?_,
      by rw [d1]; exact c1.nodup_iff.2 (choices_nodup ndt), mem, ?_, stepped_of_grouped g1 d2⟩, ?_, fun t ht => ?_⟩
    · have hm : u ∈ sorted := t1.mem_iff.2 (distinct_mem.2 ⟨hu, by simp⟩)
      rw [← List.take_append_drop 16 sorted, List.mem_append] at hm
      have hd := hm.resolve_left hn
      refine ⟨?_, fun t ht => ?_⟩
      · have : (sorted.drop 16).length ≠ 0 := by
          intro h0; rw [List.eq_nil_of_length_eq_zero h0] at hd; cases hd
        rw [List.length_drop] at this
        rw [List.length_take]; omega
      · rw [← List.take_append_drop 16 sorted, List.pairwise_append] at t2
        exact t2.2.2 t ht u hd
    · rw [c2, List.pairwise_map] at s2
      rw [d1]
      exact s2
    · unfold buildTiers
      rw [if_neg h0]
      simp only [hsorted]
      unfold choices at g2
      rw [List.map_map] at g2
      have := g2
      simp only [Function.comp_def] at this
      rw [this, d2, List.map_map]
      apply List.map_congr_left
      intro g _
      simp only [Function.comp_def, List.map_map]
    · apply C09_reads
      have inT : ∀ s ∈ t, s.Sublist (sorted.take 16) ∧ s ≠ [] := fun s hs => (mem s).1 (List.mem_flatten.2 ⟨t, ht, hs⟩)
      have hne : t ≠ [] := by
        have : t.map (fun c => (subqueryText c, weightOf sc weight c)) ∈ gs := by rw [d2]; exact List.mem_map_of_mem ht
        have := g1.ne _ this
        intro hc
        rw [hc] at this
        exact this rfl
      refine writes_tier hne ?_ fun s hs => ?_
      · have h1 : t.length ≤ cs.flatten.length := by
          obtain ⟨a, b, rfl⟩ := List.append_of_mem ht
          simp only [List.flatten_append, List.flatten_cons, List.length_append]
          omega
        have h2 : cs.flatten.length = 2 ^ (sorted.take 16).length - 1 := by
          rw [d1, c1.length_eq]
          simp [choices]
        have h3 : 2 ^ (sorted.take 16).length ≤ 2 ^ 16 := Nat.pow_le_pow_right (by decide) l16
        have h4 : (2 : Nat) ^ 16 < 2 ^ 32 := by decide
        omega
      · obtain ⟨h1, h2⟩ := inT s hs
        refine ⟨h2, ?_, fun x hx => hw x (inRaw x (List.mem_of_mem_take (h1.subset hx)))⟩
        have := h1.length_le
        omega

theorem tierTree_plain {split : List Char → List (List Char)} {t : List (List (List Char))} (h : ∀ s ∈ t, ∀ x ∈ s, x.head? ≠ some '"') :
    expandPhrases split '"' (tierTree t) = tierTree t := by
  have one : ∀ x : List Char, x.head? ≠ some '"' → expandPhrases split '"' (termTree x) = termTree x := by
    intro x hx
    unfold termTree
    rw [expandPhrases, if_neg (by intro hc; exact hx hc.2.2.1)]
    rfl
  have sub : ∀ s ∈ t, expandPhrases split '"' (subqueryTree s) = subqueryTree s := by
    intro s hs
    unfold subqueryTree
    split
    · rename_i x
      have e := one x (h [x] hs x (by simp))
      rw [expandPhrases, if_neg (by simp), expandPhrasesL_eq]
      simp [e]
    · rw [expandPhrases, if_neg (by simp), expandPhrasesL_eq, List.map_map]
      congr 1
      exact List.map_congr_left fun x hx => one x (h s hs x hx)
  unfold tierTree
  split
  · rename_i s
    exact sub s (by simp)
  · rw [expandPhrases, if_neg (by simp), expandPhrasesL_eq, List.map_map]
    congr 1
    exact List.map_congr_left fun s hs => sub s hs

theorem tierTree_legal {t : List (List (List Char))} (hne : t ≠ []) (h : ∀ s ∈ t, s ≠ []) : Legal (tierTree t) := by
  have term : ∀ x, Legal (termTree x) := fun x => ⟨rfl, trivial⟩
  have sub : ∀ s ∈ t, Legal (subqueryTree s) := by
    intro s hs
    unfold subqueryTree
    split
    · rename_i x
      exact ⟨by simp [arityOk], term x, term x, trivial⟩
    · have := List.length_pos_iff.2 (h s hs)
      rw [Legal, legalL_iff]
      refine ⟨by simp only [arityOk, List.length_map]; omega, fun e he => ?_⟩
      obtain ⟨x, -, rfl⟩ := List.mem_map.1 he
      exact term x
  unfold tierTree
  split
  · rename_i s
    exact sub s (by simp)
  · have := List.length_pos_iff.2 hne
    rw [Legal, legalL_iff]
    refine ⟨by simp only [arityOk, List.length_map]; omega, fun e he => ?_⟩
    obtain ⟨s, hs, rfl⟩ := List.mem_map.1 he
    exact sub s hs

theorem stepped_ne {α : Type} {near : α → α → Bool} : ∀ {gs : List (List α)}, Stepped near gs → ∀ g ∈ gs, g ≠ []
  | [], _, _, h => absurd h List.not_mem_nil
  | [] :: _, h, _, _ => h.elim
  | (x :: g) :: gs, h, g', hg => by
    rcases List.mem_cons.1 hg with rfl | hg
    · simp
    · exact stepped_ne h.2.2 g' hg

/-- **C58** From the words of a query to its answers: the containers in the order of the first tier that
finds them and, within a tier, of their rank there. -/
theorem C58_search_partial {σ : Type} {sc : Scores σ} (hs : sc.Lawful) {sort : List (Result σ) → List (Result σ)}
    (hsort : SortsBy sc sort) (fake : Nat → σ) (close : σ → σ → Bool) (weight : List Char → σ)
    {sortT : List (List Char) → List (List Char)} {sortS : List (List Char × σ) → List (List Char × σ)}
    (hT : ∀ l, (sortT l).Perm l ∧ (sortT l).Pairwise fun a b => sc.gt (weight b) (weight a) = false)
    (hS : ∀ l, (sortS l).Perm l ∧ (sortS l).Pairwise fun a b => sc.gt b.2 a.2 = false)
    {raw : List (List Char)} (hw : ∀ t ∈ raw, Word t ∧ t.head? ≠ some '"')
    (ix : Index) (split : List Char → List (List Char)) (count : List Char → Int)
    {c : SExpr} (hc : Legal c) {C : List Ann} (hC : Lists C (den ix.solutions c)) (apart : C.Pairwise fun c d => c.q < d.p) (depth : Nat) :
    ∃ terms tiers, TiersOf sc close weight raw terms tiers ∧
      ∃ S : SExpr → List (Result σ), (∀ t ∈ tiers, Complete sc ix C (tierTree t) (S (tierTree t))) ∧
        tieredRanking sc sort fake ((buildTiers sc close weight sortT sortS raw).map (gclHopper ix split count)) (compile ix (some count) c) depth =
          some (rescored (fun n => fake (depth - n)) 0
            ((firsts (·.cp) [] (tiers.map fun t => S (tierTree t)).flatten).take depth)) := by
  obtain ⟨terms, tiers, h1, h2, h3⟩ := C58_tiers_partial sc close weight hT hS raw fun t ht => (hw t ht).1
  have parts : ∀ t ∈ tiers, ∀ s ∈ t, s.Sublist terms ∧ s ≠ [] := fun t ht s hs => (h1.all s).1 (List.mem_flatten.2 ⟨t, ht, hs⟩)
  obtain ⟨S, hS1, hS2⟩ := C58_tiered_partial hs hsort fake ix (some count) (tiers := tiers.map tierTree) (fun e he => by
    obtain ⟨t, ht, rfl⟩ := List.mem_map.1 he
    exact tierTree_legal (stepped_ne h1.stepped t ht) fun s hs => (parts t ht s hs).2) hc hC apart depth
  refine ⟨terms, tiers, h1, S, fun t ht => hS1 _ (List.mem_map_of_mem ht), ?_⟩
  rw [List.map_map, List.map_map] at hS2
  rw [h2, List.map_map]
  refine Eq.trans ?_ hS2
  congr 1
  apply List.map_congr_left
  intro t ht
  obtain ⟨rest, hr⟩ := h3 t ht
  show gclHopper ix split count (tierText (t.map subqueryText)) = compile ix (some count) (tierTree t)
  unfold gclHopper
  rw [hr]
  simp only
  rw [tierTree_plain fun s hs x hx => (hw x (h1.from_query x ((parts t ht s hs).1.subset hx))).2]

/-- Three words, one of them twice, all with weight one: two close weights differ by less than one. -/
example : buildTiers (exactScores 16) (fun a b => decide (a - b < 1)) (fun _ => (1 : Rat)) id
    (fun l => l.filter (fun x => x.2 = 2) ++ l.filter (fun x => x.2 = 1)) [['x'], ['y'], ['x']] =
    [['(', '^', ' ', 'x', ' ', 'y', ' ', ')'],
     ['(', '+', ' ', '(', '.', '.', '.', ' ', 'y', ' ', 'y', ')', ' ', '(', '.', '.', '.', ' ', 'x', ' ', 'x', ')', ')']] := by
  decide +kernel

/-- A query of one word: the only tier asks for the word twice, so a document in which it is once is
not found. -/
theorem C58_once_missed {σ : Type} (sc : Scores σ) (close : σ → σ → Bool) (weight : List Char → σ)
    {sortT : List (List Char) → List (List Char)} {sortS : List (List Char × σ) → List (List Char × σ)}
    (hT : ∀ l, (sortT l).Perm l) (hS : ∀ l, (sortS l).Perm l) (t : List Char) :
    buildTiers sc close weight sortT sortS [t] = [['(', '.', '.', '.', ' '] ++ t ++ [' '] ++ t ++ [')']] ∧
    (Word t → ∃ rest, fromString (['(', '.', '.', '.', ' '] ++ t ++ [' '] ++ t ++ [')']) =
      .good rest (.node .followedBy [] 0 [.node .term t 0 [], .node .term t 0 []])) ∧
    ∀ (T : List Char → GC) (l r : Int), (∀ x, T t x → x.p ≤ x.q) →
      (∀ x y, T t x → T t y → l ≤ x.p → x.q ≤ r → l ≤ y.p → y.q ≤ r → x.p = y.p) →
      ¬ ∃ a, den T (.node .followedBy [] 0 [.node .term t 0 [], .node .term t 0 []]) a ∧ l ≤ a.p ∧ a.q ≤ r := by
  refine ⟨?_, fun h => ?_, fun T l r hle hone => ?_⟩
  · unfold buildTiers
    rw [if_neg (by simp)]
    have e1 : distinctTerms [] [t] = [t] := rfl
    have e2 : sortT [t] = [t] := List.perm_singleton.1 (hT [t])
    simp only [e1, e2]
    have e3 : ((List.range (2 ^ ([t].take 16).length)).drop 1).reverse.map (fun m =>
        (subqueryText (chosen ([t].take 16) m), weightOf sc weight (chosen ([t].take 16) m))) =
        [(subqueryText [t], weightOf sc weight [t])] := rfl
    rw [e3, List.perm_singleton.1 (hS _)]
    rfl
  · exact C09_reads (writes_subquery (s := [t]) (by simp) (by simp) (by simpa using h))
  · rintro ⟨a, ha, hl, hr⟩
    simp only [den, denL, opMeaning, minimal, inOrder] at ha
    obtain ⟨-, ⟨x, p', hx, e1, e2, y, hy, e3, e4⟩, -⟩ := ha
    have h1 := hle x hx
    have h2 := hle y hy
    have := hone x y hx hy (by omega) (by omega) (by omega) (by omega)
    omega

end Verif.Props
