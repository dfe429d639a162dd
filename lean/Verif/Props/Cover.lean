import Verif.Props.Ranking
import Verif.Rank.Cover
/-
  The property of the ranking by covers (C59).
-/
namespace Verif.Props
open Verif.Hopper Verif.Rank

/-- **C59** For every query of words, every collection and every depth above zero, `icover_ranking` ends
and returns the best containers, each once and with its best passage, of some candidates `A`.  Every
candidate is a tight interval around some of the terms, in a container, with the score that is due to it.
Nothing with all the terms is missed; and when fewer containers than `depth` are returned, nothing with
two or more of the terms is. -/
theorem C59_icover_partial {σ : Type} {sc : Scores σ} {so : Sorts σ} {rho : Int → Ann} {depth : Nat} {M : Weighed σ → GC} {C : GC}
    (hs : sc.Lawful) (hg : so.Good sc) (hd : 0 < depth) (hC : Wf C) (hr : ∀ q, InRange q → RhoSpec C q (rho q))
    {terms : List (Weighed σ)} (hM : ∀ t ∈ terms, SolvedBy t (M t)) :
    ∃ A R, icoverRanking sc so rho depth terms = some R ∧ BestContainers sc depth A R ∧
      (∀ x ∈ A, Passage sc so.penalty M C terms x) ∧
      (2 ≤ terms.length → NothingMissed sc so.penalty M C terms terms.length A) ∧
      (R.length < depth → ∀ n, 2 ≤ n → n ≤ terms.length → NothingMissed sc so.penalty M C terms n A) :=
  icover_ok hs hg hd hC hr hM

/-- an interval with `n` of the terms, of which no smaller one has any `n` of the terms -/
def Narrow {σ : Type} (M : Weighed σ → GC) (terms : List (Weighed σ)) (n : Nat) (u v : Int) : Prop :=
  (∃ T, T.length = n ∧ Of T terms ∧ AllIn M T u v) ∧
    ∀ p q T, u ≤ p → q ≤ v → T.length = n → Of T terms → AllIn M T p q → p = u ∧ q = v

/-- **C59** In particular every container with a narrow interval around all of the terms that is worth
something is returned, with no smaller score, unless `depth` containers with no smaller scores are. -/
theorem C59_narrow_partial {σ : Type} {sc : Scores σ} {so : Sorts σ} {rho : Int → Ann} {depth : Nat} {M : Weighed σ → GC} {C : GC}
    (hs : sc.Lawful) (hg : so.Good sc) (hd : 0 < depth) (hC : Wf C) (hr : ∀ q, InRange q → RhoSpec C q (rho q))
    {terms : List (Weighed σ)} (hM : ∀ t ∈ terms, SolvedBy t (M t)) (h2 : 2 ≤ terms.length) {u v : Int} (hn : Narrow M terms terms.length u v)
    {c : Ann} (hc : C c) (hu : c.p ≤ u) (hv : v ≤ c.q) :
    ∃ R T, icoverRanking sc so rho depth terms = some R ∧ T.Perm terms ∧
      (sc.gt (worth sc so.penalty u v T) sc.zero = true →
        (∃ r ∈ R, r.cp ≤ u ∧ v ≤ r.cq ∧ sc.gt (worth sc so.penalty u v T) r.score = false) ∨
        (R.length = depth ∧ ∀ r ∈ R, sc.gt (worth sc so.penalty u v T) r.score = false)) := by
  obtain ⟨A, R, e, b, s, f, -⟩ := C59_icover_partial hs hg hd hC hr hM
  obtain ⟨⟨T', t1, t2, t3⟩, t4⟩ := hn
  obtain ⟨T, p, q, x1, x2, x3, x4, x5, x6⟩ := f h2 u v T' t1 t2 t3
  obtain ⟨rfl, rfl⟩ := t4 p q T x4 x5 x1 x2 x3.1
  have hperm : T.Perm terms := by
    obtain ⟨r, hr⟩ := x2
    have hl := hr.length_eq
    rw [List.length_append] at hl
    rw [List.eq_nil_of_length_eq_zero (show r.length = 0 by omega), List.append_nil] at hr
    exact hr
  refine ⟨R, T, e, hperm, fun hpos => ?_⟩
  obtain ⟨x, hx, xp, xq, xs⟩ := x6 ⟨c, hc, hu, hv⟩ hpos
  rcases b.best x hx with ⟨r, r1, r2, r3⟩ | ⟨r1, r2⟩
  · left
    refine ⟨r, r1, ?_, ?_, by rw [← xs]; exact r3⟩
    · obtain ⟨-, c1, d1, d2, d3, d4, d5⟩ := s x hx
      omega
    · obtain ⟨-, c1, d1, d2, d3, d4, d5⟩ := s x hx
      obtain ⟨-, c2, e1, e2, e3, e4, e5⟩ := s r (b.mem r r1)
      have : c1 = c2 := hC.uniq d1 e1 (by omega)
      subst this
      omega
  · right
    exact ⟨r1, fun r hr => by rw [← xs]; exact r2 r hr⟩

/-- Asked for nothing, with two words or more, it takes the last element of an empty vector. -/
theorem C59_zero_undefined {σ : Type} (sc : Scores σ) (so : Sorts σ) (rho : Int → Ann) (s t : Weighed σ) (l : List (Weighed σ)) :
    icoverRanking sc so rho 0 (s :: t :: l) = none := by
  unfold icoverRanking
  rw [if_neg (by simp)]
  simp only [List.length_cons, coverPasses, targetAt, List.length_nil, ge_iff_le, Nat.le_refl, if_true, List.getLast?_nil, Option.map_none]

/-! ### concrete cases -/

/-- the answers for the solutions in a list -/
def listTau (L : List Ann) (k : Int) : Ann := if k = minfinity then lowEnd else (L.find? fun a => decide (k ≤ a.p)).getD highEnd
def listUat (L : List Ann) (k : Int) : Ann := if k = maxfinity then highEnd else (L.reverse.find? fun a => decide (a.q ≤ k)).getD lowEnd
def listRho (L : List Ann) (k : Int) : Ann := if k = minfinity then lowEnd else (L.find? fun a => decide (k ≤ a.q)).getD highEnd

def listTerm (w : Rat) (L : List Ann) : Weighed Rat := ⟨w, listTau L, listUat L⟩

theorem find_first {L : List Ann} (hL : Listing L) {f : Ann → Int} (hf : ∀ a b : Ann, a.p < b.p → a.q < b.q → f a ≤ f b) (k : Int) {r : Ann}
    (h : L.find? (fun a => decide (k ≤ f a)) = some r) : r ∈ L ∧ k ≤ f r ∧ ∀ a ∈ L, k ≤ f a → f r ≤ f a := by
  obtain ⟨h1, l1, l2, rfl, h2⟩ := List.find?_eq_some_iff_append.1 h
  refine ⟨by simp, by simpa using h1, fun a ha hk => ?_⟩
  have hs := hL.sorted
  rw [List.pairwise_append, List.pairwise_cons] at hs
  rcases List.mem_append.1 ha with ha | ha
  · have := h2 a ha
    simp at this
    omega
  · rcases List.mem_cons.1 ha with rfl | ha
    · omega
    · have := hs.2.1.1 a ha
      exact hf _ _ this.1 this.2

theorem listTau_ok {L : List Ann} (hL : Listing L) (k : Int) : TauSpec (ofList L) k (listTau L k) := by
  unfold listTau
  split
  · rename_i h; exact Or.inl ⟨h, rfl⟩
  · rename_i h
    cases hf : L.find? (fun a => decide (k ≤ a.p)) with
    | none =>
      refine Or.inr (Or.inr ⟨h, fun a ha => ?_, rfl⟩)
      have := List.find?_eq_none.1 hf a ha
      simp at this; omega
    | some r =>
      obtain ⟨h1, h2, h3⟩ := find_first hL (f := fun a => a.p) (fun a b h _ => by omega) k hf
      exact Or.inr (Or.inl ⟨h, h1, h2, fun a ha hk => h3 a ha hk⟩)

theorem listRho_ok {L : List Ann} (hL : Listing L) (k : Int) : RhoSpec (ofList L) k (listRho L k) := by
  unfold listRho
  split
  · rename_i h; exact Or.inl ⟨h, rfl⟩
  · rename_i h
    cases hf : L.find? (fun a => decide (k ≤ a.q)) with
    | none =>
      refine Or.inr (Or.inr ⟨h, fun a ha => ?_, rfl⟩)
      have := List.find?_eq_none.1 hf a ha
      simp at this; omega
    | some r =>
      obtain ⟨h1, h2, h3⟩ := find_first hL (f := fun a => a.q) (fun a b _ h => by omega) k hf
      exact Or.inr (Or.inl ⟨h, h1, h2, fun a ha hk => h3 a ha hk⟩)

theorem listUat_ok {L : List Ann} (hL : Listing L) (k : Int) : UatSpec (ofList L) k (listUat L k) := by
  unfold listUat
  split
  · rename_i h; exact Or.inl ⟨h, rfl⟩
  · rename_i h
    cases hf : L.reverse.find? (fun a => decide (a.q ≤ k)) with
    | none =>
      refine Or.inr (Or.inr ⟨h, fun a ha => ?_, rfl⟩)
      have := List.find?_eq_none.1 hf a (List.mem_reverse.2 ha)
      simp at this; omega
    | some r =>
      obtain ⟨h1, l1, l2, h2, h3⟩ := List.find?_eq_some_iff_append.1 hf
      have hmem : ∀ a, a ∈ L ↔ a ∈ l1 ++ r :: l2 := fun a => by rw [← h2, List.mem_reverse]
      refine Or.inr (Or.inl ⟨h, (hmem r).2 (by simp), by simpa using h1, fun a ha hk => ?_⟩)
      have hs : (l1 ++ r :: l2).Pairwise fun a b => b.p < a.p ∧ b.q < a.q := by
        rw [← h2, List.pairwise_reverse]
        exact hL.sorted
      rw [List.pairwise_append, List.pairwise_cons] at hs
      rcases List.mem_append.1 ((hmem a).1 ha) with ha | ha
      · have := h3 a ha
        simp at this
        omega
      · rcases List.mem_cons.1 ha with rfl | ha
        · exact Int.le_refl _
        · have := hs.2.1.1 a ha
          show a.q ≤ r.q
          omega

/-- every list of solutions gives a term as the theorem wants it -/
theorem listTerm_solved {w : Rat} {L : List Ann} (hL : Listing L) : SolvedBy (listTerm w L) (ofList L) :=
  ⟨hL.wf, fun k _ => ⟨listTau_ok hL k, listUat_ok hL k⟩⟩

def putBy {α : Type} (before : α → α → Bool) (a : α) : List α → List α
  | [] => [a]
  | b :: l => if before a b then a :: b :: l else b :: putBy before a l
def putSort {α : Type} (before : α → α → Bool) (l : List α) : List α := l.foldr (putBy before) []

theorem putBy_perm {α : Type} (before : α → α → Bool) (a : α) : ∀ l, (putBy before a l).Perm (a :: l)
  | [] => .refl _
  | b :: l => by
    unfold putBy
    split
    · exact .refl _
    · exact ((putBy_perm before a l).cons b).trans (.swap ..)

theorem putSort_perm {α : Type} (before : α → α → Bool) : ∀ l, (putSort before l).Perm l
  | [] => .refl _
  | a :: l => (putBy_perm before a _).trans ((putSort_perm before l).cons a)

theorem putSort_sorted {α : Type} (f : α → Int) : ∀ l, (putSort (fun a b => decide (f a ≤ f b)) l).Pairwise fun a b => f a ≤ f b
  | [] => .nil
  | a :: l => by
    have ins : ∀ m : List α, m.Pairwise (fun a b => f a ≤ f b) → (putBy (fun a b => decide (f a ≤ f b)) a m).Pairwise fun a b => f a ≤ f b := by
      intro m
      induction m with
      | nil => intro _; simp [putBy]
      | cons b m ih =>
        intro h
        rw [List.pairwise_cons] at h
        unfold putBy
        split
        · rename_i hab
          simp only [decide_eq_true_eq] at hab
          rw [List.pairwise_cons, List.pairwise_cons]
          refine ⟨fun x hx => ?_, h⟩
          rcases List.mem_cons.1 hx with rfl | hx
          · exact hab
          · have := h.1 x hx; omega
        · rename_i hab
          simp only [decide_eq_true_eq] at hab
          rw [List.pairwise_cons]
          refine ⟨fun x hx => ?_, ih h.2⟩
          rcases List.mem_cons.1 ((putBy_perm _ a m).mem_iff.1 hx) with rfl | hx
          · omega
          · exact h.1 x hx
    exact ins _ (putSort_sorted f l)

/-- exact scores; `log 2` is 7/10, `log 187` is 523/100, anything else is long -/
def someSorts : Sorts Rat where
  light := putSort fun a b => decide (a.weight ≤ b.weight)
  position := putSort fun a b => decide (a.2 ≤ b.2)
  heavy := putSort fun a b => decide (a.weight ≥ b.weight)
  results := byScore (exactScores 16)
  penalty n len s := if len = 1 then s else if len = 2 then s - n * (7/10) else if len = 187 then s - n * (523/100) else s - n * 100

theorem someSorts_good : someSorts.Good (exactScores 16) :=
  ⟨putSort_perm _, fun l => ⟨putSort_perm _ l, putSort_sorted (fun x : Weighed Rat × Int => x.2) l⟩, putSort_perm _, byScore_sorts ((exactScores_lawful (K := 16) (by decide)).toOrdered)⟩

def someContainers : List Ann := [⟨1, 9, 0⟩, ⟨11, 19, 0⟩, ⟨301, 400, 0⟩]
def someTerms : List (Weighed Rat) :=
  [listTerm 10 [⟨1, 1, 0⟩, ⟨302, 302, 0⟩], listTerm 14 [⟨2, 2, 0⟩, ⟨14, 14, 0⟩], listTerm 16 [⟨15, 15, 0⟩, ⟨303, 303, 0⟩]]

/-- the solutions of a term, from its answers -/
def answered (t : Weighed Rat) : GC := fun a => minfinity < a.p ∧ a.q < maxfinity ∧ t.tau a.p = a

theorem answered_eq {w : Rat} {L : List Ann} (hL : Listing L) : answered (listTerm w L) = ofList L := by
  funext a
  apply propext
  show (minfinity < a.p ∧ a.q < maxfinity ∧ listTau L a.p = a) ↔ a ∈ L
  constructor
  · rintro ⟨h1, h2, h3⟩
    rcases listTau_ok hL a.p with ⟨e, -⟩ | ⟨-, e, -⟩ | ⟨-, -, e⟩
    · omega
    · rw [h3] at e; exact e
    · rw [h3] at e
      rw [e] at h2
      exact absurd h2 (by decide)
  · intro ha
    have b := hL.bounds a ha
    refine ⟨b.1, b.2.2, ?_⟩
    rcases listTau_ok hL a.p with ⟨e, -⟩ | ⟨-, e1, e2, e3⟩ | ⟨-, e, -⟩
    · omega
    · have := e3 a ha (Int.le_refl _)
      exact hL.wf.uniq e1 ha (by omega)
    · have := e a ha; omega

/-- the hypotheses of `C59_icover_partial` are met -/
example := C59_icover_partial (M := answered) (exactScores_lawful (K := 16) (by decide)) someSorts_good (show 0 < 2 by decide)
  (C := ofList someContainers) (rho := listRho someContainers)
  (Listing.wf ⟨by simp [someContainers], by simp [someContainers]⟩) (fun q _ => listRho_ok ⟨by simp [someContainers], by simp [someContainers]⟩ q)
  (terms := someTerms) (by
    intro t ht
    simp only [someTerms, List.mem_cons, List.not_mem_nil, or_false] at ht
    rcases ht with rfl | rfl | rfl <;> (rw [answered_eq ⟨by simp, by simp⟩]; exact listTerm_solved ⟨by simp, by simp⟩))

/-- two of the three containers, by their best pairs -/
example : icoverRanking (exactScores 16) someSorts (listRho someContainers) 2 someTerms =
    some [⟨14, 15, 11, 19, 30 - 14/10⟩, ⟨302, 303, 301, 400, 26 - 14/10⟩] := by decide +kernel

/-- Of the first word of a query no more than `depth` occurrences are looked at: with one word and
depth 2 the second document, which has the word, is not found. -/
theorem C59_ones_missed :
    icoverRanking (exactScores 16) someSorts (listRho someContainers) 2 [listTerm 10 [⟨5, 5, 0⟩, ⟨6, 6, 0⟩, ⟨15, 15, 0⟩]] =
      some [⟨5, 5, 1, 9, 10⟩] := by decide +kernel

/-- A word is given up when it and the lightest others do not reach the target, though it could with
the heaviest: for depth 1 the container with all three words, far apart, is returned, and not the other one with the
first and the last side by side and a higher score. -/
theorem C59_light_dropped :
    let terms := [listTerm 10 [⟨1, 1, 0⟩, ⟨302, 302, 0⟩], listTerm 14 [⟨100, 100, 0⟩], listTerm 16 [⟨187, 187, 0⟩, ⟨303, 303, 0⟩]]
    let C : List Ann := [⟨1, 300, 0⟩, ⟨301, 400, 0⟩]
    icoverRanking (exactScores 16) someSorts (listRho C) 1 terms = some [⟨1, 187, 1, 300, 40 - 1569/100⟩] ∧
    icoverRanking (exactScores 16) someSorts (listRho C) 2 terms =
      some [⟨302, 303, 301, 400, 26 - 14/10⟩, ⟨1, 187, 1, 300, 40 - 1569/100⟩] := by
  refine ⟨?_, ?_⟩ <;> decide +kernel

end Verif.Props
