import Verif.Props.Query
import Verif.Rank.Parallel
/-
  Properties of ranking (C44).
-/
namespace Verif.Props
open Verif.Hopper Verif.Gcl Verif.Rank

/-- `L` lists the solutions of a query, in order -/
def Lists (L : List Ann) (S : GC) : Prop := Listing L ∧ ∀ a, a ∈ L ↔ S a

/-- every query has such a list -/
theorem lists_exists (ix : Index) (e : SExpr) (h : Legal e) : ∃ L, Lists L (den ix.solutions e) := by
  obtain ⟨H, _, I, hI⟩ := compile_impl ix none e h
  have w := den_wf ix.wf e h
  obtain ⟨l, _, _, _, h1, h2⟩ := tauAll_ok w hI.tau loopFuel (minfinity + 1) ⟨by omega, by omega⟩ (by omega)
    (by unfold loopFuel; omega) H.init hI.init
  refine ⟨l, ⟨h2, fun a ha => ?_⟩, fun a => ?_⟩
  · have ha := ((h1 a).1 ha).1
    exact ⟨w.lo ha, w.le ha, w.hi ha⟩
  · rw [h1 a]
    exact ⟨fun h => h.1, fun h => ⟨h, by have := w.lo h; omega⟩⟩

/-- **C44**: `ssr_ranking` returns the best `depth` of the containers that start in
`[start, stop)` and have a solution of the query in them, best first, each with the sum over all its
solutions and with the first of its shortest solutions.  The containers must not overlap
(`C44_overlap`). -/
theorem C44_ssr_partial {σ : Type} {sc : Scores σ} (hs : sc.Lawful) {sort : List (Result σ) → List (Result σ)}
    (hsort : SortsBy sc sort) (ix : Index) (count : Option (List Char → Int)) {e c : SExpr} (he : Legal e) (hc : Legal c)
    {L C : List Ann} (hL : Lists L (den ix.solutions e)) (hC : Lists C (den ix.solutions c))
    (apart : C.Pairwise fun c d => c.q < d.p) (depth : Nat) {start stop : Int} (h1 : InRange start) (h2 : InRange stop) :
    ∃ all R, ssrRanking sc sort depth (compile ix count e) (compile ix count c) start stop = some R ∧
      Results sc L (matching L C start stop) all ∧ Top sc depth all R := by
  obtain ⟨H, eH, I, hI⟩ := compile_impl ix count e he
  obtain ⟨K, eK, J, hJ⟩ := compile_impl ix count c hc
  have sL : den ix.solutions e = ofList L := by funext a; exact propext (hL.2 a).symm
  have sC : den ix.solutions c = ofList C := by funext a; exact propext (hC.2 a).symm
  rw [sL] at hI
  rw [sC] at hJ
  rw [eH, eK]
  exact ssr_ok hs hsort hL.1 hC.1 apart hI hJ h1 h2

/-- **C44**, in parallel: whatever the machine and the number of threads asked for, the best
`depth` of all the containers; if a clone of the warren fails, possibly nothing. -/
theorem C44_parallel_partial {σ : Type} {sc : Scores σ} (hs : sc.Lawful) {sort : List (Result σ) → List (Result σ)}
    (hsort : SortsBy sc sort) (ix : Index) (count : Option (List Char → Int)) {e c : SExpr} (he : Legal e) (hc : Legal c)
    {L C : List Ann} (hL : Lists L (den ix.solutions e)) (hC : Lists C (den ix.solutions c))
    (apart : C.Pairwise fun c d => c.q < d.p) (hspan : ∀ c ∈ C, ∀ d ∈ C, d.q + 1 - c.p ≤ maxfinity)
    (depth hardware threads : Nat) (cloned : Nat → Bool) :
    ∃ all R, parallelRanking sort depth (compile ix count e) (compile ix count c) hardware threads cloned
        (ssrRanking sc sort depth (compile ix count e) (compile ix count c)) = some R ∧
      Results sc L (matching L C minfinity maxfinity) all ∧
      ((∃ i, cloned i = false) ∧ R = [] ∨ Top sc depth all R) := by
  obtain ⟨H, eH, I, hI⟩ := compile_impl ix count e he
  obtain ⟨K, eK, J, hJ⟩ := compile_impl ix count c hc
  have sL : den ix.solutions e = ofList L := by funext a; exact propext (hL.2 a).symm
  have sC : den ix.solutions c = ofList C := by funext a; exact propext (hC.2 a).symm
  rw [sL] at hI
  rw [sC] at hJ
  rw [eH, eK]
  exact parallel_ok hs hsort hC.1 hJ (fun a b h1 h2 => ssr_ok hs hsort hL.1 hC.1 apart hI hJ h1 h2) hspan hardware threads cloned

/-- there is only one result for a container -/
theorem results_unique {σ : Type} {sc : Scores σ} {L : List Ann} (hL : Listing L) : ∀ {cs : List Ann}
    {rs rs' : List (Result σ)}, Results sc L cs rs → Results sc L cs rs' → rs = rs' := by
  intro cs
  induction cs with
  | nil => intro rs rs' h h'; cases h; cases h'; rfl
  | cons c cs ih =>
    intro rs rs' h h'
    cases h with
    | cons h1 h2 => cases h' with
      | cons h1' h2' =>
        rw [ih h2 h2']
        congr 1
        obtain ⟨a1, a2, a3, a, ⟨m, b⟩, a4, a5⟩ := h1
        obtain ⟨a1', a2', a3', a', ⟨m', b'⟩, a4', a5'⟩ := h1'
        have x := b a' m'
        have y := b' a m
        have hl : a.q - a.p = a'.q - a'.p := by omega
        have hp : a.p = a'.p := by have := x.2 hl.symm; have := y.2 hl; omega
        rename_i r _ r' _
        cases r; cases r'
        simp only at *
        subst a1 a2 a3 a4 a5
        simp only [Result.mk.injEq]
        exact ⟨by omega, by omega, a1'.symm, a2'.symm, a3'.symm⟩

/-- so the scores, rank by rank, do not depend on the number of threads, and are those of one
sequential ranking -/
theorem C44_threads_partial {σ : Type} {sc : Scores σ} (hs : sc.Lawful) {sort : List (Result σ) → List (Result σ)}
    (hsort : SortsBy sc sort) (ix : Index) (count : Option (List Char → Int)) {e c : SExpr} (he : Legal e) (hc : Legal c)
    {C : List Ann} (hC : Lists C (den ix.solutions c)) (apart : C.Pairwise fun c d => c.q < d.p)
    (hspan : ∀ c ∈ C, ∀ d ∈ C, d.q + 1 - c.p ≤ maxfinity) (depth hardware threads : Nat) :
    ∃ R R', parallelRanking sort depth (compile ix count e) (compile ix count c) hardware threads (fun _ => true)
        (ssrRanking sc sort depth (compile ix count e) (compile ix count c)) = some R ∧
      ssrRanking sc sort depth (compile ix count e) (compile ix count c) minfinity maxfinity = some R' ∧
      R.length = R'.length ∧ ∀ i (h : i < R.length) (h' : i < R'.length),
        sc.gt R[i].score R'[i].score = false ∧ sc.gt R'[i].score R[i].score = false := by
  obtain ⟨L, hL⟩ := lists_exists ix e he
  obtain ⟨all, R, r1, r2, r3⟩ := C44_parallel_partial hs hsort ix count he hc hL hC apart hspan depth hardware threads fun _ => true
  obtain ⟨all', R', s1, s2, s3⟩ := C44_ssr_partial hs hsort ix count he hc hL hC apart depth
    (start := minfinity) (stop := maxfinity) ⟨by omega, by omega⟩ ⟨by omega, by omega⟩
  rcases r3 with ⟨⟨_, h⟩, _⟩ | r3
  · cases h
  cases results_unique hL.1 r2 s2
  refine ⟨R, R', r1, s1, by rw [r3.size, s3.size], fun i h h' => ⟨?_, ?_⟩⟩
  · exact top_unique hs r3 s3 (List.getElem?_eq_getElem h) (List.getElem?_eq_getElem h')
  · exact top_unique hs s3 r3 (List.getElem?_eq_getElem h') (List.getElem?_eq_getElem h)

/-! ### the hypotheses are met, and the containers must be apart -/

/-- exact arithmetic: `1 / (K + q - p)` (`src/ranking.cc:355`) -/
def exactScores (K : Rat) : Scores Rat where
  zero := 0
  add := (· + ·)
  gt := fun a b => decide (a > b)
  weight := fun p q => 1 / (K + q - p)

theorem exactScores_lawful {K : Rat} (hK : 0 < K) : (exactScores K).Lawful := by
  refine ⟨⟨fun {a b} h => ?_, fun {a b c} h => ?_⟩, fun {s p q} h hpq => ?_⟩
  · simp only [exactScores, gt_iff_lt, decide_eq_true_eq, decide_eq_false_iff_not] at *
    grind
  · simp only [exactScores, gt_iff_lt, decide_eq_true_eq] at *
    grind
  · simp only [exactScores, gt_iff_lt, decide_eq_true_eq] at *
    have h1 : (p : Rat) ≤ q := by exact_mod_cast hpq
    have h2 : 0 < K + q - p := by grind
    have h3 : 0 < 1 / (K + q - p) := by
      rw [Rat.div_def, Rat.one_mul]; exact Rat.inv_pos.2 h2
    rcases h with rfl | h
    · grind
    · grind

/-- insertion sort: one of the orders `std::sort` may leave -/
def byScore {σ : Type} (sc : Scores σ) (l : List (Result σ)) : List (Result σ) :=
  l.foldr (fun a l => l.takeWhile (fun b => sc.gt b.score a.score) ++ a :: l.dropWhile (fun b => sc.gt b.score a.score)) []

theorem byScore_sorts {σ : Type} {sc : Scores σ} (hs : sc.Ordered) : SortsBy sc (byScore sc) := by
  intro l
  induction l with
  | nil => exact ⟨.refl _, .nil⟩
  | cons a l ih =>
    obtain ⟨h1, h2⟩ := ih
    have e : byScore sc (a :: l) = (byScore sc l).takeWhile (fun b => sc.gt b.score a.score) ++
        a :: (byScore sc l).dropWhile (fun b => sc.gt b.score a.score) := rfl
    rw [e]
    generalize byScore sc l = m at *
    constructor
    · refine List.perm_middle.trans ((List.Perm.cons a ?_))
      rw [List.takeWhile_append_dropWhile]
      exact h1
    · clear h1 e
      induction m with
      | nil => simp
      | cons b m ih =>
        rw [List.pairwise_cons] at h2
        by_cases hb : sc.gt b.score a.score = true
        · simp only [List.takeWhile_cons, List.dropWhile_cons, hb, if_true]
          rw [List.cons_append, List.pairwise_cons]
          refine ⟨fun x hx => ?_, ih h2.2⟩
          rw [List.mem_append, List.mem_cons] at hx
          rcases hx with hx | rfl | hx
          · exact h2.1 x ((List.takeWhile_sublist _).subset hx)
          · exact hs.asymm hb
          · exact h2.1 x ((List.dropWhile_sublist _).subset hx)
        · simp only [List.takeWhile_cons, List.dropWhile_cons, hb, Bool.false_eq_true, if_false]
          rw [List.nil_append, List.pairwise_cons, List.pairwise_cons]
          refine ⟨fun x hx => ?_, h2⟩
          rcases List.mem_cons.1 hx with rfl | hx
          · simpa using hb
          · cases hx' : sc.gt x.score a.score with
            | false => rfl
            | true =>
              rcases hs.split (b := b.score) hx' with h | h
              · rw [h2.1 x hx] at h; cases h
              · exact absurd h hb

/-- two passages, three containers -/
def rankedPassages : List Ann := [⟨2, 3, 0⟩, ⟨3, 7, 0⟩, ⟨11, 12, 0⟩, ⟨21, 21, 0⟩]
def rankedContainers : List Ann := [⟨1, 9, 0⟩, ⟨10, 19, 0⟩, ⟨20, 29, 0⟩]

example : ssrRanking (exactScores 16) (byScore (exactScores 16)) 2 (some (listObj rankedPassages))
    (some (listObj rankedContainers)) minfinity maxfinity =
    some [⟨2, 3, 1, 9, 1/17 + 1/20⟩, ⟨21, 21, 20, 29, 1/16⟩] := by decide +kernel

/-- a query and containers that meet what C44 asks for -/
example : ∃ L C, Lists L (den sampleIndex.solutions sampleQuery) ∧
    Lists C (den sampleIndex.solutions (.node .term ['a'] 0 [])) ∧ C.Pairwise (fun c d => c.q < d.p) := by
  obtain ⟨L, hL⟩ := lists_exists sampleIndex sampleQuery (by simp [sampleQuery, Legal, LegalL, arityOk])
  obtain ⟨C, hC⟩ := lists_exists sampleIndex (.node .term ['a'] 0 []) (by simp [Legal, LegalL, arityOk])
  refine ⟨L, C, hL, hC, ?_⟩
  have h : ∀ c ∈ C, c.p = c.q := fun c hc => sampleIndex_points ['a'] c ((hC.2 c).1 hc)
  refine List.Pairwise.imp_of_mem (fun {c d} hc hd hcd => ?_) hC.1.sorted
  have := h c hc
  omega

/-- **C44**, the threads: at least one is allowed and at most twice what the hardware has (four, if it has one or does
not tell); of as many as there may be, as many as were asked for, and all if none were asked for. -/
theorem C44_allowed (hardware desired : Nat) :
    0 < allowedThreads hardware desired ∧
    (2 ≤ hardware → allowedThreads hardware desired ≤ 2 * hardware) ∧
    (hardware ≤ 1 → allowedThreads hardware desired ≤ 4) ∧
    (0 < desired → allowedThreads hardware desired ≤ desired) ∧
    (0 < desired → desired ≤ 4 → allowedThreads hardware desired = desired) ∧
    (0 < desired → desired ≤ 2 * hardware → 2 ≤ hardware → allowedThreads hardware desired = desired) ∧
    (2 ≤ hardware → allowedThreads hardware 0 = 2 * hardware) := by
  unfold allowedThreads
  grind

example : allowedThreads 8 3 = 3 ∧ allowedThreads 8 0 = 16 ∧ allowedThreads 0 100 = 4 := by decide

/-- Containers that overlap: the passage `[6, 7]` lies in both, but only the first is found. -/
theorem C44_overlap : ssrRanking (exactScores 16) (byScore (exactScores 16)) 2 (some (listObj [⟨6, 7, 0⟩]))
      (some (listObj [⟨1, 10, 0⟩, ⟨5, 15, 0⟩])) minfinity maxfinity = some [⟨6, 7, 1, 10, 1/17⟩] ∧
    matching [⟨6, 7, 0⟩] [⟨1, 10, 0⟩, ⟨5, 15, 0⟩] minfinity maxfinity = [⟨1, 10, 0⟩, ⟨5, 15, 0⟩] := by
  decide +kernel

/-- and then what is found depends on the number of threads -/
theorem C44_overlap_threads :
    let H := some (listObj [⟨1060000, 1060001, 0⟩])
    let K := some (listObj [⟨0, 1100000, 0⟩, ⟨1050000, 2100000, 0⟩])
    let alg := ssrRanking (exactScores 16) (byScore (exactScores 16)) 5 H K
    parallelRanking (byScore (exactScores 16)) 5 H K 8 1 (fun _ => true) alg =
      some [⟨1060000, 1060001, 0, 1100000, 1/17⟩] ∧
    parallelRanking (byScore (exactScores 16)) 5 H K 8 2 (fun _ => true) alg =
      some [⟨1060000, 1060001, 0, 1100000, 1/17⟩, ⟨1060000, 1060001, 1050000, 2100000, 1/17⟩] := by
  decide +kernel

/-- a clone that fails looks like a query without results -/
theorem C44_clone_fails :
    let H := some (listObj [⟨1060000, 1060001, 0⟩])
    let K := some (listObj [⟨0, 1040000, 0⟩, ⟨1050000, 2100000, 0⟩])
    let alg := ssrRanking (exactScores 16) (byScore (exactScores 16)) 5 H K
    parallelRanking (byScore (exactScores 16)) 5 H K 8 2 (fun i => i == 1) alg = some [] := by
  decide +kernel

end Verif.Props
