import Verif.Trec.Proof
/-
  C64: answering many topics with many threads (`trec`, src/ranker.cc).
-/
namespace Verif.Props
open Verif.Trec
open Verif.Hopper
open Verif.Rank (Walks walks_impl allowedThreads)

section
variable {T Q A E : Type} [DecidableEq T]

/-- the topics are the keys of a map, so different; and the threads are as `trec` sets them up -/
structure SetUp (J : Job T Q A E) (hardware desired : Nat) : Prop where
  topics : (J.work.map (·.1)).Nodup
  threads : J.threads = threadsFor hardware desired J.work.length

theorem set_threads {J : Job T Q A E} {hardware desired : Nat} (h : SetUp J hardware desired) (hw : J.work ≠ []) : 0 < J.threads := by
  have h1 := List.length_pos_iff.2 hw
  have h2 : 0 < allowedThreads hardware desired := by
    simp only [allowedThreads]
    repeat' split
    all_goals omega
  rw [h.threads, threadsFor]
  omega

theorem set_distinct {J : Job T Q A E} {hardware desired : Nat} (h : SetUp J hardware desired) : Distinct J := by
  intro j k t q q' h1 h2
  obtain ⟨l1, e1⟩ := List.getElem?_eq_some_iff.1 h1
  obtain ⟨l2, e2⟩ := List.getElem?_eq_some_iff.1 h2
  refine (List.getElem_inj (h₀ := by simpa using l1) (h₁ := by simpa using l2) h.topics).1 ?_
  simp [e1, e2]

/-- **C64.** When `trec` returns true and there is a topic, every topic has its answer, from the worker whose turn it is, and nothing else
has one; no error is set, and every worker could be prepared. -/
theorem C64_answered {J : Job T Q A E} {hardware desired : Nat} (h : SetUp J hardware desired) (hw : J.work ≠ [])
    {before results : Results T A} {error : Option E} (hr : Returns J before true results error) :
    Answered J.work (fun j query => J.answer (j % J.threads) query) results ∧ error = none ∧
      ∀ i, i < J.threads → J.clones i none ∧ J.prepares i none := by
  generalize eb : true = b at hr
  cases hr with
  | nothing e => exact absurd e hw
  | @ran s _ hreach hfin =>
    have hstop : s.stop = false := by
      cases e : s.stop with
      | false => rfl
      | true => rw [e] at eb; cases eb
    have ht := set_threads h hw
    have inv := inv_reach (set_distinct h) ht hreach
    have each : ∀ i, i < J.threads → J.clones i none ∧ J.prepares i none ∧ Upto J s.results i J.work.length := by
      intro i hi
      have := inv.right i hi
      rw [hfin i hi] at this
      rcases this with h | h
      · rw [hstop] at h; cases h
      · exact h
    refine ⟨⟨?_, ?_⟩, inv.error.1 hstop, fun i hi => ⟨(each i hi).1, (each i hi).2.1⟩⟩
    · intro j t q hj
      exact (each (j % J.threads) (Nat.mod_lt _ ht)).2.2 j t q (List.getElem?_eq_some_iff.1 hj).1 rfl hj
    · intro t hn
      cases e : s.results t with
      | none => rfl
      | some a =>
        obtain ⟨j, q, hj, _⟩ := inv.stored t a e
        exact absurd rfl (hn _ (List.mem_of_getElem? hj))

/-- **C64.** When it returns false, the error is one of a worker that could not be prepared, and what is stored is right, but may not be all. -/
theorem C64_failed {J : Job T Q A E} {hardware desired : Nat} (h : SetUp J hardware desired)
    {before results : Results T A} {error : Option E} (hr : Returns J before false results error) :
    (∃ i e, i < J.threads ∧ error = some e ∧ (J.clones i (some e) ∨ J.clones i none ∧ J.prepares i (some e))) ∧
      PartlyAnswered J.work (fun j query => J.answer (j % J.threads) query) results := by
  generalize eb : false = b at hr
  cases hr with
  | nothing e => cases eb
  | @ran s hw hreach hfin =>
    have hstop : s.stop = true := by
      cases e : s.stop with
      | true => rfl
      | false => rw [e] at eb; cases eb
    have inv := inv_reach (set_distinct h) (set_threads h hw) hreach
    obtain ⟨e, he, i, hi, hf⟩ := inv.error.2 hstop
    exact ⟨⟨i, e, hi, he, hf⟩, inv.stored⟩

/-- **C64.** If the pipelines of all workers answer alike, the results are the same whatever the number of threads and however they run. -/
theorem C64_threads {J J' : Job T Q A E} {hardware desired hardware' desired' : Nat} (h : SetUp J hardware desired) (h' : SetUp J' hardware' desired')
    (hwork : J.work = J'.work) (hw : J.work ≠ []) (answer : Q → A) (ha : ∀ i q, J.answer i q = answer q) (ha' : ∀ i q, J'.answer i q = answer q)
    {before before' results results' : Results T A} {error error' : Option E} (hr : Returns J before true results error)
    (hr' : Returns J' before' true results' error') : results = results' := by
  have g := (C64_answered h hw hr).1
  have g' := (C64_answered h' (hwork ▸ hw) hr').1
  funext t
  by_cases e : ∃ x ∈ J.work, x.1 = t
  · obtain ⟨⟨t', q⟩, hx, rfl⟩ := e
    obtain ⟨j, hj⟩ := List.mem_iff_getElem?.1 hx
    rw [g.every j t' q hj, g'.every j t' q (hwork ▸ hj)]
    simp only [ha, ha']
  · have : ∀ x ∈ J.work, x.1 ≠ t := fun x hx ht => e ⟨x, hx, ht⟩
    rw [g.only t this, g'.only t (hwork ▸ this)]

/-- **C64.** Only one worker copies the warren at a time. -/
theorem C64_one_clone {J : Job T Q A E} {hardware desired : Nat} (h : SetUp J hardware desired) (hw : J.work ≠ []) {s : State T A E} (hr : Reach J s)
    {i k : Nat} (hi : i < J.threads) (hk : k < J.threads) (h1 : s.workers i = .cloning) (h2 : s.workers k = .cloning) : i = k :=
  (inv_reach (set_distinct h) (set_threads h hw) hr).one i k hi hk h1 h2

/-- **C64.** The workers cannot go on forever and cannot get stuck: each step leaves less to do, and while not all are done one can move. -/
theorem C64_ends {J : Job T Q A E} {hardware desired : Nat} (h : SetUp J hardware desired) (hw : J.work ≠ [])
    (hc : ∀ i, ∃ o, J.clones i o) (hp : ∀ i, ∃ o, J.prepares i o) :
    ∃ size : State T A E → Nat, (∀ s s', Reach J s → Step J s s' → size s' < size s) ∧
      ∀ s, Reach J s → Final J s ∨ ∃ s', Step J s s' := by
  refine ⟨leftAll J, fun s s' hr hs => ?_, fun s hr => ?_⟩
  · have inv := inv_reach (set_distinct h) (set_threads h hw) hr
    refine step_less (set_threads h hw) hs fun i j hi e => ?_
    have := inv.right i hi
    rw [e] at this
    exact this.2.2.2.2
  · have inv := inv_reach (set_distinct h) (set_threads h hw) hr
    by_cases hf : Final J s
    · exact .inl hf
    · exact .inr (step_some inv hc hp hf)

/-- so there is always an outcome -/
theorem C64_returns {J : Job T Q A E} {hardware desired : Nat} (h : SetUp J hardware desired)
    (hc : ∀ i, ∃ o, J.clones i o) (hp : ∀ i, ∃ o, J.prepares i o) (before : Results T A) :
    ∃ b results error, Returns J before b results error := by
  by_cases hw : J.work = []
  · exact ⟨_, _, _, .nothing hw⟩
  · obtain ⟨size, h1, h2⟩ := C64_ends h hw hc hp
    have : ∀ n, ∀ s, size s ≤ n → Reach J s → ∃ s', Reach J s' ∧ Final J s' := by
      intro n
      induction n with
      | zero =>
        intro s hn hr
        rcases h2 s hr with hf | ⟨s', hs⟩
        · exact ⟨s, hr, hf⟩
        · have := h1 s s' hr hs; omega
      | succ n ih =>
        intro s hn hr
        rcases h2 s hr with hf | ⟨s', hs⟩
        · exact ⟨s, hr, hf⟩
        · have := h1 s s' hr hs
          exact ih s' (by omega) (.step hr hs)
    obtain ⟨s, hr, hf⟩ := this _ _ (Nat.le_refl _) .start
    exact ⟨_, _, _, .ran hw hr hf⟩

end

/-- **C64.** Each result is given by the first identifier that begins in or after it, if that ends in it; other results are left out. -/
theorem C64_identifiers {H : Obj} {I : H.σ → Prop} {ids : List Ann} (hw : Walks H I (ofList ids)) (cs : List (Int × Int))
    (hc : ∀ c ∈ cs, minfinity < c.1 ∧ c.1 ≤ c.2 ∧ c.2 < maxfinity) :
    ∃ as st, identify H cs H.init = some (as, st) ∧ IdentifiesAll ids cs as := by
  obtain ⟨as, st, h1, _, h2⟩ := identify_ok hw cs hc H.init hw.init
  exact ⟨as, st, h1, h2⟩

/-- a passage that has its identifier within it (as documents do) is identified by it, if no other begins before it in the passage -/
theorem C64_identified {ids : List Ann} {c : Int × Int} {o : Option Ann} (h : Identifies ids c o) (hl : Listing ids) {a : Ann} (ha : a ∈ ids)
    (h1 : c.1 ≤ a.p) (h2 : a.q ≤ c.2) (h3 : ∀ b ∈ ids, c.1 ≤ b.p → a.p ≤ b.p) : o = some a := by
  have same : ∀ b ∈ ids, b.p = a.p → b = a := by
    intro b hb e
    by_cases ne : b = a
    · exact ne
    · exfalso
      obtain ⟨i, hi, rfl⟩ := List.mem_iff_getElem.1 ha
      obtain ⟨j, hj, rfl⟩ := List.mem_iff_getElem.1 hb
      have hs := List.pairwise_iff_getElem.1 hl.sorted
      rcases Nat.lt_trichotomy i j with g | g | g
      · have := hs i j hi hj g; omega
      · subst g; exact ne rfl
      · have := hs j i hj hi g; omega
  cases h with
  | @found p q b g1 g2 g3 g4 =>
    have := g3 a ha h1
    have := h3 b g1 g2
    rw [same b g1 (by omega)]
  | @beyond p q b g1 g2 g3 g4 =>
    have := g3 a ha h1
    have := h3 b g1 g2
    have := same b g1 (by omega)
    subst this
    simp only at h2; omega
  | last g => have := g a ha; simp only at h1; omega

/-! ### cases -/

/-- three topics; the copy of the second worker cannot be made if `broken` -/
def someJob (broken : Bool) (threads : Nat) : Job Nat Nat (List Nat) Nat where
  work := [(10, 0), (20, 1), (30, 2)]
  threads := threadsFor 2 threads 3
  clones := fun i o => if i = 1 ∧ broken = true then o = some 7 else o = none
  prepares := fun _ o => o = none
  answer := fun _ q => [q, q]

theorem someJob_set (broken : Bool) (threads : Nat) : SetUp (someJob broken threads) 2 threads :=
  ⟨(by decide : ([10, 20, 30] : List Nat).Nodup), rfl⟩

/-- it is not empty, and it comes to an end -/
example : (someJob false 2).work ≠ [] ∧ ∃ b results error, Returns (someJob false 2) (fun _ => none) b results error :=
  ⟨by simp [someJob], C64_returns (someJob_set false 2) (fun i => ⟨none, by simp [someJob]⟩) (fun i => ⟨none, rfl⟩) _⟩

/-- if the second of two workers fails, `trec` does -/
example (b : Bool) (results : Results Nat (List Nat)) (error : Option Nat) (h : Returns (someJob true 2) (fun _ => none) b results error) :
    b = false ∧ error = some 7 := by
  cases b with
  | true =>
    have := (C64_answered (someJob_set true 2) (by simp [someJob]) h).2.2 1 (by decide)
    simp [someJob] at this
  | false =>
    obtain ⟨i, e, _, h2, h3⟩ := (C64_failed (someJob_set true 2) h).1
    refine ⟨rfl, ?_⟩
    rw [h2]
    rcases h3 with h3 | ⟨_, h3⟩
    · simp only [someJob] at h3
      split at h3
      · exact h3
      · cases h3
    · simp [someJob] at h3

/-! ### where it is not so -/

/-- **C64 (not so).** Without topics `trec` returns true and leaves what was in `results`, though it would clear them if there were one. -/
theorem C64_stale {T Q A E : Type} [DecidableEq T] (J : Job T Q A E) (h : J.work = []) (before : Results T A) : Returns J before true before none :=
  .nothing h

/-- two topics with the same query; an answer is what the worker drew -/
def drawJob (threads : Nat) : Job Nat Nat Nat Nat :=
  ⟨[(0, 5), (1, 5)], threadsFor 2 threads 2, fun _ o => o = none, fun _ o => o = none, fun i _ => i⟩

theorem drawJob_set (threads : Nat) : SetUp (drawJob threads) 2 threads := ⟨(by decide : ([0, 1] : List Nat).Nodup), rfl⟩

/-- **C64 (not so).** Each worker reads the pipeline for itself.  With a stage for random parameters each draws its own, and the topics of one
run are not all ranked in the same way: with one thread the two topics here get the same answer, with two they do not. -/
theorem C64_own_draws : (drawJob 1).work = (drawJob 2).work ∧ (drawJob 1).answer = (drawJob 2).answer ∧
    (∀ results error before, Returns (drawJob 1) before true results error → results 0 = results 1) ∧
    (∀ results error before, Returns (drawJob 2) before true results error → results 0 ≠ results 1) := by
  refine ⟨rfl, rfl, ?_, ?_⟩
  · intro results error before hr
    have h := (C64_answered (drawJob_set 1) (by simp [drawJob]) hr).1
    rw [h.every 0 0 5 rfl, h.every 1 1 5 rfl]
    rfl
  · intro results error before hr
    have h := (C64_answered (drawJob_set 2) (by simp [drawJob]) hr).1
    rw [h.every 0 0 5 rfl, h.every 1 1 5 rfl]
    decide

/-- **C64 (not so).** A passage that is one word long (as all are in a ranking by frequencies annotated at the first word, C62) is never
identified by an identifier that is longer. -/
theorem C64_point_unidentified {ids : List Ann} (hi : ∀ a ∈ ids, a.p < a.q) {p : Int} {o : Option Ann} (h : Identifies ids (p, p) o) : o = none := by
  cases h with
  | found g1 g2 _ g4 => have := hi _ g1; omega
  | beyond => rfl
  | last => rfl

end Verif.Props
