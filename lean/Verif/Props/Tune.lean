import Verif.Tune.Model
import Verif.Props.Eval
import Verif.Props.RankTool
/-
  C95: the program that looks for parameters measures each topic once in each round, and lists by true means.

  The theorems about means are `_partial`: numbers are exact, and those of the program are rounded, so that the last digits may depend on the order of the topics.
-/
namespace Verif.Props
open Verif.Tune Verif.Eval

/-! ### threads -/

def busyOf {τ : Type} : Worker τ → List τ
  | .busy t => [t]
  | _ => []

/-- nothing is lost or done twice, and a worker stops only when the queue is empty -/
def PoolInv {τ : Type} (topics : List τ) (s : Pool τ) : Prop :=
  (s.finished ++ s.workers.flatMap busyOf ++ s.queue).Perm topics ∧ (.done ∈ s.workers → s.queue = [])

theorem set_busy {τ : Type} : ∀ (ws : List (Worker τ)) (i : Nat) (w x : Worker τ), ws[i]? = some w →
    ((ws.set i x).flatMap busyOf ++ busyOf w).Perm (ws.flatMap busyOf ++ busyOf x) := by
  intro ws
  induction ws with
  | nil => intro i w x h; simp at h
  | cons a ws ih =>
    intro i w x h
    cases i with
    | zero =>
      simp only [List.getElem?_cons_zero, Option.some.injEq] at h
      subst h
      simp only [List.set_cons_zero, List.flatMap_cons]
      rw [List.append_assoc, List.append_assoc]
      exact (List.perm_append_comm.append_left _).trans (by
        rw [← List.append_assoc, ← List.append_assoc]
        exact (List.perm_append_comm.append_right _).trans (by rw [List.append_assoc, List.append_assoc]; exact List.perm_append_comm.append_left _))
    | succ i =>
      simp only [List.getElem?_cons_succ] at h
      simp only [List.set_cons_succ, List.flatMap_cons, List.append_assoc]
      exact (ih i w x h).append_left _

theorem mem_set_done {τ : Type} {ws : List (Worker τ)} {i : Nat} {x : Worker τ} (h : .done ∈ ws.set i x) : .done ∈ ws ∨ x = .done := by
  rcases List.mem_or_eq_of_mem_set h with h | h
  · exact .inl h
  · exact .inr h.symm

theorem step_inv {τ : Type} {topics : List τ} {s : Pool τ} (h : PoolInv topics s) (i : Nat) : PoolInv topics (step s i) := by
  obtain ⟨h1, h2⟩ := h
  unfold step
  cases hw : s.workers[i]? with
  | none => exact ⟨h1, h2⟩
  | some w =>
    cases w with
    | done => exact ⟨h1, h2⟩
    | idle =>
      simp only
      cases hq : s.queue with
      | nil =>
        simp only
        refine ⟨?_, fun _ => rfl⟩
        have := set_busy s.workers i .idle .done hw
        simp only [busyOf, List.append_nil] at this
        have h1' := h1
        rw [hq] at h1'
        exact ((this.append_left s.finished).append_right []).trans h1'
      | cons t q =>
        simp only
        refine ⟨?_, ?_⟩
        · have := set_busy s.workers i .idle (.busy t) hw
          simp only [busyOf, List.append_nil] at this
          refine ((this.append_left s.finished).append_right q).trans ?_
          rw [hq] at h1
          simpa using h1
        · intro hd
          rcases mem_set_done hd with hd | hd
          · have := h2 hd
            rw [hq] at this
            cases this
          · cases hd
    | busy t =>
      simp only
      refine ⟨?_, ?_⟩
      · have := set_busy s.workers i (.busy t) .idle hw
        simp only [busyOf, List.append_nil] at this
        have e : (s.finished ++ [t] ++ (s.workers.set i .idle).flatMap busyOf ++ s.queue).Perm (s.finished ++ ((s.workers.set i .idle).flatMap busyOf ++ [t]) ++ s.queue) := by
          rw [List.append_assoc s.finished]
          exact (List.perm_append_comm.append_left _).append_right _
        exact e.trans (((this.append_left _).append_right _).trans h1)
      · intro hd
        rcases mem_set_done hd with hd | hd
        · exact h2 hd
        · cases hd

theorem pool_inv {τ : Type} (topics : List τ) (threads : Nat) (schedule : List Nat) :
    PoolInv topics (pool topics threads schedule) ∧ (pool topics threads schedule).workers.length = threads := by
  have start : PoolInv topics ⟨topics, List.replicate threads .idle, []⟩ := by
    refine ⟨?_, ?_⟩
    · have : (List.replicate threads (.idle : Worker τ)).flatMap busyOf = [] := by
        rw [List.flatMap_eq_nil_iff]
        intro w hw
        rw [(List.mem_replicate.1 hw).2]
        rfl
      simp [this]
    · intro h
      have := (List.mem_replicate.1 h).2
      cases this
  have all : ∀ (sch : List Nat) (s : Pool τ), PoolInv topics s → PoolInv topics (sch.foldl step s) ∧ (sch.foldl step s).workers.length = s.workers.length := by
    intro sch
    induction sch with
    | nil => intro s h; exact ⟨h, rfl⟩
    | cons i sch ih =>
      intro s h
      obtain ⟨a, b⟩ := ih (step s i) (step_inv h i)
      refine ⟨a, b.trans ?_⟩
      unfold step
      split
      · split <;> simp
      · simp
      · rfl
  obtain ⟨h, hl⟩ := all schedule _ start
  exact ⟨h, hl.trans (by simp)⟩

theorem pool_queue {τ : Type} (topics : List τ) (threads : Nat) (ht : 0 < threads) (schedule : List Nat) (hd : ∀ w ∈ (pool topics threads schedule).workers, w = .done) :
    (pool topics threads schedule).queue = [] := by
  obtain ⟨⟨-, h2⟩, hlen⟩ := pool_inv topics threads schedule
  apply h2
  cases hw : (pool topics threads schedule).workers with
  | nil => rw [hw] at hlen; simp at hlen; omega
  | cons w ws =>
    have := hd w (by rw [hw]; simp)
    rw [this]
    simp

/-- **C95** (threads): for every number of threads, and every order in which they run: when all have stopped, every topic was measured, and none twice -/
theorem C95_threads {τ : Type} (topics : List τ) (threads : Nat) (ht : 0 < threads) (schedule : List Nat) (hd : ∀ w ∈ (pool topics threads schedule).workers, w = .done) :
    (pool topics threads schedule).finished.Perm topics := by
  have h1 := (pool_inv topics threads schedule).1.1
  have hnil : (pool topics threads schedule).workers.flatMap busyOf = [] := by
    rw [List.flatMap_eq_nil_iff]
    intro w hw
    rw [hd w hw]
    rfl
  rw [hnil, pool_queue topics threads ht schedule hd] at h1
  simpa using h1

/-- what a worker still has to do -/
def workLeft {τ : Type} : Worker τ → Nat
  | .idle => 1
  | .busy _ => 2
  | .done => 0

theorem set_work {τ : Type} : ∀ (ws : List (Worker τ)) (i : Nat) (w x : Worker τ), ws[i]? = some w →
    ((ws.set i x).map workLeft).sum + workLeft w = (ws.map workLeft).sum + workLeft x := by
  intro ws
  induction ws with
  | nil => intro i w x h; simp at h
  | cons a ws ih =>
    intro i w x h
    cases i with
    | zero =>
      simp only [List.getElem?_cons_zero, Option.some.injEq] at h
      subst h
      simp only [List.set_cons_zero, List.map_cons, List.sum_cons]
      omega
    | succ i =>
      simp only [List.getElem?_cons_succ] at h
      simp only [List.set_cons_succ, List.map_cons, List.sum_cons]
      have := ih i w x h
      omega

theorem step_work {τ : Type} (s : Pool τ) (i : Nat) (w : Worker τ) (hw : s.workers[i]? = some w) (hd : ¬ w = .done) :
    2 * (step s i).queue.length + ((step s i).workers.map workLeft).sum + 1 = 2 * s.queue.length + (s.workers.map workLeft).sum := by
  unfold step
  rw [hw]
  cases w with
  | done => exact absurd rfl hd
  | idle =>
    simp only
    cases hq : s.queue with
    | nil =>
      have := set_work s.workers i .idle .done hw
      simp only [workLeft] at this ⊢
      omega
    | cons t q =>
      have := set_work s.workers i .idle (.busy t) hw
      simp only [workLeft, List.length_cons] at this ⊢
      omega
  | busy t =>
    have := set_work s.workers i (.busy t) .idle hw
    simp only [workLeft] at this ⊢
    omega

/-- every step is one of a worker that has not stopped -/
def NoneStopped {τ : Type} : List Nat → Pool τ → Prop
  | [], _ => True
  | i :: is, s => (∃ w, s.workers[i]? = some w ∧ ¬ w = .done) ∧ NoneStopped is (step s i)

/-- **C95** (a round ends): workers that have not stopped can take `2 * topics + threads` steps in all, whichever they are, and after as many all have stopped -/
theorem C95_ends {τ : Type} (topics : List τ) (threads : Nat) (ht : 0 < threads) (schedule : List Nat) (h : NoneStopped schedule ⟨topics, List.replicate threads .idle, []⟩) :
    schedule.length ≤ 2 * topics.length + threads ∧
      (schedule.length = 2 * topics.length + threads ↔ ∀ w ∈ (pool topics threads schedule).workers, w = .done) := by
  have all : ∀ (sch : List Nat) (s : Pool τ), NoneStopped sch s →
      2 * (sch.foldl step s).queue.length + ((sch.foldl step s).workers.map workLeft).sum + sch.length = 2 * s.queue.length + (s.workers.map workLeft).sum := by
    intro sch
    induction sch with
    | nil => intro s _; rfl
    | cons i sch ih =>
      rintro s ⟨⟨w, hw, hd⟩, h⟩
      have h1 := ih (step s i) h
      have h2 := step_work s i w hw hd
      rw [List.foldl_cons, List.length_cons]
      omega
  have key := all schedule _ h
  have e : ((List.replicate threads (.idle : Worker τ)).map workLeft).sum = threads := by
    simp [workLeft]
  simp only [e] at key
  refine ⟨by omega, ?_, ?_⟩
  · intro hl w hw
    have hz : ((pool topics threads schedule).workers.map workLeft).sum = 0 := by unfold pool; omega
    have := List.sum_eq_zero_iff_forall_eq_nat.1 hz (workLeft w) (List.mem_map.2 ⟨w, hw, rfl⟩)
    cases w with
    | done => rfl
    | idle => cases this
    | busy t => cases this
  · intro hd
    have hz : ((pool topics threads schedule).workers.map workLeft).sum = 0 := by
      rw [List.sum_eq_zero_iff_forall_eq_nat]
      intro x hx
      obtain ⟨w, hw, rfl⟩ := List.mem_map.1 hx
      rw [hd w hw]
      rfl
    have hq : (pool topics threads schedule).queue = [] := pool_queue topics threads ht schedule hd
    unfold pool at hz hq
    rw [hq] at key
    simp only [List.length_nil] at key
    omega

/-! ### rounds -/

section
variable {τ P κ : Type} [DecidableEq τ] [DecidableEq κ]
set_option linter.unusedSectionVars false

theorem sum_perm {l l' : List Rat} (h : l.Perm l') : l.sum = l'.sum := by
  induction h with
  | nil => rfl
  | cons x _ ih => simp only [List.sum_cons, ih]
  | swap x y l => simp only [List.sum_cons, ← Rat.add_assoc, Rat.add_comm x y]
  | trans _ _ h1 h2 => exact h1.trans h2

/-- the measures of all topics have the same names, each once -/
def SameNames (names : List κ) (topics : List τ) (f : τ → List (κ × Rat)) : Prop := names.Nodup ∧ ∀ t ∈ topics, (f t).map (·.1) = names

theorem metric_some {m : List (κ × Rat)} {k : κ} (h : k ∈ m.map (·.1)) : (metric m k).isSome := by
  unfold metric
  rw [Option.isSome_map, List.find?_isSome]
  obtain ⟨x, hx, rfl⟩ := List.mem_map.1 h
  exact ⟨x, hx, by simp⟩

theorem metric_entry {l : List (κ × Rat)} {x : κ × Rat} (hnod : (l.map (·.1)).Nodup) (hx : x ∈ l) : metric l x.1 = some x.2 := by
  unfold metric
  induction l with
  | nil => cases hx
  | cons y l ih =>
    rw [List.map_cons, List.nodup_cons] at hnod
    rcases List.mem_cons.1 hx with e | hx
    · subst e; simp
    · have hne' : ¬ y.1 = x.1 := fun e => hnod.1 (e ▸ List.mem_map.2 ⟨x, hx, rfl⟩)
      rw [List.find?_cons_of_neg (by simpa using hne')]
      exact ih hnod.2 hx

theorem means_average {σ : Type} {names : List κ} {f : σ → List (κ × Rat)} {ts : List σ} (h : SameNames names ts f) (h0 : ts ≠ []) :
    ∃ means, meanAll (ts.map f) ([], none) = some (means, some ((ts.length : Nat) : Rat)) ∧ means.map (·.1) = names
      ∧ ∀ x ∈ means, x.2 = average (ts.map fun t => (metric (f t) x.1).getD 0) := by
  cases ts with
  | nil => exact absurd rfl h0
  | cons t ts =>
    have hft := h.2 t (by simp)
    obtain ⟨means, h1, h2, h3⟩ := C60_mean_partial (first := f t) (by rw [hft]; exact h.1) (rest := ts.map f) (by
      intro m hm x hx
      obtain ⟨u, hu, rfl⟩ := List.mem_map.1 hm
      apply metric_some
      rw [h.2 u (by simp [hu]), ← hft]
      exact List.mem_map.2 ⟨x, hx, rfl⟩)
    refine ⟨means, ?_, h2.trans hft, ?_⟩
    · rw [List.map_cons, h1]
      simp
    · intro x hx
      rw [h3 x hx]
      simp [average, List.map_map, Function.comp_def]

/-- **C95** (a round): for every order in which the topics are measured, each measure that is reported for the round is its average over the topics,
and `n` is their number -/
theorem C95_round_partial {names : List κ} {result : τ → P × List (κ × Rat)} {topics finished : List τ} (h : SameNames names topics fun t => (result t).2) (h0 : topics ≠ [])
    (hp : finished.Perm topics) :
    ∃ means, roundMeans result finished = some (means, some ((topics.length : Nat) : Rat)) ∧ means.map (·.1) = names
      ∧ ∀ x ∈ means, x.2 = average (topics.map fun t => (metric (result t).2 x.1).getD 0) := by
  have h0' : finished ≠ [] := by
    rintro rfl
    exact h0 (List.nil_perm.1 hp)
  obtain ⟨means, h1, h2, h3⟩ := means_average ⟨h.1, fun t ht => h.2 t (hp.subset ht)⟩ h0'
  refine ⟨means, by unfold roundMeans; rw [h1, hp.length_eq], h2, ?_⟩
  intro x hx
  rw [h3 x hx]
  unfold average
  rw [sum_perm (hp.map _), List.length_map, List.length_map, hp.length_eq]

/-- **C95** (parameters): when the pipeline has the same parameters for all topics, those are reported -/
theorem C95_parameters {result : τ → P × List (κ × Rat)} {p : P} {topics finished : List τ} (h0 : topics ≠ []) (hp : finished.Perm topics) (h : ∀ t ∈ topics, (result t).1 = p) :
    roundParameters result finished = some p := by
  unfold roundParameters
  cases hl : finished.getLast? with
  | none =>
    rw [List.getLast?_eq_none_iff] at hl
    rw [hl] at hp
    exact absurd (List.nil_perm.1 hp) h0
  | some t =>
    have := List.mem_of_getLast? hl
    simp only [Option.map_some, h t (hp.subset this)]

theorem record_trials {result : τ → P × List (κ × Rat)} : ∀ {finished : List τ}, finished.Nodup → ∀ (trials : τ → List (Trial P κ)) (x : τ),
    Tune.record result finished trials x = trials x ++ (if x ∈ finished then [⟨(result x).1, ((result x).2, none)⟩] else []) := by
  intro finished
  induction finished with
  | nil => intro _ trials x; simp [Tune.record]
  | cons t ts ih =>
    intro hn trials x
    have hn' := List.nodup_cons.1 hn
    have e : Tune.record result (t :: ts) trials = Tune.record result ts (fun x => if x = t then trials x ++ [⟨(result t).1, ((result t).2, none)⟩] else trials x) := rfl
    rw [e, ih hn'.2]
    by_cases hx : x = t
    · subst hx
      simp [hn'.1]
    · simp [hx]

/-- **C95** (trials): after any number of rounds, each in its own order, the trials of a topic are those of the rounds, one from each and in order -/
theorem C95_trials {topics : List τ} (hn : topics.Nodup) : ∀ (rounds : List ((τ → P × List (κ × Rat)) × List τ)), (∀ r ∈ rounds, r.2.Perm topics) → ∀ t ∈ topics,
    allTrials rounds (fun _ => []) t = rounds.map fun r => ⟨(r.1 t).1, ((r.1 t).2, none)⟩ := by
  intro rounds h t ht
  have : ∀ (rounds : List ((τ → P × List (κ × Rat)) × List τ)) (trials : τ → List (Trial P κ)), (∀ r ∈ rounds, r.2.Perm topics) →
      allTrials rounds trials t = trials t ++ rounds.map fun r => ⟨(r.1 t).1, ((r.1 t).2, none)⟩ := by
    intro rounds
    induction rounds with
    | nil => intro trials _; simp [allTrials]
    | cons r rs ih =>
      intro trials h
      have hr := h r (by simp)
      rw [allTrials, ih _ (fun x hx => h x (by simp [hx])), record_trials (hr.nodup_iff.2 hn), if_pos (hr.symm.subset ht)]
      simp
  rw [this rounds _ h]
  rfl

/-! ### the best for each topic -/

/-- **C95** (the best for a topic): it is one of the trials, and no other has a greater value -/
theorem C95_best (k : κ) : ∀ (ts : List (Trial P κ)) (first : Trial P κ), (∀ t ∈ first :: ts, (lookup t.metrics (some k)).isSome) →
    ∃ b, bestLoop (some k) first ts = some b ∧ b ∈ first :: ts ∧ ∀ t ∈ first :: ts, (lookup t.metrics (some k)).getD 0 ≤ (lookup b.metrics (some k)).getD 0 := by
  intro ts
  induction ts with
  | nil => intro first _; exact ⟨first, rfl, by simp, fun t ht => by rw [List.mem_singleton.1 ht]; exact Rat.le_refl⟩
  | cons t ts ih =>
    intro first h
    have ht := h t (by simp)
    cases hv : lookup t.metrics (some k) with
    | none => rw [hv] at ht; cases ht
    | some v =>
      rw [bestLoop, hv]
      simp only
      by_cases hc : v > (lookup first.metrics (some k)).getD 0
      · rw [if_pos hc]
        obtain ⟨b, h1, h2, h3⟩ := ih t (fun x hx => h x (List.mem_cons_of_mem _ hx))
        refine ⟨b, h1, List.mem_cons_of_mem _ h2, ?_⟩
        intro x hx
        rcases List.mem_cons.1 hx with e | hx
        · have hb := h3 t (by simp)
          rw [hv] at hb
          rw [e]
          exact Rat.le_trans (Rat.le_of_lt hc) hb
        · exact h3 x hx
      · rw [if_neg hc]
        obtain ⟨b, h1, h2, h3⟩ := ih first (fun x hx => by
          rcases List.mem_cons.1 hx with e | hx
          · exact h x (by rw [e]; simp)
          · exact h x (by simp [hx]))
        refine ⟨b, h1, ?_, ?_⟩
        · rcases List.mem_cons.1 h2 with e | h2
          · rw [e]; simp
          · simp [h2]
        · intro x hx
          rcases List.mem_cons.1 hx with e | hx
          · exact h3 x (by rw [e]; simp)
          · rcases List.mem_cons.1 hx with e | hx
            · have hb := h3 first (by simp)
              rw [e, hv]
              exact Rat.le_trans (Rat.not_lt.1 hc) hb
            · exact h3 x (by simp [hx])

/-- **The metric `n` is accepted**, since the means of a round have it, **and then the program ends with an exception**: the measures of a topic have none -/
theorem C95_n {result : τ → P × List (κ × Rat)} {finished : List τ} {m : Means κ} (h0 : finished ≠ []) (h : roundMeans result finished = some m) (first second : Trial P κ) (ts : List (Trial P κ))
    (hs : second.metrics.2 = none) : accepted m none = true ∧ bestLoop none first (second :: ts) = none := by
  refine ⟨?_, by simp only [bestLoop, lookup, hs]⟩
  unfold accepted lookup
  simp only
  have key : ∀ (l : List (List (κ × Rat))) (s : Means κ), s.2.isSome → ∀ m, meanAll l s = some m → m.2.isSome := by
    intro l
    induction l with
    | nil => intro s hs m h; simp only [meanAll, Option.some.injEq] at h; rw [← h]; exact hs
    | cons x l ih =>
      rintro ⟨a, n⟩ hs m h
      cases n with
      | none => cases hs
      | some n =>
        rw [meanAll] at h
        simp only [mean] at h
        cases hl : meanLoop (fun y v => (y * n + v) / (n + 1)) x a with
        | none => rw [hl] at h; simp at h
        | some l' =>
          rw [hl] at h
          simp only [Option.map_some] at h
          exact ih _ rfl m h
  cases finished with
  | nil => exact absurd rfl h0
  | cons t ts' =>
    unfold roundMeans at h
    rw [List.map_cons, meanAll] at h
    simp only [mean] at h
    exact key _ _ rfl m h

/-! ### bootstrap -/

/-- the trials of all topics, round by round -/
def Aligned (trials : τ → List (Trial P κ)) (f : Nat → τ → List (κ × Rat)) (n : Nat) (topics : List τ) : Prop :=
  ∀ t ∈ topics, ∀ j, j < n → ∃ p, (trials t)[j]? = some ⟨p, (f j t, none)⟩

theorem current_average {names : List κ} (hne : names ≠ []) {f : Nat → τ → List (κ × Rat)} {n j : Nat} {trials : τ → List (Trial P κ)} {topics selected : List τ}
    (ha : Aligned trials f n topics) (hf : SameNames names topics (f j)) (hj : j < n) (h0 : selected ≠ []) (hs : ∀ t ∈ selected, t ∈ topics) :
    ∃ means c, current trials selected j = some (means, c) ∧ means.map (·.1) = names
      ∧ ∀ x ∈ means, x.2 = average (selected.map fun t => (metric (f j t) x.1).getD 0) := by
  cases selected with
  | nil => exact absurd rfl h0
  | cons t ts =>
    obtain ⟨p, hp⟩ := ha t (hs t (by simp)) j hj
    have hmap : (ts.map fun t => ((trials t)[j]?.map (·.metrics.1)).getD []) = ts.map (f j) := by
      apply List.map_congr_left
      intro u hu
      obtain ⟨p', hp'⟩ := ha u (hs u (by simp [hu])) j hj
      rw [hp']
      rfl
    have hft : f j t ≠ [] := by
      intro e
      have := hf.2 t (hs t (by simp))
      rw [e] at this
      exact hne this.symm
    obtain ⟨means, h1, h2, h3⟩ := means_average ⟨hf.1, fun t ht => hf.2 t (hs t ht)⟩ h0
    unfold current
    simp only [hp, hmap]
    cases ts with
    | nil =>
      refine ⟨f j t, none, rfl, hf.2 t (hs t (by simp)), ?_⟩
      intro x hx
      have : metric (f j t) x.1 = some x.2 := metric_entry (by rw [hf.2 t (hs t (by simp))]; exact hf.1) hx
      simp only [List.map_cons, List.map_nil, this, Option.getD_some, average, List.sum_cons, List.sum_nil, List.length_cons, List.length_nil]
      rw [Rat.add_zero, show ((0 + 1 : Nat) : Rat) = 1 from rfl, Rat.div_def, show (1 : Rat)⁻¹ = 1 from by decide +kernel, Rat.mul_one]
    | cons u us =>
      refine ⟨means, some (((t :: u :: us).length : Nat) : Rat), ?_, h2, h3⟩
      rw [List.map_cons, C60_mean_from_measures hft]
      exact h1

theorem bootstrap_average {names : List κ} (hne : names ≠ []) {f : Nat → τ → List (κ × Rat)} {n j : Nat} {trials : τ → List (Trial P κ)} {topics : List τ}
    (ha : Aligned trials f n topics) (hf : SameNames names topics (f j)) (hj : j < n) (h0 : topics ≠ []) (samples : List (List τ))
    (hs : ∀ s ∈ samples, s ≠ [] ∧ ∀ t ∈ s, t ∈ topics) :
    ∃ means c, bootstrap trials topics samples j = some (means, c) ∧ means.map (·.1) = names
      ∧ ∀ x ∈ means, x.2 = average ((topics :: samples).map fun s => average (s.map fun t => (metric (f j t) x.1).getD 0)) := by
  -- the means of a sample
  let g : List τ → List (κ × Rat) := fun s => ((current trials s j).map (·.1)).getD []
  have hall : ∀ s ∈ topics :: samples, s ≠ [] ∧ ∀ t ∈ s, t ∈ topics := by
    intro s hs'
    rcases List.mem_cons.1 hs' with e | hs'
    · rw [e]; exact ⟨h0, fun t ht => ht⟩
    · exact hs s hs'
  have hg : ∀ s ∈ topics :: samples, ∃ c, current trials s j = some (g s, c) ∧ (g s).map (·.1) = names
      ∧ ∀ x ∈ g s, x.2 = average (s.map fun t => (metric (f j t) x.1).getD 0) := by
    intro s hs'
    obtain ⟨means, c, h1, h2, h3⟩ := current_average hne ha hf hj (hall s hs').1 (hall s hs').2
    have e : g s = means := by
      simp only [g]
      rw [h1]
      rfl
    rw [e]
    exact ⟨c, h1, h2, h3⟩
  have hcum : ∀ (ss : List (List τ)) (m : Means κ), (∀ s ∈ ss, s ∈ topics :: samples) → cumulate trials j ss m = meanAll (ss.map g) m := by
    intro ss
    induction ss with
    | nil => intro m _; rfl
    | cons s ss ih =>
      intro m h
      obtain ⟨c, h1, -⟩ := hg s (h s (by simp))
      rw [cumulate, h1, List.map_cons, meanAll]
      simp only
      cases mean (g s) m with
      | none => rfl
      | some m' => exact ih m' (fun x hx => h x (by simp [hx]))
  have hboot : bootstrap trials topics samples j = meanAll ((topics :: samples).map g) ([], none) := by
    obtain ⟨c, h1, -⟩ := hg topics (by simp)
    unfold bootstrap
    rw [h1, List.map_cons, meanAll]
    simp only
    cases mean (g topics) ([], none) with
    | none => rfl
    | some m => exact hcum samples m (fun s hs' => by simp [hs'])
  obtain ⟨means, h1, h2, h3⟩ := means_average (names := names) (f := g) (ts := topics :: samples) ⟨hf.1, fun s hs' => by
    obtain ⟨c, -, h2, -⟩ := hg s hs'
    exact h2⟩ (by simp)
  refine ⟨means, _, hboot.trans h1, h2, ?_⟩
  intro x hx
  rw [h3 x hx]
  congr 1
  apply List.map_congr_left
  intro s hs'
  obtain ⟨c, -, h4, h5⟩ := hg s hs'
  have hk : x.1 ∈ (g s).map (·.1) := by rw [h4, ← h2]; exact List.mem_map.2 ⟨x, hx, rfl⟩
  obtain ⟨y, hy, hxy⟩ := List.mem_map.1 hk
  have hm := metric_entry (by rw [h4]; exact hf.1) hy
  rw [← hxy, hm, Option.getD_some, h5 y hy]

theorem aligned_trials {topics : List τ} (hn : topics.Nodup) {rounds : List ((τ → P × List (κ × Rat)) × List τ)} (hr : ∀ r ∈ rounds, r.2.Perm topics) :
    Aligned (allTrials rounds fun _ => []) (fun j t => ((rounds[j]?).map fun r => (r.1 t).2).getD []) rounds.length topics := by
  intro t ht j hj
  rw [C95_trials hn rounds hr t ht, List.getElem?_map]
  simp only [List.getElem?_eq_getElem hj]
  exact ⟨_, rfl⟩

/-- **C95** (bootstrap): after any rounds, whatever the order of the topics in each, and for all samples of the topics: each measure by which the round `j` is listed is the
average, over the topics themselves and the samples, of its average in that round over the topics in the sample -/
theorem C95_bootstrap_partial {names : List κ} (hne : names ≠ []) {topics : List τ} (hn : topics.Nodup) (h0 : topics ≠ []) {rounds : List ((τ → P × List (κ × Rat)) × List τ)}
    (hr : ∀ r ∈ rounds, r.2.Perm topics) (hf : ∀ r ∈ rounds, SameNames names topics fun t => (r.1 t).2) (samples : List (List τ)) (hs : ∀ s ∈ samples, s ≠ [] ∧ ∀ t ∈ s, t ∈ topics)
    (j : Nat) (hj : j < rounds.length) :
    ∃ means c, bootstrap (allTrials rounds fun _ => []) topics samples j = some (means, c) ∧ means.map (·.1) = names
      ∧ ∀ x ∈ means, x.2 = average ((topics :: samples).map fun s => average (s.map fun t => (metric (rounds[j].1 t).2 x.1).getD 0)) := by
  have h := bootstrap_average (j := j) hne (aligned_trials hn hr) (by
    have := hf rounds[j] (List.getElem_mem hj)
    simpa only [List.getElem?_eq_getElem hj, Option.map_some, Option.getD_some] using this) hj h0 samples hs
  simpa only [List.getElem?_eq_getElem hj, Option.map_some, Option.getD_some] using h

/-- **C95** (magical parameters): each measure is the average over the topics of what it is in a round that is the best for the topic; such a round is chosen for each topic by itself -/
theorem C95_magical_partial {names : List κ} {k : κ} (hk : k ∈ names) {topics : List τ} (hn : topics.Nodup) (h0 : topics ≠ []) {rounds : List ((τ → P × List (κ × Rat)) × List τ)} (hr0 : rounds ≠ [])
    (hr : ∀ r ∈ rounds, r.2.Perm topics) (hf : ∀ r ∈ rounds, SameNames names topics fun t => (r.1 t).2) :
    ∃ (best : τ → List (κ × Rat)) (means : List (κ × Rat)) (c : Option Rat),
      (∀ t ∈ topics, (∃ r ∈ rounds, best t = (r.1 t).2) ∧ ∀ r ∈ rounds, (metric (r.1 t).2 k).getD 0 ≤ (metric (best t) k).getD 0) ∧
      magical (some k) (allTrials rounds fun _ => []) topics ([], none) = some (means, c) ∧ means.map (·.1) = names ∧
      ∀ x ∈ means, x.2 = average (topics.map fun t => (metric (best t) x.1).getD 0) := by
  -- the best trial of a topic
  let best : τ → List (κ × Rat) := fun t =>
    match allTrials rounds (fun _ => []) t with
    | [] => []
    | first :: rest => ((bestLoop (some k) first rest).map (·.metrics.1)).getD []
  have hb : ∀ t ∈ topics, ∃ first rest b, allTrials rounds (fun _ => []) t = first :: rest ∧ bestLoop (some k) first rest = some b ∧ b.metrics.1 = best t ∧
      (∃ r ∈ rounds, best t = (r.1 t).2) ∧ ∀ r ∈ rounds, (metric (r.1 t).2 k).getD 0 ≤ (metric (best t) k).getD 0 := by
    intro t ht
    have ha := C95_trials hn rounds hr t ht
    cases hl : allTrials rounds (fun _ => []) t with
    | nil =>
      rw [hl] at ha
      exact absurd (List.map_eq_nil_iff.1 ha.symm) hr0
    | cons first rest =>
      rw [hl] at ha
      have hall : ∀ x ∈ first :: rest, ∃ r ∈ rounds, x = ⟨(r.1 t).1, ((r.1 t).2, none)⟩ := by
        intro x hx
        rw [ha] at hx
        obtain ⟨r, hr', rfl⟩ := List.mem_map.1 hx
        exact ⟨r, hr', rfl⟩
      obtain ⟨b, h1, h2, h3⟩ := C95_best k rest first (fun x hx => by
        obtain ⟨r, hr', rfl⟩ := hall x hx
        exact metric_some (by rw [(hf r hr').2 t ht]; exact hk))
      have e : best t = b.metrics.1 := by
        simp only [best, hl, h1]
        rfl
      refine ⟨first, rest, b, rfl, h1, e.symm, ?_, ?_⟩
      · obtain ⟨r, hr', e'⟩ := hall b h2
        exact ⟨r, hr', by rw [e, e']⟩
      · intro r hr'
        have := h3 ⟨(r.1 t).1, ((r.1 t).2, none)⟩ (by rw [ha]; exact List.mem_map.2 ⟨r, hr', rfl⟩)
        rw [e]
        exact this
  have hm : ∀ (ts : List τ) (m : Means κ), (∀ t ∈ ts, t ∈ topics) → magical (some k) (allTrials rounds fun _ => []) ts m = meanAll (ts.map best) m := by
    intro ts
    induction ts with
    | nil => intro m _; rfl
    | cons t ts ih =>
      intro m h
      obtain ⟨first, rest, b, h1, h2, h3, -⟩ := hb t (h t (by simp))
      rw [magical, h1, List.map_cons, meanAll]
      simp only [h2, h3]
      cases mean (best t) m with
      | none => rfl
      | some m' => exact ih m' (fun x hx => h x (by simp [hx]))
  have hsame : SameNames names topics best := by
    refine ⟨?_, ?_⟩
    · cases hl : rounds with
      | nil => exact absurd hl hr0
      | cons r rs => exact (hf r (by rw [hl]; simp)).1
    · intro t ht
      obtain ⟨_, _, _, _, _, _, ⟨r, hr', e⟩, _⟩ := hb t ht
      rw [e]
      exact (hf r hr').2 t ht
  obtain ⟨means, h1, h2, h3⟩ := means_average hsame h0
  refine ⟨best, means, _, ?_, (hm topics _ fun _ h => h).trans h1, h2, h3⟩
  intro t ht
  obtain ⟨_, _, _, _, _, _, h4, h5⟩ := hb t ht
  exact ⟨h4, h5⟩

end

/-! ### what is listed -/

/-- **C95** (the list): in every order in which the rounds may be sorted, none that is left out of the first `n` is better than one that is among them, and none that is
left out of the last `n` is worse than one among those -/
theorem C95_listed {α : Type} {v : α → Rat} {l sorted : List α} (h : SortedBy v l sorted) (n : Nat) :
    (sorted.take n).length = min n l.length ∧ (∀ a ∈ sorted.take n, ∀ b ∈ sorted.drop n, v b ≤ v a) ∧ (∀ a ∈ sorted.reverse.take n, ∀ b ∈ sorted.reverse.drop n, v a ≤ v b)
      ∧ (sorted.take n).Pairwise fun a b => v b ≤ v a := by
  obtain ⟨hp, hs⟩ := h
  refine ⟨by rw [List.length_take, hp.length_eq], ?_, ?_, hs.sublist (List.take_sublist _ _)⟩
  · have := hs
    rw [← List.take_append_drop n sorted, List.pairwise_append] at this
    exact this.2.2
  · have := List.pairwise_reverse.2 hs
    rw [← List.take_append_drop n sorted.reverse, List.pairwise_append] at this
    exact this.2.2

/-! ### queries -/

theorem readTopics_iff (judged : Text → Bool) : ∀ (ls : List Text) (qs all : List (Text × Text)), (qs.map (·.1)).Nodup →
    (readTopics judged qs ls = some all ↔
      ∃ more, RankTool.readQueries ls = some more ∧ all = qs ++ more ∧ (all.map (·.1)).Nodup ∧ ∀ q ∈ more, judged q.1 = true) := by
  intro ls
  induction ls with
  | nil =>
    intro qs all hn
    simp only [readTopics, RankTool.readQueries, Option.some.injEq]
    constructor
    · rintro rfl; exact ⟨[], rfl, by simp, hn, by simp⟩
    · rintro ⟨more, rfl, rfl, -, -⟩; simp
  | cons l ls ih =>
    intro qs all hn
    rw [readTopics, RankTool.readQueries]
    cases hl : RankTool.splitQuery l with
    | none => simp
    | some x =>
      simp only
      by_cases hc : (!judged x.1 || qs.any (fun q => q.1 == x.1)) = true
      · rw [if_pos hc]
        constructor
        · intro h; cases h
        · rintro ⟨more, h1, rfl, h3, h4⟩
          cases hr : RankTool.readQueries ls with
          | none => rw [hr] at h1; cases h1
          | some xs =>
            rw [hr] at h1
            simp only [Option.some.injEq] at h1
            subst h1
            exfalso
            have hj := h4 x (by simp)
            rw [hj] at hc
            simp only [Bool.not_true, Bool.false_or, List.any_eq_true, beq_iff_eq] at hc
            obtain ⟨q, hq, e⟩ := hc
            rw [List.map_append, List.nodup_append] at h3
            exact h3.2.2 _ (List.mem_map.2 ⟨q, hq, rfl⟩) x.1 (by simp) e
      · rw [if_neg hc]
        simp only [Bool.or_eq_true, Bool.not_eq_true', not_or, Bool.not_eq_false, Bool.not_eq_true, List.any_eq_false, beq_iff_eq] at hc
        have hn' : ((qs ++ [x]).map (·.1)).Nodup := by
          rw [List.map_append, List.nodup_append]
          refine ⟨hn, by simp, ?_⟩
          intro a ha b hb e
          obtain ⟨q, hq, rfl⟩ := List.mem_map.1 ha
          simp only [List.map_cons, List.map_nil, List.mem_singleton] at hb
          exact hc.2 q hq (e.trans hb)
        rw [ih (qs ++ [x]) all hn']
        constructor
        · rintro ⟨more, h1, rfl, h3, h4⟩
          exact ⟨x :: more, by rw [h1], by simp, h3, fun q hq => by
            rcases List.mem_cons.1 hq with e | hq
            · rw [e]; exact hc.1
            · exact h4 q hq⟩
        · rintro ⟨more, h1, rfl, h3, h4⟩
          cases hr : RankTool.readQueries ls with
          | none => rw [hr] at h1; cases h1
          | some xs =>
            rw [hr] at h1
            simp only [Option.some.injEq] at h1
            subst h1
            exact ⟨xs, rfl, by simp, h3, fun q hq => h4 q (by simp [hq])⟩

/-- **C95** (queries): a file of queries is taken exactly when there is a query, all of its lines are good, no topic is there twice and all are in the judgements -/
theorem C95_queries (judged : Text → Bool) (ls : List Text) (qs : List (Text × Text)) :
    topicsOf judged ls = some qs ↔ RankTool.readQueries ls = some qs ∧ qs ≠ [] ∧ (qs.map (·.1)).Nodup ∧ ∀ q ∈ qs, judged q.1 = true := by
  unfold topicsOf
  cases hr : readTopics judged [] ls with
  | none =>
    simp only
    constructor
    · intro h; cases h
    · rintro ⟨h1, -, h3, h4⟩
      have := (readTopics_iff judged ls [] qs (by simp)).2 ⟨qs, h1, rfl, h3, h4⟩
      rw [hr] at this
      cases this
  | some all =>
    simp only
    obtain ⟨more, h1, rfl, h3, h4⟩ := (readTopics_iff judged ls [] all (by simp)).1 hr
    constructor
    · intro h
      split at h
      · cases h
      · simp only [Option.some.injEq] at h
        subst h
        exact ⟨h1, by simpa using ‹¬ all.isEmpty = true›, h3, h4⟩
    · rintro ⟨e, h0, -, -⟩
      rw [h1] at e
      simp only [Option.some.injEq] at e
      subst e
      rw [if_neg (by simpa using h0)]

/-- **C95** (queries, as text): what is written as a topic, a blank or a tab, and a query, line by line, is read as that -/
theorem C95_queries_text (judged : Text → Bool) (qs : List Query) (hg : ∀ q ∈ qs, q.Good) (h0 : qs ≠ []) (hd : (qs.map (·.topic)).Nodup) (hj : ∀ q ∈ qs, judged q.topic = true) :
    topicsOf judged (Verif.Judge.lines (queriesText qs)) = some (qs.map fun q => (q.topic, q.sep :: q.text)) := by
  rw [C95_queries]
  have hl := lines_queries qs hg []
  rw [List.append_nil] at hl
  refine ⟨?_, by simpa using h0, ?_, ?_⟩
  · rw [hl]
    have e : Verif.Judge.lines [] = [] := by decide
    rw [e, List.append_nil]
    exact read_queries qs hg
  · rw [List.map_map]
    exact hd
  · intro q hq
    obtain ⟨x, hx, rfl⟩ := List.mem_map.1 hq
    exact hj x hx

/-! ### examples -/

/-- two topics and two measures, in two rounds -/
def roundA (t : Bool) : Nat × List (Nat × Rat) := (7, if t then [(0, 1), (1, 3)] else [(0, 2), (1, 5)])
def roundB (t : Bool) : Nat × List (Nat × Rat) := (8, if t then [(0, 4), (1, 1)] else [(0, 1), (1, 6)])
def twoRounds : List ((Bool → Nat × List (Nat × Rat)) × List Bool) := [(roundA, [false, true]), (roundB, [true, false])]

-- three threads: the second topic is measured before the first, and all take their seven steps
example : NoneStopped [2, 0, 0, 2, 1, 0, 2] (⟨[true, false], List.replicate 3 .idle, []⟩ : Pool Bool) := by
  refine ⟨⟨_, rfl, ?_⟩, ⟨_, rfl, ?_⟩, ⟨_, rfl, ?_⟩, ⟨_, rfl, ?_⟩, ⟨_, rfl, ?_⟩, ⟨_, rfl, ?_⟩, ⟨_, rfl, ?_⟩, trivial⟩ <;> decide
example : pool [true, false] 3 [2, 0, 0, 2, 1, 0, 2] = ⟨[], [.done, .done, .done], [false, true]⟩ := by decide
example : (pool [true, false] 3 [2, 0, 0, 2, 1, 0, 2]).finished.Perm [true, false] := C95_threads _ _ (by decide) _ (by decide)

theorem twoRounds_names : ∀ r ∈ twoRounds, SameNames [0, 1] [true, false] fun t => (r.1 t).2 := by
  intro r hr
  simp only [twoRounds, List.mem_cons, List.not_mem_nil, or_false] at hr
  refine ⟨by decide, ?_⟩
  rcases hr with rfl | rfl <;> decide

theorem twoRounds_perm : ∀ r ∈ twoRounds, r.2.Perm [true, false] := by
  intro r hr
  simp only [twoRounds, List.mem_cons, List.not_mem_nil, or_false] at hr
  rcases hr with rfl | rfl
  · exact List.Perm.swap _ _ _
  · exact List.Perm.refl _

example : roundMeans roundA [false, true] = some ([(0, 3 / 2), (1, 4)], some 2) := by decide +kernel
example : roundParameters roundA [false, true] = some 7 := C95_parameters (topics := [true, false]) (by simp) (List.Perm.swap _ _ _) (by decide)
example : ∃ means, roundMeans roundA [false, true] = some (means, some ((2 : Nat) : Rat)) ∧ means.map (·.1) = [0, 1] ∧ ∀ x ∈ means, x.2 = average ([true, false].map fun t => (metric (roundA t).2 x.1).getD 0) :=
  C95_round_partial (twoRounds_names (roundA, [false, true]) (by simp [twoRounds])) (by simp) (List.Perm.swap _ _ _)
example : ((allTrials twoRounds fun _ => []) true).map (·.metrics.1) = [[(0, 1), (1, 3)], [(0, 4), (1, 1)]] := by decide +kernel
-- with one sample, in which the first topic is twice
example : bootstrap (allTrials twoRounds fun _ => []) [true, false] [[true, true]] 1 = some ([(0, 13 / 4), (1, 9 / 4)], some 2) := by decide +kernel
example := C95_bootstrap_partial (by simp) (by decide) (by simp) twoRounds_perm twoRounds_names [[true, true]] (by decide) 1 (by decide)
-- the second round is better for the first topic, and the first for the second
example : magical (some 0) (allTrials twoRounds fun _ => []) [true, false] ([], none) = some ([(0, 3), (1, 3)], some 2) := by decide +kernel
example := C95_magical_partial (k := 0) (by simp) (by decide) (by simp) (by simp [twoRounds]) twoRounds_perm twoRounds_names
-- `n` is accepted and then there is an exception
example : magical none (allTrials twoRounds fun _ => []) [true, false] ([], none) = none ∧ accepted (κ := Nat) ([(0, 3 / 2), (1, 4)], some 2) none = true := by decide +kernel
-- queries
example : (topicsOf (fun _ => true) (Verif.Judge.lines (queriesText twoQueries))).isSome = true := by
  rw [C95_queries_text _ twoQueries twoQueries_good (by decide) (by decide) (by decide)]
  rfl
example : topicsOf (fun _ => true) [['1', ' ', 'a'], ['1', '\t', 'b']] = none := by decide
example : topicsOf (fun t => t != ['2']) [['1', ' ', 'a'], ['2', ' ', 'b']] = none := by decide
example : SortedBy (fun x : Nat => (x : Rat)) [1, 3, 2] [3, 2, 1] := ⟨by decide, by decide +kernel⟩

end Verif.Props
