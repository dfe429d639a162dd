import Verif.Phases.Model
/-
  C104: judgements have levels between 0 and 1 by their own file, and a collection goes on to its next phase only when every query has been answered in this one.
-/
namespace Verif.Props
open Verif.Phases

/-! ### judgements -/

theorem record_all_last : ∀ (rows : List Row) (m : Qrels) (t d : List Char), recordAll rows m t d = ((lastPositive rows t d).map some).or (m t d) := by
  intro rows
  induction rows with
  | nil => intro m t d; rfl
  | cons r rows ih =>
    intro m t d
    have e : recordAll (r :: rows) m = recordAll rows (record r m) := rfl
    rw [e, ih]
    unfold lastPositive
    by_cases h : r.topic = t ∧ r.docno = d ∧ r.level > 0
    · rw [List.filter_cons_of_pos (by simpa using h), List.getLast?_cons]
      have hr : record r m t d = some (some r.level) := by
        unfold record
        rw [if_pos h.2.2, if_pos ⟨h.1.symm, h.2.1.symm⟩]
      rw [hr]
      cases (rows.filter fun r => r.topic = t ∧ r.docno = d ∧ r.level > 0).getLast? <;> rfl
    · rw [List.filter_cons_of_neg (by simpa using h)]
      have hr : record r m t d = m t d := by
        unfold record
        split
        · rename_i hl
          show (if t = r.topic ∧ d = r.docno then some (some r.level) else m t d) = _
          rw [if_neg (fun x => h ⟨x.1.symm, x.2.symm, hl⟩)]
        · rfl
      rw [hr]

theorem max_fold : ∀ (rows : List Row) (m : Rat), 0 ≤ m → m ≤ rows.foldl (fun m r => if r.level > 0 then (if m < r.level then r.level else m) else m) m ∧
    (∀ r ∈ rows, r.level ≤ rows.foldl (fun m r => if r.level > 0 then (if m < r.level then r.level else m) else m) m) ∧
    (rows.foldl (fun m r => if r.level > 0 then (if m < r.level then r.level else m) else m) m = m ∨ ∃ r ∈ rows, 0 < r.level ∧ rows.foldl (fun m r => if r.level > 0 then (if m < r.level then r.level else m) else m) m = r.level) := by
  intro rows
  induction rows with
  | nil => intro m _; exact ⟨Rat.le_refl, fun r h => (by cases h), .inl rfl⟩
  | cons r rows ih =>
    intro m hm
    rw [List.foldl_cons]
    by_cases h : r.level > 0
    · by_cases h' : m < r.level
      · rw [if_pos h, if_pos h']
        obtain ⟨a, b, c⟩ := ih r.level (Rat.le_of_lt h)
        refine ⟨Rat.le_trans (Rat.le_of_lt h') a, ?_, .inr ?_⟩
        · intro x hx
          rcases List.mem_cons.1 hx with rfl | hx
          · exact a
          · exact b x hx
        · rcases c with c | ⟨x, hx, c⟩
          · exact ⟨r, by simp, h, c⟩
          · exact ⟨x, by simp [hx], c⟩
      · rw [if_pos h, if_neg h']
        obtain ⟨a, b, c⟩ := ih m hm
        refine ⟨a, ?_, ?_⟩
        · intro x hx
          rcases List.mem_cons.1 hx with rfl | hx
          · exact Rat.le_trans (Rat.not_lt.1 h') a
          · exact b x hx
        · rcases c with c | ⟨x, hx, c⟩
          · exact .inl c
          · exact .inr ⟨x, by simp [hx], c⟩
    · rw [if_neg h]
      obtain ⟨a, b, c⟩ := ih m hm
      refine ⟨a, ?_, ?_⟩
      · intro x hx
        rcases List.mem_cons.1 hx with rfl | hx
        · exact Rat.le_trans (Rat.le_trans (Rat.not_lt.1 h) hm) a
        · exact b x hx
      · rcases c with c | ⟨x, hx, c⟩
        · exact .inl c
        · exact .inr ⟨x, by simp [hx], c⟩

/-- **C104** (levels), in part: from one file, the level of a document for a topic is the last positive one, over the largest of the file, which is a level of the file; all are above 0 and at most 1, and other
documents have none.  Missing: several files. -/
theorem C104_levels_partial (rows : List Row) (t d : List Char) :
    (lastPositive rows t d = none → loadFiles [rows] t d = none) ∧
    ∀ l, lastPositive rows t d = some l → loadFiles [rows] t d = some (some (l / maxLevel rows)) ∧ 0 < l ∧ l ≤ maxLevel rows ∧ ∃ r ∈ rows, r.level = maxLevel rows := by
  have e : loadFiles [rows] t d = ((lastPositive rows t d).map some).map (scale (maxLevel rows)) := by
    show (recordAll rows (fun _ _ => none) t d).map (scale (maxLevel rows)) = _
    rw [record_all_last]
    cases lastPositive rows t d <;> rfl
  refine ⟨fun h => by rw [e, h]; rfl, ?_⟩
  intro l h
  obtain ⟨r, hr, hl⟩ : ∃ r ∈ rows, 0 < r.level ∧ r.level = l := by
    unfold lastPositive at h
    obtain ⟨r, hr, hl⟩ := Option.map_eq_some_iff.1 h
    have := List.mem_of_getLast? hr
    obtain ⟨h1, h2⟩ := List.mem_filter.1 this
    simp only [decide_eq_true_eq] at h2
    exact ⟨r, h1, h2.2.2, hl⟩
  obtain ⟨a, b, c⟩ := max_fold rows 0 Rat.le_refl
  have hle : l ≤ maxLevel rows := hl.2 ▸ b r hr
  have hl0 : 0 < l := hl.2 ▸ hl.1
  have hm : maxLevel rows ≠ 0 := by
    intro x
    rw [x] at hle
    exact Rat.not_le.2 hl0 hle
  refine ⟨?_, hl0, hle, ?_⟩
  · rw [e, h]
    show some (if maxLevel rows = 0 then none else some (l / maxLevel rows)) = _
    rw [if_neg hm]
  · rcases c with c | ⟨x, hx, -, c⟩
    · exact absurd c hm
    · exact ⟨x, hx, c.symm⟩

/-- **Every file divides the judgements of all files before it**: a judgement that a file does not have is divided by the largest level of that file as well -/
theorem C104_divided (rows : List Row) (m : Qrels) (t d : List Char) (x : Rat) (h : lastPositive rows t d = none) (hm : m t d = some (some x)) (h0 : maxLevel rows ≠ 0) :
    load rows m t d = some (some (x / maxLevel rows)) := by
  unfold load
  rw [record_all_last, h]
  show (m t d).map _ = _
  rw [hm]
  show some (if maxLevel rows = 0 then none else some (x / maxLevel rows)) = _
  rw [if_neg h0]

/-- so that of two files with two documents of the highest level, that of the first has a half of that of the second -/
theorem C104_twice : loadFiles [[⟨['1'], ['a'], 2⟩], [⟨['2'], ['b'], 2⟩]] ['1'] ['a'] = some (some (1 / 2)) ∧ loadFiles [[⟨['1'], ['a'], 2⟩], [⟨['2'], ['b'], 2⟩]] ['2'] ['b'] = some (some 1) := by
  constructor <;> decide +kernel

/-- **A file without a relevant document spoils the judgements before it**: none of them is a finite number -/
theorem C104_none_relevant (rows : List Row) (m : Qrels) (t d : List Char) (x : Option Rat) (h : ∀ r ∈ rows, ¬r.level > 0) (hm : m t d = some x) : load rows m t d = some none := by
  have h1 : lastPositive rows t d = none := by
    unfold lastPositive
    rw [List.filter_eq_nil_iff.2 (by
      intro r hr
      simp only [decide_eq_true_eq]
      exact fun g => h r hr g.2.2)]
    rfl
  have h2 : maxLevel rows = 0 := by
    rcases (max_fold rows 0 Rat.le_refl).2.2 with c | ⟨r, hr, g, -⟩
    · exact c
    · exact absurd g (h r hr)
  unfold load
  rw [record_all_last, h1, h2]
  show (m t d).map _ = _
  rw [hm]
  cases x <;> rfl

/-- **A later judgement that a document is not relevant does not take back an earlier one** -/
theorem C104_not_taken_back : loadFiles [[⟨['1'], ['a'], 1⟩, ⟨['1'], ['a'], 0⟩]] ['1'] ['a'] = some (some 1) := by decide +kernel

/-! ### phases -/

/-- what holds at all times, for `n` queries -/
structure InPhase (n : Nat) (s : State) : Prop where
  flags : s.sync.length = n
  rankings : s.began.length = n
  running : s.waiting = false → s.sem = 0 ∧ ∀ b ∈ s.sync, b = false
  open_ : s.waiting = true → true ∈ s.sync → s.sem = 0
  closed : s.waiting = true → true ∉ s.sync → s.sem = if n = 0 then 0 else 1
  printed : ∀ i, i < n → ∀ j, 1 ≤ j → j ≤ s.phase → j < s.phase ∨ s.sync[i]? = some false → ∃ b, ⟨i, b, j⟩ ∈ s.log

theorem in_phase_init (n : Nat) : InPhase n (init n) := by
  refine ⟨by simp [init], by simp [init], fun _ => ⟨rfl, fun b h => List.eq_of_mem_replicate h⟩, fun h => (by cases h), fun h => (by cases h), ?_⟩
  intro i _ j h1 h2
  simp only [init] at h2
  omega

theorem all_clear {l : List Bool} : (l.all (! ·)) = true ↔ true ∉ l := by
  rw [List.all_eq_true]
  constructor
  · intro h g
    have := h true g
    cases this
  · intro h b hb
    cases b
    · rfl
    · exact absurd hb h

theorem in_phase_step {n : Nat} {s s' : State} (h : InPhase n s) (hs : Step s s') : InPhase n s' := by
  cases hs with
  | begins i hi => exact ⟨h.flags, by simpa using h.rankings, h.running, h.open_, h.closed, h.printed⟩
  | sets hw =>
    refine ⟨by simpa using h.flags, h.rankings, fun x => (by cases x), fun _ _ => (h.running hw).1, ?_, ?_⟩
    · intro _ hn
      dsimp only at *
      by_cases h0 : n = 0
      · rw [if_pos h0]; exact (h.running hw).1
      · exfalso
        apply hn
        have : s.sync ≠ [] := by
          intro e
          have := h.flags
          rw [e] at this
          exact h0 this.symm
        obtain ⟨b, l, e⟩ := List.exists_cons_of_ne_nil this
        rw [e]
        simp
    · intro i hi j h1 h2 h3
      dsimp only at *
      rcases h3 with h3 | h3
      · have hb : s.sync[i]? = some false := by
          have hl : i < s.sync.length := by rw [h.flags]; exact hi
          rw [List.getElem?_eq_getElem hl, (h.running hw).2 _ (List.getElem_mem hl)]
        exact h.printed i hi j h1 (by omega) (.inr hb)
      · simp at h3
  | acquires hw hsem =>
    have hno : true ∉ s.sync := fun g => by have := h.open_ hw g; omega
    have hc := h.closed hw hno
    refine ⟨h.flags, h.rankings, fun _ => ⟨?_, ?_⟩, fun x => (by cases x), fun x => (by cases x), h.printed⟩
    · dsimp only
      rw [hc]
      split <;> rfl
    · intro b hb
      cases b
      · rfl
      · exact absurd hb hno
  | prints i hi =>
    have hin : i < n := by rw [← h.rankings]; exact hi
    have hil : i < s.sync.length := by rw [h.flags]; exact hin
    refine ⟨by simpa using h.flags, h.rankings, ?_, ?_, ?_, ?_⟩
    · intro hw
      dsimp only at *
      obtain ⟨a, b⟩ := h.running hw
      have hb : s.sync[i]? ≠ some true := by
        rw [List.getElem?_eq_getElem hil, b _ (List.getElem_mem hil)]
        decide
      rw [if_neg (fun x => hb x.1)]
      refine ⟨a, ?_⟩
      intro c hc
      rcases List.mem_or_eq_of_mem_set hc with hc | hc
      · exact b c hc
      · exact hc
    · intro hw ht
      dsimp only at *
      have ht' : true ∈ s.sync := by
        rcases List.mem_or_eq_of_mem_set ht with ht | ht
        · exact ht
        · cases ht
      rw [if_neg (fun x => all_clear.1 x.2 ht)]
      exact h.open_ hw ht'
    · intro hw ht
      dsimp only at *
      have h0 : n ≠ 0 := by omega
      rw [if_neg h0]
      by_cases hi' : s.sync[i]? = some true
      · rw [if_pos ⟨hi', all_clear.2 ht⟩, h.open_ hw (List.mem_of_getElem? hi')]
      · rw [if_neg (fun x => hi' x.1)]
        have : s.sync.set i false = s.sync := by
          apply List.ext_getElem?
          intro k
          rw [List.getElem?_set]
          split
          · rename_i e
            subst e
            rw [List.getElem?_eq_getElem hil] at hi' ⊢
            cases hb : s.sync[i]
            · rfl
            · rw [hb] at hi'; exact absurd rfl hi'
          · rfl
        rw [this] at ht
        rw [h.closed hw ht, if_neg h0]
    · intro k hk j h1 h2 h3
      dsimp only at *
      by_cases e : k = i
      · subst e
        by_cases hj : j = s.phase
        · subst hj
          exact ⟨s.began[k], by simp⟩
        · obtain ⟨b, hb⟩ := h.printed k hk j h1 h2 (.inl (by omega))
          exact ⟨b, by simp [hb]⟩
      · rw [List.getElem?_set_ne (fun x => e x.symm)] at h3
        obtain ⟨b, hb⟩ := h.printed k hk j h1 h2 h3
        exact ⟨b, by simp [hb]⟩

theorem in_phase_steps {n : Nat} {s s' : State} (h : InPhase n s) (hs : Steps s s') : InPhase n s' := by
  induction hs with
  | refl => exact h
  | tail _ hs ih => exact in_phase_step ih hs

/-- **C104** (every query): under every schedule, whenever the main thread goes on, each query has printed a line in each phase so far: after its documents were done and before the main thread went on -/
theorem C104_every_query (n : Nat) (s : State) (h : Steps (init n) s) (hr : s.waiting = false) (i j : Nat) (hi : i < n) (h1 : 1 ≤ j) (hj : j ≤ s.phase) : ∃ b, ⟨i, b, j⟩ ∈ s.log := by
  have g := in_phase_steps (in_phase_init n) h
  have hl : i < s.sync.length := by rw [g.flags]; exact hi
  exact g.printed i hi j h1 hj (.inr (by rw [List.getElem?_eq_getElem hl, (g.running hr).2 _ (List.getElem_mem hl)]))

/-- **C104** (semaphore): the semaphore is never released twice, and is not left released when the main thread goes on -/
theorem C104_semaphore (n : Nat) (s : State) (h : Steps (init n) s) : s.sem ≤ 1 ∧ (s.waiting = false → s.sem = 0) := by
  have g := in_phase_steps (in_phase_init n) h
  refine ⟨?_, fun hr => (g.running hr).1⟩
  cases hw : s.waiting with
  | false => rw [(g.running hw).1]; omega
  | true =>
    by_cases ht : true ∈ s.sync
    · rw [g.open_ hw ht]; omega
    · rw [g.closed hw ht]; split <;> omega

theorem steps_trans {a b c : State} (h : Steps a b) (h' : Steps b c) : Steps a c := by
  induction h' with
  | refl => exact h
  | tail _ hs ih => exact .tail ih hs

theorem count_set {l : List Bool} : ∀ {i : Nat}, l[i]? = some true → (l.set i false).count true + 1 = l.count true := by
  induction l with
  | nil => intro i h; simp at h
  | cons b l ih =>
    intro i h
    cases i with
    | zero =>
      simp only [List.getElem?_cons_zero, Option.some.injEq] at h
      subst h
      simp
    | succ i =>
      simp only [List.getElem?_cons_succ] at h
      have := ih h
      rw [List.set_cons_succ, List.count_cons, List.count_cons]
      omega

/-- **C104** (no standstill): with one query or more, whatever has happened, the main thread can go on, in the same phase -/
theorem C104_goes_on (n : Nat) (hn : 0 < n) (s : State) (h : Steps (init n) s) : ∃ s', Steps s s' ∧ s'.waiting = false ∧ s'.phase = s.phase := by
  have key : ∀ (k : Nat) (s : State), InPhase n s → s.sync.count true = k → ∃ s', Steps s s' ∧ s'.waiting = false ∧ s'.phase = s.phase := by
    intro k
    induction k with
    | zero =>
      intro s g hk
      cases hw : s.waiting with
      | false => exact ⟨s, .refl s, hw, rfl⟩
      | true =>
        have ht : true ∉ s.sync := List.count_eq_zero.1 hk
        have := g.closed hw ht
        rw [if_neg (by omega)] at this
        exact ⟨_, .tail (.refl s) (.acquires s hw (by omega)), rfl, rfl⟩
    | succ k ih =>
      intro s g hk
      have ht : true ∈ s.sync := List.count_pos_iff.1 (by omega)
      obtain ⟨i, hi, e⟩ := List.getElem_of_mem ht
      have e' : s.sync[i]? = some true := by rw [List.getElem?_eq_getElem hi, e]
      have hb : i < s.began.length := by rw [g.rankings, ← g.flags]; exact hi
      have st := Step.prints s i hb
      obtain ⟨s', h1, h2, h3⟩ := ih _ (in_phase_step g st) (by
        have := count_set e'
        dsimp only
        omega)
      exact ⟨s', steps_trans (.tail (.refl s) st) h1, h2, h3⟩
  exact key _ s (in_phase_steps (in_phase_init n) h) rfl

/-- **The answer may be of the collection before**: the main thread can go on when all that a query has printed in a phase was ranked before the documents of the phase were done -/
theorem C104_stale : ∃ s, Steps (init 1) s ∧ s.waiting = false ∧ s.phase = 1 ∧ ∀ r ∈ s.log, r.printed = 1 → r.began = 0 := by
  refine ⟨⟨[false], 0, 1, false, [0], [⟨0, 0, 1⟩]⟩, ?_, rfl, rfl, by decide⟩
  have h1 : Step (init 1) ⟨[true], 0, 1, true, [0], []⟩ := .sets (init 1) rfl
  have h2 : Step ⟨[true], 0, 1, true, [0], []⟩ ⟨[false], 1, 1, true, [0], [⟨0, 0, 1⟩]⟩ := .prints _ 0 (by decide)
  have h3 : Step ⟨[false], 1, 1, true, [0], [⟨0, 0, 1⟩]⟩ ⟨[false], 0, 1, false, [0], [⟨0, 0, 1⟩]⟩ := .acquires _ rfl (by decide)
  exact .tail (.tail (.tail (.refl _) h1) h2) h3

/-- **Without queries the program waits for ever** -/
theorem C104_no_queries (s s' : State) (h : Steps (init 0) s) (hw : s.waiting = true) (h' : Steps s s') : s'.waiting = true := by
  have g := in_phase_steps (in_phase_init 0) h
  clear h
  induction h' with
  | refl => exact hw
  | tail h2 hs ih =>
    have g' := in_phase_steps g h2
    cases hs with
    | begins => exact ih
    | prints => exact ih
    | sets => rfl
    | acquires hw' hsem =>
      rename_i b
      exfalso
      have : true ∉ b.sync := by
        have := g'.flags
        rw [List.length_eq_zero_iff.1 this]
        simp
      have := g'.closed ih this
      rw [if_pos rfl] at this
      omega

/-! ### examples -/

example : loadFiles [[⟨['1'], ['a'], 2⟩, ⟨['1'], ['b'], 1⟩, ⟨['1'], ['c'], 0⟩]] ['1'] ['b'] = some (some (1 / 2)) := by decide +kernel
example : lastPositive [⟨['1'], ['a'], 2⟩, ⟨['1'], ['b'], 1⟩] ['1'] ['b'] = some 1 := by decide +kernel
example : ∃ s, Steps (init 2) s ∧ s.waiting = true ∧ s.phase = 1 := ⟨_, .tail (.refl _) (.sets (init 2) rfl), rfl, rfl⟩

end Verif.Props
