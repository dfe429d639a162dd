import Verif.Append.Proof
/-
  C48: appending a file is all or nothing, and every line goes in once, whatever the threads do.
-/
namespace Verif.Props
open Verif.Append

variable {Line : Type}

/-- `append_jsonl`, by so many threads and with this schedule -/
def appendJsonl (E : Env Line) (threads : Nat) (lines : List Line) (schedule : List Nat) : Bool × List (List (Piece Line)) :=
  finishJsonl (run E (start threads lines) schedule)

/-- `append_tsv` -/
def appendTsv (E : Env Line) (threads : Nat) (lines : List Line) (schedule : List Nat) : Bool × List (List (Piece Line)) :=
  finishTsv (tsvRun E (tsvStart threads lines) schedule)

theorem mine_stopped {ws : List (Worker Line)} (h : ∀ x ∈ ws, x.pc = .stop) : ws.map Worker.mine = ws.map Worker.appended := by
  apply List.map_congr_left
  intro x hx
  simp [Worker.mine, h x hx]

/-- **C48**, JSON lines.  Whatever the schedule, once all threads have stopped: if it succeeds, one step commits
the path and the transactions of all threads; each has some lines in the order of the file, all of which were accepted, and
is ready; together they have every line of the file once.  If it fails, nothing is committed. -/
theorem C48_jsonl (E : Env Line) {threads : Nat} (ht : 0 < threads) (lines : List Line) (schedule : List Nat)
    (hj : (run E (start threads lines) schedule).joined) :
    (∃ parts : List (List Line), appendJsonl E threads lines schedule = (true, [parts.map .lines ++ [.path]]) ∧
      parts.length = threads ∧ parts.flatten.Perm lines ∧
      (∀ l ∈ parts, l.Sublist lines) ∧
      (∀ w l, parts[w]? = some l → E.votes w l = true ∧ ∀ a x b, l = a ++ x :: b → E.accepts w a x = true) ∧
      ∀ x ∈ (run E (start threads lines) schedule).workers, x.ready = true) ∨
    appendJsonl E threads lines schedule = (false, []) := by
  obtain ⟨⟨taken, h1, h2, h3⟩, h4, h5, h6⟩ := run_inv (start_inv E threads lines) schedule
  have hlen := run_workers (E := E) (start threads lines) schedule
  generalize hst : run E (start threads lines) schedule = st at *
  unfold appendJsonl finishJsonl
  rw [hst]
  rcases hf : st.failed with _ | _
  · left
    have hne : 0 < st.workers.length := by rw [hlen]; simpa [start] using ht
    have g0 := h2 0 st.workers[0] (List.getElem?_eq_getElem hne)
    obtain ⟨hr, -⟩ := h4 (g0.stopped (hj _ (List.getElem_mem hne))).1 hf
    have et : taken = lines := by rw [h1, hr]; simp
    subst et
    refine ⟨st.workers.map Worker.appended, ?_, by simp [hlen, start], ?_, ?_, ?_, ?_⟩
    · simp [List.map_map, Function.comp_def]
    · rw [← mine_stopped hj]; exact h3 hf
    · intro l hl
      rw [← mine_stopped hj] at hl
      obtain ⟨x, hx, rfl⟩ := List.mem_map.1 hl
      obtain ⟨w, hw⟩ := List.getElem?_of_mem hx
      exact (h2 w x hw).sub
    · intro w l hl
      rw [List.getElem?_map, Option.map_eq_some_iff] at hl
      obtain ⟨x, hx, rfl⟩ := hl
      have g := h2 w x hx
      have hs := hj x (List.mem_of_getElem? hx)
      exact ⟨(g.ready ((g.stopped hs).2 hf)).2, g.accepted⟩
    · intro x hx
      obtain ⟨w, hw⟩ := List.getElem?_of_mem hx
      exact ((h2 w x hw).stopped (hj x hx)).2 hf
  · right; rfl

/-- It succeeds if the file can be read and nothing is refused. -/
theorem C48_succeeds (E : Env Line) (threads : Nat) (lines : List Line) (schedule : List Nat)
    (hr : E.readError = false) (ha : ∀ w a, ∀ l ∈ lines, E.accepts w a l = true) (hv : ∀ w a, E.votes w a = true) :
    (appendJsonl E threads lines schedule).1 = true := by
  have h := run_inv (start_inv E threads lines) schedule
  unfold appendJsonl finishJsonl
  rcases hf : (run E (start threads lines) schedule).failed with _ | _
  · rfl
  · rcases h.cause hf with h | ⟨w, a, l, h, hl⟩ | ⟨w, a, h⟩
    · rw [hr] at h; simp at h
    · rw [ha w a l hl] at h; simp at h
    · rw [hv w a] at h; simp at h

/-- It fails if the file cannot be read, or has a line that no thread accepts. -/
theorem C48_fails (E : Env Line) {threads : Nat} (ht : 0 < threads) (lines : List Line) (schedule : List Nat)
    (hj : (run E (start threads lines) schedule).joined)
    (hbad : E.readError = true ∨ ∃ l ∈ lines, ∀ w a, E.accepts w a l = false) :
    appendJsonl E threads lines schedule = (false, []) := by
  rcases C48_jsonl E ht lines schedule hj with ⟨parts, h1, h2, h3, -, h5, -⟩ | h
  · exfalso
    rcases hbad with hr | ⟨l, hl, hno⟩
    · have h := run_inv (start_inv E threads lines) schedule
      have hf : (run E (start threads lines) schedule).failed = false := by
        have := congrArg Prod.fst h1
        unfold appendJsonl finishJsonl at this
        rcases hf : (run E (start threads lines) schedule).failed with _ | _
        · rfl
        · rw [hf] at this; simp at this
      have hlen := run_workers (E := E) (start threads lines) schedule
      have hne : 0 < (run E (start threads lines) schedule).workers.length := by rw [hlen]; simpa [start] using ht
      obtain ⟨taken, -, hg, -⟩ := h.taken
      have hd := ((hg 0 _ (List.getElem?_eq_getElem hne)).stopped (hj _ (List.getElem_mem hne))).1
      rw [h.read hr hd] at hf; simp at hf
    · obtain ⟨part, hp, hlp⟩ := List.mem_flatten.1 (h3.mem_iff.2 hl)
      obtain ⟨w, hw⟩ := List.getElem?_of_mem hp
      obtain ⟨a, b, e⟩ := List.append_of_mem hlp
      have := (h5 w part hw).2 a l b e
      rw [hno] at this; simp at this
  · exact h

/-- The threads end: a schedule in which every step is that of a thread that has not stopped has at most two steps for
each line and two for each thread. -/
theorem C48_ends (E : Env Line) (threads : Nat) (lines : List Line) (schedule : List Nat)
    (h : ∀ a w b, schedule = a ++ w :: b → ∃ x, (run E (start threads lines) a).workers[w]? = some x ∧ x.pc ≠ .stop) :
    schedule.length ≤ 2 * lines.length + 2 * threads := by
  have key : ∀ (l : List Nat) (st : State Line),
      (∀ a w b, l = a ++ w :: b → ∃ x, (run E st a).workers[w]? = some x ∧ x.pc ≠ .stop) → l.length + (run E st l).left ≤ st.left := by
    intro l
    induction l with
    | nil => intro st _; simp [run]
    | cons w l ih =>
      intro st hl
      obtain ⟨x, hx, hn⟩ := hl [] w l rfl
      have h1 : (step E st w).left < st.left := step_left (E := E) hx hn
      have h2 := ih (step E st w) fun a v b e => hl (w :: a) v b (by rw [e]; rfl)
      have e : run E st (w :: l) = run E (step E st w) l := rfl
      rw [e]
      simp only [List.length_cons]
      omega
  have := key schedule (start threads lines) h
  have hs : (start threads lines).left = 2 * lines.length + 2 * threads := by
    simp [State.left, start, weight_take]
    omega
  omega

/-- **C48**, TSV (what is missing: `C48_tsv_path`).  Whatever the schedule, once all threads have stopped: if it succeeds,
the lines of the threads, one after the other, are those of the file, and all were accepted.  If it fails, no line is
committed. -/
theorem C48_tsv_partial (E : Env Line) {threads : Nat} (ht : 0 < threads) (lines : List Line) (schedule : List Nat)
    (hj : (tsvRun E (tsvStart threads lines) schedule).joined) :
    (∃ parts : List (List Line), appendTsv E threads lines schedule = (true, [.path] :: parts.map fun l => [.lines l]) ∧
      parts.length = threads ∧ parts.flatten = lines ∧
      (∀ w l, parts[w]? = some l → E.votes w l = true ∧ ∀ a x b, l = a ++ x :: b → E.accepts w a x = true) ∧
      ∀ x ∈ (tsvRun E (tsvStart threads lines) schedule).workers, x.1.ready = true) ∨
    appendTsv E threads lines schedule = (false, [[.path]]) := by
  obtain ⟨hlen, hg, -⟩ := tsv_run_inv (tsv_start_inv E threads lines) schedule
  generalize hst : tsvRun E (tsvStart threads lines) schedule = st at *
  unfold appendTsv finishTsv
  rw [hst]
  rcases hf : st.failed with _ | _
  · left
    have hr : ∀ w x, st.workers[w]? = some x → x.1.ready = true ∧ x.1.appended = tsvShare lines threads w ∧ E.votes w x.1.appended = true := by
      intro w x hx
      have g := hg w x hx
      have r := g.stopped (hj x (List.mem_of_getElem? hx)) hf
      obtain ⟨-, e, v⟩ := g.ready r
      exact ⟨r, by rw [g.split, e]; simp, v⟩
    have hp : st.workers.map (fun x => x.1.appended) = (List.range threads).map (tsvShare lines threads) := by
      apply List.ext_getElem?
      intro w
      rcases hx : st.workers[w]? with _ | x
      · have : threads ≤ w := by rw [← hlen]; exact List.getElem?_eq_none_iff.1 hx
        simp [hx, this]
      · have hw : w < threads := by rw [← hlen]; exact (List.getElem?_eq_some_iff.1 hx).1
        simp [hx, hw, (hr w x hx).2.1]
    refine ⟨st.workers.map (fun x => x.1.appended), by simp [List.map_map, Function.comp_def], by simpa using hlen, ?_, ?_, ?_⟩
    · rw [hp, shares_upto, Nat.mul_div_cancel _ ht, List.take_length]
    · intro w l hl
      rw [List.getElem?_map, Option.map_eq_some_iff] at hl
      obtain ⟨x, hx, rfl⟩ := hl
      exact ⟨(hr w x hx).2.2, (hg w x hx).accepted⟩
    · intro x hx
      obtain ⟨w, hw⟩ := List.getElem?_of_mem hx
      exact (hr w x hw).1
  · right; rfl

/-- It succeeds if nothing is refused. -/
theorem C48_tsv_succeeds (E : Env Line) (threads : Nat) (lines : List Line) (schedule : List Nat)
    (ha : ∀ w a, ∀ l ∈ lines, E.accepts w a l = true) (hv : ∀ w a, E.votes w a = true) :
    (appendTsv E threads lines schedule).1 = true := by
  have h := tsv_run_inv (tsv_start_inv E threads lines) schedule
  unfold appendTsv finishTsv
  rcases hf : (tsvRun E (tsvStart threads lines) schedule).failed with _ | _
  · rfl
  · rcases h.cause hf with ⟨w, a, l, h, v, -, hl⟩ | ⟨w, a, h⟩
    · have : l ∈ lines := List.mem_of_mem_drop (List.mem_of_mem_take hl)
      rw [ha w a l this] at h; simp at h
    · rw [hv w a] at h; simp at h

/-! ### examples -/

/-- everything is accepted, but the line 9 -/
def noNine : Env Nat := ⟨fun _ _ l => l != 9, fun _ _ => true, false⟩

/-- two threads, three lines -/
example : (run noNine (start 2 [1, 2, 3]) [0, 1, 1, 1, 0, 1, 1, 0, 1, 0, 0]).joined ∧
    appendJsonl noNine 2 [1, 2, 3] [0, 1, 1, 1, 0, 1, 1, 0, 1, 0, 0] = (true, [[.lines [1], .lines [2, 3], .path]]) := by decide
example : (run noNine (start 2 [1, 9, 3]) [0, 1, 1, 0, 0, 0]).joined ∧
    appendJsonl noNine 2 [1, 9, 3] [0, 1, 1, 0, 0, 0] = (false, []) := by decide
example : (tsvRun noNine (tsvStart 2 [1, 2, 3]) [0, 1, 1, 1, 0]).joined ∧
    appendTsv noNine 2 [1, 2, 3] [0, 1, 1, 1, 0] = (true, [[.path], [.lines [1]], [.lines [2, 3]]]) := by decide
/-- the schedule of the first example meets the hypothesis of `C48_ends`, up to its last step -/
example : ∀ i < 10, ((run noNine (start 2 [1, 2, 3]) ([0, 1, 1, 1, 0, 1, 1, 0, 1, 0].take i)).workers[[0, 1, 1, 1, 0, 1, 1, 0, 1, 0].getD i 0]?.map
    fun x => x.pc != .stop) = some true := by decide

/-! ### where it is not all or nothing -/

/-- `append_tsv` commits the path of the file, by which `already_appended` finds it, before it appends the first line; when
it then fails, or is interrupted, the path stays.  It also commits the threads one after the other, so that it can be
interrupted with some of the lines committed. -/
theorem C48_tsv_path :
    (tsvRun noNine (tsvStart 1 [9]) [0]).joined ∧ appendTsv noNine 1 [9] [0] = (false, [[.path]]) ∧
    (appendTsv noNine 2 [1, 2, 3] [0, 1, 1, 1, 0]).2.take 2 = [[.path], [.lines [1]]] := by decide

/-- `forage` by two threads, of which the second cannot be made ready: it fails, but the statistics of the first are
committed. -/
theorem C48_forage :
    forageRun (Line := Nat) ⟨fun _ _ _ => true, fun w _ => w == 0, false⟩ (fun w => [w]) [0, 1] = (false, [[.lines [0]]]) := by decide

end Verif.Props
