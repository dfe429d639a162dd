import Verif.Gate.Proof
/-
  C50: reading a file through a gate.
-/
namespace Verif.Props
open Verif.Gate

/-- C50: what a call of `read` returns, if anything, is the bytes asked for: all of them, in order, and from the file,
however little each `pread` gives and whoever else reads. -/
theorem C50_bytes {E : Env} {st : State} (h : Reach E st) {i : Nat} {c : Call} (hc : E.calls[i]? = some c) {b : Bytes}
    (hr : st.jobs[i]? = some (.finished (some b))) :
    0 ≤ c.offset ∧ (b.length : Int) = c.length ∧ b = (E.file.drop c.offset.toNat).take c.length.toNat := by
  obtain ⟨h1, h2, h3, t, h4⟩ := ((reach_inv h).fine i c hc _ hr).1 b rfl
  exact ⟨h1, h3, by rw [← h4, show c.length.toNat = b.length by omega]; simp⟩

/-- … and it returns something, unless the range is negative or not all in the file, or `pread` fails. -/
theorem C50_succeeds {E : Env} {st : State} (h : Reach E st) (hf : E.faulty = false) {i : Nat} {c : Call}
    (hc : E.calls[i]? = some c) (h0 : 0 ≤ c.offset) (h1 : 0 ≤ c.length) (h2 : c.offset + c.length ≤ E.file.length)
    {r : Option Bytes} (hr : st.jobs[i]? = some (.finished r)) : r ≠ none := by
  intro e
  rcases ((reach_inv h).fine i c hc _ hr).2 e with h | h | h | h
  · rw [hf] at h; cases h
  · omega
  · omega
  · omega

/-- C50: never do more calls read at once than the gate has permits, and when none reads, all permits are there. -/
theorem C50_limit {E : Env} {st : State} (h : Reach E st) : st.available + st.jobs.countP holds = E.readers :=
  (reach_inv h).permits

/-- is done -/
def isFinished : At → Bool
  | .finished _ => true
  | _ => false

/-- C50: no wakeup is lost: as long as a call is not done, some call can go on by itself, for any number of permits but
none. -/
theorem C50_never_stuck {E : Env} {st : State} (h : Reach E st) (hr : 0 < E.readers)
    (hu : ∃ (i : Nat) (a : At), st.jobs[i]? = some a ∧ isFinished a = false) : ∃ st', Step E st st' := by
  have hi := reach_inv h
  -- every call that is not done and not asleep can go on
  have go : ∀ {i : Nat} {a : At}, st.jobs[i]? = some a → isFinished a = false → isAsleep a = false → ∃ st', Step E st st' := by
    intro i a ha hf hs
    obtain ⟨c, hc⟩ := hi.call ha
    cases a with
    | start =>
      by_cases hn : c.offset < 0 ∨ c.length < 0
      · exact ⟨_, .refuse hc ha hn⟩
      · by_cases hav : 0 < st.available
        · exact ⟨_, .enter hc ha hn hav⟩
        · exact ⟨_, .sleep hc ha hn hav⟩
    | asleep => simp [isAsleep] at hs
    | woken =>
      by_cases hav : 0 < st.available
      · exact ⟨_, .again ha hav⟩
      · exact ⟨_, .back ha hav⟩
    | reading got =>
      by_cases hlt : (got.length : Int) < c.length
      · by_cases hend : E.file.length ≤ c.offset.toNat + got.length
        · exact ⟨_, .short hc ha hlt ⟨by simp, List.nil_prefix, fun _ => hend⟩⟩
        · have hl : ((E.file.drop (c.offset.toNat + got.length)).take 1).length = 1 := by
            rw [List.length_take, List.length_drop]; omega
          exact ⟨_, .some hc ha hlt ⟨by rw [hl]; omega, List.take_prefix .., fun e => by rw [e] at hl; simp at hl⟩
            (fun e => by rw [e] at hl; simp at hl)⟩
      · exact ⟨_, .done hc ha hlt⟩
    | leaving r => exact ⟨_, .release ha⟩
    | left r =>
      by_cases hno : ∀ j : Nat, st.jobs[j]? ≠ some .asleep
      · exact ⟨_, .silent ha hno⟩
      · obtain ⟨j, hj⟩ := Classical.not_forall.1 hno
        exact ⟨_, .notify ha (Classical.not_not.1 hj)⟩
    | finished r => simp [isFinished] at hf
  obtain ⟨i, a, ha, hf⟩ := hu
  by_cases hs : isAsleep a = false
  · exact go ha hf hs
  · have hs : isAsleep a = true := by simpa using hs
    have h1 : 0 < st.jobs.countP isAsleep := List.countP_pos_iff.2 ⟨a, List.mem_of_getElem? ha, hs⟩
    have h2 := hi.awake h1
    have h3 := hi.permits
    by_cases h4 : 0 < st.jobs.countP holds
    · obtain ⟨j, b, hj, hb⟩ := countP_pos_get h4
      exact go hj (by cases b <;> simp [holds, isFinished] at hb ⊢) (by cases b <;> simp [holds, isAsleep] at hb ⊢)
    · obtain ⟨j, b, hj, hb⟩ := countP_pos_get (l := st.jobs) (p := alert) (by omega)
      exact go hj (by cases b <;> simp [alert, isFinished] at hb ⊢) (by cases b <;> simp [alert, isAsleep] at hb ⊢)

/-- a schedule of `n` steps of the calls, with `k` interruptions and spurious wakeups among them -/
inductive Runs (E : Env) : State → Nat → Nat → State → Prop
  | none {st : State} : Runs E st 0 0 st
  | step {st st' st'' : State} {n k : Nat} : Step E st st' → Runs E st' n k st'' → Runs E st (n + 1) k st''
  | noise {st st' st'' : State} {n k : Nat} : Noise st st' → Runs E st' n k st'' → Runs E st n (k + 1) st''

/-- C50: so all calls end: there are no more steps than bytes and seven for each call, and one for each interruption or
spurious wakeup. -/
theorem C50_ends {E : Env} {st : State} {n k : Nat} (h : Runs E (start E) n k st) :
    n ≤ (E.calls.map fun c => c.length.toNat + 7).sum + k := by
  have key : ∀ {s s' : State} {n k : Nat}, Runs E s n k s' → Inv E s → n ≤ weights E.calls s.jobs + k := by
    intro s s' n k h
    induction h with
    | none => intro _; omega
    | step hs _ ih =>
      intro hi
      have := ih (step_inv hi hs)
      have := step_lower hi hs
      omega
    | noise hs _ ih =>
      intro hi
      have := ih (noise_inv hi hs)
      have := noise_raise (E := E) hi hs
      omega
  have h1 := key h (start_inv E)
  have h2 : ∀ l : List Call, weights l (List.replicate l.length .start) = (l.map fun c => c.length.toNat + 7).sum := by
    intro l
    induction l with
    | nil => rfl
    | cons c l ih => simp only [List.length_cons, List.replicate_succ, weights, weight, List.map_cons, List.sum_cons, ih]
  rw [show (start E).jobs = List.replicate E.calls.length .start from rfl, h2] at h1
  exact h1

/-- what a schedule leads to can be reached -/
theorem runs_reach {E : Env} {st : State} {n k : Nat} (h : Runs E (start E) n k st) : Reach E st := by
  have key : ∀ {s s' : State} {n k : Nat}, Runs E s n k s' → Reach E s → Reach E s' := by
    intro s s' n k h
    induction h with
    | none => exact id
    | step hs _ ih => exact fun h => ih (h.step hs)
    | noise hs _ ih => exact fun h => ih (h.noise hs)
  exact key h .start

/-! ### a case -/

/-- five bytes, two calls, one permit -/
def sampleGate : Env := ⟨[10, 11, 12, 13, 14], [⟨1, 3⟩, ⟨3, 9⟩], 1, false⟩

/-- the second call sleeps while the first reads, in two pieces; it is woken, and finds the end of the file -/
theorem sampleGate_runs : ∃ k, Runs sampleGate (start sampleGate) k 1
    ⟨1, [.finished (some [11, 12, 13]), .finished none]⟩ :=
  ⟨_, .step (.enter (i := 0) (c := ⟨1, 3⟩) rfl rfl (by decide) (by decide))
    (.step (.sleep (i := 1) (c := ⟨3, 9⟩) rfl rfl (by decide) (by decide))
    (.step (.some (i := 0) (c := ⟨1, 3⟩) (b := [11]) rfl rfl (by decide) ⟨by decide, ⟨[12, 13, 14], rfl⟩, by decide⟩ (by decide))
    (.noise (.interrupted (i := 0) rfl)
    (.step (.some (i := 0) (c := ⟨1, 3⟩) (b := [12, 13]) rfl rfl (by decide) ⟨by decide, ⟨[14], rfl⟩, by decide⟩ (by decide))
    (.step (.done (i := 0) (c := ⟨1, 3⟩) rfl rfl (by decide))
    (.step (.release (i := 0) rfl)
    (.step (.notify (i := 0) (j := 1) rfl rfl)
    (.step (.again (i := 1) rfl (by decide))
    (.step (.some (i := 1) (c := ⟨3, 9⟩) (b := [13, 14]) rfl rfl (by decide) ⟨by decide, ⟨[], rfl⟩, by decide⟩ (by decide))
    (.step (.short (i := 1) (c := ⟨3, 9⟩) rfl rfl (by decide) ⟨by decide, List.nil_prefix, by decide⟩)
    (.step (.release (i := 1) rfl)
    (.step (.silent (i := 1) rfl (by intro j; match j with | 0 => decide | 1 => decide | _ + 2 => simp [start, sampleGate]))
    .none))))))))))))⟩

end Verif.Props
