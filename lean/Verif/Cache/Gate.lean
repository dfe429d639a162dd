/-
  Model of src/cache_gate.h: a gate that is opened once and on which any number of threads wait.

  A thread is a number, and there may be any number of them.  A step is what happens between two
  points at which another thread can come in: one atomic operation in the first build (18-47), what
  is done under the mutex in the other (51-89).  That `atomic::wait` compares and blocks in one
  step, and that a condition variable gives up its mutex and blocks in one step, is what the
  standard says of them.  Both may return without reason.
-/
namespace Verif.Cache

/-- cache_gate.h 16 and 49: with `std::atomic<bool>::wait`, or with a condition variable -/
inductive Build | atomic | condition

/-- where a thread is in `wait`: before the first question (31, 69); before `open_.wait` (34) or
before the predicate (72); blocked; before the question of the `while` (35); out -/
inductive Waiter | start | loop | asleep | again | out
deriving DecidableEq

/-- where a thread is in `open`: before the exchange (40, 77-81); before `notify_all` (42, 83); out -/
inductive Opener | start | notify | out
deriving DecidableEq

structure Gate where
  opened : Bool
  waiter : Nat → Waiter
  opener : Nat → Opener

inductive GAct
  /-- thread `i`, which waits, takes its next step -/
  | wait (i : Nat)
  /-- thread `i` is woken without reason -/
  | spurious (i : Nat)
  /-- thread `j`, which opens, takes its next step -/
  | open (j : Nat)

def Gate.putW (g : Gate) (i : Nat) (x : Waiter) : Gate := { g with waiter := fun k => if k = i then x else g.waiter k }
def Gate.putO (g : Gate) (j : Nat) (x : Opener) : Gate := { g with opener := fun k => if k = j then x else g.opener k }

/-- `notify_all` -/
def Gate.wake (g : Gate) : Gate := { g with waiter := fun k => if g.waiter k = .asleep then .loop else g.waiter k }

def gstep (b : Build) (g : Gate) : GAct → Option Gate
  | .wait i =>
    match g.waiter i with
    | .start => some (g.putW i (if g.opened then .out else .loop))
    | .loop => some (g.putW i (if g.opened then (match b with | .atomic => .again | .condition => .out) else .asleep))
    | .again => some (g.putW i (if g.opened then .out else .loop))
    | .asleep => none
    | .out => none
  | .spurious i => if g.waiter i = .asleep then some (g.putW i .loop) else none
  | .open j =>
    match g.opener j with
    | .start => if g.opened then some (g.putO j .out) else some { g.putO j .notify with opened := true }
    | .notify => some (g.wake.putO j .out)
    | .out => none

inductive GRuns (b : Build) : Gate → Gate → Prop
  | refl (g) : GRuns b g g
  | step {g g' g'' : Gate} (a : GAct) : GRuns b g g' → gstep b g' a = some g'' → GRuns b g g''

/-- a new gate (20-21, 53-54) -/
def Gate.new (opened : Bool) : Gate := ⟨opened, fun _ => .start, fun _ => .start⟩

structure GInv (g : Gate) : Prop where
  out : ∀ i, g.waiter i = .out → g.opened = true
  /-- no wake-up is lost -/
  asleep : ∀ i, g.waiter i = .asleep → g.opened = false ∨ ∃ j, g.opener j = .notify
  opener : ∀ j, g.opener j ≠ .start → g.opened = true

theorem GInv.new (x : Bool) : GInv (Gate.new x) := ⟨(fun _ h => by cases h), (fun _ h => by cases h), fun _ h => absurd rfl h⟩

theorem GInv.step {b : Build} {g g' : Gate} (h : GInv g) {a : GAct} (e : gstep b g a = some g') : GInv g' := by
  cases a with
  | wait i =>
    have put : ∀ x, (x = .out → g.opened = true) → (x = .asleep → g.opened = false) → GInv (g.putW i x) := by
      intro x h1 h2
      refine ⟨fun k hk => ?_, fun k hk => ?_, h.opener⟩
      · simp only [Gate.putW] at hk ⊢
        split at hk
        · exact h1 hk
        · exact h.out k hk
      · simp only [Gate.putW] at hk ⊢
        split at hk
        · exact Or.inl (h2 hk)
        · exact h.asleep k hk
    simp only [gstep] at e
    split at e
    · cases e
      refine put _ (fun hx => ?_) (fun hx => ?_) <;> cases ho : g.opened <;> simp [ho] at hx ⊢
    · cases e
      refine put _ (fun hx => ?_) (fun hx => ?_) <;> cases ho : g.opened <;> cases b <;> simp [ho] at hx ⊢
    · cases e
      refine put _ (fun hx => ?_) (fun hx => ?_) <;> cases ho : g.opened <;> simp [ho] at hx ⊢
    · cases e
    · cases e
  | spurious i =>
    simp only [gstep] at e
    split at e
    · cases e
      refine ⟨fun k hk => ?_, fun k hk => ?_, h.opener⟩
      · simp only [Gate.putW] at hk ⊢
        split at hk
        · cases hk
        · exact h.out k hk
      · simp only [Gate.putW] at hk ⊢
        split at hk
        · cases hk
        · exact h.asleep k hk
    · cases e
  | «open» j =>
    simp only [gstep] at e
    split at e
    · rename_i hj
      split at e
      · rename_i ho
        cases e
        refine ⟨h.out, fun k hk => ?_, fun k _ => ho⟩
        rcases h.asleep k hk with h1 | ⟨j', hj'⟩
        · rw [ho] at h1; cases h1
        · refine Or.inr ⟨j', ?_⟩
          have : j' ≠ j := by rintro rfl; rw [hj] at hj'; cases hj'
          simp [Gate.putO, this, hj']
      · cases e
        exact ⟨fun k _ => rfl, fun k hk => Or.inr ⟨j, by simp [Gate.putO]⟩, fun k _ => rfl⟩
    · rename_i hj
      cases e
      have ho := h.opener j (by rw [hj]; simp)
      refine ⟨fun k _ => ho, fun k hk => ?_, fun k _ => ho⟩
      simp only [Gate.wake, Gate.putO] at hk
      split at hk
      · cases hk
      · rename_i hx; exact absurd hk hx
    · cases e

theorem GRuns.inv {b : Build} {g g' : Gate} (r : GRuns b g g') (h : GInv g) : GInv g' := by
  induction r with
  | refl => exact h
  | step a _ e ih => exact ih.step e

/-- how many steps a thread needs at most, once the gate is open -/
def Waiter.left : Waiter → Nat
  | .out => 0
  | .start => 1
  | .again => 1
  | .loop => 2
  | .asleep => 3

theorem gstep_open {b : Build} {g g' : Gate} {a : GAct} (e : gstep b g a = some g') (h : g.opened = true) : g'.opened = true := by
  cases a with
  | wait i => simp only [gstep] at e; split at e <;> cases e <;> exact h
  | spurious i => simp only [gstep] at e; split at e <;> cases e; exact h
  | «open» j =>
    simp only [gstep, h, if_true] at e
    split at e
    · cases e; exact h
    · cases e; exact h
    · cases e

/-- Once the gate is open no step takes a thread further away, and each of its own brings it nearer. -/
theorem gstep_left {b : Build} {g g' : Gate} {a : GAct} (e : gstep b g a = some g') (h : g.opened = true) (i : Nat) :
    (g'.waiter i).left ≤ (g.waiter i).left ∧ (a = .wait i → (g'.waiter i).left < (g.waiter i).left) := by
  cases a with
  | wait k =>
    simp only [gstep] at e
    by_cases hk : i = k
    · subst hk
      split at e
      · rename_i hw; cases e; simp [Gate.putW, h, hw, Waiter.left]
      · rename_i hw; cases e; cases b <;> simp [Gate.putW, h, hw, Waiter.left]
      · rename_i hw; cases e; simp [Gate.putW, h, hw, Waiter.left]
      · cases e
      · cases e
    · refine ⟨?_, fun hc => ?_⟩
      · split at e <;> cases e <;> simp [Gate.putW, hk]
      · cases hc; exact absurd rfl hk
  | spurious k =>
    simp only [gstep] at e
    split at e
    · rename_i hw
      cases e
      refine ⟨?_, fun hc => by cases hc⟩
      by_cases hk : i = k
      · subst hk; simp [Gate.putW, hw, Waiter.left]
      · simp [Gate.putW, hk]
    · cases e
  | «open» j =>
    refine ⟨?_, fun hc => by cases hc⟩
    simp only [gstep] at e
    split at e
    · split at e <;> cases e <;> simp [Gate.putO]
    · cases e
      simp only [Gate.wake, Gate.putO]
      split
      · rename_i hw; rw [hw]; simp [Waiter.left]
      · exact Nat.le_refl _
    · cases e

end Verif.Cache
