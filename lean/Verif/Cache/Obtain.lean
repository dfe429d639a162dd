/-
  Model of `HazelTxt::obtain` (src/hazel.cc 1177-1212) for one chunk of text: any number of
  threads ask for it, and the first to have decoded it leaves it for the others.

  A step is one operation on what the threads share: the flag, the pointer, the mutex.
-/
namespace Verif.Cache.Chunk

abbrev Bytes := List UInt8

/-- where a thread is -/
inductive Pc
  | start                 -- 1179
  | fetch                 -- 1180, 1203: the flag was seen, the pointer is read next
  | decode                -- 1182-1200
  | second (raw : Bytes)  -- 1202
  | want (raw : Bytes)    -- 1204
  | inside (raw : Bytes)  -- 1205
  | write (raw : Bytes)   -- 1206
  | flag                  -- 1207
  | leave                 -- 1209, with the mutex
  | unlock (x : Option Bytes)
  | failed                -- 1189, 1194, 1200: the file cannot be read
  | out (x : Option Bytes)
deriving DecidableEq

/-- the entry, with the mutex, and the threads -/
structure Sys where
  bytes : Option Bytes
  present : Bool
  lock : Option Nat
  pc : Nat → Pc

def Sys.put (s : Sys) (i : Nat) (x : Pc) : Sys := { s with pc := fun k => if k = i then x else s.pc k }

/-- The next step of thread `i`; `good` says whether the file can be read and decoded, which
gives `chunk`. -/
def step (chunk : Bytes) (s : Sys) (i : Nat) (good : Bool) : Option Sys :=
  match s.pc i with
  | .start => some (s.put i (if s.present then .fetch else .decode))
  | .fetch => some (s.put i (.out s.bytes))
  | .decode => some (s.put i (if good then .second chunk else .failed))
  | .second raw => some (s.put i (if s.present then .fetch else .want raw))
  | .want raw => if s.lock = none then some { s.put i (.inside raw) with lock := some i } else none
  | .inside raw => some (s.put i (if s.present then .leave else .write raw))
  | .write raw => some { s.put i .flag with bytes := some raw }
  | .flag => some { s.put i .leave with present := true }
  | .leave => some (s.put i (.unlock s.bytes))
  | .unlock x => some { s.put i (.out x) with lock := none }
  | .failed => none
  | .out _ => none

def Sys.new : Sys := ⟨none, false, none, fun _ => .start⟩

inductive Runs (chunk : Bytes) : Sys → Sys → Prop
  | refl (s) : Runs chunk s s
  | step {s s' s'' : Sys} (i : Nat) (good : Bool) : Runs chunk s s' → step chunk s' i good = some s'' → Runs chunk s s''

/-- the thread has the mutex -/
def Pc.holds : Pc → Bool
  | .inside _ | .write _ | .flag | .leave | .unlock _ => true
  | _ => false

/-- what is known of a thread -/
def Fine (chunk : Bytes) (s : Sys) : Pc → Prop
  | .start | .decode | .failed => True
  | .fetch => s.present = true
  | .second raw | .want raw | .inside raw => raw = chunk
  | .write raw => raw = chunk ∧ s.present = false
  | .flag => s.bytes = some chunk ∧ s.present = false
  | .leave => s.present = true
  | .unlock x | .out x => x = some chunk ∧ s.present = true

structure Inv (chunk : Bytes) (s : Sys) : Prop where
  fine : ∀ i, Fine chunk s (s.pc i)
  lock : ∀ i, (s.pc i).holds = true ↔ s.lock = some i
  bytes : ∀ x, s.bytes = some x → x = chunk
  present : s.present = true → s.bytes = some chunk

theorem Inv.new (chunk : Bytes) : Inv chunk Sys.new :=
  ⟨fun _ => trivial, fun i => by simp [Sys.new, Pc.holds], (fun x h => by cases h), fun h => by cases h⟩

/-- a step that changes nothing but the place of thread `i` -/
theorem Inv.move {chunk : Bytes} {s : Sys} (h : Inv chunk s) {i : Nat} {x : Pc} (hf : Fine chunk s x)
    (hh : x.holds = (s.pc i).holds) : Inv chunk (s.put i x) := by
  refine ⟨fun k => ?_, fun k => ?_, h.bytes, h.present⟩
  · by_cases hk : k = i
    · subst hk
      have : Fine chunk (s.put k x) x ↔ Fine chunk s x := by cases x <;> exact Iff.rfl
      simp only [Sys.put, if_true]
      exact this.2 hf
    · have : ∀ p, Fine chunk (s.put i x) p ↔ Fine chunk s p := fun p => by cases p <;> exact Iff.rfl
      simp only [this]
      simp only [Sys.put, hk, if_false]
      exact h.fine k
  · by_cases hk : k = i
    · subst hk
      simp only [Sys.put, if_true, hh]
      exact h.lock k
    · simp only [Sys.put, hk, if_false]
      exact h.lock k

theorem Inv.step {chunk : Bytes} {s s' : Sys} (h : Inv chunk s) {i : Nat} {good : Bool} (e : step chunk s i good = some s') :
    Inv chunk s' := by
  have hf := h.fine i
  have hl := h.lock i
  unfold Chunk.step at e
  cases hp : s.pc i with
  | start =>
    rw [hp] at e hf
    cases e
    cases hpr : s.present with
    | true => exact h.move (by exact hpr) (by rw [hp]; rfl)
    | false => exact h.move trivial (by rw [hp]; rfl)
  | fetch =>
    rw [hp] at e hf
    cases e
    exact h.move ⟨h.present hf, hf⟩ (by rw [hp]; rfl)
  | decode =>
    rw [hp] at e hf
    cases e
    cases good with
    | true => exact h.move rfl (by rw [hp]; rfl)
    | false => exact h.move trivial (by rw [hp]; rfl)
  | second raw =>
    rw [hp] at e hf
    cases e
    cases hpr : s.present with
    | true => exact h.move (by exact hpr) (by rw [hp]; rfl)
    | false => exact h.move (by exact hf) (by rw [hp]; rfl)
  | want raw =>
    rw [hp] at e hf
    simp only [] at e
    split at e
    · rename_i hn
      cases e
      refine ⟨fun k => ?_, fun k => ?_, h.bytes, h.present⟩
      · have : ∀ p, Fine chunk { s.put i (.inside raw) with lock := some i } p ↔ Fine chunk s p := fun p => by
          cases p <;> exact Iff.rfl
        simp only [this]
        by_cases hk : k = i
        · subst hk; simp only [Sys.put, if_true]; exact hf
        · simp only [Sys.put, hk, if_false]; exact h.fine k
      · by_cases hk : k = i
        · subst hk; simp [Sys.put, Pc.holds]
        · have := h.lock k
          rw [hn] at this
          simp only [Sys.put, hk, if_false, this]
          constructor
          · intro hx; cases hx
          · intro hx; cases hx; exact absurd rfl hk
    · cases e
  | inside raw =>
    rw [hp] at e hf
    cases e
    cases hpr : s.present with
    | true => exact h.move (by exact hpr) (by rw [hp]; rfl)
    | false => exact h.move ⟨hf, hpr⟩ (by rw [hp]; rfl)
  | write raw =>
    rw [hp] at e hf
    cases e
    obtain ⟨rfl, hpr⟩ := hf
    have own : s.lock = some i := hl.1 (by rw [hp]; rfl)
    refine ⟨fun k => ?_, fun k => ?_, ?_, ?_⟩
    · by_cases hk : k = i
      · subst hk; simp only [Sys.put, if_true]; exact ⟨rfl, hpr⟩
      · simp only [Sys.put, hk, if_false]
        have hfk := h.fine k
        have hlk := h.lock k
        cases hk' : s.pc k with
        | flag => rw [hk'] at hlk; have := hlk.1 rfl; rw [own] at this; cases this; exact absurd rfl hk
        | _ => rw [hk'] at hfk; exact hfk
    · by_cases hk : k = i
      · subst hk; simp [Sys.put, Pc.holds, own]
      · simp only [Sys.put, hk, if_false]; exact h.lock k
    · intro x hx; cases hx; rfl
    · intro hx
      have hx : s.present = true := hx
      rw [hpr] at hx
  | flag =>
    rw [hp] at e hf
    cases e
    obtain ⟨hb, hpr⟩ := hf
    have own : s.lock = some i := hl.1 (by rw [hp]; rfl)
    refine ⟨fun k => ?_, fun k => ?_, h.bytes, fun _ => hb⟩
    · by_cases hk : k = i
      · subst hk; simp only [Sys.put, if_true]; exact rfl
      · simp only [Sys.put, hk, if_false]
        have hfk := h.fine k
        have hlk := h.lock k
        cases hk' : s.pc k with
        | write raw => rw [hk'] at hlk; have := hlk.1 rfl; rw [own] at this; cases this; exact absurd rfl hk
        | flag => rw [hk'] at hlk; have := hlk.1 rfl; rw [own] at this; cases this; exact absurd rfl hk
        | fetch => exact rfl
        | leave => rfl
        | unlock x => rw [hk'] at hfk; exact ⟨hfk.1, rfl⟩
        | out x => rw [hk'] at hfk; exact ⟨hfk.1, rfl⟩
        | _ => rw [hk'] at hfk; exact hfk
    · by_cases hk : k = i
      · subst hk; simp [Sys.put, Pc.holds, own]
      · simp only [Sys.put, hk, if_false]; exact h.lock k
  | leave =>
    rw [hp] at e hf
    cases e
    exact h.move ⟨h.present hf, hf⟩ (by rw [hp]; rfl)
  | unlock x =>
    rw [hp] at e hf
    cases e
    have own : s.lock = some i := hl.1 (by rw [hp]; rfl)
    refine ⟨fun k => ?_, fun k => ?_, h.bytes, h.present⟩
    · have : ∀ p, Fine chunk { s.put i (.out x) with lock := none } p ↔ Fine chunk s p := fun p => by cases p <;> exact Iff.rfl
      simp only [this]
      by_cases hk : k = i
      · subst hk; simp only [Sys.put, if_true]; exact hf
      · simp only [Sys.put, hk, if_false]; exact h.fine k
    · by_cases hk : k = i
      · subst hk; simp [Sys.put, Pc.holds]
      · have hlk := h.lock k
        rw [own] at hlk
        simp only [Sys.put, hk, if_false, hlk]
        constructor
        · intro hx; cases hx; exact absurd rfl hk
        · intro hx; cases hx
  | failed => rw [hp] at e; cases e
  | out x => rw [hp] at e; cases e

theorem Runs.inv {chunk : Bytes} {s s' : Sys} (r : Runs chunk s s') (h : Inv chunk s) : Inv chunk s' := by
  induction r with
  | refl => exact h
  | step i good _ e ih => exact ih.step e

/-- what was stored stays -/
theorem step_bytes {chunk : Bytes} {s s' : Sys} (h : Inv chunk s) {i : Nat} {good : Bool} (e : step chunk s i good = some s')
    {x : Bytes} (hx : s.bytes = some x) : s'.bytes = some x := by
  have hf := h.fine i
  unfold Chunk.step at e
  cases hp : s.pc i with
  | write raw =>
    rw [hp] at e hf
    cases e
    have := h.bytes x hx
    rw [this, hf.1]
  | want raw =>
    rw [hp] at e
    simp only [] at e
    split at e
    · cases e; exact hx
    · cases e
  | failed => rw [hp] at e; cases e
  | out x => rw [hp] at e; cases e
  | _ => rw [hp] at e; cases e; exact hx

/-- how far a thread still has to go -/
def Pc.left : Pc → Nat
  | .start => 9 | .decode => 8 | .second _ => 7 | .want _ => 6 | .inside _ => 5 | .write _ => 4 | .flag => 3 | .leave => 2
  | .unlock _ => 1 | .fetch => 1 | .failed => 0 | .out _ => 0

theorem step_left {chunk : Bytes} {s s' : Sys} {i : Nat} {good : Bool} (e : step chunk s i good = some s') :
    (s'.pc i).left < (s.pc i).left ∧ ∀ k, k ≠ i → s'.pc k = s.pc k := by
  unfold Chunk.step at e
  cases hp : s.pc i with
  | want raw =>
    rw [hp] at e
    simp only [] at e
    split at e
    · cases e
      exact ⟨by simp [Sys.put, Pc.left], fun k hk => by simp [Sys.put, hk]⟩
    · cases e
  | failed => rw [hp] at e; cases e
  | out x => rw [hp] at e; cases e
  | start => rw [hp] at e; cases e; cases s.present <;> exact ⟨by simp [Sys.put, Pc.left], fun k hk => by simp [Sys.put, hk]⟩
  | second raw => rw [hp] at e; cases e; cases s.present <;> exact ⟨by simp [Sys.put, Pc.left], fun k hk => by simp [Sys.put, hk]⟩
  | inside raw => rw [hp] at e; cases e; cases s.present <;> exact ⟨by simp [Sys.put, Pc.left], fun k hk => by simp [Sys.put, hk]⟩
  | decode => rw [hp] at e; cases e; cases good <;> exact ⟨by simp [Sys.put, Pc.left], fun k hk => by simp [Sys.put, hk]⟩
  | _ => rw [hp] at e; cases e; exact ⟨by simp [Sys.put, Pc.left], fun k hk => by simp [Sys.put, hk]⟩

/-- a thread that is not done can take a step, or the one that has the mutex can -/
theorem can_step {chunk : Bytes} {s : Sys} (h : Inv chunk s) {i : Nat} (hi : (s.pc i).left ≠ 0) (good : Bool) :
    (step chunk s i good).isSome ∨ ∃ k, s.lock = some k ∧ (step chunk s k good).isSome := by
  cases hp : s.pc i with
  | want raw =>
    cases hl : s.lock with
    | none => left; unfold Chunk.step; rw [hp]; simp [hl]
    | some k =>
      right
      refine ⟨k, rfl, ?_⟩
      have := (h.lock k).2 hl
      unfold Chunk.step
      cases hk : s.pc k <;> rw [hk] at this <;> first | rfl | cases this
  | failed => rw [hp] at hi; exact absurd rfl hi
  | out x => rw [hp] at hi; exact absurd rfl hi
  | _ => left; unfold Chunk.step; rw [hp]; rfl

end Verif.Cache.Chunk
