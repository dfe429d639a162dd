import Verif.Extent.Model
/-
  Model of `range` of the text of a dynamic shard, src/fiver.cc 319-334, asked by any number of
  threads at once.

  Each access to a member of the text that threads share is a step of its own, and steps of
  different calls follow each other in any order.  (C++ promises less: the members are not atomic,
  so it gives no meaning at all to a program in which one call reads what another is writing.)
  A call is named by a number; a thread that asks twice makes two calls.
-/
namespace Verif.Extent.Threads
open Verif.Hopper

/-- what the hopper finds: the first chunk of the text, and the last address of the last chunk -/
structure Found where
  first : Int × Int
  last : Int

/-- the two questions to the hopper, src/fiver.cc 324, 327 -/
def found (H : Obj) : M H.σ Found := do
  let a ← H.tau (minfinity + 1)
  let b ← H.uat (maxfinity - 1)
  pure ⟨(a.p, a.q), b.q⟩

/-- what is to be answered, src/fiver.cc 324-328 -/
def Found.range (f : Found) : Int × Int := (f.first.1, if f.first.1 < maxfinity then f.last else f.first.2)

/-- what a call does next -/
inductive Pc
  /-- line 320 `if (!range_valid_)` -/
  | look
  /-- line 321 `lock` -/
  | lock
  /-- line 322 `if (!range_valid_)` -/
  | check
  /-- line 323 `range_valid_ = true` -/
  | mark
  /-- line 324 `tau` puts the first chunk into `range_p_` ... -/
  | firstP
  /-- ... and `range_q_`; line 325 -/
  | firstQ
  /-- line 327 `uat` puts the last address into `range_q_` -/
  | last
  /-- lines 328-330: the end of the block gives the lock back -/
  | unlock
  /-- line 331 `*p = range_p_` -/
  | readP
  /-- line 332 `*q = range_q_` -/
  | readQ (p : Int)
  /-- line 333 `return range_p_ < maxfinity` -/
  | test (p q : Int)
  /-- the call has returned -/
  | done (b : Bool) (p q : Int)
  deriving DecidableEq

/-- the members of the text, src/fiver.cc 336-338, and the calls -/
structure Sys where
  valid : Bool
  p : Int
  q : Int
  holder : Option Nat
  pc : Nat → Pc

/-- a text just made, src/fiver.cc 260-262: `range_p_` and `range_q_` are whatever was in memory -/
def fresh (p q : Int) : Sys := ⟨false, p, q, none, fun _ => .look⟩

/-- call `t` goes on to `c` -/
def Sys.go (s : Sys) (t : Nat) (c : Pc) : Sys := { s with pc := fun u => if u = t then c else s.pc u }

/-- one step of call `t` -/
def step (f : Found) (s : Sys) (t : Nat) : Sys :=
  match s.pc t with
  | .look => if s.valid then s.go t .readP else s.go t .lock
  | .lock => if s.holder = none then { s with holder := some t }.go t .check else s
  | .check => if s.valid then s.go t .unlock else s.go t .mark
  | .mark => { s with valid := true }.go t .firstP
  | .firstP => { s with p := f.first.1 }.go t .firstQ
  | .firstQ => { s with q := f.first.2 }.go t (if s.p < maxfinity then .last else .unlock)
  | .last => { s with q := f.last }.go t .unlock
  | .unlock => { s with holder := none }.go t .readP
  | .readP => s.go t (.readQ s.p)
  | .readQ p => s.go t (.test p s.q)
  | .test p q => s.go t (.done (decide (s.p < maxfinity)) p q)
  | .done .. => s

/-- the calls take steps in this order -/
def run (f : Found) (s : Sys) (sched : List Nat) : Sys := sched.foldl (step f) s

/-! ### what holds in every order -/

/-- the call has the lock -/
def Pc.inside : Pc → Prop
  | .check | .mark | .firstP | .firstQ | .last | .unlock => True
  | _ => False

/-- the call is writing the range -/
def Pc.writing : Pc → Prop
  | .firstP | .firstQ | .last => True
  | _ => False

/-- the call is past the places where the range may not be known -/
def Pc.past : Pc → Prop
  | .unlock | .readP | .readQ _ | .test .. | .done .. => True
  | _ => False

structure Inv (f : Found) (s : Sys) : Prop where
  held : ∀ t, (s.pc t).inside → s.holder = some t
  owner : ∀ t, s.holder = some t → (s.pc t).inside
  marking : ∀ t, s.pc t = .mark → s.valid = false
  wrote : ∀ t, (s.pc t = .firstQ ∨ s.pc t = .last) → s.p = f.first.1
  more : ∀ t, s.pc t = .last → f.first.1 < maxfinity
  known : ∀ t, (s.pc t).past ∨ (s.pc t).writing → s.valid = true
  right : s.valid = true → (∀ t, ¬ (s.pc t).writing) → (s.p, s.q) = f.range

theorem fresh_inv (f : Found) (p q : Int) : Inv f (fresh p q) where
  held t h := by simp [fresh, Pc.inside] at h
  owner t h := by simp [fresh] at h
  marking t h := by simp [fresh] at h
  wrote t h := by simp [fresh] at h
  more t h := by simp [fresh] at h
  known t h := by simp [fresh, Pc.past, Pc.writing] at h
  right h := by simp [fresh] at h

/-- the range is known, and nobody writes it or will -/
structure Settled (f : Found) (s : Sys) : Prop where
  valid : s.valid = true
  right : (s.p, s.q) = f.range
  still : ∀ t, ¬ (s.pc t).writing ∧ s.pc t ≠ .mark

theorem Inv.alone {f : Found} {s : Sys} (h : Inv f s) {t u : Nat} (ht : (s.pc t).inside) (hu : (s.pc u).inside) : u = t := by
  have := h.held t ht
  rw [h.held u hu] at this
  exact Option.some.inj this

theorem step_inv {f : Found} {s : Sys} (h : Inv f s) (t : Nat) : Inv f (step f s t) := by
  have hal := @Inv.alone f s h t
  obtain ⟨h1, h0, h2, h3, h4, h5, h6⟩ := h
  unfold step
  split <;> (try split) <;> constructor <;> (try dsimp only [Sys.go]) <;> intros <;>
    grind [Pc.inside, Pc.writing, Pc.past, Found.range]

theorem run_inv {f : Found} {s : Sys} (h : Inv f s) (l : List Nat) : Inv f (run f s l) := by
  induction l generalizing s with
  | nil => exact h
  | cons t l ih => exact ih (step_inv h t)

theorem settled_step {f : Found} {s : Sys} (h : Settled f s) (t : Nat) : Settled f (step f s t) := by
  obtain ⟨h1, h2, h3⟩ := h
  unfold step
  split <;> (try split) <;> constructor <;> (try dsimp only [Sys.go]) <;> intros <;>
    grind [Pc.writing]

/-- while a call is just about to give the lock back, and whenever all calls have returned or not
begun and one has returned, the range is known -/
theorem settled_of {f : Found} {s : Sys} (h : Inv f s) {t : Nat} (ht : s.pc t = .unlock) : Settled f s := by
  have hs : ∀ u, ¬ (s.pc u).writing ∧ s.pc u ≠ .mark := by
    intro u
    by_cases hu : (s.pc u).inside
    · have := h.alone (t := t) (by rw [ht]; trivial) hu
      subst this
      rw [ht]
      exact ⟨fun h => h, by simp⟩
    · refine ⟨fun hw => hu ?_, fun hw => hu (by rw [hw]; trivial)⟩
      revert hw
      cases s.pc u <;> simp [Pc.writing, Pc.inside]
  have hv := h.known t (Or.inl (by rw [ht]; trivial))
  exact ⟨hv, h.right hv fun u => (hs u).1, hs⟩

/-- the call will answer right, whatever else happens -/
def Good (f : Found) (s : Sys) (t : Nat) : Prop :=
  match s.pc t with
  | .lock | .check | .mark | .firstP | .firstQ | .last | .unlock => True
  | .look | .readP => Settled f s
  | .readQ p => Settled f s ∧ p = f.range.1
  | .test p q => Settled f s ∧ (p, q) = f.range
  | .done b p q => b = decide (f.range.1 < maxfinity) ∧ (p, q) = f.range

theorem step_pc_other {f : Found} {s : Sys} {t u : Nat} (h : u ≠ t) : (step f s t).pc u = s.pc u := by
  unfold step
  split <;> (try split) <;> simp [Sys.go, h]

theorem step_moves {f : Found} {s : Sys} {t : Nat} (h : s.pc t ≠ .lock) (hd : ∀ b x y, s.pc t ≠ .done b x y) :
    (step f s t).pc t ≠ s.pc t := by
  unfold step
  split <;> (try split) <;> simp_all [Sys.go]

theorem good_step {f : Found} {s : Sys} (hi : Inv f s) {u : Nat} (h : Good f s u) (t : Nat) : Good f (step f s t) u := by
  by_cases hu : u = t
  · subst hu
    have e : ∀ s : Sys, Settled f s → s.p = f.range.1 ∧ s.q = f.range.2 := fun s hs => by rw [← hs.right]; exact ⟨rfl, rfl⟩
    have hst := fun h => settled_step (f := f) (s := s) h u
    unfold Good at h
    cases hp : s.pc u with
    | look =>
      rw [hp] at h
      have := hst h
      have hv := h.valid
      unfold Good
      unfold step at this ⊢
      simp only [hp, hv, if_true] at this ⊢
      simpa [Sys.go] using this
    | lock =>
      unfold Good step
      simp only [hp]
      by_cases hv : s.holder = none <;> simp [Sys.go, hp, hv]
    | check =>
      unfold Good step
      simp only [hp]
      by_cases hv : s.valid = true <;> simp [Sys.go, hv]
    | mark => unfold Good step; simp only [hp]; simp [Sys.go]
    | firstP => unfold Good step; simp only [hp]; simp [Sys.go]
    | firstQ => unfold Good step; simp only [hp]; by_cases hv : s.p < maxfinity <;> simp [Sys.go, hv]
    | last => unfold Good step; simp only [hp]; simp [Sys.go]
    | unlock =>
      have := hst (settled_of hi hp)
      unfold Good
      unfold step at this ⊢
      simp only [hp] at this ⊢
      simpa [Sys.go] using this
    | readP =>
      rw [hp] at h
      have := hst h
      have := (e s h).1
      unfold Good
      unfold step at *
      simp only [hp] at *
      simp_all [Sys.go]
    | readQ p =>
      rw [hp] at h
      obtain ⟨h, hh⟩ := h
      have := hst h
      have := (e s h).2
      unfold Good
      unfold step at *
      simp only [hp] at *
      simp_all [Sys.go]
    | test p q =>
      rw [hp] at h
      obtain ⟨h, hh⟩ := h
      have := (e s h).1
      unfold Good
      unfold step
      simp only [hp]
      simp_all [Sys.go]
    | done b p q =>
      rw [hp] at h
      unfold Good step
      simp only [hp]
      exact h
  · have e := step_pc_other (f := f) (s := s) hu
    have := fun h => settled_step (f := f) (s := s) h t
    unfold Good at h ⊢
    rw [e]
    cases hp : s.pc u <;> rw [hp] at h <;> simp_all

theorem good_run {f : Found} {s : Sys} (hi : Inv f s) {u : Nat} (h : Good f s u) (l : List Nat) : Good f (run f s l) u := by
  induction l generalizing s with
  | nil => exact h
  | cons t l ih => exact ih (step_inv hi t) (good_step hi h t)

/-- all calls have returned or not begun, and one has returned -/
theorem settled_quiet {f : Found} {s : Sys} (h : Inv f s) (hq : ∀ u, s.pc u = .look ∨ ∃ b p q, s.pc u = .done b p q)
    {t : Nat} (ht : s.pc t ≠ .look) : Settled f s := by
  have hv : s.valid = true := by
    rcases hq t with h' | ⟨b, p, q, h'⟩
    · exact absurd h' ht
    · exact h.known t (Or.inl (by rw [h']; trivial))
  have hs : ∀ u, ¬ (s.pc u).writing ∧ s.pc u ≠ .mark := by
    intro u
    rcases hq u with h' | ⟨b, p, q, h'⟩ <;> rw [h'] <;> simp [Pc.writing]
  exact ⟨hv, h.right hv fun u => (hs u).1, hs⟩

end Verif.Extent.Threads
