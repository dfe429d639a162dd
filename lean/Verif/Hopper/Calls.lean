import Verif.Hopper.Lemmas
/-
  Histories of calls on one hopper, and what the answers should be.
-/
namespace Verif.Hopper

/-- a call of the public interface (`src/hopper.h:17-77`) -/
inductive Call where
  | tau (k : Int) | rho (k : Int) | uat (k : Int) | ohr (k : Int) | L (k : Int) | R (k : Int)

/-- an answer: an interval with value, or an address -/
inductive Answer where
  | ann (a : Ann)
  | pos (x : Int)
deriving DecidableEq, Repr

/-- the argument of a call -/
def Call.key : Call → Int
  | .tau k | .rho k | .uat k | .ohr k | .L k | .R k => k

/-- the right answer, from the solution list and the argument alone -/
def Right (S : GC) : Call → Answer → Prop
  | .tau k, .ann a => TauSpec S k a
  | .rho k, .ann a => RhoSpec S k a
  | .uat k, .ann a => UatSpec S k a
  | .ohr k, .ann a => OhrSpec S k a
  | .L k, .pos x => LSpec S k x
  | .R k, .pos x => RSpec S k x
  | _, _ => False

/-- perform one call -/
def Obj.call (H : Obj) : Call → M H.σ Answer
  | .tau k => do return .ann (← H.tau k)
  | .rho k => do return .ann (← H.rho k)
  | .uat k => do return .ann (← H.uat k)
  | .ohr k => do return .ann (← H.ohr k)
  | .L k => do return .pos (← H.L k)
  | .R k => do return .pos (← H.R k)

/-- perform a sequence of calls on the same hopper, collecting the answers -/
def Obj.run (H : Obj) : List Call → M H.σ (List Answer)
  | [] => return []
  | c :: cs => do
    let a ← H.call c
    let as ← H.run cs
    return a :: as

theorem Impl.call {H : Obj} {I : H.σ → Prop} {S : GC} (h : Impl H I S) (c : Call)
    (hk : InRange c.key) : Ok I (H.call c) (Right S c) := by
  cases c with
  | tau k => exact Ok.bind (h.tau k hk) fun a ha => Ok.pure ha
  | rho k => exact Ok.bind (h.rho k hk) fun a ha => Ok.pure ha
  | uat k => exact Ok.bind (h.uat k hk) fun a ha => Ok.pure ha
  | ohr k => exact Ok.bind (h.ohr k hk) fun a ha => Ok.pure ha
  | L k => exact Ok.bind (h.L k hk) fun a ha => Ok.pure ha
  | R k => exact Ok.bind (h.R k hk) fun a ha => Ok.pure ha

theorem Impl.run {H : Obj} {I : H.σ → Prop} {S : GC} (h : Impl H I S) :
    ∀ cs : List Call, (∀ c ∈ cs, InRange c.key) → Ok I (H.run cs) fun as =>
      as.length = cs.length ∧ ∀ x ∈ cs.zip as, Right S x.1 x.2 := by
  intro cs
  induction cs with
  | nil => intro _; exact Ok.pure ⟨rfl, by simp⟩
  | cons c cs ih =>
    intro hk
    refine Ok.bind (h.call c (hk c (by simp))) fun a ha => ?_
    refine Ok.bind (ih fun c hc => hk c (List.mem_cons_of_mem _ hc)) fun as has => ?_
    refine Ok.pure ⟨by simp [has.1], ?_⟩
    intro x hx
    rw [List.zip_cons_cons] at hx
    rcases List.mem_cons.1 hx with rfl | hx
    · exact ha
    · exact has.2 x hx

/-- the right answer is unique -/
theorem Right.unique {S : GC} (w : Wf S) {c : Call} {a b : Answer} (h : Right S c a)
    (h' : Right S c b) : a = b := by
  cases c <;> cases a <;> cases b <;> first | exact h.elim | exact h'.elim | skip
  · exact congrArg _ (TauSpec.unique w h h')
  · exact congrArg _ (RhoSpec.unique w h h')
  · exact congrArg _ (UatSpec.unique w h h')
  · exact congrArg _ (OhrSpec.unique w h h')
  · obtain ⟨r, h1, rfl⟩ := h; obtain ⟨r', h2, rfl⟩ := h'
    rw [UatSpec.unique w h1 h2]
  · obtain ⟨r, h1, rfl⟩ := h; obtain ⟨r', h2, rfl⟩ := h'
    rw [TauSpec.unique w h1 h2]

end Verif.Hopper
