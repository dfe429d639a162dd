/-
Every step of the whole system keeps the invariant.
-/
import Verif.Txn.Steps5
import Verif.Txn.Reopen
namespace Verif.Txn

variable {τ α : Type}

/-- The steps that go as the code expects:
 * a merge worker's output file is written when it is taken for written (it is not looked at
   for dynamic shards, bigwig.cc 1283-1287) and can be opened when it has its name
   (fiver.cc 1213-1215);
 * `abort()` before `ready()` removes a file whose name is made from two uninitialised
   numbers (fiver.cc 726-738): it is not the file of another transaction. -/
def Clean (s : Sys τ α) : Act τ α → Prop
  | .make w r => r ≠ .late ∧ ∀ m sel, s.mem = some m → m.workers w = .grabbed .fiverMerge sel → r = .ok
  | .abort c junk => ∀ m t, s.mem = some m → m.clients c = .opened t →
      ∀ c' id e, (m.clients c').active = some (id, e) → e.seq ≠ junk
  | _ => True

/-- the state of the whole system is sound -/
def Good (M : Ops τ α) (flat : α → List (Entry τ)) (s : Sys τ α) : Prop :=
  match s.mem with
  | some m => Inv M flat m s.disk s.durable s.published
  | none => ∃ T, Quiet M flat T s.disk s.durable

variable {M : Ops τ α} {flat : α → List (Entry τ)}

theorem Quiet.scribble {T : FName → α → Prop} {d : Disk α} {du : List (Entry τ)} (h : Quiet M flat T d du)
    (n : Nat) (x : Option α) : Quiet M flat T ((d.rm ⟨.temp, n, n⟩).link ⟨.temp, n, n⟩ x) du := by
  have nt : ∀ n' b, T n' b → n' ≠ ⟨.temp, n, n⟩ := by
    rintro n' b ht rfl
    rcases h.kind _ _ ht with (e | e) | e <;> cases e
  have back : ∀ n' y, (n', y) ∈ ((d.rm ⟨.temp, n, n⟩).link ⟨.temp, n, n⟩ x).files → n'.shard → (n', y) ∈ d.files := by
    intro n' y hy hs
    rcases mem_link.1 hy with e | e
    · cases e; rcases hs with e | e <;> cases e
    · exact (mem_rm.1 e).1
  exact
  { h with
    here := fun n' b ht => mem_link.2 (.inr (mem_rm.2 ⟨h.here n' b ht, nt n' b ht⟩))
    kit := h.kit
    scripts := h.scripts
    keys := h.keys
    cov := fun n' y hy hs => h.cov n' y (back n' y hy hs) hs
    lam := fun n1 y1 n2 y2 h1 h2 s1 s2 => h.lam n1 y1 n2 y2 (back _ _ h1 s1) (back _ _ h2 s2) s1 s2
    uniq := uniq_link (uniq_rm h.uniq _) _ fun y hy => (mem_rm.1 hy).2 rfl }

theorem Inv.no_fiver {m : Mem τ α} {d : Disk α} {du pu : List (Entry τ)} (h : Inv M flat m d du pu) {c id : Nat}
    {e : Entry τ} (hc : (m.clients c).active = some (id, e)) : d.has (fiverName e.seq) = false := by
  cases hh : d.has (fiverName e.seq) with
  | false => rfl
  | true =>
    obtain ⟨x, hx⟩ := has_iff.1 hh
    have := h.no_file hc hx (.inl rfl)
    simp [fiverName] at this

/-- **Every step keeps the system sound.** -/
theorem Good.step (hM : Lawful M flat) {s s' : Sys τ α} {a : Act τ α} (h : Good M flat s) (hc : Clean s a)
    (hs : step M .checked s a = some s') : Good M flat s' := by
  obtain ⟨mem, d, du, pu⟩ := s
  cases mem with
  | none =>
    obtain ⟨T, h⟩ := h
    dsimp only at h
    cases a <;> simp only [Txn.step, reduceCtorEq, Option.some.injEq] at hs
    case scribble n x => subst hs; exact ⟨T, h.scribble n x⟩
    case crash => subst hs; exact ⟨T, h⟩
    case recrash k => subst hs; exact h.sanitized.1 k
    case reopen =>
      subst hs
      obtain ⟨m, e1, e2, _⟩ := h.boot hM
      unfold Good
      dsimp only
      rw [e1]; exact e2
  | some m =>
    have h : Inv M flat m d du pu := h
    cases a <;> simp only [Txn.step, reduceCtorEq, Option.some.injEq] at hs
    case scribble n x => subst hs; exact h.scribble n x
    case crash => subst hs; exact ⟨_, h.quiet hM⟩
    case begin c t =>
      split at hs <;> simp only [reduceCtorEq, Option.some.injEq] at hs
      rename_i hcl
      subst hs
      exact h.setIdle (x := .opened t) ⟨rfl, rfl⟩ (fun id e k => by rw [hcl]; simp) (by intro id e k; simp)
    case number c =>
      split at hs <;> simp only [reduceCtorEq, Option.some.injEq] at hs
      rename_i t hcl
      subst hs
      exact h.number hM hcl
    case vote c ok =>
      split at hs <;> simp only [reduceCtorEq, Option.some.injEq] at hs
      rename_i id e hcl
      subst hs
      exact h.vote hcl ok
    case commit c =>
      have key : ∀ id e k, (m.clients c).active = some (id, e) →
          ((m.clients c = .voted id e true ∧ k = none) ∨ ∃ k', m.clients c = .promised id e k' ∧ k = some k') →
          Good M flat (commitSys .checked ⟨some m, d, du, pu⟩ m c id e k) := by
        intro id e k ha hcl
        unfold commitSys commitDisk
        dsimp only
        cases hg : d.get (kittenName e.seq) with
        | none => exact ⟨_, h.quiet hM⟩
        | some x =>
          have hx := h.kits c e x (active_entry ha) (get_some hg)
          subst hx
          simp only [h.no_fiver ha]
          exact h.commit hM hcl
      split at hs <;> simp only [reduceCtorEq, Option.some.injEq] at hs
      · rename_i id e hcl
        subst hs
        exact key id e none (by rw [hcl]; rfl) (.inl ⟨hcl, rfl⟩)
      · rename_i id e k hcl
        subst hs
        exact key id e (some k) (by rw [hcl]; rfl) (.inr ⟨k, hcl, rfl⟩)
    case unkitten c =>
      split at hs <;> simp only [reduceCtorEq, Option.some.injEq] at hs
      rename_i id e k hcl
      subst hs
      exact h.unkitten hcl
    case abort c junk =>
      split at hs <;> simp only [reduceCtorEq, Option.some.injEq] at hs
      · rename_i t hcl
        subst hs
        exact h.abortOpen hcl (hc m t rfl hcl)
      · rename_i id e v hcl
        subst hs
        exact h.abort hM hcl
    case script key cs =>
      split at hs
      · cases hs
      rename_i es hv
      split at hs
      · cases hs
      · rename_i h1
        split at hs
        · cases hs; exact ⟨_, h.quiet hM⟩
        · rename_i h2
          cases hs
          refine h.script hv ?_ ?_
          · intro sc hsc e
            apply h1
            simp only [Bool.or_eq_true, List.any_eq_true, decide_eq_true_eq]
            exact .inr ⟨sc, hsc, e⟩
          · intro e he
            simp only [List.any_eq_true, Bool.not_eq_true', not_exists, not_and, Bool.not_eq_false] at h2
            exact h2 e he
    case unscript key =>
      split at hs <;> simp only [reduceCtorEq, Option.some.injEq] at hs
      rename_i hb
      subst hs
      exact h.unscript (by simpa using hb)
    case sweep => subst hs; exact h.sweep
    case grab w start n =>
      split at hs
      case h_2 => cases hs
      rename_i hw
      rw [Option.map_eq_some_iff] at hs
      obtain ⟨m', hg, rfl⟩ := hs
      exact h.grab hw hg
    case make w r =>
      split at hs <;> simp only [reduceCtorEq, Option.some.injEq] at hs
      rename_i job sel hw
      subst hs
      refine h.make hM hw hc.1 ?_
      rintro rfl
      exact hc.2 m sel rfl hw
    case install w =>
      split at hs <;> simp only [reduceCtorEq, Option.some.injEq] at hs
      rename_i job sel o hw
      subst hs
      exact h.install hw
    case discard w =>
      split at hs <;> simp only [reduceCtorEq, Option.some.injEq] at hs
      · rename_i hw; subst hs; exact h.discardEnd hw
      · rename_i i l hw; subst hs; exact h.discard hw
    case rstart r =>
      split at hs <;> simp only [reduceCtorEq, Option.some.injEq] at hs
      subst hs
      exact h.rstart r
    case rend r => subst hs; exact h.setReader r none (by intro x e; cases e)
    case clone r r' =>
      split at hs <;> simp only [reduceCtorEq, Option.some.injEq] at hs
      rename_i v hv _
      subst hs
      exact h.setReader r' (some v) (by intro x e; cases e; exact ⟨r, hv⟩)

/-- A history of the system: a list of steps taken one after the other. -/
inductive Run (M : Ops τ α) : Sys τ α → Sys τ α → Prop
  | refl (s : Sys τ α) : Run M s s
  | next {s t u : Sys τ α} (a : Act τ α) : Run M s t → Clean t a → step M .checked t a = some u → Run M s u

/-- a new burrow, not open -/
def newBurrow : Sys τ α := ⟨none, ⟨[], []⟩, [], []⟩

theorem Good.new : Good M flat (newBurrow : Sys τ α) :=
  ⟨fun _ _ => False,
   { kind := fun _ _ h => h.elim, here := fun _ _ h => h.elim, rng := fun _ _ h => h.elim
     apart := fun _ _ _ _ h => h.elim, inside := fun _ _ h => h.elim, addr1 := fun _ _ h => h.elim
     addr2 := fun _ _ _ _ h => h.elim, kit := fun _ _ h => h.elim
     scripts := fun sc h => by cases h
     keys := .nil
     cov := fun _ _ h => by cases h
     lam := fun _ _ _ _ h => by cases h
     uniq := .nil
     dur := fun e => by constructor
                        · intro h; cases h
                        · rintro ⟨_, _, h, _⟩; exact h.elim }⟩

theorem Good.run (hM : Lawful M flat) {s t : Sys τ α} (h : Good M flat s) (hr : Run M s t) : Good M flat t := by
  induction hr with
  | refl => exact h
  | next a _ hc hs ih => exact ih.step hM hc hs

end Verif.Txn
