import Verif.Txn.Live
import Verif.Txn.Committable
import Verif.Txn.Contents
import Verif.Store.IndexModel
/-
  Properties of transactions, readers, merging and recovery (C16-C22).

  The system is that of Verif/Txn/Model.lean: any number of writers, readers and merge
  workers, each doing one locked section or one file-system call at a time, in any order.
  `M` and `flat` say what the shards hold: `flat` lists the transactions in a shard, and
  `Lawful M flat` that merging shards puts their transactions one after the other.
-/
namespace Verif.Props
open Verif.Txn

/-! ### C16 -/

/-- what a user sees of an object that takes part in transactions -/
inductive Phase
  | idle
  | inTransaction
  | voted (vote : Bool)
  deriving DecidableEq

/-- The contract of the four calls: the next phase, the answer, and what is really done;
`none` if the call is a mistake that ends the process. -/
def Phase.call : Phase → TCall → Option (Phase × Bool × List Hook)
  | .idle, .transaction ok => some (if ok then .inTransaction else .idle, ok, [.transaction ok])
  | p, .transaction _ => some (p, false, [])
  | .idle, .ready _ => some (.idle, false, [])
  | .inTransaction, .ready ok => some (.voted ok, ok, [.ready ok])
  | .voted v, .ready _ => some (.voted v, v, [])
  | .voted true, .commit => some (.idle, true, [.commit])
  | _, .commit => none
  | .idle, .abort => some (.idle, true, [])
  | _, .abort => some (.idle, true, [.abort])

def Phase.calls (p : Phase) : List TCall → List Bool × List Hook × Bool
  | [] => ([], [], true)
  | c :: cs =>
    match p.call c with
    | none => ([], [], false)
    | some (p', r, hs) =>
      let x := p'.calls cs
      (r :: x.1, hs ++ x.2.1, x.2.2)

def Phase.flags : Phase → Flags
  | .idle => ⟨false, false, false⟩
  | .inTransaction => ⟨true, false, false⟩
  | .voted v => ⟨true, true, v⟩

/-- **C16.**  Every sequence of calls on a new object gets exactly the answers of the
contract and runs exactly the functions of the contract. -/
theorem C16_contract (cs : List TCall) :
    ({} : Flags).calls .checked cs = Phase.idle.calls cs := by
  suffices ∀ p : Phase, p.flags.calls .checked cs = p.calls cs from this .idle
  induction cs with
  | nil => intro p; rfl
  | cons c cs ih =>
    intro p
    have key : p.flags.call .checked c = (p.call c).map fun x => (x.1.flags, x.2) := by
      cases p with
      | idle => cases c with
        | transaction ok => cases ok <;> rfl
        | ready ok => rfl
        | commit => rfl
        | abort => rfl
      | inTransaction => cases c <;> rfl
      | voted v => cases v <;> cases c <;> rfl
    unfold Flags.calls Phase.calls
    rw [key]
    cases p.call c with
    | none => rfl
    | some x => simp only [Option.map_some, ih]

/-- The order of what is really done, told without the contract: `Rounds l` says that `l`
is made of complete rounds — a refused start; or a start that is aborted; or a start, one
vote and an abort; or a start, one vote of yes and a commit — and perhaps a round that is
not complete. -/
inductive Rounds : List Hook → Prop
  | nil : Rounds []
  | refused {l} : Rounds l → Rounds (.transaction false :: l)
  | aborted {l} : Rounds l → Rounds (.transaction true :: .abort :: l)
  | votedAborted {l} (v : Bool) : Rounds l → Rounds (.transaction true :: .ready v :: .abort :: l)
  | committed {l} : Rounds l → Rounds (.transaction true :: .ready true :: .commit :: l)
  | open1 : Rounds [.transaction true]
  | open2 (v : Bool) : Rounds [.transaction true, .ready v]

/-- **C16.**  However the calls are made, what is really done comes in rounds: nothing is
committed that did not vote yes just before, no transaction votes twice, none starts inside
another. -/
theorem C16_rounds (cs : List TCall) : Rounds (({} : Flags).calls .checked cs).2.1 := by
  rw [C16_contract]
  suffices ∀ cs : List TCall, Rounds (Phase.idle.calls cs).2.1 ∧
      Rounds (.transaction true :: (Phase.inTransaction.calls cs).2.1) ∧
      ∀ v, Rounds (.transaction true :: .ready v :: ((Phase.voted v).calls cs).2.1) from (this cs).1
  intro cs
  induction cs with
  | nil => exact ⟨.nil, .open1, fun v => .open2 v⟩
  | cons c cs ih =>
    obtain ⟨h1, h2, h3⟩ := ih
    refine ⟨?_, ?_, ?_⟩
    · cases c with
      | transaction ok => cases ok with
        | true => exact h2
        | false => exact .refused h1
      | ready ok => exact h1
      | commit => exact .nil
      | abort => exact h1
    · cases c with
      | transaction ok => exact h2
      | ready ok => exact h3 ok
      | commit => exact .open1
      | abort => exact .aborted h1
    · intro v
      cases c with
      | transaction ok => cases v <;> exact h3 _
      | ready ok => cases v <;> exact h3 _
      | commit => cases v with
        | true => exact .committed h1
        | false => exact .open2 false
      | abort => cases v with
        | true => exact .votedAborted true h1
        | false => exact .votedAborted false h1

/-- the round that commits is possible -/
example : ({} : Flags).calls .checked [.transaction true, .transaction true, .ready true, .ready false, .commit,
    .abort, .ready true] = ([true, false, true, true, true, true, false],
      [.transaction true, .ready true, .commit], true) := by decide

/-- Compiled with `make fast` (assertions off) the contract does not hold: `commit()` on an
object that voted no still runs `commit_`. -/
theorem C16_fast_commits_a_no : ({} : Flags).calls .fast [.transaction true, .ready false, .commit] =
    ([true, false, true], [.transaction true, .ready false, .commit], true) := by decide

/-! ### C17, C18 -/

section
variable {τ α : Type} {M : Ops τ α} {flat : α → List (Entry τ)} {b : Build} {s s' t : Sys τ α} {m m' : Mem τ α}

/-- What `published` is: it starts as what was committed before the burrow was opened, and
grows by one transaction exactly when `commit()` of a writer that voted yes has taken the
lock and done its work. -/
theorem C17_history {a : Act τ α} (hs : step M b s a = some s') : s'.published = s.published ∨
    (a = .reopen ∧ s'.published = s.durable) ∨
    ∃ c m id e, a = .commit c ∧ s.mem = some m ∧
      (m.clients c = .voted id e true ∨ ∃ k, m.clients c = .promised id e k) ∧
      s'.published = e :: s.published := by
  obtain ⟨mem, d, du, pu⟩ := s
  cases mem with
  | none =>
    cases a <;> simp only [step, reduceCtorEq, Option.some.injEq] at hs
    all_goals subst hs
    all_goals first
      | exact .inl rfl
      | exact .inr (.inl ⟨rfl, rfl⟩)
  | some m =>
    cases a <;> simp only [step, reduceCtorEq, Option.some.injEq] at hs
    case commit c =>
      have key : ∀ id e k, (m.clients c = .voted id e true ∨ ∃ k, m.clients c = .promised id e k) →
          commitSys b ⟨some m, d, du, pu⟩ m c id e k = s' → s'.published = pu ∨
          (Act.commit c = (.reopen : Act τ α) ∧ s'.published = du) ∨
          ∃ c' m' id e, Act.commit c = (.commit c' : Act τ α) ∧ some m = some m' ∧
            (m'.clients c' = .voted id e true ∨ ∃ k, m'.clients c' = .promised id e k) ∧ s'.published = e :: pu := by
        intro id e k hc hs
        unfold commitSys at hs
        split at hs
        · subst hs; exact .inl rfl
        · subst hs; exact .inr (.inr ⟨c, m, id, e, rfl, rfl, hc, rfl⟩)
      split at hs <;> simp only [reduceCtorEq, Option.some.injEq] at hs
      · rename_i id e hcl; exact key id e none (.inl hcl) hs
      · rename_i id e k hcl; exact key id e (some k) (.inr ⟨k, hcl⟩) hs
    case script key cs =>
      left
      split at hs
      · cases hs
      split at hs
      · cases hs
      split at hs
      · cases hs; rfl
      · cases hs; rfl
    case grab w start n =>
      left
      split at hs
      case h_2 => cases hs
      rw [Option.map_eq_some_iff] at hs
      obtain ⟨m1, _, rfl⟩ := hs
      rfl
    all_goals left
    case scribble => subst hs; rfl
    case crash => subst hs; rfl
    case sweep => subst hs; rfl
    case rend => subst hs; rfl
    all_goals
      split at hs <;> simp only [reduceCtorEq, Option.some.injEq] at hs
      all_goals (subst hs; rfl)

/-- **C17, C18.**  A reader starts, and then anything happens except that it ends: commits,
aborts, merges, other readers, failures of any kind short of the end of the process.  All
that time its shards hold exactly the transactions that were published when it started —
all of each of them, each once, in the order of their numbers. -/
theorem C17_reader (hM : Lawful M flat) (hs : Session M b s) {r : Nat} (h1 : step M b s (.rstart r) = some s')
    (h2 : Live M b (· ≠ .rend r) s' t) :
    ∃ m v, t.mem = some m ∧ m.readers r = some v ∧
      (v.shards.flatMap fun i => flat (m.heap i).body).Pairwise (fun e f => e.seq < f.seq) ∧
      ∀ e, (e ∈ v.shards.flatMap fun i => flat (m.heap i).body) ↔ e ∈ s.published := by
  have hm1 : s'.mem ≠ none ∧ ∃ m v, s'.mem = some m ∧ m.readers r = some v ∧ v.seen = s.published := by
    obtain ⟨mem, d, du, pu⟩ := s
    cases mem with
    | none => simp only [step] at h1; cases h1
    | some m =>
      simp only [step] at h1
      split at h1 <;> simp only [reduceCtorEq, Option.some.injEq] at h1
      subst h1
      exact ⟨by simp [Sys.on], _, snapshot m pu, rfl, upd_same _ _ _, rfl⟩
  obtain ⟨hne, m1, v, e1, e2, e3⟩ := hm1
  have hs' : Session M b s' := hs.live (.next (P := fun _ => True) _ (.refl s) trivial h1 hne)
  have key : ∃ m, t.mem = some m ∧ m.readers r = some v := by
    clear hs'
    induction h2 with
    | refl => exact ⟨m1, e1, e2⟩
    | next a _ hp hst hm ih =>
      obtain ⟨m2, g1, g2⟩ := ih
      rename_i u _
      cases hu : u.mem with
      | none => exact absurd hu hm
      | some m3 => exact ⟨m3, rfl, step_reader g1 hst hu g2 hp⟩
  obtain ⟨m, g1, g2⟩ := key
  obtain ⟨d, du, hi⟩ := (hs'.live h2).inv hM g1
  obtain ⟨_, q2, q3⟩ := hi.view r v g2
  exact ⟨m, v, g1, g2, q2.imp fun h => h.1, fun e => by rw [q3 e, e3]⟩

/-- **C18.**  Until a reader ends, its list of shards stays the same list, and the shards in
it do not change at all. -/
theorem C18_stable (hM : Lawful M flat) (hs : Session M b s) {r : Nat} {v : View τ} (hm : s.mem = some m)
    (hr : m.readers r = some v) (h2 : Live M b (· ≠ .rend r) s t) :
    ∃ m', t.mem = some m' ∧ m'.readers r = some v ∧ ∀ i ∈ v.shards, m'.heap i = m.heap i := by
  induction h2 with
  | refl => exact ⟨m, hm, hr, fun _ _ => rfl⟩
  | next a hl hp hst hne ih =>
    obtain ⟨m2, g1, g2, g3⟩ := ih
    rename_i u
    obtain ⟨d, du, hi⟩ := (hs.live hl).inv hM g1
    cases hu : u.mem with
    | none => exact absurd hu hne
    | some m3 =>
      refine ⟨m3, rfl, step_reader g1 hst hu g2 hp, fun i hi' => ?_⟩
      obtain ⟨q1, q2⟩ := (hi.view r v g2).1 i hi'
      rw [(frozen hi g1 hst hu q1 q2).2]; exact g3 i hi'

/-- **C17.**  A transaction that is not committed yet is not published: nothing published
has its number. -/
theorem C17_uncommitted_unseen (hM : Lawful M flat) (hs : Session M b s) (hm : s.mem = some m) {c id : Nat} {e : Entry τ}
    (hc : m.clients c = .numbered id e ∨ (∃ v, m.clients c = .voted id e v) ∨ ∃ k, m.clients c = .promised id e k) :
    ∀ f ∈ s.published, f.seq ≠ e.seq := by
  obtain ⟨d, du, h⟩ := hs.inv hM hm
  have ha : (m.clients c).active = some (id, e) := by
    rcases hc with hc | ⟨v, hc⟩ | ⟨k, hc⟩ <;> rw [hc] <;> rfl
  intro f hf heq
  obtain ⟨i, hi, hsh, hfi⟩ := (h.pub f).1 hf
  obtain ⟨o1, o2⟩ := h.owns c id e ha
  have := h.inside i hi f hfi
  rcases h.live_apart hi o1 with rfl | q | q
  · rw [o2] at hsh; cases hsh
  · rw [o2] at q; dsimp only at q; omega
  · rw [o2] at q; dsimp only at q; omega

/-- nothing published, and no transaction under way, has this number, and none will get it -/
def Passed (s : Sys τ α) (n : Nat) : Prop :=
  ∃ m, s.mem = some m ∧ n < m.sequence ∧ (∀ f ∈ s.published, f.seq ≠ n) ∧
    ∀ c id e, (m.clients c).active = some (id, e) → e.seq ≠ n

theorem passed_step {a : Act τ α} {n : Nat} (h : Passed s n) (hs : step M b s a = some s') (hne : s'.mem ≠ none) :
    Passed s' n := by
  obtain ⟨m, hm, hn, hp, ha⟩ := h
  have hpub : ∀ f ∈ s'.published, f.seq ≠ n := by
    rcases C17_history hs with e | ⟨rfl, _⟩ | ⟨c, m1, id, e, rfl, e1, e2, e3⟩
    · rw [e]; exact hp
    · simp only [step, hm] at hs; cases hs
    · rw [hm] at e1; cases e1
      rw [e3]
      intro f hf
      rcases List.mem_cons.1 hf with rfl | hf
      · exact ha c id f (by rcases e2 with e2 | ⟨k, e2⟩ <;> rw [e2] <;> rfl)
      · exact hp f hf
  suffices ∃ m', s'.mem = some m' ∧ n < m'.sequence ∧
      ∀ c id e, (m'.clients c).active = some (id, e) → e.seq ≠ n by
    obtain ⟨m', q1, q2, q3⟩ := this
    exact ⟨m', q1, q2, hpub, q3⟩
  obtain ⟨mem, d, du, pu⟩ := s
  dsimp only at hm
  subst hm
  have setc : ∀ (m1 : Mem τ α) (c : Nat) (x : Client τ), m1.clients = upd m.clients c x →
      (∀ id e, x.active = some (id, e) → (m.clients c).active = some (id, e)) →
      ∀ c' id e, (m1.clients c').active = some (id, e) → e.seq ≠ n := by
    intro m1 c x h1 h2 c' id e h3
    rw [h1] at h3
    unfold upd at h3
    split at h3
    · exact ha c id e (h2 id e h3)
    · exact ha c' id e h3
  cases a <;> simp only [step, reduceCtorEq, Option.some.injEq] at hs
  case scribble => subst hs; exact ⟨m, rfl, hn, ha⟩
  case crash => subst hs; exact absurd rfl hne
  case begin c x =>
    split at hs <;> simp only [reduceCtorEq, Option.some.injEq] at hs
    subst hs
    exact ⟨_, rfl, hn, setc _ c (.opened x) rfl (fun _ _ h => by cases h)⟩
  case number c =>
    split at hs <;> simp only [reduceCtorEq, Option.some.injEq] at hs
    subst hs
    refine ⟨_, rfl, Nat.lt_succ_of_lt hn, ?_⟩
    intro c' id e h3
    simp only [number, upd] at h3
    split at h3
    · cases h3; exact Nat.ne_of_gt hn
    · exact ha c' id e h3
  case vote c ok =>
    split at hs <;> simp only [reduceCtorEq, Option.some.injEq] at hs
    rename_i id e hcl
    subst hs
    refine ⟨_, rfl, hn, setc _ c (vote M d id e ok).2 rfl ?_⟩
    intro id' e' h3
    rw [hcl]
    unfold vote at h3
    split at h3
    · exact h3
    · split at h3 <;> exact h3
  case commit c =>
    have key : ∀ id e k, commitSys b ⟨some m, d, du, pu⟩ m c id e k = s' → ∃ m', s'.mem = some m' ∧ n < m'.sequence ∧
        ∀ c id e, (m'.clients c).active = some (id, e) → e.seq ≠ n := by
      intro id e k hs
      unfold commitSys at hs
      split at hs
      · subst hs; exact absurd rfl hne
      · subst hs
        exact ⟨_, rfl, hn, setc _ c (.linked id e k) rfl (fun _ _ h => by cases h)⟩
    split at hs <;> simp only [reduceCtorEq, Option.some.injEq] at hs
    · exact key _ _ _ hs
    · exact key _ _ _ hs
  case unkitten c =>
    split at hs <;> simp only [reduceCtorEq, Option.some.injEq] at hs
    subst hs
    exact ⟨_, rfl, hn, setc _ c .idle rfl (fun _ _ h => by cases h)⟩
  case abort c junk =>
    split at hs <;> simp only [reduceCtorEq, Option.some.injEq] at hs
    · subst hs
      exact ⟨_, rfl, hn, setc _ c .idle rfl (fun _ _ h => by cases h)⟩
    · subst hs
      exact ⟨_, rfl, hn, setc _ c .idle rfl (fun _ _ h => by cases h)⟩
  case script key cs =>
    split at hs
    · cases hs
    split at hs
    · cases hs
    split at hs
    · cases hs; exact absurd rfl hne
    cases hs
    refine ⟨_, rfl, hn, ?_⟩
    intro c' id e h3
    simp only [promise] at h3
    split at h3
    · apply ha c' id e
      cases hc : m.clients c' with
      | voted i e' v => rw [hc] at h3; cases v <;> exact h3
      | _ => rw [hc] at h3; exact h3
    · exact ha c' id e h3
  case unscript key =>
    split at hs <;> simp only [reduceCtorEq, Option.some.injEq] at hs
    subst hs; exact ⟨m, rfl, hn, ha⟩
  case sweep => subst hs; exact ⟨_, rfl, hn, ha⟩
  case grab w start k =>
    split at hs
    case h_2 => cases hs
    rw [Option.map_eq_some_iff] at hs
    obtain ⟨m1, hg, rfl⟩ := hs
    unfold grab at hg
    dsimp only at hg
    split at hg
    · split at hg
      · cases hg
      · cases hg; exact ⟨_, rfl, hn, ha⟩
    · cases hg
  case make w r =>
    split at hs <;> simp only [reduceCtorEq, Option.some.injEq] at hs
    rename_i job R hw
    subst hs
    refine ⟨_, rfl, ?_⟩
    unfold makeOut
    cases job with
    | fiverMerge => exact ⟨hn, ha⟩
    | hazelMerge =>
      dsimp only
      split
      · split <;> exact ⟨hn, ha⟩
      · exact ⟨hn, ha⟩
      · cases r <;> exact ⟨hn, ha⟩
    | convert =>
      dsimp only
      split
      · exact ⟨hn, ha⟩
      · split <;> exact ⟨hn, ha⟩
  case install w =>
    split at hs <;> simp only [reduceCtorEq, Option.some.injEq] at hs
    subst hs
    refine ⟨_, rfl, ?_⟩
    unfold install
    split <;> exact ⟨hn, ha⟩
  case discard w =>
    split at hs <;> simp only [reduceCtorEq, Option.some.injEq] at hs
    · subst hs; exact ⟨_, rfl, hn, ha⟩
    · subst hs; exact ⟨_, rfl, hn, ha⟩
  case rstart r' =>
    split at hs <;> simp only [reduceCtorEq, Option.some.injEq] at hs
    subst hs; exact ⟨_, rfl, hn, ha⟩
  case rend r' => subst hs; exact ⟨_, rfl, hn, ha⟩
  case clone r1 r2 =>
    split at hs <;> simp only [reduceCtorEq, Option.some.injEq] at hs
    subst hs; exact ⟨_, rfl, hn, ha⟩

/-- **C17.**  An aborted transaction is never published: as long as the process lives, no
published transaction has its number. -/
theorem C17_aborted_never_seen (hM : Lawful M flat) (hs : Session M b s) (hm : s.mem = some m) {c id junk : Nat}
    {e : Entry τ} {v : Bool} (hc : m.clients c = .voted id e v) (h1 : step M b s (.abort c junk) = some s')
    (h2 : Live M b (fun _ => True) s' t) : ∀ f ∈ t.published, f.seq ≠ e.seq := by
  obtain ⟨d, du, h⟩ := hs.inv hM hm
  have hp : Passed s' e.seq := by
    have hpub := C17_uncommitted_unseen hM hs hm (.inr (.inl ⟨v, hc⟩))
    obtain ⟨mem, d, du', pu⟩ := s
    dsimp only at hm
    subst hm
    simp only [step, hc, Option.some.injEq] at h1
    subst h1
    refine ⟨_, rfl, h.seqs c e (by rw [hc]; rfl), hpub, ?_⟩
    intro c' id' e' h3 heq
    simp only [abortMem, upd] at h3
    split at h3
    · cases h3
    · rename_i hne
      exact hne (h.alone c' c e' e (active_entry h3) (by rw [hc]; rfl) heq)
  have : Passed t e.seq := by
    clear h1
    induction h2 with
    | refl => exact hp
    | next a _ _ hst hne ih => exact passed_step ih hst hne
  obtain ⟨_, _, _, q, _⟩ := this
  exact q

/-! ### C19 -/

/-- the transactions that have a number: those published and those under way -/
def Numbered (s : Sys τ α) (m : Mem τ α) (e : Entry τ) : Prop :=
  e ∈ s.published ∨
  ∃ c id, m.clients c = .numbered id e ∨ (∃ v, m.clients c = .voted id e v) ∨ ∃ k, m.clients c = .promised id e k

/-- **C19.**  No two transactions have the same number, and the addresses of the text of the
earlier one all lie below those of the later one. -/
theorem C19_disjoint_ordered (hM : Lawful M flat) (hs : Session M b s) (hm : s.mem = some m) {e f : Entry τ}
    (he : Numbered s m e) (hf : Numbered s m f) :
    (e.seq = f.seq → e = f) ∧
    (e.seq < f.seq → ∀ p q, e.base ≤ p → p < e.base + M.size e.txn → f.base ≤ q → q < f.base + M.size f.txn → p < q) := by
  obtain ⟨d, du, h⟩ := hs.inv hM hm
  have hin : ∀ e, Numbered s m e → ∃ i ∈ m.warrens, e ∈ flat (m.heap i).body := by
    rintro e (he | ⟨c, id, hc⟩)
    · obtain ⟨i, hi, _, q⟩ := (h.pub e).1 he
      exact ⟨i, hi, q⟩
    · have ha : (m.clients c).active = some (id, e) := by
        rcases hc with hc | ⟨v, hc⟩ | ⟨k, hc⟩ <;> rw [hc] <;> rfl
      obtain ⟨o1, o2⟩ := h.owns c id e ha
      exact ⟨id, o1, by rw [o2, hM.leaf]; simp⟩
  have mem : ∀ e, Numbered s m e → e ∈ m.warrens.flatMap fun i => flat (m.heap i).body := by
    intro e he
    obtain ⟨i, hi, q⟩ := hin e he
    exact List.mem_flatMap.2 ⟨i, hi, q⟩
  have tri : ∀ {l : List (Entry τ)}, l.Pairwise (Before M) → e ∈ l → f ∈ l → e = f ∨ Before M e f ∨ Before M f e := by
    intro l hl h1 h2
    induction l with
    | nil => cases h1
    | cons a l ih =>
      rw [List.pairwise_cons] at hl
      rcases List.mem_cons.1 h1 with rfl | k1 <;> rcases List.mem_cons.1 h2 with rfl | k2
      · exact .inl rfl
      · exact .inr (.inl (hl.1 _ k2))
      · exact .inr (.inr (hl.1 _ k1))
      · exact ih hl.2 k1 k2
  have := tri h.addrs (mem e he) (mem f hf)
  refine ⟨fun heq => ?_, fun hlt p q p1 p2 q1 q2 => ?_⟩
  · rcases this with q | q | q
    · exact q
    · have := q.1; omega
    · have := q.1; omega
  · rcases this with q | q | q
    · subst q; omega
    · have := q.2 (by omega) (by omega); omega
    · have := q.1; omega

end

open Verif.Store Verif.Hopper in
/-- **C19.**  `relocate`: an annotation on the transaction's own text (its addresses start
at `staging` while it is open) moves to `whereTo` by one and the same constant, start and
end; one that starts before is left alone. -/
theorem C19_relocate (whereTo : Int) (f : Int) (a : Ann) :
    (staging ≤ a.p → (relocate whereTo (f, a)) = (f, ⟨whereTo + (a.p - staging), whereTo + (a.q - staging), a.v⟩)) ∧
    (a.p < staging → relocate whereTo (f, a) = (f, a)) := by
  constructor
  · intro h
    unfold relocate
    rw [if_pos (by exact h)]
    have e1 : a.p - (staging - whereTo) = whereTo + (a.p - staging) := by omega
    have e2 : a.q - (staging - whereTo) = whereTo + (a.q - staging) := by omega
    dsimp only
    rw [e1, e2]
  · intro h
    unfold relocate
    rw [if_neg (by dsimp only; omega)]

open Verif.Store Verif.Hopper in
/-- The code does not move the end of an annotation that starts on an earlier address and
ends on the transaction's own text: it keeps an end that is no address of the text. -/
theorem C19_straddling : relocate 10 (7, ⟨5, staging + 2, 0⟩) = (7, ⟨5, staging + 2, 0⟩) :=
  (C19_relocate 10 7 ⟨5, staging + 2, 0⟩).2 (by decide)

section
variable {τ α : Type} {M : Ops τ α} {flat : α → List (Entry τ)} {b : Build} {s s' t : Sys τ α} {m m' : Mem τ α}

/-! ### C20 -/

/-- **C20.**  At every moment the live shards, taken in order, hold exactly the published
transactions, each once and in the order of their numbers. -/
theorem C20_nothing_lost (hM : Lawful M flat) (hs : Session M b s) (hm : s.mem = some m) :
    ((m.warrens.filter fun i => shown (m.heap i)).flatMap fun i => flat (m.heap i).body).Pairwise
      (fun e f => e.seq < f.seq) ∧
    ∀ e, (e ∈ (m.warrens.filter fun i => shown (m.heap i)).flatMap fun i => flat (m.heap i).body) ↔
      e ∈ s.published := by
  obtain ⟨d, du, h⟩ := hs.inv hM hm
  constructor
  · exact (h.addrs.sublist (flatMap_sub List.filter_sublist _)).imp fun q => q.1
  · intro e
    rw [h.pub e, List.mem_flatMap]
    constructor
    · rintro ⟨i, hi, q⟩
      obtain ⟨q1, q2⟩ := List.mem_filter.1 hi
      exact ⟨i, q1, q2, q⟩
    · rintro ⟨i, q1, q2, q⟩
      exact ⟨i, List.mem_filter.2 ⟨q1, q2⟩, q⟩

/-- **C20.**  No merge spans an unfinished transaction: its number lies outside the range of
every live shard, outside the range a worker has selected, from its first source to its last,
and outside the range of a worker's output. -/
theorem C20_no_span (hM : Lawful M flat) (hs : Session M b s) (hm : s.mem = some m) {c id : Nat} {e : Entry τ}
    (hc : m.clients c = .numbered id e ∨ (∃ v, m.clients c = .voted id e v) ∨ ∃ k, m.clients c = .promised id e k) :
    (∀ i ∈ m.warrens, shown (m.heap i) = true → (m.heap i).hi < e.seq ∨ e.seq < (m.heap i).lo) ∧
    (∀ w job sel first last, m.workers w = .grabbed job sel → sel.head? = some first → sel.getLast? = some last →
      (m.heap last).hi < e.seq ∨ e.seq < (m.heap first).lo) ∧
    (∀ w job sel out, m.workers w = .made job sel out → (m.heap out).hi < e.seq ∨ e.seq < (m.heap out).lo) := by
  obtain ⟨d, du, h⟩ := hs.inv hM hm
  have ha : (m.clients c).active = some (id, e) := by
    rcases hc with hc | ⟨v, hc⟩ | ⟨k, hc⟩ <;> rw [hc] <;> rfl
  obtain ⟨o1, o2⟩ := h.owns c id e ha
  have hk : shown (m.heap id) = false := h.kitten_shown ha
  have sel : ∀ w job sel first last, (m.workers w).Holds job sel → sel.head? = some first → sel.getLast? = some last →
      (m.heap last).hi < e.seq ∨ e.seq < (m.heap first).lo := by
    intro w job sel first last hw h1 h2
    obtain ⟨_, q, _, _⟩ := h.selection hw h1 h2
    have := q id o1 hk
    rw [o2] at this
    dsimp only at this
    omega
  refine ⟨?_, fun w job s f l hw h1 h2 => sel w job s f l (.inl hw) h1 h2, ?_⟩
  · intro i hi hsh
    rcases h.live_apart hi o1 with rfl | q | q
    · rw [hk] at hsh; cases hsh
    · rw [o2] at q; exact .inl q
    · rw [o2] at q; exact .inr q
  · intro w job R out hw
    obtain ⟨_, _, q, _⟩ := h.made w job R out hw
    obtain ⟨a, z, ha', hz', _⟩ := h.span (w := w) (.inr ⟨out, hw⟩)
    rw [q.2.1 a ha', q.2.2.1 z hz']
    exact sel w job R a z (.inr ⟨out, hw⟩) ha' hz'

/-- what a worker's output holds: its sources' transactions, in order -/
theorem C20_output (hM : Lawful M flat) (hs : Session M b s) (hm : s.mem = some m) {w : Nat} {job : Job}
    {sel : List Nat} {out : Nat} (hw : m.workers w = .made job sel out) :
    flat (m.heap out).body = sel.flatMap fun i => flat (m.heap i).body := by
  obtain ⟨d, du, h⟩ := hs.inv hM hm
  exact (h.made w job sel out hw).2.2.1.2.2.2

/-! ### C21 -/

/-- What `durable` is: it grows by one transaction when a single `commit()` has linked its
file, and by all transactions of a `commit_all` when the script has its name; it never
shrinks. -/
theorem C21_history {a : Act τ α} (hs : step M b s a = some s') : s'.durable = s.durable ∨
    (∃ c m id e, a = .commit c ∧ s.mem = some m ∧ m.clients c = .voted id e true ∧ s'.mem ≠ none ∧
      s'.durable = e :: s.durable) ∨
    ∃ key cs m es, a = .script key cs ∧ s.mem = some m ∧ allVoted m cs = some es ∧ s'.mem ≠ none ∧
      s'.durable = es ++ s.durable := by
  obtain ⟨mem, d, du, pu⟩ := s
  cases mem with
  | none =>
    left
    cases a <;> simp only [step, reduceCtorEq, Option.some.injEq] at hs
    all_goals (subst hs; rfl)
  | some m =>
    cases a <;> simp only [step, reduceCtorEq, Option.some.injEq] at hs
    case commit c =>
      split at hs <;> simp only [reduceCtorEq, Option.some.injEq] at hs
      · rename_i id e hcl
        unfold commitSys at hs
        split at hs
        · subst hs; exact .inl rfl
        · subst hs
          exact .inr (.inl ⟨c, m, id, e, rfl, rfl, hcl, by simp, rfl⟩)
      · unfold commitSys at hs
        split at hs
        · subst hs; exact .inl rfl
        · subst hs; exact .inl rfl
    case script key cs =>
      split at hs
      · cases hs
      rename_i es hv
      split at hs
      · cases hs
      split at hs
      · cases hs; exact .inl rfl
      · cases hs; exact .inr (.inr ⟨key, cs, m, es, rfl, rfl, hv, by simp, rfl⟩)
    case grab w start n =>
      left
      split at hs
      case h_2 => cases hs
      rw [Option.map_eq_some_iff] at hs
      obtain ⟨m1, _, rfl⟩ := hs
      rfl
    all_goals left
    case scribble => subst hs; rfl
    case crash => subst hs; rfl
    case sweep => subst hs; rfl
    case rend => subst hs; rfl
    all_goals
      split at hs <;> simp only [reduceCtorEq, Option.some.injEq] at hs
      all_goals (subst hs; rfl)

theorem C21_kept {a : Act τ α} (hs : step M b s a = some s') {e : Entry τ} (he : e ∈ s.durable) : e ∈ s'.durable := by
  rcases C21_history hs with h | ⟨_, _, _, _, _, _, _, _, h⟩ | ⟨_, _, _, _, _, _, _, _, h⟩ <;> rw [h] <;> simp [he]

/-- **C21**, for histories in which the workers' files are written when the code takes them
for written (see `Clean`).  After any such history, with the process stopped at any point,
and stopped again any number of times at any point while the burrow is being opened: opening
it succeeds; the shards hold exactly the transactions whose commit point was passed, each
once, in order, and all of them are shown to readers; opening it once more makes no
file-system call and gives the same.
Missing: histories with the failures `Clean` excludes (see the theorems below), and the
`make fast` build. -/
theorem C21_recovery_partial (hM : Lawful M flat) (hr : Run M newBurrow s) (hm : s.mem = none) :
    ∃ s' m, step M .checked s .reopen = some s' ∧ s'.mem = some m ∧
      (∀ i ∈ m.warrens, shown (m.heap i) = true) ∧
      (m.warrens.flatMap fun i => flat (m.heap i).body).Pairwise (fun e f => e.seq < f.seq) ∧
      (∀ e, (e ∈ m.warrens.flatMap fun i => flat (m.heap i).body) ↔ e ∈ s.durable) ∧
      s'.disk.scripts = [] ∧
      (sanitize s'.disk).1 = [] ∧ boot M s'.disk = (s'.disk, some m) := by
  have hg := Good.new.run hM hr
  obtain ⟨mem, d, du, pu⟩ := s
  dsimp only at hm
  subst hm
  obtain ⟨T, hq⟩ := hg
  dsimp only at hq
  obtain ⟨_, all, T', e1, q, e2, e3, e4, e5⟩ := hq.sanitized
  obtain ⟨os, e6, hi⟩ := q.booted hM e4 e2 e3 e5
  have hb : boot M d = (d.ops (sanitize d).1, some (booted M os)) := by
    simp only [boot, e1, e6, Option.map_some]
  obtain ⟨g1, g2⟩ := hq.boot_again hM
  rw [hb] at g1 g2
  dsimp only at g1 g2
  have hsh : ∀ i ∈ (booted M os).warrens, shown ((booted M os).heap i) = true := by
    obtain ⟨os', e6', hl, hat⟩ := loadAll_some q (fun n hn => (e3 n).1 hn)
    rw [e6] at e6'; cases e6'
    intro i hi
    have hlt : i < os.length := List.mem_range.1 hi
    obtain ⟨b, q1, q2⟩ := hat i all[i] (List.getElem?_eq_getElem (by omega))
    simp only [booted, q2]
    rw [shown_iff]; simp only [kindOf]; split <;> simp
  have hst : step M .checked ⟨none, d, du, pu⟩ .reopen =
      some ⟨some (booted M os), d.ops (sanitize d).1, du, du⟩ := by
    simp only [step, hb]
  refine ⟨⟨some (booted M os), d.ops (sanitize d).1, du, du⟩, booted M os, hst, rfl, hsh, hi.addrs.imp fun q => q.1, ?_, e4, g1, g2⟩
  intro e
  rw [hi.pub e, List.mem_flatMap]
  constructor
  · rintro ⟨i, h1, h2⟩; exact ⟨i, h1, hsh i h1, h2⟩
  · rintro ⟨i, h1, _, h2⟩; exact ⟨i, h1, h2⟩

/-- **C21.**  A transaction that is not committed when the process stops is dropped: it is
not among the durable ones, and no durable one has its number. -/
theorem C21_uncommitted_dropped (hM : Lawful M flat) (hr : Run M newBurrow s) (hm : s.mem = some m) {c id : Nat}
    {e : Entry τ} (hc : m.clients c = .numbered id e ∨ ∃ v, m.clients c = .voted id e v) :
    ∀ f ∈ s.durable, f.seq ≠ e.seq := by
  have hg := Good.new.run hM hr
  unfold Good at hg
  rw [hm] at hg
  have h : Inv M flat m s.disk s.durable s.published := hg
  have ha : (m.clients c).active = some (id, e) := by
    rcases hc with hc | ⟨v, hc⟩ <;> rw [hc] <;> rfl
  obtain ⟨o1, o2⟩ := h.owns c id e ha
  intro f hf heq
  rcases (h.dur f).1 hf with hf | ⟨c', id', k, hc'⟩
  · obtain ⟨i, hi, hsh, hfi⟩ := (h.pub f).1 hf
    have := h.inside i hi f hfi
    rcases h.live_apart hi o1 with rfl | q | q
    · rw [o2] at hsh; cases hsh
    · rw [o2] at q; dsimp only at q; omega
    · rw [o2] at q; dsimp only at q; omega
  · have := h.alone c' c f e (by rw [hc']; rfl) (active_entry ha) heq
    subst this
    rw [hc'] at hc
    rcases hc with hc | ⟨v, hc⟩ <;> cases hc

/-- **C20, C21.**  Everything published is durable. -/
theorem C21_published_durable (hM : Lawful M flat) (hr : Run M newBurrow s) (hm : s.mem ≠ none) {e : Entry τ}
    (he : e ∈ s.published) : e ∈ s.durable := by
  have hg := Good.new.run hM hr
  unfold Good at hg
  cases h : s.mem with
  | none => exact absurd h hm
  | some m =>
    rw [h] at hg
    have h : Inv M flat m s.disk s.durable s.published := hg
    exact (h.dur e).2 (.inl he)

/-! ### C22 -/

theorem Run.trans {s t u : Sys τ α} (h1 : Run M s t) (h2 : Run M t u) : Run M s u := by
  induction h2 with
  | refl => exact h1
  | next a _ hc hs ih => exact .next a ih hc hs

theorem run_kept (h : Run M s t) {e : Entry τ} (he : e ∈ s.durable) : e ∈ t.durable := by
  induction h with
  | refl => exact he
  | next a _ _ hs ih => exact C21_kept hs ih

/-- **C22**, for one `Working` and for histories like those of C21.  Let `commit_all` be
given any writers that have voted yes.  If the process stops at any point before the script
has its name, opening the burrow shows none of their transactions.  If the script gets its
name and anything follows — commits, the removal of the script, merges, a stop at any point,
stops while opening — then opening the burrow shows all of them.
Missing: the writers of different `Working` objects, for which `Warren::commit_all` commits
one after the other, see `C22_fallback_not_atomic`. -/
theorem C22_all_or_nothing_partial (hM : Lawful M flat) (hr : Run M newBurrow s) (hm : s.mem = some m) {key : Nat}
    {cs : List Nat} {es : List (Entry τ)} (hv : allVoted m cs = some es) :
    (∀ k, ∃ s1 m1, step M .checked ⟨none, s.disk.ops ((sanitize s.disk).1.take k), s.durable, s.published⟩ .reopen = some s1 ∧
      s1.mem = some m1 ∧ ∀ e ∈ es, ∀ i ∈ m1.warrens, e ∉ flat (m1.heap i).body) ∧
    ∀ s' t, step M .checked s (.script key cs) = some s' → s'.mem ≠ none → Run M s' t → t.mem = none →
      ∃ t1 m1, step M .checked t .reopen = some t1 ∧ t1.mem = some m1 ∧
        ∀ e ∈ es, ∃ i ∈ m1.warrens, shown (m1.heap i) = true ∧ e ∈ flat (m1.heap i).body := by
  constructor
  · intro k
    have r1 : Run M newBurrow { s with mem := none } := .next (.crash) hr trivial rfl
    have r2 : Run M newBurrow ⟨none, s.disk.ops ((sanitize s.disk).1.take k), s.durable, s.published⟩ :=
      .next (.recrash k) r1 trivial rfl
    obtain ⟨s1, m1, q1, q2, _, _, q3, _⟩ := C21_recovery_partial hM r2 rfl
    refine ⟨s1, m1, q1, q2, ?_⟩
    intro e he i hi hx
    have hd := (q3 e).1 (List.mem_flatMap.2 ⟨i, hi, hx⟩)
    dsimp only at hd
    suffices ∃ c id, m.clients c = .voted id e true by
      obtain ⟨c, id, hc⟩ := this
      exact C21_uncommitted_dropped hM hr hm (.inr ⟨_, hc⟩) e hd rfl
    clear hd hx
    induction cs generalizing es with
    | nil => simp only [allVoted, Option.some.injEq] at hv; subst hv; cases he
    | cons c cs ih =>
      simp only [allVoted] at hv
      cases hc : votedYes m c with
      | none => rw [hc] at hv; cases hv
      | some p =>
        cases hr' : allVoted m cs with
        | none => rw [hc, hr'] at hv; cases hv
        | some es' =>
          rw [hc, hr'] at hv
          simp only [Option.some.injEq] at hv
          subst hv
          rcases List.mem_cons.1 he with rfl | he
          · unfold votedYes at hc
            split at hc
            · rename_i id e hcl; cases hc; exact ⟨c, id, hcl⟩
            · cases hc
          · exact ih hr' he
  · intro s' t h1 hne h2 ht
    have hdur : ∀ e ∈ es, e ∈ s'.durable := by
      rcases C21_history h1 with h | ⟨_, _, _, _, h, _⟩ | ⟨k', cs', m', es', ha, hm', hv', _, h⟩
      · -- the script got its name, so this does not happen unless there is nothing to do
        obtain ⟨mem, d, du, pu⟩ := s
        dsimp only at hm h
        subst hm
        simp only [step, hv] at h1
        split at h1
        · cases h1
        · split at h1
          · cases h1; exact absurd rfl hne
          · cases h1
            intro e he
            exact List.mem_append.2 (.inl he)
      · cases h
      · cases ha
        rw [hm] at hm'; cases hm'
        rw [hv] at hv'; cases hv'
        rw [h]
        intro e he
        exact List.mem_append.2 (.inl he)
    have r1 : Run M newBurrow s' := .next (.script key cs) hr trivial h1
    obtain ⟨t1, m1, q1, q2, q0, _, q3, _⟩ := C21_recovery_partial hM (Run.trans r1 h2) ht
    refine ⟨t1, m1, q1, q2, fun e he => ?_⟩
    obtain ⟨i, hi, hx⟩ := List.mem_flatMap.1 ((q3 e).2 (run_kept h2 (hdur e he)))
    exact ⟨i, hi, q0 i hi, hx⟩

end

/-! ### Histories that go wrong, and examples -/

/-- steps one after the other, none of which may be impossible -/
def runs {τ α : Type} (M : Ops τ α) (b : Build) (s : Sys τ α) : List (Act τ α) → Option (Sys τ α)
  | [] => some s
  | a :: l => match step M b s a with | none => none | some s' => runs M b s' l

abbrev E := Entry (Nat × Nat)

/-- What is to be seen of a state: if the burrow is open, what each of its shards holds; the
durable transactions; the names of the files. -/
structure Look where
  shards : Option (List (List E))
  durable : List E
  files : List FName
  deriving DecidableEq

def look (s : Option (Sys (Nat × Nat) (List E))) : Option Look :=
  s.map fun s => ⟨s.mem.map fun m => (m.warrens.filter fun i => shown (m.heap i)).map fun i => (m.heap i).body,
    s.durable, s.disk.files.map (·.1)⟩

abbrev A := Act (Nat × Nat) (List (Entry (Nat × Nat)))

/-- a transaction with three addresses and two annotations, from start to end -/
def whole (c : Nat) : List A := [.begin c (3, 2), .number c, .vote c true, .commit c, .unkitten c]

/-- the hypotheses of C17 to C22 are met: two transactions, merged, the burrow reopened -/
example : look (runs listOps .checked newBurrow ([.reopen] ++ whole 0 ++ whole 1 ++
    [.rstart 0, .grab 0 0 2, .make 0 .ok, .install 0, .discard 0, .crash, .recrash 1, .recrash 7, .reopen])) =
    some ⟨some [[⟨0, 0, (3, 2)⟩, ⟨1, 3, (3, 2)⟩]], [⟨1, 3, (3, 2)⟩, ⟨0, 0, (3, 2)⟩], [⟨.fiver, 0, 1⟩]⟩ := by
  decide

/-- a history made only of steps for which `Clean` has nothing to say is clean -/
def Plain : A → Bool
  | .make _ _ => false
  | .abort _ _ => false
  | _ => true

theorem run_plain {s t : Sys (Nat × Nat) (List (Entry (Nat × Nat)))} : ∀ {l : List A}, l.all Plain = true →
    ∀ {s0}, Run listOps s0 s → runs listOps .checked s l = some t → Run listOps s0 t := by
  intro l
  induction l generalizing s with
  | nil => intro _ s0 h e; cases e; exact h
  | cons a l ih =>
    intro hp s0 h e
    simp only [List.all_cons, Bool.and_eq_true] at hp
    simp only [runs] at e
    split at e
    · cases e
    · rename_i s' hs
      exact ih hp.2 (.next a h (by cases a <;> first | exact trivial | (simp [Plain] at hp)) hs) e

/-- non-vacuity of the hypotheses `Run newBurrow s` and `s.mem = none` -/
example : ∃ s, Run listOps newBurrow s ∧ s.mem = none ∧ s.durable = [⟨0, 0, (3, 2)⟩] := by
  cases h : runs listOps .checked newBurrow ([.reopen] ++ whole 0 ++ [.crash]) with
  | none =>
    have : (runs listOps .checked newBurrow ([.reopen] ++ whole 0 ++ [.crash])).isSome = true := by decide
    rw [h] at this; cases this
  | some s =>
    have e : look (runs listOps .checked newBurrow ([.reopen] ++ whole 0 ++ [.crash])) =
      some ⟨none, [⟨0, 0, (3, 2)⟩], [⟨.fiver, 0, 0⟩]⟩ := by decide
    rw [h] at e
    simp only [look, Option.map_some, Option.some.injEq, Look.mk.injEq, Option.map_eq_none_iff] at e
    exact ⟨s, run_plain (by decide) (.refl _) h, e.1, e.2.1⟩

/-- `make fast` compiles `assert(link(...) == 0)` away (fiver.cc 719), and the link with it:
the commit is shown to readers, and lost when the burrow is opened again. -/
theorem C21_fast_build_loses_commits :
    look (runs listOps .fast newBurrow ([.reopen] ++ whole 0)) = some ⟨some [[⟨0, 0, (3, 2)⟩]], [⟨0, 0, (3, 2)⟩], []⟩ ∧
    look (runs listOps .fast newBurrow ([.reopen] ++ whole 0 ++ [.crash, .reopen])) =
      some ⟨some [], [⟨0, 0, (3, 2)⟩], []⟩ := by decide

/-- A merge of dynamic shards does not look at whether its output could be written
(bigwig.cc 1285), and discards the sources: both transactions are lost when the process
stops. -/
theorem C21_unwritten_merge_loses_commits :
    look (runs listOps .checked newBurrow ([.reopen] ++ whole 0 ++ whole 1 ++
      [.grab 0 0 2, .make 0 .fail, .install 0, .discard 0, .discard 0, .crash, .reopen])) =
    some ⟨some [], [⟨1, 3, (3, 2)⟩, ⟨0, 0, (3, 2)⟩], []⟩ := by decide

/-- A dynamic shard is made static, the file gets its name but cannot be opened, and the
worker gives up without removing it (fiver.cc 1213-1215).  A later merge of the dynamic
shard with another leaves a static file that overlaps it: the burrow can no longer be
opened. -/
theorem C21_late_failure_closes_burrow :
    look (runs listOps .checked newBurrow ([.reopen] ++ whole 0 ++ whole 1 ++
      [.grab 0 0 1, .make 0 .late, .grab 0 0 2, .make 0 .ok, .install 0, .discard 0, .discard 0, .discard 0,
       .crash, .reopen])) =
    some ⟨none, [⟨1, 3, (3, 2)⟩, ⟨0, 0, (3, 2)⟩], [⟨.fiver, 0, 1⟩, ⟨.hazel, 0, 0⟩]⟩ := by decide

/-- `abort()` before `ready()` removes a file named after two numbers that were never set
(fiver.cc 726-738, 653-662): it may be that of another writer which has voted yes.  Its
`commit()` then ends the process, and its transaction is lost. -/
theorem C21_abort_removes_another_vote :
    look (runs listOps .checked newBurrow [.reopen, .begin 0 (3, 2), .number 0, .vote 0 true, .begin 1 (1, 1),
      .abort 1 0, .commit 0, .reopen]) = some ⟨some [], [], []⟩ := by decide

/-- A transaction without annotations votes yes but writes no file (fiver.cc 676); its
`commit()` fails the assertion and ends the process. -/
theorem C21_empty_transaction_ends_process :
    look (runs listOps .checked newBurrow [.reopen, .begin 0 (0, 0), .number 0, .vote 0 true, .commit 0]) =
      some ⟨none, [], []⟩ := by decide

/-- `commit_all` is not atomic to readers: one that starts between two of its commits sees
one of the transactions and not the other. -/
theorem C22_readers_see_part :
    ((runs listOps .checked newBurrow [.reopen, .begin 0 (3, 2), .number 0, .vote 0 true, .begin 1 (3, 2), .number 1,
      .vote 1 true, .script 5 [0, 1], .commit 0, .rstart 0]).bind fun s => s.mem.bind fun m =>
        (m.readers 0).map fun v => v.shards.map fun i => (m.heap i).body) =
    some [[⟨0, 0, (3, 2)⟩]] := by decide

/-- Without a script (`Warren::commit_all` warren.cc 142-156 when `Bigwig::commit_all`
refuses, for instance because the warrens have different `Working` objects) a stop between
two commits leaves one transaction and not the other. -/
theorem C22_fallback_not_atomic :
    look (runs listOps .checked newBurrow [.reopen, .begin 0 (3, 2), .number 0, .vote 0 true, .begin 1 (3, 2), .number 1,
      .vote 1 true, .commit 0, .crash, .reopen]) = some ⟨some [[⟨0, 0, (3, 2)⟩]], [⟨0, 0, (3, 2)⟩], [⟨.fiver, 0, 0⟩]⟩ := by
  decide

/-- with the script, both are there -/
example : look (runs listOps .checked newBurrow [.reopen, .begin 0 (3, 2), .number 0, .vote 0 true, .begin 1 (3, 2),
      .number 1, .vote 1 true, .script 5 [0, 1], .commit 0, .crash, .recrash 2, .reopen]) =
    some ⟨some [[⟨0, 0, (3, 2)⟩], [⟨1, 3, (3, 2)⟩]], [⟨0, 0, (3, 2)⟩, ⟨1, 3, (3, 2)⟩],
      [⟨.fiver, 1, 1⟩, ⟨.fiver, 0, 0⟩]⟩ := by decide

end Verif.Props
