/-
Histories within one process: what stays as it is.
-/
import Verif.Txn.Session
namespace Verif.Txn

variable {τ α : Type} {M : Ops τ α} {flat : α → List (Entry τ)} {m m' : Mem τ α} {d : Disk α}
  {du pu : List (Entry τ)}

/-- Steps taken one after the other, each allowed by `P`, while the process is alive. -/
inductive Live (M : Ops τ α) (b : Build) (P : Act τ α → Prop) : Sys τ α → Sys τ α → Prop
  | refl (s : Sys τ α) : Live M b P s s
  | next {s t u : Sys τ α} (a : Act τ α) : Live M b P s t → P a → step M b t a = some u → u.mem ≠ none →
      Live M b P s u

theorem Live.trans {b : Build} {P : Act τ α → Prop} {s t u : Sys τ α} (h1 : Live M b P s t) (h2 : Live M b P t u) :
    Live M b P s u := by
  induction h2 with
  | refl => exact h1
  | next a _ hp hs hm ih => exact .next a ih hp hs hm

theorem Live.weaken {b : Build} {P Q : Act τ α → Prop} {s t : Sys τ α} (h : Live M b P s t) (hpq : ∀ a, P a → Q a) :
    Live M b Q s t := by
  induction h with
  | refl => exact .refl _
  | next a _ hp hs hm ih => exact .next a ih (hpq a hp) hs hm

/-- The burrow was just opened, and all that happened to it before went well. -/
def Opened (M : Ops τ α) (s : Sys τ α) : Prop :=
  ∃ s0 a, Run M newBurrow s0 ∧ a = Act.reopen ∧ step M .checked s0 a = some s

/-- The burrow was opened like this, and then anything happened short of the end of the
process. -/
def Session (M : Ops τ α) (b : Build) (s : Sys τ α) : Prop :=
  ∃ s0, Opened M s0 ∧ Live M b (fun _ => True) s0 s

theorem Opened.sess (hM : Lawful M flat) {s : Sys τ α} (h : Opened M s) :
    ∃ m, s.mem = some m ∧ Sess M flat m s.disk s.published := by
  obtain ⟨s0, a, hr, rfl, hs⟩ := h
  have hg := Good.new.run hM hr
  obtain ⟨mem, d, du, pu⟩ := s0
  cases mem with
  | some m => simp only [step] at hs; cases hs
  | none =>
    obtain ⟨T, hq⟩ := hg
    dsimp only at hq
    obtain ⟨_, all, T', e1, q, e2, e3, e4, e5⟩ := hq.sanitized
    obtain ⟨os, e6, hi⟩ := q.booted hM e4 e2 e3 e5
    have hb : boot M d = (d.ops (sanitize d).1, some (booted M os)) := by
      simp only [boot, e1, e6, Option.map_some]
    simp only [step, hb, Option.some.injEq] at hs
    subst hs
    refine ⟨_, rfl, ⟨_, _, hi, rfl⟩, ?_⟩
    dsimp only
    obtain ⟨os', e6', hl, hat⟩ := loadAll_some q (fun n hn => (e3 n).1 hn)
    rw [e6] at e6'; cases e6'
    have obj : ∀ i, i < os.length → ∃ n b, all[i]? = some n ∧ T' n b ∧
        (booted M os).heap i = ⟨kindOf n, n.lo, n.hi, b⟩ := by
      intro i hlt
      obtain ⟨b, q1, q2⟩ := hat i all[i] (List.getElem?_eq_getElem (by omega))
      exact ⟨all[i], b, List.getElem?_eq_getElem (by omega), q1, by simp only [booted, q2]⟩
    have kindly : ∀ n b, T' n b → ∀ o : Obj α, o = ⟨kindOf n, n.lo, n.hi, b⟩ → o.file = n := by
      rintro n b ht o rfl
      have hk := q.shards e4 ht
      obtain ⟨k, lo, hi⟩ := n
      unfold kindOf
      rcases hk with e | e
      · simp only at e; subst e; rfl
      · simp only at e; subst e; rfl
    refine hi.settled ?_ ?_
    · intro i hi
      obtain ⟨n, b, _, _, e⟩ := obj i (List.mem_range.1 hi)
      rw [e, shown_iff]; simp only [kindOf]; split <;> simp
    · intro n x hx
      obtain ⟨i, hlt, he⟩ := List.getElem_of_mem (e5 n x hx)
      obtain ⟨n', b, q1, q2, q3⟩ := obj i (by omega)
      rw [List.getElem?_eq_getElem hlt, he] at q1
      cases q1
      exact ⟨i, List.mem_range.2 (by omega), kindly n b q2 _ q3⟩

theorem Live.sess (hM : Lawful M flat) {b : Build} {P : Act τ α → Prop} {s t : Sys τ α} (h : Live M b P s t)
    (hs : ∃ m, s.mem = some m ∧ Sess M flat m s.disk s.published) :
    ∃ m, t.mem = some m ∧ Sess M flat m t.disk t.published := by
  induction h with
  | refl => exact hs
  | @next t u a _ _ hst hm ih =>
    obtain ⟨m, e1, e2⟩ := ih
    cases hu : u.mem with
    | none => exact absurd hu hm
    | some m' => exact ⟨m', rfl, e2.step hM e1 hst hu⟩

theorem Session.sess (hM : Lawful M flat) {b : Build} {s : Sys τ α} (h : Session M b s) :
    ∃ m, s.mem = some m ∧ Sess M flat m s.disk s.published := by
  obtain ⟨s0, h1, h2⟩ := h
  exact h2.sess hM (h1.sess hM)

theorem Session.inv (hM : Lawful M flat) {b : Build} {s : Sys τ α} (h : Session M b s) (hm : s.mem = some m) :
    ∃ d du, Inv M flat m d du s.published := by
  obtain ⟨m', e1, ⟨d, du, hi, _⟩, _⟩ := h.sess hM
  rw [hm] at e1; cases e1
  exact ⟨d, du, hi⟩

theorem Session.live {b : Build} {P : Act τ α → Prop} {s t : Sys τ α} (h : Session M b s) (hl : Live M b P s t) :
    Session M b t := by
  obtain ⟨s0, h1, h2⟩ := h
  exact ⟨s0, h1, h2.trans (hl.weaken fun _ _ => trivial)⟩

/-- shards that are shown do not change in any step -/
theorem frozen (h : Inv M flat m d du pu) {b : Build} {s s' : Sys τ α} {a : Act τ α} (hm : s.mem = some m)
    (hs : step M b s a = some s') (hm' : s'.mem = some m') {i : Nat} (hi : i < m.fresh)
    (hsh : shown (m.heap i) = true) : i < m'.fresh ∧ m'.heap i = m.heap i := by
  obtain ⟨mem, dd, du', pu'⟩ := s
  dsimp only at hm
  subst hm
  have ne : ∀ {c id e}, (m.clients c).active = some (id, e) → i ≠ id := by
    rintro c id e hc rfl
    rw [h.kitten_shown hc] at hsh; cases hsh
  have put : ∀ w job R o, i < (putOut m w job R o).fresh ∧ (putOut m w job R o).heap i = m.heap i := by
    intro w job R o
    refine ⟨Nat.lt_succ_of_lt hi, ?_⟩
    simp only [putOut]
    exact upd_ne _ _ (by omega)
  cases a <;> simp only [Txn.step, reduceCtorEq, Option.some.injEq] at hs
  case scribble n x => subst hs; cases hm'; exact ⟨hi, rfl⟩
  case crash => subst hs; cases hm'
  case begin c t =>
    split at hs <;> simp only [reduceCtorEq, Option.some.injEq] at hs
    subst hs; cases hm'; exact ⟨hi, rfl⟩
  case number c =>
    split at hs <;> simp only [reduceCtorEq, Option.some.injEq] at hs
    subst hs; cases hm'
    exact ⟨Nat.lt_succ_of_lt hi, upd_ne _ _ (by omega)⟩
  case vote c ok =>
    split at hs <;> simp only [reduceCtorEq, Option.some.injEq] at hs
    subst hs; cases hm'; exact ⟨hi, rfl⟩
  case commit c =>
    have key : ∀ id e k, (m.clients c).active = some (id, e) →
        commitSys b ⟨some m, dd, du', pu'⟩ m c id e k = s' → i < m'.fresh ∧ m'.heap i = m.heap i := by
      intro id e k ha hs
      unfold commitSys at hs
      split at hs
      · subst hs; cases hm'
      · subst hs; cases hm'
        exact ⟨hi, upd_ne _ _ (ne ha)⟩
    split at hs <;> simp only [reduceCtorEq, Option.some.injEq] at hs
    · rename_i id e hcl; exact key id e none (by rw [hcl]; rfl) hs
    · rename_i id e k hcl; exact key id e (some k) (by rw [hcl]; rfl) hs
  case unkitten c =>
    split at hs <;> simp only [reduceCtorEq, Option.some.injEq] at hs
    subst hs; cases hm'; exact ⟨hi, rfl⟩
  case abort c junk =>
    split at hs <;> simp only [reduceCtorEq, Option.some.injEq] at hs
    · subst hs; cases hm'; exact ⟨hi, rfl⟩
    · rename_i id e v hcl
      subst hs; cases hm'
      exact ⟨hi, upd_ne _ _ (ne (c := c) (by rw [hcl]; rfl))⟩
  case script key cs =>
    split at hs
    · cases hs
    split at hs
    · cases hs
    split at hs
    · cases hs; cases hm'
    cases hs; cases hm'; exact ⟨hi, rfl⟩
  case unscript key =>
    split at hs <;> simp only [reduceCtorEq, Option.some.injEq] at hs
    subst hs; cases hm'; exact ⟨hi, rfl⟩
  case sweep => subst hs; cases hm'; exact ⟨hi, rfl⟩
  case grab w start n =>
    split at hs
    case h_2 => cases hs
    rw [Option.map_eq_some_iff] at hs
    obtain ⟨m1, hg, rfl⟩ := hs
    cases hm'
    unfold grab at hg
    dsimp only at hg
    split at hg
    · split at hg
      · cases hg
      · cases hg; exact ⟨hi, rfl⟩
    · cases hg
  case make w r =>
    split at hs <;> simp only [reduceCtorEq, Option.some.injEq] at hs
    rename_i job R hw
    subst hs; cases hm'
    have rel : i < (release m w R).fresh ∧ (release m w R).heap i = m.heap i := ⟨hi, rfl⟩
    unfold makeOut
    cases job with
    | fiverMerge => exact put w _ R _
    | hazelMerge =>
      dsimp only
      split
      · split
        · exact put w _ R _
        · exact rel
      · exact rel
      · cases r
        · exact put w _ R _
        · exact rel
        · exact rel
    | convert =>
      dsimp only
      split
      · exact rel
      · split
        · exact rel
        · exact put w _ R _
  case install w =>
    split at hs <;> simp only [reduceCtorEq, Option.some.injEq] at hs
    subst hs; cases hm'
    unfold install
    split <;> exact ⟨hi, rfl⟩
  case discard w =>
    split at hs <;> simp only [reduceCtorEq, Option.some.injEq] at hs
    · subst hs; cases hm'; exact ⟨hi, rfl⟩
    · subst hs; cases hm'; exact ⟨hi, rfl⟩
  case rstart r =>
    split at hs <;> simp only [reduceCtorEq, Option.some.injEq] at hs
    subst hs; cases hm'; exact ⟨hi, rfl⟩
  case rend r => subst hs; cases hm'; exact ⟨hi, rfl⟩
  case clone r r' =>
    split at hs <;> simp only [reduceCtorEq, Option.some.injEq] at hs
    subst hs; cases hm'; exact ⟨hi, rfl⟩

/-- a reader keeps its list of shards until it ends -/
theorem step_reader {b : Build} {s s' : Sys τ α} {a : Act τ α} (hm : s.mem = some m)
    (hs : step M b s a = some s') (hm' : s'.mem = some m') {r : Nat} {v : View τ} (hr : m.readers r = some v)
    (ha : a ≠ .rend r) : m'.readers r = some v := by
  obtain ⟨mem, dd, du', pu'⟩ := s
  dsimp only at hm
  subst hm
  cases a <;> simp only [Txn.step, reduceCtorEq, Option.some.injEq] at hs
  case scribble n x => subst hs; cases hm'; exact hr
  case crash => subst hs; cases hm'
  case begin c t =>
    split at hs <;> simp only [reduceCtorEq, Option.some.injEq] at hs
    subst hs; cases hm'; exact hr
  case number c =>
    split at hs <;> simp only [reduceCtorEq, Option.some.injEq] at hs
    subst hs; cases hm'; exact hr
  case vote c ok =>
    split at hs <;> simp only [reduceCtorEq, Option.some.injEq] at hs
    subst hs; cases hm'; exact hr
  case commit c =>
    have key : ∀ id e k, commitSys b ⟨some m, dd, du', pu'⟩ m c id e k = s' → m'.readers r = some v := by
      intro id e k hs
      unfold commitSys at hs
      split at hs
      · subst hs; cases hm'
      · subst hs; cases hm'; exact hr
    split at hs <;> simp only [reduceCtorEq, Option.some.injEq] at hs
    · exact key _ _ _ hs
    · exact key _ _ _ hs
  case unkitten c =>
    split at hs <;> simp only [reduceCtorEq, Option.some.injEq] at hs
    subst hs; cases hm'; exact hr
  case abort c junk =>
    split at hs <;> simp only [reduceCtorEq, Option.some.injEq] at hs
    · subst hs; cases hm'; exact hr
    · subst hs; cases hm'; exact hr
  case script key cs =>
    split at hs
    · cases hs
    split at hs
    · cases hs
    split at hs
    · cases hs; cases hm'
    cases hs; cases hm'; exact hr
  case unscript key =>
    split at hs <;> simp only [reduceCtorEq, Option.some.injEq] at hs
    subst hs; cases hm'; exact hr
  case sweep => subst hs; cases hm'; exact hr
  case grab w start n =>
    split at hs
    case h_2 => cases hs
    rw [Option.map_eq_some_iff] at hs
    obtain ⟨m1, hg, rfl⟩ := hs
    cases hm'
    unfold grab at hg
    dsimp only at hg
    split at hg
    · split at hg
      · cases hg
      · cases hg; exact hr
    · cases hg
  case make w r =>
    split at hs <;> simp only [reduceCtorEq, Option.some.injEq] at hs
    rename_i job R hw
    subst hs; cases hm'
    unfold makeOut
    cases job with
    | fiverMerge => exact hr
    | hazelMerge =>
      dsimp only
      split
      · split <;> exact hr
      · exact hr
      · cases r <;> exact hr
    | convert =>
      dsimp only
      split
      · exact hr
      · split <;> exact hr
  case install w =>
    split at hs <;> simp only [reduceCtorEq, Option.some.injEq] at hs
    subst hs; cases hm'
    unfold install
    split <;> exact hr
  case discard w =>
    split at hs <;> simp only [reduceCtorEq, Option.some.injEq] at hs
    · subst hs; cases hm'; exact hr
    · subst hs; cases hm'; exact hr
  case rstart r' =>
    split at hs <;> simp only [reduceCtorEq, Option.some.injEq] at hs
    rename_i hn
    subst hs; cases hm'
    dsimp only
    rw [upd_ne]; exact hr
    rintro rfl; rw [hn] at hr; cases hr
  case rend r' =>
    subst hs; cases hm'
    dsimp only
    rw [upd_ne]; exact hr
    rintro rfl; exact ha rfl
  case clone r1 r2 =>
    split at hs <;> simp only [reduceCtorEq, Option.some.injEq] at hs
    rename_i _ hn
    subst hs; cases hm'
    dsimp only
    rw [upd_ne]; exact hr
    rintro rfl; rw [hn] at hr; cases hr

end Verif.Txn
