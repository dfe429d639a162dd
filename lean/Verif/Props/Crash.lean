import Verif.Crash.Proof
import Verif.Props.TxtIO
import Verif.Props.Static

/-!
# C35: crashes of a static warren

A transaction on a static warren is a sequence of changes of the files of its directory (`Crash/Model.lean`).
A crash leaves what `Crash.Cut` says (`Crash/Spec.lean`).
-/

namespace Verif.Props
open Verif.Crash
open Verif.TxtIO (Bytes Disk Codec Store Call)

/-- A warren opened on the directory has these contents, nothing of a transaction is left, and a new
transaction can begin. -/
structure Settled (n : Nat) (z : Codec) (c : Contents) (d : Dir) : Prop where
  text : ∃ s, TxtIO.make n z d.store = some s ∧ Serves n z c.text s
  txt : d.txt = c.txt
  idx : d.idx = c.idx
  pst : d.pst = c.pst
  nothing : d.txtNew = none ∧ d.idxNew = none ∧ d.pstNew = none
  unlocked : canBegin d = true

theorem clean_settled {n z c d} (hn : 0 < n) (hz : z.Restores n) (h : Clean n z c d) : Settled n z c d := by
  obtain ⟨s, e, f⟩ := TxtIO.make_whole hn hz h.whole h.limits h.lock
  have hr := h.rest
  refine ⟨⟨s, e, fresh_serves hn hz f⟩, by rw [hr], by rw [hr], by rw [hr], ⟨by rw [hr], by rw [hr], by rw [hr]⟩, ?_⟩
  rw [hr]
  simp [canBegin, h.limits, h.lock]

/-- The changes a transaction makes until it is committed. `t` are the new contents, `spilled` what was
on disk of the new block map before it was closed. -/
def committedRun (s : Store) (spilled : Bytes) (t : Contents) : List (List Crash.Op) :=
  opening s.base spilled ++ (working s.log ++ (staging t.idx t.pst ++ committing t.txt))

/-- The changes a transaction makes until it is aborted; `staged` are the new files of the index, if it
was ready. -/
def abortedRun (z : Codec) (late : Bool) (s : Store) (spilled txt : Bytes) (staged : Option (Bytes × Bytes)) :
    List (List Crash.Op) :=
  opening s.base spilled ++ (working s.log ++ ((staged.map fun b => staging b.1 b.2).getD [] ++
    aborting ((TxtIO.undo false z late s).log.drop s.log.length) txt))

/-- **C35**: a transaction that is not interrupted leaves the new contents. -/
theorem C35_commit {n : Nat} {z : Codec} (hn : 0 < n) (hz : z.Restores n) {pre work : List Call} {junk : Bytes}
    {s1 s : Store} (h : Session n z pre junk work s1 s) (hf : (textAfter pre junk work).dirty = false)
    {c t : Contents} (hc : c.text = textBefore pre) (ht : t.text = (textAfter pre junk work).text)
    (spilled : Bytes) :
    Settled n z t (runStages (committedRun s spilled t) (atRest s1.disk c)) := by
  obtain ⟨w, hu, tx, -, hg, -⟩ := h.under hn hz
  rw [← hc] at hu tx
  have hfl : s.flushed = true := by have := hg.dirty; rw [hf] at this; simpa using this.symm
  have hw := TxtIO.holds_whole hg.holds.toCore (hg.holds.flush hfl) hg.limited
  rw [committedRun, runStages_append, opening_run hu, runStages_append, working_run, runStages_append, staging_run,
    ← tx.disk, committing_run]
  exact clean_settled hn hz ⟨by rw [ht]; exact whole_mono hw rfl rfl, rfl, rfl, rfl⟩

/-- Where a crash may leave the directory of a transaction that was to be committed. -/
theorem committed_cut {n : Nat} {z : Codec} (hn : 0 < n) (hz : z.Restores n) {pre work : List Call} {junk : Bytes}
    {s1 s : Store} (h : Session n z pre junk work s1 s) (hf : (textAfter pre junk work).dirty = false)
    {c t : Contents} (hc : c.text = textBefore pre) (ht : t.text = (textAfter pre junk work).text)
    {spilled : Bytes} {d : Dir} (hd : Cut (committedRun s spilled t) (atRest s1.disk c) d) :
    d = atRest s1.disk c ∨
    (d.txtLock = true ∧ d.store.limits = none ∧ New n z c d) ∨
    (d.txtLock = true ∧ d.store.limits ≠ none ∧ Old n z c d) ∨
    (d.store.limits = none ∧ (d.txtLock = true ∨ d.idxLock = true ∨
      d = runStages (committedRun s spilled t) (atRest s1.disk c)) ∧
      (d.txtNew = none ∨ d.txtNew = some t.txt → New n z t d)) := by
  obtain ⟨w, hu, tx, -, hg, -⟩ := h.under hn hz
  rw [← hc] at hu tx
  have hfl : s.flushed = true := by have := hg.dirty; rw [hf] at this; simpa using this.symm
  have hw := TxtIO.holds_whole hg.holds.toCore (hg.holds.flush hfl) hg.limited
  rw [← ht] at hw
  have hk := tx.keptNow
  have held : ∀ {d}, Held n z c d → d = atRest s1.disk c ∨
    (d.txtLock = true ∧ d.store.limits = none ∧ New n z c d) ∨
    (d.txtLock = true ∧ d.store.limits ≠ none ∧ Old n z c d) ∨
    (d.store.limits = none ∧ (d.txtLock = true ∨ d.idxLock = true ∨
      d = runStages (committedRun s spilled t) (atRest s1.disk c)) ∧
      (d.txtNew = none ∨ d.txtNew = some t.txt → New n z t d)) :=
    fun h => Or.inr (Or.inr (Or.inl ⟨h.lock, h.limits, h.old⟩))
  have eall : runStages (committedRun s spilled t) (atRest s1.disk c) =
      runStages (committing t.txt) (staged s.disk c (some spilled) t.idx t.pst) := by
    rw [committedRun, runStages_append, opening_run hu, runStages_append, working_run, runStages_append, staging_run,
      ← tx.disk]
  rcases cut_append hd with hd | hd
  · rcases opening_cut hu hd with h | ⟨h1, h2 | h2⟩
    · exact Or.inl h
    · exact Or.inr (Or.inl ⟨h1, h2.1, h2.2.1⟩)
    · exact Or.inr (Or.inr (Or.inl ⟨h1, h2.1, h2.2⟩))
  rw [opening_run hu] at hd
  rcases cut_append hd with hd | hd
  · exact held (working_cut tx.kept tx.mild hd)
  rw [working_run, ← tx.disk] at hd
  rcases cut_append hd with hd | hd
  · exact held (staging_cut hk hd)
  rw [staging_run] at hd
  rcases committing_cut hk hw hd with h | h
  · exact held h
  · rw [eall]
    exact Or.inr (Or.inr (Or.inr h))

/-- **C35**: however a transaction on a static warren is interrupted by a crash, and however many attempts
to recover are themselves interrupted, recovering leaves all of the old contents or all of the new: the
old if `.limits` is still there, and then one must recover for abort; else one must recover for commit.
Partial: except when the crash falls between the commit of the text and the closing of the new block
map, and that is not all on disk (see `C35_window`). -/
theorem C35_crash_partial {n : Nat} {z : Codec} (hn : 0 < n) (hz : z.Restores n) {pre work : List Call} {junk : Bytes}
    {s1 s : Store} (h : Session n z pre junk work s1 s) (hf : (textAfter pre junk work).dirty = false)
    {c t : Contents} (hc : c.text = textBefore pre) (ht : t.text = (textAfter pre junk work).text)
    {spilled : Bytes} {d d' : Dir} (hd : Cut (committedRun s spilled t) (atRest s1.disk c) d)
    (hwin : d.store.limits = none → d.txtNew = none ∨ d.txtNew = some t.txt)
    (hs : Struggle z d.store.limits.isNone d d') :
    Settled n z c (recover z d.store.limits.isNone d') ∨
      (d.store.limits = none ∧ Settled n z t (recover z d.store.limits.isNone d')) := by
  rcases committed_cut hn hz h hf hc ht hd with rfl | ⟨-, hl, hN⟩ | ⟨-, hl, hO⟩ | ⟨hl, -, hN⟩
  · obtain ⟨w, hu, -⟩ := h.under hn hz
    rw [← hc] at hu
    have hl : (atRest s1.disk c).store.limits.isNone = true := by
      show s1.disk.limits.isNone = true
      rw [hu.limits]; rfl
    rw [hl] at hs ⊢
    have hN : New n z c (atRest s1.disk c) := ⟨hu.whole, Or.inr ⟨rfl, rfl⟩, Or.inr ⟨rfl, rfl⟩, Or.inr ⟨rfl, rfl⟩⟩
    exact Or.inl (clean_settled hn hz (hN.struggle hs).recover)
  · rw [hl] at hs ⊢
    exact Or.inl (clean_settled hn hz (hN.struggle hs).recover)
  · obtain ⟨x, hx⟩ := Option.ne_none_iff_exists'.mp hl
    rw [hx] at hs ⊢
    exact Or.inl (clean_settled hn hz (hO.struggle hs).recover)
  · refine Or.inr ⟨hl, ?_⟩
    have hN := hN (hwin hl)
    rw [hl] at hs ⊢
    exact clean_settled hn hz (hN.struggle hs).recover

/-- **C35**: until something of the commit is done, recovering for abort gives back the old contents, and
recovering for abort is right whenever `.limits` is still there. -/
theorem C35_back {n : Nat} {z : Codec} (hn : 0 < n) (hz : z.Restores n) {pre work : List Call} {junk : Bytes}
    {s1 s : Store} (h : Session n z pre junk work s1 s)
    {c : Contents} (hc : c.text = textBefore pre) {spilled idx pst : Bytes} {d d' : Dir}
    (hd : Cut (opening s.base spilled ++ (working s.log ++ staging idx pst)) (atRest s1.disk c) d)
    (hs : Struggle z false d d') :
    Settled n z c (recover z false d') := by
  obtain ⟨w, hu, tx, -⟩ := h.under hn hz
  rw [← hc] at hu tx
  have hk := tx.keptNow
  have hO : Old n z c d := by
    rcases cut_append hd with hd | hd
    · rcases opening_cut hu hd with rfl | ⟨-, ⟨-, -, h⟩ | ⟨-, h⟩⟩
      · exact ⟨Or.inl ⟨hu.whole, hu.limits⟩, rfl, rfl, rfl⟩
      · exact h
      · exact h
    rw [opening_run hu] at hd
    rcases cut_append hd with hd | hd
    · exact (working_cut tx.kept tx.mild hd).old
    rw [working_run, ← tx.disk] at hd
    exact (staging_cut hk hd).old
  exact clean_settled hn hz (hO.struggle hs).recover

/-- **C35**: a transaction that is aborted, at any time and ready or not, leaves the old contents; if it is
interrupted, recovering for abort does. `late` is for a stream that writes what was left in its buffer
when it is closed: only for compressors that grow. -/
theorem C35_abort_partial {n : Nat} {z : Codec} (hn : 0 < n) (hz : z.Restores n) {pre work : List Call} {junk : Bytes}
    {s1 s : Store} (h : Session n z pre junk work s1 s) {late : Bool} (hg : late = true → z.Grows)
    {c : Contents} (hc : c.text = textBefore pre) {spilled txt : Bytes} {staged : Option (Bytes × Bytes)} :
    Settled n z c (runStages (abortedRun z late s spilled txt staged) (atRest s1.disk c)) ∧
    ∀ {d d' : Dir}, Cut (abortedRun z late s spilled txt staged) (atRest s1.disk c) d → Struggle z false d d' →
      Settled n z c (recover z false d') ∧
      (canBegin d = true → Settled n z c d) := by
  obtain ⟨w, hu, tx, hk0, -, hbh⟩ := h.under hn hz
  rw [← hc] at hu tx hbh
  have hk := tx.keptNow
  obtain ⟨x, hx⟩ := undo_log z late s
  obtain ⟨u1, u2, u3, u4, -⟩ := TxtIO.undo_spec tx late (fun hl => hbh (hg hl))
  have hdrop : (TxtIO.undo false z late s).log.drop s.log.length = x := by rw [hx]; simp
  have hrun : TxtIO.runAll x s.disk = (TxtIO.undo false z late s).disk := by
    rw [u3, hx, TxtIO.runAll_append, ← tx.disk]
  have hm : ∀ o ∈ x, TxtIO.Mild w (TxtIO.count n c.text) o := fun o ho => u4 o (by rw [hx]; simp [ho])
  have hW : TxtIO.Whole n z c.text (TxtIO.runAll x s.disk) := by rw [hrun]; exact u1
  have hrest : Settled n z c (atRest s1.disk c) :=
    clean_settled hn hz ⟨hu.whole, hu.limits, hk0, rfl⟩
  have hfin : Settled n z c (atRest { TxtIO.runAll x s.disk with limits := none, lock := false } c) :=
    clean_settled hn hz ⟨whole_mono hW rfl rfl, rfl, rfl, rfl⟩
  have est : ∃ i p, runStages ((staged.map fun b => staging b.1 b.2).getD []) (inside s.disk c (some spilled)) =
      { inside s.disk c (some spilled) with idxNew := i, pstNew := p } := by
    cases staged with
    | none => exact ⟨none, none, rfl⟩
    | some b => exact ⟨some b.1, some b.2, rfl⟩
  obtain ⟨i, p, est⟩ := est
  constructor
  · rw [abortedRun, runStages_append, opening_run hu, runStages_append, working_run, runStages_append, ← tx.disk, est,
      hdrop, aborting_run]
    exact hfin
  intro d d' hd hs
  have locked : ∀ {d : Dir}, d.txtLock = true → canBegin d = true → False := by
    intro d h1 h2; simp [canBegin, h1] at h2
  have key : Old n z c d ∧ (canBegin d = true → Settled n z c d) := by
    rcases cut_append hd with hd | hd
    · rcases opening_cut hu hd with rfl | ⟨h1, ⟨-, -, h⟩ | ⟨-, h⟩⟩
      · exact ⟨⟨Or.inl ⟨hu.whole, hu.limits⟩, rfl, rfl, rfl⟩, fun _ => hrest⟩
      · exact ⟨h, fun h2 => (locked h1 h2).elim⟩
      · exact ⟨h, fun h2 => (locked h1 h2).elim⟩
    rw [opening_run hu] at hd
    rcases cut_append hd with hd | hd
    · have h := working_cut tx.kept tx.mild hd
      exact ⟨h.old, fun h2 => (locked h.lock h2).elim⟩
    rw [working_run, ← tx.disk] at hd
    rcases cut_append hd with hd | hd
    · have h : Held n z c d := by
        cases staged with
        | none => rw [cut_nil hd]; exact held_of hk _ none none
        | some b => exact staging_cut hk hd
      exact ⟨h.old, fun h2 => (locked h.lock h2).elim⟩
    rw [est, hdrop] at hd
    obtain ⟨h1, h2⟩ := aborting_cut hk hm hW hd
    refine ⟨h1, fun h3 => ?_⟩
    rcases h2 with h2 | h2 | h2
    · exact (locked h2 h3).elim
    · simp [canBegin, h2] at h3
    · rw [h2, aborting_run]
      exact hfin
  exact ⟨clean_settled hn hz (key.1.struggle hs).recover, key.2⟩

/-- **C35**: a transaction cannot begin on what a crash left, but when it left the old or the new
contents complete. -/
theorem C35_locked {n : Nat} {z : Codec} (hn : 0 < n) (hz : z.Restores n) {pre work : List Call} {junk : Bytes}
    {s1 s : Store} (h : Session n z pre junk work s1 s) (hf : (textAfter pre junk work).dirty = false)
    {c t : Contents} (hc : c.text = textBefore pre) (ht : t.text = (textAfter pre junk work).text)
    {spilled : Bytes} {d : Dir} (hd : Cut (committedRun s spilled t) (atRest s1.disk c) d)
    (hb : canBegin d = true) : Settled n z c d ∨ Settled n z t d := by
  have locked : ∀ {d : Dir}, d.txtLock = true → canBegin d = true → False := by
    intro d h1 h2; simp [canBegin, h1] at h2
  rcases committed_cut hn hz h hf hc ht hd with rfl | ⟨hl, -⟩ | ⟨hl, -⟩ | ⟨-, hl | hl | hl, -⟩
  · obtain ⟨w, hu, -, hk0, -⟩ := h.under hn hz
    rw [← hc] at hu
    exact Or.inl (clean_settled hn hz ⟨hu.whole, hu.limits, hk0, rfl⟩)
  · exact (locked hl hb).elim
  · exact (locked hl hb).elim
  · exact (locked hl hb).elim
  · simp [canBegin, hl] at hb
  · rw [hl]
    exact Or.inr (C35_commit hn hz h hf hc ht spilled)

/-- **C35** for the index: when the index of the warren is what a history of transactions left, and the
interrupted transaction is one more, the recovered index answers for the history without it or with it.
Partial: as `C35_crash_partial` and `C42_history_partial`. -/
theorem C35_index_partial {n : Nat} {z : Codec} (hn : 0 < n) (hz : z.Restores n) {pre work : List Call} {junk : Bytes}
    {s1 s : Store} (h : Session n z pre junk work s1 s) (hf : (textAfter pre junk work).dirty = false)
    {c t : Contents} (hc : c.text = textBefore pre) (ht : t.text = (textAfter pre junk work).text)
    {N : Nat} {pc fc : Verif.Store.Codec} (hcs : Verif.Static.Codecs N pc fc)
    {sort : List (Int × Verif.Hopper.Ann) → List (Int × Verif.Hopper.Ann)} (hso : Verif.Static.Sorts Verif.Static.annCmp sort)
    (limit : Nat) (ts : List Verif.Static.Txn) (x : Verif.Static.Txn)
    (hfair : ∀ y ∈ ts ++ [x], y.commit = true → Verif.Static.Fair y.anns)
    (hN : Verif.Static.committed (ts ++ [x]) ≤ N)
    (hold : Verif.Static.transactAll pc fc sort limit {} ts = some ⟨c.idx, c.pst⟩)
    (hnew : Verif.Static.transactAll pc fc sort limit {} (ts ++ [x]) = some ⟨t.idx, t.pst⟩)
    (hl : c.pst.length ≤ 2 ^ 62) (hl' : t.pst.length ≤ 2 ^ 62)
    {spilled : Bytes} {d d' : Dir} (hd : Cut (committedRun s spilled t) (atRest s1.disk c) d)
    (hwin : d.store.limits = none → d.txtNew = none ∨ d.txtNew = some t.txt)
    (hs : Struggle z d.store.limits.isNone d d') :
    AnswersFor pc fc ⟨(recover z d.store.limits.isNone d').idx, (recover z d.store.limits.isNone d').pst⟩ ts ∨
    AnswersFor pc fc ⟨(recover z d.store.limits.isNone d').idx, (recover z d.store.limits.isNone d').pst⟩
      (ts ++ [x]) := by
  rcases C35_crash_partial hn hz h hf hc ht hd hwin hs with r | ⟨-, r⟩
  · left
    obtain ⟨d0, e, ha⟩ := C42_history_partial hcs hso limit ts (fun y hy => hfair y (by simp [hy]))
      (Nat.le_trans (by simp [Verif.Static.committed]) hN)
    rw [e] at hold
    cases hold
    rw [r.idx, r.pst]
    exact ha hl
  · right
    obtain ⟨d0, e, ha⟩ := C42_history_partial hcs hso limit (ts ++ [x]) hfair hN
    rw [e] at hnew
    cases hnew
    rw [r.idx, r.pst]
    exact ha hl'

/-! ### Examples -/

/-- Every such session exists: none of its calls fails. -/
theorem C35_sessions {n : Nat} {z : Codec} (hn : 0 < n) (hz : z.Restores n) {pre work : List Call} (junk : Bytes)
    (hc : TxtIO.Careful z {} pre) (h1 : (TxtIO.Plain.run {} pre).1.saved = none)
    (h2 : (TxtIO.Plain.run {} pre).1.dirty = false) (hw : ∀ c ∈ work, Work c) :
    ∃ s1 s, Session n z pre junk work s1 s := by
  obtain ⟨s0, e0, f0⟩ := empty_good hn hz
  obtain ⟨s1, e1, g1⟩ := TxtIO.run_spec hn hz f0.good hc
  have careful : ∀ {work : List Call} {p : TxtIO.Plain}, (∀ c ∈ work, Work c) → TxtIO.Careful z p work := by
    intro work
    induction work with
    | nil => intros; trivial
    | cons c cs ih =>
      intro p h
      refine ⟨?_, ?_, ih fun c hc => h c (by simp [hc])⟩
      · rintro rfl; exact absurd (h _ (List.mem_cons_self ..)) (by simp [Work])
      · rintro rfl; exact absurd (h _ (List.mem_cons_self ..)) (by simp [Work])
  obtain ⟨s, e, -⟩ := TxtIO.run_spec hn hz g1 (calls := .transaction junk :: work)
    ⟨by simp, by simp, careful hw⟩
  exact ⟨s1, s, hc, h1, h2, hw, ⟨s0, _, e0, e1⟩, ⟨_, e⟩⟩

/-- Text in chunks of two bytes, three bytes of it; two more are appended in the transaction. -/
def crashPre : List Call := [.append [1, 2, 3], .flush]
def crashWork : List Call := [.size, .read 0 3, .append [4, 5], .ready]

def crashBefore : Store :=
  (((TxtIO.make 2 plainCodec {}).bind fun s => TxtIO.run false 2 plainCodec s crashPre).map (·.1)).getD { disk := {} }

def crashDuring : Store :=
  ((TxtIO.run false 2 plainCodec crashBefore (.transaction [] :: crashWork)).map (·.1)).getD { disk := {} }

theorem crash_session : Session 2 plainCodec crashPre [] crashWork crashBefore crashDuring :=
  ⟨by simp [crashPre, TxtIO.Careful], by decide, by decide, by simp [crashWork, Work],
   ⟨((TxtIO.make 2 plainCodec {}).getD { disk := {} }), [.done, .done], by decide +kernel, by decide +kernel⟩,
   ⟨[.yes true, .count 3, .text [1, 2, 3], .done, .yes true], by decide +kernel⟩⟩

def crashOld : Contents := { text := [1, 2, 3], txt := [10], idx := [20], pst := [30] }
def crashNew : Contents := { text := [1, 2, 3, 4, 5], txt := [10, 11], idx := [20, 21], pst := [30, 31] }

theorem crash_old : crashOld.text = textBefore crashPre := by decide
theorem crash_new : crashNew.text = (textAfter crashPre [] crashWork).text := by decide
theorem plain_restores : plainCodec.Restores 2 := fun _ _ => rfl

/-- The changes of its files have been made and a crash can interrupt them. -/
example : crashDuring.log.length = 4 ∧ crashDuring.base.limits = some (2, [3]) := by decide +kernel

/-- The directory when the first `k` stages are done. -/
def crashed (k : Nat) (spilled : Bytes) : Dir :=
  runStages ((committedRun crashDuring spilled crashNew).take k) (atRest crashBefore.disk crashOld)

theorem crashed_cut (k : Nat) (spilled : Bytes) :
    Cut (committedRun crashDuring spilled crashNew) (atRest crashBefore.disk crashOld) (crashed k spilled) := by
  have := cut_prefix ((committedRun crashDuring spilled crashNew).take k)
    ((committedRun crashDuring spilled crashNew).drop k) (atRest crashBefore.disk crashOld)
  rwa [List.take_append_drop] at this

/-- A crash when the transaction is ready, recovered for abort. -/
example : Settled 2 plainCodec crashOld (recover plainCodec false (crashed 8 [])) := by
  rcases C35_crash_partial (by decide) plain_restores crash_session (by decide) crash_old crash_new
    (crashed_cut 8 []) (by decide +kernel) (.none _) with h | ⟨h, -⟩
  · exact h
  · exact absurd h (by decide +kernel)

/-- A crash when the block map is replaced and the index is not, recovered for commit. -/
example : Settled 2 plainCodec crashNew (recover plainCodec true (crashed 12 [10])) := by
  rcases C35_crash_partial (by decide) plain_restores crash_session (by decide) crash_old crash_new
    (crashed_cut 12 [10]) (by decide +kernel) (.none _) with h | ⟨-, h⟩
  · exact absurd h.txt (by decide +kernel)
  · exact h

/-- An aborted transaction. -/
example : Settled 2 plainCodec crashOld
    (runStages (abortedRun plainCodec true crashDuring [10] [10, 11] (some ([20, 21], [30, 31])))
      (atRest crashBefore.disk crashOld)) :=
  (C35_abort_partial (by decide) plain_restores crash_session
    (fun _ x y => by simp [plainCodec]) crash_old).1

/-! ### Where the code falls short -/

theorem settled_size {n z c d} (h : Settled n z c d) : (TxtIO.make n z d.store).map (·.size) = some c.text.length := by
  obtain ⟨s, e, hs⟩ := h.text
  obtain ⟨s', e'⟩ := hs [.size] ⟨by simp, by simp, trivial⟩
  rw [e]
  simp only [TxtIO.run, TxtIO.call, TxtIO.Plain.run, TxtIO.Plain.call, Option.some.injEq, Prod.mk.injEq, List.cons.injEq,
    and_true, TxtIO.Answer.count.injEq] at e'
  rw [Option.map_some, e'.2]

/-- The new block map is on disk only when `commit` has closed its file, which it does after the text is
committed: a crash between the two leaves a text that cannot be undone and a block map that is not
there. Neither way of recovering gives the old contents or the new. That the appender was ready did not
mean that it could commit. -/
theorem C35_window : ∃ d, Cut (committedRun crashDuring [] crashNew) (atRest crashBefore.disk crashOld) d ∧
    ∀ commit, ¬ Settled 2 plainCodec crashOld (recover plainCodec commit d) ∧
      ¬ Settled 2 plainCodec crashNew (recover plainCodec commit d) := by
  refine ⟨crashed 10 [], crashed_cut 10 [], ?_⟩
  intro commit
  cases commit
  · exact ⟨fun h => absurd (settled_size h) (by decide +kernel), fun h => absurd h.txt (by decide +kernel)⟩
  · exact ⟨fun h => absurd h.txt (by decide +kernel), fun h => absurd h.txt (by decide +kernel)⟩

/-- Recovering for abort when part of the commit is done, and for commit when none of it is, leaves
neither the old contents nor the new. The code has no record of which it should be; `.limits` is the
only sign of it. -/
theorem C35_wrong_flag :
    (¬ Settled 2 plainCodec crashOld (recover plainCodec false (crashed 12 [])) ∧
      ¬ Settled 2 plainCodec crashNew (recover plainCodec false (crashed 12 []))) ∧
    (¬ Settled 2 plainCodec crashOld (recover plainCodec true (crashed 8 [])) ∧
      ¬ Settled 2 plainCodec crashNew (recover plainCodec true (crashed 8 []))) :=
  ⟨⟨fun h => absurd h.txt (by decide +kernel), fun h => absurd h.idx (by decide +kernel)⟩,
   ⟨fun h => absurd h.txt (by decide +kernel), fun h => absurd h.txt (by decide +kernel)⟩⟩

/-- Nor is `.limits` enough when the recovery for abort is itself interrupted, or the crash was while
aborting: `.limits` is gone, and recovering for commit, as one should if the crash was while committing,
leaves neither the old contents nor the new. -/
theorem C35_cannot_tell :
    (∃ d, Cut (recoverText plainCodec false (crashed 8 [10]).store) (crashed 8 [10]) d ∧ d.store.limits = none ∧
      ¬ Settled 2 plainCodec crashOld (recover plainCodec true d) ∧
      ¬ Settled 2 plainCodec crashNew (recover plainCodec true d)) ∧
    (∃ d, Cut (abortedRun plainCodec false crashDuring [10] [10, 11] (some ([20, 21], [30, 31])))
        (atRest crashBefore.disk crashOld) d ∧ d.store.limits = none ∧
      ¬ Settled 2 plainCodec crashOld (recover plainCodec true d) ∧
      ¬ Settled 2 plainCodec crashNew (recover plainCodec true d)) := by
  constructor
  · refine ⟨_, cut_prefix ((recoverText plainCodec false (crashed 8 [10]).store).take 2)
      ((recoverText plainCodec false (crashed 8 [10]).store).drop 2) _, by decide +kernel, ?_, ?_⟩
    · exact fun h => absurd h.idx (by decide +kernel)
    · exact fun h => absurd (settled_size h) (by decide +kernel)
  · have hcut := cut_prefix ((abortedRun plainCodec false crashDuring [10] [10, 11] (some ([20, 21], [30, 31]))).take 10)
      ((abortedRun plainCodec false crashDuring [10] [10, 11] (some ([20, 21], [30, 31]))).drop 10)
      (atRest crashBefore.disk crashOld)
    rw [List.take_append_drop] at hcut
    refine ⟨_, hcut, by decide +kernel, ?_, ?_⟩
    · exact fun h => absurd h.idx (by decide +kernel)
    · exact fun h => absurd (settled_size h) (by decide +kernel)

/-- One transaction, and one more. -/
def indexOld : Option Verif.Static.Files := once 10 [(5, ⟨1, 2, 0⟩), (5, ⟨3, 4, 0⟩)]

def indexNew : Option Verif.Static.Files :=
  Verif.Static.transactAll Verif.Store.postCodec Verif.Store.nullCodec (sortBy Verif.Static.annCmp) 10 {}
    [{ anns := [(5, ⟨1, 2, 0⟩), (5, ⟨3, 4, 0⟩)], commit := true },
     { anns := [(3, ⟨7, 8, 0⟩), (3, ⟨9, 10, 0⟩)], commit := true }]

/-- The files of the index after the first of the two renames. -/
def indexMixed : Option Verif.Static.Files :=
  indexOld.bind fun old => indexNew.map fun new => ⟨new.idx, old.pst⟩

/-- Opening a warren does not recover it. Between the two renames of the index, a warren that is opened
has the new `idx` and the old `pst`: here the second transaction gave feature 3 a list; feature 3 now has
the list of feature 5, and that of feature 5 can no longer be read. -/
theorem C35_unrecovered :
    ((crashed 14 []).idx = crashNew.idx ∧ (crashed 14 []).pst = crashOld.pst) ∧
    firstAndCount indexOld 5 = some (⟨1, 2, 0⟩, 2) ∧ firstAndCount indexNew 5 = some (⟨1, 2, 0⟩, 2) ∧
    firstAndCount indexNew 3 = some (⟨7, 8, 0⟩, 2) ∧
    firstAndCount indexMixed 5 = none ∧ firstAndCount indexMixed 3 = some (⟨1, 2, 0⟩, 2) := by
  refine ⟨⟨by decide +kernel, by decide +kernel⟩, by decide +kernel, by decide +kernel, by decide +kernel,
    by decide +kernel, by decide +kernel⟩

end Verif.Props
