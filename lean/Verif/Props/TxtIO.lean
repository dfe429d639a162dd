import Verif.TxtIO.Recover

/-!
# C29: the chunked text store behaves as one append-only byte string

`Plain` (in `TxtIO/Spec.lean`) is the specification: a byte string, and the string to go back to.
-/

namespace Verif.Props
open Verif.TxtIO

/-- The store does all calls as a plain string that is `t` now. -/
def Serves (n : Nat) (z : Codec) (t : Bytes) (s : Store) : Prop :=
  ∀ calls, Careful z { text := t } calls →
    ∃ s', run false n z s calls = some (s', (Plain.run { text := t } calls).2)

theorem fresh_serves {n z t s} (hn : 0 < n) (hz : z.Restores n) (h : Fresh n z t s) : Serves n z t s := by
  intro calls hc
  obtain ⟨s', e, -⟩ := run_spec hn hz h.good hc
  exact ⟨s', e⟩

theorem empty_good {n z} (hn : 0 < n) (hz : z.Restores n) :
    ∃ s, make n z {} = some s ∧ Fresh n z [] s :=
  make_whole hn hz ⟨by rw [count_nil hn]; rfl, fun i hi => by rw [count_nil hn] at hi; omega⟩ rfl rfl

/-- C29: on a store that was empty when opened, any sequence of appends, reads, flushes, transactions,
commits, aborts and reopenings is answered as by one byte string: reading gives the bytes appended
there, aborting gives back the string the transaction began with, and so does closing the store in a
transaction and recovering. This holds for every chunk size and every compressor that gives back what
it was given. Partial: `Careful` asks that `commit` follows `ready`, and that a write still buffered
when a transaction is aborted only occurs with compressors that `Grows`, in a transaction begun with
everything flushed (see `C29_late_abort`); builds without assertions (`C29_fast_abort`) and clones of
stores that were not flushed (`C29_clone_unflushed`) are excluded. -/
theorem C29_history_partial {n : Nat} {z : Codec} (hn : 0 < n) (hz : z.Restores n) {calls : List Call}
    (hc : Careful z {} calls) :
    ∃ s0 s, make n z {} = some s0 ∧ run false n z s0 calls = some (s, (Plain.run {} calls).2) := by
  obtain ⟨s0, e0, h0⟩ := empty_good hn hz
  obtain ⟨s, e, -⟩ := run_spec hn hz h0.good hc
  exact ⟨s0, s, e0, e⟩

/-- C29: a crash at any moment of a transaction loses the transaction and nothing else: whichever of
its changes to the files had happened, wholly or in part, and however many attempts to recover were
themselves cut short, after recovering the store serves the string the transaction began with. -/
theorem C29_crash_partial {n : Nat} {z : Codec} (hn : 0 < n) (hz : z.Restores n) {calls : List Call}
    (hc : Careful z {} calls) {s0 s : Store} {as : List Answer} (h0 : make n z {} = some s0)
    (hr : run false n z s0 calls = some (s, as))
    {old : Bytes} {clean : Bool} (ho : (Plain.run {} calls).1.saved = some (old, clean))
    {d d' : Disk} (hd : TornAll s.log s.base d) (hd' : Struggle false z d d') :
    ∃ s', make n z (runAll (recover false z false d') d') = some s' ∧ Serves n z old s' := by
  obtain ⟨s0', e0, f0⟩ := empty_good hn hz
  obtain rfl : s0' = s0 := by rw [e0] at h0; exact Option.some.inj h0
  obtain ⟨s1, e1, g⟩ := run_spec hn hz f0.good hc
  obtain rfl : s1 = s := by rw [e1] at hr; exact (Prod.mk.inj (Option.some.inj hr)).1
  obtain ⟨-, w, tx, -⟩ := g.tx old clean ho
  have hk := hd'.kept (hd.kept tx.mild tx.kept)
  obtain ⟨h1, h2, h3⟩ := recover_whole hk
  obtain ⟨s', e', f'⟩ := make_whole hn hz h1 h2 h3
  exact ⟨s', e', fresh_serves hn hz f'⟩

/-- C29: the same for a crash while the transaction is being aborted: `undo` is the state in which all
its changes are made and only `.limits` and `.lock` are left to remove, and the last case is a crash
after `.limits` was removed. -/
theorem C29_crash_abort_partial {n : Nat} {z : Codec} (hn : 0 < n) (hz : z.Restores n) {calls : List Call}
    {late : Bool} (hc : Careful z {} (calls ++ [.abort late])) {s0 s : Store} {as : List Answer}
    (h0 : make n z {} = some s0) (hr : run false n z s0 calls = some (s, as))
    {old : Bytes} {clean : Bool} (ho : (Plain.run {} calls).1.saved = some (old, clean))
    {d d' : Disk} (hd : TornAll (undo false z late s).log (undo false z late s).base d ∨
      d = { (undo false z late s).disk with limits := none })
    (hd' : Struggle false z d d') :
    ∃ s', make n z (runAll (recover false z false d') d') = some s' ∧ Serves n z old s' := by
  have hsplit : ∀ {cs : List Call} {p : Plain}, Careful z p (cs ++ [.abort late]) →
      Careful z p cs ∧ (late = true → z.Grows ∧ ∀ s ∈ (p.run cs).1.saved, s.2 = true) := by
    intro cs
    induction cs with
    | nil => intro p h; exact ⟨trivial, fun hl => h.2.1 (by rw [hl])⟩
    | cons c cs ih =>
      intro p h
      obtain ⟨i1, i2⟩ := ih h.2.2
      exact ⟨⟨h.1, h.2.1, i1⟩, i2⟩
  obtain ⟨hc1, hc2⟩ := hsplit hc
  obtain ⟨s0', e0, f0⟩ := empty_good hn hz
  obtain rfl : s0' = s0 := by rw [e0] at h0; exact Option.some.inj h0
  obtain ⟨s1, e1, g⟩ := run_spec hn hz f0.good hc1
  obtain rfl : s1 = s := by rw [e1] at hr; exact (Prod.mk.inj (Option.some.inj hr)).1
  obtain ⟨-, w, tx, hb⟩ := g.tx old clean ho
  obtain ⟨u1, u2, u3, u4, -⟩ := undo_spec tx late (fun hl => by
    obtain ⟨hg, hcl⟩ := hc2 hl
    exact hb (hcl _ ho) hg)
  rcases hd with hd | rfl
  · rw [u2] at hd
    have hk := hd'.kept (hd.kept u4 tx.kept)
    obtain ⟨h1, h2, h3⟩ := recover_whole hk
    obtain ⟨s', e', f'⟩ := make_whole hn hz h1 h2 h3
    exact ⟨s', e', fresh_serves hn hz f'⟩
  · have hsame : d' = { (undo false z late s1).disk with limits := none } := by
      have hres : ∀ d : Disk, d.limits = none → restore false z d = [] := by
        intro d hd; unfold restore; rw [hd]
      generalize hdd : ({ (undo false z late s1).disk with limits := none } : Disk) = dd at hd'
      have hl : dd.limits = none := by rw [← hdd]
      clear hdd
      induction hd' with
      | none => rfl
      | some h1 _ ih =>
        rw [hres _ hl] at h1
        cases h1
        exact ih hl
    rw [hsame]
    obtain ⟨s', e', f'⟩ := make_whole hn hz (t := old)
      (d := { (undo false z late s1).disk with limits := none, lock := false }) ⟨u1.1, u1.2⟩ rfl rfl
    refine ⟨s', ?_, fresh_serves hn hz f'⟩
    rw [← e']
    rfl

/-- C29: once a transaction is ready and nothing was appended since, recovering its files for commit
keeps all of it, and so does any recovery after `.limits` was removed. -/
theorem C29_commit_recovery {n : Nat} {z : Codec} (hn : 0 < n) (hz : z.Restores n) {calls : List Call}
    (hc : Careful z {} calls) {s0 s : Store} {as : List Answer} (h0 : make n z {} = some s0)
    (hr : run false n z s0 calls = some (s, as)) (hf : (Plain.run {} calls).1.dirty = false)
    {commit : Bool} {d : Disk}
    (hd : d = { s.disk with limits := none } ∨ (d = s.disk ∧ commit = true)) :
    ∃ s', make n z (runAll (recover false z commit d) d) = some s' ∧
      Serves n z (Plain.run {} calls).1.text s' := by
  obtain ⟨s0', e0, f0⟩ := empty_good hn hz
  obtain rfl : s0' = s0 := by rw [e0] at h0; exact Option.some.inj h0
  obtain ⟨s1, e1, g⟩ := run_spec hn hz f0.good hc
  obtain rfl : s1 = s := by rw [e1] at hr; exact (Prod.mk.inj (Option.some.inj hr)).1
  have hfl : s1.flushed = true := by
    have := g.dirty
    rw [hf] at this
    simpa using this.symm
  have hw := holds_whole g.holds.toCore (g.holds.flush hfl) g.limited
  obtain ⟨s', e', f'⟩ := make_whole hn hz (d := { s1.disk with limits := none, lock := false })
    ⟨hw.1, hw.2⟩ rfl rfl
  refine ⟨s', ?_, fresh_serves hn hz f'⟩
  rw [← e']
  rcases hd with rfl | ⟨rfl, rfl⟩
  · cases commit <;> rfl
  · rfl

/-- Reads by another store object, each on the files as they are at that time. -/
def readsAt (n : Nat) (z : Codec) (r : Store) : List (Disk × Int × Int) → Option (List Bytes)
  | [] => some []
  | (d, a, b) :: rest =>
    match read n z a b { r with disk := d } with
    | none => none
    | some (r, t) => (readsAt n z r rest).map (t :: ·)

/-- C29: a store that another process opens at some moment of a transaction is read only, and whatever
moments of the transaction its reads fall on, they give the string the transaction began with. -/
theorem C29_readers_see_old {n : Nat} {z : Codec} (hn : 0 < n) (hz : z.Restores n) {calls : List Call}
    (hc : Careful z {} calls) {s0 s : Store} {as : List Answer} (h0 : make n z {} = some s0)
    (hr : run false n z s0 calls = some (s, as))
    {old : Bytes} {clean : Bool} (ho : (Plain.run {} calls).1.saved = some (old, clean))
    {d : Disk} (hd : TornAll s.log s.base d) :
    ∃ r, make n z d = some r ∧ r.size = old.length ∧
      (∀ t, append n z t r = some r) ∧ (∀ j, ∃ r', transaction n z j r = some (r', false)) ∧
      ∀ reads : List (Disk × Int × Int), (∀ x ∈ reads, TornAll s.log s.base x.1) →
        readsAt n z r reads = some (reads.map fun x => Plain.range x.2.1 x.2.2 old) := by
  obtain ⟨s0', e0, f0⟩ := empty_good hn hz
  obtain rfl : s0' = s0 := by rw [e0] at h0; exact Option.some.inj h0
  obtain ⟨s1, e1, g⟩ := run_spec hn hz f0.good hc
  obtain rfl : s1 = s := by rw [e1] at hr; exact (Prod.mk.inj (Option.some.inj hr)).1
  obtain ⟨-, w, tx, -⟩ := g.tx old clean ho
  have hk := hd.kept tx.mild tx.kept
  obtain ⟨r, er, hr1, hr2, hr3, hr4, hr5, hr6, hr7⟩ := make_kept hn hz hk
  refine ⟨r, er, hr1.size, ?_, ?_, ?_⟩
  · intro t; simp [append, hr2]
  · intro j; exact ⟨_, by simp [transaction, hr4, hr2]; rfl⟩
  have hmark : mark r.map (count n old - 1) = w := by
    rw [hr7, mark_take (by omega)]; exact hk.start
  obtain ⟨-, hbd⟩ := hd.agree tx.mild tx.kept
  have key : ∀ (reads : List (Disk × Int × Int)) (r : Store), Holds n z old r → r.readOnly = true →
      r.synced = true → r.limited ≠ none → mark r.map (count n old - 1) = w →
      r.disk.contents.take w = s1.base.contents.take w →
      (∀ x ∈ reads, TornAll s1.log s1.base x.1) →
      readsAt n z r reads = some (reads.map fun x => Plain.range x.2.1 x.2.2 old) := by
    intro reads
    induction reads with
    | nil => intros; rfl
    | cons x rest ih =>
      intro r h hro hsy hli hm hby hx
      obtain ⟨d2, a, b⟩ := x
      have h2 := hx _ (List.mem_cons_self ..)
      obtain ⟨-, hb2⟩ := h2.agree tx.mild tx.kept
      have hst : ∀ i < count n old - 1, Stored n z old r.map r.disk.contents i :=
        fun i hi => h.stored i (by omega) (Or.inl (by omega))
      have hold : Holds n z old { r with disk := d2 } := by
        refine ⟨⟨h.len, fun hx => absurd hx hli, ?_, h.cache, fun hx => ?_, h.lim⟩, h.size, h.flush⟩
        · intro i hi hor
          rcases hor with hor | ⟨-, hx⟩
          · have hs := hst i (by omega)
            refine hs.mono rfl rfl ?_ rfl
            have hle : mark r.map (i + 1) ≤ w := by rw [← hm]; exact mark_mono hst (by omega)
            have e := hb2.trans hby.symm
            have e2 := congrArg (List.take (mark r.map (i + 1))) e
            rwa [List.take_take, List.take_take, Nat.min_eq_left hle] at e2
          · exact absurd hx hli
        · rw [show ({ r with disk := d2 } : Store).synced = r.synced from rfl, hsy] at hx
          cases hx
      obtain ⟨r', e', h', f', -, -, -, -, -, hsame⟩ := read_spec hn hz hold (fun _ => hsy) a b
      obtain ⟨q1, q2, q3⟩ := hsame hsy (Or.inr hro)
      have := ih r' h' (f'.readOnly.trans hro) q3 (by rw [f'.limited]; exact hli) (by rw [q2]; exact hm)
        (by rw [q1]; exact hb2) (fun x hx' => hx x (List.mem_cons_of_mem _ hx'))
      simp only [readsAt, e', this, Option.map_some, List.map_cons]
  intro reads hx
  exact key reads r hr1 hr2 hr3 hr6 hmark (by rw [hr5]; exact hbd) hx

/-- C29: a clone of a store that is not in a transaction and has nothing unflushed reads the same. -/
theorem C29_clone_partial {n : Nat} {z : Codec} (hn : 0 < n) (hz : z.Restores n) {calls : List Call}
    (hc : Careful z {} calls) {s0 s : Store} {as : List Answer} (h0 : make n z {} = some s0)
    (hr : run false n z s0 calls = some (s, as)) (hno : (Plain.run {} calls).1.saved = none)
    (hf : (Plain.run {} calls).1.dirty = false) :
    ∃ r, clone s = some r ∧ r.size = (Plain.run {} calls).1.text.length ∧
      ∀ a b, ∃ r', read n z a b r = some (r', Plain.range a b (Plain.run {} calls).1.text) := by
  obtain ⟨s0', e0, f0⟩ := empty_good hn hz
  obtain rfl : s0' = s0 := by rw [e0] at h0; exact Option.some.inj h0
  obtain ⟨s1, e1, g⟩ := run_spec hn hz f0.good hc
  obtain rfl : s1 = s := by rw [e1] at hr; exact (Prod.mk.inj (Option.some.inj hr)).1
  have hfl : s1.flushed = true := by
    have := g.dirty
    rw [hf] at this
    simpa using this.symm
  have hst : s1.started = false := by rw [g.started, hno]; rfl
  have hl := (g.free hno).1
  have hcl : clone s1 = some { disk := s1.disk, map := s1.map, base := s1.disk, size := s1.size, readOnly := true } := by
    simp [clone, hst, hl]
  have hsy := g.holds.flush hfl
  have hh : Holds n z (Plain.run {} calls).1.text
      { disk := s1.disk, map := s1.map, base := s1.disk, size := s1.size, readOnly := true } :=
    ⟨⟨g.holds.len, fun _ => g.holds.disk g.limited, fun i hi _ => g.holds.stored i hi (Or.inr ⟨hsy, g.limited⟩),
      fun h => by simp at h, fun h => by simp at h, fun l h => by simp at h⟩, g.holds.size, fun _ => rfl⟩
  refine ⟨_, hcl, g.holds.size, ?_⟩
  intro a b
  obtain ⟨r', e', -⟩ := read_spec hn hz hh (fun _ => rfl) a b
  exact ⟨r', e'⟩

/-! ## Cases -/

/-- no compression -/
def plainCodec : Codec := ⟨id, id⟩

example : plainCodec.Restores 2 ∧ plainCodec.Grows := ⟨fun _ _ => rfl, fun x y => by simp [plainCodec]⟩

/-- Appends over chunk boundaries, reads, an aborted and a committed transaction: what is asked of the
calls holds, and these are the answers. -/
def exampleCalls : List Call :=
  [.append [1, 2, 3], .read 1 5, .transaction [], .append [4, 5, 6, 7, 8], .read 0 100, .abort true,
   .size, .transaction [], .append [9], .ready, .commit, .read (-4) 3, .reopen, .read 3 1]

example : Careful plainCodec {} exampleCalls := by
  have hg : plainCodec.Grows := fun x y => by simp [plainCodec]
  simp [exampleCalls, Careful, Plain.call, hg]

example : ((make 2 plainCodec {}).bind fun s => (run false 2 plainCodec s exampleCalls).map (·.2)) =
    some [.done, .text [2, 3], .yes true, .done, .text [1, 2, 3, 4, 5, 6, 7, 8], .done, .count 3, .yes true,
      .done, .yes true, .done, .text [1, 2, 3], .done, .text [9]] := by decide +kernel

example : (Plain.run {} exampleCalls).2 =
    [.done, .text [2, 3], .yes true, .done, .text [1, 2, 3, 4, 5, 6, 7, 8], .done, .count 3, .yes true,
      .done, .yes true, .done, .text [1, 2, 3], .done, .text [9]] := by decide

/-- A transaction that is running, with changes made to the files that a crash can interrupt. -/
example : (Plain.run {} (exampleCalls.take 4)).1.saved = some ([1, 2, 3], true) ∧
    (((make 2 plainCodec {}).bind fun s => run false 2 plainCodec s (exampleCalls.take 4)).map
      (·.1.log.length)) = some 6 := by decide +kernel

/-! ## Where the code falls short -/

/-- In builds without assertions the files are not truncated when a transaction is aborted: the
store is then left with more text than it began with. -/
theorem C29_fast_abort :
    ((make 2 plainCodec {}).bind fun s =>
      (run true 2 plainCodec s [.append [1, 2, 3], .transaction [], .append [4, 5], .abort false, .size,
        .read 0 9]).map (·.2)) =
      some [.done, .yes true, .done, .done, .count 5, .text [1, 2, 3, 4, 3]] ∧
    (Plain.run {} [.append [1, 2, 3], .transaction [], .append [4, 5], .abort false, .size, .read 0 9]).2 =
      [.done, .yes true, .done, .done, .count 3, .text [1, 2, 3]] := by decide +kernel

/-- A compressor that needs more space for one byte than for two. -/
def oddCodec : Codec :=
  ⟨fun x => match x with
    | [a] => [0, 0, a]
    | x => x,
   fun x => match x with
    | [_, _, a] => [a]
    | x => x⟩

theorem oddCodec_restores : oddCodec.Restores 2 := by
  intro x hx
  match x with
  | [] => rfl
  | [a] => rfl
  | [a, b] => rfl
  | _ :: _ :: _ :: _ => simp at hx

/-- With such a compressor, aborting a transaction whose last write is still in the buffer of the
stream damages the text from before: the stream is only closed, and so the buffer written, after the
files were restored. -/
theorem C29_late_abort :
    ((make 2 oddCodec {}).bind fun s =>
      (run false 2 oddCodec s [.append [1], .flush, .transaction [], .append [2, 3], .abort true, .read 0 9]).map (·.2)) =
      some [.done, .done, .yes true, .done, .done, .text [0]] ∧
    (Plain.run {} [.append [1], .flush, .transaction [], .append [2, 3], .abort true, .read 0 9]).2 =
      [.done, .done, .yes true, .done, .done, .text [1]] := by decide +kernel

/-- A clone of a store with text that was not flushed takes over the size, but not the text: reading it
goes beyond the bytes there are. -/
theorem C29_clone_unflushed :
    (((make 4 plainCodec {}).bind fun s =>
      (run false 4 plainCodec s [.append [1], .append [2]])).bind fun r => clone r.1).map (fun c =>
        (c.size, (read 4 plainCodec 0 2 c).map (·.2))) = some (2, none) := by decide +kernel

end Verif.Props
