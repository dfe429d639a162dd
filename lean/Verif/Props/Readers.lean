import Verif.Cache.Gate
import Verif.Cache.Obtain
import Verif.Cache.Proof
/-
  C57: readers on many threads share what has been read from the files, and none of them
  sees it half done.
-/
namespace Verif.Props
open Verif.Cache

/-! ### the gate -/

/-- From a new gate, in either build, after any number of steps of any number of threads that
wait or open, with threads woken without reason:

* nobody is past the gate before it is opened, and an open gate stays open;
* a thread that sleeps although the gate is open will be woken: some thread is about to wake all;
* once the gate is open a thread is at most three steps of its own away from being past it, and
  nothing that another thread does makes that more; its own steps are only impossible while it
  sleeps. -/
theorem C57_gate (b : Build) (x : Bool) (g : Gate) (run : GRuns b (Gate.new x) g) :
    (∀ i, g.waiter i = .out → g.opened = true) ∧
    (∀ a g', gstep b g a = some g' → g.opened = true → g'.opened = true) ∧
    (∀ i, g.waiter i = .asleep → g.opened = true → ∃ j g', g.opener j = .notify ∧ gstep b g (.open j) = some g' ∧
      ∀ k, g'.waiter k ≠ .asleep) ∧
    (∀ i, g.waiter i ≠ .out → g.waiter i ≠ .asleep → ∃ g', gstep b g (.wait i) = some g') ∧
    (∃ away : Waiter → Nat, (∀ w, away w ≤ 3 ∧ (away w = 0 ↔ w = .out)) ∧
      ∀ a g' i, gstep b g a = some g' → g.opened = true →
        away (g'.waiter i) ≤ away (g.waiter i) ∧ (a = .wait i → away (g'.waiter i) < away (g.waiter i))) := by
  have inv := run.inv (GInv.new x)
  refine ⟨inv.out, fun a g' e h => gstep_open e h, fun i hi ho => ?_, fun i h1 h2 => ?_,
    Waiter.left, (fun w => by cases w <;> simp [Waiter.left]), fun a g' i e h => gstep_left e h i⟩
  · rcases inv.asleep i hi with h | ⟨j, hj⟩
    · rw [ho] at h; cases h
    · refine ⟨j, g.wake.putO j .out, hj, by simp only [gstep, hj], fun k => ?_⟩
      simp only [Gate.wake, Gate.putO]
      split
      · simp
      · assumption
  · cases hw : g.waiter i with
    | out => exact absurd hw h1
    | asleep => exact absurd hw h2
    | start => exact ⟨_, by simp only [gstep, hw]; rfl⟩
    | loop => exact ⟨_, by simp only [gstep, hw]; rfl⟩
    | again => exact ⟨_, by simp only [gstep, hw]; rfl⟩

/-- Two threads wait, one of them asleep, when a third opens: all get through. -/
example : ∃ g, GRuns .condition (Gate.new false) g ∧ g.waiter 0 = .out ∧ g.waiter 1 = .out ∧ g.opener 7 = .out := by
  have run : ∀ (l : List GAct) (g g' : Gate), GRuns .condition (Gate.new false) g →
      l.foldlM (fun g a => gstep .condition g a) g = some g' → GRuns .condition (Gate.new false) g' := by
    intro l
    induction l with
    | nil => intro g g' h e; cases e; exact h
    | cons a l ih =>
      intro g g' h e
      simp only [List.foldlM_cons, Option.bind_eq_bind] at e
      obtain ⟨g1, h1, h2⟩ := Option.bind_eq_some_iff.1 e
      exact ih g1 g' (.step a h h1) h2
  refine ⟨_, run [.wait 0, .wait 0, .wait 1, .open 7, .open 7, .wait 0, .wait 1] _ _ (.refl _) rfl, ?_, ?_, ?_⟩ <;> rfl

/-! ### hoppers and counts -/

/-- The calls of `hopper` in a history, each with the file as it was; the file at first is `file`. -/
def askedFor (file : File) : List Act → List (Int × File)
  | [] => []
  | .ask f :: l => (f, file) :: askedFor file l
  | .reset file' :: l => askedFor file' l
  | _ :: l => askedFor file l

/-- The calls of `count` in a history, each with the file as it was. -/
def countedFor (file : File) : List Act → List (Int × File)
  | [] => []
  | .count f :: l => (f, file) :: countedFor file l
  | .reset file' :: l => countedFor file' l
  | _ :: l => countedFor file l

/-- the file after a history -/
def fileAfter (file : File) : List Act → File
  | [] => file
  | .reset file' :: l => fileAfter file' l
  | _ :: l => fileAfter file l

/-- what a hopper is to show for what the file has -/
def shown : Option Posting → Ans
  | none => .empty
  | some ⟨[], _, _⟩ => .empty
  | some ⟨p :: ps, qs, fs⟩ => .posting ⟨p :: ps, qs, fs⟩

/-- how many annotations the file has -/
def size : Option Posting → Nat
  | none => 0
  | some x => x.ps.length

theorem view_shown (x : Option Posting) : view x = shown x := by
  rcases x with _ | ⟨_ | ⟨p, ps⟩, qs, fs⟩ <;> rfl

theorem asked_snoc (file : File) (l : List Act) (a : Act) :
    askedFor file (l ++ [a]) = askedFor file l ++ askedFor (fileAfter file l) [a] ∧
    countedFor file (l ++ [a]) = countedFor file l ++ countedFor (fileAfter file l) [a] ∧
    fileAfter file (l ++ [a]) = fileAfter (fileAfter file l) [a] := by
  induction l generalizing file with
  | nil => exact ⟨rfl, rfl, rfl⟩
  | cons b l ih =>
    cases b with
    | reset file' => exact ih file'
    | ask f => obtain ⟨h1, h2, h3⟩ := ih file; exact ⟨by simp only [List.cons_append, askedFor, fileAfter, h1], h2, h3⟩
    | count f => obtain ⟨h1, h2, h3⟩ := ih file; exact ⟨h1, by simp only [List.cons_append, countedFor, fileAfter, h2], h3⟩
    | bind k => exact ih file
    | fill k => exact ih file
    | fillQ k => exact ih file
    | fillF k => exact ih file

theorem map_set_same {α β : Type} {l : List α} {k : Nat} {a b : α} (f : α → β) (ha : l[k]? = some a) (h : f b = f a) :
    (l.set k b).map f = l.map f := by
  apply List.ext_getElem?
  intro i
  rw [List.getElem?_map, List.getElem?_map]
  by_cases hi : k = i
  · subst hi
    have := (List.getElem?_eq_some_iff.1 ha).1
    simp [this, h]
    rw [List.getElem?_eq_some_iff] at ha
    obtain ⟨_, ha⟩ := ha
    rw [ha]
  · rw [List.getElem?_set_ne hi]

theorem load_same (s : Sys) (f : Int) : (load s f).2.file = s.file ∧ (load s f).2.asks = s.asks ∧ (load s f).2.counted = s.counted := by
  unfold load
  split
  · exact ⟨rfl, rfl, rfl⟩
  · split
    · exact ⟨rfl, rfl, rfl⟩
    · exact ⟨rfl, rfl, rfl⟩

theorem count_same (s : Sys) (f : Int) : (Cache.count s f).2.file = s.file ∧ (Cache.count s f).2.asks = s.asks := by
  unfold Cache.count
  split
  · exact ⟨rfl, rfl⟩
  · split
    · split
      · exact ⟨rfl, rfl⟩
      · exact ⟨rfl, rfl⟩
    · split
      · exact ⟨rfl, rfl⟩
      · exact ⟨rfl, rfl⟩

theorem onRec_same {s s' : Sys} {r : Nat} {g : Rec → Option Rec} (e : s.onRec r g = some s') :
    s'.file = s.file ∧ s'.asks = s.asks ∧ s'.counted = s.counted := by
  unfold Sys.onRec at e
  split at e
  · cases e
  · split at e
    · cases e
    · cases e; exact ⟨rfl, rfl, rfl⟩

def Ask.key (a : Ask) : Int × File := (a.feature, a.seen)
def Count.key (a : Count) : Int × File := (a.feature, a.seen)

theorem step_history {s s' : Sys} {a : Act} (e : Cache.step s a = some s') :
    s'.file = fileAfter s.file [a] ∧ s'.asks.map Ask.key = s.asks.map Ask.key ++ askedFor s.file [a] ∧
    s'.counted.map Count.key = s.counted.map Count.key ++ countedFor s.file [a] := by
  cases a with
  | ask f =>
    obtain ⟨h1, h2, h3⟩ := load_same s f
    cases e
    simp only [ask, fileAfter, askedFor, countedFor, List.map_append, List.append_nil]
    exact ⟨h1, rfl, by rw [h3]⟩
  | bind k =>
    simp only [Cache.step] at e
    split at e
    · cases e
    · rename_i a ha
      split at e
      · split at e
        · cases e
        · split at e
          · cases e
            refine ⟨rfl, ?_, by simp [countedFor]⟩
            simp only [askedFor, List.append_nil]
            exact map_set_same _ ha rfl
          · cases e
      · cases e
  | count f =>
    obtain ⟨h1, h2⟩ := count_same s f
    cases e
    simp only [fileAfter, askedFor, countedFor, List.map_append, List.append_nil]
    exact ⟨h1, by rw [h2], rfl⟩
  | fill r => obtain ⟨h1, h2, h3⟩ := onRec_same e; exact ⟨h1, by simp [h2, askedFor], by simp [h3, countedFor]⟩
  | fillQ r => obtain ⟨h1, h2, h3⟩ := onRec_same e; exact ⟨h1, by simp [h2, askedFor], by simp [h3, countedFor]⟩
  | fillF r => obtain ⟨h1, h2, h3⟩ := onRec_same e; exact ⟨h1, by simp [h2, askedFor], by simp [h3, countedFor]⟩
  | reset file => cases e; exact ⟨rfl, by simp [reset, askedFor], by simp [reset, countedFor]⟩

theorem runs_history {file : File} {l : List Act} {s : Sys} (r : Runs (Sys.new file) l s) :
    s.file = fileAfter file l ∧ s.asks.map Ask.key = askedFor file l ∧ s.counted.map Count.key = countedFor file l := by
  generalize hs : Sys.new file = s0 at r
  induction r with
  | nil => subst hs; exact ⟨rfl, rfl, rfl⟩
  | snoc _ e ih =>
    obtain ⟨h1, h2, h3⟩ := ih
    obtain ⟨g1, g2, g3⟩ := step_history e
    obtain ⟨k1, k2, k3⟩ := asked_snoc file _ _
    rw [h1] at g1 g2 g3
    exact ⟨by rw [k3]; exact g1, by rw [k1, g2, h2], by rw [k2, g3, h3]⟩

/-- **C57** In every history of calls from any number of threads, of the threads that decompress,
and of resets after which the file is another one: the hopper of each call shows, whenever it is
used, exactly what the file had for the feature when it was asked for; nothing that was not yet
written is ever shown. -/
theorem C57_whole (file : File) (acts : List Act) (s : Sys) (run : Runs (Sys.new file) acts s) :
    s.asks.length = (askedFor file acts).length ∧
    ∀ (k : Nat) f old, (askedFor file acts)[k]? = some (f, old) →
      ∃ a, s.asks[k]? = some a ∧ ∀ x, a.got = some x → x = shown (old f) := by
  have inv := run.inv (Inv.new file)
  obtain ⟨-, h, -⟩ := runs_history run
  refine ⟨by rw [← h, List.length_map], fun k f old hk => ?_⟩
  rw [← h, List.getElem?_map] at hk
  cases ha : s.asks[k]? with
  | none => rw [ha] at hk; cases hk
  | some a =>
    rw [ha] at hk
    have hk := Option.some.inj hk
    have h1 : a.feature = f := congrArg Prod.fst hk
    have h2 : a.seen = old := congrArg Prod.snd hk
    refine ⟨a, rfl, fun x hx => ?_⟩
    have := (inv.asks a (List.mem_of_getElem? ha)).got x hx
    rw [this, view_shown, h1, h2]

/-- **C57** Every call of `count` says how many annotations the file had for the feature. -/
theorem C57_counts (file : File) (acts : List Act) (s : Sys) (run : Runs (Sys.new file) acts s) :
    s.counted.length = (countedFor file acts).length ∧
    ∀ (k : Nat) f old, (countedFor file acts)[k]? = some (f, old) →
      ∃ c, s.counted[k]? = some c ∧ c.answer = size (old f) := by
  have inv := run.inv (Inv.new file)
  obtain ⟨-, -, h⟩ := runs_history run
  refine ⟨by rw [← h, List.length_map], fun k f old hk => ?_⟩
  rw [← h, List.getElem?_map] at hk
  cases ha : s.counted[k]? with
  | none => rw [ha] at hk; cases hk
  | some a =>
    rw [ha] at hk
    have hk := Option.some.inj hk
    have h1 : a.feature = f := congrArg Prod.fst hk
    have h2 : a.seen = old := congrArg Prod.snd hk
    refine ⟨a, rfl, ?_⟩
    have := inv.counted a (List.mem_of_getElem? ha)
    rw [this, h1, h2]
    cases old f <;> rfl

/-- **C57** Between two resets the postings of a feature are read from the file and decompressed at
most once, however many threads ask for them. -/
theorem C57_once (file : File) (acts : List Act) (s : Sys) (run : Runs (Sys.new file) acts s) (f : Int) (era : Nat) :
    (s.recs.filter fun r => r.feature == f && r.born == era).length ≤ 1 := by
  have inv := run.inv (Inv.new file)
  have one : ∀ (l : List Rec), (∀ (i j : Nat) x y, l[i]? = some x → l[j]? = some y → x.feature = y.feature → x.born = y.born → i = j) →
      (l.filter fun r => r.feature == f && r.born == era).length ≤ 1 := by
    intro l
    induction l with
    | nil => intro _; simp
    | cons x l ih =>
      intro h
      by_cases hx : (x.feature == f && x.born == era) = true
      · rw [List.filter_cons_of_pos (p := fun r : Rec => r.feature == f && r.born == era) hx]
        have : (l.filter fun r => r.feature == f && r.born == era) = [] := by
          rw [List.filter_eq_nil_iff]
          intro y hy hc
          obtain ⟨i, hi⟩ := List.getElem?_of_mem hy
          simp only [Bool.and_eq_true, beq_iff_eq] at hx hc
          have := h 0 (i + 1) x y rfl (by simpa using hi) (by rw [hx.1, hc.1]) (by rw [hx.2, hc.2])
          omega
        simp [this]
      · rw [List.filter_cons_of_neg (p := fun r : Rec => r.feature == f && r.born == era) hx]
        exact ih fun i j a b ha hb h1 h2 => by
          have := h (i + 1) (j + 1) a b (by simpa using ha) (by simpa using hb) h1 h2
          omega
  exact one s.recs inv.once

/-- the records that are being made or filled since the last reset are exactly those in the cache: no work is done twice, and none is lost -/
theorem C57_cached (file : File) (acts : List Act) (s : Sys) (run : Runs (Sys.new file) acts s) (r : Nat) (x : Rec)
    (hx : s.recs[r]? = some x) (now : x.born = s.resets) : s.cache x.feature = some r :=
  (run.inv (Inv.new file)).live r x hx now

theorem runs_append {s s' s'' : Sys} {l l' : List Act} (h : Runs s l s') (h' : Runs s' l' s'') : Runs s (l ++ l') s'' := by
  induction h' with
  | nil => rw [List.append_nil]; exact h
  | snoc _ e ih => rw [← List.append_assoc]; exact .snoc ih e

/-- **C57** Nobody waits for ever: whatever has happened so far, the threads that fill one record,
and nothing else, bring every call that waits to where its hopper shows what it must; no other call
and no reset is needed for it. -/
theorem C57_released (file : File) (acts : List Act) (s : Sys) (run : Runs (Sys.new file) acts s) (k : Nat) (a : Ask)
    (ha : s.asks[k]? = some a) :
    a.got = some (shown (a.seen a.feature)) ∨
    ∃ r l s', a.record = some r ∧ (∀ b ∈ l, b.fills r) ∧ Runs (Sys.new file) (acts ++ l ++ [.bind k]) s' ∧
      ∃ a', s'.asks[k]? = some a' ∧ a'.got = some (shown (a.seen a.feature)) := by
  have inv := run.inv (Inv.new file)
  have ok := inv.asks a (List.mem_of_getElem? ha)
  cases hg : a.got with
  | some x => left; rw [ok.got x hg, view_shown]
  | none =>
    right
    cases hr : a.record with
    | none => have := ok.none hr; rw [hg] at this; cases this
    | some r =>
      obtain ⟨x, hx, h2, h3⟩ := ok.record r hr
      obtain ⟨l, s1, l1, l2, l3, y, hy, ho⟩ := can_open inv hx
      have run1 := runs_append run l2
      have ha1 : s1.asks[k]? = some a := by rw [l3]; exact ha
      have e : Cache.step s1 (.bind k) = some { s1 with asks := s1.asks.set k { a with got := some y.read } } := by
        simp only [Cache.step, ha1, hg, hr, hy, ho, if_true]
      have run2 := Runs.snoc run1 e
      have inv2 := run2.inv (Inv.new file)
      have hlt := (List.getElem?_eq_some_iff.1 ha1).1
      have hk : (s1.asks.set k { a with got := some y.read })[k]? = some { a with got := some y.read } := by simp [hlt]
      refine ⟨r, l, _, rfl, l1, run2, _, hk, ?_⟩
      have := (inv2.asks _ (List.mem_of_getElem? hk)).got y.read rfl
      rw [view_shown] at this
      exact congrArg some this

/-- a file with one feature whose annotations have ends and values of their own, and one that is all points -/
def somePostings : File := fun f =>
  if f = 5 then some ⟨[1, 4], some [2, 9], some [7, 8]⟩ else if f = 6 then some ⟨[3], none, none⟩ else none

/-- Two threads ask for the feature and one for a feature that is not there; the hopper of one of
them is used when everything is there, that of the other only after a reset, after which a new call
sees the new file. -/
example : ∃ s, Runs (Sys.new somePostings)
    [.ask 5, .count 5, .ask 5, .fill 0, .fill 0, .fillF 0, .ask 9, .fillQ 0, .fill 0, .fill 0, .fill 0, .bind 0,
      .reset (fun _ => none), .bind 1, .ask 5, .count 5] s ∧
    s.asks.map (·.got) = [some (.posting ⟨[1, 4], some [2, 9], some [7, 8]⟩), some (.posting ⟨[1, 4], some [2, 9], some [7, 8]⟩),
      some .empty, some .empty] ∧ s.counted.map (·.answer) = [2, 0] ∧ s.recs.length = 1 := by
  have run : ∀ (l l0 : List Act) (s s' : Sys), Runs (Sys.new somePostings) l0 s →
      l.foldlM (fun s a => Cache.step s a) s = some s' → Runs (Sys.new somePostings) (l0 ++ l) s' := by
    intro l
    induction l with
    | nil => intro l0 s s' h e; cases e; rw [List.append_nil]; exact h
    | cons a l ih =>
      intro l0 s s' h e
      simp only [List.foldlM_cons, Option.bind_eq_bind] at e
      obtain ⟨s1, h1, h2⟩ := Option.bind_eq_some_iff.1 e
      have := ih (l0 ++ [a]) s1 s' (.snoc h h1) h2
      rw [List.append_assoc] at this
      exact this
  exact ⟨_, run _ [] _ _ (.nil _) rfl, by decide +kernel, by decide +kernel, by decide +kernel⟩

/-- The thread cannot pass the gate before the ends are written. -/
example : ∃ s, Cache.step s (.ask 5) ≠ none ∧ (Sys.new somePostings) = s ∧
    ([Act.ask 5, .fill 0, .fill 0].foldlM (fun s a => Cache.step s a) s).bind (fun s => Cache.step s (.bind 0)) = none ∧
    ([Act.ask 5, .fill 0, .fill 0].foldlM (fun s a => Cache.step s a) s).bind (fun s => Cache.step s (.fill 0)) = none :=
  ⟨_, by simp [Cache.step], rfl, rfl, rfl⟩

/-! ### the text -/

/-- **C57** However many threads ask for the same chunk of text at the same time, in every
interleaving:

* a thread that returns has exactly the chunk, unless its own reading of the file failed;
* the pointer is not read by anyone while a thread writes it, and only one thread writes at a time;
* what has been stored stays as it is, so that what a thread was given stays valid;
* no thread waits for ever: as long as one is not done, it or the one that has the mutex can go on,
  and no thread takes more than nine steps. -/
theorem C57_chunk (chunk : List UInt8) (s : Chunk.Sys) (run : Chunk.Runs chunk Chunk.Sys.new s) :
    (∀ i x, s.pc i = .out x → x = some chunk) ∧
    (∀ i j raw, s.pc i = .write raw → s.pc j ≠ .fetch ∧ s.pc j ≠ .leave ∧ (∀ raw', s.pc j = .write raw' → j = i)) ∧
    (∀ i good s' x, Chunk.step chunk s i good = some s' → s.bytes = some x → s'.bytes = some x) ∧
    (∀ i good, s.pc i ≠ .failed → (∀ x, s.pc i ≠ .out x) →
      (∃ s', Chunk.step chunk s i good = some s') ∨ ∃ k s', s.lock = some k ∧ Chunk.step chunk s k good = some s') ∧
    (∃ away : Chunk.Pc → Nat, (∀ w, away w ≤ 9) ∧
      ∀ i good s', Chunk.step chunk s i good = some s' → away (s'.pc i) < away (s.pc i) ∧ ∀ k, k ≠ i → s'.pc k = s.pc k) := by
  have inv := run.inv (Chunk.Inv.new chunk)
  refine ⟨fun i x h => ?_, fun i j raw h => ?_, fun i good s' x e hx => Chunk.step_bytes inv e hx, fun i good h1 h2 => ?_,
    Chunk.Pc.left, (fun w => by cases w <;> simp [Chunk.Pc.left]), fun i good s' e => Chunk.step_left e⟩
  · have := inv.fine i
    rw [h] at this
    exact this.1
  · have hw := inv.fine i
    rw [h] at hw
    have hj := inv.fine j
    refine ⟨fun hc => ?_, fun hc => ?_, fun raw' hc => ?_⟩
    · rw [hc] at hj
      have := hw.2.symm.trans hj
      cases this
    · rw [hc] at hj
      have := hw.2.symm.trans hj
      cases this
    · have l1 := (inv.lock i).1 (by rw [h]; rfl)
      have l2 := (inv.lock j).1 (by rw [hc]; rfl)
      rw [l1] at l2
      exact (Option.some.inj l2).symm
  · have : (s.pc i).left ≠ 0 := by
      cases hp : s.pc i with
      | failed => exact absurd hp h1
      | out x => exact absurd hp (h2 x)
      | _ => simp [Chunk.Pc.left]
    rcases Chunk.can_step inv this good with h | ⟨k, hk, h⟩
    · exact Or.inl (Option.isSome_iff_exists.1 h)
    · obtain ⟨s', hs⟩ := Option.isSome_iff_exists.1 h
      exact Or.inr ⟨k, s', hk, hs⟩

/-- Thread 0 and thread 1 both decode; thread 2 comes later; the reading of thread 3 fails. -/
example : ∃ s, Chunk.Runs [65, 66] Chunk.Sys.new s ∧ s.pc 0 = .out (some [65, 66]) ∧ s.pc 1 = .out (some [65, 66]) ∧
    s.pc 2 = .out (some [65, 66]) ∧ s.pc 3 = .failed ∧ s.lock = none := by
  have run : ∀ (l : List (Nat × Bool)) (s s' : Chunk.Sys), Chunk.Runs [65, 66] Chunk.Sys.new s →
      l.foldlM (fun s a => Chunk.step [65, 66] s a.1 a.2) s = some s' → Chunk.Runs [65, 66] Chunk.Sys.new s' := by
    intro l
    induction l with
    | nil => intro s s' h e; cases e; exact h
    | cons a l ih =>
      intro s s' h e
      simp only [List.foldlM_cons, Option.bind_eq_bind] at e
      obtain ⟨s1, h1, h2⟩ := Option.bind_eq_some_iff.1 e
      exact ih s1 s' (.step a.1 a.2 h h1) h2
  refine ⟨_, run [(0, true), (1, true), (3, true), (3, false), (0, true), (1, true), (0, true), (1, true), (0, true), (0, true), (0, true),
    (0, true), (0, true), (0, true), (1, true), (1, true), (1, true), (1, true), (2, true), (2, true)] _ _ (.refl _) rfl, ?_, ?_, ?_, ?_, ?_⟩ <;> rfl

end Verif.Props
