import Verif.Crash.Spec
import Verif.TxtIO.Recover

/-!
# Recovering a static warren
-/

namespace Verif.Crash
open TxtIO (Bytes Disk)

/-! ## Stages -/

theorem cut_cons {s : List Op} {ss : List (List Op)} {d d' : Dir} (h : Cut (s :: ss) d d') :
    Part s d d' ∨ Cut ss (runAll s d) d' := by
  cases h with
  | inside h => exact Or.inl h
  | next h => exact Or.inr h

theorem cut_nil {d d' : Dir} (h : Cut [] d d') : d' = d := by cases h; rfl

/-- Changes that happen or do not. -/
def Op.Sharp : Op → Prop
  | .text .lock | .text .unlock | .text .unlimit | .text (.limit ..) => True
  | .text _ | .newTxt _ => False
  | _ => True

theorem part_sharp {o : Op} {d d' : Dir} (ho : o.Sharp) (h : Part [o] d d') : d' = d ∨ d' = o.run d := by
  cases h with
  | skip h => cases h; exact Or.inl rfl
  | cons h1 h2 =>
    cases h2
    cases h1 with
    | whole => exact Or.inr rfl
    | text h =>
      cases h with
      | whole => exact Or.inr rfl
      | write => exact absurd ho (by simp [Op.Sharp])
      | last => exact absurd ho (by simp [Op.Sharp])
    | newTxt => exact absurd ho (by simp [Op.Sharp])

theorem part_newTxt {b : Bytes} {d d' : Dir} (h : Part [.newTxt b] d d') :
    d' = d ∨ ∃ k, d' = { d with txtNew := some (b.take k) } := by
  cases h with
  | skip h => cases h; exact Or.inl rfl
  | cons h1 h2 =>
    cases h2
    cases h1 with
    | whole => exact Or.inr ⟨b.length, by rw [List.take_length]; rfl⟩
    | newTxt b k => exact Or.inr ⟨k, rfl⟩

theorem part_text : ∀ {ops : List TxtIO.Op} {d d' : Dir}, Part (ops.map .text) d d' →
    ∃ s, TxtIO.TornAll ops d.store s ∧ d' = { d with store := s } := by
  intro ops
  induction ops with
  | nil => intro d d' h; cases h; exact ⟨_, .nil _, rfl⟩
  | cons o os ih =>
    intro d d' h
    cases h with
    | skip h =>
      obtain ⟨s, h1, h2⟩ := ih h
      exact ⟨s, .skip h1, h2⟩
    | cons h1 h2 =>
      obtain ⟨s, h3, h4⟩ := ih h2
      cases h1 with
      | whole => exact ⟨s, .cons (.whole _ _) h3, h4⟩
      | text h => exact ⟨s, .cons h h3, h4⟩

theorem runAll_text (ops : List TxtIO.Op) (d : Dir) :
    runAll (ops.map .text) d = { d with store := TxtIO.runAll ops d.store } := by
  induction ops generalizing d with
  | nil => rfl
  | cons o os ih =>
    show runAll (os.map .text) (Op.run (.text o) d) = _
    rw [ih]; rfl

/-! ## Going back -/

/-- The files of the text still lead back to `old`. -/
def Back (n : Nat) (z : TxtIO.Codec) (old : Bytes) (d : Disk) : Prop :=
  (TxtIO.Whole n z old d ∧ d.limits = none) ∨ ∃ w, TxtIO.Kept n z old w d

theorem whole_mono {n z old} {d d' : Disk} (h : TxtIO.Whole n z old d) (h1 : d'.map = d.map)
    (h2 : d'.contents = d.contents) : TxtIO.Whole n z old d' :=
  ⟨by rw [h1]; exact h.len, by rw [h1, h2]; exact h.stored⟩

theorem Back.lock {n z old d} (h : Back n z old d) (b : Bool) : Back n z old { d with lock := b } := by
  rcases h with ⟨h1, h2⟩ | ⟨w, h⟩
  · exact Or.inl ⟨whole_mono h1 rfl rfl, h2⟩
  · exact Or.inr ⟨w, h.limits, h.len, h.start, h.stored⟩

theorem restore_none {z : TxtIO.Codec} {d : Disk} (h : d.limits = none) : TxtIO.restore false z d = [] := by
  unfold TxtIO.restore; rw [h]

theorem Back.torn {n z old d d'} (h : Back n z old d) (ht : TxtIO.TornAll (TxtIO.restore false z d) d d') :
    Back n z old d' := by
  rcases h with ⟨h1, h2⟩ | ⟨w, h⟩
  · rw [restore_none h2] at ht
    cases ht
    exact Or.inl ⟨h1, h2⟩
  · exact Or.inr ⟨w, ht.kept (TxtIO.restore_mild h) h⟩

theorem Back.restored {n z old d} (h : Back n z old d) :
    TxtIO.Whole n z old (TxtIO.runAll (TxtIO.restore false z d) d) := by
  rcases h with ⟨h1, h2⟩ | ⟨w, h⟩
  · rw [restore_none h2]; exact h1
  · exact (TxtIO.restore_whole h).1

/-- The directory still leads back to the old contents. -/
structure Old (n : Nat) (z : TxtIO.Codec) (c : Contents) (d : Dir) : Prop where
  store : Back n z c.text d.store
  txt : d.txt = c.txt
  idx : d.idx = c.idx
  pst : d.pst = c.pst

theorem Old.congr {n z c} {d d' : Dir} (h : Old n z c d) (h1 : d'.store = d.store) (h2 : d'.txt = d.txt)
    (h3 : d'.idx = d.idx) (h4 : d'.pst = d.pst) : Old n z c d' :=
  ⟨h1 ▸ h.store, h2.trans h.txt, h3.trans h.idx, h4.trans h.pst⟩

/-- Changes that neither touch the text nor replace a file. -/
def Op.Tame : Op → Prop
  | .text _ | .publishTxt | .publishIdx | .publishPst => False
  | _ => True

theorem Op.Tame.same {o : Op} {d d' : Dir} (ho : o.Tame) (h : Torn o d d') :
    d'.store = d.store ∧ d'.txt = d.txt ∧ d'.idx = d.idx ∧ d'.pst = d.pst := by
  cases h with
  | whole => cases o <;> first | exact ⟨rfl, rfl, rfl, rfl⟩ | exact absurd ho (by simp [Op.Tame])
  | text h => exact absurd ho (by simp [Op.Tame])
  | newTxt => exact ⟨rfl, rfl, rfl, rfl⟩

theorem Old.part {n z c} : ∀ {ops : List Op} {d d' : Dir}, (∀ o ∈ ops, o.Tame) → Old n z c d → Part ops d d' →
    Old n z c d' := by
  intro ops
  induction ops with
  | nil => intro d d' _ h hp; cases hp; exact h
  | cons o os ih =>
    intro d d' ho h hp
    have ho' : ∀ o ∈ os, o.Tame := fun x hx => ho x (by simp [hx])
    cases hp with
    | skip hp => exact ih ho' h hp
    | cons ht hp =>
      obtain ⟨h1, h2, h3, h4⟩ := (ho o (by simp)).same ht
      exact ih ho' (h.congr h1 h2 h3 h4) hp

theorem part_whole : ∀ (ops : List Op) (d : Dir), Part ops d (runAll ops d) := by
  intro ops
  induction ops with
  | nil => intro d; exact .nil d
  | cons o os ih => intro d; exact .cons (.whole o d) (ih _)

theorem Old.cut {n z c} : ∀ {ss : List (List Op)} {d d' : Dir}, (∀ s ∈ ss, ∀ o ∈ s, o.Tame) → Old n z c d →
    Cut ss d d' → Old n z c d' := by
  intro ss
  induction ss with
  | nil => intro d d' _ h hc; rw [cut_nil hc]; exact h
  | cons s ss ih =>
    intro d d' ho h hc
    rcases cut_cons hc with hp | hc
    · exact h.part (ho s (by simp)) hp
    · exact ih (fun s hs => ho s (by simp [hs])) (h.part (ho s (by simp)) (part_whole s d)) hc

theorem cut_all : ∀ (ss : List (List Op)) (d : Dir), Cut ss d (runStages ss d) := by
  intro ss
  induction ss with
  | nil => intro d; exact .done d
  | cons s ss ih => intro d; exact .next (ih _)

theorem Old.recoverText {n z c} {d d' : Dir} (h : Old n z c d) (hc : Cut (recoverText z false d.store) d d') :
    Old n z c d' := by
  unfold Crash.recoverText at hc
  simp only [Bool.false_eq_true, if_false] at hc
  rcases cut_cons hc with hp | hc
  · obtain ⟨s, h1, rfl⟩ := part_text hp
    exact ⟨h.store.torn h1, h.txt, h.idx, h.pst⟩
  rw [runAll_text] at hc
  have hw := h.store.restored
  have key : ∀ b, Old n z c { d with store :=
      { TxtIO.runAll (TxtIO.restore false z d.store) d.store with limits := none, lock := b } } :=
    fun b => ⟨Or.inl ⟨whole_mono hw rfl rfl, rfl⟩, h.txt, h.idx, h.pst⟩
  have hkept : Old n z c { d with store := TxtIO.runAll (TxtIO.restore false z d.store) d.store } :=
    ⟨h.store.torn (TxtIO.TornAll.whole _ _), h.txt, h.idx, h.pst⟩
  rcases cut_cons hc with hp | hc
  · rcases part_sharp (by simp [Op.Sharp]) hp with rfl | rfl
    · exact hkept
    · exact key _
  rcases cut_cons hc with hp | hc
  · rcases part_sharp (by simp [Op.Sharp]) hp with rfl | rfl
    · exact key _
    · exact key _
  exact Old.cut (by simp [Op.Tame]) (key _) hc

theorem Old.recoverIdx {n z c} {d d' : Dir} (h : Old n z c d) (hc : Cut (recoverIdx false) d d') : Old n z c d' :=
  Old.cut (by simp [Crash.recoverIdx, Op.Tame]) h hc

theorem Old.struggle {n z c} {d d' : Dir} (h : Old n z c d) (hs : Struggle z false d d') : Old n z c d' := by
  induction hs with
  | none => exact h
  | text hc _ ih => exact ih (h.recoverText hc)
  | idx hc _ ih => exact ih (h.recoverIdx hc)

/-- A clean directory with some contents. -/
structure Clean (n : Nat) (z : TxtIO.Codec) (c : Contents) (d : Dir) : Prop where
  whole : TxtIO.Whole n z c.text d.store
  limits : d.store.limits = none
  lock : d.store.lock = false
  rest : d = { store := d.store, txt := c.txt, idx := c.idx, pst := c.pst }

theorem Old.recover {n z c} {d : Dir} (h : Old n z c d) : Clean n z c (Crash.recover z false d) := by
  have hw := h.store.restored
  have e : Crash.recover z false d = {
      store := { TxtIO.runAll (TxtIO.restore false z d.store) d.store with limits := none, lock := false },
      txt := d.txt, idx := d.idx, pst := d.pst } := by
    unfold Crash.recover Crash.recoverText Crash.recoverIdx
    simp only [Bool.false_eq_true, if_false, runStages, List.foldl_cons, List.foldl_nil, List.cons_append,
      List.nil_append, runAll_text]
    rfl
  rw [e]
  exact ⟨whole_mono hw rfl rfl, rfl, rfl, by rw [h.txt, h.idx, h.pst]⟩

/-! ## Going forward -/

/-- A file that is waiting to replace another, or has. -/
def Coming (new : Option Bytes) (cur want : Bytes) : Prop := new = some want ∨ (new = none ∧ cur = want)

theorem Coming.publish {new cur want} (h : Coming new cur want) : Coming none (new.getD cur) want := by
  rcases h with rfl | ⟨rfl, rfl⟩ <;> exact Or.inr ⟨rfl, rfl⟩

/-- The directory leads to the new contents. -/
structure New (n : Nat) (z : TxtIO.Codec) (c : Contents) (d : Dir) : Prop where
  store : TxtIO.Whole n z c.text d.store
  txt : Coming d.txtNew d.txt c.txt
  idx : Coming d.idxNew d.idx c.idx
  pst : Coming d.pstNew d.pst c.pst

/-- Changes that lead there. -/
def Op.Forward : Op → Prop
  | .text .unlimit | .text .unlock | .publishTxt | .unlockTxt | .publishIdx | .publishPst | .unlockIdx => True
  | _ => False

theorem New.step {n z c o} {d : Dir} (h : New n z c d) (ho : o.Forward) : New n z c (Op.run o d) := by
  match o, ho with
  | .text .unlimit, _ => exact ⟨whole_mono h.store rfl rfl, h.txt, h.idx, h.pst⟩
  | .text .unlock, _ => exact ⟨whole_mono h.store rfl rfl, h.txt, h.idx, h.pst⟩
  | .publishTxt, _ => exact ⟨h.store, h.txt.publish, h.idx, h.pst⟩
  | .unlockTxt, _ => exact ⟨h.store, h.txt, h.idx, h.pst⟩
  | .publishIdx, _ => exact ⟨h.store, h.txt, h.idx.publish, h.pst⟩
  | .publishPst, _ => exact ⟨h.store, h.txt, h.idx, h.pst.publish⟩
  | .unlockIdx, _ => exact ⟨h.store, h.txt, h.idx, h.pst⟩

theorem Op.Forward.sharp {o : Op} (h : o.Forward) : o.Sharp := by
  match o, h with
  | .text .unlimit, _ => trivial
  | .text .unlock, _ => trivial
  | .publishTxt, _ => trivial
  | .unlockTxt, _ => trivial
  | .publishIdx, _ => trivial
  | .publishPst, _ => trivial
  | .unlockIdx, _ => trivial

theorem New.cut {n z c} : ∀ {ops : List Op} {d d' : Dir}, (∀ o ∈ ops, o.Forward) → New n z c d →
    Cut (ops.map fun o => [o]) d d' → New n z c d' := by
  intro ops
  induction ops with
  | nil => intro d d' _ h hc; rw [cut_nil hc]; exact h
  | cons o os ih =>
    intro d d' ho h hc
    have h1 := ho o (by simp)
    rcases cut_cons hc with hp | hc
    · rcases part_sharp h1.sharp hp with rfl | rfl
      · exact h
      · exact h.step h1
    · exact ih (fun o ho' => ho o (by simp [ho'])) (h.step h1) hc

theorem New.struggle {n z c} {d d' : Dir} (h : New n z c d) (hs : Struggle z true d d') : New n z c d' := by
  induction hs with
  | none => exact h
  | text hc _ ih =>
    refine ih (New.cut (ops := [.text .unlimit, .text .unlock, .publishTxt, .unlockTxt]) (by simp [Op.Forward]) h ?_)
    unfold recoverText at hc
    simp only [if_true, List.map_nil] at hc
    rcases cut_cons hc with hp | hc
    · cases hp; exact .inside (.skip (.nil _))
    · exact hc
  | idx hc _ ih =>
    exact ih (New.cut (ops := [.publishIdx, .publishPst, .unlockIdx]) (by simp [Op.Forward]) h hc)

theorem New.recover {n z c} {d : Dir} (h : New n z c d) : Clean n z c (Crash.recover z true d) := by
  have e : Crash.recover z true d = {
      store := { d.store with limits := none, lock := false },
      txt := d.txtNew.getD d.txt, idx := d.idxNew.getD d.idx, pst := d.pstNew.getD d.pst } := rfl
  have hg : ∀ {new cur want}, Coming new cur want → new.getD cur = want := by
    rintro new cur want (rfl | ⟨rfl, rfl⟩) <;> rfl
  rw [e]
  exact ⟨whole_mono h.store rfl rfl, rfl, rfl, by rw [hg h.txt, hg h.idx, hg h.pst]⟩

/-! ## The text in a transaction -/

section
variable {n : Nat} {z : TxtIO.Codec} (hn : 0 < n) (hz : z.Restores n)
include hn hz

/-- Beginning a transaction on a text that was flushed. -/
theorem begin_base {p : TxtIO.Plain} {s s' : TxtIO.Store} {j : Bytes} {b : Bool} (h : TxtIO.Good n z p s)
    (hp : p.saved = none) (hd : p.dirty = false)
    (hb : TxtIO.transaction n z j s = some (s', b)) :
    ∃ k l, s'.base = { s.disk with lock := true, limits := some (k, l) } := by
  have hst : s.started = false := by rw [h.started, hp]; rfl
  obtain ⟨_, hk⟩ := h.free hp
  have hfl : s.flushed = true := by have := h.dirty; rw [hd] at this; simpa using this.symm
  have hsy := h.holds.flush hfl
  unfold TxtIO.transaction at hb
  rw [if_neg (by simp [hst]), if_neg (by simp [hk, h.readOnly])] at hb
  generalize hs1 : ({ s with readied := false } : TxtIO.Store).does .lock = s1 at hb
  have hh : TxtIO.Holds n z p.text s1 := by
    rw [← hs1]
    exact ⟨⟨h.holds.len, h.holds.disk, h.holds.stored, h.holds.cache, h.holds.dirty, h.holds.lim⟩,
      h.holds.size, h.holds.flush⟩
  have hsy1 : s1.synced = true := by rw [← hs1]; exact hsy
  have hd1 : s1.disk = { s.disk with lock := true } := by rw [← hs1]; rfl
  unfold TxtIO.begin at hb
  by_cases hm : s1.map = []
  · rw [if_pos hm] at hb
    cases hb
    exact ⟨0, j, by show _ = _; simp only [TxtIO.Store.does, TxtIO.Op.run, hd1]⟩
  · rw [if_neg hm] at hb
    have h0 : TxtIO.count n p.text ≠ 0 := by
      rw [← hh.len]
      intro h0
      exact hm (List.length_eq_zero_iff.mp h0)
    obtain ⟨s2, e2, _, _, _, _, _, _, _, _, dl, _, _⟩ :=
      TxtIO.fetch_spec hn hz hh.toCore (i := TxtIO.count n p.text - 1) (by omega)
    have hfl : TxtIO.fetchLast n z s1 = some s2 := by
      unfold TxtIO.fetchLast; rw [hh.len]; exact e2
    rw [hfl] at hb
    cases hb
    refine ⟨s2.map.length, s2.chunk, ?_⟩
    simp only [TxtIO.Store.does, TxtIO.Op.run, (dl hsy1).1, hd1]

/-- Work does not change where a transaction began. -/
theorem work_base : ∀ {calls : List TxtIO.Call} {p : TxtIO.Plain} {s s' : TxtIO.Store} {as : List TxtIO.Answer},
    TxtIO.Good n z p s → (∀ c ∈ calls, Work c) → TxtIO.run false n z s calls = some (s', as) →
    s'.base = s.base ∧ TxtIO.Good n z (p.run calls).1 s' ∧ (p.run calls).1.saved = p.saved := by
  intro calls
  induction calls with
  | nil => intro p s s' as h _ hr; cases hr; exact ⟨rfl, h, rfl⟩
  | cons c cs ih =>
    intro p s s' as h hw hr
    have hc := hw c (by simp)
    have h1 : c = .commit → p.saved ≠ none ∧ p.ready = true := by rintro rfl; exact absurd hc (by simp [Work])
    have h2 : c = .abort true → z.Grows ∧ ∀ s ∈ p.saved, s.2 = true := by
      rintro rfl; exact absurd hc (by simp [Work])
    obtain ⟨s1, e1, g1⟩ := TxtIO.call_spec hn hz h c h1 h2
    rw [TxtIO.run, e1] at hr
    simp only at hr
    cases hr2 : TxtIO.run false n z s1 cs with
    | none => rw [hr2] at hr; cases hr
    | some r =>
      rw [hr2] at hr
      cases hr
      obtain ⟨i1, i2, i3⟩ := ih g1 (fun c hc => hw c (by simp [hc])) hr2
      have hb : s1.base = s.base ∧ (p.call c).1.saved = p.saved := by
        match c, hc with
        | .append t, _ =>
          obtain ⟨s2, e2, _, f, _⟩ := TxtIO.append_spec hn hz h.holds h.limited h.readOnly t
          simp only [TxtIO.call, e2, Option.map_some, Option.some.injEq, Prod.mk.injEq] at e1
          rw [← e1.1]; exact ⟨f.base, rfl⟩
        | .read a b, _ =>
          obtain ⟨s2, e2, _, f, _⟩ := TxtIO.read_spec hn hz h.holds
            (fun hr => (by rw [h.readOnly] at hr; cases hr)) a b
          simp only [TxtIO.call, e2, Option.map_some, Option.some.injEq, Prod.mk.injEq] at e1
          rw [← e1.1]; exact ⟨f.base, rfl⟩
        | .size, _ =>
          simp only [TxtIO.call, Option.some.injEq, Prod.mk.injEq] at e1
          rw [← e1.1]; exact ⟨rfl, rfl⟩
        | .flush, _ =>
          obtain ⟨s2, e2, _, f, _⟩ := TxtIO.flush_spec hn h.holds
          simp only [TxtIO.call, e2, Option.map_some, Option.some.injEq, Prod.mk.injEq] at e1
          rw [← e1.1]; exact ⟨f.base, rfl⟩
        | .ready, _ =>
          obtain ⟨s2, e2, _, f, _⟩ := TxtIO.flush_spec hn h.holds
          refine ⟨?_, ?_⟩
          · simp only [TxtIO.call, TxtIO.ready] at e1
            split at e1
            · simp only [Option.map_some, Option.some.injEq, Prod.mk.injEq] at e1
              rw [← e1.1]
            · split at e1
              · simp only [Option.map_some, Option.some.injEq, Prod.mk.injEq] at e1
                rw [← e1.1]
              · simp only [e2, Option.map_some, Option.some.injEq, Prod.mk.injEq] at e1
                rw [← e1.1]; exact f.base
          · cases hs : p.saved <;> simp [TxtIO.Plain.call, hs]
      refine ⟨i1.trans hb.1, i2, i3.trans hb.2⟩

end

/-! ## A transaction -/

theorem cut_append : ∀ {A B : List (List Op)} {d d' : Dir}, Cut (A ++ B) d d' →
    Cut A d d' ∨ Cut B (runStages A d) d' := by
  intro A
  induction A with
  | nil => intro B d d' h; exact Or.inr h
  | cons a A ih =>
    intro B d d' h
    rcases cut_cons h with h | h
    · exact Or.inl (.inside h)
    · rcases ih h with h | h
      · exact Or.inl (.next h)
      · exact Or.inr h

theorem runStages_append (A B : List (List Op)) (d : Dir) :
    runStages (A ++ B) d = runStages B (runStages A d) := by
  simp [runStages, List.foldl_append]

/-- The files of the text in a transaction. -/
structure Under (n : Nat) (z : TxtIO.Codec) (old : Bytes) (w : Nat) (d0 base : Disk) : Prop where
  whole : TxtIO.Whole n z old d0
  limits : d0.limits = none
  began : ∃ k l, base = { d0 with lock := true, limits := some (k, l) }
  kept : TxtIO.Kept n z old w base

/-- A directory at rest. -/
def atRest (d0 : Disk) (c : Contents) : Dir := { store := d0, txt := c.txt, idx := c.idx, pst := c.pst }

/-- A directory in a transaction. -/
def inside (d : Disk) (c : Contents) (new : Option Bytes) : Dir :=
  { store := d, txt := c.txt, txtNew := new, txtLock := true, idx := c.idx, pst := c.pst, idxLock := true }

section
variable {n : Nat} {z : TxtIO.Codec} {c : Contents} {w : Nat} {d0 base : Disk}

theorem opening_cut (h : Under n z c.text w d0 base) {spilled : Bytes} {d' : Dir}
    (hc : Cut (opening base spilled) (atRest d0 c) d') :
    d' = atRest d0 c ∨ (d'.txtLock = true ∧
      ((d'.store.limits = none ∧ New n z c d' ∧ Old n z c d') ∨ (d'.store.limits ≠ none ∧ Old n z c d'))) := by
  obtain ⟨k, l, hb⟩ := h.began
  have hl : base.limits = some (k, l) := by rw [hb]
  unfold opening at hc
  rw [hl] at hc
  have hW : ∀ b, TxtIO.Whole n z c.text { d0 with lock := b } := fun b => whole_mono h.whole rfl rfl
  have hN : ∀ {x : Bytes}, Coming none x x := Or.inr ⟨rfl, rfl⟩
  have hA : ∀ b, New n z c { atRest { d0 with lock := b } c with txtLock := true } := fun b =>
    ⟨hW b, hN, hN, hN⟩
  have hO : ∀ b, Old n z c { atRest { d0 with lock := b } c with txtLock := true } := fun b =>
    ⟨Or.inl ⟨hW b, h.limits⟩, rfl, rfl, rfl⟩
  have hK : Old n z c { atRest base c with txtLock := true } := ⟨Or.inr ⟨w, h.kept⟩, rfl, rfl, rfl⟩
  have hbl : base.limits ≠ none := by rw [hl]; simp
  rcases cut_cons hc with hp | hc
  · rcases part_sharp (by simp [Op.Sharp]) hp with rfl | rfl
    · exact Or.inl rfl
    · exact Or.inr ⟨rfl, Or.inl ⟨h.limits, hA d0.lock, hO d0.lock⟩⟩
  rcases cut_cons hc with hp | hc
  · rcases part_sharp (by simp [Op.Sharp]) hp with rfl | rfl
    · exact Or.inr ⟨rfl, Or.inl ⟨h.limits, hA d0.lock, hO d0.lock⟩⟩
    · exact Or.inr ⟨rfl, Or.inl ⟨h.limits, hA true, hO true⟩⟩
  have e3 : runAll (List.map (fun l => Op.text (.limit l.1 l.2)) (some (k, l)).toList)
      (runAll [.text .lock] (runAll [.lockTxt] (atRest d0 c))) = { atRest base c with txtLock := true } := by
    rw [hb]; rfl
  rcases cut_cons hc with hp | hc
  · rcases part_sharp (o := .text (.limit k l)) (by simp [Op.Sharp]) hp with rfl | rfl
    · exact Or.inr ⟨rfl, Or.inl ⟨h.limits, hA true, hO true⟩⟩
    · have e3' := e3
      simp only [Option.toList, List.map_cons, List.map_nil] at e3'
      show _ ∨ _
      rw [show Op.run (.text (.limit k l)) (runAll [.text .lock] (runAll [.lockTxt] (atRest d0 c))) =
        { atRest base c with txtLock := true } from e3']
      exact Or.inr ⟨rfl, Or.inr ⟨hbl, hK⟩⟩
  rw [e3] at hc
  have key : Cut [[Op.newTxt spilled], [.lockIdx]] { atRest base c with txtLock := true } d' →
      d'.txtLock = true ∧ d'.store = base ∧ Old n z c d' := by
    intro hc
    refine ⟨?_, ?_, hK.cut (by simp [Op.Tame]) hc⟩
    all_goals
      rcases cut_cons hc with hp | hc
      · rcases part_newTxt hp with rfl | ⟨k, rfl⟩ <;> rfl
      rcases cut_cons hc with hp | hc
      · rcases part_sharp (by simp [Op.Sharp]) hp with rfl | rfl <;> rfl
      · rw [cut_nil hc]; rfl
  obtain ⟨k1, k2, k3⟩ := key hc
  exact Or.inr ⟨k1, Or.inr ⟨by rw [k2]; exact hbl, k3⟩⟩

theorem opening_run (h : Under n z c.text w d0 base) (spilled : Bytes) :
    runStages (opening base spilled) (atRest d0 c) = inside base c (some spilled) := by
  obtain ⟨k, l, hb⟩ := h.began
  rw [hb]; rfl

/-- What the two recoveries can do: go back while `.limits` is there. -/
structure Held (n : Nat) (z : TxtIO.Codec) (c : Contents) (d : Dir) : Prop where
  lock : d.txtLock = true
  limits : d.store.limits ≠ none
  old : Old n z c d

theorem held_of {d : Disk} (h : TxtIO.Kept n z c.text w d) (new i p : Option Bytes) :
    Held n z c { inside d c new with idxNew := i, pstNew := p } := by
  obtain ⟨l, hl, -⟩ := h.limits
  exact ⟨rfl, by show d.limits ≠ none; rw [hl]; simp, Or.inr ⟨w, h⟩, rfl, rfl, rfl⟩

theorem working_cut (h : TxtIO.Kept n z c.text w base) {log : List TxtIO.Op}
    (hm : ∀ o ∈ log, TxtIO.Mild w (TxtIO.count n c.text) o) {new : Option Bytes} {d' : Dir}
    (hc : Cut (working log) (inside base c new) d') : Held n z c d' := by
  rcases cut_cons hc with hp | hc
  · obtain ⟨s, h1, rfl⟩ := part_text hp
    exact held_of (h1.kept hm h) new none none
  · rw [cut_nil hc, runAll_text]
    exact held_of ((TxtIO.TornAll.whole _ _).kept hm h) new none none

theorem working_run (log : List TxtIO.Op) (new : Option Bytes) :
    runStages (working log) (inside base c new) = inside (TxtIO.runAll log base) c new := by
  show runAll (log.map .text) _ = _
  rw [runAll_text]; rfl

theorem staging_cut {d : Disk} (h : TxtIO.Kept n z c.text w d) {idx pst : Bytes} {new : Option Bytes} {d' : Dir}
    (hc : Cut (staging idx pst) (inside d c new) d') : Held n z c d' := by
  rcases cut_cons hc with hp | hc
  · rcases part_sharp (by simp [Op.Sharp]) hp with rfl | rfl
    · exact held_of h new none none
    · exact held_of h new (some idx) none
  rcases cut_cons hc with hp | hc
  · rcases part_sharp (by simp [Op.Sharp]) hp with rfl | rfl
    · exact held_of h new (some idx) none
    · exact held_of h new (some idx) (some pst)
  · rw [cut_nil hc]
    exact held_of h new (some idx) (some pst)

/-- A directory whose transaction is ready. -/
def staged (d : Disk) (c : Contents) (new : Option Bytes) (idx pst : Bytes) : Dir :=
  { inside d c new with idxNew := some idx, pstNew := some pst }

theorem staging_run (d : Disk) (new : Option Bytes) (idx pst : Bytes) :
    runStages (staging idx pst) (inside d c new) = staged d c new idx pst := rfl

/-- Crashes while committing. -/
theorem committing_cut {d : Disk} {t : Contents} (h : TxtIO.Kept n z c.text w d)
    (hw : TxtIO.Whole n z t.text d) {spilled : Bytes} {d' : Dir}
    (hc : Cut (committing t.txt) (staged d c (some spilled) t.idx t.pst) d') :
    Held n z c d' ∨
    (d'.store.limits = none ∧ (d'.txtLock = true ∨ d'.idxLock = true ∨
      d' = runStages (committing t.txt) (staged d c (some spilled) t.idx t.pst)) ∧
      (d'.txtNew = none ∨ d'.txtNew = some t.txt → New n z t d')) := by
  have hW : ∀ b, TxtIO.Whole n z t.text { d with limits := none, lock := b } := fun b => whole_mono hw rfl rfl
  have early : ∀ (b : Bool) (x : Bytes), (d'.txtNew = none ∨ d'.txtNew = some t.txt → New n z t d') ∨
      d' ≠ staged { d with limits := none, lock := b } c (some x) t.idx t.pst := by
    intro b x
    by_cases e : d' = staged { d with limits := none, lock := b } c (some x) t.idx t.pst
    · left
      rw [e]
      rintro (h | h)
      · cases h
      · exact ⟨hW b, Or.inl h, Or.inl rfl, Or.inl rfl⟩
    · exact Or.inr e
  have fin : ∀ (b : Bool) (x : Bytes), d' = staged { d with limits := none, lock := b } c (some x) t.idx t.pst →
      (d'.store.limits = none ∧ (d'.txtLock = true ∨ d'.idxLock = true ∨
      d' = runStages (committing t.txt) (staged d c (some spilled) t.idx t.pst)) ∧
      (d'.txtNew = none ∨ d'.txtNew = some t.txt → New n z t d')) := by
    intro b x e
    refine ⟨by rw [e]; rfl, Or.inl (by rw [e]; rfl), ?_⟩
    rcases early b x with h | h
    · exact h
    · exact absurd e h
  unfold committing at hc
  rcases cut_cons hc with hp | hc
  · rcases part_sharp (by simp [Op.Sharp]) hp with rfl | e
    · exact Or.inl (held_of h _ _ _)
    · exact Or.inr (fin d.lock spilled e)
  right
  rcases cut_cons hc with hp | hc
  · rcases part_sharp (by simp [Op.Sharp]) hp with e | e
    · exact fin d.lock spilled e
    · exact fin false spilled e
  rcases cut_cons hc with hp | hc
  · rcases part_newTxt hp with e | ⟨k, e⟩
    · exact fin false spilled e
    · exact fin false (t.txt.take k) e
  have hnew : New n z t (staged { d with limits := none, lock := false } c (some t.txt) t.idx t.pst) :=
    ⟨hW false, Or.inl rfl, Or.inl rfl, Or.inl rfl⟩
  have hlate : New n z t d' :=
    New.cut (ops := [.publishTxt, .unlockTxt, .publishIdx, .publishPst, .unlockIdx]) (by simp [Op.Forward]) hnew hc
  refine ⟨?_, ?_, fun _ => hlate⟩
  · rcases cut_cons hc with hp | hc
    · rcases part_sharp (by simp [Op.Sharp]) hp with rfl | rfl <;> rfl
    rcases cut_cons hc with hp | hc
    · rcases part_sharp (by simp [Op.Sharp]) hp with rfl | rfl <;> rfl
    rcases cut_cons hc with hp | hc
    · rcases part_sharp (by simp [Op.Sharp]) hp with rfl | rfl <;> rfl
    rcases cut_cons hc with hp | hc
    · rcases part_sharp (by simp [Op.Sharp]) hp with rfl | rfl <;> rfl
    rcases cut_cons hc with hp | hc
    · rcases part_sharp (by simp [Op.Sharp]) hp with rfl | rfl <;> rfl
    rw [cut_nil hc]; rfl
  · rcases cut_cons hc with hp | hc
    · rcases part_sharp (by simp [Op.Sharp]) hp with rfl | rfl <;> exact Or.inl rfl
    rcases cut_cons hc with hp | hc
    · rcases part_sharp (by simp [Op.Sharp]) hp with rfl | rfl
      · exact Or.inl rfl
      · exact Or.inr (Or.inl rfl)
    rcases cut_cons hc with hp | hc
    · rcases part_sharp (by simp [Op.Sharp]) hp with rfl | rfl <;> exact Or.inr (Or.inl rfl)
    rcases cut_cons hc with hp | hc
    · rcases part_sharp (by simp [Op.Sharp]) hp with rfl | rfl <;> exact Or.inr (Or.inl rfl)
    rcases cut_cons hc with hp | hc
    · rcases part_sharp (by simp [Op.Sharp]) hp with rfl | rfl
      · exact Or.inr (Or.inl rfl)
      · exact Or.inr (Or.inr rfl)
    rw [cut_nil hc]
    exact Or.inr (Or.inr rfl)

theorem committing_run (d : Disk) (new : Option Bytes) (t : Contents) :
    runStages (committing t.txt) (staged d c new t.idx t.pst) =
      atRest { d with limits := none, lock := false } t := rfl

/-- Crashes while aborting, whatever was staged. -/
theorem aborting_cut {d : Disk} {log : List TxtIO.Op} (h : TxtIO.Kept n z c.text w d)
    (hm : ∀ o ∈ log, TxtIO.Mild w (TxtIO.count n c.text) o) (hw : TxtIO.Whole n z c.text (TxtIO.runAll log d))
    {txt : Bytes} {new i p : Option Bytes} {d' : Dir}
    (hc : Cut (aborting log txt) { inside d c new with idxNew := i, pstNew := p } d') :
    Old n z c d' ∧ (d'.txtLock = true ∨ d'.idxLock = true ∨
      d' = runStages (aborting log txt) { inside d c new with idxNew := i, pstNew := p }) := by
  have hk := (TxtIO.TornAll.whole log d).kept hm h
  have hW : ∀ b new, Old n z c
      { inside { TxtIO.runAll log d with limits := none, lock := b } c new with idxNew := i, pstNew := p } :=
    fun b new => ⟨Or.inl ⟨whole_mono hw rfl rfl, rfl⟩, rfl, rfl, rfl⟩
  unfold aborting at hc
  rcases cut_cons hc with hp | hc
  · obtain ⟨s, h1, rfl⟩ := part_text hp
    exact ⟨(held_of (h1.kept hm h) new i p).old, Or.inl rfl⟩
  rw [runAll_text] at hc
  have e1 : runStages (aborting log txt) { inside d c new with idxNew := i, pstNew := p } =
      atRest { TxtIO.runAll log d with limits := none, lock := false } c := by
    unfold aborting
    simp only [runStages, List.foldl_cons, List.foldl_nil, runAll_text]
    rfl
  rw [e1]
  rcases cut_cons hc with hp | hc
  · rcases part_sharp (by simp [Op.Sharp]) hp with rfl | rfl
    · exact ⟨(held_of hk new i p).old, Or.inl rfl⟩
    · exact ⟨hW _ new, Or.inl rfl⟩
  refine ⟨?_, ?_⟩
  · rcases cut_cons hc with hp | hc
    · rcases part_sharp (by simp [Op.Sharp]) hp with rfl | rfl
      · exact hW _ new
      · exact hW _ new
    · exact Old.cut (by simp [Op.Tame]) (hW _ new) hc
  · rcases cut_cons hc with hp | hc
    · rcases part_sharp (by simp [Op.Sharp]) hp with rfl | rfl <;> exact Or.inl rfl
    rcases cut_cons hc with hp | hc
    · rcases part_newTxt hp with rfl | ⟨k, rfl⟩ <;> exact Or.inl rfl
    rcases cut_cons hc with hp | hc
    · rcases part_sharp (by simp [Op.Sharp]) hp with rfl | rfl <;> exact Or.inl rfl
    rcases cut_cons hc with hp | hc
    · rcases part_sharp (by simp [Op.Sharp]) hp with rfl | rfl
      · exact Or.inl rfl
      · exact Or.inr (Or.inl rfl)
    rcases cut_cons hc with hp | hc
    · rcases part_sharp (by simp [Op.Sharp]) hp with rfl | rfl <;> exact Or.inr (Or.inl rfl)
    rcases cut_cons hc with hp | hc
    · rcases part_sharp (by simp [Op.Sharp]) hp with rfl | rfl <;> exact Or.inr (Or.inl rfl)
    rcases cut_cons hc with hp | hc
    · rcases part_sharp (by simp [Op.Sharp]) hp with rfl | rfl
      · exact Or.inr (Or.inl rfl)
      · exact Or.inr (Or.inr rfl)
    rw [cut_nil hc]
    exact Or.inr (Or.inr rfl)

theorem aborting_run (d : Disk) (log : List TxtIO.Op) (txt : Bytes) (new i p : Option Bytes) :
    runStages (aborting log txt) { inside d c new with idxNew := i, pstNew := p } =
      atRest { TxtIO.runAll log d with limits := none, lock := false } c := by
  unfold aborting
  simp only [runStages, List.foldl_cons, List.foldl_nil, runAll_text]
  rfl

end

theorem part_none : ∀ (ops : List Op) (d : Dir), Part ops d d := by
  intro ops
  induction ops with
  | nil => exact .nil
  | cons o os ih => intro d; exact .skip (ih d)

/-- A crash between two stages. -/
theorem cut_prefix : ∀ (A B : List (List Op)) (d : Dir), Cut (A ++ B) d (runStages A d) := by
  intro A
  induction A with
  | nil =>
    intro B d
    cases B with
    | nil => exact .done d
    | cons b B => exact .inside (part_none b d)
  | cons a A ih => intro B d; exact .next (ih B _)

/-- What `undo` does to the files after what was done already. -/
theorem undo_log (z : TxtIO.Codec) (late : Bool) (s : TxtIO.Store) :
    ∃ x, (TxtIO.undo false z late s).log = s.log ++ x := by
  have hall : ∀ (ops : List TxtIO.Op) (s : TxtIO.Store), (s.doAll ops).log = s.log ++ ops := by
    intro ops
    induction ops with
    | nil => intro s; simp [TxtIO.Store.doAll]
    | cons o os ih =>
      intro s
      have := ih (s.does o)
      simp only [TxtIO.Store.doAll, List.foldl_cons] at this ⊢
      rw [this]
      simp [TxtIO.Store.does]
  unfold TxtIO.undo
  simp only
  split
  · exact ⟨_, by simp only [TxtIO.Store.does, hall, List.append_assoc]; rfl⟩
  · exact ⟨_, hall _ _⟩

/-- What a session leaves. -/
theorem Session.under {n z pre j work s1 s} (hn : 0 < n) (hz : z.Restores n) (h : Session n z pre j work s1 s) :
    ∃ w, Under n z (textBefore pre) w s1.disk s.base ∧ TxtIO.Tx n z (textBefore pre) w s ∧
      s1.disk.lock = false ∧
      TxtIO.Good n z (textAfter pre j work) s ∧
      (z.Grows → TxtIO.Behind n z (textBefore pre) w s.pending) := by
  obtain ⟨s0, as, h0, h1⟩ := h.first
  obtain ⟨s0', e0, f0⟩ := TxtIO.make_whole hn hz (t := []) (d := {})
    ⟨by rw [TxtIO.count_nil hn]; rfl, fun i hi => by rw [TxtIO.count_nil hn] at hi; omega⟩ rfl rfl
  obtain rfl : s0' = s0 := by rw [e0] at h0; exact Option.some.inj h0
  obtain ⟨s1', e1, g1⟩ := TxtIO.run_spec hn hz f0.good h.careful
  obtain rfl : s1' = s1 := by rw [e1] at h1; exact (Prod.mk.inj (Option.some.inj h1)).1
  obtain ⟨as2, h2⟩ := h.began
  obtain ⟨s2, e2, g2⟩ := TxtIO.call_spec hn hz g1 (.transaction j) (by simp) (by simp)
  rw [TxtIO.run, e2] at h2
  simp only at h2
  cases h3 : TxtIO.run false n z s2 work with
  | none => rw [h3] at h2; cases h2
  | some r =>
    rw [h3] at h2
    cases h2
    obtain ⟨wb, wg, ws⟩ := work_base hn hz g2 h.only h3
    have hsv : ((TxtIO.Plain.run {} pre).1.call (.transaction j)).1.saved = some (textBefore pre, true) := by
      simp [TxtIO.Plain.call, h.free, h.flushed, textBefore]
    obtain ⟨-, w, tx, hbh⟩ := wg.tx (textBefore pre) true (by rw [ws, hsv])
    obtain ⟨l1, l2⟩ := g1.free h.free
    have hfl : s1'.flushed = true := by have := g1.dirty; rw [h.flushed] at this; simpa using this.symm
    have hw := TxtIO.holds_whole g1.holds.toCore (g1.holds.flush hfl) g1.limited
    have hb : ∃ k l, s2.base = { s1'.disk with lock := true, limits := some (k, l) } := by
      simp only [TxtIO.call, Option.map_eq_some_iff] at e2
      obtain ⟨⟨s2', b⟩, e2, e3⟩ := e2
      obtain ⟨rfl, -⟩ := Prod.mk.inj e3
      exact begin_base hn hz g1 h.free h.flushed e2
    rw [← wb] at hb
    exact ⟨w, ⟨hw, l1, hb, tx.kept⟩, tx, l2, wg, fun hg => hbh rfl hg⟩

end Verif.Crash
