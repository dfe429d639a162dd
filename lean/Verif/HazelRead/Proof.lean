import Verif.HazelRead.Model
/-
  The invariant of the shared postings of a static shard, and progress.
-/
namespace Verif.HazelRead

/-- what a posting will hold -/
def target (s : Shard) (x : Rec) : List Ann := if x.failed then bogus x.n else s.has x.feature

structure RecOk (s : Shard) (x : Rec) : Prop where
  dir : s.directory x.feature = some (.stored x.n)
  start : x.phase = .start → x.data = [] ∧ x.failed = false
  push : ∀ todo, x.phase = .pushing todo → x.data ++ todo = target s x
  done : x.phase = .done → x.data = target s x
  opened : x.opened = true ↔ x.phase = .done
  read : x.phase ≠ .start → x.failed = false → ∃ l, s.postings x.feature = some (x.feature, l) ∧ l.length = x.n

theorem RecOk.new {s : Shard} {f : Int} {n : Nat} (h : s.directory f = some (.stored n)) : RecOk s (Rec.new f n) := by
  refine ⟨h, fun _ => ⟨rfl, rfl⟩, fun _ e => ?_, fun e => ?_, ?_, fun e => absurd rfl e⟩
  · cases e
  · cases e
  · simp [Rec.new]

theorem goal_read {s : Shard} {f : Int} {n : Nat} {ok : Bool} (h : (goal s f n ok).2 = false) :
    ∃ l, s.postings f = some (f, l) ∧ l.length = n := by
  unfold goal at h
  cases ok with
  | false => simp at h
  | true =>
    cases e : s.postings f with
    | none => simp [e] at h
    | some x =>
      obtain ⟨g, l⟩ := x
      rw [e] at h
      simp only [] at h
      split at h
      · rename_i c
        exact ⟨l, by rw [c.1], c.2⟩
      · simp at h

theorem goal_ok {s : Shard} {f : Int} {n : Nat} (h : s.directory f = some (.stored n)) (ok : Bool) :
    (goal s f n ok).1 = if (goal s f n ok).2 then bogus n else s.has f := by
  unfold goal
  cases ok with
  | false => simp
  | true =>
    cases e : s.postings f with
    | none => simp
    | some x =>
      obtain ⟨g, l⟩ := x
      simp only []
      split
      · simp [Shard.has, h, e]
      · simp

/-- what does not change of a posting -/
structure Same (x y : Rec) : Prop where
  feature : y.feature = x.feature
  n : y.n = x.n
  /-- once read, it is known whether that failed -/
  failed : x.phase ≠ .start → y.failed = x.failed
  opened : x.opened = true → y.opened = true
  begun : y.phase ≠ .start

theorem rec_step {s : Shard} {x y : Rec} {ok : Bool} (h : RecOk s x) (e : x.step s ok = some y) : RecOk s y ∧ Same x y := by
  unfold Rec.step at e
  cases hp : x.phase with
  | start =>
    rw [hp] at e
    cases e
    have ho : x.opened = false := by
      cases hx : x.opened with
      | false => rfl
      | true => have := h.opened.1 hx; rw [hp] at this; cases this
    refine ⟨⟨h.dir, fun e => ?_, fun todo e => ?_, fun e => ?_, ?_, fun _ => goal_read⟩, ⟨rfl, rfl, fun g => absurd hp g, id, by simp⟩⟩
    · cases e
    · cases e
      show x.data ++ _ = _
      rw [(h.start hp).1, List.nil_append]
      exact goal_ok h.dir ok
    · cases e
    · simp [ho]
  | pushing todo =>
    rw [hp] at e
    have ho : x.opened = false := by
      cases hx : x.opened with
      | false => rfl
      | true => have := h.opened.1 hx; rw [hp] at this; cases this
    cases todo with
    | nil =>
      cases e
      refine ⟨⟨h.dir, fun e => ?_, fun todo e => ?_, fun e => ?_, ?_, fun _ => h.read (by rw [hp]; simp)⟩, ⟨rfl, rfl, fun _ => rfl, fun _ => rfl, by simp⟩⟩
      · cases e
      · cases e
      · have := h.push [] hp
        rw [List.append_nil] at this
        exact this
      · simp
    | cons a todo =>
      cases e
      refine ⟨⟨h.dir, fun e => ?_, fun todo' e => ?_, fun e => ?_, ?_, fun _ => h.read (by rw [hp]; simp)⟩, ⟨rfl, rfl, fun _ => rfl, id, by simp⟩⟩
      · cases e
      · cases e
        show (x.data ++ [a]) ++ todo = _
        rw [List.append_assoc]
        exact h.push _ hp
      · cases e
      · simp [ho]
  | done => rw [hp] at e; cases e

structure AskOk (s : Shard) (recs : List Rec) (a : Ask) : Prop where
  record : ∀ r, a.record = some r → ∃ x, recs[r]? = some x ∧ x.feature = a.feature ∧
    ∀ g, a.got = some g → x.opened = true ∧ g = .list (target s x)
  none : a.record = none → a.got = some (s.answer a.kind a.feature) ∧ ∀ n, s.directory a.feature ≠ some (.stored n)

structure Inv (s : Sys) : Prop where
  recs : ∀ x ∈ s.recs, RecOk s.shard x
  cache : ∀ f r, s.cache f = some r → ∃ x, s.recs[r]? = some x ∧ x.feature = f
  live : ∀ (r : Nat) x, s.recs[r]? = some x → s.cache x.feature = some r
  asks : ∀ a ∈ s.asks, AskOk s.shard s.recs a
  reads : ∀ f, s.reads.count f ≤ 1 ∧ (f ∈ s.reads → ∃ x ∈ s.recs, x.feature = f ∧ x.phase ≠ .start)

theorem Inv.new (shard : Shard) : Inv (Sys.new shard) := by
  constructor <;> simp [Sys.new]

theorem get_ok {s : Sys} (h : Inv s) {f : Int} {n : Nat} (hd : s.shard.directory f = some (.stored n)) :
    Inv (get s f n).2 ∧ (get s f n).2.asks = s.asks ∧ (get s f n).2.shard = s.shard ∧
      ∃ x, (get s f n).2.recs[(get s f n).1]? = some x ∧ x.feature = f := by
  unfold get
  cases hc : s.cache f with
  | some r => exact ⟨h, rfl, rfl, h.cache f r hc⟩
  | none =>
    simp only []
    have old : ∀ {r : Nat} {y : Rec}, s.recs[r]? = some y → (s.recs ++ [Rec.new f n])[r]? = some y := fun hy => by
      rw [List.getElem?_append_left (List.getElem?_eq_some_iff.1 hy).1]; exact hy
    have new : (s.recs ++ [Rec.new f n])[s.recs.length]? = some (Rec.new f n) := by simp
    refine ⟨⟨?_, ?_, ?_, ?_, ?_⟩, by trivial, by trivial, _, new, rfl⟩
    · intro y hy
      rcases List.mem_append.1 hy with hy | hy
      · exact h.recs y hy
      · rw [List.mem_singleton] at hy; subst hy; exact RecOk.new hd
    · intro g r hg
      simp only [] at hg
      split at hg
      · rename_i he
        cases hg
        exact ⟨_, new, he.symm⟩
      · obtain ⟨y, h1, h2⟩ := h.cache g r hg
        exact ⟨y, old h1, h2⟩
    · intro r y hy
      simp only [] at hy ⊢
      by_cases hr : r < s.recs.length
      · rw [List.getElem?_append_left hr] at hy
        have := h.live r y hy
        rw [if_neg (fun he => by rw [he, hc] at this; cases this)]
        exact this
      · have := (List.getElem?_eq_some_iff.1 hy).1
        rw [List.length_append] at this
        simp at this
        have e : r = s.recs.length := by omega
        subst e
        rw [new] at hy
        cases hy
        exact if_pos rfl
    · intro a ha
      have ok := h.asks a ha
      refine ⟨fun r hr => ?_, ok.none⟩
      obtain ⟨x, h1, h2⟩ := ok.record r hr
      exact ⟨x, old h1, h2⟩
    · intro g
      refine ⟨(h.reads g).1, fun hg => ?_⟩
      obtain ⟨x, h1, h2⟩ := (h.reads g).2 hg
      exact ⟨x, List.mem_append_left _ h1, h2⟩

theorem Inv.ask {s : Sys} (h : Inv s) (k : Kind) (f : Int) : Inv (ask s k f) := by
  unfold HazelRead.ask
  cases hd : s.shard.directory f with
  | none =>
    simp only []
    refine ⟨h.recs, h.cache, h.live, fun a ha => ?_, h.reads⟩
    rcases List.mem_append.1 ha with ha | ha
    · exact h.asks a ha
    · rw [List.mem_singleton] at ha
      subst ha
      refine ⟨(fun r hr => by cases hr), fun _ => ⟨?_, fun n hn => ?_⟩⟩
      · cases k <;> simp [Shard.answer, hd, Shard.has]
      · rw [show s.shard.directory f = _ from hn] at hd; cases hd
  | some kept =>
    cases kept with
    | single p =>
      simp only []
      refine ⟨h.recs, h.cache, h.live, fun a ha => ?_, h.reads⟩
      rcases List.mem_append.1 ha with ha | ha
      · exact h.asks a ha
      · rw [List.mem_singleton] at ha
        subst ha
        refine ⟨(fun r hr => by cases hr), fun _ => ⟨?_, fun n hn => ?_⟩⟩
        · cases k <;> simp [Shard.answer, hd, Shard.has]
        · rw [show s.shard.directory f = _ from hn] at hd; cases hd
    | stored n =>
      simp only []
      obtain ⟨g1, g2, g3, x, g4, g5⟩ := get_ok h hd
      refine ⟨g1.recs, g1.cache, g1.live, fun a ha => ?_, g1.reads⟩
      rcases List.mem_append.1 ha with ha | ha
      · exact g1.asks a (by rw [g2]; exact ha)
      · rw [List.mem_singleton] at ha
        subst ha
        refine ⟨fun r hr => ?_, fun e => by cases e⟩
        cases hr
        exact ⟨x, g4, g5, fun g hg => by cases hg⟩

theorem Inv.use {s s' : Sys} (h : Inv s) {k : Nat} (e : use s k = some s') : Inv s' := by
  unfold HazelRead.use at e
  split at e
  · cases e
  · rename_i a ha
    split at e
    · rename_i r hg hr
      split at e
      · cases e
      · rename_i x hx
        split at e
        · rename_i ho
          cases e
          refine ⟨h.recs, h.cache, h.live, fun b hb => ?_, h.reads⟩
          rcases List.mem_or_eq_of_mem_set hb with hb | rfl
          · exact h.asks b hb
          · have ok := h.asks a (List.mem_of_getElem? ha)
            obtain ⟨y, h1, h2, h3⟩ := ok.record r hr
            rw [hx] at h1
            cases h1
            refine ⟨fun r' hr' => ?_, fun hn => by rw [show a.record = none from hn] at hr; cases hr⟩
            have hr' : a.record = some r' := hr'
            rw [hr] at hr'
            cases hr'
            refine ⟨x, hx, h2, fun g hg => ⟨ho, ?_⟩⟩
            cases hg
            have okx := h.recs x (List.mem_of_getElem? hx)
            rw [okx.done (okx.opened.1 ho)]
        · cases e
    · cases e

theorem Inv.fill {s s' : Sys} (h : Inv s) {r : Nat} {ok : Bool} (e : fill s r ok = some s') : Inv s' := by
  unfold HazelRead.fill at e
  cases hx : s.recs[r]? with
  | none => rw [hx] at e; cases e
  | some x =>
    rw [hx] at e
    simp only [] at e
    cases hy : x.step s.shard ok with
    | none => rw [hy] at e; cases e
    | some y =>
      rw [hy] at e
      cases e
      have hmx := List.mem_of_getElem? hx
      obtain ⟨oky, same⟩ := rec_step (h.recs x hmx) hy
      have hlt := (List.getElem?_eq_some_iff.1 hx).1
      have new : (s.recs.set r y)[r]? = some y := by simp [hlt]
      refine ⟨?_, ?_, ?_, ?_, ?_⟩
      · intro z hz
        rcases List.mem_or_eq_of_mem_set hz with hz | rfl
        · exact h.recs z hz
        · exact oky
      · intro f k hk
        obtain ⟨a, h1, h2⟩ := h.cache f k hk
        by_cases e : r = k
        · subst e
          rw [hx] at h1
          cases h1
          exact ⟨y, new, by rw [same.feature, h2]⟩
        · exact ⟨a, by rw [List.getElem?_set_ne e]; exact h1, h2⟩
      · intro k b hb
        by_cases e : r = k
        · subst e
          rw [new] at hb
          cases hb
          rw [same.feature]
          exact h.live r x hx
        · rw [List.getElem?_set_ne e] at hb
          exact h.live k b hb
      · intro a ha
        have oka := h.asks a ha
        refine ⟨fun k hk => ?_, oka.none⟩
        obtain ⟨z, h1, h2, h3⟩ := oka.record k hk
        by_cases e : r = k
        · subst e
          rw [hx] at h1
          cases h1
          refine ⟨y, new, by rw [same.feature, h2], fun g hg => ?_⟩
          obtain ⟨h4, h5⟩ := h3 g hg
          have hd := (h.recs x hmx).opened.1 h4
          unfold Rec.step at hy
          rw [hd] at hy
          cases hy
        · exact ⟨z, by rw [List.getElem?_set_ne e]; exact h1, h2, h3⟩
      · intro f
        simp only []
        have keep : ∀ z ∈ s.recs, z.feature = f → z.phase ≠ .start → ∃ w ∈ s.recs.set r y, w.feature = f ∧ w.phase ≠ .start := by
          intro z hz z1 z2
          obtain ⟨k, hk⟩ := List.getElem?_of_mem hz
          by_cases e : r = k
          · subst e
            rw [hx] at hk
            cases hk
            exact ⟨y, List.mem_of_getElem? new, by rw [same.feature, z1], same.begun⟩
          · exact ⟨z, List.mem_of_getElem? (by rw [List.getElem?_set_ne e]; exact hk), z1, z2⟩
        by_cases hs : x.phase = .start
        · rw [if_pos hs]
          by_cases hf : f = x.feature
          · subst hf
            have none : x.feature ∉ s.reads := by
              intro hm
              obtain ⟨z, z1, z2, z3⟩ := (h.reads x.feature).2 hm
              obtain ⟨k, hk⟩ := List.getElem?_of_mem z1
              have a1 := h.live k z hk
              rw [z2, h.live r x hx] at a1
              cases a1
              rw [hx] at hk
              cases hk
              exact z3 hs
            refine ⟨?_, fun _ => ⟨y, List.mem_of_getElem? new, same.feature, same.begun⟩⟩
            rw [List.count_append, List.count_eq_zero_of_not_mem none]
            simp
          · refine ⟨?_, fun hm => ?_⟩
            · rw [List.count_append, List.count_eq_zero_of_not_mem (l := [x.feature]) (by simpa using hf)]
              exact (h.reads f).1
            · rcases List.mem_append.1 hm with hm | hm
              · obtain ⟨z, z1, z2, z3⟩ := (h.reads f).2 hm
                exact keep z z1 z2 z3
              · exact absurd (List.mem_singleton.1 hm) hf
        · rw [if_neg hs]
          refine ⟨(h.reads f).1, fun hm => ?_⟩
          obtain ⟨z, z1, z2, z3⟩ := (h.reads f).2 hm
          exact keep z z1 z2 z3

theorem Inv.step {s s' : Sys} (h : Inv s) {a : Act} (e : step s a = some s') : Inv s' := by
  cases a with
  | ask k f => cases e; exact h.ask k f
  | use k => exact h.use e
  | fill r ok => exact h.fill e

theorem Runs.inv {s s' : Sys} {l : List Act} (r : Runs s l s') (h : Inv s) : Inv s' := by
  induction r with
  | nil => exact h
  | snoc _ e ih => exact ih.step e

theorem Runs.append {s s' s'' : Sys} {l l' : List Act} (h : Runs s l s') (h' : Runs s' l' s'') : Runs s (l ++ l') s'' := by
  induction h' with
  | nil => rw [List.append_nil]; exact h
  | snoc _ e ih => rw [← List.append_assoc]; exact .snoc ih e

/-! ### history -/

/-- the calls of a history -/
def asked : List Act → List (Kind × Int)
  | [] => []
  | .ask k f :: l => (k, f) :: asked l
  | _ :: l => asked l

theorem asked_append (l l' : List Act) : asked (l ++ l') = asked l ++ asked l' := by
  induction l with
  | nil => rfl
  | cons a l ih => cases a <;> simp [asked, ih]

theorem get_asks (s : Sys) (f : Int) (n : Nat) : (get s f n).2.asks = s.asks ∧ (get s f n).2.shard = s.shard ∧ (get s f n).2.reads = s.reads := by
  unfold get
  cases s.cache f <;> exact ⟨rfl, rfl, rfl⟩

theorem step_asks {s s' : Sys} {a : Act} (e : step s a = some s') :
    s'.shard = s.shard ∧ s'.asks.map (fun x => (x.kind, x.feature)) = s.asks.map (fun x => (x.kind, x.feature)) ++ asked [a] := by
  cases a with
  | ask k f =>
    cases e
    unfold ask
    cases s.shard.directory f with
    | none => simp [asked]
    | some kept =>
      cases kept with
      | single p => simp [asked]
      | stored n => simp [asked, (get_asks s f n).2.1]
  | use k =>
    simp only [HazelRead.step, use] at e
    split at e
    · cases e
    · rename_i a ha
      split at e
      · split at e
        · cases e
        · split at e
          · cases e
            refine ⟨rfl, ?_⟩
            simp only [asked, List.append_nil]
            rw [List.map_set]
            apply List.ext_getElem?
            intro i
            by_cases hi : k = i
            · subst hi
              have hlt := (List.getElem?_eq_some_iff.1 ha).1
              simp [hlt, ha]
              have := List.getElem?_eq_some_iff.1 ha
              simp [this.2]
            · rw [List.getElem?_set_ne hi]
          · cases e
      · cases e
  | fill r ok =>
    simp only [HazelRead.step, fill] at e
    split at e
    · cases e
    · split at e
      · cases e
      · cases e
        exact ⟨rfl, by simp [asked]⟩

theorem runs_asks {shard : Shard} {l : List Act} {s : Sys} (r : Runs (Sys.new shard) l s) :
    s.shard = shard ∧ s.asks.map (fun x => (x.kind, x.feature)) = asked l := by
  generalize hs : Sys.new shard = s0 at r
  induction r with
  | nil => subst hs; exact ⟨rfl, rfl⟩
  | snoc _ e ih =>
    obtain ⟨h1, h2⟩ := step_asks e
    obtain ⟨h3, h4⟩ := ih
    exact ⟨by rw [h1, h3], by rw [h2, h4, asked_append]⟩

/-- no reading fails -/
def Smooth (l : List Act) : Prop := ∀ r, .fill r false ∉ l

theorem runs_smooth {shard : Shard} (hs : shard.Sound) {l : List Act} {s : Sys} (r : Runs (Sys.new shard) l s) (hl : Smooth l) :
    ∀ x ∈ s.recs, x.failed = false := by
  generalize h0 : Sys.new shard = s0 at r
  induction r with
  | nil => subst h0; simp [Sys.new]
  | @snoc s2 s3 l a run e ih =>
    have ih := ih (fun r hr => hl r (List.mem_append_left _ hr))
    subst h0
    have inv := run.inv (Inv.new shard)
    have hsh := (runs_asks run).1
    cases a with
    | ask k f =>
      cases e
      unfold ask
      cases hd : s2.shard.directory f with
      | none => exact ih
      | some kept =>
        cases kept with
        | single p => exact ih
        | stored n =>
          simp only []
          unfold get
          cases s2.cache f with
          | some r => exact ih
          | none =>
            intro x hx
            rcases List.mem_append.1 hx with hx | hx
            · exact ih x hx
            · rw [List.mem_singleton.1 hx]; rfl
    | use k =>
      simp only [HazelRead.step, use] at e
      split at e
      · cases e
      · split at e
        · split at e
          · cases e
          · split at e
            · cases e; exact ih
            · cases e
        · cases e
    | fill r ok =>
      simp only [HazelRead.step, fill] at e
      split at e
      · cases e
      · rename_i x hx
        split at e
        · cases e
        · rename_i y hy
          cases e
          intro z hz
          rcases List.mem_or_eq_of_mem_set hz with hz | rfl
          · exact ih z hz
          · have okx := inv.recs x (List.mem_of_getElem? hx)
            by_cases hp : x.phase = .start
            · unfold Rec.step at hy
              rw [hp] at hy
              cases hy
              show (goal s2.shard x.feature x.n ok).2 = false
              cases ok with
              | false => exact absurd (List.mem_append_right _ (List.mem_singleton.2 rfl)) (hl r)
              | true =>
                rw [hsh] at okx ⊢
                obtain ⟨l, h1, h2⟩ := hs _ _ okx.dir
                simp [goal, h1, h2]
            · rw [(rec_step okx hy).2.failed hp]
              exact ih x (List.mem_of_getElem? hx)

/-! ### progress -/

theorem push_open (ok : Bool) {r : Nat} : ∀ (todo : List Ann) {s : Sys} {x : Rec}, s.recs[r]? = some x → x.phase = .pushing todo →
    ∃ s', Runs s (List.replicate (todo.length + 1) (.fill r ok)) s' ∧ s'.asks = s.asks ∧
      ∃ y, s'.recs[r]? = some y ∧ y.opened = true := by
  intro todo
  induction todo with
  | nil =>
    intro s x hx hp
    have hlt := (List.getElem?_eq_some_iff.1 hx).1
    have e : step s (.fill r ok) = some { s with recs := s.recs.set r { x with opened := true, phase := .done } } := by
      simp only [step, fill, hx, Rec.step, hp]
      simp
    exact ⟨_, Runs.snoc (l := []) (.nil s) e, rfl, { x with opened := true, phase := .done }, by simp [hlt], rfl⟩
  | cons a todo ih =>
    intro s x hx hp
    have hlt := (List.getElem?_eq_some_iff.1 hx).1
    have e : step s (.fill r ok) = some { s with recs := s.recs.set r { x with data := x.data ++ [a], phase := .pushing todo } } := by
      simp only [step, fill, hx, Rec.step, hp]
      simp
    obtain ⟨s', h1, h2, h3⟩ := ih (s := { s with recs := s.recs.set r { x with data := x.data ++ [a], phase := .pushing todo } })
      (x := { x with data := x.data ++ [a], phase := .pushing todo }) (by simp [hlt]) rfl
    exact ⟨s', Runs.append (Runs.snoc (l := []) (.nil s) e) h1, h2, h3⟩

/-- by its own thread alone a posting is filled -/
theorem can_open {s : Sys} (h : Inv s) (ok : Bool) {r : Nat} {x : Rec} (hx : s.recs[r]? = some x) :
    ∃ n s', Runs s (List.replicate n (.fill r ok)) s' ∧ s'.asks = s.asks ∧ ∃ y, s'.recs[r]? = some y ∧ y.opened = true := by
  cases hp : x.phase with
  | done => exact ⟨0, s, .nil s, rfl, x, hx, (h.recs x (List.mem_of_getElem? hx)).opened.2 hp⟩
  | pushing todo =>
    obtain ⟨s', h1, h2⟩ := push_open ok todo hx hp
    exact ⟨_, s', h1, h2⟩
  | start =>
    have hlt := (List.getElem?_eq_some_iff.1 hx).1
    obtain ⟨s1, e, h1, h2⟩ : ∃ s1, step s (.fill r ok) = some s1 ∧ s1.asks = s.asks ∧
        ∃ y, s1.recs[r]? = some y ∧ y.phase = .pushing (goal s.shard x.feature x.n ok).1 := by
      exact ⟨{ s with
          recs := s.recs.set r { x with phase := .pushing (goal s.shard x.feature x.n ok).1, failed := (goal s.shard x.feature x.n ok).2 }
          reads := s.reads ++ [x.feature] }, by simp only [step, fill, hx, Rec.step, hp]; simp, rfl,
        { x with phase := .pushing (goal s.shard x.feature x.n ok).1, failed := (goal s.shard x.feature x.n ok).2 }, by simp [hlt], rfl⟩
    obtain ⟨y, hy1, hy2⟩ := h2
    obtain ⟨s', h3, h4, h5⟩ := push_open ok _ hy1 hy2
    exact ⟨(goal s.shard x.feature x.n ok).1.length + 2, s', Runs.append (Runs.snoc (l := []) (.nil s) e) h3, h4.trans h1, h5⟩

end Verif.HazelRead
