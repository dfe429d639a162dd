import Verif.Cache.Model
/-
  The invariant of the cache, and progress.
-/
namespace Verif.Cache

/-- what an answer should be -/
def view : Option Posting → Ans
  | none => .empty
  | some x => if x.ps = [] then .empty else .posting x

def Main.rank : Main → Nat
  | .start => 0 | .starts => 1 | .joinQ => 2 | .joinF => 3 | .release => 4 | .done => 5

structure RecOk (r : Rec) : Prop where
  n : r.n = r.goal.ps.length
  idle : r.main.rank = 0 → r.runQ = false ∧ r.runF = false
  q : 0 < r.main.rank → r.runQ = true ∨ r.q = r.goal.qs.map .full
  f : 0 < r.main.rank → r.runF = true ∨ r.f = r.goal.fs.map .full
  p : 2 ≤ r.main.rank → r.p = .full r.goal.ps
  qdone : 3 ≤ r.main.rank → r.runQ = false
  fdone : 4 ≤ r.main.rank → r.runF = false
  opened : r.opened = true ↔ r.main.rank = 5

theorem RecOk.new (f : Int) (b : Nat) (x : Posting) : RecOk (Rec.new f b x) := by
  constructor <;> simp [Rec.new, Main.rank]

theorem RecOk.read {r : Rec} (h : RecOk r) (ho : r.opened = true) : r.read = .posting r.goal := by
  have h5 := h.opened.1 ho
  have hp := h.p (by omega)
  have hq : r.q = r.goal.qs.map .full := (h.q (by omega)).resolve_left (by rw [h.qdone (by omega)]; simp)
  have hf : r.f = r.goal.fs.map .full := (h.f (by omega)).resolve_left (by rw [h.fdone (by omega)]; simp)
  unfold Rec.read
  rw [hp, hq, hf]
  cases hg : r.goal with
  | mk ps qs fs => cases qs <;> cases fs <;> rfl

/-- the same record, otherwise -/
structure Same (r r' : Rec) : Prop where
  feature : r'.feature = r.feature
  born : r'.born = r.born
  goal : r'.goal = r.goal
  n : r'.n = r.n
  opened : r.opened = true → r'.opened = true

theorem rec_step {r r' : Rec} (h : RecOk r) (e : r.step = some r') : RecOk r' ∧ Same r r' := by
  unfold Rec.step at e
  cases hm : r.main with
  | start =>
    rw [hm] at e
    cases e
    have ho : r.opened = false := by
      cases hx : r.opened with
      | false => rfl
      | true => have := h.opened.1 hx; rw [hm] at this; simp [Main.rank] at this
    refine ⟨⟨h.n, fun hx => by simp [Main.rank] at hx, fun _ => ?_, fun _ => ?_, ?_, ?_, ?_, ?_⟩, ⟨rfl, rfl, rfl, rfl, id⟩⟩
    · cases hq : r.goal.qs <;> simp
    · cases hq : r.goal.fs <;> simp
    · intro hx; simp [Main.rank] at hx
    · intro hx; simp [Main.rank] at hx
    · intro hx; simp [Main.rank] at hx
    · simp [ho, Main.rank]
  | starts =>
    rw [hm] at e
    cases e
    have ho : r.opened = false := by
      cases hx : r.opened with
      | false => rfl
      | true => have := h.opened.1 hx; rw [hm] at this; simp [Main.rank] at this
    refine ⟨⟨h.n, fun hx => by simp [Main.rank] at hx, fun _ => h.q (by rw [hm]; simp [Main.rank]),
      fun _ => h.f (by rw [hm]; simp [Main.rank]), fun _ => rfl, ?_, ?_, ?_⟩, ⟨rfl, rfl, rfl, rfl, id⟩⟩
    · intro hx; simp [Main.rank] at hx
    · intro hx; simp [Main.rank] at hx
    · simp [ho, Main.rank]
  | joinQ =>
    rw [hm] at e
    simp only [] at e
    split at e
    · cases e
    · rename_i hq
      cases e
      have ho : r.opened = false := by
        cases hx : r.opened with
        | false => rfl
        | true => have := h.opened.1 hx; rw [hm] at this; simp [Main.rank] at this
      refine ⟨⟨h.n, fun hx => by simp [Main.rank] at hx, fun _ => h.q (by rw [hm]; simp [Main.rank]),
        fun _ => h.f (by rw [hm]; simp [Main.rank]), fun _ => h.p (by rw [hm]; simp [Main.rank]), fun _ => by simpa using hq, ?_, ?_⟩,
        ⟨rfl, rfl, rfl, rfl, id⟩⟩
      · intro hx; simp [Main.rank] at hx
      · simp [ho, Main.rank]
  | joinF =>
    rw [hm] at e
    simp only [] at e
    split at e
    · cases e
    · rename_i hq
      cases e
      have ho : r.opened = false := by
        cases hx : r.opened with
        | false => rfl
        | true => have := h.opened.1 hx; rw [hm] at this; simp [Main.rank] at this
      refine ⟨⟨h.n, fun hx => by simp [Main.rank] at hx, fun _ => h.q (by rw [hm]; simp [Main.rank]),
        fun _ => h.f (by rw [hm]; simp [Main.rank]), fun _ => h.p (by rw [hm]; simp [Main.rank]),
        fun _ => h.qdone (by rw [hm]; simp [Main.rank]), fun _ => by simpa using hq, ?_⟩, ⟨rfl, rfl, rfl, rfl, id⟩⟩
      simp [ho, Main.rank]
  | release =>
    rw [hm] at e
    cases e
    refine ⟨⟨h.n, fun hx => by simp [Main.rank] at hx, fun _ => h.q (by rw [hm]; simp [Main.rank]),
      fun _ => h.f (by rw [hm]; simp [Main.rank]), fun _ => h.p (by rw [hm]; simp [Main.rank]),
      fun _ => h.qdone (by rw [hm]; simp [Main.rank]), fun _ => h.fdone (by rw [hm]; simp [Main.rank]), ?_⟩,
      ⟨rfl, rfl, rfl, rfl, fun _ => rfl⟩⟩
    simp [Main.rank]
  | done => rw [hm] at e; cases e

theorem rec_stepQ {r r' : Rec} (h : RecOk r) (e : r.stepQ = some r') : RecOk r' ∧ Same r r' := by
  unfold Rec.stepQ at e
  split at e
  · rename_i hq
    cases e
    refine ⟨⟨h.n, fun hx => ⟨rfl, (h.idle hx).2⟩, fun _ => Or.inr rfl, h.f, h.p, fun _ => rfl, h.fdone, h.opened⟩, ⟨rfl, rfl, rfl, rfl, id⟩⟩
  · cases e

theorem rec_stepF {r r' : Rec} (h : RecOk r) (e : r.stepF = some r') : RecOk r' ∧ Same r r' := by
  unfold Rec.stepF at e
  split at e
  · rename_i hq
    cases e
    refine ⟨⟨h.n, fun hx => ⟨(h.idle hx).1, rfl⟩, h.q, fun _ => Or.inr rfl, h.p, h.qdone, fun _ => rfl, h.opened⟩, ⟨rfl, rfl, rfl, rfl, id⟩⟩
  · cases e

/-! ### the system -/

structure AskOk (recs : List Rec) (a : Ask) : Prop where
  record : ∀ r, a.record = some r → ∃ x, recs[r]? = some x ∧ a.seen a.feature = some x.goal ∧ (x.goal.ps = [] → a.got.isSome)
  none : a.record = none → a.got.isSome
  got : ∀ x, a.got = some x → x = view (a.seen a.feature)

structure Inv (s : Sys) : Prop where
  recs : ∀ x ∈ s.recs, RecOk x
  born : ∀ x ∈ s.recs, x.born ≤ s.resets
  cache : ∀ f r, s.cache f = some r → ∃ x, s.recs[r]? = some x ∧ x.feature = f ∧ s.file f = some x.goal
  /-- what was made since the last reset is in the cache -/
  live : ∀ (r : Nat) x, s.recs[r]? = some x → x.born = s.resets → s.cache x.feature = some r
  once : ∀ (i j : Nat) x y, s.recs[i]? = some x → s.recs[j]? = some y → x.feature = y.feature → x.born = y.born → i = j
  counts : ∀ f n, s.counts f = some n → ∃ x, s.file f = some x ∧ n = x.ps.length
  asks : ∀ a ∈ s.asks, AskOk s.recs a
  counted : ∀ c ∈ s.counted, c.answer = (match c.seen c.feature with | none => 0 | some x => x.ps.length)

theorem Inv.new (file : File) : Inv (Sys.new file) := by
  constructor <;> simp [Sys.new]

theorem AskOk.mono {l l' : List Rec} {a : Ask} (h : AskOk l a) (hl : ∀ (r : Nat) x, l[r]? = some x → ∃ y, l'[r]? = some y ∧ y.goal = x.goal) :
    AskOk l' a := by
  refine ⟨fun r hr => ?_, h.none, h.got⟩
  obtain ⟨x, h1, h2, h3⟩ := h.record r hr
  obtain ⟨y, h4, h5⟩ := hl r x h1
  exact ⟨y, h4, by rw [h5]; exact h2, by rw [h5]; exact h3⟩

theorem Inv.load {s : Sys} (h : Inv s) (f : Int) : Inv (load s f).2 ∧ (load s f).2.asks = s.asks ∧ (load s f).2.file = s.file ∧
    (∀ r, (load s f).1 = some r → ∃ x, (load s f).2.recs[r]? = some x ∧ s.file f = some x.goal) ∧
    ((load s f).1 = none → s.file f = none) := by
  unfold Cache.load
  cases hc : s.cache f with
  | some r =>
    simp only []
    refine ⟨h, by trivial, by trivial, fun r' hr => ?_, fun hx => (by cases hx)⟩
    cases hr
    obtain ⟨x, h1, h2, h3⟩ := h.cache f r hc
    exact ⟨x, h1, h3⟩
  | none =>
    simp only []
    cases hf : s.file f with
    | none => exact ⟨h, by trivial, by trivial, fun r' hr => (by cases hr), fun _ => by trivial⟩
    | some x =>
      simp only []
      have hlt : ∀ {r : Nat} {y : Rec}, s.recs[r]? = some y → r < s.recs.length := fun hy => (List.getElem?_eq_some_iff.1 hy).1
      have old : ∀ {r : Nat} {y : Rec}, s.recs[r]? = some y → (s.recs ++ [Rec.new f s.resets x])[r]? = some y := fun hy => by
        rw [List.getElem?_append_left (hlt hy)]; exact hy
      have new : (s.recs ++ [Rec.new f s.resets x])[s.recs.length]? = some (Rec.new f s.resets x) := by simp
      have split : ∀ {r : Nat} {y : Rec}, (s.recs ++ [Rec.new f s.resets x])[r]? = some y →
          s.recs[r]? = some y ∨ r = s.recs.length ∧ y = Rec.new f s.resets x := by
        intro r y hy
        by_cases hr : r < s.recs.length
        · rw [List.getElem?_append_left hr] at hy; exact Or.inl hy
        · have := (List.getElem?_eq_some_iff.1 hy).1
          rw [List.length_append] at this
          simp at this
          have e : r = s.recs.length := by omega
          subst e
          rw [new] at hy
          exact Or.inr ⟨rfl, (Option.some.inj hy).symm⟩
      have fresh : ∀ {r : Nat} {y : Rec}, s.recs[r]? = some y → y.feature = f → y.born = s.resets → False := by
        intro r y hy hf' hb
        have := h.live r y hy hb
        rw [hf', hc] at this
        cases this
      refine ⟨⟨?_, ?_, ?_, ?_, ?_, h.counts, ?_, h.counted⟩, by trivial, by trivial, ?_, fun hx => (by cases hx)⟩
      · intro y hy
        rcases List.mem_append.1 hy with hy | hy
        · exact h.recs y hy
        · rw [List.mem_singleton] at hy; subst hy; exact RecOk.new ..
      · intro y hy
        rcases List.mem_append.1 hy with hy | hy
        · exact h.born y hy
        · rw [List.mem_singleton] at hy; subst hy; exact Nat.le_refl _
      · intro g r hg
        simp only [] at hg
        split at hg
        · rename_i he
          cases hg
          subst he
          exact ⟨_, new, rfl, hf⟩
        · obtain ⟨y, h1, h2, h3⟩ := h.cache g r hg
          exact ⟨y, old h1, h2, h3⟩
      · intro r y hy hb
        simp only []
        rcases split hy with hy | ⟨rfl, rfl⟩
        · rw [if_neg (fun he => fresh hy he hb)]
          exact h.live r y hy hb
        · exact if_pos rfl
      · intro i j a b ha hb hab hbb
        rcases split ha with ha | ⟨rfl, rfl⟩ <;> rcases split hb with hb | ⟨rfl, rfl⟩
        · exact h.once i j a b ha hb hab hbb
        · exact (fresh ha hab hbb).elim
        · exact (fresh hb hab.symm hbb.symm).elim
        · rfl
      · intro a ha
        exact (h.asks a ha).mono fun r y hy => ⟨y, old hy, rfl⟩
      · intro r hr
        cases hr
        exact ⟨_, new, rfl⟩

theorem Inv.ask {s : Sys} (h : Inv s) (f : Int) : Inv (ask s f) := by
  obtain ⟨h1, h2, h3, h4, h5⟩ := h.load f
  unfold Cache.ask
  simp only []
  refine ⟨h1.recs, h1.born, h1.cache, h1.live, h1.once, h1.counts, fun a ha => ?_, h1.counted⟩
  rcases List.mem_append.1 ha with ha | ha
  · exact h1.asks a (by rw [h2]; exact ha)
  · rw [List.mem_singleton] at ha
    subst ha
    cases hl : (Cache.load s f).1 with
    | none =>
      refine ⟨fun r hr => (by cases hr), fun _ => rfl, fun x hx => ?_⟩
      cases hx
      show Ans.empty = view (s.file f)
      rw [h5 hl]
      rfl
    | some r =>
      obtain ⟨x, hx, hg⟩ := h4 r hl
      have hn := (h1.recs x (List.mem_of_getElem? hx)).n
      simp only [hx]
      refine ⟨fun r' hr => ?_, fun hr => (by cases hr), fun y hy => ?_⟩
      · cases hr
        refine ⟨x, hx, hg, fun he => ?_⟩
        have : (x.n == 0) = true := by rw [hn, he]; rfl
        simp [this]
      · simp only [] at hy
        split at hy
        · rename_i he
          cases hy
          show Ans.empty = view (s.file f)
          rw [hg]
          have : x.goal.ps = [] := by
            have : x.n = 0 := by simpa using he
            rw [hn] at this
            exact List.length_eq_zero_iff.1 this
          simp [view, this]
        · cases hy

theorem Inv.onRec {s s' : Sys} (h : Inv s) {r : Nat} {g : Rec → Option Rec}
    (hg : ∀ x y, RecOk x → g x = some y → RecOk y ∧ Same x y) (e : s.onRec r g = some s') : Inv s' := by
  unfold Sys.onRec at e
  cases hx : s.recs[r]? with
  | none => rw [hx] at e; cases e
  | some x =>
    rw [hx] at e
    simp only [] at e
    cases hy : g x with
    | none => rw [hy] at e; cases e
    | some y =>
      rw [hy] at e
      cases e
      obtain ⟨ok, same⟩ := hg x y (h.recs x (List.mem_of_getElem? hx)) hy
      have hlt := (List.getElem?_eq_some_iff.1 hx).1
      have new : (s.recs.set r y)[r]? = some y := by simp [hlt]
      have fwd : ∀ {k : Nat} {a : Rec}, s.recs[k]? = some a → ∃ b, (s.recs.set r y)[k]? = some b ∧ b.feature = a.feature ∧ b.born = a.born ∧ b.goal = a.goal := by
        intro k a ha
        by_cases hk : r = k
        · subst hk
          rw [hx] at ha
          cases ha
          exact ⟨y, new, same.feature, same.born, same.goal⟩
        · exact ⟨a, by rw [List.getElem?_set_ne hk]; exact ha, rfl, rfl, rfl⟩
      have back : ∀ {k : Nat} {b : Rec}, (s.recs.set r y)[k]? = some b → ∃ a, s.recs[k]? = some a ∧ b.feature = a.feature ∧ b.born = a.born ∧ b.goal = a.goal := by
        intro k b hb
        by_cases hk : r = k
        · subst hk
          rw [new] at hb
          cases hb
          exact ⟨x, hx, same.feature, same.born, same.goal⟩
        · rw [List.getElem?_set_ne hk] at hb
          exact ⟨b, hb, rfl, rfl, rfl⟩
      refine ⟨?_, ?_, ?_, ?_, ?_, h.counts, ?_, h.counted⟩
      · intro z hz
        rcases List.mem_or_eq_of_mem_set hz with hz | rfl
        · exact h.recs z hz
        · exact ok
      · intro z hz
        rcases List.mem_or_eq_of_mem_set hz with hz | rfl
        · exact h.born z hz
        · rw [same.born]; exact h.born x (List.mem_of_getElem? hx)
      · intro f k hk
        obtain ⟨a, h1, h2, h3⟩ := h.cache f k hk
        obtain ⟨b, h4, h5, h6, h7⟩ := fwd h1
        exact ⟨b, h4, by rw [h5, h2], by rw [h7]; exact h3⟩
      · intro k b hb hborn
        obtain ⟨a, h1, h2, h3, h4⟩ := back hb
        rw [h2]
        exact h.live k a h1 (by rw [← h3]; exact hborn)
      · intro i j a b ha hb hf hbn
        obtain ⟨a', a1, a2, a3, -⟩ := back ha
        obtain ⟨b', b1, b2, b3, -⟩ := back hb
        exact h.once i j a' b' a1 b1 (by rw [← a2, ← b2]; exact hf) (by rw [← a3, ← b3]; exact hbn)
      · intro a ha
        exact (h.asks a ha).mono fun k z hz => by
          obtain ⟨b, h1, -, -, h4⟩ := fwd hz
          exact ⟨b, h1, h4⟩

theorem Inv.count {s : Sys} (h : Inv s) (f : Int) : Inv (count s f).2 ∧ (count s f).2.counted = s.counted ∧
    (count s f).1 = (match s.file f with | none => 0 | some x => x.ps.length) := by
  have put : ∀ n, (∃ x, s.file f = some x ∧ n = x.ps.length) → Inv { s with counts := fun g => if g = f then some n else s.counts g } := by
    intro n hn
    refine ⟨h.recs, h.born, h.cache, h.live, h.once, fun g m hm => ?_, h.asks, h.counted⟩
    simp only [] at hm
    split at hm
    · rename_i he
      cases hm
      subst he
      exact hn
    · exact h.counts g m hm
  unfold Cache.count
  cases hc : s.counts f with
  | some n =>
    obtain ⟨x, h1, h2⟩ := h.counts f n hc
    refine ⟨h, rfl, ?_⟩
    rw [h1]
    exact h2
  | none =>
    simp only []
    cases hr : s.cache f with
    | some r =>
      obtain ⟨x, h1, h2, h3⟩ := h.cache f r hr
      simp only [h1]
      have hn := (h.recs x (List.mem_of_getElem? h1)).n
      refine ⟨put _ ⟨_, h3, hn⟩, by trivial, ?_⟩
      rw [h3]
      exact hn
    | none =>
      simp only []
      cases hf : s.file f with
      | none => exact ⟨h, rfl, rfl⟩
      | some x => exact ⟨put _ ⟨x, hf, rfl⟩, by trivial, by trivial⟩

theorem Inv.bind {s : Sys} (h : Inv s) {k : Nat} {a : Ask} {r : Nat} {x : Rec} (ha : s.asks[k]? = some a) (hg : a.got = none)
    (hr : a.record = some r) (hx : s.recs[r]? = some x) (ho : x.opened = true) :
    Inv { s with asks := s.asks.set k { a with got := some x.read } } := by
  refine ⟨h.recs, h.born, h.cache, h.live, h.once, h.counts, fun b hb => ?_, h.counted⟩
  rcases List.mem_or_eq_of_mem_set hb with hb | rfl
  · exact h.asks b hb
  · have ok := h.asks a (List.mem_of_getElem? ha)
    obtain ⟨y, h1, h2, h3⟩ := ok.record r hr
    rw [hx] at h1
    cases h1
    refine ⟨fun r' hr' => ?_, fun _ => rfl, fun z hz => ?_⟩
    · rw [hr] at hr'
      cases hr'
      exact ⟨x, hx, h2, fun _ => rfl⟩
    · cases hz
      rw [(h.recs x (List.mem_of_getElem? hx)).read ho]
      show Ans.posting x.goal = view (a.seen a.feature)
      rw [h2]
      have : x.goal.ps ≠ [] := fun he => by
        have := h3 he
        rw [hg] at this
        cases this
      simp [view, this]

theorem Inv.reset {s : Sys} (h : Inv s) (file : File) : Inv (reset s file) := by
  refine ⟨h.recs, fun x hx => Nat.le_succ_of_le (h.born x hx), (fun f r hr => by cases hr), fun r x hx hb => ?_, h.once,
    (fun f n hn => by cases hn), h.asks, h.counted⟩
  have := h.born x (List.mem_of_getElem? hx)
  have hb : x.born = s.resets + 1 := hb
  omega

theorem Inv.step {s s' : Sys} (h : Inv s) {a : Act} (e : step s a = some s') : Inv s' := by
  cases a with
  | ask f => cases e; exact h.ask f
  | bind k =>
    simp only [Cache.step] at e
    split at e
    · cases e
    · rename_i a ha
      split at e
      · rename_i r hg hr
        split at e
        · cases e
        · rename_i x hx
          split at e
          · rename_i ho
            cases e
            exact h.bind ha hg hr hx ho
          · cases e
      · cases e
  | count f =>
    cases e
    obtain ⟨h1, h2, h3⟩ := h.count f
    refine ⟨h1.recs, h1.born, h1.cache, h1.live, h1.once, h1.counts, h1.asks, fun c hc => ?_⟩
    rcases List.mem_append.1 hc with hc | hc
    · exact h.counted c hc
    · rw [List.mem_singleton] at hc
      subst hc
      exact h3
  | fill r => exact h.onRec (fun x y hx hy => rec_step hx hy) e
  | fillQ r => exact h.onRec (fun x y hx hy => rec_stepQ hx hy) e
  | fillF r => exact h.onRec (fun x y hx hy => rec_stepF hx hy) e
  | reset file => cases e; exact h.reset file

theorem Runs.inv {s s' : Sys} {l : List Act} (r : Runs s l s') (h : Inv s) : Inv s' := by
  induction r with
  | nil => exact h
  | snoc _ e ih => exact ih.step e

/-! ### progress -/

def Rec.left (r : Rec) : Nat := 3 * (5 - r.main.rank) + (if r.runQ then 1 else 0) + (if r.runF then 1 else 0)

/-- a record that is not open can be brought on by one of its own threads -/
theorem rec_progress {r : Rec} (h : RecOk r) (ho : r.opened = false) :
    (∃ r', r.step = some r' ∧ r'.left < r.left) ∨ (∃ r', r.stepQ = some r' ∧ r'.left < r.left) ∨
    (∃ r', r.stepF = some r' ∧ r'.left < r.left) := by
  cases hm : r.main with
  | start =>
    left
    refine ⟨_, by unfold Rec.step; rw [hm], ?_⟩
    unfold Rec.left
    simp only [hm, Main.rank]
    cases r.goal.qs <;> cases r.goal.fs <;> simp <;> omega
  | starts =>
    left
    refine ⟨_, by unfold Rec.step; rw [hm], ?_⟩
    unfold Rec.left
    simp only [hm, Main.rank]
    omega
  | joinQ =>
    cases hq : r.runQ with
    | true =>
      right; left
      refine ⟨_, by unfold Rec.stepQ; rw [hq]; rfl, ?_⟩
      unfold Rec.left
      simp [hq]
    | false =>
      left
      refine ⟨_, by unfold Rec.step; rw [hm]; simp only [hq]; rfl, ?_⟩
      unfold Rec.left
      simp only [hm, hq, Main.rank]
      omega
  | joinF =>
    cases hq : r.runF with
    | true =>
      right; right
      refine ⟨_, by unfold Rec.stepF; rw [hq]; rfl, ?_⟩
      unfold Rec.left
      simp [hq]
    | false =>
      left
      refine ⟨_, by unfold Rec.step; rw [hm]; simp only [hq]; rfl, ?_⟩
      unfold Rec.left
      simp only [hm, hq, Main.rank]
      omega
  | release =>
    left
    refine ⟨_, by unfold Rec.step; rw [hm], ?_⟩
    unfold Rec.left
    simp only [hm, Main.rank]
    omega
  | done =>
    have := h.opened.2 (by rw [hm]; rfl)
    rw [ho] at this
    cases this

/-- the act is one of the threads that fill record `r` -/
def Act.fills (r : Nat) : Act → Prop
  | .fill k | .fillQ k | .fillF k => k = r
  | _ => False

/-- by its own threads alone a record is opened -/
theorem can_open {s : Sys} (h : Inv s) {r : Nat} {x : Rec} (hx : s.recs[r]? = some x) :
    ∃ l s', (∀ a ∈ l, a.fills r) ∧ Runs s l s' ∧ s'.asks = s.asks ∧ ∃ y, s'.recs[r]? = some y ∧ y.opened = true := by
  generalize hn : x.left = n
  induction n using Nat.strongRecOn generalizing s x with
  | _ n ih =>
    cases ho : x.opened with
    | true => exact ⟨[], s, by simp, .nil s, rfl, x, hx, ho⟩
    | false =>
      have go : ∀ (a : Act) (g : Rec → Option Rec), a.fills r → (∀ s, step s a = s.onRec r g) → (∃ y, g x = some y ∧ y.left < x.left) →
          ∃ l s', (∀ a ∈ l, a.fills r) ∧ Runs s l s' ∧ s'.asks = s.asks ∧ ∃ y, s'.recs[r]? = some y ∧ y.opened = true := by
        intro a g ha hs ⟨y, hy, hl⟩
        have e : step s a = some { s with recs := s.recs.set r y } := by
          rw [hs]
          unfold Sys.onRec
          simp only [hx, hy]
        have hlt := (List.getElem?_eq_some_iff.1 hx).1
        obtain ⟨l, s', h1, h2, h3, h4⟩ := ih y.left (by omega) (h.step e) (x := y) (by simp [hlt]) rfl
        refine ⟨a :: l, s', ?_, ?_, h3, h4⟩
        · intro b hb
          rcases List.mem_cons.1 hb with rfl | hb
          · exact ha
          · exact h1 b hb
        · have : ∀ {s1 s2 : Sys} {l : List Act}, Runs s1 l s2 → ∀ {s0}, step s0 a = some s1 → Runs s0 (a :: l) s2 := by
            intro s1 s2 l hr
            induction hr with
            | nil => intro s0 h0; exact .snoc (l := []) (.nil s0) h0
            | snoc _ e2 ih2 => intro s0 h0; exact .snoc (l := a :: _) (ih2 h0) e2
          exact this h2 e
      rcases rec_progress (h.recs x (List.mem_of_getElem? hx)) ho with hp | hp | hp
      · exact go (.fill r) Rec.step rfl (fun _ => rfl) hp
      · exact go (.fillQ r) Rec.stepQ rfl (fun _ => rfl) hp
      · exact go (.fillF r) Rec.stepF rfl (fun _ => rfl) hp

end Verif.Cache
