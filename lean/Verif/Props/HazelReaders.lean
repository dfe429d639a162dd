import Verif.HazelRead.Proof
/-
  C66: many threads read the index of a static shard (`HazelIdx`, src/hazel.cc).
-/
namespace Verif.Props
open Verif.HazelRead

theorem stored_answer {s : Shard} {f : Int} {n : Nat} (h : s.directory f = some (.stored n)) (k : Kind) : s.answer k f = .list (s.has f) := by
  unfold Shard.answer
  rw [h]
  cases k <;> rfl

/-- **C66.** However the threads run: a call gives what the shard has for its feature, as a whole, if the directory is right and the
postings can be read. -/
theorem C66_whole (shard : Shard) (hs : shard.Sound) (acts : List Act) (hl : Smooth acts) (s : Sys) (run : Runs (Sys.new shard) acts s) :
    s.asks.length = (asked acts).length ∧
    ∀ (i : Nat) k f, (asked acts)[i]? = some (k, f) →
      ∃ a, s.asks[i]? = some a ∧ ∀ x, a.got = some x → x = shard.answer k f := by
  have inv := run.inv (Inv.new shard)
  obtain ⟨h1, h2⟩ := runs_asks run
  refine ⟨by rw [← h2, List.length_map], fun i k f hk => ?_⟩
  rw [← h2, List.getElem?_map] at hk
  obtain ⟨a, ha, e⟩ := Option.map_eq_some_iff.1 hk
  cases e
  refine ⟨a, ha, fun x hx => ?_⟩
  have ok := inv.asks a (List.mem_of_getElem? ha)
  rw [h1] at ok
  cases hr : a.record with
  | none =>
    rw [(ok.none hr).1] at hx
    exact (Option.some.inj hx).symm
  | some r =>
    obtain ⟨y, y1, y2, y3⟩ := ok.record r hr
    obtain ⟨_, y4⟩ := y3 x hx
    have hm := List.mem_of_getElem? y1
    have okr := inv.recs y hm
    rw [h1] at okr
    rw [y4]
    unfold target
    rw [if_neg (by rw [runs_smooth hs run hl y hm]; simp), ← y2, stored_answer okr.dir]

/-- **C66.** Whether or not anything can be read: two calls for the same feature that gave something gave the same. -/
theorem C66_agree (shard : Shard) (acts : List Act) (s : Sys) (run : Runs (Sys.new shard) acts s) (i j : Nat) (a b : Ask)
    (ha : s.asks[i]? = some a) (hb : s.asks[j]? = some b) (hf : a.feature = b.feature) (hk : a.kind = b.kind ∨ shard.directory a.feature ≠ none)
    (x y : Ans) (hx : a.got = some x) (hy : b.got = some y) : x = y := by
  have inv := run.inv (Inv.new shard)
  obtain ⟨h1, _⟩ := runs_asks run
  have oka := inv.asks a (List.mem_of_getElem? ha)
  have okb := inv.asks b (List.mem_of_getElem? hb)
  rw [h1] at oka okb
  cases hra : a.record with
  | none =>
    obtain ⟨a1, a2⟩ := oka.none hra
    rw [hx] at a1
    cases hrb : b.record with
    | none =>
      obtain ⟨b1, b2⟩ := okb.none hrb
      rw [hy] at b1
      rw [Option.some.inj a1, Option.some.inj b1, hf]
      rcases hk with hk | hk
      · rw [hk]
      · unfold Shard.answer
        rw [hf] at hk
        cases e : shard.directory b.feature with
        | none => exact absurd e hk
        | some d => cases a.kind <;> cases b.kind <;> rfl
    | some r =>
      obtain ⟨z, z1, z2, _⟩ := okb.record r hrb
      have := (inv.recs z (List.mem_of_getElem? z1)).dir
      rw [h1, z2, ← hf] at this
      exact absurd this (a2 _)
  | some r =>
    obtain ⟨u, u1, u2, u3⟩ := oka.record r hra
    cases hrb : b.record with
    | none =>
      have := (inv.recs u (List.mem_of_getElem? u1)).dir
      rw [h1, u2, hf] at this
      exact absurd this ((okb.none hrb).2 _)
    | some r' =>
      obtain ⟨z, z1, z2, z3⟩ := okb.record r' hrb
      have e1 := inv.live r u u1
      have e2 := inv.live r' z z1
      rw [u2, hf, ← z2, e2] at e1
      cases e1
      rw [u1] at z1
      cases z1
      rw [(u3 x hx).2, (z3 y hy).2]

/-- **C66.** The postings of a feature are read at most once. -/
theorem C66_once (shard : Shard) (acts : List Act) (s : Sys) (run : Runs (Sys.new shard) acts s) (f : Int) : s.reads.count f ≤ 1 :=
  ((run.inv (Inv.new shard)).reads f).1

/-- **C66.** Nobody waits for ever: the thread that fills the posting, and no other, brings a call that waits to where it gets its answer. -/
theorem C66_released (shard : Shard) (acts : List Act) (s : Sys) (run : Runs (Sys.new shard) acts s) (i : Nat) (a : Ask)
    (ha : s.asks[i]? = some a) (ok : Bool) :
    a.got.isSome ∨ ∃ r n s', a.record = some r ∧ Runs (Sys.new shard) (acts ++ List.replicate n (.fill r ok) ++ [.use i]) s' ∧
      ∃ a', s'.asks[i]? = some a' ∧ a'.got.isSome := by
  have inv := run.inv (Inv.new shard)
  have oka := inv.asks a (List.mem_of_getElem? ha)
  cases hg : a.got with
  | some x => exact .inl rfl
  | none =>
    right
    cases hr : a.record with
    | none => rw [(oka.none hr).1] at hg; cases hg
    | some r =>
      obtain ⟨x, hx, _⟩ := oka.record r hr
      obtain ⟨n, s1, h1, h2, y, h3, h4⟩ := can_open inv ok hx
      have ha1 : s1.asks[i]? = some a := by rw [h2]; exact ha
      have hlt := (List.getElem?_eq_some_iff.1 ha1).1
      have e : HazelRead.step s1 (.use i) = some { s1 with asks := s1.asks.set i { a with got := some (.list y.data) } } := by
        simp only [HazelRead.step, use, ha1, hg, hr, h3, h4, if_true]
      exact ⟨r, n, _, rfl, Runs.snoc (run.append h1) e, { a with got := some (.list y.data) }, by simp [hlt], rfl⟩

/-- **C66.** The count of a feature is the number of its annotations. -/
theorem C66_count (shard : Shard) (hs : shard.Sound) (f : Int) : HazelRead.count shard f = (shard.has f).length := by
  unfold HazelRead.count Shard.has
  cases e : shard.directory f with
  | none => rfl
  | some d =>
    cases d with
    | single p => rfl
    | stored n =>
      obtain ⟨l, h1, h2⟩ := hs f n e
      simp only [h1]
      exact h2.symm

/-- a shard with a feature of two annotations and one of a single one -/
def twoFeatures : Shard where
  directory f := if f = 5 then some (.stored 2) else if f = 6 then some (.single 3) else none
  postings f := if f = 5 then some (5, [(1, 2, 7), (4, 9, 8)]) else none

theorem twoFeatures_sound : twoFeatures.Sound := by
  intro f n h
  simp only [twoFeatures] at h ⊢
  split at h
  · rename_i e
    cases h
    exact ⟨[(1, 2, 7), (4, 9, 8)], by rw [if_pos e, e], rfl⟩
  · split at h <;> cases h

theorem runs_of {shard : Shard} : ∀ (l l0 : List Act) (s s' : Sys), Runs (Sys.new shard) l0 s →
    l.foldlM (fun s a => HazelRead.step s a) s = some s' → Runs (Sys.new shard) (l0 ++ l) s' := by
  intro l
  induction l with
  | nil => intro l0 s s' h e; cases e; rw [List.append_nil]; exact h
  | cons a l ih =>
    intro l0 s s' h e
    simp only [List.foldlM_cons, Option.bind_eq_bind] at e
    obtain ⟨s1, h1, h2⟩ := Option.bind_eq_some_iff.1 e
    have := ih (l0 ++ [a]) s1 s' (.snoc h h1) h2
    rw [List.append_assoc] at this
    exact this

/-- Two threads ask for the same feature, one for a hopper and one for the posting; others for other features. -/
example : ∃ s, Runs (Sys.new twoFeatures)
    [.ask .hopper 5, .ask .posting 5, .fill 0 true, .fill 0 true, .ask .posting 9, .fill 0 true, .ask .hopper 6, .fill 0 true, .use 1, .use 0] s ∧
    s.asks.map (·.got) = [some (.list [(1, 2, 7), (4, 9, 8)]), some (.list [(1, 2, 7), (4, 9, 8)]), some .null, some (.list [(3, 3, 0)])] ∧
    s.reads = [5] :=
  ⟨_, runs_of _ [] _ _ (.nil _) rfl, by decide +kernel, by decide +kernel⟩

/-- A hopper cannot be used while its posting is half filled. -/
example : ([Act.ask .hopper 5, .fill 0 true, .fill 0 true].foldlM (fun s a => HazelRead.step s a) (Sys.new twoFeatures)).bind
    (fun s => HazelRead.step s (.use 0)) = none := rfl

theorem step_failed {s s' : Sys} (h : Inv s) {a : Act} (e : HazelRead.step s a = some s') {f : Int} {n : Nat}
    (hf : ∃ (r : Nat) (x : Rec), s.recs[r]? = some x ∧ x.feature = f ∧ x.n = n ∧ x.failed = true) :
    ∃ (r : Nat) (x : Rec), s'.recs[r]? = some x ∧ x.feature = f ∧ x.n = n ∧ x.failed = true := by
  obtain ⟨r, x, h1, h2, h3, h4⟩ := hf
  have hlt := (List.getElem?_eq_some_iff.1 h1).1
  cases a with
  | ask k g =>
    cases e
    refine ⟨r, x, ?_, h2, h3, h4⟩
    unfold ask
    split
    · exact h1
    · exact h1
    · simp only [HazelRead.get]
      split
      · exact h1
      · rw [List.getElem?_append_left hlt]; exact h1
  | use k =>
    simp only [HazelRead.step, use] at e
    split at e
    · cases e
    · split at e
      · split at e
        · cases e
        · split at e
          · cases e; exact ⟨r, x, h1, h2, h3, h4⟩
          · cases e
      · cases e
  | fill k ok =>
    simp only [HazelRead.step, fill] at e
    split at e
    · cases e
    · rename_i y hy
      split at e
      · cases e
      · rename_i z hz
        cases e
        by_cases hk : k = r
        · subst hk
          rw [h1] at hy
          cases hy
          have okx := h.recs x (List.mem_of_getElem? h1)
          have same := (rec_step okx hz).2
          refine ⟨k, z, by simp [hlt], by rw [same.feature, h2], by rw [same.n, h3], ?_⟩
          rw [same.failed fun hp => by rw [(okx.start hp).2] at h4; cases h4]
          exact h4
        · exact ⟨r, x, by rw [List.getElem?_set_ne hk]; exact h1, h2, h3, h4⟩

/-- **C66 (violated).** If the postings of a feature cannot be read once, nobody is told: from then on every call for the feature, by any
thread, gives as many annotations as there should be, which no one ever made; and they are never read again. -/
theorem C66_bogus (shard : Shard) (acts later : List Act) (s s' : Sys) (run : Runs (Sys.new shard) acts s) (r : Nat) (x : Rec)
    (hx : s.recs[r]? = some x) (failed : x.failed = true) (run' : Runs s later s') (i : Nat) (a : Ask)
    (ha : s'.asks[i]? = some a) (hf : a.feature = x.feature) (y : Ans) (hy : a.got = some y) : y = .list (bogus x.n) := by
  have inv := run.inv (Inv.new shard)
  have key : Inv s' ∧ ∃ (r' : Nat) (x' : Rec), s'.recs[r']? = some x' ∧ x'.feature = x.feature ∧ x'.n = x.n ∧ x'.failed = true := by
    clear ha hy hf
    induction run' with
    | nil => exact ⟨inv, r, x, hx, rfl, rfl, failed⟩
    | snoc _ e ih => exact ⟨(ih).1.step e, step_failed (ih).1 e (ih).2⟩
  obtain ⟨inv', r', x', k1, k2, k3, k4⟩ := key
  have ok := inv'.asks a (List.mem_of_getElem? ha)
  have dir := (inv'.recs x' (List.mem_of_getElem? k1)).dir
  cases hr : a.record with
  | none =>
    rw [k2, ← hf] at dir
    exact absurd dir ((ok.none hr).2 _)
  | some q =>
    obtain ⟨z, z1, z2, z3⟩ := ok.record q hr
    have e1 := inv'.live q z z1
    rw [z2, hf, ← k2, inv'.live r' x' k1] at e1
    cases e1
    rw [k1] at z1
    cases z1
    rw [(z3 y hy).2]
    unfold target
    rw [if_pos k4, k3]

/-- **C66**, damaged shards: whatever the bytes of the postings decode to, a call for a feature with postings gives as many annotations
as the directory says there are: those of a posting list that says that it is of the feature, or made up ones. -/
theorem C66_checked (shard : Shard) (acts : List Act) (s : Sys) (run : Runs (Sys.new shard) acts s) (i : Nat) (a : Ask)
    (ha : s.asks[i]? = some a) (n : Nat) (hd : shard.directory a.feature = some (.stored n)) (y : Ans) (hy : a.got = some y) :
    ∃ l, y = .list l ∧ l.length = n ∧ (shard.postings a.feature = some (a.feature, l) ∨ l = bogus n) := by
  have inv := run.inv (Inv.new shard)
  obtain ⟨h1, _⟩ := runs_asks run
  have ok := inv.asks a (List.mem_of_getElem? ha)
  rw [h1] at ok
  cases hr : a.record with
  | none => exact absurd hd ((ok.none hr).2 _)
  | some q =>
    obtain ⟨z, z1, z2, z3⟩ := ok.record q hr
    have okr := inv.recs z (List.mem_of_getElem? z1)
    rw [h1] at okr
    obtain ⟨z4, z5⟩ := z3 y hy
    have dir := okr.dir
    rw [z2, hd] at dir
    cases dir
    refine ⟨_, z5, ?_⟩
    unfold target
    cases hf : z.failed with
    | true => exact ⟨by simp [bogus], .inr (by simp)⟩
    | false =>
      obtain ⟨l, l1, l2⟩ := okr.read (by rw [okr.opened.1 z4]; simp) hf
      rw [z2] at l1
      have : shard.has z.feature = l := by rw [z2]; simp [Shard.has, hd, l1]
      simp only [Bool.false_eq_true, if_false]
      rw [this]
      exact ⟨l2, .inl l1⟩

/-- a shard whose directory says that there are two annotations, where the postings have three: what a call gives is made up -/
example : ∃ s, Runs (Sys.new ⟨fun f => if f = 5 then some (.stored 2) else none, fun f => if f = 5 then some (5, [(1, 1, 0), (3, 3, 0), (4, 4, 0)]) else none⟩)
    [.ask .posting 5, .fill 0 true, .fill 0 true, .fill 0 true, .fill 0 true, .use 0] s ∧ s.asks.map (·.got) = [some (.list (bogus 2))] := by
  refine ⟨_, runs_of _ [] _ _ (.nil _) rfl, by decide +kernel⟩

/-- and it happens: the hopper shows two annotations near the smallest address -/
theorem C66_bogus_shown : ∃ s, Runs (Sys.new twoFeatures) [.ask .hopper 5, .fill 0 false, .fill 0 true, .fill 0 true, .fill 0 true, .use 0] s ∧
    s.asks.map (·.got) = [some (.list [(minfinity + 1, minfinity + 2, 0), (minfinity + 2, minfinity + 3, 0)])] ∧
    (∃ x, s.recs[0]? = some x ∧ x.failed = true) ∧ twoFeatures.has 5 = [(1, 2, 7), (4, 9, 8)] := by
  refine ⟨_, runs_of _ [] _ _ (.nil _) rfl, by decide +kernel, ⟨_, rfl, rfl⟩, by decide +kernel⟩

end Verif.Props
