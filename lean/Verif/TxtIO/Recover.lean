import Verif.TxtIO.Proof

/-!
# Lemmas: files that can be opened, transactions, and bringing files back
-/

namespace Verif.TxtIO

/-- The files hold text `t` whole. -/
structure Whole (n : Nat) (z : Codec) (t : Bytes) (d : Disk) : Prop where
  len : d.map.length = count n t
  stored : ∀ i < count n t, Stored n z t d.map d.contents i

/-! ## Opening -/

theorem settle_spec {n z t s} (hn : 0 < n) (hz : z.Restores n) (h : Core n z t s) (hs : s.synced = true) :
    ∃ s', settle n z s = some s' ∧ Holds n z t s' ∧ Frame' s s' ∧ s'.synced = true ∧
      s'.flushed = s.flushed ∧ (s'.pending = none ∨ s'.pending = s.pending) ∧
      s'.disk = s.disk ∧ s'.log = s.log ∧ s'.map = s.map := by
  unfold settle
  by_cases hm : s.map = []
  · rw [if_pos hm]
    have h0 : count n t = 0 := by rw [← h.len, hm]; rfl
    have ht : t = [] := (count_eq_zero hn).mp h0
    subst ht
    exact ⟨_, rfl, ⟨h.same rfl rfl rfl rfl rfl rfl rfl rfl, rfl, fun _ => hs⟩,
      ⟨rfl, rfl, rfl, rfl, rfl, rfl, rfl⟩, hs, rfl, Or.inr rfl, rfl, rfl, rfl⟩
  · rw [if_neg hm]
    have ht : t ≠ [] := by
      rintro rfl
      exact hm (List.length_eq_zero_iff.mp (by rw [h.len, count_nil hn]))
    have h0 : count n t ≠ 0 := mt (count_eq_zero hn).mp ht
    obtain ⟨s1, e1, c1, f1, hv1, hi1, -, fl1, sy1, pe1, dl, mp1, -⟩ :=
      fetch_spec hn hz h (i := count n t - 1) (by omega)
    have hfl : fetchLast n z s = some s1 := by unfold fetchLast; rw [h.len]; exact e1
    rw [hfl]
    have f := f1.to
    exact ⟨_, rfl, ⟨c1.same rfl rfl rfl rfl rfl rfl rfl rfl, setSize_holds hn c1 ht hv1 hi1, fun _ => sy1 hs⟩,
      ⟨f.1, f.2, f.3, f.4, f.5, f.6, f.7⟩, sy1 hs, fl1, pe1, (dl hs).1, (dl hs).2, mp1 hs⟩

/-- A store that was just opened on files that hold `t`. -/
structure Fresh (n : Nat) (z : Codec) (t : Bytes) (s : Store) : Prop where
  holds : Holds n z t s
  limited : s.limited = none
  readOnly : s.readOnly = false
  started : s.started = false
  flushed : s.flushed = true
  pending : s.pending = none
  limits : s.disk.limits = none
  lock : s.disk.lock = false

theorem make_whole {n z t d} (hn : 0 < n) (hz : z.Restores n) (h : Whole n z t d) (hl : d.limits = none)
    (hk : d.lock = false) : ∃ s, make n z d = some s ∧ Fresh n z t s := by
  unfold make
  rw [hl]
  simp only
  have hc : Core n z t { disk := d, map := d.map, base := d } :=
    ⟨h.len, fun _ => rfl, fun i hi _ => h.stored i hi, fun h => by simp at h, fun h => by simp at h, fun l h => by simp at h⟩
  obtain ⟨s, e, h', f, -, fl, pe, d', -, -⟩ := settle_spec hn hz hc rfl
  refine ⟨s, e, h', f.limited, f.readOnly, f.started, fl, ?_, ?_, ?_⟩
  · rcases pe with pe | pe <;> exact pe
  · rw [d']; exact hl
  · rw [d']; exact hk

theorem mark_take {m : List Nat} {k i : Nat} (h : i ≤ k) : mark (m.take k) i = mark m i :=
  mark_of_take (by rw [List.take_take, Nat.min_self]) h

theorem make_kept {n z old w d} (hn : 0 < n) (hz : z.Restores n) (h : Kept n z old w d) :
    ∃ s, make n z d = some s ∧ Holds n z old s ∧ s.readOnly = true ∧ s.synced = true ∧ s.started = false ∧
      s.disk = d ∧ s.limited ≠ none ∧ s.map = d.map.take (count n old) := by
  obtain ⟨l, hl, hl'⟩ := h.limits
  unfold make
  rw [hl]
  simp only
  have hc : Core n z old { disk := d, map := d.map.take (count n old), base := d, limited := some l, readOnly := true } := by
    refine ⟨?_, fun h => by simp at h, ?_, fun h => by simp at h, fun h => by simp at h, ?_⟩
    · have := h.len; simp; omega
    · intro i hi hor
      rcases hor with hor | ⟨-, hx⟩
      · exact (h.stored i (by omega)).mono (mark_take (by omega)) (mark_take (by omega)) rfl rfl
      · cases hx
    · intro l' hx
      obtain rfl : l = l' := by simpa using hx
      exact ⟨rfl, hl'⟩
  obtain ⟨s, e, h', f, sy, fl, pe, d', -, hmap⟩ := settle_spec hn hz hc rfl
  exact ⟨s, e, h', f.readOnly, sy, f.started, d', by rw [f.limited]; simp, hmap⟩

/-! ## Interrupted changes -/

theorem Kept.transport {n z old w} {d d' : Disk} (h : Kept n z old w d) (hl : d'.limits = d.limits)
    (hlen : count n old ≤ d'.map.length) (hm : ∀ i ≤ count n old - 1, mark d'.map i = mark d.map i)
    (hc : ∀ e ≤ w, e ≤ d.contents.length → d'.contents.take e = d.contents.take e) : Kept n z old w d' := by
  refine ⟨by rw [hl]; exact h.limits, hlen, by rw [hm _ (Nat.le_refl _)]; exact h.start, ?_⟩
  intro i hi
  have hs := h.stored i hi
  refine hs.mono (hm i (by omega)) (hm (i + 1) (by omega)) (hc _ ?_ hs.bound) rfl
  rw [← h.start]
  exact mark_mono h.stored (by omega)

/-- What is needed to bring back `old` is the same in both. -/
structure Agree (w k : Nat) (d d' : Disk) : Prop where
  limits : d'.limits = d.limits
  len : k ≤ d'.map.length
  mark : ∀ i ≤ k - 1, mark d'.map i = mark d.map i
  bytes : ∀ e ≤ w, e ≤ d.contents.length → d'.contents.take e = d.contents.take e

theorem Agree.kept {n z old w d d'} (ha : Agree w (count n old) d d') (h : Kept n z old w d) : Kept n z old w d' :=
  h.transport ha.limits ha.len ha.mark ha.bytes

theorem Torn.agree {w k o d d'} (ht : Torn o d d') (ho : Mild w k o) (hk : k ≤ d.map.length) :
    Agree w k d d' := by
  have wr : ∀ pos b, w ≤ pos → Agree w k d ((Op.write pos b).run d) := by
    intro pos b hp
    exact ⟨rfl, hk, fun _ _ => rfl, fun e he hl => overwrite_take (by omega) hl⟩
  have la : ∀ v, Agree w k d ((Op.last v).run d) := by
    intro v
    refine ⟨rfl, by simpa [Op.run, setLast_length] using hk, ?_, fun _ _ _ => rfl⟩
    intro i hi
    simp only [Op.run]
    cases i with
    | zero => rfl
    | succ i => exact mark_setLast (by omega)
  cases ht with
  | whole =>
    cases o with
    | write pos b => exact wr pos b ho
    | last v => exact la v
    | push v =>
      refine ⟨rfl, by simp [Op.run]; omega, ?_, fun _ _ _ => rfl⟩
      intro i hi
      exact mark_append (by omega)
    | cutContents m =>
      exact ⟨rfl, hk, fun _ _ => rfl, fun e he hl => resize_take (by have : w ≤ m := ho; omega) hl⟩
    | cutMap m =>
      have hm : k ≤ m := ho
      refine ⟨rfl, by simpa [Op.run, resize_length] using hm, ?_, fun _ _ _ => rfl⟩
      intro i hi
      exact mark_of_take (k := k) (resize_take hm hk) (by omega)
    | limit => exact absurd ho (by simp [Mild])
    | unlimit => exact absurd ho (by simp [Mild])
    | lock => exact absurd ho (by simp [Mild])
    | unlock => exact absurd ho (by simp [Mild])
  | write pos b k => exact wr pos _ ho
  | last v v' => exact la v'

theorem Torn.kept {n z old w o d d'} (ht : Torn o d d') (ho : Mild w (count n old) o) (h : Kept n z old w d) :
    Kept n z old w d' := (ht.agree ho h.len).kept h

theorem TornAll.agree {n z old w ops d d'} (ht : TornAll ops d d') (ho : ∀ o ∈ ops, Mild w (count n old) o)
    (h : Kept n z old w d) :
    (∀ i ≤ count n old - 1, mark d'.map i = mark d.map i) ∧ d'.contents.take w = d.contents.take w := by
  have hw : ∀ {d}, Kept n z old w d → w ≤ d.contents.length := by
    intro d h
    rw [← h.start]; exact mark_bound h.stored
  induction ht with
  | nil => exact ⟨fun _ _ => rfl, rfl⟩
  | cons h1 _ ih =>
    have ha := h1.agree (ho _ (List.mem_cons_self ..)) h.len
    obtain ⟨i1, i2⟩ := ih (fun o ho' => ho o (List.mem_cons_of_mem _ ho')) (ha.kept h)
    exact ⟨fun i hi => (i1 i hi).trans (ha.mark i hi), i2.trans (ha.bytes w (Nat.le_refl _) (hw h))⟩
  | skip _ ih => exact ih (fun o ho' => ho o (List.mem_cons_of_mem _ ho')) h

theorem TornAll.kept {n z old w ops d d'} (ht : TornAll ops d d') (ho : ∀ o ∈ ops, Mild w (count n old) o)
    (h : Kept n z old w d) : Kept n z old w d' := by
  induction ht with
  | nil => exact h
  | cons h1 _ ih =>
    exact ih (fun o ho' => ho o (List.mem_cons_of_mem _ ho')) (h1.kept (ho _ (List.mem_cons_self ..)) h)
  | skip _ ih => exact ih (fun o ho' => ho o (List.mem_cons_of_mem _ ho')) h

theorem TornAll.whole (ops : List Op) (d : Disk) : TornAll ops d (runAll ops d) := by
  induction ops generalizing d with
  | nil => exact .nil d
  | cons o os ih => exact .cons (.whole o d) (ih _)

theorem Tx.keptNow {n z old w s} (h : Tx n z old w s) : Kept n z old w s.disk := by
  rw [h.disk]
  exact (TornAll.whole s.log s.base).kept h.mild h.kept

/-! ## Bringing files back -/

/-- The offsets `restore` uses. -/
theorem restore_eq {n z old w d} (h : Kept n z old w d) (h0 : count n old ≠ 0) :
    restore false z d =
      [.cutMap (count n old), .cutContents (w + (z.crush (piece n old (count n old - 1))).length),
       .write w (z.crush (piece n old (count n old - 1))),
       .last (w + (z.crush (piece n old (count n old - 1))).length)] := by
  obtain ⟨l, hl, hl'⟩ := h.limits
  have hl' := hl' h0
  obtain ⟨k, hk⟩ : ∃ k, count n old = k + 1 := ⟨count n old - 1, by omega⟩
  rw [hk] at hl
  have hw : (if k = 0 then 0 else (resize (k + 1) 0 d.map).getD ((resize (k + 1) 0 d.map).length - 2) 0) = w := by
    rw [← h.start, hk, resize_length]
    split
    · rename_i hk0; subst hk0; rfl
    · rename_i hk0
      obtain ⟨j, rfl⟩ : ∃ j, k = j + 1 := ⟨k - 1, by omega⟩
      have := mark_of_take (m := d.map) (m' := resize (j + 1 + 1) 0 d.map) (k := j + 1 + 1) (i := j + 1)
        (resize_take (Nat.le_refl _) (by have := h.len; omega)) (by omega)
      simpa [mark] using this
  unfold restore
  rw [hl]
  simp only [Bool.false_eq_true, if_false]
  rw [hw, resize_length]
  simp only [Nat.add_sub_cancel]
  rw [hk] at hl' ⊢
  rw [hl']
  rfl

theorem restore_zero {n z old w d} (h : Kept n z old w d) (h0 : count n old = 0) :
    restore false z d = [.cutContents 0, .cutMap 0] := by
  obtain ⟨l, hl, -⟩ := h.limits
  rw [h0] at hl
  unfold restore
  rw [hl]
  rfl

theorem restore_mild {n z old w d} (h : Kept n z old w d) : ∀ o ∈ restore false z d, Mild w (count n old) o := by
  by_cases h0 : count n old = 0
  · rw [restore_zero h h0]
    have hw : w = 0 := by rw [← h.start, h0]; rfl
    intro o ho
    simp only [List.mem_cons, List.not_mem_nil, or_false] at ho
    rcases ho with rfl | rfl <;> simp [Mild, h0, hw]
  · rw [restore_eq h h0]
    intro o ho
    simp only [List.mem_cons, List.not_mem_nil, or_false] at ho
    rcases ho with rfl | rfl | rfl | rfl <;> simp [Mild]

theorem restore_whole {n z old w d} (h : Kept n z old w d) :
    Whole n z old (runAll (restore false z d) d) ∧
      (runAll (restore false z d) d).limits = d.limits ∧ (runAll (restore false z d) d).lock = d.lock ∧
      mark (runAll (restore false z d) d).map (count n old) =
        if count n old = 0 then 0 else w + (z.crush (piece n old (count n old - 1))).length := by
  by_cases h0 : count n old = 0
  · rw [restore_zero h h0]
    refine ⟨⟨?_, ?_⟩, rfl, rfl, ?_⟩
    · simp [runAll, Op.run, resize_length, h0]
    · intro i hi; omega
    · rw [h0]; rfl
  · rw [restore_eq h h0, if_neg h0]
    generalize hb : z.crush (piece n old (count n old - 1)) = b
    have hlen := h.len
    have hr : resize (count n old) 0 d.map = d.map.take (count n old) := by
      simp [resize, Nat.sub_eq_zero_of_le hlen]
    have htl : (d.map.take (count n old)).length = count n old := by simp; omega
    have hne : d.map.take (count n old) ≠ [] := List.ne_nil_of_length_pos (by omega)
    have hm1 : ∀ i < count n old, mark (setLast (w + b.length) (d.map.take (count n old))) i = mark d.map i := by
      intro i hi
      rw [mark_setLast (by omega), mark_take (by omega)]
    have hm2 : mark (setLast (w + b.length) (d.map.take (count n old))) (count n old) = w + b.length := by
      have := mark_setLast_last (v := w + b.length) hne
      rwa [htl] at this
    simp only [runAll, List.foldl, Op.run, hr, true_and]
    refine ⟨⟨?_, ?_⟩, ?_⟩
    · simp [setLast_length]; omega
    · intro i hi
      rcases Nat.lt_or_ge i (count n old - 1) with hlt | hge
      · have hs := h.stored i hlt
        refine hs.mono (hm1 i hi) (hm1 (i + 1) (by omega)) ?_ rfl
        have hle : mark d.map (i + 1) ≤ w := by rw [← h.start]; exact mark_mono h.stored (by omega)
        rw [overwrite_take hle (by rw [resize_length]; omega), resize_take (by omega) hs.bound]
      · obtain rfl : i = count n old - 1 := by omega
        have e : count n old - 1 + 1 = count n old := by omega
        refine ⟨?_, ?_, ?_⟩
        · simp only [e, hm1 _ hi, hm2, h.start]; omega
        · simp only [e, hm2, overwrite_length]; omega
        · simp only [e, hm1 _ hi, hm2, h.start, overwrite_slice]; rw [hb]
    · exact hm2

theorem Struggle.kept {n z old w d d'} (hs : Struggle false z d d') (h : Kept n z old w d) : Kept n z old w d' := by
  induction hs with
  | none => exact h
  | some h1 _ ih => exact ih (h1.kept (restore_mild h) h)

theorem recover_whole {n z old w d} (h : Kept n z old w d) :
    Whole n z old (runAll (recover false z false d) d) ∧
      (runAll (recover false z false d) d).limits = none ∧
      (runAll (recover false z false d) d).lock = false := by
  obtain ⟨hw, -, -, -⟩ := restore_whole h
  simp only [recover, Bool.false_eq_true, if_false, runAll_append]
  exact ⟨⟨hw.1, hw.2⟩, rfl, rfl⟩

/-! ## Transactions -/

theorem doAll_eq (s : Store) (ops : List Op) :
    s.doAll ops = { s with disk := runAll ops s.disk, log := s.log ++ ops } := by
  induction ops generalizing s with
  | nil => simp [Store.doAll, runAll]
  | cons o os ih =>
    have : s.doAll (o :: os) = (s.does o).doAll os := rfl
    rw [this, ih]
    simp [Store.does, runAll]

theorem holds_whole {n z t s} (h : Core n z t s) (hs : s.synced = true) (hl : s.limited = none) :
    Whole n z t s.disk :=
  ⟨by rw [h.disk hl]; exact h.len, by rw [h.disk hl]; exact fun i hi => h.stored i hi (Or.inr ⟨hs, hl⟩)⟩

theorem begin_spec {n z t s} (hn : 0 < n) (hz : z.Restores n) (h : Holds n z t s)
    (hl : s.limited = none) (junk : Bytes) :
    ∃ s', begin n z junk s = some s' ∧ Holds n z t s' ∧ s'.limited = none ∧
      s'.readOnly = s.readOnly ∧ s'.started = true ∧ s'.readied = s.readied ∧ s'.flushed = s.flushed ∧
      (s'.pending = none ∨ s'.pending = s.pending) ∧ ∃ w, Tx n z t w s' := by
  unfold begin
  by_cases hm : s.map = []
  · rw [if_pos hm]
    have h0 : count n t = 0 := by rw [← h.len, hm]; rfl
    refine ⟨_, rfl, ⟨⟨h.len, h.disk, h.stored, h.cache, h.dirty, h.lim⟩, h.size, h.flush⟩, hl, rfl, rfl, rfl, rfl, Or.inr rfl, 0, ?_⟩
    refine ⟨⟨⟨junk, by rw [h0]; rfl, fun h => absurd h0 h⟩, by omega, by rw [h0]; rfl, fun i hi => by omega⟩,
      rfl, by simp, by rw [h0]; rfl⟩
  · rw [if_neg hm]
    have ht : t ≠ [] := by
      rintro rfl
      exact hm (List.length_eq_zero_iff.mp (by rw [h.len, count_nil hn]))
    have h0 : count n t ≠ 0 := mt (count_eq_zero hn).mp ht
    obtain ⟨s1, e1, c1, f1, hv1, hi1, hc1, fl1, sy1, pe1, dl, -, -⟩ :=
      fetch_spec hn hz h.toCore (i := count n t - 1) (by omega)
    have hfl : fetchLast n z s = some s1 := by
      unfold fetchLast; rw [h.len]; exact e1
    rw [hfl]
    refine ⟨_, rfl, ⟨⟨c1.len, c1.disk, c1.stored, c1.cache, c1.dirty, c1.lim⟩, f1.size.trans h.size, ?_⟩,
      f1.limited.trans hl, f1.readOnly, rfl, f1.readied, fl1, pe1, mark s1.disk.map (count n t - 1), ?_⟩
    · intro hf
      exact sy1 (h.flush (fl1 ▸ hf))
    · have hl1 : s1.limited = none := f1.limited.trans hl
      have hd1 := c1.disk hl1
      refine ⟨⟨⟨s1.chunk, ?_, fun _ => hc1⟩, ?_, rfl, ?_⟩, rfl, by simp, ?_⟩
      · rw [← c1.len]; rfl
      · simp only [Store.does, Op.run]; rw [hd1, c1.len]; exact Nat.le_refl _
      · intro i hi
        simp only [Store.does, Op.run]
        rw [hd1]
        exact c1.stored i (by omega) (Or.inl (by omega))
      · simp only [Store.does]; rw [hd1]

theorem transaction_spec {n z t s} (hn : 0 < n) (hz : z.Restores n) (h : Holds n z t s)
    (hl : s.limited = none) (hr : s.readOnly = false) (hst : s.started = false) (hk : s.disk.lock = false)
    (junk : Bytes) :
    ∃ s', transaction n z junk s = some (s', true) ∧ Holds n z t s' ∧ s'.limited = none ∧
      s'.readOnly = false ∧ s'.started = true ∧ s'.readied = false ∧ s'.flushed = s.flushed ∧
      (s'.pending = none ∨ s'.pending = s.pending) ∧ ∃ w, Tx n z t w s' := by
  unfold transaction
  rw [if_neg (by simp [hst]), if_neg (by simp [hk, hr])]
  have hh : Holds n z t ({ s with readied := false }.does .lock) :=
    ⟨⟨h.len, h.disk, h.stored, h.cache, h.dirty, h.lim⟩, h.size, h.flush⟩
  obtain ⟨s', e, h1, h2, h3, h4⟩ := begin_spec hn hz hh hl junk
  exact ⟨s', by rw [e]; rfl, h1, h2, h3.trans hr, h4⟩

/-- A store that has undone its changes: the files hold the text from before, and only changes that do
no harm were made. -/
theorem undo_spec {n z old w s} (h : Tx n z old w s) (late : Bool)
    (hb : late = true → Behind n z old w s.pending) :
    Whole n z old (undo false z late s).disk ∧
      (undo false z late s).base = s.base ∧
      (undo false z late s).disk = runAll (undo false z late s).log s.base ∧
      (∀ o ∈ (undo false z late s).log, Mild w (count n old) o) ∧
      (undo false z late s).valid = false ∧ (undo false z late s).synced = true ∧
      (undo false z late s).flushed = true ∧ (undo false z late s).pending = none ∧
      (undo false z late s).readOnly = s.readOnly := by
  have hk := h.keptNow
  obtain ⟨hw, -, -, hmk⟩ := restore_whole hk
  have hd : runAll (restore false z s.disk) s.disk = runAll (s.log ++ restore false z s.disk) s.base := by
    rw [runAll_append, ← h.disk]
  have hmild : ∀ o ∈ s.log ++ restore false z s.disk, Mild w (count n old) o := by
    intro o ho
    rcases List.mem_append.mp ho with ho | ho
    · exact h.mild o ho
    · exact restore_mild hk o ho
  unfold undo
  simp only [doAll_eq]
  split
  · rename_i pos b hp
    have hb := hb rfl pos b hp
    have hpos : w ≤ pos := by
      rcases hb with hb | hb
      · have : w = 0 := by rw [← h.start, hb]; rfl
        omega
      · omega
    refine ⟨⟨hw.1, ?_⟩, rfl, ?_, ?_, rfl, rfl, rfl, rfl, rfl⟩
    · intro i hi
      have hs := hw.stored i hi
      refine hs.mono rfl rfl (overwrite_take ?_ hs.bound) rfl
      refine Nat.le_trans (mark_mono hw.stored (show i + 1 ≤ count n old by omega)) ?_
      rw [hmk, if_neg (by omega)]
      exact hb.resolve_left (by omega)
    · simp only [Store.does]
      rw [runAll_append, ← hd]; rfl
    · intro o ho
      simp only [Store.does, List.mem_append, List.mem_singleton] at ho
      rcases ho with ho | rfl
      · exact hmild o (List.mem_append.mpr ho)
      · exact hpos
  · exact ⟨hw, rfl, hd, hmild, rfl, rfl, rfl, rfl, rfl⟩

theorem reload_spec {n z old s} (hn : 0 < n) (hz : z.Restores n) (h : Whole n z old s.disk)
    (h1 : s.valid = false) (h2 : s.synced = true) (h3 : s.flushed = true) (h4 : s.pending = none)
    (h5 : s.readOnly = false) : ∃ s', reload n z s = some s' ∧ Fresh n z old s' := by
  have hc : Core n z old { s with map := s.disk.map, limited := none } :=
    ⟨h.len, fun _ => rfl, fun i hi _ => h.stored i hi, fun h => by simp [h1] at h, fun h => by simp [h2] at h,
     fun l h => by simp at h⟩
  obtain ⟨s', e, h', f, sy, fl, pe, d', l', -⟩ := settle_spec hn hz hc h2
  unfold reload
  rw [e]
  refine ⟨_, rfl, ?_, ?_, ?_, rfl, ?_, ?_, ?_, ?_⟩
  · rw [doAll_eq]
    exact ⟨⟨h'.len, h'.disk, h'.stored, h'.cache, h'.dirty, h'.lim⟩, h'.size, h'.flush⟩
  · rw [doAll_eq]; exact f.limited
  · rw [doAll_eq]; exact f.readOnly.trans h5
  · rw [doAll_eq]; exact fl.trans h3
  · rw [doAll_eq]
    rcases pe with pe | pe
    · exact pe
    · exact pe.trans h4
  · rw [doAll_eq]; rfl
  · rw [doAll_eq]; rfl

/-! ## Calls -/

/-- The store is in step with the plain string. -/
structure Good (n : Nat) (z : Codec) (p : Plain) (s : Store) : Prop where
  holds : Holds n z p.text s
  limited : s.limited = none
  readOnly : s.readOnly = false
  dirty : p.dirty = !s.flushed
  pending : s.flushed = true → s.pending = none
  started : s.started = p.saved.isSome
  readied : s.started = true → s.readied = p.ready
  free : p.saved = none → s.disk.limits = none ∧ s.disk.lock = false
  tx : ∀ old clean, p.saved = some (old, clean) → old <+: p.text ∧ ∃ w, Tx n z old w s ∧
    (clean = true → z.Grows → Behind n z old w s.pending)

theorem Fresh.good {n z t s} (h : Fresh n z t s) : Good n z { text := t } s :=
  ⟨h.holds, h.limited, h.readOnly, by simp [h.flushed], fun _ => h.pending, h.started,
   fun hs => (by rw [h.started] at hs; cases hs), fun _ => ⟨h.limits, h.lock⟩, fun _ _ hx => (by cases hx)⟩

/-- One call leaves the store in step with the string, and answers what the string does. -/
theorem call_spec {n z p s} (hn : 0 < n) (hz : z.Restores n) (h : Good n z p s) (c : Call)
    (h1 : c = .commit → p.saved ≠ none ∧ p.ready = true)
    (h2 : c = .abort true → z.Grows ∧ ∀ s ∈ p.saved, s.2 = true) :
    ∃ s', call false n z s c = some (s', (p.call c).2) ∧ Good n z (p.call c).1 s' := by
  cases c with
  | append t =>
    obtain ⟨s', e, h', f, fl, same, tx, be⟩ := append_spec hn hz h.holds h.limited h.readOnly t
    refine ⟨s', by simp [call, e, Plain.call], h', f.limited.trans h.limited, f.readOnly.trans h.readOnly, ?_, ?_, ?_, ?_, ?_, ?_⟩
    · simp [Plain.call, h.dirty, fl]
    · intro hf
      rw [fl, Bool.and_eq_true] at hf
      rw [same (by simpa using hf.2)]
      exact h.pending hf.1
    · exact f.started.trans h.started
    · intro hs; rw [f.started] at hs; exact f.readied.trans (h.readied hs)
    · intro hs; rw [f.limits, f.lock]; exact h.free hs
    · intro old clean hs
      obtain ⟨hp, w, htx, hb⟩ := h.tx old clean hs
      exact ⟨hp.trans (List.prefix_append ..), w, tx old w hp htx, fun hc hg => be old w hg hp htx (hb hc hg)⟩
  | read a b =>
    obtain ⟨s', e, h', f, fl, tx, be, pe1, pe2, -⟩ := read_spec hn hz h.holds
      (fun hr => (by rw [h.readOnly] at hr; cases hr)) a b
    refine ⟨s', by simp [call, e, Plain.call], h', f.limited.trans h.limited, f.readOnly.trans h.readOnly, ?_, ?_, ?_, ?_, ?_, ?_⟩
    · simp [Plain.call, fl h.readOnly]
    · intro _
      cases hf : s.flushed with
      | true => exact pe1 hf (h.pending hf)
      | false => exact pe2 h.readOnly hf
    · exact f.started.trans h.started
    · intro hs; rw [f.started] at hs; exact f.readied.trans (h.readied hs)
    · intro hs; rw [f.limits, f.lock]; exact h.free hs
    · intro old clean hs
      obtain ⟨hp, w, htx, hb⟩ := h.tx old clean hs
      exact ⟨hp, w, tx old w hp htx, fun hc hg => be old w (hb hc hg)⟩
  | size =>
    exact ⟨s, by simp [call, Plain.call, h.holds.size], h⟩
  | flush =>
    obtain ⟨s', e, h', f, fl, same, tx, be⟩ := flush_spec hn h.holds
    refine ⟨s', by simp [call, e, Plain.call], h', f.limited.trans h.limited, f.readOnly.trans h.readOnly, ?_, ?_, ?_, ?_, ?_, ?_⟩
    · simp [Plain.call, (fl h.readOnly).1]
    · intro _
      cases hf : s.flushed with
      | true => rw [same (Or.inr hf)]; exact h.pending hf
      | false => exact (fl h.readOnly).2 hf
    · exact f.started.trans h.started
    · intro hs; rw [f.started] at hs; exact f.readied.trans (h.readied hs)
    · intro hs; rw [f.limits, f.lock]; exact h.free hs
    · intro old clean hs
      obtain ⟨hp, w, htx, hb⟩ := h.tx old clean hs
      exact ⟨hp, w, tx old w hp htx, fun hc hg => be old w (hb hc hg)⟩
  | transaction j =>
    cases hsv : p.saved with
    | some o =>
      refine ⟨s, ?_, ?_⟩
      · have hst : s.started = true := by rw [h.started, hsv]; rfl
        simp [call, transaction, hst, Plain.call, hsv]
      · simp only [Plain.call, hsv]; exact h
    | none =>
      have hst : s.started = false := by rw [h.started, hsv]; rfl
      obtain ⟨s', e, h', hl, hr, hs', hrd, fl, pe, w, htx⟩ :=
        transaction_spec hn hz h.holds h.limited h.readOnly hst (h.free hsv).2 j
      refine ⟨s', by simp [call, e, Plain.call, hsv], ?_⟩
      have hcl : s'.flushed = true → s'.pending = none := by
        intro hf
        rw [fl] at hf
        rcases pe with pe | pe
        · exact pe
        · rw [pe]; exact h.pending hf
      simp only [Plain.call, hsv]
      refine ⟨h', hl, hr, by simp [h.dirty, fl], hcl, by simp [hs'], fun _ => hrd, fun hx => (by cases hx), ?_⟩
      intro old clean hx
      obtain ⟨rfl, rfl⟩ : p.text = old ∧ (!p.dirty) = clean := by simpa using hx
      refine ⟨List.prefix_refl _, w, htx, ?_⟩
      intro hc _
      have hf : s'.flushed = true := by rw [fl]; simpa [h.dirty] using hc
      rw [hcl hf]
      intro pos b hx; cases hx
  | ready =>
    cases hsv : p.saved with
    | none =>
      have hst : s.started = false := by rw [h.started, hsv]; rfl
      refine ⟨s, by simp [call, ready, hst, Plain.call, hsv], ?_⟩
      simp only [Plain.call, hsv]; exact h
    | some o =>
      have hst : s.started = true := by rw [h.started, hsv]; rfl
      have hrd := h.readied hst
      by_cases hr : s.readied = true
      · refine ⟨s, by simp [call, ready, hst, hr, Plain.call, hsv], ?_⟩
        have hpr : p.ready = true := by rw [← hrd]; exact hr
        simp only [Plain.call, hsv, hpr, if_true]
        exact ⟨h.holds, h.limited, h.readOnly, h.dirty, h.pending, by rw [hst]; rfl, fun _ => hr,
          fun hx => (by cases hx), fun old clean hx => h.tx old clean (hsv.trans hx)⟩
      · obtain ⟨s', e, h', f, fl, same, tx, be⟩ := flush_spec hn h.holds
        have hpr : p.ready = false := by rw [← hrd]; simpa using hr
        refine ⟨_, by simp [call, ready, hst, hr, e, Plain.call, hsv]; rfl, ?_⟩
        simp only [Plain.call, hsv, hpr, Bool.false_eq_true, if_false]
        refine ⟨⟨⟨h'.len, h'.disk, h'.stored, h'.cache, h'.dirty, h'.lim⟩, h'.size, h'.flush⟩,
          f.limited.trans h.limited, f.readOnly.trans h.readOnly, by simp [(fl h.readOnly).1], ?_,
          f.started.trans hst, fun _ => rfl, fun hx => (by cases hx), ?_⟩
        · intro _
          cases hf : s.flushed with
          | true => rw [same (Or.inr hf)]; exact h.pending hf
          | false => exact (fl h.readOnly).2 hf
        · intro old clean hx
          obtain ⟨hp, w, htx, hb⟩ := h.tx old clean (hsv.trans hx)
          exact ⟨hp, w, (tx old w hp htx).same rfl rfl rfl rfl, fun hc hg => be old w (hb hc hg)⟩
  | commit =>
    obtain ⟨hsv, hpr⟩ := h1 rfl
    have hst : s.started = true := by
      rw [h.started]
      cases hx : p.saved with
      | none => exact absurd hx hsv
      | some _ => rfl
    have hrd := h.readied hst
    rw [hpr] at hrd
    refine ⟨_, by simp [call, commit, hst, hrd, Plain.call]; rfl, ?_⟩
    simp only [Plain.call, doAll_eq]
    exact ⟨⟨⟨h.holds.len, h.holds.disk, h.holds.stored, h.holds.cache, h.holds.dirty, h.holds.lim⟩, h.holds.size, h.holds.flush⟩,
      h.limited, h.readOnly, h.dirty, h.pending, rfl, fun hx => (by cases hx), fun _ => ⟨rfl, rfl⟩, fun _ _ hx => (by cases hx)⟩
  | abort late =>
    cases hsv : p.saved with
    | none =>
      have hst : s.started = false := by rw [h.started, hsv]; rfl
      refine ⟨_, by simp [call, abort, hst, Plain.call, hsv]; rfl, ?_⟩
      simp only [Plain.call, hsv]
      exact ⟨⟨⟨h.holds.len, h.holds.disk, h.holds.stored, h.holds.cache, h.holds.dirty, h.holds.lim⟩, h.holds.size, h.holds.flush⟩,
        h.limited, h.readOnly, h.dirty, h.pending, by simp, fun hx => (by simp at hx),
        fun _ => h.free hsv, fun _ _ hx => (by cases hx)⟩
    | some o =>
      obtain ⟨old, clean⟩ := o
      have hst : s.started = true := by rw [h.started, hsv]; rfl
      obtain ⟨hp, w, htx, hb⟩ := h.tx old clean hsv
      obtain ⟨u1, u2, u3, u4, u5, u6, u7, u8, u9⟩ := undo_spec htx late (fun hlate => by
        subst hlate
        obtain ⟨hg, hc⟩ := h2 rfl
        exact hb (hc _ hsv) hg)
      obtain ⟨s', e, hf⟩ := reload_spec hn hz u1 u5 u6 u7 u8 (u9.trans h.readOnly)
      refine ⟨s', by simp [call, abort, hst, e, Plain.call, hsv], ?_⟩
      simp only [Plain.call, hsv]
      exact hf.good
  | reopen =>
    obtain ⟨s', e, h', f, fl, same, tx, be⟩ := flush_spec hn h.holds
    simp only [call, reopen, e]
    cases hsv : p.saved with
    | none =>
      have hl : s'.disk.limits = none := by rw [f.limits]; exact (h.free hsv).1
      have hrec : runAll (recover false z false s'.disk) s'.disk = { s'.disk with limits := none, lock := false } := by
        simp [recover, restore, hl, unlocking, runAll, Op.run]
      have hw := holds_whole h'.toCore (h'.flush (fl h.readOnly).1) (f.limited.trans h.limited)
      obtain ⟨s2, e2, hf⟩ := make_whole hn hz (d := { s'.disk with limits := none, lock := false })
        ⟨hw.1, hw.2⟩ rfl rfl
      refine ⟨s2, by simp [hrec, e2, Plain.call, hsv], ?_⟩
      simp only [Plain.call, hsv]
      exact hf.good
    | some o =>
      obtain ⟨old, clean⟩ := o
      obtain ⟨hp, w, htx, -⟩ := h.tx old clean hsv
      obtain ⟨hw, hl, hk⟩ := recover_whole (tx old w hp htx).keptNow
      obtain ⟨s2, e2, hf⟩ := make_whole hn hz hw hl hk
      refine ⟨s2, by simp [e2, Plain.call, hsv], ?_⟩
      simp only [Plain.call, hsv]
      exact hf.good

theorem run_spec {n z} (hn : 0 < n) (hz : z.Restores n) : ∀ {calls : List Call} {p s}, Good n z p s →
    Careful z p calls →
    ∃ s', run false n z s calls = some (s', (p.run calls).2) ∧ Good n z (p.run calls).1 s' := by
  intro calls
  induction calls with
  | nil => intro p s h _; exact ⟨s, rfl, h⟩
  | cons c cs ih =>
    intro p s h hc
    obtain ⟨h1, h2, h3⟩ := hc
    obtain ⟨s1, e1, g1⟩ := call_spec hn hz h c h1 h2
    obtain ⟨s2, e2, g2⟩ := ih g1 h3
    exact ⟨s2, by simp [run, e1, e2, Plain.run], g2⟩

end Verif.TxtIO
