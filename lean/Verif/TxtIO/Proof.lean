import Verif.TxtIO.Spec

/-!
# Lemmas: files, chunks, and what a store holds
-/

namespace Verif.TxtIO

/-! ## Files -/

theorem resize_length {α} (n : Nat) (x : α) (l : List α) : (resize n x l).length = n := by
  simp [resize]; omega

theorem resize_take {α} {k n : Nat} {x : α} {l : List α} (h : k ≤ n) (hl : k ≤ l.length) :
    (resize n x l).take k = l.take k := by
  unfold resize
  rw [List.take_append_of_le_length (by simp; omega), List.take_take]
  congr 1; omega

theorem overwrite_length (pos : Nat) (b c : Bytes) :
    (overwrite pos b c).length = max c.length (pos + b.length) := by
  simp [overwrite, resize_length]; omega

theorem overwrite_take {k pos : Nat} {b c : Bytes} (h : k ≤ pos) (hl : k ≤ c.length) :
    (overwrite pos b c).take k = c.take k := by
  unfold overwrite
  rw [List.append_assoc, List.take_append_of_le_length (by rw [resize_length]; exact h),
    resize_take h hl]

theorem slice_of_take {a e k : Nat} {c c' : Bytes} (h : c'.take k = c.take k) (he : e ≤ k) :
    slice a e c' = slice a e c := by
  unfold slice
  have : c'.take e = c.take e := by
    have h1 := congrArg (List.take e) h
    rwa [List.take_take, List.take_take, Nat.min_eq_left he] at h1
  rw [this]

theorem overwrite_slice (pos : Nat) (b c : Bytes) : slice pos (pos + b.length) (overwrite pos b c) = b := by
  unfold slice overwrite
  have e : (resize pos 0 c ++ b).length = pos + b.length := by simp [resize_length]
  rw [← e, List.take_left, List.drop_append_of_le_length (by rw [resize_length]; exact Nat.le_refl _),
    List.drop_eq_nil_of_le (by rw [resize_length]; exact Nat.le_refl _)]
  rfl

theorem mark_append {m : List Nat} {v : Nat} {i : Nat} (h : i ≤ m.length) : mark (m ++ [v]) i = mark m i := by
  cases i with
  | zero => rfl
  | succ i => simp only [mark]; grind

theorem mark_append_last (m : List Nat) (v : Nat) : mark (m ++ [v]) (m.length + 1) = v := by
  simp [mark]

theorem mark_setLast {m : List Nat} {v : Nat} {i : Nat} (h : i < m.length) : mark (setLast v m) i = mark m i := by
  cases i with
  | zero => rfl
  | succ i => simp only [mark, setLast]; grind

theorem mark_setLast_last {m : List Nat} {v : Nat} (h : m ≠ []) : mark (setLast v m) m.length = v := by
  have : 0 < m.length := List.length_pos_iff.mpr h
  obtain ⟨k, hk⟩ : ∃ k, m.length = k + 1 := ⟨m.length - 1, by omega⟩
  rw [hk]
  simp only [mark, setLast]; grind

theorem setLast_length (v : Nat) (m : List Nat) : (setLast v m).length = m.length := by simp [setLast]

theorem mark_of_take {m m' : List Nat} {k i : Nat} (h : m'.take k = m.take k) (hi : i ≤ k) :
    mark m' i = mark m i := by
  cases i with
  | zero => rfl
  | succ i =>
    simp only [mark]
    have h1 : (m'.take k)[i]? = (m.take k)[i]? := by rw [h]
    rw [List.getElem?_take_of_lt hi, List.getElem?_take_of_lt hi] at h1
    simp [List.getD_eq_getElem?_getD, h1]

/-! ## Chunks -/

/-- Chunk `i` of a text. -/
def piece (n : Nat) (t : Bytes) (i : Nat) : Bytes := (t.drop (i * n)).take n

/-- The number of chunks of a text. -/
def count (n : Nat) (t : Bytes) : Nat := (t.length + (n - 1)) / n

theorem count_nil {n : Nat} (hn : 0 < n) : count n [] = 0 := by
  unfold count; simp; omega

theorem lt_count {n : Nat} (hn : 0 < n) {t : Bytes} {i : Nat} : i < count n t ↔ i * n < t.length := by
  unfold count
  rw [Nat.lt_div_iff_mul_lt hn]
  omega

theorem count_eq_zero {n : Nat} (hn : 0 < n) {t : Bytes} : count n t = 0 ↔ t = [] := by
  constructor
  · intro h
    have := mt (lt_count hn (t := t) (i := 0)).mpr (by omega)
    cases t with
    | nil => rfl
    | cons _ _ => simp at this
  · rintro rfl; exact count_nil hn

theorem count_spec {n : Nat} (hn : 0 < n) {t : Bytes} {k : Nat} (h1 : t.length ≤ k * n)
    (h2 : k = 0 ∨ (k - 1) * n < t.length) : count n t = k := by
  have a : ¬ k < count n t := by rw [lt_count hn]; omega
  have b : k = 0 ∨ k - 1 < count n t := by rw [lt_count hn]; exact h2
  omega

theorem count_le {n : Nat} (hn : 0 < n) (t : Bytes) : t.length ≤ count n t * n := by
  have : ¬ count n t < count n t := Nat.lt_irrefl _
  rw [lt_count hn] at this; omega

theorem piece_length {n : Nat} {t : Bytes} {i : Nat} : (piece n t i).length = min n (t.length - i * n) := by
  simp [piece]

theorem piece_append {n : Nat} {t u : Bytes} {i : Nat} (h : (i + 1) * n ≤ t.length) :
    piece n (t ++ u) i = piece n t i := by
  have e : (i + 1) * n = i * n + n := Nat.succ_mul ..
  unfold piece
  rw [List.drop_append_of_le_length (by omega), List.take_append_of_le_length (by simp; omega)]

/-- All chunks but the last are as they were after appending. -/
theorem piece_append_lt {n : Nat} (hn : 0 < n) {t u : Bytes} {i : Nat} (h : i + 1 < count n t) :
    piece n (t ++ u) i = piece n t i :=
  piece_append (by rw [lt_count hn] at h; omega)

theorem size_eq {n : Nat} (hn : 0 < n) {t : Bytes} (h : t ≠ []) :
    n * (count n t - 1) + (piece n t (count n t - 1)).length = t.length := by
  have h0 : count n t ≠ 0 := mt (count_eq_zero hn).mp h
  have h1 : count n t - 1 < count n t := by omega
  have h2 := count_le hn t
  rw [lt_count hn] at h1
  rw [piece_length]
  have e : count n t * n = (count n t - 1) * n + n := by
    rw [← Nat.succ_mul]; congr 1; omega
  rw [Nat.mul_comm n]
  omega

/-! ## What a store holds -/

/-- Chunk `i` of the text is in the file where the map says. -/
structure Stored (n : Nat) (z : Codec) (t : Bytes) (m : List Nat) (c : Bytes) (i : Nat) : Prop where
  le : mark m i ≤ mark m (i + 1)
  bound : mark m (i + 1) ≤ c.length
  bytes : slice (mark m i) (mark m (i + 1)) c = z.crush (piece n t i)

/-- The store holds text `t`; its size may not be set yet. -/
structure Core (n : Nat) (z : Codec) (t : Bytes) (s : Store) : Prop where
  len : s.map.length = count n t
  disk : s.limited = none → s.disk.map = s.map
  stored : ∀ i < count n t, (i + 1 < count n t ∨ (s.synced = true ∧ s.limited = none)) →
    Stored n z t s.map s.disk.contents i
  cache : s.valid = true → s.index < count n t ∧ s.chunk = piece n t s.index
  dirty : s.synced = false → s.valid = true ∧ s.index + 1 = count n t ∧ s.limited = none
  lim : ∀ l, s.limited = some l → s.readOnly = true ∧ (count n t ≠ 0 → l = piece n t (count n t - 1))

theorem Stored.mono {n z t m c i} (h : Stored n z t m c i) {m' c' t'}
    (h1 : mark m' i = mark m i) (h2 : mark m' (i + 1) = mark m (i + 1))
    (hc : c'.take (mark m (i + 1)) = c.take (mark m (i + 1))) (hp : piece n t' i = piece n t i) :
    Stored n z t' m' c' i := by
  have hl : mark m (i + 1) ≤ c'.length := by
    have := congrArg List.length hc
    simp only [List.length_take] at this
    have := h.bound
    omega
  exact ⟨by rw [h1, h2]; exact h.le, by rw [h2]; exact hl, by
    rw [h1, h2, slice_of_take hc (Nat.le_refl _), hp]; exact h.bytes⟩

theorem mark_mono {n z t m c k} (h : ∀ i < k, Stored n z t m c i) : ∀ {i}, i ≤ k → mark m i ≤ mark m k := by
  induction k with
  | zero => intro i hi; obtain rfl : i = 0 := by omega
            exact Nat.le_refl _
  | succ k ih =>
    intro i hi
    rcases Nat.lt_or_ge i (k + 1) with h1 | h1
    · exact Nat.le_trans (ih (fun j hj => h j (by omega)) (by omega)) (h k (by omega)).le
    · obtain rfl : i = k + 1 := by omega
      exact Nat.le_refl _

theorem mark_bound {n z t m c k} (h : ∀ i < k, Stored n z t m c i) : mark m k ≤ c.length := by
  cases k with
  | zero => exact Nat.zero_le _
  | succ k => exact (h k (by omega)).bound

/-! ## Which changes calls make -/

/-- Nothing but the files, the map, the cached chunk and the record of changes differ. -/
structure Frame (s s' : Store) : Prop where
  size : s'.size = s.size
  readOnly : s'.readOnly = s.readOnly
  limited : s'.limited = s.limited
  started : s'.started = s.started
  readied : s'.readied = s.readied
  base : s'.base = s.base
  limits : s'.disk.limits = s.disk.limits
  lock : s'.disk.lock = s.disk.lock

theorem Frame.rfl' (s : Store) : Frame s s := ⟨rfl, rfl, rfl, rfl, rfl, rfl, rfl, rfl⟩

theorem Frame.trans {a b c : Store} (h : Frame a b) (g : Frame b c) : Frame a c :=
  ⟨g.size.trans h.size, g.readOnly.trans h.readOnly, g.limited.trans h.limited,
   g.started.trans h.started, g.readied.trans h.readied, g.base.trans h.base,
   g.limits.trans h.limits, g.lock.trans h.lock⟩

/-- Changes a transaction may make without endangering the first `w` bytes of the contents and the
first `k` entries of the map. -/
def Mild (w k : Nat) : Op → Prop
  | .write pos _ => w ≤ pos
  | .last _ => True
  | .push _ => True
  | .cutContents n => w ≤ n
  | .cutMap n => k ≤ n
  | _ => False

/-- The files keep what is needed to bring back text `old`: `w` is where its last chunk starts. -/
structure Kept (n : Nat) (z : Codec) (old : Bytes) (w : Nat) (d : Disk) : Prop where
  limits : ∃ l, d.limits = some (count n old, l) ∧
    (count n old ≠ 0 → l = piece n old (count n old - 1))
  len : count n old ≤ d.map.length
  start : mark d.map (count n old - 1) = w
  stored : ∀ i < count n old - 1, Stored n z old d.map d.contents i

/-- The store is in a transaction that began with text `old`. -/
structure Tx (n : Nat) (z : Codec) (old : Bytes) (w : Nat) (s : Store) : Prop where
  kept : Kept n z old w s.base
  disk : s.disk = runAll s.log s.base
  mild : ∀ o ∈ s.log, Mild w (count n old) o
  start : mark s.map (count n old - 1) = w

/-- A pending write that does not touch the chunks of `old`. -/
def Behind (n : Nat) (z : Codec) (old : Bytes) (w : Nat) (p : Option (Nat × Bytes)) : Prop :=
  ∀ pos b, p = some (pos, b) →
    count n old = 0 ∨ w + (z.crush (piece n old (count n old - 1))).length ≤ pos

theorem count_mono {n : Nat} {t u : Bytes} (h : t <+: u) : count n t ≤ count n u := by
  unfold count
  exact Nat.div_le_div_right (by have := h.length_le; omega)

theorem runAll_append (a b : List Op) (d : Disk) : runAll (a ++ b) d = runAll b (runAll a d) := by
  simp [runAll]

theorem Tx.does {n z old w s} (h : Tx n z old w s) {o : Op} (ho : Mild w (count n old) o) :
    Tx n z old w (s.does o) :=
  ⟨h.kept, by simp [Store.does, h.disk, runAll], by
    intro x hx
    simp only [Store.does, List.mem_append, List.mem_singleton] at hx
    rcases hx with hx | rfl
    · exact h.mild x hx
    · exact ho, h.start⟩

/-- Nothing that `Tx` speaks of differs. -/
theorem Tx.same {n z old w s s'} (h : Tx n z old w s) (h1 : s'.disk = s.disk) (h2 : s'.log = s.log)
    (h3 : s'.base = s.base) (h4 : mark s'.map (count n old - 1) = mark s.map (count n old - 1)) :
    Tx n z old w s' :=
  ⟨h3 ▸ h.kept, by rw [h1, h2, h3]; exact h.disk, h2 ▸ h.mild, h4.trans h.start⟩

/-! ## Syncing and fetching -/

theorem piece_ne_nil {n : Nat} (hn : 0 < n) {t : Bytes} {i : Nat} (h : i < count n t) : piece n t i ≠ [] := by
  rw [lt_count hn] at h
  apply List.ne_nil_of_length_pos
  rw [piece_length]; omega

theorem sync_spec {n z t s} (hn : 0 < n) (h : Core n z t s) :
    ∃ s', sync z s = some s' ∧ Core n z t s' ∧ s'.synced = true ∧ Frame s s' ∧
      s'.valid = s.valid ∧ s'.index = s.index ∧ s'.chunk = s.chunk ∧ s'.flushed = s.flushed ∧
      (s.synced = true → s' = s) ∧
      ∀ old w, old <+: t → Tx n z old w s → Tx n z old w s' := by
  cases hs : s.synced with
  | true => exact ⟨s, by simp [sync, hs], h, hs, .rfl' s, rfl, rfl, rfl, rfl, fun _ => rfl, fun _ _ _ h => h⟩
  | false =>
    obtain ⟨hv, hi, hl⟩ := h.dirty hs
    obtain ⟨hi2, hc⟩ := h.cache hv
    have hne : s.map ≠ [] := by
      apply List.ne_nil_of_length_pos; rw [h.len]; omega
    have hch : s.chunk ≠ [] := by rw [hc]; exact piece_ne_nil hn hi2
    have hidx : s.index = s.map.length - 1 := by rw [h.len]; omega
    have e : sync z s = some
        { s with
          disk := { s.disk with
            contents := overwrite (mark s.map s.index) (z.crush s.chunk) s.disk.contents,
            map := setLast (mark s.map s.index + (z.crush s.chunk).length) s.disk.map },
          map := setLast (mark s.map s.index + (z.crush s.chunk).length) s.map,
          pending := some (mark s.map s.index, z.crush s.chunk),
          log := s.log ++ [.write (mark s.map s.index) (z.crush s.chunk)] ++
            [.last (mark s.map s.index + (z.crush s.chunk).length)],
          synced := true } := by
      unfold sync
      rw [if_neg (by simp [hs]), if_pos ⟨hl, hne, hv, hidx, hch⟩]
      simp only [Store.does, Op.run, ← hidx]
    have hst : ∀ i < s.index, Stored n z t s.map s.disk.contents i :=
      fun i hi' => h.stored i (by omega) (Or.inl (by omega))
    have hlen : s.map.length = s.index + 1 := by rw [h.len]; omega
    refine ⟨_, e, ⟨?_, ?_, ?_, ?_, ?_, ?_⟩, rfl, ⟨rfl, rfl, rfl, rfl, rfl, rfl, rfl, rfl⟩, rfl, rfl, rfl, rfl, ?_, ?_⟩
    · simpa [setLast_length] using h.len
    · intro hl'; simp [h.disk hl']
    · intro i hi' _
      rcases Nat.lt_or_ge i s.index with hlt | hge
      · have hi2 := hst i hlt
        refine hi2.mono (mark_setLast (by omega)) (mark_setLast (by omega)) ?_ rfl
        exact overwrite_take (mark_mono hst (by omega)) hi2.bound
      · obtain rfl : i = s.index := by omega
        have e1 : mark (setLast (mark s.map s.index + (z.crush s.chunk).length) s.map) (s.index + 1) =
            mark s.map s.index + (z.crush s.chunk).length := by
          rw [← hlen]; exact mark_setLast_last hne
        have e2 : mark (setLast (mark s.map s.index + (z.crush s.chunk).length) s.map) s.index =
            mark s.map s.index := mark_setLast (by omega)
        refine ⟨?_, ?_, ?_⟩
        · simp only [e1, e2]; omega
        · simp only [e1, overwrite_length]; omega
        · simp only [e1, e2, overwrite_slice]; rw [hc]
    · intro _; exact ⟨hi2, hc⟩
    · intro h'; cases h'
    · intro l hl'; exact absurd hl' (by simp [hl])
    · intro h'; cases h'
    · intro old w hp htx
      have hk := count_mono (n := n) hp
      have hw : w ≤ mark s.map s.index := by
        rw [← htx.start]; exact mark_mono hst (by omega)
      have h1 := (htx.does (o := .write (mark s.map s.index) (z.crush s.chunk)) hw).does
        (o := .last (mark s.map s.index + (z.crush s.chunk).length)) trivial
      exact h1.same rfl rfl rfl (mark_setLast (by omega))

theorem readFile_stored {n z t m c i} (h : Stored n z t m c i) :
    readFile (mark m i) (mark m (i + 1)) c = some (z.crush (piece n t i)) := by
  unfold readFile
  rw [if_pos ⟨h.le, h.bound⟩, h.bytes]

theorem piece_le {n : Nat} {t : Bytes} {i : Nat} : (piece n t i).length ≤ n := by
  rw [piece_length]; omega

theorem fetch_spec {n z t s} (hn : 0 < n) (hz : z.Restores n) (h : Core n z t s) {i : Nat}
    (hi : i < count n t) :
    ∃ s', fetch n z i s = some s' ∧ Core n z t s' ∧ Frame s s' ∧ s'.valid = true ∧ s'.index = i ∧
      s'.chunk = piece n t i ∧ s'.flushed = s.flushed ∧ (s.synced = true → s'.synced = true) ∧
      (s'.pending = none ∨ s'.pending = s.pending) ∧
      (s.synced = true → s'.disk = s.disk ∧ s'.log = s.log) ∧ (s.synced = true → s'.map = s.map) ∧
      ∀ old w, old <+: t → Tx n z old w s → Tx n z old w s' := by
  unfold fetch
  rw [if_pos (by rw [h.len]; exact hi)]
  by_cases hv : s.valid = true ∧ s.index = i
  · rw [if_pos hv]
    exact ⟨s, rfl, h, .rfl' s, hv.1, hv.2, by rw [(h.cache hv.1).2, hv.2], rfl, id, Or.inr rfl,
      fun _ => ⟨rfl, rfl⟩, fun _ => rfl, fun _ _ _ h => h⟩
  · rw [if_neg hv]
    obtain ⟨s1, e1, c1, sy, f1, -, -, -, fl, same, tx1⟩ := sync_spec hn h
    rw [e1]
    simp only
    unfold load
    split
    · rename_i l hl hd
      have hd' : i = s1.map.length - 1 := by simpa using hd
      have hl' := (c1.lim l hl).2 (by omega)
      rw [c1.len] at hd'
      have hsy : s1 = s := by
        cases hs : s.synced with
        | true => exact same hs
        | false => exact absurd (h.dirty hs).2.2 (by rw [← f1.limited, hl]; simp)
      refine ⟨_, rfl, ⟨c1.len, c1.disk, c1.stored, ?_, ?_, c1.lim⟩, ?_, rfl, rfl, ?_, ?_, ?_, ?_, ?_, ?_, ?_⟩
      · intro _; exact ⟨hi, by simp only; rw [hl', hd']⟩
      · intro hs; rw [sy] at hs; cases hs
      · exact ⟨f1.size, f1.readOnly, f1.limited, f1.started, f1.readied, f1.base, f1.limits, f1.lock⟩
      · simp only; rw [hl', hd']
      · exact fl
      · intro _; exact sy
      · right; rw [hsy]
      · intro _; rw [hsy]; exact ⟨rfl, rfl⟩
      · intro _; rw [hsy]
      · intro old w hp htx
        exact (tx1 old w hp htx).same rfl rfl rfl rfl
    · rename_i hnot
      have hst : Stored n z t s1.map s1.disk.contents i := by
        apply c1.stored i hi
        by_cases hlast : i + 1 < count n t
        · exact Or.inl hlast
        · right
          refine ⟨sy, ?_⟩
          cases hl : s1.limited with
          | none => rfl
          | some l => exact absurd (hnot l hl (by simp [c1.len]; omega)) (by simp)
      rw [readFile_stored hst]
      simp only [hz _ piece_le]
      rw [if_pos piece_le]
      refine ⟨_, rfl, ⟨c1.len, c1.disk, c1.stored, ?_, ?_, c1.lim⟩, ?_, rfl, rfl, rfl, fl, ?_, Or.inl rfl, ?_, ?_, ?_⟩
      · intro _; exact ⟨hi, rfl⟩
      · intro hs; rw [sy] at hs; cases hs
      · exact ⟨f1.size, f1.readOnly, f1.limited, f1.started, f1.readied, f1.base, f1.limits, f1.lock⟩
      · intro _; exact sy
      · intro hs; rw [same hs]; exact ⟨rfl, rfl⟩
      · intro hs; rw [same hs]
      · intro old w hp htx
        exact (tx1 old w hp htx).same rfl rfl rfl rfl

/-! ## Appending -/

theorem full_piece {n : Nat} {t u : Bytes} {k : Nat} (h : t.length = k * n) (hu : u.length ≤ n) :
    piece n (t ++ u) k = u := by
  unfold piece
  rw [← h, List.drop_left, List.take_of_length_le hu]

theorem full_count {n : Nat} (hn : 0 < n) {t u : Bytes} {k : Nat} (h : t.length = k * n) (hu : u.length ≤ n)
    (hne : u ≠ []) : count n (t ++ u) = k + 1 := by
  have := List.length_pos_iff.mpr hne
  apply count_spec hn
  · simp [h, Nat.succ_mul]; exact hu
  · right; simp [h]; exact this

theorem appendFull_spec {n z t s} (hn : 0 < n) (h : Core n z t s) (hs : s.synced = true)
    (hl : s.limited = none) (hf : t.length = count n t * n) {u : Bytes} (hu : u.length ≤ n) (hne : u ≠ []) :
    Core n z (t ++ u) (appendFull z u s) ∧ Frame s (appendFull z u s) ∧
      (appendFull z u s).synced = true ∧ (appendFull z u s).flushed = s.flushed ∧
      (∀ old w, old <+: t → Tx n z old w s → Tx n z old w (appendFull z u s)) ∧
      ∀ old w, z.Grows → old <+: t → Tx n z old w s → Behind n z old w (appendFull z u s).pending := by
  have hst : ∀ i < count n t, Stored n z t s.map s.disk.contents i :=
    fun i hi => h.stored i hi (Or.inr ⟨hs, hl⟩)
  have hk := full_count hn hf hu hne
  have e : appendFull z u s =
      { s with
        disk := { s.disk with
          contents := overwrite (mark s.map s.map.length) (z.crush u) s.disk.contents,
          map := s.disk.map ++ [mark s.map s.map.length + (z.crush u).length] },
        map := s.map ++ [mark s.map s.map.length + (z.crush u).length],
        pending := some (mark s.map s.map.length, z.crush u),
        log := s.log ++ [.write (mark s.map s.map.length) (z.crush u)] ++
          [.push (mark s.map s.map.length + (z.crush u).length)] } := by
    simp only [appendFull, Store.does, Op.run]
  rw [e]
  have hlen := h.len
  have hpc : ∀ i < count n t, piece n (t ++ u) i = piece n t i := by
    intro i hi
    apply piece_append
    rw [hf]; exact Nat.mul_le_mul_right _ hi
  refine ⟨⟨?_, ?_, ?_, ?_, ?_, ?_⟩, ⟨rfl, rfl, rfl, rfl, rfl, rfl, rfl, rfl⟩, hs, rfl, ?_, ?_⟩
  · simp [hk, hlen]
  · intro hl'; simp [h.disk hl']
  · intro i hi _
    rcases Nat.lt_or_ge i (count n t) with hlt | hge
    · have hi2 := hst i hlt
      refine hi2.mono (mark_append (by omega)) (mark_append (by omega)) ?_ (hpc i hlt)
      exact overwrite_take (hlen ▸ mark_mono hst (by omega)) hi2.bound
    · obtain rfl : i = s.map.length := by omega
      have e1 : mark (s.map ++ [mark s.map s.map.length + (z.crush u).length]) (s.map.length + 1) =
          mark s.map s.map.length + (z.crush u).length := mark_append_last ..
      have e2 : mark (s.map ++ [mark s.map s.map.length + (z.crush u).length]) s.map.length =
          mark s.map s.map.length := mark_append (Nat.le_refl _)
      refine ⟨?_, ?_, ?_⟩
      · simp only [e1, e2]; omega
      · simp only [e1, overwrite_length]; omega
      · simp only [e1, e2, overwrite_slice]; rw [full_piece (hlen ▸ hf) hu]
  · intro hv
    obtain ⟨h1, h2⟩ := h.cache hv
    exact ⟨by rw [hk]; exact Nat.lt_succ_of_lt h1, by rw [hpc _ h1]; exact h2⟩
  · intro h'; rw [hs] at h'; cases h'
  · intro l hl'; exact absurd hl' (by simp [hl])
  · intro old w hp htx
    have hko := count_mono (n := n) hp
    have hw : w ≤ mark s.map s.map.length := by
      rw [← htx.start, hlen]; exact mark_mono hst (by omega)
    have h1 := (htx.does (o := .write (mark s.map s.map.length) (z.crush u)) hw).does
      (o := .push (mark s.map s.map.length + (z.crush u).length)) trivial
    exact h1.same rfl rfl rfl (mark_append (by omega))
  · intro old w hg hp htx pos b he
    obtain ⟨rfl, rfl⟩ : mark s.map s.map.length = pos ∧ z.crush u = b := by simpa using he
    have hko := count_mono (n := n) hp
    by_cases h0 : count n old = 0
    · exact Or.inl h0
    · right
      have hk1 := hst (count n old - 1) (by omega)
      have hb := hk1.bytes
      rw [htx.start] at hb
      have e1 : count n old - 1 + 1 = count n old := by omega
      rw [e1] at hb
      have hlb := congrArg List.length hb
      have hbd := hk1.bound
      rw [e1] at hbd
      simp only [slice, List.length_drop, List.length_take] at hlb
      have hm : mark s.map (count n old) ≤ mark s.map s.map.length := by
        rw [hlen]; exact mark_mono hst hko
      obtain ⟨x, rfl⟩ := hp
      have hgr := hg (piece n old (count n old - 1)) ((x.take (n - (piece n old (count n old - 1)).length)))
      have hpe : piece n (old ++ x) (count n old - 1) =
          piece n old (count n old - 1) ++ x.take (n - (piece n old (count n old - 1)).length) := by
        have hlt : count n old - 1 < count n old := by omega
        rw [lt_count hn] at hlt
        have hcl := count_le hn old
        have e2 : count n old * n = (count n old - 1) * n + n := by
          rw [← Nat.succ_mul]; congr 1; omega
        simp only [piece]
        rw [List.drop_append_of_le_length (by omega), List.take_append]
        simp; omega
      rw [← hpe] at hgr
      have hle := hk1.le
      rw [htx.start, e1] at hle
      omega

theorem startNew_eq {n z s} {u : Bytes} (hl : s.limited = none) (hu : u.length ≤ n) (hne : u ≠ []) :
    startNew n z u s = some { appendFull z u s with
      valid := true, index := s.map.length, chunk := u, synced := true } := by
  unfold startNew
  rw [if_pos ⟨hl, hne, hu⟩]
  rfl

theorem startNew_spec {n z t s} (hn : 0 < n) (h : Core n z t s) (hs : s.synced = true)
    (hl : s.limited = none) (hf : t.length = count n t * n) {u : Bytes} (hu : u.length ≤ n) (hne : u ≠ []) :
    ∃ s', startNew n z u s = some s' ∧ Core n z (t ++ u) s' ∧ Frame s s' ∧ s'.synced = true ∧
      s'.flushed = s.flushed ∧ s'.valid = true ∧ s'.index = count n (t ++ u) - 1 ∧
      (∀ old w, old <+: t → Tx n z old w s → Tx n z old w s') ∧
      ∀ old w, z.Grows → old <+: t → Tx n z old w s → Behind n z old w s'.pending := by
  obtain ⟨c, f, sy, fl, tx, be⟩ := appendFull_spec (z := z) hn h hs hl hf hu hne
  have hk := full_count hn hf hu hne
  refine ⟨_, startNew_eq hl hu hne, ⟨c.len, c.disk, ?_, ?_, ?_, c.lim⟩, ?_, rfl, fl, rfl, ?_, ?_, be⟩
  · intro i hi _
    exact c.stored i hi (Or.inr ⟨sy, f.limited.trans hl⟩)
  · intro _
    exact ⟨by show s.map.length < _; rw [h.len, hk]; omega, by simp only; rw [h.len, full_piece hf hu]⟩
  · intro h'; cases h'
  · exact ⟨f.size, f.readOnly, f.limited, f.started, f.readied, f.base, f.limits, f.lock⟩
  · simp only [h.len, hk]; omega
  · intro old w hp htx
    exact (tx old w hp htx).same rfl rfl rfl rfl

theorem appendRest_spec {n z} (hn : 0 < n) : ∀ {fuel : Nat} {u t : Bytes} {s : Store}, u.length ≤ fuel →
    u ≠ [] → Core n z t s → s.synced = true → s.limited = none → t.length = count n t * n →
    ∃ s', appendRest n z fuel u s = some s' ∧ Core n z (t ++ u) s' ∧ Frame s s' ∧
      s'.flushed = s.flushed ∧ s'.valid = true ∧ s'.index = count n (t ++ u) - 1 ∧
      (∀ old w, old <+: t → Tx n z old w s → Tx n z old w s') ∧
      ∀ old w, z.Grows → old <+: t → Tx n z old w s → Behind n z old w s'.pending := by
  intro fuel
  induction fuel with
  | zero =>
    intro u t s hu hne
    exact absurd (List.length_eq_zero_iff.mp (by omega)) hne
  | succ fuel ih =>
    intro u t s hu hne h hs hl hf
    unfold appendRest
    split
    · rename_i hgt
      have hlt : (u.take n).length = n := by simp; omega
      have htn : u.take n ≠ [] := List.ne_nil_of_length_pos (by omega)
      have hdn : u.drop n ≠ [] := List.ne_nil_of_length_pos (by simp; omega)
      obtain ⟨c, f, sy, fl, tx, -⟩ := appendFull_spec (z := z) hn h hs hl hf (u := u.take n) (by omega) htn
      have hk := full_count hn hf (u := u.take n) (by omega) htn
      obtain ⟨s', e', c', f', fl', hv, hi, tx', be'⟩ := ih (u := u.drop n) (t := t ++ u.take n)
        (s := appendFull z (u.take n) s) (by simp; omega) hdn c sy (f.limited.trans hl)
        (by rw [hk, Nat.succ_mul, List.length_append, hf, hlt])
      rw [List.append_assoc, List.take_append_drop] at c' hi
      have hpre : ∀ {old : Bytes}, old <+: t → old <+: t ++ u.take n :=
        fun h => h.trans (List.prefix_append ..)
      exact ⟨s', e', c', f.trans f', fl'.trans fl, hv, hi,
        fun old w hp htx => tx' old w (hpre hp) (tx old w hp htx),
        fun old w hg hp htx => be' old w hg (hpre hp) (tx old w hp htx)⟩
    · rename_i hle
      obtain ⟨s', e', c', f', -, fl', hv, hi, tx', be'⟩ :=
        startNew_spec (z := z) hn h hs hl hf (u := u) (by omega) hne
      exact ⟨s', e', c', f', fl', hv, hi, tx', be'⟩

theorem piece_fill {n : Nat} {t u : Bytes} {i : Nat} (h1 : i * n ≤ t.length)
    (h2 : (t.drop (i * n)).length + u.length ≤ n) : piece n (t ++ u) i = piece n t i ++ u := by
  unfold piece
  rw [List.drop_append_of_le_length h1, List.take_of_length_le (by simp at h2 ⊢; omega),
    List.take_of_length_le (by omega)]

theorem last_bounds {n : Nat} (hn : 0 < n) {t : Bytes} (h : t ≠ []) :
    (count n t - 1) * n < t.length ∧ t.length ≤ (count n t - 1) * n + n ∧
      (piece n t (count n t - 1)).length = t.length - (count n t - 1) * n := by
  have h0 : count n t ≠ 0 := mt (count_eq_zero hn).mp h
  have h1 : count n t - 1 < count n t := by omega
  rw [lt_count hn] at h1
  have h2 := count_le hn t
  have e : count n t * n = (count n t - 1) * n + n := by rw [← Nat.succ_mul]; congr 1; omega
  refine ⟨h1, by omega, ?_⟩
  rw [piece_length]; omega

/-- The first part of appending: afterwards some of the text is in, and either all of it is or the last
chunk is full. -/
theorem appendFirst_spec {n z t s} (hn : 0 < n) (hz : z.Restores n) (h : Core n z t s)
    (hl : s.limited = none) {u : Bytes} (hne : u ≠ []) :
    ∃ s' a r, appendFirst n z u s = some (s', r) ∧ a ++ r = u ∧ Core n z (t ++ a) s' ∧ Frame s s' ∧
      t ++ a ≠ [] ∧ s'.valid = true ∧ s'.index = count n (t ++ a) - 1 ∧
      (r = [] ∨ (t ++ a).length = count n (t ++ a) * n) ∧ s'.flushed = s.flushed ∧
      (∀ old w, old <+: t → Tx n z old w s → Tx n z old w s') ∧
      ∀ old w, z.Grows → old <+: t → Tx n z old w s → Behind n z old w s.pending →
        Behind n z old w s'.pending := by
  unfold appendFirst
  by_cases hm : s.map = []
  · rw [if_pos hm]
    have h0 : count n t = 0 := by rw [← h.len, hm]; rfl
    have ht : t = [] := (count_eq_zero hn).mp h0
    subst ht
    have hup := List.length_pos_iff.mpr hne
    have htn : u.take n ≠ [] := List.ne_nil_of_length_pos (by simp; omega)
    have hsy : s.synced = true := by
      cases hs : s.synced with
      | true => rfl
      | false => have := (h.dirty hs).2.1; omega
    obtain ⟨s', e', c', f', -, fl', hv, hi, tx', be'⟩ :=
      startNew_spec (z := z) hn h hsy hl (by simp [h0]) (u := u.take n) (by simp; omega) htn
    refine ⟨s', u.take n, u.drop n, by rw [e']; rfl, List.take_append_drop .., c', f', by simpa using htn, hv, hi, ?_, fl', tx', fun old w hg hp htx _ => be' old w hg hp htx⟩
    by_cases hle : u.length ≤ n
    · exact Or.inl (List.drop_eq_nil_of_le hle)
    · right
      have hk := full_count hn (t := []) (k := 0) (by simp) (u := u.take n) (by simp; omega) htn
      rw [hk]; simp; omega
  · rw [if_neg hm]
    have ht : t ≠ [] := by
      rintro rfl
      exact hm (List.length_eq_zero_iff.mp (by rw [h.len, count_nil hn]))
    have h0 : count n t ≠ 0 := mt (count_eq_zero hn).mp ht
    obtain ⟨lb1, lb2, lb3⟩ := last_bounds hn ht
    obtain ⟨s1, e1, c1, f1, hv1, hi1, hch1, fl1, -, pe1, -, -, tx1⟩ :=
      fetch_spec hn hz h (i := count n t - 1) (by omega)
    have hfl : fetchLast n z s = some s1 := by unfold fetchLast; rw [h.len]; exact e1
    rw [hfl]
    simp only
    have be1 : ∀ old w, z.Grows → old <+: t → Tx n z old w s → Behind n z old w s.pending →
        Behind n z old w s1.pending := by
      intro old w _ _ _ hb
      rcases pe1 with pe | pe
      · rw [pe]; intro pos b hx; cases hx
      · rw [pe]; exact hb
    rw [hch1]
    split
    · rename_i hroom
      refine ⟨s1, [], u, rfl, rfl, by simpa using c1, f1, by simpa using ht, hv1, by simpa using hi1, Or.inr ?_, fl1, tx1, be1⟩
      have e : count n t * n = (count n t - 1) * n + n := by rw [← Nat.succ_mul]; congr 1; omega
      simp; omega
    · rename_i hroom
      have hlen : s1.map.length = count n t := c1.len
      have hne1 : s1.map ≠ [] := List.ne_nil_of_length_pos (by omega)
      have hl1 : s1.limited = none := f1.limited.trans hl
      rw [show appendLast n (u.take (n - (piece n t (count n t - 1)).length)) s1 = some
          { s1 with chunk := s1.chunk ++ u.take (n - (piece n t (count n t - 1)).length), synced := false } from by
        unfold appendLast
        rw [if_pos ⟨hl1, hne1, hv1, by omega, by rw [hch1]; simp; omega⟩]]
      generalize hr : n - (piece n t (count n t - 1)).length = room at hroom ⊢
      have hta : t ++ u.take room ≠ [] := by simp [ht]
      have hk : count n (t ++ u.take room) = count n t := by
        apply count_spec hn
        · have e : count n t * n = (count n t - 1) * n + n := by rw [← Nat.succ_mul]; congr 1; omega
          simp; omega
        · right; simp; omega
      refine ⟨_, u.take room, u.drop room, rfl, List.take_append_drop .., ⟨?_, c1.disk, ?_, ?_, ?_, ?_⟩, ?_, hta, hv1, ?_, ?_, fl1, ?_, be1⟩
      · rw [hk]; exact c1.len
      · intro i hi hor
        rw [hk] at hi hor
        rcases hor with hor | ⟨hx, -⟩
        · have hst := c1.stored i hi (Or.inl hor)
          exact hst.mono rfl rfl rfl (piece_append_lt hn hor)
        · cases hx
      · intro _
        refine ⟨by rw [hk]; simp only [hi1]; omega, ?_⟩
        simp only [hi1, hch1]
        rw [piece_fill (by omega)]
        simp; omega
      · intro _
        exact ⟨hv1, by rw [hk]; simp only [hi1]; omega, hl1⟩
      · intro l hl'; exact absurd hl' (by simp [hl1])
      · exact ⟨f1.size, f1.readOnly, f1.limited, f1.started, f1.readied, f1.base, f1.limits, f1.lock⟩
      · rw [hk]; exact hi1
      · by_cases hle : u.length ≤ room
        · exact Or.inl (List.drop_eq_nil_of_le hle)
        · right
          rw [hk]
          have e : count n t * n = (count n t - 1) * n + n := by rw [← Nat.succ_mul]; congr 1; omega
          simp; omega
      · intro old w hp htx
        exact (tx1 old w hp htx).same rfl rfl rfl rfl

/-- The store holds `t`, and says how long it is. -/
structure Holds (n : Nat) (z : Codec) (t : Bytes) (s : Store) : Prop extends Core n z t s where
  size : s.size = t.length
  flush : s.flushed = true → s.synced = true

/-- The same as `Frame`, but for the size. -/
structure Frame' (s s' : Store) : Prop where
  readOnly : s'.readOnly = s.readOnly
  limited : s'.limited = s.limited
  started : s'.started = s.started
  readied : s'.readied = s.readied
  base : s'.base = s.base
  limits : s'.disk.limits = s.disk.limits
  lock : s'.disk.lock = s.disk.lock

theorem Frame.to {s s'} (h : Frame s s') : Frame' s s' :=
  ⟨h.readOnly, h.limited, h.started, h.readied, h.base, h.limits, h.lock⟩

theorem setSize_holds {n z t s} (hn : 0 < n) (h : Core n z t s) (ht : t ≠ []) (hv : s.valid = true)
    (hi : s.index = count n t - 1) : (setSize n s).size = t.length := by
  simp only [setSize]
  rw [h.len, (h.cache hv).2, hi]
  exact size_eq hn ht

theorem Core.same {n z t s s'} (h : Core n z t s) (h1 : s'.map = s.map) (h2 : s'.disk = s.disk)
    (h3 : s'.synced = s.synced) (h4 : s'.limited = s.limited) (h5 : s'.valid = s.valid)
    (h6 : s'.index = s.index) (h7 : s'.chunk = s.chunk) (h8 : s'.readOnly = s.readOnly) : Core n z t s' :=
  ⟨by rw [h1]; exact h.len, by rw [h1, h2, h4]; exact h.disk, by rw [h1, h2, h3, h4]; exact h.stored,
   by rw [h5, h6, h7]; exact h.cache, by rw [h3, h4, h5, h6]; exact h.dirty, by rw [h4, h8]; exact h.lim⟩

theorem append_spec {n z t s} (hn : 0 < n) (hz : z.Restores n) (h : Holds n z t s)
    (hl : s.limited = none) (hr : s.readOnly = false) (u : Bytes) :
    ∃ s', append n z u s = some s' ∧ Holds n z (t ++ u) s' ∧ Frame' s s' ∧
      s'.flushed = (s.flushed && u.isEmpty) ∧
      (u = [] → s' = s) ∧
      (∀ old w, old <+: t → Tx n z old w s → Tx n z old w s') ∧
      ∀ old w, z.Grows → old <+: t → Tx n z old w s → Behind n z old w s.pending →
        Behind n z old w s'.pending := by
  unfold append
  rw [if_neg (by simp [hr])]
  by_cases hu : u = []
  · subst hu
    rw [if_pos rfl]
    exact ⟨s, rfl, by simpa using h, (Frame.rfl' s).to, by simp, fun _ => rfl, fun _ _ _ h => h, fun _ _ _ _ _ h => h⟩
  · rw [if_neg hu]
    have hc0 : Core n z t { s with flushed := false } := h.toCore.same rfl rfl rfl rfl rfl rfl rfl rfl
    obtain ⟨s1, a, r, e1, har, c1, f1, hta, hv1, hi1, hfull, fl1, tx1, be1⟩ :=
      appendFirst_spec hn hz hc0 hl hu
    rw [e1]
    simp only
    have hfu : (s.flushed && u.isEmpty) = false := by
      cases u with
      | nil => exact absurd rfl hu
      | cons _ _ => simp
    rw [hfu]
    have tx1' : ∀ old w, old <+: t → Tx n z old w s → Tx n z old w s1 :=
      fun old w hp htx => tx1 old w hp (htx.same rfl rfl rfl rfl)
    have fr1 : Frame' s s1 := ⟨f1.readOnly, f1.limited, f1.started, f1.readied, f1.base, f1.limits, f1.lock⟩
    by_cases hre : r = []
    · rw [if_pos hre]
      subst hre
      obtain rfl : a = u := by simpa using har
      refine ⟨_, rfl, ⟨c1.same rfl rfl rfl rfl rfl rfl rfl rfl, setSize_holds hn c1 hta hv1 hi1, ?_⟩, ?_, ?_, fun h => absurd h hu, ?_, ?_⟩
      · intro hx; simp only [setSize] at hx; rw [fl1] at hx; cases hx
      · exact ⟨fr1.1, fr1.2, fr1.3, fr1.4, fr1.5, fr1.6, fr1.7⟩
      · exact fl1
      · intro old w hp htx; exact (tx1' old w hp htx).same rfl rfl rfl rfl
      · intro old w hg hp htx hb
        exact be1 old w hg hp (htx.same rfl rfl rfl rfl) hb
    · rw [if_neg hre]
      have hfull := hfull.resolve_left hre
      obtain ⟨s2, e2, c2, sy2, f2, hv2, hi2, hc2, fl2, -, tx2⟩ := sync_spec hn c1
      rw [e2]
      simp only
      have hl2 : s2.limited = none := f2.limited.trans (f1.limited.trans hl)
      obtain ⟨s3, e3, c3, f3, fl3, hv3, hi3, tx3, be3⟩ :=
        appendRest_spec (z := z) hn (fuel := r.length) (u := r) (Nat.le_refl _) hre c2 sy2 hl2 hfull
      rw [e3]
      simp only
      rw [List.append_assoc, har] at c3 hi3
      have htu : t ++ u ≠ [] := by simp [hu]
      have hcn : count n (t ++ u) ≠ 0 := mt (count_eq_zero hn).mp htu
      have hne3 : s3.map ≠ [] := List.ne_nil_of_length_pos (by rw [c3.len]; omega)
      rw [if_pos ⟨hne3, hv3, by rw [hi3, c3.len]⟩]
      have hpre : ∀ {old : Bytes}, old <+: t → old <+: t ++ a := fun h => h.trans (List.prefix_append ..)
      have fr := (f2.trans f3).to
      refine ⟨_, rfl, ⟨c3.same rfl rfl rfl rfl rfl rfl rfl rfl, setSize_holds hn c3 htu hv3 hi3, ?_⟩, ?_, ?_, fun h => absurd h hu, ?_, ?_⟩
      · intro hx; simp only [setSize] at hx; rw [fl3, fl2, fl1] at hx; cases hx
      · exact ⟨fr.1.trans fr1.1, fr.2.trans fr1.2, fr.3.trans fr1.3, fr.4.trans fr1.4, fr.5.trans fr1.5, fr.6.trans fr1.6, fr.7.trans fr1.7⟩
      · simp only [setSize]; rw [fl3, fl2, fl1]
      · intro old w hp htx
        exact (tx3 old w (hpre hp) (tx2 old w (hpre hp) (tx1' old w hp htx))).same rfl rfl rfl rfl
      · intro old w hg hp htx hb
        exact be3 old w hg (hpre hp) (tx2 old w (hpre hp) (tx1' old w hp htx))

/-! ## Flushing and reading -/

theorem flush_spec {n z t s} (hn : 0 < n) (h : Holds n z t s) :
    ∃ s', flush z s = some s' ∧ Holds n z t s' ∧ Frame' s s' ∧
      (s.readOnly = false → s'.flushed = true ∧ (s.flushed = false → s'.pending = none)) ∧
      ((s.readOnly = true ∨ s.flushed = true) → s' = s) ∧
      (∀ old w, old <+: t → Tx n z old w s → Tx n z old w s') ∧
      ∀ old w, Behind n z old w s.pending → Behind n z old w s'.pending := by
  unfold flush
  by_cases hr : s.readOnly = true
  · rw [if_pos hr]
    exact ⟨s, rfl, h, (Frame.rfl' s).to, fun h => by simp [hr] at h, fun _ => rfl, fun _ _ _ h => h, fun _ _ h => h⟩
  · rw [if_neg hr]
    by_cases hf : s.flushed = true
    · rw [if_pos hf]
      exact ⟨s, rfl, h, (Frame.rfl' s).to, fun _ => ⟨hf, fun h => by simp [hf] at h⟩, fun _ => rfl, fun _ _ _ h => h, fun _ _ h => h⟩
    · rw [if_neg hf]
      obtain ⟨s1, e1, c1, sy, f1, -, -, -, fl, -, tx1⟩ := sync_spec hn h.toCore
      rw [e1]
      refine ⟨_, rfl, ⟨c1.same rfl rfl rfl rfl rfl rfl rfl rfl, f1.size.trans h.size, fun _ => sy⟩, ?_, fun _ => ⟨rfl, fun _ => rfl⟩, ?_, ?_, ?_⟩
      · have f := f1.to
        exact ⟨f.1, f.2, f.3, f.4, f.5, f.6, f.7⟩
      · intro h; rcases h with h | h
        · exact absurd h hr
        · exact absurd h hf
      · intro old w hp htx; exact (tx1 old w hp htx).same rfl rfl rfl rfl
      · intro old w _ pos b hx; cases hx

theorem copy_piece {n : Nat} {t : Bytes} {i off len : Nat} (h1 : off + len ≤ n) (h2 : i * n + off + len ≤ t.length) :
    copy off len (piece n t i) = some ((t.drop (i * n + off)).take len) := by
  unfold copy
  rw [if_pos (by rw [piece_length]; omega)]
  congr 1
  unfold piece
  rw [List.drop_take, List.take_take, List.drop_drop]
  congr 1
  omega

theorem Frame.congr {s s' s'' : Store} (h : Frame s s') (h1 : s''.size = s.size)
    (h2 : s''.readOnly = s.readOnly) (h3 : s''.limited = s.limited) (h4 : s''.started = s.started)
    (h5 : s''.readied = s.readied) (h6 : s''.base = s.base) (h7 : s''.disk = s.disk) : Frame s'' s' :=
  ⟨by rw [h1]; exact h.1, by rw [h2]; exact h.2, by rw [h3]; exact h.3, by rw [h4]; exact h.4,
   by rw [h5]; exact h.5, by rw [h6]; exact h.6, by rw [h7]; exact h.7, by rw [h7]; exact h.8⟩

theorem readWhole_spec {n z t} (hn : 0 < n) (hz : z.Restores n) :
    ∀ {fuel i desired : Nat} {s : Store}, desired ≤ fuel → 0 < desired → i * n + desired ≤ t.length →
      Core n z t s → s.synced = true →
      ∃ s', readWhole n z fuel i desired s = some (s', (t.drop (i * n)).take desired) ∧ Core n z t s' ∧
        Frame s s' ∧ s'.synced = true ∧ s'.flushed = s.flushed ∧ (s'.pending = none ∨ s'.pending = s.pending) ∧
        s'.disk = s.disk ∧ s'.log = s.log ∧ s'.map = s.map ∧
        ∀ old w, old <+: t → Tx n z old w s → Tx n z old w s' := by
  intro fuel
  induction fuel with
  | zero => intro i d s h1 h2; omega
  | succ fuel ih =>
    intro i d s h1 h2 h3 h hs
    unfold readWhole
    split
    · rename_i hgt
      have e : (i + 1) * n = i * n + n := Nat.succ_mul ..
      have hi : i + 1 < count n t := by rw [lt_count hn]; omega
      have hst := h.stored i (by omega) (Or.inl hi)
      rw [readFile_stored hst]
      simp only [hz _ piece_le]
      have hlen : (piece n t i).length = n := by rw [piece_length]; omega
      rw [if_pos hlen]
      obtain ⟨s', e', c', f', sy', fl', pe', d', l', m', tx'⟩ := ih (i := i + 1) (desired := d - n)
        (s := { s with pending := none }) (by omega) (by omega) (by omega)
        (h.same rfl rfl rfl rfl rfl rfl rfl rfl) hs
      rw [e']
      refine ⟨s', ?_, c', f'.congr rfl rfl rfl rfl rfl rfl rfl, sy', fl', ?_, d', l', m', ?_⟩
      · simp only
        congr 2
        unfold piece
        rw [e, ← List.drop_drop]
        have : d = n + (d - n) := by omega
        conv => rhs; rw [this]
        rw [List.take_add]
      · rcases pe' with pe' | pe' <;> exact Or.inl pe'
      · intro old w hp htx
        exact tx' old w hp (htx.same rfl rfl rfl rfl)
    · rename_i hle
      have hi : i < count n t := by rw [lt_count hn]; omega
      obtain ⟨s', e', c', f', hv, hidx, hc, fl, sy, pe, dl, mp, tx⟩ := fetch_spec hn hz h hi
      rw [e']
      simp only [hc]
      rw [copy_piece (by omega) (by omega)]
      exact ⟨s', by simp, c', f', sy hs, fl, pe, (dl hs).1, (dl hs).2, mp hs, tx⟩

theorem readAt_spec {n z t s} (hn : 0 < n) (hz : z.Restores n) (h : Core n z t s) (hs : s.synced = true)
    {start desired : Nat} (h0 : 0 < desired) (h1 : start + desired ≤ t.length) :
    ∃ s', readAt n z start desired s = some (s', (t.drop start).take desired) ∧ Core n z t s' ∧
      Frame s s' ∧ s'.synced = true ∧ s'.flushed = s.flushed ∧ (s'.pending = none ∨ s'.pending = s.pending) ∧
      s'.disk = s.disk ∧ s'.log = s.log ∧ s'.map = s.map ∧
      ∀ old w, old <+: t → Tx n z old w s → Tx n z old w s' := by
  have hdm : start = start / n * n + start % n := by
    have := Nat.div_add_mod start n
    rw [Nat.mul_comm] at this; omega
  have hml : start % n < n := Nat.mod_lt _ hn
  unfold readAt
  simp only
  generalize start / n = i at *
  generalize start % n = off at *
  subst hdm
  split
  · rename_i hoff
    have hi : i < count n t := by rw [lt_count hn]; omega
    obtain ⟨s1, e1, c1, f1, hv, hidx, hc, fl, sy, pe, dl, mp, tx⟩ := fetch_spec hn hz h hi
    rw [e1]
    simp only [hc]
    rw [copy_piece (by omega) (by omega)]
    simp only
    split
    · rename_i hz0
      refine ⟨s1, ?_, c1, f1, sy hs, fl, pe, (dl hs).1, (dl hs).2, mp hs, tx⟩
      congr 3; omega
    · rename_i hz0
      have e : (i + 1) * n = i * n + n := Nat.succ_mul ..
      have hm : min desired (n - off) = n - off := by omega
      rw [hm]
      obtain ⟨s2, e2, c2, f2, sy2, fl2, pe2, d2, l2, m2, tx2⟩ := readWhole_spec hn hz
        (fuel := desired - (n - off)) (i := i + 1) (desired := desired - (n - off)) (s := s1)
        (Nat.le_refl _) (by omega) (by omega) c1 (sy hs)
      rw [e2]
      refine ⟨s2, ?_, c2, f1.trans f2, sy2, fl2.trans fl, ?_, d2.trans (dl hs).1, l2.trans (dl hs).2, m2.trans (mp hs),
        fun old w hp htx => tx2 old w hp (tx old w hp htx)⟩
      · simp only
        congr 2
        have : desired = (n - off) + (desired - (n - off)) := by omega
        conv => rhs; rw [this]
        rw [List.take_add, List.drop_drop]
        congr 3
        omega
      · rcases pe2 with pe2 | pe2
        · exact Or.inl pe2
        · rcases pe with pe | pe
          · exact Or.inl (pe2.trans pe)
          · exact Or.inr (pe2.trans pe)
  · rename_i hoff
    obtain rfl : off = 0 := by omega
    exact readWhole_spec hn hz (Nat.le_refl _) h0 h1 h hs

theorem range_eq {t : Bytes} {a b : Int} :
    Plain.range a b t = (t.drop a.toNat).take b.toNat := rfl

theorem read_spec {n z t s} (hn : 0 < n) (hz : z.Restores n) (h : Holds n z t s)
    (hro : s.readOnly = true → s.synced = true) (a b : Int) :
    ∃ s', read n z a b s = some (s', Plain.range a b t) ∧ Holds n z t s' ∧ Frame' s s' ∧
      (s.readOnly = false → s'.flushed = true) ∧
      (∀ old w, old <+: t → Tx n z old w s → Tx n z old w s') ∧
      (∀ old w, Behind n z old w s.pending → Behind n z old w s'.pending) ∧
      (s.flushed = true → s.pending = none → s'.pending = none) ∧
      (s.readOnly = false → s.flushed = false → s'.pending = none) ∧
      (s.synced = true → s.flushed = true ∨ s.readOnly = true → s'.disk = s.disk ∧ s'.map = s.map ∧ s'.synced = true) := by
  obtain ⟨s1, e1, h1, f1, fl1, same1, tx1, be1⟩ := flush_spec hn h
  have hsy : s1.synced = true := by
    cases hr : s.readOnly with
    | true => rw [same1 (Or.inl hr)]; exact hro hr
    | false => exact h1.flush (fl1 hr).1
  unfold read
  simp only
  rw [e1]
  simp only
  have hsz := h1.size
  have ha : (if a < 0 then 0 else a).toNat = a.toNat := by split <;> omega
  have ha0 : 0 ≤ (if a < 0 then 0 else a) := by split <;> omega
  generalize (if a < 0 then (0 : Int) else a) = a' at ha ha0 ⊢
  have pend : ∀ s2 : Store, s2.pending = none ∨ s2.pending = s1.pending →
      (∀ old w, Behind n z old w s.pending → Behind n z old w s2.pending) ∧
      (s.flushed = true → s.pending = none → s2.pending = none) ∧
      (s.readOnly = false → s.flushed = false → s2.pending = none) := by
    intro s2 hp
    refine ⟨?_, ?_, ?_⟩
    · intro old w hb
      rcases hp with hp | hp
      · rw [hp]; intro pos b hx; cases hx
      · rw [hp]; exact be1 old w hb
    · intro hf hn'
      rw [same1 (Or.inr hf)] at hp
      rcases hp with hp | hp
      · exact hp
      · rw [hp, hn']
    · intro hr hf
      have := (fl1 hr).2 hf
      rcases hp with hp | hp
      · exact hp
      · rw [hp, this]
  have dsk : s.synced = true → s.flushed = true ∨ s.readOnly = true → s1.disk = s.disk ∧ s1.map = s.map ∧ s1.synced = true := by
    intro _ hor
    exact ⟨by rw [same1 (hor.symm)], by rw [same1 (hor.symm)], hsy⟩
  by_cases hd : (if a' + b > (s1.size : Int) then (s1.size : Int) - a' else b) ≤ 0
  · rw [if_pos hd]
    obtain ⟨p1, p2, p3⟩ := pend s1 (Or.inr rfl)
    refine ⟨s1, ?_, h1, f1, fun hr => (fl1 hr).1, tx1, p1, p2, p3, dsk⟩
    congr 2
    unfold Plain.range
    split at hd
    · rw [List.drop_eq_nil_of_le (by omega)]; simp
    · rw [show b.toNat = 0 by omega]; simp
  · rw [if_neg hd]
    generalize hdd : (if a' + b > (s1.size : Int) then (s1.size : Int) - a' else b) = d at hd ⊢
    have hin : a'.toNat + d.toNat ≤ t.length := by split at hdd <;> omega
    obtain ⟨s2, e2, c2, f2, sy2, fl2, pe2, d2, l2, m2, tx2⟩ :=
      readAt_spec hn hz h1.toCore hsy (start := a'.toNat) (desired := d.toNat) (by omega) hin
    obtain ⟨p1, p2, p3⟩ := pend s2 pe2
    rw [e2]
    refine ⟨s2, ?_, ⟨c2, f2.size.trans h1.size, fun _ => sy2⟩, ?_, ?_, ?_, p1, p2, p3, ?_⟩
    · congr 2
      unfold Plain.range
      rw [ha]
      split at hdd
      · rw [List.take_of_length_le (by simp; omega), List.take_of_length_le (by simp; omega)]
      · rw [hdd]
    · have f := f2.to
      exact ⟨f.1.trans f1.1, f.2.trans f1.2, f.3.trans f1.3, f.4.trans f1.4, f.5.trans f1.5, f.6.trans f1.6, f.7.trans f1.7⟩
    · intro hr; rw [fl2]; exact (fl1 hr).1
    · intro old w hp htx; exact tx2 old w hp (tx1 old w hp htx)
    · intro a b; rw [d2, m2]; exact ⟨(dsk a b).1, (dsk a b).2.1, sy2⟩

end Verif.TxtIO
