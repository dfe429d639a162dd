/-
The invariant of the transaction system (Verif/Txn/Model.lean).
-/
import Verif.Txn.Model
namespace Verif.Txn

variable {τ α : Type}

/-- What is known about the contents of shards: `flat` lists the transactions in a shard. -/
structure Lawful (M : Ops τ α) (flat : α → List (Entry τ)) : Prop where
  leaf : ∀ e, flat (M.leaf e) = [e]
  merge : ∀ bs, flat (M.merge bs) = bs.flatMap flat
  convert : ∀ b, flat (M.convert b) = flat b
  blank : flat M.blank = []
  last : ∀ b, M.last b = ((flat b).reverse.find? fun e => 0 < M.size e.txn).map
    fun e => e.base + M.size e.txn - 1

/-- earlier number, and all of its addresses below those of the other -/
def Before (M : Ops τ α) (e f : Entry τ) : Prop :=
  e.seq < f.seq ∧ (0 < M.size e.txn → 0 < M.size f.txn → e.base + M.size e.txn ≤ f.base)

/-- the transaction a client has a number for, with its shard, as long as it is not
committed or aborted -/
def Client.active : Client τ → Option (Nat × Entry τ)
  | .numbered id e => some (id, e)
  | .voted id e _ => some (id, e)
  | .promised id e _ => some (id, e)
  | _ => none

/-- … or not done with -/
def Client.entry : Client τ → Option (Entry τ)
  | .numbered _ e => some e
  | .voted _ e _ => some e
  | .promised _ e _ => some e
  | .linked _ e _ => some e
  | _ => none

/-- the worker has selected these shards for this job and not yet replaced them -/
def Worker.Holds (k : Worker) (job : Job) (R : List Nat) : Prop :=
  k = .grabbed job R ∨ ∃ o, k = .made job R o

/-- the merge output of one of the workers stands for these shards on disk -/
def Pending (ws : Nat → Worker) (R : List Nat) (o : Nat) : Prop := ∃ w job, ws w = .made job R o

/-- the shard object that stands for the live shard `i` when the burrow is opened -/
def Top (ws : Nat → Worker) (i t : Nat) : Prop :=
  (∃ R, Pending ws R t ∧ i ∈ R) ∨ (t = i ∧ ∀ R o, Pending ws R o → i ∉ R)

/-- a contiguous part -/
def Seg (l R : List Nat) : Prop := ∃ A B, l = A ++ R ++ B

/-- files that hold shards -/
def FName.shard (n : FName) : Prop := n.kind = .fiver ∨ n.kind = .hazel

/-- its file is not the file of any live shard: a live shard covers it and is not the same,
or is static while it is dynamic -/
def Stale (m : Mem τ α) (x : Nat) : Prop :=
  shown (m.heap x) = true ∧ ∃ i ∈ m.warrens, shown (m.heap i) = true ∧
    (m.heap i).lo ≤ (m.heap x).lo ∧ (m.heap x).hi ≤ (m.heap i).hi ∧
    ((m.heap x).lo ≠ (m.heap i).lo ∨ (m.heap x).hi ≠ (m.heap i).hi ∨
      ((m.heap x).kind = .fiver ∧ (m.heap i).kind = .hazel))

/-- what a worker's output is: the range from the first to the last of its sources, its
kind, their contents -/
def Made (flat : α → List (Entry τ)) (heap : Nat → Obj α) (job : Job) (R : List Nat) (o : Nat) : Prop :=
  (heap o).kind = (match job with | .fiverMerge => Kind.fiver | _ => Kind.hazel) ∧
  (∀ a, R.head? = some a → (heap o).lo = (heap a).lo) ∧
  (∀ z, R.getLast? = some z → (heap o).hi = (heap z).hi) ∧
  flat (heap o).body = R.flatMap fun i => flat (heap i).body

structure Inv (M : Ops τ α) (flat : α → List (Entry τ)) (m : Mem τ α) (d : Disk α)
    (du pu : List (Entry τ)) : Prop where
  nodup : m.warrens.Nodup
  ids : ∀ i ∈ m.warrens, i < m.fresh
  order : m.warrens.Pairwise fun i j => (m.heap i).hi < (m.heap j).lo
  rng : ∀ i ∈ m.warrens, (m.heap i).lo ≤ (m.heap i).hi ∧ (m.heap i).hi < m.sequence
  inside : ∀ i ∈ m.warrens, ∀ e ∈ flat (m.heap i).body, (m.heap i).lo ≤ e.seq ∧ e.seq ≤ (m.heap i).hi
  addrs : (m.warrens.flatMap fun i => flat (m.heap i).body).Pairwise (Before M)
  below : ∀ i ∈ m.warrens, ∀ e ∈ flat (m.heap i).body, 0 < M.size e.txn → e.base + M.size e.txn ≤ m.address
  owns : ∀ c id e, (m.clients c).active = some (id, e) →
    id ∈ m.warrens ∧ m.heap id = ⟨.kitten, e.seq, e.seq, M.leaf e⟩
  alone : ∀ c c' x y, (m.clients c).entry = some x → (m.clients c').entry = some y →
    x.seq = y.seq → c = c'
  seqs : ∀ c e, (m.clients c).entry = some e → e.seq < m.sequence
  voted : ∀ c id e, m.clients c = .voted id e true →
    M.empty e.txn = true ∨ (kittenName e.seq, some (M.leaf e)) ∈ d.files
  promised : ∀ c id e k, m.clients c = .promised id e k →
    (kittenName e.seq, some (M.leaf e)) ∈ d.files ∧ c ∈ m.groups k ∧
    ∃ sc ∈ d.scripts, sc.key = k ∧ e.seq ∈ sc.seqs
  kits : ∀ c e x, (m.clients c).entry = some e → (kittenName e.seq, x) ∈ d.files → x = some (M.leaf e)
  kold : ∀ n x, (kittenName n, x) ∈ d.files → n < m.sequence
  linked : ∀ c id e k, m.clients c = .linked id e k → e ∈ pu
  scripts : ∀ sc ∈ d.scripts, ∀ n ∈ sc.seqs,
    (∃ c ∈ m.groups sc.key, ∃ id e, m.clients c = .promised id e sc.key ∧ e.seq = n) ∨
    ∃ e ∈ pu, e.seq = n
  keys : d.scripts.Pairwise fun a b => a.key ≠ b.key
  pub : ∀ e, e ∈ pu ↔ ∃ i ∈ m.warrens, shown (m.heap i) = true ∧ e ∈ flat (m.heap i).body
  dur : ∀ e, e ∈ du ↔ e ∈ pu ∨ ∃ c id k, m.clients c = .promised id e k
  sel : ∀ w job R, (m.workers w).Holds job R → R ≠ [] ∧ Seg m.warrens R ∧
    (∀ i ∈ R, i ∈ m.merging) ∧ chooseJob (R.map m.heap) = some job
  apart : ∀ w w' job job' R R', w ≠ w' → (m.workers w).Holds job R → (m.workers w').Holds job' R' →
    ∀ i ∈ R, i ∉ R'
  made : ∀ w job R o, m.workers w = .made job R o → o < m.fresh ∧ o ∉ m.warrens ∧
    Made flat m.heap job R o ∧ ((m.heap o).file, some (m.heap o).body) ∈ d.files
  outs : ∀ w w' job job' R R' o, m.workers w = .made job R o → m.workers w' = .made job' R' o → w = w'
  stale : ∀ w L, m.workers w = .discarding L → ∀ x ∈ L, x < m.fresh ∧ Stale m x
  uniq : (d.files.map (·.1)).Nodup
  own : ∀ i ∈ m.warrens, shown (m.heap i) = true →
    ((m.heap i).file, some (m.heap i).body) ∈ d.files
  cov : ∀ n x, (n, x) ∈ d.files → n.shard → n.lo ≤ n.hi ∧
    ∃ i ∈ m.warrens, ∃ t, shown (m.heap i) = true ∧ Top m.workers i t ∧
      (m.heap t).lo ≤ n.lo ∧ n.hi ≤ (m.heap t).hi ∧ (n.kind = .hazel → (m.heap t).kind = .hazel)
  lam : ∀ n x n' x', (n, x) ∈ d.files → (n', x') ∈ d.files → n.shard → n'.shard →
    (n.lo ≤ n'.lo ∧ n'.hi ≤ n.hi) ∨ (n'.lo ≤ n.lo ∧ n.hi ≤ n'.hi) ∨ n.hi < n'.lo ∨ n'.hi < n.lo
  view : ∀ r v, m.readers r = some v → (∀ i ∈ v.shards, i < m.fresh ∧ shown (m.heap i) = true) ∧
    (v.shards.flatMap fun i => flat (m.heap i).body).Pairwise (Before M) ∧
    ∀ e, (e ∈ v.shards.flatMap fun i => flat (m.heap i).body) ↔ e ∈ v.seen
  gens : ∀ r v, m.readers r = some v → v.cache ≤ m.cache ∧
    (v.cache = m.cache → ∀ e, e ∈ v.seen ↔ e ∈ pu)
  agree : ∀ r r' v v', m.readers r = some v → m.readers r' = some v' → v.cache = v'.cache →
    ∀ e, e ∈ v.seen ↔ e ∈ v'.seen

/-! ### Small facts -/

theorem upd_same {β : Type} (f : Nat → β) (i : Nat) (b : β) : upd f i b i = b := by simp [upd]
theorem upd_ne {β : Type} (f : Nat → β) {i j : Nat} (b : β) (h : j ≠ i) : upd f i b j = f j := by
  simp [upd, h]

theorem shown_iff {o : Obj α} : shown o = true ↔ o.kind = .hazel ∨ o.kind = .fiver := by
  simp [shown]

theorem mem_rm {d : Disk α} {n : FName} {f : FName × Option α} :
    f ∈ (d.rm n).files ↔ f ∈ d.files ∧ f.1 ≠ n := by simp [Disk.rm]

theorem mem_link {d : Disk α} {n : FName} {x : Option α} {f : FName × Option α} :
    f ∈ (d.link n x).files ↔ f = (n, x) ∨ f ∈ d.files := by simp [Disk.link]

theorem has_iff {d : Disk α} {n : FName} : d.has n = true ↔ ∃ x, (n, x) ∈ d.files := by
  simp [Disk.has]

theorem get_some {d : Disk α} {n : FName} {x : Option α} (h : d.get n = some x) : (n, x) ∈ d.files := by
  simp only [Disk.get, Option.map_eq_some_iff] at h
  obtain ⟨⟨a, b⟩, h1, rfl⟩ := h
  have h2 := List.find?_some h1
  simp at h2
  subst h2
  exact List.mem_of_find?_eq_some h1

theorem get_none {d : Disk α} {n : FName} (h : d.get n = none) : ∀ x, (n, x) ∉ d.files := by
  intro x hx
  simp [Disk.get] at h
  exact h n x hx rfl

theorem get_of_mem {d : Disk α} {n : FName} {x : Option α} (hu : (d.files.map (·.1)).Nodup)
    (h : (n, x) ∈ d.files) : d.get n = some x := by
  cases hg : d.get n with
  | none => exact absurd h (get_none hg x)
  | some y =>
    have h2 := get_some hg
    suffices x = y by rw [this]
    clear hg
    generalize d.files = l at *
    induction l with
    | nil => simp at h
    | cons a l ih =>
      simp only [List.map_cons, List.nodup_cons, List.mem_map, not_exists, not_and] at hu
      simp only [List.mem_cons] at h h2
      rcases h with rfl | h <;> rcases h2 with h2 | h2
      · simpa using h2.symm
      · exact (hu.1 (n, y) h2 rfl).elim
      · subst h2; exact (hu.1 (n, x) h rfl).elim
      · exact ih hu.2 h h2

theorem uniq_rm {d : Disk α} (hu : (d.files.map (·.1)).Nodup) (n : FName) :
    ((d.rm n).files.map (·.1)).Nodup := by
  unfold Disk.rm
  exact hu.sublist (List.filter_sublist.map _)

theorem uniq_link {d : Disk α} (hu : (d.files.map (·.1)).Nodup) {n : FName} (x : Option α)
    (h : ∀ y, (n, y) ∉ d.files) : ((d.link n x).files.map (·.1)).Nodup := by
  simp only [Disk.link, List.map_cons, List.nodup_cons, List.mem_map, not_exists, not_and]
  refine ⟨fun f hf e => h f.2 ?_, hu⟩
  subst e; exact hf

/-- in a list ordered by ranges, the range spanned by a contiguous part holds no other -/
theorem seg_range {heap : Nat → Obj α} {l R : List Nat} (ho : l.Pairwise fun i j => (heap i).hi < (heap j).lo)
    (hr : ∀ i ∈ l, (heap i).lo ≤ (heap i).hi) (hs : Seg l R) {a z : Nat} (ha : R.head? = some a)
    (hz : R.getLast? = some z) :
    (∀ i ∈ R, (heap a).lo ≤ (heap i).lo ∧ (heap i).hi ≤ (heap z).hi) ∧
    (∀ i ∈ l, i ∈ R ∨ (heap i).hi < (heap a).lo ∨ (heap z).hi < (heap i).lo) := by
  obtain ⟨A, B, rfl⟩ := hs
  have haR : a ∈ R := List.mem_of_mem_head? (by simp [ha])
  have hzR : z ∈ R := List.mem_of_getLast? hz
  rw [List.pairwise_append, List.pairwise_append] at ho
  obtain ⟨⟨_, hoR, hAR⟩, _, hB⟩ := ho
  refine ⟨fun i hi => ⟨?_, ?_⟩, fun i hi => ?_⟩
  · cases R with
    | nil => simp at ha
    | cons x R =>
      simp at ha; subst ha
      rcases List.mem_cons.1 hi with rfl | hi
      · exact Nat.le_refl _
      · have h1 := (List.pairwise_cons.1 hoR).1 i hi
        have h2 := hr x (by simp)
        omega
  · have hR := List.dropLast_concat_getLast (l := R) (by intro e; subst e; simp at ha)
    have : R.getLast (by intro e; subst e; simp at ha) = z := by
      rw [List.getLast?_eq_some_getLast (by intro e; subst e; simp at ha)] at hz
      simpa using hz
    rw [this] at hR
    rw [← hR] at hoR hi
    rw [List.pairwise_append] at hoR
    simp only [List.mem_append, List.mem_singleton] at hi
    rcases hi with hi | rfl
    · have h1 := hoR.2.2 i hi z (by simp)
      have h2 := hr z (by simp [hzR])
      omega
    · exact Nat.le_refl _
  · simp only [List.mem_append] at hi
    rcases hi with (hi | hi) | hi
    · exact .inr (.inl (hAR i hi a haR))
    · exact .inl hi
    · exact .inr (.inr (hB z (by simp [hzR]) i hi))

theorem ne_nil_ends {R : List Nat} (h : R ≠ []) : ∃ a z, R.head? = some a ∧ R.getLast? = some z :=
  ⟨R.head h, R.getLast h, List.head?_eq_some_head h, List.getLast?_eq_some_getLast h⟩

theorem seg_mem {l R : List Nat} (h : Seg l R) {i : Nat} (hi : i ∈ R) : i ∈ l := by
  obtain ⟨A, B, rfl⟩ := h; simp [hi]

theorem chooseJob_shown {l : List (Obj α)} {job : Job} (h : chooseJob l = some job) :
    ∀ o ∈ l, shown o = true ∧ o.kind = (if job = .hazelMerge then Kind.hazel else Kind.fiver) := by
  unfold chooseJob at h
  intro o ho
  split at h
  · rename_i h1; cases h
    simp only [Bool.and_eq_true, List.all_eq_true, decide_eq_true_eq] at h1
    simp [shown_iff, h1.2 o ho]
  · split at h
    · rename_i h1; cases h
      simp only [Bool.and_eq_true, List.all_eq_true, decide_eq_true_eq] at h1
      simp [shown_iff, h1.2 o ho]
    · split at h
      · rename_i h1; cases h
        simp only [Bool.and_eq_true, List.all_eq_true, decide_eq_true_eq] at h1
        simp [shown_iff, h1.1.2 o ho]
      · cases h

variable {M : Ops τ α} {flat : α → List (Entry τ)} {m : Mem τ α} {d : Disk α}
  {du pu : List (Entry τ)}

theorem Inv.heldShown (h : Inv M flat m d du pu) {w : Nat} {job : Job} {R : List Nat}
    (hw : (m.workers w).Holds job R) {i : Nat} (hi : i ∈ R) :
    i ∈ m.warrens ∧ shown (m.heap i) = true ∧ (m.heap i).kind = (if job = .hazelMerge then Kind.hazel else Kind.fiver) := by
  obtain ⟨_, hs, _, hj⟩ := h.sel w job R hw
  have := chooseJob_shown hj (m.heap i) (List.mem_map_of_mem hi)
  exact ⟨seg_mem hs hi, this⟩

/-- the range a selection spans -/
theorem Inv.span (h : Inv M flat m d du pu) {w : Nat} {job : Job} {R : List Nat}
    (hw : (m.workers w).Holds job R) : ∃ a z, R.head? = some a ∧ R.getLast? = some z ∧ a ∈ R ∧ z ∈ R ∧
      (m.heap a).lo ≤ (m.heap z).hi ∧
      (∀ i ∈ R, (m.heap a).lo ≤ (m.heap i).lo ∧ (m.heap i).hi ≤ (m.heap z).hi) ∧
      (∀ i ∈ m.warrens, i ∈ R ∨ (m.heap i).hi < (m.heap a).lo ∨ (m.heap z).hi < (m.heap i).lo) := by
  obtain ⟨hne, hs, _, hj⟩ := h.sel w job R hw
  obtain ⟨a, z, ha, hz⟩ := ne_nil_ends hne
  obtain ⟨h1, h2⟩ := seg_range h.order (fun i hi => (h.rng i hi).1) hs ha hz
  have haR : a ∈ R := List.mem_of_mem_head? (by simp [ha])
  refine ⟨a, z, ha, hz, haR, List.mem_of_getLast? hz, ?_, h1, h2⟩
  have := h1 a haR
  have := h.rng a (seg_mem hs haR)
  omega

/-- the shard that stands for a live shard: it covers it, is a shard itself and its file is there -/
theorem Inv.topIs (h : Inv M flat m d du pu) {i t : Nat} (hi : i ∈ m.warrens) (hs : shown (m.heap i) = true)
    (ht : Top m.workers i t) : (m.heap t).lo ≤ (m.heap i).lo ∧ (m.heap i).hi ≤ (m.heap t).hi ∧
      shown (m.heap t) = true ∧ ((m.heap t).file, some (m.heap t).body) ∈ d.files ∧ t < m.fresh := by
  rcases ht with ⟨R, ⟨w, job, hw⟩, hiR⟩ | ⟨rfl, _⟩
  · obtain ⟨a, z, ha, hz, _, _, _, h1, _⟩ := h.span (w := w) (.inr ⟨t, hw⟩)
    obtain ⟨h2, _, h3, h4⟩ := h.made w job R t hw
    have := h1 i hiR
    rw [← h3.2.1 a ha, ← h3.2.2.1 z hz] at this
    refine ⟨this.1, this.2, ?_, h4, h2⟩
    rw [shown_iff, h3.1]; cases job <;> simp
  · exact ⟨Nat.le_refl _, Nat.le_refl _, hs, h.own _ hi hs, h.ids _ hi⟩

theorem top_exists (ws : Nat → Worker) (i : Nat) : ∃ t, Top ws i t := by
  by_cases hp : ∃ R o, Pending ws R o ∧ i ∈ R
  · obtain ⟨R, o, h1, h2⟩ := hp; exact ⟨o, .inl ⟨R, h1, h2⟩⟩
  · exact ⟨i, .inr ⟨rfl, fun R o hR hi => hp ⟨R, o, hR, hi⟩⟩⟩

/-- two of them are the same or disjoint -/
theorem Inv.tops_apart (h : Inv M flat m d du pu) {i j t u : Nat} (hi : i ∈ m.warrens) (hj : j ∈ m.warrens)
    (ht : Top m.workers i t) (hu : Top m.workers j u) :
    t = u ∨ (m.heap t).hi < (m.heap u).lo ∨ (m.heap u).hi < (m.heap t).lo := by
  have one : ∀ {i j : Nat}, i ∈ m.warrens → j ∈ m.warrens →
      i = j ∨ (m.heap i).hi < (m.heap j).lo ∨ (m.heap j).hi < (m.heap i).lo := by
    intro i j hi hj
    have tri : ∀ {l : List Nat}, l.Pairwise (fun i j => (m.heap i).hi < (m.heap j).lo) → i ∈ l → j ∈ l →
        i = j ∨ (m.heap i).hi < (m.heap j).lo ∨ (m.heap j).hi < (m.heap i).lo := by
      intro l hl
      induction l with
      | nil => intro h; cases h
      | cons a l ih =>
        intro h1 h2
        rw [List.pairwise_cons] at hl
        rcases List.mem_cons.1 h1 with h1 | h1 <;> rcases List.mem_cons.1 h2 with h2 | h2
        · exact .inl (h1.trans h2.symm)
        · exact .inr (.inl (h1 ▸ hl.1 _ h2))
        · exact .inr (.inr (h2 ▸ hl.1 _ h1))
        · exact ih hl.2 h1 h2
    exact tri h.order hi hj
  rcases ht with ⟨R, ⟨w, job, hw⟩, hiR⟩ | ⟨rfl, hno⟩ <;> rcases hu with ⟨R', ⟨w', job', hw'⟩, hjR⟩ | ⟨rfl, hno'⟩
  · by_cases e : w = w'
    · subst e; rw [hw] at hw'; cases hw'; exact .inl rfl
    obtain ⟨a, z, ha, hz, haR, hzR, h0, h1, h2⟩ := h.span (w := w) (.inr ⟨t, hw⟩)
    obtain ⟨a', z', ha', hz', haR', hzR', h0', h1', h2'⟩ := h.span (w := w') (.inr ⟨u, hw'⟩)
    obtain ⟨_, _, h3, _⟩ := h.made w job R t hw
    obtain ⟨_, _, h3', _⟩ := h.made w' job' R' u hw'
    rw [h3.2.1 a ha, h3.2.2.1 z hz, h3'.2.1 a' ha', h3'.2.2.1 z' hz']
    have ap := h.apart w w' job job' R R' e (.inr ⟨t, hw⟩) (.inr ⟨u, hw'⟩)
    have q1 := h2' a (h.heldShown (w := w) (.inr ⟨t, hw⟩) haR).1
    have q2 := h2 a' (h.heldShown (w := w') (.inr ⟨u, hw'⟩) haR').1
    have q3 : a ∉ R' := ap a haR
    have q4 : a' ∉ R := fun hx => ap a' hx haR'
    have q5 := h1 a haR
    have q6 := h1' a' haR'
    have q7 := h.rng a (h.heldShown (w := w) (.inr ⟨t, hw⟩) haR).1
    have q8 := h.rng a' (h.heldShown (w := w') (.inr ⟨u, hw'⟩) haR').1
    rcases q1 with q1 | q1 | q1
    · exact absurd q1 q3
    · rcases q2 with q2 | q2 | q2
      · exact absurd q2 q4
      · omega
      · exact .inr (.inl q2)
    · exact .inr (.inr q1)
  · obtain ⟨a, z, ha, hz, haR, hzR, h0, h1, h2⟩ := h.span (w := w) (.inr ⟨t, hw⟩)
    obtain ⟨_, _, h3, _⟩ := h.made w job R t hw
    rw [h3.2.1 a ha, h3.2.2.1 z hz]
    rcases h2 u hj with q | q | q
    · exact absurd q (hno' R t ⟨w, job, hw⟩)
    · exact .inr (.inr q)
    · exact .inr (.inl q)
  · obtain ⟨a, z, ha, hz, haR, hzR, h0, h1, h2⟩ := h.span (w := w') (.inr ⟨u, hw'⟩)
    obtain ⟨_, _, h3, _⟩ := h.made w' job' R' u hw'
    rw [h3.2.1 a ha, h3.2.2.1 z hz]
    rcases h2 t hi with q | q | q
    · exact absurd q (hno R' u ⟨w', job', hw'⟩)
    · exact .inr (.inl q)
    · exact .inr (.inr q)
  · exact one hi hj

/-- an unfinished or aborted transaction lies in no such range -/
theorem Inv.top_kitten (h : Inv M flat m d du pu) {i j t : Nat} (hi : i ∈ m.warrens) (hs : shown (m.heap i) = true)
    (ht : Top m.workers i t) (hj : j ∈ m.warrens) (hk : shown (m.heap j) = false) :
    (m.heap t).hi < (m.heap j).lo ∨ (m.heap j).hi < (m.heap t).lo := by
  have hjt : Top m.workers j j := .inr ⟨rfl, fun R o ⟨w, job, hw⟩ hjR => by
    rw [(h.heldShown (w := w) (.inr ⟨o, hw⟩) hjR).2.1] at hk; cases hk⟩
  rcases h.tops_apart hi hj ht hjt with rfl | q | q
  · rw [(h.topIs hi hs ht).2.2.1] at hk; cases hk
  · exact .inl q
  · exact .inr q

end Verif.Txn
