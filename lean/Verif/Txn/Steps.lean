/-
Every step of the transaction system keeps the invariant.
-/
import Verif.Txn.Inv
namespace Verif.Txn

variable {τ α : Type} {M : Ops τ α} {flat : α → List (Entry τ)} {m : Mem τ α} {d : Disk α}
  {du pu : List (Entry τ)}

/-! ### Steps of clients that touch nothing shared -/

/-- setting one client changes the facts about the other clients not at all -/
theorem upd_client {c c' : Nat} {x y : Client τ} (h : upd m.clients c x c' = y) :
    (c' = c ∧ x = y) ∨ (c' ≠ c ∧ m.clients c' = y) := by
  by_cases e : c' = c
  · subst e; rw [upd_same] at h; exact .inl ⟨rfl, h⟩
  · rw [upd_ne _ _ e] at h; exact .inr ⟨e, h⟩

theorem Inv.setIdle (h : Inv M flat m d du pu) {c : Nat} {x : Client τ}
    (hx : x.active = none ∧ x.entry = none) (hc : ∀ id e k, m.clients c ≠ .promised id e k)
    (hx' : ∀ id e k, x ≠ .voted id e k ∧ (∀ k, x ≠ .promised id e k) ∧ ∀ k, x ≠ .linked id e k) :
    Inv M flat { m with clients := upd m.clients c x } d du pu :=
  { h with
    owns := by
      intro c' id e he
      simp only [upd] at he
      split at he
      · rw [hx.1] at he; cases he
      · exact h.owns c' id e he
    alone := by
      intro a b u v ha hb
      simp only [upd] at ha hb
      split at ha
      · rw [hx.2] at ha; cases ha
      · split at hb
        · rw [hx.2] at hb; cases hb
        · exact h.alone a b u v ha hb
    seqs := by
      intro a e ha
      simp only [upd] at ha
      split at ha
      · rw [hx.2] at ha; cases ha
      · exact h.seqs a e ha
    voted := by
      intro a id e ha
      rcases upd_client ha with ⟨_, h2⟩ | ⟨_, h2⟩
      · exact absurd h2 (hx' _ _ _).1
      · exact h.voted _ _ _ h2
    promised := by
      intro a id e k ha
      rcases upd_client ha with ⟨_, h2⟩ | ⟨_, h2⟩
      · exact absurd h2 ((hx' _ _ true).2.1 _)
      · exact h.promised _ _ _ _ h2
    kits := by
      intro a e x ha
      simp only [upd] at ha
      split at ha
      · rw [hx.2] at ha; cases ha
      · exact h.kits a e x ha
    linked := by
      intro a id e k ha
      rcases upd_client ha with ⟨_, h2⟩ | ⟨_, h2⟩
      · exact absurd h2 ((hx' _ _ true).2.2 _)
      · exact h.linked _ _ _ _ h2
    scripts := by
      intro sc hsc n hn
      rcases h.scripts sc hsc n hn with ⟨a, ha, id, e, he, hs⟩ | h2
      · have : a ≠ c := by rintro rfl; exact hc _ _ _ he
        exact .inl ⟨a, ha, id, e, by simp [upd, this, he], hs⟩
      · exact .inr h2
    dur := by
      intro e
      rw [h.dur e]
      constructor
      · rintro (h1 | ⟨a, id, k, h1⟩)
        · exact .inl h1
        · have : a ≠ c := by rintro rfl; exact hc _ _ _ h1
          exact .inr ⟨a, id, k, by simp [upd, this, h1]⟩
      · rintro (h1 | ⟨a, id, k, h1⟩)
        · exact .inl h1
        · rcases upd_client h1 with ⟨_, h2⟩ | ⟨_, h2⟩
          · exact absurd h2 ((hx' _ _ true).2.1 _)
          · exact .inr ⟨a, id, k, h2⟩ }

/-- removing a file that is no shard and no client's kitten -/
theorem Inv.rmKitten (h : Inv M flat m d du pu) {n : Nat}
    (hn : ∀ c id e, (m.clients c).active = some (id, e) → e.seq ≠ n) :
    Inv M flat m (d.rm (kittenName n)) du pu :=
  have ne : ∀ k : FName, k.shard → k ≠ kittenName n := by
    rintro k hk rfl; rcases hk with h | h <;> cases h
  have obj : ∀ o : Obj α, shown o = true → o.file ≠ kittenName n := by
    intro o ho; apply ne
    rcases shown_iff.1 ho with h | h <;> simp [FName.shard, Obj.file, h]
  { h with
    voted := by
      intro c id e hc
      rcases h.voted c id e hc with h1 | h1
      · exact .inl h1
      · refine .inr (mem_rm.2 ⟨h1, ?_⟩)
        have := hn c id e (by rw [hc]; rfl)
        simp [kittenName, this]
    promised := by
      intro c id e k hc
      obtain ⟨h1, h2⟩ := h.promised c id e k hc
      refine ⟨mem_rm.2 ⟨h1, ?_⟩, h2⟩
      have := hn c id e (by rw [hc]; rfl)
      simp [kittenName, this]
    kits := fun c e x hc hx => h.kits c e x hc (mem_rm.1 hx).1
    kold := fun n x hx => h.kold n x (mem_rm.1 hx).1
    scripts := h.scripts
    keys := h.keys
    made := by
      intro w job R o hw
      obtain ⟨h1, h2, h3, h4⟩ := h.made w job R o hw
      refine ⟨h1, h2, h3, mem_rm.2 ⟨h4, obj _ (shown_iff.2 ?_)⟩⟩
      rw [h3.1]; cases job <;> simp
    uniq := uniq_rm h.uniq _
    own := fun i hi hs => mem_rm.2 ⟨h.own i hi hs, obj _ hs⟩
    cov := fun n x hx => h.cov n x (mem_rm.1 hx).1
    lam := fun n x n' x' hx hx' => h.lam n x n' x' (mem_rm.1 hx).1 (mem_rm.1 hx').1 }

/-- writing a temporary file -/
theorem Inv.scribble (h : Inv M flat m d du pu) (n : Nat) (x : Option α) :
    Inv M flat m ((d.rm ⟨.temp, n, n⟩).link ⟨.temp, n, n⟩ x) du pu :=
  have keep : ∀ f : FName × Option α, f ∈ d.files → f.1.kind ≠ .temp →
      f ∈ ((d.rm ⟨.temp, n, n⟩).link ⟨.temp, n, n⟩ x).files := by
    intro f hf hk
    refine mem_link.2 (.inr (mem_rm.2 ⟨hf, ?_⟩))
    intro e; rw [e] at hk; exact hk rfl
  have back : ∀ f : FName × Option α, f ∈ ((d.rm ⟨.temp, n, n⟩).link ⟨.temp, n, n⟩ x).files →
      f.1.shard → f ∈ d.files := by
    intro f hf hk
    rcases mem_link.1 hf with rfl | hf
    · rcases hk with h | h <;> cases h
    · exact (mem_rm.1 hf).1
  have backK : ∀ {k : Nat} {y : Option α}, (kittenName k, y) ∈ ((d.rm ⟨.temp, n, n⟩).link ⟨.temp, n, n⟩ x).files →
      (kittenName k, y) ∈ d.files := by
    intro k y hf
    rcases mem_link.1 hf with hf | hf
    · simp [kittenName] at hf
    · exact (mem_rm.1 hf).1
  { h with
    voted := fun c id e hc => (h.voted c id e hc).imp (fun x => x) fun h1 => keep _ h1 (by simp [kittenName])
    kits := fun c e x hc hx => h.kits c e x hc (backK hx)
    kold := fun n x hx => h.kold n x (backK hx)
    promised := fun c id e k hc =>
      ⟨keep _ (h.promised c id e k hc).1 (by simp [kittenName]), (h.promised c id e k hc).2⟩
    scripts := h.scripts
    keys := h.keys
    made := by
      intro w job R o hw
      obtain ⟨h1, h2, h3, h4⟩ := h.made w job R o hw
      refine ⟨h1, h2, h3, keep _ h4 ?_⟩
      have := h3.1
      simp only [Obj.file, this]; cases job <;> simp
    uniq := uniq_link (uniq_rm h.uniq _) _ fun y hy => (mem_rm.1 hy).2 rfl
    own := fun i hi hs => keep _ (h.own i hi hs) (by
      rcases shown_iff.1 hs with h | h <;> simp [Obj.file, h])
    cov := fun n x hx hk => h.cov n x (back _ hx hk) hk
    lam := fun n x n' x' hx hx' hk hk' => h.lam n x n' x' (back _ hx hk) (back _ hx' hk') hk hk' }

/-! ### Heap changes -/

theorem flatMap_congr' {β γ : Type} {l : List β} {f g : β → List γ} (h : ∀ i ∈ l, f i = g i) :
    l.flatMap f = l.flatMap g := by
  induction l with
  | nil => rfl
  | cons a l ih => simp only [List.flatMap_cons, h a (by simp), ih fun i hi => h i (by simp [hi])]

theorem Made.congr {heap heap' : Nat → Obj α} {job : Job} {R : List Nat} {o : Nat}
    (h : Made flat heap job R o) (hR : ∀ i ∈ R, heap' i = heap i) (ho : heap' o = heap o) :
    Made flat heap' job R o := by
  obtain ⟨h1, h2, h3, h4⟩ := h
  refine ⟨by rw [ho]; exact h1, fun a ha => ?_, fun z hz => ?_, ?_⟩
  · rw [ho, hR a (List.mem_of_mem_head? (by simp [ha]))]; exact h2 a ha
  · rw [ho, hR z (List.mem_of_getLast? hz)]; exact h3 z hz
  · rw [ho, h4]; exact (flatMap_congr' fun i hi => by rw [hR i hi]).symm

theorem mapHeap_congr {heap heap' : Nat → Obj α} {R : List Nat} (hR : ∀ i ∈ R, heap' i = heap i) :
    R.map heap' = R.map heap := List.map_congr_left hR

theorem Top.mem {ws : Nat → Worker} {i t : Nat} (h : Top ws i t) : t = i ∨ ∃ w job R, ws w = .made job R t := by
  rcases h with ⟨R, ⟨w, job, hw⟩, _⟩ | ⟨h, _⟩
  · exact .inr ⟨w, job, R, hw⟩
  · exact .inl h

/-- `Bigwig::ready_` under the lock -/
theorem Inv.number (hM : Lawful M flat) (h : Inv M flat m d du pu) {c : Nat} {t : τ} (hc : m.clients c = .opened t) :
    Inv M flat (number M m c t) d du pu := by
  have old : ∀ i, i < m.fresh → upd m.heap m.fresh
      (⟨.kitten, m.sequence, m.sequence, M.leaf ⟨m.sequence, m.address, t⟩⟩ : Obj α) i = m.heap i :=
    fun i hi => upd_ne _ _ (by omega)
  have new := upd_same m.heap m.fresh
    (⟨.kitten, m.sequence, m.sequence, M.leaf ⟨m.sequence, m.address, t⟩⟩ : Obj α)
  have oldw : ∀ i ∈ m.warrens, upd m.heap m.fresh
      (⟨.kitten, m.sequence, m.sequence, M.leaf ⟨m.sequence, m.address, t⟩⟩ : Obj α) i = m.heap i :=
    fun i hi => old i (h.ids i hi)
  have fl := flatMap_congr' (f := fun i => flat (upd m.heap m.fresh
      (⟨.kitten, m.sequence, m.sequence, M.leaf ⟨m.sequence, m.address, t⟩⟩ : Obj α) i).body)
      (g := fun i => flat (m.heap i).body) (l := m.warrens) fun i hi => by rw [oldw i hi]
  unfold Txn.number
  refine { nodup := ?_, ids := ?_, order := ?_, rng := ?_, inside := ?_, addrs := ?_, below := ?_,
           owns := ?_, alone := ?_, seqs := ?_, voted := ?_, promised := ?_, kits := ?_, kold := ?_, linked := ?_,
           scripts := ?_, keys := h.keys, pub := ?_, dur := ?_, sel := ?_, apart := h.apart, made := ?_, outs := h.outs,
           stale := ?_, uniq := h.uniq, own := ?_, cov := ?_, lam := h.lam, view := ?_, gens := h.gens,
           agree := h.agree }
  all_goals dsimp only
  · rw [List.nodup_append]
    refine ⟨h.nodup, by simp, fun a ha b hb => ?_⟩
    have := h.ids a ha
    simp at hb; omega
  · intro i hi
    simp only [List.mem_append, List.mem_singleton] at hi
    rcases hi with hi | rfl
    · have := h.ids i hi; omega
    · omega
  · rw [List.pairwise_append]
    refine ⟨h.order.imp_of_mem fun hi hj hij => by rw [oldw _ hi, oldw _ hj]; exact hij, by simp, ?_⟩
    intro i hi j hj
    simp at hj; subst hj
    rw [oldw i hi, new]
    exact (h.rng i hi).2
  · intro i hi
    simp only [List.mem_append, List.mem_singleton] at hi
    rcases hi with hi | rfl
    · rw [oldw i hi]; have := h.rng i hi; omega
    · rw [new]; simp
  · intro i hi e he
    simp only [List.mem_append, List.mem_singleton] at hi
    rcases hi with hi | rfl
    · rw [oldw i hi] at he ⊢; exact h.inside i hi e he
    · rw [new] at he ⊢; simp only [hM.leaf, List.mem_singleton] at he; subst he; simp
  · rw [List.flatMap_append, fl, List.pairwise_append]
    refine ⟨h.addrs, ?_, ?_⟩
    · simp [new, hM.leaf]
    · intro e he f hf
      simp only [List.flatMap_cons, List.flatMap_nil, new, hM.leaf, List.append_nil, List.mem_singleton] at hf
      subst hf
      simp only [List.mem_flatMap] at he
      obtain ⟨i, hi, he⟩ := he
      have h1 := h.inside i hi e he
      have h2 := h.rng i hi
      have h3 := h.below i hi e he
      exact ⟨by simp only; omega, fun h _ => h3 h⟩
  · intro i hi e he
    simp only [List.mem_append, List.mem_singleton] at hi
    rcases hi with hi | rfl
    · rw [oldw i hi] at he; have := h.below i hi e he; omega
    · rw [new] at he; simp only [hM.leaf, List.mem_singleton] at he; subst he; simp
  · intro a id e ha
    simp only [upd] at ha
    split at ha
    · cases ha; exact ⟨by simp, new⟩
    · obtain ⟨h1, h2⟩ := h.owns a id e ha
      exact ⟨by simp [h1], by rw [oldw id h1]; exact h2⟩
  · intro a b x y ha hb hs
    simp only [upd] at ha hb
    split at ha <;> split at hb
    · rename_i e1 e2; rw [e1, e2]
    · cases ha; have := h.seqs b y hb; simp only at hs; omega
    · cases hb; have := h.seqs a x ha; simp only at hs; omega
    · exact h.alone a b x y ha hb hs
  · intro a e ha
    simp only [upd] at ha
    split at ha
    · cases ha; simp
    · have := h.seqs a e ha; omega
  · intro a id e ha
    rcases upd_client ha with ⟨_, h2⟩ | ⟨_, h2⟩
    · cases h2
    · exact h.voted _ _ _ h2
  · intro a id e k ha
    rcases upd_client ha with ⟨_, h2⟩ | ⟨_, h2⟩
    · cases h2
    · exact h.promised _ _ _ _ h2
  · intro a e x ha hx
    simp only [upd] at ha
    split at ha
    · cases ha
      have := h.kold _ _ hx
      simp at this
    · exact h.kits a e x ha hx
  · intro n x hx
    have := h.kold n x hx
    omega
  · intro a id e k ha
    rcases upd_client ha with ⟨_, h2⟩ | ⟨_, h2⟩
    · cases h2
    · exact h.linked _ _ _ _ h2
  · intro sc hsc n hn
    rcases h.scripts sc hsc n hn with ⟨a, ha, id, e, he, hs⟩ | h2
    · have : a ≠ c := by rintro rfl; rw [hc] at he; cases he
      exact .inl ⟨a, ha, id, e, by simp [upd, this, he], hs⟩
    · exact .inr h2
  · intro e
    rw [h.pub e]
    constructor
    · rintro ⟨i, hi, h1, h2⟩
      exact ⟨i, by simp [hi], by rw [oldw i hi]; exact h1, by rw [oldw i hi]; exact h2⟩
    · rintro ⟨i, hi, h1, h2⟩
      simp only [List.mem_append, List.mem_singleton] at hi
      rcases hi with hi | rfl
      · rw [oldw i hi] at h1 h2; exact ⟨i, hi, h1, h2⟩
      · rw [new] at h1; simp [shown] at h1
  · intro e
    rw [h.dur e]
    constructor
    · rintro (h1 | ⟨a, id, k, h1⟩)
      · exact .inl h1
      · have : a ≠ c := by rintro rfl; rw [hc] at h1; cases h1
        exact .inr ⟨a, id, k, by simp [upd, this, h1]⟩
    · rintro (h1 | ⟨a, id, k, h1⟩)
      · exact .inl h1
      · rcases upd_client h1 with ⟨_, h2⟩ | ⟨_, h2⟩
        · cases h2
        · exact .inr ⟨a, id, k, h2⟩
  · intro w job R hw
    obtain ⟨h1, ⟨A, B, h2⟩, h3, h4⟩ := h.sel w job R hw
    refine ⟨h1, ⟨A, B ++ [m.fresh], by rw [h2]; simp⟩, h3, ?_⟩
    rw [mapHeap_congr fun i hi => oldw i (seg_mem ⟨A, B, h2⟩ hi)]; exact h4
  · intro w job R o hw
    obtain ⟨h1, h2, h3, h4⟩ := h.made w job R o hw
    have hs := (h.sel w job R (.inr ⟨o, hw⟩)).2.1
    refine ⟨by omega, ?_, h3.congr (fun i hi => oldw i (seg_mem hs hi)) (old o h1), by rw [old o h1]; exact h4⟩
    simp only [List.mem_append, List.mem_singleton, not_or]
    exact ⟨h2, by omega⟩
  · intro w L hw x hx
    obtain ⟨h1, h2, i, hi, h3⟩ := h.stale w L hw x hx
    refine ⟨by omega, by dsimp only; rw [old x h1]; exact h2, i, by simp [hi], ?_⟩
    dsimp only
    rw [oldw i hi, old x h1]
    exact h3
  · intro i hi hs
    simp only [List.mem_append, List.mem_singleton] at hi
    rcases hi with hi | rfl
    · rw [oldw i hi] at hs ⊢; exact h.own i hi hs
    · rw [new] at hs; simp [shown] at hs
  · intro n x hn hk
    obtain ⟨h0, i, hi, t', h1, h2, h3⟩ := h.cov n x hn hk
    have ht : t' < m.fresh := by
      rcases h2.mem with rfl | ⟨w, job, R, hw⟩
      · exact h.ids _ hi
      · exact (h.made w job R t' hw).1
    refine ⟨h0, i, by simp [hi], t', by rw [oldw i hi]; exact h1, h2, ?_⟩
    rw [old t' ht]; exact h3
  · intro r v hv
    obtain ⟨h1, h2, h3⟩ := h.view r v hv
    have e := flatMap_congr' (f := fun i => flat (upd m.heap m.fresh
      (⟨.kitten, m.sequence, m.sequence, M.leaf ⟨m.sequence, m.address, t⟩⟩ : Obj α) i).body)
      (g := fun i => flat (m.heap i).body) (l := v.shards) fun i hi => by rw [old i (h1 i hi).1]
    rw [e]
    refine ⟨fun i hi => ?_, h2, h3⟩
    rw [old i (h1 i hi).1]
    exact ⟨by have := (h1 i hi).1; omega, (h1 i hi).2⟩

end Verif.Txn
