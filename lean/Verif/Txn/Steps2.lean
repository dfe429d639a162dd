/-
Steps of the writers and the readers keep the invariant.
-/
import Verif.Txn.Steps
namespace Verif.Txn

variable {τ α : Type} {M : Ops τ α} {flat : α → List (Entry τ)} {m : Mem τ α} {d : Disk α}
  {du pu : List (Entry τ)}

theorem kitten_not_shard (n : Nat) : ¬ (kittenName n).shard := by
  rintro (h | h) <;> cases h

theorem file_shard {o : Obj α} (h : shown o = true) : o.file.shard := by
  rcases shown_iff.1 h with h | h <;> simp [FName.shard, Obj.file, h]

/-- the file of a transaction gets its name -/
theorem Inv.addKitten (h : Inv M flat m d du pu) {c : Nat} {e : Entry τ} (hc : (m.clients c).entry = some e)
    (hf : ∀ x, (kittenName e.seq, x) ∉ d.files) :
    Inv M flat m (d.link (kittenName e.seq) (some (M.leaf e))) du pu :=
  have keep : ∀ f : FName × Option α, f ∈ d.files → f ∈ (d.link (kittenName e.seq) (some (M.leaf e))).files :=
    fun f hf => mem_link.2 (.inr hf)
  have back : ∀ n x, (n, x) ∈ (d.link (kittenName e.seq) (some (M.leaf e))).files → n.shard → (n, x) ∈ d.files := by
    intro n x hx hs
    rcases mem_link.1 hx with hx | hx
    · cases hx; exact absurd hs (kitten_not_shard _)
    · exact hx
  { h with
    voted := fun c id e hc => (h.voted c id e hc).imp (fun x => x) (keep _)
    promised := fun c id e k hc => ⟨keep _ (h.promised c id e k hc).1, (h.promised c id e k hc).2⟩
    kits := by
      intro c' e' x hc' hx
      rcases mem_link.1 hx with hx | hx
      · simp only [kittenName, Prod.mk.injEq, FName.mk.injEq, true_and] at hx
        have := h.alone c' c e' e hc' hc hx.1.1
        subst this
        rw [hc'] at hc; cases hc
        exact hx.2
      · exact h.kits c' e' x hc' hx
    kold := by
      intro n x hx
      rcases mem_link.1 hx with hx | hx
      · simp only [kittenName, Prod.mk.injEq, FName.mk.injEq, true_and] at hx
        rw [hx.1.1]; exact h.seqs c e hc
      · exact h.kold n x hx
    scripts := h.scripts
    keys := h.keys
    made := fun w job R o hw =>
      let x := h.made w job R o hw
      ⟨x.1, x.2.1, x.2.2.1, keep _ x.2.2.2⟩
    uniq := uniq_link h.uniq _ hf
    own := fun i hi hs => keep _ (h.own i hi hs)
    cov := fun n x hx hs => h.cov n x (back n x hx hs) hs
    lam := fun n x n' x' hx hx' hs hs' => h.lam n x n' x' (back n x hx hs) (back n' x' hx' hs') hs hs' }

/-- the vote is recorded -/
theorem Inv.setVote (h : Inv M flat m d du pu) {c id : Nat} {e : Entry τ} {v : Bool}
    (hc : m.clients c = .numbered id e)
    (hf : v = true → M.empty e.txn = true ∨ (kittenName e.seq, some (M.leaf e)) ∈ d.files) :
    Inv M flat { m with clients := upd m.clients c (.voted id e v) } d du pu :=
  have act : ∀ c', (upd m.clients c (.voted id e v) c').active = (m.clients c').active := by
    intro c'; unfold upd; split
    · rename_i e; subst e; rw [hc]; rfl
    · rfl
  have ent : ∀ c', (upd m.clients c (.voted id e v) c').entry = (m.clients c').entry := by
    intro c'; unfold upd; split
    · rename_i e; subst e; rw [hc]; rfl
    · rfl
  { h with
    owns := fun c' id' e' h' => h.owns c' id' e' (by rw [← act]; exact h')
    alone := fun a b x y ha hb => h.alone a b x y (by rw [← ent]; exact ha) (by rw [← ent]; exact hb)
    seqs := fun a x ha => h.seqs a x (by rw [← ent]; exact ha)
    kits := fun a e' x ha => h.kits a e' x (by rw [← ent]; exact ha)
    voted := by
      intro a id' e' ha
      rcases upd_client ha with ⟨_, h2⟩ | ⟨_, h2⟩
      · cases h2; exact hf rfl
      · exact h.voted _ _ _ h2
    promised := by
      intro a id e k ha
      rcases upd_client ha with ⟨_, h2⟩ | ⟨_, h2⟩
      · cases h2
      · exact h.promised _ _ _ _ h2
    linked := by
      intro a id e k ha
      rcases upd_client ha with ⟨_, h2⟩ | ⟨_, h2⟩
      · cases h2
      · exact h.linked _ _ _ _ h2
    scripts := by
      intro sc hsc n hn
      rcases h.scripts sc hsc n hn with ⟨a, ha, id, e, he, hs⟩ | h2
      · have : a ≠ c := by rintro rfl; rw [hc] at he; cases he
        exact .inl ⟨a, ha, id, e, by simp [upd, this, he], hs⟩
      · exact .inr h2
    dur := by
      intro e
      rw [h.dur e]
      constructor
      · rintro (h1 | ⟨a, id, k, h1⟩)
        · exact .inl h1
        · have : a ≠ c := by rintro rfl; rw [hc] at h1; cases h1
          exact .inr ⟨a, id, k, by simp [upd, this, h1]⟩
      · rintro (h1 | ⟨a, id, k, h1⟩)
        · exact .inl h1
        · rcases upd_client h1 with ⟨_, h2⟩ | ⟨_, h2⟩
          · cases h2
          · exact .inr ⟨a, id, k, h2⟩ }

theorem Inv.vote (h : Inv M flat m d du pu) {c id : Nat} {e : Entry τ} (hc : m.clients c = .numbered id e)
    (ok : Bool) :
    Inv M flat { m with clients := upd m.clients c (vote M d id e ok).2 } (vote M d id e ok).1 du pu := by
  unfold Txn.vote
  split
  · exact h.setVote hc fun _ => .inl (by assumption)
  · split
    · rename_i _ h2
      simp only [Bool.and_eq_true, Bool.not_eq_true'] at h2
      have h3 : ∀ x, (kittenName e.seq, x) ∉ d.files := by
        intro x hx
        have := has_iff.2 ⟨x, hx⟩
        rw [h2.2] at this; cases this
      have h4 := h.addKitten (c := c) (e := e) (by rw [hc]; rfl) h3
      exact h4.setVote hc fun _ => .inr (mem_link.2 (.inl rfl))
    · exact h.setVote hc fun hv => by cases hv

theorem Inv.kitten_shown (h : Inv M flat m d du pu) {c id : Nat} {e : Entry τ}
    (hc : (m.clients c).active = some (id, e)) : shown (m.heap id) = false := by
  rw [(h.owns c id e hc).2]; rfl

theorem active_entry {x : Client τ} {id : Nat} {e : Entry τ} (h : x.active = some (id, e)) : x.entry = some e := by
  cases x <;> simp [Client.active, Client.entry] at * <;> simp_all

theorem flatMap_sublist {β γ : Type} {l : List β} {f g : β → List γ} (h : ∀ i ∈ l, (f i).Sublist (g i)) :
    (l.flatMap f).Sublist (l.flatMap g) := by
  induction l with
  | nil => simp
  | cons a l ih =>
    simp only [List.flatMap_cons]
    exact (h a (by simp)).append (ih fun i hi => h i (by simp [hi]))

/-- Two clients do not own the same shard. -/
theorem Inv.owner (h : Inv M flat m d du pu) {c c' id : Nat} {e e' : Entry τ}
    (hc : (m.clients c).active = some (id, e)) (hc' : (m.clients c').active = some (id, e')) : c = c' := by
  have h1 := (h.owns c id e hc).2
  have h2 := (h.owns c' id e' hc').2
  rw [h1] at h2
  simp only [Obj.mk.injEq, true_and] at h2
  exact h.alone c c' e e' (active_entry hc) (active_entry hc') h2.1

/-- no shard file, and no range that stands for live shards, holds an unfinished number -/
theorem Inv.no_file (h : Inv M flat m d du pu) {c id : Nat} {e : Entry τ}
    (hc : (m.clients c).active = some (id, e)) {n : FName} {x : Option α} (hn : (n, x) ∈ d.files)
    (hs : n.shard) : n.hi < e.seq ∨ e.seq < n.lo := by
  obtain ⟨_, i, hi, t, h1, h2, h3, h4, _⟩ := h.cov n x hn hs
  have := h.top_kitten hi h1 h2 (h.owns c id e hc).1 (h.kitten_shown hc)
  rw [(h.owns c id e hc).2] at this
  simp only at this
  omega

/-- `commit()`: the file gets its final name and the shard is shown to readers -/
theorem Inv.commit (hM : Lawful M flat) (h : Inv M flat m d du pu) {c id : Nat} {e : Entry τ} {key : Option Nat}
    (hc : (m.clients c = .voted id e true ∧ key = none) ∨ ∃ k, m.clients c = .promised id e k ∧ key = some k) :
    Inv M flat (commitMem m c id e key) (d.link (fiverName e.seq) (some (M.leaf e)))
      (if key.isSome then du else e :: du) (e :: pu) := by
  have hact : (m.clients c).active = some (id, e) := by
    rcases hc with ⟨hc, _⟩ | ⟨k, hc, _⟩ <;> rw [hc] <;> rfl
  obtain ⟨hid, hobj⟩ := h.owns c id e hact
  have hns := h.kitten_shown hact
  have old : ∀ i, i ≠ id → upd m.heap id { m.heap id with kind := .fiver } i = m.heap i := fun i hi => upd_ne _ _ hi
  have olds : ∀ i, shown (m.heap i) = true → upd m.heap id { m.heap id with kind := .fiver } i = m.heap i :=
    fun i hi => old i (by rintro rfl; rw [hi] at hns; cases hns)
  have new : upd m.heap id { m.heap id with kind := .fiver } id = ⟨.fiver, e.seq, e.seq, M.leaf e⟩ := by
    rw [upd_same, hobj]
  have lohi : ∀ i, (upd m.heap id { m.heap id with kind := .fiver } i).lo = (m.heap i).lo ∧
      (upd m.heap id { m.heap id with kind := .fiver } i).hi = (m.heap i).hi ∧
      (upd m.heap id { m.heap id with kind := .fiver } i).body = (m.heap i).body := by
    intro i; unfold upd; split
    · rename_i e; subst e; exact ⟨rfl, rfl, rfl⟩
    · exact ⟨rfl, rfl, rfl⟩
  have keep : ∀ f : FName × Option α, f ∈ d.files → f ∈ (d.link (fiverName e.seq) (some (M.leaf e))).files :=
    fun f hf => mem_link.2 (.inr hf)
  have fresh : ∀ x, (fiverName e.seq, x) ∉ d.files := by
    intro x hx
    have := h.no_file hact hx (.inl rfl)
    simp [fiverName] at this
  have cli : ∀ c' y, upd m.clients c (.linked id e key) c' = y → (c' = c ∧ y = .linked id e key) ∨ (c' ≠ c ∧ m.clients c' = y) := by
    intro c' y hy
    rcases upd_client hy with ⟨h1, h2⟩ | h1
    · exact .inl ⟨h1, h2.symm⟩
    · exact .inr h1
  have fl := fun l : List Nat => flatMap_congr' (l := l)
    (f := fun i => flat (upd m.heap id { m.heap id with kind := .fiver } i).body)
    (g := fun i => flat (m.heap i).body) fun i _ => by rw [(lohi i).2.2]
  have sz : m.sequence > e.seq := h.seqs c e (active_entry hact)
  unfold commitMem
  refine { nodup := h.nodup, ids := h.ids, order := ?_, rng := ?_, inside := ?_, addrs := ?_, below := ?_,
           owns := ?_, alone := ?_, seqs := ?_, voted := ?_, promised := ?_, kits := ?_, kold := ?_, linked := ?_,
           scripts := ?_, keys := h.keys, pub := ?_, dur := ?_, sel := ?_, apart := h.apart, made := ?_,
           outs := h.outs, stale := ?_, uniq := uniq_link h.uniq _ fresh, own := ?_, cov := ?_, lam := ?_,
           view := ?_, gens := ?_, agree := h.agree }
  all_goals try dsimp only
  · exact h.order.imp fun hij => by rw [(lohi _).1, (lohi _).2.1]; exact hij
  · intro i hi; rw [(lohi i).1, (lohi i).2.1]; exact h.rng i hi
  · intro i hi x hx; rw [(lohi i).2.2] at hx; rw [(lohi i).1, (lohi i).2.1]; exact h.inside i hi x hx
  · rw [fl]; exact h.addrs
  · intro i hi x hx; rw [(lohi i).2.2] at hx; exact h.below i hi x hx
  · intro c' id' e' hc'
    rcases cli c' _ rfl with ⟨_, h2⟩ | ⟨h1, h2⟩
    · rw [h2] at hc'; cases hc'
    · rw [← h2] at hc'
      obtain ⟨h3, h4⟩ := h.owns c' id' e' hc'
      refine ⟨h3, ?_⟩
      rw [old id' (by rintro rfl; exact h1 (h.owner hc' hact))]; exact h4
  · intro a b x y ha hb hs
    have key : ∀ {a : Nat} {x : Entry τ}, (upd m.clients c (.linked id e key) a).entry = some x → (m.clients a).entry = some x := by
      intro a x ha
      rcases cli a _ rfl with ⟨h1, h2⟩ | ⟨h1, h2⟩
      · rw [h2] at ha; cases ha; rw [h1]; exact active_entry hact
      · rw [← h2] at ha; exact ha
    exact h.alone a b x y (key ha) (key hb) hs
  · intro a x ha
    rcases cli a _ rfl with ⟨h1, h2⟩ | ⟨h1, h2⟩
    · rw [h2] at ha; cases ha; exact sz
    · rw [← h2] at ha; exact h.seqs a x ha
  · intro a id' x ha
    rcases cli a _ ha with ⟨_, h2⟩ | ⟨_, h2⟩
    · cases h2
    · exact (h.voted _ _ _ h2).imp (fun x => x) (keep _)
  · intro a id' x k ha
    rcases cli a _ ha with ⟨_, h2⟩ | ⟨_, h2⟩
    · cases h2
    · exact ⟨keep _ (h.promised _ _ _ _ h2).1, (h.promised _ _ _ _ h2).2⟩
  · intro a x y ha hx
    have hx' : (kittenName x.seq, y) ∈ d.files := by
      rcases mem_link.1 hx with hx | hx
      · simp [kittenName, fiverName] at hx
      · exact hx
    rcases cli a _ rfl with ⟨h1, h2⟩ | ⟨h1, h2⟩
    · rw [h2] at ha; cases ha; exact h.kits c e y (active_entry hact) hx'
    · rw [← h2] at ha; exact h.kits a x y ha hx'
  · intro n x hx
    rcases mem_link.1 hx with hx | hx
    · simp [kittenName, fiverName] at hx
    · exact h.kold n x hx
  · intro a id' x k ha
    rcases cli a _ ha with ⟨_, h2⟩ | ⟨_, h2⟩
    · cases h2; simp
    · exact List.mem_cons_of_mem _ (h.linked _ _ _ _ h2)
  · intro sc hsc n hn
    rcases h.scripts sc hsc n hn with ⟨a, ha, id', x, hx, hs⟩ | ⟨x, hx, hs⟩
    · by_cases ea : a = c
      · subst ea
        rcases hc with ⟨hc, _⟩ | ⟨k, hc, _⟩
        · rw [hc] at hx; cases hx
        · rw [hc] at hx; cases hx; exact .inr ⟨_, by simp, hs⟩
      · exact .inl ⟨a, ha, id', x, by simp [upd, ea, hx], hs⟩
    · exact .inr ⟨x, by simp [hx], hs⟩
  · intro x
    rw [List.mem_cons, h.pub x]
    constructor
    · rintro (rfl | ⟨i, hi, h1, h2⟩)
      · exact ⟨id, hid, by rw [new]; rfl, by rw [new]; simp [hM.leaf]⟩
      · exact ⟨i, hi, by rw [olds i h1]; exact h1, by rw [olds i h1]; exact h2⟩
    · rintro ⟨i, hi, h1, h2⟩
      by_cases ei : i = id
      · subst ei; rw [new] at h2; simp only [hM.leaf, List.mem_singleton] at h2; exact .inl h2
      · rw [old i ei] at h1 h2; exact .inr ⟨i, hi, h1, h2⟩
  · intro x
    rcases hc with ⟨hc, rfl⟩ | ⟨k, hc, rfl⟩
    · simp only [Option.isSome_none, Bool.false_eq_true, if_false, List.mem_cons]
      rw [h.dur x]
      constructor
      · rintro (h1 | h1 | ⟨a, id', k, h1⟩)
        · exact .inl (.inl h1)
        · exact .inl (.inr h1)
        · have : a ≠ c := by rintro rfl; rw [hc] at h1; cases h1
          exact .inr ⟨a, id', k, by simp [upd, this, h1]⟩
      · rintro ((h1 | h1) | ⟨a, id', k, h1⟩)
        · exact .inl h1
        · exact .inr (.inl h1)
        · rcases cli a _ h1 with ⟨_, h2⟩ | ⟨_, h2⟩
          · cases h2
          · exact .inr (.inr ⟨a, id', k, h2⟩)
    · simp only [Option.isSome_some, if_true, List.mem_cons]
      rw [h.dur x]
      constructor
      · rintro (h1 | ⟨a, id', k', h1⟩)
        · exact .inl (.inr h1)
        · by_cases ea : a = c
          · subst ea; rw [hc] at h1; cases h1; exact .inl (.inl rfl)
          · exact .inr ⟨a, id', k', by simp [upd, ea, h1]⟩
      · rintro ((rfl | h1) | ⟨a, id', k', h1⟩)
        · exact .inr ⟨c, id, k, hc⟩
        · exact .inl h1
        · rcases cli a _ h1 with ⟨_, h2⟩ | ⟨_, h2⟩
          · cases h2
          · exact .inr ⟨a, id', k', h2⟩
  · intro w job R hw
    obtain ⟨h1, h2, h3, h4⟩ := h.sel w job R hw
    refine ⟨h1, h2, h3, ?_⟩
    rw [mapHeap_congr fun i hi => olds i (h.heldShown hw hi).2.1]; exact h4
  · intro w job R o hw
    obtain ⟨h1, h2, h3, h4⟩ := h.made w job R o hw
    have ho : o ≠ id := by rintro rfl; exact h2 hid
    exact ⟨h1, h2, h3.congr (fun i hi => olds i (h.heldShown (w := w) (.inr ⟨o, hw⟩) hi).2.1) (old o ho),
      by rw [old o ho]; exact keep _ h4⟩
  · intro w L hw x hx
    obtain ⟨h1, h2, i, hi, h3, h4⟩ := h.stale w L hw x hx
    refine ⟨h1, by dsimp only; rw [olds x h2]; exact h2, i, hi, ?_⟩
    dsimp only
    rw [olds i h3, olds x h2]
    exact ⟨h3, h4⟩
  · intro i hi hs
    by_cases ei : i = id
    · subst ei; rw [new]; exact mem_link.2 (.inl rfl)
    · rw [old i ei] at hs ⊢; exact keep _ (h.own i hi hs)
  · intro n x hn hk
    rcases mem_link.1 hn with hn | hn
    · cases hn
      refine ⟨Nat.le_refl _, id, hid, id, by rw [new]; rfl, .inr ⟨rfl, ?_⟩, ?_⟩
      · rintro R o ⟨w, job, hw⟩ hR
        rw [(h.heldShown (w := w) (.inr ⟨o, hw⟩) hR).2.1] at hns; cases hns
      · rw [new]; exact ⟨Nat.le_refl _, Nat.le_refl _, fun h => by cases h⟩
    · obtain ⟨h0, i, hi, t, h1, h2, h3⟩ := h.cov n x hn hk
      have ht := h.topIs hi h1 h2
      refine ⟨h0, i, hi, t, by rw [olds i h1]; exact h1, h2, ?_⟩
      rw [olds t ht.2.2.1]; exact h3
  · intro n x n' x' hn hn' hk hk'
    rcases mem_link.1 hn with hn | hn <;> rcases mem_link.1 hn' with hn' | hn'
    · cases hn; cases hn'; exact .inl ⟨Nat.le_refl _, Nat.le_refl _⟩
    · cases hn
      have := h.no_file hact hn' hk'
      simp only [fiverName]; omega
    · cases hn'
      have := h.no_file hact hn hk
      simp only [fiverName]; omega
    · exact h.lam n x n' x' hn hn' hk hk'
  · intro r v hv
    obtain ⟨h1, h2, h3⟩ := h.view r v hv
    rw [fl]
    exact ⟨fun i hi => ⟨(h1 i hi).1, by rw [olds i (h1 i hi).2]; exact (h1 i hi).2⟩, h2, h3⟩
  · intro r v hv
    have := h.gens r v hv
    exact ⟨by omega, fun e => by omega⟩

/-- `abort()` after `ready()` -/
theorem Inv.abort (hM : Lawful M flat) (h : Inv M flat m d du pu) {c id : Nat} {e : Entry τ} {v : Bool}
    (hc : m.clients c = .voted id e v) :
    Inv M flat (abortMem M m c id) (d.rm (kittenName e.seq)) du pu := by
  have hact : (m.clients c).active = some (id, e) := by rw [hc]; rfl
  obtain ⟨hid, hobj⟩ := h.owns c id e hact
  have hns := h.kitten_shown hact
  have old : ∀ i, i ≠ id → upd m.heap id { m.heap id with kind := .remove, body := M.blank } i = m.heap i :=
    fun i hi => upd_ne _ _ hi
  have olds : ∀ i, shown (m.heap i) = true →
      upd m.heap id { m.heap id with kind := .remove, body := M.blank } i = m.heap i :=
    fun i hi => old i (by rintro rfl; rw [hi] at hns; cases hns)
  have new : upd m.heap id { m.heap id with kind := .remove, body := M.blank } id = ⟨.remove, e.seq, e.seq, M.blank⟩ := by
    rw [upd_same, hobj]
  have lohi : ∀ i, (upd m.heap id { m.heap id with kind := .remove, body := M.blank } i).lo = (m.heap i).lo ∧
      (upd m.heap id { m.heap id with kind := .remove, body := M.blank } i).hi = (m.heap i).hi ∧
      (flat (upd m.heap id { m.heap id with kind := .remove, body := M.blank } i).body).Sublist (flat (m.heap i).body) := by
    intro i
    by_cases ei : i = id
    · subst ei; rw [new, hobj]; simp [hM.blank]
    · rw [old i ei]; exact ⟨rfl, rfl, List.Sublist.refl _⟩
  have keep : ∀ f : FName × Option α, f ∈ d.files → f.1.shard → f ∈ (d.rm (kittenName e.seq)).files := by
    intro f hf hs
    refine mem_rm.2 ⟨hf, ?_⟩
    intro e; rw [e] at hs; exact kitten_not_shard _ hs
  have cli : ∀ c' y, upd m.clients c .idle c' = y → (c' = c ∧ y = .idle) ∨ (c' ≠ c ∧ m.clients c' = y) := by
    intro c' y hy
    rcases upd_client hy with ⟨h1, h2⟩ | h1
    · exact .inl ⟨h1, h2.symm⟩
    · exact .inr h1
  have kkeep : ∀ c' e' x, c' ≠ c → (m.clients c').entry = some e' → (kittenName e'.seq, x) ∈ d.files →
      (kittenName e'.seq, x) ∈ (d.rm (kittenName e.seq)).files := by
    intro c' e' x hne he hx
    refine mem_rm.2 ⟨hx, ?_⟩
    intro heq
    simp only [kittenName, FName.mk.injEq, true_and] at heq
    exact hne (h.alone c' c e' e he (active_entry hact) heq.1)
  unfold abortMem
  refine { nodup := h.nodup, ids := h.ids, order := ?_, rng := ?_, inside := ?_, addrs := ?_, below := ?_,
           owns := ?_, alone := ?_, seqs := ?_, voted := ?_, promised := ?_, kits := ?_, kold := ?_, linked := ?_,
           scripts := ?_, keys := h.keys, pub := ?_, dur := ?_, sel := ?_, apart := h.apart, made := ?_,
           outs := h.outs, stale := ?_, uniq := uniq_rm h.uniq _, own := ?_, cov := ?_, lam := ?_,
           view := ?_, gens := h.gens, agree := h.agree }
  all_goals try dsimp only
  · exact h.order.imp fun hij => by rw [(lohi _).1, (lohi _).2.1]; exact hij
  · intro i hi; rw [(lohi i).1, (lohi i).2.1]; exact h.rng i hi
  · intro i hi x hx; rw [(lohi i).1, (lohi i).2.1]; exact h.inside i hi x ((lohi i).2.2.subset hx)
  · exact h.addrs.sublist (flatMap_sublist fun i _ => (lohi i).2.2)
  · intro i hi x hx; exact h.below i hi x ((lohi i).2.2.subset hx)
  · intro c' id' e' hc'
    rcases cli c' _ rfl with ⟨_, h2⟩ | ⟨h1, h2⟩
    · rw [h2] at hc'; cases hc'
    · rw [← h2] at hc'
      obtain ⟨h3, h4⟩ := h.owns c' id' e' hc'
      refine ⟨h3, ?_⟩
      rw [old id' (by rintro rfl; exact h1 (h.owner hc' hact))]; exact h4
  · intro a b x y ha hb hs
    rcases cli a _ rfl with ⟨_, h2⟩ | ⟨_, h2⟩
    · rw [h2] at ha; cases ha
    · rcases cli b _ rfl with ⟨_, h3⟩ | ⟨_, h3⟩
      · rw [h3] at hb; cases hb
      · rw [← h2] at ha; rw [← h3] at hb; exact h.alone a b x y ha hb hs
  · intro a x ha
    rcases cli a _ rfl with ⟨h1, h2⟩ | ⟨h1, h2⟩
    · rw [h2] at ha; cases ha
    · rw [← h2] at ha; exact h.seqs a x ha
  · intro a id' x ha
    rcases cli a _ ha with ⟨_, h2⟩ | ⟨h1, h2⟩
    · cases h2
    · exact (h.voted _ _ _ h2).imp (fun x => x) (kkeep a x _ h1 (by rw [h2]; rfl))
  · intro a id' x k ha
    rcases cli a _ ha with ⟨_, h2⟩ | ⟨h1, h2⟩
    · cases h2
    · exact ⟨kkeep a x _ h1 (by rw [h2]; rfl) (h.promised _ _ _ _ h2).1, (h.promised _ _ _ _ h2).2⟩
  · intro a x y ha hx
    rcases cli a _ rfl with ⟨h1, h2⟩ | ⟨h1, h2⟩
    · rw [h2] at ha; cases ha
    · rw [← h2] at ha; exact h.kits a x y ha (mem_rm.1 hx).1
  · intro n x hx
    exact h.kold n x (mem_rm.1 hx).1
  · intro a id' x k ha
    rcases cli a _ ha with ⟨_, h2⟩ | ⟨_, h2⟩
    · cases h2
    · exact h.linked _ _ _ _ h2
  · intro sc hsc n hn
    rcases h.scripts sc hsc n hn with ⟨a, ha, id', x, hx, hs⟩ | ⟨x, hx, hs⟩
    · have : a ≠ c := by rintro rfl; rw [hc] at hx; cases hx
      exact .inl ⟨a, ha, id', x, by simp [upd, this, hx], hs⟩
    · exact .inr ⟨x, hx, hs⟩
  · intro x
    rw [h.pub x]
    constructor
    · rintro ⟨i, hi, h1, h2⟩
      exact ⟨i, hi, by rw [olds i h1]; exact h1, by rw [olds i h1]; exact h2⟩
    · rintro ⟨i, hi, h1, h2⟩
      by_cases ei : i = id
      · subst ei; rw [new] at h1; cases h1
      · rw [old i ei] at h1 h2; exact ⟨i, hi, h1, h2⟩
  · intro x
    rw [h.dur x]
    constructor
    · rintro (h1 | ⟨a, id', k, h1⟩)
      · exact .inl h1
      · have : a ≠ c := by rintro rfl; rw [hc] at h1; cases h1
        exact .inr ⟨a, id', k, by simp [upd, this, h1]⟩
    · rintro (h1 | ⟨a, id', k, h1⟩)
      · exact .inl h1
      · rcases cli a _ h1 with ⟨_, h2⟩ | ⟨_, h2⟩
        · cases h2
        · exact .inr ⟨a, id', k, h2⟩
  · intro w job R hw
    obtain ⟨h1, h2, h3, h4⟩ := h.sel w job R hw
    refine ⟨h1, h2, h3, ?_⟩
    rw [mapHeap_congr fun i hi => olds i (h.heldShown hw hi).2.1]; exact h4
  · intro w job R o hw
    obtain ⟨h1, h2, h3, h4⟩ := h.made w job R o hw
    have ho : o ≠ id := by rintro rfl; exact h2 hid
    refine ⟨h1, h2, h3.congr (fun i hi => olds i (h.heldShown (w := w) (.inr ⟨o, hw⟩) hi).2.1) (old o ho), ?_⟩
    rw [old o ho]
    refine keep _ h4 (file_shard ?_)
    rw [shown_iff, h3.1]; cases job <;> simp
  · intro w L hw x hx
    obtain ⟨h1, h2, i, hi, h3, h4⟩ := h.stale w L hw x hx
    refine ⟨h1, by dsimp only; rw [olds x h2]; exact h2, i, hi, ?_⟩
    dsimp only
    rw [olds i h3, olds x h2]
    exact ⟨h3, h4⟩
  · intro i hi hs
    by_cases ei : i = id
    · subst ei; rw [new] at hs; cases hs
    · rw [old i ei] at hs ⊢; exact keep _ (h.own i hi hs) (file_shard hs)
  · intro n x hn hk
    obtain ⟨h0, i, hi, t, h1, h2, h3⟩ := h.cov n x (mem_rm.1 hn).1 hk
    have ht := h.topIs hi h1 h2
    refine ⟨h0, i, hi, t, by rw [olds i h1]; exact h1, h2, ?_⟩
    rw [olds t ht.2.2.1]; exact h3
  · exact fun n x n' x' hn hn' => h.lam n x n' x' (mem_rm.1 hn).1 (mem_rm.1 hn').1
  · intro r v hv
    obtain ⟨h1, h2, h3⟩ := h.view r v hv
    have e := flatMap_congr' (l := v.shards)
      (f := fun i => flat (upd m.heap id { m.heap id with kind := .remove, body := M.blank } i).body)
      (g := fun i => flat (m.heap i).body) fun i hi => by rw [olds i (h1 i hi).2]
    rw [e]
    exact ⟨fun i hi => ⟨(h1 i hi).1, by rw [olds i (h1 i hi).2]; exact (h1 i hi).2⟩, h2, h3⟩

end Verif.Txn
