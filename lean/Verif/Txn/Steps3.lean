/-
Steps of commit scripts, readers and merge workers keep the invariant.
-/
import Verif.Txn.Steps2
namespace Verif.Txn

variable {τ α : Type} {M : Ops τ α} {flat : α → List (Entry τ)} {m : Mem τ α} {d : Disk α}
  {du pu : List (Entry τ)}

theorem votedYes_some {c id : Nat} {e : Entry τ} (h : votedYes m c = some (id, e)) :
    m.clients c = .voted id e true := by
  unfold votedYes at h
  split at h
  · rename_i h1; cases h; exact h1
  · cases h

theorem allVoted_spec {cs : List Nat} {es : List (Entry τ)} (h : allVoted m cs = some es) :
    (∀ c ∈ cs, ∃ id e, m.clients c = .voted id e true ∧ e ∈ es) ∧
    (∀ e ∈ es, ∃ c ∈ cs, ∃ id, m.clients c = .voted id e true) := by
  induction cs generalizing es with
  | nil => simp only [allVoted, Option.some.injEq] at h; subst h; simp
  | cons c cs ih =>
    simp only [allVoted] at h
    split at h
    · rename_i id e es' h1 h2
      cases h
      obtain ⟨i1, i2⟩ := ih h2
      have h3 := votedYes_some h1
      constructor
      · intro c' hc'
        rcases List.mem_cons.1 hc' with rfl | hc'
        · exact ⟨id, e, h3, by simp⟩
        · obtain ⟨a, b, h4, h5⟩ := i1 c' hc'
          exact ⟨a, b, h4, by simp [h5]⟩
      · intro e' he'
        rcases List.mem_cons.1 he' with rfl | he'
        · exact ⟨c, by simp, id, h3⟩
        · obtain ⟨a, h4, b, h5⟩ := i2 e' he'
          exact ⟨a, by simp [h4], b, h5⟩
    · cases h

theorem flatMap_sub {β γ : Type} {l l' : List β} (h : l.Sublist l') (f : β → List γ) :
    (l.flatMap f).Sublist (l'.flatMap f) := by
  induction h with
  | slnil => simp
  | cons a _ ih =>
    rw [List.flatMap_cons]
    exact ih.trans (List.sublist_append_right _ _)
  | cons_cons a _ ih =>
    simp only [List.flatMap_cons]
    exact (List.Sublist.refl _).append ih

/-- the script of `commit_all` gets its name -/
theorem Inv.script (h : Inv M flat m d du pu) {key : Nat} {cs : List Nat} {es : List (Entry τ)}
    (hv : allVoted m cs = some es) (hk : ∀ sc ∈ d.scripts, sc.key ≠ key)
    (hf : ∀ e ∈ es, d.has (kittenName e.seq) = true) :
    Inv M flat (promise m key cs) { d with scripts := ⟨key, es.map (·.seq)⟩ :: d.scripts } (es ++ du) pu := by
  obtain ⟨v1, v2⟩ := allVoted_spec hv
  have cl : ∀ c, (if c ∈ cs then (m.clients c).promise key else m.clients c) = m.clients c ∨
      ∃ id e, c ∈ cs ∧ m.clients c = .voted id e true ∧ e ∈ es ∧
        (if c ∈ cs then (m.clients c).promise key else m.clients c) = .promised id e key := by
    intro c
    by_cases hc : c ∈ cs
    · obtain ⟨id, e, h1, h2⟩ := v1 c hc
      exact .inr ⟨id, e, hc, h1, h2, by rw [if_pos hc, h1]; rfl⟩
    · exact .inl (if_neg hc)
  have act : ∀ c, (if c ∈ cs then (m.clients c).promise key else m.clients c).active = (m.clients c).active := by
    intro c
    rcases cl c with e | ⟨id, e, _, h1, _, h2⟩
    · rw [e]
    · rw [h2, h1]; rfl
  have ent : ∀ c, (if c ∈ cs then (m.clients c).promise key else m.clients c).entry = (m.clients c).entry := by
    intro c
    rcases cl c with e | ⟨id, e, _, h1, _, h2⟩
    · rw [e]
    · rw [h2, h1]; rfl
  have pro : ∀ c id e k, m.clients c = .promised id e k →
      (if c ∈ cs then (m.clients c).promise key else m.clients c) = .promised id e k := by
    intro c id e k hc
    rcases cl c with e | ⟨id, e, _, h1, _, h2⟩
    · rw [e]; exact hc
    · rw [hc] at h1; cases h1
  have new : ∀ e ∈ es, ∃ c ∈ cs, ∃ id,
      (if c ∈ cs then (m.clients c).promise key else m.clients c) = .promised id e key := by
    intro e he
    obtain ⟨c, hc, id, h1⟩ := v2 e he
    refine ⟨c, hc, id, ?_⟩
    rw [if_pos hc, h1]; rfl
  unfold promise
  exact { h with
    owns := fun c id e hc => h.owns c id e (by rw [← act]; exact hc)
    alone := fun a b x y ha hb => h.alone a b x y (by rw [← ent]; exact ha) (by rw [← ent]; exact hb)
    seqs := fun a x ha => h.seqs a x (by rw [← ent]; exact ha)
    kits := fun a e' x ha => h.kits a e' x (by rw [← ent]; exact ha)
    voted := by
      intro c id e hc
      dsimp only at hc
      rcases cl c with e | ⟨_, _, _, _, _, h2⟩
      · rw [e] at hc; exact h.voted c id _ hc
      · rw [h2] at hc; cases hc
    promised := by
      intro c id e k hc
      dsimp only at hc
      rcases cl c with e' | ⟨id', e', hcs, h1, hes, h2⟩
      · rw [e'] at hc
        obtain ⟨q1, q2, sc, q3, q4, q5⟩ := h.promised c id e k hc
        refine ⟨q1, ?_, sc, by simp [q3], q4, q5⟩
        dsimp only
        rw [upd_ne]
        · exact q2
        · rw [← q4]; exact hk sc q3
      · rw [h2] at hc; cases hc
        refine ⟨?_, by simp [upd_same, hcs], ⟨key, es.map (·.seq)⟩, by simp, rfl,
          List.mem_map_of_mem hes⟩
        obtain ⟨x, hx⟩ := has_iff.1 (hf _ hes)
        have := h.kits c _ x (by rw [h1]; rfl) hx
        rw [this] at hx; exact hx
    linked := by
      intro c id e k hc
      dsimp only at hc
      rcases cl c with e | ⟨_, _, _, _, _, h2⟩
      · rw [e] at hc; exact h.linked c id _ _ hc
      · rw [h2] at hc; cases hc
    scripts := by
      intro sc hsc n hn
      dsimp only at hsc ⊢
      rcases List.mem_cons.1 hsc with rfl | hsc
      · obtain ⟨e, he, rfl⟩ := List.mem_map.1 hn
        obtain ⟨c, hc, id, h1⟩ := new e he
        exact .inl ⟨c, by rw [upd_same]; exact hc, id, e, h1, rfl⟩
      · rcases h.scripts sc hsc n hn with ⟨c, hc, id, e, h1, h2⟩ | h2
        · refine .inl ⟨c, ?_, id, e, pro _ _ _ _ h1, h2⟩
          rw [upd_ne _ _ (hk sc hsc)]; exact hc
        · exact .inr h2
    keys := List.pairwise_cons.2 ⟨fun sc hsc => (hk sc hsc).symm, h.keys⟩
    dur := by
      intro e
      rw [List.mem_append, h.dur e]
      constructor
      · rintro (h1 | h1 | ⟨c, id, k, h1⟩)
        · obtain ⟨c, _, id, h2⟩ := new e h1
          exact .inr ⟨c, id, key, h2⟩
        · exact .inl h1
        · exact .inr ⟨c, id, k, pro _ _ _ _ h1⟩
      · rintro (h1 | ⟨c, id, k, h1⟩)
        · exact .inr (.inl h1)
        · dsimp only at h1
          rcases cl c with e' | ⟨id', e', _, _, hes, h2⟩
          · rw [e'] at h1; exact .inr (.inr ⟨c, id, k, h1⟩)
          · rw [h2] at h1; cases h1; exact .inl hes }

/-- the script is removed at the end of `commit_all` -/
theorem Inv.unscript (h : Inv M flat m d du pu) {key : Nat} (hb : (m.groups key).any (busy m key) = false) :
    Inv M flat m (d.op (.rmScript key)) du pu := by
  have nb : ∀ c id e, m.clients c ≠ .promised id e key := by
    intro c id e hc
    have := (h.promised c id e key hc).2.1
    rw [List.any_eq_false] at hb
    have h2 := hb c this
    simp [busy, hc] at h2
  exact { h with
    promised := by
      intro c id e k hc
      obtain ⟨q1, q2, sc, q3, q4, q5⟩ := h.promised c id e k hc
      refine ⟨q1, q2, sc, ?_, q4, q5⟩
      simp only [Disk.op, List.mem_filter, decide_eq_true_eq]
      refine ⟨q3, ?_⟩
      rintro rfl; subst q4; exact nb _ _ _ hc
    scripts := by
      intro sc hsc
      simp only [Disk.op, List.mem_filter] at hsc
      exact h.scripts sc hsc.1
    keys := h.keys.sublist List.filter_sublist }

/-- the old name is removed at the end of `commit()` -/
theorem Inv.unkitten (h : Inv M flat m d du pu) {c id : Nat} {e : Entry τ} {k : Option Nat}
    (hc : m.clients c = .linked id e k) :
    Inv M flat { m with clients := upd m.clients c .idle } (d.rm (kittenName e.seq)) du pu := by
  have h1 := h.setIdle (c := c) (x := .idle) ⟨rfl, rfl⟩ (by intro id e k hp; rw [hc] at hp; cases hp)
    (by intro id e k; refine ⟨by simp, by simp, by simp⟩)
  refine h1.rmKitten ?_
  intro c' id' e' hc' hs
  by_cases ec : c' = c
  · subst ec; simp [upd_same, Client.active] at hc'
  · simp only [upd_ne _ _ ec] at hc'
    exact ec (h.alone c' c e' e (active_entry hc') (by rw [hc]; rfl) hs)

/-- `abort()` before `ready()` -/
theorem Inv.abortOpen (h : Inv M flat m d du pu) {c n : Nat} {t : τ} (hc : m.clients c = .opened t)
    (hn : ∀ c id e, (m.clients c).active = some (id, e) → e.seq ≠ n) :
    Inv M flat { m with clients := upd m.clients c .idle } (d.rm (kittenName n)) du pu := by
  have h1 := h.setIdle (c := c) (x := .idle) ⟨rfl, rfl⟩ (by intro id e k hp; rw [hc] at hp; cases hp)
    (by intro id e k; refine ⟨by simp, by simp, by simp⟩)
  refine h1.rmKitten ?_
  intro c' id' e' hc'
  by_cases ec : c' = c
  · subst ec; simp [upd_same, Client.active] at hc'
  · simp only [upd_ne _ _ ec] at hc'
    exact hn c' id' e' hc'

/-! ### Readers -/

theorem Inv.rstart (h : Inv M flat m d du pu) (r : Nat) :
    Inv M flat { m with readers := upd m.readers r (some (snapshot m pu)) } d du pu :=
  { h with
    view := by
      intro r' v hv
      dsimp only at hv ⊢
      by_cases e : r' = r
      · subst e; rw [upd_same] at hv; cases hv
        refine ⟨fun i hi => ?_, ?_, fun e => ?_⟩
        · simp only [snapshot, List.mem_filter] at hi
          exact ⟨h.ids i hi.1, hi.2⟩
        · refine h.addrs.sublist ?_
          exact flatMap_sub List.filter_sublist _
        · rw [List.mem_flatMap]
          simp only [snapshot, List.mem_filter]
          rw [h.pub e]
          constructor
          · rintro ⟨i, ⟨h1, h2⟩, h3⟩; exact ⟨i, h1, h2, h3⟩
          · rintro ⟨i, h1, h2, h3⟩; exact ⟨i, ⟨h1, h2⟩, h3⟩
      · rw [upd_ne _ _ e] at hv; exact h.view r' v hv
    gens := by
      intro r' v hv
      dsimp only at hv ⊢
      by_cases e : r' = r
      · subst e; rw [upd_same] at hv; cases hv
        exact ⟨Nat.le_refl _, fun _ e => Iff.rfl⟩
      · rw [upd_ne _ _ e] at hv; exact h.gens r' v hv
    agree := by
      intro r1 r2 v1 v2 hv1 hv2 hc x
      dsimp only at hv1 hv2
      by_cases e1 : r1 = r <;> by_cases e2 : r2 = r
      · subst e1; subst e2; rw [hv1] at hv2; cases hv2; exact Iff.rfl
      · subst e1; rw [upd_same] at hv1; cases hv1
        rw [upd_ne _ _ e2] at hv2
        exact ((h.gens r2 v2 hv2).2 hc.symm x).symm
      · subst e2; rw [upd_same] at hv2; cases hv2
        rw [upd_ne _ _ e1] at hv1
        exact (h.gens r1 v1 hv1).2 hc x
      · rw [upd_ne _ _ e1] at hv1; rw [upd_ne _ _ e2] at hv2
        exact h.agree r1 r2 v1 v2 hv1 hv2 hc x }

theorem Inv.setReader (h : Inv M flat m d du pu) (r : Nat) (v : Option (View τ))
    (hv : ∀ x, v = some x → ∃ r', m.readers r' = some x) :
    Inv M flat { m with readers := upd m.readers r v } d du pu :=
  have old : ∀ r' x, upd m.readers r v r' = some x → ∃ r'', m.readers r'' = some x := by
    intro r' x hx
    by_cases e : r' = r
    · subst e; rw [upd_same] at hx; exact hv x hx
    · rw [upd_ne _ _ e] at hx; exact ⟨r', hx⟩
  { h with
    view := fun r' x hx => by obtain ⟨q, hq⟩ := old r' x hx; exact h.view q x hq
    gens := fun r' x hx => by obtain ⟨q, hq⟩ := old r' x hx; exact h.gens q x hq
    agree := fun r1 r2 v1 v2 h1 h2 => by
      obtain ⟨q1, hq1⟩ := old r1 v1 h1
      obtain ⟨q2, hq2⟩ := old r2 v2 h2
      exact h.agree q1 q2 v1 v2 hq1 hq2 }

/-! ### The merge worker -/

theorem Inv.sweep (h : Inv M flat m d du pu) : Inv M flat (sweep m) d du pu := by
  have sub : ∀ i, i ∈ m.warrens.filter (fun i => (m.heap i).kind ≠ .remove) → i ∈ m.warrens :=
    fun i hi => (List.mem_filter.1 hi).1
  have keep : ∀ i ∈ m.warrens, shown (m.heap i) = true → i ∈ m.warrens.filter (fun i => (m.heap i).kind ≠ .remove) := by
    intro i hi hs
    refine List.mem_filter.2 ⟨hi, ?_⟩
    rcases shown_iff.1 hs with e | e <;> simp [e]
  unfold Txn.sweep
  exact { h with
    nodup := h.nodup.sublist List.filter_sublist
    ids := fun i hi => h.ids i (sub i hi)
    order := h.order.sublist List.filter_sublist
    rng := fun i hi => h.rng i (sub i hi)
    inside := fun i hi => h.inside i (sub i hi)
    addrs := h.addrs.sublist (flatMap_sub List.filter_sublist _)
    below := fun i hi => h.below i (sub i hi)
    owns := by
      intro c id e hc
      obtain ⟨h1, h2⟩ := h.owns c id e hc
      refine ⟨List.mem_filter.2 ⟨h1, ?_⟩, h2⟩
      simp [h2]
    pub := by
      intro e
      rw [h.pub e]
      constructor
      · rintro ⟨i, hi, h1, h2⟩; exact ⟨i, keep i hi h1, h1, h2⟩
      · rintro ⟨i, hi, h1, h2⟩; exact ⟨i, sub i hi, h1, h2⟩
    sel := by
      intro w job R hw
      obtain ⟨h1, ⟨A, B, h2⟩, h3⟩ := h.sel w job R hw
      refine ⟨h1, ⟨A.filter (fun i => (m.heap i).kind ≠ .remove), B.filter (fun i => (m.heap i).kind ≠ .remove), ?_⟩, h3⟩
      dsimp only
      rw [h2, List.filter_append, List.filter_append]
      congr 2
      rw [List.filter_eq_self]
      intro i hi
      rcases shown_iff.1 (h.heldShown hw hi).2.1 with e | e <;> simp [e]
    made := fun w job R o hw =>
      let x := h.made w job R o hw
      ⟨x.1, fun hx => x.2.1 (sub o hx), x.2.2⟩
    stale := by
      intro w L hw x hx
      obtain ⟨h1, h2, i, hi, h3, h4⟩ := h.stale w L hw x hx
      exact ⟨h1, h2, i, keep i hi h3, h3, h4⟩
    own := fun i hi => h.own i (sub i hi)
    cov := by
      intro n x hn hs
      obtain ⟨h0, i, hi, t, h1, h2⟩ := h.cov n x hn hs
      exact ⟨h0, i, keep i hi h1, t, h1, h2⟩ }

theorem upd_worker {w w' : Nat} {k : Worker} {y : Worker} (h : upd m.workers w k w' = y) :
    (w' = w ∧ k = y) ∨ (w' ≠ w ∧ m.workers w' = y) := by
  by_cases e : w' = w
  · subst e; rw [upd_same] at h; exact .inl ⟨rfl, h⟩
  · rw [upd_ne _ _ e] at h; exact .inr ⟨e, h⟩

theorem upd_holds {w w' : Nat} {k : Worker} {job : Job} {R : List Nat} (h : (upd m.workers w k w').Holds job R) :
    (w' = w ∧ k.Holds job R) ∨ (w' ≠ w ∧ (m.workers w').Holds job R) := by
  by_cases e : w' = w
  · subst e; rw [upd_same] at h; exact .inl ⟨rfl, h⟩
  · rw [upd_ne _ _ e] at h; exact .inr ⟨e, h⟩

theorem top_upd {w : Nat} {k : Worker} (hold : ∀ job R o, m.workers w ≠ .made job R o)
    (hk : ∀ job R o, k ≠ .made job R o) {i t : Nat} (h : Top m.workers i t) : Top (upd m.workers w k) i t := by
  have p : ∀ R o, Pending (upd m.workers w k) R o ↔ Pending m.workers R o := by
    intro R o
    constructor
    · rintro ⟨w', job, hw⟩
      rcases upd_worker hw with ⟨_, h2⟩ | ⟨_, h2⟩
      · exact absurd h2 (hk _ _ _)
      · exact ⟨w', job, h2⟩
    · rintro ⟨w', job, hw⟩
      refine ⟨w', job, ?_⟩
      rw [upd_ne]; exact hw
      rintro rfl; exact hold _ _ _ hw
  rcases h with ⟨R, h1, h2⟩ | ⟨h1, h2⟩
  · exact .inl ⟨R, (p R t).2 h1, h2⟩
  · exact .inr ⟨h1, fun R o hR => h2 R o ((p R o).1 hR)⟩

/-- a worker that has no output yet drops its selection, or goes on discarding -/
theorem Inv.setWorker (h : Inv M flat m d du pu) {w : Nat} {k : Worker} {mg : List Nat}
    (hold : ∀ job R o, m.workers w ≠ .made job R o) (hk : ∀ job R, ¬ k.Holds job R)
    (hs : ∀ L, k = .discarding L → ∀ x ∈ L, x < m.fresh ∧ Stale m x)
    (hm : ∀ w', w' ≠ w → ∀ job R, (m.workers w').Holds job R → ∀ i ∈ R, i ∈ mg) :
    Inv M flat { m with workers := upd m.workers w k, merging := mg } d du pu :=
  have hk' : ∀ job R o, k ≠ .made job R o := fun job R o e => hk job R (.inr ⟨o, e⟩)
  { h with
    sel := by
      intro w' job R hw
      rcases upd_holds hw with ⟨_, h2⟩ | ⟨h1, h2⟩
      · exact absurd h2 (hk _ _)
      · obtain ⟨q1, q2, q3, q4⟩ := h.sel w' job R h2
        exact ⟨q1, q2, hm w' h1 job R h2, q4⟩
    apart := by
      intro w1 w2 j1 j2 R1 R2 hne h1 h2
      rcases upd_holds h1 with ⟨_, h1⟩ | ⟨_, h1⟩
      · exact absurd h1 (hk _ _)
      · rcases upd_holds h2 with ⟨_, h2⟩ | ⟨_, h2⟩
        · exact absurd h2 (hk _ _)
        · exact h.apart w1 w2 j1 j2 R1 R2 hne h1 h2
    made := by
      intro w' job R o hw
      rcases upd_worker hw with ⟨_, h2⟩ | ⟨_, h2⟩
      · exact absurd h2 (hk' _ _ _)
      · exact h.made w' job R o h2
    outs := by
      intro w1 w2 j1 j2 R1 R2 o h1 h2
      rcases upd_worker h1 with ⟨_, h1⟩ | ⟨_, h1⟩
      · exact absurd h1 (hk' _ _ _)
      · rcases upd_worker h2 with ⟨_, h2⟩ | ⟨_, h2⟩
        · exact absurd h2 (hk' _ _ _)
        · exact h.outs w1 w2 j1 j2 R1 R2 o h1 h2
    stale := by
      intro w' L hw
      rcases upd_worker hw with ⟨_, h2⟩ | ⟨_, h2⟩
      · exact hs L h2
      · exact h.stale w' L h2
    cov := by
      intro n x hn hsh
      obtain ⟨h0, i, hi, t, h1, h2, h3⟩ := h.cov n x hn hsh
      exact ⟨h0, i, hi, t, h1, top_upd hold hk' h2, h3⟩ }

/-- what a selection not yet merged is for: its members stand for themselves, and all that
stand for other shards lie before or after them -/
theorem Inv.top_held (h : Inv M flat m d du pu) {w : Nat} {job : Job} {R : List Nat}
    (hw : m.workers w = .grabbed job R) {a z : Nat} (ha : R.head? = some a) (hz : R.getLast? = some z)
    {i t : Nat} (hi : i ∈ m.warrens) (ht : Top m.workers i t) :
    (i ∈ R ∧ t = i) ∨ (i ∉ R ∧ ((m.heap t).hi < (m.heap a).lo ∨ (m.heap z).hi < (m.heap t).lo)) := by
  obtain ⟨a', z', ha', hz', haR, hzR, h0, h1, h2⟩ := h.span (w := w) (.inl hw)
  rw [ha] at ha'; cases ha'
  rw [hz] at hz'; cases hz'
  rcases ht with ⟨R', ⟨w', job', hw'⟩, hiR⟩ | ⟨rfl, hno⟩
  · have ne : w ≠ w' := by rintro rfl; rw [hw] at hw'; cases hw'
    have ap := h.apart w w' job job' R R' ne (.inl hw) (.inr ⟨t, hw'⟩)
    obtain ⟨b, y, hb, hy, hbR, hyR, k0, k1, k2⟩ := h.span (w := w') (.inr ⟨t, hw'⟩)
    obtain ⟨_, _, h3, _⟩ := h.made w' job' R' t hw'
    refine .inr ⟨fun hx => ap i hx hiR, ?_⟩
    rw [h3.2.1 b hb, h3.2.2.1 y hy]
    have q1 := k2 a (h.heldShown (w := w) (.inl hw) haR).1
    have q2 := h2 b (h.heldShown (w := w') (.inr ⟨t, hw'⟩) hbR).1
    have q3 : a ∉ R' := ap a haR
    have q4 : b ∉ R := fun hx => ap b hx hbR
    have q5 := h1 a haR
    have q6 := k1 b hbR
    have q7 := h.rng a (h.heldShown (w := w) (.inl hw) haR).1
    have q8 := h.rng b (h.heldShown (w := w') (.inr ⟨t, hw'⟩) hbR).1
    rcases q1 with q1 | q1 | q1
    · exact absurd q1 q3
    · rcases q2 with q2 | q2 | q2
      · exact absurd q2 q4
      · omega
      · exact .inr q2
    · exact .inl q1
  · by_cases hiR : t ∈ R
    · exact .inl ⟨hiR, rfl⟩
    · rcases h2 t hi with q | q
      · exact absurd q hiR
      · exact .inr ⟨hiR, q⟩

theorem Inv.grab (h : Inv M flat m d du pu) {w start n : Nat} {m' : Mem τ α} (hw : m.workers w = .idle)
    (hg : grab m w start n = some m') : Inv M flat m' d du pu := by
  unfold Txn.grab at hg
  dsimp only at hg
  split at hg
  · rename_i hc
    split at hg
    · cases hg
    · rename_i job hj
      simp only [Option.some.injEq] at hg
      subst hg
      generalize hR : (m.warrens.drop start).take n = R at hc hj
      simp only [Bool.and_eq_true, decide_eq_true_eq, List.all_eq_true, Bool.not_eq_true', List.contains_eq_mem,
        decide_eq_false_iff_not] at hc
      obtain ⟨⟨c1, c2⟩, c3⟩ := hc
      have hold : ∀ job R o, m.workers w ≠ .made job R o := fun _ _ _ e => by rw [hw] at e; cases e
      have hk : ∀ j R' o, (Worker.grabbed job R) ≠ .made j R' o := fun _ _ _ e => by cases e
      have hg : ∀ {j R'}, (Worker.grabbed job R).Holds j R' → j = job ∧ R' = R := by
        rintro j R' (e | ⟨o, e⟩)
        · cases e; exact ⟨rfl, rfl⟩
        · cases e
      have ap : ∀ w' j R', (m.workers w').Holds j R' → ∀ i ∈ R, i ∉ R' := by
        intro w' j R' hh i hi hi'
        exact c3 i hi ((h.sel w' j R' hh).2.2.1 i hi')
      exact { h with
        sel := by
          intro w' j R' hh
          rcases upd_holds hh with ⟨_, h2⟩ | ⟨_, h2⟩
          · obtain ⟨rfl, rfl⟩ := hg h2
            refine ⟨by rintro rfl; simp at c1; omega, ⟨m.warrens.take start, (m.warrens.drop start).drop n, ?_⟩, ?_, hj⟩
            · rw [← hR, List.append_assoc, List.take_append_drop, List.take_append_drop]
            · intro i hi; simp [hi]
          · obtain ⟨q1, q2, q3, q4⟩ := h.sel w' j R' h2
            exact ⟨q1, q2, fun i hi => List.mem_append.2 (.inr (q3 i hi)), q4⟩
        apart := by
          intro w1 w2 j1 j2 R1 R2 hne h1 h2
          rcases upd_holds h1 with ⟨e1, k1⟩ | ⟨_, k1⟩ <;> rcases upd_holds h2 with ⟨e2, k2⟩ | ⟨_, k2⟩
          · exact absurd (e1.trans e2.symm) hne
          · obtain ⟨_, e⟩ := hg k1
            rw [e]; exact ap w2 j2 R2 k2
          · obtain ⟨_, e⟩ := hg k2
            rw [e]; exact fun i hi hx => ap w1 j1 R1 k1 i hx hi
          · exact h.apart w1 w2 j1 j2 R1 R2 hne k1 k2
        made := by
          intro w' j R' o hh
          rcases upd_worker hh with ⟨_, h2⟩ | ⟨_, h2⟩
          · cases h2
          · exact h.made w' j R' o h2
        outs := by
          intro w1 w2 j1 j2 R1 R2 o h1 h2
          rcases upd_worker h1 with ⟨_, h1⟩ | ⟨_, h1⟩
          · cases h1
          · rcases upd_worker h2 with ⟨_, h2⟩ | ⟨_, h2⟩
            · cases h2
            · exact h.outs w1 w2 j1 j2 R1 R2 o h1 h2
        stale := by
          intro w' L hh
          rcases upd_worker hh with ⟨_, h2⟩ | ⟨_, h2⟩
          · cases h2
          · exact h.stale w' L h2
        cov := by
          intro n x hn hsh
          obtain ⟨h0, i, hi, t, h1, h2, h3⟩ := h.cov n x hn hsh
          exact ⟨h0, i, hi, t, h1, top_upd hold hk h2, h3⟩ }
  · cases hg

theorem Inv.release (h : Inv M flat m d du pu) {w : Nat} {job : Job} {R : List Nat}
    (hw : m.workers w = .grabbed job R) : Inv M flat (release m w R) d du pu := by
  have := h.setWorker (w := w) (k := .idle) (mg := m.merging.filter fun i => !R.contains i)
    (fun _ _ _ e => by rw [hw] at e; cases e)
    (by rintro _ _ (e | ⟨_, e⟩) <;> cases e) (fun _ e => by cases e)
    (by
      intro w' hne j R' hh i hi
      refine List.mem_filter.2 ⟨(h.sel w' j R' hh).2.2.1 i hi, ?_⟩
      have := h.apart w' w j job R' R hne hh (.inl hw) i hi
      simp [this])
  exact this

end Verif.Txn
