/-
What the burrow holds when no process has it open.
-/
import Verif.Txn.Steps5
import Verif.Txn.Survey
namespace Verif.Txn

variable {τ α : Type} {M : Ops τ α} {flat : α → List (Entry τ)}

/-- `T n b`: the file `n`, with contents `b`, holds transactions that must be there after the
burrow is opened again, and no other such file holds them. -/
structure Quiet (M : Ops τ α) (flat : α → List (Entry τ)) (T : FName → α → Prop) (d : Disk α)
    (du : List (Entry τ)) : Prop where
  kind : ∀ n b, T n b → n.shard ∨ n.kind = .kitten
  here : ∀ n b, T n b → (n, some b) ∈ d.files
  rng : ∀ n b, T n b → n.lo ≤ n.hi
  apart : ∀ n b n' b', T n b → T n' b' → n = n' ∨ n.hi < n'.lo ∨ n'.hi < n.lo
  inside : ∀ n b, T n b → ∀ e ∈ flat b, n.lo ≤ e.seq ∧ e.seq ≤ n.hi
  addr1 : ∀ n b, T n b → (flat b).Pairwise (Before M)
  addr2 : ∀ n b n' b', T n b → T n' b' → n.hi < n'.lo → ∀ e ∈ flat b, ∀ f ∈ flat b', Before M e f
  kit : ∀ n b, T n b → n.kind = .kitten → n.lo = n.hi ∧ ∃ sc ∈ d.scripts, n.lo ∈ sc.seqs
  scripts : ∀ sc ∈ d.scripts, ∀ k ∈ sc.seqs, ∃ n b, T n b ∧ n.lo ≤ k ∧ k ≤ n.hi
  keys : d.scripts.Pairwise fun a b => a.key ≠ b.key
  cov : ∀ n x, (n, x) ∈ d.files → n.shard → n.lo ≤ n.hi ∧
    ∃ n' b, T n' b ∧ n'.shard ∧ Nests n' n ∧ (n.kind = .hazel → n'.kind = .hazel)
  lam : ∀ n x n' x', (n, x) ∈ d.files → (n', x') ∈ d.files → n.shard → n'.shard →
    Nests n n' ∨ Nests n' n ∨ n.hi < n'.lo ∨ n'.hi < n.lo
  uniq : (d.files.map (·.1)).Nodup
  dur : ∀ e, e ∈ du ↔ ∃ n b, T n b ∧ e ∈ flat b

section
variable {m : Mem τ α} {d : Disk α} {du pu : List (Entry τ)}

theorem Inv.flat_before (h : Inv M flat m d du pu) {i j : Nat} (hi : i ∈ m.warrens) (hj : j ∈ m.warrens)
    (hij : (m.heap i).hi < (m.heap j).lo) {e f : Entry τ} (he : e ∈ flat (m.heap i).body)
    (hf : f ∈ flat (m.heap j).body) : Before M e f := by
  have h1 := (List.pairwise_flatMap.1 h.addrs).2
  have h2 := h1.and h.order
  have ri := h.rng i hi
  have rj := h.rng j hj
  have tri : ∀ {l : List Nat}, l.Pairwise (fun a b => (∀ x ∈ flat (m.heap a).body, ∀ y ∈ flat (m.heap b).body, Before M x y) ∧
      (m.heap a).hi < (m.heap b).lo) → i ∈ l → j ∈ l → Before M e f := by
    intro l hl
    induction l with
    | nil => intro h; cases h
    | cons a l ih =>
      intro k1 k2
      rw [List.pairwise_cons] at hl
      rcases List.mem_cons.1 k1 with e1 | e1 <;> rcases List.mem_cons.1 k2 with e2 | e2
      · subst e1; subst e2; omega
      · subst e1; exact (hl.1 j e2).1 e he f hf
      · subst e2; have := (hl.1 i e1).2; omega
      · exact ih hl.2 e1 e2
  exact tri h2 hi hj

/-- the files that stand for the transactions that will be there after a crash -/
def Tips (M : Ops τ α) (m : Mem τ α) (n : FName) (b : α) : Prop :=
  (∃ i ∈ m.warrens, ∃ t, shown (m.heap i) = true ∧ Top m.workers i t ∧ n = (m.heap t).file ∧ b = (m.heap t).body) ∨
  (∃ c id e k, m.clients c = .promised id e k ∧ n = kittenName e.seq ∧ b = M.leaf e)

theorem Inv.tipEntry (hM : Lawful M flat) (h : Inv M flat m d du pu) {n : FName} {b : α} (ht : Tips M m n b)
    {e : Entry τ} (he : e ∈ flat b) : ∃ i ∈ m.warrens, e ∈ flat (m.heap i).body ∧ n.lo ≤ (m.heap i).lo ∧
      (m.heap i).hi ≤ n.hi ∧ (shown (m.heap i) = true ∨ ∃ c id k, m.clients c = .promised id e k) := by
  rcases ht with ⟨i, hi, t, hs, htop, rfl, rfl⟩ | ⟨c, id, e', k, hc, rfl, rfl⟩
  · rcases htop with ⟨R, ⟨w, job, hw⟩, hiR⟩ | ⟨rfl, _⟩
    · obtain ⟨_, _, h3, _⟩ := h.made w job R t hw
      rw [h3.2.2.2, List.mem_flatMap] at he
      obtain ⟨j, hj, he⟩ := he
      have hjs := h.heldShown (w := w) (.inr ⟨t, hw⟩) hj
      have q := h.topIs (i := j) hjs.1 hjs.2.1 (.inl ⟨R, ⟨w, job, hw⟩, hj⟩)
      exact ⟨j, hjs.1, he, q.1, q.2.1, .inl hjs.2.1⟩
    · exact ⟨t, hi, he, Nat.le_refl _, Nat.le_refl _, .inl hs⟩
  · rw [hM.leaf, List.mem_singleton] at he
    subst he
    obtain ⟨q1, q2⟩ := h.owns c id e (by rw [hc]; rfl)
    refine ⟨id, q1, by rw [q2]; simp [hM.leaf], ?_, ?_, .inr ⟨c, id, k, hc⟩⟩ <;> rw [q2] <;> simp [kittenName]

/-- the state of the burrow when the process stops -/
theorem Inv.quiet (hM : Lawful M flat) (h : Inv M flat m d du pu) : Quiet M flat (Tips M m) d du := by
  have kind : ∀ n b, Tips M m n b → n.shard ∨ n.kind = .kitten := by
    rintro n b (⟨i, hi, t, hs, htop, rfl, rfl⟩ | ⟨c, id, e', k, hc, rfl, rfl⟩)
    · exact .inl (file_shard (h.topIs hi hs htop).2.2.1)
    · exact .inr rfl
  have mk : ∀ i ∈ m.warrens, shown (m.heap i) = true → ∀ e ∈ flat (m.heap i).body,
      ∃ n b, Tips M m n b ∧ e ∈ flat b := by
    intro i hi hs e he
    obtain ⟨t, ht⟩ := top_exists m.workers i
    refine ⟨_, _, .inl ⟨i, hi, t, hs, ht, rfl, rfl⟩, ?_⟩
    rcases ht with ⟨R, ⟨w, job, hw⟩, hiR⟩ | ⟨rfl, _⟩
    · obtain ⟨_, _, h3, _⟩ := h.made w job R t hw
      rw [h3.2.2.2, List.mem_flatMap]
      exact ⟨i, hiR, he⟩
    · exact he
  have dur : ∀ e, e ∈ du ↔ ∃ n b, Tips M m n b ∧ e ∈ flat b := by
    intro e
    rw [h.dur e]
    constructor
    · rintro (hp | ⟨c, id, k, hc⟩)
      · obtain ⟨i, hi, hs, he⟩ := (h.pub e).1 hp
        exact mk i hi hs e he
      · exact ⟨_, _, .inr ⟨c, id, e, k, hc, rfl, rfl⟩, by simp [hM.leaf]⟩
    · rintro ⟨n, b, ht, he⟩
      obtain ⟨i, hi, he', _, _, hq⟩ := h.tipEntry hM ht he
      rcases hq with hs | hq
      · exact .inl ((h.pub e).2 ⟨i, hi, hs, he'⟩)
      · exact .inr hq
  have rng : ∀ n b, Tips M m n b → n.lo ≤ n.hi := by
    rintro n b (⟨i, hi, t, hs, htop, rfl, rfl⟩ | ⟨c, id, e', k, hc, rfl, rfl⟩)
    · have q := h.topIs hi hs htop
      have := h.rng i hi
      simp only [Obj.file]
      omega
    · exact Nat.le_refl _
  have inside : ∀ n b, Tips M m n b → ∀ e ∈ flat b, n.lo ≤ e.seq ∧ e.seq ≤ n.hi := by
    intro n b ht e he
    obtain ⟨i, hi, he', q1, q2, _⟩ := h.tipEntry hM ht he
    have := h.inside i hi e he'
    omega
  have kitObj : ∀ {c id : Nat} {e : Entry τ} {k : Nat}, m.clients c = .promised id e k →
      id ∈ m.warrens ∧ m.heap id = ⟨.kitten, e.seq, e.seq, M.leaf e⟩ := fun hc => h.owns _ _ _ (by rw [hc]; rfl)
  refine { kind := kind, here := ?_, rng := rng, apart := ?_, inside := inside, addr1 := ?_, addr2 := ?_, kit := ?_,
           scripts := ?_, keys := h.keys, cov := ?_, lam := h.lam, uniq := h.uniq, dur := dur }
  · rintro n b (⟨i, hi, t, hs, htop, rfl, rfl⟩ | ⟨c, id, e', k, hc, rfl, rfl⟩)
    · exact (h.topIs hi hs htop).2.2.2.1
    · exact (h.promised _ _ _ _ hc).1
  · rintro n b n' b' (⟨i, hi, t, hs, htop, rfl, rfl⟩ | ⟨c, id, e, k, hc, rfl, rfl⟩)
      (⟨j, hj, u, hs', htop', rfl, rfl⟩ | ⟨c', id', e', k', hc', rfl, rfl⟩)
    · rcases h.tops_apart hi hj htop htop' with rfl | q
      · exact .inl rfl
      · exact .inr q
    · obtain ⟨q1, q2⟩ := kitObj hc'
      have := h.top_kitten hi hs htop q1 (by rw [q2]; rfl)
      rw [q2] at this
      exact .inr this
    · obtain ⟨q1, q2⟩ := kitObj hc
      have := h.top_kitten hj hs' htop' q1 (by rw [q2]; rfl)
      rw [q2] at this
      exact .inr this.symm
    · by_cases e' : e.seq = e'.seq
      · exact .inl (by rw [e'])
      · right; simp only [kittenName]; omega
  · rintro n b (⟨i, hi, t, hs, htop, rfl, rfl⟩ | ⟨c, id, e', k, hc, rfl, rfl⟩)
    · rcases htop with ⟨R, ⟨w, job, hw⟩, hiR⟩ | ⟨rfl, _⟩
      · obtain ⟨_, _, h3, _⟩ := h.made w job R t hw
        obtain ⟨_, ⟨A, B, hseg⟩, _⟩ := h.sel w job R (.inr ⟨t, hw⟩)
        rw [h3.2.2.2]
        refine h.addrs.sublist (flatMap_sub ?_ _)
        rw [hseg, List.append_assoc]
        exact (List.sublist_append_left R B).trans (List.sublist_append_right A _)
      · exact (List.pairwise_flatMap.1 h.addrs).1 t hi
    · rw [hM.leaf]; simp
  · intro n b n' b' ht ht' hlt e he f hf
    obtain ⟨i, hi, he', q1, q2, _⟩ := h.tipEntry hM ht he
    obtain ⟨j, hj, hf', q1', q2', _⟩ := h.tipEntry hM ht' hf
    exact h.flat_before hi hj (by omega) he' hf'
  · rintro n b (⟨i, hi, t, hs, htop, rfl, rfl⟩ | ⟨c, id, e', k, hc, rfl, rfl⟩) hk
    · rcases file_shard (h.topIs hi hs htop).2.2.1 with e | e <;> rw [e] at hk <;> cases hk
    · obtain ⟨_, _, sc, q1, _, q2⟩ := h.promised _ _ _ _ hc
      exact ⟨rfl, sc, q1, q2⟩
  · intro sc hsc k hk
    rcases h.scripts sc hsc k hk with ⟨c, _, id, e, hc, rfl⟩ | ⟨e, he, rfl⟩
    · exact ⟨_, _, .inr ⟨c, id, e, _, hc, rfl, rfl⟩, Nat.le_refl _, Nat.le_refl _⟩
    · obtain ⟨n, b, ht, he⟩ := (dur e).1 ((h.dur e).2 (.inl he))
      exact ⟨n, b, ht, inside n b ht e he⟩
  · intro n x hn hs
    obtain ⟨h0, i, hi, t, k1, k2, k3, k4, k5⟩ := h.cov n x hn hs
    refine ⟨h0, _, _, .inl ⟨i, hi, t, k1, k2, rfl, rfl⟩, file_shard (h.topIs hi k1 k2).2.2.1, ⟨k3, k4⟩, fun hk => ?_⟩
    simp [Obj.file, k5 hk]
end

end Verif.Txn
