/-
The memory built when a burrow is opened.
-/
import Verif.Txn.Boot
namespace Verif.Txn

variable {τ α : Type} {M : Ops τ α} {flat : α → List (Entry τ)} {T : FName → α → Prop} {d : Disk α}
  {du : List (Entry τ)}

def kindOf (n : FName) : Kind := if n.kind = .hazel then .hazel else .fiver

theorem loadAll_some (h : Quiet M flat T d du) {all : List FName} (ha : ∀ n ∈ all, ∃ b, T n b) :
    ∃ os : List (Obj α), loadAll d all = some os ∧ os.length = all.length ∧
      ∀ (i : Nat) (n : FName), all[i]? = some n → ∃ b, T n b ∧ os[i]? = some ⟨kindOf n, n.lo, n.hi, b⟩ := by
  induction all with
  | nil => exact ⟨[], rfl, rfl, by simp⟩
  | cons n l ih =>
    obtain ⟨os, e, hl, hi⟩ := ih fun x hx => ha x (by simp [hx])
    obtain ⟨b, hb⟩ := ha n (by simp)
    have hg := get_of_mem h.uniq (h.here n b hb)
    refine ⟨⟨kindOf n, n.lo, n.hi, b⟩ :: os, ?_, by simp [hl], ?_⟩
    · simp only [loadAll, loadShard, hg, e]; rfl
    · intro i n' hn'
      cases i with
      | zero => simp only [List.getElem?_cons_zero, Option.some.injEq] at hn'; subst hn'; exact ⟨b, hb, rfl⟩
      | succ i => simpa using hi i n' (by simpa using hn')

theorem find_last {β : Type} {R : β → β → Prop} {p : β → Bool} {l : List β} (h : l.Pairwise R) {e : β}
    (he : e ∈ l) (hp : p e = true) : ∃ z ∈ l, l.reverse.find? p = some z ∧ p z = true ∧ (e = z ∨ R e z) := by
  have h' : l.reverse.Pairwise fun a b => R b a := by rw [List.pairwise_reverse]; exact h
  have he' : e ∈ l.reverse := List.mem_reverse.2 he
  suffices ∀ l' : List β, l'.Pairwise (fun a b => R b a) → e ∈ l' →
      ∃ z ∈ l', l'.find? p = some z ∧ p z = true ∧ (e = z ∨ R e z) by
    obtain ⟨z, hz, q⟩ := this _ h' he'
    exact ⟨z, List.mem_reverse.1 hz, q⟩
  intro l'
  induction l' with
  | nil => intro _ h; cases h
  | cons a l' ih =>
    intro hpw hm
    rw [List.pairwise_cons] at hpw
    cases hpa : p a with
    | true =>
      refine ⟨a, by simp, by simp [hpa], hpa, ?_⟩
      rcases List.mem_cons.1 hm with e1 | e1
      · exact .inl e1
      · exact .inr (hpw.1 e e1)
    | false =>
      rcases List.mem_cons.1 hm with e1 | e1
      · rw [e1, hpa] at hp; cases hp
      · obtain ⟨z, hz, q1, q2⟩ := ih hpw.2 e1
        exact ⟨z, by simp [hz], by simp [hpa, q1], q2⟩

/-- the next address is past every address used -/
theorem next_past (hM : Lawful M flat) {os : List (Obj α)}
    (h : (os.flatMap fun o => flat o.body).Pairwise (Before M)) {e : Entry τ}
    (he : e ∈ os.flatMap fun o => flat o.body) (hz : 0 < M.size e.txn) : e.base + M.size e.txn ≤ nextAddress M os := by
  have key : ∀ l : List (Obj α), (∀ o ∈ l, (flat o.body).Pairwise (Before M)) →
      l.Pairwise (fun a b => ∀ x ∈ flat b.body, ∀ y ∈ flat a.body, Before M x y) →
      (∃ o ∈ l, e ∈ flat o.body) → ∃ q, l.findSome? (fun o => M.last o.body) = some q ∧ e.base + M.size e.txn ≤ q + 1 := by
    intro l
    induction l with
    | nil => rintro _ _ ⟨o, ho, _⟩; cases ho
    | cons o l ih =>
      intro h1 h2 h3
      rw [List.pairwise_cons] at h2
      rw [List.findSome?_cons, hM.last]
      cases hf : (flat o.body).reverse.find? (fun e => decide (0 < M.size e.txn)) with
      | some z =>
        simp only [Option.map_some]
        refine ⟨_, rfl, ?_⟩
        have hzm : z ∈ flat o.body := List.mem_reverse.1 (List.mem_of_find?_eq_some hf)
        have hzp : 0 < M.size z.txn := by simpa using List.find?_some hf
        obtain ⟨o', ho', he'⟩ := h3
        rcases List.mem_cons.1 ho' with rfl | ho'
        · obtain ⟨z', _, e1, _, e2⟩ := find_last (h1 o' (by simp)) he' (p := fun e => decide (0 < M.size e.txn)) (by simpa using hz)
          rw [hf] at e1; cases e1
          rcases e2 with rfl | e2
          · omega
          · have := e2.2 hz hzp; omega
        · have := (h2.1 o' ho' e he' z hzm).2 hz hzp
          omega
      | none =>
        simp only [Option.map_none]
        obtain ⟨o', ho', he'⟩ := h3
        rcases List.mem_cons.1 ho' with rfl | ho'
        · obtain ⟨z', _, e1, _⟩ := find_last (h1 o' (by simp)) he' (p := fun e => decide (0 < M.size e.txn)) (by simpa using hz)
          rw [hf] at e1; cases e1
        · exact ih (fun o ho => h1 o (by simp [ho])) h2.2 ⟨o', ho', he'⟩
  rw [List.pairwise_flatMap] at h
  rw [List.mem_flatMap] at he
  obtain ⟨q, e1, e2⟩ := key os.reverse (fun o ho => h.1 o (List.mem_reverse.1 ho))
    (by rw [List.pairwise_reverse]; exact h.2)
    (by obtain ⟨o, ho, he⟩ := he; exact ⟨o, List.mem_reverse.2 ho, he⟩)
  unfold nextAddress
  split
  · obtain ⟨o, ho, _⟩ := he; cases ho
  · rw [e1]; exact e2

theorem getLast_last {l : List (Obj α)} {o : Obj α} (hl : l.Pairwise fun a b => a.hi < b.lo)
    (hr : ∀ a ∈ l, a.lo ≤ a.hi) (ho : o ∈ l) : o.hi < nextSequence l := by
  unfold nextSequence
  have hne : l ≠ [] := by rintro rfl; cases ho
  rw [List.getLast?_eq_some_getLast hne]
  dsimp only
  have e := List.dropLast_concat_getLast hne
  rw [← e] at hl ho
  rw [List.pairwise_append] at hl
  rcases List.mem_append.1 ho with h | h
  · have h1 := hl.2.2 o h (l.getLast hne) (by simp)
    have h2 := hr _ (List.getLast_mem hne)
    omega
  · rw [List.mem_singleton] at h; rw [h]; omega

/-- the invariant holds again -/
theorem Quiet.booted (hM : Lawful M flat) (h : Quiet M flat T d du) (hs : d.scripts = []) {all : List FName}
    (ho : all.Pairwise fun a b => a.hi < b.lo) (ha : ∀ n, n ∈ all ↔ ∃ b, T n b)
    (hf : ∀ n x, (n, x) ∈ d.files → n ∈ all) :
    ∃ os, loadAll d all = some os ∧ Inv M flat (booted M os) d du du := by
  obtain ⟨os, e, hl, hi⟩ := loadAll_some h (fun n hn => (ha n).1 hn)
  refine ⟨os, e, ?_⟩
  have at' : ∀ i, i < os.length → ∃ n b, all[i]? = some n ∧ T n b ∧ os[i]? = some ⟨kindOf n, n.lo, n.hi, b⟩ := by
    intro i hlt
    have hlt' : i < all.length := by omega
    obtain ⟨b, q1, q2⟩ := hi i all[i] (List.getElem?_eq_getElem hlt')
    exact ⟨all[i], b, List.getElem?_eq_getElem hlt', q1, q2⟩
  have heap : ∀ i, i < os.length → ∃ n b, all[i]? = some n ∧ T n b ∧
      (Txn.booted M os).heap i = ⟨kindOf n, n.lo, n.hi, b⟩ := by
    intro i hlt
    obtain ⟨n, b, q1, q2, q3⟩ := at' i hlt
    exact ⟨n, b, q1, q2, by simp only [Txn.booted, q3]⟩
  have idx : ∀ n, n ∈ all → ∃ i, i < os.length ∧ ∃ b, T n b ∧ (Txn.booted M os).heap i = ⟨kindOf n, n.lo, n.hi, b⟩ := by
    intro n hn
    obtain ⟨i, hlt, hget⟩ := List.getElem_of_mem hn
    obtain ⟨b, q1, q2⟩ := hi i n (by rw [← hget]; exact List.getElem?_eq_getElem hlt)
    exact ⟨i, by omega, b, q1, by simp only [Txn.booted, q2]⟩
  have heapos : ∀ i (hlt : i < os.length), (Txn.booted M os).heap i = os[i] := by
    intro i hlt; simp only [Txn.booted, List.getElem?_eq_getElem hlt]
  have memos : ∀ o ∈ os, ∃ n b, T n b ∧ o = ⟨kindOf n, n.lo, n.hi, b⟩ := by
    intro o ho
    obtain ⟨i, hlt, hget⟩ := List.getElem_of_mem ho
    obtain ⟨n, b, _, q2, q3⟩ := at' i hlt
    rw [List.getElem?_eq_getElem hlt, hget] at q3
    exact ⟨n, b, q2, by cases q3; rfl⟩
  have osord : os.Pairwise fun a b => a.hi < b.lo := by
    rw [List.pairwise_iff_getElem] at ho ⊢
    intro i j hi' hj' hij
    obtain ⟨n, b, q1, _, q3⟩ := at' i hi'
    obtain ⟨n', b', q1', _, q3'⟩ := at' j hj'
    rw [List.getElem?_eq_getElem (by omega)] at q1 q1' q3 q3'
    simp only [Option.some.injEq] at q1 q1' q3 q3'
    rw [q3, q3', ← q1, ← q1']
    exact ho i j (by omega) (by omega) hij
  have wheap : (List.range os.length).map (Txn.booted M os).heap = os := by
    apply List.ext_getElem
    · simp
    · intro i h1 h2
      simp only [List.getElem_map, List.getElem_range]
      exact heapos i h2
  have flatEq : ((List.range os.length).flatMap fun i => flat ((Txn.booted M os).heap i).body) =
      os.flatMap fun o => flat o.body := by
    conv => rhs; rw [← wheap, flatMap_map']
  have addrs : (os.flatMap fun o => flat o.body).Pairwise (Before M) := by
    rw [List.pairwise_flatMap]
    constructor
    · intro o ho
      obtain ⟨n, b, ht, rfl⟩ := memos o ho
      exact h.addr1 n b ht
    · rw [List.pairwise_iff_forall_sublist] at osord ⊢
      intro a b hab x hx y hy
      have hlt := osord hab
      obtain ⟨n, c, ht, rfl⟩ := memos a (hab.subset (by simp))
      obtain ⟨n', c', ht', rfl⟩ := memos b (hab.subset (by simp))
      exact h.addr2 n c n' c' ht ht' hlt x hx y hy
  have files : ∀ n b, T n b → (⟨kindOf n, n.lo, n.hi, b⟩ : Obj α).file = n := by
    intro n b ht
    have hk := h.shards hs ht
    obtain ⟨k, lo, hi⟩ := n
    unfold kindOf
    rcases hk with e | e
    · simp only at e; subst e; rfl
    · simp only at e; subst e; rfl
  have sho : ∀ n b, shown (⟨kindOf n, n.lo, n.hi, b⟩ : Obj α) = true := by
    intro n b; rw [shown_iff]; simp only [kindOf]; split <;> simp
  have noTop : ∀ i, Top (Txn.booted M os).workers i i := by
    intro i; refine .inr ⟨rfl, ?_⟩
    rintro R o ⟨w, job, hw⟩; cases hw
  have hold : ∀ w job R, ¬ ((Txn.booted M os).workers w).Holds job R := by
    rintro w job R (e | ⟨_, e⟩) <;> cases e
  refine { nodup := List.nodup_range, ids := ?_, order := ?_, rng := ?_, inside := ?_, addrs := ?_, below := ?_,
           owns := ?_, alone := ?_, seqs := ?_, voted := ?_, promised := ?_, kits := ?_, kold := ?_,
           linked := ?_, scripts := ?_, keys := ?_, pub := ?_, dur := ?_, sel := ?_,
           apart := ?_, made := ?_, outs := ?_, stale := ?_, uniq := h.uniq, own := ?_,
           cov := ?_, lam := h.lam, view := ?_, gens := ?_, agree := ?_ }
  · intro i hi; exact List.mem_range.1 hi
  · have : ((List.range os.length).map (Txn.booted M os).heap).Pairwise fun a b => a.hi < b.lo := by
      rw [wheap]; exact osord
    exact List.pairwise_map.1 this
  · intro i hi
    have hlt := List.mem_range.1 hi
    obtain ⟨n, b, _, ht, q⟩ := heap i hlt
    constructor
    · rw [q]; exact h.rng n b ht
    · rw [heapos i hlt]
      refine getLast_last osord ?_ (List.getElem_mem hlt)
      intro o ho
      obtain ⟨n, b, ht, rfl⟩ := memos o ho
      exact h.rng n b ht
  · intro i hi e he
    obtain ⟨n, b, _, ht, q⟩ := heap i (List.mem_range.1 hi)
    rw [q] at he ⊢
    exact h.inside n b ht e he
  · exact flatEq ▸ addrs
  · intro i hi e he hz
    refine next_past hM addrs ?_ hz
    rw [← flatEq, List.mem_flatMap]
    exact ⟨i, hi, he⟩
  · intro c id e hc; cases hc
  · intro a b x y ha; cases ha
  · intro a x ha; cases ha
  · intro c id e hc; cases hc
  · intro c id e k hc; cases hc
  · intro c e x hc; cases hc
  · intro n x hx
    obtain ⟨b, ht⟩ := (ha _).1 (hf _ _ hx)
    exact absurd (h.shards hs ht) (kitten_not_shard n)
  · intro c id e k hc; cases hc
  · intro sc hsc; rw [hs] at hsc; cases hsc
  · rw [hs]; simp
  · intro e
    rw [h.dur e]
    constructor
    · rintro ⟨n, b, ht, he⟩
      obtain ⟨i, hlt, b', ht', q⟩ := idx n ((ha n).2 ⟨b, ht⟩)
      have : b = b' := by
        have e1 := get_of_mem h.uniq (h.here n b ht)
        have e2 := get_of_mem h.uniq (h.here n b' ht')
        rw [e1] at e2; cases e2; rfl
      subst this
      exact ⟨i, List.mem_range.2 hlt, by rw [q]; exact sho n b, by rw [q]; exact he⟩
    · rintro ⟨i, hi, _, he⟩
      obtain ⟨n, b, _, ht, q⟩ := heap i (List.mem_range.1 hi)
      rw [q] at he
      exact ⟨n, b, ht, he⟩
  · intro e
    constructor
    · exact .inl
    · rintro (he | ⟨c, id, k, hc⟩)
      · exact he
      · cases hc
  · intro w job R hw; exact absurd hw (hold _ _ _)
  · intro w w' job job' R R' _ hw; exact absurd hw (hold _ _ _)
  · intro w job R o hw; cases hw
  · intro w w' job job' R R' o hw; cases hw
  · intro w L hw; cases hw
  · intro i hi _
    obtain ⟨n, b, _, ht, q⟩ := heap i (List.mem_range.1 hi)
    rw [q, files n b ht]
    exact h.here n b ht
  · intro n x hx hsh
    obtain ⟨q0, n', b, ht, q1, q2, q3⟩ := h.cov n x hx hsh
    obtain ⟨i, hlt, b', ht', q⟩ := idx n' ((ha n').2 ⟨b, ht⟩)
    refine ⟨q0, i, List.mem_range.2 hlt, i, by rw [q]; exact sho n' b', noTop i, ?_⟩
    rw [q]
    refine ⟨q2.1, q2.2, fun hk => ?_⟩
    simp [kindOf, q3 hk]
  · intro r v hv; cases hv
  · intro r v hv; cases hv
  · intro r r' v v' hv; cases hv

/-- opening any quiet burrow succeeds, with what was durable -/
theorem Quiet.boot (hM : Lawful M flat) (h : Quiet M flat T d du) :
    ∃ m, (Txn.boot M d).2 = some m ∧ Inv M flat m (Txn.boot M d).1 du du ∧
      (∀ n x, (n, x) ∈ (Txn.boot M d).1.files → n.shard) := by
  obtain ⟨_, all, T', e1, q, e2, e3, e4, e5⟩ := h.sanitized
  obtain ⟨os, e6, hi⟩ := q.booted hM e4 e2 e3 e5
  refine ⟨Txn.booted M os, ?_, ?_, ?_⟩
  · simp only [Txn.boot, e1, e6, Option.map_some]
  · simp only [Txn.boot, e1]; exact hi
  · intro n x hx
    have hx' : (n, x) ∈ (d.ops (sanitize d).1).files := by
      simp only [Txn.boot, e1] at hx; exact hx
    obtain ⟨b, hb⟩ := (e3 n).1 (e5 n x hx')
    exact q.shards e4 hb

end Verif.Txn
