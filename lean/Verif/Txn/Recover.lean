/-
Opening a burrow: every file-system call keeps what `Quiet` says, and at the end the
shards are those that stand for the transactions whose commit point was passed.
-/
import Verif.Txn.Quiet
namespace Verif.Txn

variable {τ α : Type} {M : Ops τ α} {flat : α → List (Entry τ)} {T : FName → α → Prop} {d : Disk α}
  {du : List (Entry τ)}

theorem Quiet.rm (h : Quiet M flat T d du) {n : FName} (hn : ∀ b, ¬ T n b) : Quiet M flat T (d.rm n) du :=
  { h with
    here := fun n' b ht => mem_rm.2 ⟨h.here n' b ht, by rintro rfl; exact hn b ht⟩
    kit := h.kit
    scripts := h.scripts
    keys := h.keys
    cov := fun n' x hx => h.cov n' x (mem_rm.1 hx).1
    lam := fun n' x n'' x' hx hx' => h.lam n' x n'' x' (mem_rm.1 hx).1 (mem_rm.1 hx').1
    uniq := uniq_rm h.uniq n }

theorem Quiet.no_fiver (h : Quiet M flat T d du) {k : Nat} {b : α} (hk : T (kittenName k) b) (x : Option α) :
    (fiverName k, x) ∉ d.files := by
  intro hx
  obtain ⟨_, n', b', ht, hs, hn, _⟩ := h.cov _ _ hx (.inl rfl)
  unfold Nests fiverName at hn
  rcases h.apart _ _ _ _ hk ht with e | e | e
  · rw [← e] at hs; exact kitten_not_shard _ hs
  · simp only [kittenName] at e hn; omega
  · simp only [kittenName] at e hn; omega

/-- one line of a commit script -/
theorem Quiet.mv (h : Quiet M flat T d du) {k : Nat} (hk : ∃ sc ∈ d.scripts, k ∈ sc.seqs) :
    ∃ T', Quiet M flat T' (d.mvn k) du ∧ (∀ b, ¬ T' (kittenName k) b) ∧
      (∀ j b, T' (kittenName j) b → T (kittenName j) b) ∧ (d.mvn k).scripts = d.scripts := by
  unfold Disk.mvn
  cases hg : d.get (kittenName k) with
  | none => exact ⟨T, h, fun b hb => get_none hg _ (h.here _ _ hb), fun _ _ hx => hx, rfl⟩
  | some x =>
    dsimp only
    split
    · rename_i hf
      obtain ⟨y, hy⟩ := has_iff.1 hf
      exact ⟨T, h, fun b hb => h.no_fiver hb y hy, fun _ _ hx => hx, rfl⟩
    · rename_i hf
      have hf' : ∀ y, (fiverName k, y) ∉ d.files := fun y hy => hf (has_iff.2 ⟨y, hy⟩)
      have ne : fiverName k ≠ kittenName k := by simp [fiverName, kittenName]
      have files : ∀ f : FName × Option α, f ∈ ((d.link (fiverName k) x).rm (kittenName k)).files ↔
          (f = (fiverName k, x) ∨ f ∈ d.files) ∧ f.1 ≠ kittenName k := by
        intro f; rw [mem_rm, mem_link]
      by_cases hp : ∃ b, T (kittenName k) b
      · obtain ⟨b0, hb0⟩ := hp
        have hx : x = some b0 := by
          have := get_of_mem h.uniq (h.here _ _ hb0)
          rw [hg] at this; cases this; rfl
        subst hx
        have lohi : (fiverName k).lo = (kittenName k).lo ∧ (fiverName k).hi = (kittenName k).hi := ⟨rfl, rfl⟩
        -- the old name of each of the new tops
        let T' : FName → α → Prop := fun n b => (n = fiverName k ∧ T (kittenName k) b) ∨ (n ≠ kittenName k ∧ T n b)
        have old : ∀ n b, T' n b → ∃ n', T n' b ∧ n'.lo = n.lo ∧ n'.hi = n.hi ∧
            (n' = n ∨ (n' = kittenName k ∧ n = fiverName k)) ∧ n ≠ kittenName k := by
          rintro n b (⟨rfl, ht⟩ | ⟨hne, ht⟩)
          · exact ⟨_, ht, rfl, rfl, .inr ⟨rfl, rfl⟩, ne⟩
          · exact ⟨n, ht, rfl, rfl, .inl rfl, hne⟩
        have new : ∀ n b, T n b → ∃ n', T' n' b ∧ n'.lo = n.lo ∧ n'.hi = n.hi ∧ (n.shard → n' = n) := by
          intro n b ht
          by_cases e : n = kittenName k
          · subst e; exact ⟨fiverName k, .inl ⟨rfl, ht⟩, rfl, rfl, fun hs => absurd hs (kitten_not_shard _)⟩
          · exact ⟨n, .inr ⟨e, ht⟩, rfl, rfl, fun _ => rfl⟩
        refine ⟨T', ?_, ?_, ?_, rfl⟩
        · refine { kind := ?_, here := ?_, rng := ?_, apart := ?_, inside := ?_, addr1 := ?_, addr2 := ?_, kit := ?_,
                   scripts := ?_, keys := h.keys, cov := ?_, lam := ?_, uniq := ?_, dur := ?_ }
          · rintro n b (⟨rfl, _⟩ | ⟨_, ht⟩)
            · exact .inl (.inl rfl)
            · exact h.kind n b ht
          · rintro n b (⟨rfl, ht⟩ | ⟨hne, ht⟩)
            · have hb := get_of_mem h.uniq (h.here _ _ ht)
              rw [hg] at hb; cases hb
              exact (files _).2 ⟨.inl rfl, ne⟩
            · exact (files _).2 ⟨.inr (h.here n b ht), hne⟩
          · intro n b ht
            obtain ⟨n', ht', e1, e2, _⟩ := old n b ht
            have := h.rng n' b ht'; omega
          · intro n b n' b' ht ht'
            obtain ⟨a, q, e1, e2, e3, e5⟩ := old n b ht
            obtain ⟨a', q', e1', e2', e3', e5'⟩ := old n' b' ht'
            rcases h.apart a b a' b' q q' with e | e
            · subst e
              rcases e3 with rfl | ⟨rfl, rfl⟩ <;> rcases e3' with rfl | ⟨e4, rfl⟩
              · exact .inl rfl
              · exact absurd e4 e5
              · exact absurd rfl e5'
              · exact .inl rfl
            · right; omega
          · intro n b ht e he
            obtain ⟨a, q, e1, e2, _⟩ := old n b ht
            have := h.inside a b q e he; omega
          · intro n b ht
            obtain ⟨a, q, _⟩ := old n b ht
            exact h.addr1 a b q
          · intro n b n' b' ht ht' hlt
            obtain ⟨a, q, e1, e2, _⟩ := old n b ht
            obtain ⟨a', q', e1', e2', _⟩ := old n' b' ht'
            exact h.addr2 a b a' b' q q' (by omega)
          · rintro n b (⟨rfl, _⟩ | ⟨_, ht⟩) hkk
            · cases hkk
            · exact h.kit n b ht hkk
          · intro sc hsc j hj
            obtain ⟨n, b, ht, q1, q2⟩ := h.scripts sc hsc j hj
            obtain ⟨n', ht', e1, e2, _⟩ := new n b ht
            exact ⟨n', b, ht', by omega, by omega⟩
          · intro n y hy hs
            obtain ⟨hy, hne⟩ := (files _).1 hy
            rcases hy with hy | hy
            · cases hy
              exact ⟨Nat.le_refl _, fiverName k, b0, .inl ⟨rfl, hb0⟩, .inl rfl, ⟨Nat.le_refl _, Nat.le_refl _⟩, fun hh => hh⟩
            · obtain ⟨q0, n', b, ht, q1, q2, q3⟩ := h.cov n y hy hs
              obtain ⟨n'', ht', e1, e2, e3⟩ := new n' b ht
              rw [e3 q1] at ht'
              exact ⟨q0, n', b, ht', q1, q2, q3⟩
          · have loc : ∀ n y, (n, y) ∈ d.files → n.shard → n.hi < k ∨ k < n.lo := by
              intro n y hy hs
              obtain ⟨q0, n', b, ht, q1, q2, q3⟩ := h.cov n y hy hs
              unfold Nests at q2
              rcases h.apart _ _ _ _ hb0 ht with e | e | e
              · rw [← e] at q1; exact absurd q1 (kitten_not_shard _)
              · simp only [kittenName] at e; omega
              · simp only [kittenName] at e; omega
            intro n y n' y' hy hy' hs hs'
            obtain ⟨hy, _⟩ := (files _).1 hy
            obtain ⟨hy', _⟩ := (files _).1 hy'
            rcases hy with hy | hy <;> rcases hy' with hy' | hy'
            · cases hy; cases hy'; exact .inl ⟨Nat.le_refl _, Nat.le_refl _⟩
            · cases hy
              have := loc n' y' hy' hs'
              simp only [fiverName]; omega
            · cases hy'
              have := loc n y hy hs
              simp only [fiverName]; omega
            · exact h.lam n y n' y' hy hy' hs hs'
          · exact uniq_rm (uniq_link h.uniq _ hf') _
          · intro e
            rw [h.dur e]
            constructor
            · rintro ⟨n, b, ht, he⟩
              obtain ⟨n', ht', _⟩ := new n b ht
              exact ⟨n', b, ht', he⟩
            · rintro ⟨n, b, ht, he⟩
              obtain ⟨n', ht', _⟩ := old n b ht
              exact ⟨n', b, ht', he⟩
        · rintro b (⟨e, _⟩ | ⟨e, _⟩)
          · exact ne e.symm
          · exact e rfl
        · rintro j b (⟨e, _⟩ | ⟨_, ht⟩)
          · simp [kittenName, fiverName] at e
          · exact ht
      · have hp : ∀ b, ¬ T (kittenName k) b := fun b hb => hp ⟨b, hb⟩
        refine ⟨T, ?_, hp, fun _ _ hx => hx, rfl⟩
        obtain ⟨sc, hsc, hks⟩ := hk
        obtain ⟨nc, bc, htc, q1, q2⟩ := h.scripts sc hsc k hks
        have hshard : nc.shard := by
          rcases h.kind nc bc htc with hs | hs
          · exact hs
          · obtain ⟨e, _⟩ := h.kit nc bc htc hs
            have : nc = kittenName k := by
              obtain ⟨a, b, c⟩ := nc
              simp only [kittenName, FName.mk.injEq] at *
              exact ⟨hs, by omega, by omega⟩
            rw [this] at htc; exact absurd htc (hp bc)
        exact { h with
          here := fun n b ht => (files _).2 ⟨.inr (h.here n b ht), by rintro e; simp only at e; rw [e] at ht; exact hp b ht⟩
          kit := h.kit
          scripts := h.scripts
          keys := h.keys
          cov := by
            intro n y hy hs
            obtain ⟨hy, hne⟩ := (files _).1 hy
            rcases hy with hy | hy
            · cases hy
              exact ⟨Nat.le_refl _, nc, bc, htc, hshard, ⟨q1, q2⟩, fun hh => by cases hh⟩
            · exact h.cov n y hy hs
          lam := by
            intro n y n' y' hy hy' hs hs'
            obtain ⟨hy, _⟩ := (files _).1 hy
            obtain ⟨hy', _⟩ := (files _).1 hy'
            rcases hy with hy | hy <;> rcases hy' with hy' | hy'
            · cases hy; cases hy'; exact .inl ⟨Nat.le_refl _, Nat.le_refl _⟩
            · cases hy
              have := (h.cov n' y' hy' hs').1
              unfold Nests
              simp only [fiverName]; omega
            · cases hy'
              have := (h.cov n y hy hs).1
              unfold Nests
              simp only [fiverName]; omega
            · exact h.lam n y n' y' hy hy' hs hs'
          uniq := uniq_rm (uniq_link h.uniq _ hf') _ }

/-- a finished script is removed -/
theorem Quiet.rmScript (h : Quiet M flat T d du) {sc : Script} {rest : List Script} (hs : d.scripts = sc :: rest)
    (hp : ∀ k ∈ sc.seqs, ∀ b, ¬ T (kittenName k) b) :
    Quiet M flat T (d.op (.rmScript sc.key)) du ∧ (d.op (.rmScript sc.key)).scripts = rest := by
  have hk := h.keys
  rw [hs, List.pairwise_cons] at hk
  have e : (d.op (.rmScript sc.key)).scripts = rest := by
    simp only [Disk.op, hs]
    rw [List.filter_cons_of_neg (by simp), List.filter_eq_self]
    intro s' hs'
    simpa using (hk.1 s' hs').symm
  refine ⟨{ h with kit := ?_, scripts := ?_, keys := ?_ }, e⟩
  · intro n b ht hkk
    obtain ⟨q1, sc', q2, q3⟩ := h.kit n b ht hkk
    refine ⟨q1, sc', ?_, q3⟩
    rw [e]
    rw [hs] at q2
    rcases List.mem_cons.1 q2 with rfl | q2
    · exfalso
      apply hp n.lo q3 b
      have : n = kittenName n.lo := by
        obtain ⟨a, x, y⟩ := n
        simp only [kittenName, FName.mk.injEq] at *
        exact ⟨hkk, trivial, q1.symm⟩
      rw [← this]; exact ht
    · exact q2
  · intro sc' hsc'
    rw [e] at hsc'
    exact h.scripts sc' (by rw [hs]; simp [hsc'])
  · rw [e]; exact hk.2

/-! ### Sequences of calls -/

theorem ops_append (d : Disk α) (a b : List Op) : d.ops (a ++ b) = (d.ops a).ops b := by
  simp [Disk.ops]

/-- from `d`, every state on the way through these calls is quiet -/
def Way (M : Ops τ α) (flat : α → List (Entry τ)) (du : List (Entry τ)) (d : Disk α) (l : List Op) : Prop :=
  ∀ k, ∃ T, Quiet M flat T (d.ops (l.take k)) du

theorem Way.append {a b : List Op} (h1 : Way M flat du d a) (h2 : Way M flat du (d.ops a) b) :
    Way M flat du d (a ++ b) := by
  intro k
  rw [List.take_append, ops_append]
  by_cases hk : k ≤ a.length
  · have : k - a.length = 0 := by omega
    rw [this]; simpa [Disk.ops] using h1 k
  · rw [List.take_of_length_le (by omega : a.length ≤ k)]
    exact h2 _

theorem Way.cons {o : Op} {b : List Op} (h1 : ∃ T, Quiet M flat T d du) (h2 : Way M flat du (d.op o) b) :
    Way M flat du d (o :: b) := by
  intro k
  cases k with
  | zero => exact h1
  | succ k => exact h2 k

theorem Way.nil (h1 : ∃ T, Quiet M flat T d du) : Way M flat du d [] := by
  intro k; simpa [Disk.ops] using h1

theorem mem_ops_rm {d : Disk α} {l : List FName} {f : FName × Option α} :
    f ∈ (d.ops (l.map .rm)).files ↔ f ∈ d.files ∧ f.1 ∉ l := by
  induction l generalizing d with
  | nil => simp [Disk.ops]
  | cons n l ih =>
    have : d.ops ((n :: l).map .rm) = (d.rm n).ops (l.map .rm) := rfl
    rw [this, ih, mem_rm]
    simp only [List.mem_cons, not_or, and_assoc]

theorem scripts_ops_rm {d : Disk α} {l : List FName} : (d.ops (l.map .rm)).scripts = d.scripts := by
  induction l generalizing d with
  | nil => rfl
  | cons n l ih =>
    have : d.ops ((n :: l).map .rm) = (d.rm n).ops (l.map .rm) := rfl
    rw [this, ih]; rfl

theorem Quiet.rms (h : Quiet M flat T d du) {l : List FName} (hl : ∀ n ∈ l, ∀ b, ¬ T n b) :
    Way M flat du d (l.map .rm) ∧ Quiet M flat T (d.ops (l.map .rm)) du := by
  induction l generalizing d with
  | nil => exact ⟨Way.nil ⟨T, h⟩, h⟩
  | cons n l ih =>
    have h1 := h.rm (hl n (by simp))
    obtain ⟨w, q⟩ := ih h1 fun n' hn' => hl n' (by simp [hn'])
    exact ⟨Way.cons ⟨T, h⟩ w, q⟩

/-- the lines of one script -/
theorem Quiet.lines (h : Quiet M flat T d du) {sc : Script} (hsc : sc ∈ d.scripts) {seqs : List Nat}
    (hs : ∀ k ∈ seqs, k ∈ sc.seqs) :
    Way M flat du d (seqs.flatMap fun n => [.mv n, .rm (kittenName n)]) ∧
    ∃ T', Quiet M flat T' (d.ops (seqs.flatMap fun n => [.mv n, .rm (kittenName n)])) du ∧
      (∀ k ∈ seqs, ∀ b, ¬ T' (kittenName k) b) ∧ (∀ j b, T' (kittenName j) b → T (kittenName j) b) ∧
      (d.ops (seqs.flatMap fun n => [.mv n, .rm (kittenName n)])).scripts = d.scripts := by
  induction seqs generalizing d T with
  | nil => exact ⟨Way.nil ⟨T, h⟩, T, h, by simp, fun _ _ hx => hx, rfl⟩
  | cons k seqs ih =>
    obtain ⟨T1, q1, n1, m1, e1⟩ := h.mv ⟨sc, hsc, hs k (by simp)⟩
    have q2 := q1.rm n1
    have e2 : ((d.mvn k).rm (kittenName k)).scripts = d.scripts := e1
    obtain ⟨w, T', q3, n3, m3, e3⟩ := ih q2 (by rw [e2]; exact hsc) fun j hj => hs j (by simp [hj])
    have eq : d.ops ((k :: seqs).flatMap fun n => [.mv n, .rm (kittenName n)]) =
        ((d.mvn k).rm (kittenName k)).ops (seqs.flatMap fun n => [.mv n, .rm (kittenName n)]) := rfl
    refine ⟨Way.cons ⟨T, h⟩ (Way.cons ⟨T1, q1⟩ w), T', ?_, ?_, ?_, ?_⟩
    · rw [eq]; exact q3
    · intro j hj b hb
      rcases List.mem_cons.1 hj with rfl | hj
      · exact n1 b (m3 _ _ hb)
      · exact n3 j hj b hb
    · exact fun j b hb => m1 _ _ (m3 _ _ hb)
    · rw [eq, e3, e2]

/-- all scripts -/
theorem Quiet.allScripts (h : Quiet M flat T d du) {scs : List Script} (hs : d.scripts = scs) :
    Way M flat du d (scs.flatMap fun s => (s.seqs.flatMap fun n => [.mv n, .rm (kittenName n)]) ++ [.rmScript s.key]) ∧
    ∃ T', Quiet M flat T' (d.ops (scs.flatMap fun s =>
        (s.seqs.flatMap fun n => [.mv n, .rm (kittenName n)]) ++ [.rmScript s.key])) du ∧
      (d.ops (scs.flatMap fun s =>
        (s.seqs.flatMap fun n => [.mv n, .rm (kittenName n)]) ++ [.rmScript s.key])).scripts = [] := by
  induction scs generalizing d T with
  | nil => exact ⟨Way.nil ⟨T, h⟩, T, h, hs⟩
  | cons sc scs ih =>
    obtain ⟨w1, T1, q1, n1, _, e1⟩ := h.lines (sc := sc) (by rw [hs]; simp) (seqs := sc.seqs) (fun _ hk => hk)
    obtain ⟨q2, e2⟩ := q1.rmScript (rest := scs) (by rw [e1]; exact hs) n1
    obtain ⟨w3, T3, q3, e3⟩ := ih q2 e2
    rw [List.flatMap_cons]
    refine ⟨?_, T3, ?_, ?_⟩
    · refine Way.append (Way.append w1 (Way.cons ⟨T1, q1⟩ (Way.nil ⟨T1, q2⟩))) ?_
      rw [ops_append]; exact w3
    · rw [ops_append, ops_append]; exact q3
    · rw [ops_append, ops_append]; exact e3

end Verif.Txn
