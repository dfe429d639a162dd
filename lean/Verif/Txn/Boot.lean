/-
After `sanitize` the shards are exactly those that stand for the transactions that are to
be there, and the memory built from them has the invariant.
-/
import Verif.Txn.Recover
namespace Verif.Txn

variable {τ α : Type} {M : Ops τ α} {flat : α → List (Entry τ)} {T : FName → α → Prop} {d : Disk α}
  {du : List (Entry τ)}

theorem mem_names {k : FKind} {n : FName} : n ∈ d.names k ↔ n.kind = k ∧ ∃ x, (n, x) ∈ d.files := by
  simp only [Disk.names, List.mem_filter, List.mem_map, decide_eq_true_eq, Prod.exists, exists_and_right, exists_eq_right]
  exact And.comm

theorem names_nodup (h : Quiet M flat T d du) (k : FKind) : (d.names k).Nodup :=
  h.uniq.sublist List.filter_sublist

theorem FName.ext' {a b : FName} (h1 : a.kind = b.kind) (h2 : a.lo = b.lo) (h3 : a.hi = b.hi) : a = b := by
  cases a; cases b; simp_all

/-- no pending transactions -/
theorem Quiet.shards (h : Quiet M flat T d du) (hs : d.scripts = []) {n : FName} {b : α} (ht : T n b) : n.shard := by
  rcases h.kind n b ht with hk | hk
  · exact hk
  · obtain ⟨_, sc, hsc, _⟩ := h.kit n b ht hk
    rw [hs] at hsc; cases hsc

/-- a file of a kind that lies in another of its kind does not stand for anything -/
theorem Quiet.not_top (h : Quiet M flat T d du) {a b : FName} (ha : ∃ x, (a, x) ∈ d.files)
    (hs : a.shard) (hk : a.kind = b.kind) (hn : Nests a b) (hne : a ≠ b) (y : α) : ¬ T b y := by
  intro ht
  obtain ⟨x, hx⟩ := ha
  obtain ⟨_, n', z, ht', _, hn', _⟩ := h.cov a x hx hs
  have := h.rng b y ht
  unfold Nests at *
  rcases h.apart _ _ _ _ ht ht' with e | e | e
  · subst e; exact hne (FName.ext' hk (by omega) (by omega))
  · omega
  · omega

theorem Quiet.surveyed (h : Quiet M flat T d du) {k : FKind} (hk : k = .fiver ∨ k = .hazel) :
    ∃ L D, survey (d.names k) = some (L, D) ∧ L.Pairwise (fun a b => a.hi < b.lo) ∧
      (∀ n ∈ L, n ∈ d.names k ∧ n.lo ≤ n.hi) ∧ (∀ n ∈ D, n ∈ d.names k ∧ ∀ b, ¬ T n b) ∧
      (∀ n ∈ d.names k, n ∈ L ∨ n ∈ D) := by
  have sh : ∀ n ∈ d.names k, n.shard := by
    intro n hn
    have := (mem_names.1 hn).1
    rcases hk with e | e
    · exact .inl (this.trans e)
    · exact .inr (this.trans e)
  have rg : ∀ n ∈ d.names k, n.lo ≤ n.hi := by
    intro n hn
    obtain ⟨_, x, hx⟩ := mem_names.1 hn
    exact (h.cov n x hx (sh n hn)).1
  obtain ⟨L, D, e, q1, q2, q3⟩ := survey_laminar (found := d.names k) rg (by
    intro a ha b hb
    obtain ⟨_, x, hx⟩ := mem_names.1 ha
    obtain ⟨_, y, hy⟩ := mem_names.1 hb
    exact h.lam a x b y hx hy (sh a ha) (sh b hb))
  have nd : (L ++ D).Nodup := q2.nodup_iff.2 (names_nodup h k)
  refine ⟨L, D, e, q1, ?_, ?_, ?_⟩
  · intro n hn
    have := q2.mem_iff.1 (List.mem_append.2 (.inl hn))
    exact ⟨this, rg n this⟩
  · intro n hn
    have hm := q2.mem_iff.1 (List.mem_append.2 (.inr hn))
    refine ⟨hm, ?_⟩
    obtain ⟨b, hb, hnest⟩ := q3 n hn
    have hbm := q2.mem_iff.1 (List.mem_append.2 (.inl hb))
    refine h.not_top (mem_names.1 hbm).2 (sh b hbm) ((mem_names.1 hbm).1.trans (mem_names.1 hm).1.symm) hnest ?_
    rintro rfl
    exact (List.nodup_append.1 nd).2.2 b hb b hn rfl
  · intro n hn
    exact List.mem_append.1 (q2.mem_iff.2 hn)

/-- what `sanitize` finds when there are no scripts left -/
theorem Quiet.tail (h : Quiet M flat T d du) (hs : d.scripts = []) :
    ∃ F DF H DH gone all, survey (d.names .fiver) = some (F, DF) ∧ survey (d.names .hazel) = some (H, DH) ∧
      combine F H = some (gone, all) ∧ all.Pairwise (fun a b => a.hi < b.lo) ∧ (∀ n, n ∈ all ↔ ∃ b, T n b) ∧
      (∀ n ∈ d.names .fiver, n ∈ all ∨ n ∈ DF ∨ n ∈ gone) ∧ (∀ n ∈ d.names .hazel, n ∈ all ∨ n ∈ DH) ∧
      (∀ n, n ∈ DF ∨ n ∈ DH ∨ n ∈ gone → (∃ x, (n, x) ∈ d.files) ∧ ∀ b, ¬ T n b) := by
  obtain ⟨F, DF, eF, oF, lF, dF, cF⟩ := h.surveyed (.inl rfl)
  obtain ⟨H, DH, eH, oH, lH, dH, cH⟩ := h.surveyed (.inr rfl)
  have kF : ∀ n ∈ F, n.kind = .fiver := fun n hn => (mem_names.1 (lF n hn).1).1
  have kH : ∀ n ∈ H, n.kind = .hazel := fun n hn => (mem_names.1 (lH n hn).1).1
  -- tops are kept
  have tF : ∀ n b, T n b → n.kind = .fiver → n ∈ F := by
    intro n b ht hk
    rcases cF n (mem_names.2 ⟨hk, _, h.here n b ht⟩) with q | q
    · exact q
    · exact absurd ht ((dF n q).2 b)
  have tH : ∀ n b, T n b → n.kind = .hazel → n ∈ H := by
    intro n b ht hk
    rcases cH n (mem_names.2 ⟨hk, _, h.here n b ht⟩) with q | q
    · exact q
    · exact absurd ht ((dH n q).2 b)
  have uniqL : ∀ {l : List FName}, l.Pairwise (fun a b => a.hi < b.lo) → ∀ a ∈ l, ∀ b ∈ l, a.lo ≤ a.hi → Nests b a → a = b := by
    intro l hl a ha b hb hr hn
    unfold Nests at hn
    induction l with
    | nil => cases ha
    | cons x l ih =>
      rw [List.pairwise_cons] at hl
      rcases List.mem_cons.1 ha with rfl | ha' <;> rcases List.mem_cons.1 hb with rfl | hb'
      · rfl
      · have := hl.1 b hb'; omega
      · have := hl.1 a ha'; omega
      · exact ih hl.2 ha' hb'
  have hT : ∀ n ∈ H, ∃ b, T n b := by
    intro n hn
    obtain ⟨hm, hr⟩ := lH n hn
    obtain ⟨hk, x, hx⟩ := mem_names.1 hm
    obtain ⟨_, n', b, ht, _, hnest, hkk⟩ := h.cov n x hx (.inr hk)
    have := uniqL oH n hn n' (tH n' b ht (hkk hk)) hr hnest
    subst this
    exact ⟨b, ht⟩
  have fT : ∀ n ∈ F, (∃ b, T n b) ∨ ∃ hz ∈ H, Nests hz n := by
    intro n hn
    obtain ⟨hm, hr⟩ := lF n hn
    obtain ⟨hk, x, hx⟩ := mem_names.1 hm
    obtain ⟨_, n', b, ht, hs', hnest, hkk⟩ := h.cov n x hx (.inl hk)
    rcases hs' with hk' | hk'
    · have := uniqL oF n hn n' (tF n' b ht hk') hr hnest
      subst this
      exact .inl ⟨b, ht⟩
    · exact .inr ⟨n', tH n' b ht hk', hnest⟩
  have fd : ∀ n b, T n b → n.kind = .fiver → ∀ hz ∈ H, hz.hi < n.lo ∨ n.hi < hz.lo := by
    intro n b ht hk hz hh
    obtain ⟨b', ht'⟩ := hT hz hh
    rcases h.apart _ _ _ _ ht ht' with e | e | e
    · have := kH hz hh; rw [← e, hk] at this; cases this
    · exact .inr e
    · exact .inl e
  obtain ⟨gone, all, eC, oC, gC, mC⟩ := combine_some (fun f hf => (lF f hf).2) (fun f hf => (lH f hf).2) oF oH (by
    intro f hf
    rcases fT f hf with ⟨b, ht⟩ | q
    · exact .inr (fd f b ht (kF f hf))
    · exact .inl q)
  refine ⟨F, DF, H, DH, gone, all, eF, eH, eC, oC, ?_, ?_, ?_, ?_⟩
  · intro n
    rw [mC n]
    constructor
    · rintro (hn | ⟨hn, hd⟩)
      · exact hT n hn
      · rcases fT n hn with q | ⟨hz, hh, hnest⟩
        · exact q
        · have := hd hz hh
          have := (lF n hn).2
          unfold Nests at hnest; omega
    · rintro ⟨b, ht⟩
      rcases h.shards hs ht with hk | hk
      · exact .inr ⟨tF n b ht hk, fd n b ht hk⟩
      · exact .inl (tH n b ht hk)
  · intro n hn
    rcases cF n hn with q | q
    · by_cases hg : ∀ hz ∈ H, hz.hi < n.lo ∨ n.hi < hz.lo
      · exact .inl ((mC n).2 (.inr ⟨q, hg⟩))
      · rcases fT n q with ⟨b, ht⟩ | ⟨hz, hh, hnest⟩
        · exact absurd (fd n b ht (kF n q)) hg
        · right; right
          -- it is not kept, so it is gone
          have e := eC
          unfold combine at e
          split at e
          · rw [Option.map_eq_some_iff] at e
            obtain ⟨r, e1, e2⟩ := e
            obtain ⟨keep, gone', e3, q1, q2, q3⟩ := combineLoop_some (fun f hf => (lF f hf).2) oF oH (by
              intro f hf
              rcases fT f hf with ⟨b, ht⟩ | q
              · exact .inr (fd f b ht (kF f hf))
              · exact .inl q)
            rw [e3] at e1
            cases e1
            simp only [Prod.mk.injEq] at e2
            rcases List.mem_append.1 (q1.mem_iff.2 q) with hx | hx
            · exact absurd (q2 n hx) hg
            · rw [← e2.1]; exact hx
          · cases e
    · exact .inr (.inl q)
  · intro n hn
    rcases cH n hn with q | q
    · exact .inl ((mC n).2 (.inl q))
    · exact .inr q
  · rintro n (hn | hn | hn)
    · exact ⟨(mem_names.1 (dF n hn).1).2, (dF n hn).2⟩
    · exact ⟨(mem_names.1 (dH n hn).1).2, (dH n hn).2⟩
    · obtain ⟨hf, hz, hh, hnest⟩ := gC n hn
      refine ⟨(mem_names.1 (lF n hf).1).2, fun b ht => ?_⟩
      have := fd n b ht (kF n hf) hz hh
      have := (lF n hf).2
      unfold Nests at hnest; omega

/-- All calls of `sanitize`, from any quiet burrow. -/
theorem Quiet.sanitized (h : Quiet M flat T d du) :
    Way M flat du d (sanitize d).1 ∧ ∃ all T', (sanitize d).2 = some all ∧
      Quiet M flat T' (d.ops (sanitize d).1) du ∧ all.Pairwise (fun a b => a.hi < b.lo) ∧
      (∀ n, n ∈ all ↔ ∃ b, T' n b) ∧ (d.ops (Txn.sanitize d).1).scripts = [] ∧
      (∀ n x, (n, x) ∈ (d.ops (Txn.sanitize d).1).files → n ∈ all) := by
  have hT0 : ∀ n ∈ d.names .temp, ∀ b, ¬ T n b := by
    intro n hn b ht
    have hk := (mem_names.1 hn).1
    rcases h.kind n b ht with (e | e) | e <;> rw [hk] at e <;> cases e
  obtain ⟨w0, q0⟩ := h.rms hT0
  obtain ⟨w1, T1, q1, s1⟩ := q0.allScripts rfl
  have e1 : d.ops (tempOps d ++ scriptOps (d.ops (tempOps d))) =
      (d.ops (tempOps d)).ops (scriptOps (d.ops (tempOps d))) := ops_append _ _ _
  have noTemp : ∀ n x, (n, x) ∈ ((d.ops (tempOps d)).ops (scriptOps (d.ops (tempOps d)))).files → n.kind ≠ .temp := by
    have step : ∀ (l : List Op) (d : Disk α), (∀ n x, (n, x) ∈ d.files → n.kind ≠ .temp) →
        ∀ n x, (n, x) ∈ (d.ops l).files → n.kind ≠ .temp := by
      intro l
      induction l with
      | nil => exact fun d hd => hd
      | cons o l ih =>
        intro d hd
        refine ih (d.op o) ?_
        intro n x hx
        cases o with
        | rm n' => exact hd n x (mem_rm.1 hx).1
        | rmScript k => exact hd n x hx
        | mv k =>
          simp only [Disk.op, Disk.mvn] at hx
          split at hx
          · exact hd n x hx
          · split at hx
            · exact hd n x hx
            · rcases mem_link.1 (mem_rm.1 hx).1 with e | e
              · cases e; simp [fiverName]
              · exact hd n x e
    refine step _ _ ?_
    intro n x hx hk
    obtain ⟨hx, hn⟩ := mem_ops_rm.1 hx
    exact hn (mem_names.2 ⟨hk, x, hx⟩)
  have w01 : Way M flat du d (tempOps d ++ scriptOps (d.ops (tempOps d))) := Way.append w0 w1
  change Quiet M flat T1 ((d.ops (tempOps d)).ops (scriptOps (d.ops (tempOps d)))) du at q1
  change ((d.ops (tempOps d)).ops (scriptOps (d.ops (tempOps d)))).scripts = [] at s1
  rw [← e1] at q1 s1 noTemp
  have hsan : ∀ d1, d.ops (tempOps d ++ scriptOps (d.ops (tempOps d))) = d1 → Txn.sanitize d =
      match survey (d1.names .fiver) with
      | none => (tempOps d ++ scriptOps (d.ops (tempOps d)), none)
      | some (fivers, deadF) =>
        match survey (d1.names .hazel) with
        | none => (tempOps d ++ scriptOps (d.ops (tempOps d)) ++ (d1.names .kitten).map .rm ++ deadF.map .rm, none)
        | some (hazels, deadH) =>
          match combine fivers hazels with
          | none => (tempOps d ++ scriptOps (d.ops (tempOps d)) ++ (d1.names .kitten).map .rm ++ deadF.map .rm ++ deadH.map .rm, none)
          | some (gone, shards) =>
            (tempOps d ++ scriptOps (d.ops (tempOps d)) ++ (d1.names .kitten).map .rm ++ deadF.map .rm ++ deadH.map .rm ++
              gone.map .rm, some shards) := by
    intro d1 hd1; subst hd1; rfl
  generalize hd1 : d.ops (tempOps d ++ scriptOps (d.ops (tempOps d))) = d1 at q1 s1 noTemp hsan
  obtain ⟨F, DF, H, DH, gone, all, eF, eH, eC, oA, mA, cF, cH, nT⟩ := q1.tail s1
  have hs := hsan d1 rfl
  rw [eF, eH] at hs
  dsimp only at hs
  rw [eC] at hs
  dsimp only at hs
  have hk : ∀ n ∈ d1.names .kitten, ∀ b, ¬ T1 n b := by
    intro n hn b ht
    have := q1.shards s1 ht
    rcases this with e | e <;> rw [(mem_names.1 hn).1] at e <;> cases e
  have eall : tempOps d ++ scriptOps (d.ops (tempOps d)) ++ (d1.names .kitten).map .rm ++ DF.map .rm ++ DH.map .rm ++ gone.map .rm =
      (tempOps d ++ scriptOps (d.ops (tempOps d))) ++ (d1.names .kitten ++ DF ++ DH ++ gone).map .rm := by
    simp
  rw [eall] at hs
  obtain ⟨w2, q2⟩ := q1.rms (l := d1.names .kitten ++ DF ++ DH ++ gone) (by
    intro n hn
    simp only [List.mem_append] at hn
    rcases hn with ((hn | hn) | hn) | hn
    · exact hk n hn
    · exact (nT n (.inl hn)).2
    · exact (nT n (.inr (.inl hn))).2
    · exact (nT n (.inr (.inr hn))).2)
  rw [hs]
  dsimp only
  rw [ops_append, hd1]
  refine ⟨Way.append w01 (by rw [hd1]; exact w2), all, T1, rfl, q2, oA, mA, ?_, ?_⟩
  · rw [scripts_ops_rm]; exact s1
  · intro n x hx
    obtain ⟨hx, hn⟩ := mem_ops_rm.1 hx
    simp only [List.mem_append, not_or] at hn
    have h0 := noTemp n x hx
    cases hkind : n.kind with
    | temp => exact absurd hkind h0
    | kitten => exact absurd (mem_names.2 ⟨hkind, x, hx⟩) hn.1.1.1
    | fiver =>
      rcases cF n (mem_names.2 ⟨hkind, x, hx⟩) with q | q | q
      · exact q
      · exact absurd q hn.1.1.2
      · exact absurd q hn.2
    | hazel =>
      rcases cH n (mem_names.2 ⟨hkind, x, hx⟩) with q | q
      · exact q
      · exact absurd q hn.1.2

end Verif.Txn
