import Verif.Txn.Steps4
namespace Verif.Txn

variable {τ α : Type} {M : Ops τ α} {flat : α → List (Entry τ)} {m : Mem τ α} {d : Disk α}
  {du pu : List (Entry τ)}

theorem seg_splice {A R B R' : List Nat} {o : Nat} (hs : Seg (A ++ R ++ B) R') (hR : R ≠ []) (hR' : R' ≠ [])
    (hd : ∀ i ∈ R', i ∉ R) : Seg (A ++ [o] ++ B) R' := by
  obtain ⟨X, Y, hs⟩ := hs
  rw [List.append_assoc, List.append_assoc, List.append_eq_append_iff] at hs
  rcases hs with ⟨C, h1, h2⟩ | ⟨C, h1, h2⟩
  · rw [List.append_eq_append_iff] at h2
    rcases h2 with ⟨C', h3, h4⟩ | ⟨C', h3, h4⟩
    · exact ⟨A ++ [o] ++ C', Y, by rw [h4]; simp⟩
    · cases C' with
      | nil =>
        simp only [List.nil_append] at h4
        exact ⟨A ++ [o], Y, by rw [← h4]; simp⟩
      | cons x C' =>
        cases R' with
        | nil => exact absurd rfl hR'
        | cons y R' =>
          simp only [List.cons_append, List.cons.injEq] at h4
          exact absurd (by rw [h3, h4.1]; simp) (hd y (by simp))
  · rw [List.append_eq_append_iff] at h2
    rcases h2 with ⟨C', h3, h4⟩ | ⟨C', h3, h4⟩
    · exact ⟨X, C' ++ [o] ++ B, by rw [h1, h3]; simp⟩
    · cases C' with
      | nil =>
        simp only [List.append_nil] at h3
        exact ⟨X, [o] ++ B, by rw [h1, h3]; simp⟩
      | cons x C' =>
        cases R with
        | nil => exact absurd rfl hR
        | cons y R =>
          simp only [List.cons_append, List.cons.injEq] at h4
          exact absurd (by rw [h4.1]; simp) (hd x (by rw [h3]; simp))

theorem takeWhile_ne {A X : List Nat} {a : Nat} (h : a ∉ A) :
    (A ++ a :: X).takeWhile (· ≠ a) = A ∧ (A ++ a :: X).dropWhile (· ≠ a) = a :: X := by
  induction A with
  | nil => simp
  | cons b A ih =>
    have hb : b ≠ a := by rintro rfl; simp at h
    obtain ⟨h1, h2⟩ := ih (by intro hx; exact h (by simp [hx]))
    simp only [List.cons_append, List.takeWhile_cons, List.dropWhile_cons]
    simp only [ne_eq, hb, not_false_eq_true, decide_true, if_true]
    exact ⟨congrArg (b :: ·) h1, h2⟩

theorem splice_spec {A R B : List Nat} {o : Nat} (hR : R ≠ []) (hn : (A ++ R ++ B).Nodup) :
    spliceOut (A ++ R ++ B) R o = some (A ++ [o] ++ B) := by
  have hA : ∀ x ∈ R, x ∉ A := by
    intro x hx hA
    rw [List.append_assoc, List.nodup_append] at hn
    exact hn.2.2 x hA x (by simp [hx]) rfl
  have hl := List.dropLast_concat_getLast hR
  have hlast : R.getLast hR ∉ R.dropLast := by
    intro hx
    have h2 : R.Nodup := by
      rw [List.append_assoc, List.nodup_append, List.nodup_append] at hn
      exact hn.2.1.1
    rw [← hl, List.nodup_append] at h2
    exact h2.2.2 _ hx _ (by simp) rfl
  obtain ⟨a, R', rfl⟩ : ∃ a R', R = a :: R' := by
    cases R with
    | nil => exact absurd rfl hR
    | cons a R' => exact ⟨a, R', rfl⟩
  have h1 := takeWhile_ne (X := R' ++ B) (hA a (by simp))
  have e1 : A ++ a :: R' ++ B = A ++ a :: (R' ++ B) := by simp
  have h2 : (a :: (R' ++ B)).dropWhile (· ≠ (a :: R').getLast hR) = (a :: R').getLast hR :: B := by
    have := (takeWhile_ne (X := B) hlast).2
    rw [← this]
    congr 1
    have e2 : a :: (R' ++ B) = (a :: R') ++ B := by simp
    rw [e2]
    conv => lhs; rw [← hl]
    simp
  unfold spliceOut
  simp only [List.head?_cons, List.getLast?_eq_some_getLast hR]
  rw [e1, h1.1, h1.2, h2]

/-- installing the output -/
theorem Inv.install (h : Inv M flat m d du pu) {w : Nat} {job : Job} {R : List Nat} {o : Nat}
    (hw : m.workers w = .made job R o) : Inv M flat (install m w R o) d du pu := by
  have hh : (m.workers w).Holds job R := .inr ⟨o, hw⟩
  obtain ⟨hne, ⟨A, B, hs⟩, hmg, hcj⟩ := h.sel w job R hh
  obtain ⟨a, z, ha, hz, haR, hzR, h0, h1, h2⟩ := h.span hh
  obtain ⟨hof, how, ⟨okind, olo, ohi, oflat⟩, ofile⟩ := h.made w job R o hw
  have olo := olo a ha
  have ohi := ohi z hz
  have oshown : shown (m.heap o) = true := by rw [shown_iff, okind]; cases job <;> simp
  have hsp : spliceOut m.warrens R o = some (A ++ [o] ++ B) := by
    rw [hs]; exact splice_spec hne (by rw [← hs]; exact h.nodup)
  have memo : ∀ i, i ∈ A ++ [o] ++ B ↔ i = o ∨ (i ∈ m.warrens ∧ i ∉ R) := by
    intro i
    have hn := h.nodup
    rw [hs, List.nodup_append, List.nodup_append] at hn
    rw [hs]
    simp only [List.mem_append, List.mem_singleton]
    constructor
    · rintro ((hi | hi) | hi)
      · exact .inr ⟨.inl (.inl hi), fun hx => hn.1.2.2 i hi i hx rfl⟩
      · exact .inl hi
      · exact .inr ⟨.inr hi, fun hx => hn.2.2 i (by simp [hx]) i hi rfl⟩
    · rintro (hi | ⟨(hi | hi) | hi, hx⟩)
      · exact .inl (.inr hi)
      · exact .inl (.inl hi)
      · exact absurd hi hx
      · exact .inr hi
  have hR : ∀ i ∈ R, i ∈ m.warrens := fun i hi => (h.heldShown hh hi).1
  have back : ∀ i ∈ A ++ [o] ++ B, i = o ∨ i ∈ m.warrens := fun i hi => ((memo i).1 hi).imp (fun x => x) (·.1)
  have ino : o ∈ A ++ [o] ++ B := (memo o).2 (.inl rfl)
  have kk : ∀ i ∈ m.warrens, i ∉ R → i ∈ A ++ [o] ++ B := fun i hi hx => (memo i).2 (.inr ⟨hi, hx⟩)
  have ofl : ∀ e, e ∈ flat (m.heap o).body ↔ ∃ i ∈ R, e ∈ flat (m.heap i).body := by
    intro e; rw [oflat, List.mem_flatMap]
  have hz1 := h.rng z (hR z hzR)
  have nohold : ∀ j R', ¬ (Worker.discarding R).Holds j R' := by
    rintro j R' (e | ⟨_, e⟩) <;> cases e
  have oth : ∀ w' j R', w' ≠ w → (m.workers w').Holds j R' → ∀ i ∈ R', i ∉ R :=
    fun w' j R' hne' hk => h.apart w' w j job R' R hne' hk hh
  have top' : ∀ i t, i ∉ R → Top m.workers i t → Top (upd m.workers w (.discarding R)) i t := by
    intro i t hiR ht
    rcases ht with ⟨R', ⟨w', j, hw'⟩, hi⟩ | ⟨rfl, hno⟩
    · refine .inl ⟨R', ⟨w', j, ?_⟩, hi⟩
      rw [upd_ne]; exact hw'
      rintro rfl; rw [hw] at hw'; cases hw'; exact hiR hi
    · refine .inr ⟨rfl, ?_⟩
      rintro R' o' ⟨w', j, hw'⟩
      rcases upd_worker hw' with ⟨_, e⟩ | ⟨_, hw'⟩
      · cases e
      · exact hno R' o' ⟨w', j, hw'⟩
  have topo : Top (upd m.workers w (.discarding R)) o o := by
    refine .inr ⟨rfl, ?_⟩
    rintro R' o' ⟨w', j, hw'⟩ hx
    rcases upd_worker hw' with ⟨_, e⟩ | ⟨_, hw'⟩
    · cases e
    · exact how (h.heldShown (w := w') (.inr ⟨o', hw'⟩) hx).1
  -- what covered a shard of the selection is the output now
  have cover : ∀ i ∈ R, (m.heap o).lo ≤ (m.heap i).lo ∧ (m.heap i).hi ≤ (m.heap o).hi := by
    intro i hi; rw [olo, ohi]; exact h1 i hi
  have oh : ∀ i ∈ R, (m.heap i).kind = .hazel → (m.heap o).kind = .hazel := by
    intro i hi hk
    rw [(h.heldShown hh hi).2.2] at hk
    rw [okind]
    cases job <;> simp at hk ⊢
  unfold Txn.install
  rw [hsp]
  dsimp only
  refine { nodup := ?_, ids := ?_, order := ?_, rng := ?_, inside := ?_, addrs := ?_, below := ?_,
           owns := ?_, alone := h.alone, seqs := h.seqs, voted := h.voted, promised := h.promised,
           kits := h.kits, kold := h.kold,
           linked := h.linked, scripts := h.scripts, keys := h.keys, pub := ?_, dur := h.dur, sel := ?_,
           apart := ?_, made := ?_, outs := ?_, stale := ?_, uniq := h.uniq, own := ?_,
           cov := ?_, lam := h.lam, view := h.view, gens := h.gens, agree := h.agree }
  all_goals try dsimp only
  · have hn := h.nodup
    rw [hs] at hn
    have how' : o ∉ A ++ R ++ B := by rw [← hs]; exact how
    simp only [List.mem_append, not_or] at how'
    rw [List.nodup_append, List.nodup_append] at hn ⊢
    refine ⟨⟨hn.1.1, by simp, ?_⟩, hn.2.1, ?_⟩
    · intro x hx y hy; simp at hy; subst hy; rintro rfl; exact how'.1.1 hx
    · intro x hx y hy
      simp only [List.mem_append, List.mem_singleton] at hx
      rcases hx with hx | rfl
      · exact hn.2.2 x (by simp [hx]) y hy
      · rintro rfl; exact how'.2 hy
  · intro i hi
    rcases back i hi with rfl | hi
    · exact hof
    · exact h.ids i hi
  · have ho := h.order
    rw [hs, List.pairwise_append, List.pairwise_append] at ho
    obtain ⟨⟨hoA, hoR, hAR⟩, hoB, hB⟩ := ho
    rw [List.pairwise_append, List.pairwise_append]
    refine ⟨⟨hoA, by simp, ?_⟩, hoB, ?_⟩
    · intro x hx y hy; simp at hy; subst hy; rw [olo]; exact hAR x hx a haR
    · intro x hx y hy
      simp only [List.mem_append, List.mem_singleton] at hx
      rcases hx with hx | rfl
      · exact hB x (by simp [hx]) y hy
      · rw [ohi]; exact hB z (by simp [hzR]) y hy
  · intro i hi
    rcases back i hi with rfl | hi
    · rw [olo, ohi]; exact ⟨h0, hz1.2⟩
    · exact h.rng i hi
  · intro i hi e he
    rcases back i hi with rfl | hi
    · obtain ⟨j, hj, he⟩ := (ofl e).1 he
      have q1 := h.inside j (hR j hj) e he
      have q2 := cover j hj
      omega
    · exact h.inside i hi e he
  · have := h.addrs
    rw [hs, List.flatMap_append, List.flatMap_append] at this
    rw [List.flatMap_append, List.flatMap_append, List.flatMap_singleton, oflat]
    exact this
  · intro i hi e he
    rcases back i hi with rfl | hi
    · obtain ⟨j, hj, he⟩ := (ofl e).1 he
      exact h.below j (hR j hj) e he
    · exact h.below i hi e he
  · intro c id e hc
    obtain ⟨q1, q2⟩ := h.owns c id e hc
    refine ⟨kk id q1 ?_, q2⟩
    intro hx
    have := (h.heldShown hh hx).2.1
    rw [q2] at this; cases this
  · intro e
    rw [h.pub e]
    constructor
    · rintro ⟨i, hi, q1, q2⟩
      by_cases hx : i ∈ R
      · exact ⟨o, ino, oshown, (ofl e).2 ⟨i, hx, q2⟩⟩
      · exact ⟨i, kk i hi hx, q1, q2⟩
    · rintro ⟨i, hi, q1, q2⟩
      rcases back i hi with rfl | hi
      · obtain ⟨j, hj, he⟩ := (ofl e).1 q2
        exact ⟨j, hR j hj, (h.heldShown hh hj).2.1, he⟩
      · exact ⟨i, hi, q1, q2⟩
  · intro w' j R' hk
    rcases upd_holds hk with ⟨_, hk⟩ | ⟨hn, hk⟩
    · exact absurd hk (nohold _ _)
    · obtain ⟨q1, q2, q3, q4⟩ := h.sel w' j R' hk
      refine ⟨q1, ?_, ?_, q4⟩
      · rw [hs] at q2; exact seg_splice q2 hne q1 (oth w' j R' hn hk)
      · intro i hi
        refine List.mem_filter.2 ⟨q3 i hi, ?_⟩
        simp [oth w' j R' hn hk i hi]
  · intro w1 w2 j1 j2 R1 R2 hn k1 k2
    rcases upd_holds k1 with ⟨_, k1⟩ | ⟨_, k1⟩
    · exact absurd k1 (nohold _ _)
    · rcases upd_holds k2 with ⟨_, k2⟩ | ⟨_, k2⟩
      · exact absurd k2 (nohold _ _)
      · exact h.apart w1 w2 j1 j2 R1 R2 hn k1 k2
  · intro w' j R' o' hk
    rcases upd_worker hk with ⟨_, hk⟩ | ⟨hn, hk⟩
    · cases hk
    · obtain ⟨q1, q2, q3⟩ := h.made w' j R' o' hk
      refine ⟨q1, ?_, q3⟩
      intro hx
      rcases back o' hx with rfl | hx
      · exact hn (h.outs _ _ _ _ _ _ _ hk hw)
      · exact q2 hx
  · intro w1 w2 j1 j2 R1 R2 o' k1 k2
    rcases upd_worker k1 with ⟨_, k1⟩ | ⟨_, k1⟩
    · cases k1
    · rcases upd_worker k2 with ⟨_, k2⟩ | ⟨_, k2⟩
      · cases k2
      · exact h.outs w1 w2 j1 j2 R1 R2 o' k1 k2
  · intro w' L hk x hx
    rcases upd_worker hk with ⟨_, hk⟩ | ⟨hn, hk⟩
    · cases hk
      unfold Stale
      refine ⟨h.ids x (hR x hx), (h.heldShown hh hx).2.1, o, ino, oshown, (cover x hx).1, (cover x hx).2, ?_⟩
      dsimp only
      by_cases hj : job = .convert
      · right; right
        rw [(h.heldShown hh hx).2.2, okind, hj]; simp
      · have := h.strict hh hj ha hz hx
        rw [olo, ohi]; omega
    · obtain ⟨q1, q2, i, hi, q3, q4, q5, q6⟩ := h.stale w' L hk x hx
      unfold Stale
      dsimp only
      by_cases hxR : i ∈ R
      · have c := cover i hxR
        refine ⟨q1, q2, o, ino, oshown, by omega, by omega, ?_⟩
        rcases q6 with q6 | q6 | q6
        · omega
        · omega
        · exact .inr (.inr ⟨q6.1, oh i hxR q6.2⟩)
      · exact ⟨q1, q2, i, kk i hi hxR, q3, q4, q5, q6⟩
  · intro i hi hsh
    rcases back i hi with rfl | hi
    · exact ofile
    · exact h.own i hi hsh
  · intro n x hn hsh
    obtain ⟨k0, i, hi, t, k1, k2, k3, k4, k5⟩ := h.cov n x hn hsh
    by_cases hxR : i ∈ R
    · have : t = o := by
        rcases k2 with ⟨R', ⟨w', j, hw'⟩, hi'⟩ | ⟨_, hno⟩
        · by_cases e : w' = w
          · subst e; rw [hw] at hw'; cases hw'; rfl
          · exact absurd hxR (oth w' j R' e (.inr ⟨t, hw'⟩) i hi')
        · exact absurd hxR (hno R o ⟨w, job, hw⟩)
      subst this
      exact ⟨k0, t, ino, t, oshown, topo, k3, k4, k5⟩
    · exact ⟨k0, i, kk i hi hxR, t, k1, top' i t hxR k2, k3, k4, k5⟩

/-- live shards are the same or disjoint -/
theorem Inv.live_apart (h : Inv M flat m d du pu) {i j : Nat} (hi : i ∈ m.warrens) (hj : j ∈ m.warrens) :
    i = j ∨ (m.heap i).hi < (m.heap j).lo ∨ (m.heap j).hi < (m.heap i).lo := by
  have tri : ∀ {l : List Nat}, l.Pairwise (fun i j => (m.heap i).hi < (m.heap j).lo) → i ∈ l → j ∈ l →
      i = j ∨ (m.heap i).hi < (m.heap j).lo ∨ (m.heap j).hi < (m.heap i).lo := by
    intro l hl
    induction l with
    | nil => intro h; cases h
    | cons a l ih =>
      intro h1 h2
      rw [List.pairwise_cons] at hl
      rcases List.mem_cons.1 h1 with h1 | h1 <;> rcases List.mem_cons.1 h2 with h2 | h2
      · exact .inl (h1.trans h2.symm)
      · exact .inr (.inl (h1 ▸ hl.1 _ h2))
      · exact .inr (.inr (h2 ▸ hl.1 _ h1))
      · exact ih hl.2 h1 h2
  exact tri h.order hi hj

/-- the file of a stale shard is not the file of a live one or of an output -/
theorem Inv.staleFile (h : Inv M flat m d du pu) {x : Nat} (hx : Stale m x)
    {t i : Nat} (hi : i ∈ m.warrens) (hs : shown (m.heap i) = true)
    (ht : Top m.workers i t ∨ t = i) : (m.heap t).file ≠ (m.heap x).file := by
  intro e
  obtain ⟨hxs, j, hj, hjs, q1, q2, q3⟩ := hx
  have el : (m.heap t).lo = (m.heap x).lo := congrArg FName.lo e
  have eh : (m.heap t).hi = (m.heap x).hi := congrArg FName.hi e
  have ek : (m.heap t).file.kind = (m.heap x).file.kind := congrArg FName.kind e
  -- the live shard that covers it lies in the range of `t`
  have main : (m.heap t).lo ≤ (m.heap j).lo ∧ (m.heap j).hi ≤ (m.heap t).hi ∧
      ((m.heap j).kind = .hazel → (m.heap t).kind = .hazel) := by
    have self : t = i → (m.heap t).lo ≤ (m.heap j).lo ∧ (m.heap j).hi ≤ (m.heap t).hi ∧
        ((m.heap j).kind = .hazel → (m.heap t).kind = .hazel) := by
      rintro rfl
      have := h.rng t hi
      rcases h.live_apart hi hj with rfl | q | q
      · exact ⟨Nat.le_refl _, Nat.le_refl _, fun h => h⟩
      · omega
      · omega
    rcases ht with (⟨R, ⟨w, job, hw⟩, hiR⟩ | ⟨e, _⟩) | e
    · obtain ⟨a, z, ha, hz, haR, hzR, h0, h1, h2⟩ := h.span (w := w) (.inr ⟨t, hw⟩)
      obtain ⟨_, _, h3, _⟩ := h.made w job R t hw
      have o1 := h3.2.1 a ha
      have o2 := h3.2.2.1 z hz
      rcases h2 j hj with hjR | q | q
      · have := h1 j hjR
        refine ⟨by omega, by omega, fun hk => ?_⟩
        rw [(h.heldShown (w := w) (.inr ⟨t, hw⟩) hjR).2.2] at hk
        rw [h3.1]
        cases job <;> simp at hk ⊢
      · omega
      · omega
    · exact self e
    · exact self e
  rcases q3 with q3 | q3 | ⟨q3, q4⟩
  · omega
  · omega
  · have := main.2.2 q4
    simp [Obj.file, this, q3] at ek

theorem Inv.discard (h : Inv M flat m d du pu) {w x : Nat} {L : List Nat} (hw : m.workers w = .discarding (x :: L)) :
    Inv M flat { m with workers := upd m.workers w (.discarding L) } (d.rm (m.heap x).file) du pu := by
  have hst := h.stale w _ hw x (by simp)
  have h1 : Inv M flat { m with workers := upd m.workers w (.discarding L), merging := m.merging } d du pu := by
    refine h.setWorker (fun _ _ _ e => by rw [hw] at e; cases e) (by rintro _ _ (e | ⟨_, e⟩) <;> cases e) ?_ ?_
    · intro L' e y hy; cases e; exact h.stale w _ hw y (by simp [hy])
    · exact fun w' _ job R hk i hi => (h.sel w' job R hk).2.2.1 i hi
  have hxs : (m.heap x).file.shard := file_shard hst.2.1
  have kk : ∀ n y, (kittenName n, y) ∈ d.files → (kittenName n, y) ∈ (d.rm (m.heap x).file).files := by
    intro n y hy
    refine mem_rm.2 ⟨hy, ?_⟩
    intro e; rw [← e] at hxs; exact kitten_not_shard _ hxs
  have own : ∀ i ∈ m.warrens, shown (m.heap i) = true → (m.heap i).file ≠ (m.heap x).file :=
    fun i hi hs => h.staleFile hst.2 hi hs (.inr rfl)
  have out : ∀ w' job R o, m.workers w' = .made job R o → (m.heap o).file ≠ (m.heap x).file := by
    intro w' job R o hk
    obtain ⟨a, z, ha, hz, haR, _⟩ := h.span (w := w') (.inr ⟨o, hk⟩)
    have hsw := h.heldShown (w := w') (.inr ⟨o, hk⟩) haR
    exact h.staleFile hst.2 hsw.1 hsw.2.1 (.inl (.inl ⟨R, ⟨w', job, hk⟩, haR⟩))
  exact { h1 with
    voted := fun c id e hc => (h1.voted c id e hc).imp (fun x => x) (kk _ _)
    promised := fun c id e k hc => ⟨kk _ _ (h1.promised c id e k hc).1, (h1.promised c id e k hc).2⟩
    kits := fun c e y hc hy => h1.kits c e y hc (mem_rm.1 hy).1
    kold := fun n y hy => h1.kold n y (mem_rm.1 hy).1
    scripts := h1.scripts
    keys := h1.keys
    made := by
      intro w' job R o hk
      obtain ⟨q1, q2, q3, q4⟩ := h1.made w' job R o hk
      refine ⟨q1, q2, q3, mem_rm.2 ⟨q4, ?_⟩⟩
      rcases upd_worker hk with ⟨_, e⟩ | ⟨_, hk⟩
      · cases e
      · exact out w' job R o hk
    uniq := uniq_rm h1.uniq _
    own := fun i hi hs => mem_rm.2 ⟨h1.own i hi hs, own i hi hs⟩
    cov := fun n y hy => h1.cov n y (mem_rm.1 hy).1
    lam := fun n y n' y' hy hy' => h1.lam n y n' y' (mem_rm.1 hy).1 (mem_rm.1 hy').1 }

theorem Inv.discardEnd (h : Inv M flat m d du pu) {w : Nat} {L : List Nat} (hw : m.workers w = .discarding L) :
    Inv M flat { m with workers := upd m.workers w .idle } d du pu :=
  have h1 : Inv M flat { m with workers := upd m.workers w .idle, merging := m.merging } d du pu :=
    h.setWorker (fun _ _ _ e => by rw [hw] at e; cases e) (by rintro _ _ (e | ⟨_, e⟩) <;> cases e)
      (fun _ e => by cases e) (fun w' _ job R hk i hi => (h.sel w' job R hk).2.2.1 i hi)
  h1

end Verif.Txn
