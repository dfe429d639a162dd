/-
Producing, installing and cleaning up after a merge keeps the invariant.
-/
import Verif.Txn.Steps3
namespace Verif.Txn

variable {τ α : Type} {M : Ops τ α} {flat : α → List (Entry τ)} {m : Mem τ α} {d : Disk α}
  {du pu : List (Entry τ)}

theorem outObj_lo {job : Job} {R : List Nat} {heap : Nat → Obj α} {a : Nat} (ha : R.head? = some a) :
    (outObj M job (R.map heap)).lo = (heap a).lo := by simp [outObj, ha]

theorem outObj_hi {job : Job} {R : List Nat} {heap : Nat → Obj α} {z : Nat} (hz : R.getLast? = some z) :
    (outObj M job (R.map heap)).hi = (heap z).hi := by simp [outObj, hz]

theorem outObj_kind {job : Job} {l : List (Obj α)} :
    (outObj M job l).kind = (match job with | .fiverMerge => Kind.fiver | _ => Kind.hazel) := rfl

theorem outObj_shown {job : Job} {l : List (Obj α)} : shown (outObj M job l) = true := by
  rw [shown_iff, outObj_kind]; cases job <;> simp

theorem chooseJob_convert {l : List (Obj α)} (h : chooseJob l = some .convert) : l.length = 1 := by
  unfold chooseJob at h
  split at h
  · rename_i h1
    simp only [Bool.and_eq_true, decide_eq_true_eq] at h1
    exact h1.1
  · split at h
    · cases h
    · split at h <;> cases h

theorem chooseJob_two {l : List (Obj α)} {job : Job} (h : chooseJob l = some job) (hj : job ≠ .convert) :
    2 ≤ l.length := by
  unfold chooseJob at h
  split at h
  · cases h; exact absurd rfl hj
  · split at h
    · rename_i h1
      simp only [Bool.and_eq_true, decide_eq_true_eq] at h1
      exact h1.1
    · split at h
      · rename_i h1
        simp only [Bool.and_eq_true, decide_eq_true_eq] at h1
        exact h1.1.1
      · cases h

theorem flatMap_map' {β γ δ : Type} (l : List β) (f : β → γ) (g : γ → List δ) :
    (l.map f).flatMap g = l.flatMap fun i => g (f i) := by
  induction l with
  | nil => rfl
  | cons a l ih => simp [ih]

theorem outObj_flat (hM : Lawful M flat) {job : Job} {R : List Nat} {heap : Nat → Obj α}
    (hj : chooseJob (R.map heap) = some job) :
    flat (outObj M job (R.map heap)).body = R.flatMap fun i => flat (heap i).body := by
  have gen : flat (M.merge ((R.map heap).map (·.body))) = R.flatMap fun i => flat (heap i).body := by
    rw [hM.merge, flatMap_map', flatMap_map']
  cases job with
  | fiverMerge => exact gen
  | hazelMerge => exact gen
  | convert =>
    have := chooseJob_convert hj
    rw [List.length_map] at this
    cases R with
    | nil => simp at this
    | cons i R =>
      cases R with
      | nil => simp [outObj, hM.convert]
      | cons j R => simp at this

/-- a contiguous selection with two or more members spans more than each of them -/
theorem Inv.strict (h : Inv M flat m d du pu) {w : Nat} {job : Job} {R : List Nat}
    (hw : (m.workers w).Holds job R) (hj : job ≠ .convert) {a z : Nat} (ha : R.head? = some a)
    (hz : R.getLast? = some z) {i : Nat} (hi : i ∈ R) : (m.heap a).lo < (m.heap i).lo ∨ (m.heap i).hi < (m.heap z).hi := by
  obtain ⟨_, ⟨A, B, hs⟩, _, hc⟩ := h.sel w job R hw
  have h2 := chooseJob_two hc hj
  rw [List.length_map] at h2
  have ho : R.Pairwise fun i j => (m.heap i).hi < (m.heap j).lo := by
    have := h.order
    rw [hs, List.pairwise_append, List.pairwise_append] at this
    exact this.1.2.1
  have hr : ∀ i ∈ R, (m.heap i).lo ≤ (m.heap i).hi := fun i hi => (h.rng i (h.heldShown hw hi).1).1
  have one : i = a ∨ (m.heap a).lo < (m.heap i).lo := by
    cases R with
    | nil => cases hi
    | cons x R =>
      simp at ha; subst ha
      rcases List.mem_cons.1 hi with rfl | hi
      · exact .inl rfl
      · have h1 := (List.pairwise_cons.1 ho).1 i hi
        have h2 := hr x (by simp)
        exact .inr (by omega)
  rcases one with rfl | h
  · right
    cases R with
    | nil => cases hi
    | cons x R =>
      simp at ha; subst ha
      cases R with
      | nil => simp at h2
      | cons y R =>
        have hzR : z ∈ y :: R := by
          rw [List.getLast?_cons_cons] at hz; exact List.mem_of_getLast? hz
        have h1 := (List.pairwise_cons.1 ho).1 z hzR
        have h2 := hr z (by simp [List.mem_cons.1 hzR])
        omega
  · exact .inl h

/-- no file has the name of the output yet -/
theorem Inv.free (h : Inv M flat m d du pu) {w : Nat} {job : Job} {R : List Nat}
    (hw : m.workers w = .grabbed job R) (x : Option α) :
    ((outObj M job (R.map m.heap)).file, x) ∉ d.files := by
  intro hx
  obtain ⟨a, z, ha, hz, haR, hzR, h0, h1, h2⟩ := h.span (w := w) (.inl hw)
  obtain ⟨_, i, hi, t, k1, k2, k3, k4, k5⟩ := h.cov _ _ hx (file_shard (outObj_shown (M := M)))
  have e1 : (outObj M job (R.map m.heap)).file.lo = (m.heap a).lo := outObj_lo (M := M) (job := job) ha
  have e2 : (outObj M job (R.map m.heap)).file.hi = (m.heap z).hi := outObj_hi (M := M) (job := job) hz
  rw [e1] at k3
  rw [e2] at k4
  have r1 := h.rng z (h.heldShown (w := w) (.inl hw) hzR).1
  rcases h.top_held hw ha hz hi k2 with ⟨hiR, rfl⟩ | ⟨_, q⟩
  · by_cases hj : job = .convert
    · subst hj
      have := k5 rfl
      rw [(h.heldShown (w := w) (.inl hw) hiR).2.2] at this
      simp at this
    · have := h.strict (w := w) (.inl hw) hj ha hz hiR
      omega
  · have := (h.topIs hi k1 k2)
    omega

/-- the output is there, in memory and on disk -/
theorem Inv.putOutAny (h : Inv M flat m d du pu) {w : Nat} {job : Job} {R : List Nat}
    {o : Obj α} (okind : o.kind = (match job with | .fiverMerge => Kind.fiver | _ => Kind.hazel))
    (hw : m.workers w = .grabbed job R)
    (olo : ∀ a, R.head? = some a → o.lo = (m.heap a).lo) (ohi : ∀ z, R.getLast? = some z → o.hi = (m.heap z).hi)
    (oflat : flat o.body = R.flatMap fun i => flat (m.heap i).body) (hfree : ∀ x, (o.file, x) ∉ d.files) :
    Inv M flat (putOut m w job R o) (d.link o.file (some o.body)) du pu := by
  obtain ⟨a, z, ha, hz, haR, hzR, h0, h1, h2⟩ := h.span (w := w) (.inl hw)
  obtain ⟨hne, hseg, hmg, hcj⟩ := h.sel w job R (.inl hw)
  replace olo := olo a ha
  replace ohi := ohi z hz
  have oshown : shown o = true := by rw [shown_iff, okind]; cases job <;> simp
  have old : ∀ i, i < m.fresh → upd m.heap m.fresh o i = m.heap i := fun i hi => upd_ne _ _ (by omega)
  have oldw : ∀ i ∈ m.warrens, upd m.heap m.fresh o i = m.heap i := fun i hi => old i (h.ids i hi)
  have new := upd_same m.heap m.fresh o
  have flw := flatMap_congr' (l := m.warrens) (f := fun i => flat (upd m.heap m.fresh o i).body)
    (g := fun i => flat (m.heap i).body) fun i hi => by rw [oldw i hi]
  have keep : ∀ f : FName × Option α, f ∈ d.files → f ∈ (d.link o.file (some o.body)).files :=
    fun f hf => mem_link.2 (.inr hf)
  have oks : ∀ n, o.file ≠ kittenName n := by
    intro n e; have := file_shard oshown; rw [e] at this; exact kitten_not_shard _ this
  have kback : ∀ n x, (kittenName n, x) ∈ (d.link o.file (some o.body)).files → (kittenName n, x) ∈ d.files := by
    intro n x hx
    rcases mem_link.1 hx with hx | hx
    · simp only [Prod.mk.injEq] at hx; exact absurd hx.1.symm (oks n)
    · exact hx
  have hR : ∀ i ∈ R, i ∈ m.warrens := fun i hi => (h.heldShown (w := w) (.inl hw) hi).1
  have hold : ∀ w' j R' o', upd m.workers w (.made job R m.fresh) w' = .made j R' o' →
      (w' = w ∧ j = job ∧ R' = R ∧ o' = m.fresh) ∨ (w' ≠ w ∧ m.workers w' = .made j R' o') := by
    intro w' j R' o' hh
    rcases upd_worker hh with ⟨e, h2⟩ | h2
    · cases h2; exact .inl ⟨e, rfl, rfl, rfl⟩
    · exact .inr h2
  have holds : ∀ w' j R', (upd m.workers w (.made job R m.fresh) w').Holds j R' → (m.workers w').Holds j R' := by
    intro w' j R' hh
    rcases upd_holds hh with ⟨e, hk⟩ | ⟨_, hk⟩
    · rcases hk with hk | ⟨o', hk⟩
      · cases hk
      · cases hk; rw [e]; exact .inl hw
    · exact hk
  have hmade : Made flat (upd m.heap m.fresh o) job R m.fresh := by
    refine ⟨by rw [new]; exact okind, fun b hb => ?_, fun y hy => ?_, ?_⟩
    · rw [ha] at hb; cases hb
      rw [new, oldw a (hR a haR)]; exact olo
    · rw [hz] at hy; cases hy
      rw [new, oldw z (hR z hzR)]; exact ohi
    · rw [new, oflat]
      exact (flatMap_congr' fun i hi => by rw [oldw i (hR i hi)]).symm
  -- what stood for other shards still does; the new shard stands for its sources
  have top1 : ∀ i t, i ∉ R → Top m.workers i t → Top (upd m.workers w (.made job R m.fresh)) i t := by
    intro i t hiR ht
    rcases ht with ⟨R', ⟨w', j, hw'⟩, hi⟩ | ⟨rfl, hno⟩
    · refine .inl ⟨R', ⟨w', j, ?_⟩, hi⟩
      rw [upd_ne]; exact hw'
      rintro rfl; rw [hw] at hw'; cases hw'
    · refine .inr ⟨rfl, ?_⟩
      rintro R' o' ⟨w', j, hw'⟩
      rcases hold _ _ _ _ hw' with ⟨_, _, rfl, _⟩ | ⟨_, hw'⟩
      · exact hiR
      · exact hno R' o' ⟨w', j, hw'⟩
  have top2 : ∀ i ∈ R, Top (upd m.workers w (.made job R m.fresh)) i m.fresh := fun i hi =>
    .inl ⟨R, ⟨w, job, upd_same _ _ _⟩, hi⟩
  have loc : ∀ n x, (n, x) ∈ d.files → n.shard →
      ((m.heap a).lo ≤ n.lo ∧ n.hi ≤ (m.heap z).hi) ∨ n.hi < (m.heap a).lo ∨ (m.heap z).hi < n.lo := by
    intro n x hx hs
    obtain ⟨_, i, hi, t, k1, k2, k3, k4, _⟩ := h.cov n x hx hs
    rcases h.top_held hw ha hz hi k2 with ⟨hiR, rfl⟩ | ⟨_, q⟩
    · have := h1 t hiR; omega
    · omega
  have fn : o.file.lo = (m.heap a).lo ∧ o.file.hi = (m.heap z).hi := ⟨olo, ohi⟩
  unfold Txn.putOut
  refine { nodup := h.nodup, ids := ?_, order := ?_, rng := ?_, inside := ?_, addrs := ?_, below := ?_,
           owns := ?_, alone := h.alone, seqs := h.seqs, voted := ?_, promised := ?_, kits := ?_, kold := ?_,
           linked := h.linked, scripts := h.scripts, keys := h.keys, pub := ?_, dur := h.dur, sel := ?_,
           apart := ?_, made := ?_, outs := ?_, stale := ?_, uniq := uniq_link h.uniq _ hfree, own := ?_,
           cov := ?_, lam := ?_, view := ?_, gens := h.gens, agree := h.agree }
  all_goals try dsimp only
  · exact fun i hi => Nat.lt_succ_of_lt (h.ids i hi)
  · exact h.order.imp_of_mem fun hi hj hij => by rw [oldw _ hi, oldw _ hj]; exact hij
  · exact fun i hi => by rw [oldw i hi]; exact h.rng i hi
  · exact fun i hi => by rw [oldw i hi]; exact h.inside i hi
  · rw [flw]; exact h.addrs
  · exact fun i hi => by rw [oldw i hi]; exact h.below i hi
  · intro c id e hc
    obtain ⟨q1, q2⟩ := h.owns c id e hc
    exact ⟨q1, by rw [oldw id q1]; exact q2⟩
  · exact fun c id e hc => (h.voted c id e hc).imp (fun x => x) (keep _)
  · exact fun c id e k hc => ⟨keep _ (h.promised c id e k hc).1, (h.promised c id e k hc).2⟩
  · exact fun c e x hc hx => h.kits c e x hc (kback _ _ hx)
  · exact fun n x hx => h.kold n x (kback _ _ hx)
  · intro e
    rw [h.pub e]
    constructor
    · rintro ⟨i, hi, q⟩; exact ⟨i, hi, by rw [oldw i hi]; exact q⟩
    · rintro ⟨i, hi, q⟩; rw [oldw i hi] at q; exact ⟨i, hi, q⟩
  · intro w' j R' hh
    have hh' := holds w' j R' hh
    obtain ⟨q1, q2, q3, q4⟩ := h.sel w' j R' hh'
    refine ⟨q1, q2, q3, ?_⟩
    rw [mapHeap_congr fun i hi => oldw i (h.heldShown hh' hi).1]; exact q4
  · exact fun w1 w2 j1 j2 R1 R2 hne k1 k2 => h.apart w1 w2 j1 j2 R1 R2 hne (holds _ _ _ k1) (holds _ _ _ k2)
  · intro w' j R' o' hh
    rcases hold _ _ _ _ hh with ⟨_, rfl, rfl, rfl⟩ | ⟨_, hh⟩
    · refine ⟨Nat.lt_succ_self _, ?_, hmade, ?_⟩
      · intro hx; exact absurd (h.ids _ hx) (Nat.lt_irrefl _)
      · rw [new]; exact mem_link.2 (.inl rfl)
    · obtain ⟨q1, q2, q3, q4⟩ := h.made w' j R' o' hh
      refine ⟨Nat.lt_succ_of_lt q1, q2, ?_, ?_⟩
      · exact q3.congr (fun i hi => oldw i (h.heldShown (w := w') (.inr ⟨o', hh⟩) hi).1) (old _ q1)
      · rw [old _ q1]; exact keep _ q4
  · intro w1 w2 j1 j2 R1 R2 o' k1 k2
    rcases hold _ _ _ _ k1 with ⟨e1, _, _, e⟩ | ⟨_, k1⟩ <;> rcases hold _ _ _ _ k2 with ⟨e2, _, _, e'⟩ | ⟨_, k2⟩
    · exact e1.trans e2.symm
    · have := (h.made _ _ _ _ k2).1; omega
    · have := (h.made _ _ _ _ k1).1; omega
    · exact h.outs _ _ _ _ _ _ _ k1 k2
  · intro w' L hh x hx
    rcases upd_worker hh with ⟨_, k⟩ | ⟨_, k⟩
    · cases k
    · obtain ⟨q1, q2, i, hi, q3, q4⟩ := h.stale w' L k x hx
      refine ⟨Nat.lt_succ_of_lt q1, ?_⟩
      unfold Stale
      dsimp only
      rw [old x q1]
      refine ⟨q2, i, hi, ?_⟩
      rw [oldw i hi]; exact ⟨q3, q4⟩
  · intro i hi hs
    rw [oldw i hi] at hs ⊢
    exact keep _ (h.own i hi hs)
  · intro n x hn hs
    rcases mem_link.1 hn with hn | hn
    · cases hn
      refine ⟨by rw [fn.1, fn.2]; exact h0, a, hR a haR, m.fresh, ?_, top2 a haR, ?_⟩
      · rw [oldw a (hR a haR)]; exact (h.heldShown (w := w) (.inl hw) haR).2.1
      · rw [new, fn.1, fn.2, olo, ohi]
        refine ⟨Nat.le_refl _, Nat.le_refl _, fun hk => ?_⟩
        rcases shown_iff.1 oshown with e | e
        · exact e
        · simp [Obj.file, e] at hk
    · obtain ⟨k0, i, hi, t, k1, k2, k3, k4, k5⟩ := h.cov n x hn hs
      have ks := h.topIs hi k1 k2
      rcases h.top_held hw ha hz hi k2 with ⟨hiR, rfl⟩ | ⟨hiR, _⟩
      · refine ⟨k0, t, hi, m.fresh, by rw [oldw t hi]; exact k1, top2 t hiR, ?_⟩
        rw [new, olo, ohi]
        have r1 := h1 t hiR
        refine ⟨by omega, by omega, fun hk => ?_⟩
        have := k5 hk
        rw [(h.heldShown (w := w) (.inl hw) hiR).2.2] at this
        rw [okind]
        cases job <;> simp at this ⊢
      · refine ⟨k0, i, hi, t, by rw [oldw i hi]; exact k1, top1 i t hiR k2, ?_⟩
        rw [old t ks.2.2.2.2]; exact ⟨k3, k4, k5⟩
  · intro n x n' x' hn hn' hs hs'
    rcases mem_link.1 hn with hn | hn <;> rcases mem_link.1 hn' with hn' | hn'
    · cases hn; cases hn'; exact .inl ⟨Nat.le_refl _, Nat.le_refl _⟩
    · cases hn
      have := loc n' x' hn' hs'
      rw [fn.1, fn.2]; omega
    · cases hn'
      have := loc n x hn hs
      rw [fn.1, fn.2]; omega
    · exact h.lam n x n' x' hn hn' hs hs'
  · intro r v hv
    obtain ⟨q1, q2, q3⟩ := h.view r v hv
    have e := flatMap_congr' (l := v.shards) (f := fun i => flat (upd m.heap m.fresh o i).body)
      (g := fun i => flat (m.heap i).body) fun i hi => by rw [old i (q1 i hi).1]
    rw [e]
    exact ⟨fun i hi => ⟨Nat.lt_succ_of_lt (q1 i hi).1, by rw [old i (q1 i hi).1]; exact (q1 i hi).2⟩, q2, q3⟩

theorem Inv.putOut (hM : Lawful M flat) (h : Inv M flat m d du pu) {w : Nat} {job : Job} {R : List Nat}
    (hw : m.workers w = .grabbed job R) :
    Inv M flat (putOut m w job R (outObj M job (R.map m.heap)))
      (d.link (outObj M job (R.map m.heap)).file (some (outObj M job (R.map m.heap)).body)) du pu :=
  h.putOutAny outObj_kind hw (fun _ ha => outObj_lo ha) (fun _ hz => outObj_hi hz)
    (outObj_flat hM (h.sel w job R (.inl hw)).2.2.2) (h.free hw)

/-- producing the output, unless the file got its name and the output is not used, or the
output is used and the file did not get its name -/
theorem Inv.make (hM : Lawful M flat) (h : Inv M flat m d du pu) {w : Nat} {job : Job} {R : List Nat}
    (hw : m.workers w = .grabbed job R) {r : Outcome} (hr : r ≠ .late) (hr' : job = .fiverMerge → r = .ok) :
    Inv M flat (makeOut M m d w job R r).1 (makeOut M m d w job R r).2 du pu := by
  have hf := h.free hw (M := M)
  have hno : d.has (outObj M job (R.map m.heap)).file = false := by
    rw [← Bool.not_eq_true, has_iff]
    rintro ⟨x, hx⟩; exact hf x hx
  have hget : d.get (outObj M job (R.map m.heap)).file = none := by
    cases e : d.get (outObj M job (R.map m.heap)).file with
    | none => rfl
    | some x => exact absurd (get_some e) (hf x)
  have h1 := h.putOut hM hw
  have h2 := h.release hw
  unfold makeOut
  cases job with
  | fiverMerge =>
    have := hr' rfl; subst this
    simp only [hno]
    exact h1
  | hazelMerge =>
    simp only [hget]
    cases r with
    | ok => exact h1
    | fail => exact h2
    | late => exact absurd rfl hr
  | convert =>
    simp only [hno, Bool.or_false, decide_eq_true_eq]
    cases r with
    | ok => simpa using h1
    | fail => simpa using h2
    | late => exact absurd rfl hr

end Verif.Txn
