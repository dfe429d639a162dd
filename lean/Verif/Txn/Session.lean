/-
From the time a sound burrow is opened until the process ends, the memory is sound whatever
happens to the files: any build, any failure of a worker, any file removed by an abort.

The proof runs an ideal disk beside the real one: the memory does not depend on the
difference, except that a static merge may pick up an output file that is already there.
-/
import Verif.Txn.Again
namespace Verif.Txn

variable {τ α : Type} {M : Ops τ α} {flat : α → List (Entry τ)} {m : Mem τ α} {d : Disk α}
  {du pu : List (Entry τ)}

/-- every static file holds what is published in its range, and nothing in its range is open -/
def Settled (M : Ops τ α) (flat : α → List (Entry τ)) (m : Mem τ α) (d : Disk α) (pu : List (Entry τ)) : Prop :=
  ∀ n x, (n, some x) ∈ d.files → n.kind = .hazel → n.hi < m.sequence ∧
    (∀ i ∈ m.warrens, shown (m.heap i) = false → (m.heap i).hi < n.lo ∨ n.hi < (m.heap i).lo) ∧
    (flat x).Pairwise (Before M) ∧ ∀ e, e ∈ flat x ↔ e ∈ pu ∧ n.lo ≤ e.seq ∧ e.seq ≤ n.hi

def Sess (M : Ops τ α) (flat : α → List (Entry τ)) (m : Mem τ α) (d : Disk α) (pu : List (Entry τ)) : Prop :=
  (∃ dI du, Inv M flat m dI du pu ∧ dI.scripts = d.scripts) ∧ Settled M flat m d pu

theorem Settled.mono {m' : Mem τ α} {d' : Disk α} (h : Settled M flat m d pu)
    (hd : ∀ n x, (n, some x) ∈ d'.files → n.kind = .hazel → (n, some x) ∈ d.files)
    (hq : m.sequence ≤ m'.sequence)
    (hw : ∀ i ∈ m'.warrens, shown (m'.heap i) = false →
      (i ∈ m.warrens ∧ shown (m.heap i) = false ∧ (m.heap i).lo = (m'.heap i).lo ∧ (m.heap i).hi = (m'.heap i).hi) ∨
      m.sequence ≤ (m'.heap i).lo) : Settled M flat m' d' pu := by
  intro n x hx hk
  obtain ⟨h1, h2, h3⟩ := h n x (hd n x hx hk) hk
  refine ⟨by omega, fun i hi hs => ?_, h3⟩
  rcases hw i hi hs with ⟨q1, q2, q3, q4⟩ | q
  · rw [← q3, ← q4]; exact h2 i q1 q2
  · omega

theorem strict_eq : ∀ {l l' : List (Entry τ)}, l.Pairwise (Before M) → l'.Pairwise (Before M) →
    (∀ e, e ∈ l ↔ e ∈ l') → l = l'
  | [], [], _, _, _ => rfl
  | [], b :: l', _, _, h => by have := (h b).2 (by simp); cases this
  | a :: l, [], _, _, h => by have := (h a).1 (by simp); cases this
  | a :: l, b :: l', h1, h2, h => by
    have g1 := List.pairwise_cons.1 h1
    have g2 := List.pairwise_cons.1 h2
    have e : a = b := by
      rcases List.mem_cons.1 ((h a).1 (by simp)) with e | e
      · exact e
      rcases List.mem_cons.1 ((h b).2 (by simp)) with e' | e'
      · exact e'.symm
      have := (g1.1 b e').1
      have := (g2.1 a e).1
      omega
    subst e
    rw [strict_eq g1.2 g2.2]
    intro n
    constructor
    · intro hn
      rcases List.mem_cons.1 ((h n).1 (by simp [hn])) with e | e
      · subst e; have := (g1.1 n hn).1; omega
      · exact e
    · intro hn
      rcases List.mem_cons.1 ((h n).2 (by simp [hn])) with e | e
      · subst e; have := (g2.1 n hn).1; omega
      · exact e

theorem seg_sublist {l R : List Nat} (h : Seg l R) : R.Sublist l := by
  obtain ⟨A, B, rfl⟩ := h
  rw [List.append_assoc]
  exact (List.sublist_append_left R B).trans (List.sublist_append_right A _)

/-- a selection holds what is published in its range, and nothing in its range is open -/
theorem Inv.selection (h : Inv M flat m d du pu) {w : Nat} {job : Job} {R : List Nat}
    (hw : (m.workers w).Holds job R) {a z : Nat} (ha : R.head? = some a) (hz : R.getLast? = some z) :
    (m.heap z).hi < m.sequence ∧
    (∀ i ∈ m.warrens, shown (m.heap i) = false → (m.heap i).hi < (m.heap a).lo ∨ (m.heap z).hi < (m.heap i).lo) ∧
    (R.flatMap fun i => flat (m.heap i).body).Pairwise (Before M) ∧
    ∀ e, (e ∈ R.flatMap fun i => flat (m.heap i).body) ↔ e ∈ pu ∧ (m.heap a).lo ≤ e.seq ∧ e.seq ≤ (m.heap z).hi := by
  obtain ⟨a', z', ha', hz', haR, hzR, h0, h1, h2⟩ := h.span hw
  rw [ha] at ha'; cases ha'
  rw [hz] at hz'; cases hz'
  obtain ⟨_, hseg, _, _⟩ := h.sel w job R hw
  refine ⟨(h.rng z (h.heldShown hw hzR).1).2, ?_, ?_, ?_⟩
  · intro i hi hs
    rcases h2 i hi with q | q
    · have := (h.heldShown hw q).2.1; rw [hs] at this; cases this
    · exact q
  · exact h.addrs.sublist (flatMap_sub (seg_sublist hseg) _)
  · intro e
    rw [List.mem_flatMap, h.pub e]
    constructor
    · rintro ⟨i, hi, he⟩
      obtain ⟨q1, q2, _⟩ := h.heldShown hw hi
      have q3 := h.inside i q1 e he
      have q4 := h1 i hi
      exact ⟨⟨i, q1, q2, he⟩, by omega, by omega⟩
    · rintro ⟨⟨i, hi, hs, he⟩, r1, r2⟩
      have q3 := h.inside i hi e he
      have q4 := h.rng i hi
      rcases h2 i hi with q | q | q
      · exact ⟨i, q, he⟩
      · omega
      · omega

/-- kittens for all of them -/
theorem Inv.addKittens (h : Inv M flat m d du pu) (es : List (Entry τ))
    (he : ∀ e ∈ es, ∃ c, (m.clients c).entry = some e) :
    ∃ d', Inv M flat m d' du pu ∧ d'.scripts = d.scripts ∧ (∀ n, d.has n = true → d'.has n = true) ∧
      ∀ e ∈ es, d'.has (kittenName e.seq) = true := by
  induction es with
  | nil => exact ⟨d, h, rfl, fun _ q => q, by simp⟩
  | cons e es ih =>
    obtain ⟨d1, q1, q2, q3, q4⟩ := ih fun e' he' => he e' (by simp [he'])
    cases hh : d1.has (kittenName e.seq) with
    | true =>
      refine ⟨d1, q1, q2, q3, ?_⟩
      intro e' he'
      rcases List.mem_cons.1 he' with rfl | he'
      · exact hh
      · exact q4 e' he'
    | false =>
      obtain ⟨c, hc⟩ := he e (by simp)
      have hn : ∀ x, (kittenName e.seq, x) ∉ d1.files := by
        intro x hx
        rw [has_iff.2 ⟨x, hx⟩] at hh; cases hh
      have mono : ∀ n, d1.has n = true → (d1.link (kittenName e.seq) (some (M.leaf e))).has n = true := by
        intro n hn
        obtain ⟨x, hx⟩ := has_iff.1 hn
        exact has_iff.2 ⟨x, mem_link.2 (.inr hx)⟩
      refine ⟨_, q1.addKitten hc hn, q2, fun n hn => mono n (q3 n hn), ?_⟩
      intro e' he'
      rcases List.mem_cons.1 he' with rfl | he'
      · exact has_iff.2 ⟨_, mem_link.2 (.inl rfl)⟩
      · exact mono _ (q4 e' he')

theorem allVoted_entry {cs : List Nat} {es : List (Entry τ)} (hv : allVoted m cs = some es) :
    ∀ e ∈ es, ∃ c, (m.clients c).entry = some e := by
  induction cs generalizing es with
  | nil => simp only [allVoted, Option.some.injEq] at hv; subst hv; intro e he; cases he
  | cons c cs ih =>
    simp only [allVoted] at hv
    cases hc : votedYes m c with
    | none => rw [hc] at hv; cases hv
    | some p =>
      cases hr : allVoted m cs with
      | none => rw [hc, hr] at hv; cases hv
      | some es' =>
        rw [hc, hr] at hv
        simp only [Option.some.injEq] at hv
        subst hv
        intro e he
        rcases List.mem_cons.1 he with rfl | he
        · refine ⟨c, ?_⟩
          unfold votedYes at hc
          split at hc
          · rename_i hcl; cases hc; rw [hcl]; rfl
          · cases hc
        · exact ih hr e he

/-- **Every step that leaves the process alive keeps the memory sound.** -/
theorem Sess.step (hM : Lawful M flat) {b : Build} {s s' : Sys τ α} {a : Act τ α} {m m' : Mem τ α}
    (hm : s.mem = some m) (h : Sess M flat m s.disk s.published) (hs : step M b s a = some s')
    (hm' : s'.mem = some m') : Sess M flat m' s'.disk s'.published := by
  obtain ⟨mem, d, du, pu⟩ := s
  dsimp only at hm h
  subst hm
  obtain ⟨⟨dI, du', h, hsc⟩, hz⟩ := h
  -- steps that change neither the files nor what is open
  have plain : ∀ {m1 : Mem τ α}, Inv M flat m1 dI du' pu → m.sequence ≤ m1.sequence →
      (∀ i ∈ m1.warrens, shown (m1.heap i) = false →
        (i ∈ m.warrens ∧ shown (m.heap i) = false ∧ (m.heap i).lo = (m1.heap i).lo ∧ (m.heap i).hi = (m1.heap i).hi) ∨
        m.sequence ≤ (m1.heap i).lo) → Sess M flat m1 d pu :=
    fun hi hq hw => ⟨⟨dI, du', hi, hsc⟩, hz.mono (fun _ _ q _ => q) hq hw⟩
  have keepKitten : ∀ {n : Nat} (n' : FName) (x : α), (n', some x) ∈ (d.rm (kittenName n)).files →
      n'.kind = .hazel → (n', some x) ∈ d.files := fun _ _ q _ => (mem_rm.1 q).1
  cases a <;> simp only [Txn.step, reduceCtorEq, Option.some.injEq] at hs
  case scribble n x =>
    subst hs
    dsimp only at hm' ⊢
    cases hm'
    refine ⟨⟨dI, du', h, hsc⟩, hz.mono ?_ (Nat.le_refl _) fun i hi hs => .inl ⟨hi, hs, rfl, rfl⟩⟩
    intro n' y hy hk
    rcases mem_link.1 hy with e | e
    · cases e; cases hk
    · exact (mem_rm.1 e).1
  case crash => subst hs; cases hm'
  case begin c t =>
    split at hs <;> simp only [reduceCtorEq, Option.some.injEq] at hs
    rename_i hcl
    subst hs; cases hm'
    exact plain (h.setIdle (x := .opened t) ⟨rfl, rfl⟩ (fun id e k => by rw [hcl]; simp) (by intro id e k; simp))
      (Nat.le_refl _) fun i hi hs => .inl ⟨hi, hs, rfl, rfl⟩
  case number c =>
    split at hs <;> simp only [reduceCtorEq, Option.some.injEq] at hs
    rename_i t hcl
    subst hs; cases hm'
    refine plain (h.number hM hcl) (Nat.le_succ _) ?_
    intro i hi hs
    simp only [number, List.mem_append, List.mem_singleton] at hi hs ⊢
    rcases hi with hi | rfl
    · have : i ≠ m.fresh := by have := h.ids i hi; omega
      rw [upd_ne _ _ this] at hs ⊢
      exact .inl ⟨hi, hs, rfl, rfl⟩
    · rw [upd_same]; exact .inr (Nat.le_refl _)
  case vote c ok =>
    split at hs <;> simp only [reduceCtorEq, Option.some.injEq] at hs
    rename_i id e hcl
    subst hs; cases hm'
    have hd : ∀ n x, (n, some x) ∈ (vote M d id e ok).1.files → n.kind = .hazel → (n, some x) ∈ d.files := by
      intro n x hx hk
      unfold vote at hx
      split at hx
      · exact hx
      · split at hx
        · rcases mem_link.1 hx with e' | e'
          · cases e'; cases hk
          · exact e'
        · exact hx
    have hst := hz.mono (m' := { m with clients := upd m.clients c (vote M d id e ok).2 }) hd (Nat.le_refl _)
      fun i hi hs => .inl ⟨hi, hs, rfl, rfl⟩
    refine ⟨?_, hst⟩
    have hsd : (vote M d id e ok).1.scripts = d.scripts := by
      unfold vote; split
      · rfl
      · split <;> rfl
    have hv : (vote M d id e ok).2 = .voted id e true ∨ (vote M d id e ok).2 = .voted id e false := by
      unfold vote; split
      · exact .inl rfl
      · split
        · exact .inl rfl
        · exact .inr rfl
    rw [hsd]
    rcases hv with e1 | e1 <;> rw [e1]
    · obtain ⟨d', q1, q2, _, q4⟩ := h.addKittens [e] (by
        intro e' he'; rw [List.mem_singleton] at he'; subst he'
        exact ⟨c, by rw [hcl]; rfl⟩)
      refine ⟨d', du', q1.setVote hcl fun _ => .inr ?_, q2.trans hsc⟩
      obtain ⟨x, hx⟩ := has_iff.1 (q4 e (by simp))
      rw [← q1.kits c e x (by rw [hcl]; rfl) hx]; exact hx
    · exact ⟨dI, du', h.setVote hcl (by simp), hsc⟩
  case commit c =>
    have key : ∀ id e k, (m.clients c).active = some (id, e) →
        ((m.clients c = .voted id e true ∧ k = none) ∨ ∃ k', m.clients c = .promised id e k' ∧ k = some k') →
        commitSys b ⟨some m, d, du, pu⟩ m c id e k = s' → Sess M flat m' s'.disk s'.published := by
      intro id e k ha hcl hs
      unfold commitSys at hs
      split at hs
      · subst hs; cases hm'
      · rename_i d' hd
        subst hs; cases hm'
        dsimp only at hd ⊢
        have hds : d'.scripts = d.scripts ∧
            ∀ n x, (n, some x) ∈ d'.files → n.kind = .hazel → (n, some x) ∈ d.files := by
          unfold commitDisk at hd
          split at hd
          · cases hd; exact ⟨rfl, fun _ _ q _ => q⟩
          · split at hd
            · cases hd
            · split at hd
              · cases hd
              · cases hd
                refine ⟨rfl, fun n x hx hk => ?_⟩
                rcases mem_link.1 hx with e' | e'
                · cases e'; cases hk
                · exact e'
        have hi := h.commit hM hcl
        obtain ⟨o1, o2⟩ := h.owns c id e ha
        refine ⟨⟨_, _, hi, hsc.trans hds.1.symm⟩, ?_⟩
        intro n x hx hk
        obtain ⟨q1, q2, q3, q4⟩ := hz n x (hds.2 n x hx hk) hk
        have q5 := q2 id o1 (by rw [o2]; rfl)
        rw [o2] at q5
        dsimp only at q5
        refine ⟨q1, ?_, q3, ?_⟩
        · intro i hi hsh
          simp only [commitMem] at hi hsh ⊢
          by_cases hid : i = id
          · subst hid
            rw [upd_same] at hsh
            simp [shown] at hsh
          · rw [upd_ne _ _ hid] at hsh ⊢
            exact q2 i hi hsh
        · intro e'
          rw [q4 e', List.mem_cons]
          constructor
          · rintro ⟨r1, r2⟩; exact ⟨.inr r1, r2⟩
          · rintro ⟨r1 | r1, r2⟩
            · subst r1; omega
            · exact ⟨r1, r2⟩
    split at hs <;> simp only [reduceCtorEq, Option.some.injEq] at hs
    · rename_i id e hcl
      exact key id e none (by rw [hcl]; rfl) (.inl ⟨hcl, rfl⟩) hs
    · rename_i id e k hcl
      exact key id e (some k) (by rw [hcl]; rfl) (.inr ⟨k, hcl, rfl⟩) hs
  case unkitten c =>
    split at hs <;> simp only [reduceCtorEq, Option.some.injEq] at hs
    rename_i id e k hcl
    subst hs; cases hm'
    exact ⟨⟨_, du', h.unkitten hcl, hsc⟩, hz.mono keepKitten (Nat.le_refl _) fun i hi hs => .inl ⟨hi, hs, rfl, rfl⟩⟩
  case abort c junk =>
    split at hs <;> simp only [reduceCtorEq, Option.some.injEq] at hs
    · rename_i t hcl
      subst hs; cases hm'
      refine ⟨⟨dI, du', h.setIdle (x := .idle) ⟨rfl, rfl⟩ (fun id e k => by rw [hcl]; simp) (by intro id e k; simp), hsc⟩,
        hz.mono keepKitten (Nat.le_refl _) fun i hi hs => .inl ⟨hi, hs, rfl, rfl⟩⟩
    · rename_i id e v hcl
      subst hs; cases hm'
      refine ⟨⟨_, du', h.abort hM hcl, hsc⟩, hz.mono keepKitten (Nat.le_refl _) ?_⟩
      intro i hi hs
      left
      simp only [abortMem] at hi hs ⊢
      obtain ⟨o1, o2⟩ := h.owns c id e (by rw [hcl]; rfl)
      by_cases hid : i = id
      · subst hid
        rw [upd_same]
        exact ⟨hi, by rw [o2]; rfl, rfl, rfl⟩
      · rw [upd_ne _ _ hid] at hs ⊢
        exact ⟨hi, hs, rfl, rfl⟩
  case script key cs =>
    split at hs
    · cases hs
    rename_i es hv
    split at hs
    · cases hs
    rename_i h1
    split at hs
    · cases hs; cases hm'
    cases hs; cases hm'
    obtain ⟨d', q1, q2, _, q4⟩ := h.addKittens es (allVoted_entry hv)
    have hk : ∀ sc ∈ d'.scripts, sc.key ≠ key := by
      rw [q2, hsc]
      intro sc hmem e
      apply h1
      simp only [Bool.or_eq_true, List.any_eq_true, decide_eq_true_eq]
      exact .inr ⟨sc, hmem, e⟩
    refine ⟨⟨_, _, q1.script hv hk q4, ?_⟩, hz.mono (fun _ _ q _ => q) (Nat.le_refl _)
      fun i hi hs => .inl ⟨hi, hs, rfl, rfl⟩⟩
    simp only [q2, hsc]
  case unscript key =>
    split at hs <;> simp only [reduceCtorEq, Option.some.injEq] at hs
    rename_i hb
    subst hs; cases hm'
    refine ⟨⟨_, du', h.unscript (by simpa using hb), ?_⟩, hz.mono (fun _ _ q _ => q) (Nat.le_refl _)
      fun i hi hs => .inl ⟨hi, hs, rfl, rfl⟩⟩
    simp only [Disk.op, hsc]
  case sweep =>
    subst hs; cases hm'
    refine plain h.sweep (Nat.le_refl _) ?_
    intro i hi hs
    exact .inl ⟨(List.mem_filter.1 hi).1, hs, rfl, rfl⟩
  case grab w start n =>
    split at hs
    case h_2 => cases hs
    rename_i hw
    rw [Option.map_eq_some_iff] at hs
    obtain ⟨m1, hg, rfl⟩ := hs
    cases hm'
    refine plain (h.grab hw hg) ?_ ?_
    · unfold grab at hg
      dsimp only at hg
      split at hg
      · split at hg
        · cases hg
        · cases hg; exact Nat.le_refl _
      · cases hg
    · unfold grab at hg
      dsimp only at hg
      split at hg
      · split at hg
        · cases hg
        · cases hg; exact fun i hi hs => .inl ⟨hi, hs, rfl, rfl⟩
      · cases hg
  case make w r =>
    split at hs <;> simp only [reduceCtorEq, Option.some.injEq] at hs
    rename_i job R hw
    subst hs; cases hm'
    obtain ⟨a, z, ha, hzz, _, _, h0, _, _⟩ := h.span (w := w) (.inl hw)
    obtain ⟨_, _, _, hcj⟩ := h.sel w job R (.inl hw)
    obtain ⟨g1, g2, g3, g4⟩ := h.selection (w := w) (.inl hw) ha hzz
    have oflat := outObj_flat hM hcj
    have olo := outObj_lo (M := M) (job := job) (heap := m.heap) ha
    have ohi := outObj_hi (M := M) (job := job) (heap := m.heap) hzz
    -- the two ways the memory may go
    have put : ∀ x, flat x = R.flatMap (fun i => flat (m.heap i).body) → ∀ d2 : Disk α, d2.scripts = d.scripts →
        Settled M flat m d2 pu →
        Sess M flat (putOut m w job R { outObj M job (R.map m.heap) with body := x }) d2 pu := by
      intro x hx d2 hd2 hz2
      refine ⟨⟨_, du', h.putOutAny (o := { outObj M job (R.map m.heap) with body := x })
        (outObj_kind (M := M) (l := R.map m.heap)) hw
        (fun _ ha => outObj_lo (M := M) (job := job) ha) (fun _ hz => outObj_hi (M := M) (job := job) hz) hx
        (h.free hw), ?_⟩,
        hz2.mono (fun _ _ q _ => q) (Nat.le_refl _) ?_⟩
      · exact hsc.trans hd2.symm
      · intro i hi hs
        left
        simp only [putOut] at hi hs ⊢
        have : i ≠ m.fresh := by have := h.ids i hi; omega
        rw [upd_ne _ _ this] at hs ⊢
        exact ⟨hi, hs, rfl, rfl⟩
    have rel : ∀ d2 : Disk α, d2.scripts = d.scripts → Settled M flat m d2 pu →
        Sess M flat (release m w R) d2 pu := fun d2 hd2 hz2 =>
      ⟨⟨dI, du', h.release hw, hsc.trans hd2.symm⟩, hz2.mono (fun _ _ q _ => q) (Nat.le_refl _)
        fun i hi hs => .inl ⟨hi, hs, rfl, rfl⟩⟩
    have lnk : Settled M flat m (d.link (outObj M job (R.map m.heap)).file (some (outObj M job (R.map m.heap)).body)) pu := by
      intro n x hx hk
      rcases mem_link.1 hx with e | e
      · simp only [Prod.mk.injEq, Option.some.injEq] at e
        obtain ⟨rfl, rfl⟩ := e
        have elo : (outObj M job (R.map m.heap)).file.lo = (m.heap a).lo := olo
        have ehi : (outObj M job (R.map m.heap)).file.hi = (m.heap z).hi := ohi
        rw [elo, ehi, oflat]
        exact ⟨g1, g2, g3, g4⟩
      · exact hz n x e hk
    have self : ({ outObj M job (R.map m.heap) with body := (outObj M job (R.map m.heap)).body } : Obj α) =
        outObj M job (R.map m.heap) := rfl
    have putO := put (outObj M job (R.map m.heap)).body oflat
    rw [self] at putO
    unfold makeOut
    dsimp only
    cases job with
    | fiverMerge =>
      dsimp only
      split
      · exact putO _ rfl lnk
      · exact putO _ rfl hz
    | hazelMerge =>
      dsimp only
      cases hg : d.get (outObj M .hazelMerge (R.map m.heap)).file with
      | some x =>
        cases x with
        | none => exact rel d rfl hz
        | some x =>
          dsimp only
          split
          · refine put x ?_ d rfl hz
            obtain ⟨_, _, q3, q4⟩ := hz _ x (get_some hg) rfl
            refine strict_eq q3 g3 fun e => ?_
            rw [q4 e, g4 e]
            have elo : (outObj M .hazelMerge (R.map m.heap)).file.lo = (m.heap a).lo := olo
            have ehi : (outObj M .hazelMerge (R.map m.heap)).file.hi = (m.heap z).hi := ohi
            rw [elo, ehi]
          · exact rel d rfl hz
      | none =>
        cases r with
        | ok => exact putO _ rfl lnk
        | fail => exact rel d rfl hz
        | late => exact rel _ rfl lnk
    | convert =>
      dsimp only
      split
      · exact rel d rfl hz
      · split
        · exact rel _ rfl lnk
        · exact putO _ rfl lnk
  case install w =>
    split at hs <;> simp only [reduceCtorEq, Option.some.injEq] at hs
    rename_i job R o hw
    subst hs; cases hm'
    refine plain (h.install hw) ?_ ?_
    · unfold install; split <;> exact Nat.le_refl _
    · intro i hi hs
      left
      have hh : (install m w R o).heap = m.heap := by unfold install; split <;> rfl
      rw [hh] at hs ⊢
      refine ⟨?_, hs, rfl, rfl⟩
      unfold install at hi
      split at hi
      · exact hi
      · rename_i l hl
        dsimp only at hi
        obtain ⟨_, hseg, _, _⟩ := h.sel w job R (.inr ⟨o, hw⟩)
        have hso : shown (m.heap o) = true := by
          obtain ⟨_, _, q, _⟩ := h.made w job R o hw
          rw [shown_iff, q.1]; cases job <;> simp
        have sub : ∀ x ∈ l, x = o ∨ x ∈ m.warrens := by
          unfold spliceOut at hl
          split at hl
          · dsimp only at hl
            split at hl
            · cases hl
            · rename_i post hpost
              cases hl
              intro x hx
              simp only [List.append_assoc, List.mem_append, List.mem_singleton, List.mem_cons, List.not_mem_nil, or_false] at hx
              rcases hx with hx | hx | hx
              · exact .inr ((List.takeWhile_sublist _).subset hx)
              · exact .inl hx
              · right
                exact (List.dropWhile_sublist _).subset ((List.dropWhile_sublist _).subset
                  (hpost ▸ List.mem_cons_of_mem _ hx))
          · cases hl
        rcases sub i hi with rfl | q
        · rw [hso] at hs; cases hs
        · exact q
  case discard w =>
    split at hs <;> simp only [reduceCtorEq, Option.some.injEq] at hs
    · rename_i hw; subst hs; cases hm'
      exact plain (h.discardEnd hw) (Nat.le_refl _) fun i hi hs => .inl ⟨hi, hs, rfl, rfl⟩
    · rename_i i l hw; subst hs; cases hm'
      exact ⟨⟨_, du', h.discard hw, hsc⟩, hz.mono (fun _ _ q _ => (mem_rm.1 q).1) (Nat.le_refl _)
        fun i hi hs => .inl ⟨hi, hs, rfl, rfl⟩⟩
  case rstart r =>
    split at hs <;> simp only [reduceCtorEq, Option.some.injEq] at hs
    subst hs; cases hm'
    exact plain (h.rstart r) (Nat.le_refl _) fun i hi hs => .inl ⟨hi, hs, rfl, rfl⟩
  case rend r =>
    subst hs; cases hm'
    exact plain (h.setReader r none (by intro x e; cases e)) (Nat.le_refl _) fun i hi hs => .inl ⟨hi, hs, rfl, rfl⟩
  case clone r r' =>
    split at hs <;> simp only [reduceCtorEq, Option.some.injEq] at hs
    rename_i v hv _
    subst hs; cases hm'
    exact plain (h.setReader r' (some v) (by intro x e; cases e; exact ⟨r, hv⟩)) (Nat.le_refl _)
      fun i hi hs => .inl ⟨hi, hs, rfl, rfl⟩

/-- the state in which a sound burrow has just been opened -/
theorem Inv.settled (h : Inv M flat m d du pu) (hn : ∀ i ∈ m.warrens, shown (m.heap i) = true)
    (hf : ∀ n x, (n, x) ∈ d.files → ∃ i ∈ m.warrens, (m.heap i).file = n) : Settled M flat m d pu := by
  intro n x hx hk
  obtain ⟨i, hi, rfl⟩ := hf n _ hx
  have e := h.own i hi (hn i hi)
  have : x = (m.heap i).body := by
    have e1 := get_of_mem h.uniq e
    have e2 := get_of_mem h.uniq hx
    rw [e1] at e2; cases e2; rfl
  subst this
  have hl : (m.heap i).file.lo = (m.heap i).lo := rfl
  have hh : (m.heap i).file.hi = (m.heap i).hi := rfl
  rw [hl, hh]
  refine ⟨(h.rng i hi).2, fun j hj hs => ?_, ?_, fun e' => ?_⟩
  · rw [hn j hj] at hs; cases hs
  · exact h.addrs.sublist (by
      have := flatMap_sub (List.singleton_sublist.2 hi) (fun i => flat (m.heap i).body)
      simpa using this)
  · rw [h.pub e']
    constructor
    · intro he; exact ⟨⟨i, hi, hn i hi, he⟩, h.inside i hi e' he⟩
    · rintro ⟨⟨j, hj, _, he⟩, r1, r2⟩
      have q := h.inside j hj e' he
      rcases h.live_apart hi hj with rfl | q' | q'
      · exact he
      · omega
      · omega

end Verif.Txn
