import Verif.Server.Spec
/-
  The ranking of a query over all collections.
-/
namespace Verif.Server
open Verif.Hopper Verif.Gcl Verif.Rank Verif.Props
open Verif.Judge (trecDocno)

section
variable {σ : Type} {S : Settings σ}

theorem reads_hopper {c : Collection} {text : Text} {e : SExpr} (h : Reads c text e) :
    c.hopper text = compile c.ix (some c.count) (expandPhrases c.split '"' e) ∧
    ∃ H, c.hopper text = some H ∧ Implements H (c.means e) := by
  obtain ⟨rest, hp⟩ := C09_reads h.writes
  have e1 : c.hopper text = compile c.ix (some c.count) (expandPhrases c.split '"' e) := by
    unfold Collection.hopper gclHopper; rw [hp]
  obtain ⟨H, h1, h2⟩ := compile_impl c.ix (some c.count) _ h.legal
  exact ⟨e1, H, by rw [e1, h1], h2⟩

theorem means_wf {c : Collection} {text : Text} {e : SExpr} (h : Reads c text e) : Wf (c.means e) := den_wf c.ix.wf _ h.legal

/-! ### a passage -/

theorem wf_le {D : GC} (w : Wf D) {a b : Ann} (ha : D a) (hb : D b) (h : a.q ≤ b.q) : a.p ≤ b.p := by
  by_cases hp : b.p < a.p
  · have := w.mono hb ha hp; omega
  · omega

theorem wf_le' {D : GC} (w : Wf D) {a b : Ann} (ha : D a) (hb : D b) (h : a.p ≤ b.p) : a.q ≤ b.q := by
  by_cases hp : a.p = b.p
  · rw [w.uniq ha hb hp]; exact Int.le_refl _
  · have := w.mono ha hb (by omega); omega

theorem docOf_unique {D : GC} (w : Wf D) {r : Result σ} {d d' : Ann} (h : DocOf D r d) (h' : DocOf D r d') : d = d' := by
  have h1 := h.2 d' h'.1.1 h'.1.2.1 h'.1.2.2
  have h2 := h'.2 d h.1.1 h.1.2.1 h.1.2.2
  exact w.uniq h.1.1 h'.1.1 (by omega)

theorem containerFor_ok {c : Collection} {d : SExpr} (hd : Reads c S.container d) {r : Result σ}
    (h1 : minfinity < r.q) (h2 : r.q < maxfinity) (h3 : r.p ≤ r.q) :
    ∃ o, containerFor S c r = some o ∧ (∀ a, o = some a → DocOf (c.means d) r a) ∧ (o = none → ∀ a, ¬ DocOf (c.means d) r a) := by
  obtain ⟨-, H, e, I, hI⟩ := reads_hopper hd
  have w := means_wf hd
  unfold containerFor
  rw [e]
  obtain ⟨a, s', g1, -, g2⟩ := hI.rho r.q ⟨by omega, by omega⟩ H.init hI.init
  simp only [g1]
  refine ⟨_, rfl, ?_⟩
  rcases g2 with ⟨h, -⟩ | ⟨-, k1, k2, k3⟩ | ⟨-, k1, rfl⟩
  · omega
  · have near : ∀ d', c.means d d' → r.q ≤ d'.q → a.p ≤ d'.p := fun d' hd' hq => wf_le w k1 hd' (k3 d' hd' hq)
    by_cases hp : a.p ≤ r.p
    · rw [if_pos ⟨hp, k2⟩]
      refine ⟨fun b hb => ?_, by simp⟩
      cases hb
      exact ⟨⟨k1, hp, k2⟩, fun d' hd' _ hq => near d' hd' hq⟩
    · rw [if_neg (by omega)]
      refine ⟨by simp, fun _ b hb => ?_⟩
      have := near b hb.1.1 hb.1.2.2
      have := hb.1.2.1
      omega
  · rw [if_neg (by simp only; omega)]
    refine ⟨by simp, fun _ b hb => ?_⟩
    have := k1 b hb.1.1
    have := hb.1.2.2
    omega

theorem docnoIn_ok {c : Collection} {n : SExpr} (hn : Reads c S.docno n) {d : Ann}
    (h1 : minfinity < d.p) (h2 : d.p ≤ d.q) (h3 : d.q < maxfinity) :
    ∃ o, docnoIn S c d = some o ∧ (∀ t, o = some t → ∃ a, NumOf (c.means n) d a ∧ t = trecDocno (S.untag (c.translate a.p a.q))) ∧
      (o = none → ∀ a, ¬ NumOf (c.means n) d a) := by
  obtain ⟨-, H, e, I, hI⟩ := reads_hopper hn
  have w := means_wf hn
  unfold docnoIn
  rw [e]
  obtain ⟨a, s', g1, -, g2⟩ := hI.tau d.p ⟨by omega, by omega⟩ H.init hI.init
  simp only [g1]
  refine ⟨_, rfl, ?_⟩
  rcases g2 with ⟨h, -⟩ | ⟨-, k1, k2, k3⟩ | ⟨-, k1, rfl⟩
  · omega
  · by_cases hq : a.q > d.q
    · rw [if_pos hq]
      refine ⟨by simp, fun _ b hb => ?_⟩
      obtain ⟨⟨b1, b2, b3⟩, -⟩ := hb
      have := wf_le' w k1 b1 (k3 b b1 b2)
      omega
    · rw [if_neg hq]
      refine ⟨fun t ht => ⟨a, ⟨⟨k1, k2, by omega⟩, fun n' hn' hi => k3 n' hn' hi.1⟩, (Option.some.inj ht).symm⟩, by simp⟩
  · rw [if_pos (by simp only; omega)]
    refine ⟨by simp, fun _ b hb => ?_⟩
    obtain ⟨⟨b1, b2, b3⟩, -⟩ := hb
    have := k1 b b1
    omega

theorem makeResults_ok {c : Collection} {i : Nat} {d n : SExpr} (hd : Reads c S.container d) (hn : Reads c S.docno n) :
    ∀ {R : List (Result σ)}, (∀ r ∈ R, minfinity < r.q ∧ r.q < maxfinity ∧ r.p ≤ r.q) →
      ∃ fs, makeResults S c i R = some fs ∧ Numbered S c i (c.means d) (c.means n) R fs := by
  intro R
  induction R with
  | nil => intro _; exact ⟨[], rfl, .nil⟩
  | cons r R ih =>
    intro h
    obtain ⟨fs, f1, f2⟩ := ih fun x hx => h x (by simp [hx])
    obtain ⟨r1, r2, r3⟩ := h r (by simp)
    obtain ⟨o, o1, o2, o3⟩ := containerFor_ok (S := S) hd r1 r2 r3
    have w := means_wf hd
    unfold makeResults makeResult
    rw [o1, f1]
    cases o with
    | none => exact ⟨fs, rfl, .skip (fun a _ ha => absurd ha (o3 rfl a)) f2⟩
    | some a =>
      have ha := o2 a rfl
      obtain ⟨p, p1, p2, p3⟩ := docnoIn_ok (S := S) hn (w.lo ha.1.1) (w.le ha.1.1) (w.hi ha.1.1)
      simp only [p1]
      cases p with
      | none =>
        refine ⟨fs, rfl, .skip (fun a' m ha' => ?_) f2⟩
        rw [docOf_unique w ha' ha]
        exact p3 rfl m
      | some t =>
        obtain ⟨m, m1, rfl⟩ := p2 t rfl
        exact ⟨_, rfl, .keep ha m1 f2⟩

/-! ### the collections -/

theorem results_mem {sc : Scores σ} {L cs : List Ann} {all : List (Result σ)} (h : Results sc L cs all) :
    ∀ r ∈ all, ∃ a ∈ L, r.p = a.p ∧ r.q = a.q := by
  induction h with
  | nil => simp
  | cons h1 _ ih =>
    intro r hr
    rcases List.mem_cons.1 hr with rfl | hr
    · obtain ⟨-, -, -, a, ⟨a1, -⟩, a2, a3⟩ := h1
      exact ⟨a, (List.mem_filter.1 a1).1, a2, a3⟩
    · exact ih r hr

theorem worker_ok (hs : S.sc.Lawful) (hsort : SortsBy S.sc S.sort) {sched : Schedule} {text : Text} {q k d n : SExpr} {c : Collection}
    {i : Nat} (hc : ∀ j, sched.cloned i j = true) (h : Fit S text q k d n c) :
    ∃ fs, worker S sched text c i = some fs ∧ Contributes S q k d n c i fs := by
  obtain ⟨L, hL⟩ := lists_exists c.ix _ h.query.legal
  obtain ⟨C, hC⟩ := lists_exists c.ix _ h.content.legal
  have apart : C.Pairwise fun c d => c.q < d.p := by
    refine hC.1.1.imp_of_mem ?_
    intro a b ha hb hab
    exact h.apart a b ((hC.2 a).1 ha) ((hC.2 b).1 hb) hab.1
  obtain ⟨all, R, r1, r2, r3⟩ := C44_parallel_partial hs hsort c.ix (some c.count) h.query.legal h.content.legal hL hC apart
    (fun a ha b hb => h.span a b ((hC.2 a).1 ha) ((hC.2 b).1 hb)) 1000 S.hardware
    ((threadBudget S.hardware S.collections.length).getD i 0) (sched.cloned i)
  have top : Top S.sc 1000 all R := by
    rcases r3 with ⟨⟨j, hj⟩, -⟩ | h
    · rw [hc j] at hj; cases hj
    · exact h
  obtain ⟨others, p1, -⟩ := top.best
  obtain ⟨fs, f1, f2⟩ := makeResults_ok (S := S) (c := c) (i := i) h.container h.docno (R := R) (by
    intro r hr
    obtain ⟨a, a1, a2, a3⟩ := results_mem r2 r (p1.subset (List.mem_append_left _ hr))
    have := hL.1.2 a a1
    omega)
  refine ⟨fs, ?_, L, C, all, R, hL, hC, r2, top, f2⟩
  unfold worker
  rw [(reads_hopper h.query).1, (reads_hopper h.content).1, r1]
  exact f1

theorem workers_ok (hs : S.sc.Lawful) (hsort : SortsBy S.sc S.sort) {sched : Schedule} {text : Text} {q k d n : SExpr}
    (hc : ∀ i j, sched.cloned i j = true) : ∀ {l : List (Collection × Nat)}, (∀ x ∈ l, Fit S text q k d n x.1) →
    ∃ per, workers S sched text l = some per ∧ per.length = l.length ∧
      ∀ (j : Nat) c i fs, l[j]? = some (c, i) → per[j]? = some fs → Contributes S q k d n c i fs := by
  intro l
  induction l with
  | nil => intro _; exact ⟨[], rfl, rfl, by simp⟩
  | cons x l ih =>
    obtain ⟨c, i⟩ := x
    intro h
    have hx := h (c, i) (by simp)
    obtain ⟨fs, f1, f2⟩ := worker_ok hs hsort (i := i) (hc i) hx
    obtain ⟨per, p1, p2, p3⟩ := ih fun y hy => h y (by simp [hy])
    obtain ⟨-, H, e, -⟩ := reads_hopper hx.query
    refine ⟨fs :: per, ?_, by simp [p2], ?_⟩
    · unfold workers
      rw [e]
      simp only [Option.isNone_some, Bool.false_eq_true, if_false, f1, p1]
    · intro j c' i' fs' h1 h2
      cases j with
      | zero =>
        simp only [List.getElem?_cons_zero, Option.some.injEq, Prod.mk.injEq] at h1 h2
        obtain ⟨rfl, rfl⟩ := h1
        subst h2
        exact f2
      | succ j => exact p3 j c' i' fs' (by simpa using h1) (by simpa using h2)

theorem firstError_none {text : Text} (h : ∀ c ∈ S.collections, c.hopper text ≠ none) : ∀ order, firstError S text order = none := by
  intro order
  induction order with
  | nil => rfl
  | cons i order ih =>
    unfold firstError
    cases hc : S.collections[i]? with
    | none => exact ih
    | some c =>
      have := h c (List.mem_of_getElem? hc)
      cases he : c.hopper text with
      | none => exact absurd he this
      | some H => simp [he]; exact ih

theorem firstError_some {text : Text} : ∀ {order : List Nat} {e}, firstError S text order = some e →
    ∃ i ∈ order, ∃ c, S.collections[i]? = some c ∧ c.hopper text = none ∧ (c.complaint text ≠ [] → e = c.complaint text) := by
  intro order
  induction order with
  | nil => intro e h; cases h
  | cons i order ih =>
    intro e h
    unfold firstError at h
    cases hc : S.collections[i]? with
    | none =>
      rw [hc] at h
      obtain ⟨j, j1, j2⟩ := ih h
      exact ⟨j, by simp [j1], j2⟩
    | some c =>
      rw [hc] at h
      simp only at h
      split at h
      · rename_i hn
        refine ⟨i, by simp, c, hc, by simpa using hn, fun hne => ?_⟩
        rw [if_neg hne] at h
        exact (Option.some.inj h).symm
      · obtain ⟨j, j1, j2⟩ := ih h
        exact ⟨j, by simp [j1], j2⟩

theorem merge_ok (hs : S.sc.Ordered) (per : List (List (Found σ))) :
    (merge S per).Perm per.flatten ∧
    (merge S per).Pairwise (fun a b => S.sc.gt b.ranking.score a.ranking.score = false) ∧
    ∀ a b, [a, b].Sublist per.flatten → S.sc.gt b.ranking.score a.ranking.score = false → [a, b].Sublist (merge S per) := by
  have total : ∀ a b : Found σ, (!S.sc.gt b.ranking.score a.ranking.score || !S.sc.gt a.ranking.score b.ranking.score) = true := by
    intro a b
    cases h : S.sc.gt b.ranking.score a.ranking.score with
    | false => rfl
    | true => simp [hs.asymm h]
  have trans : ∀ a b c : Found σ, (!S.sc.gt b.ranking.score a.ranking.score) = true → (!S.sc.gt c.ranking.score b.ranking.score) = true →
      (!S.sc.gt c.ranking.score a.ranking.score) = true := by
    intro a b c h1 h2
    simp only [Bool.not_eq_true'] at *
    cases h : S.sc.gt c.ranking.score a.ranking.score with
    | false => rfl
    | true => rcases hs.split (b := b.ranking.score) h with h | h <;> simp_all
  refine ⟨List.mergeSort_perm _ _, ?_, fun a b h1 h2 => ?_⟩
  · refine (List.pairwise_mergeSort trans total _).imp ?_
    intro a b h; simpa using h
  · exact List.pair_sublist_mergeSort trans total (by simpa using h2) h1

theorem bestOf_ok (hs : S.sc.Lawful) (hsort : SortsBy S.sc S.sort) {sched : Schedule} {text : Text} {q k d n : SExpr}
    (hc : ∀ i j, sched.cloned i j = true) (h : ∀ c ∈ S.collections, Fit S text q k d n c) :
    ∃ per, workers S sched text S.collections.zipIdx = some per ∧ firstError S text sched.order = none ∧
      BestOf S q k d n (merge S per) per := by
  obtain ⟨per, p1, p2, p3⟩ := workers_ok hs hsort hc (l := S.collections.zipIdx) (by
    rintro ⟨c, i⟩ hx
    exact h c (by simpa using List.mem_zipIdx' hx |>.2 ▸ List.getElem_mem _))
  refine ⟨per, p1, firstError_none (fun c hcm => ?_) _, ?_⟩
  · obtain ⟨-, H, e, -⟩ := reads_hopper (h c hcm).query
    rw [e]; simp
  · obtain ⟨m1, m2, m3⟩ := merge_ok hs.toOrdered per
    refine ⟨by rw [p2, List.length_zipIdx], fun i c fs h1 h2 => p3 i c i fs ?_ h2, m1, m2, m3⟩
    rw [List.getElem?_zipIdx, h1]
    simp

end
end Verif.Server
