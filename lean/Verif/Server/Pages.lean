import Verif.Server.Spec
/-
  Sessions: every query has its own name and its own place in its ranking.
-/
namespace Verif.Server
open Verif.Hopper Verif.Gcl Verif.Rank Verif.Props

section
variable {σ : Type} {S : Settings σ}

/-- the records are responses to their lines, one after the other -/
inductive Runs (S : Settings σ) (P : Schedule → Prop) : State σ → List Record → State σ → Prop
  | nil {st} : Runs S P st [] st
  | cons {st st' st'' r rs sched} : P sched → respond S sched r.line st = .respond r.response st' → Runs S P st' rs st'' →
      Runs S P st (r :: rs) st''

theorem Runs.append {P : Schedule → Prop} {st st' st'' : State σ} {a b : List Record} (h : Runs S P st a st') (h' : Runs S P st' b st'') :
    Runs S P st (a ++ b) st'' := by
  induction h with
  | nil => exact h'
  | cons h0 h1 _ ih => exact .cons h0 h1 (ih h')

theorem Runs.split {P : Schedule → Prop} {st st'' : State σ} {a b : List Record} (h : Runs S P st (a ++ b) st'') :
    ∃ st', Runs S P st a st' ∧ Runs S P st' b st'' := by
  induction a generalizing st with
  | nil => exact ⟨st, .nil, h⟩
  | cons r a ih =>
    cases h with
    | cons h0 h1 h2 =>
      obtain ⟨st', k1, k2⟩ := ih h2
      exact ⟨st', .cons h0 h1 k1, k2⟩

theorem handle_runs {P : Schedule → Prop} : ∀ (ts : List Turn), (∀ t ∈ ts, P t.sched) → ∀ st : State σ, ∃ st', Runs S P st (handle S ts st).records st' ∧
    ((handle S ts st).fate = .alive → st' = (handle S ts st).state) := by
  intro ts
  induction ts with
  | nil => intro _ st; exact ⟨st, .nil, fun _ => rfl⟩
  | cons t rest ih =>
    intro hP st
    have h0 := hP t (by simp)
    replace ih := ih fun t ht => hP t (by simp [ht])
    unfold handle
    cases h : respond S t.sched t.line st with
    | undefined => exact ⟨st, .nil, fun h => by cases h⟩
    | uncaught => exact ⟨st, .nil, fun h => by cases h⟩
    | respond r st' =>
      dsimp only
      split
      · cases ht : t.sent with
        | broken => exact ⟨st', .cons (r := ⟨t.line, r, false⟩) h0 h .nil, fun h => by cases h⟩
        | taken =>
          obtain ⟨s, k1, k2⟩ := ih st'
          exact ⟨s, .cons (r := ⟨t.line, r, true⟩) h0 h k1, k2⟩
        | failed =>
          dsimp only
          split
          · obtain ⟨s, k1, k2⟩ := ih st'
            exact ⟨s, .cons (r := ⟨t.line, r, false⟩) h0 h k1, k2⟩
          · exact ⟨st', .cons (r := ⟨t.line, r, false⟩) h0 h .nil, fun _ => rfl⟩
      · exact ⟨st, .nil, fun h => by cases h⟩

theorem serve_runs {P : Schedule → Prop} : ∀ (cs : List (List Turn)), (∀ c ∈ cs, ∀ t ∈ c, P t.sched) → ∀ st : State σ, ∃ st', Runs S P st (serve S cs st).records st' := by
  intro cs
  induction cs with
  | nil => intro _ st; exact ⟨st, .nil⟩
  | cons c rest ih =>
    intro hP st
    obtain ⟨s, k1, k2⟩ := handle_runs (S := S) c (hP c (by simp)) st
    replace ih := ih fun x hx => hP x (by simp [hx])
    unfold serve
    cases hf : (handle S c st).fate with
    | alive =>
      obtain ⟨s', k3⟩ := ih (handle S c st).state
      dsimp only
      rw [hf]
      exact ⟨s', k1.append (by rw [k2 hf]; exact k3)⟩
    | ended => dsimp only; rw [hf]; exact ⟨s, k1⟩
    | undefined => dsimp only; rw [hf]; exact ⟨s, k1⟩

/-! ### the map of queries -/

theorem find_put (qid k : Text) (x : QueryState σ) : ∀ l, find k (put qid x l) = if k = qid then some x else find k l := by
  intro l
  induction l with
  | nil =>
    simp only [put, find]
    by_cases h : k = qid
    · rw [if_pos h.symm, if_pos h]
    · rw [if_neg (Ne.symm h), if_neg h]
  | cons y l ih =>
    unfold put
    by_cases h : y.1 = qid
    · rw [if_pos h]
      simp only [find]
      by_cases hk : k = qid
      · rw [if_pos hk.symm, if_pos hk]
      · rw [if_neg (Ne.symm hk), if_neg hk, if_neg (by rw [h]; exact Ne.symm hk)]
    · rw [if_neg h]
      simp only [find, ih]
      by_cases hk : k = qid
      · subst hk; rw [if_neg h, if_pos rfl, if_pos rfl]
      · rw [if_neg hk, if_neg hk]

theorem decimal_value (n : Nat) : (decimal n).foldl (fun w c => 10 * w + digitVal c) 0 = n := by
  induction n using Nat.strongRecOn with
  | _ n ih =>
    rw [decimal]
    split
    · rename_i h
      have := (digit_facts ⟨n, h⟩).2.1
      simp only at this
      simp [this]
    · have := (digit_facts ⟨n % 10, by omega⟩).2.1
      simp only at this
      rw [List.foldl_append, ih (n / 10) (by omega)]
      simp only [List.foldl_cons, List.foldl_nil, this]
      omega

theorem qidOf_inj {m n : Nat} (h : qidOf m = qidOf n) : m = n := by
  have h : decimal m = decimal n := by simpa [qidOf] using h
  rw [← decimal_value m, ← decimal_value n, h]

/-! ### one line -/

theorem resultResponse_page {op qid : Text} {R : List (Found σ)} {n : Nat} {f : Found σ} {r : Response} (hf : R[n]? = some f)
    (h : resultResponse S op qid (n + 1) f = some r) : Page S op qid R n r ∧ r.qid? = some qid := by
  unfold resultResponse at h
  cases hc : S.collections[f.collection]? with
  | none => rw [hc] at h; cases h
  | some c =>
    rw [hc] at h
    cases h
    exact ⟨.passage hf hc, rfl⟩

/-- what a line does to the state -/
inductive Effect (S : Settings σ) (sched : Schedule) (line : Text) (st : State σ) : Response → State σ → Prop
  | opened {text per r k} : Asks S line opQuery opQuery text → text ≠ [] →
      workers S sched text S.collections.zipIdx = some per → firstError S text sched.order = none →
      Page S opQuery (qidOf st.nextQid) (merge S per) 0 r → r.qid? = some (qidOf st.nextQid) →
      (k = 1 ∨ (merge S per).length ≤ k ∧ (merge S per).length ≤ 1) →
      Effect S sched line st r ⟨put (qidOf st.nextQid) ⟨merge S per, k⟩ st.queries, (st.nextQid + 1) % 2 ^ 64⟩
  | refused {text e} : Asks S line opQuery opQuery text → text ≠ [] → firstError S text sched.order = some e →
      Effect S sched line st (.error opQuery e) st
  | turned {qid x r} : asksNext S qid line = true → find qid st.queries = some x →
      Page S opNext qid x.results x.next r → r.qid? = some qid → x.next < x.results.length →
      Effect S sched line st r { st with queries := put qid { x with next := x.next + 1 } st.queries }
  | over {qid x} : asksNext S qid line = true → find qid st.queries = some x → x.results.length ≤ x.next →
      Effect S sched line st (.done opNext qid) st
  | lost {qid} : asksNext S qid line = true → find qid st.queries = none →
      Effect S sched line st (.error opNext unknownQid) st
  | other {r} : (∀ qid, asksNext S qid line = false) → (∀ text, Asks S line opQuery opQuery text → text = []) → r.qid? = none →
      Effect S sched line st r st

theorem respond_effect {sched : Schedule} {line : Text} {st st' : State σ} {r : Response}
    (h : respond S sched line st = .respond r st') : Effect S sched line st r st' := by
  unfold respond at h
  cases hp : S.parse line with
  | bad what =>
    rw [hp] at h
    cases h
    exact .other (fun qid => by unfold asksNext; rw [hp]) (by rintro text ⟨m, e, -⟩; rw [hp] at e; cases e) rfl
  | scalar => rw [hp] at h; cases h
  | object members =>
    rw [hp] at h
    simp only at h
    cases hv : value members keyOp with
    | none => rw [hv] at h; cases h
    | some op =>
      rw [hv] at h
      simp only at h
      have asks : ∀ {text}, Asks S line opQuery opQuery text → op = opQuery := by
        rintro text ⟨m, e, e2, -⟩
        rw [hp] at e; cases e
        rw [hv] at e2; exact Option.some.inj e2
      have nexts : ∀ qid, op ≠ opNext → asksNext S qid line = false := by
        intro qid hne
        unfold asksNext
        rw [hp]
        simp only [hv, Bool.and_eq_false_iff]
        left
        simpa using hne
      by_cases h1 : op = opQuery
      · rw [if_pos h1] at h
        cases hq : value members opQuery with
        | none => rw [hq] at h; cases h
        | some text =>
          rw [hq] at h
          simp only at h
          have ha : Asks S line opQuery opQuery text := ⟨members, hp, by rw [hv, h1], hq⟩
          unfold query at h
          by_cases ht : text = []
          · rw [if_pos ht] at h
            cases h
            refine .other (fun qid => nexts qid (by rw [h1]; decide)) ?_ rfl
            rintro text' ⟨m, e, -, e3⟩
            rw [hp] at e; cases e
            rw [hq] at e3; cases e3; exact ht
          · rw [if_neg ht] at h
            cases hw : workers S sched text S.collections.zipIdx with
            | none => rw [hw] at h; cases h
            | some per =>
              rw [hw] at h
              simp only at h
              cases he : firstError S text sched.order with
              | some e => rw [he] at h; cases h; exact .refused ha ht he
              | none =>
                rw [he] at h
                simp only at h
                cases hm : merge S per with
                | nil =>
                  rw [hm] at h
                  cases h
                  have := Effect.opened (S := S) (st := st) (r := .done opQuery (qidOf st.nextQid)) (k := 0) ha ht hw he
                    (by rw [hm]; exact .done (Nat.zero_le _)) rfl (by rw [hm]; exact .inr ⟨Nat.le_refl _, by simp⟩)
                  rw [hm] at this
                  exact this
                | cons f fs =>
                  rw [hm] at h
                  simp only at h
                  cases hr : resultResponse S opQuery (qidOf st.nextQid) 1 f with
                  | none => rw [hr] at h; cases h
                  | some r' =>
                    rw [hr] at h
                    cases h
                    obtain ⟨k1, k2⟩ := resultResponse_page (R := merge S per) (n := 0) (by rw [hm]; rfl) hr
                    have := Effect.opened (S := S) (st := st) (k := 1) ha ht hw he k1 k2 (.inl rfl)
                    rw [hm] at this
                    exact this
      · rw [if_neg h1] at h
        have noq : ∀ text, Asks S line opQuery opQuery text → text = [] := fun text ha => absurd (asks ha) h1
        by_cases h2 : op = opNext
        · rw [if_pos h2] at h
          cases hq : value members keyQid with
          | none => rw [hq] at h; cases h
          | some qid =>
            rw [hq] at h
            simp only at h
            have hn : asksNext S qid line = true := by
              unfold asksNext; rw [hp]; simp [hv, h2, hq]
            unfold next at h
            cases hf : find qid st.queries with
            | none => rw [hf] at h; cases h; exact .lost hn hf
            | some x =>
              rw [hf] at h
              simp only at h
              cases hx : x.results[x.next]? with
              | none =>
                rw [hx] at h; cases h
                exact .over hn hf (List.getElem?_eq_none_iff.1 hx)
              | some f =>
                rw [hx] at h
                simp only at h
                cases hr : resultResponse S opNext qid (x.next + 1) f with
                | none => rw [hr] at h; cases h
                | some r' =>
                  rw [hr] at h
                  cases h
                  obtain ⟨k1, k2⟩ := resultResponse_page hx hr
                  exact .turned hn hf k1 k2 (List.getElem?_eq_some_iff.1 hx).1
        · rw [if_neg h2] at h
          by_cases h3 : op = opDocument
          · rw [if_pos h3] at h
            cases hq : value members keyDocno with
            | none => rw [hq] at h; cases h
            | some wanted =>
              rw [hq] at h
              simp only at h
              cases hd : document S wanted with
              | none => rw [hd] at h; cases h
              | some r' =>
                rw [hd] at h
                cases h
                refine .other (fun qid => nexts qid h2) noq ?_
                unfold document at hd
                split at hd
                · cases hd; rfl
                · split at hd
                  · cases hd
                  · cases hd; rfl
                  · cases hd; rfl
                  · split at hd
                    · cases hd
                    · split at hd
                      · cases hd
                      · cases hd; rfl
                      · cases hd; rfl
          · rw [if_neg h3] at h
            cases h
            exact .other (fun qid => nexts qid h2) noq rfl

/-! ### all lines -/

/-- the names that are known are those given so far -/
def Known (st : State σ) : Prop := ∀ k x, find k st.queries = some x → ∃ m, m < st.nextQid ∧ k = qidOf m

theorem asksNext_unique {a b line : Text} (ha : asksNext S a line = true) (hb : asksNext S b line = true) : a = b := by
  unfold asksNext at ha hb
  split at ha
  · rename_i e
    rw [e] at hb
    simp only [Bool.and_eq_true, beq_iff_eq] at ha hb
    exact Option.some.inj (ha.2.symm.trans hb.2)
  · cases ha

theorem effect_known {sched : Schedule} {line : Text} {st st' : State σ} {r : Response} (h : Effect S sched line st r st')
    (hk : Known st) (hn : st.nextQid + 1 < 2 ^ 64) :
    Known st' ∧ st.nextQid ≤ st'.nextQid ∧ st'.nextQid ≤ st.nextQid + 1 ∧
    (∀ q, r.qid? = some q → ∃ m, m < st'.nextQid ∧ q = qidOf m) := by
  cases h with
  | opened _ _ _ _ _ h6 _ =>
    refine ⟨fun k x hf => ?_, ?_, ?_, ?_⟩
    · simp only [find_put] at hf
      split at hf
      · rename_i e; exact ⟨st.nextQid, by simp only; rw [Nat.mod_eq_of_lt hn]; omega, e⟩
      · obtain ⟨m, m1, m2⟩ := hk k x hf
        exact ⟨m, by simp only; rw [Nat.mod_eq_of_lt hn]; omega, m2⟩
    · simp only; rw [Nat.mod_eq_of_lt hn]; omega
    · simp only; rw [Nat.mod_eq_of_lt hn]; omega
    · intro q hq
      rw [h6] at hq; cases hq
      exact ⟨st.nextQid, by simp only; rw [Nat.mod_eq_of_lt hn]; omega, rfl⟩
  | refused => exact ⟨hk, Nat.le_refl _, by omega, fun q hq => by cases hq⟩
  | turned _ h2 _ h4 _ =>
    refine ⟨fun k x hf => ?_, Nat.le_refl _, by simp only; omega, fun q hq => ?_⟩
    · simp only [find_put] at hf
      split at hf
      · rename_i e; subst e; exact hk _ _ h2
      · exact hk k x hf
    · rw [h4] at hq; cases hq; exact hk _ _ h2
  | over _ h2 _ => exact ⟨hk, Nat.le_refl _, by omega, fun q hq => by cases hq; exact hk _ _ h2⟩
  | lost => exact ⟨hk, Nat.le_refl _, by omega, fun q hq => by cases hq⟩
  | other _ _ h3 => exact ⟨hk, Nat.le_refl _, by omega, fun q hq => by rw [h3] at hq; cases hq⟩

theorem runs_known {P : Schedule → Prop} {st st' : State σ} {rs : List Record} (h : Runs S P st rs st') (hk : Known st)
    (hn : st.nextQid + rs.length < 2 ^ 64) :
    Known st' ∧ st.nextQid ≤ st'.nextQid ∧ st'.nextQid ≤ st.nextQid + rs.length ∧
    ∀ r ∈ rs, ∀ q, r.response.qid? = some q → ∃ m, m < st'.nextQid ∧ q = qidOf m := by
  induction h with
  | nil => exact ⟨hk, Nat.le_refl _, by simp, by simp⟩
  | cons _ h1 _ ih =>
    simp only [List.length_cons] at hn
    obtain ⟨a1, a2, a3, a4⟩ := effect_known (respond_effect h1) hk (by omega)
    obtain ⟨b1, b2, b3, b4⟩ := ih a1 (by omega)
    refine ⟨b1, by omega, by simp only [List.length_cons]; omega, fun r hr q hq => ?_⟩
    rcases List.mem_cons.1 hr with rfl | hr
    · obtain ⟨m, m1, m2⟩ := a4 q hq; exact ⟨m, by omega, m2⟩
    · exact b4 r hr q hq

/-- the place in a ranking that the state has for `n` -/
def At (R : List (Found σ)) (n k : Nat) : Prop := k = n ∨ R.length ≤ k ∧ R.length ≤ n

theorem At.page {op qid : Text} {R : List (Found σ)} {n k : Nat} {r : Response} (h : At R n k) (hk : Page S op qid R k r) :
    Page S op qid R n r := by
  rcases h with rfl | ⟨h1, h2⟩
  · exact hk
  · cases hk with
    | done => exact .done h2
    | passage h => have := (List.getElem?_eq_some_iff.1 h).1; omega

theorem runs_pages {P : Schedule → Prop} {st st' : State σ} {rs : List Record} (h : Runs S P st rs st') (hk : Known st)
    (hn : st.nextQid + rs.length < 2 ^ 64) {qid : Text} {R : List (Found σ)} : ∀ {n k : Nat},
    find qid st.queries = some ⟨R, k⟩ → At R n k →
    ∀ (j : Nat) r, (rs.filter fun r => asksNext S qid r.line)[j]? = some r → Page S opNext qid R (n + j) r.response := by
  induction h with
  | nil => intro n k _ _ j r hr; simp at hr
  | @cons st st1 st2 r0 rs sched _ h1 _ ih =>
    intro n k hf ha j r hr
    obtain ⟨line0, resp0, got0⟩ := r0
    simp only [List.length_cons] at hn
    simp only at h1
    have e := respond_effect h1
    obtain ⟨a1, a2, a3, -⟩ := effect_known e hk (by omega)
    obtain ⟨m, m1, m2⟩ := hk _ _ hf
    cases hx : asksNext S qid line0 with
    | false =>
      rw [List.filter_cons_of_neg (by simpa using hx)] at hr
      have hf' : find qid st1.queries = some ⟨R, k⟩ := by
        cases e with
        | opened =>
          rw [find_put, if_neg]
          · exact hf
          · intro e; rw [m2] at e; have := qidOf_inj e; omega
        | refused => exact hf
        | turned g1 =>
          rw [find_put, if_neg]
          · exact hf
          · intro e; subst e; rw [g1] at hx; cases hx
        | over => exact hf
        | lost => exact hf
        | other => exact hf
      exact ih a1 (by omega) hf' ha j r hr
    | true =>
      rw [List.filter_cons_of_pos (by simpa using hx)] at hr
      have key : Page S opNext qid R k resp0 ∧ ∃ k', find qid st1.queries = some ⟨R, k'⟩ ∧ At R (n + 1) k' := by
        cases e with
        | opened g1 =>
          obtain ⟨mm, e1, e2, -⟩ := g1
          unfold asksNext at hx
          rw [e1] at hx
          simp only [e2, Bool.and_eq_true, beq_iff_eq] at hx
          exact absurd hx.1 (by decide)
        | refused g1 =>
          obtain ⟨mm, e1, e2, -⟩ := g1
          unfold asksNext at hx
          rw [e1] at hx
          simp only [e2, Bool.and_eq_true, beq_iff_eq] at hx
          exact absurd hx.1 (by decide)
        | turned g1 g2 g3 _ g5 =>
          cases asksNext_unique g1 hx
          rw [hf] at g2; cases g2
          refine ⟨g3, k + 1, by rw [find_put, if_pos rfl], ?_⟩
          rcases ha with rfl | ⟨h1, h2⟩
          · exact .inl rfl
          · simp only at g5; omega
        | over g1 g2 g3 =>
          have := asksNext_unique g1 hx
          subst this
          rw [hf] at g2; cases g2
          refine ⟨.done g3, k, hf, ?_⟩
          simp only at g3
          rcases ha with rfl | ⟨h1, h2⟩
          · exact .inr ⟨g3, by omega⟩
          · exact .inr ⟨h1, by omega⟩
        | lost g1 g2 =>
          have := asksNext_unique g1 hx
          subst this
          rw [hf] at g2; cases g2
        | other g1 => rw [g1] at hx; cases hx
      cases j with
      | zero =>
        simp only [List.getElem?_cons_zero, Option.some.injEq] at hr
        subst hr
        exact ha.page key.1
      | succ j =>
        rw [List.getElem?_cons_succ] at hr
        obtain ⟨k', f', ha'⟩ := key.2
        have := ih a1 (by omega) f' ha' j r hr
        rwa [show n + 1 + j = n + (j + 1) by omega] at this

end
end Verif.Server
