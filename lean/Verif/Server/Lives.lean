import Verif.Server.Pages
import Verif.Server.Document
/-
  Requests that the server survives.
-/
namespace Verif.Server
open Verif.Hopper Verif.Gcl Verif.Rank Verif.Props

section
variable {σ : Type} {S : Settings σ}

theorem makeResults_collection {c : Collection} {i : Nat} : ∀ {rs : List (Result σ)} {fs : List (Found σ)},
    makeResults S c i rs = some fs → ∀ f ∈ fs, f.collection = i := by
  intro rs
  induction rs with
  | nil => intro fs h; cases h; simp
  | cons r rs ih =>
    intro fs h
    unfold makeResults at h
    have one : ∀ f, makeResult S c i r = some (some f) → f.collection = i := by
      intro f hf
      unfold makeResult at hf
      split at hf <;> try cases hf
      split at hf <;> try cases hf
      rfl
    split at h
    · rename_i f fs' h1 h2
      cases h
      intro g hg
      rcases List.mem_cons.1 hg with rfl | hg
      · exact one g h1
      · exact ih h2 g hg
    · rename_i fs' h1 h2
      cases h
      exact ih h2
    · cases h

theorem workers_collection {sched : Schedule} {text : Text} : ∀ {l : List (Collection × Nat)} {per : List (List (Found σ))},
    workers S sched text l = some per → ∀ fs ∈ per, ∀ f ∈ fs, ∃ x ∈ l, f.collection = x.2 := by
  intro l
  induction l with
  | nil => intro per h; cases h; simp
  | cons x l ih =>
    obtain ⟨c, i⟩ := x
    intro per h
    unfold workers at h
    split at h
    · rename_i fs per' h1 h2
      cases h
      intro gs hgs f hf
      rcases List.mem_cons.1 hgs with rfl | hgs
      · refine ⟨(c, i), by simp, ?_⟩
        split at h1
        · cases h1; simp at hf
        · unfold worker at h1
          split at h1
          · cases h1
          · exact makeResults_collection h1 f hf
      · obtain ⟨y, y1, y2⟩ := ih h2 gs hgs f hf
        exact ⟨y, by simp [y1], y2⟩
    · cases h

/-- the results that are kept are of collections that exist -/
def Stored (S : Settings σ) (st : State σ) : Prop :=
  ∀ k x, find k st.queries = some x → ∀ f ∈ x.results, f.collection < S.collections.length

theorem merged_collection {sched : Schedule} {text : Text} {per : List (List (Found σ))}
    (h : workers S sched text S.collections.zipIdx = some per) : ∀ f ∈ merge S per, f.collection < S.collections.length := by
  intro f hf
  have hf := (List.mergeSort_perm _ _).mem_iff.1 hf
  obtain ⟨fs, h1, h2⟩ := List.mem_flatten.1 hf
  obtain ⟨⟨c, i⟩, x1, x2⟩ := workers_collection h fs h1 f h2
  have := (mem_zipIdx_iff _ _ _).1 x1
  rw [x2]
  exact (List.getElem?_eq_some_iff.1 this).1

theorem effect_stored {sched : Schedule} {line : Text} {st st' : State σ} {r : Response} (h : Effect S sched line st r st')
    (hs : Stored S st) : Stored S st' := by
  cases h with
  | opened _ _ h3 _ _ _ _ =>
    intro k x hf
    rw [find_put] at hf
    split at hf
    · cases hf; exact merged_collection h3
    · exact hs k x hf
  | refused => exact hs
  | turned _ h2 _ _ _ =>
    intro k x hf
    rw [find_put] at hf
    split at hf
    · cases hf; exact fun f hf => hs _ _ h2 f hf
    · exact hs k x hf
  | over => exact hs
  | lost => exact hs
  | other => exact hs

theorem resultResponse_some {op qid : Text} {n : Nat} {f : Found σ} (h : f.collection < S.collections.length) :
    ∃ r, resultResponse S op qid n f = some r := by
  unfold resultResponse
  rw [List.getElem?_eq_getElem h]
  exact ⟨_, rfl⟩

theorem respond_sound (hs : S.sc.Lawful) (hsort : SortsBy S.sc S.sort) {sched : Schedule} (hc : ∀ i j, sched.cloned i j = true)
    {line : Text} {st : State σ} (hst : Stored S st) (h : Sound S line) : ∃ r st', respond S sched line st = .respond r st' := by
  unfold respond
  cases h with
  | notJson h => rw [h]; exact ⟨_, _, rfl⟩
  | @query text q k d n h hfit =>
    obtain ⟨m, h1, h2, h3⟩ := h
    rw [h1]; simp only [h2, h3, if_true]
    obtain ⟨per, w1, w2, -⟩ := bestOf_ok hs hsort hc hfit
    unfold query
    by_cases ht : text = []
    · rw [if_pos ht]; exact ⟨_, _, rfl⟩
    · rw [if_neg ht, w1]; simp only [w2]
      cases hm : merge S per with
      | nil => exact ⟨_, _, rfl⟩
      | cons f fs =>
        obtain ⟨r, hr⟩ := resultResponse_some (S := S) (op := opQuery) (qid := qidOf st.nextQid) (n := 1)
          (merged_collection w1 f (by rw [hm]; simp))
        simp only [hr]
        exact ⟨_, _, rfl⟩
  | @next qid h =>
    obtain ⟨m, h1, h2, h3⟩ := h
    rw [h1]; simp only [h2, h3, show ¬ opNext = opQuery by decide, if_false, if_true]
    unfold next
    cases hf : find qid st.queries with
    | none => exact ⟨_, _, rfl⟩
    | some x =>
      simp only
      cases hx : x.results[x.next]? with
      | none => exact ⟨_, _, rfl⟩
      | some f =>
        obtain ⟨r, hr⟩ := resultResponse_some (S := S) (op := opNext) (qid := qid) (n := x.next + 1)
          (hst qid x hf f (List.mem_of_getElem? hx))
        simp only [hr]
        exact ⟨_, _, rfl⟩
  | @document wanted d n docs fields h hl hf =>
    obtain ⟨m, h1, h2, h3⟩ := h
    rw [h1]; simp only [h2, h3, show ¬ opDocument = opQuery by decide, show ¬ opDocument = opNext by decide, if_false, if_true]
    by_cases hne : wanted = []
    · subst hne
      refine ⟨.error opDocument missingDocno, st, ?_⟩
      unfold Server.document; rw [if_pos rfl]; rfl
    · obtain ⟨r, hr, -⟩ := document_ok hne hl hf
      rw [hr]; exact ⟨_, _, rfl⟩
  | other h g1 g2 g3 =>
    obtain ⟨m, h1, h2, -⟩ := h
    rw [h1]; simp only [h2, g1, g2, g3, if_false]
    exact ⟨_, _, rfl⟩

theorem handle_sound (hs : S.sc.Lawful) (hsort : SortsBy S.sc S.sort) (hu : ∀ x, S.utf8 x = true) :
    ∀ {ts : List Turn}, (∀ t ∈ ts, Sound S t.line ∧ (∀ i j, t.sched.cloned i j = true) ∧ t.sent = .taken) → ∀ {st : State σ}, Stored S st →
    (handle S ts st).fate = .alive ∧ Stored S (handle S ts st).state ∧
    (handle S ts st).records.map (·.line) = ts.map (·.line) ∧ ∀ r ∈ (handle S ts st).records, r.got = true := by
  intro ts
  induction ts with
  | nil => intro _ st hst; exact ⟨rfl, hst, rfl, by simp [handle]⟩
  | cons t ts ih =>
    intro h st hst
    obtain ⟨t1, t2, t3⟩ := h t (by simp)
    obtain ⟨r, st', hr⟩ := respond_sound hs hsort t2 hst t1
    obtain ⟨i1, i2, i3, i4⟩ := ih (fun t ht => h t (by simp [ht])) (effect_stored (respond_effect hr) hst)
    have : r.texts.all S.utf8 = true := by rw [List.all_eq_true]; exact fun x _ => hu x
    have e : handle S (t :: ts) st = { handle S ts st' with records := ⟨t.line, r, true⟩ :: (handle S ts st').records } := by
      rw [handle, hr]; simp only [this, if_true, t3]
    rw [e]
    refine ⟨i1, i2, by simp [i3], fun r hr => ?_⟩
    rcases List.mem_cons.1 hr with rfl | hr
    · rfl
    · exact i4 r hr

theorem serve_sound (hs : S.sc.Lawful) (hsort : SortsBy S.sc S.sort) (hu : ∀ x, S.utf8 x = true) :
    ∀ {cs : List (List Turn)}, (∀ c ∈ cs, ∀ t ∈ c, Sound S t.line ∧ (∀ i j, t.sched.cloned i j = true) ∧ t.sent = .taken) →
    ∀ {st : State σ}, Stored S st →
    (serve S cs st).fate = .alive ∧ (serve S cs st).records.map (·.line) = cs.flatten.map (·.line) ∧
    ∀ r ∈ (serve S cs st).records, r.got = true := by
  intro cs
  induction cs with
  | nil => intro _ st _; exact ⟨rfl, rfl, by simp [serve]⟩
  | cons c cs ih =>
    intro h st hst
    obtain ⟨a1, a2, a3, a4⟩ := handle_sound hs hsort hu (h c (by simp)) hst
    obtain ⟨b1, b2, b3⟩ := ih (fun c hc => h c (by simp [hc])) a2
    have e : serve S (c :: cs) st = { serve S cs (handle S c st).state with
        records := (handle S c st).records ++ (serve S cs (handle S c st).state).records } := by
      rw [serve]; simp only [a1]
    rw [e]
    refine ⟨b1, by simp [a3, b2], fun r hr => ?_⟩
    rcases List.mem_append.1 hr with hr | hr
    · exact a4 r hr
    · exact b3 r hr

/-! ### lines -/

theorem linesFrom_part (fails : Bool) (rest : Text) : ∀ {l : Text} (cur : Text), '\n' ∉ l → '\r' ∉ l →
    linesFrom fails cur (l ++ rest) = linesFrom fails (cur ++ l) rest := by
  intro l
  induction l with
  | nil => intro cur _ _; simp
  | cons c l ih =>
    intro cur h1 h2
    simp only [List.mem_cons, not_or] at h1 h2
    rw [List.cons_append, linesFrom, if_neg (Ne.symm h1.1), if_neg (Ne.symm h2.1), ih _ h1.2 h2.2]
    simp

theorem lines_writes {text rest : Text} {ls : List Text} (fails : Bool) (h : WritesLines text ls) :
    lines fails (text ++ rest) = ls ++ lines fails rest := by
  induction h with
  | nil => rfl
  | @cons l eol text ls h1 h2 h3 _ ih =>
    unfold lines at *
    rw [List.append_assoc, List.append_assoc, linesFrom_part fails _ [] h1 h2]
    rcases h3 with rfl | rfl
    · simp [linesFrom, ih]
    · simp [linesFrom, ih]

end
end Verif.Server
