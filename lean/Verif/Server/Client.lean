import Verif.Server.Lives
/-
  Model of the terminal program apps/ssr-client.cc, together with the server.

  What the client sends is parsed back by the server as it is, and the other way round (`Faithful`).  Failures of the
  connection are left out.
-/
namespace Verif.Server
open Verif.Hopper Verif.Gcl Verif.Rank Verif.Props

/-- ssr-client.cc 131-132 -/
structure Client where
  qid : Text := []
  docno : Text := []

/-- what appears on the terminal -/
inductive Shown
  | nothing
  | noDocument
  | error (e : Text)
  | text (t : Text)

def inNext : Text := ['@', 'n', 'e', 'x', 't']
def inFull : Text := ['@', 'f', 'u', 'l', 'l']

/-- ssr-client.cc 139-156: what is sent for a line that is typed, or what is shown instead -/
def request (input : Text) (c : Client) : Except Shown (List (Text × Val)) :=
  if input = [] ∨ input = inNext then
    if c.qid = [] then .error .nothing else .ok [(keyOp, .str opNext), (keyQid, .str c.qid)]
  else if input = inFull then
    if c.docno = [] then .error .noDocument else .ok [(keyDocno, .str c.docno), (keyOp, .str opDocument)]
  else .ok [(keyOp, .str opQuery), (opQuery, .str input)]

/-- ssr-client.cc 86-115 `print_record` -/
def answer (r : Response) (c : Client) : Shown × Client :=
  match r with
  | .error _ e => (.error e, c)
  | .done op qid => (.nothing, if op = opQuery then { c with qid := qid } else c)
  | .result _ qid _ _ docno snippet => (.text snippet, ⟨qid, docno⟩)
  | .document _ docno text => (.text text, { c with docno := docno })

section
variable {σ : Type} (S : Settings σ) (dump : List (Text × Val) → Text)

/-- ssr-client.cc 134-164: the lines that are typed, with a server that has no other client meanwhile; what is shown for
each, and what client and server know in the end.  The program ends if the server has gone, or if a line is not UTF-8. -/
def session : List (Text × Schedule) → Client → State σ → List Shown × Client × State σ
  | [], c, st => ([], c, st)
  | (input, sched) :: rest, c, st =>
    match request input c with
    | .error shown =>
      let x := session rest c st
      (shown :: x.1, x.2)
    | .ok members =>
      if S.utf8 input then
        match respond S sched (dump members) st with
        | .respond r st' =>
          if r.texts.all S.utf8 then
            let x := session rest (answer r c).2 st'
            ((answer r c).1 :: x.1, x.2)
          else ([], c, st)
        | _ => ([], c, st)
      else ([], c, st)

/-! ### specification -/

/-- what is sent is read as it was meant, and everything is UTF-8 -/
structure Faithful : Prop where
  parse : ∀ input c members, request input c = .ok members → S.parse (dump members) = .object members
  utf8 : ∀ x, S.utf8 x = true

/-- what the document with the number looks like -/
inductive FullOf (docno : Text) : Shown → Prop
  | none : docno = [] → FullOf docno .noDocument
  | text {burrow t} : docno ≠ [] → document S docno = some (.document burrow docno t) → FullOf docno (.text t)
  | error {e} : docno ≠ [] → document S docno = some (.error opDocument e) → FullOf docno (.error e)

/-- what is shown for lines that are typed after `n` passages of a ranking have been shown: the passages one after the
other, and the document of the last passage shown -/
inductive Turns (R : List (Found σ)) : Nat → List Text → List Shown → Prop
  | nil {n} : Turns R n [] []
  | passage {n input f c ins outs} : input = [] ∨ input = inNext → R[n]? = some f → S.collections[f.collection]? = some c →
      Turns R (n + 1) ins outs → Turns R n (input :: ins) (.text (snippet c f.ranking) :: outs)
  | over {n input ins outs} : input = [] ∨ input = inNext → R.length ≤ n → Turns R n ins outs →
      Turns R n (input :: ins) (.nothing :: outs)
  | full {n f shown ins outs} : R[n]? = some f → FullOf S f.docno shown → Turns R (n + 1) ins outs →
      Turns R (n + 1) (inFull :: ins) (shown :: outs)

/-! ### proof -/

variable {S} {dump}

theorem document_docno {docno : Text} {r : Response} (h : document S docno = some r) :
    (∃ burrow t, r = .document burrow docno t) ∨ ∃ e, r = .error opDocument e := by
  unfold document at h
  split at h
  · cases h; exact .inr ⟨_, rfl⟩
  · split at h
    · cases h
    · cases h; exact .inr ⟨_, rfl⟩
    · cases h; exact .inr ⟨_, rfl⟩
    · split at h
      · cases h
      · split at h
        · cases h
        · cases h; exact .inr ⟨_, rfl⟩
        · cases h; exact .inl ⟨_, _, rfl⟩

/-- a session of `next` and `full` -/
theorem session_turns (hf : Faithful S dump) {qid : Text} (hq : qid ≠ []) {R : List (Found σ)}
    (hdoc : ∀ f ∈ R, f.docno ≠ [] → document S f.docno ≠ none) :
    ∀ {inputs : List (Text × Schedule)}, (∀ x ∈ inputs, x.1 = [] ∨ x.1 = inNext ∨ x.1 = inFull) →
    ∀ {n : Nat} {f : Found σ} {st : State σ}, R[n]? = some f → Stored S st → find qid st.queries = some ⟨R, n + 1⟩ →
    Turns S R (n + 1) (inputs.map (·.1)) (session S dump inputs ⟨qid, f.docno⟩ st).1 := by
  intro inputs
  induction inputs with
  | nil => intro _ n f st _ _ _; exact .nil
  | cons x inputs ih =>
    obtain ⟨input, sched⟩ := x
    intro hi n f st hR hst hfind
    have hrest := fun x hx => hi x (List.mem_cons_of_mem _ hx)
    have hall : ∀ r : Response, r.texts.all S.utf8 = true := by
      intro r; rw [List.all_eq_true]; exact fun x _ => hf.utf8 x
    have hlt := (List.getElem?_eq_some_iff.1 hR).1
    rw [List.map_cons]
    by_cases hin : input = [] ∨ input = inNext
    · unfold session request
      rw [if_pos hin, if_neg hq]
      simp only [hf.utf8, if_true]
      have hresp : respond S sched (dump [(keyOp, .str opNext), (keyQid, .str qid)]) st = .of (next S qid st) := by
        unfold respond; rw [hf.parse [] ⟨qid, []⟩ _ (by simp [request, hq])]; rfl
      rw [hresp]
      unfold next
      rw [hfind]
      simp only
      cases hg : R[n + 1]? with
      | none =>
        simp only [Outcome.of, hall, if_true, answer, show ¬ opNext = opQuery by decide, if_false]
        exact .over hin (List.getElem?_eq_none_iff.1 hg) (ih hrest hR hst hfind)
      | some g =>
        simp only
        have hlt2 := hst qid _ hfind g (List.mem_of_getElem? hg)
        have hc := List.getElem?_eq_getElem hlt2
        unfold resultResponse
        rw [hc]
        simp only [Outcome.of, hall, if_true, answer]
        refine .passage hin hg hc (ih hrest hg ?_ (by rw [find_put, if_pos rfl]))
        intro k x hk
        rw [find_put] at hk
        split at hk
        · cases hk; exact fun f hf => hst _ _ hfind f hf
        · exact hst k x hk
    · have hfull : input = inFull := by
        rcases hi (input, sched) (by simp) with h | h | h
        · exact absurd (.inl h) hin
        · exact absurd (.inr h) hin
        · exact h
      subst hfull
      unfold session request
      rw [if_neg hin, if_pos rfl]
      by_cases hd : f.docno = []
      · rw [if_pos hd]
        exact .full hR (.none hd) (ih hrest hR hst hfind)
      · rw [if_neg hd]
        simp only [hf.utf8, if_true]
        have hresp : respond S sched (dump [(keyDocno, .str f.docno), (keyOp, .str opDocument)]) st =
            .of ((document S f.docno).map fun r => (r, st)) := by
          unfold respond
          rw [hf.parse inFull ⟨[], f.docno⟩ _ (by unfold request; rw [if_neg (by decide), if_pos rfl, if_neg hd])]; rfl
        rw [hresp]
        cases hx : document S f.docno with
        | none => exact absurd hx (hdoc _ (List.mem_of_getElem? hR) hd)
        | some r =>
          simp only [Option.map_some, Outcome.of, hall, if_true]
          rcases document_docno hx with ⟨b, t, rfl⟩ | ⟨e, rfl⟩
          · exact .full hR (.text hd hx) (ih hrest hR hst hfind)
          · exact .full hR (.error hd hx) (ih hrest hR hst hfind)

/-- a query without passages, and what follows -/
theorem session_over (hf : Faithful S dump) {qid : Text} (hq : qid ≠ []) {docno : Text} :
    ∀ {inputs : List (Text × Schedule)}, (∀ x ∈ inputs, x.1 = [] ∨ x.1 = inNext) →
    ∀ {st : State σ}, find qid st.queries = some ⟨[], 0⟩ →
    Turns S [] 0 (inputs.map (·.1)) (session S dump inputs ⟨qid, docno⟩ st).1 := by
  intro inputs
  induction inputs with
  | nil => intro _ st _; exact .nil
  | cons x inputs ih =>
    obtain ⟨input, sched⟩ := x
    intro hi st hfind
    have hall : ∀ r : Response, r.texts.all S.utf8 = true := by
      intro r; rw [List.all_eq_true]; exact fun x _ => hf.utf8 x
    have hin : input = [] ∨ input = inNext := hi (input, sched) (by simp)
    unfold session request
    rw [if_pos hin, if_neg hq]
    simp only [hf.utf8, if_true]
    have hresp : respond S sched (dump [(keyOp, .str opNext), (keyQid, .str qid)]) st = .of (next S qid st) := by
      unfold respond; rw [hf.parse [] ⟨qid, []⟩ _ (by simp [request, hq])]; rfl
    rw [hresp]
    unfold next
    rw [hfind]
    simp only [List.getElem?_nil, Outcome.of, hall, if_true, answer, show ¬ opNext = opQuery by decide, if_false]
    exact .over hin (Nat.le_refl _) (ih (fun x hx => hi x (List.mem_cons_of_mem _ hx)) hfind)

/-- a query and what follows -/
theorem session_query (hf : Faithful S dump) {text : Text} (h1 : text ≠ []) (h2 : text ≠ inNext)
    (h3 : text ≠ inFull) {sched : Schedule} {per : List (List (Found σ))} (hw : workers S sched text S.collections.zipIdx = some per)
    (he : firstError S text sched.order = none) (hdoc : ∀ f ∈ merge S per, f.docno ≠ [] → document S f.docno ≠ none)
    {inputs : List (Text × Schedule)} (c : Client) {st : State σ} (hst : Stored S st) :
    (merge S per = [] ∧ ((∀ x ∈ inputs, x.1 = [] ∨ x.1 = inNext) → ∃ outs,
      (session S dump ((text, sched) :: inputs) c st).1 = .nothing :: outs ∧ Turns S [] 0 (inputs.map (·.1)) outs)) ∨
    ∃ f d, (merge S per)[0]? = some f ∧ S.collections[f.collection]? = some d ∧
      ((∀ x ∈ inputs, x.1 = [] ∨ x.1 = inNext ∨ x.1 = inFull) → ∃ outs,
        (session S dump ((text, sched) :: inputs) c st).1 = .text (snippet d f.ranking) :: outs ∧
        Turns S (merge S per) 1 (inputs.map (·.1)) outs) := by
  have hall : ∀ r : Response, r.texts.all S.utf8 = true := by
    intro r; rw [List.all_eq_true]; exact fun x _ => hf.utf8 x
  have hresp : respond S sched (dump [(keyOp, .str opQuery), (opQuery, .str text)]) st = .of (query S sched text st) := by
    unfold respond; rw [hf.parse text {} _ (by unfold request; rw [if_neg (by simp [h1, h2]), if_neg h3])]; rfl
  have stored := fun r st' (h : respond S sched (dump [(keyOp, .str opQuery), (opQuery, .str text)]) st = .respond r st') =>
    effect_stored (respond_effect h) hst
  have hses : ∀ r st', query S sched text st = some (r, st') → (session S dump ((text, sched) :: inputs) c st).1 =
      (answer r c).1 :: (session S dump inputs (answer r c).2 st').1 := by
    intro r st' hq
    have e := hresp
    rw [hq] at e
    have er : request text c = .ok [(keyOp, .str opQuery), (opQuery, .str text)] := by
      unfold request; rw [if_neg (by simp [h1, h2]), if_neg h3]
    rw [session, er]
    simp only [hf.utf8, if_true, e, Outcome.of, hall]
  cases hmm : merge S per with
  | nil =>
    left
    refine ⟨rfl, fun hi => ?_⟩
    have hq : query S sched text st = some (.done opQuery (qidOf st.nextQid),
        { queries := put (qidOf st.nextQid) ⟨[], 0⟩ st.queries, nextQid := (st.nextQid + 1) % 2 ^ 64 }) := by
      unfold query; rw [if_neg h1, hw]; simp only [he, hmm]
    rw [hses _ _ hq]
    exact ⟨_, rfl, session_over hf (by simp [qidOf]) hi (by rw [find_put, if_pos rfl])⟩
  | cons f fs =>
    right
    have hlt := merged_collection hw f (by rw [hmm]; simp)
    have hc := List.getElem?_eq_getElem hlt
    refine ⟨f, _, rfl, hc, fun hi => ?_⟩
    have hq : query S sched text st = some (.result opQuery (qidOf st.nextQid) 1 S.collections[f.collection].burrow f.docno
        (snippet S.collections[f.collection] f.ranking),
        { queries := put (qidOf st.nextQid) ⟨f :: fs, 1⟩ st.queries, nextQid := (st.nextQid + 1) % 2 ^ 64 }) := by
      unfold query; rw [if_neg h1, hw]; simp only [he, hmm, resultResponse, hc]
    rw [hses _ _ hq]
    rw [hresp, hq] at stored
    exact ⟨_, rfl, session_turns hf (by simp [qidOf]) (by rw [← hmm]; exact hdoc) hi (R := f :: fs) (n := 0) (f := f) rfl
      (stored _ _ rfl) (by rw [find_put, if_pos rfl])⟩

theorem handle_stored : ∀ {ts : List Turn} {st : State σ}, Stored S st → Stored S (handle S ts st).state := by
  intro ts
  induction ts with
  | nil => intro st h; exact h
  | cons t ts ih =>
    intro st h
    unfold handle
    split
    · exact h
    · exact h
    · rename_i r st' e
      have h' := effect_stored (respond_effect e) h
      split
      · split
        · exact h'
        · exact ih h'
        · split
          · exact ih h'
          · exact h'
      · exact h'

theorem serve_stored : ∀ {cs : List (List Turn)} {st : State σ}, Stored S st → Stored S (serve S cs st).state := by
  intro cs
  induction cs with
  | nil => intro st h; exact h
  | cons c cs ih =>
    intro st h
    unfold serve
    dsimp only
    split
    · exact ih (handle_stored h)
    · exact handle_stored h

theorem session_stored : ∀ {inputs : List (Text × Schedule)} {c : Client} {st : State σ}, Stored S st →
    Stored S (session S dump inputs c st).2.2 := by
  intro inputs
  induction inputs with
  | nil => intro c st h; exact h
  | cons x inputs ih =>
    intro c st h
    unfold session
    split
    · exact ih h
    · split
      · split
        · rename_i r st' e
          split
          · exact ih (effect_stored (respond_effect e) h)
          · exact h
        · exact h
      · exact h

theorem session_length : ∀ (inputs : List (Text × Schedule)) (c : Client) (st : State σ),
    (session S dump inputs c st).1.length ≤ inputs.length := by
  intro inputs
  induction inputs with
  | nil => intro c st; exact Nat.le_refl _
  | cons x inputs ih =>
    intro c st
    unfold session
    split
    · simp only [List.length_cons]; exact Nat.succ_le_succ (ih _ _)
    · split
      · split
        · split
          · simp only [List.length_cons]; exact Nat.succ_le_succ (ih _ _)
          · simp
        · simp
      · simp

/-- a session goes on from where it is -/
theorem session_append : ∀ {a b : List (Text × Schedule)} {c : Client} {st : State σ}, (session S dump a c st).1.length = a.length →
    session S dump (a ++ b) c st = ((session S dump a c st).1 ++ (session S dump b (session S dump a c st).2.1 (session S dump a c st).2.2).1,
      (session S dump b (session S dump a c st).2.1 (session S dump a c st).2.2).2) := by
  intro a
  induction a with
  | nil => intro b c st _; simp [session]
  | cons x a ih =>
    obtain ⟨input, sched⟩ := x
    intro b c st h
    rw [List.cons_append]
    cases e : request input c with
    | error shown =>
      have eq : ∀ l, session S dump ((input, sched) :: l) c st = (shown :: (session S dump l c st).1, (session S dump l c st).2) := by
        intro l; rw [session, e]
      rw [eq] at h ⊢
      rw [eq]
      simp only [List.length_cons, Nat.add_right_cancel_iff] at h
      rw [ih h]
      rfl
    | ok members =>
      have stop : ∀ l, (S.utf8 input = false ∨ (∀ r st', respond S sched (dump members) st ≠ .respond r st') ∨
          ∃ r st', respond S sched (dump members) st = .respond r st' ∧ r.texts.all S.utf8 = false) →
          session S dump ((input, sched) :: l) c st = ([], c, st) := by
        intro l hl
        rw [session, e]
        simp only
        rcases hl with hl | hl | ⟨r, st', hl, hl'⟩
        · rw [hl]; rfl
        · cases hr : respond S sched (dump members) st with
          | respond r st' => exact absurd hr (hl r st')
          | undefined => simp
          | uncaught => simp
        · rw [hl]; simp [hl']
      by_cases hu : S.utf8 input = true
      · cases hr : respond S sched (dump members) st with
        | respond r st' =>
          cases ht : r.texts.all S.utf8 with
          | true =>
            have eq : ∀ l, session S dump ((input, sched) :: l) c st =
                ((answer r c).1 :: (session S dump l (answer r c).2 st').1, (session S dump l (answer r c).2 st').2) := by
              intro l; rw [session, e]; simp only [hu, if_true, hr, ht]
            rw [eq] at h ⊢
            rw [eq]
            simp only [List.length_cons, Nat.add_right_cancel_iff] at h
            rw [ih h]
            rfl
          | false => rw [stop _ (.inr (.inr ⟨r, st', hr, ht⟩))] at h; simp at h
        | undefined => rw [stop _ (.inr (.inl (by rw [hr]; simp)))] at h; simp at h
        | uncaught => rw [stop _ (.inr (.inl (by rw [hr]; simp)))] at h; simp at h
      · rw [stop _ (.inl (by simpa using hu))] at h; simp at h

end
end Verif.Server
