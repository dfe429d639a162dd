import Verif.Props.Server
import Verif.Server.Client
/-
  Properties of the terminal program for the search server (C87).
-/
namespace Verif.Props
open Verif.Hopper Verif.Gcl Verif.Rank Verif.Server
open Verif.Judge (trecDocno)

section
variable {σ : Type} {S : Settings σ} {dump : List (Text × Val) → Text}

/-- every number that the texts of the collections give can be looked up -/
structure NumbersAskable (S : Settings σ) (d n : SExpr) (docs : Nat → List NumberedDoc) (fields : List SExpr) : Prop where
  library : ∀ c ∈ S.collections, ∀ p q, Library S d n (trecDocno (S.untag (c.translate p q))) docs
  fields : FieldsRead S fields

theorem makeResults_docno {c : Collection} {i : Nat} : ∀ {rs : List (Result σ)} {fs : List (Found σ)},
    makeResults S c i rs = some fs → ∀ f ∈ fs, ∃ p q, f.docno = trecDocno (S.untag (c.translate p q)) := by
  intro rs
  induction rs with
  | nil => intro fs h; cases h; simp
  | cons r rs ih =>
    intro fs h
    unfold makeResults at h
    have one : ∀ f, makeResult S c i r = some (some f) → ∃ p q, f.docno = trecDocno (S.untag (c.translate p q)) := by
      intro f hf
      unfold makeResult at hf
      split at hf <;> try cases hf
      split at hf <;> try cases hf
      rename_i e
      unfold docnoIn at e
      split at e
      · cases e
      · split at e
        · cases e
        · rename_i a s _
          simp only [Option.some.injEq] at e
          split at e
          · cases e
          · cases e; exact ⟨_, _, rfl⟩
    split at h
    · rename_i f fs' h1 h2
      cases h
      intro g hg
      rcases List.mem_cons.1 hg with rfl | hg
      · exact one g h1
      · exact ih h2 g hg
    · rename_i fs' h1 h2
      cases h
      exact ih h2
    · cases h

theorem workers_docno {sched : Schedule} {text : Text} : ∀ {l : List (Collection × Nat)} {per : List (List (Found σ))},
    workers S sched text l = some per → ∀ fs ∈ per, ∀ f ∈ fs, ∃ x ∈ l, ∃ p q, f.docno = trecDocno (S.untag (x.1.translate p q)) := by
  intro l
  induction l with
  | nil => intro per h; cases h; simp
  | cons x l ih =>
    obtain ⟨c, i⟩ := x
    intro per h
    unfold workers at h
    split at h
    · rename_i fs per' h1 h2
      cases h
      intro gs hgs f hf
      rcases List.mem_cons.1 hgs with rfl | hgs
      · refine ⟨(c, i), by simp, ?_⟩
        split at h1
        · cases h1; simp at hf
        · unfold worker at h1
          split at h1
          · cases h1
          · exact makeResults_docno h1 f hf
      · obtain ⟨y, y1, y2⟩ := ih h2 gs hgs f hf
        exact ⟨y, by simp [y1], y2⟩
    · cases h

/-- **C87 (partial).** After whatever other clients and this one have asked before: a query shows the first passage of its
ranking; typing nothing or `@next` shows the passages after it, one at a time, then nothing; and `@full` shows the document
of the last passage shown.  What is missing: what follows a query that is refused (`C87_stale_next`) and `@full` after a
query without passages (`C87_stale_full`). -/
theorem C87_session_partial (hf : Faithful S dump) (hs : S.sc.Lawful) (hsort : SortsBy S.sc S.sort) {text : Text} (h1 : text ≠ [])
    (h2 : text ≠ inNext) (h3 : text ≠ inFull) {q k d n : SExpr} (hfit : ∀ c ∈ S.collections, Fit S text q k d n c)
    {docs : Nat → List NumberedDoc} {fields : List SExpr} (hask : NumbersAskable S d n docs fields)
    (clients : List (List Turn)) (earlier : List (Text × Schedule))
    (hopen : (session S dump earlier {} (serve S clients {}).state).1.length = earlier.length)
    {sched : Schedule} (hc : ∀ i j, sched.cloned i j = true) {inputs : List (Text × Schedule)}
    (hi : ∀ x ∈ inputs, x.1 = [] ∨ x.1 = inNext ∨ x.1 = inFull) :
    ∃ R per, BestOf S q k d n R per ∧
      ((R = [] ∧ ((∀ x ∈ inputs, x.1 ≠ inFull) → ∃ outs,
        (session S dump (earlier ++ (text, sched) :: inputs) {} (serve S clients {}).state).1 =
          (session S dump earlier {} (serve S clients {}).state).1 ++ .nothing :: outs ∧
        Turns S [] 0 (inputs.map (·.1)) outs)) ∨
      ∃ f c outs, R[0]? = some f ∧ S.collections[f.collection]? = some c ∧
        (session S dump (earlier ++ (text, sched) :: inputs) {} (serve S clients {}).state).1 =
          (session S dump earlier {} (serve S clients {}).state).1 ++ .text (snippet c f.ranking) :: outs ∧
        Turns S R 1 (inputs.map (·.1)) outs) := by
  obtain ⟨per, w1, w2, w3⟩ := bestOf_ok hs hsort hc hfit
  refine ⟨_, per, w3, ?_⟩
  rw [session_append hopen]
  have hst : Stored S (session S dump earlier {} (serve S clients {}).state).2.2 :=
    session_stored (serve_stored fun k x hk => by cases hk)
  have hdoc : ∀ f ∈ merge S per, f.docno ≠ [] → document S f.docno ≠ none := by
    intro f hm hne
    have hm := (List.mergeSort_perm _ _).mem_iff.1 hm
    obtain ⟨fs, g1, g2⟩ := List.mem_flatten.1 hm
    obtain ⟨⟨c, i⟩, x1, p, q, x2⟩ := workers_docno w1 fs g1 f g2
    have hcm := List.mem_of_getElem? ((mem_zipIdx_iff _ _ _).1 x1)
    rw [x2] at hne ⊢
    obtain ⟨r, hr, -⟩ := document_ok hne (hask.library c hcm p q) hask.fields
    rw [hr]; simp
  rcases session_query hf h1 h2 h3 w1 w2 hdoc (inputs := inputs) _ hst with ⟨e, h⟩ | ⟨f, c, e1, e2, h⟩
  · left
    refine ⟨e, fun hno => ?_⟩
    obtain ⟨outs, o1, o2⟩ := h (fun x hx => by
      rcases hi x hx with h | h | h
      · exact .inl h
      · exact .inr h
      · exact absurd h (hno x hx))
    exact ⟨outs, by rw [o1], o2⟩
  · right
    obtain ⟨outs, o1, o2⟩ := h hi
    exact ⟨f, c, outs, e1, e2, by rw [o1], o2⟩

/-- **C87 (violated).** After a query that is refused, typing nothing shows the next passage of the query before it. -/
theorem C87_stale_next (hf : Faithful S dump) {st : State σ} {qid docno : Text} {R : List (Found σ)} {k : Nat} {f : Found σ} {c : Collection}
    (hq : find qid st.queries = some ⟨R, k⟩) (hne : qid ≠ []) (hk : R[k]? = some f) (hc : S.collections[f.collection]? = some c)
    {text e : Text} (h1 : text ≠ []) (h2 : text ≠ inNext) (h3 : text ≠ inFull) {sched : Schedule}
    {per : List (List (Found σ))} (hw : workers S sched text S.collections.zipIdx = some per)
    (he : firstError S text sched.order = some e) (sched' : Schedule) :
    (session S dump [(text, sched), ([], sched')] ⟨qid, docno⟩ st).1 = [.error e, .text (snippet c f.ranking)] := by
  have hall : ∀ r : Response, r.texts.all S.utf8 = true := by
    intro r; rw [List.all_eq_true]; exact fun x _ => hf.utf8 x
  have r1 : request text ⟨qid, docno⟩ = .ok [(keyOp, .str opQuery), (opQuery, .str text)] := by
    unfold request; rw [if_neg (by simp [h1, h2]), if_neg h3]
  have r2 : request [] ⟨qid, docno⟩ = .ok [(keyOp, .str opNext), (keyQid, .str qid)] := by
    unfold request; rw [if_pos (.inl rfl), if_neg hne]
  have e1 : respond S sched (dump [(keyOp, .str opQuery), (opQuery, .str text)]) st = .respond (.error opQuery e) st := by
    unfold respond
    rw [hf.parse _ _ _ r1]
    show Outcome.of (query S sched text st) = _
    unfold query; rw [if_neg h1, hw]; simp only [he]; rfl
  have e2 : respond S sched' (dump [(keyOp, .str opNext), (keyQid, .str qid)]) st = .respond
      (.result opNext qid (k + 1) c.burrow f.docno (snippet c f.ranking)) { st with queries := put qid ⟨R, k + 1⟩ st.queries } := by
    unfold respond
    rw [hf.parse _ _ _ r2]
    show Outcome.of (Server.next S qid st) = _
    unfold Server.next; rw [hq]; simp only [hk, resultResponse, hc]; rfl
  rw [session, r1]
  simp only [hf.utf8, if_true, e1, hall, answer]
  rw [session, r2]
  simp only [hf.utf8, if_true, e2, hall, answer, session]

/-- **C87 (violated).** After a query without passages, `@full` shows the document of an earlier query. -/
theorem C87_stale_full (hf : Faithful S dump) {st : State σ} {qid docno burrow t : Text} (hd : docno ≠ [])
    {text : Text} (h1 : text ≠ []) (h2 : text ≠ inNext) (h3 : text ≠ inFull) {sched : Schedule}
    {per : List (List (Found σ))} (hw : workers S sched text S.collections.zipIdx = some per)
    (he : firstError S text sched.order = none) (hm : merge S per = []) (ht : document S docno = some (.document burrow docno t))
    (sched' : Schedule) :
    (session S dump [(text, sched), (inFull, sched')] ⟨qid, docno⟩ st).1 = [.nothing, .text t] := by
  have hall : ∀ r : Response, r.texts.all S.utf8 = true := by
    intro r; rw [List.all_eq_true]; exact fun x _ => hf.utf8 x
  have r1 : request text ⟨qid, docno⟩ = .ok [(keyOp, .str opQuery), (opQuery, .str text)] := by
    unfold request; rw [if_neg (by simp [h1, h2]), if_neg h3]
  have r2 : ∀ x, request inFull ⟨x, docno⟩ = .ok [(keyDocno, .str docno), (keyOp, .str opDocument)] := by
    intro x; unfold request; rw [if_neg (by decide), if_pos rfl, if_neg hd]
  have e1 : respond S sched (dump [(keyOp, .str opQuery), (opQuery, .str text)]) st = .respond (.done opQuery (qidOf st.nextQid))
      { queries := put (qidOf st.nextQid) ⟨[], 0⟩ st.queries, nextQid := (st.nextQid + 1) % 2 ^ 64 } := by
    unfold respond
    rw [hf.parse _ _ _ r1]
    show Outcome.of (query S sched text st) = _
    unfold query; rw [if_neg h1, hw]; simp only [he, hm]; rfl
  have e2 : ∀ st, respond S sched' (dump [(keyDocno, .str docno), (keyOp, .str opDocument)]) st = .respond (.document burrow docno t) st := by
    intro st
    unfold respond
    rw [hf.parse _ _ _ (r2 [])]
    show Outcome.of ((document S docno).map fun r => (r, st)) = _
    rw [ht]; rfl
  rw [session, r1]
  simp only [hf.utf8, if_true, e1, hall, answer]
  rw [session, r2]
  simp only [hf.utf8, if_true, e2, hall, answer, session]

/-- **C87 (violated).** A line that is not UTF-8 ends the program, with what was typed after it. -/
theorem C87_not_utf8 {input : Text} (h1 : input ≠ []) (h2 : input ≠ inNext) (h3 : input ≠ inFull) (hu : S.utf8 input = false)
    (sched : Schedule) (rest : List (Text × Schedule)) (c : Client) (st : State σ) :
    (session S dump ((input, sched) :: rest) c st).1 = [] := by
  have r1 : request input c = .ok [(keyOp, .str opQuery), (opQuery, .str input)] := by
    unfold request; rw [if_neg (by simp [h1, h2]), if_neg h3]
  rw [session, r1]
  simp [hu]

end

/-! ### the hypotheses are met -/

/-- the members one after the other, each with its length in front -/
def plainDump : List (Text × Val) → Text := fun m => m.flatMap fun x =>
  match x with
  | (k, .str v) => List.replicate k.length 'k' ++ [':'] ++ k ++ List.replicate v.length 'v' ++ [':'] ++ v
  | _ => []

def unary (u : Char) : Text → Option (Nat × Text)
  | [] => none
  | c :: s => if c = u then (unary u s).map fun x => (x.1 + 1, x.2) else if c = ':' then some (0, s) else none

def plainMember (s : Text) : Option ((Text × Val) × Text) :=
  match unary 'k' s with
  | none => none
  | some (n, s) =>
    match unary 'v' (s.drop n) with
    | none => none
    | some (m, t) => some ((s.take n, .str (t.take m)), t.drop m)

def plainParse (s : Text) : Parsed :=
  match plainMember s with
  | none => .bad ['?']
  | some (a, s) =>
    match plainMember s with
    | none => .bad ['?']
    | some (b, _) => .object [a, b]

theorem unary_replicate (u : Char) (hu : u ≠ ':') (n : Nat) (s : Text) : unary u (List.replicate n u ++ ':' :: s) = some (n, s) := by
  induction n with
  | zero => simp [unary, Ne.symm hu]
  | succ n ih => simp [List.replicate_succ, unary, ih]

theorem plain_round (a b x y : Text) : plainParse (plainDump [(a, .str x), (b, .str y)]) = .object [(a, .str x), (b, .str y)] := by
  have one : ∀ (k v rest : Text), plainMember (List.replicate k.length 'k' ++ [':'] ++ k ++ List.replicate v.length 'v' ++ [':'] ++ v ++ rest) =
      some ((k, .str v), rest) := by
    intro k v rest
    unfold plainMember
    have e : List.replicate k.length 'k' ++ [':'] ++ k ++ List.replicate v.length 'v' ++ [':'] ++ v ++ rest =
        List.replicate k.length 'k' ++ ':' :: (k ++ (List.replicate v.length 'v' ++ ':' :: (v ++ rest))) := by simp
    rw [e, unary_replicate _ (by decide)]
    simp only [List.drop_left, List.take_left]
    rw [unary_replicate _ (by decide)]
    simp
  unfold plainParse plainDump
  simp only [List.flatMap_cons, List.flatMap_nil, List.append_nil]
  rw [one]
  have := one b y []
  rw [List.append_nil] at this
  simp only [this]

/-- a server that understands what its client says -/
def plainServer : Settings Rat := { numberServer with parse := plainParse }

theorem plain_faithful : Faithful plainServer plainDump where
  parse := by
    intro input c members h
    have pe : plainServer.parse = plainParse := rfl
    unfold request at h
    split at h
    · split at h
      · cases h
      · cases h; rw [pe]; exact plain_round _ _ _ _
    · split at h
      · split at h
        · cases h
        · cases h; rw [pe]; exact plain_round _ _ _ _
      · cases h; rw [pe]; exact plain_round _ _ _ _
  utf8 := fun _ => rfl

theorem plain_fit : ∀ c ∈ plainServer.collections, Fit plainServer ['b'] theB colon colon hashD c := fun c hc =>
  let h := number_fit c hc
  ⟨h.query, h.content, h.container, h.docno, h.apart, h.span⟩

theorem plain_askable : NumbersAskable plainServer colon hashD (fun _ => numberDocs) [theB] where
  library := by
    intro c hc p q
    have : c = numberCollection := by simpa [plainServer, numberServer] using hc
    subst this
    have e : trecDocno (plainServer.untag (numberCollection.translate p q)) = ['b', '-', 'c'] ∨
        trecDocno (plainServer.untag (numberCollection.translate p q)) = ['b'] := by
      by_cases h : p < 15
      · left; simp only [numberCollection, h, if_true]; rfl
      · right; simp only [numberCollection, h, if_false]; rfl
    rcases e with e | e <;> rw [e]
    · have h := number_library (wanted := ['b', '-', 'c']) (by decide) (by decide) (by decide)
      exact ⟨h.container, h.docno, h.numbered, h.ask⟩
    · have h := number_library (wanted := ['b']) (by decide) (by decide) (by decide)
      exact ⟨h.container, h.docno, h.numbered, h.ask⟩
  fields := ⟨number_fields.length, number_fields.reads⟩

/-- a query, two requests for the next passage and one for the document -/
example : ∃ R per, BestOf plainServer theB colon colon hashD R per ∧
    (R = [] ∨ ∃ shown outs, (session plainServer plainDump
      [(['b'], everyClone), ([], everyClone), (inNext, everyClone), (inFull, everyClone)] {} {}).1 = shown :: outs ∧
      Turns plainServer R 1 [[], inNext, inFull] outs) := by
  obtain ⟨R, per, h1, ⟨h2, -⟩ | ⟨f, c, outs, h2, h3, h4, h5⟩⟩ := C87_session_partial plain_faithful
    (exactScores_lawful (K := 16) (by decide)) (byScore_sorts (exactScores_lawful (K := 16) (by decide)).toOrdered) (text := ['b'])
    (by decide) (by decide) (by decide) plain_fit plain_askable [] [] rfl (sched := everyClone) (fun _ _ => rfl)
    (inputs := [([], everyClone), (inNext, everyClone), (inFull, everyClone)]) (by decide)
  · exact ⟨R, per, h1, .inl h2⟩
  · exact ⟨R, per, h1, .inr ⟨_, outs, h4, h5⟩⟩

/-- the second passage of an old query, after a query that cannot be read -/
example (r : Result Rat) (sched : Schedule) : (session plainServer plainDump [(['('], everyClone), ([], sched)] ⟨['q', '0'], []⟩
      { queries := [(['q', '0'], ⟨[⟨0, r, []⟩, ⟨0, r, []⟩], 1⟩)], nextQid := 1 }).1 =
    [.error ['C', 'a', 'n', 'n', 'o', 't', ' ', 'p', 'a', 'r', 's', 'e', ' ', 'q', 'u', 'e', 'r', 'y'],
     .text (snippet numberCollection r)] := by
  have hw : ∃ per, workers plainServer everyClone ['('] plainServer.collections.zipIdx = some per := by
    have : (workers plainServer everyClone ['('] plainServer.collections.zipIdx).isSome = true := by decide +kernel
    exact Option.isSome_iff_exists.1 this
  obtain ⟨per, hw⟩ := hw
  exact C87_stale_next plain_faithful (R := [⟨0, r, []⟩, ⟨0, r, []⟩]) (k := 1) rfl (by decide) rfl rfl (by decide) (by decide) (by decide)
    hw (by decide +kernel) sched

abbrev theZ : SExpr := .node .term ['z'] 0 []

theorem z_means (a : Ann) : ¬ numberCollection.means theZ a := by
  unfold Collection.means
  rw [expandPhrases, if_neg (by simp), expandPhrasesL, Paths.den_term]
  show ¬ numberIndex.solutions ['z'] a
  rw [numberIndex_solutions]
  have : Store.annsOf numberShard (numberIndex.featurize ['z']) = [] := rfl
  rw [this]; simp

/-- the document of an old query, after a query that has no passages -/
example (st : State Rat) (sched : Schedule) : ∃ t, TextOf numberCollection [theB] ⟨10, 12, 0⟩ t ∧
    (session plainServer plainDump [(['z'], everyClone), (inFull, sched)] ⟨['q', '0'], ['b', '-', 'c']⟩ st).1 = [.nothing, .text t] := by
  have hfit : ∀ c ∈ plainServer.collections, Fit plainServer ['z'] theZ colon colon hashD c := fun c hc => by
    have h := plain_fit c hc
    have : c = numberCollection := by simpa [plainServer, numberServer] using hc
    subst this
    exact ⟨word_reads (.inl ⟨by decide, by decide, by decide⟩) (by decide), h.content, h.container, h.docno, h.apart, h.span⟩
  obtain ⟨per, w1, w2, w3⟩ := bestOf_ok (exactScores_lawful (K := 16) (by decide))
    (byScore_sorts (exactScores_lawful (K := 16) (by decide)).toOrdered) (sched := everyClone) (fun _ _ => rfl) hfit
  have hm : merge plainServer per = [] := by
    match per, w3 with
    | [], w3 => exact absurd w3.size (by decide)
    | _ :: _ :: _, w3 => have := w3.size; simp [plainServer, numberServer] at this
    | [fs], w3 =>
      obtain ⟨L, C, all, R, l1, l2, l3, l4, l5⟩ := w3.each 0 numberCollection fs rfl rfl
      have hL : L = [] := by
        cases L with
        | nil => rfl
        | cons a L => exact absurd ((l1.2 a).1 (by simp)) (z_means a)
      subst hL
      have hmt : matching [] C minfinity maxfinity = [] := by
        unfold matching; rw [List.filter_eq_nil_iff]; intro a _; simp [within]
      rw [hmt] at l3
      cases l3
      have hR : R = [] := by have := l4.size; simpa using this
      subst hR
      cases l5
      exact w3.all.eq_nil
  have hd : ∃ t, TextOf numberCollection [theB] ⟨10, 12, 0⟩ t ∧
      document plainServer ['b', '-', 'c'] = some (.document ['x'] ['b', '-', 'c'] t) := by
    have hl := number_library (wanted := ['b', '-', 'c']) (by decide) (by decide) (by decide)
    refine C86_document (S := plainServer) (x := ⟨⟨10, 12, 0⟩, ⟨10, 11, 0⟩, ['b', '-', 'c']⟩) (i := 0) (c := numberCollection) (by decide) (by decide)
      ⟨hl.container, hl.docno, hl.numbered, hl.ask⟩ ⟨number_fields.length, number_fields.reads⟩ rfl (.head _) ?_
    rintro j b ⟨c, hc, x, hx, rfl, hw⟩
    have hj := (List.getElem?_eq_some_iff.1 hc).1
    have : c = numberCollection := by have := List.mem_of_getElem? hc; simpa [plainServer, numberServer] using this
    subst this
    simp only [numberDocs, List.mem_cons, List.not_mem_nil, or_false] at hx
    rcases hx with rfl | rfl
    · exact ⟨by simpa [plainServer, numberServer] using hj, rfl⟩
    · have := hw.length_le
      exact absurd this (by decide)
  obtain ⟨t, t1, t2⟩ := hd
  exact ⟨t, t1, C87_stale_full plain_faithful (by decide) (by decide) (by decide) (by decide) w1 w2 hm t2 sched⟩

end Verif.Props
