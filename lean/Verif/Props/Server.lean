import Verif.Server.Lives
/-
  Properties of the search server (C86).
-/
namespace Verif.Props
open Verif.Hopper Verif.Gcl Verif.Rank Verif.Server

section
variable {σ : Type} {S : Settings σ}

/-- **C86 (partial).** Whatever the clients of a server ask, and whoever asks in between: a query is refused, because some
collection cannot read it; or it gets a name that no response had before and the first passage of a ranking, and every later
request for the next passage of that name gets the passage after, until there are no more.  Where the query, the content,
the documents and their numbers can be read, the ranking is the one that was asked for.  What is missing: passages that
were sent to nobody (`C86_lost`), and requests that end the server (`C86_not_object`, `C86_not_text`, `C86_not_utf8`,
`C86_hangup`). -/
theorem C86_pages_partial {clients : List (List Turn)} (hclone : ∀ c ∈ clients, ∀ t ∈ c, ∀ i j, t.sched.cloned i j = true)
    {before after : List Record} {r : Record} (h : (serve S clients {}).records = before ++ r :: after)
    (small : before.length + 1 + after.length < 2 ^ 64) {text : Text} (ha : Asks S r.line opQuery opQuery text) (hne : text ≠ []) :
    (∃ e, r.response = .error opQuery e ∧ ∃ c ∈ S.collections, ∀ q, ¬ Reads c text q) ∨
    ∃ qid R, Page S opQuery qid R 0 r.response ∧ r.response.qid? = some qid ∧
      (∀ r' ∈ before, r'.response.qid? ≠ some qid) ∧ (∃ m ≤ before.length, qid = 'q' :: decimal m) ∧
      (∀ (j : Nat) r', (after.filter fun r' => asksNext S qid r'.line)[j]? = some r' → Page S opNext qid R (j + 1) r'.response) ∧
      ∀ q k d n, S.sc.Lawful → SortsBy S.sc S.sort → (∀ c ∈ S.collections, Fit S text q k d n c) → ∃ per, BestOf S q k d n R per := by
  obtain ⟨st', hr⟩ := serve_runs (S := S) (P := fun sched => ∀ i j, sched.cloned i j = true) clients hclone {}
  rw [h] at hr
  obtain ⟨s1, r1, r2⟩ := hr.split
  obtain ⟨k1, k2, k3, k4⟩ := runs_known r1 (fun k x hf => by cases hf) (by simp only; omega)
  simp only [Nat.zero_add] at k3
  cases r2 with
  | @cons _ s2 _ _ _ sched h0 h1 h2 =>
    obtain ⟨line, resp, got⟩ := r
    simp only at h1 ha
    have e := respond_effect h1
    obtain ⟨a1, a2, a3, -⟩ := effect_known e k1 (by omega)
    obtain ⟨m, m1, m2, m3⟩ := ha
    cases e with
    | @opened text' per _ k g1 g2 g3 g4 g5 g6 g7 =>
      right
      obtain ⟨m', m1', m2', m3'⟩ := g1
      rw [m1] at m1'; cases m1'
      rw [m3] at m3'; cases m3'
      refine ⟨_, merge S per, g5, g6, fun r' hr' hq => ?_, ⟨_, k3, rfl⟩, ?_, ?_⟩
      · obtain ⟨mm, q1, q2⟩ := k4 r' hr' _ hq
        have := qidOf_inj q2
        omega
      · intro j r' hj
        have := runs_pages h2 a1 (by simp only at a3 ⊢; omega) (qid := qidOf s1.nextQid) (R := merge S per) (n := 1) (k := k)
          (by rw [find_put, if_pos rfl]) g7 j r' hj
        rwa [Nat.add_comm] at this
      · intro q k d n hs hsort hfit
        obtain ⟨per', w1, -, w3⟩ := bestOf_ok hs hsort h0 hfit
        rw [g3] at w1; cases w1
        exact ⟨per, w3⟩
    | @refused text' e' g1 g2 g3 =>
      left
      obtain ⟨m', m1', m2', m3'⟩ := g1
      rw [m1] at m1'; cases m1'
      rw [m3] at m3'; cases m3'
      obtain ⟨i, -, c, c1, c2, -⟩ := firstError_some g3
      refine ⟨_, rfl, c, List.mem_of_getElem? c1, fun q hq => ?_⟩
      obtain ⟨-, H, e, -⟩ := reads_hopper hq
      rw [e] at c2; cases c2
    | turned g1 =>
      unfold asksNext at g1; rw [m1] at g1; simp only [m2] at g1
      simp [opQuery, opNext] at g1
    | over g1 =>
      unfold asksNext at g1; rw [m1] at g1; simp only [m2] at g1
      simp [opQuery, opNext] at g1
    | lost g1 =>
      unfold asksNext at g1; rw [m1] at g1; simp only [m2] at g1
      simp [opQuery, opNext] at g1
    | other _ g2 => exact absurd (g2 text ⟨m, m1, m2, m3⟩) hne

/-- **C86 (violated).** If a passage cannot be sent, it counts as given: the next request for the query, by the next client,
gets the passage after it. -/
theorem C86_lost {st : State σ} {qid line : Text} {R : List (Found σ)} {k : Nat} {f g : Found σ} {c d : Collection} (sched : Schedule)
    (hline : Asks S line opNext keyQid qid) (hq : find qid st.queries = some ⟨R, k⟩) (hf : R[k]? = some f)
    (hg : R[k + 1]? = some g) (hc : S.collections[f.collection]? = some c) (hd : S.collections[g.collection]? = some d)
    (hu : ∀ x, S.utf8 x = true) :
    (serve S [[⟨line, sched, .failed⟩], [⟨line, sched, .taken⟩]] st).records =
      [⟨line, .result opNext qid (k + 1) c.burrow f.docno (snippet c f.ranking), false⟩,
       ⟨line, .result opNext qid (k + 2) d.burrow g.docno (snippet d g.ranking), true⟩] := by
  obtain ⟨m, h1, h2, h3⟩ := hline
  have hall : ∀ r : Response, r.texts.all S.utf8 = true := by
    intro r; rw [List.all_eq_true]; exact fun x _ => hu x
  have e1 : respond S sched line st = .respond (.result opNext qid (k + 1) c.burrow f.docno (snippet c f.ranking))
      { st with queries := put qid ⟨R, k + 1⟩ st.queries } := by
    unfold respond
    rw [h1]; simp only [h2, h3, show ¬ opNext = opQuery by decide, if_false, if_true]
    unfold Server.next
    rw [hq]; simp only [hf, resultResponse, hc]; rfl
  have e2 : respond S sched line { st with queries := put qid ⟨R, k + 1⟩ st.queries } =
      .respond (.result opNext qid (k + 2) d.burrow g.docno (snippet d g.ranking))
        { st with queries := put qid ⟨R, k + 2⟩ (put qid ⟨R, k + 1⟩ st.queries) } := by
    unfold respond
    rw [h1]; simp only [h2, h3, show ¬ opNext = opQuery by decide, if_false, if_true]
    unfold Server.next
    simp only [find_put, if_true, hg, resultResponse, hd]; rfl
  simp only [serve, handle, e1, e2, hall, if_true, h1]
  rfl

/-! ### snippets -/

/-- **C86.** A snippet is a part of the passage, of two hundred tokens or all of it, in which the match is marked, or its
first two hundred tokens; the match is in the middle if the passage goes on at both sides. -/
theorem C86_snippet (c : Collection) {r : Result σ} (h1 : r.cp ≤ r.p) (h2 : r.p ≤ r.q) (h3 : r.q ≤ r.cq) :
    ∃ s e q, r.cp ≤ s ∧ s ≤ r.p ∧ r.p ≤ q ∧ q ≤ e ∧ e ≤ r.cq ∧ e - s + 1 = min 200 (r.cq - r.cp + 1) ∧ q = min r.q (r.p + 199) ∧
      (∀ x y, x + (q - r.p + 1) + y = 200 → x = y ∨ x + 1 = y → r.cp ≤ r.p - x → q + y ≤ r.cq → 200 < r.cq - r.cp + 1 → s = r.p - x) ∧
      snippet c r = (if s < r.p then cleanText (c.translate s (r.p - 1)) else []) ++ coverOpen ++ cleanText (c.translate r.p q) ++
        coverClose ++ (if q < e then cleanText (c.translate (q + 1) e) else []) := by
  unfold snippet
  simp only [window]
  split
  · exact ⟨r.cp, r.cq, r.q, by omega, h1, h2, h3, by omega, by omega, by omega, by intros; omega,
      highlighted_in h1 h2 h3⟩
  · split
    · rw [if_neg (show ¬ r.p + 200 - 1 > r.q by omega), if_neg (show ¬ r.p + 200 - 1 > r.cq by omega)]
      refine ⟨r.p, r.p + 200 - 1, r.p + 200 - 1, h1, by omega, by omega, by omega, by omega, by omega, by omega, by intros; omega, ?_⟩
      rw [highlighted_in (by omega) (by omega) (by omega)]
      rfl
    · generalize hx : (200 - (r.q - r.p + 1)) = x
      refine ⟨_, _, r.q, ?_, ?_, h2, ?_, ?_, ?_, by omega, ?_, highlighted_in ?_ h2 ?_⟩
      all_goals (try intros); split <;> split <;> (try split) <;> omega

/-- **C86.** What the server shows is on one line: newlines and carriage returns are blanks, and everything else is as it
is.  Quotes around a number or a field are left out, and nothing else is. -/
theorem C86_texts :
    (∀ s, (cleanText s).length = s.length ∧ ∀ (i : Nat) c, s[i]? = some c →
      (cleanText s)[i]? = some (if c ∈ ['\n', '\r'] then ' ' else c)) ∧
    (∀ inner, stripQuotes ('"' :: (inner ++ ['"'])) = inner) ∧
    (∀ s, (∀ inner, s ≠ '"' :: (inner ++ ['"'])) → stripQuotes s = s) := by
  refine ⟨fun s => ⟨by simp [cleanText], fun i c hc => by simp [cleanText, hc]⟩, fun inner => ?_, fun s hs => ?_⟩
  · unfold stripQuotes
    rw [if_pos ⟨by simp, rfl, by rw [← List.cons_append, List.getLast?_concat]⟩]
    simp
  · unfold stripQuotes
    rw [if_neg]
    rintro ⟨h1, h2, h3⟩
    cases s with
    | nil => simp at h1
    | cons a s =>
      simp only [List.head?_cons, Option.some.injEq] at h2
      subst h2
      have hne : s ≠ [] := by rintro rfl; simp at h1
      refine hs s.dropLast ?_
      have h4 : s.getLast? = some '"' := by
        rw [List.getLast?_cons_of_ne_nil hne] at h3; exact h3
      rw [List.getLast?_eq_some_getLast hne] at h4
      have := List.dropLast_concat_getLast hne
      rw [Option.some.inj h4] at this
      rw [this]

/-! ### documents -/

/-- **C86.** A document is found by its number, with its text, if no other document of any collection has a number with the
words of this number in it. -/
theorem C86_document {d n : SExpr} {docs : Nat → List NumberedDoc} {fields : List SExpr} {x : NumberedDoc} {i : Nat} {c : Collection}
    (hne : x.docno ≠ []) (hq : stripQuotes x.docno = x.docno) (hl : Library S d n x.docno docs) (hf : FieldsRead S fields)
    (hc : S.collections[i]? = some c) (hx : x ∈ docs i)
    (hu : ∀ j b, HitIn S docs x.docno j b → j = i ∧ b = x.span) :
    ∃ t, TextOf c fields x.span t ∧ document S x.docno = some (.document c.burrow x.docno t) := by
  have hit : HitIn S docs x.docno i x.span := ⟨c, hc, x, hx, rfl, by rw [hq]; exact List.infix_rfl⟩
  obtain ⟨r, h1, ⟨h2, -⟩ | ⟨i', a, c', t, h2, h3, h4, h5, h6⟩ | ⟨⟨i', a, j, b, h2, h3, h4⟩, -⟩⟩ := document_ok hne hl hf
  · exact absurd hit (h2 _ _)
  · obtain ⟨rfl, rfl⟩ := h3 _ _ hit
    rw [hc] at h4; cases h4
    exact ⟨t, h5, by rw [h1, h6]⟩
  · obtain ⟨rfl, rfl⟩ := hu _ _ h2
    obtain ⟨rfl, rfl⟩ := hu _ _ h3
    exact absurd ⟨rfl, rfl⟩ h4

/-- **C86.** A number whose words are in no document's number is unknown. -/
theorem C86_unknown {d n : SExpr} {docs : Nat → List NumberedDoc} {fields : List SExpr} {wanted : Text} (hne : wanted ≠ [])
    (hl : Library S d n wanted docs) (hf : FieldsRead S fields) (hn : ∀ i a, ¬ HitIn S docs wanted i a) :
    document S wanted = some (.error opDocument unknownDocno) := by
  obtain ⟨r, h1, ⟨-, h2⟩ | ⟨i', a, c', t, h2, -⟩ | ⟨⟨i', a, j, b, h2, -⟩, -⟩⟩ := document_ok hne hl hf
  · rw [h1, h2]
  · exact absurd h2 (hn _ _)
  · exact absurd h2 (hn _ _)

/-- **C86 (violated).** A document whose number is part of the number of another one cannot be had. -/
theorem C86_ambiguous {d n : SExpr} {docs : Nat → List NumberedDoc} {fields : List SExpr} {x y : NumberedDoc} {i j : Nat} {c e : Collection}
    (hne : x.docno ≠ []) (hq : stripQuotes x.docno = x.docno) (hl : Library S d n x.docno docs) (hf : FieldsRead S fields)
    (hc : S.collections[i]? = some c) (hx : x ∈ docs i) (he : S.collections[j]? = some e) (hy : y ∈ docs j)
    (hxy : ¬ (i = j ∧ x.span = y.span)) (hw : e.split x.docno <:+: e.split y.docno) :
    document S x.docno = some (.error opDocument ambiguousDocno) := by
  have hit : HitIn S docs x.docno i x.span := ⟨c, hc, x, hx, rfl, by rw [hq]; exact List.infix_rfl⟩
  have hit2 : HitIn S docs x.docno j y.span := ⟨e, he, y, hy, rfl, by rw [hq]; exact hw⟩
  obtain ⟨r, h1, ⟨h2, -⟩ | ⟨i', a, c', t, h2, h3, -⟩ | ⟨-, h2⟩⟩ := document_ok hne hl hf
  · exact absurd hit (h2 _ _)
  · obtain ⟨rfl, e1⟩ := h3 _ _ hit
    obtain ⟨rfl, e2⟩ := h3 _ _ hit2
    exact absurd ⟨rfl, e1.trans e2.symm⟩ hxy
  · rw [h1, h2]

/-! ### the life of the server -/

/-- **C86.** The server answers every line of every client, in order, and goes on, if every line is not JSON or an object
with texts whose queries can be read, every text it sends is UTF-8, and every client takes the answers. -/
theorem C86_lives (hs : S.sc.Lawful) (hsort : SortsBy S.sc S.sort) (hu : ∀ x, S.utf8 x = true) {clients : List (List Turn)}
    (h : ∀ c ∈ clients, ∀ t ∈ c, Sound S t.line ∧ (∀ i j, t.sched.cloned i j = true) ∧ t.sent = .taken) :
    (serve S clients {}).fate = .alive ∧ (serve S clients {}).records.map (·.line) = clients.flatten.map (·.line) ∧
    ∀ r ∈ (serve S clients {}).records, r.got = true :=
  serve_sound hs hsort hu h (fun k x hf => by cases hf)

/-- **C86.** An object without the member that is asked for is answered with an error, and changes nothing. -/
theorem C86_missing (sched : Schedule) (st : State σ) {line : Text} {m : List (Text × Val)} (h : S.parse line = .object m) :
    ((∀ x ∈ m, x.1 ≠ keyOp) → respond S sched line st = .respond (.error [] unknownOp) st) ∧
    (∀ op, m.find? (fun x => x.1 == keyOp) = some (keyOp, .str op) →
      (op = opQuery → (∀ x ∈ m, x.1 ≠ opQuery) → respond S sched line st = .respond (.error opQuery missingQuery) st) ∧
      (op = opNext → (∀ x ∈ m, x.1 ≠ keyQid) → (∀ x ∈ st.queries, x.1 ≠ []) →
        respond S sched line st = .respond (.error opNext unknownQid) st) ∧
      (op = opDocument → (∀ x ∈ m, x.1 ≠ keyDocno) → respond S sched line st = .respond (.error opDocument missingDocno) st) ∧
      (op ≠ opQuery → op ≠ opNext → op ≠ opDocument → respond S sched line st = .respond (.error op unknownOp) st)) := by
  have none_of : ∀ key, (∀ x ∈ m, x.1 ≠ key) → Server.value m key = some [] := by
    intro key hk
    unfold Server.value
    rw [List.find?_eq_none.2 (fun x hx => by simp [hk x hx])]
  refine ⟨fun hk => ?_, fun op ho => ?_⟩
  · unfold respond; rw [h]; simp only [none_of _ hk]; rfl
  · have hv : Server.value m keyOp = some op := by unfold Server.value; rw [ho]
    refine ⟨?_, ?_, ?_, ?_⟩
    · rintro rfl hk
      unfold respond; rw [h]; simp only [hv, none_of _ hk]; rfl
    · rintro rfl hk hq
      have : find [] st.queries = none := by
        generalize st.queries = l at hq
        induction l with
        | nil => rfl
        | cons y l ih => rw [find, if_neg (hq y (by simp))]; exact ih fun x hx => hq x (by simp [hx])
      unfold respond; rw [h]; simp only [hv, none_of _ hk]
      show Outcome.of (Server.next S [] st) = _
      unfold Server.next; rw [this]; rfl
    · rintro rfl hk
      unfold respond; rw [h]; simp only [hv, none_of _ hk]; rfl
    · intro g1 g2 g3
      unfold respond; rw [h]; simp only [hv, g1, g2, g3, if_false]

/-- **C86 (violated).** A line that is JSON but not an object ends the server: nothing is answered, to no client. -/
theorem C86_not_object (st : State σ) {t : Turn} (rest : List Turn) (clients : List (List Turn)) (h : S.parse t.line = .scalar) :
    serve S ((t :: rest) :: clients) st = ⟨[], st, .ended⟩ := by
  simp [serve, handle, respond, h]

/-- **C86 (violated).** An object whose operation is not a text ends the server. -/
theorem C86_not_text (st : State σ) {t : Turn} (rest : List Turn) (clients : List (List Turn)) {m : List (Text × Val)}
    (h : S.parse t.line = .object m) (ho : m.find? (fun x => x.1 == keyOp) = some (keyOp, .other)) :
    serve S ((t :: rest) :: clients) st = ⟨[], st, .ended⟩ := by
  simp [serve, handle, respond, h, Server.value, ho]

/-- **C86 (violated).** A line that is not JSON ends the server if what the parser says about it is not UTF-8. -/
theorem C86_not_utf8 (st : State σ) {t : Turn} (rest : List Turn) (clients : List (List Turn)) {what : Text}
    (h : S.parse t.line = .bad what) (hu : S.utf8 what = false) :
    serve S ((t :: rest) :: clients) st = ⟨[], st, .ended⟩ := by
  simp [serve, handle, respond, h, Response.texts, hu]

/-- **C86 (violated).** A client that goes before it has its answer ends the server. -/
theorem C86_hangup (st : State σ) {t : Turn} (rest : List Turn) (clients : List (List Turn)) {r : Response} {st' : State σ}
    (h : respond S t.sched t.line st = .respond r st') (hu : ∀ x, S.utf8 x = true) (hs : t.sent = .broken) :
    serve S ((t :: rest) :: clients) st = ⟨[⟨t.line, r, false⟩], st', .ended⟩ := by
  have : r.texts.all S.utf8 = true := by rw [List.all_eq_true]; exact fun x _ => hu x
  simp only [serve, handle, h, this, hs, if_true]

end

/-! ### lines and threads -/

/-- **C86.** The server sees the lines that were sent, in whatever pieces they come; what comes after the last newline is
a line if the client closes the connection, and is dropped if receiving fails. -/
theorem C86_lines {text part : Text} {ls : List Text} (h : WritesLines text ls) (h1 : '\n' ∉ part) (h2 : '\r' ∉ part) (hne : part ≠ []) :
    lines false text = ls ∧ lines true text = ls ∧ lines false (text ++ part) = ls ++ [part] ∧ lines true (text ++ part) = ls := by
  have e : ∀ b, lines b text = ls := by
    intro b
    have := lines_writes (rest := []) b h
    rw [List.append_nil] at this
    rw [this]; cases b <;> simp [lines, linesFrom]
  have p : ∀ b, lines b part = if b then [] else [part] := by
    intro b
    have := linesFrom_part b [] (l := part) [] h1 h2
    rw [List.append_nil] at this
    unfold lines; rw [this]
    cases b <;> simp [linesFrom, hne]
  refine ⟨e _, e _, ?_, ?_⟩
  · rw [lines_writes _ h, p]; rfl
  · rw [lines_writes _ h, p]; simp

theorem budget_sum (a m : Nat) : ∀ n, ((List.range n).map fun i => 2 + (a + if i < m then 1 else 0)).sum = 2 * n + (n * a + min n m) := by
  intro n
  induction n with
  | zero => simp
  | succ n ih =>
    rw [List.range_succ, List.map_append, List.sum_append, ih]
    simp only [List.map_cons, List.map_nil, List.sum_cons, List.sum_nil, Nat.succ_mul]
    split <;> omega

/-- **C86.** The threads of the machine are shared by the collections: each has two at least, none has more than one more
than another, and together they have what the machine allows, or two each. -/
theorem C86_budget (hardware : Nat) {n : Nat} (hn : 0 < n) :
    (threadBudget hardware n).length = n ∧ (∀ x ∈ threadBudget hardware n, 2 ≤ x) ∧
    (∀ x ∈ threadBudget hardware n, ∀ y ∈ threadBudget hardware n, x ≤ y + 1) ∧
    (threadBudget hardware n).sum = max (2 * n) (if hardware ≤ 1 then 4 else 2 * hardware) := by
  have ha : allowedThreads hardware 0 = if hardware ≤ 1 then 4 else 2 * hardware := by unfold allowedThreads; simp
  unfold threadBudget
  rw [ha]
  generalize (if hardware ≤ 1 then 4 else 2 * hardware) = allowed
  simp only
  split
  · refine ⟨by simp, fun x hx => ?_, fun x hx y hy => ?_, ?_⟩
    · have := List.eq_of_mem_replicate hx; omega
    · have := List.eq_of_mem_replicate hx; have := List.eq_of_mem_replicate hy; omega
    · rw [List.sum_replicate_nat]; omega
  · refine ⟨by simp, fun x hx => ?_, fun x hx y hy => ?_, ?_⟩
    · obtain ⟨i, -, rfl⟩ := List.mem_map.1 hx; exact Nat.le_add_right _ _
    · obtain ⟨i, -, rfl⟩ := List.mem_map.1 hx
      obtain ⟨j, -, rfl⟩ := List.mem_map.1 hy
      split <;> split <;> omega
    · rw [budget_sum]
      have h1 := Nat.div_add_mod (allowed - 2 * n) n
      have h2 := Nat.mod_lt (allowed - 2 * n) hn
      omega

/-! ### the hypotheses are met -/

/-- a collection of two documents, `b-c` and `b` -/
def numberCollection : Collection where
  burrow := ['x']
  ix := numberIndex
  split := letters
  count := fun _ => 0
  translate := fun p _ => if p < 15 then ['b', '-', 'c'] else ['b']
  complaint := fun _ => []

/-- a server for it, that understands four lines -/
def numberServer : Settings Rat where
  container := [':']
  content := [':']
  docno := ['#', 'd']
  fields := [['b']]
  collections := [numberCollection]
  sc := exactScores 16
  sort := byScore (exactScores 16)
  hardware := 4
  untag := id
  parse := fun l =>
    if l = ['1'] then .object [(keyOp, .str opQuery), (opQuery, .str ['b'])]
    else if l = ['2'] then .object [(keyOp, .str opNext), (keyQid, .str ['q', '0'])]
    else if l = ['3'] then .object [(keyOp, .str opDocument), (keyDocno, .str ['b', '-', 'c'])]
    else if l = ['4'] then .scalar
    else .bad ['?']
  utf8 := fun _ => true

theorem word_reads {t : Text} (h : Word t) (hq : t.head? ≠ some '"') : Reads numberCollection t (.node .term t 0 []) where
  writes := .word h
  legal := by
    rw [expandPhrases, if_neg (by simp [hq]), expandPhrasesL]
    simp [Legal, LegalL, arityOk]

abbrev colon : SExpr := .node .term [':'] 0 []
abbrev hashD : SExpr := .node .term ['#', 'd'] 0 []
abbrev theB : SExpr := .node .term ['b'] 0 []

theorem colon_means (a : Ann) : numberCollection.means colon a ↔ a = ⟨10, 12, 0⟩ ∨ a = ⟨20, 22, 0⟩ := by
  unfold Collection.means
  rw [expandPhrases, if_neg (by simp), expandPhrasesL, Paths.den_term]
  show numberIndex.solutions [':'] a ↔ _
  rw [numberIndex_solutions]
  have : Store.annsOf numberShard (numberIndex.featurize [':']) = [⟨10, 12, 0⟩, ⟨20, 22, 0⟩] := rfl
  rw [this]; simp

theorem number_fit : ∀ c ∈ numberServer.collections, Fit numberServer ['b'] theB colon colon hashD c := by
  intro c hc
  have : c = numberCollection := by simpa [numberServer] using hc
  subst this
  refine ⟨word_reads (.inl ⟨by decide, by decide, by decide⟩) (by decide), word_reads (.inl ⟨by decide, by decide, by decide⟩) (by decide),
    word_reads (.inl ⟨by decide, by decide, by decide⟩) (by decide), word_reads (.inl ⟨by decide, by decide, by decide⟩) (by decide), ?_, ?_⟩
  · intro a b ha hb
    rw [colon_means] at ha hb
    rcases ha with rfl | rfl <;> rcases hb with rfl | rfl <;> simp
  · intro a b ha hb
    rw [colon_means] at ha hb
    rcases ha with rfl | rfl <;> rcases hb with rfl | rfl <;> decide

theorem number_library {wanted : Text} (h1 : ∀ c ∈ stripQuotes wanted, c ≠ '"' ∧ c ≠ '\\' ∧ c ≠ '\x00') (h2 : letters (stripQuotes wanted) ≠ [])
    (h3 : (letters (stripQuotes wanted)).length ≤ 4294967295) : Library numberServer colon hashD wanted (fun _ => numberDocs) := by
  have one : ∀ (i : Nat) c, numberServer.collections[i]? = some c → c = numberCollection := by
    intro i c hc
    have := List.mem_of_getElem? hc
    simpa [numberServer] using this
  constructor <;> (intro i c hc; have := one i c hc; subst this)
  · exact word_reads (.inl ⟨by decide, by decide, by decide⟩) (by decide)
  · exact word_reads (.inl ⟨by decide, by decide, by decide⟩) (by decide)
  · exact numbers_ok
  · exact canAsk_letters h1 h2 h3

theorem number_fields : FieldsRead numberServer [theB] := by
  refine ⟨rfl, fun c hc x hx => ?_⟩
  have : c = numberCollection := by simpa [numberServer] using hc
  subst this
  have : x = (['b'], theB) := by simpa [numberServer] using hx
  subst this
  exact word_reads (.inl ⟨by decide, by decide, by decide⟩) (by decide)

def everyClone : Schedule := ⟨[0], fun _ _ => true⟩

/-- two clients: one asks the query and the next passage, the other the next passage, a document, and nonsense -/
def numberClients : List (List Turn) :=
  [[⟨['1'], everyClone, .taken⟩, ⟨['2'], everyClone, .taken⟩],
   [⟨['2'], everyClone, .taken⟩, ⟨['3'], everyClone, .taken⟩, ⟨['?'], everyClone, .taken⟩]]

theorem number_sound : ∀ c ∈ numberClients, ∀ t ∈ c,
    Sound numberServer t.line ∧ (∀ i j, t.sched.cloned i j = true) ∧ t.sent = .taken := by
  have s1 : Sound numberServer ['1'] := .query (text := ['b']) ⟨_, rfl, rfl, rfl⟩ number_fit
  have s2 : Sound numberServer ['2'] := .next (qid := ['q', '0']) ⟨_, rfl, rfl, rfl⟩
  have s3 : Sound numberServer ['3'] := .document (wanted := ['b', '-', 'c']) ⟨_, rfl, rfl, rfl⟩
    (number_library (by decide) (by decide) (by decide)) number_fields
  have s5 : Sound numberServer ['?'] := .notJson (what := ['?']) rfl
  intro c hc t ht
  simp only [numberClients, List.mem_cons, List.not_mem_nil, or_false] at hc
  rcases hc with rfl | rfl <;> simp only [List.mem_cons, List.not_mem_nil, or_false] at ht
  · rcases ht with rfl | rfl
    · exact ⟨s1, fun _ _ => rfl, rfl⟩
    · exact ⟨s2, fun _ _ => rfl, rfl⟩
  · rcases ht with rfl | rfl | rfl
    · exact ⟨s2, fun _ _ => rfl, rfl⟩
    · exact ⟨s3, fun _ _ => rfl, rfl⟩
    · exact ⟨s5, fun _ _ => rfl, rfl⟩

theorem number_lives : (serve numberServer numberClients {}).fate = .alive ∧
    (serve numberServer numberClients {}).records.map (·.line) = [['1'], ['2'], ['2'], ['3'], ['?']] := by
  obtain ⟨h1, h2, -⟩ := C86_lives (exactScores_lawful (K := 16) (by decide)) (byScore_sorts (exactScores_lawful (K := 16) (by decide)).toOrdered)
    (fun _ => rfl) number_sound
  exact ⟨h1, h2⟩

/-- the query is answered, and the two requests for the next passage, by different clients, are answered in order -/
example : ∃ r1 r2 r3 rest, (serve numberServer numberClients {}).records = r1 :: r2 :: r3 :: rest ∧
    ∃ qid R per, BestOf numberServer theB colon colon hashD R per ∧ Page numberServer opQuery qid R 0 r1.response ∧
      Page numberServer opNext qid R 1 r2.response ∧ Page numberServer opNext qid R 2 r3.response := by
  obtain ⟨-, hl⟩ := number_lives
  match hr : (serve numberServer numberClients {}).records with
  | [] => rw [hr] at hl; simp at hl
  | [_] => rw [hr] at hl; simp at hl
  | [_, _] => rw [hr] at hl; simp at hl
  | r1 :: r2 :: r3 :: rest =>
    rw [hr] at hl
    simp only [List.map_cons, List.cons.injEq] at hl
    obtain ⟨l1, l2, l3, l4⟩ := hl
    refine ⟨r1, r2, r3, rest, rfl, ?_⟩
    have hlen : rest.length = 2 := by have := congrArg List.length l4; simpa using this
    rcases C86_pages_partial (S := numberServer) (clients := numberClients) (before := []) (after := r2 :: r3 :: rest) (r := r1) (text := ['b'])
      (fun c hc t ht => (number_sound c hc t ht).2.1) hr (by simp [hlen]) (by rw [l1]; exact ⟨_, rfl, rfl, rfl⟩) (by decide) with
      ⟨-, -, c, hc, hno⟩ | ⟨qid, R, p1, -, -, ⟨m, m1, m2⟩, p2, p3⟩
    · exact absurd (number_fit c hc).query (hno _)
    · obtain ⟨per, hb⟩ := p3 theB colon colon hashD (exactScores_lawful (K := 16) (by decide))
        (byScore_sorts (exactScores_lawful (K := 16) (by decide)).toOrdered) number_fit
      refine ⟨qid, R, per, hb, p1, ?_⟩
      have : m = 0 := by simpa using m1
      subst this
      subst m2
      have d0 : decimal 0 = ['0'] := by rw [decimal]; rfl
      have a2 : asksNext numberServer ('q' :: decimal 0) r2.line = true := by rw [l2, d0]; decide
      have a3 : asksNext numberServer ('q' :: decimal 0) r3.line = true := by rw [l3, d0]; decide
      exact ⟨p2 0 r2 (by simp [a2]), p2 1 r3 (by simp [a2, a3])⟩

/-- the document `b-c` is found, and `b` is not -/
example : (∃ t, TextOf numberCollection [theB] ⟨10, 12, 0⟩ t ∧
      document numberServer ['b', '-', 'c'] = some (.document ['x'] ['b', '-', 'c'] t)) ∧
    document numberServer ['b'] = some (.error opDocument ambiguousDocno) := by
  constructor
  · refine C86_document (x := ⟨⟨10, 12, 0⟩, ⟨10, 11, 0⟩, ['b', '-', 'c']⟩) (i := 0) (by decide) (by decide)
      (number_library (by decide) (by decide) (by decide)) number_fields rfl (.head _) ?_
    rintro j b ⟨c, hc, x, hx, rfl, hw⟩
    have hj := (List.getElem?_eq_some_iff.1 hc).1
    have : c = numberCollection := by have := List.mem_of_getElem? hc; simpa [numberServer] using this
    subst this
    simp only [numberDocs, List.mem_cons, List.not_mem_nil, or_false] at hx
    rcases hx with rfl | rfl
    · exact ⟨by simpa [numberServer] using hj, rfl⟩
    · have := hw.length_le
      exact absurd this (by decide)
  · exact C86_ambiguous (x := ⟨⟨20, 22, 0⟩, ⟨20, 20, 0⟩, ['b']⟩) (y := ⟨⟨10, 12, 0⟩, ⟨10, 11, 0⟩, ['b', '-', 'c']⟩) (i := 0) (j := 0)
      (by decide) (by decide) (number_library (by decide) (by decide) (by decide)) number_fields rfl (.tail _ (.head _)) rfl (.head _)
      (by decide) ⟨[], [['c']], by decide⟩

/-- a line that is a number ends it -/
example (clients : List (List Turn)) :
    serve numberServer ([⟨['4'], everyClone, .taken⟩] :: clients) {} = ⟨[], {}, .ended⟩ := C86_not_object _ _ _ rfl

/-- a long passage -/
example : ∃ s e q, (100 : Int) ≤ s ∧ e ≤ 900 ∧ s ≤ 150 ∧ q = 160 ∧ e - s + 1 = 200 ∧ q ≤ e := by
  obtain ⟨s, e, q, h1, h2, h3, h4, h5, h6, h7, -⟩ := C86_snippet numberCollection (r := (⟨150, 160, 100, 900, 0⟩ : Result Rat))
    (by decide) (by decide) (by decide)
  simp only at *
  exact ⟨s, e, q, h1, h5, h2, by omega, by omega, h4⟩

example : threadBudget 4 3 = [3, 3, 2] := by decide

example : lines false ['a', '\r', '\n', 'b', '\n', 'c'] = [['a'], ['b'], ['c']] := by decide

end Verif.Props
