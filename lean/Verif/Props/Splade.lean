import Verif.Splade.Model
/-
  C92: the vectors of documents and queries count as they are given.
-/
namespace Verif.Props
open Verif.Splade

variable {Q : Type} (docs : List Doc) (phrase : Text → Option (List Text)) (positive : Q → Bool)

theorem occurs_iff (ws : List Text) : ∀ l, occurs ws l = true ↔ ws <:+: l := by
  intro l
  induction l with
  | nil => simp [occurs]
  | cons x l ih => simp only [occurs, Bool.or_eq_true, ih, List.isPrefixOf_iff_prefix, List.infix_cons_iff]

theorem find_unknown {docid : Text} {ws : List Text} (h1 : phrase docid = some ws) (h2 : ∀ d ∈ docs, ¬ws <:+: d.words) :
    find docs phrase docid = .absent := by
  have : (docs.find? fun d => !ws.isEmpty && occurs ws d.words) = none := by
    rw [List.find?_eq_none]
    intro d hd
    simp [occurs_iff, h2 d hd]
  simp only [find, h1, this]

/-- the first document that has the words -/
theorem first_place {docid : Text} {ws : List Text} {a b : List Doc} {d : Doc} (h1 : phrase docid = some ws) (h0 : ws ≠ []) (hd : docs = a ++ d :: b)
    (h2 : ∀ d' ∈ a, ¬ws <:+: d'.words) (h3 : ws <:+: d.words) : find docs phrase docid = .place d.start := by
  have : (docs.find? fun d => !ws.isEmpty && occurs ws d.words) = some d := by
    rw [hd, List.find?_append]
    have : (a.find? fun d => !ws.isEmpty && occurs ws d.words) = none := by
      rw [List.find?_eq_none]
      intro d hd
      simp [occurs_iff, h2 d hd]
    rw [this, Option.none_or, List.find?_cons_of_pos]
    simp [occurs_iff, h3, h0]
  simp only [find, h1, this]

theorem find_one {docid : Text} {d : Doc} (h1 : phrase docid = some d.words) (h0 : d.words ≠ []) (hd : d ∈ docs)
    (h2 : ∀ d' ∈ docs, d.words <:+: d'.words → d' = d) : find docs phrase docid = .place d.start := by
  cases hf : docs.find? fun x => !d.words.isEmpty && occurs d.words x.words with
  | none =>
    rw [List.find?_eq_none] at hf
    exact absurd (hf d hd) (by simp [occurs_iff, h0])
  | some x =>
    have hx := List.find?_some hf
    simp only [Bool.and_eq_true, occurs_iff] at hx
    have := h2 x (List.mem_of_find?_eq_some hf) hx.2
    subst this
    simp only [find, h1, hf]

theorem filterMap_same {β γ : Type} {f g : β → Option γ} : ∀ {l : List β}, (∀ x ∈ l, f x = g x) → l.filterMap f = l.filterMap g := by
  intro l
  induction l with
  | nil => intro _; rfl
  | cons x l ih =>
    intro h
    rw [List.filterMap_cons, List.filterMap_cons, h x (by simp), ih (fun y hy => h y (by simp [hy]))]

theorem collect_says {ls : List (Line Q)} {rs : List (Doc × List (Text × Value Q))} (h : Says docs phrase ls rs) :
    collect docs phrase ls = (.zero, rs.flatMap fun r => notesOf r.1.start r.2) := by
  induction h with
  | nil => rfl
  | bad _ ih => simpa only [collect] using ih
  | noVector _ ih => simpa only [collect] using ih
  | noName _ ih => simpa only [collect] using ih
  | unknown h1 h2 _ ih => simp only [collect, find_unknown docs phrase h1 h2, ih]
  | vector h1 h0 hd h2 _ ih => simp only [collect, find_one docs phrase h1 h0 hd h2, ih, List.flatMap_cons]

theorem collect_app {ls : List (Line Q)} {rs : List (Doc × List (Text × Value Q))} (h : Says docs phrase ls rs) (more : List (Line Q)) :
    collect docs phrase (ls ++ more) = ((collect docs phrase more).1, (rs.flatMap fun r => notesOf r.1.start r.2) ++ (collect docs phrase more).2) := by
  induction h with
  | nil => rfl
  | bad _ ih => simpa only [collect, List.cons_append] using ih
  | noVector _ ih => simpa only [collect, List.cons_append] using ih
  | noName _ ih => simpa only [collect, List.cons_append] using ih
  | unknown h1 h2 _ ih => simp only [List.cons_append, collect, find_unknown docs phrase h1 h2, ih]
  | vector h1 h0 hd h2 _ ih => simp only [List.cons_append, collect, find_one docs phrase h1 h0 hd h2, ih, List.flatMap_cons, List.append_assoc]

/-- **C92, partial** (documents): whatever the file, if each of its vectors names a document by all the words of its identifier, and no
other identifier has these words in it, the program adds to the index: for each document with a vector, in the order of the file, and each term
of its vector with an integer from 1 to 2^63 - 1, in order, that number, with that term, at the start of that document; and nothing else.
Lines that are not JSON, have no vector or no name, or name no document are passed over.  Missing: vectors whose docid is part of another
identifier (`C92_wrong`), files with one docid that is no phrase (`C92_lost`), weights that are no integers (`C92_fractions`), and a
failure at the end (`C92_unsaved`). -/
theorem C92_vectors_partial (file : List (Line Q)) (rs : List (Doc × List (Text × Value Q))) (h : Says docs phrase file rs)
    (hv : ∀ r ∈ rs, ∀ e ∈ r.2, ∀ v, e.2 = .int v → v < 2 ^ 64) :
    annotate docs phrase true file
      = (.zero, rs.flatMap fun r => r.2.filterMap fun e =>
          match e.2 with
          | .int v => if 0 < v ∧ v < 2 ^ 63 then some ⟨e.1, r.1.start, v⟩ else none
          | _ => none) := by
  unfold annotate
  rw [collect_says docs phrase h]
  simp only [if_true, Prod.mk.injEq, true_and, List.flatMap_def]
  congr 1
  apply List.map_congr_left
  intro r hr
  unfold notesOf
  apply filterMap_same
  rintro ⟨t, x⟩ he
  cases x with
  | int v =>
    have hb := hv r hr _ he v rfl
    by_cases h1 : v ≥ 9223372036854775808
    · have e : valueOf (Value.int (Q := Q) v) = v - 18446744073709551616 := if_pos h1
      rw [if_neg (by simp only [e]; omega)]
      simp only
      rw [if_neg (by omega)]
    · have e : valueOf (Value.int (Q := Q) v) = v := if_neg h1
      simp only [e]
      by_cases h2 : v > 0
      · rw [if_pos h2, if_pos (by omega)]
      · rw [if_neg h2, if_neg (by omega)]
  | real w => simp [valueOf]
  | other => simp [valueOf]

/-- **The claim is false for a docid that is part of another identifier**: the vector is added to the first document whose identifier
has the words of the docid one after the other, even if another document has that very identifier. -/
theorem C92_wrong (a b : List Doc) (d : Doc) (docid : Text) (ws : List Text) (v : List (Text × Value Q)) (h1 : phrase docid = some ws) (h0 : ws ≠ [])
    (h2 : ∀ d' ∈ a, ¬ws <:+: d'.words) (h3 : ws <:+: d.words) :
    annotate (a ++ d :: b) phrase true [.record (some docid) (some v)] = (.zero, notesOf d.start v) := by
  unfold annotate
  simp only [collect, first_place _ phrase h1 h0 rfl h2 h3, List.append_nil, if_true]

/-- **The claim is false for a file with a docid that is no phrase** (one with a quote), a number that is too large or a line that is JSON but has no
fields: all the vectors before it are lost, and those after it are not read. -/
theorem C92_lost (ready : Bool) (before after : List (Line Q)) (rs : List (Doc × List (Text × Value Q))) (h : Says docs phrase before rs) :
    (∀ docid v, phrase docid = none → annotate docs phrase ready (before ++ .record (some docid) (some v) :: after) = (.one, []))
    ∧ annotate docs phrase ready (before ++ .over :: after) = (.dies, [])
    ∧ annotate docs phrase ready (before ++ .other :: after) = (.dies, []) := by
  refine ⟨?_, ?_, ?_⟩
  · intro docid v hp
    unfold annotate
    rw [collect_app docs phrase h]
    simp only [collect, find, hp]
  · unfold annotate
    rw [collect_app docs phrase h]
    simp only [collect]
  · unfold annotate
    rw [collect_app docs phrase h]
    simp only [collect]

/-- **The claim is false when the annotations cannot be saved**: nothing is added, and the program ends as if all were well. -/
theorem C92_unsaved (file : List (Line Q)) (rs : List (Doc × List (Text × Value Q))) (h : Says docs phrase file rs) :
    annotate docs phrase false file = (.zero, []) := by
  unfold annotate
  rw [collect_says docs phrase h]
  simp only [Bool.false_eq_true, if_false]

/-- **The claim is false for weights of documents that are not integers**: without a complaint they do not count. -/
theorem C92_fractions (file : List (Line Q)) (rs : List (Doc × List (Text × Value Q))) (h : Says docs phrase file rs)
    (hr : ∀ r ∈ rs, ∀ e ∈ r.2, ∃ w, e.2 = .real w) : annotate docs phrase true file = (.zero, []) := by
  unfold annotate
  rw [collect_says docs phrase h]
  simp only [if_true, Prod.mk.injEq, true_and, List.flatMap_eq_nil_iff]
  intro r hm
  unfold notesOf
  rw [List.filterMap_eq_nil_iff]
  intro e he
  obtain ⟨w, hw⟩ := hr r hm e he
  simp [hw, valueOf]

/-- the program adds all it has found, or nothing; and when it does not end with 0 it adds nothing -/
theorem C92_all_or_nothing (ready : Bool) (file : List (Line Q)) :
    ((annotate docs phrase ready file).2 = (collect docs phrase file).2 ∨ (annotate docs phrase ready file).2 = [])
    ∧ ((annotate docs phrase ready file).1 ≠ .zero → (annotate docs phrase ready file).2 = []) := by
  unfold annotate
  split
  · next ns hc =>
    rw [hc]
    refine ⟨?_, fun h => absurd rfl h⟩
    cases ready
    · exact .inr rfl
    · exact .inl rfl
  · exact ⟨.inr rfl, fun _ => rfl⟩

/-! ### queries -/

/-- a file of queries with these names and vectors -/
def queryFile (qs : List (Text × List (Text × Value Q))) : List (Line Q) := qs.map fun q => .record (some q.1) (some q.2)

theorem readQueries_file (qs : List (Text × List (Text × Value Q))) :
    readQueries positive (queryFile qs) = some (qs.map (·.1), qs.flatMap fun q => (weightsOf positive q.2).map fun e => (q.1, e.1, e.2)) := by
  induction qs with
  | nil => rfl
  | cons q qs ih => simp only [queryFile, List.map_cons, readQueries] at ih ⊢; simp only [ih, List.flatMap_cons]

theorem find_unique {β : Type} (p : β → Bool) (l : List β) (x : β) (hx : x ∈ l) (hp : p x = true) (hu : ∀ y ∈ l, p y = true → y = x) : l.find? p = some x := by
  cases hf : l.find? p with
  | none => rw [List.find?_eq_none] at hf; exact absurd hp (hf x hx)
  | some y => rw [hu y (List.mem_of_find?_eq_some hf) (List.find?_some hf)]

theorem weightsOf_mem {vector : List (Text × Value Q)} {t : Text} {w : Q} :
    (t, w) ∈ weightsOf positive vector ↔ (t, Value.real w) ∈ vector ∧ positive w = true := by
  unfold weightsOf
  rw [List.mem_filterMap]
  constructor
  · rintro ⟨⟨t', v⟩, hm, he⟩
    cases v with
    | int v => cases he
    | other => cases he
    | real w' =>
      simp only at he
      split at he
      · next hp => cases he; exact ⟨hm, hp⟩
      · cases he
  · rintro ⟨hm, hp⟩
    exact ⟨(t, .real w), hm, by simp [hp]⟩

theorem unique_of_keys {K V : Type} : ∀ {l : List (K × V)}, (l.map (·.1)).Nodup → ∀ {k : K} {v v' : V}, (k, v) ∈ l → (k, v') ∈ l → v = v' := by
  intro l
  induction l with
  | nil => intro _ k v v' h; cases h
  | cons x l ih =>
    intro hn k v v' h h'
    simp only [List.map_cons, List.nodup_cons, List.mem_map, not_exists, not_and] at hn
    rcases List.mem_cons.1 h with h1 | h1 <;> rcases List.mem_cons.1 h' with h2 | h2
    · rw [← h1] at h2; cases h2; rfl
    · exact absurd (congrArg Prod.fst h1) (hn.1 (k, v') h2)
    · exact absurd (congrArg Prod.fst h2) (hn.1 (k, v) h1)
    · exact ih hn.2 h1 h2

/-- **C92, partial** (queries): for every file of queries with different names, each with a vector (whose terms are different), the topics are these, in order, and the weight of a term for a
topic is the floating-point number that its vector has, if that is greater than zero; all other terms have none.  Missing: weights that are
integers (`C92_whole`), and names that are there twice (`C92_repeated`). -/
theorem C92_queries_partial (qs : List (Text × List (Text × Value Q))) (hd : (qs.map (·.1)).Nodup) (ht : ∀ q ∈ qs, (q.2.map (·.1)).Nodup) :
    ∃ sets, readQueries positive (queryFile qs) = some (qs.map (·.1), sets)
      ∧ ∀ q ∈ qs, ∀ term w, weight sets q.1 term = some w ↔ (term, Value.real w) ∈ q.2 ∧ positive w = true := by
  refine ⟨_, readQueries_file positive qs, ?_⟩
  intro q hq term w
  have mem : ∀ topic t w, (topic, t, w) ∈ (qs.flatMap fun q => (weightsOf positive q.2).map fun e => (q.1, e.1, e.2))
      ↔ ∃ v, (topic, v) ∈ qs ∧ (t, Value.real w) ∈ v ∧ positive w = true := by
    intro topic t w
    simp only [List.mem_flatMap, List.mem_map, Prod.mk.injEq]
    constructor
    · rintro ⟨⟨n, v⟩, hm, ⟨t', w'⟩, he, rfl, rfl, rfl⟩
      exact ⟨v, hm, (weightsOf_mem positive).1 he⟩
    · rintro ⟨v, hm, he⟩
      exact ⟨(topic, v), hm, (t, w), (weightsOf_mem positive).2 he, rfl, rfl, rfl⟩
  generalize hs : (qs.flatMap fun q => (weightsOf positive q.2).map fun e => (q.1, e.1, e.2)) = sets at mem
  unfold weight
  constructor
  · intro h
    rw [Option.map_eq_some_iff] at h
    obtain ⟨⟨n, t, w'⟩, hf, rfl⟩ := h
    have hp := List.find?_some hf
    simp only [Bool.and_eq_true, beq_iff_eq] at hp
    obtain ⟨rfl, rfl⟩ := hp
    have hm := List.mem_of_find?_eq_some hf
    rw [List.mem_reverse] at hm
    obtain ⟨v, hv, h1, h2⟩ := (mem _ _ _).1 hm
    have : v = q.2 := unique_of_keys hd hv hq
    subst this
    exact ⟨h1, h2⟩
  · rintro ⟨h1, h2⟩
    have hm : (q.1, term, w) ∈ sets := (mem _ _ _).2 ⟨q.2, hq, h1, h2⟩
    rw [find_unique _ _ (q.1, term, w) (by simpa using hm) (by simp)]
    · rfl
    · rintro ⟨n, t, w'⟩ hy hp
      simp only [Bool.and_eq_true, beq_iff_eq] at hp
      obtain ⟨rfl, rfl⟩ := hp
      rw [List.mem_reverse] at hy
      obtain ⟨v, hv, h3, h4⟩ := (mem _ _ _).1 hy
      have : v = q.2 := unique_of_keys hd hv hq
      subst this
      have := unique_of_keys (ht q hq) h1 h3
      cases this
      rfl

/-- **The claim is false for queries whose weights are integers**: no term of any topic has a weight, and nothing is said. -/
theorem C92_whole (qs : List (Text × List (Text × Value Q))) (h : ∀ q ∈ qs, ∀ e ∈ q.2, ∃ v, e.2 = .int v) :
    readQueries positive (queryFile qs) = some (qs.map (·.1), []) := by
  rw [readQueries_file, Option.some.injEq, Prod.mk.injEq]
  refine ⟨rfl, ?_⟩
  rw [List.flatMap_eq_nil_iff]
  intro q hq
  have : weightsOf positive q.2 = [] := by
    unfold weightsOf
    rw [List.filterMap_eq_nil_iff]
    intro e he
    obtain ⟨v, hv⟩ := h q hq e he
    simp only [hv]
  rw [this]; rfl

/-! ### threads -/

theorem threadsOf_pos (o : Option Int) : 1 ≤ threadsOf o ∧ threadsOf o ≤ 50 := by
  unfold threadsOf
  split
  · omega
  · split <;> omega

theorem jobsFrom_mem {threads n : Nat} (ht : 1 ≤ threads) : ∀ (fuel i j : Nat), n ≤ i + fuel → (j ∈ jobsFrom threads n fuel i ↔ j < n ∧ i ≤ j ∧ (j - i) % threads = 0) := by
  intro fuel
  induction fuel with
  | zero => intro i j h; simp only [jobsFrom, List.not_mem_nil, false_iff]; omega
  | succ fuel ih =>
    intro i j h
    simp only [jobsFrom]
    split
    · next hi =>
      rw [List.mem_cons, ih (i + threads) j (by omega)]
      constructor
      · rintro (rfl | ⟨h1, h2, h3⟩)
        · exact ⟨hi, Nat.le_refl _, by simp⟩
        · refine ⟨h1, by omega, ?_⟩
          have : j - i = (j - (i + threads)) + threads := by omega
          rw [this, Nat.add_mod_right, h3]
      · rintro ⟨h1, h2, h3⟩
        by_cases he : j = i
        · exact .inl he
        · refine .inr ⟨h1, ?_, ?_⟩
          · have := Nat.le_of_dvd (by omega) (Nat.dvd_of_mod_eq_zero h3)
            omega
          · have hle := Nat.le_of_dvd (by omega) (Nat.dvd_of_mod_eq_zero h3)
            have : j - i = (j - (i + threads)) + threads := by omega
            rw [this, Nat.add_mod_right] at h3
            exact h3
    · next hi => simp only [List.not_mem_nil, false_iff]; omega

theorem jobs_mem {threads n i j : Nat} (hi : i < threads) : j ∈ jobs threads n i ↔ j < n ∧ j % threads = i := by
  unfold jobs
  rw [jobsFrom_mem (by omega) n i j (by omega)]
  constructor
  · rintro ⟨h1, h2, h3⟩
    refine ⟨h1, ?_⟩
    have : j = (j - i) + i := by omega
    rw [this, Nat.add_mod, h3, Nat.zero_add, Nat.mod_mod, Nat.mod_eq_of_lt hi]
  · rintro ⟨h1, h2⟩
    have hle : i ≤ j := by rw [← h2]; exact Nat.mod_le _ _
    refine ⟨h1, hle, ?_⟩
    have := Nat.mod_add_div j threads
    rw [h2] at this
    have : j - i = threads * (j / threads) := by omega
    rw [this, Nat.mul_mod_right]

theorem jobsFrom_nodup {threads n : Nat} (ht : 1 ≤ threads) : ∀ (fuel i : Nat), (jobsFrom threads n fuel i).Nodup ∧ ∀ j ∈ jobsFrom threads n fuel i, i ≤ j := by
  intro fuel
  induction fuel with
  | zero => intro i; simp [jobsFrom]
  | succ fuel ih =>
    intro i
    simp only [jobsFrom]
    split
    · obtain ⟨h1, h2⟩ := ih (i + threads)
      refine ⟨List.nodup_cons.2 ⟨fun h => by have := h2 i h; omega, h1⟩, ?_⟩
      intro j hj
      rcases List.mem_cons.1 hj with rfl | hj
      · exact Nat.le_refl _
      · have := h2 j hj; omega
    · simp

theorem runs_perm {β : Type} {ws : List (List β)} {out : List β} (h : Runs ws out) : out.Perm ws.flatten := by
  induction h with
  | done h => rw [List.flatten_eq_nil_iff.2 h]
  | @step ws i x xs out hi _ ih =>
    have key : ∀ (ws : List (List β)) (i : Nat), ws[i]? = some (x :: xs) → ws.flatten.Perm (x :: (ws.set i xs).flatten) := by
      intro ws
      induction ws with
      | nil => intro i h; simp at h
      | cons w ws ihw =>
        intro i h
        cases i with
        | zero =>
          simp only [List.getElem?_cons_zero, Option.some.injEq] at h
          subst h
          simp
        | succ i =>
          simp only [List.getElem?_cons_succ] at h
          simp only [List.set_cons_succ, List.flatten_cons]
          exact (List.Perm.append_left w (ihw i h)).trans List.perm_middle
    exact (List.Perm.cons x ih).trans (key ws i hi).symm

theorem jobs_flatten {threads n : Nat} (ht : 1 ≤ threads) : (((List.range threads).map (jobs threads n)).flatten).Perm (List.range n) := by
  rw [List.perm_ext_iff_of_nodup]
  · intro j
    simp only [List.mem_flatten, List.mem_map, List.mem_range]
    constructor
    · rintro ⟨_, ⟨i, hi, rfl⟩, hj⟩
      exact ((jobs_mem hi).1 hj).1
    · intro hj
      exact ⟨_, ⟨j % threads, Nat.mod_lt _ (by omega), rfl⟩, (jobs_mem (Nat.mod_lt _ (by omega))).2 ⟨hj, rfl⟩⟩
  · unfold List.Nodup
    rw [List.pairwise_flatten]
    refine ⟨?_, ?_⟩
    · intro l hl
      obtain ⟨i, -, rfl⟩ := List.mem_map.1 hl
      exact (jobsFrom_nodup ht n i).1
    · rw [List.pairwise_map]
      refine List.Pairwise.imp_of_mem ?_ List.nodup_range
      intro i i' hi hi' hne
      rw [List.mem_range] at hi hi'
      rintro j h _ h' rfl
      have := ((jobs_mem hi).1 h).2
      have := ((jobs_mem hi').1 h').2
      omega
  · exact List.nodup_range

/-- **C92** (threads): however many threads are asked for, and in whichever order they get to print, the answer to each topic of the file is printed once, and nothing else:
the answers are those of the topics in some order. -/
theorem C92_answers {β : Type} (option : Option Int) (topics : List Text) (answer : Text → β) (out : List β)
    (h : Runs ((List.range (threadsOf option)).map fun i => (jobs (threadsOf option) topics.length i).filterMap fun j => (topics[j]?).map answer) out) :
    out.Perm (topics.map answer) := by
  have h1 := runs_perm h
  have h2 := jobs_flatten (n := topics.length) (threadsOf_pos option).1
  have h3 := h2.filterMap (fun j => (topics[j]?).map answer)
  have h4 : (List.range topics.length).filterMap (fun j => (topics[j]?).map answer) = topics.map answer := by
    clear h h1 h2 h3
    have : ∀ (l : List Text) (k : Nat) (pre : List Text), pre.length = k →
        (List.range' k l.length).filterMap (fun j => ((pre ++ l)[j]?).map answer) = l.map answer := by
      intro l
      induction l with
      | nil => intro k pre _; rfl
      | cons x l ih =>
        intro k pre hk
        rw [List.length_cons, List.range'_succ, List.filterMap_cons]
        have e : (pre ++ x :: l)[k]? = some x := by rw [List.getElem?_append_right (by omega)]; simp [hk]
        rw [e]
        have := ih (k + 1) (pre ++ [x]) (by simp [hk])
        rw [List.append_assoc, List.singleton_append] at this
        simp only [Option.map_some, this, List.map_cons]
    have := this topics 0 [] rfl
    rw [List.range_eq_range']
    simpa using this
  rw [h4] at h3
  refine h1.trans ?_
  have : ((List.range (threadsOf option)).map fun i => (jobs (threadsOf option) topics.length i).filterMap fun j => (topics[j]?).map answer).flatten
      = (((List.range (threadsOf option)).map (jobs (threadsOf option) topics.length)).flatten).filterMap (fun j => (topics[j]?).map answer) := by
    rw [List.filterMap_flatten, List.map_map]; rfl
  rw [this]
  exact h3

/-- **The claim is false when a topic has no weights**: with two or more topics and threads, another thread may be using the table of queries while the
topic is inserted into it; and there is no such race if all topics have some. -/
theorem C92_race (threads : Nat) (topics : List Text) (sets : List (Text × Text × Q)) :
    Race threads topics sets ↔ 2 ≤ threads ∧ 2 ≤ topics.length ∧ ∃ topic ∈ topics, ∀ e ∈ sets, e.1 ≠ topic := by
  constructor
  · rintro ⟨i, i', j, j', topic, hi, hi', hne, hj, hj', ht, hs⟩
    have a := (jobs_mem hi).1 hj
    have b := (jobs_mem hi').1 hj'
    refine ⟨by omega, ?_, topic, List.mem_of_getElem? ht, hs⟩
    have : j ≠ j' := by rintro rfl; omega
    omega
  · rintro ⟨h1, h2, topic, ht, hs⟩
    obtain ⟨j, hj⟩ := List.getElem?_of_mem ht
    have hlt : j < topics.length := by
      rcases Nat.lt_or_ge j topics.length with h | h
      · exact h
      · rw [List.getElem?_eq_none h] at hj; cases hj
    by_cases h0 : j % threads = 0
    · exact ⟨0, 1, j, 1, topic, by omega, by omega, by omega, (jobs_mem (by omega)).2 ⟨hlt, h0⟩,
        (jobs_mem (by omega)).2 ⟨by omega, Nat.mod_eq_of_lt (by omega)⟩, hj, hs⟩
    · have hm : j % threads < threads := Nat.mod_lt _ (by omega)
      exact ⟨j % threads, 0, j, 0, topic, hm, by omega, h0, (jobs_mem hm).2 ⟨hlt, rfl⟩, (jobs_mem (by omega)).2 ⟨by omega, by simp⟩, hj, hs⟩

/-! ### concrete cases -/

/-- documents `r-1-2` and `r-1`, with the words of their names -/
def namedDocs : List Doc := [⟨0, [['r'], ['1'], ['2']]⟩, ⟨10, [['r'], ['1']]⟩]

def spladePhrase (t : Text) : Option (List Text) :=
  if t = ['r', '-', '1', '-', '2'] then some [['r'], ['1'], ['2']]
  else if t = ['r', '-', '1'] then some [['r'], ['1']]
  else if t = ['x'] then some [['x']] else none

def goodRecord : Line Nat := .record (some ['r', '-', '1', '-', '2']) (some [(['c', 'a', 't'], .int 3), (['d', 'o', 'g'], .int 0), (['e', 'l', 'k'], .real 2)])

/-- the vector of `r-1` is added to `r-1-2` -/
theorem C92_wrong_case : annotate namedDocs spladePhrase true [Line.record (Q := Nat) (some ['r', '-', '1']) (some [(['c', 'a', 't'], .int 7)])]
    = (.zero, [⟨['c', 'a', 't'], 0, 7⟩]) := by decide +kernel

theorem says_case : Says namedDocs spladePhrase [.bad, goodRecord, .record (some ['x']) (some [])]
    [(⟨0, [['r'], ['1'], ['2']]⟩, [(['c', 'a', 't'], .int 3), (['d', 'o', 'g'], .int 0), (['e', 'l', 'k'], .real 2)])] := by
  refine .bad (.vector (d := ⟨0, [['r'], ['1'], ['2']]⟩) (by decide) (by simp) (by simp [namedDocs]) ?_ (.unknown (ws := [['x']]) (by decide) ?_ .nil))
  · intro d' hd h
    simp only [← occurs_iff] at h
    simp only [namedDocs, List.mem_cons, List.not_mem_nil, or_false] at hd
    rcases hd with rfl | rfl
    · rfl
    · exact absurd h (by decide)
  · intro d hd h
    simp only [← occurs_iff] at h
    simp only [namedDocs, List.mem_cons, List.not_mem_nil, or_false] at hd
    rcases hd with rfl | rfl
    · exact absurd h (by decide)
    · exact absurd h (by decide)

example : annotate namedDocs spladePhrase true [.bad, goodRecord, .record (some ['x']) (some [])] = (.zero, [⟨['c', 'a', 't'], 0, 3⟩]) := by
  rw [C92_vectors_partial _ _ _ _ says_case (by
    intro r hr e he v hv
    simp only [List.mem_cons, List.not_mem_nil, or_false] at hr
    subst hr
    simp only [List.mem_cons, List.not_mem_nil, or_false] at he
    rcases he with rfl | rfl | rfl
    · cases hv; decide
    · cases hv; decide
    · cases hv)]; decide

example : annotate namedDocs spladePhrase true ([.bad, goodRecord, .record (some ['x']) (some [])] ++ .record (some ['"']) (some []) :: []) = (.one, []) :=
  (C92_lost _ _ true _ _ _ says_case).1 _ _ (by decide)

/-- **C92** (lines that do not count): a line of the queries that is no JSON, or that has no name, is passed over wherever it is, as if it was not there; one that is JSON but no record ends the program -/
theorem C92_passed (before after : List (Line Q)) (vector : Option (List (Text × Value Q))) :
    readQueries positive (before ++ .bad :: after) = readQueries positive (before ++ after)
    ∧ readQueries positive (before ++ .record none vector :: after) = readQueries positive (before ++ after)
    ∧ readQueries positive (before ++ .over :: after) = none ∧ readQueries positive (before ++ .other :: after) = none := by
  induction before with
  | nil => exact ⟨rfl, rfl, rfl, rfl⟩
  | cons l before ih =>
    obtain ⟨h1, h2, h3, h4⟩ := ih
    cases l with
    | bad => exact ⟨h1, h2, h3, h4⟩
    | over => exact ⟨rfl, rfl, rfl, rfl⟩
    | other => exact ⟨rfl, rfl, rfl, rfl⟩
    | record name v =>
      cases name with
      | none => exact ⟨h1, h2, h3, h4⟩
      | some t => simp only [List.cons_append, readQueries, h1, h2, h3, h4, and_self]

/-- **The claim is false for names that are there twice**: the weights of both queries are those of the topic, and both get the same answer. -/
theorem C92_repeated : readQueries (fun w : Nat => decide (w > 0)) (queryFile [(['a'], [(['c'], .real 1), (['d'], .real 2)]), (['a'], [(['c'], .real 5)])])
      = some ([['a'], ['a']], [(['a'], ['c'], 1), (['a'], ['d'], 2), (['a'], ['c'], 5)])
    ∧ weight [(['a'], ['c'], 1), (['a'], ['d'], 2), (['a'], ['c'], 5)] ['a'] ['c'] = some 5
    ∧ weight [(['a'], ['c'], 1), (['a'], ['d'], 2), (['a'], ['c'], 5)] ['a'] ['d'] = some 2 := by
  refine ⟨?_, ?_, ?_⟩ <;> decide

example : ∃ sets, readQueries (fun w : Nat => decide (w > 0)) (queryFile [(['a'], [(['c'], .real 1), (['d'], .int 2)]), (['b'], [(['c'], .real 0)])]) = some ([['a'], ['b']], sets)
    ∧ weight sets ['a'] ['c'] = some 1 := by
  obtain ⟨sets, h1, h2⟩ := C92_queries_partial (fun w : Nat => decide (w > 0)) [(['a'], [(['c'], .real 1), (['d'], .int 2)]), (['b'], [(['c'], .real 0)])]
    (by decide) (by simp)
  exact ⟨sets, h1, (h2 (['a'], [(['c'], .real 1), (['d'], .int 2)]) (by simp) ['c'] 1).2 (by simp)⟩

/-- three topics and two threads -/
example : Runs ((List.range (threadsOf (some 2))).map fun i => (jobs (threadsOf (some 2)) 3 i).filterMap fun j => ([['a'], ['b'], ['c']][j]?).map List.length) [1, 1, 1] := by
  have e : ((List.range (threadsOf (some 2))).map fun i => (jobs (threadsOf (some 2)) 3 i).filterMap fun j => ([['a'], ['b'], ['c']][j]?).map List.length) = [[1, 1], [1]] := by
    decide +kernel
  rw [e]
  exact .step (i := 1) rfl (.step (i := 0) rfl (.step (i := 0) rfl (.done (by simp))))

example : Race 2 [['a'], ['b']] [(['a'], ['c'], 1)] :=
  (C92_race 2 _ _).2 ⟨by omega, by simp, ['b'], by simp, by simp⟩

end Verif.Props
