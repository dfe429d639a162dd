import Verif.Props.Bm25
import Verif.Terms.Read
/-
  Properties of term statistics (C46).
-/
namespace Verif.Props
open Verif.Hopper Verif.Gcl Verif.Rank Verif.Terms

section
variable {Tok Stem : Type} [DecidableEq Tok] [DecidableEq Stem]

/-- **C46**, foraging: `forage` with a query, over the solutions that lie in `[start, stop]`, with any
number of threads: no worker fails, and what the workers commit, in whatever order, is the
statistics of these documents. -/
theorem C46_forage (E : Env Tok Stem) (A : E.F.Apart) (cores threads : Nat) (ix : Index)
    (count : Option (List Char → Int)) {c : SExpr} (hc : Legal c) {D : List Ann} (hD : Lists D (den ix.solutions c))
    {start stop : Int} (h1 : minfinity ≤ start) (h1' : start ≤ maxfinity) (h2 : stop ≤ maxfinity) :
    ∃ (K : Obj) (l : List (Int × Int)) (ns : List (List Note)),
      compile ix count c = some K ∧ intervals K start stop = some l ∧ forage E cores threads l = ns.map some ∧
      ∀ notes, notes.Perm ns.flatten →
        Recorded E.F (fun d => (E.read d.p d.q).map E.stem) (D.filter fun d => decide (start ≤ d.p ∧ d.q ≤ stop)) notes := by
  obtain ⟨K, eK, J, hJ⟩ := compile_impl ix count c hc
  have sD : den ix.solutions c = ofList D := by funext a; exact propext (hD.2 a).symm
  rw [sD] at hJ
  have hs := hD.1.sorted.filter fun d => decide (start ≤ d.p ∧ d.q ≤ stop)
  obtain ⟨ns, e, r⟩ := forage_ok A (D := D.filter fun d => decide (start ≤ d.p ∧ d.q ≤ stop))
    (fun d hd => by
      have := hD.1.bounds d (List.mem_filter.1 hd).1
      exact ⟨by omega, by omega, by omega⟩)
    (hs.imp fun h => by omega) cores threads
  exact ⟨K, _, ns, eK, intervals_ok hD.1 hJ ⟨h1, h1'⟩ h2, e, fun notes hp => recorded_perm r hp.symm⟩

/-- Documents come in order. -/
structure InOrder (D : List Ann) : Prop where
  sorted : D.Pairwise fun a b => a.p < b.p ∧ a.q < b.q
  le : ∀ d ∈ D, d.p ≤ d.q

/-- **C46**, over the whole of a text: `tf_df_annotations` commits the statistics of the documents,
however long they are, if the text has one token at each address between them (`C46_gap`). -/
theorem C46_whole_partial (E : Env Tok Stem) (A : E.F.Apart) (huge : Int) {D : List Ann} (hD : InOrder D) (hne : D ≠ [])
    (tok : Int → Tok) (ht : ∀ a ∈ D, ∀ b ∈ D, a.p ≤ b.p → E.read a.p b.q = (span a.p b.q).map tok) :
    ∃ notes, tfDfAnnotations E huge D = some (some notes) ∧
      Recorded E.F (fun d => (E.read d.p d.q).map E.stem) D notes := by
  have hR : Run D := ⟨hD.sorted, hD.le⟩
  exact ⟨_, tfDf_ok A huge hR ht hne, run_recorded A (docs_nodup hR) 0⟩

/-- **C46**, over a range: `tf_annotations` commits the counts of the documents that lie in
`[start, stop]`, if also the last of them ends at `stop` (`C46_range_end`), and there is none that
starts there or later but ends after `stop`. -/
theorem C46_range_partial (E : Env Tok Stem) (A : E.F.Apart) (huge start stop : Int) {D : List Ann} (hD : InOrder D)
    (tok : Int → Tok) (ht : ∀ a ∈ D, ∀ b ∈ D, a.p ≤ b.p → E.read a.p b.q = (span a.p b.q).map tok)
    (hs : ∀ d ∈ D, start ≤ d.p → d.q ≤ stop) (hlast : ∃ d ∈ D, start ≤ d.p ∧ d.q = stop) :
    ∃ notes, tfAnnotations E huge start stop D = some (some notes) ∧
      Counted E.F (fun d => (E.read d.p d.q).map E.stem) (D.filter fun d => decide (start ≤ d.p)) notes := by
  generalize hD' : D.filter (fun d => decide (start ≤ d.p)) = D'
  have sub : D'.Sublist D := by rw [← hD']; exact List.filter_sublist
  have mem : ∀ d, d ∈ D' ↔ d ∈ D ∧ start ≤ d.p := fun d => by rw [← hD', List.mem_filter]; simp
  have hR : Run D' := ⟨hD.sorted.sublist sub, fun d hd => hD.le d (sub.mem hd)⟩
  obtain ⟨d0, m0, h0, e0⟩ := hlast
  have hm0 := (mem d0).2 ⟨m0, h0⟩
  have hl : ∀ d, D'.getLast? = some d → d.q = stop := by
    intro d hd
    obtain ⟨m, rfl⟩ := List.getLast?_eq_some_iff.1 hd
    have h1 := hs d ((mem d).1 (by simp)).1 ((mem d).1 (by simp)).2
    rcases List.mem_append.1 hm0 with h | h
    · have := (List.pairwise_append.1 hR.sorted).2.2 d0 h d (by simp)
      omega
    · simp only [List.mem_cons, List.not_mem_nil, or_false] at h
      subst h; exact e0
  have := tfLoop_ok A huge stop hR (tok := tok) (fun a ha b hb => ht a (sub.mem ha) b (sub.mem hb))
    (fun d hd => hs d ((mem d).1 hd).1 ((mem d).1 hd).2) hl D' [] [] rfl (fun _ => rfl)
  have e1 : tfLoop E huge stop D' 0 0 [] [] = _ := this
  unfold tfAnnotations
  rw [hD', e1]
  dsimp only
  have hpos : 0 < D'.length := List.length_pos_of_mem hm0
  rw [if_neg (by omega), annotate_pos A.items_pos, annotate_pos A.length_pos]
  refine ⟨_, rfl, ?_⟩
  have r := (run_recorded (words := E.words) A (docs_nodup hR) start)
  have nd : ∀ n ∈ (dfCounts E.F E.words D').map (fun x => (⟨x.1, start, x.2⟩ : Note)), ∃ s, n.feature = E.F.df s := by
    intro n hn
    obtain ⟨x, hx, rfl⟩ := List.mem_map.1 hn
    obtain ⟨_, _, s, _, e⟩ := dfFeatures_mem.1 (List.mem_map.2 ⟨x, hx, rfl⟩)
    exact ⟨s, e⟩
  have tot : ∀ f, (∀ s, f ≠ E.F.df s) → total (tfNotes E.F E.words D' ++ [⟨E.F.items, start, D'.length⟩] ++
      [⟨E.F.length, start, lengths D'⟩]) f = total (runNotes E.F E.words start D') f := by
    intro f hf
    unfold runNotes
    rw [total_append, total_append, total_append, total_append, total_none (a := List.map _ _)]
    · have : ∀ a b : Note, total [a, b] f = total [a] f + total [b] f := fun a b => total_append [a] [b] f
      rw [this]; omega
    · intro n hn e
      obtain ⟨s, h⟩ := nd n hn
      exact hf s (by rw [← e, h])
  refine ⟨?_, ?_, ?_, ?_, ?_⟩
  · intro s p v
    refine Iff.trans ?_ (r.tf s p v)
    unfold runNotes
    simp only [List.mem_append, List.mem_cons, List.not_mem_nil, or_false]
    constructor
    · rintro ((h | h) | h)
      · exact Or.inl (Or.inl h)
      · exact Or.inr (Or.inl h)
      · exact Or.inr (Or.inr h)
    · rintro ((h | h) | h | h)
      · exact Or.inl (Or.inl h)
      · obtain ⟨t, e⟩ := nd _ h
        exact absurd e (A.tf_df s t)
      · exact Or.inl (Or.inr h)
      · exact Or.inr h
  · intro s
    rw [← tf_amount A, amount_append, amount_append, amount_none (a := [_]), amount_none (a := [_])]
    · rfl
    · intro n hn e
      simp only [List.mem_cons, List.not_mem_nil, or_false] at hn
      subst hn
      exact A.tf_length s e.symm
    · intro n hn e
      simp only [List.mem_cons, List.not_mem_nil, or_false] at hn
      subst hn
      exact A.tf_items s e.symm
  · rw [tot _ fun s e => A.df_items s e.symm]; exact r.items
  · rw [tot _ fun s e => A.df_length s e.symm]; exact r.length
  · refine List.Nodup.sublist (List.Sublist.map _ ?_) r.once
    unfold runNotes
    rw [List.append_assoc, List.append_assoc]
    exact List.Sublist.append (List.Sublist.refl _) (List.sublist_append_right _ _)

/-! ### reading the statistics -/

/-- The index has the annotations `notes`: `L f` are those of a feature, in order, and `H f` is the
hopper over them. -/
structure HasNotes (notes : List Note) (L : Int → List Ann) (H : Int → Obj) : Prop where
  listing : ∀ f, Listing (L f)
  hopper : ∀ f, Implements (H f) (ofList (L f))
  mem : ∀ f a, a ∈ L f ↔ ∃ n ∈ notes, n.feature = f ∧ a = ⟨n.p, n.p, n.v⟩

theorem sum_total {notes : List Note} (ho : (notes.map fun n => (n.feature, n.p)).Nodup) {L : Int → List Ann}
    {H : Int → Obj} (h : HasNotes notes L H) (f : Int) : sumAll (H f) = some (total notes f) := by
  obtain ⟨I, hI⟩ := h.hopper f
  rw [sumAll_ok (h.listing f) hI, sum_perm ((feature_perm ho (h.listing f) (h.mem f)).map Ann.v), List.map_map]
  rfl

/-- **C46**, totals: `items_` and the length that `DfStats` and `TfIdfStats` find are the number of
documents and their length. -/
theorem C46_totals {F : Features Stem} {words : Ann → List Stem} {D : List Ann} {notes : List Note}
    (hn : Counted F words D notes) (hne : D ≠ []) (hD : ∀ d ∈ D, d.p ≤ d.q) {L : Int → List Ann} {H : Int → Obj}
    (h : HasNotes notes L H) :
    readTotals (H F.items) (H F.length) = some (some ((D.length : Int), (D.map fun d => d.q - d.p + 1).sum)) := by
  unfold readTotals
  rw [sum_total hn.once h, sum_total hn.once h, hn.items, hn.length]
  have hpos : 0 < D.length := by cases D <;> simp at hne ⊢
  have hl : ∀ l : List Ann, (∀ d ∈ l, d.p ≤ d.q) → (l.length : Int) ≤ (l.map fun d => d.q - d.p + 1).sum := by
    intro l
    induction l with
    | nil => intro _; simp
    | cons d l ih =>
      intro h
      have h1 := h d (List.mem_cons_self ..)
      have h2 := ih fun x hx => h x (List.mem_cons_of_mem _ hx)
      simp only [List.map_cons, List.sum_cons, List.length_cons]
      omega
  have := hl D hD
  dsimp only
  rw [if_neg (by omega), if_neg (by omega)]

/-- **C46**, document frequency: the number of annotations that the index counts for a term
(`load_df`) is the number of the documents that have it. -/
theorem C46_df {F : Features Stem} {words : Ann → List Stem} {D : List Ann} {notes : List Note}
    (hn : Counted F words D notes) {L : Int → List Ann} {H : Int → Obj} (h : HasNotes notes L H) (s : Stem) :
    (L (F.tf s)).length = docsWith words D s := by
  rw [(feature_perm hn.once (h.listing _) (h.mem _)).length_eq, List.length_map]
  exact hn.amount s

/-- what a term weighs: nothing if more than half of the documents have it -/
def rsjWeight (log : Rat → Rat) (words : Ann → List Stem) (D : List Ann) (s : Stem) : Rat :=
  let n : Rat := (D.length : Int)
  let m : Rat := (docsWith words D s : Int)
  max 0 (log ((n - m + 1 / 2) / (m + 1 / 2)))

/-- the average length of the documents -/
def avgLength (D : List Ann) : Rat := ((D.map fun d => d.q - d.p + 1).sum : Int) / ((D.length : Int) : Rat)

/-- what a term, with its weight in the query, adds to the score of a document -/
def termScore (log : Rat → Rat) (words : Ann → List Stem) (D : List Ann) (b k1 : Rat) (d : Ann) (t : Rat × Stem) : Rat :=
  if (words d).contains t.2 then
    bm25 (fun v => v) (avgLength D) b k1 (t.1 * rsjWeight log words D t.2) ((words d).count t.2) (d.q - d.p + 1)
  else 0

/-- the documents that have some term of the query that weighs something, with their BM25 scores -/
def bm25Documents (log : Rat → Rat) (words : Ann → List Stem) (D : List Ann) (b k1 : Rat) (query : List (Rat × Stem)) :
    List (Result Rat) :=
  (D.filter fun d => query.any fun t => rsjWeight log words D t.2 != 0 && (words d).contains t.2).map fun d =>
    ⟨d.p, d.q, d.p, d.q, tot (query.map (termScore log words D b k1 d))⟩

theorem tot_filter {α : Type} {keep : α → Bool} {f g : α → Rat} : ∀ (l : List α),
    (∀ t ∈ l, keep t = true → f t = g t) → (∀ t ∈ l, keep t = false → g t = 0) →
    tot ((l.filter keep).map f) = tot (l.map g)
  | [], _, _ => rfl
  | a :: l, h1, h2 => by
    have ih := tot_filter l (fun t ht => h1 t (List.mem_cons_of_mem _ ht)) (fun t ht => h2 t (List.mem_cons_of_mem _ ht))
    have e : tot ((a :: l).map g) = g a + tot (l.map g) := rfl
    rw [List.filter_cons, e, ← ih]
    by_cases hk : keep a = true
    · rw [if_pos hk, ← h1 a (List.mem_cons_self ..) hk]; rfl
    · rw [if_neg hk, h2 a (List.mem_cons_self ..) (by simpa using hk), Rat.zero_add]

theorem docs_contains {F : Features Stem} {words : Ann → List Stem} {D : List Ann} {notes : List Note}
    (hn : Counted F words D notes) (hD : Listing D) {L : Int → List Ann} {H : Int → Obj} (h : HasNotes notes L H)
    (w r : Rat) (s : Stem) {d : Ann} (hd : d ∈ D) :
    (Asked.docs id D ⟨w, r, L (F.tf s), H (F.tf s)⟩).find? (fun a => a.p == d.p) =
      if (words d).contains s then some ⟨d.p, d.q, (words d).count s⟩ else none := by
  have tf : ∀ d' ∈ D, ∀ a, (L (F.tf s)).find? (fun a => a.p == d'.p) = some a → s ∈ words d' ∧ a.v = (words d').count s := by
    intro d' hd' a ha
    have hp := List.find?_some ha
    simp only [beq_iff_eq] at hp
    obtain ⟨n, hm, hf, rfl⟩ := (h.mem _ a).1 (List.mem_of_find?_eq_some ha)
    obtain ⟨f, p, v⟩ := n
    dsimp only at hf hp
    subst hf hp
    obtain ⟨d'', g1, g2, g3, g4⟩ := (hn.tf s d'.p v).1 hm
    have := hD.wf.uniq (a := d'') (b := d') g1 hd' g2
    subst this
    exact ⟨g3, g4⟩
  rcases hf : (Asked.docs id D ⟨w, r, L (F.tf s), H (F.tf s)⟩).find? (fun a => a.p == d.p) with _ | a
  · by_cases hs : (words d).contains s
    · have hm := (hn.tf s d.p _).2 ⟨d, hd, rfl, by simpa using hs, rfl⟩
      have ha := (h.mem (F.tf s) ⟨d.p, d.p, (words d).count s⟩).2 ⟨_, hm, rfl, rfl⟩
      rcases hg : (L (F.tf s)).find? (fun a => a.p == d.p) with _ | x
      · have := List.find?_eq_none.1 hg _ ha
        simp at this
      · have := List.find?_eq_none.1 hf ⟨d.p, d.q, x.v⟩ (docs_mem.2 ⟨d, hd, x, hg, rfl⟩)
        simp at this
    · rw [if_neg hs, hf]
  · have hp := List.find?_some hf
    simp only [beq_iff_eq] at hp
    obtain ⟨d', hd', x, hx, rfl⟩ := docs_mem.1 (List.mem_of_find?_eq_some hf)
    have := hD.wf.uniq (a := d') (b := d) hd' hd hp
    subst this
    obtain ⟨g1, g2⟩ := tf d' hd' x hx
    rw [if_pos (by simpa using g1)]
    rw [hf]; simp [g2]

/-- **C46**, ranking: over an index with the statistics of the documents, `bm25_ranking`, with the
average length, the `rsj` and the hoppers that the statistics give it, returns the best of the
documents by the counts of their terms.  Scores are exact, `log` is any function. -/
theorem C46_bm25_partial {F : Features Stem} {words : Ann → List Stem} {notes : List Note} (log : Rat → Rat)
    {b k1 : Rat} (hk : 0 ≤ k1) (hb : 0 ≤ b) (hb' : b ≤ 1)
    {order : List Leg → List Leg} (horder : Orders order)
    {sort : List (Result Rat) → List (Result Rat)} (hsort : SortsBy ratScores sort)
    (ix : Index) (count : Option (List Char → Int)) {c : SExpr} (hc : Legal c) {D : List Ann}
    (hD : Lists D (den ix.solutions c)) (hne : D ≠ []) (hn : Counted F words D notes)
    {L : Int → List Ann} {H : Int → Obj} (h : HasNotes notes L H)
    {query : List (Rat × Stem)} (hq : ∀ t ∈ query, 0 < t.1) (depth : Nat) :
    ∃ K n m R, compile ix count c = some K ∧ readTotals (H F.items) (H F.length) = some (some (n, m)) ∧
      bm25Ranking (bm25 (fun v => v) (m / n) b k1) order sort depth
        (query.map fun t => (t.1, rsj log n (L (F.tf t.2)).length, tfObj id (H (F.tf t.2)) K)) = some R ∧
      Top ratScores depth (bm25Documents log words D b k1 query) R := by
  have hle : ∀ d ∈ D, d.p ≤ d.q := fun d hd => (hD.1.bounds d hd).2.1
  have et := C46_totals hn hne hle h
  have hpos : 0 < D.length := by cases D <;> simp at hne ⊢
  have hsum : (0 : Int) < (D.map fun d => d.q - d.p + 1).sum := by
    cases D with
    | nil => simp at hpos
    | cons d D =>
      have : ∀ l : List Ann, (∀ d ∈ l, d.p ≤ d.q) → (0 : Int) ≤ (l.map fun d => d.q - d.p + 1).sum := by
        intro l
        induction l with
        | nil => intro _; simp
        | cons d l ih =>
          intro h
          have h1 := h d (List.mem_cons_self ..)
          have h2 := ih fun x hx => h x (List.mem_cons_of_mem _ hx)
          simp only [List.map_cons, List.sum_cons]
          omega
      have h1 := hle d (List.mem_cons_self ..)
      have h2 := this D fun x hx => hle x (List.mem_cons_of_mem _ hx)
      simp only [List.map_cons, List.sum_cons]
      omega
  have ha : 0 < avgLength D := by
    have h1 : (0 : Rat) < ((D.map fun d => d.q - d.p + 1).sum : Int) := by exact_mod_cast hsum
    have h2 : (0 : Rat) < ((D.length : Int) : Rat) := by exact_mod_cast hpos
    unfold avgLength
    rw [Rat.div_def]
    exact Rat.mul_pos h1 (Rat.inv_pos.2 h2)
  -- the terms, as C45 has them
  let ask : Rat × Stem → Asked := fun t => ⟨t.1, rsj log D.length (L (F.tf t.2)).length, L (F.tf t.2), H (F.tf t.2)⟩
  have rsj_nonneg : ∀ n m, 0 ≤ rsj log n m := by
    intro n m
    unfold rsj
    split
    · exact Rat.le_refl
    · dsimp only; split <;> grind
  have good : ∀ t ∈ query.map ask, t.Good id (fun v => v) D := by
    intro t ht
    obtain ⟨u, hu, rfl⟩ := List.mem_map.1 ht
    refine ⟨h.listing _, h.hopper _, ?_, ?_, ?_⟩
    · intro a ha
      obtain ⟨n, hm, hf, rfl⟩ := (h.mem _ a).1 ha
      obtain ⟨f, p, v⟩ := n
      dsimp only at hf
      subst hf
      obtain ⟨d, g1, g2, _⟩ := (hn.tf _ p v).1 hm
      exact ⟨d, g1, g2⟩
    · intro a ha
      obtain ⟨n, hm, hf, rfl⟩ := (h.mem _ a).1 ha
      obtain ⟨f, p, v⟩ := n
      dsimp only at hf
      subst hf
      obtain ⟨d, g1, g2, g3, g4⟩ := (hn.tf _ p v).1 hm
      have : 0 < (words d).count u.2 := List.count_pos_iff.2 g3
      show (0 : Rat) < (v : Int)
      have : 0 < v := by omega
      exact_mod_cast this
    · intro hr
      have h1 : 0 < u.1 := hq u hu
      have h2 : 0 ≤ (ask u).rsj := rsj_nonneg _ _
      have h3 : 0 < (ask u).rsj := by grind
      exact Rat.mul_pos h1 h3
  obtain ⟨K, R, eK, eR, hR⟩ := C45_bm25_partial (num := id) rfl (fun v => v) hk hb hb' ha horder hsort ix count hc hD good depth
  refine ⟨K, D.length, _, R, eK, et, ?_, ?_⟩
  · rw [List.map_map] at eR
    exact eR
  · have rj : ∀ t : Rat × Stem, (ask t).rsj = if docsWith words D t.2 = 0 then 0 else rsjWeight log words D t.2 := by
      intro t
      show rsj log D.length (L (F.tf t.2)).length = _
      rw [C46_df hn h]
      unfold rsj rsjWeight
      by_cases h0 : docsWith words D t.2 = 0
      · simp [h0]
      · rw [if_neg (by omega), if_neg h0]
        dsimp only
        generalize log _ = x
        split <;> grind
    have wd : ∀ d ∈ D, ∀ t : Rat × Stem, (words d).contains t.2 = true → (ask t).rsj = rsjWeight log words D t.2 := by
      intro d hd t ht
      rw [rj, if_neg]
      intro e
      have : d ∈ D.filter fun d => (words d).contains t.2 := List.mem_filter.2 ⟨hd, ht⟩
      have := List.length_pos_of_mem this
      unfold docsWith at e
      omega
    have eq : ranked (bm25 (fun v => v) (avgLength D) b k1)
        (((query.map ask).filter fun t => t.rsj != 0).map (Asked.term id D)) D minfinity maxfinity =
        bm25Documents log words D b k1 query := by
      unfold ranked bm25Documents
      have e1 : (D.filter fun d => decide (minfinity ≤ d.p ∧ d.p < maxfinity) &&
          occurs (((query.map ask).filter fun t => t.rsj != 0).map (Asked.term id D)) d) =
          D.filter fun d => query.any fun t => rsjWeight log words D t.2 != 0 && (words d).contains t.2 := by
        apply List.filter_congr
        intro d hd
        have hb := hD.1.bounds d hd
        have h1 : decide (minfinity ≤ d.p ∧ d.p < maxfinity) = true := by simp only [decide_eq_true_eq]; omega
        rw [h1, Bool.true_and]
        rw [Bool.eq_iff_iff]
        unfold occurs
        rw [List.any_eq_true, List.any_eq_true]
        constructor
        · rintro ⟨u, hu, hx⟩
          obtain ⟨t', hf, rfl⟩ := List.mem_map.1 hu
          obtain ⟨hm, hr⟩ := List.mem_filter.1 hf
          obtain ⟨t, ht, rfl⟩ := List.mem_map.1 hm
          obtain ⟨a, ha, he⟩ := List.any_eq_true.1 hx
          have hc := docs_contains hn hD.1 h t.1 (rsj log D.length (L (F.tf t.2)).length) t.2 hd
          by_cases hs : (words d).contains t.2 = true
          · refine ⟨t, ht, ?_⟩
            rw [wd d hd t hs] at hr
            rw [hr, hs]; rfl
          · rw [if_neg hs] at hc
            exact absurd he (List.find?_eq_none.1 hc a ha)
        · rintro ⟨t, ht, hx⟩
          rw [Bool.and_eq_true] at hx
          obtain ⟨hr, hs⟩ := hx
          have hc := docs_contains hn hD.1 h t.1 (rsj log D.length (L (F.tf t.2)).length) t.2 hd
          rw [if_pos hs] at hc
          refine ⟨(ask t).term id D, List.mem_map.2 ⟨ask t, List.mem_filter.2 ⟨List.mem_map.2 ⟨t, ht, rfl⟩, ?_⟩, rfl⟩, ?_⟩
          · rw [wd d hd t hs]; exact hr
          · exact List.any_eq_true.2 ⟨_, List.mem_of_find?_eq_some hc, by simp⟩
      rw [e1]
      apply List.map_congr_left
      intro d hd
      have hd := (List.mem_filter.1 hd).1
      congr 1
      unfold docScore
      rw [List.filter_map, List.map_map, List.map_map]
      refine tot_filter query (fun t _ hr => ?_) (fun t _ hr => ?_)
      · have hc := docs_contains hn hD.1 h t.1 (rsj log D.length (L (F.tf t.2)).length) t.2 hd
        show (match (Asked.docs id D (ask t)).find? (fun a => a.p == d.p) with
            | some a => bm25 _ _ _ _ (t.1 * (ask t).rsj) a.v (d.q - d.p + 1) | none => 0) = _
        rw [hc]
        unfold termScore
        by_cases hs : (words d).contains t.2 = true
        · simp only [hs, if_true, wd d hd t hs]
        · simp only [hs, Bool.false_eq_true, if_false]
      · unfold termScore
        by_cases hs : (words d).contains t.2 = true
        · have h0 : (ask t).rsj = 0 := by simpa using hr
          rw [wd d hd t hs] at h0
          rw [if_pos hs, h0]
          simp [bm25, Rat.mul_zero, Rat.div_def, Rat.zero_mul]
        · rw [if_neg hs]
    rw [← eq]
    exact hR

end

/-! ### a case -/

/-- features for stems that are numbers -/
def numFeatures : Features Nat := ⟨fun s => 2 * s + 3, fun s => 2 * s + 4, 1, 2⟩

theorem numFeatures_apart : numFeatures.Apart := by
  constructor <;> intros <;> simp only [numFeatures] at * <;> omega

/-- a text: the tokens and their addresses; the stem of a token is its first digit -/
def numEnv (text : List (Int × Nat)) : Env Nat Nat where
  read := fun p q => (text.filter fun x => decide (p ≤ x.1 ∧ x.1 ≤ q)).map Prod.snd
  stem := fun t => t / 10
  F := numFeatures

/-- two documents, the second with a stem of the first and twice one of its own -/
def twoDocs : List Ann := [⟨1, 2, 0⟩, ⟨3, 5, 0⟩]
def twoText : List (Int × Nat) := [(1, 10), (2, 20), (3, 21), (4, 30), (5, 31)]

def twoNotes : List Note := [⟨5, 1, 1⟩, ⟨7, 1, 1⟩, ⟨7, 3, 1⟩, ⟨9, 3, 2⟩, ⟨6, 1, 1⟩, ⟨8, 1, 2⟩, ⟨10, 1, 1⟩, ⟨1, 1, 2⟩, ⟨2, 1, 5⟩]

example : forage (numEnv twoText) 4 8 (twoDocs.map fun d => (d.p, d.q)) = [some twoNotes] := by decide +kernel

/-- as the whole of a text, the totals are at 0; the length of a batch makes no difference -/
example : tfDfAnnotations (numEnv twoText) HUGE twoDocs = some (some (twoNotes.map fun n =>
      if n.feature ∈ [(6 : Int), 8, 10, 1, 2] then { n with p := 0 } else n)) ∧
    tfDfAnnotations (numEnv twoText) 2 twoDocs = tfDfAnnotations (numEnv twoText) HUGE twoDocs := by decide +kernel

/-- the hypotheses of `C46_whole_partial` and `C46_range_partial` are met -/
def twoTok : Int → Nat := fun j => (twoText.lookup j).getD 0

example : InOrder twoDocs ∧ (∀ a ∈ twoDocs, ∀ b ∈ twoDocs, a.p ≤ b.p →
    (numEnv twoText).read a.p b.q = (span a.p b.q).map twoTok) ∧ (∀ d ∈ twoDocs, 1 ≤ d.p → d.q ≤ 5) ∧
    ∃ d ∈ twoDocs, 1 ≤ d.p ∧ d.q = 5 := by
  refine ⟨⟨by decide, by decide⟩, by decide +kernel, by decide, by decide⟩

example : tfAnnotations (numEnv twoText) HUGE 1 5 twoDocs =
    some (some (twoNotes.filter fun n => n.feature ∉ [(6 : Int), 8, 10])) := by decide +kernel

/-- an index with these annotations -/
def twoLists (f : Int) : List Ann := (twoNotes.filter fun n => n.feature == f).map fun n => ⟨n.p, n.p, n.v⟩

theorem two_listing (f : Int) : Listing (twoLists f) := by
  have h : ∀ l : List Note, (∀ n ∈ l, minfinity < n.p ∧ n.p < maxfinity) →
      (l.Pairwise fun a b => a.feature = b.feature → a.p < b.p) →
      Listing ((l.filter fun n => n.feature == f).map fun n => ⟨n.p, n.p, n.v⟩) := by
    intro l h1 h2
    constructor
    · rw [List.pairwise_map, List.pairwise_filter]
      refine h2.imp fun {a b} h ha hb => ?_
      simp only [beq_iff_eq] at ha hb
      have := h (by rw [ha, hb])
      exact ⟨this, this⟩
    · intro a ha
      obtain ⟨n, hn, rfl⟩ := List.mem_map.1 ha
      have := h1 n (List.mem_filter.1 hn).1
      exact ⟨this.1, by simp, this.2⟩
  exact h twoNotes (by decide) (by decide)

theorem two_has : HasNotes twoNotes twoLists fun f => listObj (twoLists f) where
  listing := two_listing
  hopper := fun f => ⟨_, list_impl (two_listing f)⟩
  mem := fun f a => by
    unfold twoLists
    rw [List.mem_map]
    constructor
    · rintro ⟨n, hn, rfl⟩
      obtain ⟨h1, h2⟩ := List.mem_filter.1 hn
      exact ⟨n, h1, by simpa using h2, rfl⟩
    · rintro ⟨n, hn, h, rfl⟩
      exact ⟨n, List.mem_filter.2 ⟨hn, by simpa using h⟩, rfl⟩

/-- … and the statistics of the two documents -/
theorem two_counted : Counted numFeatures (fun d => ((numEnv twoText).read d.p d.q).map fun t => t / 10) twoDocs twoNotes := by
  have e : ∃ ns : List (List Note), forage (numEnv twoText) 4 8 (twoDocs.map fun d => (d.p, d.q)) = ns.map some ∧
      Recorded numFeatures (numEnv twoText).words twoDocs ns.flatten :=
    forage_ok numFeatures_apart (by unfold Fit; decide) (by decide) 4 8
  obtain ⟨ns, e, h⟩ := e
  have e' : forage (numEnv twoText) 4 8 (twoDocs.map fun d => (d.p, d.q)) = [some twoNotes] := by decide +kernel
  rw [e'] at e
  match ns, e with
  | [n], e =>
    have : twoNotes = n := by simpa using e
    subst this
    have h := h.toCounted
    rw [List.flatten_cons, List.flatten_nil, List.append_nil] at h
    exact h

/-- the term 3, which only the second document has, is found with its count, and the average
length is 5/2 -/
example : readTotals (listObj (twoLists 1)) (listObj (twoLists 2)) = some (some (2, 5)) ∧
    bm25Ranking (bm25 (fun v => v) (5 / 2) 0 1) byPlace (byScore ratScores) 2
      (([(1, 3)] : List (Rat × Nat)).map fun t => (t.1, rsj (fun x => x) 2 (twoLists (numFeatures.tf t.2)).length,
        tfObj id (listObj (twoLists (numFeatures.tf t.2))) (listObj twoDocs))) = some [⟨3, 5, 3, 5, 2 / 3⟩] ∧
    bm25Documents (fun x => x) (fun d => ((numEnv twoText).read d.p d.q).map fun t => t / 10) twoDocs 0 1 [(1, 3)] =
      [⟨3, 5, 3, 5, 2 / 3⟩] := by
  refine ⟨?_, ?_, ?_⟩
  · have := C46_totals two_counted (by decide) (by decide) two_has
    exact this
  · decide +kernel
  · decide +kernel

/-! ### where the programs fall short -/

/-- the second document moved: there is nothing between the documents -/
def gapDocs : List Ann := [⟨1, 2, 0⟩, ⟨6, 8, 0⟩]
def gapText : List (Int × Nat) := [(1, 10), (2, 20), (6, 21), (7, 30), (8, 31)]

/-- `tf_df_annotations` reads past the end of the tokens when addresses between documents have no
text; foraging is not affected. -/
theorem C46_gap : tfDfAnnotations (numEnv gapText) HUGE gapDocs = none ∧
    forage (numEnv gapText) 4 8 (gapDocs.map fun d => (d.p, d.q)) =
      [some (twoNotes.map fun n => if n.p = 3 then { n with p := 6 } else n)] := by decide +kernel

/-- `tf_annotations` over everything, as it is called when no range is given: no term of any document
is counted, and the totals are where no search for them starts. -/
theorem C46_range_end : tfAnnotations (numEnv twoText) HUGE minfinity maxfinity twoDocs =
    some (some [⟨1, minfinity, 2⟩, ⟨2, minfinity, 5⟩]) := by decide +kernel

end Verif.Props
