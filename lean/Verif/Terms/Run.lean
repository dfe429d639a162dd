import Verif.Terms.Proof
/-
  What the programs that compute term statistics do.
-/
namespace Verif.Terms
open Verif.Hopper

section
variable {Tok Stem : Type} [DecidableEq Tok] [DecidableEq Stem] (E : Env Tok Stem)

/-- the terms of a document, as its text is read -/
def Env.words (d : Ann) : List Stem := (E.read d.p d.q).map E.stem

variable {E}

theorem annotate_pos {f p v : Int} {notes : List Note} (h : 0 < f) : annotate f p v notes = notes ++ [⟨f, p, v⟩] := by
  unfold annotate
  rw [if_neg (by omega)]

theorem countTokens_eq : ∀ (ts : List Tok) (c : List (Tok × Stem)) (tf : List (Stem × Int)),
    (∀ t s, c.lookup t = some s → s = E.stem t) →
    (countTokens E ts c tf).2 = tally (ts.map E.stem) tf ∧
      ∀ t s, (countTokens E ts c tf).1.lookup t = some s → s = E.stem t
  | [], c, tf, h => ⟨rfl, h⟩
  | t :: ts, c, tf, h => by
    unfold countTokens
    rcases hl : c.lookup t with _ | s
    · obtain ⟨i1, i2⟩ := countTokens_eq ts ((t, E.stem t) :: c) (bump (E.stem t) tf) (by
        intro u s hu
        rw [List.lookup_cons] at hu
        split at hu
        · rename_i e
          simp only [beq_iff_eq] at e
          injection hu with hu
          rw [← hu, e]
        · exact h u s hu)
      exact ⟨i1, i2⟩
    · have := h t s hl
      subst this
      obtain ⟨i1, i2⟩ := countTokens_eq ts c (bump (E.stem t) tf) h
      exact ⟨i1, i2⟩

theorem noteDoc_eq (A : E.F.Apart) (p : Int) : ∀ (tf : List (Stem × Int)) (df : List (Int × Int)) (notes : List Note),
    noteDoc E p tf df notes = (tally (tf.map fun x => E.F.df x.1) df, notes ++ tf.map fun x => ⟨E.F.tf x.1, p, x.2⟩)
  | [], df, notes => by simp [noteDoc, tally]
  | (s, n) :: tf, df, notes => by
    unfold noteDoc
    rw [annotate_pos (A.tf_pos s), noteDoc_eq A p tf]
    simp [tally]

theorem noteDf_eq (p : Int) : ∀ (df : List (Int × Int)) (notes : List Note), (∀ x ∈ df, 0 < x.1) →
    noteDf p df notes = notes ++ df.map fun x => ⟨x.1, p, x.2⟩
  | [], notes, _ => by simp [noteDf]
  | x :: df, notes, h => by
    have := noteDf_eq p df (annotate x.1 p x.2 notes) fun y hy => h y (List.mem_cons_of_mem _ hy)
    unfold noteDf at this ⊢
    rw [List.foldl_cons, this, annotate_pos (h x (List.mem_cons_self ..))]
    simp

theorem df_pos (A : E.F.Apart) {words : Ann → List Stem} {D : List Ann} : ∀ x ∈ dfCounts E.F words D, 0 < x.1 := by
  intro x hx
  obtain ⟨_, _, s, _, e⟩ := dfFeatures_mem.1 (List.mem_map.2 ⟨x, hx, rfl⟩)
  rw [e]; exact A.df_pos s

theorem tally_append {κ : Type} [DecidableEq κ] (a b : List κ) (m : List (κ × Int)) :
    tally (a ++ b) m = tally b (tally a m) := by
  unfold tally; rw [List.foldl_append]

/-- an interval the forager takes -/
def Fit (d : Ann) : Prop := d.p ≤ d.q ∧ minfinity < d.p ∧ d.q < maxfinity

/-- the state of a forager that has been given `D` -/
structure After (E : Env Tok Stem) (D : List Ann) (g : Forager Tok Stem) : Prop where
  items : g.items = D.length
  length : g.length = lengths D
  df : g.df = dfCounts E.F E.words D
  notes : g.notes = tfNotes E.F E.words D
  stems : ∀ t s, g.stems.lookup t = some s → s = E.stem t
  pmin : (D = [] ∧ g.pmin = maxfinity) ∨ ((∃ d ∈ D, d.p = g.pmin) ∧ g.pmin < maxfinity)

theorem forageOne_ok (A : E.F.Apart) {D : List Ann} {g : Forager Tok Stem} (h : After E D g) {d : Ann} (hd : Fit d) :
    ∃ g', forageOne E d.p d.q g = some g' ∧ After E (D ++ [d]) g' := by
  obtain ⟨h1, h2, h3⟩ := hd
  unfold forageOne
  rw [if_neg (by omega)]
  refine ⟨_, rfl, ?_⟩
  obtain ⟨e1, e2⟩ := countTokens_eq (E := E) (E.read d.p d.q) g.stems [] h.stems
  have en := noteDoc_eq A d.p (countTokens E (E.read d.p d.q) g.stems []).2 g.df g.notes
  refine ⟨?_, ?_, ?_, ?_, e2, ?_⟩
  · show g.items + 1 = _
    rw [h.items]; simp
  · show g.length + _ = _
    rw [h.length]; simp [lengths, List.sum_append]
  · show (noteDoc E d.p _ g.df g.notes).1 = _
    rw [en, e1, h.df]
    unfold dfCounts
    rw [List.flatMap_append, tally_append]
    simp [docFeatures]; rfl
  · show (noteDoc E d.p _ g.df g.notes).2 = _
    rw [en, e1, h.notes]
    unfold tfNotes
    rw [List.flatMap_append]
    simp [docNotes]; rfl
  · show _ ∨ (∃ x ∈ D ++ [d], x.p = min g.pmin d.p) ∧ min g.pmin d.p < maxfinity
    refine Or.inr ⟨?_, by omega⟩
    by_cases hm : g.pmin ≤ d.p
    · rcases h.pmin with ⟨_, e⟩ | ⟨⟨x, hx, e⟩, _⟩
      · omega
      · exact ⟨x, List.mem_append_left _ hx, by omega⟩
    · exact ⟨d, by simp, by omega⟩

theorem forageList_ok (A : E.F.Apart) : ∀ (l D : List Ann) (g : Forager Tok Stem), After E D g → (∀ d ∈ l, Fit d) →
    ∃ g', forageList E (l.map fun d => (d.p, d.q)) g = some g' ∧ After E (D ++ l) g'
  | [], D, g, h, _ => ⟨g, rfl, by simpa using h⟩
  | d :: l, D, g, h, hf => by
    obtain ⟨g1, e1, h1⟩ := forageOne_ok A h (hf d (List.mem_cons_self ..))
    obtain ⟨g2, e2, h2⟩ := forageList_ok A l (D ++ [d]) g1 h1 fun x hx => hf x (List.mem_cons_of_mem _ hx)
    refine ⟨g2, ?_, by simpa using h2⟩
    rw [List.map_cons]
    unfold forageList
    simp only [e1]
    exact e2

theorem after_init : After E [] ({} : Forager Tok Stem) :=
  ⟨rfl, rfl, rfl, rfl, by intro t s h; simp at h, Or.inl ⟨rfl, rfl⟩⟩

/-- what a worker commits is the statistics of its intervals -/
theorem worker_ok (A : E.F.Apart) {D : List Ann} (hf : ∀ d ∈ D, Fit d) (hD : D.Pairwise fun a b => a.p ≠ b.p) :
    ∃ n, worker E (D.map fun d => (d.p, d.q)) = some n ∧ Recorded E.F E.words D n ∧ ∀ x ∈ n, ∃ d ∈ D, d.p = x.p := by
  obtain ⟨g, e, h⟩ := forageList_ok A D [] {} after_init hf
  rw [List.nil_append] at h
  unfold worker
  rw [e]
  refine ⟨ready E g, rfl, ?_⟩
  unfold ready
  rcases h.pmin with ⟨rfl, hm⟩ | ⟨hm, hm'⟩
  · rw [if_pos hm, h.notes]
    refine ⟨⟨⟨?_, ?_, rfl, rfl, by simp [tfNotes]⟩, ?_⟩, by simp [tfNotes]⟩
    · intro s p v; simp [tfNotes]
    · intro s; rfl
    · intro s; rfl
  · rw [if_neg (by omega), h.df, noteDf_eq _ _ _ (df_pos A), annotate_pos A.items_pos, annotate_pos A.length_pos, h.notes,
      h.items, h.length]
    have e : tfNotes E.F E.words D ++ (dfCounts E.F E.words D).map (fun x => (⟨x.1, g.pmin, x.2⟩ : Note)) ++
        [⟨E.F.items, g.pmin, D.length⟩] ++ [⟨E.F.length, g.pmin, lengths D⟩] = runNotes E.F E.words g.pmin D := by
      simp [runNotes]
    rw [e]
    exact ⟨run_recorded A hD g.pmin, run_placed hm⟩

/-- several workers, one after the other in any order -/
theorem workers_ok (A : E.F.Apart) : ∀ (parts : List (List Ann)), (∀ d ∈ parts.flatten, Fit d) →
    parts.flatten.Pairwise (fun a b => a.p ≠ b.p) →
    ∃ ns : List (List Note), (parts.map fun D => worker E (D.map fun d => (d.p, d.q))) = ns.map some ∧
      Recorded E.F E.words parts.flatten ns.flatten ∧ ∀ x ∈ ns.flatten, ∃ d ∈ parts.flatten, d.p = x.p
  | [], _, _ => ⟨[], rfl, ⟨⟨by intro s p v; simp, fun _ => rfl, rfl, rfl, by simp⟩, fun _ => rfl⟩, by simp⟩
  | D :: parts, hf, hD => by
    rw [List.flatten_cons] at hf hD
    rw [List.pairwise_append] at hD
    obtain ⟨d1, d2, d3⟩ := hD
    obtain ⟨n, e1, r1, p1⟩ := worker_ok A (D := D) (fun d hd => hf d (List.mem_append_left _ hd)) d1
    obtain ⟨ns, e2, r2, p2⟩ := workers_ok A parts (fun d hd => hf d (List.mem_append_right _ hd)) d2
    refine ⟨n :: ns, by rw [List.map_cons, List.map_cons, e1, e2], ?_, ?_⟩
    · rw [List.flatten_cons, List.flatten_cons]
      exact recorded_append r1 r2 p1 p2 d3
    · intro x hx
      rw [List.flatten_cons] at hx ⊢
      rcases List.mem_append.1 hx with hx | hx
      · obtain ⟨d, hd, e⟩ := p1 x hx; exact ⟨d, List.mem_append_left _ hd, e⟩
      · obtain ⟨d, hd, e⟩ := p2 x hx; exact ⟨d, List.mem_append_right _ hd, e⟩

/-- every interval is given to one worker -/
theorem shares_flatten {α : Type} (l : List α) (split threads : Nat) (hs : threads * split ≤ l.length) :
    ∀ (left i start : Nat), left + i = threads → start = i * split → 0 < left →
      (shares l.length split threads l left i start).flatten = l.drop start
  | 0, _, _, _, _, h => by omega
  | left + 1, i, start, h1, h2, _ => by
    unfold shares
    dsimp only
    rw [List.flatten_cons]
    by_cases hl : left = 0
    · subst hl
      rw [if_pos (by omega)]
      simp [shares, List.take_of_length_le]
    · rw [if_neg (by omega), shares_flatten l split threads hs left (i + 1) (start + split) (by omega)
        (by rw [h2, Nat.add_mul]; omega) (by omega)]
      rw [← List.drop_drop, List.take_append_drop]

theorem shares_map {α β : Type} (f : α → β) (l : List α) (size split threads : Nat) : ∀ (left i start : Nat),
    shares size split threads (l.map f) left i start = (shares size split threads l left i start).map fun p => p.map f
  | 0, _, _ => rfl
  | left + 1, i, start => by
    unfold shares
    dsimp only
    rw [List.map_cons, shares_map f l size split threads left, List.map_take, List.map_drop]

theorem threadCount_pos (cores threads count : Nat) : 0 < threadCount cores threads count := by
  unfold threadCount
  dsimp only
  split <;> split <;> omega

theorem forage_ok (A : E.F.Apart) {D : List Ann} (hf : ∀ d ∈ D, Fit d) (hD : D.Pairwise fun a b => a.p ≠ b.p)
    (cores threads : Nat) :
    ∃ ns : List (List Note), forage E cores threads (D.map fun d => (d.p, d.q)) = ns.map some ∧ Recorded E.F E.words D ns.flatten := by
  unfold forage
  by_cases h0 : D = []
  · subst h0
    exact ⟨[], rfl, ⟨by intro s p v; simp, fun _ => rfl, rfl, rfl, by simp⟩, fun _ => rfl⟩
  · have hl : 0 < D.length := by cases D <;> simp at h0 ⊢
    rw [if_neg (by rw [List.length_map]; omega)]
    dsimp only
    rw [List.length_map, shares_map, List.map_map]
    have ht := threadCount_pos cores threads D.length
    generalize threadCount cores threads D.length = t at ht
    have e := shares_flatten D (D.length / t) t (Nat.mul_div_le ..) t 0 0 (by omega) (by omega) ht
    rw [List.drop_zero] at e
    generalize shares D.length (D.length / t) t D t 0 0 = parts at e
    obtain ⟨ns, e1, r, _⟩ := workers_ok A parts (by rw [e]; exact hf) (by rw [e]; exact hD)
    rw [e] at r
    exact ⟨ns, e1, r⟩

/-! ### over the whole of a text -/

/-- the addresses of `[p, q]` -/
def span (p q : Int) : List Int := (List.range (q - p + 1).toNat).map fun i => p + (i : Nat)

/-- The text has one token at each address. -/
def OnePer (E : Env Tok Stem) (tok : Int → Tok) (D : List Ann) : Prop :=
  ∀ a ∈ D, ∀ b ∈ D, a.p ≤ b.p → E.read a.p b.q = (span a.p b.q).map tok

theorem slice_ok (tok : Int → Tok) (base stop : Int) : ∀ (n : Nat) (j : Int), base ≤ j → j + n ≤ stop + 1 →
    slice ((span base stop).map tok) base n j = some ((List.range n).map fun i => tok (j + (i : Nat)))
  | 0, _, _, _ => rfl
  | n + 1, j, h1, h2 => by
    unfold slice
    have e : ((span base stop).map tok)[(j - base).toNat]? = some (tok j) := by
      unfold span
      rw [List.map_map, List.getElem?_map, List.getElem?_range (by omega)]
      simp only [Option.map_some, Function.comp, Option.some.injEq]
      congr 1; omega
    rw [e]
    dsimp only
    rw [slice_ok tok base stop n (j + 1) (by omega) (by omega), List.range_succ_eq_map]
    simp only [Option.map_some, List.map_cons, List.map_map, Option.some.injEq, List.cons.injEq]
    refine ⟨by congr 1; omega, ?_⟩
    apply List.map_congr_left
    intro i _
    simp only [Function.comp]
    congr 1; omega

theorem countStems_eq (l : List Tok) : countStems E l = tally (l.map E.stem) [] := by
  unfold countStems tally
  rw [List.foldl_map]

variable {D : List Ann} {tok : Int → Tok}

theorem batchDocs_ok (A : E.F.Apart) (base stop : Int) : ∀ (l : List Ann) (df : List (Int × Int)) (notes : List Note),
    (∀ d ∈ l, base ≤ d.p ∧ d.p ≤ d.q ∧ d.q ≤ stop ∧ E.read d.p d.q = (span d.p d.q).map tok) →
    batchDocs E ((span base stop).map tok) base (l.map fun d => (d.p, d.q)) df notes =
      some (tally (l.flatMap (docFeatures E.F E.words)) df, notes ++ tfNotes E.F E.words l)
  | [], df, notes, _ => by simp [batchDocs, tally, tfNotes]
  | d :: l, df, notes, h => by
    obtain ⟨h1, h2, h3, h4⟩ := h d (List.mem_cons_self ..)
    rw [List.map_cons]
    unfold batchDocs
    rw [slice_ok tok base stop (d.q - d.p + 1).toNat d.p h1 (by omega)]
    dsimp only
    have e : (List.range (d.q - d.p + 1).toNat).map (fun i => tok (d.p + (i : Nat))) = E.read d.p d.q := by
      rw [h4, span, List.map_map]; rfl
    rw [e, noteDoc_eq A, countStems_eq, batchDocs_ok A base stop l _ _ fun x hx => h x (List.mem_cons_of_mem _ hx)]
    simp only [List.flatMap_cons, tally_append, tfNotes, List.append_assoc]
    rfl

/-- the documents of a sorted list -/
structure Run (D : List Ann) : Prop where
  sorted : D.Pairwise fun a b => a.p < b.p ∧ a.q < b.q
  le : ∀ d ∈ D, d.p ≤ d.q

theorem flush_ok (A : E.F.Apart) (hD : Run D) (ht : OnePer E tok D) {l : List Ann} (hl : l.Sublist D)
    (df : List (Int × Int)) (notes : List Note) :
    flush E (l.map fun d => (d.p, d.q)) df notes =
      some (tally (l.flatMap (docFeatures E.F E.words)) df, notes ++ tfNotes E.F E.words l) := by
  unfold flush
  rcases List.eq_nil_or_concat l with rfl | ⟨m, b, e⟩
  · simp [tally, tfNotes]
  · rw [List.concat_eq_append] at e
    cases hc : l with
    | nil => rw [hc] at e; simp at e
    | cons a l' =>
      have hh : ((a :: l').map fun d => (d.p, d.q)).head? = some (a.p, a.q) := rfl
      have hg : ((a :: l').map fun d => (d.p, d.q)).getLast? = some (b.p, b.q) := by
        rw [← hc, e]; simp
      rw [hh, hg]
      dsimp only
      have ha : a ∈ l := by rw [hc]; exact List.mem_cons_self ..
      have hb : b ∈ l := by rw [e]; simp
      have hs := hD.sorted.sublist hl
      have lo : ∀ d ∈ l, a.p ≤ d.p := by
        intro d hd
        rw [hc] at hd hs
        rcases List.mem_cons.1 hd with rfl | hd
        · omega
        · have := (List.pairwise_cons.1 hs).1 d hd; omega
      have hi : ∀ d ∈ l, d.q ≤ b.q := by
        intro d hd
        rw [e] at hd hs
        rcases List.mem_append.1 hd with hd | hd
        · have := (List.pairwise_append.1 hs).2.2 d hd b (by simp); omega
        · simp only [List.mem_cons, List.not_mem_nil, or_false] at hd; subst hd; omega
      have hr := ht a (hl.mem ha) b (hl.mem hb) (lo b hb)
      rw [hr, batchDocs_ok (tok := tok) A]
      rw [← hc]
      intro d hd
      exact ⟨lo d hd, hD.le d (hl.mem hd), hi d hd, ht d (hl.mem hd) d (hl.mem hd) (by omega)⟩

theorem dfLoop_ok (A : E.F.Apart) (huge : Int) (hD : Run D) (ht : OnePer E tok D) : ∀ (l batch pre : List Ann),
    pre ++ batch ++ l = D →
    dfLoop E huge l (pre ++ batch).length (lengths (pre ++ batch)) (batch.map fun d => (d.p, d.q))
        (tally (pre.flatMap (docFeatures E.F E.words)) []) (tfNotes E.F E.words pre) =
      some ((D.length : Int), lengths D, dfCounts E.F E.words D, tfNotes E.F E.words D)
  | [], batch, pre, e => by
    unfold dfLoop
    have hb : batch.Sublist D := by
      rw [← e]; exact (List.sublist_append_right _ _).trans (List.sublist_append_left _ _)
    rw [List.append_nil] at e
    rw [flush_ok A hD ht hb, ← tally_append, ← List.flatMap_append]
    simp only [Option.map_some, Option.some.injEq, Prod.mk.injEq, dfCounts, tfNotes, e]
    rw [← List.flatMap_append, e]
    simp
  | d :: l, batch, pre, e => by
    unfold dfLoop
    dsimp only
    have e' : pre ++ (batch ++ [d]) ++ l = D := by rw [← e]; simp
    have e'' : (pre ++ (batch ++ [d])) ++ [] ++ l = D := by rw [← e']; simp
    have hb : (batch ++ [d]).Sublist D := by
      rw [← e']; exact (List.sublist_append_right _ _).trans (List.sublist_append_left _ _)
    have em : batch.map (fun d => (d.p, d.q)) ++ [(d.p, d.q)] = (batch ++ [d]).map fun d => (d.p, d.q) := by simp
    have el : ((pre ++ batch).length : Int) + 1 = (pre ++ (batch ++ [d])).length := by simp; omega
    have eg : lengths (pre ++ batch) + (d.q - d.p + 1) = lengths (pre ++ (batch ++ [d])) := by
      simp [lengths, List.sum_append]; omega
    rw [em, el, eg]
    rcases hh : ((batch ++ [d]).map fun d => (d.p, d.q)).head? with _ | a
    · simp at hh
    · simp only [hh]
      split
      · rw [flush_ok A hD ht hb, ← tally_append, ← List.flatMap_append]
        dsimp only
        have := dfLoop_ok A huge hD ht l [] (pre ++ (batch ++ [d])) e''
        rw [List.append_nil] at this
        have et : tfNotes E.F E.words pre ++ tfNotes E.F E.words (batch ++ [d]) = tfNotes E.F E.words (pre ++ (batch ++ [d])) := by
          simp [tfNotes]
        rw [et]
        exact this
      · exact dfLoop_ok A huge hD ht l (batch ++ [d]) pre e'

theorem tfDf_ok (A : E.F.Apart) (huge : Int) (hD : Run D) (ht : OnePer E tok D) (hne : D ≠ []) :
    tfDfAnnotations E huge D = some (some (runNotes E.F E.words 0 D)) := by
  unfold tfDfAnnotations
  have := dfLoop_ok A huge hD ht D [] [] rfl
  have e0 : dfLoop E huge D 0 0 [] [] [] = _ := this
  have hl : 0 < D.length := by cases D <;> simp at hne ⊢
  rw [e0]
  dsimp only
  rw [if_neg (by omega), noteDf_eq _ _ _ (df_pos A), annotate_pos A.items_pos, annotate_pos A.length_pos]
  simp [runNotes]

/-- when the last document ends where the range does -/
theorem tfLoop_ok (A : E.F.Apart) (huge stop : Int) (hD : Run D) (ht : OnePer E tok D)
    (hs : ∀ d ∈ D, d.q ≤ stop) (hlast : ∀ d, D.getLast? = some d → d.q = stop) : ∀ (l batch pre : List Ann),
    pre ++ batch ++ l = D → (l = [] → batch = []) →
    tfLoop E huge stop l (pre ++ batch).length (lengths (pre ++ batch)) (batch.map fun d => (d.p, d.q))
        (tfNotes E.F E.words pre) = some ((D.length : Int), lengths D, tfNotes E.F E.words D)
  | [], batch, pre, e, h => by
    have := h rfl
    subst this
    unfold tfLoop
    simp only [List.append_nil] at e ⊢
    rw [e]
  | d :: l, batch, pre, e, _ => by
    unfold tfLoop
    have hd : d ∈ D := by rw [← e]; simp
    rw [if_pos (hs d hd)]
    dsimp only
    have e' : pre ++ (batch ++ [d]) ++ l = D := by rw [← e]; simp
    have e'' : (pre ++ (batch ++ [d])) ++ [] ++ l = D := by rw [← e']; simp
    have hb : (batch ++ [d]).Sublist D := by
      rw [← e']; exact (List.sublist_append_right _ _).trans (List.sublist_append_left _ _)
    have em : batch.map (fun d => (d.p, d.q)) ++ [(d.p, d.q)] = (batch ++ [d]).map fun d => (d.p, d.q) := by simp
    have el : ((pre ++ batch).length : Int) + 1 = (pre ++ (batch ++ [d])).length := by simp; omega
    have eg : lengths (pre ++ batch) + (d.q - d.p + 1) = lengths (pre ++ (batch ++ [d])) := by
      simp [lengths, List.sum_append]; omega
    rw [em, el, eg]
    rcases hh : ((batch ++ [d]).map fun d => (d.p, d.q)).head? with _ | a
    · simp at hh
    · simp only [hh]
      split
      · rw [flush_ok A hD ht hb]
        dsimp only
        have := tfLoop_ok A huge stop hD ht hs hlast l [] (pre ++ (batch ++ [d])) e'' (fun _ => rfl)
        rw [List.append_nil] at this
        have et : tfNotes E.F E.words pre ++ tfNotes E.F E.words (batch ++ [d]) = tfNotes E.F E.words (pre ++ (batch ++ [d])) := by
          simp [tfNotes]
        rw [et]
        exact this
      · rename_i hn
        refine tfLoop_ok A huge stop hD ht hs hlast l (batch ++ [d]) pre e' ?_
        rintro rfl
        have : D.getLast? = some d := by rw [← e']; simp
        have := hlast d this
        omega

theorem docs_nodup (hD : Run D) : D.Pairwise fun a b => a.p ≠ b.p := hD.sorted.imp fun h => by omega

end

end Verif.Terms
