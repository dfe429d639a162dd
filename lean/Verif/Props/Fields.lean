import Verif.Fields.Proof
import Verif.Props.Terms
/-
  Properties of statistics by fields (C67).
-/
namespace Verif.Props
open Verif.Hopper Verif.Gcl Verif.Rank Verif.Terms Verif.Fields

section
variable {Tok Stem : Type} [DecidableEq Tok] [DecidableEq Stem]

/-- The queries of the fields, with their solutions. -/
def FieldsOf (ix : Index) (queries : List (SExpr × List Ann)) : Prop :=
  ∀ x ∈ queries, Legal x.1 ∧ Lists x.2 (den ix.solutions x.1)

theorem field_hoppers (ix : Index) (count : Option (List Char → Int)) : ∀ {queries : List (SExpr × List Ann)}, FieldsOf ix queries →
    ∃ Ks : List Obj, Both (fun x K => compile ix count x.1 = some K) queries Ks ∧
      Both (fun H L => Listing L ∧ ∃ I, Impl H I (ofList L)) Ks (queries.map Prod.snd)
  | [], _ => ⟨[], .nil, .nil⟩
  | x :: xs, h => by
    obtain ⟨h1, h2⟩ := h x (List.mem_cons_self ..)
    obtain ⟨K, eK, J, hJ⟩ := compile_impl ix count x.1 h1
    obtain ⟨Ks, g1, g2⟩ := field_hoppers ix count fun y hy => h y (List.mem_cons_of_mem _ hy)
    have sL : den ix.solutions x.1 = ofList x.2 := by funext a; exact propext (h2.2 a).symm
    rw [sL] at hJ
    exact ⟨K :: Ks, .cons eK g1, .cons ⟨h2.1, J, hJ⟩ g2⟩

/-- **C67**, what is counted: `tf_field_annotations` commits, for each of the documents, how often each term is in the first solution
of each field's query that lies in the document; and the sums of these. -/
theorem C67_first (E : FieldEnv Tok Stem) (A : E.F.Apart) (ix : Index) (count : Option (List Char → Int)) {c : SExpr} (hc : Legal c)
    {D : List Ann} (hD : Lists D (den ix.solutions c)) (h0 : ∀ d ∈ D, 0 ≤ d.p) (hne : D ≠ [])
    {queries : List (SExpr × List Ann)} (hq : FieldsOf ix queries) :
    ∃ (K : Obj) (Ks : List Obj) (notes : List Note), compile ix count c = some K ∧
      Both (fun x K => compile ix count x.1 = some K) queries Ks ∧ fieldAnnotations E K Ks = some (some notes) ∧
      FieldCounted E.F queries.length
        (fieldWords (fun a => (E.read a.p a.q).map E.stem) (queries.map Prod.snd) (List.take 1))
        (allWords (fun a => (E.read a.p a.q).map E.stem) (queries.map Prod.snd) (List.take 1))
        (fieldLength (queries.map Prod.snd) (List.take 1)) D notes := by
  obtain ⟨K, eK, J, hJ⟩ := compile_impl ix count c hc
  have sD : den ix.solutions c = ofList D := by funext a; exact propext (hD.2 a).symm
  rw [sD] at hJ
  obtain ⟨Ks, g1, g2⟩ := field_hoppers ix count hq
  refine ⟨K, Ks, _, eK, g1, fieldAnnotations_ok A hD.1 hJ h0 hne g2, ?_⟩
  have := all_counted A (queries.map Prod.snd) (hD.1.sorted.imp fun h => by omega : D.Pairwise fun a b => a.p ≠ b.p)
  rw [List.length_map] at this
  exact this

theorem counted_congr {F : FieldFeatures Stem} {n : Nat} {part part' : Nat → Ann → List Stem} {whole whole' : Ann → List Stem}
    {size size' : Ann → Int} {D : List Ann} {notes : List Note} (h : FieldCounted F n part whole size D notes)
    (h1 : ∀ i, ∀ d ∈ D, part' i d = part i d) (h2 : ∀ d ∈ D, whole' d = whole d) (h3 : ∀ d ∈ D, size' d = size d) :
    FieldCounted F n part' whole' size' D notes := by
  have ex : ∀ {P Q : Ann → Prop}, (∀ d ∈ D, (P d ↔ Q d)) → ((∃ d ∈ D, P d) ↔ ∃ d ∈ D, Q d) := fun h =>
    ⟨fun ⟨d, hd, g⟩ => ⟨d, hd, (h d hd).1 g⟩, fun ⟨d, hd, g⟩ => ⟨d, hd, (h d hd).2 g⟩⟩
  refine ⟨?_, h.others, ?_, ?_, ?_, h.items, ?_, h.once⟩
  · intro i hi s p v
    rw [h.field i hi]
    exact ex fun d hd => by rw [h1 i d hd]
  · intro s p v
    rw [h.tf]
    exact ex fun d hd => by rw [h2 d hd]
  · intro p v
    rw [h.len]
    exact ex fun d hd => by rw [h3 d hd]
  · intro s p v
    rw [h.df]
    have : docsWith whole' D s = docsWith whole D s := by
      unfold docsWith
      rw [List.filter_congr fun d hd => by rw [h2 d hd]]
    rw [this]
  · rw [h.length, List.map_congr_left h3]

/-- **C67**: `tf_field_annotations` commits how often each term is in each field of each document, if no document has a field twice
(`C67_second`), and the sums of these. -/
theorem C67_counted_partial (E : FieldEnv Tok Stem) (A : E.F.Apart) (ix : Index) (count : Option (List Char → Int)) {c : SExpr} (hc : Legal c)
    {D : List Ann} (hD : Lists D (den ix.solutions c)) (h0 : ∀ d ∈ D, 0 ≤ d.p) (hne : D ≠ [])
    {queries : List (SExpr × List Ann)} (hq : FieldsOf ix queries)
    (once : ∀ x ∈ queries, ∀ d ∈ D, (within x.2 d).length ≤ 1) :
    ∃ (K : Obj) (Ks : List Obj) (notes : List Note), compile ix count c = some K ∧
      Both (fun x K => compile ix count x.1 = some K) queries Ks ∧ fieldAnnotations E K Ks = some (some notes) ∧
      FieldCounted E.F queries.length
        (fieldWords (fun a => (E.read a.p a.q).map E.stem) (queries.map Prod.snd) id)
        (allWords (fun a => (E.read a.p a.q).map E.stem) (queries.map Prod.snd) id)
        (fieldLength (queries.map Prod.snd) id) D notes := by
  obtain ⟨K, Ks, notes, g1, g2, g3, g4⟩ := C67_first E A ix count hc hD h0 hne hq
  have one : ∀ L ∈ queries.map Prod.snd, ∀ d ∈ D, id (within L d) = (within L d).take 1 := by
    intro L hL d hd
    obtain ⟨x, hx, rfl⟩ := List.mem_map.1 hL
    exact (List.take_of_length_le (once x hx d hd)).symm
  have part : ∀ i, ∀ d ∈ D, fieldWords (fun a => (E.read a.p a.q).map E.stem) (queries.map Prod.snd) id i d =
      fieldWords (fun a => (E.read a.p a.q).map E.stem) (queries.map Prod.snd) (List.take 1) i d := by
    intro i d hd
    unfold fieldWords
    by_cases hi : i < (queries.map Prod.snd).length
    · rw [one _ (by rw [List.getD_eq_getElem?_getD, List.getElem?_eq_getElem hi]; exact List.getElem_mem hi) d hd]
    · rw [List.getD_eq_getElem?_getD, List.getElem?_eq_none (by omega)]
      rfl
  refine ⟨K, Ks, notes, g1, g2, g3, counted_congr g4 part (fun d hd => ?_) (fun d hd => ?_)⟩
  · unfold allWords
    have : (fun i => fieldWords (fun a => (E.read a.p a.q).map E.stem) (queries.map Prod.snd) id i d) =
        fun i => fieldWords (fun a => (E.read a.p a.q).map E.stem) (queries.map Prod.snd) (List.take 1) i d := funext fun i => part i d hd
    rw [this]
  · unfold fieldLength
    rw [List.map_congr_left fun L hL => by rw [one L hL d hd]]

/-! ### reading the statistics -/

section
variable {F : FieldFeatures Stem} {n : Nat} {part : Nat → Ann → List Stem} {whole : Ann → List Stem} {size : Ann → Int} {D : List Ann}
  {notes : List Note} (hn : FieldCounted F n part whole size D notes) {L : Int → List Ann} {H : Int → Obj} (h : HasNotes notes L H)
include hn h

/-- **C67**, totals: the number of documents and their length that `FieldStats` finds, whose quotient is the average.  (Without any
text in the fields there are no statistics.) -/
theorem C67_totals (hne : D ≠ []) (hs : 0 < (D.map size).sum) :
    readTotals (H F.items) (H F.length) = some (some ((D.length : Int), (D.map size).sum)) := by
  unfold readTotals
  rw [sum_total hn.once h, sum_total hn.once h, hn.items, hn.length]
  have hpos : 0 < D.length := List.length_pos_iff.2 hne
  dsimp only
  rw [if_neg (by omega), if_neg (by omega)]

/-- **C67**, document frequency: what `FieldStats` takes for the number of documents with a term is that. -/
theorem C67_df (s : Stem) : loadDf (H (F.df s)) = some (docsWith whole D s : Int) := by
  obtain ⟨I, hI⟩ := h.hopper (F.df s)
  obtain ⟨a, s', e, _, ha⟩ := hI.tau 0 (by decide) _ hI.init
  unfold loadDf
  rw [e, Option.map_some]
  rcases ha with ⟨g, _⟩ | ⟨_, g, _, _⟩ | ⟨_, g, rfl⟩
  · omega
  · obtain ⟨m, hm, e1, e2⟩ := (h.mem _ a).1 g
    obtain ⟨f, p, v⟩ := m
    have e1 : f = F.df s := e1
    subst e1
    have := ((hn.df s p v).1 hm).2.1
    rw [e2]
    show some v = _
    rw [this]
  · have hz : docsWith whole D s = 0 := by
      rcases Nat.eq_zero_or_pos (docsWith whole D s) with hz | hz
      · exact hz
      · have hm := (hn.df s 0 (docsWith whole D s)).2 ⟨rfl, rfl, by omega⟩
        have := g ⟨0, 0, (docsWith whole D s : Nat)⟩ ((h.mem _ _).2 ⟨_, hm, rfl, rfl⟩)
        exact absurd this (by show ¬ (0 : Int) < 0; omega)
    rw [hz]
    rfl

/-- **C67**, the weight of a term: what `FieldStats` takes for its idf and its rsj.  A term that no document has weighs nothing, and none
weighs less than nothing. -/
theorem C67_idf (log : Rat → Rat) (s : Stem) :
    (loadDf (H (F.df s))).map (idf log D.length) = some (if docsWith whole D s = 0 then 0
      else max 0 (log (((D.length : Int) : Rat) / ((docsWith whole D s : Int) : Rat)))) ∧
    (loadDf (H (F.df s))).map (rsj log D.length) = some (if docsWith whole D s = 0 then 0 else rsjWeight log whole D s) := by
  rw [C67_df hn h s]
  have mx : ∀ x : Rat, (if x < 0 then 0 else x) = max 0 x := by
    intro x
    by_cases g : x < 0
    · rw [if_pos g]; grind
    · rw [if_neg g]; grind
  constructor
  · simp only [Option.map_some]
    unfold idf
    rw [mx]
    by_cases g : docsWith whole D s = 0
    · rw [if_pos g, if_pos (by omega)]
    · rw [if_neg g, if_neg (by omega)]
  · simp only [Option.map_some]
    unfold rsj rsjWeight
    by_cases g : docsWith whole D s = 0
    · rw [if_pos g, if_pos (by omega)]
    · rw [if_neg g, if_neg (by omega)]
      dsimp only
      rw [mx]

/-- The annotations of a term in a field. -/
theorem field_tfs {i : Nat} (hi : i < n) (s : Stem) (a : Ann) : a ∈ L (F.field i s) ↔
    ∃ d ∈ D, s ∈ part i d ∧ a = ⟨d.p, d.p, ((part i d).count s : Nat)⟩ := by
  rw [h.mem]
  constructor
  · rintro ⟨⟨f, p, v⟩, hm, e, rfl⟩
    have e : f = F.field i s := e
    subst e
    obtain ⟨d, hd, rfl, hs, rfl⟩ := (hn.field i hi s p v).1 hm
    exact ⟨d, hd, hs, rfl⟩
  · rintro ⟨d, hd, hs, rfl⟩
    exact ⟨⟨F.field i s, d.p, _⟩, (hn.field i hi s _ _).2 ⟨d, hd, rfl, hs, rfl⟩, rfl, rfl⟩

/-- **C67**, frequencies: over the fields `ws` with their weights, which are positive, the frequency of a term in a document is the sum of
its weighted numbers of occurrences in the fields; and what `C45_fields_partial` asks for is met, so that `bm25_ranking` with
these statistics gives the best documents. -/
theorem C67_asked (hD : D.Pairwise fun a b => a.p ≠ b.p) (ws : List (Nat × Rat)) (hw : ∀ x ∈ ws, x.1 < n ∧ 0 < x.2)
    (hne : ws ≠ []) (s : Stem) (weight rsj : Rat) (hr : rsj ≠ 0 → 0 < weight * rsj) :
    (⟨weight, rsj, ws.map fun x => ⟨x.2, L (F.field x.1 s), H (F.field x.1 s)⟩⟩ : FieldAsked).Good D ∧
    (∀ d ∈ D, (⟨weight, rsj, ws.map fun x => ⟨x.2, L (F.field x.1 s), H (F.field x.1 s)⟩⟩ : FieldAsked).tf d =
      (ws.map fun x => x.2 * (((part x.1 d).count s : Nat) : Rat)).foldr (· + ·) 0) ∧
    (∀ d ∈ D, occurs (⟨weight, rsj, ws.map fun x => ⟨x.2, L (F.field x.1 s), H (F.field x.1 s)⟩⟩ : FieldAsked).parts d = true ↔
      ∃ x ∈ ws, s ∈ part x.1 d) := by
  have uniq : ∀ {d d'}, d ∈ D → d' ∈ D → d.p = d'.p → d = d' := fun {d d'} h1 h2 e => by
    rcases Classical.em (d = d') with h | h
    · exact h
    · obtain ⟨i, hi, rfl⟩ := List.mem_iff_getElem.1 h1
      obtain ⟨j, hj, rfl⟩ := List.mem_iff_getElem.1 h2
      rw [List.pairwise_iff_getElem] at hD
      rcases Nat.lt_trichotomy i j with g | g | g
      · exact absurd e (hD i j hi hj g)
      · subst g; exact absurd rfl h
      · exact absurd e.symm (hD j i hj hi g)
  refine ⟨⟨by simpa using hne, ?_, ?_, ?_, ?_, ?_, hr⟩, ?_, ?_⟩
  · intro f hf
    obtain ⟨x, _, rfl⟩ := List.mem_map.1 hf
    exact h.listing _
  · intro f hf
    obtain ⟨x, _, rfl⟩ := List.mem_map.1 hf
    exact h.hopper _
  · intro f hf a ha
    obtain ⟨x, hx, rfl⟩ := List.mem_map.1 hf
    obtain ⟨d, hd, _, rfl⟩ := (field_tfs hn h (hw x hx).1 s a).1 ha
    exact ⟨d, hd, rfl⟩
  · intro f hf a ha
    obtain ⟨x, hx, rfl⟩ := List.mem_map.1 hf
    obtain ⟨d, _, hs, rfl⟩ := (field_tfs hn h (hw x hx).1 s a).1 ha
    have := List.count_pos_iff.2 hs
    show (0 : Int) < ((part x.1 d).count s : Nat)
    omega
  · intro f hf
    obtain ⟨x, hx, rfl⟩ := List.mem_map.1 hf
    exact (hw x hx).2
  · intro d hd
    unfold FieldAsked.tf docScore tot FieldAsked.parts
    dsimp only
    rw [List.map_map, List.map_map]
    congr 1
    apply List.map_congr_left
    intro x hx
    simp only [Function.comp, share]
    cases e : (L (F.field x.1 s)).find? (fun a => a.p == d.p) with
    | some a =>
      have e1 := List.find?_some e
      obtain ⟨d', hd', _, rfl⟩ := (field_tfs hn h (hw x hx).1 s a).1 (List.mem_of_find?_eq_some e)
      have : d' = d := uniq hd' hd (by simpa using e1)
      subst this
      rfl
    | none =>
      have : (part x.1 d).count s = 0 := by
        rw [List.count_eq_zero]
        intro hs
        have := List.find?_eq_none.1 e _ ((field_tfs hn h (hw x hx).1 s _).2 ⟨d, hd, hs, rfl⟩)
        simp at this
      rw [this]
      simp
  · intro d hd
    constructor
    · intro ho
      obtain ⟨t, ht, a, ha, e⟩ := of_occurs ho
      obtain ⟨f, hf, rfl⟩ := List.mem_map.1 ht
      obtain ⟨x, hx, rfl⟩ := List.mem_map.1 hf
      obtain ⟨d', hd', hs, rfl⟩ := (field_tfs hn h (hw x hx).1 s a).1 ha
      cases uniq hd' hd e
      exact ⟨x, hx, hs⟩
    · rintro ⟨x, hx, hs⟩
      refine to_occurs (t := ⟨x.2, L (F.field x.1 s)⟩) (List.mem_map.2 ⟨_, List.mem_map.2 ⟨x, hx, rfl⟩, rfl⟩)
        ((field_tfs hn h (hw x hx).1 s _).2 ⟨d, hd, hs, rfl⟩) rfl

end

/-- **C67**, weights: `FieldStats` uses the fields with a positive weight, and no others: with as many weights as fields, which are all
numbers that are not negative and of which one is positive. -/
theorem C67_weights (stof : List UInt8 → Num) (fields weights : List UInt8) (ws : List Rat)
    (hw : (Recipe.pieces 9 weights).map stof = ws.map .num) (hl : (Recipe.pieces 9 fields).length = ws.length)
    (h0 : ∀ w ∈ ws, 0 ≤ w) (h1 : ∃ w ∈ ws, 0 < w) :
    ∃ l, fieldWeights stof fields weights = .ok l ∧ ∀ i w, (i, w) ∈ l ↔ ws[i]? = some w ∧ 0 < w := by
  have key : ∀ (ss : List (List UInt8)) (ws : List Rat) (k : Nat), ss.map stof = ws.map .num → (∀ w ∈ ws, 0 ≤ w) →
      ∃ l, weigh stof k ss = .ok l ∧ ∀ i w, (i, w) ∈ l ↔ k ≤ i ∧ ws[i - k]? = some w ∧ 0 < w := by
    intro ss
    induction ss with
    | nil =>
      intro ws k e _
      cases ws with
      | nil => exact ⟨[], rfl, by simp⟩
      | cons _ _ => cases e
    | cons s ss ih =>
      intro ws k e h
      cases ws with
      | nil => cases e
      | cons w ws =>
        simp only [List.map_cons, List.cons.injEq] at e
        obtain ⟨l, e1, e2⟩ := ih ws (k + 1) e.2 fun x hx => h x (List.mem_cons_of_mem _ hx)
        have hw := h w (List.mem_cons_self ..)
        unfold weigh
        rw [e.1]
        dsimp only
        rw [if_neg (Rat.not_lt.2 hw), e1]
        dsimp only
        have step : ∀ i v, (k + 1 ≤ i ∧ ws[i - (k + 1)]? = some v ∧ 0 < v) ↔ k + 1 ≤ i ∧ (w :: ws)[i - k]? = some v ∧ 0 < v := by
          intro i v
          refine and_congr_right fun hi => ?_
          rw [show i - k = (i - (k + 1)) + 1 by omega, List.getElem?_cons_succ]
        by_cases hp : w > 0
        · rw [if_pos hp]
          refine ⟨_, rfl, fun i v => ?_⟩
          rw [List.mem_cons, e2, step]
          constructor
          · rintro (e | ⟨hi, g⟩)
            · cases e; simp [hp]
            · exact ⟨by omega, g⟩
          · rintro ⟨hi, g1, g2⟩
            by_cases hk : i = k
            · subst hk
              simp at g1
              exact .inl (by rw [g1])
            · exact .inr ⟨by omega, g1, g2⟩
        · rw [if_neg hp]
          refine ⟨_, rfl, fun i v => ?_⟩
          rw [e2, step]
          constructor
          · rintro ⟨hi, g⟩
            exact ⟨by omega, g⟩
          · rintro ⟨hi, g1, g2⟩
            by_cases hk : i = k
            · subst hk
              simp at g1
              subst g1
              exact absurd g2 hp
            · exact ⟨by omega, g1, g2⟩
  obtain ⟨l, e1, e2⟩ := key _ ws 0 hw h0
  have hlen : (Recipe.pieces 9 weights).length = ws.length := by
    have := congrArg List.length hw
    simpa using this
  obtain ⟨w, hw1, hw2⟩ := h1
  have hpos := List.length_pos_of_mem hw1
  refine ⟨l, ?_, fun i w => ?_⟩
  · unfold fieldWeights
    rw [if_neg (by omega), if_neg (by omega), if_neg (by omega), e1]
    cases l with
    | nil =>
      obtain ⟨i, hi, e⟩ := List.mem_iff_getElem.1 hw1
      have := (e2 i w).2 ⟨by omega, by simp [hi, e], hw2⟩
      simp at this
    | cons x l => rfl
  · rw [e2]
    simp

/-- **C67**, weights that cannot be used are refused: there are more or fewer than fields, or one is negative or no number, or none is
positive. -/
theorem C67_refused (stof : List UInt8 → Num) (fields weights : List UInt8) (hr : ∀ s ∈ Recipe.pieces 9 weights, stof s ≠ .range)
    (hb : (Recipe.pieces 9 weights).length ≠ (Recipe.pieces 9 fields).length ∨
      (∃ s ∈ Recipe.pieces 9 weights, stof s = .invalid ∨ ∃ w, stof s = .num w ∧ w < 0) ∨
      ∀ s ∈ Recipe.pieces 9 weights, ∀ w, stof s = .num w → w ≤ 0) :
    fieldWeights stof fields weights = .error := by
  have some_piece : ∀ s : List UInt8, 0 < (Recipe.pieces 9 s).length := by
    intro s
    have h : ∀ s : List UInt8, Recipe.splitAt 9 s ≠ [] := by
      intro s
      cases s with
      | nil => simp [Recipe.splitAt]
      | cons d s =>
        unfold Recipe.splitAt
        split
        · simp
        · split <;> simp
    have h2 : ∀ s : List UInt8, Recipe.splitAt 9 s ≠ [[]] ∨ True := fun _ => .inr trivial
    unfold Recipe.pieces
    split
    · simp
    · rename_i ps hps
      have := h s
      split
      · cases e : Recipe.splitAt 9 s with
        | nil => exact absurd e this
        | cons a l =>
          cases l with
          | nil => exact absurd e (hps a)
          | cons b l => simp
      · exact List.length_pos_iff.2 this
  have key : ∀ (ss : List (List UInt8)) (k : Nat), (∀ s ∈ ss, stof s ≠ .range) →
      ((∃ s ∈ ss, stof s = .invalid ∨ ∃ w, stof s = .num w ∧ w < 0) → weigh stof k ss = .error) ∧
      ((∀ s ∈ ss, ∀ w, stof s = .num w → w ≤ 0) → weigh stof k ss = .error ∨ weigh stof k ss = .ok []) ∧
      (weigh stof k ss = .error ∨ ∃ l, weigh stof k ss = .ok l) := by
    intro ss
    induction ss with
    | nil => intro k _; exact ⟨by simp, fun _ => .inr rfl, .inr ⟨_, rfl⟩⟩
    | cons s ss ih =>
      intro k hr
      obtain ⟨i1, i2, i3⟩ := ih (k + 1) fun x hx => hr x (List.mem_cons_of_mem _ hx)
      have hs := hr s (List.mem_cons_self ..)
      unfold weigh
      cases e : stof s with
      | range => exact absurd e hs
      | invalid => exact ⟨fun _ => rfl, fun _ => .inl rfl, .inl rfl⟩
      | num w =>
        dsimp only
        by_cases hw : w < 0
        · rw [if_pos hw]; exact ⟨fun _ => rfl, fun _ => .inl rfl, .inl rfl⟩
        · rw [if_neg hw]
          refine ⟨?_, ?_, ?_⟩
          · rintro ⟨x, hx, g⟩
            rcases List.mem_cons.1 hx with rfl | hx
            · rw [e] at g
              rcases g with g | ⟨v, g, hv⟩
              · cases g
              · cases g; exact absurd hv hw
            · rw [i1 ⟨x, hx, g⟩]
          · intro g
            have hz := g s (List.mem_cons_self ..) w e
            rcases i2 fun x hx => g x (List.mem_cons_of_mem _ hx) with i | i
            · rw [i]; exact .inl rfl
            · rw [i]
              dsimp only
              rw [if_neg (Rat.not_lt.2 hz)]
              exact .inr rfl
          · rcases i3 with i | ⟨l, i⟩
            · rw [i]; exact .inl rfl
            · rw [i]
              dsimp only
              split <;> exact .inr ⟨_, rfl⟩
  have hf := some_piece fields
  have hw := some_piece weights
  unfold fieldWeights
  rw [if_neg (by omega), if_neg (by omega)]
  by_cases hl : (Recipe.pieces 9 weights).length ≠ (Recipe.pieces 9 fields).length
  · rw [if_pos hl]
  · rw [if_neg hl]
    obtain ⟨k1, k2, k3⟩ := key (Recipe.pieces 9 weights) 0 hr
    rcases hb with hb | hb | hb
    · exact absurd hb hl
    · rw [k1 hb]
    · rcases k2 hb with k | k <;> rw [k]

/-- **C67**: without weights no other statistics are used, though `FieldStats` has code to do so: the text of no weights is one weight
which is no number. -/
theorem C67_no_weights (stof : List UInt8 → Num) (h : stof [] = .invalid) (fields : List UInt8) :
    fieldWeights stof fields [] = .error :=
  C67_refused stof fields [] (by
      intro s hs
      have : s = [] := by simpa [Recipe.pieces, Recipe.splitAt] using hs
      rw [this, h]; simp)
    (.inr (.inl ⟨[], by simp [Recipe.pieces, Recipe.splitAt], .inl h⟩))

/-- **C67**: a weight that is out of range makes `FieldStats` throw an exception, where any other weight that cannot be used is an
error. -/
theorem C67_out_of_range (stof : List UInt8 → Num) (w : List UInt8) (hw : 9 ∉ w) (h : stof w = .range) (fields : List UInt8)
    (hf : (Recipe.pieces 9 fields).length = 1) : fieldWeights stof fields w = .thrown := by
  have e : ∀ w : List UInt8, 9 ∉ w → Recipe.splitAt 9 w = [w] := by
    intro w
    induction w with
    | nil => intro _; rfl
    | cons d w ih =>
      intro h
      simp only [List.mem_cons, not_or] at h
      unfold Recipe.splitAt
      rw [if_neg (fun e => h.1 e.symm), ih h.2]
  have e1 : Recipe.pieces 9 w = [w] := by
    unfold Recipe.pieces
    rw [e w hw]
  unfold fieldWeights
  rw [e1, hf]
  simp [weigh, h]

/-! ### a case -/

/-- features of four terms in any number of fields -/
def fourFeatures : FieldFeatures (Fin 4) where
  tf := fun s => 4 * (s.val : Int) + 4
  df := fun s => 4 * (s.val : Int) + 5
  items := 1
  length := 2
  len := 3
  field := fun i s => 4 * (4 * (i : Int) + s.val) + 6

theorem four_apart : fourFeatures.Apart := by
  constructor
  · constructor <;> (intros; simp only [fourFeatures] at *; first | omega | (apply Fin.ext; omega))
  all_goals (intros; simp only [fourFeatures] at *; first | omega | (refine ⟨by omega, Fin.ext ?_⟩; omega))

/-- documents of two fields: the text has `a` at each address -/
def fourEnv (text : List (Int × Fin 4)) : FieldEnv (Fin 4) (Fin 4) where
  read := fun p q => (text.filter fun x => decide (p ≤ x.1 ∧ x.1 ≤ q)).map Prod.snd
  stem := id
  F := fourFeatures

/-- two documents; the titles are at 0 and 5, the bodies at 2–3 and 6–8 -/
def bookText : List (Int × Fin 4) := [(0, 1), (1, 3), (2, 1), (3, 2), (5, 2), (6, 1), (7, 1), (8, 0)]
def bookDocs : List Ann := [⟨0, 4, 0⟩, ⟨5, 9, 0⟩]
def bookTitles : List Ann := [⟨0, 0, 0⟩, ⟨5, 5, 0⟩]
def bookBodies : List Ann := [⟨2, 3, 0⟩, ⟨6, 8, 0⟩]

def bookNotes : List Note := [
  ⟨10, 0, 1⟩, ⟨26, 0, 1⟩, ⟨30, 0, 1⟩, ⟨8, 0, 2⟩, ⟨12, 0, 1⟩, ⟨3, 0, 3⟩,
  ⟨14, 5, 1⟩, ⟨26, 5, 2⟩, ⟨22, 5, 1⟩, ⟨12, 5, 1⟩, ⟨8, 5, 2⟩, ⟨4, 5, 1⟩, ⟨3, 5, 4⟩,
  ⟨9, 0, 2⟩, ⟨13, 0, 2⟩, ⟨5, 0, 1⟩, ⟨1, 0, 2⟩, ⟨2, 0, 7⟩]

/-- what is committed: the term 1 is once in the first title, once in the first body and twice in the second body -/
example : fieldAnnotations (fourEnv bookText) (listObj bookDocs) [listObj bookTitles, listObj bookBodies] = some (some bookNotes) := by
  decide +kernel

/-- the hypotheses of `C67_counted_partial` are met by these -/
example : (∀ d ∈ bookDocs, 0 ≤ d.p) ∧ ∀ L ∈ [bookTitles, bookBodies], ∀ d ∈ bookDocs, (within L d).length ≤ 1 := by decide +kernel

theorem book_counted : FieldCounted fourFeatures 2 (fieldWords (fourEnv bookText).words [bookTitles, bookBodies] (List.take 1))
    (allWords (fourEnv bookText).words [bookTitles, bookBodies] (List.take 1)) (fieldLength [bookTitles, bookBodies] (List.take 1)) bookDocs
    bookNotes := by
  have e : allNotes (fourEnv bookText) [bookTitles, bookBodies] bookDocs = bookNotes := by decide +kernel
  rw [← e]
  exact all_counted (E := fourEnv bookText) four_apart [bookTitles, bookBodies] (by decide)

/-- an index with these annotations -/
def bookLists (f : Int) : List Ann := (bookNotes.filter fun n => n.feature == f).map fun n => ⟨n.p, n.p, n.v⟩

theorem book_has : HasNotes bookNotes bookLists fun f => listObj (bookLists f) := by
  have lst : ∀ f, Listing (bookLists f) := by
    intro f
    constructor
    · unfold bookLists
      rw [List.pairwise_map, List.pairwise_filter]
      have : bookNotes.Pairwise fun a b => a.feature = b.feature → a.p < b.p := by decide +kernel
      refine this.imp fun {a b} h ha hb => ?_
      simp only [beq_iff_eq] at ha hb
      have := h (by rw [ha, hb])
      exact ⟨this, this⟩
    · intro a ha
      obtain ⟨n, hn, rfl⟩ := List.mem_map.1 ha
      have h : ∀ n ∈ bookNotes, minfinity < n.p ∧ n.p < maxfinity := by decide +kernel
      have := h n (List.mem_filter.1 hn).1
      exact ⟨this.1, by simp, this.2⟩
  refine ⟨lst, fun f => ⟨_, list_impl (lst f)⟩, fun f a => ?_⟩
  unfold bookLists
  rw [List.mem_map]
  constructor
  · rintro ⟨n, hn, rfl⟩
    rw [List.mem_filter] at hn
    exact ⟨n, hn.1, by simpa using hn.2, rfl⟩
  · rintro ⟨n, hn, rfl, rfl⟩
    exact ⟨n, List.mem_filter.2 ⟨hn, by simp⟩, rfl⟩

/-- two documents of seven tokens in all; term 1 is in both, term 3 in none (in no field) -/
example : readTotals (listObj (bookLists 1)) (listObj (bookLists 2)) = some (some (2, 7)) ∧
    loadDf (listObj (bookLists (fourFeatures.df 1))) = some 2 ∧ loadDf (listObj (bookLists (fourFeatures.df 3))) = some 0 := by
  refine ⟨C67_totals book_counted book_has (by decide) (by decide +kernel), ?_, ?_⟩
  · exact C67_df book_counted book_has 1
  · exact C67_df book_counted book_has 3

/-- titles weigh twice as much as bodies: 2·1 + 1·1 for term 1 in the first document, 2·0 + 1·2 in the second -/
example : (bookDocs.map fun d => (⟨1, 1, [(0, 2), (1, 1)].map fun x : Nat × Rat =>
    ⟨x.2, bookLists (fourFeatures.field x.1 1), listObj (bookLists (fourFeatures.field x.1 1))⟩⟩ : FieldAsked).tf d) = [3, 2] ∧
    ∀ x ∈ ([(0, 2), (1, 1)] : List (Nat × Rat)), x.1 < 2 ∧ 0 < x.2 := by
  refine ⟨by decide +kernel, by decide +kernel⟩

/-- the weights `2`, `0` and `1` (as bytes, with `stof` for one digit) of three fields: the second is left out -/
def digitOf (s : List UInt8) : Num := match s with
  | [d] => if 48 ≤ d ∧ d ≤ 57 then .num ((d.toNat : Rat) - 48) else .invalid
  | _ => .invalid

def shownWeights : Weighed → Option (List (Nat × Rat))
  | .ok l => some l
  | _ => none

example : shownWeights (fieldWeights digitOf [97, 9, 98, 9, 99] [50, 9, 48, 9, 49]) = some [(0, 2), (2, 1)] := by decide +kernel

/-- **C67** is violated: of two parts of a document that are both of a field (here the bodies at 2 and at 3), only the first is
counted. -/
theorem C67_second : fieldAnnotations (fourEnv bookText) (listObj [⟨0, 4, 0⟩]) [listObj [⟨2, 2, 0⟩, ⟨3, 3, 0⟩]] =
      some (some [⟨10, 0, 1⟩, ⟨8, 0, 1⟩, ⟨3, 0, 1⟩, ⟨9, 0, 1⟩, ⟨1, 0, 1⟩, ⟨2, 0, 1⟩]) ∧
    fieldWords (fourEnv bookText).words [[⟨2, 2, 0⟩, ⟨3, 3, 0⟩]] id 0 ⟨0, 4, 0⟩ = [1, 2] := by
  refine ⟨?_, ?_⟩ <;> decide +kernel

end

end Verif.Props
