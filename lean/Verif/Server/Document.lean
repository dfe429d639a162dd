import Verif.Server.Ranking
/-
  Looking up a document, its text, and snippets.
-/
namespace Verif.Server
open Verif.Hopper Verif.Gcl Verif.Rank Verif.Props
open Verif.Judge (trecDocno Plain tree query_writes escape_id)

section
variable {σ : Type} {S : Settings σ}

theorem locateQuery_eq {wanted : Text} (h : Plain (stripQuotes wanted)) :
    locateQuery S wanted = Judge.query S.container S.docno (stripQuotes wanted) := by
  unfold locateQuery doubleQuote Judge.query
  rw [escape_id fun c hc => ⟨(h c hc).1, (h c hc).2.1⟩]
  simp

/-- the hopper for a number -/
theorem locate_hopper {c : Collection} {d n : SExpr} (hd : Reads c S.container d) (hn : Reads c S.docno n) {wanted : Text}
    {docs : List NumberedDoc} (hs : DocsNumbered c.ix c.split d n docs) (ha : CanAsk c.ix c.split (stripQuotes wanted)) :
    ∃ H G, c.hopper (locateQuery S wanted) = some H ∧ Implements H G ∧ Wf G ∧
      ∀ a, G a ↔ ∃ x ∈ docs, x.span = a ∧ c.split (stripQuotes wanted) <:+: c.split x.docno := by
  have hp : Plain (stripQuotes wanted) := ha.plain
  have hl : Legal (expandPhrases c.split '"' (tree d n (stripQuotes wanted))) := by
    have ht : Legal (expandPhrases c.split '"' (.node .term (Paths.gclString (stripQuotes wanted)) 0 [])) := by
      refine expand_legal _ (by simp [Legal, LegalL, arityOk]) ?_
      rw [SplitsOk, SplitsOkL]
      refine ⟨fun _ _ => ?_, trivial⟩
      have hd : ((Paths.gclString (stripQuotes wanted)).drop 1).take ((Paths.gclString (stripQuotes wanted)).length - 2) = stripQuotes wanted := by
        rw [Judge.gclString_plain hp]; simp
      rw [hd]
      exact ⟨ha.good, ha.few⟩
    rw [Judge.expand_tree]
    simp only [Legal, LegalL, arityOk, List.length_cons, List.length_nil, and_true]
    exact ⟨by omega, hd.legal, by omega, hn.legal, ht⟩
  obtain ⟨H, c1, c2⟩ := compile_impl c.ix (some c.count) _ hl
  obtain ⟨rest, hparse⟩ := C09_reads (query_writes hd.writes hn.writes hp)
  refine ⟨H, _, ?_, c2, den_wf c.ix.wf _ hl, fun a => (den_tree hs ha a (den_wf c.ix.wf _ hn.legal)).symm⟩
  unfold Collection.hopper gclHopper
  rw [locateQuery_eq hp, hparse]
  exact c1

/-- a collection in which the number matches nothing -/
theorem locateIn_none {H : Obj} {G : GC} (hH : Implements H G) (h : ∀ a, ¬ G a) (i : Nat) (sofar : Located) :
    locateIn H i sofar = some sofar := by
  obtain ⟨I, hI⟩ := hH
  obtain ⟨a, s', g1, -, g2⟩ := hI.tau (minfinity + 1) ⟨by omega, by omega⟩ H.init hI.init
  unfold locateIn
  rw [g1]
  rcases g2 with ⟨h', -⟩ | ⟨-, k1, -⟩ | ⟨-, -, rfl⟩
  · omega
  · exact absurd k1 (h a)
  · simp

/-- … or something -/
theorem locateIn_some {H : Obj} {G : GC} (hH : Implements H G) (w : Wf G) {a : Ann} (ha : G a) (i : Nat) (sofar : Located) :
    (sofar = .nothing ∧ (∀ b, G b → b = a) ∧ locateIn H i sofar = some (.one i a)) ∨
    (sofar ≠ .nothing ∧ locateIn H i sofar = some (.failed ambiguousDocno)) ∨
    ∃ b, G b ∧ b ≠ a ∧ locateIn H i sofar = some (.failed ambiguousDocno) := by
  obtain ⟨I, hI⟩ := hH
  obtain ⟨r, s', g1, i1, g2⟩ := hI.tau (minfinity + 1) ⟨by omega, by omega⟩ H.init hI.init
  unfold locateIn
  rw [g1]
  have hlo := w.lo ha
  rcases g2 with ⟨h', -⟩ | ⟨-, k1, k2, k3⟩ | ⟨-, k1, rfl⟩
  · omega
  · have := w.hi k1; have := w.le k1; have := w.lo k1
    simp only [show r.p < maxfinity by omega, if_true]
    cases sofar with
    | one j d => exact .inr (.inl ⟨by simp, rfl⟩)
    | failed e => exact .inr (.inl ⟨by simp, rfl⟩)
    | nothing =>
      simp only [show r.p + 1 ≤ maxfinity by omega, if_true]
      obtain ⟨b, s'', g3, -, g4⟩ := hI.tau (r.p + 1) ⟨by omega, by omega⟩ s' i1
      rw [g3]
      rcases g4 with ⟨h', -⟩ | ⟨-, l1, l2, l3⟩ | ⟨-, l1, rfl⟩
      · omega
      · have := w.hi l1; have := w.le l1
        simp only [show b.p < maxfinity by omega, if_true]
        by_cases hra : r = a
        · subst hra
          exact .inr <| .inr ⟨b, l1, fun e => by rw [e] at l2; omega, trivial⟩
        · exact .inr <| .inr ⟨r, k1, hra, trivial⟩
      · simp only [show ¬ ((9223372036854775807 : Int) < 9223372036854775807) by omega, if_false]
        left
        have only : ∀ b, G b → b = r := by
          intro b hb
          have h1 := l1 b hb
          have h2 := k3 b hb (by have := w.lo hb; omega)
          exact w.uniq hb k1 (by omega)
        have := only a ha
        subst this
        exact ⟨trivial, only, rfl⟩
  · have := k1 a ha; omega

/-- the documents of some of the collections -/
structure LibraryOf (S : Settings σ) (d n : SExpr) (wanted : Text) (docs : Nat → List NumberedDoc) (l : List (Collection × Nat)) : Prop where
  container : ∀ x ∈ l, Reads x.1 S.container d
  docno : ∀ x ∈ l, Reads x.1 S.docno n
  numbered : ∀ x ∈ l, DocsNumbered x.1.ix x.1.split d n (docs x.2)
  ask : ∀ x ∈ l, CanAsk x.1.ix x.1.split (stripQuotes wanted)

theorem LibraryOf.tail {d n : SExpr} {wanted : Text} {docs : Nat → List NumberedDoc} {x : Collection × Nat} {l : List (Collection × Nat)}
    (h : LibraryOf S d n wanted docs (x :: l)) : LibraryOf S d n wanted docs l :=
  ⟨fun y hy => h.container y (by simp [hy]), fun y hy => h.docno y (by simp [hy]), fun y hy => h.numbered y (by simp [hy]),
    fun y hy => h.ask y (by simp [hy])⟩

/-- some document of the collections has the number -/
def HitOf (docs : Nat → List NumberedDoc) (wanted : Text) (l : List (Collection × Nat)) (i : Nat) (a : Ann) : Prop :=
  ∃ c, (c, i) ∈ l ∧ ∃ x ∈ docs i, x.span = a ∧ c.split (stripQuotes wanted) <:+: c.split x.docno

theorem locateLoop_none {d n : SExpr} {wanted : Text} {docs : Nat → List NumberedDoc} : ∀ {l : List (Collection × Nat)},
    LibraryOf S d n wanted docs l → (∀ i a, ¬ HitOf docs wanted l i a) → ∀ sofar, (∀ e, sofar ≠ .failed e) →
    locateLoop S wanted l sofar = some sofar := by
  intro l
  induction l with
  | nil => intro _ _ sofar _; rfl
  | cons x l ih =>
    obtain ⟨c, i⟩ := x
    intro hl hno sofar hs
    obtain ⟨H, G, g1, g2, g3, g4⟩ := locate_hopper (hl.container (c, i) (by simp)) (hl.docno (c, i) (by simp)) (hl.numbered (c, i) (by simp))
      (hl.ask (c, i) (by simp))
    unfold locateLoop
    simp only at g1
    rw [g1]
    simp only
    rw [locateIn_none g2 (fun a ha => by
      obtain ⟨y, y1, y2, y3⟩ := (g4 a).1 ha
      exact hno i a ⟨c, by simp, y, y1, y2, y3⟩) i sofar]
    have := ih hl.tail (fun j a ⟨c', m, r⟩ => hno j a ⟨c', by simp [m], r⟩) sofar hs
    cases sofar with
    | failed e => exact absurd rfl (hs e)
    | nothing => exact this
    | one j a => exact this

/-- a second document with the number -/
theorem locateLoop_second {d n : SExpr} {wanted : Text} {docs : Nat → List NumberedDoc} : ∀ {l : List (Collection × Nat)},
    LibraryOf S d n wanted docs l → (∃ i a, HitOf docs wanted l i a) → ∀ j b,
    locateLoop S wanted l (.one j b) = some (.failed ambiguousDocno) := by
  intro l
  induction l with
  | nil => rintro _ ⟨i, a, c, hm, -⟩; simp at hm
  | cons x l ih =>
    obtain ⟨c, i⟩ := x
    intro hl hh j b
    obtain ⟨H, G, g1, g2, g3, g4⟩ := locate_hopper (hl.container (c, i) (by simp)) (hl.docno (c, i) (by simp)) (hl.numbered (c, i) (by simp))
      (hl.ask (c, i) (by simp))
    unfold locateLoop
    simp only at g1
    rw [g1]
    simp only
    by_cases hG : ∃ a, G a
    · obtain ⟨a, ha⟩ := hG
      have : locateIn H i (.one j b) = some (.failed ambiguousDocno) := by
        rcases locateIn_some g2 g3 ha i (.one j b) with ⟨h, -, -⟩ | ⟨-, h⟩ | ⟨_, _, _, h⟩
        · simp at h
        · exact h
        · exact h
      rw [this]
    · rw [locateIn_none g2 (fun a ha => hG ⟨a, ha⟩) i]
      refine ih hl.tail ?_ j b
      obtain ⟨i', a, c', m, y, y1, y2, y3⟩ := hh
      rcases List.mem_cons.1 m with e | m
      · cases e
        exact absurd ⟨a, (g4 a).2 ⟨y, y1, y2, y3⟩⟩ hG
      · exact ⟨i', a, c', m, y, y1, y2, y3⟩

theorem locateLoop_first {d n : SExpr} {wanted : Text} {docs : Nat → List NumberedDoc} : ∀ {l : List (Collection × Nat)},
    (l.map (·.2)).Nodup → LibraryOf S d n wanted docs l → (∃ i a, HitOf docs wanted l i a) →
    (∃ i a, HitOf docs wanted l i a ∧ (∀ j b, HitOf docs wanted l j b → j = i ∧ b = a) ∧
      locateLoop S wanted l .nothing = some (.one i a)) ∨
    ((∃ i a j b, HitOf docs wanted l i a ∧ HitOf docs wanted l j b ∧ ¬ (i = j ∧ a = b)) ∧
      locateLoop S wanted l .nothing = some (.failed ambiguousDocno)) := by
  intro l
  induction l with
  | nil => rintro _ _ ⟨i, a, c, hm, -⟩; simp at hm
  | cons x l ih =>
    obtain ⟨c, i⟩ := x
    intro hnd hl hh
    obtain ⟨H, G, g1, g2, g3, g4⟩ := locate_hopper (hl.container (c, i) (by simp)) (hl.docno (c, i) (by simp)) (hl.numbered (c, i) (by simp))
      (hl.ask (c, i) (by simp))
    simp only [List.map_cons, List.nodup_cons] at hnd
    simp only at g1
    have head : ∀ a, HitOf docs wanted ((c, i) :: l) i a ↔ G a := by
      intro a
      rw [g4]
      constructor
      · rintro ⟨c', m, r⟩
        rcases List.mem_cons.1 m with e | m
        · cases e; exact r
        · exact absurd (List.mem_map.2 ⟨_, m, rfl⟩) hnd.1
      · intro r; exact ⟨c, by simp, r⟩
    have tl : ∀ j a, HitOf docs wanted l j a → HitOf docs wanted ((c, i) :: l) j a := by
      rintro j a ⟨c', m, r⟩; exact ⟨c', by simp [m], r⟩
    have cases' : ∀ j a, HitOf docs wanted ((c, i) :: l) j a → (j = i ∧ G a) ∨ HitOf docs wanted l j a := by
      rintro j a ⟨c', m, r⟩
      rcases List.mem_cons.1 m with e | m
      · cases e; exact .inl ⟨rfl, (g4 a).2 r⟩
      · exact .inr ⟨c', m, r⟩
    have notl : ∀ a, ¬ HitOf docs wanted l i a := by
      rintro a ⟨c', m, -⟩; exact hnd.1 (List.mem_map.2 ⟨_, m, rfl⟩)
    unfold locateLoop
    rw [g1]
    simp only
    by_cases hG : ∃ a, G a
    · obtain ⟨a, ha⟩ := hG
      rcases locateIn_some g2 g3 ha i .nothing with ⟨-, hu, h⟩ | ⟨h, -⟩ | ⟨b, b1, b2, h⟩
      · rw [h]
        by_cases hr : ∃ j b, HitOf docs wanted l j b
        · obtain ⟨j, b, hb⟩ := hr
          refine .inr ⟨⟨i, a, j, b, (head a).2 ha, tl j b hb, ?_⟩, locateLoop_second hl.tail ⟨j, b, hb⟩ i a⟩
          rintro ⟨rfl, -⟩; exact notl b hb
        · refine .inl ⟨i, a, (head a).2 ha, ?_, locateLoop_none hl.tail (fun j b hb => hr ⟨j, b, hb⟩) _ (by simp)⟩
          intro j b hb
          rcases cases' j b hb with ⟨e, hb'⟩ | hb'
          · exact ⟨e, hu b hb'⟩
          · exact absurd ⟨j, b, hb'⟩ hr
      · exact absurd rfl h
      · rw [h]
        exact .inr ⟨⟨i, b, i, a, (head b).2 b1, (head a).2 ha, fun h => b2 h.2⟩, rfl⟩
    · rw [locateIn_none g2 (fun a ha => hG ⟨a, ha⟩) i]
      have hh' : ∃ i a, HitOf docs wanted l i a := by
        obtain ⟨j, a, h⟩ := hh
        rcases cases' j a h with ⟨-, h⟩ | h
        · exact absurd ⟨a, h⟩ hG
        · exact ⟨j, a, h⟩
      rcases ih hnd.2 hl.tail hh' with ⟨j, a, h1, h2, h3⟩ | ⟨⟨j, a, j', b, h1, h2, h3⟩, h4⟩
      · refine .inl ⟨j, a, tl j a h1, fun j' b hb => ?_, h3⟩
        rcases cases' j' b hb with ⟨-, h⟩ | h
        · exact absurd ⟨b, h⟩ hG
        · exact h2 j' b h
      · exact .inr ⟨⟨j, a, j', b, tl j a h1, tl j' b h2, h3⟩, h4⟩

/-! ### the text -/

theorem fieldLoop_ok {τ : Type} {I : τ → Prop} {G : GC} (w : Wf G) {tau : Int → M τ Ann} (cq : Int) (add : Text → Ann → Text)
    (h : ∀ k, InRange k → Ok I (tau k) (TauSpec G k)) :
    ∀ (fuel : Nat) (k : Int), InRange k → k ≠ minfinity → (maxfinity - k).toNat < fuel → ∀ text {L : List Ann},
      (∀ a, a ∈ L ↔ G a ∧ k ≤ a.p) → L.Pairwise (fun a b => a.p < b.p) →
      Ok I (fieldLoop tau cq add fuel k text) fun t => t = (L.filter fun a => decide (a.q ≤ cq)).foldl add text := by
  intro fuel
  induction fuel with
  | zero => intro k _ _ h; omega
  | succ fuel ih =>
    intro k hk hk0 hf text L hL hp
    unfold fieldLoop
    refine Ok.bind (h k hk) fun r hr => ?_
    rcases hr with ⟨h1, _⟩ | ⟨_, h1, h2, h3⟩ | ⟨_, h1, rfl⟩
    · exact absurd h1 hk0
    · have := w.lo h1; have := w.hi h1; have := w.le h1
      have hrL := (hL r).2 ⟨h1, h2⟩
      cases L with
      | nil => simp at hrL
      | cons a L =>
        have hal := (hL a).1 (by simp)
        have e : a = r := by
          rcases List.mem_cons.1 hrL with e | e
          · exact e.symm
          · have h4 := (List.pairwise_cons.1 hp).1 r e
            have h5 := h3 a hal.1 hal.2
            omega
        subst e
        have hL' : ∀ b, b ∈ L ↔ G b ∧ a.p + 1 ≤ b.p := by
          intro b
          constructor
          · intro hb
            have h4 := (List.pairwise_cons.1 hp).1 b hb
            exact ⟨((hL b).1 (by simp [hb])).1, by omega⟩
          · rintro ⟨b1, b2⟩
            rcases List.mem_cons.1 ((hL b).2 ⟨b1, by omega⟩) with e | e
            · subst e; omega
            · exact e
        refine Ok.ite (fun hc => ?_) (fun hc => ?_)
        · refine Ok.bind (Ok.ck (by omega) (by omega)) ?_
          rintro _ rfl
          refine (ih (a.p + 1) (by omega) (by omega) (by omega) _ hL' (List.pairwise_cons.1 hp).2).mono fun t ht => ?_
          rw [ht]
          by_cases hq : a.q ≤ cq
          · rw [if_pos hq, List.filter_cons_of_pos (by simpa using hq), List.foldl_cons]
          · rw [if_neg hq, List.filter_cons_of_neg (by simpa using hq)]
        · refine Ok.pure ?_
          have : (a :: L).filter (fun a => decide (a.q ≤ cq)) = [] := by
            rw [List.filter_eq_nil_iff]
            intro b hb
            have hb1 := (hL b).1 hb
            have := h3 b hb1.1 hb1.2
            have := w.le hb1.1
            simp only [decide_eq_true_eq]
            omega
          rw [this]; rfl
    · refine Ok.ite (fun h => absurd h.1 (by simp)) (fun _ => Ok.pure ?_)
      have : L = [] := by
        cases L with
        | nil => rfl
        | cons a L =>
          have := (hL a).1 (by simp)
          have := h1 a this.1
          omega
      rw [this]; rfl

/-- pieces are put after a text that is not empty -/
theorem foldl_pieces (c : Collection) : ∀ (l : List Ann) (text : Text), text ≠ [] →
    l.foldl (addField c) text = text ++ (l.map fun a => stripQuotes (c.clean a.p a.q)).flatMap fun x => [' ', '.', '.', '.', ' '] ++ x := by
  intro l
  induction l with
  | nil => intro text _; simp
  | cons a l ih =>
    intro text h
    rw [List.foldl_cons, ih]
    · simp [addField, h]
    · simp [addField, h]

theorem foldl_joined (c : Collection) : ∀ l : List Ann,
    l.foldl (addField c) [] = joined (l.map fun a => stripQuotes (c.clean a.p a.q)) := by
  intro l
  induction l with
  | nil => rfl
  | cons a l ih =>
    rw [List.foldl_cons, List.map_cons, joined]
    have e : addField c [] a = stripQuotes (c.clean a.p a.q) := by simp [addField]
    rw [e]
    by_cases h : stripQuotes (c.clean a.p a.q) = []
    · rw [if_pos h, h, ih]
    · rw [if_neg h, foldl_pieces c l _ h]

theorem fieldsLoop_ok {c : Collection} {d : Ann} (h1 : minfinity < d.p) (h2 : d.p ≤ d.q) (h3 : d.q < maxfinity) :
    ∀ {texts : List Text} {fields : List SExpr}, texts.length = fields.length →
      (∀ x ∈ texts.zip fields, Reads c x.1 x.2) → ∀ text,
      ∃ l, FieldPlaces c d fields l ∧ fieldsLoop c d texts text = some (.ok (l.foldl (addField c) text)) := by
  intro texts
  induction texts with
  | nil =>
    intro fields hl _ text
    cases fields with
    | nil => exact ⟨[], .nil, rfl⟩
    | cons => simp at hl
  | cons t texts ih =>
    intro fields hl hr text
    cases fields with
    | nil => simp at hl
    | cons f fields =>
      have hf : Reads c t f := hr (t, f) (by simp)
      obtain ⟨-, H, e, I, hI⟩ := reads_hopper hf
      obtain ⟨L, hL⟩ := lists_exists c.ix _ hf.legal
      have w := means_wf hf
      have hL2 : ∀ a, a ∈ L ↔ c.means f a := hL.2
      obtain ⟨t', s', g1, -, g2⟩ := fieldLoop_ok w d.q (addField c) hI.tau loopFuel d.p ⟨by omega, by omega⟩ (by omega)
        (by unfold loopFuel; omega) text (L := L.filter fun a => decide (d.p ≤ a.p)) (by
          intro a; rw [List.mem_filter, hL2]; simp) (List.Pairwise.filter _ (hL.1.1.imp fun h => h.1)) H.init hI.init
      obtain ⟨l, l1, l2⟩ := ih (fields := fields) (by simpa using hl) (fun x hx => hr x (by simp [hx])) t'
      refine ⟨_, .cons hL l1, ?_⟩
      unfold fieldsLoop
      rw [e]
      simp only [g1]
      rw [l2, g2, List.filter_filter, List.foldl_append]
      have : (L.filter fun a => decide (a.q ≤ d.q) && decide (d.p ≤ a.p)) = within L d := by
        unfold within
        congr 1
        funext a
        rw [Bool.and_comm, Bool.decide_and]
      rw [this]

theorem documentText_ok {c : Collection} {d : Ann} {fields : List SExpr} (h1 : minfinity < d.p) (h2 : d.p ≤ d.q) (h3 : d.q < maxfinity)
    (hl : S.fields.length = fields.length) (hr : ∀ x ∈ S.fields.zip fields, Reads c x.1 x.2) :
    ∃ t, documentText S c d = some (.ok t) ∧ TextOf c fields d t := by
  unfold documentText
  by_cases h : S.fields = []
  · rw [if_pos h]
    refine ⟨_, rfl, .whole ?_⟩
    rw [h] at hl
    exact List.eq_nil_of_length_eq_zero hl.symm
  · rw [if_neg h]
    obtain ⟨l, l1, l2⟩ := fieldsLoop_ok (c := c) h1 h2 h3 hl hr []
    rw [l2]
    refine ⟨_, rfl, ?_⟩
    rw [foldl_joined]
    refine .parts ?_ l1
    rintro rfl
    exact h (List.eq_nil_of_length_eq_zero hl)

theorem mem_zipIdx_iff (l : List Collection) (c : Collection) (i : Nat) : (c, i) ∈ l.zipIdx ↔ l[i]? = some c := by
  rw [List.mem_iff_getElem?]
  constructor
  · rintro ⟨j, hj⟩
    rw [List.getElem?_zipIdx] at hj
    cases h : l[j]? with
    | none => rw [h] at hj; cases hj
    | some x => rw [h] at hj; simp at hj; obtain ⟨rfl, rfl⟩ := hj; exact h
  · intro h
    exact ⟨i, by rw [List.getElem?_zipIdx, h]; simp⟩

theorem document_ok {d n : SExpr} {wanted : Text} {docs : Nat → List NumberedDoc} {fields : List SExpr} (hne : wanted ≠ [])
    (hl : Library S d n wanted docs) (hf : FieldsRead S fields) :
    ∃ r, document S wanted = some r ∧
      (((∀ i a, ¬ HitIn S docs wanted i a) ∧ r = .error opDocument unknownDocno) ∨
      (∃ i a c t, HitIn S docs wanted i a ∧ (∀ j b, HitIn S docs wanted j b → j = i ∧ b = a) ∧ S.collections[i]? = some c ∧
        TextOf c fields a t ∧ r = .document c.burrow wanted t) ∨
      ((∃ i a j b, HitIn S docs wanted i a ∧ HitIn S docs wanted j b ∧ ¬ (i = j ∧ a = b)) ∧ r = .error opDocument ambiguousDocno)) := by
  have hz : LibraryOf S d n wanted docs S.collections.zipIdx := by
    constructor <;> (rintro ⟨c, i⟩ hx; have hx := (mem_zipIdx_iff _ _ _).1 hx)
    · exact hl.container i c hx
    · exact hl.docno i c hx
    · exact hl.numbered i c hx
    · exact hl.ask i c hx
  have hh : ∀ i a, HitOf docs wanted S.collections.zipIdx i a ↔ HitIn S docs wanted i a := by
    intro i a
    unfold HitOf HitIn
    constructor
    · rintro ⟨c, hc, r⟩; exact ⟨c, (mem_zipIdx_iff _ _ _).1 hc, r⟩
    · rintro ⟨c, hc, r⟩; exact ⟨c, (mem_zipIdx_iff _ _ _).2 hc, r⟩
  have nodup : (S.collections.zipIdx.map (·.2)).Nodup := by
    have : S.collections.zipIdx.map (·.2) = List.range' 0 S.collections.length := List.zipIdx_map_snd 0 _
    rw [this]; exact List.nodup_range'
  unfold document
  rw [if_neg hne]
  by_cases hex : ∃ i a, HitOf docs wanted S.collections.zipIdx i a
  · rcases locateLoop_first nodup hz hex with ⟨i, a, h1, h2, h3⟩ | ⟨⟨i, a, j, b, h1, h2, h3⟩, h4⟩
    · rw [h3]
      obtain ⟨c, hc, x, x1, x2, x3⟩ := (hh i a).1 h1
      have hr := hl.container i c hc
      have ha : c.means d a := ((hl.numbered i c hc).spans a).2 ⟨x, x1, x2⟩
      have w := means_wf hr
      obtain ⟨t, t1, t2⟩ := documentText_ok (S := S) (c := c) (d := a) (w.lo ha) (w.le ha) (w.hi ha) hf.length
        (hf.reads c (List.mem_of_getElem? hc))
      refine ⟨.document c.burrow wanted t, ?_, .inr (.inl ⟨i, a, c, t, (hh i a).1 h1, fun j b hb => h2 j b ((hh j b).2 hb), hc, t2, rfl⟩)⟩
      simp only [hc, t1]
    · rw [h4]
      exact ⟨_, rfl, .inr (.inr ⟨⟨i, a, j, b, (hh _ _).1 h1, (hh _ _).1 h2, h3⟩, rfl⟩)⟩
  · rw [locateLoop_none hz (fun i a h => hex ⟨i, a, h⟩) .nothing (by simp)]
    exact ⟨_, rfl, .inl ⟨fun i a h => hex ⟨i, a, (hh i a).2 h⟩, rfl⟩⟩

/-! ### snippets -/

theorem highlighted_in {c : Collection} {s e p q : Int} (h1 : s ≤ p) (h2 : p ≤ q) (h3 : q ≤ e) :
    highlighted c s e p q = (if s < p then c.clean s (p - 1) else []) ++ coverOpen ++ c.clean p q ++ coverClose ++
      (if q < e then c.clean (q + 1) e else []) := by
  unfold highlighted
  rw [if_neg (by omega)]

end
end Verif.Server
