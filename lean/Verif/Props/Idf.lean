import Verif.Idf.Proof
import Verif.Props.Fields
/-
  Properties of statistics with the weights of terms (C68).
-/
namespace Verif.Props
open Verif.Hopper Verif.Gcl Verif.Rank Verif.Terms Verif.Idf

section
variable {Word : Type} [DecidableEq Word]

/-- **C68**: `tf_idf_annotations` commits the statistics of the documents that the default container gives: how often each term is in
each of them, their average length, and the weights asked for. -/
theorem C68_committed (E : IdfEnv Word) (A : E.F.Apart) (ix : Index) (count : Option (List Char → Int)) {c : SExpr} (hc : Legal c)
    {D : List Ann} (hD : Lists D (den ix.solutions c)) (h0 : ∀ d ∈ D, 0 ≤ d.p) (unstemmed idf rsj : Bool)
    (hf : idf = true ∨ rsj = true) :
    ∃ (K : Obj) (notes : List Wide), compile ix count c = some K ∧ tfIdfAnnotations E unstemmed idf rsj K = some (some notes) ∧
      Statistics E.F E.log (fun d => (E.read d.p d.q).flatMap (termsOf E.stem unstemmed)) idf rsj D notes := by
  obtain ⟨K, eK, J, hJ⟩ := compile_impl ix count c hc
  have sD : den ix.solutions c = ofList D := by funext a; exact propext (hD.2 a).symm
  rw [sD] at hJ
  exact ⟨K, _, eK, tfIdf_ok A hD.1 hJ h0 unstemmed idf rsj hf, allWide_statistics A unstemmed idf rsj D⟩

/-- **C68**, neither weight: it succeeds and does nothing. -/
theorem C68_nothing (E : IdfEnv Word) (unstemmed : Bool) (C : Obj) : tfIdfAnnotations E unstemmed false false C = some none := rfl

/-! ### reading the statistics -/

section
variable {F : IdfFeatures Word} {log : Rat → Rat} {terms : Ann → List Word} {idf rsj : Bool} {D : List Ann} {notes : List Wide}
  (hs : Statistics F log terms idf rsj D notes)
include hs

/-- **C68**, kept: none of the statistics hides another, so that an index can have all of them. -/
theorem C68_kept (A : F.Apart) (hD : Listing D) (enc : Val → Int) : ∃ L, Has enc notes L := by
  have one : ∀ v : Int, Listing [⟨0, 0, v⟩] := fun v => ⟨List.pairwise_singleton .., by simp⟩
  have each : ∀ f, ∃ l, Listing l ∧ ∀ a, a ∈ l ↔ ∃ n ∈ notes, n.feature = f ∧ a = ⟨n.p, n.q, enc n.v⟩ := by
    intro f
    by_cases g1 : f = F.avgl
    · subst g1
      refine ⟨_, one (enc (if D = [] then .nan else .num (average D))), fun a => ?_⟩
      rw [List.mem_singleton]
      constructor
      · rintro rfl
        exact ⟨⟨F.avgl, 0, 0, _⟩, (hs.avgl ..).2 ⟨rfl, rfl, rfl⟩, rfl, rfl⟩
      · rintro ⟨⟨f, p, q, v⟩, hn, rfl, rfl⟩
        obtain ⟨rfl, rfl, rfl⟩ := (hs.avgl ..).1 hn
        rfl
    by_cases g2 : ∃ w, f = F.tf w
    · obtain ⟨w, rfl⟩ := g2
      refine ⟨(D.filter fun d => decide (w ∈ terms d)).map fun d => ⟨d.p, d.q, enc (.num ((terms d).count w : Nat))⟩, ⟨?_, ?_⟩, fun a => ?_⟩
      · rw [List.pairwise_map]
        exact (hD.sorted.filter _).imp fun h => h
      · intro a ha
        obtain ⟨d, hd, rfl⟩ := List.mem_map.1 ha
        exact hD.bounds d (List.mem_filter.1 hd).1
      · rw [List.mem_map]
        constructor
        · rintro ⟨d, hd, rfl⟩
          rw [List.mem_filter, decide_eq_true_eq] at hd
          exact ⟨⟨F.tf w, d.p, d.q, _⟩, (hs.tf ..).2 ⟨d, hd.1, hd.2, rfl, rfl, rfl⟩, rfl, rfl⟩
        · rintro ⟨⟨f, p, q, v⟩, hn, rfl, rfl⟩
          obtain ⟨d, hd, hw, rfl, rfl, rfl⟩ := (hs.tf ..).1 hn
          exact ⟨d, List.mem_filter.2 ⟨hd, by simpa using hw⟩, rfl⟩
    by_cases g3 : ∃ w, f = F.idf w ∧ idf = true ∧ 0 < docsWith terms D w
    · obtain ⟨w, rfl, h1, h2⟩ := g3
      refine ⟨_, one (enc (.num (idfOf log D.length (docsWith terms D w)))), fun a => ?_⟩
      rw [List.mem_singleton]
      constructor
      · rintro rfl
        exact ⟨⟨F.idf w, 0, 0, _⟩, (hs.idf ..).2 ⟨h1, h2, rfl, rfl, rfl⟩, rfl, rfl⟩
      · rintro ⟨⟨f, p, q, v⟩, hn, rfl, rfl⟩
        obtain ⟨_, _, rfl, rfl, rfl⟩ := (hs.idf ..).1 hn
        rfl
    by_cases g4 : ∃ w, f = F.rsj w ∧ rsj = true ∧ 0 < docsWith terms D w ∧ 0 < rsjOf log D.length (docsWith terms D w)
    · obtain ⟨w, rfl, h1, h2, h3⟩ := g4
      refine ⟨_, one (enc (.num (rsjOf log D.length (docsWith terms D w)))), fun a => ?_⟩
      rw [List.mem_singleton]
      constructor
      · rintro rfl
        exact ⟨⟨F.rsj w, 0, 0, _⟩, (hs.rsj ..).2 ⟨h1, h2, h3, rfl, rfl, rfl⟩, rfl, rfl⟩
      · rintro ⟨⟨f, p, q, v⟩, hn, rfl, rfl⟩
        obtain ⟨_, _, _, rfl, rfl, rfl⟩ := (hs.rsj ..).1 hn
        rfl
    · refine ⟨[], ⟨List.Pairwise.nil, by simp⟩, fun a => ⟨by simp, ?_⟩⟩
      rintro ⟨⟨f, p, q, v⟩, hn, rfl, rfl⟩
      rcases hs.others _ hn with e | ⟨w, e | e | e⟩
      · exact absurd e g1
      · exact absurd ⟨w, e⟩ g2
      · have e : f = F.idf w := e
        subst e
        obtain ⟨h1, h2, _⟩ := (hs.idf ..).1 hn
        exact absurd ⟨w, rfl, h1, h2⟩ g3
      · have e : f = F.rsj w := e
        subst e
        obtain ⟨h1, h2, h3, _⟩ := (hs.rsj ..).1 hn
        exact absurd ⟨w, rfl, h1, h2, h3⟩ g4
  exact ⟨fun f => Classical.choose (each f), ⟨fun f => (Classical.choose_spec (each f)).1, fun f => (Classical.choose_spec (each f)).2⟩⟩

variable {enc : Val → Int} {L : Int → List Ann} (hL : Has enc notes L)
include hL

/-- **C68**, terms: what the hopper of a term has is, in order, the documents with the term, each with how often it is there. -/
theorem C68_tf (hD : Listing D) (w : Word) :
    L (F.tf w) = (D.filter fun d => decide (w ∈ terms d)).map fun d => ⟨d.p, d.q, enc (.num ((terms d).count w : Nat))⟩ := by
  have hR : ((D.filter fun d => decide (w ∈ terms d)).map fun d => (⟨d.p, d.q, enc (.num ((terms d).count w : Nat))⟩ : Ann)).Pairwise
      fun a b => a.p < b.p ∧ a.q < b.q := by
    rw [List.pairwise_map]
    exact (hD.sorted.filter _).imp fun h => h
  have hn : ∀ m : List Ann, (m.Pairwise fun a b => a.p < b.p ∧ a.q < b.q) → m.Nodup := fun m hm =>
    hm.imp fun {a b} h e => by subst e; omega
  refine List.Perm.eq_of_pairwise (le := fun a b => a.p < b.p ∧ a.q < b.q) (fun a b _ _ h1 h2 => by omega)
    (hL.listing _).sorted hR ((List.perm_ext_iff_of_nodup (hn _ (hL.listing _).sorted) (hn _ hR)).2 fun a => ?_)
  rw [hL.mem, List.mem_map]
  constructor
  · rintro ⟨⟨f, p, q, v⟩, hn, rfl, rfl⟩
    obtain ⟨d, hd, hw, rfl, rfl, rfl⟩ := (hs.tf ..).1 hn
    exact ⟨d, List.mem_filter.2 ⟨hd, by simpa using hw⟩, rfl⟩
  · rintro ⟨d, hd, rfl⟩
    rw [List.mem_filter, decide_eq_true_eq] at hd
    exact ⟨⟨F.tf w, d.p, d.q, _⟩, (hs.tf ..).2 ⟨d, hd.1, hd.2, rfl, rfl, rfl⟩, rfl, rfl⟩

/-- **C68**, average: what `IdfStats` has as the average length is that of the documents. -/
theorem C68_average_partial {H : Obj} {I : H.σ → Prop} (hH : Impl H I (ofList (L F.avgl))) (hne : D ≠ []) :
    readFirst H = some (some (enc (.num (average D)))) := by
  refine (readFirst_ok (hL.listing _) hH).1 ⟨0, 0, _⟩ fun b => ?_
  rw [hL.mem]
  constructor
  · rintro ⟨⟨f, p, q, v⟩, hn, rfl, rfl⟩
    obtain ⟨rfl, rfl, rfl⟩ := (hs.avgl ..).1 hn
    rw [if_neg hne]
  · rintro rfl
    exact ⟨⟨F.avgl, 0, 0, _⟩, (hs.avgl ..).2 ⟨rfl, rfl, by rw [if_neg hne]⟩, rfl, rfl⟩

/-- **C68**, no documents: statistics of no documents are there, and have no number as the average. -/
theorem C68_no_documents {H : Obj} {I : H.σ → Prop} (hH : Impl H I (ofList (L F.avgl))) (hne : D = []) :
    readFirst H = some (some (enc .nan)) := by
  refine (readFirst_ok (hL.listing _) hH).1 ⟨0, 0, _⟩ fun b => ?_
  rw [hL.mem]
  constructor
  · rintro ⟨⟨f, p, q, v⟩, hn, rfl, rfl⟩
    obtain ⟨rfl, rfl, rfl⟩ := (hs.avgl ..).1 hn
    rw [if_pos hne]
  · rintro rfl
    exact ⟨⟨F.avgl, 0, 0, _⟩, (hs.avgl ..).2 ⟨rfl, rfl, by rw [if_pos hne]⟩, rfl, rfl⟩

/-- **C68**, weights: the inverse document frequency of a term is the logarithm of the number of documents over the number with the
term; that of a term in no document is 0. -/
theorem C68_idf {w : Word} {H : Obj} {I : H.σ → Prop} (hH : Impl H I (ofList (L (F.idf w)))) (hi : idf = true) :
    weightOf (enc (.num 0)) H = some (enc (.num
      (if docsWith terms D w = 0 then 0 else log ((D.length : Rat) / (docsWith terms D w : Nat))))) := by
  unfold weightOf
  by_cases hz : docsWith terms D w = 0
  · rw [(readFirst_ok (hL.listing _) hH).2, if_pos hz]
    · rfl
    · apply List.eq_nil_iff_forall_not_mem.2
      intro a ha
      obtain ⟨⟨f, p, q, v⟩, hn, rfl, rfl⟩ := (hL.mem _ _).1 ha
      have := ((hs.idf ..).1 hn).2.1
      omega
  · rw [(readFirst_ok (hL.listing _) hH).1 ⟨0, 0, enc (.num (idfOf log D.length (docsWith terms D w)))⟩, if_neg hz]
    · rfl
    · intro b
      rw [hL.mem]
      constructor
      · rintro ⟨⟨f, p, q, v⟩, hn, rfl, rfl⟩
        obtain ⟨_, _, rfl, rfl, rfl⟩ := (hs.idf ..).1 hn
        rfl
      · rintro rfl
        exact ⟨⟨F.idf w, 0, 0, _⟩, (hs.idf ..).2 ⟨hi, by omega, rfl, rfl, rfl⟩, rfl, rfl⟩

/-- **C68**, weights: that of relevance is the Robertson and Sparck Jones weight, or 0 if that is less or there is no document with
the term. -/
theorem C68_rsj {w : Word} {H : Obj} {I : H.σ → Prop} (hH : Impl H I (ofList (L (F.rsj w)))) (hi : rsj = true) :
    weightOf (enc (.num 0)) H = some (enc (.num (if docsWith terms D w = 0 then 0
      else max 0 (log (((D.length : Rat) - (docsWith terms D w : Nat) + 1 / 2) / ((docsWith terms D w : Nat) + 1 / 2)))))) := by
  unfold weightOf
  by_cases hz : 0 < docsWith terms D w ∧ 0 < rsjOf log D.length (docsWith terms D w)
  · rw [(readFirst_ok (hL.listing _) hH).1 ⟨0, 0, enc (.num (rsjOf log D.length (docsWith terms D w)))⟩, if_neg (by omega)]
    · have : max 0 (rsjOf log D.length (docsWith terms D w)) = rsjOf log D.length (docsWith terms D w) := by grind
      show some (enc (.num (rsjOf log D.length (docsWith terms D w)))) = some (enc (.num (max 0 (rsjOf log D.length (docsWith terms D w)))))
      rw [this]
    · intro b
      rw [hL.mem]
      constructor
      · rintro ⟨⟨f, p, q, v⟩, hn, rfl, rfl⟩
        obtain ⟨_, _, _, rfl, rfl, rfl⟩ := (hs.rsj ..).1 hn
        rfl
      · rintro rfl
        exact ⟨⟨F.rsj w, 0, 0, _⟩, (hs.rsj ..).2 ⟨hi, hz.1, hz.2, rfl, rfl, rfl⟩, rfl, rfl⟩
  · rw [(readFirst_ok (hL.listing _) hH).2]
    · show some (enc (.num 0)) = some (enc (.num (if docsWith terms D w = 0 then 0 else max 0 (rsjOf log D.length (docsWith terms D w)))))
      split
      · rfl
      · have : max 0 (rsjOf log D.length (docsWith terms D w)) = 0 := by
          have : ¬ 0 < rsjOf log D.length (docsWith terms D w) := fun h => hz ⟨by omega, h⟩
          grind
        rw [this]
    · apply List.eq_nil_iff_forall_not_mem.2
      intro a ha
      obtain ⟨⟨f, p, q, v⟩, hn, rfl, rfl⟩ := (hL.mem _ _).1 ha
      obtain ⟨_, h1, h2, _⟩ := (hs.rsj ..).1 hn
      exact hz ⟨h1, h2⟩

end

/-! ### statistics that are there already -/

section
variable {F : IdfFeatures Word} {log : Rat → Rat} {terms : Ann → List Word} {idf rsj : Bool} {D : List Ann} {notes : List Wide}
  {terms' : Ann → List Word} {idf' rsj' : Bool} {D' : List Ann} {notes' : List Wide} {enc : Val → Int} {L L' : Int → List Ann}

/-- what the index has of a feature after two commits -/
def after (L L' : Int → List Ann) (f : Int) : GC := Store.unionL [L f, L' f]

/-- **C68**, a second time: the average and the inverse document frequencies are those of the second time. -/
theorem C68_again (hs : Statistics F log terms idf rsj D notes) (hL : Has enc notes L)
    (hs' : Statistics F log terms' idf' rsj' D' notes') (hL' : Has enc notes' L') :
    (∀ a, after L L' F.avgl a ↔ a ∈ L' F.avgl) ∧
    (∀ w, L' (F.idf w) ≠ [] → ∀ a, after L L' (F.idf w) a ↔ a ∈ L' (F.idf w)) := by
  have key : ∀ (l l' : List Ann), (∀ a ∈ l, a.p = 0 ∧ a.q = 0) → (∀ a ∈ l', a.p = 0 ∧ a.q = 0) → l' ≠ [] →
      ∀ a, Store.unionL [l, l'] a ↔ a ∈ l' := by
    intro l l' h h' hne a
    rw [Store.unionL_iff, Store.newest_iff]
    obtain ⟨b, hb⟩ := List.exists_mem_of_ne_nil _ hne
    constructor
    · rintro ⟨⟨⟨i, hi⟩, h1, h2⟩, _⟩
      match i, hi, h1, h2 with
      | 0, _, h1, h2 =>
        have h1 : a ∈ l := h1
        have := h a h1
        have := h' b hb
        exact absurd (by unfold Store.same; omega) (h2 ⟨1, by simp⟩ b (by simp [Fin.lt_def]) hb)
      | 1, _, h1, _ => exact h1
    · intro ha
      have := h' a ha
      refine ⟨⟨⟨1, by simp⟩, ha, ?_⟩, ?_⟩
      · rintro ⟨j, hj⟩ c hlt
        have : j < 2 := hj
        have : 1 < j := hlt
        omega
      · intro m hm c hc _
        have : c.p = 0 ∧ c.q = 0 := by
          rcases List.mem_cons.1 hm with rfl | hm
          · exact h c hc
          · rw [List.mem_singleton] at hm
            subst hm
            exact h' c hc
        unfold Store.same
        omega
  constructor
  · apply key
    · intro a ha
      obtain ⟨⟨f, p, q, v⟩, hn, rfl, rfl⟩ := (hL.mem _ _).1 ha
      have := (hs.avgl ..).1 hn
      exact ⟨this.1, this.2.1⟩
    · intro a ha
      obtain ⟨⟨f, p, q, v⟩, hn, rfl, rfl⟩ := (hL'.mem _ _).1 ha
      have := (hs'.avgl ..).1 hn
      exact ⟨this.1, this.2.1⟩
    · exact List.ne_nil_of_mem ((hL'.mem _ _).2 ⟨_, (hs'.avgl 0 0 _).2 ⟨rfl, rfl, rfl⟩, rfl, rfl⟩)
  · intro w hne
    refine key _ _ ?_ ?_ hne
    · intro a ha
      obtain ⟨⟨f, p, q, v⟩, hn, rfl, rfl⟩ := (hL.mem _ _).1 ha
      have := (hs.idf ..).1 hn
      exact ⟨this.2.2.1, this.2.2.2.1⟩
    · intro a ha
      obtain ⟨⟨f, p, q, v⟩, hn, rfl, rfl⟩ := (hL'.mem _ _).1 ha
      have := (hs'.idf ..).1 hn
      exact ⟨this.2.2.1, this.2.2.2.1⟩

/-- **C68** does not hold of weights that are no longer positive: the earlier weight of relevance of a term stays, if its weight the
second time is not positive or no document has it any more, and is still read. -/
theorem C68_stale (hs : Statistics F log terms idf true D notes) (hL : Has enc notes L)
    (hs' : Statistics F log terms' idf' rsj' D' notes') (hL' : Has enc notes' L') (w : Word) (hw : 0 < docsWith terms D w)
    (hpos : 0 < rsjOf log D.length (docsWith terms D w)) 
    (hneg : rsjOf log D'.length (docsWith terms' D' w) ≤ 0 ∨ docsWith terms' D' w = 0) :
    ∀ a, after L L' (F.rsj w) a ↔ a = ⟨0, 0, enc (.num (rsjOf log D.length (docsWith terms D w)))⟩ := by
  have e' : L' (F.rsj w) = [] := by
    apply List.eq_nil_iff_forall_not_mem.2
    intro a ha
    obtain ⟨⟨f, p, q, v⟩, hn, rfl, rfl⟩ := (hL'.mem _ _).1 ha
    obtain ⟨_, h1, h2, _⟩ := (hs'.rsj ..).1 hn
    rcases hneg with h | h
    · grind
    · omega
  have e : ∀ a, a ∈ L (F.rsj w) ↔ a = ⟨0, 0, enc (.num (rsjOf log D.length (docsWith terms D w)))⟩ := by
    intro a
    rw [hL.mem]
    constructor
    · rintro ⟨⟨f, p, q, v⟩, hn, rfl, rfl⟩
      obtain ⟨_, _, _, rfl, rfl, rfl⟩ := (hs.rsj ..).1 hn
      rfl
    · rintro rfl
      exact ⟨⟨F.rsj w, 0, 0, _⟩, (hs.rsj ..).2 ⟨rfl, hw, hpos, rfl, rfl, rfl⟩, rfl, rfl⟩
  intro a
  unfold after
  rw [e', Store.unionL_iff, Store.newest_iff, ← e]
  constructor
  · rintro ⟨⟨⟨i, hi⟩, h1, _⟩, _⟩
    match i, hi, h1 with
    | 0, _, h1 => exact h1
    | 1, _, h1 => exact absurd h1 (by simp)
  · intro ha
    refine ⟨⟨⟨0, by simp⟩, ha, ?_⟩, ?_⟩
    · rintro ⟨j, hj⟩ c hlt hc
      have h2 : j < 2 := hj
      have h0 : 0 < j := hlt
      have : j = 1 := by omega
      subst this
      exact absurd hc (by simp)
    · intro m hm c hc _
      rcases List.mem_cons.1 hm with rfl | hm
      · rw [(e c).1 hc, (e a).1 ha]
        exact ⟨rfl, rfl⟩
      · rw [List.mem_singleton] at hm
        subst hm
        simp at hc

end

/-- **C68** does not hold where there are statistics of another kind: those have a term's annotation at the first word of the document, and
an index with it, in whatever transaction, has none for the whole document. -/
theorem C68_mixed (ixs : List Store.Index) (f : Int) (d : Ann) (hd : d.p < d.q) (v w : Int)
    (h : ∃ ix ∈ ixs, ⟨d.p, d.p, v⟩ ∈ Store.annsOf ix f) : ¬ Store.solutions ixs f ⟨d.p, d.q, w⟩ := by
  intro hs
  have hr : Store.solutionsRaw ixs f ⟨d.p, d.q, w⟩ := by
    unfold Store.solutions at hs
    split at hs
    · exact hs
    · exact hs.1
  obtain ⟨ix, hix, hv⟩ := h
  have hl := ((Store.unionL_iff _ _).1 hr).2 _ (List.mem_map.2 ⟨ix, hix, rfl⟩) _ hv ⟨by simp, by simp; omega⟩
  have : d.p = d.q := hl.2
  omega

end

/-! ### a case -/

def weighFeatures : IdfFeatures (Fin 4) where
  tf w := 10 + w.val
  idf w := 20 + w.val
  rsj w := 30 + w.val
  avgl := 1

theorem weigh_apart : weighFeatures.Apart := by
  constructor <;> decide

/-- Three documents; a word's stem is the even one below it, and the logarithm is one less than its argument. -/
def weighEnv : IdfEnv (Fin 4) where
  read p _ := if p = 0 then [1, 0, 2] else if p = 5 then [2, 3] else [2]
  stem w := if w = 1 then (0, true) else if w = 3 then (2, true) else (w, false)
  log r := r - 1
  F := weighFeatures

def weighDocs : List Ann := [⟨0, 3, 0⟩, ⟨5, 7, 0⟩, ⟨8, 8, 0⟩]

def weighNotes : List Wide := [⟨10, 0, 3, .num 2⟩, ⟨12, 0, 3, .num 1⟩, ⟨12, 5, 7, .num 2⟩, ⟨12, 8, 8, .num 1⟩, ⟨1, 0, 0, .num (8 / 3)⟩,
  ⟨20, 0, 0, .num 2⟩, ⟨30, 0, 0, .num (2 / 3)⟩, ⟨22, 0, 0, .num 0⟩]

theorem weigh_run : tfIdfAnnotations weighEnv false true true (listObj weighDocs) = some (some weighNotes) := by decide +kernel

/-- with words that are not stemmed, too -/
example : tfIdfAnnotations weighEnv true true false (listObj [⟨0, 3, 0⟩]) = some (some
    [⟨11, 0, 3, .num 1⟩, ⟨10, 0, 3, .num 2⟩, ⟨12, 0, 3, .num 1⟩, ⟨1, 0, 0, .num 4⟩, ⟨21, 0, 0, .num 0⟩, ⟨20, 0, 0, .num 0⟩,
      ⟨22, 0, 0, .num 0⟩]) := by decide +kernel

theorem weigh_listing : Listing weighDocs := ⟨by decide, by decide⟩

theorem weigh_statistics : Statistics weighFeatures weighEnv.log (weighEnv.terms false) true true weighDocs weighNotes := by
  have h := tfIdf_ok (E := weighEnv) weigh_apart weigh_listing (list_impl weigh_listing) (by decide) false true true (.inl rfl)
  rw [weigh_run] at h
  injection h with h
  injection h with h
  rw [h]
  exact allWide_statistics (E := weighEnv) weigh_apart false true true weighDocs

/-- how values are held -/
def shownVal : Val → Int
  | .num r => (r * 6).num
  | .nan => -1

/-- An index has them, and its hoppers give the average and the weights. -/
example : ∃ L, Has shownVal weighNotes L ∧ L 12 = [⟨0, 3, 6⟩, ⟨5, 7, 12⟩, ⟨8, 8, 6⟩] ∧
    readFirst (listObj (L 1)) = some (some 16) ∧
    weightOf (shownVal (.num 0)) (listObj (L 20)) = some 12 ∧ weightOf (shownVal (.num 0)) (listObj (L 30)) = some 4 ∧
    weightOf (shownVal (.num 0)) (listObj (L 32)) = some 0 ∧ weightOf (shownVal (.num 0)) (listObj (L 23)) = some 0 := by
  obtain ⟨L, hL⟩ := C68_kept weigh_statistics weigh_apart weigh_listing shownVal
  refine ⟨L, hL, ?_, ?_, ?_, ?_, ?_, ?_⟩
  · exact (C68_tf weigh_statistics hL weigh_listing 2).trans (by decide +kernel)
  · exact (C68_average_partial weigh_statistics hL (list_impl (hL.listing _)) (by decide)).trans (by decide +kernel)
  · exact (C68_idf weigh_statistics hL (w := 0) (list_impl (hL.listing _)) rfl).trans (by decide +kernel)
  · exact (C68_rsj weigh_statistics hL (w := 0) (list_impl (hL.listing _)) rfl).trans (by decide +kernel)
  · exact (C68_rsj weigh_statistics hL (w := 2) (list_impl (hL.listing _)) rfl).trans (by decide +kernel)
  · exact (C68_idf weigh_statistics hL (w := 3) (list_impl (hL.listing _)) rfl).trans (by decide +kernel)

/-- A case of `C68_stale`: in the first document alone and then in all of two, the weight of a word is no longer positive. -/
example : 0 < docsWith (weighEnv.terms false) weighDocs 0 ∧ 0 < rsjOf weighEnv.log weighDocs.length (docsWith (weighEnv.terms false) weighDocs 0) ∧
    (rsjOf weighEnv.log [(⟨0, 3, 0⟩ : Ann)].length (docsWith (weighEnv.terms false) [⟨0, 3, 0⟩] 0) ≤ 0) := by
  refine ⟨?_, ?_, ?_⟩ <;> decide +kernel

end Verif.Props
