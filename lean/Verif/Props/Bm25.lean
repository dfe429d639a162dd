import Verif.Props.Ranking
import Verif.Rank.Tf
/-
  Properties of BM25 ranking (C45).
-/
namespace Verif.Props
open Verif.Hopper Verif.Gcl Verif.Rank

/-- a term of a query: its weight in the query, its `rsj`, and the annotations with its
frequencies, one at the start of each document that has it, with the hopper over them -/
structure Asked where
  weight : Rat
  rsj : Rat
  tfs : List Ann
  H : Obj

/-- the documents of `D` with the term -/
def Asked.docs (num : Int → Int) (D : List Ann) (t : Asked) : List Ann :=
  D.filterMap fun d => (t.tfs.find? fun a => a.p == d.p).map fun a => ⟨d.p, d.q, num a.v⟩

/-- as the specification has it -/
def Asked.term (num : Int → Int) (D : List Ann) (t : Asked) : Term := ⟨t.weight * t.rsj, t.docs num D⟩

/-- The frequencies are annotations at the starts of documents `D`, are positive, and the term
counts for something. -/
structure Asked.Good (num : Int → Int) (tf : Int → Rat) (D : List Ann) (t : Asked) : Prop where
  listing : Listing t.tfs
  hopper : Implements t.H (ofList t.tfs)
  starts : ∀ a ∈ t.tfs, ∃ d ∈ D, d.p = a.p
  positive : ∀ a ∈ t.tfs, 0 < tf (num a.v)
  weight : t.rsj ≠ 0 → 0 < t.weight * t.rsj

/-- A program that sorts legs by where they stand. -/
def Orders (order : List Leg → List Leg) : Prop :=
  ∀ l, (order l).Perm l ∧ (order l).Pairwise fun a b => a.cur.p ≤ b.cur.p

theorem docs_mem {num : Int → Int} {D : List Ann} {t : Asked} {r : Ann} :
    r ∈ t.docs num D ↔ ∃ d ∈ D, ∃ a, t.tfs.find? (fun a => a.p == d.p) = some a ∧ r = ⟨d.p, d.q, num a.v⟩ := by
  unfold Asked.docs
  rw [List.mem_filterMap]
  constructor
  · rintro ⟨d, hd, h⟩
    rcases hf : t.tfs.find? (fun a => a.p == d.p) with _ | a
    · simp [hf] at h
    · rw [hf] at h
      exact ⟨d, hd, a, hf, (Option.some.inj h).symm⟩
  · rintro ⟨d, hd, a, hf, rfl⟩
    exact ⟨d, hd, by rw [hf]; rfl⟩

theorem docs_listing (num : Int → Int) {D : List Ann} (hD : Listing D) (t : Asked) : Listing (t.docs num D) := by
  constructor
  · unfold Asked.docs
    rw [List.pairwise_filterMap]
    refine hD.sorted.imp fun {a b} h x hx y hy => ?_
    cases hf : t.tfs.find? (fun c => c.p == a.p) <;> rw [hf] at hx <;> cases hx
    cases hg : t.tfs.find? (fun c => c.p == b.p) <;> rw [hg] at hy <;> cases hy
    exact h
  · intro a ha
    obtain ⟨d, hd, x, _, rfl⟩ := docs_mem.1 ha
    exact hD.bounds d hd

/-- the hopper's solutions are these documents -/
theorem docs_ofList {num : Int → Int} {D : List Ann} {t : Asked} (hl : Listing t.tfs) :
    withTf num (ofList t.tfs) (ofList D) = ofList (t.docs num D) := by
  funext r
  apply propext
  show _ ↔ r ∈ t.docs num D
  rw [docs_mem]
  constructor
  · rintro ⟨a, d, ha, hd, e, rfl⟩
    have ha : a ∈ t.tfs := ha
    refine ⟨d, hd, a, ?_, rfl⟩
    rcases hf : t.tfs.find? (fun x => x.p == d.p) with _ | b
    · have := List.find?_eq_none.1 hf a ha
      simp [e] at this
    · have hb := List.mem_of_find?_eq_some hf
      have hp := List.find?_some hf
      simp only [beq_iff_eq] at hp
      have := hl.wf.uniq (a := b) (b := a) hb ha (by omega)
      rw [hf, this]
  · rintro ⟨d, hd, a, hf, rfl⟩
    have hp := List.find?_some hf
    simp only [beq_iff_eq] at hp
    exact ⟨a, d, List.mem_of_find?_eq_some hf, hd, hp.symm, rfl⟩

theorem query_good {num : Int → Int} {tf : Int → Rat} {D : List Ann} (hD : Listing D) {avgl b k1 : Rat} (hk : 0 ≤ k1)
    (hb : 0 ≤ b) (hb' : b ≤ 1) (ha : 0 < avgl) {q : List Asked} (hq : ∀ t ∈ q, t.Good num tf D) :
    Query (bm25 tf avgl b k1) ((q.filter fun t => t.rsj != 0).map (Asked.term num D)) D := by
  have get : ∀ u ∈ (q.filter fun t => t.rsj != 0).map (Asked.term num D), ∃ t ∈ q, t.rsj ≠ 0 ∧ u = t.term num D := by
    intro u hu
    obtain ⟨t, ht, rfl⟩ := List.mem_map.1 hu
    obtain ⟨h1, h2⟩ := List.mem_filter.1 ht
    exact ⟨t, h1, by simpa using h2, rfl⟩
  refine ⟨hD, ?_, ?_, ?_, ?_⟩
  · intro u hu
    obtain ⟨t, _, _, rfl⟩ := get u hu
    exact docs_listing num hD t
  · intro u hu a h
    obtain ⟨t, _, _, rfl⟩ := get u hu
    obtain ⟨d, hd, _, _, rfl⟩ := docs_mem.1 h
    exact ⟨d, hd, rfl, rfl⟩
  · intro u hu
    obtain ⟨t, ht, hr, rfl⟩ := get u hu
    exact Rat.le_of_lt ((hq t ht).weight hr)
  · intro u hu a h
    obtain ⟨t, ht, hr, rfl⟩ := get u hu
    obtain ⟨d, hd, x, hf, rfl⟩ := docs_mem.1 h
    have := hD.bounds d hd
    exact bm25_bound ((hq t ht).positive x (List.mem_of_find?_eq_some hf)) ((hq t ht).weight hr) hk hb hb' ha
      (by show 0 < d.q - d.p + 1; omega)

/-- **C45**: `bm25_ranking`, which skips documents that cannot be among the best, returns the best
`depth` of all the documents with some term of the query in them, best first, each with the sum
over its terms.  Weights and scores are exact, and no term may have a negative weight
(`C45_negative`). -/
theorem C45_bm25_partial {num : Int → Int} (h0 : num 0 = 0) (tf : Int → Rat) {avgl b k1 : Rat} (hk : 0 ≤ k1) (hb : 0 ≤ b)
    (hb' : b ≤ 1) (ha : 0 < avgl) {order : List Leg → List Leg} (horder : Orders order)
    {sort : List (Result Rat) → List (Result Rat)} (hsort : SortsBy ratScores sort)
    (ix : Index) (count : Option (List Char → Int)) {c : SExpr} (hc : Legal c) {D : List Ann}
    (hD : Lists D (den ix.solutions c)) {q : List Asked} (hq : ∀ t ∈ q, t.Good num tf D) (depth : Nat) :
    ∃ K R, compile ix count c = some K ∧
      bm25Ranking (bm25 tf avgl b k1) order sort depth (q.map fun t => (t.weight, t.rsj, tfObj num t.H K)) = some R ∧
      Top ratScores depth
        (ranked (bm25 tf avgl b k1) ((q.filter fun t => t.rsj != 0).map (Asked.term num D)) D minfinity maxfinity) R := by
  obtain ⟨K, eK, J, hJ⟩ := compile_impl ix count c hc
  have sD : den ix.solutions c = ofList D := by funext a; exact propext (hD.2 a).symm
  rw [sD] at hJ
  obtain ⟨R, eR, hR⟩ := bm25_ok (depth := depth) (query := q.map fun t => (t.weight, t.rsj, tfObj num t.H K))
    (query_good hD.1 hk hb hb' ha hq) horder hsort (by
      rw [List.filter_map]
      have : ∀ l : List Asked, (∀ t ∈ l, t.Good num tf D) →
          Both Asks (l.map fun t => (t.weight, t.rsj, tfObj num t.H K)) (l.map (Asked.term num D)) := by
        intro l
        induction l with
        | nil => intro _; exact .nil
        | cons t l ih =>
          intro h
          refine .cons ⟨rfl, ?_⟩ (ih fun u hu => h u (List.mem_cons_of_mem _ hu))
          have ht := h t (List.mem_cons_self ..)
          obtain ⟨I, hI⟩ := ht.hopper
          have hw := walks_impl (tf_impl h0 ht.listing.wf hD.1.wf ht.starts hI hJ)
          rw [docs_ofList ht.listing] at hw
          exact ⟨_, hw⟩
      exact this _ fun t ht => hq t (List.mem_filter.1 ht).1)
  exact ⟨K, R, eK, eR, hR⟩

/-! ### over several fields -/

/-- a field of a term: its weight, the annotations with the frequencies in the field, the hopper
over them -/
structure Field where
  weight : Rat
  tfs : List Ann
  H : Obj

/-- a term of a query over several fields -/
structure FieldAsked where
  weight : Rat
  rsj : Rat
  fields : List Field

/-- the fields, as the specification has them -/
def FieldAsked.parts (t : FieldAsked) : List Term := t.fields.map fun f => ⟨f.weight, f.tfs⟩

/-- the weighted sum of the frequencies of a term in a document -/
def FieldAsked.tf (t : FieldAsked) (d : Ann) : Rat := docScore (fun w v _ => w * v) t.parts d

/-- the documents of `D` with the term in some field, with that sum -/
def FieldAsked.docs (enc : Rat → Int) (D : List Ann) (t : FieldAsked) : List Ann :=
  (D.filter fun d => occurs t.parts d).map fun d => ⟨d.p, d.q, enc (t.tf d)⟩

def FieldAsked.term (enc : Rat → Int) (D : List Ann) (t : FieldAsked) : Term := ⟨t.weight * t.rsj, t.docs enc D⟩

/-- The frequencies are annotations at the starts of documents `D` and are positive, as are the
weights of the fields, and the term counts for something. -/
structure FieldAsked.Good (D : List Ann) (t : FieldAsked) : Prop where
  some : t.fields ≠ []
  listing : ∀ f ∈ t.fields, Listing f.tfs
  hopper : ∀ f ∈ t.fields, Implements f.H (ofList f.tfs)
  starts : ∀ f ∈ t.fields, ∀ a ∈ f.tfs, ∃ d ∈ D, d.p = a.p
  positive : ∀ f ∈ t.fields, ∀ a ∈ f.tfs, 0 < a.v
  fweight : ∀ f ∈ t.fields, 0 < f.weight
  weight : t.rsj ≠ 0 → 0 < t.weight * t.rsj

theorem field_docs_ofList {enc : Rat → Int} {D : List Ann} {t : FieldAsked} :
    inFields enc t.parts (ofList D) = ofList (t.docs enc D) := by
  funext r
  apply propext
  show _ ↔ r ∈ t.docs enc D
  unfold FieldAsked.docs
  rw [List.mem_map]
  constructor
  · rintro ⟨d, hd, ho, rfl⟩
    exact ⟨d, List.mem_filter.2 ⟨hd, ho⟩, rfl⟩
  · rintro ⟨d, hd, rfl⟩
    exact ⟨d, (List.mem_filter.1 hd).1, (List.mem_filter.1 hd).2, rfl⟩

theorem field_docs_listing (enc : Rat → Int) {D : List Ann} (hD : Listing D) (t : FieldAsked) : Listing (t.docs enc D) := by
  constructor
  · unfold FieldAsked.docs
    rw [List.pairwise_map]
    exact (hD.sorted.filter _).imp fun h => h
  · intro a ha
    obtain ⟨d, hd, rfl⟩ := List.mem_map.1 ha
    exact hD.bounds d (List.mem_filter.1 hd).1

/-- a document with the term in some field has a positive sum -/
theorem field_tf_pos {D : List Ann} {t : FieldAsked} (h : t.Good D) {d : Ann} (ho : occurs t.parts d = true) : 0 < t.tf d := by
  have key : ∀ fs : List Field, (∀ f ∈ fs, ∀ a ∈ f.tfs, 0 < a.v) → (∀ f ∈ fs, 0 < f.weight) →
      0 ≤ docScore (fun w v _ => w * v) (fs.map fun f => ⟨f.weight, f.tfs⟩) d ∧
      (occurs (fs.map fun f => ⟨f.weight, f.tfs⟩) d = true →
        0 < docScore (fun w v _ => w * v) (fs.map fun f => ⟨f.weight, f.tfs⟩) d) := by
    intro fs
    induction fs with
    | nil => intro _ _; exact ⟨by simp [docScore, tot], by simp [occurs]⟩
    | cons f fs ih =>
      intro hp hw
      obtain ⟨i1, i2⟩ := ih (fun g hg => hp g (List.mem_cons_of_mem _ hg)) (fun g hg => hw g (List.mem_cons_of_mem _ hg))
      have hp := hp f (List.mem_cons_self ..)
      have hw := hw f (List.mem_cons_self ..)
      have e : docScore (fun w v _ => w * v) ((f :: fs).map fun f => ⟨f.weight, f.tfs⟩) d =
          share (fun w v _ => w * v) d ⟨f.weight, f.tfs⟩ +
            docScore (fun w v _ => w * v) (fs.map fun f => ⟨f.weight, f.tfs⟩) d := rfl
      rw [e]
      rcases hf : f.tfs.find? (fun a => a.p == d.p) with _ | a
      · have e0 : share (fun w v _ => w * v) d ⟨f.weight, f.tfs⟩ = 0 := by simp only [share, hf]
        rw [e0]
        refine ⟨by grind, fun h => ?_⟩
        have : occurs (fs.map fun f => ⟨f.weight, f.tfs⟩) d = true := by
          unfold occurs at h ⊢
          rw [List.map_cons, List.any_cons, Bool.or_eq_true] at h
          rcases h with h | h
          · obtain ⟨b, hb, h⟩ := List.any_eq_true.1 h
            exact absurd h (List.find?_eq_none.1 hf b hb)
          · exact h
        have := i2 this
        grind
      · have e0 : share (fun w v _ => w * v) d ⟨f.weight, f.tfs⟩ = f.weight * a.v := by simp only [share, hf]
        have hv : (0 : Rat) < a.v := by exact_mod_cast hp a (List.mem_of_find?_eq_some hf)
        have := Rat.mul_pos hw hv
        rw [e0]
        exact ⟨by grind, fun _ => by grind⟩
  exact (key t.fields h.positive h.fweight).2 ho

/-- **C45**, over fields: the same with frequencies that are weighted sums over the fields of a
document. -/
theorem C45_fields_partial {enc : Rat → Int} (h0 : enc 0 = 0) {dec : Int → Rat}
    {avgl b k1 : Rat} (hk : 0 ≤ k1) (hb : 0 ≤ b)
    (hb' : b ≤ 1) (ha : 0 < avgl) {order : List Leg → List Leg} (horder : Orders order)
    {sort : List (Result Rat) → List (Result Rat)} (hsort : SortsBy ratScores sort)
    (ix : Index) (count : Option (List Char → Int)) {c : SExpr} (hc : Legal c) {D : List Ann}
    (hD : Lists D (den ix.solutions c)) {q : List FieldAsked} (hq : ∀ t ∈ q, t.Good D)
    (hdec : ∀ t ∈ q, ∀ d ∈ D, dec (enc (t.tf d)) = t.tf d) (depth : Nat) :
    ∃ K R, compile ix count c = some K ∧
      bm25Ranking (bm25 dec avgl b k1) order sort depth
        (q.map fun t => (t.weight, t.rsj, fieldObj enc (t.fields.map fun f => (f.weight, f.H)) K)) = some R ∧
      Top ratScores depth
        (ranked (bm25 dec avgl b k1) ((q.filter fun t => t.rsj != 0).map (FieldAsked.term enc D)) D minfinity maxfinity) R := by
  obtain ⟨K, eK, J, hJ⟩ := compile_impl ix count c hc
  have sD : den ix.solutions c = ofList D := by funext a; exact propext (hD.2 a).symm
  rw [sD] at hJ
  have get : ∀ u ∈ (q.filter fun t => t.rsj != 0).map (FieldAsked.term enc D), ∃ t ∈ q, t.rsj ≠ 0 ∧ u = t.term enc D := by
    intro u hu
    obtain ⟨t, ht, rfl⟩ := List.mem_map.1 hu
    obtain ⟨h1, h2⟩ := List.mem_filter.1 ht
    exact ⟨t, h1, by simpa using h2, rfl⟩
  have hQ : Query (bm25 dec avgl b k1) ((q.filter fun t => t.rsj != 0).map (FieldAsked.term enc D)) D := by
    refine ⟨hD.1, ?_, ?_, ?_, ?_⟩
    · intro u hu
      obtain ⟨t, _, _, rfl⟩ := get u hu
      exact field_docs_listing enc hD.1 t
    · intro u hu a h
      obtain ⟨t, _, _, rfl⟩ := get u hu
      obtain ⟨d, hd, rfl⟩ := List.mem_map.1 h
      exact ⟨d, (List.mem_filter.1 hd).1, rfl, rfl⟩
    · intro u hu
      obtain ⟨t, ht, hr, rfl⟩ := get u hu
      exact Rat.le_of_lt ((hq t ht).weight hr)
    · intro u hu a h
      obtain ⟨t, ht, hr, rfl⟩ := get u hu
      obtain ⟨d, hd, rfl⟩ := List.mem_map.1 h
      obtain ⟨hd, ho⟩ := List.mem_filter.1 hd
      have := hD.1.bounds d hd
      exact bm25_bound (by rw [hdec t ht d hd]; exact field_tf_pos (hq t ht) ho) ((hq t ht).weight hr) hk hb hb' ha
        (by show 0 < d.q - d.p + 1; omega)
  obtain ⟨R, eR, hR⟩ := bm25_ok (depth := depth)
    (query := q.map fun t => (t.weight, t.rsj, fieldObj enc (t.fields.map fun f => (f.weight, f.H)) K))
    hQ horder hsort (by
      rw [List.filter_map]
      have : ∀ l : List FieldAsked, (∀ t ∈ l, t.Good D) →
          Both Asks (l.map fun t => (t.weight, t.rsj, fieldObj enc (t.fields.map fun f => (f.weight, f.H)) K))
            (l.map (FieldAsked.term enc D)) := by
        intro l
        induction l with
        | nil => intro _; exact .nil
        | cons t l ih =>
          intro h
          refine .cons ⟨rfl, ?_⟩ (ih fun u hu => h u (List.mem_cons_of_mem _ hu))
          have ht := h t (List.mem_cons_self ..)
          have hf : ∀ fs : List Field, (∀ f ∈ fs, Listing f.tfs) → (∀ f ∈ fs, Implements f.H (ofList f.tfs)) →
              Both IsField (fs.map fun f => (f.weight, f.H)) (fs.map fun f => ⟨f.weight, f.tfs⟩) := by
            intro fs
            induction fs with
            | nil => intro _ _; exact .nil
            | cons f fs ih =>
              intro h1 h2
              obtain ⟨I, hI⟩ := h2 f (List.mem_cons_self ..)
              exact .cons ⟨rfl, h1 f (List.mem_cons_self ..), I, walks_impl hI⟩
                (ih (fun g hg => h1 g (List.mem_cons_of_mem _ hg)) (fun g hg => h2 g (List.mem_cons_of_mem _ hg)))
          have hw := (field_walks (enc := enc) h0 hD.1.wf (fields := t.parts) (by simpa [FieldAsked.parts] using ht.some) hJ
            (hf t.fields ht.listing ht.hopper) (by
              intro u hu a h
              obtain ⟨f, hf, rfl⟩ := List.mem_map.1 hu
              exact ht.starts f hf a h)).1
          rw [field_docs_ofList] at hw
          exact ⟨_, hw⟩
      exact this _ fun t ht => hq t (List.mem_filter.1 ht).1)
  exact ⟨K, R, eK, eR, hR⟩

/-! ### containers -/

/-- **C45**, the containers of the documents: each result keeps its passage and its score and gets the
first container that holds the passage; if none does, the container stays the passage. -/
theorem C45_containers {σ : Type} (ix : Index) (count : Option (List Char → Int)) {c : SExpr} (hc : Legal c) {C : List Ann}
    (hC : Lists C (den ix.solutions c)) {rs : List (Result σ)} (hr : ∀ r ∈ rs, minfinity < r.p ∧ r.p ≤ r.q ∧ r.q < maxfinity) :
    ∃ K rs', compile ix count c = some K ∧ addContainers K K.init rs = some rs' ∧
      Both (fun r r' => r'.p = r.p ∧ r'.q = r.q ∧ r'.score = r.score ∧
        ((∃ c ∈ C, c.p ≤ r.p ∧ r.q ≤ c.q ∧ r'.cp = c.p ∧ r'.cq = c.q ∧ ∀ d ∈ C, d.p ≤ r.p → r.q ≤ d.q → c.q ≤ d.q) ∨
          (r'.cp = r.cp ∧ r'.cq = r.cq ∧ ∀ d ∈ C, ¬ (d.p ≤ r.p ∧ r.q ≤ d.q)))) rs rs' := by
  obtain ⟨K, eK, J, hJ⟩ := compile_impl ix count c hc
  have sC : den ix.solutions c = ofList C := by funext a; exact propext (hC.2 a).symm
  rw [sC] at hJ
  obtain ⟨rs', e, h⟩ := addContainers_ok hC.1 hJ rs K.init hJ.init hr
  exact ⟨K, rs', eK, e, h⟩

/-! ### a case -/

/-- sorts legs by where they stand -/
def byPlace : List Leg → List Leg
  | [] => []
  | a :: l =>
    let m := byPlace l
    m.takeWhile (fun b => decide (b.cur.p < a.cur.p)) ++ a :: m.dropWhile (fun b => decide (b.cur.p < a.cur.p))

theorem byPlace_orders : Orders byPlace := by
  intro l
  induction l with
  | nil => exact ⟨.refl _, .nil⟩
  | cons a l ih =>
    obtain ⟨h1, h2⟩ := ih
    have e : byPlace (a :: l) = (byPlace l).takeWhile (fun b => decide (b.cur.p < a.cur.p)) ++
        a :: (byPlace l).dropWhile (fun b => decide (b.cur.p < a.cur.p)) := rfl
    rw [e]
    generalize byPlace l = m at *
    have hm := List.takeWhile_append_dropWhile (p := fun b : Leg => decide (b.cur.p < a.cur.p)) (l := m)
    have hd : ∀ b ∈ m.dropWhile (fun b => decide (b.cur.p < a.cur.p)), a.cur.p ≤ b.cur.p := by
      clear e hm h1
      induction m with
      | nil => simp
      | cons x m ih =>
        obtain ⟨g1, g2⟩ := List.pairwise_cons.1 h2
        rw [List.dropWhile_cons]
        split
        · exact ih g2
        · rename_i hx
          simp only [decide_eq_true_eq] at hx
          intro b hb
          rcases List.mem_cons.1 hb with rfl | hb
          · omega
          · have := g1 b hb; omega
    refine ⟨?_, ?_⟩
    · refine List.perm_middle.trans (.cons a ?_)
      rw [hm]; exact h1
    · have h2' := h2
      rw [← hm, List.pairwise_append] at h2'
      obtain ⟨g1, g2, g3⟩ := h2'
      have ht : ∀ b ∈ m.takeWhile (fun b => decide (b.cur.p < a.cur.p)), b.cur.p < a.cur.p := fun b hb => by
        simpa using List.all_eq_true.1 (List.all_takeWhile (p := fun b : Leg => decide (b.cur.p < a.cur.p)) (l := m)) b hb
      rw [List.pairwise_append]
      refine ⟨g1, List.pairwise_cons.2 ⟨hd, g2⟩, ?_⟩
      intro x hx y hy
      have := ht x hx
      rcases List.mem_cons.1 hy with rfl | hy
      · omega
      · exact g3 x hx y hy

/-- three documents, and two terms with their frequencies -/
def bmDocs : List Ann := [⟨1, 10, 0⟩, ⟨11, 20, 0⟩, ⟨21, 30, 0⟩]
def bmA : Asked := ⟨1, 2, [⟨1, 1, 1⟩, ⟨21, 21, 3⟩], listObj [⟨1, 1, 1⟩, ⟨21, 21, 3⟩]⟩
def bmB : Asked := ⟨1, 1, [⟨11, 11, 2⟩, ⟨21, 21, 1⟩], listObj [⟨11, 11, 2⟩, ⟨21, 21, 1⟩]⟩

def bmRun (depth : Nat) (q : List Asked) : Option (List (Result Rat)) :=
  bm25Ranking (bm25 (fun v => v) 10 0 1) byPlace (byScore ratScores) depth
    (q.map fun t => (t.weight, t.rsj, tfObj id t.H (listObj bmDocs)))

/-- the terms meet what C45 asks for -/
example : ∀ t ∈ [bmA, bmB], t.Good id (fun v => v) bmDocs := by
  intro t ht
  simp only [List.mem_cons, List.not_mem_nil, or_false] at ht
  rcases ht with rfl | rfl
  · have hl : Listing bmA.tfs := ⟨by decide, by decide⟩
    exact ⟨hl, ⟨_, list_impl hl⟩, by decide, by decide +kernel, by decide +kernel⟩
  · have hl : Listing bmB.tfs := ⟨by decide, by decide⟩
    exact ⟨hl, ⟨_, list_impl hl⟩, by decide, by decide +kernel, by decide +kernel⟩

example : bmRun 2 [bmA, bmB] = some [⟨21, 30, 21, 30, 2⟩, ⟨1, 10, 1, 10, 1⟩] ∧
    ranked (bm25 (fun v => v) 10 0 1) [bmA.term id bmDocs, bmB.term id bmDocs] bmDocs minfinity maxfinity =
      [⟨1, 10, 1, 10, 1⟩, ⟨11, 20, 11, 20, 2/3⟩, ⟨21, 30, 21, 30, 2⟩] := by decide +kernel

/-- A term with a negative weight: the document at 21 is the best, at 3/2 against 1, but is not
found. -/
def bmNot : Asked := { bmB with weight := -1, tfs := [⟨11, 11, 1⟩], H := listObj [⟨11, 11, 1⟩] }
theorem C45_negative : bmRun 1 [bmA, bmNot] = some [⟨1, 10, 1, 10, 1⟩] ∧
    ranked (bm25 (fun v => v) 10 0 1) [bmA.term id bmDocs, bmNot.term id bmDocs] bmDocs minfinity maxfinity =
      [⟨1, 10, 1, 10, 1⟩, ⟨11, 20, 11, 20, -1/2⟩, ⟨21, 30, 21, 30, 3/2⟩] := by decide +kernel

/-- two fields -/
def bmFields : FieldAsked := ⟨1, 2, [⟨1, [⟨1, 1, 1⟩, ⟨21, 21, 3⟩], listObj [⟨1, 1, 1⟩, ⟨21, 21, 3⟩]⟩,
  ⟨3, [⟨11, 11, 1⟩, ⟨21, 21, 2⟩], listObj [⟨11, 11, 1⟩, ⟨21, 21, 2⟩]⟩]⟩

example : bmFields.Good bmDocs ∧ ∀ d ∈ bmDocs, ((bmFields.tf d).num : Rat) = bmFields.tf d := by
  refine ⟨⟨by decide, ?_, ?_, by decide, by decide, by decide +kernel, by decide +kernel⟩, by decide +kernel⟩
  · intro f hf
    simp only [bmFields, List.mem_cons, List.not_mem_nil, or_false] at hf
    rcases hf with rfl | rfl
    · exact ⟨by decide, by decide⟩
    · exact ⟨by decide, by decide⟩
  · intro f hf
    simp only [bmFields, List.mem_cons, List.not_mem_nil, or_false] at hf
    rcases hf with rfl | rfl
    · exact ⟨_, list_impl (l := [⟨1, 1, 1⟩, ⟨21, 21, 3⟩]) ⟨by decide, by decide⟩⟩
    · exact ⟨_, list_impl (l := [⟨11, 11, 1⟩, ⟨21, 21, 2⟩]) ⟨by decide, by decide⟩⟩

def bmFieldHopper : Obj := fieldObj (fun x => x.num) (bmFields.fields.map fun f => (f.weight, f.H)) (listObj bmDocs)

/-- Over fields, backwards is wrong: the last document with the term that ends by 30 is `[21, 30]`, with 9
for its frequencies, but the answer is the one before it, with the frequencies of the last. -/
theorem C45_fields_backward : (bmFieldHopper.uat 30 bmFieldHopper.init).map (·.1) = some ⟨11, 20, 9⟩ ∧
    (bmFieldHopper.ohr 30 bmFieldHopper.init).map (·.1) = some ⟨11, 20, 9⟩ ∧
    bmFields.docs (fun x => x.num) bmDocs = [⟨1, 10, 1⟩, ⟨11, 20, 3⟩, ⟨21, 30, 9⟩] := by decide +kernel

example : bm25Ranking (bm25 (fun v => v) 10 0 1) byPlace (byScore ratScores) 2 [(1, 2, bmFieldHopper)] =
    some [⟨21, 30, 21, 30, 9/5⟩, ⟨11, 20, 11, 20, 3/2⟩] := by decide +kernel

/-- a container of two documents, and one of none -/
example : addContainers (listObj [⟨0, 25, 0⟩, ⟨11, 40, 0⟩]) (listObj [⟨0, 25, 0⟩, ⟨11, 40, 0⟩]).init
    [(⟨21, 30, 21, 30, 2⟩ : Result Nat), ⟨1, 10, 1, 10, 1⟩, ⟨41, 50, 41, 50, 0⟩] =
    some [⟨21, 30, 11, 40, 2⟩, ⟨1, 10, 0, 25, 1⟩, ⟨41, 50, 41, 50, 0⟩] := by decide +kernel

/-- the documents of a query, and a term in all of them, meet what C45 asks for -/
example : ∃ D, Lists D (den sampleIndex.solutions (.node .term ['a'] 0 [])) ∧
    ∃ t : Asked, t.Good id (fun _ => 1) D ∧ t.tfs = D ∧ t.rsj ≠ 0 := by
  obtain ⟨D, hD⟩ := lists_exists sampleIndex (.node .term ['a'] 0 []) (by simp [Legal, LegalL, arityOk])
  refine ⟨D, hD, ⟨1, 2, D, listObj D⟩, ⟨hD.1, ⟨_, list_impl hD.1⟩, fun a ha => ⟨a, ha, rfl⟩, fun _ _ => ?_, fun _ => ?_⟩, rfl, ?_⟩
  · decide +kernel
  · show (0 : Rat) < 1 * 2; decide +kernel
  · show (2 : Rat) ≠ 0; decide +kernel

end Verif.Props
