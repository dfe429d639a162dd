import Verif.Idf.Model
import Verif.Terms.Run
import Verif.Terms.Read
/-
  What `tf_idf_annotations` makes.
-/
namespace Verif.Idf
open Verif.Hopper Verif.Terms

section
variable {Word : Type} [DecidableEq Word] {E : IdfEnv Word}

/-- the terms of a document -/
def IdfEnv.terms (E : IdfEnv Word) (u : Bool) (d : Ann) : List Word := (E.read d.p d.q).flatMap (termsOf E.stem u)

theorem countTerms_eq (u : Bool) : ∀ (ts : List Word) (tf : List (Word × Int)),
    countTerms E u ts tf = tally (ts.flatMap (termsOf E.stem u)) tf
  | [], tf => rfl
  | t :: ts, tf => by
    unfold countTerms
    rw [List.flatMap_cons, tally_append]
    cases u with
    | false =>
      simp only [Bool.false_eq_true, if_false]
      rw [countTerms_eq false ts]
      rfl
    | true =>
      simp only [if_true]
      rw [countTerms_eq true ts, countTerms_eq true ts]
      unfold termsOf
      cases (E.stem t).2 <;> rfl

theorem writeTerms_eq (d : Ann) : ∀ (tf df : List (Word × Int)) (notes : List Wide),
    writeTerms E d tf df notes = (tally (tf.map Prod.fst) df, notes ++ tf.map fun x => ⟨E.F.tf x.1, d.p, d.q, .num x.2⟩)
  | [], df, notes => by simp [writeTerms, tally]
  | (w, n) :: tf, df, notes => by
    unfold writeTerms
    rw [writeTerms_eq d tf]
    simp [tally]

def docWide (E : IdfEnv Word) (u : Bool) (d : Ann) : List Wide :=
  (tally (E.terms u d) []).map fun x => ⟨E.F.tf x.1, d.p, d.q, .num x.2⟩

/-- the numbers of the documents with the terms -/
def dfs (E : IdfEnv Word) (u : Bool) (D : List Ann) : List (Word × Int) :=
  tally (D.flatMap fun d => (tally (E.terms u d) []).map Prod.fst) []

theorem idfLoop_eq (u : Bool) : ∀ (D done : List Ann),
    idfLoop E u D done.length (lengths done) (dfs E u done) (done.flatMap (docWide E u)) =
      (((done ++ D).length : Int), lengths (done ++ D), dfs E u (done ++ D), (done ++ D).flatMap (docWide E u))
  | [], done => by simp [idfLoop]
  | d :: D, done => by
    unfold idfLoop
    rw [writeTerms_eq, countTerms_eq]
    dsimp only
    have l1 : ((done.length : Nat) : Int) + 1 = ((done ++ [d]).length : Nat) := by simp
    have l2 : lengths done + (d.q - d.p + 1) = lengths (done ++ [d]) := by simp [lengths, List.sum_append]
    have l3 : tally ((tally ((E.read d.p d.q).flatMap (termsOf E.stem u)) []).map Prod.fst) (dfs E u done) = dfs E u (done ++ [d]) := by
      unfold dfs
      rw [List.flatMap_append, tally_append]
      simp [IdfEnv.terms]
    have l4 : (done.flatMap (docWide E u) ++ (tally ((E.read d.p d.q).flatMap (termsOf E.stem u)) []).map fun x =>
        (⟨E.F.tf x.1, d.p, d.q, .num x.2⟩ : Wide)) = (done ++ [d]).flatMap (docWide E u) := by
      rw [List.flatMap_append]
      simp [docWide, IdfEnv.terms]
    rw [l1, l2, l3, l4, idfLoop_eq u D (done ++ [d])]
    simp

theorem dfs_mem {u : Bool} {D : List Ann} {w : Word} {m : Int} :
    (w, m) ∈ dfs E u D ↔ m = docsWith (E.terms u) D w ∧ 0 < m := by
  have cnt : ∀ D : List Ann, (D.flatMap fun d => (tally (E.terms u d) []).map Prod.fst).count w = docsWith (E.terms u) D w := by
    intro D
    induction D with
    | nil => rfl
    | cons d D ih =>
      rw [List.flatMap_cons, List.count_append, ih, nodup_count (tally_nodup _ [] (by simp))]
      unfold docsWith
      have hk : w ∈ (tally (E.terms u d) []).map Prod.fst ↔ w ∈ E.terms u d := by rw [tally_keys]; simp
      by_cases g : w ∈ E.terms u d
      · rw [if_pos (hk.2 g), List.filter_cons_of_pos (by simpa using g), List.length_cons]; omega
      · rw [if_neg (fun h => g (hk.1 h)), List.filter_cons_of_neg (by simpa using g)]; omega
  unfold dfs
  rw [tally_mem, ← List.count_pos_iff, cnt]
  constructor
  · rintro ⟨h1, rfl⟩; exact ⟨rfl, by omega⟩
  · rintro ⟨rfl, h⟩; exact ⟨by omega, rfl⟩

theorem dfs_nodup (u : Bool) (D : List Ann) : ((dfs E u D).map Prod.fst).Nodup := tally_nodup _ [] (by simp)

/-- the annotations of the weights of a term -/
def weightNotes (E : IdfEnv Word) (idf rsj : Bool) (n : Int) (x : Word × Int) : List Wide :=
  (if idf then [⟨E.F.idf x.1, 0, 0, .num (E.log (1 * n / x.2))⟩] else []) ++
  (if rsj then (if E.log (((n : Rat) - x.2 + 1 / 2) / (x.2 + 1 / 2)) > 0 then
    [⟨E.F.rsj x.1, 0, 0, .num (E.log (((n : Rat) - x.2 + 1 / 2) / (x.2 + 1 / 2)))⟩] else []) else [])

theorem writeWeights_eq (idf rsj : Bool) (n : Int) : ∀ (df : List (Word × Int)) (notes : List Wide),
    writeWeights E idf rsj n df notes = notes ++ df.flatMap (weightNotes E idf rsj n)
  | [], notes => by simp [writeWeights]
  | (w, m) :: df, notes => by
    unfold writeWeights
    dsimp only
    rw [writeWeights_eq idf rsj n df, List.flatMap_cons, ← List.append_assoc]
    congr 1
    unfold weightNotes
    cases idf <;> cases rsj <;> simp <;> split <;> simp

/-- all annotations -/
def allWide (E : IdfEnv Word) (u idf rsj : Bool) (D : List Ann) : List Wide :=
  D.flatMap (docWide E u) ++ [⟨E.F.avgl, 0, 0, ratio (lengths D) D.length⟩] ++ (dfs E u D).flatMap (weightNotes E idf rsj D.length)

theorem docWide_mem {u : Bool} {d : Ann} {n : Wide} : n ∈ docWide E u d ↔
    ∃ w, w ∈ E.terms u d ∧ n = ⟨E.F.tf w, d.p, d.q, .num (((E.terms u d).count w : Nat) : Int)⟩ := by
  unfold docWide
  rw [List.mem_map]
  constructor
  · rintro ⟨⟨w, k⟩, h, rfl⟩
    obtain ⟨h1, rfl⟩ := tally_mem.1 h
    exact ⟨w, h1, rfl⟩
  · rintro ⟨w, h, rfl⟩
    exact ⟨(w, _), tally_mem.2 ⟨h, rfl⟩, rfl⟩

theorem weightNotes_mem {idf rsj : Bool} {n : Int} {x : Word × Int} {a : Wide} : a ∈ weightNotes E idf rsj n x ↔
    (idf = true ∧ a = ⟨E.F.idf x.1, 0, 0, .num (E.log (1 * n / x.2))⟩) ∨
    (rsj = true ∧ E.log (((n : Rat) - x.2 + 1 / 2) / (x.2 + 1 / 2)) > 0 ∧
      a = ⟨E.F.rsj x.1, 0, 0, .num (E.log (((n : Rat) - x.2 + 1 / 2) / (x.2 + 1 / 2)))⟩) := by
  unfold weightNotes
  rw [List.mem_append]
  cases idf <;> cases rsj <;> simp <;> split <;> simp_all

theorem allWide_mem {u idf rsj : Bool} {D : List Ann} {n : Wide} : n ∈ allWide E u idf rsj D ↔
    (∃ d ∈ D, ∃ w, w ∈ E.terms u d ∧ n = ⟨E.F.tf w, d.p, d.q, .num (((E.terms u d).count w : Nat) : Int)⟩) ∨
    n = ⟨E.F.avgl, 0, 0, ratio (lengths D) D.length⟩ ∨
    (∃ w, 0 < docsWith (E.terms u) D w ∧ idf = true ∧ n = ⟨E.F.idf w, 0, 0, .num (idfOf E.log D.length (docsWith (E.terms u) D w))⟩) ∨
    (∃ w, 0 < docsWith (E.terms u) D w ∧ rsj = true ∧ rsjOf E.log D.length (docsWith (E.terms u) D w) > 0 ∧
      n = ⟨E.F.rsj w, 0, 0, .num (rsjOf E.log D.length (docsWith (E.terms u) D w))⟩) := by
  unfold allWide
  rw [List.mem_append, List.mem_append, List.mem_singleton, List.mem_flatMap, List.mem_flatMap, or_assoc]
  refine or_congr ?_ (or_congr Iff.rfl ?_)
  · exact ⟨fun ⟨d, hd, h⟩ => ⟨d, hd, docWide_mem.1 h⟩, fun ⟨d, hd, h⟩ => ⟨d, hd, docWide_mem.2 h⟩⟩
  · have e1 : ∀ m : Nat, idfOf E.log D.length m = E.log (1 * ((D.length : Int) : Rat) / ((m : Int) : Rat)) := by
      intro m
      unfold idfOf
      rw [Rat.one_mul]
      rfl
    have e2 : ∀ m : Nat, rsjOf E.log D.length m =
        E.log ((((D.length : Int) : Rat) - ((m : Int) : Rat) + 1 / 2) / (((m : Int) : Rat) + 1 / 2)) := fun m => rfl
    constructor
    · rintro ⟨⟨w, m⟩, hx, h⟩
      obtain ⟨rfl, hm⟩ := dfs_mem.1 hx
      rcases weightNotes_mem.1 h with ⟨h1, h2⟩ | ⟨h1, h2, h3⟩
      · exact .inl ⟨w, by omega, h1, by rw [h2, e1]⟩
      · exact .inr ⟨w, by omega, h1, by rw [e2]; exact h2, by rw [h3, e2]⟩
    · rintro (⟨w, hm, h1, h2⟩ | ⟨w, hm, h1, h2, h3⟩)
      · exact ⟨(w, (docsWith (E.terms u) D w : Nat)), dfs_mem.2 ⟨rfl, by omega⟩, weightNotes_mem.2 (.inl ⟨h1, by rw [h2, e1]⟩)⟩
      · exact ⟨(w, (docsWith (E.terms u) D w : Nat)), dfs_mem.2 ⟨rfl, by omega⟩,
          weightNotes_mem.2 (.inr ⟨h1, by rw [e2] at h2; exact h2, by rw [h3, e2]⟩)⟩

theorem allWide_pos (A : E.F.Apart) {u idf rsj : Bool} {D : List Ann} :
    (allWide E u idf rsj D).filter (fun n => 0 < n.feature) = allWide E u idf rsj D := by
  rw [List.filter_eq_self]
  intro n hn
  rcases allWide_mem.1 hn with ⟨d, _, w, _, rfl⟩ | rfl | ⟨w, _, _, rfl⟩ | ⟨w, _, _, _, rfl⟩
  · simpa using A.tf_pos w
  · simpa using A.avgl_pos
  · simpa using A.idf_pos w
  · simpa using A.rsj_pos w

/-- all of the program -/
theorem tfIdf_ok (A : E.F.Apart) {C : Obj} {D : List Ann} (hD : Listing D) {IC : C.σ → Prop} (hC : Impl C IC (ofList D))
    (h0 : ∀ d ∈ D, 0 ≤ d.p) (u idf rsj : Bool) (hf : idf = true ∨ rsj = true) :
    tfIdfAnnotations E u idf rsj C = some (some (allWide E u idf rsj D)) := by
  obtain ⟨l, s, e, _, hl, hs⟩ := tauAll_ok hD.wf hC.tau loopFuel 0 (by omega) (by omega) (fuel_hi (by omega)) C.init hC.init
  have : l = D := by
    have hn : ∀ m : List Ann, (m.Pairwise fun a b => a.p < b.p ∧ a.q < b.q) → m.Nodup := fun m hm =>
      hm.imp fun {a b} h e => by subst e; omega
    have hp : l.Perm D := by
      rw [List.perm_ext_iff_of_nodup (hn l hs) (hn D hD.sorted)]
      intro a
      rw [hl a]
      exact ⟨fun h => h.1, fun h => ⟨h, h0 a h⟩⟩
    exact hp.eq_of_pairwise (le := fun a b => a.p < b.p ∧ a.q < b.q) (fun a b _ _ h1 h2 => by omega) hs hD.sorted
  subst this
  unfold tfIdfAnnotations
  rw [if_neg (by rcases hf with rfl | rfl <;> simp), e]
  dsimp only
  have key := idfLoop_eq (E := E) u l []
  have key : idfLoop E u l 0 0 [] [] = ((l.length : Int), lengths l, dfs E u l, l.flatMap (docWide E u)) := key
  rw [key, writeWeights_eq]
  dsimp only
  have e2 : (l.flatMap (docWide E u) ++ [⟨E.F.avgl, 0, 0, ratio (lengths l) l.length⟩] ++
    (dfs E u l).flatMap (weightNotes E idf rsj l.length)) = allWide E u idf rsj l := rfl
  rw [e2, allWide_pos A]

theorem allWide_statistics (A : E.F.Apart) (u idf rsj : Bool) (D : List Ann) :
    Statistics E.F E.log (E.terms u) idf rsj D (allWide E u idf rsj D) := by
  have hr : ratio (lengths D) D.length = if D = [] then .nan else .num (average D) := by
    unfold ratio average lengths
    by_cases h : D = []
    · subst h; rfl
    · rw [if_neg h, if_neg (by have := List.length_pos_iff.2 h; omega), Rat.one_mul]
  refine ⟨?_, ?_, ?_, ?_, ?_⟩
  · intro w p q v
    rw [allWide_mem]
    constructor
    · rintro (⟨d, hd, w', hw, e⟩ | e | ⟨w', _, _, e⟩ | ⟨w', _, _, _, e⟩) <;> injection e with e1 e2 e3 e4
      · have := A.tf_inj _ _ e1
        subst this
        exact ⟨d, hd, hw, e2, e3, e4⟩
      · exact absurd e1 (A.tf_avgl _)
      · exact absurd e1 (A.tf_idf _ _)
      · exact absurd e1 (A.tf_rsj _ _)
    · rintro ⟨d, hd, hw, rfl, rfl, rfl⟩
      exact .inl ⟨d, hd, w, hw, rfl⟩
  · intro p q v
    rw [allWide_mem]
    constructor
    · rintro (⟨d, hd, w', hw, e⟩ | e | ⟨w', _, _, e⟩ | ⟨w', _, _, _, e⟩) <;> injection e with e1 e2 e3 e4
      · exact absurd e1.symm (A.tf_avgl _)
      · exact ⟨e2, e3, e4.trans hr⟩
      · exact absurd e1.symm (A.idf_avgl _)
      · exact absurd e1.symm (A.rsj_avgl _)
    · rintro ⟨rfl, rfl, rfl⟩
      exact .inr (.inl (by rw [hr]))
  · intro w p q v
    rw [allWide_mem]
    constructor
    · rintro (⟨d, hd, w', hw, e⟩ | e | ⟨w', h1, h2, e⟩ | ⟨w', _, _, _, e⟩) <;> injection e with e1 e2 e3 e4
      · exact absurd e1.symm (A.tf_idf _ _)
      · exact absurd e1 (A.idf_avgl _)
      · have := A.idf_inj _ _ e1
        subst this
        exact ⟨h2, h1, e2, e3, e4⟩
      · exact absurd e1 (A.idf_rsj _ _)
    · rintro ⟨h1, h2, rfl, rfl, rfl⟩
      exact .inr (.inr (.inl ⟨w, h2, h1, rfl⟩))
  · intro w p q v
    rw [allWide_mem]
    constructor
    · rintro (⟨d, hd, w', hw, e⟩ | e | ⟨w', h1, h2, e⟩ | ⟨w', h1, h2, h3, e⟩) <;> injection e with e1 e2 e3 e4
      · exact absurd e1.symm (A.tf_rsj _ _)
      · exact absurd e1 (A.rsj_avgl _)
      · exact absurd e1.symm (A.idf_rsj _ _)
      · have := A.rsj_inj _ _ e1
        subst this
        exact ⟨h2, h1, h3, e2, e3, e4⟩
    · rintro ⟨h1, h2, h3, rfl, rfl, rfl⟩
      exact .inr (.inr (.inr ⟨w, h2, h1, h3, rfl⟩))
  · intro n hn
    rcases allWide_mem.1 hn with ⟨d, _, w, _, rfl⟩ | rfl | ⟨w, _, _, rfl⟩ | ⟨w, _, _, _, rfl⟩
    · exact .inr ⟨w, .inl rfl⟩
    · exact .inl rfl
    · exact .inr ⟨w, .inr (.inl rfl)⟩
    · exact .inr ⟨w, .inr (.inr rfl)⟩

/-- the first annotation of a feature that has at most one -/
theorem readFirst_ok {H : Obj} {I : H.σ → Prop} {L : List Ann} (hL : Listing L) (hH : Impl H I (ofList L)) :
    (∀ a, (∀ b, b ∈ L ↔ b = a) → readFirst H = some (some a.v)) ∧ (L = [] → readFirst H = some none) := by
  obtain ⟨a, s', e, _, ha⟩ := hH.tau (minfinity + 1) (by decide) _ hH.init
  unfold readFirst
  rw [e, Option.map_some]
  dsimp only
  constructor
  · intro b hb
    have hbL := (hb b).2 rfl
    have := hL.bounds b hbL
    rcases ha with ⟨g, _⟩ | ⟨_, g, _, _⟩ | ⟨_, g, rfl⟩
    · omega
    · have := (hb a).1 g
      subst this
      rw [if_neg (by omega)]
    · have := g b hbL
      omega
  · rintro rfl
    rcases ha with ⟨g, _⟩ | ⟨_, g, _, _⟩ | ⟨_, g, rfl⟩
    · omega
    · exact absurd g (by simp [ofList])
    · rfl

end

end Verif.Idf
