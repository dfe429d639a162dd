import Verif.Fields.Model
import Verif.Terms.Run
import Verif.Terms.Read
import Verif.Rank.Tf
/-
  What `tf_field_annotations` makes.
-/
namespace Verif.Fields
open Verif.Hopper Verif.Terms Verif.Rank

/-- the first solution in a document is what the hopper answers, if that ends in the document -/
theorem first_in {L : List Ann} (hL : Listing L) {d a : Ann} (h0 : minfinity < d.p) (h1 : d.q < maxfinity)
    (h : TauSpec (ofList L) d.p a) :
    (a.q ≤ d.q ∧ (within L d).take 1 = [a]) ∨ (¬ a.q ≤ d.q ∧ (within L d).take 1 = []) := by
  have hs : (within L d).Pairwise fun a b => a.p < b.p ∧ a.q < b.q := hL.sorted.filter _
  have mem : ∀ b, b ∈ within L d ↔ b ∈ L ∧ d.p ≤ b.p ∧ b.q ≤ d.q := fun b => by unfold within; rw [List.mem_filter]; simp
  rcases h with ⟨h, _⟩ | ⟨_, h2, h3, h4⟩ | ⟨_, h2, rfl⟩
  · omega
  · by_cases hq : a.q ≤ d.q
    · refine .inl ⟨hq, ?_⟩
      have ha := (mem a).2 ⟨h2, h3, hq⟩
      cases e : within L d with
      | nil => rw [e] at ha; simp at ha
      | cons b l =>
        rw [e] at ha hs
        have hb := (mem b).1 (by rw [e]; exact List.mem_cons_self ..)
        rcases List.mem_cons.1 ha with rfl | ha
        · rfl
        · have := (List.pairwise_cons.1 hs).1 a ha
          have := h4 b hb.1 hb.2.1
          omega
    · refine .inr ⟨hq, ?_⟩
      cases e : within L d with
      | nil => rfl
      | cons b l =>
        have hb := (mem b).1 (by rw [e]; exact List.mem_cons_self ..)
        have h5 := h4 b hb.1 hb.2.1
        have h6 := hL.wf.mono h2 hb.1
        by_cases hp : a.p = b.p
        · have := hL.wf.uniq h2 hb.1 hp
          subst this
          exact absurd hb.2.2 hq
        · have := h6 (by omega)
          omega
  · refine .inr ⟨by show ¬ maxfinity ≤ d.q; omega, ?_⟩
    cases e : within L d with
    | nil => rfl
    | cons b l =>
      have hb := (mem b).1 (by rw [e]; exact List.mem_cons_self ..)
      exact absurd hb.2.1 (by have := h2 b hb.1; omega)

section
variable {Tok Stem : Type} [DecidableEq Tok] [DecidableEq Stem] {E : FieldEnv Tok Stem}

/-- the terms of an interval -/
def FieldEnv.words (E : FieldEnv Tok Stem) (a : Ann) : List Stem := (E.read a.p a.q).map E.stem

theorem noteField_eq (A : E.F.Apart) (i : Nat) (p : Int) : ∀ (tf : List (Stem × Int)) (notes : List Note),
    noteField E i p tf notes = notes ++ tf.map fun x => ⟨E.F.field i x.1, p, x.2⟩
  | [], notes => by simp [noteField]
  | (s, n) :: tf, notes => by
    unfold noteField
    rw [annotate_pos (A.field_pos i s), noteField_eq A i p tf]
    simp

theorem fold_tally (stem : Tok → Stem) : ∀ (ts : List Tok) (tf : List (Stem × Int)),
    ts.foldl (fun tf t => bump (stem t) tf) tf = tally (ts.map stem) tf
  | [], _ => rfl
  | t :: ts, tf => by
    rw [List.foldl_cons, fold_tally stem ts, List.map_cons]; rfl

/-- the terms of a field of a document -/
def FieldEnv.part (E : FieldEnv Tok Stem) (d : Ann) (L : List Ann) : List Stem := ((within L d).take 1).flatMap E.words

/-- the annotations of the fields of a document -/
def fieldNotes (E : FieldEnv Tok Stem) (d : Ann) : Nat → List (List Ann) → List Note
  | _, [] => []
  | i, L :: Ls => ((tally (E.part d L) []).map fun x => ⟨E.F.field i x.1, d.p, x.2⟩) ++ fieldNotes E d (i + 1) Ls

theorem docFields_eq (A : E.F.Apart) {d : Ann} {as : List Ann} {Ls : List (List Ann)}
    (h : Both (fun (a : Ann) L => (a.q ≤ d.q ∧ (within L d).take 1 = [a]) ∨ (¬ a.q ≤ d.q ∧ (within L d).take 1 = [])) as Ls) :
    ∀ (i : Nat) (length : Int) (tf : List (Stem × Int)) (notes : List Note),
      docFields E d i as length tf notes = (length + fieldLength Ls (List.take 1) d, tally (Ls.flatMap (E.part d)) tf,
        notes ++ fieldNotes E d i Ls) := by
  induction h with
  | nil => intro i l tf notes; simp [docFields, fieldLength, fieldNotes, tally]
  | @cons a L as Ls h _ ih =>
    intro i l tf notes
    unfold docFields
    rcases h with ⟨h1, h2⟩ | ⟨h1, h2⟩
    · rw [if_pos h1, ih, noteField_eq A, fold_tally, fold_tally]
      have e : E.part d L = (E.read a.p a.q).map E.stem := by simp [FieldEnv.part, h2, FieldEnv.words]
      rw [List.flatMap_cons, tally_append, e]
      refine Prod.ext ?_ (Prod.ext rfl ?_)
      · simp only [fieldLength, List.map_cons, List.sum_cons, h2, List.map_nil, List.sum_nil]; omega
      · simp only [fieldNotes, e, List.append_assoc]
    · rw [if_neg h1, ih]
      have e : E.part d L = [] := by simp [FieldEnv.part, h2]
      rw [List.flatMap_cons, e]
      refine Prod.ext ?_ (Prod.ext rfl ?_)
      · simp only [fieldLength, List.map_cons, List.sum_cons, h2, List.map_nil, List.sum_nil]; omega
      · simp [fieldNotes, e, tally]

theorem fieldNotes_mem {d : Ann} {n : Note} : ∀ {i : Nat} {Ls : List (List Ann)},
    n ∈ fieldNotes E d i Ls ↔ ∃ j, j < Ls.length ∧ ∃ s, s ∈ E.part d (Ls.getD j []) ∧
      n = ⟨E.F.field (i + j) s, d.p, (E.part d (Ls.getD j [])).count s⟩
  | i, [] => by simp [fieldNotes]
  | i, L :: Ls => by
    unfold fieldNotes
    rw [List.mem_append, fieldNotes_mem, List.mem_map]
    constructor
    · rintro (⟨x, hx, rfl⟩ | ⟨j, hj, s, hs, rfl⟩)
      · obtain ⟨s, k⟩ := x
        obtain ⟨h1, h2⟩ := tally_mem.1 hx
        exact ⟨0, by simp, s, h1, by simp [h2]⟩
      · exact ⟨j + 1, by simp; omega, s, by simpa using hs, by simp [show i + (j + 1) = i + 1 + j by omega]⟩
    · rintro ⟨j, hj, s, hs, rfl⟩
      cases j with
      | zero =>
        exact .inl ⟨(s, ((E.part d L).count s : Nat)), tally_mem.2 ⟨by simpa using hs, rfl⟩, by simp⟩
      | succ j => exact .inr ⟨j, by simp at hj; omega, s, by simpa using hs, by simp [show i + (j + 1) = i + 1 + j by omega]⟩

theorem tally_pairs (F : Stem → Int) (hF : ∀ s t, F s = F t → s = t) (p : Int) (ws : List Stem) :
    (((tally ws []).map fun x => (⟨F x.1, p, x.2⟩ : Note)).map fun n => (n.feature, n.p)).Nodup := by
  have := tally_nodup ws [] (by simp)
  rw [List.map_map]
  unfold List.Nodup at this ⊢
  rw [List.pairwise_map] at this ⊢
  refine this.imp fun {a b} h e => h ?_
  simp only [Function.comp, Prod.mk.injEq, and_true] at e
  exact hF _ _ e

theorem fieldNotes_nodup (A : E.F.Apart) {d : Ann} : ∀ (i : Nat) (Ls : List (List Ann)),
    ((fieldNotes E d i Ls).map fun n => (n.feature, n.p)).Nodup
  | _, [] => by simp [fieldNotes]
  | i, L :: Ls => by
    unfold fieldNotes
    rw [List.map_append, List.nodup_append]
    refine ⟨tally_pairs (E.F.field i) (fun s t h => (A.field_inj i i s t h).2) d.p _, fieldNotes_nodup A (i + 1) Ls, ?_⟩
    intro x hx y hy e
    subst e
    obtain ⟨n, hn, rfl⟩ := List.mem_map.1 hx
    obtain ⟨z, _, rfl⟩ := List.mem_map.1 hn
    obtain ⟨m, hm, e⟩ := List.mem_map.1 hy
    obtain ⟨j, _, s, _, rfl⟩ := fieldNotes_mem.1 hm
    simp only [Prod.mk.injEq, and_true] at e
    have := (A.field_inj _ _ _ _ e).1
    omega

/-- the annotations of a document -/
def docAll (E : FieldEnv Tok Stem) (Ls : List (List Ann)) (d : Ann) : List Note :=
  fieldNotes E d 0 Ls ++ docNotes E.F.toFeatures (fun d => Ls.flatMap (E.part d)) d ++ [⟨E.F.len, d.p, fieldLength Ls (List.take 1) d⟩]

/-- all annotations -/
def allNotes (E : FieldEnv Tok Stem) (Ls : List (List Ann)) (D : List Ann) : List Note :=
  D.flatMap (docAll E Ls) ++ (dfCounts E.F.toFeatures (fun d => Ls.flatMap (E.part d)) D).map (fun x => ⟨x.1, 0, x.2⟩) ++
    [⟨E.F.items, 0, D.length⟩, ⟨E.F.length, 0, (D.map (fieldLength Ls (List.take 1))).sum⟩]

/-- the hoppers of the fields -/
theorem fields_of {hoppers : List Obj} {Ls : List (List Ann)}
    (h : Both (fun H L => Listing L ∧ ∃ I, Impl H I (ofList L)) hoppers Ls) :
    Both IsField (hoppers.map fun H => ((1 : Rat), H)) (Ls.map fun L => (⟨1, L⟩ : Term)) := by
  induction h with
  | nil => exact .nil
  | cons h _ ih =>
    obtain ⟨h1, I, h2⟩ := h
    exact .cons ⟨rfl, h1, I, walks_impl h2⟩ ih

theorem answers {d : Ann} (h0 : minfinity < d.p) (h1 : d.q < maxfinity) : ∀ {as : List (Rat × Ann)} {Ls : List (List Ann)},
    Both (fun a t => a.1 = t.weight ∧ Listing t.docs ∧ TauSpec (ofList t.docs) d.p a.2) as (Ls.map fun L => (⟨1, L⟩ : Term)) →
    Both (fun (a : Ann) L => (a.q ≤ d.q ∧ (within L d).take 1 = [a]) ∨ (¬ a.q ≤ d.q ∧ (within L d).take 1 = [])) (as.map Prod.snd) Ls
  | [], [], _ => .nil
  | _ :: _, _ :: _, .cons ⟨_, hL, ht⟩ hs => .cons (first_in hL h0 h1 ht) (answers h0 h1 hs)

theorem fieldLoop_ok (A : E.F.Apart) {hoppers : List Obj} {Ls : List (List Ann)}
    (h : Both (fun H L => Listing L ∧ ∃ I, Impl H I (ofList L)) hoppers Ls) :
    ∀ (D done : List Ann) (ss : Sts (hoppers.map fun H => ((1 : Rat), H))), (∀ d ∈ D, minfinity < d.p ∧ d.p ≤ d.q ∧ d.q < maxfinity) →
      GoodSts _ (Ls.map fun L => (⟨1, L⟩ : Term)) ss →
      fieldLoop E (hoppers.map fun H => (1, H)) D done.length (done.map (fieldLength Ls (List.take 1))).sum
        (dfCounts E.F.toFeatures (fun d => Ls.flatMap (E.part d)) done) (done.flatMap (docAll E Ls)) ss =
      some (((done ++ D).length : Int), ((done ++ D).map (fieldLength Ls (List.take 1))).sum,
        dfCounts E.F.toFeatures (fun d => Ls.flatMap (E.part d)) (done ++ D), (done ++ D).flatMap (docAll E Ls))
  | [], done, ss, _, _ => by simp [fieldLoop]
  | d :: D, done, ss, hD, hs => by
    obtain ⟨d1, d2, d3⟩ := hD d (List.mem_cons_self ..)
    obtain ⟨as, ss', e, hs', ha⟩ := ask_ok (k := d.p) ⟨by omega, by omega⟩ (fields_of h) ss hs
    have ih := fieldLoop_ok A h D (done ++ [d]) ss' (fun x hx => hD x (List.mem_cons_of_mem _ hx)) hs'
    unfold fieldLoop
    rw [e]
    dsimp only
    rw [docFields_eq A (answers d1 d3 ha) 0 0 [] _]
    dsimp only
    rw [noteDoc_eq (E := E.base) A.base, annotate_pos A.len_pos]
    dsimp only
    have l1 : ((done.length : Nat) : Int) + 1 = ((done ++ [d]).length : Nat) := by simp
    have l2 : (done.map (fieldLength Ls (List.take 1))).sum + (0 + fieldLength Ls (List.take 1) d) =
        ((done ++ [d]).map (fieldLength Ls (List.take 1))).sum := by simp [List.sum_append]
    have l3 : tally ((tally (Ls.flatMap (E.part d)) []).map fun x => E.base.F.df x.1)
        (dfCounts E.F.toFeatures (fun d => Ls.flatMap (E.part d)) done) =
        dfCounts E.F.toFeatures (fun d => Ls.flatMap (E.part d)) (done ++ [d]) := by
      unfold dfCounts
      rw [List.flatMap_append, tally_append]
      simp [docFeatures, FieldEnv.base]
    have l4 : (done.flatMap (docAll E Ls) ++ fieldNotes E d 0 Ls ++
        (tally (Ls.flatMap (E.part d)) []).map fun x => (⟨E.base.F.tf x.1, d.p, x.2⟩ : Note)) ++
        [⟨E.F.len, d.p, 0 + fieldLength Ls (List.take 1) d⟩] = (done ++ [d]).flatMap (docAll E Ls) := by
      rw [List.flatMap_append]
      simp [docAll, docNotes, FieldEnv.base]
    rw [l1, l2, l3, l4, ih]
    simp

theorem df_mem {F : Features Stem} (A : F.Apart) {words : Ann → List Stem} {D : List Ann} {f v : Int} :
    (f, v) ∈ dfCounts F words D ↔ ∃ s, f = F.df s ∧ v = docsWith words D s ∧ 0 < v := by
  unfold dfCounts
  rw [tally_mem]
  have key : ∀ s, F.df s ∈ D.flatMap (docFeatures F words) ↔ 0 < (docsWith words D s : Int) := by
    intro s
    rw [← List.count_pos_iff, df_count A]
    omega
  constructor
  · rintro ⟨h1, h2⟩
    have : ∃ s, f = F.df s := by
      obtain ⟨d, _, h⟩ := List.mem_flatMap.1 h1
      obtain ⟨x, _, rfl⟩ := List.mem_map.1 h
      exact ⟨x.1, rfl⟩
    obtain ⟨s, rfl⟩ := this
    rw [df_count A] at h2
    exact ⟨s, rfl, h2, by rw [h2]; exact (key s).1 h1⟩
  · rintro ⟨s, rfl, rfl, h⟩
    exact ⟨(key s).2 h, by rw [df_count A]⟩

theorem all_mem (A : E.F.Apart) {Ls : List (List Ann)} {D : List Ann} {n : Note} : n ∈ allNotes E Ls D ↔
    (∃ d ∈ D, (∃ j, j < Ls.length ∧ ∃ s, s ∈ E.part d (Ls.getD j []) ∧
        n = ⟨E.F.field j s, d.p, (E.part d (Ls.getD j [])).count s⟩) ∨
      (∃ s, s ∈ Ls.flatMap (E.part d) ∧ n = ⟨E.F.tf s, d.p, (Ls.flatMap (E.part d)).count s⟩) ∨
      n = ⟨E.F.len, d.p, fieldLength Ls (List.take 1) d⟩) ∨
    (∃ s v, v = (docsWith (fun d => Ls.flatMap (E.part d)) D s : Int) ∧ 0 < v ∧ n = ⟨E.F.df s, 0, v⟩) ∨
    n = ⟨E.F.items, 0, D.length⟩ ∨ n = ⟨E.F.length, 0, (D.map (fieldLength Ls (List.take 1))).sum⟩ := by
  unfold allNotes
  rw [List.mem_append, List.mem_append, List.mem_flatMap, List.mem_map, List.mem_cons, List.mem_singleton]
  have doc : ∀ d, n ∈ docNotes E.F.toFeatures (fun d => Ls.flatMap (E.part d)) d ↔
      ∃ s, s ∈ Ls.flatMap (E.part d) ∧ n = ⟨E.F.tf s, d.p, (Ls.flatMap (E.part d)).count s⟩ := by
    intro d
    unfold docNotes counts
    rw [List.mem_map]
    constructor
    · rintro ⟨⟨s, k⟩, hx, rfl⟩
      obtain ⟨h1, h2⟩ := tally_mem.1 hx
      exact ⟨s, h1, by rw [h2]⟩
    · rintro ⟨s, h, rfl⟩
      exact ⟨(s, _), tally_mem.2 ⟨h, rfl⟩, rfl⟩
  have df : (∃ a, a ∈ dfCounts E.F.toFeatures (fun d => Ls.flatMap (E.part d)) D ∧ (⟨a.1, 0, a.2⟩ : Note) = n) ↔
      ∃ s v, v = (docsWith (fun d => Ls.flatMap (E.part d)) D s : Int) ∧ 0 < v ∧ n = ⟨E.F.df s, 0, v⟩ := by
    constructor
    · rintro ⟨⟨f, v⟩, h, rfl⟩
      obtain ⟨s, rfl, h1, h2⟩ := (df_mem A.base).1 h
      exact ⟨s, v, h1, h2, rfl⟩
    · rintro ⟨s, v, h1, h2, rfl⟩
      exact ⟨(_, v), (df_mem A.base).2 ⟨s, rfl, h1, h2⟩, rfl⟩
  rw [df]
  have inner : ∀ d, n ∈ docAll E Ls d ↔ ((∃ j, j < Ls.length ∧ ∃ s, s ∈ E.part d (Ls.getD j []) ∧
        n = ⟨E.F.field j s, d.p, (E.part d (Ls.getD j [])).count s⟩) ∨
      (∃ s, s ∈ Ls.flatMap (E.part d) ∧ n = ⟨E.F.tf s, d.p, (Ls.flatMap (E.part d)).count s⟩) ∨
      n = ⟨E.F.len, d.p, fieldLength Ls (List.take 1) d⟩) := by
    intro d
    unfold docAll
    rw [List.mem_append, List.mem_append, List.mem_singleton, fieldNotes_mem, doc, or_assoc]
    simp only [Nat.zero_add]
  constructor
  · rintro ((⟨d, hd, h⟩ | h) | h)
    · exact .inl ⟨d, hd, (inner d).1 h⟩
    · exact .inr (.inl h)
    · exact .inr (.inr h)
  · rintro (⟨d, hd, h⟩ | h | h)
    · exact .inl (.inl ⟨d, hd, (inner d).2 h⟩)
    · exact .inl (.inr h)
    · exact .inr h

theorem doc_nodup (A : E.F.Apart) (Ls : List (List Ann)) (d : Ann) : ((docAll E Ls d).map fun n => (n.feature, n.p)).Nodup := by
  unfold docAll
  rw [List.map_append, List.map_append, List.nodup_append, List.nodup_append]
  refine ⟨⟨fieldNotes_nodup A 0 Ls, tally_pairs E.F.tf A.base.tf_inj d.p _, ?_⟩, by simp, ?_⟩
  · intro x hx y hy e
    subst e
    obtain ⟨n, hn, rfl⟩ := List.mem_map.1 hx
    obtain ⟨j, _, s, _, rfl⟩ := fieldNotes_mem.1 hn
    obtain ⟨m, hm, e⟩ := List.mem_map.1 hy
    obtain ⟨z, _, rfl⟩ := List.mem_map.1 hm
    exact A.field_tf _ _ _ (Prod.mk.inj e).1.symm
  · intro x hx y hy e
    subst e
    simp only [List.map_cons, List.map_nil, List.mem_singleton] at hy
    subst hy
    rcases List.mem_append.1 hx with h | h
    · obtain ⟨n, hn, e⟩ := List.mem_map.1 h
      obtain ⟨j, _, s, _, rfl⟩ := fieldNotes_mem.1 hn
      exact A.field_len _ _ (Prod.mk.inj e).1
    · obtain ⟨n, hn, e⟩ := List.mem_map.1 h
      obtain ⟨z, _, rfl⟩ := List.mem_map.1 hn
      exact A.len_tf _ (Prod.mk.inj e).1.symm

/-- whose annotations these can be -/
theorem docAll_feature (A : E.F.Apart) {Ls : List (List Ann)} {d : Ann} {n : Note} (h : n ∈ docAll E Ls d) :
    n.p = d.p ∧ (∀ s, n.feature ≠ E.F.df s) ∧ n.feature ≠ E.F.items ∧ n.feature ≠ E.F.length := by
  unfold docAll at h
  rw [List.mem_append, List.mem_append] at h
  rcases h with (h | h) | h
  · obtain ⟨j, _, s, _, rfl⟩ := fieldNotes_mem.1 h
    exact ⟨rfl, A.field_df _ _, A.field_items _ _, A.field_length _ _⟩
  · obtain ⟨z, _, rfl⟩ := List.mem_map.1 h
    exact ⟨rfl, A.base.tf_df _, A.base.tf_items _, A.base.tf_length _⟩
  · rw [List.mem_singleton] at h
    subst h
    exact ⟨rfl, A.len_df, A.len_items, A.len_length⟩

theorem all_nodup (A : E.F.Apart) (Ls : List (List Ann)) {D : List Ann} (hD : D.Pairwise fun a b => a.p ≠ b.p) :
    ((allNotes E Ls D).map fun n => (n.feature, n.p)).Nodup := by
  unfold allNotes
  rw [List.map_append, List.map_append, List.nodup_append, List.nodup_append]
  have dfs : ∀ n ∈ (dfCounts E.F.toFeatures (fun d => Ls.flatMap (E.part d)) D).map (fun x => (⟨x.1, 0, x.2⟩ : Note)),
      ∃ s, n.feature = E.F.df s := by
    intro n hn
    obtain ⟨⟨f, v⟩, hx, rfl⟩ := List.mem_map.1 hn
    obtain ⟨s, e, _⟩ := (df_mem A.base).1 hx
    exact ⟨s, e⟩
  refine ⟨⟨?_, ?_, ?_⟩, ?_, ?_⟩
  · unfold List.Nodup
    rw [List.pairwise_map, List.pairwise_flatMap]
    refine ⟨fun d _ => List.pairwise_map.1 (doc_nodup A Ls d), hD.imp fun {a b} h x hx y hy e => h ?_⟩
    rw [← (docAll_feature A hx).1, ← (docAll_feature A hy).1]
    exact (Prod.mk.inj e).2
  · have := tally_nodup (D.flatMap (docFeatures E.F.toFeatures (fun d => Ls.flatMap (E.part d)))) [] (by simp)
    rw [List.map_map]
    unfold List.Nodup at this ⊢
    rw [List.pairwise_map] at this ⊢
    refine this.imp fun {a b} h e => h ?_
    exact (Prod.mk.inj e).1
  · intro x hx y hy e
    subst e
    obtain ⟨n, hn, rfl⟩ := List.mem_map.1 hx
    obtain ⟨d, _, hn⟩ := List.mem_flatMap.1 hn
    obtain ⟨m, hm, e⟩ := List.mem_map.1 hy
    obtain ⟨s, hs⟩ := dfs m hm
    exact (docAll_feature A hn).2.1 s (by rw [← (Prod.mk.inj e).1, hs])
  · have := A.base.items_length
    simp [this]
  · intro x hx y hy e
    subst e
    simp only [List.map_cons, List.map_nil, List.mem_cons, List.not_mem_nil, or_false] at hy
    rcases List.mem_append.1 hx with h | h
    · obtain ⟨n, hn, rfl⟩ := List.mem_map.1 h
      obtain ⟨d, _, hn⟩ := List.mem_flatMap.1 hn
      obtain ⟨_, _, h3, h4⟩ := docAll_feature A hn
      rcases hy with e | e
      · exact h3 (Prod.mk.inj e).1
      · exact h4 (Prod.mk.inj e).1
    · obtain ⟨n, hn, rfl⟩ := List.mem_map.1 h
      obtain ⟨s, hs⟩ := dfs n hn
      rcases hy with e | e
      · exact A.base.df_items s (by rw [← hs]; exact (Prod.mk.inj e).1)
      · exact A.base.df_length s (by rw [← hs]; exact (Prod.mk.inj e).1)

theorem all_totals (A : E.F.Apart) (Ls : List (List Ann)) (D : List Ann) :
    total (allNotes E Ls D) E.F.items = D.length ∧
    total (allNotes E Ls D) E.F.length = (D.map (fieldLength Ls (List.take 1))).sum := by
  have none : ∀ f, f = E.F.items ∨ f = E.F.length →
      total (D.flatMap (docAll E Ls) ++ (dfCounts E.F.toFeatures (fun d => Ls.flatMap (E.part d)) D).map (fun x => (⟨x.1, 0, x.2⟩ : Note))) f = 0 := by
    intro f hf
    refine total_none fun n hn e => ?_
    rcases List.mem_append.1 hn with h | h
    · obtain ⟨d, _, h⟩ := List.mem_flatMap.1 h
      obtain ⟨_, _, h3, h4⟩ := docAll_feature A h
      rcases hf with rfl | rfl
      · exact h3 e
      · exact h4 e
    · obtain ⟨⟨f', v⟩, hx, rfl⟩ := List.mem_map.1 h
      obtain ⟨s, e', _⟩ := (df_mem A.base).1 hx
      have e : f' = f := e
      subst e'
      rcases hf with rfl | rfl
      · exact A.base.df_items s e
      · exact A.base.df_length s e
  have h1 := A.base.items_length
  have h2 : E.F.length ≠ E.F.items := fun e => h1 e.symm
  unfold allNotes
  rw [total_append _ [_, _], total_append _ [_, _], none _ (.inl rfl), none _ (.inr rfl)]
  constructor
  · simp [total, h2]
  · simp [total, h1]

theorem range_get (Ls : List (List Ann)) : Ls = (List.range Ls.length).map fun i => Ls.getD i [] := by
  apply List.ext_getElem
  · simp
  · intro i h1 h2
    simp [h1]

theorem whole_eq (Ls : List (List Ann)) (d : Ann) : Ls.flatMap (E.part d) = allWords E.words Ls (List.take 1) d := by
  unfold allWords fieldWords
  conv => lhs; rw [range_get Ls]
  rw [List.flatMap_map]
  rfl

theorem all_counted (A : E.F.Apart) (Ls : List (List Ann)) {D : List Ann} (hD : D.Pairwise fun a b => a.p ≠ b.p) :
    FieldCounted E.F Ls.length (fieldWords E.words Ls (List.take 1)) (allWords E.words Ls (List.take 1)) (fieldLength Ls (List.take 1)) D
      (allNotes E Ls D) := by
  have hw : (fun d => Ls.flatMap (E.part d)) = allWords E.words Ls (List.take 1) := funext fun d => whole_eq Ls d
  have hp : ∀ d j, E.part d (Ls.getD j []) = fieldWords E.words Ls (List.take 1) j d := fun _ _ => rfl
  have mem : ∀ n, n ∈ allNotes E Ls D ↔ _ := fun n => all_mem A
  have hw' : ∀ d, Ls.flatMap (E.part d) = allWords E.words Ls (List.take 1) d := fun d => whole_eq Ls d
  simp only [hw, hw', hp] at mem
  refine ⟨?_, ?_, ?_, ?_, ?_, (all_totals A Ls D).1, (all_totals A Ls D).2, all_nodup A Ls hD⟩
  · intro i hi s p v
    rw [mem]
    constructor
    · rintro (⟨d, hd, ⟨j, hj, t, ht, e⟩ | ⟨t, ht, e⟩ | e⟩ | ⟨t, v, _, _, e⟩ | e | e)
      · injection e with e1 e2 e3
        obtain ⟨rfl, rfl⟩ := A.field_inj _ _ _ _ e1
        exact ⟨d, hd, e2.symm, ht, e3⟩
      · injection e with e1; exact absurd e1 (A.field_tf _ _ _)
      · injection e with e1; exact absurd e1 (A.field_len _ _)
      · injection e with e1; exact absurd e1 (A.field_df _ _ _)
      · injection e with e1; exact absurd e1 (A.field_items _ _)
      · injection e with e1; exact absurd e1 (A.field_length _ _)
    · rintro ⟨d, hd, rfl, hs, rfl⟩
      exact .inl ⟨d, hd, .inl ⟨i, hi, s, hs, rfl⟩⟩
  · intro i hi s p v
    rw [mem]
    rintro (⟨d, hd, ⟨j, hj, t, ht, e⟩ | ⟨t, ht, e⟩ | e⟩ | ⟨t, v, _, _, e⟩ | e | e)
    · injection e with e1
      have := (A.field_inj _ _ _ _ e1).1
      omega
    · injection e with e1; exact absurd e1 (A.field_tf _ _ _)
    · injection e with e1; exact absurd e1 (A.field_len _ _)
    · injection e with e1; exact absurd e1 (A.field_df _ _ _)
    · injection e with e1; exact absurd e1 (A.field_items _ _)
    · injection e with e1; exact absurd e1 (A.field_length _ _)
  · intro s p v
    rw [mem]
    constructor
    · rintro (⟨d, hd, ⟨j, hj, t, ht, e⟩ | ⟨t, ht, e⟩ | e⟩ | ⟨t, v, _, _, e⟩ | e | e)
      · injection e with e1; exact absurd e1.symm (A.field_tf _ _ _)
      · injection e with e1 e2 e3
        cases A.base.tf_inj _ _ e1
        exact ⟨d, hd, e2.symm, ht, e3⟩
      · injection e with e1; exact absurd e1.symm (A.len_tf _)
      · injection e with e1; exact absurd e1 (A.base.tf_df _ _)
      · injection e with e1; exact absurd e1 (A.base.tf_items _)
      · injection e with e1; exact absurd e1 (A.base.tf_length _)
    · rintro ⟨d, hd, rfl, hs, rfl⟩
      exact .inl ⟨d, hd, .inr (.inl ⟨s, hs, rfl⟩)⟩
  · intro p v
    rw [mem]
    constructor
    · rintro (⟨d, hd, ⟨j, hj, t, ht, e⟩ | ⟨t, ht, e⟩ | e⟩ | ⟨t, v, _, _, e⟩ | e | e)
      · injection e with e1; exact absurd e1.symm (A.field_len _ _)
      · injection e with e1; exact absurd e1 (A.len_tf _)
      · injection e with e1 e2 e3
        exact ⟨d, hd, e2.symm, e3⟩
      · injection e with e1; exact absurd e1 (A.len_df _)
      · injection e with e1; exact absurd e1 A.len_items
      · injection e with e1; exact absurd e1 A.len_length
    · rintro ⟨d, hd, rfl, rfl⟩
      exact .inl ⟨d, hd, .inr (.inr rfl)⟩
  · intro s p v
    rw [mem]
    constructor
    · rintro (⟨d, hd, ⟨j, hj, t, ht, e⟩ | ⟨t, ht, e⟩ | e⟩ | ⟨t, v, h1, h2, e⟩ | e | e)
      · injection e with e1; exact absurd e1.symm (A.field_df _ _ _)
      · injection e with e1; exact absurd e1.symm (A.base.tf_df _ _)
      · injection e with e1; exact absurd e1.symm (A.len_df _)
      · injection e with e1 e2 e3
        cases A.base.df_inj _ _ e1
        exact ⟨e2, by rw [e3, h1], by omega⟩
      · injection e with e1; exact absurd e1 (A.base.df_items _)
      · injection e with e1; exact absurd e1 (A.base.df_length _)
    · rintro ⟨rfl, h1, h2⟩
      exact .inr (.inl ⟨s, v, h1, h2, rfl⟩)

/-- all of the program -/
theorem fieldAnnotations_ok (A : E.F.Apart) {C : Obj} {D : List Ann} (hD : Listing D) {IC : C.σ → Prop} (hC : Impl C IC (ofList D))
    (h0 : ∀ d ∈ D, 0 ≤ d.p) (hne : D ≠ []) {hoppers : List Obj} {Ls : List (List Ann)}
    (h : Both (fun H L => Listing L ∧ ∃ I, Impl H I (ofList L)) hoppers Ls) :
    fieldAnnotations E C hoppers = some (some (allNotes E Ls D)) := by
  obtain ⟨l, s, e, _, hl, hs⟩ := tauAll_ok hD.wf hC.tau loopFuel 0 (by omega) (by omega) (fuel_hi (by omega)) C.init hC.init
  have : l = D := by
    have hn : ∀ m : List Ann, (m.Pairwise fun a b => a.p < b.p ∧ a.q < b.q) → m.Nodup := fun m hm =>
      hm.imp fun {a b} h e => by subst e; omega
    have hp : l.Perm D := by
      rw [List.perm_ext_iff_of_nodup (hn l hs) (hn D hD.sorted)]
      intro a
      rw [hl a]
      exact ⟨fun h => h.1, fun h => ⟨h, h0 a h⟩⟩
    exact hp.eq_of_pairwise (le := fun a b => a.p < b.p ∧ a.q < b.q) (fun a b _ _ h1 h2 => by omega) hs hD.sorted
  subst this
  unfold fieldAnnotations
  rw [e]
  dsimp only
  have key := fieldLoop_ok A h l [] (Sts.init _) (fun d hd => by have := hD.bounds d hd; omega) (sts_init (fields_of h))
  have e0 : dfCounts E.F.toFeatures (fun d => Ls.flatMap (E.part d)) [] = [] := rfl
  simp only [List.length_nil, List.map_nil, List.sum_nil, List.flatMap_nil, List.nil_append, e0] at key
  have key : fieldLoop E (hoppers.map fun H => (1, H)) l 0 0 [] [] (Sts.init _) = _ := key
  rw [key]
  dsimp only
  have : 0 < l.length := List.length_pos_iff.2 hne
  rw [if_neg (by omega), annotate_pos A.base.items_pos, annotate_pos A.base.length_pos, noteDf_eq]
  · simp [allNotes]
  · exact fun x hx => df_pos (E := E.base) A.base x hx

end

end Verif.Fields
