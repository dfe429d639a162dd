import Verif.Terms.Model
import Verif.Hopper.Enum
/-
  Lemmas about the term statistics.
-/
namespace Verif.Terms
open Verif.Hopper

/-! ### counting -/

section
variable {κ : Type} [DecidableEq κ]

/-- the counts of a list -/
def tally (ws : List κ) (m : List (κ × Int)) : List (κ × Int) := ws.foldl (fun m k => bump k m) m

theorem bump_mem {k : κ} : ∀ {m : List (κ × Int)} {j : κ}, j ∈ (bump k m).map Prod.fst ↔ j = k ∨ j ∈ m.map Prod.fst
  | [], j => by simp [bump]
  | (i, n) :: m, j => by
    unfold bump
    split
    · rename_i h
      subst h
      simp
    · have := bump_mem (k := k) (m := m) (j := j)
      simp only [List.map_cons, List.mem_cons, this]
      constructor <;> (rintro (h | h | h) <;> simp [h])

theorem bump_nodup {k : κ} : ∀ {m : List (κ × Int)}, (m.map Prod.fst).Nodup → ((bump k m).map Prod.fst).Nodup
  | [], _ => by simp [bump]
  | (i, n) :: m, h => by
    unfold bump
    rw [List.map_cons, List.nodup_cons] at h
    split
    · rw [List.map_cons, List.nodup_cons]; exact h
    · rename_i hk
      rw [List.map_cons, List.nodup_cons]
      refine ⟨fun hc => ?_, bump_nodup h.2⟩
      rcases bump_mem.1 hc with e | e
      · exact hk e
      · exact h.1 e

/-- the sum of the counts under a key -/
def under (m : List (κ × Int)) (k : κ) : Int := ((m.filter fun x => x.1 == k).map Prod.snd).sum

theorem under_cons (x : κ × Int) (m : List (κ × Int)) (k : κ) :
    under (x :: m) k = (if x.1 = k then x.2 else 0) + under m k := by
  unfold under
  by_cases h : x.1 = k
  · simp [h]
  · simp [h]

theorem bump_under {k j : κ} : ∀ {m : List (κ × Int)}, under (bump k m) j = under m j + if k = j then 1 else 0
  | [] => by simp [bump, under]; split <;> simp_all
  | (i, n) :: m => by
    unfold bump
    split
    · rename_i h
      subst h
      rw [under_cons, under_cons]
      dsimp only
      split <;> omega
    · rw [under_cons, under_cons, bump_under (m := m)]
      omega

theorem tally_under (j : κ) : ∀ (ws : List κ) (m : List (κ × Int)), under (tally ws m) j = under m j + ws.count j
  | [], m => by simp [tally]
  | w :: ws, m => by
    have := tally_under j ws (bump w m)
    unfold tally at this ⊢
    rw [List.foldl_cons, this, bump_under, List.count_cons]
    by_cases h : w = j
    · simp [h]; omega
    · simp [h]

theorem tally_nodup : ∀ (ws : List κ) (m : List (κ × Int)), (m.map Prod.fst).Nodup → ((tally ws m).map Prod.fst).Nodup
  | [], _, h => h
  | w :: ws, m, h => tally_nodup ws (bump w m) (bump_nodup h)

theorem tally_keys (j : κ) : ∀ (ws : List κ) (m : List (κ × Int)),
    j ∈ (tally ws m).map Prod.fst ↔ j ∈ ws ∨ j ∈ m.map Prod.fst
  | [], m => by simp [tally]
  | w :: ws, m => by
    have := tally_keys j ws (bump w m)
    unfold tally at this ⊢
    rw [List.foldl_cons, this, bump_mem, List.mem_cons]
    constructor <;> (rintro h; simp only [or_assoc, or_left_comm] at h ⊢; exact h)

theorem under_mem {m : List (κ × Int)} (hn : (m.map Prod.fst).Nodup) {k : κ} {n : Int} (h : (k, n) ∈ m) : under m k = n := by
  induction m with
  | nil => simp at h
  | cons x m ih =>
    rw [List.map_cons, List.nodup_cons] at hn
    rw [under_cons]
    rcases List.mem_cons.1 h with rfl | h
    · have : under m k = 0 := by
        unfold under
        have : m.filter (fun x => x.1 == k) = [] := by
          rw [List.filter_eq_nil_iff]
          intro y hy e
          simp only [beq_iff_eq] at e
          exact hn.1 (List.mem_map.2 ⟨y, hy, e⟩)
        rw [this]; rfl
      simp [this]
    · have : x.1 ≠ k := fun e => hn.1 (List.mem_map.2 ⟨(k, n), h, e.symm⟩)
      simp [this, ih hn.2 h]

/-- the entries of the counts of a list -/
theorem tally_mem {ws : List κ} {k : κ} {n : Int} : (k, n) ∈ tally ws [] ↔ k ∈ ws ∧ n = ws.count k := by
  have hn := tally_nodup ws [] (by simp)
  have hk := tally_keys k ws []
  have hu := tally_under k ws []
  have h0 : under ([] : List (κ × Int)) k = 0 := rfl
  constructor
  · intro h
    have := under_mem hn h
    refine ⟨?_, by omega⟩
    rcases hk.1 (List.mem_map.2 ⟨_, h, rfl⟩) with h | h
    · exact h
    · simp at h
  · rintro ⟨h, rfl⟩
    obtain ⟨⟨j, n⟩, hx, e⟩ := List.mem_map.1 (hk.2 (Or.inl h))
    dsimp only at e
    subst e
    have := under_mem hn hx
    have : n = ws.count j := by omega
    rw [← this]; exact hx

theorem nodup_count {l : List κ} (h : l.Nodup) (a : κ) : l.count a = if a ∈ l then 1 else 0 := by
  induction l with
  | nil => rfl
  | cons b l ih =>
    rw [List.nodup_cons] at h
    rw [List.count_cons, ih h.2]
    by_cases e : b = a
    · subst e; simp [h.1]
    · have : ¬ a = b := fun h => e h.symm
      simp [e, this]
end

theorem sum_perm {a b : List Int} (h : a.Perm b) : a.sum = b.sum := by
  induction h with
  | nil => rfl
  | cons x _ ih => simp [ih]
  | swap x y l => simp only [List.sum_cons]; omega
  | trans _ _ h1 h2 => rw [h1, h2]

/-! ### the annotations of documents -/

section
variable {Stem : Type} [DecidableEq Stem] (F : Features Stem) (words : Ann → List Stem)

/-- the counts of a document -/
abbrev counts (d : Ann) : List (Stem × Int) := tally (words d) []

/-- its annotations -/
def docNotes (d : Ann) : List Note := (counts words d).map fun x => ⟨F.tf x.1, d.p, x.2⟩

/-- the features of its terms -/
def docFeatures (d : Ann) : List Int := (counts words d).map fun x => F.df x.1

def tfNotes (D : List Ann) : List Note := D.flatMap (docNotes F words)
def dfCounts (D : List Ann) : List (Int × Int) := tally (D.flatMap (docFeatures F words)) []
def lengths (D : List Ann) : Int := (D.map fun d => d.q - d.p + 1).sum

/-- all annotations of a run over `D` that puts the totals at `p` -/
def runNotes (p : Int) (D : List Ann) : List Note :=
  tfNotes F words D ++ (dfCounts F words D).map (fun x => ⟨x.1, p, x.2⟩) ++
    [⟨F.items, p, D.length⟩, ⟨F.length, p, lengths D⟩]

variable {F words}

theorem total_append (a b : List Note) (f : Int) : total (a ++ b) f = total a f + total b f := by
  simp [total, List.filter_append, List.sum_append]
theorem amount_append (a b : List Note) (f : Int) : amount (a ++ b) f = amount a f + amount b f := by
  simp [amount, List.filter_append]
theorem total_none {a : List Note} {f : Int} (h : ∀ n ∈ a, n.feature ≠ f) : total a f = 0 := by
  have : a.filter (fun n => n.feature == f) = [] := by
    rw [List.filter_eq_nil_iff]; intro n hn e; exact h n hn (by simpa using e)
  simp [total, this]
theorem amount_none {a : List Note} {f : Int} (h : ∀ n ∈ a, n.feature ≠ f) : amount a f = 0 := by
  have : a.filter (fun n => n.feature == f) = [] := by
    rw [List.filter_eq_nil_iff]; intro n hn e; exact h n hn (by simpa using e)
  simp [amount, this]

theorem tfNotes_mem {D : List Ann} {n : Note} : n ∈ tfNotes F words D ↔
    ∃ d ∈ D, ∃ s, s ∈ words d ∧ n = ⟨F.tf s, d.p, (words d).count s⟩ := by
  unfold tfNotes
  rw [List.mem_flatMap]
  constructor
  · rintro ⟨d, hd, h⟩
    obtain ⟨⟨s, v⟩, hx, rfl⟩ := List.mem_map.1 h
    obtain ⟨h1, rfl⟩ := tally_mem.1 hx
    exact ⟨d, hd, s, h1, rfl⟩
  · rintro ⟨d, hd, s, hs, rfl⟩
    exact ⟨d, hd, List.mem_map.2 ⟨(s, _), tally_mem.2 ⟨hs, rfl⟩, rfl⟩⟩

theorem dfFeatures_mem {D : List Ann} {f : Int} : f ∈ (dfCounts F words D).map Prod.fst ↔
    ∃ d ∈ D, ∃ s, s ∈ words d ∧ f = F.df s := by
  unfold dfCounts
  rw [tally_keys]
  simp only [List.map_nil, List.not_mem_nil, or_false, List.mem_flatMap]
  constructor
  · rintro ⟨d, hd, h⟩
    obtain ⟨⟨s, v⟩, hx, rfl⟩ := List.mem_map.1 h
    exact ⟨d, hd, s, (tally_mem.1 hx).1, rfl⟩
  · rintro ⟨d, hd, s, hs, rfl⟩
    exact ⟨d, hd, List.mem_map.2 ⟨(s, _), tally_mem.2 ⟨hs, rfl⟩, rfl⟩⟩

variable (A : F.Apart)
include A

theorem docNotes_amount (d : Ann) (s : Stem) :
    amount (docNotes F words d) (F.tf s) = if (words d).contains s then 1 else 0 := by
  have e : amount (docNotes F words d) (F.tf s) = ((counts words d).map Prod.fst).count s := by
    unfold docNotes
    generalize counts words d = m
    induction m with
    | nil => rfl
    | cons x m ih =>
      have e1 : amount ((x :: m).map fun x => (⟨F.tf x.1, d.p, x.2⟩ : Note)) (F.tf s) =
          (if x.1 = s then 1 else 0) + amount (m.map fun x => (⟨F.tf x.1, d.p, x.2⟩ : Note)) (F.tf s) := by
        by_cases h : x.1 = s
        · simp [amount, h]; omega
        · have : ¬ F.tf x.1 = F.tf s := fun e => h (A.tf_inj _ _ e)
          simp [amount, h, this]
      rw [e1, ih, List.map_cons, List.count_cons]
      by_cases h : x.1 = s
      · simp [h]; omega
      · simp [h]
  rw [e, nodup_count (tally_nodup _ _ (by simp)), ]
  have := tally_keys s (words d) []
  simp only [List.map_nil, List.not_mem_nil, or_false] at this
  simp [this]

theorem tf_amount (D : List Ann) (s : Stem) : amount (tfNotes F words D) (F.tf s) = docsWith words D s := by
  induction D with
  | nil => rfl
  | cons d D ih =>
    have e : tfNotes F words (d :: D) = docNotes F words d ++ tfNotes F words D := rfl
    rw [e, amount_append, ih, docNotes_amount A]
    unfold docsWith
    rw [List.filter_cons]
    split <;> simp; omega

theorem docFeatures_count (d : Ann) (s : Stem) :
    (docFeatures F words d).count (F.df s) = if (words d).contains s then 1 else 0 := by
  have e : (docFeatures F words d).count (F.df s) = ((counts words d).map Prod.fst).count s := by
    unfold docFeatures
    generalize counts words d = m
    induction m with
    | nil => rfl
    | cons x m ih =>
      rw [List.map_cons, List.map_cons, List.count_cons, List.count_cons, ih]
      by_cases h : x.1 = s
      · simp [h]
      · have : ¬ F.df x.1 = F.df s := fun e => h (A.df_inj _ _ e)
        simp [h, this]
  rw [e, nodup_count (tally_nodup _ _ (by simp))]
  have := tally_keys s (words d) []
  simp only [List.map_nil, List.not_mem_nil, or_false] at this
  simp [this]

theorem df_count (D : List Ann) (s : Stem) : (D.flatMap (docFeatures F words)).count (F.df s) = docsWith words D s := by
  induction D with
  | nil => rfl
  | cons d D ih =>
    rw [List.flatMap_cons, List.count_append, ih, docFeatures_count A]
    unfold docsWith
    rw [List.filter_cons]
    split <;> simp; omega

omit A in
theorem total_counts (m : List (Int × Int)) (p f : Int) :
    total (m.map fun x => (⟨x.1, p, x.2⟩ : Note)) f = under m f := by
  induction m with
  | nil => rfl
  | cons x m ih =>
    rw [under_cons, ← ih]
    by_cases h : x.1 = f
    · simp [total, h]
    · simp [total, h]

/-- a run over documents that start at different places records their statistics -/
theorem run_recorded {D : List Ann} (hD : D.Pairwise fun a b => a.p ≠ b.p) (p : Int) :
    Recorded F words D (runNotes F words p D) := by
  have tfs : ∀ n ∈ tfNotes F words D, ∃ s, n.feature = F.tf s := fun n hn => by
    obtain ⟨_, _, s, _, rfl⟩ := tfNotes_mem.1 hn; exact ⟨s, rfl⟩
  have dfs : ∀ n ∈ (dfCounts F words D).map (fun x => (⟨x.1, p, x.2⟩ : Note)), (∃ s, n.feature = F.df s) ∧ n.p = p := fun n hn => by
    obtain ⟨x, hx, rfl⟩ := List.mem_map.1 hn
    obtain ⟨_, _, s, _, e⟩ := dfFeatures_mem.1 (List.mem_map.2 ⟨x, hx, rfl⟩)
    exact ⟨⟨s, e⟩, rfl⟩
  have last : ∀ n ∈ [(⟨F.items, p, D.length⟩ : Note), ⟨F.length, p, lengths D⟩], n.feature = F.items ∨ n.feature = F.length := by
    intro n hn
    simp only [List.mem_cons, List.not_mem_nil, or_false] at hn
    rcases hn with rfl | rfl
    · exact Or.inl rfl
    · exact Or.inr rfl
  refine ⟨⟨?_, ?_, ?_, ?_, ?_⟩, ?_⟩
  · intro s a v
    unfold runNotes
    rw [List.mem_append, List.mem_append]
    constructor
    · rintro ((h | h) | h)
      · obtain ⟨d, hd, t, ht, e⟩ := tfNotes_mem.1 h
        injection e with e1 e2 e3
        have := A.tf_inj _ _ e1
        subst this
        exact ⟨d, hd, e2.symm, ht, e3⟩
      · obtain ⟨⟨t, e⟩, _⟩ := dfs _ h
        exact absurd e (A.tf_df s t)
      · rcases last _ h with e | e
        · exact absurd e (A.tf_items s)
        · exact absurd e (A.tf_length s)
    · rintro ⟨d, hd, rfl, hs, rfl⟩
      exact Or.inl (Or.inl (tfNotes_mem.2 ⟨d, hd, s, hs, rfl⟩))
  · intro s
    unfold runNotes
    rw [amount_append, amount_append, tf_amount A, amount_none, amount_none]
    · rfl
    · intro n hn e
      rcases last n hn with h | h
      · exact A.tf_items s (by rw [← e, h])
      · exact A.tf_length s (by rw [← e, h])
    · intro n hn e
      obtain ⟨⟨t, h⟩, _⟩ := dfs n hn
      exact A.tf_df s t (by rw [← e, h])
  · unfold runNotes
    rw [total_append, total_append, total_none, total_none]
    · have : ¬ F.length = F.items := fun e => A.items_length e.symm
      simp [total, this]
    · intro n hn e
      obtain ⟨⟨t, h⟩, _⟩ := dfs n hn
      exact A.df_items t (by rw [← h, e])
    · intro n hn e
      obtain ⟨t, h⟩ := tfs n hn
      exact A.tf_items t (by rw [← h, e])
  · unfold runNotes
    rw [total_append, total_append, total_none, total_none]
    · simp [total, A.items_length, lengths]
    · intro n hn e
      obtain ⟨⟨t, h⟩, _⟩ := dfs n hn
      exact A.df_length t (by rw [← h, e])
    · intro n hn e
      obtain ⟨t, h⟩ := tfs n hn
      exact A.tf_length t (by rw [← h, e])
  · have n1 : ((tfNotes F words D).map fun n => (n.feature, n.p)).Nodup := by
      clear tfs dfs last
      induction D with
      | nil => simp [tfNotes]
      | cons d D ih =>
        obtain ⟨h1, h2⟩ := List.pairwise_cons.1 hD
        have e : tfNotes F words (d :: D) = docNotes F words d ++ tfNotes F words D := rfl
        rw [e, List.map_append, List.nodup_append]
        refine ⟨?_, ih h2, ?_⟩
        · have := tally_nodup (words d) [] (by simp)
          unfold docNotes
          rw [List.map_map]
          unfold List.Nodup at this ⊢
          rw [List.pairwise_map] at this ⊢
          refine this.imp fun {x y} h e => h ?_
          simp only [Function.comp, Prod.mk.injEq, and_true] at e
          exact A.tf_inj _ _ e
        · intro a ha b hb e
          obtain ⟨x, hx, rfl⟩ := List.mem_map.1 ha
          obtain ⟨y, hy, rfl⟩ := List.mem_map.1 hb
          obtain ⟨z, _, rfl⟩ := List.mem_map.1 hx
          obtain ⟨d', hd', s, _, rfl⟩ := tfNotes_mem.1 hy
          simp only [Prod.mk.injEq] at e
          exact h1 d' hd' e.2
    have n2 : (((dfCounts F words D).map (fun x => (⟨x.1, p, x.2⟩ : Note))).map fun n => (n.feature, n.p)).Nodup := by
      have := tally_nodup (D.flatMap (docFeatures F words)) [] (by simp)
      unfold dfCounts
      rw [List.map_map]
      unfold List.Nodup at this ⊢
      rw [List.pairwise_map] at this ⊢
      refine this.imp fun {x y} h e => h ?_
      simp only [Function.comp, Prod.mk.injEq, and_true] at e
      exact e
    unfold runNotes
    rw [List.map_append, List.map_append, List.nodup_append, List.nodup_append]
    refine ⟨⟨n1, n2, ?_⟩, ?_, ?_⟩
    · intro a ha b hb e
      obtain ⟨x, hx, rfl⟩ := List.mem_map.1 ha
      obtain ⟨y, hy, rfl⟩ := List.mem_map.1 hb
      obtain ⟨s, hs⟩ := tfs x hx
      obtain ⟨⟨t, ht⟩, _⟩ := dfs y hy
      simp only [Prod.mk.injEq] at e
      exact A.tf_df s t (by rw [← hs, ← ht, e.1])
    · simp [A.items_length]
    · intro a ha b hb e
      obtain ⟨y, hy, rfl⟩ := List.mem_map.1 hb
      rcases List.mem_append.1 ha with ha | ha
      · obtain ⟨x, hx, rfl⟩ := List.mem_map.1 ha
        obtain ⟨s, hs⟩ := tfs x hx
        simp only [Prod.mk.injEq] at e
        rcases last y hy with h | h
        · exact A.tf_items s (by rw [← hs, ← h, e.1])
        · exact A.tf_length s (by rw [← hs, ← h, e.1])
      · obtain ⟨x, hx, rfl⟩ := List.mem_map.1 ha
        obtain ⟨⟨s, hs⟩, _⟩ := dfs x hx
        simp only [Prod.mk.injEq] at e
        rcases last y hy with h | h
        · exact A.df_items s (by rw [← hs, ← h, e.1])
        · exact A.df_length s (by rw [← hs, ← h, e.1])
  · intro s
    unfold runNotes
    rw [total_append, total_append, total_none, total_counts, total_none]
    · unfold dfCounts
      rw [tally_under, df_count A]
      simp [under]
    · intro n hn e
      rcases last n hn with h | h
      · exact A.df_items s (by rw [← e, h])
      · exact A.df_length s (by rw [← e, h])
    · intro n hn e
      obtain ⟨t, h⟩ := tfs n hn
      exact A.tf_df t s (by rw [← h, e])

omit A in
/-- statistics of different documents, put together -/
theorem recorded_append {D1 D2 : List Ann} {n1 n2 : List Note} (h1 : Recorded F words D1 n1) (h2 : Recorded F words D2 n2)
    (g1 : ∀ n ∈ n1, ∃ d ∈ D1, d.p = n.p) (g2 : ∀ n ∈ n2, ∃ d ∈ D2, d.p = n.p) (hd : ∀ a ∈ D1, ∀ b ∈ D2, a.p ≠ b.p) :
    Recorded F words (D1 ++ D2) (n1 ++ n2) := by
  refine ⟨⟨?_, ?_, ?_, ?_, ?_⟩, ?_⟩
  · intro s p v
    rw [List.mem_append, h1.tf, h2.tf]
    constructor
    · rintro (⟨d, hd, h⟩ | ⟨d, hd, h⟩)
      · exact ⟨d, List.mem_append_left _ hd, h⟩
      · exact ⟨d, List.mem_append_right _ hd, h⟩
    · rintro ⟨d, hd, h⟩
      rcases List.mem_append.1 hd with hd | hd
      · exact Or.inl ⟨d, hd, h⟩
      · exact Or.inr ⟨d, hd, h⟩
  · intro s
    rw [amount_append, h1.amount, h2.amount]
    simp [docsWith, List.filter_append]
  · rw [total_append, h1.items, h2.items, List.length_append]; omega
  · rw [total_append, h1.length, h2.length, List.map_append, List.sum_append]
  · rw [List.map_append, List.nodup_append]
    refine ⟨h1.once, h2.once, fun a ha b hb e => ?_⟩
    obtain ⟨x, hx, rfl⟩ := List.mem_map.1 ha
    obtain ⟨y, hy, rfl⟩ := List.mem_map.1 hb
    obtain ⟨d, hd1, e1⟩ := g1 x hx
    obtain ⟨d', hd2, e2⟩ := g2 y hy
    simp only [Prod.mk.injEq] at e
    exact hd d hd1 d' hd2 (by rw [e1, e2, e.2])
  · intro s
    rw [total_append, h1.df, h2.df]
    simp [docsWith, List.filter_append]

omit A in
/-- the order of the annotations does not matter -/
theorem recorded_perm {D : List Ann} {n1 n2 : List Note} (h : Recorded F words D n1) (hp : n1.Perm n2) :
    Recorded F words D n2 := by
  have ht : ∀ f, total n2 f = total n1 f := fun f => by
    unfold total
    exact sum_perm (((hp.filter _).map _).symm)
  refine ⟨⟨?_, ?_, ?_, ?_, ?_⟩, ?_⟩
  · intro s p v; rw [← hp.mem_iff]; exact h.tf s p v
  · intro s
    rw [← h.amount s]
    exact ((hp.filter _).length_eq).symm
  · rw [ht]; exact h.items
  · rw [ht]; exact h.length
  · exact (hp.map _).nodup_iff.1 h.once
  · intro s; rw [ht]; exact h.df s

omit A in
theorem run_placed {D : List Ann} {p : Int} (hp : ∃ d ∈ D, d.p = p) : ∀ n ∈ runNotes F words p D, ∃ d ∈ D, d.p = n.p := by
  intro n hn
  unfold runNotes at hn
  rcases List.mem_append.1 hn with hn | hn
  · rcases List.mem_append.1 hn with hn | hn
    · obtain ⟨d, hd, _, _, rfl⟩ := tfNotes_mem.1 hn
      exact ⟨d, hd, rfl⟩
    · obtain ⟨x, _, rfl⟩ := List.mem_map.1 hn
      exact hp
  · simp only [List.mem_cons, List.not_mem_nil, or_false] at hn
    rcases hn with rfl | rfl <;> exact hp

end

end Verif.Terms
