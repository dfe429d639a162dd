/-
What `normalize_shards`, `verify_dead_shards` and `combine_shards` do with the names they
find (the definitions are in Verif/Txn/Model.lean).
-/
import Verif.Txn.Model
namespace Verif.Txn

/-- the range of `b` lies in the range of `a` -/
def Nests (a b : FName) : Prop := a.lo ≤ b.lo ∧ b.hi ≤ a.hi

/-! ### Sorting -/

theorem insert_perm (le : FName → FName → Bool) (a : FName) (l : List FName) :
    (insertSorted le a l).Perm (a :: l) := by
  induction l with
  | nil => exact List.Perm.refl _
  | cons b l ih =>
    simp only [insertSorted]
    split
    · exact List.Perm.refl _
    · exact (ih.cons b).trans (List.Perm.swap a b l)

theorem sort_perm (le : FName → FName → Bool) (l : List FName) : (sortNames le l).Perm l := by
  induction l with
  | nil => exact List.Perm.refl _
  | cons a l ih => exact (insert_perm le a _).trans (ih.cons a)

theorem insert_sorted {le : FName → FName → Bool} (tot : ∀ a b, le a b = true ∨ le b a = true)
    (tr : ∀ a b c, le a b = true → le b c = true → le a c = true) (a : FName) {l : List FName}
    (h : l.Pairwise fun a b => le a b = true) : (insertSorted le a l).Pairwise fun a b => le a b = true := by
  induction l with
  | nil => simp [insertSorted]
  | cons b l ih =>
    rw [List.pairwise_cons] at h
    simp only [insertSorted]
    split
    · rename_i hab
      refine List.pairwise_cons.2 ⟨?_, List.pairwise_cons.2 h⟩
      intro c hc
      rcases List.mem_cons.1 hc with rfl | hc
      · exact hab
      · exact tr _ _ _ hab (h.1 c hc)
    · rename_i hab
      refine List.pairwise_cons.2 ⟨?_, ih h.2⟩
      intro c hc
      rcases List.mem_cons.1 ((insert_perm le a l).mem_iff.1 hc) with rfl | hc
      · exact (tot b c).resolve_right hab
      · exact h.1 c hc

theorem sort_sorted {le : FName → FName → Bool} (tot : ∀ a b, le a b = true ∨ le b a = true)
    (tr : ∀ a b c, le a b = true → le b c = true → le a c = true) (l : List FName) :
    (sortNames le l).Pairwise fun a b => le a b = true := by
  induction l with
  | nil => simp [sortNames]
  | cons a l ih => exact insert_sorted tot tr a ih

theorem before_iff {a b : FName} : before a b = true ↔ a.lo < b.lo ∨ (a.lo = b.lo ∧ b.hi ≤ a.hi) := by
  simp [before]

theorem before_total (a b : FName) : before a b = true ∨ before b a = true := by
  rw [before_iff, before_iff]; omega

theorem before_trans (a b c : FName) (h1 : before a b = true) (h2 : before b c = true) : before a c = true := by
  rw [before_iff] at *; omega

/-! ### `normalize_shards` -/

/-- what has been kept so far, latest first, against what is to come -/
structure Loop (l living dead : List FName) : Prop where
  sorted : l.Pairwise fun a b => before a b = true
  order : living.Pairwise fun b a => a.hi < b.lo
  ahead : ∀ a ∈ living, ∀ s ∈ l, before a s = true
  nested : ∀ x ∈ dead, ∃ b ∈ living, Nests b x

theorem Loop.push {s b : FName} {l living dead : List FName} (h : Loop (s :: l) (b :: living) dead)
    (hlt : b.hi < s.lo) : Loop l (s :: b :: living) dead := by
  have hso := List.pairwise_cons.1 h.sorted
  have hord := List.pairwise_cons.1 h.order
  refine ⟨hso.2, ?_, ?_, ?_⟩
  · refine List.pairwise_cons.2 ⟨?_, h.order⟩
    intro a ha
    rcases List.mem_cons.1 ha with rfl | ha
    · exact hlt
    · have h1 := hord.1 a ha
      have h2 := (before_iff.1 (h.ahead b (by simp) s (by simp)))
      omega
  · intro a ha t ht
    rcases List.mem_cons.1 ha with rfl | ha
    · exact hso.1 t ht
    · exact h.ahead a ha t (by simp [ht])
  · intro x hx
    obtain ⟨c, hc, hn⟩ := h.nested x hx
    exact ⟨c, List.mem_cons_of_mem _ hc, hn⟩

theorem Loop.kill {s b : FName} {l living dead : List FName} (h : Loop (s :: l) (b :: living) dead)
    (hle : s.hi ≤ b.hi) : Loop l (b :: living) (s :: dead) := by
  have hso := List.pairwise_cons.1 h.sorted
  refine ⟨hso.2, h.order, ?_, ?_⟩
  · intro a ha t ht; exact h.ahead a ha t (by simp [ht])
  · intro x hx
    rcases List.mem_cons.1 hx with rfl | hx
    · have := before_iff.1 (h.ahead b (by simp) x (by simp))
      exact ⟨b, by simp, by omega, hle⟩
    · exact h.nested x hx

theorem normalizeLoop_some {l living dead L D : List FName} (h : Loop l living dead)
    (e : normalizeLoop l living dead = some (L, D)) :
    (L ++ D).Perm (living ++ dead ++ l) ∧ L.Pairwise (fun a b => a.hi < b.lo) ∧ ∀ x ∈ D, ∃ b ∈ L, Nests b x := by
  induction l generalizing living dead with
  | nil =>
    have e' : living.reverse = L ∧ dead.reverse = D := by
      cases living <;> simpa [normalizeLoop] using e
    obtain ⟨rfl, rfl⟩ := e'
    refine ⟨?_, ?_, ?_⟩
    · rw [List.append_nil]
      exact (List.reverse_perm living).append (List.reverse_perm dead)
    · rw [List.pairwise_reverse]; exact h.order
    · intro x hx
      obtain ⟨b, hb, hn⟩ := h.nested x (List.mem_reverse.1 hx)
      exact ⟨b, List.mem_reverse.2 hb, hn⟩
  | cons s l ih =>
    have hso := List.pairwise_cons.1 h.sorted
    cases living with
    | nil =>
      have hd : dead = [] := by
        cases dead with
        | nil => rfl
        | cons x dead => obtain ⟨b, hb, _⟩ := h.nested x (by simp); cases hb
      subst hd
      simp only [normalizeLoop] at e
      have := ih (living := [s]) (dead := []) ⟨hso.2, by simp, by intro a ha t ht; simp at ha; subst ha; exact hso.1 t ht, by simp⟩ e
      simpa using this
    | cons b living =>
      simp only [normalizeLoop] at e
      have hord := List.pairwise_cons.1 h.order
      split at e
      · rename_i hlt
        obtain ⟨q1, q2⟩ := ih (h.push hlt) e
        refine ⟨q1.trans ?_, q2⟩
        simpa using (@List.perm_middle _ s (b :: (living ++ dead)) l).symm
      · split at e
        · rename_i hle
          obtain ⟨q1, q2⟩ := ih (h.kill hle) e
          refine ⟨q1.trans ?_, q2⟩
          rw [List.append_assoc, List.append_assoc]
          refine List.Perm.append_left _ ?_
          simp only [List.cons_append]
          exact (@List.perm_middle _ s dead l).symm
        · cases e

theorem normalizeLoop_none {l living dead : List FName} (h : Loop l living dead)
    (e : normalizeLoop l living dead = none) :
    ∃ a ∈ living ++ l, ∃ b ∈ l, a.lo < b.lo ∧ b.lo ≤ a.hi ∧ a.hi < b.hi ∧
      ∀ c ∈ living ++ dead ++ l, Nests c a → Nests a c := by
  induction l generalizing living dead with
  | nil => cases living <;> simp [normalizeLoop] at e
  | cons s l ih =>
    have hso := List.pairwise_cons.1 h.sorted
    cases living with
    | nil =>
      have hd : dead = [] := by
        cases dead with
        | nil => rfl
        | cons x dead => obtain ⟨b, hb, _⟩ := h.nested x (by simp); cases hb
      subst hd
      simp only [normalizeLoop] at e
      obtain ⟨a, ha, b, hb, q⟩ := ih (living := [s]) (dead := []) ⟨hso.2, by simp, by intro a ha t ht; simp at ha; subst ha; exact hso.1 t ht, by simp⟩ e
      exact ⟨a, by simpa using ha, b, by simp [hb], by simpa using q⟩
    | cons b living =>
      simp only [normalizeLoop] at e
      have hord := List.pairwise_cons.1 h.order
      split at e
      · rename_i hlt
        obtain ⟨a, ha, c, hc, q1, q2, q3, q4⟩ := ih (h.push hlt) e
        refine ⟨a, ?_, c, by simp [hc], q1, q2, q3, ?_⟩
        · simp only [List.mem_append, List.mem_cons] at ha ⊢
          grind
        · intro x hx
          apply q4
          simp only [List.mem_append, List.mem_cons] at hx ⊢
          grind
      · split at e
        · rename_i hle
          obtain ⟨a, ha, c, hc, q1, q2, q3, q4⟩ := ih (h.kill hle) e
          refine ⟨a, ?_, c, by simp [hc], q1, q2, q3, ?_⟩
          · simp only [List.mem_append, List.mem_cons] at ha ⊢
            grind
          · intro x hx
            apply q4
            simp only [List.mem_append, List.mem_cons] at hx ⊢
            grind
        · rename_i h1 h2
          have hbs := before_iff.1 (h.ahead b (by simp) s (by simp))
          refine ⟨b, by simp, s, by simp, by omega, by omega, by omega, ?_⟩
          intro c hc hn
          unfold Nests at *
          have liv : ∀ c ∈ b :: living, Nests c b → Nests b c := by
            intro c hc hn
            rcases List.mem_cons.1 hc with rfl | hc
            · exact hn
            · have := hord.1 c hc
              unfold Nests at *
              omega
          simp only [List.mem_append] at hc
          rcases hc with (hc | hc) | hc
          · exact liv c hc hn
          · obtain ⟨y, hy, hny⟩ := h.nested c hc
            have := liv y hy (by unfold Nests at *; omega)
            unfold Nests at *
            omega
          · have := before_iff.1 (h.ahead b (by simp) c hc)
            omega

/-- what `normalize_shards` and `verify_dead_shards` give when they succeed -/
theorem survey_some {found living dead : List FName} (h : survey found = some (living, dead)) :
    (living ++ dead).Perm found ∧ living.Pairwise (fun a b => a.hi < b.lo) ∧
    ∀ x ∈ dead, ∃ b ∈ living, Nests b x := by
  unfold survey at h
  split at h
  · cases h
  · rename_i L D e
    split at h
    · cases h
      unfold normalize at e
      obtain ⟨h1, h2, h3⟩ := normalizeLoop_some ⟨sort_sorted before_total before_trans found, by simp, by simp, by simp⟩ e
      exact ⟨h1.trans (by simpa using sort_perm before found), h2, h3⟩
    · cases h

/-- … and when they report an error -/
theorem survey_none {found : List FName} (h : survey found = none) :
    ∃ a ∈ found, ∃ b ∈ found, a.lo < b.lo ∧ b.lo ≤ a.hi ∧ a.hi < b.hi ∧
      ∀ c ∈ found, Nests c a → Nests a c := by
  have hl : Loop (sortNames before found) [] [] :=
    ⟨sort_sorted before_total before_trans found, by simp, by simp, by simp⟩
  have hm : ∀ x, x ∈ sortNames before found ↔ x ∈ found := fun x => (sort_perm before found).mem_iff
  unfold survey at h
  split at h
  · rename_i e
    obtain ⟨a, ha, b, hb, q1, q2, q3, q4⟩ := normalizeLoop_none hl e
    exact ⟨a, (hm a).1 (by simpa using ha), b, (hm b).1 hb, q1, q2, q3,
      fun c hc => q4 c (by simpa using (hm c).2 hc)⟩
  · rename_i L D e
    obtain ⟨_, _, h3⟩ := normalizeLoop_some hl e
    split at h
    · cases h
    · rename_i hv
      exfalso
      apply hv
      simp only [verifyDead, List.all_eq_true, List.any_eq_true]
      intro x hx
      obtain ⟨b, hb, hn⟩ := h3 x hx
      exact ⟨b, hb, by simp [contains, hn.1, hn.2]⟩

/-- of a family of nested or disjoint ranges, it keeps those that lie in no other -/
theorem survey_laminar {found : List FName} (hr : ∀ a ∈ found, a.lo ≤ a.hi)
    (hl : ∀ a ∈ found, ∀ b ∈ found, Nests a b ∨ Nests b a ∨ a.hi < b.lo ∨ b.hi < a.lo) :
    ∃ living dead, survey found = some (living, dead) ∧ living.Pairwise (fun a b => a.hi < b.lo) ∧
      (living ++ dead).Perm found ∧ (∀ x ∈ dead, ∃ b ∈ living, Nests b x) := by
  cases e : survey found with
  | none =>
    obtain ⟨a, ha, b, hb, q1, q2, q3, _⟩ := survey_none e
    have := hl a ha b hb
    unfold Nests at this
    omega
  | some r =>
    obtain ⟨living, dead⟩ := r
    obtain ⟨h1, h2, h3⟩ := survey_some e
    exact ⟨living, dead, rfl, h2, h1, h3⟩

/-! ### `combine_shards` -/

theorem ordered_of {l : List FName} (hr : ∀ a ∈ l, a.lo ≤ a.hi) (h : l.Pairwise fun a b => a.hi < b.lo) :
    ordered l = true := by
  induction l with
  | nil => rfl
  | cons a l ih =>
    cases l with
    | nil => simp [ordered, hr a (by simp)]
    | cons b l =>
      have h1 := List.pairwise_cons.1 h
      simp only [ordered, Bool.and_eq_true, decide_eq_true_eq]
      exact ⟨⟨hr a (by simp), h1.1 b (by simp)⟩, ih (fun x hx => hr x (by simp [List.mem_cons.1 hx])) h1.2⟩

theorem mem_dropWhile {p : FName → Bool} {l : List FName} {x : FName} (h : x ∈ l) (hp : p x = false) :
    x ∈ l.dropWhile p := by
  induction l with
  | nil => cases h
  | cons a l ih =>
    rw [List.dropWhile_cons]
    split
    · rename_i ha
      rcases List.mem_cons.1 h with rfl | h
      · rw [hp] at ha; cases ha
      · exact ih h
    · exact h

theorem dropWhile_sub {p : FName → Bool} (l : List FName) : (l.dropWhile p).Sublist l := List.dropWhile_sublist p

theorem dropWhile_head {p : FName → Bool} {l t : List FName} {x : FName} (h : l.dropWhile p = x :: t) : p x = false := by
  induction l with
  | nil => cases h
  | cons a l ih =>
    rw [List.dropWhile_cons] at h
    split at h
    · exact ih h
    · rename_i hp; cases h; simpa using hp

theorem combineLoop_some {fs hazels : List FName} (hf : ∀ f ∈ fs, f.lo ≤ f.hi)
    (of : fs.Pairwise fun a b => a.hi < b.lo) (oh : hazels.Pairwise fun a b => a.hi < b.lo)
    (hd : ∀ f ∈ fs, (∃ h ∈ hazels, Nests h f) ∨ ∀ h ∈ hazels, h.hi < f.lo ∨ f.hi < h.lo) :
    ∃ keep gone, combineLoop fs hazels = some (keep, gone) ∧ (keep ++ gone).Perm fs ∧
      (∀ f ∈ keep, ∀ h ∈ hazels, h.hi < f.lo ∨ f.hi < h.lo) ∧ (∀ f ∈ gone, ∃ h ∈ hazels, Nests h f) := by
  induction fs generalizing hazels with
  | nil => exact ⟨[], [], rfl, List.Perm.refl _, by simp, by simp⟩
  | cons f fs ih =>
    have h1 := List.pairwise_cons.1 of
    have hff := hf f (by simp)
    have sub : (skipHazels f hazels).Sublist hazels := dropWhile_sub _
    have oh' := oh.sublist sub
    have stay : ∀ h ∈ hazels, ¬ h.hi < f.lo → h ∈ skipHazels f hazels := fun h hh hx =>
      mem_dropWhile hh (by simpa using hx)
    have later : ∀ g ∈ fs, f.hi < g.lo := h1.1
    obtain ⟨keep, gone, e, q1, q2, q3⟩ := ih (hazels := skipHazels f hazels) (fun g hg => hf g (by simp [hg])) h1.2 oh'
      (by
        intro g hg
        have := later g hg
        rcases hd g (by simp [hg]) with ⟨h, hh, hn⟩ | hn
        · have hg' := hf g (by simp [hg])
          refine .inl ⟨h, stay h hh ?_, hn⟩
          unfold Nests at hn; omega
        · exact .inr fun h hh => hn h (sub.subset hh))
    have q2' : ∀ g ∈ keep, ∀ h ∈ hazels, h.hi < g.lo ∨ g.hi < h.lo := by
      intro g hg h hh
      have hgf : g ∈ fs := q1.mem_iff.1 (by simp [hg])
      by_cases hx : h.hi < f.lo
      · have := later g hgf
        left; omega
      · exact q2 g hg h (stay h hh hx)
    have q3' : ∀ g ∈ gone, ∃ h ∈ hazels, Nests h g := fun g hg => by
      obtain ⟨h, hh, hn⟩ := q3 g hg; exact ⟨h, sub.subset hh, hn⟩
    rcases hd f (by simp) with ⟨h, hh, hn⟩ | hn
    · have hin := stay h hh (by unfold Nests at hn; omega)
      obtain ⟨x, t, hxt⟩ : ∃ x t, skipHazels f hazels = x :: t := by
        cases hs : skipHazels f hazels with
        | nil => rw [hs] at hin; cases hin
        | cons x t => exact ⟨x, t, rfl⟩
      have hx : h = x := by
        rw [hxt] at hin oh'
        rcases List.mem_cons.1 hin with rfl | hin
        · rfl
        · have a1 := (List.pairwise_cons.1 oh').1 h hin
          have a2 := dropWhile_head hxt
          simp at a2
          unfold Nests at hn; omega
      subst hx
      refine ⟨keep, f :: gone, ?_, ?_, q2', ?_⟩
      · unfold Nests at hn
        simp only [combineLoop, hxt]
        rw [if_pos (by simp [overlap]; omega), if_pos (by simp [contains]; omega), ← hxt, e]
        rfl
      · exact (List.perm_middle).trans (q1.cons f)
      · intro g hg
        rcases List.mem_cons.1 hg with rfl | hg
        · exact ⟨h, hh, hn⟩
        · exact q3' g hg
    · refine ⟨f :: keep, gone, ?_, q1.cons f, ?_, q3'⟩
      · simp only [combineLoop]
        split
        · rw [e]; rfl
        · rename_i x t hxt
          have hx := hn x (sub.subset (by rw [hxt]; simp))
          rw [if_neg (by simp [overlap]; omega), e]; rfl
      · intro g hg
        rcases List.mem_cons.1 hg with rfl | hg
        · exact hn
        · exact q2' g hg

theorem shardLe_iff {a b : FName} : shardLe a b = true ↔
    a.lo < b.lo ∨ (a.lo = b.lo ∧ (a.hi < b.hi ∨ (a.hi = b.hi ∧ (a.kind = .fiver ∨ b.kind = .hazel)))) := by
  simp [shardLe]

theorem insert_apart {a : FName} {l : List FName} (h : l.Pairwise fun a b => a.hi < b.lo)
    (hr : ∀ b ∈ a :: l, b.lo ≤ b.hi) (ha : ∀ b ∈ l, a.hi < b.lo ∨ b.hi < a.lo) :
    (insertSorted shardLe a l).Pairwise fun a b => a.hi < b.lo := by
  induction l with
  | nil => simp [insertSorted]
  | cons b l ih =>
    have h1 := List.pairwise_cons.1 h
    have hb := ha b (by simp)
    have ra := hr a (by simp)
    have rb := hr b (by simp)
    simp only [insertSorted]
    split
    · rename_i hle
      rw [shardLe_iff] at hle
      refine List.pairwise_cons.2 ⟨?_, h⟩
      intro c hc
      rcases List.mem_cons.1 hc with rfl | hc
      · omega
      · have := h1.1 c hc
        omega
    · rename_i hle
      rw [shardLe_iff] at hle
      refine List.pairwise_cons.2 ⟨?_, ih h1.2 (fun x hx => hr x (by simp only [List.mem_cons] at hx ⊢; grind)) (fun x hx => ha x (by simp [hx]))⟩
      intro c hc
      rcases List.mem_cons.1 ((insert_perm shardLe a l).mem_iff.1 hc) with rfl | hc
      · omega
      · exact h1.1 c hc

theorem sort_apart {l : List FName} (hr : ∀ b ∈ l, b.lo ≤ b.hi)
    (ha : l.Pairwise fun a b => a.hi < b.lo ∨ b.hi < a.lo) :
    (sortNames shardLe l).Pairwise fun a b => a.hi < b.lo := by
  induction l with
  | nil => simp [sortNames]
  | cons a l ih =>
    have h1 := List.pairwise_cons.1 ha
    have hm : ∀ x, x ∈ sortNames shardLe l ↔ x ∈ l := fun x => (sort_perm shardLe l).mem_iff
    refine insert_apart (ih (fun b hb => hr b (by simp [hb])) h1.2) ?_ ?_
    · intro b hb
      rcases List.mem_cons.1 hb with rfl | hb
      · exact hr _ (by simp)
      · exact hr b (by simp [(hm b).1 hb])
    · intro b hb; exact h1.1 b ((hm b).1 hb)

/-- with the kept dynamic and static shards each in order, and each dynamic shard inside a
static one or apart from all of them -/
theorem combine_some {fs hs : List FName} (rf : ∀ f ∈ fs, f.lo ≤ f.hi) (rh : ∀ f ∈ hs, f.lo ≤ f.hi)
    (of : fs.Pairwise fun a b => a.hi < b.lo) (oh : hs.Pairwise fun a b => a.hi < b.lo)
    (hd : ∀ f ∈ fs, (∃ h ∈ hs, Nests h f) ∨ ∀ h ∈ hs, h.hi < f.lo ∨ f.hi < h.lo) :
    ∃ gone all, combine fs hs = some (gone, all) ∧ all.Pairwise (fun a b => a.hi < b.lo) ∧
      (∀ f ∈ gone, f ∈ fs ∧ ∃ h ∈ hs, Nests h f) ∧
      (∀ n, n ∈ all ↔ n ∈ hs ∨ (n ∈ fs ∧ ∀ h ∈ hs, h.hi < n.lo ∨ n.hi < h.lo)) := by
  obtain ⟨keep, gone, e, q1, q2, q3⟩ := combineLoop_some rf of oh hd
  have km : ∀ f, f ∈ keep ↔ f ∈ fs ∧ ∀ h ∈ hs, h.hi < f.lo ∨ f.hi < h.lo := by
    intro f
    constructor
    · intro hf; exact ⟨q1.mem_iff.1 (by simp [hf]), q2 f hf⟩
    · rintro ⟨hf, hn⟩
      rcases List.mem_append.1 (q1.mem_iff.2 hf) with hx | hx
      · exact hx
      · obtain ⟨h, hh, hc⟩ := q3 f hx
        have := hn h hh
        have := rf f hf
        unfold Nests at hc
        omega
  have kp : keep.Pairwise fun a b => a.hi < b.lo ∨ b.hi < a.lo := by
    have h1 : (keep ++ gone).Pairwise fun a b => a.hi < b.lo ∨ b.hi < a.lo :=
      (q1.pairwise_iff fun h => h.symm).2 (of.imp .inl)
    exact (List.pairwise_append.1 h1).1
  refine ⟨gone, sortNames shardLe (hs ++ keep), ?_, ?_, ?_, ?_⟩
  · unfold combine
    rw [ordered_of rf of, ordered_of rh oh]
    simp [e]
  · apply sort_apart
    · intro b hb
      rcases List.mem_append.1 hb with hb | hb
      · exact rh b hb
      · exact rf b ((km b).1 hb).1
    · rw [List.pairwise_append]
      exact ⟨oh.imp .inl, kp, fun h hh f hf => ((km f).1 hf).2 h hh⟩
  · intro f hf; exact ⟨q1.mem_iff.1 (by simp [hf]), q3 f hf⟩
  · intro n
    rw [(sort_perm shardLe _).mem_iff, List.mem_append, km]

end Verif.Txn
