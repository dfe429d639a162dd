import Verif.Rank.WandModel
import Verif.Rank.Parallel
/-
  Proofs about bm25_ranking.
-/
namespace Verif.Rank
open Verif.Hopper

theorem ratScores_lawful : ratScores.Lawful := by
  refine ⟨⟨fun {a b} h => ?_, fun {a b c} h => ?_⟩, fun {s p q} h _ => ?_⟩
  · simp only [ratScores, gt_iff_lt, decide_eq_true_eq, decide_eq_false_iff_not] at *
    grind
  · simp only [ratScores, gt_iff_lt, decide_eq_true_eq] at *
    grind
  · simp only [ratScores, gt_iff_lt, decide_eq_true_eq] at *
    grind

/-! ### sums -/

theorem tot_append (l m : List Rat) : tot (l ++ m) = tot l + tot m := by
  induction l with
  | nil => simp [tot, Rat.zero_add]
  | cons x l ih =>
    have : tot (x :: (l ++ m)) = x + tot (l ++ m) := rfl
    have h2 : tot (x :: l) = x + tot l := rfl
    rw [List.cons_append, this, ih, h2, Rat.add_assoc]

theorem tot_perm {l m : List Rat} (h : l.Perm m) : tot l = tot m := by
  induction h with
  | nil => rfl
  | cons x _ ih => show x + tot _ = x + tot _; rw [ih]
  | swap x y l => show y + (x + tot l) = x + (y + tot l); grind
  | trans _ _ h1 h2 => exact h1.trans h2

theorem tot_zero {l : List Rat} (h : ∀ x ∈ l, x = 0) : tot l = 0 := by
  induction l with
  | nil => rfl
  | cons x l ih =>
    show x + tot l = 0
    rw [h x (List.mem_cons_self ..), ih fun y hy => h y (List.mem_cons_of_mem _ hy), Rat.add_zero]

theorem tot_nonneg {l : List Rat} (h : ∀ x ∈ l, 0 ≤ x) : 0 ≤ tot l := by
  induction l with
  | nil => exact Rat.le_refl
  | cons x l ih =>
    show 0 ≤ x + tot l
    have := h x (List.mem_cons_self ..)
    have := ih fun y hy => h y (List.mem_cons_of_mem _ hy)
    grind

theorem tot_pos {l : List Rat} (h : ∀ x ∈ l, 0 ≤ x) {x : Rat} (hx : x ∈ l) (h0 : 0 < x) : 0 < tot l := by
  induction l with
  | nil => cases hx
  | cons y l ih =>
    show 0 < y + tot l
    have h1 := h y (List.mem_cons_self ..)
    have h2 : ∀ x ∈ l, 0 ≤ x := fun y hy => h y (List.mem_cons_of_mem _ hy)
    rcases List.mem_cons.1 hx with rfl | hx
    · have := tot_nonneg h2; grind
    · have := ih h2 hx; grind

theorem tot_le_map {α : Type} {l : List α} {f g : α → Rat} (h : ∀ x ∈ l, f x ≤ g x) : tot (l.map f) ≤ tot (l.map g) := by
  induction l with
  | nil => exact Rat.le_refl
  | cons x l ih =>
    show f x + tot _ ≤ g x + tot _
    have := h x (List.mem_cons_self ..)
    have := ih fun y hy => h y (List.mem_cons_of_mem _ hy)
    grind

/-! ### keeping the best so far -/

/-- enough is kept of `done` -/
structure Keeping (depth : Nat) (done top current : List (Result Rat)) : Prop where
  short : top.length ≤ depth
  sorted : top.Pairwise fun a b => ratScores.gt b.score a.score = false
  pos : ∀ r ∈ top ++ current, 0 < r.score
  enough : Enough ratScores depth done (top ++ current)

theorem gt_false {a b : Rat} : ratScores.gt a b = false ↔ a ≤ b := by
  simp only [ratScores, decide_eq_false_iff_not]; grind

theorem gt_true {a b : Rat} : ratScores.gt a b = true ↔ b < a := by
  simp only [ratScores, decide_eq_true_eq]

section
variable {depth : Nat} {sort : List (Result Rat) → List (Result Rat)} {done top current : List (Result Rat)}

theorem Keeping.floor (h : Keeping depth done top current) : 0 ≤ targetOf ratScores depth top := by
  have := target_floor (depth := depth) ratScores_lawful fun r (hr : r ∈ top) => gt_true.2 (h.pos r (List.mem_append_left _ hr))
  exact gt_false.1 this

/-- something no better than the target need not be kept -/
theorem Keeping.skip (h : Keeping depth done top current) {r : Result Rat} (hp : 0 < r.score)
    (ht : r.score ≤ targetOf ratScores depth top) : Keeping depth (done ++ [r]) top current := by
  refine ⟨h.short, h.sorted, h.pos, enough_drop h.enough ?_⟩
  have := rivals_target ratScores_lawful h.short h.sorted (gt_true.2 hp) (gt_false.2 ht)
  exact Nat.le_trans this (rivals_mono _ _ _)

theorem Keeping.skips (h : Keeping depth done top current) : ∀ rs : List (Result Rat),
    (∀ r ∈ rs, 0 < r.score ∧ r.score ≤ targetOf ratScores depth top) → Keeping depth (done ++ rs) top current := by
  intro rs
  induction rs generalizing done with
  | nil => intro _; simpa using h
  | cons r rs ih =>
    intro hr
    have h1 := h.skip (hr r (List.mem_cons_self ..)).1 (hr r (List.mem_cons_self ..)).2
    have := ih h1 fun x hx => hr x (List.mem_cons_of_mem _ hx)
    simpa using this

theorem Keeping.push (hsort : SortsBy ratScores sort) (h : Keeping depth done top current) {r : Result Rat} (hp : 0 < r.score) :
    Keeping depth (done ++ [r]) (push sort depth top current r).1 (push sort depth top current r).2 := by
  unfold Rank.push
  split
  · have he := enough_snoc h.enough r
    rw [List.append_assoc] at he
    have hpos : ∀ x ∈ top ++ (current ++ [r]), 0 < x.score := by
      intro x hx
      rw [← List.append_assoc] at hx
      rcases List.mem_append.1 hx with hx | hx
      · exact h.pos x hx
      · rw [List.mem_singleton.1 hx]; exact hp
    simp only
    split
    · have ht := top_take ratScores_lawful hsort he
      refine ⟨?_, ht.sorted, fun x hx => ?_, ?_⟩
      · simp only; unfold topResults; exact List.length_take_le _ _
      · simp only [List.append_nil] at hx
        exact hpos x ((hsort _).1.mem_iff.1 ((List.take_sublist _ _).subset hx))
      · simp only [List.append_nil]
        exact enough_of_top ht
    · exact ⟨h.short, h.sorted, hpos, he⟩
  · rename_i hn
    exact h.skip hp (by simp only [gt_iff_lt] at hn; grind)

theorem Keeping.best (hsort : SortsBy ratScores sort) (h : Keeping depth done top current) :
    Top ratScores depth done (topResults sort top current depth) := top_take ratScores_lawful hsort h.enough

end

/-! ### the legs -/

/-- pairwise related lists -/
inductive Both {α β : Type _} (R : α → β → Prop) : List α → List β → Prop
  | nil : Both R [] []
  | cons {a b as bs} : R a b → Both R as bs → Both R (a :: as) (b :: bs)

section
variable {α β : Type _} {R S : α → β → Prop}

theorem both_perm {as as' : List α} (hp : as'.Perm as) : ∀ {bs : List β}, Both R as bs → ∃ bs', bs'.Perm bs ∧ Both R as' bs' := by
  induction hp with
  | nil => intro bs h; exact ⟨bs, .refl _, h⟩
  | cons x _ ih =>
    intro bs h
    cases h with
    | cons h1 h2 =>
      obtain ⟨bs', p, h3⟩ := ih h2
      exact ⟨_, p.cons _, .cons h1 h3⟩
  | swap x y l =>
    intro bs h
    cases h with
    | cons h1 h2 => cases h2 with
      | cons h3 h4 => exact ⟨_, .swap _ _ _, .cons h3 (.cons h1 h4)⟩
  | trans _ _ ih1 ih2 =>
    intro bs h
    obtain ⟨b1, p1, h1⟩ := ih2 h
    obtain ⟨b2, p2, h2⟩ := ih1 h1
    exact ⟨b2, p2.trans p1, h2⟩

theorem both_append {as as' : List α} {bs bs' : List β} (h : Both R as bs) (h' : Both R as' bs') :
    Both R (as ++ as') (bs ++ bs') := by
  induction h with
  | nil => exact h'
  | cons h1 _ ih => exact .cons h1 ih

theorem both_split {as as' : List α} : ∀ {bs : List β}, Both R (as ++ as') bs → ∃ b b', bs = b ++ b' ∧ Both R as b ∧ Both R as' b' := by
  induction as with
  | nil => intro bs h; exact ⟨[], bs, rfl, .nil, h⟩
  | cons a as ih =>
    intro bs h
    cases h with
    | cons h1 h2 =>
      obtain ⟨b, b', rfl, h3, h4⟩ := ih h2
      exact ⟨_ :: b, b', rfl, .cons h1 h3, h4⟩

theorem both_imp {as : List α} {bs : List β} (h : Both R as bs) (hi : ∀ a ∈ as, ∀ b, R a b → S a b) : Both S as bs := by
  induction h with
  | nil => exact .nil
  | cons h1 _ ih =>
    exact .cons (hi _ (List.mem_cons_self ..) _ h1) (ih fun a ha b h => hi a (List.mem_cons_of_mem _ ha) b h)

theorem both_left {as : List α} {bs : List β} (h : Both R as bs) {a : α} (ha : a ∈ as) : ∃ b ∈ bs, R a b := by
  induction h with
  | nil => cases ha
  | cons h1 _ ih =>
    rcases List.mem_cons.1 ha with rfl | ha
    · exact ⟨_, List.mem_cons_self .., h1⟩
    · obtain ⟨b, hb, h⟩ := ih ha
      exact ⟨b, List.mem_cons_of_mem _ hb, h⟩

theorem both_right {as : List α} {bs : List β} (h : Both R as bs) {b : β} (hb : b ∈ bs) : ∃ a ∈ as, R a b := by
  induction h with
  | nil => cases hb
  | cons h1 _ ih =>
    rcases List.mem_cons.1 hb with rfl | hb
    · exact ⟨_, List.mem_cons_self .., h1⟩
    · obtain ⟨a, ha, h⟩ := ih hb
      exact ⟨a, List.mem_cons_of_mem _ ha, h⟩

end

/-- `tau` answers as the list does: all that a leg needs -/
structure Walks (H : Obj) (I : H.σ → Prop) (S : GC) : Prop where
  init : I H.init
  tau : ∀ k, InRange k → Ok I (H.tau k) (TauSpec S k)

theorem walks_impl {H : Obj} {I : H.σ → Prop} {S : GC} (h : Impl H I S) : Walks H I S := ⟨h.init, h.tau⟩

/-- the leg belongs to the term, and stands at the first document from `F` on -/
def Tracks (F : Int) (w : Leg) (t : Term) : Prop :=
  w.idf = t.weight ∧ Listing t.docs ∧ TauSpec (ofList t.docs) F w.cur ∧
    ∃ I : w.H.σ → Prop, Walks w.H I (ofList t.docs) ∧ I w.st

theorem seek_ok {F k : Int} {w : Leg} {t : Term} (h : Tracks F w t) (hk : InRange k) :
    ∃ w', w.seek k = some w' ∧ Tracks k w' t := by
  obtain ⟨h1, h2, _, I, hI, hs⟩ := h
  obtain ⟨a, s, e, hs', ha⟩ := hI.tau k hk w.st hs
  refine ⟨{ w with st := s, cur := a }, by simp only [Leg.seek, e], h1, h2, ha, I, hI, hs'⟩

theorem seekAll_ok {F k : Int} (hk : InRange k) {ws : List Leg} {ts : List Term} (h : Both (Tracks F) ws ts) :
    ∃ ws', seekAll k ws = some ws' ∧ Both (Tracks k) ws' ts := by
  induction h with
  | nil => exact ⟨[], rfl, .nil⟩
  | cons h1 _ ih =>
    obtain ⟨w', e1, g1⟩ := seek_ok h1 hk
    obtain ⟨ws', e2, g2⟩ := ih
    exact ⟨w' :: ws', by simp only [seekAll, e1, e2], .cons g1 g2⟩

/-- where a leg stands -/
theorem Tracks.cur {F : Int} (hF : minfinity < F) {w : Leg} {t : Term} (h : Tracks F w t) (hF' : F ≤ maxfinity) :
    F ≤ w.cur.p ∧ w.cur.p ≤ maxfinity ∧ (∀ a ∈ t.docs, F ≤ a.p → w.cur.p ≤ a.p) ∧
      (w.cur.p < maxfinity → w.cur ∈ t.docs) := by
  obtain ⟨_, h2, h3, _⟩ := h
  rcases h3 with ⟨h, _⟩ | ⟨_, g1, g2, g3⟩ | ⟨_, g1, g2⟩
  · omega
  · have := h2.bounds _ g1
    exact ⟨g2, by omega, g3, fun _ => g1⟩
  · rw [g2]
    refine ⟨hF', Int.le_refl _, fun a ha h => ?_, fun h => ?_⟩
    · have := g1 a ha; omega
    · simp only at h; omega

/-- further on, a leg that is there already need not move -/
theorem Tracks.later {F k : Int} (hF : minfinity < F) (hk : F ≤ k) {w : Leg} {t : Term} (h : Tracks F w t) (hw : k ≤ w.cur.p) :
    Tracks k w t := by
  obtain ⟨h1, h2, h3, h4⟩ := h
  refine ⟨h1, h2, ?_, h4⟩
  rcases h3 with ⟨h, _⟩ | ⟨_, g1, g2, g3⟩ | ⟨_, g1, g2⟩
  · omega
  · exact .inr (.inl ⟨by omega, g1, hw, fun a ha h => g3 a ha (by omega)⟩)
  · exact .inr (.inr ⟨by omega, fun a ha => by have := g1 a ha; omega, g2⟩)

theorem share_zero {part : Rat → Int → Int → Rat} {d : Ann} {t : Term} (h : ∀ a ∈ t.docs, a.p ≠ d.p) : share part d t = 0 := by
  unfold share
  have : (t.docs.find? fun a => a.p == d.p) = none := by
    rw [List.find?_eq_none]
    intro a ha
    simpa using h a ha
  rw [this]

theorem share_at {part : Rat → Int → Int → Rat} {d a : Ann} {t : Term} (hl : Listing t.docs) (ha : a ∈ t.docs) (hp : a.p = d.p) :
    share part d t = part t.weight a.v (d.q - d.p + 1) := by
  unfold share
  cases hf : t.docs.find? fun a => a.p == d.p with
  | none =>
    rw [List.find?_eq_none] at hf
    exact absurd (by simpa using hp) (hf a ha)
  | some b =>
    have h1 := List.find?_some hf
    have h2 := List.mem_of_find?_eq_some hf
    have : b = a := hl.wf.uniq h2 ha (by simp at h1; omega)
    rw [this]

/-- the score of a document is collected, and the legs there move on -/
theorem collect_ok {part : Rat → Int → Int → Rat} {d : Ann} (hd : minfinity < d.p) (hd' : d.p < maxfinity)
    {ws : List Leg} {ts : List Term} (h : Both (Tracks d.p) ws ts) : ∀ score : Rat,
    ∃ ws', collect part d.p (d.q - d.p + 1) score ws = some (score + tot (ts.map (share part d)), ws') ∧
      Both (Tracks (d.p + 1)) ws' ts := by
  induction h with
  | nil =>
    intro score
    exact ⟨[], by simp [collect, tot, Rat.add_zero], .nil⟩
  | cons h1 _ ih =>
    rename_i w t ws ts _
    intro score
    obtain ⟨c1, c2, c3, c4⟩ := h1.cur hd (by omega)
    have et : tot ((t :: ts).map (share part d)) = share part d t + tot (ts.map (share part d)) := rfl
    unfold collect
    by_cases hw : w.cur.p = d.p
    · rw [if_pos hw]
      obtain ⟨w', e1, g1⟩ := seek_ok (k := d.p + 1) h1 ⟨by omega, by omega⟩
      obtain ⟨ws', e2, g2⟩ := ih (score + part w.idf w.cur.v (d.q - d.p + 1))
      refine ⟨w' :: ws', ?_, .cons g1 g2⟩
      simp only [e1, e2]
      rw [et, share_at h1.2.1 (c4 (by omega)) hw, h1.1, Rat.add_assoc]
    · rw [if_neg hw]
      obtain ⟨ws', e2, g2⟩ := ih score
      refine ⟨w :: ws', ?_, .cons (h1.later hd (by omega) (by omega)) g2⟩
      simp only [e2]
      rw [et, share_zero (fun a ha e => ?_), Rat.zero_add]
      have := c3 a ha (by omega)
      omega

theorem findPivot_some {target : Rat} : ∀ {ws : List Leg} {x : Rat} {b a : List Leg} {v : Leg}, x ≤ target →
    findPivot target x ws = some (b, v, a) → ws = b ++ v :: a ∧ x + tot (b.map (·.idf)) ≤ target := by
  intro ws
  induction ws with
  | nil => intro x b a v _ h; cases h
  | cons w ws ih =>
    intro x b a v hx h
    unfold findPivot at h
    split at h
    · cases h
      exact ⟨rfl, by simpa [tot, Rat.add_zero] using hx⟩
    · rename_i hn
      split at h
      · cases h
      · rename_i b' v' a' e
        cases h
        obtain ⟨h1, h2⟩ := ih (by simp only [gt_iff_lt] at hn; grind) e
        refine ⟨by rw [h1]; rfl, ?_⟩
        show x + (w.idf + tot _) ≤ target
        grind

theorem findPivot_none {target : Rat} : ∀ {ws : List Leg} {x : Rat}, x ≤ target →
    findPivot target x ws = none → x + tot (ws.map (·.idf)) ≤ target := by
  intro ws
  induction ws with
  | nil => intro x hx _; simpa [tot, Rat.add_zero] using hx
  | cons w ws ih =>
    intro x hx h
    unfold findPivot at h
    split at h
    · cases h
    · rename_i hn
      split at h
      · rename_i e
        have := ih (by simp only [gt_iff_lt] at hn; grind) e
        show x + (w.idf + tot _) ≤ target
        grind
      · cases h

theorem popEnded_ok (l : List Leg) (hs : l.Pairwise fun a b => a.cur.p ≤ b.cur.p) (hm : ∀ w ∈ l, w.cur.p ≤ maxfinity) :
    ∃ ended, l = popEnded l ++ ended ∧ (∀ w ∈ ended, w.cur.p = maxfinity) ∧ ∀ w ∈ popEnded l, w.cur.p < maxfinity := by
  refine ⟨(l.reverse.takeWhile fun w => w.cur.p == maxfinity).reverse, ?_, ?_, ?_⟩
  · unfold popEnded
    rw [← List.reverse_append, List.takeWhile_append_dropWhile, List.reverse_reverse]
  · intro w hw
    rw [List.mem_reverse] at hw
    have := List.all_eq_true.1 (List.all_takeWhile (l := l.reverse) (p := fun w => w.cur.p == maxfinity)) w hw
    simpa using this
  · intro w hw
    unfold popEnded at hw
    rw [List.mem_reverse] at hw
    have hr : l.reverse.Pairwise fun a b => b.cur.p ≤ a.cur.p := by rw [List.pairwise_reverse]; exact hs
    have hm' : ∀ w ∈ l.reverse, w.cur.p ≤ maxfinity := fun w hw => hm w (List.mem_reverse.1 hw)
    generalize l.reverse = m at hw hr hm'
    induction m with
    | nil => cases hw
    | cons x m ih =>
      rw [List.pairwise_cons] at hr
      rw [List.dropWhile_cons] at hw
      split at hw
      · exact ih hw hr.2 fun w hw => hm' w (List.mem_cons_of_mem _ hw)
      · rename_i hx
        have h1 := hm' x (List.mem_cons_self ..)
        have hx : x.cur.p ≠ maxfinity := by simpa using hx
        rcases List.mem_cons.1 hw with rfl | hw
        · omega
        · have := hr.1 w hw; omega

theorem both_tot {F : Int} {ws : List Leg} {ts : List Term} (h : Both (Tracks F) ws ts) :
    tot (ws.map (·.idf)) = tot (ts.map (·.weight)) := by
  induction h with
  | nil => rfl
  | cons h1 _ ih =>
    show _ + tot _ = _ + tot _
    rw [ih]
    simp only [h1.1]

/-! ### the loop -/

/-- What a query asks for: documents `D`, in each of which a term adds more than nothing and at
most its weight. -/
structure Query (part : Rat → Int → Int → Rat) (terms : List Term) (D : List Ann) : Prop where
  docs : Listing D
  listing : ∀ t ∈ terms, Listing t.docs
  within : ∀ t ∈ terms, ∀ a ∈ t.docs, ∃ d ∈ D, d.p = a.p ∧ d.q = a.q
  weight : ∀ t ∈ terms, 0 ≤ t.weight
  part : ∀ t ∈ terms, ∀ a ∈ t.docs, 0 < part t.weight a.v (a.q - a.p + 1) ∧ part t.weight a.v (a.q - a.p + 1) ≤ t.weight

section
variable {part : Rat → Int → Int → Rat} {terms : List Term} {D : List Ann} (q : Query part terms D)
include q

theorem Query.share {d : Ann} (hd : d ∈ D) {t : Term} (ht : t ∈ terms) :
    (0 ≤ share part d t ∧ share part d t ≤ t.weight) ∧ ((∃ a ∈ t.docs, a.p = d.p) → 0 < share part d t) := by
  by_cases h : ∃ a ∈ t.docs, a.p = d.p
  · obtain ⟨a, ha, hp⟩ := h
    rw [share_at (q.listing t ht) ha hp]
    obtain ⟨e, he, e1, e2⟩ := q.within t ht a ha
    have : e = d := q.docs.wf.uniq he hd (by omega)
    rw [this] at e2
    have h := q.part t ht a ha
    rw [show d.q - d.p + 1 = a.q - a.p + 1 by omega]
    exact ⟨⟨Rat.le_of_lt h.1, h.2⟩, fun _ => h.1⟩
  · rw [share_zero fun a ha e => h ⟨a, ha, e⟩]
    exact ⟨⟨Rat.le_refl, q.weight t ht⟩, fun h' => absurd h' h⟩

theorem Query.pos {d : Ann} (hd : d ∈ D) (ho : occurs terms d = true) : 0 < docScore part terms d := by
  unfold occurs at ho
  obtain ⟨t, ht, h⟩ := List.any_eq_true.1 ho
  obtain ⟨a, ha, hp⟩ := List.any_eq_true.1 h
  refine tot_pos ?_ (List.mem_map_of_mem ht) ((q.share hd ht).2 ⟨a, ha, by simpa using hp⟩)
  intro x hx
  obtain ⟨t', ht', rfl⟩ := List.mem_map.1 hx
  exact (q.share hd ht').1.1

/-- terms that do not occur add nothing, the others at most their weight -/
theorem Query.bound {d : Ann} (hd : d ∈ D) {near far : List Term} (hp : (near ++ far).Perm terms)
    (hf : ∀ t ∈ far, ∀ a ∈ t.docs, a.p ≠ d.p) : docScore part terms d ≤ tot (near.map (·.weight)) := by
  unfold docScore
  rw [← tot_perm (hp.map _), List.map_append, tot_append, tot_zero (l := far.map _), Rat.add_zero]
  · refine tot_le_map fun t ht => ?_
    exact (q.share hd (hp.mem_iff.1 (List.mem_append_left _ ht))).1.2
  · intro x hx
    obtain ⟨t, ht, rfl⟩ := List.mem_map.1 hx
    exact share_zero (hf t ht)

omit q in
theorem mem_ranked {a b : Int} {r : Result Rat} (h : r ∈ ranked part terms D a b) :
    ∃ d ∈ D, a ≤ d.p ∧ d.p < b ∧ occurs terms d = true ∧ r.score = docScore part terms d := by
  unfold ranked at h
  obtain ⟨d, hd, rfl⟩ := List.mem_map.1 h
  obtain ⟨h1, h2⟩ := List.mem_filter.1 hd
  simp only [Bool.and_eq_true, decide_eq_true_eq] at h2
  exact ⟨d, h1, h2.1.1, h2.1.2, h2.2, rfl⟩

theorem ranked_cut {a b c : Int} (h1 : a ≤ b) (h2 : b ≤ c) :
    ranked part terms D a c = ranked part terms D a b ++ ranked part terms D b c := by
  unfold ranked
  rw [filter_cut (q.docs.sorted.imp fun h => h.1) h1 h2, List.map_append]

/-- one document -/
theorem ranked_one {d : Ann} (hd : d ∈ D) (ho : occurs terms d = true) :
    ranked part terms D d.p (d.p + 1) = [⟨d.p, d.q, d.p, d.q, docScore part terms d⟩] := by
  have h : (D.filter fun x => decide (d.p ≤ x.p ∧ x.p < d.p + 1) && occurs terms x) = [] ++ [d] := by
    have e : ([] : List Ann) = D.filter fun _ => false := by simp
    refine (filter_step (P := fun _ => false) (key := Ann.p) (q.docs.sorted.imp fun h => h.1) hd ?_ ?_).trans (by rw [← e])
    · intro x hx
      simp only [Bool.and_eq_true, decide_eq_true_eq, Bool.false_eq_true, false_or]
      constructor
      · rintro ⟨h, _⟩
        exact q.docs.wf.uniq hx hd (by omega)
      · rintro rfl
        exact ⟨by omega, ho⟩
    · intro x _ h; cases h
  unfold ranked
  rw [h]; rfl

variable {order : List Leg → List Leg} {sort : List (Result Rat) → List (Result Rat)} {depth : Nat}

theorem wandLoop_ok (horder : ∀ l, (order l).Perm l ∧ (order l).Pairwise fun a b => a.cur.p ≤ b.cur.p)
    (hsort : SortsBy ratScores sort) : ∀ (n : Nat) (F : Int) (legs : List Leg) (top current : List (Result Rat))
    (ts gone : List Term), minfinity < F → F ≤ maxfinity → (maxfinity - F).toNat < n →
    (ts ++ gone).Perm terms → Both (Tracks F) legs ts → (∀ t ∈ gone, ∀ a ∈ t.docs, a.p < F) →
    Keeping depth (ranked part terms D minfinity F) top current →
    ∃ R, wandLoop part order sort depth n legs top current = some R ∧
      Top ratScores depth (ranked part terms D minfinity maxfinity) R := by
  intro n
  induction n with
  | zero => intro F _ _ _ _ _ _ _ h; omega
  | succ n ih =>
    intro F legs top current ts gone hF hF' hn hp hb hg hk
    obtain ⟨o1, o2⟩ := horder legs
    obtain ⟨ts1, p1, hb1⟩ := both_perm o1 hb
    have hcur : ∀ w ∈ order legs, w.cur.p ≤ maxfinity := by
      intro w hw
      obtain ⟨t, _, h⟩ := both_left hb1 hw
      exact (h.cur hF hF').2.1
    obtain ⟨ended, e1, e2, e3⟩ := popEnded_ok _ o2 hcur
    rw [e1] at hb1
    obtain ⟨tk, te, rfl, hbk, hbe⟩ := both_split hb1
    have hp2 : (tk ++ (te ++ gone)).Perm terms := by
      rw [← List.append_assoc]; exact (p1.append_right gone).trans hp
    have hend : ∀ t ∈ te ++ gone, ∀ a ∈ t.docs, a.p < F := by
      intro t ht a ha
      rcases List.mem_append.1 ht with ht | ht
      · obtain ⟨w, hw, h⟩ := both_right hbe ht
        have h1 := h.cur hF hF'
        have h2 := e2 w hw
        have h3 := h.2.1.bounds a ha
        rcases Int.lt_or_le a.p F with g | g
        · exact g
        · have := h1.2.2.1 a ha g; omega
      · exact hg t ht a ha
    unfold wandLoop
    cases hf : findPivot (targetOf ratScores depth top) 0 (popEnded (order legs)) with
    | none =>
      simp only
      have hx := findPivot_none hk.floor hf
      refine ⟨_, rfl, ?_⟩
      rw [ranked_cut q (Int.le_of_lt hF) hF']
      refine Keeping.best hsort (hk.skips _ fun r hr => ?_)
      obtain ⟨d, hd, d1, d2, d3, d4⟩ := mem_ranked hr
      rw [d4]
      refine ⟨q.pos hd d3, ?_⟩
      have := q.bound hd hp2 fun t ht a ha e => by have := hend t ht a ha; omega
      rw [← both_tot hbk] at this
      grind
    | some x =>
      obtain ⟨before, w, after⟩ := x
      simp only
      obtain ⟨f1, f2⟩ := findPivot_some hk.floor hf
      have hwm := e3 w (by rw [f1]; simp)
      rw [f1] at hbk
      obtain ⟨tb, ta, rfl, hbb, hba⟩ := both_split hbk
      cases hba with
      | cons hw hba =>
        rename_i tw ta
        obtain ⟨w1, _, w3, w4⟩ := hw.cur hF hF'
        obtain ⟨d, hd, d1, d2⟩ := q.within tw (hp2.mem_iff.1 (by simp)) w.cur (w4 hwm)
        have hsorted : ∀ v ∈ after, w.cur.p ≤ v.cur.p := by
          intro v hv
          rw [e1, f1, List.pairwise_append, List.pairwise_append, List.pairwise_cons] at o2
          exact o2.1.2.1.1 v hv
        rw [← d1] at w1 hwm hsorted ⊢
        rw [← d2]
        obtain ⟨before', b1, b2⟩ := seekAll_ok (k := d.p) ⟨by omega, by omega⟩ hbb
        simp only [b1]
        have hall : Both (Tracks d.p) (before' ++ w :: after) (tb ++ tw :: ta) := by
          refine both_append b2 (.cons (hw.later hF w1 (by omega)) ?_)
          exact both_imp hba fun v hv t h => h.later hF w1 (hsorted v hv)
        obtain ⟨legs', c1, c2⟩ := collect_ok (part := part) (by omega) hwm hall 0
        simp only [c1]
        have hsc : 0 + tot ((tb ++ tw :: ta).map (share part d)) = docScore part terms d := by
          unfold docScore
          rw [← tot_perm (hp2.map _), List.map_append (l₂ := te ++ gone), tot_append _ (List.map _ (te ++ gone)),
            tot_zero (l := (te ++ gone).map _), Rat.add_zero, Rat.zero_add]
          intro x hx
          obtain ⟨t, ht, rfl⟩ := List.mem_map.1 hx
          exact share_zero fun a ha e => by have := hend t ht a ha; omega
        rw [hsc]
        have hocc : occurs terms d = true := by
          unfold occurs
          rw [List.any_eq_true]
          refine ⟨tw, hp2.mem_iff.1 (by simp), ?_⟩
          rw [List.any_eq_true]
          exact ⟨w.cur, w4 (by omega), by simp [d1]⟩
        refine ih (d.p + 1) legs' _ _ (tb ++ tw :: ta) (te ++ gone) (by omega) (by omega) (by omega) hp2 c2
          (fun t ht a ha => by have := hend t ht a ha; omega) ?_
        rw [ranked_cut q (show minfinity ≤ d.p by omega) (show d.p ≤ d.p + 1 by omega), ranked_one q hd hocc,
          ranked_cut q (Int.le_of_lt hF) w1]
        refine Keeping.push hsort (hk.skips _ fun r hr => ?_) (q.pos hd hocc)
        obtain ⟨x, hx, x1, x2, x3, x4⟩ := mem_ranked hr
        rw [x4]
        refine ⟨q.pos hx x3, ?_⟩
        have hp3 : (tb ++ (tw :: ta ++ (te ++ gone))).Perm terms := by
          simpa only [List.append_assoc] using hp2
        have := q.bound hx hp3 fun t ht a ha e => by
          rcases List.mem_append.1 ht with ht | ht
          · rcases List.mem_cons.1 ht with rfl | ht
            · have := w3 a ha (by omega); omega
            · obtain ⟨v, hv, h⟩ := both_right hba ht
              have h1 := (h.cur hF hF').2.2.1 a ha (by omega)
              have := hsorted v hv
              omega
          · have := hend t ht a ha; omega
        rw [← both_tot hbb] at this
        grind

omit q in
theorem top_zero (all : List (Result Rat)) : Top ratScores 0 all [] :=
  ⟨by simp, .nil, all, .refl _, by simp⟩

/-- a query term as the program gets it: its weight, its `rsj`, its hopper -/
def Asks (t : Rat × Rat × Obj) (u : Term) : Prop :=
  u.weight = t.1 * t.2.1 ∧ ∃ I, Walks t.2.2 I (ofList u.docs)

theorem bm25_ok (horder : ∀ l, (order l).Perm l ∧ (order l).Pairwise fun a b => a.cur.p ≤ b.cur.p)
    (hsort : SortsBy ratScores sort) {query : List (Rat × Rat × Obj)}
    (hq : Both Asks (query.filter fun t => t.2.1 != 0) terms) :
    ∃ R, bm25Ranking part order sort depth query = some R ∧
      Top ratScores depth (ranked part terms D minfinity maxfinity) R := by
  unfold bm25Ranking
  by_cases hd : depth = 0
  · rw [if_pos hd, hd]
    exact ⟨[], rfl, top_zero _⟩
  rw [if_neg hd]
  by_cases hl : query.length = 0
  · rw [if_pos hl]
    rw [List.eq_nil_of_length_eq_zero hl] at hq
    cases hq
    refine ⟨[], rfl, ?_⟩
    have : ranked part [] D minfinity maxfinity = [] := by
      unfold ranked occurs
      simp
    rw [this]; exact top_nil
  rw [if_neg hl]
  have key : ∀ (l : List (Rat × Rat × Obj)) (us : List Term), Both Asks l us → (∀ u ∈ us, Listing u.docs) →
      ∃ ws, seekAll (minfinity + 1) (l.map fun t => ({ idf := t.1 * t.2.1, H := t.2.2, st := t.2.2.init, cur := highEnd } : Leg)) = some ws ∧
        Both (Tracks (minfinity + 1)) ws us := by
    intro l us h
    induction h with
    | nil => intro _; exact ⟨[], rfl, .nil⟩
    | @cons t _ _ _ h1 _ ih =>
      intro hu
      obtain ⟨ws, e, g⟩ := ih fun u h => hu u (List.mem_cons_of_mem _ h)
      obtain ⟨w, I, hI⟩ := h1
      obtain ⟨a, s, e', hs, ha⟩ := hI.tau (minfinity + 1) ⟨by omega, by omega⟩ _ hI.init
      refine ⟨({ idf := t.1 * t.2.1, H := t.2.2, st := s, cur := a } : Leg) :: ws,
        by simp only [List.map_cons, seekAll, Leg.seek, e', e],
        .cons ⟨w.symm, hu _ (List.mem_cons_self ..), ha, I, hI, hs⟩ g⟩
  obtain ⟨ws, e, g⟩ := key _ _ hq q.listing
  simp only [e]
  refine wandLoop_ok q horder hsort loopFuel (minfinity + 1) ws [] [] terms [] (by omega) (by omega)
    (by unfold loopFuel; omega) (by simp) g (by simp) ?_
  have : ranked part terms D minfinity (minfinity + 1) = [] := by
    rw [List.eq_nil_iff_forall_not_mem]
    intro r hr
    obtain ⟨d, hd, _, h2, _⟩ := mem_ranked hr
    have := q.docs.bounds d hd
    omega
  rw [this]
  exact ⟨Nat.zero_le _, .nil, by simp, enough_self _ _⟩

end

/-- what a term adds is less than its weight -/
theorem bm25_bound {tf : Int → Rat} {avgl b k1 w : Rat} {v l : Int} (htf : 0 < tf v) (hw : 0 < w) (hk : 0 ≤ k1) (hb : 0 ≤ b)
    (hb' : b ≤ 1) (ha : 0 < avgl) (hl : 0 < l) : 0 < bm25 tf avgl b k1 w v l ∧ bm25 tf avgl b k1 w v l ≤ w := by
  unfold bm25
  have hl' : (0 : Rat) < l := by exact_mod_cast hl
  have h1 : 0 ≤ (l : Rat) / avgl := by
    rw [Rat.div_def]; exact Rat.mul_nonneg (Rat.le_of_lt hl') (Rat.le_of_lt (Rat.inv_pos.2 ha))
  have h2 := Rat.mul_nonneg hb h1
  have h3 : 0 ≤ k1 * ((1 - b) + b * (l / avgl)) := Rat.mul_nonneg hk (by grind)
  generalize k1 * ((1 - b) + b * (l / avgl)) = n at h3
  have h4 : 0 < n + tf v := by grind
  have h5 := Rat.inv_pos.2 h4
  have h6 := Rat.mul_pos htf hw
  rw [Rat.div_def]
  refine ⟨Rat.mul_pos h6 h5, ?_⟩
  have h7 : (n + tf v) * (n + tf v)⁻¹ = 1 := Rat.mul_inv_cancel _ (by grind)
  have h8 := Rat.mul_nonneg (Rat.mul_nonneg h3 (Rat.le_of_lt hw)) (Rat.le_of_lt h5)
  have h9 : w = tf v * w * (n + tf v)⁻¹ + n * w * (n + tf v)⁻¹ := by grind
  grind

/-- the container of a result: the first that holds it, if any does -/
theorem addContainers_ok {σ : Type} {C : Obj} {J : C.σ → Prop} {K : List Ann} (hK : Listing K) (hJ : Impl C J (ofList K)) :
    ∀ (rs : List (Result σ)) (s : C.σ), J s → (∀ r ∈ rs, minfinity < r.p ∧ r.p ≤ r.q ∧ r.q < maxfinity) →
    ∃ rs', addContainers C s rs = some rs' ∧ Both (fun r r' => r'.p = r.p ∧ r'.q = r.q ∧ r'.score = r.score ∧
      ((∃ c ∈ K, c.p ≤ r.p ∧ r.q ≤ c.q ∧ r'.cp = c.p ∧ r'.cq = c.q ∧ ∀ d ∈ K, d.p ≤ r.p → r.q ≤ d.q → c.q ≤ d.q) ∨
        (r'.cp = r.cp ∧ r'.cq = r.cq ∧ ∀ d ∈ K, ¬ (d.p ≤ r.p ∧ r.q ≤ d.q)))) rs rs' := by
  intro rs
  induction rs with
  | nil => intro _ _ _; exact ⟨[], rfl, .nil⟩
  | cons r rs ih =>
    intro s hs hr
    obtain ⟨r1, r2, r3⟩ := hr r (List.mem_cons_self ..)
    obtain ⟨c, s', e, hs', hc⟩ := hJ.rho r.q ⟨by omega, by omega⟩ s hs
    obtain ⟨rs', e', h'⟩ := ih s' hs' fun x hx => hr x (List.mem_cons_of_mem _ hx)
    refine ⟨r.inside c :: rs', by simp only [addContainers, e, e'], .cons ?_ h'⟩
    unfold Result.inside
    rcases hc with ⟨h, _⟩ | ⟨_, c1, c2, c3⟩ | ⟨_, c1, rfl⟩
    · omega
    · have c1 : c ∈ K := c1
      split
      · rename_i h
        exact ⟨rfl, rfl, rfl, .inl ⟨c, c1, h.1, h.2, rfl, rfl, fun d hd _ h2 => c3 d hd h2⟩⟩
      · rename_i h
        refine ⟨rfl, rfl, rfl, .inr ⟨rfl, rfl, fun d hd h2 => h ⟨?_, c2⟩⟩⟩
        have h3 := c3 d hd h2.2
        rcases Int.lt_or_le d.p c.p with g | g
        · have := hK.wf.mono hd c1 g; omega
        · omega
    · rw [if_neg (by simp only; omega)]
      exact ⟨rfl, rfl, rfl, .inr ⟨rfl, rfl, fun d hd h2 => by have := c1 d hd; omega⟩⟩

end Verif.Rank
