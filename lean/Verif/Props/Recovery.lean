/-
Which shards a burrow keeps when it is opened (C24).
-/
import Verif.Txn.Survey
namespace Verif.Props
open Verif.Txn

/-! ### What the property speaks of -/

/-- the range of `b` is part of the range of `a` -/
def Inside (a b : FName) : Prop := a.lo ≤ b.lo ∧ b.hi ≤ a.hi

/-- the ranges share a sequence number -/
def Share (a b : FName) : Prop := ∃ n, (a.lo ≤ n ∧ n ≤ a.hi) ∧ (b.lo ≤ n ∧ n ≤ b.hi)

/-- the shard is inside no other of the shards found, except one of the same range -/
def Outermost (found : List FName) (a : FName) : Prop := a ∈ found ∧ ∀ c ∈ found, Inside c a → Inside a c

/-- the shards found in a directory: of one kind, with no name twice, and each name a range -/
structure Listing (found : List FName) : Prop where
  range : ∀ a ∈ found, a.lo ≤ a.hi
  once : found.Nodup
  named : ∀ a ∈ found, ∀ b ∈ found, a.lo = b.lo → a.hi = b.hi → a = b

theorem pairwise_of {α : Type} {R : α → α → Prop} (hs : ∀ {a b}, R a b → R b a) {l : List α} (h : l.Pairwise R) :
    ∀ {x y}, x ∈ l → y ∈ l → x ≠ y → R x y := by
  induction l with
  | nil => intro x y hx; cases hx
  | cons a l ih =>
    have p := List.pairwise_cons.1 h
    intro x y hx hy hne
    rcases List.mem_cons.1 hx with e | hx' <;> rcases List.mem_cons.1 hy with e' | hy'
    · exact absurd (e.trans e'.symm) hne
    · subst e; exact p.1 y hy'
    · subst e'; exact hs (p.1 x hx')
    · exact ih p.2 hx' hy' hne

theorem living_outermost {found living dead : List FName} (hl : Listing found)
    (h : survey found = some (living, dead)) (a : FName) : a ∈ living ↔ Outermost found a := by
  obtain ⟨h1, h2, h3⟩ := survey_some h
  have mem : ∀ x, x ∈ found ↔ x ∈ living ∨ x ∈ dead := fun x => by rw [← h1.mem_iff, List.mem_append]
  have apart : ∀ x ∈ living, ∀ y ∈ living, x.lo ≤ y.hi → y.lo ≤ x.hi → x = y := by
    intro x hx y hy q1 q2
    have rx := hl.range x ((mem x).2 (.inl hx))
    have ry := hl.range y ((mem y).2 (.inl hy))
    have hp : living.Pairwise fun a b => a.hi < b.lo ∨ b.hi < a.lo := h2.imp .inl
    exact Classical.byContradiction fun hne => by
      have := pairwise_of (fun h => h.symm) hp hx hy hne
      omega
  constructor
  · intro ha
    refine ⟨(mem a).2 (.inl ha), ?_⟩
    rintro c hc ⟨q1, q2⟩
    have ra := hl.range a ((mem a).2 (.inl ha))
    rcases (mem c).1 hc with hc | hc
    · have e : a = c := apart a ha c hc (by omega) (by omega)
      subst e; exact ⟨q1, q2⟩
    · obtain ⟨b, hb, n1, n2⟩ := h3 c hc
      have e : a = b := apart a ha b hb (by omega) (by omega)
      subst e; exact ⟨n1, n2⟩
  · rintro ⟨ha, hm⟩
    rcases (mem a).1 ha with h | h
    · exact h
    · obtain ⟨b, hb, n1, n2⟩ := h3 a h
      have hbf := (mem b).2 (.inl hb)
      obtain ⟨m1, m2⟩ := hm b hbf ⟨n1, n2⟩
      have e : a = b := hl.named a ha b hbf (by omega) (by omega)
      subst e; exact hb

/-- **C24.** When opening succeeds, the shards kept are exactly those inside no other; they are
in order and share no sequence number; every other shard found is inside one that is kept. -/
theorem C24_kept {found living dead : List FName} (hl : Listing found) (h : survey found = some (living, dead)) :
    (∀ a, a ∈ living ↔ Outermost found a) ∧
    living.Pairwise (fun a b => a.hi < b.lo) ∧
    (∀ x, x ∈ dead ↔ x ∈ found ∧ ∃ b ∈ living, b ≠ x ∧ Inside b x) ∧
    ∀ n, (∃ a ∈ found, a.lo ≤ n ∧ n ≤ a.hi) ↔ ∃ a ∈ living, a.lo ≤ n ∧ n ≤ a.hi := by
  obtain ⟨h1, h2, h3⟩ := survey_some h
  have mem : ∀ x, x ∈ found ↔ x ∈ living ∨ x ∈ dead := fun x => by rw [← h1.mem_iff, List.mem_append]
  have hout := living_outermost hl h
  have nd : (living ++ dead).Nodup := h1.nodup_iff.2 hl.once
  have disj : ∀ x ∈ living, ∀ y ∈ dead, x ≠ y := fun x hx y hy => (List.nodup_append.1 nd).2.2 x hx y hy
  refine ⟨hout, h2, ?_, ?_⟩
  · intro x
    constructor
    · intro hx
      obtain ⟨b, hb, hn⟩ := h3 x hx
      exact ⟨(mem x).2 (.inr hx), b, hb, disj b hb x hx, hn⟩
    · rintro ⟨hx, b, hb, hne, hn⟩
      rcases (mem x).1 hx with hx' | hx'
      · have hbf := (mem b).2 (.inl hb)
        obtain ⟨q1, q2⟩ := ((hout x).1 hx').2 b hbf hn
        obtain ⟨n1, n2⟩ := hn
        exact absurd (hl.named b hbf x hx (by omega) (by omega)) hne
      · exact hx'
  · intro n
    constructor
    · rintro ⟨a, ha, q1, q2⟩
      rcases (mem a).1 ha with h | h
      · exact ⟨a, h, q1, q2⟩
      · obtain ⟨b, hb, n1, n2⟩ := h3 a h
        exact ⟨b, hb, by omega, by omega⟩
    · rintro ⟨a, ha, q⟩
      exact ⟨a, (mem a).2 (.inl ha), q⟩

/-- **C24.** Opening reports an error exactly when a shard that is inside no other shares
sequence numbers with a shard that is not inside it. -/
theorem C24_rejected {found : List FName} (hr : ∀ a ∈ found, a.lo ≤ a.hi) :
    survey found = none ↔ ∃ a b, Outermost found a ∧ b ∈ found ∧ Share a b ∧ ¬ Inside a b := by
  constructor
  · intro h
    obtain ⟨a, ha, b, hb, q1, q2, q3, q4⟩ := survey_none h
    refine ⟨a, b, ⟨ha, q4⟩, hb, ⟨b.lo, ⟨by omega, q2⟩, ⟨by omega, hr b hb⟩⟩, ?_⟩
    rintro ⟨_, h2⟩
    omega
  · rintro ⟨a, b, ⟨ha, hm⟩, hb, ⟨n, ⟨s1, s2⟩, s3, s4⟩, hn⟩
    cases e : survey found with
    | none => rfl
    | some r =>
      obtain ⟨living, dead⟩ := r
      obtain ⟨h1, h2, h3⟩ := survey_some e
      have mem : ∀ x, x ∈ found ↔ x ∈ living ∨ x ∈ dead := fun x => by rw [← h1.mem_iff, List.mem_append]
      have cover : ∀ x ∈ found, ∃ y ∈ living, Inside y x := by
        intro x hx
        rcases (mem x).1 hx with h | h
        · exact ⟨x, h, Nat.le_refl _, Nat.le_refl _⟩
        · exact h3 x h
      obtain ⟨y, hy, y1, y2⟩ := cover a ha
      obtain ⟨z, hz, z1, z2⟩ := cover b hb
      obtain ⟨m1, m2⟩ := hm y ((mem y).2 (.inl hy)) ⟨y1, y2⟩
      have hp : living.Pairwise fun a b => a.hi < b.lo ∨ b.hi < a.lo := h2.imp .inl
      have : y = z := Classical.byContradiction fun hne => by
        have := pairwise_of (fun h => h.symm) hp hy hz hne
        omega
      subst this
      exact absurd ⟨by omega, by omega⟩ hn

theorem sorted_ext : ∀ {l l' : List FName}, (∀ a ∈ l, a.lo ≤ a.hi) → l.Pairwise (fun a b => a.hi < b.lo) →
    l'.Pairwise (fun a b => a.hi < b.lo) → (∀ a, a ∈ l ↔ a ∈ l') → l = l' := by
  intro l
  induction l with
  | nil =>
    intro l' _ _ _ hm
    cases l' with
    | nil => rfl
    | cons a l' => exact absurd ((hm a).2 (by simp)) (by simp)
  | cons a l ih =>
    intro l' hr h h' hm
    cases l' with
    | nil => exact absurd ((hm a).1 (by simp)) (by simp)
    | cons b l' =>
      have p := List.pairwise_cons.1 h
      have p' := List.pairwise_cons.1 h'
      have hr' : ∀ x ∈ b :: l', x.lo ≤ x.hi := fun x hx => hr x ((hm x).2 hx)
      have hab : a = b := by
        rcases List.mem_cons.1 ((hm a).1 (by simp)) with h1 | h1
        · exact h1
        · rcases List.mem_cons.1 ((hm b).2 (by simp)) with h2 | h2
          · exact h2.symm
          · have := p.1 b h2; have := p'.1 a h1
            have := hr a (by simp); have := hr' b (by simp)
            omega
      subst hab
      have ra := hr a (by simp)
      congr 1
      refine ih (fun x hx => hr x (by simp [hx])) p.2 p'.2 ?_
      intro x
      constructor
      · intro hx
        rcases List.mem_cons.1 ((hm x).1 (by simp [hx])) with h1 | h1
        · subst h1; have := p.1 x hx; omega
        · exact h1
      · intro hx
        rcases List.mem_cons.1 ((hm x).2 (by simp [hx])) with h1 | h1
        · subst h1; have := p'.1 x hx; omega
        · exact h1

/-- **C24.** The order in which the directory lists the shards does not matter. -/
theorem C24_any_order {found found' : List FName} (hl : Listing found) (hp : found.Perm found') :
    (survey found).map Prod.fst = (survey found').map Prod.fst := by
  have hm : ∀ x, x ∈ found ↔ x ∈ found' := fun x => hp.mem_iff
  have hl' : Listing found' := ⟨fun a ha => hl.range a ((hm a).2 ha), hp.nodup_iff.1 hl.once,
    fun a ha b hb => hl.named a ((hm a).2 ha) b ((hm b).2 hb)⟩
  have hout : ∀ a, Outermost found a ↔ Outermost found' a := by
    intro a; unfold Outermost; rw [hm a]; simp only [hm]
  cases e : survey found with
  | none =>
    have := (C24_rejected hl.range).1 e
    have : survey found' = none := (C24_rejected hl'.range).2 (by simpa only [hm, hout] using this)
    rw [this]
  | some r =>
    cases e' : survey found' with
    | none =>
      have := (C24_rejected hl'.range).1 e'
      have : survey found = none := (C24_rejected hl.range).2 (by simpa only [hm, hout] using this)
      rw [this] at e; cases e
    | some r' =>
      obtain ⟨l, d⟩ := r
      obtain ⟨l', d'⟩ := r'
      obtain ⟨k1, k2, _⟩ := C24_kept hl e
      obtain ⟨k1', k2', _⟩ := C24_kept hl' e'
      have : l = l' := sorted_ext (fun a ha => hl.range a ((k1 a).1 ha).1) k2 k2' fun a => by
        rw [k1 a, k1' a, hout a]
      subst this; rfl

theorem skip_nest {f : FName} {hs : List FName} {h : FName} (hh : h ∈ hs) (hf : f.lo ≤ h.hi) :
    h ∈ skipHazels f hs := mem_dropWhile hh (by simpa using hf)

theorem combineLoop_none {fs hs : List FName} (rf : ∀ f ∈ fs, f.lo ≤ f.hi) (rh : ∀ f ∈ hs, f.lo ≤ f.hi) (of : fs.Pairwise fun a b => a.hi < b.lo)
    (oh : hs.Pairwise fun a b => a.hi < b.lo) {f h : FName} (hf : f ∈ fs) (hh : h ∈ hs)
    (h1 : h.lo ≤ f.hi) (h2 : f.lo ≤ h.hi) (hn : ¬ Inside h f) : combineLoop fs hs = none := by
  induction fs generalizing hs with
  | nil => cases hf
  | cons g fs ih =>
    have og := List.pairwise_cons.1 of
    have rg := rf g (by simp)
    have sub : (skipHazels g hs).Sublist hs := dropWhile_sub _
    have oh' := oh.sublist sub
    rcases List.mem_cons.1 hf with rfl | hf'
    · have hin := skip_nest hh h2
      simp only [combineLoop]
      cases hs' : skipHazels f hs with
      | nil => rw [hs'] at hin; cases hin
      | cons x t =>
        have hx := dropWhile_head hs'
        simp at hx
        rw [hs'] at hin oh'
        have ov : x.lo ≤ f.hi ∧ ¬ Inside x f := by
          rcases List.mem_cons.1 hin with rfl | hin
          · exact ⟨h1, hn⟩
          · have hxh := (List.pairwise_cons.1 oh').1 h hin
            by_cases hle : x.lo ≤ f.hi
            · refine ⟨hle, ?_⟩
              rintro ⟨_, q⟩
              omega
            · exfalso
              have hxs : x ∈ hs := sub.subset (by rw [hs']; simp)
              have := rh x hxs
              omega
        dsimp only
        rw [if_pos (by simp [overlap]; omega), if_neg (by
          have := ov.2
          unfold Inside at this
          simp [contains]; omega)]
    · have hg := og.1 f hf'
      have rff := rf f hf
      have hin : h ∈ skipHazels g hs := skip_nest hh (by omega)
      have e := ih (fun x hx => rf x (by simp [hx])) (fun x hx => rh x (sub.subset hx)) og.2 oh' hf' hin
      simp only [combineLoop, e]
      split
      · rfl
      · split
        · split <;> rfl
        · rfl

/-- **C24.** The dynamic and the static shards, each in order: opening keeps every static shard
and the dynamic shards that share no sequence number with them, all in order; it removes only
dynamic shards inside a static one; and it reports an error exactly when a dynamic shard shares
sequence numbers with a static shard it is not inside. -/
theorem C24_combined {fs hs : List FName} (rf : ∀ f ∈ fs, f.lo ≤ f.hi) (rh : ∀ f ∈ hs, f.lo ≤ f.hi)
    (of : fs.Pairwise fun a b => a.hi < b.lo) (oh : hs.Pairwise fun a b => a.hi < b.lo) :
    (∀ gone all, combine fs hs = some (gone, all) →
      all.Pairwise (fun a b => a.hi < b.lo) ∧
      (∀ f ∈ gone, f ∈ fs ∧ ∃ h ∈ hs, Inside h f) ∧
      ∀ n, n ∈ all ↔ n ∈ hs ∨ (n ∈ fs ∧ ∀ h ∈ hs, ¬ Share h n)) ∧
    (combine fs hs = none ↔ ∃ f ∈ fs, ∃ h ∈ hs, Share h f ∧ ¬ Inside h f) := by
  have sh : ∀ a b : FName, a.lo ≤ a.hi → b.lo ≤ b.hi → (Share a b ↔ a.lo ≤ b.hi ∧ b.lo ≤ a.hi) := by
    intro a b ra rb
    constructor
    · rintro ⟨n, h1, h2⟩; omega
    · rintro ⟨h1, h2⟩
      by_cases h : a.lo ≤ b.lo
      · exact ⟨b.lo, ⟨h, h2⟩, Nat.le_refl _, rb⟩
      · exact ⟨a.lo, ⟨Nat.le_refl _, ra⟩, by omega, h1⟩
  by_cases hd : ∀ f ∈ fs, (∃ h ∈ hs, Nests h f) ∨ ∀ h ∈ hs, h.hi < f.lo ∨ f.hi < h.lo
  · obtain ⟨gone, all, e, q1, q2, q3⟩ := combine_some rf rh of oh hd
    constructor
    · intro gone' all' e'
      rw [e] at e'; cases e'
      refine ⟨q1, q2, fun n => (q3 n).trans ?_⟩
      constructor
      · rintro (h | ⟨h1, h2⟩)
        · exact .inl h
        · refine .inr ⟨h1, fun h hh => ?_⟩
          rw [sh h n (rh h hh) (rf n h1)]
          have := h2 h hh; omega
      · rintro (h | ⟨h1, h2⟩)
        · exact .inl h
        · refine .inr ⟨h1, fun h hh => ?_⟩
          have := h2 h hh
          rw [sh h n (rh h hh) (rf n h1)] at this
          omega
    · rw [e]
      constructor
      · intro h; cases h
      · rintro ⟨f, hf, h, hh, hs', hn⟩
        rw [sh h f (rh h hh) (rf f hf)] at hs'
        exfalso
        rcases hd f hf with ⟨h', hh', n1, n2⟩ | hx
        · have hp : hs.Pairwise fun a b => a.hi < b.lo ∨ b.hi < a.lo := oh.imp .inl
          have : h = h' := Classical.byContradiction fun hne => by
            have := pairwise_of (fun h => h.symm) hp hh hh' hne
            have := rf f hf
            omega
          subst this
          exact hn ⟨n1, n2⟩
        · have := hx h hh; omega
  · have hex : ∃ f ∈ fs, ∃ h ∈ hs, Share h f ∧ ¬ Inside h f := by
      refine Classical.byContradiction fun hne => hd fun f hf => ?_
      by_cases hi : ∃ h ∈ hs, Nests h f
      · exact .inl hi
      · refine .inr fun h hh => Classical.byContradiction fun ho => hne ⟨f, hf, h, hh, ?_, fun hn => hi ⟨h, hh, hn⟩⟩
        rw [sh h f (rh h hh) (rf f hf)]; omega
    have e : combine fs hs = none := by
      obtain ⟨f, hf, h, hh, hs', hn⟩ := hex
      rw [sh h f (rh h hh) (rf f hf)] at hs'
      unfold combine
      rw [ordered_of rf of, ordered_of rh oh, combineLoop_none rf rh of oh hf hh hs'.1 hs'.2 hn]
      rfl
    refine ⟨fun gone all e' => (by rw [e] at e'; cases e'), ?_⟩
    rw [e]
    exact ⟨fun _ => hex, fun _ => rfl⟩

/-! ### Cases that meet the hypotheses -/

/-- two merges were interrupted after the merged shard was written: `[0,2]` covers `[0,0]`,
`[1,1]` and `[1,2]` -/
example : survey [⟨.fiver, 1, 1⟩, ⟨.fiver, 5, 9⟩, ⟨.fiver, 1, 2⟩, ⟨.fiver, 0, 0⟩, ⟨.fiver, 0, 2⟩, ⟨.fiver, 6, 6⟩] =
    some ([⟨.fiver, 0, 2⟩, ⟨.fiver, 5, 9⟩], [⟨.fiver, 0, 0⟩, ⟨.fiver, 1, 2⟩, ⟨.fiver, 1, 1⟩, ⟨.fiver, 6, 6⟩]) := by decide

/-- ranges that straddle are an error … -/
example : survey [⟨.fiver, 2, 5⟩, ⟨.fiver, 0, 3⟩] = none := by decide

/-- … unless a third shard contains both -/
example : survey [⟨.fiver, 2, 5⟩, ⟨.fiver, 0, 3⟩, ⟨.fiver, 0, 6⟩] = some ([⟨.fiver, 0, 6⟩], [⟨.fiver, 0, 3⟩, ⟨.fiver, 2, 5⟩]) := by decide

example : Listing [⟨.fiver, 1, 1⟩, ⟨.fiver, 5, 9⟩, ⟨.fiver, 1, 2⟩, ⟨.fiver, 0, 2⟩] := by
  refine ⟨?_, by decide, ?_⟩ <;> simp

example : combine [⟨.fiver, 0, 0⟩, ⟨.fiver, 3, 3⟩, ⟨.fiver, 4, 4⟩] [⟨.hazel, 0, 2⟩, ⟨.hazel, 4, 5⟩] =
    some ([⟨.fiver, 0, 0⟩, ⟨.fiver, 4, 4⟩], [⟨.hazel, 0, 2⟩, ⟨.fiver, 3, 3⟩, ⟨.hazel, 4, 5⟩]) := by decide

example : combine [⟨.fiver, 0, 3⟩] [⟨.hazel, 0, 2⟩] = none := by decide

end Verif.Props
