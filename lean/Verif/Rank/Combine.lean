import Verif.Rank.CombineModel
import Verif.Rank.CombineSpec
import Verif.Rank.Top
/-
  Proofs about the combining of rankings.
-/
namespace Verif.Rank
open Verif.Hopper

/-! ### the first of each key -/

section
variable {α : Type} {key : α → Int}

theorem firsts_congr : ∀ {l : List α} {s s' : List Int}, (∀ x ∈ l, key x ∈ s ↔ key x ∈ s') → firsts key s l = firsts key s' l
  | [], _, _, _ => rfl
  | a :: l, s, s', h => by
    have ha := h a (List.mem_cons_self ..)
    simp only [firsts]
    by_cases hm : key a ∈ s
    · rw [if_pos hm, if_pos (ha.1 hm)]
      exact firsts_congr fun x hx => h x (List.mem_cons_of_mem _ hx)
    · rw [if_neg hm, if_neg (fun hc => hm (ha.2 hc))]
      congr 1
      refine firsts_congr fun x hx => ?_
      rw [List.mem_cons, List.mem_cons, h x (List.mem_cons_of_mem _ hx)]

theorem firsts_append : ∀ {l m : List α} {s : List Int}, firsts key s (l ++ m) = firsts key s l ++ firsts key (l.map key ++ s) m
  | [], _, _ => rfl
  | a :: l, m, s => by
    simp only [List.cons_append, firsts]
    by_cases hm : key a ∈ s
    · rw [if_pos hm, if_pos hm, firsts_append]
      congr 1
      refine firsts_congr fun x _ => ?_
      simp only [List.map_cons, List.cons_append, List.mem_append, List.mem_cons]
      constructor
      · exact fun h => Or.inr h
      · rintro (h | h)
        · rw [h]; exact Or.inr hm
        · exact h
    · rw [if_neg hm, if_neg hm, firsts_append, List.cons_append]
      congr 2
      refine firsts_congr fun x _ => ?_
      simp only [List.map_cons, List.cons_append, List.mem_append, List.mem_cons]
      constructor
      · rintro (h | h | h)
        · exact Or.inr (Or.inl h)
        · exact Or.inl h
        · exact Or.inr (Or.inr h)
      · rintro (h | h | h)
        · exact Or.inr (Or.inl h)
        · exact Or.inl h
        · exact Or.inr (Or.inr h)

theorem firsts_mem : ∀ {l : List α} {s : List Int} {x : α}, x ∈ firsts key s l → x ∈ l ∧ key x ∉ s
  | [], _, _, h => by cases h
  | a :: l, s, x, h => by
    simp only [firsts] at h
    split at h
    · have := firsts_mem h
      exact ⟨List.mem_cons_of_mem _ this.1, this.2⟩
    · rename_i hm
      rcases List.mem_cons.1 h with rfl | h
      · exact ⟨List.mem_cons_self .., hm⟩
      · have := firsts_mem h
        exact ⟨List.mem_cons_of_mem _ this.1, fun hc => this.2 (List.mem_cons_of_mem _ hc)⟩

theorem firsts_nodup : ∀ {l : List α} {s : List Int}, ((firsts key s l).map key).Nodup
  | [], _ => List.nodup_nil
  | a :: l, s => by
    simp only [firsts]
    split
    · exact firsts_nodup
    · rw [List.map_cons, List.nodup_cons]
      refine ⟨fun h => ?_, firsts_nodup⟩
      obtain ⟨x, hx, he⟩ := List.mem_map.1 h
      exact (firsts_mem hx).2 (he ▸ List.mem_cons_self ..)

theorem firsts_key : ∀ {l : List α} {s : List Int} {x : α}, x ∈ l → key x ∉ s → ∃ r ∈ firsts key s l, key r = key x
  | a :: l, s, x, h, hs => by
    simp only [firsts]
    rcases List.mem_cons.1 h with rfl | h
    · rw [if_neg hs]
      exact ⟨x, List.mem_cons_self .., rfl⟩
    · split
      · exact firsts_key h hs
      · by_cases hx : key x = key a
        · exact ⟨a, List.mem_cons_self .., hx.symm⟩
        · obtain ⟨r, h1, h2⟩ := firsts_key (s := key a :: s) h (fun hc => by
            rcases List.mem_cons.1 hc with hc | hc
            · exact hx hc
            · exact hs hc)
          exact ⟨r, List.mem_cons_of_mem _ h1, h2⟩

theorem firsts_find : ∀ {l : List α} {s : List Int} {r : α}, r ∈ firsts key s l → l.find? (fun x => key x == key r) = some r
  | a :: l, s, r, h => by
    simp only [firsts] at h
    split at h
    · rename_i hm
      have hne : key a ≠ key r := fun hc => (firsts_mem h).2 (hc ▸ hm)
      rw [List.find?_cons_of_neg (by simpa using hne)]
      exact firsts_find h
    · rcases List.mem_cons.1 h with rfl | h
      · rw [List.find?_cons_of_pos (by simp)]
      · have hne : key a ≠ key r := fun hc => (firsts_mem h).2 (hc ▸ List.mem_cons_self ..)
        rw [List.find?_cons_of_neg (by simpa using hne)]
        exact firsts_find h

theorem firsts_length : ∀ {l : List α} {s : List Int}, (l.map key).Nodup → l.length ≤ (firsts key s l).length + s.length
  | [], _, _ => by simp
  | a :: l, s, h => by
    rw [List.map_cons, List.nodup_cons] at h
    have hl : ∀ x ∈ l, key x ≠ key a := fun x hx hc => h.1 (hc ▸ List.mem_map_of_mem hx)
    simp only [firsts]
    split
    · rename_i hm
      have e : firsts key s l = firsts key (s.erase (key a)) l := firsts_congr fun x hx => by
        rw [List.mem_erase_of_ne (hl x hx)]
      rw [e]
      have := firsts_length (s := s.erase (key a)) h.2
      rw [List.length_erase_of_mem hm] at this
      have : 0 < s.length := List.length_pos_of_mem hm
      simp only [List.length_cons]
      omega
    · have e : firsts key (key a :: s) l = firsts key s l := firsts_congr fun x hx => by
        rw [List.mem_cons]
        exact ⟨fun hc => hc.resolve_left (hl x hx), Or.inr⟩
      rw [e]
      have := firsts_length (s := s) h.2
      simp only [List.length_cons]
      omega

end

section
variable {σ : Type} {sc : Scores σ} {sort : List (Result σ) → List (Result σ)}

/-! ### fusion -/

/-- more shares on top of what there is -/
def more (sc : Scores σ) (share : Nat → σ) : Option σ → List Nat → Option σ
  | none, l => sumShares sc share l
  | some s, l => some (l.foldl (fun s j => sc.add s (share j)) s)

theorem more_nil (share : Nat → σ) (o : Option σ) : more sc share o [] = o := by cases o <;> rfl

theorem more_append (share : Nat → σ) (o : Option σ) (l m : List Nat) : more sc share (more sc share o l) m = more sc share o (l ++ m) := by
  cases o with
  | some s => simp [more, List.foldl_append]
  | none =>
    cases l with
    | nil => rfl
    | cons i l => simp [more, sumShares, List.foldl_append]

theorem addShares_eq (share : Nat → σ) (p : Int) : ∀ (l : List (Result σ)) (i : Nat) (scores : Int → Option σ),
    addShares sc share i l scores p = more sc share (scores p) (ranksOf p i l)
  | [], i, scores => by simp [addShares, ranksOf, more_nil]
  | r :: l, i, scores => by
    simp only [addShares, ranksOf]
    rw [addShares_eq share p l]
    by_cases hp : r.p = p
    · subst hp
      simp only [if_true]
      cases hs : scores r.p with
      | none => rfl
      | some s => rfl
    · rw [if_neg (fun h => hp h.symm), if_neg hp]

theorem allShares_eq (share : Nat → σ) (p : Int) : ∀ (rs : List (List (Result σ))) (scores : Int → Option σ),
    allShares sc share rs scores p = more sc share (scores p) (rs.flatMap (ranksOf p 0))
  | [], scores => by simp [allShares, more_nil]
  | R :: rs, scores => by
    simp only [allShares, List.flatMap_cons]
    rw [allShares_eq share p rs, addShares_eq, more_append]

def scored (sc : Scores σ) (scores : Int → Option σ) (r : Result σ) : Result σ := ⟨r.p, r.q, r.cp, r.cq, (scores r.p).getD sc.zero⟩

theorem collectFused_eq (scores : Int → Option σ) : ∀ (l : List (Result σ)) (seen : List Int) (fused : List (Result σ)),
    (collectFused sc scores l (seen, fused)).2 = fused ++ (firsts (·.p) seen l).map (scored sc scores)
  | [], _, fused => by simp [collectFused, firsts]
  | r :: l, seen, fused => by
    simp only [collectFused, firsts]
    split
    · exact collectFused_eq scores l ..
    · rw [collectFused_eq scores l, List.map_cons, List.append_assoc]
      rfl

theorem collectFused_append (scores : Int → Option σ) : ∀ (l m : List (Result σ)) (st : List Int × List (Result σ)),
    collectFused sc scores (l ++ m) st = collectFused sc scores m (collectFused sc scores l st)
  | [], _, _ => rfl
  | r :: l, m, (seen, fused) => by
    simp only [List.cons_append, collectFused]
    split
    · exact collectFused_append scores l m _
    · exact collectFused_append scores l m _

theorem collectFused_all (scores : Int → Option σ) : ∀ (rs : List (List (Result σ))) (st : List Int × List (Result σ)),
    rs.foldl (fun st R => collectFused sc scores R st) st = collectFused sc scores rs.flatten st
  | [], _ => rfl
  | R :: rs, st => by
    simp only [List.foldl_cons, List.flatten_cons]
    rw [collectFused_all scores rs, collectFused_append]

theorem rrf_eq (share : Nat → σ) (rankings : List (List (Result σ))) :
    rrfFusion sc sort share rankings =
      sort ((firsts (·.p) [] rankings.flatten).map (scored sc (allShares sc share rankings fun _ => none))) := by
  unfold rrfFusion
  simp only []
  rw [collectFused_all, collectFused_eq, List.nil_append]

/-- a rank there is -/
theorem ranksOf_ne {p : Int} : ∀ {l : List (Result σ)} {i : Nat} {r : Result σ}, r ∈ l → r.p = p → ranksOf p i l ≠ []
  | a :: l, i, r, h, hp => by
    simp only [ranksOf]
    rcases List.mem_cons.1 h with rfl | h
    · rw [if_pos hp]; simp
    · split
      · simp
      · exact ranksOf_ne h hp

/-! ### tiers -/

theorem rescored_append (score : Nat → σ) : ∀ (l m : List (Result σ)) (n : Nat),
    rescored score n (l ++ m) = rescored score n l ++ rescored score (n + l.length) m
  | [], m, n => rfl
  | r :: l, m, n => by
    simp only [List.cons_append, rescored, List.length_cons]
    rw [rescored_append score l m, Nat.add_assoc, Nat.add_comm 1]

theorem rescored_length (score : Nat → σ) : ∀ (l : List (Result σ)) (n : Nat), (rescored score n l).length = l.length
  | [], _ => rfl
  | _ :: l, _ => by simp only [rescored, List.length_cons, rescored_length score l]

theorem tierLoop_eq (fake : Nat → σ) (depth : Nat) : ∀ (R : List (Result σ)) (seen : List Int) (top : List (Result σ)), top.length ≤ depth →
    (tierLoop fake depth R (seen, top)).2 =
      top ++ rescored (fun n => fake (depth - n)) top.length ((firsts (·.cp) seen R).take (depth - top.length)) ∧
    (seen.length = top.length → (tierLoop fake depth R (seen, top)).1.length = (tierLoop fake depth R (seen, top)).2.length) ∧
    ((firsts (·.cp) seen R).length < depth - top.length →
      ∀ k, k ∈ (tierLoop fake depth R (seen, top)).1 ↔ k ∈ R.map (·.cp) ++ seen)
  | [], seen, top, h => by simp [tierLoop, firsts, rescored]
  | r :: R, seen, top, h => by
    simp only [tierLoop, firsts]
    by_cases ht : top.length < depth
    · rw [if_pos ht]
      by_cases hm : r.cp ∈ seen
      · rw [if_pos hm, if_pos hm]
        obtain ⟨h1, h2, h3⟩ := tierLoop_eq fake depth R seen top h
        refine ⟨h1, h2, fun hl k => ?_⟩
        rw [h3 hl k]
        simp only [List.map_cons, List.cons_append, List.mem_cons, List.mem_append]
        constructor
        · exact Or.inr
        · rintro (rfl | h)
          · exact Or.inr hm
          · exact h
      · rw [if_neg hm, if_neg hm]
        obtain ⟨h1, h2, h3⟩ := tierLoop_eq fake depth R (r.cp :: seen) (top ++ [⟨r.p, r.q, r.cp, r.cq, fake (depth - top.length)⟩])
          (by simp; omega)
        have e : depth - top.length = (depth - (top.length + 1)) + 1 := by omega
        refine ⟨?_, fun hl => h2 (by simp [hl]), fun hl k => ?_⟩
        · rw [h1, e, List.take_succ_cons, rescored, List.append_assoc]
          simp only [List.length_append, List.length_cons, List.length_nil, Nat.zero_add, List.cons_append, List.nil_append]
          rw [show depth - (top.length + 1) + 1 = depth - top.length by omega]
        · rw [h3 (by simp only [List.length_append, List.length_cons, List.length_nil] at hl ⊢; omega) k]
          simp only [List.map_cons, List.cons_append, List.mem_cons, List.mem_append]
          constructor
          · rintro (h | h | h)
            · exact Or.inr (Or.inl h)
            · exact Or.inl h
            · exact Or.inr (Or.inr h)
          · rintro (h | h | h)
            · exact Or.inr (Or.inl h)
            · exact Or.inl h
            · exact Or.inr (Or.inr h)
    · rw [if_neg ht]
      have e : depth - top.length = 0 := by omega
      rw [e]
      exact ⟨by simp [rescored], id, fun hl => absurd hl (by omega)⟩

/-- Cutting the ranking of every tier at `depth` loses nothing. -/
theorem tiersLoop_eq (fake : Nat → σ) (depth : Nat) : ∀ (Ss : List (List (Result σ))) (seen : List Int) (top : List (Result σ)),
    (∀ S ∈ Ss, (S.map (·.cp)).Nodup) → top.length ≤ depth → seen.length = top.length →
    tiersLoop fake depth (Ss.map fun S => some (S.take depth)) (seen, top) =
      some (top ++ rescored (fun n => fake (depth - n)) top.length ((firsts (·.cp) seen Ss.flatten).take (depth - top.length)))
  | [], seen, top, _, h, _ => by simp [tiersLoop, firsts, rescored]
  | S :: Ss, seen, top, hS, h, hl => by
    simp only [List.map_cons, tiersLoop, List.flatten_cons]
    obtain ⟨h1, h2, h3⟩ := tierLoop_eq fake depth (S.take depth) seen top h
    generalize tierLoop fake depth (S.take depth) (seen, top) = st at h1 h2 h3
    have len : st.2.length = top.length + min (depth - top.length) (firsts (·.cp) seen (S.take depth)).length := by
      rw [h1, List.length_append, rescored_length, List.length_take]
    by_cases hd : st.2.length = depth
    · rw [if_pos hd, h1]
      have e : S ++ Ss.flatten = S.take depth ++ (S.drop depth ++ Ss.flatten) := by
        rw [← List.append_assoc, List.take_append_drop]
      rw [e, firsts_append, List.take_append_of_le_length (by omega)]
    · rw [if_neg hd]
      have hlt : (firsts (·.cp) seen (S.take depth)).length < depth - top.length := by omega
      have hnd : ((S.take depth).map (·.cp)).Nodup :=
        (hS S (List.mem_cons_self ..)).sublist ((List.take_sublist ..).map _)
      have hln := firsts_length (s := seen) hnd
      rw [List.length_take] at hln
      have hfull : S.take depth = S := List.take_of_length_le (by omega)
      rw [hfull] at h1 h3 hlt len
      have := tiersLoop_eq fake depth Ss st.1 st.2 (fun S hS' => hS S (List.mem_cons_of_mem _ hS')) (by omega) (h2 hl)
      rw [show st = (st.1, st.2) from rfl, this]
      have e : firsts (·.cp) st.1 Ss.flatten = firsts (·.cp) (S.map (·.cp) ++ seen) Ss.flatten :=
        firsts_congr fun x _ => h3 hlt x.cp
      rw [e, firsts_append, List.take_append, List.take_of_length_le (by omega : (firsts (·.cp) seen S).length ≤ depth - top.length)]
      rw [rescored_append]
      have el : st.2.length = top.length + (firsts (·.cp) seen S).length := by omega
      rw [el]
      rw [h1, List.take_of_length_le (by omega : (firsts (·.cp) seen S).length ≤ depth - top.length), List.append_assoc,
        Nat.sub_add_eq]

/-! ### merging -/

theorem gt_trans (hs : sc.Lawful) {a b c : σ} (h1 : sc.gt a b = false) (h2 : sc.gt b c = false) : sc.gt a c = false := by
  cases h : sc.gt a c with
  | false => rfl
  | true =>
    rcases hs.split (b := b) h with h | h
    · rw [h1] at h; cases h
    · rw [h2] at h; cases h

theorem insert_mem {a x : Result σ} {l : List (Result σ)} {p : Result σ → Bool} :
    x ∈ l.takeWhile p ++ a :: l.dropWhile p ↔ x = a ∨ x ∈ l := by
  have : x ∈ l ↔ x ∈ l.takeWhile p ∨ x ∈ l.dropWhile p := by
    rw [← List.mem_append, List.takeWhile_append_dropWhile]
  rw [List.mem_append, List.mem_cons, this]
  constructor
  · rintro (h | h | h)
    · exact Or.inr (Or.inl h)
    · exact Or.inl h
    · exact Or.inr (Or.inr h)
  · rintro (h | h | h)
    · exact Or.inr (Or.inl h)
    · exact Or.inl h
    · exact Or.inr (Or.inr h)

/-- in the order of the containers, and within one in the order of the scores -/
def InRows (sc : Scores σ) (l : List (Result σ)) : Prop :=
  l.Pairwise fun a b => a.cp < b.cp ∨ a.cp = b.cp ∧ sc.gt b.score a.score = false

theorem byContainer_mem (x : Result σ) : ∀ (l : List (Result σ)), x ∈ byContainer l ↔ x ∈ l
  | [] => Iff.rfl
  | a :: l => by
    show x ∈ (byContainer l).takeWhile _ ++ a :: (byContainer l).dropWhile _ ↔ _
    rw [insert_mem, byContainer_mem x l, List.mem_cons]

theorem byContainer_rows : ∀ {l : List (Result σ)}, l.Pairwise (fun a b => sc.gt b.score a.score = false) → InRows sc (byContainer l)
  | [], _ => List.Pairwise.nil
  | a :: l, h => by
    rw [List.pairwise_cons] at h
    have ih := byContainer_rows h.2
    have ha : ∀ x ∈ byContainer l, sc.gt x.score a.score = false := fun x hx => h.1 x ((byContainer_mem x l).1 hx)
    show InRows sc ((byContainer l).takeWhile (fun b => decide (b.cp < a.cp)) ++ a :: (byContainer l).dropWhile (fun b => decide (b.cp < a.cp)))
    generalize byContainer l = m at ih ha
    induction m with
    | nil => simp [InRows]
    | cons b m ihm =>
      unfold InRows at ih ihm ⊢
      rw [List.pairwise_cons] at ih
      by_cases hb : b.cp < a.cp
      · simp only [List.takeWhile_cons, List.dropWhile_cons, hb, decide_true, if_true]
        rw [List.cons_append, List.pairwise_cons]
        refine ⟨fun x hx => ?_, ihm ih.2 fun x hx => ha x (List.mem_cons_of_mem _ hx)⟩
        rcases insert_mem.1 hx with rfl | hx
        · exact Or.inl hb
        · exact ih.1 x hx
      · simp only [List.takeWhile_cons, List.dropWhile_cons, hb, decide_false, Bool.false_eq_true, if_false]
        rw [List.nil_append, List.pairwise_cons, List.pairwise_cons]
        refine ⟨fun x hx => ?_, ih⟩
        have hxs := ha x hx
        rcases List.mem_cons.1 hx with rfl | hx
        · by_cases he : a.cp = x.cp
          · exact Or.inr ⟨he, hxs⟩
          · exact Or.inl (by omega)
        · rcases ih.1 x hx with h | ⟨h, _⟩
          · exact Or.inl (by omega)
          · by_cases he : a.cp = x.cp
            · exact Or.inr ⟨he, hxs⟩
            · exact Or.inl (by omega)

theorem onePer_ok (hs : sc.Lawful) : ∀ {l : List (Result σ)} {last : Option Int}, InRows sc l →
    (∀ c x, last = some c → x ∈ l → c ≤ x.cp) →
    (∀ r ∈ onePer last l, r ∈ l ∧ ∀ c, last = some c → c < r.cp) ∧ ((onePer last l).map (·.cp)).Nodup ∧
    ∀ x ∈ l, last ≠ some x.cp → ∃ r ∈ onePer last l, r.cp = x.cp ∧ sc.gt x.score r.score = false
  | [], last, _, _ => by simp [onePer]
  | a :: l, last, h, hl => by
    unfold InRows at h
    rw [List.pairwise_cons] at h
    simp only [onePer]
    have keep :=
      onePer_ok hs (l := l) (last := some a.cp) h.2 (fun c x hc hx => by
        cases hc
        rcases h.1 x hx with h | h
        · omega
        · omega)
    split
    · rename_i hk
      obtain ⟨k1, k2, k3⟩ := keep
      have ha : ∀ c, last = some c → c < a.cp := by
        intro c hc
        rw [hc] at hk
        simpa [later] using hk
      refine ⟨fun r hr => ?_, ?_, fun x hx hne => ?_⟩
      · rcases List.mem_cons.1 hr with rfl | hr
        · exact ⟨List.mem_cons_self .., ha⟩
        · refine ⟨List.mem_cons_of_mem _ (k1 r hr).1, fun c hc => ?_⟩
          have := (k1 r hr).2 _ rfl
          have := ha c hc
          omega
      · rw [List.map_cons, List.nodup_cons]
        refine ⟨fun hc => ?_, k2⟩
        obtain ⟨r, hr, he⟩ := List.mem_map.1 hc
        have := (k1 r hr).2 _ rfl
        omega
      · rcases List.mem_cons.1 hx with rfl | hx
        · exact ⟨x, List.mem_cons_self .., rfl, irrefl hs _⟩
        · by_cases he : a.cp = x.cp
          · refine ⟨a, List.mem_cons_self .., he, ?_⟩
            rcases h.1 x hx with h | h
            · omega
            · exact h.2
          · obtain ⟨r, h1, h2⟩ := k3 x hx (fun hc => he (Option.some.inj hc))
            exact ⟨r, List.mem_cons_of_mem _ h1, h2⟩
    · rename_i hk
      obtain ⟨c, hc⟩ : ∃ c, last = some c := by
        cases hlast : last with
        | none => rw [hlast] at hk; exact absurd rfl hk
        | some c => exact ⟨c, rfl⟩
      have hca : a.cp = c := by
        have h1 := hl c a hc (List.mem_cons_self ..)
        rw [hc] at hk
        have : ¬ c < a.cp := by simpa [later] using hk
        omega
      obtain ⟨k1, k2, k3⟩ := onePer_ok hs (l := l) (last := last) h.2 (fun c x hc hx => hl c x hc (List.mem_cons_of_mem _ hx))
      refine ⟨fun r hr => ⟨List.mem_cons_of_mem _ (k1 r hr).1, (k1 r hr).2⟩, k2, fun x hx hne => ?_⟩
      rcases List.mem_cons.1 hx with rfl | hx
      · exact absurd (by rw [hc, hca]) hne
      · exact k3 x hx hne

theorem nodup_length_le : ∀ {l m : List Int}, l.Nodup → (∀ x ∈ l, x ∈ m) → l.length ≤ m.length
  | [], m, _, _ => Nat.zero_le _
  | a :: l, m, h, hsub => by
    rw [List.nodup_cons] at h
    have hm := hsub a (List.mem_cons_self ..)
    have := nodup_length_le (l := l) (m := m.erase a) h.2 (fun x hx => by
      have hne : x ≠ a := fun hc => h.1 (hc ▸ hx)
      rw [List.mem_erase_of_ne hne]
      exact hsub x (List.mem_cons_of_mem _ hx))
    rw [List.length_erase_of_mem hm] at this
    have : 0 < m.length := List.length_pos_of_mem hm
    simp only [List.length_cons]
    omega

theorem merge_ok (hs : sc.Lawful) (hsort : SortsBy sc sort) {depth : Nat} {A B R : List (Result σ)}
    (h : BestContainers sc depth A R) : BestContainers sc depth (A ++ B) (mergeResults sort R B depth) := by
  unfold mergeResults
  obtain ⟨u1, u2⟩ := hsort (R ++ B)
  obtain ⟨k1, k2, k3⟩ := onePer_ok hs (byContainer_rows u2) (last := none) (fun c x hc _ => by cases hc)
  have memU : ∀ x, x ∈ byContainer (sort (R ++ B)) ↔ x ∈ R ∨ x ∈ B := fun x => by
    rw [byContainer_mem, u1.mem_iff, List.mem_append]
  generalize onePer none (byContainer (sort (R ++ B))) = M at k1 k2 k3
  obtain ⟨s1, s2⟩ := hsort M
  generalize sort M = S at s1 s2
  have rep : ∀ x, x ∈ R ∨ x ∈ B → ∃ m ∈ S, m.cp = x.cp ∧ sc.gt x.score m.score = false := fun x hx => by
    obtain ⟨r, h1, h2⟩ := k3 x ((memU x).2 hx) (by simp)
    exact ⟨r, s1.mem_iff.2 h1, h2⟩
  have ndS : (S.map (·.cp)).Nodup := (s1.map _).nodup_iff.2 k2
  have cross : ∀ y ∈ S.drop depth, ∀ r ∈ S.take depth, sc.gt y.score r.score = false := by
    intro y hy r hr
    rw [← List.take_append_drop depth S, List.pairwise_append] at s2
    exact s2.2.2 r hr y hy
  refine ⟨List.length_take_le .., fun r hr => ?_, ndS.sublist ((List.take_sublist ..).map _), s2.sublist (List.take_sublist ..), fun x hx => ?_⟩
  · have := (k1 r (s1.mem_iff.1 (List.mem_of_mem_take hr))).1
    rcases (memU r).1 this with hr | hr
    · exact List.mem_append_left _ (h.mem r hr)
    · exact List.mem_append_right _ hr
  · -- something in S that stands for x
    have stand : (∃ m ∈ S, m.cp = x.cp ∧ sc.gt x.score m.score = false) → (∃ r ∈ S.take depth, r.cp = x.cp ∧ sc.gt x.score r.score = false) ∨
        ((S.take depth).length = depth ∧ ∀ r ∈ S.take depth, sc.gt x.score r.score = false) := by
      rintro ⟨m, hm, hc, hg⟩
      rw [← List.take_append_drop depth S, List.mem_append] at hm
      rcases hm with hm | hm
      · exact Or.inl ⟨m, hm, hc, hg⟩
      · refine Or.inr ⟨?_, fun r hr => gt_trans hs hg (cross m hm r hr)⟩
        have : (S.drop depth).length ≠ 0 := by
          intro h0; rw [List.eq_nil_of_length_eq_zero h0] at hm; cases hm
        rw [List.length_drop] at this
        rw [List.length_take]; omega
    rcases List.mem_append.1 hx with hx | hx
    · rcases h.best x hx with ⟨r, hr, hc, hg⟩ | ⟨hl, hall⟩
      · apply stand
        obtain ⟨m, hm, hmc, hmg⟩ := rep r (Or.inl hr)
        exact ⟨m, hm, by rw [hmc, hc], gt_trans hs hg hmg⟩
      · right
        have hsub : ∀ p : Result σ → Bool, (∀ r ∈ R, ∀ m ∈ S, m.cp = r.cp → sc.gt r.score m.score = false → p m = true) →
            depth ≤ S.countP p := by
          intro p hp
          have := nodup_length_le (m := (S.filter p).map (·.cp)) h.apart (fun c hc => by
            obtain ⟨r, hr, rfl⟩ := List.mem_map.1 hc
            obtain ⟨m, hm, hmc, hmg⟩ := rep r (Or.inl hr)
            exact List.mem_map.2 ⟨m, List.mem_filter.2 ⟨hm, hp r hr m hm hmc hmg⟩, hmc⟩)
          rw [List.length_map, List.length_map, hl] at this
          rw [List.countP_eq_length_filter]
          exact this
        have hlen : depth ≤ S.length := Nat.le_trans (hsub (fun _ => true) (fun _ _ _ _ _ _ => rfl)) List.countP_le_length
        have hlt : (S.take depth).length = depth := by rw [List.length_take]; omega
        refine ⟨hlt, fun r hr => ?_⟩
        cases hg : sc.gt x.score r.score with
        | false => rfl
        | true =>
          exfalso
          have c1 := hsub (fun m => sc.gt m.score r.score) (fun r0 hr0 m hm hmc hmg => by
            rcases hs.split (b := m.score) hg with h | h
            · have := gt_trans hs (hall r0 hr0) hmg
              rw [this] at h; cases h
            · exact h)
          rw [← List.take_append_drop depth S, List.countP_append] at c1
          have c2 : (S.drop depth).countP (fun t => sc.gt t.score r.score) = 0 := by
            rw [List.countP_eq_zero]
            intro t ht
            simp [cross t ht r hr]
          have c3 : (S.take depth).countP (fun t => sc.gt t.score r.score) = (S.take depth).length := by
            have : (S.take depth).countP (fun t => sc.gt t.score r.score) ≤ (S.take depth).length := List.countP_le_length
            omega
          rw [List.countP_eq_length] at c3
          have := c3 r hr
          rw [irrefl hs] at this; cases this
    · exact stand (rep x (Or.inr hx))

end

end Verif.Rank
