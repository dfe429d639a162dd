import Verif.Hazel.Merge
import Verif.Hazel.File
namespace Verif.Hazel
open Verif.Hopper Verif.Store

/-! ### running parts of the program -/

/-- from `s`, the part `m` ends in `t` with the value `a`, and wherever it is killed the files
satisfy `Inv` -/
def Does {α : Type} (Inv : FS → Prop) (m : W α) (s : FS) (a : α) (t : FS) : Prop :=
  (∀ c ∈ (m s).crashes, Inv c) ∧ (m s).value = some a ∧ (m s).fs = t

theorem Does.bind {α β : Type} {Inv : FS → Prop} {m : W α} {k : α → W β} {s t u : FS} {a : α} {b : β}
    (h : Does Inv m s a t) (h' : Does Inv (k a) t b u) : Does Inv (m >>= k) s b u := by
  obtain ⟨h1, h2, h3⟩ := h
  have e : (m >>= k) s = ⟨(m s).crashes ++ (k a t).crashes, (k a t).value, (k a t).fs⟩ := by
    show W.bind m k s = _
    unfold W.bind
    simp only [h2, h3]
  unfold Does
  rw [e]
  refine ⟨?_, h'.2.1, h'.2.2⟩
  intro c hc
  rcases List.mem_append.1 hc with hc | hc
  · exact h1 c hc
  · exact h'.1 c hc

theorem Does.pure {α : Type} {Inv : FS → Prop} {s : FS} (h : Inv s) (a : α) : Does Inv (pure a) s a s :=
  ⟨fun c hc => by have : c = s := by simpa [Pure.pure, W.pure] using hc
                  rw [this]; exact h, rfl, rfl⟩

theorem Does.see {α : Type} {Inv : FS → Prop} {s : FS} (h : Inv s) (f : FS → α) : Does Inv (W.see f) s (f s) s :=
  ⟨fun c hc => by have : c = s := by simpa [W.see] using hc
                  rw [this]; exact h, rfl, rfl⟩

theorem Does.step {Inv : FS → Prop} {s : FS} {f : FS → FS} (h : Inv s) (h' : Inv (f s)) :
    Does Inv (W.step f) s () (f s) := by
  refine ⟨fun c hc => ?_, rfl, rfl⟩
  simp only [W.step, List.mem_cons, List.not_mem_nil, or_false] at hc
  rcases hc with rfl | rfl <;> assumption

theorem Does.ofOption {α : Type} {Inv : FS → Prop} {s : FS} (h : Inv s) {o : Option α} {a : α} (ho : o = some a) :
    Does Inv (W.ofOption o) s a s := by subst ho; exact Does.pure h a

/-! ### what a merge writes -/

/-- the features the loop handles, in order -/
def features (rest : List (List Entry)) : List Int :=
  if _h : nextFeature rest = maxfinity then [] else nextFeature rest :: features (advanceAll rest)
termination_by (rest.map List.length).sum
decreasing_by exact advance_sum rest (by assumption)

/-- the postings the loop writes for these features -/
def planOf (pc fc : Codec) (idxs : List HIdx) (lens : List Int) (tcf : Int) (E : Option Posting) :
    List Int → Option (List (Int × Posting))
  | [] => some []
  | f :: fs => do
    let P ← featurePosting pc fc idxs lens tcf E f
    let rest ← planOf pc fc idxs lens tcf E fs
    match P with
    | none => return rest
    | some P => if P.size = 0 then return rest else return (P.feature, P) :: rest

/-- the erasures, as written -/
def nullPart (E : Option Posting) : List (Int × Posting) := match E with
  | none => []
  | some E => if E.size = 0 then [] else [(E.feature, E)]

/-! #### the order of the features -/

abbrev Sorted (d : List Entry) : Prop := d.Pairwise fun a b => a.feature < b.feature

theorem nextFeature_le {rest : List (List Entry)} : nextFeature rest ≤ maxfinity := (foldl_min_le rest maxfinity).1

theorem nextFeature_head : ∀ {rest : List (List Entry)} {d : List Entry} {e : Entry}, d ∈ rest → d.head? = some e →
    nextFeature rest ≤ e.feature := by
  unfold nextFeature
  generalize maxfinity = m
  intro rest
  induction rest generalizing m with
  | nil => intro d e h; simp at h
  | cons x rest ih =>
    intro d e hd he
    simp only [List.foldl_cons]
    rcases List.mem_cons.1 hd with rfl | hd
    · rw [he]
      have := (foldl_min_le rest (min m e.feature)).1
      simp only
      omega
    · exact ih _ hd he

theorem advance_sorted {f : Int} {d : List Entry} (h : Sorted d) : Sorted (advance f d) := by
  unfold advance
  cases d with
  | nil => simp
  | cons e d =>
    simp only
    split
    · exact (List.pairwise_cons.1 h).2
    · exact h

/-- past the directories' next feature, all features are larger -/
theorem advance_head {rest : List (List Entry)} (hs : ∀ d ∈ rest, Sorted d) {d : List Entry} (hd : d ∈ rest) :
    ∀ e ∈ advance (nextFeature rest) d, nextFeature rest < e.feature := by
  intro e he
  cases d with
  | nil => simp [advance] at he
  | cons x d =>
    have hx := nextFeature_head hd (e := x) rfl
    have hp := List.pairwise_cons.1 (hs _ hd)
    unfold advance at he
    simp only at he
    split at he
    · rename_i h; have := hp.1 e he; omega
    · rcases List.mem_cons.1 he with rfl | he
      · omega
      · have := hp.1 e he; omega

theorem features_gt {b : Int} (n : Nat) : ∀ {rest : List (List Entry)}, (rest.map List.length).sum = n →
    (∀ d ∈ rest, Sorted d) → (∀ d ∈ rest, ∀ e ∈ d, b < e.feature) →
    (features rest).Pairwise (· < ·) ∧ ∀ f ∈ features rest, b < f ∧ f < maxfinity := by
  induction n using Nat.strongRecOn generalizing b with
  | ind n ih =>
    intro rest hn hs hb
    rw [features]
    split
    · simp
    · rename_i h
      have hlt := advance_sum rest h
      obtain ⟨h1, h2⟩ := ih (b := nextFeature rest) _ (hn ▸ hlt) (rest := advanceAll rest) rfl (by
        intro d hd
        obtain ⟨d', hd', rfl⟩ := List.mem_map.1 hd
        exact advance_sorted (hs d' hd')) (by
        intro d hd
        obtain ⟨d', hd', rfl⟩ := List.mem_map.1 hd
        exact advance_head hs hd')
      have h0 : b < nextFeature rest := by
        obtain ⟨d, hd, e, he, hf⟩ := nextFeature_mem h
        rw [← hf]
        exact hb d hd e (List.mem_of_mem_head? he)
      have := nextFeature_le (rest := rest)
      refine ⟨List.pairwise_cons.2 ⟨fun f hf => (h2 f hf).1, h1⟩, ?_⟩
      intro f hf
      rcases List.mem_cons.1 hf with rfl | hf
      · omega
      · have := h2 f hf; omega

theorem dropWhile_id {α : Type} {p : α → Bool} {l : List α} (h : ∀ a ∈ l.head?, p a = false) : l.dropWhile p = l := by
  cases l with
  | nil => rfl
  | cons a l => simp [List.dropWhile_cons, h a rfl]

abbrev past (f : Int) (d : List Entry) : List Entry := d.dropWhile fun e => e.feature ≤ f

theorem past_sorted {f : Int} {d : List Entry} (h : Sorted d) : Sorted (past f d) :=
  h.sublist (List.dropWhile_sublist _)

theorem past_gt {f : Int} {d : List Entry} (h : Sorted d) : ∀ e ∈ past f d, f < e.feature := by
  induction d with
  | nil => simp
  | cons x d ih =>
    intro e he
    have hp := List.pairwise_cons.1 h
    unfold past at he
    rw [List.dropWhile_cons] at he
    split at he
    · exact ih hp.2 e he
    · rename_i hx
      have hx : f < x.feature := by simpa using hx
      rcases List.mem_cons.1 he with rfl | he
      · exact hx
      · have := hp.1 e he; omega

/-- skipping what is done skips the same features -/
theorem features_past {f : Int} (hf : f < maxfinity) (n : Nat) : ∀ {rest : List (List Entry)},
    (rest.map List.length).sum = n → (∀ d ∈ rest, Sorted d) →
    features (rest.map (past f)) = (features rest).dropWhile (· ≤ f) := by
  induction n using Nat.strongRecOn with
  | ind n ih =>
    intro rest hn hs
    by_cases hlt : f < nextFeature rest
    · have e1 : rest.map (past f) = rest := by
        conv => rhs; rw [← List.map_id rest]
        apply List.map_congr_left
        intro d hd
        apply dropWhile_id
        intro e he
        have := nextFeature_head hd (e := e) he
        simp only [decide_eq_false_iff_not]; omega
      rw [e1, dropWhile_id]
      intro a ha
      rw [features] at ha
      split at ha
      · simp at ha
      · simp at ha; subst ha; simp; omega
    · have h : nextFeature rest ≠ maxfinity := by omega
      have e1 : rest.map (past f) = (advanceAll rest).map (past f) := by
        unfold advanceAll
        rw [List.map_map]
        apply List.map_congr_left
        intro d hd
        cases d with
        | nil => rfl
        | cons x d =>
          simp only [Function.comp, advance]
          split
          · rename_i hx
            unfold past
            rw [List.dropWhile_cons, if_pos (by simp; omega)]
          · rfl
      rw [e1, ih _ (hn ▸ advance_sum rest h) rfl (by
        intro d hd
        obtain ⟨d', hd', rfl⟩ := List.mem_map.1 hd
        exact advance_sorted (hs d' hd'))]
      conv => rhs; rw [features, dif_neg h, List.dropWhile_cons, if_pos (by simp; omega)]

theorem past_past {f g : Int} (h : f ≤ g) (d : List Entry) : past g (past f d) = past g d := by
  induction d with
  | nil => rfl
  | cons x d ih =>
    unfold past at *
    by_cases hx : x.feature ≤ f
    · rw [List.dropWhile_cons (x := x) (xs := d) (p := fun e => decide (e.feature ≤ f)), if_pos (by simpa using hx), ih]
      rw [List.dropWhile_cons, if_pos (by simp; omega)]
    · rw [List.dropWhile_cons (x := x) (xs := d) (p := fun e => decide (e.feature ≤ f)), if_neg (by simpa using hx)]

/-! #### the plan -/

theorem postingAt_feature {pc fc : Codec} {H : HIdx} {i : Nat} {e : Entry} {P : Posting} (he : H.dir[i]? = some e)
    (h : H.postingAt pc fc i = some P) : P.feature = e.feature := by
  unfold HIdx.postingAt at h
  rw [he] at h
  dsimp only at h
  split at h
  · cases h; rfl
  · split at h
    · cases h
    · split at h
      · split at h
        · rename_i hD; cases h; exact hD
        · cases h
      · cases h

theorem locate_feature {d : List Entry} {f : Int} {i : Nat} (h : locate d f = some i) :
    ∃ e, d[i]? = some e ∧ e.feature = f := by
  unfold locate at h
  dsimp only at h
  split at h
  · rename_i e he
    split at h
    · cases h
    · rename_i hf
      cases h
      exact ⟨e, he, Classical.byContradiction fun h => hf h⟩
  · cases h

theorem postingsFor_feature {pc fc : Codec} {f : Int} : ∀ {idxs : List HIdx} {Ps : List Posting},
    postingsFor pc fc idxs f = some Ps → ∀ P ∈ Ps, P.feature = f := by
  intro idxs
  induction idxs with
  | nil => intro Ps h; cases h; simp
  | cons H idxs ih =>
    intro Ps h
    unfold postingsFor at h
    split at h
    · exact ih h
    · rename_i i hi
      simp only [Option.bind_eq_bind, Option.bind_eq_some_iff] at h
      obtain ⟨P, hP, Ps', hPs, h⟩ := h
      cases h
      obtain ⟨e, he, hf⟩ := locate_feature hi
      intro Q hQ
      rcases List.mem_cons.1 hQ with rfl | hQ
      · rw [postingAt_feature he hP, hf]
      · exact ih hPs Q hQ

theorem pushAll_feature (l : List Ann) : ∀ P : Posting, (l.foldl Posting.push P).feature = P.feature := by
  induction l with
  | nil => intro P; rfl
  | cons a l ih => intro P; rw [List.foldl_cons, ih]; rfl

theorem keepRising_feature (l : List (Nat × Ann)) : ∀ (k : Int) (P : Posting), (keepRising k P l).feature = P.feature := by
  induction l with
  | nil => intro k P; rfl
  | cons a l ih =>
    intro k P
    obtain ⟨i, a⟩ := a
    rw [keepRising]
    split
    · rw [ih]; rfl
    · rw [ih]

theorem mergePostings_feature {Ps : List Posting} {R : Posting} {f : Int} (h : mergePostings Ps = some R)
    (hf : ∀ P ∈ Ps, P.feature = f) : R.feature = f := by
  unfold mergePostings at h
  split at h
  · cases h
  · cases h; exact hf _ (by simp)
  · rename_i P _ _
    split at h
    · cases h
      have : ∀ (Qs : List Posting) (acc : Posting),
          (Qs.foldl (fun acc Q => Q.anns.foldl Posting.push acc) acc).feature = acc.feature := by
        intro Qs
        induction Qs with
        | nil => intro acc; rfl
        | cons Q Qs ih => intro acc; rw [List.foldl_cons, ih, pushAll_feature]
      rw [this]
      exact hf P (by simp)
    · cases h
      rw [keepRising_feature]
      exact hf P (by simp)

theorem keepOutside_feature {X : Obj} (l : List (Nat × Ann)) : ∀ (k px qx : Int) (P R : Posting) (s t : X.σ),
    keepOutside X k px qx P l s = some (R, t) → R.feature = P.feature := by
  induction l with
  | nil => intro k px qx P R s t h; cases h; rfl
  | cons a l ih =>
    obtain ⟨i, a⟩ := a
    intro k px qx P R s t h
    rw [keepOutside] at h
    split at h
    · simp only [bind, StateT.bind, Option.bind_eq_some_iff] at h
      obtain ⟨⟨⟨px', qx'⟩, s'⟩, _, h⟩ := h
      have := ih _ _ _ _ _ _ _ h
      rw [this]
      split <;> rfl
    · exact ih _ _ _ _ _ _ _ h

theorem mergeExcluding_feature {Ps : List Posting} {E : Option Posting} {R : Posting} {f : Int}
    (h : mergeExcluding Ps E = some (some R)) (hf : ∀ P ∈ Ps, P.feature = f) : R.feature = f := by
  unfold mergeExcluding at h
  split at h
  · cases h
  · rename_i P _
    split at h
    · exact mergePostings_feature (Option.some.inj h) hf
    · split at h
      · exact mergePostings_feature (Option.some.inj h) hf
      · simp only [Option.bind_eq_bind, Option.bind_eq_some_iff] at h
        obtain ⟨⟨R', t⟩, h1, h⟩ := h
        have h1 := keepOutside_feature _ _ _ _ _ _ _ _ h1
        simp only [Option.pure_def, Option.some.injEq] at h
        split at h
        · cases h
        · cases h
          rw [h1]; exact hf P (by simp)

theorem pushChunks_feature {pc fc : Codec} {tcf : Int} : ∀ {l : List (HIdx × Int)} {P R : Posting},
    pushChunks pc fc tcf l P = some R → R.feature = P.feature := by
  intro l
  induction l with
  | nil => intro P R h; cases h; rfl
  | cons x l ih =>
    obtain ⟨H, base⟩ := x
    intro P R h
    unfold pushChunks at h
    split at h
    · exact ih h
    · simp only [Option.bind_eq_bind, Option.bind_eq_some_iff] at h
      obtain ⟨S, _, h⟩ := h
      rw [ih h]
      generalize S.anns = as
      clear h
      induction as generalizing P with
      | nil => rfl
      | cons a as ih2 => rw [List.foldl_cons, ih2]; rfl

theorem featurePosting_feature {pc fc : Codec} {idxs : List HIdx} {lens : List Int} {tcf : Int} {E : Option Posting}
    {f : Int} {R : Posting} (h : featurePosting pc fc idxs lens tcf E f = some (some R)) : R.feature = f := by
  unfold featurePosting at h
  split at h
  · rename_i hf
    simp only [Option.bind_eq_bind, Option.bind_eq_some_iff] at h
    obtain ⟨P, h1, h⟩ := h
    split at h
    · cases h
    · cases h; rw [pushChunks_feature h1, hf]
  · simp only [Option.bind_eq_bind, Option.bind_eq_some_iff] at h
    obtain ⟨Ps, h1, h⟩ := h
    exact mergeExcluding_feature h (postingsFor_feature h1)

section
variable {pc fc : Codec} {idxs : List HIdx} {lens : List Int} {tcf : Int} {E : Option Posting}

theorem planOf_cons {f : Int} {fs : List Int} {m : List (Int × Posting)}
    (h : planOf pc fc idxs lens tcf E (f :: fs) = some m) :
    ∃ P rest, featurePosting pc fc idxs lens tcf E f = some P ∧ planOf pc fc idxs lens tcf E fs = some rest ∧
      ((m = rest ∧ ∀ Q, P = some Q → Q.size = 0) ∨ ∃ Q, P = some Q ∧ Q.size ≠ 0 ∧ Q.feature = f ∧ m = (f, Q) :: rest) := by
  unfold planOf at h
  simp only [Option.bind_eq_bind, Option.bind_eq_some_iff] at h
  obtain ⟨P, h1, rest, h2, h⟩ := h
  refine ⟨P, rest, h1, h2, ?_⟩
  cases P with
  | none => cases h; exact Or.inl ⟨rfl, fun Q hQ => by cases hQ⟩
  | some Q =>
    dsimp only at h
    split at h
    · rename_i h0; cases h; exact Or.inl ⟨rfl, fun Q' hQ => by cases hQ; exact h0⟩
    · rename_i h0
      have hf := featurePosting_feature h1
      cases h
      exact Or.inr ⟨Q, rfl, h0, hf, by rw [hf]⟩

theorem planOf_mem : ∀ {fs : List Int} {m : List (Int × Posting)}, planOf pc fc idxs lens tcf E fs = some m →
    ∀ x ∈ m, x.1 ∈ fs ∧ x.2.feature = x.1 ∧ x.2.size ≠ 0 ∧ featurePosting pc fc idxs lens tcf E x.1 = some (some x.2) := by
  intro fs
  induction fs with
  | nil => intro m h; cases h; simp
  | cons f fs ih =>
    intro m h
    obtain ⟨P, rest, h1, h2, h3⟩ := planOf_cons h
    have ih := ih h2
    rcases h3 with ⟨rfl, _⟩ | ⟨Q, hQ, h0, hf, rfl⟩
    · intro x hx; obtain ⟨a, b⟩ := ih x hx; exact ⟨by simp [a], b⟩
    · intro x hx
      rcases List.mem_cons.1 hx with rfl | hx
      · exact ⟨by simp, hf, h0, by rw [h1, hQ]⟩
      · obtain ⟨a, b⟩ := ih x hx; exact ⟨by simp [a], b⟩

theorem planOf_sorted : ∀ {fs : List Int} {m : List (Int × Posting)}, planOf pc fc idxs lens tcf E fs = some m →
    fs.Pairwise (· < ·) → m.Pairwise (fun a b => a.1 < b.1) := by
  intro fs
  induction fs with
  | nil => intro m h _; cases h; simp
  | cons f fs ih =>
    intro m h hs
    obtain ⟨P, rest, h1, h2, h3⟩ := planOf_cons h
    have hp := List.pairwise_cons.1 hs
    have ih := ih h2 hp.2
    rcases h3 with ⟨rfl, _⟩ | ⟨Q, _, h0, hf, rfl⟩
    · exact ih
    · exact List.pairwise_cons.2 ⟨fun x hx => hp.1 _ (planOf_mem h2 x hx).1, ih⟩

theorem planOf_drop {g : Int} : ∀ {fs : List Int} {m : List (Int × Posting)}, planOf pc fc idxs lens tcf E fs = some m →
    fs.Pairwise (· < ·) →
    planOf pc fc idxs lens tcf E (fs.dropWhile (· ≤ g)) = some (m.dropWhile fun x => x.1 ≤ g) := by
  intro fs
  induction fs with
  | nil => intro m h _; cases h; rfl
  | cons f fs ih =>
    intro m h hs
    have hp := List.pairwise_cons.1 hs
    by_cases hfg : f ≤ g
    · obtain ⟨P, rest, h1, h2, h3⟩ := planOf_cons h
      rw [List.dropWhile_cons, if_pos (by simpa using hfg), ih h2 hp.2]
      rcases h3 with ⟨rfl, _⟩ | ⟨Q, _, h0, hf, rfl⟩
      · rfl
      · rw [List.dropWhile_cons, if_pos (by simpa using hfg)]
    · rw [List.dropWhile_cons, if_neg (by simpa using hfg), h, dropWhile_id]
      intro x hx
      have := (planOf_mem h x (List.mem_of_mem_head? hx)).1
      simp only [decide_eq_false_iff_not]
      rcases List.mem_cons.1 this with h | h
      · omega
      · have := hp.1 _ h; omega

end

end Verif.Hazel
