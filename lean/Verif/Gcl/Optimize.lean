import Verif.Gcl.Proof
/-
  The optimizer keeps the meaning of every legal query.
-/
namespace Verif.Gcl
open Verif.Hopper

theorem cloneL_eq (l : List SExpr) : cloneL l = l.map clone := by
  induction l with
  | nil => rfl
  | cons e es ih => simp [cloneL, ih]

theorem clone_eq (e : SExpr) : clone e = e := by
  induction e using SExpr.ind with
  | h k t w sub ih =>
    rw [clone, cloneL_eq]
    congr 1
    rw [show sub = sub.map id by simp]
    simp only [List.map_map]
    apply List.map_congr_left
    intro x hx
    simpa using ih x hx

theorem collectL_some : ∀ {l : List SExpr} {atoms}, collectL l = some atoms →
    ∃ f : SExpr → List SExpr, (∀ e ∈ l, collect e = some (f e)) ∧ atoms = l.flatMap f
  | [], atoms, h => by
    simp [collectL] at h; subst h
    exact ⟨fun _ => [], by simp, rfl⟩
  | e :: es, atoms, h => by
    rw [collectL] at h
    match h1 : collect e, h2 : collectL es with
    | none, _ => simp [h1] at h
    | some a, none => simp [h1, h2] at h
    | some a, some b =>
      simp [h1, h2] at h
      obtain ⟨f, hf, hb⟩ := collectL_some h2
      refine ⟨fun x => (collect x).getD [], ?_, ?_⟩
      · intro x hx
        rcases List.mem_cons.1 hx with rfl | hx
        · simp [h1]
        · simp [hf x hx]
      · rw [← h, hb, List.flatMap_cons, h1]
        simp only [Option.getD_some]
        congr 1
        rw [List.flatMap_def, List.flatMap_def, List.map_congr_left]
        intro x hx; simp [hf x hx]

section
variable {T : List Char → GC}

/-- `[p,q]` is an interval of addresses with a solution of `S` inside -/
def has (S : GC) (p q : Int) : Prop := ∃ a, S a ∧ p ≤ a.p ∧ a.q ≤ q

theorem collect_has (_hT : ∀ t, Wf (T t)) : ∀ (x : SExpr) (atoms : List SExpr), Legal x →
    collect x = some atoms →
    (∀ a ∈ atoms, Legal a) ∧
    (∀ p q, p ≤ q → minfinity < p → q < maxfinity →
      (has (den T x) p q ↔ ∀ a ∈ atoms, has (den T a) p q)) ∧
    (2 ≤ atoms.length → den T x = minimal (coversAll (atoms.map (den T)))) := by
  intro x
  induction x using SExpr.ind with
  | h k t w sub ih =>
    intro atoms hl hc
    have hlc : ∀ e ∈ sub, Legal e := by rw [Legal, legalL_iff] at hl; exact hl.2
    rw [collect] at hc
    by_cases hk : k = .allOf
    · subst hk
      simp only [if_true] at hc
      split at hc
      · simp at hc
      · rename_i hne
        obtain ⟨f, hf, rfl⟩ := collectL_some hc
        have hsub := fun e he => ih e he (f e) (hlc e he) (hf e he)
        have hcov : ∀ p q, coversAll (sub.map (den T)) p q ↔
            coversAll ((sub.flatMap f).map (den T)) p q := by
          intro p q
          constructor
          · rintro ⟨h1, h2, h3, h4⟩
            refine ⟨h1, h2, h3, ?_⟩
            intro S hS
            obtain ⟨a, ha, rfl⟩ := List.mem_map.1 hS
            obtain ⟨e, he, hae⟩ := List.mem_flatMap.1 ha
            exact ((hsub e he).2.1 p q h1 h2 h3).1 (h4 _ (List.mem_map_of_mem he)) a hae
          · rintro ⟨h1, h2, h3, h4⟩
            refine ⟨h1, h2, h3, ?_⟩
            intro S hS
            obtain ⟨e, he, rfl⟩ := List.mem_map.1 hS
            refine ((hsub e he).2.1 p q h1 h2 h3).2 fun a ha => ?_
            exact h4 _ (List.mem_map_of_mem (List.mem_flatMap.2 ⟨e, he, ha⟩))
        refine ⟨?_, ?_, ?_⟩
        · intro a ha
          obtain ⟨e, he, hae⟩ := List.mem_flatMap.1 ha
          exact (hsub e he).1 a hae
        · intro p q h1 h2 h3
          match sub, hsub, hcov, hne with
          | [], _, _, hne => simp at hne
          | [e], hsub, _, _ =>
            have := (hsub e (by simp)).2.1 p q h1 h2 h3
            simpa [den, denL, opMeaning] using this
          | a :: b :: ss, _, hcov, _ =>
            have hd : den T (.node .allOf t w (a :: b :: ss)) =
                minimal (coversAll ((a :: b :: ss).map (den T))) := by
              simp only [den, denL, denL_eq, opMeaning, List.map_cons]
            rw [hd]
            constructor
            · rintro ⟨r, hr, h5, h6⟩ x hx
              obtain ⟨_, _, _, h4⟩ := (hcov r.p r.q).1 hr.2.1
              obtain ⟨y, hy, h7, h8⟩ := h4 _ (List.mem_map_of_mem hx)
              exact ⟨y, hy, by omega, by omega⟩
            · intro h
              have hX : coversAll ((a :: b :: ss).map (den T)) p q := by
                rw [hcov]
                refine ⟨h1, h2, h3, fun S hS => ?_⟩
                obtain ⟨x, hx, rfl⟩ := List.mem_map.1 hS
                exact h x hx
              obtain ⟨r, hr, h5, h6⟩ := exists_minimal (coversAll_wf _) hX
              exact ⟨r, hr, h5, h6⟩
        · intro hlen
          match sub, hsub, hcov, hlen with
          | [], _, _, hlen => simp at hlen
          | [e], hsub, _, hlen =>
            have := (hsub e (by simp)).2.2 (by simpa using hlen)
            simpa [den, denL, opMeaning] using this
          | a :: b :: ss, _, hcov, _ =>
            have hd : den T (.node .allOf t w (a :: b :: ss)) =
                minimal (coversAll ((a :: b :: ss).map (den T))) := by
              simp only [den, denL, denL_eq, opMeaning, List.map_cons]
            rw [hd]
            congr 1
            funext p q
            exact propext (hcov p q)
    · rw [if_neg hk] at hc
      split at hc
      · simp at hc; subst hc
        refine ⟨by simpa using hl, by simp, by simp⟩
      · simp at hc

theorem mem_insertBy {c : SExpr → Int} {x y : SExpr} : ∀ {l}, y ∈ insertBy c x l ↔ y = x ∨ y ∈ l := by
  intro l
  induction l with
  | nil => simp [insertBy]
  | cons z zs ih =>
    unfold insertBy
    split
    · simp
    · simp [ih]
      constructor
      · rintro (h | h | h) <;> simp [h]
      · rintro (h | h | h) <;> simp [h]

theorem length_insertBy {c : SExpr → Int} {x : SExpr} : ∀ {l}, (insertBy c x l).length = l.length + 1 := by
  intro l
  induction l with
  | nil => simp [insertBy]
  | cons z zs ih =>
    unfold insertBy
    split <;> simp [ih]

theorem mem_sortBy {c : SExpr → Int} {y : SExpr} : ∀ {l}, y ∈ sortBy c l ↔ y ∈ l := by
  intro l
  induction l with
  | nil => simp [sortBy]
  | cons z zs ih =>
    show y ∈ insertBy c z (sortBy c zs) ↔ _
    rw [mem_insertBy, ih]; simp

theorem length_sortBy {c : SExpr → Int} : ∀ {l}, (sortBy c l).length = l.length := by
  intro l
  induction l with
  | nil => simp [sortBy]
  | cons z zs ih =>
    show (insertBy c z (sortBy c zs)).length = _
    rw [length_insertBy, ih]; simp

/-- filtering early by a container does not change the answer -/
theorem early_filter {D S : GC} {l : List GC} :
    containedIn (minimal (coversAll [containedIn (minimal (coversAll l)) D, S])) D =
      containedIn (minimal (coversAll (l ++ [S]))) D := by
  have cov : ∀ (d : Ann), D d → ∀ p q, d.p ≤ p → q ≤ d.q →
      (coversAll [containedIn (minimal (coversAll l)) D, S] p q ↔ coversAll (l ++ [S]) p q) := by
    intro d hd p q hp hq
    constructor
    · rintro ⟨h1, h2, h3, h4⟩
      refine ⟨h1, h2, h3, fun X hX => ?_⟩
      rcases List.mem_append.1 hX with hX | hX
      · obtain ⟨y, hy, a, b⟩ := h4 _ List.mem_cons_self
        obtain ⟨_, _, _, hy4⟩ := hy.1.2.1
        obtain ⟨z, hz, c, d⟩ := hy4 X hX
        exact ⟨z, hz, by omega, by omega⟩
      · simp at hX; subst hX; exact h4 X (by simp)
    · rintro ⟨h1, h2, h3, h4⟩
      refine ⟨h1, h2, h3, fun X hX => ?_⟩
      rcases List.mem_cons.1 hX with rfl | hX
      · have hX : coversAll l p q := ⟨h1, h2, h3, fun X hX => h4 X (by simp [hX])⟩
        obtain ⟨r, hr, a, b⟩ := exists_minimal (coversAll_wf _) hX
        exact ⟨r, ⟨hr, d, hd, by omega, by omega⟩, a, b⟩
      · exact h4 X (by simp at hX; simp [hX])
  funext r
  apply propext
  constructor
  · rintro ⟨⟨hv, hX, hm⟩, d, hd, h1, h2⟩
    refine ⟨⟨hv, (cov d hd _ _ h1 h2).1 hX, fun p q hpq a b => ?_⟩, d, hd, h1, h2⟩
    exact hm p q ((cov d hd p q (by omega) (by omega)).2 hpq) a b
  · rintro ⟨⟨hv, hX, hm⟩, d, hd, h1, h2⟩
    refine ⟨⟨hv, (cov d hd _ _ h1 h2).2 hX, fun p q hpq a b => ?_⟩, d, hd, h1, h2⟩
    exact hm p q ((cov d hd p q (by omega) (by omega)).1 hpq) a b

theorem den_step (d a b : SExpr) : den T (step d a b) =
    containedIn (minimal (coversAll [den T a, den T b])) (den T d) := by
  funext x
  simp [step, den, denL, opMeaning, clone_eq, containedIn]

theorem legal_step {d a b : SExpr} (hd : Legal d) (ha : Legal a) (hb : Legal b) : Legal (step d a b) := by
  simp [step, Legal, LegalL, arityOk, clone_eq, hd, ha, hb]

theorem rewrite_ok (hT : ∀ t, Wf (T t)) (count : List Char → Int) (e : SExpr) (hl : Legal e) :
    Legal (rewrite count e) ∧ den T (rewrite count e) = den T e := by
  unfold rewrite
  split
  · rename_i t w x d
    have hlc : Legal x ∧ Legal d := by rw [Legal, legalL_iff] at hl; simpa using hl.2
    split
    · split
      · exact ⟨hl, rfl⟩
      · rename_i atoms hc
        split
        · exact ⟨hl, rfl⟩
        · rename_i hlen
          obtain ⟨hla, _, hden⟩ := collect_has hT x atoms hlc.1 hc
          split
          · rename_i s0 s1 rest hs
            have hmem : ∀ y, y ∈ s0 :: s1 :: rest ↔ y ∈ atoms := fun y => by rw [← hs, mem_sortBy]
            have key : ∀ (rest : List SExpr) (cur : SExpr) (pre : List SExpr), Legal cur →
                (∀ y ∈ rest, Legal y) →
                den T cur = containedIn (minimal (coversAll (pre.map (den T)))) (den T d) →
                Legal (rest.foldl (fun cur s => step d cur (clone s)) cur) ∧
                den T (rest.foldl (fun cur s => step d cur (clone s)) cur) =
                  containedIn (minimal (coversAll ((pre ++ rest).map (den T)))) (den T d) := by
              intro rest
              induction rest with
              | nil => intro cur pre hc _ hd; simpa using ⟨hc, hd⟩
              | cons y ys ih =>
                intro cur pre hc hys hd
                rw [List.foldl_cons, show pre ++ y :: ys = (pre ++ [y]) ++ ys by simp]
                refine ih _ _ ?_ (fun z hz => hys z (List.mem_cons_of_mem _ hz)) ?_
                · rw [clone_eq]; exact legal_step hlc.2 hc (hys y (by simp))
                · rw [clone_eq, den_step, hd, early_filter]; simp
            have hall : ∀ y ∈ s0 :: s1 :: rest, Legal y := fun y hy => hla y ((hmem y).1 hy)
            obtain ⟨k1, k2⟩ := key rest (step d (clone s0) (clone s1)) [s0, s1]
              (by rw [clone_eq, clone_eq]; exact legal_step hlc.2 (hall s0 (by simp)) (hall s1 (by simp)))
              (fun y hy => hall y (by simp [hy])) (by rw [den_step, clone_eq, clone_eq]; rfl)
            refine ⟨k1, ?_⟩
            rw [k2]
            have hcov : coversAll (([s0, s1] ++ rest).map (den T)) = coversAll (atoms.map (den T)) := by
              funext p q
              simp only [coversAll, List.mem_map, forall_exists_index, and_imp, forall_apply_eq_imp_iff₂]
              apply propext
              constructor
              · rintro ⟨h1, h2, h3, h4⟩
                exact ⟨h1, h2, h3, fun a ha => h4 a ((hmem a).2 ha)⟩
              · rintro ⟨h1, h2, h3, h4⟩
                exact ⟨h1, h2, h3, fun a ha => h4 a ((hmem a).1 ha)⟩
            rw [hcov, ← hden (by omega)]
            funext a
            simp [den, denL, opMeaning, containedIn]
          · exact ⟨hl, rfl⟩
    · exact ⟨hl, rfl⟩
  · exact ⟨hl, rfl⟩

theorem optimizeL_eq (count : List Char → Int) (l : List SExpr) :
    optimizeL count l = l.map (optimize count) := by
  induction l with
  | nil => rfl
  | cons e es ih => simp [optimizeL, ih]

theorem optimize_ok (hT : ∀ t, Wf (T t)) (count : List Char → Int) :
    ∀ e, Legal e → Legal (optimize count e) ∧ den T (optimize count e) = den T e := by
  intro e
  induction e using SExpr.ind with
  | h k t w sub ih =>
    intro hl
    have hl' := hl
    rw [Legal, legalL_iff] at hl'
    have h1 : Legal (.node k t w (sub.map (optimize count))) := by
      rw [Legal, legalL_iff]
      refine ⟨by simpa using hl'.1, fun e he => ?_⟩
      obtain ⟨x, hx, rfl⟩ := List.mem_map.1 he
      exact (ih x hx (hl'.2 x hx)).1
    have h2 : den T (.node k t w (sub.map (optimize count))) = den T (.node k t w sub) := by
      rw [den, den, denL_eq, denL_eq, List.map_map]
      congr 1
      apply List.map_congr_left
      intro x hx
      exact (ih x hx (hl'.2 x hx)).2
    rw [optimize, optimizeL_eq, ← h2]
    exact rewrite_ok hT count _ h1
end

end Verif.Gcl
