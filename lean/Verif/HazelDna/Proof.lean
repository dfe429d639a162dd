import Verif.HazelDna.Spec
import Verif.Dna.Proof
import Verif.Hazel.File
/-
  Lemmas for C76.
-/
namespace Verif.HazelDna
open Verif.Recipe Verif.Dna Verif.Hopper

theorem same_symm {a b : Str} (h : Same a b) : Same b a := by
  induction h with
  | leaf e => exact .leaf e
  | node e1 e2 hk _ ih => exact .node e2 e1 hk.symm fun k w w' g1 g2 => ih k w' w g2 g1

theorem mapSame_symm {m m' : Map} (h : MapSame m m') : MapSame m' m :=
  ⟨h.1.symm, fun k w w' g1 g2 => same_symm (h.2 k w' w g2 g1)⟩

theorem same_maps {v v' : Str} {p p' : Map} (h : Same v v') (c : cook v = some p) (c' : cook v' = some p') : MapSame p p' := by
  cases h with
  | leaf e => rw [c] at e; cases e
  | node d1 d2 d3 d4 =>
    rw [c] at d1; rw [c'] at d2
    cases d1; cases d2
    exact ⟨d3, d4⟩

theorem sameAnswer_symm {a b : Option Str} (h : SameAnswer a b) : SameAnswer b a := by
  rcases h with ⟨h1, h2⟩ | ⟨w, w', h1, h2, h3⟩
  · exact .inl ⟨h2, h1⟩
  · exact .inr ⟨w', w, h2, h1, same_symm h3⟩

/-! ### values that mean the same are written the same way -/

theorem dumpWith_same {f g : Str → Str} {p p' : Map} (hk : p.map (·.1) = p'.map (·.1))
    (h : ∀ k w w', (k, w) ∈ p → (k, w') ∈ p' → f w = g w') (hp : GoodMap p) (hp' : GoodMap p') (d : Nat) :
    dumpWith f p d = dumpWith g p' d := by
  have body : ∀ l l' : Map, l.map (·.1) = l'.map (·.1) → (∀ x ∈ l, x ∈ p) → (∀ x ∈ l', x ∈ p') →
      l.flatMap (fun kv => indent (d + 1) ++ kv.1 ++ [0x3A] ++ f kv.2 ++ [0x0A]) =
      l'.flatMap (fun kv => indent (d + 1) ++ kv.1 ++ [0x3A] ++ g kv.2 ++ [0x0A]) := by
    intro l
    induction l with
    | nil =>
      intro l' e _ _
      cases l' with
      | nil => rfl
      | cons _ _ => simp at e
    | cons x l ih =>
      intro l' e h1 h2
      cases l' with
      | nil => simp at e
      | cons x' l' =>
        simp only [List.map_cons, List.cons.injEq] at e
        rw [List.flatMap_cons, List.flatMap_cons, ih l' e.2 (fun y hy => h1 y (List.mem_cons_of_mem _ hy))
          (fun y hy => h2 y (List.mem_cons_of_mem _ hy))]
        have hx := h1 x (List.mem_cons_self ..)
        have hx' := h2 x' (List.mem_cons_self ..)
        rw [h x.1 x.2 x'.2 hx (by rw [e.1]; exact hx'), e.1]
  cases p with
  | nil =>
    cases p' with
    | nil => rfl
    | cons _ _ => simp at hk
  | cons x p =>
    cases p' with
    | nil => simp at hk
    | cons x' p' =>
      unfold dumpWith
      simp only
      rw [body _ _ hk (fun _ h => h) (fun _ h => h)]

theorem dumpVal_same {v v' : Str} (h : Same v v') : ∀ {n k d : Nat}, v.length < n → v'.length < k →
    dumpVal n v d = dumpVal k v' d := by
  induction h with
  | leaf e => intro n k d h1 h2; exact dumpVal_more h1 h2
  | @node v v' p p' e1 e2 hk hv ih =>
    intro n k d h1 h2
    cases n with
    | zero => omega
    | succ n =>
      cases k with
      | zero => omega
      | succ k =>
        unfold dumpVal
        rw [e1, e2]
        simp only
        congr 1
        have g1 := cook_good e1
        have g2 := cook_good e2
        apply dumpWith_same hk ?_ g1.1 g2.1
        intro x w w' m1 m2
        have l1 := g1.2 _ m1
        have l2 := g2.2 _ m2
        simp only at l1 l2
        exact ih x w w' (mem_find g1.1 m1) (mem_find g2.1 m2) (by omega) (by omega)

theorem freeze_same {m m' : Map} (hm : GoodMap m) (hm' : GoodMap m') (h : MapSame m m') : freeze m = freeze m' := by
  unfold freeze
  congr 1
  apply dumpWith_same h.1 ?_ hm hm'
  intro k w w' m1 m2
  exact dumpVal_same (h.2 k w w' (mem_find hm m1) (mem_find hm' m2)) (by omega) (by omega)

/-- Maps with the same answers have the same keys. -/
theorem keys_same : ∀ {m m' : Map}, GoodMap m → GoodMap m' → (∀ k, SameAnswer (find k m) (find k m')) → m.map (·.1) = m'.map (·.1)
  | [], [], _, _, _ => rfl
  | [], (k, v) :: m', _, _, h => by
    rcases h k with ⟨_, e⟩ | ⟨_, _, e, _⟩
    · simp [find] at e
    · simp [find] at e
  | (k, v) :: m, [], _, _, h => by
    rcases h k with ⟨e, _⟩ | ⟨_, _, _, e, _⟩
    · simp [find] at e
    · simp [find] at e
  | (k, v) :: m, (k', v') :: m', hm, hm', h => by
    have s1 := List.pairwise_cons.1 hm.sorted
    have s2 := List.pairwise_cons.1 hm'.sorted
    have hkk : k = k' := by
      apply Classical.byContradiction
      intro hne
      -- the smaller of the two is only in one of the maps
      have miss : ∀ {a : Str} {l : Map}, (∀ x ∈ l, less a x.1 = true) → find a l = none := by
        intro a l hl
        cases hf : find a l with
        | none => rfl
        | some w =>
          have := hl _ (find_mem hf)
          rw [less_irrefl] at this; cases this
      cases hl : less k k' with
      | true =>
        have e1 : find k ((k', v') :: m') = none := by
          apply miss
          intro x hx
          rcases List.mem_cons.1 hx with rfl | hx
          · exact hl
          · exact less_trans hl (s2.1 x hx)
        rcases h k with ⟨e, _⟩ | ⟨_, _, _, e, _⟩
        · simp [find] at e
        · rw [e1] at e; cases e
      | false =>
        have hl' := less_total hl hne
        have e1 : find k' ((k, v) :: m) = none := by
          apply miss
          intro x hx
          rcases List.mem_cons.1 hx with rfl | hx
          · exact hl'
          · exact less_trans hl' (s1.1 x hx)
        rcases h k' with ⟨_, e⟩ | ⟨_, _, e, _⟩
        · simp [find] at e
        · rw [e1] at e; cases e
    subst hkk
    have g1 : GoodMap m := ⟨s1.2, fun x hx => hm.words x (List.mem_cons_of_mem _ hx)⟩
    have g2 : GoodMap m' := ⟨s2.2, fun x hx => hm'.words x (List.mem_cons_of_mem _ hx)⟩
    rw [List.map_cons, List.map_cons]
    congr 1
    apply keys_same g1 g2
    intro a
    by_cases ha : k = a
    · subst ha
      have n1 : find k m = none := by
        cases hf : find k m with
        | none => rfl
        | some w =>
          have := s1.1 _ (find_mem hf)
          rw [less_irrefl] at this; cases this
      have n2 : find k m' = none := by
        cases hf : find k m' with
        | none => rfl
        | some w =>
          have := s2.1 _ (find_mem hf)
          rw [less_irrefl] at this; cases this
      exact .inl ⟨n1, n2⟩
    · have := h a
      unfold find at this
      rw [if_neg ha, if_neg ha] at this
      exact this

theorem mapSame_of {m m' : Map} (hm : GoodMap m) (hm' : GoodMap m') (h : ∀ k, SameAnswer (find k m) (find k m')) : MapSame m m' := by
  refine ⟨keys_same hm hm' h, fun k w w' g1 g2 => ?_⟩
  rcases h k with ⟨e, _⟩ | ⟨x, x', e1, e2, e3⟩
  · rw [e] at g1; cases g1
  · rw [e1] at g1; rw [e2] at g2
    cases g1; cases g2; exact e3

/-! ### maps -/

theorem find_erase_same (k : Str) : ∀ m : Map, find k (erase k m) = none
  | [] => rfl
  | (a, v) :: m => by
    unfold erase
    by_cases h : a = k
    · rw [List.filter_cons_of_neg (by simp [h])]
      exact find_erase_same k m
    · rw [List.filter_cons_of_pos (by simp [h]), find, if_neg h]
      exact find_erase_same k m

theorem find_erase_ne {k a : Str} (hne : a ≠ k) : ∀ m : Map, find a (erase k m) = find a m
  | [] => rfl
  | (b, v) :: m => by
    unfold erase
    by_cases h : b = k
    · rw [List.filter_cons_of_neg (by simp [h]), find, if_neg (fun e => hne (e.symm.trans h))]
      exact find_erase_ne hne m
    · rw [List.filter_cons_of_pos (by simp [h])]
      unfold find
      split
      · rfl
      · exact find_erase_ne hne m

theorem erase_kept {k : Str} {m : Map} (h : Kept m) : Kept (erase k m) := by
  refine ⟨⟨h.1.sorted.filter _, fun x hx => h.1.words x (List.mem_filter.1 hx).1⟩, ?_⟩
  intro a v hv
  by_cases ha : a = k
  · subst ha; rw [find_erase_same] at hv; cases hv
  · rw [find_erase_ne ha] at hv; exact h.2 a v hv

theorem put_kept {k v : Str} {m : Map} (h : Kept m) (hk : Word k) (hv : Keepable v) : Kept (put k v m) :=
  ⟨put_good h.1 hk, put_keepable h.2 hv⟩

theorem keepable_map {v : Str} {m : Map} (h : Keepable v) (hc : cook v = some m) : Kept m := by
  refine ⟨(cook_good hc).1, ?_⟩
  cases h with
  | leaf e _ => rw [hc] at e; cases e
  | node e h => rw [hc] at e; cases e; exact h

theorem hazel_word : Word hazelKey := by unfold Word; decide
theorem start_word : Word startKey := by unfold Word; decide
theorem end_word : Word endKey := by unfold Word; decide

/-! ### normal forms -/

/-- the map that is frozen -/
def normMap (A : Map) : Option Map :=
  match find hazelKey A with
  | none => some (erase parametersKey A)
  | some text => match cook text with
    | none => none
    | some M => some (put hazelKey (freeze (erase endKey (erase startKey M))) (erase parametersKey A))

theorem normalize_eq (A : Map) : normalize A = (normMap A).map freeze := by
  have : find hazelKey (erase parametersKey A) = find hazelKey A := find_erase_ne (by decide) A
  unfold normalize normMap
  simp only [this]
  cases find hazelKey A with
  | none => rfl
  | some t =>
    simp only
    cases cook t <;> rfl

theorem meta_kept {A M : Map} (hA : Kept A) (h : Metadata A M) : Kept M := by
  obtain ⟨t, h1, h2⟩ := h
  exact keepable_map (hA.2 _ _ h1) h2

theorem normMap_kept {A N : Map} (hA : Kept A) (h : normMap A = some N) : Kept N := by
  unfold normMap at h
  split at h
  · cases h; exact erase_kept hA
  · rename_i t ht
    split at h
    · cases h
    · rename_i M hM
      cases h
      have := erase_kept (k := endKey) (erase_kept (k := startKey) (meta_kept hA ⟨t, ht, hM⟩))
      exact put_kept (erase_kept hA) hazel_word (keepable_freeze this.1 this.2).1

/-- what a normal form has -/
theorem normMap_other {A N : Map} (h : normMap A = some N) {k : Str} (h1 : k ≠ parametersKey) (h2 : k ≠ hazelKey) : find k N = find k A := by
  unfold normMap at h
  split at h
  · cases h; exact find_erase_ne h1 A
  · split at h
    · cases h
    · cases h
      rw [find_put_ne h2, find_erase_ne h1]

theorem normMap_parameters {A N : Map} (h : normMap A = some N) : find parametersKey N = none := by
  unfold normMap at h
  split at h
  · cases h; exact find_erase_same _ A
  · split at h
    · cases h
    · cases h
      rw [find_put_ne (by decide), find_erase_same]

theorem normMap_hazel {A N : Map} (h : normMap A = some N) :
    (find hazelKey A = none ∧ find hazelKey N = none) ∨
    ∃ M, Metadata A M ∧ find hazelKey N = some (freeze (erase endKey (erase startKey M))) := by
  unfold normMap at h
  split at h
  · rename_i e; cases h; exact .inl ⟨e, by rw [find_erase_ne (by decide)]; exact e⟩
  · rename_i t ht
    split at h
    · cases h
    · rename_i M hM
      cases h
      exact .inr ⟨M, ⟨t, ht, hM⟩, find_put_same _ _ _⟩

theorem erased_answer {M N : Map} (h : ∀ k, k ≠ startKey → k ≠ endKey → SameAnswer (find k M) (find k N)) (k : Str) :
    SameAnswer (find k (erase endKey (erase startKey M))) (find k (erase endKey (erase startKey N))) := by
  by_cases h1 : k = endKey
  · subst h1; rw [find_erase_same, find_erase_same]; exact .inl ⟨rfl, rfl⟩
  · rw [find_erase_ne h1, find_erase_ne h1]
    by_cases h2 : k = startKey
    · subst h2; rw [find_erase_same, find_erase_same]; exact .inl ⟨rfl, rfl⟩
    · rw [find_erase_ne h2, find_erase_ne h2]; exact h k h2 h1

/-- Normal forms are equal exactly if the shards may be merged. -/
theorem normalize_iff {A B : Map} (hA : Kept A) (hB : Kept B) {x : Str} (hx : normalize A = some x) :
    normalize B = some x ↔ Compatible A B := by
  rw [normalize_eq] at hx ⊢
  cases hN : normMap A with
  | none => rw [hN] at hx; cases hx
  | some N =>
    rw [hN] at hx
    have hx : freeze N = x := by simpa using hx
    have kN := normMap_kept hA hN
    constructor
    · intro h
      cases hO : normMap B with
      | none => rw [hO] at h; cases h
      | some O =>
        rw [hO] at h
        have h : freeze O = x := by simpa using h
        have kO := normMap_kept hB hO
        obtain ⟨_, m1, c1, s1⟩ := keepable_freeze kN.1 kN.2
        obtain ⟨_, m2, c2, s2⟩ := keepable_freeze kO.1 kO.2
        rw [hx] at c1
        rw [h, c1] at c2
        cases c2
        have same := s1.trans (mapSame_symm s2)
        refine ⟨fun k h1 h2 => ?_, ?_⟩
        · have := same.answer k
          rwa [normMap_other hN h1 h2, normMap_other hO h1 h2] at this
        · have hz := same.answer hazelKey
          rcases normMap_hazel hN with ⟨a1, a2⟩ | ⟨M, a1, a2⟩
          · rcases normMap_hazel hO with ⟨b1, b2⟩ | ⟨M', b1, b2⟩
            · exact .inl ⟨a1, b1⟩
            · rw [a2, b2] at hz
              rcases hz with ⟨_, e⟩ | ⟨_, _, e, _⟩ <;> cases e
          · rcases normMap_hazel hO with ⟨b1, b2⟩ | ⟨M', b1, b2⟩
            · rw [a2, b2] at hz
              rcases hz with ⟨e, _⟩ | ⟨_, _, _, e, _⟩ <;> cases e
            · refine .inr ⟨M, M', a1, b1, fun k h1 h2 => ?_⟩
              rw [a2, b2] at hz
              rcases hz with ⟨e, _⟩ | ⟨w, w', e1, e2, e3⟩
              · cases e
              · cases e1; cases e2
                have q1 := erase_kept (k := endKey) (erase_kept (k := startKey) (meta_kept hA a1))
                have q2 := erase_kept (k := endKey) (erase_kept (k := startKey) (meta_kept hB b1))
                obtain ⟨_, p1, c3, t1⟩ := keepable_freeze q1.1 q1.2
                obtain ⟨_, p2, c4, t2⟩ := keepable_freeze q2.1 q2.2
                have t3 : MapSame p1 p2 := same_maps e3 c3 c4
                have := ((t1.trans t3).trans (mapSame_symm t2)).answer k
                rwa [find_erase_ne h2, find_erase_ne h1, find_erase_ne h2, find_erase_ne h1] at this
    · rintro ⟨h1, h2⟩
      have fin : ∀ O, normMap B = some O → (∀ k, SameAnswer (find k N) (find k O)) → (normMap B).map freeze = some x := by
        intro O hO hs
        rw [hO]
        have kO := normMap_kept hB hO
        have := freeze_same kN.1 kO.1 (mapSame_of kN.1 kO.1 hs)
        rw [← hx, this]; rfl
      have build : ∀ O, normMap B = some O → SameAnswer (find hazelKey N) (find hazelKey O) → ∀ k, SameAnswer (find k N) (find k O) := by
        intro O hO hz k
        by_cases k1 : k = parametersKey
        · subst k1; exact .inl ⟨normMap_parameters hN, normMap_parameters hO⟩
        · by_cases k2 : k = hazelKey
          · subst k2; exact hz
          · rw [normMap_other hN k1 k2, normMap_other hO k1 k2]; exact h1 k k1 k2
      rcases h2 with ⟨a, b⟩ | ⟨M, M', a, b, h2⟩
      · have hO : normMap B = some (erase parametersKey B) := by unfold normMap; rw [b]
        refine fin _ hO (build _ hO ?_)
        rcases normMap_hazel hN with ⟨_, a2⟩ | ⟨M, ⟨t, a1, _⟩, _⟩
        · rw [a2, find_erase_ne (by decide), b]; exact .inl ⟨rfl, rfl⟩
        · rw [a] at a1; cases a1
      · obtain ⟨t, b1, b2⟩ := b
        have hO : normMap B = some (put hazelKey (freeze (erase endKey (erase startKey M'))) (erase parametersKey B)) := by
          unfold normMap; rw [b1]; simp only [b2]
        refine fin _ hO (build _ hO ?_)
        rcases normMap_hazel hN with ⟨a1, _⟩ | ⟨M0, a1, a2⟩
        · obtain ⟨t', a', _⟩ := a
          rw [a1] at a'; cases a'
        · have hM : M0 = M := by
            obtain ⟨t1, c1, c2⟩ := a
            obtain ⟨t2, c3, c4⟩ := a1
            rw [c1] at c3; cases c3
            rw [c2] at c4; cases c4; rfl
          subst hM
          rw [a2, find_put_same]
          refine .inr ⟨_, _, rfl, rfl, ?_⟩
          have q1 := erase_kept (k := endKey) (erase_kept (k := startKey) (meta_kept hA a1))
          have q2 := erase_kept (k := endKey) (erase_kept (k := startKey) (meta_kept hB ⟨t, b1, b2⟩))
          rw [freeze_same q1.1 q2.1 (mapSame_of q1.1 q2.1 (erased_answer h2))]
          exact Same.refl _

end Verif.HazelDna
