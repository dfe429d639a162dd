import Verif.Qap.Model
import Verif.Pipe.Proof
/-
  Proofs about short answers.
-/
namespace Verif.Qap
open Verif.Pipe

/-! ### where words are -/

theorem spread_eq (window : Nat) (c : Cover) : spread window c = (max (c.p - window) c.cp, min (c.q + window) c.cq) := by
  unfold spread
  simp only []
  congr 1
  · split <;> omega
  · split <;> omega

/-- what the program takes for the distance -/
def seenAt (c : Cover) (x : Int) : Int := if x ≤ c.q then max (c.p - x) 0 else 1

theorem advance_seen {c : Cover} (h : c.p ≤ c.q) (x : Int) : advance c.q x (seenAt c x) = (x + 1, seenAt c (x + 1)) := by
  unfold advance seenAt
  simp only []
  congr 1
  by_cases h1 : x ≤ c.q
  · by_cases h2 : x + 1 ≤ c.q
    · simp only [h1, h2, if_true]
      rw [if_neg (by omega : ¬ x + 1 > c.q)]
      split <;> omega
    · simp only [h1, h2, if_true, if_false]
      rw [if_pos (by omega : x + 1 > c.q), if_neg (by omega)]
      omega
  · simp only [h1, if_false]
    rw [if_neg (by omega : ¬ x + 1 ≤ c.q), if_pos (by omega : x + 1 > c.q), if_pos (by omega)]
    omega

def locationIn (m : List (Word × Int)) (w : Word) : Option Int := (m.find? fun x => x.1 = w).map (·.2)

theorem locationIn_append (m : List (Word × Int)) (w x : Word) (v : Int) (h : locationIn m w = none) :
    locationIn (m ++ [(w, v)]) x = if x = w then some v else locationIn m x := by
  unfold locationIn at h ⊢
  rw [List.find?_append]
  by_cases e : x = w
  · subst e
    rw [Option.map_eq_none_iff.1 h]
    simp
  · rw [if_neg e, List.find?_cons_of_neg (by simpa using Ne.symm e)]
    simp

theorem place_new {m : List (Word × Int)} {w : Word} {x v : Int} (h : locationIn m w = none) : place m w x v = m ++ [(w, v)] := by
  unfold place
  have : (m.find? fun x => x.1 = w).map (·.2) = none := h
  rw [this]

theorem place_old {m : List (Word × Int)} {w : Word} {x v old : Int} (h : locationIn m w = some old) (hx : old ≤ x) : place m w x v = m := by
  unfold place
  have : (m.find? fun x => x.1 = w).map (·.2) = some old := h
  rw [this]
  simp only []
  rw [if_neg (by omega)]

theorem nodup_append {m : List (Word × Int)} {w : Word} {v : Int} (hm : (m.map (·.1)).Nodup) (h : locationIn m w = none) :
    ((m ++ [(w, v)]).map (·.1)).Nodup := by
  rw [List.map_append, List.nodup_append]
  refine ⟨hm, by simp, ?_⟩
  intro a ha b hb
  simp only [List.map_cons, List.map_nil, List.mem_singleton] at hb
  subst hb
  intro e
  subst e
  obtain ⟨y, hy, hya⟩ := List.mem_map.1 ha
  have := List.find?_eq_none.1 (Option.map_eq_none_iff.1 h) y hy
  simp [hya] at this

/-- if no address is less than a distance, the first occurrence of a word counts -/
theorem locate_first {c : Cover} (hc : c.p ≤ c.q) {b : Int} (hb : ∀ x, b ≤ x → ∀ y, b ≤ y → y < x → seenAt c y ≤ x) :
    ∀ (ws : List Word) (x : Int) (m : List (Word × Int)), b ≤ x → (m.map (·.1)).Nodup →
      (∀ w v, locationIn m w = some v → ∃ y, b ≤ y ∧ y < x ∧ v = seenAt c y) →
      ((locate c.q x (seenAt c x) m ws).map (·.1)).Nodup ∧
      ∀ w, locationIn (locate c.q x (seenAt c x) m ws) w =
        (locationIn m w).or ((ws.idxOf? w).map fun k => seenAt c (x + (k : Nat))) := by
  intro ws
  induction ws with
  | nil =>
    intro x m _ hn _
    refine ⟨hn, fun w => ?_⟩
    simp [locate]
  | cons u ws ih =>
    intro x m hx hn hm
    simp only [locate, advance_seen hc]
    cases e : locationIn m u with
    | some old =>
      obtain ⟨y, y1, y2, y3⟩ := hm u old e
      have hold : old ≤ x := by rw [y3]; exact hb x hx y y1 y2
      rw [place_old e hold]
      obtain ⟨i1, i2⟩ := ih (x + 1) m (by omega) hn fun w v h => by
        obtain ⟨y, a, b, c⟩ := hm w v h
        exact ⟨y, a, by omega, c⟩
      refine ⟨i1, fun w => ?_⟩
      rw [i2]
      by_cases g : u = w
      · subst g; rw [e]; rfl
      · rw [List.idxOf?_cons, if_neg (by simpa using g)]
        cases locationIn m w with
        | some => rfl
        | none =>
          cases ws.idxOf? w with
          | none => rfl
          | some k => simp only [Option.map_some, Option.none_or]; congr 2; omega
    | none =>
      rw [place_new e]
      obtain ⟨i1, i2⟩ := ih (x + 1) (m ++ [(u, seenAt c x)]) (by omega) (nodup_append hn e) fun w v h => by
        rw [locationIn_append m u w _ e] at h
        by_cases g : w = u
        · rw [if_pos g] at h
          exact ⟨x, hx, by omega, (Option.some.inj h).symm⟩
        · rw [if_neg g] at h
          obtain ⟨y, a, b, c⟩ := hm w v h
          exact ⟨y, a, by omega, c⟩
      refine ⟨i1, fun w => ?_⟩
      rw [i2, locationIn_append m u w _ e]
      by_cases g : u = w
      · subst g
        rw [if_pos rfl, e, List.idxOf?_cons, if_pos (by simp)]
        simp
      · rw [if_neg (Ne.symm g), List.idxOf?_cons, if_neg (by simpa using g)]
        cases locationIn m w with
        | some => rfl
        | none =>
          cases ws.idxOf? w with
          | none => rfl
          | some k => simp only [Option.map_some, Option.none_or]; congr 2; omega

/-! ### weights -/

section
variable {V : Type} {T : Tools V}

theorem one_location {m : List (Word × Int)} (hn : (m.map (·.1)).Nodup) (w : Word) :
    (m.filter fun x => x.1 = w).map (·.2) = (locationIn m w).toList := by
  induction m with
  | nil => rfl
  | cons x m ih =>
    obtain ⟨h1, h2⟩ := List.nodup_cons.1 hn
    by_cases e : x.1 = w
    · rw [List.filter_cons_of_pos (by simpa using e), List.filter_eq_nil_iff.2]
      · simp [locationIn, e]
      · intro y hy g
        have g : y.1 = w := by simpa using g
        exact h1 (List.mem_map.2 ⟨y, hy, g.trans e.symm⟩)
    · rw [List.filter_cons_of_neg (by simpa using e), ih h2]
      simp [locationIn, e]

theorem place_keys (m : List (Word × Int)) (w : Word) (x v : Int) (hn : (m.map (·.1)).Nodup) : ((place m w x v).map (·.1)).Nodup := by
  cases e : locationIn m w with
  | none => rw [place_new e]; exact nodup_append hn e
  | some old =>
    unfold place
    have : (m.find? fun x => x.1 = w).map (·.2) = some old := e
    rw [this]
    simp only []
    split
    · have : (m.map fun x => if x.1 = w then (w, v) else x).map (·.1) = m.map (·.1) := by
        rw [List.map_map]
        apply List.map_congr_left
        intro y _
        show (if y.1 = w then (w, v) else y).1 = y.1
        split
        · rename_i g; exact g.symm
        · rfl
      rw [this]; exact hn
    · exact hn

theorem locate_keys (q : Int) : ∀ (ws : List Word) (x l : Int) (m : List (Word × Int)), (m.map (·.1)).Nodup →
    ((locate q x l m ws).map (·.1)).Nodup := by
  intro ws
  induction ws with
  | nil => intro x l m h; exact h
  | cons w ws ih => intro x l m h; exact ih _ _ _ (place_keys m w x l h)

theorem weights_fold (window : Nat) (covers : List Cover) (m : Weights V) : covers.foldl (addWeights T window) m =
    (covers.flatMap (locations T window)).foldl (fun m x => addTo ⟨T.zero, T.zero, T.add⟩ T.lt x.1 (T.weigh x.1 x.2) m) m := by
  induction covers generalizing m with
  | nil => rfl
  | cons c cs ih =>
    simp only [List.foldl_cons, List.flatMap_cons, List.foldl_append]
    rw [ih]; rfl

theorem weightOf_map (m : Weights V) (keep : Word → Bool) (f : V → V) (w : Word) :
    weightOf ((m.filter fun x => keep x.1).map fun x => (x.1, f x.2)) w = if keep w then (weightOf m w).map f else none := by
  induction m with
  | nil => simp [weightOf]
  | cons x m ih =>
    by_cases hk : keep x.1 = true
    · rw [List.filter_cons_of_pos (by simpa using hk), List.map_cons]
      by_cases e : x.1 = w
      · subst e; simp [weightOf, hk]
      · have a1 : ∀ l : Weights V, weightOf ((x.1, f x.2) :: l) w = weightOf l w := by intro l; simp [weightOf, e]
        have a2 : weightOf (x :: m) w = weightOf m w := by simp [weightOf, e]
        rw [a1, a2, ih]
    · rw [List.filter_cons_of_neg (by simpa using hk), ih]
      by_cases e : x.1 = w
      · subst e; simp [hk]
      · have a2 : weightOf (x :: m) w = weightOf m w := by simp [weightOf, e]
        rw [a2]

theorem filter_flatMap_locations (window : Nat) (w : Word) (covers : List Cover) :
    ((covers.flatMap (locations T window)).filter fun x => x.1 = w).map (fun x => T.weigh x.1 x.2) =
      covers.filterMap fun c => (locationIn (locations T window c) w).map (T.weigh w) := by
  induction covers with
  | nil => rfl
  | cons c cs ih =>
    rw [List.flatMap_cons, List.filter_append, List.map_append, ih]
    have h : ((locations T window c).filter fun x => x.1 = w).map (fun x => T.weigh x.1 x.2) =
        ((locationIn (locations T window c) w).map (T.weigh w)).toList := by
      have e : ((locations T window c).filter fun x => x.1 = w).map (fun x => T.weigh x.1 x.2) =
          (((locations T window c).filter fun x => x.1 = w).map (·.2)).map (T.weigh w) := by
        rw [List.map_map]
        apply List.map_congr_left
        intro y hy
        have := (List.mem_filter.1 hy).2
        show T.weigh y.1 y.2 = T.weigh w y.2
        rw [show y.1 = w by simpa using this]
      rw [e, one_location (m := locations T window c) (locate_keys _ _ _ _ ([] : List (Word × Int)) (by simp))]
      cases locationIn (locations T window c) w <;> rfl
    rw [h]
    cases e : locationIn (locations T window c) w with
    | none => rw [List.filterMap_cons_none (by rw [e]; rfl)]; rfl
    | some v => rw [List.filterMap_cons_some (by rw [e]; rfl)]; rfl

theorem weights_ok (ht : Total T.lt) (window : Nat) (covers : List Cover) (query : Txt) (w : Word) :
    weightOf (weights T window covers query) w =
      if w ∈ T.split query then none
      else (sum T.add (covers.filterMap fun c => (locationIn (locations T window c) w).map (T.weigh w))).map T.cube := by
  unfold weights
  rw [weightOf_map (covers.foldl (addWeights T window) []) (fun x => !(T.split query).contains x) T.cube w, weights_fold]
  have g := (gather_ok (A := ⟨T.zero, T.zero, T.add⟩) ht (fun x : Word × Int => x.1) (fun x => T.weigh x.1 x.2)
    (covers.flatMap (locations T window)) (sorted_nil (lt := T.lt) (V := V))).2 w
  rw [g, filter_flatMap_locations]
  by_cases e : w ∈ T.split query
  · simp [e]
  · simp [e, weightOf]

/-! ### candidates -/

theorem mapM_some {α β : Type} {f : α → Option β} {g : α → β} : ∀ {l : List α}, (∀ x ∈ l, f x = some (g x)) → l.mapM f = some (l.map g) := by
  intro l
  induction l with
  | nil => intro _; rfl
  | cons x l ih =>
    intro h
    rw [List.mapM_cons, h x (.head _), ih fun y hy => h y (.tail _ hy)]
    rfl

theorem candidatesOf_ok {length : Nat} (h0 : 0 < length) (f : Txt) : ∃ L, candidatesOf T length f = some L ∧
    (((T.tokenize f).length ≤ length ∧ L = [f]) ∨
      (length < (T.tokenize f).length ∧ L.length = (T.tokenize f).length - length ∧
        ∀ (i : Nat) t, L[i]? = some t → Window f (T.tokenize f) length i t)) := by
  unfold candidatesOf
  simp only []
  by_cases h : (T.tokenize f).length ≤ length
  · exact ⟨[f], if_pos h, .inl ⟨h, rfl⟩⟩
  · rw [if_neg h]
    have key : ∀ i ∈ List.range ((T.tokenize f).length - length),
        (if i + length = 0 then none else match (T.tokenize f)[i]?, (T.tokenize f)[i + length - 1]? with
          | some a, some b => some ((f.drop a.1).take (b.1 + b.2 - a.1))
          | _, _ => none) = some ((f.drop ((T.tokenize f)[i]?.getD (0, 0)).1).take
            (((T.tokenize f)[i + length - 1]?.getD (0, 0)).1 + ((T.tokenize f)[i + length - 1]?.getD (0, 0)).2 -
              ((T.tokenize f)[i]?.getD (0, 0)).1)) := by
      intro i hi
      have hi := List.mem_range.1 hi
      have e1 : (T.tokenize f)[i]? = some ((T.tokenize f)[i]'(by omega)) := List.getElem?_eq_getElem _
      have e2 : (T.tokenize f)[i + length - 1]? = some ((T.tokenize f)[i + length - 1]'(by omega)) := List.getElem?_eq_getElem _
      rw [if_neg (by omega), e1, e2]
      rfl
    refine ⟨_, mapM_some key, .inr ⟨by omega, by simp, ?_⟩⟩
    intro i t ht
    rw [List.getElem?_map] at ht
    obtain ⟨k, hk, rfl⟩ := Option.map_eq_some_iff.1 ht
    obtain ⟨hk1, hk2⟩ := List.getElem?_eq_some_iff.1 hk
    simp only [List.getElem_range] at hk2
    subst hk2
    simp only [List.length_range] at hk1
    have e1 : (T.tokenize f)[i]? = some ((T.tokenize f)[i]'(by omega)) := List.getElem?_eq_getElem _
    have e2 : (T.tokenize f)[i + length - 1]? = some ((T.tokenize f)[i + length - 1]'(by omega)) := List.getElem?_eq_getElem _
    refine ⟨_, _, e1, e2, ?_⟩
    rw [e1, e2]
    rfl

theorem candidates_ok {length : Nat} (h0 : 0 < length) : ∀ (fs : List Txt) (j : Nat), ∃ cs, candidates T length j fs = some cs ∧
    ∀ t k, (t, k) ∈ cs ↔ ∃ i f L, k = j + i ∧ fs[i]? = some f ∧ candidatesOf T length f = some L ∧ t ∈ L := by
  intro fs
  induction fs with
  | nil => intro j; exact ⟨[], rfl, by simp⟩
  | cons f fs ih =>
    intro j
    obtain ⟨L, hL, _⟩ := candidatesOf_ok (T := T) h0 f
    obtain ⟨rest, hr, hm⟩ := ih (j + 1)
    refine ⟨L.map (fun t => (t, j)) ++ rest, by simp only [candidates, hL, hr], ?_⟩
    intro t k
    rw [List.mem_append]
    constructor
    · rintro (h | h)
      · obtain ⟨t', ht, e⟩ := List.mem_map.1 h
        cases e
        exact ⟨0, f, L, rfl, rfl, hL, ht⟩
      · obtain ⟨i, g, L', e, h1, h2, h3⟩ := (hm t k).1 h
        exact ⟨i + 1, g, L', by omega, h1, h2, h3⟩
    · rintro ⟨i, g, L', e, h1, h2, h3⟩
      cases i with
      | zero =>
        simp only [List.getElem?_cons_zero, Option.some.injEq] at h1
        subst h1
        rw [hL] at h2
        cases h2
        subst e
        exact .inl (List.mem_map.2 ⟨t, h3, rfl⟩)
      | succ i =>
        exact .inr ((hm t k).2 ⟨i, g, L', by omega, h1, h2, h3⟩)

end

/-! ### scores -/

theorem insertWord_ok {lt : Word → Word → Bool} (ht : Total lt) (w : Word) : ∀ {m : List Word}, m.Pairwise (fun a b => lt a b = true) →
    (insertWord lt w m).Pairwise (fun a b => lt a b = true) ∧ ∀ x, x ∈ insertWord lt w m ↔ x = w ∨ x ∈ m := by
  intro m
  induction m with
  | nil => intro _; exact ⟨by simp [insertWord], by simp [insertWord]⟩
  | cons y m ih =>
    intro h
    obtain ⟨h1, h2⟩ := List.pairwise_cons.1 h
    unfold insertWord
    by_cases e : w = y
    · rw [if_pos e]
      refine ⟨h, fun x => ?_⟩
      rw [e]; simp
    · rw [if_neg e]
      by_cases g : lt w y = true
      · rw [if_pos g]
        refine ⟨List.pairwise_cons.2 ⟨fun z hz => ?_, h⟩, fun x => by simp⟩
        rcases List.mem_cons.1 hz with rfl | hz
        · exact g
        · exact ht.trans g (h1 z hz)
      · rw [if_neg g]
        obtain ⟨i1, i2⟩ := ih h2
        refine ⟨List.pairwise_cons.2 ⟨fun z hz => ?_, i1⟩, fun x => ?_⟩
        · rcases (i2 z).1 hz with rfl | hz
          · exact ht.total e (by simpa using g)
          · exact h1 z hz
        · rw [List.mem_cons, i2, List.mem_cons]
          constructor
          · rintro (h | h | h)
            · exact .inr (.inl h)
            · exact .inl h
            · exact .inr (.inr h)
          · rintro (h | h | h)
            · exact .inr (.inl h)
            · exact .inl h
            · exact .inr (.inr h)

theorem insertWords_ok {lt : Word → Word → Bool} (ht : Total lt) : ∀ (ws m : List Word), m.Pairwise (fun a b => lt a b = true) →
    (ws.foldl (fun m w => insertWord lt w m) m).Pairwise (fun a b => lt a b = true) ∧
      ∀ x, x ∈ ws.foldl (fun m w => insertWord lt w m) m ↔ x ∈ ws ∨ x ∈ m := by
  intro ws
  induction ws with
  | nil => intro m h; exact ⟨h, by simp⟩
  | cons w ws ih =>
    intro m h
    obtain ⟨i1, i2⟩ := insertWord_ok ht w h
    obtain ⟨j1, j2⟩ := ih _ i1
    refine ⟨j1, fun x => ?_⟩
    rw [List.foldl_cons, j2, i2, List.mem_cons]
    constructor
    · rintro (h | h | h)
      · exact .inl (.inr h)
      · exact .inl (.inl h)
      · exact .inr h
    · rintro ((h | h) | h)
      · exact .inr (.inl h)
      · exact .inl h
      · exact .inr (.inr h)

theorem score_fold {V : Type} (add : V → V → V) (f : Word → Option V) : ∀ (l : List Word) (s : V),
    l.foldl (fun s w => match f w with
      | none => s
      | some v => add s v) s = (l.filterMap f).foldl add s := by
  intro l
  induction l with
  | nil => intro s; rfl
  | cons w l ih =>
    intro s
    rw [List.foldl_cons, ih]
    cases e : f w with
    | none => rw [List.filterMap_cons_none e]
    | some v => rw [List.filterMap_cons_some e]; rfl

/-! ### the selection -/

theorem pick_sublist (source : Nat → Nat) (depth : Nat) : ∀ (order taken : List Nat), (pick source depth taken order).Sublist order := by
  intro order
  induction order with
  | nil => intro _; exact List.Sublist.refl _
  | cons i is ih =>
    intro taken
    unfold pick
    split
    · split
      · exact (ih taken).cons _
      · exact (ih _).cons_cons _
    · exact List.nil_sublist _

theorem pick_ok (source : Nat → Nat) (depth : Nat) : ∀ (order taken : List Nat), taken.Nodup → taken.length ≤ depth →
    (taken.length + (pick source depth taken order).length ≤ depth) ∧
    ((pick source depth taken order).map source).Nodup ∧
    (∀ i ∈ pick source depth taken order, source i ∉ taken) ∧
    ∀ (before : List Nat) j after, order = before ++ j :: after →
      source j ∈ taken ∨ (∃ i ∈ pick source depth taken order, source i = source j ∧ i ∈ before ++ [j]) ∨
        taken.length + (pick source depth taken order).length = depth ∧ ∀ i ∈ pick source depth taken order, i ∈ before := by
  intro order
  induction order with
  | nil =>
    intro taken hn hl
    refine ⟨by simpa [pick] using hl, by simp [pick], by simp [pick], ?_⟩
    intro b j a e
    simp at e
  | cons i is ih =>
    intro taken hn hl
    by_cases h1 : taken.length < depth
    · by_cases h2 : source i ∈ taken
      · have e : pick source depth taken (i :: is) = pick source depth taken is := by
          rw [pick, if_pos h1, if_pos h2]
        rw [e]
        obtain ⟨a1, a2, a3, a4⟩ := ih taken hn hl
        refine ⟨a1, a2, a3, ?_⟩
        intro b j a hb
        cases b with
        | nil =>
          simp only [List.nil_append, List.cons.injEq] at hb
          exact .inl (hb.1 ▸ h2)
        | cons u b =>
          simp only [List.cons_append, List.cons.injEq] at hb
          rcases a4 b j a hb.2 with h | ⟨k, k1, k2, k3⟩ | ⟨k1, k2⟩
          · exact .inl h
          · exact .inr (.inl ⟨k, k1, k2, .tail _ k3⟩)
          · exact .inr (.inr ⟨k1, fun i hi => .tail _ (k2 i hi)⟩)
      · have e : pick source depth taken (i :: is) = i :: pick source depth (source i :: taken) is := by
          rw [pick, if_pos h1, if_neg h2]
        rw [e]
        obtain ⟨a1, a2, a3, a4⟩ := ih (source i :: taken) (List.nodup_cons.2 ⟨h2, hn⟩) (by simp only [List.length_cons]; omega)
        simp only [List.length_cons] at a1 a4 ⊢
        refine ⟨by omega, ?_, ?_, ?_⟩
        · rw [List.map_cons, List.nodup_cons]
          refine ⟨fun hm => ?_, a2⟩
          obtain ⟨k, k1, k2⟩ := List.mem_map.1 hm
          exact a3 k k1 (k2 ▸ .head _)
        · intro k hk
          rcases List.mem_cons.1 hk with rfl | hk
          · exact h2
          · exact fun hm => a3 k hk (.tail _ hm)
        · intro b j a hb
          cases b with
          | nil =>
            simp only [List.nil_append, List.cons.injEq] at hb
            obtain ⟨rfl, _⟩ := hb
            exact .inr (.inl ⟨i, .head _, rfl, .head _⟩)
          | cons u b =>
            simp only [List.cons_append, List.cons.injEq] at hb
            obtain ⟨rfl, hb⟩ := hb
            rcases a4 b j a hb with h | ⟨k, k1, k2, k3⟩ | ⟨k1, k2⟩
            · rcases List.mem_cons.1 h with h | h
              · exact .inr (.inl ⟨i, .head _, h.symm, .head _⟩)
              · exact .inl h
            · exact .inr (.inl ⟨k, .tail _ k1, k2, .tail _ k3⟩)
            · refine .inr (.inr ⟨by omega, fun x hx => ?_⟩)
              rcases List.mem_cons.1 hx with rfl | hx
              · exact .head _
              · exact .tail _ (k2 x hx)
    · have e : pick source depth taken (i :: is) = [] := by rw [pick, if_neg h1]
      rw [e]
      refine ⟨by simpa using hl, by simp, by simp, ?_⟩
      intro b j a _
      exact .inr (.inr ⟨by simp only [List.length_nil]; omega, by simp⟩)

theorem pick_selects {σ : Type} {n : Nat} {score : Nat → σ} {better : σ → σ → Bool} {order : List Nat}
    (hp : order.Perm (List.range n)) (hs : order.Pairwise fun i j => better (score j) (score i) = false) (hb : ∀ s, better s s = false)
    (source : Nat → Nat) (depth : Nat) : Selects n score source better depth (pick source depth [] order) := by
  obtain ⟨a1, a2, _, a4⟩ := pick_ok source depth order [] List.nodup_nil (Nat.zero_le _)
  simp only [List.length_nil, Nat.zero_add] at a1 a4
  have sub := pick_sublist source depth order []
  have hin : ∀ j, j < n → ∃ b a, order = b ++ j :: a := fun j hj => List.append_of_mem (hp.mem_iff.2 (List.mem_range.2 hj))
  have ahead : ∀ b j a, order = b ++ j :: a → ∀ i ∈ b ++ [j], better (score j) (score i) = false := by
    intro b j a e i hi
    rcases List.mem_append.1 hi with hi | hi
    · rw [e] at hs
      exact (List.pairwise_append.1 hs).2.2 i hi j (.head _)
    · rw [List.mem_singleton.1 hi]; exact hb _
  refine ⟨⟨a1, fun i hi => List.mem_range.1 (hp.mem_iff.1 (sub.subset hi))⟩, List.Pairwise.sublist sub hs, a2, ?_, ?_⟩
  · intro i hi j hj e
    obtain ⟨b, a, hba⟩ := hin j hj
    rcases a4 b j a hba with h | ⟨k, k1, k2, k3⟩ | ⟨_, k2⟩
    · cases h
    · -- the one that is picked of this fragment is `i`
      have : k = i := by
        by_cases ne : k = i
        · exact ne
        · exfalso
          obtain ⟨x, hx, rfl⟩ := List.mem_iff_getElem.1 k1
          obtain ⟨y, hy, rfl⟩ := List.mem_iff_getElem.1 hi
          have hxy := (List.getElem_inj (h₀ := by simpa using hx) (h₁ := by simpa using hy) a2).1 (by simp [k2, e])
          subst hxy
          exact ne rfl
      subst this
      exact ahead b j a hba k k3
    · exact ahead b j a hba i (List.mem_append.2 (.inl (k2 i hi)))
  · intro j hj hn
    obtain ⟨b, a, hba⟩ := hin j hj
    rcases a4 b j a hba with h | ⟨k, k1, k2, k3⟩ | ⟨k1, k2⟩
    · cases h
    · exact absurd (List.mem_map.2 ⟨k, k1, k2⟩) hn
    · exact ⟨k1, fun i hi => ahead b j a hba i (List.mem_append.2 (.inl (k2 i hi)))⟩

end Verif.Qap
