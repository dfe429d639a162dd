import Verif.Dna.Spec
import Verif.Dna.Model
import Verif.Props.Recipe
/-
  A description that is written and read.
-/
namespace Verif.Dna
open Verif.Recipe

/-! ### newlines that become blanks -/

def flat (c : UInt8) : UInt8 := if c = 0x0A then 0x20 else c

theorem flat_eq {c d : UInt8} (h1 : d ≠ 0x0A) (h2 : d ≠ 0x20) : flat c = d ↔ c = d := by
  unfold flat
  split
  · rename_i h
    subst h
    exact ⟨fun h => absurd h.symm h2, fun h => absurd h.symm h1⟩
  · exact Iff.rfl

theorem flat_space (c : UInt8) : isSpace (flat c) = isSpace c := by
  unfold flat
  split
  · rename_i h
    subst h
    decide
  · rfl

theorem flat_ident (c : UInt8) : identifier (flat c) = identifier c := by
  unfold flat
  split
  · rename_i h
    subst h
    decide
  · rfl

theorem flat_of_ident {c : UInt8} (h : identifier c = true) : flat c = c := by
  unfold flat
  split
  · rename_i e
    subst e
    revert h
    decide
  · rfl

theorem munchString_flat {q : UInt8} (hq : q = 0x27 ∨ q = 0x22) : ∀ s acc : Str,
    munchString q (s.map flat) (acc.map flat) = ((munchString q s acc).1.map flat, (munchString q s acc).2.map flat)
  | [], acc => by simp [munchString]
  | c :: s, acc => by
    have q1 : q ≠ 0x0A ∧ q ≠ 0x20 := by rcases hq with rfl | rfl <;> decide
    have h1 : flat c = q ↔ c = q := flat_eq q1.1 q1.2
    have h2 : flat c = 0x5C ↔ c = 0x5C := flat_eq (by decide) (by decide)
    rw [List.map_cons, munchString.eq_def, munchString.eq_def q (c :: s)]
    dsimp only
    by_cases g1 : c = q
    · rw [if_pos (h1.2 g1), if_pos g1]
      rfl
    · rw [if_neg (fun e => g1 (h1.1 e)), if_neg g1]
      by_cases g2 : c = 0x5C
      · rw [if_pos (h2.2 g2), if_pos g2]
        match s with
        | [] => rfl
        | d :: s' =>
          have h3 : flat d = q ↔ d = q := flat_eq q1.1 q1.2
          have h4 : flat d = 0x5C ↔ d = 0x5C := flat_eq (by decide) (by decide)
          rw [List.map_cons]
          dsimp only
          by_cases g3 : d ≠ 0x5C ∧ d ≠ q
          · rw [if_pos ⟨fun e => g3.1 (h4.1 e), fun e => g3.2 (h3.1 e)⟩, if_pos g3]
            rfl
          · rw [if_neg (fun g => g3 ⟨fun e => g.1 (h4.2 e), fun e => g.2 (h3.2 e)⟩), if_neg g3]
            have := munchString_flat hq s' (acc ++ [d])
            rw [List.map_append] at this
            exact this
      · rw [if_neg (fun e => g2 (h2.1 e)), if_neg g2]
        have := munchString_flat hq s (acc ++ [c])
        rw [List.map_append] at this
        exact this

theorem munchMap_flat : ∀ (o : Option UInt8) (n : Nat) (s acc : Str), (∀ q, o = some q → q = 0x27 ∨ q = 0x22) →
    munchMap o n (s.map flat) (acc.map flat) = ((munchMap o n s acc).1.map flat, (munchMap o n s acc).2.map flat)
  | o, n, [], acc, _ => by simp [munchMap_nil]
  | some q, n, c :: s, acc, ho => by
    have hq := ho q rfl
    have q1 : q ≠ 0x0A ∧ q ≠ 0x20 := by rcases hq with rfl | rfl <;> decide
    have h1 : flat c = q ↔ c = q := flat_eq q1.1 q1.2
    have h2 : flat c = 0x5C ↔ c = 0x5C := flat_eq (by decide) (by decide)
    rw [List.map_cons, munchMap.eq_def, munchMap.eq_def (some q) n (c :: s)]
    dsimp only
    by_cases g1 : c = q
    · rw [if_pos (h1.2 g1), if_pos g1]
      have := munchMap_flat none n s (acc ++ [c]) (by simp)
      rw [List.map_append] at this
      exact this
    · rw [if_neg (fun e => g1 (h1.1 e)), if_neg g1]
      by_cases g2 : c = 0x5C
      · rw [if_pos (h2.2 g2), if_pos g2]
        match s with
        | [] => rfl
        | d :: s' =>
          have h3 : flat d = q ↔ d = q := flat_eq q1.1 q1.2
          have h4 : flat d = 0x5C ↔ d = 0x5C := flat_eq (by decide) (by decide)
          rw [List.map_cons]
          dsimp only
          by_cases g3 : d ≠ 0x5C ∧ d ≠ q
          · rw [if_pos ⟨fun e => g3.1 (h4.1 e), fun e => g3.2 (h3.1 e)⟩, if_pos g3]
            rfl
          · rw [if_neg (fun g => g3 ⟨fun e => g.1 (h4.2 e), fun e => g.2 (h3.2 e)⟩), if_neg g3]
            have := munchMap_flat (some q) n s' (acc ++ [d]) ho
            rw [List.map_append] at this
            exact this
      · rw [if_neg (fun e => g2 (h2.1 e)), if_neg g2]
        have := munchMap_flat (some q) n s (acc ++ [c]) ho
        rw [List.map_append] at this
        exact this
  | none, n, c :: s, acc, _ => by
    have h1 : flat c = 0x5D ↔ c = 0x5D := flat_eq (by decide) (by decide)
    have h2 : flat c = 0x5B ↔ c = 0x5B := flat_eq (by decide) (by decide)
    have h3 : (flat c = 0x27 ∨ flat c = 0x22) ↔ (c = 0x27 ∨ c = 0x22) :=
      or_congr (flat_eq (by decide) (by decide)) (flat_eq (by decide) (by decide))
    rw [List.map_cons, munchMap.eq_def, munchMap.eq_def none n (c :: s)]
    dsimp only
    by_cases g1 : c = 0x5D
    · rw [if_pos (h1.2 g1), if_pos g1]
      cases n with
      | zero => rfl
      | succ n =>
        have := munchMap_flat none n s (acc ++ [c]) (by simp)
        rw [List.map_append] at this
        exact this
    · rw [if_neg (fun e => g1 (h1.1 e)), if_neg g1]
      by_cases g2 : c = 0x5B
      · rw [if_pos (h2.2 g2), if_pos g2]
        have := munchMap_flat none (n + 1) s (acc ++ [c]) (by simp)
        rw [List.map_append] at this
        exact this
      · rw [if_neg (fun e => g2 (h2.1 e)), if_neg g2]
        by_cases g3 : c = 0x27 ∨ c = 0x22
        · have fc : flat c = c := by rcases g3 with rfl | rfl <;> decide
          rw [if_pos (h3.2 g3), if_pos g3, fc]
          have := munchMap_flat (some c) n s (acc ++ [c]) (by intro q e; cases e; exact g3)
          rw [List.map_append, List.map_singleton, fc] at this
          exact this
        · rw [if_neg (fun e => g3 (h3.1 e)), if_neg g3]
          have := munchMap_flat none n s (acc ++ [c]) (by simp)
          rw [List.map_append] at this
          exact this

theorem value_flat (s : Str) : value (s.map flat) = (value s).map fun r => (r.1.map flat, r.2.map flat) := by
  cases s with
  | nil => rfl
  | cons q s =>
    have h1 : (flat q = 0x27 ∨ flat q = 0x22) ↔ (q = 0x27 ∨ q = 0x22) :=
      or_congr (flat_eq (by decide) (by decide)) (flat_eq (by decide) (by decide))
    have h2 : flat q = 0x5B ↔ q = 0x5B := flat_eq (by decide) (by decide)
    rw [List.map_cons, value.eq_def, value.eq_def (q :: s)]
    dsimp only
    by_cases g1 : q = 0x27 ∨ q = 0x22
    · have fq : flat q = q := by rcases g1 with rfl | rfl <;> decide
      have q1 : q ≠ 0x0A ∧ q ≠ 0x20 := by rcases g1 with rfl | rfl <;> decide
      rw [if_pos (h1.2 g1), if_pos g1, fq]
      have := munchString_flat g1 s []
      rw [List.map_nil] at this
      rw [this]
      rcases e : munchString q s [] with ⟨v, r⟩
      cases r with
      | nil => rfl
      | cons c r =>
        dsimp only
        rw [List.map_cons]
        dsimp only
        by_cases g : c = q
        · rw [if_pos ((flat_eq q1.1 q1.2).2 g), if_pos g]
          rfl
        · rw [if_neg (fun e => g ((flat_eq q1.1 q1.2).1 e)), if_neg g]
          rfl
    · rw [if_neg (fun e => g1 (h1.1 e)), if_neg g1]
      by_cases g2 : q = 0x5B
      · rw [if_pos (h2.2 g2), if_pos g2]
        have := munchMap_flat none 0 s [] (by simp)
        rw [List.map_nil] at this
        rw [this]
        rcases e : munchMap none 0 s [] with ⟨v, r⟩
        cases r with
        | nil => rfl
        | cons c r =>
          dsimp only
          rw [List.map_cons]
          dsimp only
          by_cases g : c = 0x5D
          · rw [if_pos ((flat_eq (by decide) (by decide)).2 g), if_pos g, Option.map_some]
            dsimp only
            rw [List.map_append, List.map_append]
            rfl
          · rw [if_neg (fun e => g ((flat_eq (by decide) (by decide)).1 e)), if_neg g]
            rfl
      · rw [if_neg (fun e => g2 (h2.1 e)), if_neg g2]
        rfl

theorem skipSpace_flat (s : Str) : skipSpace (s.map flat) = (skipSpace s).map flat := by
  unfold skipSpace
  rw [List.dropWhile_map]
  have : isSpace ∘ flat = isSpace := funext flat_space
  rw [this]

/-- the values of a map with blanks for newlines -/
def flatMapOf (m : Map) : Map := m.map fun kv => (kv.1, kv.2.map flat)

theorem put_flat (k v : Str) : ∀ m : Map, put k (v.map flat) (flatMapOf m) = flatMapOf (put k v m)
  | [] => rfl
  | (k', v') :: m => by
    show put k (v.map flat) ((k', v'.map flat) :: flatMapOf m) = _
    unfold put
    split
    · rfl
    · split
      · rfl
      · rw [put_flat k v m]
        rfl

theorem finish_flat (s : Str) (m : Map) : finish (s.map flat) (flatMapOf m) = (finish s m).map flatMapOf := by
  unfold finish
  rw [skipSpace_flat]
  by_cases h : skipSpace s = []
  · rw [if_pos h, h]; rfl
  · rw [if_neg h, if_neg (by simpa using h)]; rfl

theorem items_flat : ∀ (fuel : Nat) (s : Str) (m : Map), items fuel (s.map flat) (flatMapOf m) = (items fuel s m).map flatMapOf
  | 0, _, _ => rfl
  | fuel + 1, s, m => by
    rw [items.eq_def, items.eq_def (fuel + 1) s]
    dsimp only
    rw [skipSpace_flat]
    cases skipSpace s with
    | nil => rfl
    | cons c s =>
      rw [List.map_cons]
      dsimp only
      by_cases g1 : c = 0x5D
      · rw [if_pos ((flat_eq (by decide) (by decide)).2 g1), if_pos g1, finish_flat]
      rw [if_neg (fun e => g1 ((flat_eq (by decide) (by decide)).1 e)), if_neg g1, flat_ident]
      by_cases g2 : identifier c = true
      · rw [if_pos g2, if_pos g2]
        have hid : identifier ∘ flat = identifier := funext flat_ident
        rw [List.dropWhile_map, List.takeWhile_map, hid, skipSpace_flat]
        have hk : flat c :: (s.takeWhile identifier).map flat = c :: s.takeWhile identifier := by
          rw [flat_of_ident g2]
          congr 1
          refine (List.map_congr_left fun x hx => flat_of_ident ?_).trans (List.map_id _)
          exact List.all_eq_true.1 List.all_takeWhile x hx
        rw [hk]
        cases skipSpace (s.dropWhile identifier) with
        | nil => rfl
        | cons c' s' =>
          rw [List.map_cons]
          dsimp only
          by_cases g3 : c' = 0x3A
          · rw [if_pos ((flat_eq (by decide) (by decide)).2 g3), if_pos g3, skipSpace_flat, value_flat]
            cases value (skipSpace s') with
            | none => rfl
            | some r =>
              obtain ⟨v, r⟩ := r
              rw [Option.map_some]
              dsimp only
              rw [skipSpace_flat]
              cases skipSpace r with
              | nil => rfl
              | cons c'' s'' =>
                rw [List.map_cons]
                dsimp only
                rw [put_flat]
                by_cases g4 : c'' = 0x5D
                · rw [if_pos ((flat_eq (by decide) (by decide)).2 g4), if_pos g4, finish_flat]
                rw [if_neg (fun e => g4 ((flat_eq (by decide) (by decide)).1 e)), if_neg g4]
                by_cases g5 : c'' = 0x2C
                · rw [if_pos ((flat_eq (by decide) (by decide)).2 g5), if_pos g5, items_flat fuel]
                · rw [if_neg (fun e => g5 ((flat_eq (by decide) (by decide)).1 e)), if_neg g5]
                  rfl
          · rw [if_neg (fun e => g3 ((flat_eq (by decide) (by decide)).1 e)), if_neg g3]
            rfl
      · rw [if_neg g2, if_neg g2]
        rfl

/-- a text with blanks for newlines is the same map, but for the newlines in values -/
theorem cook_flat (s : Str) : cook (s.map flat) = (cook s).map flatMapOf := by
  unfold cook parse
  have h0 : (s.map flat).takeWhile (· ≠ 0) = (s.takeWhile (· ≠ 0)).map flat := by
    rw [List.takeWhile_map]
    congr 2
    funext c
    show decide (flat c ≠ 0) = decide (c ≠ 0)
    have := flat_eq (c := c) (d := 0) (by decide) (by decide)
    by_cases h : c = 0
    · rw [decide_eq_false (by simpa [this] using h), decide_eq_false (by simpa using h)]
    · rw [decide_eq_true (by simpa [this] using h), decide_eq_true (by simpa using h)]
  rw [h0, skipSpace_flat]
  cases skipSpace (s.takeWhile (· ≠ 0)) with
  | nil => rfl
  | cons c s =>
    rw [List.map_cons]
    dsimp only
    by_cases g : c = 0x5B
    · rw [if_pos ((flat_eq (by decide) (by decide)).2 g), if_pos g, List.length_map]
      exact items_flat _ s []
    · rw [if_neg (fun e => g ((flat_eq (by decide) (by decide)).1 e)), if_neg g]
      rfl

/-! ### values that mean the same -/

theorem Same.refl (v : Str) : Same v v := by
  have : ∀ n (v : Str), v.length < n → Same v v := by
    intro n
    induction n with
    | zero => intro v h; omega
    | succ n ih =>
      intro v h
      cases e : cook v with
      | none => exact .leaf e
      | some p =>
        refine .node e e rfl fun k w w' h1 h2 => ?_
        rw [h1] at h2
        injection h2 with h2
        subst h2
        have := (cook_good e).2 _ (find_mem h1)
        exact ih w (by simp only at this; omega)
  exact this _ v (Nat.lt_succ_self _)

theorem find_keys {k : Str} : ∀ {m m' : Map}, m.map (·.1) = m'.map (·.1) → ∀ {w}, find k m = some w → ∃ w', find k m' = some w'
  | [], _, _, _, h => by cases h
  | (a, b) :: m, [], e, _, _ => by simp at e
  | (a, b) :: m, (a', b') :: m', e, w, h => by
    simp only [List.map_cons, List.cons.injEq] at e
    obtain ⟨rfl, e⟩ := e
    unfold find at h ⊢
    split at h
    · rename_i g
      rw [if_pos g]
      exact ⟨b', rfl⟩
    · rename_i g
      rw [if_neg g]
      exact find_keys e h

theorem Same.trans {a b : Str} (h : Same a b) : ∀ {c : Str}, Same b c → Same a c := by
  induction h with
  | leaf _ => intro c h; exact h
  | @node v v' p p' e1 e2 hk hv ih =>
    intro c h
    cases h with
    | leaf e => rw [e2] at e; cases e
    | @node _ c p1 p2 e3 e4 hk' hv' =>
      rw [e2] at e3
      injection e3 with e3
      subst e3
      refine .node e1 e4 (hk.trans hk') fun k w w' g1 g2 => ?_
      obtain ⟨w1, g3⟩ := find_keys hk g1
      exact ih k w w1 g1 g3 (hv' k w1 w' g3 g2)

theorem Same.flat {v : Str} (h : Keepable v) : Same v (v.map flat) := by
  induction h with
  | @leaf v e h =>
    have : v.map Dna.flat = v := (List.map_congr_left fun c hc => by unfold Dna.flat; rw [if_neg (h c hc).2.2.2]; rfl).trans (List.map_id _)
    rw [this]
    exact .leaf e
  | @node v p e h ih =>
    refine .node e (by rw [cook_flat, e]; rfl) (by simp [flatMapOf]) fun k w w' g1 g2 => ?_
    unfold flatMapOf at g2
    rw [find_map (fun w => w.map Dna.flat), g1] at g2
    injection g2 with g2
    subst g2
    exact ih k w g1

theorem Keepable.safe {v : Str} (h : Keepable v) : Safe v := by
  induction h with
  | leaf e h => exact .leaf e fun c hc => ⟨(h c hc).1, (h c hc).2.1, (h c hc).2.2.1⟩
  | node e _ ih => exact .node e ih

theorem Keepable.same {v v' : Str} (hs : Same v v') : Keepable v → Keepable v' := by
  induction hs with
  | leaf _ => exact id
  | @node v v' p p' e1 e2 hk hv ih =>
    intro h
    cases h with
    | leaf e _ => rw [e1] at e; cases e
    | @node _ p1 e h =>
      rw [e1] at e
      injection e with e
      subst e
      refine .node e2 fun k w' g => ?_
      obtain ⟨w, g'⟩ := find_keys hk.symm g
      exact ih k w w' g' g (h k w g')

/-- two maps with the same keys, whose values mean the same -/
def MapSame (m m' : Map) : Prop := m.map (·.1) = m'.map (·.1) ∧ ∀ k w w', find k m = some w → find k m' = some w' → Same w w'

theorem find_none_keys {k : Str} {m m' : Map} (e : m.map (·.1) = m'.map (·.1)) (h : find k m = none) : find k m' = none := by
  cases g : find k m' with
  | none => rfl
  | some w =>
    obtain ⟨w', g'⟩ := find_keys e.symm g
    rw [h] at g'
    cases g'

theorem AllKeepable.same {m m' : Map} (h : AllKeepable m) (hs : MapSame m m') : AllKeepable m' := by
  intro k w' g
  obtain ⟨w, g'⟩ := find_keys hs.1.symm g
  exact (h k w g').same (hs.2 k w w' g' g)

/-- a frozen map with blanks for newlines -/
theorem cook_stored {m : Map} (hm : GoodMap m) (hk : AllKeepable m) : ∃ m', cook ((freeze m).map flat) = some m' ∧ MapSame m m' := by
  have e := Props.freeze_back hm fun k v h => (hk k v h).safe
  refine ⟨_, by rw [cook_flat, e]; rfl, by simp [flatMapOf], fun k w w' g1 g2 => ?_⟩
  unfold flatMapOf at g2
  rw [find_map (fun w => w.map flat), find_map (fun w => back (w.length + 1) w 1), g1] at g2
  injection g2 with g2
  subst g2
  have h1 := ((hk k w g1).safe.form (n := w.length + 1) (d := 1) (by omega)).2.1
  exact Same.trans h1 (Same.flat ((hk k w g1).same h1))

theorem keepable_freeze {m : Map} (hm : GoodMap m) (hk : AllKeepable m) : Keepable (freeze m) ∧ ∃ m', cook (freeze m) = some m' ∧ MapSame m m' := by
  have e := Props.freeze_back hm fun k v h => (hk k v h).safe
  have hs : MapSame m (m.map fun kv => (kv.1, back (kv.2.length + 1) kv.2 1)) := by
    refine ⟨by simp, fun k w w' g1 g2 => ?_⟩
    rw [find_map (fun w => back (w.length + 1) w 1), g1] at g2
    injection g2 with g2
    subst g2
    exact ((hk k w g1).safe.form (n := w.length + 1) (d := 1) (by omega)).2.1
  exact ⟨.node e (hk.same hs), _, e, hs⟩

/-! ### maps that change -/

theorem find_put_same (k v : Str) : ∀ m : Map, find k (put k v m) = some v
  | [] => by simp [put, find]
  | (k', v') :: m => by
    unfold put
    split
    · simp [find]
    · split
      · simp [find]
      · rename_i h
        rw [find, if_neg (fun e => h e.symm)]
        exact find_put_same k v m

theorem find_put_ne {k k' : Str} (h : k' ≠ k) (v : Str) : ∀ m : Map, find k' (put k v m) = find k' m
  | [] => by simp [put, find, Ne.symm h]
  | (a, b) :: m => by
    unfold put
    split
    · rw [find, if_neg (Ne.symm h)]
    · split
      · rename_i g
        subst g
        rw [find, if_neg (Ne.symm h), find, if_neg (Ne.symm h)]
      · rw [find, find.eq_def k' ((a, b) :: m)]
        dsimp only
        rw [find_put_ne h v m]

theorem put_good {k v : Str} {m : Map} (hm : GoodMap m) (hk : Word k) : GoodMap (put k v m) := by
  refine ⟨put_sorted hm.sorted, fun kv hkv => ?_⟩
  rcases mem_put hkv with rfl | h
  · exact hk
  · exact hm.words kv h

theorem put_keepable {k v : Str} {m : Map} (hm : AllKeepable m) (hv : Keepable v) : AllKeepable (put k v m) := by
  intro k' v' h
  by_cases e : k' = k
  · subst e
    rw [find_put_same] at h
    injection h with h
    subst h
    exact hv
  · rw [find_put_ne e] at h
    exact hm k' v' h

/-! ### reading what was written -/

theorem readLines_end : ∀ (s line : Str), readLines (s ++ [0x0A]) line = line ++ (s ++ [0x0A]).map flat
  | [], line => by simp [readLines, flat]
  | c :: s, line => by
    rw [List.cons_append, readLines]
    by_cases h : c = 0x0A
    · rw [if_pos h, readLines_end s []]
      simp [flat, h]
    · rw [if_neg h, readLines_end s (line ++ [c])]
      simp [flat, h]

theorem readDna_written (s : Str) : readDna (some (header ++ [0x0A] ++ (s ++ [0x0A]))) = some ((s ++ [0x0A]).map flat) := by
  have hh : ∀ c ∈ header, decide (c ≠ 0x0A) = true := by decide
  unfold readDna
  have e1 : (header ++ [0x0A] ++ (s ++ [0x0A])).takeWhile (· ≠ 0x0A) = header := by
    rw [List.append_assoc, List.takeWhile_append_of_pos hh]
    simp
  have e2 : (header ++ [0x0A] ++ (s ++ [0x0A])).dropWhile (· ≠ 0x0A) = 0x0A :: (s ++ [0x0A]) := by
    rw [List.append_assoc, List.dropWhile_append_of_pos hh]
    simp
  dsimp only
  rw [e1, e2, if_pos rfl, List.drop_succ_cons, List.drop_zero, readLines_end]
  rfl

theorem readDna_freeze (m : Map) : readDna (some (header ++ [0x0A] ++ freeze m)) = some ((freeze m).map flat) := readDna_written _

/-! ### files -/

theorem SameAnswer.trans {a b c : Option Str} (h : SameAnswer a b) (h' : SameAnswer b c) : SameAnswer a c := by
  rcases h with ⟨h1, h2⟩ | ⟨w, w', h1, h2, h3⟩
  · rcases h' with ⟨h4, h5⟩ | ⟨x, x', h4, h5, h6⟩
    · exact .inl ⟨h1, h5⟩
    · rw [h2] at h4; cases h4
  · rcases h' with ⟨h4, h5⟩ | ⟨x, x', h4, h5, h6⟩
    · rw [h2] at h4; cases h4
    · rw [h2] at h4
      injection h4 with h4
      subst h4
      exact .inr ⟨w, x', h1, h5, Same.trans h3 h6⟩

theorem SameAnswer.refl (a : Option Str) : SameAnswer a a := by
  cases a with
  | none => exact .inl ⟨rfl, rfl⟩
  | some w => exact .inr ⟨w, w, rfl, rfl, Same.refl w⟩

theorem MapSame.answer {m m' : Map} (h : MapSame m m') (k : Str) : SameAnswer (find k m) (find k m') := by
  cases e : find k m with
  | none => exact .inl ⟨rfl, find_none_keys h.1 e⟩
  | some w =>
    obtain ⟨w', e'⟩ := find_keys h.1 e
    exact .inr ⟨w, w', rfl, e', h.2 k w w' e e'⟩

theorem MapSame.trans {m m' m'' : Map} (h : MapSame m m') (h' : MapSame m' m'') : MapSame m m'' := by
  refine ⟨h.1.trans h'.1, fun k w w'' g1 g2 => ?_⟩
  obtain ⟨w', g3⟩ := find_keys h.1 g1
  exact Same.trans (h.2 k w w' g1 g3) (h'.2 k w' w'' g3 g2)

theorem Describes.get {file : File} {S P : Map} (h : Describes file S P) (k : Str) : getParameter k file = some ((find k P).getD []) := by
  obtain ⟨dna, h1, h2, _, h3⟩ := h
  unfold getParameter
  rw [h1]
  dsimp only
  rw [h2]
  dsimp only
  cases e : find parametersKey S with
  | none =>
    rw [e] at h3
    dsimp only at h3 ⊢
    rw [h3]
    rfl
  | some text =>
    rw [e] at h3
    dsimp only at h3 ⊢
    rw [h3]
    dsimp only
    cases find k P <;> rfl

theorem Describes.setting {file : File} {S P : Map} (h : Describes file S P) (k : Str) : setting k file = find k S := by
  obtain ⟨dna, h1, h2, _, h3⟩ := h
  unfold Dna.setting
  rw [h1]
  dsimp only
  rw [h2]

theorem Describes.good {file : File} {S P : Map} (h : Describes file S P) : GoodMap P ∧ AllKeepable P ∧ GoodMap S := by
  obtain ⟨dna, h1, h2, h4, h3⟩ := h
  have hS := (cook_good h2).1
  cases e : find parametersKey S with
  | none =>
    rw [e] at h3
    dsimp only at h3
    subst h3
    exact ⟨⟨List.Pairwise.nil, by simp⟩, fun k v h => by simp [find] at h, hS⟩
  | some text =>
    rw [e] at h3
    dsimp only at h3
    refine ⟨(cook_good h3).1, ?_, hS⟩
    cases h4 _ _ e with
    | leaf e' _ => rw [h3] at e'; cases e'
    | node e' h =>
      rw [h3] at e'
      injection e' with e'
      subst e'
      exact h

theorem Describes.changed {file : File} {S P : Map} (h : Describes file S P) (k v : Str) :
    changedDna k v file = some (freeze (put parametersKey (freeze (put k v P)) S)) := by
  obtain ⟨dna, h1, h2, h4, h3⟩ := h
  unfold changedDna
  rw [h1]
  dsimp only
  rw [h2]
  dsimp only
  cases e : find parametersKey S with
  | none =>
    rw [e] at h3
    dsimp only at h3 ⊢
    rw [h3]
  | some text =>
    rw [e] at h3
    dsimp only at h3 ⊢
    rw [h3]

theorem params_word : Word parametersKey := by unfold Word; decide

/-- what the file describes after a parameter was set -/
theorem Describes.set {file : File} {S P : Map} (h : Describes file S P) {k v : Str} (hk : Word k) (hv : Keepable v) :
    ∃ S' P', Describes (some (header ++ [0x0A] ++ freeze (put parametersKey (freeze (put k v P)) S))) S' P' ∧
      MapSame (put k v P) P' ∧ MapSame (put parametersKey (freeze (put k v P)) S) S' := by
  obtain ⟨gP, aP, gS⟩ := h.good
  obtain ⟨_, _, _, aS, _⟩ := h
  have gP' := put_good (v := v) gP hk
  have aP' := put_keepable (k := k) aP hv
  obtain ⟨f1, m, f2, f3⟩ := keepable_freeze gP' aP'
  have gS' := put_good (v := freeze (put k v P)) gS params_word
  have aS' := put_keepable (k := parametersKey) aS f1
  obtain ⟨S', e1, e2⟩ := cook_stored gS' aS'
  obtain ⟨w, e3⟩ := find_keys e2.1 (find_put_same parametersKey (freeze (put k v P)) S)
  have e4 := e2.2 _ _ _ (find_put_same parametersKey (freeze (put k v P)) S) e3
  cases e4 with
  | leaf e => rw [f2] at e; cases e
  | @node _ _ p p' c1 c2 c3 c4 =>
    rw [f2] at c1
    injection c1 with c1
    subst c1
    refine ⟨S', p', ⟨_, readDna_freeze _, e1, aS'.same e2, ?_⟩, f3.trans ⟨c3, c4⟩, e2⟩
    rw [e3]
    exact c2

end Verif.Dna
