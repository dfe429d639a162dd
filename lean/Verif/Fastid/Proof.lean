import Verif.Fastid.Model
import Verif.Hopper.Enum
/-
  The file of ids is read back, and searched rightly.
-/
namespace Verif.Fastid
open Verif.Hopper Verif.Store

/-- what is needed of zlib -/
def Codec.Lawful (C : Codec) : Prop :=
  ∀ x : Bytes, x.length < 9223372036854775808 → (C.crush x).length < 18446744073709551616 ∧ C.tang (C.crush x) x.length = some x

/-! ### the file -/

theorem takeN_append {a b : Bytes} {k : Nat} (h : a.length = k) : takeN k (a ++ b) = some (a, b) := by
  unfold takeN
  rw [if_neg (by rw [List.length_append]; omega)]
  subst h; simp

theorem sized_compressed {a b : Bytes} (h : a.length < 18446744073709551616) : sized (compressedWrite a ++ b) = some (a, b) := by
  unfold sized compressedWrite
  rw [List.append_assoc, takeN_append (leBytes_length 8 _)]
  simp only [Option.bind_eq_bind, Option.bind_some]
  rw [leNat_leBytes 8 a.length (by simpa using h)]
  exact takeN_append rfl

theorem strcpy_eq {t : Bytes} (h : 0 ∉ t) : strcpy t = t := by
  have : t.takeWhile (· ≠ 0) = t := by
    induction t with
    | nil => rfl
    | cons c t ih =>
      rw [List.takeWhile_cons]
      have hc : c ≠ 0 := fun e => h (by simp [e])
      simp only [ne_eq, hc, not_false_eq_true, decide_true, if_true]
      have := ih (fun h' => h (List.mem_cons_of_mem _ h'))
      simp only [ne_eq] at this
      rw [this]
  unfold strcpy
  simp only [this]
  simp

theorem offsets_length : ∀ (ts : List Bytes) (n : Nat), (offsets n ts).length = ts.length
  | [], _ => rfl
  | t :: ts, n => by simp [offsets, offsets_length ts]

theorem offsets_get : ∀ (ts : List Bytes) (n i : Nat), i < ts.length →
    (offsets n ts)[i]? = some ((n + ((ts.take i).map List.length).sum : Nat) : Int)
  | [], _, _, h => by simp at h
  | t :: ts, n, 0, _ => by simp [offsets]
  | t :: ts, n, i + 1, h => by
    simp only [offsets, List.getElem?_cons_succ]
    rw [offsets_get ts _ i (by simpa using h)]
    simp only [List.take_succ_cons, List.map_cons, List.sum_cons, Option.some.injEq]
    omega

theorem offsets_ok : ∀ (ts : List Bytes) (n : Nat),
    (∀ o ∈ offsets n ts, (n : Int) ≤ o ∧ o ≤ n + ((ts.map List.length).sum : Nat)) ∧ (offsets n ts).Pairwise (· ≤ ·)
  | [], n => by simp [offsets]
  | t :: ts, n => by
    obtain ⟨h1, h2⟩ := offsets_ok ts (n + t.length)
    simp only [offsets, List.map_cons, List.sum_cons]
    constructor
    · intro o ho
      rcases List.mem_cons.1 ho with rfl | ho
      · omega
      · have := h1 o ho; omega
    · refine List.pairwise_cons.2 ⟨fun o ho => ?_, h2⟩
      have := h1 o ho; omega

theorem file_ok {C : Codec} (hC : C.Lawful) {ids : List (Ann × Bytes)} (hm : ids.length ≤ 2147483648)
    (hb : ∀ x ∈ ids, 0 ≤ x.1.p ∧ 0 ≤ x.1.q ∧ x.1.p ≤ maxfinity ∧ x.1.q ≤ maxfinity)
    (hs : ids.Pairwise fun x y => x.1.p < y.1.p ∧ x.1.q < y.1.q) (h0 : ∀ x ∈ ids, 0 ∉ x.2)
    (hn : (ids.map (·.2.length)).sum < 9223372036854775808) :
    ∃ b, write C ids = some b ∧ make C b = some ⟨(ids.map (·.2)).flatten, ids.map (·.1.p), ids.map (·.1.q),
      offsets 0 (ids.map (·.2)) ++ [(((ids.map (·.2.length)).sum : Nat) : Int)]⟩ := by
  obtain ⟨ps, p1, p2, -, p3⟩ := post_ok (l := ids.map (·.1.p)) (by
      intro a ha; obtain ⟨x, hx, rfl⟩ := List.mem_map.1 ha; have := hb x hx; omega)
    (by rw [List.pairwise_map]; exact hs.imp fun h => by omega)
  obtain ⟨qs, q1, q2, -, q3⟩ := post_ok (l := ids.map (·.1.q)) (by
      intro a ha; obtain ⟨x, hx, rfl⟩ := List.mem_map.1 ha; have := hb x hx; omega)
    (by rw [List.pairwise_map]; exact hs.imp fun h => by omega)
  have hsum : ((ids.map (·.2)).map List.length).sum = (ids.map (·.2.length)).sum := by rw [List.map_map]; rfl
  obtain ⟨g1, g2⟩ := offsets_ok (ids.map (·.2)) 0
  rw [hsum] at g1
  obtain ⟨os, o1, o2, -, o3⟩ := post_ok (l := offsets 0 (ids.map (·.2))) (by
      intro a ha; have := g1 a ha; omega) g2
  have htext : (ids.map fun x => strcpy x.2).flatten = (ids.map (·.2)).flatten := by
    congr 1
    apply List.map_congr_left
    intro x hx; exact strcpy_eq (h0 x hx)
  have htl : (ids.map (·.2)).flatten.length = (ids.map (·.2.length)).sum := by
    rw [List.length_flatten, hsum]
  obtain ⟨t1, t2⟩ := hC (ids.map (·.2)).flatten (by omega)
  rw [htl] at t2
  rw [addrsBytes_length, List.length_map] at p2 q2 p3 q3
  rw [addrsBytes_length, offsets_length, List.length_map] at o2 o3
  refine ⟨_, by unfold write; simp only [p1, q1, o1, Option.bind_eq_bind, Option.bind_some, htext]; rfl, ?_⟩
  simp only [postExtra] at p2 q2 o2
  have b64 : ∀ l : List Int, (∀ a ∈ l, In64 a) → bytesAddrs l.length (addrsBytes l) = l := by
    intro l hl
    have := bytesAddrs_addrsBytes hl []
    rwa [List.append_nil] at this
  have hmm : leNat (leBytes 8 ids.length) = ids.length := leNat_leBytes 8 _ (by have : (256:Nat)^8 = 18446744073709551616 := by decide
                                                                                omega)
  have hnn : leNat (leBytes 8 (ids.map (·.2.length)).sum) = (ids.map (·.2.length)).sum := leNat_leBytes 8 _ (by
    have : (256:Nat)^8 = 18446744073709551616 := by decide
    omega)
  unfold make
  simp only [List.append_assoc]
  rw [takeN_append (leBytes_length 8 _)]
  simp only [Option.bind_eq_bind, Option.bind_some]
  rw [takeN_append (leBytes_length 8 _)]
  simp only [Option.bind_some]
  rw [sized_compressed (by omega)]
  simp only [Option.bind_some, hmm]
  rw [p3 _ (by omega)]
  simp only [Option.bind_some]
  rw [sized_compressed (by omega)]
  simp only [Option.bind_some]
  rw [q3 _ (by omega)]
  simp only [Option.bind_some]
  rw [sized_compressed (by omega)]
  simp only [Option.bind_some]
  rw [o3 _ (by omega)]
  simp only [Option.bind_some]
  have := sized_compressed (a := C.crush (ids.map (·.2)).flatten) (b := []) t1
  rw [List.append_nil] at this
  rw [this]
  simp only [Option.bind_some, hnn, t2]
  have e1 := b64 (ids.map (·.1.p)) (by intro a ha; obtain ⟨x, hx, rfl⟩ := List.mem_map.1 ha; have := hb x hx; constructor <;> omega)
  have e2 := b64 (ids.map (·.1.q)) (by intro a ha; obtain ⟨x, hx, rfl⟩ := List.mem_map.1 ha; have := hb x hx; constructor <;> omega)
  have e3 := b64 (offsets 0 (ids.map (·.2))) (by intro a ha; have := g1 a ha; constructor <;> omega)
  rw [List.length_map] at e1 e2
  rw [offsets_length, List.length_map] at e3
  rw [e1, e2, e3]
  rfl

/-! ### searching -/

theorem toInt_id {x : Int} (h1 : 0 ≤ x) (h2 : x < 2147483648) : toInt x = x := by
  unfold toInt; omega

theorem at_get {a : List Int} {i : Nat} (h : i < a.length) : at? a (i : Int) = some a[i] := by
  unfold at?
  rw [if_neg (by omega), Int.toNat_natCast, List.getElem?_eq_getElem h]

theorem search_ok {a : List Int} {value : Int} (hs : a.Pairwise (· < ·)) (hl : a.length ≤ 2147483648) :
    ∀ (fuel : Nat) (l h : Int), 0 ≤ l → h < a.length → (h - l + 1).toNat < fuel →
    (∀ i : Nat, a[i]? = some value → l ≤ i ∧ (i : Int) ≤ h) →
    ∃ r, search a value fuel l h = some r ∧ ((r = -1 ∧ value ∉ a) ∨ (0 ≤ r ∧ a[r.toNat]? = some value)) := by
  have lt : ∀ (i j : Nat) (hi : i < a.length) (hj : j < a.length), i < j → a[i] < a[j] := fun i j hi hj h =>
    List.pairwise_iff_getElem.1 hs i j hi hj h
  intro fuel
  induction fuel with
  | zero => intro l h _ _ h3; omega
  | succ fuel ih =>
    intro l h h1 h2 h3 h4
    unfold search
    by_cases hlh : h ≥ l
    · rw [if_pos hlh]
      have hm : toInt (l + (h - l) / 2) = ((l + (h - l) / 2).toNat : Int) := by
        rw [toInt_id (by omega) (by omega)]; omega
      generalize hk : (l + (h - l) / 2).toNat = k at hm
      have hk2 : k < a.length := by omega
      simp only [hm, at_get hk2, Option.bind_eq_bind, Option.bind_some]
      by_cases h5 : a[k] = value
      · rw [if_pos h5]
        exact ⟨_, rfl, .inr ⟨by omega, by rw [Int.toNat_natCast, List.getElem?_eq_getElem hk2, h5]⟩⟩
      · rw [if_neg h5]
        by_cases h6 : a[k] > value
        · rw [if_pos h6]
          refine ih l _ h1 (by omega) (by omega) fun i hi => ⟨(h4 i hi).1, ?_⟩
          obtain ⟨hi1, hi2⟩ := List.getElem?_eq_some_iff.1 hi
          rcases Nat.lt_trichotomy i k with h | h | h
          · omega
          · subst h; exact absurd hi2 h5
          · have := lt k i hk2 hi1 h; omega
        · rw [if_neg h6]
          refine ih _ h (by omega) h2 (by omega) fun i hi => ⟨?_, (h4 i hi).2⟩
          obtain ⟨hi1, hi2⟩ := List.getElem?_eq_some_iff.1 hi
          rcases Nat.lt_trichotomy i k with h | h | h
          · have := lt i k hi1 hk2 h; omega
          · subst h; exact absurd hi2 h5
          · omega
    · rw [if_neg hlh]
      refine ⟨-1, rfl, .inl ⟨rfl, fun hv => ?_⟩⟩
      obtain ⟨i, hi⟩ := List.getElem?_of_mem hv
      have := h4 i hi; omega

theorem flatten_slice : ∀ {ts : List Bytes} {i : Nat} {t : Bytes}, ts[i]? = some t →
    (ts.flatten.drop ((ts.take i).map List.length).sum).take t.length = t
  | [], _, _, h => by simp at h
  | u :: ts, 0, t, h => by
    simp at h; subst h; simp
  | u :: ts, i + 1, t, h => by
    simp at h
    simp only [List.take_succ_cons, List.map_cons, List.sum_cons, List.flatten_cons]
    rw [← List.drop_drop, List.drop_left]
    exact flatten_slice h

/-- translation with the file -/
theorem translate_ok {ids : List (Ann × Bytes)} (hm : ids.length ≤ 2147483648)
    (hs : ids.Pairwise fun x y => x.1.p < y.1.p ∧ x.1.q < y.1.q) (slow : Int → Int → Bytes) (p q : Int) :
    ∃ t, (Fast.mk (ids.map (·.2)).flatten (ids.map (·.1.p)) (ids.map (·.1.q))
      (offsets 0 (ids.map (·.2)) ++ [(((ids.map (·.2.length)).sum : Nat) : Int)])).translate slow p q = some t ∧
      ((∃ x ∈ ids, x.1.p = p ∧ x.1.q = q ∧ t = x.2) ∨ ((∀ x ∈ ids, ¬ (x.1.p = p ∧ x.1.q = q)) ∧ t = slow p q)) := by
  have one : ∀ x ∈ ids, ∀ y ∈ ids, x.1.p = y.1.p → x = y := by
    intro x hx y hy he
    obtain ⟨i, hi, rfl⟩ := List.getElem_of_mem hx
    obtain ⟨j, hj, rfl⟩ := List.getElem_of_mem hy
    rcases Nat.lt_trichotomy i j with h | h | h
    · have := (List.pairwise_iff_getElem.1 hs i j hi hj h).1; omega
    · subst h; rfl
    · have := (List.pairwise_iff_getElem.1 hs j i hj hi h).1; omega
  have hsum : ((ids.map (·.2)).map List.length).sum = (ids.map (·.2.length)).sum := by rw [List.map_map]; rfl
  obtain ⟨r, h1, h2⟩ := search_ok (a := ids.map (·.1.p)) (value := p) (by rw [List.pairwise_map]; exact hs.imp fun h => h.1)
    (by rw [List.length_map]; exact hm) ((ids.map (·.1.p)).length + 1) 0 ((ids.map (·.1.p)).length - 1) (by omega) (by omega) (by omega)
    (fun i hi => by have := (List.getElem?_eq_some_iff.1 hi).1; omega)
  unfold Fast.translate
  simp only [h1, Option.bind_eq_bind, Option.bind_some]
  rcases h2 with ⟨rfl, h2⟩ | ⟨h0, h2⟩
  · rw [if_neg (by simp)]
    refine ⟨_, rfl, .inr ⟨fun x hx h => h2 (List.mem_map.2 ⟨x, hx, h.1⟩), rfl⟩⟩
  · rw [if_pos (by omega)]
    obtain ⟨i, rfl⟩ : ∃ i : Nat, r = i := ⟨r.toNat, by omega⟩
    rw [Int.toNat_natCast, List.getElem?_map] at h2
    obtain ⟨x, hx, hxp⟩ := Option.map_eq_some_iff.1 h2
    have hi := (List.getElem?_eq_some_iff.1 hx).1
    have hq : at? (ids.map (·.1.q)) (i : Int) = some x.1.q := by
      unfold at?
      rw [if_neg (by omega), Int.toNat_natCast, List.getElem?_map, hx]; rfl
    simp only [hq, Option.bind_some]
    by_cases hqq : x.1.q = q
    · rw [if_pos hqq]
      have ho : at? (offsets 0 (ids.map (·.2)) ++ [(((ids.map (·.2.length)).sum : Nat) : Int)]) (i : Int) =
          some (((((ids.map (·.2)).take i).map List.length).sum : Nat) : Int) := by
        unfold at?
        rw [if_neg (by omega), Int.toNat_natCast, List.getElem?_append_left (by rw [offsets_length, List.length_map]; exact hi),
          offsets_get _ _ _ (by rw [List.length_map]; exact hi), Nat.zero_add]
      have he : at? (offsets 0 (ids.map (·.2)) ++ [(((ids.map (·.2.length)).sum : Nat) : Int)]) ((i : Int) + 1) =
          some (((((ids.map (·.2)).take i).map List.length).sum + x.2.length : Nat) : Int) := by
        unfold at?
        rw [if_neg (by omega), show ((i : Int) + 1).toNat = i + 1 by omega]
        have htake : ((ids.map (·.2)).take (i + 1)).map List.length = ((ids.map (·.2)).take i).map List.length ++ [x.2.length] := by
          rw [List.take_succ, List.getElem?_map, hx]; simp
        by_cases hlast : i + 1 < ids.length
        · rw [List.getElem?_append_left (by rw [offsets_length, List.length_map]; exact hlast),
            offsets_get _ _ _ (by rw [List.length_map]; exact hlast), Nat.zero_add, htake]
          simp
        · rw [List.getElem?_append_right (by rw [offsets_length, List.length_map]; omega), offsets_length, List.length_map,
            show i + 1 - ids.length = 0 by omega, ← hsum]
          have : ids.map (·.2) = (ids.map (·.2)).take (i + 1) := by
            rw [List.take_of_length_le (by rw [List.length_map]; omega)]
          rw [this, htake]
          have e2 : (List.take (i+1) (ids.map (·.2))).take i = (ids.map (·.2)).take i := by
            rw [List.take_take, Nat.min_eq_left (by omega)]
          rw [e2]
          simp
      simp only [ho, he, Option.bind_some]
      rw [Int.toNat_natCast, show (((((ids.map (·.2)).take i).map List.length).sum + x.2.length : Nat) : Int) -
        (((((ids.map (·.2)).take i).map List.length).sum : Nat) : Int) = (x.2.length : Int) by omega, Int.toNat_natCast]
      rw [flatten_slice (by rw [List.getElem?_map, hx]; rfl)]
      exact ⟨_, rfl, .inl ⟨x, List.mem_of_getElem? hx, hxp, hqq, rfl⟩⟩
    · rw [if_neg hqq]
      refine ⟨_, rfl, .inr ⟨fun y hy h => hqq ?_, rfl⟩⟩
      rw [one x (List.mem_of_getElem? hx) y hy (by rw [hxp, h.1])]; exact h.2

end Verif.Fastid
