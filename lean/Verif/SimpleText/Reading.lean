import Verif.SimpleText.Append
/-
  Reading the text of a simple warren by address.
-/
namespace Verif.SimpleText
open Verif.Text

variable {T : Tokenizer}

/-- number of blocks -/
def blockCount (T : Tokenizer) (X : Text) : Nat := (T.addresses X + 1023) / 1024

/-- `memo` is at a place of the text -/
def MemoOk (T : Tokenizer) (X : Text) (m : Memo) : Prop :=
  ∃ A k : Nat, A ≤ k ∧ A < T.addresses X ∧ m.offset = T.skip X A ∧ m.skip = (k : Int) - A ∧
    m.stop = (T.skip X k : Int) - T.skip X A

structure ReaderOk (T : Tokenizer) (X : Text) (r : Reader) : Prop where
  text : r.text = X
  length : r.map.length = blockCount T X + 1
  map : ∀ k ≤ blockCount T X, r.map.getD k 0 = (T.skip X ((1024 * k : Nat) : Int) : Int)
  blocking : r.blocking = if blockCount T X ≤ 1 then -1 else 1024
  memo : ∀ m, r.memo = some m → MemoOk T X m
  computed : ∀ n, r.computed = some n → n = T.addresses X

theorem blocks_gen : ∀ (l : List Rec) (j : Nat), (∀ i r, l[i]? = some r → r.pq = ((1024 * (j + 1 + i) : Nat) : Int)) →
    blocks ((1024 * j : Nat) : Int) 1024 l = some 1024
  | [], j, _ => rfl
  | r :: l, j, h => by
    have h0 := h 0 r rfl
    rw [blocks, if_pos (by omega), if_pos (by omega), if_neg (by omega), h0]
    exact blocks_gen l (j + 1) fun i r hr => by rw [h (i + 1) r (by simpa using hr)]; congr 1; omega

theorem load_ok (hT : Lawful T) {X : Text} {d : Disk} (h : Kept T X d) : ∃ r, load d = some r ∧ ReaderOk T X r ∧ r.memo = none := by
  obtain ⟨h1, h2, -⟩ := h
  rw [blockMap_eq] at h2
  have hlen : d.records.length = blockCount T X := by
    have := congrArg List.length h2
    simpa [mapOf, blockCount] using this
  have hget : ∀ i r, d.records[i]? = some r → r.pq = ((1024 * i : Nat) : Int) ∧
      r.start = (T.skip X ((1024 * i : Nat) : Int) : Int) := by
    intro i r hr
    have hi : i < blockCount T X := by
      rw [← hlen]
      exact (List.getElem?_eq_some_iff.mp hr).1
    have := congrArg (·[i]?) h2
    simp only [mapOf, List.getElem?_map, hr, Option.map_some] at this
    rw [List.getElem?_range (by exact hi)] at this
    simpa using this
  have hb : blocks (-1) (-1) d.records = some (if blockCount T X ≤ 1 then -1 else 1024) := by
    cases hr : d.records with
    | nil => rw [← hlen, hr]; rfl
    | cons r l =>
      have hr0 := (hget 0 r (by rw [hr]; rfl)).1
      rw [blocks, if_neg (by omega)]
      cases l with
      | nil => rw [← hlen, hr]; rfl
      | cons u l =>
        have hu := (hget 1 u (by rw [hr]; rfl)).1
        rw [blocks, if_pos (by omega), if_neg (by omega), hr0, hu, ← hlen, hr]
        rw [if_neg (by simp)]
        exact blocks_gen l 1 fun i v hv => by
          rw [(hget (i + 2) v (by rw [hr]; simpa using hv)).1]; congr 1; omega
  refine ⟨_, by unfold load; rw [hb], ⟨h1, ?_, ?_, rfl, (fun m hm => by cases hm), (fun n hn => by cases hn)⟩, rfl⟩
  · simp [hlen]
  · intro k hk
    simp only
    by_cases hk' : k < blockCount T X
    · rw [List.getD_eq_getElem?_getD, List.getElem?_append_left (by simpa [hlen] using hk'), List.getElem?_map, List.getElem?_eq_getElem (by omega)]
      simp only [Option.map_some, Option.getD_some]
      exact (hget k _ (List.getElem?_eq_getElem (by omega))).2
    · obtain rfl : k = blockCount T X := by omega
      rw [List.getD_eq_getElem?_getD, List.getElem?_append_right (by simp [hlen])]
      simp only [List.length_map, hlen, Nat.sub_self, List.getElem?_cons_zero, Option.getD_some, h1]
      rw [skip_end hT (by unfold blockCount; omega)]

section
variable (hT : Lawful T) (hC : Cuts T)
include hT hC

omit hC in
theorem between_length (X : Text) (k B : Nat) : (between T X k B).length = T.skip X B - T.skip X k := by
  have := skip_le hT X B
  unfold between
  rw [List.length_take, List.length_drop]
  omega

omit hC in
theorem skip_drop (X : Text) (k m : Nat) : T.skip (X.drop (T.skip X k)) m = T.skip X (k + m : Nat) - T.skip X k := by
  have := (hT.skips X).add k m (by omega) (by omega)
  have e : ((k + m : Nat) : Int) = (k : Int) + m := by omega
  rw [e]; omega

/-- skipping in a part of the text -/
theorem skip_between {X : Text} {k B : Nat} (m : Nat) (h : T.skip X k ≤ T.skip X B) :
    T.skip (between T X k B) m = min (T.skip X (k + m : Nat)) (T.skip X B) - T.skip X k := by
  have hm := skip_le_of hT (X := X) (m := k) (n := k + m) (by omega)
  by_cases hB : T.addresses X ≤ B
  · have e : between T X k B = X.drop (T.skip X k) := by
      unfold between
      rw [skip_end hT hB, List.take_of_length_le (by rw [List.length_drop]; omega)]
    have := skip_le hT X (k + m)
    rw [e, skip_drop hT, skip_end hT hB, Nat.min_eq_left this]
  · have hkB : k ≤ B := by
      apply Classical.byContradiction
      intro hn
      have := skip_strict hT (X := X) (m := B) (n := k) (by omega) (by omega)
      omega
    have eB : T.skip X B - T.skip X k = T.skip (X.drop (T.skip X k)) (B - k : Nat) := by
      rw [skip_drop hT, show k + (B - k) = B by omega]
    have hat : T.At (X.drop (T.skip X k)) (B - k) := by
      rw [at_lt hT, addresses_drop hT hC]; omega
    obtain ⟨c1, c2⟩ := hC _ _ hat
    have eb : between T X k B = (X.drop (T.skip X k)).take (T.skip (X.drop (T.skip X k)) (B - k : Nat)) := by
      unfold between; rw [eB]
    rw [← eb] at c1 c2
    by_cases hlt : m < B - k
    · obtain ⟨t, ht, rfl⟩ := (at_lt hT _ m).mpr (by rw [c1]; exact hlt)
      have ht' : t ∈ T.tokenize (X.drop (T.skip X k)) := by rw [c2]; exact List.mem_append_left _ ht
      rw [(hT.skips _).start t ht, ← (hT.skips _).start t ht', skip_drop hT,
        Nat.min_eq_left (skip_le_of hT (by omega))]
    · rw [skip_end hT (by rw [c1]; omega), between_length hT, Nat.min_eq_right (skip_le_of hT (by omega))]

omit hC in
/-- the plan: which part of the text is read -/
theorem plan_ok {X : Text} {r : Reader} (hr : ReaderOk T X r) {p q : Nat} (hpq : p ≤ q) :
    (T.addresses X ≤ p ∧ plan r p q = some none) ∨
    ∃ A B : Nat, A ≤ p ∧ A < T.addresses X ∧ (q + 1 ≤ B ∨ T.addresses X ≤ B) ∧
      plan r p q = some (some ⟨T.skip X A, (T.skip X B : Int) - T.skip X A, (p : Int) - A, (q : Int) - p + 1⟩) := by
  unfold plan
  have hlen := hr.length
  have hmap := hr.map
  have hbl := hr.blocking
  have hR : blockCount T X = (T.addresses X + 1023) / 1024 := rfl
  simp only
  by_cases h1 : blockCount T X ≤ 1
  · rw [if_pos h1] at hbl
    rw [if_pos hbl, if_neg (by omega), if_pos hbl]
    by_cases h0 : blockCount T X = 0
    · left
      rw [if_pos (by omega)]
      exact ⟨by omega, rfl⟩
    · right
      rw [if_neg (by omega)]
      have m0 := hmap 0 (by omega)
      have m1 := hmap 1 (by omega)
      refine ⟨0, 1024, by omega, by omega, Or.inr (by omega), ?_⟩
      rw [if_neg (by omega)]
      have e0 : (0 : Int).toNat = 0 := rfl
      have e1 : (1 : Int).toNat = 1 := rfl
      rw [e0, e1, m0, m1]
      simp
  · rw [if_neg h1] at hbl
    have n1 : ¬ (1024 : Int) = -1 := by decide
    have n0 : ¬ (1024 : Int) = 0 := by decide
    simp only [hbl, n1, n0, if_false]
    by_cases hp : (p : Int) / 1024 ≥ (r.map.length : Int) - 1
    · left
      rw [if_pos hp]
      exact ⟨by omega, rfl⟩
    · right
      rw [if_neg hp]
      have ep : ((p : Int) / 1024).toNat = p / 1024 := by omega
      have mp := hmap (p / 1024) (by omega)
      by_cases hq : (q : Int) / 1024 + 1 ≥ (r.map.length : Int)
      · refine ⟨1024 * (p / 1024), 1024 * blockCount T X, by omega, by omega, Or.inr (by omega), ?_⟩
        rw [if_pos hq]
        have eq : ((r.map.length : Int) - 1).toNat = blockCount T X := by omega
        have mq := hmap (blockCount T X) (by omega)
        rw [ep, eq, mp, mq]
        congr 3
        omega
      · refine ⟨1024 * (p / 1024), 1024 * (q / 1024 + 1), by omega, by omega, Or.inl (by omega), ?_⟩
        rw [if_neg hq]
        have eq : ((q : Int) / 1024 + 1).toNat = q / 1024 + 1 := by omega
        have mq := hmap (q / 1024 + 1) (by omega)
        rw [ep, eq, mp, mq]
        congr 3
        omega

omit hC in
/-- where reading resumes -/
theorem resume_ok {X : Text} {r : Reader} (hr : ReaderOk T X r) {A B p : Nat} {count : Int} (hA : A ≤ p)
    (hAN : A < T.addresses X) (hAB : T.skip X A ≤ T.skip X B) :
    ∃ k : Nat, A ≤ k ∧ k ≤ p ∧ T.skip X k ≤ T.skip X B ∧
      resume r ⟨T.skip X A, (T.skip X B : Int) - T.skip X A, (p : Int) - A, count⟩ =
        (⟨T.skip X k, (T.skip X B : Int) - T.skip X k, (p : Int) - k, count⟩, (T.skip X k : Int) - T.skip X A) := by
  unfold resume
  cases hm : r.memo with
  | none => exact ⟨A, by omega, hA, hAB, by simp⟩
  | some m =>
    obtain ⟨A', k, m1, m2, m3, m4, m5⟩ := hr.memo m hm
    simp only
    split
    · rename_i hc
      obtain ⟨c1, c2, c3⟩ := hc
      have e : A' = A := by
        rw [m3] at c1
        apply Classical.byContradiction
        intro hne
        rcases Nat.lt_or_gt_of_ne hne with hl | hl
        · have := skip_strict hT (X := X) hl m2; omega
        · have := skip_strict hT (X := X) hl hAN; omega
      subst e
      refine ⟨k, m1, by omega, by omega, ?_⟩
      rw [m4, m5]
      have e1 : (T.skip X (A' : Int) : Int) + ((T.skip X (k : Int) : Int) - T.skip X (A' : Int)) = T.skip X (k : Int) := by omega
      have e2 : (T.skip X (B : Int) : Int) - T.skip X (A' : Int) - ((T.skip X (k : Int) : Int) - T.skip X (A' : Int)) =
        (T.skip X (B : Int) : Int) - T.skip X (k : Int) := by omega
      have e3 : (p : Int) - A' - ((k : Int) - A') = p - k := by omega
      rw [e1, e2, e3]
    · exact ⟨A, by omega, hA, hAB, by simp⟩

theorem drop_between {X : Text} {k p B : Nat} (hk : k ≤ p) :
    (between T X k B).drop (T.skip X p - T.skip X k) = between T X p B := by
  have := skip_le_of hT (X := X) hk
  unfold between
  rw [List.drop_take, List.drop_drop]
  congr 1
  · omega
  · congr 1; omega

theorem fetch_ok {X : Text} {r : Reader} (hr : ReaderOk T X r) {A B p q k : Nat} (hpq : p ≤ q) (hAN : A < T.addresses X)
    (hAk : A ≤ k) (hkp : k ≤ p) (hkB : T.skip X k ≤ T.skip X B) (hqB : q + 1 ≤ B ∨ T.addresses X ≤ B) :
    ∃ r', fetch T r ⟨T.skip X A, (T.skip X B : Int) - T.skip X A, (p : Int) - A, (q : Int) - p + 1⟩
        ⟨T.skip X k, (T.skip X B : Int) - T.skip X k, (p : Int) - k, (q : Int) - p + 1⟩
        ((T.skip X k : Int) - T.skip X A) = (r', between T X p (q + 1)) ∧ ReaderOk T X r' := by
  have hforget : ReaderOk T X { r with memo := none } :=
    ⟨hr.text, hr.length, hr.map, hr.blocking, (fun m hm => by cases hm), hr.computed⟩
  have hbuf : readText r.text (T.skip X k : Int) ((T.skip X B : Int) - T.skip X k) = between T X k B := by
    unfold readText between
    rw [hr.text]
    congr 1 
    omega
  have hqle : T.skip X (q + 1 : Nat) ≤ T.skip X B := by
    rcases hqB with h | h
    · exact skip_le_of hT h
    · rw [skip_end hT h]; exact skip_le hT X _
  have hnone : T.skip X B ≤ T.skip X p → between T X p (q + 1) = [] := by
    intro h
    apply List.length_eq_zero_iff.mp
    rw [between_length hT]
    omega
  have hkple := skip_le_of hT (X := X) hkp
  unfold fetch
  simp only [hbuf]
  split
  · rename_i he
    have := congrArg List.length he
    rw [between_length hT] at this
    simp only [List.length_nil] at this
    exact ⟨_, by rw [hnone (by omega)], hforget⟩
  · have es : T.skip (between T X k B) ((p : Int) - k) = min (T.skip X p) (T.skip X B) - T.skip X k := by
      have := skip_between hT hC (p - k) hkB
      rw [show k + (p - k) = p by omega, show ((p - k : Nat) : Int) = (p : Int) - k by omega] at this
      exact this
    rw [es]
    split
    · rename_i hge
      rw [between_length hT] at hge
      exact ⟨_, by rw [hnone (by omega)], hforget⟩
    · rename_i hlt
      rw [between_length hT] at hlt
      have hpB : T.skip X p < T.skip X B := by omega
      have emin : min (T.skip X (p : Int)) (T.skip X (B : Int)) = T.skip X p := Nat.min_eq_left (by omega)
      rw [emin, drop_between hT hC hkp]
      have ee : T.skip (between T X p B) ((q : Int) - p + 1) = T.skip X (q + 1 : Nat) - T.skip X p := by
        have := skip_between hT hC (k := p) (B := B) (X := X) (q + 1 - p) (by omega)
        rw [show p + (q + 1 - p) = q + 1 by omega, show ((q + 1 - p : Nat) : Int) = (q : Int) - p + 1 by omega,
          Nat.min_eq_left hqle] at this
        exact this
      rw [ee]
      have etake : (between T X p B).take (T.skip X (q + 1 : Nat) - T.skip X p) = between T X p (q + 1) := by
        unfold between
        rw [List.take_take, Nat.min_eq_left (by omega)]
      rw [etake]
      have hpq1 := skip_le_of hT (X := X) (m := p) (n := q + 1) (by omega)
      have hA := skip_le_of hT (X := X) hAk
      refine ⟨_, rfl, hr.text, hr.length, hr.map, hr.blocking, ?_, hr.computed⟩
      intro m hm
      simp only at hm
      split at hm
      · cases hm
        refine ⟨A, q + 1, by omega, hAN, rfl, by simp only; omega, ?_⟩
        simp only
        omega
      · cases hm

/-- any range can be read -/
theorem translate_ok {X : Text} (hN : (T.addresses X : Int) ≤ maxfinity) {r : Reader} (hr : ReaderOk T X r) (p q : Int) :
    ∃ r', translate T r p q = some (r', between T X p.toNat (q + 1).toNat) ∧ ReaderOk T X r' := by
  have hnone : ∀ {a b : Nat}, T.skip X b ≤ T.skip X a → between T X a b = [] := by
    intro a b h
    apply List.length_eq_zero_iff.mp
    rw [between_length hT]
    omega
  unfold translate
  split
  · rename_i hp
    refine ⟨r, ?_, hr⟩
    rw [hnone]
    rw [skip_end hT (n := p.toNat) (by omega)]
    exact skip_le hT X _
  · rename_i hp
    simp only
    have hq : T.skip X ((q + 1).toNat : Nat) = T.skip X (((if q = maxfinity then q - 1 else q) + 1).toNat : Nat) := by
      split
      · rw [skip_end hT (by omega), skip_end hT (by omega)]
      · rfl
    have hb : between T X p.toNat (q + 1).toNat = between T X p.toNat ((if q = maxfinity then q - 1 else q) + 1).toNat := by
      unfold between; rw [hq]
    rw [hb]
    generalize (if q = maxfinity then q - 1 else q) = q'
    have hp' : p.toNat = (if p < 0 then 0 else p).toNat := by split <;> omega
    rw [hp']
    have hp0 : 0 ≤ (if p < 0 then 0 else p) := by split <;> omega
    generalize (if p < 0 then 0 else p) = p' at hp0 ⊢
    split
    · rename_i h
      exact ⟨r, by rw [hnone (skip_le_of hT (by omega))], hr⟩
    · rename_i h
      obtain ⟨p, rfl⟩ : ∃ n : Nat, p' = n := ⟨p'.toNat, by omega⟩
      obtain ⟨q, rfl⟩ : ∃ n : Nat, q' = n := ⟨q'.toNat, by omega⟩
      have e1 : (p : Int).toNat = p := by omega
      have e2 : ((q : Int) + 1).toNat = q + 1 := by omega
      rw [e1, e2]
      rcases plan_ok hT hr (p := p) (q := q) (by omega) with ⟨h1, h2⟩ | ⟨A, B, h1, h2, h3, h4⟩
      · rw [h2]
        refine ⟨r, ?_, hr⟩
        rw [hnone]
        rw [skip_end hT h1]; exact skip_le hT X _
      · rw [h4]
        simp only
        have hAB : T.skip X A ≤ T.skip X B := by
          rcases h3 with h | h
          · exact skip_le_of hT (by omega)
          · rw [skip_end hT h]; exact skip_le hT X _
        obtain ⟨k, k1, k2, k3, k4⟩ := resume_ok hT hr (count := (q : Int) - p + 1) h1 h2 hAB
        rw [k4]
        simp only
        obtain ⟨r', f1, f2⟩ := fetch_ok hT hC hr (by omega : p ≤ q) h2 k1 k2 k3 h3
        exact ⟨r', by rw [f1], f2⟩

/-- the number of addresses -/
theorem tokens_ok {X : Text} (hN : (T.addresses X : Int) ≤ maxfinity) (hsplit : ∀ n, T.Splits (X.drop n))
    {r : Reader} (hr : ReaderOk T X r) :
    ∃ r', tokens T r = some (r', (T.addresses X : Int)) ∧ ReaderOk T X r' := by
  unfold tokens
  cases hc : r.computed with
  | some n => exact ⟨r, by rw [← hr.computed n hc], hr⟩
  | none =>
    simp only
    have hlen := hr.length
    have hR : blockCount T X = (T.addresses X + 1023) / 1024 := rfl
    obtain ⟨F, hF, hle⟩ : ∃ F : Nat, (if r.map.length < 3 then 0 else r.blocking * ((r.map.length : Int) - 2)) = (F : Int) ∧
        F ≤ T.addresses X := by
      split
      · exact ⟨0, rfl, by omega⟩
      · rename_i h
        refine ⟨1024 * (blockCount T X - 1), ?_, by omega⟩
        rw [hr.blocking, if_neg (by omega), hlen]
        omega
    rw [hF]
    obtain ⟨r', h1, h2⟩ := translate_ok hT hC hN hr F maxfinity
    rw [h1]
    simp only
    have e : between T X (F : Int).toNat (maxfinity + 1).toNat = X.drop (T.skip X F) := by
      unfold between
      rw [skip_end hT (n := (maxfinity + 1).toNat) (by omega), List.take_of_length_le]
      · simp
      · rw [List.length_drop]; exact Nat.le_refl _
    rw [e, split_length hT (hsplit _), addresses_drop hT hC]
    have hn : (F : Int) + ((T.addresses X - F : Nat) : Int) = T.addresses X := by omega
    rw [hn]
    exact ⟨_, rfl, h2.text, h2.length, h2.map, h2.blocking, h2.memo, fun n hn => by
      simp only [Option.some.injEq] at hn; exact hn.symm⟩

end

end Verif.SimpleText
