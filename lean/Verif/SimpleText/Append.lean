import Verif.SimpleText.Records
/-
  Appending to a simple warren, and starting again from what is on disk.
-/
namespace Verif.SimpleText
open Verif.Text

variable {T : Tokenizer} {S : Scanner}

/-- the block map of a text that follows `a` addresses and `o` bytes -/
def mapFrom (T : Tokenizer) (b : Text) (a o : Nat) : List (Int × Int) :=
  ((List.range (T.addresses b)).filter fun n => (a + n) % 1024 = 0).map
    fun (n : Nat) => (((a + n : Nat) : Int), ((o + T.skip b n : Nat) : Int))

/-- the block map of records -/
def mapOf (l : List Rec) : List (Int × Int) := l.map fun r => (r.pq, r.start)

theorem records_keep (h : Follows S T) (O B : Nat) (b : Text) (st : Session) :
    mapOf ((T.tokenize b).foldl (Session.token true O B) (st, -1)).1.records = mapOf st.records ++ mapFrom T b B O := by
  unfold mapOf mapFrom
  rw [h.tokenize, fold_keep O B _ 0 0 (st, -1) (by simp only; omega), List.map_append, recs_eq, addresses_eq h,
    Nat.zero_add, Nat.add_zero]
  simp only [h.skip]

theorem records_forget (h : Follows S T) (O B : Nat) (b : Text) (st : Session)
    (hu : ∀ n, (n + B) % 1024 = 0 → (T.tokenize b).countP (fun t => t.address = n) ≤ 1) :
    mapOf ((T.tokenize b).foldl (Session.token false O B) (st, -1)).1.records = mapOf st.records ++ mapFrom T b B O := by
  rw [h.tokenize] at hu
  unfold mapOf mapFrom
  rw [h.tokenize, fold_forget O B _ 0 0 (st, -1) rfl hu, List.map_append, recs_eq, addresses_eq h,
    Nat.zero_add, Nat.add_zero]
  simp only [h.skip]

theorem blockMap_append (hT : Lawful T) {X : Text} (hX : Whole T X) (b : Text) :
    blockMap T (X ++ b) = blockMap T X ++ mapFrom T b (T.addresses X) X.length := by
  unfold blockMap mapFrom
  rw [addresses_append hX, List.range_add, List.filter_append, List.map_append]
  congr 1
  · apply List.map_congr_left
    intro n hn
    have hn := List.mem_range.mp (List.mem_filter.mp hn).1
    rw [skip_left hT hX _ hn]
  · rw [List.filter_map, List.map_map]
    apply List.map_congr_left
    intro n _
    simp only [Function.comp, skip_append hT hX]

theorem undoubled_append {X b : Text} (hX : Whole T X) (h : Undoubled T (X ++ b)) : Undoubled T X ∧
    ∀ n, (n + T.addresses X) % 1024 = 0 → (T.tokenize b).countP (fun t => t.address = n) ≤ 1 := by
  refine ⟨?_, ?_⟩
  · intro n hn
    have := h n hn
    rw [whole_eq hX, List.countP_append] at this
    omega
  · intro n hn
    have := h _ hn
    rw [whole_eq hX, List.countP_append, List.countP_map] at this
    have e : ((fun t : Tok => decide (t.address = n + T.addresses X)) ∘ Tok.moved (T.addresses X) X.length) =
        fun t => decide (t.address = n) := by
      funext t
      simp only [Function.comp, Tok.moved]
      congr 1
      exact propext (by omega)
    rw [e] at this
    omega

/-- a session after the text `X` -/
structure After (T : Tokenizer) (X : Text) (st : Session) : Prop where
  text : st.text = X
  address : st.address = T.addresses X
  offset : st.offset = X.length
  records : mapOf st.records = blockMap T X
  whole : Whole T X

theorem stored_nil : stored [] = [] := rfl

section
variable (hT : Lawful T) (hF : Follows S T)
include hT hF

theorem append_after {keep : Bool} {X : Text} {st : Session} (h : After T X st) {s : Text} (hs : Clean T s)
    (hu : keep = false → Undoubled T (X ++ stored s)) :
    After T (X ++ stored s) (st.append keep T s).1 ∧
    (st.append keep T s).2 = (if T.addresses s = 0 then ((T.addresses X : Int) + 1, (T.addresses X : Int))
      else ((T.addresses X : Int), (T.addresses X : Int) + T.addresses s - 1)) ∧
    (st.append keep T s).1.notes = st.notes ++ (T.tokenize s).map fun t => (t.str, t.address + T.addresses X) := by
  obtain ⟨c1, c2, c3⟩ := clean_stored hT hs
  change T.tokenize (stored s) = _ at c1
  change T.addresses (stored s) = _ at c2
  change Whole T (stored s) at c3
  obtain ⟨h1, h2, h3, h4, h5⟩ := h
  unfold Session.append
  by_cases h0 : s = []
  · subst h0
    have e0 : T.addresses ([] : Text) = 0 := by rw [addresses_of (tokenize_nil hT)]; rfl
    rw [if_pos rfl, stored_nil, List.append_nil]
    simp only [e0, if_true, tokenize_nil hT, List.map_nil, List.append_nil, h2]
    exact ⟨⟨h1, h2, h3, h4, h5⟩, by simp, by simp⟩
  rw [if_neg h0]
  simp only
  have hw : Whole T (X ++ stored s) := whole_append hT h5 c3
  cases hg : (T.tokenize (stored s)).getLast? with
  | none =>
    have e0 : T.addresses (stored s) = 0 := by unfold Tokenizer.addresses; rw [hg]
    have et : T.tokenize (stored s) = [] := List.getLast?_eq_none_iff.mp hg
    simp only [← c2, ← c1, e0, et, if_true, List.map_nil, List.append_nil, h2]
    refine ⟨⟨?_, ?_, ?_, ?_, hw⟩, by simp, by simp⟩
    · simp only [h1]
    · simp only [h2, addresses_append h5, e0, Nat.add_zero]
    · simp only [h3, List.length_append]
    · rw [blockMap_append hT h5]
      simp only [h4, mapFrom, e0]
      simp
  | some l =>
    have e0 : T.addresses (stored s) = l.address + 1 := by unfold Tokenizer.addresses; rw [hg]
    obtain ⟨r1, r2⟩ := fold_rest keep st.offset st.address (T.tokenize (stored s)) ({ st with text := st.text ++ stored s }, -1)
    simp only [← c2, ← c1, e0, h2]
    refine ⟨⟨?_, ?_, ?_, ?_, hw⟩, ?_, ?_⟩
    · simp only; rw [← h2, r1, h1]
    · simp only [addresses_append h5, e0, h2]; omega
    · simp only [h3, List.length_append]
    · simp only
      rw [blockMap_append hT h5, ← h4, h3]
      cases keep with
      | true => exact records_keep hF _ _ _ _
      | false => exact records_forget hF _ _ _ _ (undoubled_append h5 (hu rfl)).2
    · rw [if_neg (by omega)]
      congr 1
      omega
    · rw [← h2, r2]

theorem all_after {keep : Bool} : ∀ (l : List Text) {X : Text} {st : Session}, After T X st → (∀ s ∈ l, Clean T s) →
    (keep = false → Undoubled T (X ++ (l.map stored).flatten)) →
    After T (X ++ (l.map stored).flatten) (Session.all keep T st l)
  | [], X, st, h, _, _ => by simpa [Session.all] using h
  | s :: l, X, st, h, hs, hu => by
    have hc := hs s (by simp)
    have e : X ++ ((s :: l).map stored).flatten = X ++ stored s ++ (l.map stored).flatten := by simp
    have hw : Whole T (X ++ stored s) := whole_append hT h.whole (clean_stored hT hc).2.2
    rw [e] at hu ⊢
    rw [Session.all]
    exact all_after l (append_after hT hF h hc fun hk => (undoubled_append hw (hu hk)).1).1
      (fun u hu => hs u (by simp [hu])) hu

omit hF in
theorem after_empty : After T [] {} := by
  have e0 : T.addresses ([] : Text) = 0 := by rw [addresses_of (tokenize_nil hT)]; rfl
  exact ⟨rfl, e0.symm, rfl, by simp [mapOf, blockMap, e0], whole_nil hT⟩

/-! ### cutting -/

omit hF in
theorem skip_lt {X : Text} {n : Nat} (h : n < T.addresses X) : T.skip X n < X.length := by
  obtain ⟨t, ht, rfl⟩ := (at_lt hT X n).mpr h
  rw [(hT.skips X).start t ht]
  have := (hT.ordered X).inside t ht
  omega

omit hF in
theorem skip_end {X : Text} {n : Nat} (h : T.addresses X ≤ n) : T.skip X n = X.length :=
  (hT.skips X).past n (by rw [at_lt hT]; omega)

omit hF in
theorem skip_strict {X : Text} {m n : Nat} (h : m < n) (hm : m < T.addresses X) : T.skip X m < T.skip X n := by
  by_cases hn : n < T.addresses X
  · obtain ⟨t, ht, rfl⟩ := (at_lt hT X m).mpr hm
    obtain ⟨u, hu, rfl⟩ := (at_lt hT X n).mpr hn
    rw [(hT.skips X).start t ht, (hT.skips X).start u hu]
    have h1 := (hT.ordered X).inside t ht
    have h2 := (hT.ordered X).mono t ht u hu h
    omega
  · rw [skip_end hT (n := n) (by omega)]
    exact skip_lt hT hm

omit hF in
theorem skip_le_of {X : Text} {m n : Nat} (h : m ≤ n) : T.skip X m ≤ T.skip X n := by
  have := skip_mono hT X m (n - m)
  rwa [show m + (n - m) = n by omega] at this

omit hF in
theorem addresses_drop (hC : Cuts T) (X : Text) (n : Nat) : T.addresses (X.drop (T.skip X n)) = T.addresses X - n := by
  by_cases h : n < T.addresses X
  · obtain ⟨h1, h2⟩ := hC X n ((at_lt hT X n).mpr h)
    have h3 : T.addresses X = match (T.tokenize (X.drop (T.skip X n))).getLast? with
        | none => n
        | some t => t.address + 1 + n := by
      rw [addresses_of h2, List.getLast?_append, List.getLast?_map]
      cases hg : (T.tokenize (X.drop (T.skip X n))).getLast? with
      | none =>
        simp only [Option.map_none, Option.none_or]
        rw [← h1, h1]
        exact h1
      | some t =>
        simp [Tok.moved]; omega
    have h4 : T.addresses (X.drop (T.skip X n)) = match (T.tokenize (X.drop (T.skip X n))).getLast? with
        | none => 0
        | some t => t.address + 1 := rfl
    cases hg : (T.tokenize (X.drop (T.skip X n))).getLast? with
    | none => rw [hg] at h3 h4; simp only at h3 h4; omega
    | some t => rw [hg] at h3 h4; simp only at h3 h4; omega
  · rw [skip_end hT (by omega), List.drop_length, addresses_of (tokenize_nil hT)]
    simp only [List.getLast?_nil]; omega

end

/-- a list of the multiples of 1024 -/
theorem multiples (N : Nat) : (List.range N).filter (fun n => decide (n % 1024 = 0)) =
    (List.range ((N + 1023) / 1024)).map (1024 * ·) := by
  induction N with
  | zero => rfl
  | succ N ih =>
    rw [List.range_succ, List.filter_append, ih]
    by_cases h : N % 1024 = 0
    · have e : (N + 1 + 1023) / 1024 = (N + 1023) / 1024 + 1 := by omega
      have e2 : 1024 * ((N + 1023) / 1024) = N := by omega
      rw [e, List.range_succ, List.map_append]
      simp [h, e2]
    · have e : (N + 1 + 1023) / 1024 = (N + 1023) / 1024 := by omega
      rw [e]
      simp [h]

theorem blockMap_eq (X : Text) : blockMap T X = (List.range ((T.addresses X + 1023) / 1024)).map
    fun (k : Nat) => (((1024 * k : Nat) : Int), (T.skip X ((1024 * k : Nat) : Int) : Int)) := by
  unfold blockMap
  rw [multiples, List.map_map]
  rfl

/-- what is on disk after the text `X` -/
structure Kept (T : Tokenizer) (X : Text) (d : Disk) : Prop where
  text : d.text = X
  records : mapOf d.records = blockMap T X
  whole : Whole T X

theorem After.kept {X : Text} {st : Session} (h : After T X st) : Kept T X ⟨st.text, st.records⟩ :=
  ⟨h.text, h.records, h.whole⟩

theorem cstring_id {s : Text} (h : ∀ b ∈ s, b ≠ 0) : cstring s = s := by
  unfold cstring
  induction s with
  | nil => rfl
  | cons c s ih =>
    rw [List.takeWhile_cons, if_pos (by simpa using h c (by simp)), ih fun b hb => h b (by simp [hb])]

theorem split_length (hT : Lawful T) {s : Text} (h : T.Splits s) : (T.split s).length = T.addresses s := by
  have h1 : T.addresses s ≤ (T.split s).length := by
    cases hN : T.addresses s with
    | zero => omega
    | succ n => exact h.all n ((at_lt hT s n).mpr (by omega))
  have h2 : (T.split s).length ≤ T.addresses s := by
    cases hN : (T.split s).length with
    | zero => omega
    | succ n =>
      obtain ⟨t, ht, e, -⟩ := h.each n ((T.split s)[n]'(by omega)) (List.getElem?_eq_getElem _)
      have := (at_lt hT s n).mp ⟨t, ht, e⟩
      omega
  omega

/-- starting a transaction finds the number of addresses -/
theorem start_after (hT : Lawful T) (hC : Cuts T) (hsplit : ∀ s, (∀ b ∈ s, b ≠ (0 : UInt8)) → T.Splits s)
    {X : Text} {d : Disk} (h : Kept T X d) (h0 : ∀ b ∈ X, b ≠ (0 : UInt8)) :
    ∃ st, start T d = some st ∧ After T X st ∧ st.notes = [] := by
  obtain ⟨h1, h2, h3⟩ := h
  unfold start
  cases hg : d.records.getLast? with
  | none =>
    have hr : d.records = [] := List.getLast?_eq_none_iff.mp hg
    have h2' := h2
    rw [hr, blockMap_eq] at h2
    have hl := congrArg List.length h2
    simp only [mapOf, List.map_nil, List.length_nil, List.length_map, List.length_range] at hl
    refine ⟨_, rfl, ⟨h1, ?_, by simp only [h1], h2', h3⟩, rfl⟩
    simp only
    omega
  | some r =>
    have hlast : (mapOf d.records).getLast? = some (r.pq, r.start) := by
      unfold mapOf; rw [List.getLast?_map, hg]; rfl
    rw [h2, blockMap_eq, List.getLast?_map] at hlast
    cases hR : (T.addresses X + 1023) / 1024 with
    | zero => rw [hR] at hlast; simp at hlast
    | succ k =>
      rw [hR, List.range_succ, List.getLast?_concat] at hlast
      simp only [Option.map_some, Option.some.injEq, Prod.mk.injEq] at hlast
      have hk : 1024 * k < T.addresses X := by omega
      have hlt := skip_lt hT hk
      have hst : r.start.toNat = T.skip X ((1024 * k : Nat) : Int) := by omega
      simp only [h1, hst]
      rw [if_neg (by omega)]
      have hnul : ∀ b ∈ X.drop (T.skip X ((1024 * k : Nat) : Int)), b ≠ (0 : UInt8) :=
        fun b hb => h0 b (List.mem_of_mem_drop hb)
      rw [cstring_id hnul]
      have hlen := split_length hT (hsplit _ hnul)
      rw [addresses_drop hT hC] at hlen
      rw [if_neg (by intro e; rw [e] at hlen; simp only [List.length_nil] at hlen; omega)]
      refine ⟨_, rfl, ⟨rfl, ?_, rfl, h2, h3⟩, rfl⟩
      simp only [hlen, ← hlast.1]
      omega

theorem history (hT : Lawful T) (hF : Follows S T) (hC : Cuts T)
    (hsplit : ∀ s, (∀ b ∈ s, b ≠ (0 : UInt8)) → T.Splits s) : ∀ (ts : List Txn) {X : Text} {d : Disk}, Kept T X d →
    (∀ s ∈ committed ts, Clean T s) → (∀ b ∈ X ++ ((committed ts).map stored).flatten, b ≠ (0 : UInt8)) →
    Undoubled T (X ++ ((committed ts).map stored).flatten) →
    ∃ d', transactAll T d ts = some d' ∧ Kept T (X ++ ((committed ts).map stored).flatten) d'
  | [], X, d, h, _, _, _ => ⟨d, rfl, by simpa [committed] using h⟩
  | t :: ts, X, d, h, hc, h0, hu => by
    obtain ⟨st, e1, e2, -⟩ := start_after hT hC hsplit h (fun b hb => h0 b (List.mem_append_left _ hb))
    rw [transactAll, transact, e1]
    simp only
    by_cases hk : t.commit = true
    · have e : committed (t :: ts) = t.texts ++ committed ts := by simp [committed, hk]
      rw [e] at hc h0 hu ⊢
      rw [List.map_append, List.flatten_append, ← List.append_assoc] at h0 hu ⊢
      rw [if_pos hk]
      have hw : Whole T (X ++ (t.texts.map stored).flatten) := by
        have := all_after hT hF (keep := true) t.texts e2 (fun s hs => hc s (by simp [hs])) (fun h => by cases h)
        exact this.whole
      have := all_after hT hF (keep := false) t.texts e2 (fun s hs => hc s (by simp [hs]))
        fun _ => (undoubled_append hw hu).1
      exact history hT hF hC hsplit ts this.kept (fun s hs => hc s (by simp [hs])) h0 hu
    · have e : committed (t :: ts) = committed ts := by simp [committed, hk]
      rw [e] at hc h0 hu ⊢
      rw [if_neg hk]
      exact history hT hF hC hsplit ts h hc h0 hu

end Verif.SimpleText
