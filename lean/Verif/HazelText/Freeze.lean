import Verif.HazelText.Shard
/-
  Writing a dynamic shard's text and merging static texts keep the text, in pieces that end
  between transactions or before tokens.
-/
namespace Verif.HazelText
open Verif.Hopper Verif.Text Verif.Store

variable {T : Tokenizer} {z : TxtIO.Codec}

section
variable (hT : Lawful T) (hnl : NewlineGap T)
include hT hnl

theorem Bound.right {g1 g2 : List Txn} (hg : ∀ u ∈ g1 ++ g2, ∀ s ∈ u.texts, Clean T s)
    (hgo : InOrder T (g1 ++ g2)) {W : Nat} (h : Bound T g1 W) : Bound T (g1 ++ g2) W := by
  obtain ⟨t12, ch12⟩ := group_split hT hnl hg hgo
  obtain ⟨gg, -, tx, -⟩ := group_good hT hnl (g := g1) (fun u hu => hg u (List.mem_append_left _ hu))
    (hgo.sub hT hnl (List.sublist_append_left ..))
  rcases h with ⟨G1, G2, rfl, rfl⟩ | ⟨c, hc, hv, u, hu, ho⟩
  · exact Or.inl ⟨G1, G2 ++ g2, by simp, rfl⟩
  · refine Or.inr ⟨c, by rw [ch12]; exact List.mem_append_left _ hc, hv, u, ?_, ho⟩
    rw [t12, whole_eq (by rw [← tx]; exact gg.whole)]
    exact List.mem_append_left _ hu

theorem Bound.left {g1 g2 : List Txn} (hg : ∀ u ∈ g1 ++ g2, ∀ s ∈ u.texts, Clean T s)
    (hgo : InOrder T (g1 ++ g2)) {W : Nat} (h : Bound T g2 W) :
    Bound T (g1 ++ g2) ((groupText g1).length + W) := by
  obtain ⟨t12, ch12⟩ := group_split hT hnl hg hgo
  obtain ⟨gg, -, tx, -⟩ := group_good hT hnl (g := g1) (fun u hu => hg u (List.mem_append_left _ hu))
    (hgo.sub hT hnl (List.sublist_append_left ..))
  rcases h with ⟨G1, G2, rfl, rfl⟩ | ⟨c, hc, hv, u, hu, ho⟩
  · exact Or.inl ⟨g1 ++ G1, G2, by simp, by simp [groupText]⟩
  · refine Or.inr ⟨moveChunk 0 (groupText g1).length c, ?_, ?_, u.moved (T.addresses (groupText g1)) (groupText g1).length,
      ?_, ?_⟩
    · rw [ch12]; exact List.mem_append_right _ (List.mem_map_of_mem hc)
    · simp only [moveChunk]; omega
    · rw [t12, whole_eq (by rw [← tx]; exact gg.whole)]
      exact List.mem_append_right _ (List.mem_map_of_mem hu)
    · simp only [Tok.moved]; omega

/-- every chunk starts at such a place -/
theorem chunk_bound : ∀ {g : List Txn}, (∀ u ∈ g, ∀ s ∈ u.texts, Clean T s) → InOrder T g →
    ∀ c ∈ (shardOf T g).chunks, Bound T g c.v.toNat := by
  intro g
  induction g with
  | nil => intro _ _ c hc; cases hc
  | cons t g ih =>
    intro hg hgo c hc
    have hg' : ∀ u ∈ [t] ++ g, ∀ s ∈ u.texts, Clean T s := hg
    have hgo' : InOrder T ([t] ++ g) := hgo
    obtain ⟨-, ch12⟩ := group_split hT hnl hg' hgo'
    have e : (shardOf T (t :: g)).chunks = _ := ch12
    rw [e, List.mem_append] at hc
    rcases hc with hc | hc
    · have hb : Bound T [t] c.v.toNat := by
        have hct : ∀ s ∈ t.texts, Clean T s := hg t (by simp)
        obtain ⟨h1, h2, -, -, h5⟩ := single_good hT hnl (base := t.base) hct
        have hc' : c ∈ (single T t.base t.texts).chunks := hc
        rcases h5 c hc' with ⟨-, hv⟩ | ⟨-, u, hu, -, ho⟩
        · exact Or.inl ⟨[], [t], rfl, by rw [hv]; rfl⟩
        · have := (laid_le h1.laid c hc').2
          refine Or.inr ⟨c, hc, by omega, u, ?_, by omega⟩
          have : groupText [t] = txnText t.texts := by simp [groupText, Txn.text]
          rw [this]; exact hu
      exact hb.right hT hnl hg' hgo'
    · obtain ⟨d, hd, rfl⟩ := List.mem_map.mp hc
      have hgr : ∀ u ∈ g, ∀ s ∈ u.texts, Clean T s := fun u hu => hg u (List.mem_cons_of_mem _ hu)
      have hgor := hgo.sub hT hnl (List.sublist_cons_self t g)
      have := (ih hgr hgor d hd).left hT hnl hg' hgo'
      have hv := (laid_le (group_good hT hnl hgr hgor).1.laid d hd).2
      have e : (moveChunk 0 (groupText [t]).length d).v.toNat = (groupText [t]).length + d.v.toNat := by
        simp only [moveChunk]; omega
      rw [e]; exact this

/-- the first transaction with a text has a token, or there are no tokens -/
theorem first_zero {g : List Txn} (hg : ∀ u ∈ g, ∀ s ∈ u.texts, Clean T s) (hgo : InOrder T g)
    (h : (∀ u ∈ g, u.count T = 0) ∨ ∃ u r, g = u :: r ∧ 0 < u.count T) :
    ∀ c l, (shardOf T g).chunks = c :: l → c.v = 0 := by
  intro c l hc
  obtain ⟨-, -, -, e⟩ := group_good hT hnl hg hgo
  rcases h with h | ⟨u, r, rfl, hu⟩
  · exfalso
    obtain ⟨v, hv, k⟩ := group_chunk hT hnl hg (c := c) (by rw [← e, hc]; simp)
    have := h v hv
    omega
  · have hg' : ∀ v ∈ [u] ++ r, ∀ s ∈ v.texts, Clean T s := hg
    have hgo' : InOrder T ([u] ++ r) := hgo
    obtain ⟨-, ch12⟩ := group_split hT hnl hg' hgo'
    have e : (shardOf T (u :: r)).chunks = _ := ch12
    have hct : ∀ s ∈ u.texts, Clean T s := hg u (by simp)
    obtain ⟨h1, h2, h3, h4, h5⟩ := single_good hT hnl (base := u.base) hct
    have e1 : (shardOf T [u]).chunks = (single T u.base u.texts).chunks := rfl
    rw [e1] at e
    cases hs : (single T u.base u.texts).chunks with
    | nil =>
      rw [hs] at h4
      simp only [Tiles] at h4
      simp only [Txn.count] at hu
      omega
    | cons d ds =>
      rw [hs] at h4
      rw [e, hs, List.cons_append] at hc
      injection hc with i1 i2
      subst i1
      rcases h5 d (by rw [hs]; simp) with h6 | h6
      · exact h6.2
      · exact absurd h4.1 h6.1

theorem seal_good {g : List Txn} (hg : ∀ u ∈ g, ∀ s ∈ u.texts, Clean T s) (hgo : InOrder T g) :
    sealText (shardOf T g).text = groupText g := by
  obtain ⟨gx, -, tx, -⟩ := group_good hT hnl hg hgo
  unfold sealText
  rcases gx.newline with h | h
  · rw [h, ← tx, h]; rfl
  · rw [h, ← tx]; rfl
end

/-! ### writing -/

/-- what has been written are these pieces -/
def Wrote (z : TxtIO.Codec) (o : Out) (ds : List Text) : Prop :=
  o = ⟨(ds.map z.crush).flatten, entriesFrom z 0 0 ds⟩

theorem wrote_piece {o : Out} {ds : List Text} (h : Wrote z o ds) {text : Text} {a b : Nat} (hab : a < b)
    (ha : ds.flatten = text.take a) (hb : b ≤ text.length) :
    Wrote z (writePiece z text a (b - a) o) (ds ++ [(text.drop a).take (b - a)]) ∧
    (ds ++ [(text.drop a).take (b - a)]).flatten = text.take b ∧ (text.drop a).take (b - a) ≠ [] := by
  have hlen : ((text.drop a).take (b - a)).length = b - a := by
    rw [List.length_take, List.length_drop]; omega
  have hfl : ds.flatten.length = a := by rw [ha, List.length_take]; omega
  have hsl : slice text a ((b : Int) - a) = (text.drop a).take (b - a) := by
    unfold slice
    congr 1
    omega
  refine ⟨?_, ?_, ?_⟩
  · unfold Wrote at h ⊢
    unfold writePiece
    rw [if_neg (by omega), h, hsl]
    simp only [entriesFrom_append, entriesFrom, Nat.zero_add, hfl, hlen, List.map_append, List.map_cons, List.map_nil,
      List.flatten_append, List.flatten_cons, List.flatten_nil, List.append_nil, List.length_append]
    congr 3
    simp only [Entry.mk.injEq, and_true]
    omega
  · rw [List.flatten_append, ha, List.flatten_cons, List.flatten_nil, List.append_nil, ← List.take_add]
    congr 1; omega
  · intro h0
    rw [h0] at hlen
    simp at hlen; omega

theorem off_snoc (ds : List Text) (d : Text) (k : Nat) (hk : k < ds.length) : off (ds ++ [d]) (k + 1) = off ds (k + 1) := by
  unfold off; rw [List.take_append_of_le_length (by omega)]

/-- state of the loop: written up to `a`, in pieces that end where chunks start -/
def LoopOk (z : TxtIO.Codec) (text : Text) (chunks : List Ann) (st : Loop) (ds : List Text) : Prop :=
  Wrote z st.out ds ∧ (∀ d ∈ ds, d ≠ []) ∧
  (∀ k, k < ds.length → ∃ c ∈ chunks, c.v = off ds (k + 1)) ∧
  match st.start with
  | none => ds = []
  | some a => 0 ≤ a ∧ a < text.length ∧ ds.flatten = text.take a.toNat ∧ (a = 0 ∨ ∃ c ∈ chunks, c.v = a)

theorem turns_ok {text : Text} {chunks : List Ann} {target : Int} (ht : 0 < target)
    (hv : ∀ c ∈ chunks, 0 ≤ c.v ∧ c.v < text.length) : ∀ {l : List Ann} {st : Loop} {ds : List Text},
    (∀ c ∈ l, c ∈ chunks) → (st.start = none → ∀ c r, l = c :: r → c.v = 0) → LoopOk z text chunks st ds →
    ∃ st' ds', turns z target text st l = some st' ∧ LoopOk z text chunks st' ds' ∧
      (st'.start = none → l = [] ∧ st.start = none) := by
  intro l
  induction l with
  | nil => intro st ds _ _ h; exact ⟨st, ds, rfl, h, fun h => ⟨rfl, h⟩⟩
  | cons c l ih =>
    intro st ds hl hf h
    have hc := hv c (hl c (List.mem_cons_self ..))
    have hl' : ∀ d ∈ l, d ∈ chunks := fun d hd => hl d (List.mem_cons_of_mem _ hd)
    obtain ⟨h1, h2, h3, h4⟩ := h
    rw [turns, turn, if_neg (by omega)]
    cases hs : st.start with
    | none =>
      rw [hs] at h4
      simp only at h4 ⊢
      subst h4
      have h0 := hf hs c l rfl
      obtain ⟨st', ds', k1, k2, k3⟩ := ih (st := { st with start := some c.v }) (ds := []) hl' (fun h => by cases h)
        ⟨h1, h2, h3, by simp only; refine ⟨by omega, by omega, by rw [h0]; rfl, Or.inl h0⟩⟩
      exact ⟨st', ds', k1, k2, fun h => by have := (k3 h).2; cases this⟩
    | some a =>
      rw [hs] at h4
      simp only at h4 ⊢
      obtain ⟨a1, a2, a3, a4⟩ := h4
      by_cases hge : c.v - a ≥ target
      · rw [if_pos hge]
        simp only
        obtain ⟨w1, w2, w3⟩ := wrote_piece h1 (text := text) (a := a.toNat) (b := c.v.toNat) (by omega) a3 (by omega)
        have e1 : ((a.toNat : Nat) : Int) = a := by omega
        have e2 : ((c.v.toNat : Nat) : Int) = c.v := by omega
        rw [e1, e2] at w1
        obtain ⟨st', ds', k1, k2, k3⟩ := ih (st := ⟨some c.v, writePiece z text a (c.v - a) st.out⟩)
          (ds := ds ++ [(text.drop a.toNat).take (c.v.toNat - a.toNat)]) hl' (fun h => by cases h) (by
          refine ⟨w1, ?_, ?_, by omega, by omega, w2, Or.inr ⟨c, hl c (List.mem_cons_self ..), rfl⟩⟩
          · intro d hd
            rcases List.mem_append.mp hd with hd | hd
            · exact h2 d hd
            · rw [List.mem_singleton] at hd; subst hd; exact w3
          · intro k hk
            by_cases hk' : k < ds.length
            · rw [off_snoc _ _ _ hk']; exact h3 k hk'
            · refine ⟨c, hl c (List.mem_cons_self ..), ?_⟩
              rw [off_all _ (by simp at hk ⊢; omega), w2, List.length_take]
              omega)
        exact ⟨st', ds', k1, k2, fun h => by have := (k3 h).2; cases this⟩
      · rw [if_neg hge]
        simp only
        obtain ⟨st', ds', k1, k2, k3⟩ := ih (st := st) (ds := ds) hl' (fun h => by rw [hs] at h; cases h)
          ⟨h1, h2, h3, by rw [hs]; exact ⟨a1, a2, a3, a4⟩⟩
        exact ⟨st', ds', k1, k2, fun h => by have := (k3 h).2; rw [hs] at this; cases this⟩

theorem slice_len {ds : List Text} {n : Nat} (h : ds.flatten.length ≤ n) : ∀ d ∈ ds, d.length ≤ n := by
  intro d hd
  have := (List.sublist_flatten_of_mem hd).length_le
  omega

/-- the largest length a file can have -/
notation "maxLength" => (9223372036854775807 : Nat)

section
variable (hT : Lawful T) (hnl : NewlineGap T)
include hT hnl

/-- writing and opening the text of a group -/
theorem freeze_keeps {g : List Txn} (hg : ∀ u ∈ g, ∀ s ∈ u.texts, Clean T s) (hgo : InOrder T g)
    (hf : (∀ u ∈ g, u.count T = 0) ∨ ∃ u r, g = u :: r ∧ 0 < u.count T) {target : Int} (ht : 0 < target)
    (ht64 : In64 target) (hz : z.Restores (groupText g).length) :
    ∃ blob, writeTxt z target (shardOf T g) = some blob ∧ (blob.length ≤ maxLength →
      (groupText g).length ≤ maxLength → ∃ t, load blob = some t ∧ Keeps T z g t ∧ t.target = target) := by
  obtain ⟨gx, -, tx, -⟩ := group_good hT hnl hg hgo
  have hseal := seal_good hT hnl hg hgo
  have hv : ∀ c ∈ (shardOf T g).chunks, 0 ≤ c.v ∧ c.v < (groupText g).length := by
    intro c hc
    refine ⟨(laid_le gx.laid c hc).2, ?_⟩
    obtain ⟨pre, post, e⟩ := List.append_of_mem hc
    have hL := gx.laid
    have hcov := gx.covers
    have hpq := (laid_le gx.laid c hc).1
    have hv := (laid_le gx.laid c hc).2
    rw [e, laid_append] at hL
    rw [e, covered_append] at hcov
    have hcov' : covered pre + (Ann.len c + covered post) = T.addresses (shardOf T g).text := hcov
    have hlen : Ann.len c = (c.q - c.p + 1).toNat := rfl
    have := starts_lt hT hL.2.1 (by omega)
    rw [tx] at this
    omega
  have hfirst := first_zero hT hnl hg hgo hf
  obtain ⟨st, ds, h1, ⟨w, hfull, hb, hst⟩, h3⟩ := turns_ok (z := z) (text := groupText g) ht hv (l := (shardOf T g).chunks)
    (st := {}) (ds := []) (fun _ h => h) (fun _ => hfirst) ⟨rfl, by simp, by simp, rfl⟩
  -- the last piece
  have hlast : ∃ ds', Wrote z (match st.start with
      | some a => writePiece z (groupText g) a ((groupText g).length - a) st.out
      | none => if (groupText g).length > 0 then writePiece z (groupText g) 0 (groupText g).length st.out else st.out) ds' ∧
      ds'.flatten = groupText g ∧ (∀ d ∈ ds', d ≠ []) ∧ ∀ k, k < ds'.length → Bound T g (off ds' (k + 1)) := by
    have bnd : ∀ k, k < ds.length → Bound T g (off ds (k + 1)) := by
      intro k hk
      obtain ⟨c, hc, e⟩ := hb k hk
      have := chunk_bound hT hnl hg hgo c hc
      rwa [e, Int.toNat_natCast] at this
    have whole : Bound T g (groupText g).length := Or.inl ⟨g, [], by simp, rfl⟩
    have step : ∀ a : Nat, a < (groupText g).length → ds.flatten = (groupText g).take a →
        ∃ ds', Wrote z (writePiece z (groupText g) a ((groupText g).length - a) st.out) ds' ∧
          ds'.flatten = groupText g ∧ (∀ d ∈ ds', d ≠ []) ∧ ∀ k, k < ds'.length → Bound T g (off ds' (k + 1)) := by
      intro a ha he
      obtain ⟨w1, w2, w3⟩ := wrote_piece w ha he (Nat.le_refl _)
      rw [List.take_length] at w2
      refine ⟨_, w1, w2, ?_, ?_⟩
      · intro d hd
        rcases List.mem_append.mp hd with hd | hd
        · exact hfull d hd
        · rw [List.mem_singleton] at hd; subst hd; exact w3
      · intro k hk
        by_cases hk' : k < ds.length
        · rw [off_snoc _ _ _ hk']; exact bnd k hk'
        · rw [off_all _ (by simp at hk ⊢; omega), w2]; exact whole
    cases hs : st.start with
    | some a =>
      rw [hs] at hst
      simp only at hst ⊢
      obtain ⟨a1, a2, a3, -⟩ := hst
      have := step a.toNat (by omega) a3
      rwa [show ((a.toNat : Nat) : Int) = a by omega] at this
    | none =>
      rw [hs] at hst
      simp only at hst ⊢
      subst hst
      by_cases h0 : (groupText g).length > 0
      · rw [if_pos h0]
        have := step 0 h0 (by simp)
        simpa using this
      · rw [if_neg h0]
        have : groupText g = [] := List.length_eq_zero_iff.mp (by omega)
        exact ⟨[], w, by rw [this]; rfl, by simp, by simp⟩
  obtain ⟨ds', w', hfl, hfull', hbound⟩ := hlast
  refine ⟨blobOf ⟨(ds'.map z.crush).flatten, entriesFrom z 0 0 ds'⟩ ds'.flatten.length target, ?_, ?_⟩
  · unfold writeTxt
    simp only [hseal]
    rw [h1]
    simp only
    unfold Wrote at w'
    rw [hfl, ← w']
    rfl
  · intro hbl htl
    obtain ⟨t, l1, l2, l3⟩ := load_ok hfull' (fun d hd => hz d (slice_len (by rw [hfl]; exact Nat.le_refl _) d hd)) ht ht64 hbl
      (by rw [hfl]; exact htl)
    exact ⟨t, l1, ⟨ds', l2, hfl, hbound⟩, l3⟩
end

/-! ### merging -/

theorem copyPieces_ok {t : Txt} {ds : List Text} (h : Holds z t ds) {es : List Text} : ∀ (n k : Nat) (o : Out),
    k + n = ds.length → Wrote z o (es ++ ds.take k) →
    ∃ o', copyPieces t es.flatten.length o k n = some o' ∧ Wrote z o' (es ++ ds) := by
  intro n
  induction n with
  | zero =>
    intro k o hk hw
    rw [List.take_of_length_le (by omega)] at hw
    exact ⟨o, rfl, hw⟩
  | succ n ih =>
    intro k o hk hw
    have hl : k < ds.length := by omega
    have hd : ds[k]? = some ds[k] := List.getElem?_eq_getElem hl
    have h1 := off_succ hd
    have h2 := off_mono (ds := ds.map z.crush) (show k ≤ k + 1 by omega)
    rw [copyPieces]
    simp only
    rw [h.comp hd, h.rawStart (by omega), h.rawEnd hl, h.compStart (by omega), h.compEnd hl,
      if_neg (by omega)]
    apply ih (k + 1) _ (by omega)
    unfold Wrote at hw ⊢
    have e : ds.take (k + 1) = ds.take k ++ [ds[k]] := by rw [List.take_add_one, hd]; rfl
    have eo : (ds.take k).flatten.length = off ds k := rfl
    rw [hw, e, ← List.append_assoc]
    simp only [entriesFrom_append es, entriesFrom_append (ds.take k), entriesFrom, Nat.zero_add, List.map_append, List.map_cons, List.map_nil,
      List.flatten_append, List.flatten_cons, List.flatten_nil, List.append_nil, List.length_append, eo, h1,
      List.append_assoc]
    congr 5 <;> omega

/-- these open texts hold these pieces -/
inductive HoldsAll (z : TxtIO.Codec) : List Txt → List (List Text) → Prop
  | nil : HoldsAll z [] []
  | cons {t ts ds dss} : Holds z t ds → HoldsAll z ts dss → HoldsAll z (t :: ts) (ds :: dss)

theorem copyTexts_ok {ts : List Txt} {dss : List (List Text)} (h : HoldsAll z ts dss) : ∀ {es : List Text} {o : Out},
    Wrote z o es → ∃ o', copyTexts es.flatten.length o ts = some (o', ((es ++ dss.flatten).flatten.length : Int)) ∧
      Wrote z o' (es ++ dss.flatten) := by
  induction h with
  | nil => intro es o hw; exact ⟨o, by simp [copyTexts], by simpa using hw⟩
  | @cons t ts ds dss h1 _ ih =>
    intro es o hw
    obtain ⟨o1, k1, k2⟩ := copyPieces_ok h1 (es := es) ds.length 0 o (by omega) (by simpa using hw)
    obtain ⟨o2, k3, k4⟩ := ih k2
    refine ⟨o2, ?_, by simpa using k4⟩
    rw [copyTexts, h1.length, k1]
    simp only
    have e : (es.flatten.length : Int) + t.raw = ((es ++ ds).flatten.length : Int) := by
      rw [h1.raw]; simp
    rw [e, k3]
    simp

theorem holdsAll_each {ts : List Txt} {dss : List (List Text)} (h : HoldsAll z ts dss) {P : Text → Prop}
    (hp : ∀ {t ds}, Holds z t ds → ∀ d ∈ ds, P d) : ∀ d ∈ dss.flatten, P d := by
  induction h with
  | nil => simp
  | cons h1 _ ih =>
    intro d hd
    rw [List.flatten_cons, List.mem_append] at hd
    rcases hd with hd | hd
    · exact hp h1 d hd
    · exact ih d hd

/-- merging texts that hold pieces gives a text that holds them all -/
theorem merge_holds {ts : List Txt} {dss : List (List Text)} (h : HoldsAll z ts dss) {target : Int} (ht64 : In64 target)
    (ht : ∀ t ∈ ts, t.target = target) (hn : 2 ≤ ts.length) :
    ∃ blob, mergeTxt ts = some blob ∧ (blob.length ≤ maxLength → dss.flatten.flatten.length ≤ maxLength →
      ∃ t, load blob = some t ∧ Holds z t dss.flatten ∧ t.target = target) := by
  match ts, h, ht, hn with
  | t :: u :: ts, h, ht, _ =>
    obtain ⟨o, k1, k2⟩ := copyTexts_ok h (es := []) (o := {}) rfl
    have htt := ht t (by simp)
    have hpos : 0 < target := by
      rw [← htt]
      cases h with
      | cons h1 _ => exact h1.target
    have hany : ((u :: ts).any fun v => v.target != t.target) = false := by
      rw [List.any_eq_false]
      intro v hv
      have := ht v (List.mem_cons_of_mem _ hv)
      simp [this, htt]
    refine ⟨blobOf ⟨((dss.flatten).map z.crush).flatten, entriesFrom z 0 0 dss.flatten⟩ dss.flatten.flatten.length target, ?_, ?_⟩
    · rw [mergeTxt.eq_def]
      simp only [hany, Bool.false_eq_true, if_false]
      have k1' : copyTexts 0 {} (t :: u :: ts) = some (o, ((([] : List Text) ++ dss.flatten).flatten.length : Int)) := k1
      rw [k1']
      simp only [List.nil_append]
      unfold Wrote at k2
      rw [k2, htt]
      rfl
    · intro hb hr
      exact load_ok (holdsAll_each h fun h => h.full) (holdsAll_each h fun h => h.restores) hpos ht64 hb hr

/-! ### token range -/

theorem tokenRange_ok {H : Obj} {I : H.σ → Prop} {l : List Ann} (hl : Listing l) (hb : ∀ c ∈ l, 0 ≤ c.p)
    (hI : Impl H I (ofList l)) : Ok I (tokenRange H) (fun r => r = rangeOf l) := by
  unfold tokenRange
  refine Ok.bind (hI.tau _ (by omega)) ?_
  intro a ha
  by_cases hne : l = []
  · subst hne
    have : a = highEnd := by
      rcases ha with ⟨h, -⟩ | ⟨-, h, -⟩ | ⟨-, -, h⟩
      · omega
      · cases h
      · exact h
    subst this
    refine Ok.ite (fun _ => Ok.pure rfl) (fun h => absurd rfl h)
  · obtain ⟨r1, ⟨f, f1, f2⟩, ⟨e, e1, e2⟩⟩ := range_spec hl hne
    have bf := hl.bounds f f1
    have be := hl.bounds e e1
    have hap : a.p = (rangeOf l).1 := by
      rcases ha with ⟨h, -⟩ | ⟨-, h, h2, h3⟩ | ⟨-, h, -⟩
      · omega
      · have k1 := r1 a h
        have k2 := h3 f f1 (by omega)
        omega
      · have := h f f1; omega
    refine Ok.ite (fun h => by omega) (fun _ => ?_)
    refine Ok.bind (hI.uat _ (by omega)) ?_
    intro b hbq
    have hbq' : b.q = (rangeOf l).2 := by
      rcases hbq with ⟨h, -⟩ | ⟨-, h, h2, h3⟩ | ⟨-, h, -⟩
      · omega
      · have k1 := r1 b h
        have k2 := h3 e e1 (by omega)
        omega
      · have := h e e1; omega
    have := r1 f f1
    refine Ok.ite (fun h => by omega) (fun _ => ?_)
    exact Ok.pure (by rw [hap, hbq'])

end Verif.HazelText
