import Verif.Text.Reading
/-
  Texts appended over a history of transactions, and what reading them back gives.
-/
namespace Verif.Text
open Verif.Hopper

/-- A committed transaction: the address it was given and the texts appended to it. -/
structure Txn where
  base : Nat
  texts : List Text

/-- number of addresses of a transaction: those of each of its texts -/
def Txn.count (T : Tokenizer) (t : Txn) : Nat := (t.texts.map T.addresses).sum

/-- The bytes stored for a transaction: its texts, each ended by a separator if it is not
already, and a newline at the end. -/
def Txn.text (t : Txn) : Text := txnText t.texts

def Txn.shard (T : Tokenizer) (t : Txn) : Shard := single T t.base t.texts

/-- the transactions have addresses in order, within the range of addresses -/
structure InOrder (T : Tokenizer) (ts : List Txn) : Prop where
  order : ts.Pairwise fun a b => a.base + a.count T ≤ b.base
  fits : ∀ t ∈ ts, ((t.base + t.count T : Nat) : Int) ≤ maxfinity

/-- A warren holds its transactions in shards: each shard is the merge of the transactions
of one group. -/
def shardsOf (T : Tokenizer) (W : List (List Txn)) : List Shard :=
  W.map fun g => mergeShards (g.map (Txn.shard T))

variable {T : Tokenizer}

theorem txn_chunk (hT : Lawful T) (hnl : NewlineGap T) {t : Txn} (hc : ∀ s ∈ t.texts, Clean T s) :
    GoodShard T (t.shard T) ∧ (∀ c ∈ (t.shard T).chunks, (t.base : Int) ≤ c.p ∧ c.p ≤ c.q ∧
      c.q < ((t.base + t.count T : Nat) : Int)) ∧ (t.shard T).text = t.text ∧
    T.addresses t.text = t.count T := by
  obtain ⟨h1, h2, h3, h4, -⟩ := single_good hT hnl (base := t.base) hc
  refine ⟨h1, ?_, h2, h3⟩
  intro c hc
  have := tiles_ge h4 c hc
  unfold Txn.count
  omega

section
variable (hT : Lawful T) (hnl : NewlineGap T)
include hT hnl

theorem group_total {g : List Txn} (hc : ∀ t ∈ g, ∀ s ∈ t.texts, Clean T s) (ho : InOrder T g) :
    mergeShards (g.map (Txn.shard T)) = total (g.map (Txn.shard T)) ∧
    (∀ x ∈ g.map (Txn.shard T), GoodShard T x) ∧ (g.map (Txn.shard T)).Pairwise Before := by
  have hg : ∀ x ∈ g.map (Txn.shard T), GoodShard T x := by
    intro x hx
    obtain ⟨t, ht, rfl⟩ := List.mem_map.mp hx
    exact (txn_chunk hT hnl (hc t ht)).1
  have hb : (g.map (Txn.shard T)).Pairwise Before := by
    rw [List.pairwise_map]
    refine List.Pairwise.imp_of_mem ?_ ho.order
    intro a b ha hb hab c hc' d hd
    have h1 := (txn_chunk hT hnl (hc a ha)).2.1 c hc'
    have h2 := (txn_chunk hT hnl (hc b hb)).2.1 d hd
    omega
  exact ⟨mergeShards_total hT hg hb, hg, hb⟩

theorem group_chunk {g : List Txn} (hc : ∀ t ∈ g, ∀ s ∈ t.texts, Clean T s) {c : Ann}
    (h : c ∈ (total (g.map (Txn.shard T))).chunks) :
    ∃ t ∈ g, (t.base : Int) ≤ c.p ∧ c.p ≤ c.q ∧ c.q < ((t.base + t.count T : Nat) : Int) := by
  obtain ⟨x, hx, d, hd, h1, h2⟩ := total_chunk h
  obtain ⟨t, ht, rfl⟩ := List.mem_map.mp hx
  have := (txn_chunk hT hnl (hc t ht)).2.1 d hd
  exact ⟨t, ht, by omega, by omega, by omega⟩

theorem InOrder.sub {l r : List Txn} (h : InOrder T l) (hs : r.Sublist l) : InOrder T r :=
  ⟨h.order.sublist hs, fun t ht => h.fits t (hs.subset ht)⟩

/-- merging groups of transactions again is merging all of them -/
theorem regroup {W : List (List Txn)} (hc : ∀ g ∈ W, ∀ t ∈ g, ∀ s ∈ t.texts, Clean T s)
    (ho : InOrder T W.flatten) :
    mergeShards (shardsOf T W) = mergeShards (W.flatten.map (Txn.shard T)) := by
  have hsub : ∀ g ∈ W, InOrder T g := fun g hg => ho.sub hT hnl (List.sublist_flatten_of_mem hg)
  have e : shardsOf T W = (W.map (List.map (Txn.shard T))).map total := by
    unfold shardsOf
    rw [List.map_map]
    apply List.map_congr_left
    intro g hg
    exact (group_total hT hnl (hc g hg) (hsub g hg)).1
  have hc' : ∀ t ∈ W.flatten, ∀ s ∈ t.texts, Clean T s := by
    intro t ht
    obtain ⟨g, hg, htg⟩ := List.mem_flatten.mp ht
    exact hc g hg t htg
  rw [(group_total hT hnl hc' ho).1, mergeShards_total hT, e, total_flatten, List.map_flatten]
  · intro x hx
    rw [e] at hx
    obtain ⟨y, hy, rfl⟩ := List.mem_map.mp hx
    obtain ⟨g, hg, rfl⟩ := List.mem_map.mp hy
    obtain ⟨-, h1, h2⟩ := group_total hT hnl (hc g hg) (hsub g hg)
    exact total_good hT h1 h2
  · rw [e, List.map_map, List.pairwise_map]
    have hp := ho.order
    rw [List.pairwise_flatten] at hp
    refine List.Pairwise.imp_of_mem ?_ hp.2
    intro g k hg hk hgk a ha b hb
    obtain ⟨t, ht, h1⟩ := group_chunk hT hnl (hc g hg) ha
    obtain ⟨u, hu, h2⟩ := group_chunk hT hnl (hc k hk) hb
    have := hgk t ht u hu
    omega

/-- Reading a range of addresses of one transaction of a warren. -/
theorem read_range {WL WR : List (List Txn)} {L R : List Txn} {t : Txn}
    (hc : ∀ g ∈ WL ++ (L ++ t :: R) :: WR, ∀ u ∈ g, ∀ s ∈ u.texts, Clean T s)
    (ho : InOrder T (WL ++ (L ++ t :: R) :: WR).flatten) {rs : List TextReader}
    (hrs : ServesAll rs (shardsOf T (WL ++ (L ++ t :: R) :: WR))) {i j : Nat} (hij : i ≤ j)
    (hj : j < t.count T) {s : Nat} (hs : s = if i = 0 then 0 else T.skip t.text i) {B : Text}
    (hB : B = (R.map Txn.text).flatten) :
    ∃ rs', readAll T (t.base + i) (t.base + j) rs = some
        (((t.text ++ B).drop s).take (T.skip (t.text ++ B) (j + 1 : Nat) - s), rs') ∧
      ServesAll rs' (shardsOf T (WL ++ (L ++ t :: R) :: WR)) := by
  have hmem : (L ++ t :: R) ∈ WL ++ (L ++ t :: R) :: WR := by simp
  have hg := hc _ hmem
  have hgo : InOrder T (L ++ t :: R) := ho.sub hT hnl (List.sublist_flatten_of_mem hmem)
  obtain ⟨e1, e2, e3⟩ := group_total hT hnl hg hgo
  have ht : t ∈ L ++ t :: R := by simp
  obtain ⟨g1, g2, g3, g4⟩ := txn_chunk hT hnl (hg t ht)
  have hfit := hgo.fits t ht
  -- the shard, as what is before, the transaction, and what is after
  rw [List.map_append, List.map_cons] at e1 e2 e3
  have eS : total (L.map (Txn.shard T) ++ t.shard T :: R.map (Txn.shard T)) =
      (total (L.map (Txn.shard T))).plus ((t.shard T).plus (total (R.map (Txn.shard T)))) := by
    rw [total_append]; rfl
  rw [List.pairwise_append, List.pairwise_cons] at e3
  have gL : GoodShard T (total (L.map (Txn.shard T))) :=
    total_good hT (fun x hx => e2 x (List.mem_append_left _ hx)) e3.1
  have gTR : GoodShard T ((t.shard T).plus (total (R.map (Txn.shard T)))) := by
    have := total_good hT (xs := t.shard T :: R.map (Txn.shard T))
      (fun x hx => e2 x (List.mem_append_right _ hx)) (List.pairwise_cons.mpr e3.2.1)
    exact this
  have gS : GoodShard T (total (L.map (Txn.shard T) ++ t.shard T :: R.map (Txn.shard T))) := by
    refine total_good hT e2 ?_
    rw [List.pairwise_append, List.pairwise_cons]; exact e3
  have eT : ((t.shard T).plus (total (R.map (Txn.shard T)))).text = t.text ++ B := by
    show (t.shard T).text ++ (total (R.map (Txn.shard T))).text = _
    rw [g3, total_text, hB, List.map_map]
    congr 2
    apply List.map_congr_left
    intro u hu
    exact (txn_chunk hT hnl (hg u (by simp [hu]))).2.2.1
  have place : ∀ k, k < t.count T → Place T (total (L.map (Txn.shard T) ++ t.shard T :: R.map (Txn.shard T)))
      (t.base + k) (T.addresses (total (L.map (Txn.shard T))).text + k)
      ((total (L.map (Txn.shard T))).text.length + if k = 0 then 0 else T.skip t.text k) := by
    intro k hk
    have := single_place hT hnl (base := t.base) (hg t ht) hk
    rw [eS]
    exact (this.left hT g1).right hT gL gTR
  have hbounds : InBounds (total (L.map (Txn.shard T) ++ t.shard T :: R.map (Txn.shard T))) := by
    intro c hc'
    have := group_chunk hT hnl (g := L ++ t :: R) hg (c := c) (by simpa using hc')
    obtain ⟨u, hu, h1⟩ := this
    have := hgo.fits u hu
    omega
  -- the shards
  unfold shardsOf at hrs ⊢
  rw [List.map_append, List.map_cons, List.map_append, List.map_cons] at hrs ⊢
  rw [e1] at hrs ⊢
  have hfl := ho.order
  rw [List.pairwise_flatten, List.pairwise_append, List.pairwise_cons] at hfl
  have apart : ∀ g ∈ WL ++ WR, Apart (mergeShards (g.map (Txn.shard T))) (t.base + i) (t.base + j) := by
    intro g hgm c hcm
    have hgW : g ∈ WL ++ (L ++ t :: R) :: WR := by
      rw [List.mem_append] at hgm ⊢
      rcases hgm with h | h
      · exact Or.inl h
      · exact Or.inr (List.mem_cons_of_mem _ h)
    rw [(group_total hT hnl (hc g hgW) (ho.sub hT hnl (List.sublist_flatten_of_mem hgW))).1] at hcm
    obtain ⟨u, hu, h1⟩ := group_chunk hT hnl (hc g hgW) hcm
    rw [List.mem_append] at hgm
    rcases hgm with h | h
    · left
      have := hfl.2.2.2 g h (L ++ t :: R) (List.mem_cons_self ..) u hu t ht
      omega
    · right
      have := hfl.2.2.1.1 g h t ht u hu
      omega
  refine readAll_one (T := T) (by omega) (by omega) ?_ hrs ?_ ?_
  · rintro r ⟨h1, I, h2, h3⟩
    obtain ⟨a, st, k1, k2, k3⟩ := translate_in hT gS hbounds h2 (place i (by omega)) (place j hj)
      (by omega) r.state h3
    refine ⟨st, ?_, h1, I, h2, k2⟩
    rw [h1, k1]
    congr 2
    rw [k3, eS]
    have etx : ((total (L.map (Txn.shard T))).plus ((t.shard T).plus (total (R.map (Txn.shard T))))).text =
        (total (L.map (Txn.shard T))).text ++ (t.text ++ B) := by
      rw [← eT]; rfl
    rw [etx, Nat.add_assoc, skip_append hT gL.whole, ← hs]
    rw [List.drop_append]
    have z : (total (L.map (Txn.shard T))).text.drop ((total (L.map (Txn.shard T))).text.length + s) = [] := by
      rw [List.drop_eq_nil_iff]; omega
    rw [z, List.nil_append]
    congr 1
    · omega
    · congr 1; omega
  · intro y hy
    obtain ⟨g, hgm, rfl⟩ := List.mem_map.mp hy
    exact apart g (List.mem_append_left _ hgm)
  · intro y hy
    obtain ⟨g, hgm, rfl⟩ := List.mem_map.mp hy
    exact apart g (List.mem_append_right _ hgm)
end

/-! ### one appended text -/

theorem take_add_append (A B : Text) (n : Nat) : (A ++ B).take (A.length + n) = A ++ B.take n := by
  rw [List.take_append, List.take_of_length_le (by omega)]
  simp

theorem skip0_stored (hT : Lawful T) {s : Text} (hs : Clean T s) (h : 0 < T.addresses s) (F : Text) :
    T.skip (stored s ++ F) (0 : Nat) = T.skip s (0 : Nat) := by
  obtain ⟨c1, c2, c3⟩ := clean_stored hT hs
  obtain ⟨t, ht, h0⟩ := (at_lt hT s 0).mpr h
  have h1 := (hT.skips s).start t ht
  have ht2 : t ∈ T.tokenize (stored s ++ F) := by
    unfold stored
    rw [whole_eq c3, c1]; exact List.mem_append_left _ ht
  have h2 := (hT.skips _).start t ht2
  rw [h0] at h1 h2
  rw [h1, h2]

/-- the slice of the stored text that belongs to one of the texts -/
theorem slice_text (hT : Lawful T) {l : List Text} {s F : Text}
    (hl : ∀ u ∈ l, Clean T u) (hs : Clean T s) (h : 0 < T.addresses s) {i st : Nat}
    (hi : i = (l.map T.addresses).sum)
    (hst : st = if i = 0 then 0 else T.skip ((l.map stored).flatten ++ (stored s ++ F)) i) :
    (((l.map stored).flatten ++ (stored s ++ F)).drop st).take
        (T.skip ((l.map stored).flatten ++ (stored s ++ F)) (i + T.addresses s : Nat) - st) =
      (if i = 0 then (l.map stored).flatten ++ s.take (T.skip s 0) else []) ++
        s.drop (T.skip s 0) ++ ending s ++ F.take (T.skip F 0) := by
  obtain ⟨i1, i2, i3⟩ := all_inv hT (start_inv hT) hl
  have eA : (App.all T {} l).text = (l.map stored).flatten := by rw [i2]; rfl
  have hA : Whole T (l.map stored).flatten := by rw [← eA]; exact i1.whole
  have nA : T.addresses (l.map stored).flatten = i := by
    rw [← eA, i1.address, i3, hi]; simp
  obtain ⟨c1, c2, c3⟩ := clean_stored hT hs
  have eE : T.skip ((l.map stored).flatten ++ (stored s ++ F)) (i + T.addresses s : Nat) =
      (l.map stored).flatten.length + ((stored s).length + T.skip F 0) := by
    rw [← nA, skip_append hT hA]
    congr 1
    have := skip_append hT c3 F 0
    rw [c2] at this
    exact this
  rw [eE]
  have hk : T.skip s 0 ≤ s.length := skip_le hT s 0
  by_cases h0 : i = 0
  · rw [if_pos h0] at hst ⊢
    subst hst
    rw [List.drop_zero, Nat.sub_zero, take_add_append, take_add_append]
    unfold stored
    rw [show s.take (T.skip s 0) = s.take (T.skip s 0) from rfl]
    simp only [List.append_assoc]
    congr 1
    rw [← List.append_assoc (s.take _), List.take_append_drop]
  · rw [if_neg h0] at hst ⊢
    have e0 : st = (l.map stored).flatten.length + T.skip s 0 := by
      rw [hst]
      have := skip_append hT hA (stored s ++ F) 0
      rw [nA] at this
      rw [show ((i : Nat) : Int) = ((i + 0 : Nat) : Int) from rfl, this, skip0_stored hT hs h]
      rfl
    rw [e0, List.drop_append]
    have z : (l.map stored).flatten.drop ((l.map stored).flatten.length + T.skip s 0) = [] := by
      rw [List.drop_eq_nil_iff]; omega
    rw [z, List.nil_append, List.nil_append]
    have e1 : (l.map stored).flatten.length + T.skip s 0 - (l.map stored).flatten.length = T.skip s 0 := by omega
    have e2 : (l.map stored).flatten.length + ((stored s).length + T.skip F 0) -
        ((l.map stored).flatten.length + T.skip s 0) = (stored s).length - T.skip s 0 + T.skip F 0 := by
      have : s.length ≤ (stored s).length := by simp [stored]
      omega
    rw [e1, e2, List.drop_append]
    have e3 : T.skip s 0 - (stored s).length = 0 := by
      have : s.length ≤ (stored s).length := by simp [stored]
      omega
    rw [e3, List.drop_zero]
    have e4 : (stored s).length - T.skip s 0 = ((stored s).drop (T.skip s 0)).length := by simp
    rw [e4, take_add_append]
    congr 1
    unfold stored
    rw [List.drop_append]
    have e5 : T.skip s 0 - s.length = 0 := by omega
    rw [e5, List.drop_zero]

/-- the tokens of texts appended one after the other -/
def tokensFrom (T : Tokenizer) : Nat → List Text → List (Text × Nat)
  | _, [] => []
  | a, s :: l => (T.tokenize s).map (fun t => (t.str, a + t.address)) ++ tokensFrom T (a + T.addresses s) l

theorem notes_all (hT : Lawful T) : ∀ {texts : List Text} {st : App}, AppInv T st →
    (∀ s ∈ texts, Clean T s) →
    (App.all T st texts).notes = st.notes ++ tokensFrom T st.address texts := by
  intro texts
  induction texts with
  | nil => intro st _ _; simp [App.all, tokensFrom]
  | cons s l ih =>
    intro st h hc
    have hs := hc s (List.mem_cons_self ..)
    obtain ⟨h1, h2, h3, -⟩ := append_inv hT h hs
    have := ih h1 (fun u hu => hc u (List.mem_cons_of_mem _ hu))
    show (App.all T (st.append T s).1 l).notes = _
    obtain ⟨c1, -, -⟩ := clean_stored hT hs
    rw [this, h3, h1.notes, h2, whole_eq h.whole, List.map_append, ← h.notes, h.address]
    unfold stored
    rw [c1, tokensFrom, List.map_map, List.append_assoc]
    congr 2
    apply List.map_congr_left
    intro t _
    simp only [Function.comp, Tok.moved, Prod.mk.injEq, true_and]
    omega

end Verif.Text
