import Verif.HazelText.Window
/-
  A static shard answers as a dynamic shard that holds the same transactions, or the first of
  them.
-/
namespace Verif.HazelText
open Verif.Hopper Verif.Text Verif.Store

variable {T : Tokenizer}

/-- the shard of these transactions, merged -/
def shardOf (T : Tokenizer) (g : List Txn) : Shard := mergeShards (g.map (Txn.shard T))

/-- `W` is a place of the group's text between two transactions, or where a chunk starts with
a token -/
def Bound (T : Tokenizer) (g : List Txn) (W : Nat) : Prop :=
  (∃ G1 G2, g = G1 ++ G2 ∧ (groupText G1).length = W) ∨
  (∃ c ∈ (shardOf T g).chunks, c.v = W ∧ ∃ u ∈ T.tokenize (groupText g), u.offset = W)

/-- an open static text holds the text of the group, in pieces that end at such places -/
def Keeps (T : Tokenizer) (z : TxtIO.Codec) (g : List Txn) (t : Txt) : Prop :=
  ∃ ds, Holds z t ds ∧ ds.flatten = groupText g ∧ ∀ k, k < ds.length → Bound T g (off ds (k + 1))

/-- first and last address of the chunks -/
def rangeOf (l : List Ann) : Int × Int :=
  match l.head?, l.getLast? with
  | some a, some b => (a.p, b.q)
  | _, _ => (maxfinity, maxfinity)

theorem range_spec {l : List Ann} (hl : Listing l) (hne : l ≠ []) :
    (∀ c ∈ l, (rangeOf l).1 ≤ c.p ∧ c.q ≤ (rangeOf l).2) ∧ (∃ c ∈ l, c.p = (rangeOf l).1) ∧
    ∃ c ∈ l, c.q = (rangeOf l).2 := by
  obtain ⟨a, r, rfl⟩ := List.exists_cons_of_ne_nil hne
  obtain ⟨i, b, e⟩ : ∃ i b, a :: r = i ++ [b] := ⟨_, _, (List.dropLast_concat_getLast (by simp)).symm⟩
  have e1 : rangeOf (a :: r) = (a.p, b.q) := by
    unfold rangeOf
    rw [show (a :: r).getLast? = some b by rw [e]; simp]
    rfl
  rw [e1]
  refine ⟨?_, ⟨a, by simp, rfl⟩, ⟨b, by rw [e]; simp, rfl⟩⟩
  intro c hc
  constructor
  · rcases List.mem_cons.mp hc with rfl | hc
    · exact Int.le_refl _
    · have := (List.pairwise_cons.mp hl.sorted).1 c hc; show a.p ≤ c.p; omega
  · have hs := hl.sorted
    rw [e] at hs hc
    rcases List.mem_append.mp hc with hc | hc
    · have := (List.pairwise_append.mp hs).2.2 c hc b (by simp); show c.q ≤ b.q; omega
    · rw [List.mem_singleton] at hc; subst hc; exact Int.le_refl _

theorem first_from {l : List Ann} {p : Int} (h : ∃ c ∈ l, p ≤ c.q) :
    ∃ pre c post, l = pre ++ c :: post ∧ (∀ d ∈ pre, d.q < p) ∧ p ≤ c.q := by
  induction l with
  | nil => obtain ⟨c, hc, -⟩ := h; cases hc
  | cons a l ih =>
    by_cases ha : p ≤ a.q
    · exact ⟨[], a, l, rfl, by simp, ha⟩
    · obtain ⟨c, hc, h1⟩ := h
      rcases List.mem_cons.mp hc with rfl | hc
      · exact absurd h1 ha
      · obtain ⟨pre, c, post, rfl, h2, h3⟩ := ih ⟨c, hc, h1⟩
        refine ⟨a :: pre, c, post, rfl, ?_, h3⟩
        intro d hd
        rcases List.mem_cons.mp hd with rfl | hd
        · omega
        · exact h2 d hd

theorem last_upto {l : List Ann} {q : Int} (h : ∃ c ∈ l, c.p ≤ q) :
    ∃ pre c post, l = pre ++ c :: post ∧ (∀ d ∈ post, q < d.p) ∧ c.p ≤ q := by
  induction l with
  | nil => obtain ⟨c, hc, -⟩ := h; cases hc
  | cons a l ih =>
    by_cases hl : ∃ c ∈ l, c.p ≤ q
    · obtain ⟨pre, c, post, rfl, h2, h3⟩ := ih hl
      exact ⟨a :: pre, c, post, rfl, h2, h3⟩
    · refine ⟨[], a, l, rfl, ?_, ?_⟩
      · intro d hd
        apply Classical.byContradiction
        intro hn
        exact hl ⟨d, hd, by omega⟩
      · obtain ⟨c, hc, h1⟩ := h
        rcases List.mem_cons.mp hc with rfl | hc
        · exact h1
        · exact absurd ⟨c, hc, h1⟩ hl

theorem in_prefix {α : Type} {ch rest pre post : List α} {c : α} (e : ch ++ rest = pre ++ c :: post)
    (hc : c ∉ rest) : ∃ r, ch = pre ++ c :: r := by
  rcases List.append_eq_append_iff.mp e with ⟨as, h1, h2⟩ | ⟨as, h1, h2⟩
  · exact absurd (by rw [h2]; simp) hc
  · cases as with
    | nil => exact absurd (by rw [List.nil_append] at h2; rw [← h2]; simp) hc
    | cons a as =>
      simp only [List.cons_append] at h2
      injection h2 with i1 i2
      subst i1
      exact ⟨as, h1⟩

/-- `ohr` finds the last chunk that starts at or before an address -/
theorem ohr_eq {l pre post : List Ann} {c r : Ann} {q : Int} (hl : Listing l) (e : l = pre ++ c :: post)
    (h1 : ∀ d ∈ post, q < d.p) (h2 : c.p ≤ q) (hq : q ≠ maxfinity) (ho : OhrSpec (ofList l) q r) : r = c := by
  have hc : c ∈ l := by rw [e]; simp
  rcases ho with ⟨h3, -⟩ | ⟨-, h3, h4, h5⟩ | ⟨-, h3, -⟩
  · exact absurd h3 hq
  · have h6 := h5 c hc h2
    have hr : r ∈ l := h3
    have hs := hl.sorted
    rw [e] at hr hs
    rw [List.pairwise_append, List.pairwise_cons] at hs
    rw [List.mem_append, List.mem_cons] at hr
    rcases hr with hr | hr | hr
    · have := hs.2.2 r hr c (List.mem_cons_self ..); omega
    · exact hr
    · have := h1 r hr; omega
  · have := h3 c hc; omega

section
variable (hT : Lawful T) (hnl : NewlineGap T)
include hT hnl

theorem group_good {g : List Txn} (hg : ∀ u ∈ g, ∀ s ∈ u.texts, Clean T s) (hgo : InOrder T g) :
    GoodShard T (shardOf T g) ∧ InBounds (shardOf T g) ∧ (shardOf T g).text = groupText g ∧
    shardOf T g = total (g.map (Txn.shard T)) := by
  obtain ⟨e1, e2, e3⟩ := group_total hT hnl hg hgo
  have e : shardOf T g = total (g.map (Txn.shard T)) := e1
  rw [e]
  refine ⟨total_good hT e2 e3, ?_, ?_, rfl⟩
  · intro c hc
    obtain ⟨u, hu, h1⟩ := group_chunk hT hnl hg hc
    have := hgo.fits u hu
    omega
  · rw [total_text, List.map_map, groupText]
    congr 1
    apply List.map_congr_left
    intro u hu
    exact (txn_chunk hT hnl (hg u hu)).2.2.1

theorem group_split {G1 G2 : List Txn} (hg : ∀ u ∈ G1 ++ G2, ∀ s ∈ u.texts, Clean T s)
    (hgo : InOrder T (G1 ++ G2)) :
    groupText (G1 ++ G2) = groupText G1 ++ groupText G2 ∧
    (shardOf T (G1 ++ G2)).chunks = (shardOf T G1).chunks ++
      (shardOf T G2).chunks.map (moveChunk 0 (groupText G1).length) := by
  have h1 : ∀ u ∈ G1, ∀ s ∈ u.texts, Clean T s := fun u hu => hg u (List.mem_append_left _ hu)
  have h2 : ∀ u ∈ G2, ∀ s ∈ u.texts, Clean T s := fun u hu => hg u (List.mem_append_right _ hu)
  obtain ⟨-, -, -, e⟩ := group_good hT hnl hg hgo
  obtain ⟨-, -, t1, e1⟩ := group_good hT hnl h1 (hgo.sub hT hnl (List.sublist_append_left ..))
  obtain ⟨-, -, -, e2⟩ := group_good hT hnl h2 (hgo.sub hT hnl (List.sublist_append_right ..))
  refine ⟨by simp [groupText], ?_⟩
  rw [e, List.map_append, total_append, ← e1, ← e2, ← t1]
  rfl

omit hT hnl in
theorem apart_nil {p q : Int} : Apart (shardOf T []) p q := by intro c hc; cases hc

omit hT hnl in
/-- up to an address that no chunk holds -/
theorem answer_gap (hT : Lawful T) {x : Shard} (hx : GoodShard T x) (hb : InBounds x) {p q : Int} {c : Ann} {s : Nat}
    (hbeg : Begin T x p c s) (hp : 0 ≤ p) (hcq : c.p ≤ q) (hpq : p ≤ q)
    (hq : q < maxfinity) (hgap : ∀ r, OhrSpec (ofList x.chunks) q r → r.q < q) :
    Answer T p q x (x.text.drop s) := by
  refine answer_of_ok fun H I hI => ?_
  have hl := hx.listing hb
  have hcm : c ∈ x.chunks := by obtain ⟨pre, post, e, -⟩ := hbeg; rw [e]; simp
  have b1 := hb c hcm
  unfold translate
  have hp0 : (if p < 0 then (0 : Int) else p) = p := if_neg (by omega)
  rw [hp0]
  refine Ok.ite (fun h => by omega) (fun _ => ?_)
  refine Ok.bind (hI.rho p (by omega)) ?_
  intro c0 hc0
  have := hbeg.rho hl (by omega) hc0
  subst this
  refine Ok.ite (fun h => ?_) (fun _ => ?_)
  · have := (laid_le hx.laid c0 hcm).1
    omega
  · refine Ok.bind (hI.ohr q (by omega)) ?_
    intro c1 hc1
    rw [Text.cut_gap hT hx hbeg (hgap c1 hc1)]
    exact Ok.pure rfl

/-- A static shard answers as the dynamic shard of the transactions up to some transaction,
none of the others having an address asked for. -/
theorem static_range (hC : Cuts T) {g : List Txn} (hg : ∀ u ∈ g, ∀ s ∈ u.texts, Clean T s)
    (hgo : InOrder T g) {z : TxtIO.Codec} {t : Txt} (hk : Keeps T z g t) {p q : Int} (hp : 0 ≤ p) (hpq : p ≤ q)
    (hq : q < maxfinity) :
    ∃ G1 G2 a, g = G1 ++ G2 ∧ Answer T p q (shardOf T G1) a ∧ Apart (shardOf T G2) p q ∧
      ∀ (H : Obj) (I : H.σ → Prop), Impl H I (ofList (shardOf T g).chunks) →
        Ok I (translateStatic T z H t (rangeOf (shardOf T g).chunks) p q) (fun r => r = a) := by
  obtain ⟨gx, bx, tx, -⟩ := group_good hT hnl hg hgo
  generalize hx : shardOf T g = x at *
  have hl := gx.listing bx
  have hle := laid_le gx.laid
  by_cases hap : Apart x p q
  · -- nothing asked for
    refine ⟨g, [], [], by simp, ?_, apart_nil, ?_⟩
    · rw [hx]; exact answer_apart hp (by omega) hap
    · intro H I hI
      unfold translateStatic
      refine Ok.ite (fun _ => Ok.pure rfl) (fun hr => ?_)
      have hne : x.chunks ≠ [] := by
        intro h0; rw [h0] at hr; exact hr rfl
      obtain ⟨r1, ⟨f, f1, f2⟩, ⟨l, l1, l2⟩⟩ := range_spec hl hne
      have bf := bx f f1
      have bl := bx l l1
      refine Ok.ite (fun _ => Ok.pure rfl) (fun hr2 => ?_)
      refine Ok.bind (hI.rho _ (by split <;> omega)) ?_
      intro c0 hc0
      refine Ok.ite (fun _ => Ok.pure rfl) (fun hr3 => ?_)
      exfalso
      rcases hc0 with ⟨h3, -⟩ | ⟨-, h3, h4, h5⟩ | ⟨-, -, h3⟩
      · split at h3 <;> omega
      · have := hap c0 h3
        split at h4 <;> split at hr3 <;> omega
      · rw [h3] at hr3; simp [highEnd] at hr3
  · have hex : ∃ c ∈ x.chunks, p ≤ c.q ∧ c.p ≤ q := by
      apply Classical.byContradiction
      intro hn
      apply hap
      intro c hc
      by_cases h1 : c.q < p
      · exact Or.inl h1
      · by_cases h2 : q < c.p
        · exact Or.inr h2
        · exact absurd ⟨c, hc, by omega, by omega⟩ hn
    obtain ⟨cm, hcm, hm1, hm2⟩ := hex
    have hne : x.chunks ≠ [] := by intro h0; rw [h0] at hcm; cases hcm
    obtain ⟨rs, ⟨f, f1, f2⟩, ⟨l, l1, l2⟩⟩ := range_spec hl hne
    have bf := bx f f1
    have bl := bx l l1
    have lf := (hle f f1).1
    have ll := (hle l l1).1
    obtain ⟨pre, c0, post, e0, b1, b2⟩ := first_from (p := p) ⟨cm, hcm, hm1⟩
    obtain ⟨pre', c1, post', e1, d1, d2⟩ := last_upto (q := q) ⟨cm, hcm, hm2⟩
    have m0 : c0 ∈ x.chunks := by rw [e0]; simp
    have m1 : c1 ∈ x.chunks := by rw [e1]; simp
    have c0q : c0.p ≤ q := by
      rw [e0, List.mem_append, List.mem_cons] at hcm
      rcases hcm with h | h | h
      · have := b1 cm h; omega
      · subst h; exact hm2
      · have := gx.sorted
        rw [e0, List.pairwise_append, List.pairwise_cons] at this
        have := this.2.1.1 cm h
        have := (hle c0 m0).1
        omega
    have o0 := hle c0 m0
    have o1 := hle c1 m1
    have bd0 := bx c0 m0
    have bd1 := bx c1 m1
    have r0 := rs c0 m0
    have r1 := rs c1 m1
    have rf := rs f f1
    generalize hP' : (if p < (rangeOf x.chunks).1 then (rangeOf x.chunks).1 else p) = p'
    generalize hQ' : (if q > (rangeOf x.chunks).2 then (rangeOf x.chunks).2 else q) = q'
    have hp' : p ≤ p' ∧ p' ≤ c0.q ∧ p' ≤ q ∧ p' ≤ (rangeOf x.chunks).2 ∧ (p' ≤ c0.p ↔ p ≤ c0.p) ∧
        (¬ p ≤ c0.p → p' = p) := by
      rw [← hP']; split <;> omega
    have hq' : q' ≤ q ∧ c1.p ≤ q' ∧ c0.p ≤ q' ∧ p' ≤ q' := by
      rw [← hQ']; split <;> omega
    obtain ⟨ds, hH, hflat, hbound⟩ := hk
    -- where reading starts, in the text
    have hbeg : ∀ (y : Shard) (r : List Ann), y.chunks = pre ++ c0 :: r → 
        ∃ s, Begin T y p c0 s ∧ Begin T y p' c0 s ∧
          s = if p' ≤ c0.p then c0.v.toNat else T.skip y.text (covered pre + (p' - c0.p).toNat : Nat) := by
      intro y r hy
      have key : (if p ≤ c0.p then c0.v.toNat else T.skip y.text (covered pre + (p - c0.p).toNat : Nat)) =
          if p' ≤ c0.p then c0.v.toNat else T.skip y.text (covered pre + (p' - c0.p).toNat : Nat) := by
        by_cases h : p ≤ c0.p
        · rw [if_pos h, if_pos (hp'.2.2.2.2.1.mpr h)]
        · have := hp'.2.2.2.2.2 h
          rw [this]
      refine ⟨_, ⟨pre, r, hy, b1, b2, rfl⟩, ⟨pre, r, hy, fun d hd => ?_, hp'.2.1, key⟩, key⟩
      have := b1 d hd; omega
    -- what the static reader does
    have hstatic : ∀ {a : Text}, cutStatic T z t p' q' c0 c1 = a → ∀ (H : Obj) (I : H.σ → Prop),
        Impl H I (ofList x.chunks) →
        Ok I (translateStatic T z H t (rangeOf x.chunks) p q) (fun r => r = a) := by
      intro a ha H I hI
      obtain ⟨s, -, hbg, -⟩ := hbeg x post e0
      unfold translateStatic
      refine Ok.ite (fun h => by omega) (fun _ => ?_)
      simp only [hP', hQ']
      refine Ok.ite (fun h => by omega) (fun _ => ?_)
      refine Ok.bind (hI.rho p' (by omega)) ?_
      intro c hc
      have := hbg.rho hl (by omega) hc
      subst this
      refine Ok.ite (fun h => by omega) (fun _ => ?_)
      refine Ok.bind (hI.ohr q' (by omega)) ?_
      intro d hd
      have := ohr_eq hl e1 (fun d hd => by have := d1 d hd; omega) hq'.2.1 (by omega) hd
      subst this
      refine Ok.ite (fun h => by omega) (fun _ => ?_)
      exact Ok.pure ha
    have hL1 := gx.laid
    rw [e1, laid_append] at hL1
    have st1 : Starts T x.text (covered pre') c1.v.toNat := by
      have := hL1.2.1; rwa [Nat.zero_add] at this
    have hcov := gx.covers
    rw [e1, covered_append] at hcov
    have hlen1 : Ann.len c1 = (c1.q - c1.p + 1).toNat := rfl
    have hcov' : covered pre' + (Ann.len c1 + covered post') = T.addresses x.text := hcov
    have v1lt : c1.v.toNat < x.text.length := starts_lt hT st1 (by omega)
    have hv01 : c0.v ≤ c1.v := by
      have hL := gx.laid
      rw [e1] at hL
      obtain ⟨ha, hb⟩ := laid_offsets hT hL
      have hm := m0
      rw [e1, List.mem_append, List.mem_cons] at hm
      rcases hm with h | h | h
      · have := ha c0 h; omega
      · subst h; exact Int.le_refl _
      · have := d1 c0 h; omega
    by_cases hin : q' ≤ c1.q
    · -- a chunk holds the last address
      rw [← tx] at hflat
      obtain ⟨k, k1, k2, k3⟩ := covers (ds := ds) (b := c1.v.toNat) (by rw [hflat]; omega)
      have hbk := hbound k k1
      generalize hW : off ds (k + 1) = W at *
      generalize hPP : ds.flatten.take (off ds (k + 1)) = P
      have hPx : P = x.text.take W := by rw [← hPP, hflat, hW]
      -- the chunks before the end of the pieces
      have window : ∀ (ch rest : List Ann), x.chunks = ch ++ rest → (∀ d ∈ rest, (W : Int) ≤ d.v) →
          Laid T P 0 ch → ∃ r0 r1 s, ch = pre ++ c0 :: r0 ∧ ch = pre' ++ c1 :: r1 ∧
            s = (if p' ≤ c0.p then c0.v.toNat else T.skip P (covered pre + (p' - c0.p).toNat : Nat)) ∧
            cutStatic T z t p' q' c0 c1 = (P.drop s).take (T.skip P (covered pre' + (q' - c1.p).toNat + 1 : Nat) - s) := by
        intro ch rest hch hrest hL
        obtain ⟨r0, hr0⟩ := in_prefix (hch.symm.trans e0) (fun hm => by have := hrest c0 hm; omega)
        obtain ⟨r1, hr1⟩ := in_prefix (hch.symm.trans e1) (fun hm => by have := hrest c1 hm; omega)
        have hdis := gx.sorted
        rw [hch] at hdis
        obtain ⟨a1, a2, a3, a4, -⟩ := cut_facts hT hL (List.pairwise_append.mp hdis).1 hr0
          (fun d hd => by have := b1 d hd; omega) hp'.2.1 rfl hq'.2.2.1 hq'.2.2.2 hr1 hq'.2.1 hin rfl
        refine ⟨r0, r1, _, hr0, hr1, rfl, ?_⟩
        exact hH.cut_in (T := T) o0.2 hv01 k1 (by omega) (by omega) hPP.symm a1 a2 a3 hin a4
      rcases hbk with ⟨G1, G2, hg12, hlen⟩ | ⟨cw, hcw, hcv, u, hu, huo⟩
      · -- the pieces end with a transaction
        subst hg12
        obtain ⟨t12, ch12⟩ := group_split hT hnl hg hgo
        rw [hx] at ch12
        obtain ⟨g1, bb1, t1, -⟩ := group_good hT hnl (g := G1) (fun u hu => hg u (List.mem_append_left _ hu))
          (hgo.sub hT hnl (List.sublist_append_left ..))
        obtain ⟨g2, bb2, t2, -⟩ := group_good hT hnl (g := G2) (fun u hu => hg u (List.mem_append_right _ hu))
          (hgo.sub hT hnl (List.sublist_append_right ..))
        have hP1 : P = (shardOf T G1).text := by
          rw [hPx, tx, t12, t1, List.take_left' (by omega)]
        obtain ⟨r0, r1, s, hr0, hr1, hs, hcut⟩ := window _ _ ch12 (by
          intro d hd
          obtain ⟨e, he, rfl⟩ := List.mem_map.mp hd
          have := (laid_le g2.laid e he).2
          simp only [moveChunk]; omega) (by rw [hP1]; exact g1.laid)
        obtain ⟨s', hbg, hbg', hs'⟩ := hbeg (shardOf T G1) r0 hr0
        have hss : s = s' := by rw [hs, hs', hP1]
        subst hss
        refine ⟨G1, G2, _, rfl, ?_, ?_, hstatic hcut⟩
        · by_cases hqq : q' = q
          · have := answer_in hT g1 bb1 hbg hp c0q (n := covered pre' + (q - c1.p).toNat)
              ⟨pre', c1, r1, hr1, by omega, by omega, rfl, rfl⟩ hpq
            rw [hqq, hP1]; exact this
          · have hq2 : q' = (rangeOf x.chunks).2 ∧ (rangeOf x.chunks).2 < q := by
              rw [← hQ'] at hqq ⊢; split <;> rename_i h
              · exact ⟨rfl, h⟩
              · rw [if_neg h] at hqq; exact absurd rfl hqq
            have hlast : c1.q = q' := by omega
            have hall : ∀ c ∈ (shardOf T G1).chunks, c.q < q := by
              intro c hc
              have := rs c (by rw [ch12]; exact List.mem_append_left _ hc)
              omega
            have := answer_past hT g1 bb1 hbg hp c0q hpq hq hall
            have hr1n : r1 = [] := by
              cases r1 with
              | nil => rfl
              | cons d r1 =>
                exfalso
                have hd1 := g1.sorted
                rw [hr1, List.pairwise_append, List.pairwise_cons] at hd1
                have h1 := hd1.2.1.1 d (List.mem_cons_self ..)
                have hdm : d ∈ (shardOf T G1).chunks := by rw [hr1]; simp
                have h2 := rs d (by rw [ch12]; exact List.mem_append_left _ hdm)
                have h3 := (laid_le g1.laid d hdm).1
                omega
            have hcv := g1.covers
            rw [hr1, hr1n, covered_append] at hcv
            have hcv' : covered pre' + (Ann.len c1 + 0) = T.addresses (shardOf T G1).text := hcv
            have hend : T.skip P (covered pre' + (q' - c1.p).toNat + 1 : Nat) = P.length := by
              apply (hT.skips P).past
              rw [at_lt hT, hP1]; omega
            rw [hend, List.take_of_length_le (by simp), hP1]
            exact this
        · intro c hc
          right
          have hmv : moveChunk 0 (groupText G1).length c ∈ (shardOf T G2).chunks.map (moveChunk 0 (groupText G1).length) :=
            List.mem_map_of_mem hc
          have hd := gx.sorted
          rw [ch12, hr1, List.append_assoc, List.cons_append, List.pairwise_append, List.pairwise_cons] at hd
          have h1 := hd.2.1.1 _ (List.mem_append_right _ hmv)
          have h2 := rs _ (by rw [ch12]; exact List.mem_append_right _ hmv)
          have h3 := (laid_le g2.laid c hc).1
          simp only [moveChunk] at h1 h2
          have : q' = q := by
            rw [← hQ']; split <;> rename_i h
            · rw [if_pos h] at hQ'; omega
            · rfl
          omega
      · -- the pieces end before a chunk that starts with a token
        rw [hx] at hcw
        obtain ⟨pw, rw', ew⟩ := List.append_of_mem hcw
        have hLw := gx.laid
        rw [ew] at hLw
        obtain ⟨ofs1, ofs2⟩ := laid_offsets hT hLw
        have hLw' := hLw
        rw [laid_append] at hLw'
        have stw : Starts T x.text (covered pw) W := by
          have := hLw'.2.1
          rwa [Nat.zero_add, hcv, Int.toNat_natCast] at this
        rw [← tx] at hu
        have hadd : u.address = covered pw := by
          have stu : Starts T x.text u.address W := Or.inr ⟨u, hu, rfl, huo⟩
          rcases Nat.lt_trichotomy u.address (covered pw) with h | h | h
          · have := starts_mono hT stu stw h; omega
          · exact h
          · have := starts_mono hT stw stu h; omega
        have hcut := cutAt hC hT hu
        rw [hadd, huo] at hcut
        obtain ⟨r0, r1, s, hr0, hr1, hs, hcs⟩ := window pw (cw :: rw') ew (by
          intro d hd
          rcases List.mem_cons.mp hd with rfl | hd
          · omega
          · have := ofs2 d hd; omega) (by
          rw [hPx]
          exact hcut.laid hLw'.1 fun d hd => by
            have := ofs1 d hd
            have := (hle d (by rw [ew]; simp [hd])).2
            omega)
        have hcw' : covered pw = covered pre' + (Ann.len c1 + covered r1) := by
          rw [hr1, covered_append]; rfl
        have hcw0 : covered pw = covered pre + (Ann.len c0 + covered r0) := by
          rw [hr0, covered_append]; rfl
        have hlen0 : Ann.len c0 = (c0.q - c0.p + 1).toNat := rfl
        have hqq : q' = q := by
          rw [← hQ']; split <;> rename_i h
          · exfalso
            have hcwm : cw ∈ post' := by
              have : pre' ++ c1 :: post' = pre' ++ c1 :: (r1 ++ cw :: rw') := by
                rw [← e1, ew, hr1]; simp
              have := List.append_cancel_left this
              injection this with _ h2
              rw [h2]; simp
            have := d1 cw hcwm
            have := rs cw hcw
            have := (hle cw hcw).1
            omega
          · rfl
        subst hqq
        have hsk : ∀ m, m ≤ covered pw → T.skip P m = T.skip x.text m := by
          intro m hm; rw [hPx]; exact hcut.skip hT hm
        have hW2 : T.skip x.text (covered pre' + (q' - c1.p).toNat + 1 : Nat) ≤ W := by
          have := skip_mono hT x.text (covered pre' + (q' - c1.p).toNat + 1)
            (covered pw - (covered pre' + (q' - c1.p).toNat + 1))
          rw [show covered pre' + (q' - c1.p).toNat + 1 + (covered pw - (covered pre' + (q' - c1.p).toNat + 1)) =
            covered pw by omega, hcut.start] at this
          exact this
        rw [hsk _ (by omega)] at hcs
        have hbs : Begin T x p c0 s := by
          refine ⟨pre, post, e0, b1, b2, ?_⟩
          rw [hs]
          by_cases h : p ≤ c0.p
          · rw [if_pos h, if_pos (hp'.2.2.2.2.1.mpr h)]
          · have := hp'.2.2.2.2.2 h
            rw [this, if_neg h, if_neg h, hsk _ (by omega)]
        have hans := answer_in hT gx bx hbs hp c0q (n := covered pre' + (q' - c1.p).toNat)
          ⟨pre', c1, post', e1, by omega, by omega, rfl, rfl⟩ hpq
        have heq : (P.drop s).take (T.skip x.text (covered pre' + (q' - c1.p).toNat + 1 : Nat) - s) =
            (x.text.drop s).take (T.skip x.text (covered pre' + (q' - c1.p).toNat + 1 : Nat) - s) := by
          rw [hPx, List.drop_take, List.take_take]
          congr 1
          omega
        rw [heq] at hcs
        exact ⟨g, [], _, by simp, by rw [hx]; exact hans, apart_nil, hstatic hcs⟩
    · -- no chunk holds the last address
      have hqq : q' = q := by
        rw [← hQ']; split <;> rename_i h
        · exfalso
          rw [if_pos h] at hQ'
          have hlm := l1
          rw [e1, List.mem_append, List.mem_cons] at hlm
          rcases hlm with h1 | h1 | h1
          · have := gx.sorted
            rw [e1, List.pairwise_append] at this
            have := this.2.2 l h1 c1 (by simp)
            omega
          · subst h1; omega
          · have := d1 l h1; omega
        · rfl
      subst hqq
      obtain ⟨s, hbg, hbg', hs⟩ := hbeg x post e0
      obtain ⟨a1, -, -, -, -, st0, -⟩ := cut_facts hT gx.laid gx.sorted e0
          (fun d hd => by have := b1 d hd; omega) hp'.2.1 rfl o0.1 hp'.2.1 e0 o0.1 (Int.le_refl _) rfl
      rw [← hs] at a1
      rw [← tx] at hflat
      refine ⟨g, [], x.text.drop s, by simp, ?_, apart_nil, hstatic ?_⟩
      · rw [hx]
        refine answer_gap hT gx bx hbg hp c0q hpq hq ?_
        intro r hr
        have := ohr_eq hl e1 d1 d2 (by omega) hr
        subst this; omega
      · rw [← hflat]
        exact hH.cut_gap (T := T) o0.2 (by rw [hflat]; omega) o1.2 (by rw [hflat]; omega) (by rw [hflat]; exact a1) (by omega)
end

end Verif.HazelText
