import Verif.HazelText.Freeze
/-
  Warrens whose shards are dynamic or static answer as warrens of dynamic shards.
-/
namespace Verif.HazelText
open Verif.Hopper Verif.Text Verif.Store

variable {T : Tokenizer} {z : TxtIO.Codec}

/-! ### static texts -/

mutual
/-- `t` is an open static text of the transactions `g`: written from a dynamic shard, or
merged from such texts -/
inductive Frozen (T : Tokenizer) (z : TxtIO.Codec) (target : Int) : List Txn → Txt → Prop
  | freeze {g blob t} : ((∀ u ∈ g, u.count T = 0) ∨ ∃ u r, g = u :: r ∧ 0 < u.count T) →
      writeTxt z target (shardOf T g) = some blob → blob.length ≤ maxLength →
      (groupText g).length ≤ maxLength → load blob = some t → Frozen T z target g t
  | merge {gs ts blob t} : FrozenAll T z target gs ts → mergeTxt ts = some blob → blob.length ≤ maxLength →
      (groupText gs.flatten).length ≤ maxLength → load blob = some t → Frozen T z target gs.flatten t
inductive FrozenAll (T : Tokenizer) (z : TxtIO.Codec) (target : Int) : List (List Txn) → List Txt → Prop
  | nil : FrozenAll T z target [] []
  | cons {g gs t ts} : Frozen T z target g t → FrozenAll T z target gs ts →
      FrozenAll T z target (g :: gs) (t :: ts)
end

theorem restores_le {m n : Nat} (h : z.Restores n) (hmn : m ≤ n) : z.Restores m :=
  fun d hd => h d (Nat.le_trans hd hmn)

theorem groupText_append (g1 g2 : List Txn) : groupText (g1 ++ g2) = groupText g1 ++ groupText g2 := by
  simp [groupText]

section
variable (hT : Lawful T) (hnl : NewlineGap T) {target : Int} (ht : 0 < target) (ht64 : In64 target)

omit hT hnl ht ht64 in
theorem off_append (ds es : List Text) (k : Nat) (hk : ds.length ≤ k) : off (ds ++ es) k = ds.flatten.length + off es (k - ds.length) := by
  unfold off
  rw [List.take_append, List.take_of_length_le hk, List.flatten_append, List.length_append]

include hT hnl ht ht64

mutual
theorem frozen_keeps : ∀ {g : List Txn} {t : Txt}, Frozen T z target g t →
    (∀ u ∈ g, ∀ s ∈ u.texts, Clean T s) → InOrder T g → z.Restores (groupText g).length →
    Keeps T z g t ∧ t.target = target
  | _, _, .freeze hf hw hb hl ho => fun hg hgo hz => by
    obtain ⟨blob, k1, k2⟩ := freeze_keeps hT hnl hg hgo hf ht ht64 hz
    rw [hw] at k1
    cases k1
    obtain ⟨t, k3, k4, k5⟩ := k2 hb hl
    rw [ho] at k3
    cases k3
    exact ⟨k4, k5⟩
  | _, _, .merge (ts := ts) ha hm hb hl ho => fun hg hgo hz => by
    obtain ⟨dss, d1, d2, d3, d4⟩ := frozenAll_keeps ha hg hgo hz
    have hn : 2 ≤ ts.length := by
      match ts, hm with
      | [], h => cases h
      | [_], h => cases h
      | _ :: _ :: _, _ => simp
    obtain ⟨blob, k1, k2⟩ := merge_holds d1 ht64 d2 hn
    rw [hm] at k1
    cases k1
    obtain ⟨t, k3, k4, k5⟩ := k2 hb (by rw [d3]; exact hl)
    rw [ho] at k3
    cases k3
    exact ⟨⟨_, k4, d3, d4⟩, k5⟩
theorem frozenAll_keeps : ∀ {gs : List (List Txn)} {ts : List Txt}, FrozenAll T z target gs ts →
    (∀ u ∈ gs.flatten, ∀ s ∈ u.texts, Clean T s) → InOrder T gs.flatten → z.Restores (groupText gs.flatten).length →
    ∃ dss, HoldsAll z ts dss ∧ (∀ t ∈ ts, t.target = target) ∧ dss.flatten.flatten = groupText gs.flatten ∧
      ∀ k, k < dss.flatten.length → Bound T gs.flatten (off dss.flatten (k + 1))
  | _, _, .nil => fun _ _ _ => ⟨[], .nil, by simp, rfl, by simp⟩
  | _, _, .cons (g := g) (gs := gs) h1 h2 => fun hg hgo hz => by
    rw [List.flatten_cons] at hg hgo hz
    rw [groupText_append] at hz
    obtain ⟨⟨ds, k1, k2, k3⟩, kt⟩ := frozen_keeps h1 (fun u hu => hg u (List.mem_append_left _ hu))
      (hgo.sub hT hnl (List.sublist_append_left ..)) (restores_le hz (by simp))
    obtain ⟨dss, d1, d2, d3, d4⟩ := frozenAll_keeps h2 (fun u hu => hg u (List.mem_append_right _ hu))
      (hgo.sub hT hnl (List.sublist_append_right ..)) (restores_le hz (by simp))
    refine ⟨ds :: dss, .cons k1 d1, ?_, ?_, ?_⟩
    · intro t ht
      rcases List.mem_cons.mp ht with rfl | ht
      · exact kt
      · exact d2 t ht
    · rw [List.flatten_cons, List.flatten_append, k2, d3, List.flatten_cons, groupText_append]
    · intro k hk
      simp only [List.flatten_cons] at hk ⊢
      by_cases hk' : k < ds.length
      · have e : off (ds ++ dss.flatten) (k + 1) = off ds (k + 1) := by
          unfold off; rw [List.take_append_of_le_length (by omega)]
        rw [e]
        exact (k3 k hk').right hT hnl hg hgo
      · rw [List.length_append] at hk
        rw [off_append _ _ _ (by omega), k2, show k + 1 - ds.length = k - ds.length + 1 by omega]
        exact (d4 (k - ds.length) (by omega)).left hT hnl hg hgo
end
end

/-! ### any range of a dynamic shard -/

section
variable (hT : Lawful T) (hnl : NewlineGap T)
include hT hnl

/-- a dynamic shard has one answer to every question -/
theorem answer_ex {g : List Txn} (hg : ∀ u ∈ g, ∀ s ∈ u.texts, Clean T s)
    (hgo : InOrder T g) {p q : Int} (hp : 0 ≤ p) (hpq : p ≤ q)
    (hq : q < maxfinity) : ∃ a, Answer T p q (shardOf T g) a := by
  obtain ⟨gx, bx, tx, -⟩ := group_good hT hnl hg hgo
  generalize hx : shardOf T g = x at *
  have hl := gx.listing bx
  have hle := laid_le gx.laid
  by_cases hap : Apart x p q
  · exact ⟨[], answer_apart hp (by omega) hap⟩
  · have hex : ∃ c ∈ x.chunks, p ≤ c.q ∧ c.p ≤ q := by
      apply Classical.byContradiction
      intro hn
      apply hap
      intro c hc
      by_cases h1 : c.q < p
      · exact Or.inl h1
      · by_cases h2 : q < c.p
        · exact Or.inr h2
        · exact absurd ⟨c, hc, by omega, by omega⟩ hn
    obtain ⟨cm, hcm, hm1, hm2⟩ := hex
    obtain ⟨pre, c0, post, e0, b1, b2⟩ := first_from (p := p) ⟨cm, hcm, hm1⟩
    obtain ⟨pre', c1, post', e1, d1, d2⟩ := last_upto (q := q) ⟨cm, hcm, hm2⟩
    have m0 : c0 ∈ x.chunks := by rw [e0]; simp
    have c0q : c0.p ≤ q := by
      rw [e0, List.mem_append, List.mem_cons] at hcm
      rcases hcm with h | h | h
      · have := b1 cm h; omega
      · subst h; exact hm2
      · have := gx.sorted
        rw [e0, List.pairwise_append, List.pairwise_cons] at this
        have := this.2.1.1 cm h
        have := (hle c0 m0).1
        omega
    have hbg : Begin T x p c0 _ := ⟨pre, post, e0, b1, b2, rfl⟩
    by_cases hin : q ≤ c1.q
    · exact ⟨_, answer_in hT gx bx hbg hp c0q (n := covered pre' + (q - c1.p).toNat)
        ⟨pre', c1, post', e1, d2, hin, rfl, rfl⟩ hpq⟩
    · refine ⟨_, answer_gap hT gx bx hbg hp c0q hpq hq ?_⟩
      intro r hr
      have := ohr_eq hl e1 d1 d2 (by omega) hr
      subst this; omega
end

/-! ### negative and empty ranges -/

theorem translate_clamp (H : Obj) (x : Text) (p q : Int) :
    translate T H x p q = translate T H x (if p < 0 then 0 else p) q := by
  unfold translate
  by_cases h : p < 0
  · simp only [h, if_true]; rfl
  · simp only [h, if_false]

theorem answer_clamp {p q : Int} {x : Shard} {a : Text} (h : Answer T (if p < 0 then 0 else p) q x a) :
    Answer T p q x a := by
  intro r hr
  rw [translate_clamp]
  exact h r hr

theorem answer_empty {p q : Int} (hp : 0 ≤ p) (hq : q < p) (x : Shard) : Answer T p q x [] := by
  intro r hr
  refine ⟨r.state, ?_, hr⟩
  unfold translate
  simp only [show ¬ p < 0 by omega, if_false]
  rw [if_pos (Or.inr hq)]; rfl

/-- the clamped range asks a static text for the same -/
theorem static_clamp (H : Obj) (t : Txt) {r : Int × Int} (hr : 0 ≤ r.1) (p q : Int) :
    translateStatic T z H t r p q = translateStatic T z H t r (if p < 0 then 0 else p) q := by
  unfold translateStatic
  have : (if p < r.1 then r.1 else p) = if (if p < 0 then 0 else p) < r.1 then r.1 else if p < 0 then 0 else p := by
    by_cases h : p < 0
    · simp only [h, if_true]
      rw [if_pos (by omega)]
      split <;> omega
    · simp only [h, if_false]
  rw [this]

theorem static_empty (H : Obj) (t : Txt) {r : Int × Int} (hr : r.1 ≤ r.2 ∨ r.1 = maxfinity) {p q : Int} (hq : q < p)
    (I : H.σ → Prop) : Ok I (translateStatic T z H t r p q) (fun a => a = []) := by
  unfold translateStatic
  refine Ok.ite (fun _ => Ok.pure rfl) (fun h => ?_)
  by_cases h1 : (if p < r.1 then r.1 else p) = maxfinity ∨ (if q > r.2 then r.2 else q) < if p < r.1 then r.1 else p
  · simp only [h1, if_true]; exact Ok.pure rfl
  · exfalso
    apply h1
    right
    split <;> split <;> omega

/-! ### warrens -/

/-- the reader reads the shard of these transactions -/
inductive ServesAny (T : Tokenizer) : AnyReader → List Txn → Prop
  | dynamic {r g} : r.Serves (shardOf T g) → ServesAny T (.dynamic r) g
  | static {r : StaticReader} {g target} : 0 < target → In64 target → r.codec.Restores (groupText g).length →
      Frozen T r.codec target g r.text → r.range = rangeOf (shardOf T g).chunks →
      (∃ I, Impl r.H I (ofList (shardOf T g).chunks) ∧ I r.state) → ServesAny T (.static r) g

/-- each reader reads its shard -/
inductive MixedAll (T : Tokenizer) : List AnyReader → List (List Txn) → Prop
  | nil : MixedAll T [] []
  | cons {r g rs W} : ServesAny T r g → MixedAll T rs W → MixedAll T (r :: rs) (g :: W)

section
variable (hT : Lawful T) (hnl : NewlineGap T)
include hT hnl

theorem range_pos {g : List Txn} (hg : ∀ u ∈ g, ∀ s ∈ u.texts, Clean T s) (hgo : InOrder T g) :
    0 ≤ (rangeOf (shardOf T g).chunks).1 ∧ ((rangeOf (shardOf T g).chunks).1 ≤ (rangeOf (shardOf T g).chunks).2 ∨
      (rangeOf (shardOf T g).chunks).1 = maxfinity) := by
  obtain ⟨gx, bx, -, -⟩ := group_good hT hnl hg hgo
  have hl := gx.listing bx
  by_cases h : (shardOf T g).chunks = []
  · rw [h]; exact ⟨by simp [rangeOf], Or.inr rfl⟩
  · obtain ⟨h1, ⟨f, f1, f2⟩, -⟩ := range_spec hl h
    have := bx f f1
    have := h1 f f1
    have := (laid_le gx.laid f f1).1
    omega

/-- one reader answers as dynamic shards of its transactions -/
theorem mixed_one (hC : Cuts T) {g : List Txn} (hg : ∀ u ∈ g, ∀ s ∈ u.texts, Clean T s) (hgo : InOrder T g)
    {r : AnyReader} (hr : ServesAny T r g) (p : Int) {q : Int} (hq : q < maxfinity) :
    ∃ (gs : List (List Txn)) (as : List Text) (r' : AnyReader), gs.flatten = g ∧ Answers T p q (gs.map (shardOf T)) as ∧ r.read T p q = some (as.flatten, r') ∧
      ServesAny T r' g := by
  cases hr with
  | @dynamic r g h =>
    have : ∃ a, Answer T p q (shardOf T g) a := by
      by_cases hpq : (if p < 0 then 0 else p) ≤ q
      · obtain ⟨a, ha⟩ := answer_ex hT hnl hg hgo (p := if p < 0 then 0 else p) (by split <;> omega) hpq hq
        exact ⟨a, answer_clamp ha⟩
      · exact ⟨[], answer_clamp (answer_empty (by split <;> omega) (by omega) _)⟩
    obtain ⟨a, ha⟩ := this
    obtain ⟨s, k1, k2⟩ := ha r h
    refine ⟨[g], [a], .dynamic { r with state := s }, by simp, .cons ha .nil, ?_, .dynamic k2⟩
    simp only [AnyReader.read, k1, List.flatten_cons, List.flatten_nil, List.append_nil]
  | @static r g target ht ht64 hz hf hrg hI =>
    obtain ⟨I, hI, hs⟩ := hI
    obtain ⟨hk, -⟩ := frozen_keeps hT hnl ht ht64 hf hg hgo hz
    have hpos := range_pos hT hnl hg hgo
    by_cases hpq : (if p < 0 then 0 else p) ≤ q
    · obtain ⟨G1, G2, a, e, a1, a2, a3⟩ := static_range hT hnl hC hg hgo hk (p := if p < 0 then 0 else p)
        (by split <;> omega) hpq hq
      obtain ⟨b, s, k1, k2, rfl⟩ := a3 r.H I hI r.state hs
      rw [← hrg, ← static_clamp _ _ (by rw [hrg]; exact hpos.1)] at k1
      refine ⟨[G1, G2], [b, []], .static { r with state := s }, by simp [e], .cons (answer_clamp a1)
        (.cons (answer_clamp (answer_apart (by split <;> omega) (by omega) a2)) .nil), ?_,
        .static ht ht64 hz hf hrg ⟨I, hI, k2⟩⟩
      simp only [AnyReader.read, k1, List.flatten_cons, List.flatten_nil, List.append_nil]
    · obtain ⟨b, s, k1, k2, rfl⟩ := static_empty (T := T) (z := r.codec) r.H r.text (r := r.range)
        (by rw [hrg]; exact hpos.2) (p := if p < 0 then 0 else p) (q := q) (by omega) I r.state hs
      rw [← static_clamp _ _ (by rw [hrg]; exact hpos.1)] at k1
      refine ⟨[g], [[]], .static { r with state := s }, by simp, .cons (answer_clamp
        (answer_empty (by split <;> omega) (by omega) _)) .nil, ?_, .static ht ht64 hz hf hrg ⟨I, hI, k2⟩⟩
      simp only [AnyReader.read, k1, List.flatten_cons, List.flatten_nil, List.append_nil]

/-- all readers together -/
theorem mixed_all (hC : Cuts T) {W : List (List Txn)} {rs : List AnyReader} (h : MixedAll T rs W)
    (hg : ∀ g ∈ W, ∀ u ∈ g, ∀ s ∈ u.texts, Clean T s) (hgo : InOrder T W.flatten) (p : Int) {q : Int} (hq : q < maxfinity) :
    ∃ (W' : List (List Txn)) (as : List Text) (rs' : List AnyReader), W'.flatten = W.flatten ∧ Answers T p q (shardsOf T W') as ∧
      readMixed T p q rs = some (as.flatten, rs') ∧ MixedAll T rs' W := by
  induction h with
  | nil => exact ⟨[], [], [], rfl, .nil, rfl, .nil⟩
  | @cons r g rs W h1 _ ih =>
    rw [List.flatten_cons] at hgo
    obtain ⟨gs, as, r', e1, k1, k2, k3⟩ := mixed_one hT hnl hC (hg g (by simp))
      (hgo.sub hT hnl (List.sublist_append_left ..)) h1 p hq
    obtain ⟨W', bs, rs', e2, k4, k5, k6⟩ := ih (fun g hg' => hg g (List.mem_cons_of_mem _ hg'))
      (hgo.sub hT hnl (List.sublist_append_right ..))
    refine ⟨gs ++ W', as ++ bs, r' :: rs', by simp [e1, e2], ?_, ?_, .cons k3 k6⟩
    · unfold shardsOf
      rw [List.map_append]
      exact k1.append k4
    · rw [readMixed, k2]
      simp only [k5, List.flatten_append]
end

end Verif.HazelText
