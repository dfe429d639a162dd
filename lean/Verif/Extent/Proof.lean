import Verif.Extent.Spec
import Verif.Extent.Model
import Verif.Extent.Threads
import Verif.HazelText.Mixed
import Verif.Rank.Combine
/-
  Texts say the right things about their size.
-/
namespace Verif.Extent
open Verif.Hopper Verif.Text Verif.HazelText Verif.Store

variable {T : Tokenizer}

/-! ### chunks and addresses -/

/-- the chunks have exactly these addresses -/
def Covers (l : List Ann) (P : Int → Prop) : Prop := ∀ a, (∃ c ∈ l, c.p ≤ a ∧ a ≤ c.q) ↔ P a

theorem tiles_covers : ∀ {l : List Ann} {a b : Int}, a ≤ b → Tiles a l b → Covers l fun x => a ≤ x ∧ x < b := by
  intro l
  induction l with
  | nil =>
    intro a b _ h x
    have : a = b := h
    constructor
    · rintro ⟨c, hc, -⟩; cases hc
    · intro hx; omega
  | cons c l ih =>
    intro a b _ h x
    obtain ⟨h1, h2, h3⟩ := h
    have hb : c.q + 1 ≤ b := by have := tiles_covered h3; omega
    have := ih hb h3 x
    constructor
    · rintro ⟨d, hd, hx⟩
      rcases List.mem_cons.mp hd with rfl | hd
      · omega
      · have := this.1 ⟨d, hd, hx⟩; omega
    · intro hx
      by_cases h : x ≤ c.q
      · exact ⟨c, by simp, by omega, h⟩
      · obtain ⟨d, hd, hx⟩ := this.2 ⟨by omega, hx.2⟩
        exact ⟨d, by simp [hd], hx⟩

theorem covers_append {l r : List Ann} {P Q : Int → Prop} (hl : Covers l P) (hr : Covers r Q) :
    Covers (l ++ r) fun x => P x ∨ Q x := by
  intro a
  show _ ↔ P a ∨ Q a
  rw [← hl a, ← hr a]
  constructor
  · rintro ⟨c, hc, h⟩
    rcases List.mem_append.mp hc with hc | hc
    · exact Or.inl ⟨c, hc, h⟩
    · exact Or.inr ⟨c, hc, h⟩
  · rintro (⟨c, hc, h⟩ | ⟨c, hc, h⟩)
    · exact ⟨c, List.mem_append_left _ hc, h⟩
    · exact ⟨c, List.mem_append_right _ hc, h⟩

theorem covers_move {l : List Ann} {P : Int → Prop} (h : Covers l P) (o : Nat) : Covers (l.map (moveChunk 0 o)) P := by
  intro a
  rw [← h a]
  constructor
  · rintro ⟨c, hc, h⟩
    obtain ⟨d, hd, rfl⟩ := List.mem_map.mp hc
    exact ⟨d, hd, by simpa [moveChunk] using h⟩
  · rintro ⟨c, hc, h⟩
    exact ⟨_, List.mem_map_of_mem hc, by simpa [moveChunk] using h⟩

theorem hasText_cons {t : Txn} {ts : List Txn} {a : Int} :
    HasText T (t :: ts) a ↔ ((t.base : Int) ≤ a ∧ a < t.base + t.count T) ∨ HasText T ts a := by
  unfold HasText
  constructor
  · rintro ⟨u, hu, h⟩
    rcases List.mem_cons.mp hu with rfl | hu
    · exact Or.inl h
    · exact Or.inr ⟨u, hu, h⟩
  · rintro (h | ⟨u, hu, h⟩)
    · exact ⟨t, by simp, h⟩
    · exact ⟨u, by simp [hu], h⟩

theorem hasText_append {ts us : List Txn} {a : Int} :
    HasText T (ts ++ us) a ↔ HasText T ts a ∨ HasText T us a := by
  unfold HasText
  constructor
  · rintro ⟨u, hu, h⟩
    rcases List.mem_append.mp hu with hu | hu
    · exact Or.inl ⟨u, hu, h⟩
    · exact Or.inr ⟨u, hu, h⟩
  · rintro (⟨u, hu, h⟩ | ⟨u, hu, h⟩)
    · exact ⟨u, List.mem_append_left _ hu, h⟩
    · exact ⟨u, List.mem_append_right _ hu, h⟩

theorem not_hasText_nil {a : Int} : ¬ HasText T [] a := by rintro ⟨t, ht, -⟩; cases ht

/-- number of addresses of transactions -/
def size (T : Tokenizer) (ts : List Txn) : Nat := (ts.map (Txn.count T)).sum

/-- the addresses of transactions, one by one -/
def places (T : Tokenizer) (ts : List Txn) : List Int :=
  ts.flatMap fun t => (List.range (t.count T)).map fun (i : Nat) => (t.base : Int) + i

theorem places_mem (ts : List Txn) (a : Int) : a ∈ places T ts ↔ HasText T ts a := by
  unfold places HasText
  simp only [List.mem_flatMap, List.mem_map, List.mem_range]
  constructor
  · rintro ⟨t, ht, i, hi, rfl⟩; exact ⟨t, ht, by omega, by omega⟩
  · rintro ⟨t, ht, h1, h2⟩; exact ⟨t, ht, (a - t.base).toNat, by omega, by omega⟩

theorem places_length (ts : List Txn) : (places T ts).length = size T ts := by
  induction ts with
  | nil => rfl
  | cons t ts ih =>
    unfold places size at ih ⊢
    rw [List.flatMap_cons, List.length_append, ih]; simp

theorem places_nodup {ts : List Txn} (h : InOrder T ts) : (places T ts).Nodup := by
  have ho := h.order
  clear h
  induction ts with
  | nil => exact List.nodup_nil
  | cons t ts ih =>
    rw [List.pairwise_cons] at ho
    unfold places
    rw [List.flatMap_cons]
    refine List.nodup_append.2 ⟨?_, ih ho.2, ?_⟩
    · refine List.pairwise_map.2 (List.Pairwise.imp ?_ List.nodup_range)
      intro i j hij; omega
    · intro a ha b hb
      obtain ⟨i, hi, rfl⟩ := List.mem_map.mp ha
      rw [List.mem_range] at hi
      obtain ⟨u, hu, h1, h2⟩ := (places_mem ts b).1 hb
      have := ho.1 u hu
      omega

theorem counts_size {ts : List Txn} (h : InOrder T ts) : Counts T ts (size T ts) :=
  ⟨places T ts, places_nodup h, places_mem ts, by rw [places_length]⟩

theorem size_append (ts us : List Txn) : size T (ts ++ us) = size T ts + size T us := by
  unfold size; simp

section
variable (hT : Lawful T) (hnl : NewlineGap T)
include hT hnl

theorem total_covers {g : List Txn} (hg : ∀ u ∈ g, ∀ s ∈ u.texts, Clean T s) :
    Covers (total (g.map (Txn.shard T))).chunks (HasText T g) ∧
    covered (total (g.map (Txn.shard T))).chunks = size T g := by
  induction g with
  | nil =>
    refine ⟨?_, rfl⟩
    intro a
    constructor
    · rintro ⟨c, hc, -⟩; cases hc
    · intro h; exact absurd h not_hasText_nil
  | cons t g ih =>
    obtain ⟨i1, i2⟩ := ih fun u hu => hg u (List.mem_cons_of_mem _ hu)
    obtain ⟨-, -, -, h4, -⟩ := single_good hT hnl (base := t.base) (hg t (by simp))
    have h4 : Tiles t.base (t.shard T).chunks (t.base + t.count T) := by
      unfold Txn.count; exact h4
    have e : (total ((t :: g).map (Txn.shard T))).chunks = (t.shard T).chunks ++
        (total (g.map (Txn.shard T))).chunks.map (moveChunk 0 (t.shard T).text.length) := rfl
    rw [e]
    constructor
    · intro a
      rw [hasText_cons]
      exact covers_append (tiles_covers (by omega) h4) (covers_move i1 _) a
    · rw [covered_append, covered_move, i2]
      have := tiles_covered h4
      unfold size
      rw [List.map_cons, List.sum_cons]
      omega

theorem group_covers {g : List Txn} (hg : ∀ u ∈ g, ∀ s ∈ u.texts, Clean T s) (hgo : InOrder T g) :
    Covers (shardOf T g).chunks (HasText T g) ∧ covered (shardOf T g).chunks = size T g := by
  obtain ⟨-, -, -, e⟩ := group_good hT hnl hg hgo
  rw [e]
  exact total_covers hT hnl hg

/-- the range of the chunks is that of the addresses -/
theorem range_ok {g : List Txn} (hg : ∀ u ∈ g, ∀ s ∈ u.texts, Clean T s) (hgo : InOrder T g) :
    RangeOk T g (decide ((rangeOf (shardOf T g).chunks).1 < maxfinity), rangeOf (shardOf T g).chunks) ∧
    ((rangeOf (shardOf T g).chunks).1 < maxfinity ∨ rangeOf (shardOf T g).chunks = (maxfinity, maxfinity)) := by
  obtain ⟨gx, bx, -, -⟩ := group_good hT hnl hg hgo
  obtain ⟨hc, -⟩ := group_covers hT hnl hg hgo
  have hl := gx.listing bx
  generalize (shardOf T g).chunks = l at hc hl
  by_cases h : l = []
  · subst h
    refine ⟨⟨rfl, rfl, fun a ha => ?_⟩, Or.inr rfl⟩
    obtain ⟨c, hc, -⟩ := (hc a).2 ha
    cases hc
  · obtain ⟨h1, ⟨f, f1, f2⟩, ⟨e, e1, e2⟩⟩ := range_spec hl h
    have b1 := hl.bounds f f1
    have b2 := hl.bounds e e1
    have hlt : (rangeOf l).1 < maxfinity := by omega
    rw [decide_eq_true hlt]
    refine ⟨show Bounds T g (rangeOf l).1 (rangeOf l).2 from ⟨(hc _).1 ⟨f, f1, by omega, by omega⟩, (hc _).1 ⟨e, e1, by omega, by omega⟩, fun a ha => ?_⟩, Or.inl hlt⟩
    obtain ⟨c, c1, c2⟩ := (hc a).2 ha
    have := h1 c c1
    omega
end

/-! ### one shard -/

theorem dynRange_ok {H : Obj} {I : H.σ → Prop} {l : List Ann} (hl : Listing l)
    (hI : Impl H I (ofList l)) : Ok I (dynRange H) (fun r => r = rangeOf l) := by
  unfold dynRange
  refine Ok.bind (hI.tau _ (by omega)) ?_
  intro a ha
  by_cases hne : l = []
  · subst hne
    have : a = highEnd := by
      rcases ha with ⟨h, -⟩ | ⟨-, h, -⟩ | ⟨-, -, h⟩
      · omega
      · cases h
      · exact h
    subst this
    refine Ok.ite (fun h => absurd h (by decide)) (fun _ => Ok.pure rfl)
  · obtain ⟨r1, ⟨f, f1, f2⟩, ⟨e, e1, e2⟩⟩ := range_spec hl hne
    have bf := hl.bounds f f1
    have be := hl.bounds e e1
    have hap : a.p = (rangeOf l).1 := by
      rcases ha with ⟨h, -⟩ | ⟨-, h, h2, h3⟩ | ⟨-, h, -⟩
      · omega
      · have k1 := r1 a h
        have k2 := h3 f f1 (by omega)
        omega
      · have := h f f1; omega
    refine Ok.ite (fun _ => ?_) (fun h => by omega)
    refine Ok.bind (hI.uat _ (by omega)) ?_
    intro b hbq
    have hbq' : b.q = (rangeOf l).2 := by
      rcases hbq with ⟨h, -⟩ | ⟨-, h, h2, h3⟩ | ⟨-, h, -⟩
      · omega
      · have k1 := r1 b h
        have k2 := h3 e e1 (by omega)
        omega
      · have := h e e1; omega
    exact Ok.pure (by rw [hap, hbq'])

theorem found_ok {H : Obj} {I : H.σ → Prop} {l : List Ann} (hl : Listing l)
    (hI : Impl H I (ofList l)) : Ok I (Threads.found H) (fun f => f.range = rangeOf l) := by
  unfold Threads.found
  refine Ok.bind (hI.tau _ (by omega)) ?_
  intro a ha
  refine Ok.bind (hI.uat _ (by omega)) ?_
  intro b hbq
  refine Ok.pure ?_
  unfold Threads.Found.range
  dsimp only
  by_cases hne : l = []
  · subst hne
    have : a = highEnd := by
      rcases ha with ⟨h, -⟩ | ⟨-, h, -⟩ | ⟨-, -, h⟩
      · omega
      · cases h
      · exact h
    subst this
    rfl
  · obtain ⟨r1, ⟨f, f1, f2⟩, ⟨e, e1, e2⟩⟩ := range_spec hl hne
    have bf := hl.bounds f f1
    have be := hl.bounds e e1
    have hap : a.p = (rangeOf l).1 := by
      rcases ha with ⟨h, -⟩ | ⟨-, h, h2, h3⟩ | ⟨-, h, -⟩
      · omega
      · have k1 := r1 a h
        have k2 := h3 f f1 (by omega)
        omega
      · have := h f f1; omega
    have hbq' : b.q = (rangeOf l).2 := by
      rcases hbq with ⟨h, -⟩ | ⟨-, h, h2, h3⟩ | ⟨-, h, -⟩
      · omega
      · have k1 := r1 b h
        have k2 := h3 e e1 (by omega)
        omega
      · have := h e e1; omega
    rw [if_pos (by omega), hap, hbq']

/-- the chunks that start at `k` or later -/
def starting (k : Int) (l : List Ann) : List Ann := l.filter fun c => decide (k ≤ c.p)

theorem starting_first {l : List Ann} (hl : l.Pairwise fun a b => a.p < b.p ∧ a.q < b.q) {c : Ann} {k : Int}
    (hc : c ∈ l) (hk : k ≤ c.p) (hmin : ∀ a ∈ l, k ≤ a.p → c.p ≤ a.p) :
    starting k l = c :: starting (c.p + 1) l := by
  induction l with
  | nil => cases hc
  | cons d l ih =>
    rw [List.pairwise_cons] at hl
    unfold starting at ih ⊢
    rcases List.mem_cons.mp hc with rfl | hc
    · rw [List.filter_cons_of_pos (by simpa using hk), List.filter_cons_of_neg (by simp; omega)]
      congr 1
      refine List.filter_congr ?_
      intro a ha
      have := hl.1 a ha
      simp only [decide_eq_decide]
      omega
    · have hd := hl.1 c hc
      have hkd : ¬ k ≤ d.p := fun h => by have := hmin d (by simp) h; omega
      rw [List.filter_cons_of_neg (by simpa using hkd), List.filter_cons_of_neg (by simp; omega)]
      exact ih hl.2 hc fun a ha => hmin a (by simp [ha])

theorem countFrom_ok {H : Obj} {I : H.σ → Prop} {l : List Ann} (hl : Listing l) (hI : Impl H I (ofList l)) :
    ∀ (fuel : Nat) (k n : Int), minfinity < k → k ≤ maxfinity → (maxfinity - k).toNat < fuel →
      Ok I (countFrom H fuel k n) (fun r => r = n + covered (starting k l)) := by
  intro fuel
  induction fuel with
  | zero => intro k n _ _ h; omega
  | succ fuel ih =>
    intro k n h1 h2 h3
    unfold countFrom
    refine Ok.bind (hI.tau k ⟨by omega, h2⟩) ?_
    intro c hc
    rcases hc with ⟨h, -⟩ | ⟨-, hm, hk, hmin⟩ | ⟨-, hno, rfl⟩
    · omega
    · have hb := hl.bounds c hm
      refine Ok.ite (fun _ => ?_) (fun h => by omega)
      refine Ok.mono (ih (c.p + 1) _ (by omega) (by omega) (by omega)) ?_
      intro r hr
      rw [hr, starting_first hl.sorted hm hk hmin]
      unfold covered
      rw [List.map_cons, List.sum_cons, Ann.len]
      omega
    · refine Ok.ite (fun h => absurd h (by decide)) (fun _ => Ok.pure ?_)
      have : starting k l = [] := by
        refine List.filter_eq_nil_iff.2 ?_
        intro a ha
        have := hno a ha
        simp; omega
      rw [this]
      show n = n + ((0 : Nat) : Int)
      omega

theorem askRange_ok {H : Obj} {I : H.σ → Prop} {l : List Ann} (hl : Listing l) (hI : Impl H I (ofList l)) {m : Memo}
    (hr : ∀ r, m.range = some r → r = rangeOf l) :
    Ok I (dynAskRange H m) (fun v => v.1 = (decide ((rangeOf l).1 < maxfinity), rangeOf l) ∧
      v.2.count = m.count ∧ ∀ r, v.2.range = some r → r = rangeOf l) := by
  unfold dynAskRange
  cases hm : m.range with
  | some v =>
    have := hr v hm
    subst this
    exact Ok.pure ⟨rfl, rfl, hr⟩
  | none =>
    refine Ok.bind (dynRange_ok hl hI) ?_
    rintro a rfl
    refine Ok.pure ⟨rfl, rfl, ?_⟩
    intro v hv
    exact (Option.some.inj hv).symm

theorem askTokens_ok {H : Obj} {I : H.σ → Prop} {l : List Ann} (hl : Listing l) (hI : Impl H I (ofList l)) {m : Memo}
    {n : Nat} (hn : covered (starting 0 l) = n) (hc : 0 ≤ m.count → m.count = n) :
    Ok I (dynTokens H m) (fun v => v.1 = n ∧ (0 ≤ v.2.count → v.2.count = n) ∧ v.2.range = m.range) := by
  unfold dynTokens
  refine Ok.ite (fun h => Ok.pure ⟨hc h, hc, rfl⟩) (fun _ => ?_)
  refine Ok.bind (countFrom_ok hl hI loopFuel 0 0 (by omega) (by omega) (by unfold loopFuel; omega)) ?_
  rintro a rfl
  rw [hn]
  exact Ok.pure ⟨by dsimp only; omega, fun _ => by dsimp only; omega, rfl⟩

theorem size_range {g : List Txn} (ho : InOrder T g) (hgap : NoGap T g) {p q : Int} (hb : Bounds T g p q) :
    (size T g : Int) = q - p + 1 := by
  have hpq := (hb.all p hb.first).2
  have h1 := Rank.nodup_length_le (places_nodup ho) (m := (List.range (q - p + 1).toNat).map fun (i : Nat) => p + i) (by
    intro a ha
    have := hb.all a ((places_mem g a).1 ha)
    exact List.mem_map.2 ⟨(a - p).toNat, List.mem_range.2 (by omega), by omega⟩)
  have h2 := Rank.nodup_length_le (l := (List.range (q - p + 1).toNat).map fun (i : Nat) => p + i) (m := places T g)
    (List.pairwise_map.2 (List.Pairwise.imp (by intro i j hij; omega) List.nodup_range)) (by
    intro a ha
    obtain ⟨i, hi, rfl⟩ := List.mem_map.mp ha
    rw [List.mem_range] at hi
    exact (places_mem g _).2 (hgap p _ q hb.first hb.last (by omega) (by omega)))
  rw [places_length, List.length_map, List.length_range] at h1
  rw [places_length, List.length_map, List.length_range] at h2
  omega

/-- the part reads the shard of these transactions, and what it remembers is right -/
structure PartOk (T : Tokenizer) (x : Part) (g : List Txn) : Prop where
  serves : ServesAny T x.text g
  count : 0 ≤ x.memo.count → x.memo.count = size T g
  range : ∀ r, x.memo.range = some r → r = rangeOf (shardOf T g).chunks

/-- each part reads its shard -/
inductive PartsOk (T : Tokenizer) : List Part → List (List Txn) → Prop
  | nil : PartsOk T [] []
  | cons {x g xs W} : PartOk T x g → PartsOk T xs W → PartsOk T (x :: xs) (g :: W)

theorem PartsOk.append {xs ys : List Part} {W V : List (List Txn)} (h : PartsOk T xs W) (k : PartsOk T ys V) :
    PartsOk T (xs ++ ys) (W ++ V) := by
  induction h with
  | nil => exact k
  | cons h1 _ ih => exact .cons h1 ih

theorem PartsOk.reverse {xs : List Part} {W : List (List Txn)} (h : PartsOk T xs W) : PartsOk T xs.reverse W.reverse := by
  induction h with
  | nil => exact .nil
  | cons h1 _ ih =>
    rw [List.reverse_cons, List.reverse_cons]
    exact ih.append (.cons h1 .nil)

section
variable (hT : Lawful T) (hnl : NewlineGap T)
include hT hnl

theorem part_range {g : List Txn} (hg : ∀ u ∈ g, ∀ s ∈ u.texts, Clean T s) (hgo : InOrder T g) {x : Part}
    (hx : PartOk T x g) : ∃ a x', x.range = some (a, x') ∧ RangeOk T g a ∧ PartOk T x' g := by
  obtain ⟨k1, k2⟩ := range_ok hT hnl hg hgo
  obtain ⟨gx, bx, -, -⟩ := group_good hT hnl hg hgo
  obtain ⟨t, m⟩ := x
  obtain ⟨hs, hc, hr⟩ := hx
  cases hs with
  | @dynamic r g h =>
    obtain ⟨e, I, hI, hst⟩ := h
    obtain ⟨v, s, h1, h2, h3, h4⟩ := askRange_ok (gx.listing bx) hI hr r.state hst
    refine ⟨v.1, ⟨.dynamic { r with state := s }, v.2⟩, ?_, by rw [h3]; exact k1, .dynamic ⟨e, I, hI, h2⟩,
      by rw [h4.1]; exact hc, h4.2⟩
    unfold Part.range
    dsimp only
    rw [h1]
  | @static r g target ht ht64 hz hf hrg hI =>
    refine ⟨_, _, rfl, ?_, .static ht ht64 hz hf hrg hI, hc, hr⟩
    unfold staticAskRange
    rw [hrg]
    rcases k2 with h | h
    · rw [if_neg (by omega)]
      rw [decide_eq_true h] at k1
      exact k1
    · rw [h, if_pos rfl]
      rw [h] at k1
      exact k1

theorem part_tokens {g : List Txn} (hg : ∀ u ∈ g, ∀ s ∈ u.texts, Clean T s) (hgo : InOrder T g) {x : Part}
    (hx : PartOk T x g) : ∃ n x', x.tokens = some (n, x') ∧ PartOk T x' g ∧
      (((∃ r, x.text = .dynamic r) ∨ NoGap T g) → n = size T g) ∧
      ((∃ r, x.text = .static r) → (∀ p q, Bounds T g p q → n = q - p + 1) ∧ ((∀ a, ¬ HasText T g a) → n = 0)) := by
  obtain ⟨k1, k2⟩ := range_ok hT hnl hg hgo
  obtain ⟨gx, bx, -, -⟩ := group_good hT hnl hg hgo
  obtain ⟨hcov, hsz⟩ := group_covers hT hnl hg hgo
  obtain ⟨t, m⟩ := x
  obtain ⟨hs, hc, hr⟩ := hx
  cases hs with
  | @dynamic r g h =>
    obtain ⟨e, I, hI, hst⟩ := h
    have hall : starting 0 (shardOf T g).chunks = (shardOf T g).chunks := by
      refine List.filter_eq_self.2 ?_
      intro a ha
      have := (bx a ha).1
      simpa using this
    obtain ⟨v, s, h1, h2, h3, h4⟩ := askTokens_ok (gx.listing bx) hI (n := size T g) (by rw [hall, hsz]) hc r.state hst
    refine ⟨v.1, ⟨.dynamic { r with state := s }, v.2⟩, ?_, ⟨.dynamic ⟨e, I, hI, h2⟩, h4.1, by rw [h4.2]; exact hr⟩,
      fun _ => h3, ?_⟩
    · unfold Part.tokens
      dsimp only
      rw [h1]
    · rintro ⟨r', h⟩; cases h
  | @static r g target ht ht64 hz hf hrg hI =>
    have hb : (∀ p q, Bounds T g p q → staticTokens r.range = q - p + 1) ∧
        ((∀ a, ¬ HasText T g a) → staticTokens r.range = 0) := by
      unfold staticTokens
      rw [hrg]
      rcases k2 with h | h
      · rw [if_neg (show ¬ (rangeOf (shardOf T g).chunks).1 = maxfinity by omega)]
        rw [decide_eq_true h] at k1
        obtain ⟨b1, b2, b3⟩ := show Bounds T g (rangeOf (shardOf T g).chunks).1 (rangeOf (shardOf T g).chunks).2 from k1
        refine ⟨fun p q hb => ?_, fun hn => absurd b1 (hn _)⟩
        have := b3 p hb.first
        have := b3 q hb.last
        have := hb.all _ b1
        have := hb.all _ b2
        omega
      · rw [h] at k1 ⊢
        exact ⟨fun p q hb => absurd hb.first (k1.2.2 p), fun _ => rfl⟩
    refine ⟨_, _, rfl, ⟨.static ht ht64 hz hf hrg hI, hc, hr⟩, ?_, fun _ => hb⟩
    rintro (⟨r', h⟩ | hgap)
    · cases h
    · by_cases he : ∃ a, HasText T g a
      · obtain ⟨p, q, hpq⟩ : ∃ p q, Bounds T g p q := by
          rcases k2 with h | h
          · rw [decide_eq_true h] at k1; exact ⟨_, _, k1⟩
          · rw [h] at k1
            obtain ⟨a, ha⟩ := he
            exact absurd ha (k1.2.2 a)
        rw [hb.1 p q hpq]
        exact (size_range hgo hgap hpq).symm
      · have hn : ∀ a, ¬ HasText T g a := fun a ha => he ⟨a, ha⟩
        rw [hb.2 hn]
        cases hp : places T g with
        | nil => have := places_length (T := T) g; rw [hp] at this; rw [← this]; rfl
        | cons a l => exact absurd ((places_mem g a).1 (by rw [hp]; simp)) (hn a)
end
end Verif.Extent
