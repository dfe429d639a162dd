import Verif.Text.Layout
import Verif.Hopper.Lemmas
/-
  Reading texts back: one transaction, merged transactions, and several shards.
-/
namespace Verif.Text
open Verif.Hopper

variable {T : Tokenizer}

/-! ### merged shards -/

/-- two shards put together -/
def Shard.plus (x y : Shard) : Shard :=
  ⟨x.text ++ y.text, x.chunks ++ y.chunks.map (moveChunk 0 x.text.length)⟩

def Shard.empty : Shard := ⟨[], []⟩

def total : List Shard → Shard
  | [] => .empty
  | x :: xs => x.plus (total xs)

theorem moveChunk_zero (l : List Ann) : l.map (moveChunk 0 0) = l := by
  have : moveChunk 0 0 = id := by
    funext c; simp [moveChunk]
  rw [this]; simp

theorem plus_assoc (x y z : Shard) : (x.plus y).plus z = x.plus (y.plus z) := by
  unfold Shard.plus
  simp only [List.append_assoc, List.map_append, List.map_map, Shard.mk.injEq, true_and]
  congr 2
  apply List.map_congr_left
  intro c _
  simp only [Function.comp, moveChunk, List.length_append, Ann.mk.injEq]
  omega

theorem empty_plus (x : Shard) : Shard.empty.plus x = x := by
  unfold Shard.plus Shard.empty
  simp [moveChunk_zero]

theorem plus_empty (x : Shard) : x.plus .empty = x := by
  unfold Shard.plus Shard.empty
  simp

theorem total_append (l r : List Shard) : total (l ++ r) = (total l).plus (total r) := by
  induction l with
  | nil => rw [List.nil_append, total, empty_plus]
  | cons x l ih => rw [List.cons_append, total, total, ih, plus_assoc]

theorem total_flatten (ls : List (List Shard)) : total (ls.map total) = total ls.flatten := by
  induction ls with
  | nil => rfl
  | cons l ls ih => rw [List.map_cons, total, ih, List.flatten_cons, total_append]

theorem total_text (xs : List Shard) : (total xs).text = (xs.map Shard.text).flatten := by
  induction xs with
  | nil => rfl
  | cons x xs ih => simp [total, Shard.plus, ih]

/-- every chunk of a sum has the addresses of a chunk of a part -/
theorem total_chunk {xs : List Shard} {c : Ann} (h : c ∈ (total xs).chunks) :
    ∃ x ∈ xs, ∃ d ∈ x.chunks, d.p = c.p ∧ d.q = c.q := by
  induction xs generalizing c with
  | nil => cases h
  | cons x xs ih =>
    simp only [total, Shard.plus, List.mem_append, List.mem_map] at h
    rcases h with h | ⟨e, he, rfl⟩
    · exact ⟨x, List.mem_cons_self .., c, h, rfl, rfl⟩
    · obtain ⟨y, hy, d, hd, h1, h2⟩ := ih he
      exact ⟨y, List.mem_cons_of_mem _ hy, d, hd, by simp [moveChunk, h1], by simp [moveChunk, h2]⟩

section
variable (hT : Lawful T)
include hT

theorem empty_good : GoodShard T Shard.empty :=
  ⟨whole_nil hT, trivial, by
    show 0 = T.addresses []
    rw [addresses_of (tokenize_nil hT)]; rfl, Or.inl rfl, List.Pairwise.nil⟩

theorem plus_good {x y : Shard} (hx : GoodShard T x) (hy : GoodShard T y) (hb : Before x y) :
    GoodShard T (x.plus y) := by
  have := addShard_good hT hx hy hb
  rw [addShard_eq hT hx.newline hy] at this
  exact this

theorem total_good {xs : List Shard} (hg : ∀ x ∈ xs, GoodShard T x) (hb : xs.Pairwise Before) :
    GoodShard T (total xs) := by
  induction xs with
  | nil => exact empty_good hT
  | cons x xs ih =>
    rw [List.pairwise_cons] at hb
    refine plus_good hT (hg x (List.mem_cons_self ..))
      (ih (fun y hy => hg y (List.mem_cons_of_mem _ hy)) hb.2) ?_
    intro a ha c hc
    obtain ⟨y, hy, d, hd, h1, h2⟩ := total_chunk hc
    have := hb.1 y hy a ha d hd
    omega

theorem fold_total : ∀ {xs : List Shard} {acc : Shard}, GoodShard T acc → (∀ x ∈ xs, GoodShard T x) →
    (acc :: xs).Pairwise Before → xs.foldl addShard acc = acc.plus (total xs) := by
  intro xs
  induction xs with
  | nil => intro acc _ _ _; exact (plus_empty acc).symm
  | cons x xs ih =>
    intro acc ha hg hb
    have hx := hg x (List.mem_cons_self ..)
    rw [List.pairwise_cons, List.pairwise_cons] at hb
    have hax : Before acc x := hb.1 x (List.mem_cons_self ..)
    have e : addShard acc x = acc.plus x := addShard_eq hT ha.newline hx
    rw [List.foldl_cons, e, ih (plus_good hT ha hx hax) (fun y hy => hg y (List.mem_cons_of_mem _ hy)),
      plus_assoc]
    · rfl
    · rw [List.pairwise_cons]
      refine ⟨?_, hb.2.2⟩
      intro y hy a h1 c hc
      simp only [Shard.plus, List.mem_append, List.mem_map] at h1
      rcases h1 with h1 | ⟨d, hd, rfl⟩
      · exact hb.1 y (List.mem_cons_of_mem _ hy) a h1 c hc
      · have := hb.2.1 y hy d hd c hc
        simp only [moveChunk]; omega

/-- merging shards puts their texts one after the other and moves the chunks along -/
theorem mergeShards_total {xs : List Shard} (hg : ∀ x ∈ xs, GoodShard T x) (hb : xs.Pairwise Before) :
    mergeShards xs = total xs := by
  have h2 : xs.foldl addShard ⟨[], []⟩ = total xs := by
    have := fold_total hT (xs := xs) (empty_good hT) hg
      (List.pairwise_cons.mpr ⟨(fun y _ a ha => by cases ha), hb⟩)
    rw [empty_plus] at this
    exact this
  unfold mergeShards
  split
  · rename_i x
    show x = x.plus .empty
    rw [plus_empty]
  · exact h2

/-! ### places in merged shards -/

theorem Place.lt {x : Shard} (h : GoodShard T x) {a : Int} {n s : Nat} (hp : Place T x a n s) :
    n < T.addresses x.text := by
  obtain ⟨pre, c, post, e, h1, h2, h3, -⟩ := hp
  have := h.covers
  rw [e, covered_append] at this
  simp only [covered, List.map_cons, List.sum_cons, Ann.len] at this h3
  omega

theorem skip_left {A : Text} (hA : Whole T A) (B : Text) {n : Nat} (hn : n < T.addresses A) :
    T.skip (A ++ B) n = T.skip A n := by
  obtain ⟨t, ht, rfl⟩ := (at_lt hT A n).mpr hn
  rw [(hT.skips A).start t ht, (hT.skips _).start t]
  rw [whole_eq hA]; exact List.mem_append_left _ ht

theorem Place.left {x y : Shard} (hx : GoodShard T x) {a : Int} {n s : Nat} (hp : Place T x a n s) :
    Place T (x.plus y) a n s := by
  have hn := hp.lt hT hx
  obtain ⟨pre, c, post, e, h1, h2, h3, h4⟩ := hp
  refine ⟨pre, c, post ++ y.chunks.map (moveChunk 0 x.text.length), by simp [Shard.plus, e], h1, h2, h3, ?_⟩
  rw [h4]
  show _ = if a = c.p then _ else T.skip (x.text ++ y.text) n
  rw [skip_left hT hx.whole _ hn]

theorem Place.right {x y : Shard} (hx : GoodShard T x) (hy : GoodShard T y) {a : Int} {n s : Nat}
    (hp : Place T y a n s) :
    Place T (x.plus y) a (T.addresses x.text + n) (x.text.length + s) := by
  obtain ⟨pre, c, post, e, h1, h2, h3, h4⟩ := hp
  have hv : 0 ≤ c.v := (laid_le hy.laid c (by rw [e]; simp)).2
  refine ⟨x.chunks ++ pre.map (moveChunk 0 x.text.length), moveChunk 0 x.text.length c,
    post.map (moveChunk 0 x.text.length), by simp [Shard.plus, e], ?_, ?_, ?_, ?_⟩
  · simp only [moveChunk]; omega
  · simp only [moveChunk]; omega
  · rw [covered_append, covered_move, hx.covers, h3]; simp only [moveChunk, Int.add_zero]; omega
  · rw [h4]
    simp only [moveChunk, Int.add_zero, Shard.plus]
    split
    · omega
    · rw [skip_append hT hx.whole]

/-- the places of a transaction's addresses -/
theorem single_place (hnl : NewlineGap T) {base : Nat} {texts : List Text} (hc : ∀ s ∈ texts, Clean T s)
    {i : Nat} (hi : i < (texts.map T.addresses).sum) :
    Place T (single T base texts) (base + i) i (if i = 0 then 0 else T.skip (txnText texts) i) := by
  obtain ⟨g, e, hn, ht, hv⟩ := single_good hT hnl (base := base) hc
  have key : ∀ (l : List Ann) (a b x : Int), Tiles a l b → a ≤ x → x < b → ∃ pre c post,
      l = pre ++ c :: post ∧ c.p ≤ x ∧ x ≤ c.q ∧ (covered pre : Int) = c.p - a := by
    intro l
    induction l with
    | nil => intro a b x h h1 h2; simp only [Tiles] at h; omega
    | cons d l ih =>
      intro a b x h h1 h2
      obtain ⟨t1, t2, t3⟩ := h
      by_cases hx : x ≤ d.q
      · exact ⟨[], d, l, rfl, by omega, hx, by simp [covered]; omega⟩
      · obtain ⟨pre, c, post, rfl, k1, k2, k3⟩ := ih _ _ x t3 (by omega) h2
        refine ⟨d :: pre, c, post, rfl, k1, k2, ?_⟩
        simp only [covered, List.map_cons, List.sum_cons, Ann.len] at k3 ⊢
        omega
  obtain ⟨pre, c, post, hl, k1, k2, k3⟩ := key _ _ _ ((base : Int) + i) ht (by omega) (by omega)
  refine ⟨pre, c, post, hl, k1, k2, by omega, ?_⟩
  have hcm : c ∈ (single T base texts).chunks := by rw [hl]; simp
  rw [e]
  by_cases hi0 : i = 0
  · subst hi0
    have : (base : Int) + (0 : Nat) = c.p := by omega
    rw [if_pos rfl, if_pos this]
    rcases hv c hcm with ⟨-, h2⟩ | ⟨h0, -⟩
    · rw [h2]; rfl
    · omega
  · rw [if_neg hi0]
    split
    · rename_i he
      rcases hv c hcm with ⟨h1, -⟩ | ⟨-, t, ht, h1, h2⟩
      · omega
      · have := (hT.skips (txnText texts)).start t ht
        have ei : i = t.address := by omega
        rw [ei, this]; omega
    · rfl
end

/-! ### readers -/

/-- the reader reads this shard -/
def TextReader.Serves (r : TextReader) (x : Shard) : Prop :=
  r.text = x.text ∧ ∃ I, Impl r.H I (ofList x.chunks) ∧ I r.state

/-- each reader reads its shard -/
inductive ServesAll : List TextReader → List Shard → Prop
  | nil : ServesAll [] []
  | cons {r x rs xs} : r.Serves x → ServesAll rs xs → ServesAll (r :: rs) (x :: xs)

/-- nothing of a shard lies between `p` and `q` -/
def Apart (x : Shard) (p q : Int) : Prop := ∀ c ∈ x.chunks, c.q < p ∨ q < c.p

theorem translate_none {H : Obj} {x : Shard} {I : H.σ → Prop} (hI : Impl H I (ofList x.chunks)) {p q : Int}
    (hp : 0 ≤ p) (hpm : p < maxfinity) (h : Apart x p q) :
    Ok I (translate T H x.text p q) (fun r => r = []) := by
  unfold translate
  have hp0 : (if p < 0 then (0 : Int) else p) = p := if_neg (by omega)
  rw [hp0]
  refine Ok.ite (fun _ => Ok.pure rfl) (fun h1 => ?_)
  refine Ok.bind (hI.rho p (by omega)) ?_
  intro c hc
  refine Ok.ite (fun _ => Ok.pure rfl) (fun h2 => ?_)
  rcases hc with ⟨h3, -⟩ | ⟨-, h3, h4, -⟩ | ⟨-, -, h3⟩
  · omega
  · have := h c h3; omega
  · subst h3; exact absurd (Or.inl rfl) h2

section
variable (hT : Lawful T)
include hT

theorem translate_in {H : Obj} {x : Shard} (hx : GoodShard T x) (hb : InBounds x) {I : H.σ → Prop}
    (hI : Impl H I (ofList x.chunks)) {p q : Int} {m s n e : Nat} (hp : Place T x p m s)
    (hq : Place T x q n e) (hpq : p ≤ q) :
    Ok I (translate T H x.text p q)
      (fun r => r = (x.text.drop s).take (T.skip x.text (n + 1 : Nat) - s)) := by
  have hl := hx.listing hb
  obtain ⟨c, hbeg, hcp⟩ := hp.begin hx
  have hcm : c ∈ x.chunks := by obtain ⟨pre, post, e, -⟩ := hbeg; rw [e]; simp
  obtain ⟨pre', d, post', e1, d1, d2, -⟩ := id hq
  have hdm : d ∈ x.chunks := by rw [e1]; simp
  have b1 := hb c hcm
  have b2 := hb d hdm
  unfold translate
  have hp0 : (if p < 0 then (0 : Int) else p) = p := if_neg (by omega)
  rw [hp0]
  refine Ok.ite (fun h => by omega) (fun _ => ?_)
  refine Ok.bind (hI.rho p (by omega)) ?_
  intro c0 hc0
  have := hbeg.rho hl (by omega) hc0
  subst this
  refine Ok.ite (fun h => ?_) (fun _ => ?_)
  · have := (laid_le hx.laid c0 hcm).1
    omega
  · refine Ok.bind (hI.ohr q (by omega)) ?_
    intro c1 hc1
    rw [(cut_in hT hx hbeg (by omega) hpq hq hl (by omega) hc1).1]
    exact Ok.pure rfl

/-- past the last address of a shard, the rest of its text -/
theorem translate_past {H : Obj} {x : Shard} (hx : GoodShard T x) (hb : InBounds x) {I : H.σ → Prop}
    (hI : Impl H I (ofList x.chunks)) {p q : Int} {m s : Nat} (hp : Place T x p m s) (hpq : p ≤ q)
    (hq : q < maxfinity) (hgap : ∀ c ∈ x.chunks, ¬ (c.p ≤ q ∧ q ≤ c.q)) :
    Ok I (translate T H x.text p q) (fun r => r = x.text.drop s) := by
  have hl := hx.listing hb
  obtain ⟨c, hbeg, hcp⟩ := hp.begin hx
  have hcm : c ∈ x.chunks := by obtain ⟨pre, post, e, -⟩ := hbeg; rw [e]; simp
  have b1 := hb c hcm
  unfold translate
  have hp0 : (if p < 0 then (0 : Int) else p) = p := if_neg (by omega)
  rw [hp0]
  refine Ok.ite (fun h => by omega) (fun _ => ?_)
  refine Ok.bind (hI.rho p (by omega)) ?_
  intro c0 hc0
  have := hbeg.rho hl (by omega) hc0
  subst this
  refine Ok.ite (fun h => ?_) (fun _ => ?_)
  · have := (laid_le hx.laid c0 hcm).1
    omega
  · refine Ok.bind (hI.ohr q (by omega)) ?_
    intro c1 hc1
    have hlt : c1.q < q := by
      rcases hc1 with ⟨h3, -⟩ | ⟨-, h3, h4, -⟩ | ⟨-, h3, -⟩
      · omega
      · have := hgap c1 h3; omega
      · have := h3 c0 hcm; omega
    rw [cut_gap hT hx hbeg hlt]
    exact Ok.pure rfl
end

/-- Readers of shards of which only one has anything between `p` and `q`. -/
theorem readAll_one {p q : Int} (hp : 0 ≤ p) (hpm : p < maxfinity) {x : Shard} {a : Text}
    (hin : ∀ r : TextReader, r.Serves x → ∃ s, translate T r.H r.text p q r.state = some (a, s) ∧
      TextReader.Serves { r with state := s } x) :
    ∀ {xs ys : List Shard} {rs : List TextReader}, ServesAll rs (xs ++ x :: ys) →
    (∀ y ∈ xs, Apart y p q) → (∀ y ∈ ys, Apart y p q) →
    ∃ rs', readAll T p q rs = some (a, rs') ∧ ServesAll rs' (xs ++ x :: ys) := by
  have hout : ∀ (r : TextReader) (y : Shard), r.Serves y → Apart y p q →
      ∃ s, translate T r.H r.text p q r.state = some ([], s) ∧ TextReader.Serves { r with state := s } y := by
    rintro r y ⟨h1, I, h2, h3⟩ hy
    obtain ⟨b, s, k1, k2, rfl⟩ := translate_none (T := T) h2 hp hpm hy r.state h3
    exact ⟨s, by rw [h1]; exact k1, h1, I, h2, k2⟩
  have hall : ∀ {ys : List Shard} {rs : List TextReader}, ServesAll rs ys →
      (∀ y ∈ ys, Apart y p q) →
      ∃ rs', readAll T p q rs = some ([], rs') ∧ ServesAll rs' ys := by
    intro ys
    induction ys with
    | nil => intro rs h _; cases h; exact ⟨[], rfl, .nil⟩
    | cons y ys ih =>
      intro rs h hy
      cases h with
      | cons h1 h2 =>
        rename_i r rs
        obtain ⟨s, k1, k2⟩ := hout _ _ h1 (hy y (List.mem_cons_self ..))
        obtain ⟨rs', k3, k4⟩ := ih h2 (fun z hz => hy z (List.mem_cons_of_mem _ hz))
        exact ⟨_, by simp [readAll, k1, k3], .cons k2 k4⟩
  intro xs
  induction xs with
  | nil =>
    intro ys rs h _ hy
    cases h with
    | cons h1 h2 =>
      obtain ⟨s, k1, k2⟩ := hin _ h1
      obtain ⟨rs', k3, k4⟩ := hall h2 hy
      exact ⟨_, by simp [readAll, k1, k3], .cons k2 k4⟩
  | cons y xs ih =>
    intro ys rs h hx hy
    cases h with
    | cons h1 h2 =>
      obtain ⟨s, k1, k2⟩ := hout _ _ h1 (hx y (List.mem_cons_self ..))
      obtain ⟨rs', k3, k4⟩ := ih h2 (fun z hz => hx z (List.mem_cons_of_mem _ hz)) hy
      exact ⟨_, by simp [readAll, k1, k3], .cons k2 k4⟩

end Verif.Text
