import Verif.Static.History

/-!
# The index written by the builder
-/

namespace Verif.Static
open Verif.Hopper Verif.Store Verif.Gcl

/-! ## Tokens -/

/-- The loop of `posting_from_tokens`. -/
def rise (ps : List Int) (a : Int) : List Int :=
  match ps.getLast? with
  | none => ps ++ [a]
  | some b => if a > b then ps ++ [a] else ps

theorem fromTokens_eq (f : Int) (addrs : List Int) :
    fromTokens f addrs = { feature := f, ps := addrs.foldl rise [] } := rfl

theorem rise_all : ∀ (addrs acc : List Int), acc.Pairwise (· < ·) → addrs.Pairwise (· ≤ ·) →
    (∀ x ∈ acc, ∀ a ∈ addrs, x ≤ a) →
    (addrs.foldl rise acc).Pairwise (· < ·) ∧ (∀ a, a ∈ addrs.foldl rise acc ↔ a ∈ acc ∨ a ∈ addrs) ∧
    (addrs.foldl rise acc).length ≤ acc.length + addrs.length := by
  intro addrs
  induction addrs with
  | nil => intro acc h _ _; exact ⟨h, by simp, by simp⟩
  | cons a addrs ih =>
    intro acc hacc hs hle
    obtain ⟨s1, s2⟩ := List.pairwise_cons.1 hs
    rw [List.foldl_cons]
    by_cases hp : ∀ x ∈ acc, x < a
    · have hr : rise acc a = acc ++ [a] := by
        unfold rise
        cases hl : acc.getLast? with
        | none => rfl
        | some b => simp only; rw [if_pos]; exact hp b (List.mem_of_getLast? hl)
      obtain ⟨i1, i2, i3⟩ := ih (acc ++ [a]) (by
          rw [List.pairwise_append]
          refine ⟨hacc, by simp, ?_⟩
          intro x hx y hy
          rw [List.mem_singleton] at hy; subst hy; exact hp x hx) s2 (by
          intro x hx y hy
          rcases List.mem_append.1 hx with hx | hx
          · exact hle x hx y (by simp [hy])
          · rw [List.mem_singleton] at hx; subst hx; exact s1 y hy)
      rw [hr]
      refine ⟨i1, ?_, ?_⟩
      · intro x; rw [i2]; simp [or_assoc]
      · simp only [List.length_append, List.length_cons, List.length_nil] at i3 ⊢; omega
    · have ha : a ∈ acc := by
        simp only [Classical.not_forall] at hp
        obtain ⟨x, hx, h⟩ := hp
        have := hle x hx a (by simp)
        have : x = a := by omega
        rw [← this]; exact hx
      have hr : rise acc a = acc := by
        unfold rise
        cases hl : acc.getLast? with
        | none =>
          rw [List.getLast?_eq_none_iff] at hl; subst hl; simp at ha
        | some b =>
          simp only
          rw [if_neg]
          have := hle b (List.mem_of_getLast? hl) a (by simp)
          rcases List.eq_nil_or_concat acc with he | ⟨pre, c, he⟩
          · subst he; simp at ha
          · rw [List.concat_eq_append] at he
            subst he
            simp only [List.getLast?_append, List.getLast?_singleton, Option.some_or, Option.some.injEq] at hl
            subst hl
            rcases List.mem_append.1 ha with h | h
            · have := (List.pairwise_append.1 hacc).2.2 a h c (by simp); omega
            · rw [List.mem_singleton] at h; omega
      obtain ⟨i1, i2, i3⟩ := ih acc hacc s2 (fun x hx y hy => hle x hx y (by simp [hy]))
      rw [hr]
      refine ⟨i1, ?_, ?_⟩
      · intro x; rw [i2, List.mem_cons]
        constructor
        · rintro (h | h)
          · exact Or.inl h
          · exact Or.inr (Or.inr h)
        · rintro (h | rfl | h)
          · exact Or.inl h
          · exact Or.inl ha
          · exact Or.inr h
      · simp only [List.length_cons]; omega

theorem zip3_points (f : Int) (ps : List Int) :
    ({ feature := f, ps := ps } : Posting).anns = ps.map fun a => ⟨a, a, 0⟩ := by
  have hok : ({ feature := f, ps := ps } : Posting).Ok := ⟨Or.inl rfl, Or.inl rfl⟩
  rw [anns_eq hok]
  unfold Posting.ends Posting.vals
  simp only [if_true]
  induction ps with
  | nil => rfl
  | cons a ps ih =>
    rw [List.length_cons, List.replicate_succ, List.map_cons, zip3,
      ih ⟨Or.inl rfl, Or.inl rfl⟩]

/-- A run of tokens makes a good posting. -/
theorem tokens_ok {f : Int} {addrs : List Int} (hne : addrs ≠ []) (hs : addrs.Pairwise (· ≤ ·))
    (hb : ∀ a ∈ addrs, 0 ≤ a ∧ a < maxfinity) (hf : In64 f) :
    GoodP addrs.length (fromTokens f addrs) ∧ (fromTokens f addrs).feature = f ∧
    (∀ a, a ∈ (fromTokens f addrs).anns ↔ ∃ x ∈ addrs, a = ⟨x, x, 0⟩) := by
  rw [fromTokens_eq]
  obtain ⟨r1, r2, r3⟩ := rise_all addrs [] List.Pairwise.nil hs (by simp)
  simp only [List.not_mem_nil, false_or] at r2
  have hm : ∀ a, a ∈ ({ feature := f, ps := addrs.foldl rise [] } : Posting).anns ↔
      ∃ x ∈ addrs, a = ⟨x, x, 0⟩ := by
    intro a
    rw [zip3_points, List.mem_map]
    constructor
    · rintro ⟨x, hx, rfl⟩; exact ⟨x, (r2 x).1 hx, rfl⟩
    · rintro ⟨x, hx, rfl⟩; exact ⟨x, (r2 x).2 hx, rfl⟩
  refine ⟨⟨⟨Or.inl rfl, Or.inl rfl⟩, ⟨?_, ?_⟩, ?_, ?_, ?_, ?_, hf, ?_⟩, rfl, hm⟩
  · rw [zip3_points, List.pairwise_map]
    exact r1.imp fun h => ⟨h, h⟩
  · intro a ha
    obtain ⟨x, hx, rfl⟩ := (hm a).1 ha
    have := hb x hx
    refine ⟨?_, ?_, ?_⟩ <;> simp only <;> omega
  · obtain ⟨x, hx⟩ := List.exists_mem_of_ne_nil _ hne
    exact List.ne_nil_of_mem ((hm ⟨x, x, 0⟩).2 ⟨x, hx, rfl⟩)
  · intro a ha
    obtain ⟨x, hx, rfl⟩ := (hm a).1 ha
    rfl
  · intro a ha
    obtain ⟨x, hx, rfl⟩ := (hm a).1 ha
    exact (hb x hx).1
  · intro a ha
    obtain ⟨x, hx, rfl⟩ := (hm a).1 ha
    constructor <;> simp
  · simpa [Posting.size] using r3

theorem takeWhile_tokens : ∀ (l : List (Int × Int)) (f : Int), l.Pairwise (fun x y => x.1 ≤ y.1) →
    (∀ x ∈ l, f ≤ x.1) →
    l.takeWhile (fun x => x.1 == f) = l.filter (fun x => x.1 == f) ∧
    l.dropWhile (fun x => x.1 == f) = l.filter (fun x => x.1 != f) := by
  intro l
  induction l with
  | nil => intro f _ _; exact ⟨rfl, rfl⟩
  | cons x l ih =>
    intro f hs hf
    obtain ⟨s1, s2⟩ := List.pairwise_cons.1 hs
    obtain ⟨i1, i2⟩ := ih f s2 (fun y hy => hf y (by simp [hy]))
    rw [List.takeWhile_cons, List.dropWhile_cons, List.filter_cons, List.filter_cons]
    by_cases h : x.1 = f
    · simp [h, i1, i2]
    · have hgt : ∀ y ∈ x :: l, y.1 ≠ f := by
        intro y hy
        have := hf x (by simp)
        rcases List.mem_cons.1 hy with rfl | hy
        · exact h
        · have := s1 y hy; omega
      simp only [beq_iff_eq, h, bne_iff_ne, ne_eq, not_false_eq_true, if_true, if_false]
      constructor
      · symm; rw [List.filter_eq_nil_iff]; intro y hy; simpa using hgt y (by simp [hy])
      · congr 1; symm; rw [List.filter_eq_self]; intro y hy; simpa using hgt y (by simp [hy])

/-- Tokens sorted by feature and address. -/
def InOrder (l : List (Int × Int)) : Prop := l.Pairwise fun x y => x.1 ≤ y.1 ∧ (x.1 = y.1 → x.2 ≤ y.2)

theorem sorts_tokens {sort : List (Int × Int) → List (Int × Int)} (hs : Sorts tokCmp sort)
    (l : List (Int × Int)) : InOrder (sort l) := by
  refine (hs l).2.imp ?_
  intro x y h
  unfold tokCmp at h
  simp only [Bool.or_eq_false_iff, decide_eq_false_iff_not, Bool.and_eq_false_iff, beq_eq_false_iff_ne] at h
  omega

/-- The stored form of a batch. -/
structure BatchOk (N : Nat) (pc fc : Codec) (B : List (Int × Ann)) (b : List UInt8) (Ps : List Posting) : Prop where
  written : Written pc fc Ps b
  sorted : Sorted Ps
  good : ∀ P ∈ Ps, GoodP N P
  mem : ∀ f a, a ∈ annsAt Ps f ↔ (f, a) ∈ B

section
variable {N : Nat} {pc fc : Codec} (hc : Codecs N pc fc)
include hc

theorem tokBytes_ok : ∀ (n : Nat) {s : List (Int × Int)}, s.length ≤ n → s.length ≤ N → InOrder s →
    (∀ x ∈ s, In64 x.1 ∧ 0 ≤ x.2 ∧ x.2 < maxfinity) →
    ∃ b Ps, tokBytes pc fc n s = some b ∧ BatchOk N pc fc (s.map point) b Ps := by
  intro n
  induction n with
  | zero =>
    intro s hn _ _ _
    have : s = [] := List.eq_nil_of_length_eq_zero (by omega)
    subst this
    exact ⟨[], [], rfl, .nil, List.Pairwise.nil, by simp, by simp [annsAt]⟩
  | succ n ih =>
    intro s hn hN hr hb
    match s with
    | [] => exact ⟨[], [], rfl, .nil, List.Pairwise.nil, by simp, by simp [annsAt]⟩
    | (g, a) :: l =>
      rw [tokBytes]
      have hfs : ((g, a) :: l).Pairwise fun x y => x.1 ≤ y.1 := hr.imp fun h => h.1
      have hge : ∀ x ∈ (g, a) :: l, g ≤ x.1 := by
        intro x hx
        rcases List.mem_cons.1 hx with rfl | hx
        · exact Int.le_refl _
        · exact (List.pairwise_cons.1 hfs).1 x hx
      obtain ⟨t1, t2⟩ := takeWhile_tokens ((g, a) :: l) g hfs hge
      simp only [t1, t2]
      generalize hs : (g, a) :: l = s at *
      have hrm : ∀ x, x ∈ (s.filter fun x => x.1 == g).map (·.2) ↔ (g, x) ∈ s := by
        intro x
        rw [List.mem_map]
        constructor
        · rintro ⟨⟨g', y⟩, hy, rfl⟩
          obtain ⟨h1, h2⟩ := List.mem_filter.1 hy
          have : g' = g := by simpa using h2
          subst this; exact h1
        · intro h; exact ⟨(g, x), List.mem_filter.2 ⟨h, by simp⟩, rfl⟩
      have hgs : (g, a) ∈ s := by rw [← hs]; simp
      have hlen : ((s.filter fun x => x.1 == g).map (·.2)).length ≤ s.length := by
        rw [List.length_map]; exact List.length_filter_le _ _
      obtain ⟨p1, p2, p3⟩ := tokens_ok (f := g) (addrs := (s.filter fun x => x.1 == g).map (·.2))
        (List.ne_nil_of_mem ((hrm a).2 hgs)) (by
          rw [List.pairwise_map]
          have := hr.filter (fun x => x.1 == g)
          rw [List.pairwise_iff_forall_sublist] at this ⊢
          intro x y hxy
          have e1 := (List.mem_filter.1 (hxy.subset (by simp : x ∈ [x, y]))).2
          have e2 := (List.mem_filter.1 (hxy.subset (by simp : y ∈ [x, y]))).2
          simp only [beq_iff_eq] at e1 e2
          exact (this hxy).2 (by omega))
        (fun x hx => (hb _ ((hrm x).1 hx)).2) (hb _ hgs).1
      have p1 := p1.mono (Nat.le_trans hlen hN)
      obtain ⟨b, b1, _⟩ := write_read (p1.storable hc)
      rw [b1]
      have hsub : (s.filter fun x => x.1 != g).Sublist s := List.filter_sublist
      have hlt : (s.filter fun x => x.1 != g).length ≤ n := by
        have := List.length_filter_le (fun x : Int × Int => x.1 != g) l
        rw [← hs, List.filter_cons]
        rw [← hs] at hn
        simp only [List.length_cons] at hn
        simp; omega
      obtain ⟨c, Ps, i1, i2⟩ := ih hlt (Nat.le_trans hsub.length_le hN) (hr.sublist hsub)
        (fun x hx => hb x (hsub.subset hx))
      have hpm : ∀ (s : List (Int × Int)) f a, (f, a) ∈ s.map point ↔ ∃ x, (f, x) ∈ s ∧ a = ⟨x, x, 0⟩ := by
        intro s f a
        rw [List.mem_map]
        constructor
        · rintro ⟨⟨f', x⟩, hx, e⟩; cases e; exact ⟨x, hx, rfl⟩
        · rintro ⟨x, hx, rfl⟩; exact ⟨(f, x), hx, rfl⟩
      refine ⟨b ++ c, _ :: Ps, by simp only [i1, Option.map_some], .cons b1 i2.written, ?_, ?_, ?_⟩
      · refine List.pairwise_cons.2 ⟨?_, i2.sorted⟩
        intro P hP
        obtain ⟨x, hx⟩ := List.exists_mem_of_ne_nil _ (i2.good P hP).nonempty
        have : x ∈ annsAt Ps P.feature := by
          unfold annsAt
          exact List.mem_flatMap.2 ⟨P, List.mem_filter.2 ⟨hP, by simp⟩, hx⟩
        obtain ⟨y, hy, _⟩ := (hpm _ _ _).1 ((i2.mem _ _).1 this)
        obtain ⟨h1, h2⟩ := List.mem_filter.1 hy
        have := hge _ h1
        have h2 : P.feature ≠ g := by simpa using h2
        rw [p2]; simp only at this; omega
      · intro P hP
        rcases List.mem_cons.1 hP with rfl | hP
        · exact p1
        · exact i2.good P hP
      · intro f x
        rw [annsAt_cons, p2, List.mem_append, i2.mem, hpm, hpm]
        by_cases h : g = f
        · subst h
          rw [if_pos rfl, p3]
          constructor
          · rintro (⟨y, hy, rfl⟩ | ⟨y, hy, rfl⟩)
            · exact ⟨y, (hrm y).1 hy, rfl⟩
            · exact ⟨y, (List.mem_filter.1 hy).1, rfl⟩
          · rintro ⟨y, hy, rfl⟩
            exact Or.inl ⟨y, (hrm y).2 hy, rfl⟩
        · rw [if_neg h]
          constructor
          · rintro (h | ⟨y, hy, rfl⟩)
            · simp at h
            · exact ⟨y, (List.mem_filter.1 hy).1, rfl⟩
          · rintro ⟨y, hy, rfl⟩
            exact Or.inr ⟨y, List.mem_filter.2 ⟨hy, by simp; omega⟩, rfl⟩

/-- Batches, the files they are in, and the postings there. -/
inductive Stored (N : Nat) (pc fc : Codec) :
    List (List (Int × Ann)) → List (List UInt8) → List (List Posting) → Prop
  | nil : Stored N pc fc [] [] []
  | cons {B b Ps Bs bs Ls} : BatchOk N pc fc B b Ps → Stored N pc fc Bs bs Ls →
      Stored N pc fc (B :: Bs) (b :: bs) (Ps :: Ls)

omit hc in
theorem Stored.append {Bs bs Ls Bs' bs' Ls'} (h : Stored N pc fc Bs bs Ls) (h' : Stored N pc fc Bs' bs' Ls') :
    Stored N pc fc (Bs ++ Bs') (bs ++ bs') (Ls ++ Ls') := by
  induction h with
  | nil => exact h'
  | cons hb _ ih => exact .cons hb ih

omit hc in
theorem Stored.facts {Bs bs Ls} (h : Stored N pc fc Bs bs Ls) : WrittenAll pc fc bs Ls ∧ (∀ L ∈ Ls, Sorted L) ∧
    (∀ L ∈ Ls, ∀ P ∈ L, GoodP N P) ∧ ∀ f a, (∃ L ∈ Ls, a ∈ annsAt L f) ↔ (f, a) ∈ Bs.flatten := by
  induction h with
  | nil => exact ⟨.nil, by simp, by simp, by simp⟩
  | cons hb _ ih =>
    obtain ⟨i1, i2, i3, i4⟩ := ih
    refine ⟨.cons hb.written i1, ?_, ?_, ?_⟩
    · intro L hL
      rcases List.mem_cons.1 hL with rfl | hL
      · exact hb.sorted
      · exact i2 L hL
    · intro L hL
      rcases List.mem_cons.1 hL with rfl | hL
      · exact hb.good
      · exact i3 L hL
    · intro f a
      rw [List.flatten_cons, List.mem_append, ← i4, ← hb.mem]
      simp

omit hc in
/-- Batches in increasing order hold annotations in increasing order. -/
theorem Stored.listing {Bs bs Ls} (h : Stored N pc fc Bs bs Ls)
    (hp : Bs.Pairwise fun B C => ∀ x ∈ B, ∀ y ∈ C, x.1 = y.1 → x.2.p < y.2.p ∧ x.2.q < y.2.q) (f : Int) :
    Listing ((Ls.map fun L => annsAt L f).flatten) := by
  induction h with
  | nil => exact listing_nil
  | @cons B b Ps Bs bs Ls hb hst ih =>
    obtain ⟨p1, p2⟩ := List.pairwise_cons.1 hp
    have i := ih p2
    have l := annsAt_listing hb.sorted hb.good f
    rw [List.map_cons, List.flatten_cons]
    refine ⟨List.pairwise_append.2 ⟨l.sorted, i.sorted, ?_⟩, ?_⟩
    · intro a ha c hc
      obtain ⟨L', hL', hc⟩ := List.mem_flatten.1 hc
      obtain ⟨L, hL, rfl⟩ := List.mem_map.1 hL'
      have h1 := (hst.facts.2.2.2 f c).1 ⟨L, hL, hc⟩
      obtain ⟨C, hC, h1⟩ := List.mem_flatten.1 h1
      exact p1 C hC _ ((hb.mem f a).1 ha) _ h1 rfl
    · intro a ha
      rcases List.mem_append.1 ha with h | h
      · exact l.bounds a h
      · exact i.bounds a h

/-! ## Batches of tokens -/

/-- The tokens of texts that are kept. -/
def tokensOf (ts : List (List (Int × Int))) : List (Int × Int) := ts.flatten.filter fun t => t.1 != nullFeature

omit hc in
theorem tokensOf_append (ts us : List (List (Int × Int))) : tokensOf (ts ++ us) = tokensOf ts ++ tokensOf us := by
  simp [tokensOf]

/-- The texts so far are in the files or still waiting. -/
def Read (N : Nat) (pc fc : Codec) (a : Tokens) (texts : List (List (Int × Int))) : Prop :=
  ∃ (TB : List (List (List (Int × Int)))) (cur : List (List (Int × Int))) (Bs : List (List (Int × Ann)))
    (Ls : List (List Posting)), Stored N pc fc Bs a.files Ls ∧ TB.flatten ++ cur = texts ∧
    Bs.length = TB.length ∧ (∀ (i : Nat) B T, Bs[i]? = some B → TB[i]? = some T →
      ∀ x, x ∈ B ↔ x ∈ (tokensOf T).map point) ∧ a.tokens = tokensOf cur ∧
    (∀ b ∈ Bs, b ≠ [])

variable {sort : List (Int × Int) → List (Int × Int)} (hs : Sorts tokCmp sort)
include hs

theorem tokens_flush {a : Tokens} {texts : List (List (Int × Int))} (h : Read N pc fc a texts)
    (hb : ∀ x ∈ tokensOf texts, In64 x.1 ∧ 0 ≤ x.2 ∧ x.2 < maxfinity) (hN : (tokensOf texts).length ≤ N)
    (hne : a.tokens ≠ []) :
    ∃ a', a.flush pc fc sort = some a' ∧ Read N pc fc a' texts ∧ a'.tokens = [] := by
  obtain ⟨TB, cur, Bs, Ls, h1, h2, h3, h4, h5, h6⟩ := h
  have hsub : (tokensOf cur).Sublist (tokensOf texts) := by
    rw [← h2, tokensOf_append]; exact List.sublist_append_right _ _
  have hp := (hs a.tokens).1
  rw [h5] at hp
  obtain ⟨b, Ps, r1, r2⟩ := tokBytes_ok hc a.tokens.length (s := sort a.tokens)
    (by rw [h5, hp.length_eq]; exact Nat.le_refl _)
    (by rw [h5, hp.length_eq]; exact Nat.le_trans hsub.length_le hN) (sorts_tokens hs _)
    (by rw [h5]; intro x hx; exact hb x (hsub.subset (hp.subset hx)))
  refine ⟨_, by unfold Tokens.flush; rw [r1]; rfl,
    ⟨TB ++ [cur], [], Bs ++ [(sort a.tokens).map point], Ls ++ [Ps], h1.append (.cons r2 .nil), by simp [h2],
      by simp [h3], ?_, rfl, ?_⟩, rfl⟩
  · intro i B T hB hT x
    rcases Nat.lt_trichotomy i TB.length with hi | hi | hi
    · rw [List.getElem?_append_left (by omega)] at hB hT
      exact h4 i B T hB hT x
    · rw [hi] at hB hT
      rw [List.getElem?_append_right (by omega), h3, Nat.sub_self] at hB
      rw [List.getElem?_append_right (by omega), Nat.sub_self] at hT
      simp only [List.getElem?_cons_zero, Option.some.injEq] at hB hT
      subst hB hT
      rw [h5]
      exact (hp.map point).mem_iff
    · rw [List.getElem?_eq_none (by simp; omega)] at hT; cases hT
  · intro B hB
    rcases List.mem_append.1 hB with hB | hB
    · exact h6 B hB
    · rw [List.mem_singleton] at hB; subst hB
      intro he
      rw [List.map_eq_nil_iff, h5] at he
      rw [he] at hp
      rw [h5] at hne
      exact hne hp.symm.eq_nil

theorem tokens_addAll (limit : Nat) : ∀ (ts : List (List (Int × Int))) {a : Tokens} {done : List (List (Int × Int))},
    Read N pc fc a done → (∀ x ∈ tokensOf (done ++ ts), In64 x.1 ∧ 0 ≤ x.2 ∧ x.2 < maxfinity) →
    (tokensOf (done ++ ts)).length ≤ N →
    ∃ a', Tokens.addAll pc fc sort limit a ts = some a' ∧ Read N pc fc a' (done ++ ts) := by
  intro ts
  induction ts with
  | nil => intro a done h _ _; exact ⟨a, rfl, by simpa using h⟩
  | cons t ts ih =>
    intro a done h hb hN
    have e : done ++ t :: ts = (done ++ [t]) ++ ts := by simp
    rw [e] at hb hN ⊢
    rw [Tokens.addAll, Tokens.add]
    have hA : Read N pc fc { a with tokens := a.tokens ++ t.filter fun t => t.1 != nullFeature } (done ++ [t]) := by
      obtain ⟨TB, cur, Bs, Ls, h1, h2, h3, h4, h5, h6⟩ := h
      refine ⟨TB, cur ++ [t], Bs, Ls, h1, by rw [← h2]; simp, h3, h4, ?_, h6⟩
      simp only
      rw [h5, tokensOf_append]
      simp [tokensOf]
    by_cases hl : (a.tokens ++ t.filter fun t => t.1 != nullFeature).length > limit
    · simp only [hl, if_true]
      rw [tokensOf_append] at hb hN
      obtain ⟨a', f1, f2, _⟩ := tokens_flush hc hs hA (fun x hx => hb x (List.mem_append.2 (Or.inl hx)))
        (by rw [List.length_append] at hN; omega) (by intro h0; simp only at h0; rw [h0] at hl; simp at hl)
      rw [f1]
      rw [← tokensOf_append] at hb hN
      exact ih f2 hb hN
    · simp only [hl, if_false]
      exact ih hA hb hN

theorem tokens_finish {a : Tokens} {texts : List (List (Int × Int))} (h : Read N pc fc a texts)
    (hb : ∀ x ∈ tokensOf texts, In64 x.1 ∧ 0 ≤ x.2 ∧ x.2 < maxfinity) (hN : (tokensOf texts).length ≤ N) :
    ∃ a', a.finish pc fc sort = some a' ∧ Read N pc fc a' texts ∧ a'.tokens = [] := by
  unfold Tokens.finish
  by_cases h0 : a.tokens.length > 0
  · rw [if_pos h0]
    exact tokens_flush hc hs h hb hN (List.length_pos_iff.1 h0)
  · rw [if_neg h0]
    exact ⟨a, rfl, h, List.eq_nil_of_length_eq_zero (by omega)⟩

end

/-! ## Combining -/

theorem append_feature (P M : Posting) : (P.append M).feature = P.feature := rfl

theorem appendAll_ok : ∀ (Ps : List Posting) {A : Posting}, A.Ok → (∀ P ∈ Ps, P.Ok) →
    (Ps.foldl Posting.append A).Ok ∧ (Ps.foldl Posting.append A).anns = A.anns ++ Ps.flatMap Posting.anns ∧
    (Ps.foldl Posting.append A).feature = A.feature := by
  intro Ps
  induction Ps with
  | nil => intro A hA _; exact ⟨hA, by simp, rfl⟩
  | cons P Ps ih =>
    intro A hA hP
    obtain ⟨i1, i2, i3⟩ := ih (append_ok hA (hP P (by simp))) (fun Q hQ => hP Q (by simp [hQ]))
    rw [List.foldl_cons]
    refine ⟨i1, ?_, i3⟩
    rw [i2, append_anns hA (hP P (by simp))]; simp

theorem buildCombine_ok {N M : Nat} {f : Int} {Ps : List Posting} (hne : Ps ≠ []) (hg : ∀ P ∈ Ps, GoodP N P)
    (hf : ∀ P ∈ Ps, P.feature = f) (hl : Listing (Ps.flatMap Posting.anns)) (hM : (Ps.flatMap Posting.anns).length ≤ M) :
    ∃ R, buildCombine f Ps = some R ∧ GoodP M R ∧ R.feature = f ∧ R.anns = Ps.flatMap Posting.anns := by
  obtain ⟨a1, a2, a3⟩ := appendAll_ok Ps (empty_ok f) (fun P hP => (hg P hP).ok)
  rw [empty_anns, List.nil_append] at a2
  have hmem : ∀ a ∈ Ps.flatMap Posting.anns, ∃ P ∈ Ps, a ∈ P.anns := fun a ha => List.mem_flatMap.1 ha
  refine ⟨Ps.foldl Posting.append { feature := f }, ?_, ⟨a1, ?_, ?_, ?_, ?_, ?_, ?_, ?_⟩, a3, a2⟩
  · unfold buildCombine
    simp only
    rw [if_pos (invariants_ok a1 (by rw [a2]; exact hl))]
  · rw [a2]; exact hl
  · rw [a2]
    obtain ⟨P, hP⟩ := List.exists_mem_of_ne_nil _ hne
    obtain ⟨x, hx⟩ := List.exists_mem_of_ne_nil _ (hg P hP).nonempty
    exact List.ne_nil_of_mem (List.mem_flatMap.2 ⟨P, hP, hx⟩)
  · rw [a2]; intro a ha
    obtain ⟨P, hP, ha⟩ := hmem a ha
    exact (hg P hP).zero a ha
  · rw [a2]; intro a ha
    obtain ⟨P, hP, ha⟩ := hmem a ha
    exact (hg P hP).start a ha
  · rw [a2]; intro a ha
    obtain ⟨P, hP, ha⟩ := hmem a ha
    exact (hg P hP).value a ha
  · rw [a3]
    obtain ⟨P, hP⟩ := List.exists_mem_of_ne_nil _ hne
    show In64 f
    rw [← hf P hP]; exact (hg P hP).feature
  · rw [← anns_length a1, a2]; exact hM

theorem ofF_flatMap (f : Int) (Ls : List (List Posting)) :
    (ofF f Ls).flatMap Posting.anns = (Ls.map fun L => annsAt L f).flatten := by
  induction Ls with
  | nil => rfl
  | cons L Ls ih => rw [ofF_cons, List.flatMap_append, ih, List.map_cons, List.flatten_cons]; rfl

theorem batches_stored {N : Nat} {pc fc : Codec} {Bs bs Ls} (h : Batches N pc fc Bs bs Ls) :
    Stored N pc fc Bs bs Ls := by
  induction h with
  | nil => exact .nil
  | snoc _ h2 h3 h4 h5 ih =>
    refine ih.append (.cons ⟨h2, h3, h4, ?_⟩ .nil)
    intro f a
    rw [(h5 f).mem_iff, ofFeature_mem]

/-- Batches of texts that come in increasing order. -/
theorem pairwise_batches {TB : List (List (List (Int × Int)))} {Bs : List (List (Int × Ann))}
    (hl : Bs.length = TB.length) (hm : ∀ (i : Nat) B T, Bs[i]? = some B → TB[i]? = some T →
      ∀ x, x ∈ B ↔ x ∈ (tokensOf T).map point)
    (hp : TB.flatten.Pairwise fun t u => ∀ x ∈ t, ∀ y ∈ u, x.2 < y.2) :
    Bs.Pairwise fun B C => ∀ x ∈ B, ∀ y ∈ C, x.1 = y.1 → x.2.p < y.2.p ∧ x.2.q < y.2.q := by
  rw [List.pairwise_iff_getElem]
  intro i j hi hj hij x hx y hy _
  rw [List.pairwise_flatten] at hp
  have hij' := List.pairwise_iff_getElem.1 hp.2 i j (by omega) (by omega) hij
  have hx := (hm i _ _ (List.getElem?_eq_getElem hi) (List.getElem?_eq_getElem (by omega)) x).1 hx
  have hy := (hm j _ _ (List.getElem?_eq_getElem hj) (List.getElem?_eq_getElem (by omega)) y).1 hy
  obtain ⟨u, hu, rfl⟩ := List.mem_map.1 hx
  obtain ⟨v, hv, rfl⟩ := List.mem_map.1 hy
  obtain ⟨t, ht, hu⟩ := List.mem_flatten.1 (List.mem_filter.1 hu).1
  obtain ⟨s, hs, hv⟩ := List.mem_flatten.1 (List.mem_filter.1 hv).1
  have := hij' t ht s hs u hu v hv
  exact ⟨this, this⟩

section
variable {N : Nat} {pc fc : Codec} (hc : Codecs N pc fc)
variable {tokSort : List (Int × Int) → List (Int × Int)} (hts : Sorts tokCmp tokSort)
variable {annSort : List (Int × Ann) → List (Int × Ann)} (has : Sorts annCmp annSort)
include hc hts has

theorem build_ok (tokLimit annLimit : Nat) {texts : List (List (Int × Int))} {anns : List (Int × Ann)}
    (h : FairBuild texts anns) (hN : (built texts anns).anns.length ≤ N) :
    ∃ d Rs, build pc fc tokSort annSort tokLimit annLimit texts anns = some d ∧
      After (built texts anns).anns.length pc fc [built texts anns] d Rs := by
  -- the two parts of what was given
  have hsplit : (built texts anns).anns = (tokensOf texts).map point ++ anns.filter (fun x => x.1 != nullFeature) := by
    unfold built tokensOf
    simp only [List.filter_append, List.filter_map]
    rfl
  have hlen : (built texts anns).anns.length = (tokensOf texts).length +
      (anns.filter fun x => x.1 != nullFeature).length := by
    rw [hsplit, List.length_append, List.length_map]
  have htb : ∀ x ∈ tokensOf texts, In64 x.1 ∧ 0 ≤ x.2 ∧ x.2 < maxfinity := by
    intro x hx
    have hm : point x ∈ (built texts anns).anns := by
      rw [hsplit]; exact List.mem_append.2 (Or.inl (List.mem_map.2 ⟨x, hx, rfl⟩))
    obtain ⟨t, ht, hx'⟩ := List.mem_flatten.1 (List.mem_filter.1 hx).1
    exact ⟨h.feature _ hm, h.tokens t ht x hx', h.stop _ hm⟩
  -- the annotations that are kept
  generalize hxs : anns.filter (fun x => x.1 != nullFeature) = xs at *
  have hxm : ∀ x ∈ xs, x ∈ anns ∧ x.1 ≠ nullFeature := by
    intro x hx
    rw [← hxs] at hx
    obtain ⟨h1, h2⟩ := List.mem_filter.1 hx
    exact ⟨h1, by simpa using h2⟩
  have hxp : (xs.filter fun x => decide (Kept x.2)).Pairwise fun x y => x.1 = y.1 →
      x.2.p < y.2.p ∧ x.2.q < y.2.q := by
    have hp : xs.Pairwise fun x y => x.1 = y.1 → Kept x.2 → Kept y.2 → x.2.p < y.2.p ∧ x.2.q < y.2.q := by
      rw [← hxs]; exact h.growing.filter _
    have := hp.filter (fun x => decide (Kept x.2))
    rw [List.pairwise_iff_forall_sublist] at this ⊢
    intro x y hxy e
    have h1 := (List.mem_filter.1 (hxy.subset (by simp : x ∈ [x, y]))).2
    have h2 := (List.mem_filter.1 (hxy.subset (by simp : y ∈ [x, y]))).2
    exact this hxy e (by simpa using h1) (by simpa using h2)
  have hfine : Fine (xs.filter fun x => decide (Kept x.2)) := by
    have hm : ∀ x ∈ xs.filter (fun x => decide (Kept x.2)), x ∈ xs ∧ Kept x.2 := by
      intro x hx
      obtain ⟨h1, h2⟩ := List.mem_filter.1 hx
      exact ⟨h1, by simpa using h2⟩
    have hb : ∀ x ∈ xs.filter (fun x => decide (Kept x.2)), x ∈ (built texts anns).anns := by
      intro x hx
      rw [hsplit]; exact List.mem_append.2 (Or.inr (hm x hx).1)
    refine ⟨fun x hx => h.feature x (hb x hx), fun x hx => (hm x hx).2,
      fun x hx => h.value x (hxm x (hm x hx).1).1, fun x hx => h.stop x (hb x hx), ?_⟩
    refine hxp.imp ?_
    intro x y hxy e
    have := hxy e
    unfold inside
    omega
  unfold build
  obtain ⟨t1, a1, a2⟩ := tokens_addAll hc hts tokLimit texts (a := {}) (done := [])
    ⟨[], [], [], [], .nil, rfl, rfl, by simp, rfl, by simp⟩ htb (by rw [List.nil_append]; omega)
  rw [List.nil_append] at a2
  obtain ⟨t2, b1, ⟨TB, cur, TBs, TLs, b2, b3, b4, b5, b6, b7⟩, b8⟩ := tokens_finish hc hts a2 htb (by omega)
  have hcur : tokensOf cur = [] := by rw [← b6, b8]
  have hcf := List.length_filter_le (fun x : Int × Ann => decide (Kept x.2)) xs
  obtain ⟨g1, c1, c2⟩ := annotateAll_ok hc has annLimit xs (a := {}) (done := []) ⟨[], [], .nil, rfl⟩
    hfine (by simp only [List.nil_append]; omega)
  rw [List.nil_append] at c2
  obtain ⟨g2, ABs, ALs, d1, d2, d3⟩ := finish_ok hc has c2 hfine (by omega)
  simp only [a1, b1, hxs, c1, d1]
  have hst := b2.append (batches_stored d2)
  -- what the batches hold
  have hTmem : ∀ x, x ∈ TBs.flatten ↔ x ∈ (tokensOf texts).map point := by
    intro x
    rw [← b3, tokensOf_append, hcur, List.append_nil]
    constructor
    · intro hx
      obtain ⟨B, hB, hx⟩ := List.mem_flatten.1 hx
      obtain ⟨i, hi, rfl⟩ := List.getElem_of_mem hB
      have := (b5 i _ _ (List.getElem?_eq_getElem hi) (List.getElem?_eq_getElem (by omega)) x).1 hx
      obtain ⟨u, hu, rfl⟩ := List.mem_map.1 this
      obtain ⟨h1, h2⟩ := List.mem_filter.1 hu
      obtain ⟨t, ht, h1⟩ := List.mem_flatten.1 h1
      exact List.mem_map.2 ⟨u, List.mem_filter.2
        ⟨List.mem_flatten.2 ⟨t, List.mem_flatten.2 ⟨_, List.getElem_mem (by omega), ht⟩, h1⟩, h2⟩, rfl⟩
    · intro hx
      obtain ⟨u, hu, rfl⟩ := List.mem_map.1 hx
      obtain ⟨h1, h2⟩ := List.mem_filter.1 hu
      obtain ⟨t, ht, h1⟩ := List.mem_flatten.1 h1
      obtain ⟨T, hT, ht⟩ := List.mem_flatten.1 ht
      obtain ⟨i, hi, rfl⟩ := List.getElem_of_mem hT
      have := (b5 i _ _ (List.getElem?_eq_getElem (by omega)) (List.getElem?_eq_getElem hi) (point u)).2
        (List.mem_map.2 ⟨u, List.mem_filter.2 ⟨List.mem_flatten.2 ⟨t, ht, h1⟩, h2⟩, rfl⟩)
      exact List.mem_flatten.2 ⟨_, List.getElem_mem _, this⟩
  have hGiven : ∀ f a, (f, a) ∈ (TBs ++ ABs).flatten ↔ Given [built texts anns] f a := by
    intro f a
    rw [List.flatten_append, List.mem_append, hTmem, d3, given_one rfl, ofFeature_mem, hsplit, List.mem_filter,
      List.mem_filter, List.mem_append]
    constructor
    · rintro (hx | hx)
      · refine ⟨Or.inl hx, ?_⟩
        obtain ⟨u, hu, e⟩ := List.mem_map.1 hx
        have := htb u hu
        cases e
        rw [decide_eq_true_eq]; exact ⟨this.2.1, Int.le_refl _⟩
      · exact ⟨Or.inr hx.1, hx.2⟩
    · rintro ⟨hx | hx, hk⟩
      · exact Or.inl hx
      · exact Or.inr ⟨hx, hk⟩
  have hpair : (TBs ++ ABs).Pairwise fun B C => ∀ x ∈ B, ∀ y ∈ C, x.1 = y.1 → x.2.p < y.2.p ∧ x.2.q < y.2.q := by
    rw [List.pairwise_append]
    refine ⟨pairwise_batches b4 b5 ?_, ?_, ?_⟩
    · have := h.rising
      rw [← b3] at this
      exact (List.pairwise_append.1 this).1
    · rw [← d3, List.pairwise_flatten] at hxp
      exact hxp.2
    · intro B hB C hC x hx y hy e
      have hx := (hTmem x).1 (List.mem_flatten.2 ⟨B, hB, hx⟩)
      obtain ⟨u, hu, rfl⟩ := List.mem_map.1 hx
      obtain ⟨t, ht, hu⟩ := List.mem_flatten.1 (List.mem_filter.1 hu).1
      have hy : y ∈ ABs.flatten := List.mem_flatten.2 ⟨C, hC, hy⟩
      rw [d3] at hy
      obtain ⟨h1, h2⟩ := List.mem_filter.1 hy
      have h2 : Kept y.2 := by simpa using h2
      have := h.mixed t ht u hu y (hxm y h1).1 e h2
      refine ⟨this, ?_⟩
      have := h2.2
      show u.2 < y.2.q
      omega
  obtain ⟨w1, w2, w3, w4⟩ := hst.facts
  -- the history this stands for
  have finish : ∀ (d : Files) (Rs : List Posting), Holds (built texts anns).anns.length pc fc d Rs →
      (∀ f, annsAt Rs f = ((TLs ++ ALs).map fun L => annsAt L f).flatten) →
      After (built texts anns).anns.length pc fc [built texts anns] d Rs := by
    intro d Rs hH hA
    refine ⟨hH, ?_⟩
    intro f
    have hL : Listing (annsAt Rs f) := by rw [hA]; exact hst.listing hpair f
    have hG : ∀ a, a ∈ annsAt Rs f ↔ Given [built texts anns] f a := by
      intro a
      rw [hA, ← hGiven, ← w4, List.mem_flatten]
      constructor
      · rintro ⟨l, hl, ha⟩
        obtain ⟨L, hL, rfl⟩ := List.mem_map.1 hl
        exact ⟨L, hL, ha⟩
      · rintro ⟨L, hL, ha⟩
        exact ⟨_, List.mem_map.2 ⟨L, hL, rfl⟩, ha⟩
    refine ⟨[annsAt Rs f], by simpa using hL, fun a => (unionL_single hL a).symm, by simpa using hG, ?_⟩
    intro a
    have := latest_snoc [] (built texts anns) f a
    rw [List.nil_append] at this
    rw [this, ← hG]
    have hno : ¬ Latest [] f a := by rintro ⟨x, y, z, e, _⟩; simp at e
    simp [newest, hno]
  by_cases hemp : t2.files = []
  · rw [if_pos hemp]
    -- no token, hence nothing to keep
    rw [hemp] at b2
    cases b2
    have hnone : tokensOf texts = [] := by
      have : ((tokensOf texts).map point) = [] := by
        apply List.eq_nil_iff_forall_not_mem.2
        intro x hx
        have := (hTmem x).2 hx
        simp at this
      simpa using this
    have hk : xs.filter (fun x => decide (Kept x.2)) = [] := by
      rw [List.filter_eq_nil_iff]
      intro x hx
      rcases h.some with ⟨t, ht, y, hy, hn⟩ | h0
      · have : y ∈ tokensOf texts := List.mem_filter.2 ⟨List.mem_flatten.2 ⟨t, ht, hy⟩, by simpa using hn⟩
        rw [hnone] at this; simp at this
      · have := h0 x (hxm x hx).1 (hxm x hx).2
        simpa using this
    refine ⟨{}, [], rfl, finish _ _ ⟨.nil, List.Pairwise.nil, by simp⟩ ?_⟩
    intro f
    have hnil : ∀ a, a ∉ (([] ++ ALs).map fun L => annsAt L f).flatten := by
      intro a ha
      obtain ⟨l, hl, ha⟩ := List.mem_flatten.1 ha
      obtain ⟨L, hL, rfl⟩ := List.mem_map.1 hl
      have := (w4 f a).1 ⟨L, hL, ha⟩
      rw [List.nil_append, d3, hk] at this
      simp at this
    rw [List.eq_nil_iff_forall_not_mem.2 hnil]
    rfl
  · rw [if_neg hemp]
    have hcomb : ∀ f, ofF f (TLs ++ ALs) ≠ [] → ∃ R, buildCombine f (ofF f (TLs ++ ALs)) = some R ∧
        GoodP (built texts anns).anns.length R ∧ R.feature = f ∧
        R.anns = ((TLs ++ ALs).map fun L => annsAt L f).flatten := by
      intro f hne
      have hL := hst.listing hpair f
      rw [← ofF_flatMap] at hL ⊢
      refine buildCombine_ok hne (N := N) ?_ (fun P hP => by simpa using (List.mem_filter.1 hP).2) hL ?_
      · intro P hP
        obtain ⟨L, hL, hP⟩ := List.mem_flatten.1 (List.mem_filter.1 hP).1
        exact w3 L hL P hP
      · have h1 := listing_length (m := (built texts anns).anns.map (·.2)) hL (by
          intro a ha
          rw [ofF_flatMap] at ha
          obtain ⟨l, hl, ha⟩ := List.mem_flatten.1 ha
          obtain ⟨L, hL, rfl⟩ := List.mem_map.1 hl
          have := (hGiven f a).1 ((w4 f a).1 ⟨L, hL, ha⟩)
          rw [given_one rfl, ofFeature_mem] at this
          exact List.mem_map.2 ⟨(f, a), (List.mem_filter.1 this).1, rfl⟩)
        rw [List.length_map] at h1
        exact h1
    obtain ⟨Rs, d, m1, m2, m3, m4, m5⟩ := mergeFiles_ok hc w1 w2 w3 (combine := buildCombine)
      (fun f hne => by
        obtain ⟨R, r1, r2, r3, _⟩ := hcomb f hne
        exact ⟨R, r1, r2.mono hN, r3⟩)
    refine ⟨d, Rs, m1, finish d Rs ⟨m2, m3, ?_⟩ ?_⟩
    · intro R hR
      by_cases hne : ofF R.feature (TLs ++ ALs) = []
      · have h0 := (m5 R.feature).1 hne
        rw [List.filter_eq_nil_iff] at h0
        exact absurd (by simp) (h0 R hR)
      · obtain ⟨R1, r1, r2⟩ := (m5 R.feature).2 hne
        obtain ⟨R2, q1, q2, _⟩ := hcomb _ hne
        rw [r1] at q1; cases q1
        have : R ∈ Rs.filter fun P => P.feature == R.feature := List.mem_filter.2 ⟨hR, by simp⟩
        rw [r2, List.mem_singleton] at this
        rw [this]; exact q2
    · intro f
      by_cases hne : ofF f (TLs ++ ALs) = []
      · rw [← ofF_flatMap, hne]
        unfold annsAt
        rw [(m5 f).1 hne]
      · obtain ⟨R1, r1, r2⟩ := (m5 f).2 hne
        obtain ⟨R2, q1, _, _, q4⟩ := hcomb _ hne
        rw [r1] at q1; cases q1
        rw [← q4]
        unfold annsAt
        rw [r2]; simp

end
end Verif.Static
