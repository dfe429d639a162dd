import Verif.Extent.Proof
/-
  What a warren of several shards says about its text.
-/
namespace Verif.Extent
open Verif.Hopper Verif.Text Verif.HazelText Verif.Store

variable {T : Tokenizer}

/-- all the text of the first transactions is before all of the second -/
def Before (T : Tokenizer) (us vs : List Txn) : Prop := ∀ a b, HasText T us a → HasText T vs b → a < b

theorem before_of_order {us vs : List Txn} (h : InOrder T (us ++ vs)) : Before T us vs := by
  rintro a b ⟨t, ht, h1, h2⟩ ⟨u, hu, h3, h4⟩
  have := (List.pairwise_append.1 h.1).2.2 t ht u hu
  omega

theorem InOrder.left {us vs : List Txn} (h : InOrder T (us ++ vs)) : InOrder T us :=
  ⟨(List.pairwise_append.1 h.1).1, fun t ht => h.2 t (List.mem_append_left _ ht)⟩

theorem InOrder.right {us vs : List Txn} (h : InOrder T (us ++ vs)) : InOrder T vs :=
  ⟨(List.pairwise_append.1 h.1).2.1, fun t ht => h.2 t (List.mem_append_right _ ht)⟩

theorem group_order : ∀ {W : List (List Txn)}, InOrder T W.flatten → ∀ g ∈ W, InOrder T g
  | [], _, g, hg => absurd hg (List.not_mem_nil)
  | h :: W, ho, g, hg => by
    rw [List.flatten_cons] at ho
    rcases List.mem_cons.1 hg with rfl | hg
    · exact InOrder.left ho
    · exact group_order (InOrder.right ho) g hg

theorem bounds_append {us vs : List Txn} (hb : Before T us vs) {p q p' q' : Int} (hu : Bounds T us p q)
    (hv : Bounds T vs p' q') : Bounds T (us ++ vs) p q' where
  first := hasText_append.2 (Or.inl hu.first)
  last := hasText_append.2 (Or.inr hv.last)
  all a ha := by
    rcases hasText_append.1 ha with h | h
    · have := hu.all a h
      have := hb a q' h hv.last
      omega
    · have := hv.all a h
      have := hb p a hu.first h
      omega

theorem bounds_left {us vs : List Txn} (hn : ∀ a, ¬ HasText T us a) {p q : Int} (hv : Bounds T vs p q) :
    Bounds T (us ++ vs) p q where
  first := hasText_append.2 (Or.inr hv.first)
  last := hasText_append.2 (Or.inr hv.last)
  all a ha := (hasText_append.1 ha).elim (fun h => absurd h (hn a)) (hv.all a)

theorem bounds_right {us vs : List Txn} (hn : ∀ a, ¬ HasText T vs a) {p q : Int} (hu : Bounds T us p q) :
    Bounds T (us ++ vs) p q where
  first := hasText_append.2 (Or.inl hu.first)
  last := hasText_append.2 (Or.inl hu.last)
  all a ha := (hasText_append.1 ha).elim (hu.all a) (fun h => absurd h (hn a))

/-- `q` is the last address of the text -/
def LastAt (T : Tokenizer) (ts : List Txn) (q : Int) : Prop := HasText T ts q ∧ ∀ a, HasText T ts a → a ≤ q

section
variable (hT : Lawful T) (hnl : NewlineGap T)
include hT hnl

theorem first_range {xs : List Part} {W : List (List Txn)} (hx : PartsOk T xs W)
    (hg : ∀ g ∈ W, ∀ u ∈ g, ∀ s ∈ u.texts, Clean T s) (hgo : ∀ g ∈ W, InOrder T g) :
    (∃ xs', firstRange xs = some (none, xs', []) ∧ PartsOk T xs' W ∧ ∀ a, ¬ HasText T W.flatten a) ∨
    ∃ p q ys zs L g R, firstRange xs = some (some (p, q), ys, zs) ∧ W = (L ++ [g]) ++ R ∧ PartsOk T ys (L ++ [g]) ∧
      PartsOk T zs R ∧ Bounds T g p q ∧ ∀ a, ¬ HasText T L.flatten a := by
  induction hx with
  | nil => exact Or.inl ⟨[], rfl, .nil, fun _ => not_hasText_nil⟩
  | @cons x g xs W h1 h2 ih =>
    obtain ⟨⟨b, p, q⟩, x', e, r, ok⟩ := part_range hT hnl (hg g (by simp)) (hgo g (by simp)) h1
    cases b with
    | true =>
      exact Or.inr ⟨p, q, [x'], xs, [], g, W, by simp only [firstRange, e], rfl, .cons ok .nil, h2, r, fun _ => not_hasText_nil⟩
    | false =>
      have hn : ∀ a, ¬ HasText T g a := r.2.2
      rcases ih (fun g h => hg g (by simp [h])) (fun g h => hgo g (by simp [h])) with
        ⟨xs', e', ok', n'⟩ | ⟨p', q', ys, zs, L, g', R, e', rfl, k1, k2, k3, k4⟩
      · refine Or.inl ⟨x' :: xs', by simp only [firstRange, e, e'], .cons ok ok', fun a ha => ?_⟩
        rw [List.flatten_cons] at ha
        exact (hasText_append.1 ha).elim (hn a) (n' a)
      · refine Or.inr ⟨p', q', x' :: ys, zs, g :: L, g', R, by simp only [firstRange, e, e'], by simp, .cons ok k1, k2, k3,
          fun a ha => ?_⟩
        rw [List.flatten_cons] at ha
        exact (hasText_append.1 ha).elim (hn a) (k4 a)

theorem last_range {xs : List Part} {V : List (List Txn)} (hx : PartsOk T xs V)
    (hg : ∀ g ∈ V, ∀ u ∈ g, ∀ s ∈ u.texts, Clean T s) (ho : InOrder T V.reverse.flatten) :
    (∃ xs', lastRange xs = some (none, xs') ∧ PartsOk T xs' V ∧ ∀ a, ¬ HasText T V.reverse.flatten a) ∨
    ∃ q xs', lastRange xs = some (some q, xs') ∧ PartsOk T xs' V ∧ LastAt T V.reverse.flatten q := by
  induction hx with
  | nil => exact Or.inl ⟨[], rfl, .nil, fun _ => not_hasText_nil⟩
  | @cons x g xs V h1 h2 ih =>
    have e0 : (g :: V).reverse.flatten = V.reverse.flatten ++ g := by simp
    rw [e0] at ho
    obtain ⟨⟨b, p, q⟩, x', e, r, ok⟩ := part_range hT hnl (hg g (by simp)) (InOrder.right ho) h1
    rw [e0]
    cases b with
    | true =>
      refine Or.inr ⟨q, x' :: xs, by simp only [lastRange, e], .cons ok h2, hasText_append.2 (Or.inr r.last), fun a ha => ?_⟩
      rcases hasText_append.1 ha with h | h
      · have := before_of_order ho a q h r.last; omega
      · exact (r.all a h).2
    | false =>
      have hn : ∀ a, ¬ HasText T g a := r.2.2
      rcases ih (fun g h => hg g (by simp [h])) (InOrder.left ho) with ⟨xs', e', ok', n'⟩ | ⟨q', xs', e', ok', l1, l2⟩
      · exact Or.inl ⟨x' :: xs', by simp only [lastRange, e, e'], .cons ok ok', fun a ha => (hasText_append.1 ha).elim (n' a) (hn a)⟩
      · exact Or.inr ⟨q', x' :: xs', by simp only [lastRange, e, e'], .cons ok ok', hasText_append.2 (Or.inl l1),
          fun a ha => (hasText_append.1 ha).elim (l2 a) (fun h => absurd h (hn a))⟩

theorem all_range {xs : List Part} {W : List (List Txn)} (hx : PartsOk T xs W)
    (hg : ∀ g ∈ W, ∀ u ∈ g, ∀ s ∈ u.texts, Clean T s) (ho : InOrder T W.flatten) :
    ∃ a xs', allRange xs = some (a, xs') ∧ RangeOk T W.flatten a ∧ PartsOk T xs' W := by
  rcases first_range hT hnl hx hg (group_order ho) with
    ⟨xs', e, ok, n⟩ | ⟨p, q, ys, zs, L, g, R, e, rfl, k1, k2, k3, k4⟩
  · exact ⟨(false, maxfinity, maxfinity), xs', by simp only [allRange, e], ⟨rfl, rfl, n⟩, ok⟩
  · rw [List.flatten_append] at ho
    have hR : InOrder T R.reverse.reverse.flatten := by rw [List.reverse_reverse]; exact InOrder.right ho
    have hf : (L ++ [g]).flatten = L.flatten ++ g := by simp
    have hb : Bounds T (L ++ [g]).flatten p q := by rw [hf]; exact bounds_left k4 k3
    rcases last_range hT hnl k2.reverse (fun g h => hg g (by simp at h; simp [h])) hR with
      ⟨zs', e', ok', n'⟩ | ⟨q', zs', e', ok', l1, l2⟩
    · rw [List.reverse_reverse] at n'
      refine ⟨(true, p, q), ys ++ zs'.reverse, by simp only [allRange, e, e'], ?_, by simpa using k1.append ok'.reverse⟩
      rw [List.flatten_append]
      exact bounds_right n' hb
    · rw [List.reverse_reverse] at l1 l2
      refine ⟨(true, p, q'), ys ++ zs'.reverse, by simp only [allRange, e, e'], ?_, by simpa using k1.append ok'.reverse⟩
      rw [List.flatten_append]
      have bo := before_of_order ho
      exact ⟨hasText_append.2 (Or.inl hb.first), hasText_append.2 (Or.inr l1), fun a ha => by
        rcases hasText_append.1 ha with h | h
        · have := hb.all a h; have := bo a q' h l1; omega
        · have := l2 a h; have := bo p a hb.first h; omega⟩

theorem next_address {xs : List Part} {W : List (List Txn)} (hx : PartsOk T xs W)
    (hg : ∀ g ∈ W, ∀ u ∈ g, ∀ s ∈ u.texts, Clean T s) (ho : InOrder T W.flatten) :
    ∃ n xs', nextAddress xs = some (n, xs') ∧ PartsOk T xs' W ∧
      (((∀ a, ¬ HasText T W.flatten a) ∧ n = 0) ∨ LastAt T W.flatten (n - 1)) := by
  rcases last_range hT hnl hx.reverse (fun g h => hg g (by simpa using h)) (by rw [List.reverse_reverse]; exact ho) with
    ⟨xs', e, ok, n⟩ | ⟨q, xs', e, ok, l⟩
  · rw [List.reverse_reverse] at n
    exact ⟨0, xs'.reverse, by simp only [nextAddress, e], by simpa using ok.reverse, Or.inl ⟨n, rfl⟩⟩
  · rw [List.reverse_reverse] at l
    refine ⟨q + 1, xs'.reverse, by simp only [nextAddress, e], by simpa using ok.reverse, Or.inr ?_⟩
    rw [show q + 1 - 1 = q by omega]
    exact l

/-- what a part adds to `tokens`: a dynamic one as many as there are addresses with a token, a
static one as many as there are from the first to the last -/
def Adds (T : Tokenizer) (x : Part) (g : List Txn) (n : Int) : Prop :=
  match x.text with
  | .dynamic _ => Counts T g n
  | .static _ => (∀ p q, Bounds T g p q → n = q - p + 1) ∧ ((∀ a, ¬ HasText T g a) → n = 0)

theorem all_tokens {xs : List Part} {W : List (List Txn)} (hx : PartsOk T xs W)
    (hg : ∀ g ∈ W, ∀ u ∈ g, ∀ s ∈ u.texts, Clean T s) (hgo : ∀ g ∈ W, InOrder T g)
    (hgap : ∀ x g, (x, g) ∈ xs.zip W → (∃ r, x.text = .static r) → NoGap T g) (n : Int) :
    ∃ xs', allTokens n xs = some (n + size T W.flatten, xs') ∧ PartsOk T xs' W := by
  induction hx generalizing n with
  | nil => exact ⟨[], by simp [allTokens, size], .nil⟩
  | @cons x g xs W h1 h2 ih =>
    obtain ⟨k, x', e, ok, c, -⟩ := part_tokens hT hnl (hg g (by simp)) (hgo g (by simp)) h1
    have hk : k = size T g := c (by
      cases hx : x.text with
      | dynamic r => exact Or.inl ⟨r, rfl⟩
      | static r => exact Or.inr (hgap x g (by simp) ⟨r, hx⟩))
    obtain ⟨xs', e', ok'⟩ := ih (fun g h => hg g (by simp [h])) (fun g h => hgo g (by simp [h]))
      (fun x g h => hgap x g (by simp [h])) (n + k)
    refine ⟨x' :: xs', ?_, .cons ok ok'⟩
    simp only [allTokens, e, e']
    rw [List.flatten_cons, size_append, hk]
    refine congrArg some (Prod.ext ?_ rfl)
    dsimp only
    omega
end
end Verif.Extent
