import Verif.Text.History
/-
  Reading a range of addresses that goes over several transactions and shards.
-/
namespace Verif.Text
open Verif.Hopper

variable {T : Tokenizer}

/-- Asked for `p` to `q`, every reader of the shard answers `a`, and reads it as before. -/
def Answer (T : Tokenizer) (p q : Int) (x : Shard) (a : Text) : Prop :=
  ∀ r : TextReader, r.Serves x → ∃ s, translate T r.H r.text p q r.state = some (a, s) ∧
    TextReader.Serves { r with state := s } x

inductive Answers (T : Tokenizer) (p q : Int) : List Shard → List Text → Prop
  | nil : Answers T p q [] []
  | cons {x a xs as} : Answer T p q x a → Answers T p q xs as → Answers T p q (x :: xs) (a :: as)

theorem Answers.append {p q : Int} {xs ys : List Shard} {as bs : List Text} (h : Answers T p q xs as)
    (k : Answers T p q ys bs) : Answers T p q (xs ++ ys) (as ++ bs) := by
  induction h with
  | nil => exact k
  | cons h1 _ ih => exact .cons h1 ih

theorem Answers.map {p q : Int} {α : Type} {f : α → Shard} {a : α → Text} {l : List α}
    (h : ∀ x ∈ l, Answer T p q (f x) (a x)) : Answers T p q (l.map f) (l.map a) := by
  induction l with
  | nil => exact .nil
  | cons x l ih =>
    exact .cons (h x (List.mem_cons_self ..)) (ih fun y hy => h y (List.mem_cons_of_mem _ hy))

theorem readAll_each {p q : Int} {xs : List Shard} {as : List Text} (h : Answers T p q xs as) :
    ∀ {rs : List TextReader}, ServesAll rs xs →
      ∃ rs', readAll T p q rs = some (as.flatten, rs') ∧ ServesAll rs' xs := by
  induction h with
  | nil => intro rs h; cases h; exact ⟨[], rfl, .nil⟩
  | cons h1 _ ih =>
    intro rs h
    cases h with
    | cons k1 k2 =>
      obtain ⟨s, e1, e2⟩ := h1 _ k1
      obtain ⟨rs', e3, e4⟩ := ih k2
      exact ⟨_, by simp [readAll, e1, e3], .cons e2 e4⟩

theorem answer_of_ok {p q : Int} {x : Shard} {a : Text}
    (h : ∀ (H : Obj) (I : H.σ → Prop), Impl H I (ofList x.chunks) →
      Ok I (translate T H x.text p q) (fun r => r = a)) : Answer T p q x a := by
  rintro r ⟨h1, I, h2, h3⟩
  obtain ⟨b, s, k1, k2, rfl⟩ := h r.H I h2 r.state h3
  exact ⟨s, by rw [h1]; exact k1, h1, I, h2, k2⟩

theorem answer_apart {p q : Int} {x : Shard} (hp : 0 ≤ p) (hpm : p < maxfinity) (h : Apart x p q) :
    Answer T p q x [] :=
  answer_of_ok fun _ _ hI => translate_none hI hp hpm h

section
variable (hT : Lawful T)
include hT

theorem answer_in {x : Shard} (hx : GoodShard T x) (hb : InBounds x) {p q : Int} {c : Ann} {s n e : Nat}
    (hbeg : Begin T x p c s) (hp : 0 ≤ p) (hcq : c.p ≤ q) (hq : Place T x q n e) (hpq : p ≤ q) :
    Answer T p q x ((x.text.drop s).take (T.skip x.text (n + 1 : Nat) - s)) := by
  refine answer_of_ok fun H I hI => ?_
  have hl := hx.listing hb
  have hcm : c ∈ x.chunks := by obtain ⟨pre, post, e, -⟩ := hbeg; rw [e]; simp
  obtain ⟨pre', d, post', e1, d1, d2, -⟩ := id hq
  have hdm : d ∈ x.chunks := by rw [e1]; simp
  have b1 := hb c hcm
  have b2 := hb d hdm
  unfold translate
  have hp0 : (if p < 0 then (0 : Int) else p) = p := if_neg (by omega)
  rw [hp0]
  refine Ok.ite (fun h => by omega) (fun _ => ?_)
  refine Ok.bind (hI.rho p (by omega)) ?_
  intro c0 hc0
  have := hbeg.rho hl (by omega) hc0
  subst this
  refine Ok.ite (fun h => ?_) (fun _ => ?_)
  · have := (laid_le hx.laid c0 hcm).1
    omega
  · refine Ok.bind (hI.ohr q (by omega)) ?_
    intro c1 hc1
    rw [(cut_in hT hx hbeg (by omega) hpq hq hl (by omega) hc1).1]
    exact Ok.pure rfl

theorem answer_past {x : Shard} (hx : GoodShard T x) (hb : InBounds x) {p q : Int} {c : Ann} {s : Nat}
    (hbeg : Begin T x p c s) (hp : 0 ≤ p) (hcq : c.p ≤ q) (hpq : p ≤ q)
    (hq : q < maxfinity) (hgap : ∀ c ∈ x.chunks, c.q < q) :
    Answer T p q x (x.text.drop s) := by
  refine answer_of_ok fun H I hI => ?_
  have hl := hx.listing hb
  have hcm : c ∈ x.chunks := by obtain ⟨pre, post, e, -⟩ := hbeg; rw [e]; simp
  have b1 := hb c hcm
  unfold translate
  have hp0 : (if p < 0 then (0 : Int) else p) = p := if_neg (by omega)
  rw [hp0]
  refine Ok.ite (fun h => by omega) (fun _ => ?_)
  refine Ok.bind (hI.rho p (by omega)) ?_
  intro c0 hc0
  have := hbeg.rho hl (by omega) hc0
  subst this
  refine Ok.ite (fun h => ?_) (fun _ => ?_)
  · have := (laid_le hx.laid c0 hcm).1
    omega
  · refine Ok.bind (hI.ohr q (by omega)) ?_
    intro c1 hc1
    have hlt : c1.q < q := by
      rcases hc1 with ⟨h3, -⟩ | ⟨-, h3, h4, -⟩ | ⟨-, h3, -⟩
      · omega
      · exact hgap c1 h3
      · have := h3 c0 hcm; have := hgap c0 hcm; omega
    rw [cut_gap hT hx hbeg hlt]
    exact Ok.pure rfl
end

/-- the text of a group of transactions -/
def groupText (g : List Txn) : Text := (g.map Txn.text).flatten

/-- the text of a group of transactions from the first with a token on -/
def fromFirst (T : Tokenizer) (g : List Txn) : Text := groupText (g.dropWhile fun t => t.count T == 0)

section
variable (hT : Lawful T) (hnl : NewlineGap T)
include hT hnl

theorem groupText_count {l : List Txn} (hl : ∀ u ∈ l, ∀ s ∈ u.texts, Clean T s) :
    T.addresses (groupText l) = (l.map (Txn.count T)).sum := by
  induction l with
  | nil => show T.addresses [] = 0; rw [addresses_of (tokenize_nil hT)]; rfl
  | cons u l ih =>
    obtain ⟨g1, -, g3, g4⟩ := txn_chunk hT hnl (hl u (List.mem_cons_self ..))
    have hw : Whole T u.text := by rw [← g3]; exact g1.whole
    show T.addresses (u.text ++ groupText l) = _
    rw [addresses_append hw, g4, ih fun v hv => hl v (List.mem_cons_of_mem _ hv)]
    rfl

/-- the shard of a group of transactions, as seen from one of them -/
theorem group_shard {L R : List Txn} {t : Txn} (hg : ∀ u ∈ L ++ t :: R, ∀ s ∈ u.texts, Clean T s)
    (hgo : InOrder T (L ++ t :: R)) {x : Shard} (hx : x = mergeShards ((L ++ t :: R).map (Txn.shard T))) :
    GoodShard T x ∧ InBounds x ∧ x.text = groupText L ++ (t.text ++ groupText R) ∧
    Whole T (groupText L) ∧ T.addresses (groupText L) = (L.map (Txn.count T)).sum ∧
    (∀ c ∈ x.chunks, ∃ u ∈ L ++ t :: R, (u.base : Int) ≤ c.p ∧ c.p ≤ c.q ∧ c.q < ((u.base + u.count T : Nat) : Int)) ∧
    ∀ k, k < t.count T → Place T x (t.base + k) (T.addresses (groupText L) + k)
      ((groupText L).length + if k = 0 then 0 else T.skip t.text k) := by
  obtain ⟨e1, e2, e3⟩ := group_total hT hnl hg hgo
  have ht : t ∈ L ++ t :: R := by simp
  obtain ⟨g1, g2, g3, g4⟩ := txn_chunk hT hnl (hg t ht)
  have htexts : ∀ l : List Txn, (∀ u ∈ l, u ∈ L ++ t :: R) → (total (l.map (Txn.shard T))).text = groupText l := by
    intro l hl
    rw [total_text, List.map_map, groupText]
    congr 1
    apply List.map_congr_left
    intro u hu
    exact (txn_chunk hT hnl (hg u (hl u hu))).2.2.1
  have eL := htexts L (by simp +contextual)
  have eA := htexts _ (fun _ h => h)
  have hchunks : ∀ c ∈ x.chunks, ∃ u ∈ L ++ t :: R, (u.base : Int) ≤ c.p ∧ c.p ≤ c.q ∧
      c.q < ((u.base + u.count T : Nat) : Int) := by
    intro c hc'
    rw [hx, e1] at hc'
    exact group_chunk hT hnl (g := L ++ t :: R) hg hc'
  have hbounds : InBounds x := by
    intro c hc'
    obtain ⟨u, hu, h1⟩ := hchunks c hc'
    have := hgo.fits u hu
    omega
  rw [e1] at hx
  have gS : GoodShard T x := by rw [hx]; exact total_good hT e2 e3
  rw [List.map_append, List.map_cons] at hx e1 e2 e3 eA
  rw [List.pairwise_append, List.pairwise_cons] at e3
  have gL : GoodShard T (total (L.map (Txn.shard T))) :=
    total_good hT (fun x hx => e2 x (List.mem_append_left _ hx)) e3.1
  have gTR : GoodShard T ((t.shard T).plus (total (R.map (Txn.shard T)))) := by
    have := total_good hT (xs := t.shard T :: R.map (Txn.shard T))
      (fun x hx => e2 x (List.mem_append_right _ hx)) (List.pairwise_cons.mpr e3.2.1)
    exact this
  have eS : x = (total (L.map (Txn.shard T))).plus ((t.shard T).plus (total (R.map (Txn.shard T)))) := by
    rw [hx, total_append]; rfl
  refine ⟨gS, hbounds, ?_, ?_, ?_, hchunks, ?_⟩
  · rw [hx, eA]; simp [groupText]
  · rw [← eL]; exact gL.whole
  · exact groupText_count hT hnl fun u hu => hg u (List.mem_append_left _ hu)
  · intro k hk
    have := single_place hT hnl (base := t.base) (hg t ht) hk
    have h := (this.left hT g1 (y := total (R.map (Txn.shard T)))).right hT gL gTR
    rw [← eS, eL] at h
    exact h

/-- from an address of the group to an address past it -/
theorem group_from {L R : List Txn} {t : Txn} (hg : ∀ u ∈ L ++ t :: R, ∀ s ∈ u.texts, Clean T s)
    (hgo : InOrder T (L ++ t :: R)) {i : Nat} (hi : i < t.count T) {q : Int} (hq : q < maxfinity)
    (hpast : ∀ u ∈ L ++ t :: R, ((u.base + u.count T : Nat) : Int) ≤ q) :
    Answer T (t.base + i) q (mergeShards ((L ++ t :: R).map (Txn.shard T)))
      ((t.text ++ groupText R).drop (if i = 0 then 0 else T.skip t.text i)) := by
  obtain ⟨h1, h2, h3, -, -, h6, h7⟩ := group_shard hT hnl hg hgo rfl
  obtain ⟨c, hbeg, hcp⟩ := (h7 i hi).begin h1
  have hle := hpast t (by simp)
  have := answer_past hT h1 h2 hbeg (by omega) (by omega) (by omega) hq (by
    intro d hd
    obtain ⟨u, hu, k⟩ := h6 d hd
    have := hpast u hu
    omega)
  rw [h3, List.drop_append] at this
  have z : ∀ s, (groupText L).drop ((groupText L).length + s) = [] := by
    intro s; rw [List.drop_eq_nil_iff]; omega
  rw [z, List.nil_append, Nat.add_sub_cancel_left] at this
  exact this

/-- the first chunk of a group whose first transaction with a token is `v` -/
theorem group_first {Z G : List Txn} {v : Txn} (hg : ∀ u ∈ Z ++ v :: G, ∀ s ∈ u.texts, Clean T s)
    (hgo : InOrder T (Z ++ v :: G)) (hz : ∀ u ∈ Z, u.count T = 0) (hv : 0 < v.count T) {p : Int}
    (hp : p ≤ v.base) :
    ∃ c, Begin T (mergeShards ((Z ++ v :: G).map (Txn.shard T))) p c (groupText Z).length ∧ c.p = v.base := by
  obtain ⟨h1, h2, h3, -, -, h6, h7⟩ := group_shard hT hnl hg hgo rfl
  obtain ⟨c, ⟨pre, post, e, k1, k2, k3⟩, hcp⟩ := (h7 0 hv).begin h1
  have hge : ∀ d ∈ (mergeShards ((Z ++ v :: G).map (Txn.shard T))).chunks, (v.base : Int) ≤ d.p ∧ d.p ≤ d.q := by
    intro d hd
    obtain ⟨u, hu, a1, a2, a3⟩ := h6 d hd
    refine ⟨?_, a2⟩
    rw [List.mem_append, List.mem_cons] at hu
    rcases hu with hu | hu | hu
    · have := hz u hu; omega
    · subst hu; exact a1
    · have := hgo.order
      rw [List.pairwise_append, List.pairwise_cons] at this
      have := this.2.1.1 u hu
      omega
  have hc := hge c (by rw [e]; simp)
  have hcp' : c.p = v.base := by omega
  refine ⟨c, ⟨pre, post, e, ?_, by omega, ?_⟩, hcp'⟩
  · intro d hd
    have := hge d (by rw [e]; simp [hd])
    have := k1 d hd
    omega
  · rw [if_pos (by omega), if_pos (by omega)] at *
    simpa using k3

theorem cut_first {g : List Txn} (h : ∃ u ∈ g, 0 < u.count T) : ∃ Z v G, g = Z ++ v :: G ∧
    (∀ u ∈ Z, u.count T = 0) ∧ 0 < v.count T ∧ fromFirst T g = groupText (v :: G) := by
  induction g with
  | nil => obtain ⟨u, hu, -⟩ := h; cases hu
  | cons w g ih =>
    by_cases hw : w.count T = 0
    · obtain ⟨u, hu, hc⟩ := h
      have : ∃ u ∈ g, 0 < u.count T := by
        rcases List.mem_cons.mp hu with rfl | hu
        · omega
        · exact ⟨u, hu, hc⟩
      obtain ⟨Z, v, G, e, h1, h2, h3⟩ := ih this
      refine ⟨w :: Z, v, G, by rw [e]; rfl, ?_, h2, ?_⟩
      · intro u hu
        rcases List.mem_cons.mp hu with rfl | hu
        · exact hw
        · exact h1 u hu
      · rw [← h3]
        unfold fromFirst
        rw [List.dropWhile_cons, if_pos (by simp [hw])]
    · refine ⟨[], w, g, rfl, (by simp), by omega, ?_⟩
      unfold fromFirst
      rw [List.dropWhile_cons, if_neg (by simp [hw])]

/-- from an address before the group to one past it -/
theorem group_all {g : List Txn} (hg : ∀ u ∈ g, ∀ s ∈ u.texts, Clean T s) (hgo : InOrder T g)
    {p q : Int} (hp : 0 ≤ p) (hpq : p ≤ q) (hq : q < maxfinity) (hbefore : ∀ u ∈ g, p ≤ u.base)
    (hpast : ∀ u ∈ g, ((u.base + u.count T : Nat) : Int) ≤ q) :
    Answer T p q (mergeShards (g.map (Txn.shard T))) (fromFirst T g) := by
  by_cases h : ∃ u ∈ g, 0 < u.count T
  · obtain ⟨Z, v, G, rfl, k1, k2, k3⟩ := cut_first hT hnl h
    obtain ⟨h1, h2, h3, -, -, h6, h7⟩ := group_shard hT hnl hg hgo rfl
    obtain ⟨c, hbeg, hcp⟩ := group_first hT hnl hg hgo k1 k2 (hbefore v (by simp))
    have hv := hpast v (by simp)
    have := answer_past hT h1 h2 hbeg hp (by omega) hpq hq (by
      intro d hd
      obtain ⟨u, hu, k⟩ := h6 d hd
      have := hpast u hu
      omega)
    rw [h3, List.drop_append, List.drop_length, Nat.sub_self] at this
    rw [k3]
    exact this
  · have h0 : ∀ u ∈ g, u.count T = 0 := by
      intro u hu
      cases hc : u.count T with
      | zero => rfl
      | succ n => exact absurd ⟨u, hu, by omega⟩ h
    have e : fromFirst T g = [] := by
      have : g.dropWhile (fun t => t.count T == 0) = [] := by
        have := List.dropWhile_append_of_pos (p := fun t : Txn => t.count T == 0) (l₁ := g) (l₂ := [])
          (by simpa using h0)
        simpa using this
      unfold fromFirst; rw [this]; rfl
    rw [e]
    apply answer_apart hp (by omega)
    intro d hd
    rw [(group_total hT hnl hg hgo).1] at hd
    obtain ⟨u, hu, k⟩ := group_chunk hT hnl hg hd
    have := h0 u hu
    omega

/-- from an address before the group to one in it -/
theorem group_to {L R : List Txn} {u : Txn} (hg : ∀ v ∈ L ++ u :: R, ∀ s ∈ v.texts, Clean T s)
    (hgo : InOrder T (L ++ u :: R)) {j : Nat} (hj : j < u.count T) {p : Int} (hp : 0 ≤ p)
    (hbefore : ∀ v ∈ L ++ u :: R, p ≤ v.base) :
    Answer T p (u.base + j) (mergeShards ((L ++ u :: R).map (Txn.shard T)))
      ((fromFirst T (L ++ u :: R)).take
        (T.skip (fromFirst T (L ++ u :: R)) ((L.map (Txn.count T)).sum + j + 1 : Nat))) := by
  obtain ⟨h1, h2, h3, h4, h5, h6, h7⟩ := group_shard hT hnl hg hgo rfl
  obtain ⟨Z, v, G, e, k1, k2, k3⟩ := cut_first hT hnl (g := L ++ u :: R) ⟨u, by simp, by omega⟩
  have hg' := hg
  have hgo' := hgo
  have hplace := h7 j hj
  have hub := hbefore u (by simp)
  rw [e] at hg' hgo' h1 h2 hplace ⊢
  obtain ⟨-, -, h3', h4', h5', -, -⟩ := group_shard hT hnl hg' hgo' rfl
  have hvb : v.base ≤ u.base := by
    have : u ∈ Z ++ v :: G := by rw [← e]; simp
    rw [List.mem_append, List.mem_cons] at this
    rcases this with hu | hu | hu
    · have := k1 u hu; omega
    · subst hu; exact Nat.le_refl _
    · have := hgo'.order
      rw [List.pairwise_append, List.pairwise_cons] at this
      have := this.2.1.1 u hu
      omega
  obtain ⟨c, hbeg, hcp⟩ := group_first hT hnl hg' hgo' k1 k2 (p := p)
    (hbefore v (by rw [e]; simp))
  have := answer_in hT h1 h2 hbeg hp (by omega) hplace (by omega)
  rw [h3', List.drop_append, List.drop_length, Nat.sub_self] at this
  rw [← e] at this
  rw [← e, k3]
  have hz : T.addresses (groupText Z) = 0 := by
    rw [h5']
    have hs : ∀ Z : List Txn, (∀ w ∈ Z, w.count T = 0) → (Z.map (Txn.count T)).sum = 0 := by
      intro Z
      induction Z with
      | nil => intro _; rfl
      | cons w Z ih =>
        intro k
        rw [List.map_cons, List.sum_cons, k w (List.mem_cons_self ..),
          ih fun v hv => k v (List.mem_cons_of_mem _ hv)]
    exact hs Z k1
  have hsk : T.skip (groupText Z ++ (v.text ++ groupText G)) (T.addresses (groupText L) + j + 1 : Nat) =
      (groupText Z).length + T.skip (v.text ++ groupText G) (T.addresses (groupText L) + j + 1 : Nat) := by
    have := skip_append hT h4' (v.text ++ groupText G) (T.addresses (groupText L) + j + 1)
    rw [hz, Nat.zero_add] at this
    exact this
  rw [hsk, Nat.add_sub_cancel_left, h5] at this
  exact this

/-- Reading from an address of one transaction to an address of another, in a later shard. -/
theorem read_across {A B C : List (List Txn)} {L R L' R' : List Txn} {t u : Txn}
    (hc : ∀ g ∈ A ++ (L ++ t :: R) :: (B ++ (L' ++ u :: R') :: C), ∀ v ∈ g, ∀ s ∈ v.texts, Clean T s)
    (ho : InOrder T (A ++ (L ++ t :: R) :: (B ++ (L' ++ u :: R') :: C)).flatten) {rs : List TextReader}
    (hrs : ServesAll rs (shardsOf T (A ++ (L ++ t :: R) :: (B ++ (L' ++ u :: R') :: C)))) {i j : Nat}
    (hi : i < t.count T) (hj : j < u.count T) :
    ∃ rs', readAll T (t.base + i) (u.base + j) rs = some
        ((t.text ++ groupText R).drop (if i = 0 then 0 else T.skip t.text i) ++
          (B.map (fromFirst T)).flatten ++
          (fromFirst T (L' ++ u :: R')).take
            (T.skip (fromFirst T (L' ++ u :: R')) ((L'.map (Txn.count T)).sum + j + 1 : Nat)), rs') ∧
      ServesAll rs' (shardsOf T (A ++ (L ++ t :: R) :: (B ++ (L' ++ u :: R') :: C))) := by
  have hsub : ∀ g ∈ A ++ (L ++ t :: R) :: (B ++ (L' ++ u :: R') :: C), InOrder T g :=
    fun g hg => ho.sub hT hnl (List.sublist_flatten_of_mem hg)
  have hfl := ho.order
  rw [List.pairwise_flatten, List.pairwise_append, List.pairwise_cons, List.pairwise_append,
    List.pairwise_cons] at hfl
  obtain ⟨-, -, ⟨q2, -, ⟨q3, -⟩, q4⟩, q1⟩ := hfl
  have ht : t ∈ L ++ t :: R := by simp
  have hu : u ∈ L' ++ u :: R' := by simp
  have htu := q2 (L' ++ u :: R') (by simp) t ht u hu
  have hfu := (hsub (L' ++ u :: R') (by simp)).fits u hu
  have hans : Answers T (t.base + i) (u.base + j)
      (shardsOf T (A ++ (L ++ t :: R) :: (B ++ (L' ++ u :: R') :: C)))
      (A.map (fun _ => []) ++ ((t.text ++ groupText R).drop (if i = 0 then 0 else T.skip t.text i)) ::
        (B.map (fromFirst T) ++ ((fromFirst T (L' ++ u :: R')).take
            (T.skip (fromFirst T (L' ++ u :: R')) ((L'.map (Txn.count T)).sum + j + 1 : Nat))) ::
          C.map (fun _ => []))) := by
    unfold shardsOf
    rw [List.map_append (l₁ := A), List.map_cons, List.map_append (l₁ := B), List.map_cons]
    refine Answers.append (Answers.map ?_) (.cons ?_ (Answers.append (Answers.map ?_) (.cons ?_ (Answers.map ?_))))
    · intro g hg
      have hgm : g ∈ A ++ (L ++ t :: R) :: (B ++ (L' ++ u :: R') :: C) := by simp [hg]
      apply answer_apart (by omega) (by omega)
      intro d hd
      rw [(group_total hT hnl (hc g hgm) (hsub g hgm)).1] at hd
      obtain ⟨w, hw, k⟩ := group_chunk hT hnl (hc g hgm) hd
      have := q1 g hg (L ++ t :: R) (by simp) w hw t ht
      omega
    · refine group_from hT hnl (hc _ (by simp)) (hsub _ (by simp)) hi (by omega) ?_
      intro w hw
      have := q2 (L' ++ u :: R') (by simp) w hw u hu
      omega
    · intro g hg
      have hgm : g ∈ A ++ (L ++ t :: R) :: (B ++ (L' ++ u :: R') :: C) := by simp [hg]
      refine group_all hT hnl (hc g hgm) (hsub g hgm) (by omega) (by omega) (by omega) ?_ ?_
      · intro w hw
        have := q2 g (by simp [hg]) t ht w hw
        omega
      · intro w hw
        have := q4 g hg (L' ++ u :: R') (by simp) w hw u hu
        omega
    · refine group_to hT hnl (hc _ (by simp)) (hsub _ (by simp)) hj (by omega) ?_
      intro w hw
      have := q2 (L' ++ u :: R') (by simp) t ht w hw
      omega
    · intro g hg
      have hgm : g ∈ A ++ (L ++ t :: R) :: (B ++ (L' ++ u :: R') :: C) := by simp [hg]
      apply answer_apart (by omega) (by omega)
      intro d hd
      rw [(group_total hT hnl (hc g hgm) (hsub g hgm)).1] at hd
      obtain ⟨w, hw, k⟩ := group_chunk hT hnl (hc g hgm) hd
      have := q3 g hg u hu w hw
      omega
  obtain ⟨rs', h1, h2⟩ := readAll_each hans hrs
  refine ⟨rs', ?_, h2⟩
  rw [h1]
  have e : ∀ l : List (List Txn), (l.map fun _ => ([] : Text)).flatten = [] := by
    intro l; induction l with
    | nil => rfl
    | cons x l ih => simp [ih]
  simp [e]

/-- Reading from an address of one transaction to an address of another of the same shard. -/
theorem read_within {A C : List (List Txn)} {L M R : List Txn} {t u : Txn}
    (hc : ∀ g ∈ A ++ (L ++ t :: (M ++ u :: R)) :: C, ∀ v ∈ g, ∀ s ∈ v.texts, Clean T s)
    (ho : InOrder T (A ++ (L ++ t :: (M ++ u :: R)) :: C).flatten) {rs : List TextReader}
    (hrs : ServesAll rs (shardsOf T (A ++ (L ++ t :: (M ++ u :: R)) :: C))) {i j : Nat}
    (hi : i < t.count T) (hj : j < u.count T) {s : Nat} (hs : s = if i = 0 then 0 else T.skip t.text i)
    {X : Text} (hX : X = groupText (t :: (M ++ u :: R))) :
    ∃ rs', readAll T (t.base + i) (u.base + j) rs = some
        ((X.drop s).take (T.skip X (t.count T + (M.map (Txn.count T)).sum + j + 1 : Nat) - s), rs') ∧
      ServesAll rs' (shardsOf T (A ++ (L ++ t :: (M ++ u :: R)) :: C)) := by
  have hsub : ∀ g ∈ A ++ (L ++ t :: (M ++ u :: R)) :: C, InOrder T g :=
    fun g hg => ho.sub hT hnl (List.sublist_flatten_of_mem hg)
  have hfl := ho.order
  rw [List.pairwise_flatten, List.pairwise_append, List.pairwise_cons] at hfl
  obtain ⟨-, -, ⟨q2, -⟩, q1⟩ := hfl
  have hmem : (L ++ t :: (M ++ u :: R)) ∈ A ++ (L ++ t :: (M ++ u :: R)) :: C := by simp
  have ht : t ∈ L ++ t :: (M ++ u :: R) := by simp
  have hu : u ∈ L ++ t :: (M ++ u :: R) := by simp
  have htu : t.base + t.count T ≤ u.base := by
    have := (hsub _ hmem).order
    rw [List.pairwise_append, List.pairwise_cons] at this
    exact this.2.1.1 u (by simp)
  have hfu := (hsub _ hmem).fits u hu
  obtain ⟨h1, h2, h3, h4, h5, -, h7⟩ := group_shard hT hnl (hc _ hmem) (hsub _ hmem) rfl
  have e : L ++ t :: (M ++ u :: R) = (L ++ t :: M) ++ u :: R := by simp
  have hc' := hc _ hmem
  have ho' := hsub _ hmem
  rw [e] at hc' ho'
  obtain ⟨-, -, -, -, h5', -, h7'⟩ := group_shard hT hnl hc' ho' rfl
  rw [← e] at h7'
  obtain ⟨c, hbeg, hcp⟩ := (h7 i hi).begin h1
  have hans := answer_in hT h1 h2 hbeg (by omega) (by omega) (h7' j hj) (by omega)
  have hsum : T.addresses (groupText (L ++ t :: M)) + j + 1 =
      T.addresses (groupText L) + (t.count T + (M.map (Txn.count T)).sum + j + 1) := by
    rw [h5', h5]; simp; omega
  have hX' : t.text ++ groupText (M ++ u :: R) = X := by rw [hX]; rfl
  rw [hsum, h3, hX', ← hs, skip_append hT h4, List.drop_append] at hans
  have z : (groupText L).drop ((groupText L).length + s) = [] := by
    rw [List.drop_eq_nil_iff]; omega
  rw [z, List.nil_append, Nat.add_sub_cancel_left, Nat.add_sub_add_left] at hans
  have hall : Answers T (t.base + i) (u.base + j) (shardsOf T (A ++ (L ++ t :: (M ++ u :: R)) :: C))
      (A.map (fun _ => []) ++
        ((X.drop s).take (T.skip X (t.count T + (M.map (Txn.count T)).sum + j + 1 : Nat) - s)) ::
          C.map (fun _ => [])) := by
    unfold shardsOf
    rw [List.map_append (l₁ := A), List.map_cons]
    refine Answers.append (Answers.map ?_) (.cons hans (Answers.map ?_))
    · intro g hg
      have hgm : g ∈ A ++ (L ++ t :: (M ++ u :: R)) :: C := by simp [hg]
      apply answer_apart (by omega) (by omega)
      intro d hd
      rw [(group_total hT hnl (hc g hgm) (hsub g hgm)).1] at hd
      obtain ⟨w, hw, k⟩ := group_chunk hT hnl (hc g hgm) hd
      have := q1 g hg _ (List.mem_cons_self ..) w hw t ht
      omega
    · intro g hg
      have hgm : g ∈ A ++ (L ++ t :: (M ++ u :: R)) :: C := by simp [hg]
      apply answer_apart (by omega) (by omega)
      intro d hd
      rw [(group_total hT hnl (hc g hgm) (hsub g hgm)).1] at hd
      obtain ⟨w, hw, k⟩ := group_chunk hT hnl (hc g hgm) hd
      have := q2 g hg u hu w hw
      omega
  obtain ⟨rs', k1, k2⟩ := readAll_each hall hrs
  refine ⟨rs', ?_, k2⟩
  rw [k1]
  have e0 : ∀ l : List (List Txn), (l.map fun _ => ([] : Text)).flatten = [] := by
    intro l; induction l with
    | nil => rfl
    | cons x l ih => simp [ih]
  simp [e0]
end

end Verif.Text
