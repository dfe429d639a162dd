import Verif.Extsort.Spec
import Verif.Feature.Proof
namespace Verif.Extsort
open Verif.Store

/-- fields that fit into 64 bits -/
def Fits (a : Ann) : Prop := In64 a.feature ∧ In64 a.p ∧ In64 a.q ∧ In64 a.v

theorem encode_length (a : Ann) : (encode a).length = 32 := by
  simp [encode, addrBytes_length]

theorem decode_encode {a : Ann} (h : Fits a) : decode (encode a) = a := by
  obtain ⟨h1, h2, h3, h4⟩ := h
  have l1 := addrBytes_length a.feature
  have l2 := addrBytes_length a.p
  have l3 := addrBytes_length a.q
  have l4 := addrBytes_length a.v
  have e : encode a = addrBytes a.feature ++ (addrBytes a.p ++ (addrBytes a.q ++ addrBytes a.v)) := by
    simp [encode]
  have d8 : (encode a).drop 8 = addrBytes a.p ++ (addrBytes a.q ++ addrBytes a.v) := by rw [e]; exact List.drop_left' l1
  have d16 : (encode a).drop 16 = addrBytes a.q ++ addrBytes a.v := by
    rw [show (encode a).drop 16 = ((encode a).drop 8).drop 8 from by rw [List.drop_drop], d8]; exact List.drop_left' l2
  have d24 : (encode a).drop 24 = addrBytes a.v := by
    rw [show (encode a).drop 24 = ((encode a).drop 16).drop 8 from by rw [List.drop_drop], d16]; exact List.drop_left' l3
  unfold decode
  rw [d8, d16, d24, e, List.take_left' l1, List.take_left' l2, List.take_left' l3, List.take_of_length_le (by omega),
    bytesAddr_addrBytes h1, bytesAddr_addrBytes h2, bytesAddr_addrBytes h3, bytesAddr_addrBytes h4]

theorem bytesAddr_in {bs : Bytes} (h : bs.length ≤ 8) : In64 (bytesAddr bs) := by
  unfold bytesAddr
  refine Feature.signed64_in _ (Nat.lt_of_lt_of_le (Feature.leNat_lt bs) ?_)
  exact Nat.le_trans (Nat.pow_le_pow_right (by decide) h) (by decide)

theorem decode_fits (bs : Bytes) : Fits (decode bs) :=
  ⟨bytesAddr_in (by simp; omega), bytesAddr_in (by simp; omega), bytesAddr_in (by simp; omega), bytesAddr_in (by simp; omega)⟩

theorem records_fits (bs : Bytes) : ∀ a ∈ records bs, Fits a := by
  induction bs using records.induct with
  | case1 bs h => rw [records, dif_pos h]; simp
  | case2 bs h ih =>
    rw [records, dif_neg h]
    intro a ha
    rcases List.mem_cons.mp ha with e | e
    · rw [e]; exact decode_fits _
    · exact ih a e

theorem records_write {l : List Ann} (h : ∀ a ∈ l, Fits a) : records (write l) = l := by
  induction l with
  | nil => rw [records]; simp [write]
  | cons a l ih =>
    have e : write (a :: l) = encode a ++ write l := by simp [write]
    rw [e, records, dif_neg (by simp [encode_length]), List.take_left' (encode_length a), List.drop_left' (encode_length a),
      decode_encode (h a (by simp)), ih fun b hb => h b (by simp [hb])]

theorem merge_perm (l m : List Ann) : (merge l m).Perm (l ++ m) := by
  induction l, m using merge.induct with
  | case1 m => simp [merge]
  | case2 l h => cases l with
    | nil => exact absurd rfl h
    | cons a l => simp [merge]
  | case3 a l b m hc ih =>
    rw [merge, if_pos hc]
    exact ih.cons a
  | case4 a l b m hc ih =>
    rw [merge, if_neg hc]
    exact (ih.cons b).trans List.perm_middle.symm

def before (a b : Ann) : Prop := a.feature < b.feature ∨ (a.feature = b.feature ∧ a.p ≤ b.p)

theorem before_trans {a b c : Ann} (h : before a b) (h' : before b c) : before a c := by
  unfold before at *; omega

theorem cmp_before {a b : Ann} (h : cmp a b = true) : before a b := by
  simp only [cmp, Bool.or_eq_true, Bool.and_eq_true, decide_eq_true_eq] at h
  unfold before; omega

theorem not_cmp_before {a b : Ann} (h : ¬ cmp a b = true) : before b a := by
  simp only [cmp, Bool.or_eq_true, Bool.and_eq_true, decide_eq_true_eq] at h
  unfold before; omega

theorem merge_ordered (l m : List Ann) : Ordered l → Ordered m → Ordered (merge l m) := by
  induction l, m using merge.induct with
  | case1 m => intro _ h; simpa [merge] using h
  | case2 l h => cases l with
    | nil => exact absurd rfl h
    | cons a l => intro h _; simpa [merge] using h
  | case3 a l b m hc ih =>
    intro h1 h2
    rw [merge, if_pos hc]
    have h1' := List.pairwise_cons.mp h1
    have h2' := List.pairwise_cons.mp h2
    refine List.pairwise_cons.mpr ⟨fun c hcm => ?_, ih h1'.2 h2⟩
    have := (merge_perm l (b :: m)).mem_iff.mp hcm
    rcases List.mem_append.mp this with e | e
    · exact h1'.1 c e
    · rcases List.mem_cons.mp e with e | e
      · subst e; exact cmp_before hc
      · exact before_trans (cmp_before hc) (h2'.1 c e)
  | case4 a l b m hc ih =>
    intro h1 h2
    rw [merge, if_neg hc]
    have h1' := List.pairwise_cons.mp h1
    have h2' := List.pairwise_cons.mp h2
    refine List.pairwise_cons.mpr ⟨fun c hcm => ?_, ih h1 h2'.2⟩
    have := (merge_perm (a :: l) m).mem_iff.mp hcm
    rcases List.mem_append.mp this with e | e
    · rcases List.mem_cons.mp e with e | e
      · subst e; exact not_cmp_before hc
      · exact before_trans (not_cmp_before hc) (h1'.1 c e)
    · exact h2'.1 c e

/-- the files beside those made since -/
def Beside (w0 w : World) : Prop := w0.next ≤ w.next ∧ ∀ n, (∀ k, w0.next ≤ k → n ≠ .temp k) → w.files n = w0.files n

/-- what a file says -/
def says (w : World) (n : Name) : List Ann := match w.files n with | some bs => records bs | none => []

/-- The files of the queue are sorted and together have the annotations; all other files made since are gone. -/
structure Queue (w0 w : World) (q : List Name) (S : List Ann) : Prop where
  beside : Beside w0 w
  sorted : ∀ n ∈ q, ∃ l, w.files n = some (write l) ∧ Ordered l ∧ ∀ a ∈ l, Fits a
  made : ∀ n ∈ q, ∃ k, n = .temp k ∧ w0.next ≤ k ∧ k < w.next
  nodup : q.Nodup
  all : (q.flatMap (says w)).Perm S
  gone : ∀ k, w0.next ≤ k → k < w.next → .temp k ∉ q → w.files (.temp k) = none
  later : ∀ k, w.next ≤ k → w.files (.temp k) = w0.files (.temp k)

theorem set_self (w : World) (n : Name) (c : Option Bytes) : (w.set n c).files n = c := by simp [World.set]
theorem set_other {w : World} {n m : Name} (h : m ≠ n) (c : Option Bytes) : (w.set n c).files m = w.files m := by simp [World.set, h]

theorem put_next (E : Env) (w : World) (k : Nat) (bs : Bytes) : (put E w k bs).1.next = w.next := by
  unfold put; split <;> rfl

theorem put_other (E : Env) (w : World) (k : Nat) (bs : Bytes) {n : Name} (h : n ≠ .temp k) :
    (put E w k bs).1.files n = w.files n := by
  unfold put; split <;> exact set_other h _

/-- every failure to write is noticed -/
def Noticing (E : Env) : Prop := ∀ k n, E.disk k ≠ .unnoticed n

theorem put_true {E : Env} (hE : Noticing E) {w : World} {k : Nat} {bs : Bytes} (h : (put E w k bs).2 = true) :
    (put E w k bs).1.files (.temp k) = some bs := by
  unfold put at *
  split at h
  · exact set_self ..
  · cases h
  · rename_i n e; exact absurd e (hE k n)

theorem beside_put {E : Env} {w0 w : World} (h : Beside w0 w) (bs : Bytes) :
    Beside w0 (put E { w with next := w.next + 1 } w.next bs).1 := by
  refine ⟨by rw [put_next]; exact Nat.le_succ_of_le h.1, fun n hn => ?_⟩
  rw [put_other _ _ _ _ (hn w.next h.1)]
  exact h.2 n hn

theorem says_congr {w w' : World} {n : Name} (h : w'.files n = w.files n) : says w' n = says w n := by
  unfold says; rw [h]

theorem flatMap_says_congr {w w' : World} {q : List Name} (h : ∀ n ∈ q, w'.files n = w.files n) :
    q.flatMap (says w') = q.flatMap (says w) := by
  induction q with
  | nil => rfl
  | cons n q ih =>
    rw [List.flatMap_cons, List.flatMap_cons, says_congr (h n (by simp)), ih fun m hm => h m (by simp [hm])]

/-- a new file at the end of the queue -/
theorem queue_put {E : Env} (hE : Noticing E) {w0 w : World} {q : List Name} {S : List Ann} (hq : Queue w0 w q S) {l : List Ann}
    (hl : Ordered l) (hf : ∀ a ∈ l, Fits a) (h : (put E { w with next := w.next + 1 } w.next (write l)).2 = true) :
    Queue w0 (put E { w with next := w.next + 1 } w.next (write l)).1 (q ++ [.temp w.next]) (S ++ l) := by
  have hnew := put_true hE h
  have hold : ∀ n, n ≠ .temp w.next → (put E { w with next := w.next + 1 } w.next (write l)).1.files n = w.files n :=
    fun n hn => put_other _ _ _ _ hn
  have hnext : (put E { w with next := w.next + 1 } w.next (write l)).1.next = w.next + 1 := put_next ..
  have hnq : ∀ n ∈ q, n ≠ .temp w.next := by
    intro n hn e
    obtain ⟨k, hk, _, hk2⟩ := hq.made n hn
    rw [hk] at e
    injection e with e
    omega
  have hb := beside_put (E := E) hq.beside (write l)
  generalize (put E { w with next := w.next + 1 } w.next (write l)).1 = w' at *
  refine ⟨hb, ?_, ?_, ?_, ?_, ?_, ?_⟩
  · intro n hn
    rcases List.mem_append.mp hn with e | e
    · rw [hold n (hnq n e)]; exact hq.sorted n e
    · rw [List.mem_singleton] at e; subst e; exact ⟨l, hnew, hl, hf⟩
  · intro n hn
    rcases List.mem_append.mp hn with e | e
    · obtain ⟨k, h1, h2, h3⟩ := hq.made n e
      exact ⟨k, h1, h2, by omega⟩
    · rw [List.mem_singleton] at e; exact ⟨w.next, e, hq.beside.1, by omega⟩
  · rw [List.nodup_append]
    refine ⟨hq.nodup, by simp, ?_⟩
    intro a ha b hb e
    rw [List.mem_singleton] at hb
    exact hnq a ha (e.trans hb)
  · rw [List.flatMap_append, flatMap_says_congr fun n hn => hold n (hnq n hn)]
    refine List.Perm.append hq.all ?_
    simp only [List.flatMap_cons, List.flatMap_nil, List.append_nil, says, hnew]
    rw [records_write hf]
  · intro k h1 h2 h3
    have h4 : k ≠ w.next := by
      rintro rfl; exact h3 (by simp)
    rw [hold _ (by intro e; injection e with e; exact h4 e)]
    exact hq.gone k h1 (by omega) fun e => h3 (by simp [e])
  · intro k h1
    rw [hold _ (by intro e; injection e with e; omega)]
    exact hq.later k (by omega)

theorem fits_sort {E : Env} (hs : Sorts E) {l : List Ann} (h : ∀ a ∈ l, Fits a) : ∀ a ∈ E.sort l, Fits a :=
  fun a ha => h a ((hs l).1.mem_iff.mp ha)

theorem beside_refl (w : World) : Beside w w := ⟨Nat.le_refl _, fun _ _ => rfl⟩

theorem runs_ok {E : Env} (hE : Noticing E) (hs : Sorts E) {w0 : World} (l : List Ann) : ∀ (ts : List Ann) (q : List Name) (w : World) (S : List Ann),
    Queue w0 w q S → (∀ a ∈ ts, Fits a) → (∀ a ∈ l, Fits a) →
    Beside w0 (runs E l ts q w).1 ∧ ∀ q', (runs E l ts q w).2 = some q' → ∃ S', S'.Perm (S ++ (ts ++ l)) ∧ Queue w0 (runs E l ts q w).1 q' S' := by
  induction l with
  | nil =>
    intro ts q w S hq hts _
    rw [runs]
    split
    · refine ⟨beside_put hq.beside _, ?_⟩
      intro q' e
      unfold flush at e ⊢
      dsimp only at e ⊢
      split at e
      · rename_i ht
        injection e with e
        subst e
        exact ⟨_, List.Perm.append_left S ((hs ts).1.trans (by simp)), queue_put hE hq (hs ts).2 (fits_sort hs hts) ht⟩
      · cases e
    · rename_i h0
      have h0 : ts = [] := by cases ts with | nil => rfl | cons a ts => simp at h0
      refine ⟨hq.beside, ?_⟩
      intro q' e
      injection e with e
      subst e; subst h0
      exact ⟨S, by simp, hq⟩
  | cons a l ih =>
    intro ts q w S hq hts hl
    have hts' : ∀ b ∈ ts ++ [a], Fits b := by
      intro b hb
      rcases List.mem_append.mp hb with e | e
      · exact hts b e
      · rw [List.mem_singleton] at e; exact hl b (by simp [e])
    rw [runs]
    split
    · unfold flush
      dsimp only
      by_cases ht : (put E { w with next := w.next + 1 } w.next (write (E.sort (ts ++ [a])))).2 = true
      · rw [if_pos ht]
        dsimp only
        have hq' := queue_put hE hq (hs (ts ++ [a])).2 (fits_sort hs hts') ht
        obtain ⟨h1, h2⟩ := ih [] _ _ _ hq' (by simp) fun b hb => hl b (by simp [hb])
        refine ⟨h1, fun q' e => ?_⟩
        obtain ⟨S', h3, h4⟩ := h2 q' e
        refine ⟨S', h3.trans ?_, h4⟩
        rw [List.append_assoc, List.nil_append]
        refine List.Perm.append_left S ?_
        exact (List.Perm.append_right l (hs (ts ++ [a])).1).trans (by simp)
      · rw [if_neg ht]
        exact ⟨beside_put hq.beside _, by intro q' e; cases e⟩
    · obtain ⟨h1, h2⟩ := ih (ts ++ [a]) q w S hq hts' fun b hb => hl b (by simp [hb])
      refine ⟨h1, fun q' e => ?_⟩
      obtain ⟨S', h3, h4⟩ := h2 q' e
      exact ⟨S', by simpa using h3, h4⟩

/-- two files at the front of the queue become one at its end -/
theorem queue_merge {E : Env} (hE : Noticing E) {w0 w : World} {n0 n1 : Name} {q : List Name} {S : List Ann}
    (hq : Queue w0 w (n0 :: n1 :: q) S) :
    Beside w0 (mergeFiles E { w with next := w.next + 1 } n0 n1 w.next).1 ∧
    ((mergeFiles E { w with next := w.next + 1 } n0 n1 w.next).2 = true →
      ∃ S', S'.Perm S ∧ Queue w0 (((mergeFiles E { w with next := w.next + 1 } n0 n1 w.next).1.set n0 none).set n1 none)
        (q ++ [.temp w.next]) S') := by
  obtain ⟨l0, f0, o0, i0⟩ := hq.sorted n0 (by simp)
  obtain ⟨l1, f1, o1, i1⟩ := hq.sorted n1 (by simp)
  have e : mergeFiles E { w with next := w.next + 1 } n0 n1 w.next
      = put E { w with next := w.next + 1 } w.next (write (merge l0 l1)) := by
    unfold mergeFiles
    simp only [f0, f1]
    rw [records_write i0, records_write i1]
  rw [e]
  refine ⟨beside_put hq.beside _, fun ht => ?_⟩
  have hperm := merge_perm l0 l1
  have hfm : ∀ a ∈ merge l0 l1, Fits a := by
    intro a ha
    rcases List.mem_append.mp (hperm.mem_iff.mp ha) with h | h
    · exact i0 a h
    · exact i1 a h
  have hp := queue_put hE hq (merge_ordered l0 l1 o0 o1) hfm ht
  have hbefore : ∀ n ∈ n0 :: n1 :: q, n ≠ .temp w.next := by
    intro n hn e
    obtain ⟨k, hk, _, hk2⟩ := hq.made n hn
    rw [hk] at e
    injection e with e
    omega
  have h01 : n0 ≠ n1 := by
    have := List.nodup_cons.mp hq.nodup
    intro e; exact this.1 (by simp [e])
  have h0q : n0 ∉ q := by
    have := List.nodup_cons.mp hq.nodup
    intro e; exact this.1 (by simp [e])
  have h1q : n1 ∉ q := (List.nodup_cons.mp (List.nodup_cons.mp hq.nodup).2).1
  obtain ⟨k0, e0, a0, b0⟩ := hq.made n0 (by simp)
  obtain ⟨k1, e1, a1, b1⟩ := hq.made n1 (by simp)
  have hq0 := put_other E { w with next := w.next + 1 } w.next (write (merge l0 l1)) (hbefore n0 (by simp))
  have hq1 := put_other E { w with next := w.next + 1 } w.next (write (merge l0 l1)) (hbefore n1 (by simp))
  have hnext : (put E { w with next := w.next + 1 } w.next (write (merge l0 l1))).1.next = w.next + 1 := put_next ..
  have t0 : Name.temp w.next ≠ n0 := fun e => hbefore n0 (by simp) e.symm
  have t1 : Name.temp w.next ≠ n1 := fun e => hbefore n1 (by simp) e.symm
  generalize (put E { w with next := w.next + 1 } w.next (write (merge l0 l1))).1 = w' at *
  have same : ∀ n, n ≠ n0 → n ≠ n1 → ((w'.set n0 none).set n1 none).files n = w'.files n := fun n h h' => by
    rw [set_other h', set_other h]
  have inq : ∀ n ∈ q ++ [Name.temp w.next], n ≠ n0 ∧ n ≠ n1 := by
    intro n hn
    rcases List.mem_append.mp hn with h | h
    · exact ⟨fun e => h0q (e ▸ h), fun e => h1q (e ▸ h)⟩
    · rw [List.mem_singleton] at h; rw [h]; exact ⟨t0, t1⟩
  refine ⟨(q ++ [Name.temp w.next]).flatMap (says ((w'.set n0 none).set n1 none)), ?_, ?_⟩
  · rw [flatMap_says_congr fun n hn => same n (inq n hn).1 (inq n hn).2]
    have hall := hp.all
    rw [List.cons_append, List.cons_append, List.flatMap_cons, List.flatMap_cons] at hall
    have s0 : says w' n0 = l0 := by rw [says_congr hq0]; unfold says; rw [show ({ w with next := w.next + 1 } : World).files n0 = _ from f0]; exact records_write i0
    have s1 : says w' n1 = l1 := by rw [says_congr hq1]; unfold says; rw [show ({ w with next := w.next + 1 } : World).files n1 = _ from f1]; exact records_write i1
    rw [s0, s1, ← List.append_assoc] at hall
    have h2 : (l0 ++ l1 ++ (q ++ [Name.temp w.next]).flatMap (says w')).Perm ((l0 ++ l1) ++ S) :=
      hall.trans ((List.Perm.append_left S hperm).trans List.perm_append_comm)
    exact (List.perm_append_left_iff _).mp h2
  · refine ⟨⟨hp.beside.1, ?_⟩, ?_, ?_, ?_, List.Perm.refl _, ?_, ?_⟩
    · intro n hn
      rw [same n (by rw [e0]; exact hn k0 a0) (by rw [e1]; exact hn k1 a1)]
      exact hp.beside.2 n hn
    · intro n hn
      rw [same n (inq n hn).1 (inq n hn).2]
      exact hp.sorted n (by simp at hn ⊢; rcases hn with h | h <;> simp [h])
    · intro n hn
      exact hp.made n (by simp at hn ⊢; rcases hn with h | h <;> simp [h])
    · have := hp.nodup
      rw [List.cons_append, List.cons_append] at this
      exact (List.nodup_cons.mp (List.nodup_cons.mp this).2).2
    · intro k h1 h2 h3
      by_cases hk0 : Name.temp k = n1
      · rw [hk0, set_self]
      · rw [set_other hk0]
        by_cases hk1 : Name.temp k = n0
        · rw [hk1, set_self]
        · rw [set_other hk1]
          refine hp.gone k h1 h2 ?_
          rw [List.cons_append, List.cons_append, List.mem_cons, List.mem_cons]
          rintro (h | h | h)
          · exact hk1 h
          · exact hk0 h
          · exact h3 h
    · intro k h1
      have h1' : w'.next ≤ k := h1
      rw [same _ (by rw [e0]; intro e; injection e with e; omega) (by rw [e1]; intro e; injection e with e; omega)]
      exact hp.later k h1'

theorem drain_ok {E : Env} (hE : Noticing E) {w0 : World} : ∀ (q : List Name) (w : World) (S : List Ann), Queue w0 w q S →
    Beside w0 (drain E q w).1 ∧ ∀ out, (drain E q w).2 = some out →
      (q = [] ∧ (drain E q w).1 = w ∧ out = .path []) ∨ ∃ S', S'.Perm S ∧ Queue w0 (drain E q w).1 [out] S' := by
  intro q w
  induction q, w using drain.induct (E := E) with
  | case1 w =>
    intro S hq
    rw [drain]
    exact ⟨hq.beside, fun out e => .inl ⟨rfl, rfl, (Option.some.inj e).symm⟩⟩
  | case2 w n =>
    intro S hq
    rw [drain]
    refine ⟨hq.beside, fun out e => .inr ⟨S, .refl _, ?_⟩⟩
    rw [← Option.some.inj e]; exact hq
  | case3 w n0 n1 q w' hm ih =>
    intro S hq
    obtain ⟨h1, h2⟩ := queue_merge hE hq
    rw [hm] at h1 h2
    obtain ⟨S', h3, h4⟩ := h2 rfl
    obtain ⟨h5, h6⟩ := ih S' h4
    rw [drain, hm]
    refine ⟨h5, fun out e => ?_⟩
    rcases h6 out e with ⟨h7, _⟩ | ⟨S'', h7, h8⟩
    · simp at h7
    · exact .inr ⟨S'', h7.trans h3, h8⟩
  | case4 w n0 n1 q w' hm =>
    intro S hq
    obtain ⟨h1, _⟩ := queue_merge hE hq
    rw [hm] at h1
    rw [drain, hm]
    exact ⟨h1, fun out e => by cases e⟩

theorem queue_start (w : World) : Queue w w [] [] :=
  ⟨beside_refl w, by simp, by simp, by simp, by simp, fun k h1 h2 => by omega, fun _ _ => rfl⟩

/-- with a good disk every step succeeds -/
theorem flush_good {E : Env} (h : ∀ k, E.disk k = .good) (w : World) (ts : List Ann) (q : List Name) : (flush E w ts q).2.isSome := by
  unfold flush put
  rw [h]
  rfl

theorem runs_good {E : Env} (h : ∀ k, E.disk k = .good) (l : List Ann) : ∀ ts q w, (runs E l ts q w).2.isSome := by
  induction l with
  | nil =>
    intro ts q w
    rw [runs]
    split
    · exact flush_good h ..
    · rfl
  | cons a l ih =>
    intro ts q w
    rw [runs]
    split
    · have := flush_good h w (ts ++ [a]) q
      split
      · rename_i e; rw [e] at this; cases this
      · exact ih ..
    · exact ih ..

theorem drain_good {E : Env} (h : ∀ k, E.disk k = .good) {w0 : World} (hE : Noticing E) : ∀ (q : List Name) (w : World) (S : List Ann),
    Queue w0 w q S → (drain E q w).2.isSome := by
  intro q w
  induction q, w using drain.induct (E := E) with
  | case1 w => intro S hq; rw [drain]; rfl
  | case2 w n => intro S hq; rw [drain]; rfl
  | case3 w n0 n1 q w' hm ih =>
    intro S hq
    have h2 := (queue_merge hE hq).2
    rw [hm] at h2
    obtain ⟨S', h3, h4⟩ := h2 rfl
    rw [drain, hm]
    exact ih S' h4
  | case4 n0 n1 q w w' hm =>
    intro S hq
    obtain ⟨l0, f0, _⟩ := hq.sorted n0 (by simp)
    obtain ⟨l1, f1, _⟩ := hq.sorted n1 (by simp)
    unfold mergeFiles at hm
    simp only [f0, f1, put, h] at hm
    cases hm

theorem checkFrom_iff (l : List Ann) : ∀ a, checkFrom a l = true ↔
    (∀ b ∈ l, b.p ≤ b.q) ∧ (a :: l).Pairwise fun a b => a.feature < b.feature ∨ (a.feature = b.feature ∧ a.p < b.p ∧ a.q < b.q) := by
  induction l with
  | nil => intro a; simp [checkFrom]
  | cons b l ih =>
    intro a
    rw [checkFrom]
    constructor
    · intro h
      split at h
      · rename_i hc
        obtain ⟨h1, h2⟩ := (ih b).mp h
        refine ⟨?_, List.pairwise_cons.mpr ⟨?_, h2⟩⟩
        · intro c hc'
          rcases List.mem_cons.mp hc' with e | e
          · rw [e]; exact hc.1
          · exact h1 c e
        · intro c hc'
          rcases List.mem_cons.mp hc' with e | e
          · rw [e]; exact hc.2
          · have h3 := (List.pairwise_cons.mp h2).1 c e
            have h4 := hc.2
            omega
      · cases h
    · rintro ⟨h1, h2⟩
      obtain ⟨h3, h4⟩ := List.pairwise_cons.mp h2
      rw [if_pos ⟨h1 b (by simp), h3 b (by simp)⟩]
      exact (ih b).mpr ⟨fun c hc => h1 c (by simp [hc]), h4⟩

/-- what the check accepts -/
def accepts (l : List Ann) : Bool := match l with | [] => true | a :: l => if a.p ≤ a.q then checkFrom a l else false

theorem accepts_iff (l : List Ann) : accepts l = true ↔
    (∀ b ∈ l, b.p ≤ b.q) ∧ l.Pairwise fun a b => a.feature < b.feature ∨ (a.feature = b.feature ∧ a.p < b.p ∧ a.q < b.q) := by
  cases l with
  | nil => simp [accepts]
  | cons a l =>
    unfold accepts
    dsimp only
    constructor
    · intro h
      split at h
      · rename_i hp
        obtain ⟨h1, h2⟩ := (checkFrom_iff l a).mp h
        refine ⟨fun b hb => ?_, h2⟩
        rcases List.mem_cons.mp hb with e | e
        · rw [e]; exact hp
        · exact h1 b e
      · cases h
    · rintro ⟨h1, h2⟩
      rw [if_pos (h1 a (by simp))]
      exact (checkFrom_iff l a).mpr ⟨fun b hb => h1 b (by simp [hb]), h2⟩

theorem apart_symm {a b : Ann} (h : Apart a b) : Apart b a := by
  unfold Apart at *; intro e; have := h e.symm; omega

/-- A sorted list is accepted when its annotations are legal. -/
theorem accepts_sorted {l : List Ann} (h : Ordered l) : accepts l = true ↔ Legal l := by
  rw [accepts_iff]
  unfold Legal
  refine and_congr_right fun hp => ?_
  constructor
  · intro h1
    refine h1.imp ?_
    intro a b hab e
    omega
  · intro h1
    refine (h.and h1).imp ?_
    rintro a b ⟨h2, h3⟩
    rcases h2 with h2 | ⟨h2, h4⟩
    · exact .inl h2
    · have := h3 h2
      omega

theorem legal_perm {l m : List Ann} (h : l.Perm m) : Legal l ↔ Legal m := by
  unfold Legal
  refine and_congr ⟨fun hl a ha => hl a (h.mem_iff.mpr ha), fun hm a ha => hm a (h.mem_iff.mp ha)⟩ ?_
  exact h.pairwise_iff apart_symm

end Verif.Extsort
