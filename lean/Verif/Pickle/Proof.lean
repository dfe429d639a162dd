import Verif.Pickle.Model
import Verif.Store.PostingProof
/-
  What is read back from the file of a dynamic shard.
-/
namespace Verif.Pickle
open Verif.Hopper Verif.Store

/-! ### the map -/

/-- ascending keys -/
abbrev Ascends (m : Map) : Prop := m.Pairwise fun x y => x.1 < y.1

theorem put_mem {f : Int} {P : Posting} : ∀ {m : Map} {x : Int × Posting}, x ∈ put f P m → x = (f, P) ∨ x ∈ m := by
  intro m
  induction m with
  | nil => intro x hx; simp [put] at hx; exact .inl hx
  | cons y m ih =>
    intro x hx
    obtain ⟨g, Q⟩ := y
    rw [put] at hx
    split at hx
    · rcases List.mem_cons.1 hx with h | h
      · exact .inl h
      · exact .inr h
    · split at hx
      · rcases List.mem_cons.1 hx with h | h
        · exact .inl h
        · exact .inr (List.mem_cons_of_mem _ h)
      · rcases List.mem_cons.1 hx with h | h
        · exact .inr (by rw [h]; simp)
        · rcases ih h with h | h
          · exact .inl h
          · exact .inr (List.mem_cons_of_mem _ h)

theorem put_ascends {f : Int} {P : Posting} : ∀ {m : Map}, Ascends m → Ascends (put f P m) := by
  intro m
  induction m with
  | nil => intro _; simp [put]
  | cons y m ih =>
    intro h
    obtain ⟨g, Q⟩ := y
    obtain ⟨h1, h2⟩ := List.pairwise_cons.1 h
    rw [put]
    split
    · refine List.pairwise_cons.2 ⟨?_, h⟩
      intro x hx
      rcases List.mem_cons.1 hx with rfl | hx
      · assumption
      · have := h1 x hx; simp only at this ⊢; omega
    · split
      · rename_i hfg
        subst hfg
        exact List.pairwise_cons.2 ⟨h1, h2⟩
      · refine List.pairwise_cons.2 ⟨?_, ih h2⟩
        intro x hx
        rcases put_mem hx with rfl | hx
        · simp only; omega
        · exact h1 x hx

theorem find_none {f : Int} {m : Map} (h : ∀ x ∈ m, f < x.1) : find m f = none := by
  rw [find, Option.map_eq_none_iff, List.find?_eq_none]
  intro x hx
  have := h x hx
  simp only [beq_iff_eq]; omega

theorem find_cons (x : Int × Posting) (m : Map) (f : Int) :
    find (x :: m) f = if x.1 = f then some x.2 else find m f := by
  unfold find
  rw [List.find?_cons]
  by_cases h : x.1 = f
  · simp [h]
  · simp [h, beq_eq_false_iff_ne.2 h]

theorem put_find {f : Int} {P : Posting} : ∀ {m : Map}, Ascends m → find (put f P m) = (find m).set f P := by
  intro m
  induction m with
  | nil => intro _; funext g; rw [put, find_cons]; simp only [Index.set, eq_comm]
  | cons y m ih =>
    intro h
    obtain ⟨g, Q⟩ := y
    obtain ⟨_, h2⟩ := List.pairwise_cons.1 h
    funext k
    rw [put]
    split
    · rw [find_cons]; simp only [Index.set, eq_comm]
    · split
      · rename_i hfg
        subst hfg
        rw [find_cons]
        simp only [Index.set, eq_comm]
        split
        · rfl
        · rw [find_cons, if_neg (by simp only; omega)]
      · rw [find_cons, ih h2]
        simp only [Index.set]
        by_cases hk : k = f
        · subst hk
          rw [if_neg (by omega), if_pos rfl, if_pos rfl]
        · rw [if_neg hk, if_neg hk, find_cons]

/-- a key after all others goes to the end -/
theorem put_last {f : Int} {P : Posting} : ∀ {m : Map}, (∀ x ∈ m, x.1 < f) → put f P m = m ++ [(f, P)] := by
  intro m
  induction m with
  | nil => intro _; rfl
  | cons y m ih =>
    intro h
    obtain ⟨g, Q⟩ := y
    have := h (g, Q) (List.mem_cons_self ..)
    simp only at this
    rw [put, if_neg (by omega), if_neg (by omega), ih fun x hx => h x (List.mem_cons_of_mem _ hx)]
    rfl

theorem find_mem {m : Map} {f : Int} {P : Posting} (h : find m f = some P) : (f, P) ∈ m := by
  rw [find, Option.map_eq_some_iff] at h
  obtain ⟨⟨g, Q⟩, h1, rfl⟩ := h
  have h2 := List.find?_some h1
  simp only [beq_iff_eq] at h2
  subst h2
  exact List.mem_of_find?_eq_some h1

theorem mem_find : ∀ {m : Map}, Ascends m → ∀ {f : Int} {P : Posting}, (f, P) ∈ m → find m f = some P := by
  intro m
  induction m with
  | nil => intro _ f P h; cases h
  | cons y m ih =>
    intro h f P hm
    obtain ⟨h1, h2⟩ := List.pairwise_cons.1 h
    rw [find_cons]
    rcases List.mem_cons.1 hm with rfl | hm
    · simp
    · have := h1 _ hm
      rw [if_neg (by simp only at this; omega)]
      exact ih h2 hm

/-- the map and the function of `Store.buildIndex` are the same -/
theorem build_find : ∀ (n : Nat) (m : Map) (l : List (Int × Ann)), Ascends m →
    Ascends (build n m l) ∧ find (build n m l) = buildIndex n (find m) l := by
  intro n
  induction n with
  | zero => intro m l h; exact ⟨h, rfl⟩
  | succ n ih =>
    intro m l h
    rw [build, buildIndex]
    split
    · rename_i hf; rw [hf]; exact ⟨h, rfl⟩
    · rename_i P rest hf
      rw [hf]
      obtain ⟨h1, h2⟩ := ih (put P.feature P m) rest (put_ascends h)
      refine ⟨h1, ?_⟩
      rw [h2, put_find h]

theorem mapOf_find (l : List (Int × Ann)) : Ascends (mapOf l) ∧ find (mapOf l) = indexOf l :=
  build_find l.length [] l List.Pairwise.nil

/-! ### reading a posting -/

theorem readN_more {n : Nat} {s a r : List UInt8} (h : readN n s = some (a, r)) (t : List UInt8) :
    readN n (s ++ t) = some (a, r ++ t) := by
  rw [readN] at h ⊢
  split at h
  · rename_i hn
    cases h
    rw [if_pos (by simp; omega), List.take_append_of_le_length hn, List.drop_append_of_le_length hn]
  · cases h

/-- `read` of exactly what comes next -/
theorem readN_front {b : List UInt8} {n : Nat} (h : b.length = n) (r : List UInt8) :
    readN n (b ++ r) = some (b, r) := by
  subst h
  rw [readN, if_pos (by simp), List.take_left, List.drop_left]

theorem readFile_more {pc fc : Codec} {s r : List UInt8} {P : Posting} (h : readFile pc fc s = some (P, r))
    (t : List UInt8) : readFile pc fc (s ++ t) = some (P, r ++ t) := by
  unfold readFile at h ⊢
  simp only [Option.bind_eq_bind, Option.pure_def] at h ⊢
  obtain ⟨⟨hd, s1⟩, e1, h⟩ := Option.bind_eq_some_iff.1 h
  rw [readN_more e1 t, Option.bind_some]
  simp only at h ⊢
  split at h
  · rename_i f n pst qst fst heq
    split at h
    · rename_i hn
      rw [if_pos hn]
      cases h; rfl
    · rename_i hn
      rw [if_neg hn]
      obtain ⟨⟨pz, s2⟩, e2, h⟩ := Option.bind_eq_some_iff.1 h
      rw [readN_more e2 t, Option.bind_some]
      simp only at h ⊢
      obtain ⟨ps, e3, h⟩ := Option.bind_eq_some_iff.1 h
      rw [e3, Option.bind_some]
      obtain ⟨⟨qs, s3⟩, e4, h⟩ := Option.bind_eq_some_iff.1 h
      have e4' : (if qst > 0 then (readN qst.toNat (s2 ++ t)).bind fun x =>
          (tangArray pc x.1 n.toNat).bind fun qs => some (qs, x.2) else some ([], s2 ++ t)) =
          some (qs, s3 ++ t) := by
        split at e4
        · rename_i hq
          rw [if_pos hq]
          obtain ⟨⟨qz, s4⟩, e5, e4⟩ := Option.bind_eq_some_iff.1 e4
          rw [readN_more e5 t, Option.bind_some]
          simp only at e4 ⊢
          obtain ⟨q', e6, e4⟩ := Option.bind_eq_some_iff.1 e4
          rw [e6, Option.bind_some]
          cases e4; rfl
        · rename_i hq
          rw [if_neg hq]
          cases e4; rfl
      rw [e4', Option.bind_some]
      simp only at h ⊢
      obtain ⟨⟨fs, s5⟩, e7, h⟩ := Option.bind_eq_some_iff.1 h
      have e7' : (if fst > 0 then (readN fst.toNat (s3 ++ t)).bind fun x =>
          (tangArray fc x.1 n.toNat).bind fun qs => some (qs, x.2) else some ([], s3 ++ t)) =
          some (fs, s5 ++ t) := by
        split at e7
        · rename_i hq
          rw [if_pos hq]
          obtain ⟨⟨qz, s4⟩, e5, e4⟩ := Option.bind_eq_some_iff.1 e7
          rw [readN_more e5 t, Option.bind_some]
          simp only at e4 ⊢
          obtain ⟨q', e6, e4⟩ := Option.bind_eq_some_iff.1 e4
          rw [e6, Option.bind_some]
          cases e4; rfl
        · rename_i hq
          rw [if_neg hq]
          cases e7; rfl
      rw [e7', Option.bind_some]
      simp only at h ⊢
      cases h; rfl
  · cases h

theorem write_long {pc fc : Codec} {P : Posting} {b : List UInt8} (h : P.write pc fc = some b) : 40 ≤ b.length := by
  unfold Posting.write at h
  simp only [Option.bind_eq_bind, Option.pure_def] at h
  split at h
  · have e := Option.some.inj h
    rw [← e, addrsBytes_length]; simp
  · obtain ⟨pz, _, h⟩ := Option.bind_eq_some_iff.1 h
    obtain ⟨qz, _, h⟩ := Option.bind_eq_some_iff.1 h
    obtain ⟨fz, _, h⟩ := Option.bind_eq_some_iff.1 h
    have e := Option.some.inj h
    rw [← e]
    simp only [List.length_append, addrsBytes_length, List.length_cons, List.length_nil]
    omega

/-! ### the postings of a file -/

/-- the bytes of each posting -/
inductive Written (pc fc : Codec) : Map → List (List UInt8) → Prop
  | nil : Written pc fc [] []
  | cons {f : Int} {P : Posting} {b : List UInt8} {l : Map} {bs : List (List UInt8)} :
      P.write pc fc = some b → (∀ rest, readFile pc fc (b ++ rest) = some (P, rest)) → P.feature = f →
      Written pc fc l bs → Written pc fc ((f, P) :: l) (b :: bs)

theorem written {pc fc : Codec} : ∀ {l : Map}, (∀ x ∈ l, Storable pc fc x.2) → (∀ x ∈ l, x.2.feature = x.1) →
    ∃ bs, Written pc fc l bs := by
  intro l
  induction l with
  | nil => intro _ _; exact ⟨[], .nil⟩
  | cons x l ih =>
    intro h1 h2
    obtain ⟨f, P⟩ := x
    obtain ⟨b, w1, w2, _⟩ := write_read (h1 (f, P) (List.mem_cons_self ..))
    obtain ⟨bs, hb⟩ := ih (fun y hy => h1 y (List.mem_cons_of_mem _ hy)) fun y hy => h2 y (List.mem_cons_of_mem _ hy)
    exact ⟨b :: bs, .cons w1 w2 (h2 (f, P) (List.mem_cons_self ..)) hb⟩

/-- a stream that has not failed holds what was written; one that has, the beginning of it -/
def Jar.Took (j : Jar) (b : List UInt8) : Prop :=
  j.bytes = b.take j.room ∧ (j.failed = false ↔ b.length ≤ j.room)

theorem Jar.took_new (room : Nat) : ({ room := room } : Jar).Took [] := ⟨by simp, by simp⟩

theorem Jar.took_write {j : Jar} {b : List UInt8} (h : j.Took b) (c : List UInt8) :
    (j.write c).Took (b ++ c) ∧ (j.write c).room = j.room := by
  obtain ⟨h1, h2⟩ := h
  unfold Jar.write
  cases hf : j.failed with
  | true =>
    rw [if_pos rfl]
    have : ¬ b.length ≤ j.room := by rw [← h2, hf]; simp
    refine ⟨⟨?_, ?_⟩, rfl⟩
    · rw [h1, List.take_append_of_le_length (by omega)]
    · rw [hf]; simp; omega
  | false =>
    rw [if_neg (by simp)]
    have hb := h2.1 hf
    rw [List.take_of_length_le hb] at h1
    rw [h1]
    split
    · rename_i hr
      refine ⟨⟨?_, ?_⟩, rfl⟩
      · rw [List.take_of_length_le (by simp; omega)]
      · simp [hf]; omega
    · rename_i hr
      refine ⟨⟨rfl, ?_⟩, rfl⟩
      simp; omega

theorem writeAll_ok {g : Gear} : ∀ {l : Map} {bs : List (List UInt8)}, Written g.posting g.fvalue l bs →
    ∀ {j : Jar} {b : List UInt8}, j.Took b →
    ∃ j', writeAll g j l = some j' ∧ j'.Took (b ++ bs.flatten) ∧ j'.room = j.room := by
  intro l bs h
  induction h with
  | nil => intro j b hj; exact ⟨j, rfl, by simpa using hj, rfl⟩
  | @cons f P c l bs w _ _ _ ih =>
    intro j b hj
    obtain ⟨h1, h2⟩ := Jar.took_write hj c
    obtain ⟨j', e1, e2, e3⟩ := ih h1
    refine ⟨j', ?_, by simpa using e2, e3.trans h2⟩
    rw [writeAll, w]
    exact e1

/-- Reading the first `k` bytes of the postings: a beginning of the list, or a posting that is
cut off. -/
theorem readAll_cut {g : Gear} : ∀ {l : Map} {bs : List (List UInt8)}, Written g.posting g.fvalue l bs →
    ∀ (n : Nat) (m : Map) (k : Nat), Ascends (m ++ l) → (bs.flatten.take k).length ≤ n →
    (readAll g n m (bs.flatten.take k) = none ∧ k < bs.flatten.length) ∨
    ∃ i ≤ l.length, readAll g n m (bs.flatten.take k) = some (m ++ l.take i) ∧
      (bs.flatten.length ≤ k → i = l.length) := by
  intro l bs h
  induction h with
  | nil =>
    intro n m k _ _
    refine .inr ⟨0, by simp, ?_, by simp⟩
    cases n <;> simp [readAll]
  | @cons f P b l bs w r hf hw ih =>
    intro n m k hs hn
    have hb := write_long w
    simp only [List.flatten_cons, List.length_append] at hn ⊢
    by_cases hk : b.length ≤ k
    · -- the posting is there
      have ek : (b ++ bs.flatten).take k = b ++ bs.flatten.take (k - b.length) := by
        rw [List.take_append, List.take_of_length_le hk]
      rw [ek] at hn ⊢
      cases n with
      | zero => simp only [List.length_append] at hn; omega
      | succ n =>
        rw [readAll, if_neg (by simp; omega), r]
        simp only
        have hlast : put P.feature P m = m ++ [(f, P)] := by
          rw [hf]
          refine put_last fun x hx => ?_
          exact (List.pairwise_append.1 hs).2.2 x hx (f, P) (List.mem_cons_self ..)
        rw [hlast]
        rcases ih n (m ++ [(f, P)]) (k - b.length) (by simpa using hs) (by
            simp only [List.length_append] at hn; omega) with ⟨h1, h2⟩ | ⟨i, h1, h2, h3⟩
        · exact .inl ⟨h1, by omega⟩
        · refine .inr ⟨i + 1, by simpa using h1, ?_, fun h => ?_⟩
          · rw [h2]; simp
          · rw [h3 (by omega)]; simp
    · -- it is cut off
      have ek : (b ++ bs.flatten).take k = b.take k := List.take_append_of_le_length (by omega)
      rw [ek] at hn ⊢
      by_cases hh : (b.take k).length < 40
      · refine .inr ⟨0, by simp, ?_, fun h => by omega⟩
        cases n with
        | zero => simp [readAll]
        | succ n => rw [readAll, if_pos hh]; simp
      · left
        refine ⟨?_, by omega⟩
        cases n with
        | zero => omega
        | succ n =>
          rw [readAll, if_neg hh]
          cases hr : readFile g.posting g.fvalue (b.take k) with
          | none => rfl
          | some x =>
            obtain ⟨Q, s⟩ := x
            exfalso
            have h1 := readFile_more hr (b.drop k)
            rw [List.take_append_drop] at h1
            have h2 := r []
            rw [List.append_nil, h1] at h2
            have h3 := congrArg Prod.snd (Option.some.inj h2)
            simp only [List.append_eq_nil_iff] at h3
            have h4 := congrArg List.length h3.2
            simp at h4
            omega

/-! ### the file -/

/-- the text compressor gives this text back -/
def Keeps (g : Gear) (t : List UInt8) : Prop :=
  ∃ z, g.text.crush t = some z ∧ z.length ≤ 9223372036854775807 ∧
    ∃ r, g.text.tang z (t.length + g.extra t.length) = some r ∧ t.length ≤ r.length ∧ r.take t.length = t

/-- what is needed for a shard to be kept in a file -/
structure Keepable (g : Gear) (S : Shard) : Prop where
  kind : g.destructive = false
  first : In64 S.first
  last : In64 S.last
  length : S.text.length ≤ 9223372036854775807
  text : Keeps g S.text
  sorted : Ascends S.index
  feature : ∀ x ∈ S.index, x.2.feature = x.1
  store : ∀ x ∈ S.index, Storable g.posting g.fvalue x.2

theorem pickle_ok {g : Gear} {S : Shard} (h : Keepable g S) : ∃ z bs, Written g.posting g.fvalue S.index bs ∧
    g.text.crush S.text = some z ∧ z.length ≤ 9223372036854775807 ∧
    (∃ r, g.text.tang z (S.text.length + g.extra S.text.length) = some r ∧ S.text.length ≤ r.length ∧
      r.take S.text.length = S.text) ∧
    ∀ room, pickle g room S = some (decide (32 + z.length ≤ room),
      ((if room < 8 then addrBytes S.first else if room < 16 then addrBytes S.first ++ addrBytes S.last
        else if room < 32 then addrBytes S.first ++ addrBytes S.last ++ addrBytes S.text.length ++ addrBytes z.length
        else if room < 32 + z.length then
          addrBytes S.first ++ addrBytes S.last ++ addrBytes S.text.length ++ addrBytes z.length ++ z
        else addrBytes S.first ++ addrBytes S.last ++ addrBytes S.text.length ++ addrBytes z.length ++ z ++
          bs.flatten).take room)) := by
  obtain ⟨z, z1, z2, z3⟩ := h.text
  obtain ⟨bs, hb⟩ := written h.store h.feature
  refine ⟨z, bs, hb, z1, z2, z3, fun room => ?_⟩
  have l1 := addrBytes_length S.first
  have l2 := addrBytes_length S.last
  have l3 := addrBytes_length S.text.length
  have l4 := addrBytes_length z.length
  unfold pickle
  rw [h.kind]
  simp only [Option.bind_eq_bind, Option.pure_def, z1, Option.bind_some]
  obtain ⟨a1, a2⟩ := Jar.took_write (Jar.took_new room) (addrBytes S.first)
  obtain ⟨b1, b2⟩ := Jar.took_write a1 (addrBytes S.last)
  obtain ⟨c1, c2⟩ := Jar.took_write b1 (addrBytes S.text.length)
  obtain ⟨d1, d2⟩ := Jar.took_write c1 (addrBytes z.length)
  obtain ⟨e1, e2⟩ := Jar.took_write d1 z
  obtain ⟨j', f1, f2, f3⟩ := writeAll_ok hb e1
  generalize hA : ({ room := room } : Jar).write (addrBytes S.first) = A at *
  generalize hB : A.write (addrBytes S.last) = B at *
  generalize hC : B.write (addrBytes S.text.length) = C at *
  generalize hD : C.write (addrBytes z.length) = D at *
  generalize hE : D.write z = E at *
  simp only at a2
  rw [a2] at b2
  rw [b2] at c2
  rw [c2] at d2
  rw [d2] at e2
  rw [e2] at f3
  obtain ⟨a3, a4⟩ := a1
  obtain ⟨b3, b4⟩ := b1
  obtain ⟨c3, c4⟩ := c1
  obtain ⟨d3, d4⟩ := d1
  obtain ⟨e3, e4⟩ := e1
  obtain ⟨f4, f5⟩ := f2
  simp only [List.nil_append, List.length_append, l1, l2, l3, l4, a2, b2, c2, d2, e2] at a3 a4 b3 b4 c4 d3 d4 e3 e4
  rw [f3] at f4
  by_cases r1 : room < 8
  · have : A.failed = true := by cases hf : A.failed with
      | true => rfl
      | false => have := a4.1 hf; omega
    simp [this, r1, a3]; omega
  have fa : A.failed = false := a4.2 (by omega)
  by_cases r2 : room < 16
  · have : B.failed = true := by cases hf : B.failed with
      | true => rfl
      | false => have := b4.1 hf; omega
    simp [this, fa, r1, r2, b3]; omega
  have fb : B.failed = false := b4.2 (by omega)
  by_cases r3 : room < 32
  · have : D.failed = true := by cases hf : D.failed with
      | true => rfl
      | false => have := d4.1 hf; omega
    simp [this, fa, fb, r1, r2, r3, d3]; omega
  have fd : D.failed = false := d4.2 (by omega)
  by_cases r4 : room < 32 + z.length
  · have : E.failed = true := by cases hf : E.failed with
      | true => rfl
      | false => have := e4.1 hf; omega
    simp [this, fa, fb, fd, r1, r2, r3, r4, e3]
  have fe : E.failed = false := e4.2 (by omega)
  simp only [fa, fb, fd, fe, f1, f4, r1, r2, r3, r4, Bool.false_eq_true, if_false, Option.bind_some]
  simp only [List.nil_append, Option.some.injEq, Prod.mk.injEq, eq_comm (a := true), decide_eq_true_eq]
  exact ⟨by omega, trivial⟩

/-- reading a file of which header and text are there -/
theorem unpickle_head {g : Gear} {S : Shard} (h : Keepable g S) {z r : List UInt8} (hz : z.length ≤ 9223372036854775807)
    (ht : g.text.tang z (S.text.length + g.extra S.text.length) = some r) (hl : S.text.length ≤ r.length)
    (hr : r.take S.text.length = S.text) (s : List UInt8) :
    unpickle g (addrBytes S.first ++ addrBytes S.last ++ addrBytes S.text.length ++ addrBytes z.length ++ z ++ s) =
      (readAll g s.length [] s).map fun index => some { S with index := index } := by
  have n64 : In64 (S.text.length : Int) := by have := h.length; unfold In64; omega
  have m64 : In64 (z.length : Int) := by unfold In64; omega
  unfold unpickle
  simp only [List.append_assoc]
  rw [readN_front (addrBytes_length _)]
  simp only
  rw [readN_front (addrBytes_length _)]
  simp only
  rw [readN_front (addrBytes_length _)]
  simp only
  rw [readN_front (addrBytes_length _)]
  simp only
  rw [bytesAddr_addrBytes n64, bytesAddr_addrBytes m64, bytesAddr_addrBytes h.first, bytesAddr_addrBytes h.last]
  rw [if_neg (by omega), readN_front (by simp)]
  simp only [Int.toNat_natCast, Option.bind_eq_bind, Option.pure_def, ht, Option.bind_some]
  rw [if_neg (by omega), hr]
  cases readAll g s.length [] s <;> rfl

/-- a file that ends before the numbers do -/
theorem unpickle_short {g : Gear} {s : List UInt8} (h : s.length < 32) : unpickle g s = some none := by
  have key : ∀ t : List UInt8, 8 ≤ t.length → readN 8 t = some (t.take 8, t.drop 8) := fun t h => by
    unfold readN; rw [if_pos h]
  have key' : ∀ t : List UInt8, t.length < 8 → readN 8 t = none := fun t h => by
    unfold readN; rw [if_neg (by omega)]
  unfold unpickle
  rcases Nat.lt_or_ge s.length 8 with h1 | h1
  · rw [key' _ h1]
  rw [key _ h1]
  simp only
  rcases Nat.lt_or_ge s.length 16 with h2 | h2
  · rw [key' _ (by simp only [List.length_drop]; omega)]
  rw [key _ (by simp only [List.length_drop]; omega)]
  simp only
  rcases Nat.lt_or_ge s.length 24 with h3 | h3
  · rw [key' _ (by simp only [List.length_drop]; omega)]
  rw [key _ (by simp only [List.length_drop]; omega)]
  simp only
  rw [key' _ (by simp only [List.length_drop]; omega)]

/-- a file that ends in the text -/
theorem unpickle_cut {g : Gear} {S : Shard} (h : Keepable g S) {z : List UInt8} (hz : z.length ≤ 9223372036854775807)
    {t : List UInt8} (ht : t.length < z.length) :
    unpickle g (addrBytes S.first ++ addrBytes S.last ++ addrBytes S.text.length ++ addrBytes z.length ++ t) = none := by
  have n64 : In64 (S.text.length : Int) := by have := h.length; unfold In64; omega
  have m64 : In64 (z.length : Int) := by unfold In64; omega
  unfold unpickle
  simp only [List.append_assoc]
  rw [readN_front (addrBytes_length _)]
  simp only
  rw [readN_front (addrBytes_length _)]
  simp only
  rw [readN_front (addrBytes_length _)]
  simp only
  rw [readN_front (addrBytes_length _)]
  simp only
  rw [bytesAddr_addrBytes n64, bytesAddr_addrBytes m64]
  rw [if_neg (by omega), show readN (z.length : Int).toNat t = none by unfold readN; rw [if_neg (by omega)]]

end Verif.Pickle
