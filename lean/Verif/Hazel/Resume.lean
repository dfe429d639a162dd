import Verif.Hazel.MergeProof
namespace Verif.Hazel
open Verif.Hopper Verif.Store

/-- no shard yet, and checkpoints that are the beginnings of the complete ones -/
structure Ck (zs : List UInt8) (es : List Entry) (s : FS) : Prop where
  dst : s.dst = none
  pst : ∀ p, s.pst = some p → p <+: zs
  dct : ∀ q, s.dct = some q → q <+: dirBytes es

theorem torn_prefix {x b y full : List UInt8} (h : y ∈ tornStates x b) (hf : x ++ b <+: full) : y <+: full := by
  unfold tornStates at h
  obtain ⟨k, _, rfl⟩ := List.mem_map.1 h
  refine List.IsPrefix.trans ?_ hf
  exact (List.prefix_append_right_inj x).2 (List.take_prefix k b)

section
variable {zs : List UInt8} {es : List Entry}

theorem appendPst_does {s : FS} {x b : List UInt8} (h : Ck zs es s) (hx : s.pst = some x) (hb : x ++ b <+: zs) :
    Does (Ck zs es) (appendPst b) s () { s with pst := some (x ++ b) } := by
  unfold Does appendPst
  rw [hx]
  refine ⟨?_, rfl, rfl⟩
  intro c hc
  obtain ⟨y, hy, rfl⟩ := List.mem_map.1 hc
  exact ⟨h.dst, fun p hp => by cases hp; exact torn_prefix hy hb, h.dct⟩

theorem appendDct_does {s : FS} {x b : List UInt8} (h : Ck zs es s) (hx : s.dct = some x) (hb : x ++ b <+: dirBytes es) :
    Does (Ck zs es) (appendDct b) s () { s with dct := some (x ++ b) } := by
  unfold Does appendDct
  rw [hx]
  refine ⟨?_, rfl, rfl⟩
  intro c hc
  obtain ⟨y, hy, rfl⟩ := List.mem_map.1 hc
  exact ⟨h.dst, h.pst, fun p hp => by cases hp; exact torn_prefix hy hb⟩

theorem resize_take {n : Nat} {b : List UInt8} (h : n ≤ b.length) : resizeTo n b = b.take n := by
  unfold resizeTo
  rw [show n - b.length = 0 by omega]; simp

theorem truncatePst_does {s : FS} {x : List UInt8} {n : Int} (h : Ck zs es s) (hx : s.pst = some x) (h0 : 0 ≤ n)
    (hn : n ≤ x.length) : Does (Ck zs es) (truncatePst n) s () { s with pst := some (x.take n.toNat) } := by
  unfold Does truncatePst
  rw [if_neg (by omega), hx]
  dsimp only
  rw [resize_take (by omega)]
  exact Does.step h ⟨h.dst, fun p hp => by cases hp; exact (List.take_prefix _ _).trans (h.pst x hx), h.dct⟩

theorem truncateDct_does {s : FS} {x : List UInt8} {n : Int} (h : Ck zs es s) (hx : s.dct = some x) (h0 : 0 ≤ n)
    (hn : n ≤ x.length) : Does (Ck zs es) (truncateDct n) s () { s with dct := some (x.take n.toNat) } := by
  unfold Does truncateDct
  rw [if_neg (by omega), hx]
  dsimp only
  rw [resize_take (by omega)]
  exact Does.step h ⟨h.dst, h.pst, fun p hp => by cases hp; exact (List.take_prefix _ _).trans (h.dct x hx)⟩

theorem reset_does {s : FS} (h : Ck zs es s) :
    Does (Ck zs es) resetCheckpoints s () { s with pst := some [], dct := some [] } := by
  unfold resetCheckpoints
  have h1 : Ck zs es { s with pst := some [] } := ⟨h.dst, fun p hp => by cases hp; simp, h.dct⟩
  exact Does.bind (Does.step h h1) (Does.step h1 ⟨h1.dst, h1.pst, fun p hp => by cases hp; simp⟩)

theorem appendPosting_does {pc fc : Codec} {s : FS} {x y z : List UInt8} {P : Posting} {e : Entry} (h : Ck zs es s)
    (hx : s.pst = some x) (hy : s.dct = some y) (h0 : P.size ≠ 0)
    (hp : put pc fc (headerLen + x.length) P.feature P = some (z, e)) (hz : x ++ z <+: zs)
    (he : y ++ entryBytes e <+: dirBytes es) :
    Does (Ck zs es) (appendPosting pc fc (some P)) s (some e)
      { s with pst := some (x ++ z), dct := some (y ++ entryBytes e) } := by
  unfold appendPosting
  dsimp only
  rw [if_neg h0]
  have h1 : Ck zs es { s with pst := some (x ++ z) } := ⟨h.dst, fun p hp => by cases hp; exact hz, h.dct⟩
  refine Does.bind (Does.see h _) ?_
  simp only [hx, Option.map_some, Option.getD_some]
  refine Does.bind (Does.ofOption h hp) ?_
  dsimp only
  refine Does.bind (appendPst_does h hx hz) ?_
  refine Does.bind (appendDct_does h1 hy he) ?_
  exact Does.pure ⟨h.dst, h1.pst, fun p hp => by cases hp; exact he⟩ _

/-- the loop writes the rest of the plan -/
theorem loop_does {pc fc : Codec} {idxs : List HIdx} {lens : List Int} {tcf : Int} {E : Option Posting} (n : Nat) :
    ∀ {rest : List (List Entry)} {m : List (Int × Posting)} {s : FS} {x y zb : List UInt8} {eb : List Entry},
    (rest.map List.length).sum = n → planOf pc fc idxs lens tcf E (features rest) = some m →
    Ck zs es s → s.pst = some x → s.dct = some y → putAll pc fc (headerLen + x.length) m = some (zb, eb) →
    zs = x ++ zb → dirBytes es = y ++ dirBytes eb →
    Does (Ck zs es) (mergeLoop pc fc idxs lens tcf E rest) s () { s with pst := some zs, dct := some (dirBytes es) } := by
  induction n using Nat.strongRecOn with
  | ind n ih =>
    intro rest m s x y zb eb hn hm h hx hy hp hz hd
    rw [mergeLoop]
    rw [features] at hm
    by_cases hnext : nextFeature rest = maxfinity
    · rw [dif_pos hnext]
      rw [dif_pos hnext] at hm
      cases hm
      cases hp
      have hz : zs = x := by simpa using hz
      have hd : dirBytes es = y := by simpa [dirBytes] using hd
      have : ({ s with pst := some zs, dct := some (dirBytes es) } : FS) = s := by
        rw [hz, hd, ← hx, ← hy]
      rw [this]
      exact Does.pure h ()
    · rw [dif_neg hnext]
      rw [dif_neg hnext] at hm
      obtain ⟨P, r, h1, h2, h3⟩ := planOf_cons hm
      refine Does.bind (Does.ofOption h h1) ?_
      have hlt := advance_sum rest hnext
      rcases h3 with ⟨rfl, hsz⟩ | ⟨Q, rfl, h0, hf, rfl⟩
      · have ha : Does (Ck zs es) (appendPosting pc fc P) s none s := by
          unfold appendPosting
          cases P with
          | none => exact Does.pure h none
          | some Q => dsimp only; rw [if_pos (hsz Q rfl)]; exact Does.pure h none
        refine Does.bind ha ?_
        exact ih _ (hn ▸ hlt) rfl h2 h hx hy hp hz hd
      · unfold putAll at hp
        simp only [Option.bind_eq_bind, Option.bind_eq_some_iff] at hp
        obtain ⟨⟨z, e⟩, hp1, ⟨zs', es'⟩, hp2, hp⟩ := hp
        obtain ⟨rfl, rfl⟩ : zb = z ++ zs' ∧ eb = e :: es' := by
          simpa [eq_comm] using hp
        have hd' : dirBytes es = (y ++ entryBytes e) ++ dirBytes es' := by
          rw [hd]; simp [dirBytes]
        have hz' : zs = (x ++ z) ++ zs' := by rw [hz]; simp
        refine Does.bind (appendPosting_does h hx hy h0 (hf ▸ hp1) (by rw [hz']; exact List.prefix_append _ _)
          (by rw [hd']; exact List.prefix_append _ _)) ?_
        have := ih _ (hn ▸ hlt) (rest := advanceAll rest)
          (s := { s with pst := some (x ++ z), dct := some (y ++ entryBytes e) }) rfl h2
          ⟨h.dst, fun p hp => by cases hp; rw [hz']; exact List.prefix_append _ _,
            fun p hp => by cases hp; rw [hd']; exact List.prefix_append _ _⟩ rfl rfl
          (by
            rw [show headerLen + (((x ++ z).length : Nat) : Int) = headerLen + x.length + z.length by simp; omega]
            exact hp2) hz' hd'
        exact this

/-! ### repairing -/

theorem keepOf_le (c : Int) : ∀ (d : List Entry) (p : Int) (l : Option Int), keepOf c p l d ≤ d.length := by
  intro d
  induction d with
  | nil => intro p l; simp [keepOf]
  | cons e d ih =>
    intro p l
    unfold keepOf
    split
    · simp
    · split
      · simp
      · have := ih e.stop (some e.feature); simp; omega

theorem keepOf_covered (c : Int) : ∀ (d : List Entry) (p : Int) (l : Option Int),
    ∀ e ∈ d.take (keepOf c p l d), e.stop ≤ c := by
  intro d
  induction d with
  | nil => intro p l; simp [keepOf]
  | cons e d ih =>
    intro p l
    unfold keepOf
    split
    · simp
    · split
      · simp
      · intro e' he'
        rw [List.take_succ_cons] at he'
        rcases List.mem_cons.1 he' with rfl | h
        · omega
        · exact ih _ _ e' h

theorem entriesOf_dir : ∀ {es : List Entry} {rest : List UInt8}, (∀ e ∈ es, e.In64) →
    entriesOf es.length (dirBytes es ++ rest) = es := by
  intro es
  induction es with
  | nil => intro rest _; rfl
  | cons e es ih =>
    intro rest h
    have e1 : dirBytes (e :: es) ++ rest = entryBytes e ++ (dirBytes es ++ rest) := by simp [dirBytes]
    rw [List.length_cons, entriesOf, e1, entryOf_bytes (h e (by simp)), List.drop_left' (entryBytes_length e),
      ih fun e he => h e (by simp [he])]

theorem dir_take (es : List Entry) (c : Nat) : (dirBytes es).take (24 * c) = dirBytes (es.take c) := by
  induction es generalizing c with
  | nil => simp [dirBytes]
  | cons e es ih =>
    cases c with
    | zero => simp [dirBytes]
    | succ c =>
      have e1 : dirBytes (e :: es) = entryBytes e ++ dirBytes es := by simp [dirBytes]
      rw [e1, show 24 * (c + 1) = 24 + 24 * c by omega, List.take_succ_cons]
      rw [show dirBytes (e :: es.take c) = entryBytes e ++ dirBytes (es.take c) by simp [dirBytes], ← ih]
      rw [List.take_append, entryBytes_length, show 24 + 24 * c - 24 = 24 * c by omega,
        List.take_of_length_le (by rw [entryBytes_length]; omega)]

/-- the whole records in a beginning of the directory -/
theorem entriesOf_prefix {q : List UInt8} (h64 : ∀ e ∈ es, e.In64) (hq : q <+: dirBytes es) :
    q.length / 24 ≤ es.length ∧ entriesOf (q.length / 24) q = es.take (q.length / 24) ∧
      q.take (24 * (q.length / 24)) = dirBytes (es.take (q.length / 24)) := by
  have hl := hq.length_le
  rw [dirBytes_length] at hl
  have hc : q.length / 24 ≤ es.length := by omega
  have e1 : q.take (24 * (q.length / 24)) = dirBytes (es.take (q.length / 24)) := by
    rw [← dir_take]
    obtain ⟨t, ht⟩ := hq
    rw [← ht, List.take_append_of_le_length (by omega)]
  refine ⟨hc, ?_, e1⟩
  have e2 : q = dirBytes (es.take (q.length / 24)) ++ q.drop (24 * (q.length / 24)) := by
    rw [← e1, List.take_append_drop]
  have e3 := entriesOf_dir (es := es.take (q.length / 24)) (rest := q.drop (24 * (q.length / 24)))
    (fun e he => h64 e (List.mem_of_mem_take he))
  rw [← e2, List.length_take, Nat.min_eq_left hc] at e3
  exact e3

/-- the files when the first `n` records are complete -/
def upTo (zs : List UInt8) (es : List Entry) (n : Nat) (s : FS) : FS :=
  { s with pst := some (zs.take (lastStop (es.take n) - headerLen).toNat), dct := some (dirBytes (es.take n)) }

theorem lastStop_mem {d : List Entry} (h : d ≠ []) : ∃ e ∈ d, lastStop d = e.stop := by
  unfold lastStop
  rw [List.getLast?_eq_some_getLast h]
  exact ⟨_, List.getLast_mem h, rfl⟩

theorem readDct_none {s : FS} (h : Ck zs es s) (hd : s.dct = none) : Does (Ck zs es) readDct s none s := by
  unfold readDct
  refine Does.bind (Does.see h _) ?_
  rw [hd]
  exact Does.pure h none

theorem readDct_does {s : FS} {q : List UInt8} (h64 : ∀ e ∈ es, e.In64) (h : Ck zs es s) (hd : s.dct = some q) :
    ∃ c, c ≤ es.length ∧ Does (Ck zs es) readDct s (some (es.take c)) { s with dct := some (dirBytes (es.take c)) } := by
  have hq := h.dct q hd
  obtain ⟨h1, h2, h3⟩ := entriesOf_prefix h64 hq
  refine ⟨q.length / 24, h1, ?_⟩
  unfold readDct
  refine Does.bind (Does.see h _) ?_
  rw [hd]
  dsimp only
  have e0 : q.length - q.length % 24 = 24 * (q.length / 24) := by omega
  have h' : Ck zs es { s with dct := some (dirBytes (es.take (q.length / 24))) } :=
    ⟨h.dst, h.pst, fun p hp => by cases hp; rw [← dir_take]; exact List.take_prefix _ _⟩
  have e4 : 24 * (q.length / 24) / 24 = q.length / 24 := by omega
  rw [e0, e4, h2]
  by_cases hne : 24 * (q.length / 24) ≠ q.length
  · rw [if_pos hne]
    have := truncateDct_does (n := ((24 * (q.length / 24) : Nat) : Int)) h hd (by omega) (by omega)
    rw [Int.toNat_natCast, h3] at this
    exact Does.bind this (Does.pure h' _)
  · rw [if_neg hne]
    have e5 : ({ s with dct := some (dirBytes (es.take (q.length / 24))) } : FS) = s := by
      rw [← h3, Classical.not_not.1 hne, List.take_length, ← hd]
    rw [e5] at h' ⊢
    exact Does.pure h' _

theorem repair_does {s : FS} (h64 : s.pst = none ∨ ∀ e ∈ es, e.In64) (hlo : ∀ e ∈ es, headerLen ≤ e.stop) (h : Ck zs es s) :
    (∃ t, Does (Ck zs es) repair s none t ∧ Ck zs es t ∧ t.mrg = s.mrg) ∨
    ∃ n, n ≤ es.length ∧ lastStop (es.take n) - headerLen ≤ zs.length ∧
      Does (Ck zs es) repair s (some (es.take n)) (upTo zs es n s) := by
  unfold repair
  cases hp : s.pst with
  | none =>
    left
    refine ⟨s, Does.bind (Does.see h _) ?_, h, rfl⟩
    rw [hp]
    exact Does.pure h none
  | some p =>
    cases hq : s.dct with
    | none =>
      left
      refine ⟨s, Does.bind (Does.see h _) ?_, h, rfl⟩
      rw [hp]
      exact Does.bind (readDct_none h hq) (Does.pure h none)
    | some q =>
      right
      obtain ⟨c, hc, hr⟩ := readDct_does (h64.resolve_left (by rw [hp]; simp)) h hq
      have hpz := h.pst p hp
      have hpl := hpz.length_le
      generalize hkk : keepOf (headerLen + p.length) headerLen none (es.take c) = keep at *
      have hkl : keep ≤ c := by
        have := keepOf_le (headerLen + p.length) (es.take c) headerLen none
        rw [hkk, List.length_take] at this
        omega
      have hcov : ∀ e ∈ es.take keep, e.stop ≤ headerLen + p.length := by
        intro e he
        have := keepOf_covered (headerLen + p.length) (es.take c) headerLen none
        rw [hkk, List.take_take, Nat.min_eq_left hkl] at this
        exact this e he
      have hlast : headerLen ≤ lastStop (es.take keep) ∧ lastStop (es.take keep) ≤ headerLen + p.length := by
        by_cases hne : es.take keep = []
        · rw [hne]; simp [lastStop]; omega
        · obtain ⟨e, he, hl⟩ := lastStop_mem hne
          rw [hl]
          exact ⟨hlo e (List.mem_of_mem_take he), hcov e he⟩
      refine ⟨keep, by omega, by omega, ?_⟩
      refine Does.bind (Does.see h _) ?_
      rw [hp]
      dsimp only
      refine Does.bind hr ?_
      dsimp only
      rw [hkk, List.take_take, Nat.min_eq_left hkl, List.length_take, Nat.min_eq_left hc]
      have h1 : Ck zs es { s with dct := some (dirBytes (es.take c)) } :=
        ⟨h.dst, h.pst, fun p hp => by cases hp; rw [← dir_take]; exact List.take_prefix _ _⟩
      have h2 : Ck zs es { s with dct := some (dirBytes (es.take keep)) } :=
        ⟨h.dst, h.pst, fun p hp => by cases hp; rw [← dir_take]; exact List.take_prefix _ _⟩
      have hint : (if (es.take keep).isEmpty = true then (0 : Int) else lastStop (es.take keep) - headerLen)
          = lastStop (es.take keep) - headerLen := by
        split
        · rename_i h0
          rw [List.isEmpty_iff.1 h0]; simp [lastStop]
        · rfl
      have h3 := truncatePst_does (x := p) (n := lastStop (es.take keep) - headerLen) h2 hp (by omega) (by omega)
      have h4 : p.take (lastStop (es.take keep) - headerLen).toNat = zs.take (lastStop (es.take keep) - headerLen).toNat := by
        obtain ⟨t, ht⟩ := hpz
        rw [← ht, List.take_append_of_le_length (by omega)]
      rw [h4] at h3
      rw [hint]
      have h5 : Ck zs es (upTo zs es keep s) := ⟨h.dst, fun p hp => by cases hp; exact List.take_prefix _ _,
        fun p hp => by cases hp; rw [← dir_take]; exact List.take_prefix _ _⟩
      have h6 : Does (Ck zs es) (truncatePst (lastStop (es.take keep) - headerLen))
        { s with dct := some (dirBytes (es.take keep)) } () (upTo zs es keep s) := h3
      have hrest := Does.bind (k := fun _ => pure (some (es.take keep))) h6 (Does.pure h5 (some (es.take keep)))
      by_cases hk : keep < c
      · rw [if_pos hk]
        have := truncateDct_does (n := (keep : Int) * 24) h1 rfl (by omega) (by
          rw [dirBytes_length, List.length_take, Nat.min_eq_left hc]; omega)
        rw [show ((keep : Int) * 24).toNat = 24 * keep by omega, dir_take, List.take_take,
          Nat.min_eq_left hkl] at this
        exact Does.bind this hrest
      · rw [if_neg hk, show c = keep by omega]
        exact hrest

theorem upTo_ck {s : FS} (h : Ck zs es s) (n : Nat) : Ck zs es (upTo zs es n s) :=
  ⟨h.dst, fun p hp => by cases hp; exact List.take_prefix _ _,
    fun p hp => by cases hp; rw [← dir_take]; exact List.take_prefix _ _⟩

theorem upTo_zero (s : FS) : upTo zs es 0 s = { s with pst := some [], dct := some [] } := by
  simp [upTo, lastStop, dirBytes]

end

/-- what a merge has to write -/
structure Plan (J : Job) (E : Option Posting) (l : List (Int × Posting)) (zs : List UInt8) (es : List Entry) : Prop where
  sorted : ∀ H ∈ J.idxs, Sorted H.dir
  null : hasFeature J.idxs nullFeature = true →
    ∃ Ps, postingsFor J.pc J.fc J.idxs nullFeature = some Ps ∧ E = mergePostings Ps
  nonull : hasFeature J.idxs nullFeature = false → E = none
  plan : ∃ m, planOf J.pc J.fc J.idxs J.lens J.tcf E (features (J.idxs.map fun H => past nullFeature H.dir)) = some m ∧
    l = nullPart E ++ m
  written : putAll J.pc J.fc headerLen l = some (zs, es)
  reread : ∀ Q z e, E = some Q → Q.size ≠ 0 → put J.pc J.fc headerLen Q.feature Q = some (z, e) →
    ∀ rest, checkpointPosting J.pc J.fc (z ++ rest) e = some Q

section
variable {J : Job} {E : Option Posting} {l : List (Int × Posting)} {zs : List UInt8} {es : List Entry}

theorem Plan.stops (h : Plan J E l zs es) : ∀ e ∈ es, headerLen ≤ e.stop := fun e he => ((putAll_stops h.written).2 e he).1

theorem Plan.nullFeature (h : Plan J E l zs es) {Q : Posting} (hE : E = some Q) : Q.feature = nullFeature := by
  cases hn : hasFeature J.idxs Store.nullFeature with
  | false => rw [h.nonull hn] at hE; cases hE
  | true =>
    obtain ⟨Ps, h1, h2⟩ := h.null hn
    exact mergePostings_feature (h2.symm.trans hE) (postingsFor_feature h1)

theorem Plan.features_sorted (h : Plan J E l zs es) :
    (features (J.idxs.map fun H => past Store.nullFeature H.dir)).Pairwise (· < ·) ∧
    ∀ f ∈ features (J.idxs.map fun H => past Store.nullFeature H.dir), Store.nullFeature < f ∧ f < maxfinity := by
  apply features_gt _ rfl
  · intro d hd
    obtain ⟨H, hH, rfl⟩ := List.mem_map.1 hd
    exact past_sorted (h.sorted H hH)
  · intro d hd
    obtain ⟨H, hH, rfl⟩ := List.mem_map.1 hd
    exact past_gt (h.sorted H hH)

theorem Plan.list_sorted (h : Plan J E l zs es) : l.Pairwise (fun a b => a.1 < b.1) ∧
    (∀ x ∈ l, Store.nullFeature ≤ x.1 ∧ x.1 < maxfinity ∧ x.2.feature = x.1) := by
  obtain ⟨m, h1, rfl⟩ := h.plan
  obtain ⟨f1, f2⟩ := h.features_sorted
  have hm := planOf_sorted h1 f1
  have hmem := planOf_mem h1
  have hn : ∀ x ∈ nullPart E, x.1 = Store.nullFeature ∧ x.2.feature = x.1 := by
    intro x hx
    unfold nullPart at hx
    cases hE : E with
    | none => rw [hE] at hx; simp at hx
    | some Q =>
      rw [hE] at hx
      dsimp only at hx
      split at hx
      · simp at hx
      · simp at hx; subst hx; exact ⟨h.nullFeature hE, rfl⟩
  refine ⟨List.pairwise_append.2 ⟨?_, hm, ?_⟩, ?_⟩
  · unfold nullPart
    split
    · simp
    · split <;> simp
  · intro a ha b hb
    rw [(hn a ha).1]
    exact (f2 _ (hmem b hb).1).1
  · intro x hx
    rcases List.mem_append.1 hx with hx | hx
    · rw [(hn x hx).2, (hn x hx).1]; decide
    · have := f2 _ (hmem x hx).1
      exact ⟨by omega, by omega, (hmem x hx).2.1⟩

theorem Plan.entries (h : Plan J E l zs es) : es.map (·.feature) = l.map (·.1) := (putAll_spec h.written).1

theorem mem_take_head {n : Nat} {d : List Entry} {e : Entry} (h : (d.take n).head? = some e) : d.head? = some e ∧ 1 ≤ n := by
  cases n with
  | zero => simp at h
  | succ n => cases d with
    | nil => simp at h
    | cons x d => simpa using h

/-- if the directory starts with the erasures, they are the first thing written -/
theorem Plan.front (h : Plan J E l zs es) {e : Entry} (he : es.head? = some e) (hf : e.feature = Store.nullFeature) :
    ∃ Q z rest, E = some Q ∧ Q.size ≠ 0 ∧ zs = z ++ rest ∧ put J.pc J.fc headerLen Q.feature Q = some (z, e) := by
  obtain ⟨m, h1, rfl⟩ := h.plan
  have hen := h.entries
  have hput := h.written
  unfold nullPart at hput hen
  have hno : ∀ x ∈ m, x.1 ≠ Store.nullFeature := by
    intro x hx
    have := h.features_sorted.2 _ (planOf_mem h1 x hx).1
    omega
  have bad : ¬ es.map (·.feature) = m.map (·.1) := by
    intro hm
    cases es with
    | nil => simp at he
    | cons y es =>
      simp at he; subst he
      cases m with
      | nil => simp at hm
      | cons x m =>
        simp at hm
        exact hno x (by simp) (by rw [← hm.1, hf])
  cases hE : E with
  | none => rw [hE] at hen; exact absurd (by simpa using hen) bad
  | some Q =>
    rw [hE] at hen hput
    dsimp only at hen hput
    by_cases h0 : Q.size = 0
    · rw [if_pos h0] at hen; exact absurd (by simpa using hen) bad
    · rw [if_neg h0] at hput
      simp only [List.cons_append, List.nil_append, putAll, Option.bind_eq_bind, Option.bind_eq_some_iff] at hput
      obtain ⟨⟨z, e'⟩, p1, ⟨zs', es'⟩, p2, p3⟩ := hput
      obtain ⟨rfl, rfl⟩ : zs = z ++ zs' ∧ es = e' :: es' := by simpa [eq_comm] using p3
      simp at he; subst he
      exact ⟨Q, z, zs', rfl, h0, rfl, p1⟩

theorem hint (d : List Entry) : (if d.isEmpty = true then (0 : Int) else lastStop d - headerLen) = lastStop d - headerLen := by
  split
  · rename_i h0
    rw [List.isEmpty_iff.1 h0]; simp [lastStop]
  · rfl

theorem reset_case {s t : FS} (hs : Ck zs es s) (ht : Ck zs es t) (hm : t.mrg = s.mrg) :
    Does (Ck zs es) resetCheckpoints t () (upTo zs es 0 s) := by
  have e : upTo zs es 0 s = { t with pst := some [], dct := some [] } := by
    rw [upTo_zero]
    have := ht.dst
    have := hs.dst
    cases s; cases t; simp_all
  rw [e]
  exact reset_does ht

/-- the checkpoint to go on from: some of the records, complete; none if the erasures are missing -/
theorem openCheckpoint_does (h : Plan J E l zs es) (sn : Bool) {s : FS} (hs : Ck zs es s)
    (hin : s.pst = none ∨ ∀ e ∈ es, e.In64) :
    ∃ n, n ≤ es.length ∧ lastStop (es.take n) - headerLen ≤ zs.length ∧
      Does (Ck zs es) (openCheckpoint sn) s (es.take n) (upTo zs es n s) ∧
      (1 ≤ n → ∀ e, es.head? = some e → (sn = true ↔ e.feature = Store.nullFeature)) := by
  unfold openCheckpoint
  rcases repair_does hin h.stops hs with ⟨t, hr, ht, hm⟩ | ⟨n, hn, hl, hr⟩
  · refine ⟨0, by omega, by simp [lastStop], ?_, by omega⟩
    refine Does.bind hr ?_
    rw [if_pos (by rfl)]
    exact Does.bind (reset_case hs ht hm) (Does.pure (upTo_ck hs 0) _)
  · have hc := upTo_ck hs (zs := zs) (es := es) n
    cases hmr : mustReset sn (some (es.take n)) with
    | true =>
      refine ⟨0, by omega, by simp [lastStop], ?_, by omega⟩
      refine Does.bind hr ?_
      rw [if_pos hmr]
      exact Does.bind (reset_case hs hc rfl) (Does.pure (upTo_ck hs 0) _)
    | false =>
      refine ⟨n, hn, hl, ?_, ?_⟩
      · refine Does.bind hr ?_
        rw [if_neg (by rw [hmr]; simp)]
        dsimp only [Option.getD_some]
        rw [hint]
        have hlo : headerLen ≤ lastStop (es.take n) := by
          by_cases hne : es.take n = []
          · rw [hne]; simp [lastStop]
          · obtain ⟨e, he, hl⟩ := lastStop_mem hne
            rw [hl]; exact h.stops e (List.mem_of_mem_take he)
        have := truncatePst_does (n := lastStop (es.take n) - headerLen) hc rfl (by omega) (by
          rw [List.length_take]; omega)
        rw [List.take_take, Nat.min_self] at this
        exact Does.bind this (Does.pure hc _)
      · intro h1 e he
        have : (es.take n).head? = some e := by
          cases es with
          | nil => simp at he
          | cons x d => cases n with
            | zero => omega
            | succ n => simpa using he
        simp only [mustReset, this, Option.any_some] at hmr
        cases sn with
        | true => simpa using hmr
        | false => simpa using hmr

theorem savedErasures_does (h : Plan J E l zs es) {n : Nat} {s : FS} (hs : Ck zs es s)
    (hfront : 1 ≤ n → ∀ e, es.head? = some e → (hasFeature J.idxs Store.nullFeature = true ↔ e.feature = Store.nullFeature)) :
    Does (Ck zs es) (savedErasures J.pc J.fc (es.take n)) (upTo zs es n s)
      (es.take n, if es.take n = [] then none else E) (upTo zs es n s) := by
  have hc := upTo_ck hs (zs := zs) (es := es) n
  unfold savedErasures
  cases hd : es.take n with
  | nil => exact Does.pure hc _
  | cons e d =>
    rw [if_neg (by simp)]
    have hhead := mem_take_head (n := n) (d := es) (e := e) (by rw [hd]; rfl)
    have hiff := hfront hhead.2 e hhead.1
    dsimp only
    by_cases hf : e.feature = Store.nullFeature
    · rw [if_pos hf]
      obtain ⟨Q, z, rest, hE, h0, hz, hp⟩ := h.front hhead.1 hf
      refine Does.bind (Does.see hc _) ?_
      have hstop := (put_stop hp).2
      have hpre : ∃ r, (upTo zs es n s).pst.getD [] = z ++ r := by
        have hle : e.stop ≤ lastStop (es.take n) := by
          obtain ⟨e', he', hl⟩ := lastStop_mem (d := es.take n) (by rw [hd]; simp)
          rw [hl]
          have hs1 := (putAll_stops h.written).1
          have hs2 : (es.take n).Pairwise (fun a b => a.stop ≤ b.stop) := hs1.sublist (List.take_sublist _ _)
          rw [hd] at hs2 he'
          rcases List.mem_cons.1 he' with rfl | he'
          · omega
          · exact (List.pairwise_cons.1 hs2).1 e' he'
        refine ⟨rest.take ((lastStop (es.take n) - headerLen).toNat - z.length), ?_⟩
        simp only [upTo, Option.getD_some]
        rw [hz, List.take_append, List.take_of_length_le (by omega)]
      obtain ⟨r, hr⟩ := hpre
      rw [hr, h.reread Q z e hE h0 hp r, hE]
      exact Does.pure hc _
    · rw [if_neg hf]
      have : hasFeature J.idxs Store.nullFeature = false := by
        cases hx : hasFeature J.idxs Store.nullFeature with
        | false => rfl
        | true => exact absurd (hiff.1 hx) hf
      rw [h.nonull this]
      exact Does.pure hc _

theorem putAll_last {pc fc : Codec} : ∀ {l : List (Int × Posting)} {pos : Int} {zs : List UInt8} {es : List Entry},
    putAll pc fc pos l = some (zs, es) → (match es.getLast? with | none => pos | some e => e.stop) = pos + zs.length := by
  intro l
  induction l with
  | nil => intro pos zs es h; cases h; simp
  | cons x l ih =>
    obtain ⟨f, P⟩ := x
    intro pos zs es h
    simp only [putAll, Option.bind_eq_bind, Option.bind_eq_some_iff] at h
    obtain ⟨⟨z, e⟩, p1, ⟨zs', es'⟩, p2, p3⟩ := h
    obtain ⟨rfl, rfl⟩ : zs = z ++ zs' ∧ es = e :: es' := by simpa [eq_comm] using p3
    have h1 := (put_stop p1).2
    have h2 := ih p2
    cases es' with
    | nil => simp at h2 ⊢; omega
    | cons e' es' =>
      rw [List.getLast?_cons_cons]
      rw [List.getLast?_eq_some_getLast (by simp : e' :: es' ≠ [])] at h2 ⊢
      simp only at h2
      simp only [h2, List.length_append]; omega

theorem Plan.split (h : Plan J E l zs es) {n : Nat} (hn : n ≤ es.length) :
    ∃ zb, zs = zs.take (lastStop (es.take n) - headerLen).toNat ++ zb ∧
      putAll J.pc J.fc (headerLen + (zs.take (lastStop (es.take n) - headerLen).toNat).length) (l.drop n) = some (zb, es.drop n) := by
  have hl : es.length = l.length := by simpa using congrArg List.length h.entries
  have hw := h.written
  rw [← List.take_append_drop n l, putAll_append] at hw
  simp only [Option.bind_eq_bind, Option.bind_eq_some_iff] at hw
  obtain ⟨⟨a, d⟩, p1, ⟨b, e⟩, p2, p3⟩ := hw
  obtain ⟨hz, he⟩ : zs = a ++ b ∧ es = d ++ e := by simpa [eq_comm] using p3
  have hd : d.length = n := by
    have := congrArg List.length (putAll_spec p1).1
    simp only [List.length_map, List.length_take] at this
    omega
  have e1 : es.take n = d := by rw [he, List.take_left' hd]
  have e2 : es.drop n = e := by rw [he, List.drop_left' hd]
  have e3 : lastStop d = headerLen + a.length := putAll_last p1
  have e4 : zs.take (lastStop (es.take n) - headerLen).toNat = a := by
    rw [e1, e3, hz, List.take_left' (by omega)]
  rw [e4, e2]
  exact ⟨b, hz, p2⟩

theorem writeErasures_does (h : Plan J E l zs es) {n : Nat} {s : FS} (hs : Ck zs es s) :
    ∃ k, k ≤ es.length ∧ Does (Ck zs es) (writeErasures J.pc J.fc J.idxs (es.take n) (if es.take n = [] then none else E)) (upTo zs es n s)
      (es.take k, E) (upTo zs es k s) ∧ (k = 0 → nullPart E = []) := by
  have hc := upTo_ck hs (zs := zs) (es := es) n
  unfold writeErasures
  by_cases hd : es.take n = []
  · have hu : upTo zs es n s = upTo zs es 0 s := by unfold upTo; rw [hd]; simp
    rw [hu] at hc ⊢
    rw [hd]
    simp only [List.isEmpty_nil, Bool.true_and, if_true]
    cases hn : hasFeature J.idxs Store.nullFeature with
    | false =>
      simp only [Bool.false_eq_true, if_false]
      rw [h.nonull hn]
      exact ⟨0, by omega, Does.pure hc _, fun _ => rfl⟩
    | true =>
      simp only [if_true]
      obtain ⟨Ps, h1, h2⟩ := h.null hn
      by_cases hnp : nullPart E = []
      · refine ⟨0, by omega, ?_, fun _ => hnp⟩
        refine Does.bind (Does.ofOption hc h1) ?_
        rw [← h2]
        have ha : Does (Ck zs es) (appendPosting J.pc J.fc E) (upTo zs es 0 s) none (upTo zs es 0 s) := by
          unfold appendPosting
          cases hE : E with
          | none => exact Does.pure hc none
          | some Q =>
            rw [hE] at hnp
            have h0 : Q.size = 0 := by
              unfold nullPart at hnp
              dsimp only at hnp
              split at hnp
              · assumption
              · simp at hnp
            dsimp only; rw [if_pos h0]; exact Does.pure hc none
        exact Does.bind ha (Does.pure hc _)
      · have hE : ∃ Q, E = some Q ∧ Q.size ≠ 0 := by
          cases hE : E with
          | none => rw [hE] at hnp; exact absurd rfl hnp
          | some Q =>
            refine ⟨Q, rfl, fun h0 => ?_⟩
            rw [hE] at hnp
            unfold nullPart at hnp
            dsimp only at hnp
            rw [if_pos h0] at hnp
            exact hnp rfl
        obtain ⟨Q, hE, h0⟩ := hE
        obtain ⟨m, _, hl⟩ := h.plan
        have hnpe : nullPart E = [(Q.feature, Q)] := by
          rw [hE]; unfold nullPart; dsimp only; rw [if_neg h0]
        have hput := h.written
        rw [hl, hnpe] at hput
        simp only [List.cons_append, List.nil_append, putAll, Option.bind_eq_bind, Option.bind_eq_some_iff] at hput
        obtain ⟨⟨z, e⟩, p1, ⟨zs', es'⟩, p2, p3⟩ := hput
        obtain ⟨hz, he⟩ : zs = z ++ zs' ∧ es = e :: es' := by simpa [eq_comm] using p3
        have hstop := (put_stop p1).2
        have e1 : es.take 1 = [e] := by rw [he]; rfl
        refine ⟨1, by rw [he]; simp, ?_, by omega⟩
        refine Does.bind (Does.ofOption hc h1) ?_
        rw [← h2, e1, hE]
        have hu1 : upTo zs es 1 s = { upTo zs es 0 s with pst := some ([] ++ z), dct := some ([] ++ entryBytes e) } := by
          rw [upTo_zero]
          unfold upTo
          rw [e1]
          have : lastStop [e] = e.stop := rfl
          rw [this, hstop, hz, List.take_left' (by omega)]
          simp [dirBytes]
        rw [hu1]
        refine Does.bind (appendPosting_does hc (by rw [upTo_zero]) (by rw [upTo_zero]) h0 (by simpa using p1)
          (by rw [hz]; simp) (by rw [he]; simp [dirBytes])) ?_
        rw [← hu1]
        exact Does.pure (upTo_ck hs 1) _
  · rw [if_neg hd]
    have : (es.take n).isEmpty = false := by
      cases hx : es.take n with
      | nil => exact absurd hx hd
      | cons => rfl
    rw [this]
    simp only [Bool.false_and, Bool.false_eq_true, if_false]
    have ht : es.take n = es.take (min n es.length) := by
      rw [List.take_eq_take_iff]; omega
    have hu : upTo zs es n s = upTo zs es (min n es.length) s := by unfold upTo; rw [← ht]
    refine ⟨min n es.length, by omega, by rw [← ht, ← hu]; exact Does.pure hc _, ?_⟩
    intro h0
    rw [ht, h0] at hd
    simp at hd

theorem dropWhile_drop : ∀ {l : List (Int × Posting)} {n : Nat} {x : Int × Posting}, l.Pairwise (fun a b => a.1 < b.1) →
    l[n]? = some x → l.dropWhile (fun y => y.1 ≤ x.1) = l.drop (n + 1) := by
  intro l
  induction l with
  | nil => intro n x _ h; simp at h
  | cons y l ih =>
    intro n x hs h
    have hp := List.pairwise_cons.1 hs
    cases n with
    | zero =>
      simp at h; subst h
      rw [List.dropWhile_cons, if_pos (by simp)]
      rw [dropWhile_id]
      · rfl
      · intro a ha
        have := hp.1 a (List.mem_of_mem_head? ha)
        simp; omega
    | succ n =>
      have h : l[n]? = some x := by simpa using h
      have := hp.1 x (List.mem_of_getElem? h)
      rw [List.dropWhile_cons, if_pos (by simp; omega), ih hp.2 h]
      rfl

/-- the features left to do are those of the records left to write -/
theorem Plan.left (h : Plan J E l zs es) {k : Nat} (hk : k ≤ es.length) (h0 : k = 0 → nullPart E = []) :
    planOf J.pc J.fc J.idxs J.lens J.tcf E
      (features (J.idxs.map fun H => past (lastFeature (es.take k)) H.dir)) = some (l.drop k) := by
  obtain ⟨m, h1, hl⟩ := h.plan
  have hlen : es.length = l.length := by simpa using congrArg List.length h.entries
  cases k with
  | zero =>
    have : lastFeature (es.take 0) = Store.nullFeature := rfl
    rw [this, h1, hl, h0 rfl]; rfl
  | succ k =>
    obtain ⟨x, hx⟩ : ∃ x, l[k]? = some x := ⟨_, List.getElem?_eq_getElem (by omega)⟩
    obtain ⟨e, he⟩ : ∃ e, es[k]? = some e := ⟨_, List.getElem?_eq_getElem (by omega)⟩
    have hfe : e.feature = x.1 := by
      have := congrArg (·[k]?) h.entries
      simp only [List.getElem?_map, hx, he, Option.map_some] at this
      exact Option.some.inj this
    have hlf : lastFeature (es.take (k + 1)) = x.1 := by
      unfold lastFeature
      have : (es.take (k + 1)).getLast? = some e := by
        rw [List.getLast?_eq_getElem?, List.length_take, Nat.min_eq_left hk]
        rw [List.getElem?_take]
        simp [he]
      rw [this]
      exact hfe
    obtain ⟨s1, s2⟩ := h.list_sorted
    have hxm := s2 x (List.mem_of_getElem? hx)
    rw [hlf]
    have e1 : (J.idxs.map fun H => past x.1 H.dir) =
        (J.idxs.map fun H => past Store.nullFeature H.dir).map (past x.1) := by
      rw [List.map_map]
      apply List.map_congr_left
      intro H _
      simp only [Function.comp]
      rw [past_past (by omega)]
    rw [e1, features_past (by omega) _ rfl (by
      intro d hd
      obtain ⟨H, hH, rfl⟩ := List.mem_map.1 hd
      exact past_sorted (h.sorted H hH))]
    rw [planOf_drop h1 h.features_sorted.1]
    rw [← dropWhile_drop s1 hx, hl, List.dropWhile_append]
    have : (nullPart E).dropWhile (fun y => decide (y.1 ≤ x.1)) = [] := by
      have all : ∀ (L : List (Int × Posting)) (p : Int × Posting → Bool), (∀ y ∈ L, p y = true) → L.dropWhile p = [] := by
        intro L p
        induction L with
        | nil => intro _; rfl
        | cons a L ih =>
          intro ha
          rw [List.dropWhile_cons, if_pos (ha a (by simp))]
          exact ih fun y hy => ha y (by simp [hy])
      apply all
      intro y hy
      have hy' : y.1 = Store.nullFeature := by
        unfold nullPart at hy
        cases hE : E with
        | none => rw [hE] at hy; simp at hy
        | some Q =>
          rw [hE] at hy
          dsimp only at hy
          split at hy
          · simp at hy
          · simp at hy; subst hy; exact h.nullFeature hE
      simp only [decide_eq_true_eq]; omega
    rw [this]
    rfl

theorem mergeIdx_does (h : Plan J E l zs es) {s : FS} (hs : Ck zs es s) (hin : s.pst = none ∨ ∀ e ∈ es, e.In64) :
    Does (Ck zs es) (mergeIdx J.pc J.fc J.idxs J.lens J.tcf) s (idxBlob zs es)
      { s with pst := some zs, dct := some (dirBytes es) } := by
  unfold mergeIdx
  obtain ⟨n, hn, hl, hd, hfront⟩ := openCheckpoint_does h (hasFeature J.idxs Store.nullFeature) hs hin
  refine Does.bind hd ?_
  refine Does.bind (savedErasures_does h hs hfront) ?_
  dsimp only
  obtain ⟨k, hk, hw, hk0⟩ := writeErasures_does h (n := n) hs
  refine Does.bind hw ?_
  dsimp only
  obtain ⟨zb, hz, hp⟩ := h.split hk
  have hdir : dirBytes es = dirBytes (es.take k) ++ dirBytes (es.drop k) := by
    rw [← dirBytes_append, List.take_append_drop]
  have hloop := loop_does _ rfl (h.left hk hk0) (upTo_ck hs k) rfl rfl hp hz hdir
  refine Does.bind hloop ?_
  unfold finalBlob
  have hc : Ck zs es { s with pst := some zs, dct := some (dirBytes es) } :=
    ⟨hs.dst, fun p hp => by cases hp; simp, fun p hp => by cases hp; simp⟩
  refine Does.bind (Does.see hc _) ?_
  refine Does.bind (Does.see hc _) ?_
  have hlen := dirBytes_length es
  simp only [Option.getD_some]
  rw [if_neg (by omega), hlen]
  have : 24 * es.length / 24 = es.length := by omega
  rw [this]
  have hb : idxBlob zs es = idxMagic ++ addrsBytes [headerLen + (zs.length : Int), ((24 * es.length : Nat) : Int), (es.length : Int)] ++ zs ++ dirBytes es := by
    unfold idxBlob; rw [hlen]
  rw [hb]
  exact Does.pure hc _

/-- the new shard -/
def finalFile (J : Job) (zs : List UInt8) (es : List Entry) : List UInt8 := hazelFile J.dna (idxBlob zs es) J.txt

/-- the files between attempts: not there yet, or all there -/
def Between (J : Job) (zs : List UInt8) (es : List Entry) (s : FS) : Prop :=
  Ck zs es s ∨ s.dst = some (finalFile J zs es)

theorem Does.mono {α : Type} {I I' : FS → Prop} {m : W α} {s t : FS} {a : α} (h : Does I m s a t) (hi : ∀ s, I s → I' s) :
    Does I' m s a t := ⟨fun c hc => hi c (h.1 c hc), h.2⟩

theorem Ck.mrg {s : FS} (h : Ck zs es s) (m : Option (List UInt8)) : Ck zs es { s with mrg := m } := ⟨h.dst, h.pst, h.dct⟩

theorem appendMrg_does {s : FS} {x b : List UInt8} (h : Ck zs es s) (hx : s.mrg = some x) :
    Does (Ck zs es) (appendMrg b) s () { s with mrg := some (x ++ b) } := by
  unfold Does appendMrg
  rw [hx]
  refine ⟨?_, rfl, rfl⟩
  intro c hc
  obtain ⟨y, hy, rfl⟩ := List.mem_map.1 hc
  exact h.mrg _

theorem patchMrg_does {s : FS} {x b : List UInt8} {off : Nat} (h : Ck zs es s) (hx : s.mrg = some x) :
    Does (Ck zs es) (patchMrg off b) s () { s with mrg := some (overlay off b x) } := by
  unfold Does patchMrg
  rw [hx]
  refine ⟨?_, rfl, rfl⟩
  intro c hc
  obtain ⟨y, hy, rfl⟩ := List.mem_map.1 hc
  exact h.mrg _

theorem cleanup_does {s : FS} (h : s.dst = some (finalFile J zs es)) :
    Does (Between J zs es) cleanup s () { dst := some (finalFile J zs es) } := by
  unfold cleanup
  have e : ({ dst := some (finalFile J zs es) } : FS) = { s with mrg := none, pst := none, dct := none } := by
    cases s; simp at h; simp [h]
  rw [e]
  refine Does.bind (Does.step (Or.inr h) (Or.inr h)) ?_
  refine Does.bind (Does.step (Or.inr h) (Or.inr h)) ?_
  exact Does.step (Or.inr h) (Or.inr h)

theorem overlay_mid {a b c d : List UInt8} (h : b.length = c.length) : overlay a.length c (a ++ b ++ d) = a ++ c ++ d := by
  unfold overlay
  rw [← h, List.drop_left' (by simp), List.append_assoc a b d, List.take_left' rfl]

/-- from any state an interrupted merge leaves behind, a merge ends with the new shard, and may be
interrupted again -/
theorem mergeRun_does (h : Plan J E l zs es) {s : FS} (hs : Between J zs es s) (hin : s.pst = none ∨ ∀ e ∈ es, e.In64) :
    Does (Between J zs es) (mergeRun J) s () { dst := some (finalFile J zs es) } := by
  unfold mergeRun
  refine Does.bind (Does.see hs _) ?_
  rcases hs with hs | hs
  · rw [hs.dst]
    simp only [Option.isSome_none, Bool.false_eq_true, if_false]
    have w : ∀ s, Ck zs es s → Between J zs es s := fun s h => Or.inl h
    refine Does.bind (Does.mono (Does.step hs (hs.mrg none)) w) ?_
    refine Does.bind (Does.mono (Does.step (hs.mrg none) (hs.mrg (some []))) w) ?_
    refine Does.bind (Does.mono (appendMrg_does (hs.mrg (some [])) rfl) w) ?_
    refine Does.bind (Does.mono (mergeIdx_does h (hs.mrg _) hin) w) ?_
    have hc : Ck zs es { s with pst := some zs, dct := some (dirBytes es) } :=
      ⟨hs.dst, fun p hp => by cases hp; simp, fun p hp => by cases hp; simp⟩
    refine Does.bind (Does.mono (appendMrg_does (hc.mrg _) rfl) w) ?_
    refine Does.bind (Does.mono (appendMrg_does (hc.mrg _) rfl) w) ?_
    refine Does.bind (Does.mono (patchMrg_does (hc.mrg _) rfl) w) ?_
    have hfin : overlay (fileMagic ++ J.dna ++ [10]).length
        (blobDictionary [⟨idxName, ((fileMagic ++ J.dna ++ [10]).length + (blobDictionary [⟨idxName, 0, 0⟩, ⟨txtName, 0, 0⟩]).length : Nat), (idxBlob zs es).length⟩,
          ⟨txtName, ((fileMagic ++ J.dna ++ [10]).length + (blobDictionary [⟨idxName, 0, 0⟩, ⟨txtName, 0, 0⟩]).length : Nat) + (idxBlob zs es).length, J.txt.length⟩])
        ([] ++ (fileMagic ++ J.dna ++ [10] ++ blobDictionary [⟨idxName, 0, 0⟩, ⟨txtName, 0, 0⟩]) ++ idxBlob zs es ++ J.txt)
        = finalFile J zs es := by
      rw [List.nil_append, List.append_assoc (fileMagic ++ J.dna ++ [10] ++ _) (idxBlob zs es) J.txt]
      rw [overlay_mid (by rw [blobDictionary_length, blobDictionary_length])]
      unfold finalFile hazelFile
      simp only [List.append_assoc]
    rw [hfin]
    have hd : ∀ m, ({ s with pst := some zs, dct := some (dirBytes es), mrg := m } : FS).dst = none := fun _ => hs.dst
    refine Does.bind (Does.step (Or.inl (hc.mrg _)) (Or.inr ?_)) (cleanup_does ?_)
    · simp only [hs.dst]; rfl
    · simp only [hs.dst]; rfl
  · rw [hs]
    simp only [Option.isSome_some, if_true]
    exact cleanup_does hs

end

/-! ### interruptions -/

/-- what may be lost when the machine goes down: the ends of the checkpoints, or the checkpoints, and anything of
the temporary file -/
structure Lost (s t : FS) : Prop where
  pst : ∀ p, t.pst = some p → ∃ p', s.pst = some p' ∧ p <+: p'
  dct : ∀ q, t.dct = some q → ∃ q', s.dct = some q' ∧ q <+: q'
  dst : t.dst = s.dst

/-- the files after any number of interrupted merges, from nothing -/
inductive Interrupted (J : Job) : FS → Prop
  | start : Interrupted J {}
  | killed {s t : FS} : Interrupted J s → t ∈ (mergeRun J s).crashes → Interrupted J t
  | lost {s t : FS} : Interrupted J s → Lost s t → Interrupted J t

theorem interrupted_between {J : Job} {E : Option Posting} {l : List (Int × Posting)} {zs : List UInt8} {es : List Entry}
    (h : Plan J E l zs es) (hin : ∀ e ∈ es, e.In64) {s : FS} (hs : Interrupted J s) : Between J zs es s := by
  induction hs with
  | start => exact Or.inl ⟨rfl, (fun p hp => by cases hp), (fun p hp => by cases hp)⟩
  | killed _ ht ih => exact (mergeRun_does h ih (Or.inr hin)).1 _ ht
  | lost _ hl ih =>
    rcases ih with ih | ih
    · refine Or.inl ⟨hl.dst.trans ih.dst, ?_, ?_⟩
      · intro p hp
        obtain ⟨p', h1, h2⟩ := hl.pst p hp
        exact h2.trans (ih.pst p' h1)
      · intro p hp
        obtain ⟨p', h1, h2⟩ := hl.dct p hp
        exact h2.trans (ih.dct p' h1)
    · exact Or.inr (hl.dst.trans ih)

end Verif.Hazel
