import Verif.Hazel.Model
import Verif.Store.IndexProof
namespace Verif.Hazel
open Verif.Hopper Verif.Store

/-! ### writing -/

theorem put_stop {pc fc : Codec} {pos f : Int} {P : Posting} {z : List UInt8} {e : Entry}
    (h : put pc fc pos f P = some (z, e)) : e.feature = f ∧ e.stop = pos + z.length := by
  unfold put at h
  cases hi : inlineAt P with
  | some p => rw [hi] at h; cases h; simp
  | none =>
    rw [hi] at h
    cases hw : P.write pc fc with
    | none => rw [hw] at h; cases h
    | some w => rw [hw] at h; cases h; exact ⟨rfl, rfl⟩

/-- what is written, entry by entry -/
theorem putAll_spec {pc fc : Codec} : ∀ {l : List (Int × Posting)} {pos : Int} {zs : List UInt8} {es : List Entry},
    putAll pc fc pos l = some (zs, es) →
    es.map (·.feature) = l.map (·.1) ∧
    ∀ i f P, l[i]? = some (f, P) → ∃ pre z post e, zs = pre ++ z ++ post ∧
      put pc fc (pos + pre.length) f P = some (z, e) ∧ es[i]? = some e ∧
      (i = 0 → pre = []) ∧ (∀ e', 0 < i → es[i - 1]? = some e' → e'.stop = pos + pre.length) := by
  intro l
  induction l with
  | nil =>
    intro pos zs es h
    cases h
    exact ⟨rfl, fun i f P h => by simp at h⟩
  | cons x l ih =>
    obtain ⟨g, Q⟩ := x
    intro pos zs es h
    unfold putAll at h
    cases h1 : put pc fc pos g Q with
    | none => rw [h1] at h; cases h
    | some y =>
      obtain ⟨z, e⟩ := y
      rw [h1] at h
      simp only [Option.bind_eq_bind, Option.bind_some] at h
      cases h2 : putAll pc fc (pos + z.length) l with
      | none => rw [h2] at h; cases h
      | some y =>
        obtain ⟨zs', es'⟩ := y
        rw [h2] at h
        cases h
        obtain ⟨hm, hi⟩ := ih h2
        have hs := put_stop h1
        refine ⟨by simp [hm, hs.1], ?_⟩
        intro i f P hl
        cases i with
        | zero =>
          cases hl
          exact ⟨[], z, zs', e, by simp, by simpa using h1, rfl, fun _ => rfl, fun _ h => by omega⟩
        | succ i =>
          obtain ⟨pre, z2, post, e2, a1, a2, a3, a4, a5⟩ := hi i f P (by simpa using hl)
          refine ⟨z ++ pre, z2, post, e2, by simp [a1], ?_, by simpa using a3, fun h => by omega, ?_⟩
          · rw [show (pos + ((z ++ pre).length : Int)) = pos + z.length + pre.length by simp; omega]
            exact a2
          · intro e' _ he
            cases i with
            | zero =>
              have : e' = e := by simpa using he.symm
              subst this
              rw [a4 rfl, hs.2]; simp
            | succ i =>
              have := a5 e' (by omega) (by simpa using he)
              rw [this]; simp; omega

theorem putAll_append {pc fc : Codec} : ∀ {l m : List (Int × Posting)} {pos : Int},
    putAll pc fc pos (l ++ m) = do
      let (a, d) ← putAll pc fc pos l
      let (b, e) ← putAll pc fc (pos + a.length) m
      return (a ++ b, d ++ e) := by
  intro l
  induction l with
  | nil =>
    intro m pos
    simp only [putAll, List.nil_append, Option.bind_eq_bind, Option.bind_some, List.length_nil,
      Option.pure_def]
    rw [show pos + ((0 : Nat) : Int) = pos by omega]
    cases putAll pc fc pos m with
    | none => rfl
    | some y => rfl
  | cons x l ih =>
    obtain ⟨g, Q⟩ := x
    intro m pos
    simp only [putAll, List.cons_append, Option.bind_eq_bind]
    cases put pc fc pos g Q with
    | none => rfl
    | some y =>
      obtain ⟨z, e⟩ := y
      simp only [Option.bind_some, ih, Option.bind_eq_bind]
      cases putAll pc fc (pos + z.length) l with
      | none => rfl
      | some y =>
        obtain ⟨a, d⟩ := y
        simp only [Option.bind_some, Option.pure_def]
        rw [show pos + (((z ++ a).length : Nat) : Int) = pos + z.length + a.length by simp; omega]
        cases putAll pc fc (pos + z.length + a.length) m with
        | none => rfl
        | some y => simp

/-- the ends of the entries -/
theorem putAll_stops {pc fc : Codec} : ∀ {l : List (Int × Posting)} {pos : Int} {zs : List UInt8} {es : List Entry},
    putAll pc fc pos l = some (zs, es) →
    es.Pairwise (fun a b => a.stop ≤ b.stop) ∧ (∀ e ∈ es, pos ≤ e.stop ∧ e.stop ≤ pos + zs.length) := by
  intro l
  induction l with
  | nil => intro pos zs es h; cases h; simp
  | cons x l ih =>
    obtain ⟨g, Q⟩ := x
    intro pos zs es h
    unfold putAll at h
    cases h1 : put pc fc pos g Q with
    | none => rw [h1] at h; cases h
    | some y =>
      obtain ⟨z, e⟩ := y
      rw [h1] at h
      simp only [Option.bind_eq_bind, Option.bind_some] at h
      cases h2 : putAll pc fc (pos + z.length) l with
      | none => rw [h2] at h; cases h
      | some y =>
        obtain ⟨zs', es'⟩ := y
        rw [h2] at h
        cases h
        have hs := (put_stop h1).2
        obtain ⟨p1, p2⟩ := ih h2
        refine ⟨List.pairwise_cons.2 ⟨fun b hb => ?_, p1⟩, ?_⟩
        · have := p2 b hb; omega
        · intro b hb
          simp only [List.length_append]
          rcases List.mem_cons.1 hb with rfl | hb
          · omega
          · have := p2 b hb; omega

/-! ### reading the directory back -/

theorem entryBytes_length (e : Entry) : (entryBytes e).length = 24 := addrsBytes_length _

theorem dirBytes_length (d : List Entry) : (dirBytes d).length = 24 * d.length := by
  induction d with
  | nil => rfl
  | cons e d ih => simp only [dirBytes, List.flatMap_cons, List.length_append, entryBytes_length,
      List.length_cons] at *; omega

theorem dirBytes_append (d e : List Entry) : dirBytes (d ++ e) = dirBytes d ++ dirBytes e := by
  simp [dirBytes]

/-- the members fit their eight bytes -/
def Entry.In64 (e : Entry) : Prop := Store.In64 e.feature ∧ Store.In64 e.stop ∧ Store.In64 e.cp

theorem entryOf_bytes {e : Entry} (h : e.In64) (rest : List UInt8) : entryOf (entryBytes e ++ rest) = e := by
  obtain ⟨h1, h2, h3⟩ := h
  unfold entryOf entryBytes
  simp only [addrsBytes, List.append_nil, List.append_assoc]
  have l := addrBytes_length
  rw [List.take_left' (l _), List.drop_left' (l _), List.take_left' (l _),
    show (16 : Nat) = 8 + 8 from rfl, ← List.drop_drop, List.drop_left' (l _), List.drop_left' (l _),
    List.take_left' (l _), bytesAddr_addrBytes h1, bytesAddr_addrBytes h2, bytesAddr_addrBytes h3]

theorem loadDir_ok {off : Int} : ∀ {es : List Entry} {last : Option Int} {rest : List UInt8},
    (∀ e ∈ es, e.In64) → (∀ e ∈ es, headerLen ≤ e.stop ∧ e.stop ≤ off) →
    (∀ s, last = some s → ∀ e ∈ es, s ≤ e.stop) → es.Pairwise (fun a b => a.stop ≤ b.stop) →
    loadDir off last es.length (dirBytes es ++ rest) = some es := by
  intro es
  induction es with
  | nil => intros; rfl
  | cons e es ih =>
    intro last rest h64 hb hl hp
    rw [List.pairwise_cons] at hp
    have e1 : dirBytes (e :: es) ++ rest = entryBytes e ++ (dirBytes es ++ rest) := by simp [dirBytes]
    rw [List.length_cons, loadDir, e1, entryOf_bytes (h64 e (by simp)), List.drop_left' (entryBytes_length e)]
    rw [if_neg, ih (fun x hx => h64 x (by simp [hx])) (fun x hx => hb x (by simp [hx]))
      (by intro s hs x hx; cases hs; exact hp.1 x hx) hp.2]
    · rfl
    · have := hb e (by simp)
      have h2 : last.any (fun s => decide (e.stop < s)) = false := by
        cases last with
        | none => rfl
        | some s => have := hl s rfl e (by simp); simp; omega
      rw [h2]
      simp; omega

theorem idxMagic_length : idxMagic.length = 21 := rfl

theorem load_ok {zs : List UInt8} {es : List Entry} (h64 : ∀ e ∈ es, e.In64)
    (hb : ∀ e ∈ es, headerLen ≤ e.stop ∧ e.stop ≤ headerLen + zs.length)
    (hp : es.Pairwise (fun a b => a.stop ≤ b.stop))
    (hsz : (idxBlob zs es).length ≤ 9223372036854775807) : load (idxBlob zs es) = some es := by
  have hd := dirBytes_length es
  have hlen : (idxBlob zs es).length = 45 + zs.length + 24 * es.length := by
    simp only [idxBlob, List.length_append, idxMagic_length, addrsBytes_length, hd]
    simp
  have ea : idxBlob zs es = idxMagic ++ (addrsBytes [headerLen + zs.length, (dirBytes es).length, es.length] ++
      (zs ++ dirBytes es)) := by simp [idxBlob]
  have eb : idxBlob zs es = (idxMagic ++ addrsBytes [headerLen + zs.length, (dirBytes es).length, es.length] ++ zs) ++
      (dirBytes es ++ []) := by simp [idxBlob]
  have hb3 : bytesAddrs 3 ((idxBlob zs es).drop 21) = [headerLen + zs.length, (dirBytes es).length, es.length] := by
    rw [ea, List.drop_left' idxMagic_length]
    apply bytesAddrs_addrsBytes (l := [headerLen + zs.length, (dirBytes es).length, es.length])
    intro a ha
    simp only [List.mem_cons, List.not_mem_nil, or_false] at ha
    rcases ha with rfl | rfl | rfl <;> constructor <;> omega
  have ht : (idxBlob zs es).take 21 = idxMagic := by rw [ea, List.take_left' idxMagic_length]
  have hdrop : (idxBlob zs es).drop (headerLen + zs.length).toNat = dirBytes es ++ [] := by
    rw [eb]
    apply List.drop_left'
    simp only [List.length_append, idxMagic_length, addrsBytes_length, List.length_cons, List.length_nil]
    omega
  unfold load
  rw [hb3, ht]
  rw [if_neg (by omega), if_neg (by simp)]
  dsimp only
  rw [if_neg (by omega), hdrop, Int.toNat_natCast]
  exact loadDir_ok h64 hb (fun s h => by cases h) hp

/-! ### binary search -/

theorem lowerBound_ok {d : List Entry} {f : Int} (hd : d.Pairwise (fun a b => a.feature < b.feature)) (len : Nat) :
    ∀ first, first + len ≤ d.length → (∀ j e, j < first → d[j]? = some e → e.feature < f) →
    (∀ j e, first + len ≤ j → d[j]? = some e → f ≤ e.feature) →
    (∀ j e, j < lowerBound d f first len → d[j]? = some e → e.feature < f) ∧
    (∀ j e, lowerBound d f first len ≤ j → d[j]? = some e → f ≤ e.feature) := by
  induction len using Nat.strongRecOn with
  | _ len ih =>
    intro first hlen hlo hhi
    rw [lowerBound]
    by_cases h0 : len = 0
    · rw [if_pos h0]
      subst h0
      exact ⟨hlo, fun j e hj he => hhi j e (by omega) he⟩
    · rw [if_neg h0]
      dsimp only
      have hin : first + len / 2 < d.length := by omega
      rw [List.getElem?_eq_getElem hin]
      have mono : ∀ (i j : Nat) (a b : Entry), i < j → d[i]? = some a → d[j]? = some b → a.feature < b.feature := by
        intro i j a b hij ha hb
        obtain ⟨hi, rfl⟩ := List.getElem?_eq_some_iff.1 ha
        obtain ⟨hj, rfl⟩ := List.getElem?_eq_some_iff.1 hb
        exact List.pairwise_iff_getElem.1 hd i j hi hj hij
      have hmid := List.getElem?_eq_getElem hin
      dsimp only
      split
      · rename_i hlt
        apply ih (len - len / 2 - 1) (by omega) (first + len / 2 + 1) (by omega)
        · intro j e hj he
          by_cases hje : j = first + len / 2
          · subst hje; rw [hmid] at he; cases he; exact hlt
          · have := mono j _ e _ (by omega) he hmid; omega
        · intro j e hj he
          exact hhi j e (by omega) he
      · rename_i hge
        apply ih (len / 2) (by omega) first (by omega) hlo
        intro j e hj he
        by_cases hje : j = first + len / 2
        · subst hje; rw [hmid] at he; cases he; omega
        · have := mono _ j _ e (by omega) hmid he; omega

theorem locate_some {d : List Entry} {f : Int} (hd : d.Pairwise (fun a b => a.feature < b.feature)) {i : Nat} {e : Entry}
    (he : d[i]? = some e) (hf : e.feature = f) : locate d f = some i := by
  have mono : ∀ (i j : Nat) (a b : Entry), i < j → d[i]? = some a → d[j]? = some b → a.feature < b.feature := by
    intro i j a b hij ha hb
    obtain ⟨hi, rfl⟩ := List.getElem?_eq_some_iff.1 ha
    obtain ⟨hj, rfl⟩ := List.getElem?_eq_some_iff.1 hb
    exact List.pairwise_iff_getElem.1 hd i j hi hj hij
  obtain ⟨h1, h2⟩ := lowerBound_ok (f := f) hd d.length 0 (by omega) (fun j e h => by omega)
    (fun j e h he => by have := (List.getElem?_eq_some_iff.1 he).1; omega)
  have : lowerBound d f 0 d.length = i := by
    rcases Nat.lt_trichotomy (lowerBound d f 0 d.length) i with h | h | h
    · have hin : lowerBound d f 0 d.length < d.length := by
        have := (List.getElem?_eq_some_iff.1 he).1; omega
      have a := h2 _ _ (Nat.le_refl _) (List.getElem?_eq_getElem hin)
      have b := mono _ i _ e h (List.getElem?_eq_getElem hin) he
      omega
    · exact h
    · have := h1 i e h he; omega
  unfold locate
  rw [this]
  dsimp only
  rw [he]
  simp [hf]

theorem locate_none {d : List Entry} {f : Int} (h : ∀ e ∈ d, e.feature ≠ f) : locate d f = none := by
  unfold locate
  dsimp only
  split
  · rename_i e he
    rw [if_pos (h e (List.mem_of_getElem? he))]
  · rfl

/-! ### looking up -/

/-- a posting as it is read back: an inlined one in its simplest form -/
def reread (P : Posting) : Posting :=
  match inlineAt P with
  | some p => ({ feature := P.feature } : Posting).push ⟨p, p, 0⟩
  | none => P

theorem write_nonempty {pc fc : Codec} {P : Posting} {z : List UInt8} (h : P.write pc fc = some z) : 40 ≤ z.length := by
  unfold Posting.write at h
  dsimp only at h
  split at h
  · cases h; rw [addrsBytes_length]; simp
  · cases h1 : pc.crush (addrsBytes P.ps) with
    | none => rw [h1] at h; cases h
    | some a =>
      rw [h1] at h
      simp only [Option.bind_eq_bind, Option.bind_some] at h
      rw [Option.bind_eq_some_iff] at h
      obtain ⟨b, hb, h⟩ := h
      rw [Option.bind_eq_some_iff] at h
      obtain ⟨c, hc, h⟩ := h
      cases h
      simp only [List.length_append, addrsBytes_length, List.length_cons, List.length_nil]
      omega

theorem append_empty {f : Int} {P : Posting} (hf : P.feature = f) : ({ feature := f } : Posting).append P = P := by
  unfold Posting.append
  cases P with
  | mk g ps qs fs =>
    simp only at hf
    subst hf
    cases qs with
    | nil => cases fs <;> simp [resize0]
    | cons => cases fs <;> simp [resize0]

/-- what a good list of postings is -/
structure GoodList (pc fc : Codec) (l : List (Int × Posting)) : Prop where
  sorted : l.Pairwise (fun a b => a.1 < b.1)
  feature : ∀ x ∈ l, x.2.feature = x.1
  store : ∀ x ∈ l, Storable pc fc x.2

theorem inline_in64 {pc fc : Codec} {P : Posting} (h : Storable pc fc P) {p : Int} (hp : inlineAt P = some p) : In64 p := by
  unfold inlineAt at hp
  split at hp
  · split at hp
    · rename_i a ha
      split at hp
      · cases hp
        apply h.ps64
        unfold Posting.get at ha
        split at ha
        · cases hx : P.ps[0]? with
          | none => rw [hx] at ha; cases ha
          | some x =>
            rw [hx] at ha
            have hx' := List.mem_of_getElem? hx
            simp only [Option.bind_eq_bind, Option.bind_some, Option.pure_def] at ha
            split at ha
            · rw [Option.bind_eq_some_iff] at ha
              obtain ⟨_, _, ha⟩ := ha
              split at ha
              · rw [Option.bind_eq_some_iff] at ha
                obtain ⟨_, _, ha⟩ := ha
                cases ha; exact hx'
              · cases ha; exact hx'
            · split at ha
              · rw [Option.bind_eq_some_iff] at ha
                obtain ⟨_, _, ha⟩ := ha
                cases ha; exact hx'
              · cases ha; exact hx'
        · cases ha
      · cases hp
    · cases hp
  · cases hp

theorem entries_in64 {pc fc : Codec} {l : List (Int × Posting)} (feature : ∀ x ∈ l, x.2.feature = x.1)
    (store : ∀ x ∈ l, Storable pc fc x.2) {zs : List UInt8} {es : List Entry}
    (hp : putAll pc fc headerLen l = some (zs, es)) (hsz : 45 + zs.length ≤ 9223372036854775807) : ∀ e ∈ es, e.In64 := by
  obtain ⟨hm, hi⟩ := putAll_spec hp
  obtain ⟨s1, s2⟩ := putAll_stops hp
  have hll : es.length = l.length := by simpa using congrArg List.length hm
  intro e he
  obtain ⟨i, hin, hie⟩ := List.mem_iff_getElem.1 he
  have hil : i < l.length := by omega
  obtain ⟨pre, z, post, e2, a1, a2, a3, _, _⟩ := hi i l[i].1 l[i].2 (List.getElem?_eq_getElem hil)
  rw [List.getElem?_eq_getElem hin, hie] at a3
  cases a3
  have hs := put_stop a2
  have hx := List.getElem_mem hil
  have st := store _ hx
  have hb := s2 e he
  refine ⟨?_, ?_, ?_⟩
  · rw [hs.1, ← feature _ hx]; exact st.feature
  · constructor <;> omega
  · unfold put at a2
    cases hin' : inlineAt l[i].2 with
    | some p => rw [hin'] at a2; cases a2; exact inline_in64 st hin'
    | none =>
      rw [hin'] at a2
      cases hw : l[i].2.write pc fc with
      | none => rw [hw] at a2; cases a2
      | some w =>
        rw [hw] at a2; cases a2
        have := st.count
        simp only [Posting.size]
        constructor <;> omega

/-- every posting of the list is found, and nothing else -/
theorem lookup {pc fc : Codec} {l : List (Int × Posting)} (g : GoodList pc fc l) {blob : List UInt8}
    (hw : writeIdx pc fc l = some blob) (hsz : blob.length ≤ 9223372036854775807) :
    ∃ H, openIdx blob = some H ∧ H.dir.map (·.feature) = l.map (·.1) ∧
      H.dir.Pairwise (fun a b => a.feature < b.feature) ∧
      (∀ f, f ∉ l.map (·.1) → locate H.dir f = none) ∧
      ∀ f P, (f, P) ∈ l → ∃ i e, locate H.dir f = some i ∧ H.dir[i]? = some e ∧ e.feature = f ∧
        ((∃ p, inlineAt P = some p ∧ postingStart H.dir i = e.stop ∧ e.cp = p) ∨
         (inlineAt P = none ∧ postingStart H.dir i < e.stop ∧ e.cp = P.size ∧
           readBlob pc fc (H.slice (postingStart H.dir i) e.stop) = some P)) := by
  unfold writeIdx at hw
  cases hp : putAll pc fc headerLen l with
  | none => rw [hp] at hw; cases hw
  | some y =>
    obtain ⟨zs, es⟩ := y
    rw [hp] at hw
    cases hw
    obtain ⟨hm, hi⟩ := putAll_spec hp
    obtain ⟨s1, s2⟩ := putAll_stops hp
    have hlen : (idxBlob zs es).length = 45 + zs.length + 24 * es.length := by
      simp only [idxBlob, List.length_append, idxMagic_length, addrsBytes_length, dirBytes_length]
      simp
    have hll : es.length = l.length := by simpa using congrArg List.length hm
    have h64 : ∀ e ∈ es, e.In64 := entries_in64 g.feature g.store hp (by omega)
    have hload : load (idxBlob zs es) = some es := load_ok h64 (fun e he => s2 e he) s1 hsz
    have hsort : es.Pairwise (fun a b => a.feature < b.feature) := by
      rw [List.pairwise_iff_getElem]
      intro i j hi' hj' hij
      have e1 : es[i].feature = l[i].1 := by
        have := congrArg (·[i]?) hm
        simp only [List.getElem?_map] at this
        rw [List.getElem?_eq_getElem hi', List.getElem?_eq_getElem (by omega)] at this
        simpa using this
      have e2 : es[j].feature = l[j].1 := by
        have := congrArg (·[j]?) hm
        simp only [List.getElem?_map] at this
        rw [List.getElem?_eq_getElem hj', List.getElem?_eq_getElem (by omega)] at this
        simpa using this
      rw [e1, e2]
      exact List.pairwise_iff_getElem.1 g.sorted i j (by omega) (by omega) hij
    refine ⟨⟨idxBlob zs es, es⟩, by simp [openIdx, hload], hm, hsort, ?_, ?_⟩
    · intro f hf
      apply locate_none
      intro e he hfe
      apply hf
      rw [← hm]
      exact List.mem_map.2 ⟨e, he, hfe⟩
    · intro f P hmem
      obtain ⟨i, hin, hie⟩ := List.mem_iff_getElem.1 hmem
      obtain ⟨pre, z, post, e, a1, a2, a3, a4, a5⟩ := hi i f P (by rw [List.getElem?_eq_getElem hin, hie])
      have hs := put_stop a2
      refine ⟨i, e, locate_some hsort a3 hs.1, a3, hs.1, ?_⟩
      have hstart : postingStart es i = headerLen + pre.length := by
        unfold postingStart
        by_cases h0 : i = 0
        · rw [if_pos h0, a4 h0]; simp
        · rw [if_neg h0]
          have : i - 1 < es.length := by omega
          rw [List.getElem?_eq_getElem this]
          exact a5 _ (by omega) (List.getElem?_eq_getElem this)
      dsimp only
      unfold put at a2
      cases hinl : inlineAt P with
      | some p =>
        rw [hinl] at a2; cases a2
        exact .inl ⟨p, rfl, hstart, rfl⟩
      | none =>
        rw [hinl] at a2
        cases hw : P.write pc fc with
        | none => rw [hw] at a2; cases a2
        | some w =>
          rw [hw] at a2
          obtain ⟨rfl, rfl⟩ : w = z ∧ (⟨f, headerLen + pre.length + w.length, P.size⟩ : Entry) = e := by
            simpa using a2
          right
          have h40 := write_nonempty hw
          refine ⟨rfl, by rw [hstart]; dsimp only; omega, rfl, ?_⟩
          obtain ⟨b, b1, _, b3, _⟩ := write_read (g.store _ hmem)
          rw [hw] at b1
          cases b1
          have := b3 []
          rw [List.append_nil] at this
          rw [show HIdx.slice ⟨idxBlob zs es, es⟩ (postingStart es i) (headerLen + ↑pre.length + ↑w.length) = w from ?_]
          · exact this
          · unfold HIdx.slice
            rw [hstart]
            dsimp only
            have eb : idxBlob zs es = (idxMagic ++ addrsBytes [headerLen + zs.length, (dirBytes es).length, es.length] ++ pre) ++
                (w ++ (post ++ dirBytes es)) := by
              simp only [idxBlob, a1, List.append_assoc]
            rw [eb, List.drop_left' (by
              simp only [List.length_append, idxMagic_length, addrsBytes_length, List.length_cons, List.length_nil]; omega),
              List.take_left' (by omega)]

end Verif.Hazel
