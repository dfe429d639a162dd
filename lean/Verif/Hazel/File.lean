import Verif.Hazel.Proof
namespace Verif.Hazel
open Verif.Hopper Verif.Store Verif.Gcl

/-! ### the file -/

theorem skipLines_line : ∀ {x : List UInt8} {b : Bool} {s : List UInt8}, 10 ∉ x → (x ≠ [] ∨ b = false) →
    skipLines b (x ++ 10 :: s) = skipLines true s := by
  intro x
  induction x with
  | nil => intro b s _ h; simp at h; subst h; rfl
  | cons c x ih =>
    intro b s hx _
    simp only [List.mem_cons, not_or] at hx
    rw [List.cons_append, skipLines, if_neg (fun h => hx.1 h.symm), ih hx.2 (.inr rfl)]

/-- lines of text, none of them empty -/
def Lines (dna : List UInt8) (lines : List (List UInt8)) : Prop :=
  dna = lines.flatMap (· ++ [10]) ∧ ∀ x ∈ lines, x ≠ [] ∧ 10 ∉ x

theorem skipLines_dna : ∀ {lines : List (List UInt8)} {s : List UInt8}, (∀ x ∈ lines, x ≠ [] ∧ 10 ∉ x) →
    skipLines true (lines.flatMap (· ++ [10]) ++ 10 :: s) = some s := by
  intro lines
  induction lines with
  | nil => intros; rfl
  | cons x lines ih =>
    intro s h
    have := h x (by simp)
    simp only [List.flatMap_cons, List.append_assoc, List.singleton_append, List.cons_append, List.nil_append]
    rw [skipLines_line this.2 (.inl this.1)]
    exact ih fun y hy => h y (by simp [hy])

theorem readN_append (a b : List UInt8) {n : Nat} (h : a.length = n) : readN n (a ++ b) = some (a, b) := by
  subst h
  simp [readN]

theorem readBlobs_ok : ∀ {bs : List Blob} {rest : List UInt8},
    (∀ b ∈ bs, b.name.length ≤ 9223372036854775807 ∧ 0 ≤ b.offset ∧ b.offset ≤ 9223372036854775807 ∧
      0 ≤ b.length ∧ b.length ≤ 9223372036854775807) →
    readBlobs bs.length ((bs.flatMap fun b => addrBytes b.name.length ++ b.name ++ addrBytes b.offset ++
      addrBytes b.length) ++ rest) = some bs := by
  intro bs
  induction bs with
  | nil => intros; rfl
  | cons b bs ih =>
    intro rest h
    obtain ⟨h1, h2, h3, h4, h5⟩ := h b (by simp)
    have l := addrBytes_length
    simp only [List.length_cons, List.flatMap_cons, List.append_assoc, readBlobs]
    rw [readN_append _ _ (l _)]
    simp only [Option.bind_eq_bind, Option.bind_some]
    rw [bytesAddr_addrBytes ⟨by omega, by omega⟩, if_neg (by omega), Int.toNat_natCast, readN_append _ _ rfl]
    simp only [Option.bind_some]
    rw [readN_append _ _ (l _)]
    simp only [Option.bind_some]
    rw [readN_append _ _ (l _)]
    simp only [Option.bind_some]
    rw [bytesAddr_addrBytes ⟨by omega, by omega⟩, bytesAddr_addrBytes ⟨by omega, by omega⟩, if_neg (by omega)]
    have := ih (rest := rest) fun x hx => h x (by simp [hx])
    simp only [List.append_assoc] at this
    rw [this]
    rfl

theorem blobDictionary_length (a b c d : Int) :
    (blobDictionary [⟨idxName, a, b⟩, ⟨txtName, c, d⟩]).length = 85 := by
  simp [blobDictionary, addrBytes_length, dictMagic, idxName, txtName]

/-- The two blobs are found again. -/
theorem openFile_ok {dna idx txt : List UInt8} {lines : List (List UInt8)} (hd : Lines dna lines)
    (hsz : (hazelFile dna idx txt).length ≤ 9223372036854775807) :
    openFile (hazelFile dna idx txt) = some (idx, txt) := by
  have hb := blobDictionary_length
  have hlen : (hazelFile dna idx txt).length = dna.length + 13 + 85 + idx.length + txt.length := by
    simp only [hazelFile, List.length_append, hb, fileMagic, List.length_cons, List.length_nil]; omega
  generalize hi : ((dna.length + 13 + 85 : Nat) : Int) = i
  have hhead : (fileMagic ++ dna ++ [10]).length + 85 = dna.length + 13 + 85 := by simp [fileMagic]
  have e0 : hazelFile dna idx txt = (fileMagic ++ dna ++ [10]) ++
      blobDictionary [⟨idxName, i, idx.length⟩, ⟨txtName, i + idx.length, txt.length⟩] ++ idx ++ txt := by
    simp only [hazelFile, hb]
    rw [hhead, hi]
  have hdict : readDictionary (hazelFile dna idx txt) =
      some [⟨idxName, i, idx.length⟩, ⟨txtName, i + idx.length, txt.length⟩] := by
    have hskip : skipDna (hazelFile dna idx txt) = some (blobDictionary [⟨idxName, i, idx.length⟩,
        ⟨txtName, i + idx.length, txt.length⟩] ++ idx ++ txt) := by
      rw [e0]
      unfold skipDna
      rw [show ((fileMagic ++ dna ++ [10]) ++ blobDictionary [⟨idxName, i, idx.length⟩,
          ⟨txtName, i + idx.length, txt.length⟩] ++ idx ++ txt) = fileMagic ++ (dna ++ 10 ::
          (blobDictionary [⟨idxName, i, idx.length⟩, ⟨txtName, i + idx.length, txt.length⟩] ++ idx ++ txt)) by simp]
      rw [List.take_left' (show fileMagic.length = 12 from rfl), if_neg (by simp), List.drop_left' (show fileMagic.length = 12 from rfl), hd.1]
      exact skipLines_dna hd.2
    unfold readDictionary
    rw [hskip]
    simp only [Option.bind_eq_bind, Option.bind_some, blobDictionary, List.append_assoc]
    rw [readN_append _ _ (show dictMagic.length = 23 from rfl)]
    simp only [Option.bind_some]
    rw [if_neg (by simp), readN_append _ _ (addrBytes_length _)]
    simp only [Option.bind_some]
    rw [bytesAddr_addrBytes ⟨by simp, by simp⟩, if_neg (by simp), Int.toNat_natCast]
    have := readBlobs_ok (bs := [⟨idxName, i, idx.length⟩, ⟨txtName, i + idx.length, txt.length⟩]) (rest := idx ++ txt) (by
      intro b hb'
      simp only [List.mem_cons, List.not_mem_nil, or_false] at hb'
      rcases hb' with rfl | rfl <;> refine ⟨by simp [idxName, txtName], ?_, ?_, ?_, ?_⟩ <;> simp only <;> omega)
    simp only [List.append_assoc] at this
    exact this
  unfold openFile
  rw [hdict]
  have f1 : findBlob idxName [⟨idxName, i, idx.length⟩, ⟨txtName, i + idx.length, txt.length⟩] =
      some ⟨idxName, i, idx.length⟩ := by
    simp [findBlob, List.filter, idxName, txtName]
  have f2 : findBlob txtName [⟨idxName, i, idx.length⟩, ⟨txtName, i + idx.length, txt.length⟩] =
      some ⟨txtName, i + idx.length, txt.length⟩ := by
    simp [findBlob, List.filter, idxName, txtName]
  simp only [Option.bind_eq_bind, Option.bind_some, f1, f2, Option.pure_def]
  rw [e0]
  have l1 : ((fileMagic ++ dna ++ [10]) ++ blobDictionary [⟨idxName, i, idx.length⟩,
      ⟨txtName, i + idx.length, txt.length⟩]).length = i.toNat := by
    rw [List.length_append, hb]; omega
  congr 1
  refine Prod.ext ?_ ?_
  · dsimp only
    rw [List.append_assoc, List.drop_left' l1]
    exact List.take_left' (by omega)
  · dsimp only
    rw [List.drop_left' (by rw [List.length_append, l1]; omega)]
    exact List.take_of_length_le (by omega)

end Verif.Hazel

namespace Verif.Hazel
open Verif.Hopper Verif.Store Verif.Gcl

theorem put_some {pc fc : Codec} {pos f : Int} {P : Posting} (h : Storable pc fc P) : ∃ y, put pc fc pos f P = some y := by
  unfold put
  cases inlineAt P with
  | some p => exact ⟨_, rfl⟩
  | none =>
    obtain ⟨b, hb, _⟩ := write_read h
    rw [hb]
    exact ⟨_, rfl⟩

theorem putAll_some {pc fc : Codec} : ∀ {l : List (Int × Posting)} {pos : Int}, (∀ x ∈ l, Storable pc fc x.2) →
    ∃ y, putAll pc fc pos l = some y := by
  intro l
  induction l with
  | nil => intro pos _; exact ⟨_, rfl⟩
  | cons x l ih =>
    intro pos h
    obtain ⟨f, P⟩ := x
    obtain ⟨⟨z, e⟩, hy⟩ := put_some (pos := pos) (f := f) (h (f, P) (by simp))
    obtain ⟨⟨a, b⟩, hz⟩ := ih (pos := pos + z.length) fun x hx => h x (by simp [hx])
    refine ⟨(z ++ a, e :: b), ?_⟩
    rw [putAll, hy]
    simp only [Option.bind_eq_bind, Option.bind_some]
    rw [hz]
    rfl

theorem inline_anns {P : Posting} (ok : P.Ok) {p : Int} (h : inlineAt P = some p) :
    ∃ v, isZero v = true ∧ P.anns = [⟨p, p, v⟩] := by
  unfold inlineAt at h
  split at h
  · rename_i hs
    split at h
    · rename_i a ha
      split at h
      · rename_i hc
        cases h
        refine ⟨a.v, hc.2, ?_⟩
        have hl := anns_length ok
        rw [hs] at hl
        match hP : P.anns, hl with
        | [b], _ =>
          have : P.get 0 = some b := by rw [get_eq ok, ← anns_eq ok, hP]; rfl
          rw [this] at ha
          cases ha
          obtain ⟨p, q, v⟩ := a
          simp only at hc
          rw [← hc.1]
      · cases h
    · cases h
  · cases h

theorem reread_anns {P : Posting} (ok : P.Ok) : (reread P).Ok ∧ (reread P).feature = P.feature ∧
    (inlineAt P = none → reread P = P) ∧ (reread P).size = P.size ∧
    (∀ p, inlineAt P = some p → (reread P).anns = [⟨p, p, 0⟩]) ∧
    ((∀ a ∈ P.anns, plus0 a = a) → (reread P).anns = P.anns) := by
  unfold reread
  cases h : inlineAt P with
  | none => exact ⟨ok, rfl, fun _ => rfl, rfl, (fun p hp => by cases hp), fun _ => rfl⟩
  | some p =>
    obtain ⟨v, hv, hP⟩ := inline_anns ok h
    have ha : (({ feature := P.feature } : Posting).push ⟨p, p, 0⟩).anns = [⟨p, p, 0⟩] := by
      rw [push_anns (empty_ok _), empty_anns]
      simp [norm, isZero]
    refine ⟨push_ok (empty_ok _) _, rfl, (fun h => by cases h), ?_, (fun q hq => by cases hq; exact ha), ?_⟩
    · rw [← anns_length ok, ← anns_length (push_ok (empty_ok _) _), ha, hP]; rfl
    · intro hz
      rw [ha, hP]
      have := hz ⟨p, p, v⟩ (by rw [hP]; simp)
      simp [plus0, hv] at this
      rw [← this]

theorem fill_ok {pc fc : Codec} {b : List UInt8} {f n : Int} {P : Posting} (h : readBlob pc fc b = some P)
    (hf : P.feature = f) (hn : (P.size : Int) = n) : fill pc fc b f n = some P := by
  unfold fill
  split
  · rename_i D hD
    have : D = P := Option.some.inj (hD.symm.trans h)
    subst this
    rw [if_pos ⟨hf, hn⟩, append_empty hf]
  · rename_i hD
    rw [h] at hD
    cases hD

/-- what a look-up of a stored posting gives -/
theorem posting_ok {pc fc : Codec} {l : List (Int × Posting)} (g : GoodList pc fc l) {blob : List UInt8}
    (hw : writeIdx pc fc l = some blob) (hsz : blob.length ≤ 9223372036854775807) :
    ∃ H, openIdx blob = some H ∧ H.vocab = l.length ∧
      H.dir.map (·.feature) = l.map (·.1) ∧ H.dir.Pairwise (fun a b => a.feature < b.feature) ∧
      (∀ f P, (f, P) ∈ l → H.posting pc fc f = some (some (reread P)) ∧ H.count f = P.size ∧
        (∃ i, locate H.dir f = some i ∧ H.postingAt pc fc i = some (reread P)) ∧
        (Listing P.anns → P.anns ≠ [] → Implements (H.obj pc fc f) (ofList (reread P).anns))) ∧
      (∀ f, f ∉ l.map (·.1) → H.posting pc fc f = some none ∧ H.count f = 0 ∧ locate H.dir f = none ∧
        Implements (H.obj pc fc f) (ofList [])) := by
  obtain ⟨H, h1, h2, hsort, h3, h4⟩ := lookup g hw hsz
  refine ⟨H, h1, by simpa [HIdx.vocab] using congrArg List.length h2, h2, hsort, ?_, ?_⟩
  · intro f P hm
    obtain ⟨i, e, e1, e2, e3, e4⟩ := h4 f P hm
    have st := g.store _ hm
    have hf := g.feature _ hm
    simp only at st hf
    have hcount : H.count f = if postingStart H.dir i = e.stop then 1 else e.cp := by
      simp [HIdx.count, e1, e2]
    rcases e4 with ⟨p, a1, a2, a3⟩ | ⟨a1, a2, a3, a4⟩
    · have hr : reread P = ({ feature := f } : Posting).push ⟨p, p, 0⟩ := by simp [reread, a1, hf]
      refine ⟨?_, ?_, ⟨i, e1, ?_⟩, ?_⟩
      · simp only [HIdx.posting, e1, e2, a2, a3, if_true, hr]
      · rw [hcount, if_pos a2]
        have := a1
        unfold inlineAt at this
        split at this
        · rename_i hs; rw [hs]; rfl
        · cases this
      · simp only [HIdx.postingAt, e2, a2, a3, if_true, hr, e3]
      · intro hl hne
        have hu : H.obj pc fc f = singleObj ⟨p, p, 0⟩ := by
          simp only [HIdx.obj, e1, e2, a2, a3, if_true]
        rw [hu, (reread_anns st.ok).2.2.2.2.1 p a1]
        obtain ⟨v, hv, hP⟩ := inline_anns st.ok a1
        rw [hP] at hl
        have : Listing [(⟨p, p, 0⟩ : Ann)] := by
          have := listing_plus0 hl
          simpa [plus0, hv] using this
        exact ⟨_, list_impl this⟩
    · have hr : reread P = P := (reread_anns st.ok).2.2.1 a1
      have hfill : fill pc fc (H.slice (postingStart H.dir i) e.stop) f e.cp = some P := by
        exact fill_ok a4 hf a3.symm
      have n1 : ¬ postingStart H.dir i = e.stop := by omega
      have n2 : ¬ postingStart H.dir i > e.stop := by omega
      refine ⟨?_, ?_, ⟨i, e1, ?_⟩, ?_⟩
      · simp only [HIdx.posting, e1, e2]
        rw [if_neg n1, if_neg n2, hfill, hr]; rfl
      · rw [hcount, if_neg n1, a3]
      · simp only [HIdx.postingAt, e2]
        rw [if_neg n1, if_neg n2, a4]
        dsimp only
        rw [if_pos (by rw [hf, e3]), hr]
      · intro hl hne
        have hu : H.obj pc fc f = arrayObj P.arrays := by
          simp only [HIdx.obj, e1, e2]
          rw [if_neg n1, if_neg n2, hfill]
        rw [hu, hr]
        exact ⟨_, array_impl hl hne (arrays_hold st.ok)⟩
  · intro f hf
    have := h3 f hf
    refine ⟨by simp [HIdx.posting, this], by simp [HIdx.count, this], this, ?_⟩
    have hu : H.obj pc fc f = emptyObj := by simp [HIdx.obj, this]
    rw [hu]
    exact ⟨_, list_impl listing_nil⟩

end Verif.Hazel
