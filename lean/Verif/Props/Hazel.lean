/-
Static shards (C25, C26).
-/
import Verif.Hazel.File
import Verif.Props.Store
namespace Verif.Props
open Verif.Hopper Verif.Gcl Verif.Store Verif.Hazel

/-- what `Storable` asks for, from the conditions of C11 -/
theorem columns_storable {pc fc : Codec} (hp : Faithful pc) (hf : Faithful fc) {P : Posting} (h : Columns P) :
    Storable pc fc P := by
  have h1 := h.count
  have h2 := qs_length h
  have h3 := fs_length h
  exact ⟨h.ok, h.feature, by omega, h.ps64, h.qs64, h.fs64,
    faithful_restores hp (by omega), faithful_restores hp (by omega), faithful_restores hf (by omega)⟩

/-! ### C25 -/

/-- **C25.** Whatever postings a shard holds, its static file can be written … -/
theorem C25_written {pc fc : Codec} {l : List (Int × Posting)} (store : ∀ x ∈ l, Storable pc fc x.2) :
    ∃ idx, writeIdx pc fc l = some idx := by
  obtain ⟨⟨a, b⟩, h⟩ := putAll_some (pos := headerLen) store
  exact ⟨_, by rw [writeIdx, h]; rfl⟩

/-- **C25.** … and when the file is opened, the postings of exactly the stored features are
found: the posting read back has the stored feature and the stored annotations, `count` is their
number, and the hopper for the feature enumerates them.  (The one difference a file can make is
the sign of a zero value: see `C25_negative_zero`.)  `l` is the shard's index in order of
features; the DNA is text without empty lines; the file is shorter than 2^63 bytes. -/
theorem C25_lookup {pc fc : Codec} {l : List (Int × Posting)}
    (sorted : l.Pairwise (fun x y => x.1 < y.1)) (feature : ∀ x ∈ l, x.2.feature = x.1)
    (store : ∀ x ∈ l, Storable pc fc x.2)
    {dna txt idx : List UInt8} {lines : List (List UInt8)} (hd : Lines dna lines)
    (hw : writeIdx pc fc l = some idx) (hsz : (hazelFile dna idx txt).length ≤ 9223372036854775807) :
    ∃ H, openFile (hazelFile dna idx txt) = some (idx, txt) ∧ openIdx idx = some H ∧
      H.vocab = l.length ∧
      (∀ f P, (f, P) ∈ l →
        ∃ R, H.posting pc fc f = some (some R) ∧ R.feature = f ∧ H.count f = P.size ∧
          R.anns.map (fun a => (a.p, a.q)) = P.anns.map (fun a => (a.p, a.q)) ∧
          ((∀ a ∈ P.anns, a.v ≠ minfinity) → R.anns = P.anns) ∧
          (Listing P.anns → P.anns ≠ [] → Implements (H.obj pc fc f) (ofList R.anns))) ∧
      (∀ f, (∀ P, (f, P) ∉ l) → H.posting pc fc f = some none ∧ H.count f = 0 ∧
        Implements (H.obj pc fc f) (ofList [])) := by
  have hle : idx.length ≤ 9223372036854775807 := by
    simp only [hazelFile, List.length_append] at hsz; omega
  obtain ⟨H, h1, h2, _, _, h3, h4⟩ := posting_ok ⟨sorted, feature, store⟩ hw hle
  refine ⟨H, openFile_ok hd hsz, h1, h2, ?_, ?_⟩
  · intro f P hm
    obtain ⟨a1, a2, _, a4⟩ := h3 f P hm
    have ok := (store _ hm).ok
    obtain ⟨_, r2, r3, _, r5, r6⟩ := reread_anns ok
    refine ⟨reread P, a1, by rw [r2]; exact feature _ hm, a2, ?_, ?_, a4⟩
    · cases hi : inlineAt P with
      | none => rw [r3 hi]
      | some p =>
        obtain ⟨v, _, hP⟩ := inline_anns ok hi
        rw [r5 p hi, hP]; rfl
    · intro hz
      apply r6
      intro a ha
      have := hz a ha
      unfold plus0 isZero
      cases a with
      | mk p q v =>
        simp only at this
        by_cases hv : v = 0
        · subst hv; simp
        · simp [hv, this]
  · intro f hf
    obtain ⟨a1, a2, _, a4⟩ := h4 f (by
      intro h
      obtain ⟨⟨g, P⟩, hm, rfl⟩ := List.mem_map.1 h
      exact hf P hm)
    exact ⟨a1, a2, a4⟩

/-- the bytes of a text of ASCII characters -/
def charBytes (s : List Char) : List UInt8 := s.map fun c => UInt8.ofNat c.toNat

/-- **C25.** The marks by which every version of the program knows the file: a static shard
starts with the line `#COTTONTAIL`, the DNA and an empty line; then comes the dictionary with its own mark,
two entries that name the two parts and say where they are, and the parts; the index starts with a third mark. -/
theorem C25_marks {pc fc : Codec} {l : List (Int × Posting)} {dna idx txt : List UInt8}
    (hw : writeIdx pc fc l = some idx) :
    ∃ rest, idx = charBytes ['C', 'O', 'T', 'T', 'O', 'N', 'T', 'A', 'I', 'L', '_', 'H', 'A', 'Z', 'E', 'L', '_', 'I', 'D', 'X', '\n'] ++ rest ∧
    hazelFile dna idx txt =
      charBytes ['#', 'C', 'O', 'T', 'T', 'O', 'N', 'T', 'A', 'I', 'L', '\n'] ++ dna ++ charBytes ['\n'] ++
      charBytes ['C', 'O', 'T', 'T', 'O', 'N', 'T', 'A', 'I', 'L', '_', 'H', 'A', 'Z', 'E', 'L', '_', 'B', 'L', 'O', 'B', 'S', '\n'] ++ addrBytes 2 ++
      (addrBytes 3 ++ charBytes ['i', 'd', 'x'] ++ addrBytes (dna.length + 98 : Nat) ++ addrBytes idx.length) ++
      (addrBytes 3 ++ charBytes ['t', 'x', 't'] ++ addrBytes (dna.length + 98 + idx.length : Nat) ++ addrBytes txt.length) ++
      idx ++ txt := by
  unfold writeIdx at hw
  cases hp : putAll pc fc headerLen l with
  | none => rw [hp] at hw; simp at hw
  | some x =>
    obtain ⟨zs, es⟩ := x
    rw [hp] at hw
    simp only [Option.bind_eq_bind, Option.bind_some, Option.pure_def, Option.some.injEq] at hw
    refine ⟨addrsBytes [headerLen + zs.length, (dirBytes es).length, es.length] ++ zs ++ dirBytes es, ?_, ?_⟩
    · rw [← hw, idxBlob, List.append_assoc, List.append_assoc, List.append_assoc]; rfl
    · have hhead : (fileMagic ++ dna ++ [10]).length + 85 = dna.length + 98 := by simp [fileMagic]
      have e1 : ((dna.length + 98 + idx.length : Nat) : Int) = ((dna.length + 98 : Nat) : Int) + idx.length := by omega
      simp only [hazelFile, blobDictionary_length]
      rw [hhead, e1]
      simp only [blobDictionary, List.flatMap_cons, List.flatMap_nil, List.append_assoc, List.append_nil]
      rfl

/-- The value `-0.0` on a single token becomes `0.0` in a static shard: its address is kept in the
directory and its value is not.  (The two compare equal; only their bits differ.) -/
theorem C25_negative_zero (pc fc : Codec) :
    let P : Posting := { feature := 7, ps := [3], fs := [minfinity] }
    ∃ H, (writeIdx pc fc [(7, P)]).bind openIdx = some H ∧
      P.anns = [⟨3, 3, minfinity⟩] ∧ (H.posting pc fc 7).map (Option.map Posting.anns) = some (some [⟨3, 3, 0⟩]) := by
  have h : putAll pc fc headerLen [(7, { feature := 7, ps := [3], fs := [minfinity] })] = some ([], [⟨7, 45, 3⟩]) := rfl
  refine ⟨⟨idxBlob [] [⟨7, 45, 3⟩], [⟨7, 45, 3⟩]⟩, ?_, by decide, ?_⟩
  · rw [writeIdx, h]
    show openIdx (idxBlob [] [⟨7, 45, 3⟩]) = _
    decide
  · have : locate [(⟨7, 45, 3⟩ : Entry)] 7 = some 0 := locate_some (by simp) (i := 0) rfl rfl
    simp only [HIdx.posting, this]
    rfl

/-- A DNA whose text has an empty line (a parameter whose value has two newlines in a row) makes
the file unreadable: the reader takes the empty line for the end of the DNA.  Here the DNA is
"a\n\nb\n", and the two blobs are whatever was written. -/
theorem C25_blank_line (idx txt : List UInt8) :
    openFile (hazelFile [97, 10, 10, 98, 10] idx txt) = none := by
  have : ∀ n m : Nat, readDictionary (fileMagic ++ [97, 10, 10, 98, 10] ++ [10] ++
      blobDictionary [⟨idxName, n, idx.length⟩, ⟨txtName, m, txt.length⟩] ++ idx ++ txt) = none := by
    intro n m; rfl
  simp only [openFile, hazelFile]
  erw [this]
  rfl

/-- a shard of three features — a single token, three intervals with values, a single interval —
meets the hypotheses -/
def C25shard : List (Int × Posting) :=
  [(3, { feature := 3, ps := [5] }),
   (8, { feature := 8, ps := [1, 4, 9], qs := [2, 6, 9], fs := [0, 7, 0] }),
   (9, { feature := 9, ps := [0], qs := [12] })]

example : C25shard.Pairwise (fun x y => x.1 < y.1) ∧ (∀ x ∈ C25shard, x.2.feature = x.1) ∧
    (∀ x ∈ C25shard, Storable nullCodec nullCodec x.2) ∧
    Lines [97, 58, 98, 10, 99, 10] [[97, 58, 98], [99]] ∧
    (∃ idx, writeIdx nullCodec nullCodec C25shard = some idx ∧
      (hazelFile [97, 58, 98, 10, 99, 10] idx [1, 2, 3]).length ≤ 9223372036854775807) ∧
    (∀ x ∈ C25shard, Listing x.2.anns ∧ x.2.anns ≠ []) := by
  refine ⟨by decide, by decide, ?_, ⟨rfl, by decide⟩, ?_, ?_⟩
  · intro x hx
    apply columns_storable null_faithful null_faithful
    simp only [C25shard, List.mem_cons, List.not_mem_nil, or_false] at hx
    rcases hx with rfl | rfl | rfl <;>
      exact ⟨by simp [Posting.Ok], by simp [In64], by simp, by simp [In64], by simp [In64], by simp [In64]⟩
  · obtain ⟨idx, h⟩ : ∃ idx, writeIdx nullCodec nullCodec C25shard = some idx := ⟨_, rfl⟩
    have hl : (writeIdx nullCodec nullCodec C25shard).all (fun i => decide (i.length ≤ 1000)) = true := by
      set_option maxRecDepth 4000 in decide
    rw [h] at hl
    simp only [Option.all_some, decide_eq_true_eq] at hl
    refine ⟨idx, h, ?_⟩
    simp only [hazelFile, List.length_append, blobDictionary_length]
    simp only [fileMagic, List.length_cons, List.length_nil]
    omega
  · intro x hx
    simp only [C25shard, List.mem_cons, List.not_mem_nil, or_false] at hx
    rcases hx with rfl | rfl | rfl <;> exact ⟨⟨by decide, by decide⟩, by decide⟩

end Verif.Props
