import Verif.Stream.Proof

/-!
# C32: streams read back what was written

`pieces` and `answers` (in `Stream/Spec.lean`) say what reads of a text give.
-/

namespace Verif.Props
open Verif.TxtIO Verif.Stream

/-- C32: strings of any lengths written to a compressed stream, which is then closed, are read back by
reads of any lengths: each gives the next bytes of everything that was written, and gives fewer than
asked for only at the end. This holds for every buffer size of the writer up to that of the reader and
every compressor that gives back what it was given within the space there is. Partial: only for
reading on from where the last read ended; see `C32_no_offset`. -/
theorem C32_compressed_partial {z : Codec} {cap rcap space : Nat} (hc : 0 < cap) (hr : cap ≤ rcap)
    (hz : Fits z cap space) (writes : List Bytes) (amounts : List Nat) :
    ∃ file, written z cap writes = some file ∧
      (file.length ≤ 2 ^ 62 →
        (CompR.make rcap space file).reads z amounts = some (pieces amounts writes.flatten)) := by
  obtain ⟨bs, e1, e2, e3⟩ := written_spec z hc writes
  refine ⟨_, e1, fun hf => ?_⟩
  refine CompR.Left.reads (cap := cap) amounts hz hr ?_ ⟨⟨bs, ?_, e2, ?_⟩, ?_, ?_⟩
  · simp only [CompR.make]; omega
  · simp [CompR.make]
  · simp [CompR.make, e3]
  · simp [CompR.make]
  · simp [CompR.make]

/-- The pieces read are, put together, the beginning of the text, and all of it if enough was read. -/
theorem C32_pieces_flatten (amounts : List Nat) : ∀ t : Bytes, (pieces amounts t).flatten = t.take amounts.sum := by
  induction amounts with
  | nil => intro t; simp [pieces]
  | cons a as ih =>
    intro t
    rw [pieces, List.flatten_cons, ih, List.sum_cons, List.take_add]

/-- C32: reads of a plain file, from given offsets or onwards from the last one, give the bytes of the
file that are there. Partial: the length asked for, added to that of the file, must fit into 64 bits;
see `C32_file_wrap`. -/
theorem C32_file_partial (file : Bytes) (reads : List Read)
    (h : ∀ c ∈ reads, file.length + c.amount ≤ 2 ^ 64) :
    ({ file := file } : FileR).reads reads = some (answers file 0 reads) :=
  FileR.reads_spec reads 0 h

/-- C32: the same for a file that is held in memory. -/
theorem C32_full_partial (file : Bytes) (reads : List Read)
    (hf : file.length ≤ 2 ^ 63) (h : ∀ c ∈ reads, file.length + c.amount ≤ 2 ^ 64) :
    ∃ r, FullR.make file = some r ∧ r.reads reads = some (answers file 0 reads) :=
  ⟨_, FullR.make_spec (by omega), FullR.reads_spec reads 0 h⟩

/-- C32: what a writer made for a recipe wrote, the reader made for the same recipe reads: plain files
with plain readers, and compressed ones with the compressing reader, whose buffer is large enough. -/
theorem C32_recipes (recipe : List Char) (w : WriterKind) (h : writerKind recipe = some w) :
    (w = .file ∧ (readerKind recipe = some .file ∨ readerKind recipe = some .full)) ∨
    (∃ cap, w = .compressed cap ∧ 0 < cap ∧ cap ≤ 67108864 ∧ readerKind recipe = some .compressed) := by
  unfold writerKind at h
  by_cases h1 : recipe = [] ∨ recipe = ['f', 'i', 'l', 'e'] ∨ recipe = ['f', 'u', 'l', 'l']
  · rw [if_pos h1] at h
    left
    refine ⟨(Option.some.inj h).symm, ?_⟩
    rcases h1 with rfl | rfl | rfl
    · exact Or.inl (by decide)
    · exact Or.inl (by decide)
    · exact Or.inr (by decide)
  · rw [if_neg h1] at h
    right
    by_cases h2 : recipe = ['c', 'o', 'm', 'p', 'r', 'e', 's', 's', 'e', 'd']
    · rw [if_pos h2] at h
      exact ⟨67108864, (Option.some.inj h).symm, by omega, by omega, by rw [h2]; decide⟩
    · rw [if_neg h2] at h
      by_cases h3 : recipe = ['c', 'o', 'm', 'p', 'r', 'e', 's', 's', 'i', 'o', 'n', ' ', 't', 'e', 's', 't']
      · rw [if_pos h3] at h
        exact ⟨133, (Option.some.inj h).symm, by omega, by omega, by rw [h3]; decide⟩
      · rw [if_neg h3] at h
        cases h

/-! ## Cases -/

/-- A compressor that marks what it was given and turns it around. -/
def markCodec : Codec := ⟨fun x => 7 :: x.reverse, fun x => x.tail.reverse⟩

example : Fits markCodec 3 4 := ⟨fun x _ => by simp [markCodec], fun x h => by simp [markCodec]; omega⟩

/-- Writes and reads that cross the blocks of the file. -/
example : written markCodec 3 [[1, 2], [], [3, 4, 5, 6, 7], [8]] =
    some [4, 0, 0, 0, 0, 0, 0, 0, 7, 3, 2, 1, 4, 0, 0, 0, 0, 0, 0, 0, 7, 6, 5, 4,
      3, 0, 0, 0, 0, 0, 0, 0, 7, 8, 7] := by decide +kernel

example : ((written markCodec 3 [[1, 2], [], [3, 4, 5, 6, 7], [8]]).bind fun f =>
    (CompR.make 5 4 f).reads markCodec [1, 4, 0, 2, 9, 9]) =
    some [[1], [2, 3, 4, 5], [], [6, 7], [8], []] := by decide +kernel

example : pieces [1, 4, 0, 2, 9, 9] [1, 2, 3, 4, 5, 6, 7, 8] = [[1], [2, 3, 4, 5], [], [6, 7], [8], []] := by
  decide

example : ({ file := [5, 6, 7, 8] } : FileR).reads [.next 1, .at 2 9, .next 1, .at 9 1, .at 0 2, .next 1] =
    some [[5], [7, 8], [], [], [5, 6], [7]] := by decide

/-! ## Where the code falls short -/

/-- A compressed stream cannot be read from an offset: the call fails an assertion, and without
assertions it gives nothing, although the bytes are there. -/
theorem C32_no_offset :
    ((written ⟨id, id⟩ 3 [[1, 2, 3, 4]]).bind fun f =>
      ((CompR.make 3 3 f).readAt false 0 4).map (·.2)) = none ∧
    ((written ⟨id, id⟩ 3 [[1, 2, 3, 4]]).bind fun f =>
      ((CompR.make 3 3 f).readAt true 0 4).map (·.2)) = some [] ∧
    ((written ⟨id, id⟩ 3 [[1, 2, 3, 4]]).bind fun f =>
      ((CompR.make 3 3 f).read ⟨id, id⟩ 4).map (·.2)) = some [1, 2, 3, 4] := by decide +kernel

/-- The sum of the place and the length asked for is computed in 64 bits: reading "as much as there is"
with the largest length fails unless reading starts at the very beginning. -/
theorem C32_file_wrap :
    (({ file := [1, 2, 3], pos := 0 } : FileR).read (2 ^ 64 - 1)).map (·.2) = some [1, 2, 3] ∧
    ({ file := [1, 2, 3], pos := 1 } : FileR).read (2 ^ 64 - 1) = none ∧
    ({ buffer := [1, 2, 3], pos := 1 } : FullR).read (2 ^ 64 - 1) = none := by decide +kernel

/-- Before the writer is gone, only whole blocks are in the file. -/
theorem C32_unclosed :
    (CompW.appends ⟨id, id⟩ [[1, 2, 3, 4]] { cap := 3 }).map (·.file) =
      some [3, 0, 0, 0, 0, 0, 0, 0, 1, 2, 3] := by decide +kernel

/-- A recipe no writer is made for is taken for that of a compressed stream by a reader. -/
theorem C32_odd_recipe : writerKind ['z', 'i', 'p'] = none ∧ readerKind ['z', 'i', 'p'] = some .compressed := by
  decide

end Verif.Props
