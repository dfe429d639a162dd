/-
The file of a dynamic shard (C43).
-/
import Verif.Pickle.Proof
import Verif.Props.HazelMerge
namespace Verif.Props
open Verif.Hopper Verif.Gcl Verif.Store Verif.Pickle

/-! ### C43 -/

/-- **C43.**  Whatever transactions, text and postings a shard holds, on a device with enough
room its file is written, and opening the file gives the shard: the same numbers, the same
text, and the same posting under every feature. -/
theorem C43_kept {g : Gear} {S : Shard} (h : Keepable g S) :
    ∃ size, ∀ room ≥ size, ∃ file, file.length = size ∧ pickle g room S = some (true, file) ∧
      unpickle g file = some (some S) := by
  obtain ⟨z, bs, hw, -, hz, ⟨r, r1, r2, r3⟩, hp⟩ := pickle_ok h
  have l1 := addrBytes_length S.first
  have l2 := addrBytes_length S.last
  have l3 := addrBytes_length S.text.length
  have l4 := addrBytes_length z.length
  refine ⟨32 + z.length + bs.flatten.length, fun room hr => ?_⟩
  have hl : (addrBytes S.first ++ addrBytes S.last ++ addrBytes S.text.length ++ addrBytes z.length ++ z ++
      bs.flatten).length = 32 + z.length + bs.flatten.length := by
    simp only [List.length_append, l1, l2, l3, l4]
  refine ⟨_, hl, ?_, ?_⟩
  · rw [hp room, if_neg (by omega), if_neg (by omega), if_neg (by omega), if_neg (by omega),
      List.take_of_length_le (by omega), decide_eq_true (by omega)]
  · rw [unpickle_head h hz r1 r2 r3]
    have hc := readAll_cut hw bs.flatten.length [] bs.flatten.length (by simpa using h.sorted) (by simp)
    rw [List.take_length] at hc
    rcases hc with ⟨_, h2⟩ | ⟨i, _, h2, h3⟩
    · omega
    · rw [h2, h3 (Nat.le_refl _)]
      simp

/-- What success means when the device may be full: the file opens to a shard with the same
numbers and the same text, of which the postings from some feature on may be missing; or
opening it runs into an assertion.  Missing: that no posting is lost (`C43_full_disk`). -/
theorem C43_success_partial {g : Gear} {S : Shard} (h : Keepable g S) {room : Nat} {file : List UInt8}
    (hp : pickle g room S = some (true, file)) :
    unpickle g file = none ∨ ∃ S', unpickle g file = some (some S') ∧ S'.first = S.first ∧ S'.last = S.last ∧
      S'.text = S.text ∧ ∃ i, S'.index = S.index.take i := by
  obtain ⟨z, bs, hw, -, hz, ⟨r, r1, r2, r3⟩, hq⟩ := pickle_ok h
  rw [hq room] at hp
  obtain ⟨e1, e2⟩ := Prod.mk.inj (Option.some.inj hp)
  have hr : 32 + z.length ≤ room := of_decide_eq_true e1
  rw [if_neg (by omega), if_neg (by omega), if_neg (by omega), if_neg (by omega), List.take_append,
    List.take_of_length_le (by simp only [List.length_append, addrBytes_length]; omega)] at e2
  rw [← e2, unpickle_head h hz r1 r2 r3]
  generalize room - _ = k
  rcases readAll_cut hw (bs.flatten.take k).length [] k (by simpa using h.sorted) (Nat.le_refl _) with
    ⟨h2, _⟩ | ⟨i, _, h2, h3⟩
  · left; rw [h2]; rfl
  · right
    rw [h2]
    exact ⟨_, rfl, rfl, rfl, rfl, i, by simp⟩

/-- and when it says it failed, the file had no room for the text -/
theorem C43_failure {g : Gear} {S : Shard} (h : Keepable g S) {room : Nat} {file : List UInt8}
    (hp : pickle g room S = some (false, file)) {z : List UInt8} (hz : g.text.crush S.text = some z) :
    room < 32 + z.length := by
  obtain ⟨z', bs, _, hz', _, _, hq⟩ := pickle_ok h
  cases hz.symm.trans hz'
  rw [hq room] at hp
  have := of_decide_eq_false (Prod.mk.inj (Option.some.inj hp)).1
  omega

/-- The file left behind then is never taken for a shard.  But it is refused only if it ends in
the four numbers; if it ends in the text, nobody notices and the program goes on with bytes that were
never written (`none`). -/
theorem C43_failed_file {g : Gear} {S : Shard} (h : Keepable g S) {room : Nat} {file : List UInt8}
    (hp : pickle g room S = some (false, file)) : unpickle g file = if room < 32 then some none else none := by
  obtain ⟨z, bs, _, _, hz, _, hq⟩ := pickle_ok h
  rw [hq room] at hp
  obtain ⟨e1, e2⟩ := Prod.mk.inj (Option.some.inj hp)
  have := of_decide_eq_false e1
  by_cases h1 : room < 32
  · rw [if_pos h1]
    apply unpickle_short
    rw [← e2, List.length_take]
    omega
  · rw [if_neg h1]
    rw [if_neg (by omega), if_neg (by omega), if_neg (by omega), if_pos (by omega), List.take_append,
      List.take_of_length_le (by simp only [List.length_append, addrBytes_length]; omega)] at e2
    rw [← e2]
    refine unpickle_cut h hz ?_
    rw [List.length_take]
    simp only [List.length_append, addrBytes_length]
    omega

/-- A transaction's shard, from its annotations: in good order, and no posting is empty. -/
theorem map_good {added sorted : List (Int × Ann)} {whereTo : Int} (ho : Orderly whereTo added)
    (h : SortedFrom (added.map (relocate whereTo)) sorted) (h64 : ∀ x ∈ added, In64 x.1 ∧ In64 x.2.v)
    (hc : added.length ≤ 1000000000000000) {f : Int} {P : Posting} (hP : (f, P) ∈ mapOf sorted) :
    P.Ok ∧ Listing P.anns ∧ P.feature = f ∧ Columns P ∧
      ∀ a ∈ P.anns, ∃ x ∈ added, a = (relocate whereTo x).2 := by
  obtain ⟨m1, m2⟩ := mapOf_find sorted
  have hf := mem_find m1 hP
  rw [m2] at hf
  have good := txn_good ho h
  obtain ⟨i1, i2, i3⟩ := indexOf_ok h f
  rw [i3] at hf
  split at hf
  · cases hf
  · rename_i hne
    cases hf
    obtain ⟨r1, r2, r3, r4⟩ := runPosting_ok f _ i2
    have hz : ∀ a ∈ ofFeature f sorted, plus0 a = a := fun a ha => ((ho f).2 a (i1.mem_iff.1 ha)).2.2.2
    have r5 := r4 hz
    have e : indexOf sorted f = some (runPosting f (ofFeature f sorted)) := by rw [i3, if_neg hne]
    have hsub : ∀ a ∈ (runPosting f (ofFeature f sorted)).anns, ∃ x ∈ added, x.1 = f ∧ a = (relocate whereTo x).2 := by
      intro a ha
      rw [r5] at ha
      have ha := i1.mem_iff.1 (List.mem_filter.1 ha).1
      unfold ofFeature at ha
      obtain ⟨y, hy, rfl⟩ := List.mem_map.1 ha
      obtain ⟨hy, hyf⟩ := List.mem_filter.1 hy
      obtain ⟨x, hx, rfl⟩ := List.mem_map.1 hy
      refine ⟨x, hx, ?_, rfl⟩
      simp only [beq_iff_eq] at hyf
      rw [← hyf]
      unfold relocate
      split <;> rfl
    have hf64 : In64 f := by
      obtain ⟨a, ha⟩ := List.exists_mem_of_ne_nil _ (good.nonempty f _ e)
      obtain ⟨x, hx, rfl, _⟩ := hsub a ha
      exact (h64 x hx).1
    have hl := good.listing f _ e
    refine ⟨r1, hl, r3, ?_, fun a ha => ?_⟩
    · refine Hazel.columns_of r1 (by rw [r3]; exact hf64) ?_ ?_
      · rw [r5]
        have h1 := List.length_filter_le (fun a => decide (kept (ofFeature f sorted) a)) (ofFeature f sorted)
        have h2 := i1.length_eq
        have h3 : (ofFeature f (added.map (relocate whereTo))).length ≤ added.length := by
          unfold ofFeature
          rw [List.length_map]
          have := List.length_filter_le (fun x : Int × Ann => x.1 == f) (added.map (relocate whereTo))
          simpa using this
        omega
      · intro a ha
        have hb := hl.bounds a ha
        obtain ⟨x, hx, _, rfl⟩ := hsub a ha
        have h1 := (h64 x hx).2
        have h2 : (relocate whereTo x).2.v = x.2.v := by unfold relocate; split <;> rfl
        rw [h2]
        unfold In64 at h1 ⊢
        omega
    · obtain ⟨x, hx, _, h⟩ := hsub a ha
      exact ⟨x, hx, h⟩

/-- what was given to a transaction, its file, and the hoppers of the file opened again -/
theorem reopened {g : Gear} {added sorted : List (Int × Ann)} {whereTo first last : Int} {text : List UInt8}
    (ho : Orderly whereTo added) (hs : SortedFrom (added.map (relocate whereTo)) sorted)
    (hk : Keepable g ⟨first, last, text, mapOf sorted⟩) :
    ∃ size, ∀ room ≥ size, ∃ file S, pickle g room ⟨first, last, text, mapOf sorted⟩ = some (true, file) ∧
      unpickle g file = some (some S) ∧ S.first = first ∧ S.last = last ∧ S.text = text ∧
      ∀ f, ∃ l, (∀ a, a ∈ l ↔ Minimal (atFinal whereTo added f) a) ∧
        Implements (fiverObj (find S.index) f) (ofList l) := by
  obtain ⟨size, hf⟩ := C43_kept hk
  refine ⟨size, fun room hr => ?_⟩
  obtain ⟨file, _, h1, h2⟩ := hf room hr
  refine ⟨file, _, h1, h2, rfl, rfl, rfl, fun f => ?_⟩
  have good := txn_good ho hs
  refine ⟨annsOf (indexOf sorted) f, fun a => ?_, ?_⟩
  · obtain ⟨o1, o2⟩ := ho f
    have hm := (C12_minimal_partial hs f (o1.filter _) fun a ha => ⟨(o2 a ha).1, (o2 a ha).2.2.1⟩).2 a
    have hz : (annsOf (indexOf sorted) f).map plus0 = annsOf (indexOf sorted) f := by
      rw [← List.map_id (annsOf (indexOf sorted) f), List.map_map]
      apply List.map_congr_left
      intro b hb
      unfold annsOf at hb
      split at hb
      · cases hb
      · rename_i P hP
        exact good.zero f P hP b hb
    rw [hz] at hm
    refine hm.trans ⟨?_, fun h => ⟨a, h, ((o2 a h.1).2.2.2).symm⟩⟩
    rintro ⟨b, hb, rfl⟩
    rw [(o2 b hb.1).2.2.2]
    exact hb
  · rw [(mapOf_find sorted).2]
    exact fiver_impl good f

/-- the text compressor restores what it is given, whatever room it is offered -/
def TextFaithful (g : Gear) : Prop := ∀ b, ∃ z, g.text.crush b = some z ∧ z.length ≤ 2 * b.length + 1024 ∧
  ∀ room ≥ b.length, g.text.tang z room = some b

theorem text_keeps {g : Gear} (h : TextFaithful g) {t : List UInt8} (hl : t.length ≤ 1000000000000000) : Keeps g t := by
  obtain ⟨z, h1, h2, h3⟩ := h t
  exact ⟨z, h1, by omega, t, h3 _ (by omega), Nat.le_refl _, List.take_length⟩

/-- **C43**, from the calls: whatever orderly annotations and text a transaction was given,
with any compressors that restore their input, the shard opened from its file answers for
every feature with exactly the minimal annotations of the transaction at their final
addresses, and has the text and the numbers. -/
theorem C43_transaction {g : Gear} (hd : g.destructive = false) (hp : Faithful g.posting) (hv : Faithful g.fvalue)
    (ht : TextFaithful g) {added sorted : List (Int × Ann)} {whereTo first last : Int} {text : List UInt8}
    (hfirst : In64 first) (hlast : In64 last) (hlen : text.length ≤ 1000000000000000)
    (hcount : added.length ≤ 1000000000000000) (h64 : ∀ x ∈ added, In64 x.1 ∧ In64 x.2.v)
    (ho : Orderly whereTo added) (hs : SortedFrom (added.map (relocate whereTo)) sorted) :
    ∃ size, ∀ room ≥ size, ∃ file S, pickle g room ⟨first, last, text, mapOf sorted⟩ = some (true, file) ∧
      unpickle g file = some (some S) ∧ S.first = first ∧ S.last = last ∧ S.text = text ∧
      ∀ f, ∃ l, (∀ a, a ∈ l ↔ Minimal (atFinal whereTo added f) a) ∧
        Implements (fiverObj (find S.index) f) (ofList l) :=
  reopened ho hs ⟨hd, hfirst, hlast, by simp only; omega, text_keeps ht hlen, (mapOf_find sorted).1,
    fun x hx => (map_good ho hs h64 hcount hx).2.2.1,
    fun x hx => columns_storable hp hv (map_good ho hs h64 hcount hx).2.2.2.1⟩

/-- **C43**, with the `post` compressor for addresses, which wants no negative ones. -/
theorem C43_transaction_post_partial {g : Gear} (hd : g.destructive = false) (hp : g.posting = postCodec)
    (hv : Faithful g.fvalue) (ht : TextFaithful g) {added sorted : List (Int × Ann)} {whereTo first last : Int}
    {text : List UInt8} (hfirst : In64 first) (hlast : In64 last) (hlen : text.length ≤ 1000000000000000)
    (hcount : added.length ≤ 1000000000000000) (h64 : ∀ x ∈ added, In64 x.1 ∧ In64 x.2.v)
    (hpos : ∀ x ∈ added, 0 ≤ (relocate whereTo x).2.p)
    (ho : Orderly whereTo added) (hs : SortedFrom (added.map (relocate whereTo)) sorted) :
    ∃ size, ∀ room ≥ size, ∃ file S, pickle g room ⟨first, last, text, mapOf sorted⟩ = some (true, file) ∧
      unpickle g file = some (some S) ∧ S.first = first ∧ S.last = last ∧ S.text = text ∧
      ∀ f, ∃ l, (∀ a, a ∈ l ↔ Minimal (atFinal whereTo added f) a) ∧
        Implements (fiverObj (find S.index) f) (ofList l) := by
  refine reopened ho hs ⟨hd, hfirst, hlast, by simp only; omega, text_keeps ht hlen, (mapOf_find sorted).1,
    fun x hx => (map_good ho hs h64 hcount hx).2.2.1, fun x hx => ?_⟩
  obtain ⟨m1, m2, _, m4, m5⟩ := map_good ho hs h64 hcount hx
  rw [hp]
  refine post_stores hv x.2 m4 (Hazel.invariants_of m1 m2) ?_
  intro y hy
  rw [← (Hazel.cols m1).1] at hy
  obtain ⟨a, ha, rfl⟩ := List.mem_map.1 hy
  obtain ⟨x, hx, rfl⟩ := m5 a ha
  exact hpos x hx

/-! ### witnesses -/

/-- no compression, as a new burrow has it (`src/bigwig.cc:404-419`) -/
def plainGear : Gear := ⟨nullCodec, nullCodec, nullCodec, fun _ => 0, false⟩

/-- two transactions' worth of numbers, two bytes, two features -/
def smallShard : Shard :=
  ⟨3, 4, [104, 105], [(7, { feature := 7, ps := [1, 4], qs := [2, 4] }), (9, { feature := 9, ps := [5], fs := [8] })]⟩

theorem small_keepable : Keepable plainGear smallShard := by
  refine ⟨rfl, by unfold In64; decide, by unfold In64; decide, by decide,
    ⟨[104, 105], rfl, by decide, [104, 105], rfl, by decide, rfl⟩, by decide, by decide, fun x hx => ?_⟩
  refine columns_storable null_faithful null_faithful ?_
  simp only [smallShard, List.mem_cons, List.not_mem_nil, or_false] at hx
  rcases hx with rfl | rfl
  · exact ⟨by simp [Posting.Ok], by unfold In64; decide, by decide, by unfold In64; decide,
      by unfold In64; decide, by unfold In64; decide⟩
  · exact ⟨by simp [Posting.Ok], by unfold In64; decide, by decide, by unfold In64; decide,
      by unfold In64; decide, by unfold In64; decide⟩

/-- the shard's file is 162 bytes long, and opens to the shard -/
example : ((pickle plainGear 1000 smallShard).bind fun x => unpickle plainGear x.2) = some (some smallShard) := by
  decide +kernel

/-- A full disk: writing the file says it succeeded, and opening the file says nothing, but
the annotations of feature 9 are gone. -/
theorem C43_full_disk : ∃ file S', pickle plainGear 110 smallShard = some (true, file) ∧
    unpickle plainGear file = some (some S') ∧ find smallShard.index 9 = some { feature := 9, ps := [5], fs := [8] } ∧
    find S'.index 9 = none := by
  refine ⟨((pickle plainGear 110 smallShard).getD (false, [])).2,
    { smallShard with index := smallShard.index.take 1 }, ?_, ?_, ?_, ?_⟩ <;> decide +kernel

/-- With a little less room the file cannot be opened: an assertion ends the program, or the
program goes on with what was in memory. -/
theorem C43_full_disk_assert : ∃ file, pickle plainGear 90 smallShard = some (true, file) ∧
    unpickle plainGear file = none := by
  refine ⟨((pickle plainGear 90 smallShard).getD (false, [])).2, ?_, ?_⟩ <;> decide +kernel

/-- and with room for less than the text writing says so -/
example : (pickle plainGear 33 smallShard).map (·.1) = some false := by decide +kernel

/-- the example of C12 meets what C43 asks for -/
example : TextFaithful plainGear := fun b => ⟨b, rfl, by omega, fun room h => by
  simp only [plainGear, nullCodec, Option.some.injEq]; exact List.take_of_length_le h⟩
example : Orderly 10 [(7, ⟨staging, staging + 1, 3⟩), (7, ⟨staging + 2, staging + 2, 0⟩), (8, ⟨2, 4, 0⟩)] ∧
    (∀ x ∈ [(7, ⟨staging, staging + 1, 3⟩), (7, ⟨staging + 2, staging + 2, 0⟩), ((8 : Int), (⟨2, 4, 0⟩ : Ann))],
      In64 x.1 ∧ In64 x.2.v) := by
  refine ⟨fun f => ?_, by unfold In64; decide⟩
  unfold atFinal ofFeature
  by_cases h7 : f = 7
  · subst h7; decide
  by_cases h8 : f = 8
  · subst h8; decide
  have e7 : ((7 : Int) == f) = false := by simp; omega
  have e8 : ((8 : Int) == f) = false := by simp; omega
  have : ([(7, ⟨staging, staging + 1, 3⟩), (7, ⟨staging + 2, staging + 2, 0⟩), ((8 : Int), (⟨2, 4, 0⟩ : Ann))].map
      (relocate 10)) = [(7, ⟨10, 11, 3⟩), (7, ⟨12, 12, 0⟩), (8, ⟨2, 4, 0⟩)] := by decide
  rw [this]
  simp [e7, e8]

end Verif.Props
