import Verif.Fastid.Proof
import Verif.Props.Query
import Verif.Props.Store
/-
  C51: with a file of ids, texts are translated as without one.
-/
namespace Verif.Props
open Verif.Hopper Verif.Gcl Verif.Store Verif.Fastid

/-- what the file can keep: ids at addresses that are not negative, whose texts hold no NUL; at most `2^31` of them, and fewer
than `2^63` bytes in all -/
structure Listable (S : GC) (slow : Int → Int → Fastid.Bytes) : Prop where
  address : ∀ a, S a → 0 ≤ a.p
  text : ∀ a, S a → 0 ∉ slow a.p a.q
  few : ∀ l : List Ann, l.Nodup → (∀ a ∈ l, S a) → l.length ≤ 2147483648
  small : ∀ l : List Ann, l.Nodup → (∀ a ∈ l, S a) → (l.map fun a => (slow a.p a.q).length).sum < 9223372036854775808

/-- **C51.** For the ids that a query finds, the file is written and can be opened.  The text with the file then answers each
id with the text the id had when the file was written, and anything else with what the text without the file says: for all
addresses, without a read outside an array.  Partial: ids at negative addresses, texts with a NUL, and more than `2^31` ids are
not covered, and the file fails on each (`C51_negative`, `C51_nul`, `C51_many`); zlib is taken to be lawful. -/
theorem C51_stored_partial {C : Fastid.Codec} (hC : C.Lawful) (ix : Index) (count : Option (List Char → Int)) (e : SExpr) (h : Legal e)
    (slow : Int → Int → Fastid.Bytes) (hk : Listable (den ix.solutions e) slow) :
    ∃ H, compile ix count e = some H ∧ ∀ s : H.σ, Reachable H s →
      ∃ b s', fastid C H slow s = some (b, s') ∧ ∃ F, make C b = some F ∧ ∀ (later : Int → Int → Fastid.Bytes) (p q : Int),
        ((∃ v, den ix.solutions e ⟨p, q, v⟩) → F.translate later p q = some (slow p q)) ∧
        ((¬ ∃ v, den ix.solutions e ⟨p, q, v⟩) → F.translate later p q = some (later p q)) := by
  obtain ⟨H, h1, h2⟩ := C04_enumeration ix count e h
  have w := den_wf ix.wf e h
  refine ⟨H, h1, fun s hr => ?_⟩
  obtain ⟨⟨l, s', g1, g2, g3⟩, -⟩ := h2 s hr
  have hnd : l.Nodup := g3.imp fun h e => by subst e; omega
  have hS : ∀ a ∈ l, den ix.solutions e a := fun a ha => (g2 a).1 ha
  have hlen := hk.few l hnd hS
  have hpw : (l.map fun a => (a, slow a.p a.q)).Pairwise fun x y => x.1.p < y.1.p ∧ x.1.q < y.1.q := by
    rw [List.pairwise_map]; exact g3
  obtain ⟨b, f1, f2⟩ := file_ok hC (ids := l.map fun a => (a, slow a.p a.q)) (by rw [List.length_map]; exact hlen)
    (by
      intro x hx; obtain ⟨a, ha, rfl⟩ := List.mem_map.1 hx
      have := w.hi (hS a ha); have := w.le (hS a ha); have := hk.address a (hS a ha)
      refine ⟨?_, ?_, ?_, ?_⟩ <;> simp only <;> omega)
    hpw
    (by intro x hx; obtain ⟨a, ha, rfl⟩ := List.mem_map.1 hx; exact hk.text a (hS a ha))
    (by rw [List.map_map]; exact hk.small l hnd hS)
  refine ⟨b, s', ?_, _, f2, fun later p q => ?_⟩
  · unfold fastid
    simp only [bind, StateT.bind, Option.bind, g1, f1]
    rfl
  · obtain ⟨t, t1, t2⟩ := translate_ok (ids := l.map fun a => (a, slow a.p a.q)) (by rw [List.length_map]; exact hlen) hpw later p q
    rw [t1]
    constructor
    · rintro ⟨v, hv⟩
      rcases t2 with ⟨x, hx, e1, e2, rfl⟩ | ⟨hx, -⟩
      · obtain ⟨a, ha, rfl⟩ := List.mem_map.1 hx
        simp only at e1 e2
        subst e1; subst e2; rfl
      · exact absurd ⟨rfl, rfl⟩ (hx _ (List.mem_map.2 ⟨_, (g2 _).2 hv, rfl⟩))
    · intro hno
      rcases t2 with ⟨x, hx, e1, e2, rfl⟩ | ⟨-, rfl⟩
      · obtain ⟨a, ha, rfl⟩ := List.mem_map.1 hx
        simp only at e1 e2
        subst e1; subst e2
        exact absurd ⟨a.v, hS a ha⟩ hno
      · rfl

/-- So nobody can tell that there is a file, as long as the text stays as it was. -/
theorem C51_same_partial {C : Fastid.Codec} (hC : C.Lawful) (ix : Index) (count : Option (List Char → Int)) (e : SExpr) (h : Legal e)
    (slow : Int → Int → Fastid.Bytes) (hk : Listable (den ix.solutions e) slow) :
    ∃ H, compile ix count e = some H ∧ ∀ s : H.σ, Reachable H s →
      ∃ b s', fastid C H slow s = some (b, s') ∧ ∃ F, make C b = some F ∧ ∀ p q, F.translate slow p q = some (slow p q) := by
  obtain ⟨H, h1, h2⟩ := C51_stored_partial hC ix count e h slow hk
  refine ⟨H, h1, fun s hr => ?_⟩
  obtain ⟨b, s', g1, F, g2, g3⟩ := h2 s hr
  refine ⟨b, s', g1, F, g2, fun p q => ?_⟩
  by_cases hp : ∃ v, den ix.solutions e ⟨p, q, v⟩
  · exact (g3 slow p q).1 hp
  · exact (g3 slow p q).2 hp

/-- **C51.** The search that finds an id: in an increasing array of at most `2^31` addresses it finds where an address is, or says
that it is nowhere. -/
theorem C51_search {a : List Int} (hs : a.Pairwise (· < ·)) (hl : a.length ≤ 2147483648) (value : Int) :
    ∃ r, search a value (a.length + 1) 0 (a.length - 1) = some r ∧
      ((r = -1 ∧ value ∉ a) ∨ (0 ≤ r ∧ a[r.toNat]? = some value)) :=
  search_ok hs hl _ _ _ (by omega) (by omega) (by omega) fun i hi => by
    have := (List.getElem?_eq_some_iff.1 hi).1; omega

/-! ### a case that meets the hypotheses -/

/-- a compressor that keeps the bytes as they are -/
def plainZ : Fastid.Codec := ⟨id, fun c n => some (c.take n)⟩

theorem plainZ_lawful : plainZ.Lawful := by
  intro x hx
  refine ⟨by show x.length < _; omega, ?_⟩
  show some (x.take x.length) = some x
  rw [List.take_length]

/-- three ids with texts of two, zero and one bytes -/
def sampleIds : List (Ann × Fastid.Bytes) := [(⟨4, 5, 0⟩, [97, 98]), (⟨9, 9, 0⟩, []), (⟨100, 130, 0⟩, [99])]

example : ∃ b F, write plainZ sampleIds = some b ∧ make plainZ b = some F ∧
    F.translate (fun _ _ => [63]) 4 5 = some [97, 98] ∧ F.translate (fun _ _ => [63]) 9 9 = some [] ∧
    F.translate (fun _ _ => [63]) 100 130 = some [99] ∧ F.translate (fun _ _ => [63]) 100 131 = some [63] ∧
    F.translate (fun _ _ => [63]) 5 5 = some [63] := by
  obtain ⟨b, h1, h2⟩ := file_ok plainZ_lawful (ids := sampleIds) (by decide) (by decide) (by decide) (by decide) (by decide)
  refine ⟨b, _, h1, h2, ?_⟩
  refine ⟨?_, ?_, ?_, ?_, ?_⟩ <;> decide +kernel

/-- an index of one feature, with two ids -/
example : Listable (ofList [⟨4, 5, 0⟩, ⟨9, 9, 0⟩]) (fun p _ => if p = 4 then [97, 98] else [99]) := by
  have sub : ∀ l : List Ann, l.Nodup → (∀ a ∈ l, ofList [⟨4, 5, 0⟩, ⟨9, 9, 0⟩] a) →
      l = [] ∨ l = [⟨4, 5, 0⟩] ∨ l = [⟨9, 9, 0⟩] ∨ l = [⟨4, 5, 0⟩, ⟨9, 9, 0⟩] ∨ l = [⟨9, 9, 0⟩, ⟨4, 5, 0⟩] := by
    intro l hn hs
    simp only [ofList, List.mem_cons, List.not_mem_nil, or_false] at hs
    match l, hn, hs with
    | [], _, _ => simp
    | [a], _, hs => rcases hs a (by simp) with rfl | rfl <;> simp
    | [a, b], hn, hs => rcases hs a (by simp) with rfl | rfl <;> rcases hs b (by simp) with rfl | rfl <;> simp_all
    | a :: b :: c :: l, hn, hs =>
      exfalso
      rcases hs a (by simp) with rfl | rfl <;> rcases hs b (by simp) with rfl | rfl <;> rcases hs c (by simp) with rfl | rfl <;>
        simp at hn
  refine ⟨?_, ?_, ?_, ?_⟩
  · intro a ha; simp only [ofList, List.mem_cons, List.not_mem_nil, or_false] at ha; rcases ha with rfl | rfl <;> decide
  · intro a ha; simp only [ofList, List.mem_cons, List.not_mem_nil, or_false] at ha; rcases ha with rfl | rfl <;> decide
  · intro l hn hs; rcases sub l hn hs with rfl | rfl | rfl | rfl | rfl <;> decide
  · intro l hn hs; rcases sub l hn hs with rfl | rfl | rfl | rfl | rfl <;> decide

/-! ### where it fails -/

/-- **C51, a NUL.** Of an id whose text holds a NUL, the bytes after the NUL are not in the file. -/
theorem C51_nul : ∃ (F : Fast) (slow : Int → Int → Fastid.Bytes),
    (write plainZ [(⟨4, 5, 0⟩, slow 4 5)]).bind (make plainZ) = some F ∧ slow 4 5 = [97, 0, 98] ∧
    F.translate slow 4 5 = some [97, 0, 0] := by
  refine ⟨⟨[97, 0, 0], [4], [5], [0, 3]⟩, fun _ _ => [97, 0, 98], ?_, rfl, ?_⟩ <;> decide +kernel

/-- **C51, a negative address.** With an id at a negative address no file is written: the compressor does not return. -/
theorem C51_negative {C : Fastid.Codec} {ids : List (Ann × Fastid.Bytes)} (h64 : ∀ x ∈ ids, In64 x.1.p) (h : ∃ x ∈ ids, x.1.p < 0) :
    write C ids = none := by
  obtain ⟨x, hx, hn⟩ := h
  unfold write
  rw [C10_post_domain (l := ids.map (·.1.p)) (by intro a ha; obtain ⟨y, hy, rfl⟩ := List.mem_map.1 ha; exact h64 y hy)
    (fun ⟨h0, _⟩ => by have := h0 _ (List.mem_map.2 ⟨x, hx, rfl⟩); omega)]
  rfl

example : ∃ x ∈ [((⟨-3, 5, 0⟩ : Ann), ([97] : Fastid.Bytes))], x.1.p < 0 := ⟨_, .head _, by decide⟩

/-- **C51, many ids.** With more than `2^32` ids the middle of the array does not fit the `int` that indexes it, and the search reads
before the array. -/
theorem C51_many {a : List Int} (hl : a.length = 4294967297 + 2) (value : Int) :
    search a value (a.length + 1) 0 (a.length - 1) = none := by
  unfold search
  rw [hl, if_pos (by decide)]
  have : toInt (0 + (((4294967297 + 2 : Nat) : Int) - 1 - 0) / 2) = -2147483647 := by decide
  simp only [this, at?]
  rfl

example : ∃ a : List Int, a.length = 4294967297 + 2 := ⟨List.replicate _ 0, List.length_replicate⟩

end Verif.Props
