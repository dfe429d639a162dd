import Verif.Label.Proof
import Verif.Props.Text
/-
  C47: what `forage` was asked for can be had from the warren.
-/
namespace Verif.Props
open Verif.Text Verif.Hopper Verif.Label

/-- **C47**, the label: the name, the tag and the parameters of a forager, any bytes, are read from the
label that was written of them, followed by white space and zeros.  If anything else follows, nothing is
read. -/
theorem C47_label (skip : Text → Option Text) (name tag : Text) (params : List (Text × Text))
    (hn : (params.map Prod.fst).Nodup) (gap : Text) :
    (Blank gap → json2forager skip (forager2json name tag params ++ gap) = some (name, tag, params)) ∧
    (¬ Blank gap → json2forager skip (forager2json name tag params ++ gap) = none) := by
  rw [json_read skip name tag params hn]
  exact ⟨fun h => if_pos (blank_skipped h), fun h => if_neg fun e => h (blank_of_skipped e)⟩

theorem colon_split {a b x y : Text} (ha : 0x3A ∉ a) (hb : 0x3A ∉ b) (h : a ++ 0x3A :: x = b ++ 0x3A :: y) : a = b ∧ x = y := by
  induction a generalizing b with
  | nil =>
    cases b with
    | nil => simpa using h
    | cons c b =>
      simp only [List.nil_append, List.cons_append, List.cons.injEq] at h
      exact absurd (by simp [h.1]) hb
  | cons d a ih =>
    cases b with
    | nil =>
      simp only [List.nil_append, List.cons_append, List.cons.injEq] at h
      exact absurd (by simp [h.1]) ha
    | cons c b =>
      simp only [List.cons_append, List.cons.injEq] at h
      obtain ⟨e1, e2⟩ := ih (fun h => ha (by simp [h])) (fun h => hb (by simp [h])) h.2
      exact ⟨by rw [h.1, e1], e2⟩

/-- **C47**, where labels are: different foragers, and different tags, are labelled differently, as long as
foragers are called by a name. -/
theorem C47_apart {name name' tag tag' : Text} (h : name ≠ []) (h' : name' ≠ []) (hc : 0x3A ∉ name) (hc' : 0x3A ∉ name')
    (e : foragerLabel name tag = foragerLabel name' tag') : name = name' ∧ tag = tag' := by
  have norm : ∀ n t : Text, n ≠ [] → foragerLabel n t = n ++ 0x3A :: (if t ≠ [] then t ++ [0x3A] else []) := by
    intro n t hn
    unfold foragerLabel
    by_cases ht : t = [] <;> simp [hn, ht]
  rw [norm _ _ h, norm _ _ h'] at e
  obtain ⟨e1, e2⟩ := colon_split hc hc' e
  refine ⟨e1, ?_⟩
  by_cases ht : tag = [] <;> by_cases ht' : tag' = [] <;> simp_all

/-- labels end in these bytes -/
theorem label_end (name tag : Text) (params : List (Text × Text)) :
    ∃ s, forager2json name tag params = s ++ [0x0A, 0x20, 0x20, 0x7D, 0x0A, 0x7D] ++ [0x0A] :=
  ⟨_, by unfold forager2json; rw [List.append_assoc _ [0x0A, 0x20, 0x20, 0x7D, 0x0A, 0x7D]]; rfl⟩

/-- A label may be appended to any warren. -/
theorem label_fit {T : Tokenizer} {Fit : Text → Prop} (hS : Setting T Fit) (name tag : Text) (params : List (Text × Text)) :
    Fit (forager2json name tag params) := by
  obtain ⟨s, e⟩ := label_end name tag params
  cases hS with
  | plain => trivial
  | tags => rw [e]; simp
  | utf8 act h =>
    have eb : body (forager2json name tag params) = s ++ [0x0A, 0x20, 0x20, 0x7D, 0x0A, 0x7D] := by
      rw [e]; simp [body, separator]
    rw [eb]
    intro c suf hs
    obtain ⟨l, hl⟩ := hs
    by_cases h6 : 4 ≤ suf.length + 1
    · have : need c ≤ 4 := by unfold need; split <;> (try split) <;> (try split) <;> (try split) <;> omega
      omega
    · have hlast : (c :: suf) <:+ [0x0A, 0x20, 0x20, 0x7D, 0x0A, 0x7D] := by
        have h1 : (c :: suf) <:+ s ++ [0x0A, 0x20, 0x20, 0x7D, 0x0A, 0x7D] := ⟨l, hl⟩
        have h2 : ([0x0A, 0x20, 0x20, 0x7D, 0x0A, 0x7D] : Text) <:+ s ++ [0x0A, 0x20, 0x20, 0x7D, 0x0A, 0x7D] := ⟨s, rfl⟩
        exact List.suffix_of_suffix_length_le h1 h2 (by simp; omega)
      have hm : c ∈ ([0x0A, 0x20, 0x20, 0x7D, 0x0A, 0x7D] : Text) := hlast.subset (by simp)
      have : need c = 1 := by
        simp only [List.mem_cons, List.not_mem_nil, or_false] at hm
        rcases hm with rfl | rfl | rfl | rfl | rfl | rfl <;> decide
      omega

/-- **C47** (what is missing: the text that follows the label, see `C47_merged`, and foragers without a
name, see `C47_unnamed`): the statistics find the parameters with which `forage` was called.

`t` is the transaction that has the label, and nothing else; it may be merged with any others, and is read
from whatever shards there are.  The first annotation of the label's feature is on its text.  Then, if
between the label and the next token of its shard there are only blanks (in particular if nothing follows
it), the parameters are those of the label; if anything else is there, there are no statistics. -/
theorem C47_stats_partial {T : Tokenizer} {Fit : Text → Prop} (hS : Setting T Fit) (skip : Text → Option Text)
    {tag : Text} {params : List (Text × Text)} (hn : (params.map Prod.fst).Nodup)
    {g : Text} (hg : params.lookup gclKey = some g)
    {before after : List (List Txn)} {L R : List Txn} {t : Txn} (ht : t.texts = [forager2json tfIdf tag params])
    (hfit : ∀ g ∈ before ++ (L ++ t :: R) :: after, ∀ u ∈ g, ∀ x ∈ u.texts,
      Fit x ∨ ∃ n t ps, x = forager2json n t ps)
    (ho : InOrder T (before ++ (L ++ t :: R) :: after).flatten)
    {rs : List TextReader} (hrs : ServesAll rs (shardsOf T (before ++ (L ++ t :: R) :: after)))
    (htok : 0 < T.addresses (forager2json tfIdf tag params))
    {H : Obj} {labels : List Ann} {v : Int} (hL : Listing (⟨t.base, t.base + T.addresses (forager2json tfIdf tag params) - 1, v⟩ :: labels))
    (hH : Gcl.Implements H (ofList (⟨t.base, t.base + T.addresses (forager2json tfIdf tag params) - 1, v⟩ :: labels)))
    {F : Text} (hF : F = (R.map Txn.text).flatten) :
    (Blank (F.take (T.skip F 0)) →
      statsMake skip tag H (fun p q => (readAll T p q rs).map Prod.fst) = some (some params)) ∧
    (¬ Blank (F.take (T.skip F 0)) →
      statsMake skip tag H (fun p q => (readAll T p q rs).map Prod.fst) = some none) := by
  have hfit' : ∀ g ∈ before ++ (L ++ t :: R) :: after, ∀ u ∈ g, ∀ x ∈ u.texts, Fit x := by
    intro g hg u hu x hx
    rcases hfit g hg u hu x hx with h | ⟨n, t, ps, rfl⟩
    · exact h
    · exact label_fit hS _ _ _
  have hend : ending (forager2json tfIdf tag params) = [] := by
    obtain ⟨s, e⟩ := label_end tfIdf tag params
    rw [e]; simp [ending, separator]
  obtain ⟨rs', hr, -⟩ := C27_append_partial hS (l := []) (r := []) ht hfit' ho hrs htok rfl (F := F)
    (by
      obtain ⟨s, e⟩ := label_end tfIdf tag params
      simp [Txn.text, txnText, ht, hF, lineEnd, stored, hend]
      simp [e])
  have hr' : readAll T t.base (t.base + T.addresses (forager2json tfIdf tag params) - 1) rs =
      some (forager2json tfIdf tag params ++ F.take (T.skip F 0), rs') := by
    have e0 : (t.base : Int) + ((0 : Nat) : Int) = t.base := by omega
    simp only [List.map_nil, List.sum_nil, e0] at hr
    rw [hr, hend]
    simp
  obtain ⟨I, hI⟩ := hH
  obtain ⟨r, s', e, -, hr2⟩ := hI.tau (minfinity + 1) ⟨by omega, by omega⟩ H.init hI.init
  have hb := hL.bounds _ (List.mem_cons_self ..)
  have hr3 : r.p = t.base ∧ r.q = t.base + T.addresses (forager2json tfIdf tag params) - 1 := by
    rcases hr2 with ⟨h, -⟩ | ⟨-, h1, -, h3⟩ | ⟨-, h1, -⟩
    · omega
    · have := h3 _ (List.mem_cons_self ..) (by have := hb.1; simp only at this ⊢; omega)
      rcases List.mem_cons.1 h1 with rfl | h1
      · exact ⟨rfl, rfl⟩
      · have h4 := (List.pairwise_cons.1 hL.sorted).1 r h1
        simp only at this h4
        omega
    · have := h1 _ (List.mem_cons_self ..)
      simp only at this hb
      omega
  have hne : r.p ≠ maxfinity := by simp only at hb; omega
  have hm : statsMake skip tag H (fun p q => (readAll T p q rs).map Prod.fst) =
      some (statsParameters skip tag (forager2json tfIdf tag params ++ F.take (T.skip F 0))) := by
    unfold statsMake
    simp only [e]
    rw [if_neg hne, hr3.1, hr3.2, hr']
    rfl
  obtain ⟨h1, h2⟩ := C47_label skip tfIdf tag params hn (F.take (T.skip F 0))
  refine ⟨fun h => ?_, fun h => ?_⟩
  · rw [hm]; simp [statsParameters, h1 h, hg]
  · rw [hm]; simp [statsParameters, h2 h]

/-! ### examples -/

/-- the label of `forage(warren, "x", "tf-idf", tag)` -/
def labelOf (tag : Text) : Text := forager2json tfIdf tag [(gclKey, [0x78])]

/-- its tokens: `name`, `tf`, `idf`, `tag`, `a`, `parameters`, `gcl`, `x` -/
example : (ascii false).addresses (labelOf [0x61]) = 8 := by decide +kernel

/-- the label of tag `a`, then `y` -/
def labelled : List Txn := [⟨0, [labelOf [0x61]]⟩, ⟨8, [[0x79]]⟩]

example : (∀ g ∈ [labelled], ∀ u ∈ g, ∀ x ∈ u.texts, True ∨ ∃ n t ps, x = forager2json n t ps) ∧
    InOrder (ascii false) [labelled].flatten ∧
    ServesAll (freshReaders (ascii false) [labelled]) (shardsOf (ascii false) [labelled]) := by
  have ho : InOrder (ascii false) [labelled].flatten := ⟨by decide +kernel, by decide +kernel⟩
  exact ⟨fun _ _ _ _ _ _ => .inl trivial, ho, C27_fresh .plain (fun _ _ _ _ _ _ => trivial) ho⟩

example : Listing [⟨0, 7, 0⟩] := ⟨by decide, by decide⟩
example : Blank [0x0A, 0x20, 0, 0] := ⟨[0x0A, 0x20], [0, 0], rfl, by decide, by decide⟩
example : statsMake (fun _ => none) [0x61] (listObj [⟨0, 7, 0⟩]) (ask (ascii false) [labelled]) =
    some (some [(gclKey, [0x78])]) := by decide +kernel

/-- any bytes: a quote, a backslash, a newline, zero, 0xFF -/
example : json2forager (fun _ => none) (forager2json [0x22, 0x5C, 0x0A, 0, 0xFF] [] [([], [0x1F]), ([0x2F], [])]) =
    some ([0x22, 0x5C, 0x0A, 0, 0xFF], [], [([], [0x1F]), ([0x2F], [])]) := by decide +kernel

/-! ### where the parameters cannot be had -/

/-- `forage` for the tags `a` and `b`, one after the other.  Each label can be read; once the two
transactions are merged, the first is read with `{` and `"` of the second after it, and there are no
statistics for `a` any more. -/
theorem C47_merged :
    statsMake (fun _ => none) [0x61] (listObj [⟨0, 7, 0⟩])
      (ask (ascii false) [[⟨0, [labelOf [0x61]]⟩], [⟨8, [labelOf [0x62]]⟩]]) = some (some [(gclKey, [0x78])]) ∧
    statsMake (fun _ => none) [0x62] (listObj [⟨8, 15, 0⟩])
      (ask (ascii false) [[⟨0, [labelOf [0x61]]⟩], [⟨8, [labelOf [0x62]]⟩]]) = some (some [(gclKey, [0x78])]) ∧
    statsMake (fun _ => none) [0x61] (listObj [⟨0, 7, 0⟩])
      (ask (ascii false) [[⟨0, [labelOf [0x61]]⟩, ⟨8, [labelOf [0x62]]⟩]]) = some none ∧
    statsMake (fun _ => none) [0x62] (listObj [⟨8, 15, 0⟩])
      (ask (ascii false) [[⟨0, [labelOf [0x61]]⟩, ⟨8, [labelOf [0x62]]⟩]]) = some (some [(gclKey, [0x78])]) := by
  refine ⟨?_, ?_, ?_, ?_⟩ <;> decide +kernel

/-- `forage` without a name is that of "tf-idf".  But without a tag its label, which is where the statistics
look for it, does not say so, and they refuse it; with a tag it is where they do not look; and with the tag
"tf-idf" it is where those of "tf-idf" without a tag are. -/
theorem C47_unnamed :
    foragerLabel [] [] = foragerLabel tfIdf [] ∧
    (∀ skip params, (params.map Prod.fst).Nodup → statsParameters skip [] (forager2json [] [] params) = none) ∧
    (∀ tag, 0x3A ∉ tag → tag ≠ tfIdf → tag ≠ [] → ∀ recipe, foragerLabel [] tag ≠ foragerLabel tfIdf recipe) ∧
    foragerLabel [] tfIdf = foragerLabel tfIdf [] := by
  refine ⟨by decide, fun skip params hn => ?_, fun tag hc h1 h2 recipe e => ?_, by decide⟩
  · have := (C47_label skip [] [] params hn []).1 ⟨[], [], rfl, by simp, by simp⟩
    rw [List.append_nil] at this
    simp [statsParameters, this, tfIdf]
  · have e1 : foragerLabel [] tag = tag ++ 0x3A :: [] := by simp [foragerLabel, h2]
    have e2 : foragerLabel tfIdf recipe = tfIdf ++ 0x3A :: (if recipe ≠ [] then recipe ++ [0x3A] else []) := by
      unfold foragerLabel
      by_cases ht : recipe = [] <;> simp [ht, tfIdf]
    rw [e1, e2] at e
    exact h1 (colon_split hc (by decide) e).1

end Verif.Props
