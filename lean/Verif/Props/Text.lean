import Verif.Text.Clean
import Verif.Text.Across
import Verif.Store.IndexProof
import Verif.Props.Tokens
/-
  C27: appended text can be read back by address.
-/
namespace Verif.Props
open Verif.Text Verif.Hopper

/-- The tokenizer of a warren, and the texts that may be appended to it: any text with the
ASCII tokenizer; with tags, texts that do not end in a blank or a tab; with UTF-8, texts
that do not end within a UTF-8 sequence. -/
inductive Setting : Tokenizer → (Text → Prop) → Prop
  | plain : Setting (ascii false) fun _ => True
  | tags : Setting (ascii true) fun s => s.getLast? ≠ some 0x20 ∧ s.getLast? ≠ some 0x09
  | utf8 (act : Nat → Action) (h : Separates act) : Setting (utf8 act) fun s => Complete (body s)

theorem Setting.lawful {T : Tokenizer} {Fit : Text → Prop} (h : Setting T Fit) :
    Lawful T ∧ NewlineGap T ∧ ∀ s, Fit s → Clean T s := by
  cases h with
  | plain => exact ⟨ascii_lawful _, ascii_newline _, fun s _ => ascii_clean s⟩
  | tags => exact ⟨ascii_lawful _, ascii_newline _, fun s hs => xml_clean hs⟩
  | utf8 act h => exact ⟨utf8_lawful _, utf8_newline h, fun s hs => utf8_clean h hs⟩

/-- A text of code points ends within no UTF-8 sequence. -/
theorem C27_code_points (cs : List Nat) : Complete (body (cs.map encode).flatten) := complete_body cs

/-- C27, first part: the ranges that `append` returns are consecutive.  With `l` appended
before, a text with tokens gets the addresses after those of `l`, as many as its tokens take;
a text without tokens gets an empty range. -/
theorem C27_consecutive {T : Tokenizer} {Fit : Text → Prop} (hS : Setting T Fit) (l : List Text) (s : Text)
    (hl : ∀ u ∈ l, Fit u) (hs : Fit s) {n : Nat} (hn : n = (l.map T.addresses).sum) :
    ((App.all T {} l).append T s).2 =
      if T.addresses s = 0 then ((n : Int) + 1, (n : Int)) else ((n : Int), (n : Int) + T.addresses s - 1) := by
  obtain ⟨hT, -, hc⟩ := hS.lawful
  obtain ⟨h1, -, h3⟩ := all_inv hT (start_inv hT) (fun u hu => hc u (hl u hu))
  obtain ⟨-, -, -, h4, h5⟩ := append_inv hT h1 (hc s hs)
  have e : (App.all T {} l).address = n := by rw [h3, hn]; simp
  rw [e] at h4 h5
  split
  · rename_i h; exact h4 h
  · rename_i h; exact h5 (by omega)

/-- Every token of every text is annotated at its address, and nothing else is. -/
theorem C27_tokens {T : Tokenizer} {Fit : Text → Prop} (hS : Setting T Fit) (texts : List Text)
    (hl : ∀ u ∈ texts, Fit u) : (App.all T {} texts).ready.notes = tokensFrom T 0 texts := by
  obtain ⟨hT, -, hc⟩ := hS.lawful
  have := notes_all hT (start_inv hT) (fun u hu => hc u (hl u hu))
  exact this

/-- C27, second part (what is missing: with tags, texts that end in a blank or tab; with
UTF-8, texts that end within a sequence; see `C27_open_tag`, `C27_open_sequence`).

Whatever transactions a warren holds and whatever of them are merged, asking for the
addresses of an appended text `s` gives the text from its first token on, the separator that
ends it, and what is stored after it, `F`, up to the next token.  If no token was appended
before `s` in its transaction, it gives all of what was appended before as well.  The
readers can be asked again. -/
theorem C27_append_partial {T : Tokenizer} {Fit : Text → Prop} (hS : Setting T Fit)
    {before after : List (List Txn)} {L R : List Txn} {t : Txn} {l r : List Text} {s : Text}
    (ht : t.texts = l ++ s :: r)
    (hfit : ∀ g ∈ before ++ (L ++ t :: R) :: after, ∀ u ∈ g, ∀ x ∈ u.texts, Fit x)
    (ho : InOrder T (before ++ (L ++ t :: R) :: after).flatten)
    {rs : List TextReader} (hrs : ServesAll rs (shardsOf T (before ++ (L ++ t :: R) :: after)))
    (htok : 0 < T.addresses s) {n : Nat} (hn : n = (l.map T.addresses).sum) {F : Text}
    (hF : t.text ++ (R.map Txn.text).flatten = (l.map stored).flatten ++ stored s ++ F) :
    ∃ rs', readAll T (t.base + n) (t.base + n + T.addresses s - 1) rs = some
        ((if n = 0 then (l.map stored).flatten ++ s.take (T.skip s 0) else []) ++
          s.drop (T.skip s 0) ++ ending s ++ F.take (T.skip F 0), rs') ∧
      ServesAll rs' (shardsOf T (before ++ (L ++ t :: R) :: after)) := by
  obtain ⟨hT, hnl, hc⟩ := hS.lawful
  have hclean : ∀ g ∈ before ++ (L ++ t :: R) :: after, ∀ u ∈ g, ∀ x ∈ u.texts, Clean T x :=
    fun g hg u hu x hx => hc x (hfit g hg u hu x hx)
  have htc := hclean (L ++ t :: R) (by simp) t (by simp)
  have hcount : t.count T = n + (T.addresses s + (r.map T.addresses).sum) := by
    unfold Txn.count; rw [ht, hn]; simp
  obtain ⟨rs', h1, h2⟩ := read_range hT hnl hclean ho hrs (i := n) (j := n + T.addresses s - 1)
    (by omega) (by omega) rfl rfl
  refine ⟨rs', ?_, h2⟩
  have e1 : (t.base : Int) + ((n + T.addresses s - 1 : Nat) : Int) = t.base + n + T.addresses s - 1 := by omega
  rw [e1] at h1
  rw [h1]
  congr 2
  have e2 : n + T.addresses s - 1 + 1 = n + T.addresses s := by omega
  have hw := (txn_chunk hT hnl htc)
  have e3 : T.skip t.text n = T.skip (t.text ++ (R.map Txn.text).flatten) n := by
    have hwh : Whole T t.text := by rw [← hw.2.2.1]; exact hw.1.whole
    rw [skip_left hT hwh _ (by rw [hw.2.2.2]; omega)]
  rw [e2, e3, hF, List.append_assoc]
  exact slice_text hT (fun u hu => htc u (by rw [ht]; simp [hu])) (htc s (by rw [ht]; simp)) htok hn rfl

/-- C27 for the ASCII tokenizer without tags: no condition on the texts. -/
theorem C27_ascii {before after : List (List Txn)} {L R : List Txn} {t : Txn} {l r : List Text} {s : Text}
    (ht : t.texts = l ++ s :: r)
    (ho : InOrder (ascii false) (before ++ (L ++ t :: R) :: after).flatten)
    {rs : List TextReader}
    (hrs : ServesAll rs (shardsOf (ascii false) (before ++ (L ++ t :: R) :: after)))
    (htok : 0 < (ascii false).addresses s) {n : Nat} (hn : n = (l.map (ascii false).addresses).sum) {F : Text}
    (hF : t.text ++ (R.map Txn.text).flatten = (l.map stored).flatten ++ stored s ++ F) :
    ∃ rs', readAll (ascii false) (t.base + n) (t.base + n + (ascii false).addresses s - 1) rs = some
        ((if n = 0 then (l.map stored).flatten ++ s.take ((ascii false).skip s 0) else []) ++
          s.drop ((ascii false).skip s 0) ++ ending s ++ F.take ((ascii false).skip F 0), rs') ∧
      ServesAll rs' (shardsOf (ascii false) (before ++ (L ++ t :: R) :: after)) :=
  C27_append_partial .plain ht (fun _ _ _ _ _ _ => trivial) ho hrs htok hn hF

/-- Any range of addresses of a transaction: the text from the first of these tokens (from
the start of the transaction's text, if it is the first token) up to the token after the
last of them, or to the end of the shard's text if there is none. -/
theorem C27_range_partial {T : Tokenizer} {Fit : Text → Prop} (hS : Setting T Fit)
    {before after : List (List Txn)} {L R : List Txn} {t : Txn}
    (hfit : ∀ g ∈ before ++ (L ++ t :: R) :: after, ∀ u ∈ g, ∀ x ∈ u.texts, Fit x)
    (ho : InOrder T (before ++ (L ++ t :: R) :: after).flatten)
    {rs : List TextReader} (hrs : ServesAll rs (shardsOf T (before ++ (L ++ t :: R) :: after)))
    {i j : Nat} (hij : i ≤ j) (hj : j < t.count T) {X : Text}
    (hX : X = t.text ++ (R.map Txn.text).flatten) {s : Nat} (hs : s = if i = 0 then 0 else T.skip X i) :
    ∃ rs', readAll T (t.base + i) (t.base + j) rs = some
        ((X.drop s).take (T.skip X (j + 1 : Nat) - s), rs') ∧
      ServesAll rs' (shardsOf T (before ++ (L ++ t :: R) :: after)) := by
  obtain ⟨hT, hnl, hc⟩ := hS.lawful
  have hclean : ∀ g ∈ before ++ (L ++ t :: R) :: after, ∀ u ∈ g, ∀ x ∈ u.texts, Clean T x :=
    fun g hg u hu x hx => hc x (hfit g hg u hu x hx)
  have hw := txn_chunk hT hnl (hclean (L ++ t :: R) (by simp) t (by simp))
  have e3 : T.skip t.text i = T.skip X i := by
    have hwh : Whole T t.text := by rw [← hw.2.2.1]; exact hw.1.whole
    rw [hX, skip_left hT hwh _ (by rw [hw.2.2.2]; omega)]
  subst hX
  exact read_range hT hnl hclean ho hrs hij hj (by rw [hs, e3]) rfl

/-- A range of addresses from one transaction, `t`, to another, `u`, in a later shard: the
text from the first token asked for to the end of its shard, the texts of the shards between
and the text of the last shard up to the token after the last asked for, in this order.  Of
each shard but the first what was appended before the first token is left out only if it is
of transactions without any token. -/
theorem C27_across_partial {T : Tokenizer} {Fit : Text → Prop} (hS : Setting T Fit)
    {before between after : List (List Txn)} {L R L' R' : List Txn} {t u : Txn}
    (hfit : ∀ g ∈ before ++ (L ++ t :: R) :: (between ++ (L' ++ u :: R') :: after),
      ∀ v ∈ g, ∀ x ∈ v.texts, Fit x)
    (ho : InOrder T (before ++ (L ++ t :: R) :: (between ++ (L' ++ u :: R') :: after)).flatten)
    {rs : List TextReader}
    (hrs : ServesAll rs (shardsOf T (before ++ (L ++ t :: R) :: (between ++ (L' ++ u :: R') :: after))))
    {i j : Nat} (hi : i < t.count T) (hj : j < u.count T) {X Y : Text}
    (hX : X = groupText (t :: R)) (hY : Y = fromFirst T (L' ++ u :: R')) {s : Nat}
    (hs : s = if i = 0 then 0 else T.skip X i) :
    ∃ rs', readAll T (t.base + i) (u.base + j) rs = some
        (X.drop s ++ (between.map (fromFirst T)).flatten ++
          Y.take (T.skip Y ((L'.map (Txn.count T)).sum + j + 1 : Nat)), rs') ∧
      ServesAll rs' (shardsOf T (before ++ (L ++ t :: R) :: (between ++ (L' ++ u :: R') :: after))) := by
  obtain ⟨hT, hnl, hc⟩ := hS.lawful
  have hclean : ∀ g ∈ before ++ (L ++ t :: R) :: (between ++ (L' ++ u :: R') :: after),
      ∀ v ∈ g, ∀ x ∈ v.texts, Clean T x := fun g hg u hu x hx => hc x (hfit g hg u hu x hx)
  have hw := txn_chunk hT hnl (hclean (L ++ t :: R) (by simp) t (by simp))
  have e3 : T.skip t.text i = T.skip X i := by
    have hwh : Whole T t.text := by rw [← hw.2.2.1]; exact hw.1.whole
    rw [hX]
    show _ = T.skip (t.text ++ groupText R) i
    rw [skip_left hT hwh _ (by rw [hw.2.2.2]; omega)]
  have := read_across hT hnl hclean ho hrs hi hj
  rw [e3, ← hs] at this
  rw [hY, hX]
  exact this

/-- The same for two transactions in one shard. -/
theorem C27_within_partial {T : Tokenizer} {Fit : Text → Prop} (hS : Setting T Fit)
    {before after : List (List Txn)} {L M R : List Txn} {t u : Txn}
    (hfit : ∀ g ∈ before ++ (L ++ t :: (M ++ u :: R)) :: after, ∀ v ∈ g, ∀ x ∈ v.texts, Fit x)
    (ho : InOrder T (before ++ (L ++ t :: (M ++ u :: R)) :: after).flatten)
    {rs : List TextReader}
    (hrs : ServesAll rs (shardsOf T (before ++ (L ++ t :: (M ++ u :: R)) :: after)))
    {i j : Nat} (hi : i < t.count T) (hj : j < u.count T) {X : Text}
    (hX : X = groupText (t :: (M ++ u :: R))) {s : Nat} (hs : s = if i = 0 then 0 else T.skip X i) :
    ∃ rs', readAll T (t.base + i) (u.base + j) rs = some
        ((X.drop s).take (T.skip X (t.count T + (M.map (Txn.count T)).sum + j + 1 : Nat) - s), rs') ∧
      ServesAll rs' (shardsOf T (before ++ (L ++ t :: (M ++ u :: R)) :: after)) := by
  obtain ⟨hT, hnl, hc⟩ := hS.lawful
  have hclean : ∀ g ∈ before ++ (L ++ t :: (M ++ u :: R)) :: after,
      ∀ v ∈ g, ∀ x ∈ v.texts, Clean T x := fun g hg u hu x hx => hc x (hfit g hg u hu x hx)
  have hw := txn_chunk hT hnl (hclean (L ++ t :: (M ++ u :: R)) (by simp) t (by simp))
  have e3 : T.skip t.text i = T.skip X i := by
    have hwh : Whole T t.text := by rw [← hw.2.2.1]; exact hw.1.whole
    rw [hX]
    show _ = T.skip (t.text ++ groupText (M ++ u :: R)) i
    rw [skip_left hT hwh _ (by rw [hw.2.2.2]; omega)]
  exact read_within hT hnl hclean ho hrs hi hj (by rw [hs, e3]) hX

/-- However the transactions are merged, in one go or merge upon merge, the shard is the same. -/
theorem C27_merges {T : Tokenizer} {Fit : Text → Prop} (hS : Setting T Fit) {W : List (List Txn)}
    (hfit : ∀ g ∈ W, ∀ u ∈ g, ∀ x ∈ u.texts, Fit x) (ho : InOrder T W.flatten) :
    mergeShards (shardsOf T W) = mergeShards (W.flatten.map (Txn.shard T)) := by
  obtain ⟨hT, hnl, hc⟩ := hS.lawful
  exact regroup hT hnl (fun g hg u hu x hx => hc x (hfit g hg u hu x hx)) ho

/-- The cursor a shard's text object uses (src/fiver.cc 265) reads the shard, if the index
has the shard's chunks as the annotations of the text chunk feature. -/
theorem C27_cursor {ix : Store.Index} (h : Store.GoodIx ix) {f : Int} {x : Shard}
    (hx : Store.annsOf ix f = x.chunks) :
    TextReader.Serves ⟨Store.fiverObj ix f, (Store.fiverObj ix f).init, x.text⟩ x := by
  obtain ⟨I, hI⟩ := Store.fiver_impl h f
  rw [hx] at hI
  exact ⟨rfl, I, hI, hI.init⟩

/-- readers of the shards of a warren, as they are when it has just been started -/
def freshReaders (T : Tokenizer) (W : List (List Txn)) : List TextReader :=
  (shardsOf T W).map fun x => ⟨listObj x.chunks, (listObj x.chunks).init, x.text⟩

/-- These readers are as the theorems above ask. -/
theorem C27_fresh {T : Tokenizer} {Fit : Text → Prop} (hS : Setting T Fit) {W : List (List Txn)}
    (hfit : ∀ g ∈ W, ∀ u ∈ g, ∀ x ∈ u.texts, Fit x) (ho : InOrder T W.flatten) :
    ServesAll (freshReaders T W) (shardsOf T W) := by
  obtain ⟨hT, hnl, hc⟩ := hS.lawful
  have hall : ∀ x ∈ shardsOf T W, Listing x.chunks := by
    intro x hx
    obtain ⟨g, hg, rfl⟩ := List.mem_map.mp hx
    have hgc : ∀ u ∈ g, ∀ x ∈ u.texts, Clean T x := fun u hu x hx => hc x (hfit g hg u hu x hx)
    have hgo := ho.sub hT hnl (List.sublist_flatten_of_mem hg)
    obtain ⟨e1, e2, e3⟩ := group_total hT hnl hgc hgo
    rw [e1]
    refine (total_good hT e2 e3).listing ?_
    intro c hc'
    obtain ⟨u, hu, h1⟩ := group_chunk hT hnl hgc hc'
    have := hgo.fits u hu
    omega
  unfold freshReaders
  revert hall
  generalize shardsOf T W = xs
  intro hall
  induction xs with
  | nil => exact .nil
  | cons x xs ih =>
    refine .cons ⟨rfl, _, list_impl (hall x (List.mem_cons_self ..)), ?_⟩
      (ih fun y hy => hall y (List.mem_cons_of_mem _ hy))
    exact (list_impl (hall x (List.mem_cons_self ..))).init

/-- what a warren just started answers -/
def ask (T : Tokenizer) (W : List (List Txn)) (p q : Int) : Option Text :=
  (readAll T p q (freshReaders T W)).map (·.1)

/-! ### examples -/

/-- `ab` and ` c, d` at address 0, `- e` at address 7 -/
def exampleTxns : List Txn :=
  [⟨0, [[0x61, 0x62], [0x20, 0x63, 0x2C, 0x20, 0x64]]⟩, ⟨7, [[0x2D, 0x20, 0x65]]⟩]
/-- and `f` at address 20 -/
def lastTxn : Txn := ⟨20, [[0x66]]⟩

/-- from the middle of the first shard to the last: `d`, `- e`, `f` -/
example : ask (ascii false) [exampleTxns, [lastTxn]] 2 20 =
    some [0x64, 0x0A, 0x2D, 0x20, 0x65, 0x0A, 0x66, 0x0A] := by decide

/-- the hypotheses of the theorems hold of these transactions, the first two merged -/
example : (∀ g ∈ [exampleTxns, [lastTxn]], ∀ u ∈ g, ∀ x ∈ u.texts, True) ∧
    InOrder (ascii false) [exampleTxns, [lastTxn]].flatten ∧
    ServesAll (freshReaders (ascii false) [exampleTxns, [lastTxn]])
      (shardsOf (ascii false) [exampleTxns, [lastTxn]]) := by
  have ho : InOrder (ascii false) [exampleTxns, [lastTxn]].flatten := ⟨by decide, by decide⟩
  exact ⟨fun _ _ _ _ _ _ => trivial, ho, C27_fresh .plain (fun _ _ _ _ _ _ => trivial) ho⟩

example : (ascii false).addresses [0x20, 0x63, 0x2C, 0x20, 0x64] = 2 := by decide
/-- ` c, d` has the addresses 1 and 2; they read `c, d`, the newline, and `- ` -/
example : ask (ascii false) [exampleTxns, [lastTxn]] 1 2 =
    some [0x63, 0x2C, 0x20, 0x64, 0x0A, 0x2D, 0x20] := by decide
example : ask (ascii false) [exampleTxns, [lastTxn]] 20 20 = some [0x66, 0x0A] := by decide
/-- the same, nothing merged -/
example : ask (ascii false) [[exampleTxns[0]], [exampleTxns[1]], [lastTxn]] 1 2 =
    some [0x63, 0x2C, 0x20, 0x64, 0x0A] := by decide

/-! ### where the texts read differ from those appended -/

/-- The texts `<a ` and `b>`, with tags: appending gives them the addresses 0 and 1, but
what is stored, `<a b>`, is one tag, and the addresses of the second text read nothing. -/
theorem C27_open_tag :
    ((App.all (ascii true) {} [[0x3C, 0x61, 0x20]]).append (ascii true) [0x62, 0x3E]).2 = (1, 1) ∧
    ask (ascii true) [[⟨0, [[0x3C, 0x61, 0x20], [0x62, 0x3E]]⟩]] 0 0 =
      some [0x3C, 0x61, 0x20, 0x62, 0x3E, 0x0A] ∧
    ask (ascii true) [[⟨0, [[0x3C, 0x61, 0x20], [0x62, 0x3E]]⟩]] 1 1 = some [] := by
  decide

/-- The texts `a` followed by the first byte of a sequence, and `b`: the newline that ends
the first is taken into the sequence. -/
theorem C27_open_sequence :
    ((App.all (utf8 smallTable) {} [[0x61, 0xC3]]).append (utf8 smallTable) [0x62]).2 = (1, 1) ∧
    ask (utf8 smallTable) [[⟨0, [[0x61, 0xC3], [0x62]]⟩]] 0 0 = some [0x61, 0xC3, 0x0A, 0x62, 0x0A] ∧
    ask (utf8 smallTable) [[⟨0, [[0x61, 0xC3], [0x62]]⟩]] 1 1 = some [] := by
  decide

/-- Asking up to the largest address gives less than asking up to the last address: of
`a b c`, only `a `. -/
theorem C27_to_the_end :
    ask (ascii false) [[⟨0, [[0x61, 0x20, 0x62, 0x20, 0x63]]⟩]] 0 2 =
      some [0x61, 0x20, 0x62, 0x20, 0x63, 0x0A] ∧
    ask (ascii false) [[⟨0, [[0x61, 0x20, 0x62, 0x20, 0x63]]⟩]] 0 maxfinity = some [0x61, 0x20] ∧
    ask (ascii false) [[⟨0, [[0x61, 0x20, 0x62, 0x20, 0x63]]⟩]] 1 maxfinity = some [] := by
  decide

/-- What is asked for up to an address that no transaction has, as after an aborted one,
depends on merging: merged, all of the shard's text is given. -/
theorem C27_gap_merged :
    ask (ascii false) [[⟨0, [[0x61]]⟩], [⟨7, [[0x62]]⟩]] 0 3 = some [0x61, 0x0A] ∧
    ask (ascii false) [[⟨0, [[0x61]]⟩, ⟨7, [[0x62]]⟩]] 0 3 = some [0x61, 0x0A, 0x62, 0x0A] := by
  decide

/-- A text without a token is given with the token before it, but only once merged with it. -/
theorem C27_tokenless_merged :
    ask (ascii false) [[⟨0, [[0x61]]⟩], [⟨1, [[0x2D]]⟩]] 0 0 = some [0x61, 0x0A] ∧
    ask (ascii false) [[⟨0, [[0x61]]⟩, ⟨1, [[0x2D]]⟩]] 0 0 = some [0x61, 0x0A, 0x2D, 0x0A] := by
  decide

end Verif.Props
