import Verif.SimpleText.Reading
import Verif.Props.Text
/-
  C36: the block map of a simple warren has one entry for each block of 1024 addresses, and text is
  read by it.
-/
namespace Verif.Props
open Verif Verif.Text Verif.SimpleText

theorem Setting.works {T : Tokenizer} {Fit : Text → Prop} (h : Setting T Fit) :
    (∃ S, Follows S T) ∧ Cuts T ∧ ∀ s, (∀ b ∈ s, b ≠ (0 : UInt8)) → T.Splits s := by
  cases h with
  | plain => exact ⟨⟨_, ascii_follows _⟩, ascii_cuts _, fun s _ => (C28_ascii false s).2.2⟩
  | tags => exact ⟨⟨_, ascii_follows _⟩, ascii_cuts _, fun s _ => (C28_ascii true s).2.2⟩
  | utf8 act h => exact ⟨⟨_, utf8_follows _⟩, utf8_cuts h.1, fun s hs => (C28_utf8_partial act s).2.2 hs⟩

/-- C36 for a warren that is built (what is missing: with tags, texts that end in a blank or tab;
with UTF-8, texts that end within a sequence): the block map has one entry for every block of 1024
addresses, in order, with the place where the first token of the block starts. -/
theorem C36_build_partial {T : Tokenizer} {Fit : Text → Prop} (hS : Setting T Fit) (texts : List Text)
    (hf : ∀ s ∈ texts, Fit s) :
    (build T texts).text = (texts.map stored).flatten ∧
    (build T texts).records.map (fun r => (r.pq, r.start)) = blockMap T (texts.map stored).flatten := by
  obtain ⟨hT, -, hc⟩ := hS.lawful
  obtain ⟨⟨S, hF⟩, -, -⟩ := hS.works
  have := all_after hT hF (keep := true) texts (after_empty hT) (fun s hs => hc s (hf s hs)) (fun h => by cases h)
  rw [List.nil_append] at this
  exact ⟨this.text, this.records⟩

/-- With the ASCII tokenizer there is no condition. -/
theorem C36_build_ascii (texts : List Text) :
    (build (ascii false) texts).text = (texts.map stored).flatten ∧
    (build (ascii false) texts).records.map (fun r => (r.pq, r.start)) =
      blockMap (ascii false) (texts.map stored).flatten :=
  C36_build_partial .plain texts fun _ _ => trivial

/-- C36 (what is missing, besides the texts of `C36_build_partial`: texts with NULs, see `C36_nul`, and texts with
a word of two tokens at an address that is a multiple of 1024, see `C36_doubled`): after any transactions on a
built warren, each committed or aborted, the text is that of the committed ones in order and the block map has one
entry for every block of 1024 addresses, in order, with the place where the first token of the block starts. -/
theorem C36_history_partial {T : Tokenizer} {Fit : Text → Prop} (hS : Setting T Fit) (texts : List Text) (ts : List SimpleText.Txn)
    {X : Text} (hX : X = ((texts ++ committed ts).map stored).flatten)
    (hf : ∀ s ∈ texts ++ committed ts, Fit s) (h0 : ∀ b ∈ X, b ≠ 0) (hu : Undoubled T X) :
    ∃ d, transactAll T (build T texts) ts = some d ∧ d.text = X ∧
      d.records.map (fun r => (r.pq, r.start)) = blockMap T X := by
  obtain ⟨hT, -, hc⟩ := hS.lawful
  obtain ⟨⟨S, hF⟩, hC, hsp⟩ := hS.works
  have hb := all_after hT hF (keep := true) texts (after_empty hT) (fun s hs => hc s (hf s (by simp [hs]))) (fun h => by cases h)
  rw [List.nil_append] at hb
  rw [List.map_append, List.flatten_append] at hX
  subst hX
  obtain ⟨d, h1, h2⟩ := history hT hF hC hsp ts hb.kept (fun s hs => hc s (hf s (by simp [hs]))) h0 hu
  exact ⟨d, h1, h2.text, h2.records⟩

/-- The addresses that a transaction gives to its texts follow those of everything committed before: after the texts
`l` of the transaction, a text with tokens gets as many addresses as its tokens take, a text without tokens an empty
range; and each token is annotated at its address. -/
theorem C36_ranges_partial {T : Tokenizer} {Fit : Text → Prop} (hS : Setting T Fit) (texts : List Text) (ts : List SimpleText.Txn)
    (l : List Text) (s : Text) {X : Text} (hX : X = ((texts ++ committed ts).map stored).flatten)
    (hf : ∀ s ∈ texts ++ committed ts ++ l, Fit s) (hs : Fit s) (h0 : ∀ b ∈ X, b ≠ 0)
    (hu : Undoubled T (X ++ (l.map stored).flatten ++ stored s)) {n : Nat}
    (hn : n = ((texts ++ committed ts ++ l).map T.addresses).sum) :
    ∃ d st, transactAll T (build T texts) ts = some d ∧ start T d = some st ∧
      (Session.append false T (Session.all false T st l) s).2 =
        (if T.addresses s = 0 then ((n : Int) + 1, (n : Int)) else ((n : Int), (n : Int) + T.addresses s - 1)) ∧
      (Session.append false T (Session.all false T st l) s).1.notes =
        (Session.all false T st l).notes ++ (T.tokenize s).map fun t => (t.str, t.address + n) := by
  obtain ⟨hT, -, hc⟩ := hS.lawful
  obtain ⟨⟨S, hF⟩, hC, hsp⟩ := hS.works
  have hb := all_after hT hF (keep := true) texts (after_empty hT) (fun s hs => hc s (hf s (by simp [hs]))) (fun h => by cases h)
  rw [List.nil_append] at hb
  have hsum : ∀ l : List Text, (∀ s ∈ l, Clean T s) → T.addresses (l.map stored).flatten = (l.map T.addresses).sum := by
    intro l hl
    induction l with
    | nil => rw [List.map_nil, List.flatten_nil, addresses_of (tokenize_nil hT)]; rfl
    | cons s l ih =>
      obtain ⟨-, c2, c3⟩ := clean_stored hT (hl s (by simp))
      rw [List.map_cons, List.flatten_cons, List.map_cons, List.sum_cons]
      change Whole T (stored s) at c3
      change T.addresses (stored s) = _ at c2
      rw [addresses_append c3, c2, ih fun u hu => hl u (by simp [hu])]
  have hX' : X = (texts.map stored).flatten ++ ((committed ts).map stored).flatten := by
    rw [hX, List.map_append, List.flatten_append]
  have hwX : Whole T (X ++ (l.map stored).flatten) := by
    have := all_after hT hF (keep := true) (texts ++ committed ts ++ l) (after_empty hT)
      (fun s hs => hc s (hf s hs)) (fun h => by cases h)
    have := this.whole
    rw [List.nil_append, List.map_append, List.flatten_append, ← hX] at this
    exact this
  have hwX0 : Whole T X := by
    have := all_after hT hF (keep := true) (texts ++ committed ts) (after_empty hT)
      (fun s hs => hc s (hf s (List.mem_append_left _ hs))) (fun h => by cases h)
    have := this.whole
    rw [List.nil_append, ← hX] at this
    exact this
  have hu1 := (undoubled_append hwX hu).1
  have hu0 := (undoubled_append hwX0 hu1).1
  obtain ⟨d, h1, h2⟩ := history hT hF hC hsp ts hb.kept (fun s hs => hc s (hf s (by simp [hs])))
    (by rw [← hX']; exact h0) (by rw [← hX']; exact hu0)
  rw [← hX'] at h2
  obtain ⟨st, e1, e2, -⟩ := start_after hT hC hsp h2 h0
  have ha := all_after hT hF (keep := false) l e2 (fun s hs => hc s (hf s (by simp [hs]))) (fun _ => hu1)
  obtain ⟨-, a2, a3⟩ := append_after hT hF (keep := false) ha (hc s hs) (fun _ => hu)
  have en : T.addresses (X ++ (l.map stored).flatten) = n := by
    rw [hn, ← hsum _ fun s hs => hc s (hf s hs), hX, List.map_append (l₂ := l), List.flatten_append]
  rw [en] at a2 a3
  exact ⟨d, st, h1, e1, a2, a3⟩

theorem askAll_due {T : Tokenizer} (hT : Lawful T) (hC : Cuts T) {X : Text} (hN : (T.addresses X : Int) ≤ maxfinity)
    (hsplit : ∀ n, T.Splits (X.drop n)) : ∀ (cs : List Call) {r : Reader}, ReaderOk T X r →
    askAll T r cs = some (cs.map (due T X))
  | [], _, _ => rfl
  | .translate p q :: cs, r, hr => by
    obtain ⟨r', h1, h2⟩ := translate_ok hT hC hN hr p q
    have e : SimpleText.ask T r (.translate p q) = some (r', due T X (.translate p q)) := by simp [SimpleText.ask, h1, due]
    rw [askAll, e]
    simp only
    rw [askAll_due hT hC hN hsplit cs h2]
    rfl
  | .tokens :: cs, r, hr => by
    obtain ⟨r', h1, h2⟩ := tokens_ok hT hC hN hsplit hr
    have e : SimpleText.ask T r (.tokens) = some (r', due T X (.tokens)) := by simp [SimpleText.ask, h1, due]
    rw [askAll, e]
    simp only
    rw [askAll_due hT hC hN hsplit cs h2]
    rfl

/-- Whatever is asked of the text of a simple warren, in whatever order, each call is answered from the whole text:
a range of addresses by the bytes from its first token up to the token after its last, the number of tokens by the
number of addresses. -/
theorem C36_read_partial {T : Tokenizer} {Fit : Text → Prop} (hS : Setting T Fit) (texts : List Text) (ts : List SimpleText.Txn)
    {X : Text} (hX : X = ((texts ++ committed ts).map stored).flatten)
    (hf : ∀ s ∈ texts ++ committed ts, Fit s) (h0 : ∀ b ∈ X, b ≠ 0) (hu : Undoubled T X)
    (hN : (T.addresses X : Int) ≤ maxfinity) (calls : List Call) :
    ∃ d r, transactAll T (build T texts) ts = some d ∧ load d = some r ∧
      askAll T r calls = some (calls.map (due T X)) := by
  obtain ⟨hT, -, hc⟩ := hS.lawful
  obtain ⟨⟨S, hF⟩, hC, hsp⟩ := hS.works
  have hb := all_after hT hF (keep := true) texts (after_empty hT) (fun s hs => hc s (hf s (by simp [hs]))) (fun h => by cases h)
  rw [List.nil_append] at hb
  rw [List.map_append, List.flatten_append] at hX
  subst hX
  obtain ⟨d, h1, h2⟩ := history hT hF hC hsp ts hb.kept (fun s hs => hc s (hf s (by simp [hs]))) h0 hu
  obtain ⟨r, h3, h4, -⟩ := load_ok hT h2
  exact ⟨d, r, h1, h3, askAll_due hT hC hN (fun n => hsp _ fun b hb => h0 b (List.mem_of_mem_drop hb)) calls h4⟩

/-- A built warren with the ASCII tokenizer, tags or not and NULs or not, answers every call. -/
theorem C36_read_build_partial {xml : Bool} {Fit : Text → Prop} (hS : Setting (ascii xml) Fit) (texts : List Text)
    {X : Text} (hX : X = (texts.map stored).flatten) (hf : ∀ s ∈ texts, Fit s)
    (hN : ((ascii xml).addresses X : Int) ≤ maxfinity) (calls : List Call) :
    ∃ r, load (build (ascii xml) texts) = some r ∧ askAll (ascii xml) r calls = some (calls.map (due (ascii xml) X)) := by
  obtain ⟨hT, -, hc⟩ := hS.lawful
  obtain ⟨⟨S, hF⟩, hC, -⟩ := hS.works
  have hb := all_after hT hF (keep := true) texts (after_empty hT) (fun s hs => hc s (hf s hs)) (fun h => by cases h)
  rw [List.nil_append, ← hX] at hb
  obtain ⟨r, h3, h4, -⟩ := load_ok hT hb.kept
  exact ⟨r, h3, askAll_due hT hC hN (fun n => (C28_ascii xml _).2.2) calls h4⟩

/-- What `due` gives for the addresses of one appended text `s`: the text from its first token on, the separator that
ends it, and what is stored after it, `F`, up to the next token. -/
theorem C36_text {T : Tokenizer} {Fit : Text → Prop} (hS : Setting T Fit) {l : List Text} {s F : Text}
    (hl : ∀ u ∈ l, Fit u) (hs : Fit s) (htok : 0 < T.addresses s) {n : Nat} (hn : n = (l.map T.addresses).sum) :
    due T ((l.map stored).flatten ++ stored s ++ F) (.translate n (n + T.addresses s - 1)) =
      .inl (s.drop (T.skip s 0) ++ ending s ++ F.take (T.skip F 0)) := by
  obtain ⟨hT, -, hc⟩ := hS.lawful
  obtain ⟨i1, i2, i3⟩ := all_inv hT (start_inv hT) fun u hu => hc u (hl u hu)
  have eA : (App.all T {} l).text = (l.map stored).flatten := by rw [i2]; rfl
  have hA : Whole T (l.map stored).flatten := by rw [← eA]; exact i1.whole
  have nA : T.addresses (l.map stored).flatten = n := by
    rw [← eA, i1.address, i3, hn]; simp
  obtain ⟨c1, c2, c3⟩ := clean_stored hT (hc s hs)
  have e1 : T.skip ((l.map stored).flatten ++ (stored s ++ F)) (n : Nat) = (l.map stored).flatten.length + T.skip s 0 := by
    have h1 := skip_append hT hA (stored s ++ F) 0
    rw [nA, Nat.add_zero] at h1
    rw [h1]
    congr 1
    have h2 := skip_left hT c3 F (n := 0) (by rw [c2]; exact htok)
    change T.skip (stored s ++ F) _ = T.skip (s ++ ending s) _ at h2
    rw [h2]
    obtain ⟨t, ht, h0⟩ := (at_lt hT s 0).mpr htok
    have h3 := (hT.skips s).start t ht
    have h4 := (hT.skips (s ++ ending s)).start t (by rw [c1]; exact ht)
    rw [h0] at h3 h4
    rw [h4, ← h3]
    rfl
  have e2 : T.skip ((l.map stored).flatten ++ (stored s ++ F)) (n + T.addresses s : Nat) =
      (l.map stored).flatten.length + ((stored s).length + T.skip F 0) := by
    rw [← nA, skip_append hT hA]
    congr 1
    have := skip_append hT c3 F 0
    rw [c2] at this
    exact this
  have hk : T.skip s 0 ≤ s.length := skip_le hT s 0
  simp only [due, between]
  have t1 : (n : Int).toNat = n := by omega
  have t2 : ((n : Int) + T.addresses s - 1 + 1).toNat = n + T.addresses s := by omega
  rw [t1, t2, List.append_assoc, e1, e2]
  congr 1
  rw [List.drop_append, List.drop_of_length_le (by omega), List.nil_append]
  have d1 : (l.map stored).flatten.length + T.skip s 0 - (l.map stored).flatten.length = T.skip s 0 := by omega
  have d2 : (l.map stored).flatten.length + ((stored s).length + T.skip F 0) -
    ((l.map stored).flatten.length + T.skip s 0) = ((stored s).length - T.skip s 0) + T.skip F 0 := by
    unfold stored; rw [List.length_append]; omega
  rw [d1, d2, drop_le (by unfold stored; rw [List.length_append]; omega)]
  rw [List.take_append, List.take_of_length_le (by rw [List.length_drop]; omega), List.length_drop]
  have d3 : (stored s).length - T.skip s 0 + T.skip F 0 - ((stored s).length - T.skip s 0) = T.skip F 0 := by omega
  rw [d3]
  congr 1
  unfold stored
  rw [drop_le hk]

/-! ### which texts are not doubled -/

/-- With the UTF-8 tokenizer no address has two tokens. -/
theorem C36_utf8_undoubled (act : Nat → Action) (X : Text) : Undoubled (utf8 act) X := by
  have key : ∀ (l : List Item) (a o n : Nat), (∀ i ∈ l, i.2.length ≤ 1) →
      (tokensOf l a o).countP (fun t => t.address = n) ≤ 1 := by
    intro l
    induction l with
    | nil => intro a o n _; simp [tokensOf]
    | cons i l ih =>
      intro a o n h
      obtain ⟨k, ws⟩ := i
      cases ws with
      | nil => exact ih a _ n fun i hi => h i (by simp [hi])
      | cons w ws =>
        have hw := h (k, w :: ws) (by simp)
        have : ws = [] := by
          apply List.length_eq_zero_iff.mp
          simp only [List.length_cons] at hw
          omega
        subst this
        simp only [tokensOf, List.map_cons, List.map_nil, List.cons_append, List.nil_append]
        by_cases hn : a = n
        · rw [List.countP_cons_of_pos (by simpa using hn)]
          have : (tokensOf l (a + 1) (o + k)).countP (fun t => t.address = n) = 0 := by
            rw [List.countP_eq_zero]
            intro t ht
            have := (tok_addr ht).1
            simp only [decide_eq_true_eq]
            omega
          omega
        · rw [List.countP_cons_of_neg (by simpa using hn)]
          exact ih _ _ n fun i hi => h i (by simp [hi])
  have hitems : ∀ (f : Nat) (s : Text), ∀ i ∈ (utf8Scan act).items f s, i.2.length ≤ 1 := by
    intro f
    induction f with
    | zero => intro s i hi; simp [Scanner.items] at hi
    | succ f ih =>
      intro s i hi
      cases s with
      | nil => simp [Scanner.items] at hi
      | cons c cs =>
        rw [Scanner.items] at hi
        rcases List.mem_cons.mp hi with rfl | hi
        · change (utf8Item act (c :: cs)).2.length ≤ 1
          unfold utf8Item
          split <;> simp
        · exact ih _ i hi
  intro n _
  rw [(utf8_follows act).tokenize]
  exact key _ 0 0 n (hitems _ _)

/-- For UTF-8, then, the only conditions are that texts end within no sequence and have no NUL. -/
theorem C36_utf8_partial {act : Nat → Action} (ha : Separates act) (texts : List Text) (ts : List SimpleText.Txn)
    {X : Text} (hX : X = ((texts ++ committed ts).map stored).flatten)
    (hf : ∀ s ∈ texts ++ committed ts, Complete (body s)) (h0 : ∀ b ∈ X, b ≠ 0) :
    ∃ d, transactAll (utf8 act) (build (utf8 act) texts) ts = some d ∧ d.text = X ∧
      d.records.map (fun r => (r.pq, r.start)) = blockMap (utf8 act) X :=
  C36_history_partial (.utf8 act ha) texts ts hX hf h0 (C36_utf8_undoubled act X)

/-! ### what goes wrong -/

/-- The word "US" -/
def doubledWord : Text := [0x55, 0x53]

/-- Appending "US" to an empty simple warren writes two entries for its first block, after which reading any address
divides by zero; building the same warren writes one. -/
theorem C36_doubled :
    transactAll (ascii false) (build (ascii false) []) [⟨[doubledWord], true⟩] =
      some ⟨[0x55, 0x53, 0x0A], [⟨0, 0, 1⟩, ⟨0, 0, 1⟩]⟩ ∧
    (∃ r, load ⟨[0x55, 0x53, 0x0A], [⟨0, 0, 1⟩, ⟨0, 0, 1⟩]⟩ = some r ∧ translate (ascii false) r 0 0 = none) ∧
    build (ascii false) [doubledWord] = ⟨[0x55, 0x53, 0x0A], [⟨0, 0, 1⟩]⟩ := by
  refine ⟨by decide, ⟨_, rfl, by decide⟩, by decide⟩

/-- "US" and then 1024 times "a": a warren of two blocks -/
def doubledText : List Text := [doubledWord, (List.replicate 1024 [0x61, 0x0A]).flatten]

/-- A warren of more than one block cannot be opened at all any more. -/
theorem C36_doubled_unreadable :
    (transactAll (ascii false) (build (ascii false) []) [⟨doubledText, true⟩]).map (fun d => (load d).isNone) = some true := by
  decide +kernel

/-- After a text with a NUL the addresses of the next transaction start too early: the text below has two, but the
next transaction starts at address 1. -/
theorem C36_nul :
    (ascii false).addresses [0x61, 0, 0x62, 0x0A] = 2 ∧
    ∃ d st, transactAll (ascii false) (build (ascii false) []) [⟨[[0x61, 0, 0x62]], true⟩] = some d ∧
      start (ascii false) d = some st ∧ st.address = 1 ∧ (st.append false (ascii false) [0x63]).2 = (1, 1) := by
  refine ⟨by decide, ⟨[0x61, 0, 0x62, 0x0A], [⟨0, 0, 0⟩]⟩, _, by decide, rfl, by decide, by decide⟩

/-! ### examples -/

example : Undoubled (ascii false) [0x61, 0x20, 0x62, 0x0A] := by
  intro n hn
  by_cases h : n = 0
  · subst h; decide
  · have : (ascii false).tokenize [0x61, 0x20, 0x62, 0x0A] = [⟨[0x61], 0, 0, 1⟩, ⟨[0x62], 1, 2, 1⟩] := by decide
    rw [this]
    have h1 : ¬ 0 = n := fun e => h e.symm
    have h2 : ¬ 1 = n := by intro e; subst e; omega
    simp [h1, h2]

/-- a warren of 1025 addresses has two entries -/
example : (build (ascii false) doubledText).records.map (fun r => (r.pq, r.start)) = [(0, 0), (1024, 2049)] := by
  decide +kernel

example : (transactAll (ascii false) (build (ascii false) [[0x61, 0x20, 0x62]]) [⟨[[0x63]], false⟩, ⟨[[0x64, 0x65]], true⟩]).map
    (fun d => (load d).bind fun r => askAll (ascii false) r [.translate 1 2, .tokens, .translate 0 0, .translate 1 1]) =
    some (some [.inl [0x62, 0x0A, 0x64, 0x65, 0x0A], .inr 3, .inl [0x61, 0x20], .inl [0x62, 0x0A]]) := by decide

end Verif.Props
