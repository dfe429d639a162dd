import Verif.Paths.Model
/-
  What the query for a path finds, and which texts match it.
-/
namespace Verif.Paths
open Verif.Hopper Verif.Gcl Verif.Props

/-! ### the quoted path -/

theorem escape_cons (c : Char) (cs : List Char) :
    escape (c :: cs) = (if c = '\\' ∨ c = '"' then ['\\', c] else [c]) ++ escape cs := by
  rw [escape]; split <;> rfl

/-- whether the next quote is escaped -/
def slash (e : Bool) (path : List Char) : Bool :=
  match path.getLast? with
  | none => e
  | some c => c == '\\'

theorem slash_cons (e : Bool) (c : Char) (cs : List Char) : slash e (c :: cs) = slash (c == '\\') cs := by
  unfold slash
  rw [List.getLast?_cons]
  cases h : cs.getLast? <;> simp

theorem scanQ_escape : ∀ (path : List Char) (e : Bool) (r : List Char), '\x00' ∉ path →
    scanQ '"' e (escape path ++ r) = (escape path ++ (scanQ '"' (slash e path) r).1, (scanQ '"' (slash e path) r).2)
  | [], e, r, _ => by simp [escape, slash]
  | c :: cs, e, r, h => by
    have hc : c ≠ '\x00' := fun e => h (by simp [e])
    have ih := fun e => scanQ_escape cs e r (fun h' => h (List.mem_cons_of_mem _ h'))
    rw [slash_cons, escape_cons]
    by_cases h1 : c = '\\' ∨ c = '"'
    · rw [if_pos h1]
      simp only [List.cons_append, List.nil_append]
      rw [scanQ, if_pos ⟨by decide, .inl (by decide)⟩]
      simp only []
      rw [scanQ, if_pos ⟨hc, .inr rfl⟩]
      simp only [ih]
    · rw [if_neg h1]
      simp only [List.cons_append, List.nil_append]
      rw [scanQ, if_pos ⟨hc, .inl fun e => h1 (.inr e)⟩]
      simp only [ih]

theorem gclString_good {path : List Char} (h0 : '\x00' ∉ path) (h1 : slash false path = false) : GoodTerm (gclString path) := by
  refine .inr ⟨'"', escape path, rfl, rfl, ?_⟩
  rw [scanQ_escape path false _ h0, h1]
  simp [scanQ]

/-- the tree of the query -/
def queryTree (path : List Char) : SExpr :=
  .node .containing [] 0 [.node .term ['/'] 0 [], .node .term (gclString path) 0 []]

theorem query_parses {path : List Char} (h0 : '\x00' ∉ path) (h1 : slash false path = false) :
    ∃ rest, fromString (query path) = .good rest (queryTree path) := by
  have hg : GoodTree (queryTree path) := by
    unfold queryTree GoodTree
    simp only [minArgs, maxArgs, GoodTreeL]
    refine ⟨trivial, trivial, by simp, by simp, ?_, ?_, trivial⟩
    · unfold GoodTree; exact ⟨.inl ⟨'/', [], rfl, rfl, by decide⟩, rfl, rfl⟩
    · unfold GoodTree; exact ⟨gclString_good h0 h1, rfl, rfl⟩
  have he : toStr (queryTree path) = query path := by
    unfold queryTree
    rw [toStr] <;> try (intro h; cases h)
    rw [toStrL, toStrL, toStrL, toStr, toStr]
    simp [nameOf, query]
  have := fromString_toStr hg
  rwa [he] at this

/-- a path that ends in a backslash takes the closing quote with it -/
theorem query_fails {path : List Char} (h0 : '\x00' ∉ path) (h1 : slash false path = true) :
    fromString (query path) = .bad [] := by
  have hs : scanQ '"' false (escape path ++ ['"', ')']) = (escape path ++ ['"', ')'], []) := by
    rw [scanQ_escape path false _ h0, h1]; rfl
  have hq : query path = ['(', '>', '>', ' ', '/', ' '] ++ ('"' :: (escape path ++ ['"', ')'])) := by
    simp [query, gclString]
  unfold fromString
  obtain ⟨n, hn⟩ : ∃ n, 2 * (query path).length + 1 = n + 6 := ⟨2 * (query path).length - 5, by
    rw [hq]; simp only [List.length_append, List.length_cons]; omega⟩
  rw [hn, hq]
  generalize htail : escape path ++ ['"', ')'] = tail at *
  have ht : parseTerm ('"' :: tail) = .bad [] := by
    rw [parseTerm, if_pos (by decide), if_pos (by decide), hs]
  have he : ∀ m, parseExpr (m + 1) ('"' :: tail) = .bad [] := by
    intro m
    rw [parseExpr]
    have : dropWs ('"' :: tail) = '"' :: tail := rfl
    rw [this]
    exact ht
  have h2 : parseArgs (n + 4) .containing ('"' :: tail) [.node .term ['/'] 0 []] = .bad [] := by
    rw [parseArgs] <;> try (intros; simp_all; done)
    rw [if_pos (by decide), he]
  have h3 : parseArgs (n + 5) .containing ('/' :: ' ' :: '"' :: tail) [] = .bad [] := by
    rw [parseArgs] <;> try (intros; simp_all; done)
    rw [if_pos (by decide)]
    have : parseExpr (n + 4) ('/' :: ' ' :: '"' :: tail) = .good ('"' :: tail) (.node .term ['/'] 0 []) := by
      rw [parseExpr]; rfl
    rw [this]
    exact h2
  rw [parseExpr]
  exact h3

/-! ### what the query finds -/

theorem den_term {T : List Char → GC} (t : List Char) : den T (.node .term t 0 []) = T t := by simp [den, denL, opMeaning]

theorem expand_query (split : List Char → List (List Char)) (path : List Char) :
    expandPhrases split '"' (queryTree path) = .node .containing [] 0
      [.node .term ['/'] 0 [], expandPhrases split '"' (.node .term (gclString path) 0 [])] := by
  unfold queryTree
  rw [expandPhrases, if_neg (by simp), expandPhrasesL, expandPhrasesL, expandPhrasesL]
  rw [show expandPhrases split '"' (.node .term ['/'] 0 []) = .node .term ['/'] 0 [] by
    rw [expandPhrases, if_neg (by simp), expandPhrasesL]]

/-- the words of the query -/
structure Worded (split : List Char → List (List Char)) (path : List Char) : Prop where
  some_word : split (escape path) ≠ []
  few : (split (escape path)).length ≤ 4294967295
  good : ∀ t ∈ split (escape path), GoodTerm t

theorem escape_ne {path : List Char} (h : path ≠ []) : escape path ≠ [] := by
  cases path with
  | nil => exact absurd rfl h
  | cons c cs => rw [escape_cons]; split <;> simp

theorem den_path (ix : Index) {split : List Char → List (List Char)} {path : List Char} (hne : path ≠ []) (hw : Worded split path)
    (hp : ∀ t ∈ split (escape path), ∀ a, ix.solutions t a → a.p = a.q) {r : Ann} (hr0 : minfinity < r.p) (hr1 : r.q < maxfinity) :
    (∃ b, den ix.solutions (expandPhrases split '"' (.node .term (gclString path) 0 [])) b ∧ inside b r) ↔
      ∃ p, r.p ≤ p ∧ p + (split (escape path)).length - 1 ≤ r.q ∧ consecutive ((split (escape path)).map ix.solutions) p := by
  match hx : split (escape path), hw.some_word with
  | [x], _ =>
    have he : expandPhrases split '"' (.node .term (gclString path) 0 []) = .node .term x 0 [] := by
      rw [expandPhrases]
      have hl : (gclString path).length > 2 := by
        have := List.length_pos_iff.2 (escape_ne hne)
        simp [gclString]; omega
      have hd : ((gclString path).drop 1).take ((gclString path).length - 2) = escape path := by simp [gclString]
      have hla : (gclString path).getLast? = some '"' := by unfold gclString; rw [List.getLast?_append]; simp
      rw [if_pos ⟨rfl, hl, rfl, hla⟩, hd, hx]
    rw [he, den_term]
    have hp' := hp x (by rw [hx]; simp)
    constructor
    · rintro ⟨b, hb, h1, h2⟩
      have := hp' b hb
      exact ⟨b.p, h1, by simp; omega, ⟨b, hb, rfl⟩, trivial⟩
    · rintro ⟨p, h1, h2, ⟨b, hb, rfl⟩, -⟩
      have := hp' b hb
      simp at h2
      exact ⟨b, hb, h1, by omega⟩
  | x :: y :: xs, _ =>
    have h2 : 2 ≤ (x :: y :: xs).length := by simp
    have key := C37_phrase ix split '"' (escape path) (escape_ne hne) (x :: y :: xs) hx (by rw [← hx]; exact hp) h2
      (by rw [← hx]; exact hw.few) (by rw [← hx]; exact hw.good)
    constructor
    · rintro ⟨b, hb, i1, i2⟩
      obtain ⟨-, -, -, k4, k5⟩ := (key b).1 hb
      exact ⟨b.p, i1, by omega, k5⟩
    · rintro ⟨p, i1, i2, i3⟩
      exact ⟨⟨p, p + (x :: y :: xs).length - 1, 0⟩, (key _).2 ⟨rfl, by simp only; omega, by simp only; omega, rfl, i3⟩, i1, i2⟩

theorem queryTree_legal {split : List Char → List (List Char)} {path : List Char} (hf : (split (escape path)).length ≤ 4294967295)
    (hg : ∀ t ∈ split (escape path), GoodTerm t) :
    Legal (expandPhrases split '"' (queryTree path)) := by
  refine expand_legal _ (by simp [queryTree, Legal, LegalL, arityOk]) ?_
  unfold queryTree
  rw [SplitsOk, SplitsOkL, SplitsOkL, SplitsOkL]
  rw [SplitsOk, SplitsOk, SplitsOkL]
  refine ⟨fun h => absurd h (by decide), ⟨fun _ h => absurd h (by decide), trivial⟩, ⟨fun _ _ => ?_, trivial⟩, trivial⟩
  have hd : ((gclString path).drop 1).take ((gclString path).length - 2) = escape path := by simp [gclString]
  rw [hd]
  exact ⟨hg, hf⟩

/-! ### the loop -/

theorem look_ok {σ : Type} {I : σ → Prop} {S : GC} (w : Wf S) {tau : Int → M σ Ann} (hit : Ann → Bool)
    (h : ∀ k, InRange k → Ok I (tau k) (TauSpec S k)) :
    ∀ (fuel : Nat) (k : Int), InRange k → k ≠ minfinity → (maxfinity - k).toNat < fuel →
      Ok I (look tau hit fuel k) fun b => b = true ↔ ∃ a, S a ∧ k ≤ a.p ∧ hit a = true := by
  intro fuel
  induction fuel with
  | zero => intro k _ _ h; omega
  | succ fuel ih =>
    intro k hk hk0 hf
    unfold look
    refine Ok.bind (h k hk) fun r hr => ?_
    rcases hr with ⟨h1, _⟩ | ⟨_, h1, h2, h3⟩ | ⟨_, h1, rfl⟩
    · exact absurd h1 hk0
    · have := w.lo h1; have := w.hi h1; have := w.le h1
      refine Ok.ite (fun _ => ?_) (fun h => by omega)
      refine Ok.ite (fun hh => Ok.pure ⟨fun _ => ⟨r, h1, h2, hh⟩, fun _ => rfl⟩) (fun hh => ?_)
      refine Ok.bind (Ok.ck (by omega) (by omega)) ?_
      rintro _ rfl
      refine (ih (r.p + 1) (by omega) (by omega) (by omega)).mono fun b hb => ?_
      rw [hb]
      constructor
      · rintro ⟨a, g1, g2, g3⟩; exact ⟨a, g1, by omega, g3⟩
      · rintro ⟨a, g1, g2, g3⟩
        have := h3 a g1 g2
        by_cases he : a.p = r.p
        · have := w.uniq g1 h1 he; subst this; exact absurd g3 hh
        · exact ⟨a, g1, by omega, g3⟩
    · refine Ok.ite (fun h => absurd h (by simp)) (fun _ => Ok.pure ⟨fun h => by simp at h, ?_⟩)
      rintro ⟨a, g1, g2, _⟩
      have := h1 a g1; omega

/-- what `already_appended` says, from what the query means -/
theorem already_iff (ix : Index) {split : List Char → List (List Char)} (count : List Char → Int) (translate : Int → Int → List Char)
    {filename : List Char} (h0 : '\x00' ∉ normalized filename) (h1 : slash false (normalized filename) = false)
    (hf : (split (escape (normalized filename))).length ≤ 4294967295)
    (hg : ∀ t ∈ split (escape (normalized filename)), GoodTerm t) :
    ∃ b, alreadyAppended ix split count translate filename = some b ∧ (b = true ↔
      ∃ a, ix.solutions ['/'] a ∧
        (∃ c, den ix.solutions (expandPhrases split '"' (.node .term (gclString (normalized filename)) 0 [])) c ∧ inside c a) ∧
        pathMatch (translate a.p a.q) (normalized filename) = true) := by
  obtain ⟨rest, hp⟩ := query_parses h0 h1
  have hl := queryTree_legal hf hg
  obtain ⟨H, c1, I, c2⟩ := compile_impl ix (some count) _ hl
  have w := den_wf ix.wf _ hl
  have hH : gclHopper ix split count (query (normalized filename)) = some H := by
    unfold gclHopper; rw [hp]; exact c1
  obtain ⟨b, s', g1, _, g2⟩ := look_ok w (fun a => pathMatch (translate a.p a.q) (normalized filename))
    c2.tau loopFuel (minfinity + 1) (by constructor <;> decide) (by decide) (by decide) H.init c2.init
  refine ⟨b, ?_, ?_⟩
  · unfold alreadyAppended
    simp only [hH, g1]
    rfl
  · rw [g2, expand_query]
    have hden : ∀ a e, den ix.solutions (.node .containing [] 0 [.node .term ['/'] 0 [], e]) a ↔
        ix.solutions ['/'] a ∧ ∃ c, den ix.solutions e c ∧ inside c a := by
      intro a e
      rw [den, denL, denL, denL, den_term]
      simp [opMeaning]
    constructor
    · rintro ⟨a, k1, -, k3⟩
      obtain ⟨k4, k5⟩ := (hden a _).1 k1
      exact ⟨a, k4, k5, k3⟩
    · rintro ⟨a, k1, k2, k3⟩
      have := (ix.wf ['/']).lo k1
      exact ⟨a, (hden a _).2 ⟨k1, k2⟩, by omega, k3⟩

/-! ### matching -/

theorem isSpace_head {path : List Char} : (path = [] ∨ ∃ c cs, path = c :: cs) := by
  cases path with
  | nil => exact .inl rfl
  | cons c cs => exact .inr ⟨c, cs, rfl⟩

theorem dropWhile_spec (t : List Char) : ∃ b, t = b ++ t.dropWhile isSpace ∧ (∀ c ∈ b, isSpace c = true) ∧
    ∀ c cs, t.dropWhile isSpace = c :: cs → isSpace c = false := by
  induction t with
  | nil => exact ⟨[], rfl, by simp, by simp⟩
  | cons x t ih =>
    rw [List.dropWhile_cons]
    by_cases hx : isSpace x = true
    · rw [if_pos hx]
      obtain ⟨b, h1, h2, h3⟩ := ih
      refine ⟨x :: b, by rw [List.cons_append, ← h1], ?_, h3⟩
      intro c hc
      rcases List.mem_cons.1 hc with rfl | hc
      · exact hx
      · exact h2 c hc
    · rw [if_neg hx]
      refine ⟨[], rfl, by simp, ?_⟩
      intro c cs h
      rw [(List.cons.inj h).1] at hx
      simpa using hx

theorem dropWhile_app {b t : List Char} (hb : ∀ c ∈ b, isSpace c = true) (ht : ∀ c cs, t = c :: cs → isSpace c = false) :
    (b ++ t).dropWhile isSpace = t := by
  induction b with
  | nil =>
    cases t with
    | nil => rfl
    | cons c cs => rw [List.nil_append, List.dropWhile_cons, if_neg (by rw [ht c cs rfl]; simp)]
  | cons x b ih =>
    rw [List.cons_append, List.dropWhile_cons, if_pos (hb x (by simp))]
    exact ih fun c hc => hb c (List.mem_cons_of_mem _ hc)

/-- a text matches a path iff it is the path, after blanks, and before nothing or a blank -/
theorem pathMatch_iff {text path : List Char} (hp : path ≠ []) : pathMatch text path = true ↔
    ∃ b r, text = b ++ path ++ r ∧ (∀ c ∈ b, isSpace c = true) ∧ (∀ c cs, path = c :: cs → isSpace c = false) ∧
      (∀ c cs, r = c :: cs → isSpace c = true) := by
  constructor
  · intro h
    unfold pathMatch at h
    obtain ⟨b, h1, h2, h3⟩ := dropWhile_spec text
    simp only at h
    split at h
    · rename_i ht
      refine ⟨b, (text.dropWhile isSpace).drop path.length, ?_, h2, ?_, ?_⟩
      · rw [List.append_assoc]
        conv => lhs; rw [h1]
        congr 1
        conv => lhs; rw [← List.take_append_drop path.length (text.dropWhile isSpace), ht]
      · intro c cs hc
        have : text.dropWhile isSpace = c :: (cs ++ (text.dropWhile isSpace).drop path.length) := by
          conv => lhs; rw [← List.take_append_drop path.length (text.dropWhile isSpace), ht, hc]
          rw [hc]; rfl
        exact h3 _ _ this
      · intro c cs hc
        rw [hc] at h
        exact h
    · cases h
  · rintro ⟨b, r, rfl, h2, h3, h4⟩
    unfold pathMatch
    rw [List.append_assoc, dropWhile_app h2 (fun c cs hc => by
      cases path with
      | nil => exact absurd rfl hp
      | cons d ds =>
        rw [List.cons_append] at hc
        obtain ⟨rfl, -⟩ := List.cons.inj hc
        exact h3 _ _ rfl)]
    simp only [List.take_left, List.drop_left, if_true]
    cases r with
    | nil => rfl
    | cons c cs => exact h4 c cs rfl

theorem normalized_ne (f : List Char) : normalized f ≠ [] := by
  unfold normalized
  split
  · intro h; simp_all
  · simp

/-- texts without blanks in them are the same if they start the same text and blanks follow them -/
theorem same_word : ∀ {a b w r : List Char}, a ++ w = b ++ r → (∀ c ∈ a, isSpace c = false) → (∀ c ∈ b, isSpace c = false) →
    (∀ c cs, w = c :: cs → isSpace c = true) → (∀ c cs, r = c :: cs → isSpace c = true) → a = b
  | [], [], _, _, _, _, _, _, _ => rfl
  | [], b :: bs, w, r, h, _, hb, hw, _ => by
    have := hw b (bs ++ r) h
    rw [hb b (by simp)] at this; cases this
  | a :: as, [], w, r, h, ha, _, _, hr => by
    have := hr a (as ++ w) h.symm
    rw [ha a (by simp)] at this; cases this
  | a :: as, b :: bs, w, r, h, ha, hb, hw, hr => by
    rw [List.cons_append, List.cons_append] at h
    obtain ⟨rfl, h'⟩ := List.cons.inj h
    rw [same_word h' (fun c hc => ha c (List.mem_cons_of_mem _ hc)) (fun c hc => hb c (List.mem_cons_of_mem _ hc)) hw hr]

end Verif.Paths
