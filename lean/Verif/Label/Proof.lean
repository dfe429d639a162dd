import Verif.Label.Model
/-
  What is written is what is read.
-/
namespace Verif.Label
open Verif.Text

theorem small_escape : ∀ n : Fin 32, hexByte 0x30 0x30 (hexDigit (UInt8.ofNat n / 16)) (hexDigit (UInt8.ofNat n % 16))
    = some (UInt8.ofNat n) := by decide

theorem body_plain {c : UInt8} {s r : Text} (h1 : c ≠ 0x22) (h2 : c ≠ 0x5C) (h3 : ¬ c < 0x20) :
    parseBody (c :: s) r = parseBody s (r ++ [c]) := by
  rw [parseBody.eq_def]
  split <;> simp_all
  intro h
  exact absurd h (by simpa using h3)

theorem body_escape (c : UInt8) (s r : Text) : parseBody (escape c ++ s) r = parseBody s (r ++ [c]) := by
  unfold escape
  by_cases h1 : c = 0x22
  · subst h1; rfl
  by_cases h2 : c = 0x5C
  · subst h2; rfl
  by_cases h3 : c = 0x08
  · subst h3; rfl
  by_cases h4 : c = 0x0C
  · subst h4; rfl
  by_cases h5 : c = 0x0A
  · subst h5; rfl
  by_cases h6 : c = 0x0D
  · subst h6; rfl
  by_cases h7 : c = 0x09
  · subst h7; rfl
  by_cases h8 : c < 0x20
  · have hn : c.toNat < 32 := h8
    have e := small_escape ⟨c.toNat, hn⟩
    simp only [UInt8.ofNat_toNat] at e
    simp only [h1, h2, h3, h4, h5, h6, h7, h8, if_false, if_true]
    show (match hexByte 0x30 0x30 (hexDigit (c / 16)) (hexDigit (c % 16)) with
      | some c => parseBody s (r ++ [c])
      | none => none) = _
    rw [e]
  · simp only [h1, h2, h3, h4, h5, h6, h7, h8, if_false]
    exact body_plain h1 h2 h8

theorem body_quote (s : Text) : ∀ (rest r : Text), parseBody (s.flatMap escape ++ 0x22 :: rest) r = some (r ++ s, rest) := by
  induction s with
  | nil => intro rest r; simp [parseBody]
  | cons c s ih =>
    intro rest r
    rw [List.flatMap_cons, List.append_assoc, body_escape, ih]
    simp

theorem skipWs_of {c : UInt8} (s : Text) (h : isSpace c = false) : skipWs (c :: s) = c :: s := by
  simp [skipWs, h]

theorem skipWs_space {c : UInt8} (s : Text) (h : isSpace c = true) : skipWs (c :: s) = skipWs s := by
  simp [skipWs, h]

theorem string_space {c : UInt8} (s : Text) (h : isSpace c = true) : parseString (c :: s) = parseString s := by
  simp [parseString, skipWs_space s h]

theorem consume_space {c : UInt8} (s : Text) (d : UInt8) (h : isSpace c = true) : consume (c :: s) d = consume s d := by
  simp [consume, skipWs_space s h]

theorem consume_of {c : UInt8} (s : Text) (h : isSpace c = false) : consume (c :: s) c = some s := by
  simp [consume, skipWs_of s h]

theorem consume_ne {c d : UInt8} (s : Text) (h : isSpace c = false) (hd : c ≠ d) : consume (c :: s) d = none := by
  simp [consume, skipWs_of s h, hd]

theorem string_quote (t rest : Text) : parseString (quote t ++ rest) = some (t, rest) := by
  have e : quote t ++ rest = 0x22 :: (t.flatMap escape ++ 0x22 :: rest) := by simp [quote]
  rw [e, parseString, skipWs_of _ (by decide)]
  have := body_quote t rest []
  simpa using this

theorem quote_plain {t : Text} (h : t.flatMap escape = t) : quote t = 0x22 :: t ++ [0x22] := by
  simp [quote, h]

theorem assign_new {k v : Text} : ∀ {m : List (Text × Text)}, k ∉ m.map Prod.fst → assign k v m = m ++ [(k, v)]
  | [], _ => rfl
  | (j, u) :: m, h => by
    simp only [List.map_cons, List.mem_cons, not_or] at h
    have : j ≠ k := fun e => h.1 e.symm
    simp only [assign, this, if_false, List.cons_append]
    rw [assign_new h.2]

/-- reading one entry, up to where the next starts -/
theorem entry_read (k v rest : Text) {m : List (Text × Text)} (hk : k ∉ m.map Prod.fst) (fuel : Nat) :
    paramsLoop (fuel + 1) ([0x20, 0x20, 0x20, 0x20] ++ quote k ++ [0x3A, 0x20] ++ quote v ++ rest) m =
      match consume rest 0x7D with
      | some s => some (m ++ [(k, v)], s)
      | none => (consume rest 0x2C).bind fun s => paramsLoop fuel s (m ++ [(k, v)]) := by
  have e : [0x20, 0x20, 0x20, 0x20] ++ quote k ++ [0x3A, 0x20] ++ quote v ++ rest
      = 0x20 :: 0x20 :: 0x20 :: 0x20 :: (quote k ++ (0x3A :: 0x20 :: (quote v ++ rest))) := by simp
  rw [e, paramsLoop]
  simp only [string_space _ (show isSpace 0x20 = true from rfl), string_quote, Option.bind_eq_bind, Option.bind_some,
    consume_of _ (show isSpace 0x3A = false from rfl), assign_new hk]
  cases consume rest 0x7D <;> rfl

theorem loop_space {c : UInt8} (h : isSpace c = true) (fuel : Nat) (s : Text) (m : List (Text × Text)) :
    paramsLoop (fuel + 1) (c :: s) m = paramsLoop (fuel + 1) s m := by
  simp only [paramsLoop, string_space _ h]

/-- The entries that follow the first; after the last comes the end of the object. -/
theorem params_read : ∀ (l : List (Text × Text)) (k v rest : Text) (m : List (Text × Text)) (fuel : Nat),
    (m.map Prod.fst ++ k :: l.map Prod.fst).Nodup → l.length < fuel →
    paramsLoop fuel ([0x20, 0x20, 0x20, 0x20] ++ quote k ++ [0x3A, 0x20] ++ quote v ++
      (showParams false l ++ ([0x0A, 0x20, 0x20, 0x7D] ++ rest))) m = some (m ++ (k, v) :: l, rest)
  | [], k, v, rest, m, fuel + 1, hn, _ => by
    have hk : k ∉ m.map Prod.fst := by
      intro hk
      rw [List.nodup_append] at hn
      exact hn.2.2 k hk k (by simp) rfl
    rw [entry_read _ _ _ hk]
    have : consume (showParams false [] ++ ([0x0A, 0x20, 0x20, 0x7D] ++ rest)) 0x7D = some rest := by
      simp [showParams, consume, skipWs, isSpace]
    rw [this]
  | (k', v') :: l, k, v, rest, m, fuel + 1, hn, hf => by
    have hk : k ∉ m.map Prod.fst := by
      intro hk
      rw [List.nodup_append] at hn
      exact hn.2.2 k hk k (by simp) rfl
    rw [entry_read _ _ _ hk]
    have e : showParams false ((k', v') :: l) ++ ([0x0A, 0x20, 0x20, 0x7D] ++ rest) = 0x2C :: 0x0A ::
        ([0x20, 0x20, 0x20, 0x20] ++ quote k' ++ [0x3A, 0x20] ++ quote v' ++
      (showParams false l ++ ([0x0A, 0x20, 0x20, 0x7D] ++ rest))) := by simp [showParams]
    rw [e, consume_ne _ (by rfl) (by decide)]
    simp only [consume_of _ (show isSpace 0x2C = false from rfl), Option.bind_some]
    have ih := params_read l k' v' rest (m ++ [(k, v)]) fuel (by simpa using hn) (by simpa using hf)
    cases fuel with
    | zero => simp at hf
    | succ fuel =>
      rw [loop_space (by rfl), ih]; simp

theorem quote_length (t : Text) : 0 < (quote t).length := by simp [quote]

theorem show_length : ∀ (l : List (Text × Text)) (b : Bool), l.length ≤ (showParams b l).length
  | [], _ => Nat.zero_le _
  | (k, v) :: l, b => by
    have := show_length l false
    simp only [showParams, List.length_append, List.length_cons, List.length_nil]
    omega

theorem parseParams_show (params : List (Text × Text)) (hn : (params.map Prod.fst).Nodup) (rest : Text) :
    parseParams (0x7B :: 0x0A :: (showParams true params ++ ([0x0A, 0x20, 0x20, 0x7D] ++ rest))) [] =
      some (params, rest) := by
  unfold parseParams
  simp only [consume_of _ (show isSpace 0x7B = false from rfl), Option.bind_eq_bind, Option.bind_some]
  cases params with
  | nil =>
    have : consume (0x0A :: (showParams true [] ++ ([0x0A, 0x20, 0x20, 0x7D] ++ rest))) 0x7D = some rest := by
      simp [showParams, consume, skipWs, isSpace]
    rw [this]; rfl
  | cons kv l =>
    obtain ⟨k, v⟩ := kv
    have e : showParams true ((k, v) :: l) ++ ([0x0A, 0x20, 0x20, 0x7D] ++ rest) =
        [0x20, 0x20, 0x20, 0x20] ++ quote k ++ [0x3A, 0x20] ++ quote v ++
      (showParams false l ++ ([0x0A, 0x20, 0x20, 0x7D] ++ rest)) := by simp [showParams]
    have hne : consume (0x0A :: (showParams true ((k, v) :: l) ++ ([0x0A, 0x20, 0x20, 0x7D] ++ rest))) 0x7D = none := by
      rw [e]; simp [consume, skipWs, isSpace, quote]
    rw [hne]
    have hl := show_length l false
    simp only
    rw [loop_space (by rfl), e, params_read l k v rest [] _ (by simpa using hn)]
    · simp
    · simp only [List.length_cons, List.length_append]
      omega

/-- one key and its value, up to where the next starts -/
theorem key_read (skip : Text → Option Text) {key : Text} (hkey : key.flatMap escape = key) (value rest : Text) (r r' : Read)
    (h : readValue skip key (0x20 :: value) r = some (r', rest)) (fuel : Nat) :
    readLoop skip (fuel + 1) (0x0A :: 0x20 :: 0x20 :: 0x22 :: (key ++ (0x22 :: 0x3A :: 0x20 :: value))) r =
      match consume rest 0x7D with
      | some s => some (r', s)
      | none => (consume rest 0x2C).bind fun s => readLoop skip fuel s r' := by
  have e : 0x22 :: (key ++ (0x22 :: 0x3A :: 0x20 :: value)) = quote key ++ (0x3A :: 0x20 :: value) := by
    rw [quote_plain hkey]; simp
  rw [e, readLoop]
  simp only [string_space _ (show isSpace 0x20 = true from rfl), string_space _ (show isSpace 0x0A = true from rfl),
    string_quote, Option.bind_eq_bind, Option.bind_some, consume_of _ (show isSpace 0x3A = false from rfl), h]
  cases consume rest 0x7D <;> rfl

/-- What may follow a label: white space, then zeros. -/
def Blank (s : Text) : Prop := ∃ ws zs, s = ws ++ zs ∧ (∀ c ∈ ws, isSpace c = true) ∧ ∀ c ∈ zs, c = 0

theorem dropWhile_all {p : UInt8 → Bool} : ∀ {l : Text}, (∀ c ∈ l, p c = true) → ∀ r : Text,
    (l ++ r).dropWhile p = r.dropWhile p
  | [], _, _ => rfl
  | c :: l, h, r => by
    rw [List.cons_append, List.dropWhile_cons, if_pos (h c (by simp))]
    exact dropWhile_all (fun c hc => h c (by simp [hc])) r

theorem mem_takeWhile {p : UInt8 → Bool} : ∀ {l : Text} {c : UInt8}, c ∈ l.takeWhile p → p c = true
  | [], _, h => by simp at h
  | d :: l, c, h => by
    rw [List.takeWhile_cons] at h
    split at h
    · rename_i hd
      rcases List.mem_cons.1 h with rfl | h
      · exact hd
      · exact mem_takeWhile h
    · simp at h

theorem blank_of_skipped {s : Text} (h : skipNulls (skipWs (0x0A :: s)) = []) : Blank s := by
  rw [skipWs_space _ (by rfl)] at h
  refine ⟨s.takeWhile isSpace, skipWs s, (List.takeWhile_append_dropWhile).symm, fun c hc => mem_takeWhile hc, ?_⟩
  have e : (skipWs s).takeWhile (fun c => c == 0) = skipWs s := by
    have := List.takeWhile_append_dropWhile (p := fun c : UInt8 => c == 0) (l := skipWs s)
    rw [show (skipWs s).dropWhile (fun c => c == 0) = [] from h, List.append_nil] at this
    exact this
  intro c hc
  rw [← e] at hc
  simpa using mem_takeWhile hc

theorem blank_skipped {s : Text} (h : Blank s) : skipNulls (skipWs (0x0A :: s)) = [] := by
  obtain ⟨ws, zs, rfl, hw, hz⟩ := h
  rw [skipWs_space _ (by rfl), skipWs, dropWhile_all hw]
  have e : zs.dropWhile isSpace = zs := by
    cases zs with
    | nil => rfl
    | cons c zs =>
      have := hz c (by simp)
      subst this
      rfl
  rw [e]
  have := dropWhile_all (p := fun c => c == 0) (l := zs) (fun c hc => by simp [hz c hc]) []
  simpa [skipNulls] using this

/-- What is read from a label and what follows it. -/
theorem json_read (skip : Text → Option Text) (name tag : Text) (params : List (Text × Text))
    (hn : (params.map Prod.fst).Nodup) (s : Text) :
    json2forager skip (forager2json name tag params ++ s) =
      if skipNulls (skipWs (0x0A :: s)) = [] then some (name, tag, params) else none := by
  let s3 : Text := showParams true params ++ ([0x0A, 0x20, 0x20, 0x7D] ++ (0x0A :: 0x7D :: 0x0A :: s))
  let s2 : Text := 0x0A :: 0x20 :: 0x20 :: 0x22 :: (paramsKey ++ (0x22 :: 0x3A :: 0x20 :: (0x7B :: 0x0A :: s3)))
  let s1 : Text := 0x0A :: 0x20 :: 0x20 :: 0x22 :: (tagKey ++ (0x22 :: 0x3A :: 0x20 :: (quote tag ++ 0x2C :: s2)))
  let s0 : Text := 0x0A :: 0x20 :: 0x20 :: 0x22 :: (nameKey ++ (0x22 :: 0x3A :: 0x20 :: (quote name ++ 0x2C :: s1)))
  have e : forager2json name tag params ++ s = 0x7B :: s0 := by
    simp [forager2json, s0, s1, s2, s3]
  have hne : consume s0 0x7D = none := by simp [s0, consume, skipWs, isSpace]
  have h0 : readValue skip nameKey (0x20 :: (quote name ++ 0x2C :: s1)) {} =
      some ({ name := name, sawName := true }, 0x2C :: s1) := by
    simp [readValue, string_space _ (show isSpace 0x20 = true from rfl), string_quote]
  have h1 : readValue skip tagKey (0x20 :: (quote tag ++ 0x2C :: s2)) { name := name, sawName := true } =
      some ({ name := name, sawName := true, tag := tag }, 0x2C :: s2) := by
    simp [readValue, string_space _ (show isSpace 0x20 = true from rfl), string_quote, nameKey, tagKey]
  have h2 : readValue skip paramsKey (0x20 :: (0x7B :: 0x0A :: s3)) { name := name, sawName := true, tag := tag } =
      some ({ name := name, sawName := true, tag := tag, params := params }, 0x0A :: 0x7D :: 0x0A :: s) := by
    have hp := parseParams_show params hn (0x0A :: 0x7D :: 0x0A :: s)
    have hp' : parseParams (0x20 :: 0x7B :: 0x0A :: s3) [] = some (params, 0x0A :: 0x7D :: 0x0A :: s) := by
      rw [← hp]
      simp only [parseParams, consume_space _ _ (show isSpace 0x20 = true from rfl)]
      rfl
    simp [readValue, nameKey, tagKey, paramsKey, skipWs_space _ (show isSpace 0x20 = true from rfl),
      skipWs_of _ (show isSpace 0x7B = false from rfl), hp']
  have hl : ∃ n, s0.length + 1 = n + 1 + 1 + 1 := ⟨s0.length - 2, by simp [s0]⟩
  obtain ⟨n, hn'⟩ := hl
  have hread : readLoop skip (s0.length + 1) s0 {} =
      some ({ name := name, sawName := true, tag := tag, params := params }, 0x0A :: s) := by
    rw [hn', key_read skip (by decide) _ _ _ _ h0]
    simp only [consume_ne (c := 0x2C) (d := 0x7D) _ (by rfl) (by decide),
      consume_of _ (show isSpace 0x2C = false from rfl), Option.bind_some]
    rw [key_read skip (by decide) _ _ _ _ h1]
    simp only [consume_ne (c := 0x2C) (d := 0x7D) _ (by rfl) (by decide),
      consume_of _ (show isSpace 0x2C = false from rfl), Option.bind_some]
    rw [key_read skip (by decide) _ _ _ _ h2]
    simp only [consume_space _ _ (show isSpace 0x0A = true from rfl), consume_of _ (show isSpace 0x7D = false from rfl)]
  rw [e]
  unfold json2forager
  simp only [consume_of _ (show isSpace 0x7B = false from rfl), Option.bind_eq_bind, Option.bind_some, hne, hread]
  by_cases hs : skipNulls (skipWs (0x0A :: s)) = [] <;> simp [hs]

end Verif.Label
