import Verif.Working.Crash
/-
  C81: what is done to a burrow's directory.
-/
namespace Verif.Props

open Verif.Working
open Verif.Inhale (Bytes plain Legal)

/-! ### Opening and making a directory -/

/-- Opening a burrow, whose name the shell reads as it is written, removes the temporary files in it, and nothing else
in the world: not a file of another directory whose name begins alike, no directory, no other file of the burrow.
Missing for the full property: other names (`C81_blank`, `C81_command`). -/
theorem C81_open_partial {dir : Bytes} (hd : PlainName dir) (fs : FS) :
    ∃ fs', construct dir false fs = some fs' ∧ Cleaned dir fs fs' :=
  ⟨_, construct_false hd fs, rm_temps dir fs⟩

/-- "burrows/one" -/
def exampleDir : Bytes := [0x62, 0x75, 0x72, 0x72, 0x6F, 0x77, 0x73, 0x2F, 0x6F, 0x6E, 0x65] /- burrows/one -/

example : PlainName exampleDir := by decide
example : Temporary exampleDir ([0x62, 0x75, 0x72, 0x72, 0x6F, 0x77, 0x73, 0x2F, 0x6F, 0x6E, 0x65, 0x2F, 0x74, 0x65, 0x6D, 0x70, 0x2E, 0x30, 0x30, 0x30, 0x30, 0x30, 0x30, 0x30, 0x30] /- burrows/one/temp.00000000 -/) := ⟨[0x30, 0x30, 0x30, 0x30, 0x30, 0x30, 0x30, 0x30] /- 00000000 -/, by decide, rfl⟩
example : ¬ PlainName ([0x6D, 0x79, 0x20, 0x62, 0x75, 0x72, 0x72, 0x6F, 0x77] /- my burrow -/) := by decide

/-- Making a burrow makes its directory and those on the way to it, if no file is in the way, removes the temporary
files that were there, and does nothing else. -/
theorem C81_make_partial {dir : Bytes} (hd : PlainName dir) {fs : FS} (hn : ∀ q, Above q dir → ¬ IsFile fs q) :
    ∃ fs', construct dir true fs = some fs' ∧ ∀ p,
      (Above p dir → fs' p = some .dir) ∧
      (¬ Above p dir → Temporary dir p ∧ IsFile fs p → fs' p = none) ∧
      (¬ Above p dir → ¬ (Temporary dir p ∧ IsFile fs p) → fs' p = fs p) := by
  refine ⟨rm [lit (dir ++ [0x2F, 0x74, 0x65, 0x6D, 0x70, 0x2E] /- /temp. -/) ++ [none]] (mkdirs dir fs), ?_, fun p => ?_⟩
  · unfold construct
    rw [if_pos rfl, system_mkdir hd]
    exact system_clean hd _
  · have hm := mkdirs_cases hn p
    have hc := rm_temps dir (mkdirs dir fs) p
    refine ⟨fun ha => ?_, fun ha ht => ?_, fun ha ht => ?_⟩
    · rw [hc.2 fun hf => ?_, hm.1 ha]
      obtain ⟨_, b, x, hb⟩ := hf
      rw [hm.1 ha] at hb
      cases hb
    · refine hc.1 ⟨ht.1, ?_⟩
      unfold IsFile
      rw [hm.2 ha]
      exact ht.2
    · rw [hc.2 fun hf => ht ⟨hf.1, ?_⟩, hm.2 ha]
      have := hf.2
      unfold IsFile at this
      rw [hm.2 ha] at this
      exact this

example : Above ([0x62, 0x75, 0x72, 0x72, 0x6F, 0x77, 0x73] /- burrows -/) exampleDir ∧ Above exampleDir exampleDir := ⟨.inr ⟨by decide, [0x6F, 0x6E, 0x65] /- one -/, rfl⟩, .inl rfl⟩

/-- The name is not quoted (working.h 103): opening a burrow whose name has a blank in it removes the file named by
what is before the blank, and the temporary files of the directory named by what is after it. -/
theorem C81_blank {a b : Bytes} (ha : PlainName a) (hb : PlainName b) (fs : FS) :
    ∃ fs', construct (a ++ 32 :: b) false fs = some fs' ∧
      (IsFile fs a → fs' a = none) ∧ (∀ p, Temporary b p → IsFile fs p → fs' p = none) ∧
      (∀ p, p ≠ a → ¬ Temporary b p → fs' p = fs p) := by
  have e : construct (a ++ 32 :: b) false fs = some (rm [lit a, lit (b ++ [0x2F, 0x74, 0x65, 0x6D, 0x70, 0x2E] /- /temp. -/) ++ [none]] fs) := by
    unfold construct
    rw [if_neg (by decide)]
    show system ([0x2F, 0x62, 0x69, 0x6E, 0x2F, 0x72, 0x6D, 0x20, 0x2D, 0x66, 0x20] /- /bin/rm -f -/ ++ (a ++ 32 :: b) ++ tempStar) fs = _
    have hl : Legal ([0x2F, 0x62, 0x69, 0x6E, 0x2F, 0x72, 0x6D, 0x20, 0x2D, 0x66, 0x20] /- /bin/rm -f -/ ++ (a ++ 32 :: b) ++ tempStar) := by
      refine legal_append (legal_append (by decide) (legal_append (plain_legal ha.2.1) ?_)) (by decide)
      exact legal_append (a := [32]) (by decide) (plain_legal hb.2.1)
    unfold system shell
    rw [Inhale.cstr_legal hl, show ([0x2F, 0x62, 0x69, 0x6E, 0x2F, 0x72, 0x6D, 0x20, 0x2D, 0x66, 0x20] /- /bin/rm -f -/ : Bytes) ++ (a ++ 32 :: b) ++ tempStar =
      binRm ++ 32 :: (dashF ++ 32 :: (a ++ 32 :: (b ++ tempStar))) from by simp [binRm, dashF]]
    rw [parse_word (by decide) (by decide), parse_word (by decide) (by decide), parse_word ha.1 ha.2.1,
      parse_star hb.1 hb.2.1]
    show (command (lit binRm :: lit dashF :: [lit a, lit (b ++ [0x2F, 0x74, 0x65, 0x6D, 0x70, 0x2E] /- /temp. -/) ++ [none]]) fs).bind _ = _
    rw [(command_rm (by
      simp only [List.any_cons, List.any_nil, Bool.or_false, Bool.or_eq_false_iff]
      refine ⟨dubious_lit ha.1 ha.2.2, dubious_star (by simp) ?_⟩
      match b, hb with
      | c :: b, hb => simpa using hb.2.2) fs).1]
    rfl
  refine ⟨_, e, fun hf => ?_, fun p ht hf => ?_, fun p h1 h2 => ?_⟩
  · exact (rm_cases _ fs a).1 ⟨hf, by simp [names_lit]⟩
  · refine (rm_cases _ fs p).1 ⟨hf, ?_⟩
    simp only [List.any_cons, List.any_nil, Bool.or_false, Bool.or_eq_true]
    exact .inr ((names_star _ p).2 ht)
  · refine (rm_cases _ fs p).2 fun h => ?_
    obtain ⟨_, h⟩ := h
    simp only [List.any_cons, List.any_nil, Bool.or_false, Bool.or_eq_true, names_lit, decide_eq_true_eq] at h
    rcases h with h | h
    · exact h1 h
    · exact h2 ((names_star _ p).1 h)

/-- a burrow "my burrow" beside a file "my" -/
example : PlainName ([0x6D, 0x79] /- my -/) ∧ PlainName ([0x62, 0x75, 0x72, 0x72, 0x6F, 0x77] /- burrow -/) := by decide

/-- The name of a burrow can have a command in it, which is run when the burrow is opened: here, one that removes a
file. -/
theorem C81_command {a v b : Bytes} (ha : PlainName a) (hv : PlainName v) (hb : PlainName b) {fs : FS} (hf : IsFile fs v) :
    ∃ fs', construct (a ++ [0x3B, 0x20, 0x72, 0x6D, 0x20, 0x2D, 0x66, 0x20] /- ; rm -f -/ ++ v ++ [0x20] ++ b) false fs = some fs' ∧ fs' v = none := by
  have e : construct (a ++ [0x3B, 0x20, 0x72, 0x6D, 0x20, 0x2D, 0x66, 0x20] /- ; rm -f -/ ++ v ++ [0x20] ++ b) false fs =
      some (rm [lit v, lit (b ++ [0x2F, 0x74, 0x65, 0x6D, 0x70, 0x2E] /- /temp. -/) ++ [none]] (rm [lit a] fs)) := by
    unfold construct
    rw [if_neg (by decide)]
    show system ([0x2F, 0x62, 0x69, 0x6E, 0x2F, 0x72, 0x6D, 0x20, 0x2D, 0x66, 0x20] /- /bin/rm -f -/ ++ (a ++ [0x3B, 0x20, 0x72, 0x6D, 0x20, 0x2D, 0x66, 0x20] /- ; rm -f -/ ++ v ++ [0x20] ++ b) ++ tempStar) fs = _
    have hl : Legal ([0x2F, 0x62, 0x69, 0x6E, 0x2F, 0x72, 0x6D, 0x20, 0x2D, 0x66, 0x20] /- /bin/rm -f -/ ++ (a ++ [0x3B, 0x20, 0x72, 0x6D, 0x20, 0x2D, 0x66, 0x20] /- ; rm -f -/ ++ v ++ [0x20] ++ b) ++ tempStar) := by
      refine legal_append (legal_append (by decide) ?_) (by decide)
      exact legal_append (legal_append (legal_append (legal_append (plain_legal ha.2.1) (by decide)) (plain_legal hv.2.1))
        (by decide)) (plain_legal hb.2.1)
    unfold system shell
    rw [Inhale.cstr_legal hl, show ([0x2F, 0x62, 0x69, 0x6E, 0x2F, 0x72, 0x6D, 0x20, 0x2D, 0x66, 0x20] /- /bin/rm -f -/ : Bytes) ++ (a ++ [0x3B, 0x20, 0x72, 0x6D, 0x20, 0x2D, 0x66, 0x20] /- ; rm -f -/ ++ v ++ [0x20] ++ b) ++ tempStar =
      binRm ++ 32 :: (dashF ++ 32 :: (a ++ 59 :: (32 :: (rmName ++ 32 :: (dashF ++ 32 :: (v ++ 32 :: (b ++ tempStar))))))) from by
        simp [binRm, dashF, rmName]]
    rw [parse_word (by decide) (by decide), parse_word (by decide) (by decide), parse_blank_plain ha.1 ha.2.1, parse_semi]
    rw [show parse .blank [] [] (32 :: (rmName ++ 32 :: (dashF ++ 32 :: (v ++ 32 :: (b ++ tempStar))))) =
      parse .blank [] [] (rmName ++ 32 :: (dashF ++ 32 :: (v ++ 32 :: (b ++ tempStar)))) from by rw [parse, if_pos (by simp)]]
    rw [parse_word (by decide) (by decide), parse_word (by decide) (by decide), parse_word hv.1 hv.2.1,
      parse_star hb.1 hb.2.1]
    show (command (lit binRm :: lit dashF :: [lit a]) fs).bind _ = _
    rw [(command_rm (by simp [dubious_lit ha.1 ha.2.2]) fs).1]
    show (command (lit rmName :: lit dashF :: [lit v, lit (b ++ [0x2F, 0x74, 0x65, 0x6D, 0x70, 0x2E] /- /temp. -/) ++ [none]]) _).bind _ = _
    rw [(command_rm (by
      simp only [List.any_cons, List.any_nil, Bool.or_false, Bool.or_eq_false_iff]
      refine ⟨dubious_lit hv.1 hv.2.2, dubious_star (by simp) ?_⟩
      match b, hb with
      | c :: b, hb => simpa using hb.2.2) _).2]
    rfl
  refine ⟨_, e, ?_⟩
  by_cases h : IsFile (rm [lit a] fs) v
  · exact (rm_cases _ _ v).1 ⟨h, by simp [names_lit]⟩
  · rw [(rm_cases _ _ v).2 fun hh => h hh.1]
    have hc := rm_cases [lit a] fs v
    by_cases hh : IsFile fs v ∧ [lit a].any (names · v) = true
    · exact hc.1 hh
    · exfalso
      apply h
      unfold IsFile
      rw [hc.2 hh]
      exact hf

/-! ### Temporary names -/

/-- The temporary names that one object gives out are all different, whatever their extensions, as long as there are no
more than 2^32 of them; and each is the name of a temporary file of the directory, so that it is removed when the
burrow is next opened. -/
theorem C81_temps_partial (dir : Bytes) {extensions : List Bytes} (hl : extensions.length ≤ 4294967296)
    (he : ∀ e ∈ extensions, 47 ∉ e) :
    (temps dir 0 extensions).Nodup ∧ (temps dir 0 extensions).length = extensions.length ∧
      ∀ p ∈ temps dir 0 extensions, Temporary dir p := by
  refine ⟨temps_nodup extensions 0 (by omega), ?_, fun p hp => ?_⟩
  · have : ∀ (es : List Bytes) (n : Nat), (temps dir n es).length = es.length := by
      intro es
      induction es with
      | nil => intro _; rfl
      | cons e es ih => intro n; simp [temps, ih]
    exact this _ _
  · obtain ⟨k, e, _, _, h3, rfl⟩ := mem_temps extensions 0 p (by omega) hp
    exact makeTemp_temporary (he e h3) k

/-- "", "dna", "" -/
example : temps exampleDir 0 [[], [0x64, 0x6E, 0x61] /- dna -/, []] =
    [[0x62, 0x75, 0x72, 0x72, 0x6F, 0x77, 0x73, 0x2F, 0x6F, 0x6E, 0x65, 0x2F, 0x74, 0x65, 0x6D, 0x70, 0x2E, 0x30, 0x30, 0x30, 0x30, 0x30, 0x30, 0x30, 0x30] /- burrows/one/temp.00000000 -/, [0x62, 0x75, 0x72, 0x72, 0x6F, 0x77, 0x73, 0x2F, 0x6F, 0x6E, 0x65, 0x2F, 0x74, 0x65, 0x6D, 0x70, 0x2E, 0x30, 0x30, 0x30, 0x30, 0x30, 0x30, 0x30, 0x31, 0x2E, 0x64, 0x6E, 0x61] /- burrows/one/temp.00000001.dna -/, [0x62, 0x75, 0x72, 0x72, 0x6F, 0x77, 0x73, 0x2F, 0x6F, 0x6E, 0x65, 0x2F, 0x74, 0x65, 0x6D, 0x70, 0x2E, 0x30, 0x30, 0x30, 0x30, 0x30, 0x30, 0x30, 0x32] /- burrows/one/temp.00000002 -/] := by decide +kernel

/-- The counter has 32 bits (working.h 162): the name after 2^32 others is the first one again. -/
theorem C81_temps_wrap (dir e : Bytes) : ¬ (temps dir 0 (List.replicate (4294967296 + 1) e)).Nodup := by
  intro hn
  have h1 := temps_getElem (d := dir) (List.replicate (4294967296 + 1) e) 0 0 (by decide)
  have h2 := temps_getElem (d := dir) (List.replicate (4294967296 + 1) e) 0 4294967296 (by decide)
  rw [List.getElem?_replicate, if_pos (by omega)] at h1 h2
  have hlen : 0 < (temps dir 0 (List.replicate (4294967296 + 1) e)).length := by
    obtain ⟨h, _⟩ := List.getElem?_eq_some_iff.1 (h1.trans (Option.map_some ..))
    exact h
  exact absurd ((List.getElem?_inj hlen hn).1 (h1.trans h2.symm)) (by decide)

/-- Each object counts for itself (working.h 97): when a burrow is opened a second time, while it is open, what the
first has written under temporary names is removed (and the names are given out again, from the first). -/
theorem C81_shared {dir : Bytes} (hd : PlainName dir) {extensions : List Bytes} (hl : extensions.length ≤ 4294967296)
    (he : ∀ e ∈ extensions, 47 ∉ e) (fs : FS) :
    ∃ fs', construct dir false fs = some fs' ∧
      ∀ p ∈ temps dir 0 extensions, IsFile fs p → fs' p = none := by
  obtain ⟨fs', h1, h2⟩ := C81_open_partial hd fs
  exact ⟨fs', h1, fun p hp hf => (h2 p).1 ⟨(C81_temps_partial dir hl he).2.2 p hp, hf⟩⟩

/-! ### Listings -/

/-- For a name that the shell reads as it is written, and a directory in which no name has a newline in it, a listing
has exactly the names that begin with the prefix, each as it is, in the order of `ls`; names can be as long as the
system allows (255 bytes), though they are read in pieces.  Missing for the full property: other directory names, and
names with newlines (`C81_ls_newline`). -/
theorem C81_ls_partial {dir : Bytes} (hd : PlainName dir) {pre : Bytes} (hp : pre ≠ []) (hn : 10 ∉ pre)
    {listing : List Bytes} (h : ∀ n ∈ listing, n ≠ [] ∧ 10 ∉ n ∧ n.length ≤ 255) :
    lsCommand dir = some [[lit ([0x2F, 0x75, 0x73, 0x72, 0x2F, 0x62, 0x69, 0x6E, 0x2F, 0x6C, 0x73] /- /usr/bin/ls -/), lit dir]] ∧
    ls pre (printed listing) = listing.filter fun n => pre.isPrefixOf n := by
  refine ⟨?_, ls_lines hn hp listing h⟩
  unfold lsCommand
  rw [Inhale.cstr_legal (legal_append (by decide) (plain_legal hd.2.1)),
    show ([0x2F, 0x75, 0x73, 0x72, 0x2F, 0x62, 0x69, 0x6E, 0x2F, 0x6C, 0x73, 0x20] /- /usr/bin/ls -/ : Bytes) ++ dir = [0x2F, 0x75, 0x73, 0x72, 0x2F, 0x62, 0x69, 0x6E, 0x2F, 0x6C, 0x73] /- /usr/bin/ls -/ ++ 32 :: (dir ++ []) from by simp,
    parse_word (by decide) (by decide), parse_blank_plain hd.1 hd.2.1]
  rfl

/-- "dna", "fiver.000.001", "fivers" -/
example : ls ([0x66, 0x69, 0x76, 0x65, 0x72] /- fiver -/) (printed [[0x64, 0x6E, 0x61] /- dna -/, [0x66, 0x69, 0x76, 0x65, 0x72, 0x2E, 0x30, 0x30, 0x30, 0x2E, 0x30, 0x30, 0x31] /- fiver.000.001 -/, [0x66, 0x69, 0x76, 0x65, 0x72, 0x73] /- fivers -/]) = [[0x66, 0x69, 0x76, 0x65, 0x72, 0x2E, 0x30, 0x30, 0x30, 0x2E, 0x30, 0x30, 0x31] /- fiver.000.001 -/, [0x66, 0x69, 0x76, 0x65, 0x72, 0x73] /- fivers -/] := by decide +kernel

/-- A name of the longest kind. -/
example : ls [102] (printed [List.replicate 255 102, [103]]) = [List.replicate 255 102] := by decide +kernel

/-- A file whose name has a newline in it is listed as if there were others: here the second line of its name is listed
as the name of a shard, which is not there. -/
theorem C81_ls_newline {a b : Bytes} (ha : 10 ∉ a) (hb : 10 ∉ b) (hl : a.length < 255) (hlb : ([0x66, 0x69, 0x76, 0x65, 0x72] /- fiver -/ ++ b).length < 255)
    (hna : a ≠ []) (hpa : ([0x66, 0x69, 0x76, 0x65, 0x72] /- fiver -/ : Bytes).isPrefixOf a = false) :
    ls ([0x66, 0x69, 0x76, 0x65, 0x72] /- fiver -/) (printed [a ++ [10] ++ ([0x66, 0x69, 0x76, 0x65, 0x72] /- fiver -/ ++ b)]) = [[0x66, 0x69, 0x76, 0x65, 0x72] /- fiver -/ ++ b] := by
  have e : printed [a ++ [10] ++ ([0x66, 0x69, 0x76, 0x65, 0x72] /- fiver -/ ++ b)] = printed [a, [0x66, 0x69, 0x76, 0x65, 0x72] /- fiver -/ ++ b] := by simp [printed]
  rw [e, ls_lines (by decide) (by decide)]
  · rw [List.filter_cons, if_neg (by rw [hpa]; decide), List.filter_cons, if_pos (by
      rw [List.isPrefixOf_iff_prefix]; exact List.prefix_append ..)]
    rfl
  · intro n hn
    simp only [List.mem_cons, List.not_mem_nil, or_false] at hn
    rcases hn with rfl | rfl
    · exact ⟨hna, ha, by omega⟩
    · refine ⟨by simp, ?_, by omega⟩
      intro hm
      rcases List.mem_append.1 hm with hm | hm
      · exact absurd hm (by decide)
      · exact hb hm

example : ls ([0x66, 0x69, 0x76, 0x65, 0x72] /- fiver -/) (printed [[0x78] ++ [10] ++ ([0x66, 0x69, 0x76, 0x65, 0x72] /- fiver -/ ++ [0x2E, 0x30, 0x2E, 0x30] /- .0.0 -/)]) = [[0x66, 0x69, 0x76, 0x65, 0x72, 0x2E, 0x30, 0x2E, 0x30] /- fiver.0.0 -/] := by decide +kernel

/-! ### Commit scripts -/

/-- Whatever the names, with blanks, quotes, stars or semicolons in them: the shell reads the script that `commit_all`
writes for files that are there as what is meant, and running it moves each file to its new name, unless there is a
file of that name, and changes nothing else.  A file that is gone when the script is run is left out. -/
theorem C81_script {fs₀ fs : FS} {pairs : List (Bytes × Bytes)} (ha : Apart pairs)
    (h0 : ∀ x ∈ pairs, fs₀ x.1 ≠ none) (hd : NoDirs pairs fs) :
    ∃ fs', shell (script fs₀ pairs) fs = some fs' ∧ Moved pairs fs fs' :=
  ⟨_, shell_script ha h0 hd, settleAll_moved pairs fs ha⟩

/-- "it's; rm -f *" and "a b" -/
example : Apart [([0x69, 0x74, 0x27, 0x73, 0x3B, 0x20, 0x72, 0x6D, 0x20, 0x2D, 0x66, 0x20, 0x2A] /- it's; rm -f * -/, [0x61, 0x20, 0x62] /- a b -/)] ∧
    ((shell (script (fun _ => some .dir) [([0x69, 0x74, 0x27, 0x73, 0x3B, 0x20, 0x72, 0x6D, 0x20, 0x2D, 0x66, 0x20, 0x2A] /- it's; rm -f * -/, [0x61, 0x20, 0x62] /- a b -/)])
      (fun p => if p = [0x69, 0x74, 0x27, 0x73, 0x3B, 0x20, 0x72, 0x6D, 0x20, 0x2D, 0x66, 0x20, 0x2A] /- it's; rm -f * -/ then some (.file [1] false) else none)).map fun fs =>
        (fs ([0x69, 0x74, 0x27, 0x73, 0x3B, 0x20, 0x72, 0x6D, 0x20, 0x2D, 0x66, 0x20, 0x2A] /- it's; rm -f * -/), fs ([0x61, 0x20, 0x62] /- a b -/))) = some (none, some (.file [1] false)) := by
  refine ⟨⟨by decide, by decide⟩, by decide +kernel⟩

/-- A script can be stopped after any of its commands, and run again, as often as it takes: what it does in the end is
what it does when it is not stopped. -/
theorem C81_script_again {fs₀ fs g : FS} {pairs : List (Bytes × Bytes)} (ha : Apart pairs)
    (h0 : ∀ x ∈ pairs, fs₀ x.1 ≠ none) (hd : NoDirs pairs fs) :
    ∃ cs, parse .blank [] [] (script fs₀ pairs) = some cs ∧ ∀ k, commands (cs.take k) fs = some g →
      shell (script fs₀ pairs) g = shell (script fs₀ pairs) fs := by
  refine ⟨_, script_commands h0, fun k h => ?_⟩
  obtain ⟨h1, h2, _⟩ := stopped pairs fs k g ha hd h
  rw [shell_script ha h0 h2, shell_script ha h0 hd, h1]

/-- The names recognised as those of commit scripts are those that `commit_all` gives, with anything in the place of the
pointer; no temporary name and no name of a shard is one of them. -/
theorem C81_script_names (n : Bytes) : isCommitScript n = true ↔ ScriptName n := scriptName_iff n

/-- When the process stops at any point of `commit_all`, even in the middle of writing the script, and the burrow is
opened again, either none of the transactions is committed or all of them are: none before the script has its name,
all from then on.  Temporary files are gone, the script is gone, and nothing else has changed.  Missing for the full
property: directories with other names.  (Scripts left over from several calls: `C81_many`.) -/
theorem C81_crash_partial {dir cn extension : Bytes} (hd : PlainName dir) {xs : List Bytes} {fs : FS} (hr : Ready dir xs fs)
    (hcn : ScriptName cn) (h47 : 47 ∉ cn) (hlc : Legal cn) (counter : Nat) (he : 47 ∉ extension)
    (hfd : fs (makeTemp dir extension counter).1 ≠ some .dir) (part k : Nat) :
    ∃ fs₁, construct dir false (after ((commitAllSteps fs dir (makeTemp dir extension counter).1 cn
        (xs.map (pairOf dir)) part).take k) fs) = some fs₁ ∧
      ∀ listing, Lists dir fs₁ listing → Short listing →
        ∃ fs₂, recover dir listing fs₁ = some (fs₂, true) ∧
          (k < 4 → NoneCommitted dir fs fs₂) ∧ (4 ≤ k → AllCommitted dir xs fs fs₂) := by
  refine ⟨_, construct_false hd _, fun listing hl hs => ?_⟩
  exact crash hd hr (makeTemp_temporary he counter) hfd hcn h47 hlc part k (rm_temps dir _) hl hs

/-- Several scripts can be left, by processes that stopped one after the other: when the burrow is opened all of them are
run, each moves its files, all are removed, and nothing else is changed.  The directory can have any name, and
the scripts any content that `commit_all` writes. -/
theorem C81_many {dir : Bytes} (hld : Legal dir) {listing scripts : List Bytes} {fs : FS} (hl : Lists dir fs listing)
    (hsh : Short listing) (hleg : ∀ n ∈ listing, Legal n)
    (hsc : listing.filter isCommitScript = scripts) (written : Bytes → FS) (content : Bytes → List (Bytes × Bytes))
    (hf : ∀ n ∈ scripts, fs (makeName dir n) = some (.file (script (written n) (content n)) true))
    (hw : ∀ n ∈ scripts, ∀ x ∈ content n, written n x.1 ≠ none)
    (ha : Apart (scripts.flatMap content)) (hd : NoDirs (scripts.flatMap content) fs)
    (hs : ∀ n ∈ scripts, ∀ x ∈ scripts.flatMap content, makeName dir n ≠ x.1 ∧ makeName dir n ≠ x.2) :
    ∃ fs', recover dir listing fs = some (fs', true) ∧
      (∀ n ∈ scripts, fs' (makeName dir n) = none) ∧
      (∀ r f, (r, f) ∈ scripts.flatMap content →
        fs' r = none ∧ (fs f ≠ none → fs' f = fs f) ∧ (fs f = none → fs' f = fs r)) ∧
      (∀ p, (∀ n ∈ scripts, p ≠ makeName dir n) → (∀ r f, (r, f) ∈ scripts.flatMap content → p ≠ r ∧ p ≠ f) →
        fs' p = fs p) := by
  unfold recover
  rw [ls_lines (by decide) (by decide) listing (lists_lines hl hsh)]
  have e : (listing.filter fun n => ([0x63, 0x6F, 0x6D, 0x6D, 0x69, 0x74] /- commit -/ : Bytes).isPrefixOf n).filter isCommitScript = scripts := by
    rw [List.filter_filter, ← hsc]
    refine List.filter_congr fun n _ => ?_
    by_cases h : isCommitScript n = true
    · obtain ⟨mid, _, rfl⟩ := (scriptName_iff n).1 h
      rw [h]; rfl
    · simp [h]
  have hap : allPairs content (listing.filter fun n => ([0x63, 0x6F, 0x6D, 0x6D, 0x69, 0x74] /- commit -/ : Bytes).isPrefixOf n) = scripts.flatMap content := by
    unfold allPairs
    rw [e]
  have hmem : ∀ n ∈ (listing.filter fun n => ([0x63, 0x6F, 0x6D, 0x6D, 0x69, 0x74] /- commit -/ : Bytes).isPrefixOf n), ScriptName n → n ∈ scripts := fun n hn hsn => by
    rw [← e]
    exact List.mem_filter.2 ⟨hn, (scriptName_iff n).2 hsn⟩
  have hmem' : ∀ n ∈ scripts, n ∈ (listing.filter fun n => ([0x63, 0x6F, 0x6D, 0x6D, 0x69, 0x74] /- commit -/ : Bytes).isPrefixOf n) ∧ ScriptName n := fun n hn => by
    rw [← e] at hn
    have := List.mem_filter.1 hn
    exact ⟨this.1, (scriptName_iff n).1 this.2⟩
  obtain ⟨fs', h1, h2, h3, h4⟩ := finalize_many hld written content (listing.filter fun n => ([0x63, 0x6F, 0x6D, 0x6D, 0x69, 0x74] /- commit -/ : Bytes).isPrefixOf n) fs
    (hl.1.filter _) (fun n hn => hleg n (List.mem_filter.1 hn).1) (fun n hn hsn => hf n (hmem n hn hsn))
    (fun n hn hsn => hw n (hmem n hn hsn)) (hap ▸ ha) (hap ▸ hd) (fun n hn hsn => by rw [hap]; exact hs n (hmem n hn hsn))
  rw [hap] at h3 h4
  exact ⟨fs', h1, fun n hn => h2 n (hmem' n hn).1 (hmem' n hn).2, fun r f hrf => h3 (r, f) hrf,
    fun p hp1 hp2 => h4 p (fun n hn hsn => hp1 n (hmem n hn hsn)) fun x hx => hp2 x.1 x.2 hx⟩

/-- Two scripts, one of which has been run in part. -/
example :
    let w : FS := fun _ => some .dir
    let fs : FS := fun p =>
      if p = [0x62, 0x2F, 0x63, 0x6F, 0x6D, 0x6D, 0x69, 0x74, 0x2E, 0x31, 0x2E, 0x73, 0x68] /- b/commit.1.sh -/ then some (.file (script w [([0x62, 0x2F, 0x6B, 0x69, 0x74, 0x74, 0x65, 0x6E, 0x2E, 0x31] /- b/kitten.1 -/, [0x62, 0x2F, 0x66, 0x69, 0x76, 0x65, 0x72, 0x2E, 0x31] /- b/fiver.1 -/)]) true)
      else if p = [0x62, 0x2F, 0x63, 0x6F, 0x6D, 0x6D, 0x69, 0x74, 0x2E, 0x32, 0x2E, 0x73, 0x68] /- b/commit.2.sh -/ then some (.file (script w [([0x62, 0x2F, 0x6B, 0x69, 0x74, 0x74, 0x65, 0x6E, 0x2E, 0x32] /- b/kitten.2 -/, [0x62, 0x2F, 0x66, 0x69, 0x76, 0x65, 0x72, 0x2E, 0x32] /- b/fiver.2 -/)]) true)
      else if p = [0x62, 0x2F, 0x66, 0x69, 0x76, 0x65, 0x72, 0x2E, 0x31] /- b/fiver.1 -/ then some (.file [1] false)
      else if p = [0x62, 0x2F, 0x6B, 0x69, 0x74, 0x74, 0x65, 0x6E, 0x2E, 0x32] /- b/kitten.2 -/ then some (.file [2] false)
      else none
    ((recover ([0x62]) [[0x63, 0x6F, 0x6D, 0x6D, 0x69, 0x74, 0x2E, 0x31, 0x2E, 0x73, 0x68] /- commit.1.sh -/, [0x63, 0x6F, 0x6D, 0x6D, 0x69, 0x74, 0x2E, 0x32, 0x2E, 0x73, 0x68] /- commit.2.sh -/, [0x66, 0x69, 0x76, 0x65, 0x72, 0x2E, 0x31] /- fiver.1 -/, [0x6B, 0x69, 0x74, 0x74, 0x65, 0x6E, 0x2E, 0x32] /- kitten.2 -/] fs).map fun r =>
      (r.2, r.1 ([0x62, 0x2F, 0x66, 0x69, 0x76, 0x65, 0x72, 0x2E, 0x31] /- b/fiver.1 -/), r.1 ([0x62, 0x2F, 0x66, 0x69, 0x76, 0x65, 0x72, 0x2E, 0x32] /- b/fiver.2 -/), r.1 ([0x62, 0x2F, 0x63, 0x6F, 0x6D, 0x6D, 0x69, 0x74, 0x2E, 0x32, 0x2E, 0x73, 0x68] /- b/commit.2.sh -/))) =
      some (true, some (.file [1] false), some (.file [2] false), none) := by
  decide +kernel

/-- Two transactions and a shard: "kitten.1", "kitten.2", "fiver.0". -/
def exampleFiles : FS := fun p =>
  if p = [0x62, 0x75, 0x72, 0x72, 0x6F, 0x77, 0x73, 0x2F, 0x6F, 0x6E, 0x65, 0x2F, 0x6B, 0x69, 0x74, 0x74, 0x65, 0x6E, 0x2E, 0x31] /- burrows/one/kitten.1 -/ then some (.file [1] false)
  else if p = [0x62, 0x75, 0x72, 0x72, 0x6F, 0x77, 0x73, 0x2F, 0x6F, 0x6E, 0x65, 0x2F, 0x6B, 0x69, 0x74, 0x74, 0x65, 0x6E, 0x2E, 0x32] /- burrows/one/kitten.2 -/ then some (.file [2] false)
  else if p = [0x62, 0x75, 0x72, 0x72, 0x6F, 0x77, 0x73, 0x2F, 0x6F, 0x6E, 0x65, 0x2F, 0x66, 0x69, 0x76, 0x65, 0x72, 0x2E, 0x30] /- burrows/one/fiver.0 -/ then some (.file [0] false)
  else if p = exampleDir then some .dir
  else none

theorem exampleFiles_ready : Ready exampleDir [[0x31], [0x32]] exampleFiles where
  apart := by decide
  proper := by decide
  written := by
    intro x hx
    simp only [List.mem_cons, List.not_mem_nil, or_false] at hx
    rcases hx with rfl | rfl
    · exact ⟨[1], false, by decide +kernel⟩
    · exact ⟨[2], false, by decide +kernel⟩
  fresh := by decide +kernel
  scripts := by
    rintro n ⟨mid, _, rfl⟩ _
    unfold exampleFiles exampleDir
    simp

/-- The process stops after the script and one of the two links: both transactions are committed. -/
example :
    let fs := after ((commitAllSteps exampleFiles exampleDir (makeTemp exampleDir ([0x63, 0x6F, 0x6D, 0x6D, 0x69, 0x74] /- commit -/) 3).1 ([0x63, 0x6F, 0x6D, 0x6D, 0x69, 0x74, 0x2E, 0x30, 0x78, 0x37, 0x66, 0x2E, 0x73, 0x68] /- commit.0x7f.sh -/)
      ([[0x31], [0x32]].map (pairOf exampleDir)) 5).take 6) exampleFiles
    (construct exampleDir false fs).bind (fun fs₁ => (recover exampleDir
      [[0x63, 0x6F, 0x6D, 0x6D, 0x69, 0x74, 0x2E, 0x30, 0x78, 0x37, 0x66, 0x2E, 0x73, 0x68] /- commit.0x7f.sh -/, [0x66, 0x69, 0x76, 0x65, 0x72, 0x2E, 0x30] /- fiver.0 -/, [0x66, 0x69, 0x76, 0x65, 0x72, 0x2E, 0x31] /- fiver.1 -/, [0x6B, 0x69, 0x74, 0x74, 0x65, 0x6E, 0x2E, 0x31] /- kitten.1 -/, [0x6B, 0x69, 0x74, 0x74, 0x65, 0x6E, 0x2E, 0x32] /- kitten.2 -/] fs₁).map fun r =>
        (r.2, r.1 ([0x62, 0x75, 0x72, 0x72, 0x6F, 0x77, 0x73, 0x2F, 0x6F, 0x6E, 0x65, 0x2F, 0x66, 0x69, 0x76, 0x65, 0x72, 0x2E, 0x31] /- burrows/one/fiver.1 -/), r.1 ([0x62, 0x75, 0x72, 0x72, 0x6F, 0x77, 0x73, 0x2F, 0x6F, 0x6E, 0x65, 0x2F, 0x66, 0x69, 0x76, 0x65, 0x72, 0x2E, 0x32] /- burrows/one/fiver.2 -/), r.1 ([0x62, 0x75, 0x72, 0x72, 0x6F, 0x77, 0x73, 0x2F, 0x6F, 0x6E, 0x65, 0x2F, 0x6B, 0x69, 0x74, 0x74, 0x65, 0x6E, 0x2E, 0x31] /- burrows/one/kitten.1 -/),
          r.1 ([0x62, 0x75, 0x72, 0x72, 0x6F, 0x77, 0x73, 0x2F, 0x6F, 0x6E, 0x65, 0x2F, 0x63, 0x6F, 0x6D, 0x6D, 0x69, 0x74, 0x2E, 0x30, 0x78, 0x37, 0x66, 0x2E, 0x73, 0x68] /- burrows/one/commit.0x7f.sh -/))) =
      some (true, some (.file [1] false), some (.file [2] false), none, none) := by
  decide +kernel

/-- The listing of the example. -/
example : Lists exampleDir exampleFiles [[0x66, 0x69, 0x76, 0x65, 0x72, 0x2E, 0x30] /- fiver.0 -/, [0x6B, 0x69, 0x74, 0x74, 0x65, 0x6E, 0x2E, 0x31] /- kitten.1 -/, [0x6B, 0x69, 0x74, 0x74, 0x65, 0x6E, 0x2E, 0x32] /- kitten.2 -/] ∧
    Short [[0x66, 0x69, 0x76, 0x65, 0x72, 0x2E, 0x30] /- fiver.0 -/, [0x6B, 0x69, 0x74, 0x74, 0x65, 0x6E, 0x2E, 0x31] /- kitten.1 -/, [0x6B, 0x69, 0x74, 0x74, 0x65, 0x6E, 0x2E, 0x32] /- kitten.2 -/] := by
  refine ⟨⟨by decide, fun n => ⟨fun h => ?_, ?_⟩⟩, by unfold Short; decide⟩
  · simp only [List.mem_cons, List.not_mem_nil, or_false] at h
    rcases h with rfl | rfl | rfl <;> decide +kernel
  · rintro ⟨h1, _, _, h⟩
    simp only [List.mem_cons, List.not_mem_nil, or_false]
    unfold exampleFiles exampleDir at h
    refine Classical.byContradiction fun hn => ?_
    simp only [not_or] at hn
    apply h
    rw [if_neg fun e => hn.2.1 (by simpa using e), if_neg fun e => hn.2.2 (by simpa using e),
      if_neg fun e => hn.1 (by simpa using e), if_neg (by simp)]

end Verif.Props
