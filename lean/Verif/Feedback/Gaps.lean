/-
The gaps of `qa_prf` are the least ones.
-/
import Verif.Feedback.Proof
namespace Verif.Feedback
variable {Word : Type} [DecidableEq Word]

/-- what the table has for the word -/
def gapOf (m : List (Word × Int)) (w : Word) : Option Int := (m.find? fun x => x.1 = w).map (·.2)

theorem gapOf_shorten (m : List (Word × Int)) (w v : Word) (g : Int) :
    gapOf (shorten m w g) v =
      if v = w then some (match gapOf m w with | some h => min g h | none => g) else gapOf m v := by
  induction m with
  | nil =>
    by_cases h : v = w
    · subst h; simp [shorten, gapOf]
    · have h' : w ≠ v := fun e => h e.symm
      simp [shorten, gapOf, h, h']
  | cons x l ih =>
    unfold shorten
    by_cases hx : x.1 = w
    · rw [if_pos hx]
      by_cases h : v = w
      · subst h; simp [gapOf, hx]
      · have h' : w ≠ v := fun e => h e.symm
        simp [gapOf, hx, h, h']
    · rw [if_neg hx]
      by_cases hv : x.1 = v
      · have h : v ≠ w := fun e => hx (hv.trans e)
        simp [gapOf, hv, h]
      · have e1 : gapOf (x :: shorten l w g) v = gapOf (shorten l w g) v := by simp [gapOf, hv]
        have e2 : gapOf (x :: l) v = gapOf l v := by simp [gapOf, hv]
        have e3 : gapOf (x :: l) w = gapOf l w := by simp [gapOf, hx]
        rw [e1, e2, e3, ih]

theorem least_shortenAll (gap : Nat → Int) (w : Word) (l : List Word) : ∀ (i : Nat) (m : List (Word × Int)) (S : Int → Prop),
    Least S (gapOf m w) →
    Least (fun g => S g ∨ ∃ j, l[j]? = some w ∧ g = gap (i + j)) (gapOf (shortenAll gap i l m) w) := by
  induction l with
  | nil =>
    intro i m S h
    have e : (fun g => S g ∨ ∃ j, ([] : List Word)[j]? = some w ∧ g = gap (i + j)) = S := by
      funext g; simp
    rw [e]; exact h
  | cons v l ih =>
    intro i m S h
    have h1 : Least (fun g => S g ∨ (v = w ∧ g = gap i)) (gapOf (shorten m v (gap i)) w) := by
      rw [gapOf_shorten]
      by_cases hv : w = v
      · subst hv
        rw [if_pos rfl]
        cases hm : gapOf m w with
        | none =>
          rw [hm] at h
          refine ⟨Or.inr ⟨rfl, rfl⟩, ?_⟩
          rintro g (hg | ⟨_, hg⟩)
          · exact absurd hg (h g)
          · show gap i ≤ g
            omega
        | some a =>
          rw [hm] at h
          refine ⟨?_, ?_⟩
          · by_cases hle : gap i ≤ a
            · exact Or.inr ⟨rfl, Int.min_eq_left hle⟩
            · left
              show S (min (gap i) a)
              rw [Int.min_eq_right (by omega)]; exact h.1
          · rintro g (hg | ⟨_, hg⟩)
            · have := h.2 g hg
              show min (gap i) a ≤ g
              omega
            · show min (gap i) a ≤ g
              omega
      · rw [if_neg hv]
        have e : (fun g => S g ∨ (v = w ∧ g = gap i)) = S := by
          funext g
          have : ¬ v = w := fun e => hv e.symm
          simp [this]
        rw [e]; exact h
    have h2 := ih (i + 1) _ _ h1
    have e : (fun g => S g ∨ ∃ j, (v :: l)[j]? = some w ∧ g = gap (i + j))
        = (fun g => (S g ∨ (v = w ∧ g = gap i)) ∨ ∃ j, l[j]? = some w ∧ g = gap (i + 1 + j)) := by
      funext g
      apply propext
      constructor
      · rintro (hg | ⟨j, hj, hg⟩)
        · exact Or.inl (Or.inl hg)
        · cases j with
          | zero => exact Or.inl (Or.inr ⟨by simpa using hj, hg⟩)
          | succ j => exact Or.inr ⟨j, by simpa using hj, by rw [hg]; congr 1; omega⟩
      · rintro ((hg | ⟨hj, hg⟩) | ⟨j, hj, hg⟩)
        · exact Or.inl hg
        · exact Or.inr ⟨0, by simpa using hj, hg⟩
        · exact Or.inr ⟨j + 1, by simpa using hj, by rw [hg]; congr 1; omega⟩
    rw [e]; exact h2

theorem least_congr {S T : Int → Prop} (h : ∀ g, S g ↔ T g) {o : Option Int} (hs : Least S o) : Least T o := by
  have : S = T := funext fun g => propext (h g)
  rw [← this]; exact hs

theorem keys_shorten (w : Word) (g : Int) : ∀ m : List (Word × Int),
    (shorten m w g).map (·.1) = if w ∈ m.map (·.1) then m.map (·.1) else m.map (·.1) ++ [w]
  | [] => by simp [shorten]
  | a :: l => by
    have ih := keys_shorten w g l
    unfold shorten
    by_cases ha : a.1 = w
    · rw [if_pos ha]; simp [ha]
    · have ha' : ¬ w = a.1 := fun e => ha e.symm
      rw [if_neg ha, List.map_cons, ih]
      simp only [List.map_cons, List.mem_cons, ha', false_or]
      split <;> simp

theorem nodup_shorten {m : List (Word × Int)} (h : (m.map (·.1)).Nodup) (w : Word) (g : Int) :
    ((shorten m w g).map (·.1)).Nodup := by
  rw [keys_shorten]
  split
  · exact h
  · rename_i hn
    rw [List.nodup_append]
    refine ⟨h, by simp, ?_⟩
    intro a ha b hb e
    rw [List.mem_singleton] at hb
    subst hb; subst e
    exact hn ha

theorem nodup_shortenAll (gap : Nat → Int) (l : List Word) : ∀ (i : Nat) {m : List (Word × Int)}, (m.map (·.1)).Nodup →
    ((shortenAll gap i l m).map (·.1)).Nodup := by
  induction l with
  | nil => intro i m h; exact h
  | cons a l ih => intro i m h; exact ih (i + 1) (nodup_shorten h a _)

theorem nodup_qaRange (E : Env Word) (size : Int) (r : Result) : ((qaRange E size r).map (·.1)).Nodup := by
  unfold qaRange
  exact nodup_shortenAll _ _ _ (nodup_shortenAll _ _ _ (nodup_shortenAll _ _ _ (by simp)))

theorem gapOf_of_mem {m : List (Word × Int)} (h : (m.map (·.1)).Nodup) {x : Word × Int} (hx : x ∈ m) : gapOf m x.1 = some x.2 := by
  induction m with
  | nil => cases hx
  | cons a l ih =>
    rw [List.map_cons, List.nodup_cons] at h
    rcases List.mem_cons.mp hx with e | e
    · subst e; simp [gapOf]
    · have hne : a.1 ≠ x.1 := fun e' => h.1 (e' ▸ List.mem_map.mpr ⟨x, e, rfl⟩)
      rw [← ih h.2 e]
      simp [gapOf, hne]

theorem gapOf_isSome (m : List (Word × Int)) (w : Word) : (gapOf m w).isSome = (m.map (·.1)).contains w := by
  rw [Bool.eq_iff_iff, List.contains_iff_mem]
  simp only [gapOf, Option.isSome_map, List.find?_isSome, decide_eq_true_eq, List.mem_map]

/-- the numbers that a table of gaps adds -/
theorem doc_eq {m : List (Word × Int)} (h : (m.map (·.1)).Nodup) (g : Word → Int → Rat) :
    (m.map fun x => (x.1, g x.1 x.2)) = (m.map (·.1)).map fun w => (w, g w ((gapOf m w).getD 0)) := by
  rw [List.map_map]
  refine List.map_congr_left fun x hx => ?_
  show _ = (x.1, g x.1 ((gapOf m x.1).getD 0))
  rw [gapOf_of_mem h hx]
  rfl

/-- the sums over the results -/
theorem sums_get (E : Env Word) (size : Int) (rs : List Result) (g : Word → Int → Rat) (w : Word) :
    (get (gather ((rs.map (qaRange E size)).map fun d => d.map fun x => (x.1, g x.1 x.2))) w).getD 0 =
      ((rs.filter fun r => (gapOf (qaRange E size r) w).isSome).map fun r => g w ((gapOf (qaRange E size r) w).getD 0)).sum := by
  have e : ((rs.map (qaRange E size)).map fun d => d.map fun x => (x.1, g x.1 x.2))
      = rs.map fun r => ((qaRange E size r).map (·.1)).map fun x => (x, g x ((gapOf (qaRange E size r) x).getD 0)) := by
    rw [List.map_map]
    exact List.map_congr_left fun r _ => doc_eq (nodup_qaRange E size r) g
  rw [e, gather_get, total_docs (fun r => (qaRange E size r).map (·.1)) (fun r => nodup_qaRange E size r)
    (fun r x => g x ((gapOf (qaRange E size r) x).getD 0)) w rs]
  have e2 : (rs.filter fun r => ((qaRange E size r).map (·.1)).contains w) = rs.filter fun r => (gapOf (qaRange E size r) w).isSome :=
    List.filter_congr fun r _ => (gapOf_isSome _ _).symm
  rw [e2]
  split
  · rfl
  · rename_i h
    rw [mem_docs (fun r => (qaRange E size r).map (·.1))] at h
    have : (rs.filter fun r => (gapOf (qaRange E size r) w).isSome) = [] := by
      rw [List.filter_eq_nil_iff]
      intro r hr hs
      rw [gapOf_isSome, List.contains_iff_mem] at hs
      exact h ⟨r, hr, hs⟩
    rw [this]; rfl

end Verif.Feedback
