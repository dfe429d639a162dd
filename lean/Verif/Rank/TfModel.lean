import Verif.Rank.WandModel
/-
  Model of the hopper for the documents with a term: src/tf_hopper.h, and the hopper for the
  documents with a term in some field: src/field_stats.cc.
-/
namespace Verif.Rank
open Verif.Hopper

section
variable (num : Int → Int) (T C : Obj)

/-- `src/tf_hopper.h:26-31` `tau_`.  `T` is `tf_hopper_`, `C` is `content_hopper_`; `num` is the
cast of the stored integer to a floating-point number. -/
def tfTau (k : Int) : M (St (T.σ × C.σ)) Ann := do
  let t ← onL (T.tau k)
  let c ← onR (C.tau t.p)
  return ⟨c.p, c.q, num t.v⟩
/-- `src/tf_hopper.h:32-38` `rho_` -/
def tfRho (k : Int) : M (St (T.σ × C.σ)) Ann := do
  let d ← onR (C.rho k)
  let t ← onL (T.tau d.p)
  let c ← onR (C.tau t.p)
  return ⟨c.p, c.q, num t.v⟩
/-- `src/tf_hopper.h:39-45` `uat_` -/
def tfUat (k : Int) : M (St (T.σ × C.σ)) Ann := do
  let d ← onR (C.uat k)
  let t ← onL (T.ohr d.p)
  let c ← onR (C.ohr t.p)
  return ⟨c.p, c.q, num t.v⟩
/-- `src/tf_hopper.h:46-51` `ohr_` -/
def tfOhr (k : Int) : M (St (T.σ × C.σ)) Ann := do
  let t ← onL (T.ohr k)
  let c ← onR (C.ohr t.p)
  return ⟨c.p, c.q, num t.v⟩

/-- `TfHopper` (`src/tf_hopper.h:12-54`) -/
def tfObj : Obj where
  σ := St (T.σ × C.σ)
  init := ⟨{}, (T.init, C.init)⟩
  tau := memoTau (tfTau num T C)
  rho := memoRho (tfRho num T C)
  uat := memoUat (tfUat num T C)
  ohr := memoOhr (tfOhr num T C)
  L := defaultL (memoUat (tfUat num T C))
  R := defaultR (memoTau (tfTau num T C))
end

/-! ### over several fields -/

/-- the states of `tf_hoppers_` -/
def Sts : List (Rat × Obj) → Type
  | [] => Unit
  | f :: fs => f.2.σ × Sts fs

/-- as the hoppers are made -/
def Sts.init : (fs : List (Rat × Obj)) → Sts fs
  | [] => ()
  | f :: fs => (f.2.init, Sts.init fs)

/-- `tf_hoppers_[i]->…(k, &p0, &q0, &tf0)` for every `i`: the weights (`weights_`) with the answers
(`ps`, `tfs`) -/
def askAll (m : (H : Obj) → Int → M H.σ Ann) (k : Int) : (fs : List (Rat × Obj)) → Sts fs → Option (List (Rat × Ann) × Sts fs)
  | [], () => some ([], ())
  | f :: fs, (s, ss) => match m f.2 k s with
    | none => none
    | some (a, s) => match askAll m k fs ss with
      | none => none
      | some (as, ss) => some ((f.1, a) :: as, (s, ss))

/-- `src/field_stats.cc:204-207` and `226-229`: `weights_[i] * tfs[i]`, summed over the fields at `p` -/
def fieldSum (p : Int) (as : List (Rat × Ann)) : Rat :=
  tot (as.map fun a => if a.2.p = p then a.1 * a.2.v else 0)

section
variable (enc : Rat → Int) (fs : List (Rat × Obj)) (C : Obj)

/-- `src/field_stats.cc:194-210` `tau_`.  `enc` stands for how a number is held in a value. -/
def fieldTau (k : Int) : M (St (Sts fs × C.σ)) Ann := do
  let as ← onL (askAll (fun H => H.tau) k fs)
  let p := (as.map fun a => a.2.p).foldr min maxfinity
  let c ← onR (C.tau p)
  return ⟨c.p, c.q, enc (fieldSum p as)⟩
/-- `src/field_stats.cc:211-215` `rho_` -/
def fieldRho (k : Int) : M (St (Sts fs × C.σ)) Ann := do
  let d ← onR (C.rho k)
  memoTau (fieldTau enc fs C) d.p
/-- `src/field_stats.cc:216-232` `uat_` -/
def fieldUat (k : Int) : M (St (Sts fs × C.σ)) Ann := do
  let as ← onL (askAll (fun H => H.uat) k fs)
  let p := (as.map fun a => a.2.p).foldr max minfinity
  let c ← onR (C.uat p)
  return ⟨c.p, c.q, enc (fieldSum p as)⟩
/-- `src/field_stats.cc:233-237` `ohr_` -/
def fieldOhr (k : Int) : M (St (Sts fs × C.σ)) Ann := do
  let d ← onR (C.ohr k)
  memoUat (fieldUat enc fs C) d.q

/-- `TfHopper` (`src/field_stats.cc:171-241`), of the weights and the fields' hoppers and the
documents' -/
def fieldObj : Obj where
  σ := St (Sts fs × C.σ)
  init := ⟨{}, (Sts.init fs, C.init)⟩
  tau := memoTau (fieldTau enc fs C)
  rho := memoRho (fieldRho enc fs C)
  uat := memoUat (fieldUat enc fs C)
  ohr := memoOhr (fieldOhr enc fs C)
  L := defaultL (memoUat (fieldUat enc fs C))
  R := defaultR (memoTau (fieldTau enc fs C))
end

end Verif.Rank
