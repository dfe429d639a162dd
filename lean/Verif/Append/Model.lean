/-
  Model of how files are appended by several threads: `append_jsonl`, `append_tsv` and the workers of
  `forage`, of `meadowlark/meadowlark.cc`.

  A run is a schedule: the list of the workers in the order in which they take a step.  A step is what
  a worker does under one lock, or what it does on its own between two locks.
-/
namespace Verif.Append

/-- What the threads do not decide: whether worker `w`, which has appended some lines, appends another one
(`json_scribe`, `append`, `annotate`), and whether it can then be made ready (`ready`); and whether the file can
be read to its end. -/
structure Env (Line : Type) where
  accepts : Nat → List Line → Line → Bool
  votes : Nat → List Line → Bool
  readError : Bool

/-- where a worker is -/
inductive Pc (Line : Type) where
  | take | work (l : Line) | vote | stop
  deriving DecidableEq

/-- a worker: what it has appended in its transaction, and whether this is ready -/
structure Worker (Line : Type) where
  pc : Pc Line := .take
  appended : List Line := []
  ready : Bool := false
  deriving DecidableEq

/-- `input`, `done`, `failed` (`meadowlark/meadowlark.cc:225-227`) and the workers -/
structure State (Line : Type) where
  rest : List Line
  done : Bool := false
  failed : Bool := false
  workers : List (Worker Line)
  deriving DecidableEq

variable {Line : Type} (E : Env Line)

/-- `meadowlark/meadowlark.cc:228-267`, one step of worker `w`; `x` is the worker.  A worker that has stopped does
nothing. -/
def stepOf (w : Nat) (x : Worker Line) (st : State Line) : State Line :=
  match x.pc with
  | .take =>
    if st.done then { st with workers := st.workers.set w { x with pc := .vote } }
    else match st.rest with
      | [] =>
        if E.readError then
          { st with done := true, failed := true, workers := st.workers.set w { x with pc := .stop } }
        else { st with done := true, workers := st.workers.set w { x with pc := .vote } }
      | l :: rest => { st with rest := rest, workers := st.workers.set w { x with pc := .work l } }
  | .work l =>
    if E.accepts w x.appended l then
      { st with workers := st.workers.set w { x with pc := .take, appended := x.appended ++ [l] } }
    else if st.failed then { st with workers := st.workers.set w { x with pc := .stop } }
    else { st with done := true, failed := true, workers := st.workers.set w { x with pc := .stop } }
  | .vote =>
    if E.votes w x.appended then { st with workers := st.workers.set w { x with pc := .stop, ready := true } }
    else if st.failed then { st with workers := st.workers.set w { x with pc := .stop } }
    else { st with done := true, failed := true, workers := st.workers.set w { x with pc := .stop } }
  | .stop => st

/-- a step of the worker with this number, if there is one -/
def step (st : State Line) (w : Nat) : State Line :=
  match st.workers[w]? with
  | none => st
  | some x => stepOf E w x st

def run (st : State Line) (schedule : List Nat) : State Line := schedule.foldl (step E) st

/-- `meadowlark/meadowlark.cc:200-227`, `268-270`: where the workers start; `threads` is not 0 -/
def start (threads : Nat) (lines : List Line) : State Line :=
  { rest := lines, workers := List.replicate threads {} }

/-- all threads can be joined (`meadowlark/meadowlark.cc:271-272`) -/
def State.joined (st : State Line) : Prop := ∀ x ∈ st.workers, x.pc = .stop

instance [DecidableEq Line] (st : State Line) : Decidable st.joined := inferInstanceAs (Decidable (∀ x ∈ st.workers, x.pc = .stop))

/-- what a transaction adds to the warren -/
inductive Piece (Line : Type) where
  | path | lines (l : List Line)
  deriving DecidableEq

/-- `meadowlark/meadowlark.cc:273-286`: the result, and what is committed: a list of steps, each of which happens
as a whole (`commit_all` is one, C22).  The transactions of the workers come before that of the path
(line 224). -/
def finishJsonl (st : State Line) : Bool × List (List (Piece Line)) :=
  if st.failed then (false, [])
  else (true, [(st.workers.map fun x => .lines x.appended) ++ [.path]])

/-! ### `append_tsv` -/

/-- `meadowlark/meadowlark.cc:351-352`: the lines of worker `n` -/
def tsvShare (lines : List Line) (threads n : Nat) : List Line :=
  (lines.drop (lines.length * n / threads)).take (lines.length * (n + 1) / threads - lines.length * n / threads)

/-- `clones` and `failed` (`meadowlark/meadowlark.cc:320`, `342`); each worker has the lines it has yet to append -/
structure TsvState (Line : Type) where
  failed : Bool := false
  workers : List (Worker Line × List Line)
  deriving DecidableEq

/-- `meadowlark/meadowlark.cc:343-400`, one step of worker `w`: a line, or making it ready -/
def tsvStepOf (w : Nat) (x : Worker Line) (rest : List Line) (st : TsvState Line) : TsvState Line :=
  match x.pc with
  | .stop => st
  | _ => match rest with
    | [] =>
      if E.votes w x.appended then { st with workers := st.workers.set w ({ x with pc := .stop, ready := true }, []) }
      else { st with failed := true, workers := st.workers.set w ({ x with pc := .stop }, []) }
    | l :: rest =>
      if st.failed then { st with workers := st.workers.set w ({ x with pc := .stop }, l :: rest) }
      else if E.accepts w x.appended l then
        { st with workers := st.workers.set w ({ x with appended := x.appended ++ [l] }, rest) }
      else { st with failed := true, workers := st.workers.set w ({ x with pc := .stop }, l :: rest) }

def tsvStep (st : TsvState Line) (w : Nat) : TsvState Line :=
  match st.workers[w]? with
  | none => st
  | some x => tsvStepOf E w x.1 x.2 st

def tsvRun (st : TsvState Line) (schedule : List Nat) : TsvState Line := schedule.foldl (tsvStep E) st

/-- `meadowlark/meadowlark.cc:316-342`, `401-403` -/
def tsvStart (threads : Nat) (lines : List Line) : TsvState Line :=
  { workers := (List.range threads).map fun n => ({}, tsvShare lines threads n) }

def TsvState.joined (st : TsvState Line) : Prop := ∀ x ∈ st.workers, x.1.pc = .stop

instance [DecidableEq Line] (st : TsvState Line) : Decidable st.joined :=
  inferInstanceAs (Decidable (∀ x ∈ st.workers, x.1.pc = .stop))

/-- `meadowlark/meadowlark.cc:310-315`, `406-417`: the path is committed first, then, if nothing failed, each worker's
lines.  An empty file has no workers (`tsvStart 0`). -/
def finishTsv (st : TsvState Line) : Bool × List (List (Piece Line)) :=
  if st.failed then (false, [[.path]])
  else (true, [.path] :: st.workers.map fun x => [.lines x.1.appended])

/-! ### `forage` -/

/-- `meadowlark/meadowlark.cc:437-488`: the workers that run, in the order in which they commit; each one for its
share, `share w`, of the intervals.  `failed` is looked at when a worker starts; here all have started, and each
commits on its own. -/
def forageRun (share : Nat → List Line) (order : List Nat) : Bool × List (List (Piece Line)) :=
  (order.all (fun w => E.votes w (share w)),
    (order.filter fun w => E.votes w (share w)).map fun w => [.lines (share w)])

end Verif.Append
