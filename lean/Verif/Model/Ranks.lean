import Verif.Model.Parallel

/-!
A program started with `mpirun`: every rank constructs its own system and a `SparseSolver` or `DenseSolver` with
`mpi_comm=MPI.COMM_WORLD`, on one disk, and `greens_function` shares the points among the ranks and gathers the numbers on
rank 0 (`ggce/executors/solvers.py:34-48, 83-102, 144-190`). The steps on the disk are those of Verif/Model/Parallel.lean.

`gather` on a rank other than 0 hands the message over and goes on; on rank 0 it waits until the messages of this call of
`gather` have been handed over by all ranks. That a rank waits in `gather` until rank 0 takes its message is one of the orders
of steps; `C110_undisturbed_partial` says that this causes no deadlock either. A rank that raises takes no more steps; what
`mpirun` does with the others then is not modelled.
-/

namespace GGCE

variable {R K : Type} [Field R] [LinearOrder R] [Field K]

/-- what a rank will do, on a disk of type `S`, with output of type `B` and messages of type `M`
(for solvers.py:144-190) -/
inductive Task (S B M : Type) : Type 1 where
  | stop (r : Py Unit)
  | read {β : Type} (f : S → β) (k : β → Task S B M)
  | write (f : S → S) (k : Task S B M)
  | say (b : B) (k : Task S B M)
  | gather (msg : M) (k : Option (List M) → Task S B M)

/-- a part of a program that does not communicate, with what comes after it (for solvers.py:144-190) -/
def Todo.into {S A B M α : Type} (out : A → B) : Todo S A α → (Py α → Task S B M) → Task S B M
  | .stop r, k => k r
  | .read f h, k => .read f (fun b => (h b).into out k)
  | .write f h, k => .write f (h.into out k)
  | .say a h, k => .say (out a) (h.into out k)

/-- what a rank prints; `none` is Python's `None` (solvers.py:186-190) -/
abbrev RankOut (K : Type) := Py (Option (Answer K))

/-- a rank of a program; it sends the numbers of its points (for solvers.py:144-190) -/
abbrev RankTask (R K : Type) := Task (Store R K) (RankOut K) (List (Option K))

namespace RankTask

/-- a part without communication (for solvers.py:144-190) -/
def plain {α : Type} (x : Act R K α) (k : Py α → RankTask R K) : RankTask R K := x.into (fun a => a.map some) k

/-- One call on rank `rank` of `size`, with what comes after it. `solve` does not communicate. `greens_function`
(solvers.py:163-188): the points of this rank, the loop, `gather`, and the reshaped array on rank 0. -/
def call [FloorRing R] (size rank : Nat) (raw : Point R → Py (Option K)) (root : Option String) (c : Call R)
    (k : RankOut K → RankTask R K) : RankTask R K := match c with
  | .solve p => plain (Act.solve raw root p) (fun r => k (r.map (fun v => some (.value v))))
  | .grid kk w eta =>
    match floatToList kk with
    | .error e => k (.error e)
    | .ok ks =>
      match floatToList w with
      | .error e => k (.error e)
      | .ok ws =>
        match chunkJobs (jobList ks ws) size rank with
        | .error e => k (.error e)
        | .ok js =>
          plain (Act.solveAll raw root (js.map (fun j => ⟨j.1, j.2, eta⟩))) (fun r => match r with
            | .error e => k (.error e)
            | .ok s => .gather s (fun all => match all with
              | none => k (.ok none)
              | some all => k ((reshapeGrid all.flatten ks.length ws.length).map (fun M => some (.matrix M)))))

/-- the calls of a program, each answer printed; an exception ends it (solvers.py:144-190) -/
def calls [FloorRing R] (size rank : Nat) (raw : Point R → Py (Option K)) (root : Option String) :
    List (Call R) → RankTask R K
  | [] => .stop (.ok ())
  | c :: cs => call size rank raw root c (fun r => match r with
    | .error e => .say (.error e) (.stop (.error e))
    | .ok a => .say (.ok a) (calls size rank raw root cs))

/-- the program `s` for the model `m` on one rank (system.py:381-438, solvers.py:50-190) -/
noncomputable def program [FloorRing R] (F : Phys R K) (m : Model R) (size rank : Nat) (s : Script R K) : RankTask R K :=
  plain (Act.construct m s) (fun r => match r with
    | .error e => .say (.error e) (.stop (.error e))
    | .ok o => calls size rank (o.raw F) s.source.solverRoot s.calls)

end RankTask

/-- a rank: what it has printed, what it has handed to `gather`, and what is left to do (solvers.py:34-48, 171-188) -/
structure Rank (R K : Type) : Type 1 where
  said : List (RankOut K)
  sent : List (List (Option K))
  rest : RankTask R K

/-- The ranks of `mpirun`: all run the same program, each with its own order of iteration of sets
(solvers.py:34-48, 171-188). -/
noncomputable def startRanks [FloorRing R] (F : Phys R K) (m : Model R) (size : Nat) (order : Nat → SetOrder) (s : Script R K) :
    List (Rank R K) :=
  (List.range size).map (fun i => ⟨[], [], RankTask.program F m size i { s with order := order i }⟩)

/-- One step of rank number `i`, which is `p`, among `ranks`; `none` if it has come to its end, or is rank 0 and waits in
`gather` for others (solvers.py:171-188). -/
def Rank.move (ranks : List (Rank R K)) (i : Nat) (p : Rank R K) (st : Store R K) : Option (Store R K × Rank R K) :=
  match p.rest with
  | .stop _ => none
  | .read f k => some (st, { p with rest := k (f st) })
  | .write f k => some (f st, { p with rest := k })
  | .say b k => some (st, { p with said := p.said ++ [b], rest := k })
  | .gather msg k =>
    if i = 0 then
      match (ranks.drop 1).mapM (fun q => q.sent[p.sent.length]?) with
      | none => none
      | some others => some (st, { p with sent := p.sent ++ [msg], rest := k (some (msg :: others)) })
    else some (st, { p with sent := p.sent ++ [msg], rest := k none })

end GGCE
