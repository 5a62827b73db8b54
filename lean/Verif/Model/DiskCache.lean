import Verif.Model.Rep

/-!
# The trajectory files of `HamiltonianDataset`

Model of the part of `HamiltonianDataset.__init__` (experiments/trainer/hamiltonian_dynamics.py:88-103) that reads and writes the disk, by several
processes that run at the same time and may be killed at any point.
-/
namespace Verif

/-- The arguments of a construction as they enter the file name: `self.__class__`, `n_systems`, `chunk_len`, `dt`, `integration_time`, each already
formatted by the f-strings of hamiltonian_dynamics.py:90-91. -/
structure DsArgs where
  cls : String
  n : String
  chunk : String
  dt : String
  time : String

/-- `filename`, hamiltonian_dynamics.py:90-91; `home` is what `os.path.expanduser` puts for `~`. -/
def DsArgs.filename (home : String) (a : DsArgs) : String :=
  home ++ "/datasets/ODEDynamics/" ++ a.cls ++ "/" ++ "trajectories_" ++ a.n ++ "_" ++ a.chunk ++ "_" ++ a.dt ++ "_" ++ a.time ++ ".pz"

/-- The files: the bytes of those that exist. -/
abbrev Disk := String → Option (List ℕ)

/-- `torch.save` and `torch.load` as an encoding into bytes. -/
structure Codec (α : Type) where
  enc : α → List ℕ
  dec : List ℕ → Py α

/-- One construction: its arguments, `regen`, and what generating and chunking the trajectories would yield with the random draws of this process
(hamiltonian_dynamics.py:96-97, see C86 and C102). -/
structure DsCall (α : Type) where
  args : DsArgs
  regen : Bool
  gen : Py α

/-- Where a construction is: before the test of line 93, before `torch.load` (94), after generating (96-97), inside `torch.save` (99) after writing
`off` bytes, finished with a result or an exception, or killed. -/
inductive DsPc (α : Type) where
  | start
  | loading
  | generated (x : α)
  | writing (x : α) (off : ℕ)
  | done (r : Py α)
  | killed

/-- Writing a byte at an offset (bytes in between, if the file has become shorter, are zero). -/
def writeByte (b : List ℕ) (off v : ℕ) : List ℕ :=
  if off < b.length then b.set off v else b ++ List.replicate (off - b.length) 0 ++ [v]

variable {α : Type}

/-- One step of a construction, hamiltonian_dynamics.py:93-99.  `torch.save` opens the file for writing, which empties it, and then writes the bytes in
order (one per step, so that every prefix is a possible content when the process is killed).  `os.makedirs` has no effect on files. -/
def dsStep (c : Codec α) (home : String) (k : DsCall α) (d : Disk) : DsPc α → Disk × DsPc α
  | .start =>
    if (d (k.args.filename home)).isSome && !k.regen then (d, .loading)
    else match k.gen with
      | .error e => (d, .done (.error e))
      | .ok x => (d, .generated x)
  | .loading =>
    match d (k.args.filename home) with
    | some b => (d, .done (c.dec b))
    | none => (d, .done (.error .exception))
  | .generated x => (Function.update d (k.args.filename home) (some []), .writing x 0)
  | .writing x off =>
    match (c.enc x)[off]? with
    | some v => (Function.update d (k.args.filename home) (some (writeByte ((d (k.args.filename home)).getD []) off v)), .writing x (off + 1))
    | none => (d, .done (.ok x))
  | .done r => (d, .done r)
  | .killed => (d, .killed)

/-- The disk and the constructions started so far. -/
structure DsSys (α : Type) where
  disk : Disk
  procs : List (DsCall α × DsPc α)

/-- A new construction begins, one of the processes takes a step, or it is killed. -/
inductive DsEvent (α : Type) where
  | spawn (k : DsCall α)
  | step (i : ℕ)
  | kill (i : ℕ)

/-- The effect of an event; a finished construction cannot be killed any more. -/
def DsSys.next (c : Codec α) (home : String) (s : DsSys α) : DsEvent α → DsSys α
  | .spawn k => { s with procs := s.procs ++ [(k, .start)] }
  | .step i =>
    match s.procs[i]? with
    | none => s
    | some (k, pc) =>
      let r := dsStep c home k s.disk pc
      ⟨r.1, s.procs.set i (k, r.2)⟩
  | .kill i =>
    match s.procs[i]? with
    | some (_, .done _) => s
    | some (k, _) => { s with procs := s.procs.set i (k, .killed) }
    | none => s

/-- A schedule. -/
def DsSys.run (c : Codec α) (home : String) (s : DsSys α) (l : List (DsEvent α)) : DsSys α := l.foldl (DsSys.next c home) s

end Verif
