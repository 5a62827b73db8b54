import Verif.Model.Solver

/-!
# Threads that share the solver cache

`Rep.solcache` (representation.py:97) is a class attribute: all threads of a process use the same dictionary, and
`equivariant_basis` (98-115) tests for the key, solves, stores the solution and reads it back without a lock.  Here the
methods are programs whose steps are the dictionary operations and the call of the numerical routine; the steps of
several threads are interleaved in any order.

A single dictionary operation is taken to be atomic (as under the global interpreter lock).  The `n`-th call of the numerical
routine (in the order in which the calls finish) returns `solve n C`, so runs of it may overlap.  Canonicalisation and
the assembly of the constraint matrix do not touch the cache and are not steps.
-/
namespace Verif
variable {R : Type} [CommRing R]

/-- What remains to be done of a method that uses the cache. -/
inductive Prog (R : Type) [CommRing R] (α : Type) : Type
  /-- The method is finished: it returns or raises. -/
  | ret (o : Py α)
  /-- `canon_rep not in self.solcache`, representation.py:104. -/
  | test (k : Fac) (next : Bool → Prog R α)
  /-- `krylov_constraint_solve(C_lazy)` or `orthogonal_complement(C_dense)`, representation.py:109-113. -/
  | solve (C : LinOp R) (next : Py (DMat R) → Prog R α)
  /-- `self.solcache[canon_rep]=result`, representation.py:114. -/
  | store (k : Fac) (Q : DMat R) (next : Prog R α)
  /-- `self.solcache[canon_rep]`, representation.py:115; raises `KeyError` if the key is missing. -/
  | load (k : Fac) (next : Py (DMat R) → Prog R α)

/-- Continue after the method has returned or raised. -/
def Prog.andThen {α β : Type} : Prog R α → (Py α → Prog R β) → Prog R β
  | .ret o, f => f o
  | .test k n, f => .test k fun b => (n b).andThen f
  | .solve C n, f => .solve C fun o => (n o).andThen f
  | .store k Q n, f => .store k Q (n.andThen f)
  | .load k n, f => .load k fun o => (n o).andThen f

/-- Continue with a computation that does not use the cache; an exception is passed on. -/
def Prog.map {α β : Type} (f : α → β) (p : Prog R α) : Prog R β :=
  p.andThen fun
    | .error e => .ret (.error e)
    | .ok a => .ret (.ok (f a))

/-- A comprehension `[f(x) for x in l]`. -/
def Prog.list {α β : Type} (f : α → Prog R β) : List α → Prog R (List β)
  | [] => .ret (.ok [])
  | a :: t => (f a).andThen fun
    | .error e => .ret (.error e)
    | .ok b => (Prog.list f t).map (b :: ·)

section
variable (W : World) (gens : Gid → GenSet R)

/-- `Rep.equivariant_basis` for representations of one group, representation.py:98-115. -/
def Fac.basisProg (f : Fac) : Prog R (DMat R) :=
  match f.canon W with
  | .error e => .ret (.error e)
  | .ok (canonRep, perm) =>
    let invperm := argsort perm
    let finish : Prog R (DMat R) := .load canonRep fun
      | .error e => .ret (.error e)
      | .ok Q => .ret (.ok (Q.pick invperm (List.range Q.cols)))
    .test canonRep fun hit =>
      if hit then finish
      else
        match canonRep.constraintMatrix W gens with
        | .error e => .ret (.error e)
        | .ok C => .solve C fun
          | .error e => .ret (.error e)
          | .ok Q => .store canonRep Q finish

/-- `equivariant_basis` of a key: `Scalar` (representation.py:101), `DirectProduct` (product_sum_reps.py:374-376). -/
def Key.basisProg : Key → Prog R (LinOp R)
  | .scalar => .ret (.ok (.lazy (DMat.one 1)))
  | .fac f => (f.basisProg W gens).map .lazy
  | .dprod d => (Prog.list (Fac.basisProg W gens) d.c.keys).map fun Qs => .mul (.perm (argsort d.perm)) (.kron (Qs.map .lazy))

/-- `rep.equivariant_basis()`; `SumRep`: product_sum_reps.py:75-84. -/
def Rep.basisProg : Rep → Prog R (LinOp R)
  | .key k => k.basisProg W gens
  | .sum s => (Prog.list (Key.basisProg W gens) s.c.keys).map fun Qs => .mul (.perm (argsort s.perm)) (.dsum (Qs.zip (s.c.map (·.2))))
  | _ => .ret (.error .notImplemented)

/-- `equivariant_projector` of a key: representation.py:117-122, product_sum_reps.py:378-380. -/
def Key.projectorProg : Key → Prog R (LinOp R)
  | .scalar => .ret (.ok (outerH (DMat.one 1)))
  | .fac f => (f.basisProg W gens).map outerH
  | .dprod d => (Prog.list (fun f : Fac => (f.basisProg W gens).map outerH) d.c.keys).map fun Ps => conjPerm d.perm (.kron Ps)

/-- `rep.equivariant_projector()`; `SumRep`: product_sum_reps.py:86-93. -/
def Rep.projectorProg : Rep → Prog R (LinOp R)
  | .key k => k.projectorProg W gens
  | .sum s => (Prog.list (Key.projectorProg W gens) s.c.keys).map fun Ps => conjPerm s.perm (.dsum (Ps.zip (s.c.map (·.2))))
  | _ => .ret (.error .notImplemented)

/-- The program of a call. -/
def SolveCall.prog : SolveCall → Prog R (LinOp R)
  | .basis r => r.basisProg W gens
  | .projector r => r.projectorProg W gens

variable (solve : ℕ → LinOp R → Py (DMat R))

/-- One step of a method. -/
def Prog.step {α : Type} : Prog R α → SolveSt R → Prog R α × SolveSt R
  | .ret o, σ => (.ret o, σ)
  | .test k n, σ => (n (σ.get k).isSome, σ)
  | .solve C n, σ => (n (solve σ.calls C), { σ with calls := σ.calls + 1 })
  | .store k Q n, σ => (n, { σ with cache := (k, Q) :: σ.cache })
  | .load k n, σ => (n (match σ.get k with | some Q => .ok Q | none => .error .key), σ)

/-- A thread: the calls it still has to make, the call it is in, and the outcomes of the calls it made (latest
first).  A call that raises is handled by the thread, which goes on with its next call. -/
structure Thread (R : Type) [CommRing R] where
  todo : List SolveCall
  cur : Option (SolveCall × Prog R (LinOp R))
  log : List (SolveCall × Py (LinOp R))

/-- One step of a thread: enter the next call, take a step of the current one, or leave it. -/
def Thread.step (t : Thread R) (σ : SolveSt R) : Thread R × SolveSt R :=
  match t.cur with
  | none =>
    match t.todo with
    | [] => (t, σ)
    | c :: cs => ({ t with todo := cs, cur := some (c, c.prog W gens) }, σ)
  | some (c, .ret o) => ({ t with cur := none, log := (c, o) :: t.log }, σ)
  | some (c, p) => ({ t with cur := some (c, (p.step solve σ).1) }, (p.step solve σ).2)

/-- All threads of the process and the state they share. -/
structure Procs (R : Type) [CommRing R] where
  threads : List (Thread R)
  shared : SolveSt R

/-- Thread number `i` takes a step; nothing happens if there is none. -/
def Procs.step (P : Procs R) (i : ℕ) : Procs R :=
  match P.threads[i]? with
  | none => P
  | some t => ⟨P.threads.set i (t.step W gens solve P.shared).1, (t.step W gens solve P.shared).2⟩

/-- The threads take steps in the order of the schedule. -/
def Procs.run (P : Procs R) (schedule : List ℕ) : Procs R := schedule.foldl (Procs.step W gens solve) P

/-- A process with one thread per list of calls, and a cache. -/
def Procs.start (calls : List (List SolveCall)) (σ : SolveSt R) : Procs R := ⟨calls.map fun cs => ⟨cs, none, []⟩, σ⟩

end
end Verif
