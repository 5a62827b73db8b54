import Mathlib.Data.List.Sort
import Mathlib.Data.Real.Basic
import Verif.Model.Rep

/-!
# The trainer and the container conversions
-/
namespace Verif

/-- Observable effects of training. -/
inductive Ev
  /-- `self.step(epoch+i/steps_per_epoch, minibatch)` on minibatch `i`, with the running step number. -/
  | step (epoch i step : ℕ)
  /-- `self.logStuff(step)` -/
  | log (step : ℕ)
deriving DecidableEq, Repr

/-- The part of a `Trainer` that `train` reads and writes. -/
structure TrainSt where
  epoch : ℕ
  ev : List Ev
deriving DecidableEq

/-- The inner loop `for i, minibatch in enumerate(...)`, trainer.py:60-64.  `doLog` are the answers of the (time-based) logger.
Returns the events and the last value of the variable `step`. -/
def trainInner (doLog : ℕ → Bool) (S epoch : ℕ) : List ℕ → ℕ → List Ev × ℕ
  | [], last => ([], last)
  | i :: is, _ =>
    let step := i + epoch * S
    let r := trainInner doLog S epoch is step
    (Ev.step epoch i step :: ((if doLog step then [Ev.log step] else []) ++ r.1), r.2)

/-- The outer loop `for self.epoch in range(start,start+num)`, trainer.py:59; the loop variable is the attribute, so it keeps the last value. -/
def trainOuter (doLog : ℕ → Bool) (S : ℕ) : List ℕ → TrainSt → ℕ → TrainSt × ℕ
  | [], s, last => (s, last)
  | e :: es, s, last =>
    let r := trainInner doLog S e (List.range S) last
    trainOuter doLog S es { epoch := e, ev := s.ev ++ r.1 } r.2

/-- `Trainer.train(num_epochs)`, trainer.py:55-66; `S` is `len(dataloaders['train'])`. -/
def train (doLog : ℕ → Bool) (S num : ℕ) (s : TrainSt) : TrainSt :=
  let r := trainOuter doLog S (List.range' s.epoch num) s 0
  { epoch := r.1.epoch + 1, ev := r.1.ev ++ [Ev.log r.2] }

/-- `Trainer.train_to(final_epoch)`, trainer.py:51-53. -/
def trainTo (doLog : ℕ → Bool) (S final : ℕ) (s : TrainSt) : Py TrainSt :=
  if final ≥ s.epoch then .ok (train doLog S (final - s.epoch) s) else .error .assertion

/-- A float that may be NaN (`none`). -/
abbrev Fl := Option ℝ

/-- `a.max()` of a numpy array: NaN as soon as one entry is NaN. -/
noncomputable def npMax : List Fl → Fl
  | [] => none
  | [x] => x
  | x :: xs => match x, npMax xs with
    | some a, some b => some (max a b)
    | _, _ => none

/-- `a >= b` on floats: false as soon as one side is NaN. -/
def Fl.ge : Fl → Fl → Prop
  | some a, some b => b ≤ a
  | _, _ => False

/-- The part of a `Trainer` that `logStuff` reads and writes: the logged values of the early-stop metric, and the checkpoint. -/
structure LogSt (σ : Type) where
  values : List Fl
  ckpt : Option σ

open Classical in
/-- The checkpoint update of `logStuff`, trainer.py:84-91.  `maximize` is `None` without early-stop metric, else the answer of
`guess_metric_sign`; `v` the metric value just logged and `st` the current `state_dict()`. -/
noncomputable def logStuff {σ : Type} (maximize : Option Bool) (s : LogSt σ) (v : Fl) (st : σ) : LogSt σ :=
  let values := s.values ++ [v]
  match maximize with
  | some m =>
    let sign : ℝ := if m then 1 else -1
    let signed := values.map (Option.map (sign * ·))
    let best := npMax signed
    let current := (Option.map (sign * ·)) v
    { values, ckpt := if Fl.ge current best then some st else s.ckpt }
  | none => { values, ckpt := some st }

/-- `Trainer.evalAverageMetrics(loader,metrics)`, trainer.py:96-104; `batchSize = none` if the loader has no such attribute. -/
noncomputable def evalAverageMetrics {β : Type} (batchSize : Option ℕ) (loader : List β) (metrics : β → ℝ) : Py ℝ :=
  let mb : ℕ := batchSize.getD 1
  let r : ℝ × ℕ := loader.foldl (fun (a : ℝ × ℕ) b => (a.1 + mb * metrics b, a.2 + mb)) (0, 0)
  if r.2 = 0 then .error .key else .ok (r.1 / r.2)

/-- Nested python containers.  `seq tag cs` is a list, tuple, named tuple or `None` (no children), by `tag`; `dict` a dictionary in
insertion order. -/
inductive Tree (κ α : Type)
  | leaf (a : α)
  | seq (tag : ℕ) (cs : List (Tree κ α))
  | dict (es : List (κ × Tree κ α))

variable {κ α β : Type}

mutual
/-- Apply `f` to every leaf, in place. -/
def Tree.map (f : α → β) : Tree κ α → Tree κ β
  | .leaf a => .leaf (f a)
  | .seq t cs => .seq t (Tree.mapL f cs)
  | .dict es => .dict (Tree.mapD f es)
def Tree.mapL (f : α → β) : List (Tree κ α) → List (Tree κ β)
  | [] => []
  | c :: cs => Tree.map f c :: Tree.mapL f cs
def Tree.mapD (f : α → β) : List (κ × Tree κ α) → List (κ × Tree κ β)
  | [] => []
  | (k, c) :: es => (k, Tree.map f c) :: Tree.mapD f es
end

variable [LinearOrder κ]

mutual
/-- `jax.tree_util.tree_flatten`: leaves and structure; dictionaries are visited by increasing key. -/
def Tree.flatten : Tree κ α → List α × Tree κ Unit
  | .leaf a => ([a], .leaf ())
  | .seq t cs => ((Tree.flattenL cs).flatMap Prod.fst, .seq t ((Tree.flattenL cs).map Prod.snd))
  | .dict es =>
    let s := (Tree.flattenD es).insertionSort fun x y => x.1 ≤ y.1
    (s.flatMap fun x => x.2.1, .dict (s.map fun x => (x.1, x.2.2)))
def Tree.flattenL : List (Tree κ α) → List (List α × Tree κ Unit)
  | [] => []
  | c :: cs => Tree.flatten c :: Tree.flattenL cs
def Tree.flattenD : List (κ × Tree κ α) → List (κ × List α × Tree κ Unit)
  | [] => []
  | (k, c) :: es => (k, Tree.flatten c) :: Tree.flattenD es
end

omit [LinearOrder κ] in
section
mutual
/-- `jax.tree_util.tree_unflatten`: fills the structure from the list, returning what is left over. -/
def Tree.unflatten : Tree κ Unit → List α → Option (Tree κ α × List α)
  | .leaf _, [] => none
  | .leaf _, a :: as => some (.leaf a, as)
  | .seq t cs, as => (Tree.unflattenL cs as).map fun r => (.seq t r.1, r.2)
  | .dict es, as => (Tree.unflattenD es as).map fun r => (.dict r.1, r.2)
def Tree.unflattenL : List (Tree κ Unit) → List α → Option (List (Tree κ α) × List α)
  | [], as => some ([], as)
  | c :: cs, as => (Tree.unflatten c as).bind fun r => (Tree.unflattenL cs r.2).map fun q => (r.1 :: q.1, q.2)
def Tree.unflattenD : List (κ × Tree κ Unit) → List α → Option (List (κ × Tree κ α) × List α)
  | [], as => some ([], as)
  | (k, c) :: es, as => (Tree.unflatten c as).bind fun r => (Tree.unflattenD es r.2).map fun q => ((k, r.1) :: q.1, q.2)
end
end

/-- `to_jax` / `to_pytorch`, pytorch.py:36-45, with the leaf conversion `f` (`torch2jax` / `jax2torch`, pytorch.py:21-34).
`tree_unflatten` raises `ValueError` on a wrong number of leaves. -/
def Tree.convert (f : α → β) (t : Tree κ α) : Py (Tree κ β) :=
  match Tree.unflatten t.flatten.2 (t.flatten.1.map f) with
  | some (r, []) => .ok r
  | _ => .error .value

/-- The leaves `minibatch_to` distinguishes. -/
inductive MbLeaf (α β : Type)
  /-- `np.ndarray` -/
  | arr (a : α)
  /-- has a method `numpy()` -/
  | tensor (b : β)
  /-- a number: not iterable -/
  | num
  /-- a non-empty string: iterating yields strings again -/
  | str

/-- The tag of containers whose constructor does not accept one iterable (named tuples, `None`). -/
def opaqueTag : ℕ := 0

omit [LinearOrder κ] in
section
variable {γ : Type} (put : α → γ) (numpy : β → α)
mutual
/-- `minibatch_to(mb)`, experiments/trainer/utils.py:5-14; `put` is `jax.device_put`. -/
def minibatchTo : Tree κ (MbLeaf α β) → Py (Tree κ γ)
  | .leaf (.arr a) => .ok (.leaf (put a))
  | .leaf (.tensor b) => .ok (.leaf (put (numpy b)))
  | .leaf .num => .error .type
  | .leaf .str => .error .recursion
  | .dict es => (minibatchToD es).map .dict
  | .seq t cs => do
    let r ← minibatchToL cs
    if t = opaqueTag then .error .type else .ok (.seq t r)
def minibatchToL : List (Tree κ (MbLeaf α β)) → Py (List (Tree κ γ))
  | [] => .ok []
  | c :: cs => do
    let r ← minibatchTo c
    let rs ← minibatchToL cs
    pure (r :: rs)
def minibatchToD : List (κ × Tree κ (MbLeaf α β)) → Py (List (κ × Tree κ γ))
  | [] => .ok []
  | (k, c) :: es => do
    let r ← minibatchTo c
    let rs ← minibatchToD es
    pure ((k, r) :: rs)
end
end

end Verif
