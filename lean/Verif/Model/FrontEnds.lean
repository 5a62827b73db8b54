import Verif.Model.Layers

/-!
# The four front ends

`emlp/nn/objax.py`, `pytorch.py`, `flax.py` and `haiku.py` each define `Linear`, `BiLinear`, `GatedNonlinearity`, `EMLPBlock` and
`EMLP`; they share `bilinear_weights`, `gated`, `gate_indices` and `uniform_rep`.  Here the layers act on batches: a matrix
whose rows are the input vectors (further leading axes are flattened into this one).  Initial values of the parameters,
which do differ, are not modelled: parameters are arguments.
-/
namespace Verif
open List

/-- The frameworks. -/
inductive FrontEnd
  | objax | torch | flax | haiku
deriving DecidableEq

/-- The expression for the weight representation: `repout*repin.T` (objax.py:35, pytorch.py:74), `repin>>repout`
(flax.py:27), `repout << repin` (haiku.py:17). -/
def FrontEnd.repW (W : World) (F : FrontEnd) (repin repout : Rep) : Py Rep :=
  match F with
  | .objax | .torch => do
    let t ← Rep.T W repin
    Rep.mul W repout t
  | .flax => Rep.rshift W repin repout
  | .haiku => Rep.lshift W repout repin

section
variable {R : Type} [CommRing R]

/-- `A+b` with broadcasting over the rows. -/
def DMat.addRow (A : DMat R) (b : List R) : DMat R := DMat.of A.rows A.cols fun i j => A.e i j + b.getD j 0

section init
variable (W : World) (gens : Gid → GenSet R) (solve : ℕ → LinOp R → Py (DMat R)) (rng : Rng)

/-- `Linear(repin,repout)`: objax.py:31-42, pytorch.py:72-80, flax.py:23-31, haiku.py:15-22.  The flax layer keeps no input size;
the field is filled in all the same. -/
def FrontEnd.linearInit (F : FrontEnd) (repin repout : Rep) : NetM R (LinearL R) := do
  let repW ← NetM.rep (RepM.lift W fun W => F.repW W repin repout)
  let Pw ← NetM.solver W fun W => repW.equivariantProjector W gens solve
  let Pb ← NetM.solver W fun W => repout.equivariantProjector W gens solve
  pure ⟨repin.size W, repout.size W, Pw, Pb⟩

/-- `EMLPBlock(rep_in,rep_out)`: objax.py:94-98, pytorch.py:121-125, flax.py:79-85, haiku.py:81-86. -/
def FrontEnd.blockInit (F : FrontEnd) (repIn repOut : Rep) : NetM R (Block R) := do
  let g1 ← NetM.rep (gated W repOut)
  let lin ← F.linearInit W gens solve repIn g1
  let g2 ← NetM.rep (gated W repOut)
  let g3 ← NetM.rep (gated W repOut)
  let bil ← BilinearL.init W rng g2 g3
  pure ⟨lin, bil, repOut⟩

/-- `Sequential(*[EMLPBlock(rin,rout) for rin,rout in zip(reps,reps[1:])],Linear(reps[-1],rep_out))`: objax.py:197-200,
pytorch.py:160-163, flax.py:121, haiku.py:121-124. -/
def FrontEnd.build (F : FrontEnd) (repIn : Rep) (middle : List Rep) (repOut : Rep) : NetM R (Emlp R) := do
  let blocks ← ((repIn :: middle).zip middle).mapM fun p => F.blockInit W gens solve rng p.1 p.2
  let last ← F.linearInit W gens solve ((repIn :: middle).getLastD repIn) repOut
  pure ⟨repIn, repOut, middle, blocks, last⟩

/-- `EMLP(rep_in,rep_out,group,ch,num_layers)`: objax.py:181-200, pytorch.py:146-163, flax.py:113-121, haiku.py:112-125. -/
def FrontEnd.emlp (F : FrontEnd) (fuel : ℕ) (repIn repOut : Rep) (g : Gid) (ch : Ch) (numLayers : ℕ) : NetM R (Emlp R) := do
  let rin ← NetM.rep fun sg => Rep.call (W.setG sg) (some g) sg repIn
  let rout ← NetM.rep fun sg => Rep.call (W.setG sg) (some g) sg repOut
  let middle ← match ch with
    | .one c => do
      let r ← ChItem.parse W rng fuel g c
      pure (replicate numLayers r)
    | .list l => l.mapM (ChItem.parse W rng fuel g)
  F.build W gens solve rng rin middle rout

end init

/-- The forward pass of `Linear` on a batch.  objax.py:43-48 and haiku.py:32-39 compute `x@W.T+b` with
`W = (Pw@w.reshape(-1)).reshape(*shape)`; pytorch.py:83-84 calls `F.linear(x,proj_w(weight),proj_b(bias))`, which is the product
with the transpose, too; flax.py:39-43 declares a weight of shape `(cout,x.shape[-1])`, so that the input determines it, and
the product with `Pw` raises if this does not match.  Parameters of another shape raise in flax and haiku
(the declared shape is compared with that of the value); for the others they cannot arise but would raise here. -/
def FrontEnd.linear (F : FrontEnd) (L : LinearL R) (w : DMat R) (b : List R) (X : DMat R) : Py (DMat R) :=
  match F with
  | .objax =>
    if w.rows = L.nout ∧ w.cols = L.nin ∧ b.length = L.nout ∧ X.cols = w.cols then
      let A := DMat.unflat w.rows w.cols (L.Pw.sem.mulVec w.flat)
      .ok ((X.mul A.transpose).addRow (L.Pb.sem.mulVec b))
    else .error .value
  | .torch =>
    if w.rows = L.nout ∧ w.cols = L.nin ∧ b.length = L.nout ∧ X.cols = L.nin then
      let A := DMat.unflat L.nout L.nin (L.Pw.sem.mulVec w.flat)
      .ok ((X.mul A.transpose).addRow (L.Pb.sem.mulVec b))
    else .error .value
  | .flax =>
    if w.rows = L.nout ∧ w.cols = X.cols ∧ b.length = L.nout then
      if L.Pw.sem.cols = w.rows * w.cols then
        let A := DMat.unflat w.rows w.cols (L.Pw.sem.mulVec w.flat)
        .ok ((X.mul A.transpose).addRow (L.Pb.sem.mulVec b))
      else .error .type
    else .error .value
  | .haiku =>
    if w.rows = L.nout ∧ w.cols = L.nin ∧ b.length = L.nout then
      let A := DMat.unflat L.nout L.nin (L.Pw.sem.mulVec w.flat)
      if X.cols = A.cols then .ok ((X.mul A.transpose).addRow (L.Pb.sem.mulVec b)) else .error .type
    else .error .value

variable (W : World)

/-- `GatedNonlinearity(rep)(values)` on a batch: objax.py:85-88, pytorch.py:113-116, flax.py:71-74, haiku.py:71-74. -/
def gatedBatch (act : R → R) (rep : Rep) (values : DMat R) : Py (DMat R) := do
  let idx ← gateIndices W rep
  match idx with
  | .ints ids =>
    let scalars := values.pick (range values.rows) ids
    let vals := values.pick (range values.rows) (range (min (rep.size W) values.cols))
    if scalars.cols = vals.cols then
      .ok (DMat.of values.rows vals.cols fun b j => act (scalars.e b j) * vals.e b j)
    else .error .type
  | .floats => .error .type

/-- `EMLPBlock` on a batch: objax.py:99-102, pytorch.py:127-130, flax.py:92-95, haiku.py:87-90.  All front ends share
`BiLinear` (objax.py:61-65, pytorch.py:98-101, flax.py:56-60, haiku.py:54-58). -/
def FrontEnd.block (F : FrontEnd) (c : R) (act : R → R) (B : Block R) (p : BlockParams R) (X : DMat R) : Py (DMat R) := do
  let lin ← F.linear B.lin p.w p.b X
  let bi ← B.bil.apply W c p.bw lin
  gatedBatch W act B.rep (bi.add lin)

/-- The blocks in turn: the `Sequential` of objax.py:24-26, `torch.nn.Sequential`, flax.py:126-131, haiku.py:11-13. -/
def FrontEnd.blocks (F : FrontEnd) (c : R) (act : R → R) : List (Block R × BlockParams R) → DMat R → Py (DMat R)
  | [], X => .ok X
  | bp :: t, X => do
    let Y ← F.block W c act bp.1 bp.2 X
    F.blocks c act t Y

/-- Calling the network on a batch: objax.py:201-202, pytorch.py:164-165, flax.py:126-131, haiku.py:11-13. -/
def FrontEnd.apply (F : FrontEnd) (c : R) (act : R → R) (E : Emlp R) (ps : List (BlockParams R)) (w : DMat R) (b : List R)
    (X : DMat R) : Py (DMat R) := do
  let Y ← F.blocks W c act (E.blocks.zip ps) X
  F.linear E.last w b Y

end

/-! ### `torchify_fn` -/

/-- A leaf of a pytree. -/
inductive Leaf (α : Type)
  | jax (a : α)
  | numpy (a : α)
  | torch (a : α)
  | other (n : ℕ)
deriving DecidableEq

/-- `torch2jax(arr)`, pytorch.py:21-25. -/
def Leaf.toJax {α : Type} : Leaf α → Leaf α
  | .torch a => .jax a
  | l => l

/-- `jax2torch(arr)`, pytorch.py:27-34; the device is not modelled. -/
def Leaf.toTorch {α : Type} : Leaf α → Leaf α
  | .jax a => .torch a
  | .numpy a => .torch a
  | l => l

/-- `torchify_fn(function)`, pytorch.py:48-66: the forward pass and, for given output gradients, the backward pass.
`to_jax` and `to_pytorch` (36-45) map the leaves and keep the tree.  `vjp args` is what `jax.vjp(function,*args)` returns: the
value and the pullback.  `needs` is `any(ctx.needs_input_grad)`; without it `backward` is not called. -/
def torchify {α : Type} (f : List (Leaf α) → List (Leaf α))
    (vjp : List (Leaf α) → List (Leaf α) × (List (Leaf α) → List (Leaf α))) (needs : Bool) (args : List (Leaf α)) :
    List (Leaf α) × Option (List (Leaf α) → List (Leaf α)) :=
  if needs then
    let r := vjp (args.map Leaf.toJax)
    (r.1.map Leaf.toTorch, some fun gs => (r.2 (gs.map Leaf.toJax)).map Leaf.toTorch)
  else ((f (args.map Leaf.toJax)).map Leaf.toTorch, none)

end Verif
