import Verif.Model.Solver
import Verif.Model.UniformRep
import Verif.Spec.Flat
import Verif.Spec.RepWF

/-!
# Equivariant layers and networks

`Linear`, `BiLinear`, `gated`, `GatedNonlinearity`, `EMLPBlock`, `EMLP` and `gate_indices` of `emlp/nn/objax.py`, and
`bilinear_weights` of `emlp/reps/representation.py`.  Trainable parameters are arguments of the `apply` functions, so that a
statement about a layer covers every value of its parameters.  Floating point rounding is not modelled.
-/
namespace Verif
open List

/-! ### `is_permutation` -/

/-- `is_permutation` of an atom: `Base.__init__` (representation.py:237-239) copies the flag of the group, the
class attribute is `False` (34), `Dual` copies that of its representation (270).  A user-defined class that sets the
attribute itself is not modelled. -/
def Atom.isPerm (W : World) : Atom → Bool
  | .vec 0 (some g) => W.isPerm g
  | .dual 0 (some g) => W.isPerm g
  | _ => false

/-- `ProductRep.is_permutation`, product_sum_reps.py:264. -/
def PRep.isPerm (W : World) (p : PRep) : Bool := p.c.keys.all (Atom.isPerm W)

/-- `is_permutation` of a factor. -/
def Fac.isPerm (W : World) : Fac → Bool
  | .atom a => a.isPerm W
  | .prod p => p.isPerm W

/-- `is_permutation` of a key; `ScalarRep` (representation.py:205), `DirectProduct` (product_sum_reps.py:371). -/
def Key.isPerm (W : World) : Key → Bool
  | .scalar => true
  | .fac f => f.isPerm W
  | .dprod d => d.c.keys.all (Fac.isPerm W)

/-- `rep!=Scalar and not rep.is_permutation`, objax.py:73 and 345: the summands that get a gate. -/
def Key.needsGate (W : World) (k : Key) : Bool := k != .scalar && !k.isPerm W

/-! ### `gated` -/

/-- `[Scalar(rep.G) for rep in ...]`: the comprehension, returning the new value of `Scalar.G`; a `DirectProduct` has no
attribute `G`. -/
def gateScalars (W : World) : Option Gid → List Key → Py (List Val × Option Gid)
  | sg, [] => .ok ([], sg)
  | sg, k :: t =>
    match k.G? (W.setG sg) with
    | none => .error .attribute
    | some g => do
      let r ← gateScalars W g t
      .ok (.rep (.key .scalar) :: r.1, r.2)

/-- `gated(ch_rep)`, objax.py:67-75. -/
def gated (W : World) : Rep → RepM Rep
  | .sum s => fun sg => do
    let l ← gateScalars W sg (s.c.expand.filter (Key.needsGate W))
    let t ← pySum (W.setG l.2) l.1
    let v ← Val.add (W.setG l.2) (.rep (.sum s)) t
    match v with
    | .rep r => .ok (r, l.2)
    | .int _ => .error .type
  | .key k => fun sg =>
    if k.isPerm W then .ok (.key k, sg)
    else
      match k.G? (W.setG sg) with
      | none => .error .attribute
      | some g => do
        let r ← Rep.add (W.setG g) (.key k) (.key .scalar)
        .ok (r, g)
  | _ => fun _ => .error .attribute

/-! ### `gate_indices` -/

/-- `indices[ids] = v` -/
def setAt (l : List ℕ) (ids : List ℕ) (v : ℕ) : List ℕ := ids.foldl (fun l i => l.set i v) l

/-- The loop of `gate_indices`, objax.py:343-348. -/
def gateLoop (W : World) (channels : ℕ) (perm : List ℕ) : ℕ → ℕ → List Key → List ℕ → List ℕ
  | _, _, [], indices => indices
  | i, num, k :: t, indices =>
    if k.needsGate W then
      gateLoop W channels perm (i + k.size W) (num + 1) t (setAt indices ((perm.drop i).take (k.size W)) (channels + num))
    else gateLoop W channels perm (i + k.size W) num t indices

/-- The array `gate_indices` returns: integers, or (objax.py:340) floating point numbers. -/
inductive GateIdx
  | ints (l : List ℕ)
  | floats
deriving DecidableEq

/-- `gate_indices(ch_rep)`, objax.py:330-349.  The decorator `cache` hashes the argument, which asserts that it is canonical
(product_sum_reps.py:46-48 and 279-281); only sums and products have an attribute `perm` (337). -/
def gateIndices (W : World) : Rep → Py GateIdx
  | .sum s =>
    if s.canonical then
      .ok (.ints (gateLoop W (s.size W) s.perm 0 0 s.c.expand (range (s.size W))))
    else .error .assertion
  | .key (.fac (.prod p)) =>
    if permCanonical p.perm then .ok (if p.isPerm W then .ints (range (p.size W)) else .floats) else .error .assertion
  | .key (.dprod d) =>
    if permCanonical d.perm then
      .ok (if (Key.dprod d).isPerm W then .ints (range (d.size W)) else .floats)
    else .error .assertion
  | .key _ => .error .attribute
  | _ => .error .notImplemented

/-! ### State -/

/-- The process state that building layers reads and changes: the solution cache, `Scalar.G` and the number of random
draws so far. -/
structure NetSt (R : Type) [CommRing R] where
  solve : SolveSt R
  sg : Option Gid
  draws : ℕ

/-- Code that builds layers.  The state after an exception is not modelled here (see `SolveM` for the cache). -/
abbrev NetM (R : Type) [CommRing R] := StateT (NetSt R) Py

section net
variable {R : Type} [CommRing R]

/-- Code that reads and may change `Scalar.G`. -/
def NetM.rep {α : Type} (m : RepM α) : NetM R α := fun σ => do
  let r ← m σ.sg
  .ok (r.1, { σ with sg := r.2 })

/-- Code that uses the solution cache. -/
def NetM.solver {α : Type} (W : World) (m : World → SolveM R α) : NetM R α := fun σ =>
  match m (W.setG σ.sg) σ.solve with
  | (.ok a, s) => .ok (a, { σ with solve := s })
  | (.error e, _) => .error e

/-- One use of the random number generator. -/
def NetM.draw : NetM R ℕ := fun σ => .ok (σ.draws, { σ with draws := σ.draws + 1 })

/-! ### `Linear` -/

/-- A `Linear` layer: its shape and the two projectors. -/
structure LinearL (R : Type) [CommRing R] where
  nin : ℕ
  nout : ℕ
  Pw : LinOp R
  Pb : LinOp R

variable (W : World) (gens : Gid → GenSet R) (solve : ℕ → LinOp R → Py (DMat R))

/-- `Linear(repin,repout)`, objax.py:31-42 (also pytorch.py:70-79, flax.py:33-43); the weight representation is
`repout*repin.T`. -/
def LinearL.init (repin repout : Rep) : NetM R (LinearL R) := do
  let repW ← NetM.rep (RepM.lift W fun W => Rep.rshift W repin repout)
  let Pw ← NetM.solver W fun W => repW.equivariantProjector W gens solve
  let Pb ← NetM.solver W fun W => repout.equivariantProjector W gens solve
  pure ⟨repin.size W, repout.size W, Pw, Pb⟩

/-- `layer(x)`, objax.py:43-48, for one vector `x` (`x@W.T+b` treats the rows of a batch independently).  The parameters have
the shapes they are created with (33-34); a shape mismatch raises. -/
def LinearL.apply (L : LinearL R) (w : DMat R) (b x : List R) : Py (List R) :=
  if w.rows = L.nout ∧ w.cols = L.nin ∧ b.length = L.nout ∧ x.length = L.nin then
    let Wm := DMat.unflat w.rows w.cols (L.Pw.sem.mulVec w.flat)
    .ok (zipWith (· + ·) (Wm.mulVec x) (L.Pb.sem.mulVec b))
  else .error .value

/-! ### `bilinear_weights` and `BiLinear` -/

/-- What the closure of `bilinear_weights` captures. -/
structure BilinearL where
  nout : ℕ
  nin : ℕ
  Wc : Counter Key
  xc : Counter Key
  ids : List (Key × List ℕ)
  invPerm : List ℕ
  dims : ℕ

/-- `bilinear_weights(out_rep,in_rep)`, representation.py:417-432.  `choose rep` is the outcome of
`np.random.choice(len(ids),nelems(len(ids),rep))`.  Input representations that are not sums have no attribute `reps` or
`as_dict`. -/
def bilinearWeights (choose : Key → List ℕ) (outRep inRep : Rep) : Py BilinearL := do
  let r ← Rep.rshift W inRep outRep
  let c ← Rep.canon W r
  match c.1, inRep with
  | .sum w, .sum x =>
    let xc := x.c.filter fun kc => kc.1 != .scalar
    .ok {
      nout := outRep.size W
      nin := inRep.size W
      Wc := w.c
      xc := xc
      ids := (x.asDict W (range (x.size W))).map fun e => (e.1, (choose e.1).flatMap fun i => e.2.getD i [])
      invPerm := argsort c.2
      dims := (xc.map fun kc => Counter.get w.c kc.1 * min kc.2 (kc.1.size W)).sum }
  | _, _ => .error .attribute

/-- Row `i` of a matrix. -/
def DMat.row (A : DMat R) (i : ℕ) : List R := (range A.cols).map (A.e i)

/-- `jnp.concatenate([A,B],axis=-1)` -/
def DMat.hcat2 (A B : DMat R) : DMat R :=
  DMat.of A.rows (A.cols + B.cols) fun i j => if j < A.cols then A.e i j else B.e i (j - A.cols)

/-- `jnp.concatenate(Ms,axis=-1)` for matrices with `bs` rows. -/
def DMat.hcat (bs : ℕ) (Ms : List (DMat R)) : DMat R := Ms.foldr DMat.hcat2 (DMat.zero bs 0)

/-- The loop of `lazy_projection`, representation.py:440-452: `X` is the batch `x.reshape(-1,x.shape[-1])`, `i` the position
in the parameter vector. -/
def BilinearL.blocks (L : BilinearL) (params : List R) (X : DMat R) : ℕ → Counter Key → Py (List (DMat R))
  | _, [] => .ok []
  | i, (k, m) :: t =>
    match L.xc.lookup k with
    | none => do
      let rest ← L.blocks params X i t
      .ok (DMat.zero X.rows (m * k.size W) :: rest)
    | some xm =>
      let n := min xm (k.size W)
      let p := (params.drop i).take (m * n)
      let bids := (L.ids.lookup k).getD []
      if p.length = m * n ∧ bids.length = n * k.size W then do
        let elems := (DMat.unflat m n p).mul
          (DMat.unflat n (k.size W * X.rows) (X.pick (range X.rows) bids).transpose.flat)
        let rest ← L.blocks params X (i + m * n) t
        .ok ((DMat.unflat (m * k.size W) X.rows elems.flat).transpose :: rest)
      else .error .type

/-- `lazy_projection(params,x)`, representation.py:434-454: one matrix for each row of the batch. -/
def BilinearL.project (L : BilinearL) (params : List R) (X : DMat R) : Py (List (DMat R)) := do
  let Ws ← L.blocks W params X 0 L.Wc
  let A := (DMat.hcat X.rows Ws).pick (range X.rows) L.invPerm
  if A.cols = L.nout * L.nin then .ok ((range X.rows).map fun b => DMat.unflat L.nout L.nin (A.row b)) else .error .type

/-- `BiLinear.__call__` on a batch, objax.py:61-65; `c` is the constant `.1`. -/
def BilinearL.apply (c : R) (L : BilinearL) (params : List R) (X : DMat R) : Py (DMat R) :=
  if X.cols = L.nin then do
    let Ws ← L.project W params X
    .ok (DMat.of X.rows L.nout fun b i => c * ((Ws.getD b (DMat.zero 0 0)).mulVec (X.row b)).getD i 0)
  else .error .type

/-- `BiLinear.__call__` on one vector: `x.reshape(-1,x.shape[-1])` is a batch of one row. -/
def BilinearL.applyVec (c : R) (L : BilinearL) (params x : List R) : Py (List R) := do
  let Y ← L.apply W c params (DMat.of 1 x.length fun _ j => x.getD j 0)
  .ok (Y.row 0)

/-! ### `GatedNonlinearity`, `EMLPBlock`, `EMLP` -/

/-- `GatedNonlinearity(rep)(values)`, objax.py:85-88, for one vector; `act` is the sigmoid.  Indexing by an array of floating
point numbers raises. -/
def gatedNonlinearity (act : R → R) (rep : Rep) (values : List R) : Py (List R) := do
  let idx ← gateIndices W rep
  match idx with
  | .ints ids => .ok (zipWith (fun g v => act g * v) (sel values ids) (values.take (rep.size W)))
  | .floats => .error .type

/-- The outcomes of the random number generator: `choose i rep m c` is that of `np.random.choice(m,c)` for the summand `rep`,
`binomial i rank c` that of `np.random.binomial(rank,.5,c)`, after `i` earlier uses. -/
structure Rng where
  choose : ℕ → Key → ℕ → ℕ → List ℕ
  binomial : ℕ → ℕ → ℕ → List ℕ

/-- The choices that `bilinear_weights(_,in_rep)` makes, representation.py:427-430: `len(ids)` is the multiplicity of the
summand. -/
def Rng.picks (W : World) (rng : Rng) (i : ℕ) : Rep → Key → List ℕ
  | .sum x, k => rng.choose i k (Counter.get x.c k) (min (Counter.get x.c k) (k.size W))
  | _, _ => []

/-- `EMLPBlock` -/
structure Block (R : Type) [CommRing R] where
  lin : LinearL R
  bil : BilinearL
  rep : Rep

variable (rng : Rng)

/-- `BiLinear(repin,repout)`, objax.py:54-59. -/
def BilinearL.init (repin repout : Rep) : NetM R BilinearL := do
  let n ← NetM.draw
  NetM.rep (RepM.lift W fun W => bilinearWeights W (rng.picks W n repin) repout repin)

/-- `EMLPBlock(rep_in,rep_out)`, objax.py:94-98. -/
def Block.init (repIn repOut : Rep) : NetM R (Block R) := do
  let g1 ← NetM.rep (gated W repOut)
  let lin ← LinearL.init W gens solve repIn g1
  let g2 ← NetM.rep (gated W repOut)
  let g3 ← NetM.rep (gated W repOut)
  let bil ← BilinearL.init W rng g2 g3
  pure ⟨lin, bil, repOut⟩

/-- The trainable parameters of a block. -/
structure BlockParams (R : Type) [CommRing R] where
  w : DMat R
  b : List R
  bw : List R

/-- `EMLPBlock.__call__`, objax.py:99-102. -/
def Block.apply (c : R) (act : R → R) (B : Block R) (p : BlockParams R) (x : List R) : Py (List R) := do
  let lin ← B.lin.apply p.w p.b x
  let bi ← B.bil.applyVec W c p.bw lin
  gatedNonlinearity W act B.rep (zipWith (· + ·) bi lin)

/-- An `EMLP` network: the input and output representation, the hidden representations, the blocks, the last layer. -/
structure Emlp (R : Type) [CommRing R] where
  repIn : Rep
  repOut : Rep
  hidden : List Rep
  blocks : List (Block R)
  last : LinearL R

/-- `Sequential(*[EMLPBlock(rin,rout) for rin,rout in zip(reps,reps[1:])],Linear(reps[-1],self.rep_out))`, objax.py:194-200. -/
def Emlp.build (repIn : Rep) (middle : List Rep) (repOut : Rep) : NetM R (Emlp R) := do
  let blocks ← ((repIn :: middle).zip middle).mapM fun p => Block.init W gens solve rng p.1 p.2
  let last ← LinearL.init W gens solve ((repIn :: middle).getLastD repIn) repOut
  pure ⟨repIn, repOut, middle, blocks, last⟩

/-- An element of the argument `ch`: a number of channels or a representation. -/
inductive ChItem
  | int (n : ℤ)
  | rep (r : Rep)

/-- The argument `ch`: one item for all layers, or a list. -/
inductive Ch
  | one (c : ChItem)
  | list (l : List ChItem)

/-- `c(group) if isinstance(c,Rep) else uniform_rep(c,group)`, objax.py:190. -/
def ChItem.parse (fuel : ℕ) (g : Gid) : ChItem → NetM R Rep
  | .int n => do
    let t ← NetM.draw
    NetM.rep (uniformRep W (rng.binomial t) fuel n g)
  | .rep r => NetM.rep fun sg => Rep.call (W.setG sg) (some g) sg r

/-- `EMLP(rep_in,rep_out,group,ch,num_layers)`, objax.py:181-200 (pytorch.py:146-165 is the same). -/
def Emlp.init (fuel : ℕ) (repIn repOut : Rep) (g : Gid) (ch : Ch) (numLayers : ℕ) : NetM R (Emlp R) := do
  let rin ← NetM.rep fun sg => Rep.call (W.setG sg) (some g) sg repIn
  let rout ← NetM.rep fun sg => Rep.call (W.setG sg) (some g) sg repOut
  let middle ← match ch with
    | .one c => do
      let r ← ChItem.parse W rng fuel g c
      pure (replicate numLayers r)
    | .list l => l.mapM (ChItem.parse W rng fuel g)
  Emlp.build W gens solve rng rin middle rout

/-- The blocks in turn. -/
def applyBlocks (c : R) (act : R → R) : List (Block R × BlockParams R) → List R → Py (List R)
  | [], x => .ok x
  | bp :: t, x => do
    let y ← bp.1.apply W c act bp.2 x
    applyBlocks c act t y

/-- `EMLP.__call__`, objax.py:201-202. -/
def Emlp.apply (c : R) (act : R → R) (E : Emlp R) (ps : List (BlockParams R)) (w : DMat R) (b x : List R) : Py (List R) := do
  let y ← applyBlocks W c act (E.blocks.zip ps) x
  E.last.apply w b y

end net
end Verif
