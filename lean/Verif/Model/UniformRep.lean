import Verif.Model.RepCall
import Mathlib.Data.Nat.Choose.Basic

/-!
# Allocating channels to tensor types

`uniform_rep`, `lambertW` and `binomial_allocation` of `emlp/nn/objax.py` (112-155; `pytorch.py` and `flax.py` import
them).  The random draws are a parameter.  A `while` loop is run for at most `fuel` rounds; `none` means that
it has not finished by then.
-/
namespace Verif

/-- `a+b` for Python values: representation.py:131-145 for representations, addition for integers. -/
def Val.add (W : World) : Val → Val → Py Val
  | .int a, .int b => .ok (.int (a + b))
  | .int a, .rep r => do
    let x ← Rep.addInt W r a true
    .ok (.rep x)
  | .rep r, .int b => do
    let x ← Rep.addInt W r b false
    .ok (.rep x)
  | .rep a, .rep b => do
    let x ← Rep.add W a b
    .ok (.rep x)

/-- The builtin `sum(l)`, which starts from the integer `0`. -/
def pySum (W : World) (l : List Val) : Py Val := l.foldlM (Val.add W) (.int 0)

/-- The `while` loop of `lambertW`, objax.py:138-139. -/
def lambertLoop (ch : ℤ) (d : ℕ) : ℕ → ℕ → Option ℕ
  | 0, _ => none
  | fuel + 1, r => if ((r + 1) * d ^ r : ℕ) ≤ ch then lambertLoop ch d fuel (r + 1) else some r

/-- `lambertW(ch,d)`, objax.py:135-141. -/
def lambertW (fuel : ℕ) (ch : ℤ) (d : ℕ) : Option ℤ := (lambertLoop ch d fuel 0).map fun r => (r : ℤ) - 1

/-- `Ns[:len(l)] += l`; NumPy raises if `l` is longer than `Ns`. -/
def addPrefix : List ℕ → List ℕ → Py (List ℕ)
  | Ns, [] => .ok Ns
  | [], _ :: _ => .error .value
  | n :: Ns, a :: l => do
    let t ← addPrefix Ns l
    .ok ((n + a) :: t)

/-- The `while` loop of `uniform_rep`, objax.py:126-129: the number of tensors of each rank. -/
def uniformLoop (d : ℕ) : ℕ → ℤ → List ℕ → Option (Py (List ℕ))
  | 0, _, _ => none
  | fuel + 1, ch, Ns =>
    if 0 < ch then
      match lambertW (fuel + 1) ch d with
      | none => none
      | some r =>
        let n := (r + 1).toNat
        match addPrefix Ns ((List.range n).map fun i => d ^ (n - 1 - i)) with
        | .error e => some (.error e)
        | .ok Ns' => uniformLoop d fuel (ch - (r + 1) * (d : ℤ) ^ (n - 1)) Ns'
    else some (.ok Ns)

/-- Code that reads and may change the attribute `Scalar.G`. -/
abbrev RepM := StateT (Option Gid) Py

/-- Run on the current environment. -/
def RepM.lift {α : Type} (W : World) (f : World → Py α) : RepM α := fun sg => do
  let a ← f (W.setG sg)
  .ok (a, sg)

/-- `T(p,q,G)`, which changes `Scalar.G` if `p=q=0`. -/
def RepM.tensor (W : World) (p q : ℕ) (g : Gid) : RepM Rep := fun sg => tensorT (W.setG sg) p q (some g)

/-- `binomial_allocation(N,rank,G)`, objax.py:143-155.  `draw rank n` is the outcome of
`np.random.binomial(rank,.5,n)`.  `int(binom(rank,k))` is the exact binomial coefficient (scipy computes it in floating
point). -/
def binomialAllocation (W : World) (draw : ℕ → ℕ → List ℕ) (N rank : ℕ) (g : Gid) : RepM Val :=
  if N = 0 then pure (.int 0)
  else do
    let nBinoms := N / 2 ^ rank
    let nLeftover := N % 2 ^ rank
    let terms ← (List.range (rank + 1)).mapM fun k => do
      let t ← RepM.tensor W k (rank - k) g
      RepM.lift W fun W => Rep.mulInt W t ((nBinoms * rank.choose k : ℕ) : ℤ)
    let evenSplit ← RepM.lift W fun W => pySum W terms
    let rag ← (draw rank nLeftover).mapM fun p => RepM.tensor W p (rank - p) g
    let ragged ← RepM.lift W fun W => pySum W (rag.map .rep)
    RepM.lift W fun W => Val.add W evenSplit ragged

/-- `uniform_rep(ch,group)`, objax.py:112-133.  `.exception` stands for a loop that has not finished within `fuel` rounds. -/
def uniformRep (W : World) (draw : ℕ → ℕ → List ℕ) (fuel : ℕ) (ch : ℤ) (g : Gid) : RepM Rep := do
  let d := W.d g
  match lambertW fuel ch d with
  | none => throw .exception
  | some r =>
    match uniformLoop d fuel ch (List.replicate (r + 1).toNat 0) with
    | none => throw .exception
    | some (.error e) => throw e
    | some (.ok Ns) =>
      let terms ← Ns.zipIdx.mapM fun nr => binomialAllocation W draw nr.1 nr.2 g
      let s ← RepM.lift W fun W => pySum W terms
      match s with
      | .int _ => throw .attribute
      | .rep s => do
        let c ← RepM.lift W fun W => Rep.canon W s
        pure c.1

end Verif
