import Mathlib.Analysis.SpecialFunctions.Pow.Real
import Verif.Model.Rep

/-!
# `Standardize` and the statistics of the datasets

objax.py:230-252 and pytorch.py:197-220, for one input vector (broadcasting over the rows of a batch is that of NumPy).
-/
namespace Verif
open List

/-- An entry of `ds_stats`: a number or an array. -/
inductive Stat
  | num (r : ℝ)
  | arr (l : List ℝ)

/-- `x-s`, `x/s`, `s*x`, `x+s` with the broadcasting of NumPy. -/
noncomputable def Stat.op (f : ℝ → ℝ → ℝ) (x : List ℝ) : Stat → Py (List ℝ)
  | .num r => .ok (x.map (f · r))
  | .arr l =>
    if l.length = x.length then .ok (zipWith f x l)
    else if l.length = 1 then .ok (x.map (f · (l.getD 0 0)))
    else if x.length = 1 then .ok (l.map (f (x.getD 0 0) ·))
    else .error .value

/-- A wrapped model: whether its call accepts the keyword argument `training`, and the call. -/
structure Callee where
  training : Bool
  call : List ℝ → Py (List ℝ)

/-- The networks of the library. -/
inductive NetClass
  | objaxEMLP | objaxMLP | groupAugmentation | objaxEMLPode | objaxMLPode | objaxEMLPH | objaxMLPH | torchEMLP | torchMLP
deriving DecidableEq

/-- Whether the call signature has a parameter `training`: objax.py:201, 225, datasets.py:114; not objax.py:272, 297, 317, 328,
pytorch.py:164, 189. -/
def NetClass.takesTraining : NetClass → Bool
  | .objaxEMLP | .objaxMLP | .groupAugmentation => true
  | _ => false

/-- `self.model(v,training=training)` -/
def Callee.apply (m : Callee) (v : List ℝ) : Py (List ℝ) := if m.training then m.call v else .error .type

/-- `Standardize(model,ds_stats)(x,training)`, objax.py:244-252, pytorch.py:211-220.  Division by zero (`inf` or `nan` in the
code) is `0` here: the theorems assume that it does not happen. -/
noncomputable def standardize (m : Callee) (stats : List Stat) (x : List ℝ) : Py (List ℝ) :=
  match stats with
  | [muin, sin] => do
    let u ← muin.op (· - ·) x
    let v ← sin.op (· / ·) u
    m.apply v
  | [muin, sin, muout, sout] => do
    let u ← muin.op (· - ·) x
    let v ← sin.op (· / ·) u
    let y ← m.apply v
    let z ← sout.op (· * ·) y
    muout.op (· + ·) z
  | _ => .error .value

/-- `(s[:,None]+np.zeros((k,d))).reshape(-1)`, datasets.py:66 and 94: `d` copies of each of `k` numbers. -/
def blockScale (k d : ℕ) (s : ℕ → ℝ) : List ℝ := (range k).flatMap fun i => replicate d (s i)

/-- `a.mean()` -/
noncomputable def lmean (l : List ℝ) : ℝ := l.sum / l.length

/-- `a.std()` -/
noncomputable def lstd (l : List ℝ) : ℝ := Real.sqrt (lmean (l.map fun y => (y - lmean l) ^ 2))

/-- The scale of the `i`-th vector in `O5Synthetic`, datasets.py:66: `np.sqrt((self.X.reshape(N,2,d)**2).mean((0,2)))`. -/
noncomputable def o5Scale (X : List (List ℝ)) (i : ℕ) : ℝ :=
  Real.sqrt (lmean (X.flatMap fun x => (range 5).map fun j => x.getD (i * 5 + j) 0 ^ 2))

/-- `O5Synthetic.stats`, datasets.py:67. -/
noncomputable def o5Stats (X : List (List ℝ)) (Y : List ℝ) : List Stat :=
  [.num 0, .arr (blockScale 2 5 (o5Scale X)), .arr [lmean Y], .arr [lstd Y]]

/-- The scale of the `i`-th momentum in `ParticleInteraction`, datasets.py:93:
`np.sqrt((np.abs((self.X.reshape(N,4,4)@𝜂)*self.X.reshape(N,4,4)).mean(-1)).mean(0))`. -/
noncomputable def particleScale (X : List (List ℝ)) (i : ℕ) : ℝ :=
  Real.sqrt (lmean (X.map fun x => lmean ((range 4).map fun j =>
    |(x.getD (i * 4 + j) 0 * if j = 0 then 1 else -1) * x.getD (i * 4 + j) 0|)))

/-- `ParticleInteraction.stats`, datasets.py:95. -/
noncomputable def particleStats (X : List (List ℝ)) (Y : List ℝ) : List Stat :=
  [.num 0, .arr (blockScale 4 4 (particleScale X)), .arr [lmean Y], .arr [lstd Y]]

/-- `Inertia.stats`, datasets.py:39, and `DoubleSpringPendulum.stats`, hamiltonian_dynamics.py:174. -/
noncomputable def plainStats : List Stat := [.num 0, .num 1, .num 0, .num 1]

end Verif
