import Verif.Model.Rep
import Mathlib.Analysis.SpecialFunctions.Trigonometric.Basic
import Mathlib.Analysis.SpecialFunctions.Pow.Real

/-!
# Animations

The data handed to the plotting library by `Animation`, `PendulumAnimation`, `CoupledPendulumAnimation` and
`HamiltonianDataset.animate` (experiments/trainer/hamiltonian_dynamics.py:143-156, 317-426).  Over the real numbers; a
number that is not finite (`nan`, `inf`) is `none`.  The plotting library itself (lines, colours, encoding of the video) is
not modelled.
-/
namespace Verif

open Real

/-- A floating point number; `none` is `nan` or `inf`. -/
abbrev Flt := Option ℝ

namespace Flt

def add (a b : Flt) : Flt := Option.map₂ (· + ·) a b

def sub (a b : Flt) : Flt := Option.map₂ (· - ·) a b

def mul (a b : Flt) : Flt := Option.map₂ (· * ·) a b

open Classical in
/-- `a/b`; a division by zero gives no finite number (and no exception). -/
noncomputable def div (a b : Flt) : Flt := a.bind fun x => b.bind fun y => if y = 0 then none else some (x / y)

end Flt

/-- A point or vector in space. -/
abbrev V3 := Fin 3 → ℝ

open Classical in
/-- `helix(Ns,radius,turns)`, hamiltonian_dynamics.py:385-392: `Ns` points; `np.linspace(0,1,Ns)` is `k/(Ns-1)` (`[0]` for
`Ns=1`). -/
noncomputable def helix (Ns : ℕ) (radius turns : ℝ) : List V3 :=
  (List.range Ns).map fun (k : ℕ) =>
    let t : ℝ := (k : ℝ) / (Ns - 1 : ℕ)
    let x := cos (2 * π * Ns * t * turns) * radius
    let y := sin (2 * π * Ns * t * turns) * radius
    if t > 9 / 10 ∨ t < 1 / 10 then ![0, 0, t] else ![x, y, t]

/-- The norm in `align2ref`, hamiltonian_dynamics.py:400. -/
noncomputable def refNorm (r : V3) : ℝ := sqrt (r 0 ^ 2 + r 1 ^ 2 + r 2 ^ 2)

/-- `v`, hamiltonian_dynamics.py:401. -/
noncomputable def refDir (r : V3) : Fin 3 → Flt := fun i => Flt.div (some (r i)) (some (refNorm r))

/-- `A`, hamiltonian_dynamics.py:402-404. -/
def alignA (v : Fin 3 → Flt) (i j : Fin 3) : Flt :=
  let a : Flt := if j = 2 then Flt.add (some 0) (v i) else some 0
  if i = 2 then Flt.sub a (v j) else a

/-- `M`, hamiltonian_dynamics.py:405. -/
noncomputable def alignM (v : Fin 3 → Flt) (i j : Fin 3) : Flt :=
  let A := alignA v
  let AA := Flt.add (Flt.add (Flt.mul (A i 0) (A 0 j)) (Flt.mul (A i 1) (A 1 j))) (Flt.mul (A i 2) (A 2 j))
  Flt.add (Flt.add (some (if i = j then 1 else 0)) (A i j)) (Flt.div AA (Flt.add (some 1) (v 2)))

/-- `align2ref(refs,vecs)`, hamiltonian_dynamics.py:394-409. -/
noncomputable def align2ref (refs vecs : List V3) : List (List (Fin 3 → Flt)) :=
  refs.map fun r => vecs.map fun x =>
    let M := alignM (refDir r)
    fun i => Flt.add (Flt.add (Flt.mul (M i 0) (some (x 0))) (Flt.mul (M i 1) (some (x 1)))) (Flt.mul (M i 2) (some (x 2 * refNorm r)))

/-- The points of the springs in a frame with the bobs at `qs`, `CoupledPendulumAnimation.update`, hamiltonian_dynamics.py:421-426;
`h` is the helix made by the constructor. -/
noncomputable def springPoints (h : List V3) (qs : List V3) : List (Fin 3 → Flt) :=
  let padded : List V3 := (fun _ => 0) :: qs
  let diffs := List.zipWith (fun b a => fun i => b i - a i) padded.tail padded.dropLast
  (List.zipWith (fun pts q => pts.map fun p => fun i => Flt.add (p i) (some (q i))) (align2ref diffs h) padded.dropLast).flatten

/-- What is drawn in a frame: per body the trail and the marker, and the springs. -/
structure Frame (d : ℕ) where
  trails : List (List (Fin d → ℝ))
  pts : List (List (Fin d → ℝ))
  springs : List (Fin 3 → Flt)

variable {T n d : ℕ}

/-- `Animation.update(i)`, hamiltonian_dynamics.py:353-366, with the slices `[max(i-150,0):i+1]` and `[-1:]`. -/
def animUpdate (q : Fin T → Fin n → Fin d → ℝ) (i : ℕ) : Frame d :=
  let xyz : Fin n → List (Fin d → ℝ) := fun j => ((List.ofFn fun t => q t j).take (i + 1)).drop (i - 150)
  ⟨List.ofFn xyz, List.ofFn fun j => (xyz j).drop ((xyz j).length - 1), []⟩

/-- `CoupledPendulumAnimation.update(i)`, hamiltonian_dynamics.py:421-426, with the springs of the constructor (200 points, ten
turns). -/
noncomputable def coupledUpdate (spring_r : ℝ) (q : Fin T → Fin n → V3) (i : ℕ) (hi : i < T) : Frame 3 :=
  { animUpdate q i with springs := springPoints (helix 200 spring_r 10) (List.ofFn (q ⟨i, hi⟩)) }

/-- The smallest of the numbers, `ValueError` if there are none (`ndarray.min`, `min`). -/
noncomputable def pyMin (l : List ℝ) : Py ℝ :=
  match l.min? with
  | some m => .ok m
  | none => .error .value

/-- The largest of the numbers. -/
noncomputable def pyMax (l : List ℝ) : Py ℝ :=
  match l.max? with
  | some m => .ok m
  | none => .error .value

/-- All values of a coordinate.  The code takes the minimum over time and then over the bodies; here over both at once. -/
def coordValues (q : Fin T → Fin n → Fin d → ℝ) (c : Fin d) : List ℝ :=
  (List.ofFn fun t => List.ofFn fun j => q t j c).flatten

/-- `Animation.__init__(qt,lims=None)`, hamiltonian_dynamics.py:318-344: the limits of every axis.  The ten colours are drawn
without replacement (339), a `ValueError` for more than ten bodies. -/
noncomputable def animInit (q : Fin T → Fin n → Fin d → ℝ) : Py (ℝ × ℝ) := do
  raiseIfA (!(d == 2 || d == 3)) .assertion
  let mins ← (List.finRange d).mapM fun c => pyMin (coordValues q c)
  let maxs ← (List.finRange d).mapM fun c => pyMax (coordValues q c)
  let lower := List.zipWith (fun a b => a - 1 / 10 * (b - a)) mins maxs
  let upper := List.zipWith (fun a b => b + 1 / 10 * (b - a)) mins maxs
  let lo ← pyMin lower
  let hi ← pyMax upper
  raiseIfA (decide (n > 10)) .value
  return (lo, hi)
where
  /-- `if b: raise e`. -/
  raiseIfA (b : Bool) (e : PyErr) : Py Unit := if b then .error e else .ok ()

/-- The positions handed to the animator by `HamiltonianDataset.animate(zt)` for one trajectory `zt`, hamiltonian_dynamics.py:153-154, with
`unpack` (29-34).  `reshape((T,-1,3))` raises `ValueError` if the number of positions is not divisible by three or there are no
frames. -/
def animPositions {D : ℕ} (z : Fin T → Fin D → ℝ) : Py (Σ n, Fin T → Fin n → V3) :=
  if D % 2 ≠ 0 then .error .assertion
  else if T = 0 ∨ D / 2 % 3 ≠ 0 then .error .value
  else .ok ⟨D / 2 / 3, fun t j c => z t ⟨3 * j.1 + c.1, by omega⟩⟩

end Verif
