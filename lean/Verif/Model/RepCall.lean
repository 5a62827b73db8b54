import Verif.Model.Rep

/-!
# Instantiating representations, integer powers, `T(p,q,G)`, `as_dict`

`rep(G)` may change the attribute `Scalar.G` of the one `Scalar` object, so `call` takes and returns its value.
-/
namespace Verif

/-- `rep**n`, representation.py:154-158: the two assertions (an argument that is not an `int` fails the
first; here the exponent is an integer), then the product. -/
def Rep.powZ (W : World) (a : Rep) (n : ℤ) : Py Rep :=
  if 0 ≤ n then Rep.pow W a n.toNat else .error .assertion

/-- The environment after the assignment `Scalar.G = G`. -/
def World.setG (W : World) (G : Option Gid) : World := { W with scalarG := G }

/-- `rep(G)` of an atom: `Base.__call__` (representation.py:240-241), `Dual.__call__` (271-272); user-defined
representations are assumed to construct their own class on `G`. -/
def Atom.call (W : World) (G : Option Gid) : Atom → Atom
  | .vec k _ => .vec k G
  | .dual k _ => (Atom.vec k G).T W

/-- `rep(G)` of a key, given and returning the attribute `Scalar.G`: `ScalarRep.__call__` (representation.py:206-208)
assigns it; `ProductRep` and `DirectProduct` inherit `Rep.__call__`, which raises (45-47). -/
def Key.call (W : World) (G sg : Option Gid) : Key → Py (Key × Option Gid)
  | .scalar => .ok (.scalar, G)
  | .fac (.atom a) => .ok (.atom (a.call W G), sg)
  | .fac (.prod _) => .error .notImplemented
  | .dprod _ => .error .notImplemented

/-- `d[k]=n` -/
def dictSet {K : Type} [DecidableEq K] (k : K) (n : ℕ) : Counter K → Counter K
  | [] => [(k, n)]
  | (k', n') :: t => if k' = k then (k, n) :: t else (k', n') :: dictSet k n t

/-- `{rep(G):c for rep,c in self.reps.items()}`, product_sum_reps.py:69. -/
def callItems (W : World) (G : Option Gid) : Option Gid → Counter Key → Counter Key → Py (Counter Key × Option Gid)
  | sg, acc, [] => .ok (acc, sg)
  | sg, acc, (k, c) :: t => do
    let r ← Key.call W G sg k
    callItems W G r.2 (dictSet r.1 c acc) t

/-- `reduce(lambda a,b:a*b,reps)`, product_sum_reps.py:424. -/
def Rep.mulList (W : World) : List Rep → Py Rep
  | [] => .error .type
  | r :: rs => rs.foldlM (Rep.mul W) r

mutual
/-- `rep(G)`, given and returning the attribute `Scalar.G`: `SumRep.__call__` (product_sum_reps.py:68-69),
`DeferredSumRep.__call__` (402-404), `DeferredProductRep.__call__` (422-424). -/
def Rep.call (W : World) (G : Option Gid) : Option Gid → Rep → Py (Rep × Option Gid)
  | sg, .key k => do
    let r ← Key.call W G sg k
    .ok (.key r.1, r.2)
  | sg, .sum s => do
    let r ← callItems W G sg [] s.c
    .ok (.sum (mkSumC (W.setG r.2) r.1 (some s.perm)), r.2)
  | sg, .dsum l =>
    match G with
    | none => .ok (.dsum l, sg)
    | some _ => do
      let r ← Rep.callList W G sg l
      let s ← mkSum (W.setG r.2) r.1 none
      .ok (.sum s, r.2)
  | sg, .dprod l =>
    match G with
    | none => .ok (.dprod l, sg)
    | some _ => do
      let r ← Rep.callList W G sg l
      let p ← Rep.mulList (W.setG r.2) r.1
      .ok (p, r.2)
/-- `[rep(G) for rep in l]` -/
def Rep.callList (W : World) (G : Option Gid) : Option Gid → List Rep → Py (List Rep × Option Gid)
  | sg, [] => .ok ([], sg)
  | sg, r :: rs => do
    let x ← Rep.call W G sg r
    let xs ← Rep.callList W G x.2 rs
    .ok (x.1 :: xs.1, xs.2)
end

/-- `V`, not yet instantiated (representation.py:295). -/
def Rep.V : Rep := .key (.atom (.vec 0 none))

/-- `T(p,q,G) = (V**p*V.T**q)(G)`, representation.py:299-302. -/
def tensorT (W : World) (p q : ℤ) (G : Option Gid) : Py (Rep × Option Gid) := do
  let x ← Rep.powZ W Rep.V p
  let t ← Rep.T W Rep.V
  let y ← Rep.powZ W t q
  let z ← Rep.mul W x y
  Rep.call W G W.scalarG z

/-- The rows of an array of shape `(c,n)`. -/
def rowsOf {α : Type} (n : ℕ) : ℕ → List α → List (List α)
  | 0, _ => []
  | c + 1, l => l.take n :: rowsOf n c (l.drop n)

/-- `v[ids]`: NumPy indexing of a one-dimensional array by an integer array. -/
def sel {α : Type} [Zero α] (v : List α) (ids : List ℕ) : List α := ids.map fun j => v.getD j 0

/-- The loop of `as_dict`, product_sum_reps.py:136-141; `v` one-dimensional (leading axes are carried along
unchanged by `v[...,ids]` and `reshape`). -/
def asDictLoop {α : Type} [Zero α] (size : Key → ℕ) (perm : List ℕ) (v : List α) : ℕ → Counter Key → List (Key × List (List α))
  | _, [] => []
  | i, (k, c) :: t =>
    let chunk := c * size k
    (k, rowsOf (size k) c (sel v ((perm.drop i).take chunk))) :: asDictLoop size perm v (i + chunk) t

/-- `SumRep.as_dict(v)`, product_sum_reps.py:134-141. -/
def SRep.asDict {α : Type} [Zero α] (W : World) (s : SRep) (v : List α) : List (Key × List (List α)) :=
  asDictLoop (Key.size W) s.perm v 0 s.c

end Verif
