import Verif.Model.Canon
import Verif.Model.LinOp

/-!
# Representations

Models `emlp/reps/representation.py` (24-302) and `emlp/reps/product_sum_reps.py`: the objects
`Scalar`, `V(G)`, duals, `ProductRep`, `DirectProduct`, `SumRep`, the deferred sums and products, and the
operators `+`, `*`, `**`, `.T`, `>>`, `<<`, `rep(G)` on them, together with `rho` and `drho`.

Python exceptions are the values of `PyErr`.  The class hierarchy is stratified: the keys of a
`ProductRep` are atoms (`V(G)`, duals, user-defined reps), the keys of a `DirectProduct` are atoms or
`ProductRep`s, the keys of a `SumRep` are `Scalar`, atoms, `ProductRep`s or `DirectProduct`s.  These are
the only shapes the public operators build: `ProductRep.__init__` and `DirectProduct.__init__` are reached
only from `mul_reps` with operands that are not sums, and `SumRep.__init__` splices sums.
-/
namespace Verif

/-- Python exceptions, by class. -/
inductive PyErr
  | assertion | value | type | attribute | notImplemented | index | key | convergence | recursion | unbound | exception
deriving DecidableEq, Repr

/-- The result of running Python code. -/
abbrev Py := Except PyErr

/-- Group objects, up to `Group.__eq__` (groups.py:92-93). -/
abbrev Gid := ℕ

/-- `V(G)` and its dual.  Kind `0` is `Base` (representation.py:235-261); the other kinds stand for
user-defined subclasses of `Rep` with attribute `G` (representation.py:24-33).  `G = none` is a
representation not yet instantiated.  `dual k G` is `Dual(vec k G)`, representation.py:266-293. -/
inductive Atom
  | vec (k : ℕ) (G : Option Gid)
  | dual (k : ℕ) (G : Option Gid)
deriving DecidableEq, Repr

/-- The attribute `G`. -/
def Atom.G : Atom → Option Gid
  | .vec _ g => g
  | .dual _ g => g

/-- `ProductRep`, product_sum_reps.py:244-338: `reps` and `perm` (`invperm`, `canonical`, `G`,
`is_permutation` are functions of them). -/
structure PRep where
  c : Counter Atom
  perm : List ℕ
deriving DecidableEq, Repr

/-- `self.G= Gs[0]`, product_sum_reps.py:263. -/
def PRep.G (p : PRep) : Option Gid := p.c.head?.bind (·.1.G)

/-- Factors of a `DirectProduct`. -/
inductive Fac
  | atom (a : Atom)
  | prod (p : PRep)
deriving DecidableEq, Repr

/-- The attribute `G`. -/
def Fac.G : Fac → Option Gid
  | .atom a => a.G
  | .prod p => p.G

/-- `DirectProduct`, product_sum_reps.py:341-392. -/
structure DRep where
  c : Counter Fac
  perm : List ℕ
deriving DecidableEq, Repr

/-- Representations that can be keys of a `SumRep`. -/
inductive Key
  | scalar
  | fac (f : Fac)
  | dprod (d : DRep)
deriving DecidableEq, Repr

/-- `SumRep`, product_sum_reps.py:13-141. -/
structure SRep where
  c : Counter Key
  perm : List ℕ
deriving DecidableEq, Repr

/-- Representations: `DeferredSumRep` and `DeferredProductRep` (product_sum_reps.py:395-434) are lists
of representations. -/
inductive Rep
  | key (k : Key)
  | sum (s : SRep)
  | dsum (l : List Rep)
  | dprod (l : List Rep)

/-- Abbreviations. -/
abbrev Key.atom (a : Atom) : Key := .fac (.atom a)
abbrev Key.prod (p : PRep) : Key := .fac (.prod p)

/-- `sorted`'s contract applies to lists on which `<` is a strict total order. -/
structure StrictTotalOn {α : Type*} (lt : α → α → Bool) (l : List α) : Prop where
  irrefl : ∀ a ∈ l, lt a a = false
  trans : ∀ a ∈ l, ∀ b ∈ l, ∀ c ∈ l, lt a b = true → lt b c = true → lt a c = true
  total : ∀ a ∈ l, ∀ b ∈ l, a ≠ b → lt a b = true ∨ lt b a = true

/-- The environment: the groups, the values of Python's `hash`, the iteration order of sets, `sorted`, and
the mutable attribute `Scalar.G`. -/
structure World where
  /-- `G.d` -/
  d : Gid → ℕ
  /-- `G.is_orthogonal` -/
  orth : Gid → Bool
  /-- `G.is_permutation` -/
  isPerm : Gid → Bool
  /-- `hash(G)` -/
  ghash : Gid → ℤ
  /-- `rep(G).size()` for user-defined representations -/
  usize : ℕ → Gid → ℕ
  /-- `hash(rep)` -/
  hash : Key → ℤ
  /-- `Scalar.G` (representation.py:202-208) -/
  scalarG : Option Gid
  /-- iteration order of a Python `set` with the given elements -/
  setOrder : ∀ {α : Type} [DecidableEq α], List α → List α
  setOrder_perm : ∀ {α : Type} [DecidableEq α] (l : List α), (setOrder l).Perm l
  /-- Python's `sorted` for a given `__lt__` -/
  sorted : ∀ {α : Type}, (α → α → Bool) → List α → List α
  sorted_perm : ∀ {α : Type} (lt : α → α → Bool) (l : List α), (sorted lt l).Perm l
  sorted_ord : ∀ {α : Type} (lt : α → α → Bool) (l : List α), l.Nodup → StrictTotalOn lt l →
    (sorted lt l).Pairwise fun a b => lt a b = true

variable (W : World)

/-- `rep(G).size()`: `Base.size` (representation.py:248-250) or the user-defined size. -/
def World.asize (k : ℕ) (g : Gid) : ℕ := if k = 0 then W.d g else W.usize k g

/-- `size()` of an atom (`Base.size`, `Dual.size`, `Rep.size`; representation.py:63-70, 248-250, 292-293).
For an uninstantiated atom Python raises; the model gives `0` and every caller checks first. -/
def Atom.size : Atom → ℕ
  | .vec k (some g) => W.asize k g
  | .dual k (some g) => W.asize k g
  | _ => 0

/-- `ProductRep.size`, product_sum_reps.py:266-267. -/
def PRep.size (p : PRep) : ℕ := p.c.prodSize (Atom.size W)

/-- `size()` of a factor. -/
def Fac.size : Fac → ℕ
  | .atom a => a.size W
  | .prod p => p.size W

/-- `DirectProduct` inherits `ProductRep.size`. -/
def DRep.size (d : DRep) : ℕ := d.c.prodSize (Fac.size W)

/-- `size()` of a key. -/
def Key.size : Key → ℕ
  | .scalar => 1
  | .fac f => f.size W
  | .dprod d => d.size W

/-- `SumRep.size`, product_sum_reps.py:30-31. -/
def SRep.size (s : SRep) : ℕ := s.c.sumSize (Key.size W)

/-- The attribute `G` (`none`: no such attribute; a `DirectProduct` has none). -/
def Key.G? : Key → Option (Option Gid)
  | .scalar => some W.scalarG
  | .fac f => some f.G
  | .dprod _ => none

/-- `Rep.__lt__`, representation.py:165-175. The `try` block compares the groups by hash; comparing with
`None` or a missing attribute falls through to the sizes. -/
def Key.ltRep (a b : Key) : Bool :=
  if b = .scalar then false else
  let bySize : Bool :=
    if a.size W < b.size W then true
    else if b.size W < a.size W then false
    else decide (W.hash a < W.hash b)
  match a.G? W, b.G? W with
  | some (some g), some (some h) =>
    if W.ghash g < W.ghash h then true
    else if W.ghash h < W.ghash g then false
    else bySize
  | _, _ => bySize

/-- `__lt__` with the overrides `Base.__lt__` (representation.py:259-261) and `Dual.__lt__` (289-291). -/
def Key.lt (a b : Key) : Bool :=
  match a, b with
  | .fac (.atom (.vec 0 _)), .fac (.atom (.dual _ _)) => true
  | .fac (.atom (.dual k g)), _ => if b = .fac (.atom (.vec k g)) then false else Key.ltRep W a b
  | _, _ => Key.ltRep W a b

/-- `__lt__` on the keys of a `ProductRep`. -/
def Atom.lt (a b : Atom) : Bool := Key.lt W (.atom a) (.atom b)

/-- `__lt__` on the keys of a `DirectProduct`. -/
def Fac.lt (a b : Fac) : Bool := Key.lt W (.fac a) (.fac b)

/-- `self.canonical` of a `ProductRep` or `DirectProduct`: `(self.perm==self.invperm).all()`,
product_sum_reps.py:260 and 368. -/
def permCanonical (perm : List ℕ) : Bool := perm == argsort perm

/-- `self.canonical` of a `SumRep`, product_sum_reps.py:27 and 173. -/
def SRep.canonical (s : SRep) : Bool := s.perm == List.range s.perm.length

/-- Whether `hash(rep)` succeeds (it is called when a representation becomes a dict key):
`ProductRep.__hash__` asserts `canonical`, product_sum_reps.py:279-281. -/
def Fac.hashable : Fac → Bool
  | .atom _ => true
  | .prod p => permCanonical p.perm

/-- Whether `hash(rep)` succeeds. -/
def Key.hashable : Key → Bool
  | .scalar => true
  | .fac f => f.hashable
  | .dprod d => permCanonical d.perm

/-- `extra_perm[perm] if extra_perm is not None else perm`. -/
def withExtra (extra : Option (List ℕ)) (perm : List ℕ) : List ℕ :=
  match extra with
  | none => perm
  | some e => gather e perm

/-! ### `ProductRep` -/

/-- End of `ProductRep.__init__`, product_sum_reps.py:259-264: exactly one group. -/
def prodFinish (c : Counter Atom) (perm : List ℕ) : Py PRep :=
  match (c.keys.map Atom.G).dedup with
  | [_] => .ok ⟨c, perm⟩
  | _ => .error .assertion

/-- `ProductRep.compute_canonical` with `unique_reps` computed, product_sum_reps.py:303-338. -/
def prodCompute (cs : List (Counter Atom)) (perms : List (List ℕ)) : Counter Atom × List ℕ :=
  prodCanon (Atom.size W) (W.sorted (Atom.lt W) (unionKeys W.setOrder cs)) cs perms

/-- `ProductRep(counter=c)`, product_sum_reps.py:247-249 (`extra_perm` is never given with `counter`). -/
def mkProdC (c : Counter Atom) : Py PRep :=
  let r := prodCompute W [c] [List.range (c.prodSize (Atom.size W))]
  prodFinish r.1 r.2

/-- `canonicalize()` of atoms (`Rep.canonicalize`, representation.py:72-78) and `ProductRep`s
(product_sum_reps.py:298-301). -/
def Fac.canon : Fac → Py (Fac × List ℕ)
  | .atom a => if a.G.isSome then .ok (.atom a, List.range (a.size W)) else .error .assertion
  | .prod p => do
    let q ← mkProdC W p.c
    .ok (.prod q, p.perm)

/-- `rep.reps if type(rep)==ProductRep else {rep:1}`, product_sum_reps.py:253. -/
def Fac.counter : Fac → Counter Atom
  | .atom a => [(a, 1)]
  | .prod p => p.c

/-- `ProductRep(*reps,extra_perm=extra)`, product_sum_reps.py:245-264. -/
def mkProd (ops : List Fac) (extra : Option (List ℕ)) : Py PRep := do
  if ops.isEmpty then throw .value
  let cs ← ops.mapM (Fac.canon W)
  let r := prodCompute W (cs.map fun c => c.1.counter) (cs.map (·.2))
  prodFinish r.1 (withExtra extra r.2)

/-! ### `DirectProduct` -/

/-- `compute_canonical` of a `DirectProduct`. -/
def dprodCompute (cs : List (Counter Fac)) (perms : List (List ℕ)) : Counter Fac × List ℕ :=
  prodCanon (Fac.size W) (W.sorted (Fac.lt W) (unionKeys W.setOrder cs)) cs perms

/-- `assert all(count==1 for count in self.reps.values())`, product_sum_reps.py:372. -/
def dprodFinish (c : Counter Fac) (perm : List ℕ) : Py DRep :=
  if c.all fun kc => kc.2 == 1 then .ok ⟨c, perm⟩ else .error .assertion

/-- `DirectProduct(counter=c)`, product_sum_reps.py:349-352. -/
def mkDirectC (c : Counter Fac) : Py DRep :=
  let r := dprodCompute W [c] [List.range (c.prodSize (Fac.size W))]
  dprodFinish r.1 r.2

/-- `a*b` for two factors with the same group: `ProductRep(a,b)`, product_sum_reps.py:160-161. -/
def Fac.mul (a b : Fac) : Py Fac := do
  let p ← mkProd W [a, b] none
  .ok (.prod p)

/-- `rep**c` for `c ≥ 1`: `reduce(lambda a,b:a*b,c*[rep],Scalar)` with `Scalar*rep = rep`,
representation.py:154-158 and 225-227. -/
def Fac.pow (a : Fac) : ℕ → Py Fac
  | 0 => .error .type
  | 1 => .ok a
  | n + 2 => do
    let x ← Fac.pow a (n + 1)
    Fac.mul W x a

/-- `group_dict[rep.G]=group_dict[rep.G]*rep**c` with `defaultdict(lambda: 1)` (and `1*x = x`),
product_sum_reps.py:360-362; the dict is the association list of its items. -/
def groupInsert (g : Option Gid) (x : Fac) : List (Option Gid × Fac) → Py (List (Option Gid × Fac))
  | [] => .ok [(g, x)]
  | (h, y) :: t =>
    if h = g then do
      let z ← Fac.mul W y x
      .ok ((h, z) :: t)
    else do
      let t' ← groupInsert g x t
      .ok ((h, y) :: t')

/-- The loop over `reps.items()`, product_sum_reps.py:361-362. -/
def groupLoop : Counter Fac → List (Option Gid × Fac) → Py (List (Option Gid × Fac))
  | [], acc => .ok acc
  | (f, c) :: t, acc => do
    let x ← Fac.pow W f c
    let acc' ← groupInsert W f.G x acc
    groupLoop t acc'

/-- `canonicalize()` of a key; for `DirectProduct` inherited from product_sum_reps.py:298-301 with
`self.__class__(counter=self.reps)`. -/
def Key.canon : Key → Py (Key × List ℕ)
  | .scalar => .ok (.scalar, List.range 1)
  | .fac f => do
    let r ← Fac.canon W f
    .ok (.fac r.1, r.2)
  | .dprod d => do
    let e ← mkDirectC W d.c
    .ok (.dprod e, d.perm)

/-- `rep.reps if type(rep)==DirectProduct else {rep:1}`, product_sum_reps.py:356. (`Scalar` never
reaches a `DirectProduct`: `mul_reps` returns the other operand, product_sum_reps.py:156-157.) -/
def Key.dcounter : Key → Py (Counter Fac)
  | .scalar => .error .attribute
  | .fac f => if f.hashable then .ok [(f, 1)] else .error .assertion
  | .dprod d => .ok d.c

/-- `DirectProduct(*reps,extra_perm=extra)`, product_sum_reps.py:353-372. The factors
obtained for distinct groups are distinct, so the dict comprehension `sub_products` (363) keeps them all. -/
def mkDirect (ops : List Key) (extra : Option (List ℕ)) : Py DRep := do
  if ops.isEmpty then throw .value
  let cs ← ops.mapM (Key.canon W)
  let counters ← cs.mapM fun c => c.1.dcounter
  let r := dprodCompute W counters (cs.map (·.2))
  let gd ← groupLoop W r.1 []
  if gd.all fun gf => gf.2.hashable then
    let sub : Counter Fac := gd.map fun gf => (gf.2, 1)
    let r2 := dprodCompute W [sub] [List.range (sub.prodSize (Fac.size W))]
    dprodFinish r2.1 (withExtra extra (gather r.2 r2.2))
  else throw .assertion

/-- `mul_reps` for two instantiated representations that are not sums, product_sum_reps.py:154-162, and
`ScalarRep.__mul__`, representation.py:225-227. -/
def Key.mul (a b : Key) : Py Key :=
  match a, b with
  | .scalar, b => .ok b
  | a, .scalar => .ok a
  | .fac f, .fac g =>
    if f.G = g.G then do
      let p ← mkProd W [f, g] none
      .ok (.fac (.prod p))
    else do
      let d ← mkDirect W [.fac f, .fac g] none
      .ok (.dprod d)
  | a, b => do
    let d ← mkDirect W [a, b] none
    .ok (.dprod d)

/-! ### `SumRep` -/

/-- `SumRep.compute_canonical` with `unique_reps` computed, product_sum_reps.py:108-129. -/
def sumCompute (cs : List (Counter Key)) (perms : List (List ℕ)) : Counter Key × List ℕ :=
  sumCanon (Key.size W) (W.sorted (Key.lt W) (unionKeys W.setOrder cs)) cs perms

/-- `SumRepFromCollection(c,perm)`, product_sum_reps.py:167-174. -/
def mkSumC (c : Counter Key) (perm : Option (List ℕ)) : SRep :=
  let r := sumCompute W [c] [perm.getD (List.range (c.sumSize (Key.size W)))]
  ⟨r.1, r.2⟩

/-- `canonicalize()`: `Rep.canonicalize`, `SumRep.canonicalize` (product_sum_reps.py:63-66). The
deferred representations have no size: `Rep.size` raises `NotImplementedError`. -/
def Rep.canon : Rep → Py (Rep × List ℕ)
  | .key k => do
    let r ← Key.canon W k
    .ok (.key r.1, r.2)
  | .sum s => .ok (.sum (mkSumC W s.c none), s.perm)
  | _ => .error .notImplemented

/-- `rep.reps if isinstance(rep,SumRep) else {rep:1}`, product_sum_reps.py:21. -/
def Rep.counter : Rep → Py (Counter Key)
  | .key k => if k.hashable then .ok [(k, 1)] else .error .assertion
  | .sum s => .ok s.c
  | _ => .error .notImplemented

/-- `SumRep(*reps,extra_perm=extra)`, product_sum_reps.py:14-28 (integer operands are
covered by `SumRep(Scalar,...,Scalar)`). -/
def mkSum (ops : List Rep) (extra : Option (List ℕ)) : Py SRep := do
  if ops.isEmpty then throw .value
  let cs ← ops.mapM (Rep.canon W)
  let counters ← cs.mapM fun c => c.1.counter
  let r := sumCompute W counters (cs.map (·.2))
  .ok ⟨r.1, withExtra extra r.2⟩

/-- `concrete`: `Rep.concrete` (representation.py:124-126) and its overrides. -/
def Key.concrete : Key → Bool
  | .fac (.atom a) => a.G.isSome
  | _ => true

/-- `concrete`. -/
def Rep.concrete : Rep → Bool
  | .key k => k.concrete
  | .sum _ => true
  | _ => false

/-- Python values that arithmetic on representations can produce. -/
inductive Val
  | int (z : ℤ)
  | rep (r : Rep)

/-- `DeferredSumRep(*reps)`, product_sum_reps.py:396-400. -/
def mkDeferredSum (l : List Rep) : Rep :=
  .dsum (l.flatMap fun r => match r with | .dsum l' => l' | r => [r])

/-- `isinstance(rep,ProductRep)` (`DirectProduct` is a subclass). -/
def Rep.isProduct : Rep → Bool
  | .key (.fac (.prod _)) => true
  | .key (.dprod _) => true
  | _ => false

/-- `DeferredProductRep(*reps)`, product_sum_reps.py:417-421. -/
def mkDeferredProd (l : List Rep) : Py Rep :=
  if l.any Rep.isProduct then .error .assertion
  else .ok (.dprod (l.flatMap fun r => match r with | .dprod l' => l' | r => [r]))

/-- `n*rep` and `rep*n`: `mul_reps` with an integer, representation.py:186-197. -/
def Rep.mulInt (r : Rep) (n : ℤ) : Py Val :=
  if n = 1 then .ok (.rep r)
  else if n = 0 then .ok (.int 0)
  else if r.concrete then do
    let s ← mkSum W (List.replicate n.toNat r) none
    .ok (.rep (.sum s))
  else .ok (.rep (mkDeferredSum (List.replicate n.toNat r)))

/-- `reduce(lambda a,b: a*b,rs)` over keys. -/
def Key.mulList : List Key → Py Key
  | [] => .error .type
  | k :: ks => ks.foldlM (Key.mul W) k

/-- One term of the expanded product:
`(product(cs)*reduce(lambda a,b: a*b,rs)).canonicalize()`, product_sum_reps.py:207-209. -/
def distTerm (prod : List (Key × ℕ)) : Py (Rep × List ℕ) := do
  let r ← Key.mulList W (prod.map (·.1))
  let v ← Rep.mulInt W (.key r) ((prod.map (·.2)).prod : ℕ)
  match v with
  | .rep R => Rep.canon W R
  | .int _ => .error .attribute

/-- `reps = [rep if isinstance(rep,SumRep) else SumRepFromCollection({rep:1}) for rep in reps]`,
product_sum_reps.py:183. -/
def Rep.asSum : Rep → Py SRep
  | .sum s => .ok s
  | .key k => if k.hashable then .ok (mkSumC W [(k, 1)] none) else .error .assertion
  | _ => .error .notImplemented

/-- `distribute_product(reps)`, product_sum_reps.py:178-225 (`extra_perm` is never passed). -/
def distribute (ops : List Rep) : Py SRep := do
  let cs ← ops.mapM (Rep.canon W)
  let sums ← cs.mapM fun c => Rep.asSum W c.1
  let terms ← (cart (sums.map SRep.c)).mapM (distTerm W)
  let items := sums.map fun s => s.c.map fun kc => (kc.2, kc.1.size W)
  let total := distPerm (cs.map (·.2)) items (terms.map (·.2))
  mkSum W (terms.map (·.1)) (some total)

/-- `a*b`: `Rep.__mul__`, `ScalarRep.__mul__` and the dispatch of `mul_reps`
(representation.py:147-152, 225-230, product_sum_reps.py:148-162). -/
def Rep.mul (a b : Rep) : Py Rep :=
  match a, b with
  | .key .scalar, b => .ok b
  | .sum s, b =>
    if b.concrete then do
      let r ← distribute W [.sum s, b]
      .ok (.sum r)
    else mkDeferredProd [.sum s, b]
  | a, .sum s =>
    if a.concrete then do
      let r ← distribute W [a, .sum s]
      .ok (.sum r)
    else mkDeferredProd [a, .sum s]
  | a, .key .scalar => .ok a
  | .key k, .key l =>
    if k.concrete && l.concrete then do
      let r ← Key.mul W k l
      .ok (.key r)
    else mkDeferredProd [.key k, .key l]
  | a, b => mkDeferredProd [a, b]

/-- `a+b` for representations: `Rep.__add__`, representation.py:131-139. -/
def Rep.add (a b : Rep) : Py Rep :=
  if a.concrete && b.concrete then do
    let s ← mkSum W [a, b] none
    .ok (.sum s)
  else .ok (mkDeferredSum [a, b])

/-- `rep+n` and `n+rep` for an integer: representation.py:133-135 and 141-145. -/
def Rep.addInt (a : Rep) (n : ℤ) (left : Bool) : Py Rep :=
  if n = 0 then .ok a
  else do
    let v ← Rep.mulInt W (.key .scalar) n
    match v with
    | .rep s => if left then Rep.add W s a else Rep.add W a s
    | .int _ => .ok a

/-- `rep**n`: `reduce(lambda a,b:a*b,n*[rep],Scalar)`, representation.py:154-158. -/
def Rep.pow (a : Rep) (n : ℕ) : Py Rep :=
  (List.replicate n a).foldlM (Rep.mul W) (.key .scalar)

/-! ### Duals -/

/-- `.T` of an atom: `Rep.T` (representation.py:179-183) and `Dual.T` (282-284). -/
def Atom.T : Atom → Atom
  | .vec k (some g) => if W.orth g then .vec k (some g) else .dual k (some g)
  | .vec k none => .dual k none
  | .dual k g => .vec k g

/-- `.T` of a factor; `ProductRep.T`, product_sum_reps.py:289-292. -/
def Fac.T : Fac → Py Fac
  | .atom a => .ok (.atom (a.T W))
  | .prod p => do
    let q ← mkProd W (p.c.expand.map fun a => .atom (a.T W)) (some p.perm)
    .ok (.prod q)

/-- `.T` of a key; `ScalarRep.T` (representation.py:214-216), `DirectProduct` inherits `ProductRep.T` with
its own class. -/
def Key.T : Key → Py Key
  | .scalar => .ok .scalar
  | .fac f => do
    let g ← Fac.T W f
    .ok (.fac g)
  | .dprod d => do
    let fs ← d.c.expand.mapM (Fac.T W)
    let e ← mkDirect W (fs.map .fac) (some d.perm)
    .ok (.dprod e)

/-- `SumRep.T`, product_sum_reps.py:50-53. -/
def SRep.T (s : SRep) : Py SRep := do
  let ks ← s.c.expand.mapM (Key.T W)
  mkSum W (ks.map .key) (some s.perm)

mutual
/-- `.T`; for the deferred representations product_sum_reps.py:409-411 and 429-431. -/
def Rep.T : Rep → Py Rep
  | .key k => do
    let l ← Key.T W k
    .ok (.key l)
  | .sum s => do
    let t ← SRep.T W s
    .ok (.sum t)
  | .dsum l => do
    let l' ← Rep.TList l
    .ok (mkDeferredSum l')
  | .dprod l => do
    let l' ← Rep.TList l
    mkDeferredProd l'
/-- `[rep.T for rep in l]`. -/
def Rep.TList : List Rep → Py (List Rep)
  | [] => .ok []
  | r :: rs => do
    let r' ← Rep.T r
    let rs' ← Rep.TList rs
    .ok (r' :: rs')
end

/-- `a >> b = b*a.T`, representation.py:159-161. -/
def Rep.rshift (a b : Rep) : Py Rep := do
  let t ← Rep.T W a
  Rep.mul W b t

/-- `a << b = a*b.T`, representation.py:162-164. -/
def Rep.lshift (a b : Rep) : Py Rep := do
  let t ← Rep.T W b
  Rep.mul W a t

/-! ### `rho` and `drho` -/

/-- What the argument `M` of `rho(M)` (a group element, or a dict of group elements by group) yields on
the atoms: `vec k G` is the matrix of `rep.rho(M)` and `dual k G` that of `Dual(rep).rho(M)`, i.e. the
transposed inverse computed at representation.py:273-276. -/
structure Interp (R : Type) [Zero R] where
  vec : ℕ → Option Gid → LinOp R
  dual : ℕ → Option Gid → LinOp R

section rho
variable {R : Type} [CommRing R] (I : Interp R)

/-- `rho(M)` of an atom, representation.py:242-244 and 273-276. -/
def Atom.rho : Atom → LinOp R
  | .vec k g => I.vec k g
  | .dual k g => I.dual k g

/-- `LazyPerm(self.invperm)@X@LazyPerm(self.perm)`. -/
def conjPerm (perm : List ℕ) (X : LinOp R) : LinOp R :=
  .mul (.mul (.perm (argsort perm)) X) (.perm perm)

/-- `ProductRep.rho`, product_sum_reps.py:269-272. -/
def PRep.rho (p : PRep) : LinOp R := conjPerm p.perm (.kron (p.c.expand.map (Atom.rho I)))

/-- `rho(M)` of a factor. -/
def Fac.rho : Fac → LinOp R
  | .atom a => a.rho I
  | .prod p => p.rho I

/-- `DirectProduct.rho`, product_sum_reps.py:382-384. -/
def DRep.rho (d : DRep) : LinOp R := conjPerm d.perm (.kron (d.c.expand.map (Fac.rho I)))

/-- `rho(M)` of a key; `ScalarRep.rho`, representation.py:217-218. -/
def Key.rho : Key → LinOp R
  | .scalar => .lazy (DMat.one 1)
  | .fac f => f.rho I
  | .dprod d => d.rho I

/-- `SumRep.rho`, product_sum_reps.py:33-36. -/
def SRep.rho (s : SRep) : LinOp R :=
  conjPerm s.perm (.dsum (s.c.map fun kc => (kc.1.rho I, kc.2)))

/-- `rep.rho(M)`; the deferred representations inherit `Rep.rho`, which raises. -/
def Rep.rho : Rep → Py (LinOp R)
  | .key k => .ok (k.rho I)
  | .sum s => .ok (s.rho I)
  | _ => .error .notImplemented

end rho

end Verif
