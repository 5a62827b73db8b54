import Verif.Model.Np

/-!
# Canonical orderings of sums and products

Models the index bookkeeping of `emlp/reps/product_sum_reps.py`:
`SumRep.compute_canonical` (108-129), `ProductRep.compute_canonical` (303-338),
`rep_permutation` (228-242) and the permutation part of `distribute_product` (178-225).
Everything is generic in the type `K` of dictionary keys (representations) and in
`size : K → ℕ` (`rep.size()`).  A Python dict `{rep: count}` ("counter") is the association
list of its items in insertion order.
-/
namespace Verif

variable {K : Type*} [DecidableEq K]

/-- A Python dict from representations to multiplicities, in insertion order. -/
abbrev Counter (K : Type*) := List (K × ℕ)

/-- `cnter.keys()`. -/
def Counter.keys (c : Counter K) : List K := c.map (·.1)

/-- `cnter.get(rep,0)`. -/
def Counter.get (c : Counter K) (k : K) : ℕ := (c.lookup k).getD 0

/-- `[rep for rep,c in reps.items() for _ in range(c)]`. -/
def Counter.expand (c : Counter K) : List K := c.flatMap fun kc => List.replicate kc.2 kc.1

/-- `sum(rep.size()*count for rep,count in self.reps.items())`,
`SumRep.size`, product_sum_reps.py:30-31. -/
def Counter.sumSize (size : K → ℕ) (c : Counter K) : ℕ := (c.map fun kc => size kc.1 * kc.2).sum

/-- `product([rep.size()**count for rep,count in self.reps.items()])`,
`ProductRep.size`, product_sum_reps.py:266-267. -/
def Counter.prodSize (size : K → ℕ) (c : Counter K) : ℕ := (c.map fun kc => size kc.1 ^ kc.2).prod

/-- `reduce(lambda a,b: a|b,[cnter.keys() for cnter in rep_cnters])`.  For one counter this is the
dict's key view (insertion order); for several it is a Python `set`, whose iteration order is
arbitrary: the parameter `setOrder`.  product_sum_reps.py:114 and 310. -/
def unionKeys (setOrder : List K → List K) : List (Counter K) → List K
  | [c] => c.keys
  | cs => setOrder (cs.flatMap Counter.keys).dedup

/-- `shifted_perms`: `shifted_perms.append(n+perm); n+=len(perm)`, product_sum_reps.py:118-122. -/
def shiftPerms : ℕ → List (List ℕ) → List (List ℕ)
  | _, [] => []
  | n, p :: ps => p.map (n + ·) :: shiftPerms (n + p.length) ps

/-- The inner loop `for i in range(len(ids))` of `SumRep.compute_canonical`
(product_sum_reps.py:124-128) for one `rep`: the pieces appended to `permlist`, the new `ids` and
the sum of the counts. -/
def sumInner (size : K → ℕ) (rep : K) :
    List (Counter K) → List (List ℕ) → List ℕ → List (List ℕ) × List ℕ × ℕ
  | c :: cs, sp :: sps, id :: ids =>
    let n := c.get rep
    let (pieces, ids', tot) := sumInner size rep cs sps ids
    ((sp.drop id).take (n * size rep) :: pieces, (id + n * size rep) :: ids', n + tot)
  | _, _, _ => ([], [], 0)

/-- The loop `for rep in unique_reps` of `SumRep.compute_canonical`,
product_sum_reps.py:123-128. -/
def sumOuter (size : K → ℕ) (cs : List (Counter K)) (sps : List (List ℕ)) :
    List K → List ℕ → Counter K × List (List ℕ)
  | [], _ => ([], [])
  | rep :: reps, ids =>
    let (pieces, ids', tot) := sumInner size rep cs sps ids
    let (cnt, rest) := sumOuter size cs sps reps ids'
    ((rep, tot) :: cnt, pieces ++ rest)

/-- `SumRep.compute_canonical(rep_cnters,rep_perms)`, product_sum_reps.py:109-129, with
`unique_reps` (the sorted union of the keys) passed in. -/
def sumCanon (size : K → ℕ) (uniq : List K) (cs : List (Counter K)) (perms : List (List ℕ)) :
    Counter K × List ℕ :=
  let r := sumOuter size cs (shiftPerms 0 perms) uniq (cs.map fun _ => 0)
  (r.1, r.2.flatten)

/-- `for i,perm in enumerate(rep_perms): order = np.moveaxis(np.moveaxis(order,i,0)[perm,...],0,i)`,
product_sum_reps.py:315-316. -/
def takeAxes : ℕ → List (List ℕ) → NdArr ℕ → NdArr ℕ
  | _, [], a => a
  | i, p :: ps, a => takeAxes (i + 1) ps (((a.moveaxis i 0).takeFirst p).moveaxis 0 i)

/-- `axis_idsi`: `for rep,c in cnter.items(): axis_idsi[rep] = n+np.arange(c); n+= c`,
product_sum_reps.py:322-325. -/
def axisIds1 : ℕ → Counter K → List (K × List ℕ)
  | _, [] => []
  | n, (k, c) :: t => (k, (List.range c).map (n + ·)) :: axisIds1 (n + c) t

/-- Number of axes of a counter. -/
def Counter.total (c : Counter K) : ℕ := (c.map (·.2)).sum

/-- `axis_ids`, product_sum_reps.py:319-326. -/
def axisIds : ℕ → List (Counter K) → List (List (K × List ℕ))
  | _, [] => []
  | n, c :: cs => axisIds1 n c :: axisIds (n + c.total) cs

/-- `axes_perm` and `merged_cnt`, product_sum_reps.py:327-334. -/
def prodMerge (cs : List (Counter K)) (ids : List (List (K × List ℕ))) : List K → Counter K × List ℕ
  | [] => ([], [])
  | rep :: reps =>
    let here := (cs.zip ids).flatMap fun ci =>
      if ci.1.get rep ≠ 0 then ((ci.2.lookup rep).getD []) else []
    let tot := (cs.map fun c => c.get rep).sum
    let (cnt, rest) := prodMerge cs ids reps
    (if tot ≠ 0 then (rep, tot) :: cnt else cnt, here ++ rest)

/-- `ProductRep.compute_canonical(rep_cnters,rep_perms)`, product_sum_reps.py:304-338, with
`unique_reps` passed in. -/
def prodCanon (size : K → ℕ) (uniq : List K) (cs : List (Counter K)) (perms : List (List ℕ)) :
    Counter K × List ℕ :=
  let lens := perms.map List.length
  let order := takeAxes 0 perms ((NdArr.arange lens.prod).reshape lens)
  let (cnt, axes) := prodMerge cs (axisIds 0 cs) uniq
  let order := order.reshape (cs.flatMap fun c => c.expand.map size)
  (cnt, (order.transpose axes).data)

/-! ### `rep_permutation` and `distribute_product` -/

/-- `itertools.product(*ls)`. -/
def cart {α : Type*} : List (List α) → List (List α)
  | [] => [[]]
  | l :: ls => l.flatMap fun a => (cart ls).map (a :: ·)

/-- `np.cumsum([0]+sizes)`, product_sum_reps.py:231. -/
def cumsum0 (sizes : List ℕ) : List ℕ := sizes.scanl (· + ·) 0

/-- The positions `slice(cumsum[idx], cumsum[idx+1])`, product_sum_reps.py:237. -/
def sliceRange (cum : List ℕ) (idx : ℕ) : List ℕ :=
  (List.range (cum.getD (idx + 1) 0 - cum.getD idx 0)).map (cum.getD idx 0 + ·)

/-- Row-major flat positions selected by a tuple of slices in an array of shape `shape`. -/
def slicePos (shape : List ℕ) (rs : List (List ℕ)) : List ℕ := (cart rs).map (ravel shape)

/-- `a.flat[pos] += vals`, entry by entry. -/
def addAt (a pos vals : List ℕ) : List ℕ :=
  (pos.zip vals).foldl (fun a pv => a.modify pv.1 (· + pv.2)) a

/-- The loop `for indices in indices_iter` of `rep_permutation`, product_sum_reps.py:236-241;
state: the flattened array `permutation` and the counter `i`. -/
def repPermLoop (shape : List ℕ) (cums : List (List ℕ)) : List (List ℕ) → List ℕ × ℕ → List ℕ
  | [], st => st.1
  | ix :: rest, st =>
    let slices := List.zipWith sliceRange cums ix
    let chunk := (slices.map List.length).prod
    repPermLoop shape cums rest
      (addAt st.1 (slicePos shape slices) ((List.range chunk).map (st.2 + ·)), st.2 + chunk)

/-- `rep_permutation(repsizes_all)`, product_sum_reps.py:228-242 (`lru_cache` omitted: the function
is pure). -/
def repPermutation (sizes : List (List ℕ)) : List ℕ :=
  let cums := sizes.map cumsum0
  let shape := cums.map fun c => c.getLastD 0
  argsort (repPermLoop shape cums (cart (sizes.map fun s => List.range s.length))
    (List.replicate shape.prod 0, 0))

/-- `for i,perm in enumerate(perms): order = np.swapaxes(np.swapaxes(order,0,i)[perm,...],0,i)`,
product_sum_reps.py:189-190. -/
def takeAxesSwap : ℕ → List (List ℕ) → NdArr ℕ → NdArr ℕ
  | _, [], a => a
  | i, p :: ps, a => takeAxesSwap (i + 1) ps (((a.swapaxes 0 i).takeFirst p).swapaxes 0 i)

/-- `mul_perm` for one term of the expanded product, given the pairs `(count, size)` of its factors,
product_sum_reps.py:212-216 (`n = len(canonicalizing_perm)`). -/
def mulPerm (prod : List (ℕ × ℕ)) (n : ℕ) : List ℕ :=
  let shape := prod.flatMap fun cs => [cs.1, cs.2]
  let axes := (List.range prod.length).map (2 * ·) ++ (List.range prod.length).map (2 * · + 1)
  (((NdArr.arange n).reshape shape).transpose axes).data

/-- `each_perm`, product_sum_reps.py:204-219: the terms are given by the pairs `(count, size)` of
their factors and their `canonicalizing_perm`; `i` is the running offset. -/
def eachPerm : ℕ → List (List (ℕ × ℕ) × List ℕ) → List ℕ
  | _, [] => []
  | i, (prod, cp) :: rest =>
    (gather (mulPerm prod cp.length) cp).map (i + ·) ++ eachPerm (i + cp.length) rest

/-- `total_perm` of `distribute_product`, product_sum_reps.py:186-222: `perms` are the operands'
orderings, `items` their items as pairs `(count, size)`, `cps` the `canonicalizing_perm` of each term
in `itertools.product` order. -/
def distPerm (perms : List (List ℕ)) (items : List (List (ℕ × ℕ))) (cps : List (List ℕ)) : List ℕ :=
  let lens := perms.map List.length
  let order := (takeAxesSwap 0 perms ((NdArr.arange lens.prod).reshape lens)).data
  let block := repPermutation (items.map fun it => it.map fun cs => cs.1 * cs.2)
  gather order (gather block (eachPerm 0 ((cart items).zip cps)))

end Verif
