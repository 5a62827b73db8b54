import Verif.Model.Rep

/-!
# CPython's `sorted` on short lists

`list.sort` of CPython (up to 3.12) on fewer than 64 elements: `count_run` finds the initial ascending or strictly
descending run, and `binarysort` inserts the remaining elements one by one.  (For longer lists CPython merges runs;
only the contract in `World` is then meaningful.)  Used for concrete example worlds; the theorems only assume
the contract `World.sorted_ord`.
-/
namespace Verif
variable {α : Type} (lt : α → α → Bool)

/-- The strictly descending run starting after `a`: its elements in order, and the rest. -/
def descRun (a : α) : List α → List α × List α
  | [] => ([], [])
  | b :: t => if lt b a then let r := descRun b t; (b :: r.1, r.2) else ([], b :: t)

/-- The ascending run starting after `a`. -/
def ascRun (a : α) : List α → List α × List α
  | [] => ([], [])
  | b :: t => if lt b a then ([], b :: t) else let r := ascRun b t; (b :: r.1, r.2)

/-- `count_run` followed by reversing a descending run: the sorted prefix and the rest. -/
def countRun : List α → List α × List α
  | [] => ([], [])
  | [a] => ([a], [])
  | a :: b :: t =>
    if lt b a then let r := descRun lt a (b :: t); ((a :: r.1).reverse, r.2)
    else let r := ascRun lt a (b :: t); (a :: r.1, r.2)

/-- The binary search of `binarysort` between positions `l` and `r` (first argument: fuel). -/
def binPos (x : α) (p : List α) : ℕ → ℕ → ℕ → ℕ
  | 0, l, _ => l
  | fuel + 1, l, r =>
    if l < r then
      let m := (l + r) / 2
      match p[m]? with
      | none => l
      | some y => if lt x y then binPos x p fuel l m else binPos x p fuel (m + 1) r
    else l

/-- Insertion of one element by `binarysort`. -/
def binInsert (p : List α) (x : α) : List α :=
  let i := binPos lt x p (p.length + 1) 0 p.length
  p.take i ++ x :: p.drop i

/-- `sorted(l)` with comparison `lt`. -/
def pySort (l : List α) : List α :=
  let r := countRun lt l
  r.2.foldl (binInsert lt) r.1

end Verif
