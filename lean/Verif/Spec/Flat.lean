import Verif.Spec.Dense

namespace Verif
namespace DMat
variable {R : Type} [Zero R]

/-- Row-major flattening of a matrix, as `W.reshape(-1)`. -/
def flat (M : DMat R) : List R := (List.range M.rows).flatMap fun i => (List.range M.cols).map fun j => M.e i j

/-- `l.reshape(m,n)`, row-major. -/
def unflat (m n : ℕ) (l : List R) : DMat R := of m n fun i j => l.getD (i * n + j) 0

end DMat
end Verif
