import Verif.Spec.Expr

/-!
# Degree of a representation (specification)
-/
namespace Verif

/-- All summands of the representation are products of the same number of factors `V`, where a factor `V.T` counts as minus one: `e` has degree `d`. -/
inductive Expr.Deg : Expr → ℤ → Prop
  | scalar : Deg .scalar 0
  | vec : Deg (.rep 0) 1
  | add {a b : Expr} {d : ℤ} : Deg a d → Deg b d → Deg (.add a b) d
  | mul {a b : Expr} {d d' : ℤ} : Deg a d → Deg b d' → Deg (.mul a b) (d + d')
  | dual {a : Expr} {d : ℤ} : Deg a d → Deg (.dual a) (-d)
  | nsmul {a : Expr} {d : ℤ} (n : ℕ) : Deg a d → Deg (.nsmul n a) d
  | addNat {a : Expr} (n : ℕ) : Deg a 0 → Deg (.addNat a n) 0
  | natAdd {a : Expr} (n : ℕ) : Deg a 0 → Deg (.natAdd n a) 0
  | pow {a : Expr} {d : ℤ} (n : ℕ) : Deg a d → Deg (.pow a n) (n * d)
  | rshift {a b : Expr} {d d' : ℤ} : Deg a d → Deg b d' → Deg (.rshift a b) (d' - d)
  | lshift {a b : Expr} {d d' : ℤ} : Deg a d → Deg b d' → Deg (.lshift a b) (d - d')

end Verif
