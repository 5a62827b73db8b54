import Verif.Lemmas.ApproxWord
import Verif.Lemmas.ExprSem

/-!
# The meaning of an expression at the exponential of a Lie algebra element
-/
namespace Verif
open List NormedSpace

variable {𝕜 : Type} [RCLike 𝕜] {W : World} {g : Gid}

section
variable {D E : Interp 𝕜}

theorem Expr.isExp (h : Interp.Exp W D E) : ∀ e : Expr, IsExp (e.dim W g) (e.dden g D).1 (e.den g E).1 ∧ IsExp (e.dim W g) (e.dden g D).2 (e.den g E).2
  | .scalar => ⟨IsExp.zero 1, IsExp.zero 1⟩
  | .rep k => ⟨h.vec k g, h.dual k g⟩
  | .add a b => by
    simp only [Expr.dim, Expr.den, Expr.dden, DMat.bdiag, DMat.bdiag2_zero]
    exact ⟨(a.isExp h).1.bdiag2 (b.isExp h).1, (a.isExp h).2.bdiag2 (b.isExp h).2⟩
  | .mul a b => ⟨(a.isExp h).1.kron (b.isExp h).1, (a.isExp h).2.kron (b.isExp h).2⟩
  | .dual a => ⟨(a.isExp h).2, (a.isExp h).1⟩
  | .nsmul n a => by
    have h1 := IsExp.bdiag (replicate n ()) (fun _ => (a.dden g D).1) (fun _ => (a.den g E).1) (fun _ => a.dim W g) fun _ _ => (a.isExp h).1
    have h2 := IsExp.bdiag (replicate n ()) (fun _ => (a.dden g D).2) (fun _ => (a.den g E).2) (fun _ => a.dim W g) fun _ _ => (a.isExp h).2
    simpa [Expr.dim, Expr.den, Expr.dden] using And.intro h1 h2
  | .addNat a n => by
    simp only [Expr.dim, Expr.den, Expr.dden, DMat.bdiag, DMat.bdiag2_zero]
    exact ⟨(a.isExp h).1.bdiag2 (IsExp.zero n), (a.isExp h).2.bdiag2 (IsExp.zero n)⟩
  | .natAdd n a => by
    simp only [Expr.dim, Expr.den, Expr.dden, DMat.bdiag, DMat.bdiag2_zero, Nat.add_comm _ n]
    exact ⟨(IsExp.zero n).bdiag2 (a.isExp h).1, (IsExp.zero n).bdiag2 (a.isExp h).2⟩
  | .pow a n => by
    have h1 := IsExp.kronL (replicate n ()) (fun _ => (a.dden g D).1) (fun _ => (a.den g E).1) (fun _ => a.dim W g) fun _ _ => (a.isExp h).1
    have h2 := IsExp.kronL (replicate n ()) (fun _ => (a.dden g D).2) (fun _ => (a.den g E).2) (fun _ => a.dim W g) fun _ _ => (a.isExp h).2
    simpa [Expr.dim, Expr.den, Expr.dden] using And.intro h1 h2
  | .rshift a b => ⟨(b.isExp h).1.kron (a.isExp h).2, (b.isExp h).2.kron (a.isExp h).1⟩
  | .lshift a b => ⟨(a.isExp h).1.kron (b.isExp h).2, (a.isExp h).2.kron (b.isExp h).1⟩

end

section
variable {I J K : Interp 𝕜} {c d : 𝕜}

theorem Expr.dden_sq (hI : I.Sized W) : ∀ e : Expr, (e.dden g I).1.IsSq (e.dim W g) ∧ (e.dden g I).2.IsSq (e.dim W g)
  | .scalar => ⟨⟨rfl, rfl⟩, ⟨rfl, rfl⟩⟩
  | .rep k => ⟨hI.vec k g, hI.dual k g⟩
  | .add a b => by
    simp only [Expr.dim, Expr.dden, DMat.bdiag, DMat.bdiag2_zero]
    obtain ⟨⟨h1, h2⟩, h3, h4⟩ := a.dden_sq hI
    obtain ⟨⟨k1, k2⟩, k3, k4⟩ := b.dden_sq hI
    exact ⟨⟨by simp [h1, k1], by simp [h2, k2]⟩, ⟨by simp [h3, k3], by simp [h4, k4]⟩⟩
  | .mul a b => ⟨DMat.kronsum_isSq (a.dden_sq hI).1 (b.dden_sq hI).1, DMat.kronsum_isSq (a.dden_sq hI).2 (b.dden_sq hI).2⟩
  | .dual a => ⟨(a.dden_sq hI).2, (a.dden_sq hI).1⟩
  | .nsmul n a => by
    have h1 := bdiag_isSq (replicate n ()) (fun _ => (a.dden g I).1) (fun _ => a.dim W g) fun _ _ => (a.dden_sq hI).1
    have h2 := bdiag_isSq (replicate n ()) (fun _ => (a.dden g I).2) (fun _ => a.dim W g) fun _ _ => (a.dden_sq hI).2
    simpa [Expr.dim, Expr.dden] using And.intro h1 h2
  | .addNat a n => by
    simp only [Expr.dim, Expr.dden, DMat.bdiag, DMat.bdiag2_zero]
    obtain ⟨⟨h1, h2⟩, h3, h4⟩ := a.dden_sq hI
    exact ⟨⟨by simp [h1], by simp [h2]⟩, ⟨by simp [h3], by simp [h4]⟩⟩
  | .natAdd n a => by
    simp only [Expr.dim, Expr.dden, DMat.bdiag, DMat.bdiag2_zero]
    obtain ⟨⟨h1, h2⟩, h3, h4⟩ := a.dden_sq hI
    exact ⟨⟨by simp [h1, Nat.add_comm], by simp [h2, Nat.add_comm]⟩, ⟨by simp [h3, Nat.add_comm], by simp [h4, Nat.add_comm]⟩⟩
  | .pow a n => by
    have h1 := DMat.kronsumL_isSq (replicate n ()) (fun _ => (a.dden g I).1) (fun _ => a.dim W g) fun _ _ => (a.dden_sq hI).1
    have h2 := DMat.kronsumL_isSq (replicate n ()) (fun _ => (a.dden g I).2) (fun _ => a.dim W g) fun _ _ => (a.dden_sq hI).2
    simpa [Expr.dim, Expr.dden] using And.intro h1 h2
  | .rshift a b => ⟨DMat.kronsum_isSq (b.dden_sq hI).1 (a.dden_sq hI).2, DMat.kronsum_isSq (b.dden_sq hI).2 (a.dden_sq hI).1⟩
  | .lshift a b => ⟨DMat.kronsum_isSq (a.dden_sq hI).1 (b.dden_sq hI).2, DMat.kronsum_isSq (a.dden_sq hI).2 (b.dden_sq hI).1⟩

theorem lin_zero' (n : ℕ) : DMat.lin c d (DMat.zero n n) (DMat.zero n n) = DMat.zero n n :=
  DMat.ext rfl rfl fun i j hi hj => by rw [DMat.lin_e (A := DMat.zero n n) hi hj]; simp [DMat.zero_e]

theorem Expr.dden_lin (hI : I.Sized W) (hJ : J.Sized W) (h : Interp.Is (DMat.lin c d) K I J) : ∀ e : Expr,
    (e.dden g K).1 = DMat.lin c d (e.dden g I).1 (e.dden g J).1 ∧ (e.dden g K).2 = DMat.lin c d (e.dden g I).2 (e.dden g J).2
  | .scalar => ⟨(lin_zero' 1).symm, (lin_zero' 1).symm⟩
  | .rep k => ⟨h.vec k g, h.dual k g⟩
  | .add a b => by
    have C := DMat.lin_compat c d
    obtain ⟨a1, a2⟩ := a.dden_sq (g := g) hI
    obtain ⟨a3, a4⟩ := a.dden_sq (g := g) hJ
    obtain ⟨b1, b2⟩ := b.dden_sq (g := g) hI
    obtain ⟨b3, b4⟩ := b.dden_sq (g := g) hJ
    simp only [Expr.dden, DMat.bdiag, DMat.bdiag2_zero]
    rw [(a.dden_lin hI hJ h).1, (a.dden_lin hI hJ h).2, (b.dden_lin hI hJ h).1, (b.dden_lin hI hJ h).2]
    exact ⟨C.bdiag2 _ _ _ _ _ _ a1 a3 b1 b3, C.bdiag2 _ _ _ _ _ _ a2 a4 b2 b4⟩
  | .mul a b => by
    have C := DMat.lin_compat c d
    obtain ⟨a1, a2⟩ := a.dden_sq (g := g) hI
    obtain ⟨a3, a4⟩ := a.dden_sq (g := g) hJ
    obtain ⟨b1, b2⟩ := b.dden_sq (g := g) hI
    obtain ⟨b3, b4⟩ := b.dden_sq (g := g) hJ
    simp only [Expr.dden]
    rw [(a.dden_lin hI hJ h).1, (a.dden_lin hI hJ h).2, (b.dden_lin hI hJ h).1, (b.dden_lin hI hJ h).2]
    exact ⟨C.kronsum _ _ _ _ _ _ a1 a3 b1 b3, C.kronsum _ _ _ _ _ _ a2 a4 b2 b4⟩
  | .dual a => ⟨(a.dden_lin hI hJ h).2, (a.dden_lin hI hJ h).1⟩
  | .nsmul n a => by
    have C := DMat.lin_compat c d
    simp only [Expr.dden]
    rw [(a.dden_lin hI hJ h).1, (a.dden_lin hI hJ h).2]
    have h1 := C.bdiag (replicate n ()) (fun _ => (a.dden g I).1) (fun _ => (a.dden g J).1) (fun _ => a.dim W g) (fun _ _ => (a.dden_sq hI).1) fun _ _ => (a.dden_sq hJ).1
    have h2 := C.bdiag (replicate n ()) (fun _ => (a.dden g I).2) (fun _ => (a.dden g J).2) (fun _ => a.dim W g) (fun _ _ => (a.dden_sq hI).2) fun _ _ => (a.dden_sq hJ).2
    simpa using And.intro h1 h2
  | .addNat a n => by
    have C := DMat.lin_compat c d
    obtain ⟨a1, a2⟩ := a.dden_sq (g := g) hI
    obtain ⟨a3, a4⟩ := a.dden_sq (g := g) hJ
    simp only [Expr.dden, DMat.bdiag, DMat.bdiag2_zero]
    rw [(a.dden_lin hI hJ h).1, (a.dden_lin hI hJ h).2, ← C.bdiag2 _ n _ _ _ _ a1 a3 ⟨rfl, rfl⟩ ⟨rfl, rfl⟩, ← C.bdiag2 _ n _ _ _ _ a2 a4 ⟨rfl, rfl⟩ ⟨rfl, rfl⟩, lin_zero']
    exact ⟨rfl, rfl⟩
  | .natAdd n a => by
    have C := DMat.lin_compat c d
    obtain ⟨a1, a2⟩ := a.dden_sq (g := g) hI
    obtain ⟨a3, a4⟩ := a.dden_sq (g := g) hJ
    simp only [Expr.dden, DMat.bdiag, DMat.bdiag2_zero]
    rw [(a.dden_lin hI hJ h).1, (a.dden_lin hI hJ h).2, ← C.bdiag2 n _ _ _ _ _ ⟨rfl, rfl⟩ ⟨rfl, rfl⟩ a1 a3, ← C.bdiag2 n _ _ _ _ _ ⟨rfl, rfl⟩ ⟨rfl, rfl⟩ a2 a4, lin_zero']
    exact ⟨rfl, rfl⟩
  | .pow a n => by
    have C := DMat.lin_compat c d
    simp only [Expr.dden]
    rw [(a.dden_lin hI hJ h).1, (a.dden_lin hI hJ h).2]
    have h1 := C.kronsumL (replicate n ()) (fun _ => (a.dden g I).1) (fun _ => (a.dden g J).1) (fun _ => a.dim W g) (fun _ _ => (a.dden_sq hI).1) fun _ _ => (a.dden_sq hJ).1
    have h2 := C.kronsumL (replicate n ()) (fun _ => (a.dden g I).2) (fun _ => (a.dden g J).2) (fun _ => a.dim W g) (fun _ _ => (a.dden_sq hI).2) fun _ _ => (a.dden_sq hJ).2
    simpa using And.intro h1 h2
  | .rshift a b => by
    have C := DMat.lin_compat c d
    obtain ⟨a1, a2⟩ := a.dden_sq (g := g) hI
    obtain ⟨a3, a4⟩ := a.dden_sq (g := g) hJ
    obtain ⟨b1, b2⟩ := b.dden_sq (g := g) hI
    obtain ⟨b3, b4⟩ := b.dden_sq (g := g) hJ
    simp only [Expr.dden]
    rw [(a.dden_lin hI hJ h).1, (a.dden_lin hI hJ h).2, (b.dden_lin hI hJ h).1, (b.dden_lin hI hJ h).2]
    exact ⟨C.kronsum _ _ _ _ _ _ b1 b3 a2 a4, C.kronsum _ _ _ _ _ _ b2 b4 a1 a3⟩
  | .lshift a b => by
    have C := DMat.lin_compat c d
    obtain ⟨a1, a2⟩ := a.dden_sq (g := g) hI
    obtain ⟨a3, a4⟩ := a.dden_sq (g := g) hJ
    obtain ⟨b1, b2⟩ := b.dden_sq (g := g) hI
    obtain ⟨b3, b4⟩ := b.dden_sq (g := g) hJ
    simp only [Expr.dden]
    rw [(a.dden_lin hI hJ h).1, (a.dden_lin hI hJ h).2, (b.dden_lin hI hJ h).1, (b.dden_lin hI hJ h).2]
    exact ⟨C.kronsum _ _ _ _ _ _ a1 a3 b2 b4, C.kronsum _ _ _ _ _ _ a2 a4 b1 b3⟩

end

section
variable {a : ∀ k g, AtomRep 𝕜 (W.d g) (W.asize k g)} {lie disc : ∀ g, List (Matrix (Fin (W.d g)) (Fin (W.d g)) 𝕜)}

/-- `ρ(exp(tA)) = exp(t dρ(A))` for the meaning of an expression, and for its dual. -/
theorem Expr.den_exp (ha : ∀ k g, (a k g).Hom (lie g) (disc g)) (e : Expr) {A : Matrix (Fin (W.d g)) (Fin (W.d g)) 𝕜}
    (hA : A ∈ Submodule.span ℝ {B | B ∈ lie g}) (t : ℝ) :
    (e.den g (Interp.at W a (oneAt W g (exp (t • A))))).1 = DMat.ofMatrix (exp (t • (e.dden g (Interp.dat W a (zeroAt W g A))).1.toMatrix (e.dim W g) (e.dim W g))) ∧
    (e.den g (Interp.at W a (oneAt W g (exp (t • A))))).2 = DMat.ofMatrix (exp (t • (e.dden g (Interp.dat W a (zeroAt W g A))).2.toMatrix (e.dim W g) (e.dim W g))) := by
  have e1 : oneAt W g (exp (t • A)) = fun g' => exp (zeroAt W g (t • A) g') := funext fun g' => (update_exp g (t • A) g').symm
  have hx := e.isExp (g := g) (at_exp ha (A := zeroAt W g (t • A)) fun g' => by
    by_cases e : g' = g
    · subst e; rw [zeroAt_same]; exact Submodule.smul_mem _ _ hA
    · rw [zeroAt_ne e]; exact Submodule.zero_mem _)
  have hl := e.dden_lin (g := g) (dat_sized (a := a) (zeroAt W g A)) (dat_sized (zeroAt W g A)) (dat_lin t 0 (zeroAt W g A) (zeroAt W g A))
  have hs := e.dden_sq (g := g) (dat_sized (a := a) (zeroAt W g A))
  rw [← zeroAt_lin] at hl
  simp only [zero_smul, add_zero] at hl
  rw [e1]
  have key : ∀ {X Y : DMat 𝕜}, X.IsSq (e.dim W g) → Y = DMat.lin (t : 𝕜) ((0 : ℝ) : 𝕜) X X → Y.toMatrix (e.dim W g) (e.dim W g) = t • X.toMatrix (e.dim W g) (e.dim W g) := by
    intro X Y hX hY
    subst hY
    ext i j
    rw [Matrix.smul_apply]
    show (DMat.lin (t : 𝕜) ((0 : ℝ) : 𝕜) X X).e i j = t • X.e i j
    rw [DMat.lin_e (by rw [hX.1]; exact i.2) (by rw [hX.2]; exact j.2), RCLike.real_smul_eq_coe_mul]
    simp
  have fin : ∀ {Y : DMat 𝕜} {M : Matrix (Fin (e.dim W g)) (Fin (e.dim W g)) 𝕜}, Y.IsSq (e.dim W g) → Y.toMatrix (e.dim W g) (e.dim W g) = M → Y = DMat.ofMatrix M := by
    intro Y M hY hM
    exact DMat.toMatrix_inj hY.1 hY.2 rfl rfl (by rw [hM, DMat.toMatrix_ofMatrix])
  exact ⟨fin hx.1.sqE (by rw [hx.1.eq, key hs.1 hl.1]), fin hx.2.sqE (by rw [hx.2.eq, key hs.2 hl.2])⟩

end
end Verif
