import Verif.Lemmas.RepHom
import Verif.Lemmas.DenseInv
import Verif.Lemmas.KronExp
import Verif.Lemmas.MulVec
import Mathlib.Data.Matrix.ColumnRowPartitioned

/-! `rho(exp A) = exp(drho(A))` for every representation. -/
namespace Verif
open List NormedSpace
open scoped Kronecker
variable {𝕜 : Type} [RCLike 𝕜]

/-- `E = exp D` for `n × n` matrices. -/
structure IsExp (n : ℕ) (D E : DMat 𝕜) : Prop where
  sqD : D.IsSq n
  sqE : E.IsSq n
  eq : E.toMatrix n n = exp (D.toMatrix n n)

section
variable {m n : Type*} [Fintype m] [DecidableEq m] [Fintype n] [DecidableEq n]

theorem exp_fromBlocks (A : Matrix m m 𝕜) (B : Matrix n n 𝕜) :
    exp (Matrix.fromBlocks A 0 0 B) = Matrix.fromBlocks (exp A) 0 0 (exp B) := by
  have h1 := exp_intertwine (𝕜 := 𝕜) (Matrix.fromRows (1 : Matrix m m 𝕜) (0 : Matrix n m 𝕜)) A (Matrix.fromBlocks A 0 0 B) (by
    ext (i | i) j <;> simp [Matrix.fromBlocks_mul_fromRows, Matrix.fromRows_mul])
  have h2 := exp_intertwine (𝕜 := 𝕜) (Matrix.fromRows (0 : Matrix m n 𝕜) (1 : Matrix n n 𝕜)) B (Matrix.fromBlocks A 0 0 B) (by
    ext (i | i) j <;> simp [Matrix.fromBlocks_mul_fromRows, Matrix.fromRows_mul])
  obtain ⟨X, hX⟩ : ∃ X, X = exp (Matrix.fromBlocks A 0 0 B) := ⟨_, rfl⟩
  rw [← hX] at h1 h2 ⊢
  rw [← Matrix.fromBlocks_toBlocks X] at h1 h2 ⊢
  rw [Matrix.fromBlocks_mul_fromRows, Matrix.fromRows_mul] at h1 h2
  simp only [Matrix.mul_zero, Matrix.mul_one, Matrix.zero_mul, Matrix.one_mul, add_zero, zero_add] at h1 h2
  obtain ⟨e1, e2⟩ := Matrix.fromRows_inj h1
  obtain ⟨e3, e4⟩ := Matrix.fromRows_inj h2
  rw [← e1, ← e2, ← e3, ← e4]
end

namespace IsExp

theorem zero (n : ℕ) : IsExp n (DMat.zero n n : DMat 𝕜) (DMat.one n) := by
  refine ⟨⟨rfl, rfl⟩, ⟨rfl, rfl⟩, ?_⟩
  rw [DMat.toMatrix_one, show (DMat.zero n n : DMat 𝕜).toMatrix n n = 0 from by ext i j; simp [DMat.toMatrix, DMat.zero_e], exp_zero]

theorem bdiag2 {m n : ℕ} {D E D' E' : DMat 𝕜} (h : IsExp m D E) (h' : IsExp n D' E') :
    IsExp (m + n) (DMat.bdiag2 D D') (DMat.bdiag2 E E') := by
  have key : ∀ {A B : DMat 𝕜}, A.IsSq m → B.IsSq n → (DMat.bdiag2 A B).toMatrix (m + n) (m + n) =
      (Matrix.fromBlocks (A.toMatrix m m) 0 0 (B.toMatrix n n)).submatrix finSumFinEquiv.symm finSumFinEquiv.symm := by
    intro A B hA hB
    ext i j
    obtain ⟨i, rfl⟩ := finSumFinEquiv.surjective i
    obtain ⟨j, rfl⟩ := finSumFinEquiv.surjective j
    rw [Matrix.submatrix_apply, Equiv.symm_apply_apply, Equiv.symm_apply_apply]
    rcases i with i | i <;> rcases j with j | j <;> simp only [DMat.toMatrix, finSumFinEquiv_apply_left, finSumFinEquiv_apply_right,
        Fin.val_castAdd, Fin.val_natAdd, Matrix.fromBlocks_apply₁₁, Matrix.fromBlocks_apply₁₂, Matrix.fromBlocks_apply₂₁,
        Matrix.fromBlocks_apply₂₂, Matrix.zero_apply]
    · exact DMat.bdiag2_e11 (by rw [hA.1]; exact i.2) (by rw [hA.2]; exact j.2)
    · exact DMat.bdiag2_e12 (by rw [hA.1]; exact i.2) (by rw [hA.2]; omega)
    · exact DMat.bdiag2_e21 (by rw [hA.1]; omega) (by rw [hA.2]; exact j.2)
    · rw [DMat.bdiag2_e22 (by rw [hA.1]; omega) (by rw [hA.2]; omega), hA.1, hA.2]
      congr 1 <;> omega
  refine ⟨⟨by simp [h.sqD.1, h'.sqD.1], by simp [h.sqD.2, h'.sqD.2]⟩, ⟨by simp [h.sqE.1, h'.sqE.1], by simp [h.sqE.2, h'.sqE.2]⟩, ?_⟩
  rw [key h.sqE h'.sqE, key h.sqD h'.sqD, exp_submatrix, exp_fromBlocks, h.eq, h'.eq]

theorem kron {m n : ℕ} {D E D' E' : DMat 𝕜} (h : IsExp m D E) (h' : IsExp n D' E') :
    IsExp (m * n) (DMat.kronsum D D') (DMat.kron E E') := by
  have hv : ∀ i : Fin m × Fin n, (finProdFinEquiv i).val = i.1.val * n + i.2.val := fun i => by simp [finProdFinEquiv]; ring
  have key : ∀ {A B : DMat 𝕜}, A.IsSq m → B.IsSq n → (DMat.kron A B).toMatrix (m * n) (m * n) =
      (A.toMatrix m m ⊗ₖ B.toMatrix n n).submatrix finProdFinEquiv.symm finProdFinEquiv.symm := by
    intro A B hA hB
    ext i j
    obtain ⟨i, rfl⟩ := finProdFinEquiv.surjective i
    obtain ⟨j, rfl⟩ := finProdFinEquiv.surjective j
    rw [Matrix.submatrix_apply, Equiv.symm_apply_apply, Equiv.symm_apply_apply, Matrix.kroneckerMap_apply]
    simp only [DMat.toMatrix, hv]
    have := DMat.kron_e (A := A) (B := B) (i := i.1) (j := j.1) (i' := i.2) (j' := j.2) (by rw [hA.1]; exact i.1.2)
      (by rw [hA.2]; exact j.1.2) (by rw [hB.1]; exact i.2.2) (by rw [hB.2]; exact j.2.2)
    rw [hB.1, hB.2] at this
    exact this
  have key' : ∀ {A B : DMat 𝕜}, A.IsSq m → B.IsSq n → (DMat.kronsum A B).toMatrix (m * n) (m * n) =
      (A.toMatrix m m ⊗ₖ (1 : Matrix (Fin n) (Fin n) 𝕜) + (1 : Matrix (Fin m) (Fin m) 𝕜) ⊗ₖ B.toMatrix n n).submatrix
        finProdFinEquiv.symm finProdFinEquiv.symm := by
    intro A B hA hB
    ext i j
    obtain ⟨i, rfl⟩ := finProdFinEquiv.surjective i
    obtain ⟨j, rfl⟩ := finProdFinEquiv.surjective j
    rw [Matrix.submatrix_apply, Equiv.symm_apply_apply, Equiv.symm_apply_apply, Matrix.add_apply, Matrix.kroneckerMap_apply,
      Matrix.kroneckerMap_apply]
    simp only [DMat.toMatrix, hv]
    rw [DMat.kronsum_e hA hB i.1.2 i.2.2 j.1.2 j.2.2]
    simp [Matrix.one_apply, Fin.ext_iff]
  refine ⟨DMat.kronsum_isSq h.sqD h'.sqD, ⟨by simp [h.sqE.1, h'.sqE.1], by simp [h.sqE.2, h'.sqE.2]⟩, ?_⟩
  rw [key h.sqE h'.sqE, key' h.sqD h'.sqD, exp_submatrix, exp_kronsum, h.eq, h'.eq]

theorem pick {n : ℕ} {D E : DMat 𝕜} (h : IsExp n D E) {p : List ℕ} (hp : p ~ range n) : IsExp n (D.pick p p) (E.pick p p) := by
  have hl := length_of_perm_range hp
  have hlt : ∀ i : Fin n, p.getD i 0 < n := fun i => lt_of_perm_range hp (getD_mem_of_lt (by rw [hl]; exact i.2))
  have hinj : Function.Injective fun i : Fin n => (⟨p.getD i 0, hlt i⟩ : Fin n) := fun i j hij =>
    Fin.ext (getD_inj (nodup_of_perm_range hp) (by rw [hl]; exact i.2) (by rw [hl]; exact j.2) (Fin.mk.inj hij))
  obtain ⟨e, he⟩ : ∃ e : Fin n ≃ Fin n, ∀ i, (e i).val = p.getD i 0 :=
    ⟨Equiv.ofBijective _ (Finite.injective_iff_bijective.1 hinj), fun i => rfl⟩
  have key : ∀ A : DMat 𝕜, (A.pick p p).toMatrix n n = (A.toMatrix n n).submatrix e e := by
    intro A
    ext i j
    simp only [DMat.toMatrix, Matrix.submatrix_apply, he]
    exact DMat.pick_e (by rw [hl]; exact i.2) (by rw [hl]; exact j.2)
  exact ⟨⟨hl, hl⟩, ⟨hl, hl⟩, by rw [key, key, exp_submatrix, h.eq]⟩

theorem bdiag {ι : Type} (l : List ι) (f g : ι → DMat 𝕜) (s : ι → ℕ) (h : ∀ x ∈ l, IsExp (s x) (f x) (g x)) :
    IsExp (l.map s).sum (DMat.bdiag (l.map f)) (DMat.bdiag (l.map g)) := by
  induction l with
  | nil => exact ⟨⟨rfl, rfl⟩, ⟨rfl, rfl⟩, by ext i; exact i.elim0⟩
  | cons a t ih => exact bdiag2 (h a (by simp)) (ih fun x hx => h x (by simp [hx]))

theorem kronL {ι : Type} (l : List ι) (f g : ι → DMat 𝕜) (s : ι → ℕ) (h : ∀ x ∈ l, IsExp (s x) (f x) (g x)) :
    IsExp (l.map s).prod (DMat.kronsumL (l.map f)) (DMat.kronL (l.map g)) := by
  induction l with
  | nil => exact zero 1
  | cons a t ih => exact kron (h a (by simp)) (ih fun x hx => h x (by simp [hx]))

theorem conj {n : ℕ} {p : List ℕ} {X Y : LinOp 𝕜} (hp : p ~ range n) (h : IsExp n X.sem Y.sem) :
    IsExp n (conjPerm p X).sem (conjPerm p Y).sem := by
  rw [conjPerm_sem hp h.sqD, conjPerm_sem hp h.sqE]
  exact h.pick (length_of_perm_range hp ▸ argsort_perm p)

/-- A vector killed by `D` is fixed by `exp D`. -/
theorem fix {n : ℕ} {D E : DMat 𝕜} (h : IsExp n D E) {v : List 𝕜} (hv : v.length = n) (h0 : D.mulVec v = replicate n 0) :
    E.mulVec v = v := by
  obtain ⟨x, hx⟩ : ∃ x : Matrix (Fin n) Unit 𝕜, x = Matrix.of fun (i : Fin n) (_ : Unit) => v.getD i.val 0 := ⟨_, rfl⟩
  have hD : D.toMatrix n n * x = 0 := by
    ext i j
    rw [Matrix.mul_apply, Matrix.zero_apply]
    have := congrArg (fun l => l.getD i.val 0) h0
    beta_reduce at this
    rw [DMat.getD_mulVec (by rw [h.sqD.1]; exact i.2), h.sqD.2, Finset.sum_range] at this
    rw [hx]
    simpa [DMat.toMatrix, getD_replicate] using this
  have h1 := exp_intertwine (𝕜 := 𝕜) x (0 : Matrix Unit Unit 𝕜) (D.toMatrix n n) (by rw [hD, Matrix.mul_zero])
  rw [exp_zero, Matrix.mul_one, ← h.eq] at h1
  apply DMat.vec_ext (by simp [h.sqE.1, hv])
  intro i hi
  rw [DMat.length_mulVec, h.sqE.1] at hi
  rw [DMat.getD_mulVec (by rw [h.sqE.1]; exact hi), h.sqE.2, Finset.sum_range]
  have := congrFun (congrFun h1 ⟨i, hi⟩) ()
  rw [Matrix.mul_apply, hx] at this
  exact this.symm

end IsExp

variable {W : World}

/-- On every atom, `E` is the exponential of `D`. -/
structure Interp.Exp (W : World) (D E : Interp 𝕜) : Prop where
  vec : ∀ k g, IsExp (W.asize k g) (D.vec k (some g)).sem (E.vec k (some g)).sem
  dual : ∀ k g, IsExp (W.asize k g) (D.dual k (some g)).sem (E.dual k (some g)).sem

variable {D E : Interp 𝕜}

theorem Interp.Exp.sized (h : Interp.Exp W D E) : D.Sized W ∧ E.Sized W :=
  ⟨⟨fun k g => (h.vec k g).sqD, fun k g => (h.dual k g).sqD⟩, ⟨fun k g => (h.vec k g).sqE, fun k g => (h.dual k g).sqE⟩⟩

theorem Atom.isExp (h : Interp.Exp W D E) {a : Atom} (ha : a.G.isSome) : IsExp (a.size W) (a.drho D).sem (a.rho E).sem := by
  match a, ha with
  | .vec k (some g), _ => exact h.vec k g
  | .dual k (some g), _ => exact h.dual k g

theorem PRep.isExp (h : Interp.Exp W D E) {p : PRep} (hp : p.WF W) : IsExp (p.size W) (p.drho D).sem (p.rho E).sem := by
  refine IsExp.conj hp.perm ?_
  have := IsExp.kronL p.c.expand (fun a => (a.drho D).sem) (fun a => (a.rho E).sem) (Atom.size W) fun a ha =>
    Atom.isExp h (hp.some a (Counter.mem_expand ha))
  rw [prod_map_expand] at this
  simp only [LinOp.sem, semL_map]
  exact this

theorem Fac.isExp (h : Interp.Exp W D E) {f : Fac} (hf : f.WF W) : IsExp (f.size W) (f.drho D).sem (f.rho E).sem := by
  cases f with
  | atom a => exact Atom.isExp h hf
  | prod p => exact PRep.isExp h hf

theorem DRep.isExp (h : Interp.Exp W D E) {d : DRep} (hd : d.WF W) : IsExp (d.size W) (d.drho D).sem (d.rho E).sem := by
  refine IsExp.conj hd.perm ?_
  have := IsExp.kronL d.c.expand (fun a => (a.drho D).sem) (fun a => (a.rho E).sem) (Fac.size W) fun a ha =>
    Fac.isExp h (hd.key a (Counter.mem_expand ha))
  rw [prod_map_expand] at this
  simp only [LinOp.sem, semL_map]
  exact this

theorem Key.isExp (h : Interp.Exp W D E) {k : Key} (hk : k.WF W) : IsExp (k.size W) (k.drho D).sem (k.rho E).sem := by
  cases k with
  | scalar => exact IsExp.zero 1
  | fac f => exact Fac.isExp h hk
  | dprod d => exact DRep.isExp h hk

theorem SRep.isExp (h : Interp.Exp W D E) {s : SRep} (hs : s.WF W) : IsExp (s.size W) (s.drho D).sem (s.rho E).sem := by
  refine IsExp.conj hs.perm ?_
  have := IsExp.bdiag s.c.expand (fun a => (a.drho D).sem) (fun a => (a.rho E).sem) (Key.size W) fun a ha =>
    Key.isExp h (hs.key a (Counter.mem_expand ha)).1
  rw [sum_map_expand] at this
  simp only [LinOp.sem, semM_map]
  exact this

/-- `rho(exp A) = exp(drho(A))`. -/
theorem Rep.isExp (h : Interp.Exp W D E) {r : Rep} (hr : r.WF W) : IsExp (r.size W) (r.dmat D) (r.mat E) := by
  match r, hr with
  | .key k, hr => exact Key.isExp h hr
  | .sum s, hr => exact SRep.isExp h hr

end Verif
