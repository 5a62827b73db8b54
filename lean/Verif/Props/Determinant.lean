import Verif.Lemmas.Tensor
import Verif.Lemmas.DualGens
import Verif.Props.Solver
import Verif.Props.Classical
import Mathlib.LinearAlgebra.Matrix.Permutation
import Mathlib.GroupTheory.Perm.Sign

/-! # C130: the determinant tensor, and the tensors invariant under `SL(n)` -/
namespace Verif
open List

section
variable {n : ℕ}

/-! ## Signed permutation matrices and diagonal matrices on tensors -/

/-- How `diag(c)` composed with a permutation of the coordinates acts on a tensor. -/
theorem kronL_monomial (c : Fin n → ℝ) (σ : Fin n → Fin n) {k : ℕ} (v : List ℝ) (f : Fin k → Fin n) :
    ((DMat.kronL (replicate k (DMat.ofMatrix (Matrix.of fun i j => if j = σ i then c i else 0)))).mulVec v).getD (finFunctionFinEquiv f : ℕ) 0 =
      (∏ s, c (f s)) * v.getD (finFunctionFinEquiv (fun s => σ (f s)) : ℕ) 0 := by
  rw [kronL_apply, Finset.sum_eq_single fun s => σ (f s)]
  · simp
  · intro f' _ hne
    obtain ⟨s, hs⟩ := Function.ne_iff.1 hne
    rw [Finset.prod_eq_zero (Finset.mem_univ s), zero_mul]
    rw [Matrix.of_apply, if_neg hs]
  · simp

theorem monomial_det (c : Fin n → ℝ) (σ : Equiv.Perm (Fin n)) :
    (Matrix.of fun i j => if j = σ i then c i else 0).det = (∏ i, c i) * (Equiv.Perm.sign σ : ℝ) := by
  have : (Matrix.of fun i j => if j = σ i then c i else 0) = Matrix.diagonal c * σ.permMatrix ℝ := by
    ext i j
    rw [Matrix.diagonal_mul]
    simp only [Matrix.of_apply, Equiv.Perm.permMatrix, PEquiv.toMatrix_apply, Equiv.toPEquiv_apply, Option.mem_def, Option.some.injEq]
    by_cases h : j = σ i
    · rw [if_pos h, if_pos h.symm, mul_one]
    · rw [if_neg h, if_neg (Ne.symm h), mul_zero]
  rw [this, Matrix.det_mul, Matrix.det_diagonal, Matrix.det_permutation]

/-- the scaling of coordinate `a` by two and of coordinate `b` by a half -/
noncomputable def squeeze (a b i : Fin n) : ℝ := if i = a then 2 else if i = b then 2⁻¹ else 1

theorem squeeze_prod {a b : Fin n} (hab : a ≠ b) {k : ℕ} (f : Fin k → Fin n) :
    ∏ s, squeeze a b (f s) = (2 : ℝ) ^ (((Finset.univ.filter fun s => f s = a).card : ℤ) - (Finset.univ.filter fun s => f s = b).card) := by
  have h1 : ∀ s, squeeze a b (f s) = (if f s = a then 2 else 1) * if f s = b then 2⁻¹ else 1 := by
    intro s
    unfold squeeze
    by_cases h1 : f s = a
    · rw [if_pos h1, if_pos h1, if_neg (by rw [h1]; exact hab), mul_one]
    · rw [if_neg h1, if_neg h1, one_mul]
  rw [Finset.prod_congr rfl fun s _ => h1 s, Finset.prod_mul_distrib, Finset.prod_ite, Finset.prod_ite, Finset.prod_const_one, Finset.prod_const_one,
    Finset.prod_const, Finset.prod_const, mul_one, mul_one, zpow_sub₀ (by norm_num), zpow_natCast, zpow_natCast, inv_pow, div_eq_mul_inv]

theorem squeeze_det {a b : Fin n} (hab : a ≠ b) : ∏ i, squeeze a b i = 1 := by
  have := squeeze_prod hab (id : Fin n → Fin n)
  simp only [id] at this
  rw [this, Finset.filter_eq' Finset.univ a, Finset.filter_eq' Finset.univ b]
  simp

theorem count_sum {k : ℕ} (f : Fin k → Fin n) : ∑ a, (Finset.univ.filter fun s => f s = a).card = k := by
  have := Finset.card_eq_sum_card_fiberwise (f := f) (s := Finset.univ) (t := Finset.univ) (fun _ _ => Finset.mem_coe.2 (Finset.mem_univ _))
  rw [Finset.card_univ, Fintype.card_fin] at this
  exact this.symm

theorem kronL_diagonal (c : Fin n → ℝ) {k : ℕ} (f f' : Fin k → Fin n) :
    (DMat.kronL (replicate k (DMat.ofMatrix (Matrix.diagonal c)))).e (finFunctionFinEquiv f : ℕ) (finFunctionFinEquiv f' : ℕ) =
      if f = f' then ∏ s, c (f s) else 0 := by
  rw [DMat.kronL_replicate_e (m := n) ⟨rfl, rfl⟩ k (finFunctionFinEquiv f).2 (finFunctionFinEquiv f').2]
  have h1 : ∀ s : Fin k, (DMat.ofMatrix (Matrix.diagonal c)).e ((finFunctionFinEquiv f : ℕ) / n ^ s.val % n) ((finFunctionFinEquiv f' : ℕ) / n ^ s.val % n) =
      if f s = f' s then c (f s) else 0 := by
    intro s
    rw [digit_eq, digit_eq, DMat.ofMatrix_e _ (f s).2 (f' s).2, Matrix.diagonal_apply]
  rw [Finset.prod_congr rfl fun s _ => h1 s]
  by_cases h : f = f'
  · subst h; simp
  · rw [if_neg h]
    obtain ⟨s, hs⟩ := Function.ne_iff.1 h
    exact Finset.prod_eq_zero (Finset.mem_univ s) (if_neg hs)

/-- What is fixed by the squeezes of two coordinates, as a map from tensors of order `p` to tensors of order `q`, vanishes unless `n` divides `q - p`. -/
theorem squeeze_fixed {p q : ℕ} (hn : 0 < n) (hpq : ¬ (n : ℤ) ∣ (q : ℤ) - p) {v : List ℝ} (hv : v.length = n ^ q * n ^ p)
    (h : ∀ a b : Fin n, a ≠ b → (DMat.kron (DMat.kronL (replicate q (DMat.ofMatrix (Matrix.diagonal (squeeze a b)))))
      (DMat.kronL (replicate p (DMat.ofMatrix (Matrix.diagonal (squeeze b a)))))).mulVec v = v) : v = replicate (n ^ q * n ^ p) 0 := by
  refine DMat.vec_ext (by rw [hv, length_replicate]) fun i hi => ?_
  rw [hv] at hi
  have hp : 0 < n ^ p := Nat.pow_pos hn
  have hi1 : i / n ^ p < n ^ q := Nat.div_lt_of_lt_mul (by rwa [mul_comm] at hi)
  have hi2 : i % n ^ p < n ^ p := Nat.mod_lt _ hp
  obtain ⟨f, hf⟩ : ∃ f : Fin q → Fin n, finFunctionFinEquiv f = ⟨_, hi1⟩ := ⟨_, Equiv.apply_symm_apply _ _⟩
  obtain ⟨f', hf'⟩ : ∃ f' : Fin p → Fin n, finFunctionFinEquiv f' = ⟨_, hi2⟩ := ⟨_, Equiv.apply_symm_apply _ _⟩
  rw [getD_replicate]
  swap
  · exact hi
  by_contra hne
  refine hpq ?_
  have key : ∀ a b : Fin n, a ≠ b → (∏ s, squeeze a b (f s)) * ∏ s, squeeze b a (f' s) = 1 := by
    intro a b hab
    have e := congrArg (fun l => l.getD i 0) (h a b hab)
    beta_reduce at e
    have sq1 := DMat.kronL_replicate_sq (A := DMat.ofMatrix (Matrix.diagonal (squeeze a b))) (m := n) ⟨rfl, rfl⟩ q
    have sq2 := DMat.kronL_replicate_sq (A := DMat.ofMatrix (Matrix.diagonal (squeeze b a))) (m := n) ⟨rfl, rfl⟩ p
    rw [DMat.getD_mulVec (by rw [DMat.kron_rows, sq1.1, sq2.1]; exact hi), DMat.kron_cols, sq1.2, sq2.2, Finset.sum_eq_single i] at e
    · unfold DMat.kron at e
      rw [DMat.of_e (by rw [sq1.1, sq2.1]; exact hi) (by rw [sq1.2, sq2.2]; exact hi), sq2.1, sq2.2] at e
      have x1 : i / n ^ p = (finFunctionFinEquiv f : ℕ) := by rw [hf]
      have x2 : i % n ^ p = (finFunctionFinEquiv f' : ℕ) := by rw [hf']
      rw [x1, x2, kronL_diagonal, kronL_diagonal, if_pos rfl, if_pos rfl] at e
      exact mul_right_cancel₀ hne (e.trans (one_mul _).symm)
    · intro j hj hji
      have hj := Finset.mem_range.1 hj
      have hj1 : j / n ^ p < n ^ q := Nat.div_lt_of_lt_mul (by rwa [mul_comm] at hj)
      have hj2 : j % n ^ p < n ^ p := Nat.mod_lt _ hp
      obtain ⟨f1, hf1⟩ : ∃ f : Fin q → Fin n, finFunctionFinEquiv f = ⟨_, hj1⟩ := ⟨_, Equiv.apply_symm_apply _ _⟩
      obtain ⟨f1', hf1'⟩ : ∃ f' : Fin p → Fin n, finFunctionFinEquiv f' = ⟨_, hj2⟩ := ⟨_, Equiv.apply_symm_apply _ _⟩
      unfold DMat.kron
      rw [DMat.of_e (by rw [sq1.1, sq2.1]; exact hi) (by rw [sq1.2, sq2.2]; exact hj), sq2.1, sq2.2]
      have x1 : i / n ^ p = (finFunctionFinEquiv f : ℕ) := by rw [hf]
      have x2 : i % n ^ p = (finFunctionFinEquiv f' : ℕ) := by rw [hf']
      have y1 : j / n ^ p = (finFunctionFinEquiv f1 : ℕ) := by rw [hf1]
      have y2 : j % n ^ p = (finFunctionFinEquiv f1' : ℕ) := by rw [hf1']
      have hor : f ≠ f1 ∨ f' ≠ f1' := by
        by_contra hcon
        push Not at hcon
        obtain ⟨rfl, rfl⟩ := hcon
        refine hji ?_
        rw [← Nat.div_add_mod j (n ^ p), ← Nat.div_add_mod i (n ^ p), y1, y2, x1, x2]
      rw [x1, x2, y1, y2, kronL_diagonal, kronL_diagonal]
      rcases hor with hor | hor
      · rw [if_neg hor]; ring
      · rw [if_neg hor]; ring
    · intro hmem; exact absurd (Finset.mem_range.2 hi) hmem
  obtain ⟨z⟩ : Nonempty (Fin n) := ⟨⟨0, hn⟩⟩
  obtain ⟨ct, hct⟩ : ∃ ct : Fin n → ℤ, ct = fun a => ((Finset.univ.filter fun s => f s = a).card : ℤ) - (Finset.univ.filter fun s => f' s = a).card := ⟨_, rfl⟩
  have hconst : ∀ a, ct a = ct z := by
    intro a
    by_cases haz : a = z
    · rw [haz]
    have := key a z haz
    rw [squeeze_prod haz, squeeze_prod (Ne.symm haz), ← zpow_add₀ (by norm_num : (2 : ℝ) ≠ 0)] at this
    have h0 := (zpow_eq_one_iff_right₀ (by norm_num : (0 : ℝ) ≤ 2) (by norm_num)).1 this
    rw [hct]
    beta_reduce
    omega
  have hsum : ∑ a, ct a = (q : ℤ) - p := by
    rw [hct, Finset.sum_sub_distrib, ← Nat.cast_sum, ← Nat.cast_sum, count_sum, count_sum]
  rw [Finset.sum_congr rfl fun a _ => hconst a, Finset.sum_const, Finset.card_univ, Fintype.card_fin, nsmul_eq_mul] at hsum
  exact ⟨ct z, hsum.symm⟩

/-- What `SL(n)` fixes among the tensors of order `n` are the multiples of the determinant tensor. -/
theorem det_fixed (hn : 0 < n) {v : List ℝ} (hv : v.length = n ^ n)
    (h : ∀ A : Matrix (Fin n) (Fin n) ℝ, A.det = 1 → (DMat.kronL (replicate n (DMat.ofMatrix A))).mulVec v = v) :
    ∃ c : ℝ, v = (detTensor n).map (c * ·) := by
  obtain ⟨x, hx⟩ : ∃ x : (Fin n → Fin n) → ℝ, x = fun f => v.getD (finFunctionFinEquiv f : ℕ) 0 := ⟨_, rfl⟩
  have hmon : ∀ (c : Fin n → ℝ) (σ : Equiv.Perm (Fin n)), (∏ i, c i) * (Equiv.Perm.sign σ : ℝ) = 1 → ∀ f, (∏ s, c (f s)) * x (fun s => σ (f s)) = x f := by
    intro c σ hc f
    have := congrArg (fun l => l.getD (finFunctionFinEquiv f : ℕ) 0) (h _ ((monomial_det c σ).trans hc))
    beta_reduce at this
    rw [kronL_monomial] at this
    rw [hx]
    exact this
  have hzero : ∀ f : Fin n → Fin n, ¬ Function.Injective f → x f = 0 := by
    intro f hf
    by_contra hne
    have hns : ¬ Function.Surjective f := fun hs => hf (Finite.injective_iff_surjective.2 hs)
    simp only [Function.Surjective, not_forall] at hns
    obtain ⟨b, hb⟩ := hns
    have hab : f ⟨0, hn⟩ ≠ b := fun e => hb ⟨_, e⟩
    have h1 := hmon (squeeze (f ⟨0, hn⟩) b) 1 (by rw [squeeze_det hab]; simp) f
    have h2 := mul_right_cancel₀ hne (h1.trans (one_mul _).symm)
    rw [squeeze_prod hab] at h2
    have h0 := (zpow_eq_one_iff_right₀ (by norm_num : (0 : ℝ) ≤ 2) (by norm_num)).1 h2
    have hb0 : (Finset.univ.filter fun s => f s = b) = ∅ := Finset.filter_eq_empty_iff.2 fun s _ e => hb ⟨s, e⟩
    have ha0 : 0 < (Finset.univ.filter fun s => f s = f ⟨0, hn⟩).card := Finset.card_pos.2 ⟨⟨0, hn⟩, by simp⟩
    rw [hb0, Finset.card_empty] at h0
    omega
  have hperm : ∀ σ : Equiv.Perm (Fin n), x σ = (Equiv.Perm.sign σ : ℝ) * x id := by
    intro σ
    have hs : (Equiv.Perm.sign σ : ℝ) * (Equiv.Perm.sign σ : ℝ) = 1 := by
      rw [← Int.cast_mul, ← Units.val_mul, Int.units_mul_self]; simp
    have hprod : ∏ i, (fun i : Fin n => if i = ⟨0, hn⟩ then (Equiv.Perm.sign σ : ℝ) else 1) i = (Equiv.Perm.sign σ : ℝ) := by
      beta_reduce; rw [Finset.prod_ite_eq' Finset.univ (⟨0, hn⟩ : Fin n)]; simp
    have h1 := hmon (fun i => if i = ⟨0, hn⟩ then (Equiv.Perm.sign σ : ℝ) else 1) σ (by rw [hprod]; exact hs) id
    simp only [id] at h1
    rw [hprod] at h1
    rw [← h1, ← mul_assoc, hs, one_mul]
  refine ⟨x id, tensor_ext hv (by rw [length_map, detTensor_length]) fun f => ?_⟩
  have hlen : (finFunctionFinEquiv f : ℕ) < (detTensor n).length := by rw [detTensor_length]; exact (finFunctionFinEquiv f).2
  rw [show v.getD (finFunctionFinEquiv f : ℕ) 0 = x f by rw [hx], getD_eq_getElem _ _ (by rw [length_map]; exact hlen), getElem_map,
    ← getD_eq_getElem _ 0 hlen, detTensor, mkTensor_get]
  by_cases hf : Function.Injective f
  · obtain ⟨σ, rfl⟩ : ∃ σ : Equiv.Perm (Fin n), (σ : Fin n → Fin n) = f := ⟨Equiv.ofBijective f (Finite.injective_iff_bijective.1 hf), rfl⟩
    have hd : (Matrix.of fun s t => if σ s = t then (1 : ℝ) else 0).det = (Equiv.Perm.sign σ : ℝ) := by
      have := monomial_det (fun _ => 1) σ
      rw [Finset.prod_const_one, one_mul] at this
      rw [← this]
      congr 1
      ext s t
      simp only [Matrix.of_apply, eq_comm]
    rw [hperm, hd, mul_comm]
  · rw [hzero f hf]
    obtain ⟨s, t, hst, hne⟩ : ∃ s t, f s = f t ∧ s ≠ t := by
      simp only [Function.Injective, not_forall] at hf
      obtain ⟨s, t, h1, h2⟩ := hf
      exact ⟨s, t, h1, h2⟩
    rw [Matrix.det_zero_of_row_eq hne, mul_zero]
    funext u
    simp only [Matrix.of_apply, hst]

end

section
variable {W : World} {g : Gid} {N : ℕ} {custom : ∀ k g, AtomRep ℝ (W.d g) (W.usize k g)}
  {lie disc : ∀ g, List (Matrix (Fin (W.d g)) (Fin (W.d g)) ℝ)} {solve : ℕ → LinOp ℝ → Py (DMat ℝ)}

theorem den_power (k : ℕ) (h : Matrix (Fin (W.d g)) (Fin (W.d g)) ℝ) :
    ((Expr.pow (.rep 0) k).den g (Interp.elem W custom g h)).1 = DMat.kronL (replicate k (DMat.ofMatrix h)) := by
  show DMat.kronL (replicate k (DMat.ofMatrix (oneAt W g h g))) = _
  rw [oneAt_same]

theorem den_power_maps (p q : ℕ) (h : Matrix (Fin (W.d g)) (Fin (W.d g)) ℝ) :
    ((Expr.rshift (.pow (.rep 0) p) (.pow (.rep 0) q)).den g (Interp.elem W custom g h)).1 =
      DMat.kron (DMat.kronL (replicate q (DMat.ofMatrix h))) (DMat.kronL (replicate p (DMat.ofMatrix h⁻¹.transpose))) := by
  show DMat.kron (DMat.kronL (replicate q (DMat.ofMatrix (oneAt W g h g)))) (DMat.kronL (replicate p (DMat.ofMatrix (oneAt W g h g)⁻¹.transpose))) = _
  rw [oneAt_same]

/-- The span of the computed basis consists of what every element of the group fixes. -/
theorem basis_of_group (hW : W.SingleOK g N) (e : Expr) (he : e.OK W g) (hN : e.bound W g ≤ N) (ok : GroupsOK W custom lie disc)
    (hsol : SolverOK W (gensOf W (stdAtoms W custom) lie disc) solve)
    (htot : SolverRuns W (gensOf W (stdAtoms W custom) lie disc) solve) (calls : List SolveCall) :
    ∃ r L, e.eval W g = .ok r ∧
      (r.equivariantBasis W (gensOf W (stdAtoms W custom) lie disc) solve (session W (gensOf W (stdAtoms W custom) lie disc) solve calls freshSt)).1 =
        .ok L ∧ OrthoBasis (e.dim W g) L.sem fun v => v.length = e.dim W g ∧
          ∀ h, Generated (lie g) (disc g) h → (e.den g (Interp.elem W custom g h)).1.mulVec v = v := by
  have hdual := gensOf_dual ok
  obtain ⟨r, L, hr, hL, hQ⟩ := C21_expressions hW e he hN hdual hsol htot calls
  refine ⟨r, L, hr, hL, hQ.rows, hQ.orth, fun v hv => ?_⟩
  rw [← hQ.span v hv]
  obtain ⟨r', hr', hwf, hk, hsz, hm⟩ := e.eval_good hW he hN
  rw [hr] at hr'
  cases hr'
  have hden : ∀ h, Generated (lie g) (disc g) h → r.mat (Interp.elem W custom g h) = (e.den g (Interp.elem W custom g h)).1 :=
    fun h hh => hm ℝ _ (elem_dual ok hh)
  rw [← Expr.fixed_iff hW e he hN hr hdual hv]
  constructor
  · rintro ⟨-, hf⟩
    exact fixed_of_group (N := N) (stdAtoms_hom ok.hom) ⟨hwf, hk⟩ (hv.trans hsz.symm) fun h hh => (congrArg (fun M => M.mulVec v) (hden h hh)).trans (hf h hh)
  · intro hf
    refine ⟨hv, fun h hh => ?_⟩
    rw [← hden h hh]
    exact fixed_one_group (stdAtoms_hom ok.hom) ok.unit hwf (hv.trans hsz.symm) hf g hh

/-- **C130.** Among the tensors with as many indices as the group has dimensions there is a nonzero one which every matrix multiplies by its
determinant. -/
theorem C130_determinant (W : World) (g : Gid) (custom : ∀ k g, AtomRep ℝ (W.d g) (W.usize k g)) : ∃ v : List ℝ,
    v.length = W.d g ^ W.d g ∧ (∃ i < v.length, v.getD i 0 = 1) ∧ ∀ h : Matrix (Fin (W.d g)) (Fin (W.d g)) ℝ,
      ((Expr.pow (.rep 0) (W.d g)).den g (Interp.elem W custom g h)).1.mulVec v = v.map (h.det * ·) :=
  ⟨detTensor (W.d g), detTensor_length _, ⟨_, by rw [detTensor_length]; exact (finFunctionFinEquiv (id : Fin (W.d g) → Fin (W.d g))).2, detTensor_id _⟩,
    fun h => by rw [den_power, detTensor_act]⟩

/-- **C130.** So for a group of matrices of determinant one the basis of `V**n` contains, in its span, a vector that every matrix of another determinant
moves: the bound on the ranks in C118 cannot be improved, in any dimension. -/
theorem C130_sharp (hW : W.SingleOK g N) (hd : 2 ≤ W.d g) (hN : (Expr.pow (.rep 0) (W.d g)).bound W g ≤ N) (ok : GroupsOK W custom lie disc)
    (hdet : ∀ h, Generated (lie g) (disc g) h → h.det = 1) (hsol : SolverOK W (gensOf W (stdAtoms W custom) lie disc) solve)
    (htot : SolverRuns W (gensOf W (stdAtoms W custom) lie disc) solve) (calls : List SolveCall) :
    ∃ r L, (Expr.pow (.rep 0) (W.d g)).eval W g = .ok r ∧
      (r.equivariantBasis W (gensOf W (stdAtoms W custom) lie disc) solve (session W (gensOf W (stdAtoms W custom) lie disc) solve calls freshSt)).1 =
        .ok L ∧ ∃ a : List ℝ, a.length = L.sem.cols ∧ ∀ h : Matrix (Fin (W.d g)) (Fin (W.d g)) ℝ,
          ((Expr.pow (.rep 0) (W.d g)).den g (Interp.elem W custom g h)).1.mulVec (L.sem.mulVec a) = L.sem.mulVec a ↔ h.det = 1 := by
  obtain ⟨r, L, hr, hL, hQ⟩ := basis_of_group hW (.pow (.rep 0) (W.d g)) ⟨hd, .inl rfl⟩ hN ok hsol htot calls
  refine ⟨r, L, hr, hL, ?_⟩
  obtain ⟨v, hv, ⟨i, hi, hi1⟩, hact⟩ := C130_determinant W g custom
  obtain ⟨a, ha, rfl⟩ := (hQ.span v hv).1 ⟨hv, fun h hh => by rw [hact, hdet h hh]; simp⟩
  refine ⟨a, ha, fun h => ?_⟩
  rw [hact]
  constructor
  · intro e
    have := congrArg (fun l => l.getD i 0) e
    beta_reduce at this
    rw [getD_eq_getElem _ _ (by rw [length_map]; exact hi), getElem_map, ← getD_eq_getElem _ 0 hi, hi1, mul_one] at this
    exact this
  · intro e; rw [e]; simp

/-- **C130.** For `SL(n)` there is no nonzero equivariant linear map from tensors of order `p` to tensors of order `q` unless `n` divides `q - p`. -/
theorem C130_sl_maps (hW : W.SingleOK g N) (hd : 2 ≤ W.d g) {p q : ℕ} (hN : (Expr.rshift (.pow (.rep 0) p) (.pow (.rep 0) q)).bound W g ≤ N)
    (ok : GroupsOK W custom lie disc) {t : Arr3 ℝ} (ht : slLie (W.d g) = .ok t) (hl : lie g = t.mats (W.d g)) (hdisc : disc g = [])
    (hsol : SolverOK W (gensOf W (stdAtoms W custom) lie disc) solve)
    (htot : SolverRuns W (gensOf W (stdAtoms W custom) lie disc) solve) (calls : List SolveCall) (hpq : ¬ (W.d g : ℤ) ∣ (q : ℤ) - p) :
    ∃ r L, (Expr.rshift (.pow (.rep 0) p) (.pow (.rep 0) q)).eval W g = .ok r ∧
      (r.equivariantBasis W (gensOf W (stdAtoms W custom) lie disc) solve (session W (gensOf W (stdAtoms W custom) lie disc) solve calls freshSt)).1 =
        .ok L ∧ L.sem.cols = 0 := by
  obtain ⟨t', ht', hgen⟩ := C115_sl (W.d g) (by omega)
  rw [ht] at ht'
  cases ht'
  rw [← hl, ← hdisc] at hgen
  obtain ⟨r, L, hr, hL, hQ⟩ := basis_of_group hW (.rshift (.pow (.rep 0) p) (.pow (.rep 0) q)) ⟨⟨hd, .inl rfl⟩, ⟨hd, .inl rfl⟩⟩ hN ok hsol htot calls
  refine ⟨r, L, hr, hL, ?_⟩
  have hdim : (Expr.rshift (.pow (.rep 0) p) (.pow (.rep 0) q)).dim W g = W.d g ^ q * W.d g ^ p := rfl
  rw [hdim] at hQ
  refine hQ.cols_eq (c := 0) 0 (fun a b _ => Subsingleton.elim a b) fun v => ?_
  constructor
  · rintro ⟨hv, hf⟩
    refine ⟨0, ?_⟩
    have := squeeze_fixed (by omega) hpq hv fun a b hab => by
      have hdt : (Matrix.diagonal (squeeze a b)).det = 1 := by rw [Matrix.det_diagonal, squeeze_det hab]
      have := hf _ ((hgen _).2 hdt)
      rw [den_power_maps] at this
      have hinv : (Matrix.diagonal (squeeze a b))⁻¹ = Matrix.diagonal (squeeze b a) := by
        refine Matrix.inv_eq_right_inv ?_
        rw [Matrix.diagonal_mul_diagonal, ← Matrix.diagonal_one]
        congr 1
        funext i
        unfold squeeze
        by_cases h1 : i = a
        · subst h1; simp [hab]
        · by_cases h2 : i = b
          · subst h2; simp [h1]
          · simp [h1, h2]
      rw [hinv, Matrix.diagonal_transpose] at this
      exact this
    funext i
    have e := congrArg (fun l => l.getD i.val 0) this
    beta_reduce at e
    rw [getD_eq_getElem _ _ (by simp), List.getElem_ofFn, getD_eq_getElem _ _ (by simp), getElem_replicate] at e
    exact e.symm
  · rintro ⟨b, rfl⟩
    refine ⟨by simp, fun h hh => ?_⟩
    have hsq : ((Expr.rshift (.pow (.rep 0) p) (.pow (.rep 0) q)).den g (Interp.elem W custom g h)).1.IsSq (W.d g ^ q * W.d g ^ p) := by
      have := (Expr.den_pair (g := g) (elem_dual ok hh) (Expr.rshift (.pow (.rep 0) p) (.pow (.rep 0) q))).sq1
      exact this
    refine DMat.vec_ext (by rw [DMat.length_mulVec, hsq.1]; simp) fun i hi => ?_
    rw [DMat.length_mulVec] at hi
    rw [DMat.getD_mulVec hi]
    have hz : ∀ j M : ℕ, (if j < M then some (0 : ℝ) else none).getD 0 = 0 := fun j M => by split_ifs <;> rfl
    simp [hz]

/-- **C130.** For `SL(n)` the determinant tensor is up to multiples the only invariant tensor of order `n`. -/
theorem C130_sl_unique (hW : W.SingleOK g N) (hd : 2 ≤ W.d g) (hN : (Expr.pow (.rep 0) (W.d g)).bound W g ≤ N)
    (ok : GroupsOK W custom lie disc) {t : Arr3 ℝ} (ht : slLie (W.d g) = .ok t) (hl : lie g = t.mats (W.d g)) (hdisc : disc g = [])
    (hsol : SolverOK W (gensOf W (stdAtoms W custom) lie disc) solve)
    (htot : SolverRuns W (gensOf W (stdAtoms W custom) lie disc) solve) (calls : List SolveCall) :
    ∃ r L, (Expr.pow (.rep 0) (W.d g)).eval W g = .ok r ∧
      (r.equivariantBasis W (gensOf W (stdAtoms W custom) lie disc) solve (session W (gensOf W (stdAtoms W custom) lie disc) solve calls freshSt)).1 =
        .ok L ∧ L.sem.cols = 1 := by
  obtain ⟨t', ht', hgen⟩ := C115_sl (W.d g) (by omega)
  rw [ht] at ht'
  cases ht'
  rw [← hl, ← hdisc] at hgen
  obtain ⟨r, L, hr, hL, hQ⟩ := basis_of_group hW (.pow (.rep 0) (W.d g)) ⟨hd, .inl rfl⟩ hN ok hsol htot calls
  refine ⟨r, L, hr, hL, ?_⟩
  have hdim : (Expr.pow (.rep 0) (W.d g)).dim W g = W.d g ^ W.d g := rfl
  rw [hdim] at hQ
  obtain ⟨ε, hε⟩ : ∃ ε : Fin (W.d g ^ W.d g) → ℝ, ε = fun i => (detTensor (W.d g)).getD i.val 0 := ⟨_, rfl⟩
  have hlist : ∀ c : ℝ, List.ofFn (c • ε) = (detTensor (W.d g)).map (c * ·) := fun c => by
    refine DMat.vec_ext (by simp [detTensor_length]) fun i hi => ?_
    have hi : i < W.d g ^ W.d g := by simpa using hi
    have hi' : i < (detTensor (W.d g)).length := by rw [detTensor_length]; exact hi
    rw [getD_eq_getElem _ _ (by simpa using hi), List.getElem_ofFn, getD_eq_getElem _ _ (by simpa using hi'), getElem_map, hε, Pi.smul_apply, smul_eq_mul,
      getD_eq_getElem _ _ hi']
  refine hQ.cols_eq (c := 1) ((LinearMap.toSpanSingleton ℝ _ ε).comp (LinearMap.proj 0)) (fun a b hab => ?_) fun v => ?_
  · have h1 := congrFun hab (finFunctionFinEquiv (id : Fin (W.d g) → Fin (W.d g)))
    have h2 : ε (finFunctionFinEquiv (id : Fin (W.d g) → Fin (W.d g))) = 1 := by rw [hε]; exact detTensor_id _
    simp only [LinearMap.comp_apply, LinearMap.proj_apply, LinearMap.toSpanSingleton_apply, Pi.smul_apply, smul_eq_mul, h2, mul_one] at h1
    funext i
    rw [Subsingleton.elim i 0]
    exact h1
  · constructor
    · rintro ⟨hv, hf⟩
      obtain ⟨c, hc⟩ := det_fixed (by omega) hv fun A hA => by
        have := hf A ((hgen A).2 hA)
        rwa [den_power] at this
      refine ⟨fun _ => c, List.ofFn_injective ?_⟩
      rw [hc, ← hlist]
      rfl
    · rintro ⟨b, rfl⟩
      refine ⟨by simp, fun h hh => ?_⟩
      rw [den_power]
      show (DMat.kronL (replicate (W.d g) (DMat.ofMatrix h))).mulVec (List.ofFn (b 0 • ε)) = List.ofFn (b 0 • ε)
      rw [hlist]
      have hdt := (hgen h).1 hh
      have hsq := DMat.kronL_replicate_sq (A := DMat.ofMatrix h) (m := W.d g) ⟨rfl, rfl⟩ (W.d g)
      have hact := detTensor_act h
      rw [hdt] at hact
      refine DMat.vec_ext (by rw [DMat.length_mulVec, hsq.1, length_map, detTensor_length]) fun i hi => ?_
      rw [DMat.length_mulVec, hsq.1] at hi
      have hi' : i < (detTensor (W.d g)).length := by rw [detTensor_length]; exact hi
      have e := congrArg (fun l => l.getD i 0) hact
      beta_reduce at e
      have hmap : ∀ (c : ℝ) (j : ℕ), ((detTensor (W.d g)).map (c * ·)).getD j 0 = c * (detTensor (W.d g)).getD j 0 := by
        intro c j
        by_cases hj : j < (detTensor (W.d g)).length
        · rw [getD_eq_getElem _ _ (by simpa using hj), getElem_map, getD_eq_getElem _ _ hj]
        · rw [getD_eq_default _ _ (by simpa using hj), getD_eq_default _ _ (by simpa using hj), mul_zero]
      rw [DMat.getD_mulVec (by rw [hsq.1]; exact hi), hmap, one_mul] at e
      rw [DMat.getD_mulVec (by rw [hsq.1]; exact hi), hmap, ← e, Finset.mul_sum]
      refine Finset.sum_congr rfl fun j _ => ?_
      rw [hmap]
      ring

end

/-- `SL(2)` as group `1` of the example world. -/
noncomputable def slLies (t : Arr3 ℝ) (g : Gid) : List (Matrix (Fin (exW.d g)) (Fin (exW.d g)) ℝ) := if g = 1 then t.mats (exW.d g) else []

theorem sl_groups (t : Arr3 ℝ) : GroupsOK exW (fun k g => trivialAtom _ _) (slLies t) fun _ => [] where
  unit g h hh := by simp at hh
  orth g hg := by
    have h1 : g ≠ 1 := by simpa [exW] using hg
    refine ⟨fun A hA => ?_, by simp⟩
    rw [slLies, if_neg h1] at hA
    simp at hA
  hom _ _ := trivialAtom_hom _ _
  user k g _ M _ := by simp [trivialAtom]
  perm g hg := by
    have h2 : g = 2 := by simpa [exW] using hg
    subst h2
    exact ⟨rfl, by simp⟩

/-- The hypotheses of `C130_sharp`, `C130_sl_maps` and `C130_sl_unique` are met by `SL(2)`: the area form is its only invariant tensor of order two,
and it has no equivariant map from vectors to matrices. -/
example : ∃ (t : Arr3 ℝ) (solve : ℕ → LinOp ℝ → Py (DMat ℝ)), slLie 2 = .ok t ∧
    (∃ (r : Rep) (B : LinOp ℝ), (Expr.pow (.rep 0) 2).eval exW 1 = .ok r ∧
      (r.equivariantBasis exW (gensOf exW (stdAtoms exW fun k g => trivialAtom _ _) (slLies t) fun _ => []) solve
        (session exW (gensOf exW (stdAtoms exW fun k g => trivialAtom _ _) (slLies t) fun _ => []) solve [] freshSt)).1 = .ok B ∧ B.sem.cols = 1) ∧
    (∃ (r : Rep) (B : LinOp ℝ), (Expr.pow (.rep 0) 2).eval exW 1 = .ok r ∧
      (r.equivariantBasis exW (gensOf exW (stdAtoms exW fun k g => trivialAtom _ _) (slLies t) fun _ => []) solve
        (session exW (gensOf exW (stdAtoms exW fun k g => trivialAtom _ _) (slLies t) fun _ => []) solve [] freshSt)).1 = .ok B ∧
      ∃ a : List ℝ, a.length = B.sem.cols ∧ ∀ h : Matrix (Fin (exW.d 1)) (Fin (exW.d 1)) ℝ,
        ((Expr.pow (.rep 0) 2).den 1 (Interp.elem exW (fun k g => trivialAtom _ _) 1 h)).1.mulVec (B.sem.mulVec a) = B.sem.mulVec a ↔ h.det = 1) ∧
    ∃ (r : Rep) (B : LinOp ℝ), (Expr.rshift (.pow (.rep 0) 1) (.pow (.rep 0) 2)).eval exW 1 = .ok r ∧
      (r.equivariantBasis exW (gensOf exW (stdAtoms exW fun k g => trivialAtom _ _) (slLies t) fun _ => []) solve
        (session exW (gensOf exW (stdAtoms exW fun k g => trivialAtom _ _) (slLies t) fun _ => []) solve [] freshSt)).1 = .ok B ∧ B.sem.cols = 0 := by
  obtain ⟨s, s1, s2⟩ := exists_solver ℝ
  obtain ⟨t, ht, hgen⟩ := C115_sl 2 (by norm_num)
  have hl : slLies t 1 = t.mats (exW.d 1) := if_pos rfl
  have hdet : ∀ h, Generated (slLies t 1) [] h → h.det = 1 := fun h hh => by
    rw [hl] at hh
    exact (hgen h).1 hh
  exact ⟨t, fun _ => s, ht,
    C130_sl_unique (custom := fun k g => trivialAtom _ _) (lie := slLies t) (disc := fun _ => []) (exW_single 1 576 (by decide)) (by decide) (by decide)
      (sl_groups t) ht hl rfl (s1 _ _) (fun _ _ C _ => s2 C) [],
    C130_sharp (custom := fun k g => trivialAtom _ _) (lie := slLies t) (disc := fun _ => []) (exW_single 1 576 (by decide)) (by decide) (by decide)
      (sl_groups t) hdet (s1 _ _) (fun _ _ C _ => s2 C) [],
    C130_sl_maps (custom := fun k g => trivialAtom _ _) (lie := slLies t) (disc := fun _ => []) (exW_single 1 576 (by decide)) (by decide) (by decide)
      (sl_groups t) ht hl rfl (s1 _ _) (fun _ _ C _ => s2 C) [] (by decide)⟩

end Verif
