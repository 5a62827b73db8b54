import Verif.Spec.Sampled
import Verif.Model.Groups
import Verif.Lemmas.RepExp
import Verif.Lemmas.Fixed
import Verif.Lemmas.Sample
import Verif.Lemmas.OneParam
import Verif.Props.ExampleWorld

/-!
# From generators to every sampled group element (C25)
-/
namespace Verif
open List NormedSpace
variable {𝕜 : Type} [RCLike 𝕜]

namespace DMat

theorem ofMatrix_sq {n : ℕ} (A : Matrix (Fin n) (Fin n) 𝕜) : (ofMatrix A).IsSq n := ⟨rfl, rfl⟩

theorem ofMatrix_e {n : ℕ} (A : Matrix (Fin n) (Fin n) 𝕜) {i j : ℕ} (hi : i < n) (hj : j < n) :
    (ofMatrix A).e i j = A ⟨i, hi⟩ ⟨j, hj⟩ := by
  unfold ofMatrix; rw [of_e hi hj, dif_pos ⟨hi, hj⟩]

theorem toMatrix_ofMatrix {n : ℕ} (A : Matrix (Fin n) (Fin n) 𝕜) : (ofMatrix A).toMatrix n n = A := by
  ext i j; exact ofMatrix_e A i.2 j.2

theorem ofMatrix_one (n : ℕ) : ofMatrix (1 : Matrix (Fin n) (Fin n) 𝕜) = one n :=
  toMatrix_inj (m := n) (n := n) rfl rfl rfl rfl (by rw [toMatrix_ofMatrix, toMatrix_one])

theorem ofMatrix_mul {n : ℕ} (A B : Matrix (Fin n) (Fin n) 𝕜) : ofMatrix (A * B) = (ofMatrix A).mul (ofMatrix B) :=
  toMatrix_inj (m := n) (n := n) rfl rfl rfl rfl (by rw [toMatrix_ofMatrix, toMatrix_mul (m := n) (n := n) (p := n) _ _ rfl rfl rfl, toMatrix_ofMatrix, toMatrix_ofMatrix])

theorem ofMatrix_zero (n : ℕ) : ofMatrix (0 : Matrix (Fin n) (Fin n) 𝕜) = zero n n :=
  toMatrix_inj (m := n) (n := n) rfl rfl rfl rfl (by rw [toMatrix_ofMatrix]; ext i j; simp [toMatrix, zero_e])

theorem ofMatrix_transpose {n : ℕ} (A : Matrix (Fin n) (Fin n) 𝕜) : ofMatrix A.transpose = (ofMatrix A).transpose :=
  toMatrix_inj (m := n) (n := n) rfl rfl rfl rfl (by rw [toMatrix_ofMatrix]; ext i j; simp [toMatrix, transpose_e, ofMatrix_e A j.2 i.2])

theorem ofMatrix_lin {n : ℕ} (a b : 𝕜) (A B : Matrix (Fin n) (Fin n) 𝕜) : ofMatrix (a • A + b • B) = lin a b (ofMatrix A) (ofMatrix B) := by
  refine ext rfl rfl fun i j hi hj => ?_
  have hi' : i < n := hi
  have hj' : j < n := hj
  rw [ofMatrix_e _ hi' hj', lin_e (A := ofMatrix A) hi hj, ofMatrix_e _ hi' hj', ofMatrix_e _ hi' hj']
  simp

theorem lin_kill {n : ℕ} {A B : DMat 𝕜} (hA : A.IsSq n) (hB : B.IsSq n) (a b : 𝕜) {v : List 𝕜} (h1 : A.mulVec v = replicate n 0)
    (h2 : B.mulVec v = replicate n 0) : (lin a b A B).mulVec v = replicate n 0 := by
  have hl := (lin_compat a b).sq n A B hA hB
  refine vec_ext (by simp [hl.1]) fun i hi => ?_
  rw [length_mulVec, hl.1] at hi
  have e1 := congrArg (fun l => l.getD i 0) h1
  have e2 := congrArg (fun l => l.getD i 0) h2
  beta_reduce at e1 e2
  rw [getD_mulVec (by rw [hA.1]; exact hi), hA.2] at e1
  rw [getD_mulVec (by rw [hB.1]; exact hi), hB.2] at e2
  rw [getD_mulVec (by rw [hl.1]; exact hi), hl.2]
  rw [Finset.sum_congr rfl fun j hj => by
    rw [lin_e (by rw [hA.1]; exact hi) (by rw [hA.2]; exact Finset.mem_range.1 hj), add_mul, mul_assoc, mul_assoc]]
  rw [Finset.sum_add_distrib, ← Finset.mul_sum, ← Finset.mul_sum, e1, e2]
  simp [getD_replicate, hi]

end DMat

variable {W : World} {a : ∀ k g, AtomRep 𝕜 (W.d g) (W.asize k g)}

theorem at_sized (M : ∀ g, Matrix (Fin (W.d g)) (Fin (W.d g)) 𝕜) : (Interp.at W a M).Sized W :=
  ⟨fun _ _ => ⟨rfl, rfl⟩, fun _ _ => ⟨rfl, rfl⟩⟩

theorem dat_sized (A : ∀ g, Matrix (Fin (W.d g)) (Fin (W.d g)) 𝕜) : (Interp.dat W a A).Sized W :=
  ⟨fun _ _ => ⟨rfl, rfl⟩, fun _ _ => ⟨rfl, rfl⟩⟩

theorem at_one : (Interp.at W a fun _ => 1).IsOne W where
  vec k g := by show DMat.ofMatrix ((a k g).rho 1) = _; rw [(a k g).one, DMat.ofMatrix_one]
  dual k g := by show DMat.ofMatrix ((a k g).rho 1)⁻¹.transpose = _; rw [(a k g).one, inv_one, Matrix.transpose_one, DMat.ofMatrix_one]

theorem stdAtoms_hom {custom : ∀ k g, AtomRep 𝕜 (W.d g) (W.usize k g)} {lie disc : ∀ g, List (Matrix (Fin (W.d g)) (Fin (W.d g)) 𝕜)}
    (h : ∀ k g, (custom k g).Hom (lie g) (disc g)) : ∀ k g, (stdAtoms W custom k g).Hom (lie g) (disc g)
  | 0, _ => ⟨fun _ _ _ _ => rfl, fun _ _ => rfl⟩
  | k + 1, g => h (k + 1) g

theorem at_mul {lie disc : ∀ g, List (Matrix (Fin (W.d g)) (Fin (W.d g)) 𝕜)} (ha : ∀ k g, (a k g).Hom (lie g) (disc g))
    {M N : ∀ g, Matrix (Fin (W.d g)) (Fin (W.d g)) 𝕜} (hM : ∀ g, Generated (lie g) (disc g) (M g)) (hN : ∀ g, Generated (lie g) (disc g) (N g)) :
    (Interp.at W a fun g => M g * N g).IsMul (Interp.at W a M) (Interp.at W a N) where
  vec k g := by
    show DMat.ofMatrix ((a k g).rho (M g * N g)) = _
    rw [(ha k g).mul _ _ (hM g) (hN g), DMat.ofMatrix_mul]; rfl
  dual k g := by
    show DMat.ofMatrix ((a k g).rho (M g * N g))⁻¹.transpose = _
    rw [(ha k g).mul _ _ (hM g) (hN g), Matrix.mul_inv_rev, Matrix.transpose_mul, DMat.ofMatrix_mul]; rfl

theorem at_exp {lie disc : ∀ g, List (Matrix (Fin (W.d g)) (Fin (W.d g)) 𝕜)} (ha : ∀ k g, (a k g).Hom (lie g) (disc g))
    {A : ∀ g, Matrix (Fin (W.d g)) (Fin (W.d g)) 𝕜} (hA : ∀ g, A g ∈ Submodule.span ℝ {B | B ∈ lie g}) :
    Interp.Exp W (Interp.dat W a A) (Interp.at W a fun g => exp (A g)) where
  vec k g := by
    refine ⟨⟨rfl, rfl⟩, ⟨rfl, rfl⟩, ?_⟩
    show (DMat.ofMatrix ((a k g).rho (exp (A g)))).toMatrix _ _ = exp ((DMat.ofMatrix ((a k g).drho (A g))).toMatrix _ _)
    rw [DMat.toMatrix_ofMatrix, DMat.toMatrix_ofMatrix, (ha k g).exp _ (hA g)]
  dual k g := by
    refine ⟨⟨rfl, rfl⟩, ⟨rfl, rfl⟩, ?_⟩
    show (DMat.ofMatrix ((a k g).rho (exp (A g)))⁻¹.transpose).toMatrix _ _ =
      exp ((DMat.ofMatrix (-((a k g).drho (A g)).transpose)).toMatrix _ _)
    rw [DMat.toMatrix_ofMatrix, DMat.toMatrix_ofMatrix, (ha k g).exp _ (hA g), Matrix.exp_neg, Matrix.exp_transpose, Matrix.transpose_nonsing_inv]

theorem dat_lin (c e : ℝ) (A B : ∀ g, Matrix (Fin (W.d g)) (Fin (W.d g)) 𝕜) :
    Interp.Is (DMat.lin (c : 𝕜) (e : 𝕜)) (Interp.dat W a fun g => c • A g + e • B g) (Interp.dat W a A) (Interp.dat W a B) where
  vec k g := by
    show DMat.ofMatrix ((a k g).drho (c • A g + e • B g)) = _
    rw [map_add, map_smul, map_smul]
    have := DMat.ofMatrix_lin (c : 𝕜) (e : 𝕜) ((a k g).drho (A g)) ((a k g).drho (B g))
    rw [← RCLike.real_smul_eq_coe_smul (K := 𝕜), ← RCLike.real_smul_eq_coe_smul (K := 𝕜)] at this
    exact this
  dual k g := by
    show DMat.ofMatrix (-((a k g).drho (c • A g + e • B g)).transpose) = _
    have := DMat.ofMatrix_lin (c : 𝕜) (e : 𝕜) (-((a k g).drho (A g)).transpose) (-((a k g).drho (B g)).transpose)
    rw [← RCLike.real_smul_eq_coe_smul (K := 𝕜), ← RCLike.real_smul_eq_coe_smul (K := 𝕜)] at this
    rw [map_add, map_smul, map_smul, Matrix.transpose_add, Matrix.transpose_smul, Matrix.transpose_smul, neg_add, ← smul_neg, ← smul_neg]
    exact this

/-- The matrix of a representation depends only on the matrices of the atoms. -/
theorem Rep.mat_congr {I J : Interp 𝕜} (hI : I.Sized W) (hv : ∀ k g, (I.vec k (some g)).sem = (J.vec k (some g)).sem)
    (hd : ∀ k g, (I.dual k (some g)).sem = (J.dual k (some g)).sem) {r : Rep} (hr : r.WF W) : r.mat I = r.mat J := by
  have h : J.IsMul I (idI W 𝕜) := by
    refine ⟨fun k g => ?_, fun k g => ?_⟩
    · rw [idI_one.vec, DMat.mul_one' _ (hI.vec k g).2, hv]
    · rw [idI_one.dual, DMat.mul_one' _ (hI.dual k g).2, hd]
  rw [Rep.mat_mul hI idI_one.sized h hr, Rep.mat_one idI_one hr, DMat.mul_one' _ (Rep.mat_sq hI hr).2]

theorem Rep.dmat_congr {I J : Interp 𝕜} (hI : I.Sized W) (hv : ∀ k g, (I.vec k (some g)).sem = (J.vec k (some g)).sem)
    (hd : ∀ k g, (I.dual k (some g)).sem = (J.dual k (some g)).sem) {r : Rep} (hr : r.WF W) : r.dmat I = r.dmat J := by
  have hl : ∀ {n : ℕ} {A : DMat 𝕜}, A.IsSq n → DMat.lin 1 0 A A = A := fun {n A} hA => by
    refine DMat.ext rfl rfl fun i j hi hj => ?_
    rw [DMat.lin_e (A := A) hi hj]; ring
  have h : Interp.Is (DMat.lin (1 : 𝕜) 0) J I I :=
    ⟨fun k g => by rw [hl (hI.vec k g), hv], fun k g => by rw [hl (hI.dual k g), hd]⟩
  rw [Rep.dmat_op (DMat.lin_compat 1 0) hI hI h hr, hl (Rep.dmat_sq hI hr)]

theorem Generated.isUnit {n : Type} [Fintype n] [DecidableEq n] {lie disc : List (Matrix n n 𝕜)} (hd : ∀ h ∈ disc, IsUnit h.det)
    {g : Matrix n n 𝕜} (hg : Generated lie disc g) : IsUnit g.det := by
  induction hg with
  | one => simp
  | exp _ => exact (Matrix.isUnit_iff_isUnit_det _).1 (Matrix.isUnit_exp _)
  | gen h => exact hd _ h
  | inv h => rw [Matrix.det_nonsing_inv]; exact (hd _ h).ringInverse
  | mul _ _ h1 h2 => rw [Matrix.det_mul]; exact h1.mul h2

section
variable {lie disc : ∀ g, List (Matrix (Fin (W.d g)) (Fin (W.d g)) 𝕜)} {r : Rep} {v : List 𝕜}

theorem oneAt_same (g : Gid) (h : Matrix (Fin (W.d g)) (Fin (W.d g)) 𝕜) : oneAt W g h g = h := by simp [oneAt]
theorem oneAt_ne {g g' : Gid} (e : g' ≠ g) (h : Matrix (Fin (W.d g)) (Fin (W.d g)) 𝕜) : oneAt W g h g' = 1 := by
  rw [oneAt, Function.update_of_ne e]
theorem zeroAt_same (g : Gid) (h : Matrix (Fin (W.d g)) (Fin (W.d g)) 𝕜) : zeroAt W g h g = h := by simp [zeroAt]
theorem zeroAt_ne {g g' : Gid} (e : g' ≠ g) (h : Matrix (Fin (W.d g)) (Fin (W.d g)) 𝕜) : zeroAt W g h g' = 0 := by
  rw [zeroAt, Function.update_of_ne e]

theorem update_exp (g : Gid) (A : Matrix (Fin (W.d g)) (Fin (W.d g)) 𝕜) (g' : Gid) :
    exp (zeroAt W g A g') = oneAt W g (exp A) g' := by
  by_cases h : g' = g
  · subst h; rw [zeroAt_same, oneAt_same]
  · rw [zeroAt_ne h, oneAt_ne h, exp_zero]

/-- An element of one group. -/
theorem fixed_one_group (ha : ∀ k g, (a k g).Hom (lie g) (disc g)) (hdisc : ∀ g, ∀ h ∈ disc g, IsUnit h.det) (hr : r.WF W) (hv : v.length = r.size W)
    (hfix : r.Fixed W (gensOf W a lie disc) v) (g : Gid) {h : Matrix (Fin (W.d g)) (Fin (W.d g)) 𝕜} (hh : Generated (lie g) (disc g) h) :
    (r.mat (Interp.at W a (oneAt W g h))).mulVec v = v := by
  have upd_gen : ∀ {h : Matrix (Fin (W.d g)) (Fin (W.d g)) 𝕜}, Generated (lie g) (disc g) h → ∀ g', Generated (lie g') (disc g') (oneAt W g h g') := by
    intro h hh g'
    by_cases e : g' = g
    · subst e; rwa [oneAt_same]
    · rw [oneAt_ne e]; exact .one
  have upd_mul : ∀ h h' : Matrix (Fin (W.d g)) (Fin (W.d g)) 𝕜, oneAt W g (h * h') =
      fun g' => (oneAt W g h g') * oneAt W g h' g' := by
    intro h h'
    funext g'
    by_cases e : g' = g
    · subst e; simp only [oneAt_same]
    · rw [oneAt_ne e, oneAt_ne e, oneAt_ne e, one_mul]
  have upd_one : oneAt W g (1 : Matrix (Fin (W.d g)) (Fin (W.d g)) 𝕜) = fun g' => (1 : Matrix (Fin (W.d g')) (Fin (W.d g')) 𝕜) := by
    funext g'
    by_cases e : g' = g
    · subst e; rw [oneAt_same]
    · rw [oneAt_ne e]
  have hgen : ∀ h ∈ disc g, (r.mat (Interp.at W a (oneAt W g h))).mulVec v = v := by
    intro h hh
    have := (hfix g).1 (Interp.at W a (oneAt W g h)) (mem_map_of_mem (f := fun h => Interp.at W a (oneAt W g h)) hh)
    beta_reduce at this
    rwa [Rep.mat_congr ((at_sized _).only g) _ _ hr] at this
    · intro k g'
      simp only [Interp.only]
      by_cases e : g' = g
      · rw [if_pos e]
      · rw [if_neg e]
        show DMat.one _ = DMat.ofMatrix ((a k g').rho (oneAt W g h g'))
        rw [oneAt_ne e, (a k g').one, DMat.ofMatrix_one]
    · intro k g'
      simp only [Interp.only]
      by_cases e : g' = g
      · rw [if_pos e]
      · rw [if_neg e]
        show DMat.one _ = DMat.ofMatrix ((a k g').rho (oneAt W g h g'))⁻¹.transpose
        rw [oneAt_ne e, (a k g').one, inv_one, Matrix.transpose_one, DMat.ofMatrix_one]
  have hlie : ∀ A ∈ lie g, (r.dmat (Interp.dat W a (zeroAt W g A))).mulVec v = replicate (r.size W) 0 := by
    intro A hA
    have := (hfix g).2 (Interp.dat W a (zeroAt W g A)) (mem_map_of_mem (f := fun h => Interp.dat W a (zeroAt W g h)) hA)
    beta_reduce at this
    rw [hv, Rep.dmat_congr ((dat_sized _).onlyD g) _ _ hr] at this
    · exact this
    · intro k g'
      simp only [Interp.onlyD]
      by_cases e : g' = g
      · rw [if_pos e]
      · rw [if_neg e]
        show DMat.zero _ _ = DMat.ofMatrix ((a k g').drho (zeroAt W g A g'))
        rw [zeroAt_ne e, map_zero, DMat.ofMatrix_zero]
    · intro k g'
      simp only [Interp.onlyD]
      by_cases e : g' = g
      · rw [if_pos e]
      · rw [if_neg e]
        show DMat.zero _ _ = DMat.ofMatrix (-((a k g').drho (zeroAt W g A g')).transpose)
        rw [zeroAt_ne e, map_zero, Matrix.transpose_zero, neg_zero, DMat.ofMatrix_zero]
  have hlin : ∀ (c e : ℝ) (A B : Matrix (Fin (W.d g)) (Fin (W.d g)) 𝕜),
      (r.dmat (Interp.dat W a (zeroAt W g A))).mulVec v = replicate (r.size W) 0 →
      (r.dmat (Interp.dat W a (zeroAt W g B))).mulVec v = replicate (r.size W) 0 →
      (r.dmat (Interp.dat W a (zeroAt W g (c • A + e • B)))).mulVec v = replicate (r.size W) 0 := by
    intro c e A B hA hB
    have e1 : zeroAt W g (c • A + e • B) = fun g' => c • (zeroAt W g A g') + e • zeroAt W g B g' := by
      funext g'
      by_cases e : g' = g
      · subst e; simp only [zeroAt_same]
      · rw [zeroAt_ne e, zeroAt_ne e, zeroAt_ne e, smul_zero, smul_zero, add_zero]
    rw [e1, Rep.dmat_op (DMat.lin_compat _ _) (dat_sized _) (dat_sized _) (dat_lin c e _ _) hr]
    exact DMat.lin_kill (Rep.dmat_sq (dat_sized _) hr) (Rep.dmat_sq (dat_sized _) hr) _ _ hA hB
  induction hh with
  | one => rw [upd_one, Rep.mat_one at_one hr, DMat.mulVec_one _ hv]
  | exp hA =>
    rename_i A
    have hz : (r.dmat (Interp.dat W a (zeroAt W g A))).mulVec v = replicate (r.size W) 0 := by
      induction hA using Submodule.span_induction with
      | mem A hA => exact hlie A hA
      | zero =>
        have h0 : zeroAt W g (0 : Matrix (Fin (W.d g)) (Fin (W.d g)) 𝕜) = fun g' => (0 : ℝ) • (0 : Matrix (Fin (W.d g')) (Fin (W.d g')) 𝕜) + (0 : ℝ) • 0 := by
          funext g'
          by_cases e : g' = g
          · subst e; simp [zeroAt_same]
          · rw [zeroAt_ne e]; simp
        rw [h0, Rep.dmat_op (DMat.lin_compat _ _) (dat_sized _) (dat_sized _) (dat_lin 0 0 _ _) hr]
        have hsq := Rep.dmat_sq (dat_sized (a := a) fun _ => (0 : Matrix (Fin (W.d _)) (Fin (W.d _)) 𝕜)) hr
        rw [RCLike.ofReal_zero, DMat.lin_zero hsq, DMat.zero_mulVec]
      | add A B _ _ h1 h2 => simpa using hlin 1 1 A B h1 h2
      | smul c A _ h1 => simpa using hlin c 0 A A h1 h1
    have e : oneAt W g (exp A) = fun g' => exp (zeroAt W g A g') :=
      funext fun g' => (update_exp g A g').symm
    rw [e]
    refine (Rep.isExp (at_exp ha fun g' => ?_) hr).fix hv hz
    by_cases e : g' = g
    · subst e; rwa [zeroAt_same]
    · rw [zeroAt_ne e]; exact Submodule.zero_mem _
  | gen h => exact hgen _ h
  | inv hmem =>
    rename_i h
    have hu := hdisc g h hmem
    have h1 := Rep.mat_mul (at_sized (a := a) _) (at_sized _) (at_mul ha (upd_gen (.inv hmem)) (upd_gen (.gen hmem))) hr
    rw [← upd_mul, Matrix.nonsing_inv_mul _ hu, upd_one, Rep.mat_one at_one hr] at h1
    have h2 := congrArg (fun X => X.mulVec v) h1
    beta_reduce at h2
    rw [DMat.mulVec_one _ hv, DMat.mulVec_mul _ _ _ (by rw [(Rep.mat_sq (at_sized _) hr).2, (Rep.mat_sq (at_sized _) hr).1]), hgen h hmem] at h2
    exact h2.symm
  | mul hg hg' ih1 ih2 =>
    rw [upd_mul, Rep.mat_mul (at_sized _) (at_sized _) (at_mul ha (upd_gen hg) (upd_gen hg')) hr,
      DMat.mulVec_mul _ _ _ (by rw [(Rep.mat_sq (at_sized _) hr).2, (Rep.mat_sq (at_sized _) hr).1]), ih2, ih1]

/-- **C25.** A vector fixed by the generators is fixed by every element of the groups they generate: `M` assigns to each
group an element generated by exponentials of combinations of its Lie algebra and by its discrete generators; as in a
Python dict only finitely many groups carry a non-trivial element. -/
theorem C25_generated (ha : ∀ k g, (a k g).Hom (lie g) (disc g)) (hdisc : ∀ g, ∀ h ∈ disc g, IsUnit h.det) (hr : r.WF W) (hv : v.length = r.size W)
    (hfix : r.Fixed W (gensOf W a lie disc) v) {M : ∀ g, Matrix (Fin (W.d g)) (Fin (W.d g)) 𝕜}
    (hM : ∀ g, Generated (lie g) (disc g) (M g)) {gs : List Gid} (hgs : ∀ g ∉ gs, M g = 1) :
    (r.mat (Interp.at W a M)).mulVec v = v := by
  induction gs generalizing M with
  | nil =>
    have : M = fun _ => 1 := funext fun g => hgs g (by simp)
    rw [this, Rep.mat_one at_one hr, DMat.mulVec_one _ hv]
  | cons g gs ih =>
    have e : M = fun g' => Function.update M g 1 g' * oneAt W g (M g) g' := by
      funext g'
      by_cases h : g' = g
      · subst h; simp [oneAt_same]
      · rw [Function.update_of_ne h, oneAt_ne h, mul_one]
    have h1 : ∀ g', Generated (lie g') (disc g') (Function.update M g 1 g') := by
      intro g'
      by_cases h : g' = g
      · subst h; simpa using Generated.one
      · rw [Function.update_of_ne h]; exact hM g'
    have h2 : ∀ g', Generated (lie g') (disc g') (oneAt W g (M g) g') := by
      intro g'
      by_cases h : g' = g
      · subst h; rw [oneAt_same]; exact hM g'
      · rw [oneAt_ne h]; exact .one
    have h3 := ih h1 fun g' hg' => by
      by_cases h : g' = g
      · subst h; simp
      · rw [Function.update_of_ne h]; exact hgs g' (by simp [h, hg'])
    rw [e, Rep.mat_mul (at_sized _) (at_sized _) (at_mul ha h1 h2) hr,
      DMat.mulVec_mul _ _ _ (by rw [(Rep.mat_sq (at_sized _) hr).2, (Rep.mat_sq (at_sized _) hr).1]),
      fixed_one_group ha hdisc hr hv hfix g (hM g), h3]

/-- **C25.** In particular it is fixed by every matrix `G.samples(N)` can return, whatever the random numbers. -/
theorem C25_samples (ha : ∀ k g, (a k g).Hom (lie g) (disc g)) (hdisc : ∀ g, ∀ h ∈ disc g, IsUnit h.det) (hr : r.WF W) (hv : v.length = r.size W)
    (hfix : r.Fixed W (gensOf W a lie disc) v) (g : Gid) (z : List ℝ) (ks : List (List ℤ)) (orders : List (List ℕ))
    (ho : ∀ o ∈ orders, ∀ i ∈ o, i < (disc g).length) :
    (r.mat (Interp.at W a (oneAt W g (noise2sample z ks (lie g) (disc g) orders)))).mulVec v = v :=
  fixed_one_group ha hdisc hr hv hfix g (sample_generated z ks orders ho)

end

/-- The contract `AtomRep.Hom` follows from what the library documents: `rho` is multiplicative and `drho(A)` is the
derivative of `rho(exp(tA))` at `t = 0` (representation.py:40-43 computes it as a Jacobian-vector product at the identity). -/
theorem AtomRep.hom_of_deriv {n m : ℕ} (a : AtomRep 𝕜 n m) {lie disc : List (Matrix (Fin n) (Fin n) 𝕜)}
    (mul : ∀ g h, Generated lie disc g → Generated lie disc h → a.rho (g * h) = a.rho g * a.rho h)
    (deriv : ∀ A ∈ Submodule.span ℝ {A | A ∈ lie}, ∀ i j, HasDerivAt (fun t : ℝ => a.rho (NormedSpace.exp (t • A)) i j) (a.drho A i j) 0) :
    a.Hom lie disc where
  mul := mul
  exp A hA := by
    have hu : ∀ t : ℝ, Generated lie disc (NormedSpace.exp (t • A)) := fun t => .exp (Submodule.smul_mem _ t hA)
    have := oneParam_eq_exp (fun t : ℝ => a.rho (NormedSpace.exp (t • A))) (a.drho A) (by simp [a.one])
      (fun s t => by
        rw [add_smul, Matrix.exp_add_of_commute _ _ (((Commute.refl A).smul_left s).smul_right t), mul _ _ (hu _) (hu _)])
      (deriv A hA)
    simpa using this

/-! A case of **C25**: the group of dimension 2 generated by the exchange `J` of the two coordinates and `exp(t(J-1))`,
acting on `V`; the vector `(1,1)` is fixed. -/

/-- Reversal of the coordinates. -/
def revM (n : ℕ) : Matrix (Fin n) (Fin n) ℝ := Matrix.of fun i j => if i.val + j.val + 1 = n then 1 else 0

theorem revM_det : (revM 2).det = -1 := by simp [revM, Matrix.det_fin_two]

theorem mulVec_two (A : Matrix (Fin 2) (Fin 2) ℝ) : (DMat.ofMatrix A).mulVec [1, 1] = [A 0 0 + A 0 1, A 1 0 + A 1 1] := by
  refine DMat.vec_ext (by simp [DMat.ofMatrix]) fun i hi => ?_
  have hi' : i < 2 := by simpa [DMat.ofMatrix] using hi
  rw [DMat.getD_mulVec hi', show (DMat.ofMatrix A).cols = 2 from rfl]
  simp only [Finset.sum_range_succ, Finset.sum_range_zero]
  rw [DMat.ofMatrix_e A hi' (j := 0) (by norm_num), DMat.ofMatrix_e A hi' (j := 1) (by norm_num)]
  rcases (by omega : i = 0 ∨ i = 1) with rfl | rfl <;> simp

theorem revM_fix : (DMat.ofMatrix (revM 2)).mulVec [1, 1] = [1, 1] := by
  rw [mulVec_two]; simp [revM]

theorem revM_kill : (DMat.ofMatrix (revM 2 - 1)).mulVec [1, 1] = [0, 0] := by
  rw [mulVec_two]; simp [revM]

/-- The generators: only group 3 has any. -/
def exLie (g : Gid) : List (Matrix (Fin (exW.d g)) (Fin (exW.d g)) ℝ) := if g = 3 then [revM _ - 1] else []
def exDisc (g : Gid) : List (Matrix (Fin (exW.d g)) (Fin (exW.d g)) ℝ) := if g = 3 then [revM _] else []

example (custom : ∀ k g, AtomRep ℝ (exW.d g) (exW.usize k g)) (hc : ∀ k g, (custom k g).Hom (exLie g) (exDisc g)) {M : ∀ g, Matrix (Fin (exW.d g)) (Fin (exW.d g)) ℝ}
    (hM : ∀ g, Generated (exLie g) (exDisc g) (M g)) {gs : List Gid} (hgs : ∀ g ∉ gs, M g = 1) :
    ((Rep.key (.fac (.atom (.vec 0 (some 3))))).mat (Interp.at exW (stdAtoms exW custom) M)).mulVec [1, 1] = [1, 1] := by
  refine C25_generated (stdAtoms_hom hc) (lie := exLie) (disc := exDisc) (W := exW) (gs := gs) ?_ ?_ ?_ ?_ hM hgs
  · intro g h hh
    by_cases hg : g = 3
    · subst hg
      have hh' : h = revM (exW.d 3) := mem_singleton.1 hh
      rw [hh']
      have : (revM (exW.d 3)).det = -1 := revM_det
      rw [this]
      norm_num
    · simp [exDisc, hg] at hh
  · rfl
  · rfl
  · intro g
    by_cases hg : g = 3
    · subst hg
      constructor
      · intro h hh
        have hh' : h = Interp.at exW (stdAtoms exW custom) (oneAt exW 3 (revM (exW.d 3))) := mem_singleton.1 hh
        subst hh'
        show (DMat.ofMatrix (oneAt exW 3 (revM (exW.d 3)) 3)).mulVec [1, 1] = [1, 1]
        rw [oneAt_same]
        exact revM_fix
      · intro h hh
        have hh' : h = Interp.dat exW (stdAtoms exW custom) (zeroAt exW 3 (revM (exW.d 3) - 1)) := mem_singleton.1 hh
        subst hh'
        show (DMat.ofMatrix (zeroAt exW 3 (revM (exW.d 3) - 1) 3)).mulVec [1, 1] = [0, 0]
        rw [zeroAt_same]
        exact revM_kill
    · constructor
      · intro h hh; simp [gensOf, exDisc, hg] at hh
      · intro h hh; simp [gensOf, exLie, hg] at hh

end Verif
