import Verif.Lemmas.ApproxExp
import Verif.Lemmas.RepUnit
import Verif.Props.Sampled

/-! How far words in the generators move an approximately invariant vector. -/
namespace Verif
open List DMat NormedSpace
variable {𝕜 : Type} [RCLike 𝕜]

theorem Word.nonneg {n : Type} [Fintype n] [DecidableEq n] {lie disc : List (Matrix n n 𝕜)} {κ : ℝ} {h : Matrix n n 𝕜}
    (hw : Word lie disc κ h) : 0 ≤ κ := by
  induction hw with
  | one => exact le_rfl
  | exp z _ => exact sum_nonneg fun x hx => by obtain ⟨y, -, rfl⟩ := mem_map.1 hx; exact abs_nonneg y
  | gen _ => exact zero_le_one
  | inv _ => exact zero_le_one
  | mul _ _ h1 h2 => exact add_nonneg h1 h2

theorem comb_mem {n : Type} [Fintype n] [DecidableEq n] {S : Submodule ℝ (Matrix n n 𝕜)} : ∀ (z : List ℝ) {l : List (Matrix n n 𝕜)},
    (∀ A ∈ l, A ∈ S) → (zipWith (fun (c : ℝ) (A : Matrix n n 𝕜) => c • A) z l).sum ∈ S
  | [], _, _ => by simp
  | _ :: _, [], _ => by simp
  | c :: z, A :: l, h => by
    rw [zipWith_cons_cons, sum_cons]
    exact S.add_mem (S.smul_mem c (h A (by simp))) (comb_mem z fun B hB => h B (by simp [hB]))

theorem Word.generated {n : Type} [Fintype n] [DecidableEq n] {lie disc : List (Matrix n n 𝕜)} {κ : ℝ} {h : Matrix n n 𝕜}
    (hw : Word lie disc κ h) : Generated lie disc h := by
  induction hw with
  | one => exact .one
  | exp z _ => exact .exp (comb_mem z fun A hA => Submodule.subset_span hA)
  | gen h => exact .gen h
  | inv h => exact .inv h
  | mul _ _ h1 h2 => exact .mul h1 h2

variable {W : World} {a : ∀ k g, AtomRep 𝕜 (W.d g) (W.asize k g)} {lie disc : ∀ g, List (Matrix (Fin (W.d g)) (Fin (W.d g)) 𝕜)} {r : Rep}

theorem oneAt_one (g : Gid) : oneAt W g (1 : Matrix (Fin (W.d g)) (Fin (W.d g)) 𝕜) = fun g' => (1 : Matrix (Fin (W.d g')) (Fin (W.d g')) 𝕜) := by
  funext g'
  by_cases e : g' = g
  · subst e; rw [oneAt_same]
  · rw [oneAt_ne e]

theorem oneAt_mul (g : Gid) (h h' : Matrix (Fin (W.d g)) (Fin (W.d g)) 𝕜) : oneAt W g (h * h') = fun g' => (oneAt W g h g') * oneAt W g h' g' := by
  funext g'
  by_cases e : g' = g
  · subst e; simp only [oneAt_same]
  · rw [oneAt_ne e, oneAt_ne e, oneAt_ne e, one_mul]

theorem oneAt_generated {g : Gid} {h : Matrix (Fin (W.d g)) (Fin (W.d g)) 𝕜} (hg : Generated (lie g) (disc g) h) (g' : Gid) :
    Generated (lie g') (disc g') (oneAt W g h g') := by
  by_cases e : g' = g
  · subst e; rwa [oneAt_same]
  · rw [oneAt_ne e]; exact .one

theorem zeroAt_lin (g : Gid) (c e : ℝ) (A B : Matrix (Fin (W.d g)) (Fin (W.d g)) 𝕜) :
    zeroAt W g (c • A + e • B) = fun g' => c • (zeroAt W g A g') + e • zeroAt W g B g' := by
  funext g'
  by_cases h : g' = g
  · subst h; simp only [zeroAt_same]
  · rw [zeroAt_ne h, zeroAt_ne h, zeroAt_ne h, smul_zero, smul_zero, add_zero]

theorem at_only (hr : r.WF W) (g : Gid) (h : Matrix (Fin (W.d g)) (Fin (W.d g)) 𝕜) :
    r.mat ((Interp.at W a (oneAt W g h)).only W g) = r.mat (Interp.at W a (oneAt W g h)) := by
  refine Rep.mat_congr ((at_sized _).only g) (fun k g' => ?_) (fun k g' => ?_) hr
  · simp only [Interp.only]
    by_cases e : g' = g
    · rw [if_pos e]
    · rw [if_neg e]
      show DMat.one _ = DMat.ofMatrix ((a k g').rho (oneAt W g h g'))
      rw [oneAt_ne e, (a k g').one, DMat.ofMatrix_one]
  · simp only [Interp.only]
    by_cases e : g' = g
    · rw [if_pos e]
    · rw [if_neg e]
      show DMat.one _ = DMat.ofMatrix ((a k g').rho (oneAt W g h g'))⁻¹.transpose
      rw [oneAt_ne e, (a k g').one, inv_one, Matrix.transpose_one, DMat.ofMatrix_one]

theorem dat_only (hr : r.WF W) (g : Gid) (A : Matrix (Fin (W.d g)) (Fin (W.d g)) 𝕜) :
    r.dmat ((Interp.dat W a (zeroAt W g A)).onlyD W g) = r.dmat (Interp.dat W a (zeroAt W g A)) := by
  refine Rep.dmat_congr ((dat_sized _).onlyD g) (fun k g' => ?_) (fun k g' => ?_) hr
  · simp only [Interp.onlyD]
    by_cases e : g' = g
    · rw [if_pos e]
    · rw [if_neg e]
      show DMat.zero _ _ = DMat.ofMatrix ((a k g').drho (zeroAt W g A g'))
      rw [zeroAt_ne e, map_zero, DMat.ofMatrix_zero]
  · simp only [Interp.onlyD]
    by_cases e : g' = g
    · rw [if_pos e]
    · rw [if_neg e]
      show DMat.zero _ _ = DMat.ofMatrix (-((a k g').drho (zeroAt W g A g')).transpose)
      rw [zeroAt_ne e, map_zero, Matrix.transpose_zero, neg_zero, DMat.ofMatrix_zero]

/-- `drho` of a Lie algebra element of one group, as a matrix. -/
noncomputable def dMat (W : World) (a : ∀ k g, AtomRep 𝕜 (W.d g) (W.asize k g)) (r : Rep) (g : Gid)
    (A : Matrix (Fin (W.d g)) (Fin (W.d g)) 𝕜) : Matrix (Fin (r.size W)) (Fin (r.size W)) 𝕜 :=
  (r.dmat (Interp.dat W a (zeroAt W g A))).toMatrix (r.size W) (r.size W)

theorem dMat_lin (hr : r.WF W) (g : Gid) (c e : ℝ) (A B : Matrix (Fin (W.d g)) (Fin (W.d g)) 𝕜) :
    dMat W a r g (c • A + e • B) = c • dMat W a r g A + e • dMat W a r g B := by
  unfold dMat
  rw [zeroAt_lin, Rep.dmat_op (DMat.lin_compat _ _) (dat_sized _) (dat_sized _) (dat_lin c e _ _) hr]
  have s := Rep.dmat_sq (dat_sized (a := a) (zeroAt W g A)) hr
  ext i j
  show (DMat.lin (c : 𝕜) (e : 𝕜) _ _).e i j = c • _ + e • _
  rw [lin_e (by rw [s.1]; exact i.2) (by rw [s.2]; exact j.2), RCLike.real_smul_eq_coe_mul, RCLike.real_smul_eq_coe_mul]
  rfl

theorem dMat_smul (hr : r.WF W) (g : Gid) (c : ℝ) (A : Matrix (Fin (W.d g)) (Fin (W.d g)) 𝕜) :
    dMat W a r g (c • A) = c • dMat W a r g A := by
  have := dMat_lin (a := a) hr g c 0 A A
  simpa using this

theorem dMat_add (hr : r.WF W) (g : Gid) (A B : Matrix (Fin (W.d g)) (Fin (W.d g)) 𝕜) :
    dMat W a r g (A + B) = dMat W a r g A + dMat W a r g B := by
  have := dMat_lin (a := a) hr g 1 1 A B
  simpa using this

theorem dMat_zero (hr : r.WF W) (g : Gid) : dMat W a r g 0 = 0 := by
  have := dMat_smul (a := a) hr g 0 0
  simpa using this

theorem mat_exp (ha : ∀ k g, (a k g).Hom (lie g) (disc g)) (hr : r.WF W) (g : Gid) {A : Matrix (Fin (W.d g)) (Fin (W.d g)) 𝕜}
    (hA : A ∈ Submodule.span ℝ {B | B ∈ lie g}) :
    (r.mat (Interp.at W a (oneAt W g (exp A)))).toMatrix (r.size W) (r.size W) = exp (dMat W a r g A) := by
  have e : oneAt W g (exp A) = fun g' => exp (zeroAt W g A g') := funext fun g' => (update_exp g A g').symm
  rw [e]
  refine (Rep.isExp (at_exp ha fun g' => ?_) hr).eq
  by_cases e : g' = g
  · subst e; rwa [zeroAt_same]
  · rw [zeroAt_ne e]; exact Submodule.zero_mem _

theorem unit_norm {n : ℕ} {A : DMat 𝕜} (hA : A.Unit n) {x : List 𝕜} (hx : x.length = n) : ‖toEu n (A.mulVec x)‖ = ‖toEu n x‖ := by
  rw [← pow_left_inj₀ (norm_nonneg _) (norm_nonneg _) two_ne_zero, toEu_norm (by simp [hA.sq.1]), toEu_norm hx,
    nrm2_unitary (by rw [hA.orth, hA.sq.2]) (by rw [hx, hA.sq.2])]

theorem unit_dist {n : ℕ} {A : DMat 𝕜} (hA : A.Unit n) {x y : List 𝕜} (hx : x.length = n) :
    ‖toEu n (A.mulVec x) - toEu n (A.mulVec y)‖ = ‖toEu n x - toEu n y‖ := by
  rw [← pow_left_inj₀ (norm_nonneg _) (norm_nonneg _) two_ne_zero, toEu_dist (by simp [hA.sq.1]), toEu_dist hx,
    dist2_unitary (by rw [hA.orth, hA.sq.2]) (by rw [hx, hA.sq.2])]

theorem getD_ofFn_fun {n : ℕ} (u : Fin n → 𝕜) : (fun i : Fin n => (ofFn u).getD i 0) = u := by
  funext i
  rw [getD_eq_getElem _ _ (by simp), List.getElem_ofFn]

section
variable {ε : ℝ} {v : List 𝕜} {g : Gid}

theorem near_word (ha : ∀ k g, (a k g).Hom (lie g) (disc g)) (hdisc : ∀ h ∈ disc g, IsUnit h.det) (hr : r.WF W)
    (hU : ∀ h, Generated (lie g) (disc g) h → (r.mat (Interp.at W a (oneAt W g h))).Unit (r.size W)) (hε : 0 ≤ ε) (hv : v.length = r.size W)
    (hnear : r.NearFixed W (gensOf W a lie disc) ε v) {κ : ℝ} {h : Matrix (Fin (W.d g)) (Fin (W.d g)) 𝕜} (hw : Word (lie g) (disc g) κ h) :
    ‖toEu (r.size W) ((r.mat (Interp.at W a (oneAt W g h))).mulVec v) - toEu (r.size W) v‖ ≤ κ * ε * ‖toEu (r.size W) v‖ := by
  have sq : ∀ M, (r.mat (Interp.at W a M)).IsSq (r.size W) := fun M => Rep.mat_sq (at_sized _) hr
  have n0 := norm_nonneg (toEu (r.size W) v)
  have hgen : ∀ h ∈ disc g, ‖toEu (r.size W) ((r.mat (Interp.at W a (oneAt W g h))).mulVec v) - toEu (r.size W) v‖ ≤ ε * ‖toEu (r.size W) v‖ := by
    intro h hh
    have := (hnear g).1 (Interp.at W a (oneAt W g h)) (mem_map_of_mem (f := fun h => Interp.at W a (oneAt W g h)) hh)
    beta_reduce at this
    rw [at_only hr] at this
    rw [← pow_le_pow_iff_left₀ (norm_nonneg _) (by positivity) two_ne_zero, mul_pow, toEu_dist (by simp [(sq _).1]), toEu_norm hv]
    exact this
  have hlie : ∀ A ∈ lie g, ‖WithLp.toLp 2 ((dMat W a r g A).mulVec fun i => v.getD i 0)‖ ≤ ε * ‖toEu (r.size W) v‖ := by
    intro A hA
    have := (hnear g).2 (Interp.dat W a (zeroAt W g A)) (mem_map_of_mem (f := fun h => Interp.dat W a (zeroAt W g h)) hA)
    beta_reduce at this
    rw [dat_only hr] at this
    have s := Rep.dmat_sq (dat_sized (a := a) (zeroAt W g A)) hr
    rw [← pow_le_pow_iff_left₀ (norm_nonneg _) (by positivity) two_ne_zero, mul_pow, toEu_norm hv]
    unfold dMat
    rw [← toEu_mulVec s, toEu_norm (by simp [s.1])]
    exact this
  have hcomb : ∀ (z : List ℝ) (l : List (Matrix (Fin (W.d g)) (Fin (W.d g)) 𝕜)), (∀ A ∈ l, A ∈ lie g) →
      ‖WithLp.toLp 2 ((dMat W a r g (zipWith (fun (c : ℝ) (A : Matrix _ _ 𝕜) => c • A) z l).sum).mulVec fun i => v.getD i 0)‖ ≤
        (z.map abs).sum * ε * ‖toEu (r.size W) v‖ := by
    intro z
    induction z with
    | nil => intro l _; simp [dMat_zero hr]
    | cons c z ih =>
      intro l hl
      cases l with
      | nil =>
        rw [zipWith_nil_right, sum_nil, dMat_zero hr, Matrix.zero_mulVec, WithLp.toLp_zero, norm_zero]
        have : 0 ≤ ((c :: z).map abs).sum := sum_nonneg fun x hx => by obtain ⟨y, -, rfl⟩ := mem_map.1 hx; exact abs_nonneg y
        positivity
      | cons A l =>
        have h1 := ih l fun B hB => hl B (by simp [hB])
        have h2 := hlie A (hl A (by simp))
        rw [zipWith_cons_cons, sum_cons, dMat_add hr, dMat_smul hr, Matrix.add_mulVec, Matrix.smul_mulVec, WithLp.toLp_add, WithLp.toLp_smul,
          map_cons, sum_cons]
        refine (norm_add_le _ _).trans ?_
        rw [norm_smul, Real.norm_eq_abs]
        have := mul_le_mul_of_nonneg_left h2 (abs_nonneg c)
        linarith
  induction hw with
  | one => rw [oneAt_one, Rep.mat_one at_one hr, mulVec_one _ hv]; simp
  | gen h => rw [one_mul]; exact hgen _ h
  | inv hmem =>
    rename_i h
    have h1 := Rep.mat_mul (at_sized (a := a) _) (at_sized _) (at_mul ha (oneAt_generated (.inv hmem)) (oneAt_generated (.gen hmem))) hr
    rw [← oneAt_mul, Matrix.nonsing_inv_mul _ (hdisc h hmem), oneAt_one, Rep.mat_one at_one hr] at h1
    have h2 := congrArg (fun X => X.mulVec v) h1
    beta_reduce at h2
    rw [mulVec_one _ hv, mulVec_mul _ _ _ (by rw [(sq _).2, (sq _).1])] at h2
    have h3 := unit_dist (hU _ (.inv hmem)) (x := v) (y := (r.mat (Interp.at W a (oneAt W g h))).mulVec v) hv
    rw [← h2] at h3
    rw [h3, norm_sub_rev, one_mul]
    exact hgen h hmem
  | mul hg hg' ih1 ih2 =>
    rename_i κ κ' x y
    rw [oneAt_mul, Rep.mat_mul (at_sized _) (at_sized _) (at_mul ha (oneAt_generated hg.generated) (oneAt_generated hg'.generated)) hr,
      mulVec_mul _ _ _ (by rw [(sq _).2, (sq _).1])]
    have h3 := unit_dist (hU _ hg.generated) (x := (r.mat (Interp.at W a (oneAt W g y))).mulVec v) (y := v) (by simp [(sq _).1])
    have := norm_sub_le_norm_sub_add_norm_sub (toEu (r.size W) ((r.mat (Interp.at W a (oneAt W g x))).mulVec ((r.mat (Interp.at W a (oneAt W g y))).mulVec v)))
      (toEu (r.size W) ((r.mat (Interp.at W a (oneAt W g x))).mulVec v)) (toEu (r.size W) v)
    rw [h3] at this
    linarith
  | exp z hz =>
    obtain ⟨A, hA⟩ : ∃ A, A = (zipWith (fun (c : ℝ) (A : Matrix (Fin (W.d g)) (Fin (W.d g)) 𝕜) => c • A) z (lie g)).sum := ⟨_, rfl⟩
    have hAs : A ∈ Submodule.span ℝ {B | B ∈ lie g} := by rw [hA]; exact comb_mem z fun A hA => Submodule.subset_span hA
    have h1 := hcomb z (lie g) fun _ h => h
    rw [← hA] at h1 ⊢
    refine le_trans ?_ h1
    rw [toEu_mulVec (sq _), mat_exp ha hr g hAs]
    refine exp_move _ _ fun t u => ?_
    have hts : t • A ∈ Submodule.span ℝ {B | B ∈ lie g} := Submodule.smul_mem _ t hAs
    have h2 := unit_norm (hU _ (.exp hts)) (x := ofFn u) (by simp)
    rw [toEu_mulVec (sq _), mat_exp ha hr g hts, dMat_smul hr, toEu, getD_ofFn_fun] at h2
    exact h2

end

end Verif
