import Verif.Lemmas.ApproxLayer
import Verif.Lemmas.SvdExists
import Verif.Props.NullSpace
import Verif.Props.ExampleWorld

/-!
# What is left of equivariance when null spaces are computed up to a threshold (C110)
-/
namespace Verif
open List DMat NormedSpace

section
variable {𝕜 : Type} [RCLike 𝕜] {W : World} {gens : Gid → GenSet 𝕜} {ε : ℝ} {solve : ℕ → LinOp 𝕜 → Py (DMat 𝕜)}

/-- **C110.** The SVD routine achieves `1e-5` on constraint matrices of at most `3e7` entries, whatever their singular values are; so the
two routines together achieve it if the iterative one does on larger matrices (or raises there). -/
theorem C110_solver (svd : DMat 𝕜 → SVD 𝕜) (krylov : ℕ → LinOp 𝕜 → Py (DMat 𝕜))
    (hsvd : ∀ (f : Fac) C, f.constraintMatrix W gens = .ok C → IsSVD C.sem (svd C.sem))
    (hkry : KrylovNear W gens 1e-5 krylov) : SolverNear W gens 1e-5 (nullSpace svd krylov) := by
  intro n f C Q hC hQ
  rw [nullSpace] at hQ
  split at hQ
  · rename_i hl
    exact hkry n f C Q hC hl hQ
  injection hQ with hQ
  rw [← hQ]
  obtain ⟨h1, h2, h3, h4⟩ := C28_orthogonal_complement (hsvd f C hC)
  exact ⟨h1, h2, h3, h4⟩

/-- **C110.** After any history of calls, `equivariant_basis()` returns orthonormal columns that span at least the invariant vectors;
every vector `v` of their span is moved by at most `ε|v|` by each discrete generator and is mapped to something of length at most
`ε|v|` by each Lie algebra generator. -/
theorem C110_basis (hs : GenSet.Sized W gens) (hsol : SolverNear W gens ε solve) {r : Rep} (hw : r.WF W) (hone : r.OnePerGroup)
    (calls : List SolveCall) {L : LinOp 𝕜} (hL : (r.equivariantBasis W gens solve (session W gens solve calls freshSt)).1 = .ok L) :
    NearBasis (r.size W) L.sem (r.Fixed W gens) (r.NearFixed W gens ε) :=
  (Rep.basis_near hs hsol hw hone _ (fresh_keeps (P := NearNull ε) (fun n f C Q h1 h2 => hsol n f C Q h1 h2) calls)).2 L hL

/-- **C110.** Likewise everything `equivariant_projector()` maps a vector to is approximately invariant. -/
theorem C110_projector (hs : GenSet.Sized W gens) (hsol : SolverNear W gens ε solve) {r : Rep} (hw : r.WF W) (hone : r.OnePerGroup)
    (calls : List SolveCall) {L : LinOp 𝕜} (hL : (r.equivariantProjector W gens solve (session W gens solve calls freshSt)).1 = .ok L) :
    L.sem.IsSq (r.size W) ∧ ∀ v : List 𝕜, v.length = r.size W → r.NearFixed W gens ε (L.sem.mulVec v) := by
  obtain ⟨Q, hQ, e⟩ := (Rep.projector_near hs hsol hw hone _ (fresh_keeps (P := NearNull ε) (fun n f C Q h1 h2 => hsol n f C Q h1 h2) calls)).2 L hL
  refine ⟨by rw [e]; exact ⟨hQ.rows, hQ.rows⟩, fun v hv => ?_⟩
  rw [e, mulVec_mul _ _ _ rfl]
  exact hQ.near _ (by simp)

end

/-- **C110.** Over the reals the projector does not make vectors longer and leaves the invariant vectors alone. -/
theorem C110_projector_real {W : World} {gens : Gid → GenSet ℝ} {ε : ℝ} {solve : ℕ → LinOp ℝ → Py (DMat ℝ)} (hs : GenSet.Sized W gens)
    (hsol : SolverNear W gens ε solve) {r : Rep} (hw : r.WF W) (hone : r.OnePerGroup) (calls : List SolveCall) {L : LinOp ℝ}
    (hL : (r.equivariantProjector W gens solve (session W gens solve calls freshSt)).1 = .ok L) {v : List ℝ} (hv : v.length = r.size W) :
    nrm (L.sem.mulVec v) ≤ nrm v ∧ (r.Fixed W gens v → L.sem.mulVec v = v) := by
  obtain ⟨Q, hQ, e⟩ := (Rep.projector_near hs hsol hw hone _ (fresh_keeps (P := NearNull ε) (fun n f C Q h1 h2 => hsol n f C Q h1 h2) calls)).2 L hL
  refine ⟨bessel_nrm hQ e hv, fun hf => ?_⟩
  obtain ⟨a, ha, rfl⟩ := hQ.complete v hv hf
  have ht : Q.transpose = Q.conjTranspose := DMat.ext rfl rfl fun i j _ _ => by rw [transpose_e, conjTranspose_e]; rfl
  rw [e, ← mulVec_mul _ _ _ (by rw [mul_cols, transpose_cols]), ht, mul_assoc' _ _ _ (by simp), hQ.orth, DMat.mul_one' (n := Q.cols) _ rfl]

section
variable {W : World} {custom : ∀ k g, AtomRep ℝ (W.d g) (W.usize k g)} {lie disc : ∀ g, List (Matrix (Fin (W.d g)) (Fin (W.d g)) ℝ)}
  {g : Gid} {ε : ℝ}

/-- **C110.** An element of an orthogonal group written as a word of size `κ` in the generators moves an approximately invariant
vector `v` by at most `κε|v|`. -/
theorem C110_elements (ok : GroupsOK W custom lie disc) (ho : W.orth g = true) {r : Rep} (hr : r.WF W) (hε : 0 ≤ ε) {v : List ℝ}
    (hv : v.length = r.size W) (hnear : r.NearFixed W (gensOf W (stdAtoms W custom) lie disc) ε v) {κ : ℝ}
    {h : Matrix (Fin (W.d g)) (Fin (W.d g)) ℝ} (hw : Word (lie g) (disc g) κ h) :
    dst ((r.mat (Interp.elem W custom g h)).mulVec v) v ≤ κ * ε * nrm v :=
  near_elem ok ho hr hε hv hnear hw

theorem Word.pow {n : Type} [Fintype n] [DecidableEq n] {lie disc : List (Matrix n n ℝ)} {κ : ℝ} {h : Matrix n n ℝ}
    (hw : Word lie disc κ h) (k : ℕ) : Word lie disc (k * κ) (h ^ k) := by
  induction k with
  | zero => rw [pow_zero, Nat.cast_zero, zero_mul]; exact .one
  | succ k ih => rw [pow_succ, Nat.cast_succ, add_mul, one_mul]; exact ih.mul hw

/-- **C110.** The matrices `G.samples(N)` returns are words of the size of the random numbers. -/
theorem C110_samples {n : ℕ} {lie disc : List (Matrix (Fin n) (Fin n) ℝ)} (z : List ℝ) (hz : z.length = lie.length) (ks : List (List ℤ))
    (orders : List (List ℕ)) (ho : ∀ o ∈ orders, ∀ i ∈ o, i < disc.length) :
    ∃ κ ≤ sampleSize z ks orders, Word lie disc κ (noise2sample z ks lie disc orders) := by
  have hz0 : 0 ≤ (z.map abs).sum := sum_nonneg fun x hx => by obtain ⟨y, -, rfl⟩ := mem_map.1 hx; exact abs_nonneg y
  have hk0 : ∀ (o : List ℕ) (k : ℕ), 0 ≤ (o.map fun i => |(((ks.getD i []).getD k 0 : ℤ) : ℝ)|).sum := fun o k =>
    sum_nonneg fun x hx => by obtain ⟨y, -, rfl⟩ := mem_map.1 hx; exact abs_nonneg _
  unfold noise2sample
  have h0 : ∃ κ ≤ (z.map abs).sum, Word lie disc κ (if lie.length = 0 then (1 : Matrix (Fin n) (Fin n) ℝ) else 1 * NormedSpace.exp (lieComb z lie)) := by
    split
    · exact ⟨0, hz0, .one⟩
    · refine ⟨_, le_rfl, ?_⟩
      rw [one_mul]
      exact .exp z hz
  have hin : ∀ (k : ℕ) (o : List ℕ), (∀ i ∈ o, i < disc.length) → ∀ (g : Matrix (Fin n) (Fin n) ℝ) κ, Word lie disc κ g →
      Word lie disc (κ + (o.map fun i => |(((ks.getD i []).getD k 0 : ℤ) : ℝ)|).sum)
        (o.foldl (fun g i => g * matrixPowerSimple (disc.getD i 1) ((ks.getD i []).getD k 0)) g) := by
    intro k o
    induction o with
    | nil => intro _ g κ hg; simpa using hg
    | cons i o ih =>
      intro ho g κ hg
      rw [foldl_cons, map_cons, sum_cons, ← add_assoc]
      refine ih (fun j hj => ho j (mem_cons_of_mem _ hj)) _ _ (hg.mul ?_)
      have hm : disc.getD i 1 ∈ disc := by
        rw [getD_eq_getElem _ _ (ho i mem_cons_self)]; exact getElem_mem _
      generalize (ks.getD i []).getD k 0 = p
      unfold matrixPowerSimple
      rw [powLoop_eq, powLoop_eq]
      split
      · rename_i hp
        have := (Word.inv (lie := lie) hm).pow (-p).toNat
        rw [mul_one] at this
        have e : ((-p).toNat : ℝ) = |(p : ℝ)| := by
          have : (((-p).toNat : ℤ) : ℝ) = ((-p : ℤ) : ℝ) := by rw [Int.toNat_of_nonneg (by omega)]
          rw [Int.cast_natCast] at this
          rw [this, Int.cast_neg, abs_of_neg (by exact_mod_cast hp)]
        rwa [e] at this
      · rename_i hp
        have := (Word.gen (lie := lie) hm).pow p.toNat
        rw [mul_one] at this
        have e : (p.toNat : ℝ) = |(p : ℝ)| := by
          have : ((p.toNat : ℤ) : ℝ) = (p : ℝ) := by rw [Int.toNat_of_nonneg (by omega)]
          rw [Int.cast_natCast] at this
          rw [this, abs_of_nonneg (by push Not at hp; exact_mod_cast hp)]
        rwa [e] at this
  have hout : ∀ (l : List (List ℕ × ℕ)), (∀ p ∈ l, ∀ i ∈ p.1, i < disc.length) → ∀ (g : Matrix (Fin n) (Fin n) ℝ) κ, Word lie disc κ g →
      Word lie disc (κ + (l.map fun p => (p.1.map fun i => |(((ks.getD i []).getD p.2 0 : ℤ) : ℝ)|).sum).sum)
        (l.foldl (fun g (ord, k) => ord.foldl (fun g i => g * matrixPowerSimple (disc.getD i 1) ((ks.getD i []).getD k 0)) g) g) := by
    intro l
    induction l with
    | nil => intro _ g κ hg; simpa using hg
    | cons p l ih =>
      intro hl g κ hg
      rw [foldl_cons, map_cons, sum_cons, ← add_assoc]
      exact ih (fun q hq => hl q (mem_cons_of_mem _ hq)) _ _ (hin p.2 p.1 (hl p mem_cons_self) _ _ hg)
  obtain ⟨κ, hκ, hw⟩ := h0
  simp only
  split
  · refine ⟨κ, hκ.trans (le_add_of_nonneg_right ?_), hw⟩
    exact sum_nonneg fun x hx => by obtain ⟨y, -, rfl⟩ := mem_map.1 hx; exact hk0 _ _
  · refine ⟨_, ?_, hout orders.zipIdx (fun p hp => ho p.1 ?_) _ κ hw⟩
    · unfold sampleSize; linarith
    · have := List.fst_mem_of_mem_zipIdx hp; exact this

/-- **C110.** A linear layer of an orthogonal group, built after any history, commutes with a word of size `κ` up to
`κε(|w||x| + |β|)`, where `w` is the weight (Frobenius norm), `β` the bias and `x` the input. -/
theorem C110_layer {N : ℕ} (hW : W.SingleOK g N) (ok : GroupsOK W custom lie disc) (horth : W.orth g = true) (hε : 0 ≤ ε)
    {solve : ℕ → LinOp ℝ → Py (DMat ℝ)} (hsol : SolverNear W (gensOf W (stdAtoms W custom) lie disc) ε solve) {σ : NetSt ℝ}
    (hσ : NetReach W g (gensOf W (stdAtoms W custom) lie disc) solve σ) {a o : Rep}
    (ha : a.Over W g N) (ho : o.Over W g N) (hN : o.size W * a.size W ≤ N) {L : LinearL ℝ} {σ' : NetSt ℝ}
    (hL : LinearL.init W (gensOf W (stdAtoms W custom) lie disc) solve a o σ = .ok (L, σ')) {w : DMat ℝ} {β x : List ℝ}
    (hw : w.rows = o.size W) (hw' : w.cols = a.size W) (hβ : β.length = o.size W) (hx : x.length = a.size W) {κ : ℝ}
    {h : Matrix (Fin (W.d g)) (Fin (W.d g)) ℝ} (hh : Word (lie g) (disc g) κ h) :
    ∃ y y', L.apply w β x = .ok y ∧ L.apply w β ((a.mat (Interp.elem W custom g h)).mulVec x) = .ok y' ∧
      y.length = o.size W ∧ y'.length = o.size W ∧
      dst y' ((o.mat (Interp.elem W custom g h)).mulVec y) ≤ κ * ε * (nrm w.flat * nrm x + nrm β) :=
  (LinearL.init_near hW gensOf_sized hsol ha ho hN σ (hσ.near hsol) L σ' hL).2.commutes ho.wf (elem_dual ok hh.generated)
    (elem_unit ok horth hh.generated) ha.wf (mul_nonneg hh.nonneg hε)
    (fun _ hr _ hv hn => near_elem ok horth hr hε hv hn hh) hw hw' hβ hx

/-- **C110.** So what `G.samples(N)` returns commutes up to the size of the sample times `1e-5`. -/
theorem C110_layer_samples {N : ℕ} (hW : W.SingleOK g N) (ok : GroupsOK W custom lie disc) (horth : W.orth g = true)
    (svd : DMat ℝ → SVD ℝ) (krylov : ℕ → LinOp ℝ → Py (DMat ℝ))
    (hsvd : ∀ (f : Fac) C, f.constraintMatrix W (gensOf W (stdAtoms W custom) lie disc) = .ok C → IsSVD C.sem (svd C.sem))
    (hkry : KrylovNear W (gensOf W (stdAtoms W custom) lie disc) 1e-5 krylov)
    {σ : NetSt ℝ} (hσ : NetReach W g (gensOf W (stdAtoms W custom) lie disc) (nullSpace svd krylov) σ) {a o : Rep}
    (ha : a.Over W g N) (ho : o.Over W g N) (hN : o.size W * a.size W ≤ N) {L : LinearL ℝ} {σ' : NetSt ℝ}
    (hL : LinearL.init W (gensOf W (stdAtoms W custom) lie disc) (nullSpace svd krylov) a o σ = .ok (L, σ')) {w : DMat ℝ} {β x : List ℝ}
    (hw : w.rows = o.size W) (hw' : w.cols = a.size W) (hβ : β.length = o.size W) (hx : x.length = a.size W)
    (z : List ℝ) (hz : z.length = (lie g).length) (ks : List (List ℤ)) (orders : List (List ℕ)) (hor : ∀ o ∈ orders, ∀ i ∈ o, i < (disc g).length)
    {h : Matrix (Fin (W.d g)) (Fin (W.d g)) ℝ} (hh : h = noise2sample z ks (lie g) (disc g) orders) :
    ∃ y y', L.apply w β x = .ok y ∧ L.apply w β ((a.mat (Interp.elem W custom g h)).mulVec x) = .ok y' ∧
      dst y' ((o.mat (Interp.elem W custom g h)).mulVec y) ≤ sampleSize z ks orders * 1e-5 * (nrm w.flat * nrm x + nrm β) := by
  obtain ⟨κ, hκ, hword⟩ := C110_samples z hz ks orders hor
  rw [← hh] at hword
  obtain ⟨y, y', h1, h2, -, -, h3⟩ := C110_layer hW ok horth (by norm_num) (C110_solver svd krylov hsvd hkry) hσ ha ho hN hL hw hw' hβ hx hword
  refine ⟨y, y', h1, h2, h3.trans ?_⟩
  have n1 : 0 ≤ nrm w.flat * nrm x + nrm β := add_nonneg (mul_nonneg (Real.sqrt_nonneg _) (Real.sqrt_nonneg _)) (Real.sqrt_nonneg _)
  exact mul_le_mul_of_nonneg_right (mul_le_mul_of_nonneg_right hκ (by norm_num)) n1

end

/-! ### Orthogonality is needed, and a case -/

/-- the group of scalings: its Lie algebra is spanned by the identity -/
def scaleLies (g : Gid) : List (Matrix (Fin (exW.d g)) (Fin (exW.d g)) ℝ) := if g = 1 then [1] else []

theorem scale_groups : GroupsOK exW (fun _ _ => trivialAtom _ _) scaleLies fun _ => [] where
  unit g h hh := by simp at hh
  orth g ho := by
    refine ⟨fun A hA => ?_, by simp⟩
    have : g ≠ 1 := by simpa [exW] using ho
    simp [scaleLies, this] at hA
  hom _ _ := trivialAtom_hom _ _
  user k g _ M _ := by simp [trivialAtom]
  perm g hg := by
    have : g = 2 := by simpa [exW] using hg
    subst this
    exact ⟨rfl, by simp⟩

/-- **C110.** Without orthogonality the bound fails: the scaling by `e` is a word of size `1`, and moves a vector that the Lie algebra
generator maps to itself by `(e - 1)` times its length. -/
theorem C110_counterexample_scalings : ∃ (v : List ℝ) (κ : ℝ) (h : Matrix (Fin (exW.d 1)) (Fin (exW.d 1)) ℝ),
    v.length = (Rep.key (.fac (.atom (.vec 0 (some 1))))).size exW ∧
    (Rep.key (.fac (.atom (.vec 0 (some 1))))).NearFixed exW (gensOf exW (stdAtoms exW fun _ _ => trivialAtom _ _) scaleLies fun _ => []) 1 v ∧
    Word (scaleLies 1) [] κ h ∧
    κ * 1 * nrm v < dst (((Rep.key (.fac (.atom (.vec 0 (some 1))))).mat (Interp.elem exW (fun _ _ => trivialAtom _ _) 1 h)).mulVec v) v := by
  have hz : (zipWith (fun (c : ℝ) (A : Matrix (Fin (exW.d 1)) (Fin (exW.d 1)) ℝ) => c • A) [1] (scaleLies 1)).sum = 1 := by
    simp [scaleLies]
  have hw := Word.exp (lie := scaleLies 1) (disc := []) [1] rfl
  rw [hz] at hw
  have he : NormedSpace.exp (1 : Matrix (Fin (exW.d 1)) (Fin (exW.d 1)) ℝ) = Real.exp 1 • (1 : Matrix _ _ ℝ) := by
    rw [← Matrix.diagonal_one, Matrix.exp_diagonal]
    ext i j
    by_cases e : i = j
    · subst e
      simp [Pi.coe_exp, Real.exp_eq_exp_ℝ]
    · simp [Matrix.diagonal, e]
  rw [he] at hw
  refine ⟨[1, 0], _, _, rfl, fun g => ⟨by simp [gensOf], fun A hA => ?_⟩, hw, ?_⟩
  · obtain ⟨B, hB, rfl⟩ := mem_map.1 hA
    by_cases hg : g = 1
    · subst hg
      have : B = 1 := by simpa [scaleLies] using hB
      subst this
      have e : (Rep.key (.fac (.atom (.vec 0 (some 1))))).dmat
          ((Interp.dat exW (stdAtoms exW fun _ _ => trivialAtom _ _) (zeroAt exW 1 1)).onlyD exW 1) = DMat.one 2 := by
        show ((Interp.dat exW (stdAtoms exW fun _ _ => trivialAtom _ _) (zeroAt exW 1 1)).onlyD exW 1 |>.vec 0 (some 1)).sem = _
        simp only [Interp.onlyD]
        show DMat.ofMatrix (zeroAt exW 1 (1 : Matrix (Fin (exW.d 1)) (Fin (exW.d 1)) ℝ) 1) = _
        rw [zeroAt_same, DMat.ofMatrix_one]
        rfl
      beta_reduce
      rw [e, mulVec_one (n := 2) [1, 0] rfl, one_pow, one_mul]
    · simp [scaleLies, hg] at hB
  · have e : (Rep.key (.fac (.atom (.vec 0 (some 1))))).mat (Interp.elem exW (fun _ _ => trivialAtom _ _) 1 (Real.exp 1 • 1)) =
        DMat.ofMatrix (n := 2) (Real.exp 1 • (1 : Matrix (Fin 2) (Fin 2) ℝ)) := by
      show DMat.ofMatrix (oneAt exW 1 (Real.exp 1 • (1 : Matrix (Fin (exW.d 1)) (Fin (exW.d 1)) ℝ)) 1) = _
      rw [oneAt_same]
      rfl
    have e2 : (DMat.ofMatrix (n := 2) (Real.exp 1 • (1 : Matrix (Fin 2) (Fin 2) ℝ))).mulVec [1, 0] = [Real.exp 1, 0] := by
      refine vec_ext rfl fun i hi => ?_
      have hi' : i < 2 := hi
      rw [getD_mulVec (by exact hi')]
      show ∑ j ∈ Finset.range 2, _ = _
      rw [Finset.sum_range_succ, Finset.sum_range_one, DMat.ofMatrix_e _ hi' (by omega), DMat.ofMatrix_e _ hi' (by omega)]
      interval_cases i <;> simp
    rw [e, e2]
    have n1 : nrm ([1, 0] : List ℝ) = 1 := by
      unfold nrm nrm2
      simp [Finset.sum_range_succ]
    have n2 : dst [Real.exp 1, 0] ([1, 0] : List ℝ) = Real.exp 1 - 1 := by
      unfold dst dist2
      have : (0 : ℝ) ≤ Real.exp 1 - 1 := by have := Real.add_one_lt_exp (one_ne_zero (α := ℝ)); linarith
      simp [Finset.sum_range_succ, abs_of_nonneg this, Real.sqrt_sq this]
    rw [n1, n2]
    have := Real.add_one_lt_exp (one_ne_zero (α := ℝ))
    simp only [map_cons, map_nil, abs_one, sum_cons, sum_nil]
    linarith

theorem SolverOK.near {W : World} {gens : Gid → GenSet ℝ} {solve : ℕ → LinOp ℝ → Py (DMat ℝ)} (h : SolverOK W gens solve) (ε : ℝ) :
    SolverNear W gens ε solve := by
  intro n f C Q hC hQ
  have := h n f C Q hC hQ
  refine ⟨this.rows, this.orth, fun v hv hn => (this.span v hv).1 hn, fun a ha => ?_⟩
  have h1 := (this.span (Q.mulVec a) (by simp [this.rows])).2 ⟨a, ha, rfl⟩
  rw [h1]
  have : nrm2 (replicate C.sem.rows (0 : ℝ)) = 0 := by
    unfold nrm2
    refine Finset.sum_eq_zero fun i hi => ?_
    simp only [length_replicate, Finset.mem_range] at hi
    rw [getD_eq_getElem _ _ (by simpa using hi)]
    simp
  rw [this]
  exact mul_nonneg (sq_nonneg _) (nrm2_nonneg _)

/-- The hypotheses of **C110** are met: the layer `V → V` of the group of rotations about an axis, and the rotation by one radian. -/
example : ∃ (solve : ℕ → LinOp ℝ → Py (DMat ℝ)) (L : LinearL ℝ) (σ' : NetSt ℝ),
    SolverNear exW (gensOf exW (stdAtoms exW fun k g => trivialAtom _ _) rotLies fun _ => []) 1e-5 solve ∧
    exW.orth 0 = true ∧
    LinearL.init exW (gensOf exW (stdAtoms exW fun k g => trivialAtom _ _) rotLies fun _ => []) solve (.key (.fac (.atom (.vec 0 (some 0)))))
      (.key (.fac (.atom (.vec 0 (some 0))))) ⟨freshSt, none, 0⟩ = .ok (L, σ') ∧
    Word (rotLies 0) [] 1 (NormedSpace.exp (rotLie (exW.d 0))) := by
  obtain ⟨s, h1, h2⟩ := exists_solver ℝ
  have hσ : NetReach exW 0 (gensOf exW (stdAtoms exW fun k g => trivialAtom _ _) rotLies fun _ => []) (fun _ => s) ⟨freshSt, none, 0⟩ :=
    .start none 0 fun h e => by simp at e
  obtain ⟨L, σ', hL⟩ := (C30_linear (exW_single 0 81 (by decide)) rot_groups (h1 _ _) hσ exV_over exV_over (by decide +kernel)).2 (fun _ _ C _ => h2 C)
  refine ⟨fun _ => s, L, σ', SolverOK.near (h1 _ _) _, rfl, hL, ?_⟩
  have := Word.exp (lie := rotLies 0) (disc := []) [1] rfl
  simpa [rotLies] using this

/-- The hypotheses of `C110_solver`, `C110_layer_samples` (and **C113**) on the two numerical routines can be met for all groups at once, with
routines that always return: every matrix has a singular value decomposition, and an exact iterative routine is near. -/
example (W : World) (gens : Gid → GenSet ℝ) : ∃ (svd : DMat ℝ → SVD ℝ) (krylov : ℕ → LinOp ℝ → Py (DMat ℝ)),
    (∀ (f : Fac) C, f.constraintMatrix W gens = .ok C → IsSVD C.sem (svd C.sem)) ∧ KrylovNear W gens 1e-5 krylov ∧
    (∀ n C, ∃ Q, nullSpace svd krylov n C = .ok Q) := by
  obtain ⟨s, h1, h2⟩ := exists_solver ℝ
  refine ⟨fun C => (exists_svd C).choose, fun _ => s, fun f C _ => (exists_svd C.sem).choose_spec,
    fun n f C Q hC _ hQ => (SolverOK.near (h1 W gens) 1e-5) n f C Q hC hQ, fun n C => ?_⟩
  rw [nullSpace]
  split
  · exact h2 C
  · exact ⟨_, rfl⟩

/-- An approximate solver that is not exact: threshold `1`, on the constraint matrix `[[1]]`, the whole space counts as null. -/
example : NearBasis 1 (DMat.one 1 : DMat ℝ) (Null (DMat.one 1)) fun v => nrm2 ((DMat.one 1).mulVec v) ≤ 1 ^ 2 * nrm2 v :=
  ⟨rfl, (DMat.unit_one 1).orth, fun v hv _ => ⟨v, hv, mulVec_one _ hv⟩, fun a ha => by rw [mulVec_one _ (by simp), one_pow, one_mul]⟩

end Verif
