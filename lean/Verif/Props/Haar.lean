import Verif.Props.GroupMean
import Verif.Lemmas.MeasFam
import Mathlib.Probability.IdentDistrib
import Mathlib.Analysis.Fourier.AddCircle
import Verif.Lemmas.ExpForms

/-! C139: for an orthogonal group with a uniform distribution, the projector and Linear are expectations over random group elements. -/
namespace Verif
open List MeasureTheory ProbabilityTheory

/-- The random matrix `X` is uniformly distributed on the group with these generators: its values are elements, and multiplying it by an element does not change its
distribution (the Haar measure of a compact group). -/
structure UniformLaw {Ω : Type} [MeasurableSpace Ω] (μ : Measure Ω) {n : ℕ} (lie disc : List (Matrix (Fin n) (Fin n) ℝ)) (X : Ω → Matrix (Fin n) (Fin n) ℝ) : Prop where
  prob : IsProbabilityMeasure μ
  mem : ∀ ω, Generated lie disc (X ω)
  inv : ∀ a, Generated lie disc a → IdentDistrib (fun ω i j => (a * X ω) i j) (fun ω i j => X ω i j) μ μ

/-- The expectation of a random vector of length `n`. -/
noncomputable def expVec {Ω : Type} [MeasurableSpace Ω] (μ : Measure Ω) (n : ℕ) (f : Ω → List ℝ) : List ℝ := (range n).map fun i => ∫ ω, (f ω).getD i 0 ∂μ

section
variable {Ω : Type} [MeasurableSpace Ω] {μ : Measure Ω} {n m : ℕ} {f f' : Ω → List ℝ}

theorem length_expVec : (expVec μ n f).length = n := by simp [expVec]

theorem getD_expVec {i : ℕ} (hi : i < n) : (expVec μ n f).getD i 0 = ∫ ω, (f ω).getD i 0 ∂μ := by
  rw [getD_eq_getElem _ _ (by rw [length_expVec]; exact hi)]
  simp [expVec]

theorem expVec_add (h : ∀ ω, (f ω).length = n) (h' : ∀ ω, (f' ω).length = n) (hf : ∀ i < n, Integrable (fun ω => (f ω).getD i 0) μ)
    (hf' : ∀ i < n, Integrable (fun ω => (f' ω).getD i 0) μ) :
    zipWith (· + ·) (expVec μ n f) (expVec μ n f') = expVec μ n fun ω => zipWith (· + ·) (f ω) (f' ω) := by
  refine DMat.vec_ext (by simp [length_expVec]) fun i hi => ?_
  have hi' : i < n := by simpa [length_expVec] using hi
  have key : ∀ u v : List ℝ, u.length = n → v.length = n → (zipWith (· + ·) u v).getD i 0 = u.getD i 0 + v.getD i 0 := fun u v hu hv => by
    rw [getD_eq_getElem _ _ (by simp [hu, hv]; exact hi'), getD_eq_getElem _ _ (by rw [hu]; exact hi'), getD_eq_getElem _ _ (by rw [hv]; exact hi'), getElem_zipWith]
  rw [key _ _ length_expVec length_expVec, getD_expVec hi', getD_expVec hi', getD_expVec hi', ← integral_add (hf i hi') (hf' i hi')]
  exact integral_congr_ae (.of_forall fun ω => (key _ _ (h ω) (h' ω)).symm)

theorem integrable_unflat {x : List ℝ} (hf : ∀ i < m * n, Integrable (fun ω => (f ω).getD i 0) μ) {i : ℕ} (hi : i < m) :
    Integrable (fun ω => ((DMat.unflat m n (f ω)).mulVec x).getD i 0) μ := by
  have e : ∀ ω, ((DMat.unflat m n (f ω)).mulVec x).getD i 0 = ∑ j ∈ Finset.range n, (f ω).getD (i * n + j) 0 * x.getD j 0 := fun ω => by
    rw [DMat.getD_mulVec (A := DMat.unflat m n (f ω)) hi]
    exact Finset.sum_congr rfl fun j hj => congrArg (· * x.getD j 0) (show (DMat.unflat m n (f ω)).e i j = (f ω).getD (i * n + j) 0 from DMat.of_e hi (Finset.mem_range.1 hj))
  simp only [e]
  exact integrable_finset_sum _ fun j hj => (hf _ (mul_add_lt hi (Finset.mem_range.1 hj))).mul_const _

theorem unflat_expVec {x : List ℝ} (hf : ∀ i < m * n, Integrable (fun ω => (f ω).getD i 0) μ) :
    (DMat.unflat m n (expVec μ (m * n) f)).mulVec x = expVec μ m fun ω => (DMat.unflat m n (f ω)).mulVec x := by
  refine DMat.vec_ext (by rw [DMat.length_mulVec, length_expVec]; rfl) fun i hi => ?_
  rw [DMat.length_mulVec] at hi
  have hi' : i < m := hi
  have e : ∀ ω, ((DMat.unflat m n (f ω)).mulVec x).getD i 0 = ∑ j ∈ Finset.range n, (f ω).getD (i * n + j) 0 * x.getD j 0 := fun ω => by
    rw [DMat.getD_mulVec (A := DMat.unflat m n (f ω)) hi']
    exact Finset.sum_congr rfl fun j hj => congrArg (· * x.getD j 0) (show (DMat.unflat m n (f ω)).e i j = (f ω).getD (i * n + j) 0 from DMat.of_e hi' (Finset.mem_range.1 hj))
  rw [getD_expVec hi', DMat.getD_mulVec hi]
  simp only [e]
  rw [integral_finset_sum _ fun j hj => (hf _ (mul_add_lt hi' (Finset.mem_range.1 hj))).mul_const _]
  refine Finset.sum_congr rfl fun j hj => ?_
  have hj' : j < n := Finset.mem_range.1 hj
  rw [show (DMat.unflat m n (expVec μ (m * n) f)).e i j = _ from DMat.of_e hi' hj', getD_expVec (mul_add_lt hi' hj'), integral_mul_const]

/-- The entries of an orthogonal matrix are at most 1. -/
theorem DMat.Unit.abs_le {A : DMat ℝ} (h : A.Unit n) (i j : ℕ) : |A.e i j| ≤ 1 := by
  by_cases hij : i < n ∧ j < n
  · have e := congrArg (fun B : DMat ℝ => B.e j j) h.orth
    beta_reduce at e
    rw [DMat.mul_e (by rw [DMat.conjTranspose_rows, h.sq.2]; exact hij.2) (by rw [h.sq.2]; exact hij.2), DMat.one_e hij.2 hij.2, if_pos rfl, DMat.conjTranspose_cols, h.sq.1] at e
    have e' : ∑ k ∈ Finset.range n, A.e k j ^ 2 = 1 := by
      rw [← e]
      exact Finset.sum_congr rfl fun k _ => by rw [DMat.conjTranspose_e, pow_two]; rfl
    have := Finset.single_le_sum (f := fun k => A.e k j ^ 2) (fun k _ => sq_nonneg _) (Finset.mem_range.2 hij.1)
    rw [e'] at this
    exact (sq_le_one_iff_abs_le_one _).1 this
  · rw [A.out i j (by rw [h.sq.1, h.sq.2]; exact hij)]
    simp

/-- A projector onto the vectors fixed by a group of orthogonal matrices is the expectation of a uniformly distributed element. -/
theorem IsProjector.expect {k : ℕ} {lie disc : List (Matrix (Fin k) (Fin k) ℝ)} {X : Ω → Matrix (Fin k) (Fin k) ℝ} (hX : UniformLaw μ lie disc X)
    {P : DMat ℝ} {F : List ℝ → Prop} (hP : IsProjector n P F) (U : Matrix (Fin k) (Fin k) ℝ → DMat ℝ) (hU : ∀ a, Generated lie disc a → (U a).Unit n)
    (hm : ∀ i j, Measurable fun t : Fin k → Fin k → ℝ => (U (Matrix.of t)).e i j)
    (hρ : ∀ a, Generated lie disc a → ∀ b, Generated lie disc b → U (a * b) = (U a).mul (U b))
    (hF : ∀ v : List ℝ, v.length = n → (F v ↔ ∀ a, Generated lie disc a → (U a).mulVec v = v)) :
    (∀ i j, Integrable (fun ω => (U (X ω)).e i j) μ) ∧ (∀ i j, i < n → j < n → P.e i j = ∫ ω, (U (X ω)).e i j ∂μ) ∧
      ∀ v : List ℝ, v.length = n → (∀ i < n, Integrable (fun ω => ((U (X ω)).mulVec v).getD i 0) μ) ∧ P.mulVec v = expVec μ n fun ω => (U (X ω)).mulVec v := by
  haveI := hX.prob
  have hint : ∀ i j, Integrable (fun ω => (U (X ω)).e i j) μ := fun i j =>
    .of_bound (((hm i j).comp_aemeasurable (hX.inv 1 .one).aemeasurable_snd).aestronglyMeasurable) 1 (.of_forall fun ω => by
      rw [Real.norm_eq_abs]
      exact (hU _ (hX.mem ω)).abs_le i j)
  have hmv : ∀ v : List ℝ, ∀ i < n, ∀ ω, ((U (X ω)).mulVec v).getD i 0 = ∑ j ∈ Finset.range n, (U (X ω)).e i j * v.getD j 0 := fun v i hi ω => by
    rw [DMat.getD_mulVec (by rw [(hU _ (hX.mem ω)).sq.1]; exact hi), (hU _ (hX.mem ω)).sq.2]
  obtain ⟨E, hE⟩ : ∃ E : DMat ℝ, E = DMat.of n n fun i j => ∫ ω, (U (X ω)).e i j ∂μ := ⟨_, rfl⟩
  have sE : E.IsSq n := by rw [hE]; exact ⟨rfl, rfl⟩
  have eE : ∀ i j, i < n → j < n → E.e i j = ∫ ω, (U (X ω)).e i j ∂μ := fun i j hi hj => by rw [hE]; exact DMat.of_e hi hj
  -- multiplication by a constant matrix
  have left : ∀ A : DMat ℝ, A.IsSq n → ∀ i j, i < n → j < n → (A.mul E).e i j = ∫ ω, (A.mul (U (X ω))).e i j ∂μ := fun A hA i j hi hj => by
    rw [DMat.mul_e (by rw [hA.1]; exact hi) (by rw [sE.2]; exact hj), hA.2, Finset.sum_congr rfl fun k hk => by rw [eE k j (Finset.mem_range.1 hk) hj, ← integral_const_mul],
      ← integral_finset_sum _ fun k _ => (hint k j).const_mul _]
    exact integral_congr_ae (.of_forall fun ω => by
      beta_reduce
      rw [DMat.mul_e (by rw [hA.1]; exact hi) (by rw [(hU _ (hX.mem ω)).sq.2]; exact hj), hA.2])
  have stay : ∀ a, Generated lie disc a → (U a).mul E = E := fun a ha => by
    refine DMat.ext (by rw [DMat.mul_rows, (hU a ha).sq.1, sE.1]) rfl fun i j hi hj => ?_
    rw [DMat.mul_rows, (hU a ha).sq.1] at hi
    rw [DMat.mul_cols, sE.2] at hj
    rw [left _ (hU a ha).sq i j hi hj, eE i j hi hj]
    simp only [fun ω => (hρ a ha (X ω) (hX.mem ω)).symm]
    exact ((hX.inv a ha).comp (hm i j)).integral_eq
  have absorb : ∀ a, Generated lie disc a → P.mul (U a) = P := by
    intro a ha
    have h1 : (U a).mul P = P := by
      refine DMat.ext_of_mulVec (n := n) ⟨(hU a ha).sq.1, hP.sq.2⟩ hP.sq fun w hw => ?_
      rw [DMat.mulVec_mul _ _ _ (by rw [(hU a ha).sq.2, hP.sq.1])]
      exact (hF _ (by simp [hP.sq.1])).1 (hP.range w hw) a ha
    have h2 : (U a).conjTranspose.mul P = P := by
      conv_lhs => rw [← h1]
      rw [← DMat.mul_assoc' _ _ _ (by rw [DMat.conjTranspose_cols]), (hU a ha).orth, DMat.one_mul' _ hP.sq.1]
    have h3 := congrArg DMat.conjTranspose h2
    rw [DMat.conjTranspose_mul _ _ (by rw [DMat.conjTranspose_cols, (hU a ha).sq.1, hP.sq.1]), hP.herm, DMat.conjTranspose_conjTranspose] at h3
    exact h3
  have h1 : P.mul E = P := by
    refine DMat.ext rfl (by rw [DMat.mul_cols, sE.2, hP.sq.2]) fun i j hi hj => ?_
    rw [DMat.mul_rows, hP.sq.1] at hi
    rw [DMat.mul_cols, sE.2] at hj
    rw [left _ hP.sq i j hi hj]
    simp only [fun ω => absorb _ (hX.mem ω)]
    simp
  have h2 : P.mul E = E := by
    refine DMat.ext_of_mulVec (n := n) ⟨hP.sq.1, sE.2⟩ sE fun w hw => ?_
    rw [DMat.mulVec_mul _ _ _ (by rw [hP.sq.2, sE.1])]
    refine (hP.fix _ (by simp [sE.1])).1 ((hF _ (by simp [sE.1])).2 fun a ha => ?_)
    rw [← DMat.mulVec_mul _ _ _ (by rw [(hU a ha).sq.2, sE.1]), stay a ha]
  refine ⟨hint, fun i j hi hj => by rw [← h1, h2, eE i j hi hj], fun v hv => ⟨fun i hi => ?_, ?_⟩⟩
  · simp only [hmv v i hi]
    exact integrable_finset_sum _ fun j _ => (hint i j).mul_const _
  rw [← h1, h2]
  refine DMat.vec_ext (by rw [DMat.length_mulVec, length_expVec, sE.1]) fun i hi => ?_
  rw [DMat.length_mulVec, sE.1] at hi
  rw [getD_expVec hi, DMat.getD_mulVec (by rw [sE.1]; exact hi), sE.2]
  simp only [hmv v i hi]
  rw [integral_finset_sum _ fun j _ => (hint i j).mul_const _]
  exact Finset.sum_congr rfl fun j hj => by rw [eE i j hi (Finset.mem_range.1 hj), integral_mul_const]

end

section
variable {W : World} {g : Gid} {N : ℕ} {custom : ∀ k g, AtomRep ℝ (W.d g) (W.usize k g)}
  {lie disc : ∀ g, List (Matrix (Fin (W.d g)) (Fin (W.d g)) ℝ)} {solve : ℕ → LinOp ℝ → Py (DMat ℝ)} {Ω : Type} [MeasurableSpace Ω] {μ : Measure Ω}

/-- Sandwiching the weights between the matrices of an element and its inverse. -/
theorem elem_sandwich (ok : GroupsOK W custom lie disc) (ho : W.orth g = true) {a o : Rep} (ha : a.WF W) (hoo : o.WF W) {h : Matrix (Fin (W.d g)) (Fin (W.d g)) ℝ}
    (hh : Generated (lie g) (disc g) h) {K : DMat ℝ} (k1 : K.rows = o.size W) (k2 : K.cols = a.size W) :
    (DMat.kron (o.mat (Interp.elem W custom g h)) (a.mat (Interp.elem W custom g h))).mulVec K.flat =
      (((o.mat (Interp.elem W custom g h)).mul K).mul (a.mat (Interp.elem W custom g h⁻¹))).flat := by
  have ua := Rep.mat_unit (elem_unit (custom := custom) ok ho hh) ha
  have uo := Rep.mat_unit (elem_unit (custom := custom) ok ho hh) hoo
  rw [DMat.kron_mulVec_flat _ _ _ (by rw [uo.sq.2, k1]) (by rw [ua.sq.2, k2]), elem_inv ok ho ha hh]

/-- The vectors fixed by the representation whose projector a layer uses for its weights. -/
theorem weights_fixed_iff (ok : GroupsOK W custom lie disc) (ho : W.orth g = true) {a o r : Rep} (ha : a.Over W g N) (hoo : o.Over W g N) (hr : r.Over W g N)
    (hz : r.size W = o.size W * a.size W)
    (hint : ∀ I : Interp ℝ, I.Dual W → ∀ M : DMat ℝ, M.rows = o.size W → M.cols = a.size W → ((r.mat I).mulVec M.flat = M.flat ↔ M.mul (a.mat I) = (o.mat I).mul M))
    {v : List ℝ} (hv : v.length = r.size W) : r.Fixed W (gensOf W (stdAtoms W custom) lie disc) v ↔
      ∀ h, Generated (lie g) (disc g) h → (DMat.kron (o.mat (Interp.elem W custom g h)) (a.mat (Interp.elem W custom g h))).mulVec v = v := by
  obtain ⟨K, hK⟩ : ∃ K, K = DMat.unflat (o.size W) (a.size W) v := ⟨_, rfl⟩
  have k1 : K.rows = o.size W := by rw [hK]; rfl
  have k2 : K.cols = a.size W := by rw [hK]; rfl
  have k3 : K.flat = v := by rw [hK]; exact DMat.unflat_flat (by rw [hv, hz])
  rw [fixed_iff_group ok hr hv, ← k3]
  refine forall_congr' fun h => imp_congr_right fun hg => ?_
  have ua := fun {h} (hh : Generated (lie g) (disc g) h) => Rep.mat_unit (elem_unit (custom := custom) ok ho hh) ha.wf
  have uo := Rep.mat_unit (elem_unit (custom := custom) ok ho hg) hoo.wf
  have hi := Generated.inverse (ok.unit g) hg
  rw [hint _ (elem_dual ok hg) K k1 k2, elem_sandwich ok ho ha.wf hoo.wf hg k1 k2]
  constructor
  · intro e
    rw [← e, DMat.mul_assoc' _ _ _ (by rw [k2, (ua hg).sq.1]), elem_mul_inv ok ho ha.wf hg, DMat.mul_one' _ k2]
  · intro e
    have e := DMat.flat_inj (by show (o.mat _).rows = _; rw [uo.sq.1, k1]) (by show (a.mat _).cols = _; rw [(ua hi).sq.2, k2]) e
    conv_lhs => rw [← e]
    rw [DMat.mul_assoc' _ _ _ (by rw [DMat.mul_cols, k2, (ua hi).sq.1]), elem_inv_mul ok ho ha.wf hg, DMat.mul_one' _ (by rw [DMat.mul_cols, k2])]

/-- **C139.** For an orthogonal group with a uniformly distributed random element `X`, `equivariant_projector()` applied to `v` is the expectation of `ρ(X)v`: for every
expression, after any history of calls. -/
theorem C139_projector (hW : W.SingleOK g N) (e : Expr) (he : e.OK W g) (hN : e.bound W g ≤ N) (ok : GroupsOK W custom lie disc) (ho : W.orth g = true)
    (hc : ∀ k i j, Measurable fun t : Fin (W.d g) → Fin (W.d g) → ℝ => (custom k g).rho (Matrix.of t) i j)
    {X : Ω → Matrix (Fin (W.d g)) (Fin (W.d g)) ℝ} (hX : UniformLaw μ (lie g) (disc g) X)
    (hsol : SolverOK W (gensOf W (stdAtoms W custom) lie disc) solve)
    (htot : SolverRuns W (gensOf W (stdAtoms W custom) lie disc) solve) (calls : List SolveCall) :
    ∃ r L, e.eval W g = .ok r ∧
      (r.equivariantProjector W (gensOf W (stdAtoms W custom) lie disc) solve (session W (gensOf W (stdAtoms W custom) lie disc) solve calls freshSt)).1 = .ok L ∧
      ∀ v : List ℝ, v.length = e.dim W g → (∀ i < e.dim W g, Integrable (fun ω => ((e.den g (Interp.elem W custom g (X ω))).1.mulVec v).getD i 0) μ) ∧
        L.sem.mulVec v = expVec μ (e.dim W g) fun ω => (e.den g (Interp.elem W custom g (X ω))).1.mulVec v := by
  obtain ⟨r, hr, hwf, hk, hsz, hm⟩ := e.eval_good hW he hN
  obtain ⟨h1, h2⟩ := C22_equivariant_projector (fun _ => rfl) (gensOf_dual ok).sized hsol hwf (Rep.single_onePerGroup hwf hk) calls
  obtain ⟨L, hL⟩ := h2 htot
  refine ⟨r, L, hr, hL, fun v hv => ?_⟩
  rw [← hsz] at hv ⊢
  have := ((h1 L hL).expect hX (fun h => r.mat (Interp.elem W custom g h)) (fun h hh => Rep.mat_unit (elem_unit (custom := custom) ok ho hh) hwf)
    (Rep.mat_mfam (elem_mfam hc) hwf).ent (fun p hp q hq => elem_mul ok hwf hp hq) fun u hu => fixed_iff_group ok ⟨hwf, hk⟩ hu).2.2 v hv
  simp only [fun ω => hm ℝ _ (elem_dual ok (hX.mem ω))] at this
  exact this

/-- **C139.** For an orthogonal group with a uniformly distributed random element `X`, the number of columns of `equivariant_basis()` is the expectation of the character:
for every expression, after any history of calls. -/
theorem C139_characters (hW : W.SingleOK g N) (e : Expr) (he : e.OK W g) (hN : e.bound W g ≤ N) (ok : GroupsOK W custom lie disc) (ho : W.orth g = true)
    (hc : ∀ k i j, Measurable fun t : Fin (W.d g) → Fin (W.d g) → ℝ => (custom k g).rho (Matrix.of t) i j)
    {X : Ω → Matrix (Fin (W.d g)) (Fin (W.d g)) ℝ} (hX : UniformLaw μ (lie g) (disc g) X)
    (hsol : SolverOK W (gensOf W (stdAtoms W custom) lie disc) solve)
    (htot : SolverRuns W (gensOf W (stdAtoms W custom) lie disc) solve) (calls : List SolveCall) :
    ∃ r L, e.eval W g = .ok r ∧
      (r.equivariantBasis W (gensOf W (stdAtoms W custom) lie disc) solve (session W (gensOf W (stdAtoms W custom) lie disc) solve calls freshSt)).1 = .ok L ∧
      (L.sem.cols : ℝ) = ∫ ω, (e.char (fun k => ((stdAtoms W custom k g).rho (X ω)).trace) fun k => ((stdAtoms W custom k g).rho (X ω))⁻¹.trace).1 ∂μ := by
  obtain ⟨r, hr, hwf, hk, hsz, hm⟩ := e.eval_good hW he hN
  obtain ⟨h1, h2⟩ := C21_equivariant_basis (gensOf_dual ok).sized hsol hwf (Rep.single_onePerGroup hwf hk) calls
  obtain ⟨L, hL⟩ := h2 htot
  refine ⟨r, L, hr, hL, ?_⟩
  have hQ := h1 L hL
  obtain ⟨hint, hP, -⟩ := (hQ.isProjector fun i j => rfl).expect hX (fun h => r.mat (Interp.elem W custom g h))
    (fun h hh => Rep.mat_unit (elem_unit (custom := custom) ok ho hh) hwf) (Rep.mat_mfam (elem_mfam hc) hwf).ent (fun p hp q hq => elem_mul ok hwf hp hq)
    fun u hu => fixed_iff_group ok ⟨hwf, hk⟩ hu
  have hchar : ∀ ω, (e.char (fun k => ((stdAtoms W custom k g).rho (X ω)).trace) fun k => ((stdAtoms W custom k g).rho (X ω))⁻¹.trace).1 =
      ∑ i ∈ Finset.range (r.size W), (r.mat (Interp.elem W custom g (X ω))).e i i := fun ω => by
    have hd := elem_dual ok (hX.mem ω)
    have e1 : ∀ k, ((Interp.elem W custom g (X ω)).vec k (some g)).sem.tr = ((stdAtoms W custom k g).rho (X ω)).trace := fun k => by
      show (DMat.ofMatrix ((stdAtoms W custom k g).rho (oneAt W g (X ω) g))).tr = _
      rw [oneAt_same, ← DMat.tr_toMatrix (n := W.asize k g) ⟨rfl, rfl⟩, DMat.toMatrix_ofMatrix]
    have e2 : ∀ k, ((Interp.elem W custom g (X ω)).dual k (some g)).sem.tr = ((stdAtoms W custom k g).rho (X ω))⁻¹.trace := fun k => by
      show (DMat.ofMatrix ((stdAtoms W custom k g).rho (oneAt W g (X ω) g))⁻¹.transpose).tr = _
      rw [oneAt_same, ← DMat.tr_toMatrix (n := W.asize k g) ⟨rfl, rfl⟩, DMat.toMatrix_ofMatrix, Matrix.trace_transpose]
    rw [← funext e1, ← funext e2, ← (e.tr_den hd).1, ← hm ℝ _ hd, DMat.tr, (Rep.mat_unit (elem_unit (custom := custom) ok ho (hX.mem ω)) hwf).sq.1]
  simp only [hchar]
  rw [integral_finset_sum _ fun i _ => hint i i, ← Finset.sum_congr rfl fun i hi => hP i i (Finset.mem_range.1 hi) (Finset.mem_range.1 hi)]
  -- the trace of the projector
  have ho : ∀ j < L.sem.cols, ∑ i ∈ Finset.range (r.size W), L.sem.e i j * L.sem.e i j = 1 := fun j hj => by
    have e := congrArg (fun B : DMat ℝ => B.e j j) hQ.orth
    beta_reduce at e
    rw [DMat.mul_e (by rw [DMat.conjTranspose_rows]; exact hj) hj, DMat.one_e hj hj, if_pos rfl, DMat.conjTranspose_cols, hQ.rows] at e
    rw [← e]
    exact Finset.sum_congr rfl fun k _ => by rw [DMat.conjTranspose_e]; rfl
  rw [Finset.sum_congr rfl fun i hi => DMat.mul_e (A := L.sem) (B := L.sem.transpose) (by rw [hQ.rows]; exact Finset.mem_range.1 hi)
    (by rw [DMat.transpose_cols, hQ.rows]; exact Finset.mem_range.1 hi), Finset.sum_comm]
  simp only [DMat.transpose_e]
  rw [Finset.sum_congr rfl fun j hj => ho j (Finset.mem_range.1 hj)]
  simp

/-- **C139.** For an orthogonal group with a uniformly distributed random element `X`, a Linear layer with weight `w` and bias `b` is the expectation of the plain layer
with the same parameters between random elements: `ρ_out(X) (w ρ_in(X)⁻¹ x + b)`. -/
theorem C139_linear (hW : W.SingleOK g N) (ok : GroupsOK W custom lie disc) (ho : W.orth g = true)
    (hc : ∀ k i j, Measurable fun t : Fin (W.d g) → Fin (W.d g) → ℝ => (custom k g).rho (Matrix.of t) i j)
    {X : Ω → Matrix (Fin (W.d g)) (Fin (W.d g)) ℝ} (hX : UniformLaw μ (lie g) (disc g) X)
    (hsol : SolverOK W (gensOf W (stdAtoms W custom) lie disc) solve) {a o : Rep} (ha : a.Over W g N) (hoo : o.Over W g N) (hN : o.size W * a.size W ≤ N)
    {L : LinearL ℝ} (hL : L.Built W g (gensOf W (stdAtoms W custom) lie disc) solve a o) {w : DMat ℝ} {b x : List ℝ}
    (h1 : w.rows = o.size W) (h2 : w.cols = a.size W) (h3 : b.length = o.size W) (h4 : x.length = a.size W) :
    L.apply w b x = .ok (expVec μ (o.size W) fun ω =>
      (o.mat (Interp.elem W custom g (X ω))).mulVec (zipWith (· + ·) (w.mulVec ((a.mat (Interp.elem W custom g (X ω)⁻¹)).mulVec x)) b)) := by
  obtain ⟨σ, σ', hσ, hL⟩ := hL
  obtain ⟨nin, nout, ⟨r, hr, hz, hint, hPw⟩, hPb⟩ := (LinearL.init_exact hW gensOf_sized hsol ha hoo hN σ (hσ.ok hsol) L σ' hL).2
  have ua := fun {h} (hh : Generated (lie g) (disc g) h) => Rep.mat_unit (elem_unit (custom := custom) ok ho hh) ha.wf
  have uo := fun {h} (hh : Generated (lie g) (disc g) h) => Rep.mat_unit (elem_unit (custom := custom) ok ho hh) hoo.wf
  have ma := Rep.mat_mfam (elem_mfam hc) ha.wf
  have mo := Rep.mat_mfam (elem_mfam hc) hoo.wf
  obtain ⟨ib, kb⟩ := (hPb.expect hX (fun h => o.mat (Interp.elem W custom g h)) (fun h hh => uo hh) mo.ent (fun p hp q hq => elem_mul ok hoo.wf hp hq)
    fun v hv => fixed_iff_group ok hoo hv).2.2 b h3
  rw [hz] at hPw
  obtain ⟨iw, kw⟩ := (hPw.expect hX (fun h => DMat.kron (o.mat (Interp.elem W custom g h)) (a.mat (Interp.elem W custom g h))) (fun h hh => (uo hh).kron (ua hh))
    (mo.kron ma).ent (fun p hp q hq => by
      rw [elem_mul ok hoo.wf hp hq, elem_mul ok ha.wf hp hq, DMat.kron_mul _ _ _ _ (by rw [(uo hp).sq.2, (uo hq).sq.1]) (by rw [(ua hp).sq.2, (ua hq).sq.1])])
    fun v hv => weights_fixed_iff ok ho ha hoo hr hz hint (by rw [hv, hz])).2.2 w.flat (by rw [DMat.length_flat, h1, h2])
  unfold LinearL.apply
  rw [if_pos ⟨by rw [h1, nout], by rw [h2, nin], by rw [h3, nout], by rw [h4, nin]⟩, h1, h2, kw, kb]
  dsimp only
  have e : ∀ ω, (DMat.unflat (o.size W) (a.size W) ((DMat.kron (o.mat (Interp.elem W custom g (X ω))) (a.mat (Interp.elem W custom g (X ω)))).mulVec w.flat)).mulVec x =
      (o.mat (Interp.elem W custom g (X ω))).mulVec (w.mulVec ((a.mat (Interp.elem W custom g (X ω)⁻¹)).mulVec x)) := fun ω => by
    have hg := hX.mem ω
    have hi := Generated.inverse (ok.unit g) hg
    rw [elem_sandwich ok ho ha.wf hoo.wf hg h1 h2]
    have e1 : DMat.unflat (o.size W) (a.size W) (((o.mat (Interp.elem W custom g (X ω))).mul w).mul (a.mat (Interp.elem W custom g (X ω)⁻¹))).flat =
        ((o.mat (Interp.elem W custom g (X ω))).mul w).mul (a.mat (Interp.elem W custom g (X ω)⁻¹)) := by
      refine DMat.flat_inj (by show _ = (o.mat _).rows; rw [(uo hg).sq.1]; rfl) (by show _ = (a.mat _).cols; rw [(ua hi).sq.2]; rfl) (DMat.unflat_flat ?_)
      rw [DMat.length_flat, DMat.mul_rows, DMat.mul_rows, DMat.mul_cols, (uo hg).sq.1, (ua hi).sq.2]
    rw [e1, DMat.mulVec_mul _ _ _ (by rw [DMat.mul_cols, h2, (ua hi).sq.1]), DMat.mulVec_mul _ _ _ (by rw [(uo hg).sq.2, h1])]
  rw [unflat_expVec iw, expVec_add (fun ω => by rw [DMat.length_mulVec]; rfl) (fun ω => by rw [DMat.length_mulVec, (uo (hX.mem ω)).sq.1]) (fun i hi => ?_) ib]
  · simp only [e]
    simp only [fun ω => (DMat.mulVec_add (o.mat (Interp.elem W custom g (X ω))) (v := w.mulVec ((a.mat (Interp.elem W custom g (X ω)⁻¹)).mulVec x)) (w := b)
      (by rw [DMat.length_mulVec, h1, h3])).symm]
  · exact integrable_unflat iw hi

end

/-! ## The rotations about an axis -/

open NormedSpace in
/-- The one-parameter group of a generator of rotations is the image of the circle, and a uniform angle gives a uniform element. -/
theorem uniform_circle {n : ℕ} {A : Matrix (Fin n) (Fin n) ℝ} (hA : A * A * A = -A) : ∃ X : UnitAddCircle → Matrix (Fin n) (Fin n) ℝ,
    (∀ t : ℝ, X (t : UnitAddCircle) = exp ((2 * Real.pi * t) • A)) ∧ UniformLaw (AddCircle.haarAddCircle : Measure UnitAddCircle) [A] [] X := by
  have hadd : ∀ s t : ℝ, exp (s • A) * exp (t • A) = exp ((s + t) • A) := fun s t => by
    rw [add_smul, Matrix.exp_add_of_commute _ _ ((Commute.refl A).smul_left s |>.smul_right t)]
  obtain ⟨f, hf⟩ : ∃ f : ℝ → Matrix (Fin n) (Fin n) ℝ, f = fun t => exp ((2 * Real.pi * t) • A) := ⟨_, rfl⟩
  have hper : Function.Periodic f 1 := fun t => by
    rw [hf]
    simp only [exp_rotation hA, mul_add, mul_one, Real.sin_add_two_pi, Real.cos_add_two_pi]
  have hX : ∀ t : ℝ, hper.lift (t : UnitAddCircle) = f t := fun t => hper.lift_coe t
  have hmeas : Measurable fun (θ : UnitAddCircle) i j => hper.lift θ i j := by
    refine measurable_pi_iff.2 fun i => measurable_pi_iff.2 fun j => Continuous.measurable ?_
    refine (QuotientAddGroup.isQuotientMap_mk _).continuous_iff.2 ?_
    show Continuous fun t : ℝ => hper.lift (t : UnitAddCircle) i j
    simp only [hX, hf]
    exact (exp_smul_continuous A i j).comp (continuous_const.mul continuous_id)
  have hgen : ∀ a, Generated [A] [] a → ∃ s : ℝ, a = exp (s • A) := by
    intro a ha
    induction ha with
    | one => exact ⟨0, by simp⟩
    | exp hB =>
      have : {B | B ∈ [A]} = ({A} : Set (Matrix (Fin n) (Fin n) ℝ)) := by ext; simp
      rw [this] at hB
      obtain ⟨s, rfl⟩ := Submodule.mem_span_singleton.1 hB
      exact ⟨s, rfl⟩
    | gen h => simp at h
    | inv h => simp at h
    | mul _ _ h1 h2 =>
      obtain ⟨s, rfl⟩ := h1
      obtain ⟨t, rfl⟩ := h2
      exact ⟨s + t, hadd s t⟩
  refine ⟨hper.lift, fun t => by rw [hX, hf], inferInstance, fun θ => ?_, fun a ha => ?_⟩
  · obtain ⟨t, rfl⟩ := QuotientAddGroup.mk_surjective θ
    show Generated [A] [] (hper.lift (t : UnitAddCircle))
    rw [hX, hf]
    exact .exp (Submodule.smul_mem _ _ (Submodule.subset_span (by simp)))
  · obtain ⟨s, rfl⟩ := hgen a ha
    have e : (fun (θ : UnitAddCircle) i j => (exp (s • A) * hper.lift θ) i j) =
        (fun (θ : UnitAddCircle) i j => hper.lift θ i j) ∘ fun θ => θ + ((s / (2 * Real.pi) : ℝ) : UnitAddCircle) := by
      funext θ
      obtain ⟨t, rfl⟩ := QuotientAddGroup.mk_surjective θ
      show (fun i j => (exp (s • A) * hper.lift (t : UnitAddCircle)) i j) = fun i j => hper.lift ((t : UnitAddCircle) + ((s / (2 * Real.pi) : ℝ) : UnitAddCircle)) i j
      rw [← AddCircle.coe_add, hX, hX, hf]
      beta_reduce
      rw [hadd]
      have : s + 2 * Real.pi * t = 2 * Real.pi * (t + s / (2 * Real.pi)) := by
        have := Real.pi_pos
        field_simp
        ring
      rw [this]
    rw [e]
    have hm := hmeas.comp (measurable_add_const ((s / (2 * Real.pi) : ℝ) : UnitAddCircle))
    refine ⟨hm.aemeasurable, hmeas.aemeasurable, ?_⟩
    rw [← Measure.map_map hmeas (measurable_add_const _), map_add_right_eq_self]

/-- The hypotheses are met by the rotations about an axis: a uniform angle gives a uniform rotation, and the projector and a layer between vectors are expectations. -/
example : ∃ (X : UnitAddCircle → Matrix (Fin 3) (Fin 3) ℝ) (solve : ℕ → LinOp ℝ → Py (DMat ℝ)) (r : Rep) (P : LinOp ℝ) (L : LinearL ℝ),
    UniformLaw (AddCircle.haarAddCircle : Measure UnitAddCircle) (rotLies 0) [] X ∧ (Expr.rshift (.rep 0) (.rep 0)).eval exW 0 = .ok r ∧
    (r.equivariantProjector exW (gensOf exW (stdAtoms exW fun k g => trivialAtom _ _) rotLies fun _ => []) solve
      (session exW (gensOf exW (stdAtoms exW fun k g => trivialAtom _ _) rotLies fun _ => []) solve [] freshSt)).1 = .ok P ∧
    (∀ v : List ℝ, v.length = 9 → P.sem.mulVec v = expVec AddCircle.haarAddCircle 9 fun ω =>
      ((Expr.rshift (.rep 0) (.rep 0)).den 0 (Interp.elem exW (fun k g => trivialAtom _ _) 0 (X ω))).1.mulVec v) ∧
    L.Built exW 0 (gensOf exW (stdAtoms exW fun k g => trivialAtom _ _) rotLies fun _ => []) solve
      (.key (.fac (.atom (.vec 0 (some 0))))) (.key (.fac (.atom (.vec 0 (some 0))))) ∧
    ∀ (w : DMat ℝ) (b x : List ℝ), w.rows = 3 → w.cols = 3 → b.length = 3 → x.length = 3 → L.apply w b x = .ok (expVec AddCircle.haarAddCircle 3 fun ω =>
      (Rep.mat (Interp.elem exW (fun k g => trivialAtom _ _) 0 (X ω)) (.key (.fac (.atom (.vec 0 (some 0)))))).mulVec
        (zipWith (· + ·) (w.mulVec ((Rep.mat (Interp.elem exW (fun k g => trivialAtom _ _) 0 (X ω)⁻¹) (.key (.fac (.atom (.vec 0 (some 0)))))).mulVec x)) b)) := by
  obtain ⟨s, s1, s2⟩ := exists_solver ℝ
  have hA : rotLie 3 * rotLie 3 * rotLie 3 = -rotLie 3 := by
    ext i j
    fin_cases i <;> fin_cases j <;> simp [rotLie, Matrix.mul_apply, Fin.sum_univ_three]
  obtain ⟨X, -, hX⟩ := uniform_circle hA
  have hc : ∀ k i j, Measurable fun t : Fin (exW.d 0) → Fin (exW.d 0) → ℝ => (trivialAtom (exW.d 0) (exW.usize k 0)).rho (Matrix.of t) i j := fun _ _ _ => measurable_const
  have hW := exW_single 0 81 (by decide)
  obtain ⟨r, P, e1, e2, e3⟩ := C139_projector (W := exW) (g := 0) (lie := rotLies) (disc := fun _ => []) (custom := fun k g => trivialAtom _ _) (solve := fun _ => s)
    hW (.rshift (.rep 0) (.rep 0)) (by simp [Expr.OK, World.asize, exW]) (by decide) rot_groups (by decide) hc hX (s1 _ _) (fun _ _ C _ => s2 C) []
  have hσ : NetReach exW 0 (gensOf exW (stdAtoms exW fun k g => trivialAtom _ _) rotLies fun _ => []) (fun _ => s) ⟨freshSt, none, 0⟩ := .start none 0 fun h e => by simp at e
  obtain ⟨L, τ, e⟩ := (C30_linear hW rot_groups (s1 _ _) hσ exV_over exV_over (by decide)).2 (fun _ _ C _ => s2 C)
  exact ⟨X, _, r, P, L, hX, e1, e2, fun v hv => (e3 v hv).2, ⟨_, _, hσ, e⟩, fun w b x h1 h2 h3 h4 =>
    C139_linear hW rot_groups (by decide) hc hX (s1 _ _) exV_over exV_over (by decide) ⟨_, _, hσ, e⟩ h1 h2 h3 h4⟩

end Verif
