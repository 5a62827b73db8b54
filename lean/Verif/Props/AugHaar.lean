import Verif.Props.AugMean
import Verif.Props.Haar

/-! C140: for a uniform random element of an orthogonal group, the expected output of group augmentation is equivariant for every continuous network. -/
namespace Verif
open List MeasureTheory ProbabilityTheory

/-- As `UniformLaw`, with multiplication on the right. -/
structure UniformRight {Ω : Type} [MeasurableSpace Ω] (μ : Measure Ω) {n : ℕ} (lie disc : List (Matrix (Fin n) (Fin n) ℝ)) (X : Ω → Matrix (Fin n) (Fin n) ℝ) : Prop where
  prob : IsProbabilityMeasure μ
  mem : ∀ ω, Generated lie disc (X ω)
  inv : ∀ a, Generated lie disc a → IdentDistrib (fun ω i j => (X ω * a) i j) (fun ω i j => X ω i j) μ μ

/-- The inverse of a uniform element is uniform, with the sides exchanged. -/
theorem UniformLaw.right {Ω : Type} [MeasurableSpace Ω] {μ : Measure Ω} {n : ℕ} {lie disc : List (Matrix (Fin n) (Fin n) ℝ)} {X : Ω → Matrix (Fin n) (Fin n) ℝ}
    (hX : UniformLaw μ lie disc X) (hunit : ∀ h ∈ disc, IsUnit h.det) : UniformRight μ lie disc fun ω => (X ω)⁻¹ := by
  refine ⟨hX.prob, fun ω => Generated.inverse hunit (hX.mem ω), fun a ha => ?_⟩
  have hm : Measurable fun (t : Fin n → Fin n → ℝ) i j => (Matrix.of t)⁻¹ i j :=
    measurable_pi_iff.2 fun i => measurable_pi_iff.2 fun j => measurable_inv_entry (fun i j => (measurable_pi_apply j).comp (measurable_pi_apply i)) i j
  have h := (hX.inv a⁻¹ (Generated.inverse hunit ha)).comp hm
  have e : (fun ω i j => ((X ω)⁻¹ * a) i j) = (fun (t : Fin n → Fin n → ℝ) i j => (Matrix.of t)⁻¹ i j) ∘ fun ω i j => (a⁻¹ * X ω) i j := by
    funext ω i j
    show _ = (a⁻¹ * X ω)⁻¹ i j
    rw [Matrix.mul_inv_rev, Matrix.nonsing_inv_nonsing_inv _ (Generated.isUnit hunit ha)]
  rw [e]
  exact h

section
variable {Ω : Type} [MeasurableSpace Ω] {μ : Measure Ω} {n : ℕ} {f : Ω → List ℝ}

theorem mulVec_expVec {T : DMat ℝ} (hT : T.cols = n) (hf : ∀ i < n, Integrable (fun ω => (f ω).getD i 0) μ) :
    T.mulVec (expVec μ n f) = expVec μ T.rows fun ω => T.mulVec (f ω) := by
  refine DMat.vec_ext (by rw [DMat.length_mulVec, length_expVec]) fun i hi => ?_
  rw [DMat.length_mulVec] at hi
  rw [getD_expVec hi, DMat.getD_mulVec hi]
  simp only [fun ω => DMat.getD_mulVec (v := f ω) hi]
  rw [integral_finset_sum _ fun j hj => (hf j (by rw [← hT]; exact Finset.mem_range.1 hj)).const_mul _]
  refine Finset.sum_congr rfl fun j hj => ?_
  rw [getD_expVec (by rw [← hT]; exact Finset.mem_range.1 hj), integral_const_mul]

end

section
variable {W : World} {g : Gid} {custom : ∀ k g, AtomRep ℝ (W.d g) (W.usize k g)}
  {lie disc : ∀ g, List (Matrix (Fin (W.d g)) (Fin (W.d g)) ℝ)} {Ω : Type} [MeasurableSpace Ω] {μ : Measure Ω}

/-- **C140.** Let a network treat the rows of a batch separately, by any continuous function `f`, and let the group elements of GroupAugmentation be uniformly distributed on
an orthogonal group.  The output for a row then has an expectation, which is an equivariant function of the row. -/
theorem C140_expect (ok : GroupsOK W custom lie disc) (hor : W.orth g = true)
    (hc : ∀ k i j, Measurable fun t : Fin (W.d g) → Fin (W.d g) → ℝ => (custom k g).rho (Matrix.of t) i j)
    {X : Ω → Matrix (Fin (W.d g)) (Fin (W.d g)) ℝ} (hX : UniformRight μ (lie g) (disc g) X)
    {a o : Rep} (ha : a.Simple) (ho : o.Simple) (hwa : a.WF W) (hwo : o.WF W) (f : List ℝ → List ℝ)
    (hf : ∀ i < o.size W, Continuous fun v : Fin (a.size W) → ℝ => (f (ofFn v)).getD i 0) :
    ∃ y : Matrix (Fin (W.d g)) (Fin (W.d g)) ℝ → List ℝ → List ℝ,
      (∀ hs Z, (∀ h ∈ hs, Generated (lie g) (disc g) h) →
        groupAugmentation (fun _ Z => .ok (Z.map f)) a o (hs.map (Interp.elem W custom g)) Z true = .ok (zipWith y hs Z)) ∧
      (∀ x : List ℝ, x.length = a.size W → ∀ i < o.size W, Integrable (fun ω => (y (X ω) x).getD i 0) μ) ∧
      ∀ t, Generated (lie g) (disc g) t → ∀ x : List ℝ, x.length = a.size W →
        expVec μ (o.size W) (fun ω => y (X ω) ((a.mat (Interp.elem W custom g t)).mulVec x)) =
          (o.mat (Interp.elem W custom g t)).mulVec (expVec μ (o.size W) fun ω => y (X ω) x) := by
  haveI := hX.prob
  obtain ⟨y, hy⟩ : ∃ y : Matrix (Fin (W.d g)) (Fin (W.d g)) ℝ → List ℝ → List ℝ,
    y = fun h x => (o.mat (Interp.elem W custom g h)).inverse.mulVec (f ((a.mat (Interp.elem W custom g h)).mulVec x)) := ⟨_, rfl⟩
  have ua := fun {h} (hh : Generated (lie g) (disc g) h) => Rep.mat_unit (elem_unit (custom := custom) ok hor hh) hwa
  have uo := fun {h} (hh : Generated (lie g) (disc g) h) => Rep.mat_unit (elem_unit (custom := custom) ok hor hh) hwo
  have ma := Rep.mat_mfam (elem_mfam hc) hwa
  have mo := Rep.mat_mfam (elem_mfam hc) hwo
  have mX : AEMeasurable (fun ω i j => X ω i j) μ := (hX.inv 1 .one).aemeasurable_snd
  -- the moved row, and the output for it, as measurable functions of the matrix
  obtain ⟨u, hu⟩ : ∃ u : List ℝ → (Fin (W.d g) → Fin (W.d g) → ℝ) → Fin (a.size W) → ℝ,
    u = fun (x : List ℝ) t (k : Fin (a.size W)) => ∑ l ∈ Finset.range (a.size W), (a.mat (Interp.elem W custom g (Matrix.of t))).e k l * x.getD l 0 := ⟨_, rfl⟩
  have mu : ∀ x, Measurable (u x) := fun x => by
    rw [hu]
    exact measurable_pi_iff.2 fun k => Finset.measurable_sum _ fun l _ => (ma.ent k l).mul_const _
  obtain ⟨z, hz⟩ : ∃ z : List ℝ → ℕ → (Fin (W.d g) → Fin (W.d g) → ℝ) → ℝ,
    z = fun (x : List ℝ) i t => ∑ j ∈ Finset.range (o.size W), (o.mat (Interp.elem W custom g (Matrix.of t))).e j i * (f (ofFn (u x t))).getD j 0 := ⟨_, rfl⟩
  have mz : ∀ x i, Measurable (z x i) := fun x i => by
    rw [hz]
    exact Finset.measurable_sum _ fun j hj => (mo.ent j i).mul ((hf j (Finset.mem_range.1 hj)).measurable.comp (mu x))
  have yz : ∀ x : List ℝ, x.length = a.size W → ∀ i < o.size W, ∀ h, Generated (lie g) (disc g) h → (y h x).getD i 0 = z x i h := fun x hx i hi h hh => by
    have hi' := Generated.inverse (ok.unit g) hh
    have e1 : (o.mat (Interp.elem W custom g h)).inverse = (o.mat (Interp.elem W custom g h)).transpose := by
      rw [inverse_eq (uo hh).sq (uo hi').sq (elem_inv_mul ok hor hwo hh), elem_inv ok hor hwo hh]
    have e2 : (a.mat (Interp.elem W custom g h)).mulVec x = ofFn (u x h) := by
      refine DMat.vec_ext (by rw [DMat.length_mulVec, (ua hh).sq.1, length_ofFn]) fun k hk => ?_
      rw [DMat.length_mulVec] at hk
      have hk' : k < a.size W := by rw [← (ua hh).sq.1]; exact hk
      rw [DMat.getD_mulVec hk, (ua hh).sq.2, getD_eq_getElem _ _ (by rw [length_ofFn]; exact hk'), List.getElem_ofFn, hu]
      rfl
    rw [hy, hz]
    beta_reduce
    rw [e1, e2, DMat.getD_mulVec (by rw [DMat.transpose_rows, (uo hh).sq.2]; exact hi), DMat.transpose_cols, (uo hh).sq.1]
    exact Finset.sum_congr rfl fun j _ => by rw [DMat.transpose_e]; rfl
  have int : ∀ x : List ℝ, x.length = a.size W → ∀ i < o.size W, Integrable (fun ω => z x i (X ω)) μ := fun x hx i hi => by
    rw [hz]
    refine integrable_finset_sum _ fun j hj => ?_
    have hbox : IsCompact (Set.univ.pi fun _ : Fin (a.size W) => Set.Icc (-∑ l ∈ Finset.range (a.size W), |x.getD l 0|) (∑ l ∈ Finset.range (a.size W), |x.getD l 0|)) :=
      isCompact_univ_pi fun _ => isCompact_Icc
    obtain ⟨C, hC⟩ := hbox.exists_bound_of_continuousOn (hf j (Finset.mem_range.1 hj)).continuousOn
    have mm : Measurable fun t : Fin (W.d g) → Fin (W.d g) → ℝ => (o.mat (Interp.elem W custom g (Matrix.of t))).e j i * (f (ofFn (u x t))).getD j 0 :=
      (mo.ent j i).mul ((hf j (Finset.mem_range.1 hj)).measurable.comp (mu x))
    refine .of_bound (mm.comp_aemeasurable mX).aestronglyMeasurable C (.of_forall fun ω => ?_)
    have hω := hX.mem ω
    have b1 : |(o.mat (Interp.elem W custom g (X ω))).e j i| ≤ 1 := (uo hω).abs_le j i
    have b2 : ‖(f (ofFn (u x (X ω)))).getD j 0‖ ≤ C := by
      refine hC _ fun k _ => abs_le.1 ?_
      rw [hu]
      refine (Finset.abs_sum_le_sum_abs _ _).trans (Finset.sum_le_sum fun l _ => ?_)
      rw [abs_mul]
      exact (mul_le_mul_of_nonneg_right ((ua hω).abs_le k l) (abs_nonneg _)).trans (one_mul _).le
    show ‖(o.mat (Interp.elem W custom g (X ω))).e j i * (f (ofFn (u x (X ω)))).getD j 0‖ ≤ C
    rw [norm_mul, Real.norm_eq_abs]
    exact (mul_le_mul_of_nonneg_right b1 (norm_nonneg _)).trans ((one_mul _).le.trans b2)
  have int' : ∀ x : List ℝ, x.length = a.size W → ∀ i < o.size W, Integrable (fun ω => (y (X ω) x).getD i 0) μ := fun x hx i hi => by
    simp only [fun ω => yz x hx i hi _ (hX.mem ω)]
    exact int x hx i hi
  refine ⟨y, fun hs Z hh => by rw [hy]; exact aug_rows ok ha ho f hh Z, int', fun t ht x hx => ?_⟩
  have shift : ∀ ω, y (X ω) ((a.mat (Interp.elem W custom g t)).mulVec x) = (o.mat (Interp.elem W custom g t)).mulVec (y (X ω * t) x) := fun ω => by
    have hω := hX.mem ω
    obtain ⟨-, sm, -⟩ := ho.array (elem_dual (custom := custom) ok (hω.mul ht))
    rw [hy]
    beta_reduce
    rw [inverse_shift ok ho hwo hω ht, ← DMat.mulVec_mul _ _ _ (by rw [(ua hω).sq.2, (ua ht).sq.1]), ← elem_mul ok hwa hω ht,
      DMat.mulVec_mul _ _ _ (by rw [(uo ht).sq.2]; exact sm.1.symm)]
  have ident : ∀ i < o.size W, IdentDistrib (fun ω => (y (X ω * t) x).getD i 0) (fun ω => (y (X ω) x).getD i 0) μ μ := fun i hi => by
    simp only [fun ω => yz x hx i hi _ (hX.mem ω), fun ω => yz x hx i hi _ ((hX.mem ω).mul ht)]
    exact (hX.inv t ht).comp (mz x i)
  have e : expVec μ (o.size W) (fun ω => y (X ω) x) = expVec μ (o.size W) fun ω => y (X ω * t) x := by
    unfold expVec
    exact map_congr_left fun i hi => (ident i (mem_range.1 hi)).integral_eq.symm
  rw [e, mulVec_expVec (uo ht).sq.2 fun i hi => (ident i hi).integrable_iff.2 (int' x hx i hi), (uo ht).sq.1]
  simp only [shift]

/-- **C140.** For a uniform random element `X` of an orthogonal group, wrap the plain layer `x ↦ wx+b` in GroupAugmentation: the expectation of its output in training, when the
element drawn is `X⁻¹`, is the output of Linear with the same parameters. -/
theorem C140_linear_expect {N : ℕ} {solve : ℕ → LinOp ℝ → Py (DMat ℝ)} (hW : W.SingleOK g N) (ok : GroupsOK W custom lie disc) (hor : W.orth g = true)
    (hc : ∀ k i j, Measurable fun t : Fin (W.d g) → Fin (W.d g) → ℝ => (custom k g).rho (Matrix.of t) i j)
    {X : Ω → Matrix (Fin (W.d g)) (Fin (W.d g)) ℝ} (hX : UniformLaw μ (lie g) (disc g) X)
    (hsol : SolverOK W (gensOf W (stdAtoms W custom) lie disc) solve) {a o : Rep} (ha : a.Over W g N) (hoo : o.Over W g N) (hN : o.size W * a.size W ≤ N)
    (has : a.Simple) (hos : o.Simple)
    {L : LinearL ℝ} (hL : L.Built W g (gensOf W (stdAtoms W custom) lie disc) solve a o) {w : DMat ℝ} {b : List ℝ}
    (h1 : w.rows = o.size W) (h2 : w.cols = a.size W) (h3 : b.length = o.size W) :
    ∃ y : Matrix (Fin (W.d g)) (Fin (W.d g)) ℝ → List ℝ → List ℝ,
      (∀ hs Z, (∀ h ∈ hs, Generated (lie g) (disc g) h) →
        groupAugmentation (fun _ Z => .ok (Z.map fun x => zipWith (· + ·) (w.mulVec x) b)) a o (hs.map (Interp.elem W custom g)) Z true = .ok (zipWith y hs Z)) ∧
      ∀ x : List ℝ, x.length = a.size W → L.apply w b x = .ok (expVec μ (o.size W) fun ω => y (X ω)⁻¹ x) := by
  refine ⟨_, fun hs Z hh => aug_rows ok has hos _ hh Z, fun x hx => ?_⟩
  rw [C139_linear hW ok hor hc hX hsol ha hoo hN hL h1 h2 h3 hx]
  have e : ∀ ω, (o.mat (Interp.elem W custom g (X ω)⁻¹)).inverse = o.mat (Interp.elem W custom g (X ω)) := fun ω => by
    have hω := hX.mem ω
    have hi := Generated.inverse (ok.unit g) hω
    exact inverse_eq (hos.array (elem_dual (custom := custom) ok hi)).2.1 (hos.array (elem_dual (custom := custom) ok hω)).2.1 (elem_mul_inv ok hor hoo.wf hω)
  simp only [e]

end

/-- The hypotheses are met by the rotations about an axis, by a uniform angle, and a network of vectors that is not equivariant, `x ↦ (x₀², 1, 0)`. -/
example : ∃ (X : UnitAddCircle → Matrix (Fin 3) (Fin 3) ℝ) (y : Matrix (Fin 3) (Fin 3) ℝ → List ℝ → List ℝ),
    UniformRight (AddCircle.haarAddCircle : Measure UnitAddCircle) (rotLies 0) [] X ∧
    (∀ hs Z, (∀ h ∈ hs, Generated (rotLies 0) [] h) → groupAugmentation (fun _ Z => .ok (Z.map fun x => [x.getD 0 0 ^ 2, 1, 0])) (.key (.fac (.atom (.vec 0 (some 0)))))
      (.key (.fac (.atom (.vec 0 (some 0))))) (hs.map (Interp.elem exW (fun k g => trivialAtom _ _) 0)) Z true = .ok (zipWith y hs Z)) ∧
    ∀ t, Generated (rotLies 0) [] t → ∀ x : List ℝ, x.length = 3 →
      expVec AddCircle.haarAddCircle 3 (fun ω => y (X ω) ((Rep.mat (Interp.elem exW (fun k g => trivialAtom _ _) 0 t) (.key (.fac (.atom (.vec 0 (some 0)))))).mulVec x)) =
        (Rep.mat (Interp.elem exW (fun k g => trivialAtom _ _) 0 t) (.key (.fac (.atom (.vec 0 (some 0)))))).mulVec
          (expVec AddCircle.haarAddCircle 3 fun ω => y (X ω) x) := by
  have hA : rotLie 3 * rotLie 3 * rotLie 3 = -rotLie 3 := by
    ext i j
    fin_cases i <;> fin_cases j <;> simp [rotLie, Matrix.mul_apply, Fin.sum_univ_three]
  obtain ⟨X, -, hX⟩ := uniform_circle hA
  have hr := hX.right (by simp)
  have hc : ∀ k i j, Measurable fun t : Fin (exW.d 0) → Fin (exW.d 0) → ℝ => (trivialAtom (exW.d 0) (exW.usize k 0)).rho (Matrix.of t) i j := fun _ _ _ => measurable_const
  obtain ⟨y, y1, -, y2⟩ := C140_expect (W := exW) (g := 0) (lie := rotLies) (disc := fun _ => []) (custom := fun k g => trivialAtom _ _) rot_groups (by decide) hc hr
    (a := .key (.fac (.atom (.vec 0 (some 0))))) (o := .key (.fac (.atom (.vec 0 (some 0))))) rfl rfl exV_over.wf exV_over.wf (fun x => [x.getD 0 0 ^ 2, 1, 0])
    (fun i hi => by
      have hi : i < 3 := hi
      show Continuous fun v : Fin 3 → ℝ => _
      interval_cases i
      · have e : (fun v : Fin 3 → ℝ => ([(ofFn v).getD 0 0 ^ 2, 1, 0] : List ℝ).getD 0 0) = fun v => v 0 ^ 2 := by
          funext v
          simp [List.ofFn_succ]
        exact e ▸ (continuous_apply (0 : Fin 3)).pow 2
      · simpa using continuous_const
      · simpa using continuous_const)
  exact ⟨_, y, hr, y1, y2⟩

/-- The hypotheses of `C140_linear_expect` are met by the rotations about an axis and a layer between vectors. -/
example : ∃ (X : UnitAddCircle → Matrix (Fin 3) (Fin 3) ℝ) (solve : ℕ → LinOp ℝ → Py (DMat ℝ)) (L : LinearL ℝ),
    L.Built exW 0 (gensOf exW (stdAtoms exW fun k g => trivialAtom _ _) rotLies fun _ => []) solve
      (.key (.fac (.atom (.vec 0 (some 0))))) (.key (.fac (.atom (.vec 0 (some 0))))) ∧
    ∀ (w : DMat ℝ) (b : List ℝ), w.rows = 3 → w.cols = 3 → b.length = 3 → ∃ y : Matrix (Fin 3) (Fin 3) ℝ → List ℝ → List ℝ,
      (∀ hs Z, (∀ h ∈ hs, Generated (rotLies 0) [] h) → groupAugmentation (fun _ Z => .ok (Z.map fun x => zipWith (· + ·) (w.mulVec x) b))
        (.key (.fac (.atom (.vec 0 (some 0))))) (.key (.fac (.atom (.vec 0 (some 0))))) (hs.map (Interp.elem exW (fun k g => trivialAtom _ _) 0)) Z true = .ok (zipWith y hs Z)) ∧
      ∀ x : List ℝ, x.length = 3 → L.apply w b x = .ok (expVec AddCircle.haarAddCircle 3 fun ω => y (X ω)⁻¹ x) := by
  obtain ⟨s, s1, s2⟩ := exists_solver ℝ
  have hA : rotLie 3 * rotLie 3 * rotLie 3 = -rotLie 3 := by
    ext i j
    fin_cases i <;> fin_cases j <;> simp [rotLie, Matrix.mul_apply, Fin.sum_univ_three]
  obtain ⟨X, -, hX⟩ := uniform_circle hA
  have hc : ∀ k i j, Measurable fun t : Fin (exW.d 0) → Fin (exW.d 0) → ℝ => (trivialAtom (exW.d 0) (exW.usize k 0)).rho (Matrix.of t) i j := fun _ _ _ => measurable_const
  have hW := exW_single 0 81 (by decide)
  have hσ : NetReach exW 0 (gensOf exW (stdAtoms exW fun k g => trivialAtom _ _) rotLies fun _ => []) (fun _ => s) ⟨freshSt, none, 0⟩ := .start none 0 fun h e => by simp at e
  obtain ⟨L, τ, e⟩ := (C30_linear hW rot_groups (s1 _ _) hσ exV_over exV_over (by decide)).2 (fun _ _ C _ => s2 C)
  exact ⟨X, _, L, ⟨_, _, hσ, e⟩, fun w b h1 h2 h3 =>
    C140_linear_expect hW rot_groups (by decide) hc hX (s1 _ _) exV_over exV_over (by decide) rfl rfl ⟨_, _, hσ, e⟩ h1 h2 h3⟩

end Verif
