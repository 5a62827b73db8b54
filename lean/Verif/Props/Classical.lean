import Verif.Lemmas.Classical3
import Verif.Lemmas.Classical5
import Verif.Props.Lorentz2
import Verif.Props.Layers

/-! # C115: the generators of each group class generate exactly the group it is named after

`Generated lie disc h` says that `h` is a product of exponentials of real combinations of the matrices in `lie`, of matrices in
`disc` and of their inverses (Spec/Group.lean).  The theorems of Props/MatrixGroups.lean and Props/Lorentz.lean say that such
products lie in the group; here that every element of the group is one. -/
namespace Verif
open Matrix NormedSpace

/-- C115: `SO(n)` generates the orthogonal matrices of determinant one. -/
theorem C115_so (n : ℕ) : ∃ a : Arr3 ℝ, soLie n = .ok a ∧ ∀ h, Generated (a.mats n) [] h ↔ hᵀ * h = 1 ∧ h.det = 1 := by
  obtain ⟨a, ha, -, -, hs⟩ := C50_so_generators n
  refine ⟨a, ha, fun h => ⟨fun hg => ⟨?_, ?_⟩, fun ⟨h1, h2⟩ => ?_⟩⟩
  · simpa using transpose_form 1 (by simp) (fun A hA => by rw [so_mats_anti ha A hA]; simp) (by simp) hg
  · exact Generated.det_one (fun A hA => trace_anti (so_mats_anti ha A hA)) (by simp) hg
  · exact specialUnitary_generated (fun A hA _ => (hs A).2 (by rwa [conjTranspose_eq_transpose_of_trivial] at hA))
      (by rwa [conjTranspose_eq_transpose_of_trivial]) h2

/-- C115: `O(n)` generates the orthogonal matrices. -/
theorem C115_o (n : ℕ) (hn : 0 < n) : ∃ a b : Arr3 ℝ, soLie n = .ok a ∧ oDisc n = .ok b ∧
    ∀ h, Generated (a.mats n) (b.mats n) h ↔ hᵀ * h = 1 := by
  obtain ⟨a, ha, -, -, hs⟩ := C50_so_generators n
  obtain ⟨b, hb, r, hr, hdet⟩ := C50_o_reflection n hn
  have hrr : rᵀ * r = 1 := by
    have := oDisc_mats n b hb
    rw [hr] at this
    obtain rfl := List.singleton_inj.1 this
    rw [diagonal_transpose, diagonal_mul_diagonal, ← diagonal_one]
    congr 1
    ext i
    split_ifs <;> norm_num
  refine ⟨a, b, ha, hb, fun h => ⟨fun hg => ?_, fun h1 => ?_⟩⟩
  · simpa using transpose_form 1 (by simp) (fun A hA => by rw [so_mats_anti ha A hA]; simp) (by rw [hr]; simpa using hrr) hg
  · have key : ∀ k : Matrix (Fin n) (Fin n) ℝ, kᵀ * k = 1 → k.det = 1 → Generated (a.mats n) (b.mats n) k := fun k h1 h2 =>
      specialUnitary_generated (fun A hA _ => (hs A).2 (by rwa [conjTranspose_eq_transpose_of_trivial] at hA))
        (by rwa [conjTranspose_eq_transpose_of_trivial]) h2
    have hd : h.det * h.det = 1 := by
      have := congrArg det h1
      rwa [det_mul, det_transpose, det_one] at this
    rcases mul_self_eq_one_iff.1 hd with h2 | h2
    · exact key h h1 h2
    · have h3 := key (rᵀ * h) (by
        rw [transpose_mul, transpose_transpose]
        calc hᵀ * r * (rᵀ * h) = hᵀ * (r * rᵀ) * h := by simp only [Matrix.mul_assoc]
          _ = 1 := by rw [mul_eq_one_comm.1 hrr, Matrix.mul_one, h1]) (by rw [det_mul, det_transpose, hdet, h2]; norm_num)
      have h4 := (Generated.gen (lie := a.mats n) (disc := b.mats n) (h := r) (by rw [hr]; simp)).mul h3
      rwa [← Matrix.mul_assoc, mul_eq_one_comm.1 hrr, Matrix.one_mul] at h4

/-- C115: `Sp(m)` generates the symplectic matrices. -/
theorem C115_sp (m : ℕ) : ∃ a : Arr3 ℝ, spLie m = .ok a ∧ ∀ h, Generated (a.mats (2 * m)) [] h ↔ hᵀ * symplJ m * h = symplJ m := by
  obtain ⟨a, ha, -, -, hs⟩ := C52_sp_generators m
  refine ⟨a, ha, fun h => ⟨fun hg => ?_, fun h1 => symplectic_generated (fun A hA => (hs A).2 hA) h1⟩⟩
  exact transpose_form _ (symplJ_unit m) (fun A hA => eq_neg_of_add_eq_zero_left ((hs A).1 (Submodule.subset_span hA))) (by simp) hg

theorem det_exp_pos {n : ℕ} (A : Matrix (Fin n) (Fin n) ℝ) : 0 < (exp A).det := by
  obtain ⟨B, hB⟩ : ∃ B : Matrix (Fin n) (Fin n) ℝ, B = (2⁻¹ : ℝ) • A := ⟨_, rfl⟩
  have e : exp A = exp B * exp B := by
    rw [← Matrix.exp_add_of_commute B B (Commute.refl B), hB, ← add_smul]
    norm_num
  have hu : IsUnit (exp B).det := (Matrix.isUnit_iff_isUnit_det (exp B)).1 (Matrix.isUnit_exp B)
  have hne : (exp B).det ≠ 0 := hu.ne_zero
  rw [e, det_mul]
  exact mul_self_pos.2 hne

/-- C115, a limit of the class `GL(n)`: it has no discrete generators, so it generates the matrices of positive determinant only. -/
theorem C115_gl (n : ℕ) : ∃ a : Arr3 ℝ, glLie n = .ok a ∧ ∀ h, Generated (a.mats n) [] h ↔ 0 < h.det := by
  obtain ⟨a, ha, -, -, hs⟩ := C53_gl_generators n
  refine ⟨a, ha, fun h => ⟨fun hg => ?_, fun h1 => linear_generated hs h1⟩⟩
  induction hg with
  | one => simp
  | exp hA => exact det_exp_pos _
  | gen h => simp at h
  | inv h => simp at h
  | mul _ _ i1 i2 => rw [det_mul]; exact mul_pos i1 i2

/-- C115: in particular the reflections, which are in the general linear group, are not generated by `GL(n)`. -/
theorem C115_gl_counterexample (n : ℕ) (hn : 0 < n) : ∃ a : Arr3 ℝ, glLie n = .ok a ∧
    ∃ h : Matrix (Fin n) (Fin n) ℝ, IsUnit h.det ∧ ¬ Generated (a.mats n) [] h := by
  obtain ⟨a, ha, hs⟩ := C115_gl n
  obtain ⟨-, -, r, -, hdet⟩ := C50_o_reflection n hn
  exact ⟨a, ha, r, by rw [hdet]; simp, fun hg => by have := (hs r).1 hg; rw [hdet] at this; norm_num at this⟩

/-- C115: `SL(n)` generates the matrices of determinant one. -/
theorem C115_sl (n : ℕ) (hn : n ≠ 0) : ∃ a : Arr3 ℝ, slLie n = .ok a ∧ ∀ h, Generated (a.mats n) [] h ↔ h.det = 1 := by
  obtain ⟨a, ha, -, -, hs⟩ := C53_sl_generators n hn
  exact ⟨a, ha, fun h => ⟨fun hg => Generated.det_one (fun A hA => (hs A).1 (Submodule.subset_span hA)) (by simp) hg,
    fun h1 => specialLinear_generated (fun A hA => (hs A).2 hA) h1⟩⟩

/-- C115: `U(n)` generates the unitary matrices. -/
theorem C115_u (n : ℕ) : ∃ re im : Arr3 ℝ, uLie n = .ok (re, im) ∧ ∀ h, Generated (cplxMats re im n) [] h ↔ hᴴ * h = 1 := by
  obtain ⟨re, im, ha, -, -, hs⟩ := C53_u_generators n
  refine ⟨re, im, ha, fun h => ⟨fun hg => ?_, fun h1 => unitary_generated (fun A hA => (hs A).2 hA) h1⟩⟩
  simpa using Generated.form 1 (by simp) (fun A hA => by rw [(hs A).1 (Submodule.subset_span hA)]; simp) (by simp) hg

/-- C115: `SU(n)` generates the unitary matrices of determinant one (`n ≥ 2`). -/
theorem C115_su (n : ℕ) (hn : 2 ≤ n) : ∃ re im : Arr3 ℝ, suLie n = .ok (re, im) ∧
    ∀ h, Generated (cplxMats re im n) [] h ↔ hᴴ * h = 1 ∧ h.det = 1 := by
  obtain ⟨re, im, ha, -, -, hs⟩ := C53_su_generators n hn
  refine ⟨re, im, ha, fun h => ⟨fun hg => ⟨?_, ?_⟩, fun ⟨h1, h2⟩ => specialUnitary_generated (fun A hA hA' => (hs A).2 ⟨hA, hA'⟩) h1 h2⟩⟩
  · simpa using Generated.form 1 (by simp) (fun A hA => by rw [((hs A).1 (Submodule.subset_span hA)).1]; simp) (by simp) hg
  · exact Generated.det_one (fun A hA => ((hs A).1 (Submodule.subset_span hA)).2) (by simp) hg

/-- C115: `SO13p` generates the proper orthochronous Lorentz group. -/
theorem C115_so13p : ∃ a : Arr3 ℝ, so13pLie = .ok a ∧
    ∀ h, Generated (a.mats 4) [] h ↔ hᵀ * minkowski 4 * h = minkowski 4 ∧ h.det = 1 ∧ 0 < h 0 0 := by
  obtain ⟨a, ha, -, -, hs⟩ := C51_so13p_generators
  exact ⟨a, ha, fun h => ⟨fun hg => lorentz_of_generated (fun A hA => eq_neg_of_add_eq_zero_left ((hs A).1 (Submodule.subset_span hA))) hg,
    fun ⟨h1, h2, h3⟩ => lorentz_generated (fun A hA => (hs A).2 hA) h1 h2 h3⟩⟩

/-- C115: `SO13` generates the Lorentz matrices of determinant one. -/
theorem C115_so13 : ∃ a : Arr3 ℝ, so13pLie = .ok a ∧
    ∀ h, Generated (a.mats 4) ((so13Disc : Arr3 ℝ).mats 4) h ↔ hᵀ * minkowski 4 * h = minkowski 4 ∧ h.det = 1 := by
  obtain ⟨a, ha, -, -, hs⟩ := C51_so13p_generators
  have hm : (so13Disc : Arr3 ℝ).mats 4 = [-1] := by
    simp only [Arr3.mats, so13Disc, show List.range 1 = [0] from rfl, List.map_cons, List.map_nil]
    congr 1
    ext i j
    fin_cases i <;> fin_cases j <;> simp
  have hf : ∀ A ∈ a.mats 4, Aᵀ * minkowski 4 = -(minkowski 4 * A) := fun A hA => eq_neg_of_add_eq_zero_left ((hs A).1 (Submodule.subset_span hA))
  rw [hm]
  refine ⟨a, ha, fun h => ⟨fun hg => ⟨?_, ?_⟩, fun ⟨h1, h2⟩ => ?_⟩⟩
  · exact transpose_form _ (minkowski_unit 4) hf (by simp) hg
  · refine Generated.det_one (fun A hA => minkowski_trace (hf A hA)) ?_ hg
    simp only [List.mem_singleton, forall_eq]
    rw [det_neg]; norm_num
  · exact lorentz_special_generated (fun A hA => (hs A).2 hA) (by decide) (by simp) h1 h2

/-- C115: `O13` generates the whole Lorentz group. -/
theorem C115_o13 : ∃ a b : Arr3 ℝ, so13pLie = .ok a ∧ o13Disc = .ok b ∧
    ∀ h, Generated (a.mats 4) (b.mats 4) h ↔ hᵀ * minkowski 4 * h = minkowski 4 := by
  obtain ⟨a, ha, -, -, hs⟩ := C51_so13p_generators
  obtain ⟨b, hb, hm, -⟩ := C51_o13_generators
  have hf : ∀ A ∈ a.mats 4, Aᵀ * minkowski 4 = -(minkowski 4 * A) := fun A hA => eq_neg_of_add_eq_zero_left ((hs A).1 (Submodule.subset_span hA))
  have hd := o13_disc_form b hb
  refine ⟨a, b, ha, hb, fun h => ⟨fun hg => transpose_form _ (minkowski_unit 4) hf hd hg, fun h1 => ?_⟩⟩
  refine lorentz_full_generated (fun A hA => (hs A).2 hA) (by decide) (by rw [hm]; simp) (T := timeReversal) (by rw [hm]; simp)
    (hd _ (by rw [hm]; simp)) ?_ ?_ h1
  · rw [timeReversal, diagonal_mul_diagonal, ← diagonal_one]
    congr 1
    ext i
    fin_cases i <;> simp
  · rw [timeReversal, det_diagonal, Fin.prod_univ_four]
    simp

/-- C115: `SO11p` generates the proper orthochronous Lorentz group of the plane. -/
theorem C115_so11p (h : Matrix (Fin 2) (Fin 2) ℝ) :
    Generated ((so11pLie : Arr3 ℝ).mats 2) [] h ↔ hᵀ * minkowski 2 * h = minkowski 2 ∧ h.det = 1 ∧ 0 < h 0 0 :=
  ⟨fun hg => lorentz_of_generated so11p_form hg,
    fun ⟨h1, h2, h3⟩ => lorentz_generated (fun A hA => (C51_so11p_generators A).2 hA) h1 h2 h3⟩

/-- C115: `O11` generates the whole Lorentz group of the plane. -/
theorem C115_o11 : ∃ b : Arr3 ℝ, o11Disc = .ok b ∧
    ∀ h, Generated ((so11pLie : Arr3 ℝ).mats 2) (b.mats 2) h ↔ hᵀ * minkowski 2 * h = minkowski 2 := by
  obtain ⟨b, hb, hm⟩ := C51_o11_generators
  have hT : (!![-1, 0; 0, 1] : Matrix (Fin 2) (Fin 2) ℝ)ᵀ * minkowski 2 * !![-1, 0; 0, 1] = minkowski 2 := by
    ext i j
    fin_cases i <;> fin_cases j <;> simp [minkowski, Matrix.mul_apply, diagonal]
  refine ⟨b, hb, fun h => ⟨fun hg => transpose_form _ (minkowski_unit 2) so11p_form ?_ hg, fun h1 => ?_⟩⟩
  · rw [hm]
    simp only [List.mem_cons, List.not_mem_nil, or_false, forall_eq_or_imp, forall_eq]
    exact ⟨by simp, hT⟩
  · refine lorentz_full_generated (fun A hA => (C51_so11p_generators A).2 hA) (by decide) (by rw [hm]; simp) (T := !![-1, 0; 0, 1]) (by rw [hm]; simp)
      hT ?_ ?_ h1
    · ext i j
      fin_cases i <;> fin_cases j <;> simp [Matrix.mul_apply]
    · simp [det_fin_two]

/-! What this says of networks: they are equivariant under every element of the group named in the constructor. -/

section
variable {W : World} {g : Gid} {N : ℕ} {custom : ∀ k g, AtomRep ℝ (W.d g) (W.usize k g)}
  {lie disc : ∀ g, List (Matrix (Fin (W.d g)) (Fin (W.d g)) ℝ)} {solve : ℕ → LinOp ℝ → Py (DMat ℝ)} {rng : Rng} {σ : NetSt ℝ} {a o : Rep}
  {mids : List Rep} {b : ℕ}

/-- C115: a network built for `SO(n)` commutes with every orthogonal matrix of determinant one. -/
theorem C115_network_so {t : Arr3 ℝ} (ht : soLie (W.d g) = .ok t) (hl : lie g = t.mats (W.d g)) (hdg : disc g = [])
    (hW : W.SingleOK g N) (ok : GroupsOK W custom lie disc)
    (hsol : SolverOK W (gensOf W (stdAtoms W custom) lie disc) solve) (hσ : NetReach W g (gensOf W (stdAtoms W custom) lie disc) solve σ)
    (hrng : RngOK rng) (hov : ∀ r ∈ a :: o :: mids, r.Over W g N ∧ r.size W + r.gates W ≤ b) (hN : b * b ≤ N)
    {E : Emlp ℝ} {σ' : NetSt ℝ} (hE : Emlp.build W (gensOf W (stdAtoms W custom) lie disc) solve rng a mids o σ = .ok (E, σ'))
    {ps : List (BlockParams ℝ)} {w : DMat ℝ} {β : List ℝ} (hp : E.Shaped ps w β) (c : ℝ) (act : ℝ → ℝ)
    {h : Matrix (Fin (W.d g)) (Fin (W.d g)) ℝ} (ho : hᵀ * h = 1) (hdet : h.det = 1) {x y : List ℝ} (hx : x.length = a.size W)
    (hy : E.apply W c act ps w β x = .ok y) :
    E.apply W c act ps w β ((a.mat (Interp.elem W custom g h)).mulVec x) = .ok ((o.mat (Interp.elem W custom g h)).mulVec y) := by
  obtain ⟨t', h1, h2⟩ := C115_so (W.d g)
  rw [ht] at h1
  cases h1
  exact (C36_equivariant hW ok hsol hσ hrng hov hN hE hp c act (by rw [hl, hdg]; exact (h2 h).2 ⟨ho, hdet⟩) hx hy).2

/-- C115: a network built for `O(n)` commutes with every orthogonal matrix. -/
theorem C115_network_o {t u : Arr3 ℝ} (ht : soLie (W.d g) = .ok t) (hu : oDisc (W.d g) = .ok u) (hl : lie g = t.mats (W.d g))
    (hdg : disc g = u.mats (W.d g)) (hW : W.SingleOK g N) (ok : GroupsOK W custom lie disc)
    (hsol : SolverOK W (gensOf W (stdAtoms W custom) lie disc) solve) (hσ : NetReach W g (gensOf W (stdAtoms W custom) lie disc) solve σ)
    (hrng : RngOK rng) (hov : ∀ r ∈ a :: o :: mids, r.Over W g N ∧ r.size W + r.gates W ≤ b) (hN : b * b ≤ N)
    {E : Emlp ℝ} {σ' : NetSt ℝ} (hE : Emlp.build W (gensOf W (stdAtoms W custom) lie disc) solve rng a mids o σ = .ok (E, σ'))
    {ps : List (BlockParams ℝ)} {w : DMat ℝ} {β : List ℝ} (hp : E.Shaped ps w β) (c : ℝ) (act : ℝ → ℝ)
    {h : Matrix (Fin (W.d g)) (Fin (W.d g)) ℝ} (ho : hᵀ * h = 1) {x y : List ℝ} (hx : x.length = a.size W)
    (hy : E.apply W c act ps w β x = .ok y) :
    E.apply W c act ps w β ((a.mat (Interp.elem W custom g h)).mulVec x) = .ok ((o.mat (Interp.elem W custom g h)).mulVec y) := by
  have hn : 0 < W.d g := by
    by_contra h0
    unfold oDisc Arr3.set at hu
    rw [if_neg (by simp only [not_and]; omega)] at hu
    cases hu
  obtain ⟨t', u', h1, h2, h3⟩ := C115_o (W.d g) hn
  rw [ht] at h1
  rw [hu] at h2
  cases h1
  cases h2
  exact (C36_equivariant hW ok hsol hσ hrng hov hN hE hp c act (by rw [hl, hdg]; exact (h3 h).2 ho) hx hy).2

/-- C115: a network built for the Lorentz group `O13` commutes with every Lorentz matrix. -/
theorem C115_network_o13 {t u : Arr3 ℝ} (ht : so13pLie = .ok t) (hu : o13Disc = .ok u) (h4 : W.d g = 4) (hl : lie g = t.mats (W.d g))
    (hdg : disc g = u.mats (W.d g)) (hW : W.SingleOK g N) (ok : GroupsOK W custom lie disc)
    (hsol : SolverOK W (gensOf W (stdAtoms W custom) lie disc) solve) (hσ : NetReach W g (gensOf W (stdAtoms W custom) lie disc) solve σ)
    (hrng : RngOK rng) (hov : ∀ r ∈ a :: o :: mids, r.Over W g N ∧ r.size W + r.gates W ≤ b) (hN : b * b ≤ N)
    {E : Emlp ℝ} {σ' : NetSt ℝ} (hE : Emlp.build W (gensOf W (stdAtoms W custom) lie disc) solve rng a mids o σ = .ok (E, σ'))
    {ps : List (BlockParams ℝ)} {w : DMat ℝ} {β : List ℝ} (hp : E.Shaped ps w β) (c : ℝ) (act : ℝ → ℝ)
    {h : Matrix (Fin (W.d g)) (Fin (W.d g)) ℝ} (ho : hᵀ * minkowski (W.d g) * h = minkowski (W.d g)) {x y : List ℝ} (hx : x.length = a.size W)
    (hy : E.apply W c act ps w β x = .ok y) :
    E.apply W c act ps w β ((a.mat (Interp.elem W custom g h)).mulVec x) = .ok ((o.mat (Interp.elem W custom g h)).mulVec y) := by
  obtain ⟨t', u', h1, h2, h3⟩ := C115_o13
  rw [ht] at h1
  rw [hu] at h2
  cases h1
  cases h2
  have key : ∀ k (e : k = 4) (h : Matrix (Fin k) (Fin k) ℝ), hᵀ * minkowski k * h = minkowski k → Generated (t.mats k) (u.mats k) h := by
    rintro k rfl h hh
    exact (h3 h).2 hh
  exact (C36_equivariant hW ok hsol hσ hrng hov hN hE hp c act (by rw [hl, hdg]; exact key _ h4 h ho) hx hy).2

end

/-! Cases. -/

/-- a rotation by a right angle in the plane of the first two axes is generated by `SO(3)` -/
example : ∃ a : Arr3 ℝ, soLie 3 = .ok a ∧ Generated (a.mats 3) [] !![0, -1, 0; 1, 0, 0; 0, 0, 1] := by
  obtain ⟨a, ha, h⟩ := C115_so 3
  refine ⟨a, ha, (h _).2 ⟨?_, ?_⟩⟩
  · ext i j
    fin_cases i <;> fin_cases j <;> simp [Matrix.mul_apply, Fin.sum_univ_three]
  · simp [det_fin_three]

/-- the point reflection of the plane is generated by `SO(2)`, that of space by `O(3)` but not by `SO(3)` -/
example : (∃ a : Arr3 ℝ, soLie 2 = .ok a ∧ Generated (a.mats 2) [] (-1)) ∧ (∃ a : Arr3 ℝ, soLie 3 = .ok a ∧ ¬ Generated (a.mats 3) [] (-1)) ∧
    ∃ a b : Arr3 ℝ, soLie 3 = .ok a ∧ oDisc 3 = .ok b ∧ Generated (a.mats 3) (b.mats 3) (-1) := by
  obtain ⟨a, ha, h⟩ := C115_so 2
  obtain ⟨a', ha', h'⟩ := C115_so 3
  obtain ⟨a2, b2, h1, h2, h3⟩ := C115_o 3 (by norm_num)
  refine ⟨⟨a, ha, (h _).2 ⟨by simp, by simp [det_neg]⟩⟩, ⟨a', ha', fun hg => ?_⟩, a2, b2, h1, h2, (h3 _).2 (by simp)⟩
  have := ((h' _).1 hg).2
  rw [det_neg] at this
  norm_num at this

/-- a shear is generated by `SL(2)`, by `Sp(1)` and by `GL(2)` -/
example : (∃ a : Arr3 ℝ, slLie 2 = .ok a ∧ Generated (a.mats 2) [] !![1, 5; 0, 1]) ∧ (∃ a : Arr3 ℝ, glLie 2 = .ok a ∧ Generated (a.mats 2) [] !![1, 5; 0, 1]) := by
  obtain ⟨a, ha, h⟩ := C115_sl 2 (by norm_num)
  obtain ⟨a', ha', h'⟩ := C115_gl 2
  exact ⟨⟨a, ha, (h _).2 (by simp [det_fin_two])⟩, a', ha', (h' _).2 (by simp [det_fin_two])⟩

/-- multiplication by `i` is generated by `U(1)`; `diag(i,-i)` by `SU(2)` -/
example : (∃ re im : Arr3 ℝ, uLie 1 = .ok (re, im) ∧ Generated (cplxMats re im 1) [] (Complex.I • 1)) ∧
    ∃ re im : Arr3 ℝ, suLie 2 = .ok (re, im) ∧ Generated (cplxMats re im 2) [] !![Complex.I, 0; 0, -Complex.I] := by
  obtain ⟨re, im, ha, h⟩ := C115_u 1
  obtain ⟨re', im', ha', h'⟩ := C115_su 2 (by norm_num)
  refine ⟨⟨re, im, ha, (h _).2 ?_⟩, re', im', ha', (h' _).2 ⟨?_, ?_⟩⟩
  · rw [conjTranspose_smul, smul_mul_smul_comm]
    simp
  · ext i j
    fin_cases i <;> fin_cases j <;> simp [Matrix.mul_apply, conjTranspose_apply]
  · simp [det_fin_two]

/-- the boost with velocity `3/5` is generated by `SO11p`, its negative is not, but is by `O11` -/
example : Generated ((so11pLie : Arr3 ℝ).mats 2) [] !![5/4, 3/4; 3/4, 5/4] ∧ ¬ Generated ((so11pLie : Arr3 ℝ).mats 2) [] !![-5/4, -3/4; -3/4, -5/4] ∧
    ∃ b : Arr3 ℝ, o11Disc = .ok b ∧ Generated ((so11pLie : Arr3 ℝ).mats 2) (b.mats 2) !![-5/4, -3/4; -3/4, -5/4] := by
  obtain ⟨b, hb, h⟩ := C115_o11
  refine ⟨(C115_so11p _).2 ⟨?_, ?_, ?_⟩, fun hg => ?_, b, hb, (h _).2 ?_⟩
  · ext i j
    fin_cases i <;> fin_cases j <;> simp [Matrix.mul_apply, minkowski, diagonal] <;> norm_num
  · simp [det_fin_two]; norm_num
  · simp
  · have := ((C115_so11p _).1 hg).2.2
    simp at this
    norm_num at this
  · ext i j
    fin_cases i <;> fin_cases j <;> simp [Matrix.mul_apply, minkowski, diagonal] <;> norm_num

/-- the hypotheses of `C115_network_so` on the groups are met by `SO(3)` in the world of Props/ExampleWorld.lean; the others, which
do not concern the generators, as at the end of Props/Layers.lean -/
example : ∃ (t : Arr3 ℝ) (lie : ∀ g, List (Matrix (Fin (exW.d g)) (Fin (exW.d g)) ℝ)), soLie (exW.d 0) = .ok t ∧ lie 0 = t.mats (exW.d 0) ∧
    GroupsOK exW (fun k g => trivialAtom _ _) lie fun _ => [] := by
  obtain ⟨t, ht, -⟩ := C115_so 3
  have e : exW.d 0 = 3 := rfl
  refine ⟨t, fun g => if g = 0 then t.mats _ else [], by rw [e]; exact ht, by simp, by simp, fun g _ => ⟨fun A hA => ?_, by simp⟩,
    fun _ _ => trivialAtom_hom _ _, fun k g _ M _ => by simp [trivialAtom], fun g hg => ?_⟩
  · by_cases h0 : g = 0
    · subst h0
      exact so_mats_anti (n := exW.d 0) (by rw [e]; exact ht) A (by simpa using hA)
    · simp [h0] at hA
  · have : g = 2 := by simpa [exW] using hg
    subst this
    exact ⟨rfl, by simp⟩

end Verif
