import Verif.Spec.Commutant
import Verif.Lemmas.LayerComplete
import Verif.Lemmas.OrthoDim
import Mathlib.LinearAlgebra.Dimension.Free
import Mathlib.LinearAlgebra.FiniteDimensional.Basic

/-!
# C104: linear layers compute exactly the equivariant affine maps
-/
namespace Verif
open List NormedSpace

theorem DMat.flat_unflat {R : Type} [CommRing R] (M : DMat R) : DMat.unflat M.rows M.cols M.flat = M :=
  DMat.ext rfl rfl fun _ _ hi hj => (DMat.of_e hi hj).trans (DMat.getD_flat M hi hj)

section
variable {W : World} {g : Gid} {N : ℕ} {custom : ∀ k g, AtomRep ℝ (W.d g) (W.usize k g)}
  {lie disc : ∀ g, List (Matrix (Fin (W.d g)) (Fin (W.d g)) ℝ)} {solve : ℕ → LinOp ℝ → Py (DMat ℝ)} {σ : NetSt ℝ} {a o : Rep}

/-- **C104.** Let `Linear(repin,repout)` be built after any history of calls.  The functions that it computes for the various values of its weight
and bias are exactly the affine maps `x ↦ Mx+c` that commute with every element of the group. -/
theorem C104_layers (hW : W.SingleOK g N) (ok : GroupsOK W custom lie disc)
    (hsol : SolverOK W (gensOf W (stdAtoms W custom) lie disc) solve) (hσ : NetReach W g (gensOf W (stdAtoms W custom) lie disc) solve σ)
    (ha : a.Over W g N) (ho : o.Over W g N) (hN : o.size W * a.size W ≤ N) {L : LinearL ℝ} {σ' : NetSt ℝ}
    (hL : LinearL.init W (gensOf W (stdAtoms W custom) lie disc) solve a o σ = .ok (L, σ')) (f : List ℝ → List ℝ) :
    (∃ (w : DMat ℝ) (b : List ℝ), w.rows = o.size W ∧ w.cols = a.size W ∧ b.length = o.size W ∧
      ∀ x : List ℝ, x.length = a.size W → L.apply w b x = .ok (f x)) ↔
    (∃ (M : DMat ℝ) (c : List ℝ), M.rows = o.size W ∧ M.cols = a.size W ∧ c.length = o.size W ∧
      ∀ x : List ℝ, x.length = a.size W → f x = zipWith (· + ·) (M.mulVec x) c) ∧
    ∀ h, Generated (lie g) (disc g) h → ∀ x : List ℝ, x.length = a.size W →
      f ((a.mat (Interp.elem W custom g h)).mulVec x) = (o.mat (Interp.elem W custom g h)).mulVec (f x) := by
  obtain ⟨nin, nout, ⟨r, hr, hz, hint, hPw⟩, hPb⟩ := (LinearL.init_exact hW gensOf_sized hsol ha ho hN σ (hσ.ok hsol) L σ' hL).2
  have ev : ∀ (w : DMat ℝ) (b x : List ℝ), w.rows = o.size W → w.cols = a.size W → b.length = o.size W → x.length = a.size W →
      L.apply w b x = .ok (zipWith (· + ·) ((DMat.unflat (o.size W) (a.size W) (L.Pw.sem.mulVec w.flat)).mulVec x) (L.Pb.sem.mulVec b)) := by
    intro w b x h1 h2 h3 h4
    unfold LinearL.apply
    rw [if_pos ⟨by rw [h1, nout], by rw [h2, nin], by rw [h3, nout], by rw [h4, nin]⟩, h1, h2]
  constructor
  · rintro ⟨w, b, h1, h2, h3, h4⟩
    refine ⟨⟨DMat.unflat (o.size W) (a.size W) (L.Pw.sem.mulVec w.flat), L.Pb.sem.mulVec b, rfl, rfl, by simp [hPb.sq.1], fun x hx => ?_⟩,
      fun h hh x hx => ?_⟩
    · exact Except.ok.inj ((h4 x hx).symm.trans (ev w b x h1 h2 h3 hx))
    · obtain ⟨y, h5, -, h6⟩ := (C30_linear hW ok hsol hσ ha ho hN).1 L σ' hL w b h1 h2 h3 h hh x hx
      have h7 : (a.mat (Interp.elem W custom g h)).IsSq (a.size W) := Rep.mat_sq (at_sized _) ha.wf
      rw [h4 _ (by rw [DMat.length_mulVec, h7.1])] at h6
      rw [h4 x hx] at h5
      rw [Except.ok.inj h6, Except.ok.inj h5]
  · rintro ⟨⟨M, c, hM, hM', hc, hf⟩, heq⟩
    have hcom := fun h hh => affine_commutes hM hM' hc (Rep.mat_sq (at_sized _) ha.wf) (Rep.mat_sq (at_sized _) ho.wf) hf (heq h hh)
    have hw : L.Pw.sem.mulVec M.flat = M.flat := by
      have hl : M.flat.length = r.size W := by rw [DMat.length_flat, hM, hM', hz]
      refine (hPw.fix _ hl).1 (fixed_of_group (stdAtoms_hom ok.hom) hr hl fun h hh => ?_)
      exact (hint _ (elem_dual ok hh) M hM hM').2 (hcom h hh).1
    have hb : L.Pb.sem.mulVec c = c :=
      (hPb.fix _ hc).1 (fixed_of_group (stdAtoms_hom ok.hom) ho hc fun h hh => (hcom h hh).2)
    refine ⟨M, c, hM, hM', hc, fun x hx => ?_⟩
    rw [ev M c x hM hM' hc hx, hw, hb, hf x hx, ← hM, ← hM', DMat.flat_unflat]

end

/-! ### Layers from `V` to `V` -/

section
variable {𝕜 : Type} [RCLike 𝕜] {n : ℕ} {lie disc : List (Matrix (Fin n) (Fin n) 𝕜)}

theorem mem_commutant {M : Matrix (Fin n) (Fin n) 𝕜} : M ∈ commutant lie disc ↔ (∀ A ∈ lie, M * A = A * M) ∧ ∀ A ∈ disc, M * A = A * M := by
  show (∀ A ∈ lie ++ disc, M * A = A * M) ↔ _
  simp only [mem_append, or_imp, forall_and]

theorem commutes_span {M : Matrix (Fin n) (Fin n) 𝕜} (h : ∀ A ∈ lie, M * A = A * M) {A : Matrix (Fin n) (Fin n) 𝕜}
    (hA : A ∈ Submodule.span ℝ {B | B ∈ lie}) : M * A = A * M := by
  induction hA using Submodule.span_induction with
  | mem A hA => exact h A hA
  | zero => rw [mul_zero, zero_mul]
  | add A B _ _ ha hb => rw [mul_add, add_mul, ha, hb]
  | smul c A _ ha => rw [mul_smul_comm, smul_mul_assoc, ha]

set_option backward.isDefEq.respectTransparency false in
open scoped Matrix.Norms.Operator in
theorem commutes_of_exp {M D : Matrix (Fin n) (Fin n) 𝕜} (h : ∀ t : ℝ, M * exp (t • D) = exp (t • D) * M) : M * D = D * M := by
  have h1 : HasDerivAt (fun t : ℝ => exp (t • D)) (exp ((0 : ℝ) • D) * D) 0 := hasDerivAt_exp_smul_const D (0 : ℝ)
  rw [zero_smul, exp_zero, one_mul] at h1
  have h2 := h1.const_mul M
  have h3 := h1.mul_const M
  rw [funext h] at h2
  exact h2.unique h3

/-- Commuting with the generators is commuting with the group. -/
theorem mem_commutant_iff (hd : ∀ h ∈ disc, IsUnit h.det) {M : Matrix (Fin n) (Fin n) 𝕜} :
    M ∈ commutant lie disc ↔ ∀ h, Generated lie disc h → M * h = h * M := by
  rw [mem_commutant]
  constructor
  · rintro ⟨h1, h2⟩ h hh
    induction hh with
    | one => rw [mul_one, one_mul]
    | @exp A hA =>
      have e := exp_intertwine (𝕜 := 𝕜) M A A (commutes_span h1 hA)
      exact e
    | gen hh => exact h2 _ hh
    | @inv h hh =>
      have hu := hd h hh
      calc M * h⁻¹ = h⁻¹ * (h * M) * h⁻¹ := by rw [← Matrix.mul_assoc, Matrix.nonsing_inv_mul _ hu, Matrix.one_mul]
        _ = h⁻¹ * M := by rw [← h2 h hh, Matrix.mul_assoc, Matrix.mul_assoc, Matrix.mul_nonsing_inv _ hu, Matrix.mul_one]
    | mul _ _ ha hb => rw [← Matrix.mul_assoc, ha, Matrix.mul_assoc, hb, Matrix.mul_assoc]
  · intro h
    exact ⟨fun A hA => commutes_of_exp fun t => h _ (.exp (Submodule.smul_mem _ _ (Submodule.subset_span hA))), fun A hA => h A (.gen hA)⟩

/-- A vector is fixed by the group if and only if the discrete generators fix it and the Lie algebra annihilates it. -/
theorem fixed_vector_iff (hd : ∀ h ∈ disc, IsUnit h.det) {c : Fin n → 𝕜} :
    ((∀ h ∈ disc, h.mulVec c = c) ∧ ∀ A ∈ lie, A.mulVec c = 0) ↔ ∀ h, Generated lie disc h → h.mulVec c = c := by
  constructor
  · rintro ⟨h1, h2⟩ h hh
    induction hh with
    | one => rw [Matrix.one_mulVec]
    | @exp A hA =>
      have h0 : A.mulVec c = 0 := by
        induction hA using Submodule.span_induction with
        | mem A hA => exact h2 A hA
        | zero => rw [Matrix.zero_mulVec]
        | add A B _ _ ha hb => rw [Matrix.add_mulVec, ha, hb, add_zero]
        | smul t A _ ha => rw [Matrix.smul_mulVec, ha, smul_zero]
      have e := exp_intertwine (𝕜 := 𝕜) (Matrix.of fun i (_ : Unit) => c i) 0 A (by
        rw [Matrix.mul_zero]
        ext i j
        exact (congrFun h0 i).symm)
      rw [exp_zero, Matrix.mul_one] at e
      funext i
      exact (congrFun (congrFun e i) ()).symm
    | gen hh => exact h1 _ hh
    | @inv h hh =>
      have hu := hd h hh
      calc (h⁻¹).mulVec c = (h⁻¹).mulVec (h.mulVec c) := by rw [h1 h hh]
        _ = c := by rw [Matrix.mulVec_mulVec, Matrix.nonsing_inv_mul _ hu, Matrix.one_mulVec]
    | mul _ _ ha hb => rw [← Matrix.mulVec_mulVec, hb, ha]
  · intro h
    exact ⟨fun A hA => h A (.gen hA), fun A hA => kill_of_exp A c fun t => h _ (.exp (Submodule.smul_mem _ _ (Submodule.subset_span hA)))⟩

theorem DMat.ofMatrix_mulVec (M : Matrix (Fin n) (Fin n) 𝕜) (x : Fin n → 𝕜) : (DMat.ofMatrix M).mulVec (List.ofFn x) = List.ofFn (M.mulVec x) := by
  refine DMat.vec_ext (by simp [DMat.ofMatrix, DMat.of]) fun i hi => ?_
  have hi' : i < n := by simpa [DMat.ofMatrix, DMat.of] using hi
  rw [DMat.getD_mulVec (show i < (DMat.ofMatrix M).rows from hi'), show (DMat.ofMatrix M).cols = n from rfl, Finset.sum_range,
    getD_eq_getElem _ _ (by simpa), List.getElem_ofFn]
  exact Finset.sum_congr rfl fun j _ => by rw [DMat.ofMatrix_e M hi' j.2, getD_eq_getElem _ _ (by simp), List.getElem_ofFn]

end

/-- The representation `V(G)`. -/
def vecRep (g : Gid) : Rep := .key (.fac (.atom (.vec 0 (some g))))

section
variable {W : World} {g : Gid} {N : ℕ} {custom : ∀ k g, AtomRep ℝ (W.d g) (W.usize k g)}
  {lie disc : ∀ g, List (Matrix (Fin (W.d g)) (Fin (W.d g)) ℝ)} {solve : ℕ → LinOp ℝ → Py (DMat ℝ)} {σ : NetSt ℝ}

theorem vecRep_over (hd : 2 ≤ W.d g) (hN : W.d g * W.d g ≤ N) : (vecRep g).Over W g N := by
  refine ⟨rfl, fun k hk => ?_⟩
  rw [show k = .fac (.atom (.vec 0 (some g))) by simpa [vecRep, Rep.keys, Key.base, Fac.base] using hk]
  refine ⟨?_, ?_, hd⟩
  · show W.d g ≤ N
    nlinarith
  · cases h : W.orth g
    · exact .inr ⟨rfl, .inl rfl⟩
    · exact .inl ⟨rfl, 0, rfl⟩

theorem vecRep_mat (h : Matrix (Fin (W.d g)) (Fin (W.d g)) ℝ) : (vecRep g).mat (Interp.elem W custom g h) = DMat.ofMatrix h := by
  show DMat.ofMatrix (oneAt W g h g) = _
  rw [oneAt_same]

/-- **C104.** The functions computed by a layer `Linear(V,V)` are exactly the maps `x ↦ Mx+c` where `M` commutes with all generators of the group and
`c` is fixed by its discrete generators and annihilated by its Lie algebra. -/
theorem C104_vector_layers (hW : W.SingleOK g N) (ok : GroupsOK W custom lie disc)
    (hsol : SolverOK W (gensOf W (stdAtoms W custom) lie disc) solve) (hσ : NetReach W g (gensOf W (stdAtoms W custom) lie disc) solve σ)
    (hd : 2 ≤ W.d g) (hN : W.d g * W.d g ≤ N) {L : LinearL ℝ} {σ' : NetSt ℝ}
    (hL : LinearL.init W (gensOf W (stdAtoms W custom) lie disc) solve (vecRep g) (vecRep g) σ = .ok (L, σ'))
    (f : (Fin (W.d g) → ℝ) → Fin (W.d g) → ℝ) :
    (∃ (w : DMat ℝ) (b : List ℝ), w.rows = W.d g ∧ w.cols = W.d g ∧ b.length = W.d g ∧
      ∀ x, L.apply w b (List.ofFn x) = .ok (List.ofFn (f x))) ↔
    ∃ M ∈ commutant (lie g) (disc g), ∃ c : Fin (W.d g) → ℝ, ((∀ h ∈ disc g, h.mulVec c = c) ∧ ∀ A ∈ lie g, A.mulVec c = 0) ∧
      ∀ x, f x = M.mulVec x + c := by
  have hV := vecRep_over hd hN
  have h0 := C104_layers hW ok hsol hσ hV hV hN hL fun l => List.ofFn (f fun i => l.getD i 0)
  have hof : ∀ x : Fin (W.d g) → ℝ, (fun i : Fin (W.d g) => (List.ofFn x).getD i 0) = x := fun x => by
    funext i; rw [getD_eq_getElem _ _ (by simp), List.getElem_ofFn]
  have hto : ∀ l : List ℝ, l.length = W.d g → List.ofFn (fun i : Fin (W.d g) => l.getD i 0) = l := fun l hl => by
    refine List.ext_getElem (by simp [hl]) fun i h1 h2 => ?_
    rw [List.getElem_ofFn, getD_eq_getElem _ _ h2]
  have hz : ∀ u v : Fin (W.d g) → ℝ, zipWith (· + ·) (List.ofFn u) (List.ofFn v) = List.ofFn (u + v) := fun u v => by
    refine List.ext_getElem (by simp) fun i h1 h2 => by simp
  have hsz : (vecRep g).size W = W.d g := rfl
  rw [hsz] at h0
  have hl : (∃ (w : DMat ℝ) (b : List ℝ), w.rows = W.d g ∧ w.cols = W.d g ∧ b.length = W.d g ∧
      ∀ x, L.apply w b (List.ofFn x) = .ok (List.ofFn (f x))) ↔ ∃ (w : DMat ℝ) (b : List ℝ), w.rows = W.d g ∧ w.cols = W.d g ∧ b.length = W.d g ∧
      ∀ x : List ℝ, x.length = W.d g → L.apply w b x = .ok (List.ofFn (f fun i => x.getD i 0)) := by
    refine exists_congr fun w => exists_congr fun b => and_congr_right fun _ => and_congr_right fun _ => and_congr_right fun _ => ⟨fun h x hx => ?_, fun h x => ?_⟩
    · have := h fun i => x.getD i 0
      rwa [hto x hx] at this
    · have := h (List.ofFn x) (by simp)
      rwa [hof] at this
  rw [hl, h0]
  constructor
  · rintro ⟨⟨M, c, hM, hM', hc, hf⟩, heq⟩
    have hsq : ∀ h, ((vecRep g).mat (Interp.elem W custom g h)).IsSq (W.d g) := fun h => Rep.mat_sq (at_sized _) hV.wf
    have hcom := fun h hh => affine_commutes hM hM' hc (hsq h) (hsq h) hf (heq h hh)
    have eM : DMat.ofMatrix (M.toMatrix (W.d g) (W.d g)) = M :=
      DMat.ext hM.symm hM'.symm fun i j hi hj => DMat.ofMatrix_e _ hi hj
    have ec := hto c hc
    refine ⟨M.toMatrix _ _, (mem_commutant_iff (ok.unit g)).2 fun h hh => ?_, fun i => c.getD i 0, (fixed_vector_iff (ok.unit g)).2 fun h hh => ?_,
      fun x => ?_⟩
    · have h1 := (hcom h hh).1
      rw [vecRep_mat, ← eM, ← DMat.ofMatrix_mul, ← DMat.ofMatrix_mul] at h1
      have h2 := congrArg (fun X : DMat ℝ => X.toMatrix (W.d g) (W.d g)) h1
      simpa only [DMat.toMatrix_ofMatrix] using h2
    · have h1 := (hcom h hh).2
      rw [vecRep_mat, ← ec, DMat.ofMatrix_mulVec] at h1
      exact List.ofFn_injective h1
    · have h1 := hf (List.ofFn x) (by simp)
      rw [hof, ← eM, ← ec, DMat.ofMatrix_mulVec, hz] at h1
      exact List.ofFn_injective h1
  · rintro ⟨M, hM, c, hc, hf⟩
    refine ⟨⟨DMat.ofMatrix M, List.ofFn c, rfl, rfl, by simp, fun x hx => ?_⟩, fun h hh x hx => ?_⟩
    · rw [hf, ← hz, ← DMat.ofMatrix_mulVec, hto x hx]
    · have h1 := (mem_commutant_iff (ok.unit g)).1 hM h hh
      have h2 := (fixed_vector_iff (ok.unit g)).1 hc h hh
      rw [vecRep_mat, DMat.ofMatrix_mulVec]
      congr 1
      have h3 : (fun i : Fin (W.d g) => ((DMat.ofMatrix h).mulVec x).getD i 0) = h.mulVec fun i => x.getD i 0 := by
        conv_lhs => rw [← hto x hx]
        rw [DMat.ofMatrix_mulVec, hof]
      rw [h3, hf, hf, Matrix.mulVec_add, h2, Matrix.mulVec_mulVec, Matrix.mulVec_mulVec, h1]

end

/-! ### The basis of `V>>V` -/

section
variable {𝕜 : Type} [RCLike 𝕜] {n : ℕ}

/-- The entries of a matrix, row by row. -/
def vecM (n : ℕ) : Matrix (Fin n) (Fin n) 𝕜 ≃ₗ[𝕜] (Fin (n * n) → 𝕜) where
  toFun M k := M k.divNat k.modNat
  invFun v := Matrix.of fun i j => v (finProdFinEquiv (i, j))
  left_inv M := by
    ext i j
    have := finProdFinEquiv.symm_apply_apply (i, j)
    exact congrArg₂ M (congrArg Prod.fst this) (congrArg Prod.snd this)
  right_inv v := by
    funext k
    exact congrArg v (finProdFinEquiv.apply_symm_apply k)
  map_add' M M' := rfl
  map_smul' c M := rfl

theorem flat_ofMatrix (M : Matrix (Fin n) (Fin n) 𝕜) : (DMat.ofMatrix M).flat = List.ofFn (vecM n M) := by
  refine DMat.vec_ext (by simp [DMat.length_flat, DMat.ofMatrix, DMat.of]) fun k hk => ?_
  have hk' : k < n * n := by simpa [DMat.length_flat, DMat.ofMatrix, DMat.of] using hk
  have hn : 0 < n := by
    rcases Nat.eq_zero_or_pos n with h | h
    · subst h; simp at hk'
    · exact h
  have h1 : k / n < n := Nat.div_lt_of_lt_mul hk'
  have h2 : k % n < n := Nat.mod_lt _ hn
  have e : k = k / n * n + k % n := by rw [Nat.mul_comm]; exact (Nat.div_add_mod k n).symm
  have h3 := DMat.getD_flat (DMat.ofMatrix M) (i := k / n) (j := k % n) h1 h2
  rw [show (DMat.ofMatrix M).cols = n from rfl, ← e, DMat.ofMatrix_e M h1 h2] at h3
  rw [h3, getD_eq_getElem _ _ (by simpa using hk'), List.getElem_ofFn]
  rfl

theorem ofMatrix_inj {A B : Matrix (Fin n) (Fin n) 𝕜} : DMat.ofMatrix A = DMat.ofMatrix B ↔ A = B :=
  ⟨fun h => by rw [← DMat.toMatrix_ofMatrix A, h, DMat.toMatrix_ofMatrix], fun h => by rw [h]⟩

theorem ofMatrix_flat_inj {A B : Matrix (Fin n) (Fin n) 𝕜} : (DMat.ofMatrix A).flat = (DMat.ofMatrix B).flat ↔ A = B :=
  ⟨fun h => ofMatrix_inj.1 (DMat.flat_inj rfl rfl h), fun h => by rw [h]⟩

theorem kron_ofMatrix_flat (A B M : Matrix (Fin n) (Fin n) 𝕜) :
    (DMat.kron (DMat.ofMatrix A) (DMat.ofMatrix B)).mulVec (DMat.ofMatrix M).flat = (DMat.ofMatrix (A * M * B.transpose)).flat := by
  rw [DMat.kron_mulVec_flat (DMat.ofMatrix B) (DMat.ofMatrix A) (DMat.ofMatrix M) rfl rfl, ← DMat.ofMatrix_mul, ← DMat.ofMatrix_transpose, ← DMat.ofMatrix_mul]

theorem kronsum_ofMatrix_flat (A B M : Matrix (Fin n) (Fin n) 𝕜) :
    (DMat.kronsum (DMat.ofMatrix A) (DMat.ofMatrix B)).mulVec (DMat.ofMatrix M).flat = (DMat.ofMatrix (A * M + M * B.transpose)).flat := by
  unfold DMat.kronsum
  have hadd : ∀ X Y : DMat 𝕜, X.IsSq (n * n) → Y.IsSq (n * n) → ∀ v, (X.add Y).mulVec v = zipWith (· + ·) (X.mulVec v) (Y.mulVec v) := by
    intro X Y hX hY v
    refine DMat.vec_ext (by simp [DMat.add, DMat.of, hX.1, hY.1]) fun i hi => ?_
    have hi' : i < n * n := by simpa [DMat.add, DMat.of, hX.1] using hi
    have e : (X.add Y).cols = n * n := hX.2
    rw [DMat.getD_mulVec (A := X.add Y) (by show i < X.rows; rw [hX.1]; exact hi'), e,
      getD_eq_getElem _ _ (by simpa [hX.1, hY.1] using hi'), getElem_zipWith, ← getD_eq_getElem (X.mulVec v) 0 (by simpa [hX.1] using hi'),
      ← getD_eq_getElem (Y.mulVec v) 0 (by simpa [hY.1] using hi'), DMat.getD_mulVec (by rw [hX.1]; exact hi'),
      DMat.getD_mulVec (by rw [hY.1]; exact hi'), hX.2, hY.2, ← Finset.sum_add_distrib]
    refine Finset.sum_congr rfl fun j hj => ?_
    rw [show (X.add Y).e i j = X.e i j + Y.e i j from DMat.of_e (by rw [hX.1]; exact hi') (by rw [hX.2]; exact Finset.mem_range.1 hj), add_mul]
  rw [hadd _ _ ⟨rfl, rfl⟩ ⟨rfl, rfl⟩, show (DMat.ofMatrix A).rows = n from rfl, show (DMat.ofMatrix B).rows = n from rfl, ← DMat.ofMatrix_one,
    kron_ofMatrix_flat, kron_ofMatrix_flat, Matrix.transpose_one, Matrix.mul_one, Matrix.one_mul, flat_ofMatrix, flat_ofMatrix, flat_ofMatrix, map_add]
  refine List.ext_getElem (by simp) fun i h1 h2 => by simp

variable {W : World} {g : Gid} {N : ℕ} {custom : ∀ k g, AtomRep 𝕜 (W.d g) (W.usize k g)}
  {lie disc : ∀ g, List (Matrix (Fin (W.d g)) (Fin (W.d g)) 𝕜)} {solve : ℕ → LinOp 𝕜 → Py (DMat 𝕜)}

/-- **C104.** After any history of calls, the columns of `(V>>V).equivariant_basis()` are an orthonormal basis of the matrices (flattened row by row)
that commute with all generators of the group, and there are as many as this space has dimensions. -/
theorem C104_basis (hW : W.SingleOK g N) (hd : 2 ≤ W.d g) (hN : W.d g * W.d g ≤ N)
    (hdual : GenSet.Dual W (gensOf W (stdAtoms W custom) lie disc)) (hsol : SolverOK W (gensOf W (stdAtoms W custom) lie disc) solve)
    (htot : SolverRuns W (gensOf W (stdAtoms W custom) lie disc) solve) (calls : List SolveCall) :
    ∃ r L, (Expr.rshift (.rep 0) (.rep 0)).eval W g = .ok r ∧
      (r.equivariantBasis W (gensOf W (stdAtoms W custom) lie disc) solve (session W (gensOf W (stdAtoms W custom) lie disc) solve calls freshSt)).1 =
        .ok L ∧
      OrthoBasis (W.d g * W.d g) L.sem (fun v => ∃ M ∈ commutant (lie g) (disc g), v = (DMat.ofMatrix M).flat) ∧
      L.sem.cols = Module.finrank 𝕜 (commutant (lie g) (disc g)) := by
  have hle : W.asize 0 g ≤ N := by
    show W.d g ≤ N
    nlinarith
  obtain ⟨r, L, h3, h4, h5⟩ := C21_expressions (W := W) (gens := gensOf W (stdAtoms W custom) lie disc) (solve := solve) hW
    (.rshift (.rep 0) (.rep 0)) ⟨⟨hd, .inl rfl⟩, ⟨hd, .inl rfl⟩⟩ (max_le hN (max_le hle hle)) hdual hsol htot calls
  have hdim : (Expr.rshift (.rep 0) (.rep 0)).dim W g = W.d g * W.d g := rfl
  rw [hdim] at h5
  have hF : ∀ M : Matrix (Fin (W.d g)) (Fin (W.d g)) 𝕜, ((∀ x ∈ (gensOf W (stdAtoms W custom) lie disc g).disc,
      ((Expr.rshift (.rep 0) (.rep 0)).den g x).1.mulVec (DMat.ofMatrix M).flat = (DMat.ofMatrix M).flat) ∧
      ∀ A ∈ (gensOf W (stdAtoms W custom) lie disc g).lie, ((Expr.rshift (.rep 0) (.rep 0)).dden g A).1.mulVec (DMat.ofMatrix M).flat =
        replicate (DMat.ofMatrix M).flat.length 0) ↔ M ∈ commutant (lie g) (disc g) := by
    intro M
    have hlie : ∀ A, ((Expr.rshift (.rep 0) (.rep 0)).dden g (Interp.dat W (stdAtoms W custom) (zeroAt W g A))).1.mulVec (DMat.ofMatrix M).flat =
        (DMat.ofMatrix (A * M - M * A)).flat := fun A => by
      show (DMat.kronsum (DMat.ofMatrix (zeroAt W g A g)) (DMat.ofMatrix (-(zeroAt W g A g).transpose))).mulVec _ = _
      rw [kronsum_ofMatrix_flat, zeroAt_same, Matrix.transpose_neg, Matrix.transpose_transpose, Matrix.mul_neg, sub_eq_add_neg]
    have hdisc : ∀ h, ((Expr.rshift (.rep 0) (.rep 0)).den g (Interp.at W (stdAtoms W custom) (oneAt W g h))).1.mulVec (DMat.ofMatrix M).flat =
        (DMat.ofMatrix (h * M * h⁻¹)).flat := fun h => by
      show (DMat.kron (DMat.ofMatrix (oneAt W g h g)) (DMat.ofMatrix (oneAt W g h g)⁻¹.transpose)).mulVec _ = _
      rw [kron_ofMatrix_flat, oneAt_same, Matrix.transpose_transpose]
    have hzero : (DMat.ofMatrix (0 : Matrix (Fin (W.d g)) (Fin (W.d g)) 𝕜)).flat = replicate (DMat.ofMatrix M).flat.length 0 := by
      rw [DMat.ofMatrix_zero, DMat.flat_zero, DMat.length_flat]; rfl
    have hunit : ∀ h ∈ disc g, IsUnit h.det := fun h hh => by
      have h1 := ((hdual g).1 _ (mem_map_of_mem (f := fun h => Interp.at W (stdAtoms W custom) (oneAt W g h)) hh)).inv 0 g
      have h2 : (DMat.ofMatrix (oneAt W g h g)⁻¹.transpose).transpose.mul (DMat.ofMatrix (oneAt W g h g)) = DMat.one (W.d g) := h1
      rw [← DMat.ofMatrix_transpose, ← DMat.ofMatrix_mul, ← DMat.ofMatrix_one, ofMatrix_inj, Matrix.transpose_transpose, oneAt_same] at h2
      exact Matrix.isUnit_det_of_left_inverse h2
    rw [mem_commutant, and_comm]
    refine and_congr ⟨fun h A hA => ?_, fun h x hx => ?_⟩ ⟨fun h A hA => ?_, fun h x hx => ?_⟩
    · have := h _ (mem_map_of_mem (f := fun A => Interp.dat W (stdAtoms W custom) (zeroAt W g A)) hA)
      rw [hlie, ← hzero, ofMatrix_flat_inj] at this
      exact (sub_eq_zero.1 this).symm
    · obtain ⟨A, hA, rfl⟩ := mem_map.1 hx
      rw [hlie, ← hzero, ofMatrix_flat_inj, h A hA, sub_self]
    · have := h _ (mem_map_of_mem (f := fun h => Interp.at W (stdAtoms W custom) (oneAt W g h)) hA)
      rw [hdisc, ofMatrix_flat_inj] at this
      conv_lhs => rw [← this]
      rw [Matrix.mul_assoc, Matrix.nonsing_inv_mul _ (hunit A hA), Matrix.mul_one]
    · obtain ⟨A, hA, rfl⟩ := mem_map.1 hx
      rw [hdisc, ofMatrix_flat_inj, ← h A hA, Matrix.mul_assoc, Matrix.mul_nonsing_inv _ (hunit A hA), Matrix.mul_one]
  refine ⟨r, L, h3, h4, ⟨h5.rows, h5.orth, fun v hv => ?_⟩, ?_⟩
  · rw [← h5.span v hv]
    constructor
    · rintro ⟨M, hM, rfl⟩
      exact (hF M).2 hM
    · intro h
      obtain ⟨M, rfl⟩ : ∃ M : Matrix (Fin (W.d g)) (Fin (W.d g)) 𝕜, (DMat.ofMatrix M).flat = v := by
        refine ⟨(vecM _).symm fun k => v.getD k 0, ?_⟩
        rw [flat_ofMatrix, LinearEquiv.apply_symm_apply]
        refine List.ext_getElem (by simp [hv]) fun i h1 h2 => ?_
        rw [List.getElem_ofFn, getD_eq_getElem _ _ h2]
      exact ⟨M, (hF M).1 h, rfl⟩
  · refine h5.cols_eq (((vecM _).toLinearMap.comp (commutant (lie g) (disc g)).subtype).comp
      (Module.finBasis 𝕜 (commutant (lie g) (disc g))).equivFun.symm.toLinearMap) ?_ fun v => ?_
    · exact ((vecM _).injective.comp (Submodule.injective_subtype _)).comp (LinearEquiv.injective _)
    · have e : List.ofFn v = (DMat.ofMatrix ((vecM _).symm v)).flat := by rw [flat_ofMatrix, LinearEquiv.apply_symm_apply]
      rw [e, hF]
      constructor
      · intro h
        refine ⟨(Module.finBasis 𝕜 (commutant (lie g) (disc g))).equivFun ⟨_, h⟩, ?_⟩
        simp
      · rintro ⟨b, rfl⟩
        have := ((Module.finBasis 𝕜 (commutant (lie g) (disc g))).equivFun.symm b).2
        simpa using this

end
end Verif
