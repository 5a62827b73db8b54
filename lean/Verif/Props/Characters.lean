import Verif.Spec.Characters
import Verif.Props.Solver
import Verif.Lemmas.DualGens
import Verif.Props.Commutants2
import Verif.Lemmas.OrthoDim
import Mathlib.LinearAlgebra.Trace

/-! # C127: the number of equivariant maps of a finite group -/
namespace Verif
open List

/-! ## Traces -/
namespace DMat
variable {R : Type} [CommRing R]

theorem tr_one (n : ℕ) : (one n : DMat R).tr = n := by
  show ∑ i ∈ Finset.range n, (one n : DMat R).e i i = n
  rw [Finset.sum_congr rfl fun i hi => show (one n : DMat R).e i i = 1 by
    rw [one, of_e (Finset.mem_range.1 hi) (Finset.mem_range.1 hi), if_pos rfl]]
  simp

theorem tr_bdiag2 {A B : DMat R} {m n : ℕ} (hA : A.IsSq m) (hB : B.IsSq n) : (bdiag2 A B).tr = A.tr + B.tr := by
  unfold tr
  rw [bdiag2_rows, Finset.sum_range_add]
  refine congrArg₂ _ (Finset.sum_congr rfl fun i hi => ?_) (Finset.sum_congr rfl fun i hi => ?_)
  · have := Finset.mem_range.1 hi
    exact bdiag2_e11 this (by rw [hA.2, ← hA.1]; exact this)
  · have h := Finset.mem_range.1 hi
    rw [bdiag2_e22 (Nat.le_add_right _ _) (by rw [hA.2, ← hA.1]; exact Nat.le_add_right _ _)]
    rw [Nat.add_sub_cancel_left, hA.2, ← hA.1, Nat.add_sub_cancel_left]

theorem tr_bdiag_two {A B : DMat R} {m n : ℕ} (hA : A.IsSq m) (hB : B.IsSq n) : (bdiag [A, B]).tr = A.tr + B.tr := by
  rw [bdiag, bdiag_singleton, tr_bdiag2 hA hB]

theorem tr_bdiag_replicate {A : DMat R} {m : ℕ} (hA : A.IsSq m) : ∀ n : ℕ, (bdiag (replicate n A)).tr = n * A.tr ∧ (bdiag (replicate n A)).IsSq (n * m)
  | 0 => by simp [bdiag, tr, zero, of, IsSq]
  | n + 1 => by
    obtain ⟨h1, h2⟩ := tr_bdiag_replicate hA n
    rw [replicate_succ, bdiag, tr_bdiag2 hA h2, h1]
    refine ⟨by push_cast; ring, ?_, ?_⟩
    · rw [bdiag2_rows, hA.1, h2.1]; ring
    · rw [bdiag2_cols, hA.2, h2.2]; ring

theorem tr_kron {A B : DMat R} {m n : ℕ} (hA : A.IsSq m) (hB : B.IsSq n) : (kron A B).tr = A.tr * B.tr := by
  unfold tr
  rw [Finset.sum_mul_sum, ← Finset.sum_product', kron_rows, hA.1, hB.1]
  symm
  apply Finset.sum_bij' (fun (x : ℕ × ℕ) _ => x.1 * n + x.2) (fun k _ => (k / n, k % n))
  · rintro ⟨x, y⟩ hx
    simp only [Finset.mem_product, Finset.mem_range] at hx ⊢
    exact mul_add_lt hx.1 hx.2
  · intro k hk
    have hk := Finset.mem_range.1 hk
    have hn : 0 < n := Nat.pos_of_ne_zero fun h => by simp [h] at hk
    simp only [Finset.mem_product, Finset.mem_range]
    exact ⟨Nat.div_lt_of_lt_mul (by rwa [mul_comm] at hk), Nat.mod_lt _ hn⟩
  · rintro ⟨x, y⟩ hx
    simp only [Finset.mem_product, Finset.mem_range] at hx
    have hn : 0 < n := by omega
    simp only [Prod.mk.injEq]
    exact ⟨by rw [mul_comm, Nat.mul_add_div hn, Nat.div_eq_of_lt hx.2, Nat.add_zero], by rw [mul_comm, Nat.mul_add_mod, Nat.mod_eq_of_lt hx.2]⟩
  · intro k _
    simp only
    rw [mul_comm]
    exact Nat.div_add_mod k n
  · rintro ⟨x, y⟩ hx
    simp only [Finset.mem_product, Finset.mem_range] at hx
    have := kron_e (A := A) (B := B) (i := x) (j := x) (i' := y) (j' := y) (by rw [hA.1]; exact hx.1) (by rw [hA.2]; exact hx.1)
      (by rw [hB.1]; exact hx.2) (by rw [hB.2]; exact hx.2)
    rw [hB.1, hB.2] at this
    exact this.symm

theorem tr_kronL_replicate {A : DMat R} {m : ℕ} (hA : A.IsSq m) : ∀ n : ℕ, (kronL (replicate n A)).tr = A.tr ^ n ∧ (kronL (replicate n A)).IsSq (m ^ n)
  | 0 => ⟨by rw [replicate_zero, kronL, tr_one]; simp, rfl, rfl⟩
  | n + 1 => by
    obtain ⟨h1, h2⟩ := tr_kronL_replicate hA n
    rw [replicate_succ, kronL, tr_kron hA h2, h1]
    refine ⟨by ring, ?_, ?_⟩
    · rw [kron_rows, hA.1, h2.1]; ring
    · rw [kron_cols, hA.2, h2.2]; ring

theorem tr_toMatrix {A : DMat R} {n : ℕ} (hA : A.IsSq n) : (A.toMatrix n n).trace = A.tr := by
  rw [Matrix.trace, tr, hA.1, Finset.sum_range]
  rfl

end DMat

/-- The trace of the matrix an expression denotes is its character. -/
theorem Expr.tr_den {R : Type} [CommRing R] {W : World} {g : Gid} {I : Interp R} (hI : I.Dual W) : ∀ e : Expr,
    (e.den g I).1.tr = (e.char (fun k => (I.vec k (some g)).sem.tr) fun k => (I.dual k (some g)).sem.tr).1 ∧
    (e.den g I).2.tr = (e.char (fun k => (I.vec k (some g)).sem.tr) fun k => (I.dual k (some g)).sem.tr).2
  | .scalar => ⟨by rw [Expr.den, DMat.tr_one]; simp [Expr.char], by rw [Expr.den, DMat.tr_one]; simp [Expr.char]⟩
  | .rep k => ⟨rfl, rfl⟩
  | .add a b => by
    have pa := a.den_pair (g := g) hI
    have pb := b.den_pair (g := g) hI
    rw [Expr.den, DMat.tr_bdiag_two pa.sq1 pb.sq1, DMat.tr_bdiag_two pa.sq2 pb.sq2, (a.tr_den hI).1, (a.tr_den hI).2, (b.tr_den hI).1, (b.tr_den hI).2]
    exact ⟨rfl, rfl⟩
  | .mul a b => by
    have pa := a.den_pair (g := g) hI
    have pb := b.den_pair (g := g) hI
    rw [Expr.den, DMat.tr_kron pa.sq1 pb.sq1, DMat.tr_kron pa.sq2 pb.sq2, (a.tr_den hI).1, (a.tr_den hI).2, (b.tr_den hI).1, (b.tr_den hI).2]
    exact ⟨rfl, rfl⟩
  | .dual a => (a.tr_den hI).symm
  | .nsmul n a => by
    have pa := a.den_pair (g := g) hI
    rw [Expr.den, (DMat.tr_bdiag_replicate pa.sq1 n).1, (DMat.tr_bdiag_replicate pa.sq2 n).1, (a.tr_den hI).1, (a.tr_den hI).2]
    exact ⟨rfl, rfl⟩
  | .addNat a n => by
    have pa := a.den_pair (g := g) hI
    rw [Expr.den, DMat.tr_bdiag_two pa.sq1 (n := n) ⟨rfl, rfl⟩, DMat.tr_bdiag_two pa.sq2 (n := n) ⟨rfl, rfl⟩, (a.tr_den hI).1, (a.tr_den hI).2, DMat.tr_one]
    exact ⟨rfl, rfl⟩
  | .natAdd n a => by
    have pa := a.den_pair (g := g) hI
    rw [Expr.den, DMat.tr_bdiag_two (m := n) ⟨rfl, rfl⟩ pa.sq1, DMat.tr_bdiag_two (m := n) ⟨rfl, rfl⟩ pa.sq2, (a.tr_den hI).1, (a.tr_den hI).2, DMat.tr_one]
    exact ⟨add_comm _ _, add_comm _ _⟩
  | .pow a n => by
    have pa := a.den_pair (g := g) hI
    rw [Expr.den, (DMat.tr_kronL_replicate pa.sq1 n).1, (DMat.tr_kronL_replicate pa.sq2 n).1, (a.tr_den hI).1, (a.tr_den hI).2]
    exact ⟨rfl, rfl⟩
  | .rshift a b => by
    have pa := a.den_pair (g := g) hI
    have pb := b.den_pair (g := g) hI
    rw [Expr.den, DMat.tr_kron pb.sq1 pa.sq2, DMat.tr_kron pb.sq2 pa.sq1, (a.tr_den hI).1, (a.tr_den hI).2, (b.tr_den hI).1, (b.tr_den hI).2]
    exact ⟨rfl, rfl⟩
  | .lshift a b => by
    have pa := a.den_pair (g := g) hI
    have pb := b.den_pair (g := g) hI
    rw [Expr.den, DMat.tr_kron pa.sq1 pb.sq2, DMat.tr_kron pa.sq2 pb.sq1, (a.tr_den hI).1, (a.tr_den hI).2, (b.tr_den hI).1, (b.tr_den hI).2]
    exact ⟨rfl, rfl⟩

/-! ## Averaging -/

/-- The number of independent vectors fixed by a finite group is the average of the traces. -/
theorem average_trace {M : Type} [Monoid M] (S : Finset M) (hne : S.Nonempty) {n c : ℕ} (ρ : M → Matrix (Fin n) (Fin n) ℝ)
    (hS : ∀ a ∈ S, ∀ b ∈ S, a * b ∈ S) (hρ : ∀ a ∈ S, ∀ b ∈ S, ρ (a * b) = ρ a * ρ b) (hc : ∀ a ∈ S, ∀ b ∈ S, ∀ b' ∈ S, a * b = a * b' → b = b')
    (L : (Fin c → ℝ) →ₗ[ℝ] (Fin n → ℝ)) (hL : Function.Injective L) (hF : ∀ v, (∃ b, L b = v) ↔ ∀ a ∈ S, (ρ a).mulVec v = v) :
    (c : ℝ) * S.card = ∑ a ∈ S, (ρ a).trace := by
  classical
  have hk : (S.card : ℝ) ≠ 0 := by exact_mod_cast Finset.card_ne_zero.2 hne
  obtain ⟨P, hP⟩ : ∃ P : Matrix (Fin n) (Fin n) ℝ, P = (S.card : ℝ)⁻¹ • ∑ a ∈ S, ρ a := ⟨_, rfl⟩
  have hfix : ∀ a ∈ S, ρ a * P = P := by
    intro a ha
    have himg : S.image (a * ·) = S := by
      apply Finset.eq_of_subset_of_card_le
      · intro x hx
        obtain ⟨b, hb, rfl⟩ := Finset.mem_image.1 hx
        exact hS a ha b hb
      · rw [Finset.card_image_of_injOn fun b hb b' hb' h => hc a ha b hb b' hb' h]
    rw [hP, Matrix.mul_smul, Finset.mul_sum]
    congr 1
    conv_rhs => rw [← himg]
    rw [Finset.sum_image fun b hb b' hb' h => hc a ha b hb b' hb' h]
    exact Finset.sum_congr rfl fun b hb => (hρ a ha b hb).symm
  have hproj : LinearMap.IsProj (LinearMap.range L) P.toLin' := by
    refine ⟨fun x => ?_, fun x hx => ?_⟩
    · rw [LinearMap.mem_range, hF]
      intro a ha
      rw [Matrix.toLin'_apply, Matrix.mulVec_mulVec, hfix a ha]
    · rw [LinearMap.mem_range, hF] at hx
      rw [Matrix.toLin'_apply, hP, Matrix.smul_mulVec, Matrix.sum_mulVec, Finset.sum_congr rfl hx, Finset.sum_const, ← Nat.cast_smul_eq_nsmul ℝ, smul_smul,
        inv_mul_cancel₀ hk, one_smul]
  have h1 := hproj.trace
  rw [Matrix.trace_toLin'_eq, LinearMap.finrank_range_of_inj hL, Module.finrank_fin_fun, hP, Matrix.trace_smul, Matrix.trace_sum, smul_eq_mul] at h1
  rw [← h1]
  field_simp

/-- The same for the columns of an orthonormal basis. -/
theorem OrthoBasis.cols_average {M : Type} [Monoid M] (S : Finset M) (hne : S.Nonempty) {n : ℕ} {Q : DMat ℝ} {F : List ℝ → Prop} (hQ : OrthoBasis n Q F)
    (ρ : M → DMat ℝ) (hsq : ∀ a ∈ S, (ρ a).IsSq n) (hS : ∀ a ∈ S, ∀ b ∈ S, a * b ∈ S) (hρ : ∀ a ∈ S, ∀ b ∈ S, ρ (a * b) = (ρ a).mul (ρ b))
    (hc : ∀ a ∈ S, ∀ b ∈ S, ∀ b' ∈ S, a * b = a * b' → b = b') (hF : ∀ v : List ℝ, v.length = n → (F v ↔ ∀ a ∈ S, (ρ a).mulVec v = v)) :
    (Q.cols : ℝ) * S.card = ∑ a ∈ S, (ρ a).tr := by
  obtain rfl := hQ.rows
  have inj : Function.Injective Q.lin' := by
    intro a b hab
    have h1 : ∀ a : Fin Q.cols → ℝ, Q.conjTranspose.mulVec (Q.mulVec (List.ofFn a)) = List.ofFn a := fun a => by
      rw [← DMat.mulVec_mul _ _ _ rfl, hQ.orth, DMat.mulVec_one _ (by simp)]
    have h2 := h1 a
    rw [DMat.lin'_ofFn, hab, ← DMat.lin'_ofFn, h1 b] at h2
    exact (List.ofFn_injective h2).symm
  have hmv : ∀ a ∈ S, ∀ v : Fin Q.rows → ℝ, (ρ a).mulVec (List.ofFn v) = List.ofFn (((ρ a).toMatrix Q.rows Q.rows).mulVec v) := by
    intro a ha v
    have h := hsq a ha
    refine DMat.vec_ext (by simp [h.1]) fun i hi => ?_
    have hi : i < (ρ a).rows := by simpa using hi
    have hi' : i < Q.rows := by rw [← h.1]; exact hi
    rw [DMat.getD_mulVec hi, getD_eq_getElem _ _ (by simpa using hi'), List.getElem_ofFn, h.2, Finset.sum_range]
    refine Finset.sum_congr rfl fun j _ => ?_
    rw [getD_eq_getElem _ _ (by simp), List.getElem_ofFn]
    rfl
  rw [average_trace S hne (fun a => (ρ a).toMatrix Q.rows Q.rows) hS (fun a ha b hb => by
      rw [hρ a ha b hb, DMat.toMatrix_mul _ _ (hsq a ha).1 (hsq a ha).2 (hsq b hb).2]) hc Q.lin' inj fun v => ?_]
  · exact Finset.sum_congr rfl fun a ha => DMat.tr_toMatrix (hsq a ha)
  · have h1 := hF (List.ofFn v) (by simp)
    rw [hQ.span _ (by simp)] at h1
    constructor
    · rintro ⟨b, rfl⟩ a ha
      have := (h1.1 ⟨List.ofFn b, by simp, Q.lin'_ofFn b⟩) a ha
      rw [hmv a ha] at this
      exact List.ofFn_injective this
    · intro h
      obtain ⟨a, ha, hv⟩ := h1.2 fun a ha => by rw [hmv a ha, h a ha]
      refine ⟨fun j => a.getD j 0, List.ofFn_injective ?_⟩
      rw [← Q.lin'_ofFn, ← hv]
      congr 1
      exact List.ext_getElem (by simp [ha]) fun i h1 h2 => by simp [h2]

section
variable {W : World} {g : Gid} {N : ℕ} {custom : ∀ k g, AtomRep ℝ (W.d g) (W.usize k g)}
  {lie disc : ∀ g, List (Matrix (Fin (W.d g)) (Fin (W.d g)) ℝ)} {solve : ℕ → LinOp ℝ → Py (DMat ℝ)}

/-- **C127.** For a finite group the number of columns of `equivariant_basis()` is the average of the character over the group: for every
expression, after any history of calls. -/
theorem C127_characters (hW : W.SingleOK g N) (e : Expr) (he : e.OK W g) (hN : e.bound W g ≤ N) (ok : GroupsOK W custom lie disc) (hl : lie g = [])
    (S : Finset (Matrix (Fin (W.d g)) (Fin (W.d g)) ℝ)) (hS : ∀ h, h ∈ S ↔ Generated (lie g) (disc g) h)
    (hsol : SolverOK W (gensOf W (stdAtoms W custom) lie disc) solve)
    (htot : SolverRuns W (gensOf W (stdAtoms W custom) lie disc) solve) (calls : List SolveCall) :
    ∃ r L, e.eval W g = .ok r ∧
      (r.equivariantBasis W (gensOf W (stdAtoms W custom) lie disc) solve (session W (gensOf W (stdAtoms W custom) lie disc) solve calls freshSt)).1 =
        .ok L ∧
      (L.sem.cols : ℝ) * S.card =
        ∑ h ∈ S, (e.char (fun k => ((stdAtoms W custom k g).rho h).trace) fun k => ((stdAtoms W custom k g).rho h)⁻¹.trace).1 := by
  have hdual := gensOf_dual ok
  obtain ⟨r, L, hr, hL, hQ⟩ := C21_expressions hW e he hN hdual hsol htot calls
  refine ⟨r, L, hr, hL, ?_⟩
  obtain ⟨r', hr', hwf, -, hsz, hm⟩ := e.eval_good hW he hN
  rw [hr] at hr'
  cases hr'
  have hden : ∀ h ∈ S, r.mat (Interp.elem W custom g h) = (e.den g (Interp.elem W custom g h)).1 := fun h hh => hm ℝ _ (elem_dual ok ((hS h).1 hh))
  have hunit : ∀ h ∈ S, IsUnit h.det := fun h hh => Generated.isUnit (ok.unit g) ((hS h).1 hh)
  rw [hQ.cols_average S ⟨1, (hS 1).2 .one⟩ (fun h => r.mat (Interp.elem W custom g h)) (fun h hh => by rw [← hsz]; exact Rep.mat_sq (at_sized _) hwf)
    (fun a ha b hb => (hS _).2 (((hS a).1 ha).mul ((hS b).1 hb))) (fun a ha b hb => ?_) (fun a ha b _ b' _ hab => ?_) fun v hv => ?_]
  · refine Finset.sum_congr rfl fun h hh => ?_
    rw [hden h hh, (e.tr_den (elem_dual ok ((hS h).1 hh))).1]
    have e1 : ∀ k, ((Interp.elem W custom g h).vec k (some g)).sem.tr = ((stdAtoms W custom k g).rho h).trace := fun k => by
      show (DMat.ofMatrix ((stdAtoms W custom k g).rho (oneAt W g h g))).tr = _
      rw [oneAt_same, ← DMat.tr_toMatrix (n := W.asize k g) ⟨rfl, rfl⟩, DMat.toMatrix_ofMatrix]
    have e2 : ∀ k, ((Interp.elem W custom g h).dual k (some g)).sem.tr = ((stdAtoms W custom k g).rho h)⁻¹.trace := fun k => by
      show (DMat.ofMatrix ((stdAtoms W custom k g).rho (oneAt W g h g))⁻¹.transpose).tr = _
      rw [oneAt_same, ← DMat.tr_toMatrix (n := W.asize k g) ⟨rfl, rfl⟩, DMat.toMatrix_ofMatrix, Matrix.trace_transpose]
    rw [funext e1, funext e2]
  · have hab := Rep.mat_mul (at_sized (a := stdAtoms W custom) _) (at_sized _)
      (at_mul (stdAtoms_hom ok.hom) (generated_oneAt ((hS a).1 ha)) (generated_oneAt ((hS b).1 hb))) hwf
    refine Eq.trans ?_ hab
    refine congrArg (fun M => r.mat (Interp.at W (stdAtoms W custom) M)) (funext fun g' => ?_)
    by_cases hg : g' = g
    · subst hg; simp only [oneAt_same]
    · rw [oneAt_ne hg, oneAt_ne hg, oneAt_ne hg, one_mul]
  · have := congrArg (a⁻¹ * ·) hab
    simpa only [Matrix.nonsing_inv_mul_cancel_left _ _ (hunit a ha)] using this
  · constructor
    · intro hf a ha
      exact fixed_one_group (stdAtoms_hom ok.hom) ok.unit hwf (hv.trans hsz.symm) ((Expr.fixed_iff hW e he hN hr hdual hv).2 hf) g ((hS a).1 ha)
    · intro hf
      refine ⟨fun x hx => ?_, fun A hA => ?_⟩
      · obtain ⟨h, hh, rfl⟩ := List.mem_map.1 hx
        have hhS := (hS h).2 (.gen hh)
        exact hden h hhS ▸ hf h hhS
      · rw [show (gensOf W (stdAtoms W custom) lie disc g).lie = [] by simp [gensOf, hl]] at hA
        cases hA

end

/-! ## Permutation groups -/

theorem permMatrix_injective {n : ℕ} : Function.Injective fun σ : Equiv.Perm (Fin n) => σ.permMatrix ℝ := by
  intro σ τ h
  refine Equiv.ext fun i => ?_
  have h1 := congrFun (congrArg (fun M => M.mulVec fun j : Fin n => (j.val : ℝ)) h) i
  simp only [Matrix.permMatrix_mulVec, Function.comp_apply] at h1
  exact Fin.ext (by exact_mod_cast h1)

/-- Burnside's lemma for tuples. -/
theorem sum_fixed_pow {n : ℕ} (Γ : Subgroup (Equiv.Perm (Fin n))) [Fintype Γ] (k : ℕ) :
    ∑ σ : Γ, (Function.fixedPoints (σ : Equiv.Perm (Fin n))).ncard ^ k = tupleOrbits Γ k * Fintype.card Γ := by
  classical
  haveI : Fintype (MulAction.orbitRel.Quotient Γ (Fin k → Fin n)) := Fintype.ofFinite _
  have h := MulAction.sum_card_fixedBy_eq_card_orbits_mul_card_group Γ (Fin k → Fin n)
  rw [tupleOrbits, Nat.card_eq_fintype_card, ← h]
  refine Finset.sum_congr rfl fun σ _ => ?_
  rw [← Nat.card_eq_fintype_card, ← Nat.card_coe_set_eq]
  have e : MulAction.fixedBy (Fin k → Fin n) σ ≃ (Fin k → Function.fixedPoints (σ : Equiv.Perm (Fin n))) :=
    { toFun := fun t i => ⟨t.1 i, congrFun t.2 i⟩
      invFun := fun t => ⟨fun i => (t i).1, funext fun i => (t i).2⟩
      left_inv := fun t => rfl
      right_inv := fun t => rfl }
  rw [Nat.card_congr e]
  simp [Nat.card_fun]

/-- The orbits of all permutations on tuples: a tuple can be moved to another one exactly if both have the same coincidences. -/
theorem tupleOrbits_top (n k : ℕ) : tupleOrbits (⊤ : Subgroup (Equiv.Perm (Fin n))) k = Nat.card {s : Setoid (Fin k) // Nat.card (Quotient s) ≤ n} := by
  classical
  have hker : ∀ t : Fin k → Fin n, Nat.card (Quotient (Setoid.ker t)) ≤ n := fun t => by
    rw [Nat.card_congr (Setoid.quotientKerEquivRange t)]
    exact (Nat.card_le_card_of_injective _ Subtype.val_injective).trans (by simp)
  refine Nat.card_congr (Equiv.ofBijective (Quotient.lift (fun t : Fin k → Fin n => (⟨Setoid.ker t, hker t⟩ : {s : Setoid (Fin k) // Nat.card (Quotient s) ≤ n})) ?_) ⟨?_, ?_⟩)
  · rintro t t' ⟨σ, h⟩
    have h : (fun i => (σ : Equiv.Perm (Fin n)) (t' i)) = t := h
    refine Subtype.ext (Setoid.ext fun i j => ?_)
    simp only [Setoid.ker_def, ← h, EmbeddingLike.apply_eq_iff_eq]
  · rintro ⟨t⟩ ⟨t'⟩ h
    have h : Setoid.ker t = Setoid.ker t' := congrArg Subtype.val h
    have hij : ∀ i j, t i = t j ↔ t' i = t' j := fun i j => by
      have := congrArg (fun s : Setoid (Fin k) => s i j) h
      simpa only [Setoid.ker_def, eq_iff_iff] using this
    refine Quotient.sound ?_
    let e : {x // x ∈ Set.range t'} ≃ {x // x ∈ Set.range t} :=
      ((Setoid.quotientKerEquivRange t').symm.trans (Quotient.congrRight fun i j => (hij i j).symm)).trans (Setoid.quotientKerEquivRange t)
    have he : ∀ i, (e ⟨t' i, i, rfl⟩).1 = t i := fun i => by
      have h1 : (Setoid.quotientKerEquivRange t').symm ⟨t' i, i, rfl⟩ = Quotient.mk _ i := by
        rw [Equiv.symm_apply_eq]; rfl
      show ((Setoid.quotientKerEquivRange t) ((Quotient.congrRight fun i j => (hij i j).symm) ((Setoid.quotientKerEquivRange t').symm ⟨t' i, i, rfl⟩))).1 = t i
      rw [h1]; rfl
    refine ⟨⟨e.extendSubtype, Subgroup.mem_top _⟩, funext fun i => ?_⟩
    show e.extendSubtype (t' i) = t i
    exact (Equiv.extendSubtype_apply_of_mem e (t' i) ⟨i, rfl⟩).trans (he i)
  · rintro ⟨s, hs⟩
    have : Nonempty (Quotient s ↪ Fin n) := by
      haveI : Fintype (Quotient s) := Fintype.ofFinite _
      rw [Function.Embedding.nonempty_iff_card_le, Fintype.card_fin, ← Nat.card_eq_fintype_card]
      exact hs
    obtain ⟨f⟩ := this
    refine ⟨Quotient.mk _ fun i => f (Quotient.mk s i), Subtype.ext (Setoid.ext fun i j => ?_)⟩
    show f (Quotient.mk s i) = f (Quotient.mk s j) ↔ s i j
    rw [f.injective.eq_iff, Quotient.eq]

/-- The elements of a group with permutation matrices as generators. -/
theorem generated_closure {n : ℕ} (σs : List (Equiv.Perm (Fin n))) (h : Matrix (Fin n) (Fin n) ℝ) :
    Generated [] (σs.map fun σ => σ.permMatrix ℝ) h ↔ ∃ σ ∈ Subgroup.closure {σ | σ ∈ σs}, h = σ.permMatrix ℝ := by
  have hinv : ∀ σ : Equiv.Perm (Fin n), (σ.permMatrix ℝ)⁻¹ = (σ⁻¹).permMatrix ℝ := fun σ =>
    Matrix.inv_eq_left_inv (by rw [← Matrix.permMatrix_mul, mul_inv_cancel, Matrix.permMatrix_one])
  constructor
  · intro hg
    induction hg with
    | one => exact ⟨1, Subgroup.one_mem _, Matrix.permMatrix_one.symm⟩
    | exp hA =>
      have h0 := (Submodule.span_eq_bot (R := ℝ) (s := {B : Matrix (Fin n) (Fin n) ℝ | B ∈ ([] : List (Matrix (Fin n) (Fin n) ℝ))})).2 (by simp)
      rw [h0, Submodule.mem_bot] at hA
      exact ⟨1, Subgroup.one_mem _, by rw [hA, NormedSpace.exp_zero, Matrix.permMatrix_one]⟩
    | gen hh =>
      obtain ⟨σ, hσ, rfl⟩ := List.mem_map.1 hh
      exact ⟨σ, Subgroup.subset_closure hσ, rfl⟩
    | inv hh =>
      obtain ⟨σ, hσ, rfl⟩ := List.mem_map.1 hh
      exact ⟨σ⁻¹, Subgroup.inv_mem _ (Subgroup.subset_closure hσ), hinv σ⟩
    | mul _ _ ih1 ih2 =>
      obtain ⟨σ, hσ, rfl⟩ := ih1
      obtain ⟨τ, hτ, rfl⟩ := ih2
      exact ⟨τ * σ, Subgroup.mul_mem _ hτ hσ, by rw [Matrix.permMatrix_mul]⟩
  · rintro ⟨σ, hσ, rfl⟩
    induction hσ using Subgroup.closure_induction'' with
    | one => rw [Matrix.permMatrix_one]; exact .one
    | mem σ hσ => exact .gen (List.mem_map.2 ⟨σ, hσ, rfl⟩)
    | inv_mem σ hσ => rw [← hinv]; exact .inv (List.mem_map.2 ⟨σ, hσ, rfl⟩)
    | mul σ τ _ _ ih1 ih2 => rw [Matrix.permMatrix_mul]; exact ih2.mul ih1

/-- The cyclic shifts of `n` points move every point, hence have `n^(k-1)` orbits on tuples of length `k`. -/
theorem tupleOrbits_shift (n k : ℕ) : tupleOrbits (Subgroup.closure {σ | σ ∈ [Equiv.subRight (1 : Fin (n + 1))]}) (k + 1) = (n + 1) ^ k := by
  classical
  obtain ⟨Γ, hΓ⟩ : ∃ Γ, Γ = Subgroup.closure {σ | σ ∈ [Equiv.subRight (1 : Fin (n + 1))]} := ⟨_, rfl⟩
  have hval : ∀ m : ℕ, (m • (1 : Fin (n + 1))).val = m % (n + 1) := by
    intro m
    induction m with
    | zero => simp
    | succ m ih =>
      rw [succ_nsmul, Fin.val_add, ih, show (1 : Fin (n + 1)).val = 1 % (n + 1) from rfl, ← Nat.add_mod]
  have hmem : ∀ σ, σ ∈ Γ ↔ ∃ c : Fin (n + 1), σ = Equiv.addRight c := by
    intro σ
    have hz : Γ = Subgroup.zpowers (Equiv.subRight (1 : Fin (n + 1))) := by
      rw [hΓ, Subgroup.zpowers_eq_closure]; simp
    have hpow : ∀ m : ℕ, (Equiv.subRight (1 : Fin (n + 1))) ^ m = Equiv.subRight (m • (1 : Fin (n + 1))) := by
      intro m
      induction m with
      | zero => ext x; simp
      | succ m ih => rw [pow_succ, ih]; ext x; simp [add_smul, sub_sub, add_comm]
    rw [hz]
    constructor
    · intro h
      obtain ⟨m, rfl⟩ := (Subgroup.mem_zpowers_iff.1 h)
      cases m with
      | ofNat m => exact ⟨-(m • (1 : Fin (n + 1))), by rw [Int.ofNat_eq_natCast, zpow_natCast, hpow]; ext x; simp [sub_eq_add_neg]⟩
      | negSucc m => exact ⟨(m + 1) • (1 : Fin (n + 1)), by
          rw [zpow_negSucc, hpow, inv_eq_iff_mul_eq_one]
          ext x
          simp⟩
    · rintro ⟨c, rfl⟩
      refine ⟨((-c).val : ℕ), ?_⟩
      show _ ^ (((-c).val : ℕ) : ℤ) = _
      rw [zpow_natCast, hpow, show ((-c).val • (1 : Fin (n + 1))) = -c from Fin.ext ((hval _).trans (Nat.mod_eq_of_lt (-c).isLt))]
      ext x
      simp [sub_eq_add_neg]
  rw [← hΓ]
  haveI : Fintype Γ := Fintype.ofFinite _
  have hcard : Fintype.card Γ = n + 1 := by
    have e : Fin (n + 1) ≃ Γ := Equiv.ofBijective (fun c => ⟨Equiv.addRight c, (hmem _).2 ⟨c, rfl⟩⟩) ⟨fun c c' h => by
      have := congrArg (fun σ : Γ => (σ : Equiv.Perm (Fin (n + 1))) 0) h
      simpa using this, fun ⟨σ, hσ⟩ => by
      obtain ⟨c, rfl⟩ := (hmem σ).1 hσ
      exact ⟨c, rfl⟩⟩
    rw [← Fintype.card_congr e, Fintype.card_fin]
  have h := sum_fixed_pow Γ (k + 1)
  rw [Finset.sum_eq_single (1 : Γ), hcard] at h
  · have h1 : (Function.fixedPoints ((1 : Γ) : Equiv.Perm (Fin (n + 1)))).ncard = n + 1 := by
      rw [Subgroup.coe_one, show Function.fixedPoints (1 : Equiv.Perm (Fin (n + 1))) = Set.univ from Set.eq_univ_of_forall fun x => rfl, Set.ncard_univ]
      simp
    rw [h1, pow_succ] at h
    exact (Nat.eq_of_mul_eq_mul_right (Nat.succ_pos n) h).symm
  · rintro ⟨σ, hσ⟩ - hne
    obtain ⟨c, rfl⟩ := (hmem σ).1 hσ
    have h0 : Function.fixedPoints (Equiv.addRight c : Equiv.Perm (Fin (n + 1))) = ∅ := by
      refine Set.eq_empty_of_forall_notMem fun x hx => hne (Subtype.ext ?_)
      have hc : c = 0 := by
        have : x + c = x := hx
        simpa using this
      subst hc
      ext x
      simp
    show (Function.fixedPoints (Equiv.addRight c : Equiv.Perm (Fin (n + 1)))).ncard ^ (k + 1) = 0
    rw [h0]
    simp
  · exact fun h => absurd (Finset.mem_univ _) h

/-- The elements of `Z(n)`, as permutations. -/
theorem shift_perms (n : ℕ) (hn : 0 < n) (k : ℕ) (hk : 0 < k) : ∃ G, shiftGroup n = .ok G ∧ G.lie = [] ∧
    ∃ Γ : Subgroup (Equiv.Perm (Fin n)), (∀ h, Generated [] (G.disc.map (denseGen n)) h ↔ ∃ σ ∈ Γ, h = σ.permMatrix ℝ) ∧ tupleOrbits Γ k = n ^ (k - 1) := by
  obtain ⟨G, h1, -, h3, A, hA, hact, -⟩ := C54_cyclic n hn
  obtain ⟨m, rfl⟩ : ∃ m, n = m + 1 := ⟨n - 1, by omega⟩
  obtain ⟨k, rfl⟩ : ∃ k', k = k' + 1 := ⟨k - 1, by omega⟩
  refine ⟨G, h1, h3, _, fun h => ?_, by rw [tupleOrbits_shift, Nat.add_sub_cancel]⟩
  rw [← generated_closure, hA]
  have hp : denseGen (m + 1) A = Equiv.Perm.permMatrix ℝ (Equiv.subRight (1 : Fin (m + 1))) := by
    refine Matrix.ext_of_mulVec_single fun j => funext fun i => ?_
    rw [hact, Matrix.permMatrix_mulVec, Function.comp_apply]
    congr 1
    refine Fin.ext ?_
    show (i.val + m) % (m + 1) = (i - 1 : Fin (m + 1)).val
    rw [Fin.sub_def]
    show _ = (m + 1 - (1 : Fin (m + 1)).val + i.val) % (m + 1)
    cases m with
    | zero => simp
    | succ m =>
      rw [show (1 : Fin (m + 1 + 1)).val = 1 from rfl]
      congr 1
      omega
  rw [List.map_singleton, List.map_singleton, hp]

section
variable {W : World} {g : Gid} {N : ℕ} {custom : ∀ k g, AtomRep ℝ (W.d g) (W.usize k g)}
  {lie disc : ∀ g, List (Matrix (Fin (W.d g)) (Fin (W.d g)) ℝ)} {solve : ℕ → LinOp ℝ → Py (DMat ℝ)}

/-- **C127.** For a group of permutations there are as many independent equivariant linear maps from tensors of order `p` to tensors of order `q` as the
group has orbits on tuples of `p + q` indices. -/
theorem C127_permutations (hW : W.SingleOK g N) (hd : 2 ≤ W.d g) (p q : ℕ) (hN : (Expr.rshift (.pow (.rep 0) p) (.pow (.rep 0) q)).bound W g ≤ N)
    (ok : GroupsOK W custom lie disc) (hl : lie g = []) (Γ : Subgroup (Equiv.Perm (Fin (W.d g))))
    (hΓ : ∀ h, Generated (lie g) (disc g) h ↔ ∃ σ ∈ Γ, h = σ.permMatrix ℝ)
    (hsol : SolverOK W (gensOf W (stdAtoms W custom) lie disc) solve)
    (htot : SolverRuns W (gensOf W (stdAtoms W custom) lie disc) solve) (calls : List SolveCall) :
    ∃ r L, (Expr.rshift (.pow (.rep 0) p) (.pow (.rep 0) q)).eval W g = .ok r ∧
      (r.equivariantBasis W (gensOf W (stdAtoms W custom) lie disc) solve (session W (gensOf W (stdAtoms W custom) lie disc) solve calls freshSt)).1 =
        .ok L ∧ L.sem.cols = tupleOrbits Γ (p + q) := by
  classical
  haveI : Fintype Γ := Fintype.ofFinite _
  obtain ⟨r, L, h1, h2, h3⟩ := C127_characters hW (.rshift (.pow (.rep 0) p) (.pow (.rep 0) q)) ⟨⟨hd, .inl rfl⟩, ⟨hd, .inl rfl⟩⟩ hN ok hl
    ((Finset.univ : Finset Γ).image fun σ : Γ => (σ : Equiv.Perm (Fin (W.d g))).permMatrix ℝ) (fun h => by
      rw [hΓ]
      simp only [Finset.mem_image, Finset.mem_univ, true_and]
      exact ⟨fun ⟨σ, hσ⟩ => ⟨σ.1, σ.2, hσ.symm⟩, fun ⟨σ, hσ, h⟩ => ⟨⟨σ, hσ⟩, h.symm⟩⟩) hsol htot calls
  refine ⟨r, L, h1, h2, ?_⟩
  have hinj : Function.Injective fun σ : Γ => (σ : Equiv.Perm (Fin (W.d g))).permMatrix ℝ := fun σ τ h => Subtype.ext (permMatrix_injective h)
  rw [Finset.card_image_of_injective _ hinj, Finset.sum_image fun σ _ τ _ h => hinj h, Finset.card_univ] at h3
  have h4 : ∀ σ : Γ, ((Expr.rshift (.pow (.rep 0) p) (.pow (.rep 0) q)).char
      (fun k => ((stdAtoms W custom k g).rho ((σ : Equiv.Perm (Fin (W.d g))).permMatrix ℝ)).trace)
      fun k => ((stdAtoms W custom k g).rho ((σ : Equiv.Perm (Fin (W.d g))).permMatrix ℝ))⁻¹.trace).1 =
      (((Function.fixedPoints (σ : Equiv.Perm (Fin (W.d g)))).ncard ^ (p + q) : ℕ) : ℝ) := by
    intro σ
    have e1 : ((stdAtoms W custom 0 g).rho ((σ : Equiv.Perm (Fin (W.d g))).permMatrix ℝ)).trace =
        ((Function.fixedPoints (σ : Equiv.Perm (Fin (W.d g)))).ncard : ℝ) := Matrix.trace_permutation _
    have e2 : ((stdAtoms W custom 0 g).rho ((σ : Equiv.Perm (Fin (W.d g))).permMatrix ℝ))⁻¹.trace =
        ((Function.fixedPoints (σ : Equiv.Perm (Fin (W.d g)))).ncard : ℝ) := by
      rw [← e1]
      show (((σ : Equiv.Perm (Fin (W.d g))).permMatrix ℝ)⁻¹).trace = ((σ : Equiv.Perm (Fin (W.d g))).permMatrix ℝ).trace
      rw [Matrix.inv_eq_left_inv (permMatrix_facts (σ : Equiv.Perm (Fin (W.d g)))).2, Matrix.trace_transpose]
    simp only [Expr.char]
    rw [e1, e2, ← pow_add, add_comm q p]
    push_cast
    ring
  rw [Finset.sum_congr rfl fun σ _ => h4 σ, ← Nat.cast_sum, sum_fixed_pow] at h3
  have h5 : L.sem.cols * Fintype.card Γ = tupleOrbits Γ (p + q) * Fintype.card Γ := by exact_mod_cast h3
  exact Nat.eq_of_mul_eq_mul_right Fintype.card_pos h5

/-- **C127, sets.** For `S(n)` the equivariant linear maps from tensors of order `p` to tensors of order `q` are counted by the ways to partition `p + q`
indices into at most `n` classes (for `n ≥ p + q` the Bell number, as in the literature on deep sets and graphs). -/
theorem C127_symmetric (hW : W.SingleOK g N) (hd : 2 ≤ W.d g) (p q : ℕ) (hN : (Expr.rshift (.pow (.rep 0) p) (.pow (.rep 0) q)).bound W g ≤ N)
    (ok : GroupsOK W custom lie disc) {G : Grp} (hG : symGroup (W.d g) = .ok G) (hl : lie g = G.lie.map (denseGen (W.d g)))
    (hdisc : disc g = G.disc.map (denseGen (W.d g)))
    (hsol : SolverOK W (gensOf W (stdAtoms W custom) lie disc) solve)
    (htot : SolverRuns W (gensOf W (stdAtoms W custom) lie disc) solve) (calls : List SolveCall) :
    ∃ r L, (Expr.rshift (.pow (.rep 0) p) (.pow (.rep 0) q)).eval W g = .ok r ∧
      (r.equivariantBasis W (gensOf W (stdAtoms W custom) lie disc) solve (session W (gensOf W (stdAtoms W custom) lie disc) solve calls freshSt)).1 =
        .ok L ∧ L.sem.cols = Nat.card {s : Setoid (Fin (p + q)) // Nat.card (Quotient s) ≤ W.d g} ∧
      (p + q ≤ W.d g → L.sem.cols = Nat.card (Setoid (Fin (p + q)))) := by
  obtain ⟨G', h1, -, h3, -, hgen⟩ := C54_symmetric (W.d g) hd
  rw [hG] at h1
  cases h1
  have hl' : lie g = [] := by rw [hl, h3, List.map_nil]
  obtain ⟨r, L, e1, e2, e3⟩ := C127_permutations hW hd p q hN ok hl' ⊤ (fun h => by
    rw [hl', hdisc, hgen]
    simp) hsol htot calls
  rw [tupleOrbits_top] at e3
  refine ⟨r, L, e1, e2, e3, fun hk => ?_⟩
  rw [e3]
  refine Nat.card_congr (Equiv.subtypeUnivEquiv fun s => le_trans ?_ hk)
  exact (Nat.card_le_card_of_surjective _ Quotient.mk_surjective).trans (by simp)

/-- **C127, sequences.** For `Z(n)` there are `n^(p+q-1)` independent equivariant linear maps from tensors of order `p` to tensors of order `q`. -/
theorem C127_cyclic (hW : W.SingleOK g N) (hd : 2 ≤ W.d g) (p q : ℕ) (hpq : 0 < p + q)
    (hN : (Expr.rshift (.pow (.rep 0) p) (.pow (.rep 0) q)).bound W g ≤ N)
    (ok : GroupsOK W custom lie disc) {G : Grp} (hG : shiftGroup (W.d g) = .ok G) (hl : lie g = G.lie.map (denseGen (W.d g)))
    (hdisc : disc g = G.disc.map (denseGen (W.d g)))
    (hsol : SolverOK W (gensOf W (stdAtoms W custom) lie disc) solve)
    (htot : SolverRuns W (gensOf W (stdAtoms W custom) lie disc) solve) (calls : List SolveCall) :
    ∃ r L, (Expr.rshift (.pow (.rep 0) p) (.pow (.rep 0) q)).eval W g = .ok r ∧
      (r.equivariantBasis W (gensOf W (stdAtoms W custom) lie disc) solve (session W (gensOf W (stdAtoms W custom) lie disc) solve calls freshSt)).1 =
        .ok L ∧ L.sem.cols = W.d g ^ (p + q - 1) := by
  obtain ⟨G', h1, h3, Γ, hΓ, hcard⟩ := shift_perms (W.d g) (by omega) (p + q) hpq
  rw [hG] at h1
  cases h1
  have hl' : lie g = [] := by rw [hl, h3, List.map_nil]
  obtain ⟨r, L, e1, e2, e3⟩ := C127_permutations hW hd p q hN ok hl' Γ (fun h => by rw [hl', hdisc, hΓ]) hsol htot calls
  exact ⟨r, L, e1, e2, e3.trans hcard⟩

end
/-- The hypotheses of `C127_characters`, `C127_permutations` and `C127_symmetric` are met by `S(3)`: the two maps of deep sets, counted by the two
partitions of two indices. -/
example : ∃ (G : Grp) (solve : ℕ → LinOp ℝ → Py (DMat ℝ)) (r : Rep) (B : LinOp ℝ), symGroup 3 = .ok G ∧
    (Expr.rshift (.pow (.rep 0) 1) (.pow (.rep 0) 1)).eval setsW 0 = .ok r ∧
    (r.equivariantBasis setsW (gensOf setsW (stdAtoms setsW fun k g => trivialAtom _ _) (fun _ => []) fun _ => G.disc.map (denseGen 3)) solve
      (session setsW (gensOf setsW (stdAtoms setsW fun k g => trivialAtom _ _) (fun _ => []) fun _ => G.disc.map (denseGen 3)) solve [] freshSt)).1 = .ok B ∧
    B.sem.cols = Nat.card (Setoid (Fin 2)) := by
  obtain ⟨s, s1, s2⟩ := exists_solver ℝ
  obtain ⟨G, h1, -, h3, -, hgen⟩ := C54_symmetric 3 (by norm_num)
  have ok := sets_groups (G := G) fun h hh => (hgen h).1 (.gen hh)
  have hl : ([] : List (Matrix (Fin 3) (Fin 3) ℝ)) = G.lie.map (denseGen 3) := by rw [h3]; rfl
  obtain ⟨r, B, e1, e2, -, e3⟩ := C127_symmetric (lie := fun _ => []) (disc := fun _ => G.disc.map (denseGen 3)) (custom := fun k g => trivialAtom _ _)
    setsW_single (by decide) 1 1 (by decide) ok h1 hl rfl (s1 _ _) (fun _ _ C _ => s2 C) []
  exact ⟨G, _, r, B, h1, e1, e2, e3 (by decide)⟩

/-- The hypotheses of `C127_cyclic` are met by `Z(3)`: three circular convolutions. -/
example : ∃ (G : Grp) (solve : ℕ → LinOp ℝ → Py (DMat ℝ)) (r : Rep) (B : LinOp ℝ), shiftGroup 3 = .ok G ∧
    (Expr.rshift (.pow (.rep 0) 1) (.pow (.rep 0) 1)).eval setsW 0 = .ok r ∧
    (r.equivariantBasis setsW (gensOf setsW (stdAtoms setsW fun k g => trivialAtom _ _) (fun _ => []) fun _ => G.disc.map (denseGen 3)) solve
      (session setsW (gensOf setsW (stdAtoms setsW fun k g => trivialAtom _ _) (fun _ => []) fun _ => G.disc.map (denseGen 3)) solve [] freshSt)).1 = .ok B ∧
    B.sem.cols = 3 := by
  obtain ⟨s, s1, s2⟩ := exists_solver ℝ
  obtain ⟨G, h1, h3, Γ, hgen, -⟩ := shift_perms 3 (by norm_num) 1 one_pos
  have ok := sets_groups (G := G) fun h hh => by
    obtain ⟨σ, -, e⟩ := (hgen h).1 (.gen hh)
    exact ⟨σ, e⟩
  have hl : ([] : List (Matrix (Fin 3) (Fin 3) ℝ)) = G.lie.map (denseGen 3) := by rw [h3]; rfl
  obtain ⟨r, B, e1, e2, e3⟩ := C127_cyclic (lie := fun _ => []) (disc := fun _ => G.disc.map (denseGen 3)) (custom := fun k g => trivialAtom _ _)
    setsW_single (by decide) 1 1 (by decide) (by decide) ok h1 hl rfl (s1 _ _) (fun _ _ C _ => s2 C) []
  exact ⟨G, _, r, B, h1, e1, e2, e3⟩

end Verif
