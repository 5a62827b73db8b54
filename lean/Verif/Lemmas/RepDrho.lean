import Verif.Lemmas.ExprSem
import Verif.Lemmas.RepHom

/-! `drho` of sums, products, duals and expressions, transferred from `rho` by dual numbers. -/
namespace Verif
open List
variable {W : World} {g : Gid} {N : ℕ} {R : Type} [CommRing R] {I : Interp R}

theorem map_eps_mat (hI : I.Sized W) {ops : List Rep} (h : ∀ r ∈ ops, r.WF W) :
    ops.map (Rep.mat I.eps) = ops.map fun r => (r.dmat I).eps :=
  map_congr_left fun r hr => Rep.eps_mat hI (h r hr)

theorem Rep.dmat_bdiag (hI : I.Sized W) {r : Rep} (hr : r.WF W) {ops : List Rep} (h : ∀ r ∈ ops, r.WF W)
    (hm : r.mat I.eps = DMat.bdiag (ops.map (Rep.mat I.eps))) : r.dmat I = DMat.bdiag (ops.map (Rep.dmat I)) := by
  apply DMat.eps_inj
  rw [← Rep.eps_mat hI hr, hm, map_eps_mat hI h, DMat.eps_bdiag ops _ (Rep.size W) fun r hr => Rep.dmat_sq hI (h r hr)]

theorem Rep.dmat_kronL (hI : I.Sized W) {r : Rep} (hr : r.WF W) {ops : List Rep} (h : ∀ r ∈ ops, r.WF W)
    (hm : r.mat I.eps = DMat.kronL (ops.map (Rep.mat I.eps))) : r.dmat I = DMat.kronsumL (ops.map (Rep.dmat I)) := by
  apply DMat.eps_inj
  rw [← Rep.eps_mat hI hr, hm, map_eps_mat hI h, DMat.eps_kronL ops _ (Rep.size W) fun r hr => Rep.dmat_sq hI (h r hr)]

theorem Rep.dmat_kron (hI : I.Sized W) {r a b : Rep} (hr : r.WF W) (ha : a.WF W) (hb : b.WF W)
    (hm : r.mat I.eps = DMat.kron (a.mat I.eps) (b.mat I.eps)) : r.dmat I = DMat.kronsum (a.dmat I) (b.dmat I) := by
  apply DMat.eps_inj
  rw [← Rep.eps_mat hI hr, hm, Rep.eps_mat hI ha, Rep.eps_mat hI hb,
    DMat.eps_kron (Rep.dmat_sq hI ha) (Rep.dmat_sq hI hb)]

theorem Rep.dmat_dual (hI : I.Sized W) {r t : Rep} (hr : r.WF W) (ht : t.WF W) (hs : t.size W = r.size W)
    (hm : (t.mat I.eps).transpose.mul (r.mat I.eps) = DMat.one (r.size W)) : t.dmat I = (r.dmat I).transpose.neg := by
  rw [Rep.eps_mat hI hr, Rep.eps_mat hI ht] at hm
  exact DMat.eps_dual (Rep.dmat_sq hI hr) (hs ▸ Rep.dmat_sq hI ht) hm

/-- pairs -/
structure EpsPair (n : ℕ) (D : DMat R × DMat R) (P : DMat (DualNumber R) × DMat (DualNumber R)) : Prop where
  s1 : D.1.IsSq n
  s2 : D.2.IsSq n
  e1 : D.1.eps = P.1
  e2 : D.2.eps = P.2

theorem EpsPair.bdiag2 {m n : ℕ} {D D' : DMat R × DMat R} {P P' : DMat (DualNumber R) × DMat (DualNumber R)}
    (h : EpsPair m D P) (h' : EpsPair n D' P') :
    EpsPair (m + n) (DMat.bdiag [D.1, D'.1], DMat.bdiag [D.2, D'.2]) (DMat.bdiag [P.1, P'.1], DMat.bdiag [P.2, P'.2]) := by
  have aux : ∀ {A B : DMat R} {A' B' : DMat (DualNumber R)}, A.IsSq m → B.IsSq n → A.eps = A' → B.eps = B' →
      (DMat.bdiag [A, B]).IsSq (m + n) ∧ (DMat.bdiag [A, B]).eps = DMat.bdiag [A', B'] := by
    intro A B A' B' hA hB hA' hB'
    have := bdiag_isSq [(A, m), (B, n)] (·.1) (·.2) (by simp [hA, hB])
    have e := DMat.eps_bdiag [(A, m), (B, n)] (·.1) (·.2) (by simp [hA, hB])
    simp only [map_cons, map_nil, sum_cons, sum_nil, Nat.add_zero] at this e
    exact ⟨this, by rw [e, hA', hB']⟩
  have a := aux h.s1 h'.s1 h.e1 h'.e1
  have b := aux h.s2 h'.s2 h.e2 h'.e2
  exact ⟨a.1, b.1, a.2, b.2⟩

theorem EpsPair.kron {m n : ℕ} {D D' : DMat R × DMat R} {P P' : DMat (DualNumber R) × DMat (DualNumber R)}
    (h : EpsPair m D P) (h' : EpsPair n D' P') :
    EpsPair (m * n) (DMat.kronsum D.1 D'.1, DMat.kronsum D.2 D'.2) (DMat.kron P.1 P'.1, DMat.kron P.2 P'.2) :=
  ⟨DMat.kronsum_isSq h.s1 h'.s1, DMat.kronsum_isSq h.s2 h'.s2, by rw [DMat.eps_kron h.s1 h'.s1, h.e1, h'.e1],
    by rw [DMat.eps_kron h.s2 h'.s2, h.e2, h'.e2]⟩

theorem EpsPair.swap {n : ℕ} {D : DMat R × DMat R} {P : DMat (DualNumber R) × DMat (DualNumber R)} (h : EpsPair n D P) :
    EpsPair n (D.2, D.1) (P.2, P.1) := ⟨h.s2, h.s1, h.e2, h.e1⟩

theorem EpsPair.zero (n : ℕ) : EpsPair n ((DMat.zero n n, DMat.zero n n) : DMat R × DMat R) (DMat.one n, DMat.one n) :=
  ⟨⟨rfl, rfl⟩, ⟨rfl, rfl⟩, DMat.eps_zero n, DMat.eps_zero n⟩

theorem EpsPair.nsmul {m : ℕ} {D : DMat R × DMat R} {P : DMat (DualNumber R) × DMat (DualNumber R)} (h : EpsPair m D P) (n : ℕ) :
    EpsPair (n * m) (DMat.bdiag (replicate n D.1), DMat.bdiag (replicate n D.2))
      (DMat.bdiag (replicate n P.1), DMat.bdiag (replicate n P.2)) := by
  have aux : ∀ {A : DMat R} {A' : DMat (DualNumber R)}, A.IsSq m → A.eps = A' →
      (DMat.bdiag (replicate n A)).IsSq (n * m) ∧ (DMat.bdiag (replicate n A)).eps = DMat.bdiag (replicate n A') := by
    intro A A' hA hA'
    have := bdiag_isSq (replicate n ()) (fun _ => A) (fun _ => m) fun _ _ => hA
    have e := DMat.eps_bdiag (replicate n ()) (fun _ => A) (fun _ => m) fun _ _ => hA
    simp only [map_replicate, sum_replicate, smul_eq_mul] at this e
    exact ⟨this, by rw [e, hA']⟩
  have a := aux h.s1 h.e1
  have b := aux h.s2 h.e2
  exact ⟨a.1, b.1, a.2, b.2⟩

theorem EpsPair.pow {m : ℕ} {D : DMat R × DMat R} {P : DMat (DualNumber R) × DMat (DualNumber R)} (h : EpsPair m D P) (n : ℕ) :
    EpsPair (m ^ n) (DMat.kronsumL (replicate n D.1), DMat.kronsumL (replicate n D.2))
      (DMat.kronL (replicate n P.1), DMat.kronL (replicate n P.2)) := by
  have aux : ∀ {A : DMat R} {A' : DMat (DualNumber R)}, A.IsSq m → A.eps = A' →
      (DMat.kronsumL (replicate n A)).IsSq (m ^ n) ∧ (DMat.kronsumL (replicate n A)).eps = DMat.kronL (replicate n A') := by
    intro A A' hA hA'
    have := DMat.kronsumL_isSq (replicate n ()) (fun _ => A) (fun _ => m) fun _ _ => hA
    have e := DMat.eps_kronL (replicate n ()) (fun _ => A) (fun _ => m) fun _ _ => hA
    simp only [map_replicate, prod_replicate] at this e
    exact ⟨this, by rw [e, hA']⟩
  have a := aux h.s1 h.e1
  have b := aux h.s2 h.e2
  exact ⟨a.1, b.1, a.2, b.2⟩

theorem Expr.dden_eps (hI : I.DDual W) : ∀ e : Expr, EpsPair (e.dim W g) (e.dden g I) (e.den g I.eps)
  | .scalar => EpsPair.zero 1
  | .rep k => ⟨hI.sq k g, hI.sized.dual k g, rfl, rfl⟩
  | .add a b => (a.dden_eps hI).bdiag2 (b.dden_eps hI)
  | .mul a b => (a.dden_eps hI).kron (b.dden_eps hI)
  | .dual a => (a.dden_eps hI).swap
  | .nsmul n a => (a.dden_eps hI).nsmul n
  | .addNat a n => (a.dden_eps hI).bdiag2 (EpsPair.zero n)
  | .natAdd n a => by
    have := (EpsPair.zero (R := R) n).bdiag2 (a.dden_eps hI)
    rw [add_comm] at this
    exact this
  | .pow a n => (a.dden_eps hI).pow n
  | .rshift a b => (b.dden_eps hI).kron (a.dden_eps hI).swap
  | .lshift a b => (a.dden_eps hI).kron (b.dden_eps hI).swap

theorem Expr.eval_drho (hW : W.SingleOK g N) (e : Expr) (h : e.OK W g) (hN : e.bound W g ≤ N) {r : Rep}
    (hr : e.eval W g = .ok r) (hI : I.DDual W) : r.dmat I = (e.dden g I).1 := by
  obtain ⟨r', h', hg⟩ := e.eval_good hW h hN
  rw [hr] at h'
  cases h'
  apply DMat.eps_inj
  rw [← Rep.eps_mat hI.sized hg.1, (e.dden_eps hI).e1]
  exact hg.2.2.2 _ _ hI.eps

/-! The dual actions are determined. -/

theorem Interp.Is.of_lin {K I J : Interp R} {a b : R} (hK : K.DDual W) (hI : I.DDual W) (hJ : J.DDual W)
    (h : ∀ k g, (K.vec k (some g)).sem = DMat.lin a b (I.vec k (some g)).sem (J.vec k (some g)).sem) :
    Interp.Is (DMat.lin a b) K I J := by
  refine ⟨h, fun k g => ?_⟩
  rw [hK.dual, hI.dual, hJ.dual, h]
  have hi := hI.sq k g
  have hj := hJ.sq k g
  refine DMat.ext rfl rfl fun i j hi' hj' => ?_
  have x : i < (I.vec k (some g)).sem.cols := hi'
  have y : j < (I.vec k (some g)).sem.rows := hj'
  rw [DMat.lin_e (A := (I.vec k (some g)).sem.transpose.neg) x y, DMat.neg_e, DMat.neg_e, DMat.neg_e,
    DMat.transpose_e, DMat.transpose_e, DMat.transpose_e, DMat.lin_e y x]
  ring

theorem Interp.Is.of_bracket {K I J : Interp R} (hK : K.DDual W) (hI : I.DDual W) (hJ : J.DDual W)
    (h : ∀ k g, (K.vec k (some g)).sem = DMat.bracket (I.vec k (some g)).sem (J.vec k (some g)).sem) :
    Interp.Is DMat.bracket K I J := by
  refine ⟨h, fun k g => ?_⟩
  rw [hK.dual, hI.dual, hJ.dual, h]
  have hi := hI.sq k g
  have hj := hJ.sq k g
  have hi2 : (I.vec k (some g)).sem.transpose.neg.IsSq (W.asize k g) := ⟨hi.2, hi.1⟩
  have hj2 : (J.vec k (some g)).sem.transpose.neg.IsSq (W.asize k g) := ⟨hj.2, hj.1⟩
  refine DMat.ext (hj.2.trans hi.2.symm) (hi.1.trans hj.1.symm) fun i j hi' hj' => ?_
  have x : i < W.asize k g := hj.2 ▸ hi'
  have y : j < W.asize k g := hi.1 ▸ hj'
  rw [DMat.bracket_e hi2 hj2 x y, DMat.neg_e, DMat.transpose_e, DMat.bracket_e hi hj y x]
  simp only [DMat.neg_e, DMat.transpose_e, neg_mul_neg, neg_sub]
  congr 1 <;> exact Finset.sum_congr rfl fun _ _ => mul_comm _ _

end Verif
