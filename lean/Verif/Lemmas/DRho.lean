import Verif.Model.DRho
import Verif.Lemmas.ExprSem
import Mathlib.Algebra.DualNumber

/-!
Transfer from `rho` to `drho`: over the dual numbers `R[ε]`, the matrix of `rho(1 + ε A)` is
`1 + ε drho(A)`.
-/
namespace Verif
open List

namespace DMat
variable {R : Type} [CommRing R]

/-- `1 + ε A` -/
def eps (A : DMat R) : DMat (DualNumber R) :=
  of A.rows A.cols fun i j => TrivSqZeroExt.inl (if i = j then 1 else 0) + TrivSqZeroExt.inr (A.e i j)

@[simp] theorem eps_rows (A : DMat R) : A.eps.rows = A.rows := rfl
@[simp] theorem eps_cols (A : DMat R) : A.eps.cols = A.cols := rfl

theorem eps_fst {A : DMat R} {i j : ℕ} (hi : i < A.rows) (hj : j < A.cols) :
    TrivSqZeroExt.fst (A.eps.e i j) = if i = j then 1 else 0 := by
  unfold eps; rw [of_e hi hj]; simp

theorem eps_snd (A : DMat R) (i j : ℕ) : TrivSqZeroExt.snd (A.eps.e i j) = A.e i j := by
  by_cases h : i < A.rows ∧ j < A.cols
  · unfold eps; rw [of_e h.1 h.2]; simp
  · rw [A.out _ _ h, A.eps.out _ _ h]; rfl

theorem eps_inj {A B : DMat R} (h : A.eps = B.eps) : A = B := by
  refine ext (by rw [← eps_rows A, h, eps_rows]) (by rw [← eps_cols A, h, eps_cols]) fun i j _ _ => ?_
  rw [← eps_snd A, h, eps_snd]

theorem IsSq.eps {A : DMat R} {n : ℕ} (h : A.IsSq n) : A.eps.IsSq n := h

theorem eps_zero (n : ℕ) : (zero n n : DMat R).eps = one n := by
  refine ext rfl rfl fun i j hi hj => ?_
  simp only [eps_rows, eps_cols, zero_rows, zero_cols] at hi hj
  rw [one_e hi hj]
  apply TrivSqZeroExt.ext
  · rw [eps_fst hi hj]; split <;> rfl
  · rw [eps_snd, zero_e]; split <;> rfl

@[simp] theorem neg_rows (A : DMat R) : A.neg.rows = A.rows := rfl
@[simp] theorem neg_cols (A : DMat R) : A.neg.cols = A.cols := rfl

theorem neg_e (A : DMat R) (i j : ℕ) : A.neg.e i j = - A.e i j := by
  by_cases h : i < A.rows ∧ j < A.cols
  · unfold neg; rw [of_e h.1 h.2]
  · rw [A.out _ _ h, A.neg.out _ _ h, neg_zero]

theorem neg_neg' (A : DMat R) : A.neg.neg = A :=
  ext rfl rfl fun i j _ _ => by rw [neg_e, neg_e, neg_neg]

theorem neg_transpose (A : DMat R) : A.neg.transpose = A.transpose.neg :=
  ext rfl rfl fun i j _ _ => by rw [transpose_e, neg_e, neg_e, transpose_e]

theorem add_e {A B : DMat R} {i j : ℕ} (hi : i < A.rows) (hj : j < A.cols) : (A.add B).e i j = A.e i j + B.e i j := of_e hi hj

@[simp] theorem kronsum_rows (A B : DMat R) : (kronsum A B).rows = A.rows * B.rows := rfl
@[simp] theorem kronsum_cols (A B : DMat R) : (kronsum A B).cols = A.cols * B.rows := rfl

theorem kronsum_isSq {A B : DMat R} {m n : ℕ} (hA : A.IsSq m) (hB : B.IsSq n) : (kronsum A B).IsSq (m * n) :=
  ⟨by simp [hA.1, hB.1], by simp [hA.2, hB.1]⟩

theorem kronsum_e {A B : DMat R} {m n : ℕ} (hA : A.IsSq m) (hB : B.IsSq n) {a b c d : ℕ} (ha : a < m) (hb : b < n)
    (hc : c < m) (hd : d < n) : (kronsum A B).e (a * n + b) (c * n + d) =
      A.e a c * (if b = d then 1 else 0) + (if a = c then 1 else 0) * B.e b d := by
  obtain ⟨hA1, hA2⟩ := hA
  obtain ⟨hB1, hB2⟩ := hB
  subst hA1 hB1
  unfold kronsum
  rw [add_e (by simpa using mul_add_lt ha hb) (by simp only [kron_cols, one_cols, hA2]; exact mul_add_lt hc hd)]
  have h1 := kron_e (A := A) (B := one B.rows) (i := a) (j := c) (i' := b) (j' := d) ha (by omega) hb hd
  have h2 := kron_e (A := one A.rows) (B := B) (i := a) (j := c) (i' := b) (j' := d) ha hc hb (by omega)
  simp only [one_rows, one_cols] at h1 h2
  rw [hB2] at h2
  rw [h1, h2, one_e hb hd, one_e ha hc]

theorem eps_kron {A B : DMat R} {m n : ℕ} (hA : A.IsSq m) (hB : B.IsSq n) : (kronsum A B).eps = kron A.eps B.eps := by
  have hK := kronsum_isSq hA hB
  refine kron_ext (m := m) (n := n) (m' := m) (n' := n) (X := (kronsum A B).eps) hK.1 hK.2 (by simp [hA.1, hB.1]) (by simp [hA.2, hB.2]) ?_
  intro a b c d ha hb hc hd
  have h1 := kron_e (A := A.eps) (B := B.eps) (i := a) (j := c) (i' := b) (j' := d)
    (by rw [eps_rows, hA.1]; exact ha) (by rw [eps_cols, hA.2]; exact hc) (by rw [eps_rows, hB.1]; exact hb)
    (by rw [eps_cols, hB.2]; exact hd)
  rw [eps_rows, eps_cols, hB.1, hB.2] at h1
  rw [h1]
  have f1 : TrivSqZeroExt.fst (A.eps.e a c) = if a = c then 1 else 0 := eps_fst (by rw [hA.1]; exact ha) (by rw [hA.2]; exact hc)
  have f2 : TrivSqZeroExt.fst (B.eps.e b d) = if b = d then 1 else 0 := eps_fst (by rw [hB.1]; exact hb) (by rw [hB.2]; exact hd)
  apply TrivSqZeroExt.ext
  · rw [eps_fst (by rw [hK.1]; exact mul_add_lt ha hb) (by rw [hK.2]; exact mul_add_lt hc hd), TrivSqZeroExt.fst_mul, f1, f2]
    have := congrArg (fun M : DMat R => M.e (a * n + b) (c * n + d)) (kron_one_one (R := R) m n)
    have h2 := kron_e (R := R) (A := one m) (B := one n) (i := a) (j := c) (i' := b) (j' := d) ha hc hb hd
    simp only [one_rows, one_cols] at h2
    rw [h2, one_e ha hc, one_e hb hd, one_e (mul_add_lt ha hb) (mul_add_lt hc hd)] at this
    exact this.symm
  · rw [eps_snd, kronsum_e hA hB ha hb hc hd, DualNumber.snd_mul, f1, f2, eps_snd, eps_snd]; ring

theorem eps_bdiag2 {A B : DMat R} {m n : ℕ} (hA : A.IsSq m) (hB : B.IsSq n) : (bdiag2 A B).eps = bdiag2 A.eps B.eps := by
  refine ext rfl rfl fun i j hi hj => ?_
  have hc : A.cols = A.rows := hA.2.trans hA.1.symm
  simp only [eps_rows, eps_cols, bdiag2_rows, bdiag2_cols] at hi hj
  have hf := eps_fst (A := bdiag2 A B) (i := i) (j := j) hi hj
  have hs := eps_snd (bdiag2 A B) i j
  rcases lt_or_ge i A.rows with h1 | h1 <;> rcases lt_or_ge j A.cols with h2 | h2
  · rw [bdiag2_e11 (A := A.eps) h1 h2]
    rw [bdiag2_e11 h1 h2] at hs
    apply TrivSqZeroExt.ext
    · rw [hf, eps_fst h1 h2]
    · rw [hs, eps_snd]
  · rw [bdiag2_e12 (A := A.eps) h1 h2]
    rw [bdiag2_e12 h1 h2] at hs
    apply TrivSqZeroExt.ext
    · rw [hf, if_neg (by omega)]; rfl
    · rw [hs]; rfl
  · rw [bdiag2_e21 (A := A.eps) h1 h2]
    rw [bdiag2_e21 h1 h2] at hs
    apply TrivSqZeroExt.ext
    · rw [hf, if_neg (by omega)]; rfl
    · rw [hs]; rfl
  · rw [bdiag2_e22 (A := A.eps) h1 h2]
    rw [bdiag2_e22 h1 h2] at hs
    simp only [eps_rows, eps_cols]
    apply TrivSqZeroExt.ext
    · rw [hf, eps_fst (by omega) (by omega)]
      congr 1; apply propext; omega
    · rw [hs, eps_snd]

theorem eps_bdiag {ι : Type} (l : List ι) (f : ι → DMat R) (s : ι → ℕ) (h : ∀ x ∈ l, (f x).IsSq (s x)) :
    (bdiag (l.map f)).eps = bdiag (l.map fun x => (f x).eps) := by
  induction l with
  | nil => exact eps_zero 0
  | cons a t ih =>
    simp only [map_cons, bdiag]
    have ht : ∀ x ∈ t, (f x).IsSq (s x) := fun x hx => h x (by simp [hx])
    rw [eps_bdiag2 (h a (by simp)) (bdiag_isSq t f s ht), ih ht]

theorem kronsumL_isSq {ι : Type} (l : List ι) (f : ι → DMat R) (s : ι → ℕ) (h : ∀ x ∈ l, (f x).IsSq (s x)) :
    (kronsumL (l.map f)).IsSq (l.map s).prod := by
  induction l with
  | nil => exact ⟨rfl, rfl⟩
  | cons a t ih => exact kronsum_isSq (h a (by simp)) (ih fun x hx => h x (by simp [hx]))

theorem eps_kronL {ι : Type} (l : List ι) (f : ι → DMat R) (s : ι → ℕ) (h : ∀ x ∈ l, (f x).IsSq (s x)) :
    (kronsumL (l.map f)).eps = kronL (l.map fun x => (f x).eps) := by
  induction l with
  | nil => exact eps_zero 1
  | cons a t ih =>
    simp only [map_cons, kronL, kronsumL]
    have ht : ∀ x ∈ t, (f x).IsSq (s x) := fun x hx => h x (by simp [hx])
    rw [eps_kron (h a (by simp)) (kronsumL_isSq t f s ht), ih ht]

theorem eps_pick {A : DMat R} {n : ℕ} (hA : A.IsSq n) {p : List ℕ} (hp : p ~ range n) : (A.pick p p).eps = A.eps.pick p p := by
  refine ext rfl rfl fun i j hi hj => ?_
  simp only [eps_rows, eps_cols, pick_rows, pick_cols] at hi hj
  rw [pick_e (A := A.eps) hi hj]
  have h1 : p.getD i 0 < n := lt_of_perm_range hp (getD_mem_of_lt hi)
  have h2 : p.getD j 0 < n := lt_of_perm_range hp (getD_mem_of_lt hj)
  apply TrivSqZeroExt.ext
  · rw [eps_fst hi hj, eps_fst (by rw [hA.1]; exact h1) (by rw [hA.2]; exact h2)]
    congr 1
    apply propext
    constructor
    · rintro rfl; rfl
    · exact getD_inj (nodup_of_perm_range hp) hi hj
  · rw [eps_snd, eps_snd, pick_e hi hj]

theorem eps_transpose (A : DMat R) : A.transpose.eps = A.eps.transpose := by
  refine ext rfl rfl fun i j hi hj => ?_
  simp only [eps_rows, eps_cols, transpose_rows, transpose_cols] at hi hj
  rw [transpose_e]
  apply TrivSqZeroExt.ext
  · rw [eps_fst hi hj, eps_fst hj hi]; congr 1; apply propext; exact eq_comm
  · rw [eps_snd, eps_snd, transpose_e]

theorem fst_sum {ι : Type} (s : Finset ι) (f : ι → DualNumber R) :
    TrivSqZeroExt.fst (∑ k ∈ s, f k) = ∑ k ∈ s, TrivSqZeroExt.fst (f k) :=
  map_sum (TrivSqZeroExt.fstHom R R R) f s

theorem snd_sum {ι : Type} (s : Finset ι) (f : ι → DualNumber R) :
    TrivSqZeroExt.snd (∑ k ∈ s, f k) = ∑ k ∈ s, TrivSqZeroExt.snd (f k) :=
  map_sum (TrivSqZeroExt.sndHom R R) f s

theorem eps_mul {A B : DMat R} {n : ℕ} (hA : A.IsSq n) (hB : B.IsSq n) : (A.add B).eps = A.eps.mul B.eps := by
  refine ext rfl (by simp [hA.2, hB.2]) fun i j hi hj => ?_
  simp only [eps_rows, eps_cols, add_rows, add_cols, hA.1, hA.2] at hi hj
  rw [mul_e (A := A.eps) (by simpa [hA.1]) (by simpa [hB.2]), eps_cols, hA.2]
  have e1 : ∀ k ∈ Finset.range n, TrivSqZeroExt.fst (A.eps.e i k) = if i = k then 1 else 0 := fun k hk =>
    eps_fst (by rw [hA.1]; exact hi) (by rw [hA.2]; exact Finset.mem_range.1 hk)
  have e2 : ∀ k ∈ Finset.range n, TrivSqZeroExt.fst (B.eps.e k j) = if k = j then 1 else 0 := fun k hk =>
    eps_fst (by rw [hB.1]; exact Finset.mem_range.1 hk) (by rw [hB.2]; exact hj)
  apply TrivSqZeroExt.ext
  · rw [eps_fst (by simpa [hA.1]) (by simpa [hA.2]), fst_sum]
    rw [Finset.sum_congr rfl fun k hk => by rw [TrivSqZeroExt.fst_mul, e1 k hk, e2 k hk]]
    simp [hi, hj]
  · rw [eps_snd, add_e (by rw [hA.1]; exact hi) (by rw [hA.2]; exact hj), snd_sum]
    rw [Finset.sum_congr rfl fun k hk => by rw [DualNumber.snd_mul, e1 k hk, e2 k hk, eps_snd, eps_snd]]
    simp [Finset.sum_add_distrib, hi, hj, add_comm]

/-- The transposed inverse of `1 + ε A` is `1 - ε Aᵀ`. -/
theorem eps_dual {A B : DMat R} {n : ℕ} (hA : A.IsSq n) (hB : B.IsSq n) (h : B.eps.transpose.mul A.eps = one n) :
    B = A.transpose.neg := by
  have hBt : B.transpose.IsSq n := ⟨hB.2, hB.1⟩
  rw [← eps_transpose, ← eps_mul hBt hA, ← eps_zero] at h
  have := eps_inj h
  refine ext (hB.1.trans hA.2.symm) (hB.2.trans hA.1.symm) fun i j hi hj => ?_
  have e := congrArg (fun M : DMat R => M.e j i) this
  simp only [zero_e] at e
  rw [add_e (by simpa), transpose_e] at e
  · rw [neg_e, transpose_e]; exact eq_neg_of_add_eq_zero_left e
  · simpa

theorem eps_dual' {A : DMat R} {n : ℕ} (hA : A.IsSq n) : (A.transpose.neg).eps.transpose.mul A.eps = one n := by
  rw [← eps_transpose, neg_transpose, transpose_transpose, ← eps_mul (A := A.neg) (n := n) hA hA, ← eps_zero]
  congr 1
  refine ext hA.1 hA.2 fun i j hi hj => ?_
  rw [add_e (A := A.neg) hi hj, neg_e, zero_e]; ring

end DMat

variable {W : World} {R : Type} [CommRing R]

/-- `1 + ε A` on every atom. -/
def Interp.eps (I : Interp R) : Interp (DualNumber R) :=
  ⟨fun k g => .lazy (I.vec k g).sem.eps, fun k g => .lazy (I.dual k g).sem.eps⟩

theorem Interp.Sized.eps {I : Interp R} (h : I.Sized W) : I.eps.Sized W := ⟨fun k g => h.vec k g, fun k g => h.dual k g⟩

theorem Interp.DDual.sized {I : Interp R} (h : I.DDual W) : I.Sized W :=
  ⟨h.sq, fun k g => by rw [h.dual k g]; exact ⟨(h.sq k g).2, (h.sq k g).1⟩⟩

theorem Interp.DDual.eps {I : Interp R} (h : I.DDual W) : I.eps.Dual W where
  toSized := h.sized.eps
  inv k g := by
    show (I.dual k (some g)).sem.eps.transpose.mul (I.vec k (some g)).sem.eps = _
    rw [h.dual k g]; exact DMat.eps_dual' (h.sq k g)
  orth k g ho := by
    show (I.vec k (some g)).sem.eps.transpose.mul (I.vec k (some g)).sem.eps = _
    have := DMat.eps_dual' (h.sq k g)
    rwa [h.orth k g ho] at this

variable {I : Interp R}

theorem Atom.eps_rho (a : Atom) : (a.rho I.eps).sem = (a.drho I).sem.eps := by cases a <;> rfl

theorem conjPerm_eps {n : ℕ} {p : List ℕ} {X : LinOp R} {Y : LinOp (DualNumber R)} (hp : p ~ range n) (hX : X.sem.IsSq n)
    (h : Y.sem = X.sem.eps) : (conjPerm p Y).sem = (conjPerm p X).sem.eps := by
  rw [conjPerm_sem hp hX, conjPerm_sem hp (by rw [h]; exact hX.eps), h, DMat.eps_pick hX]
  exact length_of_perm_range hp ▸ argsort_perm p

theorem PRep.drho_sq (hI : I.Sized W) {p : PRep} (h : p.WF W) : (LinOp.kronsum (p.c.expand.map (Atom.drho I))).sem.IsSq (p.size W) := by
  have := DMat.kronsumL_isSq p.c.expand (fun a => (a.drho I).sem) (Atom.size W) fun a ha =>
    Atom.rho_sq hI (h.some a (Counter.mem_expand ha))
  rw [prod_map_expand] at this
  simp only [LinOp.sem, semL_map]
  exact this

theorem PRep.eps_rho (hI : I.Sized W) {p : PRep} (h : p.WF W) : (p.rho I.eps).sem = (p.drho I).sem.eps := by
  apply conjPerm_eps h.perm (PRep.drho_sq hI h)
  simp only [LinOp.sem, semL_map]
  rw [DMat.eps_kronL _ (fun a => (Atom.drho I a).sem) (Atom.size W) fun a ha => Atom.rho_sq hI (h.some a (Counter.mem_expand ha))]
  congr 1
  exact map_congr_left fun a _ => Atom.eps_rho a

theorem Fac.eps_rho (hI : I.Sized W) {f : Fac} (h : f.WF W) : (f.rho I.eps).sem = (f.drho I).sem.eps := by
  cases f with
  | atom a => exact Atom.eps_rho a
  | prod p => exact PRep.eps_rho hI h

theorem Fac.drho_sq (hI : I.Sized W) {f : Fac} (h : f.WF W) : (f.drho I).sem.IsSq (f.size W) := by
  have := Fac.rho_sq hI.eps h
  rwa [Fac.eps_rho hI h] at this

theorem DRep.eps_rho (hI : I.Sized W) {d : DRep} (h : d.WF W) : (d.rho I.eps).sem = (d.drho I).sem.eps := by
  have hs : ∀ f ∈ d.c.expand, (f.drho I).sem.IsSq (f.size W) := fun f hf =>
    Fac.drho_sq hI (h.key f (Counter.mem_expand hf))
  apply conjPerm_eps h.perm
  · have := DMat.kronsumL_isSq d.c.expand (fun a => (a.drho I).sem) (Fac.size W) hs
    rw [prod_map_expand] at this
    simp only [LinOp.sem, semL_map]
    exact this
  · simp only [LinOp.sem, semL_map]
    rw [DMat.eps_kronL _ _ (Fac.size W) hs]
    congr 1
    exact map_congr_left fun f hf => Fac.eps_rho hI (h.key f (Counter.mem_expand hf))

theorem Key.eps_rho (hI : I.Sized W) {k : Key} (h : k.WF W) : (k.rho I.eps).sem = (k.drho I).sem.eps := by
  cases k with
  | scalar => exact (DMat.eps_zero 1).symm
  | fac f => exact Fac.eps_rho hI h
  | dprod d => exact DRep.eps_rho hI h

theorem Key.drho_sq (hI : I.Sized W) {k : Key} (h : k.WF W) : (k.drho I).sem.IsSq (k.size W) := by
  have := Key.rho_sq hI.eps h
  rwa [Key.eps_rho hI h] at this

theorem SRep.eps_rho (hI : I.Sized W) {s : SRep} (h : s.WF W) : (s.rho I.eps).sem = (s.drho I).sem.eps := by
  have hs : ∀ k ∈ s.c.expand, (k.drho I).sem.IsSq (k.size W) := fun k hk =>
    Key.drho_sq hI (h.key k (Counter.mem_expand hk)).1
  apply conjPerm_eps h.perm
  · have := bdiag_isSq s.c.expand (fun a => (a.drho I).sem) (Key.size W) hs
    rw [sum_map_expand] at this
    simp only [LinOp.sem, semM_map]
    exact this
  · simp only [LinOp.sem, semM_map]
    rw [DMat.eps_bdiag _ _ (Key.size W) hs]
    congr 1
    exact map_congr_left fun k hk => Key.eps_rho hI (h.key k (Counter.mem_expand hk)).1

/-- `rho(1 + ε A) = 1 + ε drho(A)`. -/
theorem Rep.eps_mat (hI : I.Sized W) {r : Rep} (h : r.WF W) : r.mat I.eps = (r.dmat I).eps := by
  match r, h with
  | .key k, h => exact Key.eps_rho hI h
  | .sum s, h => exact SRep.eps_rho hI h

theorem Rep.dmat_sq (hI : I.Sized W) {r : Rep} (h : r.WF W) : (r.dmat I).IsSq (r.size W) := by
  have := Rep.mat_sq hI.eps h
  rwa [Rep.eps_mat hI h] at this

end Verif
