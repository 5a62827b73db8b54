import Verif.Lemmas.DRho

/-! `rho` is multiplicative and `drho` respects linear combinations and brackets. -/
namespace Verif
open List
variable {W : World} {R : Type} [CommRing R]

/-- On every atom, `K` is the product of `I` and `J`. -/
structure Interp.IsMul (K I J : Interp R) : Prop where
  vec : ∀ k g, (K.vec k (some g)).sem = (I.vec k (some g)).sem.mul (J.vec k (some g)).sem
  dual : ∀ k g, (K.dual k (some g)).sem = (I.dual k (some g)).sem.mul (J.dual k (some g)).sem

/-- The transposed inverse of a product. -/
theorem Interp.IsMul.of_dual {K I J : Interp R} (hK : K.Dual W) (hI : I.Dual W) (hJ : J.Dual W)
    (h : ∀ k g, (K.vec k (some g)).sem = (I.vec k (some g)).sem.mul (J.vec k (some g)).sem) : K.IsMul I J := by
  refine ⟨h, fun k g => ?_⟩
  have a := hI.vec k g
  have b := hJ.vec k g
  have a' := hI.dual k g
  have b' := hJ.dual k g
  refine DMat.invT_unique (n := W.asize k g) (M := (K.vec k (some g)).sem) (hK.dual k g)
    ⟨a'.1, b'.2⟩ (hK.vec k g) (hK.inv k g) ?_
  rw [h k g, DMat.transpose_mul _ _ (by rw [b'.1, a'.2]), DMat.mul_assoc' _ _ _ (by simp [a.1, a'.1, a'.2, b'.1]),
    ← DMat.mul_assoc' _ (I.vec k (some g)).sem _ (by simp [a.1, a'.1]), hI.inv k g, DMat.one_mul' _ b.1, hJ.inv k g]

variable {K I J : Interp R}

theorem Atom.rho_mul (h : K.IsMul I J) {a : Atom} (ha : a.G.isSome) :
    (a.rho K).sem = (a.rho I).sem.mul (a.rho J).sem := by
  match a, ha with
  | .vec k (some g), _ => exact h.vec k g
  | .dual k (some g), _ => exact h.dual k g

theorem conjPerm_mul {n : ℕ} {p : List ℕ} {X Y Z : LinOp R} (hp : p ~ range n) (hX : X.sem.IsSq n) (hY : Y.sem.IsSq n)
    (hZ : Z.sem = X.sem.mul Y.sem) : (conjPerm p Z).sem = (conjPerm p X).sem.mul (conjPerm p Y).sem := by
  have ha : argsort p ~ range n := length_of_perm_range hp ▸ argsort_perm p
  have hz : Z.sem.IsSq n := by rw [hZ]; exact ⟨hX.1, hY.2⟩
  rw [conjPerm_sem hp hX, conjPerm_sem hp hY, conjPerm_sem hp hz, hZ, DMat.pick_mul_pick _ _ ha hX.2]
  · intro x hx; rw [hX.1]; exact lt_of_perm_range ha hx
  · intro x hx; rw [hY.2]; exact lt_of_perm_range ha hx

theorem PRep.rho_mul (hI : I.Sized W) (hJ : J.Sized W) (h : K.IsMul I J) {p : PRep} (hp : p.WF W) :
    (p.rho K).sem = (p.rho I).sem.mul (p.rho J).sem := by
  apply conjPerm_mul hp.perm (PRep.kron_sq hI hp) (PRep.kron_sq hJ hp)
  simp only [LinOp.sem, semL_map]
  have hs := fun a (ha : a ∈ p.c.expand) => hp.some a (Counter.mem_expand ha)
  rw [DMat.kronL_mul]
  · congr 1; exact map_congr_left fun a ha => Atom.rho_mul h (hs a ha)
  · intro a ha; rw [(Atom.rho_sq hI (hs a ha)).2, (Atom.rho_sq hJ (hs a ha)).1]

theorem Fac.rho_mul (hI : I.Sized W) (hJ : J.Sized W) (h : K.IsMul I J) {f : Fac} (hf : f.WF W) :
    (f.rho K).sem = (f.rho I).sem.mul (f.rho J).sem := by
  cases f with
  | atom a => exact Atom.rho_mul h hf
  | prod p => exact PRep.rho_mul hI hJ h hf

theorem DRep.rho_mul (hI : I.Sized W) (hJ : J.Sized W) (h : K.IsMul I J) {d : DRep} (hd : d.WF W) :
    (d.rho K).sem = (d.rho I).sem.mul (d.rho J).sem := by
  apply conjPerm_mul hd.perm (DRep.kron_sq hI hd) (DRep.kron_sq hJ hd)
  simp only [LinOp.sem, semL_map]
  have hs := fun a (ha : a ∈ d.c.expand) => hd.key a (Counter.mem_expand ha)
  rw [DMat.kronL_mul]
  · congr 1; exact map_congr_left fun a ha => Fac.rho_mul hI hJ h (hs a ha)
  · intro a ha; rw [(Fac.rho_sq hI (hs a ha)).2, (Fac.rho_sq hJ (hs a ha)).1]

theorem Key.rho_mul (hI : I.Sized W) (hJ : J.Sized W) (h : K.IsMul I J) {k : Key} (hk : k.WF W) :
    (k.rho K).sem = (k.rho I).sem.mul (k.rho J).sem := by
  cases k with
  | scalar => exact (DMat.one_mul' (R := R) (DMat.one 1) rfl).symm
  | fac f => exact Fac.rho_mul hI hJ h hk
  | dprod d => exact DRep.rho_mul hI hJ h hk

theorem SRep.rho_mul (hI : I.Sized W) (hJ : J.Sized W) (h : K.IsMul I J) {s : SRep} (hs : s.WF W) :
    (s.rho K).sem = (s.rho I).sem.mul (s.rho J).sem := by
  apply conjPerm_mul hs.perm (SRep.dsum_sq hI hs) (SRep.dsum_sq hJ hs)
  simp only [LinOp.sem, semM_map]
  have hk := fun a (ha : a ∈ s.c.expand) => (hs.key a (Counter.mem_expand ha)).1
  rw [DMat.bdiag_mul]
  · congr 1; exact map_congr_left fun a ha => Key.rho_mul hI hJ h (hk a ha)
  · intro a ha; rw [(Key.rho_sq hI (hk a ha)).2, (Key.rho_sq hJ (hk a ha)).1]

theorem Rep.mat_mul (hI : I.Sized W) (hJ : J.Sized W) (h : K.IsMul I J) {r : Rep} (hr : r.WF W) :
    r.mat K = (r.mat I).mul (r.mat J) := by
  match r, hr with
  | .key k, hr => exact Key.rho_mul hI hJ h hr
  | .sum s, hr => exact SRep.rho_mul hI hJ h hr

/-- Identity on every atom. -/
structure Interp.IsOne (W : World) (I : Interp R) : Prop where
  vec : ∀ k g, (I.vec k (some g)).sem = DMat.one (W.asize k g)
  dual : ∀ k g, (I.dual k (some g)).sem = DMat.one (W.asize k g)

theorem Interp.IsOne.sized (h : I.IsOne W) : I.Sized W :=
  ⟨fun k g => by rw [h.vec]; exact ⟨rfl, rfl⟩, fun k g => by rw [h.dual]; exact ⟨rfl, rfl⟩⟩

theorem Atom.rho_one (h : I.IsOne W) {a : Atom} (ha : a.G.isSome) : (a.rho I).sem = DMat.one (a.size W) := by
  match a, ha with
  | .vec k (some g), _ => exact h.vec k g
  | .dual k (some g), _ => exact h.dual k g

theorem conjPerm_one {n : ℕ} {p : List ℕ} {X : LinOp R} (hp : p ~ range n) (hX : X.sem = DMat.one n) :
    (conjPerm p X).sem = DMat.one n := by
  have ha : argsort p ~ range n := length_of_perm_range hp ▸ argsort_perm p
  rw [conjPerm_sem hp (by rw [hX]; exact ⟨rfl, rfl⟩), hX, DMat.pick_one ha]

theorem PRep.rho_one (h : I.IsOne W) {p : PRep} (hp : p.WF W) : (p.rho I).sem = DMat.one (p.size W) := by
  apply conjPerm_one hp.perm
  simp only [LinOp.sem, semL_map]
  rw [map_congr_left fun a ha => Atom.rho_one h (hp.some a (Counter.mem_expand ha)), DMat.kronL_one, prod_map_expand]
  rfl

theorem Fac.rho_one (h : I.IsOne W) {f : Fac} (hf : f.WF W) : (f.rho I).sem = DMat.one (f.size W) := by
  cases f with
  | atom a => exact Atom.rho_one h hf
  | prod p => exact PRep.rho_one h hf

theorem DRep.rho_one (h : I.IsOne W) {d : DRep} (hd : d.WF W) : (d.rho I).sem = DMat.one (d.size W) := by
  apply conjPerm_one hd.perm
  simp only [LinOp.sem, semL_map]
  rw [map_congr_left fun a ha => Fac.rho_one h (hd.key a (Counter.mem_expand ha)), DMat.kronL_one, prod_map_expand]
  rfl

theorem Key.rho_one (h : I.IsOne W) {k : Key} (hk : k.WF W) : (k.rho I).sem = DMat.one (k.size W) := by
  cases k with
  | scalar => rfl
  | fac f => exact Fac.rho_one h hk
  | dprod d => exact DRep.rho_one h hk

theorem SRep.rho_one (h : I.IsOne W) {s : SRep} (hs : s.WF W) : (s.rho I).sem = DMat.one (s.size W) := by
  apply conjPerm_one hs.perm
  simp only [LinOp.sem, semM_map]
  rw [map_congr_left fun a ha => Key.rho_one h (hs.key a (Counter.mem_expand ha)).1, DMat.bdiag_one, sum_map_expand]
  rfl

theorem Rep.mat_one (h : I.IsOne W) {r : Rep} (hr : r.WF W) : r.mat I = DMat.one (r.size W) := by
  match r, hr with
  | .key k, hr => exact Key.rho_one h hr
  | .sum s, hr => exact SRep.rho_one h hr

/-! ### `drho`: linear combinations -/

/-- `a A + b B` -/
def DMat.lin (a b : R) (A B : DMat R) : DMat R := (DMat.smul a A).add (DMat.smul b B)

/-- `A B - B A` -/
def DMat.bracket (A B : DMat R) : DMat R := (A.mul B).add (B.mul A).neg

namespace DMat

theorem smul_e (c : R) (A : DMat R) (i j : ℕ) : (smul c A).e i j = c * A.e i j := by
  by_cases h : i < A.rows ∧ j < A.cols
  · exact of_e h.1 h.2
  · rw [A.out _ _ h, (smul c A).out _ _ h, mul_zero]

theorem lin_e {a b : R} {A B : DMat R} {i j : ℕ} (hi : i < A.rows) (hj : j < A.cols) :
    (lin a b A B).e i j = a * A.e i j + b * B.e i j := by
  unfold lin; rw [add_e (by simpa) (by simpa), smul_e, smul_e]

/-- A binary operation compatible with dual-number arithmetic: used to treat `lin` and `bracket` alike. -/
structure Compat (f : DMat R → DMat R → DMat R) : Prop where
  sq : ∀ n (A B : DMat R), A.IsSq n → B.IsSq n → (f A B).IsSq n
  zero1 : f (DMat.zero 1 1) (DMat.zero 1 1) = DMat.zero 1 1
  zero0 : f (DMat.zero 0 0) (DMat.zero 0 0) = DMat.zero 0 0
  pick : ∀ n (A B : DMat R) p, A.IsSq n → B.IsSq n → p ~ range n → (f A B).pick p p = f (A.pick p p) (B.pick p p)
  kronsum : ∀ m n (A A' B B' : DMat R), A.IsSq m → A'.IsSq m → B.IsSq n → B'.IsSq n →
    kronsum (f A A') (f B B') = f (DMat.kronsum A B) (DMat.kronsum A' B')
  bdiag2 : ∀ m n (A A' B B' : DMat R), A.IsSq m → A'.IsSq m → B.IsSq n → B'.IsSq n →
    bdiag2 (f A A') (f B B') = f (DMat.bdiag2 A B) (DMat.bdiag2 A' B')

theorem lin_compat (a b : R) : Compat (lin a b) where
  sq n A B hA _ := hA
  zero1 := by
    refine ext rfl rfl fun i j hi hj => ?_
    rw [lin_e (A := DMat.zero 1 1) hi hj]; simp [zero_e]
  zero0 := ext rfl rfl fun i j hi hj => by simp [lin] at hi
  pick n A B p hA hB hp := by
    refine ext rfl rfl fun i j hi hj => ?_
    simp only [pick_rows, pick_cols] at hi hj
    rw [pick_e hi hj, lin_e (A := A.pick p p) hi hj, pick_e hi hj, pick_e hi hj]
    have h1 : p.getD i 0 < n := lt_of_perm_range hp (getD_mem_of_lt hi)
    have h2 : p.getD j 0 < n := lt_of_perm_range hp (getD_mem_of_lt hj)
    rw [lin_e (by rw [hA.1]; exact h1) (by rw [hA.2]; exact h2)]
  kronsum m n A A' B B' hA hA' hB hB' := by
    have hl : (lin a b A A').IsSq m := hA
    have hl' : (lin a b B B').IsSq n := hB
    have k1 := kronsum_isSq hl hl'
    have k2 := kronsum_isSq hA hB
    refine kron_ext (m := m) (n := n) (m' := m) (n' := n) k1.1 k1.2 k2.1 k2.2 ?_
    intro x y z w hx hy hz hw
    rw [kronsum_e hl hl' hx hy hz hw, lin_e (A := DMat.kronsum A B) (by rw [k2.1]; exact mul_add_lt hx hy)
      (by rw [k2.2]; exact mul_add_lt hz hw), kronsum_e hA hB hx hy hz hw, kronsum_e hA' hB' hx hy hz hw,
      lin_e (by rw [hA.1]; exact hx) (by rw [hA.2]; exact hz), lin_e (by rw [hB.1]; exact hy) (by rw [hB.2]; exact hw)]
    ring
  bdiag2 m n A A' B B' hA hA' hB hB' := by
    refine ext rfl rfl fun i j hi hj => ?_
    have hi' : i < A.rows + B.rows := hi
    have hj' : j < A.cols + B.cols := hj
    have r1 : A'.rows = A.rows := hA'.1.trans hA.1.symm
    have r2 : A'.cols = A.cols := hA'.2.trans hA.2.symm
    rw [lin_e (A := DMat.bdiag2 A B) hi' hj']
    rcases lt_or_ge i A.rows with h1 | h1 <;> rcases lt_or_ge j A.cols with h2 | h2
    · rw [bdiag2_e11 (A := lin a b A A') h1 h2, bdiag2_e11 h1 h2, bdiag2_e11 (by omega) (by omega), lin_e h1 h2]
    · rw [bdiag2_e12 (A := lin a b A A') h1 h2, bdiag2_e12 h1 h2, bdiag2_e12 (by omega) (by omega)]; ring
    · rw [bdiag2_e21 (A := lin a b A A') h1 h2, bdiag2_e21 h1 h2, bdiag2_e21 (by omega) (by omega)]; ring
    · rw [bdiag2_e22 (A := lin a b A A') h1 h2, bdiag2_e22 h1 h2, bdiag2_e22 (by omega) (by omega), r1, r2]
      show (lin a b B B').e (i - A.rows) (j - A.cols) = _
      rw [lin_e (by omega) (by omega)]

theorem bracket_toMatrix {n : ℕ} {A B : DMat R} (hA : A.IsSq n) (hB : B.IsSq n) :
    (bracket A B).toMatrix n n = A.toMatrix n n * B.toMatrix n n - B.toMatrix n n * A.toMatrix n n := by
  rw [← toMatrix_mul A B hA.1 hA.2 hB.2, ← toMatrix_mul B A hB.1 hB.2 hA.2]
  ext i j
  show (bracket A B).e i j = (A.mul B).e i j - (B.mul A).e i j
  unfold bracket
  rw [add_e (by rw [mul_rows, hA.1]; exact i.2) (by rw [mul_cols, hB.2]; exact j.2), neg_e, sub_eq_add_neg]

theorem bracket_e {n : ℕ} {A B : DMat R} (hA : A.IsSq n) (hB : B.IsSq n) {i j : ℕ} (hi : i < n) (hj : j < n) :
    (bracket A B).e i j = (∑ k ∈ Finset.range n, A.e i k * B.e k j) - ∑ k ∈ Finset.range n, B.e i k * A.e k j := by
  unfold bracket
  rw [add_e (by rw [mul_rows, hA.1]; exact hi) (by rw [mul_cols, hB.2]; exact hj), neg_e, sub_eq_add_neg,
    mul_e (by rw [hA.1]; exact hi) (by rw [hB.2]; exact hj), mul_e (by rw [hB.1]; exact hi) (by rw [hA.2]; exact hj), hA.2, hB.2]

theorem sum_range_mul (m n : ℕ) (f : ℕ → R) :
    ∑ j ∈ Finset.range (m * n), f j = ∑ p ∈ Finset.range m, ∑ q ∈ Finset.range n, f (p * n + q) := by
  induction m with
  | zero => simp
  | succ m ih => rw [Finset.sum_range_succ, ← ih, Nat.succ_mul, Finset.sum_range_add]

theorem bracket_compat : Compat (bracket (R := R)) where
  sq n A B hA hB := ⟨hA.1, hB.2⟩
  zero1 := by
    refine ext rfl rfl fun i j hi hj => ?_
    rw [bracket_e (n := 1) ⟨rfl, rfl⟩ ⟨rfl, rfl⟩ hi hj]; simp [zero_e]
  zero0 := ext rfl rfl fun i j hi hj => by simp [bracket] at hi
  pick n A B p hA hB hp := by
    have l := length_of_perm_range hp
    have hs : ∀ X : DMat R, (X.pick p p).IsSq n := fun X => ⟨l, l⟩
    refine ext rfl rfl fun i j hi hj => ?_
    simp only [pick_rows, pick_cols] at hi hj
    have h1 : p.getD i 0 < n := lt_of_perm_range hp (getD_mem_of_lt hi)
    have h2 : p.getD j 0 < n := lt_of_perm_range hp (getD_mem_of_lt hj)
    rw [pick_e hi hj, bracket_e hA hB h1 h2, bracket_e (hs A) (hs B) (by omega) (by omega)]
    rw [← sum_perm_range hp (fun k => A.e (p.getD i 0) k * B.e k (p.getD j 0)),
      ← sum_perm_range hp (fun k => B.e (p.getD i 0) k * A.e k (p.getD j 0))]
    congr 1
    · refine Finset.sum_congr rfl fun k hk => ?_
      have := Finset.mem_range.1 hk
      rw [pick_e hi (by omega), pick_e (by omega) hj]
    · refine Finset.sum_congr rfl fun k hk => ?_
      have := Finset.mem_range.1 hk
      rw [pick_e hi (by omega), pick_e (by omega) hj]
  kronsum m n A A' B B' hA hA' hB hB' := by
    have hl : (bracket A A').IsSq m := ⟨hA.1, hA'.2⟩
    have hl' : (bracket B B').IsSq n := ⟨hB.1, hB'.2⟩
    have k1 := kronsum_isSq hl hl'
    have k2 := kronsum_isSq hA hB
    have k3 := kronsum_isSq hA' hB'
    refine kron_ext (m := m) (n := n) (m' := m) (n' := n) k1.1 k1.2 k2.1 k3.2 ?_
    intro x y z w hx hy hz hw
    rw [kronsum_e hl hl' hx hy hz hw, bracket_e k2 k3 (mul_add_lt hx hy) (mul_add_lt hz hw), bracket_e hA hA' hx hz,
      bracket_e hB hB' hy hw, sum_range_mul, sum_range_mul]
    have e1 : ∀ {P Q P' Q' : DMat R}, P.IsSq m → Q.IsSq n → P'.IsSq m → Q'.IsSq n →
        (∑ p ∈ Finset.range m, ∑ q ∈ Finset.range n, (DMat.kronsum P Q).e (x * n + y) (p * n + q) *
          (DMat.kronsum P' Q').e (p * n + q) (z * n + w)) =
        (∑ k ∈ Finset.range m, P.e x k * P'.e k z) * (if y = w then 1 else 0) + P.e x z * Q'.e y w + Q.e y w * P'.e x z
          + (if x = z then 1 else 0) * ∑ k ∈ Finset.range n, Q.e y k * Q'.e k w := by
      intro P Q P' Q' hP hQ hP' hQ'
      have : ∀ p ∈ Finset.range m, ∀ q ∈ Finset.range n, (DMat.kronsum P Q).e (x * n + y) (p * n + q) *
          (DMat.kronsum P' Q').e (p * n + q) (z * n + w) =
          P.e x p * P'.e p z * ((if y = q then 1 else 0) * (if q = w then 1 else 0)) +
          P.e x p * (if p = z then 1 else 0) * ((if y = q then 1 else 0) * Q'.e q w) +
          (if x = p then 1 else 0) * P'.e p z * (Q.e y q * (if q = w then 1 else 0)) +
          (if x = p then 1 else 0) * (if p = z then 1 else 0) * (Q.e y q * Q'.e q w) := by
        intro p hp q hq
        rw [kronsum_e hP hQ hx hy (Finset.mem_range.1 hp) (Finset.mem_range.1 hq),
          kronsum_e hP' hQ' (Finset.mem_range.1 hp) (Finset.mem_range.1 hq) hz hw]
        ring
      rw [Finset.sum_congr rfl fun p hp => Finset.sum_congr rfl fun q hq => this p hp q hq]
      simp only [Finset.sum_add_distrib, ← Finset.mul_sum, ← Finset.sum_mul]
      simp [hx, hy, hz, hw, mul_comm]
    rw [e1 hA hB hA' hB', e1 hA' hB' hA hB]
    ring
  bdiag2 m n A A' B B' hA hA' hB hB' := by
    unfold bracket
    rw [bdiag2_mul _ _ _ _ (by rw [hA.2, hA'.1]) (by rw [hB.2, hB'.1]), bdiag2_mul _ _ _ _ (by rw [hA'.2, hA.1]) (by rw [hB'.2, hB.1])]
    refine ext rfl rfl fun i j hi hj => ?_
    simp only [bdiag2_rows, bdiag2_cols, add_rows, add_cols, mul_rows, mul_cols] at hi hj
    rw [add_e (by simpa) (by simpa), neg_e]
    rcases lt_or_ge i A.rows with h1 | h1 <;> rcases lt_or_ge j A'.cols with h2 | h2
    · rw [bdiag2_e11 (by simpa) (by simpa), bdiag2_e11 (by simpa) (by simpa),
        bdiag2_e11 (by simp [hA'.1]; rw [hA.1] at h1; exact h1) (by simp [hA.2]; rw [hA'.2] at h2; exact h2), add_e (by simpa) (by simpa), neg_e]
    · rw [bdiag2_e12 (by simpa) (by simpa), bdiag2_e12 (by simpa) (by simpa),
        bdiag2_e12 (by simp [hA'.1]; rw [hA.1] at h1; exact h1) (by simp [hA.2]; rw [hA'.2] at h2; exact h2)]; simp
    · rw [bdiag2_e21 (by simpa) (by simpa), bdiag2_e21 (by simpa) (by simpa),
        bdiag2_e21 (by simp [hA'.1]; rw [hA.1] at h1; exact h1) (by simp [hA.2]; rw [hA'.2] at h2; exact h2)]; simp
    · rw [bdiag2_e22 (by simpa) (by simpa), bdiag2_e22 (by simpa) (by simpa),
        bdiag2_e22 (by simp [hA'.1]; rw [hA.1] at h1; exact h1) (by simp [hA.2]; rw [hA'.2] at h2; exact h2)]
      simp only [add_rows, mul_rows, add_cols, mul_cols]
      rw [add_e (by simp; omega) (by simp; omega), neg_e, hA.1, hA'.1, hA.2, hA'.2]

theorem Compat.kronsumL {f : DMat R → DMat R → DMat R} (hf : Compat f) {ι : Type} (l : List ι) (A B : ι → DMat R) (s : ι → ℕ)
    (hA : ∀ x ∈ l, (A x).IsSq (s x)) (hB : ∀ x ∈ l, (B x).IsSq (s x)) :
    DMat.kronsumL (l.map fun x => f (A x) (B x)) = f (DMat.kronsumL (l.map A)) (DMat.kronsumL (l.map B)) := by
  induction l with
  | nil => exact hf.zero1.symm
  | cons a t ih =>
    simp only [map_cons, DMat.kronsumL]
    have h1 : ∀ x ∈ t, (A x).IsSq (s x) := fun x hx => hA x (by simp [hx])
    have h2 : ∀ x ∈ t, (B x).IsSq (s x) := fun x hx => hB x (by simp [hx])
    rw [ih h1 h2, hf.kronsum _ _ _ _ _ _ (hA a (by simp)) (hB a (by simp)) (kronsumL_isSq t A s h1) (kronsumL_isSq t B s h2)]

theorem Compat.bdiag {f : DMat R → DMat R → DMat R} (hf : Compat f) {ι : Type} (l : List ι) (A B : ι → DMat R) (s : ι → ℕ)
    (hA : ∀ x ∈ l, (A x).IsSq (s x)) (hB : ∀ x ∈ l, (B x).IsSq (s x)) :
    DMat.bdiag (l.map fun x => f (A x) (B x)) = f (DMat.bdiag (l.map A)) (DMat.bdiag (l.map B)) := by
  induction l with
  | nil => exact hf.zero0.symm
  | cons a t ih =>
    simp only [map_cons, DMat.bdiag]
    have h1 : ∀ x ∈ t, (A x).IsSq (s x) := fun x hx => hA x (by simp [hx])
    have h2 : ∀ x ∈ t, (B x).IsSq (s x) := fun x hx => hB x (by simp [hx])
    rw [ih h1 h2, hf.bdiag2 _ _ _ _ _ _ (hA a (by simp)) (hB a (by simp)) (bdiag_isSq t A s h1) (bdiag_isSq t B s h2)]

end DMat

/-- On every atom, `K = f I J`. -/
structure Interp.Is (f : DMat R → DMat R → DMat R) (K I J : Interp R) : Prop where
  vec : ∀ k g, (K.vec k (some g)).sem = f (I.vec k (some g)).sem (J.vec k (some g)).sem
  dual : ∀ k g, (K.dual k (some g)).sem = f (I.dual k (some g)).sem (J.dual k (some g)).sem

section
variable {f : DMat R → DMat R → DMat R}

theorem Atom.drho_op (h : Interp.Is f K I J) {a : Atom} (ha : a.G.isSome) :
    (a.drho K).sem = f (a.drho I).sem (a.drho J).sem := by
  match a, ha with
  | .vec k (some g), _ => exact h.vec k g
  | .dual k (some g), _ => exact h.dual k g

theorem conjPerm_op (hf : DMat.Compat f) {n : ℕ} {p : List ℕ} {X Y Z : LinOp R} (hp : p ~ range n) (hX : X.sem.IsSq n)
    (hY : Y.sem.IsSq n) (hZ : Z.sem = f X.sem Y.sem) : (conjPerm p Z).sem = f (conjPerm p X).sem (conjPerm p Y).sem := by
  have ha : argsort p ~ range n := length_of_perm_range hp ▸ argsort_perm p
  have hz : Z.sem.IsSq n := by rw [hZ]; exact hf.sq _ _ _ hX hY
  rw [conjPerm_sem hp hX, conjPerm_sem hp hY, conjPerm_sem hp hz, hZ, hf.pick n _ _ _ hX hY ha]

theorem Atom.drho_sq' (hI : I.Sized W) {a : Atom} (ha : a.G.isSome) : (a.drho I).sem.IsSq (a.size W) := by
  match a, ha with
  | .vec k (some g), _ => exact hI.vec k g
  | .dual k (some g), _ => exact hI.dual k g

theorem PRep.drho_op (hf : DMat.Compat f) (hI : I.Sized W) (hJ : J.Sized W) (h : Interp.Is f K I J) {p : PRep} (hp : p.WF W) :
    (p.drho K).sem = f (p.drho I).sem (p.drho J).sem := by
  apply conjPerm_op hf hp.perm (PRep.drho_sq hI hp) (PRep.drho_sq hJ hp)
  simp only [LinOp.sem, semL_map]
  have hs := fun a (ha : a ∈ p.c.expand) => hp.some a (Counter.mem_expand ha)
  rw [← hf.kronsumL _ _ _ (Atom.size W) (fun a ha => Atom.drho_sq' hI (hs a ha)) fun a ha => Atom.drho_sq' hJ (hs a ha)]
  congr 1; exact map_congr_left fun a ha => Atom.drho_op h (hs a ha)

theorem Fac.drho_op (hf : DMat.Compat f) (hI : I.Sized W) (hJ : J.Sized W) (h : Interp.Is f K I J) {x : Fac} (hx : x.WF W) :
    (x.drho K).sem = f (x.drho I).sem (x.drho J).sem := by
  cases x with
  | atom a => exact Atom.drho_op h hx
  | prod p => exact PRep.drho_op hf hI hJ h hx

theorem DRep.drho_op (hf : DMat.Compat f) (hI : I.Sized W) (hJ : J.Sized W) (h : Interp.Is f K I J) {d : DRep} (hd : d.WF W) :
    (d.drho K).sem = f (d.drho I).sem (d.drho J).sem := by
  have hs := fun a (ha : a ∈ d.c.expand) => hd.key a (Counter.mem_expand ha)
  have hsq : ∀ {I : Interp R}, I.Sized W → (LinOp.kronsum (d.c.expand.map (Fac.drho I))).sem.IsSq (d.size W) := by
    intro I hI
    have := DMat.kronsumL_isSq d.c.expand (fun a => (a.drho I).sem) (Fac.size W) fun a ha => Fac.drho_sq hI (hs a ha)
    rw [prod_map_expand] at this
    simp only [LinOp.sem, semL_map]
    exact this
  apply conjPerm_op hf hd.perm (hsq hI) (hsq hJ)
  simp only [LinOp.sem, semL_map]
  rw [← hf.kronsumL _ _ _ (Fac.size W) (fun a ha => Fac.drho_sq hI (hs a ha)) fun a ha => Fac.drho_sq hJ (hs a ha)]
  congr 1; exact map_congr_left fun a ha => Fac.drho_op hf hI hJ h (hs a ha)

theorem Key.drho_op (hf : DMat.Compat f) (hI : I.Sized W) (hJ : J.Sized W) (h : Interp.Is f K I J) {k : Key} (hk : k.WF W) :
    (k.drho K).sem = f (k.drho I).sem (k.drho J).sem := by
  cases k with
  | scalar => exact hf.zero1.symm
  | fac x => exact Fac.drho_op hf hI hJ h hk
  | dprod d => exact DRep.drho_op hf hI hJ h hk

theorem SRep.drho_op (hf : DMat.Compat f) (hI : I.Sized W) (hJ : J.Sized W) (h : Interp.Is f K I J) {s : SRep} (hs : s.WF W) :
    (s.drho K).sem = f (s.drho I).sem (s.drho J).sem := by
  have hk := fun a (ha : a ∈ s.c.expand) => (hs.key a (Counter.mem_expand ha)).1
  have hsq : ∀ {I : Interp R}, I.Sized W → (LinOp.dsum (s.c.map fun kc => (kc.1.drho I, kc.2))).sem.IsSq (s.size W) := by
    intro I hI
    have := bdiag_isSq s.c.expand (fun a => (a.drho I).sem) (Key.size W) fun a ha => Key.drho_sq hI (hk a ha)
    rw [sum_map_expand] at this
    simp only [LinOp.sem, semM_map]
    exact this
  apply conjPerm_op hf hs.perm (hsq hI) (hsq hJ)
  simp only [LinOp.sem, semM_map]
  rw [← hf.bdiag _ _ _ (Key.size W) (fun a ha => Key.drho_sq hI (hk a ha)) fun a ha => Key.drho_sq hJ (hk a ha)]
  congr 1; exact map_congr_left fun a ha => Key.drho_op hf hI hJ h (hk a ha)

theorem Rep.dmat_op (hf : DMat.Compat f) (hI : I.Sized W) (hJ : J.Sized W) (h : Interp.Is f K I J) {r : Rep} (hr : r.WF W) :
    r.dmat K = f (r.dmat I) (r.dmat J) := by
  match r, hr with
  | .key k, hr => exact Key.drho_op hf hI hJ h hr
  | .sum s, hr => exact SRep.drho_op hf hI hJ h hr

end
end Verif
