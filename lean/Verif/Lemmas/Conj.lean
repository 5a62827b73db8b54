import Verif.Model.Rep
import Verif.Lemmas.Order
import Verif.Lemmas.Kron
import Verif.Lemmas.DistMat

/-! Meaning of `LazyPerm(invperm)@X@LazyPerm(perm)`, and `mapM` in `Except`. -/
namespace Verif
open List

theorem mapM_ok {α β : Type} {f : α → Py β} {g : α → β} {l : List α} (h : ∀ x ∈ l, f x = .ok (g x)) :
    l.mapM f = .ok (l.map g) := by
  induction l with
  | nil => rfl
  | cons a t ih =>
    rw [mapM_cons, h a (by simp), ih fun x hx => h x (by simp [hx])]
    rfl

namespace DMat
variable {R : Type} [CommRing R]

@[simp] theorem permMat_rows (p : List ℕ) : (permMat p : DMat R).rows = p.length := rfl
@[simp] theorem permMat_cols (p : List ℕ) : (permMat p : DMat R).cols = p.length := rfl

/-- Left multiplication by `v ↦ v[p]` picks rows. -/
theorem permMat_mul (p : List ℕ) (A : DMat R) (_hA : A.rows = p.length) (hp : ∀ x ∈ p, x < p.length) :
    (permMat p).mul A = A.pick p (range A.cols) := by
  apply ext
  · rfl
  · simp [mul, pick]
  intro i j hi hj
  simp only [mul, of_rows, of_cols, permMat_rows, permMat_cols] at hi hj ⊢
  rw [of_e hi hj, pick_e hi (by simpa using hj), getD_range hj]
  have hlt : p.getD i 0 < p.length := hp _ (getD_mem_of_lt hi)
  rw [Finset.sum_eq_single (p.getD i 0)]
  · unfold permMat; rw [of_e hi hlt]; simp
  · intro k hk hne
    unfold permMat; rw [of_e hi (Finset.mem_range.1 hk), if_neg (Ne.symm hne)]; simp
  · intro h; exact absurd (Finset.mem_range.2 hlt) h

/-- Right multiplication by `v ↦ v[p]` picks columns by the inverse permutation. -/
theorem mul_permMat {n : ℕ} (p : List ℕ) (A : DMat R) (hA : A.cols = n) (hp : p ~ range n) :
    A.mul (permMat p) = A.pick (range A.rows) (argsort p) := by
  have hl := length_of_perm_range hp
  have ha : argsort p ~ range n := hl ▸ argsort_perm p
  have hla := length_of_perm_range ha
  apply ext
  · simp [mul, pick]
  · simp [mul, pick, hl, hla]
  intro i j hi hj
  simp only [mul, of_rows, of_cols, permMat_cols, hl] at hi hj ⊢
  rw [of_e hi hj, pick_e (by simpa using hi) (by rwa [hla]), getD_range hi, hA]
  have hlt : (argsort p).getD j 0 < n := lt_of_perm_range ha (getD_mem_of_lt (by rwa [hla]))
  have hinv : p.getD ((argsort p).getD j 0) 0 = j := by
    rw [← getD_gather (by rwa [hla]), gather_argsort hp, getD_range hj]
  rw [Finset.sum_eq_single ((argsort p).getD j 0)]
  · unfold permMat; rw [of_e (by rwa [hl]) (by rwa [hl]), if_pos hinv, mul_one]
  · intro k hk hne
    have hk' := Finset.mem_range.1 hk
    unfold permMat
    rw [of_e (by rwa [hl]) (by rwa [hl]), if_neg, mul_zero]
    intro h
    apply hne
    apply getD_inj (nodup_of_perm_range hp) (by rwa [hl]) (by rwa [hl])
    rw [h, hinv]
  · intro h; exact absurd (Finset.mem_range.2 hlt) h

theorem pick_isSq {A : DMat R} {p : List ℕ} : (A.pick p p).IsSq p.length := ⟨rfl, rfl⟩

/-- `D.pick p p = C` determines `D`. -/
theorem pick_inv {n : ℕ} {p : List ℕ} {C D : DMat R} (hp : p ~ range n) (hD : D.IsSq n) (h : D.pick p p = C) :
    D = C.pick (argsort p) (argsort p) := by
  have hl := length_of_perm_range hp
  have ha : argsort p ~ range n := hl ▸ argsort_perm p
  subst h
  have hb : ∀ x ∈ argsort p, x < p.length := fun x hx => by rw [hl]; exact lt_of_perm_range ha hx
  rw [pick_pick _ hb hb, gather_argsort hp]
  conv_lhs => rw [← pick_range D, hD.1, hD.2]

end DMat

section
variable {R : Type} [CommRing R]
open DMat

theorem semL_map {ι : Type} (l : List ι) (f : ι → LinOp R) : LinOp.semL (l.map f) = l.map fun x => (f x).sem := by
  induction l with
  | nil => rfl
  | cons a t ih => simp [LinOp.semL, ih]

theorem semM_map {ι : Type} (c : List (ι × ℕ)) (f : ι → LinOp R) :
    LinOp.semM (c.map fun kc => (f kc.1, kc.2)) = (Counter.expand c).map fun x => (f x).sem := by
  induction c with
  | nil => rfl
  | cons a t ih => simp [LinOp.semM, ih, Counter.expand]

/-- The conjugated operator is the matrix whose reindexing by `p` is `X`. -/
theorem conjPerm_sem {n : ℕ} {p : List ℕ} {X : LinOp R} (hp : p ~ range n) (hX : X.sem.IsSq n) :
    (conjPerm p X).sem = X.sem.pick (argsort p) (argsort p) := by
  have hl := length_of_perm_range hp
  have ha : argsort p ~ range n := hl ▸ argsort_perm p
  have hla := length_of_perm_range ha
  simp only [conjPerm, LinOp.sem]
  rw [permMat_mul (argsort p) X.sem (by rw [hX.1, hla]) (fun x hx => by rw [hla]; exact lt_of_perm_range ha hx)]
  rw [mul_permMat (n := n) p _ (by simp [pick, hX.2]) hp]
  rw [pick_pick]
  · congr 1
    · rw [show (X.sem.pick (argsort p) (range X.sem.cols)).rows = (argsort p).length from rfl, gather_range]
    · rw [range_gather]; intro x hx; rw [hX.2]; exact lt_of_perm_range ha hx
  · intro x hx
    rw [show (X.sem.pick (argsort p) (range X.sem.cols)).rows = (argsort p).length from rfl] at hx
    simpa using hx
  · intro x hx; rw [length_range, hX.2]; exact lt_of_perm_range ha hx

theorem conjPerm_isSq {n : ℕ} {p : List ℕ} {X : LinOp R} (hp : p ~ range n) (hX : X.sem.IsSq n) :
    (conjPerm p X).sem.IsSq n := by
  rw [conjPerm_sem hp hX]
  have hl := length_of_perm_range hp
  have hla := length_of_perm_range (hl ▸ argsort_perm p : argsort p ~ range n)
  exact ⟨hla, hla⟩

theorem conjPerm_pick {n : ℕ} {p : List ℕ} {X : LinOp R} (hp : p ~ range n) (hX : X.sem.IsSq n) :
    (conjPerm p X).sem.pick p p = X.sem := by
  have hl := length_of_perm_range hp
  have ha : argsort p ~ range n := hl ▸ argsort_perm p
  have hla := length_of_perm_range ha
  rw [conjPerm_sem hp hX, pick_pick _ (fun x hx => by rw [hla]; exact lt_of_perm_range hp hx)
    (fun x hx => by rw [hla]; exact lt_of_perm_range hp hx), argsort_gather hp]
  conv_rhs => rw [← pick_range X.sem, hX.1, hX.2]

/-- A square matrix whose reindexing by `p` is `X` is the conjugated operator. -/
theorem conjPerm_eq {n : ℕ} {p : List ℕ} {X : LinOp R} {D : DMat R} (hp : p ~ range n) (hX : X.sem.IsSq n)
    (hD : D.IsSq n) (h : D.pick p p = X.sem) : (conjPerm p X).sem = D := by
  rw [conjPerm_sem hp hX]; exact (pick_inv hp hD h).symm

theorem bdiag_isSq {ι : Type} (l : List ι) (f : ι → DMat R) (s : ι → ℕ) (h : ∀ x ∈ l, (f x).IsSq (s x)) :
    (bdiag (l.map f)).IsSq (l.map s).sum := by
  constructor
  · rw [bdiag_rows, map_map]; congr 1; exact map_congr_left fun x hx => (h x hx).1
  · rw [bdiag_cols, map_map]; congr 1; exact map_congr_left fun x hx => (h x hx).2

theorem kronL_isSq {ι : Type} (l : List ι) (f : ι → DMat R) (s : ι → ℕ) (h : ∀ x ∈ l, (f x).IsSq (s x)) :
    (kronL (l.map f)).IsSq (l.map s).prod := by
  constructor
  · rw [kronL_rows, map_map]; congr 1; exact map_congr_left fun x hx => (h x hx).1
  · rw [kronL_cols, map_map]; congr 1; exact map_congr_left fun x hx => (h x hx).2

theorem withExtra_none (p : List ℕ) : withExtra none p = p := rfl
theorem withExtra_some (e p : List ℕ) : withExtra (some e) p = gather e p := rfl

end
end Verif
