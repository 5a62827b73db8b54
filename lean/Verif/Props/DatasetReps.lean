import Verif.Lemmas.MulVec
import Verif.Lemmas.RepHom
import Verif.Spec.Sampled
import Verif.Props.Datasets
import Verif.Props.Lorentz
import Verif.Spec.Expr

/-!
# The labels of the datasets transform by the declared representations of the declared symmetry

`rep_in`, `rep_out` and `symmetry` are the attributes of the datasets; rows are lists.
-/
namespace Verif
open List Matrix

/-- `k*Scalar+k*Vector`, datasets.py:24; `k*Vector` for `k = 2` (datasets.py:57) and `k = 4` (datasets.py:80). -/
def inertiaIn (k : ℕ) : Expr := .add (.nsmul k .scalar) (.nsmul k (.rep 0))
/-- `T(2)`, datasets.py:25, which is `V**2*V.T**0` (representation.py:299-302). -/
def inertiaOut : Expr := .mul (.pow (.rep 0) 2) (.pow (.dual (.rep 0)) 0)
/-- The label of a row as an array of nine numbers, datasets.py:23. -/
noncomputable def inertiaRow (k : ℕ) (x : List ℝ) : List ℝ := (range 9).map (inertiaLabel k fun n => x.getD n 0)

theorem ofMatrix_entry {n : ℕ} (h : Matrix (Fin n) (Fin n) ℝ) (a b : Fin n) : (DMat.ofMatrix h).e a b = h a b := by
  unfold DMat.ofMatrix
  rw [DMat.of_e a.2 b.2, dif_pos ⟨a.2, b.2⟩]

/-- `k` copies of a matrix act on the `k` blocks separately. -/
theorem getD_bdiag_replicate {d : ℕ} {A : DMat ℝ} (hA : A.IsSq d) : ∀ (k : ℕ) (x : List ℝ), x.length = k * d → ∀ i < k, ∀ a < d,
    ((DMat.bdiag (replicate k A)).mulVec x).getD (i * d + a) 0 = ∑ b ∈ Finset.range d, A.e a b * x.getD (i * d + b) 0
  | 0, _, _, _, h, _, _ => absurd h (Nat.not_lt_zero _)
  | k + 1, x, hx, i, hi, a, ha => by
    have hl : (x.take d).length = d := by rw [length_take, hx, Nat.succ_mul]; omega
    have e : x = x.take d ++ x.drop d := (take_append_drop d x).symm
    rw [replicate_succ, DMat.bdiag]
    rw [e, DMat.mulVec_bdiag2 _ _ _ _ (by rw [hl, hA.2])]
    cases i with
    | zero =>
      rw [Nat.zero_mul, Nat.zero_add, getD_append _ _ _ _ (by rw [DMat.length_mulVec, hA.1]; exact ha), DMat.getD_mulVec (by rw [hA.1]; exact ha), hA.2]
      refine Finset.sum_congr rfl fun b hb => ?_
      rw [Nat.zero_add, getD_append _ _ _ _ (by rw [hl]; exact Finset.mem_range.1 hb)]
    | succ i =>
      have h1 : (i + 1) * d + a - d = i * d + a := by rw [Nat.succ_mul]; omega
      rw [getD_append_right _ _ _ _ (by rw [DMat.length_mulVec, hA.1, Nat.succ_mul]; omega), DMat.length_mulVec, hA.1, h1,
        getD_bdiag_replicate hA k (x.drop d) (by rw [length_drop, hx, Nat.succ_mul]; omega) i (by omega) a ha]
      refine Finset.sum_congr rfl fun b _ => ?_
      have h2 : (i + 1) * d + b - d = i * d + b := by rw [Nat.succ_mul]; omega
      rw [getD_append_right _ _ _ _ (by rw [hl, Nat.succ_mul]; omega), hl, h2]

theorem bdiag_replicate_shape {d : ℕ} {A : DMat ℝ} (hA : A.IsSq d) (k : ℕ) : (DMat.bdiag (replicate k A)).IsSq (k * d) := by
  constructor
  · rw [DMat.bdiag_rows]; simp [hA.1]
  · rw [DMat.bdiag_cols]; simp [hA.2]

theorem block_bdiag {d : ℕ} (h : Matrix (Fin d) (Fin d) ℝ) {k : ℕ} {x : List ℝ} (hx : x.length = k * d) {i : ℕ} (hi : i < k) :
    (fun a : Fin d => ((DMat.bdiag (replicate k (DMat.ofMatrix h))).mulVec x).getD (i * d + a) 0) = h.mulVec fun a => x.getD (i * d + a) 0 := by
  ext a
  rw [getD_bdiag_replicate (d := d) (A := DMat.ofMatrix h) ⟨rfl, rfl⟩ k x hx i hi a a.2, Finset.sum_range]
  exact Finset.sum_congr rfl fun b _ => by rw [ofMatrix_entry]

theorem block_zero (d i : ℕ) (X : ℕ → ℝ) : block 0 d i X = fun a : Fin d => X (i * d + a) := by
  ext a
  simp [block]

theorem bdiag_ones : ∀ k : ℕ, DMat.bdiag (replicate k (DMat.one 1 : DMat ℝ)) = DMat.one k
  | 0 => by
    refine DMat.ext rfl rfl fun i j hi _ => absurd hi (Nat.not_lt_zero _)
  | k + 1 => by rw [replicate_succ, DMat.bdiag, bdiag_ones k, DMat.bdiag2_one, Nat.add_comm]

/-- C80: for every element `h` of `O(3)` as generated by the library, however it acts on `V` — by `h` itself — the label of
`rep_in.rho(h) x` is `rep_out.rho(h)` times the label of `x`. -/
theorem C80_symmetry (k : ℕ) : ∃ a b : Arr3 ℝ, soLie 3 = .ok a ∧ oDisc 3 = .ok b ∧ ∀ h, Generated (a.mats 3) (b.mats 3) h →
    ∀ (g : Gid) (I : Interp ℝ), (I.vec 0 (some g)).sem = DMat.ofMatrix h → ∀ x : List ℝ, x.length = k + k * 3 →
      inertiaRow k (((inertiaIn k).den g I).1.mulVec x) = (inertiaOut.den g I).1.mulVec (inertiaRow k x) := by
  obtain ⟨a, ha, -, -, -⟩ := C50_so_generators 3
  obtain ⟨b, hb, -⟩ := C50_o_reflection 3 (by norm_num)
  refine ⟨a, b, ha, hb, fun h hg g I hI x hx => ?_⟩
  have ho : hᵀ * h = 1 := by
    have := transpose_form 1 (by simp) (fun A hA => by rw [so_mats_anti ha A hA]; simp) (fun h hh => by
      rw [oDisc_mats 3 b hb, mem_singleton] at hh
      subst hh
      rw [diagonal_transpose, Matrix.mul_one, diagonal_mul_diagonal, ← diagonal_one]
      congr 1
      funext i
      split_ifs <;> norm_num) hg
    simpa using this
  have hin : ((inertiaIn k).den g I).1.mulVec x = x.take k ++ (DMat.bdiag (replicate k (DMat.ofMatrix h))).mulVec (x.drop k) := by
    have hs := bdiag_ones k
    simp only [inertiaIn, Expr.den, hI, DMat.bdiag, hs, DMat.bdiag2_zero]
    have hl : (x.take k).length = k := by rw [length_take, hx]; omega
    conv_lhs => rw [← take_append_drop k x]
    rw [DMat.mulVec_bdiag2 _ _ _ _ (by rw [hl]; rfl), DMat.mulVec_one _ hl]
  obtain ⟨y, hy⟩ : ∃ y, y = (DMat.bdiag (replicate k (DMat.ofMatrix h))).mulVec (x.drop k) := ⟨_, rfl⟩
  have hl : (x.take k).length = k := by rw [length_take, hx]; omega
  have hmat : inertiaMat k (fun n => (x.take k ++ y).getD n 0) = inertiaMat k (blockAct k h fun n => x.getD n 0) := by
    ext u v
    simp only [inertiaMat, block_act]
    refine Finset.sum_congr rfl fun i _ => ?_
    have e1 : (x.take k ++ y).getD i 0 = blockAct k h (fun n => x.getD n 0) i := by
      rw [getD_append _ _ _ _ (by rw [hl]; exact i.2)]
      simp [blockAct]
    have e2 : block k 3 i (fun n => (x.take k ++ y).getD n 0) = h.mulVec (block k 3 i fun n => x.getD n 0) := by
      have := block_bdiag h (x := x.drop k) (k := k) (by rw [length_drop, hx]; omega) i.2
      rw [← hy] at this
      refine Eq.trans ?_ (this.trans ?_)
      · ext a
        simp only [block]
        rw [getD_append_right _ _ _ _ (by rw [hl]; omega), hl]
        congr 1
        omega
      · congr 1
        ext a
        simp only [block]
        rw [List.getD_eq_getElem?_getD, List.getD_eq_getElem?_getD, getElem?_drop, Nat.add_assoc]
    rw [e1, e2]
  have hlab : ∀ n, inertiaLabel k (fun n => (x.take k ++ y).getD n 0) n = inertiaLabel k (blockAct k h fun n => x.getD n 0) n := by
    intro n
    unfold inertiaLabel
    rw [hmat]
  have hout : (inertiaOut.den g I).1 = DMat.kron (DMat.ofMatrix h) (DMat.ofMatrix h) := by
    simp only [inertiaOut, Expr.den, hI, replicate, DMat.kronL, DMat.kron_one]
  rw [hin, ← hy, hout]
  refine DMat.vec_ext (by simp [inertiaRow, DMat.ofMatrix]) fun n hn => ?_
  have hn9 : n < 9 := by simpa [inertiaRow] using hn
  have hg : ∀ (z : List ℝ) m, m < 9 → (inertiaRow k z).getD m 0 = inertiaLabel k (fun n => z.getD n 0) m := by
    intro z m hm
    simp [inertiaRow, hm]
  rw [hg _ _ hn9, hlab, DMat.getD_mulVec (by simpa [DMat.ofMatrix] using hn9)]
  have key := C80_inertia k h ho (fun n => x.getD n 0) ⟨n / 3, by omega⟩ ⟨n % 3, by omega⟩
  simp only at key
  rw [show n / 3 * 3 + n % 3 = n by omega] at key
  rw [key]
  show _ = ∑ j ∈ Finset.range (3 * 3), _
  rw [DMat.sum_range_mul, Finset.sum_range]
  refine Finset.sum_congr rfl fun c _ => ?_
  rw [Finset.sum_range]
  refine Finset.sum_congr rfl fun d _ => ?_
  rw [hg _ _ (by omega)]
  congr 1
  unfold DMat.kron
  refine Eq.trans ?_ (DMat.of_e (show n < 3 * 3 from hn9) (show c.val * 3 + d.val < 3 * 3 by omega)).symm
  show _ = (DMat.ofMatrix h).e (n / 3) ((c.val * 3 + d.val) / 3) * (DMat.ofMatrix h).e (n % 3) ((c.val * 3 + d.val) % 3)
  rw [show (c.val * 3 + d.val) / 3 = c.val by omega, show (c.val * 3 + d.val) % 3 = d.val by omega,
    ← ofMatrix_entry h ⟨n / 3, by omega⟩ c, ← ofMatrix_entry h ⟨n % 3, by omega⟩ d]

/-- C81: the label of `O5Synthetic` as an array of one number (`rep_out = Scalar`): every element of `SO(5)` as generated by the
library leaves it fixed. -/
theorem C81_symmetry : ∃ a : Arr3 ℝ, soLie 5 = .ok a ∧ ∀ h, Generated (a.mats 5) [] h →
    ∀ (g : Gid) (I : Interp ℝ), (I.vec 0 (some g)).sem = DMat.ofMatrix h → ∀ x : List ℝ, x.length = 2 * 5 →
      [o5Label fun n => (((Expr.nsmul 2 (.rep 0)).den g I).1.mulVec x).getD n 0] =
        (Expr.scalar.den g I).1.mulVec [o5Label fun n => x.getD n 0] := by
  obtain ⟨a, ha, -, -, -⟩ := C50_so_generators 5
  refine ⟨a, ha, fun h hg g I hI x hx => ?_⟩
  have ho : hᵀ * h = 1 := by
    have := transpose_form 1 (by simp) (fun A hA => by rw [so_mats_anti ha A hA]; simp) (by simp) hg
    simpa using this
  rw [show (Expr.scalar.den g I).1 = DMat.one 1 from rfl, DMat.mulVec_one (n := 1) _ rfl, ← C81_o5 h ho fun n => x.getD n 0]
  have e : ∀ i < 2, block 0 5 i (fun n => (((Expr.nsmul 2 (.rep 0)).den g I).1.mulVec x).getD n 0) = block 0 5 i (blockAct 0 h fun n => x.getD n 0) := by
    intro i hi
    rw [block_act]
    have := block_bdiag h hx hi
    simp only [Expr.den, hI, block_zero]
    exact this
  unfold o5Label
  rw [e 0 (by norm_num), e 1 (by norm_num)]

/-- C82: the label of `ParticleInteraction`: every element of `Lorentz()` as generated by the library leaves it fixed. -/
theorem C82_symmetry : ∃ a b : Arr3 ℝ, so13pLie = .ok a ∧ o13Disc = .ok b ∧ ∀ h, Generated (a.mats 4) (b.mats 4) h →
    ∀ (g : Gid) (I : Interp ℝ), (I.vec 0 (some g)).sem = DMat.ofMatrix h → ∀ x : List ℝ, x.length = 4 * 4 →
      [particleLabel fun n => (((Expr.nsmul 4 (.rep 0)).den g I).1.mulVec x).getD n 0] =
        (Expr.scalar.den g I).1.mulVec [particleLabel fun n => x.getD n 0] := by
  obtain ⟨a, ha, -, hf⟩ := so13p_form
  obtain ⟨b, hb⟩ : ∃ b : Arr3 ℝ, o13Disc = .ok b := ⟨_, by unfold o13Disc Arr3.set; rw [if_pos (by decide)]⟩
  refine ⟨a, b, ha, hb, fun h hg g I hI x hx => ?_⟩
  have ho := transpose_form _ (minkowski_unit 4) hf (o13_disc_form b hb) hg
  have hm : minkowski 4 = etaMat := by
    ext i j
    fin_cases i <;> fin_cases j <;> simp [minkowski, etaMat, diagonal]
  rw [hm] at ho
  rw [show (Expr.scalar.den g I).1 = DMat.one 1 from rfl, DMat.mulVec_one (n := 1) _ rfl, ← C82_particle h ho fun n => x.getD n 0]
  have e : ∀ i < 4, block 0 4 i (fun n => (((Expr.nsmul 4 (.rep 0)).den g I).1.mulVec x).getD n 0) = block 0 4 i (blockAct 0 h fun n => x.getD n 0) := by
    intro i hi
    rw [block_act]
    have := block_bdiag h hx hi
    simp only [Expr.den, hI, block_zero]
    exact this
  unfold particleLabel
  rw [e 0 (by norm_num), e 1 (by norm_num), e 2 (by norm_num), e 3 (by norm_num)]

/-- The label of `ParticleInteraction` is not preserved by all linear maps: doubling all momenta changes it. -/
example : particleLabel (fun n => if n % 4 = 0 then 2 else 0) ≠
    particleLabel (fun n => if n % 4 = 0 then 1 else 0) := by
  simp [particleLabel, block, etaDot, dot, etaMat, Fin.sum_univ_four, Matrix.vecMul_diagonal, Matrix.diagonal_apply]
  try norm_num

/-- The hypotheses are met by a boost of `Lorentz()` of any strength acting on `V`. -/
example : ∃ a b : Arr3 ℝ, so13pLie = .ok a ∧ o13Disc = .ok b ∧ ∀ A ∈ a.mats 4, ∀ t : ℝ, Generated (a.mats 4) (b.mats 4) (NormedSpace.exp (t • A)) ∧
    ∃ I : Interp ℝ, (I.vec 0 (some 0)).sem = DMat.ofMatrix (NormedSpace.exp (t • A)) := by
  obtain ⟨a, ha, -, hf⟩ := so13p_form
  obtain ⟨b, hb⟩ : ∃ b : Arr3 ℝ, o13Disc = .ok b := ⟨_, by unfold o13Disc Arr3.set; rw [if_pos (by decide)]⟩
  exact ⟨a, b, ha, hb, fun A hA t => ⟨.exp (Submodule.smul_mem _ _ (Submodule.subset_span hA)),
    ⟨fun _ _ => .lazy (DMat.ofMatrix _), fun _ _ => .eye 0⟩, rfl⟩⟩

end Verif
