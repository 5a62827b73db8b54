import Verif.Model.Animation
import Mathlib.LinearAlgebra.UnitaryGroup
import Mathlib.LinearAlgebra.Matrix.Determinant.Basic
import Mathlib.Tactic.FieldSimp
import Mathlib.Tactic.LinearCombination
import Mathlib.Tactic.FinCases
import Mathlib.Tactic.NormNum

/-!
# C108: animations show the trajectories, with springs that join the bobs
-/
namespace Verif

open Real Matrix

/-- The vector points straight down. -/
def StraightDown (r : V3) : Prop := r 0 = 0 ∧ r 1 = 0 ∧ r 2 < 0

/-- The matrix that `align2ref` computes for the unit vector `(a,b,c)`. -/
noncomputable def alignR (v : V3) : Matrix (Fin 3) (Fin 3) ℝ :=
  !![1 - v 0 ^ 2 / (1 + v 2), -(v 0 * v 1) / (1 + v 2), v 0; -(v 0 * v 1) / (1 + v 2), 1 - v 1 ^ 2 / (1 + v 2), v 1; -v 0, -v 1,
    1 - (v 0 ^ 2 + v 1 ^ 2) / (1 + v 2)]

theorem refNorm_sq (r : V3) : refNorm r ^ 2 = r 0 ^ 2 + r 1 ^ 2 + r 2 ^ 2 := sq_sqrt (by positivity)

theorem refNorm_nonneg (r : V3) : 0 ≤ refNorm r := sqrt_nonneg _

theorem refNorm_ne_zero {r : V3} (h : r ≠ 0) : refNorm r ≠ 0 := by
  intro h0
  have h2 := refNorm_sq r
  rw [h0] at h2
  apply h
  have e0 : r 0 = 0 := by nlinarith [sq_nonneg (r 0), sq_nonneg (r 1), sq_nonneg (r 2)]
  have e1 : r 1 = 0 := by nlinarith [sq_nonneg (r 0), sq_nonneg (r 1), sq_nonneg (r 2)]
  have e2 : r 2 = 0 := by nlinarith [sq_nonneg (r 0), sq_nonneg (r 1), sq_nonneg (r 2)]
  funext i
  fin_cases i
  · exact e0
  · exact e1
  · exact e2

theorem refNorm_zero : refNorm (0 : V3) = 0 := by simp [refNorm]

theorem refDir_eq {r : V3} (h : r ≠ 0) (i : Fin 3) : refDir r i = some (r i / refNorm r) := by
  unfold refDir Flt.div
  simp [refNorm_ne_zero h]

theorem refDir_zero (i : Fin 3) : refDir 0 i = none := by
  unfold refDir Flt.div
  simp [refNorm_zero]

theorem alignM_eq {v : Fin 3 → Flt} {w : V3} (hv : ∀ i, v i = some (w i)) (h : 1 + w 2 ≠ 0) (i j : Fin 3) :
    alignM v i j = some (alignR w i j) := by
  unfold alignM alignA
  fin_cases i <;> fin_cases j <;> simp [Flt.add, Flt.sub, Flt.mul, Flt.div, hv, h, alignR] <;> ring

theorem alignM_none {v : Fin 3 → Flt} (h : v 2 = none ∨ v 2 = some (-1)) (i j : Fin 3) : alignM v i j = none := by
  have : Flt.add (some 1) (v 2) = none ∨ Flt.add (some 1) (v 2) = some 0 := by
    rcases h with h | h
    · exact .inl (by rw [h]; rfl)
    · exact .inr (by rw [h]; simp [Flt.add])
  have hd : ∀ a : Flt, Flt.div a (Flt.add (some 1) (v 2)) = none := by
    intro a
    rcases this with e | e <;> rw [e] <;> cases a <;> simp [Flt.div]
  unfold alignM
  simp only [hd]
  cases Flt.add (some (if i = j then (1 : ℝ) else 0)) (alignA v i j) <;> rfl

/-- The unit vector in the direction of `r`. -/
noncomputable def unitV (r : V3) : V3 := fun i => r i / refNorm r

theorem unitV_sq {r : V3} (h : r ≠ 0) : unitV r 0 ^ 2 + unitV r 1 ^ 2 + unitV r 2 ^ 2 = 1 := by
  have := refNorm_sq r
  have hn := refNorm_ne_zero h
  unfold unitV
  field_simp
  linarith

theorem unitV_ne {r : V3} (h : r ≠ 0) (hd : ¬StraightDown r) : 1 + unitV r 2 ≠ 0 := by
  intro h0
  have h1 := unitV_sq h
  have h2 : unitV r 2 = -1 := by linarith
  rw [h2] at h1
  have hn := refNorm_ne_zero h
  have hp : 0 < refNorm r := lt_of_le_of_ne (refNorm_nonneg r) (Ne.symm hn)
  have a0 : unitV r 0 = 0 := by nlinarith [sq_nonneg (unitV r 0), sq_nonneg (unitV r 1)]
  have a1 : unitV r 1 = 0 := by nlinarith [sq_nonneg (unitV r 0), sq_nonneg (unitV r 1)]
  refine hd ⟨?_, ?_, ?_⟩
  · unfold unitV at a0; rcases div_eq_zero_iff.1 a0 with h | h
    · exact h
    · exact absurd h hn
  · unfold unitV at a1; rcases div_eq_zero_iff.1 a1 with h | h
    · exact h
    · exact absurd h hn
  · unfold unitV at h2
    rw [div_eq_iff hn] at h2
    linarith

theorem unitV_down {r : V3} (h : StraightDown r) : unitV r 2 = -1 := by
  obtain ⟨h0, h1, h2⟩ := h
  unfold unitV refNorm
  rw [h0, h1]
  have : sqrt (0 ^ 2 + 0 ^ 2 + r 2 ^ 2) = -r 2 := by
    rw [show (0 : ℝ) ^ 2 + 0 ^ 2 + r 2 ^ 2 = (-r 2) ^ 2 by ring]
    exact sqrt_sq (by linarith)
  rw [this, div_neg, div_self (ne_of_lt h2)]

theorem alignR_mem {v : V3} (hv : v 0 ^ 2 + v 1 ^ 2 + v 2 ^ 2 = 1) (h : 1 + v 2 ≠ 0) : alignR v ∈ specialOrthogonalGroup (Fin 3) ℝ := by
  rw [mem_specialOrthogonalGroup_iff]
  refine ⟨?_, ?_⟩
  · rw [mem_orthogonalGroup_iff]
    ext i j
    fin_cases i <;> fin_cases j <;> simp [alignR, Matrix.mul_apply, Fin.sum_univ_three] <;> field_simp
    · linear_combination v 0 ^ 2 * hv
    · linear_combination v 0 * v 1 * hv
    · ring
    · linear_combination v 0 * v 1 * hv
    · linear_combination v 1 ^ 2 * hv
    · ring
    · ring
    · ring
    · linear_combination (v 0 ^ 2 + v 1 ^ 2) * hv
  · simp [alignR, det_fin_three]
    field_simp
    linear_combination (1 + v 2) * (v 0 ^ 2 + v 1 ^ 2) * hv

theorem alignR_ez {v : V3} (hv : v 0 ^ 2 + v 1 ^ 2 + v 2 ^ 2 = 1) (h : 1 + v 2 ≠ 0) : alignR v *ᵥ ![0, 0, 1] = v := by
  funext i
  fin_cases i <;> simp [alignR, mulVec, dotProduct, Fin.sum_univ_three]
  field_simp
  linear_combination -hv

/-- The distance of two points. -/
noncomputable def dist3 (a b : V3) : ℝ := sqrt ((b 0 - a 0) ^ 2 + (b 1 - a 1) ^ 2 + (b 2 - a 2) ^ 2)

/-- `pts` is a spring from `a` to `b`: a helix with `N` points and the given number of turns around the segment, of the given radius,
straight in its first and last tenth.  It is the helix around the third axis, moved by a rotation and the translation by `a`. -/
def IsSpring (N : ℕ) (radius turns : ℝ) (a b : V3) (pts : List (Fin 3 → Flt)) : Prop :=
  pts.length = N ∧ ∃ R ∈ specialOrthogonalGroup (Fin 3) ℝ, R *ᵥ ![0, 0, dist3 a b] = b - a ∧
    ∀ k < N, ∀ t : ℝ, t = (k : ℝ) / (N - 1 : ℕ) → ∀ ρ : ℝ, (1 / 10 ≤ t ∧ t ≤ 9 / 10 → ρ = radius) → (t < 1 / 10 ∨ 9 / 10 < t → ρ = 0) →
      pts[k]? = some fun i => some (a i + (R *ᵥ ![ρ * cos (2 * π * turns * t), ρ * sin (2 * π * turns * t), t * dist3 a b]) i)

/-- The factor `Ns` in the angle makes no difference at the sample points. -/
theorem angle_eq {N : ℕ} (hN : 2 ≤ N) (m k : ℕ) : 2 * π * N * ((k : ℝ) / (N - 1 : ℕ)) * m = 2 * π * m * ((k : ℝ) / (N - 1 : ℕ)) + (k * m : ℕ) * (2 * π) := by
  have h1 : ((N - 1 : ℕ) : ℝ) ≠ 0 := by
    have : N - 1 ≠ 0 := by omega
    exact_mod_cast this
  have h2 : (N : ℝ) = (N - 1 : ℕ) + 1 := by
    have : N = (N - 1) + 1 := by omega
    exact_mod_cast this
  rw [h2]
  push_cast
  field_simp
  ring

theorem helix_length (N : ℕ) (radius turns : ℝ) : (helix N radius turns).length = N := by simp [helix]

theorem helix_get {N : ℕ} (hN : 2 ≤ N) (radius : ℝ) (m : ℕ) {k : ℕ} (hk : k < N) {t ρ : ℝ} (ht : t = (k : ℝ) / (N - 1 : ℕ))
    (h1 : 1 / 10 ≤ t ∧ t ≤ 9 / 10 → ρ = radius) (h2 : t < 1 / 10 ∨ 9 / 10 < t → ρ = 0) :
    (helix N radius m)[k]? = some ![ρ * cos (2 * π * m * t), ρ * sin (2 * π * m * t), t] := by
  unfold helix
  rw [List.getElem?_map, List.getElem?_range hk, Option.map_some]
  congr 1
  simp only
  rw [angle_eq hN, cos_add_nat_mul_two_pi, sin_add_nat_mul_two_pi, ← ht]
  by_cases hc : t > 9 / 10 ∨ t < 1 / 10
  · rw [if_pos hc, h2 (hc.symm)]
    simp
  · rw [if_neg hc]
    push Not at hc
    rw [h1 ⟨hc.2, hc.1⟩, mul_comm radius, mul_comm radius]

/-- The points of the spring for the difference `r` of the bobs, from the bob at `a`. -/
noncomputable def springPiece (h : List V3) (a b : V3) : List (Fin 3 → Flt) :=
  h.map fun x => fun i => Flt.add (Flt.add (Flt.add (Flt.mul (alignM (refDir (b - a)) i 0) (some (x 0))) (Flt.mul (alignM (refDir (b - a)) i 1) (some (x 1))))
    (Flt.mul (alignM (refDir (b - a)) i 2) (some (x 2 * refNorm (b - a))))) (some (a i))

theorem springPoints_eq (h qs : List V3) :
    springPoints h qs = (List.zipWith (springPiece h) ((0 : V3) :: qs).dropLast qs).flatten := by
  unfold springPoints
  refine congrArg List.flatten ?_
  apply List.ext_getElem
  · simp [align2ref]
  · intro k h1 h2
    simp only [align2ref, List.getElem_zipWith, List.getElem_map, List.map_map, springPiece, List.tail_cons]
    rfl

theorem springPiece_good {h : List V3} {a b : V3} (hne : a ≠ b) (hd : ¬StraightDown (b - a)) :
    springPiece h a b = h.map fun x => fun i => some (a i + (alignR (unitV (b - a)) *ᵥ ![x 0, x 1, x 2 * dist3 a b]) i) := by
  have hr : b - a ≠ 0 := fun e => hne (sub_eq_zero.1 e).symm
  have hM := alignM_eq (v := refDir (b - a)) (w := unitV (b - a)) (fun i => refDir_eq hr i) (unitV_ne hr hd)
  unfold springPiece
  refine List.map_congr_left fun x _ => funext fun i => ?_
  rw [hM, hM, hM]
  simp only [Flt.add, Flt.mul, Option.map₂_some_some, mulVec, dotProduct, Fin.sum_univ_three]
  have : dist3 a b = refNorm (b - a) := rfl
  simp only [this, cons_val_zero, cons_val_one, cons_val]
  congr 1
  ring

theorem springPiece_bad {h : List V3} {a b : V3} (hb : a = b ∨ StraightDown (b - a)) : ∀ p ∈ springPiece h a b, ∀ i, p i = none := by
  intro p hp i
  unfold springPiece at hp
  obtain ⟨x, _, rfl⟩ := List.mem_map.1 hp
  have hM : ∀ j, alignM (refDir (b - a)) i j = none := by
    intro j
    refine alignM_none ?_ i j
    rcases hb with rfl | hd
    · left
      rw [sub_self]
      exact refDir_zero 2
    · right
      have hr : b - a ≠ 0 := by
        intro e
        have := hd.2.2
        rw [e] at this
        exact absurd this (lt_irrefl _)
      rw [refDir_eq hr 2]
      exact congrArg some (unitV_down hd)
  simp [hM, Flt.mul, Flt.add]

/-- **C108.** (partial) What is drawn for the springs is one piece per bob.  The piece of a bob is a helix from the bob before (the
origin for the first one) to it, whenever it does not hang exactly below that one or coincide with it; the others are not drawn (all
their coordinates are `nan`). -/
theorem C108_springs_partial {N : ℕ} (hN : 2 ≤ N) (radius : ℝ) (m : ℕ) (qs : List V3) :
    ∃ pieces : List (List (Fin 3 → Flt)), springPoints (helix N radius m) qs = pieces.flatten ∧ pieces.length = qs.length ∧
      ∀ (k : ℕ) pts a b, pieces[k]? = some pts → ((0 : V3) :: qs)[k]? = some a → qs[k]? = some b →
        (a ≠ b → ¬StraightDown (b - a) → IsSpring N radius m a b pts) ∧ (a = b ∨ StraightDown (b - a) → ∀ p ∈ pts, ∀ i, p i = none) := by
  refine ⟨_, springPoints_eq _ _, by simp, ?_⟩
  intro k pts a b hp ha hb
  have hk : k < qs.length := (List.getElem?_eq_some_iff.1 hb).1
  have ha' : ((0 : V3) :: qs).dropLast[k]? = some a := by
    rw [List.getElem?_dropLast, if_pos (by simpa using hk)]
    exact ha
  rw [List.getElem?_zipWith, ha', hb] at hp
  simp only [Option.some.injEq] at hp
  subst hp
  refine ⟨fun hne hd => ?_, springPiece_bad⟩
  have hr : b - a ≠ 0 := fun e => hne (sub_eq_zero.1 e).symm
  refine ⟨by simp [springPiece, helix_length], alignR (unitV (b - a)), alignR_mem (unitV_sq hr) (unitV_ne hr hd), ?_, ?_⟩
  · have e : (![0, 0, dist3 a b] : V3) = dist3 a b • ![0, 0, 1] := by
      funext i
      fin_cases i <;> simp
    rw [e, mulVec_smul, alignR_ez (unitV_sq hr) (unitV_ne hr hd)]
    funext i
    have : dist3 a b = refNorm (b - a) := rfl
    rw [this, Pi.smul_apply, smul_eq_mul, unitV, mul_div_cancel₀ _ (refNorm_ne_zero hr)]
  · intro k hk t ht ρ h1 h2
    rw [springPiece_good hne hd, List.getElem?_map, helix_get hN radius m hk ht h1 h2, Option.map_some]
    rfl

/-- **C108.** A spring starts at the one bob and ends at the other. -/
theorem C108_ends {N : ℕ} (hN : 2 ≤ N) {radius turns : ℝ} {a b : V3} {pts : List (Fin 3 → Flt)} (h : IsSpring N radius turns a b pts) :
    pts.head? = some (fun i => some (a i)) ∧ pts.getLast? = some fun i => some (b i) := by
  obtain ⟨hl, R, hR, hz, hp⟩ := h
  constructor
  · rw [List.head?_eq_getElem?, hp 0 (by omega) 0 (by simp) 0 (by norm_num) (by simp)]
    congr 1
    funext i
    congr 1
    have : (![0 * cos (2 * π * turns * 0), 0 * sin (2 * π * turns * 0), 0 * dist3 a b] : V3) = 0 := by
      funext i
      fin_cases i <;> simp
    rw [this, mulVec_zero]
    simp
  · rw [List.getLast?_eq_getElem?, hl, hp (N - 1) (by omega) 1 ?_ 0 (by norm_num) (by simp)]
    · congr 1
      funext i
      congr 1
      have : (![0 * cos (2 * π * turns * 1), 0 * sin (2 * π * turns * 1), 1 * dist3 a b] : V3) = ![0, 0, dist3 a b] := by
        funext i
        fin_cases i <;> simp
      rw [this, hz]
      simp
    · rw [div_self]
      have : N - 1 ≠ 0 := by omega
      exact_mod_cast this

/-- **C108.** In between, the points of a spring keep the distance `radius` from the segment: the `k`-th one is at this distance from the
point at the fraction `k/(N-1)` of the segment; in the first and the last tenth it is that point. -/
theorem C108_width {N : ℕ} {radius turns : ℝ} (hr : 0 ≤ radius) {a b : V3} {pts : List (Fin 3 → Flt)} (h : IsSpring N radius turns a b pts)
    {k : ℕ} (hk : k < N) {t : ℝ} (ht : t = (k : ℝ) / (N - 1 : ℕ)) :
    ∃ p : V3, pts[k]? = some (fun i => some (p i)) ∧ dist3 (a + t • (b - a)) p = if t < 1 / 10 ∨ 9 / 10 < t then 0 else radius := by
  obtain ⟨hl, R, hR, hz, hp⟩ := h
  obtain ⟨ρ, hρ⟩ : ∃ ρ, ρ = if t < 1 / 10 ∨ 9 / 10 < t then 0 else radius := ⟨_, rfl⟩
  have h0 : 0 ≤ ρ := by rw [hρ]; split <;> [exact le_refl _; exact hr]
  refine ⟨_, hp k hk t ht ρ ?_ ?_, ?_⟩
  · intro h
    rw [hρ, if_neg]
    push Not
    exact h
  · intro h
    rw [hρ, if_pos h]
  · rw [← hρ]
    obtain ⟨w, hw⟩ : ∃ w : V3, w = ![ρ * cos (2 * π * turns * t), ρ * sin (2 * π * turns * t), 0] := ⟨_, rfl⟩
    have hsum : (![ρ * cos (2 * π * turns * t), ρ * sin (2 * π * turns * t), t * dist3 a b] : V3) = w + t • ![0, 0, dist3 a b] := by
      rw [hw]
      funext i
      fin_cases i <;> simp
    rw [hsum, mulVec_add, mulVec_smul, hz]
    have hO : Rᵀ * R = 1 := by
      have := (mem_specialOrthogonalGroup_iff.1 hR).1
      exact (mem_orthogonalGroup_iff' _ _).1 this
    have hn : (R *ᵥ w) ⬝ᵥ (R *ᵥ w) = ρ ^ 2 := by
      rw [dotProduct_mulVec, vecMul_mulVec, hO, vecMul_one, hw]
      simp only [dotProduct, Fin.sum_univ_three, cons_val_zero, cons_val_one, cons_val]
      have := cos_sq_add_sin_sq (2 * π * turns * t)
      linear_combination ρ ^ 2 * this
    unfold dist3
    simp only [Pi.add_apply, Pi.smul_apply, Pi.sub_apply, smul_eq_mul]
    rw [dotProduct, Fin.sum_univ_three] at hn
    rw [← sqrt_sq h0, ← hn]
    congr 1
    ring

/-- **C108 is false** for springs that hang straight down: for the pendulum at rest in its stable equilibrium no point of a spring is
drawn. -/
theorem C108_counterexample_springs {N : ℕ} (radius : ℝ) (m : ℕ) (l : ℝ) (hl : 0 < l) :
    ∀ p ∈ springPoints (helix N radius m) [![0, 0, -l], ![0, 0, -(2 * l)]], ∀ i, p i = none := by
  rw [springPoints_eq]
  intro p hp
  simp only [List.dropLast_cons₂, List.dropLast_singleton, List.zipWith_cons_cons, List.zipWith_nil_left, List.flatten_cons, List.flatten_nil,
    List.append_nil, List.mem_append] at hp
  rcases hp with hp | hp
  · exact springPiece_bad (.inr (by simp [StraightDown, hl])) p hp
  · exact springPiece_bad (.inr (by simp [StraightDown, hl])) p hp

variable {T n d : ℕ}

theorem pyBind_ok {α β : Type} {x : Py α} {f : α → Py β} {b : β} (h : (x >>= f) = .ok b) : ∃ a, x = .ok a ∧ f a = .ok b := by
  cases x with
  | error e => cases h
  | ok a => exact ⟨a, rfl, h⟩

theorem pyBind_of {α β : Type} {x : Py α} {f : α → Py β} {r : Py β} {a : α} (h : x = .ok a) (h' : f a = r) : (x >>= f) = r := by
  rw [h]
  exact h'

/-- **C108.** Frame `i` marks every body at its position at time `i`. -/
theorem C108_markers (q : Fin T → Fin n → Fin d → ℝ) {i : ℕ} (hi : i < T) : (animUpdate q i).pts = List.ofFn fun j => [q ⟨i, hi⟩ j] := by
  refine congrArg List.ofFn (funext fun j => ?_)
  have hl : (((List.ofFn fun t => q t j).take (i + 1)).drop (i - 150)).length = i + 1 - (i - 150) := by
    simp only [List.length_drop, List.length_take, List.length_ofFn]
    omega
  apply List.ext_getElem?
  intro k
  rw [List.getElem?_drop, hl, List.getElem?_drop, List.getElem?_take]
  cases k with
  | zero =>
    rw [if_pos (by omega), show i - 150 + (i + 1 - (i - 150) - 1 + 0) = i by omega, List.getElem?_ofFn, dif_pos hi]
    rfl
  | succ k =>
    rw [if_neg (by omega)]
    rfl

/-- **C108.** The trail of a body in frame `i` are its positions at the last 151 times up to `i` (all of them if there are fewer), in
order. -/
theorem C108_trails (q : Fin T → Fin n → Fin d → ℝ) {i : ℕ} (hi : i < T) (j : Fin n) :
    ∃ l, (animUpdate q i).trails[j.1]? = some l ∧ l.length = min (i + 1) 151 ∧
      ∀ k (hk : k < l.length) (hT : i - 150 + k < T), l[k] = q ⟨i - 150 + k, hT⟩ j := by
  refine ⟨((List.ofFn fun t => q t j).take (i + 1)).drop (i - 150), ?_, ?_, ?_⟩
  · unfold animUpdate
    simp
  · simp only [List.length_drop, List.length_take, List.length_ofFn]
    omega
  · intro k hk hT
    simp

/-- **C108.** (partial) Frame `i` of the double spring pendulum: the bodies at their positions at time `i`, with the trails of `Animation`,
and per body a spring with ten turns from the body before (the origin for the first one) to its position; only springs that hang straight
down or have length zero are missing. -/
theorem C108_frames_partial (r : ℝ) (q : Fin T → Fin n → V3) {i : ℕ} (hi : i < T) :
    (coupledUpdate r q i hi).pts = List.ofFn (fun j => [q ⟨i, hi⟩ j]) ∧ (coupledUpdate r q i hi).trails = (animUpdate q i).trails ∧
    ∃ pieces : Fin n → List (Fin 3 → Flt), (coupledUpdate r q i hi).springs = (List.ofFn pieces).flatten ∧
      ∀ (j : Fin n) (a : V3), (j.1 = 0 → a = 0) → (∀ k : Fin n, k.1 + 1 = j.1 → a = q ⟨i, hi⟩ k) →
        (a ≠ q ⟨i, hi⟩ j → ¬StraightDown (q ⟨i, hi⟩ j - a) → IsSpring 200 r 10 a (q ⟨i, hi⟩ j) (pieces j)) ∧
        (a = q ⟨i, hi⟩ j ∨ StraightDown (q ⟨i, hi⟩ j - a) → ∀ p ∈ pieces j, ∀ c, p c = none) := by
  refine ⟨C108_markers q hi, rfl, ?_⟩
  obtain ⟨ps, h1, h2, h3⟩ := C108_springs_partial (N := 200) (by omega) r 10 (List.ofFn (q ⟨i, hi⟩))
  rw [List.length_ofFn] at h2
  refine ⟨fun j => ps[j.1]'(by omega), ?_, ?_⟩
  · unfold coupledUpdate
    simp only
    rw [show (10 : ℝ) = ((10 : ℕ) : ℝ) by norm_num, h1]
    congr 1
    apply List.ext_getElem
    · simp [h2]
    · intro k _ _
      simp
  · intro j a h0 hs
    have := h3 j.1 (ps[j.1]'(by omega)) a (q ⟨i, hi⟩ j) (by simp) ?_ (by simp)
    · simpa using this
    · obtain ⟨j, hj⟩ := j
      cases j with
      | zero => simp [h0 rfl]
      | succ k =>
        rw [List.getElem?_cons_succ, List.getElem?_ofFn, dif_pos (by omega), hs ⟨k, by omega⟩ rfl]

theorem pyMin_ok {l : List ℝ} {m : ℝ} : pyMin l = .ok m ↔ m ∈ l ∧ ∀ x ∈ l, m ≤ x := by
  unfold pyMin
  cases h : l.min? with
  | none =>
    rw [List.min?_eq_none_iff] at h
    subst h
    simp
  | some m' =>
    rw [List.min?_eq_some_iff] at h
    simp only [Except.ok.injEq]
    constructor
    · rintro rfl
      exact h
    · rintro ⟨h1, h2⟩
      exact le_antisymm (h.2 _ h1) (h2 _ h.1)

theorem pyMax_ok {l : List ℝ} {m : ℝ} : pyMax l = .ok m ↔ m ∈ l ∧ ∀ x ∈ l, x ≤ m := by
  unfold pyMax
  cases h : l.max? with
  | none =>
    rw [List.max?_eq_none_iff] at h
    subst h
    simp
  | some m' =>
    rw [List.max?_eq_some_iff] at h
    simp only [Except.ok.injEq]
    constructor
    · rintro rfl
      exact h
    · rintro ⟨h1, h2⟩
      exact le_antisymm (h2 _ h.1) (h.2 _ h1)

theorem pyMin_ne_nil {l : List ℝ} (h : l ≠ []) : ∃ m, pyMin l = .ok m := by
  unfold pyMin
  cases h' : l.min? with
  | none => exact absurd (List.min?_eq_none_iff.1 h') h
  | some m => exact ⟨m, rfl⟩

theorem pyMax_ne_nil {l : List ℝ} (h : l ≠ []) : ∃ m, pyMax l = .ok m := by
  unfold pyMax
  cases h' : l.max? with
  | none => exact absurd (List.max?_eq_none_iff.1 h') h
  | some m => exact ⟨m, rfl⟩

theorem mem_coordValues {q : Fin T → Fin n → Fin d → ℝ} {c : Fin d} {x : ℝ} : x ∈ coordValues q c ↔ ∃ t j, x = q t j c := by
  unfold coordValues
  simp only [List.mem_flatten, List.mem_ofFn]
  constructor
  · rintro ⟨l, ⟨t, rfl⟩, hx⟩
    obtain ⟨j, rfl⟩ := List.mem_ofFn.1 hx
    exact ⟨t, j, rfl⟩
  · rintro ⟨t, j, rfl⟩
    exact ⟨_, ⟨t, rfl⟩, List.mem_ofFn.2 ⟨j, rfl⟩⟩

theorem mapM_finRange {α : Type} {f : Fin d → Py α} {l : List α} (h : (List.finRange d).mapM f = .ok l) :
    ∃ g : Fin d → α, (∀ c, f c = .ok (g c)) ∧ l = List.ofFn g := by
  have key : ∀ (cs : List (Fin d)) (l : List α), cs.mapM f = .ok l → l.length = cs.length ∧ ∀ (k : ℕ) c x, cs[k]? = some c → l[k]? = some x → f c = .ok x := by
    intro cs
    induction cs with
    | nil => intro l h; cases h; simp
    | cons c t ih =>
      intro l h
      rw [List.mapM_cons] at h
      cases hc : f c with
      | error e => rw [hc] at h; cases h
      | ok y =>
        rw [hc] at h
        cases ht : t.mapM f with
        | error e =>
          have h : (t.mapM f >>= fun ys => pure (y :: ys)) = Except.ok l := h
          rw [ht] at h; cases h
        | ok ys =>
          have h : (t.mapM f >>= fun ys => pure (y :: ys)) = Except.ok l := h
          rw [ht] at h
          cases h
          obtain ⟨h1, h2⟩ := ih ys ht
          refine ⟨by simp [h1], ?_⟩
          intro k c' x hk hx
          cases k with
          | zero => simp at hk hx; rw [← hk, ← hx, hc]
          | succ k => simp at hk hx; exact h2 k c' x hk hx
  obtain ⟨h1, h2⟩ := key _ _ h
  rw [List.length_finRange] at h1
  refine ⟨fun c => l[c.1]'(by omega), fun c => h2 c.1 c _ (by simp) (by simp), ?_⟩
  apply List.ext_getElem
  · simp [h1]
  · intro k hk hk'
    simp

theorem mapM_finRange_ok {α : Type} {f : Fin d → Py α} (g : Fin d → α) (h : ∀ c, f c = .ok (g c)) :
    (List.finRange d).mapM f = .ok (List.ofFn g) := by
  have key : ∀ cs : List (Fin d), cs.mapM f = .ok (cs.map g) := by
    intro cs
    induction cs with
    | nil => rfl
    | cons c t ih => rw [List.mapM_cons, h c]; show (t.mapM f >>= fun ys => pure (g c :: ys)) = _; rw [ih]; rfl
  rw [key, List.ofFn_eq_map]

/-- **C108.** All positions at all times lie within the limits of the axes. -/
theorem C108_limits (q : Fin T → Fin n → Fin d → ℝ) {lo hi : ℝ} (h : animInit q = .ok (lo, hi)) (t : Fin T) (j : Fin n) (c : Fin d) :
    lo ≤ q t j c ∧ q t j c ≤ hi := by
  unfold animInit at h
  obtain ⟨_, _, h⟩ := pyBind_ok h
  obtain ⟨mins, h1, h⟩ := pyBind_ok h
  obtain ⟨maxs, h2, h⟩ := pyBind_ok h
  obtain ⟨lo', h3, h⟩ := pyBind_ok h
  obtain ⟨hi', h4, h⟩ := pyBind_ok h
  obtain ⟨_, _, h⟩ := pyBind_ok h
  injection h with h
  injection h with e1 e2
  subst e1 e2
  obtain ⟨a, ha, rfl⟩ := mapM_finRange h1
  obtain ⟨b, hb, rfl⟩ := mapM_finRange h2
  have ha' := (pyMin_ok.1 (ha c)).2 _ (mem_coordValues.2 ⟨t, j, rfl⟩)
  have hb' := (pyMax_ok.1 (hb c)).2 _ (mem_coordValues.2 ⟨t, j, rfl⟩)
  have m1 := (pyMin_ok.1 h3).2 (a c - 1 / 10 * (b c - a c)) (by
    rw [List.mem_iff_getElem]
    exact ⟨c.1, by simp, by simp⟩)
  have m2 := (pyMax_ok.1 h4).2 (b c + 1 / 10 * (b c - a c)) (by
    rw [List.mem_iff_getElem]
    exact ⟨c.1, by simp, by simp⟩)
  constructor <;> linarith

/-- **C108.** An animation can be made exactly of trajectories in two or three dimensions, with at least one frame, and with one to ten
bodies. -/
theorem C108_init (q : Fin T → Fin n → Fin d → ℝ) : (∃ r, animInit q = .ok r) ↔ (d = 2 ∨ d = 3) ∧ 0 < T ∧ 0 < n ∧ n ≤ 10 := by
  constructor
  · rintro ⟨⟨lo, hi⟩, h⟩
    unfold animInit at h
    obtain ⟨_, h0, h⟩ := pyBind_ok h
    obtain ⟨mins, h1, h⟩ := pyBind_ok h
    obtain ⟨maxs, h2, h⟩ := pyBind_ok h
    obtain ⟨lo', h3, h⟩ := pyBind_ok h
    obtain ⟨hi', h4, h⟩ := pyBind_ok h
    obtain ⟨_, h5, h⟩ := pyBind_ok h
    have hd : d = 2 ∨ d = 3 := by
      by_contra hd
      rw [animInit.raiseIfA, if_pos (by simpa using hd)] at h0
      cases h0
    have hn : n ≤ 10 := by
      by_contra hn
      rw [animInit.raiseIfA, if_pos (by simpa using hn)] at h5
      cases h5
    obtain ⟨a, ha, rfl⟩ := mapM_finRange h1
    obtain ⟨t, j, _⟩ := mem_coordValues.1 (pyMin_ok.1 (ha ⟨0, by omega⟩)).1
    exact ⟨hd, by have := t.2; omega, by have := j.2; omega, hn⟩
  · rintro ⟨hd, hT, hn, hn'⟩
    have hne : ∀ c, coordValues q c ≠ [] := by
      intro c h
      have := (mem_coordValues (q := q) (c := c)).2 ⟨⟨0, hT⟩, ⟨0, hn⟩, rfl⟩
      rw [h] at this
      cases this
    choose a ha using fun c => pyMin_ne_nil (hne c)
    choose b hb using fun c => pyMax_ne_nil (hne c)
    have hd0 : 0 < d := by omega
    obtain ⟨lo, hlo⟩ := pyMin_ne_nil (l := List.zipWith (fun a b => a - 1 / 10 * (b - a)) (List.ofFn a) (List.ofFn b)) (by
      intro h
      have := congrArg List.length h
      simp at this
      omega)
    obtain ⟨hi, hhi⟩ := pyMax_ne_nil (l := List.zipWith (fun a b => b + 1 / 10 * (b - a)) (List.ofFn a) (List.ofFn b)) (by
      intro h
      have := congrArg List.length h
      simp at this
      omega)
    refine ⟨(lo, hi), ?_⟩
    unfold animInit
    rw [animInit.raiseIfA, if_neg (by rcases hd with h | h <;> simp [h])]
    refine pyBind_of rfl (pyBind_of (mapM_finRange_ok a ha) (pyBind_of (mapM_finRange_ok b hb) (pyBind_of hlo (pyBind_of hhi ?_))))
    rw [animInit.raiseIfA, if_neg (by simpa using hn')]
    rfl

/-- **C108.** `animate` turns a trajectory of states of the phase space into the positions of the bodies exactly if there are frames and
the positions are points of space; body `j` then has the coordinates `3j`, `3j+1`, `3j+2` of the state. -/
theorem C108_positions {D : ℕ} (z : Fin T → Fin D → ℝ) :
    ((∃ r, animPositions z = .ok r) ↔ 0 < T ∧ 6 ∣ D) ∧
    ∀ n q, animPositions z = .ok ⟨n, q⟩ → 6 * n = D ∧ ∀ t (j : Fin n) (c : Fin 3) (k : Fin D), k.1 = 3 * j + c → q t j c = z t k := by
  unfold animPositions
  split
  · rename_i h
    exact ⟨⟨fun ⟨r, hr⟩ => (nomatch hr), fun h' => by omega⟩, fun n q h => by cases h⟩
  · rename_i h
    split
    · rename_i h'
      exact ⟨⟨fun ⟨r, hr⟩ => (nomatch hr), fun h'' => by omega⟩, fun n q h => by cases h⟩
    · rename_i h'
      refine ⟨⟨fun _ => by omega, fun _ => ⟨_, rfl⟩⟩, ?_⟩
      intro n q hq
      injection hq with hq
      injection hq with e1 e2
      subst e1
      have e2 := eq_of_heq e2
      subst e2
      refine ⟨by omega, ?_⟩
      intro t j c k hk
      exact congrArg (z t) (Fin.ext hk.symm)

/-- **C108 is false** for the harmonic oscillator: `SHO().animate()` always raises `ValueError`. -/
theorem C108_counterexample_sho (z : Fin T → Fin 2 → ℝ) : animPositions z = .error .value := by simp [animPositions]

/-- **C108 is false** for more than ten bodies: there are only ten colours. -/
theorem C108_counterexample_bodies (q : Fin T → Fin 11 → V3) (hT : 0 < T) : animInit q = .error .value := by
  cases h : animInit q with
  | ok r =>
    have := (C108_init q).1 ⟨r, h⟩
    omega
  | error e =>
    have hne : ∀ c, coordValues q c ≠ [] := by
      intro c h
      have := (mem_coordValues (q := q) (c := c)).2 ⟨⟨0, hT⟩, ⟨0, by omega⟩, rfl⟩
      rw [h] at this
      cases this
    choose a ha using fun c => pyMin_ne_nil (hne c)
    choose b hb using fun c => pyMax_ne_nil (hne c)
    obtain ⟨lo, hlo⟩ := pyMin_ne_nil (l := List.zipWith (fun a b => a - 1 / 10 * (b - a)) (List.ofFn a) (List.ofFn b)) (by simp)
    obtain ⟨hi, hhi⟩ := pyMax_ne_nil (l := List.zipWith (fun a b => b + 1 / 10 * (b - a)) (List.ofFn a) (List.ofFn b)) (by simp)
    rw [← h]
    unfold animInit
    exact pyBind_of rfl (pyBind_of (mapM_finRange_ok a ha) (pyBind_of (mapM_finRange_ok b hb) (pyBind_of hlo (pyBind_of hhi rfl))))

/-- A double pendulum that swings: both springs are drawn. -/
example : ∃ qs : List V3, qs.length = 2 ∧ ∃ pieces : List (List (Fin 3 → Flt)), springPoints (helix 200 (1 / 5) 10) qs = pieces.flatten ∧
    pieces.length = 2 ∧ ∀ (k : ℕ) pts a b, pieces[k]? = some pts → ((0 : V3) :: qs)[k]? = some a → qs[k]? = some b → IsSpring 200 (1 / 5) 10 a b pts := by
  refine ⟨[![1, 0, -1], ![1, 1, -2]], rfl, ?_⟩
  obtain ⟨pieces, h1, h2, h3⟩ := C108_springs_partial (N := 200) (by omega) (1 / 5) 10 [![1, 0, -1], ![1, 1, -2]]
  refine ⟨pieces, by simpa using h1, h2, ?_⟩
  intro k pts a b hp ha hb
  have := (h3 k pts a b hp ha hb).1
  match k with
  | 0 =>
    simp only [List.getElem?_cons_zero, Option.some.injEq] at ha hb
    subst ha hb
    simpa using this (fun h => by simpa using congrFun h 0) (by simp [StraightDown])
  | 1 =>
    simp only [List.getElem?_cons_succ, List.getElem?_cons_zero, Option.some.injEq] at ha hb
    subst ha hb
    simpa using this (fun h => by simpa using congrFun h 1) (by simp [StraightDown])
  | k + 2 => simp at hb

/-- Limits of a trajectory with two frames and one body. -/
example : ∃ lo hi : ℝ, animInit (T := 2) (n := 1) (d := 3) (fun t _ _ => t.1) = .ok (lo, hi) := by
  obtain ⟨⟨lo, hi⟩, h⟩ := (C108_init (T := 2) (n := 1) (d := 3) (fun t _ _ => t.1)).2 (by omega)
  exact ⟨lo, hi, h⟩

end Verif
