import Verif.Lemmas.NullSpace
import Mathlib.Tactic.IntervalCases

/-!
# The numerical routines: rank doubling, retries, thresholds (C26–C29)
-/
namespace Verif
open List
variable {R : Type} [CommRing R]

/-! ### C26 -/

section
variable {rows : ℕ} {upto : ℕ → Py (DMat R)}

/-- More fuel does not change the outcome. -/
theorem krylovLoop_mono {fuel r found : ℕ} {Q : Option (DMat R)} {out : Py (DMat R)} (h : krylovLoop rows upto fuel r found Q = some out)
    {fuel' : ℕ} (hf : fuel ≤ fuel') : krylovLoop rows upto fuel' r found Q = some out := by
  induction fuel generalizing r found Q fuel' with
  | zero => simp [krylovLoop] at h
  | succ n ih =>
    obtain ⟨m, rfl⟩ : ∃ m, fuel' = m + 1 := ⟨fuel' - 1, by omega⟩
    rw [krylovLoop] at h ⊢
    dsimp only at h ⊢
    split_ifs at h ⊢ with h1 h2
    · exact h
    · cases hu : upto (r * 2) with
      | error e => simpa [hu] using h
      | ok Q' => simp only [hu] at h ⊢; exact ih h (by omega)
    · exact h

theorem krylovLoop_terminates {r : ℕ} (hrows : 1 ≤ rows) (hr : 1 ≤ r) : ∀ (fuel found : ℕ) (Q : Option (DMat R)),
    2000000000 < rows * r * 2 ^ (fuel + 1) → ∃ out, krylovLoop rows upto (fuel + 1) r found Q = some out := by
  intro fuel
  induction fuel generalizing r with
  | zero =>
    intro found Q h
    rw [krylovLoop]
    dsimp only
    split_ifs with h1 h2
    · exact ⟨_, rfl⟩
    · exact absurd h (by rw [pow_one, mul_assoc]; exact h2)
    · exact ⟨_, rfl⟩
  | succ n ih =>
    intro found Q h
    rw [krylovLoop]
    dsimp only
    split_ifs with h1 h2
    · exact ⟨_, rfl⟩
    · cases hu : upto (r * 2) with
      | error e => exact ⟨_, rfl⟩
      | ok Q' => exact ih (r := r * 2) (by omega) _ _ (by rw [show rows * (r * 2) * 2 ^ (n + 1) = rows * r * 2 ^ (n + 1 + 1) by ring]; exact h)
    · exact ⟨_, rfl⟩

/-- The rounds the loop went through. -/
theorem krylovLoop_rounds {fuel r : ℕ} {Q : Option (DMat R)} {out : Py (DMat R)} (h : krylovLoop rows upto fuel r r Q = some out) :
    (rows * (r * 2) > 2000000000 ∧ out = readQ Q) ∨ ∃ k, 1 ≤ k ∧ rows * (r * 2 ^ k) ≤ 2000000000 ∧
      (∀ j, 1 ≤ j → j < k → ∃ Q', upto (r * 2 ^ j) = .ok Q' ∧ Q'.cols = r * 2 ^ j) ∧
      ((∃ e, upto (r * 2 ^ k) = .error e ∧ out = .error e) ∨ ∃ Q', upto (r * 2 ^ k) = .ok Q' ∧ out = .ok Q' ∧
        (Q'.cols ≠ r * 2 ^ k ∨ rows * (r * 2 ^ (k + 1)) > 2000000000)) := by
  induction fuel generalizing r Q with
  | zero => simp [krylovLoop] at h
  | succ n ih =>
    rw [krylovLoop, if_pos rfl] at h
    simp only at h
    split_ifs at h with h2
    · exact .inl ⟨h2, by injection h with h; exact h.symm⟩
    · refine .inr ?_
      have hle : rows * (r * 2) ≤ 2000000000 := by omega
      cases hu : upto (r * 2) with
      | error e =>
        rw [hu] at h
        injection h with h
        exact ⟨1, le_refl _, by simpa using hle, by omega, .inl ⟨e, by simpa using hu, h.symm⟩⟩
      | ok Q' =>
        rw [hu] at h
        simp only at h
        by_cases hc : Q'.cols = r * 2
        · rw [hc] at h
          rcases ih h with ⟨h3, h4⟩ | ⟨k, hk, hk2, hk3, hk4⟩
          · exact ⟨1, le_refl _, by simpa using hle, by omega,
              .inr ⟨Q', by simpa using hu, h4, .inr (by simpa [pow_succ, mul_assoc] using h3)⟩⟩
          · have e : ∀ j, r * 2 * 2 ^ j = r * 2 ^ (j + 1) := fun j => by ring
            simp only [e] at hk2 hk3 hk4
            refine ⟨k + 1, by omega, hk2, fun j h1 h2 => ?_, hk4⟩
            by_cases hj : j = 1
            · subst hj; exact ⟨Q', by simpa using hu, by simpa using hc⟩
            · obtain ⟨i, rfl⟩ : ∃ i, j = i + 1 := ⟨j - 1, by omega⟩
              exact hk3 i (by omega) (by omega)
        · have h3 : krylovLoop rows upto n (r * 2) Q'.cols (some Q') = some out := h
          cases n with
          | zero => simp [krylovLoop] at h3
          | succ n =>
            rw [krylovLoop, if_neg hc] at h3
            injection h3 with h3
            exact ⟨1, le_refl _, by simpa using hle, by omega, .inr ⟨Q', by simpa using hu, h3.symm, .inl (by simpa using hc)⟩⟩

/-- **C26.** The rank doubling loop stops after at most 29 rounds. -/
theorem C26_terminates (hrows : 1 ≤ rows) (upto : ℕ → Py (DMat R)) {fuel : ℕ} (hf : 29 ≤ fuel) :
    ∃ out, krylovSolve rows upto fuel = some out ∧ krylovSolve rows upto 29 = some out := by
  rw [krylovSolve, krylovSolve]
  split_ifs with h
  · exact ⟨_, rfl, rfl⟩
  · obtain ⟨out, ho⟩ := krylovLoop_terminates (rows := rows) (upto := upto) (r := 5) hrows (by omega) 28 5 none (by norm_num; omega)
    exact ⟨out, krylovLoop_mono ho hf, ho⟩

/-- **C26.** The variable `Q` is never read before it is set: whatever is returned is the outcome of a round, and an
error is the error of a round or the refusal for lack of memory, raised before any work. -/
theorem C26_never_unbound {fuel : ℕ} {out : Py (DMat R)} (h : krylovSolve rows upto fuel = some out) :
    (out = .error .exception ∧ rows * 10 > 2000000000) ∨ ∃ r, out = upto r := by
  rw [krylovSolve] at h
  split_ifs at h with h1
  · exact .inl ⟨by injection h with h; exact h.symm, by omega⟩
  · refine .inr ?_
    rcases krylovLoop_rounds h with ⟨h2, -⟩ | ⟨k, -, -, -, h3⟩
    · omega
    · rcases h3 with ⟨e, h4, h5⟩ | ⟨Q', h4, h5, -⟩
      · exact ⟨_, h5.trans h4.symm⟩
      · exact ⟨_, h5.trans h4.symm⟩

/-- **C26.** If every round with rank limit `r` finds `min r nullity` solutions, the solver returns `nullity` solutions, or
the memory guard fired: then it returns fewer, and twice as many columns would not fit. -/
theorem C26_complete {fuel nullity : ℕ} {out : Py (DMat R)} (hmem : rows * 10 ≤ 2000000000)
    (hround : ∀ r, ∃ Q, upto r = .ok Q ∧ Q.cols = min r nullity) (h : krylovSolve rows upto fuel = some out) :
    ∃ Q, out = .ok Q ∧ (Q.cols = nullity ∨ Q.cols < nullity ∧ rows * (2 * Q.cols) > 2000000000) := by
  rw [krylovSolve] at h
  rw [if_neg (by omega)] at h
  rcases krylovLoop_rounds h with ⟨h2, -⟩ | ⟨k, -, -, -, h3⟩
  · omega
  · obtain ⟨Q, hQ, hc⟩ := hround (5 * 2 ^ k)
    rcases h3 with ⟨e, h4, -⟩ | ⟨Q', h4, h5, h6⟩
    · rw [hQ] at h4; simp at h4
    · obtain rfl : Q = Q' := by rw [hQ] at h4; injection h4
      refine ⟨Q, h5, ?_⟩
      by_cases hn : nullity ≤ 5 * 2 ^ k
      · exact .inl (by rw [hc]; omega)
      · have hc' : Q.cols = 5 * 2 ^ k := by rw [hc]; omega
        rcases h6 with h6 | h6
        · exact absurd hc' h6
        · refine .inr ⟨by omega, ?_⟩
          rw [hc']
          rw [show 2 * (5 * 2 ^ k) = 5 * 2 ^ (k + 1) by ring]
          exact h6

/-- **C26.** If every round that finds fewer than `r` solutions has found an orthonormal basis of the null space, so is the
result, unless the memory guard fired. -/
theorem C26_basis [StarRing R] {n fuel : ℕ} {F : List R → Prop} {Q : DMat R} (hmem : rows * 10 ≤ 2000000000)
    (hround : ∀ r Q, upto r = .ok Q → Q.cols ≠ r → OrthoBasis n Q F) (h : krylovSolve rows upto fuel = some (.ok Q)) :
    OrthoBasis n Q F ∨ rows * (2 * Q.cols) > 2000000000 := by
  rw [krylovSolve] at h
  rw [if_neg (by omega)] at h
  rcases krylovLoop_rounds h with ⟨h2, -⟩ | ⟨k, -, -, -, h3⟩
  · omega
  · rcases h3 with ⟨e, -, h4⟩ | ⟨Q', h4, h5, h6⟩
    · simp at h4
    · injection h5 with h5
      subst h5
      by_cases hc : Q.cols = 5 * 2 ^ k
      · right
        rcases h6 with h6 | h6
        · exact absurd hc h6
        · rw [hc, show 2 * (5 * 2 ^ k) = 5 * 2 ^ (k + 1) by ring]
          exact h6
      · exact .inl (hround _ _ h4 hc)

end

/-- Rounds as **C26** assumes: nullity `10`, the boundary where a second round is needed. -/
example : ∃ Q, krylovSolve 1000 (fun r => .ok (DMat.zero (R := ℤ) 1000 (min r 10))) 29 = some (.ok Q) ∧ Q.cols = 10 :=
  ⟨DMat.zero 1000 10, rfl, rfl⟩

/-! ### C27 -/

/-- The loss satisfies the convergence test. -/
def Conv (tol : ℝ) (l : Fl) : Prop := ∃ x, l = some x ∧ Real.sqrt x < tol

/-- The loss satisfies the divergence test in iteration `i`. -/
def Div (l : Fl) (i : ℕ) : Prop := ∃ x, l = some x ∧ x > 2e3 ∧ i > 100

/-- The first iteration that ends the loop decides how it ends. -/
theorem descentFrom_spec (tol : ℝ) (loss : ℕ → Fl) (k i : ℕ) :
    match descentFrom tol loss k i with
    | .converged => ∃ m, i ≤ m ∧ m < i + k ∧ Conv tol (loss m) ∧ ∀ j, i ≤ j → j < m → ¬ Conv tol (loss j) ∧ ¬ Div (loss j) j
    | .diverged => ∃ m, i ≤ m ∧ m < i + k ∧ Div (loss m) m ∧ ¬ Conv tol (loss m) ∧ ∀ j, i ≤ j → j < m → ¬ Conv tol (loss j) ∧ ¬ Div (loss j) j
    | .exhausted => ∀ j, i ≤ j → j < i + k → ¬ Conv tol (loss j) ∧ ¬ Div (loss j) j := by
  induction k generalizing i with
  | zero => simp only [descentFrom]; omega
  | succ k ih =>
    have step : (¬ Conv tol (loss i) ∧ ¬ Div (loss i) i) → descentFrom tol loss (k + 1) i = descentFrom tol loss k (i + 1) →
        match descentFrom tol loss (k + 1) i with
        | .converged => ∃ m, i ≤ m ∧ m < i + (k + 1) ∧ Conv tol (loss m) ∧ ∀ j, i ≤ j → j < m → ¬ Conv tol (loss j) ∧ ¬ Div (loss j) j
        | .diverged => ∃ m, i ≤ m ∧ m < i + (k + 1) ∧ Div (loss m) m ∧ ¬ Conv tol (loss m) ∧ ∀ j, i ≤ j → j < m → ¬ Conv tol (loss j) ∧ ¬ Div (loss j) j
        | .exhausted => ∀ j, i ≤ j → j < i + (k + 1) → ¬ Conv tol (loss j) ∧ ¬ Div (loss j) j := by
      intro hi e
      rw [e]
      have := ih (i + 1)
      have ext : ∀ m, (∀ j, i + 1 ≤ j → j < m → ¬ Conv tol (loss j) ∧ ¬ Div (loss j) j) →
          ∀ j, i ≤ j → j < m → ¬ Conv tol (loss j) ∧ ¬ Div (loss j) j := by
        intro m hm j h1 h2
        by_cases hj : j = i
        · subst hj; exact hi
        · exact hm j (by omega) h2
      cases hd : descentFrom tol loss k (i + 1) with
      | converged =>
        rw [hd] at this
        obtain ⟨m, h1, h2, h3, h4⟩ := this
        exact ⟨m, by omega, by omega, h3, ext m h4⟩
      | diverged =>
        rw [hd] at this
        obtain ⟨m, h1, h2, h3, h4, h5⟩ := this
        exact ⟨m, by omega, by omega, h3, h4, ext m h5⟩
      | exhausted =>
        rw [hd] at this
        exact ext _ fun j h1 h2 => this j h1 (by omega)
    cases hl : loss i with
    | none => exact step ⟨by rintro ⟨x, hx, -⟩; simp [hl] at hx, by rintro ⟨x, hx, -⟩; simp [hl] at hx⟩ (by rw [descentFrom, hl])
    | some l =>
      by_cases hc : Real.sqrt l < tol
      · rw [descentFrom, hl]
        simp only [if_pos hc]
        exact ⟨i, le_refl _, by omega, ⟨l, hl, hc⟩, by omega⟩
      · have hnc : ¬ Conv tol (loss i) := by
          rintro ⟨x, hx, h⟩
          rw [hl] at hx
          cases hx
          exact hc h
        by_cases hd : l > 2e3 ∧ i > 100
        · rw [descentFrom, hl]
          simp only [if_neg hc, if_pos hd]
          exact ⟨i, le_refl _, by omega, ⟨l, hl, hd⟩, hnc, by omega⟩
        · refine step ⟨hnc, ?_⟩ ?_
          · rintro ⟨x, hx, h⟩
            rw [hl] at hx
            cases hx
            exact hd h
          · rw [descentFrom, hl]
            simp only [if_neg hc, if_neg hd]

/-- The run of attempt `a` ends by divergence. -/
def Diverges (tol : ℝ) (loss : ℕ → Fl) : Prop :=
  ∃ m < 20000, Div (loss m) m ∧ ¬ Conv tol (loss m) ∧ ∀ j < m, ¬ Conv tol (loss j) ∧ ¬ Div (loss j) j

/-- The run of attempt `a` ends by convergence. -/
def Converges (tol : ℝ) (loss : ℕ → Fl) : Prop :=
  ∃ m < 20000, Conv tol (loss m) ∧ ∀ j < m, ¬ Conv tol (loss j) ∧ ¬ Div (loss j) j

theorem descent_iff (tol : ℝ) (loss : ℕ → Fl) :
    (descentFrom tol loss 20000 0 = .converged → Converges tol loss) ∧ (descentFrom tol loss 20000 0 = .diverged → Diverges tol loss) ∧
    (descentFrom tol loss 20000 0 = .exhausted → ∀ j < 20000, ¬ Conv tol (loss j) ∧ ¬ Div (loss j) j) := by
  have := descentFrom_spec tol loss 20000 0
  refine ⟨fun h => ?_, fun h => ?_, fun h => ?_⟩
  · rw [h] at this
    obtain ⟨m, -, h2, h3, h4⟩ := this
    exact ⟨m, by omega, h3, fun j hj => h4 j (by omega) hj⟩
  · rw [h] at this
    obtain ⟨m, -, h2, h3, h4, h5⟩ := this
    exact ⟨m, by omega, h3, h4, fun j hj => h5 j (by omega) hj⟩
  · rw [h] at this
    exact fun j hj => this j (by omega) (by omega)

theorem krylovUptoR_spec (tol : ℝ) (loss : ℕ → ℕ → Fl) (finish : ℕ → Py (DMat R)) (fuel a : ℕ) (lr : ℝ) (hlr : lr < 1e-4 * 3 ^ fuel) :
    ∃ out, krylovUptoR tol loss finish (fuel + 1) a lr = some out ∧ ∃ k ≤ fuel, (∀ j < k, Diverges tol (loss (a + j))) ∧
      ((Converges tol (loss (a + k)) ∧ out = finish (a + k)) ∨
       ((¬ Converges tol (loss (a + k))) ∧ out = .error .convergence)) := by
  induction fuel generalizing a lr with
  | zero =>
    rw [krylovUptoR]
    have hi := descent_iff tol (loss a)
    cases h : descentFrom tol (loss a) 20000 0 with
    | converged => exact ⟨_, rfl, 0, le_refl _, by simp, .inl ⟨hi.1 h, rfl⟩⟩
    | diverged =>
      simp only [if_pos (by simpa using hlr : lr < 1e-4)]
      refine ⟨_, rfl, 0, le_refl _, by simp, .inr ⟨?_, rfl⟩⟩
      rintro ⟨m, hm, h1, h2⟩
      obtain ⟨m', hm', h3, h4, h5⟩ := hi.2.1 h
      rcases lt_trichotomy m m' with hlt | rfl | hlt
      · exact (h5 m hlt).1 h1
      · exact h4 h1
      · exact (h2 m' hlt).2 h3
    | exhausted => exact ⟨_, rfl, 0, le_refl _, by simp, .inr ⟨fun ⟨m, hm, h1, _⟩ => (hi.2.2 h m hm).1 h1, rfl⟩⟩
  | succ n ih =>
    rw [krylovUptoR]
    have hi := descent_iff tol (loss a)
    cases h : descentFrom tol (loss a) 20000 0 with
    | converged => exact ⟨_, rfl, 0, by omega, by simp, .inl ⟨hi.1 h, rfl⟩⟩
    | diverged =>
      by_cases hl : lr < 1e-4
      · simp only [if_pos hl]
        refine ⟨_, rfl, 0, by omega, by simp, .inr ⟨?_, rfl⟩⟩
        rintro ⟨m, hm, h1, h2⟩
        obtain ⟨m', hm', h3, h4, h5⟩ := hi.2.1 h
        rcases lt_trichotomy m m' with hlt | rfl | hlt
        · exact (h5 m hlt).1 h1
        · exact h4 h1
        · exact (h2 m' hlt).2 h3
      · simp only [if_neg hl]
        obtain ⟨out, ho, k, hk, h1, h2⟩ := ih (a + 1) (lr / 3) (by rw [pow_succ] at hlr; linarith)
        refine ⟨out, ho, k + 1, by omega, fun j hj => ?_, ?_⟩
        · cases j with
          | zero => exact hi.2.1 h
          | succ j => rw [show a + (j + 1) = a + 1 + j by omega]; exact h1 j (by omega)
        · rw [show a + (k + 1) = a + 1 + k by omega]; exact h2
    | exhausted => exact ⟨_, rfl, 0, by omega, by simp, .inr ⟨fun ⟨m, hm, h1, _⟩ => (hi.2.2 h m hm).1 h1, rfl⟩⟩

/-- **C27.** Whatever losses are seen, `krylov_constraint_solve_upto_r` makes at most six attempts (learning rates
`1e-2/3^k`, `k ≤ 5`), each of at most 20000 iterations.  It goes on with attempt `k` only after the earlier ones diverged;
it either finishes with the first attempt that converges, or raises `ConvergenceError`. -/
theorem C27_retries_terminate (tol : ℝ) (loss : ℕ → ℕ → Fl) (finish : ℕ → Py (DMat R)) :
    ∃ out, krylovUptoR tol loss finish 6 0 1e-2 = some out ∧ ∃ k ≤ 5, (∀ j < k, Diverges tol (loss j)) ∧
      ((Converges tol (loss k) ∧ out = finish k) ∨ (¬ Converges tol (loss k) ∧ out = .error .convergence)) := by
  obtain ⟨out, h1, k, hk, h2, h3⟩ := krylovUptoR_spec tol loss finish 5 0 1e-2 (by norm_num)
  simp only [zero_add] at h2 h3
  exact ⟨out, h1, k, hk, h2, h3⟩

/-- **C27.** Losses that are all NaN end in `ConvergenceError` (after 20000 iterations, without retries). -/
theorem C27_nan (tol : ℝ) (loss : ℕ → ℕ → Fl) (finish : ℕ → Py (DMat R)) (h : ∀ i, loss 0 i = none) :
    krylovUptoR tol loss finish 6 0 1e-2 = some (.error .convergence) := by
  obtain ⟨out, h1, k, hk, h2, h3⟩ := C27_retries_terminate tol loss finish
  have hk0 : k = 0 := by
    by_contra hne
    obtain ⟨m, -, ⟨x, hx, -⟩, -⟩ := h2 0 (by omega)
    rw [h] at hx; simp at hx
  subst hk0
  rcases h3 with ⟨⟨m, -, ⟨x, hx, -⟩, -⟩, -⟩ | ⟨-, rfl⟩
  · rw [h] at hx; simp at hx
  · exact h1

/-! ### C28 -/

section
variable {𝕜 : Type} [RCLike 𝕜] {C : DMat 𝕜} {d : SVD 𝕜}

/-- **C28.** `orthogonal_complement(C)` has orthonormal columns, whose span contains every solution of `C v = 0`; every
vector `w` of the span satisfies `|C w| ≤ 1e-5 |w|`. -/
theorem C28_orthogonal_complement (h : IsSVD C d) :
    (orthogonalComplement d).rows = C.cols ∧
    (orthogonalComplement d).conjTranspose.mul (orthogonalComplement d) = DMat.one (orthogonalComplement d).cols ∧
    (∀ v : List 𝕜, v.length = C.cols → Null C v →
      ∃ a, a.length = (orthogonalComplement d).cols ∧ (orthogonalComplement d).mulVec a = v) ∧
    ∀ a : List 𝕜, a.length = (orthogonalComplement d).cols →
      nrm2 (C.mulVec ((orthogonalComplement d).mulVec a)) ≤ 1e-5 ^ 2 * nrm2 ((orthogonalComplement d).mulVec a) := by
  have hl := h.len
  have hrl := rank_le_len d
  refine ⟨oc_rows h, oc_orth h, fun v hv hn => (oc_span h hv).2 fun i hi => ?_, fun a ha => ?_⟩
  · have hpos := (rank_spec h (by omega)).1 hi
    have := (null_iff h v).1 hn i (by omega)
    rcases mul_eq_zero.1 this with h0 | h0
    · rw [RCLike.ofReal_eq_zero] at h0
      rw [h0] at hpos
      norm_num at hpos
    · exact h0
  · have hv : ((orthogonalComplement d).mulVec a).length = C.cols := by simp [oc_rows h]
    have hz := (oc_span h hv).1 ⟨a, ha, rfl⟩
    have hy : (d.VH.mulVec ((orthogonalComplement d).mulVec a)).length = C.cols := by simp [h.Vsq.1]
    have hs : ((sigmaMat C.rows C.cols d.S).mulVec (d.VH.mulVec ((orthogonalComplement d).mulVec a))).length = C.rows := by simp [sigmaMat]
    rw [svd_mulVec h, nrm2_unitary (by rw [h.U, h.Usq.2]) (by rw [hs, h.Usq.2])]
    rw [← nrm2_unitary (A := d.VH) (x := (orthogonalComplement d).mulVec a) (by rw [h.V, h.Vsq.2]) (by rw [hv, h.Vsq.2])]
    -- compare coordinates in the right singular basis
    have key : ∀ i < C.rows, ‖((sigmaMat C.rows C.cols d.S).mulVec (d.VH.mulVec ((orthogonalComplement d).mulVec a))).getD i 0‖ ≤
        1e-5 * ‖(d.VH.mulVec ((orthogonalComplement d).mulVec a)).getD i 0‖ := by
      intro i hi
      rw [sigma_mulVec _ _ _ hy hi, norm_mul, RCLike.norm_ofReal]
      by_cases hr : i < d.rank
      · rw [hz i hr, norm_zero, mul_zero, mul_zero]
      · refine mul_le_mul_of_nonneg_right ?_ (norm_nonneg _)
        by_cases hi' : i < d.S.length
        · have h1 : ¬ d.S.getD i 0 > 1e-5 := mt (rank_spec h hi').2 hr
          have h2 : 0 ≤ d.S.getD i 0 := by
            rw [getD_eq_getElem?_getD, getElem?_eq_getElem hi', Option.getD_some]
            exact h.nonneg _ (getElem_mem hi')
          rw [abs_of_nonneg h2]
          exact not_lt.1 h1
        · rw [getD_eq_default _ _ (by omega), abs_zero]; norm_num
    unfold nrm2
    rw [hs, hy, Finset.mul_sum]
    have hsub : ∀ i ∈ Finset.range C.rows, ‖((sigmaMat C.rows C.cols d.S).mulVec (d.VH.mulVec ((orthogonalComplement d).mulVec a))).getD i 0‖ ^ 2 ≤
        1e-5 ^ 2 * ‖(d.VH.mulVec ((orthogonalComplement d).mulVec a)).getD i 0‖ ^ 2 := by
      intro i hi
      rw [← mul_pow]
      exact pow_le_pow_left₀ (norm_nonneg _) (key i (Finset.mem_range.1 hi)) 2
    refine (Finset.sum_le_sum hsub).trans ?_
    rcases le_total C.rows C.cols with hrc | hrc
    · exact Finset.sum_le_sum_of_subset_of_nonneg (Finset.range_mono hrc) fun i _ _ => by positivity
    · obtain ⟨t, ht⟩ := Nat.exists_eq_add_of_le hrc
      rw [ht, Finset.sum_range_add]
      have h0 : ∑ x ∈ Finset.range t, (1e-5 : ℝ) ^ 2 * ‖(d.VH.mulVec ((orthogonalComplement d).mulVec a)).getD (C.cols + x) 0‖ ^ 2 = 0 :=
        Finset.sum_eq_zero fun x _ => by rw [getD_eq_default _ _ (by omega), norm_zero]; ring
      rw [h0, add_zero]

/-- **C28.** The columns are an orthonormal basis of exactly the null space if and only if no singular value lies in
`(0, 1e-5]`. -/
theorem C28_exact_iff (h : IsSVD C d) : OrthoBasis C.cols (orthogonalComplement d) (Null C) ↔ ∀ s ∈ d.S, s = 0 ∨ s > 1e-5 := by
  have hl := h.len
  have hrl := rank_le_len d
  obtain ⟨h1, h2, h3, -⟩ := C28_orthogonal_complement h
  constructor
  · intro hb s hs
    obtain ⟨i, hi, rfl⟩ := mem_iff_getElem.1 hs
    by_contra hcon
    rw [not_or] at hcon
    have hg : d.S.getD i 0 = d.S[i] := by rw [getD_eq_getElem?_getD, getElem?_eq_getElem hi, Option.getD_some]
    have hr : ¬ i < d.rank := fun hlt => hcon.2 (hg ▸ (rank_spec h hi).1 hlt)
    have hic : i < C.cols := by omega
    -- the `i`-th right singular vector is in the span, but not in the null space
    obtain ⟨v, hv⟩ : ∃ v, v = d.VH.conjTranspose.mulVec (DMat.col (DMat.one C.cols) i) := ⟨_, rfl⟩
    have hvl : v.length = C.cols := by rw [hv]; simp [h.Vsq.2]
    have hVv : d.VH.mulVec v = DMat.col (DMat.one C.cols) i := by
      rw [hv, ← DMat.mulVec_mul _ _ _ (by simp [h.Vsq.2]), h.V', DMat.mulVec_one _ (by simp)]
    have hone : ∀ j < C.cols, (DMat.col (DMat.one C.cols : DMat 𝕜) i).getD j 0 = if j = i then 1 else 0 := fun j hj => by
      rw [DMat.getD_col _ (by simpa using hj), DMat.one_e hj hic]
    have hs : ∃ a, a.length = (orthogonalComplement d).cols ∧ (orthogonalComplement d).mulVec a = v :=
      (oc_span h hvl).2 fun j hj => by rw [hVv, hone j (by omega), if_neg (by omega)]
    have hn := (null_iff h v).1 ((hb.span v hvl).2 hs) i (by omega)
    rw [hVv, hone i hic, if_pos rfl, mul_one, RCLike.ofReal_eq_zero, hg] at hn
    exact hcon.1 hn
  · intro hgap
    refine ⟨h1, h2, fun v hv => ⟨h3 v hv, fun hs => (null_iff h v).2 fun i hi => ?_⟩⟩
    have hz := (oc_span h hv).1 hs
    by_cases hr : i < d.rank
    · rw [hz i hr, mul_zero]
    · by_cases hi' : i < d.S.length
      · have hg : d.S.getD i 0 = d.S[i] := by rw [getD_eq_getElem?_getD, getElem?_eq_getElem hi', Option.getD_some]
        rcases hgap _ (getElem_mem hi') with h0 | h0
        · rw [hg, h0]; simp
        · exact absurd ((rank_spec h hi').2 (hg ▸ h0)) hr
      · rw [getD_eq_default d.S _ (by omega)]; simp

/-- **C28.** So `equivariant_basis` is exact (`SolverOK`, the hypothesis of **C21**) when the constraint matrices of at most `3e7`
entries have no singular value in `(0, 1e-5]` and the iterative routine is exact on the larger ones; and it returns if that routine does. -/
theorem C28_solver_ok {W : World} {gens : Gid → GenSet 𝕜} (svd : DMat 𝕜 → SVD 𝕜) (krylov : ℕ → LinOp 𝕜 → Py (DMat 𝕜))
    (hsvd : ∀ (f : Fac) C, f.constraintMatrix W gens = .ok C → C.sem.rows * C.sem.cols ≤ 30000000 →
      IsSVD C.sem (svd C.sem) ∧ ∀ s ∈ (svd C.sem).S, s = 0 ∨ s > 1e-5)
    (hkry : ∀ n (f : Fac) C Q, f.constraintMatrix W gens = .ok C → C.sem.rows * C.sem.cols > 30000000 → krylov n C = .ok Q →
      OrthoBasis C.sem.cols Q (Null C.sem)) :
    SolverOK W gens (nullSpace svd krylov) ∧
    ((∀ n (f : Fac) C, f.constraintMatrix W gens = .ok C → C.sem.rows * C.sem.cols > 30000000 → ∃ Q, krylov n C = .ok Q) →
      SolverRuns W gens (nullSpace svd krylov)) := by
  refine ⟨fun n f C Q hC hQ => ?_, fun hr n f C hC => ?_⟩
  · rw [nullSpace] at hQ
    split at hQ
    · rename_i hl
      exact hkry n f C Q hC hl hQ
    · rename_i hl
      injection hQ with hQ
      rw [← hQ]
      have := hsvd f C hC (by omega)
      exact (C28_exact_iff this.1).2 this.2
  · rw [nullSpace]
    split
    · rename_i hl
      exact hr n f C hC hl
    · exact ⟨_, rfl⟩

/-- A decomposition as **C28** assumes, of the matrix `[[3, 0], [0, 0]]`. -/
example : IsSVD (sigmaMat 2 2 [3, 0] : DMat ℝ) ⟨DMat.one 2, [3, 0], DMat.one 2⟩ where
  Usq := ⟨rfl, rfl⟩
  Vsq := ⟨rfl, rfl⟩
  U := by
    refine DMat.ext rfl rfl fun i j hi hj => ?_
    rw [show (⟨DMat.one 2, [3, 0], DMat.one 2⟩ : SVD ℝ).U = DMat.one 2 from rfl, DMat.mul_one' (DMat.one 2).conjTranspose (n := 2) rfl]
    have hi' : i < 2 := hi
    have hj' : j < 2 := hj
    rw [DMat.conjTranspose_e, DMat.one_e hj' hi']
    refine Eq.trans ?_ (DMat.one_e hi' hj').symm
    simp [eq_comm]
  V := by
    refine DMat.ext rfl rfl fun i j hi hj => ?_
    rw [show (⟨DMat.one 2, [3, 0], DMat.one 2⟩ : SVD ℝ).VH = DMat.one 2 from rfl, DMat.mul_one' (DMat.one 2).conjTranspose (n := 2) rfl]
    have hi' : i < 2 := hi
    have hj' : j < 2 := hj
    rw [DMat.conjTranspose_e, DMat.one_e hj' hi']
    refine Eq.trans ?_ (DMat.one_e hi' hj').symm
    simp [eq_comm]
  len := rfl
  nonneg := by simp
  sorted := by simp
  eq := by
    have e1 : (DMat.one 2).mul (sigmaMat 2 2 [3, 0] : DMat ℝ) = sigmaMat 2 2 [3, 0] := DMat.one_mul' _ rfl
    have e2 : (sigmaMat 2 2 [3, 0] : DMat ℝ).mul (DMat.one 2) = sigmaMat 2 2 [3, 0] := DMat.mul_one' _ rfl
    exact ((congrArg (fun X => X.mul (DMat.one 2)) e1).trans e2).symm

end

/-! ### C29 -/

/-- **C29.** (partial) If the descent converged, with `rank` singular values above `10 tol`, at least one below (or as many
as the rank limit `r`), and a gap by a factor 100, the routine returns `rank` columns of `U`.  Missing: all `n < r` singular
values above the cutoff (`C29_counterexample`). -/
theorem C29_finish_partial (tol : ℝ) (r : ℕ) (U : DMat R) (S : List ℝ) (rank : ℕ) (hS : S.Pairwise (· ≥ ·))
    (hrank : rank ≤ S.length) (habove : ∀ i < rank, S.getD i 0 > 10 * tol) (hbelow : ∀ i, rank ≤ i → i < S.length → ¬ S.getD i 0 > 10 * tol)
    (hgap : ∀ i < rank, rank < S.length → S.getD rank 0 < S.getD i 0 / 100) (htol : 0 ≤ tol) (hr : rank < S.length ∨ rank = r) :
    krylovFinish tol r U S = .ok (U.pick (range U.rows) (range rank)) := by
  classical
  have hc : S.countP (fun s => decide (s > 10 * tol)) = rank := by
    apply le_antisymm
    · by_contra hlt
      have hlt : rank < S.countP (fun s => decide (s > 10 * tol)) := by omega
      have hle : S.countP (fun s => decide (s > 10 * tol)) ≤ S.length := countP_le_length
      exact hbelow rank (le_refl _) (by omega) ((lt_countP_iff hS _ (by omega)).1 hlt)
    · by_contra hlt
      have hlt : S.countP (fun s => decide (s > 10 * tol)) < rank := by omega
      have := (lt_countP_iff hS (10 * tol) (by omega)).2 (habove _ hlt)
      omega
  have hc' : S.countP (fun s => @decide (s > 10 * tol) (Classical.propDecidable _)) = rank := by
    rw [← hc]
  unfold krylovFinish
  simp only [hc']
  rcases Nat.eq_zero_or_pos rank with h0 | hpos
  · subst h0
    by_cases h1 : r > 0
    · rcases hr with hr | hr
      · simp only [if_pos h1, getElem?_eq_getElem hr, bind, Except.bind, true_or, if_true]
      · omega
    · simp only [if_neg h1, bind, Except.bind, true_or, if_true]
  · by_cases h1 : r > rank
    · have hr : rank < S.length := by omega
      have hg := hgap (rank - 1) (by omega) hr
      rw [getD_eq_getElem?_getD, getElem?_eq_getElem hr, Option.getD_some] at hg
      simp only [if_pos h1, getElem?_eq_getElem hr, bind, Except.bind]
      rw [if_pos (.inr hg)]
    · have hg := habove (rank - 1) (by omega)
      have : (0 : ℝ) < S.getD (rank - 1) 0 / 100 := by
        have : 0 ≤ 10 * tol := by positivity
        have : 0 < S.getD (rank - 1) 0 := by linarith
        positivity
      simp only [if_neg h1, bind, Except.bind]
      rw [if_pos (.inr this)]

/-- **C29 is false**: if every vector is a solution (all `n` singular values of `W` above the cutoff) and the rank limit `r`
exceeds the dimension `n`, `S[rank]` is out of range: the solver raises `IndexError` although the descent converged. -/
theorem C29_counterexample (tol : ℝ) (r : ℕ) (U : DMat R) (S : List ℝ) (habove : ∀ s ∈ S, s > 10 * tol) (hr : S.length < r) :
    krylovFinish tol r U S = .error .index := by
  classical
  have hc' : S.countP (fun s => @decide (s > 10 * tol) (Classical.propDecidable _)) = S.length := by
    rw [countP_eq_length]
    intro s hs
    simpa using habove s hs
  unfold krylovFinish
  simp only [hc', if_pos hr, getElem?_eq_none (le_refl _), bind, Except.bind]

/-- **C29.** And the rank doubling does get there: with every vector a solution of an `n`-column constraint and enough
memory, the driver asks for more than `n` vectors in some round, and raises `IndexError`. -/
theorem C29_all_invariant {rows n : ℕ} (hmem : rows * (4 * n + 20) ≤ 2000000000) (hrows : 1 ≤ rows) (upto : ℕ → Py (DMat R))
    (hfull : ∀ r ≤ n, ∃ Q, upto r = .ok Q ∧ Q.cols = r) (herr : ∀ r, n < r → upto r = .error .index) :
    krylovSolve rows upto 29 = some (.error .index) := by
  obtain ⟨out, h, -⟩ := C26_terminates hrows upto (le_refl 29)
  rw [h]
  rw [krylovSolve] at h
  have h10 : rows * 10 ≤ rows * (4 * n + 20) := Nat.mul_le_mul_left _ (by omega)
  rw [if_neg (by omega)] at h
  rcases krylovLoop_rounds h with ⟨h2, -⟩ | ⟨k, hk, hk2, hk3, h3⟩
  · omega
  · by_cases hn : n < 5 * 2 ^ k
    · rcases h3 with ⟨e, h4, h5⟩ | ⟨Q', h4, -⟩
      · rw [herr _ hn] at h4; injection h4 with h4; rw [h5, h4]
      · rw [herr _ hn] at h4; simp at h4
    · obtain ⟨Q, hQ, hc⟩ := hfull (5 * 2 ^ k) (by omega)
      rcases h3 with ⟨e, h4, -⟩ | ⟨Q', h4, h5, h6⟩
      · rw [hQ] at h4; simp at h4
      · rw [hQ] at h4
        injection h4 with h4
        subst h4
        rcases h6 with h6 | h6
        · exact absurd hc h6
        · have : rows * (5 * 2 ^ (k + 1)) ≤ rows * (4 * n + 20) := Nat.mul_le_mul_left _ (by rw [pow_succ]; omega)
          omega

/-- The counterexample is reachable: three solutions, rank limit ten. -/
example : krylovFinish (R := ℤ) 1e-5 10 (DMat.one 3) [1, 1, 1] = .error .index :=
  C29_counterexample _ _ _ _ (by intro s hs; simp at hs; subst hs; norm_num) (by simp)

/-- The hypotheses of **C29** hold for a decomposition with one clear gap. -/
example : krylovFinish (R := ℤ) 1e-5 10 (DMat.one 3) [1, 1, 0] = .ok ((DMat.one 3).pick (range 3) (range 2)) :=
  C29_finish_partial _ _ _ _ 2 (by norm_num) (by simp)
    (by intro i hi; interval_cases i <;> norm_num) (by intro i h1 h2; simp at h2; interval_cases i; norm_num)
    (by intro i hi _; interval_cases i <;> norm_num) (by norm_num) (by simp)

end Verif
