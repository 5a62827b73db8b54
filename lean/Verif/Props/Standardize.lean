import Verif.Model.Standardize
import Verif.Props.Emlp

/-!
# C43: `Standardize` and equivariance
-/
namespace Verif
open List

/-- The value of a statistic at every coordinate of a vector of length `n`. -/
noncomputable def Stat.vec (n : ℕ) : Stat → List ℝ
  | .num r => replicate n r
  | .arr l => if l.length = n then l else replicate n (l.getD 0 0)

/-- The statistic is a number, an array with one entry, or one with an entry for each of the `n` coordinates. -/
def Stat.Fits (n : ℕ) : Stat → Prop
  | .num _ => True
  | .arr l => l.length = n ∨ l.length = 1

/-- A shift that the matrix `A` fixes. -/
def Stat.Invariant (n : ℕ) (A : DMat ℝ) (s : Stat) : Prop := s.Fits n ∧ A.mulVec (s.vec n) = s.vec n

/-- A scale that is the same for any two coordinates that `A` mixes. -/
def Stat.Constant (n : ℕ) (A : DMat ℝ) (s : Stat) : Prop :=
  s.Fits n ∧ ∀ i < n, ∀ j < n, A.e i j ≠ 0 → (s.vec n).getD i 0 = (s.vec n).getD j 0

/-- No entry is zero. -/
def Stat.NonZero (n : ℕ) (s : Stat) : Prop := ∀ i < n, (s.vec n).getD i 0 ≠ 0

/-- Whenever `f` returns `y` on a vector `x` of length `n`, then `y` has length `m` and `f` returns `By` on `Ax`. -/
def Equivariant (n m : ℕ) (f : List ℝ → Py (List ℝ)) (A B : DMat ℝ) : Prop :=
  ∀ x y, x.length = n → f x = .ok y → y.length = m ∧ f (A.mulVec x) = .ok (B.mulVec y)

theorem Stat.length_vec {n : ℕ} {s : Stat} : (s.vec n).length = n := by
  cases s with
  | num r => simp [Stat.vec]
  | arr l =>
    show (if l.length = n then l else replicate n (l.getD 0 0)).length = n
    split_ifs with h
    · exact h
    · simp

theorem Stat.op_eq {n : ℕ} {s : Stat} (hs : s.Fits n) (f : ℝ → ℝ → ℝ) {x : List ℝ} (hx : x.length = n) :
    s.op f x = .ok (zipWith f x (s.vec n)) := by
  have hrep : ∀ r : ℝ, x.map (f · r) = zipWith f x (replicate n r) := by
    intro r
    refine ext_getElem (by simp [hx]) fun i h1 h2 => by simp
  cases s with
  | num r =>
    show Except.ok (x.map (f · r)) = Except.ok (zipWith f x (replicate n r))
    rw [hrep]
  | arr l =>
    unfold Stat.op Stat.vec
    by_cases h : l.length = n
    · simp only [h, hx, if_true]
    · have h1 : l.length = 1 := hs.resolve_left h
      have h2 : ¬ (1 = n) := h1 ▸ h
      simp only [hx, h1, h2, if_false, if_true, hrep]

theorem getD_zipWith' (f : ℝ → ℝ → ℝ) {u v : List ℝ} (h : u.length = v.length) {i : ℕ} (hi : i < u.length) :
    (zipWith f u v).getD i 0 = f (u.getD i 0) (v.getD i 0) := by
  rw [getD_eq_getElem _ _ (by rw [length_zipWith, ← h, Nat.min_self]; exact hi), getElem_zipWith, getD_eq_getElem _ _ hi, getD_eq_getElem _ _ (h ▸ hi)]

section
variable {n m : ℕ} {A B : DMat ℝ}

theorem mulVec_shift (hA : A.IsSq n) {x s : List ℝ} (hx : x.length = n) (hs : s.length = n) (hf : A.mulVec s = s) (c : ℝ) :
    A.mulVec (zipWith (fun a b => a + c * b) x s) = zipWith (fun a b => a + c * b) (A.mulVec x) s := by
  have hl : (A.mulVec x).length = s.length := by rw [DMat.length_mulVec, hA.1, hs]
  refine DMat.vec_ext (by simp [hA.1, hs]) fun i hi => ?_
  have hi' : i < n := by rw [DMat.length_mulVec, hA.1] at hi; exact hi
  rw [getD_zipWith' _ hl (by rw [hl, hs]; exact hi')]
  conv_rhs => rw [← hf]
  rw [DMat.getD_mulVec (by rw [hA.1]; exact hi'), DMat.getD_mulVec (by rw [hA.1]; exact hi'), DMat.getD_mulVec (by rw [hA.1]; exact hi'), Finset.mul_sum, ← Finset.sum_add_distrib]
  refine Finset.sum_congr rfl fun j hj => ?_
  have hj' : j < n := by rw [hA.2] at hj; exact Finset.mem_range.1 hj
  rw [getD_zipWith' _ (by rw [hx, hs]) (by rw [hx]; exact hj')]
  ring

theorem mulVec_scale (hA : A.IsSq n) {x s : List ℝ} (hx : x.length = n) (hs : s.length = n)
    (hc : ∀ i < n, ∀ j < n, A.e i j ≠ 0 → s.getD i 0 = s.getD j 0) (φ : ℝ → ℝ) :
    A.mulVec (zipWith (fun a b => a * φ b) x s) = zipWith (fun a b => a * φ b) (A.mulVec x) s := by
  have hl : (A.mulVec x).length = s.length := by rw [DMat.length_mulVec, hA.1, hs]
  refine DMat.vec_ext (by simp [hA.1, hs]) fun i hi => ?_
  have hi' : i < n := by rw [DMat.length_mulVec, hA.1] at hi; exact hi
  rw [getD_zipWith' _ hl (by rw [hl, hs]; exact hi'), DMat.getD_mulVec (by rw [hA.1]; exact hi'), DMat.getD_mulVec (by rw [hA.1]; exact hi'), Finset.sum_mul]
  refine Finset.sum_congr rfl fun j hj => ?_
  have hj' : j < n := by rw [hA.2] at hj; exact Finset.mem_range.1 hj
  rw [getD_zipWith' _ (by rw [hx, hs]) (by rw [hx]; exact hj')]
  by_cases h0 : A.e i j = 0
  · rw [h0]; ring
  · rw [hc i hi' j hj' h0]; ring

/-- The two operations on the input. -/
theorem normalize_eq {muin sin : Stat} (hm : muin.Fits n) (hs : sin.Fits n) {x : List ℝ} (hx : x.length = n) :
    (do let u ← muin.op (· - ·) x; sin.op (· / ·) u) =
      .ok (zipWith (fun a b => a * b⁻¹) (zipWith (fun a b => a + (-1) * b) x (muin.vec n)) (sin.vec n)) := by
  rw [Stat.op_eq hm _ hx]
  show sin.op _ _ = _
  rw [Stat.op_eq hs _ (by rw [length_zipWith, hx, Stat.length_vec, Nat.min_self])]
  congr 2
  congr 1
  funext a b
  ring

theorem denormalize_eq {muout sout : Stat} (hm : muout.Fits m) (hs : sout.Fits m) {y : List ℝ} (hy : y.length = m) :
    (do let z ← sout.op (· * ·) y; muout.op (· + ·) z) =
      .ok (zipWith (fun a b => a + 1 * b) (zipWith (fun a b => a * b) y (sout.vec m)) (muout.vec m)) := by
  rw [Stat.op_eq hs _ hy]
  show muout.op _ _ = _
  rw [Stat.op_eq hm _ (by rw [length_zipWith, hy, Stat.length_vec, Nat.min_self])]
  congr 2
  funext a b
  ring

theorem normalize_comm (hA : A.IsSq n) {muin sin : Stat} (hm : muin.Invariant n A) (hs : sin.Constant n A) {x : List ℝ} (hx : x.length = n) :
    ∃ v, v.length = n ∧ (do let u ← muin.op (· - ·) x; sin.op (· / ·) u) = .ok v ∧
      (do let u ← muin.op (· - ·) (A.mulVec x); sin.op (· / ·) u) = .ok (A.mulVec v) := by
  refine ⟨_, ?_, normalize_eq hm.1 hs.1 hx, ?_⟩
  · simp [hx, Stat.length_vec]
  · rw [normalize_eq hm.1 hs.1 (by rw [DMat.length_mulVec, hA.1]),
      mulVec_scale hA (by simp [hx, Stat.length_vec]) Stat.length_vec hs.2, mulVec_shift hA hx Stat.length_vec hm.2]

theorem denormalize_comm (hB : B.IsSq m) {muout sout : Stat} (hm : muout.Invariant m B) (hs : sout.Constant m B) {y : List ℝ} (hy : y.length = m) :
    ∃ z, z.length = m ∧ (do let z ← sout.op (· * ·) y; muout.op (· + ·) z) = .ok z ∧
      (do let z ← sout.op (· * ·) (B.mulVec y); muout.op (· + ·) z) = .ok (B.mulVec z) := by
  refine ⟨_, ?_, denormalize_eq hm.1 hs.1 hy, ?_⟩
  · simp [hy, Stat.length_vec]
  · rw [denormalize_eq hm.1 hs.1 (by rw [DMat.length_mulVec, hB.1]), mulVec_shift hB (by simp [hy, Stat.length_vec]) Stat.length_vec hm.2,
      show B.mulVec (zipWith (fun a b => a * b) y (sout.vec m)) = _ from mulVec_scale hB hy Stat.length_vec hs.2 id]
    rfl

/-- **C43.** A model that is equivariant for `A` and `B` stays so under `Standardize`, if the shifts are fixed by the matrices and the
scales are constant on the coordinates they mix (in particular, one number per copy of an irreducible representation, and a
zero shift).  With two statistics the output is left alone.  `NonZero` is what makes the division meaningful. -/
theorem C43_equivariant (hA : A.IsSq n) (hB : B.IsSq m) {f : List ℝ → Py (List ℝ)} (hf : Equivariant n m f A B) {muin sin : Stat}
    (hm : muin.Invariant n A) (hs : sin.Constant n A) (_h0 : sin.NonZero n) :
    Equivariant n m (standardize ⟨true, f⟩ [muin, sin]) A B ∧
    ∀ muout sout : Stat, muout.Invariant m B → sout.Constant m B → Equivariant n m (standardize ⟨true, f⟩ [muin, sin, muout, sout]) A B := by
  have two : ∀ x, standardize ⟨true, f⟩ [muin, sin] x = ((do let u ← muin.op (· - ·) x; sin.op (· / ·) u) >>= f) := by
    intro x
    show (muin.op (· - ·) x >>= fun u => sin.op (· / ·) u >>= f) = _
    cases muin.op (· - ·) x with
    | error e => rfl
    | ok u => rfl
  constructor
  · intro x y hx hy
    obtain ⟨v, hv, e1, e2⟩ := normalize_comm hA hm hs hx
    rw [two, e1] at hy
    obtain ⟨l, h2⟩ := hf v y hv hy
    refine ⟨l, ?_⟩
    rw [two, e2]
    exact h2
  · intro muout sout hm' hs' x z hx hz
    have four : ∀ x, standardize ⟨true, f⟩ [muin, sin, muout, sout] x = (((do let u ← muin.op (· - ·) x; sin.op (· / ·) u) >>= f) >>= fun y => do
        let z ← sout.op (· * ·) y; muout.op (· + ·) z) := by
      intro x
      show (muin.op (· - ·) x >>= fun u => sin.op (· / ·) u >>= fun v => f v >>= fun y => sout.op (· * ·) y >>= fun z => muout.op (· + ·) z) = _
      cases muin.op (· - ·) x with
      | error e => rfl
      | ok u =>
        simp only [Bind.bind, Except.bind]
        cases sin.op (· / ·) u <;> rfl
    obtain ⟨v, hv, e1, e2⟩ := normalize_comm hA hm hs hx
    rw [four, e1] at hz
    change (f v >>= _) = _ at hz
    cases hfv : f v with
    | error e => rw [hfv] at hz; cases hz
    | ok y =>
      rw [hfv] at hz
      obtain ⟨l, h2⟩ := hf v y hv hfv
      obtain ⟨z', hl, d1, d2⟩ := denormalize_comm hB hm' hs' l
      change (do let z ← sout.op (· * ·) y; muout.op (· + ·) z) = _ at hz
      rw [d1] at hz
      have := Except.ok.inj hz
      subst this
      refine ⟨hl, ?_⟩
      rw [four, e2]
      change (f (A.mulVec v) >>= _) = _
      rw [h2]
      exact d2

/-! ### The statistics of the datasets -/

theorem blockScale_length (k d : ℕ) (s : ℕ → ℝ) : (blockScale k d s).length = k * d := by
  unfold blockScale
  rw [length_flatMap]
  simp

theorem blockScale_getD (d : ℕ) (s : ℕ → ℝ) (k i : ℕ) (hi : i < k * d) : (blockScale k d s).getD i 0 = s (i / d) := by
  induction k with
  | zero => simp at hi
  | succ k ih =>
    have e : blockScale (k + 1) d s = blockScale k d s ++ replicate d (s k) := by
      unfold blockScale; rw [range_succ, flatMap_append]; simp
    rw [e]
    by_cases h : i < k * d
    · rw [getD_append _ _ _ _ (by rw [blockScale_length]; exact h), ih h]
    · have hd : 0 < d := by
        rcases Nat.eq_zero_or_pos d with rfl | h0
        · simp at hi
        · exact h0
      rw [getD_append_right _ _ _ _ (by rw [blockScale_length]; omega), blockScale_length]
      rw [Nat.succ_mul] at hi
      have hq : i / d = k := by
        refine Nat.div_eq_of_lt_le ?_ ?_
        · omega
        · rw [Nat.succ_mul]; omega
      rw [getD_eq_getElem _ _ (by simp; omega), getElem_replicate, hq]

theorem vec_blockScale (k d : ℕ) (s : ℕ → ℝ) : Stat.vec (k * d) (.arr (blockScale k d s)) = blockScale k d s :=
  if_pos (blockScale_length k d s)

/-- **C43, vectors.** A zero shift and one scale for each of `k` vectors suit every representation `k*Vector`: whatever the
matrix of `Vector`. -/
theorem C43_vectors (k d : ℕ) {M : DMat ℝ} (hM : M.IsSq d) (s : ℕ → ℝ) :
    (Stat.num 0).Invariant (k * d) (DMat.bdiag (replicate k M)) ∧ (Stat.arr (blockScale k d s)).Constant (k * d) (DMat.bdiag (replicate k M)) := by
  rw [DMat.bdiag_replicate]
  refine ⟨⟨trivial, ?_⟩, Or.inl (blockScale_length k d s), fun i hi j hj hne => ?_⟩
  · refine DMat.vec_ext (by simp [Stat.vec, DMat.kron, DMat.of, DMat.one, hM.1]) fun i hi => ?_
    rw [DMat.getD_mulVec (by rw [DMat.length_mulVec] at hi; exact hi)]
    have hz : ∀ j, (Stat.vec (k * d) (.num 0)).getD j 0 = 0 := by
      intro j
      unfold Stat.vec
      by_cases h : j < k * d
      · rw [getD_eq_getElem _ _ (by simpa using h), getElem_replicate]
      · rw [getD_eq_default _ _ (by simpa using h)]
    simp only [hz, mul_zero, Finset.sum_const_zero]
  · rw [vec_blockScale, blockScale_getD d s k i hi, blockScale_getD d s k j hj]
    have hd : 0 < d := by
      rcases Nat.eq_zero_or_pos d with rfl | h0
      · simp at hi
      · exact h0
    have hi' : i / d < k := Nat.div_lt_of_lt_mul (by rw [Nat.mul_comm]; exact hi)
    have hj' : j / d < k := Nat.div_lt_of_lt_mul (by rw [Nat.mul_comm]; exact hj)
    have e := DMat.kron_e (A := (DMat.one k : DMat ℝ)) (B := M) (i := i / d) (j := j / d) (i' := i % d) (j' := j % d) hi' hj'
      (by rw [hM.1]; exact Nat.mod_lt _ hd) (by rw [hM.2]; exact Nat.mod_lt _ hd)
    rw [hM.1, hM.2, Nat.div_add_mod', Nat.div_add_mod', DMat.one_e hi' hj'] at e
    rw [e] at hne
    by_contra hc
    rw [if_neg (fun h => hc (by rw [h])), zero_mul] at hne
    exact hne rfl

theorem scalar_stats (s : Stat) (hs : s.Fits 1) : s.Invariant 1 (DMat.one 1) ∧ s.Constant 1 (DMat.one 1) :=
  ⟨⟨hs, DMat.mulVec_one _ Stat.length_vec⟩, hs, fun i hi j hj _ => by
    have : i = j := by omega
    rw [this]⟩

/-- **C43, datasets.** The statistics that `O5Synthetic`, `ParticleInteraction`, `Inertia` and `DoubleSpringPendulum` compute, from whatever
data, keep a model equivariant for their representations (`2*Vector`, `4*Vector`, any, any) and their symmetry; the scales must
not vanish. -/
theorem C43_datasets (X : List (List ℝ)) (Y : List ℝ) {f : List ℝ → Py (List ℝ)} :
    (∀ M : DMat ℝ, M.IsSq 5 → (∀ i < 2, o5Scale X i ≠ 0) → Equivariant 10 1 f (DMat.bdiag (replicate 2 M)) (DMat.one 1) →
      Equivariant 10 1 (standardize ⟨true, f⟩ (o5Stats X Y)) (DMat.bdiag (replicate 2 M)) (DMat.one 1)) ∧
    (∀ M : DMat ℝ, M.IsSq 4 → (∀ i < 4, particleScale X i ≠ 0) → Equivariant 16 1 f (DMat.bdiag (replicate 4 M)) (DMat.one 1) →
      Equivariant 16 1 (standardize ⟨true, f⟩ (particleStats X Y)) (DMat.bdiag (replicate 4 M)) (DMat.one 1)) ∧
    (∀ (n m : ℕ) (A B : DMat ℝ), A.IsSq n → B.IsSq m → Equivariant n m f A B → Equivariant n m (standardize ⟨true, f⟩ plainStats) A B) := by
  have sq : ∀ (k d : ℕ) (M : DMat ℝ), M.IsSq d → (DMat.bdiag (replicate k M)).IsSq (k * d) := by
    intro k d M hM
    rw [DMat.bdiag_replicate]
    exact ⟨by simp [DMat.kron, DMat.of, DMat.one, hM.1], by simp [DMat.kron, DMat.of, DMat.one, hM.2]⟩
  have nz : ∀ (k d : ℕ) (s : ℕ → ℝ), (∀ i < k, s i ≠ 0) → (Stat.arr (blockScale k d s)).NonZero (k * d) := by
    intro k d s h i hi
    rw [vec_blockScale, blockScale_getD d s k i hi]
    exact h _ (Nat.div_lt_of_lt_mul (by rw [Nat.mul_comm]; exact hi))
  have one : (DMat.one 1 : DMat ℝ).IsSq 1 := ⟨rfl, rfl⟩
  refine ⟨fun M hM h0 hf => ?_, fun M hM h0 hf => ?_, fun n m A B hA hB hf => ?_⟩
  · have hv := C43_vectors 2 5 hM (o5Scale X)
    exact (C43_equivariant (sq 2 5 M hM) one hf hv.1 hv.2 (nz 2 5 _ h0)).2 _ _ (scalar_stats (.arr [_]) (Or.inl rfl)).1 (scalar_stats (.arr [_]) (Or.inl rfl)).2
  · have hv := C43_vectors 4 4 hM (particleScale X)
    exact (C43_equivariant (sq 4 4 M hM) one hf hv.1 hv.2 (nz 4 4 _ h0)).2 _ _ (scalar_stats (.arr [_]) (Or.inl rfl)).1 (scalar_stats (.arr [_]) (Or.inl rfl)).2
  · have hz : ∀ (n : ℕ) (A : DMat ℝ), A.IsSq n → (Stat.num 0).Invariant n A := by
      intro n A hA
      refine ⟨trivial, DMat.vec_ext (by simp [Stat.vec, hA.1]) fun i hi => ?_⟩
      rw [DMat.getD_mulVec (by rw [DMat.length_mulVec] at hi; exact hi)]
      have hz : ∀ j, (Stat.vec n (.num 0)).getD j 0 = 0 := by
        intro j
        unfold Stat.vec
        by_cases h : j < n
        · rw [getD_eq_getElem _ _ (by simpa using h), getElem_replicate]
        · rw [getD_eq_default _ _ (by simpa using h)]
      simp only [hz, mul_zero, Finset.sum_const_zero]
    have hc : ∀ (n : ℕ) (A : DMat ℝ) (r : ℝ), (Stat.num r).Constant n A := by
      intro n A r
      refine ⟨trivial, fun i hi j hj _ => ?_⟩
      unfold Stat.vec
      rw [getD_eq_getElem _ _ (by simpa using hi), getD_eq_getElem _ _ (by simpa using hj), getElem_replicate, getElem_replicate]
    refine (C43_equivariant hA hB hf (hz n A hA) (hc n A 1) fun i hi => ?_).2 _ _ (hz m B hB) (hc m B 1)
    unfold Stat.vec
    rw [getD_eq_getElem _ _ (by simpa using hi), getElem_replicate]
    exact one_ne_zero

end

/-! ### Where it fails -/

/-- the rotation by a right angle -/
noncomputable def quarterTurn : DMat ℝ := DMat.ofMatrix !![0, -1; 1, 0]

theorem quarterTurn_mulVec (a b : ℝ) : quarterTurn.mulVec [a, b] = [-b, a] := by
  have h : ∀ i < 2, (quarterTurn.mulVec [a, b]).getD i 0 = [-b, a].getD i 0 := by
    intro i hi
    rw [DMat.getD_mulVec (by exact hi)]
    have e : ∀ p q : Fin 2, quarterTurn.e p q = (!![0, -1; 1, 0] : Matrix (Fin 2) (Fin 2) ℝ) p q := fun p q => DMat.ofMatrix_e _ p.2 q.2
    have hc : quarterTurn.cols = 2 := rfl
    rw [hc, Finset.sum_range_succ, Finset.sum_range_one]
    interval_cases i
    · have e0 := e 0 0; have e1 := e 0 1
      simp at e0 e1; simp [e0, e1]
    · have e0 := e 1 0; have e1 := e 1 1
      simp at e0 e1; simp [e0, e1]
  exact DMat.vec_ext rfl h

/-- **C43, counterexamples.** Subtracting a mean vector, or dividing by a different number for each coordinate, as one would standardize
ordinary features, breaks equivariance, already for the identity model and a rotation by a right angle. -/
theorem C43_counterexample : Equivariant 2 2 (fun x => .ok x) quarterTurn quarterTurn ∧
    ¬ Equivariant 2 2 (standardize ⟨true, fun x => .ok x⟩ [.arr [1, 0], .num 1]) quarterTurn quarterTurn ∧
    ¬ Equivariant 2 2 (standardize ⟨true, fun x => .ok x⟩ [.num 0, .arr [1, 2]]) quarterTurn quarterTurn := by
  refine ⟨fun x y hx hy => ?_, fun h => ?_, fun h => ?_⟩
  · have := Except.ok.inj hy
    subst this
    exact ⟨hx, rfl⟩
  · have h1 : standardize ⟨true, fun x => .ok x⟩ [.arr [1, 0], .num 1] [0, 0] = .ok [-1, 0] := by
      simp [standardize, Stat.op, Callee.apply, bind, Except.bind]
    have := (h [0, 0] _ rfl h1).2
    rw [quarterTurn_mulVec, quarterTurn_mulVec] at this
    have h2 : standardize ⟨true, fun x => .ok x⟩ [.arr [1, 0], .num 1] [-0, 0] = .ok [-1, 0] := by
      simp [standardize, Stat.op, Callee.apply, bind, Except.bind]
    rw [h2] at this
    have := Except.ok.inj this
    simp at this
  · have h1 : standardize ⟨true, fun x => .ok x⟩ [.num 0, .arr [1, 2]] [1, 0] = .ok [1, 0] := by
      simp [standardize, Stat.op, Callee.apply, bind, Except.bind]
    have := (h [1, 0] _ rfl h1).2
    rw [quarterTurn_mulVec] at this
    have h2 : standardize ⟨true, fun x => .ok x⟩ [.num 0, .arr [1, 2]] [-0, 1] = .ok [0, 1 / 2] := by
      simp [standardize, Stat.op, Callee.apply, bind, Except.bind]
    rw [h2] at this
    have := Except.ok.inj this
    simp at this

/-- one scale for the whole plane vector: the hypotheses of `C43_equivariant` hold -/
example : Equivariant 2 2 (standardize ⟨true, fun x => .ok x⟩ [.num 0, .arr (blockScale 1 2 fun _ => 3)]) quarterTurn quarterTurn := by
  have hq : quarterTurn.IsSq 2 := ⟨rfl, rfl⟩
  have hv := C43_vectors 1 2 hq fun _ => 3
  have e : DMat.bdiag (replicate 1 quarterTurn) = quarterTurn := by rw [DMat.bdiag_replicate, DMat.one_kron]
  rw [e] at hv
  refine (C43_equivariant hq hq C43_counterexample.1 hv.1 hv.2 fun i hi => ?_).1
  have hv' := vec_blockScale 1 2 fun _ => (3 : ℝ)
  rw [Nat.one_mul] at hv'
  rw [hv', blockScale_getD 2 _ 1 i hi]
  norm_num

/-- **C43, PyTorch.** `Standardize` passes `training` to the model: wrapping the PyTorch `EMLP` or `MLP` (or the objax networks for
dynamics), whose calls have no such parameter, never returns. -/
theorem C43_no_training (c : NetClass) (h : c ∈ [NetClass.torchEMLP, .torchMLP, .objaxEMLPode, .objaxMLPode, .objaxEMLPH, .objaxMLPH]) (f : List ℝ → Py (List ℝ)) (stats : List Stat) (x : List ℝ) :
    ∃ e, standardize ⟨c.takesTraining, f⟩ stats x = .error e := by
  have h : c.takesTraining = false := by revert h; cases c <;> decide
  have key : ∀ v, (Callee.apply ⟨c.takesTraining, f⟩ v) = .error .type := by intro v; rw [h]; rfl
  unfold standardize
  split
  · rename_i muin sin
    cases muin.op (· - ·) x with
    | error e => exact ⟨e, rfl⟩
    | ok u =>
      simp only [Bind.bind, Except.bind]
      cases sin.op (· / ·) u with
      | error e => exact ⟨e, rfl⟩
      | ok v => exact ⟨_, key v⟩
  · rename_i muin sin muout sout
    cases muin.op (· - ·) x with
    | error e => exact ⟨e, rfl⟩
    | ok u =>
      simp only [Bind.bind, Except.bind]
      cases sin.op (· / ·) u with
      | error e => exact ⟨e, rfl⟩
      | ok v => dsimp only; rw [key v]; exact ⟨_, rfl⟩
  · exact ⟨_, rfl⟩

example : ∃ e, standardize ⟨NetClass.torchEMLP.takesTraining, fun x => .ok x⟩ plainStats [1, 2] = .error e := C43_no_training .torchEMLP (by decide) _ _ _

/-! ### Networks -/

/-- **C43, networks.** `Standardize(EMLP(rep_in,rep_out,G,ch,num_layers),stats)` is equivariant for every element of the group. -/
theorem C43_emlp {W : World} {g : Gid} {N : ℕ} {custom : ∀ k g, AtomRep ℝ (W.d g) (W.usize k g)}
    {lie disc : ∀ g, List (Matrix (Fin (W.d g)) (Fin (W.d g)) ℝ)} {solve : ℕ → LinOp ℝ → Py (DMat ℝ)} {rng : Rng} {σ σ' : NetSt ℝ}
    {ein eout : Expr} {rin rout : Rep} {fuel b L : ℕ} {ch : Ch} {ws : List ℕ} {E : Emlp ℝ}
    (hW : W.SingleOK g N) (hd : 2 ≤ W.d g) (hdN : W.d g ≤ N) (ok : GroupsOK W custom lie disc)
    (hsol : SolverOK W (gensOf W (stdAtoms W custom) lie disc) solve) (hσ : NetReach W g (gensOf W (stdAtoms W custom) lie disc) solve σ)
    (hrng : RngOK rng) (hin : RepArg W g N ein rin) (hout : RepArg W g N eout rout) (hch : ch.Widths W g N b L ws)
    (hbi : ein.dim W g ≤ b) (hbo : eout.dim W g ≤ b) (hbf : b < fuel) (hN : (2 * b) * (2 * b) ≤ N)
    (hE : Emlp.init W (gensOf W (stdAtoms W custom) lie disc) solve rng fuel rin rout g ch L σ = .ok (E, σ'))
    {ps : List (BlockParams ℝ)} {w : DMat ℝ} {β : List ℝ} (hp : E.Shaped ps w β) (c : ℝ) (act : ℝ → ℝ)
    {h : Matrix (Fin (W.d g)) (Fin (W.d g)) ℝ} (hg : Generated (lie g) (disc g) h) {muin sin muout sout : Stat}
    (hm : muin.Invariant (ein.dim W g) (ein.den g (Interp.elem W custom g h)).1) (hs : sin.Constant (ein.dim W g) (ein.den g (Interp.elem W custom g h)).1)
    (h0 : sin.NonZero (ein.dim W g)) (hm' : muout.Invariant (eout.dim W g) (eout.den g (Interp.elem W custom g h)).1)
    (hs' : sout.Constant (eout.dim W g) (eout.den g (Interp.elem W custom g h)).1) :
    Equivariant (ein.dim W g) (eout.dim W g) (standardize ⟨NetClass.objaxEMLP.takesTraining, E.apply W c act ps w β⟩ [muin, sin, muout, sout])
      (ein.den g (Interp.elem W custom g h)).1 (eout.den g (Interp.elem W custom g h)).1 := by
  have hbN : b ≤ N := by nlinarith [Nat.zero_le b]
  obtain ⟨a, o, mids, ha, ho, -, -⟩ :=
    (Emlp.init_meets hW hd hdN hrng hbN hbf hch gensOf_sized hsol hin hout hbi hbo hN σ (hσ.ok hsol) E σ' hE).2
  have hI := elem_dual (g := g) ok hg
  have hA := Rep.mat_sq hI.toSized ha.1.wf
  have hB := Rep.mat_sq hI.toSized ho.1.wf
  rw [ha.2.2 ℝ _ hI, ha.2.1] at hA
  rw [ho.2.2 ℝ _ hI, ho.2.1] at hB
  refine (C43_equivariant hA hB (fun x y hx hy => ⟨?_, ?_⟩) hm hs h0).2 muout sout hm' hs'
  · exact (C40_widths hW hd hdN ok hsol hσ hrng hin hout hch hbi hbo hbf hN hE).2.2.2.2.2.2 ps w β hp c act x y hx hy
  · exact C40_equivariant hW hd hdN ok hsol hσ hrng hin hout hch hbi hbo hbf hN hE hp c act hg hx hy

end Verif
