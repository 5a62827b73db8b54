import Mathlib.Analysis.Calculus.MeanValue
import Mathlib.Analysis.Calculus.FDeriv.Pi
import Mathlib.Analysis.Calculus.Deriv.Comp
import Mathlib.Analysis.Calculus.Deriv.Prod
import Mathlib.Analysis.SpecialFunctions.Trigonometric.Deriv
import Mathlib.Topology.Algebra.Module.FiniteDimension
import Mathlib.Analysis.Normed.Module.FiniteDimension
import Verif.Props.Datasets

/-!
# Hamiltonian systems
-/
namespace Verif
open List

/-! ## C84 -/

/-- C84: `unpack` undoes `pack` on halves of equal length. -/
theorem C84_unpack_pack {α : Type*} (q p : List α) (h : q.length = p.length) : unpack (pack q p) = .ok (q, p) := by
  have e : (q ++ p).length / 2 = q.length := by
    rw [length_append]
    omega
  rw [unpack, pack, if_neg (by rw [length_append]; omega), e]
  simp

/-- C84: `pack` undoes `unpack`, which succeeds exactly on even-dimensional states and splits them in the middle. -/
theorem C84_pack_unpack {α : Type*} (z : List α) :
    (z.length % 2 = 1 → unpack z = .error .assertion) ∧
    (z.length % 2 = 0 → ∃ q p, unpack z = .ok (q, p) ∧ pack q p = z ∧ q.length = p.length) := by
  constructor
  · intro h
    rw [unpack, if_pos (by omega)]
  · intro h
    refine ⟨_, _, ?_, take_append_drop (z.length / 2) z, ?_⟩
    · rw [unpack, if_neg (by omega)]
    · simp only [length_take, length_drop]
      omega

theorem symplectic_pack (q p : List ℝ) (h : q.length = p.length) : symplecticForm (q ++ p) = .ok (p ++ q.map fun x => -x) := by
  rw [symplecticForm, show unpack (q ++ p) = .ok (q, p) from C84_unpack_pack q p h]
  rfl

/-- C84: `J` applied twice is minus the identity. -/
theorem C84_JJ (z : List ℝ) (h : z.length % 2 = 0) : (symplecticForm z >>= symplecticForm) = .ok (z.map fun x => -x) := by
  obtain ⟨q, p, _, rfl, hl⟩ := (C84_pack_unpack z).2 h
  rw [pack, symplectic_pack q p hl]
  show symplecticForm _ = _
  rw [symplectic_pack _ _ (by simp [hl])]
  simp

/-- Inner product of lists. -/
noncomputable def ldot (v w : List ℝ) : ℝ := (List.zipWith (· * ·) v w).sum

theorem ldot_neg (q p : List ℝ) : ldot p (q.map fun x => -x) = - ldot q p := by
  induction q generalizing p with
  | nil => simp [ldot]
  | cons a q ih =>
    cases p with
    | nil => simp [ldot]
    | cons b p =>
      have := ih p
      simp only [ldot] at this
      simp only [ldot, map_cons, zipWith_cons_cons, sum_cons, this]
      ring

/-- C84: the derivative of `H` along the Hamiltonian vector field vanishes, whatever the gradient. -/
theorem C84_conserves (grad : List ℝ → List ℝ) (z : List ℝ) (h : (grad z).length % 2 = 0) :
    ∃ v, hamiltonianDynamics grad z = .ok v ∧ v.length = (grad z).length ∧ ldot (grad z) v = 0 := by
  obtain ⟨q, p, h1, h2, hl⟩ := (C84_pack_unpack (grad z)).2 h
  rw [pack] at h2
  refine ⟨p ++ q.map fun x => -x, ?_, ?_, ?_⟩
  · rw [hamiltonianDynamics, ← h2, symplectic_pack _ _ hl]
  · rw [← h2]
    simp [add_comm]
  · rw [← h2]
    have e : ldot (q ++ p) (p ++ q.map fun x => -x) = ldot q p + ldot p (q.map fun x => -x) := by
      rw [ldot, zipWith_append hl, sum_append]
      rfl
    rw [e, ldot_neg, add_neg_cancel]

theorem ldot_ofFn {n : ℕ} (v w : Fin n → ℝ) : ldot (List.ofFn v) (List.ofFn w) = ∑ i, v i * w i := by
  have : List.zipWith (· * ·) (List.ofFn v) (List.ofFn w) = List.ofFn fun i => v i * w i := by
    apply ext_getElem <;> simp
  rw [ldot, this, sum_ofFn]

/-- C84: energy is conserved along every solution of the equation of motion. -/
theorem C84_energy {n : ℕ} (hn : n % 2 = 0) (H : (Fin n → ℝ) → ℝ) (grad : (Fin n → ℝ) → Fin n → ℝ)
    (hH : ∀ x, ∃ L : (Fin n → ℝ) →L[ℝ] ℝ, HasFDerivAt H L x ∧ ∀ v, L v = ∑ i, grad x i * v i)
    (z dz : ℝ → Fin n → ℝ) (hz : ∀ t, HasDerivAt z (dz t) t)
    (heq : ∀ t, hamiltonianDynamics (fun _ => List.ofFn (grad (z t))) (List.ofFn (z t)) = .ok (List.ofFn (dz t))) :
    ∀ s t, H (z s) = H (z t) := by
  have hd : ∀ t, HasDerivAt (fun t => H (z t)) 0 t := by
    intro t
    obtain ⟨L, hL, hv⟩ := hH (z t)
    have := hL.comp_hasDerivAt t (hz t)
    obtain ⟨v, h1, _, h3⟩ := C84_conserves (fun _ => List.ofFn (grad (z t))) (List.ofFn (z t)) (by simpa using hn)
    rw [heq t] at h1
    simp only [Except.ok.injEq] at h1
    rw [← h1, ldot_ofFn, ← hv] at h3
    rw [h3] at this
    exact this
  intro s t
  exact is_const_of_deriv_eq_zero (fun t => (hd t).differentiableAt) (fun t => (hd t).deriv) s t

/-- The harmonic oscillator meets the hypotheses of `C84_energy`. -/
example : ∀ s t : ℝ, (Real.cos s ^ 2 + Real.sin s ^ 2) / 2 = (Real.cos t ^ 2 + Real.sin t ^ 2) / 2 := by
  have := C84_energy (n := 2) rfl (fun x => (x 0 ^ 2 + x 1 ^ 2) / 2) (fun x => x)
    (fun x => ⟨x 0 • ContinuousLinearMap.proj 0 + x 1 • ContinuousLinearMap.proj 1, by
      have h0 : HasFDerivAt (fun x : Fin 2 → ℝ => x 0) (ContinuousLinearMap.proj 0 : (Fin 2 → ℝ) →L[ℝ] ℝ) x := (ContinuousLinearMap.proj (R := ℝ) (φ := fun _ : Fin 2 => ℝ) 0).hasFDerivAt
      have h1 : HasFDerivAt (fun x : Fin 2 → ℝ => x 1) (ContinuousLinearMap.proj 1 : (Fin 2 → ℝ) →L[ℝ] ℝ) x := (ContinuousLinearMap.proj (R := ℝ) (φ := fun _ : Fin 2 => ℝ) 1).hasFDerivAt
      have := ((h0.mul h0).add (h1.mul h1)).const_mul (1 / 2 : ℝ)
      refine (this.congr_fderiv ?_).congr_of_eventuallyEq (Filter.Eventually.of_forall fun y => ?_)
      · ext v
        simp
        ring
      · simp
        ring, fun v => by simp⟩)
    (fun t => ![Real.cos t, -Real.sin t]) (fun t => ![-Real.sin t, -Real.cos t])
    (fun t => by
      refine hasDerivAt_pi.2 ?_
      intro i
      fin_cases i
      · simpa using Real.hasDerivAt_cos t
      · exact (Real.hasDerivAt_sin t).neg)
    (fun t => by
      simp [hamiltonianDynamics, symplecticForm, unpack, pack, bind, Except.bind, pure, Except.pure])
  simpa using this

/-! ## C85 -/

theorem sqSum_ofFn (v : Fin 3 → ℝ) : sqSum (List.ofFn v) = dot v v := by
  simp [sqSum, dot, Fin.sum_univ_three, List.ofFn_succ]
  ring

/-- The value of the Hamiltonian, from the four blocks of the state. -/
theorem pendulum_eq (X : ℕ → ℝ) : pendulumH (List.ofFn fun i : Fin 12 => X i) = .ok
    (1 / 2 * dot (block 0 3 2 X) (block 0 3 2 X) + 1 / 2 * dot (block 0 3 3 X) (block 0 3 3 X)
      + (1 / 2 * (Real.sqrt (dot (block 0 3 0 X) (block 0 3 0 X)) - 1) ^ 2
        + (Real.sqrt (dot (block 0 3 0 X - block 0 3 1 X) (block 0 3 0 X - block 0 3 1 X)) - 1) ^ 2
        + (block 0 3 0 X 2 + block 0 3 1 X 2))) := by
  have e : (List.ofFn fun i : Fin 12 => X i) = pack (pack (List.ofFn (block 0 3 0 X)) (List.ofFn (block 0 3 1 X)))
      (pack (List.ofFn (block 0 3 2 X)) (List.ofFn (block 0 3 3 X))) := by
    simp [List.ofFn_succ, pack, block]
  have ed : List.zipWith (· - ·) (List.ofFn (block 0 3 0 X)) (List.ofFn (block 0 3 1 X)) = List.ofFn (block 0 3 0 X - block 0 3 1 X) := by
    apply ext_getElem <;> simp
  have e2 : ∀ v : Fin 3 → ℝ, (List.ofFn v).getD 2 0 = v 2 := by
    intro v
    simp [List.ofFn_succ]
  rw [e, pendulumH, C84_unpack_pack _ _ (by simp [pack])]
  simp only [bind, Except.bind]
  rw [C84_unpack_pack _ _ (by simp), C84_unpack_pack _ _ (by simp)]
  simp only [sqSum_ofFn, ed, length_ofFn, e2]
  simp [pure, Except.pure]

/-- C85: the Hamiltonian of the double spring pendulum is defined on twelve-dimensional states and does not change when all positions
and momenta are multiplied by an orthogonal matrix fixing the third axis. -/
theorem C85_pendulum (M : Matrix (Fin 3) (Fin 3) ℝ) (hM : M.transpose * M = 1) (h3 : M 2 = ![0, 0, 1]) (X : ℕ → ℝ) :
    ∃ h, pendulumH (List.ofFn fun i : Fin 12 => X i) = .ok h ∧
      pendulumH (List.ofFn fun i : Fin 12 => blockAct 0 M X i) = .ok h := by
  have hv : ∀ v : Fin 3 → ℝ, M.mulVec v 2 = v 2 := by
    intro v
    simp [Matrix.mulVec, h3, dotProduct, Fin.sum_univ_three]
  refine ⟨_, pendulum_eq X, ?_⟩
  rw [pendulum_eq (blockAct 0 M X)]
  simp only [block_act, ← Matrix.mulVec_sub, dot_orth hM, hv]

/-- A case: the quarter turn about the third axis. -/
example : Matrix.transpose !![0, -1, 0; 1, 0, 0; 0, 0, (1 : ℝ)] * !![0, -1, 0; 1, 0, 0; 0, 0, 1] = 1 ∧
    !![0, -1, 0; 1, 0, 0; 0, 0, (1 : ℝ)] 2 = ![0, 0, 1] := by
  constructor
  · ext i j
    fin_cases i <;> fin_cases j <;> simp [Matrix.mul_apply, Fin.sum_univ_three]
  · funext j
    fin_cases j <;> rfl

/-- The hypotheses are met by every element of O(2) acting on the first two axes. -/
theorem C85_O2 (a b c d : ℝ) (h : Matrix.transpose !![a, b; c, d] * !![a, b; c, d] = 1) :
    Matrix.transpose !![a, b, 0; c, d, 0; 0, 0, 1] * !![a, b, 0; c, d, 0; 0, 0, 1] = 1 ∧
      !![a, b, 0; c, d, 0; 0, 0, (1 : ℝ)] 2 = ![0, 0, 1] := by
  have e := fun i j => congrFun (congrFun h i) j
  have e00 := e 0 0
  have e01 := e 0 1
  have e10 := e 1 0
  have e11 := e 1 1
  simp [Matrix.mul_apply, Fin.sum_univ_two] at e00 e01 e10 e11
  constructor
  · ext i j
    fin_cases i <;> fin_cases j <;> simp [Matrix.mul_apply, Fin.sum_univ_three, e00, e01, e10, e11]
  · rfl

/-- The symmetry is not the whole of O(3): reflecting the vertical axis changes the energy. -/
theorem C85_not_O3 : ∃ (M : Matrix (Fin 3) (Fin 3) ℝ) (X : ℕ → ℝ), M.transpose * M = 1 ∧
    pendulumH (List.ofFn fun i : Fin 12 => blockAct 0 M X i) ≠ pendulumH (List.ofFn fun i : Fin 12 => X i) := by
  have hM : (Matrix.diagonal ![1, 1, -1] : Matrix (Fin 3) (Fin 3) ℝ).transpose * Matrix.diagonal ![1, 1, -1] = 1 := by
    rw [Matrix.diagonal_transpose, Matrix.diagonal_mul_diagonal, ← Matrix.diagonal_one]
    congr 1
    funext i
    fin_cases i <;> simp
  refine ⟨_, fun n => if n = 2 then 1 else 0, hM, ?_⟩
  rw [pendulum_eq, pendulum_eq fun n => if n = 2 then 1 else 0]
  simp only [block_act, ← Matrix.mulVec_sub, dot_orth hM]
  intro h
  simp only [Except.ok.injEq, add_right_inj] at h
  rw [Matrix.mulVec_diagonal, Matrix.mulVec_diagonal] at h
  simp [block] at h
  norm_num at h

/-! ## C86 -/

theorem genLoop_ok {α : Type*} (gen : ℕ → Py (List α)) (n bs : ℕ) (hbs : 0 < bs) (hg : ∀ b, ∃ l, gen b = .ok l ∧ l.length = bs) (P : α → Prop)
    (hP : ∀ b l, gen b = .ok l → ∀ z ∈ l, P z) : ∀ (b nGen : ℕ) (acc : List α), acc.length = nGen → (∀ z ∈ acc, P z) →
      ∃ zs, genLoop gen n bs hbs b nGen acc = .ok zs ∧ n ≤ zs.length ∧ ∀ z ∈ zs, P z := by
  intro b nGen acc
  generalize hk : n - nGen = k
  induction k using Nat.strong_induction_on generalizing b nGen acc with
  | _ k ih =>
  intro hacc hPa
  by_cases h : nGen < n
  · obtain ⟨l, e, hl⟩ := hg b
    rw [genLoop, if_pos h, e]
    refine ih _ (by omega) (b + 1) (nGen + bs) (acc ++ l) rfl (by rw [length_append, hl, hacc]) fun z hz => ?_
    rcases mem_append.1 hz with hz | hz
    exacts [hPa z hz, hP b l e z hz]
  · rw [genLoop, if_neg h]
    exact ⟨acc, rfl, by omega, hPa⟩

/-- C86: for every positive number of systems, exactly that many trajectories are generated, and each comes from one of the batches. -/
theorem C86_count {α : Type*} (gen : ℕ → Py (List α)) (n : ℕ) (hn : n ≠ 0) (hg : ∀ b, ∃ l, gen b = .ok l ∧ l.length = min 100 n) :
    ∃ zs, generateData gen n = .ok zs ∧ zs.length = n ∧ ∀ z ∈ zs, ∃ b l, gen b = .ok l ∧ z ∈ l := by
  obtain ⟨zs, e, h1, h2⟩ := genLoop_ok gen n (min 100 n) (by omega) hg (fun z => ∃ b l, gen b = .ok l ∧ z ∈ l) (fun b l e z hz => ⟨b, l, e, hz⟩)
    0 0 [] rfl (by simp)
  refine ⟨zs.take n, by rw [generateData, dif_neg hn, e]; rfl, by rw [length_take]; exact Nat.min_eq_left h1, fun z hz => h2 z (mem_of_mem_take hz)⟩

/-- C86: with a chunk length dividing the trajectory length, every element has the requested number of time points, is a contiguous
piece of its own trajectory starting at a multiple of the chunk length, and there is one per trajectory. -/
theorem C86_chunks_partial {α : Type} (zs : List (List α)) (len c : ℕ) (idx : List ℕ) (hc : c ≠ 0) (hlen : len ≠ 0) (hd : c ∣ len)
    (hz : ∀ z ∈ zs, z.length = len) (hi : idx.length = zs.length) (hr : ∀ i ∈ idx, i < len / c) :
    ∃ out, chunkTrainingData zs len c idx = .ok out ∧ out.length = zs.length ∧
      ∀ (j : ℕ) (hj : j < zs.length) (ho : j < out.length), out[j].length = c ∧ out[j] = (zs[j].drop (idx[j]'(hi ▸ hj) * c)).take c := by
  obtain ⟨m, rfl⟩ := hd
  have hm : m ≠ 0 := by rintro rfl; simp at hlen
  have hq : c * m / c = m := Nat.mul_div_cancel_left _ (Nat.pos_of_ne_zero hc)
  rw [hq] at hr
  have hs : ∀ z ∈ zs, splitEq m z = .ok ((List.range m).map fun i => (z.drop (i * c)).take c) := by
    intro z h
    have e : z.length / m = c := by rw [hz z h, Nat.mul_div_cancel _ (Nat.pos_of_ne_zero hm)]
    rw [splitEq, if_neg, e]
    rw [hz z h]
    simp [hm]
  have hmap : zs.mapM (splitEq m) = .ok (zs.map fun z => (List.range m).map fun i => (z.drop (i * c)).take c) := by
    clear hz hi
    induction zs with
    | nil => rfl
    | cons z zs ih =>
      rw [mapM_cons, hs z (by simp), ih fun z h => hs z (mem_cons_of_mem _ h)]
      rfl
  refine ⟨List.zipWith (fun p i => p.getD i []) (zs.map fun z => (List.range m).map fun i => (z.drop (i * c)).take c) idx, ?_, ?_, ?_⟩
  · simp only [chunkTrainingData, hq]
    rw [if_neg hc, if_neg hm]
    show (do let parts ← zs.mapM (splitEq m); pure _ : Py _) = _
    rw [hmap]
    rfl
  · simp [hi]
  · intro j hj ho
    have hji : j < idx.length := hi ▸ hj
    have hlt : idx[j] < m := hr _ (getElem_mem hji)
    have e : (List.zipWith (fun p i => p.getD i []) (zs.map fun z => (List.range m).map fun i => (z.drop (i * c)).take c) idx)[j]'ho
        = (zs[j].drop (idx[j] * c)).take c := by
      rw [getElem_zipWith]
      simp [getElem?_range hlt]
    refine ⟨?_, e⟩
    rw [e, length_take, length_drop, hz _ (getElem_mem hj)]
    apply Nat.min_eq_left
    have : (idx[j] + 1) * c ≤ m * c := Nat.mul_le_mul_right _ hlt
    rw [Nat.mul_comm c m]
    rw [Nat.add_mul, Nat.one_mul] at this
    omega

/-- The time grid of the dataset has `chunk_len` points, so it matches the chunks of `C86_chunks_partial`. -/
theorem C86_time_grid (c : ℕ) (dt : ℝ) (hdt : 0 < dt) : arangeLen (c * dt) dt = c := by
  rw [arangeLen, mul_div_cancel_right₀ _ hdt.ne', Nat.ceil_natCast]

/-- C86 fails when the chunk length does not divide the trajectory length: eight time points cut for chunks of three give chunks of
four (while the time grid has three points), and seven time points are refused. -/
theorem C86_counterexample :
    chunkTrainingData [[0, 1, 2, 3, 4, 5, 6, 7]] 8 3 [1] = .ok [[4, 5, 6, 7]] ∧ arangeLen (3 * (1 / 5)) (1 / 5) = 3 ∧
      chunkTrainingData [[0, 1, 2, 3, 4, 5, 6]] 7 3 [1] = .error .value := by
  refine ⟨by decide +kernel, ?_, by decide +kernel⟩
  have := C86_time_grid 3 (1 / 5) (by norm_num)
  simpa using this

example : ∃ out, chunkTrainingData [[0, 1, 2, 3, 4, 5], [6, 7, 8, 9, 10, 11]] 6 3 [1, 0] = .ok out ∧ out = [[3, 4, 5], [6, 7, 8]] :=
  ⟨_, by decide +kernel, rfl⟩

end Verif
