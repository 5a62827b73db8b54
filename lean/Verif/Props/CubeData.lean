import Verif.Model.CubeData
import Verif.Props.CubeObjects
import Verif.Props.DatasetReps
import Verif.Props.Layers

/-!
# C106: the cube datasets
-/
namespace Verif
open List Matrix

/-- `rep_in.rho(h) x` for `rep_in = 6*Vector`. -/
noncomputable def rhoIn {n : ℕ} (h : Matrix (Fin n) (Fin n) ℝ) (x : List ℝ) : List ℝ :=
  ((Expr.nsmul 6 (.rep 0)).den 0 ⟨fun _ _ => .lazy (DMat.ofMatrix h), fun _ _ => .lazy (DMat.ofMatrix h⁻¹.transpose)⟩).1.mulVec x

theorem getD_flatState {n : ℕ} [NeZero n] (S : Matrix (Fin 6) (Fin n) ℝ) (k : Fin 6) (s : Fin n) : (flatState S).getD (k * n + s) 0 = S k s := by
  have hn : 0 < n := Nat.pos_of_ne_zero (NeZero.ne n)
  have h : k.val * n + s.val < 6 * n := by
    have := Nat.mul_le_mul_right n (show k.val + 1 ≤ 6 from k.2)
    rw [Nat.succ_mul] at this
    have := s.2
    omega
  unfold flatState
  rw [getD_eq_getElem _ _ (by simpa using h)]
  simp only [List.getElem_map, List.getElem_range]
  congr 1
  · ext
    simp only [Fin.ofNat]
    rw [Nat.mul_comm, Nat.mul_add_div hn, Nat.div_eq_of_lt s.2, Nat.add_zero, Nat.mod_eq_of_lt k.2]
  · ext
    simp only [Fin.ofNat]
    rw [Nat.mul_comm, Nat.mul_add_mod, Nat.mod_eq_of_lt s.2]

theorem flatState_inj {n : ℕ} [NeZero n] {S T : Matrix (Fin 6) (Fin n) ℝ} (h : flatState S = flatState T) : S = T := by
  ext k s
  rw [← getD_flatState S, h, getD_flatState]

theorem rhoIn_flat {n : ℕ} [NeZero n] (h : Matrix (Fin n) (Fin n) ℝ) (S : Matrix (Fin 6) (Fin n) ℝ) :
    rhoIn h (flatState S) = flatState (S * hᵀ) := by
  have hn : 0 < n := Nat.pos_of_ne_zero (NeZero.ne n)
  have hl : (flatState S).length = 6 * n := by simp [flatState]
  have hs := bdiag_replicate_shape (d := n) (A := DMat.ofMatrix h) ⟨rfl, rfl⟩ 6
  have he : rhoIn h (flatState S) = (DMat.bdiag (replicate 6 (DMat.ofMatrix h))).mulVec (flatState S) := rfl
  rw [he]
  refine DMat.vec_ext (by rw [DMat.length_mulVec, hs.1]; simp [flatState]) fun t ht => ?_
  rw [DMat.length_mulVec, hs.1] at ht
  have hk : t / n < 6 := Nat.div_lt_of_lt_mul (by rwa [Nat.mul_comm] at ht)
  have ha : t % n < n := Nat.mod_lt _ hn
  have e := getD_bdiag_replicate (d := n) (A := DMat.ofMatrix h) ⟨rfl, rfl⟩ 6 (flatState S) hl (t / n) hk (t % n) ha
  have e' := getD_flatState (S * hᵀ) ⟨t / n, hk⟩ ⟨t % n, ha⟩
  simp only at e'
  rw [Nat.div_add_mod'] at e e'
  rw [e, e', Matrix.mul_apply, Finset.sum_range]
  refine Finset.sum_congr rfl fun b _ => ?_
  have := getD_flatState S ⟨t / n, hk⟩ b
  simp only at this
  rw [this, transpose_apply, mul_comm, ← ofMatrix_entry h ⟨t % n, ha⟩ b]

theorem npRepeat_length {α : Type} (r : ℕ) (l : List α) : (npRepeat r l).length = l.length * r := by
  simp [npRepeat, length_flatMap, Function.comp_def]

theorem getD_npRepeat {α : Type} (r : ℕ) (d : α) : ∀ (l : List α) (i : ℕ), i < l.length * r → (npRepeat r l).getD i d = l.getD (i / r) d
  | [], i, h => absurd h (by simp)
  | a :: l, i, h => by
    have hr : 0 < r := by
      rcases Nat.eq_zero_or_pos r with h0 | h0
      · simp [h0] at h
      · exact h0
    show (replicate r a ++ npRepeat r l).getD i d = _
    by_cases hi : i < r
    · rw [getD_append _ _ _ _ (by simpa using hi), Nat.div_eq_of_lt hi]
      simp [hi]
    · push Not at hi
      rw [getD_append_right _ _ _ _ (by simpa using hi), length_replicate, getD_npRepeat r d l (i - r) (by
        rw [length_cons, Nat.succ_mul] at h; omega), show i / r = (i - r) / r + 1 by
          conv_lhs => rw [← Nat.sub_add_cancel hi]
          exact Nat.add_div_right _ hr]
      simp

/-- What scrambling does: every item is a state times a sample, with the label of the state; every label occurs `r` times as often. -/
theorem scramble_spec {n r : ℕ} [NeZero n] {X : List (Matrix (Fin 6) (Fin n) ℝ)} {Y : List ℝ} (hXY : X.length = Y.length)
    {gs : List (Matrix (Fin n) (Fin n) ℝ)} {p : List ℕ} (hp : p ~ range (X.length * r)) {D : CubeSet} (hD : scramble r X Y gs p = .ok D) :
    D.X.length = X.length * r ∧ D.Y.length = X.length * r ∧ D.Y ~ npRepeat r Y ∧
    ∀ i < X.length * r, ∃ j < X.length, ∃ M ∈ gs, D.X.getD i [] = flatState (X.getD j 0 * M) ∧ D.Y.getD i 0 = Y.getD j 0 := by
  unfold scramble at hD
  split at hD
  · cases hD
  · rename_i hlen
    push Not at hlen
    cases hD
    rw [npRepeat_length] at hlen
    have hpl : p.length = X.length * r := by simpa using hp.length_eq
    refine ⟨by simpa using hpl, by simpa using hpl, ?_, ?_⟩
    · refine (hp.map _).trans ?_
      have : (range (X.length * r)).map (fun i => (npRepeat r Y).getD i 0) = npRepeat r Y := by
        refine List.ext_getElem (by simp [npRepeat_length, hXY]) fun i h1 h2 => ?_
        simp only [List.getElem_map, List.getElem_range]
        rw [getD_eq_getElem]
      rw [this]
    · intro i hi
      have hpi : p.getD i 0 < X.length * r := by
        have := hp.mem_iff.1 (getD_mem_of_lt (by rw [hpl]; exact hi) : p.getD i 0 ∈ p)
        simpa using this
      obtain ⟨q, hq⟩ : ∃ q, q = p.getD i 0 := ⟨_, rfl⟩
      rw [← hq] at hpi
      have hr : 0 < r := by
        rcases Nat.eq_zero_or_pos r with h0 | h0
        · simp [h0] at hi
        · exact h0
      refine ⟨q / r, Nat.div_lt_of_lt_mul (by rwa [Nat.mul_comm] at hpi), gs.getD q 0, by rw [getD_eq_getElem gs _ (by omega)]; exact getElem_mem _, ?_, ?_⟩
      · have e1 : (p.map fun i => flatState ((zipWith (· * ·) (npRepeat r X) gs).getD i 0)).getD i [] =
            flatState ((zipWith (· * ·) (npRepeat r X) gs).getD q 0) := by
          rw [getD_eq_getElem _ _ (by simpa [hpl] using hi), List.getElem_map, hq, getD_eq_getElem p _ (by rw [hpl]; exact hi)]
        refine e1.trans ?_
        congr 1
        rw [getD_eq_getElem _ _ (by simp [npRepeat_length]; omega), getElem_zipWith, ← getD_npRepeat r 0 X q hpi,
          getD_eq_getElem (npRepeat r X) _ (by simpa [npRepeat_length] using hpi), getD_eq_getElem gs _ (by omega)]
      · have e1 : (p.map fun i => (npRepeat r Y).getD i 0).getD i 0 = (npRepeat r Y).getD q 0 := by
          rw [getD_eq_getElem _ _ (by simpa [hpl] using hi), List.getElem_map, hq, getD_eq_getElem p _ (by rw [hpl]; exact hi)]
        refine e1.trans ?_
        rw [getD_npRepeat r 0 Y q (by rw [← hXY]; exact hpi)]

/-- A group of permutation matrices contains the transposes, which are the inverses. -/
theorem generated_transpose {n : ℕ} {disc : List (Matrix (Fin n) (Fin n) ℝ)} (h : ∀ M, Generated [] disc M → ∃ σ, M = pm σ)
    {M : Matrix (Fin n) (Fin n) ℝ} (hM : Generated [] disc M) : Generated [] disc Mᵀ ∧ M * Mᵀ = 1 ∧ Mᵀ * M = 1 := by
  obtain ⟨σ, rfl⟩ := h M hM
  have hu : ∀ g ∈ disc, IsUnit g.det := by
    intro g hg
    obtain ⟨τ, rfl⟩ := h g (.gen hg)
    have : pm τ * pm τ⁻¹ = 1 := by rw [pm_mul, inv_mul_cancel, pm_one]
    exact (isUnit_iff_isUnit_det _).1 (IsUnit.of_mul_eq_one _ this)
  have ht : (pm σ)ᵀ = (pm σ)⁻¹ := by
    rw [pm_inv]
    ext i j
    rw [transpose_apply, pm_apply, pm_apply]
    by_cases h : σ j = i
    · rw [if_pos h, if_pos (by rw [← h]; simp)]
    · rw [if_neg h, if_neg fun h' => h (by rw [← h']; simp)]
  rw [ht]
  refine ⟨hM.inverse hu, ?_, ?_⟩
  · rw [pm_inv, pm_mul, inv_mul_cancel, pm_one]
  · rw [pm_inv, pm_mul, mul_inv_cancel, pm_one]

theorem generated_isPerm {n : ℕ} {gens : List (List ℕ)} (hg : ∀ p ∈ gens, p ~ range n) {disc : List (Matrix (Fin n) (Fin n) ℝ)}
    (h : ∀ M, Generated [] disc M ↔ ∃ p, InPermGroup n gens p ∧ IsPermMatrix p M) : ∀ M, Generated [] disc M → ∃ σ, M = pm σ := by
  intro M hM
  obtain ⟨p, hp, hpM⟩ := (h M).1 hM
  obtain ⟨σ, hσ⟩ := exists_perm_of_list (hp.perm hg)
  exact ⟨σ, (isPermMatrix_iff hσ M).1 hpM⟩

theorem cubeGens_perm : ∀ p ∈ cubeGens, p ~ range 6 := by decide +kernel

/-- Two labels repeated `r` times each: each occurs `r` times. -/
theorem count_two {a b : ℕ} {r : ℕ} {Y : List ℝ} (h : Y ~ npRepeat r (replicate a 1 ++ replicate b 0)) : Y.count 1 = a * r ∧ Y.count 0 = b * r := by
  have hc : ∀ (c : ℝ) (l : List ℝ), (npRepeat r l).count c = l.count c * r := by
    intro c l
    induction l with
    | nil => simp [npRepeat]
    | cons x l ih =>
      show (replicate r x ++ npRepeat r l).count c = _
      rw [count_append, ih, count_cons, count_replicate, Nat.add_mul]
      by_cases hx : x == c <;> simp [hx, Nat.add_comm]
  constructor
  · rw [h.count_eq, hc]
    congr 1
    simp [count_append, count_replicate]
  · rw [h.count_eq, hc]
    congr 1
    simp [count_append, count_replicate]

/-- C83: the inverted state shows on every face the colour of the opposite face.  The face opposite to `f` is the face other than `f`
that stays in place under every symmetry of the cube that keeps `f` in place. -/
theorem C83_inverted_state : ∀ f < 6, cubeParity.getD f 0 < 6 ∧ cubeParity.getD f 0 ≠ f ∧
    (∀ q, InPermGroup 6 cubeGens q → q.getD f 0 = f → q.getD (cubeParity.getD f 0) 0 = cubeParity.getD f 0) ∧
    ∀ f' < 6, f' ≠ f → f' ≠ cubeParity.getD f 0 → ∃ q, InPermGroup 6 cubeGens q ∧ q.getD f 0 = f ∧ q.getD f' 0 ≠ f' := by
  have h0 : ∀ f < 6, cubeParity.getD f 0 < 6 ∧ cubeParity.getD f 0 ≠ f := by decide +kernel
  have h1 : ∀ f < 6, ∀ q ∈ cubeElems, q.getD f 0 = f → q.getD (cubeParity.getD f 0) 0 = cubeParity.getD f 0 := by decide +kernel
  have h2 : ∀ f < 6, ∀ f' < 6, f' ≠ f → f' ≠ cubeParity.getD f 0 →
      (cubeElems.any fun q => q.getD f 0 == f && q.getD f' 0 != f') = true := by decide +kernel
  intro f hf
  refine ⟨(h0 f hf).1, (h0 f hf).2, fun q hq => h1 f hf q ((cubeElems_iff q).1 hq), fun f' hf' h h' => ?_⟩
  obtain ⟨q, hq, e⟩ := List.any_eq_true.1 (h2 f hf f' hf' h h')
  rw [Bool.and_eq_true, beq_iff_eq, bne_iff_ne] at e
  exact ⟨q, (cubeElems_iff q).2 hq, e⟩

/-- **C106, `InvertedCube`.** Whatever elements of `Cube()` are drawn and whatever the shuffling, the test set has fifty items of either
label; every test item is a training item of the same label moved by `rep_in.rho` of an element of the group; and an item is labelled
`1` exactly if some element of the group takes it to the solved cube. -/
theorem C106_inverted : ∃ G, cubeGroup = .ok G ∧ ∀ (gs : List (Matrix (Fin 6) (Fin 6) ℝ)) (p : List ℕ), gs.length = 100 →
    (∀ M ∈ gs, Generated [] (G.disc.map (denseGen 6)) M) → p ~ range 100 → ∃ T D, invertedCube true gs p = .ok T ∧ invertedCube false gs p = .ok D ∧
      D.X.length = 100 ∧ D.Y.length = 100 ∧ D.Y.count 1 = 50 ∧ D.Y.count 0 = 50 ∧
      ∀ i < 100, (∃ j < 2, ∃ h, Generated [] (G.disc.map (denseGen 6)) h ∧ D.X.getD i [] = rhoIn h (T.X.getD j []) ∧ D.Y.getD i 0 = T.Y.getD j 0) ∧
        (D.Y.getD i 0 = 1 ↔ ∃ h, Generated [] (G.disc.map (denseGen 6)) h ∧ rhoIn h (D.X.getD i []) = T.X.getD 0 []) := by
  obtain ⟨G, hG, -, -, -, -, hiff, -⟩ := C59_cube_object
  refine ⟨G, hG, fun gs p hgs hgen hp => ?_⟩
  have hperm := generated_isPerm cubeGens_perm hiff
  obtain ⟨D, hD⟩ : ∃ D, scramble 50 [solved6, parity6] [1, 0] gs p = .ok D := by
    unfold scramble
    rw [if_neg (by simp [npRepeat_length, hgs])]
    exact ⟨_, rfl⟩
  obtain ⟨h1, h2, h3, h4⟩ := scramble_spec (X := [solved6, parity6]) (Y := [1, 0]) rfl hp hD
  obtain ⟨c1, c0⟩ := count_two (a := 1) (b := 1) h3
  refine ⟨_, D, rfl, hD, h1, h2, c1, c0, fun i hi => ?_⟩
  obtain ⟨j, hj, M, hM, e1, e2⟩ := h4 i hi
  obtain ⟨m1, m2, m3⟩ := generated_transpose hperm (hgen M hM)
  have hsol : solved6 = 1 := by ext a b; simp [solved6, Matrix.one_apply]
  have hTx : ([flatState solved6, flatState parity6] : List (List ℝ)).getD j [] = flatState (([solved6, parity6] : List _).getD j 0) := by
    have : j = 0 ∨ j = 1 := by simp at hj; omega
    rcases this with rfl | rfl <;> rfl
  refine ⟨⟨j, hj, Mᵀ, m1, ?_, e2⟩, ?_⟩
  · rw [hTx, rhoIn_flat, transpose_transpose, e1]
  · rw [e1, e2]
    have : j = 0 ∨ j = 1 := by simp at hj; omega
    rcases this with rfl | rfl
    · refine ⟨fun _ => ⟨M, hgen M hM, ?_⟩, fun _ => rfl⟩
      rw [rhoIn_flat]
      show flatState (solved6 * M * Mᵀ) = flatState solved6
      rw [hsol, Matrix.one_mul, m2]
    · refine ⟨fun h => absurd (show (0 : ℝ) = 1 from h) zero_ne_one, ?_⟩
      rintro ⟨h, hh, he⟩
      exfalso
      rw [rhoIn_flat] at he
      have he : parity6 * M * hᵀ = 1 := (flatState_inj he).trans hsol
      have hg : Generated [] (G.disc.map (denseGen 6)) (M * hᵀ) := (hgen M hM).mul (generated_transpose hperm hh).1
      obtain ⟨t1, t2, t3⟩ := generated_transpose hperm hg
      rw [Matrix.mul_assoc] at he
      have hpar : parity6 = (M * hᵀ)ᵀ := by
        have := congrArg (· * (M * hᵀ)ᵀ) he
        simpa only [Matrix.mul_assoc, t2, Matrix.mul_one, Matrix.one_mul] using this
      rw [← hpar] at t1
      obtain ⟨q, hq, hqM⟩ := (hiff _).1 t1
      have hmem := (cubeElems_iff q).1 hq
      have hqv : ∀ a b : Fin 6, q.getD a 0 = b ↔ a.val = cubeParity.getD b 0 := by
        intro a b
        have := hqM a b
        have hlt : ∀ b : Fin 6, cubeParity.getD b 0 < 6 := by decide +kernel
        simp only [parity6, solved6, Fin.ext_iff, Fin.ofNat, Nat.mod_eq_of_lt (hlt b)] at this
        constructor
        · intro c1
          by_contra c2
          rw [if_pos c1, if_neg c2] at this
          exact zero_ne_one this
        · intro c2
          by_contra c1
          rw [if_neg c1, if_pos c2] at this
          exact one_ne_zero this
      have key : ∀ q ∈ cubeElems, ¬ ∀ a b : Fin 6, q.getD a 0 = b ↔ a.val = cubeParity.getD b 0 := by decide +kernel
      exact key q hmem hqv

/-- The state with given sticker colours. -/
def colorState (c : List ℕ) : Matrix (Fin 6) (Fin 48) ℝ := fun k s => if c.getD s 0 = k then 1 else 0

theorem solved48_eq : solved48 = colorState solvedColors := by
  ext k s
  have h : solvedColors.getD s 0 = s / 8 := by
    rw [solvedColors, getD_eq_getElem _ _ (by simp [s.2])]
    simp
  simp only [solved48, colorState, h]
  congr 1
  refine propext ⟨fun h => by omega, fun h => by omega⟩

theorem parity48_eq : parity48 = colorState parityColors := by
  ext k s
  have h : parityColors.getD s 0 = [5, 3, 4, 1, 2, 0].getD (s / 8) 0 := by
    rw [parityColors, getD_eq_getElem _ _ (by simp [s.2])]
    simp
  have hlt : ∀ f < 6, [5, 3, 4, 1, 2, 0].getD f 0 < 6 := by decide +kernel
  have := hlt (s / 8) (by omega)
  simp only [parity48, solved48, colorState, h, Fin.ofNat]
  obtain ⟨c, hc⟩ : ∃ c, c = [5, 3, 4, 1, 2, 0].getD (s.val / 8) 0 := ⟨_, rfl⟩
  rw [← hc] at this ⊢
  congr 1
  refine propext ⟨fun h => by omega, fun h => by omega⟩

theorem colorState_gather {c q : List ℕ} (hq : q ~ range 48) {M : Matrix (Fin 48) (Fin 48) ℝ} (hM : IsPermMatrix q M) :
    colorState (gather c q) = colorState c * Mᵀ := by
  obtain ⟨σ, hσ⟩ := exists_perm_of_list hq
  ext k s
  rw [Matrix.mul_apply, Finset.sum_eq_single (σ s)]
  · rw [transpose_apply, hM, if_pos (hσ s), mul_one]
    simp only [colorState]
    rw [getD_gather (by rw [length_of_perm_range hq]; exact s.2), hσ]
  · intro t _ ht
    rw [transpose_apply, hM, if_neg (by rw [hσ]; exact fun h => ht (Fin.ext h.symm)), mul_zero]
  · simp

/-- **C106, `BrokenRubiksCube`.** Whatever elements of `RubiksCube()` are drawn and whatever the shuffling, the test set has 220 items of
either label, and every test item is a training item of the same label moved by `rep_in.rho` of an element of the group. -/
theorem C106_rubiks : ∃ G, rubiksGroup = .ok G ∧ ∀ (gs : List (Matrix (Fin 48) (Fin 48) ℝ)) (p : List ℕ), gs.length = 440 →
    (∀ M ∈ gs, Generated [] (G.disc.map (denseGen 48)) M) → p ~ range 440 → ∃ T D, brokenRubiks true gs p = .ok T ∧ brokenRubiks false gs p = .ok D ∧
      T.X.length = 22 ∧ D.X.length = 440 ∧ D.Y.length = 440 ∧ D.Y.count 1 = 220 ∧ D.Y.count 0 = 220 ∧
      ∀ i < 440, ∃ j < 22, ∃ h, Generated [] (G.disc.map (denseGen 48)) h ∧ D.X.getD i [] = rhoIn h (T.X.getD j []) ∧ D.Y.getD i 0 = T.Y.getD j 0 := by
  obtain ⟨G, hG, -, -, -, -, hiff, -⟩ := C100_object
  refine ⟨G, hG, fun gs p hgs hgen hp => ?_⟩
  have hperm := generated_isPerm (fun p hp => (C59_rubiks_order p hp).1) hiff
  obtain ⟨D, hD⟩ : ∃ D, scramble 20 (replicate 11 solved48 ++ replicate 11 parity48) (replicate 11 1 ++ replicate 11 0) gs p = .ok D := by
    unfold scramble
    rw [if_neg (by simp [npRepeat_length, hgs])]
    exact ⟨_, rfl⟩
  obtain ⟨h1, h2, h3, h4⟩ := scramble_spec (X := replicate 11 solved48 ++ replicate 11 parity48) (Y := replicate 11 1 ++ replicate 11 0) (by simp)
    (by simpa using hp) hD
  obtain ⟨c1, c0⟩ := count_two (a := 11) (b := 11) h3
  have hD' : brokenRubiks false gs p = .ok D := by
    unfold brokenRubiks
    simp only [Bool.false_eq_true, if_false]
    exact hD
  refine ⟨_, D, rfl, hD', by simp, by simpa using h1, by simpa using h2, c1, c0, fun i hi => ?_⟩
  obtain ⟨j, hj, M, hM, e1, e2⟩ := h4 i (by simpa using hi)
  obtain ⟨m1, m2, m3⟩ := generated_transpose hperm (hgen M hM)
  have hj' : j < 22 := by simpa using hj
  refine ⟨j, hj', Mᵀ, m1, ?_, e2⟩
  rw [e1]
  show _ = rhoIn Mᵀ (((replicate 11 solved48 ++ replicate 11 parity48).map flatState).getD j [])
  have : ((replicate 11 solved48 ++ replicate 11 parity48).map flatState).getD j [] =
      flatState ((replicate 11 solved48 ++ replicate 11 parity48).getD j 0) := by
    rw [getD_eq_getElem _ _ (by simpa using hj'), List.getElem_map, getD_eq_getElem _ _ hj]
  rw [this, rhoIn_flat, transpose_transpose]

/-- **C106 fails for `BrokenRubiksCube`.** Every item of the test set, also those labelled `0` (unsolvable), is taken to the solved cube by
some element of the group. -/
theorem C106_counterexample_rubiks : ∃ G, rubiksGroup = .ok G ∧ ∀ (gs : List (Matrix (Fin 48) (Fin 48) ℝ)) (p : List ℕ), gs.length = 440 →
    (∀ M ∈ gs, Generated [] (G.disc.map (denseGen 48)) M) → p ~ range 440 → ∃ T D, brokenRubiks true gs p = .ok T ∧ brokenRubiks false gs p = .ok D ∧
      (∃ i < 440, D.Y.getD i 0 = 0) ∧
      ∀ i < 440, ∃ h, Generated [] (G.disc.map (denseGen 48)) h ∧ rhoIn h (D.X.getD i []) = T.X.getD 0 [] := by
  obtain ⟨G, hG, h⟩ := C106_rubiks
  obtain ⟨G', hG', -, -, -, -, hiff, -⟩ := C100_object
  cases hG.symm.trans hG'
  refine ⟨G, hG, fun gs p hgs hgen hp => ?_⟩
  obtain ⟨T, D, hT, hD, hT22, hX, hY, -, c0, hi⟩ := h gs p hgs hgen hp
  have hperm := generated_isPerm (fun p hp => (C59_rubiks_order p hp).1) hiff
  refine ⟨T, D, hT, hD, ?_, fun i hii => ?_⟩
  · have : (0 : ℝ) ∈ D.Y := count_pos_iff.1 (by rw [c0]; norm_num)
    obtain ⟨i, hi, e⟩ := getElem_of_mem this
    exact ⟨i, by omega, by rw [getD_eq_getElem _ _ hi, e]⟩
  · obtain ⟨j, hj, h, hh, e, -⟩ := hi i hii
    have hT' : T = ⟨(replicate 11 solved48 ++ replicate 11 parity48).map flatState, replicate 11 1 ++ replicate 11 0⟩ :=
      (Except.ok.inj hT).symm
    -- every training item is the solved state moved by some element
    have htr : ∃ K, Generated [] (G.disc.map (denseGen 48)) K ∧ T.X.getD j [] = flatState (solved48 * K) := by
      have e1 : T.X.getD j [] = flatState ((replicate 11 solved48 ++ replicate 11 parity48).getD j 0) := by
        rw [hT']
        show ((replicate 11 solved48 ++ replicate 11 parity48).map flatState).getD j [] = _
        rw [getD_eq_getElem _ _ (by simpa using hj), List.getElem_map, getD_eq_getElem _ _ (by simpa using hj)]
      by_cases h11 : j < 11
      · refine ⟨1, .one, ?_⟩
        rw [e1, getD_append _ _ _ _ (by simpa using h11), Matrix.mul_one, getD_eq_getElem _ _ (by simpa using h11), getElem_replicate]
      · push Not at h11
        obtain ⟨q, hq, hc⟩ := C83_rubiks_counterexample
        have hqp := hq.perm fun p hp => (C59_rubiks_order p hp).1
        obtain ⟨σ, hσ⟩ := exists_perm_of_list hqp
        have hM : IsPermMatrix q (pm σ) := (isPermMatrix_iff hσ _).2 rfl
        have hg := generated_transpose hperm ((hiff _).2 ⟨q, hq, hM⟩)
        refine ⟨_, hg.1, ?_⟩
        rw [e1, getD_append_right _ _ _ _ (by simpa using h11), getD_eq_getElem _ _ (by simp; omega), getElem_replicate, parity48_eq,
          solved48_eq, ← hc, colorState_gather hqp hM]
    obtain ⟨K, hK, eK⟩ := htr
    rw [e, eK, rhoIn_flat]
    have hg : Generated [] (G.disc.map (denseGen 48)) (K * hᵀ) := hK.mul (generated_transpose hperm hh).1
    refine ⟨K * hᵀ, hg, ?_⟩
    rw [rhoIn_flat, Matrix.mul_assoc, Matrix.mul_assoc, ← Matrix.mul_assoc K, (generated_transpose hperm hg).2.1, Matrix.mul_one, hT']
    rfl

/-- **C106, consequence.** A classifier that does not change under the group — as every network built for this dataset, by C36/C40 — labels
exactly 220 of the 440 test items correctly, whatever it has learnt. -/
theorem C106_rubiks_accuracy : ∃ G, rubiksGroup = .ok G ∧ ∀ (gs : List (Matrix (Fin 48) (Fin 48) ℝ)) (p : List ℕ), gs.length = 440 →
    (∀ M ∈ gs, Generated [] (G.disc.map (denseGen 48)) M) → p ~ range 440 → ∃ D, brokenRubiks false gs p = .ok D ∧
      ∀ f : List ℝ → ℝ, (∀ x, f x = 0 ∨ f x = 1) → (∀ h, Generated [] (G.disc.map (denseGen 48)) h → ∀ x : List ℝ, x.length = 288 → f (rhoIn h x) = f x) →
        ((D.X.zip D.Y).filter fun xy => f xy.1 = xy.2).length = 220 := by
  obtain ⟨G, hG, h⟩ := C106_rubiks
  obtain ⟨G', hG', h'⟩ := C106_counterexample_rubiks
  cases hG.symm.trans hG'
  refine ⟨G, hG, fun gs p hgs hgen hp => ?_⟩
  obtain ⟨T, D, hT, hD, -, hX, hY, c1, c0, hi⟩ := h gs p hgs hgen hp
  obtain ⟨T', D', hT', hD', -, hs⟩ := h' gs p hgs hgen hp
  cases hT.symm.trans hT'
  cases hD.symm.trans hD'
  refine ⟨D, hD, fun f h01 hf => ?_⟩
  have hTt : T = ⟨(replicate 11 solved48 ++ replicate 11 parity48).map flatState, replicate 11 1 ++ replicate 11 0⟩ :=
    (Except.ok.inj hT).symm
  have hlen : ∀ j < 22, (T.X.getD j []).length = 288 := by
    intro j hj
    rw [hTt]
    show (((replicate 11 solved48 ++ replicate 11 parity48).map flatState).getD j []).length = 288
    rw [getD_eq_getElem _ _ (by simpa using hj), List.getElem_map]
    simp [flatState]
  have hc : ∀ i < 440, f (D.X.getD i []) = f (T.X.getD 0 []) := by
    intro i hii
    obtain ⟨k, hk, ek⟩ := hs i hii
    obtain ⟨j, hj, h1, hh1, e1, -⟩ := hi i hii
    have hl : (D.X.getD i []).length = 288 := by
      rw [e1]
      have := (bdiag_replicate_shape (d := 48) (A := DMat.ofMatrix h1) ⟨rfl, rfl⟩ 6).1
      refine (DMat.length_mulVec _ _).trans ?_
      exact this
    rw [← ek, hf k hk _ hl]
  obtain ⟨c, hcv⟩ : ∃ c, c = f (T.X.getD 0 []) := ⟨_, rfl⟩
  have e : (D.X.zip D.Y).filter (fun xy => f xy.1 = xy.2) = (D.X.zip D.Y).filter (fun xy => xy.2 == c) := by
    refine filter_congr fun xy hxy => ?_
    obtain ⟨i, hi', e⟩ := getElem_of_mem hxy
    rw [getElem_zip] at e
    have hi1 : i < D.X.length := by rw [length_zip] at hi'; omega
    have : f xy.1 = c := by
      rw [hcv, ← hc i (by omega), getD_eq_getElem _ _ hi1, ← e]
    rw [this]
    by_cases h : c = xy.2
    · simp [h]
    · simp [h, Ne.symm h]
  rw [e]
  have e2 : ((D.X.zip D.Y).filter fun xy => xy.2 == c).length = D.Y.count c := by
    have h1 : D.Y = (D.X.zip D.Y).map Prod.snd := (map_snd_zip (by omega)).symm
    conv_rhs => rw [h1]
    rw [count_eq_countP, countP_map, countP_eq_length_filter]
    rfl
  rw [e2]
  rcases h01 (T.X.getD 0 []) with h | h
  · rw [hcv, h, c0]
  · rw [hcv, h, c1]

/-- The hypotheses are met: the identity drawn every time and no shuffling. -/
example (disc : List (Matrix (Fin 48) (Fin 48) ℝ)) : (replicate 440 (1 : Matrix (Fin 48) (Fin 48) ℝ)).length = 440 ∧
    (∀ M ∈ replicate 440 (1 : Matrix (Fin 48) (Fin 48) ℝ), Generated [] disc M) ∧ range 440 ~ range 440 :=
  ⟨length_replicate, fun M hM => by rw [eq_of_mem_replicate hM]; exact .one, .refl _⟩

end Verif
