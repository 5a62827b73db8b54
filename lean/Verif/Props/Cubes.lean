import Verif.Lemmas.CubeWords

/-!
# Cube groups and the cube datasets
-/
namespace Verif
open List

/-- C59: the six generators of the Rubik's cube group are permutations of the 48 stickers of order four. -/
theorem C59_rubiks_order : ∀ p ∈ rubiksGens, p ~ range 48 ∧ gather p p ≠ range 48 ∧
    gather p (gather p (gather p p)) = range 48 := by
  decide +kernel

/-- C59: turns of opposite faces commute (up/down, front/back, right/left). -/
theorem C59_opposite_commute : gather rubiksU rubiksD = gather rubiksD rubiksU ∧
    gather rubiksF rubiksB = gather rubiksB rubiksF ∧ gather rubiksR rubiksL = gather rubiksL rubiksR := by
  decide +kernel

/-- C59: every element of the group takes corner stickers to corner stickers and edge stickers to edge
stickers. -/
theorem C59_corners_edges {p : List ℕ} (h : InPermGroup 48 rubiksGens p) : ∀ s < 48, isCorner (p.getD s 0) = isCorner s := by
  have hp : ∀ q, InPermGroup 48 rubiksGens q → q ~ range 48 := fun q hq => hq.perm fun p hp => (C59_rubiks_order p hp).1
  have key : ∀ p ∈ rubiksGens, (∀ s < 48, isCorner (p.getD s 0) = isCorner s) ∧ (∀ s < 48, isCorner ((argsort p).getD s 0) = isCorner s) := by
    decide +kernel
  induction h with
  | one => intro s hs; rw [getD_range hs]
  | mul hm hq ih =>
    intro s hs
    have hl := length_of_perm_range (hp _ hq)
    rw [getD_gather (by omega), (key _ hm).1 _ (lt_of_perm_range (hp _ hq) (getD_mem_of_lt (by omega))), ih s hs]
  | inv hm hq ih =>
    intro s hs
    have hl := length_of_perm_range (hp _ hq)
    rw [getD_gather (by omega), (key _ hm).2 _ (lt_of_perm_range (hp _ hq) (getD_mem_of_lt (by omega))), ih s hs]

/-- C59 fails for `RubiksCube`: the generators tear the cubies apart.  However stickers are assigned to
cubies, if every generator moves whole cubies and two different corner stickers belong to the same cubie,
then all 24 corner stickers belong to one cubie; and the same for edge stickers. -/
theorem C59_cubies_counterexample (cubie : ℕ → ℕ)
    (hg : ∀ p ∈ rubiksGens, ∀ i < 48, ∀ j < 48, cubie i = cubie j → cubie (p.getD i 0) = cubie (p.getD j 0))
    {a b : ℕ} (ha : a < 48) (hb : b < 48) (hne : a ≠ b) (hk : isCorner a = isCorner b) (hab : cubie a = cubie b) :
    ∀ i < 48, ∀ j < 48, isCorner i = isCorner a → isCorner j = isCorner a → cubie i = cubie j := by
  rw [rubiksGens_eq] at hg
  have hlt : ∀ p ∈ rubiksLit, ∀ i < 48, p.getD i 0 < 48 := by decide +kernel
  have hw : ∀ a < 48, (∀ g ∈ toRoot.getD a [], g < 6) ∧ (applyWord (toRoot.getD a []) a = 0 ∧ isCorner a ∨ applyWord (toRoot.getD a []) a = 1 ∧ isCorner a = false) ∧
      ∀ b < 48, isCorner (applyWord (toRoot.getD a []) b) = isCorner b ∧ (b = a ∨ applyWord (toRoot.getD a []) b ≠ applyWord (toRoot.getD a []) a) := by
    decide +kernel
  obtain ⟨h6, hr, hb'⟩ := hw a ha
  obtain ⟨h1, h2, h3⟩ := applyWord_rel (fun i j => cubie i = cubie j) hg hlt _ a b h6 ha hb hab
  obtain ⟨hc, hne'⟩ := hb' b hb
  have hne2 := hne'.resolve_left (Ne.symm hne)
  have heq : Equivalence fun i j => cubie i = cubie j := ⟨fun _ => rfl, Eq.symm, Eq.trans⟩
  have main : ∀ x y, x < 48 → y < 48 → cubie x = cubie y → blockCheck x y = true → ∀ i < 48, isCorner i = isCorner x → cubie i = cubie x := by
    intro x y hx hy hxy hck i hi hic
    simp only [blockCheck, all_eq_true, mem_range, Bool.or_eq_true, bne_iff_ne, ne_eq, beq_iff_eq] at hck
    refine closeLab_sound rubiksLit (fun i j => cubie i = cubie j) heq hg hlt 400 [(x, y)] (range 48) (by simp [hx, hy, hxy]) (by simp) ?_ i hi x hx
      ((hck i hi).resolve_left (fun h => h hic))
    intro i hi j hj hij
    rw [getD_range hi, getD_range hj] at hij
    rw [hij]
  intro i hi j hj hia hja
  rcases hr with ⟨h0, hca⟩ | ⟨h0, hca⟩
  · have hck := blockCheck_corner
    simp only [all_eq_true, mem_range, Bool.or_eq_true, bne_iff_ne, ne_eq, beq_iff_eq] at hck
    have := main 0 _ (by omega) h2 (by rw [← h3, h0]) (((hck _ h2).resolve_left (by
      rintro (h | h)
      · exact hne2 (by rw [h, h0])
      · exact h (by rw [hc, ← hk, hca]; rfl))))
    rw [this i hi (by rw [hia, hca]; rfl), this j hj (by rw [hja, hca]; rfl)]
  · have hck := blockCheck_edge
    simp only [all_eq_true, mem_range, Bool.or_eq_true, bne_iff_ne, ne_eq, beq_iff_eq] at hck
    have := main 1 _ (by omega) h2 (by rw [← h3, h0]) (((hck _ h2).resolve_left (by
      rintro (h | h)
      · exact hne2 (by rw [h, h0])
      · exact h (by rw [hc, ← hk, hca]; rfl))))
    rw [this i hi (by rw [hia, hca]; rfl), this j hj (by rw [hja, hca]; rfl)]

/-- The hypotheses are satisfiable: put all stickers on one cubie. -/
example : ∃ cubie : ℕ → ℕ, (∀ p ∈ rubiksGens, ∀ i < 48, ∀ j < 48, cubie i = cubie j → cubie (p.getD i 0) = cubie (p.getD j 0)) ∧
    isCorner 0 = isCorner 2 ∧ cubie 0 = cubie 2 := ⟨fun _ => 0, by simp, by decide, rfl⟩

/-- Consequence: no assignment into genuine cubies (at most three stickers each) with a corner cubie of more
than one sticker is respected by the generators. -/
theorem C59_no_cubies (cubie : ℕ → ℕ)
    (hg : ∀ p ∈ rubiksGens, ∀ i < 48, ∀ j < 48, cubie i = cubie j → cubie (p.getD i 0) = cubie (p.getD j 0))
    (hk : ∀ c, ((range 48).filter fun s => cubie s = c).length ≤ 3) {a b : ℕ} (ha : a < 48) (hb : b < 48) (hne : a ≠ b)
    (hkind : isCorner a = isCorner b) : cubie a ≠ cubie b := by
  intro hab
  have h := C59_cubies_counterexample cubie hg ha hb hne hkind hab
  have h1 : ((range 48).filter fun s => isCorner s = isCorner a).length ≤ 3 := by
    refine le_trans ?_ (hk (cubie a))
    rw [← countP_eq_length_filter, ← countP_eq_length_filter]
    refine countP_mono_left fun s hs hc => ?_
    simp only [decide_eq_true_eq] at hc ⊢
    exact h s (mem_range.1 hs) a ha hc rfl
  have h2 : 3 < ((range 48).filter fun s => isCorner s = isCorner a).length := by
    generalize isCorner a = t
    revert t
    decide +kernel
  omega

/-- C59: the group of `Cube` has exactly 24 elements and every element takes opposite faces (0/5, 1/3, 2/4) to
opposite faces. -/
theorem C59_cube : ∃ l : List (List ℕ), l.length = 24 ∧ l.Nodup ∧ (∀ p, InPermGroup 6 cubeGens p ↔ p ∈ l) ∧
    ∀ p ∈ l, p ~ range 6 ∧ ∀ f < 6, [5, 3, 4, 1, 2, 0].getD (p.getD f 0) 0 = p.getD ([5, 3, 4, 1, 2, 0].getD f 0) 0 := by
  exact ⟨cubeElems, by decide +kernel, by decide +kernel, cubeElems_iff, by decide +kernel⟩

/-- C83: the inverted state of `InvertedCube` is not reachable: no element of the group takes the solved state to
it, nor any scrambling of one to a scrambling of the other. -/
theorem C83_inverted_cube {g h : List ℕ} (hg : InPermGroup 6 cubeGens g) (hh : InPermGroup 6 cubeGens h) :
    gather cubeSolved g ≠ gather cubeParity h := by
  have key : ∀ g ∈ cubeElems, ∀ h ∈ cubeElems, gather cubeSolved g ≠ gather cubeParity h := by decide +kernel
  exact key g ((cubeElems_iff g).1 hg) h ((cubeElems_iff h).1 hh)

/-- C83 fails for `BrokenRubiksCube`: the state labelled unsolvable is reached from the solved state by
an element of the group generated by the six turns. -/
theorem C83_rubiks_counterexample : ∃ g, InPermGroup 48 rubiksGens g ∧ gather solvedColors g = parityColors := by
  refine ⟨conjProd parityCert, ?_, ?_⟩
  · rw [rubiksGens_eq]
    exact conjProd_mem _ (by decide +kernel)
  · rw [parityCert_eq]
    decide +kernel

/-- What does not change under the six turns does not change under any sequence of turns and inverse turns. -/
theorem turn_invariant {β : Type*} (f : List ℕ → β)
    (hf : ∀ p ∈ rubiksGens, ∀ c : List ℕ, c.length = 48 → f (gather c p) = f c) {q : List ℕ} (hq : InPermGroup 48 rubiksGens q) :
    ∀ c : List ℕ, c.length = 48 → f (gather c q) = f c := by
  have hperm : ∀ p ∈ rubiksGens, p ~ range 48 := fun p hp => (C59_rubiks_order p hp).1
  have hlen := fun q (hq : InPermGroup 48 rubiksGens q) => length_of_perm_range (hq.perm hperm)
  have step : ∀ (p q : List ℕ), p.length = 48 → InPermGroup 48 rubiksGens q → (∀ c : List ℕ, c.length = 48 → f (gather c p) = f c) →
      (∀ c : List ℕ, c.length = 48 → f (gather c q) = f c) → ∀ c : List ℕ, c.length = 48 → f (gather c (gather p q)) = f c := by
    intro p q hp hq h1 h2 c hc
    rw [gather_gather fun x hx => by rw [hp]; exact lt_of_perm_range (hq.perm hperm) hx, h2 _ (by rw [length_gather, hp]), h1 c hc]
  induction hq with
  | one => intro c hc; rw [← hc, gather_range]
  | mul hm hq ih => exact step _ _ (length_of_perm_range (hperm _ hm)) hq (hf _ hm) ih
  | inv hm hq ih =>
    refine step _ _ (by rw [(argsort_perm _).length_eq, length_range, length_of_perm_range (hperm _ hm)]) hq ?_ ih
    intro c hc
    have hp := hperm _ hm
    have hl : (argsort _).length = 48 := ((argsort_perm _).length_eq.trans (by rw [length_range, length_of_perm_range hp]))
    rw [← hf _ hm (gather c (argsort _)) (by rw [length_gather, hl]), ← gather_gather fun x hx => by rw [hl]; exact lt_of_perm_range hp hx,
      argsort_gather hp, ← hc, gather_range]

/-- Consequence: a classifier that is invariant under the six turns gives the solved state and the state labelled
unsolvable the same output. -/
theorem C83_rubiks_not_separable {β : Type*} (f : List ℕ → β)
    (hf : ∀ p ∈ rubiksGens, ∀ c : List ℕ, c.length = 48 → f (gather c p) = f c) : f solvedColors = f parityColors := by
  obtain ⟨g, hg, h⟩ := C83_rubiks_counterexample
  rw [← h, turn_invariant f hf hg _ (by simp [solvedColors])]

end Verif
