import Verif.Lemmas.CubeBlocks

/-! # Words in the cube generators -/
namespace Verif
open List

/-- The permutation of a word: letter `m` is generator `m`, letter `gens.length + m` its inverse. -/
def evWord (n : ℕ) (gens : List (List ℕ)) : List ℕ → List ℕ
  | [] => range n
  | m :: w => gather (if m < gens.length then gens.getD m [] else argsort (gens.getD (m - gens.length) [])) (evWord n gens w)

theorem evWord_mem {n : ℕ} {gens : List (List ℕ)} : ∀ (w : List ℕ), (∀ m ∈ w, m < 2 * gens.length) → InPermGroup n gens (evWord n gens w)
  | [], _ => .one
  | m :: w, h => by
    have hm := h m (by simp)
    have hw := evWord_mem (n := n) w fun m' h' => h m' (by simp [h'])
    rw [evWord]
    split
    · refine .mul ?_ hw
      rw [getD_eq_getElem _ _ (by assumption)]
      exact getElem_mem _
    · refine .inv ?_ hw
      rw [getD_eq_getElem _ _ (by omega)]
      exact getElem_mem _

/-- Words for the 24 rotations of the cube. -/
def cubeWords : List (List ℕ) :=
  [[], [0], [1], [0, 0], [1, 0], [0, 1], [1, 1], [0, 0, 0], [1, 0, 0], [0, 1, 0], [1, 1, 0], [0, 0, 1], [0, 1, 1],
   [1, 1, 1], [1, 0, 0, 0], [0, 1, 0, 0], [1, 1, 0, 0], [0, 0, 1, 0], [1, 1, 1, 0], [0, 0, 0, 1], [0, 1, 1, 1], [0,
   1, 0, 0, 0], [0, 0, 0, 1, 0], [0, 1, 1, 1, 0]]

/-- The 24 rotations of the cube. -/
def cubeElems : List (List ℕ) := cubeWords.map (evWord 6 cubeGens)

theorem cubeElems_iff (p : List ℕ) : InPermGroup 6 cubeGens p ↔ p ∈ cubeElems := by
  constructor
  · intro h
    have key : ∀ q ∈ cubeElems, ∀ p ∈ cubeGens, gather p q ∈ cubeElems ∧ gather (argsort p) q ∈ cubeElems := by decide +kernel
    induction h with
    | one => decide +kernel
    | mul hp _ ih => exact (key _ ih _ hp).1
    | inv hp _ ih => exact (key _ ih _ hp).2
  · intro h
    obtain ⟨w, hw, rfl⟩ := mem_map.1 h
    have key : ∀ w ∈ cubeWords, ∀ m ∈ w, m < 2 * cubeGens.length := by decide +kernel
    exact evWord_mem w (key w hw)

/-- `p` composed with itself `k` times -/
def permPow (n : ℕ) (p : List ℕ) : ℕ → List ℕ
  | 0 => range n
  | k + 1 => gather p (permPow n p k)

theorem permPow_mem {n : ℕ} {gens : List (List ℕ)} (hg : ∀ p ∈ gens, p ~ range n) {p : List ℕ} (h : InPermGroup n gens p) :
    ∀ k, InPermGroup n gens (permPow n p k)
  | 0 => .one
  | k + 1 => h.comp hg (permPow_mem hg h k)

/-- A 3-cycle of edge stickers. -/
def edge3 : List ℕ :=
  [0, 1, 2, 3, 4, 5, 6, 7, 8, 12, 10, 11, 33, 13, 14, 15, 16, 17, 18, 19, 20, 21, 22, 23, 24, 25, 26, 27, 28, 29,
   30, 31, 32, 9, 34, 35, 36, 37, 38, 39, 40, 41, 42, 43, 44, 45, 46, 47]

/-- A 3-cycle of corner stickers. -/
def corner3 : List ℕ :=
  [42, 1, 2, 3, 4, 5, 6, 0, 8, 9, 10, 11, 12, 13, 14, 15, 16, 17, 18, 19, 20, 21, 22, 23, 24, 25, 26, 27, 28, 29,
   30, 31, 32, 33, 34, 35, 36, 37, 38, 39, 40, 41, 7, 43, 44, 45, 46, 47]

theorem rubiksLit_perm : ∀ p ∈ rubiksLit, p ~ range 48 := by decide +kernel

theorem edge3_mem : InPermGroup 48 rubiksLit edge3 := by
  have h : edge3 = permPow 48 (evWord 48 rubiksLit [0, 1, 2, 7]) 20 := by decide +kernel
  rw [h]
  exact permPow_mem rubiksLit_perm (evWord_mem _ (by decide)) 20

theorem corner3_mem : InPermGroup 48 rubiksLit corner3 := by
  have h : corner3 = permPow 48 (evWord 48 rubiksLit [0, 5, 7, 0, 8]) 40 := by decide +kernel
  rw [h]
  exact permPow_mem rubiksLit_perm (evWord_mem _ (by decide)) 40

/-- Inverse word. -/
def invWord (w : List ℕ) : List ℕ := (w.map fun m => (m + 6) % 12).reverse

/-- Product of conjugates of the two 3-cycles. -/
def conjProd : List (Bool × List ℕ) → List ℕ
  | [] => range 48
  | (c, w) :: l => gather (gather (evWord 48 rubiksLit w) (gather (if c then corner3 else edge3) (evWord 48 rubiksLit (invWord w)))) (conjProd l)

theorem conjProd_mem : ∀ l : List (Bool × List ℕ), (∀ x ∈ l, ∀ m ∈ x.2, m < 12) → InPermGroup 48 rubiksLit (conjProd l)
  | [], _ => .one
  | (c, w) :: l, h => by
    have hl := conjProd_mem l fun x hx => h x (by simp [hx])
    have hw := evWord_mem (n := 48) (gens := rubiksLit) w (h (c, w) (by simp))
    have hw' := evWord_mem (n := 48) (gens := rubiksLit) (invWord w) (by
      intro m hm
      obtain ⟨m', -, rfl⟩ := mem_map.1 (mem_reverse.1 hm)
      exact Nat.mod_lt _ (by decide))
    refine InPermGroup.comp rubiksLit_perm (InPermGroup.comp rubiksLit_perm hw (InPermGroup.comp rubiksLit_perm ?_ hw')) hl
    cases c
    · exact edge3_mem
    · exact corner3_mem

/-- A product of conjugates exchanging opposite faces. -/
def parityCert : List (Bool × List ℕ) :=
  [(false, [7, 0, 0]), (false, [2, 7, 0]), (false, [3, 10, 2]), (false, [8, 9, 10]), (false, [9, 2, 2, 7]),
   (false, [0, 7, 2, 9, 0]), (false, [5, 7, 0, 7, 5]), (false, [5, 3, 3, 1, 0]), (false, [4, 3, 2, 7, 4]), (false,
   [4, 5, 2, 2, 7, 4]), (false, [11, 1, 6, 7, 6, 9]), (false, [0, 0, 1, 11, 7, 11, 3]), (true, [11]), (true, [1, 1,
   5, 0, 0]), (true, [0]), (true, [1, 1, 6, 5, 5]), (true, [9, 6, 3]), (true, [2, 0, 0, 3]), (true, [10, 6, 4]),
   (true, [3, 0, 0, 4]), (true, [2, 7, 3, 3, 6, 3]), (true, [4, 5, 2, 6, 9, 2]), (true, [8, 1, 4, 6, 4, 1]), (true,
   [3, 10, 6, 1, 2])]

theorem parityCert_eq : conjProd parityCert = (range 48).map fun s => 8 * [5, 3, 4, 1, 2, 0].getD (s / 8) 0 + s % 8 := by decide +kernel

end Verif
