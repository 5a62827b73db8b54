import Mathlib.Data.List.GetD
import Verif.Model.CubePerms
import Verif.Spec.PermGroup
import Verif.Lemmas.Perm

/-! # Computations about the cube groups -/
namespace Verif
open List

section general
variable {n : ℕ} {gens : List (List ℕ)}

theorem InPermGroup.perm (hg : ∀ p ∈ gens, p ~ range n) {p : List ℕ} (h : InPermGroup n gens p) : p ~ range n := by
  induction h with
  | one => exact Perm.refl _
  | mul hp _ ih => exact gather_perm (hg _ hp) ih
  | inv hp _ ih =>
    exact gather_perm ((argsort_perm _).trans (by rw [length_of_perm_range (hg _ hp)])) ih

theorem InPermGroup.comp (hg : ∀ p ∈ gens, p ~ range n) {p q : List ℕ} (h : InPermGroup n gens p) (hq : InPermGroup n gens q) :
    InPermGroup n gens (gather p q) := by
  have hq' := hq.perm hg
  induction h with
  | one => rw [range_gather fun x hx => lt_of_perm_range hq' hx]; exact hq
  | mul hp h ih =>
    rw [← gather_gather fun x hx => by rw [length_of_perm_range (h.perm hg)]; exact lt_of_perm_range hq' hx]
    exact .mul hp ih
  | inv hp h ih =>
    rw [← gather_gather fun x hx => by rw [length_of_perm_range (h.perm hg)]; exact lt_of_perm_range hq' hx]
    exact .inv hp ih

end general

/-- The six generators, written out. -/
def rubiksLit : List (List ℕ) :=
  [[2, 4, 7, 1, 6, 0, 3, 5, 32, 33, 34, 11, 12, 13, 14, 15, 8, 9, 10, 19, 20, 21, 22, 23, 16, 17, 18, 27, 28, 29, 30,
    31, 24, 25, 26, 35, 36, 37, 38, 39, 40, 41, 42, 43, 44, 45, 46, 47],
   [16, 17, 18, 3, 4, 5, 6, 7, 10, 12, 15, 9, 14, 8, 11, 13, 40, 41, 42, 19, 20, 21, 22, 23, 24, 25, 26, 27, 28, 29,
    30, 31, 0, 1, 2, 35, 36, 37, 38, 39, 32, 33, 34, 43, 44, 45, 46, 47],
   [24, 25, 26, 3, 4, 5, 6, 7, 0, 1, 2, 11, 12, 13, 14, 15, 18, 20, 23, 17, 22, 16, 19, 21, 40, 41, 42, 27, 28, 29,
    30, 31, 32, 33, 34, 35, 36, 37, 38, 39, 8, 9, 10, 43, 44, 45, 46, 47],
   [32, 33, 34, 3, 4, 5, 6, 7, 8, 9, 10, 11, 12, 13, 14, 15, 0, 1, 2, 19, 20, 21, 22, 23, 26, 28, 31, 25, 30, 24, 27,
    29, 40, 41, 42, 35, 36, 37, 38, 39, 16, 17, 18, 43, 44, 45, 46, 47],
   [8, 9, 10, 3, 4, 5, 6, 7, 40, 41, 42, 11, 12, 13, 14, 15, 16, 17, 18, 19, 20, 21, 22, 23, 0, 1, 2, 27, 28, 29, 30,
    31, 34, 36, 39, 33, 38, 32, 35, 37, 24, 25, 26, 43, 44, 45, 46, 47],
   [0, 1, 2, 3, 4, 5, 6, 7, 16, 17, 18, 11, 12, 13, 14, 15, 24, 25, 26, 19, 20, 21, 22, 23, 32, 33, 34, 27, 28, 29,
    30, 31, 8, 9, 10, 35, 36, 37, 38, 39, 42, 44, 47, 41, 46, 40, 43, 45]]

theorem rubiksGens_eq : rubiksGens = rubiksLit := by decide +kernel

section blocks
/-- Relabel: everything labelled like `a` gets the label of `b`. -/
def mergeLab (lab : List ℕ) (a b : ℕ) : List ℕ :=
  let x := lab.getD a 0
  let y := lab.getD b 0
  lab.map fun z => if z = x then y else z

/-- Merge the labels of the given pairs and of all their images under `gens`. -/
def closeLab (gens : List (List ℕ)) : ℕ → List (ℕ × ℕ) → List ℕ → List ℕ
  | 0, _, lab => lab
  | _ + 1, [], lab => lab
  | f + 1, (a, b) :: rest, lab =>
    if lab.getD a 0 = lab.getD b 0 then closeLab gens f rest lab
    else closeLab gens f ((gens.map fun p => (p.getD a 0, p.getD b 0)) ++ rest) (mergeLab lab a b)

theorem closeLab_sound (gens : List (List ℕ)) (r : ℕ → ℕ → Prop) (hr : Equivalence r)
    (hg : ∀ p ∈ gens, ∀ i < 48, ∀ j < 48, r i j → r (p.getD i 0) (p.getD j 0)) (hlt : ∀ p ∈ gens, ∀ i < 48, p.getD i 0 < 48) (f : ℕ) :
    ∀ (qs : List (ℕ × ℕ)) (lab : List ℕ), (∀ q ∈ qs, q.1 < 48 ∧ q.2 < 48 ∧ r q.1 q.2) → lab.length = 48 →
    (∀ i < 48, ∀ j < 48, lab.getD i 0 = lab.getD j 0 → r i j) →
    ∀ i < 48, ∀ j < 48, (closeLab gens f qs lab).getD i 0 = (closeLab gens f qs lab).getD j 0 → r i j := by
  induction f with
  | zero => intro qs lab _ _ h; exact h
  | succ f ih =>
    intro qs lab hq hl h
    cases qs with
    | nil => exact h
    | cons q rest =>
      obtain ⟨a, b⟩ := q
      obtain ⟨ha, hb, hab⟩ := hq (a, b) (by simp)
      simp only at ha hb hab
      rw [closeLab]
      split
      · exact ih rest lab (fun q hq' => hq q (by simp [hq'])) hl h
      · refine ih _ _ ?_ (by simp [mergeLab, hl]) ?_
        · intro q hq'
          rw [mem_append, mem_map] at hq'
          rcases hq' with ⟨p, hp, rfl⟩ | hq'
          · exact ⟨hlt p hp a ha, hlt p hp b hb, hg p hp a ha b hb hab⟩
          · exact hq q (by simp [hq'])
        · intro i hi j hj hij
          have e : ∀ k < 48, (mergeLab lab a b).getD k 0 = if lab.getD k 0 = lab.getD a 0 then lab.getD b 0 else lab.getD k 0 := by
            intro k hk
            obtain ⟨x, hx⟩ : ∃ x, x = lab.getD a 0 := ⟨_, rfl⟩
            obtain ⟨y, hy⟩ : ∃ y, y = lab.getD b 0 := ⟨_, rfl⟩
            simp only [mergeLab, ← hx, ← hy, getD_eq_getElem?_getD, getElem?_map]
            rw [getElem?_eq_getElem (by omega)]
            simp
          rw [e i hi, e j hj] at hij
          split at hij <;> split at hij
          · exact h i hi j hj (by omega)
          · exact hr.trans (hr.trans (h i hi a ha (by assumption)) hab) (h b hb j hj hij)
          · exact hr.trans (h i hi b hb hij) (hr.symm (hr.trans (h j hj a ha (by assumption)) hab))
          · exact h i hi j hj hij
end blocks

/-- All stickers of the same kind as `a` end up with one label when `a` and `b` are merged. -/
def blockCheck (a b : ℕ) : Bool :=
  let lab := closeLab rubiksLit 400 [(a, b)] (range 48)
  (range 48).all fun i => isCorner i != isCorner a || lab.getD i 0 == lab.getD a 0

theorem blockCheck_corner : (range 48).all fun b => b == 0 || isCorner b != isCorner 0 || blockCheck 0 b := by decide +kernel

theorem blockCheck_edge : (range 48).all fun b => b == 1 || isCorner b != isCorner 1 || blockCheck 1 b := by decide +kernel

/-- Words of generators taking each sticker to sticker 0 or 1. -/
def toRoot : List (List ℕ) :=
  [[], [], [0, 0, 0], [0], [0, 0, 0], [0], [0, 0], [0, 0], [2], [2], [2, 0, 0, 0], [1, 2], [1, 1, 1, 2], [1, 2],
   [1, 1, 2], [1, 1, 2], [3], [3], [3, 0, 0, 0], [2, 3], [2, 2, 2, 3], [2, 3], [2, 2, 3], [2, 2, 3], [4], [4], [4,
   0, 0, 0], [3, 4], [3, 3, 3, 4], [3, 4], [3, 3, 4], [3, 3, 4], [1], [1], [1, 0, 0, 0], [4, 1], [4, 4, 4, 1], [4,
   1], [4, 4, 1], [4, 4, 1], [1, 1], [1, 1], [1, 1, 0, 0, 0], [5, 1, 1], [5, 5, 5, 1, 1], [5, 1, 1], [5, 5, 1, 1],
   [5, 5, 1, 1]]

/-- Apply a word of generators to a sticker. -/
def applyWord : List ℕ → ℕ → ℕ
  | [], s => s
  | g :: w, s => applyWord w ((rubiksLit.getD g []).getD s 0)

theorem applyWord_rel (r : ℕ → ℕ → Prop) (hg : ∀ p ∈ rubiksLit, ∀ i < 48, ∀ j < 48, r i j → r (p.getD i 0) (p.getD j 0))
    (hlt : ∀ p ∈ rubiksLit, ∀ i < 48, p.getD i 0 < 48) (w : List ℕ) : ∀ (i j : ℕ), (∀ g ∈ w, g < 6) → i < 48 → j < 48 → r i j →
    applyWord w i < 48 ∧ applyWord w j < 48 ∧ r (applyWord w i) (applyWord w j) := by
  induction w with
  | nil => intro i j _ hi hj h; exact ⟨hi, hj, h⟩
  | cons g w ih =>
    intro i j hw hi hj h
    have hm : rubiksLit.getD g [] ∈ rubiksLit := by
      rw [getD_eq_getElem _ _ (show g < rubiksLit.length from hw g (by simp))]
      exact getElem_mem _
    exact ih _ _ (fun g' h' => hw g' (by simp [h'])) (hlt _ hm i hi) (hlt _ hm j hj) (hg _ hm i hi j hj h)

end Verif
