import Mathlib.SetTheory.Cardinal.Finite
import Verif.Lemmas.CubeAlt
import Verif.Props.Cubes

/-! # The group of `RubiksCube` and the colourings it connects -/
namespace Verif
open List Equiv

/-- C100: the group generated by the six turns of `RubiksCube` is, exactly, the arbitrary permutations of the 24
corner stickers together with the even permutations of the 24 edge stickers: the turns do not keep the stickers of
a cubie together and keep nothing else either. -/
theorem C100_group (p : List ℕ) : InPermGroup 48 rubiksGens p ↔
    p.length = 48 ∧ ∃ (σ : Equiv.Perm CornerSticker) (τ : Equiv.Perm EdgeSticker), Perm.sign τ = 1 ∧
      (∀ s : CornerSticker, p.getD (s : Fin 48) 0 = (σ s : Fin 48)) ∧ ∀ s : EdgeSticker, p.getD (s : Fin 48) 0 = (τ s : Fin 48) := by
  rw [rubiksGens_eq]
  constructor
  · intro h
    obtain ⟨σ, τ, hτ, rfl⟩ := stickerPerm_of_mem h
    exact ⟨length_permList _, σ, τ, hτ, fun s => by rw [getD_permList, stickerPerm_corner],
      fun s => by rw [getD_permList, stickerPerm_edge]⟩
  · rintro ⟨hl, σ, τ, hτ, hc, he⟩
    have e : p = permList (stickerPerm σ τ) := by
      refine List.ext_getElem (by rw [hl, length_permList]) fun i h1 h2 => ?_
      have key := sticker_cases (P := fun s => p.getD s 0 = (permList (stickerPerm σ τ)).getD s 0)
        (fun s => by rw [hc, getD_permList, stickerPerm_corner]) (fun s => by rw [he, getD_permList, stickerPerm_edge])
        ⟨i, by omega⟩
      rwa [getD_eq_getElem _ _ h1, getD_eq_getElem _ _ h2] at key
    rw [e]
    exact stickerPerm_mem hτ

/-- C100: the number of elements of the group of `RubiksCube`: `24! * 24! / 2`. -/
theorem C100_card : 2 * Nat.card {p // InPermGroup 48 rubiksGens p} = Nat.factorial 24 * Nat.factorial 24 := by
  have hE : Nat.card EdgeSticker = 24 := by rw [Nat.card_eq_fintype_card]; decide +kernel
  have hC : Nat.card CornerSticker = 24 := by rw [Nat.card_eq_fintype_card]; decide +kernel
  have hbij : Function.Bijective (fun x : Equiv.Perm CornerSticker × alternatingGroup EdgeSticker =>
      (⟨permList (stickerPerm x.1 x.2.1), by
        rw [rubiksGens_eq]; exact stickerPerm_mem (Perm.mem_alternatingGroup.1 x.2.2)⟩ : {p // InPermGroup 48 rubiksGens p})) := by
    constructor
    · rintro ⟨σ, τ, hτ⟩ ⟨σ', τ', hτ'⟩ h
      have h := permList_injective (Subtype.ext_iff.1 h)
      refine Prod.ext (Equiv.ext fun s => Subtype.ext ?_) (Subtype.ext (Equiv.ext fun s => Subtype.ext ?_))
      · rw [← stickerPerm_corner σ τ, h, stickerPerm_corner]
      · rw [← stickerPerm_edge σ τ, h, stickerPerm_edge]
    · rintro ⟨p, hp⟩
      rw [rubiksGens_eq] at hp
      obtain ⟨σ, τ, hτ, rfl⟩ := stickerPerm_of_mem hp
      exact ⟨⟨σ, ⟨τ, Perm.mem_alternatingGroup.2 hτ⟩⟩, rfl⟩
  rw [← Nat.card_congr (Equiv.ofBijective _ hbij), Nat.card_prod, Nat.card_perm, hC]
  haveI : Nontrivial EdgeSticker := ⟨edgeAt 1, edgeAt 3, by decide +kernel⟩
  have := two_mul_nat_card_alternatingGroup (α := EdgeSticker)
  rw [Nat.card_perm, hE] at this
  rw [Nat.mul_left_comm, this]

/-- C100: the Rubik's cube has 43252003274489856000 positions; the group of `RubiksCube` is not that size. -/
theorem C100_card_real_cube : Nat.card {p // InPermGroup 48 rubiksGens p} ≠ 43252003274489856000 := by
  intro h
  have := C100_card
  rw [h] at this
  revert this
  decide +kernel

theorem cornerCount_eq (c : List ℕ) (k : ℕ) : cornerCount c k = Fintype.card {s : CornerSticker // c.getD (s : Fin 48) 0 = k} := by
  rw [Fintype.card_subtype]
  symm
  have e : cornerCount c k = (Finset.filter (fun s => (isCorner s && c.getD s 0 == k) = true) (Finset.range 48)).card := by
    simp [cornerCount, edgeCount, Finset.card_def, Multiset.range, _root_.beq_eq_decide]
  rw [e]
  refine Finset.card_bij (fun s _ => (s.1 : ℕ)) ?_ ?_ ?_
  · intro s hs
    have hs := (Finset.mem_filter.1 hs).2
    refine Finset.mem_filter.2 ⟨Finset.mem_range.2 s.1.2, ?_⟩
    rw [s.2, hs]; simp
  · intro s _ t _ h
    exact Subtype.ext (Fin.ext h)
  · intro s hs
    obtain ⟨h1, h2⟩ := Finset.mem_filter.1 hs
    rw [Bool.and_eq_true, beq_iff_eq] at h2
    exact ⟨⟨⟨s, Finset.mem_range.1 h1⟩, h2.1⟩, Finset.mem_filter.2 ⟨Finset.mem_univ _, h2.2⟩, rfl⟩

theorem edgeCount_eq (c : List ℕ) (k : ℕ) : edgeCount c k = Fintype.card {s : EdgeSticker // c.getD (s : Fin 48) 0 = k} := by
  rw [Fintype.card_subtype]
  symm
  have e : edgeCount c k = (Finset.filter (fun s => (!isCorner s && c.getD s 0 == k) = true) (Finset.range 48)).card := by
    simp [cornerCount, edgeCount, Finset.card_def, Multiset.range, _root_.beq_eq_decide]
  rw [e]
  refine Finset.card_bij (fun s _ => (s.1 : ℕ)) ?_ ?_ ?_
  · intro s hs
    have hs := (Finset.mem_filter.1 hs).2
    refine Finset.mem_filter.2 ⟨Finset.mem_range.2 s.1.2, ?_⟩
    rw [s.2, hs]; simp
  · intro s _ t _ h
    exact Subtype.ext (Fin.ext h)
  · intro s hs
    obtain ⟨h1, h2⟩ := Finset.mem_filter.1 hs
    rw [Bool.and_eq_true, beq_iff_eq, Bool.not_eq_true'] at h2
    exact ⟨⟨⟨s, Finset.mem_range.1 h1⟩, h2.1⟩, Finset.mem_filter.2 ⟨Finset.mem_univ _, h2.2⟩, rfl⟩

/-- Two colourings with the same number of points of each colour differ by a permutation. -/
theorem perm_of_counts {α : Type*} [Fintype α] (f g : α → ℕ)
    (h : ∀ k, Fintype.card {a // f a = k} = Fintype.card {a // g a = k}) : ∃ σ : Equiv.Perm α, ∀ a, g (σ a) = f a :=
  ⟨Equiv.ofFiberEquiv fun k => Fintype.equivOfCardEq (h k), fun a => Equiv.ofFiberEquiv_map _ a⟩

/-- C100: two colourings of the cube (with at most six colours) are connected by turns exactly when they show each
colour on equally many corner stickers and on equally many edge stickers. -/
theorem C100_orbits {c d : List ℕ} (hc : c.length = 48) (hd : d.length = 48) (h6 : ∀ x ∈ d, x < 6) :
    (∃ g, InPermGroup 48 rubiksGens g ∧ gather d g = c) ↔
      ∀ k, cornerCount c k = cornerCount d k ∧ edgeCount c k = edgeCount d k := by
  constructor
  · rintro ⟨g, hg, rfl⟩ k
    obtain ⟨hl, σ, τ, -, h1, h2⟩ := (C100_group g).1 hg
    rw [cornerCount_eq, cornerCount_eq, edgeCount_eq, edgeCount_eq]
    constructor
    · refine Fintype.card_congr (Equiv.subtypeEquiv σ fun s => ?_)
      rw [getD_gather (by rw [hl]; exact s.1.2), h1]
    · refine Fintype.card_congr (Equiv.subtypeEquiv τ fun s => ?_)
      rw [getD_gather (by rw [hl]; exact s.1.2), h2]
  · intro h
    obtain ⟨σ, hσ⟩ := perm_of_counts (fun s : CornerSticker => c.getD (s : Fin 48) 0) (fun s => d.getD (s : Fin 48) 0)
      fun k => by rw [← cornerCount_eq, ← cornerCount_eq, (h k).1]
    obtain ⟨τ, hτ⟩ := perm_of_counts (fun s : EdgeSticker => c.getD (s : Fin 48) 0) (fun s => d.getD (s : Fin 48) 0)
      fun k => by rw [← edgeCount_eq, ← edgeCount_eq, (h k).2]
    obtain ⟨τ, hs, hτ⟩ : ∃ τ : Equiv.Perm EdgeSticker, Perm.sign τ = 1 ∧ ∀ s, d.getD (τ s : Fin 48) 0 = c.getD (s : Fin 48) 0 := by
      rcases Int.units_eq_one_or (Perm.sign τ) with h1 | h1
      · exact ⟨τ, h1, hτ⟩
      · obtain ⟨x, y, hxy, he⟩ := Fintype.exists_ne_map_eq_of_card_lt (α := EdgeSticker) (β := Fin 6)
          (fun s => ⟨d.getD (s : Fin 48) 0, h6 _ (getD_mem_of_lt (by rw [hd]; exact s.1.2))⟩) (by decide +kernel)
        have he : d.getD (x : Fin 48) 0 = d.getD (y : Fin 48) 0 := by simpa using he
        refine ⟨swap x y * τ, by rw [Perm.sign_mul, Perm.sign_swap hxy, h1]; rfl, fun s => ?_⟩
        rw [Perm.mul_apply, ← hτ s, swap_apply_def]
        split_ifs with h1 h2
        · rw [h1, he]
        · rw [h2, he]
        · rfl
    refine ⟨permList (stickerPerm σ τ), (C100_group _).2 ⟨length_permList _, σ, τ, hs,
      fun s => by rw [getD_permList, stickerPerm_corner], fun s => by rw [getD_permList, stickerPerm_edge]⟩, ?_⟩
    refine List.ext_getElem (by rw [length_gather, length_permList, hc]) fun i h1 h2 => ?_
    have key := sticker_cases (P := fun s => (gather d (permList (stickerPerm σ τ))).getD s 0 = c.getD s 0)
      (fun s => by rw [getD_gather (by rw [length_permList]; exact s.1.2), getD_permList, stickerPerm_corner]; exact hσ s)
      (fun s => by rw [getD_gather (by rw [length_permList]; exact s.1.2), getD_permList, stickerPerm_edge]; exact hτ s)
      ⟨i, by omega⟩
    rwa [getD_eq_getElem _ _ h1, getD_eq_getElem _ _ h2] at key

/-- C100: a function of the state that the six turns leave unchanged sees only how many corner stickers and how many
edge stickers show each colour; and those numbers are unchanged. -/
theorem C100_invariants {β : Type*} (f : List ℕ → β)
    (hf : ∀ p ∈ rubiksGens, ∀ c : List ℕ, c.length = 48 → f (gather c p) = f c) {c d : List ℕ} (hc : c.length = 48)
    (hd : d.length = 48) (h6 : ∀ x ∈ d, x < 6)
    (h : ∀ k, cornerCount c k = cornerCount d k ∧ edgeCount c k = edgeCount d k) : f c = f d := by
  obtain ⟨g, hg, rfl⟩ := (C100_orbits hc hd h6).2 h
  exact turn_invariant f hf hg d hd

/-- The counts are such functions. -/
example : ∀ p ∈ rubiksGens, ∀ c : List ℕ, c.length = 48 → (∀ x ∈ c, x < 6) →
    (fun k => (cornerCount (gather c p) k, edgeCount (gather c p) k)) = fun k => (cornerCount c k, edgeCount c k) := by
  intro p hp c hc h6
  have hr := (C59_rubiks_order p hp).1
  have hg : InPermGroup 48 rubiksGens p := by
    have := InPermGroup.mul (n := 48) hp .one
    have e := gather_range (p := p)
    rw [length_of_perm_range hr] at e
    rwa [e] at this
  funext k
  have := (C100_orbits (by rw [length_gather, length_of_perm_range hr]) hc h6).1 ⟨p, hg, rfl⟩ k
  rw [this.1, this.2]

/-- Any rearrangement of stickers that keeps corners and edges apart has the effect of some sequence of turns. -/
theorem rearranged_reachable {c : List ℕ} (hc : c.length = 48) (h6 : ∀ x ∈ c, x < 6) (π : Equiv.Perm (Fin 48))
    (hπ : ∀ s, isCorner (π s) = isCorner s) : ∃ g, InPermGroup 48 rubiksGens g ∧ gather c g = gather c (permList π) := by
  refine (C100_orbits (by rw [length_gather, length_permList]) hc h6).2 fun k => ?_
  rw [cornerCount_eq, cornerCount_eq, edgeCount_eq, edgeCount_eq]
  constructor
  · refine Fintype.card_congr (Equiv.subtypeEquiv (π.subtypePerm (p := fun s : Fin 48 => isCorner s = true) fun s => by rw [hπ]) fun s => ?_)
    rw [getD_gather (by rw [length_permList]; exact s.1.2), getD_permList]
    rfl
  · refine Fintype.card_congr (Equiv.subtypeEquiv (π.subtypePerm (p := fun s : Fin 48 => isCorner s = false) fun s => by rw [hπ]) fun s => ?_)
    rw [getD_gather (by rw [length_permList]; exact s.1.2), getD_permList]
    rfl

theorem gather_permList {c d : List ℕ} (hd : d.length = 48) (π : Equiv.Perm (Fin 48))
    (h : ∀ s : Fin 48, d.getD s 0 = c.getD (π s) 0) : d = gather c (permList π) := by
  refine List.ext_getElem (by rw [length_gather, length_permList, hd]) fun i h1 h2 => ?_
  have hi : i < 48 := by omega
  rw [← getD_eq_getElem _ 0 h1, ← getD_eq_getElem _ 0 h2, getD_gather (by rw [length_permList]; exact hi)]
  have := getD_permList π ⟨i, hi⟩
  simp only at this
  rw [this]
  exact h ⟨i, hi⟩

theorem getD_set {c : List ℕ} {i j x : ℕ} (h : i < c.length) : (c.set i x).getD j 0 = if i = j then x else c.getD j 0 := by
  rw [getD_eq_getElem?_getD, getD_eq_getElem?_getD, getElem?_set]
  split_ifs with h1
  · subst h1; simp [h]
  · rfl

theorem swapTwo_eq {c : List ℕ} (hc : c.length = 48) (a b : Fin 48) : swapCols [a, b] 1 c = gather c (permList (swap a b)) := by
  refine gather_permList (by simp [swapCols, rotateRight, hc]) _ fun s => ?_
  have e : swapCols [a, b] 1 c = (c.set a (c.getD b 0)).set b (c.getD a 0) := by simp [swapCols, rotateRight]
  rw [e, getD_set (by rw [length_set, hc]; exact b.2), getD_set (by rw [hc]; exact a.2), swap_apply_def]
  by_cases h1 : s = a
  · subst h1
    by_cases h2 : b = s
    · subst h2; simp
    · simp [Fin.val_inj, h2]
  · by_cases h2 : s = b
    · subst h2; simp [h1]
    · simp [Fin.val_inj, h1, h2, Ne.symm h1, Ne.symm h2, eq_comm]

theorem rotThree_eq {c : List ℕ} (hc : c.length = 48) :
    ulbCornerRot c 1 = gather c (permList (swap 0 32 * swap 0 26)) ∧ ulbCornerRot c 2 = gather c (permList (swap 0 26 * swap 0 32)) := by
  constructor
  · refine gather_permList (by simp [ulbCornerRot, swapCols, rotateRight, hc]) _ fun s => ?_
    have e : ulbCornerRot c 1 = ((c.set 0 (c.getD 26 0)).set 32 (c.getD 0 0)).set 26 (c.getD 32 0) := by
      simp [ulbCornerRot, swapCols, rotateRight]
    have hs : ∀ s : Fin 48, (((swap 0 32 * swap 0 26 : Equiv.Perm (Fin 48)) s : Fin 48) : ℕ) =
        if 26 = (s : ℕ) then 32 else if 32 = (s : ℕ) then 0 else if 0 = (s : ℕ) then 26 else (s : ℕ) := by decide +kernel
    rw [e, getD_set (by simp [hc]), getD_set (by simp [hc]), getD_set (by simp [hc]), hs]
    split_ifs <;> rfl
  · refine gather_permList (by simp [ulbCornerRot, swapCols, rotateRight, hc]) _ fun s => ?_
    have e : ulbCornerRot c 2 = ((c.set 0 (c.getD 32 0)).set 32 (c.getD 26 0)).set 26 (c.getD 0 0) := by
      simp [ulbCornerRot, swapCols, rotateRight]
    have hs : ∀ s : Fin 48, (((swap 0 26 * swap 0 32 : Equiv.Perm (Fin 48)) s : Fin 48) : ℕ) =
        if 26 = (s : ℕ) then 0 else if 32 = (s : ℕ) then 26 else if 0 = (s : ℕ) then 32 else (s : ℕ) := by decide +kernel
    rw [e, getD_set (by simp [hc]), getD_set (by simp [hc]), getD_set (by simp [hc]), hs]
    split_ifs <;> rfl

/-- C100: whatever the state, flipping the UB edge, rotating the ULB corner (once or twice) and swapping the LB faces,
in any of the twelve combinations of `BrokenRubiksCube`, gives a state that the turns of `RubiksCube` reach: none of
the hand-made configurations is unsolvable for this group. -/
theorem C100_broken_reachable {c : List ℕ} (hc : c.length = 48) (h6 : ∀ x ∈ c, x < 6)
    {t1 t2 t3 : List ℕ → List ℕ} (h1 : t1 = id ∨ t1 = (fun x => ulbCornerRot x) ∨ t1 = fun x => ulbCornerRot x 2)
    (h2 : t2 = id ∨ t2 = ubEdgeFlip) (h3 : t3 = id ∨ t3 = lbFaceSwap) :
    ∃ g, InPermGroup 48 rubiksGens g ∧ gather c g = t3 (t2 (t1 c)) := by
  have e1 : ∃ π : Equiv.Perm (Fin 48), (∀ s, isCorner (π s) = isCorner s) ∧ ∀ c : List ℕ, c.length = 48 → t1 c = gather c (permList π) := by
    rcases h1 with rfl | rfl | rfl
    · exact ⟨1, fun s => rfl, fun c hc => by rw [permList_one, ← hc, gather_range]; rfl⟩
    · exact ⟨swap 0 32 * swap 0 26, by decide +kernel, fun c hc => (rotThree_eq hc).1⟩
    · exact ⟨swap 0 26 * swap 0 32, by decide +kernel, fun c hc => (rotThree_eq hc).2⟩
  have e2 : ∃ π : Equiv.Perm (Fin 48), (∀ s, isCorner (π s) = isCorner s) ∧ ∀ c : List ℕ, c.length = 48 → t2 c = gather c (permList π) := by
    rcases h2 with rfl | rfl
    · exact ⟨1, fun s => rfl, fun c hc => by rw [permList_one, ← hc, gather_range]; rfl⟩
    · exact ⟨swap 1 25, by decide +kernel, fun c hc => swapTwo_eq hc 1 25⟩
  have e3 : ∃ π : Equiv.Perm (Fin 48), (∀ s, isCorner (π s) = isCorner s) ∧ ∀ c : List ℕ, c.length = 48 → t3 c = gather c (permList π) := by
    rcases h3 with rfl | rfl
    · exact ⟨1, fun s => rfl, fun c hc => by rw [permList_one, ← hc, gather_range]; rfl⟩
    · exact ⟨swap 33 25, by decide +kernel, fun c hc => swapTwo_eq hc 33 25⟩
  obtain ⟨π1, p1, q1⟩ := e1
  obtain ⟨π2, p2, q2⟩ := e2
  obtain ⟨π3, p3, q3⟩ := e3
  obtain ⟨g, hg, he⟩ := rearranged_reachable hc h6 (π1 * (π2 * π3)) fun s => by
    rw [Perm.mul_apply, p1, Perm.mul_apply, p2, p3]
  refine ⟨g, hg, ?_⟩
  have hlt : ∀ π : Equiv.Perm (Fin 48), ∀ x ∈ permList π, x < 48 := by
    intro π x hx
    obtain ⟨i, rfl⟩ := List.mem_ofFn.1 hx
    exact (π i).2
  rw [he, q1 c hc, q2 _ (by rw [length_gather, length_permList]), q3 _ (by rw [length_gather, length_permList]), permList_mul,
    permList_mul, ← gather_gather (by rw [length_permList]; exact hlt _),
    ← gather_gather (fun x hx => by rw [← permList_mul] at hx; rw [length_permList]; exact hlt _ x hx)]

/-- The hypotheses hold for the solved state, and the edge flip does change it. -/
example : solvedColors.length = 48 ∧ (∀ x ∈ solvedColors, x < 6) ∧ lbFaceSwap (ubEdgeFlip (ulbCornerRot solvedColors)) ≠ solvedColors := by
  decide +kernel

/-- The counts of `C100_orbits` are a real restriction: painting one more corner is not reachable. -/
example : ¬ ∃ g, InPermGroup 48 rubiksGens g ∧ gather solvedColors g = solvedColors.set 0 1 := by
  rw [C100_orbits (by decide) (by decide) (by decide +kernel)]
  intro h
  have := (h 0).1
  revert this
  decide +kernel

/-- Exchanging a corner sticker with an edge sticker of another colour is not reachable either. -/
example : ¬ ∃ g, InPermGroup 48 rubiksGens g ∧ gather solvedColors g = (solvedColors.set 0 1).set 9 0 := by
  rw [C100_orbits (by decide) (by decide) (by decide +kernel)]
  intro h
  have := (h 0).1
  revert this
  decide +kernel

end Verif
