import Mathlib.GroupTheory.SpecificGroups.Alternating
import Verif.Lemmas.CubeWords

/-! # The group generated by the cube turns contains every even permutation of the edge stickers and every
permutation of the corner stickers -/
namespace Verif
open List Equiv

/-- A subgroup with the 3-cycles through two given points has every even permutation. -/
theorem even_mem_of_cycles {α : Type*} [Fintype α] [DecidableEq α] (H : Subgroup (Equiv.Perm α)) {a b : α} (hab : a ≠ b)
    (h : ∀ x, x ≠ a → x ≠ b → swap a b * swap a x ∈ H) (π : Equiv.Perm α) (hπ : Perm.sign π = 1) : π ∈ H := by
  have hc : ∀ x, x ≠ a → swap a b * swap a x ∈ H := by
    intro x hx
    by_cases hb : x = b
    · subst hb; rw [swap_mul_self]; exact H.one_mem
    · exact h x hx hb
  have h2 : ∀ x y, x ≠ y → swap a b * swap x y ∈ H := by
    intro x y hxy
    by_cases hx : x = a
    · subst hx; exact hc y (Ne.symm hxy)
    by_cases hy : y = a
    · subst hy; rw [swap_comm x]; exact hc x hx
    have e : swap x y = swap a x * swap a y * swap a x := by
      rw [swap_comm a y, Equiv.swap_mul_swap_mul_swap hy hxy.symm]
    have e2 : swap a b * swap x y = (swap a b * swap a x) * (swap a b * swap a y)⁻¹ * (swap a b * swap a x) := by
      rw [e, mul_inv_rev, swap_inv, swap_inv]
      have := swap_mul_self a b
      calc swap a b * (swap a x * swap a y * swap a x) = swap a b * swap a x * swap a y * 1 * swap a x := by group
        _ = swap a b * swap a x * swap a y * (swap a b * swap a b) * swap a x := by rw [this]
        _ = _ := by group
    rw [e2]
    exact H.mul_mem (H.mul_mem (hc x hx) (H.inv_mem (hc y hy))) (hc x hx)
  have key : (Perm.sign π = 1 → π ∈ H) ∧ (Perm.sign π = -1 → swap a b * π ∈ H) := by
    clear hπ
    induction π using Perm.swap_induction_on with
    | one => exact ⟨fun _ => H.one_mem, fun h => by simp at h⟩
    | swap_mul f x y hxy ih =>
      rw [Perm.sign_mul, Perm.sign_swap hxy]
      constructor
      · intro hs
        have hf : Perm.sign f = -1 := by
          rcases Int.units_eq_one_or (Perm.sign f) with h | h
          · rw [h] at hs; simp at hs
          · exact h
        have e : swap x y * f = (swap a b * swap x y)⁻¹ * (swap a b * f) := by
          rw [mul_inv_rev, swap_inv, swap_inv, mul_assoc, ← mul_assoc (swap a b), swap_mul_self, one_mul]
        rw [e]
        exact H.mul_mem (H.inv_mem (h2 x y hxy)) (ih.2 hf)
      · intro hs
        have hf : Perm.sign f = 1 := by
          rcases Int.units_eq_one_or (Perm.sign f) with h | h
          · exact h
          · rw [h] at hs; simp at hs
        rw [← mul_assoc]
        exact H.mul_mem (h2 x y hxy) (ih.1 hf)
  exact key.1 hπ

/-- A permutation of `0..47` as an index list. -/
def permList (π : Equiv.Perm (Fin 48)) : List ℕ := ofFn fun i => (π i : ℕ)

theorem getD_permList (π : Equiv.Perm (Fin 48)) (i : Fin 48) : (permList π).getD i 0 = π i := by
  unfold permList
  rw [List.getD_eq_getElem _ _ (by simp only [length_ofFn]; exact i.2), List.getElem_ofFn]

theorem length_permList (π : Equiv.Perm (Fin 48)) : (permList π).length = 48 := length_ofFn

theorem permList_one : permList 1 = range 48 := by decide +kernel

theorem permList_mul (π ρ : Equiv.Perm (Fin 48)) : permList (π * ρ) = gather (permList π) (permList ρ) := by
  unfold gather
  conv_lhs => unfold permList
  conv_rhs => rw [permList.eq_1 ρ, map_ofFn]
  congr 1
  funext i
  exact (getD_permList π (ρ i)).symm

/-- Words taking the 3-cycle of edge stickers to `1 → x → 3 → 1`. -/
def edgeCert : List (ℕ × List ℕ) :=
  [(4, [0, 3, 6, 7, 6, 9]), (6, [3, 6, 7, 6, 9]), (9, [7, 6, 9]), (11, [3, 6, 2, 7]), (12, [3, 6, 9]), (14, [4,
   6, 1, 2]), (17, [5, 7, 6, 9]), (19, [1, 8, 6, 7, 0, 0]), (20, [2, 6, 1, 0, 7]), (22, [2, 2, 6, 2, 7, 0]), (25,
   [5, 5, 7, 6, 9]), (27, [2, 7, 6, 9, 0]), (28, [3, 6, 10, 7, 8]), (30, [7, 6, 7, 3, 3, 0]), (33, [11, 7, 6,
   9]), (35, [2, 7, 6, 10]), (36, [3, 6, 7, 3, 4]), (38, [10, 7, 6, 10]), (41, [1, 6, 7, 0, 0]), (43, [11, 1, 6,
   7, 0, 0]), (44, [3, 6, 7, 5, 3]), (46, [4, 6, 5, 7, 5, 3])]

/-- Words taking the 3-cycle of corner stickers to `0 → x → 2 → 0`. -/
def cornerCert : List (ℕ × List ℕ) :=
  [(5, [1, 10, 3, 6, 3, 4, 1]), (7, [1, 10, 6, 5, 4, 1, 6]), (8, [6, 10, 1, 11, 1, 5]), (10, [6, 10, 11, 4, 2,
   1]), (13, [6, 1, 6, 1, 2, 0]), (15, [6, 4, 3, 1, 2]), (16, [6, 7, 2, 11, 2, 5]), (18, [6, 7, 11, 3, 1, 2]),
   (21, [6, 2, 6, 2, 3, 0]), (23, [6, 1, 4, 2, 3]), (24, [6, 8, 3, 11, 3, 5]), (26, [6, 8, 11, 4, 2, 3]), (29,
   [6, 3, 6, 3, 4, 0]), (31, [6, 2, 3, 1, 4]), (32, [6, 9, 4, 11, 4, 5]), (34, [6, 9, 11, 3, 1, 4]), (37, [6, 4,
   6, 4, 1, 0]), (39, [6, 3, 4, 2, 1]), (40, [11, 6, 3, 2, 1]), (42, [6, 3, 2, 1]), (45, [6, 5, 5, 3, 2, 1]),
   (47, [6, 5, 3, 2, 1])]

/-- The cycle `a → x → b → a` -/
def cyc3 (a x b : ℕ) : List ℕ := (range 48).map fun s => if s = a then x else if s = x then b else if s = b then a else s

theorem edgeCert_eq : ∀ c ∈ edgeCert, conjProd [(false, c.2)] = cyc3 1 c.1 3 ∧ ∀ m ∈ c.2, m < 12 := by decide +kernel

theorem cornerCert_eq : ∀ c ∈ cornerCert, conjProd [(true, c.2)] = cyc3 0 c.1 2 ∧ ∀ m ∈ c.2, m < 12 := by decide +kernel

theorem edgeCert_all : ∀ s ∈ range 48, isCorner s = false → s ≠ 1 → s ≠ 3 → s ∈ edgeCert.map (·.1) := by decide +kernel

theorem cornerCert_all : ∀ s ∈ range 48, isCorner s = true → s ≠ 0 → s ≠ 2 → s ∈ cornerCert.map (·.1) := by decide +kernel

/-- The group generated by the turns, as permutations. -/
def turnGroup : Subgroup (Equiv.Perm (Fin 48)) where
  carrier := {π | InPermGroup 48 rubiksLit (permList π)}
  one_mem' := by
    show InPermGroup 48 rubiksLit (permList 1)
    rw [permList_one]; exact .one
  mul_mem' {π ρ} hπ hρ := by
    show InPermGroup 48 rubiksLit (permList (π * ρ))
    rw [permList_mul]; exact InPermGroup.comp rubiksLit_perm hπ hρ
  inv_mem' {π} hπ := by
    have hpow : ∀ k, InPermGroup 48 rubiksLit (permList (π ^ k)) := by
      intro k
      induction k with
      | zero => rw [pow_zero, permList_one]; exact .one
      | succ k ih => rw [pow_succ, permList_mul]; exact InPermGroup.comp rubiksLit_perm ih hπ
    have e : π⁻¹ = π ^ (orderOf π - 1) := by
      refine inv_eq_of_mul_eq_one_left ?_
      rw [← pow_succ, Nat.sub_add_cancel (orderOf_pos π), pow_orderOf_eq_one]
    show InPermGroup 48 rubiksLit (permList π⁻¹)
    rw [e]; exact hpow _

theorem mem_turnGroup {π : Equiv.Perm (Fin 48)} : π ∈ turnGroup ↔ InPermGroup 48 rubiksLit (permList π) := Iff.rfl

theorem permList_cyc (a b x : Fin 48) (hab : a ≠ b) (hx : x ≠ a) (hb : x ≠ b) :
    permList (swap a b * swap a x) = cyc3 a x b := by
  refine List.ext_getElem (by simp [length_permList, cyc3]) fun i h1 h2 => ?_
  rw [length_permList] at h1
  obtain ⟨i, rfl⟩ : ∃ j : Fin 48, (j : ℕ) = i := ⟨⟨i, h1⟩, rfl⟩
  have := getD_permList (swap a b * swap a x) i
  rw [List.getD_eq_getElem _ _ (by rw [length_permList]; exact i.2)] at this
  rw [this]
  simp only [cyc3, getElem_map, getElem_range, Perm.mul_apply, swap_apply_def]
  by_cases h3 : i = a
  · simp [h3, hx, hb]
  by_cases h4 : i = x
  · subst h4; simp [hx, Fin.val_inj]
  by_cases h5 : i = b
  · subst h5; simp [h3, h4, Fin.val_inj]
  · simp [h3, h4, h5, Fin.val_inj]

theorem edge_even_mem (τ : Equiv.Perm EdgeSticker) (hτ : Perm.sign τ = 1) : Perm.ofSubtype τ ∈ turnGroup := by
  have := even_mem_of_cycles (turnGroup.comap (Perm.ofSubtype (p := fun s : Fin 48 => isCorner s = false)))
    (a := ⟨1, by decide⟩) (b := ⟨3, by decide⟩) (by decide) ?_ τ hτ
  · exact this
  · intro x hx hx'
    rw [Subgroup.mem_comap, map_mul, Perm.ofSubtype_swap_eq, Perm.ofSubtype_swap_eq, mem_turnGroup,
      permList_cyc _ _ _ (by decide) (fun h => hx (Subtype.ext h)) (fun h => hx' (Subtype.ext h))]
    have hm := edgeCert_all x.1 (mem_range.2 x.1.2) x.2 (fun h => hx (Subtype.ext (Fin.ext h)))
      (fun h => hx' (Subtype.ext (Fin.ext h)))
    obtain ⟨c, hc, hcx⟩ := mem_map.1 hm
    have := edgeCert_eq c hc
    rw [hcx] at this
    show InPermGroup 48 rubiksLit (cyc3 1 x.1 3)
    rw [← this.1]
    exact conjProd_mem _ (by simpa using this.2)

theorem corner_even_mem (σ : Equiv.Perm CornerSticker) (hσ : Perm.sign σ = 1) : Perm.ofSubtype σ ∈ turnGroup := by
  have := even_mem_of_cycles (turnGroup.comap (Perm.ofSubtype (p := fun s : Fin 48 => isCorner s = true)))
    (a := ⟨0, by decide⟩) (b := ⟨2, by decide⟩) (by decide) ?_ σ hσ
  · exact this
  · intro x hx hx'
    rw [Subgroup.mem_comap, map_mul, Perm.ofSubtype_swap_eq, Perm.ofSubtype_swap_eq, mem_turnGroup,
      permList_cyc _ _ _ (by decide) (fun h => hx (Subtype.ext h)) (fun h => hx' (Subtype.ext h))]
    have hm := cornerCert_all x.1 (mem_range.2 x.1.2) x.2 (fun h => hx (Subtype.ext (Fin.ext h)))
      (fun h => hx' (Subtype.ext (Fin.ext h)))
    obtain ⟨c, hc, hcx⟩ := mem_map.1 hm
    have := cornerCert_eq c hc
    rw [hcx] at this
    show InPermGroup 48 rubiksLit (cyc3 0 x.1 2)
    rw [← this.1]
    exact conjProd_mem _ (by simpa using this.2)

/-- The edge sticker with a given number (sticker 1 if there is none). -/
def edgeAt (n : ℕ) : EdgeSticker := if h : ∃ _ : n < 48, isCorner n = false then ⟨⟨n, h.1⟩, h.2⟩ else ⟨1, by decide⟩
/-- The corner sticker with a given number (sticker 0 if there is none). -/
def cornerAt (n : ℕ) : CornerSticker := if h : ∃ _ : n < 48, isCorner n = true then ⟨⟨n, h.1⟩, h.2⟩ else ⟨0, by decide⟩

/-- A product of transpositions of edge stickers. -/
def edgeSwaps (l : List (ℕ × ℕ)) : Equiv.Perm EdgeSticker := (l.map fun q => swap (edgeAt q.1) (edgeAt q.2)).prod
/-- A product of transpositions of corner stickers. -/
def cornerSwaps (l : List (ℕ × ℕ)) : Equiv.Perm CornerSticker := (l.map fun q => swap (cornerAt q.1) (cornerAt q.2)).prod

theorem sign_edgeSwaps : ∀ l : List (ℕ × ℕ), (∀ q ∈ l, edgeAt q.1 ≠ edgeAt q.2) → Perm.sign (edgeSwaps l) = (-1) ^ l.length
  | [], _ => by simp [edgeSwaps]
  | q :: l, h => by
    have := sign_edgeSwaps l fun q hq => h q (by simp [hq])
    rw [edgeSwaps] at this ⊢
    rw [map_cons, prod_cons, Perm.sign_mul, this, Perm.sign_swap (h q (by simp)), length_cons, pow_succ']

theorem sign_cornerSwaps : ∀ l : List (ℕ × ℕ), (∀ q ∈ l, cornerAt q.1 ≠ cornerAt q.2) → Perm.sign (cornerSwaps l) = (-1) ^ l.length
  | [], _ => by simp [cornerSwaps]
  | q :: l, h => by
    have := sign_cornerSwaps l fun q hq => h q (by simp [hq])
    rw [cornerSwaps] at this ⊢
    rw [map_cons, prod_cons, Perm.sign_mul, this, Perm.sign_swap (h q (by simp)), length_cons, pow_succ']

/-- The turns as products of transpositions: of corner stickers and of edge stickers. -/
def turnSwaps : List (List (ℕ × ℕ) × List (ℕ × ℕ)) :=
  [([(0, 2), (2, 7), (7, 5), (8, 32), (32, 24), (24, 16), (10, 34), (34, 26), (26, 18)],
    [(1, 4), (4, 6), (6, 3), (9, 33), (33, 25), (25, 17)]),
   ([(0, 16), (16, 40), (40, 32), (2, 18), (18, 42), (42, 34), (8, 10), (10, 15), (15, 13)],
    [(1, 17), (17, 41), (41, 33), (9, 12), (12, 14), (14, 11)]),
   ([(0, 24), (24, 40), (40, 8), (2, 26), (26, 42), (42, 10), (16, 18), (18, 23), (23, 21)],
    [(1, 25), (25, 41), (41, 9), (17, 20), (20, 22), (22, 19)]),
   ([(0, 32), (32, 40), (40, 16), (2, 34), (34, 42), (42, 18), (24, 26), (26, 31), (31, 29)],
    [(1, 33), (33, 41), (41, 17), (25, 28), (28, 30), (30, 27)]),
   ([(0, 8), (8, 40), (40, 24), (2, 10), (10, 42), (42, 26), (32, 34), (34, 39), (39, 37)],
    [(1, 9), (9, 41), (41, 25), (33, 36), (36, 38), (38, 35)]),
   ([(8, 16), (16, 24), (24, 32), (10, 18), (18, 26), (26, 34), (40, 42), (42, 47), (47, 45)],
    [(9, 17), (17, 25), (25, 33), (41, 44), (44, 46), (46, 43)])]

/-- A permutation of the corner stickers and one of the edge stickers, together. -/
def stickerPerm (σ : Equiv.Perm CornerSticker) (τ : Equiv.Perm EdgeSticker) : Equiv.Perm (Fin 48) := Perm.ofSubtype σ * Perm.ofSubtype τ

theorem turnSwaps_eq : turnSwaps.map (fun t => permList (stickerPerm (cornerSwaps t.1) (edgeSwaps t.2))) = rubiksLit := by
  decide +kernel

theorem turnSwaps_even : ∀ t ∈ turnSwaps, t.1.length = 9 ∧ t.2.length = 6 ∧ (∀ q ∈ t.1, cornerAt q.1 ≠ cornerAt q.2) ∧
    ∀ q ∈ t.2, edgeAt q.1 ≠ edgeAt q.2 := by
  decide +kernel

theorem stickerPerm_corner (σ : Equiv.Perm CornerSticker) (τ : Equiv.Perm EdgeSticker) (s : CornerSticker) :
    stickerPerm σ τ s = σ s := by
  rw [stickerPerm, Perm.mul_apply, Perm.ofSubtype_apply_of_not_mem τ (by rw [s.2]; decide), Perm.ofSubtype_apply_coe]

theorem stickerPerm_edge (σ : Equiv.Perm CornerSticker) (τ : Equiv.Perm EdgeSticker) (s : EdgeSticker) :
    stickerPerm σ τ s = τ s := by
  rw [stickerPerm, Perm.mul_apply, Perm.ofSubtype_apply_coe, Perm.ofSubtype_apply_of_not_mem σ (by rw [(τ s).2]; decide)]

theorem sticker_cases {P : Fin 48 → Prop} (hc : ∀ s : CornerSticker, P s) (he : ∀ s : EdgeSticker, P s) (s : Fin 48) : P s := by
  rcases h : isCorner s with _ | _
  · exact he ⟨s, h⟩
  · exact hc ⟨s, h⟩

theorem stickerPerm_mul (σ σ' : Equiv.Perm CornerSticker) (τ τ' : Equiv.Perm EdgeSticker) :
    stickerPerm (σ * σ') (τ * τ') = stickerPerm σ τ * stickerPerm σ' τ' := by
  refine Equiv.ext fun s => sticker_cases (P := fun s => stickerPerm (σ * σ') (τ * τ') s = (stickerPerm σ τ * stickerPerm σ' τ') s)
    (fun s => ?_) (fun s => ?_) s
  · rw [Perm.mul_apply, stickerPerm_corner, stickerPerm_corner, stickerPerm_corner, Perm.mul_apply]
  · rw [Perm.mul_apply, stickerPerm_edge, stickerPerm_edge, stickerPerm_edge, Perm.mul_apply]

theorem stickerPerm_one : stickerPerm 1 1 = 1 := by simp [stickerPerm]

theorem permList_injective {π ρ : Equiv.Perm (Fin 48)} (h : permList π = permList ρ) : π = ρ := by
  refine Equiv.ext fun i => Fin.ext ?_
  rw [← getD_permList, ← getD_permList, h]

theorem turn_mem {t : List (ℕ × ℕ) × List (ℕ × ℕ)} (ht : t ∈ turnSwaps) :
    stickerPerm (cornerSwaps t.1) (edgeSwaps t.2) ∈ turnGroup := by
  rw [mem_turnGroup]
  have h : permList (stickerPerm (cornerSwaps t.1) (edgeSwaps t.2)) ∈ rubiksLit := by
    rw [← turnSwaps_eq]; exact mem_map.2 ⟨t, ht, rfl⟩
  have := InPermGroup.mul (n := 48) h .one
  rwa [← length_permList (stickerPerm (cornerSwaps t.1) (edgeSwaps t.2)), gather_range] at this

theorem corner_mem (σ : Equiv.Perm CornerSticker) : Perm.ofSubtype σ ∈ turnGroup := by
  rcases Int.units_eq_one_or (Perm.sign σ) with h | h
  · exact corner_even_mem σ h
  · obtain ⟨t, ht⟩ : ∃ t, t ∈ turnSwaps := ⟨_, mem_cons_self⟩
    obtain ⟨h1, h2, h3, h4⟩ := turnSwaps_even t ht
    have hu := turn_mem ht
    rw [stickerPerm] at hu
    have hu' : Perm.ofSubtype (cornerSwaps t.1) ∈ turnGroup := by
      have := turnGroup.mul_mem hu (turnGroup.inv_mem (edge_even_mem (edgeSwaps t.2) (by rw [sign_edgeSwaps _ h4, h2]; rfl)))
      rwa [mul_assoc, mul_inv_cancel, mul_one] at this
    have := corner_even_mem (cornerSwaps t.1 * σ) (by rw [Perm.sign_mul, h, sign_cornerSwaps _ h3, h1]; rfl)
    rw [map_mul] at this
    exact (turnGroup.mul_mem_cancel_left hu').1 this

theorem stickerPerm_mem {σ : Equiv.Perm CornerSticker} {τ : Equiv.Perm EdgeSticker} (hτ : Perm.sign τ = 1) :
    InPermGroup 48 rubiksLit (permList (stickerPerm σ τ)) :=
  mem_turnGroup.1 (turnGroup.mul_mem (corner_mem σ) (edge_even_mem τ hτ))

theorem argsort_permList (π : Equiv.Perm (Fin 48)) (h : permList π ~ range 48) : argsort (permList π) = permList π⁻¹ := by
  refine argsort_eq h ?_ ?_
  · intro x hx
    obtain ⟨i, rfl⟩ := List.mem_ofFn.1 hx
    exact (π⁻¹ i).2
  · rw [← permList_mul, mul_inv_cancel, permList_one]

theorem stickerPerm_of_mem {p : List ℕ} (h : InPermGroup 48 rubiksLit p) :
    ∃ (σ : Equiv.Perm CornerSticker) (τ : Equiv.Perm EdgeSticker), Perm.sign τ = 1 ∧ p = permList (stickerPerm σ τ) := by
  have hgen : ∀ p ∈ rubiksLit, ∃ (σ : Equiv.Perm CornerSticker) (τ : Equiv.Perm EdgeSticker), Perm.sign τ = 1 ∧ p = permList (stickerPerm σ τ) := by
    intro p hp
    rw [← turnSwaps_eq] at hp
    obtain ⟨t, ht, rfl⟩ := mem_map.1 hp
    obtain ⟨h1, h2, h3, h4⟩ := turnSwaps_even t ht
    exact ⟨_, _, by rw [sign_edgeSwaps _ h4, h2]; rfl, rfl⟩
  induction h with
  | one => exact ⟨1, 1, by simp, by rw [stickerPerm_one, permList_one]⟩
  | mul hp _ ih =>
    obtain ⟨σ, τ, hτ, rfl⟩ := hgen _ hp
    obtain ⟨σ', τ', hτ', rfl⟩ := ih
    exact ⟨σ * σ', τ * τ', by rw [Perm.sign_mul, hτ, hτ', one_mul], by rw [stickerPerm_mul, permList_mul]⟩
  | inv hp _ ih =>
    have hr := rubiksLit_perm _ hp
    obtain ⟨σ, τ, hτ, rfl⟩ := hgen _ hp
    obtain ⟨σ', τ', hτ', rfl⟩ := ih
    refine ⟨σ⁻¹ * σ', τ⁻¹ * τ', by rw [Perm.sign_mul, Perm.sign_inv, hτ, hτ', one_mul], ?_⟩
    rw [argsort_permList _ hr, stickerPerm_mul, permList_mul]
    congr 2
    refine inv_eq_of_mul_eq_one_left ?_
    rw [← stickerPerm_mul, inv_mul_cancel, inv_mul_cancel, stickerPerm_one]

end Verif
