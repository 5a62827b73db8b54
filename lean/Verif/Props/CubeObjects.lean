import Verif.Lemmas.PermGen
import Verif.Props.Flags
import Verif.Props.RubiksGroup

/-! # The group objects `Cube()` and `RubiksCube()`: flags, generated matrices and invariant weights -/
namespace Verif
open List Matrix

/-- The matrix of a permutation given as an index list. -/
def IsPermMatrix {n : ℕ} (p : List ℕ) (M : Matrix (Fin n) (Fin n) ℝ) : Prop := ∀ i j : Fin n, M i j = if p.getD i 0 = j then 1 else 0

theorem exists_perm_of_list {n : ℕ} {p : List ℕ} (hp : p ~ range n) : ∃ σ : Equiv.Perm (Fin n), ∀ i : Fin n, p.getD i 0 = σ i := by
  have hl := length_of_perm_range hp
  let f : Fin n → Fin n := fun i => ⟨p.getD i 0, lt_of_perm_range hp (getD_mem_of_lt (by rw [hl]; exact i.2))⟩
  have hf : Function.Injective f := fun i j h => Fin.ext (getD_inj (nodup_of_perm_range hp) (by rw [hl]; exact i.2) (by rw [hl]; exact j.2)
    (Fin.ext_iff.1 h))
  exact ⟨Equiv.ofBijective f (Finite.injective_iff_bijective.1 hf), fun i => rfl⟩

theorem isPermMatrix_iff {n : ℕ} {p : List ℕ} {σ : Equiv.Perm (Fin n)} (h : ∀ i : Fin n, p.getD i 0 = σ i) (M : Matrix (Fin n) (Fin n) ℝ) :
    IsPermMatrix p M ↔ M = pm σ := by
  constructor
  · intro hM
    ext i j
    rw [hM, pm_apply, h]
    simp [Fin.val_inj]
  · rintro rfl i j
    rw [pm_apply, h]
    simp [Fin.val_inj]

theorem isPermMatrix_dense {n : ℕ} {p : List ℕ} (hp : p ~ range n) : IsPermMatrix p (denseGen n (.perm p)) := by
  intro i j
  have hl := length_of_perm_range hp
  simp only [denseGen, of_apply, LinOp.sem, DMat.permMat]
  rw [DMat.of_e (by rw [hl]; exact i.2) (by rw [hl]; exact j.2)]

theorem isPermMatrix_one (n : ℕ) : IsPermMatrix (range n) (1 : Matrix (Fin n) (Fin n) ℝ) := by
  intro i j
  rw [getD_range i.2, Matrix.one_apply]
  simp [Fin.val_inj]

theorem isPermMatrix_mul {n : ℕ} {p q : List ℕ} (hp : p ~ range n) (hq : q ~ range n) {M N : Matrix (Fin n) (Fin n) ℝ}
    (hM : IsPermMatrix p M) (hN : IsPermMatrix q N) : IsPermMatrix (gather p q) (N * M) := by
  obtain ⟨σ, hσ⟩ := exists_perm_of_list hp
  obtain ⟨τ, hτ⟩ := exists_perm_of_list hq
  rw [isPermMatrix_iff hσ] at hM
  rw [isPermMatrix_iff hτ] at hN
  rw [hM, hN, pm_mul, isPermMatrix_iff (σ := σ * τ)]
  intro i
  rw [getD_gather (by rw [length_of_perm_range hq]; exact i.2), hτ, hσ]
  rfl

theorem isPermMatrix_inv {n : ℕ} {p : List ℕ} (hp : p ~ range n) {M : Matrix (Fin n) (Fin n) ℝ} (hM : IsPermMatrix p M) :
    IsPermMatrix (argsort p) M⁻¹ := by
  obtain ⟨σ, hσ⟩ := exists_perm_of_list hp
  have ha : argsort p ~ range n := (argsort_perm p).trans (by rw [length_of_perm_range hp])
  obtain ⟨τ, hτ⟩ := exists_perm_of_list ha
  rw [isPermMatrix_iff hσ] at hM
  rw [isPermMatrix_iff hτ, hM, pm_inv]
  congr 1
  refine inv_eq_of_mul_eq_one_right (Equiv.ext fun i => Fin.ext ?_)
  have := congrArg (fun l => l.getD i 0) (gather_argsort hp)
  rw [getD_gather (by rw [length_of_perm_range ha]; exact i.2), getD_range i.2, hτ, hσ] at this
  exact this

/-- C59: a group made of permutation generators is constructed, is recognised as orthogonal and as a permutation group, and
the matrices it generates are exactly the matrices of the permutations generated by the index lists. -/
theorem C59_generated {n : ℕ} {p₀ : List ℕ} {ps : List (List ℕ)} (h : ∀ p ∈ p₀ :: ps, p ~ range n) :
    ∃ G, groupInit none none (some ((p₀ :: ps).map LinOp.perm)) none none = .ok G ∧ G.d = some n ∧ G.lie = [] ∧
      G.isOrth = true ∧ G.isPerm = some true ∧
      (∀ M, Generated [] (G.disc.map (denseGen n)) M ↔ ∃ p, InPermGroup n (p₀ :: ps) p ∧ IsPermMatrix p M) ∧
      Nat.card {M : Matrix (Fin n) (Fin n) ℝ // Generated [] (G.disc.map (denseGen n)) M} = Nat.card {p // InPermGroup n (p₀ :: ps) p} := by
  obtain ⟨G, h1, h2, h3, h4, h5⟩ := C55_complete n (.perm p₀) (ps.map .perm)
    (by show p₀.length = n; exact length_of_perm_range (h _ (by simp))) (by
      intro x hx
      rw [← map_cons, mem_map] at hx
      obtain ⟨p, hp, rfl⟩ := hx
      obtain ⟨σ, hσ⟩ := exists_perm_of_list (h p hp)
      exact ⟨σ, (isPermMatrix_iff hσ _).1 (isPermMatrix_dense (h p hp))⟩)
  have hl : G.lie = [] := (C55_sound _ _ _ G n h1 h2 h5).2.1
  have key : ∀ M, Generated [] (G.disc.map (denseGen n)) M ↔ ∃ p, InPermGroup n (p₀ :: ps) p ∧ IsPermMatrix p M := by
    intro M
    rw [h3, ← map_cons, List.map_map]
    constructor
    · intro hM
      induction hM with
      | one => exact ⟨_, .one, isPermMatrix_one n⟩
      | exp hA =>
        refine ⟨_, .one, ?_⟩
        have : {B : Matrix (Fin n) (Fin n) ℝ | B ∈ ([] : List _)} = ∅ := by ext; simp
        rw [this, Submodule.span_empty, Submodule.mem_bot] at hA
        rw [hA, NormedSpace.exp_zero]
        exact isPermMatrix_one n
      | gen hg =>
        obtain ⟨p, hp, rfl⟩ := mem_map.1 hg
        refine ⟨p, ?_, isPermMatrix_dense (h p hp)⟩
        have e := gather_range (p := p)
        rw [length_of_perm_range (h p hp)] at e
        exact e ▸ InPermGroup.mul hp .one
      | inv hg =>
        obtain ⟨p, hp, rfl⟩ := mem_map.1 hg
        refine ⟨argsort p, ?_, isPermMatrix_inv (h p hp) (isPermMatrix_dense (h p hp))⟩
        have e := gather_range (p := argsort p)
        rw [(argsort_perm p).length_eq, length_range, length_of_perm_range (h p hp)] at e
        exact e ▸ InPermGroup.inv hp .one
      | mul _ _ ih1 ih2 =>
        obtain ⟨p, hp, hM⟩ := ih1
        obtain ⟨q, hq, hN⟩ := ih2
        exact ⟨_, hq.comp h hp, isPermMatrix_mul (hq.perm h) (hp.perm h) hN hM⟩
    · rintro ⟨p, hp, hM⟩
      induction hp generalizing M with
      | one =>
        have : M = 1 := by ext i j; rw [hM, isPermMatrix_one n]
        exact this ▸ .one
      | @mul p' q' hp hq ih =>
        obtain ⟨τ, hτ⟩ := exists_perm_of_list (hq.perm h)
        have hN := (isPermMatrix_iff hτ _).2 rfl
        have e := isPermMatrix_mul (h _ hp) (hq.perm h) (isPermMatrix_dense (h _ hp)) hN
        have : M = pm τ * denseGen n (.perm p') := by ext i j; rw [hM, e]
        rw [this]
        exact .mul (ih _ hN) (.gen (mem_map.2 ⟨_, hp, rfl⟩))
      | @inv p' q' hp hq ih =>
        obtain ⟨τ, hτ⟩ := exists_perm_of_list (hq.perm h)
        have hN := (isPermMatrix_iff hτ _).2 rfl
        have e := isPermMatrix_mul ((argsort_perm _).trans (by rw [length_of_perm_range (h _ hp)])) (hq.perm h)
          (isPermMatrix_inv (h _ hp) (isPermMatrix_dense (h _ hp))) hN
        have : M = pm τ * (denseGen n (.perm p'))⁻¹ := by ext i j; rw [hM, e]
        rw [this]
        exact .mul (ih _ hN) (.inv (mem_map.2 ⟨_, hp, rfl⟩))
  refine ⟨G, h1, h2, hl, h4, h5, key, ?_⟩
  have hex : ∀ p : {p // InPermGroup n (p₀ :: ps) p}, ∃ M : Matrix (Fin n) (Fin n) ℝ, IsPermMatrix p.1 M :=
    fun p => ⟨Matrix.of fun i j => if p.1.getD i 0 = j then 1 else 0, fun i j => rfl⟩
  choose F hF using hex
  refine (Nat.card_congr (Equiv.ofBijective (fun p => (⟨F p, (key _).2 ⟨p.1, p.2, hF p⟩⟩ :
    {M : Matrix (Fin n) (Fin n) ℝ // Generated [] (G.disc.map (denseGen n)) M})) ⟨?_, ?_⟩)).symm
  · rintro p q hpq
    have hpq : F p = F q := congrArg Subtype.val hpq
    have hp := length_of_perm_range (p.2.perm h)
    have hq := length_of_perm_range (q.2.perm h)
    refine Subtype.ext (List.ext_getElem (by rw [hp, hq]) fun i hi hi' => ?_)
    obtain ⟨σ, hσ⟩ := exists_perm_of_list (p.2.perm h)
    have h7 := hF p ⟨i, by omega⟩ (σ ⟨i, by omega⟩)
    rw [if_pos (hσ _), hpq, hF q] at h7
    have h8 : q.1.getD i 0 = σ ⟨i, by omega⟩ := by
      by_contra hne
      rw [if_neg hne] at h7
      exact zero_ne_one h7
    rw [← getD_eq_getElem _ 0 hi, ← getD_eq_getElem _ 0 hi', h8]
    exact hσ ⟨i, by omega⟩
  · rintro ⟨M, hM⟩
    obtain ⟨p, hp, hpM⟩ := (key M).1 hM
    exact ⟨⟨p, hp⟩, Subtype.ext (by ext i j; exact (hF ⟨p, hp⟩ i j).trans (hpM i j).symm)⟩

/-- C59: `Cube()` is constructed with dimension 6 and generates exactly 24 matrices, those of the face permutations of
`C59_cube`. -/
theorem C59_cube_object : ∃ G, cubeGroup = .ok G ∧ G.d = some 6 ∧ G.lie = [] ∧ G.isOrth = true ∧ G.isPerm = some true ∧
    (∀ M, Generated [] (G.disc.map (denseGen 6)) M ↔ ∃ p, InPermGroup 6 cubeGens p ∧ IsPermMatrix p M) ∧
    Nat.card {M : Matrix (Fin 6) (Fin 6) ℝ // Generated [] (G.disc.map (denseGen 6)) M} = 24 := by
  have hg : ∀ p ∈ cubeGens, p ~ range 6 := by decide +kernel
  obtain ⟨G, h1, h2, h3, h4, h5, h6, h7⟩ := C59_generated (n := 6) (p₀ := [4, 1, 0, 3, 5, 2]) (ps := [[3, 0, 2, 5, 4, 1]]) hg
  refine ⟨G, h1, h2, h3, h4, h5, h6, h7.trans ?_⟩
  obtain ⟨l, hl, hn, hm, -⟩ := C59_cube
  have e : Nat.card {p // InPermGroup 6 cubeGens p} = Nat.card {p // p ∈ l.toFinset} :=
    Nat.card_congr (Equiv.subtypeEquivRight fun p => by rw [hm, mem_toFinset])
  refine e.trans ?_
  rw [Nat.card_eq_fintype_card, Fintype.card_coe, toFinset_card_of_nodup hn, hl]

/-- C100: `RubiksCube()` is constructed with dimension 48 and recognised as a permutation group, and the matrices it
generates are those of the permutations of `C100_group`. -/
theorem C100_object : ∃ G, rubiksGroup = .ok G ∧ G.d = some 48 ∧ G.lie = [] ∧ G.isOrth = true ∧ G.isPerm = some true ∧
    (∀ M, Generated [] (G.disc.map (denseGen 48)) M ↔ ∃ p, InPermGroup 48 rubiksGens p ∧ IsPermMatrix p M) ∧
    2 * Nat.card {M : Matrix (Fin 48) (Fin 48) ℝ // Generated [] (G.disc.map (denseGen 48)) M} = Nat.factorial 24 * Nat.factorial 24 := by
  obtain ⟨G, h1, h2, h3, h4, h5, h6, h7⟩ := C59_generated (n := 48) (p₀ := rubiksU) (ps := [rubiksF, rubiksR, rubiksB, rubiksL, rubiksD])
    fun p hp => (C59_rubiks_order p hp).1
  exact ⟨G, h1, h2, h3, h4, h5, h6, by rw [h7]; exact C100_card⟩

/-- Some permutation takes two different points to two different points. -/
theorem exists_perm_two {α : Type*} [DecidableEq α] {a b x y : α} (hab : a ≠ b) (hxy : x ≠ y) : ∃ σ : Equiv.Perm α, σ a = x ∧ σ b = y := by
  refine ⟨Equiv.swap (Equiv.swap a x b) y * Equiv.swap a x, ?_, ?_⟩
  · rw [Equiv.Perm.mul_apply, Equiv.swap_apply_left, Equiv.swap_apply_of_ne_of_ne _ hxy]
    intro h
    have := (Equiv.swap a x).injective ((Equiv.swap_apply_left a x).trans h)
    exact hab this
  · rw [Equiv.Perm.mul_apply, Equiv.swap_apply_left]

/-- ... and an even one, if there are two more points. -/
theorem exists_even_two {α : Type*} [Fintype α] [DecidableEq α] {a b c d x y : α} (hab : a ≠ b) (hxy : x ≠ y) (hcd : c ≠ d)
    (hac : a ≠ c) (had : a ≠ d) (hbc : b ≠ c) (hbd : b ≠ d) : ∃ σ : Equiv.Perm α, Equiv.Perm.sign σ = 1 ∧ σ a = x ∧ σ b = y := by
  obtain ⟨σ, h1, h2⟩ := exists_perm_two hab hxy
  rcases Int.units_eq_one_or (Equiv.Perm.sign σ) with h | h
  · exact ⟨σ, h, h1, h2⟩
  · refine ⟨σ * Equiv.swap c d, by rw [Equiv.Perm.sign_mul, h, Equiv.Perm.sign_swap hcd]; rfl, ?_, ?_⟩
    · rw [Equiv.Perm.mul_apply, Equiv.swap_apply_of_ne_of_ne hac had, h1]
    · rw [Equiv.Perm.mul_apply, Equiv.swap_apply_of_ne_of_ne hbc hbd, h2]

/-- What commutes with the generators commutes with the generated group, entry by entry. -/
theorem entries_of_commute {n : ℕ} {gens : List (List ℕ)} (hg : ∀ p ∈ gens, p ~ range n) {W : Matrix (Fin n) (Fin n) ℝ} 
    (hW : ∀ p ∈ gens, W * denseGen n (.perm p) = denseGen n (.perm p) * W) {p : List ℕ} (hp : InPermGroup n gens p)
    {σ : Equiv.Perm (Fin n)} (hσ : ∀ i : Fin n, p.getD i 0 = σ i) (i j : Fin n) : W (σ i) (σ j) = W i j := by
  have base : ∀ (π : Equiv.Perm (Fin n)), W * pm π = pm π * W → ∀ i j, W (π i) (π j) = W i j := by
    intro π h i j
    have := congrFun (congrFun h i) (π j)
    rw [Matrix.mul_apply, Matrix.mul_apply, Finset.sum_eq_single j, Finset.sum_eq_single (π i), pm_apply, pm_apply, if_pos rfl, if_pos rfl,
      mul_one, one_mul] at this
    · exact this.symm
    · intro k _ hk
      rw [pm_apply, if_neg (Ne.symm hk), zero_mul]
    · simp
    · intro k _ hk
      rw [pm_apply, if_neg (fun h => hk (π.injective h)), mul_zero]
    · simp
  have hgen : ∀ p ∈ gens, ∀ π : Equiv.Perm (Fin n), (∀ i : Fin n, p.getD i 0 = π i) → ∀ i j, W (π i) (π j) = W i j := by
    intro p hp π hπ
    refine base π ?_
    rw [← (isPermMatrix_iff hπ _).1 (isPermMatrix_dense (hg p hp))]
    exact hW p hp
  induction hp generalizing σ i j with
  | one =>
    have : ∀ i, σ i = i := fun i => Fin.ext ((hσ i).symm.trans (getD_range i.2))
    rw [this, this]
  | mul hp hq ih =>
    obtain ⟨π, hπ⟩ := exists_perm_of_list (hg _ hp)
    obtain ⟨τ, hτ⟩ := exists_perm_of_list (hq.perm hg)
    have e : ∀ i, σ i = π (τ i) := by
      intro i
      refine Fin.ext ?_
      rw [← hσ, getD_gather (by rw [length_of_perm_range (hq.perm hg)]; exact i.2), hτ, hπ]
    rw [e, e, hgen _ hp π hπ, ih hτ]
  | inv hp hq ih =>
    obtain ⟨π, hπ⟩ := exists_perm_of_list (hg _ hp)
    obtain ⟨τ, hτ⟩ := exists_perm_of_list (hq.perm hg)
    have ha : argsort _ ~ range n := (argsort_perm _).trans (by rw [length_of_perm_range (hg _ hp)])
    obtain ⟨ρ, hρ⟩ := exists_perm_of_list ha
    have e : ∀ i, σ i = ρ (τ i) := by
      intro i
      refine Fin.ext ?_
      rw [← hσ, getD_gather (by rw [length_of_perm_range (hq.perm hg)]; exact i.2), hτ, hρ]
    have e' : ∀ i, π (ρ i) = i := by
      intro i
      refine Fin.ext ?_
      have := congrArg (fun l => l.getD i 0) (gather_argsort (hg _ hp))
      rw [getD_gather (by rw [length_of_perm_range ha]; exact i.2), getD_range i.2, hρ, hπ] at this
      exact this
    rw [e, e, ← hgen _ hp π hπ, e', e', ih hτ]

/-- C100: the linear maps from sticker vectors to sticker vectors that commute with all turns of `RubiksCube`, that is the
linear layers `V → V`, have exactly six parameters: two for pairs of corner stickers (equal or not), two for pairs of edge
stickers, one each for corner-edge and edge-corner pairs. -/
theorem C100_weights : ∃ G, rubiksGroup = .ok G ∧ ∀ W : Matrix (Fin 48) (Fin 48) ℝ,
    (∀ h ∈ G.disc.map (denseGen 48), W * h = h * W) ↔ ∃ a b c d e f : ℝ, ∀ i j : Fin 48, W i j =
      if isCorner i then (if isCorner j then (if i = j then a else b) else c)
      else (if isCorner j then d else if i = j then e else f) := by
  obtain ⟨G, h1, h2, h3, h4, h5⟩ := C55_complete 48 (.perm rubiksU) ([rubiksF, rubiksR, rubiksB, rubiksL, rubiksD].map .perm)
    (by decide +kernel) (by
      intro x hx
      rw [← map_cons, mem_map] at hx
      obtain ⟨p, hp, rfl⟩ := hx
      obtain ⟨σ, hσ⟩ := exists_perm_of_list ((C59_rubiks_order p hp).1)
      exact ⟨σ, (isPermMatrix_iff hσ _).1 (isPermMatrix_dense (C59_rubiks_order p hp).1)⟩)
  refine ⟨G, h1, fun W => ?_⟩
  have hg : ∀ p ∈ rubiksGens, p ~ range 48 := fun p hp => (C59_rubiks_order p hp).1
  have hdisc : G.disc.map (denseGen 48) = rubiksGens.map fun p => denseGen 48 (.perm p) := by
    rw [h3]; rfl
  rw [hdisc]
  constructor
  · intro hW
    have hW' : ∀ (σ : Equiv.Perm CornerSticker) (τ : Equiv.Perm EdgeSticker), Equiv.Perm.sign τ = 1 → ∀ i j,
        W (stickerPerm σ τ i) (stickerPerm σ τ j) = W i j := fun σ τ hτ i j =>
      entries_of_commute hg (fun p hp => hW _ (mem_map.2 ⟨p, hp, rfl⟩)) (p := permList (stickerPerm σ τ))
        (by rw [rubiksGens_eq]; exact stickerPerm_mem hτ) (fun i => getD_permList _ i) i j
    have n1 : edgeAt 1 ≠ edgeAt 3 := by decide +kernel
    have n2 : edgeAt 4 ≠ edgeAt 6 := by decide +kernel
    have n3 : edgeAt 1 ≠ edgeAt 4 := by decide +kernel
    have n4 : edgeAt 1 ≠ edgeAt 6 := by decide +kernel
    have n5 : edgeAt 3 ≠ edgeAt 4 := by decide +kernel
    have n6 : edgeAt 3 ≠ edgeAt 6 := by decide +kernel
    have n7 : cornerAt 0 ≠ cornerAt 2 := by decide +kernel
    haveI : Nontrivial EdgeSticker := ⟨_, _, n1⟩
    have heven : ∀ x : EdgeSticker, ∃ τ : Equiv.Perm EdgeSticker, Equiv.Perm.sign τ = 1 ∧ τ (edgeAt 1) = x := by
      intro x
      obtain ⟨y, hy⟩ := exists_ne x
      obtain ⟨τ, h1, h2, -⟩ := exists_even_two n1 hy.symm n2 n3 n4 n5 n6
      exact ⟨τ, h1, h2⟩
    refine ⟨W (cornerAt 0) (cornerAt 0), W (cornerAt 0) (cornerAt 2), W (cornerAt 0) (edgeAt 1), W (edgeAt 1) (cornerAt 0),
      W (edgeAt 1) (edgeAt 1), W (edgeAt 1) (edgeAt 3), fun i j => ?_⟩
    have hdich : ∀ i : Fin 48, (∃ x : CornerSticker, (x : Fin 48) = i) ∨ ∃ x : EdgeSticker, (x : Fin 48) = i :=
      sticker_cases (fun s => .inl ⟨s, rfl⟩) (fun s => .inr ⟨s, rfl⟩)
    obtain ⟨x, rfl⟩ | ⟨x, rfl⟩ := hdich i
    · obtain ⟨y, rfl⟩ | ⟨y, rfl⟩ := hdich j
      · rw [if_pos x.2, if_pos y.2]
        split_ifs with h
        · have h := Subtype.ext h
          subst h
          have := hW' (Equiv.swap (cornerAt 0) x) 1 (by simp) (cornerAt 0) (cornerAt 0)
          rwa [stickerPerm_corner, Equiv.swap_apply_left] at this
        · obtain ⟨σ, h1, h2⟩ := exists_perm_two n7 (fun h' : x = y => h (congrArg _ h'))
          have := hW' σ 1 (by simp) (cornerAt 0) (cornerAt 2)
          rwa [stickerPerm_corner, stickerPerm_corner, h1, h2] at this
      · rw [if_pos x.2, if_neg (by rw [y.2]; decide)]
        obtain ⟨τ, h1, h2⟩ := heven y
        have := hW' (Equiv.swap (cornerAt 0) x) τ h1 (cornerAt 0) (edgeAt 1)
        rwa [stickerPerm_corner, stickerPerm_edge, Equiv.swap_apply_left, h2] at this
    · obtain ⟨y, rfl⟩ | ⟨y, rfl⟩ := hdich j
      · rw [if_neg (by rw [x.2]; decide), if_pos y.2]
        obtain ⟨τ, h1, h2⟩ := heven x
        have := hW' (Equiv.swap (cornerAt 0) y) τ h1 (edgeAt 1) (cornerAt 0)
        rwa [stickerPerm_corner, stickerPerm_edge, Equiv.swap_apply_left, h2] at this
      · rw [if_neg (by rw [x.2]; decide), if_neg (by rw [y.2]; decide)]
        split_ifs with h
        · have h := Subtype.ext h
          subst h
          obtain ⟨τ, h1, h2⟩ := heven x
          have := hW' 1 τ h1 (edgeAt 1) (edgeAt 1)
          rwa [stickerPerm_edge, h2] at this
        · obtain ⟨τ, h0, h1, h2⟩ := exists_even_two n1 (fun h' : x = y => h (congrArg _ h')) n2 n3 n4 n5 n6
          have := hW' 1 τ h0 (edgeAt 1) (edgeAt 3)
          rwa [stickerPerm_edge, stickerPerm_edge, h1, h2] at this
  · rintro ⟨a, b, c, d, e, f, hW⟩ h hh
    obtain ⟨p, hp, rfl⟩ := mem_map.1 hh
    obtain ⟨σ, hσ⟩ := exists_perm_of_list (hg p hp)
    rw [(isPermMatrix_iff hσ _).1 (isPermMatrix_dense (hg p hp))]
    have hgp : InPermGroup 48 rubiksGens p := by
      have e := gather_range (p := p)
      rw [length_of_perm_range (hg p hp)] at e
      exact e ▸ InPermGroup.mul hp .one
    have hcor : ∀ i, isCorner (σ i) = isCorner i := fun i => by rw [← hσ]; exact C59_corners_edges hgp i i.2
    have hW' : ∀ i j, W (σ i) (σ j) = W i j := by
      intro i j
      rw [hW, hW, hcor, hcor]
      simp [σ.injective.eq_iff]
    ext i j
    rw [Matrix.mul_apply, Matrix.mul_apply, Finset.sum_eq_single (σ⁻¹ j), Finset.sum_eq_single (σ i), pm_apply, pm_apply, if_pos rfl,
      if_pos (by simp), mul_one, one_mul, ← hW' i]
    · simp
    · intro k _ hk
      rw [pm_apply, if_neg (Ne.symm hk), zero_mul]
    · simp
    · intro k _ hk
      rw [pm_apply, if_neg (fun h => hk (by rw [← h]; simp)), mul_zero]
    · simp

/-- C100: the sticker vectors that all turns leave unchanged (the biases of a layer into `V`, and the invariant linear
functionals) are constant on the corner stickers and on the edge stickers. -/
theorem C100_bias : ∃ G, rubiksGroup = .ok G ∧ ∀ v : Fin 48 → ℝ,
    (∀ h ∈ G.disc.map (denseGen 48), h *ᵥ v = v) ↔ ∃ a b : ℝ, ∀ i : Fin 48, v i = if isCorner i then a else b := by
  obtain ⟨G, h1, h2⟩ := C100_weights
  obtain ⟨G', h1', -, -, -, -, h3, -⟩ := C100_object
  cases h1.symm.trans h1'
  refine ⟨G, h1, fun v => ?_⟩
  have key : ∀ h ∈ G.disc.map (denseGen 48), ((Matrix.of fun i _ => v i : Matrix (Fin 48) (Fin 48) ℝ) * h =
      h * Matrix.of fun i _ => v i) ↔ h *ᵥ v = v := by
    intro h hh
    obtain ⟨p, hp, hM⟩ := (h3 h).1 (.gen hh)
    obtain ⟨σ, hσ⟩ := exists_perm_of_list (hp.perm fun p hp => (C59_rubiks_order p hp).1)
    have e : (Matrix.of fun i _ => v i : Matrix (Fin 48) (Fin 48) ℝ) * h = Matrix.of fun i _ => v i := by
      rw [(isPermMatrix_iff hσ _).1 hM]
      ext i j
      rw [Matrix.mul_apply, Finset.sum_eq_single (σ⁻¹ j), pm_apply, if_pos (by simp), mul_one]
      · rfl
      · intro k _ hk
        rw [pm_apply, if_neg (fun h => hk (by rw [← h]; simp)), mul_zero]
      · simp
    rw [e]
    constructor
    · intro h'
      funext i
      have := congrFun (congrFun h' i) 0
      rw [Matrix.mul_apply] at this
      exact this.symm
    · intro h'
      ext i j
      rw [Matrix.mul_apply]
      exact (congrFun h' i).symm
  have key' : (∀ h ∈ G.disc.map (denseGen 48), h *ᵥ v = v) ↔ ∀ h ∈ G.disc.map (denseGen 48),
      (Matrix.of fun i _ => v i : Matrix (Fin 48) (Fin 48) ℝ) * h = h * Matrix.of fun i _ => v i :=
    forall₂_congr fun h hh => (key h hh).symm
  rw [key', h2]
  constructor
  · rintro ⟨a, b, c, d, e, f, hW⟩
    refine ⟨c, d, fun i => ?_⟩
    have e0 := hW i 0
    have e1 := hW i 1
    rw [Matrix.of_apply, show isCorner ((0 : Fin 48) : ℕ) = true from by decide] at e0
    rw [Matrix.of_apply, show isCorner ((1 : Fin 48) : ℕ) = false from by decide] at e1
    rcases hi : isCorner i with _ | _
    · simpa [hi] using e0
    · simpa [hi] using e1
  · rintro ⟨a, b, hv⟩
    refine ⟨a, a, a, b, b, b, fun i j => ?_⟩
    rw [Matrix.of_apply, hv]
    simp

end Verif
