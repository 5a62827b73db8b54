import Verif.Props.ClassicalObjects
import Verif.Props.PlaneGroups
import Verif.Props.GroupProducts
import Verif.Props.HamiltonianNets
import Verif.Props.DatasetReps

/-! # C116, continued: Lorentz groups and groups embedded in space; C85 for the declared symmetry -/
namespace Verif
open Matrix List

/-! ## Lorentz groups -/

theorem orthFlag_lie {d : ℕ} {lie : List (LinOp ℝ)} (h : orthFlag d lie [] = false) (disc : List (LinOp ℝ)) : orthFlag d lie disc = false := by
  simp only [orthFlag, List.length_nil, beq_self_eq_true, Bool.true_or, Bool.and_true] at h
  simp only [orthFlag, h, Bool.false_and]

theorem so13p_flag {a : Arr3 ℝ} (ha : so13pLie = .ok a) : a.mats 4 ≠ [] ∧ ∀ disc, orthFlag 4 (a.gens 4) disc = false := by
  have hne : a.mats 4 ≠ [] := by
    obtain ⟨a', ha', h6, -⟩ := C51_so13p_generators
    rw [ha] at ha'
    cases ha'
    intro h
    rw [h] at h6
    simp at h6
  refine ⟨hne, orthFlag_lie ?_⟩
  obtain ⟨a', ha', hm⟩ := so13p_mats
  rw [ha] at ha'
  cases ha'
  by_contra hf
  rw [Bool.not_eq_false] at hf
  have hlen : (a.gens 4).length = 6 := by rw [Arr3.gens, hm]; rfl
  have := (C56_flag_partial 4 (a.gens 4) [] ?_ (by simp) (by rw [hlen]; norm_num) (by simp) hf).1
  · have h0 := this (ofMatrix (lorentzBoost 1)) (by rw [Arr3.gens, hm]; simp)
    rw [dense_ofMatrix] at h0
    have := congrFun (congrFun h0 0) 1
    simp [lorentzBoost, Matrix.single] at this
    norm_num at this
  · intro A hA i j
    obtain ⟨M, hM, rfl⟩ := List.mem_map.1 hA
    rw [dense_ofMatrix]
    rw [hm] at hM
    simp only [List.mem_cons, List.not_mem_nil, or_false] at hM
    rcases hM with rfl | rfl | rfl | rfl | rfl | rfl <;> fin_cases i <;> fin_cases j <;> simp [lorentzBoost, lorentzRot, Matrix.single]

/-- C116: `SO13p()`, the proper orthochronous Lorentz group. -/
theorem C116_so13p : ∃ G, so13pGroup = .ok G ∧ G.d = some 4 ∧ G.isOrth = false ∧ G.isPerm = none ∧
    ∀ h, Generated (G.lie.map (denseGen 4)) (G.disc.map (denseGen 4)) h ↔ hᵀ * minkowski 4 * h = minkowski 4 ∧ h.det = 1 ∧ 0 < h 0 0 := by
  obtain ⟨a, ha, hg⟩ := C115_so13p
  obtain ⟨hne, hf⟩ := so13p_flag ha
  have e : so13pGroup = groupInit none (some (a.gens 4)) none none none := by rw [so13pGroup, ha]; rfl
  exact ⟨_, e.trans (init_table hne), rfl, hf _, by simp [hf], by simpa only [map_gens, List.map_nil] using hg⟩

/-- C116: `SO13()`. -/
theorem C116_so13 : ∃ G, so13Group = .ok G ∧ G.d = some 4 ∧ G.isOrth = false ∧ G.isPerm = none ∧
    ∀ h, Generated (G.lie.map (denseGen 4)) (G.disc.map (denseGen 4)) h ↔ hᵀ * minkowski 4 * h = minkowski 4 ∧ h.det = 1 := by
  obtain ⟨a, ha, hg⟩ := C115_so13
  obtain ⟨hne, hf⟩ := so13p_flag ha
  have e : so13Group = groupInit none (some (a.gens 4)) (some (so13Disc.gens 4)) none none := by rw [so13Group, ha]; rfl
  exact ⟨_, e.trans (init_tables hne), rfl, hf _, by simp [hf], by simpa only [map_gens] using hg⟩

/-- C116: `O13()`, `Lorentz()`. -/
theorem C116_o13 : ∃ G, o13Group = .ok G ∧ G.d = some 4 ∧ G.isOrth = false ∧ G.isPerm = none ∧
    ∀ h, Generated (G.lie.map (denseGen 4)) (G.disc.map (denseGen 4)) h ↔ hᵀ * minkowski 4 * h = minkowski 4 := by
  obtain ⟨a, b, ha, hb, hg⟩ := C115_o13
  obtain ⟨hne, hf⟩ := so13p_flag ha
  have e : o13Group = groupInit none (some (a.gens 4)) (some (b.gens 4)) none none := by rw [o13Group, ha, hb]; rfl
  exact ⟨_, e.trans (init_tables hne), rfl, hf _, by simp [hf], by simpa only [map_gens] using hg⟩

theorem so11p_flag : (so11pLie : Arr3 ℝ).mats 2 ≠ [] ∧ ∀ disc, orthFlag 2 ((so11pLie : Arr3 ℝ).gens 2) disc = false := by
  have hne : (so11pLie : Arr3 ℝ).mats 2 ≠ [] := by simp [Arr3.mats, so11pLie]
  refine ⟨hne, fun disc => orthFlag_false (mt (gens_nil 2 _).1 hne) ?_ (by norm_num)⟩
  rw [map_gens]
  intro A hA
  obtain ⟨k, -, rfl⟩ := List.mem_map.1 hA
  refine ⟨fun i j => ?_, 0, 1, by simp [so11pLie]⟩
  simp only [so11pLie, of_apply]
  split_ifs <;> norm_num

/-- C116: `SO11p()`. -/
theorem C116_so11p : ∃ G, so11pGroup = .ok G ∧ G.d = some 2 ∧ G.isOrth = false ∧ G.isPerm = none ∧
    ∀ h, Generated (G.lie.map (denseGen 2)) (G.disc.map (denseGen 2)) h ↔ hᵀ * minkowski 2 * h = minkowski 2 ∧ h.det = 1 ∧ 0 < h 0 0 :=
  ⟨_, init_table so11p_flag.1, rfl, so11p_flag.2 _, by simp [so11p_flag.2], by simpa only [map_gens, List.map_nil] using C115_so11p⟩

/-- C116: `O11()`. -/
theorem C116_o11 : ∃ G, o11Group = .ok G ∧ G.d = some 2 ∧ G.isOrth = false ∧ G.isPerm = none ∧
    ∀ h, Generated (G.lie.map (denseGen 2)) (G.disc.map (denseGen 2)) h ↔ hᵀ * minkowski 2 * h = minkowski 2 := by
  obtain ⟨b, hb, hg⟩ := C115_o11
  have e : o11Group = groupInit none (some (so11pLie.gens 2)) (some (b.gens 2)) none none := by rw [o11Group, hb]; rfl
  exact ⟨_, e.trans (init_tables so11p_flag.1), rfl, so11p_flag.2 _, by simp [so11p_flag.2], by simpa only [map_gens] using hg⟩

/-- what one involution generates -/
theorem generated_involution {n : ℕ} {M : Matrix (Fin n) (Fin n) ℝ} (hM : M * M = 1) (g : Matrix (Fin n) (Fin n) ℝ) :
    Generated [] [M] g ↔ g = 1 ∨ g = M := by
  constructor
  · intro hg
    have hi : M⁻¹ = M := Matrix.inv_eq_left_inv hM
    induction hg with
    | one => exact Or.inl rfl
    | exp h =>
      rw [show {B : Matrix (Fin n) (Fin n) ℝ | B ∈ ([] : List (Matrix (Fin n) (Fin n) ℝ))} = ∅ by simp, Submodule.span_empty,
        Submodule.mem_bot] at h
      exact Or.inl (by rw [h, NormedSpace.exp_zero])
    | gen h => exact Or.inr (List.mem_singleton.1 h)
    | inv h => exact Or.inr (by rw [List.mem_singleton.1 h, hi])
    | mul _ _ h1 h2 => rcases h1 with rfl | rfl <;> rcases h2 with rfl | rfl <;> simp [hM]
  · rintro (rfl | rfl)
    · exact .one
    · exact .gen (by simp)

theorem init_involution {b : Arr3 ℝ} {M : Matrix (Fin 4) (Fin 4) ℝ} (hb : b.mats 4 = [M]) (hs : M * M = 1) (hT : Mᵀ = M)
    (i : Fin 4) (hi : ∀ j, M i j ≠ 1) : ∃ G, groupInit none none (some (b.gens 4)) none none = .ok G ∧ G.d = some 4 ∧ G.isOrth = true ∧
      G.isPerm = some false ∧ ∀ h, Generated (G.lie.map (denseGen 4)) (G.disc.map (denseGen 4)) h ↔ h = 1 ∨ h = M := by
  have hbg : b.gens 4 = [ofMatrix M] := by rw [Arr3.gens, hb]; rfl
  have hf : orthFlag 4 [] [ofMatrix M] = true := C56_orthogonal_is_flagged 4 _ _ (by simp) (by
    simp only [List.mem_singleton, forall_eq, dense_ofMatrix]
    rw [hT, hs])
  have hp : permFlag 4 [] [ofMatrix M] = false := by
    have : rowsOneOne ([ofMatrix M].map (denseGen 4)) = false := by
      simp only [rowsOneOne, List.map_cons, List.map_nil, dense_ofMatrix, List.mem_singleton, forall_eq, decide_eq_false_iff_not, not_forall]
      exact ⟨i, by rw [Finset.filter_false_of_mem fun j _ => hi j]; simp⟩
    rw [permFlag, this]
    simp
  have e : groupInit none none (some (b.gens 4)) none none = .ok ⟨some 4, [], [ofMatrix M], true, some false⟩ := by
    rw [groupInit_eq, hbg, if_neg (by simp [groupDim])]
    simp [groupDim, cols_ofMatrix, hf, hp]
  refine ⟨_, e, rfl, rfl, rfl, fun h => ?_⟩
  simp only [List.map_cons, List.map_nil, dense_ofMatrix]
  exact generated_involution hs h

/-- C116: `Parity()`. -/
theorem C116_parity : ∃ G, parityGroup = .ok G ∧ G.d = some 4 ∧ G.isOrth = true ∧ G.isPerm = some false ∧
    ∀ h, Generated (G.lie.map (denseGen 4)) (G.disc.map (denseGen 4)) h ↔ h = 1 ∨ h = Matrix.diagonal ![1, -1, -1, -1] := by
  obtain ⟨b, hb, hm, -⟩ := C51_parity
  have e : parityGroup = groupInit none none (some (b.gens 4)) none none := by rw [parityGroup, hb]; rfl
  rw [e]
  refine init_involution hm ?_ ?_ 1 ?_
  · rw [diagonal_mul_diagonal, ← diagonal_one]
    congr 1
    funext i
    fin_cases i <;> simp
  · rw [diagonal_transpose]
  · intro j
    fin_cases j <;> simp <;> norm_num

/-- C116: `TimeReversal()`. -/
theorem C116_time_reversal : ∃ G, timeReversalGroup = .ok G ∧ G.d = some 4 ∧ G.isOrth = true ∧ G.isPerm = some false ∧
    ∀ h, Generated (G.lie.map (denseGen 4)) (G.disc.map (denseGen 4)) h ↔ h = 1 ∨ h = Matrix.diagonal ![-1, 1, 1, 1] := by
  obtain ⟨b, hb, hm, -⟩ := C51_time_reversal
  have e : timeReversalGroup = groupInit none none (some (b.gens 4)) none none := by rw [timeReversalGroup, hb]; rfl
  rw [e]
  refine init_involution hm ?_ ?_ 0 ?_
  · rw [diagonal_mul_diagonal, ← diagonal_one]
    congr 1
    funext i
    fin_cases i <;> simp
  · rw [diagonal_transpose]
  · intro j
    fin_cases j <;> simp <;> norm_num

/-! ## Groups of the plane embedded in space -/

/-- the matrices of space with a given action on the horizontal plane that fix the vertical axis -/
theorem vertical_iff (hlt : ∀ i ∈ [0, 1], i < 3) (P : Matrix (Fin 2) (Fin 2) ℝ → Prop) (g : Matrix (Fin 3) (Fin 3) ℝ) :
    (∃ g0, P g0 ∧ (∀ a b : Fin 2, g ⟨[0, 1][a.val]'(a.2), hlt _ (getElem_mem _)⟩ ⟨[0, 1][b.val]'(b.2), hlt _ (getElem_mem _)⟩ = g0 a b) ∧
      ∀ i j : Fin 3, i.val ∉ [0, 1] ∨ j.val ∉ [0, 1] → g i j = if i = j then 1 else 0) ↔
    ∃ a b c d : ℝ, P !![a, b; c, d] ∧ g = !![a, b, 0; c, d, 0; 0, 0, 1] := by
  constructor
  · rintro ⟨g0, h0, h1, h2⟩
    have e00 : g 0 0 = g0 0 0 := h1 0 0
    have e01 : g 0 1 = g0 0 1 := h1 0 1
    have e10 : g 1 0 = g0 1 0 := h1 1 0
    have e11 : g 1 1 = g0 1 1 := h1 1 1
    refine ⟨g0 0 0, g0 0 1, g0 1 0, g0 1 1, ?_, ?_⟩
    · rwa [← eta_fin_two g0]
    · have hz : ∀ i : Fin 3, g i 2 = if i = 2 then 1 else 0 := fun i => h2 i 2 (.inr (by simp))
      have hz' : ∀ j : Fin 3, g 2 j = if 2 = j then 1 else 0 := fun j => h2 2 j (.inl (by simp))
      ext i j
      fin_cases i <;> fin_cases j <;> simp [e00, e01, e10, e11, hz, hz']
  · rintro ⟨a, b, c, d, h, rfl⟩
    refine ⟨_, h, ?_, ?_⟩
    · intro i j
      fin_cases i <;> fin_cases j <;> rfl
    · intro i j hij
      fin_cases i <;> fin_cases j <;> simp at hij ⊢

theorem vertical_orth (g : Matrix (Fin 3) (Fin 3) ℝ) : (∃ a b c d : ℝ, (!![a, b; c, d]ᵀ * !![a, b; c, d] = 1) ∧ g = !![a, b, 0; c, d, 0; 0, 0, 1]) ↔
    gᵀ * g = 1 ∧ g *ᵥ ![0, 0, 1] = ![0, 0, 1] := by
  constructor
  · rintro ⟨a, b, c, d, h, rfl⟩
    refine ⟨(C85_O2 a b c d h).1, ?_⟩
    ext i
    fin_cases i <;> simp [Matrix.mulVec, dotProduct, Fin.sum_univ_three]
  · rintro ⟨h1, h2⟩
    have c0 := congrFun h2 0
    have c1 := congrFun h2 1
    have c2 := congrFun h2 2
    simp [Matrix.mulVec, dotProduct, Fin.sum_univ_three] at c0 c1 c2
    have h1' : g * gᵀ = 1 := mul_eq_one_comm.1 h1
    have hr := congrFun (congrFun h1' 2) 2
    simp [Matrix.mul_apply, Fin.sum_univ_three, c2] at hr
    have r0 : g 2 0 = 0 := by nlinarith [mul_self_nonneg (g 2 0), mul_self_nonneg (g 2 1)]
    have r1 : g 2 1 = 0 := by nlinarith [mul_self_nonneg (g 2 0), mul_self_nonneg (g 2 1)]
    have e := fun i j => congrFun (congrFun h1 i) j
    have e00 := e 0 0
    have e01 := e 0 1
    have e10 := e 1 0
    have e11 := e 1 1
    simp [Matrix.mul_apply, Fin.sum_univ_three, r0, r1] at e00 e01 e10 e11
    refine ⟨g 0 0, g 0 1, g 1 0, g 1 1, ?_, ?_⟩
    · ext i j
      fin_cases i <;> fin_cases j <;> simp [Matrix.mul_apply, Fin.sum_univ_two, e00, e01, e10, e11]
    · ext i j
      fin_cases i <;> fin_cases j <;> simp [c0, c1, c2, r0, r1]


/-- `Embed(G,3,slice(2))` of a group of the plane with orthogonal generators. -/
theorem embed_space {G0 : Grp} (P : Matrix (Fin 2) (Fin 2) ℝ → Prop) (hne : G0.lie ++ G0.disc ≠ [])
    (hl : ∀ A ∈ G0.lie, (denseGen 2 A)ᵀ = -denseGen 2 A) (hd : ∀ A ∈ G0.disc, (denseGen 2 A)ᵀ * denseGen 2 A = 1)
    (hP : ∀ g, Generated (G0.lie.map (denseGen 2)) (G0.disc.map (denseGen 2)) g ↔ P g) :
    ∃ G, embedGroup 2 G0 3 [0, 1] = .ok G ∧ G.d = some 3 ∧
      ∀ g, Generated (G.lie.map (denseGen 3)) (G.disc.map (denseGen 3)) g ↔ ∃ a b c d : ℝ, P !![a, b; c, d] ∧ g = !![a, b, 0; c, d, 0; 0, 0, 1] := by
  have hlt : ∀ i ∈ [0, 1], i < 3 := by simp
  obtain ⟨G, h1, h2, h3, -⟩ := C60_embed 2 3 G0 [0, 1] rfl hlt (by simp) fun h hh => by
    have := congrArg det (hd h hh)
    rw [det_mul, det_one] at this
    exact IsUnit.of_mul_eq_one_right _ this
  refine ⟨G, h1, h2 hne, fun g => ?_⟩
  rw [h3 g, ← vertical_iff hlt P g]
  simp only [hP]

/-- C116: `O2eR3()` generates exactly the orthogonal matrices of space that fix the vertical axis. -/
theorem C116_o2eR3 : ∃ G, o2eR3 = .ok G ∧ G.d = some 3 ∧
    ∀ g, Generated (G.lie.map (denseGen 3)) (G.disc.map (denseGen 3)) g ↔ gᵀ * g = 1 ∧ g *ᵥ ![0, 0, 1] = ![0, 0, 1] := by
  obtain ⟨G0, h0, -, -, -, hg⟩ := C116_o 2 (by norm_num)
  have hG : ∃ a b : Arr3 ℝ, soLie 2 = .ok a ∧ oDisc 2 = .ok b ∧ G0.lie = a.gens 2 ∧ G0.disc = b.gens 2 := by
    obtain ⟨a, b, ha, hb, -⟩ := C115_o 2 (by norm_num)
    have e : oGroup 2 = groupInit none (some (a.gens 2)) (some (b.gens 2)) none none := by rw [oGroup, hb, ha]; rfl
    rw [e, groupInit_eq] at h0
    split at h0
    · cases h0
    · cases h0
      exact ⟨a, b, ha, hb, rfl, rfl⟩
  obtain ⟨a, b, ha, hb, hl, hd⟩ := hG
  have hm := oDisc_mats 2 b hb
  obtain ⟨G, h1, h2, h3⟩ := embed_space (fun h => hᵀ * h = 1) (G0 := G0) (by rw [hd, Arr3.gens, hm]; simp)
    (fun A hA => so_mats_anti ha _ (by rw [← map_gens, ← hl]; exact List.mem_map_of_mem hA))
    (fun A hA => (hg _).1 (.gen (List.mem_map_of_mem hA))) hg
  refine ⟨G, by rw [o2eR3, h0]; exact h1, h2, fun g => ?_⟩
  rw [h3 g, vertical_orth]

/-- C116: `SO2eR3()` generates exactly the rotations about the vertical axis. -/
theorem C116_so2eR3 : ∃ G, so2eR3 = .ok G ∧ G.d = some 3 ∧
    ∀ g, Generated (G.lie.map (denseGen 3)) (G.disc.map (denseGen 3)) g ↔ (gᵀ * g = 1 ∧ g.det = 1) ∧ g *ᵥ ![0, 0, 1] = ![0, 0, 1] := by
  obtain ⟨G0, h0, -, -, -, hg⟩ := C116_so 2 le_rfl
  have hG : ∃ a : Arr3 ℝ, soLie 2 = .ok a ∧ G0.lie = a.gens 2 ∧ G0.disc = [] := by
    obtain ⟨a, ha, -⟩ := C115_so 2
    have e : soGroup 2 = groupInit none (some (a.gens 2)) none none none := by rw [soGroup, ha]; rfl
    rw [e, groupInit_eq] at h0
    split at h0
    · cases h0
    · cases h0
      exact ⟨a, ha, rfl, rfl⟩
  obtain ⟨a, ha, hl, hd⟩ := hG
  have hne : G0.lie ++ G0.disc ≠ [] := by
    rw [hl, hd, List.append_nil, Ne, gens_nil]
    obtain ⟨a', ha', hlen, -⟩ := C50_so_generators 2
    rw [ha] at ha'
    cases ha'
    intro h
    rw [h] at hlen
    simp at hlen
  obtain ⟨G, h1, h2, h3⟩ := embed_space (fun h => hᵀ * h = 1 ∧ h.det = 1) hne
    (fun A hA => so_mats_anti ha _ (by rw [← map_gens, ← hl]; exact List.mem_map_of_mem hA)) (by rw [hd]; simp) hg
  refine ⟨G, by rw [so2eR3, h0]; exact h1, h2, fun g => ?_⟩
  rw [h3 g]
  have hdet : ∀ a b c d : ℝ, (!![a, b, 0; c, d, 0; 0, 0, 1] : Matrix (Fin 3) (Fin 3) ℝ).det = !![a, b; c, d].det := fun a b c d => by
    simp [det_fin_three, det_fin_two]
  constructor
  · rintro ⟨a, b, c, d, ⟨ho, h5⟩, e⟩
    obtain ⟨h6, h7⟩ := (vertical_orth g).1 ⟨a, b, c, d, ho, e⟩
    exact ⟨⟨h6, by rw [e, hdet, h5]⟩, h7⟩
  · rintro ⟨⟨h6, h5⟩, h7⟩
    obtain ⟨a, b, c, d, ho, e⟩ := (vertical_orth g).2 ⟨h6, h7⟩
    exact ⟨a, b, c, d, ⟨ho, by rw [← hdet, ← e, h5]⟩, e⟩

/-- C116: `DkeR3(k)` for `k ≥ 1` generates exactly the rotations about the vertical axis by multiples of `2π/k` and their products with
the reflection of the first axis. -/
theorem C116_dkeR3 (k : ℕ) (hk : 0 < k) : ∃ G, dkeR3 k = .ok G ∧ G.d = some 3 ∧
    ∀ g, Generated (G.lie.map (denseGen 3)) (G.disc.map (denseGen 3)) g ↔
      ∃ j < k, ∃ s : ℝ, (s = 1 ∨ s = -1) ∧ g = !![s * Real.cos (2 * Real.pi * j / k), s * Real.sin (2 * Real.pi * j / k), 0;
        -Real.sin (2 * Real.pi * j / k), Real.cos (2 * Real.pi * j / k), 0; 0, 0, 1] := by
  obtain ⟨G0, R, F, h0, -, hl, hd, hR, -, -, -, -, -, hg⟩ := C61_dihedral k hk
  have hF : F = reflGen := by
    obtain ⟨p, hp, -⟩ := cyclicGroup_eq k
    rw [dihedralGroup, hp] at h0
    cases h0
    have : [denseGen 2 (ofMatrix (rotGen k)), denseGen 2 (ofMatrix reflGen)] = [R, F] := hd
    rw [dense_ofMatrix, dense_ofMatrix] at this
    simpa using (List.cons.inj (List.cons.inj this).2).1.symm
  have hRe : R = planeRot (2 * Real.pi / k) := by rw [hR]; rfl
  have hpow : ∀ j : ℕ, R ^ j = !![Real.cos (2 * Real.pi * j / k), Real.sin (2 * Real.pi * j / k); -Real.sin (2 * Real.pi * j / k), Real.cos (2 * Real.pi * j / k)] := fun j => by
    rw [hRe, planeRot_pow, planeRot]
    simp only [show (j : ℝ) * (2 * Real.pi / k) = 2 * Real.pi * j / k by ring]
  have hso : ∀ A ∈ G0.disc, (denseGen 2 A)ᵀ * denseGen 2 A = 1 := by
    intro A hA
    have : denseGen 2 A ∈ [R, F] := by rw [← hd]; exact List.mem_map_of_mem hA
    simp only [List.mem_cons, List.not_mem_nil, or_false] at this
    rcases this with h | h
    · rw [h, hRe, planeRot_transpose, planeRot_mul, neg_add_cancel, planeRot_zero]
    · rw [h, hF]
      ext i j
      fin_cases i <;> fin_cases j <;> simp [reflGen, Matrix.mul_apply]
  obtain ⟨G, h1, h2, h3⟩ := embed_space (G0 := G0) (fun g => ∃ j < k, g = R ^ j ∨ g = F * R ^ j)
    (by rw [hl, List.nil_append]; intro h; rw [h] at hd; simp at hd) (by rw [hl]; simp) hso (by rw [hl]; simpa using hg)
  refine ⟨G, by rw [dkeR3, h0]; exact h1, h2, fun g => ?_⟩
  rw [h3 g]
  constructor
  · rintro ⟨a, b, c, d, ⟨j, hj, h | h⟩, rfl⟩
    · rw [hpow] at h
      have e := fun x y => congrFun (congrFun h x) y
      have e00 := e 0 0
      have e01 := e 0 1
      have e10 := e 1 0
      have e11 := e 1 1
      simp at e00 e01 e10 e11
      exact ⟨j, hj, 1, .inl rfl, by rw [e00, e01, e10, e11, one_mul, one_mul]⟩
    · rw [hpow, hF] at h
      have e := fun x y => congrFun (congrFun h x) y
      have e00 := e 0 0
      have e01 := e 0 1
      have e10 := e 1 0
      have e11 := e 1 1
      simp [reflGen, Matrix.mul_apply] at e00 e01 e10 e11
      exact ⟨j, hj, -1, .inr rfl, by rw [e00, e01, e10, e11, neg_one_mul, neg_one_mul]⟩
  · rintro ⟨j, hj, s, rfl | rfl, rfl⟩
    · exact ⟨_, _, _, _, ⟨j, hj, .inl (by rw [hpow, one_mul, one_mul])⟩, rfl⟩
    · refine ⟨_, _, _, _, ⟨j, hj, .inr ?_⟩, rfl⟩
      rw [hpow, hF]
      ext x y
      fin_cases x <;> fin_cases y <;> simp [reflGen, Matrix.mul_apply]

/-! ## The symmetry declared by `DoubleSpringPendulum` -/

/-- C85: `H` is defined on all states of `rep_in = 4*T(1)` and does not change when a state is transformed, in this representation, by
any element of the declared symmetry `O2eR3()`. -/
theorem C85_symmetry : ∃ G, o2eR3 = .ok G ∧ ∀ h, Generated (G.lie.map (denseGen 3)) (G.disc.map (denseGen 3)) h →
    ∀ (g : Gid) (I : Interp ℝ), (I.vec 0 (some g)).sem = DMat.ofMatrix h → ∀ x : List ℝ, x.length = 4 * 3 →
      ∃ e, pendulumH x = .ok e ∧ pendulumH (((Expr.nsmul 4 (.rep 0)).den g I).1.mulVec x) = .ok e := by
  obtain ⟨G, hG, -, hg⟩ := C116_o2eR3
  refine ⟨G, hG, fun h hh g I hI x hx => ?_⟩
  obtain ⟨ho, hz⟩ := (hg h).1 hh
  obtain ⟨a, b, c, d, -, e⟩ := (vertical_orth h).2 ⟨ho, hz⟩
  obtain ⟨E, h1, h2⟩ := C85_pendulum h ho (by rw [e]; rfl) fun k => x.getD k 0
  have ex : x = List.ofFn fun i : Fin 12 => (fun k : ℕ => x.getD k 0) i := (ofFn_getD hx).symm
  refine ⟨E, by rw [ex]; exact h1, ?_⟩
  rw [← fourBlocks_mulVec, ← ex] at h2
  simp only [Expr.den, hI]
  exact h2

/-! Cases. -/

/-- the flags and the dimension of `Sp(2)`, `SL(3)`, `O(1)` -/
example : (∃ G, spGroup 2 = .ok G ∧ G.d = some 4 ∧ G.isOrth = false) ∧ (∃ G, slGroup 3 = .ok G ∧ G.d = some 3 ∧ G.isOrth = false) ∧
    ∃ G, oGroup 1 = .ok G ∧ G.d = some 1 ∧ G.isOrth = true := by
  obtain ⟨G, h1, h2, h3, -⟩ := C116_sp 2 (by norm_num) (by norm_num)
  obtain ⟨G', h1', h2', h3', -⟩ := C116_sl 3 (by norm_num) (by norm_num)
  obtain ⟨G'', h1'', h2'', h3'', -⟩ := C116_o 1 (by norm_num)
  exact ⟨⟨G, h1, h2, h3⟩, ⟨G', h1', h2', h3'⟩, G'', h1'', h2'', h3''⟩

/-- the reflection of the first axis is in `O2eR3()` but not in `SO2eR3()`; that of the vertical axis is not in `O2eR3()` -/
example : (∃ G, o2eR3 = .ok G ∧ Generated (G.lie.map (denseGen 3)) (G.disc.map (denseGen 3)) !![-1, 0, 0; 0, 1, 0; 0, 0, 1] ∧
      ¬ Generated (G.lie.map (denseGen 3)) (G.disc.map (denseGen 3)) !![1, 0, 0; 0, 1, 0; 0, 0, -1]) ∧
    ∃ G, so2eR3 = .ok G ∧ ¬ Generated (G.lie.map (denseGen 3)) (G.disc.map (denseGen 3)) !![-1, 0, 0; 0, 1, 0; 0, 0, 1] := by
  obtain ⟨G, h1, -, h3⟩ := C116_o2eR3
  obtain ⟨G', h1', -, h3'⟩ := C116_so2eR3
  refine ⟨⟨G, h1, (h3 _).2 ⟨?_, ?_⟩, fun h => ?_⟩, G', h1', fun h => ?_⟩
  · ext i j
    fin_cases i <;> fin_cases j <;> simp [Matrix.mul_apply, Fin.sum_univ_three]
  · ext i
    fin_cases i <;> simp [Matrix.mulVec, dotProduct, Fin.sum_univ_three]
  · have := congrFun ((h3 _).1 h).2 2
    simp [Matrix.mulVec, dotProduct, Fin.sum_univ_three] at this
    norm_num at this
  · have := ((h3' _).1 h).1.2
    simp [det_fin_three] at this
    norm_num at this

end Verif
