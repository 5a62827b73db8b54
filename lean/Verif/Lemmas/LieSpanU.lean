import Verif.Lemmas.LieSpan

/-! # Span and independence of the generators of `U(n)` and `SU(n)` -/
namespace Verif
open Matrix List

/-- the complex matrix of a pair of slices -/
noncomputable def Sl.cmat (n : ℕ) (s : Sl ℝ × Sl ℝ) : Matrix (Fin n) (Fin n) ℂ :=
  Matrix.of fun i j => (s.1 i j : ℂ) + (s.2 i j : ℂ) * Complex.I

theorem cplxMats_tab (n : ℕ) (L : List (Sl ℝ × Sl ℝ)) {N : ℕ} (hN : L.length = N) :
    cplxMats (tab N n (L.map Prod.fst)) (tab N n (L.map Prod.snd)) n = L.map (Sl.cmat n) := by
  subst hN
  apply List.ext_getElem
  · simp [cplxMats, tab]
  · intro k h1 h2
    simp [cplxMats, tab] at h1 h2 ⊢
    ext i j
    simp [Sl.cmat, h1]

/-- labels of the off-diagonal generators -/
def uLab (n : ℕ) : List ((ℕ × ℕ) × Bool) := (lowPairs n).flatMap fun p => [(p, false), (p, true)]

theorem mem_uLab {n : ℕ} {p : (ℕ × ℕ) × Bool} : p ∈ uLab n ↔ p.1.2 < p.1.1 ∧ p.1.1 < n := by
  unfold uLab
  rw [mem_flatMap]
  constructor
  · rintro ⟨q, hq, hp⟩
    simp only [mem_cons, not_mem_nil, or_false] at hp
    rcases hp with rfl | rfl <;> exact mem_lowPairs.1 hq
  · intro h
    refine ⟨p.1, mem_lowPairs.2 h, ?_⟩
    obtain ⟨q, b⟩ := p
    cases b <;> simp

theorem uLab_nodup (m : ℕ) : (uLab m).Nodup := by
  unfold uLab
  rw [nodup_flatMap]
  refine ⟨fun p _ => by simp, (lowPairs_nodup m).imp ?_⟩
  intro a b hab
  simp only [Function.onFun, disjoint_left, mem_cons, not_mem_nil, or_false]
  rintro x (rfl | rfl) h <;> simp at h <;> exact hab h

/-- the generator with a given label, `dg` giving the diagonal ones -/
noncomputable def uGen (dg : ℕ → Sl ℝ × Sl ℝ) : ((ℕ × ℕ) × Bool) ⊕ ℕ → Sl ℝ × Sl ℝ
  | .inl (p, false) => (soSl p, zSl)
  | .inl (p, true) => (zSl, usSl p)
  | .inr i => dg i

/-- labels of `U(n)` (`k = n`) and `SU(n)` (`k = n-1`) -/
def uLabels (n k : ℕ) : List (((ℕ × ℕ) × Bool) ⊕ ℕ) := (uLab n).map .inl ++ (range k).map .inr

theorem u_list (n k : ℕ) (dg : ℕ → Sl ℝ × Sl ℝ) : (lowPairs n).flatMap uSl2 ++ (range k).map dg =
    (uLabels n k).map (uGen dg) := by
  simp only [uLabels, uLab, map_append, List.map_map, map_flatMap, map_cons, map_nil]
  rfl

theorem uLabels_nodup (n k : ℕ) : (uLabels n k).Nodup := nodup_inl_inr _ _ (uLab_nodup n) nodup_range

/-- real part of an entry -/
def entRe (n i j : ℕ) : Matrix (Fin n) (Fin n) ℂ →ₗ[ℝ] ℝ where
  toFun A := if h : i < n ∧ j < n then (A ⟨i, h.1⟩ ⟨j, h.2⟩).re else 0
  map_add' A B := by split <;> simp
  map_smul' c A := by split <;> simp

/-- imaginary part of an entry -/
def entIm (n i j : ℕ) : Matrix (Fin n) (Fin n) ℂ →ₗ[ℝ] ℝ where
  toFun A := if h : i < n ∧ j < n then (A ⟨i, h.1⟩ ⟨j, h.2⟩).im else 0
  map_add' A B := by split <;> simp
  map_smul' c A := by split <;> simp

theorem entRe_cmat (n : ℕ) (s : Sl ℝ × Sl ℝ) {i j : ℕ} (hi : i < n) (hj : j < n) : entRe n i j (Sl.cmat n s) = s.1 i j := by
  simp [entRe, hi, hj, Sl.cmat]
theorem entIm_cmat (n : ℕ) (s : Sl ℝ × Sl ℝ) {i j : ℕ} (hi : i < n) (hj : j < n) : entIm n i j (Sl.cmat n s) = s.2 i j := by
  simp [entIm, hi, hj, Sl.cmat]

theorem u_indep (n : ℕ) : LinearIndependent ℝ ((uLabels n n).map fun x => Sl.cmat n (uGen uDiag x)).get := by
  apply linIndep_map _ (uLabels_nodup n n) _ fun x => match x with
    | .inl (p, false) => entRe n p.1 p.2
    | .inl (p, true) => entIm n p.1 p.2
    | .inr i => entIm n i i
  intro x hx y hy
  simp only [uLabels, mem_append, mem_map] at hx hy
  rcases hx with ⟨⟨⟨i, j⟩, b⟩, hp, rfl⟩ | ⟨i, hp, rfl⟩ <;> rcases hy with ⟨⟨⟨k, l⟩, c⟩, hq, rfl⟩ | ⟨k, hq, rfl⟩ <;>
    simp only [mem_uLab, mem_range] at hp hq <;> (try cases b) <;> (try cases c) <;>
    simp only [uGen] <;> first | rw [entRe_cmat _ _ (by omega) (by omega)] | rw [entIm_cmat _ _ (by omega) (by omega)]
  all_goals
    simp only [soSl, usSl, zSl, uDiag, upd, Sum.inl.injEq, Sum.inr.injEq, Prod.mk.injEq, reduceCtorEq, if_false, and_true, and_false]
    try (split_ifs <;> first | rfl | omega)

theorem suDiagSl_eq (n i : ℕ) (hi : i < n) : (suDiagSl n i : Sl ℝ) = fun a b =>
    if a = b ∧ a < n then (if a = i then 1 else -1 / ((n : ℝ) - 1)) else 0 := by
  have : ∀ k, k ≤ n → (range k).foldl (fun f j => if i = j then f else upd f j j (-1 / ((n : ℝ) - 1))) (upd (fun _ _ => 0) i i 1) =
      fun a b => if a = b ∧ a = i then 1 else if a = b ∧ a < k then -1 / ((n : ℝ) - 1) else 0 := by
    intro k
    induction k with
    | zero =>
      intro _
      funext a b
      simp only [range_zero, foldl_nil, upd]
      split_ifs <;> first | rfl | (exfalso; omega)
    | succ k ih =>
      intro hk
      rw [range_succ, foldl_append, ih (by omega)]
      funext a b
      simp only [foldl_cons, foldl_nil]
      by_cases h : i = k
      · subst h
        rw [if_pos rfl]
        by_cases h1 : a = b ∧ a = i
        · rw [if_pos h1, if_pos h1]
        · rw [if_neg h1, if_neg h1]
          by_cases h2 : a = b ∧ a < i
          · rw [if_pos h2, if_pos (by omega)]
          · rw [if_neg h2, if_neg (by omega)]
      · rw [if_neg h]
        simp only [upd]
        by_cases h0 : a = k ∧ b = k
        · rw [if_pos h0, if_neg (by omega), if_pos (by omega)]
        · rw [if_neg h0]
          by_cases h1 : a = b ∧ a = i
          · rw [if_pos h1, if_pos h1]
          · rw [if_neg h1, if_neg h1]
            by_cases h2 : a = b ∧ a < k
            · rw [if_pos h2, if_pos (by omega)]
            · rw [if_neg h2, if_neg (by omega)]
  unfold suDiagSl
  rw [this n (le_refl _)]
  funext a b
  split_ifs <;> first | rfl | (exfalso; omega)

theorem su_indep (n : ℕ) (hn : 2 ≤ n) :
    LinearIndependent ℝ ((uLabels n (n - 1)).map fun x => Sl.cmat n (uGen (suDiag n) x)).get := by
  have hn1 : (n : ℝ) - 1 ≠ 0 := by
    have : (2 : ℝ) ≤ n := by exact_mod_cast hn
    intro h; linarith
  have hn0 : (n : ℝ) ≠ 0 := by
    have : (2 : ℝ) ≤ n := by exact_mod_cast hn
    intro h; linarith
  apply linIndep_map _ (uLabels_nodup n (n - 1)) _ fun x => match x with
    | .inl (p, false) => entRe n p.1 p.2
    | .inl (p, true) => entIm n p.1 p.2
    | .inr i => (((n : ℝ) - 1) / n) • (entIm n i i - entIm n (n - 1) (n - 1))
  intro x hx y hy
  simp only [uLabels, mem_append, mem_map] at hx hy
  rcases hx with ⟨⟨⟨i, j⟩, b⟩, hp, rfl⟩ | ⟨i, hp, rfl⟩ <;> rcases hy with ⟨⟨⟨k, l⟩, c⟩, hq, rfl⟩ | ⟨k, hq, rfl⟩ <;>
    simp only [mem_uLab, mem_range] at hp hq <;> (try cases b) <;> (try cases c) <;>
    simp only [uGen, LinearMap.smul_apply, LinearMap.sub_apply] <;>
    first | rw [entRe_cmat _ _ (by omega) (by omega)] | rw [entIm_cmat _ _ (by omega) (by omega)]
  all_goals try rw [entIm_cmat _ _ (by omega) (by omega)]
  all_goals try simp only [suDiag]
  all_goals try rw [suDiagSl_eq n _ (by omega)]
  all_goals
    simp only [soSl, usSl, zSl, upd, Sum.inl.injEq, Sum.inr.injEq, Prod.mk.injEq, reduceCtorEq, if_false, and_true, and_false, true_and]
    try (split_ifs <;> first | rfl | (exfalso; omega) | simp; done | skip)
  all_goals (try simp only [smul_eq_mul]) <;> (try field_simp) <;> (try ring)

/-- the two kinds of off-diagonal generators as matrix units -/
theorem cmat_so (n : ℕ) (i j : Fin n) (h : j.val < i.val) : Sl.cmat n ((soSl (i.val, j.val) : Sl ℝ), zSl) =
    single i j 1 - single j i 1 := by
  ext a b
  simp only [Sl.cmat, soSl, zSl, upd, Matrix.of_apply, Matrix.sub_apply, single_apply, Fin.ext_iff]
  split_ifs <;> first | (exfalso; omega) | simp

theorem cmat_us (n : ℕ) (i j : Fin n) (h : j.val < i.val) : Sl.cmat n ((zSl : Sl ℝ), usSl (i.val, j.val)) =
    single i j Complex.I + single j i Complex.I := by
  ext a b
  simp only [Sl.cmat, usSl, zSl, upd, Matrix.of_apply, Matrix.add_apply, single_apply, Fin.ext_iff]
  split_ifs <;> first | (exfalso; omega) | simp

theorem off_mem (n k : ℕ) (dg : ℕ → Sl ℝ × Sl ℝ) (i j : Fin n) (h : j.val < i.val) :
    single i j (1 : ℂ) - single j i 1 ∈ Submodule.span ℝ {B | B ∈ (uLabels n k).map fun x => Sl.cmat n (uGen dg x)} ∧
    single i j Complex.I + single j i Complex.I ∈
      Submodule.span ℝ {B | B ∈ (uLabels n k).map fun x => Sl.cmat n (uGen dg x)} := by
  constructor
  · rw [← cmat_so n i j h]
    apply Submodule.subset_span
    refine mem_map.2 ⟨.inl ((i.val, j.val), false), ?_, rfl⟩
    simp [uLabels, mem_uLab, h]
  · rw [← cmat_us n i j h]
    apply Submodule.subset_span
    refine mem_map.2 ⟨.inl ((i.val, j.val), true), ?_, rfl⟩
    simp [uLabels, mem_uLab, h]

theorem real_smul_single (n : ℕ) (i j : Fin n) (r : ℝ) (c : ℂ) : r • single i j c = single i j ((r : ℂ) * c) := by
  rw [smul_single, Complex.real_smul]

/-- An anti-Hermitian matrix with zero diagonal lies in the span of the off-diagonal generators. -/
theorem offdiag_mem (n k : ℕ) (dg : ℕ → Sl ℝ × Sl ℝ) (A : Matrix (Fin n) (Fin n) ℂ) (hA : Aᴴ = -A) (h0 : ∀ i, A i i = 0) :
    A ∈ Submodule.span ℝ {B | B ∈ (uLabels n k).map fun x => Sl.cmat n (uGen dg x)} := by
  set S := Submodule.span ℝ {B | B ∈ (uLabels n k).map fun x => Sl.cmat n (uGen dg x)} with hS
  have hK : ∀ i j : Fin n, single i j (A i j) - single j i (star (A i j)) ∈ S := by
    have base : ∀ i j : Fin n, j.val < i.val → ∀ c : ℂ, single i j c - single j i (star c) ∈ S := by
      intro i j h c
      obtain ⟨h1, h2⟩ := off_mem n k dg i j h
      have : single i j c - single j i (star c) =
          c.re • (single i j (1 : ℂ) - single j i 1) + c.im • (single i j Complex.I + single j i Complex.I) := by
        rw [smul_sub, smul_add, real_smul_single, real_smul_single, real_smul_single, real_smul_single]
        ext a b
        simp only [Matrix.sub_apply, Matrix.add_apply, single_apply, Fin.ext_iff]
        have hc : (c.re : ℂ) + c.im * Complex.I = c := Complex.re_add_im c
        have hc2 : star c = (c.re : ℂ) - c.im * Complex.I := by
          apply Complex.ext <;> simp
        rw [hc2]
        split_ifs <;> first | (exfalso; omega) | ring1 | linear_combination -hc
      rw [this]
      exact S.add_mem (S.smul_mem _ h1) (S.smul_mem _ h2)
    intro i j
    rcases lt_trichotomy i.val j.val with h | h | h
    · have := base j i h (star (A i j))
      rw [star_star] at this
      rw [← neg_sub]
      exact S.neg_mem this
    · have : i = j := Fin.ext h
      subst this
      rw [h0]; simp
    · exact base i j h _
  have e : A = ∑ i, ∑ j, (1 / 2 : ℝ) • (single i j (A i j) - single j i (star (A i j))) := by
    have h1 : ∑ i, ∑ j, single i j (A i j) = A := (matrix_eq_sum_single A).symm
    have h2 : ∑ i, ∑ j, single j i (star (A i j)) = Aᴴ := by
      rw [Finset.sum_comm]
      exact (matrix_eq_sum_single Aᴴ).symm
    simp only [← Finset.smul_sum, Finset.sum_sub_distrib]
    rw [h1, h2, hA, sub_neg_eq_add, ← two_smul ℝ, smul_smul]
    norm_num
  rw [e]
  exact Submodule.sum_mem _ fun i _ => Submodule.sum_mem _ fun j _ => Submodule.smul_mem _ _ (hK i j)

theorem cmat_uDiag (n : ℕ) (i : Fin n) : Sl.cmat n (uDiag i.val) = single i i Complex.I := by
  ext a b
  simp only [Sl.cmat, uDiag, zSl, upd, Matrix.of_apply, single_apply, Fin.ext_iff]
  split_ifs <;> first | (exfalso; omega) | simp

theorem cmat_suDiag (n : ℕ) (i : Fin n) : Sl.cmat n (suDiag n i.val) =
    diagonal fun a => (if a = i then 1 else -1 / ((n : ℂ) - 1)) * Complex.I := by
  ext a b
  simp only [Sl.cmat, suDiag, zSl, suDiagSl_eq n i i.2, Matrix.of_apply, diagonal_apply, Fin.ext_iff]
  have := a.2
  split_ifs <;> first | (exfalso; omega) | simp

/-- generators of `U(n)` are anti-Hermitian -/
theorem uGen_anti (n k : ℕ) (dg : ℕ → Sl ℝ × Sl ℝ) (hd : ∀ i < k, (Sl.cmat n (dg i))ᴴ = -Sl.cmat n (dg i))
    (x : ((ℕ × ℕ) × Bool) ⊕ ℕ) (hx : x ∈ uLabels n k) : (Sl.cmat n (uGen dg x))ᴴ = -Sl.cmat n (uGen dg x) := by
  simp only [uLabels, mem_append, mem_map] at hx
  rcases hx with ⟨⟨⟨i, j⟩, b⟩, hp, rfl⟩ | ⟨i, hp, rfl⟩
  · rw [mem_uLab] at hp
    simp only at hp
    have hi : i < n := hp.2
    have hj : j < n := by omega
    cases b
    · show (Sl.cmat n (soSl (i, j), zSl))ᴴ = - Sl.cmat n (soSl (i, j), zSl)
      rw [cmat_so n ⟨i, hi⟩ ⟨j, hj⟩ hp.1, conjTranspose_sub, conjTranspose_single, conjTranspose_single]
      simp
    · show (Sl.cmat n (zSl, usSl (i, j)))ᴴ = - Sl.cmat n (zSl, usSl (i, j))
      rw [cmat_us n ⟨i, hi⟩ ⟨j, hj⟩ hp.1, conjTranspose_add, conjTranspose_single, conjTranspose_single]
      ext a b
      simp only [Matrix.add_apply, Matrix.neg_apply, single_apply]
      split_ifs <;> simp
  · exact hd i (mem_range.1 hp)

theorem trace_uGen (n : ℕ) (x : (ℕ × ℕ) × Bool) (hx : x ∈ uLab n) (dg : ℕ → Sl ℝ × Sl ℝ) :
    (Sl.cmat n (uGen dg (.inl x))).trace = 0 := by
  obtain ⟨⟨i, j⟩, b⟩ := x
  rw [mem_uLab] at hx
  simp only at hx
  have hi : i < n := hx.2
  have hj : j < n := by omega
  have hne : (⟨i, hi⟩ : Fin n) ≠ ⟨j, hj⟩ := fun h => by
    have := Fin.mk.inj h; omega
  cases b
  · show (Sl.cmat n (soSl (i, j), zSl)).trace = 0
    rw [cmat_so n ⟨i, hi⟩ ⟨j, hj⟩ hx.1, trace_sub, trace_single_eq_of_ne _ _ _ hne, trace_single_eq_of_ne _ _ _ hne.symm, sub_zero]
  · show (Sl.cmat n (zSl, usSl (i, j))).trace = 0
    rw [cmat_us n ⟨i, hi⟩ ⟨j, hj⟩ hx.1, trace_add, trace_single_eq_of_ne _ _ _ hne, trace_single_eq_of_ne _ _ _ hne.symm, add_zero]

theorem anti_span {n : ℕ} {l : List (Matrix (Fin n) (Fin n) ℂ)} (hl : ∀ B ∈ l, Bᴴ = -B) {A : Matrix (Fin n) (Fin n) ℂ}
    (hA : A ∈ Submodule.span ℝ {B | B ∈ l}) : Aᴴ = -A := by
  induction hA using Submodule.span_induction with
  | mem B h => exact hl B h
  | zero => simp
  | add B C _ _ h1 h2 => rw [conjTranspose_add, h1, h2, neg_add]
  | smul c B _ h => rw [conjTranspose_smul, star_trivial, h, smul_neg]

theorem u_gen_all (n : ℕ) : ∀ B ∈ (uLabels n n).map fun x => Sl.cmat n (uGen uDiag x), Bᴴ = -B := by
  intro B h
  obtain ⟨x, hx, rfl⟩ := mem_map.1 h
  refine uGen_anti n n uDiag (fun i hi => ?_) x hx
  rw [cmat_uDiag n ⟨i, hi⟩, conjTranspose_single]
  ext a b
  simp only [Matrix.neg_apply, single_apply]
  split_ifs <;> simp

theorem su_gen_all (n : ℕ) (hn : 2 ≤ n) : ∀ B ∈ (uLabels n (n - 1)).map fun x => Sl.cmat n (uGen (suDiag n) x),
    Bᴴ = -B ∧ B.trace = 0 := by
  have hn1 : (n : ℂ) - 1 ≠ 0 := by
    have : ((n - 1 : ℕ) : ℂ) ≠ 0 := Nat.cast_ne_zero.2 (by omega)
    rwa [Nat.cast_sub (by omega), Nat.cast_one] at this
  intro B h
  obtain ⟨x, hx, rfl⟩ := mem_map.1 h
  refine ⟨uGen_anti n (n - 1) (suDiag n) (fun i hi => ?_) x hx, ?_⟩
  · rw [cmat_suDiag n ⟨i, by omega⟩, diagonal_conjTranspose]
    ext a b
    simp only [Matrix.neg_apply, diagonal_apply, Pi.star_apply]
    split_ifs <;> simp
  · simp only [uLabels, mem_append, mem_map] at hx
    rcases hx with ⟨y, hy, rfl⟩ | ⟨i, hi, rfl⟩
    · exact trace_uGen n y hy _
    · have hi' := mem_range.1 hi
      show (Sl.cmat n (suDiag n i)).trace = 0
      rw [cmat_suDiag n ⟨i, by omega⟩, trace_diagonal, ← Finset.sum_mul, Finset.sum_ite, Finset.sum_const, Finset.sum_const]
      rw [Finset.filter_eq' , if_pos (Finset.mem_univ _), Finset.card_singleton, Finset.filter_ne', Finset.card_erase_of_mem (Finset.mem_univ _),
        Finset.card_univ, Fintype.card_fin]
      rw [nsmul_eq_mul, nsmul_eq_mul, Nat.cast_sub (by omega), Nat.cast_one]
      field_simp
      simp

theorem anti_offdiag {n : ℕ} (A : Matrix (Fin n) (Fin n) ℂ) (hA : Aᴴ = -A) :
    (A - diagonal fun i => A i i)ᴴ = -(A - diagonal fun i => A i i) := by
  ext a b
  have := congrFun (congrFun hA a) b
  rw [conjTranspose_apply, Matrix.neg_apply] at this
  simp only [conjTranspose_apply, Matrix.neg_apply, Matrix.sub_apply, diagonal_apply, star_sub, this]
  by_cases hab : a = b
  · subst hab; simp only [if_true, this]; ring
  · simp [hab, Ne.symm hab]

theorem u_span (n : ℕ) (A : Matrix (Fin n) (Fin n) ℂ) :
    A ∈ Submodule.span ℝ {B | B ∈ (uLabels n n).map fun x => Sl.cmat n (uGen uDiag x)} ↔ Aᴴ = -A := by
  refine ⟨anti_span (u_gen_all n), fun hA => ?_⟩
  set S := Submodule.span ℝ {B | B ∈ (uLabels n n).map fun x => Sl.cmat n (uGen uDiag x)} with hS
  have hd : ∀ i : Fin n, single i i Complex.I ∈ S := by
    intro i
    rw [← cmat_uDiag n i]
    apply Submodule.subset_span
    exact mem_map.2 ⟨.inr i.val, by simp [uLabels], rfl⟩
  have hre : ∀ i, A i i = ((A i i).im : ℂ) * Complex.I := by
    intro i
    have := congrFun (congrFun hA i) i
    rw [conjTranspose_apply, Matrix.neg_apply] at this
    have h2 := congrArg Complex.re this
    simp at h2
    apply Complex.ext
    · simp; linarith
    · simp
  have e : A = (A - diagonal fun i => A i i) + ∑ i, (A i i).im • single i i Complex.I := by
    have : (∑ i, (A i i).im • single i i Complex.I : Matrix (Fin n) (Fin n) ℂ) = diagonal fun i => A i i := by
      ext a b
      simp only [Matrix.sum_apply, real_smul_single, single_apply, diagonal_apply]
      by_cases hab : a = b
      · subst hab
        simp [← hre]
      · rw [if_neg hab, Finset.sum_eq_zero]
        intro i _
        rw [if_neg]
        rintro ⟨rfl, rfl⟩
        exact hab rfl
    rw [this, sub_add_cancel]
  rw [e]
  refine S.add_mem (offdiag_mem n n uDiag _ ?_ ?_) (S.sum_mem fun i _ => S.smul_mem _ (hd i))
  · exact anti_offdiag A hA
  · intro i; simp

theorem su_span (n : ℕ) (hn : 2 ≤ n) (A : Matrix (Fin n) (Fin n) ℂ) :
    A ∈ Submodule.span ℝ {B | B ∈ (uLabels n (n - 1)).map fun x => Sl.cmat n (uGen (suDiag n) x)} ↔ Aᴴ = -A ∧ A.trace = 0 := by
  have hn1 : (n : ℂ) - 1 ≠ 0 := by
    have : ((n - 1 : ℕ) : ℂ) ≠ 0 := Nat.cast_ne_zero.2 (by omega)
    rwa [Nat.cast_sub (by omega), Nat.cast_one] at this
  have hn0 : (n : ℂ) ≠ 0 := Nat.cast_ne_zero.2 (by omega)
  constructor
  · intro h
    refine ⟨anti_span (fun B hB => (su_gen_all n hn B hB).1) h, ?_⟩
    induction h using Submodule.span_induction with
    | mem B h => exact (su_gen_all n hn B h).2
    | zero => simp
    | add B C _ _ h1 h2 => rw [trace_add, h1, h2, add_zero]
    | smul c B _ h => rw [trace_smul, h, smul_zero]
  rintro ⟨hA, hT⟩
  set S := Submodule.span ℝ {B | B ∈ (uLabels n (n - 1)).map fun x => Sl.cmat n (uGen (suDiag n) x)} with hS
  obtain ⟨last, hlast⟩ : ∃ last : Fin n, last.val = n - 1 := ⟨⟨n - 1, by omega⟩, rfl⟩
  have hd : ∀ i : Fin n, i ≠ last → Sl.cmat n (suDiag n i.val) ∈ S := by
    intro i hi
    apply Submodule.subset_span
    have : i.val ≠ n - 1 := fun h => hi (Fin.ext (h.trans hlast.symm))
    refine mem_map.2 ⟨.inr i.val, ?_, rfl⟩
    simp only [uLabels, mem_append, mem_map, mem_range]
    exact .inr ⟨i.val, by omega, rfl⟩
  obtain ⟨t, ht⟩ : ∃ t : Fin n → ℝ, t = fun i => (A i i).im := ⟨_, rfl⟩
  have hre : ∀ i, A i i = (t i : ℂ) * Complex.I := by
    intro i
    have := congrFun (congrFun hA i) i
    rw [conjTranspose_apply, Matrix.neg_apply] at this
    have h2 := congrArg Complex.re this
    simp at h2
    subst ht
    apply Complex.ext
    · simp; linarith
    · simp
  have hts : ∑ i, t i = 0 := by
    have h1 : ∑ i, (t i : ℂ) * Complex.I = 0 := by
      rw [← hT]; exact Finset.sum_congr rfl fun i _ => (hre i).symm
    rw [← Finset.sum_mul] at h1
    have h2 := (mul_eq_zero.1 h1).resolve_right Complex.I_ne_zero
    exact_mod_cast h2
  have hn1' : (n : ℝ) - 1 ≠ 0 := by
    intro h; apply hn1; have := congrArg (fun x : ℝ => (x : ℂ)) h; simpa using this
  have hn0' : (n : ℝ) ≠ 0 := Nat.cast_ne_zero.2 (by omega)
  obtain ⟨c, hc⟩ : ∃ c : Fin n → ℝ, c = fun i => (t i - t last) * (n - 1) / n := ⟨_, rfl⟩
  have hcs : ∑ i, c i = - (n - 1) * t last := by
    subst hc
    simp only
    rw [← Finset.sum_div, ← Finset.sum_mul, Finset.sum_sub_distrib, hts, Finset.sum_const, Finset.card_univ, Fintype.card_fin, nsmul_eq_mul]
    field_simp
    ring
  have hcl : c last = 0 := by subst hc; simp
  have hD : (∑ i, c i • Sl.cmat n (suDiag n i.val) : Matrix (Fin n) (Fin n) ℂ) = diagonal fun i => A i i := by
    ext a b
    simp only [Matrix.sum_apply, Matrix.smul_apply, cmat_suDiag, diagonal_apply]
    by_cases hab : a = b
    · subst hab
      simp only [if_true]
      rw [hre a]
      have h1 : ∀ i, c i • ((if a = i then (1 : ℂ) else -1 / ((n : ℂ) - 1)) * Complex.I) =
          (((c i * (-1 / ((n : ℝ) - 1)) + if a = i then c i * (1 + 1 / ((n : ℝ) - 1)) else 0 : ℝ)) : ℂ) * Complex.I := by
        intro i
        rw [Complex.real_smul, ← mul_assoc]
        congr 1
        split_ifs
        · push_cast; ring
        · push_cast; ring
      rw [Finset.sum_congr rfl fun i _ => h1 i, ← Finset.sum_mul, ← Complex.ofReal_sum, Finset.sum_add_distrib, ← Finset.sum_mul, hcs,
        Finset.sum_ite_eq, if_pos (Finset.mem_univ _)]
      congr 2
      subst hc
      simp only
      field_simp
      ring
    · rw [if_neg hab]
      simp [hab]
  have e : A = (A - diagonal fun i => A i i) + ∑ i, c i • Sl.cmat n (suDiag n i.val) := by
    rw [hD, sub_add_cancel]
  rw [e]
  refine S.add_mem (offdiag_mem n (n - 1) (suDiag n) _ ?_ ?_) (S.sum_mem fun i _ => ?_)
  · exact anti_offdiag A hA
  · intro i; simp
  · by_cases hi : i = last
    · rw [hi, hcl, zero_smul]; exact S.zero_mem
    · exact S.smul_mem _ (hd i hi)

end Verif
