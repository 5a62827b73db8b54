import Verif.Lemmas.Tables
import Mathlib.LinearAlgebra.LinearIndependent.Defs
import Mathlib.Data.Matrix.Basis
import Mathlib.Tactic.FieldSimp
import Mathlib.Tactic.Linarith

/-! # Spans and independence of the generator tables -/
namespace Verif
open Matrix List

/-- the matrix of a slice -/
def Sl.mat {R : Type} (n : ℕ) (f : Sl R) : Matrix (Fin n) (Fin n) R := Matrix.of fun i j => f i j

@[simp] theorem Sl.mat_apply {R : Type} (n : ℕ) (f : Sl R) (i j : Fin n) : Sl.mat n f i j = f i j := rfl

theorem linIndep_map {ι V : Type*} [DecidableEq ι] [AddCommGroup V] [Module ℝ V] (xs : List ι) (hx : xs.Nodup) (v : ι → V)
    (φ : ι → V →ₗ[ℝ] ℝ) (h : ∀ x ∈ xs, ∀ y ∈ xs, φ x (v y) = if x = y then 1 else 0) :
    LinearIndependent ℝ (xs.map v).get := by
  rw [Fintype.linearIndependent_iff]
  intro g hg k
  have hk : k.val < xs.length := by simpa using k.isLt
  have h1 := congrArg (φ (xs[k.val])) hg
  rw [map_sum, map_zero, Finset.sum_eq_single k] at h1
  · rw [map_smul, List.get_eq_getElem, getElem_map, h _ (getElem_mem _) _ (getElem_mem _), if_pos rfl, smul_eq_mul, mul_one] at h1
    exact h1
  · intro l _ hl
    have hl' : l.val < xs.length := by simpa using l.isLt
    rw [map_smul, List.get_eq_getElem, getElem_map, h _ (getElem_mem _) _ (getElem_mem _), if_neg, smul_zero]
    intro he
    exact hl (Fin.ext ((hx.getElem_inj_iff).1 he).symm)
  · simp

/-- entry functional with natural-number indices -/
def ent (n i j : ℕ) : Matrix (Fin n) (Fin n) ℝ →ₗ[ℝ] ℝ where
  toFun A := if h : i < n ∧ j < n then A ⟨i, h.1⟩ ⟨j, h.2⟩ else 0
  map_add' A B := by split <;> simp
  map_smul' c A := by split <;> simp

theorem ent_mat (n : ℕ) (f : Sl ℝ) {i j : ℕ} (hi : i < n) (hj : j < n) : ent n i j (f.mat n) = f i j := by
  simp [ent, hi, hj]

section so

theorem so_indep (n : ℕ) : LinearIndependent ℝ ((lowPairs n).map fun p => (soSl p : Sl ℝ).mat n).get := by
  apply linIndep_map _ (lowPairs_nodup n) _ fun p => ent n p.1 p.2
  rintro ⟨i, j⟩ hx ⟨k, l⟩ hy
  rw [mem_lowPairs] at hx hy
  simp only at hx hy ⊢
  rw [ent_mat n _ (by omega) (by omega)]
  simp only [soSl, upd, Prod.mk.injEq]
  split_ifs <;> first | rfl | omega

theorem so_anti (n : ℕ) (p : ℕ × ℕ) (hp : p.2 < p.1) : ((soSl p : Sl ℝ).mat n)ᵀ = -(soSl p : Sl ℝ).mat n := by
  ext a b
  simp only [transpose_apply, Sl.mat_apply, Matrix.neg_apply, soSl, upd]
  split_ifs <;> first | (exfalso; omega) | simp

theorem so_span (n : ℕ) (A : Matrix (Fin n) (Fin n) ℝ) :
    A ∈ Submodule.span ℝ {B | B ∈ (lowPairs n).map fun p => (soSl p : Sl ℝ).mat n} ↔ Aᵀ = -A := by
  constructor
  · intro h
    induction h using Submodule.span_induction with
    | mem B h =>
      simp only [Set.mem_setOf_eq, mem_map] at h
      obtain ⟨p, hp, rfl⟩ := h
      exact so_anti n p (mem_lowPairs.1 hp).1
    | zero => simp
    | add B C _ _ h1 h2 => rw [transpose_add, h1, h2, neg_add]
    | smul c B _ h => rw [transpose_smul, h, smul_neg]
  · intro hA
    have hK : ∀ i j : Fin n, (single i j (1 : ℝ) - single j i 1) ∈
        Submodule.span ℝ {B | B ∈ (lowPairs n).map fun p => (soSl p : Sl ℝ).mat n} := by
      intro i j
      have base : ∀ i j : Fin n, j < i → (single i j (1 : ℝ) - single j i 1) ∈
          Submodule.span ℝ {B | B ∈ (lowPairs n).map fun p => (soSl p : Sl ℝ).mat n} := by
        intro i j hij
        apply Submodule.subset_span
        simp only [Set.mem_setOf_eq, mem_map]
        refine ⟨(i, j), mem_lowPairs.2 ⟨hij, i.2⟩, ?_⟩
        ext a b
        simp only [Sl.mat_apply, soSl, upd, Matrix.sub_apply, single_apply, Fin.ext_iff]
        have := Fin.lt_def.1 hij
        split_ifs <;> first | (exfalso; omega) | simp
      rcases lt_trichotomy i j with h | h | h
      · rw [← neg_sub]; exact Submodule.neg_mem _ (base j i h)
      · subst h; rw [sub_self]; exact Submodule.zero_mem _
      · exact base i j h
    have e : A = ∑ i, ∑ j, (A i j / 2) • (single i j (1 : ℝ) - single j i 1) := by
      have h1 : ∑ i, ∑ j, (A i j / 2) • (single i j (1 : ℝ) - single j i 1) = (1 / 2 : ℝ) • A - (1 / 2 : ℝ) • Aᵀ := by
        conv_rhs => rw [matrix_eq_sum_single A]
        simp only [transpose_sum, Finset.smul_sum, ← Finset.sum_sub_distrib, transpose_single, smul_sub, smul_single, smul_eq_mul, mul_one]
        refine Finset.sum_congr rfl fun i _ => Finset.sum_congr rfl fun j _ => ?_
        congr 2 <;> ring
      rw [h1, hA, smul_neg, sub_neg_eq_add, ← add_smul]
      norm_num
    rw [e]
    exact Submodule.sum_mem _ fun i _ => Submodule.sum_mem _ fun j _ => Submodule.smul_mem _ _ (hK i j)

end so

section gl

theorem gl_indep (n : ℕ) : LinearIndependent ℝ ((allPairs n n).map fun p => (glSl p : Sl ℝ).mat n).get := by
  apply linIndep_map _ (allPairs_nodup n n) _ fun p => ent n p.1 p.2
  rintro ⟨i, j⟩ hx ⟨k, l⟩ hy
  rw [mem_allPairs] at hx hy
  simp only at hx hy ⊢
  rw [ent_mat n _ (by omega) (by omega)]
  simp only [glSl, upd, Prod.mk.injEq]

theorem glSl_mat (n : ℕ) (i j : Fin n) : (glSl (i.val, j.val) : Sl ℝ).mat n = single i j 1 := by
  ext a b
  simp only [Sl.mat_apply, glSl, upd, single_apply, Fin.ext_iff]
  split_ifs <;> first | rfl | omega

theorem gl_span (n : ℕ) (A : Matrix (Fin n) (Fin n) ℝ) :
    A ∈ Submodule.span ℝ {B | B ∈ (allPairs n n).map fun p => (glSl p : Sl ℝ).mat n} := by
  rw [matrix_eq_sum_single A]
  refine Submodule.sum_mem _ fun i _ => Submodule.sum_mem _ fun j _ => ?_
  have : single i j (A i j) = A i j • (glSl (i.val, j.val) : Sl ℝ).mat n := by rw [glSl_mat, smul_single, smul_eq_mul, mul_one]
  rw [this]
  refine Submodule.smul_mem _ _ (Submodule.subset_span ?_)
  exact mem_map.2 ⟨_, mem_allPairs.2 ⟨i.2, j.2⟩, rfl⟩

end gl

section sl

/-- labels of the `SL(n)` table -/
def slLabels (n : ℕ) : List ((ℕ × ℕ) ⊕ ℕ) := (offPairs n).map .inl ++ (range (n - 1)).map .inr

/-- the generator with a given label -/
noncomputable def slGen (n : ℕ) : (ℕ × ℕ) ⊕ ℕ → Sl ℝ
  | .inl p => glSl p
  | .inr l => slDiag n l

theorem sl_list (n : ℕ) : ((offPairs n).map glSl ++ (range (n - 1)).map (slDiag n) : List (Sl ℝ)) =
    (slLabels n).map (slGen n) := by
  simp [slLabels, slGen, Function.comp_def]

theorem nodup_inl_inr {α β : Type*} (xs : List α) (ys : List β) (hx : xs.Nodup) (hy : ys.Nodup) :
    (xs.map Sum.inl ++ ys.map Sum.inr : List (α ⊕ β)).Nodup := by
  rw [nodup_append]
  refine ⟨hx.map Sum.inl_injective, hy.map Sum.inr_injective, ?_⟩
  intro a ha b hb
  simp only [mem_map] at ha hb
  obtain ⟨a, _, rfl⟩ := ha
  obtain ⟨b, _, rfl⟩ := hb
  simp

theorem sl_indep (n : ℕ) (hn : n ≠ 0) : LinearIndependent ℝ ((slLabels n).map fun x => (slGen n x).mat n).get := by
  apply linIndep_map _ (nodup_inl_inr _ _ (offPairs_nodup n) nodup_range) _ fun x => match x with
    | .inl p => ent n p.1 p.2
    | .inr l => ent n l l
  intro x hx y hy
  simp only [slLabels, mem_append, mem_map] at hx hy
  rcases hx with ⟨⟨i, j⟩, hp, rfl⟩ | ⟨i, hp, rfl⟩ <;> rcases hy with ⟨⟨k, l⟩, hq, rfl⟩ | ⟨k, hq, rfl⟩ <;>
    simp only [mem_offPairs, mem_range] at hp hq <;> simp only [slGen] <;> rw [ent_mat n _ (by omega) (by omega)] <;>
    simp only [glSl, slDiag, upd, Sum.inl.injEq, Sum.inr.injEq, Prod.mk.injEq, reduceCtorEq, if_false] <;>
    split_ifs <;> first | rfl | omega

theorem trace_glSl (n : ℕ) (p : ℕ × ℕ) (hp : p.1 ≠ p.2) : ((glSl p : Sl ℝ).mat n).trace = 0 := by
  rw [Matrix.trace]
  apply Finset.sum_eq_zero
  intro i _
  simp only [diag_apply, Sl.mat_apply, glSl, upd]
  rw [if_neg (by omega)]

theorem slDiag_mat (n l : ℕ) (hl : l < n - 1) : (slDiag n l : Sl ℝ).mat n =
    single ⟨l, by omega⟩ ⟨l, by omega⟩ 1 - single ⟨n - 1, by omega⟩ ⟨n - 1, by omega⟩ 1 := by
  ext a b
  simp only [Sl.mat_apply, slDiag, upd, Matrix.sub_apply, single_apply, Fin.ext_iff]
  split_ifs <;> first | (exfalso; omega) | simp

theorem sl_span (n : ℕ) (hn : n ≠ 0) (A : Matrix (Fin n) (Fin n) ℝ) :
    A ∈ Submodule.span ℝ {B | B ∈ (slLabels n).map fun x => (slGen n x).mat n} ↔ A.trace = 0 := by
  constructor
  · intro h
    induction h using Submodule.span_induction with
    | mem B h =>
      simp only [Set.mem_setOf_eq, mem_map, slLabels, mem_append] at h
      obtain ⟨x, ⟨p, hp, rfl⟩ | ⟨l, hl, rfl⟩, rfl⟩ := h
      · exact trace_glSl n p (mem_offPairs.1 hp).2.2
      · show ((slDiag n l : Sl ℝ).mat n).trace = 0
        rw [slDiag_mat n l (mem_range.1 hl), trace_sub, trace_single_eq_same, trace_single_eq_same, sub_self]
    | zero => simp
    | add B C _ _ h1 h2 => rw [trace_add, h1, h2, add_zero]
    | smul c B _ h => rw [trace_smul, h, smul_zero]
  · intro hA
    obtain ⟨last, hlast⟩ : ∃ last : Fin n, last.val = n - 1 := ⟨⟨n - 1, by omega⟩, rfl⟩
    have hK : ∀ i j : Fin n, (single i j (1 : ℝ) - if i = j then single last last 1 else 0) ∈
        Submodule.span ℝ {B | B ∈ (slLabels n).map fun x => (slGen n x).mat n} := by
      intro i j
      by_cases hij : i = j
      · subst hij
        rw [if_pos rfl]
        by_cases hl : i = last
        · rw [hl, sub_self]; exact Submodule.zero_mem _
        · have hi : i.val < n - 1 := by
            have : i.val ≠ n - 1 := fun h => hl (Fin.ext (h.trans hlast.symm))
            omega
          apply Submodule.subset_span
          simp only [Set.mem_setOf_eq, mem_map]
          refine ⟨.inr i.val, by simp [slLabels, hi], ?_⟩
          show (slDiag n i : Sl ℝ).mat n = _
          rw [slDiag_mat n i hi]
          congr <;> exact hlast.symm
      · rw [if_neg hij, sub_zero]
        apply Submodule.subset_span
        simp only [Set.mem_setOf_eq, mem_map]
        refine ⟨.inl (i.val, j.val), ?_, glSl_mat n i j⟩
        simp only [slLabels, mem_append, mem_map]
        exact .inl ⟨_, mem_offPairs.2 ⟨i.2, j.2, fun h => hij (Fin.ext h)⟩, rfl⟩
    have e : A = ∑ i, ∑ j, A i j • (single i j (1 : ℝ) - if i = j then single last last 1 else 0) := by
      simp only [smul_sub, Finset.sum_sub_distrib, smul_single, smul_eq_mul, mul_one]
      rw [← matrix_eq_sum_single A]
      simp only [smul_ite, smul_zero, Finset.sum_ite_eq, Finset.mem_univ, if_true]
      rw [← Finset.sum_smul]
      have : ∑ i, A i i = 0 := hA
      rw [this, zero_smul, sub_zero]
    rw [e]
    exact Submodule.sum_mem _ fun i _ => Submodule.sum_mem _ fun j _ => Submodule.smul_mem _ _ (hK i j)

end sl
end Verif
