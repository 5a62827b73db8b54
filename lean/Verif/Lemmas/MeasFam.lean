import Verif.Spec.Laurent
import Verif.Lemmas.Laurent
import Mathlib.MeasureTheory.Constructions.BorelSpace.Real
import Mathlib.MeasureTheory.Group.Arithmetic

/-! The matrices of representations depend measurably on the group element. -/
namespace Verif
open List

/-- A family of square matrices with measurable functions as entries. -/
structure DMat.MFam (n : ℕ) {T : Type} [MeasurableSpace T] (A : T → DMat ℝ) : Prop where
  sq : ∀ t, (A t).IsSq n
  ent : ∀ i j, Measurable fun t => (A t).e i j

namespace DMat.MFam
variable {T : Type} [MeasurableSpace T]

theorem const {n : ℕ} {A : DMat ℝ} (h : A.IsSq n) : MFam n fun _ : T => A := ⟨fun _ => h, fun _ _ => measurable_const⟩

theorem pick {n : ℕ} {A : T → DMat ℝ} (h : MFam n A) {p : List ℕ} (hp : p.length = n) : MFam n fun t => (A t).pick p p := by
  refine ⟨fun t => ⟨hp, hp⟩, fun i j => ?_⟩
  simp only [DMat.pick, DMat.of]
  split_ifs
  · exact h.ent _ _
  · exact measurable_const

theorem kron {m n : ℕ} {A B : T → DMat ℝ} (hA : MFam m A) (hB : MFam n B) : MFam (m * n) fun t => DMat.kron (A t) (B t) := by
  refine ⟨fun t => ⟨by simp [DMat.kron, (hA.sq t).1, (hB.sq t).1], by simp [DMat.kron, (hA.sq t).2, (hB.sq t).2]⟩, fun i j => ?_⟩
  simp only [DMat.kron, DMat.of, (hA.sq _).1, (hA.sq _).2, (hB.sq _).1, (hB.sq _).2]
  split_ifs
  · exact (hA.ent _ _).mul (hB.ent _ _)
  · exact measurable_const

theorem bdiag2 {m n : ℕ} {A B : T → DMat ℝ} (hA : MFam m A) (hB : MFam n B) : MFam (m + n) fun t => DMat.bdiag2 (A t) (B t) := by
  refine ⟨fun t => ⟨by simp [DMat.bdiag2, (hA.sq t).1, (hB.sq t).1], by simp [DMat.bdiag2, (hA.sq t).2, (hB.sq t).2]⟩, fun i j => ?_⟩
  simp only [DMat.bdiag2, DMat.of, (hA.sq _).1, (hA.sq _).2, (hB.sq _).1, (hB.sq _).2]
  split_ifs
  · exact hA.ent _ _
  · exact measurable_const
  · exact measurable_const
  · exact hB.ent _ _
  · exact measurable_const

theorem kronL {ι : Type} (l : List ι) (f : T → ι → DMat ℝ) (s : ι → ℕ) (h : ∀ x ∈ l, MFam (s x) fun t => f t x) :
    MFam (l.map s).prod fun t => DMat.kronL (l.map (f t)) := by
  induction l with
  | nil => exact const ⟨rfl, rfl⟩
  | cons a l ih =>
    simp only [map_cons, prod_cons, DMat.kronL]
    exact (h a (by simp)).kron (ih fun x hx => h x (by simp [hx]))

theorem bdiag {ι : Type} (l : List ι) (f : T → ι → DMat ℝ) (s : ι → ℕ) (h : ∀ x ∈ l, MFam (s x) fun t => f t x) :
    MFam (l.map s).sum fun t => DMat.bdiag (l.map (f t)) := by
  induction l with
  | nil => exact const ⟨rfl, rfl⟩
  | cons a l ih =>
    simp only [map_cons, sum_cons, DMat.bdiag]
    exact (h a (by simp)).bdiag2 (ih fun x hx => h x (by simp [hx]))

end DMat.MFam

/-- A family of interpretations of the atoms by matrices with measurable functions as entries. -/
structure Interp.MFam (W : World) {T : Type} [MeasurableSpace T] (I : T → Interp ℝ) : Prop where
  vec : ∀ k g, DMat.MFam (W.asize k g) fun t => ((I t).vec k (some g)).sem
  dual : ∀ k g, DMat.MFam (W.asize k g) fun t => ((I t).dual k (some g)).sem

section
variable {T : Type} [MeasurableSpace T] {W : World} {I : T → Interp ℝ}

theorem Interp.MFam.sized (h : Interp.MFam W I) (t : T) : (I t).Sized W := ⟨fun k g => (h.vec k g).sq t, fun k g => (h.dual k g).sq t⟩

theorem Atom.rho_mfam (h : Interp.MFam W I) {a : Atom} (ha : a.G.isSome) : DMat.MFam (a.size W) fun t => (a.rho (I t)).sem := by
  match a, ha with
  | .vec k (some g), _ => exact h.vec k g
  | .dual k (some g), _ => exact h.dual k g

theorem conjPerm_mfam {n : ℕ} {p : List ℕ} {X : T → LinOp ℝ} (hp : p ~ range n) (hX : DMat.MFam n fun t => (X t).sem) :
    DMat.MFam n fun t => (conjPerm p (X t)).sem := by
  have ha : argsort p ~ range n := length_of_perm_range hp ▸ argsort_perm p
  simp only [fun t => conjPerm_sem hp (hX.sq t)]
  exact hX.pick (length_of_perm_range ha)

theorem PRep.rho_mfam (h : Interp.MFam W I) {p : PRep} (hp : p.WF W) : DMat.MFam (p.size W) fun t => (p.rho (I t)).sem := by
  refine conjPerm_mfam (X := fun t => LinOp.kron (p.c.expand.map (Atom.rho (I t)))) hp.perm ?_
  simp only [LinOp.sem, semL_map]
  have := DMat.MFam.kronL p.c.expand (fun t a => (a.rho (I t)).sem) (Atom.size W) fun a ha => Atom.rho_mfam h (hp.some a (Counter.mem_expand ha))
  rw [prod_map_expand] at this
  exact this

theorem Fac.rho_mfam (h : Interp.MFam W I) {f : Fac} (hf : f.WF W) : DMat.MFam (f.size W) fun t => (f.rho (I t)).sem := by
  cases f with
  | atom a => exact Atom.rho_mfam h hf
  | prod p => exact PRep.rho_mfam h hf

theorem DRep.rho_mfam (h : Interp.MFam W I) {d : DRep} (hd : d.WF W) : DMat.MFam (d.size W) fun t => (d.rho (I t)).sem := by
  refine conjPerm_mfam (X := fun t => LinOp.kron (d.c.expand.map (Fac.rho (I t)))) hd.perm ?_
  simp only [LinOp.sem, semL_map]
  have := DMat.MFam.kronL d.c.expand (fun t a => (a.rho (I t)).sem) (Fac.size W) fun a ha => Fac.rho_mfam h (hd.key a (Counter.mem_expand ha))
  rw [prod_map_expand] at this
  exact this

theorem Key.rho_mfam (h : Interp.MFam W I) {k : Key} (hk : k.WF W) : DMat.MFam (k.size W) fun t => (k.rho (I t)).sem := by
  cases k with
  | scalar => exact DMat.MFam.const ⟨rfl, rfl⟩
  | fac f => exact Fac.rho_mfam h hk
  | dprod d => exact DRep.rho_mfam h hk

theorem SRep.rho_mfam (h : Interp.MFam W I) {s : SRep} (hs : s.WF W) : DMat.MFam (s.size W) fun t => (s.rho (I t)).sem := by
  have e : ∀ t, (s.rho (I t)).sem = (DMat.bdiag (s.c.expand.map fun k => (k.rho (I t)).sem)).pick (argsort s.perm) (argsort s.perm) := by
    intro t
    have hsq := SRep.dsum_sq (h.sized t) hs
    unfold SRep.rho
    rw [conjPerm_sem hs.perm hsq]
    simp only [LinOp.sem]
    rw [semM_map s.c (Key.rho (I t))]
  have := DMat.MFam.bdiag s.c.expand (fun t a => (a.rho (I t)).sem) (Key.size W) fun a ha => Key.rho_mfam h (hs.key a (Counter.mem_expand ha)).1
  rw [sum_map_expand] at this
  have ha : argsort s.perm ~ range (s.size W) := length_of_perm_range hs.perm ▸ argsort_perm s.perm
  rw [funext e]
  exact DMat.MFam.pick this (length_of_perm_range ha)

theorem Rep.mat_mfam (h : Interp.MFam W I) {r : Rep} (hr : r.WF W) : DMat.MFam (r.size W) fun t => r.mat (I t) := by
  match r, hr with
  | .key k, hr => exact Key.rho_mfam h hr
  | .sum s, hr => exact SRep.rho_mfam h hr

end

theorem ofMatrix_mfam {T : Type} [MeasurableSpace T] {n : ℕ} {A : T → Matrix (Fin n) (Fin n) ℝ} (h : ∀ i j, Measurable fun t => A t i j) :
    DMat.MFam n fun t => DMat.ofMatrix (A t) := by
  refine ⟨fun t => ⟨rfl, rfl⟩, fun i j => ?_⟩
  by_cases hij : i < n ∧ j < n
  · simp only [fun t => DMat.ofMatrix_e (A t) hij.1 hij.2]
    exact h _ _
  · simp only [fun t => (DMat.ofMatrix (A t)).out i j hij]
    exact measurable_const

/-- The entries of the inverse of a matrix are measurable functions of its entries. -/
theorem measurable_inv_entry {T : Type} [MeasurableSpace T] {n : ℕ} {A : T → Matrix (Fin n) (Fin n) ℝ} (h : ∀ i j, Measurable fun t => A t i j) (i j : Fin n) :
    Measurable fun t => (A t)⁻¹ i j := by
  have hdet : ∀ B : T → Matrix (Fin n) (Fin n) ℝ, (∀ i j, Measurable fun t => B t i j) → Measurable fun t => (B t).det := fun B hB => by
    simp only [Matrix.det_apply]
    exact Finset.measurable_sum _ fun σ _ => (Finset.measurable_prod _ fun k _ => hB _ _).const_smul _
  simp only [Matrix.inv_def, Matrix.smul_apply, Ring.inverse_eq_inv', Matrix.adjugate_apply, smul_eq_mul]
  refine (hdet _ h).inv.mul (hdet _ fun a b => ?_)
  by_cases e : a = j
  · subst e
    simp only [Matrix.updateRow_self]
    exact measurable_const
  · simp only [Matrix.updateRow_ne e]
    exact h a b

/-- The matrices of all group elements depend measurably on the entries of the element if the user-defined representations do. -/
theorem elem_mfam {W : World} {custom : ∀ k g, AtomRep ℝ (W.d g) (W.usize k g)} {g : Gid}
    (hc : ∀ k i j, Measurable fun t : Fin (W.d g) → Fin (W.d g) → ℝ => (custom k g).rho (Matrix.of t) i j) :
    Interp.MFam W fun t : Fin (W.d g) → Fin (W.d g) → ℝ => Interp.elem W custom g (Matrix.of t) := by
  have key : ∀ k g', ∀ i j, Measurable fun t : Fin (W.d g) → Fin (W.d g) → ℝ => (stdAtoms W custom k g').rho (oneAt W g (Matrix.of t) g') i j := by
    intro k g'
    by_cases e : g' = g
    · subst e
      simp only [oneAt_same]
      cases k with
      | zero => exact fun i j => (measurable_pi_apply j).comp (measurable_pi_apply i)
      | succ k => exact hc (k + 1)
    · simp only [oneAt_ne e]
      exact fun _ _ => measurable_const
  exact ⟨fun k g' => ofMatrix_mfam (key k g'), fun k g' => ofMatrix_mfam fun i j => measurable_inv_entry (key k g') j i⟩

end Verif
