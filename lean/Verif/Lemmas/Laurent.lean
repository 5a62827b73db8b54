import Verif.Spec.Laurent
import Verif.Lemmas.RepHom
import Verif.Props.Layers

/-! The matrices of a representation along a family of group elements have Laurent polynomials as entries if those of the atoms have. -/
namespace Verif
open List

namespace Laurent

theorem const (c : ℝ) : Laurent fun _ => c := ⟨0, Polynomial.C c, fun t _ => by simp⟩

theorem id : Laurent fun t => t := ⟨0, Polynomial.X, fun t _ => by simp⟩

theorem inv : Laurent fun t => t⁻¹ := ⟨1, 1, fun t h => by simp [h]⟩

theorem add {f g : ℝ → ℝ} (hf : Laurent f) (hg : Laurent g) : Laurent fun t => f t + g t := by
  obtain ⟨N, p, hp⟩ := hf
  obtain ⟨M, q, hq⟩ := hg
  refine ⟨N + M, p * Polynomial.X ^ M + q * Polynomial.X ^ N, fun t h => ?_⟩
  simp only [Polynomial.eval_add, Polynomial.eval_mul, Polynomial.eval_pow, Polynomial.eval_X]
  rw [← hp t h, ← hq t h]; ring

theorem mul {f g : ℝ → ℝ} (hf : Laurent f) (hg : Laurent g) : Laurent fun t => f t * g t := by
  obtain ⟨N, p, hp⟩ := hf
  obtain ⟨M, q, hq⟩ := hg
  refine ⟨N + M, p * q, fun t h => ?_⟩
  simp only [Polynomial.eval_mul]
  rw [← hp t h, ← hq t h]; ring

theorem neg {f : ℝ → ℝ} (hf : Laurent f) : Laurent fun t => -f t := by
  have := (const (-1)).mul hf
  simpa using this

theorem sub {f g : ℝ → ℝ} (hf : Laurent f) (hg : Laurent g) : Laurent fun t => f t - g t := by
  simpa [sub_eq_add_neg] using hf.add hg.neg

theorem sum {ι : Type*} (s : Finset ι) {f : ι → ℝ → ℝ} (h : ∀ x ∈ s, Laurent (f x)) : Laurent fun t => ∑ x ∈ s, f x t := by
  classical
  induction s using Finset.induction_on with
  | empty => simpa using const 0
  | insert a s ha ih =>
    simp only [Finset.sum_insert ha]
    exact (h a (by simp)).add (ih fun x hx => h x (by simp [hx]))

theorem congr {f g : ℝ → ℝ} (hf : Laurent f) (h : ∀ t, t ≠ 0 → g t = f t) : Laurent g := by
  obtain ⟨N, p, hp⟩ := hf
  exact ⟨N, p, fun t ht => by rw [h t ht, hp t ht]⟩

/-- A Laurent polynomial which vanishes at all positive numbers vanishes away from zero. -/
theorem zero_of_pos {f : ℝ → ℝ} (hf : Laurent f) (h : ∀ t, 0 < t → f t = 0) (t : ℝ) (ht : t ≠ 0) : f t = 0 := by
  obtain ⟨N, p, hp⟩ := hf
  have : p = 0 := by
    refine Polynomial.eq_zero_of_infinite_isRoot p ((Set.Ioi_infinite (0 : ℝ)).mono fun s hs => ?_)
    have hs' : (0 : ℝ) < s := hs
    show p.eval s = 0
    rw [← hp s hs'.ne', h s hs', mul_zero]
  have h0 := hp t ht
  rw [this, Polynomial.eval_zero] at h0
  exact (mul_eq_zero.1 h0).resolve_left (pow_ne_zero _ ht)

end Laurent

/-- A family of square matrices with Laurent polynomials as entries. -/
structure DMat.LFam (n : ℕ) (A : ℝ → DMat ℝ) : Prop where
  sq : ∀ t, (A t).IsSq n
  ent : ∀ i j, Laurent fun t => (A t).e i j

namespace DMat.LFam

theorem const {n : ℕ} {A : DMat ℝ} (h : A.IsSq n) : LFam n fun _ => A := ⟨fun _ => h, fun _ _ => Laurent.const _⟩

theorem pick {n : ℕ} {A : ℝ → DMat ℝ} (h : LFam n A) {p : List ℕ} (hp : p.length = n) : LFam n fun t => (A t).pick p p := by
  refine ⟨fun t => ⟨hp, hp⟩, fun i j => ?_⟩
  simp only [DMat.pick, DMat.of]
  split_ifs
  · exact h.ent _ _
  · exact Laurent.const 0

theorem kron {m n : ℕ} {A B : ℝ → DMat ℝ} (hA : LFam m A) (hB : LFam n B) : LFam (m * n) fun t => DMat.kron (A t) (B t) := by
  refine ⟨fun t => ⟨by simp [DMat.kron, (hA.sq t).1, (hB.sq t).1], by simp [DMat.kron, (hA.sq t).2, (hB.sq t).2]⟩, fun i j => ?_⟩
  simp only [DMat.kron, DMat.of, (hA.sq _).1, (hA.sq _).2, (hB.sq _).1, (hB.sq _).2]
  split_ifs
  · exact (hA.ent _ _).mul (hB.ent _ _)
  · exact Laurent.const 0

theorem bdiag2 {m n : ℕ} {A B : ℝ → DMat ℝ} (hA : LFam m A) (hB : LFam n B) : LFam (m + n) fun t => DMat.bdiag2 (A t) (B t) := by
  refine ⟨fun t => ⟨by simp [DMat.bdiag2, (hA.sq t).1, (hB.sq t).1], by simp [DMat.bdiag2, (hA.sq t).2, (hB.sq t).2]⟩, fun i j => ?_⟩
  simp only [DMat.bdiag2, DMat.of, (hA.sq _).1, (hA.sq _).2, (hB.sq _).1, (hB.sq _).2]
  split_ifs
  · exact hA.ent _ _
  · exact Laurent.const 0
  · exact Laurent.const 0
  · exact hB.ent _ _
  · exact Laurent.const 0

theorem kronL {ι : Type} (l : List ι) (f : ℝ → ι → DMat ℝ) (s : ι → ℕ) (h : ∀ x ∈ l, LFam (s x) fun t => f t x) :
    LFam (l.map s).prod fun t => DMat.kronL (l.map (f t)) := by
  induction l with
  | nil => exact const ⟨rfl, rfl⟩
  | cons a l ih =>
    simp only [map_cons, prod_cons, DMat.kronL]
    exact (h a (by simp)).kron (ih fun x hx => h x (by simp [hx]))

theorem bdiag {ι : Type} (l : List ι) (f : ℝ → ι → DMat ℝ) (s : ι → ℕ) (h : ∀ x ∈ l, LFam (s x) fun t => f t x) :
    LFam (l.map s).sum fun t => DMat.bdiag (l.map (f t)) := by
  induction l with
  | nil => exact const ⟨rfl, rfl⟩
  | cons a l ih =>
    simp only [map_cons, sum_cons, DMat.bdiag]
    exact (h a (by simp)).bdiag2 (ih fun x hx => h x (by simp [hx]))

/-- A vector fixed at all positive parameters is fixed at all nonzero ones. -/
theorem fixed {n : ℕ} {A : ℝ → DMat ℝ} (h : LFam n A) {v : List ℝ} (hv : v.length = n) (hp : ∀ t, 0 < t → (A t).mulVec v = v)
    (t : ℝ) (ht : t ≠ 0) : (A t).mulVec v = v := by
  refine DMat.vec_ext (by simp [DMat.mulVec, (h.sq t).1, hv]) fun i hi => ?_
  have hi' : i < n := by simpa [DMat.mulVec, (h.sq t).1] using hi
  have key : Laurent fun t => (∑ j ∈ Finset.range n, (A t).e i j * v.getD j 0) - v.getD i 0 :=
    (Laurent.sum _ fun j _ => (h.ent i j).mul (Laurent.const _)).sub (Laurent.const _)
  have := key.zero_of_pos (fun s hs => by
    have e := congrArg (fun w : List ℝ => w.getD i 0) (hp s hs)
    rw [DMat.getD_mulVec (by rw [(h.sq s).1]; exact hi'), (h.sq s).2] at e
    rw [e, sub_self]) t ht
  rw [DMat.getD_mulVec (by rw [(h.sq t).1]; exact hi'), (h.sq t).2]
  linarith

end DMat.LFam

/-- A family of interpretations of the atoms by matrices with Laurent polynomials as entries. -/
structure Interp.LFam (W : World) (I : ℝ → Interp ℝ) : Prop where
  vec : ∀ k g, DMat.LFam (W.asize k g) fun t => ((I t).vec k (some g)).sem
  dual : ∀ k g, DMat.LFam (W.asize k g) fun t => ((I t).dual k (some g)).sem

section
variable {W : World} {I : ℝ → Interp ℝ}

theorem Interp.LFam.sized (h : Interp.LFam W I) (t : ℝ) : (I t).Sized W := ⟨fun k g => (h.vec k g).sq t, fun k g => (h.dual k g).sq t⟩

theorem Atom.rho_lfam (h : Interp.LFam W I) {a : Atom} (ha : a.G.isSome) : DMat.LFam (a.size W) fun t => (a.rho (I t)).sem := by
  match a, ha with
  | .vec k (some g), _ => exact h.vec k g
  | .dual k (some g), _ => exact h.dual k g

theorem conjPerm_lfam {n : ℕ} {p : List ℕ} {X : ℝ → LinOp ℝ} (hp : p ~ range n) (hX : DMat.LFam n fun t => (X t).sem) :
    DMat.LFam n fun t => (conjPerm p (X t)).sem := by
  have ha : argsort p ~ range n := length_of_perm_range hp ▸ argsort_perm p
  simp only [fun t => conjPerm_sem hp (hX.sq t)]
  exact hX.pick (length_of_perm_range ha)

theorem PRep.rho_lfam (h : Interp.LFam W I) {p : PRep} (hp : p.WF W) : DMat.LFam (p.size W) fun t => (p.rho (I t)).sem := by
  refine conjPerm_lfam (X := fun t => LinOp.kron (p.c.expand.map (Atom.rho (I t)))) hp.perm ?_
  simp only [LinOp.sem, semL_map]
  have := DMat.LFam.kronL p.c.expand (fun t a => (a.rho (I t)).sem) (Atom.size W) fun a ha => Atom.rho_lfam h (hp.some a (Counter.mem_expand ha))
  rw [prod_map_expand] at this
  exact this

theorem Fac.rho_lfam (h : Interp.LFam W I) {f : Fac} (hf : f.WF W) : DMat.LFam (f.size W) fun t => (f.rho (I t)).sem := by
  cases f with
  | atom a => exact Atom.rho_lfam h hf
  | prod p => exact PRep.rho_lfam h hf

theorem DRep.rho_lfam (h : Interp.LFam W I) {d : DRep} (hd : d.WF W) : DMat.LFam (d.size W) fun t => (d.rho (I t)).sem := by
  refine conjPerm_lfam (X := fun t => LinOp.kron (d.c.expand.map (Fac.rho (I t)))) hd.perm ?_
  simp only [LinOp.sem, semL_map]
  have := DMat.LFam.kronL d.c.expand (fun t a => (a.rho (I t)).sem) (Fac.size W) fun a ha => Fac.rho_lfam h (hd.key a (Counter.mem_expand ha))
  rw [prod_map_expand] at this
  exact this

theorem Key.rho_lfam (h : Interp.LFam W I) {k : Key} (hk : k.WF W) : DMat.LFam (k.size W) fun t => (k.rho (I t)).sem := by
  cases k with
  | scalar => exact DMat.LFam.const ⟨rfl, rfl⟩
  | fac f => exact Fac.rho_lfam h hk
  | dprod d => exact DRep.rho_lfam h hk

theorem SRep.rho_lfam (h : Interp.LFam W I) {s : SRep} (hs : s.WF W) : DMat.LFam (s.size W) fun t => (s.rho (I t)).sem := by
  have e : ∀ t, (s.rho (I t)).sem = (DMat.bdiag (s.c.expand.map fun k => (k.rho (I t)).sem)).pick (argsort s.perm) (argsort s.perm) := by
    intro t
    have hsq := SRep.dsum_sq (h.sized t) hs
    unfold SRep.rho
    rw [conjPerm_sem hs.perm hsq]
    simp only [LinOp.sem]
    rw [semM_map s.c (Key.rho (I t))]
  have := DMat.LFam.bdiag s.c.expand (fun t a => (a.rho (I t)).sem) (Key.size W) fun a ha => Key.rho_lfam h (hs.key a (Counter.mem_expand ha)).1
  rw [sum_map_expand] at this
  have ha : argsort s.perm ~ range (s.size W) := length_of_perm_range hs.perm ▸ argsort_perm s.perm
  rw [funext e]
  exact DMat.LFam.pick this (length_of_perm_range ha)

theorem Rep.mat_lfam (h : Interp.LFam W I) {r : Rep} (hr : r.WF W) : DMat.LFam (r.size W) fun t => r.mat (I t) := by
  match r, hr with
  | .key k, hr => exact Key.rho_lfam h hr
  | .sum s, hr => exact SRep.rho_lfam h hr

end

theorem ofMatrix_lfam {n : ℕ} {A : ℝ → Matrix (Fin n) (Fin n) ℝ} (h : ∀ i j, Laurent fun t => A t i j) :
    DMat.LFam n fun t => DMat.ofMatrix (A t) := by
  refine ⟨fun t => ⟨rfl, rfl⟩, fun i j => ?_⟩
  by_cases hij : i < n ∧ j < n
  · simp only [fun t => DMat.ofMatrix_e (A t) hij.1 hij.2]
    exact h _ _
  · simp only [fun t => (DMat.ofMatrix (A t)).out i j hij]
    exact Laurent.const 0

/-- The elements of a family which is a Laurent polynomial, as is its inverse, act on the atoms by such families. -/
theorem elem_lfam {W : World} {custom : ∀ k g, AtomRep ℝ (W.d g) (W.usize k g)} {g : Gid} {γ : ℝ → Matrix (Fin (W.d g)) (Fin (W.d g)) ℝ}
    (hγ : ∀ i j, Laurent fun t => γ t i j) (hγ' : ∀ i j, Laurent fun t => (γ t)⁻¹ i j) (hc : ∀ k, (custom k g).LaurentOn γ) :
    Interp.LFam W fun t => Interp.elem W custom g (γ t) := by
  have key : ∀ k g', (∀ i j, Laurent fun t => (stdAtoms W custom k g').rho (oneAt W g (γ t) g') i j) ∧
      ∀ i j, Laurent fun t => ((stdAtoms W custom k g').rho (oneAt W g (γ t) g'))⁻¹ i j := by
    intro k g'
    by_cases e : g' = g
    · subst e
      simp only [oneAt_same]
      cases k with
      | zero => exact ⟨hγ, hγ'⟩
      | succ k => exact ⟨(hc (k + 1)).rho, (hc (k + 1)).inv⟩
    · simp only [oneAt_ne e]
      exact ⟨fun _ _ => Laurent.const _, fun _ _ => Laurent.const _⟩
  exact ⟨fun k g' => ofMatrix_lfam (key k g').1, fun k g' => ofMatrix_lfam fun i j => (key k g').2 j i⟩

end Verif
