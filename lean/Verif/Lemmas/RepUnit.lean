import Verif.Lemmas.RepHom
import Verif.Lemmas.Ortho

/-! Representations built from unitary ones are unitary. -/
namespace Verif
open List DMat
variable {W : World} {R : Type} [CommRing R] [StarRing R]

/-- A unitary matrix of size `n`. -/
structure DMat.Unit (n : ℕ) (A : DMat R) : Prop where
  sq : A.IsSq n
  orth : A.conjTranspose.mul A = DMat.one n

theorem DMat.unit_one (n : ℕ) : DMat.Unit n (DMat.one n : DMat R) := by
  refine ⟨⟨rfl, rfl⟩, ?_⟩
  rw [mul_one' (n := n) _ rfl]
  refine DMat.ext rfl rfl fun i j hi hj => ?_
  have hi' : i < n := hi
  have hj' : j < n := hj
  rw [conjTranspose_e, one_e hj' hi', one_e hi' hj']
  by_cases h : i = j
  · simp [h]
  · simp [h, Ne.symm h]

theorem DMat.Unit.kron {m n : ℕ} {A B : DMat R} (hA : A.Unit m) (hB : B.Unit n) : (DMat.kron A B).Unit (m * n) := by
  refine ⟨⟨by simp [hA.sq.1, hB.sq.1], by simp [hA.sq.2, hB.sq.2]⟩, ?_⟩
  rw [conjTranspose_kron, kron_mul _ _ _ _ (by simp) (by simp), hA.orth, hB.orth, kron_one_one]

theorem DMat.Unit.bdiag2 {m n : ℕ} {A B : DMat R} (hA : A.Unit m) (hB : B.Unit n) : (DMat.bdiag2 A B).Unit (m + n) := by
  refine ⟨⟨by simp [DMat.bdiag2, hA.sq.1, hB.sq.1], by simp [DMat.bdiag2, hA.sq.2, hB.sq.2]⟩, ?_⟩
  rw [conjTranspose_bdiag2, bdiag2_mul _ _ _ _ (by simp) (by simp), hA.orth, hB.orth, bdiag2_one]

theorem DMat.Unit.kronL {ι : Type} {A : ι → DMat R} {s : ι → ℕ} : ∀ {l : List ι}, (∀ x ∈ l, (A x).Unit (s x)) →
    (DMat.kronL (l.map A)).Unit (l.map s).prod
  | [], _ => unit_one 1
  | a :: t, h => (h a (by simp)).kron (DMat.Unit.kronL fun x hx => h x (by simp [hx]))

theorem DMat.Unit.bdiag {ι : Type} {A : ι → DMat R} {s : ι → ℕ} : ∀ {l : List ι}, (∀ x ∈ l, (A x).Unit (s x)) →
    (DMat.bdiag (l.map A)).Unit (l.map s).sum
  | [], _ => ⟨⟨rfl, rfl⟩, DMat.ext rfl rfl fun i j hi _ => absurd hi (by simp [DMat.bdiag, DMat.zero])⟩
  | a :: t, h => (h a (by simp)).bdiag2 (DMat.Unit.bdiag fun x hx => h x (by simp [hx]))

theorem conjPerm_unit {n : ℕ} {p : List ℕ} {X : LinOp R} (hp : p ~ range n) (hX : X.sem.Unit n) : (conjPerm p X).sem.Unit n := by
  have ha : argsort p ~ range n := length_of_perm_range hp ▸ argsort_perm p
  have hla := length_of_perm_range ha
  rw [conjPerm_sem hp hX.sq]
  refine ⟨⟨hla, hla⟩, ?_⟩
  have hc : X.sem.conjTranspose.IsSq n := ⟨hX.sq.2, hX.sq.1⟩
  rw [conjTranspose_pick, DMat.pick_mul_pick _ _ ha hc.2, hX.orth, pick_one ha]
  · intro x hx; rw [hc.1]; exact lt_of_perm_range ha hx
  · intro x hx; rw [hX.sq.2]; exact lt_of_perm_range ha hx

/-- Unitary on every atom. -/
structure Interp.Unit (W : World) (I : Interp R) : Prop where
  vec : ∀ k g, (I.vec k (some g)).sem.Unit (W.asize k g)
  dual : ∀ k g, (I.dual k (some g)).sem.Unit (W.asize k g)

variable {I : Interp R}

theorem Atom.rho_unit (h : I.Unit W) {a : Atom} (ha : a.G.isSome) : (a.rho I).sem.Unit (a.size W) := by
  match a, ha with
  | .vec k (some g), _ => exact h.vec k g
  | .dual k (some g), _ => exact h.dual k g

theorem PRep.rho_unit (h : I.Unit W) {p : PRep} (hp : p.WF W) : (p.rho I).sem.Unit (p.size W) := by
  apply conjPerm_unit hp.perm
  simp only [LinOp.sem, semL_map]
  have := DMat.Unit.kronL (l := p.c.expand) fun a ha => Atom.rho_unit h (hp.some a (Counter.mem_expand ha))
  rw [prod_map_expand] at this
  exact this

theorem Fac.rho_unit (h : I.Unit W) {f : Fac} (hf : f.WF W) : (f.rho I).sem.Unit (f.size W) := by
  cases f with
  | atom a => exact Atom.rho_unit h hf
  | prod p => exact PRep.rho_unit h hf

theorem DRep.rho_unit (h : I.Unit W) {d : DRep} (hd : d.WF W) : (d.rho I).sem.Unit (d.size W) := by
  apply conjPerm_unit hd.perm
  simp only [LinOp.sem, semL_map]
  have := DMat.Unit.kronL (l := d.c.expand) fun a ha => Fac.rho_unit h (hd.key a (Counter.mem_expand ha))
  rw [prod_map_expand] at this
  exact this

theorem Key.rho_unit (h : I.Unit W) {k : Key} (hk : k.WF W) : (k.rho I).sem.Unit (k.size W) := by
  cases k with
  | scalar => exact unit_one 1
  | fac f => exact Fac.rho_unit h hk
  | dprod d => exact DRep.rho_unit h hk

theorem SRep.rho_unit (h : I.Unit W) {s : SRep} (hs : s.WF W) : (s.rho I).sem.Unit (s.size W) := by
  apply conjPerm_unit hs.perm
  simp only [LinOp.sem, semM_map]
  have := DMat.Unit.bdiag (l := s.c.expand) fun a ha => Key.rho_unit h (hs.key a (Counter.mem_expand ha)).1
  rw [sum_map_expand] at this
  exact this

theorem Rep.mat_unit (h : I.Unit W) {r : Rep} (hr : r.WF W) : (r.mat I).Unit (r.size W) := by
  match r, hr with
  | .key k, hr => exact Key.rho_unit h hr
  | .sum s, hr => exact SRep.rho_unit h hr

end Verif
