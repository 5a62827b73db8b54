import Verif.Spec.RhoOp
import Verif.Spec.Single
import Verif.Lemmas.DRho
import Verif.Lemmas.LinApply8

/-! Operators built by `rho` and `drho` stand for the matrices of `Verif.Model.Rep` and `Verif.Model.DRho`. -/
namespace Verif
open List

/-- A comprehension whose body succeeds. -/
theorem mapM_forall₂ {α β : Type} {f : α → Py β} {P : α → β → Prop} : ∀ {l : List α}, (∀ x ∈ l, ∃ y, f x = .ok y ∧ P x y) →
    ∃ ys, l.mapM f = .ok ys ∧ Forall₂ P l ys
  | [], _ => ⟨[], rfl, .nil⟩
  | x :: l, h => by
    obtain ⟨y, h1, h2⟩ := h x (by simp)
    obtain ⟨ys, h3, h4⟩ := mapM_forall₂ (l := l) fun z hz => h z (by simp [hz])
    exact ⟨y :: ys, by rw [mapM_cons, h1, h3]; rfl, .cons h2 h4⟩

variable {W : World} {R : Type} [CommRing R] [StarRing R]

/-- The operator is well formed and stands for the matrix. -/
def Op.Stands (X : Op R) (A : DMat R) : Prop := X.WF ∧ X.den = A

namespace Op

theorem at_ok {A B : Op R} (hA : A.WF) (hB : B.WF) (ha : A.asArr = none) (hb : B.asArr = none) (h : A.den.cols = B.den.rows) :
    ∃ X, Op.at A B = .ok X ∧ X.Stands (A.den.mul B.den) ∧ X.asArr = none := by
  refine ⟨.mul A B, ?_, ⟨by rw [WF]; exact ⟨hA, hB, h, ha, hb⟩, by rw [den]⟩, rfl⟩
  rw [Op.at, ha, hb]
  show mkMul A B = _
  rw [mkMul, ha, hb, shape_eq hA, shape_eq hB, if_neg (by simp), if_pos h]

theorem conjPerm_ok {X : Op R} {A : DMat R} {n : ℕ} {p : List ℕ} (hX : X.Stands A) (ha : X.asArr = none) (hA : A.IsSq n) (hp : p ~ range n) :
    ∃ Y, Op.conjPerm p X = .ok Y ∧ Y.Stands (((DMat.permMat (argsort p)).mul A).mul (DMat.permMat p)) ∧ Y.asArr = none := by
  have hl : p.length = n := by simpa using hp.length_eq
  have hla : (argsort p).length = n := by rw [(argsort_perm p).length_eq]; simpa using hl
  have hwa : (Op.perm (argsort p) : Op R).WF := by
    rw [WF, hla, ← hl]; exact argsort_perm p
  have hwp : (Op.perm p : Op R).WF := by rw [WF, hl]; exact hp
  obtain ⟨Y, y1, ⟨y2, y3⟩, y4⟩ := at_ok hwa hX.1 rfl ha (by rw [hX.2, den, hA.1]; exact hla)
  obtain ⟨Z, z1, ⟨z2, z3⟩, z4⟩ := at_ok y2 hwp y4 rfl (by
    rw [y3, hX.2]; simp only [den]
    show A.cols = p.length
    rw [hA.2, hl])
  refine ⟨Z, ?_, ⟨z2, ?_⟩, z4⟩
  · rw [Op.conjPerm, y1]; exact z1
  · rw [z3, y3, hX.2]; simp only [den]

theorem stands_list {α : Type} {A : α → DMat R} {l : List α} {Ms : List (Op R)} (h : Forall₂ (fun a X => Op.Stands X (A a)) l Ms) :
    WFL Ms ∧ denL Ms = l.map A ∧ Ms.length = l.length := by
  induction h with
  | nil => exact ⟨by rw [WFL]; trivial, rfl, rfl⟩
  | cons h _ ih => exact ⟨by rw [WFL]; exact ⟨h.1, ih.1⟩, by rw [denL, h.2, ih.2.1]; rfl, by simp [ih.2.2]⟩

theorem kron_ok {α : Type} {A : α → DMat R} {l : List α} {Ms : List (Op R)} (h : Forall₂ (fun a X => Op.Stands X (A a)) l Ms)
    (hl : 2 ≤ l.length) (h0 : ∀ a ∈ l, (A a).cols ≠ 0) :
    mkKron Ms = .ok (.kron Ms) ∧ (Op.kron Ms).Stands (DMat.kronL (l.map A)) := by
  obtain ⟨h1, h2, h3⟩ := stands_list h
  refine ⟨mkKron_two (by omega), ?_, by rw [den, h2]⟩
  rw [WF, h2]
  refine ⟨h1, by omega, fun B hB => ?_⟩
  obtain ⟨a, ha, rfl⟩ := mem_map.1 hB
  exact h0 a ha

theorem kronsum_ok {α : Type} {A : α → DMat R} {l : List α} {Ms : List (Op R)} (h : Forall₂ (fun a X => Op.Stands X (A a)) l Ms)
    (hl : 2 ≤ l.length) (h0 : ∀ a ∈ l, (A a).cols ≠ 0 ∧ (A a).rows = (A a).cols) :
    mkKronsum Ms = .ok (.kronsum Ms) ∧ (Op.kronsum Ms).Stands (DMat.kronsumL (l.map A)) := by
  obtain ⟨h1, h2, h3⟩ := stands_list h
  refine ⟨mkKronsum_two (by omega), ?_, by rw [den, h2]⟩
  rw [WF, h2]
  refine ⟨h1, by omega, fun B hB => ?_⟩
  obtain ⟨a, ha, rfl⟩ := mem_map.1 hB
  exact h0 a ha

theorem stands_mults {K : Type} {A : K → DMat R} : ∀ {c : Counter K} {Ms : List (Op R)},
    Forall₂ (fun a X => Op.Stands X (A a)) c.keys Ms →
    WFM (Ms.zip (c.map (·.2))) ∧ denM (Ms.zip (c.map (·.2))) = c.expand.map A ∧
      ((∀ a ∈ c.keys, (A a).rows = (A a).cols) → ∀ M ∈ Ms.zip (c.map (·.2)), M.1.den.rows = M.1.den.cols)
  | [], _, h => by
    cases h
    exact ⟨by simp [WFM], by simp [denM, Counter.expand], by simp⟩
  | (k, n) :: c, _, h => by
    rw [Counter.keys, map_cons] at h
    cases h with
    | cons h t =>
      obtain ⟨h1, h2, h3⟩ := stands_mults (c := c) t
      refine ⟨?_, ?_, fun hA M hM => ?_⟩
      · simp only [map_cons, zip_cons_cons, WFM]; exact ⟨h.1, h1⟩
      · simp only [map_cons, zip_cons_cons, denM]
        rw [h.2, h2]; simp [Counter.expand]
      · simp only [map_cons, zip_cons_cons, mem_cons] at hM
        rcases hM with rfl | hM
        · simp only [h.2]; exact hA k (by simp [Counter.keys])
        · exact h3 (fun a ha => hA a (by simp only [Counter.keys, map_cons, mem_cons]; exact Or.inr ha)) M hM

theorem dsum_ok {K : Type} {A : K → DMat R} {c : Counter K} {Ms : List (Op R)} (h : Forall₂ (fun a X => Op.Stands X (A a)) c.keys Ms)
    (hne : c.expand ≠ []) (hsq : ∀ a ∈ c.keys, (A a).rows = (A a).cols) :
    (Op.dsum (Ms.zip (c.map (·.2)))).Stands (DMat.bdiag (c.expand.map A)) := by
  obtain ⟨h1, h2, h3⟩ := stands_mults h
  refine ⟨?_, by rw [den, h2]⟩
  rw [WF, h2]
  exact ⟨h1, by simpa using hne, h3 hsq⟩

end Op

/-! ### `drho` -/

section drho
variable {I : OpInterp R} {J : Interp R}

theorem Atom.deep_some {a : Atom} (h : a.Deep W) : a.G.isSome ∧ a.size W ≠ 0 := by
  match a, h with
  | .vec k (some g), h => exact ⟨rfl, h⟩
  | .dual k (some g), h => exact ⟨rfl, h.1⟩

theorem SortedCounter.expand_ne {K : Type} {lt : K → K → Bool} {c : Counter K} (h : SortedCounter lt c) : c.expand ≠ [] := by
  obtain ⟨kc, t, hc⟩ := exists_cons_of_ne_nil h.ne
  have := h.pos kc (by simp [hc])
  rw [hc]; simp [Counter.expand, this]

theorem Atom.drhoOp_ok (hJ : J.DDual W) (hI : I.Of J) (hr : I.Rev W) {a : Atom} (ha : a.Deep W) :
    ∃ X, a.drhoOp I = .ok X ∧ X.Stands (a.drho J).sem := by
  match a, ha with
  | .vec k (some g), _ => exact ⟨_, rfl, hI.wf k g, hI.den k g⟩
  | .dual k (some g), ha =>
    have hd : (Atom.drho J (.dual k (some g))).sem = (I.vec k (some g)).den.transpose.neg := by
      rw [hI.den]; exact hJ.dual k g
    simp only [Atom.drhoOp, Op.dualDrho]
    cases hA : (I.vec k (some g)).asArr with
    | some A =>
      refine ⟨_, rfl, by rw [Op.WF]; trivial, ?_⟩
      have : (I.vec k (some g)).den = A := by
        revert hA
        cases I.vec k (some g) <;> simp [Op.asArr, Op.den]
      rw [hd, this, Op.den]
    | none =>
      have hrev : (I.vec k (some g)).Rev := (hr k g ha.2).resolve_left (by simp [hA])
      obtain ⟨t1, t2⟩ := Op.T_ok (hI.wf k g) hrev
      have hT : (I.vec k (some g)).T.asArr = none := by
        revert hA
        cases I.vec k (some g) <;> simp [Op.asArr, Op.T]
      refine ⟨.smul (-1) (I.vec k (some g)).T, by rw [Op.mkScale, hT]; rfl, by rw [Op.WF]; exact ⟨t1, hT⟩, ?_⟩
      rw [hd, Op.den, t2]
      refine DMat.ext rfl rfl fun i j hi hj => ?_
      simp [DMat.smul, DMat.neg]

theorem conjPerm_muls (p : List ℕ) (X : LinOp R) :
    (conjPerm p X).sem = ((DMat.permMat (argsort p)).mul X.sem).mul (DMat.permMat p) := by
  simp only [conjPerm, LinOp.sem]

theorem PRep.drhoOp_ok (hJ : J.DDual W) (hI : I.Of J) (hr : I.Rev W) {p : PRep} (hp : p.WF W) (hd : (Fac.prod p).Deep W) :
    ∃ X, p.drhoOp I = .ok X ∧ X.Stands (p.drho J).sem ∧ X.asArr = none := by
  have hde : ∀ a ∈ p.c.expand, a.Deep W := fun a ha => hd.2 a (Counter.mem_expand ha)
  obtain ⟨Ms, m1, m2⟩ := mapM_forall₂ (l := p.c.expand) (f := Atom.drhoOp I) (P := fun a X => X.Stands (a.drho J).sem)
    fun a ha => Atom.drhoOp_ok hJ hI hr (hde a ha)
  have hsq : ∀ a ∈ p.c.expand, (a.drho J).sem.IsSq (a.size W) := fun a ha => Atom.rho_sq hJ.sized (Atom.deep_some (hde a ha)).1
  obtain ⟨k1, k2⟩ := Op.kronsum_ok m2 hd.1 fun a ha => by
    rw [(hsq a ha).1, (hsq a ha).2]; exact ⟨(Atom.deep_some (hde a ha)).2, rfl⟩
  have hK := PRep.drho_sq hJ.sized hp
  simp only [LinOp.sem, semL_map] at hK
  obtain ⟨Y, y1, y2, y3⟩ := Op.conjPerm_ok k2 rfl hK hp.perm
  refine ⟨Y, ?_, ?_, y3⟩
  · rw [PRep.drhoOp, m1]
    show (do let X ← Op.mkKronsum Ms; Op.conjPerm p.perm X) = _
    rw [k1]; exact y1
  · rw [PRep.drho, conjPerm_muls]; simp only [LinOp.sem, semL_map]; exact y2

theorem Fac.drhoOp_ok (hJ : J.DDual W) (hI : I.Of J) (hr : I.Rev W) {f : Fac} (hp : f.WF W) (hd : f.Deep W) :
    ∃ X, f.drhoOp I = .ok X ∧ X.Stands (f.drho J).sem := by
  match f, hp, hd with
  | .atom a, _, hd => exact Atom.drhoOp_ok hJ hI hr hd
  | .prod p, hp, hd =>
    obtain ⟨X, h1, h2, -⟩ := PRep.drhoOp_ok hJ hI hr hp hd
    exact ⟨X, h1, h2⟩

theorem Fac.deep_size {f : Fac} (hd : f.Deep W) : f.size W ≠ 0 := by
  match f, hd with
  | .atom a, hd => exact (Atom.deep_some hd).2
  | .prod p, hd =>
    show p.c.prodSize (Atom.size W) ≠ 0
    rw [← prod_map_expand]
    simp only [ne_eq, prod_eq_zero_iff, mem_map, not_exists, not_and]
    exact fun a ha => (Atom.deep_some (hd.2 a (Counter.mem_expand ha))).2

theorem DRep.drhoOp_ok (hJ : J.DDual W) (hI : I.Of J) (hr : I.Rev W) {d : DRep} (hp : d.WF W) (hd : (Key.dprod d).Deep W) :
    ∃ X, d.drhoOp I = .ok X ∧ X.Stands (d.drho J).sem := by
  have hde : ∀ a ∈ d.c.expand, a.Deep W := fun a ha => hd.2 a (Counter.mem_expand ha)
  have hwf : ∀ a ∈ d.c.expand, a.WF W := fun a ha => hp.key a (Counter.mem_expand ha)
  obtain ⟨Ms, m1, m2⟩ := mapM_forall₂ (l := d.c.expand) (f := Fac.drhoOp I) (P := fun a X => X.Stands (a.drho J).sem)
    fun a ha => Fac.drhoOp_ok hJ hI hr (hwf a ha) (hde a ha)
  have hsq : ∀ a ∈ d.c.expand, (a.drho J).sem.IsSq (a.size W) := fun a ha => Fac.drho_sq hJ.sized (hwf a ha)
  obtain ⟨k1, k2⟩ := Op.kronsum_ok m2 hd.1 fun a ha => by
    rw [(hsq a ha).1, (hsq a ha).2]; exact ⟨Fac.deep_size (hde a ha), rfl⟩
  have hK := DMat.kronsumL_isSq d.c.expand (fun a => (a.drho J).sem) (Fac.size W) hsq
  rw [prod_map_expand] at hK
  obtain ⟨Y, y1, y2, y3⟩ := Op.conjPerm_ok k2 rfl hK hp.perm
  refine ⟨Y, ?_, ?_⟩
  · rw [DRep.drhoOp, m1]
    show (do let X ← Op.mkKronsum Ms; Op.conjPerm d.perm X) = _
    rw [k1]; exact y1
  · rw [DRep.drho, conjPerm_muls]; simp only [LinOp.sem, semL_map]; exact y2

theorem Key.drhoOp_ok (hJ : J.DDual W) (hI : I.Of J) (hr : I.Rev W) {k : Key} (hp : k.WF W) (hd : k.Deep W) :
    ∃ X, k.drhoOp I = .ok X ∧ X.Stands (k.drho J).sem := by
  match k, hp, hd with
  | .scalar, _, _ => exact ⟨_, rfl, by rw [Op.WF]; trivial, by rw [Op.den]; rfl⟩
  | .fac f, hp, hd => exact Fac.drhoOp_ok hJ hI hr hp hd
  | .dprod d, hp, hd => exact DRep.drhoOp_ok hJ hI hr hp hd

theorem SRep.drhoOp_ok (hJ : J.DDual W) (hI : I.Of J) (hr : I.Rev W) {s : SRep} (hp : s.WF W) (hd : ∀ k ∈ s.c.keys, k.Deep W) :
    ∃ X, s.drhoOp I = .ok X ∧ X.Stands (s.drho J).sem := by
  obtain ⟨Ms, m1, m2⟩ := mapM_forall₂ (l := s.c.keys) (f := Key.drhoOp I) (P := fun a X => X.Stands (a.drho J).sem)
    fun a ha => Key.drhoOp_ok hJ hI hr (hp.key a ha).1 (hd a ha)
  have hsq : ∀ a ∈ s.c.keys, (a.drho J).sem.IsSq (a.size W) := fun a ha => Key.drho_sq hJ.sized (hp.key a ha).1
  have k2 := Op.dsum_ok m2 hp.cnt.expand_ne fun a ha => by rw [(hsq a ha).1, (hsq a ha).2]
  have hK := bdiag_isSq s.c.expand (fun a => (a.drho J).sem) (Key.size W) fun a ha => hsq a (Counter.mem_expand ha)
  rw [sum_map_expand] at hK
  obtain ⟨Y, y1, y2, y3⟩ := Op.conjPerm_ok k2 rfl hK hp.perm
  refine ⟨Y, ?_, ?_⟩
  · rw [SRep.drhoOp, m1]; exact y1
  · rw [SRep.drho, conjPerm_muls]; simp only [LinOp.sem, semM_map]; exact y2

theorem Rep.drhoOp_ok (hJ : J.DDual W) (hI : I.Of J) (hr : I.Rev W) {r : Rep} (hp : r.WF W) (hd : ∀ k ∈ r.keys W, k.Deep W) :
    ∃ X, r.drhoOp I = .ok X ∧ X.Stands (r.dmat J) := by
  match r, hp, hd with
  | .key k, hp, hd =>
    refine Key.drhoOp_ok hJ hI hr hp ?_
    have := hd (k.base W) (by simp [Rep.keys])
    match k, this with
    | .scalar, _ => trivial
    | .fac (.atom a), h => exact h
    | .fac (.prod p), h => exact h
    | .dprod d, h => exact h
  | .sum s, hp, hd => exact SRep.drhoOp_ok hJ hI hr hp hd

end drho

/-! ### `rho` -/

section rho
variable {F : Type} [Field F] [StarRing F] [DecidableEq F] {inv : DMat F → Py (DMat F)} {I : OpInterp F} {J : Interp F}

theorem Atom.rhoOp_ok (hinv : Op.InvSpec inv) (hJ : J.Dual W) (hI : I.Of J) (hr : I.Inv W) {a : Atom} (ha : a.Deep W) :
    ∃ X, a.rhoOp inv I = .ok X ∧ X.Stands (a.rho J).sem := by
  match a, ha with
  | .vec k (some g), _ => exact ⟨_, rfl, hI.wf k g, hI.den k g⟩
  | .dual k (some g), ha =>
    have hv := hJ.vec k g
    have hdl := hJ.dual k g
    simp only [Atom.rhoOp, Op.dualRho]
    cases hA : (I.vec k (some g)).asArr with
    | some A =>
      have hd : A = (J.vec k (some g)).sem := by
        rw [← hI.den]
        revert hA
        cases I.vec k (some g) <;> simp [Op.asArr, Op.den]
        exact Eq.symm
      obtain ⟨B, b1, b2, b3⟩ := hinv A (W.asize k g) (hd ▸ hv) ⟨_, ⟨hdl.2, hdl.1⟩, by rw [hd]; exact hJ.inv k g⟩
      refine ⟨.arr B.transpose, by simp only [b1]; rfl, by rw [Op.WF]; trivial, ?_⟩
      rw [Op.den]
      show _ = (J.dual k (some g)).sem
      refine DMat.invT_unique (M := A) ⟨b2.2, b2.1⟩ hdl (hd ▸ hv) ?_ (by rw [hd]; exact hJ.inv k g)
      rw [DMat.transpose_transpose]; exact b3
    | none =>
      have hrev : (I.vec k (some g)).Inv := (hr k g ha.2).resolve_left (by simp [hA])
      obtain ⟨N, n1, n2, -, n, n3, n4, n5⟩ := Op.invT_ok hinv _ (hI.wf k g) hrev
      refine ⟨N, n1, n2, ?_⟩
      rw [hI.den] at n4 n5
      have : n = W.asize k g := by rw [← n4.1, hv.1]
      subst this
      exact DMat.invT_unique n3 hdl hv n5 (hJ.inv k g)

theorem PRep.rhoOp_ok (hinv : Op.InvSpec inv) (hJ : J.Dual W) (hI : I.Of J) (hr : I.Inv W) {p : PRep} (hp : p.WF W) (hd : (Fac.prod p).Deep W) :
    ∃ X, p.rhoOp inv I = .ok X ∧ X.Stands (p.rho J).sem ∧ X.asArr = none := by
  have hde : ∀ a ∈ p.c.expand, a.Deep W := fun a ha => hd.2 a (Counter.mem_expand ha)
  obtain ⟨Ms, m1, m2⟩ := mapM_forall₂ (l := p.c.expand) (f := Atom.rhoOp inv I) (P := fun a X => X.Stands (a.rho J).sem)
    fun a ha => Atom.rhoOp_ok hinv hJ hI hr (hde a ha)
  have hsq : ∀ a ∈ p.c.expand, (a.rho J).sem.IsSq (a.size W) := fun a ha => Atom.rho_sq hJ.toSized (Atom.deep_some (hde a ha)).1
  obtain ⟨k1, k2⟩ := Op.kron_ok m2 hd.1 fun a ha => by
    rw [(hsq a ha).2]; exact (Atom.deep_some (hde a ha)).2
  have hK := PRep.kron_sq hJ.toSized hp
  simp only [LinOp.sem, semL_map] at hK
  obtain ⟨Y, y1, y2, y3⟩ := Op.conjPerm_ok k2 rfl hK hp.perm
  refine ⟨Y, ?_, ?_, y3⟩
  · rw [PRep.rhoOp, m1]
    show (do let X ← Op.mkKron Ms; Op.conjPerm p.perm X) = _
    rw [k1]; exact y1
  · rw [PRep.rho, conjPerm_muls]; simp only [LinOp.sem, semL_map]; exact y2

theorem Fac.rhoOp_ok (hinv : Op.InvSpec inv) (hJ : J.Dual W) (hI : I.Of J) (hr : I.Inv W) {f : Fac} (hp : f.WF W) (hd : f.Deep W) :
    ∃ X, f.rhoOp inv I = .ok X ∧ X.Stands (f.rho J).sem := by
  match f, hp, hd with
  | .atom a, _, hd => exact Atom.rhoOp_ok hinv hJ hI hr hd
  | .prod p, hp, hd =>
    obtain ⟨X, h1, h2, -⟩ := PRep.rhoOp_ok hinv hJ hI hr hp hd
    exact ⟨X, h1, h2⟩

theorem DRep.rhoOp_ok (hinv : Op.InvSpec inv) (hJ : J.Dual W) (hI : I.Of J) (hr : I.Inv W) {d : DRep} (hp : d.WF W) (hd : (Key.dprod d).Deep W) :
    ∃ X, d.rhoOp inv I = .ok X ∧ X.Stands (d.rho J).sem := by
  have hde : ∀ a ∈ d.c.expand, a.Deep W := fun a ha => hd.2 a (Counter.mem_expand ha)
  have hwf : ∀ a ∈ d.c.expand, a.WF W := fun a ha => hp.key a (Counter.mem_expand ha)
  obtain ⟨Ms, m1, m2⟩ := mapM_forall₂ (l := d.c.expand) (f := Fac.rhoOp inv I) (P := fun a X => X.Stands (a.rho J).sem)
    fun a ha => Fac.rhoOp_ok hinv hJ hI hr (hwf a ha) (hde a ha)
  have hsq : ∀ a ∈ d.c.expand, (a.rho J).sem.IsSq (a.size W) := fun a ha => Fac.rho_sq hJ.toSized (hwf a ha)
  obtain ⟨k1, k2⟩ := Op.kron_ok m2 hd.1 fun a ha => by
    rw [(hsq a ha).2]; exact Fac.deep_size (hde a ha)
  have hK := kronL_isSq d.c.expand (fun a => (a.rho J).sem) (Fac.size W) hsq
  rw [prod_map_expand] at hK
  obtain ⟨Y, y1, y2, y3⟩ := Op.conjPerm_ok k2 rfl hK hp.perm
  refine ⟨Y, ?_, ?_⟩
  · rw [DRep.rhoOp, m1]
    show (do let X ← Op.mkKron Ms; Op.conjPerm d.perm X) = _
    rw [k1]; exact y1
  · rw [DRep.rho, conjPerm_muls]; simp only [LinOp.sem, semL_map]; exact y2

theorem Key.rhoOp_ok (hinv : Op.InvSpec inv) (hJ : J.Dual W) (hI : I.Of J) (hr : I.Inv W) {k : Key} (hp : k.WF W) (hd : k.Deep W) :
    ∃ X, k.rhoOp inv I = .ok X ∧ X.Stands (k.rho J).sem := by
  match k, hp, hd with
  | .scalar, _, _ => exact ⟨_, rfl, by rw [Op.WF]; trivial, by rw [Op.den]; rfl⟩
  | .fac f, hp, hd => exact Fac.rhoOp_ok hinv hJ hI hr hp hd
  | .dprod d, hp, hd => exact DRep.rhoOp_ok hinv hJ hI hr hp hd

theorem SRep.rhoOp_ok (hinv : Op.InvSpec inv) (hJ : J.Dual W) (hI : I.Of J) (hr : I.Inv W) {s : SRep} (hp : s.WF W) (hd : ∀ k ∈ s.c.keys, k.Deep W) :
    ∃ X, s.rhoOp inv I = .ok X ∧ X.Stands (s.rho J).sem := by
  obtain ⟨Ms, m1, m2⟩ := mapM_forall₂ (l := s.c.keys) (f := Key.rhoOp inv I) (P := fun a X => X.Stands (a.rho J).sem)
    fun a ha => Key.rhoOp_ok hinv hJ hI hr (hp.key a ha).1 (hd a ha)
  have hsq : ∀ a ∈ s.c.keys, (a.rho J).sem.IsSq (a.size W) := fun a ha => Key.rho_sq hJ.toSized (hp.key a ha).1
  have k2 := Op.dsum_ok m2 hp.cnt.expand_ne fun a ha => by rw [(hsq a ha).1, (hsq a ha).2]
  have hK := bdiag_isSq s.c.expand (fun a => (a.rho J).sem) (Key.size W) fun a ha => hsq a (Counter.mem_expand ha)
  rw [sum_map_expand] at hK
  obtain ⟨Y, y1, y2, y3⟩ := Op.conjPerm_ok k2 rfl hK hp.perm
  refine ⟨Y, ?_, ?_⟩
  · rw [SRep.rhoOp, m1]; exact y1
  · rw [SRep.rho, conjPerm_muls]; simp only [LinOp.sem, semM_map]; exact y2

theorem Rep.rhoOp_ok (hinv : Op.InvSpec inv) (hJ : J.Dual W) (hI : I.Of J) (hr : I.Inv W) {r : Rep} (hp : r.WF W) (hd : ∀ k ∈ r.keys W, k.Deep W) :
    ∃ X, r.rhoOp inv I = .ok X ∧ X.Stands (r.mat J) := by
  match r, hp, hd with
  | .key k, hp, hd =>
    refine Key.rhoOp_ok hinv hJ hI hr hp ?_
    have := hd (k.base W) (by simp [Rep.keys])
    match k, this with
    | .scalar, _ => trivial
    | .fac (.atom a), h => exact h
    | .fac (.prod p), h => exact h
    | .dprod d, h => exact h
  | .sum s, hp, hd => exact SRep.rhoOp_ok hinv hJ hI hr hp hd

end rho

/-- Representations of one group. -/
theorem World.Single.deep {g : Gid} {N : ℕ} {k : Key} (h : W.Single g N k) : k.Deep W := by
  have hl : ∀ a, W.Letter g a → a.Deep W := by
    rintro a ⟨(⟨-, k, rfl⟩ | ⟨ho, rfl | rfl⟩), h2⟩
    · exact fun e => absurd h2 (by simp [Atom.size, e])
    · exact fun e => absurd h2 (by simp [Atom.size, e])
    · exact ⟨fun e => absurd h2 (by simp [Atom.size, e]), ho⟩
  match k, h with
  | .scalar, _ => trivial
  | .fac (.atom a), h => exact hl a h.2
  | .fac (.prod p), h => exact ⟨h.2.2.2.2.2.2, fun a ha => hl a (h.2.2.2.1 a ha)⟩

end Verif
