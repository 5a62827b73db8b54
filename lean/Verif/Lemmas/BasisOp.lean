import Verif.Model.BasisOp
import Verif.Lemmas.RhoOp
import Verif.Lemmas.Solver

/-! The operators returned by `equivariant_basis` and `equivariant_projector` stand for the matrices of `Verif.Model.Solver`. -/
namespace Verif
open List
variable {W : World} {R : Type} [CommRing R] [StarRing R] {gens : Gid → GenSet R} {solve : ℕ → LinOp R → Py (DMat R)}

/-- Two computations make the same solver calls and have related outcomes. -/
def SolveSim {α β : Type} (Rel : α → β → Prop) (m : SolveM R α) (m' : SolveM R β) : Prop :=
  ∀ σ, (m' σ).2 = (m σ).2 ∧ match (m σ).1, (m' σ).1 with
    | .error e, .error e' => e' = e
    | .ok a, .ok b => Rel a b
    | _, _ => False

omit [StarRing R] in
theorem SolveSim.map {α β γ δ : Type} {Rel : α → β → Prop} {Rel' : γ → δ → Prop} {m : SolveM R α} {m' : SolveM R β}
    (h : SolveSim Rel m m') {f : α → γ} {f' : β → Py δ} (hf : ∀ a b, Rel a b → ∃ d, f' b = .ok d ∧ Rel' (f a) d) :
    SolveSim Rel' (solveMap f m) (solveThen f' m') := by
  intro σ
  have := h σ
  obtain ⟨h1, h2⟩ := this
  simp only [solveMap, solveThen]
  rcases hm : m σ with ⟨a, τ⟩
  rcases hm' : m' σ with ⟨b, τ'⟩
  rw [hm, hm'] at h1 h2
  subst h1
  match a, b, h2 with
  | .error e, .error e', h2 => exact ⟨rfl, h2⟩
  | .ok a, .ok b, h2 =>
    obtain ⟨d, h3, h4⟩ := hf a b h2
    exact ⟨rfl, by simp only [h3]; exact h4⟩

omit [StarRing R] in
theorem solveMap_eq_then {α β : Type} (f : α → β) (m : SolveM R α) : solveMap f m = solveThen (fun a => .ok (f a)) m := by
  funext σ; simp only [solveMap, solveThen]
  rcases m σ with ⟨a, τ⟩
  cases a <;> rfl

omit [StarRing R] in
theorem SolveSim.list {α β γ : Type} {Rel : α → β → γ → Prop} {f : α → SolveM R β} {f' : α → SolveM R γ} : ∀ {l : List α},
    (∀ a ∈ l, SolveSim (Rel a) (f a) (f' a)) →
    SolveSim (fun bs cs => Forall₂ (fun a bc => Rel a bc.1 bc.2) l (bs.zip cs) ∧ bs.length = cs.length) (solveList f l) (solveList f' l)
  | [], _ => fun σ => ⟨rfl, .nil, rfl⟩
  | a :: l, h => by
    intro σ
    obtain ⟨h1, h2⟩ := h a (by simp) σ
    simp only [solveList]
    rcases hm : f a σ with ⟨x, τ⟩
    rcases hm' : f' a σ with ⟨y, τ'⟩
    rw [hm, hm'] at h1 h2
    subst h1
    match x, y, h2 with
    | .error e, .error e', h2 => exact ⟨rfl, h2⟩
    | .ok x, .ok y, h2 =>
      obtain ⟨i1, i2⟩ := SolveSim.list (l := l) (fun b hb => h b (by simp [hb])) τ'
      simp only
      rcases hn : solveList f l τ' with ⟨x', υ⟩
      rcases hn' : solveList f' l τ' with ⟨y', υ'⟩
      rw [hn, hn'] at i1 i2
      subst i1
      match x', y', i2 with
      | .error e, .error e', i2 => exact ⟨rfl, i2⟩
      | .ok xs, .ok ys, i2 => exact ⟨rfl, .cons h2 i2.1, by simp [i2.2]⟩

omit [StarRing R] in
/-- A computation compared with itself. -/
theorem SolveSim.refl {α : Type} {P : α → Prop} {m : SolveM R α} (h : ∀ σ a, (m σ).1 = .ok a → P a) :
    SolveSim (fun a b => b = a ∧ P a) m m := by
  intro σ
  refine ⟨rfl, ?_⟩
  have := h σ
  match hm : (m σ).1 with
  | .error e => simp
  | .ok a => exact ⟨rfl, this a hm⟩

omit [StarRing R] in
theorem SolveSim.out {α β : Type} {Rel : α → β → Prop} {m : SolveM R α} {m' : SolveM R β} (h : SolveSim Rel m m') {σ : SolveSt R} {a : α}
    (ha : (m σ).1 = .ok a) : ∃ b, (m' σ).1 = .ok b ∧ Rel a b := by
  obtain ⟨-, h2⟩ := h σ
  rw [ha] at h2
  match hm : (m' σ).1, h2 with
  | .ok b, h2 => exact ⟨b, rfl, h2⟩
  | .error e, h2 => exact h2.elim

omit [StarRing R] in
theorem SolveSim.mono {α β : Type} {Rel Rel' : α → β → Prop} {m : SolveM R α} {m' : SolveM R β} (h : SolveSim Rel m m')
    (hR : ∀ a b, Rel a b → Rel' a b) : SolveSim Rel' m m' := by
  intro σ
  obtain ⟨h1, h2⟩ := h σ
  refine ⟨h1, ?_⟩
  rcases hm : (m σ).1 with e | a <;> rcases hm' : (m' σ).1 with e' | b <;> rw [hm, hm'] at h2
  · exact h2
  · exact h2
  · exact h2
  · exact hR _ _ h2

omit [StarRing R] in
/-- The rows of the basis of an atom or product. -/
theorem Fac.basis_rows {f : Fac} (h : f.WF W) {σ : SolveSt R} {Q : DMat R} (hQ : (f.basis W gens solve σ).1 = .ok Q) :
    Q.rows = f.size W := by
  have hl : (argsort (f.permOf W)).length = f.size W := by
    rw [(argsort_perm _).length_eq, length_range, (Fac.permOf_perm h).length_eq, length_range]
  simp only [Fac.basis, Fac.canon_wf h] at hQ
  split at hQ
  · cases hQ; exact hl
  · split at hQ
    · cases hQ
    · split at hQ
      · cases hQ
      · cases hQ; exact hl

/-- The operator stands for the matrix of the other model, with as many rows as the representation has dimensions. -/
def Key.OpRel (W : World) (k : Key) (L : LinOp R) (X : Op R) : Prop := X.Stands L.sem ∧ L.sem.rows = k.size W

theorem Key.basis_sim {k : Key} (h : k.WF W) (hk : ∀ d, k ≠ .dprod d) :
    SolveSim (Key.OpRel W k) (k.basis W gens solve) (k.basisOp W gens solve) := by
  match k, h with
  | .scalar, _ => exact fun σ => ⟨rfl, ⟨by rw [Op.WF]; trivial, by rw [Op.den]; rfl⟩, rfl⟩
  | .fac f, h =>
    simp only [Key.basis, Key.basisOp]
    rw [solveMap_eq_then Op.arr]
    exact (SolveSim.refl (P := fun Q => Q.rows = f.size W) fun σ Q hQ => Fac.basis_rows h hQ).map
      fun a b hab => ⟨_, rfl, ⟨by rw [Op.WF]; trivial, by rw [Op.den, hab.1]; rfl⟩, hab.2⟩
  | .dprod d, _ => exact (hk d rfl).elim

theorem opRel_lists {c : Counter Key} : ∀ {Ls : List (LinOp R)} {Xs : List (Op R)},
    Forall₂ (fun k p => Key.OpRel W k p.1 p.2) c.keys (Ls.zip Xs) → Ls.length = Xs.length →
    Op.WFM (Xs.zip (c.map (·.2))) ∧ Op.denM (Xs.zip (c.map (·.2))) = LinOp.semM (Ls.zip (c.map (·.2))) ∧
    (DMat.bdiag (LinOp.semM (Ls.zip (c.map (·.2))))).rows = c.sumSize (Key.size W) ∧
    ((Xs.zip (c.map (·.2))).map fun M => M.2 * M.1.shape.2).sum = (DMat.bdiag (LinOp.semM (Ls.zip (c.map (·.2))))).cols ∧
    (c ≠ [] → Xs.zip (c.map (·.2)) ≠ []) := by
  induction c with
  | nil =>
    intro Ls Xs h hl
    simp [Op.WFM, Op.denM, LinOp.semM, DMat.bdiag, DMat.zero, Counter.sumSize]
  | cons kc c ih =>
    obtain ⟨k, n⟩ := kc
    intro Ls Xs h hl
    match Ls, Xs, h, hl with
    | L :: Ls, X :: Xs, .cons h t, hl =>
      obtain ⟨i1, i2, i3, i4, -⟩ := ih t (by simpa using hl)
      have hs : X.shape.2 = L.sem.cols := by rw [Op.shape_eq h.1.1, h.1.2]
      simp only [map_cons, zip_cons_cons, Op.WFM, Op.denM, LinOp.semM]
      rw [DMat.bdiag_rows] at i3 ⊢
      rw [DMat.bdiag_cols] at i4 ⊢
      refine ⟨⟨h.1.1, i1⟩, by rw [h.1.2, i2], ?_, ?_, fun _ => by simp⟩
      · rw [map_append, map_replicate, sum_append, sum_replicate, h.2, i3]
        simp [Counter.sumSize, mul_comm]
      · rw [map_append, map_replicate, sum_append, sum_replicate, sum_cons, i4, hs]
        simp

theorem closure_none_ok {Xs : List (Op R × ℕ)} {L : List (LinOp R × ℕ)} {p : List ℕ} {m n : ℕ} (h1 : Op.WFM Xs) (h2 : Op.denM Xs = LinOp.semM L)
    (hne : Xs ≠ []) (hp : p ~ range m) (hm : (DMat.bdiag (LinOp.semM L)).rows = m) (hn : n = (DMat.bdiag (LinOp.semM L)).cols) :
    (Op.closure Xs none (argsort p) m n).Stands ((LinOp.perm (argsort p)).mul (.dsum L)).sem := by
  have hla : argsort p ~ range m := by
    have := argsort_perm p
    rwa [show p.length = m by simpa using hp.length_eq] at this
  constructor
  · rw [Op.WF, h2]
    exact ⟨h1, hne, hla, by simp, hm, hn.symm⟩
  · simp only [Op.den, LinOp.sem, Op.preMat]
    rw [h2, DMat.mul_one' _ hn.symm]

theorem closure_some_ok {Xs : List (Op R × ℕ)} {L : List (LinOp R × ℕ)} {p : List ℕ} {m : ℕ} (h1 : Op.WFM Xs) (h2 : Op.denM Xs = LinOp.semM L)
    (hne : Xs ≠ []) (hp : p ~ range m) (hm : (DMat.bdiag (LinOp.semM L)).rows = m) (hn : m = (DMat.bdiag (LinOp.semM L)).cols) :
    (Op.closure Xs (some p) (argsort p) m m).Stands (conjPerm p (.dsum L)).sem := by
  have hl : p.length = m := by simpa using hp.length_eq
  have hla : argsort p ~ range m := by
    have := argsort_perm p
    rwa [hl] at this
  constructor
  · rw [Op.WF, h2]
    exact ⟨h1, hne, hla, by simpa using hp, hm, hn.symm⟩
  · rw [conjPerm_muls]
    simp only [Op.den, LinOp.sem, Op.preMat]
    rw [h2, DMat.mul_assoc' _ _ _ (by
      show (argsort p).length = _
      rw [hla.length_eq, length_range, hm])]

theorem SRep.basis_sim {s : SRep} (h : s.WF W) (hk : ∀ d, Key.dprod d ∉ s.c.keys) :
    SolveSim (fun (L : LinOp R) X => X.Stands L.sem) (s.basis W gens solve) (s.basisOp W gens solve) := by
  simp only [SRep.basis, SRep.basisOp]
  rw [solveMap_eq_then (α := List (Op R))]
  refine (SolveSim.list (Rel := Key.OpRel W) fun k hk' => Key.basis_sim (h.key k hk').1 fun d e => hk d (e ▸ hk')).map fun Ls Xs hLX => ?_
  obtain ⟨h1, h2, h3, h4, h5⟩ := opRel_lists hLX.1 hLX.2
  exact ⟨_, rfl, closure_none_ok h1 h2 (h5 h.cnt.ne) h.perm h3 h4⟩

/-- `equivariant_basis()` without products over several groups. -/
theorem Rep.basis_sim {r : Rep} (h : r.WF W) (hk : ∀ d, Key.dprod d ∉ r.keys W) :
    SolveSim (fun (L : LinOp R) X => X.Stands L.sem) (r.equivariantBasis W gens solve) (r.basisOp W gens solve) := by
  match r, h, hk with
  | .key k, h, hk =>
    have := Key.basis_sim (gens := gens) (solve := solve) (R := R) (k := k) h fun d e => by
      subst e; exact hk ⟨d.c, range (d.size W)⟩ (by simp [Rep.keys, Key.base])
    exact this.mono fun a b h => h.1
  | .sum s, h, hk => exact SRep.basis_sim h hk

/-- The product over several groups, when every factor has invariants. -/
theorem DRep.basis_out {d : DRep} (h : d.WF W) (hl : 2 ≤ d.c.keys.length) {σ : SolveSt R} {Qs : List (DMat R)}
    (hQ : (solveList (Fac.basis W gens solve) d.c.keys σ).1 = .ok Qs) (h0 : ∀ Q ∈ Qs, Q.cols ≠ 0)
    (hrows : Forall₂ (fun (f : Fac) Q => Q.rows = f.size W) d.c.keys Qs) :
    ∃ X L, ((Key.dprod d).basisOp W gens solve σ).1 = .ok X ∧ ((Key.dprod d).basis W gens solve σ).1 = .ok L ∧ X.Stands L.sem := by
  have hst : Forall₂ (fun (Q : DMat R) (X : Op R) => X.Stands Q) Qs (Qs.map Op.arr) := by
    rw [forall₂_map_right_iff]
    exact forall₂_same.2 fun Q _ => ⟨by rw [Op.WF]; trivial, by rw [Op.den]⟩
  have hlen : Qs.length = d.c.keys.length := hrows.length_eq.symm
  obtain ⟨k1, k2⟩ := Op.kron_ok (A := id) hst (by omega) h0
  have hp : (DMat.kronL (Qs.map id)).rows = d.perm.length := by
    rw [h.perm.length_eq, length_range, DRep.size, ← prod_map_expand, DRep.expand_keys h]
    clear k1 k2 hst hlen h0 hQ
    simp only [map_id]
    generalize d.c.keys = ks at hrows
    induction hrows with
    | nil => rfl
    | cons h _ ih => simp only [DMat.kronL, DMat.kron_rows, map_cons, prod_cons, h, ih]
  have hla : (argsort d.perm).length = d.perm.length := by rw [(argsort_perm _).length_eq, length_range]
  obtain ⟨X, x1, x2, -⟩ := Op.at_ok (A := .perm (argsort d.perm)) (B := .kron (Qs.map .arr)) (by
      rw [Op.WF, hla]; exact argsort_perm _) k2.1 rfl rfl (by rw [k2.2, hp, Op.den]; exact hla)
  refine ⟨X, .mul (.perm (argsort d.perm)) (.kron (Qs.map .lazy)), ?_, ?_, ?_⟩
  · simp only [Key.basisOp, solveThen]
    rcases hm : solveList (Fac.basis W gens solve) d.c.keys σ with ⟨a, τ⟩
    rw [hm] at hQ
    simp only at hQ
    subst hQ
    show (do let K ← Op.mkKron (Qs.map .arr); Op.at (.perm (argsort d.perm)) K) = _
    rw [k1]; exact x1
  · simp only [Key.basis, solveMap]
    rcases hm : solveList (Fac.basis W gens solve) d.c.keys σ with ⟨a, τ⟩
    rw [hm] at hQ
    simp only at hQ
    subst hQ
    rfl
  · rw [k2.2] at x2
    simp only [LinOp.sem, semL_map, map_id, map_id'] at x2 ⊢
    rwa [Op.den] at x2

/-! ### Projectors -/

theorem outer_ok (hstar : ∀ x : R, star x = x) (Q : DMat R) : ∃ X, Op.outer Q = .ok X ∧ X.Stands (outerH Q).sem ∧ X.asArr = none := by
  have hreal : Q.conjTranspose = Q.transpose := DMat.ext rfl rfl fun i j _ _ => by
    rw [DMat.conjTranspose_e, DMat.transpose_e, hstar]
  have hw : (Op.adj (.lazy Q)).WF := by simp only [Op.WF, Op.Rev, Op.asArr]; exact ⟨trivial, hreal, trivial⟩
  obtain ⟨X, x1, x2, x3⟩ := Op.at_ok (A := .lazy Q) (B := .adj (.lazy Q)) (by rw [Op.WF]; trivial) hw rfl rfl (by simp only [Op.den]; rfl)
  refine ⟨X, x1, ?_, x3⟩
  simp only [Op.den, hreal] at x2
  exact x2

theorem outerH_sq (Q : DMat R) : (outerH Q).sem.IsSq Q.rows := ⟨rfl, rfl⟩

/-- The operator stands for the matrix of the other model, which is square. -/
def Key.SqRel (n : ℕ) (L : LinOp R) (X : Op R) : Prop := X.Stands L.sem ∧ L.sem.IsSq n

theorem Fac.projector_sim (hstar : ∀ x : R, star x = x) {f : Fac} (h : f.WF W) :
    SolveSim (Key.SqRel (f.size W)) (f.projector W gens solve) (f.projectorOp W gens solve) :=
  (SolveSim.refl (P := fun Q => Q.rows = f.size W) fun σ Q hQ => Fac.basis_rows h hQ).map fun a b hab => by
    obtain ⟨X, x1, x2, -⟩ := outer_ok hstar a
    exact ⟨X, by rw [hab.1]; exact x1, x2, by rw [← hab.2]; exact outerH_sq a⟩

theorem sqRel_lists {α : Type} {size : α → ℕ} {l : List α} : ∀ {Ls : List (LinOp R)} {Xs : List (Op R)},
    Forall₂ (fun k p => Key.SqRel (size k) p.1 p.2) l (Ls.zip Xs) → Ls.length = Xs.length →
    Forall₂ (fun (L : LinOp R) (X : Op R) => X.Stands L.sem) Ls Xs ∧ Forall₂ (fun k L => L.sem.IsSq (size k)) l Ls := by
  induction l with
  | nil =>
    intro Ls Xs h hl
    match Ls, Xs, h, hl with
    | [], [], _, _ => exact ⟨.nil, .nil⟩
    | _ :: _, _ :: _, h, _ => cases h
  | cons k l ih =>
    intro Ls Xs h hl
    match Ls, Xs, h, hl with
    | L :: Ls, X :: Xs, .cons h t, hl =>
      obtain ⟨i1, i2⟩ := ih t (by simpa using hl)
      exact ⟨.cons h.1 i1, .cons h.2 i2⟩

theorem kronL_sq_forall₂ {α : Type} {size : α → ℕ} {l : List α} {Ls : List (LinOp R)} (h : Forall₂ (fun k L => L.sem.IsSq (size k)) l Ls) :
    (DMat.kronL (Ls.map LinOp.sem)).IsSq (l.map size).prod := by
  induction h with
  | nil => exact ⟨rfl, rfl⟩
  | cons h _ ih =>
    simp only [map_cons, DMat.kronL, prod_cons]
    exact ⟨by rw [DMat.kron_rows, h.1, ih.1], by rw [DMat.kron_cols, h.2, ih.2]⟩

theorem Key.projector_sim (hstar : ∀ x : R, star x = x) {k : Key} (h : k.WF W) (hd : k.Deep W) :
    SolveSim (Key.SqRel (k.size W)) (k.projector W gens solve) (k.projectorOp W gens solve) := by
  match k, h, hd with
  | .scalar, _, _ =>
    intro σ
    obtain ⟨X, x1, x2, -⟩ := outer_ok hstar (DMat.one 1)
    refine ⟨rfl, ?_⟩
    simp only [Key.projector, Key.projectorOp, x1]
    exact ⟨x2, outerH_sq _⟩
  | .fac f, h, _ => exact Fac.projector_sim hstar h
  | .dprod d, h, hd =>
    have hd : 2 ≤ d.c.expand.length ∧ ∀ f ∈ d.c.keys, f.Deep W := hd
    have h : d.WF W := h
    refine (SolveSim.list (Rel := fun f : Fac => Key.SqRel (f.size W)) fun f hf => Fac.projector_sim hstar (h.key f hf)).map fun Ls Xs hLX => ?_
    obtain ⟨r1, r2⟩ := sqRel_lists hLX.1 hLX.2
    have hlen := r2.length_eq
    have h0 : ∀ L ∈ Ls, L.sem.cols ≠ 0 := by
      intro L hL
      obtain ⟨i, hi, rfl⟩ := getElem_of_mem hL
      have hi' : i < d.c.keys.length := by omega
      have := r2.get hi' hi
      simp only [get_eq_getElem] at this
      rw [this.2]
      exact Fac.deep_size (hd.2 _ (getElem_mem hi'))
    obtain ⟨k1, k2⟩ := Op.kron_ok (A := LinOp.sem) r1 (by rw [← hlen, ← DRep.expand_keys h]; exact hd.1) h0
    have hsq := kronL_sq_forall₂ r2
    rw [← DRep.expand_keys h, prod_map_expand] at hsq
    obtain ⟨Y, y1, y2, -⟩ := Op.conjPerm_ok k2 rfl hsq h.perm
    refine ⟨Y, ?_, ?_, ?_⟩
    · rw [k1]; exact y1
    · rw [conjPerm_muls]; simp only [LinOp.sem]
      rw [show LinOp.semL Ls = Ls.map LinOp.sem by simpa using semL_map Ls id]; exact y2
    · rw [conjPerm_muls]
      exact ⟨by
        show (argsort d.perm).length = d.size W
        rw [(argsort_perm _).length_eq, length_range, h.perm.length_eq, length_range], by
        show d.perm.length = d.size W
        rw [h.perm.length_eq, length_range]⟩

theorem SRep.projector_sim (hstar : ∀ x : R, star x = x) {s : SRep} (h : s.WF W) (hd : ∀ k ∈ s.c.keys, k.Deep W) :
    SolveSim (fun (L : LinOp R) X => X.Stands L.sem) (s.projector W gens solve) (s.projectorOp W gens solve) := by
  simp only [SRep.projector, SRep.projectorOp]
  rw [solveMap_eq_then (α := List (Op R))]
  refine (SolveSim.list (Rel := fun k : Key => Key.SqRel (k.size W)) fun k hk' => Key.projector_sim hstar (h.key k hk').1 (hd k hk')).map fun Ls Xs hLX => ?_
  have hLX' : Forall₂ (fun k p => Key.OpRel W k p.1 p.2) s.c.keys (Ls.zip Xs) := hLX.1.imp fun _ _ h => ⟨h.1, h.2.1⟩
  obtain ⟨h1, h2, h3, h4, h5⟩ := opRel_lists hLX' hLX.2
  have hcols : s.size W = (DMat.bdiag (LinOp.semM (Ls.zip (s.c.map (·.2))))).cols := by
    rw [SRep.size, ← h3, DMat.bdiag_rows, DMat.bdiag_cols, semM_expand]
    obtain ⟨-, r2⟩ := sqRel_lists hLX.1 hLX.2
    have := forall₂_expand (P := fun k L => L.sem.IsSq (k.size W)) r2
    rw [map_map, map_map]
    congr 1
    refine map_congr_left fun L hL => ?_
    obtain ⟨i, hi, rfl⟩ := getElem_of_mem hL
    have hi' : i < (Counter.expand s.c).length := by rw [this.length_eq]; exact hi
    have := this.get hi' hi
    simp only [get_eq_getElem] at this
    simp only [Function.comp, this.1, this.2]
  exact ⟨_, rfl, closure_some_ok h1 h2 (h5 h.cnt.ne) h.perm h3 hcols⟩

/-- `equivariant_projector()` -/
theorem Rep.projector_sim (hstar : ∀ x : R, star x = x) {r : Rep} (h : r.WF W) (hd : ∀ k ∈ r.keys W, k.Deep W) :
    SolveSim (fun (L : LinOp R) X => X.Stands L.sem) (r.equivariantProjector W gens solve) (r.projectorOp W gens solve) := by
  match r, h, hd with
  | .key k, h, hd =>
    have hk : k.Deep W := by
      have := hd (k.base W) (by simp [Rep.keys])
      match k, this with
      | .scalar, _ => trivial
      | .fac (.atom a), h => exact h
      | .fac (.prod p), h => exact h
      | .dprod d, h => exact h
    exact (Key.projector_sim hstar (gens := gens) (solve := solve) h hk).mono fun a b h => h.1
  | .sum s, h, hd => exact SRep.projector_sim hstar h hd

end Verif
