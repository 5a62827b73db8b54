import Verif.Lemmas.Fixed

/-! The solver returns orthonormal bases of the invariant vectors. -/
namespace Verif
open List DMat
variable {W : World} {R : Type} [CommRing R] {gens : Gid → GenSet R}

theorem DMat.permMat_range (n : ℕ) : (permMat (range n) : DMat R) = DMat.one n := by
  refine DMat.ext (by simp [DMat.one]) (by simp [DMat.one]) fun i j hi hj => ?_
  simp only [permMat_rows, permMat_cols, length_range] at hi hj
  rw [permMat, of_e (by simpa) (by simpa), one_e hi hj, getD_range hi]

/-! ### One group -/

/-- `v` is fixed by the generators of one group. -/
def FixedOne (S : GenSet R) (M D : Interp R → DMat R) (v : List R) : Prop :=
  (∀ h ∈ S.disc, (M h).mulVec v = v) ∧ ∀ A ∈ S.lie, (D A).mulVec v = replicate v.length 0

theorem Fac.fixed_iff {f : Fac} (hf : f.WF W) {g : Gid} (hg : f.G = some g) {v : List R} (hv : v.length = f.size W) :
    FixedBy W gens (fun I => (f.rho I).sem) (fun I => (f.drho I).sem) v ↔
      FixedOne (gens g) (fun I => (f.rho I).sem) (fun I => (f.drho I).sem) v := by
  simp only [FixedBy, FixedOne]
  constructor
  · intro h
    refine ⟨fun x hx => ?_, fun x hx => ?_⟩
    · have := (h g).1 x hx
      rwa [Fac.rho_only_eq hf hg] at this
    · have := (h g).2 x hx
      rwa [Fac.drho_onlyD_eq hf hg] at this
  · rintro ⟨h1, h2⟩ g'
    by_cases e : g = g'
    · subst e
      exact ⟨fun x hx => by rw [Fac.rho_only_eq hf hg]; exact h1 x hx, fun x hx => by rw [Fac.drho_onlyD_eq hf hg]; exact h2 x hx⟩
    · exact ⟨fun x _ => by rw [Fac.rho_only_ne hf hg e]; exact mulVec_one _ hv,
        fun x _ => by rw [Fac.drho_onlyD_ne hf hg e, zero_mulVec, hv]⟩

theorem Fac.constraint_spec (hs : GenSet.Sized W gens) {f : Fac} (hf : f.WF W) {g : Gid} (hg : f.G = some g) :
    ∃ C, f.constraintMatrix W gens = .ok C ∧ C.sem.cols = f.size W ∧ ∀ v : List R, v.length = f.size W →
      (C.sem.mulVec v = replicate C.sem.rows 0 ↔ FixedOne (gens g) (fun I => (f.rho I).sem) (fun I => (f.drho I).sem) v) := by
  obtain ⟨l, hl⟩ : ∃ l, l = ((gens g).disc.map fun h => LinOp.add (f.rho h) (.smul (-1) (.eye (f.size W)))) ++
    (gens g).lie.map fun A => f.drho A := ⟨_, rfl⟩
  have e : f.constraintMatrix W gens = .ok (if l.isEmpty then .lazy (DMat.zero 1 (f.size W)) else .concat l) := by
    rw [Fac.constraintMatrix, hg, hl]
  refine ⟨_, e, ?_⟩
  by_cases h : l = []
  · rw [h]
    refine ⟨rfl, fun v hv => ?_⟩
    rw [h] at hl
    have hl' := (append_eq_nil_iff.1 hl.symm)
    rw [map_eq_nil_iff, map_eq_nil_iff] at hl'
    simp only [isEmpty_nil, if_true, LinOp.sem, FixedOne, hl'.1, hl'.2]
    rw [zero_mulVec]
    simp [DMat.zero]
  · have hne : l.isEmpty = false := by simpa using h
    rw [hne]
    simp only [Bool.false_eq_true, if_false, LinOp.sem]
    have hsl : LinOp.semL l = ((gens g).disc.map fun h => (f.rho h).sem.add (DMat.smul (-1) (DMat.one (f.size W)))) ++
        (gens g).lie.map fun A => (f.drho A).sem := by
      have := semL_map l id
      rw [map_id] at this
      rw [this, hl, map_append, List.map_map, List.map_map]
      rfl
    have hcols : ∀ A ∈ LinOp.semL l, A.cols = f.size W := by
      intro A hA
      rw [hsl, mem_append, mem_map, mem_map] at hA
      rcases hA with ⟨x, hx, rfl⟩ | ⟨x, hx, rfl⟩
      · exact (Fac.rho_sq ((hs g).1 x hx) hf).2
      · exact (Fac.drho_sq ((hs g).2 x hx) hf).2
    have hne' : LinOp.semL l ≠ [] := by
      have := semL_map l id
      rw [map_id] at this
      rw [this]; simpa using h
    obtain ⟨hc, hk⟩ := vstack_ker hne' hcols
    refine ⟨hc, fun v hv => ?_⟩
    rw [hk, hsl, FixedOne, forall_mem_append]
    simp only [forall_mem_map]
    refine and_congr (forall₂_congr fun x hx => ?_) (forall₂_congr fun x hx => ?_)
    · have sq := Fac.rho_sq ((hs g).1 x hx) hf
      have hr : ((f.rho x).sem.add (DMat.smul (-1) (DMat.one (f.size W)))).rows = f.size W := sq.1
      rw [hr]
      exact sub_one_mulVec _ sq v hv
    · rw [(Fac.drho_sq ((hs g).2 x hx) hf).1, hv]

theorem Fac.fixed_base (hs : GenSet.Sized W gens) {f : Fac} (hf : f.WF W) {v : List R} (hv : v.length = f.size W) :
    FixedBy W gens (fun I => (f.rho I).sem) (fun I => (f.drho I).sem) v ↔
      FixedBy W gens (fun I => ((f.base W).rho I).sem) (fun I => ((f.base W).drho I).sem) ((permMat (f.permOf W)).mulVec v) := by
  cases f with
  | atom a =>
    simp only [Fac.base, Fac.permOf, permMat_range]
    rw [mulVec_one (n := a.size W) _ hv]
  | prod p =>
    have hp : p.WF W := hf
    have h1 := FixedBy.conj (gens := gens) hs hp.perm (M := fun I => .kron (p.c.expand.map (Atom.rho I)))
      (D := fun I => .kronsum (p.c.expand.map (Atom.drho I))) (fun I hI => PRep.kron_sq hI hp) (fun I hI => PRep.drho_sq hI hp) hv
    have hl : ((permMat p.perm).mulVec v).length = p.size W := by simp [length_of_perm_range hp.perm]
    have h2 := FixedBy.conj (gens := gens) hs (Perm.refl (range (p.size W))) (M := fun I => .kron (p.c.expand.map (Atom.rho I)))
      (D := fun I => .kronsum (p.c.expand.map (Atom.drho I))) (fun I hI => PRep.kron_sq hI hp) (fun I hI => PRep.drho_sq hI hp) hl
    rw [permMat_range, mulVec_one _ hl] at h2
    exact h1.trans h2.symm

theorem pick_rows_eq {n : ℕ} {p : List ℕ} (hp : p ~ range n) {Q : DMat R} (hQ : Q.rows = n) :
    Q.pick (argsort p) (range Q.cols) = (permMat (argsort p)).mul Q := by
  have hl := length_of_perm_range hp
  have ha : argsort p ~ range n := hl ▸ argsort_perm p
  have hla := length_of_perm_range ha
  rw [permMat_mul _ _ (by rw [hQ, hla]) fun x hx => by rw [hla]; exact lt_of_perm_range ha hx]

variable [StarRing R] {solve : ℕ → LinOp R → Py (DMat R)}

/-- Every cached matrix is a basis of the null space of the constraints of its key. -/
def CacheOK (W : World) (gens : Gid → GenSet R) (σ : SolveSt R) : Prop :=
  ∀ e ∈ σ.cache, ∃ C, e.1.constraintMatrix W gens = .ok C ∧
    OrthoBasis C.sem.cols e.2 fun v => C.sem.mulVec v = replicate C.sem.rows 0

omit [StarRing R] in
theorem SolveSt.get_mem {σ : SolveSt R} {f : Fac} {Q : DMat R} (h : σ.get f = some Q) : (f, Q) ∈ σ.cache := by
  unfold SolveSt.get at h
  rw [Option.map_eq_some_iff] at h
  obtain ⟨e, he, rfl⟩ := h
  have h1 := mem_of_find?_eq_some he
  have h2 := find?_some he
  simp only [beq_iff_eq] at h2
  rw [← h2]; exact h1

/-- A method whose successful results satisfy `P` and which keeps the cache valid. -/
def Meets {β : Type} (W : World) (gens : Gid → GenSet R) (m : SolveM R β) (P : β → Prop) : Prop :=
  ∀ σ, CacheOK W gens σ → CacheOK W gens (m σ).2 ∧ ∀ b, (m σ).1 = .ok b → P b

theorem Meets.map {β γ : Type} {m : SolveM R β} {P : β → Prop} {Q : γ → Prop} {f : β → γ} (h : Meets W gens m P)
    (hf : ∀ b, P b → Q (f b)) : Meets W gens (solveMap f m) Q := by
  intro σ hσ
  obtain ⟨h1, h2⟩ := h σ hσ
  unfold solveMap
  generalize hm : m σ = r at h1 h2
  obtain ⟨o, σ'⟩ := r
  cases o with
  | error e => exact ⟨h1, fun b hb => by simp at hb⟩
  | ok b => exact ⟨h1, fun c hc => by injection hc with hc; rw [← hc]; exact hf b (h2 b rfl)⟩

theorem Meets.list {α β : Type} {f : α → SolveM R β} {P : α → β → Prop} : ∀ {l : List α}, (∀ a ∈ l, Meets W gens (f a) (P a)) →
    Meets W gens (solveList f l) fun bs => Forall₂ P l bs
  | [], _ => fun σ hσ => ⟨hσ, fun bs hb => by injection hb with hb; rw [← hb]; exact .nil⟩
  | a :: t, h => by
    intro σ hσ
    obtain ⟨h1, h2⟩ := h a (by simp) σ hσ
    rw [solveList]
    generalize hm : f a σ = r at h1 h2
    obtain ⟨o, σ'⟩ := r
    cases o with
    | error e => exact ⟨h1, fun b hb => by simp at hb⟩
    | ok b =>
      obtain ⟨h3, h4⟩ := Meets.list (l := t) (fun x hx => h x (by simp [hx])) σ' h1
      simp only
      generalize hm' : solveList f t σ' = r' at h3 h4
      obtain ⟨o', σ''⟩ := r'
      cases o' with
      | error e => exact ⟨h3, fun b hb => by simp at hb⟩
      | ok bs => exact ⟨h3, fun c hc => by injection hc with hc; rw [← hc]; exact .cons (h2 b rfl) (h4 bs rfl)⟩

/-- Orthonormal basis of the invariants of a factor. -/
def Fac.Basis (W : World) (gens : Gid → GenSet R) (f : Fac) (Q : DMat R) : Prop :=
  OrthoBasis (f.size W) Q (FixedBy W gens (fun I => (f.rho I).sem) fun I => (f.drho I).sem)

/-- Orthonormal basis of the invariants of a key. -/
def Key.Basis (W : World) (gens : Gid → GenSet R) (k : Key) (Q : DMat R) : Prop :=
  OrthoBasis (k.size W) Q (FixedBy W gens (fun I => (k.rho I).sem) fun I => (k.drho I).sem)

theorem Fac.basis_meets (hs : GenSet.Sized W gens) (hsol : SolverOK W gens solve) {f : Fac} (hf : f.WF W) :
    Meets W gens (f.basis W gens solve) (f.Basis W gens) := by
  intro σ hσ
  have hb := hf.base
  obtain ⟨g, hg⟩ := Fac.G_some hf
  have hg' : (f.base W).G = some g := by rw [Fac.G_base, hg]
  obtain ⟨C, hC, hcols, hker⟩ := Fac.constraint_spec hs hb hg'
  have hp := Fac.permOf_perm hf
  have fin : ∀ Q, OrthoBasis C.sem.cols Q (fun v => C.sem.mulVec v = replicate C.sem.rows 0) →
      f.Basis W gens (Q.pick (argsort (f.permOf W)) (range Q.cols)) := by
    intro Q hQ
    rw [hcols, Fac.size_base] at hQ
    rw [pick_rows_eq hp hQ.rows]
    refine hQ.perm hp fun v hv => ?_
    have hl : ((permMat (f.permOf W)).mulVec v).length = (f.base W).size W := by simp [Fac.size_base, length_of_perm_range hp]
    rw [Fac.fixed_base hs hf hv, Fac.fixed_iff hb hg' hl, hker _ hl]
  unfold Fac.basis
  rw [Fac.canon_wf hf]
  simp only
  cases hget : σ.get (f.base W) with
  | some Q =>
    refine ⟨hσ, fun b hb' => ?_⟩
    injection hb' with hb'
    obtain ⟨C', hC', hQ⟩ := hσ _ (SolveSt.get_mem hget)
    have : C' = C := by rw [hC] at hC'; injection hC' with h; exact h.symm
    subst this
    rw [← hb']; exact fin Q hQ
  | none =>
    simp only [hC]
    cases hso : solve σ.calls C with
    | error e => exact ⟨hσ, fun b hb' => by simp at hb'⟩
    | ok Q =>
      have hQ := hsol _ _ _ _ hC hso
      refine ⟨?_, fun b hb' => by injection hb' with hb'; rw [← hb']; exact fin Q hQ⟩
      intro e he
      rcases mem_cons.1 he with rfl | he
      · exact ⟨C, hC, hQ⟩
      · exact hσ e he

/-! ### Several groups -/

theorem OrthoBasis.one1 {F : List R → Prop} (hF : ∀ v : List R, v.length = 1 → F v) : OrthoBasis 1 (DMat.one 1 : DMat R) F := by
  refine ⟨rfl, ?_, fun v hv => ⟨fun _ => ⟨v, hv, mulVec_one v hv⟩, fun _ => hF v hv⟩⟩
  refine DMat.ext rfl rfl fun i j hi hj => ?_
  have hi : i < 1 := hi
  have hj : j < 1 := hj
  obtain rfl : i = 0 := by omega
  obtain rfl : j = 0 := by omega
  rw [mul_e (A := (DMat.one 1 : DMat R).conjTranspose) hi hj]
  simp [conjTranspose_e, DMat.one, of]

theorem DMat.kronsumL_zero {ι : Type} (t : List ι) (s : ι → ℕ) :
    kronsumL (t.map fun x => (DMat.zero (s x) (s x) : DMat R)) = DMat.zero (t.map s).prod (t.map s).prod := by
  induction t with
  | nil => rfl
  | cons a t ih =>
    simp only [map_cons, kronsumL, prod_cons]
    rw [ih, DMat.kronsum_zero_right ⟨rfl, rfl⟩]
    refine DMat.ext rfl rfl fun i j hi hj => ?_
    exact (of_e hi hj).trans (by rw [zero_e, zero_e, zero_mul])

theorem kronL_basis (hs : GenSet.Sized W gens) {l : List Fac} : ∀ {Qs : List (DMat R)}, (∀ f ∈ l, f.WF W) →
    (l.map Fac.G).Nodup → Forall₂ (Fac.Basis W gens) l Qs →
    OrthoBasis (l.map (Fac.size W)).prod (kronL Qs)
      (FixedBy W gens (fun I => kronL (l.map fun f => (f.rho I).sem)) fun I => kronsumL (l.map fun f => (f.drho I).sem)) := by
  induction l with
  | nil =>
    intro Qs _ _ h
    cases h
    refine OrthoBasis.one1 fun v hv g => ⟨fun h _ => mulVec_one v hv, fun A _ => ?_⟩
    simp only [map_nil, kronsumL]
    rw [zero_mulVec, hv]
  | cons f t ih =>
    intro Qs hwf hnd h
    cases h with
    | cons hQ hQs =>
    have hwt : ∀ f ∈ t, f.WF W := fun x hx => hwf x (by simp [hx])
    have hf := hwf f (by simp)
    rw [map_cons, nodup_cons] at hnd
    have ih := ih hwt hnd.2 hQs
    obtain ⟨g0, hg0⟩ := Fac.G_some hf
    have sq1 : ∀ I : Interp R, I.Sized W → (kronL (t.map fun f => (f.rho I).sem)).IsSq (t.map (Fac.size W)).prod :=
      fun I hI => kronL_isSq t (fun f => (f.rho I).sem) _ fun x hx => Fac.rho_sq hI (hwt x hx)
    have sq2 : ∀ I : Interp R, I.Sized W → (kronsumL (t.map fun f => (f.drho I).sem)).IsSq (t.map (Fac.size W)).prod :=
      fun I hI => DMat.kronsumL_isSq t (fun f => (f.drho I).sem) _ fun x hx => Fac.drho_sq hI (hwt x hx)
    have hQ' : OrthoBasis (f.size W) _ (FixedBy W gens (fun I => (f.rho I).sem) fun I => (f.drho I).sem) := hQ
    simp only [map_cons, prod_cons, kronL, kronsumL]
    refine OrthoBasis.kron hQ' ih fun N hr hc => ?_
    have htriv : ∀ g, ((∀ h ∈ (gens g).disc, (f.rho (h.only W g)).sem = DMat.one (f.size W)) ∧
        ∀ A ∈ (gens g).lie, (f.drho (A.onlyD W g)).sem = DMat.zero (f.size W) (f.size W)) ∨
      ((∀ h ∈ (gens g).disc, kronL (t.map fun f => (f.rho (h.only W g)).sem) = DMat.one (t.map (Fac.size W)).prod) ∧
        ∀ A ∈ (gens g).lie, kronsumL (t.map fun f => (f.drho (A.onlyD W g)).sem) =
          DMat.zero (t.map (Fac.size W)).prod (t.map (Fac.size W)).prod) := ?_
    · have h1 : ∀ I : Interp R, I.Sized W → (f.rho I).sem.IsSq (f.size W) := fun I hI => Fac.rho_sq hI hf
      have h2 : ∀ I : Interp R, I.Sized W → (f.drho I).sem.IsSq (f.size W) := fun I hI => Fac.drho_sq hI hf
      clear ih hQ hQ' hQs hnd
      generalize (t.map (Fac.size W)).prod = n at *
      generalize f.size W = m at *
      have := @FixedBy.kron W R _ gens hs m n (fun I => (f.rho I).sem) (fun I => (f.drho I).sem) (fun I => kronL (t.map fun f => (f.rho I).sem))
        (fun I => kronsumL (t.map fun f => (f.drho I).sem)) h1 h2 sq1 sq2 htriv N hr hc
      exact this
    intro g
    by_cases e : g0 = g
    · right
      have hne : ∀ x ∈ t, ∃ g', x.G = some g' ∧ g' ≠ g := by
        intro x hx
        obtain ⟨g', hg'⟩ := Fac.G_some (hwt x hx)
        refine ⟨g', hg', ?_⟩
        rintro rfl
        exact hnd.1 (by rw [hg0, e, ← hg']; exact mem_map_of_mem (f := Fac.G) hx)
      refine ⟨fun h _ => ?_, fun A _ => ?_⟩
      · rw [map_congr_left fun x hx => Fac.rho_only_ne (hwt x hx) (hne x hx).choose_spec.1 (hne x hx).choose_spec.2 h, kronL_one]
      · rw [map_congr_left fun x hx => Fac.drho_onlyD_ne (hwt x hx) (hne x hx).choose_spec.1 (hne x hx).choose_spec.2 A]
        exact kronsumL_zero t (Fac.size W)
    · left
      exact ⟨fun h _ => Fac.rho_only_ne hf hg0 e h, fun A _ => Fac.drho_onlyD_ne hf hg0 e A⟩

theorem DRep.expand_keys {d : DRep} (hd : d.WF W) : d.c.expand = d.c.keys := by
  have : ∀ c : Counter Fac, (∀ kc ∈ c, kc.2 = 1) → c.expand = c.keys := by
    intro c
    induction c with
    | nil => intro _; rfl
    | cons a t ih =>
      intro h
      have := ih fun kc hkc => h kc (by simp [hkc])
      simp only [Counter.expand, Counter.keys] at this ⊢
      rw [flatMap_cons, this, h a (by simp)]
      rfl
  exact this _ hd.one

theorem FixedBy.congr {M D M' D' : Interp R → DMat R} (hM : ∀ I, M I = M' I) (hD : ∀ I, D I = D' I) (v : List R) :
    FixedBy W gens M D v ↔ FixedBy W gens M' D' v := by
  simp only [FixedBy, hM, hD]

theorem DRep.kronsum_sq {I : Interp R} (hI : I.Sized W) {d : DRep} (hd : d.WF W) :
    (LinOp.kronsum (d.c.expand.map (Fac.drho I))).sem.IsSq (d.size W) := by
  have := DMat.kronsumL_isSq d.c.expand (fun a => (a.drho I).sem) (Fac.size W) fun a ha => Fac.drho_sq hI (hd.key a (Counter.mem_expand ha))
  rw [prod_map_expand] at this
  simp only [LinOp.sem, semL_map]
  exact this

theorem DRep.basis_of (hs : GenSet.Sized W gens) {d : DRep} (hd : d.WF W) (hone : (Key.dprod d).OnePerGroup) {Qs : List (DMat R)}
    (h : Forall₂ (Fac.Basis W gens) d.c.keys Qs) : (Key.dprod d).Basis W gens ((permMat (argsort d.perm)).mul (kronL Qs)) := by
  have hb := kronL_basis hs hd.key hone h
  have hsz : (d.c.keys.map (Fac.size W)).prod = d.size W := by
    rw [← DRep.expand_keys hd, prod_map_expand]; rfl
  rw [hsz] at hb
  refine OrthoBasis.perm hb hd.perm fun v hv => ?_
  have h1 := FixedBy.conj (gens := gens) hs hd.perm (M := fun I => .kron (d.c.expand.map (Fac.rho I)))
    (D := fun I => .kronsum (d.c.expand.map (Fac.drho I))) (fun I hI => DRep.kron_sq hI hd) (fun I hI => DRep.kronsum_sq hI hd) hv
  refine h1.trans (FixedBy.congr (fun I => ?_) (fun I => ?_) _)
  · simp only [LinOp.sem, semL_map, DRep.expand_keys hd]
  · simp only [LinOp.sem, semL_map, DRep.expand_keys hd]

theorem semL_lazy (Qs : List (DMat R)) : LinOp.semL (Qs.map LinOp.lazy) = Qs := by
  rw [semL_map]; simp [LinOp.sem]

theorem Key.basis_scalar : Key.scalar.Basis W gens (DMat.one 1) := by
  refine OrthoBasis.one1 fun v hv g => ⟨fun h _ => mulVec_one v hv, fun A _ => ?_⟩
  simp only [Key.drho, LinOp.sem]
  rw [zero_mulVec, hv]

theorem Key.basis_meets (hs : GenSet.Sized W gens) (hsol : SolverOK W gens solve) {k : Key} (hk : k.WF W) (hone : k.OnePerGroup) :
    Meets W gens (k.basis W gens solve) fun L => k.Basis W gens L.sem := by
  cases k with
  | scalar => exact fun σ hσ => ⟨hσ, fun b hb => by injection hb with hb; rw [← hb]; exact Key.basis_scalar⟩
  | fac f => exact (Fac.basis_meets hs hsol hk).map fun Q hQ => hQ
  | dprod d =>
    have hd : d.WF W := hk
    refine (Meets.list fun f hf => Fac.basis_meets hs hsol (hd.key f hf)).map fun Qs hQs => ?_
    simp only [LinOp.sem, semL_lazy]
    exact DRep.basis_of hs hd hone hQs

theorem bdiag_basis (hs : GenSet.Sized W gens) {l : List Key} : ∀ {Qs : List (DMat R)}, (∀ f ∈ l, f.WF W) →
    Forall₂ (Key.Basis W gens) l Qs → OrthoBasis (l.map (Key.size W)).sum (bdiag Qs)
      (FixedBy W gens (fun I => bdiag (l.map fun f => (f.rho I).sem)) fun I => bdiag (l.map fun f => (f.drho I).sem)) := by
  induction l with
  | nil =>
    intro Qs _ h
    cases h
    refine ⟨rfl, DMat.ext rfl rfl fun i j hi _ => absurd hi (by simp [bdiag, DMat.zero]), fun v hv => ?_⟩
    have hv : v = [] := by simpa using hv
    subst hv
    exact ⟨fun _ => ⟨[], rfl, rfl⟩, fun _ g => ⟨fun h _ => rfl, fun A _ => rfl⟩⟩
  | cons f t ih =>
    intro Qs hwf h
    cases h with
    | cons hQ hQs =>
    have hwt : ∀ f ∈ t, f.WF W := fun x hx => hwf x (by simp [hx])
    have hf := hwf f (by simp)
    have ih := ih hwt hQs
    simp only [map_cons, sum_cons, bdiag]
    exact OrthoBasis.bdiag2 hQ ih fun v w hv _ => FixedBy.bdiag2 hs (fun I hI => Key.rho_sq hI hf) (fun I hI => Key.drho_sq hI hf) hv

theorem SRep.ddsum_sq {I : Interp R} (hI : I.Sized W) {s : SRep} (hs : s.WF W) :
    (LinOp.dsum (s.c.map fun kc => (kc.1.drho I, kc.2))).sem.IsSq (s.size W) := by
  have := bdiag_isSq s.c.expand (fun a => (a.drho I).sem) (Key.size W) fun a ha => Key.drho_sq hI (hs.key a (Counter.mem_expand ha)).1
  rw [sum_map_expand] at this
  simp only [LinOp.sem, semM_map]
  exact this

theorem SRep.basis_of (hs : GenSet.Sized W gens) {s : SRep} (hw : s.WF W) {Qs : List (DMat R)}
    (h : Forall₂ (Key.Basis W gens) s.c.expand Qs) :
    OrthoBasis (s.size W) ((permMat (argsort s.perm)).mul (bdiag Qs)) (FixedBy W gens (fun I => (s.rho I).sem) fun I => (s.drho I).sem) := by
  have hb := bdiag_basis hs (fun k hk => (hw.key k (Counter.mem_expand hk)).1) h
  rw [sum_map_expand] at hb
  refine OrthoBasis.perm hb hw.perm fun v hv => ?_
  have h1 := FixedBy.conj (gens := gens) hs hw.perm (M := fun I => .dsum (s.c.map fun kc => (kc.1.rho I, kc.2)))
    (D := fun I => .dsum (s.c.map fun kc => (kc.1.drho I, kc.2))) (fun I hI => SRep.dsum_sq hI hw) (fun I hI => SRep.ddsum_sq hI hw) hv
  refine h1.trans (FixedBy.congr (fun I => ?_) (fun I => ?_) _)
  · simp only [LinOp.sem, semM_map]
  · simp only [LinOp.sem, semM_map]

/-- Operators with multiplicities, repeated. -/
def expandOps (l : List (LinOp R × ℕ)) : List (LinOp R) := l.flatMap fun x => replicate x.2 x.1

theorem semM_expand (l : List (LinOp R × ℕ)) : LinOp.semM l = (expandOps l).map LinOp.sem := by
  induction l with
  | nil => rfl
  | cons a t ih => simp [LinOp.semM, ih, expandOps]

theorem forall₂_expand {P : Key → LinOp R → Prop} : ∀ {c : Counter Key} {Qs : List (LinOp R)}, Forall₂ P c.keys Qs →
    Forall₂ P c.expand (expandOps (Qs.zip (c.map (·.2))))
  | [], _, .nil => .nil
  | (k, m) :: t, Q :: Qs, .cons h hs => by
    have ih := forall₂_expand (c := t) hs
    simp only [Counter.expand, flatMap_cons, map_cons, zip_cons_cons, expandOps] at ih ⊢
    refine rel_append ?_ ih
    clear ih
    induction m with
    | zero => exact .nil
    | succ m ihm => rw [replicate_succ, replicate_succ]; exact .cons h (ihm h)

theorem SRep.basis_meets (hs : GenSet.Sized W gens) (hsol : SolverOK W gens solve) {s : SRep} (hw : s.WF W)
    (hone : ∀ k ∈ s.c.keys, k.OnePerGroup) : Meets W gens (s.basis W gens solve) fun L =>
      OrthoBasis (s.size W) L.sem (FixedBy W gens (fun I => (s.rho I).sem) fun I => (s.drho I).sem) := by
  refine (Meets.list fun k hk => Key.basis_meets hs hsol (hw.key k hk).1 (hone k hk)).map fun Qs hQs => ?_
  simp only [LinOp.sem, semM_expand]
  refine SRep.basis_of hs hw ?_
  have := forall₂_expand hQs
  rw [forall₂_map_right_iff]
  exact this

theorem Rep.basis_meets (hs : GenSet.Sized W gens) (hsol : SolverOK W gens solve) {r : Rep} (hw : r.WF W) (hone : r.OnePerGroup) :
    Meets W gens (r.equivariantBasis W gens solve) fun L => OrthoBasis (r.size W) L.sem (r.Fixed W gens) := by
  match r, hw, hone with
  | .key k, hw, hone => exact Key.basis_meets hs hsol hw hone
  | .sum s, hw, hone => exact SRep.basis_meets hs hsol hw hone

end Verif
