import Verif.Lemmas.Approx

/-! Bases assembled from approximate null spaces. -/
namespace Verif
open List DMat
variable {𝕜 : Type} [RCLike 𝕜] {W : World} {gens : Gid → GenSet 𝕜} {ε : ℝ} {solve : ℕ → LinOp 𝕜 → Py (DMat 𝕜)}

/-- What the routine returned for a constraint matrix. -/
def NearNull (ε : ℝ) (C : LinOp 𝕜) (Q : DMat 𝕜) : Prop :=
  NearBasis C.sem.cols Q (Null C.sem) fun v => nrm2 (C.sem.mulVec v) ≤ ε ^ 2 * nrm2 v

/-- A method whose successful results satisfy `P` and which keeps the cache valid. -/
def MeetsN {β : Type} (W : World) (gens : Gid → GenSet 𝕜) (ε : ℝ) (m : SolveM 𝕜 β) (P : β → Prop) : Prop :=
  ∀ σ, CacheInv W gens (NearNull ε) σ → CacheInv W gens (NearNull ε) (m σ).2 ∧ ∀ b, (m σ).1 = .ok b → P b

theorem MeetsN.map {β γ : Type} {m : SolveM 𝕜 β} {P : β → Prop} {Q : γ → Prop} {f : β → γ} (h : MeetsN W gens ε m P)
    (hf : ∀ b, P b → Q (f b)) : MeetsN W gens ε (solveMap f m) Q := by
  intro σ hσ
  obtain ⟨h1, h2⟩ := h σ hσ
  unfold solveMap
  generalize hm : m σ = r at h1 h2
  obtain ⟨o, σ'⟩ := r
  cases o with
  | error e => exact ⟨h1, fun b hb => by simp at hb⟩
  | ok b => exact ⟨h1, fun c hc => by injection hc with hc; rw [← hc]; exact hf b (h2 b rfl)⟩

theorem MeetsN.list {α β : Type} {f : α → SolveM 𝕜 β} {P : α → β → Prop} : ∀ {l : List α}, (∀ a ∈ l, MeetsN W gens ε (f a) (P a)) →
    MeetsN W gens ε (solveList f l) fun bs => Forall₂ P l bs
  | [], _ => fun σ hσ => ⟨hσ, fun bs hb => by injection hb with hb; rw [← hb]; exact .nil⟩
  | a :: t, h => by
    intro σ hσ
    obtain ⟨h1, h2⟩ := h a (by simp) σ hσ
    rw [solveList]
    generalize hm : f a σ = r at h1 h2
    obtain ⟨o, σ'⟩ := r
    cases o with
    | error e => exact ⟨h1, fun b hb => by simp at hb⟩
    | ok b =>
      obtain ⟨h3, h4⟩ := MeetsN.list (l := t) (fun x hx => h x (by simp [hx])) σ' h1
      simp only
      generalize hm' : solveList f t σ' = r' at h3 h4
      obtain ⟨o', σ''⟩ := r'
      cases o' with
      | error e => exact ⟨h3, fun b hb => by simp at hb⟩
      | ok bs => exact ⟨h3, fun c hc => by injection hc with hc; rw [← hc]; exact .cons (h2 b rfl) (h4 bs rfl)⟩

/-- Approximate basis of the invariants of a factor. -/
def Fac.Near (W : World) (gens : Gid → GenSet 𝕜) (ε : ℝ) (f : Fac) (Q : DMat 𝕜) : Prop :=
  NearBasis (f.size W) Q (FixedBy W gens (fun I => (f.rho I).sem) fun I => (f.drho I).sem)
    (NearFixedBy W gens ε (fun I => (f.rho I).sem) fun I => (f.drho I).sem)

/-- Approximate basis of the invariants of a key. -/
def Key.Near (W : World) (gens : Gid → GenSet 𝕜) (ε : ℝ) (k : Key) (Q : DMat 𝕜) : Prop :=
  NearBasis (k.size W) Q (FixedBy W gens (fun I => (k.rho I).sem) fun I => (k.drho I).sem)
    (NearFixedBy W gens ε (fun I => (k.rho I).sem) fun I => (k.drho I).sem)

theorem nrm2_zero (n : ℕ) : nrm2 (replicate n (0 : 𝕜)) = 0 := by
  unfold nrm2
  refine Finset.sum_eq_zero fun i hi => ?_
  rw [getD_eq_getElem _ _ (by simpa using hi), getElem_replicate]
  simp

/-- The blocks of the constraint matrix. -/
theorem Fac.constraint_near (hs : GenSet.Sized W gens) {f : Fac} (hf : f.WF W) {g : Gid} (hg : f.G = some g) {C : LinOp 𝕜}
    (hC : f.constraintMatrix W gens = .ok C) {v : List 𝕜} (hv : v.length = f.size W) (h : nrm2 (C.sem.mulVec v) ≤ ε ^ 2 * nrm2 v) :
    NearFixedBy W gens ε (fun I => (f.rho I).sem) (fun I => (f.drho I).sem) v := by
  obtain ⟨l, hl⟩ : ∃ l, l = ((gens g).disc.map fun h => LinOp.add (f.rho h) (.smul (-1) (.eye (f.size W)))) ++
    (gens g).lie.map fun A => f.drho A := ⟨_, rfl⟩
  have e : f.constraintMatrix W gens = .ok (if l.isEmpty then .lazy (DMat.zero 1 (f.size W)) else .concat l) := by
    rw [Fac.constraintMatrix, hg, hl]
  rw [e] at hC
  injection hC with hC
  have hsl : LinOp.semL l = ((gens g).disc.map fun h => (f.rho h).sem.add (DMat.smul (-1) (DMat.one (f.size W)))) ++
      (gens g).lie.map fun A => (f.drho A).sem := by
    have := semL_map l id
    rw [map_id] at this
    rw [this, hl, map_append, List.map_map, List.map_map]
    rfl
  have hcols : ∀ A ∈ LinOp.semL l, A.cols = f.size W := by
    intro A hA
    rw [hsl, mem_append, mem_map, mem_map] at hA
    rcases hA with ⟨x, hx, rfl⟩ | ⟨x, hx, rfl⟩
    · exact (Fac.rho_sq ((hs g).1 x hx) hf).2
    · exact (Fac.drho_sq ((hs g).2 x hx) hf).2
  have hblk : ∀ A ∈ LinOp.semL l, nrm2 (A.mulVec v) ≤ ε ^ 2 * nrm2 v := by
    intro A hA
    have hne : l.isEmpty = false := by
      cases l with
      | nil => simp [LinOp.semL] at hA
      | cons a t => rfl
    rw [hne] at hC
    refine (vstack_nrm2 hcols hA).trans ?_
    rw [← hC] at h
    exact h
  have h0 := nrm2_nonneg v
  intro g'
  by_cases e' : g = g'
  · subst e'
    refine ⟨fun x hx => ?_, fun x hx => ?_⟩ <;> beta_reduce
    · rw [Fac.rho_only_eq hf hg, ← sub_one_nrm2 (Fac.rho_sq ((hs g).1 x hx) hf) hv]
      exact hblk _ (by rw [hsl]; exact mem_append_left _ (mem_map_of_mem (f := fun h => (f.rho h).sem.add (DMat.smul (-1) (DMat.one (f.size W)))) hx))
    · rw [Fac.drho_onlyD_eq hf hg]
      exact hblk _ (by rw [hsl]; exact mem_append_right _ (mem_map_of_mem (f := fun A => (f.drho A).sem) hx))
  · refine ⟨fun x hx => ?_, fun x hx => ?_⟩ <;> beta_reduce
    · rw [Fac.rho_only_ne hf hg e', mulVec_one _ hv, dist2_self]
      positivity
    · rw [Fac.drho_onlyD_ne hf hg e', zero_mulVec, nrm2_zero]
      positivity

theorem Fac.near_base (hs : GenSet.Sized W gens) {f : Fac} (hf : f.WF W) {v : List 𝕜} (hv : v.length = f.size W) :
    NearFixedBy W gens ε (fun I => (f.rho I).sem) (fun I => (f.drho I).sem) v ↔
      NearFixedBy W gens ε (fun I => ((f.base W).rho I).sem) (fun I => ((f.base W).drho I).sem) ((permMat (f.permOf W)).mulVec v) := by
  cases f with
  | atom a =>
    simp only [Fac.base, Fac.permOf, permMat_range]
    rw [mulVec_one (n := a.size W) _ hv]
  | prod p =>
    have hp : p.WF W := hf
    have h1 := NearFixedBy.conj (ε := ε) (gens := gens) hs hp.perm (M := fun I => .kron (p.c.expand.map (Atom.rho I)))
      (D := fun I => .kronsum (p.c.expand.map (Atom.drho I))) (fun I hI => PRep.kron_sq hI hp) (fun I hI => PRep.drho_sq hI hp) hv
    have hl : ((permMat p.perm).mulVec v).length = p.size W := by simp [length_of_perm_range hp.perm]
    have h2 := NearFixedBy.conj (ε := ε) (gens := gens) hs (Perm.refl (range (p.size W))) (M := fun I => .kron (p.c.expand.map (Atom.rho I)))
      (D := fun I => .kronsum (p.c.expand.map (Atom.drho I))) (fun I hI => PRep.kron_sq hI hp) (fun I hI => PRep.drho_sq hI hp) hl
    rw [permMat_range, mulVec_one _ hl] at h2
    exact h1.trans h2.symm

theorem Fac.basis_near (hs : GenSet.Sized W gens) (hsol : SolverNear W gens ε solve) {f : Fac} (hf : f.WF W) :
    MeetsN W gens ε (f.basis W gens solve) (f.Near W gens ε) := by
  intro σ hσ
  have hb := hf.base
  obtain ⟨g, hg⟩ := Fac.G_some hf
  have hg' : (f.base W).G = some g := by rw [Fac.G_base, hg]
  obtain ⟨C, hC, hcols, hker⟩ := Fac.constraint_spec hs hb hg'
  have hp := Fac.permOf_perm hf
  have fin : ∀ Q, NearNull ε C Q → f.Near W gens ε (Q.pick (argsort (f.permOf W)) (range Q.cols)) := by
    intro Q hQ
    unfold NearNull at hQ
    rw [hcols, Fac.size_base] at hQ
    rw [pick_rows_eq hp hQ.rows]
    have hl : ∀ v : List 𝕜, ((permMat (f.permOf W)).mulVec v).length = (f.base W).size W := fun v => by
      simp [Fac.size_base, length_of_perm_range hp]
    refine hQ.perm hp (fun v hv h => ?_) fun v hv h => ?_
    · rwa [Fac.fixed_base hs hf hv, Fac.fixed_iff hb hg' (hl v), ← hker _ (hl v)] at h
    · rw [Fac.near_base hs hf hv]
      exact Fac.constraint_near hs hb hg' hC (hl v) h
  refine ⟨f.basis_keeps hsol σ hσ, fun b hb' => ?_⟩
  unfold Fac.basis at hb'
  rw [Fac.canon_wf hf] at hb'
  simp only at hb'
  cases hget : σ.get (f.base W) with
  | some Q =>
    rw [hget] at hb'
    injection hb' with hb'
    obtain ⟨C', hC', hQ⟩ := hσ _ (SolveSt.get_mem hget)
    have : C' = C := by rw [hC] at hC'; injection hC' with h; exact h.symm
    subst this
    rw [← hb']; exact fin Q hQ
  | none =>
    rw [hget] at hb'
    simp only [hC] at hb'
    cases hso : solve σ.calls C with
    | error e => rw [hso] at hb'; simp at hb'
    | ok Q =>
      rw [hso] at hb'
      injection hb' with hb'
      rw [← hb']; exact fin Q (hsol _ _ _ _ hC hso)

theorem NearBasis.one1 {F N : List 𝕜 → Prop} (hN : ∀ v : List 𝕜, v.length = 1 → N v) : NearBasis 1 (DMat.one 1 : DMat 𝕜) F N := by
  have h := OrthoBasis.one1 (R := 𝕜) (F := fun _ => True) fun _ _ => trivial
  exact ⟨h.rows, h.orth, fun v hv _ => (h.span v hv).1 trivial, fun a _ => hN _ (by simp [DMat.one])⟩

theorem NearBasis.kron_fixed (hg : GenSet.Sized W gens) {m n : ℕ} {M D M' D' : Interp 𝕜 → DMat 𝕜}
    (hM : ∀ I, I.Sized W → (M I).IsSq m) (hD : ∀ I, I.Sized W → (D I).IsSq m)
    (hM' : ∀ I, I.Sized W → (M' I).IsSq n) (hD' : ∀ I, I.Sized W → (D' I).IsSq n)
    (htriv : ∀ g, ((∀ h ∈ (gens g).disc, M (h.only W g) = DMat.one m) ∧ ∀ A ∈ (gens g).lie, D (A.onlyD W g) = DMat.zero m m) ∨
      ((∀ h ∈ (gens g).disc, M' (h.only W g) = DMat.one n) ∧ ∀ A ∈ (gens g).lie, D' (A.onlyD W g) = DMat.zero n n))
    {P Q : DMat 𝕜} (hP : NearBasis m P (FixedBy W gens M D) (NearFixedBy W gens ε M D))
    (hQ : NearBasis n Q (FixedBy W gens M' D') (NearFixedBy W gens ε M' D')) :
    NearBasis (m * n) (DMat.kron P Q) (FixedBy W gens (fun I => DMat.kron (M I) (M' I)) fun I => kronsum (D I) (D' I))
      (NearFixedBy W gens ε (fun I => DMat.kron (M I) (M' I)) fun I => kronsum (D I) (D' I)) :=
  NearBasis.kron hP hQ (fun _ hr hc h => (FixedBy.kron hg hM hD hM' hD' htriv hr hc).1 h)
    fun _ hr hc c1 c2 => NearFixedBy.kron hg hM hD hM' hD' htriv hr hc c1 c2

theorem kronL_near (hs : GenSet.Sized W gens) {l : List Fac} : ∀ {Qs : List (DMat 𝕜)}, (∀ f ∈ l, f.WF W) →
    (l.map Fac.G).Nodup → Forall₂ (Fac.Near W gens ε) l Qs →
    NearBasis (l.map (Fac.size W)).prod (kronL Qs)
      (FixedBy W gens (fun I => kronL (l.map fun f => (f.rho I).sem)) fun I => kronsumL (l.map fun f => (f.drho I).sem))
      (NearFixedBy W gens ε (fun I => kronL (l.map fun f => (f.rho I).sem)) fun I => kronsumL (l.map fun f => (f.drho I).sem)) := by
  induction l with
  | nil =>
    intro Qs _ _ h
    cases h
    refine NearBasis.one1 fun v hv g => ⟨fun h _ => ?_, fun A _ => ?_⟩
    · simp only [map_nil, kronL]
      rw [mulVec_one v hv, dist2_self]
      have := nrm2_nonneg v
      positivity
    · simp only [map_nil, kronsumL]
      rw [zero_mulVec, nrm2_zero]
      have := nrm2_nonneg v
      positivity
  | cons f t ih =>
    intro Qs hwf hnd h
    cases h with
    | cons hQ hQs =>
    have hwt : ∀ f ∈ t, f.WF W := fun x hx => hwf x (by simp [hx])
    have hf := hwf f (by simp)
    rw [map_cons, nodup_cons] at hnd
    have ih := ih hwt hnd.2 hQs
    obtain ⟨g0, hg0⟩ := Fac.G_some hf
    have sq1 : ∀ I : Interp 𝕜, I.Sized W → (kronL (t.map fun f => (f.rho I).sem)).IsSq (t.map (Fac.size W)).prod :=
      fun I hI => kronL_isSq t (fun f => (f.rho I).sem) _ fun x hx => Fac.rho_sq hI (hwt x hx)
    have sq2 : ∀ I : Interp 𝕜, I.Sized W → (kronsumL (t.map fun f => (f.drho I).sem)).IsSq (t.map (Fac.size W)).prod :=
      fun I hI => DMat.kronsumL_isSq t (fun f => (f.drho I).sem) _ fun x hx => Fac.drho_sq hI (hwt x hx)
    have htriv : ∀ g, ((∀ h ∈ (gens g).disc, (f.rho (h.only W g)).sem = DMat.one (f.size W)) ∧
        ∀ A ∈ (gens g).lie, (f.drho (A.onlyD W g)).sem = DMat.zero (f.size W) (f.size W)) ∨
      ((∀ h ∈ (gens g).disc, kronL (t.map fun f => (f.rho (h.only W g)).sem) = DMat.one (t.map (Fac.size W)).prod) ∧
        ∀ A ∈ (gens g).lie, kronsumL (t.map fun f => (f.drho (A.onlyD W g)).sem) =
          DMat.zero (t.map (Fac.size W)).prod (t.map (Fac.size W)).prod) := by
      intro g
      by_cases e : g0 = g
      · right
        have hne : ∀ x ∈ t, ∃ g', x.G = some g' ∧ g' ≠ g := by
          intro x hx
          obtain ⟨g', hg'⟩ := Fac.G_some (hwt x hx)
          refine ⟨g', hg', ?_⟩
          rintro rfl
          exact hnd.1 (by rw [hg0, e, ← hg']; exact mem_map_of_mem (f := Fac.G) hx)
        refine ⟨fun h _ => ?_, fun A _ => ?_⟩
        · rw [map_congr_left fun x hx => Fac.rho_only_ne (hwt x hx) (hne x hx).choose_spec.1 (hne x hx).choose_spec.2 h, kronL_one]
        · rw [map_congr_left fun x hx => Fac.drho_onlyD_ne (hwt x hx) (hne x hx).choose_spec.1 (hne x hx).choose_spec.2 A]
          exact kronsumL_zero t (Fac.size W)
      · left
        exact ⟨fun h _ => Fac.rho_only_ne hf hg0 e h, fun A _ => Fac.drho_onlyD_ne hf hg0 e A⟩
    have hQ' : NearBasis (f.size W) _ (FixedBy W gens (fun I => (f.rho I).sem) fun I => (f.drho I).sem)
      (NearFixedBy W gens ε (fun I => (f.rho I).sem) fun I => (f.drho I).sem) := hQ
    simp only [map_cons, prod_cons, kronL, kronsumL]
    have h1 : ∀ I : Interp 𝕜, I.Sized W → (f.rho I).sem.IsSq (f.size W) := fun I hI => Fac.rho_sq hI hf
    have h2 : ∀ I : Interp 𝕜, I.Sized W → (f.drho I).sem.IsSq (f.size W) := fun I hI => Fac.drho_sq hI hf
    exact NearBasis.kron_fixed hs h1 h2 sq1 sq2 htriv hQ' ih

theorem DRep.near_of (hs : GenSet.Sized W gens) {d : DRep} (hd : d.WF W) (hone : (Key.dprod d).OnePerGroup) {Qs : List (DMat 𝕜)}
    (h : Forall₂ (Fac.Near W gens ε) d.c.keys Qs) : (Key.dprod d).Near W gens ε ((permMat (argsort d.perm)).mul (kronL Qs)) := by
  have hb := kronL_near hs hd.key hone h
  have hsz : (d.c.keys.map (Fac.size W)).prod = d.size W := by
    rw [← DRep.expand_keys hd, prod_map_expand]; rfl
  rw [hsz] at hb
  refine NearBasis.perm hb hd.perm (fun v hv hh => ?_) fun v hv hh => ?_
  · have h1 := FixedBy.conj (gens := gens) hs hd.perm (M := fun I => .kron (d.c.expand.map (Fac.rho I)))
      (D := fun I => .kronsum (d.c.expand.map (Fac.drho I))) (fun I hI => DRep.kron_sq hI hd) (fun I hI => DRep.kronsum_sq hI hd) hv
    refine (h1.trans (FixedBy.congr (fun I => ?_) (fun I => ?_) _)).1 hh
    · simp only [LinOp.sem, semL_map, DRep.expand_keys hd]
    · simp only [LinOp.sem, semL_map, DRep.expand_keys hd]
  · have h1 := NearFixedBy.conj (ε := ε) (gens := gens) hs hd.perm (M := fun I => .kron (d.c.expand.map (Fac.rho I)))
      (D := fun I => .kronsum (d.c.expand.map (Fac.drho I))) (fun I hI => DRep.kron_sq hI hd) (fun I hI => DRep.kronsum_sq hI hd) hv
    refine (h1.trans (NearFixedBy.congr (fun I => ?_) (fun I => ?_) _)).2 hh
    · simp only [LinOp.sem, semL_map, DRep.expand_keys hd]
    · simp only [LinOp.sem, semL_map, DRep.expand_keys hd]

theorem Key.near_scalar : Key.scalar.Near W gens ε (DMat.one 1) := by
  refine NearBasis.one1 fun v hv g => ⟨fun h _ => ?_, fun A _ => ?_⟩
  · have := nrm2_nonneg v
    have e : ((Key.scalar.rho (Interp.only W g h)).sem.mulVec v) = v := mulVec_one v hv
    beta_reduce
    rw [e, dist2_self]
    positivity
  · simp only [Key.drho, LinOp.sem]
    rw [zero_mulVec, nrm2_zero]
    have := nrm2_nonneg v
    positivity

theorem Key.basis_near (hs : GenSet.Sized W gens) (hsol : SolverNear W gens ε solve) {k : Key} (hk : k.WF W) (hone : k.OnePerGroup) :
    MeetsN W gens ε (k.basis W gens solve) fun L => k.Near W gens ε L.sem := by
  cases k with
  | scalar => exact fun σ hσ => ⟨hσ, fun b hb => by injection hb with hb; rw [← hb]; exact Key.near_scalar⟩
  | fac f => exact (Fac.basis_near hs hsol hk).map fun Q hQ => hQ
  | dprod d =>
    have hd : d.WF W := hk
    refine (MeetsN.list fun f hf => Fac.basis_near hs hsol (hd.key f hf)).map fun Qs hQs => ?_
    simp only [LinOp.sem, semL_lazy]
    exact DRep.near_of hs hd hone hQs

theorem bdiag_near (hs : GenSet.Sized W gens) {l : List Key} : ∀ {Qs : List (DMat 𝕜)}, (∀ f ∈ l, f.WF W) →
    Forall₂ (Key.Near W gens ε) l Qs → NearBasis (l.map (Key.size W)).sum (bdiag Qs)
      (FixedBy W gens (fun I => bdiag (l.map fun f => (f.rho I).sem)) fun I => bdiag (l.map fun f => (f.drho I).sem))
      (NearFixedBy W gens ε (fun I => bdiag (l.map fun f => (f.rho I).sem)) fun I => bdiag (l.map fun f => (f.drho I).sem)) := by
  induction l with
  | nil =>
    intro Qs _ h
    cases h
    refine ⟨rfl, DMat.ext rfl rfl fun i j hi _ => absurd hi (by simp [bdiag, DMat.zero]), fun v hv _ => ?_, fun a ha g => ?_⟩
    · have hv : v = [] := by simpa using hv
      subst hv
      exact ⟨[], rfl, rfl⟩
    · have e : (bdiag ([] : List (DMat 𝕜))).mulVec a = [] := rfl
      rw [e]
      exact ⟨fun h _ => by simp [dist2, nrm2, bdiag, DMat.zero], fun A _ => by simp [nrm2, bdiag, DMat.zero]⟩
  | cons f t ih =>
    intro Qs hwf h
    cases h with
    | cons hQ hQs =>
    have hwt : ∀ f ∈ t, f.WF W := fun x hx => hwf x (by simp [hx])
    have hf := hwf f (by simp)
    have ih := ih hwt hQs
    simp only [map_cons, sum_cons, bdiag]
    exact NearBasis.bdiag2 hQ ih
      (fun v w hv _ => (FixedBy.bdiag2 hs (fun I hI => Key.rho_sq hI hf) (fun I hI => Key.drho_sq hI hf) hv).1)
      (fun v w hv _ => NearFixedBy.bdiag2 hs (fun I hI => Key.rho_sq hI hf) (fun I hI => Key.drho_sq hI hf) hv)

theorem SRep.near_of (hs : GenSet.Sized W gens) {s : SRep} (hw : s.WF W) {Qs : List (DMat 𝕜)}
    (h : Forall₂ (Key.Near W gens ε) s.c.expand Qs) :
    NearBasis (s.size W) ((permMat (argsort s.perm)).mul (bdiag Qs)) (FixedBy W gens (fun I => (s.rho I).sem) fun I => (s.drho I).sem)
      (NearFixedBy W gens ε (fun I => (s.rho I).sem) fun I => (s.drho I).sem) := by
  have hb := bdiag_near hs (fun k hk => (hw.key k (Counter.mem_expand hk)).1) h
  rw [sum_map_expand] at hb
  refine NearBasis.perm hb hw.perm (fun v hv hh => ?_) fun v hv hh => ?_
  · have h1 := FixedBy.conj (gens := gens) hs hw.perm (M := fun I => .dsum (s.c.map fun kc => (kc.1.rho I, kc.2)))
      (D := fun I => .dsum (s.c.map fun kc => (kc.1.drho I, kc.2))) (fun I hI => SRep.dsum_sq hI hw) (fun I hI => SRep.ddsum_sq hI hw) hv
    refine (h1.trans (FixedBy.congr (fun I => ?_) (fun I => ?_) _)).1 hh
    · simp only [LinOp.sem, semM_map]
    · simp only [LinOp.sem, semM_map]
  · have h1 := NearFixedBy.conj (ε := ε) (gens := gens) hs hw.perm (M := fun I => .dsum (s.c.map fun kc => (kc.1.rho I, kc.2)))
      (D := fun I => .dsum (s.c.map fun kc => (kc.1.drho I, kc.2))) (fun I hI => SRep.dsum_sq hI hw) (fun I hI => SRep.ddsum_sq hI hw) hv
    refine (h1.trans (NearFixedBy.congr (fun I => ?_) (fun I => ?_) _)).2 hh
    · simp only [LinOp.sem, semM_map]
    · simp only [LinOp.sem, semM_map]

theorem SRep.basis_near (hs : GenSet.Sized W gens) (hsol : SolverNear W gens ε solve) {s : SRep} (hw : s.WF W)
    (hone : ∀ k ∈ s.c.keys, k.OnePerGroup) : MeetsN W gens ε (s.basis W gens solve) fun L =>
      NearBasis (s.size W) L.sem (FixedBy W gens (fun I => (s.rho I).sem) fun I => (s.drho I).sem)
        (NearFixedBy W gens ε (fun I => (s.rho I).sem) fun I => (s.drho I).sem) := by
  refine (MeetsN.list fun k hk => Key.basis_near hs hsol (hw.key k hk).1 (hone k hk)).map fun Qs hQs => ?_
  simp only [LinOp.sem, semM_expand]
  refine SRep.near_of hs hw ?_
  have := forall₂_expand hQs
  rw [forall₂_map_right_iff]
  exact this

theorem Rep.basis_near (hs : GenSet.Sized W gens) (hsol : SolverNear W gens ε solve) {r : Rep} (hw : r.WF W) (hone : r.OnePerGroup) :
    MeetsN W gens ε (r.equivariantBasis W gens solve) fun L => NearBasis (r.size W) L.sem (r.Fixed W gens) (r.NearFixed W gens ε) := by
  match r, hw, hone with
  | .key k, hw, hone => exact Key.basis_near hs hsol hw hone
  | .sum s, hw, hone => exact SRep.basis_near hs hsol hw hone

/-! ### Projectors -/

section
variable (hs : GenSet.Sized W gens) (hsol : SolverNear W gens ε solve)
include hs hsol

theorem Fac.projector_near {f : Fac} (hf : f.WF W) : MeetsN W gens ε (f.projector W gens solve) fun L =>
    ∃ Q, f.Near W gens ε Q ∧ L.sem = Q.mul Q.transpose :=
  (Fac.basis_near hs hsol hf).map fun Q hQ => ⟨Q, hQ, rfl⟩

theorem Key.projector_near {k : Key} (hk : k.WF W) (hone : k.OnePerGroup) :
    MeetsN W gens ε (k.projector W gens solve) fun L => ∃ Q, k.Near W gens ε Q ∧ L.sem = Q.mul Q.transpose := by
  cases k with
  | scalar => exact fun σ hσ => ⟨hσ, fun b hb => by injection hb with hb; rw [← hb]; exact ⟨_, Key.near_scalar, rfl⟩⟩
  | fac f => exact Fac.projector_near hs hsol hk
  | dprod d =>
    have hd : d.WF W := hk
    refine (MeetsN.list fun f hf => Fac.projector_near hs hsol (hd.key f hf)).map fun Ps hPs => ?_
    obtain ⟨Qs, hQ, hP⟩ := choose_bases hPs
    have hr : (DMat.kronL Qs).rows = d.size W := by
      have h1 := (kronL_near hs hd.key hone hQ).rows
      rw [← DRep.expand_keys hd, prod_map_expand] at h1
      exact h1
    refine ⟨_, DRep.near_of hs hd hone hQ, ?_⟩
    simp only [conjPerm, LinOp.sem]
    rw [hP, kronL_outer, conj_outer hd.perm hr]

theorem SRep.projector_near {s : SRep} (hw : s.WF W)
    (hone : ∀ k ∈ s.c.keys, k.OnePerGroup) : MeetsN W gens ε (s.projector W gens solve) fun L => ∃ Q,
      NearBasis (s.size W) Q (FixedBy W gens (fun I => (s.rho I).sem) fun I => (s.drho I).sem)
        (NearFixedBy W gens ε (fun I => (s.rho I).sem) fun I => (s.drho I).sem) ∧ L.sem = Q.mul Q.transpose := by
  refine (MeetsN.list fun k hk => Key.projector_near hs hsol (hw.key k hk).1 (hone k hk)).map fun Ps hPs => ?_
  obtain ⟨Qs, hQ, hP⟩ := choose_bases (forall₂_expand hPs)
  have hr : (DMat.bdiag Qs).rows = s.size W := by
    have h1 := (bdiag_near hs (fun k hk => (hw.key k (Counter.mem_expand hk)).1) hQ).rows
    rw [sum_map_expand] at h1
    exact h1
  refine ⟨_, SRep.near_of hs hw hQ, ?_⟩
  have e := semL_map (expandOps (Ps.zip (s.c.map (·.2)))) (id : LinOp 𝕜 → LinOp 𝕜)
  rw [map_id] at e
  simp only [conjPerm, LinOp.sem, semM_expand]
  have e2 : (expandOps (Ps.zip (s.c.map (·.2)))).map LinOp.sem = Qs.map fun Q => Q.mul Q.transpose := by
    rw [← hP, e]; rfl
  rw [e2, bdiag_outer, conj_outer hw.perm hr]

theorem Rep.projector_near {r : Rep} (hw : r.WF W) (hone : r.OnePerGroup) :
    MeetsN W gens ε (r.equivariantProjector W gens solve) fun L =>
      ∃ Q, NearBasis (r.size W) Q (r.Fixed W gens) (r.NearFixed W gens ε) ∧ L.sem = Q.mul Q.transpose := by
  match r, hw, hone with
  | .key k, hw, hone => exact Key.projector_near hs hsol hw hone
  | .sum s, hw, hone => exact SRep.projector_near hs hsol hw hone

end

end Verif
