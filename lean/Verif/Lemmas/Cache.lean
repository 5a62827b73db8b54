import Verif.Lemmas.Projector
import Verif.Lemmas.ExprSem

/-! Totality of the solver methods, transparency of the cache, and invariants of expressions. -/
namespace Verif
open List DMat
variable {W : World} {R : Type} [CommRing R] {gens : Gid → GenSet R} {solve : ℕ → LinOp R → Py (DMat R)}

/-! ### Totality -/

/-- A method that never raises. -/
def Runs {β : Type} (m : SolveM R β) : Prop := ∀ σ, ∃ b, (m σ).1 = .ok b

theorem Runs.map {β γ : Type} {m : SolveM R β} (h : Runs m) (f : β → γ) : Runs (solveMap f m) := by
  intro σ
  obtain ⟨b, hb⟩ := h σ
  unfold solveMap
  generalize m σ = r at hb
  obtain ⟨o, σ'⟩ := r
  simp only at hb
  subst hb
  exact ⟨f b, rfl⟩

theorem Runs.list {α β : Type} {f : α → SolveM R β} : ∀ {l : List α}, (∀ a ∈ l, Runs (f a)) → Runs (solveList f l)
  | [], _ => fun σ => ⟨[], rfl⟩
  | a :: t, h => by
    intro σ
    obtain ⟨b, hb⟩ := h a (by simp) σ
    rw [solveList]
    generalize f a σ = r at hb
    obtain ⟨o, σ'⟩ := r
    simp only at hb
    subst hb
    obtain ⟨bs, hbs⟩ := Runs.list (l := t) (fun x hx => h x (by simp [hx])) σ'
    simp only
    generalize solveList f t σ' = r at hbs
    obtain ⟨o, σ''⟩ := r
    simp only at hbs
    subst hbs
    exact ⟨b :: bs, rfl⟩

theorem Fac.basis_runs (hs : GenSet.Sized W gens) (htot : SolverRuns W gens solve) {f : Fac} (hf : f.WF W) :
    Runs (f.basis W gens solve) := by
  intro σ
  obtain ⟨g, hg⟩ := Fac.G_some hf
  obtain ⟨C, hC, -⟩ := Fac.constraint_spec hs hf.base (show (f.base W).G = some g by rw [Fac.G_base, hg])
  obtain ⟨Q, hQ⟩ := htot σ.calls _ C hC
  rw [Fac.basis, Fac.canon_wf hf]
  simp only
  cases σ.get (f.base W) with
  | some Q => exact ⟨_, rfl⟩
  | none => simp only [hC, hQ]; exact ⟨_, rfl⟩

theorem Key.basis_runs (hs : GenSet.Sized W gens) (htot : SolverRuns W gens solve) {k : Key} (hk : k.WF W) :
    Runs (k.basis W gens solve) := by
  cases k with
  | scalar => exact fun σ => ⟨_, rfl⟩
  | fac f => exact (Fac.basis_runs hs htot hk).map _
  | dprod d => exact (Runs.list fun f hf => Fac.basis_runs hs htot (DRep.WF.key hk f hf)).map _

theorem Key.projector_runs (hs : GenSet.Sized W gens) (htot : SolverRuns W gens solve) {k : Key} (hk : k.WF W) :
    Runs (k.projector W gens solve) := by
  cases k with
  | scalar => exact fun σ => ⟨_, rfl⟩
  | fac f => exact (Fac.basis_runs hs htot hk).map _
  | dprod d => exact (Runs.list fun f hf => (Fac.basis_runs hs htot (DRep.WF.key hk f hf)).map _).map _

theorem Rep.basis_runs (hs : GenSet.Sized W gens) (htot : SolverRuns W gens solve) {r : Rep} (hr : r.WF W) :
    Runs (r.equivariantBasis W gens solve) := by
  match r, hr with
  | .key k, hr => exact Key.basis_runs hs htot hr
  | .sum s, hr => exact (Runs.list fun k hk => Key.basis_runs hs htot ((SRep.WF.key hr) k hk).1).map _

theorem Rep.projector_runs (hs : GenSet.Sized W gens) (htot : SolverRuns W gens solve) {r : Rep} (hr : r.WF W) :
    Runs (r.equivariantProjector W gens solve) := by
  match r, hr with
  | .key k, hr => exact Key.projector_runs hs htot hr
  | .sum s, hr => exact (Runs.list fun k hk => Key.projector_runs hs htot ((SRep.WF.key hr) k hk).1).map _

/-! ### What every history keeps -/

/-- Every cached solution is related by `P` to the constraint matrix of its key. -/
def CacheInv (W : World) (gens : Gid → GenSet R) (P : LinOp R → DMat R → Prop) (σ : SolveSt R) : Prop :=
  ∀ e ∈ σ.cache, ∃ C, e.1.constraintMatrix W gens = .ok C ∧ P C e.2

/-- The method preserves the relation. -/
def Keeps {β : Type} (W : World) (gens : Gid → GenSet R) (P : LinOp R → DMat R → Prop) (m : SolveM R β) : Prop :=
  ∀ σ, CacheInv W gens P σ → CacheInv W gens P (m σ).2

variable {P : LinOp R → DMat R → Prop}

theorem Keeps.map {β γ : Type} {m : SolveM R β} (h : Keeps W gens P m) (f : β → γ) : Keeps W gens P (solveMap f m) := by
  intro σ hσ
  have h1 := h σ hσ
  unfold solveMap
  generalize m σ = r at h1
  obtain ⟨o', σ'⟩ := r
  cases o' <;> exact h1

theorem Keeps.list {α β : Type} {f : α → SolveM R β} : ∀ {l : List α}, (∀ a ∈ l, Keeps W gens P (f a)) →
    Keeps W gens P (solveList f l)
  | [], _ => fun σ hσ => hσ
  | a :: t, h => by
    intro σ hσ
    have h1 := h a (by simp) σ hσ
    rw [solveList]
    generalize f a σ = r at h1
    obtain ⟨u, σ'⟩ := r
    cases u with
    | error e => exact h1
    | ok b =>
      have h2 := Keeps.list (l := t) (fun x hx => h x (by simp [hx])) σ' h1
      simp only
      generalize solveList f t σ' = r at h2
      obtain ⟨u, σ''⟩ := r
      cases u <;> exact h2

section
variable (hsol : ∀ n (f : Fac) C Q, f.constraintMatrix W gens = .ok C → solve n C = .ok Q → P C Q)
include hsol

theorem Fac.basis_keeps (f : Fac) : Keeps W gens P (f.basis W gens solve) := by
  intro σ hσ
  simp only [Fac.basis]
  cases f.canon W with
  | error e => exact hσ
  | ok cp =>
    obtain ⟨c, p⟩ := cp
    simp only
    cases hg : σ.get c with
    | some Q => exact hσ
    | none =>
      simp only
      cases hC : c.constraintMatrix W gens with
      | error e => exact hσ
      | ok C =>
        simp only
        cases hQ : solve σ.calls C with
        | error e => exact hσ
        | ok Q =>
          intro e he
          simp only [mem_cons] at he
          rcases he with rfl | he
          · exact ⟨C, hC, hsol _ _ _ _ hC hQ⟩
          · exact hσ e he

theorem Key.basis_keeps (k : Key) : Keeps W gens P (k.basis W gens solve) := by
  cases k with
  | scalar => exact fun σ hσ => hσ
  | fac f => exact (f.basis_keeps hsol).map _
  | dprod d => exact (Keeps.list fun f _ => f.basis_keeps hsol).map _

theorem Key.projector_keeps (k : Key) : Keeps W gens P (k.projector W gens solve) := by
  cases k with
  | scalar => exact fun σ hσ => hσ
  | fac f => exact (f.basis_keeps hsol).map _
  | dprod d => exact (Keeps.list fun f _ => (f.basis_keeps hsol).map _).map _

theorem SolveCall.keeps (c : SolveCall) : Keeps W gens P (c.run W gens solve) := by
  cases c with
  | basis r =>
    cases r with
    | key k => exact k.basis_keeps hsol
    | sum t => exact (Keeps.list fun k _ => k.basis_keeps hsol).map _
    | dsum _ => exact fun σ hσ => hσ
    | dprod _ => exact fun σ hσ => hσ
  | projector r =>
    cases r with
    | key k => exact k.projector_keeps hsol
    | sum t => exact (Keeps.list fun k _ => k.projector_keeps hsol).map _
    | dsum _ => exact fun σ hσ => hσ
    | dprod _ => exact fun σ hσ => hσ

theorem session_keeps (calls : List SolveCall) : ∀ σ, CacheInv W gens P σ → CacheInv W gens P (session W gens solve calls σ) := by
  induction calls with
  | nil => exact fun σ hσ => hσ
  | cons c t ih => exact fun σ hσ => ih _ (c.keeps hsol σ hσ)

theorem fresh_keeps (calls : List SolveCall) : CacheInv W gens P (session W gens solve calls freshSt) :=
  session_keeps hsol calls _ fun e he => by simp [freshSt] at he

end

/-! ### Transparency -/

/-- The outcome does not depend on the state, as long as the cache is truthful. -/
def Transparent {β : Type} (W : World) (gens : Gid → GenSet R) (s : LinOp R → Py (DMat R)) (m : SolveM R β) : Prop :=
  Keeps W gens (fun C Q => s C = .ok Q) m ∧ ∃ o, ∀ σ, CacheInv W gens (fun C Q => s C = .ok Q) σ → (m σ).1 = o

variable {s : LinOp R → Py (DMat R)}

theorem Transparent.map {β γ : Type} {m : SolveM R β} (h : Transparent W gens s m) (f : β → γ) : Transparent W gens s (solveMap f m) := by
  obtain ⟨k, o, ho⟩ := h
  refine ⟨k.map f, o.map f, fun σ hσ => ?_⟩
  have h1 := ho σ hσ
  unfold solveMap
  generalize m σ = r at h1
  obtain ⟨o', σ'⟩ := r
  simp only at h1
  subst h1
  cases o' <;> rfl

theorem Transparent.list {α β : Type} {f : α → SolveM R β} : ∀ {l : List α}, (∀ a ∈ l, Transparent W gens s (f a)) →
    Transparent W gens s (solveList f l)
  | [], _ => ⟨fun σ hσ => hσ, .ok [], fun σ hσ => rfl⟩
  | a :: t, h => by
    refine ⟨Keeps.list fun a ha => (h a ha).1, ?_⟩
    obtain ⟨k, o, ho⟩ := h a (by simp)
    obtain ⟨-, o', ho'⟩ := Transparent.list (l := t) fun x hx => h x (by simp [hx])
    refine ⟨match o with | .error e => .error e | .ok b => match o' with | .error e => .error e | .ok bs => .ok (b :: bs), fun σ hσ => ?_⟩
    have h1 := ho σ hσ
    have h2 := k σ hσ
    rw [solveList]
    generalize f a σ = r at h1 h2
    obtain ⟨u, σ'⟩ := r
    simp only at h1 h2
    subst h1
    cases u with
    | error e => rfl
    | ok b =>
      have h3 := ho' σ' h2
      simp only
      generalize solveList f t σ' = r at h3
      obtain ⟨u, σ''⟩ := r
      simp only at h3
      subst h3
      cases u <;> rfl

theorem Fac.basis_transparent (f : Fac) : Transparent W gens s (f.basis W gens fun _ => s) := by
  refine ⟨Fac.basis_keeps (solve := fun _ => s) (P := fun C Q => s C = .ok Q) (fun _ _ _ _ _ h => h) f, ?_⟩
  simp only [Fac.basis]
  cases f.canon W with
  | error e => exact ⟨_, fun σ hσ => rfl⟩
  | ok cp =>
    obtain ⟨c, p⟩ := cp
    refine ⟨match c.constraintMatrix W gens with
      | .error e => .error e
      | .ok C => match s C with
        | .error e => .error e
        | .ok Q => .ok (Q.pick (argsort p) (range Q.cols)), fun σ hσ => ?_⟩
    simp only
    cases hg : σ.get c with
    | some Q =>
      obtain ⟨C, hC, hQ⟩ := hσ _ (SolveSt.get_mem hg)
      simp only at hC hQ
      simp only [hC, hQ]
    | none =>
      simp only
      cases hC : c.constraintMatrix W gens with
      | error e => rfl
      | ok C =>
        simp only
        cases hQ : s C with
        | error e => rfl
        | ok Q => rfl

theorem Key.basis_transparent (k : Key) : Transparent W gens s (k.basis W gens fun _ => s) := by
  cases k with
  | scalar => exact ⟨fun σ hσ => hσ, _, fun σ hσ => rfl⟩
  | fac f => exact f.basis_transparent.map _
  | dprod d => exact (Transparent.list fun f _ => f.basis_transparent).map _

theorem Key.projector_transparent (k : Key) : Transparent W gens s (k.projector W gens fun _ => s) := by
  cases k with
  | scalar => exact ⟨fun σ hσ => hσ, _, fun σ hσ => rfl⟩
  | fac f => exact f.basis_transparent.map _
  | dprod d => exact (Transparent.list fun f _ => f.basis_transparent.map _).map _

theorem SolveCall.transparent (c : SolveCall) : Transparent W gens s (c.run W gens fun _ => s) := by
  cases c with
  | basis r =>
    cases r with
    | key k => exact k.basis_transparent
    | sum t => exact (Transparent.list fun k _ => k.basis_transparent).map _
    | dsum _ => exact ⟨fun σ hσ => hσ, _, fun σ hσ => rfl⟩
    | dprod _ => exact ⟨fun σ hσ => hσ, _, fun σ hσ => rfl⟩
  | projector r =>
    cases r with
    | key k => exact k.projector_transparent
    | sum t => exact (Transparent.list fun k _ => k.projector_transparent).map _
    | dsum _ => exact ⟨fun σ hσ => hσ, _, fun σ hσ => rfl⟩
    | dprod _ => exact ⟨fun σ hσ => hσ, _, fun σ hσ => rfl⟩

/-! ### Expressions -/

variable {g : Gid}

theorem Expr.den_congr {I J : Interp R} (h1 : ∀ k, (I.vec k (some g)).sem = (J.vec k (some g)).sem)
    (h2 : ∀ k, (I.dual k (some g)).sem = (J.dual k (some g)).sem) (e : Expr) : e.den g I = e.den g J := by
  induction e <;> simp_all [Expr.den]

theorem Expr.dden_congr {I J : Interp R} (h1 : ∀ k, (I.vec k (some g)).sem = (J.vec k (some g)).sem)
    (h2 : ∀ k, (I.dual k (some g)).sem = (J.dual k (some g)).sem) (e : Expr) : e.dden g I = e.dden g J := by
  induction e <;> simp_all [Expr.dden]

theorem Interp.only_same (h : Interp R) : (∀ k, (h.only W g).vec k (some g) = h.vec k (some g)) ∧ ∀ k, (h.only W g).dual k (some g) = h.dual k (some g) := by
  simp [Interp.only]

theorem Interp.onlyD_same (h : Interp R) : (∀ k, (h.onlyD W g).vec k (some g) = h.vec k (some g)) ∧ ∀ k, (h.onlyD W g).dual k (some g) = h.dual k (some g) := by
  simp [Interp.onlyD]

theorem Interp.Dual.only {h : Interp R} (hd : h.Dual W) (g : Gid) : (h.only W g).Dual W where
  vec k g' := by
    by_cases e : g' = g
    · subst e; rw [(Interp.only_same h).1]; exact hd.vec k g'
    · simp only [Interp.only, e, if_false]; exact ⟨rfl, rfl⟩
  dual k g' := by
    by_cases e : g' = g
    · subst e; rw [(Interp.only_same h).2]; exact hd.dual k g'
    · simp only [Interp.only, e, if_false]; exact ⟨rfl, rfl⟩
  inv k g' := by
    by_cases e : g' = g
    · subst e; rw [(Interp.only_same h).1, (Interp.only_same h).2]; exact hd.inv k g'
    · simp only [Interp.only, e, if_false, LinOp.sem, transpose_one]; exact one_mul' (one _) rfl
  orth k g' ho := by
    by_cases e : g' = g
    · subst e; rw [(Interp.only_same h).1]; exact hd.orth k g' ho
    · simp only [Interp.only, e, if_false, LinOp.sem, transpose_one]; exact one_mul' (one _) rfl

theorem DMat.zero_transpose_neg (n : ℕ) : (DMat.zero n n : DMat R).transpose.neg = DMat.zero n n := by
  refine DMat.ext rfl rfl fun i j _ _ => ?_
  rw [DMat.neg_e, DMat.transpose_e, DMat.zero_e, DMat.zero_e, neg_zero]

theorem Interp.DDual.onlyD {h : Interp R} (hd : h.DDual W) (g : Gid) : (h.onlyD W g).DDual W where
  sq k g' := by
    by_cases e : g' = g
    · subst e; rw [(Interp.onlyD_same h).1]; exact hd.sq k g'
    · simp only [Interp.onlyD, e, if_false]; exact ⟨rfl, rfl⟩
  dual k g' := by
    by_cases e : g' = g
    · subst e; rw [(Interp.onlyD_same h).1, (Interp.onlyD_same h).2]; exact hd.dual k g'
    · simp only [Interp.onlyD, e, if_false, LinOp.sem, DMat.zero_transpose_neg]
  orth k g' ho := by
    by_cases e : g' = g
    · subst e; rw [(Interp.onlyD_same h).1]; exact hd.orth k g' ho
    · simp only [Interp.onlyD, e, if_false, LinOp.sem, DMat.zero_transpose_neg]

/-- Every summand is `Scalar` or a representation of `g`. -/
theorem World.Single.onePerGroup {N : ℕ} {k : Key} (h : W.Single g N k) : k.OnePerGroup := by
  cases k with
  | dprod d => exact h.2.elim
  | _ => trivial

theorem Rep.single_onePerGroup {N : ℕ} {r : Rep} (hw : r.WF W) (h : ∀ k ∈ r.keys W, W.Single g N k) : r.OnePerGroup := by
  match r, hw with
  | .key k, hw =>
    match k with
    | .scalar => trivial
    | .fac _ => trivial
    | .dprod d => exact (h (Key.base W (.dprod d)) (by simp [Rep.keys])).2.elim
  | .sum s, hw => exact fun k hk => (h k (by simpa [Rep.keys] using hk)).onePerGroup

end Verif
