import Verif.Model.Threads
import Verif.Lemmas.Cache

/-! Invariants of threads that share the solver cache. -/
namespace Verif
open List DMat
variable {W : World} {R : Type} [CommRing R] {gens : Gid → GenSet R} {solve : ℕ → LinOp R → Py (DMat R)}
variable {α β : Type}

/-! ### Methods that keep an invariant and reach a postcondition under interference -/

/-- The method stores only pairs in `Good` and ends with an outcome in `P`, whatever `Good` pairs other threads store
meanwhile; `K` are keys known to be in the cache. -/
def Prog.Sat (solve : ℕ → LinOp R → Py (DMat R)) (Good : Fac → DMat R → Prop) (P : Py α → Prop) : Prog R α → (Fac → Prop) → Prop
  | .ret o, _ => P o
  | .test k n, K => (n true).Sat solve Good P (fun x => K x ∨ x = k) ∧ (n false).Sat solve Good P K
  | .solve C n, K => ∀ i, (n (solve i C)).Sat solve Good P K
  | .store k Q n, K => Good k Q ∧ n.Sat solve Good P (fun x => K x ∨ x = k)
  | .load k n, K => (∀ Q, Good k Q → (n (.ok Q)).Sat solve Good P K) ∧ (¬ K k → (n (.error .key)).Sat solve Good P K)

variable {Good : Fac → DMat R → Prop}

theorem Prog.Sat.mono {P : Py α → Prop} {p : Prog R α} : ∀ {K K' : Fac → Prop}, (∀ x, K x → K' x) →
    p.Sat solve Good P K → p.Sat solve Good P K' := by
  induction p with
  | ret o => intro K K' _ h; exact h
  | test k n ih =>
    intro K K' hK h
    exact ⟨ih true (fun x hx => hx.imp (hK x) id) h.1, ih false hK h.2⟩
  | solve C n ih => intro K K' hK h i; exact ih _ hK (h i)
  | store k Q n ih => intro K K' hK h; exact ⟨h.1, ih (fun x hx => hx.imp (hK x) id) h.2⟩
  | load k n ih => intro K K' hK h; exact ⟨fun Q hQ => ih _ hK (h.1 Q hQ), fun hk => ih _ hK (h.2 fun h => hk (hK k h))⟩

theorem Prog.Sat.andThen {P : Py α → Prop} {P' : Py β → Prop} {p : Prog R α} {f : Py α → Prog R β} : ∀ {K : Fac → Prop},
    p.Sat solve Good P K → (∀ o, P o → (f o).Sat solve Good P' K) → (p.andThen f).Sat solve Good P' K := by
  induction p with
  | ret o => intro K h hf; exact hf o h
  | test k n ih =>
    intro K h hf
    exact ⟨ih true h.1 fun o ho => (hf o ho).mono fun x hx => .inl hx, ih false h.2 hf⟩
  | solve C n ih => intro K h hf i; exact ih _ (h i) hf
  | store k Q n ih => intro K h hf; exact ⟨h.1, ih h.2 fun o ho => (hf o ho).mono fun x hx => .inl hx⟩
  | load k n ih => intro K h hf; exact ⟨fun Q hQ => ih _ (h.1 Q hQ) hf, fun hk => ih _ (h.2 hk) hf⟩

/-- Outcomes of a method followed by a computation that does not use the cache. -/
def OutMap (f : α → β) (P : Py α → Prop) (o : Py β) : Prop := ∃ o', P o' ∧ o = o'.map f

/-- Outcomes of a comprehension. -/
def OutList (P : α → Py β → Prop) : List α → Py (List β) → Prop
  | [], o => o = .ok []
  | a :: t, o => (∃ e, P a (.error e) ∧ o = .error e) ∨ ∃ b, P a (.ok b) ∧ OutMap (b :: ·) (OutList P t) o

theorem Prog.Sat.map {P : Py α → Prop} {p : Prog R α} {K : Fac → Prop} (h : p.Sat solve Good P K) (f : α → β) :
    (p.map f).Sat solve Good (OutMap f P) K := by
  refine h.andThen fun o ho => ?_
  cases o <;> exact ⟨_, ho, rfl⟩

theorem Prog.Sat.list {P : α → Py β → Prop} {f : α → Prog R β} : ∀ {l : List α} {K : Fac → Prop},
    (∀ a ∈ l, ∀ K, (f a).Sat solve Good (P a) K) → (Prog.list f l).Sat solve Good (OutList P l) K
  | [], _, _ => rfl
  | a :: t, K, h => by
    refine (h a (by simp) K).andThen fun o ho => ?_
    cases o with
    | error e => exact .inl ⟨e, ho, rfl⟩
    | ok b =>
      refine Prog.Sat.andThen (P := OutList P t) (Prog.Sat.list (l := t) (K := K) fun x hx => h x (by simp [hx])) fun o ho' => ?_
      cases o <;> exact .inr ⟨b, ho, _, ho', rfl⟩

/-! ### Outcomes of the solver methods -/

/-- The solutions the numerical routine may return for a key. -/
def Solution (W : World) (gens : Gid → GenSet R) (solve : ℕ → LinOp R → Py (DMat R)) (k : Fac) (Q : DMat R) : Prop :=
  ∃ n C, k.constraintMatrix W gens = .ok C ∧ solve n C = .ok Q

/-- The outcomes `equivariant_basis` of a factor may have. -/
def Fac.Outcome (W : World) (gens : Gid → GenSet R) (solve : ℕ → LinOp R → Py (DMat R)) (f : Fac) (o : Py (DMat R)) : Prop :=
  match f.canon W with
  | .error e => o = .error e
  | .ok (c, p) =>
    match c.constraintMatrix W gens with
    | .error e => o = .error e
    | .ok C => ∃ n, o = (solve n C).map fun Q => Q.pick (argsort p) (range Q.cols)

/-- The same for a key. -/
def Key.BOutcome (W : World) (gens : Gid → GenSet R) (solve : ℕ → LinOp R → Py (DMat R)) : Key → Py (LinOp R) → Prop
  | .scalar => fun o => o = .ok (.lazy (DMat.one 1))
  | .fac f => OutMap .lazy (f.Outcome W gens solve)
  | .dprod d => OutMap (fun Qs => .mul (.perm (argsort d.perm)) (.kron (Qs.map .lazy))) (OutList (Fac.Outcome W gens solve) d.c.keys)

/-- The same for `equivariant_projector` of a key. -/
def Key.POutcome (W : World) (gens : Gid → GenSet R) (solve : ℕ → LinOp R → Py (DMat R)) : Key → Py (LinOp R) → Prop
  | .scalar => fun o => o = .ok (outerH (DMat.one 1))
  | .fac f => OutMap outerH (f.Outcome W gens solve)
  | .dprod d => OutMap (fun Ps => conjPerm d.perm (.kron Ps)) (OutList (fun f : Fac => OutMap outerH (f.Outcome W gens solve)) d.c.keys)

/-- The outcomes a call may have. -/
def SolveCall.Outcome (W : World) (gens : Gid → GenSet R) (solve : ℕ → LinOp R → Py (DMat R)) : SolveCall → Py (LinOp R) → Prop
  | .basis (.key k) => k.BOutcome W gens solve
  | .basis (.sum s) => OutMap (fun Qs => .mul (.perm (argsort s.perm)) (.dsum (Qs.zip (s.c.map (·.2)))))
      (OutList (Key.BOutcome W gens solve) s.c.keys)
  | .projector (.key k) => k.POutcome W gens solve
  | .projector (.sum s) => OutMap (fun Ps => conjPerm s.perm (.dsum (Ps.zip (s.c.map (·.2))))) (OutList (Key.POutcome W gens solve) s.c.keys)
  | _ => fun o => o = .error .notImplemented

theorem Fac.basisProg_sat (f : Fac) (K : Fac → Prop) :
    (f.basisProg W gens).Sat solve (Solution W gens solve) (f.Outcome W gens solve) K := by
  unfold Fac.basisProg
  generalize hP : f.Outcome W gens solve = P
  cases hc : f.canon W with
  | error e => rw [← hP]; simp only [Fac.Outcome, Prog.Sat, hc]
  | ok cp =>
    obtain ⟨c, p⟩ := cp
    have fin : ∀ Q, Solution W gens solve c Q → P (.ok (Q.pick (argsort p) (range Q.cols))) := by
      rintro Q ⟨n, C, hC, hQ⟩
      rw [← hP]
      simp only [Fac.Outcome, hc, hC]
      exact ⟨n, by rw [hQ]; rfl⟩
    simp only
    refine ⟨⟨fun Q hQ => fin Q hQ, fun hK => absurd (Or.inr rfl) hK⟩, ?_⟩
    simp only [Bool.false_eq_true, if_false]
    cases hC : c.constraintMatrix W gens with
    | error e => rw [← hP]; simp only [Fac.Outcome, Prog.Sat, hc, hC]
    | ok C =>
      intro n
      cases hQ : solve n C with
      | error e =>
        rw [← hP]
        simp only [Fac.Outcome, Prog.Sat, hc, hC]
        exact ⟨n, by rw [hQ]; rfl⟩
      | ok Q => exact ⟨⟨n, C, hC, hQ⟩, ⟨fun Q hQ => fin Q hQ, fun hK => absurd (Or.inr rfl) hK⟩⟩

theorem Key.basisProg_sat (k : Key) (K : Fac → Prop) :
    (k.basisProg W gens).Sat solve (Solution W gens solve) (k.BOutcome W gens solve) K := by
  cases k with
  | scalar => rfl
  | fac f => exact (f.basisProg_sat K).map _
  | dprod d => exact (Prog.Sat.list fun f _ K => f.basisProg_sat K).map _

theorem Key.projectorProg_sat (k : Key) (K : Fac → Prop) :
    (k.projectorProg W gens).Sat solve (Solution W gens solve) (k.POutcome W gens solve) K := by
  cases k with
  | scalar => rfl
  | fac f => exact (f.basisProg_sat K).map _
  | dprod d => exact (Prog.Sat.list (P := fun f : Fac => OutMap outerH (f.Outcome W gens solve)) fun f _ K => (f.basisProg_sat K).map _).map _

theorem SolveCall.prog_sat (c : SolveCall) (K : Fac → Prop) :
    (c.prog W gens).Sat solve (Solution W gens solve) (c.Outcome W gens solve) K := by
  cases c with
  | basis r =>
    cases r with
    | key k => exact k.basisProg_sat K
    | sum s => exact (Prog.Sat.list fun k _ K => k.basisProg_sat K).map _
    | dsum _ => rfl
    | dprod _ => rfl
  | projector r =>
    cases r with
    | key k => exact k.projectorProg_sat K
    | sum s => exact (Prog.Sat.list fun k _ K => k.projectorProg_sat K).map _
    | dsum _ => rfl
    | dprod _ => rfl

/-! ### The invariant of the interleaving -/

theorem SolveSt.get_cons (σ : SolveSt R) (k k' : Fac) (Q : DMat R) (n : ℕ) :
    (SolveSt.mk ((k, Q) :: σ.cache) n).get k' = if k = k' then some Q else σ.get k' := by
  unfold SolveSt.get
  by_cases h : k = k'
  · simp [h]
  · rw [find?_cons_of_neg (by simpa using h), if_neg h]

/-- The keys in the cache. -/
def SolveSt.has (σ : SolveSt R) (k : Fac) : Prop := (σ.get k).isSome = true

/-- A thread whose current method and past outcomes are right. -/
structure Thread.Inv (W : World) (gens : Gid → GenSet R) (solve : ℕ → LinOp R → Py (DMat R)) (σ : SolveSt R) (t : Thread R) : Prop where
  cur : ∀ c p, t.cur = some (c, p) → p.Sat solve (Solution W gens solve) (c.Outcome W gens solve) σ.has
  log : ∀ e ∈ t.log, e.1.Outcome W gens solve e.2

/-- The invariant of the process. -/
structure Procs.Inv (W : World) (gens : Gid → GenSet R) (solve : ℕ → LinOp R → Py (DMat R)) (P : Procs R) : Prop where
  cache : ∀ e ∈ P.shared.cache, Solution W gens solve e.1 e.2
  threads : ∀ t ∈ P.threads, t.Inv W gens solve P.shared

theorem Prog.step_sat {P : Py α → Prop} {p : Prog R α} {σ : SolveSt R} (hσ : ∀ e ∈ σ.cache, Good e.1 e.2) (h : p.Sat solve Good P σ.has) :
    (p.step solve σ).1.Sat solve Good P (p.step solve σ).2.has ∧ (∀ e ∈ (p.step solve σ).2.cache, Good e.1 e.2) ∧
      ∀ k, σ.has k → (p.step solve σ).2.has k := by
  cases p with
  | ret o => exact ⟨h, hσ, fun k hk => hk⟩
  | test k n =>
    refine ⟨?_, hσ, fun k hk => hk⟩
    simp only [Prog.step]
    cases hk : (σ.get k).isSome with
    | true => exact h.1.mono fun x hx => by rcases hx with hx | rfl; exacts [hx, hk]
    | false => exact h.2
  | solve C n => exact ⟨h _, hσ, fun k hk => hk⟩
  | store k Q n =>
    have hh : ∀ x, σ.has x ∨ x = k → (SolveSt.mk ((k, Q) :: σ.cache) σ.calls).has x := by
      intro x hx
      unfold SolveSt.has
      rw [SolveSt.get_cons]
      by_cases e : k = x
      · rw [if_pos e]; rfl
      · rw [if_neg e]; exact hx.resolve_right fun h => e h.symm
    refine ⟨h.2.mono hh, fun e he => ?_, fun x hx => hh x (.inl hx)⟩
    rcases mem_cons.1 he with rfl | he
    · exact h.1
    · exact hσ e he
  | load k n =>
    refine ⟨?_, hσ, fun k hk => hk⟩
    simp only [Prog.step]
    cases hk : σ.get k with
    | some Q => exact h.1 Q (hσ _ (SolveSt.get_mem hk))
    | none => exact h.2 fun h => by rw [SolveSt.has, hk] at h; cases h

theorem Thread.Inv.mono {σ σ' : SolveSt R} {t : Thread R} (h : t.Inv W gens solve σ) (hh : ∀ k, σ.has k → σ'.has k) :
    t.Inv W gens solve σ' := ⟨fun c p e => (h.cur c p e).mono hh, h.log⟩

theorem Thread.step_inv {σ : SolveSt R} {t : Thread R} (hσ : ∀ e ∈ σ.cache, Solution W gens solve e.1 e.2) (h : t.Inv W gens solve σ) :
    (t.step W gens solve σ).1.Inv W gens solve (t.step W gens solve σ).2 ∧
    (∀ e ∈ (t.step W gens solve σ).2.cache, Solution W gens solve e.1 e.2) ∧ ∀ k, σ.has k → (t.step W gens solve σ).2.has k := by
  obtain ⟨todo, cur, log⟩ := t
  match cur with
  | none =>
    cases todo with
    | nil => exact ⟨h, hσ, fun k hk => hk⟩
    | cons c cs =>
      refine ⟨⟨fun c' p e => ?_, h.log⟩, hσ, fun k hk => hk⟩
      simp only [Thread.step, Option.some.injEq, Prod.mk.injEq] at e
      obtain ⟨rfl, rfl⟩ := e
      exact c.prog_sat _
  | some (c, p) =>
    have hp := h.cur c p rfl
    obtain ⟨h1, h2, h3⟩ := Prog.step_sat hσ hp
    have gen : (Thread.mk todo (some (c, (p.step solve σ).1)) log).Inv W gens solve (p.step solve σ).2 := by
      refine ⟨fun c' p' e => ?_, h.log⟩
      simp only [Option.some.injEq, Prod.mk.injEq] at e
      obtain ⟨rfl, rfl⟩ := e
      exact h1
    cases p with
    | ret o =>
      refine ⟨⟨fun c' p e => by simp [Thread.step] at e, fun e he => ?_⟩, hσ, fun k hk => hk⟩
      rcases mem_cons.1 he with rfl | he
      · exact hp
      · exact h.log e he
    | test k n => exact ⟨gen, h2, h3⟩
    | solve C n => exact ⟨gen, h2, h3⟩
    | store k Q n => exact ⟨gen, h2, h3⟩
    | load k n => exact ⟨gen, h2, h3⟩

theorem Procs.step_inv {P : Procs R} (h : P.Inv W gens solve) (i : ℕ) : (P.step W gens solve i).Inv W gens solve := by
  unfold Procs.step
  cases hi : P.threads[i]? with
  | none => exact h
  | some t =>
    obtain ⟨h1, h2, h3⟩ := Thread.step_inv h.cache (h.threads t (mem_of_getElem? hi))
    refine ⟨h2, fun t' ht' => ?_⟩
    rcases mem_or_eq_of_mem_set ht' with ht' | rfl
    · exact (h.threads t' ht').mono h3
    · exact h1

theorem Procs.run_inv (schedule : List ℕ) : ∀ {P : Procs R}, P.Inv W gens solve → (P.run W gens solve schedule).Inv W gens solve := by
  induction schedule with
  | nil => exact fun h => h
  | cons i t ih => exact fun h => ih (Procs.step_inv h i)

theorem Procs.start_inv (calls : List (List SolveCall)) {σ : SolveSt R} (hσ : ∀ e ∈ σ.cache, Solution W gens solve e.1 e.2) :
    (Procs.start calls σ).Inv W gens solve := by
  refine ⟨hσ, fun t ht => ?_⟩
  obtain ⟨cs, -, rfl⟩ := mem_map.1 ht
  exact ⟨fun c p e => by simp at e, fun e he => by simp at he⟩

/-! ### What the outcomes are -/

theorem OutMap.ok {f : α → β} {P : Py α → Prop} {b : β} (h : OutMap f P (.ok b)) : ∃ a, P (.ok a) ∧ f a = b := by
  obtain ⟨o, ho, e⟩ := h
  cases o with
  | error _ => simp [Except.map] at e
  | ok a => exact ⟨a, ho, by simpa [Except.map] using e.symm⟩

theorem OutMap.runs {f : α → β} {P : Py α → Prop} (hP : ∀ o, P o → ∃ a, o = .ok a) {o : Py β} (h : OutMap f P o) : ∃ b, o = .ok b := by
  obtain ⟨o', ho, rfl⟩ := h
  obtain ⟨a, rfl⟩ := hP o' ho
  exact ⟨f a, rfl⟩

theorem OutMap.unique {f : α → β} {P : Py α → Prop} (hP : ∀ o o', P o → P o' → o = o') {o o' : Py β} (h : OutMap f P o) (h' : OutMap f P o') :
    o = o' := by
  obtain ⟨x, hx, rfl⟩ := h
  obtain ⟨y, hy, rfl⟩ := h'
  rw [hP x y hx hy]

theorem OutList.ok {P : α → Py β → Prop} {Q : α → β → Prop} : ∀ {l : List α} {bs : List β}, (∀ a ∈ l, ∀ b, P a (.ok b) → Q a b) →
    OutList P l (.ok bs) → Forall₂ Q l bs
  | [], bs, _, h => by injection h with h; rw [h]; exact .nil
  | a :: t, bs, hQ, h => by
    rcases h with ⟨e, -, h⟩ | ⟨b, hb, h⟩
    · cases h
    · obtain ⟨cs, hcs, rfl⟩ := h.ok
      exact .cons (hQ a (by simp) b hb) (OutList.ok (fun x hx => hQ x (by simp [hx])) hcs)

theorem OutList.runs {P : α → Py β → Prop} : ∀ {l : List α}, (∀ a ∈ l, ∀ o, P a o → ∃ b, o = .ok b) → ∀ o, OutList P l o → ∃ bs, o = .ok bs
  | [], _, _, h => ⟨_, h⟩
  | a :: t, hP, o, h => by
    rcases h with ⟨e, he, -⟩ | ⟨b, -, h⟩
    · obtain ⟨b, hb⟩ := hP a (by simp) _ he
      cases hb
    · exact h.runs (OutList.runs fun x hx => hP x (by simp [hx]))

theorem OutList.unique {P : α → Py β → Prop} : ∀ {l : List α}, (∀ a ∈ l, ∀ o o', P a o → P a o' → o = o') →
    ∀ o o', OutList P l o → OutList P l o' → o = o'
  | [], _, _, _, h, h' => by rw [show _ = _ from h, show _ = _ from h']
  | a :: t, hP, o, o', h, h' => by
    rcases h with ⟨e, he, rfl⟩ | ⟨b, hb, h⟩ <;> rcases h' with ⟨e', he', rfl⟩ | ⟨b', hb', h'⟩
    · have := hP a (by simp) _ _ he he'
      injection this with this
      rw [this]
    · cases hP a (by simp) _ _ he hb'
    · cases hP a (by simp) _ _ hb he'
    · have := hP a (by simp) _ _ hb hb'
      injection this with this
      subst this
      exact h.unique (OutList.unique fun x hx => hP x (by simp [hx])) h'

theorem SolveCall.outcome_unique {s : LinOp R → Py (DMat R)} (c : SolveCall) {o o' : Py (LinOp R)}
    (h : c.Outcome W gens (fun _ => s) o) (h' : c.Outcome W gens (fun _ => s) o') : o = o' := by
  have hf : ∀ (f : Fac) (o o' : Py (DMat R)), f.Outcome W gens (fun _ => s) o → f.Outcome W gens (fun _ => s) o' → o = o' := by
    intro f o o' h h'
    unfold Fac.Outcome at h h'
    cases hc : f.canon W with
    | error e => rw [hc] at h h'; exact h.trans h'.symm
    | ok cp =>
      rw [hc] at h h'
      simp only at h h'
      cases hC : cp.1.constraintMatrix W gens with
      | error e => rw [hC] at h h'; exact h.trans h'.symm
      | ok C =>
        rw [hC] at h h'
        obtain ⟨-, h⟩ := h
        obtain ⟨-, h'⟩ := h'
        exact h.trans h'.symm
  have hk : ∀ (k : Key) (o o' : Py (LinOp R)), k.BOutcome W gens (fun _ => s) o → k.BOutcome W gens (fun _ => s) o' → o = o' := by
    intro k o o' h h'
    cases k with
    | scalar => exact h.trans h'.symm
    | fac f => exact h.unique (hf f) h'
    | dprod d => exact h.unique (OutList.unique fun f _ => hf f) h'
  have hq : ∀ (k : Key) (o o' : Py (LinOp R)), k.POutcome W gens (fun _ => s) o → k.POutcome W gens (fun _ => s) o' → o = o' := by
    intro k o o' h h'
    cases k with
    | scalar => exact h.trans h'.symm
    | fac f => exact h.unique (hf f) h'
    | dprod d => exact h.unique (OutList.unique fun f _ o o' a b => a.unique (hf f) b) h'
  cases c with
  | basis r =>
    cases r with
    | key k => exact hk k o o' h h'
    | sum s => exact h.unique (OutList.unique fun k _ => hk k) h'
    | dsum _ => exact h.trans h'.symm
    | dprod _ => exact h.trans h'.symm
  | projector r =>
    cases r with
    | key k => exact hq k o o' h h'
    | sum s => exact h.unique (OutList.unique fun k _ => hq k) h'
    | dsum _ => exact h.trans h'.symm
    | dprod _ => exact h.trans h'.symm

/-! ### Totality -/

theorem Fac.outcome_runs (hs : GenSet.Sized W gens) (htot : SolverRuns W gens solve) {f : Fac} (hf : f.WF W) (o : Py (DMat R))
    (h : f.Outcome W gens solve o) : ∃ Q, o = .ok Q := by
  obtain ⟨g, hg⟩ := Fac.G_some hf
  obtain ⟨C, hC, -⟩ := Fac.constraint_spec hs hf.base (show (f.base W).G = some g by rw [Fac.G_base, hg])
  unfold Fac.Outcome at h
  rw [Fac.canon_wf hf] at h
  simp only [hC] at h
  obtain ⟨n, rfl⟩ := h
  obtain ⟨Q, hQ⟩ := htot n _ C hC
  rw [hQ]
  exact ⟨_, rfl⟩

/-- The representation of a call. -/
def SolveCall.rep : SolveCall → Rep
  | .basis r => r
  | .projector r => r

theorem SolveCall.outcome_runs (hs : GenSet.Sized W gens) (htot : SolverRuns W gens solve) {c : SolveCall} (hw : c.rep.WF W) {o : Py (LinOp R)}
    (h : c.Outcome W gens solve o) : ∃ L, o = .ok L := by
  have hk : ∀ k : Key, k.WF W → ∀ o, k.BOutcome W gens solve o → ∃ L, o = .ok L := by
    intro k hk o h
    cases k with
    | scalar => exact ⟨_, h⟩
    | fac f => exact h.runs (Fac.outcome_runs hs htot hk)
    | dprod d => exact h.runs (OutList.runs fun f hf => Fac.outcome_runs hs htot (DRep.WF.key hk f hf))
  have hq : ∀ k : Key, k.WF W → ∀ o, k.POutcome W gens solve o → ∃ L, o = .ok L := by
    intro k hk o h
    cases k with
    | scalar => exact ⟨_, h⟩
    | fac f => exact h.runs (Fac.outcome_runs hs htot hk)
    | dprod d => exact h.runs (OutList.runs fun f hf o h => h.runs (Fac.outcome_runs hs htot (DRep.WF.key hk f hf)))
  match c, hw, h with
  | .basis (.key k), hw, h => exact hk k hw o h
  | .basis (.sum s), hw, h => exact h.runs (OutList.runs fun k hk' => hk k ((SRep.WF.key hw) k hk').1)
  | .projector (.key k), hw, h => exact hq k hw o h
  | .projector (.sum s), hw, h => exact h.runs (OutList.runs fun k hk' => hq k ((SRep.WF.key hw) k hk').1)

/-! ### Correctness -/

section
variable [StarRing R] (hs : GenSet.Sized W gens) (hsol : SolverOK W gens solve)
include hs hsol

theorem Fac.outcome_basis {f : Fac} (hf : f.WF W) {Q : DMat R} (h : f.Outcome W gens solve (.ok Q)) : f.Basis W gens Q := by
  have hb := hf.base
  obtain ⟨g, hg⟩ := Fac.G_some hf
  have hg' : (f.base W).G = some g := by rw [Fac.G_base, hg]
  obtain ⟨C, hC, hcols, hker⟩ := Fac.constraint_spec hs hb hg'
  unfold Fac.Outcome at h
  rw [Fac.canon_wf hf] at h
  simp only [hC] at h
  obtain ⟨n, h⟩ := h
  -- the sequential method, started with this solution in the cache, returns the same matrix
  cases hQ : solve n C with
  | error e => rw [hQ] at h; simp [Except.map] at h
  | ok Q' =>
    have hσ : CacheOK W gens (⟨[(f.base W, Q')], 0⟩ : SolveSt R) := by
      intro e he
      rw [mem_singleton] at he
      subst he
      exact ⟨C, hC, hsol n _ C Q' hC hQ⟩
    refine (Fac.basis_meets hs hsol hf _ hσ).2 Q ?_
    unfold Fac.basis
    rw [Fac.canon_wf hf, h, hQ]
    simp [SolveSt.get, Except.map]

theorem Key.outcome_basis {k : Key} (hk : k.WF W) (hone : k.OnePerGroup) {L : LinOp R} (h : k.BOutcome W gens solve (.ok L)) :
    k.Basis W gens L.sem := by
  cases k with
  | scalar => injection h with h; rw [h]; exact Key.basis_scalar
  | fac f =>
    obtain ⟨Q, hQ, rfl⟩ := OutMap.ok h
    exact Fac.outcome_basis hs hsol hk hQ
  | dprod d =>
    have hd : d.WF W := hk
    obtain ⟨Qs, hQs, rfl⟩ := OutMap.ok h
    simp only [LinOp.sem, semL_lazy]
    exact DRep.basis_of hs hd hone (OutList.ok (fun f hf Q hQ => Fac.outcome_basis hs hsol (hd.key f hf) hQ) hQs)

theorem Rep.outcome_basis {r : Rep} (hw : r.WF W) (hone : r.OnePerGroup) {L : LinOp R}
    (h : (SolveCall.basis r).Outcome W gens solve (.ok L)) : OrthoBasis (r.size W) L.sem (r.Fixed W gens) := by
  match r, hw, hone, h with
  | .key k, hw, hone, h => exact Key.outcome_basis hs hsol hw hone h
  | .sum s, hw, hone, h =>
    obtain ⟨Qs, hQs, rfl⟩ := OutMap.ok h
    simp only [LinOp.sem, semM_expand]
    refine SRep.basis_of hs hw ?_
    rw [forall₂_map_right_iff]
    exact forall₂_expand (OutList.ok (fun k hk L hL => Key.outcome_basis hs hsol ((SRep.WF.key hw) k hk).1 (hone k hk) hL) hQs)

theorem Fac.outcome_outer {f : Fac} (hf : f.WF W) {L : LinOp R} (h : OutMap outerH (f.Outcome W gens solve) (.ok L)) :
    ∃ Q, f.Basis W gens Q ∧ L.sem = Q.mul Q.transpose := by
  obtain ⟨Q, hQ, rfl⟩ := OutMap.ok h
  exact ⟨Q, Fac.outcome_basis hs hsol hf hQ, rfl⟩

theorem Key.outcome_outer {k : Key} (hk : k.WF W) (hone : k.OnePerGroup) {L : LinOp R} (h : k.POutcome W gens solve (.ok L)) :
    ∃ Q, k.Basis W gens Q ∧ L.sem = Q.mul Q.transpose := by
  cases k with
  | scalar => injection h with h; rw [h]; exact ⟨_, Key.basis_scalar, rfl⟩
  | fac f => exact Fac.outcome_outer hs hsol hk h
  | dprod d =>
    have hd : d.WF W := hk
    obtain ⟨Ps, hPs, rfl⟩ := OutMap.ok h
    obtain ⟨Qs, hQ, hP⟩ := choose_bases (OutList.ok (Q := fun (f : Fac) L => ∃ Q, f.Basis W gens Q ∧ L.sem = Q.mul Q.transpose)
      (fun f hf L hL => Fac.outcome_outer hs hsol (hd.key f hf) hL) hPs)
    have hr : (DMat.kronL Qs).rows = d.size W := by
      have h1 := (kronL_basis hs hd.key hone hQ).rows
      rw [← DRep.expand_keys hd, prod_map_expand] at h1
      exact h1
    refine ⟨_, DRep.basis_of hs hd hone hQ, ?_⟩
    simp only [conjPerm, LinOp.sem]
    rw [hP, kronL_outer, conj_outer hd.perm hr]

theorem Rep.outcome_outer {r : Rep} (hw : r.WF W) (hone : r.OnePerGroup) {L : LinOp R}
    (h : (SolveCall.projector r).Outcome W gens solve (.ok L)) :
    ∃ Q, OrthoBasis (r.size W) Q (r.Fixed W gens) ∧ L.sem = Q.mul Q.transpose := by
  match r, hw, hone, h with
  | .key k, hw, hone, h => exact Key.outcome_outer hs hsol hw hone h
  | .sum s, hw, hone, h =>
    have hw : s.WF W := hw
    obtain ⟨Ps, hPs, rfl⟩ := OutMap.ok h
    have hPs := OutList.ok (Q := fun (k : Key) L => ∃ Q, k.Basis W gens Q ∧ L.sem = Q.mul Q.transpose)
      (fun k hk L hL => Key.outcome_outer hs hsol (hw.key k hk).1 (hone k hk) hL) hPs
    obtain ⟨Qs, hQ, hP⟩ := choose_bases (forall₂_expand hPs)
    have hr : (DMat.bdiag Qs).rows = s.size W := by
      have h1 := (bdiag_basis hs (fun k hk => (hw.key k (Counter.mem_expand hk)).1) hQ).rows
      rw [sum_map_expand] at h1
      exact h1
    refine ⟨_, SRep.basis_of hs hw hQ, ?_⟩
    have e := semL_map (expandOps (Ps.zip (s.c.map (·.2)))) (id : LinOp R → LinOp R)
    rw [map_id] at e
    simp only [conjPerm, LinOp.sem, semM_expand]
    have e2 : (expandOps (Ps.zip (s.c.map (·.2)))).map LinOp.sem = Qs.map fun Q => Q.mul Q.transpose := by
      rw [← hP, e]; rfl
    rw [e2, bdiag_outer, conj_outer hw.perm hr]

end

/-! ### One thread -/

/-- The method runs to its end without interference. -/
def Prog.exec (solve : ℕ → LinOp R → Py (DMat R)) : Prog R α → SolveSt R → Py α × SolveSt R
  | .ret o, σ => (o, σ)
  | .test k n, σ => (n (σ.get k).isSome).exec solve σ
  | .solve C n, σ => (n (solve σ.calls C)).exec solve { σ with calls := σ.calls + 1 }
  | .store k Q n, σ => n.exec solve { σ with cache := (k, Q) :: σ.cache }
  | .load k n, σ => (n (match σ.get k with | some Q => .ok Q | none => .error .key)).exec solve σ

theorem Prog.exec_andThen (p : Prog R α) (f : Py α → Prog R β) : ∀ σ : SolveSt R,
    (p.andThen f).exec solve σ = (f (p.exec solve σ).1).exec solve (p.exec solve σ).2 := by
  induction p with
  | ret o => intro σ; rfl
  | test k n ih => intro σ; exact ih _ σ
  | solve C n ih => intro σ; exact ih _ _
  | store k Q n ih => intro σ; exact ih _
  | load k n ih => intro σ; exact ih _ σ

theorem Prog.exec_map (p : Prog R α) (f : α → β) {m : SolveM R α} (h : ∀ σ, p.exec solve σ = m σ) (σ : SolveSt R) :
    (p.map f).exec solve σ = solveMap f m σ := by
  unfold Prog.map solveMap
  rw [Prog.exec_andThen, h σ]
  generalize m σ = r
  obtain ⟨o, σ'⟩ := r
  cases o <;> rfl

theorem Prog.exec_list {f : α → Prog R β} {m : α → SolveM R β} : ∀ {l : List α}, (∀ a ∈ l, ∀ σ, (f a).exec solve σ = m a σ) →
    ∀ σ, (Prog.list f l).exec solve σ = solveList m l σ
  | [], _, _ => rfl
  | a :: t, h, σ => by
    rw [Prog.list, solveList, Prog.exec_andThen, h a (by simp) σ]
    generalize m a σ = r
    obtain ⟨o, σ'⟩ := r
    cases o with
    | error e => rfl
    | ok b =>
      simp only
      rw [Prog.exec_map _ _ (Prog.exec_list (l := t) (m := m) fun x hx => h x (by simp [hx])), solveMap]
      generalize solveList m t σ' = r
      obtain ⟨o, σ''⟩ := r
      cases o <;> rfl

theorem Fac.basisProg_exec (f : Fac) (σ : SolveSt R) : (f.basisProg W gens).exec solve σ = f.basis W gens solve σ := by
  unfold Fac.basisProg Fac.basis
  cases f.canon W with
  | error e => rfl
  | ok cp =>
    obtain ⟨c, p⟩ := cp
    simp only [Prog.exec]
    cases hg : σ.get c with
    | some Q => simp [Prog.exec, hg]
    | none =>
      simp only [Option.isSome_none, Bool.false_eq_true, if_false]
      cases c.constraintMatrix W gens with
      | error e => rfl
      | ok C =>
        simp only [Prog.exec]
        cases solve σ.calls C with
        | error e => rfl
        | ok Q => simp [Prog.exec, SolveSt.get]

theorem Key.basisProg_exec (k : Key) (σ : SolveSt R) : (k.basisProg W gens).exec solve σ = k.basis W gens solve σ := by
  cases k with
  | scalar => rfl
  | fac f => exact Prog.exec_map _ _ f.basisProg_exec σ
  | dprod d => exact Prog.exec_map _ _ (Prog.exec_list fun f _ => f.basisProg_exec) σ

theorem Key.projectorProg_exec (k : Key) (σ : SolveSt R) : (k.projectorProg W gens).exec solve σ = k.projector W gens solve σ := by
  cases k with
  | scalar => rfl
  | fac f => exact Prog.exec_map _ _ f.basisProg_exec σ
  | dprod d => exact Prog.exec_map _ _ (Prog.exec_list fun f _ => Prog.exec_map _ _ f.basisProg_exec) σ

theorem SolveCall.prog_exec (c : SolveCall) (σ : SolveSt R) : (c.prog W gens).exec solve σ = c.run W gens solve σ := by
  cases c with
  | basis r =>
    cases r with
    | key k => exact k.basisProg_exec σ
    | sum s => exact Prog.exec_map _ _ (Prog.exec_list fun k _ => k.basisProg_exec) σ
    | dsum _ => rfl
    | dprod _ => rfl
  | projector r =>
    cases r with
    | key k => exact k.projectorProg_exec σ
    | sum s => exact Prog.exec_map _ _ (Prog.exec_list fun k _ => k.projectorProg_exec) σ
    | dsum _ => rfl
    | dprod _ => rfl

theorem Prog.exec_sat {P : Py α → Prop} {p : Prog R α} : ∀ {σ : SolveSt R}, (∀ e ∈ σ.cache, Good e.1 e.2) → p.Sat solve Good P σ.has →
    P (p.exec solve σ).1 := by
  induction p with
  | ret o => exact fun _ h => h
  | test k n ih => intro σ hσ h; obtain ⟨h1, h2, -⟩ := Prog.step_sat hσ h; exact ih _ h2 h1
  | solve C n ih => intro σ hσ h; obtain ⟨h1, h2, -⟩ := Prog.step_sat hσ h; exact ih _ h2 h1
  | store k Q n ih => intro σ hσ h; obtain ⟨h1, h2, -⟩ := Prog.step_sat hσ h; exact ih h2 h1
  | load k n ih => intro σ hσ h; obtain ⟨h1, h2, -⟩ := Prog.step_sat hσ h; exact ih _ h2 h1

theorem SolveCall.run_outcome (c : SolveCall) {σ : SolveSt R} (hσ : ∀ e ∈ σ.cache, Solution W gens solve e.1 e.2) :
    c.Outcome W gens solve (c.run W gens solve σ).1 := by
  rw [← c.prog_exec σ]
  exact Prog.exec_sat hσ (c.prog_sat _)

/-! ### Termination -/

/-- The method ends after at most `n` steps, whatever the steps return. -/
def Prog.Within : Prog R α → ℕ → Prop
  | .ret _, _ => True
  | .test _ _, 0 => False
  | .test _ f, n + 1 => ∀ b, (f b).Within n
  | .solve _ _, 0 => False
  | .solve _ f, n + 1 => ∀ o, (f o).Within n
  | .store _ _ _, 0 => False
  | .store _ _ p, n + 1 => p.Within n
  | .load _ _, 0 => False
  | .load _ f, n + 1 => ∀ o, (f o).Within n

theorem Prog.Within.mono {p : Prog R α} : ∀ {n m : ℕ}, n ≤ m → p.Within n → p.Within m := by
  induction p with
  | ret o => intros; trivial
  | test k f ih => intro n m h hp; cases n with
    | zero => exact hp.elim
    | succ n => cases m with
      | zero => omega
      | succ m => exact fun b => ih b (by omega) (hp b)
  | solve k f ih => intro n m h hp; cases n with
    | zero => exact hp.elim
    | succ n => cases m with
      | zero => omega
      | succ m => exact fun b => ih b (by omega) (hp b)
  | store k Q f ih => intro n m h hp; cases n with
    | zero => exact hp.elim
    | succ n => cases m with
      | zero => omega
      | succ m => exact ih (by omega) hp
  | load k f ih => intro n m h hp; cases n with
    | zero => exact hp.elim
    | succ n => cases m with
      | zero => omega
      | succ m => exact fun b => ih b (by omega) (hp b)

theorem Prog.Within.andThen {p : Prog R α} {f : Py α → Prog R β} {m : ℕ} (hf : ∀ o, (f o).Within m) : ∀ {n : ℕ}, p.Within n →
    (p.andThen f).Within (n + m) := by
  induction p with
  | ret o => intro n _; exact (hf o).mono (by omega)
  | test k g ih => intro n hp; cases n with
    | zero => exact hp.elim
    | succ n => rw [Nat.add_right_comm]; exact fun b => ih b (hp b)
  | solve k g ih => intro n hp; cases n with
    | zero => exact hp.elim
    | succ n => rw [Nat.add_right_comm]; exact fun b => ih b (hp b)
  | store k Q g ih => intro n hp; cases n with
    | zero => exact hp.elim
    | succ n => rw [Nat.add_right_comm]; exact ih hp
  | load k g ih => intro n hp; cases n with
    | zero => exact hp.elim
    | succ n => rw [Nat.add_right_comm]; exact fun b => ih b (hp b)

theorem Prog.Within.map {p : Prog R α} {n : ℕ} (h : p.Within n) (f : α → β) : (p.map f).Within n :=
  Prog.Within.andThen (m := 0) (fun o => by cases o <;> trivial) h

theorem Prog.Within.list {f : α → Prog R β} {n : ℕ} (h : ∀ a, (f a).Within n) : ∀ l : List α, (Prog.list f l).Within (l.length * n)
  | [] => trivial
  | a :: t => by
    rw [length_cons, Nat.succ_mul, Nat.add_comm]
    refine (h a).andThen fun o => ?_
    cases o with
    | error e => trivial
    | ok b => exact (Prog.Within.list h t).map _

theorem Fac.basisProg_within (f : Fac) : (f.basisProg W gens).Within 4 := by
  unfold Fac.basisProg
  cases f.canon W with
  | error e => trivial
  | ok cp =>
    intro b
    cases b with
    | true => intro o; cases o <;> trivial
    | false =>
      simp only [Bool.false_eq_true, if_false]
      cases cp.1.constraintMatrix W gens with
      | error e => trivial
      | ok C =>
        intro o
        cases o with
        | error e => trivial
        | ok Q => intro o; cases o <;> trivial

/-- The number of steps of a key. -/
def Key.steps : Key → ℕ
  | .dprod d => d.c.keys.length * 4
  | _ => 4

theorem Key.basisProg_within (k : Key) : (k.basisProg W gens).Within k.steps := by
  cases k with
  | scalar => trivial
  | fac f => exact f.basisProg_within.map _
  | dprod d => exact (Prog.Within.list (fun f => Fac.basisProg_within f) _).map _

theorem Key.projectorProg_within (k : Key) : (k.projectorProg W gens).Within k.steps := by
  cases k with
  | scalar => trivial
  | fac f => exact f.basisProg_within.map _
  | dprod d => exact (Prog.Within.list (fun f => (Fac.basisProg_within f).map _) _).map _

theorem Prog.Within.list_sum {f : α → Prog R β} {n : α → ℕ} (h : ∀ a, (f a).Within (n a)) : ∀ l : List α, (Prog.list f l).Within (l.map n).sum
  | [] => trivial
  | a :: t => by
    rw [map_cons, sum_cons]
    refine (h a).andThen fun o => ?_
    cases o with
    | error e => trivial
    | ok b => exact (Prog.Within.list_sum h t).map _

/-- The number of steps of a call. -/
def SolveCall.steps (c : SolveCall) : ℕ :=
  match c.rep with
  | .key k => k.steps
  | .sum s => (s.c.keys.map Key.steps).sum
  | _ => 0

theorem SolveCall.prog_within (c : SolveCall) : (c.prog W gens).Within c.steps := by
  cases c with
  | basis r =>
    cases r with
    | key k => exact k.basisProg_within
    | sum s => exact (Prog.Within.list_sum (fun k => k.basisProg_within) _).map _
    | dsum _ => trivial
    | dprod _ => trivial
  | projector r =>
    cases r with
    | key k => exact k.projectorProg_within
    | sum s => exact (Prog.Within.list_sum (fun k => k.projectorProg_within) _).map _
    | dsum _ => trivial
    | dprod _ => trivial

/-- The thread has made `made` calls and ends after at most `n` of its own steps. -/
structure Thread.Left (calls : List SolveCall) (n : ℕ) (t : Thread R) : Prop where
  calls : calls = (t.log.map (·.1)).reverse ++ (t.cur.toList.map (·.1)) ++ t.todo
  left : ∃ m, (∀ c p, t.cur = some (c, p) → p.Within m ∧ m + 1 + (t.todo.map fun c => c.steps + 2).sum ≤ n) ∧
    (t.cur = none → (t.todo.map fun c => c.steps + 2).sum ≤ n)

theorem Prog.Within.step {p : Prog R α} {σ : SolveSt R} {n : ℕ} (h : p.Within (n + 1)) : (p.step solve σ).1.Within n := by
  cases p with
  | ret o => trivial
  | test k f => exact h _
  | solve C f => exact h _
  | store k Q f => exact h
  | load k f => exact h _

theorem Thread.Left.step {cs : List SolveCall} {n : ℕ} {t : Thread R} (h : t.Left cs n) (σ : SolveSt R) :
    (t.step W gens solve σ).1.Left cs (n - 1) := by
  obtain ⟨todo, cur, log⟩ := t
  obtain ⟨h1, m, h2, h3⟩ := h
  simp only at h1 h2 h3
  match cur, h1, h2, h3 with
  | none, h1, h2, h3 =>
    cases todo with
    | nil => exact ⟨h1, m, fun c p e => by simp [Thread.step] at e, fun _ => by simp [Thread.step]⟩
    | cons c t =>
      have h3 := h3 rfl
      simp only [map_cons, sum_cons] at h3
      refine ⟨by simpa [Thread.step] using h1, c.steps, fun c' p e => ?_, fun e => by simp [Thread.step] at e⟩
      simp only [Thread.step, Option.some.injEq, Prod.mk.injEq] at e
      obtain ⟨rfl, rfl⟩ := e
      refine ⟨c.prog_within, ?_⟩
      simp only [Thread.step]
      omega
  | some (c, p), h1, h2, h3 =>
    obtain ⟨hw, hn⟩ := h2 c p rfl
    have hcall : cs = (log.map (·.1)).reverse ++ [c] ++ todo := by simpa using h1
    have gen : 1 ≤ m → (Thread.mk todo (some (c, (p.step solve σ).1)) log).Left cs (n - 1) := by
      intro hm
      obtain ⟨m, rfl⟩ : ∃ m', m = m' + 1 := ⟨m - 1, by omega⟩
      refine ⟨by simpa using hcall, m, fun c' p' e => ?_, fun e => by simp at e⟩
      simp only [Option.some.injEq, Prod.mk.injEq] at e
      obtain ⟨rfl, rfl⟩ := e
      refine ⟨hw.step, ?_⟩
      show m + 1 + (todo.map fun c => c.steps + 2).sum ≤ n - 1
      omega
    cases p with
    | ret o =>
      refine ⟨by simpa [Thread.step] using hcall, m, fun c p e => by simp [Thread.step] at e, fun _ => ?_⟩
      show (todo.map fun c => c.steps + 2).sum ≤ n - 1
      omega
    | test k f => exact gen (by cases m; exacts [hw.elim, by omega])
    | solve k f => exact gen (by cases m; exacts [hw.elim, by omega])
    | store k Q f => exact gen (by cases m; exacts [hw.elim, by omega])
    | load k f => exact gen (by cases m; exacts [hw.elim, by omega])

theorem Thread.Left.done {cs : List SolveCall} {t : Thread R} (h : t.Left cs 0) :
    t.cur = none ∧ t.todo = [] ∧ (t.log.map (·.1)).reverse = cs := by
  obtain ⟨todo, cur, log⟩ := t
  obtain ⟨h1, m, h2, h3⟩ := h
  simp only at h1 h2 h3
  have hc : cur = none := by
    cases cur with
    | none => rfl
    | some cp => have := (h2 cp.1 cp.2 rfl).2; omega
  have ht : todo = [] := by
    cases todo with
    | nil => rfl
    | cons c t => have := h3 hc; simp at this
  subst hc ht
  exact ⟨rfl, rfl, by simpa using h1.symm⟩

theorem Procs.run_left (schedule : List ℕ) : ∀ {P : Procs R} {i : ℕ} {cs : List SolveCall} {n : ℕ} {t : Thread R}, P.threads[i]? = some t →
    t.Left cs n → ∃ t', (P.run W gens solve schedule).threads[i]? = some t' ∧ t'.Left cs (n - schedule.count i) := by
  induction schedule with
  | nil => exact fun h1 h2 => ⟨_, h1, h2⟩
  | cons j s ih =>
    intro P i cs n t h1 h2
    have hrun : P.run W gens solve (j :: s) = (P.step W gens solve j).run W gens solve s := rfl
    rw [hrun]
    by_cases e : j = i
    · subst e
      have h3 : (P.step W gens solve j).threads[j]? = some (t.step W gens solve P.shared).1 := by
        unfold Procs.step
        rw [h1]
        have : j < P.threads.length := (List.getElem?_eq_some_iff.1 h1).1
        simp [this]
      obtain ⟨t', h4, h5⟩ := ih h3 (h2.step P.shared)
      refine ⟨t', h4, ?_⟩
      rw [count_cons_self, show n - (s.count j + 1) = n - 1 - s.count j by omega]
      exact h5
    · have h3 : (P.step W gens solve j).threads[i]? = some t := by
        unfold Procs.step
        cases hj : P.threads[j]? with
        | none => exact h1
        | some t' => simp only; rw [getElem?_set_ne e]; exact h1
      obtain ⟨t', h4, h5⟩ := ih h3 h2
      exact ⟨t', h4, by rw [count_cons_of_ne e]; exact h5⟩

theorem Thread.left_start (cs : List SolveCall) : (⟨cs, none, []⟩ : Thread R).Left cs (cs.map fun c => c.steps + 2).sum :=
  ⟨rfl, 0, fun c p e => by simp at e, fun _ => le_refl _⟩

/-! ### A single thread -/

/-- The outcomes of a history of calls, latest first. -/
def sessionLog (W : World) (gens : Gid → GenSet R) (solve : ℕ → LinOp R → Py (DMat R)) : List SolveCall → SolveSt R →
    List (SolveCall × Py (LinOp R)) → List (SolveCall × Py (LinOp R))
  | [], _, l => l
  | c :: t, σ, l => sessionLog W gens solve t (c.run W gens solve σ).2 ((c, (c.run W gens solve σ).1) :: l)

theorem Procs.run_append (P : Procs R) (a b : List ℕ) : P.run W gens solve (a ++ b) = (P.run W gens solve a).run W gens solve b := by
  unfold Procs.run; rw [foldl_append]

/-- An uninterrupted call. -/
theorem Procs.run_call (todo : List SolveCall) (log : List (SolveCall × Py (LinOp R))) (c : SolveCall) (p : Prog R (LinOp R)) : ∀ σ : SolveSt R,
    ∃ n, (Procs.mk [⟨todo, some (c, p), log⟩] σ).run W gens solve (replicate n 0) =
      ⟨[⟨todo, none, (c, (p.exec solve σ).1) :: log⟩], (p.exec solve σ).2⟩ := by
  induction p with
  | ret o => exact fun σ => ⟨1, rfl⟩
  | test k f ih => intro σ; obtain ⟨n, hn⟩ := ih _ σ; exact ⟨n + 1, hn⟩
  | solve C f ih => intro σ; obtain ⟨n, hn⟩ := ih _ _; exact ⟨n + 1, hn⟩
  | store k Q f ih => intro σ; obtain ⟨n, hn⟩ := ih _; exact ⟨n + 1, hn⟩
  | load k f ih => intro σ; obtain ⟨n, hn⟩ := ih _ σ; exact ⟨n + 1, hn⟩

theorem Procs.run_single : ∀ (cs : List SolveCall) (σ : SolveSt R) (log : List (SolveCall × Py (LinOp R))),
    ∃ n, (Procs.mk [⟨cs, none, log⟩] σ).run W gens solve (replicate n 0) =
      ⟨[⟨[], none, sessionLog W gens solve cs σ log⟩], session W gens solve cs σ⟩
  | [], σ, log => ⟨0, rfl⟩
  | c :: t, σ, log => by
    obtain ⟨n, hn⟩ := Procs.run_call (W := W) (gens := gens) (solve := solve) t log c (c.prog W gens) σ
    rw [c.prog_exec] at hn
    obtain ⟨m, hm⟩ := Procs.run_single t (c.run W gens solve σ).2 ((c, (c.run W gens solve σ).1) :: log)
    refine ⟨1 + (n + m), ?_⟩
    rw [replicate_add, replicate_add, Procs.run_append, Procs.run_append]
    rw [show (Procs.mk [⟨c :: t, none, log⟩] σ).run W gens solve (replicate 1 0) = ⟨[⟨t, some (c, c.prog W gens), log⟩], σ⟩ from rfl, hn, hm]
    rfl

theorem Procs.run_idle {log : List (SolveCall × Py (LinOp R))} {σ : SolveSt R} (n : ℕ) :
    (Procs.mk [⟨[], none, log⟩] σ).run W gens solve (replicate n 0) = ⟨[⟨[], none, log⟩], σ⟩ := by
  induction n with
  | zero => rfl
  | succ n ih => exact ih

end Verif
