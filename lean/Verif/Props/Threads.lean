import Verif.Lemmas.Threads
import Verif.Props.Solver

/-!
# Threads sharing the solver cache (C107)

A process runs any number of threads, each of which makes any sequence of calls `rep.equivariant_basis()` and
`rep.equivariant_projector()`.  The methods test the shared cache, solve, store and read back without a lock; a
`schedule` says which thread takes the next step.
-/
namespace Verif
open List
variable {W : World} {R : Type} [CommRing R] {gens : Gid → GenSet R} {solve : ℕ → LinOp R → Py (DMat R)}

theorem solution_of_fresh : ∀ e ∈ (freshSt : SolveSt R).cache, Solution W gens solve e.1 e.2 := fun e he => by simp [freshSt] at he

theorem outcome_of_log {calls : List (List SolveCall)} {schedule : List ℕ} {t : Thread R}
    (ht : t ∈ ((Procs.start calls freshSt).run W gens solve schedule).threads) {e : SolveCall × Py (LinOp R)} (he : e ∈ t.log) :
    e.1.Outcome W gens solve e.2 :=
  ((Procs.run_inv schedule (Procs.start_inv calls solution_of_fresh)).threads t ht).log e he

section
variable [StarRing R]

/-- **C107.** Whatever the threads call and however their steps interleave, every `equivariant_basis()` that returned
returned an orthonormal basis of the invariant vectors, and none raised (in particular no `KeyError`), unless
the numerical routine did. -/
theorem C107_basis (hs : GenSet.Sized W gens) (hsol : SolverOK W gens solve) (calls : List (List SolveCall)) (schedule : List ℕ)
    {t : Thread R} (ht : t ∈ ((Procs.start calls freshSt).run W gens solve schedule).threads) {r : Rep} {o : Py (LinOp R)}
    (he : (SolveCall.basis r, o) ∈ t.log) (hw : r.WF W) (hone : r.OnePerGroup) :
    (∀ L, o = .ok L → OrthoBasis (r.size W) L.sem (r.Fixed W gens)) ∧ (SolverRuns W gens solve → ∃ L, o = .ok L) := by
  have h := outcome_of_log ht he
  exact ⟨fun L hL => Rep.outcome_basis hs hsol hw hone (hL ▸ h), fun htot => SolveCall.outcome_runs (c := .basis r) hs htot hw h⟩

/-- **C107.** Over the reals every `equivariant_projector()` that returned returned the orthogonal projector onto the invariant
vectors, and none raised unless the numerical routine did. -/
theorem C107_projector (hstar : ∀ x : R, star x = x) (hs : GenSet.Sized W gens) (hsol : SolverOK W gens solve)
    (calls : List (List SolveCall)) (schedule : List ℕ)
    {t : Thread R} (ht : t ∈ ((Procs.start calls freshSt).run W gens solve schedule).threads) {r : Rep} {o : Py (LinOp R)}
    (he : (SolveCall.projector r, o) ∈ t.log) (hw : r.WF W) (hone : r.OnePerGroup) :
    (∀ L, o = .ok L → IsProjector (r.size W) L.sem (r.Fixed W gens)) ∧ (SolverRuns W gens solve → ∃ L, o = .ok L) := by
  have h := outcome_of_log ht he
  refine ⟨fun L hL => ?_, fun htot => SolveCall.outcome_runs (c := .projector r) hs htot hw h⟩
  obtain ⟨Q, hQ, e⟩ := Rep.outcome_outer hs hsol hw hone (hL ▸ h)
  rw [e]
  exact hQ.isProjector fun i j => hstar _

omit [StarRing R] in
theorem DMat.ext_of_mulVec {n : ℕ} {A B : DMat R} (hA : A.IsSq n) (hB : B.IsSq n) (h : ∀ v : List R, v.length = n → A.mulVec v = B.mulVec v) :
    A = B := by
  refine DMat.ext (by rw [hA.1, hB.1]) (by rw [hA.2, hB.2]) fun i j hi hj => ?_
  rw [hA.1] at hi
  rw [hA.2] at hj
  have key : ∀ C : DMat R, C.IsSq n → (C.mulVec ((range n).map fun k => if k = j then 1 else 0)).getD i 0 = C.e i j := by
    intro C hC
    rw [DMat.getD_mulVec (by rw [hC.1]; exact hi), hC.2, Finset.sum_eq_single j]
    · simp [hj]
    · intro k hk hkj
      have := Finset.mem_range.1 hk
      simp [this, hkj]
    · intro h; exact absurd (Finset.mem_range.2 hj) h
  rw [← key A hA, ← key B hB, h _ (by simp)]

/-- There is only one orthogonal projector. -/
theorem IsProjector.unique {n : ℕ} {P P' : DMat R} {F : List R → Prop} (h : IsProjector n P F) (h' : IsProjector n P' F) : P = P' := by
  have key : ∀ {P P' : DMat R}, IsProjector n P F → IsProjector n P' F → P'.mul P = P := by
    intro P P' h h'
    refine DMat.ext_of_mulVec (n := n) ⟨h'.sq.1, h.sq.2⟩ h.sq fun v hv => ?_
    rw [DMat.mulVec_mul _ _ _ (by rw [h'.sq.2, h.sq.1])]
    exact (h'.fix _ (by simp [h.sq.1])).1 (h.range v hv)
  have h1 := congrArg DMat.conjTranspose (key h h')
  rw [DMat.conjTranspose_mul _ _ (by rw [h'.sq.2, h.sq.1]), h.herm, h'.herm, key h' h] at h1
  exact h1.symm

/-- **C107.** Over the reals `equivariant_projector()` returns the same matrix in every thread, under every schedule,
in every program, and for every correct numerical routine. -/
theorem C107_projector_agree (hstar : ∀ x : R, star x = x) (hs : GenSet.Sized W gens) {solve solve' : ℕ → LinOp R → Py (DMat R)}
    (hsol : SolverOK W gens solve) (hsol' : SolverOK W gens solve') (calls calls' : List (List SolveCall)) (schedule schedule' : List ℕ)
    {t t' : Thread R} (ht : t ∈ ((Procs.start calls freshSt).run W gens solve schedule).threads)
    (ht' : t' ∈ ((Procs.start calls' freshSt).run W gens solve' schedule').threads) {r : Rep} {L L' : LinOp R}
    (he : (SolveCall.projector r, .ok L) ∈ t.log) (he' : (SolveCall.projector r, .ok L') ∈ t'.log) (hw : r.WF W) (hone : r.OnePerGroup) :
    L.sem = L'.sem :=
  ((C107_projector hstar hs hsol calls schedule ht he hw hone).1 L rfl).unique
    ((C107_projector hstar hs hsol' calls' schedule' ht' he' hw hone).1 L' rfl)

end

/-- **C107.** If the numerical routine is deterministic, every call in every thread has the outcome (matrix or exception) it has
in a fresh process with no other threads. -/
theorem C107_deterministic (s : LinOp R → Py (DMat R)) (calls : List (List SolveCall)) (schedule : List ℕ)
    {t : Thread R} (ht : t ∈ ((Procs.start calls freshSt).run W gens (fun _ => s) schedule).threads) {c : SolveCall} {o : Py (LinOp R)}
    (he : (c, o) ∈ t.log) : o = (c.run W gens (fun _ => s) freshSt).1 :=
  c.outcome_unique (outcome_of_log ht he) (c.run_outcome solution_of_fresh)

/-- **C107.** No thread is ever blocked: a thread that is scheduled often enough, counted in its own steps only, has
made all its calls, in order, whatever the other threads do in between. -/
theorem C107_completes (calls : List (List SolveCall)) (schedule : List ℕ) {i : ℕ} {cs : List SolveCall} (hi : calls[i]? = some cs)
    (hn : (cs.map fun c => c.steps + 2).sum ≤ schedule.count i) :
    ∃ t, ((Procs.start calls (freshSt : SolveSt R)).run W gens solve schedule).threads[i]? = some t ∧
      t.cur = none ∧ t.todo = [] ∧ (t.log.map (·.1)).reverse = cs := by
  have h0 : (Procs.start calls (freshSt : SolveSt R)).threads[i]? = some ⟨cs, none, []⟩ := by simp [Procs.start, hi]
  obtain ⟨t, h1, h2⟩ := Procs.run_left (W := W) (gens := gens) (solve := solve) schedule h0 (Thread.left_start cs)
  rw [Nat.sub_eq_zero_of_le hn] at h2
  exact ⟨t, h1, h2.done⟩

/-- **C107.** A single thread behaves as the sequential model of **C20**–**C24**: the outcomes of its calls and the final
cache are those of `session`. -/
theorem C107_single_thread (cs : List SolveCall) (σ : SolveSt R) : ∃ n, ∀ m, n ≤ m →
    (Procs.start [cs] σ).run W gens solve (replicate m 0) =
      ⟨[⟨[], none, sessionLog W gens solve cs σ []⟩], session W gens solve cs σ⟩ := by
  obtain ⟨n, hn⟩ := Procs.run_single (W := W) (gens := gens) (solve := solve) cs σ []
  refine ⟨n, fun m hm => ?_⟩
  obtain ⟨k, rfl⟩ := Nat.exists_eq_add_of_le hm
  rw [replicate_add, Procs.run_append]
  exact (congrArg (fun P => Procs.run W gens solve P (replicate k 0)) hn).trans (Procs.run_idle k)

/-! ### The basis does depend on the schedule -/

/-- Two threads that both miss the cache: the solution stored last replaces the one already handed out. -/
theorem race {f c : Fac} {p : List ℕ} {C : LinOp R} {Q0 Q1 : DMat R} (hc : f.canon W = .ok (c, p)) (hC : c.constraintMatrix W gens = .ok C)
    (h0 : solve 0 C = .ok Q0) (h1 : solve 1 C = .ok Q1) (b : SolveCall) (hb : b = .basis (.key (.fac f))) :
    ∃ t, ((Procs.start [[b, b], [b]] freshSt).run W gens solve [0, 0, 1, 1, 0, 0, 0, 0, 1, 1, 0, 0, 0, 0]).threads[0]? = some t ∧
      t.log = [(b, .ok (.lazy (Q1.pick (argsort p) (range Q1.cols)))), (b, .ok (.lazy (Q0.pick (argsort p) (range Q0.cols))))] := by
  have hp : b.prog W gens = (Prog.test c fun hit => if hit then (Prog.load c fun
      | .error e => .ret (.error e)
      | .ok Q => .ret (.ok (.lazy (Q.pick (argsort p) (range Q.cols))))) else Prog.solve C fun
        | .error e => .ret (.error e)
        | .ok Q => .store c Q (Prog.load c fun
          | .error e => .ret (.error e)
          | .ok Q => .ret (.ok (.lazy (Q.pick (argsort p) (range Q.cols)))))) := by
    subst hb
    simp only [SolveCall.prog, Rep.basisProg, Key.basisProg, Fac.basisProg, hc, hC, Prog.map, Prog.andThen]
    congr 1
    funext hit
    cases hit with
    | true =>
      simp only [if_true, Prog.andThen]
      congr 1
      funext o
      cases o <;> rfl
    | false =>
      simp only [Bool.false_eq_true, if_false, Prog.andThen]
      congr 1
      funext o
      cases o with
      | error e => rfl
      | ok Q =>
        simp only [Prog.andThen]
        congr 2
        funext o
        cases o <;> rfl
  simp [Procs.run, Procs.step, Procs.start, Thread.step, hp, Prog.step, SolveSt.get, freshSt, h0, h1]

theorem OrthoBasis.neg [StarRing R] {n : ℕ} {Q : DMat R} {F : List R → Prop} (h : OrthoBasis n Q F) : OrthoBasis n Q.neg F := by
  have hc : Q.neg.conjTranspose = Q.conjTranspose.neg :=
    DMat.ext rfl rfl fun i j _ _ => by rw [DMat.conjTranspose_e, DMat.neg_e, DMat.neg_e, DMat.conjTranspose_e, star_neg]
  refine ⟨h.rows, ?_, fun v hv => (h.span v hv).trans ?_⟩
  · have : Q.neg.conjTranspose.mul Q.neg = Q.conjTranspose.mul Q := by
      refine DMat.ext rfl rfl fun i j hi hj => ?_
      rw [DMat.mul_e (A := Q.neg.conjTranspose) (B := Q.neg) hi hj, DMat.mul_e (A := Q.conjTranspose) (B := Q) hi hj]
      refine Finset.sum_congr rfl fun k _ => ?_
      rw [hc, DMat.neg_e, DMat.neg_e, neg_mul_neg]
    rw [this]; exact h.orth
  · have key : ∀ a : List R, Q.neg.mulVec (a.map fun x => -x) = Q.mulVec a := by
      intro a
      refine DMat.vec_ext (by simp [DMat.neg, DMat.of]) fun i hi => ?_
      have hi : i < Q.rows := by simpa [DMat.neg, DMat.of] using hi
      rw [DMat.getD_mulVec (A := Q.neg) hi, DMat.getD_mulVec (A := Q) hi]
      refine Finset.sum_congr rfl fun k _ => ?_
      have : (a.map fun x => -x).getD k 0 = - a.getD k 0 := by
        by_cases hk : k < a.length
        · rw [getD_eq_getElem _ _ (by simpa using hk), getD_eq_getElem _ _ hk, getElem_map]
        · rw [getD_eq_default _ _ (by simpa using hk), getD_eq_default _ _ (by simpa using hk), neg_zero]
      rw [this, DMat.neg_e, neg_mul_neg]
    constructor
    · rintro ⟨a, ha, rfl⟩
      exact ⟨a.map fun x => -x, by simpa using ha, key a⟩
    · rintro ⟨a, ha, rfl⟩
      refine ⟨a.map fun x => -x, by simpa using ha, ?_⟩
      rw [← key]
      simp

/-- **C107**: the matrix `equivariant_basis()` returns does depend on the schedule, and within one thread two successive calls on the same representation
may return different matrices (in a single thread they return the same matrix, **C24**): both threads miss the cache, and the solution
of the slower one replaces the solution of the faster one.  Here the routine is correct but not deterministic: its
second answer has the opposite sign. -/
theorem C107_counterexample_basis : ∃ solve : ℕ → LinOp ℝ → Py (DMat ℝ),
    SolverOK exW (embedO1 0) solve ∧ SolverRuns exW (embedO1 0) solve ∧
    ∃ schedule t L L', ((Procs.start [[.basis repV3, .basis repV3], [.basis repV3]] freshSt).run exW (embedO1 0) solve schedule).threads[0]? = some t ∧
      t.log = [(.basis repV3, .ok L'), (.basis repV3, .ok L)] ∧ L.sem ≠ L'.sem := by
  obtain ⟨s, hs1, hs2⟩ := exists_solver ℝ
  refine ⟨fun n C => if n = 0 then s C else (s C).map DMat.neg, ?_, ?_, ?_⟩
  · intro n f C Q hC hQ
    beta_reduce at hQ
    by_cases hn : n = 0
    · rw [if_pos hn] at hQ; exact hs1 exW (embedO1 0) 0 f C Q hC hQ
    · rw [if_neg hn] at hQ
      cases hQ' : s C with
      | error e => rw [hQ'] at hQ; cases hQ
      | ok Q' =>
        rw [hQ'] at hQ
        injection hQ with hQ
        rw [← hQ]
        exact (hs1 exW (embedO1 0) 0 f C Q' hC hQ').neg
  · intro n f C hC
    beta_reduce
    obtain ⟨Q, hQ⟩ := hs2 C
    by_cases hn : n = 0
    · exact ⟨Q, by rw [if_pos hn, hQ]⟩
    · exact ⟨Q.neg, by rw [if_neg hn, hQ]; rfl⟩
  · have hf : (Fac.atom (.vec 0 (some 3))).WF exW := repV3_wf
    obtain ⟨C, hC, -⟩ := Fac.constraint_spec (embedO1_sized 0) hf.base (show ((Fac.atom (.vec 0 (some 3))).base exW).G = some 3 by rw [Fac.G_base]; rfl)
    obtain ⟨Q, hQ⟩ := hs2 C
    obtain ⟨t, h1, h2⟩ := race (W := exW) (gens := embedO1 0) (solve := fun n C => if n = 0 then s C else (s C).map DMat.neg) (Q0 := Q) (Q1 := Q.neg)
      (Fac.canon_wf hf) hC hQ (by simp [hQ, Except.map]) (.basis repV3) rfl
    refine ⟨_, t, _, _, h1, h2, fun e => ?_⟩
    -- the first matrix is a basis of a line, so it is not its own negative
    have hb : OrthoBasis 2 (Q.pick (argsort ((Fac.atom (.vec 0 (some 3))).permOf exW)) (range Q.cols)) (repV3.Fixed exW (embedO1 0)) := by
      refine Fac.outcome_basis (solve := fun _ => s) (embedO1_sized 0) (hs1 _ _) hf ?_
      unfold Fac.Outcome
      rw [Fac.canon_wf hf]
      simp only [hC]
      exact ⟨0, by rw [hQ]; rfl⟩
    have he : ∀ v : List ℝ, (Q.pick (argsort ((Fac.atom (.vec 0 (some 3))).permOf exW)) (range Q.cols)).mulVec v =
        (Q.neg.pick (argsort ((Fac.atom (.vec 0 (some 3))).permOf exW)) (range Q.neg.cols)).mulVec v := fun v => congrArg (DMat.mulVec · v) e
    generalize hB : Q.pick (argsort ((Fac.atom (.vec 0 (some 3))).permOf exW)) (range Q.cols) = B at hb he
    have hneg : B = B.neg := by
      rw [← hB]
      refine Eq.trans (show _ = Q.neg.pick (argsort ((Fac.atom (.vec 0 (some 3))).permOf exW)) (range Q.neg.cols) from e) ?_
      refine DMat.ext rfl rfl fun i j hi hj => ?_
      rw [DMat.neg_e]
      refine (DMat.of_e hi hj).trans ?_
      rw [DMat.neg_e]
      exact congrArg Neg.neg (DMat.of_e (f := fun i j => Q.e ((argsort ((Fac.atom (.vec 0 (some 3))).permOf exW)).getD i 0) ((range Q.cols).getD j 0)) hi hj).symm
    have hzero : ∀ i j, B.e i j = 0 := fun i j => by
      have := congrArg (fun M : DMat ℝ => M.e i j) hneg
      simp only [DMat.neg_e] at this
      linarith
    obtain ⟨a, -, ha⟩ := (hb.span [0, 1] rfl).1 ((embedO1_fixed 0 _).2 (by rw [embedO1_eq.1, sq2_mulVec]; norm_num))
    have h3 := DMat.getD_mulVec (A := B) (v := a) (i := 1) (by rw [hb.rows]; omega)
    rw [ha] at h3
    simp [hzero] at h3

/-- The hypotheses of **C107** are met by two threads whose calls interleave; both calls complete. -/
example : ∃ solve : ℕ → LinOp ℝ → Py (DMat ℝ), GenSet.Sized exW (embedO1 0) ∧ SolverOK exW (embedO1 0) solve ∧ SolverRuns exW (embedO1 0) solve ∧
    repV3.WF exW ∧ repV3.OnePerGroup ∧
    ∃ t, ((Procs.start [[.projector repV3], [.basis repV3, .projector repV3]] freshSt).run exW (embedO1 0) solve
      [1, 0, 0, 1, 1, 0, 1, 0, 1, 0, 0, 1, 1, 1, 1, 1, 1, 1, 1]).threads[1]? = some t ∧ ∃ o o', t.log = [(.projector repV3, o), (.basis repV3, o')] := by
  obtain ⟨s, h1, h2⟩ := exists_solver ℝ
  refine ⟨fun _ => s, embedO1_sized 0, h1 _ _, fun _ _ C _ => h2 C, repV3_wf, trivial, ?_⟩
  obtain ⟨t, ht, -, -, hl⟩ := C107_completes (W := exW) (gens := embedO1 0) (solve := fun _ => s)
    [[.projector repV3], [.basis repV3, .projector repV3]] [1, 0, 0, 1, 1, 0, 1, 0, 1, 0, 0, 1, 1, 1, 1, 1, 1, 1, 1] (i := 1) rfl (by decide)
  refine ⟨t, ht, ?_⟩
  generalize t.log = l at hl
  match l, hl with
  | [(a, o), (b, o')], hl => simp at hl; exact ⟨o, o', by rw [hl.1, hl.2]⟩
  | [], hl => simp at hl
  | [_], hl => simp at hl
  | _ :: _ :: _ :: _, hl => have := congrArg length hl; simp at this

end Verif
