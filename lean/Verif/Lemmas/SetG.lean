import Verif.Spec.Layers
import Verif.Lemmas.ClassSingle
import Verif.Lemmas.Solver

/-! Changing the attribute `Scalar.G` changes nothing for representations of one group. -/
namespace Verif
open List

variable {W : World} {g : Gid} {N : ℕ} {x : Option Gid}

theorem setG_asize (k : ℕ) (h : Gid) : (W.setG x).asize k h = W.asize k h := rfl
theorem setG_asz (a : Atom) : a.size (W.setG x) = a.size W := rfl
theorem setG_fsz (a : Fac) : a.size (W.setG x) = a.size W := rfl
theorem setG_ksz (k : Key) : k.size (W.setG x) = k.size W := rfl
theorem setG_ssz (s : SRep) : s.size (W.setG x) = s.size W := rfl
theorem setG_rsz (r : Rep) : r.size (W.setG x) = r.size W := rfl
theorem setG_kbase (k : Key) : k.base (W.setG x) = k.base W := rfl
theorem setG_rkeys (r : Rep) : r.keys (W.setG x) = r.keys W := rfl
theorem setG_alt : Atom.lt (W.setG x) = Atom.lt W := rfl
theorem setG_flt : Fac.lt (W.setG x) = Fac.lt W := rfl

theorem setG_pwf (p : PRep) : p.WF (W.setG x) ↔ p.WF W :=
  ⟨fun h => ⟨h.cnt, h.grp, h.perm⟩, fun h => ⟨h.cnt, h.grp, h.perm⟩⟩

theorem setG_fwf (f : Fac) : f.WF (W.setG x) ↔ f.WF W := by
  cases f with
  | atom a => exact Iff.rfl
  | prod p => exact setG_pwf p

theorem setG_kwf (k : Key) : k.WF (W.setG x) ↔ k.WF W := by
  cases k with
  | scalar => exact Iff.rfl
  | fac f => exact setG_fwf f
  | dprod d =>
    exact ⟨fun h => ⟨h.cnt, h.one, fun f hf => (setG_fwf f).1 (h.key f hf), h.hash, h.perm⟩,
      fun h => ⟨h.cnt, h.one, fun f hf => (setG_fwf f).2 (h.key f hf), h.hash, h.perm⟩⟩

theorem setG_letter (a : Atom) : (W.setG x).Letter g a ↔ W.Letter g a := Iff.rfl

theorem setG_single (k : Key) : (W.setG x).Single g N k ↔ W.Single g N k := by
  unfold World.Single
  cases k with
  | scalar => exact Iff.rfl
  | dprod d => exact Iff.rfl
  | fac f =>
    cases f with
    | atom a => exact Iff.rfl
    | prod p =>
      dsimp only
      rw [setG_pwf]
      exact Iff.rfl

theorem World.SingleOK.setG (h : W.SingleOK g N) (hx : SgOK W g x) : (W.setG x).SingleOK g N :=
  ⟨h.pos, fun a b ha hb e => h.inj a b ((setG_single a).1 ha) ((setG_single b).1 hb) e, hx⟩

theorem World.SingleOK.sgOK (h : W.SingleOK g N) : SgOK W g W.scalarG := h.sG
theorem SgOK.some (W : World) (g : Gid) : SgOK W g (some g) := fun h e => by rw [Option.some.inj e]

theorem setG_lt (h : W.SingleOK g N) (hx : SgOK W g x) {a b : Key} (ha : W.Single g N a) (hb : W.Single g N b) :
    Key.lt (W.setG x) a b = Key.lt W a b := by
  rw [Bool.eq_iff_iff, World.Single.lt_iff (h.setG hx) ((setG_single a).2 ha) ((setG_single b).2 hb), World.Single.lt_iff h ha hb]
  exact Iff.rfl

theorem SortedCounter.congr {K : Type} {lt lt' : K → K → Bool} {c : Counter K} (e : ∀ a ∈ c.keys, ∀ b ∈ c.keys, lt' a b = lt a b)
    (h : SortedCounter lt c) : SortedCounter lt' c where
  ne := h.ne
  st := ⟨fun a ha => by rw [e a ha a ha]; exact h.st.irrefl a ha,
    fun a ha b hb d hd => by rw [e a ha b hb, e b hb d hd, e a ha d hd]; exact h.st.trans a ha b hb d hd,
    fun a ha b hb => by rw [e a ha b hb, e b hb a ha]; exact h.st.total a ha b hb⟩
  sorted := h.sorted.imp_of_mem fun {a b} ha hb hab => by rw [e a ha b hb]; exact hab
  pos := h.pos

theorem Rep.Over.setG (h : W.SingleOK g N) (hx : SgOK W g x) {r : Rep} (hr : r.Over W g N) : r.Over (W.setG x) g N := by
  refine ⟨?_, fun k hk => (setG_single k).2 (hr.key k hk)⟩
  match r, hr with
  | .key k, hr => exact (setG_kwf k).2 hr.wf
  | .sum s, hr =>
    have hw : s.WF W := hr.wf
    exact ⟨hw.cnt.congr fun a ha b hb => setG_lt h hx (hr.key a ha) (hr.key b hb),
      fun k hk => ⟨(setG_kwf k).2 (hw.key k hk).1, (hw.key k hk).2⟩, hw.perm⟩

/-- The other direction. -/
theorem Rep.Over.unsetG (h : W.SingleOK g N) (hx : SgOK W g x) {r : Rep} (hr : r.Over (W.setG x) g N) : r.Over W g N := by
  refine ⟨?_, fun k hk => (setG_single k).1 (hr.key k hk)⟩
  match r, hr with
  | .key k, hr => exact (setG_kwf k).1 hr.wf
  | .sum s, hr =>
    have hw : s.WF (W.setG x) := hr.wf
    exact ⟨hw.cnt.congr fun a ha b hb => (setG_lt h hx ((setG_single a).1 (hr.key a ha)) ((setG_single b).1 (hr.key b hb))).symm,
      fun k hk => ⟨(setG_kwf k).1 (hw.key k hk).1, (hw.key k hk).2⟩, hw.perm⟩

section
variable {R : Type} [CommRing R]

theorem setG_sized {I : Interp R} : I.Sized (W.setG x) ↔ I.Sized W := ⟨fun h => ⟨h.1, h.2⟩, fun h => ⟨h.1, h.2⟩⟩
theorem setG_dual {I : Interp R} : I.Dual (W.setG x) ↔ I.Dual W :=
  ⟨fun h => ⟨⟨h.vec, h.dual⟩, h.inv, h.orth⟩, fun h => ⟨⟨h.vec, h.dual⟩, h.inv, h.orth⟩⟩

theorem setG_gsized {gens : Gid → GenSet R} : GenSet.Sized (W.setG x) gens ↔ GenSet.Sized W gens :=
  ⟨fun h g => ⟨fun i hi => setG_sized.1 ((h g).1 i hi), fun i hi => setG_sized.1 ((h g).2 i hi)⟩,
    fun h g => ⟨fun i hi => setG_sized.2 ((h g).1 i hi), fun i hi => setG_sized.2 ((h g).2 i hi)⟩⟩

theorem setG_constraint (gens : Gid → GenSet R) (f : Fac) : f.constraintMatrix (W.setG x) gens = f.constraintMatrix W gens := rfl

theorem setG_solverOK [StarRing R] {gens : Gid → GenSet R} {solve} : SolverOK (W.setG x) gens solve ↔ SolverOK W gens solve := Iff.rfl
theorem setG_solverRuns {gens : Gid → GenSet R} {solve} : SolverRuns (W.setG x) gens solve ↔ SolverRuns W gens solve := Iff.rfl
theorem setG_cacheOK [StarRing R] {gens : Gid → GenSet R} {σ} : CacheOK (W.setG x) gens σ ↔ CacheOK W gens σ := Iff.rfl
theorem setG_fixed {gens : Gid → GenSet R} {r : Rep} {v} : r.Fixed (W.setG x) gens v ↔ r.Fixed W gens v := Iff.rfl

end
end Verif
