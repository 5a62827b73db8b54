import Verif.Props.UniformRep
import Verif.Lemmas.Network

/-! The arguments of `EMLP`: instantiating the representations and allocating the channels. -/
namespace Verif
open List
variable {W : World} {g : Gid} {N : ℕ}

theorem setG_keyCall (x G sg : Option Gid) (k : Key) : Key.call (W.setG x) G sg k = Key.call W G sg k := by
  cases k with
  | scalar => rfl
  | fac f =>
    cases f with
    | atom a => cases a <;> rfl
    | prod p => rfl
  | dprod d => rfl

theorem setG_callItems (x G : Option Gid) : ∀ (c acc : Counter Key) (sg : Option Gid),
    callItems (W.setG x) G sg acc c = callItems W G sg acc c
  | [], _, _ => rfl
  | (k, n) :: t, acc, sg => by
    simp only [callItems, setG_keyCall]
    cases Key.call W G sg k with
    | error e => rfl
    | ok r => exact setG_callItems x G t _ _

theorem setG_setG (x y : Option Gid) : (W.setG x).setG y = W.setG y := rfl

mutual
theorem setG_call (x G : Option Gid) : ∀ (r : Rep) (sg : Option Gid), Rep.call (W.setG x) G sg r = Rep.call W G sg r
  | .key k, sg => by simp only [Rep.call, setG_keyCall]
  | .sum s, sg => by simp only [Rep.call, setG_callItems, setG_setG]
  | .dsum l, sg => by
    cases G with
    | none => simp only [Rep.call]
    | some h => simp only [Rep.call, setG_callList x (some h) l, setG_setG]
  | .dprod l, sg => by
    cases G with
    | none => simp only [Rep.call]
    | some h => simp only [Rep.call, setG_callList x (some h) l, setG_setG]
theorem setG_callList (x G : Option Gid) : ∀ (l : List Rep) (sg : Option Gid), Rep.callList (W.setG x) G sg l = Rep.callList W G sg l
  | [], sg => by simp only [Rep.callList]
  | r :: rs, sg => by
    simp only [Rep.callList, setG_call x G r]
    cases Rep.call W G sg r with
    | error e => rfl
    | ok y =>
      simp only [Bind.bind, Except.bind, setG_callList x G rs]
end

/-- Instantiating an argument. -/
theorem RepArg.call (hW : W.SingleOK g N) {e : Expr} {r : Rep} (h : RepArg W g N e r) {sg : Option Gid} (hs : SgOK W g sg) :
    ∃ r' sg', Rep.call (W.setG sg) (some g) sg r = .ok (r', sg') ∧ SgOK W g sg' ∧ r'.Over W g N ∧ r'.size W = e.dim W g ∧
      ∀ (R : Type) [CommRing R] (I : Interp R), I.Dual W → r'.mat I = (e.den g I).1 := by
  rw [setG_call]
  rcases h.val with h' | ⟨h1, h2⟩
  · obtain ⟨r0, q, e1, -, e3⟩ := C12_deferred hW h.ok h.bound
    rw [h'] at e1
    have := Except.ok.inj e1
    subst this
    obtain ⟨r', sg', f1, f2, f3, f4, -, f6⟩ := e3 sg hs
    exact ⟨r', sg', f1, f3, f2, f4, fun R _ I hI => (f6 R I hI).1⟩
  · obtain ⟨q, q1, q2, q3, q4, q5⟩ := Expr.eval_good hW e h.ok h.bound
    rw [h1] at q1
    have := Except.ok.inj q1
    subst this
    have hr : r.Over W g N := ⟨q2, q3⟩
    rcases hr.isSumOrKey with ⟨k, rfl⟩ | ⟨s, rfl⟩
    · have hk := hr.key (k.base W) (by simp [Rep.keys])
      have hsim := h2 (k.base W) (by simp [Rep.keys])
      have hb : k.base W = k := by
        match k, hsim with
        | .scalar, _ => rfl
        | .fac (.atom a), _ => rfl
        | .fac (.prod p), h => exact h.elim
        | .dprod d, h => exact h.elim
      rw [hb] at hk hsim
      obtain ⟨sg', c1, c2⟩ := (Key.call_same hk sg hs).1 hsim
      exact ⟨.key k, sg', by simp only [Rep.call]; rw [c1]; rfl, c2, hr, q4, q5⟩
    · obtain ⟨sg', c1, c2⟩ := (C13_same_group_partial hW hr hs).1 h2
      exact ⟨.sum s, sg', c1, c2, hr, q4, q5⟩

theorem Rep.gates_le (hW : W.SingleOK g N) {r : Rep} (h : r.Over W g N) : r.gates W ≤ r.size W := by
  have hle : ∀ l : List Key, (∀ k ∈ l, W.Single g N k) → gatesOf W l ≤ (l.map (Key.size W)).sum := by
    intro l
    induction l with
    | nil => intro _; simp [gatesOf]
    | cons k t ih =>
      intro hl
      have := ih fun q hq => hl q (by simp [hq])
      unfold gatesOf at this ⊢
      rw [countP_cons, map_cons, sum_cons]
      have h1 : 0 < k.size W := hW.keyClass.pos _ (hl k (by simp))
      split_ifs <;> omega
  match r, h with
  | .key k, h =>
    have := hle [k.base W] (by simpa [Rep.keys] using h.key)
    rw [map_cons, map_nil, sum_cons, sum_nil, Key.size_base] at this
    exact this
  | .sum s, h =>
    have := hle s.c.expand fun k hk => h.key k (Counter.mem_expand hk)
    rw [sum_map_expand] at this
    exact this

section
variable {R : Type} [CommRing R] [StarRing R] {gens : Gid → GenSet R} {solve : ℕ → LinOp R → Py (DMat R)} {rng : Rng} {fuel : ℕ}

/-- What instantiating the argument `r` yields. -/
def ArgOf (W : World) (g : Gid) (N : ℕ) (e : Expr) (r' : Rep) : Prop :=
  r'.Over W g N ∧ r'.size W = e.dim W g ∧ ∀ (R : Type) [CommRing R] (I : Interp R), I.Dual W → r'.mat I = (e.den g I).1

theorem RepArg.meets (hW : W.SingleOK g N) {e : Expr} {r : Rep} (h : RepArg W g N e r) :
    NetM.Meets W g gens (NetM.rep fun sg => Rep.call (W.setG sg) (some g) sg r : NetM R Rep) (ArgOf W g N e) := by
  refine NetM.Meets.rep fun x hx a y e => ?_
  obtain ⟨r', sg', h1, h2, h3, h4, h5⟩ := h.call hW hx
  rw [h1] at e
  obtain ⟨rfl, rfl⟩ := Prod.mk.inj (Except.ok.inj e)
  exact ⟨h2, h3, h4, h5⟩

theorem RepArg.runs (hW : W.SingleOK g N) {e : Expr} {r : Rep} (h : RepArg W g N e r) :
    NetM.Runs W g gens (NetM.rep fun sg => Rep.call (W.setG sg) (some g) sg r : NetM R Rep) := by
  refine NetM.Runs.rep fun x hx => ?_
  obtain ⟨r', sg', h1, -⟩ := h.call hW hx
  exact ⟨_, _, h1⟩

/-- What one item of `ch` yields. -/
def ItemOf (W : World) (g : Gid) (N b : ℕ) (c : ChItem) (n : ℕ) (r : Rep) : Prop :=
  r.Over W g N ∧ r.size W = n ∧ r.size W + r.gates W ≤ 2 * b ∧ ∀ m : ℤ, c = .int m → 2 ≤ n → r.CanonicalSum W

variable {b : ℕ} (hW : W.SingleOK g N) (hd : 2 ≤ W.d g) (hdN : W.d g ≤ N) (hrng : RngOK rng) (hbN : b ≤ N) (hbf : b < fuel)
include hW hd hdN hrng hbN hbf

theorem ChItem.Width.meets {c : ChItem} {n : ℕ} (h : c.Width W g N b n) :
    NetM.Meets W g gens (ChItem.parse W rng fuel g c : NetM R Rep) (ItemOf W g N b c n) := by
  cases h with
  | int n h1 hb =>
    simp only [ChItem.parse]
    refine NetM.Meets.bind NetM.Meets.draw fun t _ => NetM.Meets.rep fun x hx a y e => ?_
    obtain ⟨r, sg', e1, e2, e3, e4, e5⟩ := C37_uniform_ge_two hW hd hdN (hrng.binomial t) h1 (hb.trans hbN) (fuel := fuel) (by omega) hx
    rw [e1] at e
    obtain ⟨rfl, rfl⟩ := Prod.mk.inj (Except.ok.inj e)
    have := Rep.gates_le hW e3
    exact ⟨e2, e3, e4, by omega, fun _ _ => e5⟩
  | rep e r h hb =>
    simp only [ChItem.parse]
    intro σ hσ a σ' he
    obtain ⟨h1, h2, h3, -⟩ := h.meets hW σ hσ a σ' he
    have := Rep.gates_le hW h2
    exact ⟨h1, h2, h3, by omega, fun m hm => by cases hm⟩

theorem ChItem.Width.runs {c : ChItem} {n : ℕ} (h : c.Width W g N b n) :
    NetM.Runs W g gens (ChItem.parse W rng fuel g c : NetM R Rep) := by
  cases h with
  | int n h1 hb =>
    simp only [ChItem.parse]
    refine NetM.Runs.bind NetM.Runs.draw NetM.Meets.draw fun t _ => NetM.Runs.rep fun x hx => ?_
    obtain ⟨r, sg', e1, -⟩ := C37_uniform_ge_two hW hd hdN (hrng.binomial t) h1 (hb.trans hbN) (fuel := fuel) (by omega) hx
    exact ⟨_, _, e1⟩
  | rep e r h hb =>
    simp only [ChItem.parse]
    exact h.runs hW

/-- The code that computes the hidden representations. -/
def parseCh (W : World) (rng : Rng) (fuel : ℕ) (g : Gid) (L : ℕ) : Ch → NetM R (List Rep)
  | .one c => do
    let r ← ChItem.parse W rng fuel g c
    pure (replicate L r)
  | .list l => l.mapM (ChItem.parse W rng fuel g)

omit [StarRing R] hW hd hdN hrng hbN hbf in
theorem Emlp.init_eq (rin rout : Rep) (L : ℕ) (ch : Ch) : Emlp.init W gens solve rng fuel rin rout g ch L = (do
    let a ← NetM.rep fun sg => Rep.call (W.setG sg) (some g) sg rin
    let o ← NetM.rep fun sg => Rep.call (W.setG sg) (some g) sg rout
    let m ← parseCh W rng fuel g L ch
    Emlp.build W gens solve rng a m o) := by
  unfold Emlp.init
  cases ch <;> simp [parseCh]

/-- What it yields. -/
def MidsOf (W : World) (g : Gid) (N b : ℕ) (ch : Ch) (ws : List ℕ) (rs : List Rep) : Prop :=
  rs.map (Rep.size W) = ws ∧ (∀ r ∈ rs, r.Over W g N ∧ r.size W + r.gates W ≤ 2 * b) ∧ (ch.Ints → ∀ r ∈ rs, r.CanonicalSum W)

variable {L : ℕ} {ch : Ch} {ws : List ℕ} (hch : ch.Widths W g N b L ws)
include hch

theorem parseCh_meets : NetM.Meets W g gens (parseCh W rng fuel g L ch : NetM R (List Rep)) (MidsOf W g N b ch ws) := by
  cases hch with
  | one c n h =>
    refine NetM.Meets.bind (h.meets hW hd hdN hrng hbN hbf) fun r hr => NetM.Meets.pure ?_
    refine ⟨by rw [map_replicate, hr.2.1], fun q hq => ?_, fun hi q hq => ?_⟩
    · rw [(mem_replicate.1 hq).2]; exact ⟨hr.1, hr.2.2.1⟩
    · rw [(mem_replicate.1 hq).2]
      cases hi with
      | one m hm =>
        refine hr.2.2.2 m rfl ?_
        cases h; omega
  | list l ns h =>
    have hm : ∀ (l : List ChItem) (ws : List ℕ), Forall₂ (ChItem.Width W g N b) l ws →
        NetM.Meets W g gens (l.mapM (ChItem.parse W rng fuel g) : NetM R (List Rep)) (MidsOf W g N b (.list l) ws) := by
      intro l ws h
      induction h with
      | nil => rw [mapM_nil]; exact NetM.Meets.pure ⟨rfl, by simp, by simp⟩
      | @cons c n l ws h _ ih =>
        rw [mapM_cons]
        refine NetM.Meets.bind (h.meets hW hd hdN hrng hbN hbf) fun r hr => ?_
        refine NetM.Meets.bind ih fun rs hrs => NetM.Meets.pure ⟨by rw [map_cons, hr.2.1, hrs.1], ?_, ?_⟩
        · intro q hq
          rcases mem_cons.1 hq with rfl | hq
          · exact ⟨hr.1, hr.2.2.1⟩
          · exact hrs.2.1 q hq
        · intro hi q hq
          cases hi with
          | list _ hi =>
            rcases mem_cons.1 hq with rfl | hq
            · obtain ⟨m, hm, rfl⟩ := hi c mem_cons_self
              refine hr.2.2.2 m rfl ?_
              cases h; omega
            · exact hrs.2.2 (.list _ fun c hc => hi c (mem_cons_of_mem _ hc)) q hq
    exact hm l ws h

theorem parseCh_runs : NetM.Runs W g gens (parseCh W rng fuel g L ch : NetM R (List Rep)) := by
  cases hch with
  | one c n h =>
    exact NetM.Runs.bind (h.runs hW hd hdN hrng hbN hbf) (h.meets hW hd hdN hrng hbN hbf) fun r hr => NetM.Runs.pure
  | list l ns h =>
    refine NetM.Runs.mapM (P := fun c r => ∃ n, ItemOf W g N b c n r) l (fun c hc => ?_) fun c hc => ?_
    · obtain ⟨n, hn⟩ : ∃ n, ChItem.Width W g N b c n := by
        obtain ⟨i, hi, rfl⟩ := getElem_of_mem hc
        exact ⟨_, h.get hi (h.length_eq ▸ hi)⟩
      intro σ hσ a σ' he
      obtain ⟨h1, h2⟩ := hn.meets hW hd hdN hrng hbN hbf σ hσ a σ' he
      exact ⟨h1, n, h2⟩
    · obtain ⟨n, hn⟩ : ∃ n, ChItem.Width W g N b c n := by
        obtain ⟨i, hi, rfl⟩ := getElem_of_mem hc
        exact ⟨_, h.get hi (h.length_eq ▸ hi)⟩
      exact hn.runs hW hd hdN hrng hbN hbf

variable (hs : GenSet.Sized W gens) (hsol : SolverOK W gens solve) {ein eout : Expr} {rin rout : Rep} (hin : RepArg W g N ein rin)
  (hout : RepArg W g N eout rout) (hbi : ein.dim W g ≤ b) (hbo : eout.dim W g ≤ b) (hN : (2 * b) * (2 * b) ≤ N)
include hs hsol hin hout hbi hbo hN

/-- What the constructor of a network yields. -/
def EmlpOf (W : World) (g : Gid) (N b : ℕ) (gens : Gid → GenSet R) (ein eout : Expr) (ch : Ch) (ws : List ℕ) (E : Emlp R) : Prop :=
  ∃ a o mids, ArgOf W g N ein a ∧ ArgOf W g N eout o ∧ MidsOf W g N b ch ws mids ∧ E.Good W g N gens a mids o

theorem init_hov {a o : Rep} {mids : List Rep} (ha : ArgOf W g N ein a) (ho : ArgOf W g N eout o) (hm : MidsOf W g N b ch ws mids) :
    ∀ r ∈ a :: o :: mids, r.Over W g N ∧ r.size W + r.gates W ≤ 2 * b := by
  intro r hr
  simp only [mem_cons] at hr
  have h1 := Rep.gates_le hW ha.1
  have h2 := Rep.gates_le hW ho.1
  rcases hr with rfl | rfl | hr
  · exact ⟨ha.1, by rw [ha.2.1] at *; omega⟩
  · exact ⟨ho.1, by rw [ho.2.1] at *; omega⟩
  · exact hm.2.1 r hr

theorem Emlp.init_meets : NetM.Meets W g gens (Emlp.init W gens solve rng fuel rin rout g ch L) (EmlpOf W g N b gens ein eout ch ws) := by
  rw [Emlp.init_eq]
  refine NetM.Meets.bind (hin.meets hW) fun a ha => NetM.Meets.bind (hout.meets hW) fun o ho =>
    NetM.Meets.bind (parseCh_meets hW hd hdN hrng hbN hbf hch) fun m hm => ?_
  intro σ hσ E σ' hE
  obtain ⟨h1, h2⟩ := Emlp.build_meets hW hs hsol hrng (init_hov hW hd hdN hrng hbN hbf hch hs hsol hin hout hbi hbo hN ha ho hm) hN σ hσ E σ' hE
  exact ⟨h1, a, o, m, ha, ho, hm, h2⟩

theorem Emlp.init_runs (ht : SolverRuns W gens solve) (hi : ch.Ints) :
    NetM.Runs W g gens (Emlp.init W gens solve rng fuel rin rout g ch L) := by
  rw [Emlp.init_eq]
  refine NetM.Runs.bind (hin.runs hW) (hin.meets hW) fun a ha => NetM.Runs.bind (hout.runs hW) (hout.meets hW) fun o ho =>
    NetM.Runs.bind (parseCh_runs hW hd hdN hrng hbN hbf hch) (parseCh_meets hW hd hdN hrng hbN hbf hch) fun m hm => ?_
  exact Emlp.build_runs hW hs hsol hrng (init_hov hW hd hdN hrng hbN hbf hch hs hsol hin hout hbi hbo hN ha ho hm) hN ht
    fun r hr => by obtain ⟨s, e, -⟩ := hm.2.2 hi r hr; exact ⟨s, e⟩

end
end Verif
