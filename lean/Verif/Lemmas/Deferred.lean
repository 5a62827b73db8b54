import Verif.Lemmas.ExprSem
import Verif.Lemmas.SetG
import Verif.Model.RepCall

/-! Representations written without a group, and what calling them on a group gives. -/
namespace Verif
open List

variable {W : World} {g : Gid} {N : ℕ}

/-! ### Sums of scalars -/

/-- The only summand. -/
def OnlyScalar (k : Key) : Prop := k = .scalar

theorem OnlyScalar.of_base {k : Key} (h : OnlyScalar (k.base W)) : k = .scalar := by
  match k, h with
  | .scalar, _ => rfl
  | .fac (.atom _), h => cases h
  | .fac (.prod _), h => cases h
  | .dprod _, h => cases h

theorem onlyScalar_class (hW : W.SingleOK g N) : KeyClass W OnlyScalar N where
  wf k h := by cases h; exact ⟨trivial, rfl⟩
  pos k h := by cases h; exact Nat.one_pos
  le k h := by cases h; exact hW.pos
  st l h := World.Single.st hW l fun k hk => by cases h k hk; exact ⟨hW.pos, trivial⟩
  mul a b ha hb ha' hb' _ := by
    cases ha'.of_base; cases hb'.of_base
    exact ⟨.scalar, rfl, trivial, rfl, rfl, fun R _ I _ => by
      show DMat.one 1 = DMat.kron (DMat.one 1) (DMat.one 1)
      rw [DMat.one_kron]⟩

theorem onlyScalar_dual : DualClass W OnlyScalar where
  dual a ha ha' := by
    cases ha'.of_base
    exact ⟨.scalar, rfl, trivial, rfl, rfl, fun R _ I _ => by
      show (DMat.one 1).transpose.mul (DMat.one 1) = DMat.one 1
      rw [DMat.transpose_one]
      exact DMat.one_mul' (R := R) (DMat.one 1) rfl⟩

theorem onlyScalar_single (hW : W.SingleOK g N) {k : Key} (h : OnlyScalar k) : W.Single g N k := by
  cases h; exact ⟨hW.pos, trivial⟩

/-- The summands of a sum of scalars. -/
theorem onlyScalar_counter {s : SRep} (h : s.WF W) (hk : ∀ k ∈ s.c.keys, OnlyScalar k) : ∃ n, 0 < n ∧ s.c = [(.scalar, n)] := by
  have hn := h.cnt.nodup
  have hne := h.cnt.ne
  have hp := h.cnt.pos
  match hc : s.c, hne with
  | (k, n) :: t, _ =>
    rw [hc] at hk hn hp
    have e : k = .scalar := hk k (by simp [Counter.keys])
    subst e
    refine ⟨n, Nat.pos_of_ne_zero (hp (.scalar, n) (by simp)), ?_⟩
    match t with
    | [] => rfl
    | (k', n') :: t =>
      have e' : k' = .scalar := hk k' (by simp [Counter.keys])
      subst e'
      simp [Counter.keys] at hn

/-- A sum of scalars acts by the identity. -/
theorem onlyScalar_mat {r : Rep} (h : r.WF W) (hk : ∀ k ∈ r.keys W, OnlyScalar k) {R : Type} [CommRing R] (I : Interp R) :
    r.mat I = DMat.one (r.size W) := by
  match r, h, hk with
  | .key k, h, hk =>
    have e : k = .scalar := OnlyScalar.of_base (W := W) (hk _ (by simp [Rep.keys]))
    subst e; rfl
  | .sum s, h, hk =>
    have hw : s.WF W := h
    obtain ⟨n, -, hc⟩ := onlyScalar_counter hw hk
    have hX : (LinOp.dsum (s.c.map fun kc => (kc.1.rho I, kc.2))).sem = DMat.one (s.size W) := by
      show DMat.bdiag (LinOp.semM _) = _
      rw [semM_map s.c (fun k => k.rho I), hc]
      have : s.size W = n := by simp [SRep.size, hc, Counter.sumSize, Key.size]
      rw [this]
      have := DMat.bdiag_one (R := R) (replicate n Key.scalar) fun _ => 1
      simp only [map_replicate, sum_replicate, smul_eq_mul, mul_one] at this
      rw [← this]
      simp only [Counter.expand, flatMap_cons, flatMap_nil, append_nil, map_replicate]
      rfl
    show (conjPerm s.perm _).sem = _
    rw [conjPerm_sem hw.perm (by rw [hX]; exact ⟨rfl, rfl⟩), hX, DMat.pick_one]
    · rfl
    · have := argsort_perm s.perm
      rwa [length_of_perm_range hw.perm] at this

theorem sum_fm {α : Type} (l : List α) (f : α → List ℕ) : (l.flatMap f).sum = (l.map fun a => (f a).sum).sum := by
  induction l with
  | nil => rfl
  | cons a t ih => simp [ih]

theorem prod_fm {α : Type} (l : List α) (f : α → List ℕ) : (l.flatMap f).prod = (l.map fun a => (f a).prod).prod := by
  induction l with
  | nil => rfl
  | cons a t ih => simp [ih]

/-! ### Representations without a group -/

mutual
/-- The representations that expressions without a group evaluate to. -/
def Rep.Def (W : World) (g : Gid) (N : ℕ) : Rep → Prop
  | .key .scalar => True
  | .key (.fac (.atom (.vec k none))) => 2 ≤ W.asize k g ∧ W.asize k g ≤ N ∧ (k = 0 ∨ W.orth g = true)
  | .key (.fac (.atom (.dual k none))) => 2 ≤ W.asize k g ∧ W.asize k g ≤ N ∧ (k = 0 ∨ W.orth g = true)
  | .key _ => False
  | .sum s => s.WF W ∧ ∀ k ∈ s.c.keys, OnlyScalar k
  | .dsum l => l ≠ [] ∧ Rep.DefL W g N l
  | .dprod l => l ≠ [] ∧ Rep.DefL W g N l ∧ (Rep.ddims W g l).prod ≤ N
def Rep.DefL (W : World) (g : Gid) (N : ℕ) : List Rep → Prop
  | [] => True
  | r :: l => Rep.Def W g N r ∧ Rep.DefL W g N l
/-- Size after instantiation. -/
def Rep.ddim (W : World) (g : Gid) : Rep → ℕ
  | .key .scalar => 1
  | .key (.fac (.atom (.vec k _))) => W.asize k g
  | .key (.fac (.atom (.dual k _))) => W.asize k g
  | .key _ => 0
  | .sum s => s.size W
  | .dsum l => (Rep.ddims W g l).sum
  | .dprod l => (Rep.ddims W g l).prod
def Rep.ddims (W : World) (g : Gid) : List Rep → List ℕ
  | [] => []
  | r :: l => Rep.ddim W g r :: Rep.ddims W g l
end

mutual
/-- The matrix and the matrix of the dual, after instantiation. -/
def Rep.imat {R : Type} [CommRing R] (W : World) (g : Gid) (I : Interp R) : Rep → DMat R × DMat R
  | .key .scalar => (DMat.one 1, DMat.one 1)
  | .key (.fac (.atom (.vec k _))) => ((I.vec k (some g)).sem, (I.dual k (some g)).sem)
  | .key (.fac (.atom (.dual k _))) => ((I.dual k (some g)).sem, (I.vec k (some g)).sem)
  | .key _ => (DMat.zero 0 0, DMat.zero 0 0)
  | .sum s => (DMat.one (s.size W), DMat.one (s.size W))
  | .dsum l => (DMat.bdiag ((Rep.imats W g I l).map Prod.fst), DMat.bdiag ((Rep.imats W g I l).map Prod.snd))
  | .dprod l => (DMat.kronL ((Rep.imats W g I l).map Prod.fst), DMat.kronL ((Rep.imats W g I l).map Prod.snd))
def Rep.imats {R : Type} [CommRing R] (W : World) (g : Gid) (I : Interp R) : List Rep → List (DMat R × DMat R)
  | [] => []
  | r :: l => Rep.imat W g I r :: Rep.imats W g I l
end

theorem Rep.defL_iff (l : List Rep) : Rep.DefL W g N l ↔ ∀ r ∈ l, Rep.Def W g N r := by
  induction l with
  | nil => simp [Rep.DefL]
  | cons a t ih => simp [Rep.DefL, ih]

theorem Rep.ddims_eq (l : List Rep) : Rep.ddims W g l = l.map (Rep.ddim W g) := by
  induction l with
  | nil => rfl
  | cons a t ih => simp [Rep.ddims, ih]

theorem Rep.imats_eq {R : Type} [CommRing R] (I : Interp R) (l : List Rep) : Rep.imats W g I l = l.map (Rep.imat W g I) := by
  induction l with
  | nil => rfl
  | cons a t ih => simp [Rep.imats, ih]

mutual
theorem Rep.Def.pos (hW : W.SingleOK g N) : ∀ r : Rep, Rep.Def W g N r → 0 < Rep.ddim W g r
  | .key .scalar, _ => Nat.one_pos
  | .key (.fac (.atom (.vec k none))), h => by have := h.1; show 0 < W.asize k g; omega
  | .key (.fac (.atom (.dual k none))), h => by have := h.1; show 0 < W.asize k g; omega
  | .sum s, h => Rep.size_pos (r := .sum s) (onlyScalar_class hW) h.1 h.2
  | .dsum l, h => by
    have := Rep.Def.posL hW l h.2
    show 0 < (Rep.ddims W g l).sum
    match l, h.1 with
    | r :: l, _ => simp only [Rep.ddims, sum_cons] at this ⊢; have := this _ mem_cons_self; omega
  | .dprod l, h => by
    have := Rep.Def.posL hW l h.2.1
    exact List.prod_pos this
theorem Rep.Def.posL (hW : W.SingleOK g N) : ∀ l : List Rep, Rep.DefL W g N l → ∀ n ∈ Rep.ddims W g l, 0 < n
  | [], _ => by simp [Rep.ddims]
  | r :: l, h => by
    intro n hn
    rcases mem_cons.1 hn with rfl | hn
    · exact Rep.Def.pos hW r h.1
    · exact Rep.Def.posL hW l h.2 n hn
end

/-- Sums of scalars are the concrete ones. -/
theorem Rep.Def.triv {r : Rep} (h : Rep.Def W g N r) (hc : r.concrete = true) : r.WF W ∧ ∀ k ∈ r.keys W, OnlyScalar k := by
  match r, h, hc with
  | .key .scalar, _, _ => exact ⟨trivial, by simp [Rep.keys, OnlyScalar, Key.base]⟩
  | .sum s, h, _ => exact h

theorem Rep.triv_def {r : Rep} (h : r.WF W) (hk : ∀ k ∈ r.keys W, OnlyScalar k) :
    Rep.Def W g N r ∧ Rep.ddim W g r = r.size W ∧
      ∀ (R : Type) [CommRing R] (I : Interp R), Rep.imat W g I r = (DMat.one (r.size W), DMat.one (r.size W)) := by
  match r, h, hk with
  | .key k, h, hk =>
    have e : k = .scalar := OnlyScalar.of_base (W := W) (hk _ (by simp [Rep.keys]))
    subst e; exact ⟨trivial, rfl, fun R _ I => rfl⟩
  | .sum s, h, hk => exact ⟨⟨h, hk⟩, rfl, fun R _ I => rfl⟩

theorem Rep.Def.not_prod {r : Rep} (h : Rep.Def W g N r) : r.isProduct = false := by
  match r, h with
  | .key .scalar, _ => rfl
  | .key (.fac (.atom (.vec k none))), _ => rfl
  | .key (.fac (.atom (.dual k none))), _ => rfl
  | .sum s, _ => rfl
  | .dsum l, _ => rfl
  | .dprod l, _ => rfl

theorem Rep.deferredSum {l : List Rep} (hne : l ≠ []) (h : ∀ r ∈ l, Rep.Def W g N r) :
    Rep.Def W g N (mkDeferredSum l) ∧ Rep.ddim W g (mkDeferredSum l) = (l.map (Rep.ddim W g)).sum ∧
      ∀ (R : Type) [CommRing R] (I : Interp R), Rep.imat W g I (mkDeferredSum l) =
        (DMat.bdiag (l.map fun r => (Rep.imat W g I r).1), DMat.bdiag (l.map fun r => (Rep.imat W g I r).2)) := by
  have hd : ∀ r ∈ l, ∀ x ∈ (match r with | .dsum l' => l' | r => [r]), Rep.Def W g N x := by
    intro r hr x hx
    have h1 := h r hr
    split at hx
    · exact (Rep.defL_iff _).1 h1.2 x hx
    · rw [mem_singleton.1 hx]; exact h1
  refine ⟨⟨?_, ?_⟩, ?_, ?_⟩
  · match l, hne, h with
    | a :: l, _, h =>
      have h1 := h a mem_cons_self
      rw [flatMap_cons]
      intro e
      have e := (append_eq_nil_iff.1 e).1
      split at e
      · exact h1.1 e
      · simp at e
  · rw [Rep.defL_iff]
    intro x hx
    obtain ⟨r, hr, hx⟩ := mem_flatMap.1 hx
    exact hd r hr x hx
  · show (Rep.ddims W g _).sum = _
    rw [Rep.ddims_eq, map_flatMap, sum_fm]
    congr 1
    apply map_congr_left
    intro r _
    split
    · rw [← Rep.ddims_eq]; rfl
    · simp
  · intro R _ I
    show (DMat.bdiag ((Rep.imats W g I _).map _), DMat.bdiag ((Rep.imats W g I _).map _)) = _
    rw [Rep.imats_eq, map_flatMap, map_flatMap, map_flatMap, DMat.bdiag_flatMap, DMat.bdiag_flatMap]
    congr 2
    all_goals
      apply map_congr_left
      intro r _
      split
      · rw [← Rep.imats_eq]; rfl
      · simp [DMat.bdiag_singleton]

theorem Rep.deferredProd {l : List Rep} (hne : l ≠ []) (h : ∀ r ∈ l, Rep.Def W g N r) (hN : (l.map (Rep.ddim W g)).prod ≤ N) :
    ∃ p, mkDeferredProd l = .ok p ∧ Rep.Def W g N p ∧ Rep.ddim W g p = (l.map (Rep.ddim W g)).prod ∧
      ∀ (R : Type) [CommRing R] (I : Interp R), Rep.imat W g I p =
        (DMat.kronL (l.map fun r => (Rep.imat W g I r).1), DMat.kronL (l.map fun r => (Rep.imat W g I r).2)) := by
  have hd : ∀ r ∈ l, ∀ x ∈ (match r with | .dprod l' => l' | r => [r]), Rep.Def W g N x := by
    intro r hr x hx
    have h1 := h r hr
    split at hx
    · exact (Rep.defL_iff _).1 h1.2.1 x hx
    · rw [mem_singleton.1 hx]; exact h1
  have hdim : (Rep.ddims W g (l.flatMap fun r => match r with | .dprod l' => l' | r => [r])).prod = (l.map (Rep.ddim W g)).prod := by
    rw [Rep.ddims_eq, map_flatMap, prod_fm]
    congr 1
    apply map_congr_left
    intro r _
    split
    · rw [← Rep.ddims_eq]; rfl
    · simp
  refine ⟨_, if_neg ?_, ⟨?_, ?_, ?_⟩, ?_, ?_⟩
  · intro e
    obtain ⟨r, hr, e⟩ := any_eq_true.1 e
    rw [(h r hr).not_prod] at e
    cases e
  · match l, hne, h with
    | a :: l, _, h =>
      have h1 := h a mem_cons_self
      rw [flatMap_cons]
      intro e
      have e := (append_eq_nil_iff.1 e).1
      split at e
      · exact h1.1 e
      · simp at e
  · rw [Rep.defL_iff]
    intro x hx
    obtain ⟨r, hr, hx⟩ := mem_flatMap.1 hx
    exact hd r hr x hx
  · exact le_of_eq_of_le hdim hN
  · exact hdim
  · intro R _ I
    show (DMat.kronL ((Rep.imats W g I _).map _), DMat.kronL ((Rep.imats W g I _).map _)) = _
    rw [Rep.imats_eq, map_flatMap, map_flatMap, map_flatMap, DMat.kronL_flatMap, DMat.kronL_flatMap]
    congr 2
    all_goals
      apply map_congr_left
      intro r _
      split
      · rw [← Rep.imats_eq]; rfl
      · simp [DMat.kronL_singleton]

/-! ### Operations -/

mutual
theorem Rep.Def.T (hW : W.SingleOK g N) : ∀ r : Rep, Rep.Def W g N r → ∃ t, Rep.T W r = .ok t ∧ Rep.Def W g N t ∧
    Rep.ddim W g t = Rep.ddim W g r ∧
    ∀ (R : Type) [CommRing R] (I : Interp R), Rep.imat W g I t = ((Rep.imat W g I r).2, (Rep.imat W g I r).1)
  | .key .scalar, _ => ⟨.key .scalar, rfl, trivial, rfl, fun _ _ _ => rfl⟩
  | .key (.fac (.atom (.vec k none))), h => ⟨.key (.fac (.atom (.dual k none))), rfl, h, rfl, fun _ _ _ => rfl⟩
  | .key (.fac (.atom (.dual k none))), h => ⟨.key (.fac (.atom (.vec k none))), rfl, h, rfl, fun _ _ _ => rfl⟩
  | .sum s, h => by
    obtain ⟨t, t1, t2, t3, t4, -⟩ := Rep.T_spec (r := .sum s) (onlyScalar_class hW) onlyScalar_dual h.1 h.2
    obtain ⟨d1, d2, d3⟩ := Rep.triv_def (g := g) (N := N) t2 t3
    refine ⟨t, t1, d1, d2.trans t4, fun R _ I => ?_⟩
    rw [d3, t4]; rfl
  | .dsum l, h => by
    obtain ⟨l', l1, l2, l3, l4⟩ := Rep.Def.TList hW l h.2
    have hne : l' ≠ [] := by
      rintro rfl
      rw [Rep.ddims_eq, Rep.ddims_eq] at l3
      exact h.1 (map_eq_nil_iff.1 l3.symm)
    obtain ⟨d1, d2, d3⟩ := Rep.deferredSum hne ((Rep.defL_iff _).1 l2)
    refine ⟨mkDeferredSum l', ?_, d1, ?_, fun R _ I => ?_⟩
    · simp only [Rep.T]; rw [l1]; rfl
    · rw [d2, ← Rep.ddims_eq, l3]; rfl
    · have e := l4 R I
      rw [d3]
      simp only [Rep.imat]
      rw [Rep.imats_eq, Rep.imats_eq] at e
      have e1 := congrArg (map Prod.fst) e
      have e2 := congrArg (map Prod.snd) e
      simp only [List.map_map] at e1 e2
      simp only [Rep.imats_eq, List.map_map]
      exact Prod.ext (congrArg DMat.bdiag e1) (congrArg DMat.bdiag e2)
  | .dprod l, h => by
    obtain ⟨l', l1, l2, l3, l4⟩ := Rep.Def.TList hW l h.2.1
    have hne : l' ≠ [] := by
      rintro rfl
      rw [Rep.ddims_eq, Rep.ddims_eq] at l3
      exact h.1 (map_eq_nil_iff.1 l3.symm)
    obtain ⟨p, d0, d1, d2, d3⟩ := Rep.deferredProd hne ((Rep.defL_iff _).1 l2) (by rw [← Rep.ddims_eq, l3]; exact h.2.2)
    refine ⟨p, ?_, d1, ?_, fun R _ I => ?_⟩
    · simp only [Rep.T]; rw [l1]; exact d0
    · rw [d2, ← Rep.ddims_eq, l3]; rfl
    · have e := l4 R I
      rw [d3]
      simp only [Rep.imat]
      rw [Rep.imats_eq, Rep.imats_eq] at e
      have e1 := congrArg (map Prod.fst) e
      have e2 := congrArg (map Prod.snd) e
      simp only [List.map_map] at e1 e2
      simp only [Rep.imats_eq, List.map_map]
      exact Prod.ext (congrArg DMat.kronL e1) (congrArg DMat.kronL e2)
theorem Rep.Def.TList (hW : W.SingleOK g N) : ∀ l : List Rep, Rep.DefL W g N l → ∃ l', Rep.TList W l = .ok l' ∧ Rep.DefL W g N l' ∧
    Rep.ddims W g l' = Rep.ddims W g l ∧
    ∀ (R : Type) [CommRing R] (I : Interp R), Rep.imats W g I l' = (Rep.imats W g I l).map fun P => (P.2, P.1)
  | [], _ => ⟨[], rfl, trivial, rfl, fun _ _ _ => rfl⟩
  | r :: l, h => by
    obtain ⟨t, t1, t2, t3, t4⟩ := Rep.Def.T hW r h.1
    obtain ⟨l', l1, l2, l3, l4⟩ := Rep.Def.TList hW l h.2
    refine ⟨t :: l', ?_, ⟨t2, l2⟩, ?_, fun R _ I => ?_⟩
    · simp only [Rep.TList]; rw [t1]; show (Rep.TList W l >>= _) = _; rw [l1]; rfl
    · simp only [Rep.ddims]; rw [t3, l3]
    · simp only [Rep.imats, map_cons]; rw [t4, l4]
end

theorem Rep.Def.add (hW : W.SingleOK g N) {a b : Rep} (ha : Rep.Def W g N a) (hb : Rep.Def W g N b) :
    ∃ r, Rep.add W a b = .ok r ∧ Rep.Def W g N r ∧ Rep.ddim W g r = Rep.ddim W g a + Rep.ddim W g b ∧
      ∀ (R : Type) [CommRing R] (I : Interp R), Rep.imat W g I r =
        (DMat.bdiag [(Rep.imat W g I a).1, (Rep.imat W g I b).1], DMat.bdiag [(Rep.imat W g I a).2, (Rep.imat W g I b).2]) := by
  by_cases hc : (a.concrete && b.concrete) = true
  · obtain ⟨ca, cb⟩ := (Bool.and_eq_true _ _).mp hc
    obtain ⟨ha1, ha2⟩ := ha.triv ca
    obtain ⟨hb1, hb2⟩ := hb.triv cb
    obtain ⟨r, r1, r2, r3, r4, -⟩ := Rep.add_spec ha1 hb1 ((onlyScalar_class hW).st _ (by
        intro k hk; rcases mem_append.1 hk with hk | hk; exacts [ha2 k hk, hb2 k hk]))
    obtain ⟨d1, d2, d3⟩ := Rep.triv_def (g := g) (N := N) r2 (by
      intro k hk; rcases (r3 k).1 hk with hk | hk; exacts [ha2 k hk, hb2 k hk])
    obtain ⟨-, a2, a3⟩ := Rep.triv_def (g := g) (N := N) ha1 ha2
    obtain ⟨-, b2, b3⟩ := Rep.triv_def (g := g) (N := N) hb1 hb2
    refine ⟨r, r1, d1, by rw [d2, r4, a2, b2], fun R _ I => ?_⟩
    rw [d3, a3, b3, r4]
    have := DMat.bdiag_one (R := R) [a.size W, b.size W] id
    simp only [map_cons, map_nil, id, sum_cons, sum_nil, Nat.add_zero] at this
    simp only [this]
  · obtain ⟨d1, d2, d3⟩ := Rep.deferredSum (l := [a, b]) (by simp) (W := W) (g := g) (N := N)
      (by intro r hr; simp at hr; rcases hr with rfl | rfl <;> assumption)
    refine ⟨mkDeferredSum [a, b], ?_, d1, by rw [d2]; simp, fun R _ I => by rw [d3]; rfl⟩
    unfold Rep.add
    rw [if_neg hc]

theorem Rep.Def.mul (hW : W.SingleOK g N) {a b : Rep} (ha : Rep.Def W g N a) (hb : Rep.Def W g N b)
    (hN : Rep.ddim W g a * Rep.ddim W g b ≤ N) :
    ∃ r, Rep.mul W a b = .ok r ∧ Rep.Def W g N r ∧ Rep.ddim W g r = Rep.ddim W g a * Rep.ddim W g b ∧
      ∀ (R : Type) [CommRing R] (I : Interp R), Rep.imat W g I r =
        (DMat.kron (Rep.imat W g I a).1 (Rep.imat W g I b).1, DMat.kron (Rep.imat W g I a).2 (Rep.imat W g I b).2) := by
  have def_ : ∃ p, mkDeferredProd [a, b] = .ok p ∧ Rep.Def W g N p ∧ Rep.ddim W g p = Rep.ddim W g a * Rep.ddim W g b ∧
      ∀ (R : Type) [CommRing R] (I : Interp R), Rep.imat W g I p =
        (DMat.kron (Rep.imat W g I a).1 (Rep.imat W g I b).1, DMat.kron (Rep.imat W g I a).2 (Rep.imat W g I b).2) := by
    obtain ⟨p, d0, d1, d2, d3⟩ := Rep.deferredProd (l := [a, b]) (by simp) (W := W) (g := g) (N := N)
      (by intro r hr; simp at hr; rcases hr with rfl | rfl <;> assumption) (by simpa using hN)
    refine ⟨p, d0, d1, by rw [d2]; simp, fun R _ I => ?_⟩
    rw [d3]
    simp [DMat.kronL, DMat.kron_one]
  by_cases hc : (a.concrete && b.concrete) = true
  · obtain ⟨ca, cb⟩ := (Bool.and_eq_true _ _).mp hc
    obtain ⟨ha1, ha2⟩ := ha.triv ca
    obtain ⟨hb1, hb2⟩ := hb.triv cb
    obtain ⟨-, a2, a3⟩ := Rep.triv_def (g := g) (N := N) ha1 ha2
    obtain ⟨-, b2, b3⟩ := Rep.triv_def (g := g) (N := N) hb1 hb2
    obtain ⟨r, r1, r2, r3, r4, -⟩ := Rep.mul_spec (onlyScalar_class hW) ha1 hb1 ha2 hb2 (by rw [← a2, ← b2]; exact hN)
    obtain ⟨d1, d2, d3⟩ := Rep.triv_def (g := g) (N := N) r2 r3
    refine ⟨r, r1, d1, by rw [d2, r4, a2, b2], fun R _ I => ?_⟩
    rw [d3, a3, b3, r4]
    simp only [DMat.kron_one_one]
  · by_cases h1 : a = .key .scalar
    · subst h1
      refine ⟨b, rfl, hb, by show _ = 1 * _; rw [Nat.one_mul], fun R _ I => ?_⟩
      simp only [Rep.imat, DMat.one_kron]
    by_cases h2 : b = .key .scalar
    · subst h2
      have ca : a.concrete = false := by simpa [Rep.concrete, Key.concrete] using hc
      refine ⟨a, ?_, ha, by show _ = _ * 1; rw [Nat.mul_one], fun R _ I => ?_⟩
      · match a, ha, ca, h1 with
        | .key (.fac (.atom (.vec k none))), _, _, _ => rfl
        | .key (.fac (.atom (.dual k none))), _, _, _ => rfl
        | .dsum l, _, _, _ => rfl
        | .dprod l, _, _, _ => rfl
      · simp only [Rep.imat, DMat.kron_one]
    obtain ⟨p, d0, d⟩ := def_
    refine ⟨p, ?_, d⟩
    rw [← d0]
    match a, b, ha, hb, h1, h2, hc with
    | .sum s, .key (.fac (.atom (.vec k none))), _, _, _, _, _ => rfl
    | .sum s, .key (.fac (.atom (.dual k none))), _, _, _, _, _ => rfl
    | .sum s, .dsum l, _, _, _, _, _ => rfl
    | .sum s, .dprod l, _, _, _, _, _ => rfl
    | .key (.fac (.atom (.vec k none))), .sum s, _, _, _, _, _ => rfl
    | .key (.fac (.atom (.dual k none))), .sum s, _, _, _, _, _ => rfl
    | .dsum l, .sum s, _, _, _, _, _ => rfl
    | .dprod l, .sum s, _, _, _, _, _ => rfl
    | .key (.fac (.atom (.vec k none))), .key (.fac (.atom (.vec k' none))), _, _, _, _, _ => rfl
    | .key (.fac (.atom (.vec k none))), .key (.fac (.atom (.dual k' none))), _, _, _, _, _ => rfl
    | .key (.fac (.atom (.vec k none))), .dsum l, _, _, _, _, _ => rfl
    | .key (.fac (.atom (.vec k none))), .dprod l, _, _, _, _, _ => rfl
    | .key (.fac (.atom (.dual k none))), .key (.fac (.atom (.vec k' none))), _, _, _, _, _ => rfl
    | .key (.fac (.atom (.dual k none))), .key (.fac (.atom (.dual k' none))), _, _, _, _, _ => rfl
    | .key (.fac (.atom (.dual k none))), .dsum l, _, _, _, _, _ => rfl
    | .key (.fac (.atom (.dual k none))), .dprod l, _, _, _, _, _ => rfl
    | .dsum l, .key (.fac (.atom (.vec k' none))), _, _, _, _, _ => rfl
    | .dsum l, .key (.fac (.atom (.dual k' none))), _, _, _, _, _ => rfl
    | .dsum l, .dsum l', _, _, _, _, _ => rfl
    | .dsum l, .dprod l', _, _, _, _, _ => rfl
    | .dprod l, .key (.fac (.atom (.vec k' none))), _, _, _, _, _ => rfl
    | .dprod l, .key (.fac (.atom (.dual k' none))), _, _, _, _, _ => rfl
    | .dprod l, .dsum l', _, _, _, _, _ => rfl
    | .dprod l, .dprod l', _, _, _, _, _ => rfl

theorem Rep.Def.nsmul (hW : W.SingleOK g N) {a : Rep} (ha : Rep.Def W g N a) {n : ℕ} (hn : 0 < n) :
    ∃ r, Rep.mulInt W a n = .ok (.rep r) ∧ Rep.Def W g N r ∧ Rep.ddim W g r = n * Rep.ddim W g a ∧
      ∀ (R : Type) [CommRing R] (I : Interp R), Rep.imat W g I r =
        (DMat.bdiag (replicate n (Rep.imat W g I a).1), DMat.bdiag (replicate n (Rep.imat W g I a).2)) := by
  by_cases hc : a.concrete = true
  · obtain ⟨ha1, ha2⟩ := ha.triv hc
    obtain ⟨-, a2, a3⟩ := Rep.triv_def (g := g) (N := N) ha1 ha2
    obtain ⟨r, r1, r2, r3, r4, -⟩ := Rep.mulInt_spec ha1 ((onlyScalar_class hW).st _ ha2) hn
    obtain ⟨d1, d2, d3⟩ := Rep.triv_def (g := g) (N := N) r2 fun k hk => ha2 k ((r4 k).1 hk)
    refine ⟨r, r1, d1, by rw [d2, r3, a2], fun R _ I => ?_⟩
    rw [d3, a3, r3]
    simp only [DMat.bdiag_replicate, DMat.kron_one_one]
  · by_cases h1 : n = 1
    · subst h1
      exact ⟨a, rfl, ha, by simp, fun R _ I => by simp [DMat.bdiag_singleton]⟩
    · obtain ⟨d1, d2, d3⟩ := Rep.deferredSum (l := replicate n a) (by simp [replicate_eq_nil_iff]; omega) (W := W) (g := g) (N := N)
        (fun r hr => by rw [eq_of_mem_replicate hr]; exact ha)
      refine ⟨mkDeferredSum (replicate n a), ?_, d1, by rw [d2]; simp, fun R _ I => by rw [d3]; simp⟩
      unfold Rep.mulInt
      rw [if_neg (by exact_mod_cast h1), if_neg (by exact_mod_cast hn.ne'), if_neg hc]
      rfl

theorem Rep.Def.addInt (hW : W.SingleOK g N) {a : Rep} (ha : Rep.Def W g N a) (n : ℕ) (left : Bool) :
    ∃ r, Rep.addInt W a n left = .ok r ∧ Rep.Def W g N r ∧ Rep.ddim W g r = Rep.ddim W g a + n ∧
      ∀ (R : Type) [CommRing R] (I : Interp R), Rep.imat W g I r = if left then
          (DMat.bdiag [DMat.one n, (Rep.imat W g I a).1], DMat.bdiag [DMat.one n, (Rep.imat W g I a).2])
        else (DMat.bdiag [(Rep.imat W g I a).1, DMat.one n], DMat.bdiag [(Rep.imat W g I a).2, DMat.one n]) := by
  unfold Rep.addInt
  by_cases h0 : n = 0
  · subst h0
    refine ⟨a, by simp, ha, by simp, ?_⟩
    intro R _ I
    have : (DMat.one 0 : DMat R) = DMat.zero 0 0 := DMat.ext rfl rfl fun i j hi _ => by simp at hi
    rw [this]
    cases left <;> simp [DMat.bdiag, DMat.bdiag2_zero, DMat.zero_bdiag2]
  · rw [if_neg (by exact_mod_cast h0)]
    obtain ⟨s, s1, s2, s3, s4⟩ := Rep.Def.nsmul hW (a := .key .scalar) (g := g) (N := N) trivial (Nat.pos_of_ne_zero h0)
    have s3' : Rep.ddim W g s = n := by rw [s3]; exact Nat.mul_one n
    have s4' : ∀ (R : Type) [CommRing R] (I : Interp R), Rep.imat W g I s = (DMat.one n, DMat.one n) := by
      intro R _ I
      rw [s4]
      simp only [DMat.bdiag_replicate, Rep.imat, DMat.kron_one]
    rw [s1]
    cases left
    · obtain ⟨r, r1, r2, r3, r4⟩ := ha.add hW s2
      exact ⟨r, r1, r2, by rw [r3, s3'], fun R _ I => by rw [r4, s4']; rfl⟩
    · obtain ⟨r, r1, r2, r3, r4⟩ := s2.add hW ha
      exact ⟨r, r1, r2, by rw [r3, s3', Nat.add_comm], fun R _ I => by rw [r4, s4']; rfl⟩

theorem Rep.Def.pow (hW : W.SingleOK g N) {a : Rep} (ha : Rep.Def W g N a) (n : ℕ) (hN : Rep.ddim W g a ^ n ≤ N) :
    ∃ r, Rep.pow W a n = .ok r ∧ Rep.Def W g N r ∧ Rep.ddim W g r = Rep.ddim W g a ^ n ∧
      ∀ (R : Type) [CommRing R] (I : Interp R), Rep.imat W g I r =
        (DMat.kronL (replicate n (Rep.imat W g I a).1), DMat.kronL (replicate n (Rep.imat W g I a).2)) := by
  have hp := Rep.Def.pos hW a ha
  have gen : ∀ (n : ℕ) (b : Rep), Rep.Def W g N b → Rep.ddim W g b * Rep.ddim W g a ^ n ≤ N →
      ∃ r, (replicate n a).foldlM (Rep.mul W) b = .ok r ∧ Rep.Def W g N r ∧ Rep.ddim W g r = Rep.ddim W g b * Rep.ddim W g a ^ n ∧
      ∀ (R : Type) [CommRing R] (I : Interp R), Rep.imat W g I r =
        (DMat.kron (Rep.imat W g I b).1 (DMat.kronL (replicate n (Rep.imat W g I a).1)),
          DMat.kron (Rep.imat W g I b).2 (DMat.kronL (replicate n (Rep.imat W g I a).2))) := by
    intro n
    induction n with
    | zero =>
      intro b hb _
      exact ⟨b, rfl, hb, by simp, fun R _ I => by simp [DMat.kronL, DMat.kron_one]⟩
    | succ n ih =>
      intro b hb hN
      have hab : Rep.ddim W g b * Rep.ddim W g a ≤ N := by
        refine le_trans ?_ hN
        rw [pow_succ, ← mul_assoc, mul_right_comm]
        exact Nat.le_mul_of_pos_right _ (Nat.pow_pos hp)
      obtain ⟨c, c1, c2, c3, c4⟩ := hb.mul hW ha hab
      obtain ⟨r, r1, r2, r3, r4⟩ := ih c c2 (by rw [c3]; rw [pow_succ] at hN; calc _ = _ := by ring
        _ ≤ N := hN)
      refine ⟨r, ?_, r2, by rw [r3, c3]; ring, fun R _ I => ?_⟩
      · rw [replicate_succ, foldlM_cons, c1]; exact r1
      · rw [r4, c4]
        simp only [replicate_succ, DMat.kronL, DMat.kron_assoc]
  obtain ⟨r, r1, r2, r3, r4⟩ := gen n (.key .scalar) trivial (by show 1 * _ ≤ N; rwa [Nat.one_mul])
  refine ⟨r, r1, r2, by rw [r3]; exact Nat.one_mul _, fun R _ I => ?_⟩
  rw [r4]
  simp only [Rep.imat, DMat.one_kron]

/-! ### Instantiation -/

theorem letter_of {k : ℕ} (h : 2 ≤ W.asize k g) (h' : k = 0 ∨ W.orth g = true) : W.Letter g (.vec k (some g)) := by
  refine ⟨?_, h⟩
  rcases ho : W.orth g with _ | _
  · rcases h' with h' | h'
    · subst h'; exact Or.inr ⟨rfl, Or.inl rfl⟩
    · rw [ho] at h'; simp at h'
  · exact Or.inl ⟨rfl, k, rfl⟩

theorem Rep.mulList_spec {S : Key → Prop} (hS : KeyClass W S N) : ∀ (l : List Rep) (a : Rep), a.WF W → (∀ k ∈ a.keys W, S k) →
    (∀ r ∈ l, r.WF W ∧ ∀ k ∈ r.keys W, S k) → a.size W * (l.map (Rep.size W)).prod ≤ N →
    ∃ p, l.foldlM (Rep.mul W) a = .ok p ∧ p.WF W ∧ (∀ k ∈ p.keys W, S k) ∧ p.size W = a.size W * (l.map (Rep.size W)).prod ∧
      ∀ (R : Type) [CommRing R] (I : Interp R), I.Sized W → p.mat I = DMat.kronL ((a :: l).map (Rep.mat I))
  | [], a, ha, hka, _, _ => ⟨a, rfl, ha, hka, by simp, fun R _ I _ => by simp [DMat.kronL_singleton]⟩
  | b :: l, a, ha, hka, hl, hN => by
    simp only [map_cons, prod_cons] at hN ⊢
    obtain ⟨hb, hkb⟩ := hl b mem_cons_self
    have hpos : 0 < (l.map (Rep.size W)).prod := prod_pos_of fun r hr => Rep.size_pos hS (hl r (by simp [hr])).1 (hl r (by simp [hr])).2
    rw [← mul_assoc] at hN
    obtain ⟨c, c1, c2, c3, c4, c5⟩ := Rep.mul_spec hS ha hb hka hkb (le_trans (Nat.le_mul_of_pos_right _ hpos) hN)
    obtain ⟨p, p1, p2, p3, p4, p5⟩ := Rep.mulList_spec hS l c c2 c3 (fun r hr => hl r (by simp [hr])) (by rw [c4]; exact hN)
    refine ⟨p, ?_, p2, p3, by rw [p4, c4, mul_assoc], fun R _ I hI => ?_⟩
    · rw [foldlM_cons, c1]; exact p1
    · rw [p5 R I hI]
      simp only [map_cons, DMat.kronL]
      rw [c5 R I hI, DMat.kron_assoc]

mutual
/-- Calling a representation written without a group on `g`. -/
theorem Rep.Def.call (hW : W.SingleOK g N) : ∀ (r : Rep) (sg : Option Gid), Rep.Def W g N r → SgOK W g sg →
    ∃ r' sg', Rep.call W (some g) sg r = .ok (r', sg') ∧ SgOK W g sg' ∧ r'.Over W g N ∧ r'.size W = Rep.ddim W g r ∧
      ∀ (R : Type) [CommRing R] (I : Interp R), I.Dual W → r'.mat I = (Rep.imat W g I r).1
  | .key .scalar, sg, _, hs =>
    ⟨.key .scalar, some g, rfl, SgOK.some W g, ⟨trivial, by
      intro k hk; simp only [Rep.keys, mem_singleton] at hk; rw [hk]; exact ⟨hW.pos, trivial⟩⟩, rfl, fun R _ I _ => rfl⟩
  | .key (.fac (.atom (.vec k none))), sg, h, hs =>
    ⟨.key (.fac (.atom (.vec k (some g)))), sg, rfl, hs, ⟨rfl, by
      intro x hx; simp only [Rep.keys, mem_singleton] at hx; rw [hx]
      exact ⟨h.2.1, letter_of h.1 h.2.2⟩⟩, rfl, fun R _ I _ => rfl⟩
  | .key (.fac (.atom (.dual k none))), sg, h, hs => by
    have hl := letter_of h.1 h.2.2
    have key : ∀ x ∈ (Rep.key (.fac (.atom (.vec k (some g))))).keys W, W.Single g N x := by
      intro x hx; simp only [Rep.keys, mem_singleton] at hx; rw [hx]; exact ⟨h.2.1, hl⟩
    obtain ⟨t, t1, t2, t3, t4, t5⟩ := Rep.T_spec (r := .key (.fac (.atom (.vec k (some g))))) hW.keyClass
      (World.Single.dual hW) rfl key
    refine ⟨t, sg, ?_, hs, ⟨t2, t3⟩, t4, fun R _ I hI => ?_⟩
    · have : Rep.T W (.key (.fac (.atom (.vec k (some g))))) = .ok (.key (.fac (.atom ((Atom.vec k (some g)).T W)))) := rfl
      rw [this] at t1
      cases t1
      rfl
    · have hsq := Rep.mat_sq hI.toSized t2
      rw [t4] at hsq
      exact DMat.invT_unique hsq (hI.dual k g) (hI.vec k g) (t5 R I hI) (hI.inv k g)
  | .sum s, sg, h, hs => by
    have hw : s.WF W := h.1
    obtain ⟨n, hn, hc⟩ := onlyScalar_counter hw h.2
    have hov : Rep.Over W g N (.sum s) := ⟨hw, fun k hk => onlyScalar_single hW (h.2 k hk)⟩
    have hov' := Rep.Over.setG hW (SgOK.some W g) hov
    refine ⟨.sum s, some g, ?_, SgOK.some W g, hov, rfl, fun R _ I hI => onlyScalar_mat (r := .sum s) (W := W) hw h.2 I⟩
    have e : callItems W (some g) sg [] s.c = .ok (s.c, some g) := by rw [hc]; rfl
    simp only [Rep.call]
    rw [e]
    show Except.ok _ = _
    rw [mkSumC_perm (W := W.setG (some g)) hov'.wf]
  | .dsum l, sg, h, hs => by
    obtain ⟨l', sg', l1, l2, l3, l4, l5⟩ := Rep.Def.callList hW l sg h.2 hs
    have hne : l' ≠ [] := by
      rintro rfl
      rw [Rep.ddims_eq] at l4
      exact h.1 (map_eq_nil_iff.1 l4.symm)
    have hov' : ∀ r ∈ l', r.Over (W.setG sg') g N := fun r hr => Rep.Over.setG hW l2 (l3 r hr)
    obtain ⟨s, s1, s2, s3, s4, -, s6⟩ := mkSum_spec_none (W := W.setG sg') hne (fun r hr => (hov' r hr).wf)
      (World.Single.st (hW.setG l2) _ fun k hk => by
        obtain ⟨r, hr, hk⟩ := mem_flatMap.1 hk
        exact (hov' r hr).key k hk)
    have hov : Rep.Over (W.setG sg') g N (.sum s) := ⟨s2, fun k hk => by
      obtain ⟨r, hr, hk⟩ := (s4 k).1 hk
      exact (hov' r hr).key k hk⟩
    refine ⟨.sum s, sg', ?_, l2, hov.unsetG hW l2, ?_, fun R _ I hI => ?_⟩
    · simp only [Rep.call]
      rw [l1]
      show (mkSum (W.setG sg') l' none >>= _) = _
      rw [s1]; rfl
    · show s.size (W.setG sg') = (Rep.ddims W g l).sum
      rw [s3, ← l4]; rfl
    · have := s6 R I (setG_sized.2 hI.toSized)
      show (s.rho I).sem = _
      rw [this, l5 R I hI]
      rfl
  | .dprod l, sg, h, hs => by
    obtain ⟨l', sg', l1, l2, l3, l4, l5⟩ := Rep.Def.callList hW l sg h.2.1 hs
    have hov' : ∀ r ∈ l', r.Over (W.setG sg') g N := fun r hr => Rep.Over.setG hW l2 (l3 r hr)
    match l', l1, l3, l4, l5, hov' with
    | [], _, _, l4, _, _ =>
      rw [Rep.ddims_eq] at l4
      exact absurd (map_eq_nil_iff.1 l4.symm) h.1
    | a :: l', l1, l3, l4, l5, hov' =>
      have hp : (map (Rep.size W) (a :: l')).prod ≤ N := by rw [l4]; exact h.2.2
      obtain ⟨p, p1, p2, p3, p4, p5⟩ := Rep.mulList_spec (W := W.setG sg') (hW.setG l2).keyClass l' a (hov' a mem_cons_self).wf
        (hov' a mem_cons_self).key (fun r hr => ⟨(hov' r (by simp [hr])).wf, (hov' r (by simp [hr])).key⟩) hp
      have hov : Rep.Over (W.setG sg') g N p := ⟨p2, p3⟩
      refine ⟨p, sg', ?_, l2, hov.unsetG hW l2, ?_, fun R _ I hI => ?_⟩
      · simp only [Rep.call]
        rw [l1]
        show (l'.foldlM (Rep.mul (W.setG sg')) a >>= _) = _
        rw [p1]; rfl
      · show p.size (W.setG sg') = (Rep.ddims W g l).prod
        rw [p4, ← l4]; rfl
      · rw [p5 R I (setG_sized.2 hI.toSized), l5 R I hI]
        rfl
theorem Rep.Def.callList (hW : W.SingleOK g N) : ∀ (l : List Rep) (sg : Option Gid), Rep.DefL W g N l → SgOK W g sg →
    ∃ l' sg', Rep.callList W (some g) sg l = .ok (l', sg') ∧ SgOK W g sg' ∧ (∀ r ∈ l', r.Over W g N) ∧
      l'.map (Rep.size W) = Rep.ddims W g l ∧
      ∀ (R : Type) [CommRing R] (I : Interp R), I.Dual W → l'.map (Rep.mat I) = (Rep.imats W g I l).map Prod.fst
  | [], sg, _, hs => ⟨[], sg, rfl, hs, by simp, rfl, fun R _ I _ => rfl⟩
  | r :: l, sg, h, hs => by
    obtain ⟨r', sg', r1, r2, r3, r4, r5⟩ := Rep.Def.call hW r sg h.1 hs
    obtain ⟨l', sg'', l1, l2, l3, l4, l5⟩ := Rep.Def.callList hW l sg' h.2 r2
    refine ⟨r' :: l', sg'', ?_, l2, ?_, ?_, fun R _ I hI => ?_⟩
    · simp only [Rep.callList]
      rw [r1]
      show (Rep.callList W (some g) sg' l >>= _) = _
      rw [l1]; rfl
    · intro x hx
      rcases mem_cons.1 hx with rfl | hx
      exacts [r3, l3 x hx]
    · simp only [map_cons, Rep.ddims]; rw [r4, l4]
    · simp only [map_cons, Rep.imats]; rw [r5 R I hI, l5 R I hI]
end

/-! ### Expressions -/

/-- What an expression without a group evaluates to. -/
theorem Expr.evalFree_good (hW : W.SingleOK g N) : ∀ e : Expr, e.OK W g → e.bound W g ≤ N →
    ∃ r, e.evalFree W = .ok r ∧ Rep.Def W g N r ∧ Rep.ddim W g r = e.dim W g ∧
      ∀ (R : Type) [CommRing R] (I : Interp R), Rep.imat W g I r = e.den g I := by
  intro e
  induction e with
  | scalar => exact fun _ _ => ⟨_, rfl, trivial, rfl, fun _ _ _ => rfl⟩
  | rep k => exact fun h hb => ⟨_, rfl, ⟨h.1, hb, h.2⟩, rfl, fun _ _ _ => rfl⟩
  | add a b iha ihb =>
    intro hok hb
    simp only [bound, max_le_iff] at hb
    obtain ⟨x, x1, x2, x3, x4⟩ := iha hok.1 hb.1
    obtain ⟨y, y1, y2, y3, y4⟩ := ihb hok.2 hb.2
    obtain ⟨r, r1, r2, r3, r4⟩ := x2.add hW y2
    refine ⟨r, ?_, r2, by rw [r3, x3, y3]; rfl, fun R _ I => by rw [r4, x4, y4]; rfl⟩
    simp only [evalFree]; rw [x1, y1]; exact r1
  | mul a b iha ihb =>
    intro hok hb
    simp only [bound, max_le_iff] at hb
    obtain ⟨x, x1, x2, x3, x4⟩ := iha hok.1 hb.2.1
    obtain ⟨y, y1, y2, y3, y4⟩ := ihb hok.2 hb.2.2
    obtain ⟨r, r1, r2, r3, r4⟩ := x2.mul hW y2 (by rw [x3, y3]; exact hb.1)
    refine ⟨r, ?_, r2, by rw [r3, x3, y3]; rfl, fun R _ I => by rw [r4, x4, y4]; rfl⟩
    simp only [evalFree]; rw [x1, y1]; exact r1
  | dual a iha =>
    intro hok hb
    obtain ⟨x, x1, x2, x3, x4⟩ := iha hok hb
    obtain ⟨t, t1, t2, t3, t4⟩ := Rep.Def.T hW x x2
    refine ⟨t, ?_, t2, t3.trans x3, fun R _ I => by rw [t4, x4]; rfl⟩
    simp only [evalFree]; rw [x1]; exact t1
  | nsmul n a iha =>
    intro hok hb
    obtain ⟨x, x1, x2, x3, x4⟩ := iha hok.2 hb
    obtain ⟨r, r1, r2, r3, r4⟩ := x2.nsmul hW hok.1
    refine ⟨r, ?_, r2, by rw [r3, x3]; rfl, fun R _ I => by rw [r4, x4]; rfl⟩
    simp only [evalFree]; rw [x1]; show (Rep.mulInt W x n >>= _) = _; rw [r1]; rfl
  | addNat a n iha =>
    intro hok hb
    obtain ⟨x, x1, x2, x3, x4⟩ := iha hok hb
    obtain ⟨r, r1, r2, r3, r4⟩ := x2.addInt hW n false
    refine ⟨r, ?_, r2, by rw [r3, x3]; rfl, fun R _ I => by rw [r4, x4]; rfl⟩
    simp only [evalFree]; rw [x1]; exact r1
  | natAdd n a iha =>
    intro hok hb
    obtain ⟨x, x1, x2, x3, x4⟩ := iha hok hb
    obtain ⟨r, r1, r2, r3, r4⟩ := x2.addInt hW n true
    refine ⟨r, ?_, r2, by rw [r3, x3]; rfl, fun R _ I => by rw [r4, x4]; rfl⟩
    simp only [evalFree]; rw [x1]; exact r1
  | pow a n iha =>
    intro hok hb
    simp only [bound, max_le_iff] at hb
    obtain ⟨x, x1, x2, x3, x4⟩ := iha hok hb.2
    obtain ⟨r, r1, r2, r3, r4⟩ := x2.pow hW n (by rw [x3]; exact hb.1)
    refine ⟨r, ?_, r2, by rw [r3, x3]; rfl, fun R _ I => by rw [r4, x4]; rfl⟩
    simp only [evalFree]; rw [x1]; exact r1
  | rshift a b iha ihb =>
    intro hok hb
    simp only [bound, max_le_iff] at hb
    obtain ⟨x, x1, x2, x3, x4⟩ := iha hok.1 hb.2.1
    obtain ⟨y, y1, y2, y3, y4⟩ := ihb hok.2 hb.2.2
    obtain ⟨t, t1, t2, t3, t4⟩ := Rep.Def.T hW x x2
    obtain ⟨r, r1, r2, r3, r4⟩ := y2.mul hW t2 (by rw [t3, x3, y3]; exact hb.1)
    refine ⟨r, ?_, r2, by rw [r3, t3, x3, y3]; rfl, fun R _ I => by rw [r4, t4, x4, y4]; rfl⟩
    simp only [evalFree, Rep.rshift]; rw [x1, y1]; show (Rep.T W x >>= _) = _; rw [t1]; exact r1
  | lshift a b iha ihb =>
    intro hok hb
    simp only [bound, max_le_iff] at hb
    obtain ⟨x, x1, x2, x3, x4⟩ := iha hok.1 hb.2.1
    obtain ⟨y, y1, y2, y3, y4⟩ := ihb hok.2 hb.2.2
    obtain ⟨t, t1, t2, t3, t4⟩ := Rep.Def.T hW y y2
    obtain ⟨r, r1, r2, r3, r4⟩ := x2.mul hW t2 (by rw [t3, x3, y3]; exact hb.1)
    refine ⟨r, ?_, r2, by rw [r3, t3, x3, y3]; rfl, fun R _ I => by rw [r4, t4, x4, y4]; rfl⟩
    simp only [evalFree, Rep.lshift]; rw [x1, y1]; show (Rep.T W y >>= _) = _; rw [t1]; exact r1

end Verif
