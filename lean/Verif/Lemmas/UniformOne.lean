import Verif.Lemmas.DimOne

/-! Allocating channels for a group of dimension one. -/
namespace Verif
open List

variable {W : World} {g : Gid}

/-- It returns, whatever `Scalar.G` is, with a result as described. -/
def RepM.RunsAny {α : Type} (m : RepM α) (P : α → Prop) : Prop := ∀ sg, ∃ a sg', m sg = .ok (a, sg') ∧ P a

theorem RepM.RunsAny.pure {α : Type} {a : α} {P : α → Prop} (h : P a) : RepM.RunsAny (pure a) P :=
  fun sg => ⟨a, sg, rfl, h⟩

theorem RepM.RunsAny.bind {α β : Type} {m : RepM α} {f : α → RepM β} {P : α → Prop} {Q : β → Prop} (hm : RepM.RunsAny m P)
    (hf : ∀ a, P a → RepM.RunsAny (f a) Q) : RepM.RunsAny (m >>= f) Q := by
  intro sg
  obtain ⟨a, sg1, h1, h3⟩ := hm sg
  obtain ⟨b, sg2, h4, h6⟩ := hf a h3 sg1
  refine ⟨b, sg2, ?_, h6⟩
  show (m sg >>= fun p => f p.1 p.2) = _
  rw [h1]; exact h4

theorem RepM.RunsAny.lift {α : Type} {f : World → Py α} {P : α → Prop} (h : ∀ sg, ∃ a, f (W.setG sg) = .ok a ∧ P a) :
    RepM.RunsAny (RepM.lift W f) P := by
  intro sg
  obtain ⟨a, h1, h2⟩ := h sg
  refine ⟨a, sg, ?_, h2⟩
  show (f (W.setG sg) >>= _) = _
  rw [h1]; rfl

theorem RepM.RunsAny.mapM {α β : Type} {f : α → RepM β} {P : α → β → Prop} : ∀ (l : List α), (∀ a ∈ l, RepM.RunsAny (f a) (P a)) →
    RepM.RunsAny (l.mapM f) fun bs => Forall₂ P l bs
  | [], _ => by rw [mapM_nil]; exact .pure .nil
  | a :: l, h => by
    rw [mapM_cons]
    refine (h a mem_cons_self).bind fun b hb => ?_
    exact (RepM.RunsAny.mapM l fun x hx => h x (by simp [hx])).bind fun bs hbs => .pure (.cons hb hbs)

/-- A sum of `n` tensors of dimension one: the integer `0`, or a representation; a proper direct sum if `n ≥ 2`. -/
def Val.UnitP (W : World) (g : Gid) (n : ℕ) (v : Val) : Prop :=
  (v = .int 0 ∧ n = 0) ∨ ∃ r, v = .rep r ∧ r.UnitP g ∧ r.size W = n ∧ 1 ≤ n ∧ (2 ≤ n → ∃ s, r = .sum s)

theorem Val.add_unit (hd : W.d g = 1) (sg : Option Gid) {v w : Val} {n m : ℕ} (hv : v.UnitP W g n) (hw : w.UnitP W g m) :
    ∃ x, Val.add (W.setG sg) v w = .ok x ∧ x.UnitP W g (n + m) := by
  rcases hv with ⟨rfl, rfl⟩ | ⟨r, rfl, hr, rfl, hc, hsum⟩
  · rcases hw with ⟨rfl, rfl⟩ | ⟨r, rfl, hr, rfl, hc, hsum⟩
    · exact ⟨.int 0, rfl, Or.inl ⟨rfl, rfl⟩⟩
    · exact ⟨.rep r, rfl, Or.inr ⟨r, rfl, hr, by omega, by omega, by simpa using hsum⟩⟩
  · rcases hw with ⟨rfl, rfl⟩ | ⟨q, rfl, hq, rfl, he, hsum'⟩
    · exact ⟨.rep r, rfl, Or.inr ⟨r, rfl, hr, by omega, by omega, by simpa using hsum⟩⟩
    · obtain ⟨s, s1, s2, s3⟩ := Rep.add_unit (W := W.setG sg) hd hr hq
      refine ⟨.rep (.sum s), ?_, Or.inr ⟨_, rfl, s2, s3, by omega, fun _ => ⟨s, rfl⟩⟩⟩
      simp only [Val.add]; rw [s1]; rfl

theorem pySum_unit (hd : W.d g = 1) (sg : Option Gid) : ∀ (l : List Val) (ns : List ℕ) (v : Val) (n : ℕ),
    Forall₂ (fun n v => Val.UnitP W g n v) ns l → v.UnitP W g n →
    ∃ x, l.foldlM (Val.add (W.setG sg)) v = .ok x ∧ x.UnitP W g (n + ns.sum)
  | [], ns, v, n, h, hv => by
    obtain rfl : ns = [] := forall₂_nil_right_iff.1 h
    exact ⟨v, rfl, by simpa using hv⟩
  | w :: l, [], v, n, h, hv => by simp at h
  | w :: l, a :: ns, v, n, h, hv => by
    rw [forall₂_cons] at h
    obtain ⟨x, x1, x2⟩ := Val.add_unit hd sg hv h.1
    obtain ⟨y, y1, y2⟩ := pySum_unit hd sg l ns x (n + a) h.2 x2
    refine ⟨y, ?_, by simpa [Nat.add_assoc] using y2⟩
    rw [foldlM_cons, x1]; exact y1

theorem pySum_runsAny (hd : W.d g = 1) {α : Type} {as : List α} {f : α → ℕ} {l : List Val}
    (h : Forall₂ (fun a v => Val.UnitP W g (f a) v) as l) :
    RepM.RunsAny (RepM.lift W fun W => pySum W l) (Val.UnitP W g (as.map f).sum) := by
  refine .lift fun sg => ?_
  obtain ⟨x, x1, x2⟩ := pySum_unit hd sg l (as.map f) (.int 0) 0 (forall₂_map_left_iff.2 h) (Or.inl ⟨rfl, rfl⟩)
  exact ⟨x, x1, by simpa using x2⟩

theorem tensor_runsAny (hd : W.d g = 1) (p q : ℕ) : RepM.RunsAny (RepM.tensor W p q g) fun r => r.UnitP g ∧ r.size W = 1 := by
  intro sg
  obtain ⟨k, sg', h1, h2⟩ := tensorT_unit (W := W.setG sg) hd p q
  exact ⟨.key k, sg', h1, h2, Key.UnitP.size (W := W) hd h2⟩

theorem binomialAllocation_runsAny (hd : W.d g = 1) {draw : ℕ → ℕ → List ℕ} (hdraw : ∀ rank n, (draw rank n).length = n) (M rank : ℕ) :
    RepM.RunsAny (binomialAllocation W draw M rank g) (Val.UnitP W g M) := by
  unfold binomialAllocation
  by_cases h0 : M = 0
  · subst h0; exact .pure (Or.inl ⟨rfl, rfl⟩)
  rw [if_neg h0]
  refine (RepM.RunsAny.mapM (P := fun k v => Val.UnitP W g (M / 2 ^ rank * rank.choose k) v)
    (range (rank + 1)) fun k hk => ?_).bind fun terms ht => ?_
  · refine (tensor_runsAny hd k (rank - k)).bind fun r hr => .lift fun sg => ?_
    obtain ⟨v, v1, v2⟩ := Rep.mulInt_unit (W := W.setG sg) hd hr.1 (M / 2 ^ rank * rank.choose k)
    refine ⟨v, v1, ?_⟩
    rcases v2 with h | ⟨x, x1, x2, x3, x4, x5⟩
    · exact Or.inl h
    · have hr2 : r.size (W.setG sg) = 1 := hr.2
      rw [hr2, Nat.mul_one] at x3
      exact Or.inr ⟨x, x1, x2, x3, x4, x5⟩
  refine (pySum_runsAny hd (f := fun k => M / 2 ^ rank * rank.choose k) ht).bind fun even he => ?_
  refine (RepM.RunsAny.mapM (P := fun _ r => Val.UnitP W g 1 (.rep r)) (draw rank (M % 2 ^ rank)) fun p hp => ?_).bind
    fun rag hrag => ?_
  · intro sg
    obtain ⟨r, sg', r1, r2, r3⟩ := tensor_runsAny (W := W) hd p (rank - p) sg
    exact ⟨r, sg', r1, Or.inr ⟨r, rfl, r2, r3, le_refl 1, fun h => by omega⟩⟩
  refine (pySum_runsAny hd (f := fun _ : ℕ => 1) (forall₂_map_right_iff.2 hrag)).bind fun ragged hr => .lift fun sg => ?_
  obtain ⟨x, x1, x2⟩ := Val.add_unit hd sg he hr
  refine ⟨x, x1, ?_⟩
  have hb : ((range (rank + 1)).map fun k => M / 2 ^ rank * rank.choose k).sum = M / 2 ^ rank * 2 ^ rank := by
    rw [sum_map_range, ← Finset.mul_sum, Nat.sum_range_choose]
  simp only [map_const', sum_replicate, hdraw rank (M % 2 ^ rank), smul_eq_mul, mul_one] at x2
  rw [hb, Nat.div_add_mod'] at x2
  exact x2

theorem weight_one : ∀ Ns : List ℕ, weight 1 Ns = Ns.sum
  | [] => rfl
  | n :: l => by rw [weight, weight_one l]; simp

theorem uniformRep_runsAny (hd : W.d g = 1) {draw : ℕ → ℕ → List ℕ} (hdraw : ∀ rank n, (draw rank n).length = n) {ch fuel : ℕ}
    (hch : 1 ≤ ch) (hf : ch < fuel) :
    RepM.RunsAny (uniformRep W draw fuel ch g) fun r => r.UnitP g ∧ r.size W = ch ∧ (2 ≤ ch → ∃ s, r = .sum s ∧ s.perm = range ch) := by
  unfold uniformRep
  obtain ⟨w, w1, w2⟩ := lambertLoop_spec (ch := ch) (d := W.d g) (by omega) fuel 0 (by omega) (by omega) (by simp)
  have hl : lambertW fuel ch (W.d g) = some ((w : ℤ) - 1) := by
    unfold lambertW; rw [w1]; rfl
  obtain ⟨Ns, n1, n2, n3, -⟩ := uniformLoop_spec (d := W.d g) (by omega) fuel ch (replicate ((w : ℤ) - 1 + 1).toNat 0) hf (fun r hr => by
    have := (w2 r).2 (by exact_mod_cast hr)
    simp; omega)
  simp only [hl, n1]
  rw [hd, weight_one, weight_one, sum_replicate, smul_zero, Nat.zero_add] at n3
  refine (RepM.RunsAny.mapM (P := fun (nr : ℕ × ℕ) v => Val.UnitP W g nr.1 v) Ns.zipIdx fun nr hnr =>
    binomialAllocation_runsAny hd hdraw nr.1 nr.2).bind fun terms ht => ?_
  refine (pySum_runsAny hd (f := fun nr : ℕ × ℕ => nr.1) ht).bind fun v hv => ?_
  have e : (Ns.zipIdx.map fun a => a.1).sum = Ns.sum := by rw [zipIdx_map_fst]
  rw [e, n3] at hv
  rcases hv with ⟨-, h⟩ | ⟨r, rfl, hr, hrs, hc, hsum⟩
  · omega
  refine RepM.RunsAny.bind (P := fun c => c.1.UnitP g ∧ c.1.size W = ch ∧ (2 ≤ ch → ∃ s, c.1 = .sum s ∧ s.perm = range ch))
    (.lift fun sg => ?_) fun c hc' => .pure hc'
  match r, hr with
  | .key k, hr =>
    obtain ⟨k', k1, k2⟩ := Key.UnitP.canon (W := W.setG sg) hd hr
    refine ⟨(.key k', [0]), by simp only [Rep.canon]; rw [k1]; rfl, k2, ?_, fun h2 => ?_⟩
    · have h1 : (Rep.key k).size W = 1 := Key.UnitP.size hd hr
      have h2 : (Rep.key k').size W = 1 := Key.UnitP.size hd k2
      rw [h2, ← hrs, h1]
    · obtain ⟨s, hs⟩ := hsum h2
      cases hs
  | .sum s, hr =>
    obtain ⟨h1, h2, h3⟩ := mkSumC_unit (W.setG sg) hr.1 hr.2
    have hs : s.c.sumSize (Key.size (W.setG sg)) = ch := hrs
    rw [hs] at h2 h3
    exact ⟨_, rfl, h1, h2, fun _ => ⟨_, rfl, h3⟩⟩

end Verif
