import Verif.Model.UniformRep
import Verif.Lemmas.SetG
import Verif.Lemmas.RepOps
import Verif.Props.Deferred
import Mathlib.Data.Nat.Choose.Sum

/-! Allocating channels: the counts add up, and the sums of tensors are built. -/
namespace Verif
open List

/-! ### Arithmetic -/

/-- The channels that `r+1` ranks take at least. -/
theorem lambert_mono {d : ℕ} (hd : 1 ≤ d) {r s : ℕ} (h : r ≤ s) : (r + 1) * d ^ r ≤ (s + 1) * d ^ s :=
  Nat.mul_le_mul (by omega) (Nat.pow_le_pow_right hd h)

theorem lambert_ge {d : ℕ} (hd : 1 ≤ d) (r : ℕ) : r + 1 ≤ (r + 1) * d ^ r :=
  Nat.le_mul_of_pos_right _ (Nat.pow_pos hd)

theorem lambertLoop_spec {ch : ℤ} {d : ℕ} (hd : 1 ≤ d) : ∀ (fuel r : ℕ), 0 < r + fuel → ch < r + fuel → (∀ s < r, ((s + 1) * d ^ s : ℕ) ≤ ch) →
    ∃ w, lambertLoop ch d fuel r = some w ∧ ∀ s : ℕ, s < w ↔ ((s + 1) * d ^ s : ℕ) ≤ ch
  | 0, r, h0, hf, hr => by
    exfalso
    rcases r with _ | r
    · omega
    · have h1 := hr r (by omega)
      have h2 := lambert_ge hd r
      have : ((r + 1 : ℕ) : ℤ) ≤ ((r + 1) * d ^ r : ℕ) := by exact_mod_cast h2
      push_cast at this hf h1
      omega
  | fuel + 1, r, _, hf, hr => by
    simp only [lambertLoop]
    by_cases h : ((r + 1) * d ^ r : ℕ) ≤ ch
    · rw [if_pos h]
      refine lambertLoop_spec hd fuel (r + 1) (by omega) (by push_cast at hf ⊢; omega) fun s hs => ?_
      rcases Nat.lt_succ_iff_lt_or_eq.1 hs with hs | rfl
      exacts [hr s hs, h]
    · rw [if_neg h]
      refine ⟨r, rfl, fun s => ⟨hr s, fun hs => ?_⟩⟩
      by_contra hlt
      have := lambert_mono hd (not_lt.1 hlt)
      have : (((r + 1) * d ^ r : ℕ) : ℤ) ≤ ((s + 1) * d ^ s : ℕ) := by exact_mod_cast this
      omega

theorem lambertLoop_zero {ch : ℤ} (hch : 1 ≤ ch) : ∀ fuel r : ℕ, lambertLoop ch 0 fuel r = none
  | 0, _ => rfl
  | fuel + 1, r => by
    simp only [lambertLoop]
    rw [if_pos, lambertLoop_zero hch]
    rcases r with _ | r
    · simpa using hch
    · simp; omega

theorem sum_map_range (f : ℕ → ℕ) : ∀ n, ((range n).map f).sum = ∑ i ∈ Finset.range n, f i
  | 0 => rfl
  | n + 1 => by rw [range_succ, map_append, sum_append, sum_map_range f n, Finset.sum_range_succ]; simp

/-- The channels taken by `Ns[i]` tensors of rank `i`, `i = 0, 1, ...`. -/
def weight (d : ℕ) : List ℕ → ℕ
  | [] => 0
  | n :: l => n + d * weight d l

theorem addPrefix_spec (d : ℕ) : ∀ (l Ns : List ℕ), l.length ≤ Ns.length →
    ∃ Ns', addPrefix Ns l = .ok Ns' ∧ Ns'.length = Ns.length ∧ weight d Ns' = weight d Ns + weight d l ∧
      Ns'.headD 0 = Ns.headD 0 + l.headD 0
  | [], Ns, _ => ⟨Ns, by cases Ns <;> rfl, rfl, by simp [weight], by simp⟩
  | a :: l, [], h => by simp at h
  | a :: l, n :: Ns, h => by
    obtain ⟨Ns', h1, h2, h3, -⟩ := addPrefix_spec d l Ns (by simpa using h)
    refine ⟨(n + a) :: Ns', ?_, by simp [h2], ?_, by simp⟩
    · simp only [addPrefix]; rw [h1]; rfl
    · simp only [weight]; rw [h3]; ring

theorem weight_round (d : ℕ) : ∀ n : ℕ, weight d ((range n).map fun i => d ^ (n - 1 - i)) = n * d ^ (n - 1)
  | 0 => rfl
  | n + 1 => by
    rw [range_succ_eq_map, map_cons, List.map_map, weight]
    have := weight_round d n
    have e : (range n).map ((fun i => d ^ (n + 1 - 1 - i)) ∘ Nat.succ) = (range n).map fun i => d ^ (n - 1 - i) := by
      apply map_congr_left
      intro i _
      show d ^ (n + 1 - 1 - (i + 1)) = _
      congr 1; omega
    rw [e, this]
    rcases n with _ | n
    · simp
    · simp only [Nat.add_sub_cancel, Nat.sub_zero]; rw [pow_succ]; ring

/-- The ranks and counts chosen take up all channels. -/
theorem uniformLoop_spec {d : ℕ} (hd : 1 ≤ d) : ∀ (fuel : ℕ) (ch : ℕ) (Ns : List ℕ), ch < fuel →
    (∀ r : ℕ, (r + 1) * d ^ r ≤ ch → r < Ns.length) →
    ∃ Ns', uniformLoop d fuel ch Ns = some (.ok Ns') ∧ Ns'.length = Ns.length ∧ weight d Ns' = weight d Ns + ch ∧
      Ns.headD 0 + (if 0 < ch then 1 else 0) ≤ Ns'.headD 0
  | 0, ch, Ns, hf, _ => by omega
  | fuel + 1, ch, Ns, hf, hr => by
    simp only [uniformLoop]
    by_cases h0 : 0 < ch
    · rw [if_pos (by exact_mod_cast h0)]
      obtain ⟨w, w1, w2⟩ := lambertLoop_spec (ch := ch) hd (fuel + 1) 0 (by omega) (by push_cast; omega) (by simp)
      have hw : 0 < w := (w2 0).2 (by simp; omega)
      have hle : w * d ^ (w - 1) ≤ ch := by
        have := (w2 (w - 1)).1 (by omega)
        have e : w - 1 + 1 = w := by omega
        rw [e] at this
        exact_mod_cast this
      have hwl : w ≤ Ns.length := by
        have := hr (w - 1) (by have e : w - 1 + 1 = w := by omega
                               rw [e]; exact hle)
        omega
      have hl : lambertW (fuel + 1) ch d = some ((w : ℤ) - 1) := by
        unfold lambertW; rw [w1]; rfl
      rw [hl]
      have hn : ((w : ℤ) - 1 + 1).toNat = w := by omega
      simp only [hn]
      obtain ⟨Ns', n1, n2, n3, n4⟩ := addPrefix_spec d ((range w).map fun i => d ^ (w - 1 - i)) Ns (by simpa using hwl)
      rw [n1]
      have hsub : ((ch : ℤ) - ((w : ℤ) - 1 + 1) * (d : ℤ) ^ (w - 1)) = ((ch - w * d ^ (w - 1) : ℕ) : ℤ) := by
        rw [Nat.cast_sub hle]; push_cast; ring
      simp only [hsub]
      have hpos : 0 < w * d ^ (w - 1) := Nat.mul_pos hw (Nat.pow_pos hd)
      obtain ⟨Ns'', m1, m2, m3, m4⟩ := uniformLoop_spec hd fuel (ch - w * d ^ (w - 1)) Ns' (by omega) (fun r h => by
        rw [n2]; exact hr r (by omega))
      refine ⟨Ns'', m1, m2.trans n2, ?_, ?_⟩
      · rw [m3, n3, weight_round]; omega
      · rw [if_pos h0]
        have hh : ((range w).map fun i => d ^ (w - 1 - i)).headD 0 = d ^ (w - 1) := by
          obtain ⟨w', rfl⟩ : ∃ w', w = w' + 1 := ⟨w - 1, by omega⟩
          rw [range_succ_eq_map]; simp
        have := Nat.pow_pos (n := w - 1) hd
        have h5 := Nat.le_of_add_right_le m4
        omega
    · rw [if_neg (by exact_mod_cast h0)]
      refine ⟨Ns, rfl, rfl, by omega, by rw [if_neg h0]; omega⟩

theorem weight_pos {d : ℕ} : ∀ {Ns : List ℕ}, 1 ≤ Ns.headD 0 → Ns.sum ≤ 1 → weight d Ns = 1
  | [], h, _ => by simp at h
  | n :: l, h, hs => by
    simp only [headD_cons, sum_cons] at h hs
    have h1 : n = 1 := by omega
    have h2 : ∀ x ∈ l, x = 0 := fun x hx => by have := List.single_le_sum (fun _ _ => Nat.zero_le _) x hx; omega
    have h3 : weight d l = 0 := by
      clear hs
      induction l with
      | nil => rfl
      | cons a t ih =>
        simp only [weight]; rw [h2 a mem_cons_self, ih fun x hx => h2 x (by simp [hx])]; simp
    simp only [weight]; rw [h1, h3]; simp

theorem weight_zipIdx (d : ℕ) : ∀ (Ns : List ℕ) (j : ℕ), ((Ns.zipIdx j).map fun nr => nr.1 * d ^ nr.2).sum = d ^ j * weight d Ns
  | [], j => by simp [weight]
  | n :: l, j => by
    simp only [zipIdx_cons, map_cons, sum_cons, weight]
    rw [weight_zipIdx d l (j + 1), pow_succ]; ring

/-! ### Running code that may change `Scalar.G` -/

variable {W : World} {g : Gid} {N : ℕ}

/-- It returns, with a result as described. -/
def RepM.Runs (W : World) (g : Gid) {α : Type} (m : RepM α) (P : α → Prop) : Prop :=
  ∀ sg, SgOK W g sg → ∃ a sg', m sg = .ok (a, sg') ∧ SgOK W g sg' ∧ P a

theorem RepM.Runs.pure {α : Type} {a : α} {P : α → Prop} (h : P a) : RepM.Runs W g (pure a) P :=
  fun sg hs => ⟨a, sg, rfl, hs, h⟩

theorem RepM.Runs.bind {α β : Type} {m : RepM α} {f : α → RepM β} {P : α → Prop} {Q : β → Prop} (hm : RepM.Runs W g m P)
    (hf : ∀ a, P a → RepM.Runs W g (f a) Q) : RepM.Runs W g (m >>= f) Q := by
  intro sg hs
  obtain ⟨a, sg1, h1, h2, h3⟩ := hm sg hs
  obtain ⟨b, sg2, h4, h5, h6⟩ := hf a h3 sg1 h2
  refine ⟨b, sg2, ?_, h5, h6⟩
  show (m sg >>= fun p => f p.1 p.2) = _
  rw [h1]; exact h4

theorem RepM.Runs.lift {α : Type} {f : World → Py α} {P : α → Prop} (h : ∀ sg, SgOK W g sg → ∃ a, f (W.setG sg) = .ok a ∧ P a) :
    RepM.Runs W g (RepM.lift W f) P := by
  intro sg hs
  obtain ⟨a, h1, h2⟩ := h sg hs
  refine ⟨a, sg, ?_, hs, h2⟩
  show (f (W.setG sg) >>= _) = _
  rw [h1]; rfl

theorem RepM.Runs.mapM {α β : Type} {f : α → RepM β} {P : α → β → Prop} : ∀ (l : List α), (∀ a ∈ l, RepM.Runs W g (f a) (P a)) →
    RepM.Runs W g (l.mapM f) fun bs => Forall₂ P l bs
  | [], _ => by rw [mapM_nil]; exact .pure .nil
  | a :: l, h => by
    rw [mapM_cons]
    refine (h a mem_cons_self).bind fun b hb => ?_
    exact (RepM.Runs.mapM l fun x hx => h x (by simp [hx])).bind fun bs hbs => .pure (.cons hb hbs)

/-- A sum of `c` tensors of total size `n`: the integer `0`, or a representation; a proper direct sum if `c ≥ 2`. -/
def Val.Good (W : World) (g : Gid) (N n c : ℕ) (v : Val) : Prop :=
  (v = .int 0 ∧ n = 0 ∧ c = 0) ∨ ∃ r, v = .rep r ∧ r.Over W g N ∧ r.size W = n ∧ 1 ≤ c ∧ (2 ≤ c → ∃ s, r = .sum s)

theorem Val.add_good (hW : W.SingleOK g N) {sg : Option Gid} (hs : SgOK W g sg) {v w : Val} {n m c e : ℕ} (hv : v.Good W g N n c)
    (hw : w.Good W g N m e) : ∃ x, Val.add (W.setG sg) v w = .ok x ∧ x.Good W g N (n + m) (c + e) := by
  rcases hv with ⟨rfl, rfl, rfl⟩ | ⟨r, rfl, hr, rfl, hc, hsum⟩
  · rcases hw with ⟨rfl, rfl, rfl⟩ | ⟨r, rfl, hr, rfl, hc, hsum⟩
    · exact ⟨.int 0, rfl, Or.inl ⟨rfl, rfl, rfl⟩⟩
    · exact ⟨.rep r, rfl, Or.inr ⟨r, rfl, hr, by omega, by omega, by simpa using hsum⟩⟩
  · rcases hw with ⟨rfl, rfl, rfl⟩ | ⟨q, rfl, hq, rfl, he, hsum'⟩
    · exact ⟨.rep r, rfl, Or.inr ⟨r, rfl, hr, by omega, by omega, by simpa using hsum⟩⟩
    · have hr' := Rep.Over.setG hW hs hr
      have hq' := Rep.Over.setG hW hs hq
      obtain ⟨x, x1, x2, x3, x4, -⟩ := Rep.add_spec (W := W.setG sg) hr'.wf hq'.wf (World.Single.st (hW.setG hs) _ fun k hk => by
        rcases mem_append.1 hk with hk | hk
        exacts [hr'.key k hk, hq'.key k hk])
      have hx : x.Over (W.setG sg) g N := ⟨x2, fun k hk => by
        rcases (x3 k).1 hk with hk | hk
        exacts [hr'.key k hk, hq'.key k hk]⟩
      refine ⟨.rep x, ?_, Or.inr ⟨x, rfl, hx.unsetG hW hs, x4, by omega, fun _ => ?_⟩⟩
      · simp only [Val.add]; rw [x1]; rfl
      · unfold Rep.add at x1
        rw [hr'.wf.concrete, hq'.wf.concrete] at x1
        simp only [Bool.and_self, if_true] at x1
        cases hm : mkSum (W.setG sg) [r, q] none with
        | error e => rw [hm] at x1; cases x1
        | ok s => rw [hm] at x1; exact ⟨s, (Except.ok.inj x1).symm⟩

theorem pySum_good (hW : W.SingleOK g N) {sg : Option Gid} (hs : SgOK W g sg) : ∀ (l : List Val) (ns cs : List ℕ) (v : Val) (n c : ℕ),
    Forall₂ (fun p v => Val.Good W g N p.1 p.2 v) (ns.zip cs) l → ns.length = cs.length → v.Good W g N n c →
    ∃ x, l.foldlM (Val.add (W.setG sg)) v = .ok x ∧ x.Good W g N (n + ns.sum) (c + cs.sum)
  | [], ns, cs, v, n, c, h, hl, hv => by
    have : ns.zip cs = [] := forall₂_nil_right_iff.1 h
    rcases ns with _ | ⟨a, ns⟩
    · have : cs = [] := by simpa using hl.symm
      subst this
      exact ⟨v, rfl, by simpa using hv⟩
    · rcases cs with _ | ⟨b, cs⟩
      · simp at hl
      · simp at this
  | w :: l, [], cs, v, n, c, h, hl, hv => by simp at h
  | w :: l, a :: ns, [], v, n, c, h, hl, hv => by simp at h
  | w :: l, a :: ns, b :: cs, v, n, c, h, hl, hv => by
    rw [zip_cons_cons, forall₂_cons] at h
    obtain ⟨x, x1, x2⟩ := Val.add_good hW hs hv h.1
    obtain ⟨y, y1, y2⟩ := pySum_good hW hs l ns cs x (n + a) (c + b) h.2 (by simpa using hl) x2
    refine ⟨y, ?_, by simpa [Nat.add_assoc] using y2⟩
    rw [foldlM_cons, x1]; exact y1

/-- The builtin `sum` of a list of values described by the function `f`. -/
theorem pySum_runs (hW : W.SingleOK g N) {α : Type} {as : List α} {f : α → ℕ × ℕ} {l : List Val}
    (h : Forall₂ (fun a v => Val.Good W g N (f a).1 (f a).2 v) as l) :
    RepM.Runs W g (RepM.lift W fun W => pySum W l) (Val.Good W g N (as.map fun a => (f a).1).sum (as.map fun a => (f a).2).sum) := by
  refine .lift fun sg hs => ?_
  obtain ⟨x, x1, x2⟩ := pySum_good hW hs l (as.map fun a => (f a).1) (as.map fun a => (f a).2) (.int 0) 0 0 (by
    have : (as.map fun a => (f a).1).zip (as.map fun a => (f a).2) = as.map f := by
      rw [zip_map']
    rw [this]
    exact forall₂_map_left_iff.2 h) (by simp) (Or.inl ⟨rfl, rfl, rfl⟩)
  exact ⟨x, x1, by simpa using x2⟩

theorem tensor_runs (hW : W.SingleOK g N) (hd : 2 ≤ W.d g) (hdN : W.d g ≤ N) {p q : ℕ} (hN : W.d g ^ (p + q) ≤ N) :
    RepM.Runs W g (RepM.tensor W p q g) fun r => r.Over W g N ∧ r.size W = W.d g ^ (p + q) := by
  intro sg hs
  obtain ⟨r, sg', h1, h2, h3, h4, -⟩ := C12_tensor (W := W.setG sg) (hW.setG hs) hd p q hN hdN
  exact ⟨r, sg', h1, h3, h2.unsetG hW hs, h4⟩

theorem mulInt_good (hW : W.SingleOK g N) {sg : Option Gid} (hs : SgOK W g sg) {r : Rep} (hr : r.Over W g N) (n : ℕ) :
    ∃ v, Rep.mulInt (W.setG sg) r n = .ok v ∧ v.Good W g N (n * r.size W) n := by
  rcases Nat.eq_zero_or_pos n with rfl | hn
  · exact ⟨.int 0, rfl, Or.inl ⟨rfl, by simp, rfl⟩⟩
  · have hr' := Rep.Over.setG hW hs hr
    obtain ⟨x, x1, x2, x3, x4, -⟩ := Rep.mulInt_spec (W := W.setG sg) hr'.wf (World.Single.st (hW.setG hs) _ hr'.key) hn
    have hx : x.Over (W.setG sg) g N := ⟨x2, fun k hk => hr'.key k ((x4 k).1 hk)⟩
    refine ⟨.rep x, x1, Or.inr ⟨x, rfl, hx.unsetG hW hs, x3, hn, fun h2 => ?_⟩⟩
    unfold Rep.mulInt at x1
    rw [if_neg (by omega), if_neg (by omega), hr'.wf.concrete] at x1
    simp only [if_true] at x1
    cases hm : mkSum (W.setG sg) (replicate (n : ℤ).toNat r) none with
    | error e => rw [hm] at x1; cases x1
    | ok s => rw [hm] at x1; exact ⟨s, (Val.rep.inj (Except.ok.inj x1)).symm⟩

theorem binomialAllocation_runs (hW : W.SingleOK g N) (hd : 2 ≤ W.d g) (hdN : W.d g ≤ N) {draw : ℕ → ℕ → List ℕ}
    (hdraw : ∀ rank n, (draw rank n).length = n ∧ ∀ p ∈ draw rank n, p ≤ rank) {M rank : ℕ} (hN : 0 < M → W.d g ^ rank ≤ N) :
    RepM.Runs W g (binomialAllocation W draw M rank g) (Val.Good W g N (M * W.d g ^ rank) M) := by
  unfold binomialAllocation
  by_cases h0 : M = 0
  · subst h0; exact .pure (Or.inl ⟨rfl, by simp, rfl⟩)
  rw [if_neg h0]
  have hN := hN (Nat.pos_of_ne_zero h0)
  have hpow : ∀ k ≤ rank, W.d g ^ (k + (rank - k)) = W.d g ^ rank := fun k hk => by congr 1; omega
  refine (RepM.Runs.mapM (P := fun k v => Val.Good W g N (M / 2 ^ rank * rank.choose k * W.d g ^ rank) (M / 2 ^ rank * rank.choose k) v)
    (range (rank + 1)) fun k hk => ?_).bind fun terms ht => ?_
  · have hk : k ≤ rank := by have := mem_range.1 hk; omega
    refine (tensor_runs hW hd hdN (by rw [hpow k hk]; exact hN)).bind fun r hr => .lift fun sg hs => ?_
    obtain ⟨v, v1, v2⟩ := mulInt_good hW hs hr.1 (M / 2 ^ rank * rank.choose k)
    exact ⟨v, v1, by rw [hr.2, hpow k hk] at v2; exact v2⟩
  refine (pySum_runs hW (f := fun k => (M / 2 ^ rank * rank.choose k * W.d g ^ rank, M / 2 ^ rank * rank.choose k)) ht).bind fun even he => ?_
  refine (RepM.Runs.mapM (P := fun _ r => Val.Good W g N (W.d g ^ rank) 1 (.rep r)) (draw rank (M % 2 ^ rank)) fun p hp => ?_).bind
    fun rag hrag => ?_
  · have hp : p ≤ rank := (hdraw _ _).2 p hp
    intro sg hs
    obtain ⟨r, sg', r1, r2, r3⟩ := tensor_runs hW hd hdN (p := p) (q := rank - p) (by rw [hpow p hp]; exact hN) sg hs
    exact ⟨r, sg', r1, r2, Or.inr ⟨r, rfl, r3.1, by rw [r3.2, hpow p hp], le_refl 1, fun h => by omega⟩⟩
  refine (pySum_runs hW (f := fun _ : ℕ => (W.d g ^ rank, 1)) (forall₂_map_right_iff.2 hrag)).bind fun ragged hr => .lift fun sg hs => ?_
  obtain ⟨x, x1, x2⟩ := Val.add_good hW hs he hr
  refine ⟨x, x1, ?_⟩
  have hb : ((range (rank + 1)).map fun k => M / 2 ^ rank * rank.choose k).sum = M / 2 ^ rank * 2 ^ rank := by
    rw [sum_map_range, ← Finset.mul_sum, Nat.sum_range_choose]
  have hb' : ((range (rank + 1)).map fun k => M / 2 ^ rank * rank.choose k * W.d g ^ rank).sum = M / 2 ^ rank * 2 ^ rank * W.d g ^ rank := by
    rw [← hb, ← List.sum_map_mul_right]
  simp only [map_const', sum_replicate, (hdraw rank (M % 2 ^ rank)).1, smul_eq_mul, mul_one] at x2
  rw [hb, hb', ← Nat.add_mul, Nat.div_add_mod'] at x2
  exact x2

theorem uniformRep_runs (hW : W.SingleOK g N) (hd : 2 ≤ W.d g) (hdN : W.d g ≤ N) {draw : ℕ → ℕ → List ℕ}
    (hdraw : ∀ rank n, (draw rank n).length = n ∧ ∀ p ∈ draw rank n, p ≤ rank) {ch fuel : ℕ} (hch : 1 ≤ ch) (hN : ch ≤ N) (hf : ch < fuel) :
    RepM.Runs W g (uniformRep W draw fuel ch g) fun r => r.Over W g N ∧ r.size W = ch ∧ r = r.base W ∧ (2 ≤ ch → ∃ s, r = .sum s) := by
  unfold uniformRep
  obtain ⟨w, w1, w2⟩ := lambertLoop_spec (ch := ch) (d := W.d g) (by omega) fuel 0 (by omega) (by omega) (by simp)
  have hl : lambertW fuel ch (W.d g) = some ((w : ℤ) - 1) := by
    unfold lambertW; rw [w1]; rfl
  obtain ⟨Ns, n1, n2, n3, n4⟩ := uniformLoop_spec (d := W.d g) (by omega) fuel ch (replicate ((w : ℤ) - 1 + 1).toNat 0) hf (fun r hr => by
    have := (w2 r).2 (by exact_mod_cast hr)
    simp; omega)
  simp only [hl, n1]
  have hwz : ∀ n, weight (W.d g) (replicate n 0) = 0 := fun n => by
    induction n with
    | zero => rfl
    | succ n ih => rw [replicate_succ, weight, ih]; simp
  have hlen : Ns.length = w := by rw [n2]; simp
  rw [hwz, Nat.zero_add] at n3
  have hbig : ∀ i < w, W.d g ^ i ≤ N := fun i hi => by
    have := (w2 i).1 hi
    have : (i + 1) * W.d g ^ i ≤ ch := by exact_mod_cast this
    exact (Nat.le_mul_of_pos_left _ (by omega)).trans (this.trans hN)
  refine (RepM.Runs.mapM (P := fun (nr : ℕ × ℕ) v => Val.Good W g N (nr.1 * W.d g ^ nr.2) nr.1 v) Ns.zipIdx fun nr hnr => ?_).bind fun terms ht => ?_
  · refine binomialAllocation_runs hW hd hdN hdraw fun _ => hbig _ ?_
    have := snd_lt_of_mem_zipIdx hnr
    omega
  refine (pySum_runs hW (f := fun nr : ℕ × ℕ => (nr.1 * W.d g ^ nr.2, nr.1)) ht).bind fun v hv => ?_
  have hsz := weight_zipIdx (W.d g) Ns 0
  rw [pow_zero, Nat.one_mul, n3] at hsz
  simp only at hv
  rw [hsz] at hv
  rcases hv with ⟨-, h, -⟩ | ⟨r, rfl, hr, hrs, hc, hsum⟩
  · omega
  refine RepM.Runs.bind (P := fun c => c.1 = r.base W) (.lift fun sg hs => ?_) fun c hc' => ?_
  · exact ⟨_, Rep.canon_wf (Rep.Over.setG hW hs hr).wf, rfl⟩
  · refine .pure ?_
    rw [hc']
    have hb : (r.base W).base W = r.base W := by
      match r, hr with
      | .key k, _ => simp [Rep.base, Key.base_base]
      | .sum s, _ => rfl
    refine ⟨⟨hr.wf.base, by rw [Rep.keys_base]; exact hr.key⟩, by rw [Rep.size_base, hrs], hb.symm, fun h2 => ?_⟩
    obtain ⟨s, rfl⟩ := hsum (by
      by_contra hlt
      have e : (Ns.zipIdx.map fun a => a.1).sum = Ns.sum := by rw [zipIdx_map_fst]
      have h1 : 1 ≤ Ns.headD 0 := by rw [if_pos (by omega)] at n4; omega
      have := weight_pos (d := W.d g) h1 (by omega)
      omega)
    exact ⟨_, rfl⟩

end Verif
