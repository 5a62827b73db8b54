import Verif.Lemmas.SetG
import Verif.Lemmas.RepOps
import Verif.Lemmas.AsDict
import Verif.Lemmas.DenseRing
import Verif.Lemmas.Projector

/-! `gated`, `gate_indices` and the gated nonlinearity. -/
namespace Verif
open List
variable {W : World} {g : Gid} {N : ℕ} {x : Option Gid}

theorem Key.needsGate_base (k : Key) : (k.base W).needsGate W = k.needsGate W := by
  cases k with
  | scalar => rfl
  | fac f => cases f <;> rfl
  | dprod d => rfl

theorem Key.needsGate_ne {k : Key} (h : k.needsGate W = true) : k ≠ .scalar := by
  rintro rfl; simp [Key.needsGate] at h

theorem Atom.isPerm_iff (a : Atom) : a.isPerm W = true ↔ a.ofPerm W := by
  unfold Atom.isPerm Atom.ofPerm
  split
  · rename_i h; exact ⟨fun e => ⟨h, .inl rfl, e⟩, by rintro ⟨_, h | h, e⟩ <;> simp_all⟩
  · rename_i h; exact ⟨fun e => ⟨h, .inr rfl, e⟩, by rintro ⟨_, h | h, e⟩ <;> simp_all⟩
  · rename_i h1 h2
    refine ⟨fun e => by simp at e, ?_⟩
    rintro ⟨h, rfl | rfl, e⟩
    exacts [absurd rfl (h1 h), absurd rfl (h2 h)]

theorem expand_keys {K : Type} {c : Counter K} (hp : ∀ kc ∈ c, kc.2 ≠ 0) {k : K} : k ∈ c.expand ↔ k ∈ c.keys := by
  refine ⟨Counter.mem_expand, fun h => ?_⟩
  obtain ⟨kc, hkc, rfl⟩ := mem_map.1 h
  refine mem_flatMap.2 ⟨kc, hkc, ?_⟩
  rw [mem_replicate]; exact ⟨hp kc hkc, rfl⟩

theorem Fac.isPerm_iff {f : Fac} (h : f.WF W) : f.isPerm W = true ↔ ∀ a ∈ f.letters, a.ofPerm W := by
  cases f with
  | atom a => simp [Fac.isPerm, Fac.letters, Atom.isPerm_iff]
  | prod p =>
    simp only [Fac.isPerm, Fac.letters, PRep.isPerm, all_eq_true, Atom.isPerm_iff]
    exact ⟨fun h' a ha => h' a (Counter.mem_expand ha), fun h' a ha => h' a ((expand_keys (PRep.WF.cnt h).pos).2 ha)⟩

theorem Key.isPerm_iff {k : Key} (h : k.WF W) : k.isPerm W = true ↔ ∀ a ∈ k.letters, a.ofPerm W := by
  cases k with
  | scalar => simp [Key.isPerm, Key.letters]
  | fac f => exact Fac.isPerm_iff h
  | dprod d =>
    simp only [Key.isPerm, Key.letters, all_eq_true, mem_flatMap]
    constructor
    · rintro h' a ⟨f, hf, ha⟩
      have hf' := Counter.mem_expand hf
      exact (Fac.isPerm_iff (DRep.WF.key h f hf')).1 (h' f hf') a ha
    · intro h' f hf
      exact (Fac.isPerm_iff (DRep.WF.key h f hf)).2 fun a ha => h' a ⟨f, (expand_keys (DRep.WF.cnt h).pos).2 hf, ha⟩

theorem Key.needsGate_iff {k : Key} (h : k.WF W) : k.needsGate W = true ↔ k.Gated W := by
  have := Key.isPerm_iff h
  simp only [Key.needsGate, Key.Gated, Bool.and_eq_true, bne_iff_ne, Bool.not_eq_true', ← Bool.not_eq_true, this]
  push Not; rfl

open Classical in
theorem gatesOf_eq (l : List Key) (h : ∀ k ∈ l, k.WF W) : gatesOf W l = (l.filter (Key.needsGate W)).length := by
  rw [gatesOf, countP_eq_length_filter]
  congr 1
  refine filter_congr fun k hk => ?_
  rw [Bool.eq_iff_iff, decide_eq_true_iff, Key.needsGate_iff (h k hk)]

theorem Rep.WF.summands {r : Rep} (h : r.WF W) : ∀ k ∈ r.summands W, k.WF W := by
  match r, h with
  | .key k, h => simpa [Rep.summands] using Key.WF.base h
  | .sum s, h => exact fun k hk => (SRep.WF.key h k (Counter.mem_expand hk)).1

theorem Rep.WF.gates {r : Rep} (h : r.WF W) : r.gates W = ((r.summands W).filter (Key.needsGate W)).length :=
  gatesOf_eq _ h.summands

theorem single_scalar (hW : W.SingleOK g N) : W.Single g N .scalar := ⟨hW.pos, trivial⟩

theorem over_scalar (hW : W.SingleOK g N) : (Rep.key .scalar).Over W g N :=
  ⟨trivial, by simpa [Rep.keys, Key.base] using single_scalar hW⟩

theorem gateScalars_ok (hx : SgOK W g x) (l : List Key) (hl : ∀ k ∈ l, W.Single g N k ∧ k ≠ .scalar) :
    ∃ y, gateScalars W x l = .ok (replicate l.length (.rep (.key .scalar)), y) ∧ SgOK W g y := by
  induction l generalizing x with
  | nil => exact ⟨x, rfl, hx⟩
  | cons k t ih =>
    obtain ⟨y, h1, h2⟩ := ih (SgOK.some W g) fun j hj => hl j (by simp [hj])
    have hk := hl k (by simp)
    have hG : k.G? (W.setG x) = some (some g) := World.Single.G ((setG_single k).2 hk.1) hk.2
    refine ⟨y, ?_, h2⟩
    simp only [gateScalars, hG, h1]
    rfl

/-- A sum of scalars is a trivial representation. -/
theorem pySum_scalars (hW : W.SingleOK g N) (n : ℕ) : ∃ r, pySum W (replicate (n + 1) (.rep (.key .scalar))) = .ok (.rep r) ∧ r.Over W g N ∧
    r.size W = n + 1 ∧ ∀ (R : Type) [CommRing R] (I : Interp R), I.Sized W → r.mat I = DMat.one (n + 1) := by
  have gen : ∀ (n : ℕ) (a : Rep) (m : ℕ), a.Over W g N → a.size W = m →
      (∀ (R : Type) [CommRing R] (I : Interp R), I.Sized W → a.mat I = DMat.one m) →
      ∃ r, (replicate n (Val.rep (.key .scalar))).foldlM (Val.add W) (.rep a) = .ok (.rep r) ∧ r.Over W g N ∧
        r.size W = m + n ∧ ∀ (R : Type) [CommRing R] (I : Interp R), I.Sized W → r.mat I = DMat.one (m + n) := by
    intro n
    induction n with
    | zero => intro a m ha hm hI; exact ⟨a, rfl, ha, hm, hI⟩
    | succ n ih =>
      intro a m ha hm hI
      have hs := over_scalar hW
      obtain ⟨b, b1, b2, b3, b4, b5⟩ := Rep.add_spec ha.wf hs.wf
        (World.Single.st hW _ (by intro k hk; rcases mem_append.1 hk with h | h; exacts [ha.key k h, hs.key k h]))
      obtain ⟨r, r1, r2, r3, r4⟩ := ih b (m + 1) ⟨b2, fun k hk => by rcases (b3 k).1 hk with h | h; exacts [ha.key k h, hs.key k h]⟩
        (by rw [b4, hm]; rfl) (fun R _ I hI' => by
          rw [b5 R I hI', hI R I hI', show (Rep.key .scalar).mat I = DMat.one 1 from rfl]
          simp only [DMat.bdiag, DMat.bdiag2_zero, DMat.bdiag2_one])
      refine ⟨r, ?_, r2, by rw [r3]; omega, fun R _ I hI' => by rw [r4 R I hI']; congr 1; omega⟩
      rw [replicate_succ, foldlM_cons]
      simp only [Val.add, b1]
      exact r1
  obtain ⟨r, r1, r2, r3, r4⟩ := gen n (.key .scalar) 1 (over_scalar hW) rfl fun R _ I _ => rfl
  refine ⟨r, ?_, r2, by omega, fun R _ I hI => by rw [r4 R I hI]; congr 1; omega⟩
  rw [pySum, replicate_succ, foldlM_cons]
  exact r1

theorem Rep.Over.isSumOrKey {r : Rep} (h : r.Over W g N) : (∃ k, r = .key k) ∨ ∃ s, r = .sum s := by
  match r, h.wf with
  | .key k, _ => exact .inl ⟨k, rfl⟩
  | .sum s, _ => exact .inr ⟨s, rfl⟩

/-- `gated(rep)` appends one trivial coordinate for each gate. -/
theorem gated_spec (hW : W.SingleOK g N) (hx : SgOK W g x) {r : Rep} (hr : r.Over W g N) :
    ∃ r' y, gated W r x = .ok (r', y) ∧ SgOK W g y ∧ r'.Over W g N ∧ r'.size W = r.size W + r.gates W ∧
      ((∃ s, r = .sum s) → ∃ s, r' = .sum s) ∧
      ∀ (R : Type) [CommRing R] (I : Interp R), I.Sized W → r'.mat I = DMat.bdiag2 (r.mat I) (DMat.one (r.gates W)) := by
  have addOne : ∀ {y} (_ : SgOK W g y) {a b : Rep}, a.Over W g N → b.Over (W.setG y) g N →
      (∀ (R : Type) [CommRing R] (I : Interp R), I.Sized W → b.mat I = DMat.one (b.size W)) →
      ∃ c, Rep.add (W.setG y) a b = .ok (.sum c) ∧ (Rep.sum c).Over W g N ∧ (Rep.sum c).size W = a.size W + b.size W ∧
        ∀ (R : Type) [CommRing R] (I : Interp R), I.Sized W → (Rep.sum c).mat I = DMat.bdiag2 (a.mat I) (DMat.one (b.size W)) := by
    intro y hy a b ha hb hm
    have hW' := hW.setG hy
    have ha' := ha.setG hW hy
    obtain ⟨c, c1, c2, c3, c4, c5⟩ := Rep.add_spec ha'.wf hb.wf
      (World.Single.st hW' _ (by intro k hk; rcases mem_append.1 hk with h | h; exacts [ha'.key k h, hb.key k h]))
    have hc : c.Over (W.setG y) g N := ⟨c2, fun k hk => by rcases (c3 k).1 hk with h | h; exacts [ha'.key k h, hb.key k h]⟩
    have : ∃ s, c = .sum s := by
      unfold Rep.add at c1
      rw [ha'.wf.concrete, hb.wf.concrete] at c1
      match hmk : mkSum (W.setG y) [a, b] none with
      | .ok s => rw [hmk] at c1; exact ⟨s, (Except.ok.inj c1).symm⟩
      | .error e => rw [hmk] at c1; exact absurd c1 (by simp [bind, Except.bind])
    obtain ⟨s, rfl⟩ := this
    refine ⟨s, c1, hc.unsetG hW hy, c4, fun R _ I hI => ?_⟩
    rw [c5 R I (setG_sized.2 hI), hm R I hI]
    simp [DMat.bdiag, DMat.bdiag2_zero]
  rcases hr.isSumOrKey with ⟨k, rfl⟩ | ⟨s, rfl⟩
  · unfold gated
    by_cases hp : k.isPerm W
    · refine ⟨.key k, x, by simp [hp], hx, hr, ?_, fun ⟨s, h⟩ => by simp at h, ?_⟩
      · have : (Rep.key k).gates W = 0 := by
          simp only [hr.wf.gates, Rep.summands, filter_cons, filter_nil, Key.needsGate_base]
          simp [Key.needsGate, hp]
        rw [this]; rfl
      · intro R _ I hI
        have : (Rep.key k).gates W = 0 := by
          simp only [hr.wf.gates, Rep.summands, filter_cons, filter_nil, Key.needsGate_base]
          simp [Key.needsGate, hp]
        rw [this]
        have : (DMat.one 0 : DMat R) = DMat.zero 0 0 := DMat.ext rfl rfl fun i j hi => absurd hi (by simp [DMat.one])
        rw [this, DMat.bdiag2_zero]
    · have hks : k ≠ .scalar := by rintro rfl; simp [Key.isPerm] at hp
      have hS := hr.key (k.base W) (by simp [Rep.keys])
      have hG : k.G? (W.setG x) = some (some g) := by
        have hb : k.base W ≠ .scalar := by cases k <;> simp_all [Key.base]
        have := World.Single.G ((setG_single (x := x) _).2 hS) hb
        cases k with
        | scalar => exact absurd rfl hks
        | fac f => cases f <;> exact this
        | dprod d => exact this
      have hgt : (Rep.key k).gates W = 1 := by
        simp only [hr.wf.gates, Rep.summands, filter_cons, filter_nil, Key.needsGate_base]
        simp [Key.needsGate, hp, hks]
      obtain ⟨c, c1, c2, c3, c4⟩ := addOne (SgOK.some W g) hr ((over_scalar hW).setG hW (SgOK.some W g)) fun R _ I _ => rfl
      refine ⟨.sum c, some g, ?_, SgOK.some W g, c2, ?_, fun ⟨s, h⟩ => by simp at h, ?_⟩
      · simp only [hp, hG, c1]; rfl
      · rw [c3, hgt]; rfl
      · intro R _ I hI; rw [c4 R I hI, hgt]; rfl
  · obtain ⟨y, h1, h2⟩ := gateScalars_ok (N := N) hx (s.c.expand.filter (Key.needsGate W)) (by
      intro k hk
      obtain ⟨hk1, hk2⟩ := mem_filter.1 hk
      exact ⟨hr.key k (Counter.mem_expand hk1), Key.needsGate_ne hk2⟩)
    have hg : (s.c.expand.filter (Key.needsGate W)).length = (Rep.sum s).gates W := hr.wf.gates.symm
    rw [hg] at h1
    unfold gated
    rcases Nat.eq_zero_or_pos ((Rep.sum s).gates W) with h0 | h0
    · refine ⟨.sum s, y, ?_, h2, hr, by rw [h0]; rfl, fun _ => ⟨s, rfl⟩, ?_⟩
      · simp only [h1, h0]; rfl
      · intro R _ I hI
        rw [h0]
        have : (DMat.one 0 : DMat R) = DMat.zero 0 0 := DMat.ext rfl rfl fun i j hi => absurd hi (by simp [DMat.one])
        rw [this, DMat.bdiag2_zero]
    · obtain ⟨n, hn⟩ : ∃ n, (Rep.sum s).gates W = n + 1 := ⟨_, (Nat.succ_pred_eq_of_pos h0).symm⟩
      rw [hn] at h1 ⊢
      obtain ⟨t, t1, t2, t3, t4⟩ := pySum_scalars (hW.setG h2) n
      obtain ⟨c, c1, c2, c3, c4⟩ := addOne h2 hr t2 (fun R _ I hI => by rw [t4 R I (setG_sized.2 hI)]; rw [← t3]; rfl)
      have e : t.size W = n + 1 := t3
      refine ⟨.sum c, y, ?_, h2, c2, ?_, fun _ => ⟨c, rfl⟩, ?_⟩
      · simp only [h1, bind, Except.bind, t1, Val.add, c1]
      · rw [c3, e]
      · intro R _ I hI; rw [c4 R I hI, e]

/-! ### `gate_indices` -/

theorem setAt_range {pre : List ℕ} (v a b : ℕ) :
    setAt (pre ++ range' pre.length (a + b)) (range' pre.length a) v = pre ++ replicate a v ++ range' (pre.length + a) b := by
  induction a generalizing pre with
  | zero => simp [setAt]
  | succ a ih =>
    have h := @ih (pre ++ [v])
    rw [length_append, length_singleton] at h
    rw [show a + 1 + b = (a + b) + 1 by omega, range'_succ, range'_succ]
    simp only [setAt, foldl_cons]
    have e : (pre ++ pre.length :: range' (pre.length + 1) (a + b)).set pre.length v = pre ++ [v] ++ range' (pre.length + 1) (a + b) := by
      rw [set_append_right _ _ (le_refl _)]; simp
    rw [e]
    have h' := h
    simp only [setAt] at h'
    rw [h', replicate_succ]
    simp [Nat.add_assoc, Nat.add_comm 1]

/-- The list of indices, block by block. -/
def gateList (W : World) (channels : ℕ) : ℕ → ℕ → List Key → List ℕ
  | _, _, [] => []
  | i, num, k :: t =>
    if k.needsGate W then replicate (k.size W) (channels + num) ++ gateList W channels (i + k.size W) (num + 1) t
    else range' i (k.size W) ++ gateList W channels (i + k.size W) num t

theorem drop_take_range {n i a : ℕ} (h : i + a ≤ n) : ((range n).drop i).take a = range' i a := by
  rw [range_eq_range', drop_range']
  refine ext_getElem (by simp; omega) fun j h1 h2 => ?_
  simp

theorem gateLoop_eq (n : ℕ) (ks : List Key) : ∀ (pre : List ℕ) (num : ℕ), pre.length + (ks.map (Key.size W)).sum = n →
    gateLoop W n (range n) pre.length num ks (pre ++ range' pre.length (ks.map (Key.size W)).sum) =
      pre ++ gateList W n pre.length num ks := by
  induction ks with
  | nil => intro pre num _; simp [gateLoop, gateList]
  | cons k t ih =>
    intro pre num h
    simp only [map_cons, sum_cons] at h ⊢
    simp only [gateLoop, gateList]
    split_ifs with hg
    · rw [drop_take_range (by omega), setAt_range]
      have := ih (pre ++ replicate (k.size W) (n + num)) (num + 1) (by simp; omega)
      rw [length_append, length_replicate] at this
      rw [this, append_assoc]
    · have := ih (pre ++ range' pre.length (k.size W)) num (by simp; omega)
      rw [length_append, length_range'] at this
      have e : pre ++ range' pre.length (k.size W + (t.map (Key.size W)).sum) =
          pre ++ range' pre.length (k.size W) ++ range' (pre.length + k.size W) (t.map (Key.size W)).sum := by
        rw [append_assoc, range'_append_1]
      rw [e, this, append_assoc]

theorem gateIndices_ok {s : SRep} (h : s.WF W) (hc : s.canonical = true) :
    gateIndices W (.sum s) = .ok (.ints (gateList W (s.size W) 0 0 s.c.expand)) := by
  unfold gateIndices
  have hp : s.perm = range (s.size W) := by
    have := hc
    unfold SRep.canonical at this
    rw [beq_iff_eq, length_of_perm_range h.perm] at this
    exact this
  have hz : (s.c.expand.map (Key.size W)).sum = s.size W := by rw [sum_map_expand]; rfl
  have := gateLoop_eq (W := W) (s.size W) s.c.expand [] 0 (by simp [hz])
  simp only [length_nil, nil_append, hz] at this
  show (if s.canonical = true then Except.ok (GateIdx.ints (gateLoop W (SRep.size W s) s.perm 0 0 s.c.expand (range (SRep.size W s)))) else _) = _
  rw [if_pos hc, hp]
  rw [range_eq_range'] at this ⊢
  rw [this]

theorem gateList_length (n : ℕ) (ks : List Key) : ∀ i num, (gateList W n i num ks).length = (ks.map (Key.size W)).sum := by
  induction ks with
  | nil => intro _ _; rfl
  | cons k t ih => intro i num; simp only [gateList]; split_ifs <;> simp [ih]

theorem gateList_append (n : ℕ) (ks ls : List Key) : ∀ i num, gateList W n i num (ks ++ ls) =
    gateList W n i num ks ++ gateList W n (i + (ks.map (Key.size W)).sum) (num + (ks.filter (Key.needsGate W)).length) ls := by
  induction ks with
  | nil => intro i num; simp [gateList]
  | cons k t ih =>
    intro i num
    simp only [cons_append, gateList, map_cons, sum_cons, filter_cons]
    split_ifs with h
    · rw [ih, append_assoc, length_cons]; congr 3 <;> omega
    · rw [ih, append_assoc]; congr 3; omega

theorem gateList_lt (n : ℕ) (ks : List Key) : ∀ i num, i + (ks.map (Key.size W)).sum ≤ n →
    ∀ j ∈ gateList W n i num ks, j < n + num + (ks.filter (Key.needsGate W)).length := by
  induction ks with
  | nil => intro i num _ j hj; simp [gateList] at hj
  | cons k t ih =>
    intro i num h j hj
    simp only [map_cons, sum_cons] at h
    simp only [gateList, filter_cons] at hj ⊢
    split_ifs at hj ⊢ with hg
    · rcases mem_append.1 hj with hj | hj
      · have := (mem_replicate.1 hj).2; simp; omega
      · have := ih _ _ (by omega) j hj; simp; omega
    · rcases mem_append.1 hj with hj | hj
      · have := (mem_range'_1.1 hj).2; omega
      · exact ih _ _ (by omega) j hj

/-! ### The nonlinearity -/

section
variable {R : Type} [CommRing R]

/-- The gated nonlinearity, block by block. -/
def gateOut (W : World) (act : R → R) : List Key → List R → List R → List R
  | [], _, _ => []
  | k :: t, v, gs =>
    if k.needsGate W then (v.take (k.size W)).map (act (gs.getD 0 0) * ·) ++ gateOut W act t (v.drop (k.size W)) gs.tail
    else (v.take (k.size W)).map (fun a => act a * a) ++ gateOut W act t (v.drop (k.size W)) gs

theorem gateOut_length (act : R → R) (ks : List Key) : ∀ (v gs : List R), v.length = (ks.map (Key.size W)).sum →
    (gateOut W act ks v gs).length = (ks.map (Key.size W)).sum := by
  induction ks with
  | nil => intro v gs _; rfl
  | cons k t ih =>
    intro v gs h
    simp only [map_cons, sum_cons] at h ⊢
    simp only [gateOut]
    split_ifs <;> simp [ih _ _ (show (v.drop (k.size W)).length = _ by simp; omega)] <;> omega

theorem gate_eq (act : R → R) (ks : List Key) : ∀ (pre v used gs : List R), v.length = (ks.map (Key.size W)).sum →
    gs.length = (ks.filter (Key.needsGate W)).length →
    zipWith (fun g v => act g * v) (sel (pre ++ v ++ (used ++ gs)) (gateList W (pre.length + v.length) pre.length used.length ks)) v =
      gateOut W act ks v gs := by
  induction ks with
  | nil => intro pre v used gs _ _; simp [gateList, gateOut, sel]
  | cons k t ih =>
    intro pre v used gs hv hgs
    simp only [map_cons, sum_cons] at hv
    obtain ⟨v1, hv1⟩ : ∃ v1, v1 = v.take (k.size W) := ⟨_, rfl⟩
    obtain ⟨v2, hv2⟩ : ∃ v2, v2 = v.drop (k.size W) := ⟨_, rfl⟩
    have hvv : v = v1 ++ v2 := by rw [hv1, hv2, take_append_drop]
    have l1 : v1.length = k.size W := by rw [hv1, length_take]; omega
    have l2 : v2.length = (t.map (Key.size W)).sum := by rw [hv2, length_drop]; omega
    simp only [gateList, gateOut, filter_cons] at hgs ⊢
    rw [← hv1, ← hv2]
    split_ifs with hg
    · rw [if_pos hg, length_cons] at hgs
      obtain ⟨a, gs', rfl⟩ : ∃ a gs', gs = a :: gs' := by
        cases gs with
        | nil => simp at hgs
        | cons a gs' => exact ⟨a, gs', rfl⟩
      have hih := ih (pre ++ v1) v2 (used ++ [a]) gs' l2 (by simpa using hgs)
      simp only [length_append, length_singleton, l1] at hih
      have e1 : sel (pre ++ v ++ (used ++ a :: gs')) (replicate (k.size W) (pre.length + v.length + used.length)) = replicate (k.size W) a := by
        simp only [sel, map_replicate]
        congr 1
        have hlen : (pre ++ v ++ used).length = pre.length + v.length + used.length := by simp; omega
        rw [← append_assoc, ← hlen, getD_append_right _ _ _ _ (le_refl _)]
        simp
      have e2 : sel (pre ++ v ++ (used ++ a :: gs')) (gateList W (pre.length + v.length) (pre.length + k.size W) (used.length + 1) t) =
          sel (pre ++ v1 ++ v2 ++ (used ++ [a] ++ gs')) (gateList W (pre.length + k.size W + v2.length) (pre.length + k.size W) (used.length + 1) t) := by
        rw [hvv]; congr 1
        · simp
        · rw [length_append, l1, Nat.add_assoc]
      rw [sel, map_append, ← sel, ← sel, e1, e2]
      conv_lhs => rw [hvv]
      rw [zipWith_append (by simp [l1])]
      rw [hih]
      congr 1
      refine ext_getElem (by simp [l1]) fun i h1 h2 => ?_
      simp
    · rw [if_neg hg] at hgs
      have hih := ih (pre ++ v1) v2 used gs l2 hgs
      simp only [length_append, l1] at hih
      have e1 : sel (pre ++ v ++ (used ++ gs)) (range' pre.length (k.size W)) = v1 := by
        rw [hvv]
        refine ext_getElem (by simp [l1]) fun i h1 h2 => ?_
        have hi : i < v1.length := h2
        simp only [sel, getElem_map, getElem_range']
        rw [append_assoc, append_assoc, getD_append_right _ _ _ _ (by omega), getD_append _ _ _ _ (by omega)]
        rw [getD_eq_getElem _ _ (by omega)]
        congr 1; omega
      have e2 : sel (pre ++ v ++ (used ++ gs)) (gateList W (pre.length + v.length) (pre.length + k.size W) used.length t) =
          sel (pre ++ v1 ++ v2 ++ (used ++ gs)) (gateList W (pre.length + k.size W + v2.length) (pre.length + k.size W) used.length t) := by
        rw [hvv]; congr 1
        · simp
        · rw [length_append, l1, Nat.add_assoc]
      rw [sel, map_append, ← sel, ← sel, e1, e2]
      conv_lhs => rw [hvv]
      rw [zipWith_append rfl, hih]
      congr 1
      rw [zipWith_self]

theorem gatedNonlinearity_eq (act : R → R) {s : SRep} (h : s.WF W) (hc : s.canonical = true) {v gs : List R} (hv : v.length = s.size W)
    (hg : gs.length = (Rep.sum s).gates W) :
    gatedNonlinearity W act (.sum s) (v ++ gs) = .ok (gateOut W act s.c.expand v gs) := by
  unfold gatedNonlinearity
  rw [gateIndices_ok h hc]
  have := gate_eq (W := W) act s.c.expand [] v [] gs (by rw [hv, sum_map_expand]; rfl) (by rw [hg]; exact Rep.WF.gates (r := .sum s) h)
  simp only [nil_append, length_nil, zero_add] at this
  show Except.ok (zipWith _ _ (take (s.size W) (v ++ gs))) = _
  rw [take_left' hv, ← hv, this]

/-- `A` selects coordinates: row `i` is the unit vector `σ i`. -/
structure IsSel (n : ℕ) (A : DMat R) : Prop where
  sq : A.IsSq n
  sel : ∃ σ : ℕ → ℕ, (∀ i < n, σ i < n) ∧ ∀ i < n, ∀ j < n, A.e i j = if σ i = j then 1 else 0

theorem IsPermMat.isSel {n : ℕ} {A : DMat R} (h : IsPermMat n A) : IsSel n A := by
  obtain ⟨p, hp, rfl⟩ := h
  have hl := length_of_perm_range hp
  refine ⟨⟨hl, hl⟩, fun i => p.getD i 0, fun i hi => lt_of_perm_range hp (getD_mem_of_lt (by omega)), fun i hi j hj => ?_⟩
  exact DMat.of_e (by omega) (by omega)

theorem IsSel.one (n : ℕ) : IsSel n (DMat.one n : DMat R) :=
  ⟨⟨rfl, rfl⟩, id, fun _ h => h, fun _ hi _ hj => DMat.of_e hi hj⟩

theorem IsSel.kron {m n : ℕ} {A B : DMat R} (hA : IsSel m A) (hB : IsSel n B) : IsSel (m * n) (A.kron B) := by
  obtain ⟨⟨ha, ha'⟩, σ, s1, s2⟩ := hA
  obtain ⟨⟨hb, hb'⟩, τ, t1, t2⟩ := hB
  refine ⟨⟨by simp [DMat.kron, ha, hb], by simp [DMat.kron, ha', hb']⟩, fun i => σ (i / n) * n + τ (i % n), fun i hi => ?_, fun i hi j hj => ?_⟩
  · have h1 := s1 (i / n) (Nat.div_lt_of_lt_mul (by rwa [Nat.mul_comm]))
    have hn : 0 < n := Nat.pos_of_ne_zero fun h => by simp [h] at hi
    have h2 := t1 (i % n) (Nat.mod_lt _ hn)
    calc σ (i / n) * n + τ (i % n) < (σ (i / n) + 1) * n := by rw [Nat.add_mul]; omega
      _ ≤ m * n := Nat.mul_le_mul_right _ h1
  · have hn : 0 < n := Nat.pos_of_ne_zero fun h => by simp [h] at hi
    have e : (A.kron B).e i j = A.e (i / n) (j / n) * B.e (i % n) (j % n) := by
      have := DMat.of_e (R := R) (f := fun i j => A.e (i / B.rows) (j / B.cols) * B.e (i % B.rows) (j % B.cols))
        (show i < A.rows * B.rows by rw [ha, hb]; exact hi) (show j < A.cols * B.cols by rw [ha', hb']; exact hj)
      rw [DMat.kron, this, hb, hb']
    have i1 := Nat.div_lt_of_lt_mul (show i < n * m by rwa [Nat.mul_comm])
    have j1 := Nat.div_lt_of_lt_mul (show j < n * m by rwa [Nat.mul_comm])
    have i2 := Nat.mod_lt i hn
    have j2 := Nat.mod_lt j hn
    rw [e, s2 _ i1 _ j1, t2 _ i2 _ j2]
    have h3 := t1 _ i2
    have : (σ (i / n) * n + τ (i % n) = j) ↔ (σ (i / n) = j / n ∧ τ (i % n) = j % n) := by
      constructor
      · intro h
        rw [← h]
        constructor
        · rw [Nat.mul_comm, Nat.mul_add_div hn, Nat.div_eq_of_lt h3]; rfl
        · rw [Nat.mul_comm, Nat.mul_add_mod, Nat.mod_eq_of_lt h3]
      · rintro ⟨h, h'⟩
        rw [h, h', Nat.mul_comm]; exact Nat.div_add_mod j n
    simp only [this]
    by_cases h1 : σ (i / n) = j / n <;> by_cases h2 : τ (i % n) = j % n <;> simp [h1, h2]

theorem IsSel.kronL {ι : Type} (l : List ι) (f : ι → DMat R) (s : ι → ℕ) (h : ∀ x ∈ l, IsSel (s x) (f x)) :
    IsSel (l.map s).prod (DMat.kronL (l.map f)) := by
  induction l with
  | nil => exact IsSel.one 1
  | cons a t ih =>
    simp only [map_cons, prod_cons, DMat.kronL]
    exact (h a (by simp)).kron (ih fun x hx => h x (by simp [hx]))

theorem IsSel.pick {n : ℕ} {A : DMat R} {q : List ℕ} (hA : IsSel n A) (hq : q ~ range n) : IsSel n (A.pick q q) := by
  obtain ⟨⟨ha, ha'⟩, σ, s1, s2⟩ := hA
  have hl := length_of_perm_range hq
  have hqa : argsort q ~ range n := hl ▸ argsort_perm q
  have hb : ∀ i < n, q.getD i 0 < n := fun i hi => lt_of_perm_range hq (getD_mem_of_lt (by omega))
  refine ⟨⟨hl, hl⟩, fun i => q.idxOf (σ (q.getD i 0)), fun i hi => ?_, fun i hi j hj => ?_⟩
  · rw [← hl]; exact idxOf_lt_length_iff.2 (hq.mem_iff.2 (mem_range.2 (s1 _ (hb i hi))))
  · rw [DMat.pick_e (by omega) (by omega), s2 _ (hb i hi) _ (hb j hj)]
    have hm : σ (q.getD i 0) ∈ q := hq.mem_iff.2 (mem_range.2 (s1 _ (hb i hi)))
    have hjl : j < q.length := by omega
    congr 1
    rw [getD_eq_getElem _ _ hjl]
    refine propext ⟨fun h => ?_, fun h => ?_⟩
    · show idxOf (σ (q.getD i 0)) q = j
      rw [h]; exact (nodup_of_perm_range hq).idxOf_getElem j hjl
    · have := getElem_idxOf (idxOf_lt_length_iff.2 hm)
      rw [← this]; simp only [← h]

theorem IsSel.conj {n : ℕ} {p : List ℕ} {X : LinOp R} (hp : p ~ range n) (hX : IsSel n X.sem) : IsSel n (conjPerm p X).sem := by
  rw [conjPerm_sem hp hX.sq]
  exact hX.pick (length_of_perm_range hp ▸ argsort_perm p)

/-- Permutation matrices act by selecting coordinates on every representation flagged `is_permutation`. -/
theorem Key.isSel {I : Interp R} (hI : ∀ h, W.isPerm h = true → IsSel (W.asize 0 h) (I.vec 0 (some h)).sem ∧ IsSel (W.asize 0 h) (I.dual 0 (some h)).sem)
    {k : Key} (hk : k.WF W) (hp : k.isPerm W = true) : IsSel (k.size W) (k.rho I).sem := by
  have atom : ∀ a : Atom, a.isPerm W = true → IsSel (a.size W) (a.rho I).sem := by
    intro a ha
    match a, ha with
    | .vec 0 (some h), ha => exact (hI h ha).1
    | .dual 0 (some h), ha => exact (hI h ha).2
  have prod : ∀ p : PRep, p.WF W → p.isPerm W = true → IsSel (p.size W) (p.rho I).sem := by
    intro p hw hp
    refine IsSel.conj hw.perm ?_
    simp only [LinOp.sem, semL_map]
    have := IsSel.kronL (R := R) p.c.expand (fun a => (a.rho I).sem) (Atom.size W) fun a ha =>
      atom a (all_eq_true.1 hp a (Counter.mem_expand ha))
    rwa [prod_map_expand] at this
  have fac : ∀ f : Fac, f.WF W → f.isPerm W = true → IsSel (f.size W) (f.rho I).sem := by
    intro f hw hp
    cases f with
    | atom a => exact atom a hp
    | prod p => exact prod p hw hp
  cases k with
  | scalar => exact IsSel.one 1
  | fac f => exact fac f hk hp
  | dprod d =>
    refine IsSel.conj hk.perm ?_
    simp only [LinOp.sem, semL_map]
    have := IsSel.kronL (R := R) d.c.expand (fun a => (a.rho I).sem) (Fac.size W) fun a ha =>
      fac a (hk.key a (Counter.mem_expand ha)) (all_eq_true.1 hp a (Counter.mem_expand ha))
    rwa [prod_map_expand] at this

theorem Interp.Dual.isSel {I : Interp R} (hI : I.Dual W) (h : Gid) (hp : IsPermMat (W.asize 0 h) (I.vec 0 (some h)).sem) :
    IsSel (W.asize 0 h) (I.vec 0 (some h)).sem ∧ IsSel (W.asize 0 h) (I.dual 0 (some h)).sem := by
  refine ⟨hp.isSel, ?_⟩
  obtain ⟨p, hp, he⟩ := hp
  have h1 := hI.inv 0 h
  have hsq := hI.dual 0 h
  have hsv := hI.vec 0 h
  rw [he] at h1 hsv
  have h2 := congrArg (fun X => X.mul (DMat.permMat (argsort p))) h1
  have hl := length_of_perm_range hp
  have ha : argsort p ~ range (W.asize 0 h) := hl ▸ argsort_perm p
  have hla := length_of_perm_range ha
  rw [DMat.mul_assoc' _ _ _ (by simp [hsq.1, hl]), DMat.permMat_mul_argsort hp, DMat.mul_one' _ (by simp [hsq.1]),
    DMat.one_mul' _ (by simp [hla])] at h2
  have h3 := congrArg DMat.transpose h2
  rw [DMat.transpose_permMat hp, DMat.transpose_transpose] at h3
  rw [h3]
  exact IsPermMat.isSel ⟨p, hp, rfl⟩

theorem IsSel.map {n : ℕ} {A : DMat R} (hA : IsSel n A) (f : R → R) {v : List R} (hv : v.length = n) :
    (A.mulVec v).map f = A.mulVec (v.map f) := by
  obtain ⟨⟨ha, ha'⟩, σ, s1, s2⟩ := hA
  have key : ∀ (w : List R), w.length = n → ∀ i < n, (A.mulVec w).getD i 0 = w.getD (σ i) 0 := by
    intro w hw i hi
    rw [DMat.getD_mulVec (by omega), ha', Finset.sum_eq_single (σ i)]
    · rw [s2 i hi _ (s1 i hi), if_pos rfl, one_mul]
    · intro j hj hne
      rw [s2 i hi j (by simpa using hj), if_neg fun h => hne h.symm, zero_mul]
    · intro h; exact absurd (Finset.mem_range.2 (s1 i hi)) h
  refine DMat.vec_ext (by simp) fun i hi => ?_
  have hi' : i < n := by simpa [ha] using hi
  have hlen : i < (A.mulVec v).length := by simpa [ha] using hi'
  have hσ : σ i < v.length := by rw [hv]; exact s1 i hi'
  rw [key _ (by simpa using hv) i hi', getD_eq_getElem _ _ (by simpa using hlen), getElem_map, ← getD_eq_getElem _ 0 hlen, key v hv i hi',
    getD_eq_getElem _ _ hσ, getD_eq_getElem _ _ (by simpa using hσ), getElem_map]

theorem gateOut_equiv (act : R → R) {I : Interp R} (hI : I.Sized W) (ks : List Key) (hk : ∀ k ∈ ks, k.WF W)
    (hperm : ∀ k ∈ ks, k.isPerm W = true → IsSel (k.size W) (k.rho I).sem) : ∀ (v gs : List R), v.length = (ks.map (Key.size W)).sum →
    gateOut W act ks ((DMat.bdiag (ks.map fun k => (k.rho I).sem)).mulVec v) gs =
      (DMat.bdiag (ks.map fun k => (k.rho I).sem)).mulVec (gateOut W act ks v gs) := by
  induction ks with
  | nil => intro v gs _; simp [gateOut, DMat.bdiag, DMat.mulVec, DMat.zero]
  | cons k t ih =>
    intro v gs hv
    simp only [map_cons, sum_cons] at hv
    have hsq := Key.rho_sq hI (hk k (by simp))
    have hih := ih (fun j hj => hk j (by simp [hj])) (fun j hj => hperm j (by simp [hj]))
    obtain ⟨v1, hv1⟩ : ∃ v1, v1 = v.take (k.size W) := ⟨_, rfl⟩
    obtain ⟨v2, hv2⟩ : ∃ v2, v2 = v.drop (k.size W) := ⟨_, rfl⟩
    have hvv : v = v1 ++ v2 := by rw [hv1, hv2, take_append_drop]
    have l1 : v1.length = k.size W := by rw [hv1, length_take]; omega
    have l2 : v2.length = (t.map (Key.size W)).sum := by rw [hv2, length_drop]; omega
    simp only [map_cons, DMat.bdiag]
    have e : (DMat.bdiag2 (k.rho I).sem (DMat.bdiag (t.map fun k => (k.rho I).sem))).mulVec v =
        (k.rho I).sem.mulVec v1 ++ (DMat.bdiag (t.map fun k => (k.rho I).sem)).mulVec v2 := by
      rw [hvv]; exact DMat.mulVec_bdiag2 _ _ _ _ (by rw [hsq.2, l1])
    have hl : ((k.rho I).sem.mulVec v1).length = k.size W := by simp [hsq.1]
    simp only [gateOut]
    rw [e, take_left' hl, drop_left' hl, ← hv1, ← hv2]
    split_ifs with hg
    · rw [hih _ _ l2, DMat.mulVec_bdiag2 _ _ _ _ (by rw [length_map, l1, hsq.2])]
      congr 1
      refine DMat.vec_ext (by simp) fun i hi => ?_
      have hi' : i < (k.rho I).sem.rows := by simpa using hi
      have em : ∀ (c : R) (l : List R) (j : ℕ), (l.map (c * ·)).getD j 0 = c * l.getD j 0 := by
        intro c l j
        by_cases hj : j < l.length
        · rw [getD_eq_getElem _ _ (by simpa using hj), getD_eq_getElem _ _ hj, getElem_map]
        · rw [getD_eq_default _ _ (by simpa using hj), getD_eq_default _ _ (by omega), mul_zero]
      rw [em, DMat.getD_mulVec hi', DMat.getD_mulVec hi', Finset.mul_sum]
      exact Finset.sum_congr rfl fun j _ => by rw [em]; ring
    · rw [hih _ _ l2, DMat.mulVec_bdiag2 _ _ _ _ (by rw [length_map, l1, hsq.2])]
      congr 1
      have hp : IsSel (k.size W) (k.rho I).sem := by
        by_cases hks : k = .scalar
        · subst hks; exact IsSel.one 1
        · refine hperm k (by simp) ?_
          unfold Key.needsGate at hg
          simpa [hks] using hg
      exact hp.map (fun a => act a * a) l1

theorem gatedNonlinearity_commutes (hW : W.SingleOK g N) (hx : SgOK W g x) {s : SRep} (hs : (Rep.sum s).Over W g N)
    (hc : s.perm = range (s.size W)) {r' : Rep} {y : Option Gid} (hr' : gated W (.sum s) x = .ok (r', y)) (act : R → R)
    {I : Interp R} (hI : I.Dual W) (hp : ∀ h, W.isPerm h = true → IsPermMat (W.asize 0 h) (I.vec 0 (some h)).sem) :
    Commutes (r'.size W) (s.size W) (gatedNonlinearity W act (.sum s)) (r'.mat I) ((Rep.sum s).mat I) := by
  obtain ⟨r1, y1, h1, -, -, h4, -, h5⟩ := gated_spec hW hx hs
  rw [h1] at hr'
  obtain ⟨rfl, rfl⟩ := Prod.mk.inj (Except.ok.inj hr')
  have hwf : s.WF W := hs.wf
  have hcan : s.canonical = true := by
    unfold SRep.canonical
    rw [beq_iff_eq, length_of_perm_range hwf.perm, hc]
  have hz : (s.c.expand.map (Key.size W)).sum = s.size W := by rw [sum_map_expand]; rfl
  have hmat : (Rep.sum s).mat I = DMat.bdiag (s.c.expand.map fun k => (k.rho I).sem) := by
    have := SRep.rho_pick hI.toSized hwf
    have hsq := SRep.rho_sq hI.toSized hwf
    have hpr := DMat.pick_range (s.rho I).sem
    rw [hsq.1, hsq.2] at hpr
    rw [hc, hpr] at this
    exact this
  have hsq : ((Rep.sum s).mat I).IsSq (s.size W) := SRep.rho_sq hI.toSized hwf
  intro v hv
  rw [h4] at hv
  obtain ⟨v1, v2, rfl, l1, l2⟩ : ∃ v1 v2, v = v1 ++ v2 ∧ v1.length = s.size W ∧ v2.length = (Rep.sum s).gates W :=
    ⟨v.take (s.size W), v.drop (s.size W), (take_append_drop _ _).symm, by
      have : (Rep.sum s).size W = s.size W := rfl
      rw [length_take]; omega, by
      have : (Rep.sum s).size W = s.size W := rfl
      rw [length_drop]; omega⟩
  refine ⟨_, gatedNonlinearity_eq act hwf hcan l1 l2, by rw [gateOut_length _ _ _ _ (by rw [hz, l1]), hz], ?_⟩
  rw [h5 R I hI.toSized, DMat.mulVec_bdiag2 _ _ _ _ (by rw [hsq.2, l1]), DMat.mulVec_one v2 l2, gatedNonlinearity_eq act hwf hcan (by simp [hsq.1]) l2, hmat,
    gateOut_equiv act hI.toSized s.c.expand (Rep.WF.summands (r := .sum s) hwf) (fun k hk hkp =>
      Key.isSel (fun h hh => hI.isSel h (hp h hh)) (Rep.WF.summands (r := .sum s) hwf k hk) hkp) v1 v2 (by rw [hz, l1])]

end
end Verif
