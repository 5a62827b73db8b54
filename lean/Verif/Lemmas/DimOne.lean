import Verif.Lemmas.UniformRep
import Verif.Lemmas.ProdMat

/-!
Groups of dimension one.  The order on summands need not be total there, so that sums may come out in any order;
their sizes do not depend on the order.
-/
namespace Verif
open List

/-! ### The size of a sum, for any order -/

section
variable {K : Type} [DecidableEq K] (size : K → ℕ)

theorem sum_if_eq {f : K → ℕ} {k : K} : ∀ {u : List K}, u.Nodup → k ∈ u → (u.map fun x => if x = k then f x else 0).sum = f k
  | [], _, h => by cases h
  | a :: u, hu, h => by
    rw [map_cons, sum_cons]
    rw [nodup_cons] at hu
    by_cases ha : a = k
    · subst ha
      have : (u.map fun x => if x = a then f x else 0).sum = 0 := by
        apply List.sum_eq_zero
        intro x hx
        obtain ⟨y, hy, rfl⟩ := mem_map.1 hx
        rw [if_neg]; rintro rfl; exact hu.1 hy
      rw [if_pos rfl, this, Nat.add_zero]
    · rw [if_neg ha, sum_if_eq hu.2 ((mem_cons.1 h).resolve_left fun e => ha e.symm), Nat.zero_add]

theorem Counter.sum_get : ∀ {c : Counter K} {u : List K}, c.keys.Nodup → u.Nodup → (∀ k ∈ c.keys, k ∈ u) →
    (u.map fun k => size k * c.get k).sum = c.sumSize size
  | [], u, _, _, _ => by
    simp [Counter.sumSize, Counter.get]
  | (k, n) :: t, u, hc, hu, h => by
    simp only [Counter.keys, map_cons, nodup_cons] at hc
    have h0 : Counter.get t k = 0 := Counter.get_of_not_mem hc.1
    have e : ∀ x ∈ u, size x * Counter.get ((k, n) :: t) x = (if x = k then size x * n else 0) + size x * Counter.get t x := by
      intro x _
      rw [Counter.get_cons]
      by_cases hx : x = k
      · subst hx; rw [if_pos rfl, if_pos rfl, h0]; simp
      · rw [if_neg hx, if_neg hx, Nat.zero_add]
    rw [map_congr_left e, List.sum_map_add, sum_if_eq (f := fun x => size x * n) hu (h k (by simp [Counter.keys])),
      Counter.sum_get hc.2 hu fun x hx => h x (by simp only [Counter.keys, map_cons, mem_cons]; exact Or.inr hx)]
    simp [Counter.sumSize]

theorem sumSize_merge (u : List K) : ∀ cs : List (Counter K),
    Counter.sumSize size (u.map fun k => (k, (cs.map fun c => c.get k).sum)) = (cs.map fun c => (u.map fun k => size k * c.get k).sum).sum
  | [] => by
    simp only [Counter.sumSize, List.map_map, map_nil, sum_nil]
    apply List.sum_eq_zero
    intro x hx
    obtain ⟨k, -, rfl⟩ := mem_map.1 hx
    rfl
  | c :: cs => by
    rw [map_cons, sum_cons, ← sumSize_merge u cs]
    simp only [Counter.sumSize, List.map_map]
    rw [← List.sum_map_add]
    congr 1
    apply map_congr_left
    intro k _
    simp [Nat.mul_add]

/-- Merging counters adds the sizes. -/
theorem sumCanon_sumSize {u : List K} (hu : u.Nodup) {cs : List (Counter K)} {ps : List (List ℕ)} (hl : ps.length = cs.length)
    (hc : ∀ c ∈ cs, c.keys.Nodup ∧ ∀ k ∈ c.keys, k ∈ u) :
    (sumCanon size u cs ps).1.sumSize size = (cs.map (Counter.sumSize size)).sum := by
  rw [sumCanon_counter u cs ps hl, sumSize_merge]
  congr 1
  apply map_congr_left
  intro c h
  exact Counter.sum_get size (hc c h).1 hu (hc c h).2

theorem sumOuter_one (c : Counter K) (sp : List ℕ) : ∀ (u : List K) (id : ℕ),
    (sumOuter size [c] [sp] u [id]).2.flatten = (sp.drop id).take (u.map fun k => c.get k * size k).sum
  | [], id => by simp [sumOuter]
  | k :: u, id => by
    have := sumOuter_one c sp u (id + c.get k * size k)
    simp only [sumOuter, sumInner]
    rw [flatten_append, this]
    simp only [flatten_cons, flatten_nil, append_nil, map_cons, sum_cons]
    rw [take_add, drop_drop]

/-- Re-canonicalising one operand keeps its order, whatever the order of the keys. -/
theorem sumCanon_one {u : List K} (hu : u.Nodup) {c : Counter K} (hc : c.keys.Nodup) (h : ∀ k ∈ c.keys, k ∈ u) {p : List ℕ}
    (hp : p.length = c.sumSize size) : (sumCanon size u [c] [p]).2 = p := by
  show (sumOuter size [c] (shiftPerms 0 [p]) u [0]).2.flatten = p
  have e : shiftPerms 0 [p] = [p] := by simp [shiftPerms]
  rw [e, sumOuter_one]
  have : (u.map fun k => c.get k * size k).sum = p.length := by
    rw [hp, ← Counter.sum_get size hc hu h]
    simp [Nat.mul_comm]
  rw [this, drop_zero, take_length]
end

/-! ### Representations of a group of dimension one -/

variable {W : World} {g : Gid}

/-- `V(G)` or its dual. -/
def Atom.Unit (g : Gid) (a : Atom) : Prop := a = .vec 0 (some g) ∨ a = .dual 0 (some g)

/-- A tensor of a group of dimension one. -/
def Fac.Unit (g : Gid) : Fac → Prop
  | .atom a => a.Unit g
  | .prod p => p.c ≠ [] ∧ p.c.keys.Nodup ∧ (∀ a ∈ p.c.keys, a.Unit g) ∧ p.perm = [0]

theorem Atom.Unit.size (hd : W.d g = 1) {a : Atom} (h : a.Unit g) : a.size W = 1 := by
  rcases h with rfl | rfl <;> simp [Atom.size, World.asize, hd]

theorem Atom.Unit.G {a : Atom} (h : a.Unit g) : a.G = some g := by
  rcases h with rfl | rfl <;> rfl

theorem prodSize_unit {K : Type} {size : K → ℕ} : ∀ {c : Counter K}, (∀ k ∈ c.keys, size k = 1) → c.prodSize size = 1
  | [], _ => rfl
  | (k, n) :: t, h => by
    have ih := prodSize_unit (c := t) fun k hk => h k (by simp only [Counter.keys, map_cons, mem_cons]; exact Or.inr hk)
    simp only [Counter.prodSize, map_cons, prod_cons] at ih ⊢
    rw [ih, h k (by simp [Counter.keys])]; simp

theorem Fac.Unit.size (hd : W.d g = 1) : ∀ {f : Fac}, f.Unit g → f.size W = 1
  | .atom _, h => Atom.Unit.size hd h
  | .prod _, h => prodSize_unit fun a ha => (h.2.2.1 a ha).size hd

theorem Fac.Unit.G : ∀ {f : Fac}, f.Unit g → f.G = some g
  | .atom _, h => Atom.Unit.G h
  | .prod p, h => by
    have h1 := h.1
    have h3 := h.2.2.1
    obtain ⟨c, perm⟩ := p
    match c with
    | [] => exact absurd rfl h1
    | (a, n) :: t => exact (h3 a (by simp [Counter.keys])).G

theorem Fac.Unit.hashable : ∀ {f : Fac}, f.Unit g → f.hashable = true
  | .atom _, _ => rfl
  | .prod p, h => by
    have := h.2.2.2
    simp only [Fac.hashable]
    rw [this]; decide

theorem Fac.Unit.counter : ∀ {f : Fac}, f.Unit g → f.counter ≠ [] ∧ f.counter.keys.Nodup ∧ (∀ a ∈ f.counter.keys, a.Unit g)
  | .atom a, h => ⟨by simp [Fac.counter], by simp [Fac.counter, Counter.keys], fun b hb => by
      simp only [Fac.counter, Counter.keys, map_cons, map_nil, mem_singleton] at hb; subst hb; exact h⟩
  | .prod _, h => ⟨h.1, h.2.1, h.2.2.1⟩

/-- The counts of a product are positive. -/
def Fac.Pos : Fac → Prop
  | .atom _ => True
  | .prod p => ∀ kc ∈ p.c, kc.2 ≠ 0

/-- A tensor of a group of dimension one, with positive powers. -/
def Fac.UnitP (g : Gid) (f : Fac) : Prop := f.Unit g ∧ f.Pos

theorem kronL_one_one {R : Type} [CommRing R] : ∀ n : ℕ, DMat.kronL (replicate n (DMat.one (R := R) 1)) = DMat.one 1
  | 0 => rfl
  | n + 1 => by
    rw [replicate_succ, DMat.kronL, kronL_one_one n]
    refine DMat.ext rfl rfl ?_
    intro i j hi hj
    simp only [DMat.kron_rows, DMat.kron_cols, DMat.one_rows, DMat.one_cols] at hi hj
    obtain rfl : i = 0 := by omega
    obtain rfl : j = 0 := by omega
    unfold DMat.kron DMat.one
    simp [DMat.of_e]

theorem prodCanon_unit {K : Type} [DecidableEq K] {size : K → ℕ} {u : List K} (hu : u.Nodup) {cs : List (Counter K)}
    (hc : ∀ c ∈ cs, c.keys.Nodup ∧ ∀ k ∈ c.keys, k ∈ u ∧ size k = 1) : (prodCanon size u cs (cs.map fun _ => [0])).2 = [0] := by
  have h := prodCanon_mat (R := ℤ) (size := size) hu (mat := fun _ => DMat.one 1) (cs.map fun c => ⟨c, [0], DMat.one 1⟩) (by
    intro a ha
    obtain ⟨c, hcm, rfl⟩ := mem_map.1 ha
    have hs := prodSize_unit (size := size) fun k hk => ((hc c hcm).2 k hk).2
    refine ⟨by simp only [hs]; exact Perm.refl _, by simp only [hs]; exact ⟨rfl, rfl⟩, ?_, fun k hk => ?_, (hc c hcm).1⟩
    · simp only [map_const']
      rw [kronL_one_one]
      refine DMat.ext rfl rfl ?_
      intro i j hi hj
      simp only [DMat.pick_rows, DMat.pick_cols, length_cons, length_nil] at hi hj
      obtain rfl : i = 0 := by omega
      obtain rfl : j = 0 := by omega
      rfl
    · simp only at hk
      rw [((hc c hcm).2 k hk).2]; exact ⟨rfl, rfl⟩) (by
    intro a ha
    obtain ⟨c, hcm, rfl⟩ := mem_map.1 ha
    exact fun k hk => ((hc c hcm).2 k hk).1)
  simp only [List.map_map, Function.comp_def, map_id'] at h
  have h1 := h.1
  rw [prodSize_unit] at h1
  · exact perm_singleton.1 h1
  · intro k hk
    rw [prodCanon_counter] at hk
    obtain ⟨kn, hkn, rfl⟩ := mem_map.1 hk
    obtain ⟨hm, hne⟩ := mem_filter.1 hkn
    obtain ⟨x, hx, rfl⟩ := mem_map.1 hm
    have hne : (cs.map fun c => c.get x).sum ≠ 0 := by simpa using hne
    have : ∃ c ∈ cs, c.get x ≠ 0 := by
      by_contra hcon
      push Not at hcon
      exact hne (List.sum_eq_zero fun y hy => by obtain ⟨c, hcm, rfl⟩ := mem_map.1 hy; exact hcon c hcm)
    obtain ⟨c, hcm, hget⟩ := this
    have : x ∈ c.keys := by
      by_contra hx; exact hget (Counter.get_of_not_mem hx)
    exact ((hc c hcm).2 x this).2

/-- What merging the counters of products gives. -/
theorem prodCompute_unit (hd : W.d g = 1) {cs : List (Counter Atom)} (hne : ∃ c ∈ cs, ∃ kc ∈ c, kc.2 ≠ 0)
    (hc : ∀ c ∈ cs, c.keys.Nodup ∧ ∀ a ∈ c.keys, a.Unit g) :
    ∃ p : PRep, prodFinish (prodCompute W cs (cs.map fun _ => [0])).1 (prodCompute W cs (cs.map fun _ => [0])).2 = .ok p ∧ (Fac.prod p).UnitP g := by
  unfold prodCompute
  obtain ⟨u, hu⟩ : ∃ u, u = W.sorted (Atom.lt W) (unionKeys W.setOrder cs) := ⟨_, rfl⟩
  rw [← hu]
  have hup := W.sorted_perm (Atom.lt W) (unionKeys W.setOrder cs)
  rw [← hu] at hup
  have hun : u.Nodup := hup.nodup_iff.2 (nodup_unionKeys W fun c h => (hc c h).1)
  have hmem : ∀ k, k ∈ u ↔ ∃ c ∈ cs, k ∈ c.keys := fun k => hup.mem_iff.trans (mem_unionKeys W)
  have hperm := prodCanon_unit (size := Atom.size W) hun (cs := cs) fun c h => ⟨(hc c h).1, fun k hk => ⟨(hmem k).2 ⟨c, h, hk⟩, ((hc c h).2 k hk).size hd⟩⟩
  rw [hperm]
  have hcnt := prodCanon_counter (Atom.size W) u cs (cs.map fun _ => [0])
  obtain ⟨m, hm⟩ : ∃ m, m = (prodCanon (Atom.size W) u cs (cs.map fun _ => [0])).1 := ⟨_, rfl⟩
  rw [← hm] at hcnt ⊢
  have hkeys : ∀ a ∈ m.keys, a ∈ u := by
    intro a ha
    rw [hcnt] at ha
    obtain ⟨kn, hkn, rfl⟩ := mem_map.1 ha
    obtain ⟨x, hx, rfl⟩ := mem_map.1 (mem_filter.1 hkn).1
    exact hx
  have hunit : ∀ a ∈ m.keys, a.Unit g := fun a ha => by
    obtain ⟨c, h1, h2⟩ := (hmem a).1 (hkeys a ha)
    exact (hc c h1).2 a h2
  have hm0 : m ≠ [] := by
    obtain ⟨c, h1, ⟨k, n⟩, h2, h3⟩ := hne
    have hk : k ∈ c.keys := mem_map_of_mem (f := (·.1)) h2
    have hg : c.get k = n := Counter.get_eq_of_mem (hc c h1).1 h2
    have : (k, (cs.map fun c => c.get k).sum) ∈ m := by
      rw [hcnt, mem_filter]
      refine ⟨mem_map.2 ⟨k, (hmem k).2 ⟨c, h1, hk⟩, rfl⟩, ?_⟩
      have : c.get k ≤ (cs.map fun c => c.get k).sum := List.single_le_sum (fun _ _ => Nat.zero_le _) _ (mem_map.2 ⟨c, h1, rfl⟩)
      simp only [ne_eq, decide_eq_true_eq]
      simp only at h3
      omega
    exact ne_nil_of_mem this
  refine ⟨⟨m, [0]⟩, prodFinish_ok hm0 fun a ha => (hunit a ha).G, ⟨hm0, ?_, hunit, rfl⟩, ?_⟩
  · have : m.keys = u.filter fun k => decide ((cs.map fun c => c.get k).sum ≠ 0) := by
      rw [hcnt, Counter.keys, filter_map, List.map_map]
      simp [Function.comp_def]
    simp only
    rw [this]; exact hun.filter _
  · intro kc hkc
    simp only at hkc
    rw [hcnt] at hkc
    simpa using (mem_filter.1 hkc).2

theorem Fac.UnitP.canon (hd : W.d g = 1) {f : Fac} (h : f.UnitP g) : ∃ f', Fac.canon W f = .ok (f', [0]) ∧ f'.UnitP g := by
  cases f with
  | atom a =>
    refine ⟨.atom a, ?_, h⟩
    have hG := Atom.Unit.G (a := a) h.1
    simp only [Fac.canon]
    rw [if_pos (by rw [hG]; rfl), Atom.Unit.size hd h.1]; rfl
  | prod p =>
    obtain ⟨⟨h1, h2, h3, h4⟩, h5⟩ := h
    have hs : p.c.prodSize (Atom.size W) = 1 := prodSize_unit fun a ha => (h3 a ha).size hd
    obtain ⟨q, q1, q2⟩ := prodCompute_unit hd (cs := [p.c]) ⟨p.c, by simp, by
      obtain ⟨kc, hkc⟩ := exists_mem_of_ne_nil _ h1
      exact ⟨kc, hkc, h5 kc hkc⟩⟩ (by simpa using ⟨h2, h3⟩)
    refine ⟨.prod q, ?_, q2⟩
    simp only [Fac.canon, mkProdC]
    rw [hs]
    have e : List.range 1 = [0] := rfl
    rw [e]
    simp only [map_cons, map_nil] at q1
    rw [q1, h4]; rfl

theorem Fac.UnitP.pos_mem {f : Fac} (h : f.UnitP g) : ∃ kc ∈ f.counter, kc.2 ≠ 0 := by
  cases f with
  | atom a => exact ⟨(a, 1), by simp [Fac.counter], by simp⟩
  | prod p =>
    obtain ⟨kc, hkc⟩ := exists_mem_of_ne_nil _ h.1.1
    exact ⟨kc, hkc, h.2 kc hkc⟩

theorem mkProd_unit (hd : W.d g = 1) {f f' : Fac} (h : f.UnitP g) (h' : f'.UnitP g) :
    ∃ p, mkProd W [f, f'] none = .ok p ∧ (Fac.prod p).UnitP g := by
  obtain ⟨a, a1, a2⟩ := h.canon hd
  obtain ⟨b, b1, b2⟩ := h'.canon hd
  obtain ⟨q, q1, q2⟩ := prodCompute_unit hd (cs := [a.counter, b.counter]) ⟨a.counter, by simp, a2.pos_mem⟩ (by
    intro c hc
    simp only [mem_cons, not_mem_nil, or_false] at hc
    rcases hc with rfl | rfl
    · exact ⟨a2.1.counter.2.1, a2.1.counter.2.2⟩
    · exact ⟨b2.1.counter.2.1, b2.1.counter.2.2⟩)
  refine ⟨q, ?_, q2⟩
  unfold mkProd
  simp only [isEmpty_cons, Bool.false_eq_true, if_false, mapM_cons, mapM_nil, a1, b1]
  exact q1

/-! ### Sums -/

/-- `Scalar` or a tensor of a group of dimension one. -/
def Key.UnitP (g : Gid) : Key → Prop
  | .scalar => True
  | .fac f => f.UnitP g
  | .dprod _ => False

/-- A direct sum of such. -/
def Rep.UnitP (g : Gid) : Rep → Prop
  | .key k => k.UnitP g
  | .sum s => s.c.keys.Nodup ∧ ∀ k ∈ s.c.keys, k.UnitP g
  | _ => False

theorem Key.UnitP.size (hd : W.d g = 1) : ∀ {k : Key}, k.UnitP g → k.size W = 1
  | .scalar, _ => rfl
  | .fac _, h => Fac.Unit.size hd h.1

theorem Key.UnitP.hashable : ∀ {k : Key}, k.UnitP g → k.hashable = true
  | .scalar, _ => rfl
  | .fac _, h => Fac.Unit.hashable h.1

theorem Key.UnitP.concrete : ∀ {k : Key}, k.UnitP g → k.concrete = true
  | .scalar, _ => rfl
  | .fac (.atom _), h => by simp only [Key.concrete]; rw [Atom.Unit.G h.1]; rfl
  | .fac (.prod _), _ => rfl

theorem Rep.UnitP.concrete : ∀ {r : Rep}, r.UnitP g → r.concrete = true
  | .key _, h => Key.UnitP.concrete h
  | .sum _, _ => rfl

theorem Key.UnitP.canon (hd : W.d g = 1) : ∀ {k : Key}, k.UnitP g → ∃ k', Key.canon W k = .ok (k', [0]) ∧ k'.UnitP g
  | .scalar, _ => ⟨.scalar, rfl, trivial⟩
  | .fac f, h => by
    obtain ⟨f', h1, h2⟩ := Fac.UnitP.canon hd h
    refine ⟨.fac f', ?_, h2⟩
    simp only [Key.canon]; rw [h1]; rfl

/-- Merging counters of sums. -/
theorem sumCompute_unit (W : World) {cs : List (Counter Key)} {ps : List (List ℕ)} (hl : ps.length = cs.length)
    (hc : ∀ c ∈ cs, c.keys.Nodup ∧ ∀ k ∈ c.keys, k.UnitP g) :
    (sumCompute W cs ps).1.keys.Nodup ∧ (∀ k ∈ (sumCompute W cs ps).1.keys, k.UnitP g) ∧
      (sumCompute W cs ps).1.sumSize (Key.size W) = (cs.map (Counter.sumSize (Key.size W))).sum := by
  unfold sumCompute
  obtain ⟨u, hu⟩ : ∃ u, u = W.sorted (Key.lt W) (unionKeys W.setOrder cs) := ⟨_, rfl⟩
  rw [← hu]
  have hup := W.sorted_perm (Key.lt W) (unionKeys W.setOrder cs)
  rw [← hu] at hup
  have hun : u.Nodup := hup.nodup_iff.2 (nodup_unionKeys W fun c h => (hc c h).1)
  have hmem : ∀ k, k ∈ u ↔ ∃ c ∈ cs, k ∈ c.keys := fun k => hup.mem_iff.trans (mem_unionKeys W)
  have hkeys : (sumCanon (Key.size W) u cs ps).1.keys = u := sumOuter_keys _ _ _ _
  refine ⟨by rw [hkeys]; exact hun, fun k hk => ?_, sumCanon_sumSize _ hun hl fun c h => ⟨(hc c h).1, fun k hk => (hmem k).2 ⟨c, h, hk⟩⟩⟩
  rw [hkeys] at hk
  obtain ⟨c, h1, h2⟩ := (hmem k).1 hk
  exact (hc c h1).2 k h2

theorem mkSumC_unit (W : World) {c : Counter Key} (hn : c.keys.Nodup) (hc : ∀ k ∈ c.keys, k.UnitP g) :
    (Rep.sum (mkSumC W c none)).UnitP g ∧ (mkSumC W c none).size W = c.sumSize (Key.size W) ∧
      (mkSumC W c none).perm = List.range (c.sumSize (Key.size W)) := by
  have h := sumCompute_unit (g := g) W (cs := [c]) (ps := [List.range (c.sumSize (Key.size W))]) rfl (by simpa using ⟨hn, hc⟩)
  have h3 := h.2.2
  simp only [map_cons, map_nil, sum_cons, sum_nil, Nat.add_zero] at h3
  refine ⟨⟨h.1, h.2.1⟩, h3, ?_⟩
  have hup := W.sorted_perm (Key.lt W) (unionKeys W.setOrder [c])
  refine sumCanon_one (Key.size W) (hup.nodup_iff.2 (nodup_unionKeys W (by simpa using hn))) hn (fun k hk => ?_) (by simp)
  exact hup.mem_iff.2 ((mem_unionKeys W).2 ⟨c, by simp, hk⟩)

/-- What `SumRep.__init__` does with one operand. -/
theorem Rep.UnitP.operand (hd : W.d g = 1) : ∀ {r : Rep}, r.UnitP g → ∃ r' p c, Rep.canon W r = .ok (r', p) ∧ r'.counter = .ok c ∧
    c.keys.Nodup ∧ (∀ k ∈ c.keys, k.UnitP g) ∧ c.sumSize (Key.size W) = r.size W
  | .key k, h => by
    obtain ⟨k', h1, h2⟩ := Key.UnitP.canon hd h
    refine ⟨.key k', [0], [(k', 1)], by simp only [Rep.canon]; rw [h1]; rfl, ?_, by simp [Counter.keys], ?_, ?_⟩
    · simp only [Rep.counter]; rw [if_pos h2.hashable]
    · intro x hx
      simp only [Counter.keys, map_cons, map_nil, mem_singleton] at hx
      subst hx; exact h2
    · have : (Rep.key k).size W = 1 := Key.UnitP.size hd h
      rw [this]
      simp [Counter.sumSize, h2.size hd]
  | .sum s, h => by
    obtain ⟨h1, h2, -⟩ := mkSumC_unit W h.1 h.2
    exact ⟨_, _, _, rfl, rfl, h1.1, h1.2, h2⟩

theorem mkSum_unit (hd : W.d g = 1) {ops : List Rep} (hne : ops ≠ []) (h : ∀ r ∈ ops, r.UnitP g) :
    ∃ s, mkSum W ops none = .ok s ∧ (Rep.sum s).UnitP g ∧ s.size W = (ops.map (Rep.size W)).sum := by
  have key : ∀ l : List Rep, (∀ r ∈ l, r.UnitP g) → ∃ cs counters, l.mapM (Rep.canon W) = .ok cs ∧
      (cs.mapM fun c => c.1.counter) = .ok counters ∧ cs.length = counters.length ∧ (∀ c ∈ counters, c.keys.Nodup ∧ ∀ k ∈ c.keys, k.UnitP g) ∧
      (counters.map (Counter.sumSize (Key.size W))).sum = (l.map (Rep.size W)).sum := by
    intro l
    induction l with
    | nil => intro _; exact ⟨[], [], rfl, rfl, rfl, by simp, rfl⟩
    | cons r l ih =>
      intro hl
      obtain ⟨cs, counters, i1, i2, i3, i4, i5⟩ := ih fun r hr => hl r (by simp [hr])
      obtain ⟨r', p, c, o1, o2, o3, o4, o5⟩ := (hl r (by simp)).operand hd
      refine ⟨(r', p) :: cs, c :: counters, ?_, ?_, by simp [i3], ?_, by simp [i5, o5]⟩
      · rw [mapM_cons, o1, i1]; rfl
      · rw [mapM_cons, o2, i2]; rfl
      · intro x hx
        rcases mem_cons.1 hx with rfl | hx
        exacts [⟨o3, o4⟩, i4 x hx]
  obtain ⟨cs, counters, i1, i2, i3, i4, i5⟩ := key ops h
  obtain ⟨s1, s2, s3⟩ := sumCompute_unit (g := g) W (cs := counters) (ps := cs.map (·.2)) (by simp [i3]) i4
  obtain ⟨s, hs⟩ : ∃ s : SRep, s = ⟨(sumCompute W counters (cs.map fun c => c.2)).1, (sumCompute W counters (cs.map fun c => c.2)).2⟩ := ⟨_, rfl⟩
  refine ⟨s, ?_, by subst hs; exact ⟨s1, s2⟩, by subst hs; exact s3.trans i5⟩
  subst hs
  unfold mkSum
  have : ops.isEmpty = false := by cases ops with | nil => exact absurd rfl hne | cons _ _ => rfl
  simp only [this, Bool.false_eq_true, if_false, i1]
  show (cs.mapM (fun c => c.1.counter) >>= _) = _
  rw [i2]; rfl

theorem Rep.add_unit (hd : W.d g = 1) {a b : Rep} (ha : a.UnitP g) (hb : b.UnitP g) :
    ∃ s, Rep.add W a b = .ok (.sum s) ∧ (Rep.sum s).UnitP g ∧ s.size W = a.size W + b.size W := by
  obtain ⟨s, h1, h2, h3⟩ := mkSum_unit hd (ops := [a, b]) (by simp) (by simp [ha, hb])
  refine ⟨s, ?_, h2, by simpa using h3⟩
  unfold Rep.add
  rw [ha.concrete, hb.concrete, h1]; rfl

theorem Rep.mulInt_unit (hd : W.d g = 1) {r : Rep} (h : r.UnitP g) (n : ℕ) : ∃ v, Rep.mulInt W r n = .ok v ∧
    ((v = .int 0 ∧ n = 0) ∨ ∃ x, v = .rep x ∧ x.UnitP g ∧ x.size W = n * r.size W ∧ 1 ≤ n ∧ (2 ≤ n → ∃ s, x = .sum s)) := by
  unfold Rep.mulInt
  rcases Nat.lt_trichotomy n 1 with hn | rfl | hn
  · obtain rfl : n = 0 := by omega
    exact ⟨.int 0, by simp, Or.inl ⟨rfl, rfl⟩⟩
  · exact ⟨.rep r, by simp, Or.inr ⟨r, rfl, h, by simp, le_refl 1, by omega⟩⟩
  · obtain ⟨s, h1, h2, h3⟩ := mkSum_unit hd (ops := replicate n r) (by intro e; rw [replicate_eq_nil_iff] at e; omega) (fun x hx => by
      rw [(mem_replicate.1 hx).2]; exact h)
    refine ⟨.rep (.sum s), ?_, Or.inr ⟨_, rfl, h2, by simpa [Rep.size] using h3, by omega, fun _ => ⟨s, rfl⟩⟩⟩
    rw [if_neg (by omega), if_neg (by omega), h.concrete, Int.toNat_natCast, h1]; rfl

/-! ### Tensors -/

/-- What `V**p*V.T**q` is before it is called on a group. -/
def Rep.FreeV (r : Rep) : Prop :=
  r = .key .scalar ∨ ∃ l : List Atom, l ≠ [] ∧ (∀ a ∈ l, a = .vec 0 none ∨ a = .dual 0 none) ∧
    ((∃ a, l = [a] ∧ r = .key (.atom a)) ∨ r = .dprod (l.map fun a => .key (.atom a)))

theorem mkDeferredProd_free {a b : Rep} (ha : a.FreeV) (ha0 : a ≠ .key .scalar) (hb : b.FreeV) (hb0 : b ≠ .key .scalar) :
    ∃ r, mkDeferredProd [a, b] = .ok r ∧ r.FreeV ∧ r ≠ .key .scalar := by
  obtain ⟨l, l1, l2, l3⟩ := ha.resolve_left ha0
  obtain ⟨m, m1, m2, m3⟩ := hb.resolve_left hb0
  refine ⟨.dprod ((l ++ m).map fun a => .key (.atom a)), ?_, Or.inr ⟨l ++ m, by simp [l1], fun x hx => ?_, Or.inr rfl⟩, by simp⟩
  · rcases l3 with ⟨x, rfl, rfl⟩ | rfl <;> rcases m3 with ⟨y, rfl, rfl⟩ | rfl <;>
      simp [mkDeferredProd, Rep.isProduct]
  · rcases mem_append.1 hx with h | h
    exacts [l2 x h, m2 x h]

theorem Rep.FreeV.mul (W : World) {a b : Rep} (ha : a.FreeV) (hb : b.FreeV) : ∃ r, Rep.mul W a b = .ok r ∧ r.FreeV := by
  by_cases ha0 : a = .key .scalar
  · subst ha0; exact ⟨b, rfl, hb⟩
  by_cases hb0 : b = .key .scalar
  · subst hb0
    refine ⟨a, ?_, ha⟩
    obtain ⟨l, l1, l2, l3⟩ := ha.resolve_left ha0
    rcases l3 with ⟨x, rfl, rfl⟩ | rfl <;> rfl
  obtain ⟨r, h1, h2, -⟩ := mkDeferredProd_free ha ha0 hb hb0
  refine ⟨r, ?_, h2⟩
  obtain ⟨l, l1, l2, l3⟩ := ha.resolve_left ha0
  obtain ⟨m, m1, m2, m3⟩ := hb.resolve_left hb0
  rcases l3 with ⟨x, rfl, rfl⟩ | rfl <;> rcases m3 with ⟨y, rfl, rfl⟩ | rfl
  · rw [← h1]
    rcases l2 x (by simp) with rfl | rfl <;> rcases m2 y (by simp) with rfl | rfl <;> rfl
  all_goals rw [← h1]; rfl

theorem Rep.FreeV.pow (W : World) {a : Rep} (ha : a.FreeV) (n : ℕ) : ∃ r, Rep.powZ W a n = .ok r ∧ r.FreeV := by
  have : ∀ (n : ℕ) (x : Rep), x.FreeV → ∃ r, (replicate n a).foldlM (Rep.mul W) x = .ok r ∧ r.FreeV := by
    intro n
    induction n with
    | zero => intro x hx; exact ⟨x, rfl, hx⟩
    | succ n ih =>
      intro x hx
      obtain ⟨y, y1, y2⟩ := hx.mul W ha
      obtain ⟨z, z1, z2⟩ := ih y y2
      refine ⟨z, ?_, z2⟩
      rw [replicate_succ, foldlM_cons, y1]; exact z1
  obtain ⟨r, h1, h2⟩ := this n (.key .scalar) (Or.inl rfl)
  refine ⟨r, ?_, h2⟩
  unfold Rep.powZ Rep.pow
  rw [if_pos (by omega), Int.toNat_natCast]; exact h1

theorem mulList_unit (hd : W.d g = 1) : ∀ (l : List Fac) (f : Fac), f.UnitP g → (∀ x ∈ l, x.UnitP g) →
    ∃ f', (l.map fun x => Rep.key (.fac x)).foldlM (Rep.mul W) (.key (.fac f)) = .ok (.key (.fac f')) ∧ f'.UnitP g
  | [], f, hf, _ => ⟨f, rfl, hf⟩
  | x :: l, f, hf, hl => by
    have hx := hl x (by simp)
    obtain ⟨p, p1, p2⟩ := mkProd_unit hd hf hx
    obtain ⟨f', h1, h2⟩ := mulList_unit hd l (.prod p) p2 fun y hy => hl y (by simp [hy])
    refine ⟨f', ?_, h2⟩
    rw [map_cons, foldlM_cons]
    have e : Rep.mul W (.key (.fac f)) (.key (.fac x)) = .ok (.key (.fac (.prod p))) := by
      have c1 : (Key.fac f).concrete = true := Key.UnitP.concrete (g := g) hf
      have c2 : (Key.fac x).concrete = true := Key.UnitP.concrete (g := g) hx
      simp only [Rep.mul, c1, c2, Bool.and_self, if_true, Key.mul]
      rw [if_pos (by rw [hf.1.G, hx.1.G]), p1]; rfl
    rw [e]; exact h1

theorem Atom.call_unit (W : World) {a : Atom} (h : a = .vec 0 none ∨ a = .dual 0 none) : (a.call W (some g)).Unit g := by
  rcases h with rfl | rfl
  · exact Or.inl rfl
  · simp only [Atom.call, Atom.T]
    split
    exacts [Or.inl rfl, Or.inr rfl]

theorem callList_unit (W : World) (g : Gid) (sg : Option Gid) : ∀ l : List Atom,
    Rep.callList W (some g) sg (l.map fun a => .key (.atom a)) = .ok (l.map fun a => .key (.atom (a.call W (some g))), sg)
  | [] => by simp [Rep.callList]
  | a :: l => by
    simp only [map_cons, Rep.callList, Rep.call, Key.call]
    have := callList_unit W g sg l
    simp [this, Bind.bind, Except.bind]

theorem Rep.FreeV.call (hd : W.d g = 1) (sg : Option Gid) {r : Rep} (h : r.FreeV) :
    ∃ k sg', Rep.call W (some g) sg r = .ok (.key k, sg') ∧ k.UnitP g := by
  rcases h with rfl | ⟨l, l1, l2, l3⟩
  · exact ⟨.scalar, some g, rfl, trivial⟩
  rcases l3 with ⟨a, rfl, rfl⟩ | rfl
  · exact ⟨_, sg, rfl, Atom.call_unit W (l2 a (by simp)), trivial⟩
  · cases l with
    | nil => exact absurd rfl l1
    | cons a l =>
      obtain ⟨f, h1, h2⟩ := mulList_unit (W := W.setG sg) (g := g) hd (l.map fun a => .atom (a.call W (some g))) (.atom (a.call W (some g)))
        ⟨Atom.call_unit W (l2 a (by simp)), trivial⟩ (fun x hx => by
          obtain ⟨b, hb, rfl⟩ := mem_map.1 hx
          exact ⟨Atom.call_unit W (l2 b (by simp [hb])), trivial⟩)
      refine ⟨.fac f, sg, ?_, h2⟩
      simp only [Rep.call]
      rw [callList_unit]
      simp only [map_cons, Rep.mulList, Bind.bind, Except.bind]
      rw [List.map_map] at h1
      simp only [Function.comp_def] at h1
      rw [h1]

/-- `T(p,q,G)` is one tensor. -/
theorem tensorT_unit (hd : W.d g = 1) (p q : ℕ) : ∃ k sg', tensorT W p q (some g) = .ok (.key k, sg') ∧ k.UnitP g := by
  have hV : Rep.V.FreeV := Or.inr ⟨[.vec 0 none], by simp, by simp, Or.inl ⟨_, rfl, rfl⟩⟩
  have hT : (Rep.key (.atom (.dual 0 none))).FreeV := Or.inr ⟨[.dual 0 none], by simp, by simp, Or.inl ⟨_, rfl, rfl⟩⟩
  obtain ⟨x, x1, x2⟩ := hV.pow W p
  obtain ⟨y, y1, y2⟩ := hT.pow W q
  obtain ⟨z, z1, z2⟩ := x2.mul W y2
  obtain ⟨k, sg', k1, k2⟩ := z2.call (g := g) hd W.scalarG
  refine ⟨k, sg', ?_, k2⟩
  unfold tensorT
  rw [x1]
  have hTT : Rep.T W Rep.V = .ok (.key (.atom (.dual 0 none))) := rfl
  simp only [hTT, Bind.bind, Except.bind, y1, z1, k1]

end Verif
