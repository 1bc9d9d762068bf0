import Verif.Traj.VectorProofs
import Verif.Box
import Verif.Props.Traj

/-!
# C110: vectors of trajectories
-/

set_option linter.unusedSectionVars false

namespace Codac.Props
open Codac TVec

section C110
variable {K : Type*} [Field K] [LinearOrder K] [IsStrictOrderedRing K]

/-- C110: the value of a vector at an instant is defined exactly on the temporal domain of its components, has one number for each component, and is in the codomain -/
theorem C110_eval {D : Itv K} {x : List (Traj K)} (hx : VecOk D x) (hne : x ≠ []) (t : K) :
    ((∃ u, eval x t = some u) ↔ t ∈ D) ∧ ∀ u, eval x t = some u → u.length = x.length ∧ InBox u (codomain x) := by
  refine ⟨⟨fun ⟨u, hu⟩ => mem_dom_of_eval hx hne hu, eval_some hx⟩, fun u hu => ?_⟩
  obtain ⟨h1, h2⟩ := eval_iff.mp hu
  refine ⟨h1, ?_⟩
  have : ∀ (x : List (Traj K)) (u : List K), (∀ a ∈ x, TrajOk a) → u.length = x.length →
      (∀ (i : Nat) (a : Traj K), x[i]? = some a → ∃ v, u[i]? = some v ∧ a.evalAt t = some v) → InBox u (codomain x) := by
    intro x
    induction x with
    | nil =>
      intro u _ hl _
      cases u with
      | nil => exact List.Forall₂.nil
      | cons v u => simp at hl
    | cons a x ih =>
      intro u ha hl h
      cases u with
      | nil => simp at hl
      | cons v u =>
        obtain ⟨w, hw, hw'⟩ := h 0 a (by simp)
        simp only [List.getElem?_cons_zero, Option.some.injEq] at hw
        subst hw
        exact List.Forall₂.cons (Itv.mem_sup_right (evalAt_mem_cod (ha a (by simp)) hw'))
          (ih u (fun b hb => ha b (by simp [hb])) (by simpa using hl) fun i b hb => by simpa using h (i + 1) b (by simpa using hb))
  exact this x u (fun a ha => (hx a ha).1) h1 h2

/-! ### building -/

theorem ofValues_cons {p : K × List K} {l : List (K × List K)} {x : List (Traj K)} : ofValues (p :: l) x = (set x p.2 p.1).bind (ofValues l) := rfl

theorem ofValues_get {n : Nat} : ∀ {l : List (K × List K)} {x : List (Traj K)}, x ≠ [] → x.length = n → (∀ p ∈ l, p.2.length = n) →
    ∃ y, ofValues l x = some y ∧ y.length = n ∧ ∀ (i : Nat) (a : Traj K), x[i]? = some a →
      y[i]? = some ((l.map fun p => (p.1, p.2.getD i 0)).foldl (fun y p => y.set p.2 p.1) a) := by
  intro l
  induction l with
  | nil => intro x _ hn _; exact ⟨x, rfl, hn, fun i a ha => by simpa using ha⟩
  | cons p l ih =>
    intro x hx hn hl
    obtain ⟨x1, h1, h2, h3⟩ := set_get hx (v := p.2) (by rw [hl p (by simp), hn]) p.1
    have hx1 : x1 ≠ [] := by intro hc; rw [hc] at h2; exact hx (List.length_eq_zero_iff.mp h2.symm)
    obtain ⟨y, k1, k2, k3⟩ := ih hx1 (by rw [h2, hn]) fun q hq => hl q (by simp [hq])
    refine ⟨y, by rw [ofValues_cons, h1]; exact k1, k2, fun i a ha => ?_⟩
    rw [k3 i _ (h3 i a ha)]
    simp

theorem set_nil {v : List K} (hv : v ≠ []) (t : K) : set [] v t = set (ofSize v.length) v t := by
  have : v.length ≠ 0 := by simpa using hv
  unfold TVec.set
  simp [ofSize, this]

/-- C110: a vector built from a map of vectors has one component for each coordinate; its temporal domain goes from the first to the last instant and its value at each
instant of the map is the given vector -/
theorem C110_from_map {n : Nat} (hn : n ≠ 0) {l : List (K × List K)} (hne : l ≠ []) (hl : ∀ p ∈ l, p.2.length = n) (hs : (l.map Prod.fst).Pairwise (· < ·)) :
    ∃ x D, ofValues l [] = some x ∧ x.length = n ∧ VecOk D x ∧ IsHull D (l.map Prod.fst) ∧ ∀ p ∈ l, eval x p.1 = some p.2 := by
  obtain ⟨p0, l0, rfl⟩ := List.exists_cons_of_ne_nil hne
  have hp0 := hl p0 (by simp)
  have e : ofValues (p0 :: l0) [] = ofValues (p0 :: l0) (ofSize n : List (Traj K)) := by
    rw [ofValues_cons, ofValues_cons, set_nil (by intro hc; rw [hc] at hp0; simp at hp0; omega), hp0]
  have h0 : (ofSize n : List (Traj K)) ≠ [] := by unfold ofSize; intro hc; rw [List.replicate_eq_nil_iff] at hc; exact hn hc
  obtain ⟨x, h1, h2, h3⟩ := ofValues_get (l := p0 :: l0) h0 (by simp [ofSize]) hl
  refine ⟨x, hullOf ((p0 :: l0).map Prod.fst), by rw [e]; exact h1, h2, ?_, isHull_hullOf _, ?_⟩
  all_goals
    have hcomp : ∀ (i : Nat) (c : Traj K), x[i]? = some c → TrajOk c ∧ c.dom = hullOf ((p0 :: l0).map Prod.fst) ∧ c.pts = (p0 :: l0).map fun p => (p.1, p.2.getD i 0) := by
      intro i c hc
      have hi : i < n := by rw [← h2]; exact (List.getElem?_eq_some_iff.mp hc).1
      have := h3 i Traj.empty (by unfold ofSize; rw [List.getElem?_replicate, if_pos hi])
      rw [hc, Option.some.injEq] at this
      have hsp : SortedPts ((p0 :: l0).map fun p => (p.1, p.2.getD i 0)) := by
        rw [sortedPts_iff, List.map_map]; exact hs
      obtain ⟨k1, k2⟩ := foldl_set ((p0 :: l0).map fun p => (p.1, p.2.getD i 0)) Traj.empty trajOk_empty (by simpa [Traj.empty] using hsp)
      rw [← this] at k1 k2
      have k2' : c.pts = (p0 :: l0).map fun p => (p.1, p.2.getD i 0) := by simpa [Traj.empty] using k2
      refine ⟨k1, ?_, k2'⟩
      have kd := k1.dom
      rw [k2', List.map_map] at kd
      exact kd.unique (isHull_hullOf _)
  · intro c hc
    obtain ⟨i, hi⟩ := List.mem_iff_getElem?.mp hc
    exact ⟨(hcomp i c hi).1, (hcomp i c hi).2.1⟩
  · intro p hp
    rw [eval_iff]
    refine ⟨by rw [hl p hp, h2], fun i c hc => ?_⟩
    obtain ⟨k1, _, k3⟩ := hcomp i c hc
    obtain ⟨v, hv⟩ := get_of_length (m := p.2) (by rw [hl p hp, h2]) hc
    refine ⟨v, hv, ?_⟩
    rw [evalAt_iff k1, k3]
    refine .inl (List.mem_map.mpr ⟨p, hp, ?_⟩)
    rw [List.getD_eq_getElem?_getD, hv]; rfl

/-- C110: parts of a vector -/
theorem C110_parts (x : List (Traj K)) :
    (∀ i j, i ≤ j → j < x.length → ∃ y, subvector x i j = some y ∧ y.length = j - i + 1 ∧ ∀ k : Nat, k ≤ j - i → y[k]? = x[i + k]?) ∧
    (∀ i (y : List (Traj K)), i + y.length ≤ x.length → ∃ z, put x i y = some z ∧ z.length = x.length ∧ (∀ k : Nat, k < y.length → z[i + k]? = y[k]?) ∧
      ∀ k : Nat, (k < i ∨ i + y.length ≤ k) → z[k]? = x[k]?) ∧
    ∀ n, (resize x n).length = n ∧ ∀ k : Nat, k < n → (resize x n)[k]? = if k < x.length then x[k]? else some Traj.empty := by
  refine ⟨fun i j hij hj => ⟨(x.drop i).take (j - i + 1), by unfold subvector; rw [if_pos ⟨hj, hij⟩], by simp; omega, fun k hk => ?_⟩, fun i y h => ?_, fun n => ⟨?_, fun k hk => ?_⟩⟩
  · rw [List.getElem?_take_of_lt (by omega), List.getElem?_drop]
  · refine ⟨_, by unfold put; rw [if_pos h], by simp; omega, fun k hk => ?_, fun k hk => ?_⟩
    · have hl : (x.take i).length = i := by rw [List.length_take]; omega
      rw [List.append_assoc, List.getElem?_append_right (by omega), hl, List.getElem?_append_left (by omega)]
      congr 1; omega
    · have hl : (x.take i).length = i := by rw [List.length_take]; omega
      rcases hk with hk | hk
      · rw [List.append_assoc, List.getElem?_append_left (by omega), List.getElem?_take_of_lt hk]
      · rw [List.append_assoc, List.getElem?_append_right (by omega), List.getElem?_append_right (by omega), hl, List.getElem?_drop]
        congr 1; omega
  · unfold resize ofSize; simp; omega
  · unfold resize ofSize
    by_cases h : k < x.length
    · rw [if_pos h, List.getElem?_append_left (by rw [List.length_take]; omega), List.getElem?_take_of_lt hk]
    · rw [if_neg h, List.getElem?_append_right (by rw [List.length_take]; omega), List.getElem?_replicate, List.length_take, if_pos (by omega)]

/-! ### operators -/

/-- C110: `c * x1 + d * x2` in one operator: sum and difference of two vectors of trajectories, at every instant of the temporal domain -/
theorem bin_linear {D : Itv K} {x1 x2 : List (Traj K)} (h1 : VecOk D x1) (h2 : VecOk D x2) (hl : x1.length = x2.length) (c d : K) :
    ∃ y, bin (fun u v => c * u + d * v) x1 x2 = some y ∧ VecOk D y ∧ y.length = x1.length ∧
      ∀ t u v, eval x1 t = some u → eval x2 t = some v → eval y t = some (List.zipWith (fun u v => c * u + d * v) u v) := by
  obtain ⟨y, hy⟩ := zipM_total (f := fun a b : Traj K => a.binArith (fun u v => c * u + d * v) b) hl fun a ha b hb => by
    obtain ⟨z, hz, _⟩ := binArith_spec (h1 a ha).1 (h2 b hb).1 (by rw [(h1 a ha).2, (h2 b hb).2]) (fun u v => c * u + d * v)
    exact ⟨z, hz⟩
  obtain ⟨_, k1, k2⟩ := zipM_get hy
  refine ⟨y, hy, ?_, k1, ?_⟩
  · intro z hz
    obtain ⟨i, hi⟩ := List.mem_iff_getElem?.mp hz
    obtain ⟨a, ha⟩ := get_of_length k1.symm hi
    obtain ⟨b, hb⟩ := get_of_length hl.symm ha
    obtain ⟨z', e1, e2⟩ := k2 i a b ha hb
    rw [hi, Option.some.injEq] at e1
    subst e1
    have oa := h1 a (List.mem_of_getElem? ha)
    have ob := h2 b (List.mem_of_getElem? hb)
    obtain ⟨w, e3, e4, e5, _⟩ := binArith_spec oa.1 ob.1 (by rw [oa.2, ob.2]) (fun u v => c * u + d * v)
    rw [e2, Option.some.injEq] at e3
    subst e3
    exact ⟨e4, by rw [e5, oa.2]⟩
  · intro t u v hu hv
    obtain ⟨u1, u2⟩ := eval_iff.mp hu
    obtain ⟨v1, v2⟩ := eval_iff.mp hv
    rw [eval_iff]
    refine ⟨by rw [List.length_zipWith, u1, v1, k1, hl, min_self], fun i z hz => ?_⟩
    obtain ⟨a, ha⟩ := get_of_length k1.symm hz
    obtain ⟨b, hb⟩ := get_of_length hl.symm ha
    obtain ⟨z', e1, e2⟩ := k2 i a b ha hb
    rw [hz, Option.some.injEq] at e1
    subst e1
    obtain ⟨p, hp1, hp2⟩ := u2 i a ha
    obtain ⟨q, hq1, hq2⟩ := v2 i b hb
    have oa := h1 a (List.mem_of_getElem? ha)
    have ob := h2 b (List.mem_of_getElem? hb)
    exact ⟨c * p + d * q, by rw [List.getElem?_zipWith, hp1, hq1], binArith_linear oa.1 ob.1 (by rw [oa.2, ob.2]) c d e2 t p q hp2 hq2⟩

/-- C110: `x1 + x2` and `x1 - x2` are defined for vectors of the same size over the same temporal domain, and have the right value at every instant -/
theorem C110_sum {D : Itv K} {x1 x2 : List (Traj K)} (h1 : VecOk D x1) (h2 : VecOk D x2) (hl : x1.length = x2.length) :
    (∃ y, bin (· + ·) x1 x2 = some y ∧ VecOk D y ∧ y.length = x1.length ∧
      ∀ t u v, eval x1 t = some u → eval x2 t = some v → eval y t = some (List.zipWith (· + ·) u v)) ∧
    ∃ y, bin (· - ·) x1 x2 = some y ∧ VecOk D y ∧ y.length = x1.length ∧
      ∀ t u v, eval x1 t = some u → eval x2 t = some v → eval y t = some (List.zipWith (· - ·) u v) := by
  have e1 : (fun u v : K => u + v) = fun u v => 1 * u + 1 * v := by funext u v; ring
  have e2 : (fun u v : K => u - v) = fun u v => 1 * u + (-1) * v := by funext u v; ring
  constructor
  · rw [e1]; exact bin_linear h1 h2 hl 1 1
  · rw [e2]; exact bin_linear h1 h2 hl 1 (-1)

theorem mapVal_linear {x : Traj K} (hx : TrajOk x) (c : K) (t v : K) (h : x.evalAt t = some v) : (x.mapVal fun u => c * u).evalAt t = some (c * v) := by
  have hok := (mapVal_spec hx fun u => c * u).1
  rw [evalAt_ev hok]
  have hp : (x.mapVal fun u => c * u).pts = x.pts.map fun p => (p.1, c * p.2) := ofMap_pts _
  have hz : Traj.zipPts (fun u v : K => c * u + 0 * v) x.pts x.pts = some (x.pts.map fun p => (p.1, c * p.2)) := by
    generalize x.pts = l
    induction l with
    | nil => rfl
    | cons p l ih => simp only [Traj.zipPts, ih, List.map_cons, Option.map_some]; simp
  rw [evalAt_ev hx] at h
  have := ev_zipPts c 0 rfl hx.sorted hz t v v h h
  rw [hp, this]
  simp

theorem eval_mapVal {D : Itv K} {x : List (Traj K)} (hx : VecOk D x) (c : K) {t : K} {u : List K} (hu : eval x t = some u) :
    eval (mapVal (fun v => c * v) x) t = some (u.map fun v => c * v) := by
  obtain ⟨h1, h2⟩ := eval_iff.mp hu
  rw [eval_iff]
  refine ⟨by simp [mapVal, h1], fun i a ha => ?_⟩
  unfold mapVal at ha
  rw [List.getElem?_map, Option.map_eq_some_iff] at ha
  obtain ⟨b, hb, rfl⟩ := ha
  obtain ⟨v, e1, e2⟩ := h2 i b hb
  exact ⟨c * v, by rw [List.getElem?_map, e1]; rfl, mapVal_linear (hx b (List.mem_of_getElem? hb)).1 c t v e2⟩

/-- C110: `-x` and `c * x`, `x *= c`, `x / c` (as the product with the inverse) have the right value at every instant; for these operators in place the codomain is computed apart, by an
operation `g` which gives the hull of the products -/
theorem C110_scale {D : Itv K} {x : List (Traj K)} (hx : VecOk D x) :
    (∀ t u, eval x t = some u → eval (mapVal (- ·) x) t = some (u.map (- ·))) ∧
    ∀ (c : K) (g : Itv K → Itv K), (∀ (X : Itv K) (l : List K), IsHull X l → IsHull (g X) (l.map fun v => c * v)) →
      VecOk D (scal (fun v => c * v) g x) ∧ ∀ t u, eval x t = some u → eval (scal (fun v => c * v) g x) t = some (u.map fun v => c * v) := by
  constructor
  · intro t u hu
    have e : (fun v : K => -v) = fun v => (-1) * v := by funext v; ring
    rw [e]; exact eval_mapVal hx (-1) hu
  · intro c g hg
    have hs : ∀ a ∈ x, TrajOk (a.opAssignScal (fun v => c * v) g) ∧ (a.opAssignScal (fun v => c * v) g).dom = a.dom := fun a ha =>
      ⟨(opAssignScal_spec (hx a ha).1 _ g hg).1, (opAssignScal_spec (hx a ha).1 _ g hg).2.1⟩
    refine ⟨?_, fun t u hu => ?_⟩
    · intro b hb
      unfold scal at hb
      obtain ⟨a, ha, rfl⟩ := List.mem_map.mp hb
      exact ⟨(hs a ha).1, by rw [(hs a ha).2, (hx a ha).2]⟩
    · have h2 := eval_mapVal hx c hu
      obtain ⟨k1, k2⟩ := eval_iff.mp h2
      rw [eval_iff]
      refine ⟨by rw [k1]; simp [scal, mapVal], fun i a ha => ?_⟩
      unfold scal at ha
      rw [List.getElem?_map, Option.map_eq_some_iff] at ha
      obtain ⟨b, hb, rfl⟩ := ha
      obtain ⟨v, e1, e2⟩ := k2 i (b.mapVal fun v => c * v) (by unfold mapVal; rw [List.getElem?_map, hb]; rfl)
      have hbx := hx b (List.mem_of_getElem? hb)
      refine ⟨v, e1, ?_⟩
      rw [evalAt_ev (hs b (List.mem_of_getElem? hb)).1]
      rw [evalAt_ev (mapVal_spec hbx.1 fun v => c * v).1, show (b.mapVal fun v => c * v).pts = b.pts.map fun p => (p.1, c * p.2) from ofMap_pts _] at e2
      exact e2

/-- C110: `x f= y` with another trajectory `y` over the same temporal domain: at every instant of the component or of `y`, the new value is the operation on both values -/
theorem C110_assign {D : Itv K} {x : List (Traj K)} {y : Traj K} (hx : VecOk D x) (hy : TrajOk y) (hd : y.dom = D) (f : K → K → K) :
    ∃ z, assignScal f x (.other y) = some z ∧ z.length = x.length ∧ VecOk D z ∧
      ∀ (i : Nat) (a c : Traj K), x[i]? = some a → z[i]? = some c → ∀ k, (k ∈ a.pts.map Prod.fst ∨ k ∈ y.pts.map Prod.fst) →
        ∃ u v, a.evalAt k = some u ∧ y.evalAt k = some v ∧ c.evalAt k = some (f u v) := by
  obtain ⟨z, hz⟩ := assignLoop_total (f := fun a b : Traj K => a.opAssignTraj f b) (y := y) (n := x.length) (i := 0) (l := x) (by simp) fun k a _ ha => by
    have oa := hx a (List.mem_of_getElem? ha)
    obtain ⟨w, hw, _⟩ := opAssignTraj_spec oa.1 hy (by rw [hd, oa.2]) f
    exact ⟨w, hw⟩
  have hl := (assignLoop_length hz).1
  have hc := assignLoop_const hz (b := y) rfl (fun j hj => by cases hj)
  refine ⟨z, hz, hl, ?_, ?_⟩
  · intro c hcz
    obtain ⟨i, hi⟩ := List.mem_iff_getElem?.mp hcz
    obtain ⟨a, ha⟩ := get_of_length hl.symm hi
    obtain ⟨c', e1, e2⟩ := hc i a (by omega) (by have := (List.getElem?_eq_some_iff.mp ha).1; omega) ha
    rw [hi, Option.some.injEq] at e1
    subst e1
    have oa := hx a (List.mem_of_getElem? ha)
    obtain ⟨w, hw, hw1, hw2, _⟩ := opAssignTraj_spec oa.1 hy (by rw [hd, oa.2]) f
    rw [e2, Option.some.injEq] at hw
    subst hw
    exact ⟨hw1, by rw [hw2, oa.2]⟩
  · intro i a c ha hci k hk
    obtain ⟨c', e1, e2⟩ := hc i a (by omega) (by have := (List.getElem?_eq_some_iff.mp ha).1; omega) ha
    rw [hci, Option.some.injEq] at e1
    subst e1
    have oa := hx a (List.mem_of_getElem? ha)
    obtain ⟨w, hw, hw1, hw2, hw3, hw4⟩ := opAssignTraj_spec oa.1 hy (by rw [hd, oa.2]) f
    rw [e2, Option.some.injEq] at hw
    subst hw
    exact hw4 k ((hw3 k).mpr hk)

/-- C110: with one of its own components `j` as operand, `x f= x[j]` uses the first value of `x[j]` up to the component `j`, and its new value after it -/
theorem C110_assign_own {x z : List (Traj K)} {f : K → K → K} {j : Nat} {b c : Traj K} (hb : x[j]? = some b) (hc : b.opAssignTraj f b = some c)
    (h : assignScal f x (.own j) = some z) :
    z.length = x.length ∧ ∀ (i : Nat) (a : Traj K), x[i]? = some a → ∃ d, z[i]? = some d ∧ a.opAssignTraj f (if i ≤ j then b else c) = some d :=
  ⟨(assignLoop_length h).1, fun i a ha => assignLoop_own h hb hc (by omega) (by have := (List.getElem?_eq_some_iff.mp hb).1; omega) i a (by omega)
    (by have := (List.getElem?_eq_some_iff.mp ha).1; omega) ha⟩

/-- C110 fails for an operand which is a component of the vector: `x *= x[0]` on the constant vector `(2, 3)` gives `(4, 12)` -/
theorem C110_assign_fails : ∃ (x z : List (Traj ℚ)), VecOk (Itv.icc 0 1) x ∧ assignScal (· * ·) x (.own 0) = some z ∧
    eval x 0 = some [2, 3] ∧ eval z 0 = some [4, 12] := by
  have hA : TrajOk (Traj.ofMap [((0 : ℚ), (2 : ℚ)), (1, 2)]) := trajOk_ofMap (by decide +kernel)
  have hB : TrajOk (Traj.ofMap [((0 : ℚ), (3 : ℚ)), (1, 3)]) := trajOk_ofMap (by decide +kernel)
  refine ⟨[Traj.ofMap [(0, 2), (1, 2)], Traj.ofMap [(0, 3), (1, 3)]], [Traj.ofMap [(0, 4), (1, 4)], Traj.ofMap [(0, 12), (1, 12)]], ?_, by decide +kernel, by decide +kernel,
    by decide +kernel⟩
  intro a ha
  simp only [List.mem_cons, List.not_mem_nil, or_false] at ha
  rcases ha with rfl | rfl
  · exact ⟨hA, by decide +kernel⟩
  · exact ⟨hB, by decide +kernel⟩

/-! ### products -/

/-- C110 (partial): the product of a square matrix (list of rows) and a vector of trajectories is defined and has the right value at every instant, even between the instants of the
components and for components with different instants. Missing: other matrices, see `C110_matrix_fails`. -/
theorem C110_matrix_partial {D : Itv K} {x : List (Traj K)} (hx : VecOk D x) (hne : x ≠ []) {A : List (List K)} (hA : ∀ r ∈ A, r.length = x.length)
    (hsq : A.length = x.length) :
    ∃ y, matMul A x = some y ∧ y.length = x.length ∧ VecOk D y ∧ ∀ t u, eval x t = some u → eval y t = some (A.map fun r => dot r u) := matMul_ok hx hne hA hsq

/-- C110 fails for the product by any matrix which is not square: the result is created with the size of the vector instead of the number of rows, and the first `set` violates an
assert (without asserts, coordinates are dropped or read out of bounds) -/
theorem C110_matrix_fails {D : Itv K} {x : List (Traj K)} (hx : VecOk D x) (hne : x ≠ []) (hD : ∃ t, t ∈ D) {A : List (List K)} (hA : ∀ r ∈ A, r.length = x.length)
    (hsq : A.length ≠ x.length) : matMul A x = none := by
  obtain ⟨y, h1, h2, h3, _⟩ := sampleRows_ok (n := x.length) (List.range x.length) hx rfl fun i hi => List.mem_range.mp hi
  unfold matMul
  rw [h1, Option.bind_some]
  have hy : y ≠ [] := by intro hc; rw [hc] at h3; exact hne (List.length_eq_zero_iff.mp h3.length.symm)
  obtain ⟨b, l, rfl⟩ := List.exists_cons_of_ne_nil hy
  obtain ⟨ob, db⟩ := h2 b (by simp)
  obtain ⟨t, ht⟩ := hD
  obtain ⟨k, hk, _⟩ := ob.dom.between (t := t) (by rw [db]; exact ht)
  obtain ⟨k0, ks, hks⟩ := List.exists_cons_of_ne_nil (List.ne_nil_of_mem hk)
  rw [show firstKeys (b :: l) = k0 :: ks from hks]
  have hk0 : k0 ∈ D := by rw [← db]; exact ob.dom.1 k0 (by rw [hks]; simp)
  obtain ⟨u, hu⟩ := eval_some h2 hk0
  have hul : u.length = x.length := by rw [(eval_iff.mp hu).1, h3.length]
  have hn : x.length ≠ 0 := by simpa using hne
  unfold setAll
  rw [hu, Option.bind_some, matVec_eq hA hul, Option.bind_some]
  have : set (ofSize x.length) (A.map fun r => dot r u) k0 = none := by
    unfold TVec.set
    simp only [ofSize, List.length_replicate, if_neg hn]
    cases hz : zipM (fun (a : Traj K) v => some (a.set v k0)) (List.replicate x.length Traj.empty) (A.map fun r => dot r u) with
    | none => rfl
    | some r =>
      have := (zipM_get hz).1
      simp at this
      exact absurd this.symm hsq
  rw [this]; rfl

/-- C110 (partial): `vecto_product(x, v)` and `vecto_product(v, x)` for a vector `x` of three trajectories and a vector `v` of three numbers, when the instants of the two last
components are instants of the first one: the value at every instant is the vector product. Missing: other instants, see `C110_cross_fails`. -/
theorem C110_cross_partial {D : Itv K} {a b c : Traj K} (hx : VecOk D [a, b, c]) (hkb : ∀ p ∈ b.pts, p.1 ∈ a.pts.map Prod.fst)
    (hkc : ∀ p ∈ c.pts, p.1 ∈ a.pts.map Prod.fst) (d e f : K) :
    (∃ y, cross [a, b, c] [d, e, f] = some y ∧ VecOk D y ∧ ∀ t u v w, eval [a, b, c] t = some [u, v, w] →
      eval y t = some [v * f - w * e, w * d - u * f, u * e - v * d]) ∧
    ∃ y, crossLeft [d, e, f] [a, b, c] = some y ∧ ∀ t u v w, eval [a, b, c] t = some [u, v, w] →
      eval y t = some [e * w - f * v, f * u - d * w, d * v - e * u] := by
  obtain ⟨y, h1, _, h3, h4⟩ := cross_ok hx hkb hkc d e f
  refine ⟨⟨y, h1, h3, fun t u v w hu => h4 t _ hu⟩, ⟨mapVal (- ·) y, by unfold crossLeft; rw [h1]; rfl, fun t u v w hu => ?_⟩⟩
  rw [(C110_scale h3).1 t _ (h4 t _ hu)]
  simp only [List.map_cons, List.map_nil, Option.some.injEq, List.cons.injEq, and_true]
  refine ⟨by ring, by ring, by ring⟩

/-- C110 fails for the vector product of a vector whose components have different instants: only the instants of the first component are used, the peak of the second one is lost -/
theorem C110_cross_fails : ∃ (x y : List (Traj ℚ)) (v : List ℚ), VecOk (Itv.icc 0 2) x ∧ cross x v = some y ∧ eval x 1 = some [0, 1, 0] ∧
    crossVec [0, 1, 0] v = some [1, 0, 0] ∧ eval y 1 = some [0, 0, 0] := by
  have hA : TrajOk (Traj.ofMap [((0 : ℚ), (0 : ℚ)), (2, 0)]) := trajOk_ofMap (by decide +kernel)
  have hB : TrajOk (Traj.ofMap [((0 : ℚ), (0 : ℚ)), (1, 1), (2, 0)]) := trajOk_ofMap (by decide +kernel)
  refine ⟨[Traj.ofMap [(0, 0), (2, 0)], Traj.ofMap [(0, 0), (1, 1), (2, 0)], Traj.ofMap [(0, 0), (2, 0)]],
    [Traj.ofMap [(0, 0), (2, 0)], Traj.ofMap [(0, 0), (2, 0)], Traj.ofMap [(0, 0), (2, 0)]], [0, 0, 1], ?_, by decide +kernel, by decide +kernel, by decide +kernel,
    by decide +kernel⟩
  intro a ha
  simp only [List.mem_cons, List.not_mem_nil, or_false] at ha
  rcases ha with rfl | rfl | rfl
  · exact ⟨hA, by decide +kernel⟩
  · exact ⟨hB, by decide +kernel⟩
  · exact ⟨hA, by decide +kernel⟩

/-- the same vector by a rotation matrix: the peak is kept -/
example : (matMul [[0, -1], [1, 0]] [Traj.ofMap [((0 : ℚ), (0 : ℚ)), (2, 4)], Traj.ofMap [(0, 0), (1, 1), (2, 0)]]).map (fun y => (eval y 1, eval y (3 / 2))) =
    some (some [-1, 2], some [-1 / 2, 3]) := by decide +kernel

example : VecOk (Itv.icc 0 2) [Traj.ofMap [((0 : ℚ), (0 : ℚ)), (2, 4)], Traj.ofMap [(0, 0), (1, 1), (2, 0)]] := by
  intro a ha
  simp only [List.mem_cons, List.not_mem_nil, or_false] at ha
  rcases ha with rfl | rfl
  · exact ⟨trajOk_ofMap (by decide +kernel), by decide +kernel⟩
  · exact ⟨trajOk_ofMap (by decide +kernel), by decide +kernel⟩

/-! ### comparison, temporal domain, primitives -/

/-- C110: two vectors are equal for `==` when they have the same size and equal components -/
theorem C110_equality (x y : List (Traj K)) : beq x y = true ↔ List.Forall₂ (fun a b => Traj.beq a b = true) x y := by
  have hb : ∀ a b : Traj K, a.bne b = !a.beq b := by
    intro a b
    unfold Traj.bne
    by_cases h : a.beq b = true
    · have h' := h
      unfold Traj.beq at h'
      simp only [Bool.and_eq_true, decide_eq_true_eq] at h'
      simp [h, h'.1.1, h'.1.2]
    · simp [Bool.not_eq_true _ ▸ h]
  unfold beq
  induction x generalizing y with
  | nil => cases y <;> simp [beqLoop]
  | cons a x ih =>
    cases y with
    | nil => simp
    | cons b y =>
      have := ih y
      simp only [List.length_cons, ne_eq, Nat.add_right_cancel_iff, List.forall₂_cons, ← this, beqLoop, hb]
      by_cases hl : x.length = y.length <;> cases hab : a.beq b <;> simp [hl]

/-- C110: truncation and translation of the temporal domain do not change the values -/
theorem C110_tdomain {D : Itv K} {x : List (Traj K)} (hx : VecOk D x) :
    (∀ a b : K, a < b → Itv.icc a b ≤ D → ∃ y, truncate x a b = some y ∧ VecOk (Itv.icc a b) y ∧ ∀ t, a ≤ t → t ≤ b → eval y t = eval x t) ∧
    ∀ d t, eval (shift x d) (t + d) = eval x t := by
  constructor
  · intro a b hab hD
    have hdef : ∀ c ∈ x, ∃ c', (if c.pts.isEmpty then some c else c.truncate a b) = some c' ∧ TrajOk c' ∧ c'.dom = Itv.icc a b ∧
        ∀ t, a ≤ t → t ≤ b → c'.evalAt t = c.evalAt t := by
      intro c hc
      obtain ⟨oc, dc⟩ := hx c hc
      have hne : c.pts.isEmpty = false := by
        rw [Bool.eq_false_iff]
        intro he
        rw [List.isEmpty_iff] at he
        have h0 := oc.dom.2 ⊥ (by rw [he]; simp)
        have : a ∈ (⊥ : Itv K) := Itv.mem_of_le (le_trans (by rw [dc]; exact hD) h0) (Itv.mem_icc.mpr ⟨le_rfl, hab.le⟩)
        exact Itv.not_mem_bot _ this
      obtain ⟨c', h1⟩ := truncate_some oc hab (by rw [dc]; exact hD)
      obtain ⟨k1, k2, k3⟩ := trajOk_truncate oc h1
      exact ⟨c', by rw [hne]; exact h1, k1, k2, k3⟩
    obtain ⟨y, hy⟩ := allM_total (f := fun c : Traj K => if c.pts.isEmpty then some c else c.truncate a b) fun c hc => (hdef c hc).imp fun _ h => h.1
    obtain ⟨k1, k2⟩ := allM_get hy
    have hcomp : ∀ (i : Nat) (c c' : Traj K), x[i]? = some c → y[i]? = some c' → TrajOk c' ∧ c'.dom = Itv.icc a b ∧ ∀ t, a ≤ t → t ≤ b → c'.evalAt t = c.evalAt t := by
      intro i c c' hc hc'
      obtain ⟨d, e1, e2⟩ := k2 i c hc
      rw [hc', Option.some.injEq] at e1
      subst e1
      obtain ⟨d', f1, f2⟩ := hdef c (List.mem_of_getElem? hc)
      rw [e2, Option.some.injEq] at f1
      subst f1
      exact f2
    refine ⟨y, hy, fun c' hc' => ?_, fun t h1 h2 => ?_⟩
    · obtain ⟨i, hi⟩ := List.mem_iff_getElem?.mp hc'
      obtain ⟨c, hc⟩ := get_of_length k1.symm hi
      exact ⟨(hcomp i c c' hc hi).1, (hcomp i c c' hc hi).2.1⟩
    · obtain ⟨u, hu⟩ := eval_some hx (t := t) (Itv.mem_of_le hD (Itv.mem_icc.mpr ⟨h1, h2⟩))
      rw [hu, eval_iff]
      obtain ⟨m1, m2⟩ := eval_iff.mp hu
      refine ⟨by rw [m1, k1], fun i c' hc' => ?_⟩
      obtain ⟨c, hc⟩ := get_of_length k1.symm hc'
      obtain ⟨v, e1, e2⟩ := m2 i c hc
      exact ⟨v, e1, by rw [(hcomp i c c' hc hc').2.2 t h1 h2]; exact e2⟩
  · intro d t
    unfold eval shift
    induction x with
    | nil => rfl
    | cons c x ih =>
      have h1 := (trajOk_shift (hx c (by simp)).1 d).2.2 t
      simp only [List.map_cons, allM, h1]
      rw [ih fun a ha => hx a (by simp [ha])]

/-- C110: `primitive(c)` is defined for a vector `c` of the same size, its components are the primitives of the components with the values of `c` at the first instant -/
theorem C110_primitive {D : Itv K} {x : List (Traj K)} (hx : VecOk D x) {c : List K} (hl : x.length = c.length) :
    ∃ y, primitive x c = some y ∧ VecOk D y ∧ ∀ (i : Nat) (a : Traj K) (v : K), x[i]? = some a → c[i]? = some v → y[i]? = some (a.primitive v) := by
  obtain ⟨y, hy⟩ := zipM_total (f := fun (a : Traj K) v => some (a.primitive v)) hl fun a _ b _ => ⟨_, rfl⟩
  obtain ⟨_, k1, k2⟩ := zipM_get hy
  have hget : ∀ (i : Nat) (a : Traj K) (v : K), x[i]? = some a → c[i]? = some v → y[i]? = some (a.primitive v) := by
    intro i a v ha hv
    obtain ⟨d, e1, e2⟩ := k2 i a v ha hv
    rw [e1, ← e2]
  refine ⟨y, hy, fun b hb => ?_, hget⟩
  obtain ⟨i, hi⟩ := List.mem_iff_getElem?.mp hb
  obtain ⟨a, ha⟩ := get_of_length k1.symm hi
  obtain ⟨v, hv⟩ := get_of_length hl.symm ha
  have e := hget i a v ha hv
  rw [hi, Option.some.injEq] at e
  subst e
  obtain ⟨h1, _, h3⟩ := primitive_ok (hx a (List.mem_of_getElem? ha)).1 v
  exact ⟨h1, by rw [h3, (hx a (List.mem_of_getElem? ha)).2]⟩

example : (ofValues [((0 : ℚ), [(1 : ℚ), 2]), (1, [3, 4])] []).map (fun x => (eval x (1 / 2), codomain x)) = some (some [2, 3], [Itv.icc 1 3, Itv.icc 2 4]) := by
  decide +kernel

end C110
end Codac.Props
