import Verif.Traj.Primitive
import Verif.Traj.Range

/-! # Arithmetic on trajectories -/

set_option linter.unusedSectionVars false

namespace Codac

variable {K : Type*} [Field K] [LinearOrder K]

namespace Traj

/-- unary functions and operators with a number: codac_traj_arithmetic_scalar.cpp:24-37 (`-x`), 39-53, 59-71, 88-118, 145-175, 211-239; `f` is the function
on numbers -/
def mapVal (f : K → K) (x : Traj K) : Traj K := ofMap (x.pts.map fun p => (p.1, f p.2))

/-- the loop over two maps advancing together, codac_traj_arithmetic_scalar.cpp:137-141 and 200-204: it stops at the end of the first one; `none`: the second one
is exhausted before (undefined behaviour) -/
def zipPts (f : K → K → K) : List (K × K) → List (K × K) → Option (List (K × K))
  | [], _ => some []
  | p :: l, q :: m => (zipPts f l m).map ((p.1, f p.2 q.2) :: ·)
  | _ :: _, [] => none

/-- `operator f(x1, x2)` for `+`, `-`, `*`, `/`, codac_traj_arithmetic_scalar.cpp:122-144; `none`: an assert fails -/
def binArith (f : K → K → K) (x1 x2 : Traj K) : Option (Traj K) :=
  (x1.sampleLike x2).bind fun s1 => (x2.sampleLike x1).bind fun s2 => (zipPts f s1.pts s2.pts).map ofMap

/-- `f(x1, x2)` for `atan2`, `min`, `max`, codac_traj_arithmetic_scalar.cpp:183-208: the resampled trajectories are computed, but the maps which are combined are
those of the arguments -/
def binFun (f : K → K → K) (x1 x2 : Traj K) : Option (Traj K) :=
  (x1.sampleLike x2).bind fun _ => (x2.sampleLike x1).bind fun _ => (zipPts f x1.pts x2.pts).map ofMap

/-- `x f= y`, codac_Trajectory_operators.cpp:31-49, for trajectories defined by maps -/
def opAssignTraj (f : K → K → K) (x y : Traj K) : Option (Traj K) :=
  (y.sampleLike x).bind fun s => (s.pts.mapM fun p => (x.evalAt p.1).map fun v => (p.1, f v p.2)).map fun m =>
    computeCodomain { x with pts := m }

/-- `x f= a`, codac_Trajectory_operators.cpp:20-29; `g` is the same operation on the codomain (IBEX) -/
def opAssignScal (f : K → K) (g : Itv K → Itv K) (x : Traj K) : Traj K := ⟨x.pts.map fun p => (p.1, f p.2), x.dom, g x.cod⟩

end Traj

/-- a trajectory of either definition type: `fn` is `m_function` when the type is `ANALYTIC_FNC` (codac_Trajectory.h:456-465) -/
structure AnyTraj (K : Type*) [LinearOrder K] where
  fn : Option (K → K)
  traj : Traj K

/-- `operator()(double)`, codac_Trajectory.cpp:149-180 -/
def AnyTraj.evalAt (x : AnyTraj K) (t : K) : Option K :=
  match x.fn with
  | some f => if Itv.point t ≤ x.traj.dom then some (f t) else none
  | none => x.traj.evalAt t

/-- `x f= y` for a trajectory `x` defined by a function and a trajectory `y` defined by a map, codac_Trajectory_operators.cpp:31-49: the map is written and the
definition type is left as it is. `cod` is the evaluation of the function over the temporal domain (`compute_codomain`). -/
def AnyTraj.opAssignTraj (f : K → K → K) (cod : Itv K) (x : AnyTraj K) (y : Traj K) : Option (AnyTraj K) :=
  if x.traj.dom = y.dom then
    (y.pts.mapM fun p => (x.evalAt p.1).map fun v => (p.1, f v p.2)).map fun m => ⟨x.fn, ⟨m, x.traj.dom, if x.fn.isSome then cod else hullOf (m.map Prod.snd)⟩⟩
  else none

variable [IsStrictOrderedRing K]

/-! ### Unary functions -/

theorem mapVal_sorted {x : Traj K} (h : TrajOk x) (f : K → K) : SortedPts (x.pts.map fun p => (p.1, f p.2)) := by
  rw [sortedPts_iff, List.map_map]
  exact sortedPts_iff.mp h.sorted

theorem ofMap_pts (l : List (K × K)) : (Traj.ofMap l).pts = l := by
  unfold Traj.ofMap
  split <;> rfl

theorem mapVal_spec {x : Traj K} (h : TrajOk x) (f : K → K) :
    TrajOk (x.mapVal f) ∧ (x.mapVal f).dom = x.dom ∧ ∀ p ∈ x.pts, (x.mapVal f).evalAt p.1 = some (f p.2) := by
  have hok : TrajOk (x.mapVal f) := trajOk_ofMap (mapVal_sorted h f)
  have hp : (x.mapVal f).pts = x.pts.map fun p => (p.1, f p.2) := ofMap_pts _
  refine ⟨hok, ?_, fun p hp' => ?_⟩
  · have hd := hok.dom
    rw [hp, List.map_map] at hd
    exact hd.unique h.dom
  · rw [evalAt_iff hok, hp]
    exact .inl (List.mem_map.mpr ⟨p, hp', rfl⟩)

/-! ### Sampling on the instants of another trajectory is always possible -/

theorem sampleLoop_total {x : Traj K} (h : TrajOk x) : ∀ (ts : List K) (m : List (K × K)), (∀ t ∈ ts, t ∈ x.dom) → ∃ m', x.sampleLoop ts m = some m' := by
  intro ts
  induction ts with
  | nil => intro m _; exact ⟨m, rfl⟩
  | cons t ts ih =>
    intro m ht
    rw [Traj.sampleLoop]
    cases lookupPt t m with
    | some v => exact ih m fun u hu => ht u (by simp [hu])
    | none =>
      obtain ⟨v, hv⟩ := evalAt_some h (ht t (by simp))
      dsimp only
      rw [hv, Option.bind_some]
      exact ih _ fun u hu => ht u (by simp [hu])

theorem sampleLike_total {x y : Traj K} (hx : TrajOk x) (hy : TrajOk y) (hd : x.dom = y.dom) :
    ∃ x', x.sampleLike y = some x' ∧ TrajOk x' ∧ x'.dom = x.dom ∧ (∀ t, x'.evalAt t = x.evalAt t) ∧
      ∀ k, k ∈ x'.pts.map Prod.fst ↔ k ∈ x.pts.map Prod.fst ∨ k ∈ y.pts.map Prod.fst := by
  obtain ⟨m, hm⟩ := sampleLoop_total hx (y.pts.map Prod.fst) x.pts (fun t ht => by rw [hd]; exact hy.dom.1 t ht)
  obtain ⟨h1, h2, h3, h4⟩ := sampleLoop_spec hx (.refl hx.sorted) hm
  obtain ⟨h5, h6⟩ := trajOk_of_sameFun hx h1
  refine ⟨{ x with pts := m }, by unfold Traj.sampleLike; rw [if_pos hd, hm]; rfl, h5, rfl, h6, fun k => ?_⟩
  constructor
  · intro hk
    obtain ⟨p, hp, rfl⟩ := List.mem_map.mp hk
    exact (h4 p hp).imp (fun h => List.mem_map_of_mem h) id
  · rintro (hk | hk)
    · obtain ⟨p, hp, rfl⟩ := List.mem_map.mp hk
      exact List.mem_map_of_mem (h1.keeps p hp)
    · obtain ⟨p, hp, rfl⟩ := h3 k hk
      exact List.mem_map_of_mem hp

theorem sorted_keys_eq {l m : List (K × K)} (hl : SortedPts l) (hm : SortedPts m) (h : ∀ k, k ∈ l.map Prod.fst ↔ k ∈ m.map Prod.fst) :
    l.map Prod.fst = m.map Prod.fst := by
  rw [sortedPts_iff] at hl hm
  have n1 : (l.map Prod.fst).Nodup := hl.imp fun h => ne_of_lt h
  have n2 : (m.map Prod.fst).Nodup := hm.imp fun h => ne_of_lt h
  have hp : (l.map Prod.fst).Perm (m.map Prod.fst) := (List.perm_ext_iff_of_nodup n1 n2).mpr h
  exact List.Perm.eq_of_pairwise (fun a b _ _ h1 h2 => absurd (lt_trans h1 h2) (lt_irrefl _)) hl hm hp

/-! ### Binary operators -/

theorem zipPts_total (f : K → K → K) : ∀ {l m : List (K × K)}, l.map Prod.fst = m.map Prod.fst →
    ∃ r, Traj.zipPts f l m = some r ∧ r.map Prod.fst = l.map Prod.fst ∧
      ∀ k a b, (k, a) ∈ l → (k, b) ∈ m → SortedPts l → SortedPts m → (k, f a b) ∈ r := by
  intro l
  induction l with
  | nil => intro m _; exact ⟨[], by cases m <;> rfl, rfl, by simp⟩
  | cons p l ih =>
    intro m h
    cases m with
    | nil => simp at h
    | cons q m =>
      simp only [List.map_cons, List.cons.injEq] at h
      obtain ⟨r, h1, h2, h3⟩ := ih h.2
      refine ⟨(p.1, f p.2 q.2) :: r, by rw [Traj.zipPts, h1]; rfl, by simp [h2], fun k a b ha hb hl hm => ?_⟩
      rcases List.mem_cons.mp ha with ha | ha
      · rcases List.mem_cons.mp hb with hb | hb
        · rw [← ha, ← hb]; simp
        · exact absurd (hm.head _ hb) (by rw [← h.1, ← ha]; exact lt_irrefl _)
      · rcases List.mem_cons.mp hb with hb | hb
        · exact absurd (hl.head _ ha) (by rw [h.1, ← hb]; exact lt_irrefl _)
        · exact List.mem_cons_of_mem _ (h3 k a b ha hb hl.tail hm.tail)

/-- for an additive operation, the combination of the maps is the combination of the functions -/
theorem ev_zipPts (c d : K) : ∀ {l m r : List (K × K)}, l.map Prod.fst = m.map Prod.fst → SortedPts l →
    Traj.zipPts (fun u v => c * u + d * v) l m = some r → ∀ t u v, ev t l = some u → ev t m = some v → ev t r = some (c * u + d * v) := by
  intro l
  induction l with
  | nil => intro m r _ _ _ t u v hu; simp [ev] at hu
  | cons p l ih =>
    intro m r h hs hr t u v hu hv
    cases m with
    | nil => simp at h
    | cons q m =>
      simp only [List.map_cons, List.cons.injEq] at h
      rw [Traj.zipPts, Option.map_eq_some_iff] at hr
      obtain ⟨r', hr', rfl⟩ := hr
      by_cases hp : p.1 = t
      · have e1 : u = p.2 := by
          have : ev t (p :: l) = some p.2 := by cases l <;> simp [ev, hp]
          rw [this] at hu; simpa using hu.symm
        have e2 : v = q.2 := by
          have : ev t (q :: m) = some q.2 := by cases m <;> simp [ev, ← h.1, hp]
          rw [this] at hv; simpa using hv.symm
        subst e1 e2
        cases r' <;> simp [ev, hp]
      · cases l with
        | nil => simp [ev, hp] at hu
        | cons p2 l =>
          cases m with
          | nil => simp at h
          | cons q2 m =>
            have h2 := h.2
            simp only [List.map_cons, List.cons.injEq] at h2
            have hr2 := hr'
            rw [Traj.zipPts, Option.map_eq_some_iff] at hr2
            obtain ⟨r'', hr'', rfl⟩ := hr2
            have hpp : p.1 < p2.1 := hs.head p2 (by simp)
            rw [ev, if_neg hp] at hu
            rw [ev, if_neg (by rw [← h.1]; exact hp), ← h.1, ← h2.1] at hv
            rw [ev, if_neg hp]
            by_cases hb : p.1 < t ∧ t < p2.1
            · rw [if_pos hb, Option.some.injEq] at hu hv
              rw [if_pos hb, Option.some.injEq]
              have k1 := (lin_spec hpp).mp hu.symm
              have k2 := (lin_spec (p := q) (q := q2) (by rw [← h.1, ← h2.1]; exact hpp)).mp hv.symm
              symm
              rw [lin_spec (p := (p.1, c * p.2 + d * q.2)) (q := (p2.1, c * p2.2 + d * q2.2)) hpp]
              rw [← h.1, ← h2.1] at k2
              linear_combination c * k1 + d * k2
            · rw [if_neg hb] at hu hv
              rw [if_neg hb]
              exact ih h.2 hs.tail hr' t u v hu hv

theorem binArith_spec {x1 x2 : Traj K} (h1 : TrajOk x1) (h2 : TrajOk x2) (hd : x1.dom = x2.dom) (f : K → K → K) :
    ∃ y, x1.binArith f x2 = some y ∧ TrajOk y ∧ y.dom = x1.dom ∧
      (∀ k, k ∈ y.pts.map Prod.fst ↔ k ∈ x1.pts.map Prod.fst ∨ k ∈ x2.pts.map Prod.fst) ∧
      (∀ k, k ∈ y.pts.map Prod.fst → ∃ a b, x1.evalAt k = some a ∧ x2.evalAt k = some b ∧ y.evalAt k = some (f a b)) := by
  obtain ⟨s1, e1, ok1, d1, v1, k1⟩ := sampleLike_total h1 h2 hd
  obtain ⟨s2, e2, ok2, d2, v2, k2⟩ := sampleLike_total h2 h1 hd.symm
  have hk : s1.pts.map Prod.fst = s2.pts.map Prod.fst := sorted_keys_eq ok1.sorted ok2.sorted fun k => by rw [k1, k2, or_comm]
  obtain ⟨r, hr, hrk, hrv⟩ := zipPts_total f hk
  have hrs : SortedPts r := by rw [sortedPts_iff, hrk, ← sortedPts_iff]; exact ok1.sorted
  have hok := trajOk_ofMap hrs
  have hp := ofMap_pts r
  refine ⟨Traj.ofMap r, ?_, hok, ?_, ?_, ?_⟩
  · unfold Traj.binArith; rw [e1, Option.bind_some, e2, Option.bind_some, hr]; rfl
  · have hdo := hok.dom
    rw [hp, hrk] at hdo
    rw [hdo.unique ok1.dom, d1]
  · intro k; rw [hp, hrk, k1]
  · intro k hkk
    rw [hp, hrk] at hkk
    obtain ⟨p, hpm, rfl⟩ := List.mem_map.mp hkk
    have hkk2 := hkk
    rw [hk] at hkk2
    obtain ⟨q, hqm, hqp⟩ := List.mem_map.mp hkk2
    refine ⟨p.2, q.2, ?_, ?_, ?_⟩
    · rw [← v1, evalAt_iff ok1]; exact .inl hpm
    · rw [← v2, evalAt_iff ok2]; exact .inl (by rw [← hqp]; exact hqm)
    · rw [evalAt_iff hok, hp]
      exact .inl (hrv p.1 p.2 q.2 hpm (by rw [← hqp]; exact hqm) ok1.sorted ok2.sorted)

theorem binArith_linear {x1 x2 y : Traj K} (h1 : TrajOk x1) (h2 : TrajOk x2) (hd : x1.dom = x2.dom) (c d : K)
    (hy : x1.binArith (fun u v => c * u + d * v) x2 = some y) :
    ∀ t u v, x1.evalAt t = some u → x2.evalAt t = some v → y.evalAt t = some (c * u + d * v) := by
  obtain ⟨s1, e1, ok1, d1, v1, k1⟩ := sampleLike_total h1 h2 hd
  obtain ⟨s2, e2, ok2, d2, v2, k2⟩ := sampleLike_total h2 h1 hd.symm
  have hk : s1.pts.map Prod.fst = s2.pts.map Prod.fst := sorted_keys_eq ok1.sorted ok2.sorted fun k => by rw [k1, k2, or_comm]
  obtain ⟨r, hr, hrk, _⟩ := zipPts_total (fun u v => c * u + d * v) hk
  have hrs : SortedPts r := by rw [sortedPts_iff, hrk, ← sortedPts_iff]; exact ok1.sorted
  have hok := trajOk_ofMap hrs
  unfold Traj.binArith at hy
  rw [e1, Option.bind_some, e2, Option.bind_some, hr, Option.map_some, Option.some.injEq] at hy
  subst hy
  intro t u v hu hv
  rw [evalAt_ev hok, ofMap_pts]
  rw [← v1, evalAt_ev ok1] at hu
  rw [← v2, evalAt_ev ok2] at hv
  exact ev_zipPts c d hk ok1.sorted hr t u v hu hv

/-- `min`, `max`, `atan2` are right when both maps have the same instants -/
theorem binFun_spec {x1 x2 : Traj K} (h1 : TrajOk x1) (h2 : TrajOk x2) (hd : x1.dom = x2.dom) (hk : x1.pts.map Prod.fst = x2.pts.map Prod.fst) (f : K → K → K) :
    ∃ y, x1.binFun f x2 = some y ∧ TrajOk y ∧ y.dom = x1.dom ∧
      (∀ k, k ∈ x1.pts.map Prod.fst → ∃ a b, x1.evalAt k = some a ∧ x2.evalAt k = some b ∧ y.evalAt k = some (f a b)) := by
  obtain ⟨s1, e1, _⟩ := sampleLike_total h1 h2 hd
  obtain ⟨s2, e2, _⟩ := sampleLike_total h2 h1 hd.symm
  obtain ⟨r, hr, hrk, hrv⟩ := zipPts_total f hk
  have hrs : SortedPts r := by rw [sortedPts_iff, hrk, ← sortedPts_iff]; exact h1.sorted
  have hok := trajOk_ofMap hrs
  have hp := ofMap_pts r
  refine ⟨Traj.ofMap r, ?_, hok, ?_, ?_⟩
  · unfold Traj.binFun; rw [e1, Option.bind_some, e2, Option.bind_some, hr]; rfl
  · have hdo := hok.dom
    rw [hp, hrk] at hdo
    exact hdo.unique h1.dom
  · intro k hkk
    obtain ⟨p, hpm, rfl⟩ := List.mem_map.mp hkk
    have hkk2 := hkk
    rw [hk] at hkk2
    obtain ⟨q, hqm, hqp⟩ := List.mem_map.mp hkk2
    refine ⟨p.2, q.2, ?_, ?_, ?_⟩
    · rw [evalAt_iff h1]; exact .inl hpm
    · rw [evalAt_iff h2]; exact .inl (by rw [← hqp]; exact hqm)
    · rw [evalAt_iff hok, hp]
      exact .inl (hrv p.1 p.2 q.2 hpm (by rw [← hqp]; exact hqm) h1.sorted h2.sorted)

theorem mapM_vals (x : Traj K) (f : K → K → K) : ∀ (l : List (K × K)), (∀ p ∈ l, ∃ v, x.evalAt p.1 = some v) →
    ∃ m, (l.mapM fun p => (x.evalAt p.1).map fun v => (p.1, f v p.2)) = some m ∧ m.map Prod.fst = l.map Prod.fst ∧
      ∀ p ∈ l, ∀ v, x.evalAt p.1 = some v → (p.1, f v p.2) ∈ m := by
  intro l
  induction l with
  | nil => intro _; exact ⟨[], by simp, rfl, by simp⟩
  | cons p l ih =>
    intro h
    obtain ⟨v, hv⟩ := h p (by simp)
    obtain ⟨m, h1, h2, h3⟩ := ih fun q hq => h q (by simp [hq])
    refine ⟨(p.1, f v p.2) :: m, ?_, by simp [h2], fun q hq w hw => ?_⟩
    · rw [List.mapM_cons, hv, h1]; rfl
    · rcases List.mem_cons.mp hq with rfl | hq
      · rw [hv, Option.some.injEq] at hw; rw [hw]; simp
      · exact List.mem_cons_of_mem _ (h3 q hq w hw)

theorem opAssignTraj_spec {x y : Traj K} (hx : TrajOk x) (hy : TrajOk y) (hd : y.dom = x.dom) (f : K → K → K) :
    ∃ z, x.opAssignTraj f y = some z ∧ TrajOk z ∧ z.dom = x.dom ∧
      (∀ k, k ∈ z.pts.map Prod.fst ↔ k ∈ x.pts.map Prod.fst ∨ k ∈ y.pts.map Prod.fst) ∧
      (∀ k, k ∈ z.pts.map Prod.fst → ∃ a b, x.evalAt k = some a ∧ y.evalAt k = some b ∧ z.evalAt k = some (f a b)) := by
  obtain ⟨s, e, ok, d, v, k⟩ := sampleLike_total hy hx hd
  have hdom : ∀ p ∈ s.pts, ∃ w, x.evalAt p.1 = some w := fun p hp =>
    evalAt_some hx (by rw [← hd, ← d]; exact ok.dom.1 _ (List.mem_map_of_mem hp))
  obtain ⟨m, h1, h2, h3⟩ := mapM_vals x f s.pts hdom
  have hms : SortedPts m := by rw [sortedPts_iff, h2, ← sortedPts_iff]; exact ok.sorted
  have hok : TrajOk (Traj.computeCodomain { x with pts := m }) := by
    refine ⟨hms, ?_, isHull_hullOf _⟩
    change IsHull x.dom (m.map Prod.fst)
    rw [h2, ← hd, ← d]
    exact ok.dom
  refine ⟨_, ?_, hok, rfl, fun j => ?_, fun j hj => ?_⟩
  · unfold Traj.opAssignTraj; rw [e, Option.bind_some, h1]; rfl
  · change j ∈ m.map Prod.fst ↔ _
    rw [h2, k, or_comm]
  · have hj' : j ∈ m.map Prod.fst := hj
    rw [h2] at hj'
    obtain ⟨p, hp, rfl⟩ := List.mem_map.mp hj'
    obtain ⟨w, hw⟩ := hdom p hp
    refine ⟨w, p.2, hw, ?_, ?_⟩
    · rw [← v, evalAt_iff ok]; exact .inl hp
    · rw [evalAt_iff hok]; exact .inl (h3 p hp w hw)

theorem opAssignScal_spec {x : Traj K} (h : TrajOk x) (f : K → K) (g : Itv K → Itv K)
    (hg' : ∀ (X : Itv K) (l : List K), IsHull X l → IsHull (g X) (l.map f)) :
    TrajOk (x.opAssignScal f g) ∧ (x.opAssignScal f g).dom = x.dom ∧ ∀ p ∈ x.pts, (x.opAssignScal f g).evalAt p.1 = some (f p.2) := by
  have hok : TrajOk (x.opAssignScal f g) := by
    refine ⟨mapVal_sorted h f, ?_, ?_⟩
    · change IsHull x.dom ((x.pts.map fun p => (p.1, f p.2)).map Prod.fst)
      rw [List.map_map]; exact h.dom
    · have := hg' x.cod _ h.cod
      change IsHull (g x.cod) ((x.pts.map fun p => (p.1, f p.2)).map Prod.snd)
      rw [List.map_map] at this ⊢
      exact this
  exact ⟨hok, rfl, fun p hp => by rw [evalAt_iff hok]; exact .inl (List.mem_map.mpr ⟨p, hp, rfl⟩)⟩

/-- `x f= y` on a trajectory defined by a function: the function is unchanged -/
theorem anyTraj_opAssign_unchanged (f : K → K → K) (cod : Itv K) {x z : AnyTraj K} {y : Traj K} (hx : x.fn.isSome) (h : x.opAssignTraj f cod y = some z) (t : K) :
    z.evalAt t = x.evalAt t := by
  unfold AnyTraj.opAssignTraj at h
  split at h
  · rw [Option.map_eq_some_iff] at h
    obtain ⟨m, _, rfl⟩ := h
    unfold AnyTraj.evalAt
    obtain ⟨g, hg⟩ := Option.isSome_iff_exists.mp hx
    rw [hg]
  · cases h

end Codac
