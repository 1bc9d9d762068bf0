import Verif.Arith
import Verif.Traj.TubeTraj

/-!
# Tubes combined with trajectories, and tubes inflated by a trajectory

Sources: `src/core/domains/tube/codac_Tube.cpp:1223-1246`, `src/core/arithmetic/codac_tube_arithmetic_scalar.cpp:267-351`.

The trajectory is one defined by a map of values (`Traj`), evaluated at an instant or on an interval (`Traj.fn`, `Traj.ev`). An assertion that fails gives `none`.
-/

namespace Codac
variable {K : Type*} [Field K] [LinearOrder K] [IsStrictOrderedRing K]

/-- the assertion `x1.tdomain() == x2.tdomain()`, codac_tube_arithmetic_scalar.cpp:271, 279, 289… -/
def Tube.sameDomain (T : Tube K) (x : Traj K) : Prop := x.dom = Itv.icc T.t0 T.tf

instance (T : Tube K) (x : Traj K) : Decidable (T.sameDomain x) := inferInstanceAs (Decidable (_ = _))

/-- `x.inflate(rad)` with a trajectory, codac_Tube.cpp:1223-1246: the envelope grows by `[-1,1]` times the values of `rad` on the slice, the gates by `[-1,1]`
times the value at the gate -/
def Tube.inflateTraj (A : IArith K) (T : Tube K) (rad : Traj K) : Option (Tube K) :=
  if rad.cod ≤ .mk (some 0) none trivial ∧ T.sameDomain rad then
    some (T.mapWith (fun a b c => A.add c (A.mul (Itv.icc (-1) 1) (rad.ev (Itv.icc a b))))
      (fun t g => A.add g (A.mul (Itv.icc (-1) 1) (Itv.point (rad.fn t)))))
  else none

/-- `f(x1, x2)` for a tube and a trajectory, when it is computed by `x1 f= x2`: `+`, `-`, `*`, `/`, `|` and `&`, codac_tube_arithmetic_scalar.cpp:269-275, 287-293,
303-309, 319-325, 335-341 -/
def Tube.withTraj (φ : Itv K → Itv K → Itv K) (T : Tube K) (x : Traj K) : Option (Tube K) :=
  if T.sameDomain x then some (T.opAssignTraj φ x.ev) else none

/-- `x1 + x2`, `x1 * x2`, `x1 | x2` and `x1 & x2` for a trajectory and a tube: `x2 f= x1`, codac_tube_arithmetic_scalar.cpp:277-283, 295-301, 327-333 -/
def Tube.trajWith (φ : Itv K → Itv K → Itv K) (x : Traj K) (T : Tube K) : Option (Tube K) := T.withTraj φ x

/-- `x1 - x2` for a trajectory and a tube: `-x2`, then `+= x1`, codac_tube_arithmetic_scalar.cpp:311-317; `neg` is the opposite of IBEX -/
def Tube.trajSub (A : IArith K) (neg : Itv K → Itv K) (x : Traj K) (T : Tube K) : Option (Tube K) :=
  if T.sameDomain x then some ((T.map neg).opAssignTraj A.add x.ev) else none

/-- `x1 / x2` for a trajectory and a tube: `1`, divided by `x2`, times `x1`, codac_tube_arithmetic_scalar.cpp:343-351; `div` is the division of IBEX -/
def Tube.trajDiv (A : IArith K) (div : Itv K → Itv K → Itv K) (x : Traj K) (T : Tube K) : Option (Tube K) :=
  if T.sameDomain x then some (((T.set (Itv.point 1)).opAssign div T).opAssignTraj A.mul x.ev) else none

/-! ### Lemmas -/

omit [Field K] [IsStrictOrderedRing K] in
theorem Tube.Encloses.congr_dom {T : Tube K} (hT : T.WF) {f g : K → K} (h : T.Encloses f) (e : ∀ t, T.t0 ≤ t → t ≤ T.tf → f t = g t) : T.Encloses g := by
  intro s hs
  have hb := hT.tiles.mem_bounds hs
  have h1 := h s hs
  refine ⟨?_, ?_, fun t h2 h3 => ?_⟩
  · rw [← e _ hb.1 (hb.2.1.le.trans hb.2.2)]; exact h1.1
  · rw [← e _ (hb.1.trans hb.2.1.le) hb.2.2]; exact h1.2.1
  · rw [← e _ (hb.1.trans h2.le) (h3.le.trans hb.2.2)]; exact h1.2.2 t h2 h3

/-- `op=` with a trajectory, the combination being defined on the temporal domain -/
theorem opTraj_dom {φ : Itv K → Itv K → Itv K} {T : Tube K} (hT : T.WF) {x : Traj K} (hx : TrajOk x) (hd : T.sameDomain x) {f k : K → K}
    (hφ : ∀ t, T.t0 ≤ t → t ≤ T.tf → ∀ A B, f t ∈ A → x.fn t ∈ B → k t ∈ φ A B) (hf : T.Encloses f) : (T.opAssignTraj φ x.ev).Encloses k := by
  have hev := Traj.fn_mem_ev hx (le_of_eq hd.symm)
  refine mapWith_encloses hT ?_ ?_ hf
  · intro s hs t h1 h2 h3
    have hb := hT.tiles.mem_bounds hs
    exact hφ t (hb.1.trans h1.le) (h2.le.trans hb.2.2) _ _ h3 (hev _ _ hb.1 hb.2.1.le hb.2.2 t h1.le h2.le)
  · intro t A h3 h4 h1
    refine hφ t h3 h4 _ _ h1 ?_
    rw [point_eq_icc]
    exact hev _ _ h3 le_rfl h4 t le_rfl le_rfl

/-- a value of `X + [-M, M]` is within `M` of a value of `X` -/
theorem mem_add_ball {X : Itv K} {M z : K} (hM : 0 ≤ M) (h : z ∈ Itv.add X (Itv.icc (-M) M)) : ∃ x ∈ X, |z - x| ≤ M := by
  rw [Itv.icc_eq_mk (by linarith)] at h
  match X, h with
  | .mk l u p, h =>
    simp only [Itv.add, Itv.mem_ofBounds] at h
    obtain ⟨h1, h2⟩ := h
    by_cases ha : loLe l z
    · by_cases hb : leHi z u
      · exact ⟨z, Itv.mem_mk.mpr ⟨ha, hb⟩, by simpa using hM⟩
      · cases u with
        | none => exact absurd trivial hb
        | some u =>
          have hb' : u < z := not_le.mp hb
          have h3 : z ≤ u + M := h2
          refine ⟨u, Itv.mem_mk.mpr ⟨?_, le_refl u⟩, by rw [abs_le]; constructor <;> linarith⟩
          cases l with
          | none => trivial
          | some l => exact p
    · cases l with
      | none => exact absurd trivial ha
      | some l =>
        have ha' : z < l := not_le.mp ha
        have h3 : l + -M ≤ z := h1
        refine ⟨l, Itv.mem_mk.mpr ⟨le_refl l, ?_⟩, by rw [abs_le]; constructor <;> linarith⟩
        cases u with
        | none => trivial
        | some u => exact p

/-- `[-1,1] * [m,M]` with non-negative bounds -/
theorem mul_ball {m M : K} (h0 : 0 ≤ m) (h : m ≤ M) : Itv.mul (Itv.icc (-1) 1) (Itv.icc m M) = Itv.icc (-M) M := by
  rw [Itv.icc_eq_mk (by linarith : (-1 : K) ≤ 1), Itv.icc_eq_mk h]
  simp only [Itv.mul, neg_one_mul, one_mul]
  have e1 : min (min (-m) (-M)) (min m M) = -M := by
    rw [min_eq_right (neg_le_neg h), min_eq_left h, min_eq_left (by linarith)]
  have e2 : max (max (-m) (-M)) (max m M) = M := by
    rw [max_eq_left (neg_le_neg h), max_eq_right h, max_eq_right (by linarith)]
  rw [e1, e2]

end Codac
