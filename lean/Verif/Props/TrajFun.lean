import Verif.Traj.Root
import Verif.Props.TubeOps
import Verif.Props.TubeAccess
import Verif.Props.Traj
import Verif.Props.TrajVec

/-!
# C150: functions of trajectories and functions of tubes; roots of trajectories
-/

set_option linter.unusedSectionVars false

namespace Codac.Props
open Codac

section field
variable {K : Type*} [Field K] [LinearOrder K] [IsStrictOrderedRing K]

/-- **C150** (part): let `x` be a trajectory of the tube `T`, `f` a function and `φ` its extension to intervals. At the instants of the map of `x`, the value of the trajectory
`f(x)` is in the tube `f(T)`. Missing: between these instants, see `C150_between_fails` -/
theorem C150_samples_partial {f : K → K} {φ : Itv K → Itv K} (hφ : ∀ (I : Itv K) (v : K), v ∈ I → f v ∈ φ I) {T : Tube K} (hT : T.WF) {x : Traj K} (hx : TrajOk x) {g : K → K}
    (hg : ∀ t, T.t0 ≤ t → t ≤ T.tf → x.evalAt t = some (g t)) (hgT : T.Encloses g) {p : K × K} (hp : p ∈ x.pts) (h0 : T.t0 ≤ p.1) (h1 : p.1 ≤ T.tf) :
    ∃ v, (x.mapVal f).evalAt p.1 = some v ∧ v ∈ (T.map φ).evalAt p.1 := by
  refine ⟨f p.2, (C55_unary hx f).2.2 p hp, ?_⟩
  obtain ⟨e1, e2, -⟩ := C09_unary (φ := φ) (R := fun a b => b = f a) (by rintro I a _ h rfl; exact hφ I a h) hT hgT (k := fun t => f (g t)) (fun _ _ _ => rfl)
  have := C05_eval_instant e2 e1 p.1
  have hv : g p.1 = p.2 := by
    have h := (mapVal_spec hx id).2.2 p hp
    rw [evalAt_ev (mapVal_spec hx id).1, show (x.mapVal id).pts = x.pts from (ofMap_pts _).trans (List.map_id' x.pts), ← evalAt_ev hx, hg p.1 h0 h1] at h
    exact Option.some.inj h
  simp only [hv] at this
  exact this

/-- **C150**: for a linear function `f(v) = c v`, the trajectory `f(x)` is in the tube `f(T)` at all the instants -/
theorem C150_linear {c : K} {φ : Itv K → Itv K} (hφ : ∀ (I : Itv K) (v : K), v ∈ I → c * v ∈ φ I) {T : Tube K} (hT : T.WF) {x : Traj K} (hx : TrajOk x) {g : K → K}
    (hg : ∀ t, T.t0 ≤ t → t ≤ T.tf → x.evalAt t = some (g t)) (hgT : T.Encloses g) {t : K} (h0 : T.t0 ≤ t) (h1 : t ≤ T.tf) :
    ∃ v, (x.mapVal fun u => c * u).evalAt t = some v ∧ v ∈ (T.map φ).evalAt t := by
  refine ⟨c * g t, mapVal_linear hx c t _ (hg t h0 h1), ?_⟩
  obtain ⟨e1, e2, -⟩ := C09_unary (φ := φ) (R := fun a b => b = c * a) (by rintro I a _ h rfl; exact hφ I a h) hT hgT (k := fun t => c * g t) (fun _ _ _ => rfl)
  exact C05_eval_instant e2 e1 t

end field

/-- an extension of the square to intervals, precise on `[-1/2,1/2]` only -/
def sqItv (I : Itv ℚ) : Itv ℚ := if I = .icc (-1 / 2) (1 / 2) then .icc 0 (1 / 4) else ⊤

theorem sqItv_spec (I : Itv ℚ) (v : ℚ) (h : v ∈ I) : v * v ∈ sqItv I := by
  unfold sqItv
  split_ifs with e
  · subst e
    rw [Itv.mem_icc] at h ⊢
    constructor <;> nlinarith [h.1, h.2]
  · exact Itv.mem_top _

/-- the tube of the identity over `[-1,1]`, three slices -/
def idTube3 : Tube ℚ := ⟨-1, 1, .icc (-1) (-1), [⟨-1, -1 / 2, .icc (-1) (-1 / 2), .icc (-1 / 2) (-1 / 2)⟩, ⟨-1 / 2, 1 / 2, .icc (-1 / 2) (1 / 2), .icc (1 / 2) (1 / 2)⟩,
  ⟨1 / 2, 1, .icc (1 / 2) 1, .icc 1 1⟩]⟩

/-- the identity, given at `-1` and `1` -/
def idTraj2 : Traj ℚ := Traj.ofMap [(-1, -1), (1, 1)]

theorem idTube3_encl : idTube3.Encloses fun t => t := by
  intro s hs
  simp only [idTube3, Tube.slices, slicesFrom, List.mem_cons, List.not_mem_nil, or_false] at hs
  rcases hs with rfl | rfl | rfl <;> refine ⟨by decide +kernel, by decide +kernel, fun t h1 h2 => ?_⟩ <;> rw [Itv.mem_icc] <;> exact ⟨h1.le, h2.le⟩

/-- **C150** does not hold between the instants of the map: the identity, given by its values at `-1` and `1`, is in a tube `T`; the square of the trajectory is 1 at the instant 0,
the square of the tube is `[0,1/4]` there -/
theorem C150_between_fails : TrajOk idTraj2 ∧ idTube3.WF ∧ idTube3.Encloses (fun t => t) ∧ idTraj2.evalAt 0 = some 0 ∧
    (idTraj2.mapVal fun v => v * v).evalAt 0 = some 1 ∧ (idTube3.map sqItv).evalAt 0 = .icc 0 (1 / 4) ∧ (1 : ℚ) ∉ (idTube3.map sqItv).evalAt 0 :=
  ⟨trajOk_ofMap (by norm_num [SortedPts]), ⟨by simp [idTube3], by norm_num [idTube3, Tiles]⟩, idTube3_encl, by decide +kernel, by decide +kernel, by decide +kernel, by decide +kernel⟩

example : ∃ v, (idTraj2.mapVal fun v => v * v).evalAt (-1) = some v ∧ v ∈ (idTube3.map sqItv).evalAt (-1) := ⟨1, by decide +kernel, by decide +kernel⟩

/-! ### Roots -/

/-- **C150** (part): when the values of `x` are not negative, `root(x, p)` is defined, and its value at each instant of the map is the root of order `p` of the value of `x`.
Missing: negative values and `p` odd, see `C150_root_fails` -/
theorem C150_root_partial {x : Traj ℝ} (hx : TrajOk x) {p : Nat} (hp : 1 ≤ p) (h0 : ∀ q ∈ x.pts, 0 ≤ q.2) :
    ∃ y, x.root p = some y ∧ TrajOk y ∧ y.dom = x.dom ∧ ∀ q ∈ x.pts, ∃ r, y.evalAt q.1 = some r ∧ 0 ≤ r ∧ r ^ p = q.2 := by
  have hr : ∀ a : ℝ, 0 ≤ a → ∃ r, Traj.rootVal p a = some r ∧ 0 ≤ r ∧ r ^ p = a := fun a ha => by
    unfold Traj.rootVal
    split_ifs with h1
    · exact ⟨a, rfl, ha, by rw [h1, pow_one]⟩
    · exact ⟨_, rfl, Real.rpow_nonneg ha _, by rw [one_div, Real.rpow_inv_natCast_pow ha (by omega)]⟩
  obtain ⟨e1, e2, e3⟩ := C55_unary hx fun a => (Traj.rootVal p a).getD 0
  refine ⟨_, if_pos fun q hq => ?_, e1, e2, fun q hq => ?_⟩
  · obtain ⟨r, e, -⟩ := hr q.2 (h0 q hq)
    rw [e]; simp
  · obtain ⟨r, e, k1, k2⟩ := hr q.2 (h0 q hq)
    exact ⟨r, by rw [e3 q hq, e]; rfl, k1, k2⟩

/-- **C150** does not hold for roots of odd order: as soon as a value of `x` is negative, `root(x, p)` has a value which is not a number, although the root exists -/
theorem C150_root_fails {x : Traj ℝ} {p : Nat} (hp : 2 ≤ p) (hodd : Odd p) {q : ℝ × ℝ} (hq : q ∈ x.pts) (h0 : q.2 < 0) : x.root p = none ∧ ∃ r : ℝ, r ^ p = q.2 := by
  refine ⟨if_neg fun H => H q hq ?_, -((-q.2) ^ (1 / (p : ℝ))), ?_⟩
  · unfold Traj.rootVal
    rw [if_neg (by omega), if_neg (not_le.mpr h0)]
  · rw [hodd.neg_pow, one_div, Real.rpow_inv_natCast_pow (by linarith) (by omega), neg_neg]

example : (Traj.ofMap [((0 : ℝ), (-8 : ℝ)), (1, 8)]).root 3 = none :=
  (C150_root_fails (p := 3) (q := (0, -8)) (by norm_num) ⟨1, rfl⟩ (by rw [ofMap_pts]; simp) (by norm_num)).1

end Codac.Props
