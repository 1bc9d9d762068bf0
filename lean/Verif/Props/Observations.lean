import Verif.Robotics.Observations
import Mathlib.Analysis.SpecialFunctions.Complex.Arg

/-!
# C120: simulated observations of landmarks
-/

set_option linter.unusedSectionVars false

namespace Codac.Props
open Codac Codac.Obs

section
variable {K : Type*} [Field K] [LinearOrder K] [IsStrictOrderedRing K]

/-- the interval functions contain the values of the functions `dist` (of `dx`, `dy`) and `ang` (of `dy`, `dx`) -/
structure SensorFor (S : Sensor K) (dist ang : K → K → K) : Prop where
  dist : ∀ {X Y : Itv K} {x y : K}, x ∈ X → y ∈ Y → dist x y ∈ S.dist X Y
  ang : ∀ {X Y : Itv K} {y x : K}, y ∈ Y → x ∈ X → ang y x ∈ S.atan2 Y X

variable {S : Sensor K} {dist ang : K → K → K} {px py θ : K} {vr va : Itv K}

/-- **C120**: the landmarks are in the box, as many as asked for -/
theorem C120_landmarks {a b c d : K} (hab : a ≤ b) (hcd : c ≤ d) {us : List (K × K)} (hu : ∀ u ∈ us, (0 ≤ u.1 ∧ u.1 ≤ 1) ∧ 0 ≤ u.2 ∧ u.2 ≤ 1) :
    (landmarks a b c d us).length = us.length ∧ ∀ m ∈ landmarks a b c d us, (a ≤ m.x ∧ m.x ≤ b) ∧ (c ≤ m.y ∧ m.y ≤ d) ∧ m.x ∈ m.bx ∧ m.y ∈ m.bY := by
  refine ⟨by simp [landmarks], fun m hm => ?_⟩
  obtain ⟨u, hu', rfl⟩ := List.mem_map.mp hm
  obtain ⟨⟨h1, h2⟩, h3, h4⟩ := hu u hu'
  refine ⟨⟨?_, ?_⟩, ⟨?_, ?_⟩, Itv.mem_point.mpr rfl, Itv.mem_point.mpr rfl⟩ <;> simp only [Beacon.ofPos]
  · nlinarith
  · nlinarith
  · nlinarith
  · nlinarith

/-- **C120**: each observation is that of a landmark of the map, whatever its position in its box: the range and the bearing are in it, and it meets what the
robot can see -/
theorem C120_static_sound (hS : SensorFor S dist ang) {map m : List (Itv K × Itv K)} (hm : m.Perm map) {o : Itv K × Itv K} (ho : o ∈ staticObs S px py θ vr va m) :
    (vr.intersects o.1 = true ∧ va.intersects o.2 = true) ∧
      ∃ b ∈ map, ∀ x ∈ b.1, ∀ y ∈ b.2, dist (px - x) (py - y) ∈ o.1 ∧ ang (y - py) (x - px) - θ ∈ o.2 := by
  obtain ⟨h1, h2⟩ := List.mem_filter.mp ho
  rw [Bool.and_eq_true] at h2
  obtain ⟨b, hb, rfl⟩ := List.mem_map.mp h1
  exact ⟨h2, b, hm.mem_iff.mp hb, fun x hx y hy => ⟨hS.dist (S.A.sub_mem (Itv.mem_point.mpr rfl) hx) (S.A.sub_mem (Itv.mem_point.mpr rfl) hy),
    S.A.sub_mem (hS.ang (S.A.sub_mem hy (Itv.mem_point.mpr rfl)) (S.A.sub_mem hx (Itv.mem_point.mpr rfl))) (Itv.mem_point.mpr rfl)⟩⟩

/-- **C120**: no landmark is missed when its range is visible and its bearing, less the heading, is in the visible angles (which the code does not take
modulo a turn: `C120_turn_fails`); and the result is the same for any order of the landmarks, up to the order -/
theorem C120_static_complete (hS : SensorFor S dist ang) {map m : List (Itv K × Itv K)} (hm : m.Perm map) :
    (∀ b ∈ map, ∀ x ∈ b.1, ∀ y ∈ b.2, dist (px - x) (py - y) ∈ vr → ang (y - py) (x - px) - θ ∈ va →
      ∃ o ∈ staticObs S px py θ vr va m, dist (px - x) (py - y) ∈ o.1 ∧ ang (y - py) (x - px) - θ ∈ o.2) ∧
    (staticObs S px py θ vr va m).Perm (staticObs S px py θ vr va map) ∧ (staticObs S px py θ vr va m).length ≤ map.length := by
  refine ⟨fun b hb x hx y hy h1 h2 => ?_, (hm.map _).filter _, ?_⟩
  · have k1 : dist (px - x) (py - y) ∈ (observe S px py θ b).1 := hS.dist (S.A.sub_mem (Itv.mem_point.mpr rfl) hx) (S.A.sub_mem (Itv.mem_point.mpr rfl) hy)
    have k2 : ang (y - py) (x - px) - θ ∈ (observe S px py θ b).2 :=
      S.A.sub_mem (hS.ang (S.A.sub_mem hy (Itv.mem_point.mpr rfl)) (S.A.sub_mem hx (Itv.mem_point.mpr rfl))) (Itv.mem_point.mpr rfl)
    refine ⟨_, List.mem_filter.mpr ⟨List.mem_map.mpr ⟨b, hm.mem_iff.mpr hb, rfl⟩, ?_⟩, k1, k2⟩
    rw [Bool.and_eq_true]
    exact ⟨Itv.intersects_of_mem h1 k1, Itv.intersects_of_mem h2 k2⟩
  · refine (List.length_filter_le _ _).trans ?_
    rw [List.length_map, hm.length_eq]

variable {X Y : K → Itv K} {x y : K → K} {eps lo hi : K} {nb : Nat} {sh : Nat → List (Beacon K)} {ts : Nat → K} {map : List (Beacon K)} {r : List (TObs K)}

/-- **C120**: along a trajectory, whatever the random choices, the generation ends, after at most `3 nb_obs` attempts (at least one), with at most
`nb_obs` observations (or one, when `nb_obs` is zero: `C120_none_fails`) -/
theorem C120_traj_ends (S : Sensor K) (X Y : K → Itv K) (x y : K → K) (eps : K) (vr va : Itv K) (nb : Nat) (sh : Nat → List (Beacon K)) (ts : Nat → K) :
    ∃ r, trajObs S X Y x y eps vr va nb sh ts = some r ∧ r.length ≤ max 1 nb :=
  trajLoop_total _ vr va nb sh ts (by omega) (by omega) (.inr rfl)

/-- **C120**: each observation is dated in the domain, names a landmark of the map by its box, and contains the range from the robot to the position of this
landmark, and its bearing less the direction of the displacement over the next `eps` -/
theorem C120_traj_sound (hS : SensorFor S dist ang) (hX : ∀ t, x t ∈ X t) (hY : ∀ t, y t ∈ Y t) (hsh : ∀ j, (sh j).Perm map)
    (hts : ∀ j, lo ≤ ts j ∧ ts j ≤ hi - eps) (h : trajObs S X Y x y eps vr va nb sh ts = some r) {o : TObs K} (ho : o ∈ r) :
    (lo ≤ o.t ∧ o.t + eps ≤ hi) ∧ (vr.intersects o.r = true ∧ va.intersects o.a = true) ∧ ∃ b ∈ map, o.bx = b.bx ∧ o.bY = b.bY ∧
      dist (x o.t - b.x) (y o.t - b.y) ∈ o.r ∧ ang (b.y - y o.t) (b.x - x o.t) - ang (y (o.t + eps) - y o.t) (x (o.t + eps) - x o.t) ∈ o.a := by
  rcases trajLoop_mem h ho with h0 | ⟨j, -, b, hb, rfl, hs⟩
  · simp at h0
  rw [TObs.seen, Bool.and_eq_true] at hs
  refine ⟨⟨(hts j).1, ?_⟩, hs, b, (hsh j).mem_iff.mp hb, rfl, rfl, ?_, ?_⟩
  · have := (hts j).2
    change ts j + eps ≤ hi
    linarith
  · exact hS.dist (S.A.sub_mem (hX _) (Itv.mem_point.mpr rfl)) (S.A.sub_mem (hY _) (Itv.mem_point.mpr rfl))
  · exact S.A.sub_mem (hS.ang (S.A.sub_mem (Itv.mem_point.mpr rfl) (hY _)) (S.A.sub_mem (Itv.mem_point.mpr rfl) (hX _)))
      (hS.ang (S.A.sub_mem (Itv.mem_point.mpr rfl) (hY _)) (S.A.sub_mem (Itv.mem_point.mpr rfl) (hX _)))

/-- **C120**: when a landmark can be seen at each of the instants, exactly `nb_obs` observations are returned -/
theorem C120_traj_number (hS : SensorFor S dist ang) (hX : ∀ t, x t ∈ X t) (hY : ∀ t, y t ∈ Y t) (hsh : ∀ j, (sh j).Perm map) (hn : 0 < nb)
    (hv : ∀ j, ∃ b ∈ map, dist (x (ts j) - b.x) (y (ts j) - b.y) ∈ vr ∧
      ang (b.y - y (ts j)) (b.x - x (ts j)) - ang (y (ts j + eps) - y (ts j)) (x (ts j + eps) - x (ts j)) ∈ va)
    (h : trajObs S X Y x y eps vr va nb sh ts = some r) : r.length = nb := by
  refine trajLoop_length (k := 0) (fun j _ => ?_) (List.length_nil) hn h
  obtain ⟨b, hb, h1, h2⟩ := hv j
  refine ⟨b, (hsh j).mem_iff.mpr hb, ?_⟩
  rw [TObs.seen, Bool.and_eq_true]
  exact ⟨Itv.intersects_of_mem h1 (hS.dist (S.A.sub_mem (hX _) (Itv.mem_point.mpr rfl)) (S.A.sub_mem (hY _) (Itv.mem_point.mpr rfl))),
    Itv.intersects_of_mem h2 (S.A.sub_mem (hS.ang (S.A.sub_mem (Itv.mem_point.mpr rfl) (hY _)) (S.A.sub_mem (Itv.mem_point.mpr rfl) (hX _)))
      (hS.ang (S.A.sub_mem (Itv.mem_point.mpr rfl) (hY _)) (S.A.sub_mem (Itv.mem_point.mpr rfl) (hX _))))⟩

end

/-! ### Concrete cases -/

/-- the distance of the plane -/
noncomputable def obsDist (x y : ℝ) : ℝ := Real.sqrt (x ^ 2 + y ^ 2)

/-- `atan2(y,x)` -/
noncomputable def obsAng (y x : ℝ) : ℝ := Complex.arg ⟨x, y⟩

open Classical in
/-- an interval function that is exact on points -/
noncomputable def onPoints (f : ℝ → ℝ → ℝ) (X Y : Itv ℝ) : Itv ℝ := if h : ∃ x y, X = .point x ∧ Y = .point y then .point (f h.choose h.choose_spec.choose) else ⊤

theorem onPoints_point (f : ℝ → ℝ → ℝ) (x y : ℝ) : onPoints f (.point x) (.point y) = .point (f x y) := by
  unfold onPoints
  have h : ∃ x' y', Itv.point x = Itv.point x' ∧ Itv.point y = Itv.point y' := ⟨x, y, rfl, rfl⟩
  rw [dif_pos h]
  obtain ⟨e1, e2⟩ := h.choose_spec.choose_spec
  have k1 : x = h.choose := Itv.mem_point.mp (e1 ▸ Itv.mem_point.mpr rfl)
  have k2 : y = h.choose_spec.choose := Itv.mem_point.mp (e2 ▸ Itv.mem_point.mpr rfl)
  exact congrArg Itv.point (congrArg₂ f k1 k2).symm

theorem onPoints_mem (f : ℝ → ℝ → ℝ) {X Y : Itv ℝ} {x y : ℝ} (hx : x ∈ X) (hy : y ∈ Y) : f x y ∈ onPoints f X Y := by
  by_cases h : ∃ x y, X = .point x ∧ Y = .point y
  · obtain ⟨x', y', rfl, rfl⟩ := h
    rw [Itv.mem_point.mp hx, Itv.mem_point.mp hy, onPoints_point]
    exact Itv.mem_point.mpr rfl
  · unfold onPoints
    rw [dif_neg h]
    exact Itv.mem_top _

/-- exact interval functions on points -/
noncomputable def obsS : Sensor ℝ := ⟨IArith.exact ℝ, onPoints obsDist, onPoints obsAng⟩

theorem obsS_for : SensorFor obsS obsDist obsAng := ⟨fun h1 h2 => onPoints_mem _ h1 h2, fun h1 h2 => onPoints_mem _ h1 h2⟩

theorem exact_sub_point (x y : ℝ) : (IArith.exact ℝ).sub (.point x) (.point y) = .point (x - y) := by
  apply Itv.ext_mem
  intro z
  change z ∈ Itv.sub (.point x) (.point y) ↔ _
  rw [Itv.mem_point]
  constructor
  · intro h
    have hb : Itv.neg (Itv.point y) = Itv.point (-y) := by
      change Itv.ofBounds (some (-y)) (some (-y)) = _
      exact dif_pos (le_refl (-y))
    rw [Itv.sub, hb] at h
    change z ∈ Itv.ofBounds (some (x + -y)) (some (x + -y)) at h
    rw [Itv.mem_ofBounds] at h
    rw [sub_eq_add_neg]
    exact le_antisymm h.2 h.1
  · rintro rfl
    exact Itv.mem_sub (Itv.mem_point.mpr rfl) (Itv.mem_point.mpr rfl)

theorem obsS_dist (x y x' y' : ℝ) : obsS.dist (obsS.A.sub (.point x) (.point x')) (obsS.A.sub (.point y) (.point y')) = .point (obsDist (x - x') (y - y')) := by
  simp only [obsS, exact_sub_point, onPoints_point]

theorem obsS_ang (x y x' y' : ℝ) : obsS.atan2 (obsS.A.sub (.point y) (.point y')) (obsS.A.sub (.point x) (.point x')) = .point (obsAng (y - y') (x - x')) := by
  simp only [obsS, exact_sub_point, onPoints_point]

theorem obsAng_zero {x : ℝ} (h : 0 ≤ x) : obsAng 0 x = 0 := Complex.arg_ofReal_of_nonneg h

/-- the hypotheses of the theorems on the static case are met: a landmark ahead is seen -/
example : SensorFor obsS obsDist obsAng ∧ obsDist (0 - 3) (0 - 0) ∈ Itv.icc (0 : ℝ) 5 ∧ obsAng (0 - 0) (3 - 0) - 0 ∈ Itv.icc (-1 : ℝ) 1 ∧
    (3 : ℝ) ∈ Itv.icc (2 : ℝ) 4 ∧ (0 : ℝ) ∈ Itv.icc (-1 : ℝ) 1 := by
  refine ⟨obsS_for, ?_, ?_, ?_, ?_⟩ <;> rw [Itv.mem_icc]
  · have : obsDist (0 - 3) (0 - 0) = 3 := by
      unfold obsDist
      rw [show ((0 : ℝ) - 3) ^ 2 + (0 - 0) ^ 2 = 3 ^ 2 by norm_num]
      exact Real.sqrt_sq (by norm_num)
    rw [this]; norm_num
  · rw [sub_self, obsAng_zero (by norm_num)]; norm_num
  · norm_num
  · norm_num

/-- the robot moves along the x axis, at `x = t` -/
noncomputable def obsRun (vr va : Itv ℝ) (nb : Nat) (map : List (Beacon ℝ)) : Option (List (TObs ℝ)) :=
  trajObs obsS (fun t => .point t) (fun _ => .point 0) (fun t => t) (fun _ => 0) 1 vr va nb (fun _ => map) fun _ => 0

theorem obsDist_one : obsDist (0 - 1) (0 - 0) = 1 := by
  unfold obsDist
  rw [show ((0 : ℝ) - 1) ^ 2 + (0 - 0) ^ 2 = 1 ^ 2 by norm_num]
  exact Real.sqrt_sq (by norm_num)

theorem observeT_one (bx bY : Itv ℝ) : observeT obsS (fun t => .point t) (fun _ => .point 0) (fun t => t) (fun _ => 0) 1 0 ⟨1, 0, bx, bY⟩ =
    ⟨0, .point 1, .point 0, bx, bY⟩ := by
  unfold observeT
  dsimp only
  rw [obsS_dist, obsS_ang, obsS_ang, obsDist_one, sub_self, sub_zero, sub_zero, zero_add, obsAng_zero (by norm_num)]
  simp only [obsS, exact_sub_point, sub_self]

theorem obsRun_one (bx bY : Itv ℝ) (nb : Nat) (hn : nb ≤ 1) : obsRun (.icc 0 50) (.icc (-1) 1) nb [⟨1, 0, bx, bY⟩] = some [⟨0, .point 1, .point 0, bx, bY⟩] := by
  have hs : TObs.seen (.icc 0 50) (.icc (-1) 1) (⟨0, .point 1, .point 0, bx, bY⟩ : TObs ℝ) = true := by
    rw [TObs.seen, Bool.and_eq_true]
    exact ⟨Itv.intersects_of_mem (x := 1) (Itv.mem_icc.mpr (by norm_num)) (Itv.mem_point.mpr rfl),
      Itv.intersects_of_mem (x := 0) (Itv.mem_icc.mpr (by norm_num)) (Itv.mem_point.mpr rfl)⟩
  have ha : attempt (observeT obsS (fun t => .point t) (fun _ => .point 0) (fun t => t) (fun _ => 0) 1 0) (.icc 0 50) (.icc (-1) 1) [⟨1, 0, bx, bY⟩] =
      some ⟨0, .point 1, .point 0, bx, bY⟩ := by
    unfold attempt
    rw [List.map_cons, observeT_one, List.find?_cons_of_pos hs]
  unfold obsRun trajObs
  rw [trajLoop, ha, if_neg]
  · rfl
  · simp only [Option.toList_some, List.nil_append, List.length_singleton]
    omega

/-- the hypotheses of the theorems along a trajectory are met, with one observation -/
example : ∃ r, obsRun (.icc 0 50) (.icc (-1) 1) 1 [.ofPos 1 0] = some r ∧ r.length = 1 := ⟨_, obsRun_one _ _ 1 le_rfl, rfl⟩

/-- **C120** fails for `nb_obs = 0`: an observation is generated -/
theorem C120_none_fails : ∃ map : List (Beacon ℝ), ∃ r, obsRun (.icc 0 50) (.icc (-1) 1) 0 map = some r ∧ r.length = 1 :=
  ⟨[.ofPos 1 0], _, obsRun_one _ _ 0 (by norm_num), rfl⟩

/-- **C120** fails for landmarks given by boxes, along a trajectory: the observation names the landmark by its box `[0,2]×[0,0]`, but the range is that of the
middle of the box, and does not contain the range of the landmark when it is elsewhere in the box (here at `(2,0)`) -/
theorem C120_box_fails : ∃ (mid : Itv ℝ → ℝ) (bx bY : Itv ℝ), (mid bx ∈ bx ∧ mid bY ∈ bY) ∧ ∃ o, obsRun (.icc 0 50) (.icc (-1) 1) 1 [.ofBox mid bx bY] = some [o] ∧
    (2 : ℝ) ∈ o.bx ∧ (0 : ℝ) ∈ o.bY ∧ obsDist (o.t - 2) (0 - 0) ∉ o.r := by
  classical
  have hne : (Itv.icc 0 2 : Itv ℝ) ≠ .point 0 := fun e => by
    have h : (2 : ℝ) ∈ Itv.point (0 : ℝ) := e ▸ Itv.mem_icc.mpr (by norm_num)
    rw [Itv.mem_point] at h
    norm_num at h
  refine ⟨fun I => if I = .point 0 then 0 else 1, .icc 0 2, .point 0, ?_, ⟨0, .point 1, .point 0, .icc 0 2, .point 0⟩, ?_, Itv.mem_icc.mpr (by norm_num),
    Itv.mem_point.mpr rfl, ?_⟩
  · beta_reduce
    rw [if_neg hne, if_pos rfl]
    exact ⟨Itv.mem_icc.mpr (by norm_num), Itv.mem_point.mpr rfl⟩
  · rw [Beacon.ofBox, if_neg hne, if_pos rfl]
    exact obsRun_one _ _ 1 le_rfl
  · rw [Itv.mem_point]
    unfold obsDist
    dsimp only
    rw [show ((0 : ℝ) - 2) ^ 2 + (0 - 0) ^ 2 = 2 ^ 2 by norm_num, Real.sqrt_sq (by norm_num)]
    norm_num

/-- **C120** fails modulo a turn: the robot at the origin has the heading `π`, the landmark at `(0,-1)` is exactly at its left (`π/2`), the visible angles are
`[π/4,3π/4]`, but the landmark is not observed: the difference of the angles is `-3π/2` -/
theorem C120_turn_fails : ∃ b : Itv ℝ × Itv ℝ, (0 : ℝ) ∈ b.1 ∧ (-1 : ℝ) ∈ b.2 ∧
    (obsAng (-1 - 0) (0 - 0) - Real.pi) + 2 * Real.pi ∈ Itv.icc (Real.pi / 4) (3 * Real.pi / 4) ∧ obsDist (0 - 0) (0 - -1) ∈ Itv.icc (0 : ℝ) 50 ∧
    staticObs obsS 0 0 Real.pi (.icc 0 50) (.icc (Real.pi / 4) (3 * Real.pi / 4)) [b] = [] := by
  have hp := Real.pi_pos
  have ha : obsAng (-1 - 0) (0 - 0) = -(Real.pi / 2) := by
    unfold obsAng
    rw [sub_zero, sub_zero]
    have : (⟨0, -1⟩ : ℂ) = -Complex.I := by apply Complex.ext <;> simp
    rw [this, Complex.arg_neg_I]
  refine ⟨(.point 0, .point (-1)), Itv.mem_point.mpr rfl, Itv.mem_point.mpr rfl, ?_, ?_, ?_⟩
  · rw [ha, Itv.mem_icc]
    constructor <;> linarith
  · unfold obsDist
    rw [show ((0 : ℝ) - 0) ^ 2 + (0 - -1) ^ 2 = 1 ^ 2 by norm_num, Real.sqrt_sq (by norm_num), Itv.mem_icc]
    norm_num
  · unfold staticObs
    rw [List.map_singleton, List.filter_eq_nil_iff]
    intro o ho
    rw [List.mem_singleton] at ho
    subst ho
    rw [Bool.and_eq_true]
    rintro ⟨-, h2⟩
    obtain ⟨z, h3, h4⟩ := Itv.intersects_iff.mp h2
    unfold observe at h4
    dsimp only at h4
    rw [obsS_ang, ha] at h4
    simp only [obsS, exact_sub_point, Itv.mem_point] at h4
    rw [Itv.mem_icc, h4] at h3
    linarith [h3.1]

end Codac.Props
