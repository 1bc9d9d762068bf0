import Verif.Traj.FunEval
import Verif.Props.Func
import Verif.Props.TubeBuild

/-!
# Tubes and trajectories made from functions: property C122
-/

set_option linter.unusedSectionVars false

namespace Codac.Props
open Codac

section Tubes
variable {K : Type*} [LinearOrder K]

/-- a function of the time with `m` outputs: the evaluation `F` over a box reads its first component only, `E i` being the evaluation of the `i`-th output over an interval of
time, which contains the values of `g i` over it -/
def TimeFun (m : Nat) (g : Nat → K → K) (E : Nat → Itv K → Itv K) (F : Nat → Box K → Itv K) : Prop :=
  ∀ i < m, (∀ X Y, F i (X :: Y) = E i X) ∧ ∀ X t, t ∈ X → g i t ∈ E i X

/-- the tube `Y` is the one of the function `g`, evaluated by `E`: it has the slicing of `T`, contains the function, its envelopes are the evaluations over the slices and its gates
those over the bounds of the slices -/
structure TubeOfFun (g : K → K) (E : Itv K → Itv K) (T Y : Tube K) : Prop where
  wf : Y.WF
  same : Y.slices.map (fun s => (s.lb, s.ub)) = T.slices.map fun s => (s.lb, s.ub)
  encl : Y.Encloses g
  vals : ∀ s ∈ Y.slices, s.cod = E (Itv.icc s.lb s.ub) ∧ s.inG = E (Itv.point s.lb) ∧ s.outG = E (Itv.point s.ub)

theorem tfunEval_time {m : Nat} {g : Nat → K → K} {E : Nat → Itv K → Itv K} {F : Nat → Box K → Itv K} (hF : TimeFun m g E F) {x : List (Tube K)} {T : Tube K}
    (hx : x.head? = some T) (hT : T.WF) (hs : vSameSlicing x = true) (he : x.any Tube.isEmpty = false) :
    ∃ ys, tfunEval F m x = some ys ∧ ys.length = m ∧ ∀ i < m, ∃ Y, ys[i]? = some Y ∧ TubeOfFun (g i) (E i) T Y := by
  refine ⟨_, tfunEval_some hx hs he, by simp, fun i hi => ⟨_, by rw [List.getElem?_map, List.getElem?_range hi]; rfl, ?_⟩⟩
  obtain ⟨h1, h2⟩ := hF i hi
  refine ⟨rebuild_wf hT _ _ _, rebuild_bounds _ _ _ _, rebuild_encloses hT ?_ ?_ ?_, fun s hs' => ?_⟩
  · rw [h1]; exact h2 _ _ (Itv.mem_point.mpr rfl)
  · intro k s _; rw [h1]; exact h2 _ _ (Itv.mem_point.mpr rfl)
  · intro k s _ t h3 h4; rw [h1]; exact h2 _ _ (Itv.mem_icc.mpr ⟨h3.le, h4.le⟩)
  · obtain ⟨k, s', k1, k2, k3, k4, k5, k6⟩ := rebuild_slice hs'
    rw [h1] at k4 k5
    refine ⟨by rw [k4, k2, k3], ?_, by rw [k5, k3]⟩
    rcases k6 with ⟨rfl, k6⟩ | ⟨p, hk, hp, k6⟩
    · rw [k6, h1, k2]
      have ht := hT.tiles
      unfold Tube.slices at k1
      cases hc : T.cells with
      | nil => exact absurd hc hT.ne
      | cons c cs =>
        rw [hc] at k1 ht
        rw [slicesFrom_cons, List.getElem?_cons_zero, Option.some.injEq] at k1
        rw [← k1]
        show E i (Itv.point T.t0) = E i (Itv.point c.lb)
        rw [ht.1]
    · rw [k6, h1, k2, slices_link hT hk k1 hp]

/-- **C122**, `Tube(x, f, f_image_id)` for a tube which is not empty: the tube of the function, with the slicing of `x`, whatever the values of `x`. -/
theorem C122_copy_partial {m id : Nat} (hid : id < m) {g : Nat → K → K} {E : Nat → Itv K → Itv K} {F : Nat → Box K → Itv K} (hF : TimeFun m g E F) {x : Tube K} (hx : x.WF)
    (he : x.isEmpty = false) : ∃ Y, Tube.ofFun F m id x = some Y ∧ TubeOfFun (g id) (E id) x Y := by
  obtain ⟨ys, h1, _, h3⟩ := tfunEval_time hF (x := [x]) rfl hx rfl (by simp [he])
  obtain ⟨Y, h4, h5⟩ := h3 id hid
  exact ⟨Y, by simp [Tube.ofFun, h1, h4], h5⟩

/-- C122 fails for an empty tube `x`, of which only the slicing should be used: the result has no value at all, and contains no function. -/
theorem C122_copy_fails {m id : Nat} (hid : id < m) (F : Nat → Box K → Itv K) {x : Tube K} (hx : x.WF) (he : x.isEmpty = true) :
    ∃ Y, Tube.ofFun F m id x = some Y ∧ ∀ s ∈ Y.slices, s.cod = ⊥ ∧ s.inG = ⊥ ∧ s.outG = ⊥ := by
  have h1 : tfunEval F m [x] = some ((List.range m).map fun i => ([x][i]?.getD x).set ⊥) := by
    have h2 : vSameSlicing [x] = true := rfl
    simp only [tfunEval]
    rw [if_pos h2]
    simp [he]
  have h2 : [x][id]?.getD x = x := by cases id <;> simp
  refine ⟨x.set ⊥, by simp [Tube.ofFun, h1, List.getElem?_range hid, h2], fun s hs => ?_⟩
  rw [set_eq hx.ne] at hs
  exact mem_slices_const hs

end Tubes

section Steps
variable {K : Type*} [Field K] [LinearOrder K] [IsStrictOrderedRing K] [Archimedean K]

/-- **C122**, `Tube(tdomain, timestep, f, f_image_id)`: for a time domain which is not reduced to a point and a time step which is not negative, the construction ends (and the
result does not depend on the number of iterations allowed), over the time domain, with the slicing of `Tube(tdomain, timestep)`, slices not longer than the time step, and it is the tube of the function. -/
theorem C122_from_step {t0 tf step : K} (h : t0 < tf) (hstep : 0 ≤ step) {m id : Nat} (hid : id < m) {g : Nat → K → K} {E : Nat → Itv K → Itv K} {F : Nat → Box K → Itv K}
    (hF : TimeFun m g E F) : ∃ T Y : Tube K, (∃ n, ∀ fuel ≥ n, Tube.ofStep (· + ·) (tf - t0) fuel t0 tf step ⊤ = some T ∧
      Tube.ofStepFun (· + ·) (tf - t0) fuel F m id t0 tf step = some Y) ∧ TubeOfFun (g id) (E id) T Y ∧
      Tiles t0 Y.cells tf ∧ (0 < step → ∀ s ∈ Y.slices, s.ub - s.lb ≤ step) ∧ (step = 0 → Y.nbSlices = 1) := by
  obtain ⟨T, ⟨n, hn⟩, a1, a2, a3, a4, a5, _, a7⟩ := C01_tube_from_step h hstep ⊤
  have he : T.isEmpty = false := by
    refine not_isEmpty_of_encloses a3 (f := fun _ => t0) (fun s hs => ?_) fun s hs => ?_
    · obtain ⟨b1, b2, b3⟩ := a4 s hs
      refine ⟨?_, ?_, fun _ _ _ => ?_⟩
      · rw [b2]; exact Itv.mem_top _
      · rw [b3]; exact Itv.mem_top _
      · rw [b1]; exact Itv.mem_top _
    · obtain ⟨b1, b2, b3⟩ := a4 s hs
      rw [b1, b2, b3]; exact ⟨le_rfl, le_rfl⟩
  obtain ⟨Y, h1, h2⟩ := C122_copy_partial hid hF a3 he
  have hY : Y.t0 = T.t0 ∧ Y.tf = T.tf := by
    obtain ⟨ys, k1, _⟩ := tfunEval_time hF (x := [T]) rfl a3 rfl (by simp [he])
    rw [Tube.ofFun, k1, Option.bind_some] at h1
    rw [tfunEval_some (T := T) rfl rfl (by simp [he]), Option.some.injEq] at k1
    rw [← k1, List.getElem?_map, List.getElem?_range hid, Option.map_some, Option.some.injEq] at h1
    subst h1
    exact ⟨rfl, rfl⟩
  refine ⟨T, Y, ⟨n, fun fuel hf => ⟨hn fuel hf, by rw [Tube.ofStepFun, hn fuel hf]; exact h1⟩⟩, h2, ?_, fun hp s hs => ?_, fun h0 => ?_⟩
  · rw [← a1, ← a2, ← hY.1, ← hY.2]; exact h2.wf.tiles
  · have hm := List.mem_map_of_mem (f := fun s : Slice K => (s.lb, s.ub)) hs
    rw [h2.same] at hm
    obtain ⟨s', hs', e⟩ := List.mem_map.mp hm
    simp only [Prod.mk.injEq] at e
    rw [← e.1, ← e.2]; exact a5 hp s' hs'
  · rw [← a7 h0]
    have := h2.same
    rw [Tube.slices_bounds, Tube.slices_bounds] at this
    have := congrArg List.length this
    simpa [Tube.nbSlices] using this

/-- **C122**, `TubeVector(tdomain, timestep, f)`: one component for each output of the function, each being what `Tube(tdomain, timestep, f, i)` gives. -/
theorem C122_from_step_vector {t0 tf step : K} (h : t0 < tf) (hstep : 0 ≤ step) {m : Nat} (hm : m ≠ 0) {g : Nat → K → K} {E : Nat → Itv K → Itv K} {F : Nat → Box K → Itv K}
    (hF : TimeFun m g E F) : ∃ (ys : List (Tube K)) (T : Tube K), (∃ n, ∀ fuel ≥ n, vOfStepFun (· + ·) (tf - t0) fuel F m t0 tf step = some ys) ∧ ys.length = m ∧
      ∀ i < m, ∃ Y, ys[i]? = some Y ∧ TubeOfFun (g i) (E i) T Y ∧ ∃ n, ∀ fuel ≥ n, Tube.ofStepFun (· + ·) (tf - t0) fuel F m i t0 tf step = some Y := by
  obtain ⟨T, ⟨n, hn⟩, a1, a2, a3, a4, a5, _, a7⟩ := C01_tube_from_step h hstep ⊤
  have he : T.isEmpty = false := by
    refine not_isEmpty_of_encloses a3 (f := fun _ => t0) (fun s hs => ?_) fun s hs => ?_
    · obtain ⟨b1, b2, b3⟩ := a4 s hs
      refine ⟨?_, ?_, fun _ _ _ => ?_⟩
      · rw [b2]; exact Itv.mem_top _
      · rw [b3]; exact Itv.mem_top _
      · rw [b1]; exact Itv.mem_top _
    · obtain ⟨b1, b2, b3⟩ := a4 s hs
      rw [b1, b2, b3]; exact ⟨le_rfl, le_rfl⟩
  have hhead : (List.replicate m T).head? = some T := by
    obtain ⟨k, rfl⟩ := Nat.exists_eq_succ_of_ne_zero hm; rfl
  have hemp : (List.replicate m T).any Tube.isEmpty = false := by
    rw [List.any_eq_false]
    intro X hX
    rw [List.eq_of_mem_replicate hX, he]; simp
  obtain ⟨ys, h1, h2, h3⟩ := tfunEval_time hF hhead a3 (vSameSlicing_replicate T hm) hemp
  refine ⟨ys, T, ⟨n, fun fuel hf => by rw [vOfStepFun, hn fuel hf]; exact h1⟩, h2, fun i hi => ?_⟩
  obtain ⟨Y, h4, h5⟩ := h3 i hi
  refine ⟨Y, h4, h5, n, fun fuel hf => ?_⟩
  rw [Tube.ofStepFun, hn fuel hf, Option.bind_some, Tube.ofFun, tfunEval_some (T := T) rfl rfl (by simp [he]), Option.bind_some, ← h4]
  rw [tfunEval_some hhead (vSameSlicing_replicate T hm) hemp, Option.some.injEq] at h1
  rw [← h1, List.getElem?_map, List.getElem?_map, List.getElem?_range hi]
  simp only [Option.map_some, (hF i hi).1]

end Steps

section Trajectories
open TVec
variable {K : Type*} [Field K] [LinearOrder K] [IsStrictOrderedRing K]

/-- **C122**, `f.traj_eval_vector(x)` (partial): for trajectories over the same temporal domain, as many as variables, the result has one trajectory for each output, over the same
temporal domain; its instants are those of the first component of `x`, and at each of these its value is that of the function. Missing: the instants of the other components, see
`C122_instants_fails`; the functions without variable, see `C122_no_variable_fails`. -/
theorem C122_traj_eval_partial {D : Itv K} {a : Traj K} {l : List (Traj K)} (hx : TVec.VecOk D (a :: l)) (G : Nat → List K → K) {m : Nat} (hm : m ≠ 0) :
    ∃ r, trajEvalVec G (l.length + 1) m (a :: l) = some r ∧ r.length = m ∧ ∀ i < m, ∃ y, r[i]? = some y ∧ TrajOk y ∧ y.dom = D ∧
      y.pts.map Prod.fst = a.pts.map Prod.fst ∧ ∀ t ∈ a.pts.map Prod.fst, ∃ u, eval (a :: l) t = some u ∧ y.evalAt t = some (G i (t :: u)) := by
  obtain ⟨oa, da⟩ := hx a (by simp)
  have hts : (a.pts.map Prod.fst).Pairwise (· < ·) := sortedPts_iff.mp oa.sorted
  have hv : ∀ t ∈ a.pts.map Prod.fst, eval (a :: l) t = some ((eval (a :: l) t).getD []) := by
    intro t ht
    obtain ⟨u, hu⟩ := eval_some hx (t := t) (by rw [← da]; exact oa.dom.1 t ht)
    rw [hu]; rfl
  obtain ⟨r, h1, h2, h3⟩ := evalLoop_get (G := G) hm (x := a :: l) (V := fun t => (eval (a :: l) t).getD []) (r := ofSize m) (by simp [ofSize]) hv
  refine ⟨r, ?_, h2, fun i hi => ?_⟩
  · unfold trajEvalVec
    rw [if_neg (by simp), if_neg (by simp)]
    exact h1
  · have h4 := h3 i Traj.empty (by rw [ofSize, List.getElem?_replicate, if_pos hi])
    obtain ⟨k1, k2, k3⟩ := foldl_set_empty hts (fun t => G i (t :: (eval (a :: l) t).getD [])) (D := D) (by rw [← da]; exact oa.dom)
    refine ⟨_, h4, k1, k2, by rw [k3, ptsOf_keys], fun t ht => ⟨_, hv t ht, ?_⟩⟩
    rw [evalAt_ev k1, k3]
    exact (ev_iff (sorted_ptsOf hts _)).mpr (.inl (List.mem_map.mpr ⟨t, ht, rfl⟩))

/-- **C122**, `f.traj_eval(x)` for a function with one output is the only component of `f.traj_eval_vector(x)` -/
theorem C122_traj_eval_scalar_partial {D : Itv K} {a : Traj K} {l : List (Traj K)} (hx : TVec.VecOk D (a :: l)) (G : Nat → List K → K) :
    ∃ y, trajEval G (l.length + 1) 1 (a :: l) = some y ∧ trajEvalVec G (l.length + 1) 1 (a :: l) = some [y] ∧ TrajOk y ∧ y.dom = D ∧
      ∀ t ∈ a.pts.map Prod.fst, ∃ u, eval (a :: l) t = some u ∧ y.evalAt t = some (G 0 (t :: u)) := by
  obtain ⟨r, h1, h2, h3⟩ := C122_traj_eval_partial hx G (m := 1) one_ne_zero
  obtain ⟨y, h4, h5, h6, _, h7⟩ := h3 0 one_pos
  obtain ⟨z, rfl⟩ := List.length_eq_one_iff.mp h2
  simp only [List.getElem?_cons_zero, Option.some.injEq] at h4
  subst h4
  exact ⟨z, by simp [trajEval, h1], h1, h5, h6, h7⟩

/-- C122 fails for the functions of the time only: whatever the trajectories (with at least one value), the values of `x` are written out of the vector of the inputs. -/
theorem C122_no_variable_fails (G : Nat → List K → K) (m : Nat) {a : Traj K} (ha : a.pts ≠ []) (l : List (Traj K)) : trajEvalVec G 0 m (a :: l) = none := by
  obtain ⟨p, ps, hp⟩ := List.exists_cons_of_ne_nil ha
  simp [trajEvalVec, firstKeys, hp, evalLoop]

end Trajectories

/-! ### Cases -/

section Cases
open TVec

/-- `t ↦ 1 - t` over intervals, with the identity as second output -/
def timeE (i : Nat) (X : Itv ℚ) : Itv ℚ := if i = 0 then Itv.add (Itv.point 1) (Itv.neg X) else X
def timeF (i : Nat) (B : Box ℚ) : Itv ℚ := timeE i (B.headD ⊥)

theorem timeF_ok : TimeFun 2 (fun i t => if i = 0 then 1 - t else t) timeE timeF := by
  intro i hi
  refine ⟨fun X Y => rfl, fun X t ht => ?_⟩
  show (if i = 0 then 1 - t else t) ∈ timeE i X
  unfold timeE
  by_cases h0 : i = 0
  · rw [if_pos h0, if_pos h0, sub_eq_add_neg]
    exact Itv.mem_add (Itv.mem_point.mpr rfl) (Itv.mem_neg ht)
  · rw [if_neg h0, if_neg h0]; exact ht

example : ∃ T Y : Tube ℚ, (∃ n, ∀ fuel ≥ n, Tube.ofStep (· + ·) (3 - 0) fuel 0 3 2 ⊤ = some T ∧
    Tube.ofStepFun (· + ·) (3 - 0) fuel timeF 2 0 0 3 2 = some Y) ∧ TubeOfFun (fun t => 1 - t) (timeE 0) T Y ∧
    Tiles 0 Y.cells 3 ∧ ((0 : ℚ) < 2 → ∀ s ∈ Y.slices, s.ub - s.lb ≤ 2) ∧ ((2 : ℚ) = 0 → Y.nbSlices = 1) :=
  C122_from_step (by norm_num) (by norm_num) (id := 0) (by norm_num) timeF_ok

example : Tube.ofStepFun (· + ·) (3 - 0) 5 timeF 2 0 (0 : ℚ) 3 2 =
    some ⟨0, 3, Itv.icc 1 1, [⟨0, 2, Itv.icc (-1) 1, Itv.icc (-1) (-1)⟩, ⟨2, 3, Itv.icc (-2) (-1), Itv.icc (-2) (-2)⟩]⟩ := by decide +kernel

example : ∃ (ys : List (Tube ℚ)) (T : Tube ℚ), (∃ n, ∀ fuel ≥ n, vOfStepFun (· + ·) (3 - 0) fuel timeF 2 0 3 2 = some ys) ∧ ys.length = 2 ∧
    ∀ i < 2, ∃ Y, ys[i]? = some Y ∧ TubeOfFun (fun t => if i = 0 then 1 - t else t) (timeE i) T Y ∧
      ∃ n, ∀ fuel ≥ n, Tube.ofStepFun (· + ·) (3 - 0) fuel timeF 2 i 0 3 2 = some Y :=
  C122_from_step_vector (by norm_num) (by norm_num) two_ne_zero timeF_ok

/-- a tube with an empty slice, of which only the slicing should matter -/
example : ∃ Y, Tube.ofFun timeF 2 0 (⟨0, 1, ⊤, [⟨0, 1, ⊥, ⊤⟩]⟩ : Tube ℚ) = some Y ∧ ∀ s ∈ Y.slices, s.cod = ⊥ ∧ s.inG = ⊥ ∧ s.outG = ⊥ :=
  C122_copy_fails (by norm_num) _ ⟨by simp, by simp [Codac.Tiles]⟩ (by decide +kernel)

/-- `f(t,x,y) = y` -/
def sndFun (_ : Nat) : List ℚ → ℚ
  | [_, _, y] => y
  | _ => 0

def trajA : Traj ℚ := (Traj.empty.set 0 0).set 0 2
def trajB : Traj ℚ := ((Traj.empty.set 0 0).set 1 1).set 0 2

/-- C122 fails at the instants of the other components: `f(t,x,y) = y` is evaluated at the instants of `x` only, and the value at 1 is that of the segment between the values of `y`
at 0 and 2. -/
theorem C122_instants_fails : TVec.VecOk (Itv.icc 0 2) [trajA, trajB] ∧ ∃ r, trajEval sndFun 2 1 [trajA, trajB] = some r ∧ trajB.evalAt 1 = some 1 ∧ r.evalAt 1 = some 0 := by
  refine ⟨?_, ?_⟩
  · intro a ha
    rcases List.mem_cons.mp ha with rfl | ha
    · exact ⟨(trajOk_empty.set 0 0).set 0 2, by decide +kernel⟩
    · rcases List.mem_singleton.mp ha with rfl
      exact ⟨((trajOk_empty.set 0 0).set 1 1).set 0 2, by decide +kernel⟩
  · exact ⟨⟨[(0, 0), (2, 0)], Itv.icc 0 2, Itv.icc 0 0⟩, by decide +kernel, by decide +kernel, by decide +kernel⟩

example : ∃ r, trajEvalVec sndFun (1 + 1) 1 [trajA, trajB] = some r ∧ r.length = 1 ∧ ∀ i < 1, ∃ y, r[i]? = some y ∧ TrajOk y ∧ y.dom = Itv.icc 0 2 ∧
    y.pts.map Prod.fst = trajA.pts.map Prod.fst ∧ ∀ t ∈ trajA.pts.map Prod.fst, ∃ u, eval [trajA, trajB] t = some u ∧ y.evalAt t = some (sndFun i (t :: u)) :=
  C122_traj_eval_partial C122_instants_fails.1 sndFun one_ne_zero

end Cases

end Codac.Props
