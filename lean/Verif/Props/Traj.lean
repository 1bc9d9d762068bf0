import Verif.Traj.SampleTerm
import Verif.Traj.TubeTraj
import Verif.Traj.Diff
import Verif.Props.TubeBuild
import Mathlib.Data.Rat.Floor

/-! # Trajectories: C36 (updates), C37 (interval evaluation), C38 (equality), C39 (tubes from trajectories), C40 (`Tube::contains`),
C53 (primitive), C54 (finite differences), C55 (arithmetic) -/

set_option linter.unusedSectionVars false

namespace Codac.Props

variable {K : Type*} [Field K] [LinearOrder K] [IsStrictOrderedRing K]

instance (l : List (ℚ × ℚ)) : Decidable (SortedPts l) := by unfold SortedPts; infer_instance

/-- how a trajectory defined by a map comes to exist: empty, or from a `std::map` -/
def TrajStart (x : Traj K) : Prop := x = Traj.empty ∨ ∃ l, SortedPts l ∧ x = Traj.ofMap l

theorem trajStart_ok {x : Traj K} (h : TrajStart x) : TrajOk x := by
  rcases h with rfl | ⟨l, hl, rfl⟩
  · exact trajOk_empty
  · exact trajOk_ofMap hl

/-- C36: after any history of `set`, `truncate_tdomain`, `shift_tdomain`, `sample` and `make_continuous`: the instants are in order, the temporal domain is the hull of
the instants, the codomain is the hull of the values, the trajectory is defined exactly on its temporal domain, its value is the one of the point set there or
the interpolation between the neighbouring points, and it lies in the codomain. -/
theorem C36_history {x x' : Traj K} (hx : TrajStart x) {os : List (TrajOp K)} (h : x.run os = some x') :
    SortedPts x'.pts ∧ IsHull x'.dom (x'.pts.map Prod.fst) ∧ IsHull x'.cod (x'.pts.map Prod.snd) ∧
      (∀ t, t ∈ x'.dom ↔ ∃ v, x'.evalAt t = some v) ∧ (∀ t v, x'.evalAt t = some v ↔ Interp x'.pts t v) ∧
      ∀ t v, x'.evalAt t = some v → v ∈ x'.cod := by
  have hok := Traj.run_ok (trajStart_ok hx) h
  refine ⟨hok.sorted, hok.dom, hok.cod, fun t => ⟨evalAt_some hok, fun ⟨v, hv⟩ => ?_⟩, fun t v => evalAt_iff hok, fun t v => evalAt_mem_cod hok⟩
  by_contra hc
  rw [evalAt_none hc] at hv
  cases hv

/-- an update which keeps the values already set at `t` -/
def TrajOp.Keeps (t : K) : TrajOp K → Prop
  | .set _ u => u ≠ t
  | .sample _ _ => True
  | .sampleLike _ => True
  | .truncate a b => a ≤ t ∧ t ≤ b
  | _ => False

/-- C36: `x(t)` is the last value set at `t`: later updates at other instants, samplings and truncations keeping `t` do not change it -/
theorem C36_last_set {x x' : Traj K} (hx : TrajOk x) (y t : K) {os : List (TrajOp K)} (hos : ∀ o ∈ os, TrajOp.Keeps t o) (h : (x.set y t).run os = some x') :
    x'.evalAt t = some y := by
  have key : ∀ (os : List (TrajOp K)) (z : Traj K), TrajOk z → (t, y) ∈ z.pts → (∀ o ∈ os, TrajOp.Keeps t o) → z.run os = some x' → x'.evalAt t = some y := by
    intro os
    induction os with
    | nil =>
      intro z hz hm _ hr
      simp only [Traj.run, Option.some.injEq] at hr
      subst hr
      exact (evalAt_iff hz).mpr (.inl hm)
    | cons o os ih =>
      intro z hz hm ho hr
      rw [Traj.run, Option.bind_eq_some_iff] at hr
      obtain ⟨z1, h1, h2⟩ := hr
      refine ih z1 (TrajOp.apply_ok hz h1) ?_ (fun o' ho' => ho o' (by simp [ho'])) h2
      have hk := ho o (by simp)
      cases o with
      | set w u =>
        simp only [TrajOp.apply, Option.some.injEq] at h1
        rw [← h1, set_pts, mem_setPt hz.sorted]
        exact .inr ⟨hm, fun e => hk e.symm⟩
      | truncate a b =>
        obtain ⟨va, vb, hab, ha, hb, rfl⟩ := truncate_eq hz h1
        rw [evalAt_ev hz] at ha hb
        have hb' : ev b (setPt a va z.pts) = some vb := by rw [ev_setPt hz.sorted ha]; exact hb
        exact List.mem_filter.mpr ⟨mem_of_mem_setPt_ev (hz.sorted.setPt a va) hb' (mem_of_mem_setPt_ev hz.sorted ha hm), by
          have := hk; simp only [TrajOp.Keeps] at this; simpa using this⟩
      | shift d => exact hk.elim
      | sample fuel dt => obtain ⟨m, hm', rfl⟩ := sample_sameFun hz h1; exact hm'.keeps _ hm
      | sampleLike w => obtain ⟨m, hm', rfl, _⟩ := sampleLike_sameFun hz h1; exact hm'.keeps _ hm
      | makeContinuous => exact hk.elim
  exact key os _ (hx.set y t) (by rw [set_pts, mem_setPt hx.sorted]; exact .inl rfl) hos h

/-- C36: `set` gives the value and leaves the other points -/
theorem C36_set {x : Traj K} (hx : TrajOk x) (y t : K) :
    (x.set y t).evalAt t = some y ∧ ∀ p ∈ x.pts, p.1 ≠ t → (x.set y t).evalAt p.1 = some p.2 := by
  have hok := hx.set y t
  constructor
  · rw [evalAt_iff hok, set_pts]; exact .inl ((mem_setPt hx.sorted).mpr (.inl rfl))
  · intro p hp hne
    rw [evalAt_iff hok, set_pts]; exact .inl ((mem_setPt hx.sorted).mpr (.inr ⟨hp, hne⟩))

/-- C36: truncation to a non-degenerate part of the temporal domain is always possible, gives this temporal domain and does not change the values -/
theorem C36_truncate {x : Traj K} (hx : TrajOk x) {a b : K} (hab : a < b) (hd : Itv.icc a b ≤ x.dom) :
    ∃ x', x.truncate a b = some x' ∧ x'.dom = Itv.icc a b ∧ ∀ t, a ≤ t → t ≤ b → x'.evalAt t = x.evalAt t := by
  obtain ⟨x', h⟩ := truncate_some hx hab hd
  exact ⟨x', h, (trajOk_truncate hx h).2⟩

/-- C36: the shifted trajectory has at `t + d` the value which was at `t` -/
theorem C36_shift {x : Traj K} (hx : TrajOk x) (d : K) :
    (∀ t, t ∈ (x.shift d).dom ↔ t - d ∈ x.dom) ∧ ∀ t, (x.shift d).evalAt (t + d) = x.evalAt t := (trajOk_shift hx d).2

/-- C36: sampling ends, adds exactly the instants `lb + j dt` and `ub`, and changes no value -/
theorem C36_sample [Archimedean K] {x : Traj K} (hx : TrajOk x) {lb ub dt : K} (hd : x.dom = Itv.icc lb ub) (hlu : lb ≤ ub) (hdt : 0 < dt) :
    ∃ x' n, (∀ fuel ≥ n, x.sample fuel dt = some x') ∧ (∀ t, x'.evalAt t = x.evalAt t) ∧ x'.dom = x.dom ∧
      ∀ k, k ∈ x'.pts.map Prod.fst ↔ k ∈ x.pts.map Prod.fst ∨ k = ub ∨ (k < ub ∧ ∃ j : Nat, k = lb + j * dt) := by
  obtain ⟨x', n, h1, h2⟩ := sample_total hx hd hlu hdt
  obtain ⟨m, hm, rfl⟩ := sample_sameFun hx (h1 n le_rfl)
  exact ⟨_, n, h1, (trajOk_of_sameFun hx hm).2, rfl, h2⟩

/-- C36: sampling on the instants of another trajectory of the same temporal domain -/
theorem C36_sample_like {x y : Traj K} (hx : TrajOk x) (hy : TrajOk y) (hd : x.dom = y.dom) :
    ∃ x', x.sampleLike y = some x' ∧ (∀ t, x'.evalAt t = x.evalAt t) ∧
      ∀ k, k ∈ x'.pts.map Prod.fst ↔ k ∈ x.pts.map Prod.fst ∨ k ∈ y.pts.map Prod.fst := by
  obtain ⟨x', h1, _, _, h2, h3⟩ := sampleLike_total hx hy hd
  exact ⟨x', h1, h2, h3⟩

/-- C71: `make_continuous()` keeps the instants, moves each value by a multiple of the diameter `M - m` of the codomain, and the result has no jump of more than 90% of this
diameter between two successive points -/
theorem C71_make_continuous {x : Traj K} (hx : TrajOk x) {m M : K} (hc : x.cod = Itv.icc m M) :
    x.makeContinuous.pts.map Prod.fst = x.pts.map Prod.fst ∧
    List.Forall₂ (fun p q => ∃ k : ℤ, q.2 = p.2 + k * (M - m)) x.pts x.makeContinuous.pts ∧
    List.IsChain (fun p q => |q.2 - p.2| ≤ (M - m) * (9 / 10)) x.makeContinuous.pts := by
  by_cases hmM : m ≤ M
  swap
  · have he : x.pts = [] := by
      by_contra hne
      obtain ⟨p, hp⟩ := List.exists_mem_of_ne_nil _ hne
      have := hx.cod.1 p.2 (List.mem_map.mpr ⟨p, hp, rfl⟩)
      rw [hc, Itv.mem_icc] at this
      exact hmM (this.1.trans this.2)
    simp [Traj.makeContinuous, he, Traj.continuousLoop]
  have hv : ∀ p ∈ x.pts, m ≤ p.2 ∧ p.2 ≤ M := by
    intro p hp
    have := hx.cod.1 p.2 (List.mem_map.mpr ⟨p, hp, rfl⟩)
    rwa [hc, Itv.mem_icc] at this
  have hd : x.makeContinuous.pts = Traj.continuousLoop (M - m) ((M - m) * (9 / 10)) none 0 x.pts := by
    simp only [Traj.makeContinuous]
    rw [hc, Itv.icc_eq_mk hmM]
  have hd0 : 0 ≤ M - m := sub_nonneg.mpr hmM
  refine ⟨by simp only [Traj.makeContinuous]; rw [continuousLoop_keys], ?_, ?_⟩
  · rw [hd]
    have key : ∀ (l : List (K × K)) (prev : Option K) (c : K), (∃ k : ℤ, c = k * (M - m)) →
        List.Forall₂ (fun p q => ∃ k : ℤ, q.2 = p.2 + k * (M - m)) l (Traj.continuousLoop (M - m) ((M - m) * (9 / 10)) prev c l) := by
      intro l
      induction l with
      | nil => intro _ _ _; exact .nil
      | cons p l ih =>
        rintro prev c ⟨k, rfl⟩
        simp only [Traj.continuousLoop]
        have : ∃ j : ℤ, (match prev with
            | none => (k : K) * (M - m)
            | some v => if v - p.2 > (M - m) * (9 / 10) then k * (M - m) + (M - m) else if v - p.2 < -((M - m) * (9 / 10)) then k * (M - m) - (M - m) else k * (M - m)) = j * (M - m) := by
          cases prev with
          | none => exact ⟨k, rfl⟩
          | some v =>
            dsimp only
            by_cases c1 : v - p.2 > (M - m) * (9 / 10)
            · rw [if_pos c1]; exact ⟨k + 1, by push_cast; ring⟩
            rw [if_neg c1]
            by_cases c2 : v - p.2 < -((M - m) * (9 / 10))
            · rw [if_pos c2]; exact ⟨k - 1, by push_cast; ring⟩
            rw [if_neg c2]; exact ⟨k, rfl⟩
        obtain ⟨j, hj⟩ := this
        exact .cons ⟨j, congrArg (p.2 + ·) hj⟩ (ih _ _ ⟨j, hj⟩)
    exact key x.pts none 0 ⟨0, by simp⟩
  · rw [hd]
    have key : ∀ (l : List (K × K)) (t v c : K), m ≤ v → v ≤ M → (∀ p ∈ l, m ≤ p.2 ∧ p.2 ≤ M) →
        List.IsChain (fun p q => |q.2 - p.2| ≤ (M - m) * (9 / 10)) ((t, v + c) :: Traj.continuousLoop (M - m) ((M - m) * (9 / 10)) (some v) c l) := by
      intro l
      induction l with
      | nil => intro t v c _ _ _; exact .singleton _
      | cons p l ih =>
        intro t v c h1 h2 h3
        obtain ⟨h4, h5⟩ := h3 p (by simp)
        simp only [Traj.continuousLoop]
        refine List.IsChain.cons_cons ?_ (ih _ _ _ h4 h5 fun q hq => h3 q (by simp [hq]))
        dsimp only
        rw [abs_le]
        by_cases c1 : v - p.2 > (M - m) * (9 / 10)
        · rw [if_pos c1]; constructor <;> linarith
        rw [if_neg c1]
        by_cases c2 : v - p.2 < -((M - m) * (9 / 10))
        · rw [if_pos c2]; constructor <;> linarith
        rw [if_neg c2]; constructor <;> linarith
    cases hp : x.pts with
    | nil => exact .nil
    | cons p l =>
      simp only [Traj.continuousLoop]
      rw [hp] at hv
      exact key l p.1 p.2 0 (hv p (by simp)).1 (hv p (by simp)).2 fun q hq => hv q (by simp [hq])

/-- an angle crossing `π` twice, here in turns: the jumps disappear -/
example : (Traj.ofMap [((0 : ℚ), (0 : ℚ)), (1, 1/2), (2, -1/2), (3, 0), (4, -1/2), (5, 1/2)]).makeContinuous.pts = [(0, 0), (1, 1/2), (2, 1/2), (3, 1), (4, 1/2), (5, 1/2)] := by
  decide +kernel

/-- C36 fails for `Trajectory(list_t, list_x)`: the codomain is left empty, so that the evaluation over the whole temporal domain is empty although the trajectory
has values -/
theorem C36_from_lists_fails : ∃ (ts xs : List ℚ), (Traj.ofLists ts xs).cod = ⊥ ∧ (Traj.ofLists ts xs).evalItv (Itv.icc 0 2) = some ⊥ ∧
    (Traj.ofLists ts xs).evalAt 1 = some 5 := ⟨[0, 1, 2], [3, 5, 4], by decide +kernel⟩

/-- a trajectory and a history -/
example : ((Traj.ofMap [((0 : ℚ), (0 : ℚ)), (2, 4)]).run [.set 1 1, .sample 10 (1 / 2), .truncate (1 / 2) (3 / 2), .shift 1]).map
    (fun x => (x.pts, x.dom, x.cod)) = some ([(3 / 2, 1 / 2), (2, 1), (5 / 2, 5 / 2)], Itv.icc (3 / 2) (5 / 2), Itv.icc (1 / 2) (5 / 2)) := by decide +kernel

example : TrajStart (Traj.ofMap [((0 : ℚ), (0 : ℚ)), (2, 4)]) := .inr ⟨_, by decide +kernel, rfl⟩

/-! ### C37 -/

/-- C37: the evaluation over a sub-interval of the temporal domain is the exact range of the trajectory: it contains all the values over the interval, and both its
bounds are values reached there -/
theorem C37_exact_range {x : Traj K} (hx : TrajOk x) {a b : K} (hab : a ≤ b) (hd : Itv.icc a b ≤ x.dom) :
    ∃ m M, x.evalItv (Itv.icc a b) = some (Itv.icc m M) ∧ (∀ t v, a ≤ t → t ≤ b → x.evalAt t = some v → m ≤ v ∧ v ≤ M) ∧
      (∃ t, a ≤ t ∧ t ≤ b ∧ x.evalAt t = some m) ∧ ∃ t, a ≤ t ∧ t ≤ b ∧ x.evalAt t = some M := by
  obtain ⟨X, m, M, h1, rfl, h2, h3, h4⟩ := evalItv_range hx hab hd
  exact ⟨m, M, h1, fun t v h5 h6 h7 => Itv.mem_icc.mp (h2 t v h5 h6 h7), h3, h4⟩

/-- C37: a larger interval gives a larger result -/
theorem C37_monotone {x : Traj K} (hx : TrajOk x) {a b c d : K} (hab : a ≤ b) (hca : c ≤ a) (hbd : b ≤ d) (hd : Itv.icc c d ≤ x.dom) {X Y : Itv K}
    (hX : x.evalItv (Itv.icc a b) = some X) (hY : x.evalItv (Itv.icc c d) = some Y) : X ≤ Y := by
  have hcd := hca.trans (hab.trans hbd)
  have hsub : Itv.icc a b ≤ x.dom := le_trans ((icc_le_iff hab).mpr ⟨Itv.mem_icc.mpr ⟨hca, hab.trans hbd⟩, Itv.mem_icc.mpr ⟨hca.trans hab, hbd⟩⟩) hd
  obtain ⟨X', m, M, h1, h0, _, ⟨t, h3, h4, h5⟩, u, h6, h7, h8⟩ := evalItv_range hx hab hsub
  obtain ⟨Y', _, _, k1, _, k2, _⟩ := evalItv_range hx hcd hd
  rw [hX, Option.some.injEq] at h1
  rw [hY, Option.some.injEq] at k1
  subst h1 k1
  have hm := k2 t m (hca.trans h3) (h4.trans hbd) h5
  have hM := k2 u M (hca.trans h6) (h7.trans hbd) h8
  rw [h0]
  rw [Itv.le_iff]
  intro v hv
  rw [Itv.mem_icc] at hv
  exact Itv.mem_of_between hm hM hv.1 hv.2

example : (Traj.ofMap [((0 : ℚ), (0 : ℚ)), (1, 3), (2, -1)]).evalItv (Itv.icc (1 / 2) (7 / 4)) = some (Itv.icc 0 3) := by decide +kernel

/-! ### C38 -/

/-- C38, the part which holds: equality is reflexive and transitive; when it holds in both directions, or between trajectories with the same number of points,
both trajectories are the same function; `!=` is the negation of `==`. Missing: symmetry and equality of the values in general, see `C38_equality_fails`. -/
theorem C38_equality_partial :
    (∀ x : Traj K, TrajOk x → x.beq x = true) ∧
    (∀ x y z : Traj K, TrajOk y → TrajOk z → x.beq y = true → y.beq z = true → x.beq z = true) ∧
    (∀ x y : Traj K, TrajOk x → TrajOk y → x.beq y = true → (y.beq x = true ∨ x.pts.length = y.pts.length) → x = y) ∧
    ∀ x y : Traj K, x.bne y = !x.beq y := by
  refine ⟨fun x hx => (beq_iff hx.sorted).mpr ⟨rfl, rfl, fun _ h => h⟩, fun x y z hy hz h1 h2 => ?_, fun x y hx hy h1 h2 => ?_, fun x y => ?_⟩
  · obtain ⟨a1, a2, a3⟩ := (beq_iff hy.sorted).mp h1
    obtain ⟨b1, b2, b3⟩ := (beq_iff hz.sorted).mp h2
    exact (beq_iff hz.sorted).mpr ⟨a1.trans b1, a2.trans b2, fun p hp => b3 p (a3 p hp)⟩
  · obtain ⟨a1, a2, a3⟩ := (beq_iff hy.sorted).mp h1
    have hlen : y.pts.length ≤ x.pts.length := by
      rcases h2 with h2 | h2
      · have hsub := ((beq_iff hx.sorted).mp h2).2.2
        exact (List.subperm_of_subset hy.sorted.nodup hsub).length_le
      · exact h2.ge
    have := eq_of_subset hx.sorted hy.sorted a3 hlen
    cases x; cases y
    simp only at a1 a2 this
    subst a1 a2 this
    rfl
  · unfold Traj.bne
    by_cases h : x.beq y = true
    · have h' := h
      unfold Traj.beq at h
      rw [Bool.and_eq_true, Bool.and_eq_true, decide_eq_true_iff, decide_eq_true_iff] at h
      rw [h']
      simp [h.1.1, h.1.2]
    · rw [Bool.not_eq_true] at h
      rw [h]; simp

/-- C38 fails in general: `x == y` and not `y == x`; and two trajectories reported equal with different values -/
theorem C38_equality_fails :
    (∃ x y : Traj ℚ, TrajOk x ∧ TrajOk y ∧ x.beq y = true ∧ y.beq x = false) ∧
    ∃ x y : Traj ℚ, TrajOk x ∧ TrajOk y ∧ x.beq y = true ∧ x.evalAt 1 = some 1 ∧ y.evalAt 1 = some 2 :=
  ⟨⟨Traj.ofMap [(0, 0), (2, 2)], Traj.ofMap [(0, 0), (1, 1), (2, 2)], trajOk_ofMap (by decide +kernel), trajOk_ofMap (by decide +kernel), by decide +kernel, by decide +kernel⟩,
    ⟨Traj.ofMap [(0, 0), (2, 2)], Traj.ofMap [(0, 0), (1, 2), (2, 2)], trajOk_ofMap (by decide +kernel), trajOk_ofMap (by decide +kernel), by decide +kernel, by decide +kernel, by decide +kernel⟩⟩

/-! ### C39 -/

/-- C39: the tube built from a trajectory (given by any evaluation over intervals) exists, has the temporal domain of the trajectory and the requested slices; the
envelope of each slice is the evaluation of the trajectory over the slice and the gates are its evaluations at the bounds; it contains every function enclosed by the
evaluation -/
theorem C39_from_trajectory [Archimedean K] {t0 tf step : K} (h : t0 < tf) (hstep : 0 ≤ step) (ev : Itv K → Itv K) :
    ∃ T : Tube K, (∃ n, ∀ fuel ≥ n, Tube.ofTraj (· + ·) (tf - t0) fuel t0 tf step ev = some T) ∧ T.WF ∧ T.t0 = t0 ∧ T.tf = tf ∧
      (∀ s ∈ T.slices, s.cod = ev (Itv.icc s.lb s.ub) ∧ s.inG = ev (Itv.point s.lb) ∧ s.outG = ev (Itv.point s.ub)) ∧
      (0 < step → ∀ s ∈ T.slices, s.ub - s.lb ≤ step) ∧ ∀ f, EnclosesOn ev f t0 tf → T.Encloses f := by
  obtain ⟨T, ⟨n, hn⟩, h0, hf, hwf, hcod, hlen, _⟩ := C01_tube_from_step h hstep (⊤ : Itv K)
  have he : T.setEmpty = ⟨T.t0, T.tf, ⊥, constCells ⊥ T.cells⟩ := set_eq hwf.ne ⊥
  have hewf : T.setEmpty.WF := by
    rw [he]
    refine ⟨?_, (tiles_of_bounds (constCells_bounds ⊥ T.cells)).mpr hwf.tiles⟩
    intro hc
    exact hwf.ne (by simpa [constCells] using hc)
  have hes : ∀ s ∈ T.setEmpty.slices, s.cod = ⊥ ∧ s.inG = ⊥ ∧ s.outG = ⊥ := by
    intro s hs
    rw [he] at hs
    have := mem_slices_const hs
    exact this
  have hb : (T.setEmpty.opAssignTraj (· ⊔ ·) ev).slices.map (fun s => (s.lb, s.ub)) = T.slices.map fun s => (s.lb, s.ub) := by
    rw [opAssignTraj_slices hewf, List.map_map]
    have e1 := T.setEmpty.slices_bounds
    have e2 := T.slices_bounds
    have : (fun s : Slice K => (s.lb, s.ub)) ∘ (fun s : Slice K => (⟨s.lb, s.ub, s.cod ⊔ ev (Itv.icc s.lb s.ub), s.inG ⊔ ev (Itv.point s.lb), s.outG ⊔ ev (Itv.point s.ub)⟩ : Slice K)) =
        fun s => (s.lb, s.ub) := rfl
    rw [this, e1, e2, he]
    exact constCells_bounds ⊥ T.cells
  refine ⟨T.setEmpty.opAssignTraj (· ⊔ ·) ev, ⟨n, fun fuel hfu => ?_⟩, opAssignTraj_wf hewf, ?_, ?_, ?_, ?_, ?_⟩
  · unfold Tube.ofTraj; rw [hn fuel hfu]; rfl
  · simp only [Tube.opAssignTraj, Tube.mapWith]; rw [he]; exact h0
  · simp only [Tube.opAssignTraj, Tube.mapWith]; rw [he]; exact hf
  · intro s hs
    rw [opAssignTraj_slices hewf, List.mem_map] at hs
    obtain ⟨s0, hs0, rfl⟩ := hs
    obtain ⟨k1, k2, k3⟩ := hes s0 hs0
    simp only [k1, k2, k3, bot_sup_eq, and_self]
  · intro hst s hs
    have : (s.lb, s.ub) ∈ T.slices.map fun s => (s.lb, s.ub) := by rw [← hb]; exact List.mem_map.mpr ⟨s, hs, rfl⟩
    obtain ⟨s', hs', e⟩ := List.mem_map.mp this
    simp only [Prod.mk.injEq] at e
    rw [← e.1, ← e.2]
    exact hlen hst s' hs'
  · intro f hfe
    refine unionTraj_new hewf ?_
    rw [he]
    dsimp only
    rw [h0, hf]
    exact hfe

/-- C39: `x |= traj` keeps the trajectories of the tube and adds the trajectory; nothing but the slices of the hull is added -/
theorem C39_union {T : Tube K} (hT : T.WF) (ev : Itv K → Itv K) :
    (T.opAssignTraj (· ⊔ ·) ev).WF ∧ (∀ g, T.Encloses g → (T.opAssignTraj (· ⊔ ·) ev).Encloses g) ∧
      (∀ f, EnclosesOn ev f T.t0 T.tf → (T.opAssignTraj (· ⊔ ·) ev).Encloses f) ∧
      (T.opAssignTraj (· ⊔ ·) ev).slices = T.slices.map fun s =>
        ⟨s.lb, s.ub, s.cod ⊔ ev (Itv.icc s.lb s.ub), s.inG ⊔ ev (Itv.point s.lb), s.outG ⊔ ev (Itv.point s.ub)⟩ :=
  ⟨opAssignTraj_wf hT, fun _ hg => unionTraj_old hT hg, fun _ hf => unionTraj_new hT hf, opAssignTraj_slices hT⟩

/-- C39: the tube built from two trajectories contains both, and everything in between -/
theorem C39_from_two [Archimedean K] {t0 tf step : K} (h : t0 < tf) (hstep : 0 ≤ step) (evl evu : Itv K → Itv K) {f g : K → K} (hf : EnclosesOn evl f t0 tf)
    (hg : EnclosesOn evu g t0 tf) :
    ∃ T : Tube K, (∃ n, ∀ fuel ≥ n, Tube.ofTwoTrajs (· + ·) (tf - t0) fuel t0 tf step evl evu = some T) ∧ T.WF ∧ T.t0 = t0 ∧ T.tf = tf ∧
      T.Encloses f ∧ T.Encloses g ∧ ∀ k : K → K, (∀ t, t0 ≤ t → t ≤ tf → f t ≤ k t ∧ k t ≤ g t) → T.Encloses k := by
  obtain ⟨T, ⟨n, hn⟩, hwf, h0, h1, _, _, henc⟩ := C39_from_trajectory h hstep evl
  obtain ⟨w1, w2, w3, _⟩ := C39_union hwf evu
  have ef := w2 f (henc f hf)
  have eg := w3 g (by rw [h0, h1]; exact hg)
  refine ⟨T.opAssignTraj (· ⊔ ·) evu, ⟨n, fun fuel hfu => ?_⟩, w1, h0, h1, ef, eg, fun k hk => ?_⟩
  · have := hn fuel hfu
    unfold Tube.ofTraj at this
    rw [Option.map_eq_some_iff] at this
    obtain ⟨T', h2, h3⟩ := this
    unfold Tube.ofTwoTrajs
    rw [h2, Option.map_some, h3]
  · refine encloses_between w1 ef eg (fun t h2 h3 => (hk t ?_ ?_).1) (fun t h2 h3 => (hk t ?_ ?_).2)
    · rw [← h0]; exact h2
    · rw [← h1]; exact h3
    · rw [← h0]; exact h2
    · rw [← h1]; exact h3

/-- C39: for a trajectory defined by a map of values, the tube contains the interpolated trajectory -/
theorem C39_from_map [Archimedean K] {x : Traj K} (hx : TrajOk x) {t0 tf step : K} (hd : x.dom = Itv.icc t0 tf) (h : t0 < tf) (hstep : 0 ≤ step) :
    ∃ T : Tube K, (∃ n, ∀ fuel ≥ n, Tube.ofTraj (· + ·) (tf - t0) fuel t0 tf step x.ev = some T) ∧ T.WF ∧ T.t0 = t0 ∧ T.tf = tf ∧
      (∀ t, t0 ≤ t → t ≤ tf → ∃ v, x.evalAt t = some v ∧ v ∈ T.evalAt t) ∧ T.GatesInEnvelopes := by
  obtain ⟨T, hn, hwf, h0, h1, hs, _, henc⟩ := C39_from_trajectory h hstep x.ev
  have he := henc x.fn (Traj.fn_mem_ev hx hd.ge)
  refine ⟨T, hn, hwf, h0, h1, fun t h2 h3 => ?_, fun s hsm => ?_⟩
  · obtain ⟨v, hv⟩ := evalAt_some hx (t := t) (by rw [hd]; exact Itv.mem_icc.mpr ⟨h2, h3⟩)
    refine ⟨v, hv, ?_⟩
    have := (encloses_iff_evalAt hwf).mp he t (by rw [h0]; exact h2) (by rw [h1]; exact h3)
    unfold Traj.fn at this
    rw [hv] at this
    exact this
  · obtain ⟨k1, k2, k3⟩ := hs s hsm
    obtain ⟨b1, b2, b3⟩ := hwf.tiles.mem_bounds hsm
    rw [h0] at b1; rw [h1] at b3
    rw [k1, k2, k3, point_eq_icc, point_eq_icc]
    have hdd : Itv.icc s.lb s.ub ≤ x.dom := by
      rw [hd, icc_le_iff b2.le]
      exact ⟨Itv.mem_icc.mpr ⟨b1, b2.le.trans b3⟩, Itv.mem_icc.mpr ⟨b1.trans b2.le, b3⟩⟩
    have hm := (icc_le_iff b2.le).mp hdd
    have hI : ∀ {c : K}, c ∈ x.dom → s.lb ≤ c → c ≤ s.ub → x.ev (Itv.icc c c) ≤ x.ev (Itv.icc s.lb s.ub) := by
      intro c hc c1 c2
      obtain ⟨X, _, _, e1, _⟩ := evalItv_range hx (le_refl c) ((icc_le_iff le_rfl).mpr ⟨hc, hc⟩)
      obtain ⟨Y, _, _, e2, _⟩ := evalItv_range hx b2.le hdd
      unfold Traj.ev
      rw [e1, e2]
      exact C37_monotone hx le_rfl c1 c2 hdd e1 e2
    exact ⟨hI hm.1 le_rfl b2.le, hI hm.2 b2.le le_rfl⟩

example : (Tube.ofTraj (K := ℚ) (· + ·) 2 10 0 2 1 (Traj.ofMap [(0, 0), (1, 3), (2, -1)]).ev) =
    some ⟨0, 2, Itv.icc 0 0, [⟨0, 1, Itv.icc 0 3, Itv.icc 3 3⟩, ⟨1, 2, Itv.icc (-1) 3, Itv.icc (-1) (-1)⟩]⟩ := by decide +kernel

/-! ### C40 -/

/-- C40: `YES` means that the trajectory is in the tube at every instant, `NO` that it is outside at some instant; whatever the bisection instant chosen in each interval, the
number of bisections and the evaluation of the trajectory over intervals, as long as it encloses the trajectory -/
theorem C40_contains {ev : Itv K → Itv K} {mid : K → K → K} {eps : K} (hm : ∀ a b, a ≤ b → a ≤ mid a b ∧ mid a b ≤ b) {T : Tube K} (hT : T.WF) (hg : T.GatesInEnvelopes)
    {f : K → K} (hev : EnclosesOn ev f T.t0 T.tf) {n : Nat} {r : Answer} (h : T.contains ev mid eps n = some r) :
    (r = .yes → ∀ t, T.t0 ≤ t → t ≤ T.tf → f t ∈ T.evalAt t) ∧ (r = .no → ∃ t, T.t0 ≤ t ∧ t ≤ T.tf ∧ f t ∉ T.evalAt t) := by
  constructor
  · rintro rfl
    exact (encloses_iff_evalAt hT).mp (contains_yes hm hT hev h)
  · rintro rfl
    exact contains_no hm hT hg hev h

/-- C40 (partial): with an exact computation of the bisection instant the test ends, for every tube and every evaluation. Missing: termination with machine numbers, which
fails, see `C40_machine_bisection_fails`. -/
theorem C40_terminates_partial [Archimedean K] (ev : Itv K → Itv K) {eps : K} (heps : 0 < eps) (T : Tube K) :
    ∃ n r, ∀ m ≥ n, T.contains ev (fun a b => a + (b - a) / 2) eps m = some r := containsSlices_ends ev heps T.slices .yes

/-- the bisection instant rounded to the grid of step `1/4`, the numbers below `4` of a machine with four significant bits -/
def gridMid (a b : ℚ) : ℚ := ⌊(a + (b - a) / 2) * 4⌋ / 4

/-- the trajectory going down from 0 to -1 and up again -/
def dipTraj : Traj ℚ := Traj.ofMap [(0, 0), (1, -1), (2, 0)]

/-- a tube of one slice, left by the trajectory between the gates -/
def dipTube : Tube ℚ := ⟨0, 2, Itv.icc (-3 / 5) 1, [⟨0, 2, Itv.icc (-3 / 5) 1, Itv.icc (-3 / 5) 1⟩]⟩

/-- C40 fails to end with machine numbers: when the bisection instant is rounded, an interval between two consecutive numbers is bisected into itself; its width is
not below `EPSILON_CONTAINS` (the smallest positive number, times 1000), and a trajectory leaving the slice between these two numbers gives an endless loop -/
theorem C40_machine_bisection_fails :
    (∀ a b : ℚ, a ≤ b → (∃ k : ℤ, a = k / 4) → a ≤ gridMid a b ∧ gridMid a b ≤ b) ∧ dipTube.WF ∧ dipTube.GatesInEnvelopes ∧ TrajOk dipTraj ∧ (0 : ℚ) < 1 / 10 ∧
      dipTraj.evalAt 1 = some (-1) ∧ (-1 : ℚ) ∉ dipTube.evalAt 1 ∧ ∀ n, dipTube.contains dipTraj.ev gridMid (1 / 10) n = none := by
  refine ⟨?_, ⟨by decide +kernel, by unfold dipTube Tiles; norm_num [Tiles]⟩, by unfold Tube.GatesInEnvelopes; decide +kernel, trajOk_ofMap (by decide +kernel), by norm_num,
    by decide +kernel, by decide +kernel, ?_⟩
  · rintro a b hab ⟨k, rfl⟩
    unfold gridMid
    constructor
    · have : (k : ℤ) ≤ ⌊((k : ℚ) / 4 + (b - k / 4) / 2) * 4⌋ := by
        rw [Int.le_floor]; linarith
      have : (k : ℚ) ≤ (⌊((k : ℚ) / 4 + (b - k / 4) / 2) * 4⌋ : ℚ) := by exact_mod_cast this
      linarith
    · have := Int.floor_le (((k : ℚ) / 4 + (b - k / 4) / 2) * 4)
      linarith
  · intro n
    have hs : dipTube.slices = [⟨0, 2, Itv.icc (-3 / 5) 1, Itv.icc (-3 / 5) 1, Itv.icc (-3 / 5) 1⟩] := rfl
    unfold Tube.contains
    rw [hs]
    unfold containsSlices
    have hc : Slice.contains dipTraj.ev gridMid (1 / 10) n (⟨0, 2, Itv.icc (-3 / 5) 1, Itv.icc (-3 / 5) 1, Itv.icc (-3 / 5) 1⟩ : Slice ℚ) = none := by
      unfold Slice.contains
      rw [if_neg (by decide +kernel), if_neg (by decide +kernel), if_neg (by decide +kernel)]
      have hstuck : ∀ (n : Nat) (l : List (ℚ × ℚ)), containsLoop dipTraj.ev gridMid (1 / 10) (Itv.icc (-3 / 5) 1) n ((5 / 4, 3 / 2) :: l) = none := by
        refine containsLoop_stuck (by decide +kernel) (by decide +kernel) (by decide +kernel) (.inl ?_)
        decide +kernel
      have e0 : gridMid 0 2 = 1 := by decide +kernel
      have e1 : gridMid 1 2 = 3 / 2 := by decide +kernel
      have e2 : gridMid 1 (3 / 2) = 5 / 4 := by decide +kernel
      cases n with
      | zero => rfl
      | succ n =>
        rw [containsLoop, if_neg (by decide +kernel), if_neg (by decide +kernel), if_neg (by decide +kernel), e0]
        cases n with
        | zero => rfl
        | succ n =>
          rw [containsLoop, if_neg (by decide +kernel), if_neg (by decide +kernel), if_neg (by decide +kernel), e1]
          cases n with
          | zero => rfl
          | succ n =>
            rw [containsLoop, if_neg (by decide +kernel), if_pos (by decide +kernel)]
            cases n with
            | zero => rfl
            | succ n =>
              rw [containsLoop, if_neg (by decide +kernel), if_neg (by decide +kernel), if_neg (by decide +kernel), e2]
              exact hstuck n _
    rw [hc]

example : (dipTube.contains dipTraj.ev (fun a b => a + (b - a) / 2) (1 / 10) 30) = some .maybe := by decide +kernel
example : (dipTube.contains (Traj.ofMap [((0 : ℚ), (0 : ℚ)), (1, -1 / 2), (2, 0)]).ev (fun a b => a + (b - a) / 2) (1 / 10) 30) = some .yes := by decide +kernel

/-! ### C53 -/

/-- C53: the primitive of a sampled trajectory has the same instants, starts from the constant, and is at every sampled instant the exact integral of the interpolated
trajectory -/
theorem C53_primitive {x : Traj ℝ} (hx : TrajOk x) (c : ℝ) {p0 : ℝ × ℝ} (h0 : x.pts.head? = some p0) :
    (x.primitive c).pts.map Prod.fst = x.pts.map Prod.fst ∧ (x.primitive c).dom = x.dom ∧
      ∀ p ∈ x.pts, (x.primitive c).evalAt p.1 = some (c + ∫ s in p0.1..p.1, (x.evalAt s).getD 0) := by
  obtain ⟨_, h2, h3⟩ := primitive_ok hx c
  exact ⟨by rw [h2, primitiveLoop_keys], h3, fun p hp => primitive_integral hx c h0 hp⟩

example : ((Traj.ofMap [((0 : ℚ), (2 : ℚ)), (1, 4), (3, 0)]).primitive 1).pts = [(0, 1), (1, 4), (3, 8)] := by decide +kernel

/-! ### C54 -/

/-- C54: for samples at constant time steps, the derivative is exact at every sampled instant for every polynomial of degree at most two, and of degree at most four when
there are at least nine samples -/
theorem C54_constant_step {x : Traj K} (hx : TrajOk x) (hlen : 3 ≤ x.pts.length) {h : K}
    (hstep : ∀ i : Nat, ∀ p q : K × K, x.pts[i]? = some p → x.pts[i + 1]? = some q → q.1 = p.1 + h) (fuel : Nat) :
    (∀ a b c : K, (∀ p ∈ x.pts, p.2 = a + b * p.1 + c * p.1 ^ 2) →
      ∃ d, x.diff fuel = some d ∧ d.dom = x.dom ∧ ∀ p ∈ x.pts, d.evalAt p.1 = some (b + 2 * c * p.1)) ∧
    (9 ≤ x.pts.length → ∀ a b c d e : K, (∀ p ∈ x.pts, p.2 = a + b * p.1 + c * p.1 ^ 2 + d * p.1 ^ 3 + e * p.1 ^ 4) →
      ∃ y, x.diff fuel = some y ∧ y.dom = x.dom ∧ ∀ p ∈ x.pts, y.evalAt p.1 = some (b + 2 * c * p.1 + 3 * d * p.1 ^ 2 + 4 * e * p.1 ^ 3)) := by
  have hc : stepConst (Traj.firstStep x.pts) x.pts = true := by
    have key : ∀ (l : List (K × K)), (∀ i : Nat, ∀ p q : K × K, l[i]? = some p → l[i + 1]? = some q → q.1 = p.1 + h) → stepConst h l = true := by
      intro l
      induction l with
      | nil => intro _; rfl
      | cons p l ih =>
        intro hl
        cases l with
        | nil => rfl
        | cons q l =>
          rw [stepConst, Bool.and_eq_true, decide_eq_true_iff]
          exact ⟨(hl 0 p q rfl rfl).symm, ih fun i a b ha hb => hl (i + 1) a b ha hb⟩
    have hf : Traj.firstStep x.pts = h := by
      cases hl : x.pts with
      | nil => rw [hl] at hlen; simp at hlen
      | cons p l =>
        cases l with
        | nil => rw [hl] at hlen; simp at hlen
        | cons q l =>
          have := hstep 0 p q (by rw [hl]; rfl) (by rw [hl]; rfl)
          rw [Traj.firstStep, this]; ring
    rw [hf]
    exact key _ hstep
  constructor
  · intro a b c hv
    obtain ⟨d, h1, _, h2, h3⟩ := diff_exact (f := fun t => a + b * t + c * t ^ 2) (f' := fun t => b + 2 * c * t) hx hlen hc hv
      (fun i n hin => diffExact_quad a b c (by omega)) fuel
    exact ⟨d, h1, h2, h3⟩
  · intro h9 a b c d e hv
    obtain ⟨y, h1, _, h2, h3⟩ := diff_exact (f := fun t => a + b * t + c * t ^ 2 + d * t ^ 3 + e * t ^ 4) (f' := fun t => b + 2 * c * t + 3 * d * t ^ 2 + 4 * e * t ^ 3) hx hlen hc hv
      (fun i n hin => diffExact_quartic a b c d e (by omega)) fuel
    exact ⟨y, h1, h2, h3⟩

/-- C54 fails for a non-constant time step: the trajectory is resampled with its first step instead of the mean step, beyond the end of its temporal domain, and even the
derivative of `t ↦ t` is wrong -/
theorem C54_variable_step_fails : ∃ x : Traj ℚ, TrajOk x ∧ (∀ p ∈ x.pts, p.2 = p.1) ∧ (x.diff 10).map (fun d => d.evalAt 1) = some (some (3 / 4)) :=
  ⟨Traj.ofMap [(0, 0), (1, 1), (3 / 2, 3 / 2)], trajOk_ofMap (by decide +kernel), by decide +kernel, by decide +kernel⟩

example : ((Traj.ofMap [((0 : ℚ), (0 : ℚ)), (1, 1), (2, 4), (3, 9)]).diff 0).map Traj.pts = some [(0, 0), (1, 2), (2, 4), (3, 6)] := by decide +kernel

/-! ### C55 -/

/-- C55: `x1 + x2`, `x1 - x2`, `x1 * x2`, `x1 / x2` on trajectories with the same temporal domain are always defined; at every instant of either trajectory the value is the
operation on both values -/
theorem C55_binary {x1 x2 : Traj K} (h1 : TrajOk x1) (h2 : TrajOk x2) (hd : x1.dom = x2.dom) (f : K → K → K) :
    ∃ y, x1.binArith f x2 = some y ∧ TrajOk y ∧ y.dom = x1.dom ∧
      ∀ k, (k ∈ x1.pts.map Prod.fst ∨ k ∈ x2.pts.map Prod.fst) → ∃ a b, x1.evalAt k = some a ∧ x2.evalAt k = some b ∧ y.evalAt k = some (f a b) := by
  obtain ⟨y, e1, e2, e3, e4, e5⟩ := binArith_spec h1 h2 hd f
  exact ⟨y, e1, e2, e3, fun k hk => e5 k ((e4 k).mpr hk)⟩

/-- C55: for `+` and `-` the value is right at every instant of the temporal domain -/
theorem C55_sum_everywhere {x1 x2 : Traj K} (h1 : TrajOk x1) (h2 : TrajOk x2) (hd : x1.dom = x2.dom) :
    (∃ y, x1.binArith (· + ·) x2 = some y ∧ ∀ t u v, x1.evalAt t = some u → x2.evalAt t = some v → y.evalAt t = some (u + v)) ∧
    ∃ y, x1.binArith (· - ·) x2 = some y ∧ ∀ t u v, x1.evalAt t = some u → x2.evalAt t = some v → y.evalAt t = some (u - v) := by
  have e1 : (fun u v : K => u + v) = fun u v => 1 * u + 1 * v := by funext u v; ring
  have e2 : (fun u v : K => u - v) = fun u v => 1 * u + (-1) * v := by funext u v; ring
  obtain ⟨y, hy, _⟩ := binArith_spec h1 h2 hd (fun u v : K => u + v)
  obtain ⟨z, hz, _⟩ := binArith_spec h1 h2 hd (fun u v : K => u - v)
  refine ⟨⟨y, hy, fun t u v hu hv => ?_⟩, ⟨z, hz, fun t u v hu hv => ?_⟩⟩
  · rw [e1] at hy
    rw [binArith_linear h1 h2 hd 1 1 hy t u v hu hv]; congr 1; ring
  · rw [e2] at hz
    rw [binArith_linear h1 h2 hd 1 (-1) hz t u v hu hv]; congr 1; ring

/-- C55: `x += y` and the like on trajectories defined by maps -/
theorem C55_assign {x y : Traj K} (hx : TrajOk x) (hy : TrajOk y) (hd : y.dom = x.dom) (f : K → K → K) :
    ∃ z, x.opAssignTraj f y = some z ∧ TrajOk z ∧ z.dom = x.dom ∧
      ∀ k, (k ∈ x.pts.map Prod.fst ∨ k ∈ y.pts.map Prod.fst) → ∃ a b, x.evalAt k = some a ∧ y.evalAt k = some b ∧ z.evalAt k = some (f a b) := by
  obtain ⟨z, e1, e2, e3, e4, e5⟩ := opAssignTraj_spec hx hy hd f
  exact ⟨z, e1, e2, e3, fun k hk => e5 k ((e4 k).mpr hk)⟩

/-- C55: unary functions and operations with a number -/
theorem C55_unary {x : Traj K} (h : TrajOk x) (f : K → K) :
    TrajOk (x.mapVal f) ∧ (x.mapVal f).dom = x.dom ∧ ∀ p ∈ x.pts, (x.mapVal f).evalAt p.1 = some (f p.2) := mapVal_spec h f

/-- C55 (partial): `min`, `max`, `atan2` of two trajectories with the same instants. Missing: trajectories with different instants, see `C55_min_max_fails`. -/
theorem C55_min_max_partial {x1 x2 : Traj K} (h1 : TrajOk x1) (h2 : TrajOk x2) (hd : x1.dom = x2.dom) (hk : x1.pts.map Prod.fst = x2.pts.map Prod.fst) (f : K → K → K) :
    ∃ y, x1.binFun f x2 = some y ∧ TrajOk y ∧ y.dom = x1.dom ∧
      (∀ k, k ∈ x1.pts.map Prod.fst → ∃ a b, x1.evalAt k = some a ∧ x2.evalAt k = some b ∧ y.evalAt k = some (f a b)) := binFun_spec h1 h2 hd hk f

/-- C55 fails for `min`, `max`, `atan2` of trajectories with different instants: the values are paired by rank and not by time, and with more points in the first
trajectory the loop runs past the end of the second map -/
theorem C55_min_max_fails :
    (∃ x1 x2 : Traj ℚ, TrajOk x1 ∧ TrajOk x2 ∧ x1.dom = x2.dom ∧ x1.evalAt 1 = some 10 ∧ x2.evalAt 1 = some 8 ∧
      (x1.binFun min x2).map (fun y => y.evalAt 1) = some (some 10)) ∧
    ∃ x1 x2 : Traj ℚ, TrajOk x1 ∧ TrajOk x2 ∧ x1.dom = x2.dom ∧ x1.binFun min x2 = none :=
  ⟨⟨Traj.ofMap [(0, 0), (1, 10), (2, 0)], Traj.ofMap [(0, 0), (3 / 2, 12), (2, 0)], trajOk_ofMap (by decide +kernel), trajOk_ofMap (by decide +kernel), by decide +kernel,
      by decide +kernel, by decide +kernel, by decide +kernel⟩,
    ⟨Traj.ofMap [(0, 0), (1, 10), (2, 0)], Traj.ofMap [(0, 0), (2, 0)], trajOk_ofMap (by decide +kernel), trajOk_ofMap (by decide +kernel), by decide +kernel, by decide +kernel⟩⟩

/-- C55 fails for `x += y` and the like when `x` is defined by a function and `y` by a map: `x` keeps its values, whatever the operation -/
theorem C55_assign_analytic_fails : ∃ (x : AnyTraj ℚ) (y : Traj ℚ), TrajOk y ∧ x.traj.dom = y.dom ∧ y.evalAt 1 = some 7 ∧
    ∀ (f : ℚ → ℚ → ℚ) (cod : Itv ℚ), ∃ z, x.opAssignTraj f cod y = some z ∧ z.evalAt 1 = some 1 := by
  refine ⟨⟨some id, ⟨[], Itv.icc 0 2, Itv.icc 0 2⟩⟩, Traj.ofMap [(0, 7), (2, 7)], trajOk_ofMap (by decide +kernel), by decide +kernel, by decide +kernel, fun f cod => ?_⟩
  have hy : (Traj.ofMap [((0 : ℚ), (7 : ℚ)), (2, 7)]).pts = [(0, 7), (2, 7)] := ofMap_pts _
  have hd : (Itv.icc 0 2 : Itv ℚ) = (Traj.ofMap [((0 : ℚ), (7 : ℚ)), (2, 7)]).dom := by decide +kernel
  have h0 : Itv.point (0 : ℚ) ≤ Itv.icc 0 2 := by decide +kernel
  have h2 : Itv.point (2 : ℚ) ≤ Itv.icc 0 2 := by decide +kernel
  refine ⟨⟨some id, ⟨[(0, f 0 7), (2, f 2 7)], Itv.icc 0 2, cod⟩⟩, ?_, ?_⟩
  · unfold AnyTraj.opAssignTraj
    rw [if_pos hd, hy]
    simp [AnyTraj.evalAt, h0, h2]
  · unfold AnyTraj.evalAt
    have h1 : Itv.point (1 : ℚ) ≤ Itv.icc 0 2 := by decide +kernel
    simp [h1]

example : (Traj.binArith (· + ·) (Traj.ofMap [((0 : ℚ), (0 : ℚ)), (2, 2)]) (Traj.ofMap [(0, 0), (1, 5), (2, 0)])).map Traj.pts = some [(0, 0), (1, 6), (2, 2)] := by decide +kernel

end Codac.Props
