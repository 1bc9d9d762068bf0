import Verif.Tube.TrajOps
import Verif.Tube.Fold
import Verif.Props.TubeVec

/-!
# C143: tubes combined with trajectories

The specification is in terms of functions of time: `T.Encloses f` reads "`f` is in the tube", and `x.fn` is the function of a trajectory `x` (its values, interpolated).
-/

namespace Codac.Props
open Codac

variable {K : Type*} [Field K] [LinearOrder K] [IsStrictOrderedRing K]

theorem withTraj_of {φ : Itv K → Itv K → Itv K} {T : Tube K} (hT : T.WF) {x : Traj K} (hx : TrajOk x) (hd : T.sameDomain x) {f k : K → K}
    (hφ : ∀ t, T.t0 ≤ t → t ≤ T.tf → ∀ A B, f t ∈ A → x.fn t ∈ B → k t ∈ φ A B) (hf : T.Encloses f) :
    ∃ R, T.withTraj φ x = some R ∧ R.Encloses k ∧ R.WF ∧ R.t0 = T.t0 ∧ R.tf = T.tf :=
  ⟨_, if_pos hd, opTraj_dom hT hx hd hφ hf, mapWith_wf _ _ hT, rfl, rfl⟩

/-- **C143**: the sum, the difference and the product of a tube and a trajectory on the same temporal domain, in both orders, are defined, on this temporal domain, and
contain the result of the operation on each function of the tube -/
theorem C143_ring (A : IArith K) {neg : Itv K → Itv K} (hneg : ∀ X x, x ∈ X → -x ∈ neg X) {T : Tube K} (hT : T.WF) {x : Traj K} (hx : TrajOk x) (hd : x.dom = Itv.icc T.t0 T.tf)
    {f : K → K} (hf : T.Encloses f) :
    (∃ R, T.withTraj A.add x = some R ∧ R.Encloses (fun t => f t + x.fn t) ∧ R.WF ∧ R.t0 = T.t0 ∧ R.tf = T.tf) ∧
    (∃ R, Tube.trajWith A.add x T = some R ∧ R.Encloses (fun t => x.fn t + f t) ∧ R.WF ∧ R.t0 = T.t0 ∧ R.tf = T.tf) ∧
    (∃ R, T.withTraj A.sub x = some R ∧ R.Encloses (fun t => f t - x.fn t) ∧ R.WF ∧ R.t0 = T.t0 ∧ R.tf = T.tf) ∧
    (∃ R, Tube.trajSub A neg x T = some R ∧ R.Encloses (fun t => x.fn t - f t) ∧ R.WF ∧ R.t0 = T.t0 ∧ R.tf = T.tf) ∧
    (∃ R, T.withTraj A.mul x = some R ∧ R.Encloses (fun t => f t * x.fn t) ∧ R.WF ∧ R.t0 = T.t0 ∧ R.tf = T.tf) ∧
    (∃ R, Tube.trajWith A.mul x T = some R ∧ R.Encloses (fun t => x.fn t * f t) ∧ R.WF ∧ R.t0 = T.t0 ∧ R.tf = T.tf) := by
  refine ⟨withTraj_of hT hx hd (fun t _ _ _ _ h1 h2 => A.add_mem h1 h2) hf, withTraj_of hT hx hd (fun t _ _ _ _ h1 h2 => ?_) hf,
    withTraj_of hT hx hd (fun t _ _ _ _ h1 h2 => A.sub_mem h1 h2) hf, ?_,
    withTraj_of hT hx hd (fun t _ _ _ _ h1 h2 => A.mul_mem h1 h2) hf, withTraj_of hT hx hd (fun t _ _ _ _ h1 h2 => ?_) hf⟩
  · rw [add_comm]; exact A.add_mem h1 h2
  · have hn : (T.map neg).Encloses (fun t => -f t) ∧ (T.map neg).WF :=
      ⟨mapWith_encloses hT (fun s _ t _ _ h => hneg _ _ h) (fun t X _ _ h => hneg _ _ h) hf, mapWith_wf _ _ hT⟩
    refine ⟨_, if_pos hd, ?_, mapWith_wf _ _ hn.2, rfl, rfl⟩
    refine opTraj_dom hn.2 hx hd (fun t _ _ B C h1 h2 => ?_) hn.1
    rw [sub_eq_neg_add]
    exact A.add_mem h1 h2
  · rw [mul_comm]; exact A.mul_mem h1 h2

/-- **C143**: the quotient of a tube by a trajectory that does not vanish, and of a trajectory by a tube, contain the quotients of the values -/
theorem C143_quotient (A : IArith K) {div : Itv K → Itv K → Itv K} (hdiv : ∀ X Y x y, x ∈ X → y ∈ Y → y ≠ 0 → x / y ∈ div X Y) {T : Tube K} (hT : T.WF)
    (hg : T.GatesInEnvelopes) {x : Traj K} (hx : TrajOk x) (hd : x.dom = Itv.icc T.t0 T.tf) {f : K → K} (hf : T.Encloses f) :
    ((∀ t, T.t0 ≤ t → t ≤ T.tf → x.fn t ≠ 0) →
      ∃ R, T.withTraj div x = some R ∧ R.Encloses (fun t => f t / x.fn t) ∧ R.WF ∧ R.t0 = T.t0 ∧ R.tf = T.tf) ∧
    ((∀ t, T.t0 ≤ t → t ≤ T.tf → f t ≠ 0) →
      ∃ R, Tube.trajDiv A div x T = some R ∧ R.Encloses (fun t => x.fn t / f t) ∧ R.WF ∧ R.t0 = T.t0 ∧ R.tf = T.tf) := by
  refine ⟨fun h0 => withTraj_of hT hx hd (fun t h1 h2 _ _ h3 h4 => hdiv _ _ _ _ h3 h4 (h0 t h1 h2)) hf, fun h0 => ?_⟩
  obtain ⟨s1, s2, s3, s4⟩ := set_tube hT (Itv.point (1 : K)) (f := fun _ => 1) (fun _ => Itv.mem_point.mpr rfl)
  have hf' : T.Encloses (fun t => if T.t0 ≤ t ∧ t ≤ T.tf then f t else 1) :=
    hf.congr_dom hT fun t h1 h2 => by rw [if_pos ⟨h1, h2⟩]
  have hq : ((T.set (Itv.point 1)).opAssign div T).Encloses (fun t => 1 / if T.t0 ≤ t ∧ t ≤ T.tf then f t else 1) := by
    refine opAssign_encloses s1 hT hg (fun t B C h1 h2 => hdiv _ _ _ _ h1 h2 ?_) s4 hf'
    split_ifs with h
    · exact h0 t h.1 h.2
    · exact one_ne_zero
  have hw : ((T.set (Itv.point 1)).opAssign div T).WF := opAssign_wf s1
  have e0 : ((T.set (Itv.point 1)).opAssign div T).t0 = T.t0 := by unfold Tube.opAssign; split_ifs <;> exact s2
  have ef : ((T.set (Itv.point 1)).opAssign div T).tf = T.tf := by unfold Tube.opAssign; split_ifs <;> exact s3
  refine ⟨_, if_pos hd, ?_, mapWith_wf _ _ hw, e0, ef⟩
  refine opTraj_dom hw hx (by unfold Tube.sameDomain; rw [e0, ef]; exact hd) (fun t h1 h2 B C h3 h4 => ?_) hq
  rw [e0] at h1
  rw [ef] at h2
  rw [if_pos ⟨h1, h2⟩] at h3
  rw [div_eq_mul_one_div, mul_comm]
  exact A.mul_mem h3 h4

/-- **C143**: the union of a tube and a trajectory contains the functions of the tube and the trajectory; the intersection contains the trajectory when it is in the tube -/
theorem C143_sets {T : Tube K} (hT : T.WF) {x : Traj K} (hx : TrajOk x) (hd : x.dom = Itv.icc T.t0 T.tf) :
    ∃ U I, T.withTraj (· ⊔ ·) x = some U ∧ Tube.trajWith (· ⊔ ·) x T = some U ∧ T.withTraj (· ⊓ ·) x = some I ∧ Tube.trajWith (· ⊓ ·) x T = some I ∧
      (∀ f, T.Encloses f → U.Encloses f) ∧ ((∃ f, T.Encloses f) → U.Encloses x.fn) ∧ (T.Encloses x.fn → I.Encloses x.fn) ∧ ∀ f, I.Encloses f → T.Encloses f := by
  refine ⟨_, _, if_pos hd, if_pos hd, if_pos hd, if_pos hd, fun f hf => ?_, fun ⟨f, hf⟩ => ?_, fun hf => ?_, fun f hf => ?_⟩
  · exact opTraj_dom hT hx hd (fun t _ _ A B h1 h2 => Itv.mem_sup_left h1) hf
  · exact opTraj_dom hT hx hd (fun t _ _ A B h1 h2 => Itv.mem_sup_right h2) hf
  · exact opTraj_dom hT hx hd (fun t _ _ A B h1 h2 => Itv.mem_inf.mpr ⟨h1, h2⟩) hf
  · intro s hs
    have h := hf _ (by rw [opAssignTraj_slices hT]; exact List.mem_map_of_mem hs)
    exact ⟨(Itv.mem_inf.mp h.1).1, (Itv.mem_inf.mp h.2.1).1, fun t h1 h2 => (Itv.mem_inf.mp (h.2.2 t h1 h2)).1⟩

/-- **C143**: `x.inflate(rad)` with a non-negative trajectory contains every function that stays within `rad(t)` of a function of the tube -/
theorem C143_inflate (A : IArith K) {T : Tube K} (hT : T.WF) {rad : Traj K} (hr : TrajOk rad) (hd : rad.dom = Itv.icc T.t0 T.tf) (h0 : ∀ v ∈ rad.cod, 0 ≤ v) :
    ∃ R, T.inflateTraj A rad = some R ∧ R.WF ∧ R.t0 = T.t0 ∧ R.tf = T.tf ∧
      ∀ f k : K → K, T.Encloses f → (∀ t, T.t0 ≤ t → t ≤ T.tf → |k t - f t| ≤ rad.fn t) → R.Encloses k := by
  have hc : rad.cod ≤ .mk (some 0) none trivial := by
    rw [Itv.le_iff]
    intro v hv
    exact Itv.mem_mk.mpr ⟨h0 v hv, trivial⟩
  have hev := Traj.fn_mem_ev hr (le_of_eq hd.symm)
  have key : ∀ (f k : K → K) t (X B : Itv K), |k t - f t| ≤ rad.fn t → f t ∈ X → rad.fn t ∈ B → k t ∈ A.add X (A.mul (Itv.icc (-1) 1) B) := by
    intro f k t X B h1 h2 h3
    have h4 : k t = f t + (k t - f t) := by ring
    rw [h4]
    refine A.add_mem h2 ?_
    rcases ((abs_nonneg _).trans h1).eq_or_lt with e | hp
    · have : k t - f t = 0 := abs_nonpos_iff.mp (by rw [← e] at h1; exact h1)
      rw [this]
      have := A.mul_mem (x := (0 : K)) (y := rad.fn t) (Itv.mem_icc.mpr ⟨by norm_num, by norm_num⟩ : (0 : K) ∈ Itv.icc (-1) 1) h3
      rwa [zero_mul] at this
    · have := A.mul_mem (x := (k t - f t) / rad.fn t) (y := rad.fn t) (X := Itv.icc (-1) 1) (by
        rw [Itv.mem_icc, le_div_iff₀ hp, div_le_iff₀ hp]
        have := abs_le.mp h1
        constructor <;> linarith) h3
      rwa [div_mul_cancel₀ _ hp.ne'] at this
  refine ⟨_, if_pos ⟨hc, hd⟩, mapWith_wf _ _ hT, rfl, rfl, fun f k hf hk => ?_⟩
  refine mapWith_encloses hT ?_ ?_ hf
  · intro s hs t h1 h2 h3
    have hb := hT.tiles.mem_bounds hs
    exact key f k t _ _ (hk t (hb.1.trans h1.le) (h2.le.trans hb.2.2)) h3 (hev _ _ hb.1 hb.2.1.le hb.2.2 t h1.le h2.le)
  · intro t X h3 h4 h1
    exact key f k t _ _ (hk t h3 h4) h1 (Itv.mem_point.mpr rfl)

/-- **C143**: it adds no more than that, with an exact arithmetic: at a gate, the values of the inflated tube are within `rad` at this instant of a value of the gate; inside a
slice, they are within `rad` at some instant of the slice of a value of the envelope -/
theorem C143_inflate_tight {T : Tube K} (hT : T.WF) {rad : Traj K} (hr : TrajOk rad) (hd : rad.dom = Itv.icc T.t0 T.tf) (h0 : ∀ v ∈ rad.cod, 0 ≤ v)
    {R : Tube K} (hR : T.inflateTraj (IArith.exact K) rad = some R) {k : K → K} (hk : R.Encloses k) :
    ∀ s ∈ T.slices, (∃ v ∈ s.inG, |k s.lb - v| ≤ rad.fn s.lb) ∧ (∃ v ∈ s.outG, |k s.ub - v| ≤ rad.fn s.ub) ∧
      ∀ t, s.lb < t → t < s.ub → ∃ v ∈ s.cod, ∃ u, s.lb ≤ u ∧ u ≤ s.ub ∧ |k t - v| ≤ rad.fn u := by
  intro s hs
  unfold Tube.inflateTraj at hR
  split_ifs at hR with hc
  rw [Option.some.injEq] at hR
  subst hR
  have hb := hT.tiles.mem_bounds hs
  have hnn : ∀ t v, rad.evalAt t = some v → 0 ≤ v := fun t v hv => h0 v (evalAt_mem_cod hr hv)
  have hfn : ∀ t, 0 ≤ rad.fn t := by
    intro t
    unfold Traj.fn
    cases h : rad.evalAt t with
    | none => exact le_rfl
    | some v => exact hnn t v h
  have h := hk _ (by rw [mapWith_slices _ _ hT]; exact List.mem_map_of_mem hs)
  have gate : ∀ (X : Itv K) (t z : K), z ∈ (IArith.exact K).add X ((IArith.exact K).mul (Itv.icc (-1) 1) (Itv.point (rad.fn t))) → ∃ v ∈ X, |z - v| ≤ rad.fn t := by
    intro X t z hz
    rw [point_eq_icc] at hz
    change z ∈ Itv.add X (Itv.mul _ _) at hz
    rw [mul_ball (hfn t) le_rfl] at hz
    exact mem_add_ball (hfn t) hz
  refine ⟨gate _ _ _ h.1, gate _ _ _ h.2.1, fun t h1 h2 => ?_⟩
  have hz := h.2.2 t h1 h2
  have hdom : Itv.icc s.lb s.ub ≤ rad.dom := by
    rw [hd, icc_le_iff hb.2.1.le, Itv.mem_icc, Itv.mem_icc]
    exact ⟨⟨hb.1, hb.2.1.le.trans hb.2.2⟩, ⟨hb.1.trans hb.2.1.le, hb.2.2⟩⟩
  obtain ⟨X, m, M, e1, e2, e3, ⟨tm, m1, m2, m3⟩, tM, M1, M2, M3⟩ := evalItv_range hr hb.2.1.le hdom
  have hmM : m ≤ M := by
    have := e3 _ _ m1 m2 m3
    rw [e2, Itv.mem_icc] at this
    exact this.2
  have e : rad.ev (Itv.icc s.lb s.ub) = Itv.icc m M := by unfold Traj.ev; rw [e1, e2]; rfl
  change k t ∈ Itv.add _ (Itv.mul _ (rad.ev (Itv.icc s.lb s.ub))) at hz
  rw [e, mul_ball (hnn _ _ m3) hmM] at hz
  obtain ⟨v, v1, v2⟩ := mem_add_ball (hnn _ _ M3) hz
  exact ⟨v, v1, tM, M1, M2, by unfold Traj.fn; rw [M3]; exact v2⟩

/-! ### The hypotheses are met -/

/-- a radius that grows from 0 to 4 -/
def growRad : Traj ℚ := Traj.ofMap [(0, 0), (2, 2), (4, 4)]

theorem growRad_ok : TrajOk growRad ∧ growRad.dom = Itv.icc Ex.T.t0 Ex.T.tf ∧ ∀ v ∈ growRad.cod, 0 ≤ v := by
  refine ⟨trajOk_ofMap (by decide +kernel), by decide +kernel, ?_⟩
  intro v hv
  have : growRad.cod = Itv.icc 0 4 := by decide +kernel
  rw [this, Itv.mem_icc] at hv
  exact hv.1

/-- the tube of the examples, inflated: the last gate `[4,5]` becomes `[0,9]` -/
example : ∃ R, Ex.T.inflateTraj (IArith.exact ℚ) growRad = some R ∧ R.Encloses (fun t => 2 * t) ∧ R.Encloses (fun _ => 0) := by
  obtain ⟨R, h, -, -, -, hk⟩ := C143_inflate (IArith.exact ℚ) Ex.T_wf growRad_ok.1 growRad_ok.2.1 growRad_ok.2.2
  have hfn : ∀ t, Ex.T.t0 ≤ t → t ≤ Ex.T.tf → growRad.fn t = t := by
    intro t h1 h2
    have hd : t ∈ growRad.dom := by rw [growRad_ok.2.1, Itv.mem_icc]; exact ⟨h1, h2⟩
    obtain ⟨w, hw⟩ := evalAt_some growRad_ok.1 hd
    unfold Traj.fn
    rw [hw]
    have hi := (evalAt_iff growRad_ok.1).mp hw
    have hp : growRad.pts = [(0, 0), (2, 2), (4, 4)] := by decide +kernel
    rw [hp] at hi
    rcases hi with hi | hi
    · simp at hi; simp; rcases hi with ⟨a, b⟩ | ⟨a, b⟩ | ⟨a, b⟩ <;> rw [a, b]
    · obtain ⟨l1, p, q, l2, e, h3, h4, h5⟩ := hi
      have : p.1 = p.2 ∧ q.1 = q.2 := by
        have hp : p ∈ [((0 : ℚ), (0 : ℚ)), (2, 2), (4, 4)] := by rw [e]; simp
        have hq : q ∈ [((0 : ℚ), (0 : ℚ)), (2, 2), (4, 4)] := by rw [e]; simp
        simp at hp hq
        refine ⟨?_, ?_⟩
        · rcases hp with rfl | rfl | rfl <;> rfl
        · rcases hq with rfl | rfl | rfl <;> rfl
      rw [← this.1, ← this.2] at h5
      have hne : q.1 - p.1 ≠ 0 := by linarith
      show w = t
      apply mul_right_cancel₀ hne
      linarith
  refine ⟨R, h, hk _ _ Ex.T_encl fun t h1 h2 => ?_, hk _ _ Ex.T_encl fun t h1 h2 => ?_⟩
  · rw [hfn t h1 h2]
    have : (0 : ℚ) ≤ t := h1
    rw [abs_le]; constructor <;> linarith
  · rw [hfn t h1 h2]
    have : (0 : ℚ) ≤ t := h1
    rw [abs_le]; constructor <;> linarith

example : (Ex.T.inflateTraj (IArith.exact ℚ) growRad).map (fun R => R.evalAt 4) = some (Itv.icc 0 9) := by decide +kernel

/-- the difference of the radius and the tube: at the end `4 - [4,5]` -/
example : (Tube.trajSub (IArith.exact ℚ) Itv.neg growRad Ex.T).map (fun R => R.evalAt 4) = some (Itv.icc (-1) 0) := by decide +kernel

/-- a division that meets the hypothesis of `C143_quotient`: exact for a positive divisor -/
def posDiv (X Y : Itv ℚ) : Itv ℚ :=
  match Y with
  | .empty => ⊥
  | .mk (some c) (some d) _ => if 0 < c then Itv.mul X (Itv.icc (1 / d) (1 / c)) else ⊤
  | _ => ⊤

theorem posDiv_mem (X Y : Itv ℚ) (x y : ℚ) (hx : x ∈ X) (hy : y ∈ Y) (_ : y ≠ 0) : x / y ∈ posDiv X Y := by
  unfold posDiv
  split
  · exact hy.elim
  · rename_i c d p
    split_ifs with hc
    · rw [Itv.mem_mk] at hy
      have h1 : c ≤ y := hy.1
      have h2 : y ≤ d := hy.2
      have hp : 0 < y := hc.trans_le h1
      have e : x / y = x * (1 / y) := (mul_one_div x y).symm
      rw [e]
      exact Itv.mem_mul hx (Itv.mem_icc.mpr ⟨one_div_le_one_div_of_le hp h2, one_div_le_one_div_of_le hc h1⟩)
    · exact Itv.mem_all _
  · exact Itv.mem_all _

/-- the trajectory `t` divided by a tube around 2: the result contains `t / 2`, and its last gate is `4 / [2,4]` -/
example : (Tube.trajDiv (IArith.exact ℚ) posDiv growRad ⟨0, 4, Itv.icc 1 2, [⟨0, 4, Itv.icc 1 4, Itv.icc 2 4⟩]⟩).map (fun R => R.evalAt 4) = some (Itv.icc 1 2) := by
  decide +kernel

example : ∃ R, Tube.trajDiv (IArith.exact ℚ) posDiv growRad ⟨0, 4, Itv.icc 1 2, [⟨0, 4, Itv.icc 1 4, Itv.icc 2 4⟩]⟩ = some R ∧ R.Encloses (fun t => growRad.fn t / 2) := by
  obtain ⟨R, h, hk, -⟩ := (C143_quotient (IArith.exact ℚ) posDiv_mem (T := ⟨0, 4, Itv.icc 1 2, [⟨0, 4, Itv.icc 1 4, Itv.icc 2 4⟩]⟩) (f := fun _ => 2)
    ⟨by simp, ⟨rfl, by norm_num, rfl⟩⟩ (by rw [Tube.gc_def]; unfold AllSl; decide +kernel) growRad_ok.1 growRad_ok.2.1 (by
      intro s hs
      rw [List.mem_singleton.mp hs]
      exact ⟨by decide +kernel, by decide +kernel, fun t _ _ => by show (2 : ℚ) ∈ Itv.icc (1 : ℚ) 4; rw [Itv.mem_icc]; norm_num⟩)).2 (fun _ _ _ => by norm_num)
  exact ⟨R, h, hk⟩

end Codac.Props
