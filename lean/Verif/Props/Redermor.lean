import Verif.Traj.Redermor
import Verif.Props.VecBuild
import Verif.Props.VecParts
import Verif.Props.TrajOps
import Verif.Props.Func
import Verif.Props.TubeMisc
import Verif.Props.TubeVec
import Mathlib.Analysis.SpecialFunctions.Trigonometric.Basic

/-!
# C152: the data of the Redermor
-/

set_option linter.unusedSectionVars false

namespace Codac.Props
open Codac Redermor

section read
variable {K : Type*}

theorem readLoop_spec : ∀ (ls : List (Option (Rec K))) (i : Nat), i < 60000 →
    readLoop i ls = TVec.allM id ((ls.drop (45 - i)).take (59999 - max i 45)) := by
  intro ls
  induction ls with
  | nil => intro i _; simp [readLoop, TVec.allM]
  | cons l ls ih =>
    intro i hi
    unfold readLoop
    split_ifs with h1 h2
    · rw [ih (i + 1) (by omega), show 45 - i = (45 - (i + 1)) + 1 by omega, List.drop_succ_cons, show max (i + 1) 45 = max i 45 by omega]
    · rw [show 59999 - max i 45 = 0 by omega]; simp [TVec.allM]
    · rw [ih (i + 1) (by omega), show 45 - i = 0 by omega, show 45 - (i + 1) = 0 by omega, show 59999 - max i 45 = (59999 - max (i + 1) 45) + 1 by omega]
      simp only [List.drop_zero, List.take_succ_cons]
      cases l with
      | none => rfl
      | some r =>
        simp only [TVec.allM, id, Option.bind_some]

/-- **C152**: the lines read are those from the 46th to the 59999th; `load_data` succeeds in reading exactly when all of them hold numbers, whatever the other lines are -/
theorem C152_read (ls : List (Option (Rec K))) (rs : List (Rec K)) : readLoop 0 ls = some rs ↔ (ls.drop 45).take 59954 = rs.map some := by
  rw [readLoop_spec ls 0 (by norm_num)]
  simp only [Nat.sub_zero]
  show TVec.allM id ((ls.drop 45).take 59954) = some rs ↔ _
  generalize (ls.drop 45).take 59954 = l
  induction l generalizing rs with
  | nil => cases rs <;> simp [TVec.allM]
  | cons o l ih =>
    cases o with
    | none => cases rs <;> simp [TVec.allM]
    | some r =>
      cases rs with
      | nil => cases h : TVec.allM id l <;> simp [TVec.allM, h]
      | cons r' rs =>
        have := ih rs
        cases h : TVec.allM id l <;> simp [TVec.allM, h] at this ⊢ <;> simp [this]

end read

section data
variable {K : Type*} [Field K] [LinearOrder K] [IsStrictOrderedRing K]

/-- the lines of a log: their instants increase from `t0` to `tf` and the uncertainties are not negative -/
structure Logged (rs : List (Rec K)) (t0 tf : K) : Prop where
  incr : rs.Pairwise fun r r' => r.t < r'.t
  first : rs.head?.map Rec.t = some t0
  last : rs.getLast?.map Rec.t = some tf
  lt : t0 < tf
  pos : ∀ r ∈ rs, ∀ i < 10, 0 ≤ r.dy.getD i 0

/-- the value at `t` of the segment from `(a,u)` to `(b,v)` -/
def onSeg (a u b v t : K) : K := u + (t - a) / (b - a) * (v - u)

/-- the signal `f` stays, between two lines, within the interpolated uncertainty of the interpolated `i`-th value -/
def NearData (rs : List (Rec K)) (i : Nat) (f : K → K) : Prop := ∀ l r r' l', rs = l ++ r :: r' :: l' → ∀ t, r.t ≤ t → t ≤ r'.t →
  |f t - onSeg r.t (r.y.getD i 0) r'.t (r'.y.getD i 0) t| ≤ onSeg r.t (r.dy.getD i 0) r'.t (r'.dy.getD i 0) t

theorem foldl_recs (v : Rec K → List K) (i : Nat) : ∀ (rs : List (Rec K)) (x : Traj K), TrajOk x → (∀ p ∈ x.pts, ∀ r ∈ rs, p.1 < r.t) → rs.Pairwise (fun r r' => r.t < r'.t) →
    TrajOk (rs.foldl (fun x r => x.set ((v r).getD i 0) r.t) x) ∧ (rs.foldl (fun x r => x.set ((v r).getD i 0) r.t) x).pts = x.pts ++ rs.map fun r => (r.t, (v r).getD i 0) := by
  intro rs
  induction rs with
  | nil => intro x hx _ _; simpa using hx
  | cons r rs ih =>
    intro x hx hlt hp
    have hset : ∀ (l : List (K × K)) (t y : K), (∀ p ∈ l, p.1 < t) → setPt t y l = l ++ [(t, y)] := by
      intro l t y h
      induction l with
      | nil => rfl
      | cons p l ihl =>
        have := h p (by simp)
        rw [setPt, if_neg (not_lt.mpr this.le), if_neg this.ne', ihl fun q hq => h q (by simp [hq])]; rfl
    have hpt : (x.set ((v r).getD i 0) r.t).pts = x.pts ++ [(r.t, (v r).getD i 0)] := by
      rw [set_pts, hset _ _ _ fun p hp' => hlt p hp' r (by simp)]
    obtain ⟨k1, k2⟩ := ih (x.set ((v r).getD i 0) r.t) (hx.set _ _) (by
      intro p hp' r' hr'
      rw [hpt, List.mem_append] at hp'
      rcases hp' with hp' | hp'
      · exact hlt p hp' r' (by simp [hr'])
      · simp at hp'; subst hp'; exact (List.pairwise_cons.mp hp).1 r' hr') (List.pairwise_cons.mp hp).2
    refine ⟨k1, ?_⟩
    rw [List.foldl_cons, k2, hpt]; simp

theorem comp_pts (v : Rec K → List K) (i : Nat) {rs : List (Rec K)} (h : rs.Pairwise fun r r' => r.t < r'.t) :
    TrajOk (comp v rs i) ∧ (comp v rs i).pts = rs.map fun r => (r.t, (v r).getD i 0) := by
  obtain ⟨h1, h2⟩ := foldl_recs v i rs Traj.empty trajOk_empty (by simp [Traj.empty]) h
  exact ⟨h1, h2⟩

theorem Logged.bounds {rs : List (Rec K)} {t0 tf : K} (h : Logged rs t0 tf) : (∃ r ∈ rs, r.t = t0) ∧ (∃ r ∈ rs, r.t = tf) ∧ ∀ r ∈ rs, t0 ≤ r.t ∧ r.t ≤ tf := by
  obtain ⟨r0, e0, h0⟩ := Option.map_eq_some_iff.mp h.first
  obtain ⟨r1, e1, h1⟩ := Option.map_eq_some_iff.mp h.last
  refine ⟨⟨r0, List.mem_of_mem_head? e0, h0⟩, ⟨r1, List.mem_of_getLast? e1, h1⟩, fun r hr => ⟨?_, ?_⟩⟩
  · obtain ⟨l, rfl⟩ : ∃ l, rs = r0 :: l := by cases rs with
      | nil => simp at e0
      | cons a l => simp at e0; exact ⟨l, by rw [e0]⟩
    rcases List.mem_cons.mp hr with rfl | hr
    · exact h0.ge
    · rw [← h0]; exact ((List.pairwise_cons.mp h.incr).1 r hr).le
  · obtain ⟨l, rfl⟩ : ∃ l, rs = l ++ [r1] := List.getLast?_eq_some_iff.mp e1
    rcases List.mem_append.mp hr with hr | hr
    · rw [← h1]; exact ((List.pairwise_append.mp h.incr).2.2 r hr r1 (by simp)).le
    · simp at hr; subst hr; exact h1.le

theorem comp_dom (v : Rec K → List K) (i : Nat) {rs : List (Rec K)} {t0 tf : K} (h : Logged rs t0 tf) : (comp v rs i).dom = Itv.icc t0 tf := by
  obtain ⟨h1, h2⟩ := comp_pts v i h.incr
  obtain ⟨⟨r0, m0, e0⟩, ⟨r1, m1, e1⟩, hb⟩ := h.bounds
  have hd := h1.dom
  rw [h2] at hd
  refine hd.unique ⟨fun a ha => ?_, fun Y hY => (icc_le_iff h.lt.le).mpr ⟨hY _ ?_, hY _ ?_⟩⟩
  · simp only [List.mem_map, exists_exists_and_eq_and] at ha
    obtain ⟨r, hr, rfl⟩ := ha
    exact Itv.mem_icc.mpr (hb r hr)
  · simp only [List.mem_map, exists_exists_and_eq_and]; exact ⟨r0, m0, e0⟩
  · simp only [List.mem_map, exists_exists_and_eq_and]; exact ⟨r1, m1, e1⟩

theorem comp_pos {i : Nat} (hi : i < 10) {rs : List (Rec K)} {t0 tf : K} (h : Logged rs t0 tf) : ∀ v ∈ (comp Rec.dy rs i).cod, 0 ≤ v := by
  obtain ⟨h1, h2⟩ := comp_pts Rec.dy i h.incr
  have hc := h1.cod.2 (.mk (some 0) none trivial) (by
    intro a ha
    rw [h2] at ha
    simp only [List.mem_map, exists_exists_and_eq_and] at ha
    obtain ⟨r, hr, rfl⟩ := ha
    exact Itv.mem_mk.mpr ⟨h.pos r hr i hi, trivial⟩)
  exact fun v hv => (Itv.mem_mk.mp (Itv.mem_of_le hc hv)).1

/-- the value of a component between two lines -/
theorem comp_fn (v : Rec K → List K) (i : Nat) {rs l l' : List (Rec K)} {r r' : Rec K} {t0 tf : K} (h : Logged rs t0 tf) (e : rs = l ++ r :: r' :: l') {t : K} (h1 : r.t ≤ t) (h2 : t ≤ r'.t) :
    (comp v rs i).fn t = onSeg r.t ((v r).getD i 0) r'.t ((v r').getD i 0) t := by
  obtain ⟨k1, k2⟩ := comp_pts v i h.incr
  have hlt : r.t < r'.t := by
    have := h.incr
    rw [e] at this
    exact (List.pairwise_cons.mp (List.pairwise_append.mp this).2.1).1 r' (by simp)
  have hne : r'.t - r.t ≠ 0 := sub_ne_zero.mpr hlt.ne'
  have hev : (comp v rs i).evalAt t = some (onSeg r.t ((v r).getD i 0) r'.t ((v r').getD i 0) t) := by
    rw [evalAt_iff k1, k2]
    rcases eq_or_lt_of_le h1 with rfl | h1
    · refine .inl ?_
      rw [onSeg, sub_self, zero_div, zero_mul, add_zero, e]
      simp
    rcases eq_or_lt_of_le h2 with rfl | h2
    · refine .inl ?_
      rw [onSeg, div_self hne, one_mul, add_sub_cancel, e]
      simp
    · refine .inr ⟨l.map fun r => (r.t, (v r).getD i 0), (r.t, (v r).getD i 0), (r'.t, (v r').getD i 0), l'.map fun r => (r.t, (v r).getD i 0), by rw [e]; simp, h1, h2, ?_⟩
      show (onSeg r.t ((v r).getD i 0) r'.t ((v r').getD i 0) t - (v r).getD i 0) * (r'.t - r.t) = (t - r.t) * ((v r').getD i 0 - (v r).getD i 0)
      rw [onSeg, add_sub_cancel_left, mul_right_comm, div_mul_cancel₀ _ hne]
  unfold Traj.fn
  rw [hev]; rfl

theorem exists_pair : ∀ (rs : List (Rec K)) (r0 : Rec K) (t : K), r0.t ≤ t → (∃ r ∈ rs, t ≤ r.t) → ∃ l r r' l', r0 :: rs = l ++ r :: r' :: l' ∧ r.t ≤ t ∧ t ≤ r'.t := by
  intro rs
  induction rs with
  | nil => intro r0 t _ ⟨r, hr, _⟩; simp at hr
  | cons r1 rs ih =>
    intro r0 t h0 ⟨r, hr, hle⟩
    by_cases h1 : t ≤ r1.t
    · exact ⟨[], r0, r1, rs, rfl, h0, h1⟩
    · rcases List.mem_cons.mp hr with rfl | hr
      · exact absurd hle h1
      · obtain ⟨l, a, b, l', e, k1, k2⟩ := ih r1 t (not_le.mp h1).le ⟨r, hr, hle⟩
        exact ⟨r0 :: l, a, b, l', by rw [e]; rfl, k1, k2⟩

theorem near_fn {i : Nat} {rs : List (Rec K)} {t0 tf : K} (h : Logged rs t0 tf) {f : K → K} (hf : NearData rs i f) {t : K} (h1 : t0 ≤ t) (h2 : t ≤ tf) :
    |f t - (comp Rec.y rs i).fn t| ≤ (comp Rec.dy rs i).fn t := by
  obtain ⟨l, r, r', l', e, k1, k2⟩ : ∃ l r r' l', rs = l ++ r :: r' :: l' ∧ r.t ≤ t ∧ t ≤ r'.t := by
    obtain ⟨r0, e0, h0⟩ := Option.map_eq_some_iff.mp h.first
    obtain ⟨-, ⟨r1, m1, e1⟩, -⟩ := h.bounds
    cases rs with
    | nil => simp at e0
    | cons a l =>
      simp at e0; subst e0
      rcases List.mem_cons.mp m1 with rfl | m1
      · exact absurd h.lt (by rw [← h0, ← e1]; exact lt_irrefl _)
      · exact exists_pair l a t (h0 ▸ h1) ⟨r1, m1, e1 ▸ h2⟩
  rw [comp_fn Rec.y i h e k1 k2, comp_fn Rec.dy i h e k1 k2]
  exact hf l r r' l' e t k1 k2

/-- **C152**: the trajectory of the truth goes through the horizontal position and the depth of each line, with null velocities -/
theorem C152_truth {rs : List (Rec K)} {t0 tf : K} (h : Logged rs t0 tf) : (truth rs).length = 6 ∧ ∀ (i : Nat) (x : Traj K), (truth rs)[i]? = some x → TrajOk x ∧ x.dom = Itv.icc t0 tf ∧
    x.pts = rs.map fun r => (r.t, [r.y.getD 8 0, r.y.getD 9 0, r.y.getD 6 0, 0, 0, 0].getD i 0) := by
  refine ⟨by simp [truth], fun i x hx => ?_⟩
  unfold truth at hx
  rw [List.getElem?_map, Option.map_eq_some_iff] at hx
  obtain ⟨j, hj, rfl⟩ := hx
  obtain ⟨hl, hj⟩ := List.getElem?_eq_some_iff.mp hj
  rw [List.getElem_range] at hj
  subst hj
  obtain ⟨h1, h2⟩ := comp_pts truthVec i h.incr
  exact ⟨h1, comp_dom _ _ h, h2⟩

/-! ### Lemmas on tubes -/

theorem traj_gates {x : Traj K} (hx : TrajOk x) {T : Tube K} (hT : T.WF) (hd : x.dom = Itv.icc T.t0 T.tf)
    (hs : ∀ s ∈ T.slices, s.cod = x.ev (Itv.icc s.lb s.ub) ∧ s.inG = x.ev (Itv.point s.lb) ∧ s.outG = x.ev (Itv.point s.ub)) : T.GatesInEnvelopes := by
  intro s hsm
  obtain ⟨k1, k2, k3⟩ := hs s hsm
  obtain ⟨b1, b2, b3⟩ := hT.tiles.mem_bounds hsm
  rw [k1, k2, k3, point_eq_icc, point_eq_icc]
  have hdd : Itv.icc s.lb s.ub ≤ x.dom := by
    rw [hd, icc_le_iff b2.le]
    exact ⟨Itv.mem_icc.mpr ⟨b1, b2.le.trans b3⟩, Itv.mem_icc.mpr ⟨b1.trans b2.le, b3⟩⟩
  have hm := (icc_le_iff b2.le).mp hdd
  have hI : ∀ {c : K}, c ∈ x.dom → s.lb ≤ c → c ≤ s.ub → x.ev (Itv.icc c c) ≤ x.ev (Itv.icc s.lb s.ub) := by
    intro c hc c1 c2
    obtain ⟨X, _, _, e1, _⟩ := evalItv_range hx (le_refl c) ((icc_le_iff le_rfl).mpr ⟨hc, hc⟩)
    obtain ⟨Y, _, _, e2, _⟩ := evalItv_range hx b2.le hdd
    unfold Traj.ev
    rw [e1, e2]
    exact C37_monotone hx le_rfl c1 c2 hdd e1 e2
  exact ⟨hI hm.1 le_rfl b2.le, hI hm.2 b2.le le_rfl⟩

theorem inflateTraj_shape {A : IArith K} {T R : Tube K} (hT : T.WF) {rad : Traj K} (hr : TrajOk rad) (h : T.inflateTraj A rad = some R) :
    R.slices.map (fun s => (s.lb, s.ub)) = T.slices.map (fun s => (s.lb, s.ub)) ∧ (T.GatesInEnvelopes → R.GatesInEnvelopes) := by
  unfold Tube.inflateTraj at h
  split_ifs at h with hc
  rw [Option.some.injEq] at h
  subst h
  have hev := Traj.fn_mem_ev hr (le_of_eq hc.2.symm)
  constructor
  · rw [mapWith_slices _ _ hT, List.map_map]; rfl
  · intro hg s hs
    rw [mapWith_slices _ _ hT, List.mem_map] at hs
    obtain ⟨s0, hs0, rfl⟩ := hs
    obtain ⟨b1, b2, b3⟩ := hT.tiles.mem_bounds hs0
    obtain ⟨g1, g2⟩ := hg s0 hs0
    exact ⟨A.add_mono g1 (A.mul_mono le_rfl (point_le_iff.mpr (hev _ _ b1 b2.le b3 _ le_rfl b2.le))),
      A.add_mono g2 (A.mul_mono le_rfl (point_le_iff.mpr (hev _ _ b1 b2.le b3 _ b2.le le_rfl)))⟩

theorem primitive_dom {A : IArith K} {B : K} {T P : Tube K} {c : Itv K} (h : T.WF) (hP : T.primitive A B c = some P) : P.t0 = T.t0 ∧ P.tf = T.tf := by
  have d0 := derivTube_dom (sampleGate_wf (set_wf' h) (by rw [set_eq h.ne]) (by rw [set_eq h.ne]; exact h.lt.le) _) hP
  have hd := sampleGate_dom (T.set ⊤) T.t0 c
  have s0 : (T.set ⊤).t0 = T.t0 ∧ (T.set ⊤).tf = T.tf := by rw [set_eq h.ne]; exact ⟨rfl, rfl⟩
  exact ⟨(d0.1.trans hd.1).trans s0.1, (d0.2.1.trans hd.2).trans s0.2⟩

theorem tiles_ends : ∀ {cs : List (Cell K)} {a b a' b' : K}, cs ≠ [] → Tiles a cs b → Tiles a' cs b' → a = a' ∧ b = b'
  | [], _, _, _, _, h, _, _ => absurd rfl h
  | [c], _, _, _, _, _, h1, h2 => ⟨h1.1.symm.trans h2.1, h1.2.2.symm.trans h2.2.2⟩
  | c :: d :: cs, _, _, _, _, _, h1, h2 => ⟨h1.1.symm.trans h2.1, (tiles_ends (by simp) h1.2.2 h2.2.2).2⟩

theorem vSame_of_sliced {x : List (Tube K)} (hx : x ≠ []) {P : List (K × K)} (h : Sliced x P) : vSameSlicing x = true := by
  cases x with
  | nil => exact absurd rfl hx
  | cons T l =>
    simp only [vSameSlicing, List.all_eq_true]
    intro y hy
    rw [sameSlicing_iff]
    have := (h T (by simp)).trans (h y (by simp [hy])).symm
    rwa [Tube.slices_bounds, Tube.slices_bounds] at this

end data

/-! ### The state -/

/-- a rotation of angle `a` around the axis x, then y, then z -/
noncomputable def rotX (a : ℝ) (v : ℝ × ℝ × ℝ) : ℝ × ℝ × ℝ := (v.1, Real.cos a * v.2.1 - Real.sin a * v.2.2, Real.sin a * v.2.1 + Real.cos a * v.2.2)
noncomputable def rotY (a : ℝ) (v : ℝ × ℝ × ℝ) : ℝ × ℝ × ℝ := (Real.cos a * v.1 + Real.sin a * v.2.2, v.2.1, - Real.sin a * v.1 + Real.cos a * v.2.2)
noncomputable def rotZ (a : ℝ) (v : ℝ × ℝ × ℝ) : ℝ × ℝ × ℝ := (Real.cos a * v.1 - Real.sin a * v.2.1, Real.sin a * v.1 + Real.cos a * v.2.1, v.2.2)

/-- the velocity of the robot in the frame of the world: `v` turned by its roll, pitch and yaw -/
noncomputable def worldVel (phi theta psi : ℝ) (v : ℝ × ℝ × ℝ) : ℝ × ℝ × ℝ := rotZ psi (rotY theta (rotX phi v))

/-- **C152**: the formulas of the loader are the velocity of the robot turned by its attitude -/
theorem C152_velocity (t phi theta psi vx vy vz : ℝ) :
    (velocity Real.cos Real.sin 0 [t, phi, theta, psi, vx, vy, vz], velocity Real.cos Real.sin 1 [t, phi, theta, psi, vx, vy, vz],
      velocity Real.cos Real.sin 2 [t, phi, theta, psi, vx, vy, vz]) = worldVel phi theta psi (vx, vy, vz) := by
  simp only [velocity, worldVel, rotX, rotY, rotZ, Prod.mk.injEq]
  refine ⟨by ring, by ring, by ring⟩

/-- a motion of the robot agrees with the lines: `u` is its roll, pitch, yaw and its velocity in its frame, `q` its horizontal position and its depth -/
structure AgreesLog (rs : List (Rec ℝ)) (t0 tf B : ℝ) (u : Nat → ℝ → ℝ) (q : Nat → ℝ → ℝ) : Prop where
  sensed : ∀ i < 6, NearData rs i (u i)
  depth : NearData rs 6 (q 2)
  cont : ∀ i < 2, ContinuousOn (q i) (Set.Icc t0 tf)
  velX : ∀ t, t0 < t → t < tf → HasDerivAt (q 0) (worldVel (u 0 t) (u 1 t) (u 2 t) (u 3 t, u 4 t, u 5 t)).1 t
  velY : ∀ t, t0 < t → t < tf → HasDerivAt (q 1) (worldVel (u 0 t) (u 1 t) (u 2 t) (u 3 t, u 4 t, u 5 t)).2.1 t
  startX : ∀ r, rs.head? = some r → q 0 t0 = r.y.getD 8 0
  startY : ∀ r, rs.head? = some r → q 1 t0 = r.y.getD 9 0
  bound : ∀ i < 2, ∀ t, t0 ≤ t → t ≤ tf → -B ≤ q i t ∧ q i t ≤ B

/-- the signals expected in the state: position, depth, velocity in the frame of the world -/
noncomputable def stateOf (u q : Nat → ℝ → ℝ) (i : Nat) (t : ℝ) : ℝ :=
  match i with
  | 0 => q 0 t
  | 1 => q 1 t
  | 2 => q 2 t
  | 3 => (worldVel (u 0 t) (u 1 t) (u 2 t) (u 3 t, u 4 t, u 5 t)).1
  | 4 => (worldVel (u 0 t) (u 1 t) (u 2 t) (u 3 t, u 4 t, u 5 t)).2.1
  | _ => (worldVel (u 0 t) (u 1 t) (u 2 t) (u 3 t, u 4 t, u 5 t)).2.2

theorem sensors_spec (A : IArith ℝ) {rs : List (Rec ℝ)} {t0 tf step : ℝ} (h : Logged rs t0 tf) (hstep : 0 ≤ step) :
    ∃ x P, (∃ n, ∀ fuel ≥ n, sensors A (· + ·) (tf - t0) fuel t0 tf step rs = some x) ∧ VecOver x 6 t0 tf ∧ Sliced x P ∧ (∀ T ∈ x, T.GatesInEnvelopes) ∧
      ∀ u : Nat → ℝ → ℝ, (∀ i < 6, NearData rs i (u i)) → InVector x u := by
  obtain ⟨x0, P, ⟨n, hn⟩, k1, k2, -, k4, k5⟩ := C151_trajectory (ev := (List.range 10).map fun i => (comp Rec.y rs i).ev) h.lt hstep (by simp)
  have hy : ∀ (i : Nat) (e : Itv ℝ → Itv ℝ), ((List.range 10).map fun i => (comp Rec.y rs i).ev)[i]? = some e → e = (comp Rec.y rs i).ev := by
    intro i e he
    rw [List.getElem?_map, Option.map_eq_some_iff] at he
    obtain ⟨j, hj, rfl⟩ := he
    obtain ⟨hl, hj⟩ := List.getElem?_eq_some_iff.mp hj
    rw [List.getElem_range] at hj; subst hj; rfl
  have hdy : ∀ (i : Nat) (r : Traj ℝ), ((List.range 10).map (comp Rec.dy rs))[i]? = some r → i < 10 ∧ r = comp Rec.dy rs i := by
    intro i e he
    rw [List.getElem?_map, Option.map_eq_some_iff] at he
    obtain ⟨j, hj, rfl⟩ := he
    obtain ⟨hl, hj⟩ := List.getElem?_eq_some_iff.mp hj
    rw [List.getElem_range] at hj; subst hj; exact ⟨by simpa using hl, rfl⟩
  have hx0 : InVector x0 fun i => (comp Rec.y rs i).fn := k5 _ fun i e he => by
    rw [hy i e he]
    exact Traj.fn_mem_ev (comp_pts Rec.y i h.incr).1 (comp_dom Rec.y i h).ge
  obtain ⟨x1, e1, o1, c1⟩ := C144_inflate_trajectories A k1 (rad := (List.range 10).map (comp Rec.dy rs)) (by simp) (by
    intro r hr
    obtain ⟨i, hi⟩ := List.mem_iff_getElem?.mp hr
    obtain ⟨h10, rfl⟩ := hdy i r hi
    exact ⟨(comp_pts _ i h.incr).1, comp_dom _ i h, comp_pos h10 h⟩)
  have hlen : x1.length = 10 := by rw [o1.size]; simp
  have h6 : 6 ≤ x1.length := by omega
  have each : ∀ T ∈ x1, T.slices.map (fun s => (s.lb, s.ub)) = P ∧ T.GatesInEnvelopes := by
    intro T hT
    obtain ⟨i, hi⟩ := List.mem_iff_getElem?.mp hT
    have e1' := e1
    unfold TuVec.inflateTrajs at e1'
    split_ifs at e1' with hl
    obtain ⟨g1, g2⟩ := TVec.allM_get e1'
    have hz := List.getElem?_eq_getElem (l := x0.zip ((List.range 10).map (comp Rec.dy rs))) (i := i) (by rw [← g1]; exact (List.getElem?_eq_some_iff.mp hi).1)
    obtain ⟨T', q1, q2⟩ := g2 i _ hz
    rw [hi] at q1; cases q1
    rw [List.getElem?_zip_eq_some] at hz
    obtain ⟨w, a, b⟩ := k1.get hz.1
    obtain ⟨hi10, hr⟩ := hdy i _ hz.2
    obtain ⟨s1, s2⟩ := inflateTraj_shape w (by rw [hr]; exact (comp_pts _ i h.incr).1) q2
    refine ⟨s1.trans (k2 _ (List.mem_iff_getElem?.mpr ⟨i, hz.1⟩)), s2 (traj_gates (comp_pts Rec.y i h.incr).1 w (by rw [a, b]; exact comp_dom _ i h) ?_)⟩
    exact k4 i _ _ hz.1 (by simp [List.getElem?_range hi10])
  obtain ⟨x2, e2, o2, c2⟩ := C111_resize_partial o1 (n := 6) (by norm_num)
  have e2' : x2 = x1.take 6 := by
    unfold TuVec.resize at e2
    rw [if_neg (by norm_num), if_pos h6, Option.some.injEq] at e2
    exact e2.symm
  refine ⟨x2, P, ⟨n, fun fuel hf => ?_⟩, o2, fun T hT => (each T (List.mem_of_mem_take (e2' ▸ hT))).1, fun T hT => (each T (List.mem_of_mem_take (e2' ▸ hT))).2, fun u hu => (c2 u).mpr fun i T hi hT => ?_⟩
  · unfold sensors
    rw [hn fuel hf, Option.bind_some, e1, Option.bind_some, e2]
  · -- the components kept are those of the first six sensors
    refine c1 (fun i => (comp Rec.y rs i).fn) (fun i => if i < 6 then u i else (comp Rec.y rs i).fn) hx0 (fun j r hr t h1 h2 => ?_) i T hT |> fun hh => by simpa only [if_pos hi] using hh
    obtain ⟨hj, rfl⟩ := hdy j r hr
    split_ifs with h6'
    · exact near_fn h (hu j h6') h1 h2
    · rw [sub_self, abs_zero]
      obtain ⟨v, hv⟩ := evalAt_some (comp_pts Rec.dy j h.incr).1 (t := t) (by rw [comp_dom _ _ h]; exact Itv.mem_icc.mpr ⟨h1, h2⟩)
      have := comp_pos hj h v (evalAt_mem_cod (comp_pts Rec.dy j h.incr).1 hv)
      unfold Traj.fn
      rw [hv]; exact this

/-- **C152** (part): from the lines of a log, the tubes of `load_data` are over the time of the log and they contain the state of every motion which agrees with the lines: horizontal
position, depth and velocity in the frame of the world. The horizontal position must stay within the bound `B` of the contractor, and no file of a former call must exist
(`C152_cache_fails`) -/
theorem C152_state_partial (A : IArith ℝ) (B : ℝ) {F : Nat → Box ℝ → Itv ℝ} (hF : InclusionFun 3 (velocity Real.cos Real.sin) F) {rs : List (Rec ℝ)} {t0 tf step : ℝ}
    (h : Logged rs t0 tf) (hstep : 0 ≤ step) {u q : Nat → ℝ → ℝ} (hu : AgreesLog rs t0 tf B u q) :
    ∃ x, (∃ n, ∀ fuel ≥ n, load A B F (· + ·) (tf - t0) fuel t0 tf step rs = some x) ∧ VecOver x 6 t0 tf ∧ InVector x (stateOf u q) := by
  obtain ⟨x, P, ⟨n, hn⟩, o, sl, g, c⟩ := sensors_spec A h hstep
  have hx := c u hu.sensed
  have hne : x ≠ [] := fun e => by have := o.size; rw [e] at this; simp at this
  obtain ⟨T, hT⟩ : ∃ T, x[2]? = some T := ⟨_, List.getElem?_eq_getElem (by rw [o.size]; norm_num)⟩
  have hv : VEncloses x ((List.range 6).map u) := by
    unfold VEncloses
    rw [List.forall₂_iff_get]
    refine ⟨by simp [o.size], fun i h1 h2 => ?_⟩
    have := hx i x[i] (List.getElem?_eq_getElem h1)
    simpa using this
  obtain ⟨ys, y1, y2, y3⟩ := C51_eval_tubes hF (vSame_of_sliced hne sl) o.wf g hv
  obtain ⟨v0, v1, v2, rfl⟩ := List.length_eq_three.mp y2
  obtain ⟨tw, ta, tb⟩ := o.get hT
  have hTm := List.mem_iff_getElem?.mpr ⟨2, hT⟩
  have dom : ∀ Y : Tube ℝ, Y.WF → Y.slices.map (fun s => (s.lb, s.ub)) = T.slices.map (fun s => (s.lb, s.ub)) → Y.t0 = t0 ∧ Y.tf = tf := by
    intro Y w e
    have e' : Y.cells.map (fun c => (c.lb, c.ub)) = T.cells.map (fun c => (c.lb, c.ub)) := by rwa [Tube.slices_bounds, Tube.slices_bounds] at e
    obtain ⟨z1, z2⟩ := tiles_ends w.ne w.tiles ((tiles_of_bounds e').mpr tw.tiles)
    exact ⟨z1.trans ta, z2.trans tb⟩
  obtain ⟨w0, f0, s0⟩ := y3 0 v0 rfl
  obtain ⟨w1, f1, s1⟩ := y3 1 v1 rfl
  obtain ⟨w2, f2, s2⟩ := y3 2 v2 rfl
  obtain ⟨a0, b0⟩ := dom v0 w0 (s0 T hTm)
  obtain ⟨a1, b1⟩ := dom v1 w1 (s1 T hTm)
  obtain ⟨a2, b2⟩ := dom v2 w2 (s2 T hTm)
  have hW := fun t => C152_velocity t (u 0 t) (u 1 t) (u 2 t) (u 3 t) (u 4 t) (u 5 t)
  have hl : ∀ t, t :: ((List.range 6).map u).map (· t) = [t, u 0 t, u 1 t, u 2 t, u 3 t, u 4 t, u 5 t] := fun t => by simp [List.range_succ]
  simp only [hl] at f0 f1 f2
  have F0 : v0.Encloses (stateOf u q 3) := by
    convert f0 using 2 with t
    exact (congrArg Prod.fst (hW t)).symm
  have F1 : v1.Encloses (stateOf u q 4) := by
    convert f1 using 2 with t
    exact (congrArg (fun p => p.2.1) (hW t)).symm
  have F2 : v2.Encloses (stateOf u q 5) := by
    convert f2 using 2 with t
    exact (congrArg (fun p => p.2.2) (hW t)).symm
  obtain ⟨r0, er, hr0⟩ := Option.map_eq_some_iff.mp h.first
  have start : ∀ i, (comp Rec.y rs i).fn t0 = r0.y.getD i 0 := by
    intro i
    obtain ⟨k1, k2⟩ := comp_pts Rec.y i h.incr
    have : (comp Rec.y rs i).evalAt t0 = some (r0.y.getD i 0) := by
      rw [evalAt_iff k1, k2]
      exact .inl (List.mem_map.mpr ⟨r0, List.mem_of_mem_head? er, by rw [hr0]⟩)
    unfold Traj.fn
    rw [this]; rfl
  obtain ⟨p0, P1, P2, -, P4⟩ := C81_primitive_real_partial (A := A) (B := B) (c := Itv.point ((comp Rec.y rs 8).fn t0)) (F := q 0) w0 F0 (by rw [a0, b0]; exact hu.cont 0 (by norm_num))
    (fun s hs t h1 h2 => by
      obtain ⟨d1, d2, d3⟩ := w0.tiles.mem_bounds hs
      exact hu.velX t (a0 ▸ d1.trans_lt h1) (b0 ▸ h2.trans_le d3))
    (by rw [Itv.mem_point, a0, start, hu.startX r0 er]) (by rw [a0, b0]; exact hu.bound 0 (by norm_num))
  obtain ⟨p1, Q1, Q2, -, Q4⟩ := C81_primitive_real_partial (A := A) (B := B) (c := Itv.point ((comp Rec.y rs 9).fn t0)) (F := q 1) w1 F1 (by rw [a1, b1]; exact hu.cont 1 (by norm_num))
    (fun s hs t h1 h2 => by
      obtain ⟨d1, d2, d3⟩ := w1.tiles.mem_bounds hs
      exact hu.velY t (a1 ▸ d1.trans_lt h1) (b1 ▸ h2.trans_le d3))
    (by rw [Itv.mem_point, a1, start, hu.startY r0 er]) (by rw [a1, b1]; exact hu.bound 1 (by norm_num))
  obtain ⟨E1, E2, E3, -⟩ := set_full tw (⊥ : Itv ℝ)
  obtain ⟨d, D1, D2, D3, D4, D5⟩ := C143_inflate A (T := T.setEmpty.opAssignTraj (· ⊔ ·) (comp Rec.y rs 6).ev) (opAssignTraj_wf E1) (comp_pts Rec.dy 6 h.incr).1
    (by rw [comp_dom _ _ h]; exact (by rw [← ta, ← tb, ← E2, ← E3]; rfl)) (comp_pos (by norm_num) h)
  have d0 : d.t0 = t0 := D3.trans (E2.trans ta)
  have df : d.tf = tf := D4.trans (E3.trans tb)
  have D6 : d.Encloses (q 2) := by
    refine D5 (comp Rec.y rs 6).fn (q 2) (unionTraj_new (T := T.setEmpty) E1 ?_) fun t h1 h2 => near_fn h hu.depth (d0 ▸ D3 ▸ h1) (df ▸ D4 ▸ h2)
    have := Traj.fn_mem_ev (comp_pts Rec.y 6 h.incr).1 (comp_dom Rec.y 6 h).ge
    rw [← ta, ← tb, ← E2, ← E3] at this
    exact this
  refine ⟨[p0, p1, d, v0, v1, v2], ⟨n, fun fuel hf => ?_⟩, vecOver_of rfl (by norm_num) fun i X hX => ?_, fun i X hX => ?_⟩
  · unfold load state
    rw [hn fuel hf, Option.bind_some, y1, Option.bind_some, hT]
    dsimp only
    rw [P1, Option.bind_some, Q1, Option.bind_some]
    unfold depth
    rw [D1]; rfl
  · match i, hX with
    | 0, hX => cases hX; obtain ⟨z1, z2⟩ := primitive_dom w0 P1; exact ⟨P2, z1.trans a0, z2.trans b0⟩
    | 1, hX => cases hX; obtain ⟨z1, z2⟩ := primitive_dom w1 Q1; exact ⟨Q2, z1.trans a1, z2.trans b1⟩
    | 2, hX => cases hX; exact ⟨D2, d0, df⟩
    | 3, hX => cases hX; exact ⟨w0, a0, b0⟩
    | 4, hX => cases hX; exact ⟨w1, a1, b1⟩
    | 5, hX => cases hX; exact ⟨w2, a2, b2⟩
    | _ + 6, hX => cases hX
  · match i, hX with
    | 0, hX => cases hX; exact P4
    | 1, hX => cases hX; exact Q4
    | 2, hX => cases hX; exact D6
    | 3, hX => cases hX; exact F0
    | 4, hX => cases hX; exact F1
    | 5, hX => cases hX; exact F2
    | _ + 6, hX => cases hX

/-- the lines of a robot going along the axis x at the speed 1, its depth being 5 with the uncertainty 1 -/
def straightLog : List (Rec ℝ) := [⟨0, [0, 0, 0, 1, 0, 0, 5, 0, 1, 2], [0, 0, 0, 0, 0, 0, 1, 0, 0, 0]⟩, ⟨1, [0, 0, 0, 1, 0, 0, 5, 0, 2, 2], [0, 0, 0, 0, 0, 0, 1, 0, 0, 0]⟩,
  ⟨2, [0, 0, 0, 1, 0, 0, 5, 0, 3, 2], [0, 0, 0, 0, 0, 0, 1, 0, 0, 0]⟩]

theorem straight_logged : Logged straightLog 0 2 := by
  refine ⟨by simp [straightLog], rfl, rfl, by norm_num, fun r hr i hi => ?_⟩
  simp only [straightLog, List.mem_cons, List.not_mem_nil, or_false] at hr
  rcases hr with rfl | rfl | rfl <;> interval_cases i <;> norm_num

/-- a signal with a constant datum and a constant uncertainty -/
theorem near_const {rs : List (Rec ℝ)} {i : Nat} {f : ℝ → ℝ} {y e : ℝ} (hy : ∀ r ∈ rs, r.y.getD i 0 = y ∧ r.dy.getD i 0 = e) (hf : ∀ t, |f t - y| ≤ e) : NearData rs i f := by
  intro l r r' l' h t _ _
  obtain ⟨a1, a2⟩ := hy r (by rw [h]; simp)
  obtain ⟨b1, b2⟩ := hy r' (by rw [h]; simp)
  rw [a1, a2, b1, b2]
  simpa [onSeg] using hf t

example : AgreesLog straightLog 0 2 100 (fun i _ => if i = 3 then 1 else 0) (fun i t => if i = 0 then 1 + t else if i = 1 then 2 else 5 + 1 / 2) := by
  refine ⟨fun i hi => ?_, near_const (y := 5) (e := 1) (fun r hr => ?_) fun t => by norm_num [abs_le], fun i hi => ?_, fun t _ _ => ?_, fun t _ _ => ?_, ?_, ?_, fun i hi t h1 h2 => ?_⟩
  · refine near_const (y := if i = 3 then 1 else 0) (e := 0) (fun r hr => ?_) fun t => by simp
    simp only [straightLog, List.mem_cons, List.not_mem_nil, or_false] at hr
    rcases hr with rfl | rfl | rfl <;> interval_cases i <;> simp
  · simp only [straightLog, List.mem_cons, List.not_mem_nil, or_false] at hr
    rcases hr with rfl | rfl | rfl <;> simp
  · interval_cases i <;> simp <;> fun_prop
  · simpa [worldVel, rotX, rotY, rotZ] using (hasDerivAt_id t).const_add 1
  · simpa [worldVel, rotX, rotY, rotZ] using hasDerivAt_const t (2 : ℝ)
  · intro r hr; simp [straightLog] at hr; subst hr; norm_num
  · intro r hr; simp [straightLog] at hr; subst hr; norm_num
  · interval_cases i
    · simp only [if_true]; constructor <;> linarith
    · norm_num

/-- an evaluation by intervals of the function of the velocities, the coarsest one -/
example : InclusionFun 3 (velocity Real.cos Real.sin) fun _ _ => ⊤ := fun _ _ _ _ _ => Itv.mem_top _

/-! ### The file of a former call -/

/-- **C152**: without the file of a former call, the tubes are those computed with the time step, and all the next calls return them -/
theorem C152_first {K α : Type*} [Field K] [LinearOrder K] {compute : K → Option α} {step : K} {x : α} (h : compute step = some x) (d : Itv K) :
    loadData compute none step d = some (x, some x) ∧ ∀ step' d', loadData compute (some x) step' d' = some (x, some x) :=
  ⟨by simp [loadData, h], fun _ _ => rfl⟩

/-- lines with rational numbers, and the tubes computed from them for a time step with a null velocity -/
def ratLog : List (Rec ℚ) := [⟨0, [0, 0, 0, 0, 0, 0, 5, 0, 1, 2], [0, 0, 0, 0, 0, 0, 1, 0, 0, 0]⟩, ⟨2, [0, 0, 0, 0, 0, 0, 7, 0, 1, 2], [0, 0, 0, 0, 0, 0, 1, 0, 0, 0]⟩]
def ratLoad (step : ℚ) : Option (List (Tube ℚ)) := load (IArith.exact ℚ) 100 (fun _ _ => Itv.icc 0 0) (· + ·) 2 10 0 2 step ratLog

/-- the number of slices and the end of the temporal domain of each component -/
def shapeOf (x : List (Tube ℚ)) : List (Nat × ℚ) := x.map fun T => (T.slices.length, T.tf)

/-- **C152** fails after a first call: with the time step 2, one slice is obtained from the data; after a call with the time step 1, the tubes have two slices. The temporal domain
`[0,1]` asked for is ignored in both cases: the tubes end at 2 -/
theorem C152_cache_fails :
    (loadData ratLoad none 2 (Itv.icc 0 1)).map (fun p => shapeOf p.1) = some (List.replicate 6 (1, 2)) ∧
    ((loadData ratLoad none 1 (Itv.icc 0 1)).bind fun p => (loadData ratLoad p.2 2 (Itv.icc 0 1)).map fun p => shapeOf p.1) = some (List.replicate 6 (2, 2)) := by
  constructor <;> decide +kernel

/-- the depth of the example: from `[4,6]` to `[6,8]` -/
example : (ratLoad 1).map (fun x => x.map fun T => (T.evalAt 0, T.evalAt 2)) = some [(Itv.icc 1 1, Itv.icc 1 1), (Itv.icc 2 2, Itv.icc 2 2), (Itv.icc 4 6, Itv.icc 6 8),
    (Itv.icc 0 0, Itv.icc 0 0), (Itv.icc 0 0, Itv.icc 0 0), (Itv.icc 0 0, Itv.icc 0 0)] := by decide +kernel

/-- a log of 46 lines: the first 45 ones cannot be read -/
example : readLoop 0 (List.replicate 45 none ++ [some (⟨0, [], []⟩ : Rec ℚ)]) = some [⟨0, [], []⟩] :=
  (C152_read _ _).mpr (by simp)

end Codac.Props
