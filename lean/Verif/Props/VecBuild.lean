import Verif.Tube.VecBuild
import Verif.Tube.EvalMono
import Verif.Props.VecIntegral
import Verif.Props.TubeBuild
import Verif.Props.Traj

/-!
# C151: the constructors of vectors of tubes
-/

set_option linter.unusedSectionVars false

namespace Codac.Props
open Codac TuVec

section order
variable {K : Type*} [LinearOrder K]

/-- all the components of `x` have the slices `P` -/
def Sliced (x : List (Tube K)) (P : List (K × K)) : Prop := ∀ T ∈ x, T.slices.map (fun s => (s.lb, s.ub)) = P

theorem set_full {T : Tube K} (h : T.WF) (I : Itv K) : (T.set I).WF ∧ (T.set I).t0 = T.t0 ∧ (T.set I).tf = T.tf ∧
    (T.set I).slices.map (fun s => (s.lb, s.ub)) = T.slices.map (fun s => (s.lb, s.ub)) ∧ ∀ f, (T.set I).Encloses f ↔ ∀ t, T.t0 ≤ t → t ≤ T.tf → f t ∈ I := by
  have hw : (T.set I).WF := by
    rw [set_eq h.ne]
    refine ⟨fun hcon => h.ne (by simpa [constCells] using hcon), (tiles_of_bounds (constCells_bounds _ _)).mpr h.tiles⟩
  have hs : ∀ s ∈ (T.set I).slices, s.cod = I ∧ s.inG = I ∧ s.outG = I := fun s hs => by
    rw [set_eq h.ne] at hs
    exact mem_slices_const hs
  have e0 : (T.set I).t0 = T.t0 := by rw [set_eq h.ne]
  have e1 : (T.set I).tf = T.tf := by rw [set_eq h.ne]
  refine ⟨hw, e0, e1, by rw [Tube.slices_bounds, Tube.slices_bounds, set_eq h.ne]; exact constCells_bounds _ _, fun f => ⟨fun hf t h1 h2 => ?_, fun hf s hm => ?_⟩⟩
  · obtain ⟨s, hm, k1, k2⟩ := hw.exists_slice (t := t) (by rw [e0]; exact h1) (by rw [e1]; exact h2)
    obtain ⟨c1, c2, c3⟩ := hs s hm
    obtain ⟨f1, f2, f3⟩ := hf s hm
    rcases eq_or_lt_of_le k1 with rfl | k1
    · rwa [c2] at f1
    · rcases eq_or_lt_of_le k2 with rfl | k2
      · rwa [c3] at f2
      · rw [← c1]; exact f3 t k1 k2
  · obtain ⟨c1, c2, c3⟩ := hs s hm
    obtain ⟨b1, b2, b3⟩ := hw.tiles.mem_bounds hm
    rw [e0] at b1; rw [e1] at b3
    rw [Slice.Encloses, c1, c2, c3]
    exact ⟨hf _ b1 (b2.le.trans b3), hf _ (b1.trans b2.le) b3, fun t k1 k2 => hf t (b1.trans k1.le) (k2.le.trans b3)⟩

/-- the functions the components of which are in the components of the box `b` over `[t0,tf]` -/
def InBoxOver (b : Box K) (t0 tf : K) (f : Nat → K → K) : Prop := ∀ (i : Nat) (I : Itv K), b[i]? = some I → ∀ t, t0 ≤ t → t ≤ tf → f i t ∈ I

theorem setAll_spec {x : List (Tube K)} {n : Nat} {t0 tf : K} (h : VecOver x n t0 tf) {P : List (K × K)} (hP : Sliced x P) {b : Box K} (hb : b.length = n) :
    ∃ y, setAll x b = some y ∧ VecOver y n t0 tf ∧ Sliced y P ∧ ∀ f, InVector y f ↔ InBoxOver b t0 tf f := by
  have key : ∀ (i : Nat) (T : Tube K), (List.zipWith (fun (T : Tube K) i => T.set i) x b)[i]? = some T → ∃ X I, x[i]? = some X ∧ b[i]? = some I ∧ T = X.set I ∧ X.WF ∧ X.t0 = t0 ∧ X.tf = tf := by
    intro i T hT
    obtain ⟨X, I, hX, hI, rfl⟩ := zipWith_get hT
    obtain ⟨w, a1, b1⟩ := h.get hX
    exact ⟨X, I, hX, hI, rfl, w, a1, b1⟩
  refine ⟨_, by unfold setAll; rw [if_pos (h.size.trans hb.symm)], vecOver_of (by simp [h.size, hb]) h.pos fun i T hT => ?_, fun T hT => ?_, fun f => ⟨fun hf i I hI t h1 h2 => ?_, fun hf i T hT => ?_⟩⟩
  · obtain ⟨X, I, hX, hI, rfl, w, a1, b1⟩ := key i T hT
    obtain ⟨c1, c2, c3, -⟩ := set_full w I
    exact ⟨c1, c2.trans a1, c3.trans b1⟩
  · obtain ⟨i, hi⟩ := List.mem_iff_getElem?.mp hT
    obtain ⟨X, I, hX, hI, rfl, w, -⟩ := key i T hi
    rw [(set_full w I).2.2.2.1]
    exact hP X (List.mem_iff_getElem?.mpr ⟨i, hX⟩)
  · have hi : i < n := hb ▸ (List.getElem?_eq_some_iff.mp hI).1
    obtain ⟨X, hX⟩ : ∃ X, x[i]? = some X := ⟨_, List.getElem?_eq_getElem (h.size ▸ hi)⟩
    obtain ⟨w, a1, b1⟩ := h.get hX
    have e : (List.zipWith (fun (T : Tube K) i => T.set i) x b)[i]? = some (X.set I) := by rw [List.getElem?_zipWith, hX, hI]
    exact ((set_full w I).2.2.2.2 (f i)).mp (hf i _ e) t (a1 ▸ h1) (b1 ▸ h2)
  · obtain ⟨X, I, hX, hI, rfl, w, a1, b1⟩ := key i T hT
    exact ((set_full w I).2.2.2.2 (f i)).mpr fun t h1 h2 => hf i I hI t (a1 ▸ h1) (b1 ▸ h2)

theorem rep_over {T : Tube K} (hT : T.WF) {n : Nat} (hn : 0 < n) :
    VecOver (List.replicate n T) n T.t0 T.tf ∧ Sliced (List.replicate n T) (T.slices.map fun s => (s.lb, s.ub)) :=
  ⟨vecOver_of (by simp) hn fun i X hX => by rw [List.getElem?_replicate] at hX; split_ifs at hX; cases hX; exact ⟨hT, rfl, rfl⟩,
    fun X hX => by rw [(List.mem_replicate.mp hX).2]⟩

/-- **C151**, `TubeVector(tdomain, codomain)`: one slice, and exactly the functions with values in the box -/
theorem C151_domain {t0 tf : K} (h : t0 < tf) {b : Box K} (hb : b ≠ []) :
    ∃ x, ofDomBox t0 tf b = some x ∧ VecOver x b.length t0 tf ∧ Sliced x [(t0, tf)] ∧ ∀ f, InVector x f ↔ InBoxOver b t0 tf f := by
  have hl := List.length_pos_iff.mpr hb
  have hw : (Tube.single t0 tf (⊤ : Itv K)).WF := ⟨by simp [Tube.single], by simp [Tube.single, Tiles, h]⟩
  obtain ⟨h1, h2⟩ := rep_over hw hl
  obtain ⟨y, e, k⟩ := setAll_spec h1 (P := [(t0, tf)]) (by simpa [Tube.slices_bounds, Tube.single] using h2) rfl
  exact ⟨y, by unfold ofDomBox ofDom; rw [if_neg (by omega)]; exact e, k⟩

/-- **C151**, `TubeVector(x, codomain)`: the slices of `x`, and exactly the functions with values in the box -/
theorem C151_like {x : List (Tube K)} {n : Nat} {t0 tf : K} (h : VecOver x n t0 tf) {P : List (K × K)} (hP : Sliced x P) {b : Box K} (hb : b.length = n) :
    ∃ y, like x b = some y ∧ VecOver y n t0 tf ∧ Sliced y P ∧ ∀ f, InVector y f ↔ InBoxOver b t0 tf f := setAll_spec h hP hb

/-- **C151**, `TubeVector(n, x)`: `n` components with the slices and the functions of `x` -/
theorem C151_repeat {T : Tube K} (hT : T.WF) {n : Nat} (hn : 0 < n) :
    ∃ x, rep n T = some x ∧ VecOver x n T.t0 T.tf ∧ Sliced x (T.slices.map fun s => (s.lb, s.ub)) ∧ ∀ f, InVector x f ↔ ∀ i < n, T.Encloses (f i) := by
  obtain ⟨h1, h2⟩ := rep_over hT hn
  refine ⟨_, if_neg (by omega), h1, h2, fun f => ⟨fun hf i hi => hf i T (by rw [List.getElem?_replicate, if_pos hi]), fun hf i X hX => ?_⟩⟩
  rw [List.getElem?_replicate] at hX
  split_ifs at hX with hi
  cases hX
  exact hf i hi

/-- the domains follow each other from `a` to `b` -/
def FollowUp : K → List (K × K) → K → Prop
  | a, [], b => a = b
  | a, d :: l, b => d.1 = a ∧ d.1 < d.2 ∧ FollowUp d.2 l b

theorem contiguous_zip {g : Box K → Itv K} : ∀ {tds : List (K × K)} {cods : List (Box K)} {a b : K}, tds.length = cods.length → FollowUp a tds b →
    Contiguous a (List.zipWith (fun d c => (d, g c)) tds cods) b
  | [], [], _, _, _, h => h
  | d :: tds, c :: cods, a, b, hl, h => ⟨h.1, h.2.1, contiguous_zip (by simpa using hl) h.2.2⟩
  | [], _ :: _, _, _, hl, _ => by simp at hl
  | _ :: _, [], _, _, hl, _ => by simp at hl

/-- **C151**, `TubeVector(v_tdomains, v_codomains)` with domains which follow each other and boxes of `n` components: the slices have these domains, and the functions of the
vector are exactly those with values in the `k`-th box over the whole `k`-th domain -/
theorem C151_lists {tds : List (K × K)} {cods : List (Box K)} {a b : K} {n : Nat} (hn : 0 < n) (hne : tds ≠ []) (hl : tds.length = cods.length) (hc : FollowUp a tds b)
    (hs : ∀ c ∈ cods, c.length = n) : ∃ x, ofLists tds cods = some x ∧ VecOver x n a b ∧ Sliced x tds ∧
      ∀ f, InVector x f ↔ ∀ (k : Nat) (d : K × K) (c : Box K), tds[k]? = some d → cods[k]? = some c → InBoxOver c d.1 d.2 f := by
  have hne' : cods ≠ [] := fun e => hne (List.length_eq_zero_iff.mp (by rw [hl, e]; rfl))
  have hzne : ∀ g : Box K → Itv K, List.zipWith (fun d c => (d, g c)) tds cods ≠ [] := fun g e => by
    have := congrArg List.length e
    rw [List.length_zipWith, ← hl, min_self] at this
    exact hne (List.length_eq_zero_iff.mp this)
  have hT := fun j => C77_from_lists (hzne fun c => c.getD j ⊥) (contiguous_zip (g := fun c => c.getD j ⊥) hl hc)
  obtain ⟨x, hx⟩ := TVec.allM_total (f := fun j => Tube.ofList (List.zipWith (fun d (c : Box K) => (d, c.getD j ⊥)) tds cods)) (l := List.range n) fun j _ => by
    obtain ⟨T, e, -⟩ := hT j; exact ⟨T, e⟩
  obtain ⟨h1, h2⟩ := TVec.allM_get hx
  rw [List.length_range] at h1
  have key : ∀ (i : Nat) (T : Tube K), x[i]? = some T → i < n ∧ Tube.ofList (List.zipWith (fun d (c : Box K) => (d, c.getD i ⊥)) tds cods) = some T := by
    intro i T hi
    have hin : i < n := h1 ▸ (List.getElem?_eq_some_iff.mp hi).1
    obtain ⟨T', e1, e2⟩ := h2 i i (by rw [List.getElem?_range hin])
    rw [hi] at e1
    cases e1
    exact ⟨hin, e2⟩
  refine ⟨x, ?_, vecOver_of h1 hn fun i T hi => ?_, fun T hTm => ?_, fun f => ⟨fun hf k d c hd hcd i I hI t t1 t2 => ?_, fun hf i T hi => ?_⟩⟩
  · obtain ⟨c0, l0, rfl⟩ := List.exists_cons_of_ne_nil hne'
    have e0 : c0.length = n := hs c0 (by simp)
    simp only [ofLists]
    rw [if_pos ⟨hl, fun c hcm => (hs c hcm).trans e0.symm⟩, e0]
    exact hx
  · obtain ⟨-, e⟩ := key i T hi
    obtain ⟨T', e', w, q1, q2, -⟩ := hT i
    rw [e] at e'; cases e'
    exact ⟨w, q1, q2⟩
  · obtain ⟨i, hi⟩ := List.mem_iff_getElem?.mp hTm
    obtain ⟨-, e⟩ := key i T hi
    obtain ⟨T', e', w, q1, q2, -, q4, -⟩ := hT i
    rw [e] at e'; cases e'
    rw [q4, List.map_zipWith]
    apply List.ext_getElem?
    intro k
    rw [List.getElem?_zipWith]
    cases hk : tds[k]? with
    | none => rfl
    | some d =>
      obtain ⟨c, hc'⟩ : ∃ c, cods[k]? = some c := ⟨_, List.getElem?_eq_getElem (hl ▸ (List.getElem?_eq_some_iff.mp hk).1)⟩
      rw [hc']
  · have hin : i < n := (hs c (List.mem_iff_getElem?.mpr ⟨k, hcd⟩)) ▸ (List.getElem?_eq_some_iff.mp hI).1
    obtain ⟨T, e1, e2⟩ := h2 i i (by rw [List.getElem?_range hin])
    obtain ⟨T', e', -, -, -, -, -, q⟩ := hT i
    rw [e2] at e'; cases e'
    have := (q (f i)).mp (hf i T e1) (d, c.getD i ⊥) (List.mem_iff_getElem?.mpr ⟨k, by rw [List.getElem?_zipWith, hd, hcd]⟩) t t1 t2
    rwa [List.getD_eq_getElem?_getD, hI] at this
  · obtain ⟨hin, e⟩ := key i T hi
    obtain ⟨T', e', -, -, -, -, -, q⟩ := hT i
    rw [e] at e'; cases e'
    refine (q (f i)).mpr fun p hp t t1 t2 => ?_
    obtain ⟨k, hk⟩ := List.mem_iff_getElem?.mp hp
    obtain ⟨d, c, hd, hcd, rfl⟩ := zipWith_get hk
    have hlen := hs c (List.mem_iff_getElem?.mpr ⟨k, hcd⟩)
    refine hf k d c hd hcd i _ ?_ t t1 t2
    rw [List.getD_eq_getElem?_getD, List.getElem?_eq_getElem (hlen.symm ▸ hin)]
    rfl

end order

section field
variable {K : Type*} [Field K] [LinearOrder K] [IsStrictOrderedRing K] [Archimedean K]

/-- **C151**, `TubeVector(tdomain, timestep, codomain)`: it is built in a finite number of steps, its components have the same slices, not longer than the time step, and its
functions are exactly those with values in the box -/
theorem C151_step {t0 tf step : K} (h : t0 < tf) (hstep : 0 ≤ step) {b : Box K} (hb : b ≠ []) :
    ∃ x P, (∃ n, ∀ fuel ≥ n, ofStepBox (· + ·) (tf - t0) fuel t0 tf step b = some x) ∧ VecOver x b.length t0 tf ∧ Sliced x P ∧
      (0 < step → ∀ p ∈ P, p.2 - p.1 ≤ step) ∧ (step = 0 → P = [(t0, tf)]) ∧ ∀ f, InVector x f ↔ InBoxOver b t0 tf f := by
  have hl := List.length_pos_iff.mpr hb
  obtain ⟨T, ⟨n, hn⟩, rfl, rfl, hw, -, hlen, -, h0⟩ := C01_tube_from_step h hstep (⊤ : Itv K)
  obtain ⟨h1, h2⟩ := rep_over hw hl
  obtain ⟨y, e, k1, k2, k3⟩ := setAll_spec h1 h2 rfl
  refine ⟨y, _, ⟨n, fun fuel hf => ?_⟩, k1, k2, fun hs p hp => ?_, fun hs => ?_, k3⟩
  · unfold ofStepBox ofStepN
    rw [if_neg (by omega), hn fuel hf]
    exact e
  · obtain ⟨s, hs', rfl⟩ := List.mem_map.mp hp
    exact hlen hs s hs'
  · have hc := h0 hs
    unfold Tube.nbSlices at hc
    obtain ⟨c, hc⟩ := List.length_eq_one_iff.mp hc
    have := hw.tiles
    rw [hc] at this
    rw [Tube.slices_bounds, hc]
    simp only [Tiles] at this
    simp [this.1, this.2.2]

/-- **C151**, `TubeVector(traj, timestep)`: for a vector of trajectories given by their evaluations over intervals, the vector of tubes contains all the functions enclosed by
the evaluations, and its components have the same slices, not longer than the time step -/
theorem C151_trajectory {t0 tf step : K} (h : t0 < tf) (hstep : 0 ≤ step) {ev : List (Itv K → Itv K)} (hev : ev ≠ []) :
    ∃ x P, (∃ n, ∀ fuel ≥ n, ofTrajs (· + ·) (tf - t0) fuel t0 tf step ev = some x) ∧ VecOver x ev.length t0 tf ∧ Sliced x P ∧
      (0 < step → ∀ p ∈ P, p.2 - p.1 ≤ step) ∧
      (∀ (i : Nat) (T : Tube K) (e : Itv K → Itv K), x[i]? = some T → ev[i]? = some e → ∀ s ∈ T.slices, s.cod = e (Itv.icc s.lb s.ub) ∧ s.inG = e (Itv.point s.lb) ∧
        s.outG = e (Itv.point s.ub)) ∧
      ∀ f : Nat → K → K, (∀ (i : Nat) (e : Itv K → Itv K), ev[i]? = some e → EnclosesOn e (f i) t0 tf) → InVector x f := by
  have hl := List.length_pos_iff.mpr hev
  obtain ⟨T, ⟨n, hn⟩, rfl, rfl, hw, -, hlen, -, -⟩ := C01_tube_from_step h hstep (⊤ : Itv K)
  obtain ⟨e1, e2, e3, e4, -⟩ := set_full hw (⊥ : Itv K)
  have hes : ∀ s ∈ T.setEmpty.slices, s.cod = ⊥ ∧ s.inG = ⊥ ∧ s.outG = ⊥ := fun s hs => by
    unfold Tube.setEmpty at hs
    rw [set_eq hw.ne] at hs
    exact mem_slices_const hs
  have key : ∀ (i : Nat) (X : Tube K), (List.zipWith (fun (a : Tube K) e => a.opAssignTraj (· ⊔ ·) e) (List.replicate ev.length T.setEmpty) ev)[i]? = some X →
      ∃ e, ev[i]? = some e ∧ X = T.setEmpty.opAssignTraj (· ⊔ ·) e := by
    intro i X hX
    obtain ⟨a, e, ha, he, rfl⟩ := zipWith_get hX
    rw [(List.mem_replicate.mp (List.mem_iff_getElem?.mpr ⟨i, ha⟩)).2]
    exact ⟨e, he, rfl⟩
  refine ⟨List.zipWith (fun (a : Tube K) e => a.opAssignTraj (· ⊔ ·) e) (List.replicate ev.length T.setEmpty) ev, T.slices.map fun s => (s.lb, s.ub), ⟨n, fun fuel hf => ?_⟩, vecOver_of ?_ hl fun i X hX => ?_, fun X hX => ?_, fun hs p hp => ?_, fun i X e hX he s hs => ?_,
    fun f hf i X hX => ?_⟩
  · unfold ofTrajs ofStepN assignTraj
    rw [if_neg (by omega), hn fuel hf, Option.map_some, Option.bind_some, List.map_replicate, if_pos (by simp)]
  · simp
  · obtain ⟨e, -, rfl⟩ := key i X hX
    exact ⟨opAssignTraj_wf e1, e2, e3⟩
  · obtain ⟨i, hi⟩ := List.mem_iff_getElem?.mp hX
    obtain ⟨e, -, rfl⟩ := key i X hi
    rw [opAssignTraj_slices (T := T.setEmpty) e1, List.map_map]
    exact e4
  · obtain ⟨s, hs', rfl⟩ := List.mem_map.mp hp
    exact hlen hs s hs'
  · obtain ⟨e', he', rfl⟩ := key i X hX
    rw [he] at he'; cases he'
    rw [opAssignTraj_slices (T := T.setEmpty) e1, List.mem_map] at hs
    obtain ⟨s0, hs0, rfl⟩ := hs
    obtain ⟨q1, q2, q3⟩ := hes s0 hs0
    simp only [q1, q2, q3, bot_sup_eq, and_self]
  · obtain ⟨e, he, rfl⟩ := key i X hX
    refine unionTraj_new e1 ?_
    rw [e2, e3]
    exact hf i e he

/-- **C151**, `TubeVector(lb, ub, timestep)`: the vector contains the two vectors of trajectories and all the functions between them, component by component -/
theorem C151_two_trajectories {t0 tf step : K} (h : t0 < tf) (hstep : 0 ≤ step) {evl evu : List (Itv K → Itv K)} (hev : evl ≠ []) (hlen : evu.length = evl.length) :
    ∃ x P, (∃ n, ∀ fuel ≥ n, ofTwoTrajs (· + ·) (tf - t0) fuel t0 tf step evl evu = some x) ∧ VecOver x evl.length t0 tf ∧ Sliced x P ∧ (0 < step → ∀ p ∈ P, p.2 - p.1 ≤ step) ∧
      ∀ f g : Nat → K → K, (∀ (i : Nat) (e : Itv K → Itv K), evl[i]? = some e → EnclosesOn e (f i) t0 tf) → (∀ (i : Nat) (e : Itv K → Itv K), evu[i]? = some e → EnclosesOn e (g i) t0 tf) →
        InVector x f ∧ InVector x g ∧ ∀ k : Nat → K → K, (∀ i t, t0 ≤ t → t ≤ tf → f i t ≤ k i t ∧ k i t ≤ g i t) → InVector x k := by
  obtain ⟨x, P, ⟨n, hn⟩, k1, k2, k3, -, k5⟩ := C151_trajectory h hstep hev
  have key : ∀ (i : Nat) (X : Tube K), (List.zipWith (fun (a : Tube K) e => a.opAssignTraj (· ⊔ ·) e) x evu)[i]? = some X →
      ∃ T e, x[i]? = some T ∧ evu[i]? = some e ∧ X = T.opAssignTraj (· ⊔ ·) e ∧ T.WF ∧ T.t0 = t0 ∧ T.tf = tf := by
    intro i X hX
    obtain ⟨T, e, hT, he, rfl⟩ := zipWith_get hX
    obtain ⟨w, a, b⟩ := k1.get hT
    exact ⟨T, e, hT, he, rfl, w, a, b⟩
  refine ⟨List.zipWith (fun (a : Tube K) e => a.opAssignTraj (· ⊔ ·) e) x evu, P, ⟨n, fun fuel hf => ?_⟩, vecOver_of (by simp [k1.size, hlen]) k1.pos fun i X hX => ?_, fun X hX => ?_, k3,
    fun f g hf hg => ?_⟩
  · unfold ofTwoTrajs assignTraj
    rw [hn fuel hf, Option.bind_some, if_pos (k1.size.trans hlen.symm)]
  · obtain ⟨T, e, -, -, rfl, w, a, b⟩ := key i X hX
    exact ⟨opAssignTraj_wf w, a, b⟩
  · obtain ⟨i, hi⟩ := List.mem_iff_getElem?.mp hX
    obtain ⟨T, e, hT, -, rfl, w, -⟩ := key i X hi
    rw [opAssignTraj_slices w, List.map_map]
    exact k2 T (List.mem_iff_getElem?.mpr ⟨i, hT⟩)
  · have q1 : InVector (List.zipWith (fun (a : Tube K) e => a.opAssignTraj (· ⊔ ·) e) x evu) f := fun i X hX => by
      obtain ⟨T, e, hT, -, rfl, w, -⟩ := key i X hX
      exact unionTraj_old w (k5 f hf i T hT)
    have q2 : InVector (List.zipWith (fun (a : Tube K) e => a.opAssignTraj (· ⊔ ·) e) x evu) g := fun i X hX => by
      obtain ⟨T, e, -, he, rfl, w, a, b⟩ := key i X hX
      exact unionTraj_new w (by rw [a, b]; exact hg i e he)
    refine ⟨q1, q2, fun k hk i X hX => ?_⟩
    obtain ⟨T, e, -, -, rfl, w, a, b⟩ := key i X hX
    refine encloses_between (opAssignTraj_wf w) (q1 i _ hX) (q2 i _ hX) (fun t h1 h2 => (hk i t ?_ ?_).1) (fun t h1 h2 => (hk i t ?_ ?_).2)
    · exact a ▸ h1
    · exact b ▸ h2
    · exact a ▸ h1
    · exact b ▸ h2

end field

/-! ### Concrete cases -/

example : ofLists [((0 : ℚ), (1 : ℚ)), (1, 3)] [[Itv.icc 0 2, Itv.icc 5 6], [Itv.icc 1 5, Itv.icc 5 5]] =
    some [⟨0, 3, Itv.icc 0 2, [⟨0, 1, Itv.icc 0 2, Itv.icc 1 2⟩, ⟨1, 3, Itv.icc 1 5, Itv.icc 1 5⟩]⟩,
      ⟨0, 3, Itv.icc 5 6, [⟨0, 1, Itv.icc 5 6, Itv.icc 5 5⟩, ⟨1, 3, Itv.icc 5 5, Itv.icc 5 5⟩]⟩] ∧ FollowUp (0 : ℚ) [(0, 1), (1, 3)] 3 :=
  ⟨by decide +kernel, rfl, by norm_num, rfl, by norm_num, rfl⟩

example : ofStepBox (K := ℚ) (· + ·) 1 5 0 1 (1 / 2) [Itv.icc 0 1, Itv.icc 2 3] =
    some [⟨0, 1, Itv.icc 0 1, [⟨0, 1 / 2, Itv.icc 0 1, Itv.icc 0 1⟩, ⟨1 / 2, 1, Itv.icc 0 1, Itv.icc 0 1⟩]⟩,
      ⟨0, 1, Itv.icc 2 3, [⟨0, 1 / 2, Itv.icc 2 3, Itv.icc 2 3⟩, ⟨1 / 2, 1, Itv.icc 2 3, Itv.icc 2 3⟩]⟩] := by decide +kernel

example : ofTwoTrajs (K := ℚ) (· + ·) 1 5 0 1 1 [fun I => I] [fun _ => Itv.icc 2 2] = some [⟨0, 1, Itv.icc 0 2, [⟨0, 1, Itv.icc 0 2, Itv.icc 1 2⟩]⟩] := by decide +kernel

end Codac.Props
