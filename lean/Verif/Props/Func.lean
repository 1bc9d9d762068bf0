import Verif.Tube.Func
import Verif.Props.Static

/-!
# Functions of tubes: properties C51 and C76
-/

set_option linter.unusedSectionVars false

namespace Codac.Props
open Codac

variable {K : Type*} [LinearOrder K]

/-- `F` is an inclusion function of the functions `f 0`, …, `f (m-1)` (interval evaluation of IBEX): the image of a point of a box is in the
image of the box -/
def InclusionFun (m : Nat) (f : Nat → List K → K) (F : Nat → Box K → Itv K) : Prop := ∀ i < m, ∀ v X, InBox v X → f i v ∈ F i X

theorem tfunEval_some {F : Nat → Box K → Itv K} {m : Nat} {T : Tube K} {x : List (Tube K)} (hx : x.head? = some T) (hs : vSameSlicing x = true)
    (he : x.any Tube.isEmpty = false) : tfunEval F m x = some ((List.range m).map fun i =>
      T.rebuild (fun k a b => F i (Itv.icc a b :: x.map fun X => X.codAt k)) (F i (Itv.point T.t0 :: x.map fun X => X.g0))
        fun k b => F i (Itv.point b :: x.map fun X => X.outGAt k)) := by
  cases x with
  | nil => simp at hx
  | cons T' l =>
    simp only [List.head?_cons, Option.some.injEq] at hx
    subst hx
    simp only [tfunEval]
    rw [if_pos hs, he]
    rfl

theorem any_empty_of_encl {x : List (Tube K)} {fs : List (K → K)} (hwf : ∀ X ∈ x, X.WF) (hgc : ∀ X ∈ x, X.GatesInEnvelopes) (hf : VEncloses x fs) :
    x.any Tube.isEmpty = false := by
  unfold VEncloses at hf
  induction hf with
  | nil => rfl
  | cons h1 _ ih =>
    rw [List.any_cons, Bool.or_eq_false_iff]
    exact ⟨not_isEmpty_of_encloses (hwf _ (by simp)) h1 (hgc _ (by simp)), ih (fun X hX => hwf X (by simp [hX])) fun X hX => hgc X (by simp [hX])⟩

theorem any_isEmpty_of_inBox {v : List K} {X : Box K} (h : InBox v X) : X.any Itv.isEmpty = false := by
  unfold InBox at h
  induction h with
  | nil => rfl
  | cons h1 _ ih =>
    rw [List.any_cons, Bool.or_eq_false_iff]
    exact ⟨Itv.isEmpty_false_iff.mpr (Itv.ne_bot_of_mem h1), ih⟩

/-- **C51**: for every vector of trajectories `fs` in the vector of tubes `x`, the `i`-th tube of `f.eval_vector(x)` contains the trajectory
`t ↦ f_i(t, fs(t))`; it is well formed, with the slicing of `x`. -/
theorem C51_eval_tubes {m : Nat} {f : Nat → List K → K} {F : Nat → Box K → Itv K} (hF : InclusionFun m f F) {x : List (Tube K)} {fs : List (K → K)}
    (hs : vSameSlicing x = true) (hwf : ∀ X ∈ x, X.WF) (hgc : ∀ X ∈ x, X.GatesInEnvelopes) (hf : VEncloses x fs) :
    ∃ ys, tfunEval F m x = some ys ∧ ys.length = m ∧ ∀ i (Y : Tube K), ys[i]? = some Y → Y.WF ∧ Y.Encloses (fun t => f i (t :: fs.map (· t))) ∧
      ∀ X ∈ x, Y.slices.map (fun s => (s.lb, s.ub)) = X.slices.map (fun s => (s.lb, s.ub)) := by
  obtain ⟨T, hT⟩ := vecOk_of hs hwf
  refine ⟨_, tfunEval_some hT.head hs (any_empty_of_encl hwf hgc hf), by simp, fun i Y hY => ?_⟩
  rw [List.getElem?_map, Option.map_eq_some_iff] at hY
  obtain ⟨j, hj, rfl⟩ := hY
  have hi : i < m := by simpa using (List.getElem?_eq_some_iff.mp hj).1
  have : j = i := by
    have := (List.getElem?_eq_some_iff.mp hj).2
    simpa using this.symm
  subst this
  have hTw := hwf T hT.mem
  refine ⟨rebuild_wf hTw _ _ _, rebuild_encloses hTw ?_ ?_ ?_, fun X hX => ?_⟩
  · refine hF j hi _ _ (.cons (Itv.mem_point.mpr rfl) (inBox_of_encl hf fun X hX g hg => ?_))
    rw [← vec_t0 hT hX]
    exact encl_g0 (hwf X hX) hg
  · intro k s hk
    refine hF j hi _ _ (.cons (Itv.mem_point.mpr rfl) (inBox_of_encl hf fun X hX g hg => ?_))
    obtain ⟨s', h1, h2, h3⟩ := hT.getElem hk hX
    rw [outGAt_eq h1, ← h3]
    exact (hg s' (List.mem_of_getElem? h1)).2.1
  · intro k s hk t h1 h2
    refine hF j hi _ _ (.cons (Itv.mem_icc.mpr ⟨h1.le, h2.le⟩) (inBox_of_encl hf fun X hX g hg => ?_))
    obtain ⟨s', h3, h4, h5⟩ := hT.getElem hk hX
    rw [codAt_eq h3]
    exact (hg s' (List.mem_of_getElem? h3)).2.2 t (h4 ▸ h1) (h5 ▸ h2)
  · rw [rebuild_bounds, hT.same X hX]

/-- **C51**, consistency of the result: with an inclusion monotone evaluation, the gates of the tubes of `f.eval_vector(x)` are in the envelopes
around them, as those of `x`. -/
theorem C51_eval_gates [Nonempty K] [NoMinOrder K] [NoMaxOrder K] {m : Nat} {F : Nat → Box K → Itv K} (hm : ∀ i < m, ∀ X Y, BoxLe X Y → F i X ≤ F i Y) {x ys : List (Tube K)}
    (hwf : ∀ X ∈ x, X.WF) (hgc : ∀ X ∈ x, X.GatesInEnvelopes) (he : x.any Tube.isEmpty = false) (h : tfunEval F m x = some ys) :
    ∀ Y ∈ ys, Y.GatesInEnvelopes := by
  have hs : vSameSlicing x = true := by
    cases x with
    | nil => simp [tfunEval] at h
    | cons T l =>
      by_contra hc
      simp only [tfunEval] at h
      rw [if_neg hc] at h
      cases h
  obtain ⟨T, hT⟩ := vecOk_of hs hwf
  rw [tfunEval_some hT.head hs he, Option.some.injEq] at h
  subst h
  intro Y hY
  rw [List.mem_map] at hY
  obtain ⟨i, hi, rfl⟩ := hY
  have hi : i < m := by simpa using hi
  have hTw := hwf T hT.mem
  have le : ∀ (G H : Tube K → Itv K) (I J : Itv K), I ≤ J → (∀ X ∈ x, G X ≤ H X) → F i (I :: x.map G) ≤ F i (J :: x.map H) := by
    intro G H I J h1 h2
    refine hm i hi _ _ (.cons h1 ?_)
    rw [List.forall₂_map_left_iff, List.forall₂_map_right_iff]
    exact List.forall₂_same.mpr h2
  intro s hs'
  obtain ⟨k, s', h1, h2, h3, h4, h5, h6⟩ := rebuild_slice hs'
  have hlt := hTw.tiles.mem_bounds (List.mem_of_getElem? h1)
  have hin : (Itv.point s'.ub : Itv K) ≤ Itv.icc s'.lb s'.ub := Itv.le_iff.mpr fun t ht => by
    rw [Itv.mem_point] at ht; subst ht; exact Itv.mem_icc.mpr ⟨hlt.2.1.le, le_rfl⟩
  have hin' : (Itv.point s'.lb : Itv K) ≤ Itv.icc s'.lb s'.ub := Itv.le_iff.mpr fun t ht => by
    rw [Itv.mem_point] at ht; subst ht; exact Itv.mem_icc.mpr ⟨le_rfl, hlt.2.1.le⟩
  rw [h4, h5]
  refine ⟨?_, le _ _ _ _ hin fun X hX => ?_⟩
  · rcases h6 with ⟨rfl, h6⟩ | ⟨p, hk, hp, h6⟩
    · rw [h6]
      have h0 : s'.lb = T.t0 := by
        have ht := hTw.tiles
        unfold Tube.slices at h1
        cases hc : T.cells with
        | nil => exact absurd hc hTw.ne
        | cons c cs =>
          rw [hc] at ht h1
          rw [slicesFrom_cons, List.getElem?_cons_zero, Option.some.injEq] at h1
          subst h1
          exact ht.1
      rw [← h0]
      refine le _ _ _ _ hin' fun X hX => ?_
      obtain ⟨s'', e1, e2, e3⟩ := hT.getElem h1 hX
      rw [codAt_eq e1]
      have e4 := (hgc X hX s'' (List.mem_of_getElem? e1)).1
      unfold Tube.slices at e1
      rw [slicesFrom_get_out, Option.map_eq_some_iff] at e1
      obtain ⟨c, -, rfl⟩ := e1
      simpa using e4
    · rw [h6, ← slices_link hTw hk h1 hp]
      refine le _ _ _ _ hin' fun X hX => ?_
      obtain ⟨s'', e1, e2, e3⟩ := hT.getElem h1 hX
      obtain ⟨p', f1, f2, f3⟩ := hT.getElem hp hX
      rw [codAt_eq e1, outGAt_eq f1, ← gates_link hk e1 f1]
      exact (hgc X hX s'' (List.mem_of_getElem? e1)).1
  · obtain ⟨s'', e1, e2, e3⟩ := hT.getElem h1 hX
    rw [codAt_eq e1, outGAt_eq e1]
    exact (hgc X hX s'' (List.mem_of_getElem? e1)).2

/-- **C51**, an empty argument: when a tube of `x` has an empty slice or gate, all the envelopes and gates of the result are empty. -/
theorem C51_eval_empty {m : Nat} {F : Nat → Box K → Itv K} {x : List (Tube K)} (hs : vSameSlicing x = true) (hwf : ∀ X ∈ x, X.WF)
    (he : x.any Tube.isEmpty = true) : ∃ ys, tfunEval F m x = some ys ∧ ys.length = m ∧
      ∀ Y ∈ ys, ∀ s ∈ Y.slices, s.cod = ⊥ ∧ s.inG = ⊥ ∧ s.outG = ⊥ := by
  obtain ⟨T, hT⟩ := vecOk_of hs hwf
  have hh := hT.head
  have hmem := hT.mem
  cases x with
  | nil => simp at hh
  | cons T' l =>
    simp only [List.head?_cons, Option.some.injEq] at hh
    subst hh
    refine ⟨_, by simp only [tfunEval]; rw [if_pos hs, if_pos he], by simp, fun Y hY => ?_⟩
    rw [List.mem_map] at hY
    obtain ⟨i, -, rfl⟩ := hY
    have hmi : (T' :: l)[i]?.getD T' ∈ T' :: l := by
      cases hq : (T' :: l)[i]? with
      | none => exact hmem
      | some Z => exact List.mem_of_getElem? hq
    intro s hs'
    exact setEmpty_slices (hwf _ hmi) hs'

/-- **C51**, evaluation over an interval of time: `f.eval_vector(t, x)` contains the values of `f` along every vector of trajectories of `x` at
every instant of `t`. -/
theorem C51_eval_itv {m : Nat} {f : Nat → List K → K} {F : Nat → Box K → Itv K} (hF : InclusionFun m f F) {x : List (Tube K)} {fs : List (K → K)}
    (hwf : ∀ X ∈ x, X.WF) (hgc : ∀ X ∈ x, X.GatesInEnvelopes) (hf : VEncloses x fs) {I : Itv K} {t : K} (ht : t ∈ I) :
    InBox ((List.range m).map fun i => f i (t :: fs.map (· t))) (tfunEvalItv F m I x) := by
  have h1 : InBox (fs.map (· t)) (x.map fun X => X.evalItv I) := inBox_of_encl hf fun X hX g hg => evalItv_mem (hwf X hX) (hgc X hX) hg ht
  unfold tfunEvalItv
  have h2 : (x.map fun X => X.evalItv I).any Itv.isEmpty = false := any_isEmpty_of_inBox h1
  simp only [h2]
  show InBox _ ((List.range m).map _)
  unfold InBox
  rw [List.forall₂_map_left_iff, List.forall₂_map_right_iff, List.forall₂_same]
  exact fun i hi => hF i (by simpa using hi) _ _ (.cons ht h1)

/-- **C51**, evaluation on a slice: `f.eval_vector(k, x)` contains the values of `f` along every vector of trajectories of `x` inside the `k`-th
slice. -/
theorem C51_eval_slice {m k : Nat} {f : Nat → List K → K} {F : Nat → Box K → Itv K} (hF : InclusionFun m f F) {x : List (Tube K)} {fs : List (K → K)}
    (hs : vSameSlicing x = true) (hwf : ∀ X ∈ x, X.WF) (hgc : ∀ X ∈ x, X.GatesInEnvelopes) (hf : VEncloses x fs) {X₀ : Tube K} (hX₀ : X₀ ∈ x)
    {s : Slice K} (hk : X₀.slices[k]? = some s) {t : K} (h1 : s.lb ≤ t) (h2 : t ≤ s.ub) :
    ∃ Y, tfunEvalSlice F m k x = some Y ∧ InBox ((List.range m).map fun i => f i (t :: fs.map (· t))) Y := by
  obtain ⟨T, hT⟩ := vecOk_of hs hwf
  have hh := hT.head
  cases x with
  | nil => simp at hh
  | cons T' l =>
    simp only [List.head?_cons, Option.some.injEq] at hh
    subst hh
    obtain ⟨s0, e1, e2, e3⟩ : ∃ s0, T'.slices[k]? = some s0 ∧ s0.lb = s.lb ∧ s0.ub = s.ub := by
      have := congrArg (·[k]?) (hT.same X₀ hX₀)
      simp only [List.getElem?_map, hk, Option.map_some] at this
      cases h0 : T'.slices[k]? with
      | none => simp [h0] at this
      | some s0 =>
        simp only [h0, Option.map_some, Option.some.injEq, Prod.mk.injEq] at this
        exact ⟨s0, rfl, this.1.symm, this.2.symm⟩
    have hb : InBox (fs.map (· t)) ((T' :: l).map fun X => X.codAt k) := inBox_of_encl hf fun X hX g hg => by
      obtain ⟨s', f1, f2, f3⟩ := hT.getElem e1 hX
      rw [codAt_eq f1]
      have hm := List.mem_of_getElem? f1
      have hg' := hg s' hm
      unfold Slice.Encloses at hg'
      have hG := hgc X hX s' hm
      rw [f2, f3, e2, e3] at hg'
      rcases eq_or_lt_of_le h1 with rfl | h1
      · exact Itv.mem_of_le hG.1 hg'.1
      · rcases eq_or_lt_of_le h2 with rfl | h2
        · exact Itv.mem_of_le hG.2 hg'.2.1
        · exact hg'.2.2 t h1 h2
    refine ⟨_, by simp only [tfunEvalSlice]; rw [if_pos hs, e1, any_isEmpty_of_inBox hb, Option.map_some], ?_⟩
    simp only [Bool.false_eq_true, if_false]
    unfold InBox
    rw [List.forall₂_map_left_iff, List.forall₂_map_right_iff, List.forall₂_same]
    exact fun i hi => hF i (by simpa using hi) _ _ (.cons (Itv.mem_icc.mpr ⟨e2 ▸ h1, e3 ▸ h2⟩) hb)

/-- sum of the components of a point, and its interval evaluation -/
def sumFun : List ℚ → ℚ := List.sum
def sumItv (X : Box ℚ) : Itv ℚ := X.foldr Itv.add (Itv.point 0)

/-- the hypothesis on the evaluation is met -/
theorem sum_inclusion : InclusionFun 1 (fun _ => sumFun) (fun _ => sumItv) := by
  intro i _ v X h
  unfold InBox at h
  induction h with
  | nil => exact Itv.mem_point.mpr rfl
  | cons h1 _ ih => exact Itv.mem_add h1 ih

/-- the tube of `t + x(t)` for a tube of two slices -/
example : tfunEval (fun _ => sumItv) 1 [(⟨0, 2, Itv.icc 0 0, [⟨0, 1, Itv.icc 0 2, Itv.icc 0 1⟩, ⟨1, 2, Itv.icc (-1) 3, Itv.icc 2 3⟩]⟩ : Tube ℚ)] =
    some [⟨0, 2, Itv.icc 0 0, [⟨0, 1, Itv.icc 0 3, Itv.icc 1 2⟩, ⟨1, 2, Itv.icc 0 5, Itv.icc 4 5⟩]⟩] := by decide +kernel

/-! ### C76: generic evaluation of a function of tubes, delays -/

/-- **C76**, evaluation slice by slice (`TFnc::eval_vector(x)`): when `eval_vector(t, x)` contains the values of `g i` over `t` for every interval
of time `t` of the time domain, the `i`-th tube contains `g i`; it has the slicing of `x`. -/
theorem C76_tfnc_eval {m : Nat} {ev : Nat → Itv K → Itv K} {g : Nat → K → K} {x : List (Tube K)} {fs : List (K → K)} (hs : vSameSlicing x = true)
    (hwf : ∀ X ∈ x, X.WF) (hgc : ∀ X ∈ x, X.GatesInEnvelopes) (hf : VEncloses x fs) {T : Tube K} (hT : T ∈ x)
    (hev : ∀ i < m, ∀ a b t, T.t0 ≤ a → a ≤ t → t ≤ b → b ≤ T.tf → g i t ∈ ev i (Itv.icc a b)) :
    ∃ ys, tfncEval ev m x = some ys ∧ ys.length = m ∧ ∀ i (Y : Tube K), ys[i]? = some Y → Y.WF ∧ Y.Encloses (g i) ∧
      ∀ X ∈ x, Y.slices.map (fun s => (s.lb, s.ub)) = X.slices.map (fun s => (s.lb, s.ub)) := by
  obtain ⟨T₀, hT₀⟩ := vecOk_of hs hwf
  have hh := hT₀.head
  have he := any_empty_of_encl hwf hgc hf
  cases x with
  | nil => simp at hh
  | cons T' l =>
    simp only [List.head?_cons, Option.some.injEq] at hh
    subst hh
    have hd0 : T.t0 = T'.t0 := vec_t0 hT₀ hT
    have hdf : T.tf = T'.tf := vec_tf hT₀ hT
    rw [hd0, hdf] at hev
    refine ⟨_, by simp only [tfncEval]; rw [if_pos hs, he]; rfl, by simp, fun i Y hY => ?_⟩
    rw [List.getElem?_map, Option.map_eq_some_iff] at hY
    obtain ⟨j, hj, rfl⟩ := hY
    have hi : i < m := by simpa using (List.getElem?_eq_some_iff.mp hj).1
    have : j = i := by
      have := (List.getElem?_eq_some_iff.mp hj).2
      simpa using this.symm
    subst this
    have hTw := hwf T' hT₀.mem
    have hpt : ∀ a, (Itv.point a : Itv K) = Itv.icc a a := fun a => (Itv.icc_eq_mk le_rfl).symm
    have hle : T'.t0 ≤ T'.tf := hTw.tiles.le
    refine ⟨rebuild_wf hTw _ _ _, rebuild_encloses hTw ?_ ?_ ?_, fun X hX => ?_⟩
    · rw [hpt]; exact hev j hi _ _ _ le_rfl le_rfl le_rfl hle
    · intro k s hk
      have hb := hTw.tiles.mem_bounds (List.mem_of_getElem? hk)
      rw [hpt]; exact hev j hi _ _ _ (le_trans hb.1 hb.2.1.le) le_rfl le_rfl hb.2.2
    · intro k s hk t h1 h2
      have hb := hTw.tiles.mem_bounds (List.mem_of_getElem? hk)
      exact hev j hi _ _ _ hb.1 h1.le h2.le hb.2.2
    · rw [rebuild_bounds, hT₀.same X hX]

section
variable {K : Type*} [Field K] [LinearOrder K] [IsStrictOrderedRing K]

/-- **C76**: for every trajectory `f` of the tube `x`, the tube `DelayTFunction(d).eval(x)` contains every trajectory `g` with `g(t) = f(t + d)` when
`t` and `t + d` are in the time domain. -/
theorem C76_delay_sound {T : Tube K} (hT : T.WF) (hg : T.GatesInEnvelopes) {d : K} {f g : K → K} (hf : T.Encloses f)
    (hfg : ∀ t, T.t0 ≤ t → t ≤ T.tf → T.t0 ≤ t + d → t + d ≤ T.tf → g t = f (t + d)) :
    ∃ Y, tfncEval (fun _ => delayEval T d) 1 [T] = some [Y] ∧ Y.WF ∧ Y.Encloses g ∧
      Y.slices.map (fun s => (s.lb, s.ub)) = T.slices.map (fun s => (s.lb, s.ub)) := by
  obtain ⟨ys, h1, h2, h3⟩ := C76_tfnc_eval (m := 1) (ev := fun _ => delayEval T d) (g := fun _ => g) (x := [T]) (fs := [f]) rfl
    (by simpa using hT) (by simpa using hg) (.cons hf .nil) (T := T) (by simp) (by
      intro i _ a b t ha h1 h2 hb
      unfold delayEval
      split_ifs with hd
      · have hm : t + d ∈ Itv.add (Itv.icc a b) (.point d) := Itv.mem_add (Itv.mem_icc.mpr ⟨h1, h2⟩) (Itv.mem_point.mpr rfl)
        have hm' := Itv.mem_icc.mp (Itv.mem_of_le hd hm)
        rw [hfg t (le_trans ha h1) (le_trans h2 hb) hm'.1 hm'.2]
        exact evalItv_mem hT hg hf hm
      · exact Itv.mem_top _)
  obtain ⟨Y, rfl⟩ := List.length_eq_one_iff.mp h2
  obtain ⟨h4, h5, h6⟩ := h3 0 Y rfl
  exact ⟨Y, h1, h4, h5, h6 T (by simp)⟩

end

/-- a delay of one second on a tube of three slices -/
example : tfncEval (fun _ => delayEval (⟨0, 3, Itv.icc 0 0, [⟨0, 1, Itv.icc 0 2, Itv.icc 0 1⟩, ⟨1, 2, Itv.icc (-1) 3, Itv.icc 2 3⟩,
    ⟨2, 3, Itv.icc 2 4, Itv.icc 4 4⟩]⟩ : Tube ℚ) 1) 1 [⟨0, 3, Itv.icc 0 0, [⟨0, 1, Itv.icc 0 2, Itv.icc 0 1⟩, ⟨1, 2, Itv.icc (-1) 3, Itv.icc 2 3⟩,
    ⟨2, 3, Itv.icc 2 4, Itv.icc 4 4⟩]⟩] =
    some [⟨0, 3, Itv.icc 0 1, [⟨0, 1, Itv.icc (-1) 3, Itv.icc 2 3⟩, ⟨1, 2, Itv.icc 2 4, Itv.icc 4 4⟩, ⟨2, 3, ⊤, ⊤⟩]⟩] := by decide +kernel

end Codac.Props
