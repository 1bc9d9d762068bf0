import Verif.Ctc.Delay
import Verif.Ctc.Eval
import Verif.Ctc.Static
import Verif.Tube.Vector

/-!
# Functions of tubes

Sources: `src/core/functions/codac_TFunction.cpp`, `src/core/functions/codac_TFnc.cpp`, `src/core/functions/codac_DelayTFunction.cpp`. The
evaluation of a function over a box is done by IBEX (`Function::eval_vector`): it is a parameter `F`, `F i X` being the `i`-th component of the image
of the box `X`, the time being the first component of `X`.
-/

set_option linter.unusedSectionVars false

namespace Codac

variable {K : Type*} [LinearOrder K]

/-- a tube with the slicing of `T` (codac_TFunction.cpp:356-357, codac_TFnc.cpp:77-78): all its envelopes and gates are replaced, the envelope of the
`k`-th slice by `e k lb ub`, its output gate by `q k ub` and the first gate by `q0` -/
def Tube.rebuild (T : Tube K) (e : Nat → K → K → Itv K) (q0 : Itv K) (q : Nat → K → Itv K) : Tube K :=
  ⟨T.t0, T.tf, q0, T.cells.mapIdx fun k c => ⟨c.lb, c.ub, e k c.lb c.ub, q k c.ub⟩⟩

/-- `TFunction::eval_vector(const TubeVector&)`, codac_TFunction.cpp:344-419, for a function with `m` outputs. Each output has the slicing of `x`.
The input gate of a slice is computed from the input gates of the same slices of `x`, which are the output gates of the previous ones.
`none` when the slicings of the components differ (in the code, slices of different time domains are mixed or a null pointer is followed). -/
def tfunEval (F : Nat → Box K → Itv K) (m : Nat) (x : List (Tube K)) : Option (List (Tube K)) :=
  match x with
  | [] => none
  | T :: _ =>
    if vSameSlicing x then
      if x.any Tube.isEmpty then some ((List.range m).map fun i => (x[i]?.getD T).set ⊥)
      else some ((List.range m).map fun i => T.rebuild (fun k a b => F i (Itv.icc a b :: x.map fun X => X.codAt k))
        (F i (Itv.point T.t0 :: x.map fun X => X.g0)) fun k b => F i (Itv.point b :: x.map fun X => X.outGAt k))
    else none

/-- `TFunction::eval_vector(const Interval&, const TubeVector&)`, codac_TFunction.cpp:324-342 (`x.tdomain().is_superset(t)` is asserted).
Simplified: IBEX tests the first component of the box to know if it is empty; here all of them are tested -/
def tfunEvalItv (F : Nat → Box K → Itv K) (m : Nat) (t : Itv K) (x : List (Tube K)) : Box K :=
  let X := x.map fun T => T.evalItv t
  if X.any Itv.isEmpty then List.replicate m ⊥ else (List.range m).map fun i => F i (t :: X)

/-- `TFunction::eval_vector(int slice_id, const TubeVector&)`, codac_TFunction.cpp:303-322; the time is that of the first component -/
def tfunEvalSlice (F : Nat → Box K → Itv K) (m k : Nat) (x : List (Tube K)) : Option (Box K) :=
  match x with
  | [] => none
  | T :: _ =>
    if vSameSlicing x then
      T.slices[k]?.map fun s =>
        let X := x.map fun T => T.codAt k
        if X.any Itv.isEmpty then List.replicate m ⊥ else (List.range m).map fun i => F i (Itv.icc s.lb s.ub :: X)
    else none

/-- `TFnc::eval_vector(const TubeVector&)`, codac_TFnc.cpp:72-118, for a function `ev` of an interval of time (`eval_vector(Interval, TubeVector)` for
the tube `x`), `ev i t` being the `i`-th component -/
def tfncEval (ev : Nat → Itv K → Itv K) (m : Nat) (x : List (Tube K)) : Option (List (Tube K)) :=
  match x with
  | [] => none
  | T :: _ =>
    if vSameSlicing x then
      if x.any Tube.isEmpty then some ((List.range m).map fun i => (x[i]?.getD T).set ⊥)
      else some ((List.range m).map fun i => T.rebuild (fun _ a b => ev i (Itv.icc a b)) (ev i (Itv.point T.t0)) fun _ b => ev i (Itv.point b))
    else none

/-- `DelayTFunction::eval_vector(t, x)`, codac_DelayTFunction.cpp:35-44, for the scalar tube `T` and a delay `d` -/
def delayEval [Field K] [IsStrictOrderedRing K] (T : Tube K) (d : K) (t : Itv K) : Itv K :=
  if Itv.add t (.point d) ≤ Itv.icc T.t0 T.tf then T.evalItv (Itv.add t (.point d)) else ⊤

/-! ### Proofs -/

theorem slicesFrom_get_out (g : Itv K) (cs : List (Cell K)) (k : Nat) : (slicesFrom g cs)[k]? =
    cs[k]?.map fun c => ⟨c.lb, c.ub, c.cod, if k = 0 then g else (cs[k - 1]?.map Cell.out).getD g, c.out⟩ := by
  induction cs generalizing g k with
  | nil => simp
  | cons c cs ih =>
    cases k with
    | zero => simp [slicesFrom_cons]
    | succ k =>
      rw [slicesFrom_cons, List.getElem?_cons_succ, ih, List.getElem?_cons_succ]
      cases k with
      | zero => simp
      | succ k =>
        simp only [Nat.add_eq_zero_iff, one_ne_zero, and_false, if_false, Nat.add_sub_cancel, List.getElem?_cons_succ]
        cases h : cs[k + 1]? with
        | none => simp
        | some c' =>
          have : k < cs.length := by
            have := (List.getElem?_eq_some_iff.mp h).1; omega
          simp [List.getElem?_eq_getElem this]

/-- the slices of a rebuilt tube -/
theorem rebuild_slice {T : Tube K} {e : Nat → K → K → Itv K} {q0 : Itv K} {q : Nat → K → Itv K} {s : Slice K}
    (h : s ∈ (T.rebuild e q0 q).slices) : ∃ k s', T.slices[k]? = some s' ∧ s.lb = s'.lb ∧ s.ub = s'.ub ∧ s.cod = e k s'.lb s'.ub ∧
      s.outG = q k s'.ub ∧ ((k = 0 ∧ s.inG = q0) ∨ ∃ p, 0 < k ∧ T.slices[k - 1]? = some p ∧ s.inG = q (k - 1) p.ub) := by
  obtain ⟨k, hk⟩ := List.mem_iff_getElem?.mp h
  unfold Tube.slices at hk ⊢
  rw [slicesFrom_get_out] at hk
  simp only [Tube.rebuild, List.getElem?_mapIdx] at hk
  cases hc : T.cells[k]? with
  | none => simp [hc] at hk
  | some c =>
    simp only [hc, Option.map_some, Option.some.injEq] at hk
    refine ⟨k, _, by rw [slicesFrom_get_out, hc, Option.map_some], ?_⟩
    subst hk
    refine ⟨rfl, rfl, rfl, rfl, ?_⟩
    by_cases h0 : k = 0
    · exact .inl ⟨h0, by rw [if_pos h0]⟩
    · right
      have hl : k - 1 < T.cells.length := by
        have := (List.getElem?_eq_some_iff.mp hc).1; omega
      refine ⟨_, by omega, by rw [slicesFrom_get_out, List.getElem?_eq_getElem hl, Option.map_some], ?_⟩
      rw [if_neg h0, List.getElem?_eq_getElem hl]
      rfl

theorem rebuild_bounds (T : Tube K) (e : Nat → K → K → Itv K) (q0 : Itv K) (q : Nat → K → Itv K) :
    (T.rebuild e q0 q).slices.map (fun s => (s.lb, s.ub)) = T.slices.map fun s => (s.lb, s.ub) := by
  rw [Tube.slices_bounds, Tube.slices_bounds]
  refine List.ext_getElem? fun k => ?_
  simp only [Tube.rebuild, List.getElem?_map, List.getElem?_mapIdx, Option.map_map]
  rfl

theorem rebuild_wf {T : Tube K} (h : T.WF) (e : Nat → K → K → Itv K) (q0 : Itv K) (q : Nat → K → Itv K) : (T.rebuild e q0 q).WF := by
  have h1 := rebuild_bounds T e q0 q
  rw [Tube.slices_bounds, Tube.slices_bounds] at h1
  refine ⟨?_, (tiles_of_bounds h1).mpr h.tiles⟩
  intro hc
  rw [hc] at h1
  exact h.ne (by simpa using h1.symm)

/-- the link between consecutive slices -/
theorem slices_link {T : Tube K} (h : T.WF) {k : Nat} {s p : Slice K} (hk : 0 < k) (hs : T.slices[k]? = some s) (hp : T.slices[k - 1]? = some p) :
    s.lb = p.ub := by
  obtain ⟨j, rfl⟩ : ∃ j, k = j + 1 := ⟨k - 1, by omega⟩
  have key : ∀ (cs : List (Cell K)) (a b : K) (g : Itv K) (j : Nat), Tiles a cs b → (slicesFrom g cs)[j + 1]? = some s →
      (slicesFrom g cs)[j]? = some p → s.lb = p.ub := by
    intro cs
    induction cs with
    | nil => intro a b g j _ h1; simp at h1
    | cons c cs ih =>
      intro a b g j ht h1 h2
      obtain ⟨_, _, ht⟩ := ht
      rw [slicesFrom_cons] at h1 h2
      cases j with
      | zero =>
        simp only [List.getElem?_cons_succ, List.getElem?_cons_zero, Option.some.injEq] at h1 h2
        subst h2
        cases cs with
        | nil => simp at h1
        | cons c' cs =>
          rw [slicesFrom_cons] at h1
          simp only [List.getElem?_cons_zero, Option.some.injEq] at h1
          subst h1
          exact ht.1
      | succ j => exact ih _ _ _ j ht (by simpa using h1) (by simpa using h2)
  exact key _ _ _ _ j h.tiles hs hp

/-- enclosure by a rebuilt tube -/
theorem rebuild_encloses {T : Tube K} (h : T.WF) {e : Nat → K → K → Itv K} {q0 : Itv K} {q : Nat → K → Itv K} {f : K → K} (h0 : f T.t0 ∈ q0)
    (hq : ∀ (k : Nat) (s : Slice K), T.slices[k]? = some s → f s.ub ∈ q k s.ub)
    (he : ∀ (k : Nat) (s : Slice K), T.slices[k]? = some s → ∀ t, s.lb < t → t < s.ub → f t ∈ e k s.lb s.ub) : (T.rebuild e q0 q).Encloses f := by
  intro s hs
  obtain ⟨k, s', h1, h2, h3, h4, h5, h6⟩ := rebuild_slice hs
  refine ⟨?_, ?_, ?_⟩
  · rcases h6 with ⟨rfl, h6⟩ | ⟨p, hk, hp, h6⟩
    · rw [h6, h2]
      have : s'.lb = T.t0 := by
        have ht := h.tiles
        unfold Tube.slices at h1
        cases hc : T.cells with
        | nil => exact absurd hc h.ne
        | cons c cs =>
          rw [hc] at ht h1
          rw [slicesFrom_cons, List.getElem?_cons_zero, Option.some.injEq] at h1
          subst h1
          exact ht.1
      rw [this]; exact h0
    · rw [h6, h2, slices_link h hk h1 hp]
      exact hq _ _ hp
  · rw [h3, h5]; exact hq _ _ h1
  · rw [h2, h3, h4]; exact he _ _ h1

/-- the input gate of a slice is the output gate of the previous one -/
theorem gates_link {T : Tube K} {k : Nat} {s p : Slice K} (hk : 0 < k) (hs : T.slices[k]? = some s) (hp : T.slices[k - 1]? = some p) :
    s.inG = p.outG := by
  unfold Tube.slices at hs hp
  rw [slicesFrom_get_out, Option.map_eq_some_iff] at hs hp
  obtain ⟨c, hc, rfl⟩ := hs
  obtain ⟨d, hd, rfl⟩ := hp
  simp [Nat.pos_iff_ne_zero.mp hk, hd]

theorem inBox_of_encl {x : List (Tube K)} {fs : List (K → K)} (hf : VEncloses x fs) {t : K} {G : Tube K → Itv K}
    (h : ∀ X ∈ x, ∀ f, X.Encloses f → f t ∈ G X) : InBox (fs.map (· t)) (x.map G) := by
  unfold VEncloses at hf
  unfold InBox
  induction hf with
  | nil => exact .nil
  | cons h1 _ ih => exact .cons (h _ (by simp) _ h1) (ih fun X hX => h X (by simp [hX]))

theorem codAt_eq {T : Tube K} {k : Nat} {s : Slice K} (h : T.slices[k]? = some s) : T.codAt k = s.cod := by simp [Tube.codAt, h]
theorem outGAt_eq {T : Tube K} {k : Nat} {s : Slice K} (h : T.slices[k]? = some s) : T.outGAt k = s.outG := by simp [Tube.outGAt, h]

theorem encl_g0 {T : Tube K} (h : T.WF) {f : K → K} (hf : T.Encloses f) : f T.t0 ∈ T.g0 := by
  have ht := h.tiles
  unfold Tube.Encloses Tube.slices at hf
  cases hc : T.cells with
  | nil => exact absurd hc h.ne
  | cons c cs =>
    rw [hc] at ht hf
    have := (hf _ (by rw [slicesFrom_cons]; exact List.mem_cons_self)).1
    rw [← ht.1]; exact this

theorem vec_t0 {T : Tube K} {x : List (Tube K)} (h : VecOk T x) {X : Tube K} (hX : X ∈ x) : X.t0 = T.t0 := by
  have h1 := h.same X hX
  rw [Tube.slices_bounds, Tube.slices_bounds] at h1
  have hx := h.wf X hX
  have ht := h.wf T h.mem
  have hx1 := hx.tiles
  have ht1 := ht.tiles
  cases hc : X.cells with
  | nil => exact absurd hc hx.ne
  | cons c cs =>
    cases hd : T.cells with
    | nil => exact absurd hd ht.ne
    | cons d ds =>
      rw [hc, hd] at h1
      rw [hc] at hx1
      rw [hd] at ht1
      simp only [List.map_cons, List.cons.injEq, Prod.mk.injEq] at h1
      rw [← hx1.1, ← ht1.1]; exact h1.1.1

theorem vec_tf {T : Tube K} {x : List (Tube K)} (h : VecOk T x) {X : Tube K} (hX : X ∈ x) : X.tf = T.tf := by
  have h1 := h.same X hX
  rw [Tube.slices_bounds, Tube.slices_bounds] at h1
  have h2 := (tiles_of_bounds h1 (a := X.t0) (b := X.tf)).mp (h.wf X hX).tiles
  rw [vec_t0 h hX] at h2
  have key : ∀ (cs : List (Cell K)) (a b c : K), Tiles a cs b → Tiles a cs c → b = c := by
    intro cs
    induction cs with
    | nil => intro a b c e1 e2; exact e1.symm.trans e2
    | cons d cs ih => intro a b c e1 e2; exact ih _ _ _ e1.2.2 e2.2.2
  exact key _ _ _ _ h2 (h.wf T h.mem).tiles

end Codac
