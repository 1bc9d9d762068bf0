import Verif.Ctc.Eval
import Verif.Props.TubeAccess

/-!
# `CtcDelay`: model and proofs

Source: `src/core/contractors/dyn/codac_CtcDelay.cpp`. The constraint is `x(t) = y(t+a)`.

The evaluations and inversions go through the synthesis trees enabled by the code; they give the same answers as the lists
(C14, C15).
-/

set_option linter.unusedSectionVars false

namespace Codac

section
variable {K : Type*} [LinearOrder K]

/-- comparison of lower bounds in `Interval::is_interior_subset` (IBEX): `lo` is interior with respect to `lo'` -/
def loInterior (lo' lo : Option K) : Bool :=
  match lo', lo with
  | none, _ => true
  | some _, none => false
  | some a', some a => decide (a' < a)

/-- the same on upper bounds -/
def hiInterior (hi' hi : Option K) : Bool :=
  match hi', hi with
  | none, _ => true
  | some _, none => false
  | some b', some b => decide (b < b')

/-- `Interval::is_interior_subset` (IBEX): the empty set is in the interior of any set, an infinite bound is interior -/
def Itv.interiorSubset (X Y : Itv K) : Bool :=
  match X, Y with
  | .empty, _ => true
  | .mk .., .empty => false
  | .mk lo hi _, .mk lo' hi' _ => loInterior lo' lo && hiInterior hi' hi

/-- the setters called on a slice, codac_CtcDelay.cpp:103-105 -/
def narrow (e gi go : Itv K) : Setter K := fun p n s =>
  let s1 := Slice.setEnvelope (s.cod ⊓ e) true p n s
  let s2 := Slice.setInputGate (s1.inG ⊓ gi) true p n s1
  Slice.setOutputGate (s2.outG ⊓ go) true p n s2

theorem narrow_encloses {e gi go : Itv K} {p n : Option (Itv K)} {s : Slice K} {f : K → K} (hlt : s.lb < s.ub)
    (hg : LocalGC p n s) (hf : s.Encloses f) (he : ∀ t, s.lb ≤ t → t ≤ s.ub → f t ∈ e) (hi : f s.lb ∈ gi)
    (ho : f s.ub ∈ go) :
    (Slice.mk s.lb s.ub (narrow e gi go p n s).cod (narrow e gi go p n s).inG (narrow e gi go p n s).outG).Encloses f := by
  have h1 : f s.lb ∈ s.cod := Itv.mem_of_le hg.inC hf.1
  have h2 : f s.ub ∈ s.cod := Itv.mem_of_le hg.outC hf.2.1
  have e1 := he s.lb le_rfl hlt.le
  have e2 := he s.ub hlt.le le_rfl
  refine ⟨?_, ?_, ?_⟩
  · simp only [narrow, Slice.setOutputGate, Slice.setInputGate, Slice.setEnvelope, if_true]
    rw [mem_infOpt]
    simp only [Itv.mem_inf]
    exact ⟨⟨⟨⟨hf.1, h1, e1⟩, hi⟩, h1, e1⟩, fun c hc => Itv.mem_of_le (hg.inP c hc) hf.1⟩
  · simp only [narrow, Slice.setOutputGate, Slice.setInputGate, Slice.setEnvelope, if_true]
    rw [mem_infOpt]
    simp only [Itv.mem_inf]
    exact ⟨⟨⟨⟨hf.2.1, h2, e2⟩, ho⟩, h2, e2⟩, fun c hc => Itv.mem_of_le (hg.outN c hc) hf.2.1⟩
  · intro t h0 h3
    simp only [narrow, Slice.setOutputGate, Slice.setInputGate, Slice.setEnvelope, if_true, Itv.mem_inf]
    exact ⟨hf.2.2 t h0 h3, he t h0.le h3.le⟩

theorem narrow_gc {e gi go : Itv K} {p n : Option (Itv K)} {s : Slice K} (_ : LocalGC p n s) :
    LocalGC p n (narrow e gi go p n s) := by
  refine ⟨?_, ?_, ?_, ?_⟩ <;>
    simp only [narrow, Slice.setOutputGate, Slice.setInputGate, Slice.setEnvelope, if_true]
  · exact le_trans (infOpt_le _ _) inf_le_right
  · exact le_trans (infOpt_le _ _) inf_le_right
  · intro c hc; subst hc; exact inf_le_right
  · intro c hc; subst hc; exact inf_le_right

theorem narrow_le {e gi go : Itv K} (p n : Option (Itv K)) (s : Slice K) :
    (narrow e gi go p n s).cod ≤ s.cod ∧ (narrow e gi go p n s).inG ≤ s.inG ∧ (narrow e gi go p n s).outG ≤ s.outG := by
  refine ⟨?_, ?_, ?_⟩ <;>
    simp only [narrow, Slice.setOutputGate, Slice.setInputGate, Slice.setEnvelope, if_true]
  · exact inf_le_left
  · exact le_trans (infOpt_le _ _) (le_trans inf_le_left (le_trans inf_le_left inf_le_left))
  · exact le_trans (infOpt_le _ _) (le_trans inf_le_left (le_trans inf_le_left inf_le_left))

/-- `Slice::is_empty`, codac_Slice.cpp:380-383 -/
def Slice.isEmpty (s : Slice K) : Bool := s.cod.isEmpty || s.inG.isEmpty || s.outG.isEmpty

theorem setEmpty_below (T : Tube K) : T.setEmpty.Below T := by
  unfold Tube.setEmpty Tube.set
  have : ∀ (l : List Nat), (l.foldl (fun T k => T.upd k (Slice.set ⊥)) T).Below T := fun l =>
    foldl_upd_below (T0 := T) (fun _ => Slice.set ⊥) l (by
      intro k p n s s0 _ hb
      refine ⟨bot_le, le_trans (infOpt_le _ _) bot_le, le_trans (infOpt_le _ _) bot_le⟩) (Tube.Below.refl T)
  exact this _

theorem setEmpty_wf {T : Tube K} (h : T.WF) : T.setEmpty.WF := (foldl_upd_inv (fun _ => Slice.set ⊥) _ h).1

theorem evalAt_le_cod {T : Tube K} (h : T.WF) (hgc : T.GatesInEnvelopes) {t : K} {s : Slice K} (hs : s ∈ T.slices)
    (h1 : s.lb ≤ t) (h2 : t ≤ s.ub) : T.evalAt t ≤ s.cod := by
  rcases eq_or_lt_of_le h1 with e | h1
  · rw [← e, Tube.evalAt_lb h hs]; exact (hgc s hs).1
  · rcases eq_or_lt_of_le h2 with e | h2
    · rw [e, Tube.evalAt_ub h hs]; exact (hgc s hs).2
    · rw [Tube.evalAt_interior h hs h1 h2]

/-- the evaluation of a tube over an interval is monotone -/
theorem evalItv_mono {T : Tube K} (h : T.WF) (hgc : T.GatesInEnvelopes) {I J : Itv K} (hIJ : I ≤ J) :
    T.evalItv I ≤ T.evalItv J := by
  match I, J, hIJ with
  | .empty, _, _ => exact bot_le
  | .mk .., .empty, hIJ => exact absurd hIJ (by intro h; exact h)
  | .mk lo hi hl, .mk none hi' hl', hIJ => cases hi' <;> exact le_top
  | .mk lo hi hl, .mk (some a') none hl', hIJ => exact le_top
  | .mk none hi hl, .mk (some a') (some b') hl', hIJ => exact absurd hIJ.1 (by intro h; exact h)
  | .mk (some a) none hl, .mk (some a') (some b') hl', hIJ => exact absurd hIJ.2 (by intro h; exact h)
  | .mk (some a) (some b) hab, .mk (some a') (some b') hab', hIJ =>
    have h1 : a' ≤ a := hIJ.1
    have h2 : b ≤ b' := hIJ.2
    have hab1 : a ≤ b := hab
    by_cases h0 : a' < T.t0 ∨ b' > T.tf
    · simp [Tube.evalItv, h0]
    have h0' := h0
    push Not at h0
    have h3 : ¬ (a < T.t0 ∨ b > T.tf) := by
      push Not; exact ⟨le_trans h0.1 h1, le_trans h2 h0.2⟩
    by_cases e : a' = b'
    · have e1 : a = a' := le_antisymm (by rw [e]; exact le_trans hab1 h2) h1
      have e2 : b = b' := le_antisymm h2 (by rw [← e]; exact le_trans h1 hab1)
      subst e1 e2
      exact le_rfl
    have hlt : a' < b' := lt_of_le_of_ne hab' e
    have key := (evalItv_le_iff h hlt h0.1 h0.2 (X := T.evalItv (Itv.icc a' b'))).mp le_rfl
    rw [← Itv.icc_eq_mk hab', ← Itv.icc_eq_mk hab]
    by_cases e' : a = b
    · subst e'
      have : T.evalItv (Itv.icc a a) = T.evalAt a := by
        rw [Itv.icc_eq_mk le_rfl]
        simp only [Tube.evalItv, if_neg h3, if_true]
      rw [this]
      rcases lt_or_eq_of_le h2 with h4 | h4
      · obtain ⟨s, hs, h5, h6⟩ := h.tiles.exists_slice (g := T.g0) (le_trans h0.1 h1) (lt_of_lt_of_le h4 h0.2)
        exact (evalAt_le_cod h hgc hs h5 h6.le).trans (key s hs (lt_of_le_of_lt h5 h4) (lt_of_le_of_lt h1 h6))
      · subst h4
        obtain ⟨s, hs, h5, h6⟩ := h.tiles.exists_slice' (g := T.g0) (lt_of_le_of_lt h0.1 hlt) h0.2
        exact (evalAt_le_cod h hgc hs h5.le h6).trans (key s hs h5 (lt_of_lt_of_le hlt h6))
    · push Not at h3
      rw [evalItv_le_iff h (lt_of_le_of_ne hab1 e') h3.1 h3.2]
      intro s hs h4 h5
      exact key s hs (lt_of_lt_of_le h4 h2) (lt_of_le_of_lt h1 h5)

theorem updFrom_at {u : Setter K} (k : Nat) (p : Option (Itv K)) (g : Itv K) (cs : List (Cell K)) {s : Slice K}
    (hs : (slicesFrom g cs)[k]? = some s) :
    ∃ p' n', (slicesFrom (updFrom u k p g cs).1 (updFrom u k p g cs).2)[k]? =
      some ⟨s.lb, s.ub, (u p' n' s).cod, (u p' n' s).inG, (u p' n' s).outG⟩ := by
  induction cs generalizing k p g with
  | nil => simp at hs
  | cons c cs ih =>
    cases k with
    | zero =>
      simp only [slicesFrom_cons, List.getElem?_cons_zero, Option.some.injEq] at hs
      subst hs
      exact ⟨p, cs.head?.map Cell.cod, by simp [updFrom]⟩
    | succ k =>
      simp only [slicesFrom_cons, List.getElem?_cons_succ] at hs
      obtain ⟨p', n', h⟩ := ih k (some c.cod) c.out hs
      exact ⟨p', n', by simpa [updFrom] using h⟩

/-- the slice of index `k` after an update -/
theorem upd_at {T : Tube K} {u : Setter K} {k : Nat} {s : Slice K} (hs : T.slices[k]? = some s) :
    ∃ p n, (T.upd k u).slices[k]? = some ⟨s.lb, s.ub, (u p n s).cod, (u p n s).inG, (u p n s).outG⟩ :=
  updFrom_at k none T.g0 T.cells hs

theorem Tube.Below.at {T T0 : Tube K} (h : T.Below T0) {k : Nat} {s : Slice K} (hs : T.slices[k]? = some s) :
    ∃ s0, T0.slices[k]? = some s0 ∧ s.Below s0 := by
  have := h.slices
  generalize T.slices = l at *
  generalize T0.slices = l0 at *
  induction this generalizing k with
  | nil => simp at hs
  | cons a _ ih =>
    cases k with
    | zero => simp only [List.getElem?_cons_zero, Option.some.injEq] at hs; subst hs; exact ⟨_, rfl, a⟩
    | succ k => exact ih hs

theorem setEmpty_slices {T : Tube K} (h : T.WF) {s : Slice K} (hs : s ∈ T.setEmpty.slices) :
    s.cod = ⊥ ∧ s.inG = ⊥ ∧ s.outG = ⊥ := by
  unfold Tube.setEmpty at hs
  rw [set_eq h.ne] at hs
  exact mem_slices_const hs

theorem setEmpty_isEmpty {T : Tube K} (h : T.WF) : T.setEmpty.isEmpty = true := by
  unfold Tube.setEmpty Tube.isEmpty
  rw [set_eq h.ne]
  rfl

theorem Tube.Below.wf {w w0 : Tube K} (hb : w.Below w0) (h0 : w0.WF) (hs : SameB w w0) : w.WF := by
  refine ⟨?_, by rw [hb.t0, hb.tf]; exact (tiles_of_bounds hs.symm).mp h0.tiles⟩
  intro h
  have h2 : w0.cells.length = 0 := by
    have := congrArg List.length hs; simpa [h] using this.symm
  exact h0.ne (List.length_eq_zero_iff.mp h2)

theorem nbSlices_eq (T : Tube K) : T.nbSlices = T.slices.length := by
  have := congrArg List.length (Tube.slices_bounds T)
  simpa [Tube.nbSlices] using this.symm

end

section
variable {K : Type*} [Field K] [LinearOrder K] [IsStrictOrderedRing K]

/-- `Interval::diam` (IBEX): 0 for the empty set, `none` = `+∞` -/
def Itv.diam? (X : Itv K) : Option K :=
  match X with
  | .empty => some 0
  | .mk (some a) (some b) _ => some (b - a)
  | _ => none

/-- `X.diam() < Y.diam()` -/
def Itv.diamLt (X Y : Itv K) : Bool :=
  match X.diam?, Y.diam? with
  | some x, some y => decide (x < y)
  | some _, none => true
  | none, _ => false

/-- One iteration of a loop of `CtcDelay::contract`, codac_CtcDelay.cpp:62-114 with `sh t a = t + a` and `un t i = i - t`,
and 124-169 with `sh t a = t - a` and `un t i = t - i`. `o` is the other tube. `none` when the function returns with
everything empty. -/
def delayStep (sh un : Itv K → Itv K → Itv K) (o : Tube K) (k : Nat) (r : Option (Itv K × Tube K)) :
    Option (Itv K × Tube K) :=
  r.bind fun aw =>
  (aw.2.slices[k]?).bind fun s =>
  let t := Itv.icc s.lb s.ub
  let e := o.evalItv (sh t aw.1)
  let q : Option (Itv K × Itv K) :=
    if e.interiorSubset s.cod then some (aw.1, e)
    else
      let a1 := aw.1 ⊓ un t (o.invert s.cod (sh t aw.1))
      if a1.diamLt aw.1 then
        if a1.isEmpty then none else some (a1, o.evalItv (sh t a1))
      else some (a1, e)
  q.bind fun ae =>
  let w := aw.2.upd k (narrow ae.2 (o.evalItv (sh (.point s.lb) ae.1)) (o.evalItv (sh (.point s.ub) ae.1)))
  (w.slices[k]?).bind fun s' => if s'.isEmpty then none else some (ae.1, w)

/-- `CtcDelay::contract(Interval& a, Tube& x, Tube& y)`, codac_CtcDelay.cpp:46-177 -/
def delay (A : IArith K) (a : Itv K) (x y : Tube K) : Itv K × Tube K × Tube K :=
  if a.isEmpty || x.isEmpty || y.isEmpty then (⊥, x.setEmpty, y.setEmpty)
  else
    match (List.range x.nbSlices).foldl (fun r k => delayStep A.add (fun t i => A.sub i t) y k r) (some (a, x)) with
    | none => (⊥, x.setEmpty, y.setEmpty)
    | some (a1, x1) =>
      match (List.range y.nbSlices).foldl (fun r k => delayStep A.sub (fun t i => A.sub t i) x1 k r) (some (a1, y)) with
      | none => (⊥, x1.setEmpty, y.setEmpty)
      | some (a2, y1) =>
        if a2.isEmpty || x1.isEmpty || y1.isEmpty then (⊥, x1.setEmpty, y1.setEmpty) else (a2, x1, y1)

/-- `CtcDelay::contract(Interval& a, TubeVector& x, TubeVector& y)`, codac_CtcDelay.cpp:190-191: the components one after the
other (the emptiness of one component is set on all of them before and after, not modelled) -/
def delayVec (A : IArith K) : Itv K → List (Tube K × Tube K) → Itv K × List (Tube K × Tube K)
  | a, [] => (a, [])
  | a, (x, y) :: l =>
    let r := delay A a x y
    let rs := delayVec A r.1 l
    (rs.1, r.2 :: rs.2)

/-! ### Proofs -/

theorem evalItv_outside {T : Tube K} {I : Itv K} {t : K} (ht : t ∈ I) (ho : ¬ (T.t0 ≤ t ∧ t ≤ T.tf)) :
    T.evalItv I = ⊤ := by
  match I, ht with
  | .mk (some a) (some b) hab, ht =>
    have ht' : a ≤ t ∧ t ≤ b := ht
    have : a < T.t0 ∨ b > T.tf := by
      by_contra hc
      push Not at hc
      exact ho ⟨le_trans hc.1 ht'.1, le_trans ht'.2 hc.2⟩
    simp [Tube.evalItv, this]
  | .mk none none _, _ => rfl
  | .mk none (some _) _, _ => rfl
  | .mk (some _) none _, _ => rfl

theorem invert_outside {T : Tube K} {y I : Itv K} {t : K} (ht : t ∈ I) (ho : ¬ (T.t0 ≤ t ∧ t ≤ T.tf)) :
    T.invert y I = ⊤ := by
  match I, ht with
  | .mk (some a) (some b) hab, ht =>
    have ht' : a ≤ t ∧ t ≤ b := ht
    have : a < T.t0 ∨ b > T.tf := by
      by_contra hc
      push Not at hc
      exact ho ⟨le_trans hc.1 ht'.1, le_trans ht'.2 hc.2⟩
    simp [Tube.invert, this]
  | .mk none none _, _ => rfl
  | .mk none (some _) _, _ => rfl
  | .mk (some _) none _, _ => rfl

/-- `v` is the value of `g` at `t` as soon as `t` is in the time domain -/
theorem evalItv_link {T : Tube K} (h : T.WF) (hgc : T.GatesInEnvelopes) {g : K → K} (hf : T.Encloses g) {I : Itv K}
    {t v : K} (ht : t ∈ I) (hv : T.t0 ≤ t → t ≤ T.tf → v = g t) : v ∈ T.evalItv I := by
  by_cases ho : T.t0 ≤ t ∧ t ≤ T.tf
  · rw [hv ho.1 ho.2]; exact evalItv_mem h hgc hf ht
  · rw [evalItv_outside ht ho]; simp

theorem invert_link {T : Tube K} (h : T.WF) (hgc : T.GatesInEnvelopes) {g : K → K} (hf : T.Encloses g) {y I : Itv K}
    {t t' v : K} (ht : t ∈ I) (ht' : t' ∈ I) (hne : t ≠ t') (hy : v ∈ y) (hv : T.t0 ≤ t → t ≤ T.tf → v = g t) :
    t ∈ T.invert y I := by
  by_cases ho : T.t0 ≤ t ∧ t ≤ T.tf
  · refine Props.C06_invert_partial h hgc hf ht (hv ho.1 ho.2 ▸ hy) ?_
    rintro s - rfl
    rw [Itv.mem_point] at ht ht'
    exact hne (ht.trans ht'.symm)
  · rw [invert_outside ht ho]; simp

/-- the invariant of the loops -/
structure DelayInv (a : K) (f : K → K) (w0 : Tube K) (r : Option (Itv K × Tube K)) : Prop where
  ex : ∃ I w, r = some (I, w) ∧ a ∈ I ∧ w.WF ∧ w.GatesInEnvelopes ∧ w.Encloses f ∧ w.nbSlices = w0.nbSlices

theorem delayStep_inv {sh un : Itv K → Itv K → Itv K} {o : Tube K} (ho : o.WF) (hog : o.GatesInEnvelopes) {g : K → K}
    (hg : o.Encloses g) {a : K} {φ : K → K} (hφ : ∀ t t', t ≠ t' → φ t ≠ φ t') (hsh : ∀ T I t, t ∈ T → a ∈ I → φ t ∈ sh T I)
    (hun : ∀ T J t, t ∈ T → φ t ∈ J → a ∈ un T J) {f : K → K} {w0 : Tube K}
    (hfg : ∀ t, o.t0 ≤ φ t → φ t ≤ o.tf → w0.t0 ≤ t → t ≤ w0.tf → f t = g (φ t)) {k : Nat} (hk : k < w0.nbSlices)
    {r : Option (Itv K × Tube K)} (hd : ∀ I w, r = some (I, w) → w.t0 = w0.t0 ∧ w.tf = w0.tf) (h : DelayInv a f w0 r) :
    DelayInv a f w0 (delayStep sh un o k r) := by
  obtain ⟨I, w, rfl, hI, hw, hwg, hwf, hn⟩ := h.ex
  obtain ⟨hd1, hd2⟩ := hd I w rfl
  have hlen : w.slices.length = w.nbSlices := by
    have := congrArg List.length (Tube.slices_bounds w)
    simpa [Tube.nbSlices] using this
  have hkl : k < w.slices.length := by rw [hlen, hn]; exact hk
  have hs : w.slices[k]? = some w.slices[k] := List.getElem?_eq_getElem hkl
  generalize w.slices[k] = s at hs
  have hsm := List.mem_of_getElem? hs
  obtain ⟨b1, b2, b3⟩ := hw.tiles.mem_bounds hsm
  have hval : ∀ t, s.lb ≤ t → t ≤ s.ub → o.t0 ≤ φ t → φ t ≤ o.tf → f t = g (φ t) := fun t h0 h1 h2 h3 =>
    hfg t h2 h3 (by rw [← hd1]; exact le_trans b1 h0) (by rw [← hd2]; exact le_trans h1 b3)
  have hT : ∀ t, s.lb ≤ t → t ≤ s.ub → t ∈ Itv.icc s.lb s.ub := fun t h0 h1 => Itv.mem_icc.mpr ⟨h0, h1⟩
  have heval : ∀ J, a ∈ J → ∀ t, s.lb ≤ t → t ≤ s.ub → f t ∈ o.evalItv (sh (Itv.icc s.lb s.ub) J) := fun J hJ t h0 h1 =>
    evalItv_link ho hog hg (hsh _ _ t (hT t h0 h1) hJ) (hval t h0 h1)
  unfold delayStep
  rw [Option.bind_some]
  dsimp only
  rw [hs, Option.bind_some]
  set q : Option (Itv K × Itv K) :=
    if (o.evalItv (sh (Itv.icc s.lb s.ub) I)).interiorSubset s.cod then some (I, o.evalItv (sh (Itv.icc s.lb s.ub) I))
    else
      if (I ⊓ un (Itv.icc s.lb s.ub) (o.invert s.cod (sh (Itv.icc s.lb s.ub) I))).diamLt I then
        if (I ⊓ un (Itv.icc s.lb s.ub) (o.invert s.cod (sh (Itv.icc s.lb s.ub) I))).isEmpty then none
        else some (I ⊓ un (Itv.icc s.lb s.ub) (o.invert s.cod (sh (Itv.icc s.lb s.ub) I)),
          o.evalItv (sh (Itv.icc s.lb s.ub) (I ⊓ un (Itv.icc s.lb s.ub) (o.invert s.cod (sh (Itv.icc s.lb s.ub) I)))))
      else some (I ⊓ un (Itv.icc s.lb s.ub) (o.invert s.cod (sh (Itv.icc s.lb s.ub) I)),
        o.evalItv (sh (Itv.icc s.lb s.ub) I)) with hq
  have hinv : a ∈ I ⊓ un (Itv.icc s.lb s.ub) (o.invert s.cod (sh (Itv.icc s.lb s.ub) I)) := by
    rw [Itv.mem_inf]
    refine ⟨hI, hun _ _ s.lb (hT _ le_rfl b2.le) ?_⟩
    exact invert_link ho hog hg (hsh _ _ _ (hT _ le_rfl b2.le) hI) (hsh _ _ s.ub (hT _ b2.le le_rfl) hI)
      (hφ _ _ b2.ne) (Itv.mem_of_le (hwg s hsm).1 (hwf s hsm).1) (hval _ le_rfl b2.le)
  have hq' : ∃ J e, q = some (J, e) ∧ a ∈ J ∧ ∀ t, s.lb ≤ t → t ≤ s.ub → f t ∈ e := by
    rw [hq]
    split_ifs with h1 h2 h3
    · exact ⟨_, _, rfl, hI, heval I hI⟩
    · rw [Itv.isEmpty_iff] at h3
      exact absurd h3 (Itv.ne_bot_of_mem hinv)
    · exact ⟨_, _, rfl, hinv, heval _ hinv⟩
    · exact ⟨_, _, rfl, hinv, heval I hI⟩
  obtain ⟨J, e, hqe, hJ, he⟩ := hq'
  rw [hqe, Option.bind_some]
  dsimp only
  set w' := w.upd k (narrow e (o.evalItv (sh (.point s.lb) J)) (o.evalItv (sh (.point s.ub) J))) with hw'
  have e1 : w'.Encloses f := by
    refine upd_encloses hw hwg ?_ hwf
    intro p n s' hs' hl hf'
    rw [hs, Option.some.injEq] at hs'
    subst hs'
    refine narrow_encloses b2 hl hf' he ?_ ?_
    · exact evalItv_link ho hog hg (hsh _ _ _ (by simp) hJ) (hval _ le_rfl b2.le)
    · exact evalItv_link ho hog hg (hsh _ _ _ (by simp) hJ) (hval _ b2.le le_rfl)
  have e2 : w'.WF := upd_wf hw _ _
  have e3 : w'.GatesInEnvelopes := upd_gc (fun p n s h => narrow_gc h) hwg
  have hlen' : w'.slices.length = w'.nbSlices := by
    have := congrArg List.length (Tube.slices_bounds w')
    simpa [Tube.nbSlices] using this
  have hkl' : k < w'.slices.length := by rw [hlen', hw', upd_nbSlices, hn]; exact hk
  have hs2 : w'.slices[k]? = some w'.slices[k] := List.getElem?_eq_getElem hkl'
  generalize w'.slices[k] = s2 at hs2
  rw [hs2, Option.bind_some]
  have hs2m := List.mem_of_getElem? hs2
  have hne : s2.isEmpty = false := by
    unfold Slice.isEmpty
    have h1 := e1 s2 hs2m
    have h2 := Itv.mem_of_le (e3 s2 hs2m).1 h1.1
    rw [Itv.isEmpty_false_iff.mpr (Itv.ne_bot_of_mem h2), Itv.isEmpty_false_iff.mpr (Itv.ne_bot_of_mem h1.1),
      Itv.isEmpty_false_iff.mpr (Itv.ne_bot_of_mem h1.2.1)]
    rfl
  rw [hne]
  exact ⟨J, w', rfl, hJ, e2, e3, e1, by rw [hw', upd_nbSlices, hn]⟩

/-- what a step keeps and contracts, without hypothesis -/
theorem delayStep_below {sh un : Itv K → Itv K → Itv K} {o : Tube K} {k : Nat} {a0 : Itv K} {w0 : Tube K}
    {r : Option (Itv K × Tube K)} (h : ∀ I w, r = some (I, w) → I ≤ a0 ∧ w.Below w0 ∧ SameB w w0) :
    ∀ I w, delayStep sh un o k r = some (I, w) → I ≤ a0 ∧ w.Below w0 ∧ SameB w w0 := by
  intro I w hr
  unfold delayStep at hr
  rw [Option.bind_eq_some_iff] at hr
  obtain ⟨⟨I1, w1⟩, hr1, hr⟩ := hr
  obtain ⟨h1, h2, h3⟩ := h I1 w1 hr1
  rw [Option.bind_eq_some_iff] at hr
  obtain ⟨s, hs, hr⟩ := hr
  dsimp only at hr
  rw [Option.bind_eq_some_iff] at hr
  obtain ⟨⟨J, e⟩, hq, hr⟩ := hr
  rw [Option.bind_eq_some_iff] at hr
  obtain ⟨s', hs', hr⟩ := hr
  have hJ : J ≤ I1 := by
    split_ifs at hq <;> cases hq
    · exact le_rfl
    · exact inf_le_left
    · exact inf_le_left
  split_ifs at hr
  cases hr
  refine ⟨le_trans hJ h1, upd_below ?_ h2, (upd_bounds w1 k _).trans h3⟩
  intro p n s1 s0 _ hb
  have := narrow_le (e := e) (gi := o.evalItv (sh (Itv.point s.lb) J)) (go := o.evalItv (sh (Itv.point s.ub) J)) p n s1
  exact ⟨this.1.trans hb.cod, this.2.1.trans hb.inG, this.2.2.trans hb.outG⟩

theorem delayLoop_below {sh un : Itv K → Itv K → Itv K} {o : Tube K} (l : List Nat) {a0 : Itv K} {w0 : Tube K}
    {r : Option (Itv K × Tube K)} (h : ∀ I w, r = some (I, w) → I ≤ a0 ∧ w.Below w0 ∧ SameB w w0) :
    ∀ I w, l.foldl (fun r k => delayStep sh un o k r) r = some (I, w) → I ≤ a0 ∧ w.Below w0 ∧ SameB w w0 := by
  induction l generalizing r with
  | nil => exact h
  | cons k l ih => exact ih (delayStep_below h)

theorem delayLoop_inv {sh un : Itv K → Itv K → Itv K} {o : Tube K} (ho : o.WF) (hog : o.GatesInEnvelopes) {g : K → K}
    (hg : o.Encloses g) {a : K} {φ : K → K} (hφ : ∀ t t', t ≠ t' → φ t ≠ φ t') (hsh : ∀ T I t, t ∈ T → a ∈ I → φ t ∈ sh T I)
    (hun : ∀ T J t, t ∈ T → φ t ∈ J → a ∈ un T J) {f : K → K} {a0 : Itv K} {w0 : Tube K}
    (hfg : ∀ t, o.t0 ≤ φ t → φ t ≤ o.tf → w0.t0 ≤ t → t ≤ w0.tf → f t = g (φ t)) (l : List Nat)
    (hk : ∀ k ∈ l, k < w0.nbSlices) {r : Option (Itv K × Tube K)}
    (hb : ∀ I w, r = some (I, w) → I ≤ a0 ∧ w.Below w0 ∧ SameB w w0) (h : DelayInv a f w0 r) :
    DelayInv a f w0 (l.foldl (fun r k => delayStep sh un o k r) r) := by
  induction l generalizing r with
  | nil => exact h
  | cons k l ih =>
    rw [List.foldl_cons]
    refine ih (fun k hk' => hk k (by simp [hk'])) (delayStep_below hb) ?_
    exact delayStep_inv ho hog hg hφ hsh hun hfg (hk k (by simp)) (fun I w e => ⟨(hb I w e).2.1.t0, (hb I w e).2.1.tf⟩) h

/-! ### Effect of the contraction -/

/-- the slice `s` is consistent with the other tube for the delays `a` -/
def DelayOk (sh : Itv K → Itv K → Itv K) (o : Tube K) (a : Itv K) (s : Slice K) : Prop :=
  s.cod ≤ o.evalItv (sh (.icc s.lb s.ub) a) ∧ s.inG ≤ o.evalItv (sh (.point s.lb) a) ∧
    s.outG ≤ o.evalItv (sh (.point s.ub) a)

theorem DelayOk.below {sh : Itv K → Itv K → Itv K} {o : Tube K} {a : Itv K} {s s' : Slice K} (h : DelayOk sh o a s)
    (hb : s'.Below s) : DelayOk sh o a s' := by
  unfold DelayOk
  rw [hb.lb, hb.ub]
  exact ⟨hb.cod.trans h.1, hb.inG.trans h.2.1, hb.outG.trans h.2.2⟩

theorem delayStep_effect {sh un : Itv K → Itv K → Itv K} (hsm : ∀ T I J : Itv K, I ≤ J → sh T I ≤ sh T J) {o : Tube K}
    (ho : o.WF) (hog : o.GatesInEnvelopes) {k : Nat} {a0 : Itv K} {r : Option (Itv K × Tube K)} {P : Nat → Prop}
    (h : ∀ I w, r = some (I, w) → I ≤ a0 ∧ ∀ j s, P j → w.slices[j]? = some s → DelayOk sh o a0 s) :
    ∀ I w, delayStep sh un o k r = some (I, w) →
      I ≤ a0 ∧ ∀ j s, (P j ∨ j = k) → w.slices[j]? = some s → DelayOk sh o a0 s := by
  intro I w hr
  cases hr0 : r with
  | none => rw [hr0] at hr; cases hr
  | some p =>
  obtain ⟨I0, w0⟩ := p
  have hb := delayStep_below (sh := sh) (un := un) (o := o) (k := k) (a0 := I0) (w0 := w0) (r := r)
    (by rw [hr0]; rintro I w ⟨⟩; exact ⟨le_rfl, Tube.Below.refl _, rfl⟩) I w hr
  obtain ⟨h1, h2⟩ := h I0 w0 hr0
  refine ⟨hb.1.trans h1, ?_⟩
  intro j s hj hs
  rcases hj with hj | rfl
  · obtain ⟨s0, hs0, hb0⟩ := hb.2.1.at hs
    exact (h2 j s0 hj hs0).below hb0
  · rw [hr0] at hr
    unfold delayStep at hr
    rw [Option.bind_some, Option.bind_eq_some_iff] at hr
    obtain ⟨s1, hs1, hr⟩ := hr
    dsimp only at hr
    rw [Option.bind_eq_some_iff] at hr
    obtain ⟨⟨J, e⟩, hq, hr⟩ := hr
    rw [Option.bind_eq_some_iff] at hr
    obtain ⟨s', hs', hr⟩ := hr
    have hJ : J ≤ I0 ∧ e ≤ o.evalItv (sh (Itv.icc s1.lb s1.ub) I0) := by
      split_ifs at hq <;> cases hq
      · exact ⟨le_rfl, le_rfl⟩
      · exact ⟨inf_le_left, evalItv_mono ho hog (hsm _ _ _ inf_le_left)⟩
      · exact ⟨inf_le_left, le_rfl⟩
    split_ifs at hr
    cases hr
    obtain ⟨p, n, hu⟩ := upd_at (u := narrow e (o.evalItv (sh (Itv.point s1.lb) J)) (o.evalItv (sh (Itv.point s1.ub) J))) hs1
    rw [hu, Option.some.injEq] at hs
    subst hs
    refine ⟨?_, ?_, ?_⟩ <;> dsimp only <;>
      simp only [narrow, Slice.setOutputGate, Slice.setInputGate, Slice.setEnvelope, if_true]
    · exact inf_le_right.trans (hJ.2.trans (evalItv_mono ho hog (hsm _ _ _ h1)))
    · exact (infOpt_le _ _).trans (inf_le_left.trans (inf_le_right.trans (evalItv_mono ho hog (hsm _ _ _ (hJ.1.trans h1)))))
    · exact (infOpt_le _ _).trans (inf_le_left.trans (inf_le_right.trans (evalItv_mono ho hog (hsm _ _ _ (hJ.1.trans h1)))))

theorem delayLoop_effect {sh un : Itv K → Itv K → Itv K} (hsm : ∀ T I J : Itv K, I ≤ J → sh T I ≤ sh T J) {o : Tube K}
    (ho : o.WF) (hog : o.GatesInEnvelopes) (l : List Nat) {a0 : Itv K} {r : Option (Itv K × Tube K)} {P : Nat → Prop}
    (h : ∀ I w, r = some (I, w) → I ≤ a0 ∧ ∀ j s, P j → w.slices[j]? = some s → DelayOk sh o a0 s) :
    ∀ I w, l.foldl (fun r k => delayStep sh un o k r) r = some (I, w) →
      I ≤ a0 ∧ ∀ j s, (P j ∨ j ∈ l) → w.slices[j]? = some s → DelayOk sh o a0 s := by
  induction l generalizing r P with
  | nil => simpa using h
  | cons k l ih =>
    intro I w hr
    obtain ⟨h1, h2⟩ := ih (delayStep_effect (un := un) (k := k) hsm ho hog h) I w hr
    refine ⟨h1, fun j s hj => h2 j s ?_⟩
    rcases hj with hj | hj
    · exact Or.inl (Or.inl hj)
    · rcases List.mem_cons.mp hj with rfl | hj
      · exact Or.inl (Or.inr rfl)
      · exact Or.inr hj

theorem delayStep_gc {sh un : Itv K → Itv K → Itv K} {o : Tube K} {k : Nat} {r : Option (Itv K × Tube K)}
    (h : ∀ I w, r = some (I, w) → w.GatesInEnvelopes) : ∀ I w, delayStep sh un o k r = some (I, w) → w.GatesInEnvelopes := by
  intro I w hr
  unfold delayStep at hr
  rw [Option.bind_eq_some_iff] at hr
  obtain ⟨⟨I1, w1⟩, hr1, hr⟩ := hr
  rw [Option.bind_eq_some_iff] at hr
  obtain ⟨s, hs, hr⟩ := hr
  dsimp only at hr
  rw [Option.bind_eq_some_iff] at hr
  obtain ⟨⟨J, e⟩, hq, hr⟩ := hr
  rw [Option.bind_eq_some_iff] at hr
  obtain ⟨s', hs', hr⟩ := hr
  split_ifs at hr
  cases hr
  exact upd_gc (fun p n s h => narrow_gc h) (h I1 w1 hr1)

theorem delayLoop_gc {sh un : Itv K → Itv K → Itv K} {o : Tube K} (l : List Nat) {r : Option (Itv K × Tube K)}
    (h : ∀ I w, r = some (I, w) → w.GatesInEnvelopes) :
    ∀ I w, l.foldl (fun r k => delayStep sh un o k r) r = some (I, w) → w.GatesInEnvelopes := by
  induction l generalizing r with
  | nil => exact h
  | cons k l ih => exact ih (delayStep_gc h)


end

end Codac
