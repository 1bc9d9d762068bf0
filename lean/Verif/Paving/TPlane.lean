import Verif.Paving.Subsets
import Verif.Paving.Compute
import Verif.Tube.Integral
import Verif.Tube.EvalMono

/-!
# `TPlane`: detection of loops

Models `/repo/src/robotics/loops/codac_TPlane.cpp:92-213`, `Tube::eval` (codac_Tube.cpp:697-735) and `Slice::eval`
(codac_Slice.cpp:176-205).
-/

set_option linter.unusedSectionVars false

namespace Codac

variable {K : Type*} [Field K] [LinearOrder K] [IsStrictOrderedRing K]

/-! ### `Tube::eval`: bounds of the values -/

/-- `Interval(double)` of IBEX: empty for an infinite value (the bound of an unbounded or empty interval) -/
def ptOpt : Option K → Itv K
  | some a => .point a
  | none => ⊥

/-- `Slice::eval([a,b])` for `[a,b]` inside the slice, codac_Slice.cpp:176-205: intervals of the lower bounds and of the upper bounds;
`bnd` is `lb?` or `ub?` -/
def Slice.evalBound (bnd : Itv K → Option K) (s : Slice K) (a b : K) : Itv K :=
  (if a ≤ s.lb then ptOpt (bnd s.inG) else ⊥) ⊔ (if s.ub ≤ b then ptOpt (bnd s.outG) else ⊥) ⊔
    (if ¬ (a = b ∧ (a = s.lb ∨ a = s.ub)) then ptOpt (bnd s.cod) else ⊥)

/-- the loop of `Tube::eval([a,b])`, codac_Tube.cpp:723-730, from `slice(a)` -/
def evalBoundLoop (bnd : Itv K → Option K) (a b : K) : List (Slice K) → Itv K → Itv K
  | [], acc => acc
  | s :: ss, acc => if s.lb ≤ b then evalBoundLoop bnd a b ss (acc ⊔ s.evalBound bnd (max a s.lb) (min b s.ub)) else acc

/-- `Tube::eval([a,b])` for `[a,b]` in the time domain, codac_Tube.cpp:697-735 (mode without synthesis), one of the two components -/
def Tube.evalBound (bnd : Itv K → Option K) (T : Tube K) (a b : K) : Itv K := evalBoundLoop bnd a b (seek a T.slices) ⊥

/-! ### The tests of a leaf -/

/-- `Interval::POS_REALS` -/
def Itv.posR : Itv K := .mk (some 0) none trivial
/-- `Interval::NEG_REALS` -/
def Itv.negR : Itv K := .mk none (some 0) trivial

/-- `Y.is_strict_superset(X)` (IBEX) -/
def Itv.strictSub (X Y : Itv K) : Bool := decide (X ≤ Y) && decide (X ≠ Y)

/-- `X.interior_contains(0)` (IBEX) -/
def Itv.zeroInside : Itv K → Bool
  | .empty => false
  | .mk l u _ => (match l with | some a => decide (a < 0) | none => true) && (match u with | some b => decide (0 < b) | none => true)

/-- arguments of `compute_detections`: precision, position tubes, velocity tubes (if `with_derivative`), the interval arithmetic and
the subtraction of two doubles -/
structure TPlaneArgs (K : Type*) [Field K] [LinearOrder K] where
  A : IArith K
  sub : K → K → K
  precision : K
  p : Fin 2 → Tube K
  v : Option (Fin 2 → Tube K)

/-- `IntervalVector(u.lb() - w.ub()) | (u.ub() - w.lb())`, codac_TPlane.cpp:168-170, one component -/
def encBound (sub : K → K → K) (u w : Itv K) : Itv K :=
  match u, w with
  | .mk (some ul) (some uu) _, .mk (some wl) (some wu) _ => .point (sub ul wu) ⊔ .point (sub uu wl)
  | _, _ => ⊥  -- bounds of an empty interval

/-- `enc_bounds.first[i]` for `[t1] = [a1,b1]`, `[t2] = [a2,b2]` -/
def TPlaneArgs.encFirst (D : TPlaneArgs K) (a1 b1 a2 b2 : K) (i : Fin 2) : Itv K :=
  encBound D.sub ((D.p i).evalBound Itv.lb? a1 b1) ((D.p i).evalBound Itv.ub? a2 b2)

/-- `enc_bounds.second[i]` -/
def TPlaneArgs.encSecond (D : TPlaneArgs K) (a1 b1 a2 b2 : K) (i : Fin 2) : Itv K :=
  encBound D.sub ((D.p i).evalBound Itv.ub? a1 b1) ((D.p i).evalBound Itv.lb? a2 b2)

/-- `integ[i]`, codac_TPlane.cpp:152-153 -/
def integBound (A : IArith K) (V : Tube K) (a1 b1 a2 b2 : K) : Itv K :=
  ptOpt (V.partialIntegral2 A a1 b1 a2 b2).1.lb? ⊔ ptOpt (V.partialIntegral2 A a1 b1 a2 b2).2.ub?

/-- `primitive_out`, codac_TPlane.cpp:172-176 -/
def TPlaneArgs.primitiveOut (D : TPlaneArgs K) (a1 b1 a2 b2 : K) : Bool :=
  (D.A.sub (.icc a1 b1) (.icc a2 b2)).strictSub .posR
    || (D.encFirst a1 b1 a2 b2 0).strictSub .posR || (D.encFirst a1 b1 a2 b2 1).strictSub .posR
    || (D.encSecond a1 b1 a2 b2 0).strictSub .negR || (D.encSecond a1 b1 a2 b2 1).strictSub .negR

/-- `primitive_in`, codac_TPlane.cpp:178-182 -/
def TPlaneArgs.primitiveIn (D : TPlaneArgs K) (a1 b1 a2 b2 : K) : Bool :=
  (D.A.sub (.icc a1 b1) (.icc a2 b2)).strictSub .negR
    && (D.encFirst a1 b1 a2 b2 0).strictSub .negR && (D.encFirst a1 b1 a2 b2 1).strictSub .negR
    && (D.encSecond a1 b1 a2 b2 0).strictSub .posR && (D.encSecond a1 b1 a2 b2 1).strictSub .posR

/-- `derivative_out`, codac_TPlane.cpp:155-157 -/
def TPlaneArgs.derivativeOut (D : TPlaneArgs K) (a1 b1 a2 b2 : K) : Bool :=
  match D.v with
  | none => false
  | some v =>
    (D.A.sub (.icc a1 b1) (.icc a2 b2)).strictSub .posR
      || !((integBound D.A (v 0) a1 b1 a2 b2).zeroInside && (integBound D.A (v 1) a1 b1 a2 b2).zeroInside)
      || !(((v 0).evalItv (.icc a1 b1 ⊔ .icc a2 b2)).zeroInside && ((v 1).evalItv (.icc a1 b1 ⊔ .icc a2 b2)).zeroInside)

/-- `derivative_in`, codac_TPlane.cpp:159-161; `is_strict_superset` of boxes: inclusion of the components, one of them strict -/
def TPlaneArgs.derivativeIn (D : TPlaneArgs K) (a1 b1 a2 b2 : K) : Bool :=
  match D.v with
  | none => false
  | some v =>
    let f := fun i => ((v i).partialIntegral2 D.A a1 b1 a2 b2).1
    let g := fun i => ((v i).partialIntegral2 D.A a1 b1 a2 b2).2
    (D.A.sub (.icc a1 b1) (.icc a2 b2)).strictSub .negR
      && (decide (f 0 ≤ Itv.negR ∧ f 1 ≤ Itv.negR) && decide (¬ (f 0 = Itv.negR ∧ f 1 = Itv.negR)))
      && (decide (g 0 ≤ Itv.posR ∧ g 1 ≤ Itv.posR) && decide (¬ (g 0 = Itv.posR ∧ g 1 = Itv.posR)))

/-- the conclusion for a leaf, codac_TPlane.cpp:184-195: the new value, nothing when the leaf is bisected -/
def TPlaneArgs.classify (D : TPlaneArgs K) (X : Box K) : Option SetValue :=
  match X with
  | [.mk (some a1) (some b1) _, .mk (some a2) (some b2) _] =>
    if D.derivativeOut a1 b1 a2 b2 || D.primitiveOut a1 b1 a2 b2 then some .OUT
    else if D.derivativeIn a1 b1 a2 b2 && D.primitiveIn a1 b1 a2 b2 then some .IN
    else if max (b1 - a1) (b2 - a2) < D.precision then some .UNKNOWN
    else none
  | _ => some .UNKNOWN  -- not reachable: bounded non-empty boxes of dimension two

/-! ### The recursion -/

/-- `TPlane::compute_detections`, codac_TPlane.cpp:123-209: the recursion on the tree. `fuel` bounds the depth. The sub-planes
`m_first_subtplane`, … are copies of the sub-pavings written back after the recursive call, with the same root. -/
def Paving.detect (bis : Box K → Box K × Box K) (classify : Box K → Option SetValue) : Nat → Paving K → Option (Paving K)
  | 0, _ => none
  | n + 1, .leaf b val =>
    if val = .OUT then some (.leaf b val)
    else match classify b with
      | some w => some (.leaf b w)
      | none => do
        let l ← detect bis classify n (.leaf (bis b).1 val)
        let r ← detect bis classify n (.leaf (bis b).2 val)
        some (.node b val l r)
  | n + 1, .node b val l r =>
    if val = .OUT then some (.node b val l r)
    else do
      let l ← detect bis classify n l
      let r ← detect bis classify n r
      some (.node b val l r)

/-- the initialisation of an unbounded box, codac_TPlane.cpp:119-120 -/
def Paving.initBox (dom : Itv K) : Paving K → Paving K
  | .leaf b val => if b.any Itv.isUnbounded then .leaf [dom, dom] val else .leaf b val
  | .node b val l r => if b.any Itv.isUnbounded then .node [dom, dom] val l r else .node b val l r

theorem Paving.initBox_of_bounded {P : Paving K} (h : ∀ I ∈ P.box, I.isUnbounded = false) (J : Itv K) : P.initBox J = P := by
  have h' : ¬ P.box.any Itv.isUnbounded = true := by
    simp only [List.any_eq_true, not_exists, not_and, Bool.not_eq_true]
    exact h
  cases P with
  | leaf b w => exact if_neg h'
  | node b w l r => exact if_neg h'

/-- one call of `compute_detections` -/
def Paving.computeDetections (bis : Box K → Box K × Box K) (fuel : Nat) (P : Paving K) (D : TPlaneArgs K) : Option (Paving K) :=
  (P.initBox (.icc (D.p 0).t0 (D.p 0).tf)).detect bis D.classify fuel

/-- successive calls on the same plane -/
def Paving.detections (bis : Box K → Box K × Box K) (fuel : Nat) : List (TPlaneArgs K) → Paving K → Option (Paving K)
  | [], P => some P
  | D :: Ds, P => (P.computeDetections bis fuel D).bind (Paving.detections bis fuel Ds)

/-! ### Bounds of the values -/

/-- a set of lower bounds has an element below `x` -/
def HasBelow (X : Itv K) (x : K) : Prop := ∃ v ∈ X, v ≤ x
/-- a set of upper bounds has an element above `x` -/
def HasAbove (X : Itv K) (x : K) : Prop := ∃ v ∈ X, x ≤ v

/-- bounded envelopes and gates -/
def Tube.Bounded (T : Tube K) : Prop :=
  ∀ s ∈ T.slices, s.cod.isUnbounded = false ∧ s.inG.isUnbounded = false ∧ s.outG.isUnbounded = false

theorem ptOpt_lb {X : Itv K} {x : K} (hx : x ∈ X) (hb : X.isUnbounded = false) : HasBelow (ptOpt X.lb?) x := by
  obtain ⟨l, u, p, rfl⟩ := Itv.bounds_of_bounded (Itv.isEmpty_false_iff.mpr (Itv.ne_bot_of_mem hx)) hb
  exact ⟨l, Itv.mem_point.mpr rfl, hx.1⟩

theorem ptOpt_ub {X : Itv K} {x : K} (hx : x ∈ X) (hb : X.isUnbounded = false) : HasAbove (ptOpt X.ub?) x := by
  obtain ⟨l, u, p, rfl⟩ := Itv.bounds_of_bounded (Itv.isEmpty_false_iff.mpr (Itv.ne_bot_of_mem hx)) hb
  exact ⟨u, Itv.mem_point.mpr rfl, hx.2⟩

/-- `t` of the slice in `[a,b]`, part of the slice: a bound of the value at `t` is in the result -/
theorem Slice.evalBound_mem {bnd : Itv K → Option K} {R : Itv K → K → Prop} (hmono : ∀ {X Y x}, X ≤ Y → R X x → R Y x)
    {s : Slice K} (hbnd : ∀ {X : Itv K} {x : K}, (X = s.cod ∨ X = s.inG ∨ X = s.outG) → x ∈ X → R (ptOpt (bnd X)) x)
    {f : K → K} (hf : s.Encloses f) {a b t : K} (h1 : s.lb ≤ t) (h2 : t ≤ s.ub) (h3 : a ≤ t) (h4 : t ≤ b) :
    R (s.evalBound bnd a b) (f t) := by
  unfold Slice.evalBound
  rcases eq_or_lt_of_le h1 with e | h1
  · subst e
    rw [if_pos h3]
    exact hmono (le_sup_left.trans le_sup_left) (hbnd (.inr (.inl rfl)) hf.1)
  rcases eq_or_lt_of_le h2 with e | h2
  · subst e
    rw [if_pos h4]
    exact hmono (le_sup_right.trans le_sup_left) (hbnd (.inr (.inr rfl)) hf.2.1)
  · rw [if_pos (by
      rintro ⟨rfl, e | e⟩
      · rw [e] at h4; exact absurd h4 (not_le.mpr h1)
      · rw [e] at h3; exact absurd h3 (not_le.mpr h2)) (c := ¬ (a = b ∧ (a = s.lb ∨ a = s.ub)))]
    exact hmono le_sup_right (hbnd (.inl rfl) (hf.2.2 t h1 h2))

theorem le_evalBoundLoop {bnd : Itv K → Option K} {a b : K} {ss : List (Slice K)} {acc : Itv K} : acc ≤ evalBoundLoop bnd a b ss acc := by
  induction ss generalizing acc with
  | nil => exact le_rfl
  | cons s ss ih =>
    rw [evalBoundLoop]
    split
    · exact le_sup_left.trans ih
    · exact le_rfl

theorem evalBoundLoop_slice {bnd : Itv K → Option K} {a b a' b' : K} {g : Itv K} {cs : List (Cell K)} (ht : Tiles a' cs b') {s : Slice K}
    (hs : s ∈ slicesFrom g cs) (hb : s.lb ≤ b) {acc : Itv K} :
    s.evalBound bnd (max a s.lb) (min b s.ub) ≤ evalBoundLoop bnd a b (slicesFrom g cs) acc := by
  induction cs generalizing a' g acc with
  | nil => simp at hs
  | cons c cs ih =>
    obtain ⟨rfl, h3, h4⟩ := ht
    rw [slicesFrom_cons] at hs ⊢
    rw [evalBoundLoop]
    rcases List.mem_cons.mp hs with e | hs'
    · subst e
      rw [if_pos hb]
      exact le_sup_right.trans le_evalBoundLoop
    · have := (h4.mem_bounds hs').1
      have hle : c.lb ≤ b := h3.le.trans (this.trans hb)
      rw [if_pos hle]
      exact ih h4 hs'

/-- the whole tube: a bound of the value at `t` is in the result of `eval([a,b])` -/
theorem Tube.evalBound_mem {bnd : Itv K → Option K} {R : Itv K → K → Prop} (hmono : ∀ {X Y x}, X ≤ Y → R X x → R Y x) {T : Tube K}
    (hT : T.WF) (hbnd : ∀ s ∈ T.slices, ∀ {X : Itv K} {x : K}, (X = s.cod ∨ X = s.inG ∨ X = s.outG) → x ∈ X → R (ptOpt (bnd X)) x)
    {f : K → K} (hf : T.Encloses f) {a b t : K} (ha : T.t0 ≤ a) (hb : b ≤ T.tf) (h3 : a ≤ t) (h4 : t ≤ b) :
    R (T.evalBound bnd a b) (f t) := by
  obtain ⟨a', g', cs', e, hne, ht, _, h5, _, _, _, hsub, _⟩ := seek_suffix (g := T.g0) hT.tiles hT.ne ha
  obtain ⟨s, hs, h1, h2⟩ : ∃ s ∈ slicesFrom g' cs', s.lb ≤ t ∧ t ≤ s.ub := by
    replace h5 := h5.trans h3
    replace h4 := h4.trans hb
    clear * - hne ht h5 h4
    induction cs' generalizing a' g' with
    | nil => exact absurd rfl hne
    | cons c cs ih =>
      obtain ⟨rfl, h6, h7⟩ := ht
      rw [slicesFrom_cons]
      by_cases hc : t ≤ c.ub
      · exact ⟨_, List.mem_cons_self, h5, hc⟩
      · cases cs with
        | nil => exact absurd (h7 ▸ h4) hc
        | cons c' cs =>
          obtain ⟨s, hs, h⟩ := ih c.ub c.out (by simp) h7 (not_le.mp hc).le
          exact ⟨s, List.mem_cons_of_mem _ hs, h⟩
  have hs' : s ∈ T.slices := hsub s hs
  have hfs := hf s hs'
  unfold Tube.evalBound
  have : seek a T.slices = slicesFrom g' cs' := e
  rw [this]
  exact hmono (evalBoundLoop_slice ht hs (h1.trans h4))
    (Slice.evalBound_mem (R := R) hmono (fun {X x} => hbnd s hs' (X := X) (x := x)) hfs h1 h2 (max_le h3 h1) (le_min h4 h2))

theorem Itv.sup_bounded {X Y : Itv K} (hX : X.isUnbounded = false) (hY : Y.isUnbounded = false) : (X ⊔ Y).isUnbounded = false := by
  rcases X with _ | ⟨_ | a, _ | b, p⟩ <;> rcases Y with _ | ⟨_ | c, _ | d, q⟩ <;> simp_all [Itv.isUnbounded] <;> rfl

theorem ptOpt_bounded (o : Option K) : (ptOpt o).isUnbounded = false := by cases o <;> rfl

theorem Slice.evalBound_bounded {bnd : Itv K → Option K} {s : Slice K} {a b : K} : (s.evalBound bnd a b).isUnbounded = false := by
  unfold Slice.evalBound
  refine Itv.sup_bounded (Itv.sup_bounded ?_ ?_) ?_ <;> split <;> first | exact ptOpt_bounded _ | rfl

theorem evalBoundLoop_bounded {bnd : Itv K → Option K} {a b : K} {ss : List (Slice K)} {acc : Itv K} (h : acc.isUnbounded = false) :
    (evalBoundLoop bnd a b ss acc).isUnbounded = false := by
  induction ss generalizing acc with
  | nil => exact h
  | cons s ss ih =>
    rw [evalBoundLoop]
    split
    · exact ih (Itv.sup_bounded h Slice.evalBound_bounded)
    · exact h

theorem Tube.evalBound_bounded {bnd : Itv K → Option K} {T : Tube K} {a b : K} : (T.evalBound bnd a b).isUnbounded = false :=
  evalBoundLoop_bounded rfl

/-- the lower bounds -/
theorem Tube.evalBound_lb {T : Tube K} (hT : T.WF) (hb : T.Bounded) {f : K → K} (hf : T.Encloses f) {a b t : K} (ha : T.t0 ≤ a)
    (hb' : b ≤ T.tf) (h3 : a ≤ t) (h4 : t ≤ b) : HasBelow (T.evalBound Itv.lb? a b) (f t) :=
  Tube.evalBound_mem (R := HasBelow) (fun h ⟨v, h1, h2⟩ => ⟨v, Itv.mem_of_le h h1, h2⟩) hT
    (fun s hs X x h hx => ptOpt_lb hx (by obtain ⟨h1, h2, h3⟩ := hb s hs; rcases h with rfl | rfl | rfl <;> assumption)) hf ha hb' h3 h4

/-- the upper bounds -/
theorem Tube.evalBound_ub {T : Tube K} (hT : T.WF) (hb : T.Bounded) {f : K → K} (hf : T.Encloses f) {a b t : K} (ha : T.t0 ≤ a)
    (hb' : b ≤ T.tf) (h3 : a ≤ t) (h4 : t ≤ b) : HasAbove (T.evalBound Itv.ub? a b) (f t) :=
  Tube.evalBound_mem (R := HasAbove) (fun h ⟨v, h1, h2⟩ => ⟨v, Itv.mem_of_le h h1, h2⟩) hT
    (fun s hs X x h hx => ptOpt_ub hx (by obtain ⟨h1, h2, h3⟩ := hb s hs; rcases h with rfl | rfl | rfl <;> assumption)) hf ha hb' h3 h4

/-! ### The tests on a pair of times of a loop -/

theorem Itv.not_strictSub_posR {X : Itv K} {x : K} (hx : x ∈ X) (h : x < 0) : X.strictSub .posR = false := by
  unfold Itv.strictSub
  rw [Bool.and_eq_false_iff]
  left
  rw [decide_eq_false_iff_not]
  intro hle
  exact absurd (Itv.mem_of_le hle hx).1 (not_le.mpr h)

theorem Itv.not_strictSub_negR {X : Itv K} {x : K} (hx : x ∈ X) (h : 0 < x) : X.strictSub .negR = false := by
  unfold Itv.strictSub
  rw [Bool.and_eq_false_iff]
  left
  rw [decide_eq_false_iff_not]
  intro hle
  exact absurd (Itv.mem_of_le hle hx).2 (not_le.mpr h)

theorem Itv.zeroInside_of_mem {X : Itv K} {x y : K} (hx : x ∈ X) (hy : y ∈ X) (h1 : x < 0) (h2 : 0 < y) : X.zeroInside = true := by
  rcases X with _ | ⟨_ | a, _ | b, p⟩
  · exact absurd hx (Itv.not_mem_empty x)
  all_goals simp only [zeroInside, Bool.and_eq_true, decide_eq_true_eq, and_self, true_and, and_true]
  · exact lt_of_lt_of_le h2 hy.2
  · exact lt_of_le_of_lt hx.1 h1
  · exact ⟨lt_of_le_of_lt hx.1 h1, lt_of_lt_of_le h2 hy.2⟩

/-- the difference of two different doubles is not rounded to zero -/
def SignSub (sub : K → K → K) : Prop := (∀ a b, a < b → sub a b < 0) ∧ ∀ a b, b < a → 0 < sub a b

theorem encBound_neg {sub : K → K → K} (hs : SignSub sub) {u w : Itv K} (hu : u.isUnbounded = false) (hw : w.isUnbounded = false) {x y : K}
    (h1 : HasBelow u x) (h2 : HasAbove w y) (h : x < y) : ∃ d ∈ encBound sub u w, d < 0 := by
  obtain ⟨p, hp, hp'⟩ := h1
  obtain ⟨q, hq, hq'⟩ := h2
  obtain ⟨ul, uu, _, rfl⟩ := Itv.bounds_of_bounded (Itv.isEmpty_false_iff.mpr (Itv.ne_bot_of_mem hp)) hu
  obtain ⟨wl, wu, _, rfl⟩ := Itv.bounds_of_bounded (Itv.isEmpty_false_iff.mpr (Itv.ne_bot_of_mem hq)) hw
  exact ⟨sub ul wu, Itv.mem_sup_left (Itv.mem_point.mpr rfl),
    hs.1 _ _ (lt_of_le_of_lt (le_trans hp.1 hp') (lt_of_lt_of_le h (le_trans hq' hq.2)))⟩

theorem encBound_pos {sub : K → K → K} (hs : SignSub sub) {u w : Itv K} (hu : u.isUnbounded = false) (hw : w.isUnbounded = false) {x y : K}
    (h1 : HasAbove u x) (h2 : HasBelow w y) (h : y < x) : ∃ d ∈ encBound sub u w, 0 < d := by
  obtain ⟨p, hp, hp'⟩ := h1
  obtain ⟨q, hq, hq'⟩ := h2
  obtain ⟨ul, uu, _, rfl⟩ := Itv.bounds_of_bounded (Itv.isEmpty_false_iff.mpr (Itv.ne_bot_of_mem hp)) hu
  obtain ⟨wl, wu, _, rfl⟩ := Itv.bounds_of_bounded (Itv.isEmpty_false_iff.mpr (Itv.ne_bot_of_mem hq)) hw
  exact ⟨sub uu wl, Itv.mem_sup_right (Itv.mem_point.mpr rfl),
    hs.2 _ _ (lt_of_le_of_lt (le_trans hq.1 hq') (lt_of_lt_of_le h (le_trans hp' hp.2)))⟩

/-- the operations on bounded intervals give bounded intervals (no overflow) -/
def IArith.NoOverflow (A : IArith K) : Prop := ∀ X Y : Itv K, X.isUnbounded = false → Y.isUnbounded = false →
  (A.add X Y).isUnbounded = false ∧ (A.sub X Y).isUnbounded = false ∧ (A.mul X Y).isUnbounded = false

theorem Itv.icc_bounded (a b : K) : (Itv.icc a b).isUnbounded = false := by
  unfold Itv.icc Itv.ofBounds
  split <;> rfl

theorem exact_noOverflow : (IArith.exact K).NoOverflow := by
  have hadd : ∀ X Y : Itv K, X.isUnbounded = false → Y.isUnbounded = false → (X.add Y).isUnbounded = false := by
    intro X Y hX hY
    rcases X with _ | ⟨_ | a, _ | b, p⟩ <;> try cases hX
    · rfl
    rcases Y with _ | ⟨_ | c, _ | d, q⟩ <;> try cases hY
    · rfl
    exact Itv.icc_bounded _ _
  have hneg : ∀ X : Itv K, X.isUnbounded = false → X.neg.isUnbounded = false := by
    intro X hX
    rcases X with _ | ⟨_ | a, _ | b, p⟩ <;> try cases hX
    · rfl
    exact Itv.icc_bounded _ _
  have hmul : ∀ X Y : Itv K, X.isUnbounded = false → Y.isUnbounded = false → (X.mul Y).isUnbounded = false := by
    intro X Y hX hY
    rcases X with _ | ⟨_ | a, _ | b, p⟩ <;> try cases hX
    · rfl
    rcases Y with _ | ⟨_ | c, _ | d, q⟩ <;> try cases hY
    · rfl
    exact Itv.icc_bounded _ _
  exact fun X Y hX hY => ⟨hadd X Y hX hY, hadd X _ hX (hneg Y hY), hmul X Y hX hY⟩

theorem piLoop_bounded {A : IArith K} (hA : A.NoOverflow) {a b : K} {ss : List (Slice K)} (hs : ∀ s ∈ ss, s.cod.isUnbounded = false)
    {f g : Itv K × Itv K} (h1 : f.1.isUnbounded = false) (h2 : f.2.isUnbounded = false) (h3 : g.1.isUnbounded = false)
    (h4 : g.2.isUnbounded = false) :
    (piLoop A a b ss f g).1.isUnbounded = false ∧ (piLoop A a b ss f g).2.isUnbounded = false := by
  have hc : ∀ (d c : K) (st : Itv K × Itv K), st.1.isUnbounded = false → st.2.isUnbounded = false →
      (piCertain A d c st).1.isUnbounded = false ∧ (piCertain A d c st).2.isUnbounded = false :=
    fun d c st e _ => ⟨(hA _ _ e rfl).1, (hA _ _ e rfl).1⟩
  have hu : ∀ (d c : K) (st : Itv K × Itv K), st.1.isUnbounded = false → st.2.isUnbounded = false →
      (piUncertain A d c st).1.isUnbounded = false ∧ (piUncertain A d c st).2.isUnbounded = false := by
    intro d c st e e'
    refine ⟨Itv.sup_bounded e (hA _ _ e' (hA _ _ ?_ rfl).2.2).1, (hA _ _ e' rfl).1⟩
    exact Itv.icc_bounded _ _
  induction ss generalizing f g with
  | nil => exact ⟨h1, h3⟩
  | cons s ss ih =>
    rw [piLoop]
    have hb := hs s List.mem_cons_self
    split
    · rcases hcod : s.cod with _ | ⟨_ | l, _ | h, p⟩
      · exact ⟨rfl, rfl⟩
      · rw [hcod] at hb; simp [Itv.isUnbounded] at hb
      · rw [hcod] at hb; simp [Itv.isUnbounded] at hb
      · rw [hcod] at hb; simp [Itv.isUnbounded] at hb
      · dsimp only
        have c1 := hc (min s.ub a - s.lb) l f h1 h2
        have c2 := hc (min s.ub a - s.lb) h g h3 h4
        generalize hf1 : (if s.lb ≤ a then piCertain A (min s.ub a - s.lb) l f else f) = f1
        generalize hg1 : (if s.lb ≤ a then piCertain A (min s.ub a - s.lb) h g else g) = g1
        have k1 : f1.1.isUnbounded = false ∧ f1.2.isUnbounded = false := by
          rw [← hf1]; split; exacts [c1, ⟨h1, h2⟩]
        have k2 : g1.1.isUnbounded = false ∧ g1.2.isUnbounded = false := by
          rw [← hg1]; split; exacts [c2, ⟨h3, h4⟩]
        split
        · exact ⟨k1.1, k2.1⟩
        · have u1 := hu (min s.ub b - max s.lb a) l f1 k1.1 k1.2
          have u2 := hu (min s.ub b - max s.lb a) h g1 k2.1 k2.2
          split
          · exact ih (fun s h => hs s (List.mem_cons_of_mem _ h)) u1.1 u1.2 u2.1 u2.2
          · exact ih (fun s h => hs s (List.mem_cons_of_mem _ h)) k1.1 k1.2 k2.1 k2.2
    · exact ⟨h1, h3⟩

theorem partialIntegral_bounded {A : IArith K} (hA : A.NoOverflow) {T : Tube K} (hb : T.Bounded) {a b : K} :
    (T.partialIntegral A a b).1.isUnbounded = false ∧ (T.partialIntegral A a b).2.isUnbounded = false :=
  piLoop_bounded hA (fun s hs => (hb s hs).1) rfl rfl rfl rfl

/-- the hull of the bounds is the integral -/
theorem integBound_mem {A : IArith K} (hA : A.NoOverflow) {T : Tube K} (h : T.WF) (hbd : T.Bounded) {F : K → K} (hF : T.SlopeIn F)
    {a1 b1 a2 b2 : K} (ha : T.t0 ≤ a1) (hab1 : a1 ≤ b1) (hb1 : b1 ≤ T.tf) (ha2 : T.t0 ≤ a2) (hab2 : a2 ≤ b2) (hb : b2 ≤ T.tf)
    {t1 t2 : K} (h1 : a1 ≤ t1) (h2 : t1 ≤ b1) (h3 : a2 ≤ t2) (h4 : t2 ≤ b2) (ht : t1 ≤ t2) :
    F t2 - F t1 ∈ integBound A T a1 b1 a2 b2 := by
  have hm := integral2_mem (A := A) h hF ha hab1 hb1 ha2 hab2 hb h1 h2 h3 h4 ht
  have p1 := partialIntegral_bounded hA hbd (a := a1) (b := b1)
  have p2 := partialIntegral_bounded hA hbd (a := a2) (b := b2)
  have hne := slope_ne_bot h hF
  obtain ⟨m1, m1'⟩ := partialIntegral_prim (A := A) h hne ha hab1 hb1 h1 h2
  obtain ⟨m2, m2'⟩ := partialIntegral_prim (A := A) h hne ha2 hab2 hb h3 h4
  unfold Tube.integral2 at hm
  have n1 := Itv.isEmpty_false_iff.mpr (Itv.ne_bot_of_mem m1)
  have n2 := Itv.isEmpty_false_iff.mpr (Itv.ne_bot_of_mem m1')
  have n3 := Itv.isEmpty_false_iff.mpr (Itv.ne_bot_of_mem m2)
  have n4 := Itv.isEmpty_false_iff.mpr (Itv.ne_bot_of_mem m2')
  simp only [n1, n2, n3, n4, p1.1, p1.2, p2.1, p2.2, Bool.or_self, Bool.false_eq_true, if_false] at hm
  have e1 := A.sub_mem m2 m1
  have e2 := A.sub_mem m2' m1'
  obtain ⟨l1, u1, q1, b1⟩ := Itv.bounds_of_bounded (Itv.isEmpty_false_iff.mpr (Itv.ne_bot_of_mem e1)) (hA _ _ p2.1 p1.1).2.1
  obtain ⟨l2, u2, q2, b2⟩ := Itv.bounds_of_bounded (Itv.isEmpty_false_iff.mpr (Itv.ne_bot_of_mem e2)) (hA _ _ p2.2 p1.2).2.1
  unfold integBound Tube.partialIntegral2
  dsimp only
  rw [b1, b2] at hm ⊢
  exact hm

/-- the positions: with `x ± ε` in the tubes, the test on the positions does not discard a loop of `x` -/
theorem primitiveOut_false {D : TPlaneArgs K} (hs : SignSub D.sub) (hp : ∀ i, (D.p i).WF ∧ (D.p i).Bounded)
    {x : Fin 2 → K → K} {ε : K} (hε : 0 < ε) (hx : ∀ i, (D.p i).Encloses (fun t => x i t - ε) ∧ (D.p i).Encloses (fun t => x i t + ε))
    {a1 b1 a2 b2 : K} (hd : ∀ i, (D.p i).t0 ≤ a1 ∧ b1 ≤ (D.p i).tf ∧ (D.p i).t0 ≤ a2 ∧ b2 ≤ (D.p i).tf)
    {t1 t2 : K} (h1 : a1 ≤ t1) (h2 : t1 ≤ b1) (h3 : a2 ≤ t2) (h4 : t2 ≤ b2) (ht : t1 < t2) (hloop : ∀ i, x i t1 = x i t2) :
    D.primitiveOut a1 b1 a2 b2 = false := by
  have hlt : ∀ i, x i t1 - ε < x i t2 + ε := fun i => by rw [hloop i]; linarith
  have hlt' : ∀ i, x i t2 - ε < x i t1 + ε := fun i => by rw [hloop i]; linarith
  have k0 : (D.A.sub (.icc a1 b1) (.icc a2 b2)).strictSub .posR = false :=
    Itv.not_strictSub_posR (D.A.sub_mem (Itv.mem_icc.mpr ⟨h1, h2⟩) (Itv.mem_icc.mpr ⟨h3, h4⟩)) (sub_neg.mpr ht)
  have k1 : ∀ i, (D.encFirst a1 b1 a2 b2 i).strictSub .posR = false := by
    intro i
    obtain ⟨d1, d2, d3, d4⟩ := hd i
    obtain ⟨d, hd, hd'⟩ := encBound_neg hs Tube.evalBound_bounded Tube.evalBound_bounded
      (Tube.evalBound_lb (hp i).1 (hp i).2 (hx i).1 d1 d2 h1 h2) (Tube.evalBound_ub (hp i).1 (hp i).2 (hx i).2 d3 d4 h3 h4) (hlt i)
    exact Itv.not_strictSub_posR hd hd'
  have k2 : ∀ i, (D.encSecond a1 b1 a2 b2 i).strictSub .negR = false := by
    intro i
    obtain ⟨d1, d2, d3, d4⟩ := hd i
    obtain ⟨d, hd, hd'⟩ := encBound_pos hs Tube.evalBound_bounded Tube.evalBound_bounded
      (Tube.evalBound_ub (hp i).1 (hp i).2 (hx i).2 d1 d2 h1 h2) (Tube.evalBound_lb (hp i).1 (hp i).2 (hx i).1 d3 d4 h3 h4) (hlt' i)
    exact Itv.not_strictSub_negR hd hd'
  unfold TPlaneArgs.primitiveOut
  rw [k0, k1, k1, k2, k2]
  rfl

/-- the velocities: with primitives `x i ± ε t` in the tubes and a null velocity between the times, with margin `ε` -/
theorem derivativeOut_false {D : TPlaneArgs K} (hA : D.A.NoOverflow) {v : Fin 2 → Tube K} (hv : D.v = some v)
    (hp : ∀ i, (v i).WF ∧ (v i).Bounded ∧ (v i).GatesInEnvelopes)
    {x f : Fin 2 → K → K} {ε : K} (hε : 0 < ε)
    (hx : ∀ i, (v i).SlopeIn (fun t => x i t - ε * t) ∧ (v i).SlopeIn (fun t => x i t + ε * t))
    (hf : ∀ i, (v i).Encloses (fun t => f i t - ε) ∧ (v i).Encloses (fun t => f i t + ε))
    {a1 b1 a2 b2 : K} (hd : ∀ i, (v i).t0 ≤ a1 ∧ b1 ≤ (v i).tf ∧ (v i).t0 ≤ a2 ∧ b2 ≤ (v i).tf)
    {t1 t2 : K} (h1 : a1 ≤ t1) (h2 : t1 ≤ b1) (h3 : a2 ≤ t2) (h4 : t2 ≤ b2) (ht : t1 < t2) (hloop : ∀ i, x i t1 = x i t2)
    (hc : ∀ i, ∃ c, t1 ≤ c ∧ c ≤ t2 ∧ f i c = 0) :
    D.derivativeOut a1 b1 a2 b2 = false := by
  have k0 : (D.A.sub (.icc a1 b1) (.icc a2 b2)).strictSub .posR = false :=
    Itv.not_strictSub_posR (D.A.sub_mem (Itv.mem_icc.mpr ⟨h1, h2⟩) (Itv.mem_icc.mpr ⟨h3, h4⟩)) (sub_neg.mpr ht)
  have hpos : 0 < ε * (t2 - t1) := mul_pos hε (sub_pos.mpr ht)
  have k1 : ∀ i, (integBound D.A (v i) a1 b1 a2 b2).zeroInside = true := by
    intro i
    obtain ⟨d1, d2, d3, d4⟩ := hd i
    have m1 := integBound_mem hA (hp i).1 (hp i).2.1 (hx i).1 d1 (h1.trans h2) d2 d3 (h3.trans h4) d4 h1 h2 h3 h4 ht.le
    have m2 := integBound_mem hA (hp i).1 (hp i).2.1 (hx i).2 d1 (h1.trans h2) d2 d3 (h3.trans h4) d4 h1 h2 h3 h4 ht.le
    refine Itv.zeroInside_of_mem m1 m2 ?_ ?_
    · rw [hloop i]; nlinarith
    · rw [hloop i]; nlinarith
  have k2 : ∀ i, ((v i).evalItv (.icc a1 b1 ⊔ .icc a2 b2)).zeroInside = true := by
    intro i
    obtain ⟨c, c1, c2, e⟩ := hc i
    have hm : c ∈ (Itv.icc a1 b1 ⊔ Itv.icc a2 b2 : Itv K) :=
      Itv.mem_sup_of_between (Itv.mem_icc.mpr ⟨h1, h2⟩) (Itv.mem_icc.mpr ⟨h3, h4⟩) c1 c2
    obtain ⟨d1, d2, d3, d4⟩ := hd i
    have m1 := evalItv_mem (hp i).1 (hp i).2.2 (hf i).1 hm
    have m2 := evalItv_mem (hp i).1 (hp i).2.2 (hf i).2 hm
    refine Itv.zeroInside_of_mem m1 m2 ?_ ?_
    · rw [e]; linarith
    · rw [e]; linarith
  unfold TPlaneArgs.derivativeOut
  rw [hv]
  dsimp only
  rw [k0, k1, k1, k2, k2]
  rfl

/-! ### The recursion -/

namespace Paving

/-- a value given to a leaf which is kept -/
def Kept (w : SetValue) : Prop := w = .UNKNOWN ∨ w = .IN

theorem Kept.ne_out {w : SetValue} (h : Kept w) : w ≠ .OUT := by rcases h with rfl | rfl <;> decide

/-- the point `v` is in a kept leaf, below kept nodes -/
def Live (v : List K) : Paving K → Prop
  | leaf b w => InBox v b ∧ Kept w
  | node _ w l r => Kept w ∧ (l.Live v ∨ r.Live v)

/-- every node is kept -/
def NodesKept : Paving K → Prop
  | leaf _ w => Kept w ∨ w = .OUT
  | node _ w l r => Kept w ∧ l.NodesKept ∧ r.NodesKept

variable {bis : Box K → Box K × Box K} {cl : Box K → Option SetValue}

theorem detect_leaf {n : Nat} {b : Box K} {w : SetValue} {P : Paving K} (h : detect bis cl (n + 1) (leaf b w) = some P) :
    (w = .OUT ∧ P = leaf b w) ∨ (w ≠ .OUT ∧ ∃ u, cl b = some u ∧ P = leaf b u) ∨
      (w ≠ .OUT ∧ cl b = none ∧ ∃ l r, detect bis cl n (leaf (bis b).1 w) = some l ∧ detect bis cl n (leaf (bis b).2 w) = some r ∧
        P = node b w l r) := by
  rw [detect] at h
  by_cases hw : w = .OUT
  · rw [if_pos hw, Option.some.injEq] at h
    exact .inl ⟨hw, h.symm⟩
  · rw [if_neg hw] at h
    cases hc : cl b with
    | some u =>
      rw [hc] at h
      simp only [Option.some.injEq] at h
      exact .inr (.inl ⟨hw, u, rfl, h.symm⟩)
    | none =>
      rw [hc] at h
      dsimp only at h
      cases h1 : detect bis cl n (leaf (bis b).1 w) with
      | none => rw [h1] at h; cases h
      | some l =>
        cases h2 : detect bis cl n (leaf (bis b).2 w) with
        | none => rw [h1, h2] at h; cases h
        | some r =>
          rw [h1, h2] at h
          exact .inr (.inr ⟨hw, rfl, l, r, rfl, rfl, (Option.some.inj h).symm⟩)

theorem detect_node {n : Nat} {b : Box K} {w : SetValue} {l r P : Paving K} (h : detect bis cl (n + 1) (node b w l r) = some P) :
    (w = .OUT ∧ P = node b w l r) ∨
      (w ≠ .OUT ∧ ∃ l' r', detect bis cl n l = some l' ∧ detect bis cl n r = some r' ∧ P = node b w l' r') := by
  rw [detect] at h
  by_cases hw : w = .OUT
  · rw [if_pos hw, Option.some.injEq] at h
    exact .inl ⟨hw, h.symm⟩
  · rw [if_neg hw] at h
    cases h1 : detect bis cl n l with
    | none => rw [h1] at h; cases h
    | some l' =>
      cases h2 : detect bis cl n r with
      | none => rw [h1, h2] at h; cases h
      | some r' =>
        rw [h1, h2] at h
        exact .inr ⟨hw, l', r', rfl, rfl, (Option.some.inj h).symm⟩

/-- the box is unchanged, the tree remains well formed -/
theorem detect_wf (hb : IsBis bis) {d : Nat} (hd : 0 < d) {n : Nat} {P P' : Paving K} (hw : P.WF d) (h : detect bis cl n P = some P') :
    P'.WF d ∧ P'.box = P.box := by
  induction n generalizing P P' with
  | zero => simp [detect] at h
  | succ n ih =>
    cases P with
    | leaf b w =>
      have hne : b ≠ [] := by rintro rfl; simp [WF] at hw; omega
      rcases detect_leaf h with ⟨_, rfl⟩ | ⟨_, u, _, rfl⟩ | ⟨_, _, l, r, h1, h2, rfl⟩
      · exact ⟨hw, rfl⟩
      · exact ⟨hw, rfl⟩
      · have l1 := hb.le₁ b hne
        have l2 := hb.le₂ b hne
        have hbl : b.length = d := hw
        obtain ⟨w1, e1⟩ := ih (P := leaf (bis b).1 w) (l1.length.trans hbl) h1
        obtain ⟨w2, e2⟩ := ih (P := leaf (bis b).2 w) (l2.length.trans hbl) h2
        exact ⟨⟨hbl, by rw [e1]; exact l1, by rw [e2]; exact l2, w1, w2⟩, rfl⟩
    | node b w l r =>
      rcases detect_node h with ⟨_, rfl⟩ | ⟨_, l', r', h1, h2, rfl⟩
      · exact ⟨hw, rfl⟩
      · obtain ⟨a1, a2, a3, a4, a5⟩ := hw
        obtain ⟨w1, e1⟩ := ih a4 h1
        obtain ⟨w2, e2⟩ := ih a5 h2
        exact ⟨⟨a1, by rw [e1]; exact a2, by rw [e2]; exact a3, w1, w2⟩, rfl⟩

/-- a point at which the tests do not conclude `OUT` remains in a kept leaf -/
theorem detect_live (hb : IsBis bis) {d : Nat} (hd : 0 < d) {v : List K} {B : Box K}
    (hcl : ∀ X u, BoxLe X B → InBox v X → cl X = some u → Kept u) {n : Nat} {P P' : Paving K} (hw : P.WF d) (hB : BoxLe P.box B)
    (hl : P.Live v) (h : detect bis cl n P = some P') : P'.Live v := by
  induction n generalizing P P' with
  | zero => simp [detect] at h
  | succ n ih =>
    cases P with
    | leaf b w =>
      have hne : b ≠ [] := by rintro rfl; simp [WF] at hw; omega
      obtain ⟨hv, hk⟩ := hl
      rcases detect_leaf h with ⟨e, _⟩ | ⟨_, u, hu, rfl⟩ | ⟨_, _, l, r, h1, h2, rfl⟩
      · exact absurd e hk.ne_out
      · exact ⟨hv, hcl b u hB hv hu⟩
      · have l1 := hb.le₁ b hne
        have l2 := hb.le₂ b hne
        refine ⟨hk, ?_⟩
        have hbl : b.length = d := hw
        rcases hb.cover b v hne hv with hv | hv
        · exact .inl (ih (P := leaf (bis b).1 w) (l1.length.trans hbl) (l1.trans hB) ⟨hv, hk⟩ h1)
        · exact .inr (ih (P := leaf (bis b).2 w) (l2.length.trans hbl) (l2.trans hB) ⟨hv, hk⟩ h2)
    | node b w l r =>
      obtain ⟨hk, hl⟩ := hl
      obtain ⟨a1, a2, a3, a4, a5⟩ := hw
      rcases detect_node h with ⟨e, _⟩ | ⟨_, l', r', h1, h2, rfl⟩
      · exact absurd e hk.ne_out
      · exact ⟨hk, hl.imp (fun hl => ih a4 (a2.trans hB) hl h1) (fun hl => ih a5 (a3.trans hB) hl h2)⟩

/-- a leaf which is not labelled `OUT` carries the conclusion of the last tests -/
theorem detect_value (hcl : ∀ X u, cl X = some u → Kept u ∨ u = .OUT) {n : Nat} {P P' : Paving K} (hk : P.NodesKept)
    (h : detect bis cl n P = some P') :
    P'.NodesKept ∧ ∀ t path, ∀ q ∈ P'.leaves t path, q.value = .OUT ∨ cl q.box = some q.value := by
  induction n generalizing P P' with
  | zero => simp [detect] at h
  | succ n ih =>
    cases P with
    | leaf b w =>
      rcases detect_leaf h with ⟨e, rfl⟩ | ⟨_, u, hu, rfl⟩ | ⟨hw, _, l, r, h1, h2, rfl⟩
      · refine ⟨hk, fun t path q hq => ?_⟩
        simp only [leaves, List.mem_singleton] at hq
        subst hq; exact .inl e
      · refine ⟨hcl b u hu, fun t path q hq => ?_⟩
        simp only [leaves, List.mem_singleton] at hq
        subst hq; exact .inr hu
      · obtain ⟨k1, v1⟩ := ih (P := leaf (bis b).1 w) hk h1
        obtain ⟨k2, v2⟩ := ih (P := leaf (bis b).2 w) hk h2
        refine ⟨⟨hk.resolve_right hw, k1, k2⟩, fun t path q hq => ?_⟩
        simp only [leaves, List.mem_append] at hq
        rcases hq with hq | hq
        · exact v1 _ _ q hq
        · exact v2 _ _ q hq
    | node b w l r =>
      obtain ⟨k, kl, kr⟩ := hk
      rcases detect_node h with ⟨e, _⟩ | ⟨_, l', r', h1, h2, rfl⟩
      · exact absurd e k.ne_out
      · obtain ⟨k1, v1⟩ := ih kl h1
        obtain ⟨k2, v2⟩ := ih kr h2
        refine ⟨⟨k, k1, k2⟩, fun t path q hq => ?_⟩
        simp only [leaves, List.mem_append] at hq
        rcases hq with hq | hq
        · exact v1 _ _ q hq
        · exact v2 _ _ q hq

theorem Live.leaf {v : List K} {P : Paving K} (h : P.Live v) (t : Nat) (path : List Bool) :
    ∃ q ∈ P.leaves t path, InBox v q.box ∧ Kept q.value := by
  induction P generalizing path with
  | leaf b w => exact ⟨⟨t, path, b, w⟩, by simp [leaves], h⟩
  | node b w l r ihl ihr =>
    simp only [leaves, List.mem_append]
    rcases h.2 with h | h
    · obtain ⟨q, hq, h⟩ := ihl h (path ++ [false]); exact ⟨q, .inl hq, h⟩
    · obtain ⟨q, hq, h⟩ := ihr h (path ++ [true]); exact ⟨q, .inr hq, h⟩

theorem detect_mono {n m : Nat} (hnm : n ≤ m) {P P' : Paving K} (h : detect bis cl n P = some P') : detect bis cl m P = some P' := by
  induction n generalizing m P P' with
  | zero => simp [detect] at h
  | succ n ih =>
    obtain ⟨m, rfl⟩ := Nat.exists_eq_add_of_le' (Nat.one_le_iff_ne_zero.mpr (by omega : m ≠ 0))
    cases P with
    | leaf b w =>
      rw [detect]
      rcases detect_leaf h with ⟨e, rfl⟩ | ⟨hw, u, hu, rfl⟩ | ⟨hw, hc, l, r, h1, h2, rfl⟩
      · rw [if_pos e]
      · rw [if_neg hw, hu]
      · rw [if_neg hw, hc]
        dsimp only
        rw [ih (by omega) h1, ih (by omega) h2]
        rfl
    | node b w l r =>
      rw [detect]
      rcases detect_node h with ⟨e, rfl⟩ | ⟨hw, l', r', h1, h2, rfl⟩
      · rw [if_pos e]
      · rw [if_neg hw, ih (by omega) h1, ih (by omega) h2]
        rfl

/-- termination -/
theorem detect_total [Archimedean K] {c p : K} (hb : IsBis bis) (hl : IsLargestFirst c bis) (hc0 : 0 ≤ c) (hc1 : c < 1) (hp : 0 < p)
    {d : Nat} (hd : 0 < d) (hcl : ∀ X, X.length = d → cl X = none → Box.maxDiamLt p X = false) {P : Paving K} (hw : P.WF d)
    (hbd : ∀ I ∈ P.box, I.isUnbounded = false) : ∃ n P', detect bis cl n P = some P' := by
  induction P with
  | leaf b w =>
    have key : ∀ n (b : Box K), b.length = d → (∀ I ∈ b, I.isUnbounded = false) → Sivia.boxRank c p b < n →
        ∃ P', detect bis cl n (leaf b w) = some P' := by
      intro n
      induction n with
      | zero => intro b _ _ h; omega
      | succ n ih =>
        intro b hX hbd hn
        have hne : b ≠ [] := by rintro rfl; simp at hX; omega
        rw [detect]
        by_cases e : w = .OUT
        · rw [if_pos e]; exact ⟨_, rfl⟩
        · rw [if_neg e]
          cases hc : cl b with
          | some v => exact ⟨_, rfl⟩
          | none =>
            dsimp only
            obtain ⟨r1, r2⟩ := Sivia.boxRank_bis hb hl hc0 hc1 hp hbd (hcl b hX hc)
            have hl1 := hb.le₁ b hne
            have hl2 := hb.le₂ b hne
            obtain ⟨L, hL⟩ := ih _ (hl1.length.trans hX) (Sivia.boxRank_mono hc0 hc1 hp hl1 hbd).2 (by omega)
            obtain ⟨R, hR⟩ := ih _ (hl2.length.trans hX) (Sivia.boxRank_mono hc0 hc1 hp hl2 hbd).2 (by omega)
            rw [hL, hR]
            exact ⟨_, rfl⟩
    exact ⟨_, key _ b hw hbd (Nat.lt_succ_self _)⟩
  | node b w l r ihl ihr =>
    obtain ⟨_, a2, a3, a4, a5⟩ := hw
    obtain ⟨n1, l', h1⟩ := ihl a4 (Sivia.boxRank_mono hc0 hc1 hp a2 hbd).2
    obtain ⟨n2, r', h2⟩ := ihr a5 (Sivia.boxRank_mono hc0 hc1 hp a3 hbd).2
    refine ⟨max n1 n2 + 1, ?_⟩
    rw [detect]
    by_cases e : w = .OUT
    · rw [if_pos e]; exact ⟨_, rfl⟩
    · rw [if_neg e, detect_mono (le_max_left _ _) h1, detect_mono (le_max_right _ _) h2]
      exact ⟨_, rfl⟩

end Paving

/-! ### The conclusions of the tests -/

theorem TPlaneArgs.classify_values (D : TPlaneArgs K) {X : Box K} {u : SetValue} (h : D.classify X = some u) :
    Paving.Kept u ∨ u = .OUT := by
  unfold TPlaneArgs.classify at h
  split at h
  · split_ifs at h <;> cases h
    · exact .inr rfl
    · exact .inl (.inr rfl)
    · exact .inl (.inl rfl)
  · cases h; exact .inl (.inl rfl)

theorem TPlaneArgs.classify_none (D : TPlaneArgs K) {X : Box K} (h : D.classify X = none) : Box.maxDiamLt D.precision X = false := by
  unfold TPlaneArgs.classify at h
  split at h
  · split_ifs at h with h1 h2 h3
    by_contra hc
    rw [Bool.not_eq_false] at hc
    simp [Box.maxDiamLt, Itv.diamBelow] at hc
    exact h3 (max_lt hc.1 hc.2)
  · cases h

/-- the bounds of the value at `t` are in the result of `eval` -/
theorem Tube.ptOpt_le_evalBound {bnd : Itv K → Option K} {T : Tube K} (hT : T.WF) {a b t : K} (ha : T.t0 ≤ a) (hb : b ≤ T.tf) (h3 : a ≤ t)
    (h4 : t ≤ b) : ptOpt (bnd (T.evalAt t)) ≤ T.evalBound bnd a b := by
  obtain ⟨a', g', cs', e, hne, ht, _, h5, _, _, _, hsub, _⟩ := seek_suffix (g := T.g0) hT.tiles hT.ne ha
  obtain ⟨s, hs, h1, h2⟩ : ∃ s ∈ slicesFrom g' cs', s.lb ≤ t ∧ t ≤ s.ub := by
    replace h5 := h5.trans h3
    replace h4 := h4.trans hb
    clear * - hne ht h5 h4
    induction cs' generalizing a' g' with
    | nil => exact absurd rfl hne
    | cons c cs ih =>
      obtain ⟨rfl, h6, h7⟩ := ht
      rw [slicesFrom_cons]
      by_cases hc : t ≤ c.ub
      · exact ⟨_, List.mem_cons_self, h5, hc⟩
      · cases cs with
        | nil => exact absurd (h7 ▸ h4) hc
        | cons c' cs =>
          obtain ⟨s, hs, h⟩ := ih c.ub c.out (by simp) h7 (not_le.mp hc).le
          exact ⟨s, List.mem_cons_of_mem _ hs, h⟩
  have hs' : s ∈ T.slices := hsub s hs
  unfold Tube.evalBound
  have : seek a T.slices = slicesFrom g' cs' := e
  rw [this]
  refine le_trans ?_ (evalBoundLoop_slice ht hs (h1.trans h4))
  rw [evalAt_of_slice hT hs' h1 h2]
  unfold Slice.evalBound
  by_cases e1 : t = s.lb
  · subst e1
    rw [if_pos rfl, if_pos (max_le h3 le_rfl)]
    exact le_sup_left.trans le_sup_left
  rw [if_neg e1]
  by_cases e2 : t = s.ub
  · subst e2
    rw [if_pos rfl, if_pos (le_min h4 le_rfl)]
    exact le_sup_right.trans le_sup_left
  rw [if_neg e2, if_pos (c := ¬ _)]
  · exact le_sup_right
  · rintro ⟨x1, x2⟩
    have y1 : max a s.lb ≤ t := max_le h3 h1
    have y2 : t ≤ min b s.ub := le_min h4 h2
    have : t = max a s.lb := le_antisymm (x1 ▸ y2) y1
    rcases x2 with x2 | x2
    · exact e1 (this.trans x2)
    · exact e2 (this.trans x2)

/-- `first ⊂ ]-∞,0]`: each lower bound is below each upper bound -/
theorem encBound_negR {sub : K → K → K} (hs : SignSub sub) {u w : Itv K} (hu : u.isUnbounded = false) (hw : w.isUnbounded = false) {x y : K}
    (hx : x ∈ u) (hy : y ∈ w) (h : (encBound sub u w).strictSub .negR = true) : x ≤ y := by
  obtain ⟨ul, uu, _, rfl⟩ := Itv.bounds_of_bounded (Itv.isEmpty_false_iff.mpr (Itv.ne_bot_of_mem hx)) hu
  obtain ⟨wl, wu, _, rfl⟩ := Itv.bounds_of_bounded (Itv.isEmpty_false_iff.mpr (Itv.ne_bot_of_mem hy)) hw
  by_contra hc
  have h1 : wl < uu := lt_of_le_of_lt hy.1 (lt_of_lt_of_le (not_le.mp hc) hx.2)
  have := Itv.not_strictSub_negR (X := encBound sub (.mk (some ul) (some uu) ‹_›) (.mk (some wl) (some wu) ‹_›))
    (Itv.mem_sup_right (Itv.mem_point.mpr rfl)) (hs.2 _ _ h1)
  rw [this] at h
  cases h

/-- `second ⊂ [0,+∞[`: each upper bound is above each lower bound -/
theorem encBound_posR {sub : K → K → K} (hs : SignSub sub) {u w : Itv K} (hu : u.isUnbounded = false) (hw : w.isUnbounded = false) {x y : K}
    (hx : x ∈ u) (hy : y ∈ w) (h : (encBound sub u w).strictSub .posR = true) : y ≤ x := by
  obtain ⟨ul, uu, _, rfl⟩ := Itv.bounds_of_bounded (Itv.isEmpty_false_iff.mpr (Itv.ne_bot_of_mem hx)) hu
  obtain ⟨wl, wu, _, rfl⟩ := Itv.bounds_of_bounded (Itv.isEmpty_false_iff.mpr (Itv.ne_bot_of_mem hy)) hw
  by_contra hc
  have h1 : ul < wu := lt_of_le_of_lt hx.1 (lt_of_lt_of_le (not_le.mp hc) hy.2)
  have := Itv.not_strictSub_posR (X := encBound sub (.mk (some ul) (some uu) ‹_›) (.mk (some wl) (some wu) ‹_›))
    (Itv.mem_sup_left (Itv.mem_point.mpr rfl)) (hs.1 _ _ h1)
  rw [this] at h
  cases h

/-- the conclusion `IN`: at each pair of times of the box the values have a common point -/
theorem primitiveIn_meets {D : TPlaneArgs K} (hs : SignSub D.sub) {i : Fin 2} (hp : (D.p i).WF)
    {a1 b1 a2 b2 : K} (d1 : (D.p i).t0 ≤ a1) (d2 : b1 ≤ (D.p i).tf) (d3 : (D.p i).t0 ≤ a2) (d4 : b2 ≤ (D.p i).tf)
    {t1 t2 : K} (h1 : a1 ≤ t1) (h2 : t1 ≤ b1) (h3 : a2 ≤ t2) (h4 : t2 ≤ b2) (h : D.primitiveIn a1 b1 a2 b2 = true)
    {l1 u1 l2 u2 : K} {q1 q2} (e1 : (D.p i).evalAt t1 = .mk (some l1) (some u1) q1) (e2 : (D.p i).evalAt t2 = .mk (some l2) (some u2) q2) :
    l1 ≤ u2 ∧ l2 ≤ u1 := by
  unfold TPlaneArgs.primitiveIn at h
  simp only [Bool.and_eq_true] at h
  obtain ⟨⟨⟨⟨_, f0⟩, f1⟩, s0⟩, s1⟩ := h
  have hf : (D.encFirst a1 b1 a2 b2 i).strictSub .negR = true := by
    rcases i with ⟨_ | _ | i, hi⟩
    · exact f0
    · exact f1
    · omega
  have hsnd : (D.encSecond a1 b1 a2 b2 i).strictSub .posR = true := by
    rcases i with ⟨_ | _ | i, hi⟩
    · exact s0
    · exact s1
    · omega
  have m1 := Tube.ptOpt_le_evalBound (bnd := Itv.lb?) hp d1 d2 h1 h2
  have m2 := Tube.ptOpt_le_evalBound (bnd := Itv.ub?) hp d3 d4 h3 h4
  have m3 := Tube.ptOpt_le_evalBound (bnd := Itv.ub?) hp d1 d2 h1 h2
  have m4 := Tube.ptOpt_le_evalBound (bnd := Itv.lb?) hp d3 d4 h3 h4
  rw [e1] at m1 m3
  rw [e2] at m2 m4
  exact ⟨encBound_negR hs Tube.evalBound_bounded Tube.evalBound_bounded (Itv.mem_of_le m1 (Itv.mem_point.mpr rfl))
      (Itv.mem_of_le m2 (Itv.mem_point.mpr rfl)) hf,
    encBound_posR hs Tube.evalBound_bounded Tube.evalBound_bounded (Itv.mem_of_le m3 (Itv.mem_point.mpr rfl))
      (Itv.mem_of_le m4 (Itv.mem_point.mpr rfl)) hsnd⟩

end Codac
