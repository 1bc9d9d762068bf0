import Verif.Thick.Tests
import Verif.Thick.EqualBProofs
import Verif.Thick.PavingInterProofs
import Verif.Props.ThickBoxOps

/-!
# C159: thick tests of functions, translations and sectors
-/

set_option linter.unusedSectionVars false

namespace Codac.Props
open Codac

variable {K : Type*} [Field K] [LinearOrder K] [IsStrictOrderedRing K]

theorem not_inBox_of_disjoint {X Y : Box K} (h : ThickBox.boxDisjoint X Y = true) {v : List K} (hX : InBox v X) : ¬ InBox v Y := by
  intro hY
  unfold ThickBox.boxDisjoint at h
  rw [hX.not_isEmpty, hY.not_isEmpty] at h
  simp only [Bool.false_or] at h
  induction hX generalizing Y with
  | nil => simp at h
  | cons h1 h2 ih =>
    cases hY with
    | cons k1 k2 =>
      rw [List.zip_cons_cons, List.any_cons, Bool.or_eq_true] at h
      rcases h with h | h
      · exact Itv.ne_bot_of_mem (Itv.mem_inf.mpr ⟨h1, k1⟩) (Itv.isEmpty_iff.mp h)
      · exact ih k2 h

/-- **C159**, image in a box: IN only if the images of all the points of the box are in `y`, OUT only if none is; no other answer than UNK -/
theorem C159_thin {F : Box K → Box K} {f : List K → List K} {box y : Box K} (hF : ∀ x, InBox x box → InBox (f x) (F box)) :
    (thinFIn F y box = .in_ → ∀ x, InBox x box → InBox (f x) y) ∧ (thinFIn F y box = .out → ∀ x, InBox x box → ¬ InBox (f x) y) ∧
    (thinFIn F y box = .in_ ∨ thinFIn F y box = .out ∨ thinFIn F y box = .unk) := by
  unfold thinFIn
  by_cases h1 : ThickBox.boxSubset (F box) y = true
  · rw [if_pos h1]
    exact ⟨fun _ x hx => TPav.inBox_of_boxSubset h1 (hF x hx), (by intro h; cases h), .inl rfl⟩
  · rw [if_neg h1]
    by_cases h2 : ThickBox.boxDisjoint (F box) y = true
    · rw [if_pos h2]
      exact ⟨(by intro h; cases h), fun _ x hx => not_inBox_of_disjoint h2 (hF x hx), .inr (.inl rfl)⟩
    · rw [if_neg h2]
      exact ⟨(by intro h; cases h), (by intro h; cases h), .inr (.inr rfl)⟩

/-- **C159**, inverse image: a test which is right on all the points of a box gives a test of the images -/
theorem C159_inverse {F : Box K → Box K} {f : List K → List K} {t : ThickTest (Box K)} {φ : List K → V3} (ht : ∀ X x, InBox x X → (t X).has (φ x) = true)
    {box : Box K} (hF : ∀ x, InBox x box → InBox (f x) (F box)) : ∀ x, InBox x box → (thinInverse F t box).has (φ (f x)) = true :=
  fun x hx => ht _ _ (hF x hx)

theorem thick_ofBoxes_ok (L U : Box K) : ∀ t ∈ ThickBox.ofBoxes L U, t.Ok := by
  intro t ht
  unfold ThickBox.ofBoxes at ht
  induction L generalizing U with
  | nil => simp at ht
  | cons I L ih =>
    cases U with
    | nil => simp at ht
    | cons J U =>
      rw [List.zipWith_cons_cons, List.mem_cons] at ht
      rcases ht with rfl | ht
      · exact ThickItv.ok_ofItvs _ _
      · exact ih U ht

theorem thick_inside_in {T : ThickBox K} (hT : ∀ t ∈ T, t.Ok) {y : Box K} {l : List (K × K)} (hm : ThickBox.Member T l) :
    (T.isInside y = .in_ → boundsIn l y) ∧ (T.isInside y = .out → ¬ boundsMeet l y) := by
  obtain ⟨h1, h2⟩ := ThickBox.superset_in hT hm
  unfold ThickBox.isInside
  by_cases c1 : ThickBox.boxSubset T.superset y = true
  · rw [if_pos c1]
    exact ⟨fun _ => ThickBox.boxSubset_sound h1 h2 c1, (by intro h; cases h)⟩
  · rw [if_neg c1]
    by_cases c2 : ThickBox.boxDisjoint T.superset y = true
    · rw [if_pos c2]
      exact ⟨(by intro h; cases h), fun _ => ThickBox.boxDisjoint_sound h1 h2 c2⟩
    · rw [if_neg c2]
      dsimp only
      cases T.intersects y <;> cases T.isNotSubset y <;> exact ⟨fun h => by simp at h, fun h => by simp at h⟩

theorem thick_eval_member {Fl Fu : Box K → Box K} {box : Box K} (hc : List.Forall₂ (fun I J => ThickItv.Checked I J) (Fl box) (Fu box)) {l : List (K × K)}
    (hl : InBox (l.map Prod.fst) (Fl box)) (hu : InBox (l.map Prod.snd) (Fu box)) (hlu : ∀ p ∈ l, p.1 ≤ p.2) : ThickBox.Member (thickEval Fl Fu box) l :=
  (thick_ofBoxes hc).mpr ⟨hl, hu, hlu⟩

/-- **C159**, thick function: `f x` is the list of the bounds of the value at `x`, the lower ones in `Fl box` and the upper ones in `Fu box`. IN only if all the values are in `y`, OUT only if none meets `y`; and the value of each point is one of the answer, unless it shares a bound with `y`. Missing: boxes with bounds of `Fu box` below those of `Fl box` (`C159_thick_fails`), values which share a bound with `y` (`C43_is_inside_fails`) -/
theorem C159_thick_partial {Fl Fu : Box K → Box K} {f : List K → List (K × K)} {box y : Box K} (hc : List.Forall₂ (fun I J => ThickItv.Checked I J) (Fl box) (Fu box))
    (hl : ∀ x, InBox x box → InBox ((f x).map Prod.fst) (Fl box)) (hu : ∀ x, InBox x box → InBox ((f x).map Prod.snd) (Fu box)) (hlu : ∀ x, ∀ p ∈ f x, p.1 ≤ p.2)
    (hn : (thickEval Fl Fu box).length = y.length) {x : List K} (hx : InBox x box) :
    (thickFIn Fl Fu y box = .in_ → boundsIn (f x) y) ∧ (thickFIn Fl Fu y box = .out → ¬ boundsMeet (f x) y) ∧
    (noTouch (f x) y → ∀ [Decidable (boundsIn (f x) y)] [Decidable (boundsMeet (f x) y)],
      (thickFIn Fl Fu y box).has (V3.of (decide (boundsIn (f x) y)) (decide (boundsMeet (f x) y))) = true) := by
  have hm := thick_eval_member hc (hl x hx) (hu x hx) (hlu x)
  have k := thick_inside_in (thick_ofBoxes_ok (Fl box) (Fu box)) (y := y) hm
  exact ⟨k.1, k.2, fun ht _ _ => C43_is_inside_partial (thick_ofBoxes_ok _ _) hn hm ht⟩

/-- **C159** fails for a thick function whose bounds are overestimated: the value is `[0, 1/2]` everywhere, its lower bound is evaluated as `x - x`, and the answer on `[0,1]` for the box `[100,101]` is IN -/
theorem C159_thick_fails : ∃ (Fl Fu : Box ℚ → Box ℚ), (∀ x : ℚ, x ∈ Itv.icc (0 : ℚ) 1 → InBox [x - x] (Fl [Itv.icc 0 1]) ∧ InBox [1 / 2] (Fu [Itv.icc 0 1])) ∧
    thickFIn Fl Fu [Itv.icc 100 101] [Itv.icc 0 1] = .in_ ∧ ¬ InBox [(1 / 2 : ℚ)] [Itv.icc 100 101] :=
  ⟨fun X => X.map fun I => Itv.sub I I, fun _ => [Itv.point (1 / 2)],
    fun _ hx => ⟨.cons (Itv.mem_sub hx hx) .nil, .cons (Itv.mem_point.mpr rfl) .nil⟩, by decide +kernel, by
      intro h
      cases h with
      | cons h1 _ => exact absurd h1 (by decide +kernel)⟩

/-- the translated bounds are in the sums -/
theorem addVec_mem {A : IArith K} : ∀ {x : List K} {X : Box K} {v : List K}, InBox x X → x.length = v.length → InBox (List.zipWith (· + ·) x v) (addVec A X v)
  | _, _, [], .nil, _ => .nil
  | _, _, _ :: _, .nil, h => by simp at h
  | _, _, [], .cons _ _, h => by simp at h
  | _, _, _ :: _, .cons h1 h2, h => .cons (A.add_mem h1 (Itv.mem_point.mpr rfl)) (addVec_mem h2 (by simpa using h))

/-- specification: the box `dX` translated by `x` -/
def shifted (x : List K) (dX : List (K × K)) : List (K × K) := List.zipWith (fun a p => (a + p.1, a + p.2)) x dX

theorem shifted_spec : ∀ (x : List K) (dX : List (K × K)), (shifted x dX).map Prod.fst = List.zipWith (· + ·) x (dX.map Prod.fst) ∧
    (shifted x dX).map Prod.snd = List.zipWith (· + ·) x (dX.map Prod.snd) ∧ ((∀ p ∈ dX, p.1 ≤ p.2) → ∀ p ∈ shifted x dX, p.1 ≤ p.2)
  | [], _ => by simp [shifted]
  | _ :: _, [] => by simp [shifted]
  | a :: x, p :: dX => by
    obtain ⟨h1, h2, h3⟩ := shifted_spec x dX
    unfold shifted at *
    simp only [List.zipWith_cons_cons, List.map_cons, h1, h2, true_and]
    intro h q hq
    rcases List.mem_cons.mp hq with rfl | hq
    · exact add_le_add (le_refl a) (h p (by simp))
    · exact h3 (fun r hr => h r (by simp [hr])) q hq

/-- **C159**, translation: IN only if, for each point of the box, the box `dX` translated by this point is in `y`; OUT only if none of these meets `y`; and each of them has its value in the answer, unless it shares a bound with `y`. The bounds computed are assumed to be ordered, as they are for operations which are not rounded. Missing: boxes which share a bound with `y` -/
theorem C159_translate_partial {A : IArith K} {dX : List (K × K)} {box y : Box K} (hd : ∀ p ∈ dX, p.1 ≤ p.2) (hb : box.length = dX.length)
    (hc : List.Forall₂ (fun I J => ThickItv.Checked I J) (addVec A box (dX.map Prod.fst)) (addVec A box (dX.map Prod.snd)))
    (hn : box.length = y.length) {x : List K} (hx : InBox x box) :
    (translateInBox A dX y box = .in_ → boundsIn (shifted x dX) y) ∧ (translateInBox A dX y box = .out → ¬ boundsMeet (shifted x dX) y) ∧
    (noTouch (shifted x dX) y → ∀ [Decidable (boundsIn (shifted x dX) y)] [Decidable (boundsMeet (shifted x dX) y)],
      (translateInBox A dX y box).has (V3.of (decide (boundsIn (shifted x dX) y)) (decide (boundsMeet (shifted x dX) y))) = true) := by
  obtain ⟨h1, h2, h3⟩ := shifted_spec x dX
  have hxl : x.length = box.length := List.Forall₂.length_eq hx
  have hm : ThickBox.Member (ThickBox.ofBoxes (addVec A box (dX.map Prod.fst)) (addVec A box (dX.map Prod.snd))) (shifted x dX) :=
    (thick_ofBoxes hc).mpr ⟨by rw [h1]; exact addVec_mem hx (by simp [hxl, hb]), by rw [h2]; exact addVec_mem hx (by simp [hxl, hb]), h3 hd⟩
  have k := thick_inside_in (thick_ofBoxes_ok _ _) (y := y) hm
  refine ⟨k.1, k.2, fun ht _ _ => C43_is_inside_partial (thick_ofBoxes_ok _ _) ?_ hm ht⟩
  simp [ThickBox.ofBoxes, addVec, hb, ← hn]

theorem mul_between {c u v w : K} (h1 : u ≤ v) (h2 : v ≤ w) : min (c * u) (c * w) ≤ c * v ∧ c * v ≤ max (c * u) (c * w) := by
  rcases le_total 0 c with h | h
  · exact ⟨(min_le_left _ _).trans (mul_le_mul_of_nonneg_left h1 h), (mul_le_mul_of_nonneg_left h2 h).trans (le_max_right _ _)⟩
  · exact ⟨(min_le_right _ _).trans (mul_le_mul_of_nonpos_left h2 h), (mul_le_mul_of_nonpos_left h1 h).trans (le_max_left _ _)⟩

theorem plan_spec {A : IArith K} {M a b c d : K} {ux uy X0 X1 : Itv K} (hC : ThickItv.Checked (planMin A a b c d ux uy X0 X1) (planMax A a b c d ux uy X0 X1))
    {u v q0 q1 p0 p1 : K} (hu : u ∈ ux) (hv : v ∈ uy) (h0 : q0 ∈ X0) (h1 : q1 ∈ X1) (ha : a ≤ p0) (hb : p0 ≤ b) (hc : c ≤ p1) (hd : p1 ≤ d) :
    (testPlan A M a b c d ux uy X0 X1 = .in_ → u * (q1 - p1) - v * (q0 - p0) ∈ Itv.icc 0 M) ∧
    (testPlan A M a b c d ux uy X0 X1 = .out → u * (q1 - p1) - v * (q0 - p0) ∉ Itv.icc 0 M) := by
  have e : ThickItv.ofItvs (planMin A a b c d ux uy X0 X1) (planMax A a b c d ux uy X0 X1) =
      ⟨planMin A a b c d ux uy X0 X1, planMax A a b c d ux uy X0 X1⟩ := if_pos hC
  have pt : ∀ z : K, z ∈ Itv.point z := fun z => Itv.mem_point.mpr rfl
  have y1 := A.mul_mem hu (A.sub_mem h1 (pt d))
  have y2 := A.mul_mem hu (A.sub_mem h1 (pt c))
  have x1 := A.mul_mem hv (A.sub_mem h0 (pt b))
  have x2 := A.mul_mem hv (A.sub_mem h0 (pt a))
  have m1 := A.sub_mem (ThickItv.mem_minItv y1 y2) (ThickItv.mem_maxItv x1 x2)
  have m2 := A.sub_mem (ThickItv.mem_maxItv y1 y2) (ThickItv.mem_minItv x1 x2)
  obtain ⟨k1, k2⟩ := mul_between (c := u) (show q1 - d ≤ q1 - p1 by linarith) (show q1 - p1 ≤ q1 - c by linarith)
  obtain ⟨k3, k4⟩ := mul_between (c := v) (show q0 - b ≤ q0 - p0 by linarith) (show q0 - p0 ≤ q0 - a by linarith)
  have hok := ThickItv.ok_ofItvs (planMin A a b c d ux uy X0 X1) (planMax A a b c d ux uy X0 X1)
  have hm : (ThickItv.ofItvs (planMin A a b c d ux uy X0 X1) (planMax A a b c d ux uy X0 X1)).Member
      (min (u * (q1 - d)) (u * (q1 - c)) - max (v * (q0 - b)) (v * (q0 - a))) (max (u * (q1 - d)) (u * (q1 - c)) - min (v * (q0 - b)) (v * (q0 - a))) := by
    rw [e]
    exact ⟨m1, m2, by linarith⟩
  have ne : (ThickItv.ofItvs (planMin A a b c d ux uy X0 X1) (planMax A a b c d ux uy X0 X1)).isEmpty = false := by
    unfold ThickItv.isEmpty
    rw [Itv.isEmpty_false_iff.mpr (Itv.ne_bot_of_mem hm.1)]
    rfl
  obtain ⟨i1, i2⟩ := C43_interval_is_inside hok (Itv.icc 0 M)
  unfold testPlan
  exact ⟨fun h => i1.mp h _ _ hm _ (by linarith) (by linarith), fun h => (i2 ne).mp h _ _ hm _ (by linarith) (by linarith)⟩

/-- **C159**, half-plane of a sector: IN only if each point of the box is on the left of the side from each position, OUT only if none is, from any position. The bounds computed are assumed to be ordered -/
theorem C159_plan {A : IArith K} {M a b c d : K} {ux uy X0 X1 : Itv K} (hC : ThickItv.Checked (planMin A a b c d ux uy X0 X1) (planMax A a b c d ux uy X0 X1))
    {u v q0 q1 p0 p1 : K} (hu : u ∈ ux) (hv : v ∈ uy) (h0 : q0 ∈ X0) (h1 : q1 ∈ X1) (ha : a ≤ p0) (hb : p0 ≤ b) (hc : c ≤ p1) (hd : p1 ≤ d)
    (hM : u * (q1 - p1) - v * (q0 - p0) ≤ M) :
    (testPlan A M a b c d ux uy X0 X1 = .in_ → 0 ≤ u * (q1 - p1) - v * (q0 - p0)) ∧ (testPlan A M a b c d ux uy X0 X1 = .out → u * (q1 - p1) - v * (q0 - p0) < 0) := by
  obtain ⟨k1, k2⟩ := plan_spec (M := M) hC hu hv h0 h1 ha hb hc hd
  have m : ∀ z : K, z ≤ M → (z ∈ Itv.icc 0 M ↔ 0 ≤ z) := fun z hz => by
    rw [Itv.mem_icc]
    exact ⟨fun h => h.1, fun h => ⟨h, hz⟩⟩
  exact ⟨fun h => (m _ hM).mp (k1 h), fun h => not_le.mp fun h' => k2 h ((m _ hM).mpr h')⟩

theorem and_in {x y : TB} (h : x.opAnd y = .in_) : x = .in_ ∧ y = .in_ := by
  revert h; cases x <;> cases y <;> decide

theorem and_out {x y : TB} (h : x.opAnd y = .out) : x = .out ∨ y = .out := by
  revert h; cases x <;> cases y <;> decide

theorem not_in_out {x : TB} : (x.opNot = .in_ → x = .out) ∧ (x.opNot = .out → x = .in_) := by
  cases x <;> decide

/-- **C159**, sector: `(u1, v1)` and `(u2, v2)` are the directions of the two sides. IN only if each point of the box is, from each position, on the left of the first side and on the right of the second one, the test of the disk being IN. OUT only if the test of the disk is OUT or each point of the box is, from all the positions, on the wrong side of the same side -/
theorem C159_sector {O : DiskOps K} {M : K} {D : ThickDisk K} {U1 U2 : Itv K × Itv K} {X0 X1 : Itv K}
    (hC1 : ThickItv.Checked (planMin O.A D.a D.b D.c D.d U1.1 U1.2 X0 X1) (planMax O.A D.a D.b D.c D.d U1.1 U1.2 X0 X1))
    (hC2 : ThickItv.Checked (planMin O.A D.a D.b D.c D.d U2.1 U2.2 X0 X1) (planMax O.A D.a D.b D.c D.d U2.1 U2.2 X0 X1))
    {u1 v1 u2 v2 : K} (hu1 : u1 ∈ U1.1) (hv1 : v1 ∈ U1.2) (hu2 : u2 ∈ U2.1) (hv2 : v2 ∈ U2.2)
    (hM : ∀ q0 ∈ X0, ∀ q1 ∈ X1, ∀ p0 p1, D.a ≤ p0 → p0 ≤ D.b → D.c ≤ p1 → p1 ≤ D.d → u1 * (q1 - p1) - v1 * (q0 - p0) ≤ M ∧ u2 * (q1 - p1) - v2 * (q0 - p0) ≤ M) :
    (sectorTest O M D U1 U2 X0 X1 = .in_ → D.test O X0 X1 = .in_ ∧ ∀ q0 ∈ X0, ∀ q1 ∈ X1, ∀ p0 p1, D.a ≤ p0 → p0 ≤ D.b → D.c ≤ p1 → p1 ≤ D.d →
      0 ≤ u1 * (q1 - p1) - v1 * (q0 - p0) ∧ u2 * (q1 - p1) - v2 * (q0 - p0) < 0) ∧
    (sectorTest O M D U1 U2 X0 X1 = .out → D.test O X0 X1 = .out ∨
      (∀ q0 ∈ X0, ∀ q1 ∈ X1, ∀ p0 p1, D.a ≤ p0 → p0 ≤ D.b → D.c ≤ p1 → p1 ≤ D.d → u1 * (q1 - p1) - v1 * (q0 - p0) < 0) ∨
      (∀ q0 ∈ X0, ∀ q1 ∈ X1, ∀ p0 p1, D.a ≤ p0 → p0 ≤ D.b → D.c ≤ p1 → p1 ≤ D.d → 0 ≤ u2 * (q1 - p1) - v2 * (q0 - p0))) := by
  unfold sectorTest
  constructor
  · intro h
    obtain ⟨h12, h3⟩ := and_in h
    obtain ⟨h1, h2⟩ := and_in h12
    refine ⟨h3, fun q0 hq0 q1 hq1 p0 p1 ha hb hc hd => ?_⟩
    obtain ⟨m1, m2⟩ := hM q0 hq0 q1 hq1 p0 p1 ha hb hc hd
    exact ⟨(C159_plan hC1 hu1 hv1 hq0 hq1 ha hb hc hd m1).1 h1, (C159_plan hC2 hu2 hv2 hq0 hq1 ha hb hc hd m2).2 (not_in_out.1 h2)⟩
  · intro h
    rcases and_out h with h | h
    · right
      rcases and_out h with h | h
      · left
        intro q0 hq0 q1 hq1 p0 p1 ha hb hc hd
        exact (C159_plan hC1 hu1 hv1 hq0 hq1 ha hb hc hd (hM q0 hq0 q1 hq1 p0 p1 ha hb hc hd).1).2 h
      · right
        intro q0 hq0 q1 hq1 p0 p1 ha hb hc hd
        exact (C159_plan hC2 hu2 hv2 hq0 hq1 ha hb hc hd (hM q0 hq0 q1 hq1 p0 p1 ha hb hc hd).2).1 (not_in_out.2 h)
    · exact .inl h

theorem checked_add {A B C D : Itv K} (h1 : ThickItv.Checked A B) (h2 : ThickItv.Checked C D) : ThickItv.Checked (Itv.add A C) (Itv.add B D) := by
  obtain ⟨a, ha⟩ := Itv.exists_mem h1.ne.1
  obtain ⟨b, hb⟩ := Itv.exists_mem h1.ne.2
  obtain ⟨c, hc⟩ := Itv.exists_mem h2.ne.1
  obtain ⟨d, hd⟩ := Itv.exists_mem h2.ne.2
  have n1 := Itv.ne_bot_of_mem (Itv.mem_add ha hc)
  have n2 := Itv.ne_bot_of_mem (Itv.mem_add hb hd)
  match A, B, C, D, h1, h2 with
  | .mk l1 u1 _, .mk l2 u2 _, .mk l3 u3 _, .mk l4 u4 _, h1, h2 =>
    obtain ⟨k1, k2⟩ := h1
    obtain ⟨k3, k4⟩ := h2
    unfold Itv.add Itv.ofBounds at n1 n2 ⊢
    dsimp only at n1 n2 ⊢
    split at n1
    · split at n2
      · rename_i p q
        rw [dif_pos p, dif_pos q]
        constructor
        · cases u1 <;> cases u2 <;> cases u3 <;> cases u4 <;> simp_all [Itv.addB, Itv.hiLeHi]
          exact add_le_add k1 k3
        · cases l1 <;> cases l2 <;> cases l3 <;> cases l4 <;> simp_all [Itv.addB, Itv.loLeLo]
          exact add_le_add k2 k4
      · exact absurd rfl n2
    · exact absurd rfl n1

theorem checked_neg {A B : Itv K} (h : ThickItv.Checked A B) : ThickItv.Checked (Itv.neg B) (Itv.neg A) := by
  obtain ⟨a, ha⟩ := Itv.exists_mem h.ne.1
  obtain ⟨b, hb⟩ := Itv.exists_mem h.ne.2
  have n1 := Itv.ne_bot_of_mem (Itv.mem_neg ha)
  have n2 := Itv.ne_bot_of_mem (Itv.mem_neg hb)
  match A, B, h with
  | .mk l1 u1 _, .mk l2 u2 _, h =>
    obtain ⟨k1, k2⟩ := h
    unfold Itv.neg Itv.ofBounds at n1 n2 ⊢
    dsimp only at n1 n2 ⊢
    split at n1
    · split at n2
      · rename_i p q
        rw [dif_pos p, dif_pos q]
        constructor
        · cases l1 <;> cases l2 <;> simp_all [Itv.negB, Itv.hiLeHi, Itv.loLeLo]
        · cases u1 <;> cases u2 <;> simp_all [Itv.negB, Itv.hiLeHi, Itv.loLeLo]
      · exact absurd rfl n2
    · exact absurd rfl n1

theorem checked_min_max {X Y : Itv K} (hX : X ≠ ⊥) (hY : Y ≠ ⊥) : ThickItv.Checked (ThickItv.minItv X Y) (ThickItv.maxItv X Y) := by
  obtain ⟨a, ha⟩ := Itv.exists_mem hX
  obtain ⟨b, hb⟩ := Itv.exists_mem hY
  have n1 := Itv.ne_bot_of_mem (ThickItv.mem_minItv ha hb)
  have n2 := Itv.ne_bot_of_mem (ThickItv.mem_maxItv ha hb)
  match X, Y with
  | .empty, _ => exact ha.elim
  | .mk _ _ _, .empty => exact hb.elim
  | .mk l1 u1 _, .mk l2 u2 _ =>
    unfold ThickItv.minItv at n1 ⊢
    unfold ThickItv.maxItv at n2 ⊢
    unfold Itv.ofBounds at n1 n2 ⊢
    dsimp only at n1 n2 ⊢
    split at n1
    · split at n2
      · rename_i p q
        rw [dif_pos p, dif_pos q]
        constructor
        · cases u1 <;> cases u2 <;> simp [Itv.minHi, Itv.maxHi, Itv.hiLeHi]
        · cases l1 <;> cases l2 <;> simp [Itv.minLo, Itv.maxLo, Itv.loLeLo]
      · exact absurd rfl n2
    · exact absurd rfl n1

/-- **C159**: with operations which are not rounded, the bounds of a half-plane are ordered for any intervals which are not empty, as `C159_plan` and `C159_sector` assume -/
theorem C159_plan_ordered {a b c d : K} {ux uy X0 X1 : Itv K} (h1 : ux ≠ ⊥) (h2 : uy ≠ ⊥) (h3 : X0 ≠ ⊥) (h4 : X1 ≠ ⊥) :
    ThickItv.Checked (planMin (IArith.exact K) a b c d ux uy X0 X1) (planMax (IArith.exact K) a b c d ux uy X0 X1) := by
  have ne : ∀ (U X : Itv K) (z : K), U ≠ ⊥ → X ≠ ⊥ → Itv.mul U (Itv.sub X (.point z)) ≠ ⊥ := fun U X z hU hX => by
    obtain ⟨u, hu⟩ := Itv.exists_mem hU
    obtain ⟨x, hx⟩ := Itv.exists_mem hX
    exact Itv.ne_bot_of_mem (Itv.mem_mul hu (Itv.mem_sub hx (Itv.mem_point.mpr rfl)))
  exact checked_add (checked_min_max (ne _ _ _ h1 h4) (ne _ _ _ h1 h4)) (checked_neg (checked_min_max (ne _ _ _ h2 h3) (ne _ _ _ h2 h3)))

/-- **C159**: with operations which are not rounded, the translated bounds are ordered for any box which is not empty along a dimension, as `C159_translate_partial` assumes -/
theorem C159_translate_ordered : ∀ {dX : List (K × K)} {box : Box K}, (∀ p ∈ dX, p.1 ≤ p.2) → (∀ I ∈ box, I ≠ ⊥) → box.length = dX.length →
    List.Forall₂ (fun I J => ThickItv.Checked I J) (addVec (IArith.exact K) box (dX.map Prod.fst)) (addVec (IArith.exact K) box (dX.map Prod.snd))
  | [], [], _, _, _ => .nil
  | [], _ :: _, _, _, h => by simp at h
  | _ :: _, [], _, _, h => by simp at h
  | p :: dX, I :: box, hd, hb, h => by
    refine .cons (checked_add ?_ ⟨hd p (by simp), hd p (by simp)⟩) (C159_translate_ordered (fun q hq => hd q (by simp [hq])) (fun J hJ => hb J (by simp [hJ])) (by simpa using h))
    have := hb I (by simp)
    match I, this with
    | .empty, h => exact absurd rfl h
    | .mk l u _, _ => exact ⟨by cases u <;> simp [Itv.hiLeHi], by cases l <;> simp [Itv.loLeLo]⟩

/-- hypotheses of `C159_*` met -/
example : thinFIn (fun X => X.map fun I => Itv.add I (Itv.point (1 : ℚ))) [Itv.icc 0 5] [Itv.icc 1 2] = .in_ ∧
    ThickItv.Checked (Itv.icc (0 : ℚ) 1) (Itv.icc 2 3) ∧
    thickFIn (fun X => X) (fun X => X.map fun I => Itv.add I (Itv.point (2 : ℚ))) [Itv.icc 5 9] [Itv.icc 0 1] = .out ∧
    translateInBox (IArith.exact ℚ) [(-1, 1)] [Itv.icc 0 9] [Itv.icc 2 3] = .in_ ∧
    translateInBox (IArith.exact ℚ) [(-1, 1)] [Itv.icc 0 9] [Itv.icc 10 12] = .maybeOut ∧
    ThickItv.Checked (planMin (IArith.exact ℚ) 0 1 0 1 (.point 1) (.point 0) (Itv.icc 2 3) (Itv.icc 5 6)) (planMax (IArith.exact ℚ) 0 1 0 1 (.point 1) (.point 0) (Itv.icc 2 3) (Itv.icc 5 6)) ∧
    testPlan (IArith.exact ℚ) 1000 0 1 0 1 (.point 1) (.point 0) (Itv.icc 2 3) (Itv.icc 5 6) = .in_ ∧
    testPlan (IArith.exact ℚ) 1000 0 1 0 1 (.point 0) (.point 1) (Itv.icc 2 3) (Itv.icc 5 6) = .out := by
  decide +kernel

end Codac.Props
