import Verif.Geometry.ThickPt
import Verif.Geometry.Thicken
import Mathlib.Analysis.Convex.Combination
import Mathlib.Tactic.Linarith

/-!
# C157: thick points and the center of a polygon
-/

set_option linter.unusedSectionVars false

namespace Codac.Props
open Codac Codac.Poly Codac.Graham

variable {K : Type*} [Field K] [LinearOrder K] [IsStrictOrderedRing K]

theorem pt_mul (a b : K) : Itv.mul (Itv.point a) (Itv.point b) = Itv.point (a * b) := by
  simp [Itv.point, Itv.mul, Itv.icc, Itv.ofBounds]
theorem pt_add (a b : K) : Itv.add (Itv.point a) (Itv.point b) = Itv.point (a + b) := by
  simp [Itv.point, Itv.add, Itv.addB, Itv.ofBounds]
theorem pt_sub (a b : K) : Itv.sub (Itv.point a) (Itv.point b) = Itv.point (a - b) := by
  simp [Itv.point, Itv.sub, Itv.neg, Itv.negB, Itv.add, Itv.addB, Itv.ofBounds, sub_eq_add_neg]

/-- **C157**, alignment of thick points: `YES` (`NO`) is the answer for all (none) of the triples of points in them. With exact operations, the answer is `YES` or `NO` for points -/
theorem C157_aligned (A : IArith K) {a b c : TPt K} :
    (alignedT A a b c = .yes → ∀ p q s : Pt K, In p a → In q b → In s c → (q.1 - p.1) * (s.2 - p.2) = (q.2 - p.2) * (s.1 - p.1)) ∧
    (alignedT A a b c = .no → ∀ p q s : Pt K, In p a → In q b → In s c → (q.1 - p.1) * (s.2 - p.2) ≠ (q.2 - p.2) * (s.1 - p.1)) := by
  have key : ∀ p q s : Pt K, In p a → In q b → In s c → (q.1 - p.1) * (s.2 - p.2) - (q.2 - p.2) * (s.1 - p.1) ∈
      A.sub (A.mul (A.sub b.1 a.1) (A.sub c.2 a.2)) (A.mul (A.sub b.2 a.2) (A.sub c.1 a.1)) := fun p q s hp hq hs =>
    A.sub_mem (A.mul_mem (A.sub_mem hq.1 hp.1) (A.sub_mem hs.2 hp.2)) (A.mul_mem (A.sub_mem hq.2 hp.2) (A.sub_mem hs.1 hp.1))
  unfold alignedT
  dsimp only
  constructor
  · intro h p q s hp hq hs
    split_ifs at h with h1
    have := key p q s hp hq hs
    rw [h1, Itv.mem_point] at this
    exact sub_eq_zero.mp this
  · intro h p q s hp hq hs e
    split_ifs at h with h1 h2
    have := key p q s hp hq hs
    rw [sub_eq_zero.mpr e] at this
    exact h2 this

/-- **C157**, alignment of points, exact operations -/
theorem C157_aligned_points (p q s : Pt K) :
    alignedT (IArith.exact K) (ofPt p) (ofPt q) (ofPt s) = if (q.1 - p.1) * (s.2 - p.2) = (q.2 - p.2) * (s.1 - p.1) then .yes else .no := by
  have e : (IArith.exact K).sub ((IArith.exact K).mul ((IArith.exact K).sub (ofPt q).1 (ofPt p).1) ((IArith.exact K).sub (ofPt s).2 (ofPt p).2))
      ((IArith.exact K).mul ((IArith.exact K).sub (ofPt q).2 (ofPt p).2) ((IArith.exact K).sub (ofPt s).1 (ofPt p).1)) =
      Itv.point ((q.1 - p.1) * (s.2 - p.2) - (q.2 - p.2) * (s.1 - p.1)) := by
    show Itv.sub (Itv.mul (Itv.sub (.point q.1) (.point p.1)) (Itv.sub (.point s.2) (.point p.2))) (Itv.mul (Itv.sub (.point q.2) (.point p.2)) (Itv.sub (.point s.1) (.point p.1))) = _
    rw [pt_sub, pt_sub, pt_sub, pt_sub, pt_mul, pt_mul, pt_sub]
  unfold alignedT
  dsimp only
  rw [e]
  by_cases h : (q.1 - p.1) * (s.2 - p.2) = (q.2 - p.2) * (s.1 - p.1)
  · rw [if_pos h, if_pos (by rw [sub_eq_zero.mpr h])]
  · have h0 : ¬ (0 : K) ∈ Itv.point ((q.1 - p.1) * (s.2 - p.2) - (q.2 - p.2) * (s.1 - p.1)) := fun hh => h (sub_eq_zero.mp (Itv.mem_point.mp hh).symm)
    rw [if_neg h, if_neg (fun hh => h0 (by rw [hh]; exact Itv.mem_point.mpr rfl)), if_neg h0]

theorem push_lb_le : ∀ {X : Itv K}, X ≠ ⊥ → pushLb X ≠ ⊥ ∧ pushLb X ≤ X
  | .empty, h => absurd rfl h
  | .mk none h p, _ => by
    have e : pushLb (.mk none h p) = Itv.mk none h p := by simp [pushLb, Itv.ofBounds]
    rw [e]; exact ⟨(by intro hh; cases hh), le_refl _⟩
  | .mk (some a) h p, _ => by
    have hm : a ∈ Itv.mk (some a) h p := ⟨le_refl _, by cases h with | none => trivial | some b => exact p⟩
    exact ⟨Itv.ne_bot_of_mem (x := a) (Itv.mem_point.mpr rfl), Itv.le_iff.mpr fun x hx => by rw [Itv.mem_point.mp hx]; exact hm⟩

theorem push_ub_le : ∀ {X : Itv K}, X ≠ ⊥ → pushUb X ≠ ⊥ ∧ pushUb X ≤ X
  | .empty, h => absurd rfl h
  | .mk l none p, _ => by
    have e : pushUb (.mk l none p) = Itv.mk l none p := by simp [pushUb, Itv.ofBounds]
    rw [e]; exact ⟨(by intro hh; cases hh), le_refl _⟩
  | .mk l (some b) p, _ => by
    have hm : b ∈ Itv.mk l (some b) p := ⟨by cases l with | none => trivial | some a => exact p, le_refl _⟩
    exact ⟨Itv.ne_bot_of_mem (x := b) (Itv.mem_point.mpr rfl), Itv.le_iff.mpr fun x hx => by rw [Itv.mem_point.mp hx]; exact hm⟩

theorem push_cover {X Z : Itv K} (h : pushLb X ≤ Z) (h' : pushUb X ≤ Z) : X ≤ Z := by
  match X, h, h' with
  | .empty, _, _ => exact Itv.empty_le Z
  | .mk none u p, h, _ =>
    have e : pushLb (.mk none u p) = Itv.mk none u p := by simp [pushLb, Itv.ofBounds]
    rwa [e] at h
  | .mk l none p, _, h' =>
    have e : pushUb (.mk l none p) = Itv.mk l none p := by simp [pushUb, Itv.ofBounds]
    rwa [e] at h'
  | .mk (some a) (some b) p, h, h' =>
    have ha : a ∈ Z := Itv.mem_of_le h (Itv.mem_point.mpr rfl)
    have hb : b ∈ Z := Itv.mem_of_le h' (Itv.mem_point.mpr rfl)
    exact Itv.le_iff.mpr fun x hx => Itv.mem_of_between ha hb hx.1 hx.2

/-- **C157**, push of a box with infinite bounds or not: four thick points of the box, none of them empty, and the boxes with these thick points are the boxes with the whole box -/
theorem C157_push {X : TPt K} (h1 : X.1 ≠ ⊥) (h2 : X.2 ≠ ⊥) (l : List (TPt K)) :
    ∃ l' : List (TPt K), pushThick X l = some (l ++ l') ∧ l'.length = 4 ∧ (∀ Y ∈ l', Y.1 ≠ ⊥ ∧ Y.2 ≠ ⊥) ∧
      ∀ Z : TPt K, (∀ Y ∈ l', Y.1 ≤ Z.1 ∧ Y.2 ≤ Z.2) ↔ X.1 ≤ Z.1 ∧ X.2 ≤ Z.2 := by
  obtain ⟨a1, a2⟩ := push_lb_le h1
  obtain ⟨b1, b2⟩ := push_ub_le h1
  obtain ⟨c1, c2⟩ := push_lb_le h2
  obtain ⟨d1, d2⟩ := push_ub_le h2
  have ht : ∀ {x y : Itv K}, x ≠ ⊥ → y ≠ ⊥ → tpt x y = (x, y) := fun {x y} hx hy => by
    unfold tpt
    rw [if_neg (by simp [hx, hy])]
  refine ⟨_, by unfold pushThick; exact if_neg (by simp [h1, h2]), rfl, ?_, fun Z => ?_⟩
  · rw [ht a1 c1, ht b1 c1, ht b1 d1, ht a1 d1]
    simp [a1, b1, c1, d1]
  · rw [ht a1 c1, ht b1 c1, ht b1 d1, ht a1 d1]
    constructor
    · intro h
      have k1 := h (pushLb X.1, pushLb X.2) (by simp)
      have k2 := h (pushUb X.1, pushUb X.2) (by simp)
      exact ⟨push_cover k1.1 k2.1, push_cover k1.2 k2.2⟩
    · rintro ⟨k1, k2⟩ Y hY
      simp only [List.mem_cons, List.not_mem_nil, or_false] at hY
      rcases hY with rfl | rfl | rfl | rfl
      · exact ⟨a2.trans k1, c2.trans k2⟩
      · exact ⟨b2.trans k1, c2.trans k2⟩
      · exact ⟨b2.trans k1, d2.trans k2⟩
      · exact ⟨a2.trans k1, d2.trans k2⟩

/-- **C157**, push of a bounded box: the points of the box are those of the convex hull of the pushed points, which turn counterclockwise -/
theorem C157_push_points {X : TPt K} {a b c d : K} (h1 : X.1.bounds? = some (a, b)) (h2 : X.2.bounds? = some (c, d)) (l : List (Pt K)) :
    ∃ p0 p1 p2 p3 : Pt K, pushPts X l = some (l ++ [p0, p1, p2, p3]) ∧ (∀ q, q ∈ Hull [p0, p1, p2, p3] ↔ In q X) ∧
      0 ≤ cr p0 p1 p2 ∧ 0 ≤ cr p1 p2 p3 ∧ 0 ≤ cr p2 p3 p0 ∧ 0 ≤ cr p3 p0 p1 := by
  have hab := bounds_le h1
  have hcd := bounds_le h2
  refine ⟨(a, c), (b, c), (b, d), (a, d), by unfold pushPts; rw [h1, h2], fun q => ?_, ?_⟩
  · rw [hull_congr (l' := [(a, c), (a, d), (b, c), (b, d)]) (fun p => by simp; tauto), hull_corners hab hcd]
    exact and_congr (bounds_mem h1).symm (bounds_mem h2).symm
  · have := mul_nonneg (sub_nonneg.mpr hab) (sub_nonneg.mpr hcd)
    unfold cr
    dsimp only
    refine ⟨?_, ?_, ?_, ?_⟩ <;> linarith

/-- **C157**, the extreme points of a thick point: no point is given twice, and the points of the thick point are those of their convex hull -/
theorem C157_bounds {X : TPt K} {a b c d : K} (h1 : X.1.bounds? = some (a, b)) (h2 : X.2.bounds? = some (c, d)) :
    ∃ l, boundsPts X = some l ∧ l.Nodup ∧ ∀ q, q ∈ Hull l ↔ In q X := by
  have hne : ∀ {Y : Itv K} {u v : K}, Y.bounds? = some (u, v) → Y.isEmpty = false := fun {Y u v} h => by
    rw [Itv.isEmpty_false_iff]
    exact Itv.ne_bot_of_mem ((bounds_mem h).mpr ⟨le_refl u, bounds_le h⟩)
  refine ⟨removeIdentical [(a, c), (a, d), (b, c), (b, d)], ?_, removeIdentical_nodup _, fun q => ?_⟩
  · unfold boundsPts
    rw [hne h1, hne h2, h1, h2]
    rfl
  · rw [hull_congr fun p => mem_removeIdentical, hull_corners (bounds_le h1) (bounds_le h2)]
    exact and_congr (bounds_mem h1).symm (bounds_mem h2).symm

theorem center_fold (A : IArith K) : ∀ (v : List (Pt K)) (c : TPt K) (s : Pt K), In s c →
    In (s.1 + (v.map Prod.fst).sum, s.2 + (v.map Prod.snd).sum) (v.foldl (fun c p => ((A.add c.1 (.point p.1), A.add c.2 (.point p.2)) : TPt K)) c)
  | [], c, s, h => by simpa using h
  | p :: v, c, s, h => by
    have := center_fold A v (A.add c.1 (.point p.1), A.add c.2 (.point p.2)) (s.1 + p.1, s.2 + p.2)
      ⟨A.add_mem h.1 (Itv.mem_point.mpr rfl), A.add_mem h.2 (Itv.mem_point.mpr rfl)⟩
    simpa [add_assoc] using this

/-- the mean of the vertices -/
def MeanPt (v : List (Pt K)) (g : Pt K) : Prop := (v.length : K) * g.1 = (v.map Prod.fst).sum ∧ (v.length : K) * g.2 = (v.map Prod.snd).sum

theorem mean_hull : ∀ {v : List (Pt K)} {g : Pt K}, v ≠ [] → MeanPt v g → g ∈ Hull v
  | [], _, h, _ => absurd rfl h
  | [p], g, _, hg => by
    obtain ⟨h1, h2⟩ := hg
    simp at h1 h2
    have : g = p := Prod.ext h1 h2
    rw [this]
    exact Hull.mem (by simp)
  | p :: q :: v, g, _, ⟨h1, h2⟩ => by
    set w := q :: v with hw
    have hn : (0 : K) < (w.length : K) := by rw [hw]; simp; positivity
    have hn0 : (w.length : K) ≠ 0 := hn.ne'
    have hs : (0 : K) < (w.length : K) + 1 := by linarith
    have ih := mean_hull (v := w) (g := ((w.map Prod.fst).sum / w.length, (w.map Prod.snd).sum / w.length)) (by simp [hw])
      ⟨mul_div_cancel₀ _ hn0, mul_div_cancel₀ _ hn0⟩
    have ih' := Hull.mono (l' := p :: w) (fun x hx => Hull.mem (by simp [hx])) ih
    rw [List.length_cons, Nat.cast_add, Nat.cast_one, List.map_cons, List.sum_cons] at h1 h2
    refine Hull.segment (o := p) (t := (w.length : K) / ((w.length : K) + 1)) (Hull.mem (by simp)) ih' (div_nonneg hn.le hs.le) ((div_le_one hs).mpr (by linarith)) ?_ ?_
    · apply mul_left_cancel₀ hs.ne'
      have e : ((w.length : K) + 1) * ((w.length : K) / ((w.length : K) + 1) * ((w.map Prod.fst).sum / w.length - p.1)) = (w.map Prod.fst).sum - (w.length : K) * p.1 := by
        rw [← mul_assoc, mul_div_cancel₀ _ hs.ne', mul_sub, mul_div_cancel₀ _ hn0]
      rw [e]
      linarith
    · apply mul_left_cancel₀ hs.ne'
      have e : ((w.length : K) + 1) * ((w.length : K) / ((w.length : K) + 1) * ((w.map Prod.snd).sum / w.length - p.2)) = (w.map Prod.snd).sum - (w.length : K) * p.2 := by
        rw [← mul_assoc, mul_div_cancel₀ _ hs.ne', mul_sub, mul_div_cancel₀ _ hn0]
      rw [e]
      linarith

/-- **C157**, center of a polygon: when `1. / n` is exact (`n` is a power of two), the box holds the mean of the vertices, which is a point of the polygon -/
theorem C157_center_partial (A : IArith K) {v : List (Pt K)} (hv : v ≠ []) {r : K} (hr : r * v.length = 1) :
    ∃ C, polyCenter A r v = some C ∧ ∀ g, MeanPt v g → In g C ∧ g ∈ Hull v := by
  refine ⟨_, by unfold polyCenter; exact if_neg hv, fun g hg => ⟨?_, mean_hull hv hg⟩⟩
  have h := center_fold A v (.point 0, .point 0) (0, 0) ⟨Itv.mem_point.mpr rfl, Itv.mem_point.mpr rfl⟩
  rw [zero_add, zero_add, ← hg.1, ← hg.2] at h
  have e : ∀ x : K, r * ((v.length : K) * x) = x := fun x => by rw [← mul_assoc, hr, one_mul]
  have m1 := A.mul_mem (Itv.mem_point.mpr (rfl : r = r)) h.1
  have m2 := A.mul_mem (Itv.mem_point.mpr (rfl : r = r)) h.2
  rw [e] at m1 m2
  unfold tpt
  rw [if_neg (by simp [Itv.ne_bot_of_mem m1, Itv.ne_bot_of_mem m2])]
  exact ⟨m1, m2⟩

/-- **C157** fails for three vertices: `1. / 3` is not a third, and the box is one point, which is not the mean of the vertices, although no other operation is rounded -/
theorem C157_center_fails {r : ℚ} (hr : r ≠ 1 / 3) :
    ∃ v : List (Pt ℚ), v.length = 3 ∧ ∃ C g, polyCenter (IArith.exact ℚ) r v = some C ∧ MeanPt v g ∧ ¬ In g C := by
  refine ⟨[(0, 0), (1, 0), (0, 1)], rfl, (.point r, .point r), (1 / 3, 1 / 3), ?_, ?_, ?_⟩
  · have e : polyCenter (IArith.exact ℚ) r [(0, 0), (1, 0), (0, 1)] =
        some (tpt (Itv.mul (.point r) (Itv.add (Itv.add (Itv.add (.point 0) (.point 0)) (.point 1)) (.point 0)))
          (Itv.mul (.point r) (Itv.add (Itv.add (Itv.add (.point 0) (.point 0)) (.point 0)) (.point 1)))) := rfl
    rw [e, pt_add, pt_add, pt_add, pt_add, pt_add, pt_mul, pt_mul]
    have hp : (Itv.point r : Itv ℚ) ≠ ⊥ := Itv.ne_bot_of_mem (Itv.mem_point.mpr (rfl : r = r))
    norm_num
    unfold tpt
    rw [if_neg (by simp [hp])]
  · constructor <;> norm_num
  · rintro ⟨h, _⟩
    exact hr (Itv.mem_point.mp h).symm

/-- hypotheses of `C157_*` met: a square of center `(1,1)`; a half plane; points which are aligned or not -/
example : polyCenter (IArith.exact ℚ) (1 / 4) [(0, 0), (2, 0), (2, 2), (0, 2)] = some (.point 1, .point 1) ∧
    pushThick ((.ofBounds none (some 5), .icc 1 2) : TPt ℚ) [] =
      some [(.ofBounds none (some 5), .point 1), (.point 5, .point 1), (.point 5, .point 2), (.ofBounds none (some 5), .point 2)] ∧
    alignedT (IArith.exact ℚ) (ofPt (0, 0)) (ofPt (1, 1)) (ofPt (2, 2)) = .yes ∧
    alignedT (IArith.exact ℚ) (.icc 0 1, .icc 0 1) (ofPt (1, 1)) (ofPt (2, 2)) = .maybe ∧
    alignedT (IArith.exact ℚ) (.icc 5 6, .icc 0 (1 / 2)) (ofPt (1, 1)) (ofPt (2, 2)) = .no ∧
    boundsPts ((.point 1, .icc 2 3) : TPt ℚ) = some [(1, 2), (1, 3)] := by
  decide +kernel

/-- **C157**: `push` is defined exactly for the boxes which are not empty, and an empty box has no corner -/
theorem C157_defined (X : TPt K) (l : List (TPt K)) :
    ((Poly.pushThick X l).isSome = true ↔ X.1 ≠ ⊥ ∧ X.2 ≠ ⊥) ∧ (X.1 = ⊥ ∨ X.2 = ⊥ → Poly.boundsPts X = some []) := by
  constructor
  · unfold Poly.pushThick
    by_cases h1 : X.1 = ⊥ <;> by_cases h2 : X.2 = ⊥ <;> simp [h1, h2]
  · intro h
    unfold Poly.boundsPts
    rw [if_pos (by simpa using h)]
    rfl

end Codac.Props
