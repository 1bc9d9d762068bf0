import Verif.Thick.SweepMaybe
import Mathlib.Topology.Order.IntermediateValue
import Mathlib.Topology.Instances.Real.Lemmas
import Mathlib.Topology.Algebra.Ring.Real
import Mathlib.Topology.Algebra.Ring.Basic

/-!
# C130: explored area of a swath sensor
-/

set_option linter.unusedSectionVars false

namespace Codac.Props
open Codac Codac.Sweep

section
variable {K : Type*} [Field K] [LinearOrder K] [IsStrictOrderedRing K]

/-- state of the robot at an instant: position, heading vector, half-length of the sensor -/
structure Robot (K : Type*) where
  x : K
  y : K
  ux : K
  uy : K
  l : K

/-- the robot sees the point: it is on the line of the sensor, within its length -/
def Sees (r : Robot K) (p q : K) : Prop :=
  r.ux * (q - r.y) - r.uy * (p - r.x) = 0 ∧ |r.ux * (p - r.x) + r.uy * (q - r.y)| ≤ r.l

/-- the state agrees with what is known on the slice -/
def SliceHas (s : Sl K) (r : Robot K) : Prop := r.x ∈ s.x ∧ r.y ∈ s.y ∧ r.ux ∈ s.ux ∧ r.uy ∈ s.uy ∧ r.l ∈ s.l

/-- the point is in the box -/
def InTheBox (X : Bx K) (p q : K) : Prop := p ∈ X.p ∧ q ∈ X.q

/-- the point is in the box and not on an edge -/
def WellInside (X : Bx K) (p q : K) : Prop := ∃ d, 0 < d ∧ ∀ a b, |a - p| ≤ d → |b - q| ≤ d → InTheBox X a b

/-- the heading vector is not zero -/
def Heading (r : Robot K) : Prop := r.ux ≠ 0 ∨ r.uy ≠ 0

theorem wellInside_has {X : Bx K} {p q : K} (h : WellInside X p q) : InTheBox X p q := by
  obtain ⟨d, hd, h⟩ := h
  exact h p q (by rw [sub_self, abs_zero]; exact hd.le) (by rw [sub_self, abs_zero]; exact hd.le)

/-- when a point inside the box is seen, the sign of the first quantity is not known on the slice, and the second one may be nonnegative -/
theorem sees_unknown (A : IArith K) {X : Bx K} {s : Sl K} {r : Robot K} {p q : K} (hs : SliceHas s r) (hp : WellInside X p q) (hh : Heading r)
    (h : Sees r p q) : getSign (v1Of A X s) = .zero ∧ ubGe0 (v2Of A X s) = true := by
  obtain ⟨hx, hy, hu, hv, hl⟩ := hs
  have hb := wellInside_has hp
  obtain ⟨d, hd, hp⟩ := hp
  obtain ⟨a, b, a', b', h1, h2, h3, h4, h5, h6⟩ := det_both hd h.1 hh
  have m1 := hp a b h1 h2
  have m2 := hp a' b' h3 h4
  refine ⟨getSign_zero (v1_mem A hx hy hu hv m1.1 m1.2) (v1_mem A hx hy hu hv m2.1 m2.2) h5 h6, ?_⟩
  exact ubGe0_of_mem (v2_mem A hx hy hu hv hl hb.1 hb.2) (sub_nonneg.mpr h.2)

/-- **C130 (out).** When the test answers OUT, no point of the box which is not on an edge is seen at any instant of the slices tested, whatever the state of the
robot in its slice. -/
theorem C130_out (A : IArith K) (X : Bx K) (S : List (Sl K)) (T : List (Nat × Nat)) (h : (fastTest A X S T).1 = .out)
    {t : Nat × Nat} (ht : t ∈ T) {i : Nat} (h1 : t.1 ≤ i) (h2 : i < t.2) {s : Sl K} (hs : S[i]? = some s) {r : Robot K} (hr : SliceHas s r)
    (hh : Heading r) {p q : K} (hp : WellInside X p q) : ¬ Sees r p q := by
  intro hsee
  obtain ⟨z1, z2⟩ := sees_unknown A hr hp hh hsee
  unfold fastTest at h
  cases hT : rangesTest A X S T with
  | none => rw [hT] at h; cases h
  | some z =>
    obtain ⟨T', n⟩ := z
    rw [hT] at h
    simp only at h
    split at h
    · rename_i hn
      obtain ⟨t', o, e1, _, e2⟩ := rangesTest_some hT ht
      have := (rangeTest_some e1 h1 h2 hs z1).2 (e2 hn)
      rw [z2] at this; cases this
    · exfalso
      split at h
      · unfold testExist at h
        simp only at h
        split at h
        · cases h
        · split at h
          · cases h
          · split at h <;> cases h
      · cases h

/-- **C130 (out, whole mission).** The same for `test`, which looks at every slice. -/
theorem C130_out_test (A : IArith K) (X : Bx K) (S : List (Sl K)) (h : test A X S = .out) {s : Sl K} (hs : s ∈ S) {r : Robot K} (hr : SliceHas s r)
    (hh : Heading r) {p q : K} (hp : WellInside X p q) : ¬ Sees r p q := by
  obtain ⟨i, hi, e⟩ := List.mem_iff_getElem.mp hs
  exact C130_out A X S _ h (t := (0, S.length)) (by simp) (i := i) (Nat.zero_le i) hi (by rw [List.getElem?_eq_getElem hi, e]) hr hh hp

/-- **C130 (limits).** When the test does not settle the box, the limits it leaves (to be used for a part of the box) still hold every slice, but the first one,
where a point of the box which is not on an edge is seen. -/
theorem C130_limits_partial (A : IArith K) (X : Bx K) (S : List (Sl K)) (T : List (Nat × Nat))
    (h : (fastTest A X S T).1 ≠ .in_) {t : Nat × Nat} (ht : t ∈ T) {i : Nat} (h1 : t.1 ≤ i) (h2 : i < t.2) (hi : 0 < i) {s : Sl K} (hs : S[i]? = some s)
    {r : Robot K} (hr : SliceHas s r) (hh : Heading r) {p q : K} (hp : WellInside X p q) (hsee : Sees r p q) :
    ∃ t' ∈ (fastTest A X S T).2, t'.1 ≤ i ∧ i < t'.2 := by
  obtain ⟨z1, z2⟩ := sees_unknown A hr hp hh hsee
  have hlt : i < S.length := (List.getElem?_eq_some_iff.mp hs).1
  unfold fastTest at h ⊢
  cases hT : rangesTest A X S T with
  | none => rw [hT] at h; exact absurd rfl h
  | some z =>
    obtain ⟨T', n⟩ := z
    simp only
    split
    · exact ⟨t, ht, h1, h2⟩
    · simp only
      obtain ⟨t', o, e1, e2, _⟩ := rangesTest_some hT ht
      obtain ⟨w, hw, hw1, hw2⟩ := (rangeTest_some e1 h1 h2 hs z1).1
      have goal : ∃ t' ∈ newLimits S.length T', t'.1 ≤ i ∧ i < t'.2 := by
        refine ⟨_, List.mem_map.mpr ⟨w, e2 w hw, rfl⟩, ?_, ?_⟩
        · simp only [shake]; omega
        · simp only [shake]; omega
      generalize (if smallBox X S = true then testExist A X S T' else TB.unk) = res
      by_cases hres : res = .maybe
      · rw [if_pos hres]; exact ⟨t, ht, h1, h2⟩
      · rw [if_neg hres]; exact goal

/-- **C130 (maybe).** When the test answers MAYBE or MAYBE_IN, there is a slice such that each point of the box is on the line of the sensor for a state in the
slice, and within the length of the sensor for a state in the slice. -/
theorem C130_maybe_partial (A : IArith K) (X : Bx K) (S : List (Sl K)) (T : List (Nat × Nat)) (hb : ∀ s ∈ S, BddSl s)
    (h : (fastTest A X S T).1 = .maybe ∨ (fastTest A X S T).1 = .maybeIn) :
    ∃ s ∈ S, ∀ p q, InTheBox X p q →
      (∃ r : Robot K, SliceHas s r ∧ r.ux * (q - r.y) - r.uy * (p - r.x) = 0) ∧
      ∃ r : Robot K, SliceHas s r ∧ |r.ux * (p - r.x) + r.uy * (q - r.y)| ≤ r.l := by
  have main : ∃ T' : List (Nat × Nat), T'.any (fun r => existT A X (part S r)) = true := by
    unfold fastTest at h
    cases hT : rangesTest A X S T with
    | none => rw [hT] at h; rcases h with h | h <;> cases h
    | some z =>
      obtain ⟨T', n⟩ := z
      rw [hT] at h
      simp only at h
      split at h
      · rcases h with h | h <;> cases h
      · simp only at h
        split at h
        · refine ⟨T', ?_⟩
          unfold testExist at h
          simp only at h
          split at h
          · rename_i hc; exact hc.1
          · split at h
            · rcases h with h | h <;> cases h
            · split at h
              · rename_i hc; exact hc.1
              · rcases h with h | h <;> cases h
        · rcases h with h | h <;> cases h
  obtain ⟨T', hT'⟩ := main
  rw [List.any_eq_true] at hT'
  obtain ⟨t, _, ht⟩ := hT'
  unfold existT at ht
  rw [List.any_eq_true] at ht
  obtain ⟨s, hs, hc⟩ := ht
  simp only [Bool.and_eq_true] at hc
  have hsS : s ∈ S := List.mem_of_mem_drop (List.mem_of_mem_take hs)
  refine ⟨s, hsS, ?_⟩
  intro p q hp
  have hbs := hb s hsS
  obtain ⟨l0, l1, hl, el⟩ := hbs.2.2.2.2
  have ml : l0 ∈ s.l := by rw [el]; exact ⟨le_refl _, hl⟩
  constructor
  · obtain ⟨x, hx, y, hy, u, hu, v, hv, e⟩ := det_zero A hbs hp.1 hp.2 hc.1.1 hc.1.2
    exact ⟨⟨x, y, u, v, l0⟩, ⟨hx, hy, hu, hv, ml⟩, e⟩
  · obtain ⟨x, hx, y, hy, u, hu, v, hv, e⟩ := along_near A hbs hp.1 hp.2 hc.2 ml
    exact ⟨⟨x, y, u, v, l0⟩, ⟨hx, hy, hu, hv, ml⟩, e⟩
end

/-! ## continuous motions -/

/-- a motion agrees with what is known: it is continuous, and during the slice `i`, which lasts from `τ i` to `τ (i+1)`, its values are in the slice -/
structure Follows (τ : Nat → ℝ) (S : List (Sl ℝ)) (m : ℝ → Robot ℝ) : Prop where
  order : ∀ i, i < S.length → τ i ≤ τ (i + 1)
  slices : ∀ (i : Nat) (s : Sl ℝ), S[i]? = some s → ∀ t, τ i ≤ t → t ≤ τ (i + 1) → SliceHas s (m t)
  cx : Continuous (fun t => (m t).x)
  cy : Continuous (fun t => (m t).y)
  cu : Continuous (fun t => (m t).ux)
  cv : Continuous (fun t => (m t).uy)

theorem follows_le {τ : Nat → ℝ} {S : List (Sl ℝ)} {m : ℝ → Robot ℝ} (h : Follows τ S m) {a b : Nat} (hab : a ≤ b) (hb : b ≤ S.length) : τ a ≤ τ b := by
  induction b with
  | zero => have : a = 0 := by omega
            rw [this]
  | succ b ih =>
    rcases Nat.lt_or_ge b a with h1 | h1
    · have : a = b + 1 := by omega
      rw [this]
    · exact le_trans (ih h1 (by omega)) (h.order b (by omega))

/-- an instant between the starts of two slices is in a slice between them -/
theorem follows_slice {τ : Nat → ℝ} {a b : Nat} (hab : a ≤ b) {t : ℝ} (h1 : τ a ≤ t) (h2 : t ≤ τ (b + 1)) :
    ∃ k, a ≤ k ∧ k ≤ b ∧ τ k ≤ t ∧ t ≤ τ (k + 1) := by
  induction b with
  | zero => have : a = 0 := by omega
            subst this; exact ⟨0, le_refl _, le_refl _, h1, h2⟩
  | succ b ih =>
    rcases Nat.lt_or_ge b a with h3 | h3
    · have : a = b + 1 := by omega
      subst this; exact ⟨b + 1, le_refl _, le_refl _, h1, h2⟩
    · rcases le_total t (τ (b + 1)) with h4 | h4
      · obtain ⟨k, k1, k2, k3⟩ := ih h3 h4
        exact ⟨k, k1, by omega, k3⟩
      · exact ⟨b + 1, by omega, le_refl _, h4, h2⟩

/-- **C130 (in).** When the test answers IN, every point of the box, edges included, is seen during the slices tested by every continuous motion which agrees with
the slices. -/
theorem C130_in (A : IArith ℝ) (X : Bx ℝ) (S : List (Sl ℝ)) (T : List (Nat × Nat)) (hT : ∀ t ∈ T, t.2 ≤ S.length)
    (h : (fastTest A X S T).1 = .in_) {τ : Nat → ℝ} {m : ℝ → Robot ℝ} (hm : Follows τ S m) {p q : ℝ} (hp : InTheBox X p q) :
    ∃ r ∈ T, ∃ t, τ r.1 ≤ t ∧ t ≤ τ r.2 ∧ Sees (m t) p q := by
  have hr : rangesTest A X S T = none := by
    unfold fastTest at h
    cases hT : rangesTest A X S T with
    | none => rfl
    | some z =>
      obtain ⟨T', n⟩ := z
      rw [hT] at h
      simp only at h
      split at h
      · cases h
      · exfalso
        simp only at h
        split at h
        · unfold testExist at h
          simp only at h
          split at h
          · cases h
          · split at h
            · cases h
            · split at h <;> cases h
        · cases h
  obtain ⟨r, hrT, hr⟩ := rangesTest_in hr
  have hr2 := hT r hrT
  obtain ⟨a, b, ha, hab, hb, v2, sgn⟩ := rangeTest_none hr2 hr
  refine ⟨r, hrT, ?_⟩
  have la : a < S.length := by omega
  have lb : b < S.length := by omega
  have ga := List.getElem?_eq_getElem la
  have gb := List.getElem?_eq_getElem lb
  have fa := hm.slices a _ ga (τ a) (le_refl _) (hm.order a la)
  have fb := hm.slices b _ gb (τ b) (le_refl _) (hm.order b lb)
  let g : ℝ → ℝ := fun t => (m t).ux * (q - (m t).y) - (m t).uy * (p - (m t).x)
  have gc : Continuous g := (hm.cu.mul (continuous_const.sub hm.cy)).sub (hm.cv.mul (continuous_const.sub hm.cx))
  have ma : g (τ a) ∈ v1Of A X S[a] := v1_mem A fa.1 fa.2.1 fa.2.2.1 fa.2.2.2.1 hp.1 hp.2
  have mb : g (τ b) ∈ v1Of A X S[b] := v1_mem A fb.1 fb.2.1 fb.2.2.1 fb.2.2.2.1 hp.1 hp.2
  have tab : τ a ≤ τ b := follows_le hm (Nat.le_of_lt hab) (by omega)
  have zero : ∃ t, τ a ≤ t ∧ t ≤ τ b ∧ g t = 0 := by
    rcases sgn _ _ ga gb with ⟨s1, s2⟩ | ⟨s1, s2⟩
    · obtain ⟨t, ht, e⟩ := intermediate_value_Icc' tab gc.continuousOn ⟨getSign_neg s2 mb, getSign_pos s1 ma⟩
      exact ⟨t, ht.1, ht.2, e⟩
    · obtain ⟨t, ht, e⟩ := intermediate_value_Icc tab gc.continuousOn ⟨getSign_neg s1 ma, getSign_pos s2 mb⟩
      exact ⟨t, ht.1, ht.2, e⟩
  obtain ⟨t, t1, t2, e⟩ := zero
  obtain ⟨k, k1, k2, k3, k4⟩ := follows_slice (Nat.le_of_lt hab) t1 (le_trans t2 (hm.order b lb))
  have lk : k < S.length := by omega
  have gk := List.getElem?_eq_getElem lk
  have fk := hm.slices k _ gk t k3 k4
  have pos := ge0_of_lbGe0 (v2 k k1 k2 _ gk) (v2_mem A fk.1 fk.2.1 fk.2.2.1 fk.2.2.2.1 fk.2.2.2.2 hp.1 hp.2)
  exact ⟨t, le_trans (follows_le hm ha (by omega)) t1, le_trans t2 (follows_le hm (Nat.le_of_lt hb) hr2), e, sub_nonneg.mp pos⟩

/-- **C130 (in, whole mission).** The same for `test`. -/
theorem C130_in_test (A : IArith ℝ) (X : Bx ℝ) (S : List (Sl ℝ)) (h : test A X S = .in_) {τ : Nat → ℝ} {m : ℝ → Robot ℝ} (hm : Follows τ S m)
    {p q : ℝ} (hp : InTheBox X p q) : ∃ t, τ 0 ≤ t ∧ t ≤ τ S.length ∧ Sees (m t) p q := by
  obtain ⟨r, hr, t, h1, h2, h3⟩ := C130_in A X S [(0, S.length)] (by simp) h hm hp
  rw [List.mem_singleton] at hr
  subst hr
  exact ⟨t, h1, h2, h3⟩

/-! ## concrete cases -/

/-- the motion of the first example: the robot goes up from `-1` at the instant 0 to `1` at the instant 2 -/
noncomputable def upMotion (t : ℝ) : Robot ℝ := ⟨0, t - 1, 1, 0, 1⟩

/-- its two slices -/
noncomputable def upSlices : List (Sl ℝ) :=
  [⟨.point 0, .icc (-1) 0, .point 1, .point 0, .point 1⟩, ⟨.point 0, .icc 0 1, .point 1, .point 0, .point 1⟩]

theorem upMotion_follows : Follows (fun i => (i : ℝ)) upSlices upMotion := by
  refine ⟨?_, ?_, continuous_const, continuous_id.sub continuous_const, continuous_const, continuous_const⟩
  · intro i _; simp
  · intro i s hs t h1 h2
    match i, hs with
    | 0, hs =>
      simp only [upSlices, List.getElem?_cons_zero, Option.some.injEq] at hs
      subst hs
      simp only [Nat.cast_zero, zero_add, Nat.cast_one] at h1 h2
      refine ⟨by simp [upMotion], ?_, by simp [upMotion], by simp [upMotion], by simp [upMotion]⟩
      simp only [upMotion, Itv.mem_icc]; constructor <;> linarith
    | 1, hs =>
      simp only [upSlices, List.getElem?_cons_succ, List.getElem?_cons_zero, Option.some.injEq] at hs
      subst hs
      simp only [Nat.cast_one] at h1 h2
      refine ⟨by simp [upMotion], ?_, by simp [upMotion], by simp [upMotion], by simp [upMotion]⟩
      norm_num at h2
      simp only [upMotion, Itv.mem_icc]; constructor <;> linarith
    | i + 2, hs => simp [upSlices] at hs

theorem exSub {a b c d : ℝ} (h : a ≤ b) (h' : c ≤ d) : Itv.sub (Itv.icc a b) (Itv.icc c d) = Itv.icc (a - d) (b - c) := by
  have : -d ≤ -c := by linarith
  have e : Itv.neg (Itv.mk (some c) (some d) h') = Itv.mk (some (-d)) (some (-c)) this := Itv.icc_eq_mk this
  rw [Itv.icc_eq_mk h, Itv.icc_eq_mk h', Itv.sub, e, sub_eq_add_neg, sub_eq_add_neg]
  rfl

theorem exAdd {a b c d : ℝ} (h : a ≤ b) (h' : c ≤ d) : Itv.add (Itv.icc a b) (Itv.icc c d) = Itv.icc (a + c) (b + d) := by
  rw [Itv.icc_eq_mk h, Itv.icc_eq_mk h']; rfl

theorem exMul {a b c d : ℝ} (h : a ≤ b) (h' : c ≤ d) : Itv.mul (Itv.icc a b) (Itv.icc c d) =
    Itv.icc (min (min (a * c) (a * d)) (min (b * c) (b * d))) (max (max (a * c) (a * d)) (max (b * c) (b * d))) := by
  rw [Itv.icc_eq_mk h, Itv.icc_eq_mk h']; rfl

theorem exPoint (a : ℝ) : Itv.point a = Itv.icc a a := (Itv.icc_eq_mk (le_refl a)).symm

theorem upIn : test (IArith.exact ℝ) ⟨.point 0, .point 0⟩ upSlices = .in_ := by
  have v10 : v1Of (IArith.exact ℝ) ⟨.point 0, .point 0⟩ ⟨.point 0, .icc (-1) 0, .point 1, .point 0, .point 1⟩ = Itv.mk (some 0) (some 1) (by simp) := by
    rw [← Itv.icc_eq_mk zero_le_one]
    simp only [v1Of, IArith.exact, exPoint]
    norm_num [exSub, exMul]
  have v11 : v1Of (IArith.exact ℝ) ⟨.point 0, .point 0⟩ ⟨.point 0, .icc 0 1, .point 1, .point 0, .point 1⟩ = Itv.mk (some (-1)) (some 0) (by simp) := by
    rw [← Itv.icc_eq_mk (by norm_num)]
    simp only [v1Of, IArith.exact, exPoint]
    norm_num [exSub, exMul]
  have a0 : absI (Itv.icc (0 : ℝ) 0) = Itv.icc 0 0 := by rw [Itv.icc_eq_mk (le_refl 0)]; simp [absI, lbGe0]
  have v20 : v2Of (IArith.exact ℝ) ⟨.point 0, .point 0⟩ ⟨.point 0, .icc (-1) 0, .point 1, .point 0, .point 1⟩ = Itv.mk (some 1) (some 1) (by simp) := by
    rw [← Itv.icc_eq_mk (le_refl 1)]
    simp only [v2Of, IArith.exact, exPoint]
    norm_num [exSub, exMul, exAdd, a0]
  have v21 : v2Of (IArith.exact ℝ) ⟨.point 0, .point 0⟩ ⟨.point 0, .icc 0 1, .point 1, .point 0, .point 1⟩ = Itv.mk (some 1) (some 1) (by simp) := by
    rw [← Itv.icc_eq_mk (le_refl 1)]
    simp only [v2Of, IArith.exact, exPoint]
    norm_num [exSub, exMul, exAdd, a0]
  have hr : rangeTest (IArith.exact ℝ) ⟨.point 0, .point 0⟩ upSlices (0, 2) = none := by
    have p2 : part upSlices (0, 2) = upSlices := rfl
    unfold rangeTest
    rw [p2]
    simp only [upSlices, List.map_cons, List.map_nil, v10, v11, v20, v21]
    norm_num [extractZeros, scan, scanStep, getSign, ubLe0, lbGe0, isInside, part]
  have hl : upSlices.length = 2 := rfl
  unfold test fastTest
  rw [hl]
  simp only [rangesTest, hr]

example : ∃ t, (0 : ℝ) ≤ t ∧ t ≤ 2 ∧ Sees (upMotion t) 0 0 := by
  obtain ⟨t, h1, h2, h3⟩ := C130_in_test (IArith.exact ℝ) ⟨.point 0, .point 0⟩ upSlices upIn upMotion_follows (p := 0) (q := 0) ⟨by simp, by simp⟩
  exact ⟨t, by simpa using h1, by simpa [upSlices] using h2, h3⟩

/-- OUT: the robot is at the origin, the box far above -/
example : test (IArith.exact ℚ) ⟨.icc 0 1, .icc 5 6⟩ [⟨.point 0, .icc 0 1, .point 1, .point 1, .point 1⟩, ⟨.point 0, .icc 1 2, .icc (-1) 1, .point 1, .point 1⟩]
    = .out := by decide +kernel

/-- not settled: the second slice is kept in the limits -/
example : fastTest (IArith.exact ℚ) ⟨.icc (-1) 1, .icc (-1) 1⟩
    [⟨.point 0, .point (-10), .point 1, .point 0, .point 1⟩, ⟨.point 0, .icc (-10) 10, .point 1, .point 0, .point 1⟩,
     ⟨.point 0, .icc (-10) 10, .point 1, .point 0, .point 1⟩] [(0, 3)] = (.unk, [(1, 3)]) := by decide +kernel

/-- MAYBE: the position of the robot is known with an error of two -/
example : test (IArith.exact ℚ) ⟨.icc 0 1, .icc 0 1⟩ [⟨.icc (-2) 2, .icc (-2) 2, .point 1, .point 0, .point 5⟩] = .maybe := by decide +kernel

/-! ## where it is not what one expects -/

/-- one slice, the robot is at the origin with heading `(1,0)` and a sensor of half-length one -/
def sweepStill : List (Sl ℚ) := [⟨.point 0, .point 0, .point 1, .point 0, .point 1⟩]

/-- **C130 (edge).** OUT can be wrong for a point of an edge: the box `[0,1]×[0,1]` is said outside although its corner is seen. -/
theorem C130_edge_fails :
    test (IArith.exact ℚ) ⟨.icc 0 1, .icc 0 1⟩ sweepStill = .out ∧ InTheBox (⟨.icc 0 1, .icc 0 1⟩ : Bx ℚ) 0 0 ∧
      ∃ s ∈ sweepStill, ∃ r : Robot ℚ, SliceHas s r ∧ Heading r ∧ Sees r 0 0 := by
  refine ⟨by decide +kernel, ⟨by decide +kernel, by decide +kernel⟩, _, List.mem_singleton.mpr rfl, ⟨0, 0, 1, 0, 1⟩, ?_, Or.inl (by decide), ?_⟩
  · exact ⟨by decide +kernel, by decide +kernel, by decide +kernel, by decide +kernel, by decide +kernel⟩
  · constructor <;> norm_num

/-- two slices: the robot goes up from the origin to the height 10, then stays there -/
def sweepUp : List (Sl ℚ) :=
  [⟨.point 0, .icc 0 10, .point 1, .point 0, .point 1⟩, ⟨.point 0, .point 10, .point 1, .point 0, .point 1⟩]

/-- **C130 (limits).** The limits left by a test which does not settle can lose the first slice: with them, a part of the box is then said outside although a point
inside it is seen during the first slice. -/
theorem C130_limits_fails :
    (fastTest (IArith.exact ℚ) ⟨.icc (-1) 1, .icc (-1) 1⟩ sweepUp [(0, 2)]).1 = .unk ∧
    (fastTest (IArith.exact ℚ) ⟨.icc (-1/2) (1/2), .icc (-1/2) (1/2)⟩ sweepUp
      (fastTest (IArith.exact ℚ) ⟨.icc (-1) 1, .icc (-1) 1⟩ sweepUp [(0, 2)]).2).1 = .out ∧
    WellInside (⟨.icc (-1/2) (1/2), .icc (-1/2) (1/2)⟩ : Bx ℚ) 0 0 ∧
    ∃ s, sweepUp[0]? = some s ∧ ∃ r : Robot ℚ, SliceHas s r ∧ Heading r ∧ Sees r 0 0 := by
  refine ⟨by decide +kernel, by decide +kernel, ⟨1/2, by norm_num, ?_⟩, _, rfl, ⟨0, 0, 1, 0, 1⟩, ?_, Or.inl (by decide), ?_⟩
  · intro a b ha hb
    rw [sub_zero, abs_le] at ha hb
    constructor
    · rw [Itv.mem_icc]; constructor <;> linarith [ha.1, ha.2]
    · rw [Itv.mem_icc]; constructor <;> linarith [hb.1, hb.2]
  · exact ⟨by decide +kernel, by decide +kernel, by decide +kernel, by decide +kernel, by decide +kernel⟩
  · constructor <;> norm_num

/-- one slice: the robot is at the origin, its heading vector is in `[1,2]×[0,11/10]`, its sensor has the half-length 3/2 -/
def sweepTurn : List (Sl ℚ) := [⟨.point 0, .point 0, .icc 1 2, .icc 0 (11/10), .point (3/2)⟩]

/-- **C130 (maybe).** MAYBE can be wrong: the point `(1,1)` is said seen by some states in the slice and not by others, and no state in the slice sees it. -/
theorem C130_maybe_fails :
    test (IArith.exact ℚ) ⟨.point 1, .point 1⟩ sweepTurn = .maybe ∧
      ∀ s ∈ sweepTurn, ∀ r : Robot ℚ, SliceHas s r → ¬ Sees r 1 1 := by
  refine ⟨by decide +kernel, ?_⟩
  intro s hs r hr hsee
  rw [sweepTurn, List.mem_singleton] at hs
  subst hs
  obtain ⟨hx, hy, hu, hv, hl⟩ := hr
  simp only [Itv.mem_point, Itv.mem_icc] at hx hy hu hv hl
  obtain ⟨h1, h2⟩ := hsee
  rw [hx, hy] at h1 h2
  rw [hl] at h2
  have := (abs_le.mp h2).2
  have h3 := hu.1
  linarith

end Codac.Props
