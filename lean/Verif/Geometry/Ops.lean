import Verif.Geometry.Build
import Verif.Geometry.OpsModel

/-!
# Proofs on the operations on polygons
-/

set_option linter.unusedSectionVars false

namespace Codac.Poly
open Codac.Graham

variable {K : Type*} [Field K] [LinearOrder K] [IsStrictOrderedRing K]

/-- cross product of the directions of two edges -/
def crossE (e f : Edge K) : K := (e.2.1 - e.1.1) * (f.2.2 - f.1.2) - (e.2.2 - e.1.2) * (f.2.1 - f.1.1)

theorem tpt_ofPt (p : Pt K) : tpt (.point p.1) (.point p.2) = ofPt p := by
  unfold tpt ofPt
  rw [if_neg]
  rw [Bool.or_eq_true, Itv.isEmpty_iff, Itv.isEmpty_iff, not_or]
  exact ⟨Itv.ne_bot_of_mem (Itv.mem_point.mpr rfl), Itv.ne_bot_of_mem (Itv.mem_point.mpr rfl)⟩

/-- edges on secant lines: the projected intersection is a point -/
theorem proj_point (z : K → Itv K) {e f : Edge K} (h : crossE e f ≠ 0) : ∃ y, proj z e f = ofPt y := by
  have he : ¬ degen e := fun k => h (by unfold crossE; rw [show e.1 = e.2 from k]; ring)
  have hf : ¬ degen f := fun k => h (by unfold crossE; rw [show f.1 = f.2 from k]; ring)
  unfold proj
  rw [if_neg (fun k => hf k.2)]
  unfold projAux
  rw [if_neg (fun k => hf k.2)]
  by_cases hv : vert f
  · have hv' : f.1.1 = f.2.1 := hv
    have hev : ¬ vert e := fun k => h (by unfold crossE; rw [show e.1.1 = e.2.1 from k, hv']; ring)
    rw [if_pos hv, if_neg he, if_neg hev]
    have e1 : (ebox f).1 = .point f.1.1 := by simp only [ebox, ← hv', sup_idem]
    by_cases hh : horiz e
    · have hh' : e.1.2 = e.2.2 := hh
      have e2 : (ebox e).2 = .point e.1.2 := by simp only [ebox, ← hh', sup_idem]
      rw [if_pos hh, e1, e2]
      exact ⟨(f.1.1, e.1.2), tpt_ofPt (f.1.1, e.1.2)⟩
    · rw [if_neg hh, e1]
      dsimp only
      exact ⟨(_, _), tpt_ofPt (f.1.1, e.1.2 + (e.2.2 - e.1.2) / (e.2.1 - e.1.1) * (f.1.1 - e.1.1))⟩
  · rw [if_neg hv]
    by_cases hh : horiz f
    · have hh' : f.1.2 = f.2.2 := hh
      have heh : ¬ horiz e := fun k => h (by unfold crossE; rw [show e.1.2 = e.2.2 from k, hh']; ring)
      rw [if_pos hh, if_neg he, if_neg heh]
      have e1 : (ebox f).2 = .point f.1.2 := by simp only [ebox, ← hh', sup_idem]
      by_cases hv : vert e
      · have hv' : e.1.1 = e.2.1 := hv
        have e2 : (ebox e).1 = .point e.1.1 := by simp only [ebox, ← hv', sup_idem]
        rw [if_pos hv, e1, e2]
        exact ⟨(e.1.1, f.1.2), tpt_ofPt (e.1.1, f.1.2)⟩
      · rw [if_neg hv, e1]
        dsimp only
        exact ⟨_, tpt_ofPt (_, _)⟩
    · rw [if_neg hh]
      have hc : (e.1.1 - e.2.1) * (f.1.2 - f.2.2) - (e.1.2 - e.2.2) * (f.1.1 - f.2.1) ≠ 0 := by
        intro k; apply h; unfold crossE; linarith
      dsimp only [dv]
      rw [if_neg hc, if_neg hc]
      exact ⟨_, tpt_ofPt (_, _)⟩

/-- a common point of edges on secant lines is the computed intersection -/
theorem proj_eq (z : K → Itv K) {e f : Edge K} (h : crossE e f ≠ 0) {q : Pt K} (h1 : cr e.1 e.2 q = 0) (h2 : cr f.1 f.2 q = 0) :
    proj z e f = ofPt q := by
  have he : ¬ degen e := fun k => h (by unfold crossE; rw [show e.1 = e.2 from k]; ring)
  have hf : ¬ degen f := fun k => h (by unfold crossE; rw [show f.1 = f.2 from k]; ring)
  unfold cr at h1 h2
  unfold proj
  rw [if_neg (fun k => hf k.2)]
  unfold projAux
  rw [if_neg (fun k => hf k.2)]
  by_cases hv : vert f
  · have hv' : f.1.1 = f.2.1 := hv
    have hfy : f.2.2 - f.1.2 ≠ 0 := fun k => hf (Prod.ext hv' (by linarith))
    have hev : ¬ vert e := fun k => h (by unfold crossE; rw [show e.1.1 = e.2.1 from k, hv']; ring)
    rw [if_pos hv, if_neg he, if_neg hev]
    have e1 : (ebox f).1 = .point f.1.1 := by simp only [ebox, ← hv', sup_idem]
    have hdx : e.2.1 - e.1.1 ≠ 0 := fun k => hev (by show e.1.1 = e.2.1; linarith)
    have hq1 : f.1.1 = q.1 := by
      rw [← hv', sub_self, zero_mul, zero_sub, neg_eq_zero] at h2
      have := (mul_eq_zero.mp h2).resolve_left hfy
      linarith
    by_cases hh : horiz e
    · have hh' : e.1.2 = e.2.2 := hh
      have e2 : (ebox e).2 = .point e.1.2 := by simp only [ebox, ← hh', sup_idem]
      rw [if_pos hh, e1, e2]
      have hq2 : e.1.2 = q.2 := by
        rw [← hh', sub_self, zero_mul, sub_zero] at h1
        have := (mul_eq_zero.mp h1).resolve_left hdx
        linarith
      rw [hq1, hq2]
      exact tpt_ofPt _
    · rw [if_neg hh, e1]
      dsimp only
      rw [hq1]
      have : e.1.2 + (e.2.2 - e.1.2) / (e.2.1 - e.1.1) * (q.1 - e.1.1) = q.2 := by
        field_simp
        linear_combination (-1 : K) * h1
      rw [this]
      exact tpt_ofPt _
  · rw [if_neg hv]
    by_cases hh : horiz f
    · have hh' : f.1.2 = f.2.2 := hh
      have heh : ¬ horiz e := fun k => h (by unfold crossE; rw [show e.1.2 = e.2.2 from k, hh']; ring)
      rw [if_pos hh, if_neg he, if_neg heh]
      have e1 : (ebox f).2 = .point f.1.2 := by simp only [ebox, ← hh', sup_idem]
      have hdy : e.2.2 - e.1.2 ≠ 0 := fun k => heh (by show e.1.2 = e.2.2; linarith)
      have hfx : f.2.1 - f.1.1 ≠ 0 := fun k => hv (by show f.1.1 = f.2.1; linarith)
      have hq2 : f.1.2 = q.2 := by
        rw [← hh', sub_self, zero_mul, sub_zero] at h2
        have := (mul_eq_zero.mp h2).resolve_left hfx
        linarith
      by_cases hv : vert e
      · have hv' : e.1.1 = e.2.1 := hv
        have e2 : (ebox e).1 = .point e.1.1 := by simp only [ebox, ← hv', sup_idem]
        have hq1 : e.1.1 = q.1 := by
          rw [← hv', sub_self, zero_mul, zero_sub, neg_eq_zero] at h1
          have := (mul_eq_zero.mp h1).resolve_left hdy
          linarith
        rw [if_pos hv, e1, e2, hq1, hq2]
        exact tpt_ofPt _
      · rw [if_neg hv, e1]
        dsimp only
        rw [hq2]
        have hdx : e.2.1 - e.1.1 ≠ 0 := fun k => hv (by show e.1.1 = e.2.1; linarith)
        have : e.1.1 + (q.2 - e.1.2) / ((e.2.2 - e.1.2) / (e.2.1 - e.1.1)) = q.1 := by
          field_simp
          linear_combination h1
        rw [this]
        exact tpt_ofPt _
    · rw [if_neg hh]
      have hc : (e.1.1 - e.2.1) * (f.1.2 - f.2.2) - (e.1.2 - e.2.2) * (f.1.1 - f.2.1) ≠ 0 := by
        intro k; apply h; unfold crossE; linarith
      dsimp only [dv]
      rw [if_neg hc, if_neg hc]
      have q1 : ((e.1.1 * e.2.2 - e.1.2 * e.2.1) * (f.1.1 - f.2.1) - (e.1.1 - e.2.1) * (f.1.1 * f.2.2 - f.1.2 * f.2.1)) /
          ((e.1.1 - e.2.1) * (f.1.2 - f.2.2) - (e.1.2 - e.2.2) * (f.1.1 - f.2.1)) = q.1 := by
        rw [div_eq_iff hc]
        linear_combination (e.2.1 - e.1.1) * h2 - (f.2.1 - f.1.1) * h1
      have q2 : ((e.1.1 * e.2.2 - e.1.2 * e.2.1) * (f.1.2 - f.2.2) - (e.1.2 - e.2.2) * (f.1.1 * f.2.2 - f.1.2 * f.2.1)) /
          ((e.1.1 - e.2.1) * (f.1.2 - f.2.2) - (e.1.2 - e.2.2) * (f.1.1 - f.2.1)) = q.2 := by
        rw [div_eq_iff hc]
        linear_combination (e.2.2 - e.1.2) * h2 - (f.2.2 - f.1.2) * h1
      rw [q1, q2]
      exact tpt_ofPt _

/-- the crossing point of two lines -/
theorem secant {e f : Edge K} (h : crossE e f ≠ 0) : ∃ q, cr e.1 e.2 q = 0 ∧ cr f.1 f.2 q = 0 := by
  refine ⟨(e.1.1 + (((f.1.1 - e.1.1) * (f.2.2 - f.1.2) - (f.1.2 - e.1.2) * (f.2.1 - f.1.1)) / crossE e f) * (e.2.1 - e.1.1),
    e.1.2 + (((f.1.1 - e.1.1) * (f.2.2 - f.1.2) - (f.1.2 - e.1.2) * (f.2.1 - f.1.1)) / crossE e f) * (e.2.2 - e.1.2)), ?_, ?_⟩
  · unfold cr; ring
  · have : ∀ t, (f.2.1 - f.1.1) * (e.1.2 + t * (e.2.2 - e.1.2) - f.1.2) - (f.2.2 - f.1.2) * (e.1.1 + t * (e.2.1 - e.1.1) - f.1.1)
        = ((f.1.1 - e.1.1) * (f.2.2 - f.1.2) - (f.1.2 - e.1.2) * (f.2.1 - f.1.1)) - t * crossE e f := by
      intro t; unfold crossE; ring
    unfold cr
    rw [this, div_mul_cancel₀ _ h, sub_self]

/-- the intersection of two edges on secant lines: nothing or the common point -/
theorem interE_secant (z : K → Itv K) {e f : Edge K} (h : crossE e f ≠ 0) :
    (interE z e f = ⊥ ∧ ∀ q, OnSeg e.1 e.2 q → ¬ OnSeg f.1 f.2 q) ∨
      ∃ q, OnSeg e.1 e.2 q ∧ OnSeg f.1 f.2 q ∧ interE z e f = ofPt q := by
  have key : ∀ q, In q (interE z e f) ↔ OnSeg e.1 e.2 q ∧ OnSeg f.1 f.2 q := by
    intro q
    constructor
    · intro hq
      obtain ⟨b1, b2⟩ := interE_in_ebox hq
      obtain ⟨y, y1, y2⟩ := secant h
      have hp := proj_eq z h y1 y2
      unfold interE at hq
      rw [in_tpt, hp, Itv.mem_inf, Itv.mem_inf, Itv.mem_inf, Itv.mem_inf] at hq
      have e : q = y := Prod.ext (Itv.mem_point.mp hq.1.1.1) (Itv.mem_point.mp hq.2.1.1)
      subst e
      exact ⟨onSeg_of_ebox b1 y1, onSeg_of_ebox b2 y2⟩
    · rintro ⟨h1, h2⟩
      have hp := proj_eq z h h1.cr_eq h2.cr_eq
      unfold interE
      rw [in_tpt, hp, Itv.mem_inf, Itv.mem_inf, Itv.mem_inf, Itv.mem_inf]
      exact ⟨⟨⟨Itv.mem_point.mpr rfl, h1.in_ebox.1⟩, h2.in_ebox.1⟩, ⟨Itv.mem_point.mpr rfl, h1.in_ebox.2⟩, h2.in_ebox.2⟩
  have uniq : ∀ q y, cr e.1 e.2 q = 0 → cr f.1 f.2 q = 0 → cr e.1 e.2 y = 0 → cr f.1 f.2 y = 0 → q = y := by
    intro q y q1 q2 y1 y2
    unfold cr at q1 q2 y1 y2
    refine Prod.ext ?_ ?_
    · apply mul_left_cancel₀ h
      unfold crossE
      linear_combination (f.2.1 - f.1.1) * (q1 - y1) - (e.2.1 - e.1.1) * (q2 - y2)
    · apply mul_left_cancel₀ h
      unfold crossE
      linear_combination (f.2.2 - f.1.2) * (q1 - y1) - (e.2.2 - e.1.2) * (q2 - y2)
  by_cases hex : ∃ q, OnSeg e.1 e.2 q ∧ OnSeg f.1 f.2 q
  · right
    obtain ⟨q, h1, h2⟩ := hex
    refine ⟨q, h1, h2, ?_⟩
    apply tpt_eq_ofPt
    intro y
    have := key y
    unfold interE at this
    rw [this]
    constructor
    · rintro ⟨y1, y2⟩; exact uniq _ _ y1.cr_eq y2.cr_eq h1.cr_eq h2.cr_eq
    · rintro rfl; exact ⟨h1, h2⟩
  · left
    push Not at hex
    refine ⟨?_, hex⟩
    rcases interE_cases z e f with k | ⟨q, k⟩
    · exact k
    · obtain ⟨k1, k2⟩ := (key q).mp k
      exact absurd k2 (hex q k1)

theorem unb_ofPt (p : Pt K) : unb (ofPt p) = false := by
  unfold unb ofPt
  simp [Itv.point, Itv.bounds?]

theorem parallel_secant (z : K → Itv K) {e f : Edge K} (h : crossE e f ≠ 0) : parallel z e f = false := by
  unfold parallel
  rw [if_neg (fun k => h (by
    have k1 : e.1.1 = e.2.1 := k.1
    have k2 : f.1.1 = f.2.1 := k.2
    unfold crossE; rw [k1, k2]; ring)), if_neg (fun k => h (by
    have k1 : e.1.2 = e.2.2 := k.1
    have k2 : f.1.2 = f.2.2 := k.2
    unfold crossE; rw [k1, k2]; ring))]
  obtain ⟨y, hy⟩ := proj_point z h
  rw [hy, unb_ofPt]

/-- edges on parallel lines that are not found parallel have no projected intersection -/
theorem proj_parallel {e f : Edge K} (h : crossE e f = 0) (hp : parallel (fun _ => ⊥) e f = false) : proj (fun _ => ⊥) e f = ⊥ := by
  unfold parallel at hp
  split_ifs at hp with k1 k2
  have hc : ∀ e f : Edge K, crossE e f = 0 → (e.1.1 - e.2.1) * (f.1.2 - f.2.2) - (e.1.2 - e.2.2) * (f.1.1 - f.2.1) = 0 := by
    intro e f h; unfold crossE at h; linarith
  have hbot : ∀ e f : Edge K, crossE e f = 0 → ¬ vert f → ¬ horiz f → projAux (fun _ => (⊥ : Itv K)) e f = ⊥ := by
    intro e f h hv hh
    have hfd : ¬ degen f := fun k => hv (by show f.1.1 = f.2.1; rw [show f.1 = f.2 from k])
    unfold projAux
    rw [if_neg (fun k => hfd k.2), if_neg hv, if_neg hh]
    dsimp only [dv]
    rw [if_pos (hc e f h), if_pos (hc e f h)]
    unfold tpt
    rw [if_pos (by rw [Bool.or_eq_true, Itv.isEmpty_iff]; exact .inl rfl)]
    rfl
  have hproj : proj (fun _ => (⊥ : Itv K)) e f = ⊥ := by
    unfold proj
    by_cases hd : degen f
    · have hd1 : f.1 = f.2 := hd
      have n1 : ¬ vert e := fun k => k1 ⟨k, by show f.1.1 = f.2.1; rw [hd1]⟩
      have n2 : ¬ horiz e := fun k => k2 ⟨k, by show f.1.2 = f.2.2; rw [hd1]⟩
      have hed : ¬ degen e := fun k => n1 (by show e.1.1 = e.2.1; rw [show e.1 = e.2 from k])
      rw [if_pos ⟨hed, hd⟩]
      exact hbot f e (by unfold crossE; rw [hd1]; ring) n1 n2
    · rw [if_neg (fun k => hd k.2)]
      by_cases hv : vert f
      · -- then the other edge is vertical
        exfalso
        have hv' : f.1.1 = f.2.1 := hv
        have hfy : f.2.2 - f.1.2 ≠ 0 := fun k => hd (Prod.ext hv' (by linarith))
        apply k1
        refine ⟨?_, hv⟩
        unfold crossE at h
        rw [← hv', sub_self, mul_zero, sub_zero] at h
        have := (mul_eq_zero.mp h).resolve_right hfy
        show e.1.1 = e.2.1; linarith
      · by_cases hh : horiz f
        · exfalso
          have hh' : f.1.2 = f.2.2 := hh
          have hfx : f.2.1 - f.1.1 ≠ 0 := fun k => hd (Prod.ext (by linarith) hh')
          apply k2
          refine ⟨?_, hh⟩
          unfold crossE at h
          rw [← hh', sub_self, mul_zero, zero_sub, neg_eq_zero] at h
          have := (mul_eq_zero.mp h).resolve_right hfx
          show e.1.2 = e.2.2; linarith
        · exact hbot e f h hv hh
  exact hproj

/-- edges on parallel lines that are not found parallel do not intersect -/
theorem interE_parallel {e f : Edge K} (h : crossE e f = 0) (hp : parallel (fun _ => ⊥) e f = false) : interE (fun _ => ⊥) e f = ⊥ := by
  have hproj := proj_parallel h hp
  unfold interE
  rw [hproj]
  dsimp only
  have : ((⊥ : TPt K).1 ⊓ (ebox e).1 ⊓ (ebox f).1) = ⊥ := by
    show (⊥ : Itv K) ⊓ _ ⊓ _ = ⊥
    rw [bot_inf_eq, bot_inf_eq]
  rw [this]
  unfold tpt
  rw [if_pos (by rw [Bool.or_eq_true, Itv.isEmpty_iff]; exact .inl rfl)]
  rfl

/-- `econtains` of an edge that is not a point -/
theorem econtains_iff {e : Edge K} (h : e.1 ≠ e.2) {p : Pt K} : econtains e p = true ↔ OnSeg e.1 e.2 p := by
  unfold econtains
  dsimp only
  rw [Bool.and_eq_true, decide_eq_true_eq, decide_eq_true_eq]
  have hpos := nsq_pos h
  have hcr : cr p e.1 e.2 = cr e.1 e.2 p := by unfold cr; ring
  have hd : (e.2.1 - e.1.1) * (e.2.1 - p.1) + (e.2.2 - e.1.2) * (e.2.2 - p.2) = dot e.1 e.2 e.2 - dot e.1 e.2 p := by unfold dot; ring
  have hd2 : (e.2.1 - e.1.1) ^ 2 + (e.2.2 - e.1.2) ^ 2 = dot e.1 e.2 e.2 - dot e.1 e.2 e.1 := by unfold dot; ring
  rw [hcr, hd, hd2]
  constructor
  · rintro ⟨h1, h2, h3⟩
    exact onSeg_of_dot h (by unfold cr; ring) (by unfold cr; ring) h1 (by linarith) (by linarith)
  · intro hs
    refine ⟨hs.cr_eq, ?_⟩
    have h0 : dot e.1 e.2 e.1 < dot e.1 e.2 e.2 := by
      have : 0 < (e.2.1 - e.1.1) ^ 2 + (e.2.2 - e.1.2) ^ 2 := by
        rcases (not_and_or.mp fun k : e.1.1 = e.2.1 ∧ e.1.2 = e.2.2 => h (Prod.ext k.1 k.2)) with k | k
        · have : e.2.1 - e.1.1 ≠ 0 := fun j => k (by linarith)
          positivity
        · have : e.2.2 - e.1.2 ≠ 0 := fun j => k (by linarith)
          positivity
      linarith
    rcases hs.dot_between (a := e.1) (b := e.2) with ⟨k1, k2⟩ | ⟨k1, k2⟩
    · constructor <;> linarith
    · linarith

end Codac.Poly
