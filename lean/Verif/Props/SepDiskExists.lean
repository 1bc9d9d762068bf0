import Verif.Ctc.SepDiskExists
import Verif.Props.SepPolar

/-!
# Property C105: the separator of the points at a given distance of a box

`SepDiskExists(x0, y0, rho)` separates the points that are at a distance in `[rho]` of some point of the box `[x0]×[y0]` from the other ones.
-/

namespace Codac.Props
open Codac Codac.Disk Real

/-- the set, with the squares of the bounds of the distance as they are computed: some point of the box is at a suitable distance -/
def InDisk (s : Disk.Sep) (x y : ℝ) : Prop :=
  ∃ a b : ℝ, s.xl ≤ a ∧ a ≤ s.xu ∧ s.yl ≤ b ∧ b ≤ s.yu ∧ s.dmul s.rl s.rl ≤ (x - a) ^ 2 + (y - b) ^ 2 ∧ (x - a) ^ 2 + (y - b) ^ 2 ≤ s.dmul s.ru s.ru

/-- `v` is not strictly between `lo` and `hi` -/
def NotInside (lo hi v : ℝ) : Prop := v ≤ lo ∨ hi ≤ v

/-- **C105**, inclusion: `separate` returns boxes that are included in the given ones. -/
theorem C105_subset (O : Disk.Ops) (s : Disk.Sep) (xin xout : Itv ℝ × Itv ℝ) :
    ((s.separate O xin xout).1.1 ≤ xin.1 ∧ (s.separate O xin xout).1.2 ≤ xin.2) ∧
    ((s.separate O xin xout).2.1 ≤ xout.1 ∧ (s.separate O xin xout).2.2 ≤ xout.2) := by
  obtain ⟨i, o, e, hi, ho, _⟩ := separate_start O s xin xout
  rw [e]
  have h1 := contract_le O s i false
  have h2 := contract_le O s o true
  exact ⟨⟨h1.1.trans hi.1, h1.2.trans hi.2⟩, h2.1.trans ho.1, h2.2.trans ho.2⟩

/-- **C105**, the set: when the squares are computed without rounding and the bounds of the distance are not negative, the set is the one of the
points at a distance in `[rho]` of some point of the box. -/
theorem C105_set (s : Disk.Sep) (h1 : s.dmul s.rl s.rl = s.rl ^ 2) (h2 : s.dmul s.ru s.ru = s.ru ^ 2) (hl : 0 ≤ s.rl) (hu : 0 ≤ s.ru) (x y : ℝ) :
    InDisk s x y ↔ ∃ a b : ℝ, s.xl ≤ a ∧ a ≤ s.xu ∧ s.yl ≤ b ∧ b ≤ s.yu ∧ s.rl ≤ √((x - a) ^ 2 + (y - b) ^ 2) ∧ √((x - a) ^ 2 + (y - b) ^ 2) ≤ s.ru := by
  unfold InDisk
  rw [h1, h2]
  refine exists_congr fun a => exists_congr fun b => and_congr_right fun _ => and_congr_right fun _ => and_congr_right fun _ => and_congr_right fun _ => ?_
  rw [Real.le_sqrt (by positivity), Real.sqrt_le_left hu]
  positivity

/-- **C105**, outer part: a point of the set that is in the boxes is in the new `x_out`, when its coordinates are not strictly between the bounds of
`[x0]`, and of `[y0]`. Missing: the points with a coordinate inside, which the backward sign loses (`C105_inside_fails`). -/
theorem C105_out_partial (O : Disk.Ops) (s : Disk.Sep) (hr : s.dmul s.rl s.rl ≤ s.dmul s.ru s.ru) {xin xout : Itv ℝ × Itv ℝ} {x y : ℝ}
    (h1 : InRect xin x y) (h2 : InRect xout x y) (h : InDisk s x y) (sx : NotInside s.xl s.xu x) (sy : NotInside s.yl s.yu y) :
    InRect (s.separate O xin xout).2 x y := by
  obtain ⟨i, o, e, _, _, hm⟩ := separate_start O s xin xout
  rw [e]
  have ho := (hm x y h1.1 h1.2 h2.1 h2.2).2
  obtain ⟨a, b, a1, a2, b1, b2, l, u⟩ := h
  refine contract_keeps O s ho.1 ho.2 ?_ ?_ ?_
  · exact sx.imp (fun c => ⟨c, c.trans (a1.trans a2)⟩) (fun c => ⟨(a1.trans a2).trans c, c⟩)
  · exact sy.imp (fun c => ⟨c, c.trans (b1.trans b2)⟩) (fun c => ⟨(b1.trans b2).trans c, c⟩)
  · rw [if_pos rfl, mem_posReals, sub_nonneg]
    have n1 := near2_le (x := x) a1 a2
    have n2 := near2_le (x := y) b1 b2
    have f1 := le_far2 (x := x) a1 a2
    have f2 := le_far2 (x := y) b1 b2
    exact sup_le (le_inf (by linarith) (by linarith)) (le_inf (by linarith) hr)

/-- **C105**, inner part: a point out of the set that is in the boxes is in the new `x_in`, when its coordinates are not strictly between the bounds of
`[x0]`, and of `[y0]`. Missing: as above. -/
theorem C105_in_partial (O : Disk.Ops) (s : Disk.Sep) (hx0 : s.xl ≤ s.xu) (hy0 : s.yl ≤ s.yu) {xin xout : Itv ℝ × Itv ℝ}
    {x y : ℝ} (h1 : InRect xin x y) (h2 : InRect xout x y) (h : ¬ InDisk s x y) (sx : NotInside s.xl s.xu x) (sy : NotInside s.yl s.yu y) :
    InRect (s.separate O xin xout).1 x y := by
  obtain ⟨i, o, e, _, _, hm⟩ := separate_start O s xin xout
  rw [e]
  have hi := (hm x y h1.1 h1.2 h2.1 h2.2).1
  refine contract_keeps O s hi.1 hi.2 ?_ ?_ ?_
  · exact sx.imp (fun c => ⟨c, c.trans hx0⟩) (fun c => ⟨hx0.trans c, c⟩)
  · exact sy.imp (fun c => ⟨c, c.trans hy0⟩) (fun c => ⟨hy0.trans c, c⟩)
  · rw [if_neg (by simp), mem_negReals, sub_nonpos]
    by_contra c
    push Not at c
    have c1 := (le_sup_left.trans_lt c).trans_le inf_le_left
    have c2 := (le_sup_left.trans_lt c).trans_le inf_le_right
    have c3 := (le_sup_right.trans_lt c).trans_le inf_le_left
    have c4 := (le_sup_right.trans_lt c).trans_le inf_le_right
    generalize hn : near2 s.xl s.xu x + near2 s.yl s.yu y = n at c1 c2
    generalize hf : far2 s.xl s.xu x + far2 s.yl s.yu y = f at c1 c3
    obtain ⟨a, b, a1, a2, b1, b2, e⟩ := exists_between (d := n ⊔ s.dmul s.rl s.rl) hx0 hy0 (hn.le.trans le_sup_left) ((sup_le c1.le c3.le).trans hf.ge)
    exact h ⟨a, b, a1, a2, b1, b2, by rw [e]; exact le_sup_right, by rw [e]; exact sup_le c2.le c4.le⟩

/-- **C105**, defect: the step is `0` or `1`, but it is inverted as a sign, `-1` or `1`. With the exact operations, on the boxes reduced to a point whose
first coordinate is strictly inside `[x0]`, `x_in` and `x_out` are both empty: the point is lost on the two sides, in the set or not. -/
theorem C105_inside_fails (s : Disk.Sep) {x : ℝ} (y : ℝ) (hx : s.xl < x ∧ x < s.xu) :
    (s.separate hullOps (Itv.point x, Itv.point y) (Itv.point x, Itv.point y)).1.1 = ⊥ ∧
    (s.separate hullOps (Itv.point x, Itv.point y) (Itv.point x, Itv.point y)).2.1 = ⊥ := by
  obtain ⟨i, o, e, hi, ho, _⟩ := separate_start hullOps s (Itv.point x, Itv.point y) (Itv.point x, Itv.point y)
  rw [e]
  have key : ∀ (b : Itv ℝ × Itv ℝ) (outer : Bool), b.1 ≤ Itv.point x → (s.contract hullOps b outer).1 = ⊥ := by
    intro b outer hb
    refine backward_lost (fun v hv => ?_) _ _ hb
    rw [Itv.mem_point.mp (Itv.mem_of_le hb hv)]
    exact hx
  exact ⟨key i false hi.1, key o true ho.1⟩

/-- the points at a distance in `[1, 2]` of a point of `[-1,1]×[-1,1]` -/
noncomputable def diskSep : Disk.Sep := ⟨-1, 1, -1, 1, 1, 2, fun a b => a * b⟩

/-- the hypotheses are met: `(2, 1)` is in the set and `(3, 3)` out of it, with their coordinates out of the intervals; `(0, 0)` is in the set and
lost -/
example : InDisk diskSep 2 1 ∧ NotInside diskSep.xl diskSep.xu 2 ∧ NotInside diskSep.yl diskSep.yu 1 ∧ ¬ InDisk diskSep 3 3 ∧
    NotInside diskSep.xl diskSep.xu 3 ∧ NotInside diskSep.yl diskSep.yu 3 ∧ InDisk diskSep 0 0 ∧ (diskSep.xl < 0 ∧ 0 < diskSep.xu) := by
  refine ⟨⟨1, 1, ?_⟩, .inr ?_, .inr ?_, ?_, .inr ?_, .inr ?_, ⟨1, 1, ?_⟩, ?_⟩ <;> simp only [diskSep] <;> try norm_num
  rintro ⟨a, b, a1, a2, b1, b2, _, u⟩
  simp only at a1 a2 b1 b2 u
  nlinarith

end Codac.Props
