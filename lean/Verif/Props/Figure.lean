import Verif.Paving.Figure
import Mathlib.Data.Rat.Floor

/-!
# C136 — figures
-/

set_option linter.unusedSectionVars false

namespace Codac.Props
open Codac.Figure

section field
variable {K : Type*} [Field K] [LinearOrder K] [IsStrictOrderedRing K]

/-- C136: intervals without infinite bound are kept by the truncation -/
theorem C136_trunc_finite (B l u : K) : truncInf B (Itv.icc l u) = Itv.icc l u := by
  by_cases h : l ≤ u
  · rw [Itv.icc_eq_mk h]
    show Itv.icc l u = _
    rw [Itv.icc_eq_mk h]
  · have e : Itv.icc l u = .empty := by simp [Itv.icc, Itv.ofBounds, bLe, h]
    rw [e]; rfl

/-- C136: when the finite bounds are displayable, exactly the displayable values are kept, and there are some -/
theorem C136_trunc_partial {B : K} (hB : 0 ≤ B) {X : Itv K} (hl : ∀ l u p, X = .mk (some l) u p → -B ≤ l ∧ l ≤ B)
    (hu : ∀ l u p, X = .mk l (some u) p → -B ≤ u ∧ u ≤ B) :
    (∀ x : K, x ∈ truncInf B X ↔ x ∈ X ∧ -B ≤ x ∧ x ≤ B) ∧ (X ≠ .empty → ∃ x : K, x ∈ truncInf B X) := by
  have hn : -B ≤ B := by linarith
  cases X with
  | empty => exact ⟨fun x => ⟨fun h => absurd h (Itv.not_mem_empty _), fun h => absurd h.1 (Itv.not_mem_empty _)⟩, fun h => absurd rfl h⟩
  | mk l u p =>
    rcases l with _ | l <;> rcases u with _ | u
    · refine ⟨fun x => ?_, fun _ => ⟨B, Itv.mem_icc.mpr ⟨hn, le_rfl⟩⟩⟩
      show x ∈ Itv.icc (-B) B ↔ _
      rw [Itv.mem_icc, Itv.mem_mk]
      exact ⟨fun h => ⟨⟨trivial, trivial⟩, h⟩, fun h => h.2⟩
    · obtain ⟨k1, k2⟩ := hu _ _ _ rfl
      refine ⟨fun x => ?_, fun _ => ⟨u, Itv.mem_icc.mpr ⟨k1, le_rfl⟩⟩⟩
      show x ∈ Itv.icc (-B) u ↔ _
      rw [Itv.mem_icc, Itv.mem_mk]
      exact ⟨fun h => ⟨⟨trivial, h.2⟩, h.1, h.2.trans k2⟩, fun h => ⟨h.2.1, h.1.2⟩⟩
    · obtain ⟨k1, k2⟩ := hl _ _ _ rfl
      refine ⟨fun x => ?_, fun _ => ⟨l, Itv.mem_icc.mpr ⟨le_rfl, k2⟩⟩⟩
      show x ∈ Itv.icc l B ↔ _
      rw [Itv.mem_icc, Itv.mem_mk]
      exact ⟨fun h => ⟨⟨h.1, trivial⟩, k1.trans h.1, h.2⟩, fun h => ⟨h.1.1, h.2.2⟩⟩
    · obtain ⟨k1, _⟩ := hl _ _ _ rfl
      obtain ⟨_, k2⟩ := hu _ _ _ rfl
      have hlu : l ≤ u := p
      refine ⟨fun x => ?_, fun _ => ⟨l, Itv.mem_icc.mpr ⟨le_rfl, hlu⟩⟩⟩
      show x ∈ Itv.icc l u ↔ _
      rw [Itv.mem_icc, Itv.mem_mk]
      exact ⟨fun h => ⟨⟨h.1, h.2⟩, k1.trans h.1, h.2.trans k2⟩, fun h => ⟨h.1.1, h.1.2⟩⟩

example : truncInf (99999 : ℚ) (.mk (some 5) none trivial) = Itv.icc 5 99999 := by decide +kernel

/-- C136: an interval with a finite bound beyond those of the display is shown as empty -/
theorem C136_trunc_fails : ∃ X : Itv ℚ, X ≠ .empty ∧ (∀ x : ℚ, 200000 ≤ x → x ∈ X) ∧ truncInf 99999 X = .empty :=
  ⟨.mk (some 200000) none trivial, by simp, fun x h => ⟨h, trivial⟩, by decide +kernel⟩

/-- the box lies in another one -/
def Within (a b : View K) : Prop := b.x0 ≤ a.x0 ∧ a.x1 ≤ b.x1 ∧ b.y0 ≤ a.y0 ∧ a.y1 ≤ b.y1

/-- C136: after a first view, the view box with the same ratio contains the wanted box, has exactly the ratio of the window, and is the smallest one -/
theorem C136_ratio_partial {old : Option (View K)} (ho : old ≠ none) {r : K} (hr : 0 < r) {b : View K} (hx : b.x0 ≤ b.x1) (hy : b.y0 ≤ b.y1) :
    Within b (axisLimits old r true b) ∧
    (axisLimits old r true b).x1 - (axisLimits old r true b).x0 = r * ((axisLimits old r true b).y1 - (axisLimits old r true b).y0) ∧
    ∀ c : View K, Within b c → c.x1 - c.x0 = r * (c.y1 - c.y0) → (axisLimits old r true b).x1 - (axisLimits old r true b).x0 ≤ c.x1 - c.x0 := by
  have hs : old.isSome = true := by cases old <;> simp_all
  simp only [axisLimits, hs, Bool.and_self, if_true]
  obtain ⟨x0, x1, y0, y1⟩ := b
  simp only at hx hy ⊢
  have hdiv : (x1 - x0) / 2 / r * r = (x1 - x0) / 2 := div_mul_cancel₀ _ hr.ne'
  set d := (x1 - x0) / 2 / r with hd
  refine ⟨⟨min_le_left _ _, le_max_left _ _, min_le_right _ _, le_max_right _ _⟩, ?_, ?_⟩
  · by_cases h : (y1 - y0) / 2 ≤ d
    · have h' : (y1 - y0) / 2 * r ≤ (x1 - x0) / 2 := hdiv ▸ mul_le_mul_of_nonneg_right h hr.le
      rw [min_eq_left (by linarith), max_eq_left (by linarith), min_eq_left (by linarith), max_eq_left (by linarith)]
      have : r * d = (x1 - x0) / 2 := by rw [mul_comm]; exact hdiv
      have e : r * ((y0 + y1) / 2 + d - ((y0 + y1) / 2 - d)) = 2 * (r * d) := by ring
      rw [e, this]; ring
    · have h := (not_le.mp h).le
      have h' : (x1 - x0) / 2 ≤ (y1 - y0) / 2 * r := hdiv ▸ mul_le_mul_of_nonneg_right h hr.le
      rw [min_eq_right (by linarith), max_eq_right (by linarith), min_eq_right (by linarith), max_eq_right (by linarith)]
      ring
  · rintro c ⟨k1, k2, k3, k4⟩ hc
    simp only at k1 k2 k3 k4
    have w : x1 - x0 ≤ c.x1 - c.x0 := by linarith
    have w' : (y1 - y0) * r ≤ c.x1 - c.x0 := by
      rw [hc, mul_comm]; exact mul_le_mul_of_nonneg_left (by linarith) hr.le
    by_cases h' : (y1 - y0) / 2 * r ≤ (x1 - x0) / 2
    · rw [min_eq_left (by linarith), max_eq_left (by linarith)]; exact w
    · have h' := (not_le.mp h').le
      rw [min_eq_right (by linarith), max_eq_right (by linarith)]
      have e : (x0 + x1) / 2 + (y1 - y0) / 2 * r - ((x0 + x1) / 2 - (y1 - y0) / 2 * r) = (y1 - y0) * r := by ring
      rw [e]; exact w'

/-- C136: on a new figure (empty view box) the ratio asked for is ignored: a square box is shown in a window twice as wide as high -/
theorem C136_ratio_first_fails : ∃ b : View ℚ, (axisLimits none 2 true b).x1 - (axisLimits none 2 true b).x0 ≠ 2 * ((axisLimits none 2 true b).y1 - (axisLimits none 2 true b).y0) :=
  ⟨⟨0, 1, 0, 1⟩, by decide +kernel⟩

/-- C136: without the ratio the view box is the one given -/
theorem C136_given (old : Option (View K)) (r : K) (b : View K) : axisLimits old r false b = b := rfl

/-- C136: the limits sent contain the view box, its size being multiplied by `1 + 2 margin`; the centre and the ratio are kept -/
theorem C136_margin {m : K} (hm : 0 ≤ m) {b : View K} (hx : b.x0 ≤ b.x1) (hy : b.y0 ≤ b.y1) : Within b (withMargin m b) ∧
    (withMargin m b).x1 - (withMargin m b).x0 = (1 + 2 * m) * (b.x1 - b.x0) ∧ (withMargin m b).y1 - (withMargin m b).y0 = (1 + 2 * m) * (b.y1 - b.y0) ∧
    (withMargin m b).x0 + (withMargin m b).x1 = b.x0 + b.x1 ∧ (withMargin m b).y0 + (withMargin m b).y1 = b.y0 + b.y1 := by
  have h1 := mul_nonneg hm (sub_nonneg.mpr hx)
  have h2 := mul_nonneg hm (sub_nonneg.mpr hy)
  refine ⟨⟨?_, ?_, ?_, ?_⟩, ?_, ?_, ?_, ?_⟩ <;> simp only [withMargin] <;> linarith

example : axisLimits (some ⟨0, 1, 0, 1⟩) 2 true (⟨0, 1, 0, 1⟩ : View ℚ) = ⟨-1 / 2, 3 / 2, 0, 1⟩ := by decide +kernel

end field

section order
variable {K : Type*} [LinearOrder K]

/-- all bounds of the boxes of the leaves are finite -/
def FiniteLeaves (P : Paving K) : Prop := ∀ p ∈ P.leaves 0 [], ∀ I ∈ p.box, ∀ l u h, I = .mk l u h → l ≠ none ∧ u ≠ none

/-- the group named after the value: `IN`, `OUT`, `PENUMBRA`, and `UNKNOWN` for all others -/
def NamedGroup (v : SetValue) (g : Group) : Prop := (v = 4 ∧ g = .inside) ∨ (v = 2 ∧ g = .outside) ∨ (v = 8 ∧ g = .penumbra) ∨ (v ≠ 4 ∧ v ≠ 2 ∧ v ≠ 8 ∧ g = .unknown)

theorem groupOf_named (v : SetValue) : NamedGroup v (groupOf v) := by
  by_cases h1 : v = 4
  · subst h1; exact .inl ⟨rfl, rfl⟩
  by_cases h2 : v = 2
  · subst h2; exact .inr (.inl ⟨rfl, rfl⟩)
  by_cases h3 : v = 8
  · subst h3; exact .inr (.inr (.inl ⟨rfl, rfl⟩))
  exact .inr (.inr (.inr ⟨h1, h2, h3, by simp [groupOf, SetValue.IN, SetValue.OUT, penumbra, h1, h2, h3]⟩))

theorem finite_of_not {I : Itv K} : infinite I = false ↔ ∀ l u h, I = .mk l u h → l ≠ none ∧ u ≠ none := by
  cases I with
  | empty => simp [infinite]
  | mk l u h =>
    constructor
    · intro hi l' u' h' e
      cases e
      cases l <;> cases u <;> simp_all [infinite]
    · intro hf
      have := hf l u h rfl
      cases l <;> cases u <;> simp_all [infinite]

theorem draw_shapes (P : Paving K) (t : Nat) (path : List Bool) (F : Fig K) :
    (drawPaving P F).shapes = F.shapes ++ ((P.leaves t path).filter fun p => !p.box.any infinite).map fun p => (groupOf p.value, p.box) := by
  induction P generalizing F path with
  | leaf b v =>
    simp only [drawPaving, drawBox, Paving.leaves, List.filter_cons, List.filter_nil]
    cases b.any infinite <;> simp
  | node b v l r ihl ihr =>
    rw [drawPaving, ihr (path ++ [true]), ihl (path ++ [false]), Paving.leaves, List.filter_append, List.map_append, List.append_assoc]

/-- the position of the leaves does not change their boxes and values -/
theorem leaves_same (P : Paving K) (t t' : Nat) (path path' : List Bool) :
    (P.leaves t path).map (fun p => (p.value, p.box)) = (P.leaves t' path').map fun p => (p.value, p.box) := by
  induction P generalizing path path' with
  | leaf b v => rfl
  | node b v l r ihl ihr =>
    simp only [Paving.leaves, List.map_append, ihl (path ++ [false]) (path' ++ [false]), ihr (path ++ [true]) (path' ++ [true])]

/-- C136: `show` sends the boxes of the leaves of a bounded paving, each one once and in order, to the group of its value -/
theorem C136_paving_partial {P : Paving K} (hP : FiniteLeaves P) (F : Fig K) :
    ∃ gs : List Group, List.Forall₂ (fun p g => NamedGroup p.value g) (P.leaves 0 []) gs ∧
      (showPaving P F).shapes = gs.zip ((P.leaves 0 []).map (·.box)) := by
  refine ⟨(P.leaves 0 []).map fun p => groupOf p.value, ?_, ?_⟩
  · rw [List.forall₂_map_right_iff, List.forall₂_same]
    exact fun p _ => groupOf_named p.value
  · rw [showPaving, draw_shapes P 0 []]
    have hf : ((P.leaves 0 []).filter fun p => !p.box.any infinite) = P.leaves 0 [] := by
      rw [List.filter_eq_self]
      intro p hp
      rw [Bool.not_eq_true', List.any_eq_false]
      intro I hI
      rw [finite_of_not.mpr (hP p hp I hI)]; simp
    rw [hf, List.nil_append, List.zip_map']

/-- C136: the boxes of the group of the inside are those given by `get_boxes(IN)` when each value is one of the four -/
theorem C136_group_boxes {K : Type*} [Field K] [LinearOrder K] [IsStrictOrderedRing K] {P : Paving K} (hP : FiniteLeaves P) (hv : ∀ p ∈ P.leaves 0 [], p.value ∈ [1, 2, 4, 8]) (F : Fig K) :
    ((showPaving P F).shapes.filter fun s => s.1 = .inside).map (·.2) = P.getBoxes .IN .DEFAULT := by
  rw [Paving.getBoxes_eq (t := 0) (path := []), showPaving, draw_shapes P 0 []]
  have hf : ((P.leaves 0 []).filter fun p => !p.box.any infinite) = P.leaves 0 [] := by
    rw [List.filter_eq_self]
    intro p hp
    rw [Bool.not_eq_true', List.any_eq_false]
    intro I hI
    rw [finite_of_not.mpr (hP p hp I hI)]; simp
  rw [hf, List.nil_append, List.filter_map, List.map_map]
  have e : ∀ p ∈ P.leaves 0 [], ((fun s : Group × Box K => decide (s.1 = .inside)) ∘ fun p : Paving.Leaf K => (groupOf p.value, p.box)) p = p.value.meets .IN := by
    intro p hp
    have := hv p hp
    simp only [List.mem_cons, List.not_mem_nil, or_false] at this
    rcases this with h | h | h | h <;> simp only [Function.comp, h] <;> decide
  rw [List.filter_congr e]
  rfl

theorem zip_sup : ∀ {n : Nat} {A B : Box K}, A.length = n → B.length = n → (List.zipWith (· ⊔ ·) A B).length = n ∧ BoxLe A (List.zipWith (· ⊔ ·) A B) ∧
    BoxLe B (List.zipWith (· ⊔ ·) A B)
  | 0, [], [], _, _ => ⟨rfl, .nil, .nil⟩
  | n + 1, a :: A, b :: B, h1, h2 => by
    obtain ⟨k1, k2, k3⟩ := zip_sup (n := n) (A := A) (B := B) (by simpa using h1) (by simpa using h2)
    exact ⟨by simp [k1], .cons le_sup_left k2, .cons le_sup_right k3⟩

theorem boxLe_tr : ∀ {A B C : Box K}, BoxLe A B → BoxLe B C → BoxLe A C
  | [], [], [], _, _ => .nil
  | _ :: _, _ :: _, _ :: _, .cons h1 t1, .cons h2 t2 => .cons (h1.trans h2) (boxLe_tr t1 t2)

theorem boxLe_same (A : Box K) : BoxLe A A := List.forall₂_same.mpr fun _ _ => le_rfl

theorem draw_view {n : Nat} {P : Paving K} (hP : P.WF n) (t : Nat) (path : List Bool) {F : Fig K} (hF : F.view.length = n) :
    (drawPaving P F).view.length = n ∧ BoxLe F.view (drawPaving P F).view ∧
      ∀ p ∈ P.leaves t path, p.box.any infinite = false → BoxLe p.box (drawPaving P F).view := by
  induction P generalizing F path with
  | leaf b v =>
    have hb : b.length = n := hP
    simp only [drawPaving, drawBox, Paving.leaves, List.mem_cons, List.not_mem_nil, or_false, forall_eq]
    split
    · rename_i h; exact ⟨hF, boxLe_same _, fun h' => by rw [h] at h'; cases h'⟩
    · obtain ⟨k1, k2, k3⟩ := zip_sup hF hb
      exact ⟨k1, k2, fun _ => k3⟩
  | node b v l r ihl ihr =>
    obtain ⟨_, _, _, wl, wr⟩ := hP
    obtain ⟨a1, a2, a3⟩ := ihl wl (path ++ [false]) hF
    obtain ⟨b1, b2, b3⟩ := ihr wr (path ++ [true]) a1
    refine ⟨b1, boxLe_tr a2 b2, fun p hp hi => ?_⟩
    rcases List.mem_append.mp hp with hp | hp
    · exact boxLe_tr (a3 p hp hi) b2
    · exact b3 p hp hi

/-- C136: the view box contains the former one and every shape sent -/
theorem C136_view {n : Nat} {P : Paving K} (hP : P.WF n) {F : Fig K} (hF : F.view.length = n) :
    BoxLe F.view (showPaving P F).view ∧ ∀ s ∈ (showPaving P F).shapes, BoxLe s.2 (showPaving P F).view := by
  obtain ⟨_, h2, h3⟩ := draw_view hP 0 [] (F := { F with shapes := [] }) hF
  refine ⟨h2, fun s hs => ?_⟩
  rw [showPaving, draw_shapes P 0 [], List.nil_append, List.mem_map] at hs
  obtain ⟨p, hp, rfl⟩ := hs
  rw [List.mem_filter, Bool.not_eq_true'] at hp
  exact h3 p hp.1 hp.2

/-- C136: a second `show` of the paving gives the same shapes -/
theorem C136_again (P : Paving K) (F : Fig K) : (showPaving P (showPaving P F)).shapes = (showPaving P F).shapes := by
  simp only [showPaving]
  rw [draw_shapes P 0 [], draw_shapes P 0 []]

/-- C136: the leaves with an infinite bound are not shown: the figure of a paving of the half plane is empty -/
theorem C136_unbounded_fails : ∃ P : Paving ℚ, InBox [1, 1] P.box ∧ (showPaving P ⟨[.empty, .empty], []⟩).shapes = [] :=
  ⟨.leaf [.mk (some 0) none trivial, Itv.icc 0 1] .IN, by
    refine .cons ?_ (.cons ?_ .nil)
    · exact ⟨by show (0 : ℚ) ≤ 1; norm_num, trivial⟩
    · rw [Itv.mem_icc]; norm_num, by decide +kernel⟩

/-- C136: a combination of values (`IN` or `UNKNOWN`) is shown as unknown -/
example : groupOf 5 = .unknown ∧ groupOf .IN = .inside := by decide

/-- a paving with two leaves -/
def twoLeaves : Paving ℚ := .node [Itv.icc 0 2, Itv.icc 0 1] .UNKNOWN (.leaf [Itv.icc 0 1, Itv.icc 0 1] .IN) (.leaf [Itv.icc 1 2, Itv.icc 0 1] .OUT)

example : (showPaving twoLeaves ⟨[.empty, .empty], [(.inside, [])]⟩).shapes = [(.inside, [Itv.icc 0 1, Itv.icc 0 1]), (.outside, [Itv.icc 1 2, Itv.icc 0 1])] ∧
    (showPaving twoLeaves ⟨[.empty, .empty], []⟩).view = [Itv.icc 0 2, Itv.icc 0 1] := by decide +kernel

example : ∀ p ∈ twoLeaves.leaves 0 [], p.value ∈ [1, 2, 4, 8] ∧ ∀ I ∈ p.box, infinite I = false := by decide +kernel

end order

end Codac.Props
