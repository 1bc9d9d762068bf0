import Verif.Ctc.SepProj
import Mathlib.Data.Rat.Floor
import Mathlib.Tactic.Linarith
import Mathlib.Tactic.NormNum

/-!
# C94: the separator of a projection (`SepProj`)
-/

set_option linter.unusedSectionVars false

namespace Codac.Props
open Codac.Bx

/-- the projection of `S` for the parameters in `Y` -/
def InProjection {K : Type*} [LinearOrder K] (S : List K → Prop) (Y : Box K) (v : List K) : Prop := ∃ w, InBox w Y ∧ S (v ++ w)

section

variable {K : Type*} [LinearOrder K] [Nonempty K] [NoMinOrder K] [NoMaxOrder K]
variable {O : Proj.Ops K} {n m : Nat} {S : List K → Prop} {Y x0 : Box K}

theorem proj_start (h0 : x0.length = n) (hY : Y.length = m) (hne : isEmpty Y = false) :
    Proj.LInv O n m S Y x0 [(x0, Y)] x0 (List.replicate x0.length ⊥) := by
  refine ⟨h0, by simpa using h0, fun v h => h, fun v hv => ?_, ?_, fun v hv hnot => absurd hv hnot⟩
  · cases x0 with
    | nil => exact hv
    | cons I X =>
      cases hv with
      | cons h _ => exact absurd h (Itv.not_mem_bot _)
  · intro e he
    obtain rfl := List.mem_singleton.mp he
    exact ⟨h0, hY, hne, fun w h => h, fun v h => h⟩

/-- **C94** (inner box): each point removed from the inner box belongs to the projection of the set. -/
theorem C94_inner (V : Proj.Valid O n m S) (hn : 0 < n) (h0 : x0.length = n) (hY : Y.length = m) (hne : isEmpty Y = false)
    {fuel : Nat} {s : Box K × Box K} (h : Proj.separate O Y fuel x0 = some (some s)) :
    ∀ v, InBox v x0 → ¬ InBox v s.1 → InProjection S Y v :=
  (Proj.loop_spec V hn h0 fuel _ _ _ s (proj_start h0 hY hne) h).1.inner

/-- **C94** (no contradiction): no point is removed from both boxes; both boxes are parts of the first one. -/
theorem C94_cover (V : Proj.Valid O n m S) (hn : 0 < n) (h0 : x0.length = n) (hY : Y.length = m) (hne : isEmpty Y = false)
    (hbis : ∀ x y, y.length = m → O.small x y = false → isEmpty y = false → O.bisect y ≠ none)
    {fuel : Nat} {s : Box K × Box K} (h : Proj.separate O Y fuel x0 = some (some s)) :
    ∀ v, InBox v x0 ↔ InBox v s.1 ∨ InBox v s.2 := by
  obtain ⟨I, c⟩ := Proj.loop_spec V hn h0 fuel _ _ _ s (proj_start h0 hY hne) h
  refine fun v => ⟨fun hv => ?_, fun hv => hv.elim (I.le_in v) (I.le_res v)⟩
  rcases (c hbis).1 v hv (.inl hv) with h | h | ⟨e, he, _⟩
  · exact .inl h
  · exact .inr h
  · simp at he

/-- **C94** (outer box, partial): a point of the projection is kept in the outer box when the inner contractor of the given separator never removes it (with any parameter of
the domain). Missing: the points that the inner contractor removes. The statement for all points of the projection is false, see `C94_outer_fails`. -/
theorem C94_outer_partial (V : Proj.Valid O n m S) (hn : 0 < n) (h0 : x0.length = n) (hY : Y.length = m) (hne : isEmpty Y = false)
    (hbis : ∀ x y, y.length = m → O.small x y = false → isEmpty y = false → O.bisect y ≠ none)
    {fuel : Nat} {s : Box K × Box K} (h : Proj.separate O Y fuel x0 = some (some s)) :
    ∀ v, InBox v x0 → InProjection S Y v → (∀ B w, InBox w Y → InBox (v ++ w) B → InBox (v ++ w) (O.sep B).1) → InBox v s.2 := by
  rintro v hv ⟨w, hw, hS⟩ hk
  obtain ⟨_, c⟩ := Proj.loop_spec V hn h0 fuel _ _ _ s (proj_start h0 hY hne) h
  rcases ((c hbis).2 v w hv hk hS ⟨hv, .inr ⟨(x0, Y), by simp, hv, hw⟩⟩).2 with h | ⟨e, he, _⟩
  · exact h
  · simp at he

/-- **C94** (termination): the loop on the parameters stops, when the bisections decrease a rank on the parts of the domain of the parameters. -/
theorem C94_stops (V : Proj.Valid O n m S) (hY : Y.length = m) (rk : Box K → Nat)
    (hrk : ∀ x y c, y.length = m → (∀ w, InBox w y → InBox w Y) → O.small x y = false → O.bisect y = some c → rk c.1 < rk y ∧ rk c.2 < rk y) :
    Proj.separate O Y (2 ^ (rk Y + 1)) x0 ≠ none := by
  refine Proj.loop_stops (rk := rk) (P := fun y => y.length = m ∧ ∀ w, InBox w y → InBox w Y) ?_ _ _ _ _ ?_ ?_
  · intro x y c hP hs hb
    obtain ⟨l1, l2⟩ := V.bisect_len y c hP.1 hb
    exact ⟨⟨l1, fun w hw => hP.2 w (V.bisect_le y c hP.1 hb w (.inl hw))⟩, ⟨l2, fun w hw => hP.2 w (V.bisect_le y c hP.1 hb w (.inr hw))⟩,
      hrk x y c hP.1 hP.2 hs hb⟩
  · intro e he
    obtain rfl := List.mem_singleton.mp he
    exact ⟨hY, fun w h => h⟩
  · simp

end

/-! ### An example: a union of rectangles -/

/-- a rectangle: the bounds of `x`, then of `y` -/
abbrev Rect := (ℚ × ℚ) × (ℚ × ℚ)

/-- the box of a rectangle -/
def rectBox (R : Rect) : Box ℚ := [.icc R.1.1 R.1.2, .icc R.2.1 R.2.2]

/-- the set: a union of rectangles -/
def InRects (l : List Rect) (v : List ℚ) : Prop := ∃ R ∈ l, InBox v (rectBox R)

/-- inner contraction for one rectangle: when the parameters are inside, the part of `x` at one side that is inside the rectangle is removed -/
def rectCut (R : Rect) : Box ℚ → Box ℚ
  | [.mk (some a) (some b) h, .mk (some c) (some d) h'] =>
    if R.2.1 < c ∧ d < R.2.2 then
      let a' := if R.1.1 < a ∧ a < R.1.2 then R.1.2 else a
      let b' := if a' ≤ b ∧ R.1.1 < b ∧ b < R.1.2 then R.1.1 else b
      [.icc a' b', .mk (some c) (some d) h']
    else [.mk (some a) (some b) h, .mk (some c) (some d) h']
  | B => B

/-- the separator of the union -/
def rectSep (l : List Rect) (B : Box ℚ) : Box ℚ × Box ℚ :=
  (l.foldl (fun X R => rectCut R X) B, l.foldl (fun X R => hull X (inter B (rectBox R))) [⊥, ⊥])

/-- the interval has points below `c` -/
def hasBelow (c : ℚ) : Itv ℚ → Bool
  | .empty => false
  | .mk none _ _ => true
  | .mk (some a) _ _ => decide (a < c)

/-- the interval has points above `c` -/
def hasAbove (c : ℚ) : Itv ℚ → Bool
  | .empty => false
  | .mk _ none _ => true
  | .mk _ (some b) _ => decide (c < b)

/-- difference of two intervals -/
def itvDiff (I : Itv ℚ) : Itv ℚ → List (Itv ℚ)
  | .empty => [I]
  | .mk l h _ =>
    (match l with | none => [] | some c => if hasBelow c I then [I ⊓ .mk none (some c) trivial] else []) ++
    (match h with | none => [] | some c => if hasAbove c I then [I ⊓ .mk (some c) none trivial] else [])

/-- difference of two boxes of dimension 1 -/
def diff1 : Box ℚ → Box ℚ → List (Box ℚ)
  | [I], [J] => (itvDiff I J).map fun D => [D]
  | _, _ => []

/-- a point of an interval, the middle when it is bounded -/
def mid1 : Itv ℚ → Itv ℚ
  | .empty => ⊥
  | .mk (some a) (some b) _ => .point ((a + b) / 2)
  | .mk (some a) none _ => .point a
  | .mk none (some b) _ => .point b
  | .mk none none _ => .point 0

/-- the place of the cut -/
def cutAt : Itv ℚ → ℚ
  | .empty => 0
  | .mk (some a) (some b) _ => a + 45 / 100 * (b - a)
  | .mk (some a) none _ => a + 1
  | .mk none (some b) _ => b - 1
  | .mk none none _ => 0

/-- bisection with the ratio 0.45 -/
def bisect1 : Box ℚ → Option (Box ℚ × Box ℚ)
  | [I] => if I.isDegenerated then none else some ([I ⊓ .mk none (some (cutAt I)) trivial], [I ⊓ .mk (some (cutAt I)) none trivial])
  | _ => none

/-- diameter, `none` for infinity -/
def diam1 : Box ℚ → Option ℚ
  | [.mk (some a) (some b) _] => some (b - a)
  | [.empty] => some 0
  | _ => none

/-- the test of the end of the bisections -/
def small1 (prec : ℚ) (x y : Box ℚ) : Bool :=
  match diam1 x, diam1 y with
  | some d, some e => decide (d = 0) || decide (d < prec) || decide (e < 1 / 10 * d)
  | none, some _ => true
  | some d, none => decide (d = 0) || decide (d < prec)
  | none, none => false

/-- all the parameters -/
def rectOps (l : List Rect) (prec : ℚ) : Proj.Ops ℚ := ⟨rectSep l, diff1, fun Y => Y.map mid1, bisect1, small1 prec⟩

/-- the rectangles of the counterexample -/
def rects : List Rect := [((-1, 3), (22 / 10, 23 / 10)), ((2, 5), (72 / 10, 73 / 10)), ((9, 11), (0, 1)), ((9, 11), (8, 9))]

theorem inBox_one {v : List ℚ} {I : Itv ℚ} : InBox v [I] ↔ ∃ a, v = [a] ∧ a ∈ I := by
  constructor
  · rintro (_ | ⟨h, ⟨⟩⟩)
    exact ⟨_, rfl, h⟩
  · rintro ⟨a, rfl, h⟩
    exact .cons h .nil

theorem inBox_two {v : List ℚ} {I J : Itv ℚ} : InBox v [I, J] ↔ ∃ a b, v = [a, b] ∧ a ∈ I ∧ b ∈ J := by
  constructor
  · rintro (_ | ⟨h, _ | ⟨h', ⟨⟩⟩⟩)
    exact ⟨_, _, rfl, h, h'⟩
  · rintro ⟨a, b, rfl, h, h'⟩
    exact .cons h (.cons h' .nil)

/-- the contraction for one rectangle only removes points inside the rectangle -/
theorem rectCut_spec (R : Rect) (B : Box ℚ) : (rectCut R B).length = B.length ∧ (∀ v, InBox v (rectCut R B) → InBox v B) ∧
    ∀ x w, InBox [x, w] B → ¬ (R.1.1 < x ∧ x < R.1.2 ∧ R.2.1 < w ∧ w < R.2.2) → InBox [x, w] (rectCut R B) := by
  unfold rectCut
  split
  · rename_i a b h c d h'
    by_cases e : R.2.1 < c ∧ d < R.2.2
    · rw [if_pos e]
      refine ⟨rfl, fun v hv => ?_, fun x w hv hnot => ?_⟩
      · obtain ⟨x, w, rfl, hx, hw⟩ := inBox_two.mp hv
        refine inBox_two.mpr ⟨x, w, rfl, ?_, hw⟩
        rw [Itv.mem_icc] at hx
        refine ⟨?_, ?_⟩
        · refine le_trans ?_ hx.1
          split_ifs with h1
          · exact h1.2.le
          · exact le_rfl
        · refine le_trans hx.2 ?_
          split_ifs with h1 h2 h3
          all_goals first | exact le_rfl | (exact h2.2.1.le) | (exact h3.2.1.le)
      · obtain ⟨_, _, hvw, hx, hw⟩ := inBox_two.mp hv
        obtain ⟨rfl, rfl⟩ : x = _ ∧ w = _ := by simpa using hvw
        refine inBox_two.mpr ⟨x, w, rfl, ?_, hw⟩
        have hx1 : a ≤ x := hx.1
        have hx2 : x ≤ b := hx.2
        have hw1 : c ≤ w := hw.1
        have hw2 : w ≤ d := hw.2
        have hout : x ≤ R.1.1 ∨ R.1.2 ≤ x := by
          by_contra hc
          push Not at hc
          exact hnot ⟨hc.1, hc.2, e.1.trans_le hw1, hw2.trans_lt e.2⟩
        rw [Itv.mem_icc]
        refine ⟨?_, ?_⟩
        · split_ifs with h1
          · rcases hout with h | h
            · exact absurd (h1.1.trans_le hx1) (not_lt.mpr h)
            · exact h
          · exact hx1
        · generalize (if R.1.1 < a ∧ a < R.1.2 then R.1.2 else a) = a'
          split_ifs with h1
          · rcases hout with h | h
            · exact h
            · exact absurd (hx2.trans_lt h1.2.2) (not_lt.mpr h)
          · exact hx2
    · rw [if_neg e]
      exact ⟨rfl, fun v h => h, fun x w h _ => h⟩
  · exact ⟨rfl, fun v h => h, fun x w h _ => h⟩

theorem rectCuts_spec (l : List Rect) (B : Box ℚ) : (l.foldl (fun X R => rectCut R X) B).length = B.length ∧
    (∀ v, InBox v (l.foldl (fun X R => rectCut R X) B) → InBox v B) ∧
    ∀ x w, InBox [x, w] B → (∀ R ∈ l, ¬ (R.1.1 < x ∧ x < R.1.2 ∧ R.2.1 < w ∧ w < R.2.2)) → InBox [x, w] (l.foldl (fun X R => rectCut R X) B) := by
  induction l generalizing B with
  | nil => exact ⟨rfl, fun _ h => h, fun _ _ h _ => h⟩
  | cons R l ih =>
    obtain ⟨a1, a2, a3⟩ := rectCut_spec R B
    obtain ⟨b1, b2, b3⟩ := ih (rectCut R B)
    exact ⟨b1.trans a1, fun v h => a2 v (b2 v h), fun x w h hn => b3 x w (a3 x w h (hn R (by simp))) fun R' hR' => hn R' (by simp [hR'])⟩

theorem rectHull_spec (l : List Rect) {B : Box ℚ} (hB : B.length = 2) (X : Box ℚ) (hX : X.length = 2) (hle : ∀ v, InBox v X → InBox v B) :
    (l.foldl (fun X R => hull X (inter B (rectBox R))) X).length = 2 ∧
    (∀ v, InBox v (l.foldl (fun X R => hull X (inter B (rectBox R))) X) → InBox v B) ∧
    (∀ v, InBox v X → InBox v (l.foldl (fun X R => hull X (inter B (rectBox R))) X)) ∧
    ∀ v, InBox v B → (∃ R ∈ l, InBox v (rectBox R)) → InBox v (l.foldl (fun X R => hull X (inter B (rectBox R))) X) := by
  induction l generalizing X with
  | nil => exact ⟨hX, hle, fun _ h => h, by rintro v _ ⟨_, h, _⟩; simp at h⟩
  | cons R l ih =>
    have hi : (inter B (rectBox R)).length = 2 := by rw [inter_length (by rw [hB]; rfl)]; exact hB
    have mi : ∀ v, InBox v (inter B (rectBox R)) ↔ InBox v B ∧ InBox v (rectBox R) := fun v => mem_inter (by rw [hB]; rfl)
    have hl : X.length = (inter B (rectBox R)).length := by rw [hX, hi]
    obtain ⟨b1, b2, b3, b4⟩ := ih (hull X (inter B (rectBox R))) (by rw [hull_length hl]; exact hX)
      (fun v hv => hull_least hle (fun v hv => ((mi v).mp hv).1) hv)
    refine ⟨b1, b2, fun v hv => b3 v (mem_hull hl (.inl hv)), ?_⟩
    rintro v hv ⟨R', hR', hin⟩
    rcases List.mem_cons.mp hR' with rfl | hR'
    · exact b3 v (mem_hull hl (.inr ((mi v).mpr ⟨hv, hin⟩)))
    · exact b4 v hv ⟨R', hR', hin⟩

theorem hasBelow_iff {c : ℚ} {I : Itv ℚ} : hasBelow c I = true ↔ ∃ x ∈ I, x < c := by
  unfold hasBelow
  split
  · simp only [Bool.false_eq_true, false_iff]
    rintro ⟨x, hx, _⟩
    exact Itv.not_mem_bot _ hx
  · rename_i hi h
    simp only [true_iff]
    cases hi with
    | none => exact ⟨c - 1, ⟨trivial, trivial⟩, by linarith⟩
    | some b => exact ⟨min b (c - 1), ⟨trivial, min_le_left _ _⟩, (min_le_right _ _).trans_lt (by linarith)⟩
  · rename_i a hi h
    rw [decide_eq_true_iff]
    constructor
    · intro hac
      refine ⟨a, ⟨le_rfl, ?_⟩, hac⟩
      cases hi with
      | none => trivial
      | some b => exact h
    · rintro ⟨x, hx, hxc⟩
      exact lt_of_le_of_lt hx.1 hxc

theorem hasAbove_iff {c : ℚ} {I : Itv ℚ} : hasAbove c I = true ↔ ∃ x ∈ I, c < x := by
  unfold hasAbove
  split
  · simp only [Bool.false_eq_true, false_iff]
    rintro ⟨x, hx, _⟩
    exact Itv.not_mem_bot _ hx
  · rename_i lo h
    simp only [true_iff]
    cases lo with
    | none => exact ⟨c + 1, ⟨trivial, trivial⟩, by linarith⟩
    | some a => exact ⟨max a (c + 1), ⟨le_max_left _ _, trivial⟩, lt_of_lt_of_le (by linarith) (le_max_right _ _)⟩
  · rename_i lo b h
    rw [decide_eq_true_iff]
    constructor
    · intro hac
      refine ⟨b, ⟨?_, le_rfl⟩, hac⟩
      cases lo with
      | none => trivial
      | some a => exact h
    · rintro ⟨x, hx, hxc⟩
      exact lt_of_lt_of_le hxc hx.2

/-- an interval that contains points below `c` as near as wanted contains `c` -/
theorem closed_below {Z : Itv ℚ} {x c : ℚ} (hxc : x < c) (h : ∀ u, x ≤ u → u < c → u ∈ Z) : c ∈ Z := by
  have hx := h x le_rfl hxc
  cases Z with
  | empty => exact absurd hx (Itv.not_mem_bot _)
  | mk lo hi hh =>
    refine ⟨?_, ?_⟩
    · cases lo with
      | none => trivial
      | some a => exact le_trans hx.1 hxc.le
    · cases hi with
      | none => trivial
      | some b =>
        by_contra hcb
        have hcb : b < c := not_le.mp hcb
        have hxb : x ≤ b := hx.2
        have := (h ((b + c) / 2) (by linarith) (by linarith)).2
        have : (b + c) / 2 ≤ b := this
        linarith

/-- an interval that contains points above `c` as near as wanted contains `c` -/
theorem closed_above {Z : Itv ℚ} {x c : ℚ} (hxc : c < x) (h : ∀ u, u ≤ x → c < u → u ∈ Z) : c ∈ Z := by
  have hx := h x le_rfl hxc
  cases Z with
  | empty => exact absurd hx (Itv.not_mem_bot _)
  | mk lo hi hh =>
    refine ⟨?_, ?_⟩
    · cases lo with
      | none => trivial
      | some a =>
        by_contra hcb
        have hcb : c < a := not_le.mp hcb
        have hxb : a ≤ x := hx.1
        have := (h ((a + c) / 2) (by linarith) (by linarith)).1
        have : a ≤ (a + c) / 2 := this
        linarith
    · cases hi with
      | none => trivial
      | some b => exact le_trans hxc.le hx.2

theorem itvDiff_spec (I J : Itv ℚ) : (∀ x ∈ I, x ∉ J → ∃ D ∈ itvDiff I J, x ∈ D) ∧
    ∀ Z : Itv ℚ, (∀ x ∈ I, x ∉ J → x ∈ Z) → ∀ D ∈ itvDiff I J, ∀ x ∈ D, x ∈ Z := by
  cases J with
  | empty =>
    refine ⟨fun x hx _ => ⟨I, by simp [itvDiff], hx⟩, fun Z hZ D hD x hx => ?_⟩
    obtain rfl : D = I := by simpa [itvDiff] using hD
    exact hZ x hx (Itv.not_mem_bot _)
  | mk l h hh =>
    constructor
    · intro x hx hn
      have : (∃ c, l = some c ∧ x < c) ∨ ∃ c, h = some c ∧ c < x := by
        by_contra hc
        push Not at hc
        refine hn ⟨?_, ?_⟩
        · cases l with
          | none => trivial
          | some a => exact hc.1 a rfl
        · cases h with
          | none => trivial
          | some b => exact hc.2 b rfl
      rcases this with ⟨c, rfl, hc⟩ | ⟨c, rfl, hc⟩
      · refine ⟨I ⊓ .mk none (some c) trivial, ?_, Itv.mem_inf.mpr ⟨hx, ⟨trivial, hc.le⟩⟩⟩
        simp [itvDiff, hasBelow_iff.mpr ⟨x, hx, hc⟩]
      · refine ⟨I ⊓ .mk (some c) none trivial, ?_, Itv.mem_inf.mpr ⟨hx, ⟨hc.le, trivial⟩⟩⟩
        simp [itvDiff, hasAbove_iff.mpr ⟨x, hx, hc⟩]
    · intro Z hZ D hD x hx
      unfold itvDiff at hD
      rcases List.mem_append.mp hD with hD | hD
      · cases l with
        | none => simp at hD
        | some c =>
          by_cases e : hasBelow c I
          · simp only [e, if_true, List.mem_singleton] at hD
            subst hD
            obtain ⟨x1, hx1, hc1⟩ := hasBelow_iff.mp e
            rw [Itv.mem_inf] at hx
            have hxc : x ≤ c := hx.2.2
            have low : ∀ u ∈ I, u < c → u ∈ Z := fun u hu huc => hZ u hu fun hJ => absurd hJ.1 (not_le.mpr huc)
            rcases hxc.lt_or_eq with h1 | rfl
            · exact low x hx.1 h1
            · exact closed_below hc1 fun u h1 h2 => low u (Itv.mem_of_between hx1 hx.1 h1 h2.le) h2
          · simp [e] at hD
      · cases h with
        | none => simp at hD
        | some c =>
          by_cases e : hasAbove c I
          · simp only [e, if_true, List.mem_singleton] at hD
            subst hD
            obtain ⟨x1, hx1, hc1⟩ := hasAbove_iff.mp e
            rw [Itv.mem_inf] at hx
            have hxc : c ≤ x := hx.2.1
            have low : ∀ u ∈ I, c < u → u ∈ Z := fun u hu huc => hZ u hu fun hJ => absurd hJ.2 (not_le.mpr huc)
            rcases hxc.lt_or_eq with h1 | rfl
            · exact low x hx.1 h1
            · exact closed_above hc1 fun u h1 h2 => low u (Itv.mem_of_between hx.1 hx1 h2.le h1) h2
          · simp [e] at hD

theorem mid1_spec {I : Itv ℚ} (h : I.isEmpty = false) : (mid1 I).isEmpty = false ∧ ∀ x ∈ mid1 I, x ∈ I := by
  unfold mid1
  split
  · simp [Itv.isEmpty] at h
  all_goals refine ⟨rfl, fun x hx => ?_⟩
  all_goals rw [Itv.mem_point] at hx
  all_goals subst hx
  · rename_i a b hab
    have hab : a ≤ b := hab
    exact ⟨show a ≤ (a + b) / 2 by linarith, show (a + b) / 2 ≤ b by linarith⟩
  · exact ⟨le_refl _, trivial⟩
  · exact ⟨trivial, le_refl _⟩
  · exact ⟨trivial, trivial⟩

/-- the cut is inside the interval -/
theorem cutAt_mem {I : Itv ℚ} (h : I.isEmpty = false) : cutAt I ∈ I := by
  unfold cutAt
  split
  · simp [Itv.isEmpty] at h
  · rename_i a b hab
    have hab : a ≤ b := hab
    exact ⟨show a ≤ a + 45 / 100 * (b - a) by linarith, show a + 45 / 100 * (b - a) ≤ b by linarith⟩
  · rename_i a _; exact ⟨show a ≤ a + 1 by linarith, trivial⟩
  · rename_i b _; exact ⟨trivial, show b - 1 ≤ b by linarith⟩
  · exact ⟨trivial, trivial⟩

theorem bisect1_some {Y : Box ℚ} {c : Box ℚ × Box ℚ} (h : bisect1 Y = some c) :
    ∃ I, Y = [I] ∧ I.isDegenerated = false ∧ c = ([I ⊓ .mk none (some (cutAt I)) trivial], [I ⊓ .mk (some (cutAt I)) none trivial]) := by
  unfold bisect1 at h
  split at h
  · rename_i I
    by_cases e : I.isDegenerated
    · rw [if_pos e] at h; cases h
    · rw [if_neg e] at h
      exact ⟨I, rfl, by simpa using e, (Option.some.inj h).symm⟩
  · cases h

theorem isEmpty_one {I : Itv ℚ} : isEmpty [I] = I.isEmpty := by simp [isEmpty]

theorem list_one {Y : Box ℚ} (h : Y.length = 1) : ∃ I, Y = [I] := List.length_eq_one_iff.mp h

/-- the parameters of the example meet the specification -/
theorem rect_valid (l : List Rect) (prec : ℚ) : Proj.Valid (rectOps l prec) 1 1 (InRects l) where
  sep_len B hB := ⟨(rectCuts_spec l B).1.trans hB,
    (rectHull_spec l hB [⊥, ⊥] rfl fun v hv => by obtain ⟨a, b, _, ha, _⟩ := inBox_two.mp hv; exact absurd ha (Itv.not_mem_bot _)).1⟩
  sep_le B hB v hv := by
    rcases hv with hv | hv
    · exact (rectCuts_spec l B).2.1 v hv
    · exact (rectHull_spec l hB [⊥, ⊥] rfl fun v hv => by obtain ⟨a, b, _, ha, _⟩ := inBox_two.mp hv; exact absurd ha (Itv.not_mem_bot _)).2.1 v hv
  sep_out B hB v hv hS :=
    (rectHull_spec l hB [⊥, ⊥] rfl fun v hv => by obtain ⟨a, b, _, ha, _⟩ := inBox_two.mp hv; exact absurd ha (Itv.not_mem_bot _)).2.2.2 v hv hS
  sep_in B hB v hv hS := by
    obtain ⟨x, w, rfl⟩ := List.length_eq_two.mp (hv.length.trans hB)
    refine (rectCuts_spec l B).2.2 x w hv fun R hR hin => hS ⟨R, hR, ?_⟩
    exact inBox_two.mpr ⟨x, w, rfl, Itv.mem_icc.mpr ⟨hin.1.le, hin.2.1.le⟩, Itv.mem_icc.mpr ⟨hin.2.2.1.le, hin.2.2.2.le⟩⟩
  diff_len X Y hX hY D hD := by
    obtain ⟨I, rfl⟩ := list_one hX
    obtain ⟨J, rfl⟩ := list_one hY
    obtain ⟨D, _, rfl⟩ := List.mem_map.mp hD
    rfl
  diff_cover X Y hX hY v hv hn := by
    obtain ⟨I, rfl⟩ := list_one hX
    obtain ⟨J, rfl⟩ := list_one hY
    obtain ⟨a, rfl, ha⟩ := inBox_one.mp hv
    obtain ⟨D, hD, hx⟩ := (itvDiff_spec I J).1 a ha fun h => hn (inBox_one.mpr ⟨a, rfl, h⟩)
    exact ⟨[D], List.mem_map.mpr ⟨D, hD, rfl⟩, inBox_one.mpr ⟨a, rfl, hx⟩⟩
  diff_least X Y Z hX hY hZ h D hD v hv := by
    obtain ⟨I, rfl⟩ := list_one hX
    obtain ⟨J, rfl⟩ := list_one hY
    obtain ⟨Z, rfl⟩ := list_one hZ
    obtain ⟨D, hD', rfl⟩ := List.mem_map.mp hD
    obtain ⟨a, rfl, ha⟩ := inBox_one.mp hv
    refine inBox_one.mpr ⟨a, rfl, (itvDiff_spec I J).2 Z (fun x hx hn => ?_) D hD' a ha⟩
    obtain ⟨b, hb, hb'⟩ := inBox_one.mp (h [x] (inBox_one.mpr ⟨x, rfl, hx⟩) fun hJ => by
      obtain ⟨b, hb, hb'⟩ := inBox_one.mp hJ
      obtain rfl : x = b := by simpa using hb
      exact hn hb')
    obtain rfl : x = b := by simpa using hb
    exact hb'
  mid_len Y hY := by simpa [rectOps] using hY
  mid_mem Y hY hne := by
    obtain ⟨I, rfl⟩ := list_one hY
    rw [isEmpty_one] at hne
    obtain ⟨h1, h2⟩ := mid1_spec hne
    refine ⟨h1 ▸ isEmpty_one, fun v hv => ?_⟩
    obtain ⟨a, rfl, ha⟩ := inBox_one.mp hv
    exact inBox_one.mpr ⟨a, rfl, h2 a ha⟩
  bisect_len Y c hY h := by
    obtain ⟨I, rfl, _, rfl⟩ := bisect1_some h
    exact ⟨rfl, rfl⟩
  bisect_ne Y c hY hne h := by
    obtain ⟨I, rfl, _, rfl⟩ := bisect1_some h
    rw [isEmpty_one] at hne
    have hc := cutAt_mem hne
    simp only [isEmpty_one]
    exact ⟨Itv.isEmpty_false_iff.mpr (Itv.ne_bot_of_mem (Itv.mem_inf.mpr ⟨hc, ⟨trivial, le_refl _⟩⟩)),
      Itv.isEmpty_false_iff.mpr (Itv.ne_bot_of_mem (Itv.mem_inf.mpr ⟨hc, ⟨le_refl _, trivial⟩⟩))⟩
  bisect_le Y c hY h v hv := by
    obtain ⟨I, rfl, _, rfl⟩ := bisect1_some h
    rcases hv with hv | hv
    all_goals
      obtain ⟨a, rfl, ha⟩ := inBox_one.mp hv
      exact inBox_one.mpr ⟨a, rfl, (Itv.mem_inf.mp ha).1⟩
  bisect_cover Y c hY h v hv := by
    obtain ⟨I, rfl, _, rfl⟩ := bisect1_some h
    obtain ⟨a, rfl, ha⟩ := inBox_one.mp hv
    rcases le_total a (cutAt I) with h | h
    · exact .inl (inBox_one.mpr ⟨a, rfl, Itv.mem_inf.mpr ⟨ha, ⟨trivial, h⟩⟩⟩)
    · exact .inr (inBox_one.mpr ⟨a, rfl, Itv.mem_inf.mpr ⟨ha, ⟨h, trivial⟩⟩⟩)

/-- in the example, a box of parameters that is not small can be bisected -/
theorem rect_bisects {l : List Rect} {prec : ℚ} (hp : 0 < prec) {x y : Box ℚ} (hy1 : y.length = 1) (hs : small1 prec x y = false) (hy : isEmpty y = false) :
    (rectOps l prec).bisect y ≠ none := by
  obtain ⟨I, rfl⟩ := list_one hy1
  rw [isEmpty_one] at hy
  intro h
  change bisect1 [I] = none at h
  unfold bisect1 at h
  by_cases e : I.isDegenerated
  swap
  · simp [e] at h
  cases I with
  | empty => simp [Itv.isEmpty] at hy
  | mk lo hi hh =>
    cases lo with
    | none => cases hi <;> simp [Itv.isDegenerated] at e
    | some a =>
      cases hi with
      | none => simp [Itv.isDegenerated] at e
      | some b =>
        have hab : a = b := by simpa [Itv.isDegenerated] using e
        subst hab
        unfold small1 at hs
        cases hd : diam1 x with
        | none => rw [hd] at hs; simp [diam1] at hs
        | some d =>
          rw [hd] at hs
          simp only [diam1, sub_self, Bool.or_eq_false_iff, decide_eq_false_iff_not, not_lt] at hs
          have := hs.2
          have := hs.1.2
          linarith

/-- the run of the counterexample: no assertion fails -/
theorem proj_run : Proj.separate (rectOps rects 1) [.icc 0 10] 40 [.icc 0 10] = some (some ([.icc 0 9], [.icc 2 10])) := by decide +kernel

/-- **C94** fails for the outer box: with a correct separator of a union of four rectangles, the point 1 of the projection (with the parameter 2.25) is removed from the outer
box, although it also stays in the inner box. -/
theorem C94_outer_fails : ∃ (O : Proj.Ops ℚ) (S : List ℚ → Prop) (Y x0 : Box ℚ) (s : Box ℚ × Box ℚ) (fuel : Nat) (v : List ℚ),
    Proj.Valid O 1 1 S ∧ Y.length = 1 ∧ isEmpty Y = false ∧ Proj.separate O Y fuel x0 = some (some s) ∧
    InBox v x0 ∧ InProjection S Y v ∧ ¬ InBox v s.2 := by
  refine ⟨_, _, _, _, _, 40, [1], rect_valid rects 1, rfl, ?_, proj_run, ?_, ⟨[9 / 4], ?_, ((-1, 3), (22 / 10, 23 / 10)), by simp [rects], ?_⟩, ?_⟩
  · decide +kernel
  · exact inBox_one.mpr ⟨1, rfl, Itv.mem_icc.mpr ⟨by norm_num, by norm_num⟩⟩
  · exact inBox_one.mpr ⟨9 / 4, rfl, Itv.mem_icc.mpr ⟨by norm_num, by norm_num⟩⟩
  · exact inBox_two.mpr ⟨1, 9 / 4, rfl, Itv.mem_icc.mpr ⟨by norm_num, by norm_num⟩, Itv.mem_icc.mpr ⟨by norm_num, by norm_num⟩⟩
  · intro h
    obtain ⟨a, ha, hm⟩ := inBox_one.mp h
    obtain rfl : 1 = a := by simpa using ha
    have := (Itv.mem_icc.mp hm).1
    norm_num at this

/-- the hypotheses of `C94_inner` on the run of the example: 9.5 is removed from the inner box, hence is in the projection -/
example : InProjection (InRects rects) [.icc 0 10] [19 / 2] := by
  refine C94_inner (rect_valid rects 1) (by decide) rfl rfl (by decide +kernel) proj_run [19 / 2] ?_ ?_
  · exact inBox_one.mpr ⟨19 / 2, rfl, Itv.mem_icc.mpr ⟨by norm_num, by norm_num⟩⟩
  · intro h
    obtain ⟨a, ha, hm⟩ := inBox_one.mp h
    obtain rfl : 19 / 2 = a := by simpa using ha
    have := (Itv.mem_icc.mp hm).2
    norm_num at this

/-- the hypotheses of `C94_cover` -/
example : ∀ v, InBox v [Itv.icc (0 : ℚ) 10] ↔ InBox v [Itv.icc (0 : ℚ) 9] ∨ InBox v [Itv.icc (2 : ℚ) 10] :=
  C94_cover (rect_valid rects 1) (by decide) rfl rfl (by decide +kernel) (fun _ _ hl hs hy => rect_bisects (by norm_num) hl hs hy) proj_run

/-- the hypotheses of `C94_outer_partial`: the point 5, at the border of the second rectangle and outside the other ones -/
example : InBox [(5 : ℚ)] [Itv.icc (2 : ℚ) 10] := by
  refine C94_outer_partial (rect_valid rects 1) (by decide) rfl rfl (by decide +kernel) (fun _ _ hl hs hy => rect_bisects (by norm_num) hl hs hy) proj_run [5]
    (inBox_one.mpr ⟨5, rfl, Itv.mem_icc.mpr ⟨by norm_num, by norm_num⟩⟩) ⟨[29 / 4], ?_, ((2, 5), (72 / 10, 73 / 10)), by simp [rects], ?_⟩ ?_
  · exact inBox_one.mpr ⟨29 / 4, rfl, Itv.mem_icc.mpr ⟨by norm_num, by norm_num⟩⟩
  · exact inBox_two.mpr ⟨5, 29 / 4, rfl, Itv.mem_icc.mpr ⟨by norm_num, by norm_num⟩, Itv.mem_icc.mpr ⟨by norm_num, by norm_num⟩⟩
  · intro B w hw hB
    obtain ⟨b, rfl, hb⟩ := inBox_one.mp hw
    refine (rectCuts_spec rects B).2.2 5 b hB fun R hR => ?_
    simp only [rects, List.mem_cons, List.not_mem_nil, or_false] at hR
    rcases hR with rfl | rfl | rfl | rfl <;> norm_num

/-- the rank of a box of parameters, for the precision 1: the diameter in units of 0.045 -/
def rank1 (y : Box ℚ) : Nat := match diam1 y with | some e => ⌈e * (200 / 9)⌉₊ | none => 0

theorem rank1_decreases {e e' : ℚ} (h : 1 / 10 ≤ e) (h' : e' ≤ 55 / 100 * e) : ⌈e' * (200 / 9)⌉₊ < ⌈e * (200 / 9)⌉₊ := by
  have h2 : e' * (200 / 9) ≤ e * (200 / 9) - 1 := by linarith
  have h3 := Nat.le_ceil (e * (200 / 9))
  have h4 : 0 < ⌈e * (200 / 9)⌉₊ := Nat.ceil_pos.mpr (by linarith)
  have h5 : ⌈e' * (200 / 9)⌉₊ ≤ ⌈e * (200 / 9)⌉₊ - 1 := by
    rw [Nat.ceil_le, Nat.cast_sub h4]
    push_cast
    linarith
  omega

/-- the hypotheses of `C94_stops` -/
example (x0 : Box ℚ) : Proj.separate (rectOps rects 1) [.icc 0 10] (2 ^ (rank1 [.icc 0 10] + 1)) x0 ≠ none := by
  refine C94_stops (rect_valid rects 1) rfl rank1 fun x y c hl hle hs hb => ?_
  obtain ⟨I, rfl, hdeg, rfl⟩ := bisect1_some hb
  have hsub : ∀ u ∈ I, (0 : ℚ) ≤ u ∧ u ≤ 10 := fun u hu => by
    obtain ⟨a, ha, hm⟩ := inBox_one.mp (hle [u] (inBox_one.mpr ⟨u, rfl, hu⟩))
    obtain rfl : u = a := by simpa using ha
    exact Itv.mem_icc.mp hm
  cases I with
  | empty => simp [Itv.isDegenerated] at hdeg
  | mk lo hi hh =>
    cases lo with
    | none =>
      exfalso
      cases hi with
      | none => have := (hsub (-1) ⟨trivial, trivial⟩).1; linarith
      | some b => have := (hsub (min b (-1)) ⟨trivial, min_le_left _ _⟩).1; have := min_le_right b (-1 : ℚ); linarith
    | some a =>
      cases hi with
      | none => exfalso; have := (hsub (max a 11) ⟨le_max_left _ _, trivial⟩).2; have := le_max_right a (11 : ℚ); linarith
      | some b =>
        have hab : a ≤ b := hh
        change small1 1 x [.mk (some a) (some b) hh] = false at hs
        have he : 1 / 10 ≤ b - a := by
          unfold small1 at hs
          cases hd : diam1 x with
          | none => rw [hd] at hs; simp [diam1] at hs
          | some d =>
            rw [hd] at hs
            simp only [diam1, Bool.or_eq_false_iff, decide_eq_false_iff_not, not_lt] at hs
            have := hs.2
            have := hs.1.2
            linarith
        have hc : a ≤ a + 45 / 100 * (b - a) ∧ a + 45 / 100 * (b - a) ≤ b := ⟨by linarith, by linarith⟩
        have e1 : (Itv.mk (some a) (some b) hh : Itv ℚ) ⊓ .mk none (some (cutAt (.mk (some a) (some b) hh))) trivial = .mk (some a) (some (a + 45 / 100 * (b - a))) hc.1 := by
          refine Itv.ext_mem fun u => ?_
          rw [Itv.mem_inf]
          exact ⟨fun h => ⟨h.1.1, h.2.2⟩, fun h => ⟨⟨h.1, le_trans (show u ≤ _ from h.2) hc.2⟩, trivial, h.2⟩⟩
        have e2 : (Itv.mk (some a) (some b) hh : Itv ℚ) ⊓ .mk (some (cutAt (.mk (some a) (some b) hh))) none trivial = .mk (some (a + 45 / 100 * (b - a))) (some b) hc.2 := by
          refine Itv.ext_mem fun u => ?_
          rw [Itv.mem_inf]
          exact ⟨fun h => ⟨h.2.1, h.1.2⟩, fun h => ⟨⟨le_trans hc.1 (show _ ≤ u from h.1), h.2⟩, h.1, trivial⟩⟩
        rw [e1, e2]
        exact ⟨rank1_decreases he (by linarith), rank1_decreases he (by linarith)⟩

end Codac.Props
