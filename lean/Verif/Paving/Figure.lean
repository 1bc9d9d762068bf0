import Verif.Paving.Compute
import Mathlib.Tactic.Linarith
import Mathlib.Tactic.Ring

/-!
# Figures: truncation of infinite bounds, view box, drawing of boxes and pavings

Sources: `src/core/graphics/codac_Figure.cpp`, `codac_VIBesFig.cpp`, `codac_VIBesFigPaving.cpp`. The VIBes server is not modelled: a figure is the list of the
shapes sent to it. Colours and other parameters are left out, the group apart.
-/

set_option linter.unusedSectionVars false

namespace Codac.Figure

section trunc
variable {K : Type*} [LinearOrder K] [Neg K]

/-- `Figure::trunc_inf(const Interval&)`, codac_Figure.cpp:70-78; `B` is `BOUNDED_INFINITY` (99999, codac_Figure.cpp:15). The interval built by IBEX from
bounds in the wrong order is empty; the empty interval is assumed to be kept. -/
def truncInf (B : K) : Itv K → Itv K
  | .empty => .empty
  | .mk l u _ => .icc (l.getD (-B)) (u.getD B)

end trunc

section limits
variable {K : Type*} [Field K] [LinearOrder K] [IsStrictOrderedRing K]

/-- a bounded box of dimension 2 -/
structure View (K : Type*) where
  x0 : K
  x1 : K
  y0 : K
  y1 : K
deriving DecidableEq

/-- the view box set by `VIBesFig::axis_limits(viewbox, same_ratio, margin)`, codac_VIBesFig.cpp:67-88; `old` the previous one (`none`: empty), `r` the
ratio width / height. Exact arithmetic (the code computes `r` in `float`). -/
def axisLimits (old : Option (View K)) (r : K) (same : Bool) (b : View K) : View K :=
  if same && old.isSome then
    let mx := (b.x0 + b.x1) / 2
    let my := (b.y0 + b.y1) / 2
    let rx := (b.x1 - b.x0) / 2
    let ry := (b.y1 - b.y0) / 2
    ⟨min b.x0 (mx - ry * r), max b.x1 (mx + ry * r), min (my - rx / r) b.y0, max (my + rx / r) b.y1⟩
  else b

/-- the box sent as limits of the axes, codac_VIBesFig.cpp:90-98 -/
def withMargin (m : K) (b : View K) : View K :=
  ⟨b.x0 - m * (b.x1 - b.x0), b.x1 + m * (b.x1 - b.x0), b.y0 - m * (b.y1 - b.y0), b.y1 + m * (b.y1 - b.y0)⟩

end limits

section draw
variable {K : Type*} [LinearOrder K]

/-- a bound of the component is infinite -/
def infinite : Itv K → Bool
  | .mk (some _) (some _) _ => false
  | .empty => false
  | _ => true

/-- the groups of a figure of a paving -/
inductive Group | inside | outside | penumbra | unknown
deriving DecidableEq

/-- a figure: the view box and the shapes sent, in order (a degenerated box is sent as a point, codac_VIBesFig.cpp:314-327: the same set) -/
structure Fig (K : Type*) [LinearOrder K] where
  view : Box K
  shapes : List (Group × Box K)

/-- `VIBesFig::draw_box`, codac_VIBesFig.cpp:116-139: nothing for an unbounded box; the box is not empty -/
def drawBox (g : Group) (b : Box K) (F : Fig K) : Fig K :=
  if b.any infinite then F else ⟨List.zipWith (· ⊔ ·) F.view b, F.shapes ++ [(g, b)]⟩

/-- `SetValue::PENUMBRA`, codac_Set.h:33 -/
def penumbra : SetValue := 8

/-- the switch of `VIBesFigPaving::draw_paving`, codac_VIBesFigPaving.cpp:71-89 -/
def groupOf (v : SetValue) : Group :=
  if v = .IN then .inside else if v = .OUT then .outside else if v = penumbra then .penumbra else .unknown

/-- `VIBesFigPaving::draw_paving`, codac_VIBesFigPaving.cpp:64-100 -/
def drawPaving : Paving K → Fig K → Fig K
  | .leaf b v, F => drawBox (groupOf v) b F
  | .node _ _ l r, F => drawPaving r (drawPaving l F)

/-- `VIBesFigPaving::show`, codac_VIBesFigPaving.cpp:54-62: the four groups are cleared first -/
def showPaving (P : Paving K) (F : Fig K) : Fig K := drawPaving P { F with shapes := [] }

end draw

end Codac.Figure
