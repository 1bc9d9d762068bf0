import Verif.Traj.History
import Verif.Ctc.DerivModel
import Mathlib.Algebra.Order.Floor.Ring
import Mathlib.Tactic.FieldSimp

/-!
# Colors and color maps

Sources: `src/core/graphics/codac_colors.cpp`, `src/core/graphics/codac_ColorMap.cpp`. The `float`s are replaced by an ordered field (no rounding).
-/

set_option linter.unusedSectionVars false

namespace Codac.Col

variable {K : Type*} [Field K] [LinearOrder K] [IsStrictOrderedRing K]

/-- `rgb`, codac_colors.h:23-29 -/
structure Rgb (K : Type*) where
  r : K
  g : K
  b : K
  alpha : K
deriving DecidableEq

/-- `hsv`, codac_colors.h:35-41 -/
structure Hsv (K : Type*) where
  h : K
  s : K
  v : K
  alpha : K
deriving DecidableEq

/-- the assert of `make_rgb(float…)`, codac_colors.cpp:179 -/
def Rgb.Ok (c : Rgb K) : Prop := (0 ≤ c.r ∧ c.r ≤ 1) ∧ (0 ≤ c.g ∧ c.g ≤ 1) ∧ (0 ≤ c.b ∧ c.b ≤ 1) ∧ 0 ≤ c.alpha ∧ c.alpha ≤ 1
instance (c : Rgb K) : Decidable c.Ok := by unfold Rgb.Ok; infer_instance

/-- the assert of `make_hsv(float…)`, codac_colors.cpp:195 -/
def Hsv.Ok (c : Hsv K) : Prop := (0 ≤ c.h ∧ c.h ≤ 360) ∧ (0 ≤ c.s ∧ c.s ≤ 1) ∧ (0 ≤ c.v ∧ c.v ≤ 1) ∧ 0 ≤ c.alpha ∧ c.alpha ≤ 1
instance (c : Hsv K) : Decidable c.Ok := by unfold Hsv.Ok; infer_instance

/-- `make_rgb(float, float, float, float)`, codac_colors.cpp:177-183; `none`: the assert -/
def makeRgb (r g b alpha : K) : Option (Rgb K) := if (⟨r, g, b, alpha⟩ : Rgb K).Ok then some ⟨r, g, b, alpha⟩ else none

/-- `make_hsv(float, float, float, float)`, codac_colors.cpp:193-199; `none`: the assert -/
def makeHsv (h s v alpha : K) : Option (Hsv K) := if (⟨h, s, v, alpha⟩ : Hsv K).Ok then some ⟨h, s, v, alpha⟩ else none

/-- `make_rgb(int, int, int, int)`, codac_colors.cpp:169-175; `none`: the assert (the arguments cannot be negative here) -/
def makeRgbInt (r g b alpha : Nat) : Option (Rgb K) :=
  if r ≤ 255 ∧ g ≤ 255 ∧ b ≤ 255 ∧ alpha ≤ 255 then some ⟨r / 255, g / 255, b / 255, alpha / 255⟩ else none

/-- `rgb2hsv`, codac_colors.cpp:45-98; `none`: the hue is not a number (lines 71-78) -/
def rgb2hsv (c : Rgb K) : Option (Hsv K) :=
  let mn := if c.r < c.g then c.r else c.g
  let mn := if mn < c.b then mn else c.b
  let mx := if c.g < c.r then c.r else c.g
  let mx := if c.b < mx then mx else c.b
  let delta := mx - mn
  if delta < 1 / 100000 then some ⟨0, 0, mx, c.alpha⟩
  else if 0 < mx then
    let h := if mx ≤ c.r then (c.g - c.b) / delta else if mx ≤ c.g then 2 + (c.b - c.r) / delta else 4 + (c.r - c.g) / delta
    let h := h * 60
    some ⟨if h < 0 then h + 360 else h, delta / mx, mx, c.alpha⟩
  else none

/-- the `switch` of `hsv2rgb`, codac_colors.cpp:126-164, with the conversion of `hh` to an integer (line 120). Simplified: `hh` is not negative -/
def hsvCase (hh v s alpha : K) : Rgb K :=
  let p := v * (1 - s)
  let q := fun i : K => v * (1 - s * (hh - i))
  let t := fun i : K => v * (1 - s * (1 - (hh - i)))
  if hh < 1 then ⟨v, t 0, p, alpha⟩
  else if hh < 2 then ⟨q 1, v, p, alpha⟩
  else if hh < 3 then ⟨p, v, t 2, alpha⟩
  else if hh < 4 then ⟨p, q 3, v, alpha⟩
  else if hh < 5 then ⟨t 4, p, v, alpha⟩
  else ⟨v, p, q 5, alpha⟩

/-- `hsv2rgb`, codac_colors.cpp:100-167. Simplified: the hue is less than 420 (the assert of `make_hsv` is 360), so that the `default` case is the case 5 -/
def hsv2rgb (c : Hsv K) : Rgb K :=
  if c.s ≤ 0 then ⟨c.v, c.v, c.v, c.alpha⟩
  else hsvCase ((if 360 ≤ c.h then 0 else c.h) / 60) c.v c.s c.alpha

/-- two hexadecimal digits (`%.2X`) -/
def hex2 (n : Nat) : List Char := [Nat.digitChar (n / 16), Nat.digitChar (n % 16)].map Char.toUpper

/-- `rgb2hex`, codac_colors.cpp:20-43, without the prefix -/
def rgb2hex [FloorRing K] (c : Rgb K) : List Char :=
  hex2 ⌊c.r * 255⌋.toNat ++ hex2 ⌊c.g * 255⌋.toNat ++ hex2 ⌊c.b * 255⌋.toNat ++ if c.alpha = 1 then [] else hex2 ⌊c.alpha * 255⌋.toNat

/-! ### Color maps -/

/-- `InterpolMode`, codac_ColorMap.h:25 -/
inductive Mode | rgb | hsv
deriving DecidableEq

/-- the `map<float,rgb>` of a `ColorMap`: the keys are increasing -/
abbrev CMap (K : Type*) := List (K × Rgb K)

/-- the keys are increasing -/
def SortedKeys (m : CMap K) : Prop := m.Pairwise fun p q => p.1 < q.1

/-- `add_color_point(rgb, index)`, codac_ColorMap.cpp:33-36 (`operator[]` of `std::map`) -/
def addPoint (m : CMap K) (c : Rgb K) (k : K) : CMap K :=
  match m with
  | [] => [(k, c)]
  | p :: l => if k < p.1 then (k, c) :: p :: l else if k = p.1 then (k, c) :: l else p :: addPoint l c k

/-- `add_color_point(hsv, index)`, codac_ColorMap.cpp:38-41 -/
def addHsvPoint (m : CMap K) (c : Hsv K) (k : K) : CMap K := addPoint m (hsv2rgb c) k

/-- `reverse()`, codac_ColorMap.cpp:43-49 -/
def reverse (m : CMap K) : CMap K := m.foldl (fun r p => addPoint r p.2 (1 - p.1)) []

/-- `set_opacity(alpha)`, codac_ColorMap.cpp:51-56; `none`: the assert -/
def setOpacity (m : CMap K) (alpha : K) : Option (CMap K) :=
  if 0 ≤ alpha ∧ alpha ≤ 1 then some (m.map fun p => (p.1, { p.2 with alpha := alpha })) else none

/-- `is_opaque()`, codac_ColorMap.cpp:58-64 -/
def isOpaque (m : CMap K) : Bool := m.all fun p => decide (p.2.alpha = 1)

/-- `m_colormap.find(x)` -/
def find (x : K) : CMap K → Option (Rgb K)
  | [] => none
  | p :: l => if p.1 = x then some p.2 else find x l

/-- `lower_bound(x)` and the key before it, from the key `p` -/
def bracketFrom (x : K) (p : K × Rgb K) : CMap K → Option ((K × Rgb K) × (K × Rgb K))
  | [] => none
  | q :: l => if x ≤ q.1 then some (p, q) else bracketFrom x q l

/-- `it_ub = lower_bound(x)` and `prev(it_ub)`, codac_ColorMap.cpp:79-82; `none`: one of them does not exist -/
def bracket (x : K) : CMap K → Option ((K × Rgb K) × (K × Rgb K))
  | [] => none
  | p :: l => if x ≤ p.1 then none else bracketFrom x p l

/-- `a + (b - a) * ratio` -/
def mix (a b ratio : K) : K := a + (b - a) * ratio

/-- `fmod(x, 360.)` for `x` not negative -/
def fmod360 [FloorRing K] (x : K) : K := x - 360 * ⌊x / 360⌋

/-- the interpolation of two colors, codac_ColorMap.cpp:84-109; `none`: an assert of `make_rgb` or `make_hsv`, or a hue that is not a number -/
def interpol [FloorRing K] (mode : Mode) (a b : Rgb K) (ratio : K) : Option (Rgb K) :=
  match mode with
  | .rgb => makeRgb (mix a.r b.r ratio) (mix a.g b.g ratio) (mix a.b b.b ratio) (mix a.alpha b.alpha ratio)
  | .hsv => (rgb2hsv a).bind fun u => (rgb2hsv b).bind fun w =>
    let h := if 180 < |u.h - w.h| then u.h + 360 else u.h
    (makeHsv (fmod360 (mix h w.h ratio)) (mix u.s w.s ratio) (mix u.v w.v ratio) (mix u.alpha w.alpha ratio)).map hsv2rgb

/-- `color(r)`, codac_ColorMap.cpp:66-115; `r` is `none` when it is not a number; `none`: an assert, or an iterator out of the map -/
def color [FloorRing K] (mode : Mode) (m : CMap K) (r : Option K) : Option (Rgb K) :=
  if m.length < 2 then none
  else match r with
  | none => makeRgb (1 / 2) (1 / 2) (1 / 2) 1
  | some r =>
    if 0 ≤ r ∧ r ≤ 1 then
      m.head?.bind fun lo => m.getLast?.bind fun hi =>
        let x := lo.1 + r * (hi.1 - lo.1)
        match find x m with
        | some c => some c
        | none => (bracket x m).bind fun pq => interpol mode pq.1.2 pq.2.2 ((x - pq.1.1) / (pq.2.1 - pq.1.1))
    else none

/-- `(f(t) - lb) / diam`, codac_ColorMap.cpp:122-123: with a trajectory of constant value it is 0/0 -/
def trajRatio (f : Traj K) (y : K) : Option K :=
  match f.cod.bounds? with
  | some (l, u) => if u - l = 0 then none else some ((y - l) / (u - l))
  | none => none

/-- `color(t, f)`, codac_ColorMap.cpp:117-124 -/
def colorTraj [FloorRing K] (mode : Mode) (m : CMap K) (t : K) (f : Traj K) : Option (Rgb K) :=
  (f.evalAt t).bind fun y => color mode m (trajRatio f y)

end Codac.Col
