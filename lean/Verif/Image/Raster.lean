import Verif.Arith
import Mathlib.Algebra.Order.Floor.Ring
import Mathlib.Data.Rat.Floor

/-!
# The contractor of a georeferenced image (`CtcRaster`)

Models `/repo/python/src/unsupported/image/codac_GeoMapper.h`, `codac_GeoImage.h` and `codac_CtcRaster.h` (the classes `GeoMapper`, `GeoImage` and `CtcRaster` of
the Python module), and the copy `/repo/src/unsupported/thickset/codac_GeoMapper.h`.

The image is given by its summed area table; a pixel is a cell of the plane, of sides `dx` and `dy` (which can be negative). Simplifications: the table is a function
of the two indices (the strides of the array are not represented); `int` has 32 bits and `unsigned long` has 64 bits; conversions keep the low bits. The
arithmetic of IBEX is a parameter with the inclusion property; the division of an interval by a number too.
-/

set_option linter.unusedSectionVars false

namespace Codac.Raster
variable {K : Type*} [Field K] [LinearOrder K] [IsStrictOrderedRing K] [FloorRing K]

/-- arithmetic of IBEX used here: `IArith` and the division of an interval by a number -/
structure Ops (K : Type*) [Field K] [LinearOrder K] where
  A : IArith K
  div : Itv K → K → Itv K
  div_mem : ∀ {X : Itv K} {x r : K}, x ∈ X → r ≠ 0 → x / r ∈ div X r

/-- one axis of a `GeoMapper`: `origin_[i]`, `leaf_size_[i]`, `shape_[i]`, codac_GeoMapper.h:25-43 -/
structure Axis (K : Type*) where
  o : K
  leaf : K
  n : Nat

/-- `Interval(0) | Interval(leaf_size_[i])`, codac_GeoMapper.h:65, 101 -/
def eps (a : Axis K) : Itv K := Itv.hull (.point 0) (.point a.leaf)

/-- one axis of `GeoMapper::grid_to_world`, codac_GeoMapper.h:98-110 -/
def toWorld (O : Ops K) (a : Axis K) (c : Nat × Nat) : Itv K :=
  O.A.add (O.A.add (O.A.mul (.icc (c.1 : K) (c.2 : K)) (.point a.leaf)) (.point a.o)) (eps a)

/-- the pixels of the clipped interval: `ceil` of the lower bound, `floor` of the upper bound, swapped when they are not in order; the assertion fails when the
interval is empty, codac_GeoMapper.h:70-91 -/
def pixels : Itv K → Option (Nat × Nat)
  | .mk (some a) (some b) _ =>
    let lo := ⌈a⌉.toNat
    let hi := ⌊b⌋.toNat
    if lo > hi then some (hi, lo) else some (lo, hi)
  | _ => none

/-- one axis of `GeoMapper::world_to_grid` (without its first test), codac_GeoMapper.h:63-95 -/
def toGrid (O : Ops K) (a : Axis K) (X : Itv K) : Option (Nat × Nat) :=
  pixels (O.A.sub (O.div (O.A.sub X (.point a.o)) a.leaf) (.icc 0 1) ⊓ .icc 0 ((a.n : K) - 1))

/-- the same in the copy of the class in `src/unsupported`, codac_GeoMapper.h:59-87 there: the division is made after the difference with `eps` -/
def toGridC (O : Ops K) (a : Axis K) (X : Itv K) : Option (Nat × Nat) :=
  pixels (O.div (O.A.sub (O.A.sub X (.point a.o)) (eps a)) a.leaf ⊓ .icc 0 ((a.n : K) - 1))

/-- `GeoMapper::bbox` on one axis, codac_GeoMapper.h:30 -/
def mapperBox (O : Ops K) (a : Axis K) : Itv K := toWorld O a (0, a.n)

/-- a box of the plane -/
structure B2 (K : Type*) [LinearOrder K] where
  p : Itv K
  q : Itv K
  deriving DecidableEq

/-- `IntervalVector::is_empty` -/
def B2.isEmpty (X : B2 K) : Bool := X.p.isEmpty || X.q.isEmpty

/-- `IntervalVector::operator&=`: all the components are empty when one is -/
def B2.inter (X Y : B2 K) : B2 K :=
  if (X.p ⊓ Y.p).isEmpty || (X.q ⊓ Y.q).isEmpty then ⟨.empty, .empty⟩ else ⟨X.p ⊓ Y.p, X.q ⊓ Y.q⟩

/-- `IntervalVector::is_subset` -/
def B2.subset (X Y : B2 K) : Bool := X.isEmpty || (decide (X.p ≤ Y.p) && decide (X.q ≤ Y.q))

/-- a `GeoImage`: the two axes and the table, codac_GeoImage.h:32-43 -/
structure Img (K : Type*) where
  ax : Axis K
  ay : Axis K
  table : Nat → Nat → Nat

/-- `PixelCoords`: first and last index on each axis, codac_GeoMapper.h:19 -/
structure Rect where
  x0 : Nat
  x1 : Nat
  y0 : Nat
  y1 : Nat
  deriving DecidableEq

/-- `GeoImage::pixelAt`: zero for a negative index, codac_GeoImage.h:69-85; the index `i - 1` is negative when `i` is zero -/
def pixelAt (t : Nat → Nat → Nat) : Option Nat → Option Nat → Nat
  | some x, some y => t x y
  | _, _ => 0

/-- the index `i - 1`, `none` when it is negative -/
def pred' : Nat → Option Nat
  | 0 => none
  | i + 1 => some i

/-- `GeoImage::enclosed_pixels`, in `unsigned long`, codac_GeoImage.h:87-94 -/
def enclosed (t : Nat → Nat → Nat) (r : Rect) : Int :=
  ((pixelAt t (some r.x1) (some r.y1) : Int) - pixelAt t (some r.x1) (pred' r.y0) - pixelAt t (pred' r.x0) (some r.y1)
    + pixelAt t (pred' r.x0) (pred' r.y0)) % 2 ^ 64

/-- conversion to `int` -/
def toInt (z : Int) : Int := (z + 2 ^ 31) % 2 ^ 32 - 2 ^ 31

/-- `CtcRaster::enclosed_pixels`, an `int`, codac_CtcRaster.h:53-55 -/
def count (t : Nat → Nat → Nat) (r : Rect) : Int := toInt (enclosed t r)

/-- `for(int i = lo; i <= hi; i++) { tmp = i; if (p i) break; }`: the last value of `tmp`; the first argument after `p` is the number of steps left -/
def scanUp (p : Nat → Bool) : Nat → Nat → Nat
  | 0, i => i
  | n + 1, i => if p i then i else scanUp p n (i + 1)

/-- `for(int i = hi; i >= lo; i--) { tmp = i; if (p i) break; }`: the last value of `tmp` -/
def scanDown (p : Nat → Bool) : Nat → Nat → Nat
  | 0, i => i
  | n + 1, i => if p i then i else scanDown p n (i - 1)

/-- `CtcRaster::contractDim`, the two iterations of its loop, codac_CtcRaster.h:58-76 -/
def contractDim (t : Nat → Nat → Nat) (r : Rect) : Rect :=
  let a := scanUp (fun i => 0 < count t { r with x1 := i }) (r.x1 - r.x0) r.x0
  let r1 : Rect := { r with x0 := a }
  let b := scanDown (fun i => 0 < count t { r1 with x0 := i }) (r1.x1 - r1.x0) r1.x1
  let r2 : Rect := { r1 with x1 := b }
  let c := scanUp (fun i => 0 < count t { r2 with y1 := i }) (r2.y1 - r2.y0) r2.y0
  let r3 : Rect := { r2 with y0 := c }
  let d := scanDown (fun i => 0 < count t { r3 with y0 := i }) (r3.y1 - r3.y0) r3.y1
  { r3 with y1 := d }

/-- `GeoImage::getBoundingBox`, codac_GeoImage.h:134-138 -/
def imageBox (O : Ops K) (m : Img K) : B2 K := ⟨toWorld O m.ax (0, m.ax.n - 1), toWorld O m.ay (0, m.ay.n - 1)⟩

/-- `GeoMapper::world_to_grid`: `none` when an exception is thrown or an assertion fails, codac_GeoMapper.h:51-96 -/
def worldToGrid (O : Ops K) (m : Img K) (X : B2 K) : Option Rect :=
  if ¬ X.subset ⟨mapperBox O m.ax, mapperBox O m.ay⟩ then none
  else
    match toGrid O m.ax X.p, toGrid O m.ay X.q with
    | some a, some b => some ⟨a.1, a.2, b.1, b.2⟩
    | _, _ => none

/-- `GeoMapper::grid_to_world`, codac_GeoMapper.h:98-110 -/
def gridToWorld (O : Ops K) (m : Img K) (r : Rect) : B2 K := ⟨toWorld O m.ax (r.x0, r.x1), toWorld O m.ay (r.y0, r.y1)⟩

/-- `CtcRaster::contract`, codac_CtcRaster.h:79-115: `none` when an exception is thrown or an assertion fails -/
def contract (O : Ops K) (m : Img K) (inner : Bool) (X : B2 K) : Option (B2 K) :=
  if X.isEmpty then some X
  else if inner ∧ ¬ X.subset (imageBox O m) then some X
  else
    let Y := X.inter (imageBox O m)
    if Y.isEmpty then some Y
    else
      match worldToGrid O m Y with
      | none => none
      | some r =>
        if count m.table r = 0 then some ⟨.empty, .empty⟩
        else some (Y.inter (gridToWorld O m (contractDim m.table r)))

end Codac.Raster
