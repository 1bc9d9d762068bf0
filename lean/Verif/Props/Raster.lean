import Verif.Image.RasterExact

/-!
# C131 — the contractor of a georeferenced image

The set is the union of the cells of the pixels of value 1 of an image of `w` columns and `h` rows. The contractor must not lose a point of the set; with exact
arithmetic it gives the smallest box around the points of the set which are in the box, and it always ends without an exception.

Specification (in `Verif.Image.RasterProofs` and `RasterExact`): `InCell` (a point of an axis is in the cell `k`: `x = o + (k + s) * leaf` with `s` in `[0,1]`),
`InPixel` (cell in both axes, indices in the image), `InSet` (a pixel of value 1), `Summed` (the table given to the constructor is the summed area table of
the image), `In2` (point of a box), `ones` (number of pixels of value 1 in a rectangle).
-/

set_option linter.unusedSectionVars false

namespace Codac.Props
open Codac.Raster

variable {K : Type*} [Field K] [LinearOrder K] [IsStrictOrderedRing K] [FloorRing K]

/-- C131: the number of pixels given for a rectangle is the number of its pixels of value 1, when the image has less than `2^31` pixels (missing: larger images,
see `C131_overflow_fails`) -/
theorem C131_count_partial {t : Nat → Nat → Nat} {px : Nat → Nat → Bool} {w h : Nat} (ht : Summed t px w h) (hwh : w * h < 2 ^ 31) {r : Rect}
    (hr : Fits r w h) : count t r = ∑ i ∈ Finset.Ico r.x0 (r.x1 + 1), ∑ j ∈ Finset.Ico r.y0 (r.y1 + 1), if px i j then 1 else 0 :=
  count_eq ht hwh hr

/-- C131: whatever the (outward) rounding and the sign of the resolutions, the contractor ends and keeps all the points of the set which are in the box (missing:
larger images) -/
theorem C131_keeps_partial (O : Ops K) {m : Img K} {px : Nat → Nat → Bool} (hx : m.ax.leaf ≠ 0) (hy : m.ay.leaf ≠ 0) (ht : Summed m.table px m.ax.n m.ay.n)
    (hwh : m.ax.n * m.ay.n < 2 ^ 31) (inner : Bool) {X : B2 K} {x y : K} (hin : In2 X x y) (hs : InSet m px x y) :
    ∃ Z, contract O m inner X = some Z ∧ In2 Z x y := by
  obtain ⟨i, j, h1, hp⟩ := hs
  exact contract_keeps hx hy ht hwh hin hp h1

/-- C131: the box is only made smaller -/
theorem C131_smaller (O : Ops K) {m : Img K} {inner : Bool} {X Z : B2 K} (h : contract O m inner X = some Z) {x y : K} (hz : In2 Z x y) : In2 X x y :=
  contract_le h hz

/-- C131: with `inner`, a box which is not inside the image is left as it is -/
theorem C131_inner (O : Ops K) {m : Img K} {X : B2 K} (h : X.subset (imageBox O m) = false) : contract O m true X = some X := by
  unfold contract
  split
  · rfl
  · rw [if_pos ⟨rfl, by simp [h]⟩]

/-- C131: with exact arithmetic the contractor never fails -/
theorem C131_ends_partial {m : Img K} {px : Nat → Nat → Bool} (hx : m.ax.leaf ≠ 0) (hy : m.ay.leaf ≠ 0) (nx : 0 < m.ax.n) (ny : 0 < m.ay.n)
    (ht : Summed m.table px m.ax.n m.ay.n) (hwh : m.ax.n * m.ay.n < 2 ^ 31) (inner : Bool) (X : B2 K) :
    ∃ Z, contract (exactOps K) m inner X = some Z := by
  obtain ⟨Z, h, _⟩ := contract_exact (inner := inner) (X := X) hx hy nx ny ht hwh
  exact ⟨Z, h⟩

/-- C131: with exact arithmetic the result is the smallest box around the points of the set which are in the box: it is included in any other box which
has them all -/
theorem C131_hull_partial {m : Img K} {px : Nat → Nat → Bool} (hx : m.ax.leaf ≠ 0) (hy : m.ay.leaf ≠ 0) (nx : 0 < m.ax.n) (ny : 0 < m.ay.n)
    (ht : Summed m.table px m.ax.n m.ay.n) (hwh : m.ax.n * m.ay.n < 2 ^ 31) {inner : Bool} {X Z : B2 K}
    (hi : inner = true → X.subset (imageBox (exactOps K) m) = true) (h : contract (exactOps K) m inner X = some Z)
    {W : B2 K} (hW : ∀ x y, In2 X x y → InSet m px x y → In2 W x y) : ∀ x y, In2 Z x y → In2 W x y := by
  obtain ⟨Z', h', hz⟩ := contract_exact (inner := inner) (X := X) hx hy nx ny ht hwh
  rw [h] at h'
  simp only [Option.some.injEq] at h'
  subst h'
  rcases hz with ⟨a, b, _⟩ | hz
  · rw [hi a] at b; cases b
  · intro x y hxy
    obtain ⟨⟨x1, y1, x2, y2, p1, p2, o1, o2⟩, x3, y3, x4, y4, p3, p4, o3, o4⟩ := hz x y hxy
    exact ⟨Itv.mem_of_between (hW _ _ p1.1 p1.2).1 (hW _ _ p2.1 p2.2).1 o1 o2, Itv.mem_of_between (hW _ _ p3.1 p3.2).2 (hW _ _ p4.1 p4.2).2 o3 o4⟩

/-- C131: with exact arithmetic a box without a point of the set is emptied -/
theorem C131_empty_partial {m : Img K} {px : Nat → Nat → Bool} (hx : m.ax.leaf ≠ 0) (hy : m.ay.leaf ≠ 0) (nx : 0 < m.ax.n) (ny : 0 < m.ay.n)
    (ht : Summed m.table px m.ax.n m.ay.n) (hwh : m.ax.n * m.ay.n < 2 ^ 31) {inner : Bool} {X Z : B2 K}
    (hi : inner = true → X.subset (imageBox (exactOps K) m) = true) (h : contract (exactOps K) m inner X = some Z)
    (hno : ∀ x y, In2 X x y → ¬ InSet m px x y) : ∀ x y, ¬ In2 Z x y := by
  intro x y hxy
  exact absurd (C131_hull_partial hx hy nx ny ht hwh hi h (W := ⟨.empty, .empty⟩) (fun a b h1 h2 => absurd h2 (hno a b h1)) x y hxy).1 (Itv.not_mem_empty _)

/-- C131: with exact arithmetic a second contraction changes nothing -/
theorem C131_again_partial {m : Img K} {px : Nat → Nat → Bool} (hx : m.ax.leaf ≠ 0) (hy : m.ay.leaf ≠ 0) (nx : 0 < m.ax.n) (ny : 0 < m.ay.n)
    (ht : Summed m.table px m.ax.n m.ay.n) (hwh : m.ax.n * m.ay.n < 2 ^ 31) {X Z Z' : B2 K}
    (h : contract (exactOps K) m false X = some Z) (h' : contract (exactOps K) m false Z = some Z') : ∀ x y, In2 Z' x y ↔ In2 Z x y := by
  intro x y
  refine ⟨C131_smaller _ h', ?_⟩
  refine C131_hull_partial hx hy nx ny ht hwh (by simp) h ?_ x y
  intro a b ha hs
  obtain ⟨Z1, e1, i1⟩ := C131_keeps_partial (exactOps K) hx hy ht hwh false ha hs
  rw [h] at e1; simp only [Option.some.injEq] at e1; subst e1
  obtain ⟨Z2, e2, i2⟩ := C131_keeps_partial (exactOps K) hx hy ht hwh false i1 hs
  rw [h'] at e2; simp only [Option.some.injEq] at e2; subst e2
  exact i2

/-- C131: the conversions of the copy of the class in `src/unsupported` and of the one of the Python module both give a range with all the cells of the image
which meet the interval -/
theorem C131_cells (O : Ops K) {a : Axis K} (hl : a.leaf ≠ 0) {X : Itv K} {k : Nat} {x : K} (hk : k < a.n) (hx : x ∈ X) (hc : InCell a k x) :
    (∃ c, toGrid O a X = some c ∧ (c.1 ≤ k ∧ k ≤ c.2) ∧ c.2 < a.n) ∧ ∃ c, toGridC O a X = some c ∧ (c.1 ≤ k ∧ k ≤ c.2) ∧ c.2 < a.n := by
  have m1 := cell_mem O hl hx hc
  have m2 := cell_memC O hl hx hc
  obtain ⟨c, h⟩ := pixels_total m1 hk
  obtain ⟨d, h'⟩ := pixels_total m2 hk
  exact ⟨⟨c, h, ((pixels_some h).2 k m1 hk).1, (pixels_some h).1.2⟩, d, h', ((pixels_some h').2 k m2 hk).1, (pixels_some h').1.2⟩

/-- C131: the box of a range of cells contains these cells -/
theorem C131_world (O : Ops K) {a : Axis K} {c : Nat × Nat} {k : Nat} {x : K} (h1 : c.1 ≤ k) (h2 : k ≤ c.2) (hc : InCell a k x) : x ∈ toWorld O a c :=
  toWorld_mem O h1 h2 hc

/-! ## what does not hold -/

/-- an image of `65536 × 65536` pixels of value 1, of side 1 -/
def bigImage : Img ℚ := ⟨⟨0, 1, 65536⟩, ⟨0, 1, 65536⟩, fun x y => (x + 1) * (y + 1)⟩

theorem bigImage_summed : Summed bigImage.table (fun _ _ => true) 65536 65536 := by
  intro x y _ _
  simp [bigImage, corner, bit]

/-- C131: the number of pixels is kept in 32 bits: with an image of `65536 × 65536` pixels of value 1 the whole image is emptied -/
theorem C131_overflow_fails :
    contract (exactOps ℚ) bigImage false ⟨.icc 0 65536, .icc 0 65536⟩ = some ⟨.empty, .empty⟩ ∧
    In2 (⟨.icc 0 65536, .icc 0 65536⟩ : B2 ℚ) (1 / 2) (1 / 2) ∧ InSet bigImage (fun _ _ => true) (1 / 2) (1 / 2) := by
  refine ⟨by decide +kernel, ⟨by norm_num [Itv.mem_icc], by norm_num [Itv.mem_icc]⟩, 0, 0, rfl, ?_⟩
  exact ⟨by decide, by decide, ⟨1 / 2, by norm_num [bigImage]⟩, ⟨1 / 2, by norm_num [bigImage]⟩⟩

/-- C131: `GeoMapper` accepts boxes one cell outside the image (its test is made with one cell too many); for these boxes the assertion fails -/
theorem C131_mapper_fails :
    let m : Img ℚ := ⟨⟨0, 1, 1⟩, ⟨0, 1, 1⟩, fun _ _ => 1⟩
    let X : B2 ℚ := ⟨.icc (3 / 2) 2, .icc 0 1⟩
    X.subset ⟨mapperBox (exactOps ℚ) m.ax, mapperBox (exactOps ℚ) m.ay⟩ = true ∧ worldToGrid (exactOps ℚ) m X = none := by
  decide +kernel

/-- an arithmetic whose sums are rounded: the upper bound can be one more than the exact one -/
def roundedOps : Ops ℚ where
  A := { IArith.exact ℚ with
    add := fun X Y => Itv.add (Itv.add X Y) (.icc 0 1)
    add_mem := fun {X Y x y} hx hy => by
      have := Itv.mem_add (Itv.mem_add hx hy) (Itv.mem_icc.mpr ⟨le_refl 0, zero_le_one⟩ : (0 : ℚ) ∈ Itv.icc 0 1)
      rwa [add_zero] at this
    add_mono := fun h1 h2 => Itv.add_mono (Itv.add_mono h1 h2) (le_refl _) }
  div := divR
  div_mem := (exactOps ℚ).div_mem

/-- C131: with rounded arithmetic the box of the image can be larger than the image, and the assertion fails for a box which is in this difference (with `double`
numbers: an origin of `1e16`, a side of 1 and a box reduced to `1e16 + 2`) -/
theorem C131_rounding_fails :
    let m : Img ℚ := ⟨⟨0, 1, 1⟩, ⟨0, 1, 1⟩, fun _ _ => 1⟩
    Summed m.table (fun _ _ => true) 1 1 ∧ contract roundedOps m false ⟨.icc 3 3, .icc 0 1⟩ = none := by
  refine ⟨?_, by decide +kernel⟩
  intro x y hx hy
  have h1 : x = 0 := by omega
  have h2 : y = 0 := by omega
  subst h1 h2
  decide +kernel

/-! ## concrete cases -/

/-- an image of 3 columns and 2 rows, the rows downwards: `dy` is negative -/
def smallImage : Img ℚ := ⟨⟨10, 2, 3⟩, ⟨5, -1, 2⟩, fun x y => if y = 0 then (if x = 0 then 0 else 1) else (if x = 0 then 0 else x)⟩

/-- its pixels of value 1: (1,0) and (2,1) -/
def smallPx (i j : Nat) : Bool := (i = 1 ∧ j = 0) ∨ (i = 2 ∧ j = 1)

example : Summed smallImage.table smallPx smallImage.ax.n smallImage.ay.n := by
  intro x y hx hy
  have h1 : x = 0 ∨ x = 1 ∨ x = 2 := by simp [smallImage] at hx; omega
  have h2 : y = 0 ∨ y = 1 := by simp [smallImage] at hy; omega
  rcases h1 with rfl | rfl | rfl <;> rcases h2 with rfl | rfl <;> decide +kernel

example : contract (exactOps ℚ) smallImage false ⟨.icc 0 20, .icc 0 20⟩ = some ⟨.icc 12 16, .icc 3 5⟩ := by
  decide +kernel

example : InSet smallImage smallPx 13 (9 / 2) := ⟨1, 0, by decide, by decide, by decide, ⟨1 / 2, by norm_num [smallImage]⟩, ⟨1 / 2, by norm_num [smallImage]⟩⟩

end Codac.Props
