import Verif.Graphics.ColorsProofs
import Verif.Traj.VectorProofs

/-!
# Colors and color maps: property C123
-/

set_option linter.unusedSectionVars false

namespace Codac.Props
open Codac Codac.Col

section
variable {K : Type*} [Field K] [LinearOrder K] [IsStrictOrderedRing K]

/-- **C123**: the conversions between RGB and HSV give valid colors and keep the opacity; the hue is never "not a number". -/
theorem C123_conversions (c : Rgb K) (d : Hsv K) (hc : c.Ok) (hd : d.Ok) :
    (∃ u, rgb2hsv c = some u ∧ u.Ok ∧ u.h < 360 ∧ u.alpha = c.alpha) ∧ (hsv2rgb d).Ok ∧ (hsv2rgb d).alpha = d.alpha :=
  ⟨rgb2hsv_ok hc, hsv2rgb_ok hd⟩

/-- **C123**: converted to HSV and back, no channel of a color moves by 1/100000 or more, and the color is the same as soon as two of its channels differ by at least 1/100000. -/
theorem C123_rgb_hsv_rgb {c : Rgb K} (hc : c.Ok) {u : Hsv K} (hu : rgb2hsv c = some u) :
    ((1 / 100000 ≤ |c.r - c.g| ∨ 1 / 100000 ≤ |c.g - c.b| ∨ 1 / 100000 ≤ |c.b - c.r|) → hsv2rgb u = c) ∧
    |(hsv2rgb u).r - c.r| < 1 / 100000 ∧ |(hsv2rgb u).g - c.g| < 1 / 100000 ∧ |(hsv2rgb u).b - c.b| < 1 / 100000 := by
  obtain ⟨mx, mn, hmx, hmn, q1, q2, -⟩ := rgb2hsv_cases c
  obtain ⟨h1, h2⟩ := roundtrip_rgb hc hmx hmn hu q1 q2
  obtain ⟨a1, a2, a3⟩ := hmx
  obtain ⟨b1, b2, b3⟩ := hmn
  constructor
  · intro h
    refine h1 ?_
    have key : ∀ x y : K, x ≤ mx → mn ≤ x → y ≤ mx → mn ≤ y → |x - y| ≤ mx - mn := fun x y x1 x2 y1 y2 => abs_le.mpr ⟨by linarith, by linarith⟩
    rcases h with h | h | h
    · exact h.trans (key _ _ a1 b1 a2 b2)
    · exact h.trans (key _ _ a2 b2 a3 b3)
    · exact h.trans (key _ _ a3 b3 a1 b1)
  · by_cases hd : mx - mn < 1 / 100000
    · rw [h2 hd]
      refine ⟨abs_lt.mpr ⟨?_, ?_⟩, abs_lt.mpr ⟨?_, ?_⟩, abs_lt.mpr ⟨?_, ?_⟩⟩ <;> dsimp only <;> linarith
    · rw [h1 (not_lt.mp hd)]
      simp

/-- **C123**: converted to RGB and back, a color is the same, unless it is almost gray or black. -/
theorem C123_hsv_rgb_hsv {c : Hsv K} (hc : c.Ok) (h : c.h < 360) (hg : 1 / 100000 ≤ c.v * c.s) : rgb2hsv (hsv2rgb c) = some c := roundtrip_hsv hc h hg

/-- C123 fails for gray colors: the hue is lost, and with it the colors between this one and the next one of a map. -/
theorem C123_gray_fails : ∃ c : Hsv ℚ, c.Ok ∧ c.h = 120 ∧ ∃ u, rgb2hsv (hsv2rgb c) = some u ∧ u.h = 0 :=
  ⟨⟨120, 0, 1, 1⟩, by decide +kernel, rfl, ⟨0, 0, 1, 1⟩, by decide +kernel, rfl⟩

/-! ### Maps -/

/-- **C123**, `add_color_point`: the color at the key is the given one, the others are unchanged, the keys stay in order. -/
theorem C123_add_point {m : CMap K} (hm : SortedKeys m) (c : Rgb K) (k : K) :
    SortedKeys (addPoint m c k) ∧ ∀ k' c', (k', c') ∈ addPoint m c k ↔ (k' = k ∧ c' = c) ∨ (k' ≠ k ∧ (k', c') ∈ m) := by
  refine ⟨addPoint_sorted c k hm, fun k' c' => ?_⟩
  rw [addPoint_mem hm, Prod.mk.injEq]
  exact or_congr_right and_comm

/-- all the colors of the map are valid -/
def MapOk (m : CMap K) : Prop := SortedKeys m ∧ 2 ≤ m.length ∧ ∀ p ∈ m, p.2.Ok

theorem mix_mem {a b t : K} (ha : 0 ≤ a ∧ a ≤ 1) (hb : 0 ≤ b ∧ b ≤ 1) (ht : 0 ≤ t ∧ t ≤ 1) : 0 ≤ mix a b t ∧ mix a b t ≤ 1 := by
  have e : mix a b t = a * (1 - t) + b * t := by unfold mix; ring
  have h1 : 0 ≤ 1 - t := by linarith [ht.2]
  rw [e]
  constructor
  · exact add_nonneg (mul_nonneg ha.1 h1) (mul_nonneg hb.1 ht.1)
  · have := mul_le_mul_of_nonneg_right ha.2 h1
    have := mul_le_mul_of_nonneg_right hb.2 ht.1
    linarith

theorem interpol_rgb [FloorRing K] {a b : Rgb K} (ha : a.Ok) (hb : b.Ok) {t : K} (ht : 0 ≤ t ∧ t ≤ 1) :
    interpol .rgb a b t = some ⟨mix a.r b.r t, mix a.g b.g t, mix a.b b.b t, mix a.alpha b.alpha t⟩ ∧
      (⟨mix a.r b.r t, mix a.g b.g t, mix a.b b.b t, mix a.alpha b.alpha t⟩ : Rgb K).Ok := by
  have : (⟨mix a.r b.r t, mix a.g b.g t, mix a.b b.b t, mix a.alpha b.alpha t⟩ : Rgb K).Ok :=
    ⟨mix_mem ha.1 hb.1 ht, mix_mem ha.2.1 hb.2.1 ht, mix_mem ha.2.2.1 hb.2.2.1 ht, mix_mem ha.2.2.2 hb.2.2.2 ht⟩
  exact ⟨by simp only [interpol, makeRgb]; rw [if_pos this], this⟩

theorem fmod360_bounds [FloorRing K] (x : K) : 0 ≤ fmod360 x ∧ fmod360 x < 360 := by
  unfold fmod360
  have h1 := Int.floor_le (x / 360)
  have h2 := Int.lt_floor_add_one (x / 360)
  rw [le_div_iff₀ (by norm_num)] at h1
  rw [div_lt_iff₀ (by norm_num)] at h2
  constructor <;> linarith

theorem interpol_hsv [FloorRing K] {a b : Rgb K} (ha : a.Ok) (hb : b.Ok) {t : K} (ht : 0 ≤ t ∧ t ≤ 1) : ∃ c, interpol .hsv a b t = some c ∧ c.Ok := by
  obtain ⟨u, h1, h2, _, _⟩ := rgb2hsv_ok ha
  obtain ⟨w, h3, h4, _, _⟩ := rgb2hsv_ok hb
  have : ∀ h : K, (⟨fmod360 h, mix u.s w.s t, mix u.v w.v t, mix u.alpha w.alpha t⟩ : Hsv K).Ok := fun h =>
    ⟨⟨(fmod360_bounds h).1, (fmod360_bounds h).2.le⟩, mix_mem h2.2.1 h4.2.1 ht, mix_mem h2.2.2.1 h4.2.2.1 ht, mix_mem h2.2.2.2 h4.2.2.2 ht⟩
  refine ⟨_, ?_, (hsv2rgb_ok (this (mix (if 180 < |u.h - w.h| then u.h + 360 else u.h) w.h t))).1⟩
  simp only [interpol, h1, h3, Option.bind_some, makeHsv]
  rw [if_pos (this _)]
  rfl

theorem ratio_mem {a x b : K} (h1 : a < x) (h2 : x < b) : 0 ≤ (x - a) / (b - a) ∧ (x - a) / (b - a) ≤ 1 := by
  have h : 0 < b - a := by linarith
  constructor
  · exact div_nonneg (by linarith) h.le
  · rw [div_le_one h]; linarith

theorem index_bounds {lo hi r : K} (h : lo < hi) (h0 : 0 ≤ r) (h1 : r ≤ 1) : lo ≤ lo + r * (hi - lo) ∧ lo + r * (hi - lo) ≤ hi := by
  have a := mul_nonneg h0 (sub_nonneg.mpr h.le)
  have b := mul_le_mul_of_nonneg_right h1 (sub_nonneg.mpr h.le)
  constructor <;> linarith

/-- **C123**, `color(r)` for `r` in `[0,1]`, in both modes: there is a valid color (no assert fails, no iterator leaves the map); with `x` at the ratio `r` between the first and the
last keys, it is the color of the key `x` if there is one, and otherwise, in RGB mode, each channel is on the segment between those of the two keys around `x`. -/
theorem C123_color [FloorRing K] {m : CMap K} (hm : MapOk m) (mode : Mode) {lo hi : K × Rgb K} (hl : m.head? = some lo) (hh : m.getLast? = some hi) {r : K} (h0 : 0 ≤ r) (h1 : r ≤ 1) :
    ∃ c, color mode m (some r) = some c ∧ c.Ok ∧ (∀ c', (lo.1 + r * (hi.1 - lo.1), c') ∈ m → c = c') ∧
      (mode = .rgb → ∀ l1 l2 k a k' b, m = l1 ++ (k, a) :: (k', b) :: l2 → k < lo.1 + r * (hi.1 - lo.1) → lo.1 + r * (hi.1 - lo.1) < k' → ∀ t, lo.1 + r * (hi.1 - lo.1) = k + t * (k' - k) →
        c = ⟨a.r + t * (b.r - a.r), a.g + t * (b.g - a.g), a.b + t * (b.b - a.b), a.alpha + t * (b.alpha - a.alpha)⟩) := by
  obtain ⟨hs, h2, hok⟩ := hm
  obtain ⟨e1, e2⟩ := color_eq (mode := mode) hs h2 hl hh h0 h1
  obtain ⟨lo', hi', k1, k2, hlt⟩ := head_le_last hs h2
  rw [hl] at k1; injection k1 with k1; subst k1
  rw [hh] at k2; injection k2 with k2; subst k2
  obtain ⟨x1, x2⟩ := index_bounds hlt h0 h1
  have hdef : ∃ c, color mode m (some r) = some c ∧ c.Ok := by
    rcases exists_pair hl hh x1 x2 with ⟨c, hc⟩ | ⟨l1, a, b, l2, e, ha, hb⟩
    · exact ⟨c, e1 c hc, hok _ hc⟩
    · rw [e2 l1 a b l2 e ha hb]
      have oa := hok a (by rw [e]; simp)
      have ob := hok b (by rw [e]; simp)
      cases mode with
      | rgb => exact ⟨_, interpol_rgb oa ob (ratio_mem ha hb)⟩
      | hsv => exact interpol_hsv oa ob (ratio_mem ha hb)
  obtain ⟨c, hc, ok⟩ := hdef
  refine ⟨c, hc, ok, fun c' hc' => ?_, ?_⟩
  · rw [e1 c' hc'] at hc; injection hc with hc; exact hc.symm
  · rintro rfl l1 l2 k a k' b e ha hb t ht
    rw [e2 l1 (k, a) (k', b) l2 e ha hb, (interpol_rgb (hok (k, a) (by rw [e]; simp)) (hok (k', b) (by rw [e]; simp)) (ratio_mem ha hb)).1] at hc
    injection hc with hc
    have hne : k' - k ≠ 0 := by
      have : k < k' := ha.trans hb
      exact (sub_pos.mpr this).ne'
    have et : (lo.1 + r * (hi.1 - lo.1) - k) / (k' - k) = t := by rw [ht]; field_simp; ring
    dsimp only at hc
    rw [et] at hc
    rw [← hc]
    unfold mix
    congr 1 <;> ring

/-- **C123**, HSV mode (partial): when the hue of the second color is at `d` degrees of that of the first one, `|d| ≤ 180`, the color at the ratio `t` has the hue at `t·d` degrees of the first
one, the shortest way. Missing: the hue of the first color is larger, and the shortest way goes through the hue 0 (`C123_hue_fails`). -/
theorem C123_hue_partial [FloorRing K] {a b : Rgb K} (ha : a.Ok) (hb : b.Ok) {u w : Hsv K} (hu : rgb2hsv a = some u) (hw : rgb2hsv b = some w) {t d : K} (ht : 0 ≤ t ∧ t ≤ 1)
    (h : (w.h = u.h + d ∧ -180 ≤ d ∧ d ≤ 180) ∨ (w.h = u.h + d + 360 ∧ -180 < d ∧ d ≤ 0)) :
    interpol .hsv a b t = some (hsv2rgb ⟨if u.h + t * d < 0 then u.h + t * d + 360 else u.h + t * d, u.s + t * (w.s - u.s), u.v + t * (w.v - u.v), u.alpha + t * (w.alpha - u.alpha)⟩) := by
  obtain ⟨u', h1, h2, h3, _⟩ := rgb2hsv_ok ha
  rw [hu] at h1; injection h1 with h1; subst h1
  obtain ⟨w', h4, h5, h6, _⟩ := rgb2hsv_ok hb
  rw [hw] at h4; injection h4 with h4; subst h4
  have hok : ∀ h : K, (⟨fmod360 h, mix u.s w.s t, mix u.v w.v t, mix u.alpha w.alpha t⟩ : Hsv K).Ok := fun h =>
    ⟨⟨(fmod360_bounds h).1, (fmod360_bounds h).2.le⟩, mix_mem h2.2.1 h5.2.1 ht, mix_mem h2.2.2.1 h5.2.2.1 ht, mix_mem h2.2.2.2 h5.2.2.2 ht⟩
  have hmod : ∀ (y : K) (n : ℤ), 0 ≤ y → y < 360 → fmod360 (y + 360 * n) = y := by
    intro y n y0 y1
    unfold fmod360
    have : ⌊(y + 360 * n) / 360⌋ = n := by
      rw [Int.floor_eq_iff]
      constructor
      · rw [le_div_iff₀ (by norm_num)]; linarith
      · rw [div_lt_iff₀ (by norm_num)]; linarith
    rw [this]; ring
  have hmix : ∀ x y : K, mix x y t = x + t * (y - x) := fun x y => by unfold mix; ring
  simp only [interpol, hu, hw, Option.bind_some, makeHsv]
  rw [if_pos (hok _), Option.map_some]
  have key : fmod360 (mix (if 180 < |u.h - w.h| then u.h + 360 else u.h) w.h t) = if u.h + t * d < 0 then u.h + t * d + 360 else u.h + t * d := by
    obtain ⟨⟨u0, _⟩, _⟩ := h2
    obtain ⟨⟨w0, _⟩, _⟩ := h5
    rcases h with ⟨e, d1, d2⟩ | ⟨e, d1, d2⟩
    · have hn : ¬ 180 < |u.h - w.h| := by
        rw [not_lt, abs_le, e]; constructor <;> linarith
      rw [if_neg hn, hmix, e]
      have e' : u.h + t * (u.h + d - u.h) = u.h + t * d := by ring
      have hb0 : 0 ≤ u.h + t * d ∧ u.h + t * d < 360 := by
        have e'' : u.h + t * d = u.h * (1 - t) + w.h * t := by rw [e]; ring
        have t1 : 0 ≤ 1 - t := by linarith [ht.2]
        constructor
        · rw [e'']; exact add_nonneg (mul_nonneg u0 t1) (mul_nonneg w0 ht.1)
        · by_cases hd : d ≤ 0
          · have := mul_nonneg ht.1 (neg_nonneg.mpr hd)
            linarith
          · have := mul_le_mul_of_nonneg_right ht.2 (not_le.mp hd).le
            linarith
      rw [e', if_neg (not_lt.mpr hb0.1)]
      have := hmod (u.h + t * d) 0 hb0.1 hb0.2
      simpa using this
    · have hp : 180 < |u.h - w.h| := by
        rw [lt_abs, e]; right; linarith
      rw [if_pos hp, hmix, e]
      have e' : u.h + 360 + t * (u.h + d + 360 - (u.h + 360)) = u.h + t * d + 360 := by ring
      rw [e']
      have a1 : t * d ≤ 0 := by have := mul_nonneg ht.1 (neg_nonneg.mpr d2); linarith
      have a2 : d ≤ t * d := by
        have := mul_le_mul_of_nonneg_right ht.2 (neg_nonneg.mpr d2)
        linarith
      by_cases hneg : u.h + t * d < 0
      · rw [if_pos hneg]
        have := hmod (u.h + t * d + 360) 0 (by linarith) (by linarith)
        simpa using this
      · rw [if_neg hneg]
        have := hmod (u.h + t * d) 1 (not_lt.mp hneg) (by linarith)
        simpa using this
  rw [key, hmix, hmix, hmix]

/-- **C123**, `reverse()`: in RGB mode the reversed map at `r` is the map at `1-r`. -/
theorem C123_reverse [FloorRing K] {m : CMap K} (hm : MapOk m) {r : K} (h0 : 0 ≤ r) (h1 : r ≤ 1) : color .rgb (reverse m) (some r) = color .rgb m (some (1 - r)) ∧ MapOk (reverse m) := by
  have hm' := hm
  obtain ⟨hs, h2, hok⟩ := hm'
  have hrev := reverse_eq hs
  have hs' : SortedKeys (reverse m) := by
    rw [hrev]
    unfold SortedKeys
    rw [List.pairwise_reverse, List.pairwise_map]
    refine hs.imp ?_
    intro p q h
    dsimp only
    linarith
  have hl' : 2 ≤ (reverse m).length := by rw [hrev]; simpa using h2
  have hok' : MapOk (reverse m) := by
    refine ⟨hs', hl', ?_⟩
    rw [hrev]
    intro p hp
    rw [List.mem_reverse, List.mem_map] at hp
    obtain ⟨q, hq, rfl⟩ := hp
    exact hok q hq
  obtain ⟨lo, hi, k1, k2, hlt⟩ := head_le_last hs h2
  have k1' : (reverse m).head? = some (1 - hi.1, hi.2) := by rw [hrev, List.head?_reverse, List.getLast?_map, k2]; rfl
  have k2' : (reverse m).getLast? = some (1 - lo.1, lo.2) := by rw [hrev, List.getLast?_reverse, List.head?_map, k1]; rfl
  obtain ⟨e1, e2⟩ := color_eq (mode := .rgb) hs h2 k1 k2 (r := 1 - r) (by linarith) (by linarith)
  obtain ⟨e1', e2'⟩ := color_eq (mode := .rgb) hs' hl' k1' k2' h0 h1
  have hx : 1 - hi.1 + r * (1 - lo.1 - (1 - hi.1)) = 1 - (lo.1 + (1 - r) * (hi.1 - lo.1)) := by ring
  dsimp only at e1' e2'
  rw [hx] at e1' e2'
  obtain ⟨x1, x2⟩ := index_bounds hlt (r := 1 - r) (by linarith) (by linarith)
  refine ⟨?_, hok'⟩
  rcases exists_pair k1 k2 x1 x2 with ⟨c, hc⟩ | ⟨l1, a, b, l2, e, ha, hb⟩
  · rw [e1 c hc]
    refine e1' c ?_
    rw [hrev, List.mem_reverse, List.mem_map]
    exact ⟨_, hc, rfl⟩
  · rw [e2 l1 a b l2 e ha hb]
    have hd : reverse m = (l2.map fun p => (1 - p.1, p.2)).reverse ++ (1 - b.1, b.2) :: (1 - a.1, a.2) :: (l1.map fun p => (1 - p.1, p.2)).reverse := by
      rw [hrev, e]; simp
    rw [e2' _ _ _ _ hd (by dsimp only; linarith) (by dsimp only; linarith)]
    have hne : b.1 - a.1 ≠ 0 := by
      have : a.1 < b.1 := ha.trans hb
      exact (sub_pos.mpr this).ne'
    dsimp only
    generalize lo.1 + (1 - r) * (hi.1 - lo.1) = x
    have hr : (1 - x - (1 - b.1)) / (1 - a.1 - (1 - b.1)) = 1 - (x - a.1) / (b.1 - a.1) := by
      rw [show 1 - a.1 - (1 - b.1) = b.1 - a.1 by ring]
      field_simp
      ring
    rw [hr]
    have hmix : ∀ y z t : K, mix y z (1 - t) = mix z y t := fun y z t => by unfold mix; ring
    simp only [interpol, hmix]

/-- **C123**, `set_opacity(alpha)`: all the colors given by the map (in RGB mode, for `r` in `[0,1]`) have the opacity `alpha`; the map is opaque when, and (if not empty) only when, `alpha` is 1. -/
theorem C123_opacity [FloorRing K] {m : CMap K} (hm : MapOk m) {alpha : K} (ha : 0 ≤ alpha ∧ alpha ≤ 1) : ∃ m', setOpacity m alpha = some m' ∧ MapOk m' ∧ (isOpaque m' = true ↔ alpha = 1) ∧
    ∀ r, 0 ≤ r → r ≤ 1 → ∃ c, color .rgb m' (some r) = some c ∧ c.alpha = alpha := by
  obtain ⟨hs, h2, hok⟩ := hm
  have hm' : MapOk (m.map fun p => (p.1, { p.2 with alpha := alpha })) := by
    refine ⟨?_, by simpa using h2, ?_⟩
    · unfold SortedKeys
      rw [List.pairwise_map]
      exact hs
    · intro p hp
      obtain ⟨q, hq, rfl⟩ := List.mem_map.mp hp
      obtain ⟨o1, o2, o3, _⟩ := hok q hq
      exact ⟨o1, o2, o3, ha⟩
  refine ⟨_, by unfold setOpacity; rw [if_pos ha], hm', ?_, fun r h0 h1 => ?_⟩
  · unfold isOpaque
    rw [List.all_map, List.all_eq_true]
    constructor
    · intro h
      obtain ⟨p, l, rfl⟩ := List.exists_cons_of_ne_nil (l := m) (by rintro rfl; simp at h2)
      simpa using h p (by simp)
    · intro h p _
      simpa using h
  · obtain ⟨lo, hi, k1, k2, hlt⟩ := head_le_last hm'.1 hm'.2.1
    obtain ⟨e1, e2⟩ := color_eq (mode := .rgb) hm'.1 hm'.2.1 k1 k2 h0 h1
    obtain ⟨x1, x2⟩ := index_bounds hlt h0 h1
    have hal : ∀ p ∈ m.map (fun p => (p.1, { p.2 with alpha := alpha })), p.2.alpha = alpha := by
      intro p hp
      obtain ⟨q, _, rfl⟩ := List.mem_map.mp hp
      rfl
    rcases exists_pair k1 k2 x1 x2 with ⟨c, hc⟩ | ⟨l1, a, b, l2, e, ha', hb'⟩
    · exact ⟨c, e1 c hc, hal _ hc⟩
    · have oa : a ∈ m.map (fun p => (p.1, { p.2 with alpha := alpha })) := by rw [e]; simp
      have ob : b ∈ m.map (fun p => (p.1, { p.2 with alpha := alpha })) := by rw [e]; simp
      rw [e2 l1 a b l2 e ha' hb', (interpol_rgb (hm'.2.2 a oa) (hm'.2.2 b ob) (ratio_mem ha' hb')).1]
      refine ⟨_, rfl, ?_⟩
      show mix a.2.alpha b.2.alpha _ = alpha
      rw [hal a oa, hal b ob]; unfold mix; ring

/-- **C123**, `color(t, f)` for `t` in the temporal domain of the trajectory: a valid color, that of the ratio of `f(t)` between the smallest and largest values of `f`; gray when `f` is constant. -/
theorem C123_traj [FloorRing K] {m : CMap K} (hm : MapOk m) (mode : Mode) {f : Traj K} (hf : TrajOk f) {t : K} (ht : t ∈ f.dom) :
    ∃ c y, colorTraj mode m t f = some c ∧ c.Ok ∧ f.evalAt t = some y ∧
      ∃ l u, f.cod = Itv.icc l u ∧ l ≤ y ∧ y ≤ u ∧ (l = u → c = ⟨1 / 2, 1 / 2, 1 / 2, 1⟩) ∧ (l < u → color mode m (some ((y - l) / (u - l))) = some c) := by
  have hne : f.pts ≠ [] := by
    rintro h
    obtain ⟨a, ha, _⟩ := hf.dom.between ht
    rw [h] at ha; simp at ha
  obtain ⟨y, hy⟩ := evalAt_some hf ht
  have hmem := evalAt_mem_cod hf hy
  obtain ⟨l, hl, u, hu, hlu, e⟩ := hf.cod.eq_icc (by simpa using hne)
  have hle := (hlu u hu).1
  rw [e, Itv.mem_icc] at hmem
  have hb : f.cod.bounds? = some (l, u) := by rw [e]; unfold Itv.icc Itv.ofBounds; rw [dif_pos (by exact hle)]; rfl
  have hc : colorTraj mode m t f = color mode m (if u - l = 0 then none else some ((y - l) / (u - l))) := by
    unfold colorTraj trajRatio
    rw [hy, hb]; rfl
  by_cases h : l = u
  · refine ⟨⟨1 / 2, 1 / 2, 1 / 2, 1⟩, y, ?_, ?_, hy, l, u, e, hmem.1, hmem.2, fun _ => rfl, fun h' => absurd h h'.ne⟩
    · rw [hc, if_pos (by rw [h]; ring)]
      unfold color
      rw [if_neg (not_lt.mpr hm.2.1)]
      show makeRgb _ _ _ _ = _
      unfold makeRgb
      rw [if_pos]
      refine ⟨⟨?_, ?_⟩, ⟨?_, ?_⟩, ⟨?_, ?_⟩, ?_, ?_⟩ <;> norm_num
    · refine ⟨⟨?_, ?_⟩, ⟨?_, ?_⟩, ⟨?_, ?_⟩, ?_, ?_⟩ <;> norm_num
  · have hlt := lt_of_le_of_ne hle h
    have hp := sub_pos.mpr hlt
    obtain ⟨lo, hi, k1, k2, _⟩ := head_le_last hm.1 hm.2.1
    obtain ⟨c, h1, h2, _⟩ := C123_color hm mode k1 k2 (r := (y - l) / (u - l)) (div_nonneg (sub_nonneg.mpr hmem.1) hp.le) (by rw [div_le_one hp]; linarith [hmem.2])
    refine ⟨c, y, ?_, h2, hy, l, u, e, hmem.1, hmem.2, fun h' => absurd h' h, fun _ => h1⟩
    rw [hc, if_neg hp.ne', h1]

/-! ### Hexadecimal strings -/

/-- the value of a hexadecimal digit, in upper case -/
def digitValue (c : Char) : Option Nat :=
  if '0' ≤ c ∧ c ≤ '9' then some (c.toNat - '0'.toNat) else if 'A' ≤ c ∧ c ≤ 'F' then some (c.toNat - 'A'.toNat + 10) else none

/-- the bytes of a hexadecimal string -/
def readBytes : List Char → Option (List Nat)
  | [] => some []
  | a :: b :: l => (digitValue a).bind fun x => (digitValue b).bind fun y => (readBytes l).map fun r => (16 * x + y) :: r
  | [_] => none

theorem hex2_digits : ∀ n ≤ 255, digitValue (Nat.digitChar (n / 16)).toUpper = some (n / 16) ∧ digitValue (Nat.digitChar (n % 16)).toUpper = some (n % 16) := by
  decide +kernel

theorem readBytes_hex2 {n : Nat} (hn : n ≤ 255) (l : List Char) : readBytes (hex2 n ++ l) = (readBytes l).map (n :: ·) := by
  obtain ⟨h1, h2⟩ := hex2_digits n hn
  show readBytes ((Nat.digitChar (n / 16)).toUpper :: (Nat.digitChar (n % 16)).toUpper :: l) = _
  rw [readBytes, h1, h2]
  simp only [Option.bind_some]
  rw [Nat.div_add_mod]

theorem floor_channel [FloorRing K] (n : Nat) : ⌊(n : K) / 255 * 255⌋.toNat = n := by
  rw [div_mul_cancel₀ _ (by norm_num)]; simp

/-- **C123**, `rgb2hex`: the string of a color made from four bytes is made of these bytes, two digits each in upper case, the opacity being left out when it is 255. -/
theorem C123_hex [FloorRing K] {r g b a : Nat} (hr : r ≤ 255) (hg : g ≤ 255) (hb : b ≤ 255) (ha : a ≤ 255) :
    ∃ c : Rgb K, makeRgbInt r g b a = some c ∧ c.Ok ∧ readBytes (rgb2hex c) = some (if a = 255 then [r, g, b] else [r, g, b, a]) := by
  have hb' : ∀ n : Nat, n ≤ 255 → 0 ≤ (n : K) / 255 ∧ (n : K) / 255 ≤ 1 := by
    intro n hn
    have : (n : K) ≤ 255 := by exact_mod_cast hn
    exact ⟨div_nonneg (Nat.cast_nonneg _) (by norm_num), by rw [div_le_one (by norm_num)]; exact this⟩
  refine ⟨_, by unfold makeRgbInt; rw [if_pos ⟨hr, hg, hb, ha⟩], ⟨hb' r hr, hb' g hg, hb' b hb, hb' a ha⟩, ?_⟩
  unfold rgb2hex
  dsimp only
  rw [floor_channel, floor_channel, floor_channel, floor_channel, List.append_assoc, List.append_assoc, readBytes_hex2 hr, readBytes_hex2 hg, readBytes_hex2 hb]
  by_cases h : a = 255
  · subst h
    rw [if_pos (by norm_num), if_pos rfl]; rfl
  · have hne : ¬ (a : K) / 255 = 1 := by
      rw [div_eq_one_iff_eq (by norm_num)]
      exact_mod_cast h
    rw [if_neg hne, if_neg h]
    have := readBytes_hex2 ha []
    rw [List.append_nil] at this
    rw [this]; rfl

end

/-! ### What fails, and examples -/

/-- red at 0, green at ½, blue at 1 -/
def mapA : CMap ℚ := [(0, ⟨1, 0, 0, 1⟩), (1 / 2, ⟨0, 1, 0, 1⟩), (1, ⟨0, 0, 1, 1⟩)]
theorem mapA_ok : MapOk mapA := by
  refine ⟨?_, by decide, ?_⟩
  · unfold SortedKeys mapA; simp; norm_num
  · decide +kernel

/-- the hues 350 and 10 -/
def mapB : CMap ℚ := [(0, ⟨1, 0, 1 / 6, 1⟩), (1, ⟨1, 1 / 6, 0, 1⟩)]
theorem mapB_ok : MapOk mapB := by
  refine ⟨?_, by decide, ?_⟩
  · unfold SortedKeys mapB; simp
  · decide +kernel

/-- C123 fails: from the hue 350 to the hue 10, twenty degrees further, the colors of an HSV map go round the circle the other way: at a quarter the hue is 175, a green-blue instead of a red
(codac_ColorMap.cpp adds 360 to the hue of the first color, whichever is the larger one). -/
theorem C123_hue_fails : ∃ (a b : Rgb ℚ), a.Ok ∧ b.Ok ∧ (∃ u w, rgb2hsv a = some u ∧ rgb2hsv b = some w ∧ u.h = 350 ∧ w.h = 10) ∧
    ∃ c u, interpol .hsv a b (1 / 4) = some c ∧ rgb2hsv c = some u ∧ u.h = 175 :=
  ⟨⟨1, 0, 1 / 6, 1⟩, ⟨1, 1 / 6, 0, 1⟩, by decide +kernel, by decide +kernel, ⟨⟨350, 1, 1, 1⟩, ⟨10, 1, 1, 1⟩, by decide +kernel, by decide +kernel, rfl, rfl⟩,
    ⟨0, 1, 11 / 12, 1⟩, ⟨175, 1, 1, 1⟩, by decide +kernel, by decide +kernel, rfl⟩

/-- C123 fails: an HSV map once reversed does not give the colors of the map in the other order. -/
theorem C123_reverse_hsv_fails : MapOk mapB ∧ color .hsv (reverse mapB) (some (1 / 4)) ≠ color .hsv mapB (some (3 / 4)) := ⟨mapB_ok, by decide +kernel⟩

example : color .rgb mapA (some (3 / 4)) = some ⟨0, 1 / 2, 1 / 2, 1⟩ := by decide +kernel
example : color .rgb mapA (some (1 / 2)) = some ⟨0, 1, 0, 1⟩ := by decide +kernel
example : ∃ c, color .rgb mapA (some (1 / 3)) = some c ∧ c.Ok := by
  obtain ⟨c, h1, h2, _⟩ := C123_color mapA_ok .rgb (r := 1 / 3) rfl rfl (by norm_num) (by norm_num)
  exact ⟨c, h1, h2⟩
example : color .rgb (reverse mapA) (some (1 / 4)) = color .rgb mapA (some (1 - 1 / 4)) := (C123_reverse mapA_ok (by norm_num) (by norm_num)).1
example : hsv2rgb ⟨120, 1 / 2, 1, 1⟩ = (⟨1 / 2, 1, 1 / 2, 1⟩ : Rgb ℚ) := by decide +kernel
example : rgb2hsv (hsv2rgb ⟨200, 1 / 2, 3 / 4, 1⟩) = some (⟨200, 1 / 2, 3 / 4, 1⟩ : Hsv ℚ) := C123_hsv_rgb_hsv (by decide +kernel) (by norm_num) (by norm_num)
example : (setOpacity mapA (1 / 2)).map isOpaque = some false := by decide +kernel
example : (makeRgbInt 255 128 0 51 : Option (Rgb ℚ)).map rgb2hex = some "FF800033".toList := by decide +kernel
/-- from the hue 10 to the hue 350: the shortest way -/
example : interpol .hsv (⟨1, 1 / 6, 0, 1⟩ : Rgb ℚ) ⟨1, 0, 1 / 6, 1⟩ (3 / 4) = some (hsv2rgb ⟨355, 1, 1, 1⟩) := by
  have := C123_hue_partial (a := (⟨1, 1 / 6, 0, 1⟩ : Rgb ℚ)) (b := ⟨1, 0, 1 / 6, 1⟩) (u := ⟨10, 1, 1, 1⟩) (w := ⟨350, 1, 1, 1⟩) (t := 3 / 4) (d := -20)
    (by decide +kernel) (by decide +kernel) (by decide +kernel) (by decide +kernel) (by norm_num) (Or.inr (by norm_num))
  rw [this]; decide +kernel

end Codac.Props
