import Verif.Graphics.Colors
import Mathlib.Tactic.Linarith
import Mathlib.Tactic.Ring

/-!
# Colors: lemmas
-/

set_option linter.unusedSectionVars false

namespace Codac.Col

variable {K : Type*} [Field K] [LinearOrder K] [IsStrictOrderedRing K]

/-- what `rgb2hsv` computes, with the largest and smallest channels -/
theorem rgb2hsv_cases (c : Rgb K) : ∃ mx mn : K, (c.r ≤ mx ∧ c.g ≤ mx ∧ c.b ≤ mx) ∧ (mn ≤ c.r ∧ mn ≤ c.g ∧ mn ≤ c.b) ∧ (mx = c.r ∨ mx = c.g ∨ mx = c.b) ∧
    (mn = c.r ∨ mn = c.g ∨ mn = c.b) ∧ rgb2hsv c =
      if mx - mn < 1 / 100000 then some ⟨0, 0, mx, c.alpha⟩
      else if 0 < mx then
        let h := (if mx ≤ c.r then (c.g - c.b) / (mx - mn) else if mx ≤ c.g then 2 + (c.b - c.r) / (mx - mn) else 4 + (c.r - c.g) / (mx - mn)) * 60
        some ⟨if h < 0 then h + 360 else h, (mx - mn) / mx, mx, c.alpha⟩
      else none := by
  refine ⟨if c.b < (if c.g < c.r then c.r else c.g) then (if c.g < c.r then c.r else c.g) else c.b,
    if (if c.r < c.g then c.r else c.g) < c.b then (if c.r < c.g then c.r else c.g) else c.b, ?_, ?_, ?_, ?_, rfl⟩
  · by_cases h1 : c.g < c.r
    · simp only [if_pos h1]
      by_cases h2 : c.b < c.r
      · rw [if_pos h2]; exact ⟨le_rfl, h1.le, h2.le⟩
      · rw [if_neg h2]; push Not at h2; exact ⟨h2, h1.le.trans h2, le_rfl⟩
    · simp only [if_neg h1]
      push Not at h1
      by_cases h2 : c.b < c.g
      · rw [if_pos h2]; exact ⟨h1, le_rfl, h2.le⟩
      · rw [if_neg h2]; push Not at h2; exact ⟨h1.trans h2, h2, le_rfl⟩
  · by_cases h1 : c.r < c.g
    · simp only [if_pos h1]
      by_cases h2 : c.r < c.b
      · rw [if_pos h2]; exact ⟨le_rfl, h1.le, h2.le⟩
      · rw [if_neg h2]; push Not at h2; exact ⟨h2, h2.trans h1.le, le_rfl⟩
    · simp only [if_neg h1]
      push Not at h1
      by_cases h2 : c.g < c.b
      · rw [if_pos h2]; exact ⟨h1, le_rfl, h2.le⟩
      · rw [if_neg h2]; push Not at h2; exact ⟨h2.trans h1, h2, le_rfl⟩
  · by_cases h1 : c.g < c.r <;> simp only [h1, if_true, if_false] <;> split_ifs <;> simp
  · by_cases h1 : c.r < c.g <;> simp only [h1, if_true, if_false] <;> split_ifs <;> simp

theorem div_bounds {n d : K} (hd : 0 < d) (h1 : -d ≤ n) (h2 : n ≤ d) : -1 ≤ n / d ∧ n / d ≤ 1 := by
  constructor
  · rw [le_div_iff₀ hd]; linarith
  · rw [div_le_one hd]; exact h2

/-- `rgb2hsv` gives a color, of hue less than 360 -/
theorem rgb2hsv_ok {c : Rgb K} (hc : c.Ok) : ∃ u, rgb2hsv c = some u ∧ u.Ok ∧ u.h < 360 ∧ u.alpha = c.alpha := by
  obtain ⟨mx, mn, ⟨a1, a2, a3⟩, ⟨b1, b2, b3⟩, hmx, hmn, e⟩ := rgb2hsv_cases c
  obtain ⟨⟨r0, r1⟩, ⟨g0, g1⟩, ⟨v0, v1⟩, hal⟩ := hc
  have hm1 : mx ≤ 1 := by rcases hmx with h | h | h <;> rw [h] <;> assumption
  have hm0 : 0 ≤ mx := r0.trans a1
  have hn0 : 0 ≤ mn := by rcases hmn with h | h | h <;> rw [h] <;> assumption
  by_cases hd : mx - mn < 1 / 100000
  · rw [if_pos hd] at e
    exact ⟨_, e, ⟨⟨le_rfl, by norm_num⟩, ⟨le_rfl, by norm_num⟩, ⟨hm0, hm1⟩, hal⟩, by norm_num, rfl⟩
  · rw [if_neg hd] at e
    push Not at hd
    have hd0 : 0 < mx - mn := lt_of_lt_of_le (by norm_num) hd
    have hmp : 0 < mx := by linarith
    rw [if_pos hmp] at e
    refine ⟨_, e, ⟨?_, ⟨div_nonneg hd0.le hm0, (div_le_one hmp).mpr (by linarith)⟩, ⟨hm0, hm1⟩, hal⟩, ?_, rfl⟩
    all_goals
      dsimp only
      by_cases h1 : mx ≤ c.r
      · rw [if_pos h1]
        obtain ⟨k1, k2⟩ := div_bounds (n := c.g - c.b) hd0 (by linarith) (by linarith)
        split_ifs with h <;> first | constructor <;> linarith | linarith
      · rw [if_neg h1]
        by_cases h2 : mx ≤ c.g
        · rw [if_pos h2]
          obtain ⟨k1, k2⟩ := div_bounds (n := c.b - c.r) hd0 (by linarith) (by linarith)
          split_ifs with h <;> first | constructor <;> linarith | linarith
        · rw [if_neg h2]
          obtain ⟨k1, k2⟩ := div_bounds (n := c.r - c.g) hd0 (by linarith) (by linarith)
          split_ifs with h <;> first | constructor <;> linarith | linarith

/-- `hsv2rgb` gives a color -/
theorem hsv2rgb_ok {c : Hsv K} (hc : c.Ok) : (hsv2rgb c).Ok ∧ (hsv2rgb c).alpha = c.alpha := by
  obtain ⟨⟨h0, h1⟩, ⟨s0, s1⟩, ⟨v0, v1⟩, hal⟩ := hc
  unfold hsv2rgb
  by_cases hs : c.s ≤ 0
  · rw [if_pos hs]
    exact ⟨⟨⟨v0, v1⟩, ⟨v0, v1⟩, ⟨v0, v1⟩, hal⟩, rfl⟩
  · rw [if_neg hs]
    have key : ∀ y : K, 0 ≤ y → y ≤ 1 → 0 ≤ c.v * (1 - c.s * y) ∧ c.v * (1 - c.s * y) ≤ 1 := by
      intro y y0 y1
      have a : 0 ≤ c.s * y := mul_nonneg s0 y0
      have b : c.s * y ≤ 1 := by nlinarith
      constructor
      · exact mul_nonneg v0 (by linarith)
      · nlinarith
    have kp : 0 ≤ c.v * (1 - c.s) ∧ c.v * (1 - c.s) ≤ 1 := by have := key 1 (by norm_num) le_rfl; rwa [mul_one] at this
    have hh : 0 ≤ (if 360 ≤ c.h then 0 else c.h) / 60 ∧ (if 360 ≤ c.h then 0 else c.h) / 60 < 6 := by
      by_cases h : 360 ≤ c.h
      · rw [if_pos h]; norm_num
      · rw [if_neg h]; push Not at h
        constructor
        · positivity
        · rw [div_lt_iff₀ (by norm_num)]; linarith
    generalize (if 360 ≤ c.h then 0 else c.h) / 60 = x at hh ⊢
    obtain ⟨x0, x6⟩ := hh
    unfold hsvCase
    dsimp only
    split_ifs <;> refine ⟨⟨?_, ?_, ?_, hal⟩, rfl⟩ <;> first | exact ⟨v0, v1⟩ | exact kp | (apply key <;> linarith)

/-- the channels given by the hue -/
theorem hsvCase_eq {hh v s d alpha : K} (hd : v * s = d) : hsvCase hh v s alpha =
    if hh < 1 then ⟨v, v - d * (1 - hh), v - d, alpha⟩
    else if hh < 2 then ⟨v - d * (hh - 1), v, v - d, alpha⟩
    else if hh < 3 then ⟨v - d, v, v - d * (3 - hh), alpha⟩
    else if hh < 4 then ⟨v - d, v - d * (hh - 3), v, alpha⟩
    else if hh < 5 then ⟨v - d * (5 - hh), v - d, v, alpha⟩
    else ⟨v, v - d, v - d * (hh - 5), alpha⟩ := by
  subst hd
  unfold hsvCase
  dsimp only
  split_ifs <;> congr 1 <;> ring

/-- `hsv2rgb(rgb2hsv(c)) = c`, except for the colors that are almost gray -/
theorem roundtrip_rgb {c : Rgb K} (hc : c.Ok) {mx mn : K} (hmx : c.r ≤ mx ∧ c.g ≤ mx ∧ c.b ≤ mx) (hmn : mn ≤ c.r ∧ mn ≤ c.g ∧ mn ≤ c.b) {u : Hsv K} (hu : rgb2hsv c = some u)
    (hmx' : mx = c.r ∨ mx = c.g ∨ mx = c.b) (hmn' : mn = c.r ∨ mn = c.g ∨ mn = c.b) :
    (1 / 100000 ≤ mx - mn → hsv2rgb u = c) ∧ (mx - mn < 1 / 100000 → hsv2rgb u = ⟨mx, mx, mx, c.alpha⟩) := by
  obtain ⟨m1, n1, ⟨a1, a2, a3⟩, ⟨b1, b2, b3⟩, q1, q2, e⟩ := rgb2hsv_cases c
  have e1 : m1 = mx := by
    obtain ⟨p1, p2, p3⟩ := hmx
    apply le_antisymm
    · rcases q1 with h | h | h <;> rw [h] <;> assumption
    · rcases hmx' with h | h | h <;> rw [h] <;> assumption
  have e2 : n1 = mn := by
    obtain ⟨p1, p2, p3⟩ := hmn
    apply le_antisymm
    · rcases hmn' with h | h | h <;> rw [h] <;> assumption
    · rcases q2 with h | h | h <;> rw [h] <;> assumption
  subst e1 e2
  clear hmx' hmn' hmx hmn
  rw [hu] at e
  constructor
  swap
  · intro hd
    rw [if_pos hd, Option.some.injEq] at e
    subst e
    unfold hsv2rgb
    rw [if_pos le_rfl]
  intro hd
  rw [if_neg (not_lt.mpr hd)] at e
  have hd0 : 0 < m1 - n1 := lt_of_lt_of_le (by norm_num) hd
  have hn0 : 0 ≤ n1 := by
    obtain ⟨⟨r0, _⟩, ⟨g0, _⟩, ⟨v0, _⟩, _⟩ := hc
    rcases q2 with h | h | h <;> rw [h] <;> assumption
  have hmp : 0 < m1 := by linarith
  rw [if_pos hmp, Option.some.injEq] at e
  subst e
  unfold hsv2rgb
  dsimp only
  rw [if_neg (not_le.mpr (div_pos hd0 hmp))]
  rw [hsvCase_eq (d := m1 - n1) (by field_simp)]
  obtain ⟨r, g, b, al⟩ := c
  dsimp only at *
  have h60 : ∀ y : K, y * 60 / 60 = y := fun y => by field_simp
  have h60' : ∀ y : K, (y * 60 + 360) / 60 = y + 6 := fun y => by field_simp; ring
  by_cases h1 : m1 ≤ r
  · have hr : m1 = r := le_antisymm h1 a1
    subst hr
    rw [if_pos le_rfl]
    obtain ⟨k1, k2⟩ := div_bounds (n := g - b) hd0 (by linarith) (by linarith)
    have hx : (m1 - n1) * ((g - b) / (m1 - n1)) = g - b := by field_simp
    generalize (g - b) / (m1 - n1) = x at hx k1 k2
    by_cases hx0 : x < 0
    · rw [if_pos (by linarith : x * 60 < 0), if_neg (by linarith : ¬ 360 ≤ x * 60 + 360), h60']
      have hgb : g < b := by nlinarith
      have hmg : n1 = g := by rcases q2 with h | h | h <;> [linarith; exact h; linarith]
      rw [if_neg (by linarith), if_neg (by linarith), if_neg (by linarith), if_neg (by linarith), if_neg (by linarith)]
      congr 1
      · linarith
      · nlinarith
    · push Not at hx0
      rw [if_neg (by linarith : ¬ x * 60 < 0), if_neg (by linarith : ¬ 360 ≤ x * 60), h60]
      have hgb : b ≤ g := by nlinarith
      have hmb : n1 = b := by rcases q2 with h | h | h <;> linarith
      by_cases hx1 : x < 1
      · rw [if_pos hx1]
        congr 1
        · nlinarith
        · linarith
      · have : x = 1 := le_antisymm k2 (not_lt.mp hx1)
        subst this
        rw [if_neg (by norm_num), if_pos (by norm_num)]
        congr 1 <;> linarith
  · rw [if_neg h1]
    by_cases h2 : m1 ≤ g
    · have hg : m1 = g := le_antisymm h2 a2
      subst hg
      push Not at h1
      rw [if_pos le_rfl]
      obtain ⟨k1, k2⟩ := div_bounds (n := b - r) hd0 (by linarith) (by linarith)
      have hx : (m1 - n1) * ((b - r) / (m1 - n1)) = b - r := by field_simp
      generalize (b - r) / (m1 - n1) = x at hx k1 k2
      rw [if_neg (by linarith : ¬ (2 + x) * 60 < 0), if_neg (by linarith : ¬ 360 ≤ (2 + x) * 60), h60]
      by_cases hx0 : x < 0
      · have hbr : b < r := by nlinarith
        have hmb : n1 = b := by rcases q2 with h | h | h <;> linarith
        rw [if_neg (by linarith), if_pos (by linarith)]
        congr 1
        · linarith [show (m1 - n1) * (2 + x - 1) = (m1 - n1) + (m1 - n1) * x by ring]
        · linarith
      · push Not at hx0
        have hbr : r ≤ b := by nlinarith
        have hmr : n1 = r := by rcases q2 with h | h | h <;> linarith
        rw [if_neg (by linarith), if_neg (by linarith)]
        by_cases hx1 : x < 1
        · rw [if_pos (by linarith)]
          congr 1
          · linarith
          · linarith [show (m1 - n1) * (3 - (2 + x)) = (m1 - n1) - (m1 - n1) * x by ring]
        · have : x = 1 := le_antisymm k2 (not_lt.mp hx1)
          subst this
          rw [if_neg (by norm_num), if_pos (by norm_num)]
          congr 1
          · linarith
          · linarith [show (m1 - n1) * (2 + 1 - 3) = 0 by ring]
          · linarith
    · have hb : m1 = b := by rcases q1 with h | h | h <;> linarith
      subst hb
      push Not at h1 h2
      rw [if_neg (not_le.mpr h2)]
      obtain ⟨k1, k2⟩ := div_bounds (n := r - g) hd0 (by linarith) (by linarith)
      have hx : (m1 - n1) * ((r - g) / (m1 - n1)) = r - g := by field_simp
      have k3 : (r - g) / (m1 - n1) < 1 := by rw [div_lt_one hd0]; linarith
      generalize (r - g) / (m1 - n1) = x at hx k1 k2 k3
      rw [if_neg (by linarith : ¬ (4 + x) * 60 < 0), if_neg (by linarith : ¬ 360 ≤ (4 + x) * 60), h60]
      by_cases hx0 : x < 0
      · have hrg : r < g := by nlinarith
        have hmr : n1 = r := by rcases q2 with h | h | h <;> linarith
        rw [if_neg (by linarith), if_neg (by linarith), if_neg (by linarith), if_pos (by linarith)]
        congr 1
        · linarith
        · linarith [show (m1 - n1) * (4 + x - 3) = (m1 - n1) + (m1 - n1) * x by ring]
      · push Not at hx0
        have hrg : g ≤ r := by nlinarith
        have hmg : n1 = g := by rcases q2 with h | h | h <;> linarith
        rw [if_neg (by linarith), if_neg (by linarith), if_neg (by linarith), if_neg (by linarith), if_pos (by linarith)]
        congr 1
        · linarith [show (m1 - n1) * (5 - (4 + x)) = (m1 - n1) - (m1 - n1) * x by ring]
        · linarith


/-- `rgb2hsv` for given largest and smallest channels -/
theorem rgb2hsv_of {c : Rgb K} {mx mn : K} (hmx : c.r ≤ mx ∧ c.g ≤ mx ∧ c.b ≤ mx) (hmn : mn ≤ c.r ∧ mn ≤ c.g ∧ mn ≤ c.b)
    (hmx' : mx = c.r ∨ mx = c.g ∨ mx = c.b) (hmn' : mn = c.r ∨ mn = c.g ∨ mn = c.b) (hd : 1 / 100000 ≤ mx - mn) (hp : 0 < mx) {hh : K}
    (hh' : (if mx ≤ c.r then (c.g - c.b) / (mx - mn) else if mx ≤ c.g then 2 + (c.b - c.r) / (mx - mn) else 4 + (c.r - c.g) / (mx - mn)) * 60 = hh) :
    rgb2hsv c = some ⟨if hh < 0 then hh + 360 else hh, (mx - mn) / mx, mx, c.alpha⟩ := by
  obtain ⟨m1, n1, ⟨a1, a2, a3⟩, ⟨b1, b2, b3⟩, q1, q2, e⟩ := rgb2hsv_cases c
  have e1 : m1 = mx := by
    obtain ⟨p1, p2, p3⟩ := hmx
    apply le_antisymm
    · rcases q1 with h | h | h <;> rw [h] <;> assumption
    · rcases hmx' with h | h | h <;> rw [h] <;> assumption
  have e2 : n1 = mn := by
    obtain ⟨p1, p2, p3⟩ := hmn
    apply le_antisymm
    · rcases hmn' with h | h | h <;> rw [h] <;> assumption
    · rcases q2 with h | h | h <;> rw [h] <;> assumption
  subst e1 e2
  rw [e, if_neg (not_lt.mpr hd), if_pos hp, hh']

/-- `rgb2hsv(hsv2rgb(c)) = c`, except for the colors that are almost gray -/
theorem roundtrip_hsv {c : Hsv K} (hc : c.Ok) (h360 : c.h < 360) (hg : 1 / 100000 ≤ c.v * c.s) : rgb2hsv (hsv2rgb c) = some c := by
  obtain ⟨⟨h0, _⟩, ⟨s0, s1⟩, ⟨v0, v1⟩, hal⟩ := hc
  obtain ⟨h, s, v, al⟩ := c
  dsimp only at *
  have hd0 : 0 < v * s := lt_of_lt_of_le (by norm_num) hg
  have hv : 0 < v := by
    rcases lt_or_eq_of_le v0 with h | h
    · exact h
    · rw [← h, zero_mul] at hd0; exact absurd hd0 (lt_irrefl _)
  have hs : 0 < s := by
    rcases lt_or_eq_of_le s0 with h | h
    · exact h
    · rw [← h, mul_zero] at hd0; exact absurd hd0 (lt_irrefl _)
  unfold hsv2rgb
  dsimp only
  rw [if_neg (not_le.mpr hs), if_neg (not_le.mpr h360), hsvCase_eq rfl]
  have hx : h = h / 60 * 60 := by field_simp
  have x0 : 0 ≤ h / 60 := by positivity
  have x6 : h / 60 < 6 := by rw [div_lt_iff₀ (by norm_num)]; linarith
  have hsv' : s = v * s / v := by field_simp
  have hdv : v * s ≤ v := by nlinarith
  generalize hxd : h / 60 = x at hx x0 x6
  generalize hdd : v * s = d at *
  have hdn : d ≠ 0 := hd0.ne'
  have e1 : v - (v - d) = d := by ring
  have fin : ∀ c : Rgb K, c.alpha = al → (c.r ≤ v ∧ c.g ≤ v ∧ c.b ≤ v) → (v - d ≤ c.r ∧ v - d ≤ c.g ∧ v - d ≤ c.b) → (v = c.r ∨ v = c.g ∨ v = c.b) →
      (v - d = c.r ∨ v - d = c.g ∨ v - d = c.b) → ∀ y : K,
      (if v ≤ c.r then (c.g - c.b) / d else if v ≤ c.g then 2 + (c.b - c.r) / d else 4 + (c.r - c.g) / d) = y → (y = x ∨ y = x - 6 ∧ y < 0) →
      rgb2hsv c = some ⟨h, s, v, al⟩ := by
    intro c ca h1 h2 h3 h4 y hy hxy
    rw [rgb2hsv_of h1 h2 h3 h4 (by rw [e1]; exact hg) hv (hh := y * 60) (by rw [e1, hy]), e1, ca, ← hsv']
    rcases hxy with rfl | ⟨rfl, hn⟩
    · rw [if_neg (by linarith), ← hx]
    · rw [if_pos (by linarith), show (x - 6) * 60 + 360 = h by rw [hx]; ring]
  have k1 : ∀ y : K, 0 ≤ y → v - d * y ≤ v := fun y hy => by have := mul_nonneg hd0.le hy; linarith
  have k2 : ∀ y : K, y ≤ 1 → v - d ≤ v - d * y := fun y hy => by have := mul_le_mul_of_nonneg_left hy hd0.le; linarith
  have k3 : ∀ y : K, 0 < y → ¬ v ≤ v - d * y := fun y hy => by have := mul_pos hd0 hy; linarith
  have l1 : v - d ≤ v := by linarith
  have l2 : ¬ v ≤ v - d := by linarith
  clear hg hdv hsv' hdd hxd hal v0 v1 s0 s1 h0 h360
  by_cases c1 : x < 1
  · rw [if_pos c1]
    refine fin _ rfl ⟨le_rfl, k1 _ (by linarith), l1⟩ ⟨l1, k2 _ (by linarith), le_rfl⟩ (.inl rfl) (.inr (.inr rfl)) x ?_ (.inl rfl)
    dsimp only
    rw [if_pos le_rfl]; field_simp; ring
  rw [if_neg c1]; push Not at c1
  by_cases c2 : x < 2
  · rw [if_pos c2]
    refine fin _ rfl ⟨k1 _ (by linarith), le_rfl, l1⟩ ⟨k2 _ (by linarith), l1, le_rfl⟩ (.inr (.inl rfl)) (.inr (.inr rfl)) x ?_ (.inl rfl)
    dsimp only
    by_cases k : x = 1
    · subst k; rw [if_pos (by linarith)]; field_simp; ring
    · have : 1 < x := lt_of_le_of_ne c1 (Ne.symm k)
      rw [if_neg (k3 _ (by linarith)), if_pos le_rfl]; field_simp; ring
  rw [if_neg c2]; push Not at c2
  by_cases c3 : x < 3
  · rw [if_pos c3]
    refine fin _ rfl ⟨l1, le_rfl, k1 _ (by linarith)⟩ ⟨le_rfl, l1, k2 _ (by linarith)⟩ (.inr (.inl rfl)) (.inl rfl) x ?_ (.inl rfl)
    dsimp only
    rw [if_neg l2, if_pos le_rfl]; field_simp; ring
  rw [if_neg c3]; push Not at c3
  by_cases c4 : x < 4
  · rw [if_pos c4]
    refine fin _ rfl ⟨l1, k1 _ (by linarith), le_rfl⟩ ⟨le_rfl, k2 _ (by linarith), l1⟩ (.inr (.inr rfl)) (.inl rfl) x ?_ (.inl rfl)
    dsimp only
    rw [if_neg l2]
    by_cases k : x = 3
    · subst k; rw [if_pos (by linarith)]; field_simp; ring
    · have : 3 < x := lt_of_le_of_ne c3 (Ne.symm k)
      rw [if_neg (k3 _ (by linarith))]; field_simp; ring
  rw [if_neg c4]; push Not at c4
  by_cases c5 : x < 5
  · rw [if_pos c5]
    refine fin _ rfl ⟨k1 _ (by linarith), l1, le_rfl⟩ ⟨k2 _ (by linarith), le_rfl, l1⟩ (.inr (.inr rfl)) (.inr (.inl rfl)) x ?_ (.inl rfl)
    dsimp only
    rw [if_neg (k3 _ (by linarith)), if_neg l2]; field_simp; ring
  · rw [if_neg c5]; push Not at c5
    refine fin _ rfl ⟨le_rfl, l1, k1 _ (by linarith)⟩ ⟨l1, le_rfl, k2 _ (by linarith)⟩ (.inl rfl) (.inr (.inl rfl)) (x - 6) ?_ (.inr ⟨rfl, by linarith⟩)
    dsimp only
    rw [if_pos le_rfl]; field_simp; ring

/-! ### Maps -/

theorem addPoint_mem {m : CMap K} {c : Rgb K} {k : K} (hm : SortedKeys m) (p : K × Rgb K) : p ∈ addPoint m c k ↔ p = (k, c) ∨ (p ∈ m ∧ p.1 ≠ k) := by
  unfold SortedKeys at hm
  induction m with
  | nil => simp [addPoint]
  | cons q l ih =>
    obtain ⟨hq, hl⟩ := List.pairwise_cons.mp hm
    unfold addPoint
    by_cases h1 : k < q.1
    · rw [if_pos h1, List.mem_cons]
      refine or_congr_right ⟨fun h => ⟨h, ?_⟩, fun h => h.1⟩
      rcases List.mem_cons.mp h with rfl | h
      · exact h1.ne'
      · exact (h1.trans (hq p h)).ne'
    · rw [if_neg h1]
      by_cases h2 : k = q.1
      · rw [if_pos h2, List.mem_cons, List.mem_cons]
        refine or_congr_right ⟨fun h => ⟨.inr h, ?_⟩, ?_⟩
        · rw [h2]; exact (hq p h).ne'
        · rintro ⟨rfl | h, hne⟩
          · exact absurd h2.symm hne
          · exact h
      · rw [if_neg h2, List.mem_cons, ih hl, List.mem_cons]
        constructor
        · rintro (rfl | h | ⟨h, h'⟩)
          · exact .inr ⟨.inl rfl, fun h => h2 h.symm⟩
          · exact .inl h
          · exact .inr ⟨.inr h, h'⟩
        · rintro (h | ⟨rfl | h, h'⟩)
          · exact .inr (.inl h)
          · exact .inl rfl
          · exact .inr (.inr ⟨h, h'⟩)

theorem addPoint_sorted {m : CMap K} (c : Rgb K) (k : K) (hm : SortedKeys m) : SortedKeys (addPoint m c k) := by
  induction m with
  | nil => exact List.pairwise_singleton _ _
  | cons q l ih =>
    obtain ⟨hq, hl⟩ := List.pairwise_cons.mp hm
    unfold addPoint
    by_cases h1 : k < q.1
    · rw [if_pos h1]
      refine List.pairwise_cons.mpr ⟨fun p hp => ?_, hm⟩
      rcases List.mem_cons.mp hp with rfl | hp
      · exact h1
      · exact h1.trans (hq p hp)
    · rw [if_neg h1]
      by_cases h2 : k = q.1
      · rw [if_pos h2]
        exact List.pairwise_cons.mpr ⟨fun p hp => by rw [h2]; exact hq p hp, hl⟩
      · rw [if_neg h2]
        refine List.pairwise_cons.mpr ⟨fun p hp => ?_, ih hl⟩
        rcases (addPoint_mem hl p).mp hp with rfl | ⟨hp, _⟩
        · exact lt_of_le_of_ne (not_lt.mp h1) (Ne.symm h2)
        · exact hq p hp

theorem reverse_eq {m : CMap K} (hm : SortedKeys m) : reverse m = (m.map fun p => (1 - p.1, p.2)).reverse := by
  have key : ∀ (l r : CMap K), SortedKeys l → (∀ p ∈ l, ∀ q ∈ r, 1 - p.1 < q.1) →
      l.foldl (fun r p => addPoint r p.2 (1 - p.1)) r = (l.map fun p => (1 - p.1, p.2)).reverse ++ r := by
    intro l
    induction l with
    | nil => intro r _ _; rfl
    | cons p l ih =>
      intro r hl h
      obtain ⟨hp, hl⟩ := List.pairwise_cons.mp hl
      have e : addPoint r p.2 (1 - p.1) = (1 - p.1, p.2) :: r := by
        cases r with
        | nil => rfl
        | cons q r => unfold addPoint; rw [if_pos (h p (by simp) q (by simp))]
      rw [List.foldl_cons, e, ih _ hl]
      · simp
      · intro p' hp' q hq
        rcases List.mem_cons.mp hq with rfl | hq
        · have := hp p' hp'
          show 1 - p'.1 < 1 - p.1
          linarith
        · exact h p' (by simp [hp']) q hq
  have := key m [] hm (by simp)
  rwa [List.append_nil] at this

theorem find_iff {m : CMap K} (hm : SortedKeys m) {x : K} {c : Rgb K} : find x m = some c ↔ (x, c) ∈ m := by
  induction m with
  | nil => simp [find]
  | cons p l ih =>
    obtain ⟨hp, hl⟩ := List.pairwise_cons.mp hm
    unfold find
    by_cases h : p.1 = x
    · rw [if_pos h]
      constructor
      · intro e
        injection e with e
        rw [← e, ← h]; simp
      · intro e
        rcases List.mem_cons.mp e with e | e
        · rw [← e]
        · have := hp _ e
          rw [h] at this
          exact absurd this (lt_irrefl _)
    · rw [if_neg h, ih hl, List.mem_cons]
      refine ⟨.inr, ?_⟩
      rintro (e | e)
      · exact absurd (by rw [← e]) h
      · exact e

theorem bracketFrom_of {x : K} : ∀ {l : CMap K} {p a b : K × Rgb K} {l1 l2 : CMap K}, SortedKeys (p :: l) → p :: l = l1 ++ a :: b :: l2 → a.1 < x → x < b.1 →
    bracketFrom x p l = some (a, b) := by
  intro l
  induction l with
  | nil =>
    intro p a b l1 l2 _ e _ _
    cases l1 <;> simp at e
  | cons q l ih =>
    intro p a b l1 l2 hs e ha hb
    unfold bracketFrom
    cases l1 with
    | nil =>
      simp only [List.nil_append, List.cons.injEq] at e
      obtain ⟨rfl, rfl, rfl⟩ := e
      rw [if_pos hb.le]
    | cons p' l1 =>
      simp only [List.cons_append, List.cons.injEq] at e
      obtain ⟨rfl, e⟩ := e
      have hs' := (List.pairwise_cons.mp hs).2
      have hq : q.1 ≤ a.1 := by
        cases l1 with
        | nil => simp only [List.nil_append, List.cons.injEq] at e; rw [e.1]
        | cons q' l1 =>
          simp only [List.cons_append, List.cons.injEq] at e
          obtain ⟨rfl, e⟩ := e
          exact ((List.pairwise_cons.mp hs').1 a (by rw [e]; simp)).le
      rw [if_neg (by linarith)]
      exact ih hs' e ha hb

theorem bracket_of {x : K} {m : CMap K} (hm : SortedKeys m) {a b : K × Rgb K} {l1 l2 : CMap K} (e : m = l1 ++ a :: b :: l2) (ha : a.1 < x) (hb : x < b.1) :
    bracket x m = some (a, b) := by
  cases m with
  | nil => cases l1 <;> simp at e
  | cons p l =>
    have hp : p.1 ≤ a.1 := by
      cases l1 with
      | nil => simp only [List.nil_append, List.cons.injEq] at e; rw [e.1]
      | cons q' l1 =>
        simp only [List.cons_append, List.cons.injEq] at e
        obtain ⟨rfl, e⟩ := e
        exact ((List.pairwise_cons.mp hm).1 a (by rw [e]; simp)).le
    show (if x ≤ p.1 then none else bracketFrom x p l) = some (a, b)
    rw [if_neg (by linarith)]
    exact bracketFrom_of hm e ha hb

/-- a number between the first and the last keys is a key or between two consecutive keys -/
theorem exists_pair {m : CMap K} {x : K} : ∀ {lo hi : K × Rgb K}, m.head? = some lo → m.getLast? = some hi → lo.1 ≤ x → x ≤ hi.1 →
    (∃ c, (x, c) ∈ m) ∨ ∃ l1 a b l2, m = l1 ++ a :: b :: l2 ∧ a.1 < x ∧ x < b.1 := by
  induction m with
  | nil => intro lo hi h; simp at h
  | cons p l ih =>
    intro lo hi h1 h2 h3 h4
    simp only [List.head?_cons, Option.some.injEq] at h1
    subst h1
    rcases eq_or_lt_of_le h3 with e | h3
    · exact .inl ⟨p.2, by rw [← e]; simp⟩
    · cases l with
      | nil =>
        simp only [List.getLast?_singleton, Option.some.injEq] at h2
        subst h2
        exact absurd h4 (not_le.mpr h3)
      | cons q l =>
        rw [List.getLast?_cons_cons] at h2
        by_cases hq : x < q.1
        · exact .inr ⟨[], p, q, l, rfl, h3, hq⟩
        · rcases ih (lo := q) rfl h2 (not_lt.mp hq) h4 with ⟨c, hc⟩ | ⟨l1, a, b, l2, e, ha, hb⟩
          · exact .inl ⟨c, by simp [hc]⟩
          · exact .inr ⟨p :: l1, a, b, l2, by rw [e]; rfl, ha, hb⟩

theorem head_le_last {m : CMap K} (hm : SortedKeys m) (h2 : 2 ≤ m.length) : ∃ lo hi, m.head? = some lo ∧ m.getLast? = some hi ∧ lo.1 < hi.1 := by
  match m, h2 with
  | p :: q :: l, _ =>
    obtain ⟨hp, _⟩ := List.pairwise_cons.mp hm
    have hne : q :: l ≠ [] := by simp
    refine ⟨p, (q :: l).getLast hne, rfl, by rw [List.getLast?_cons_cons, List.getLast?_eq_some_getLast hne], hp _ (List.getLast_mem hne)⟩

/-- the value of `color(r)` from the place of the number in the map -/
theorem color_eq [FloorRing K] {mode : Mode} {m : CMap K} (hm : SortedKeys m) (h2 : 2 ≤ m.length) {lo hi : K × Rgb K} (hl : m.head? = some lo)
    (hh : m.getLast? = some hi) {r : K} (h0 : 0 ≤ r) (h1 : r ≤ 1) :
    (∀ c, (lo.1 + r * (hi.1 - lo.1), c) ∈ m → color mode m (some r) = some c) ∧
    ∀ l1 a b l2, m = l1 ++ a :: b :: l2 → a.1 < lo.1 + r * (hi.1 - lo.1) → lo.1 + r * (hi.1 - lo.1) < b.1 →
      color mode m (some r) = interpol mode a.2 b.2 ((lo.1 + r * (hi.1 - lo.1) - a.1) / (b.1 - a.1)) := by
  have e : color mode m (some r) = match find (lo.1 + r * (hi.1 - lo.1)) m with
      | some c => some c
      | none => (bracket (lo.1 + r * (hi.1 - lo.1)) m).bind fun pq =>
          interpol mode pq.1.2 pq.2.2 ((lo.1 + r * (hi.1 - lo.1) - pq.1.1) / (pq.2.1 - pq.1.1)) := by
    unfold color
    rw [if_neg (by omega)]
    dsimp only
    rw [if_pos ⟨h0, h1⟩, hl, hh]
    rfl
  constructor
  · intro c hc
    rw [e, (find_iff hm).mpr hc]
  · intro l1 a b l2 hab ha hb
    have hn : find (lo.1 + r * (hi.1 - lo.1)) m = none := by
      cases hf : find (lo.1 + r * (hi.1 - lo.1)) m with
      | none => rfl
      | some c =>
        exfalso
        have hc := (find_iff hm).mp hf
        rw [hab] at hc hm
        have h3 := List.pairwise_append.mp hm
        have h4 := List.pairwise_cons.mp h3.2.1
        have h5 := List.pairwise_cons.mp h4.2
        rcases List.mem_append.mp hc with hc | hc
        · have := h3.2.2 _ hc a (by simp)
          exact absurd this (not_lt.mpr ha.le)
        · rcases List.mem_cons.mp hc with hc | hc
          · rw [← hc] at ha; exact lt_irrefl _ ha
          · rcases List.mem_cons.mp hc with hc | hc
            · rw [← hc] at hb; exact lt_irrefl _ hb
            · exact absurd (h5.1 _ hc) (not_lt.mpr hb.le)
    rw [e, hn, bracket_of hm hab ha hb]
    rfl

end Codac.Col
