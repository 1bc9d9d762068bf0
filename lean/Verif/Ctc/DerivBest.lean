import Verif.Ctc.Eval
import Verif.Ctc.Delay
import Verif.Ctc.Static
import Mathlib.Tactic.Linarith
import Mathlib.Tactic.Ring

/-!
# `CtcDeriv` gives the smallest result: proofs

One slice first: the vertices computed by `Slice::polygon` are values of trajectories (`lower_best`, `upper_best`), and so is what is
computed without the polygon (`noPoly_lower`).
-/

set_option linter.unusedSectionVars false

namespace Codac.Best
open Codac
variable {K : Type*} [Field K] [LinearOrder K] [IsStrictOrderedRing K]

/-- the slopes of `f` on `[a,b]` are in `[vl,vu]` -/
def Slopes (a b vl vu : K) (f : K → K) : Prop :=
  ∀ m t, a ≤ m → m ≤ t → t ≤ b → vl * (t - m) ≤ f t - f m ∧ f t - f m ≤ vu * (t - m)

theorem Slopes.line {a b vl vu c y τ : K} (h1 : vl ≤ c) (h2 : c ≤ vu) : Slopes a b vl vu (fun t => y + c * (t - τ)) := by
  intro m t _ hmt _
  have h : 0 ≤ t - m := sub_nonneg.mpr hmt
  have e : y + c * (t - τ) - (y + c * (m - τ)) = c * (t - m) := by ring
  dsimp only
  rw [e]
  exact ⟨mul_le_mul_of_nonneg_right h1 h, mul_le_mul_of_nonneg_right h2 h⟩

theorem Slopes.max {a b vl vu : K} {f g : K → K} (hf : Slopes a b vl vu f) (hg : Slopes a b vl vu g) :
    Slopes a b vl vu (fun t => max (f t) (g t)) := by
  intro m t h0 h1 h2
  have a1 := hf m t h0 h1 h2
  have a2 := hg m t h0 h1 h2
  dsimp only
  constructor
  · rcases le_total (f m) (g m) with h | h
    · rw [max_eq_right h]; have := le_max_right (f t) (g t); linarith
    · rw [max_eq_left h]; have := le_max_left (f t) (g t); linarith
  · rcases le_total (f t) (g t) with h | h
    · rw [max_eq_right h]; have := le_max_right (f m) (g m); linarith
    · rw [max_eq_left h]; have := le_max_left (f m) (g m); linarith

theorem Slopes.neg {a b vl vu : K} {f : K → K} (hf : Slopes a b vl vu f) : Slopes a b (-vu) (-vl) (fun t => -f t) := by
  intro m t h0 h1 h2
  have a1 := hf m t h0 h1 h2
  dsimp only
  constructor <;> nlinarith

/-- what `SlopeIn` asks for -/
theorem Slopes.toIn {a b vl vu : K} {f : K → K} (hf : Slopes a b vl vu f) :
    ∀ m t, a ≤ m → m < t → t ≤ b → ∃ y ∈ Itv.icc vl vu, f t - f m = y * (t - m) := by
  intro m t h0 h1 h2
  have h := hf m t h0 h1.le h2
  have hp : 0 < t - m := sub_pos.mpr h1
  refine ⟨(f t - f m) / (t - m), ?_, (div_mul_cancel₀ _ hp.ne').symm⟩
  rw [Itv.mem_icc]
  exact ⟨(le_div_iff₀ hp).mpr h.1, (div_le_iff₀ hp).mpr h.2⟩

theorem Slopes.ofIn {a b vl vu : K} {f : K → K}
    (h : ∀ m t, a ≤ m → m < t → t ≤ b → ∃ y ∈ Itv.icc vl vu, f t - f m = y * (t - m)) : Slopes a b vl vu f := by
  intro m t h0 h1 h2
  rcases eq_or_lt_of_le h1 with e | h1
  · subst e; simp
  obtain ⟨y, hy, e⟩ := h m t h0 h1 h2
  rw [Itv.mem_icc] at hy
  have hp : 0 ≤ t - m := (sub_pos.mpr h1).le
  rw [e]
  exact ⟨mul_le_mul_of_nonneg_right hy.1 hp, mul_le_mul_of_nonneg_right hy.2 hp⟩

/-- a trajectory of the slice `[a,b]` from `[i,i]` to `[o,o]`, with values in `[cl,cu]` and slopes in `[vl,vu]` -/
structure Path (a b i o cl cu vl vu : K) (f : K → K) : Prop where
  start : f a = i
  stop : f b = o
  slopes : Slopes a b vl vu f
  ge : ∀ t, a ≤ t → t ≤ b → cl ≤ f t
  le : ∀ t, a ≤ t → t ≤ b → f t ≤ cu

/-- the straight line between two compatible values -/
theorem Path.straight {a b i o cl cu vl vu : K} (hab : a < b) (h1 : vl * (b - a) ≤ o - i) (h2 : o - i ≤ vu * (b - a))
    (hi : cl ≤ i ∧ i ≤ cu) (ho : cl ≤ o ∧ o ≤ cu) : ∃ f, Path a b i o cl cu vl vu f := by
  have hp : 0 < b - a := sub_pos.mpr hab
  have e : (o - i) / (b - a) * (b - a) = o - i := div_mul_cancel₀ _ hp.ne'
  set c := (o - i) / (b - a) with hc
  have key : ∀ t, a ≤ t → t ≤ b → min i o ≤ i + c * (t - a) ∧ i + c * (t - a) ≤ max i o := by
    intro t h0 h1
    rcases le_total 0 c with h | h
    · exact ⟨le_trans (min_le_left _ _) (by nlinarith), le_trans (by nlinarith) (le_max_right _ _)⟩
    · exact ⟨le_trans (min_le_right _ _) (by nlinarith), le_trans (by nlinarith) (le_max_left _ _)⟩
  refine ⟨fun t => i + c * (t - a), by simp, by show i + c * (b - a) = o; linarith,
    Slopes.line (le_of_mul_le_mul_right (by rw [e]; exact h1) hp) (le_of_mul_le_mul_right (by rw [e]; exact h2) hp), ?_, ?_⟩
  · intro t h0 h1; exact le_trans (le_min hi.1 ho.1) (key t h0 h1).1
  · intro t h0 h1; exact le_trans (key t h0 h1).2 (max_le hi.2 ho.2)

/-- the vertices of the lower boundary are values of one trajectory -/
theorem lower_best {a b i o cl cu vl vu : K} (hab : a < b) (hv : vl ≤ vu) (h1 : vl * (b - a) ≤ o - i) (h2 : o - i ≤ vu * (b - a))
    (hi : cl ≤ i ∧ i ≤ cu) (ho : cl ≤ o ∧ o ≤ cu) :
    ∃ f, Path a b i o cl cu vl vu f ∧ ∀ y ∈ lowerVerts a b i o cl vl vu, ∃ t, a ≤ t ∧ t ≤ b ∧ f t = y := by
  have hp : 0 < b - a := sub_pos.mpr hab
  unfold lowerVerts
  by_cases hd : vl = vu
  · rw [if_pos hd]
    obtain ⟨f, hf⟩ := Path.straight (cl := cl) (cu := cu) hab h1 h2 hi ho
    refine ⟨f, hf, ?_⟩
    intro y hy
    simp only [List.mem_cons, List.not_mem_nil, or_false] at hy
    rcases hy with rfl | rfl
    · exact ⟨a, le_rfl, hab.le, hf.start⟩
    · exact ⟨b, hab.le, le_rfl, hf.stop⟩
  rw [if_neg hd]
  have hw : 0 < vu - vl := sub_pos.mpr (lt_of_le_of_ne hv hd)
  dsimp only
  set ti := (i - o + vu * b - vl * a) / (vu - vl) with hti
  have e : ti * (vu - vl) = i - o + vu * b - vl * a := by
    rw [hti]; exact div_mul_cancel₀ _ (ne_of_gt hw)
  have hta : a ≤ ti := le_of_mul_le_mul_right (by rw [e]; nlinarith) hw
  have htb : ti ≤ b := le_of_mul_le_mul_right (by rw [e]; nlinarith) hw
  rw [if_pos ⟨hta, htb⟩]
  have e' : o + vu * (ti - b) = i + vl * (ti - a) := by linarith
  -- the two lines
  set F : K → K := fun t => max (i + vl * (t - a)) (o + vu * (t - b)) with hF
  have sF : Slopes a b vl vu F := (Slopes.line le_rfl hv).max (Slopes.line hv le_rfl)
  have Fa : F a = i := by
    show max (i + vl * (a - a)) (o + vu * (a - b)) = i
    rw [sub_self, mul_zero, add_zero]; exact max_eq_left (by nlinarith)
  have Fb : F b = o := by
    show max (i + vl * (b - a)) (o + vu * (b - b)) = o
    rw [sub_self, mul_zero, add_zero]; exact max_eq_right (by nlinarith)
  have Fle : ∀ t, a ≤ t → t ≤ b → F t ≤ cu := by
    intro t h0 h3
    refine max_le ?_ ?_
    · rcases le_total 0 vl with h | h
      · have : vl * (t - a) ≤ vl * (b - a) := mul_le_mul_of_nonneg_left (by linarith) h
        linarith [ho.2]
      · have : vl * (t - a) ≤ 0 := mul_nonpos_of_nonpos_of_nonneg h (by linarith)
        linarith [hi.2]
    · rcases le_total 0 vu with h | h
      · have : vu * (t - b) ≤ 0 := mul_nonpos_of_nonneg_of_nonpos h (by linarith)
        linarith [ho.2]
      · have : vu * (b - a) ≤ vu * (b - t) := mul_le_mul_of_nonpos_left (by linarith) h
        have : vu * (t - b) = - (vu * (b - t)) := by ring
        linarith [hi.2]
  have Fti : F ti = o + vu * (ti - b) := by
    show max (i + vl * (ti - a)) (o + vu * (ti - b)) = _
    rw [e', max_self]
  by_cases hcl : cl ≤ o + vu * (ti - b)
  · rw [if_pos hcl]
    refine ⟨F, ⟨Fa, Fb, sF, ?_, Fle⟩, ?_⟩
    · intro t h0 h3
      rcases le_total t ti with h | h
      · rcases le_total 0 vl with h' | h'
        · refine le_trans ?_ (le_max_left _ _)
          have : 0 ≤ vl * (t - a) := mul_nonneg h' (by linarith)
          linarith [hi.1]
        · refine le_trans ?_ (le_max_left _ _)
          have : vl * (ti - a) ≤ vl * (t - a) := mul_le_mul_of_nonpos_left (by linarith) h'
          linarith
      · rcases le_total 0 vu with h' | h'
        · refine le_trans ?_ (le_max_right _ _)
          have : vu * (ti - b) ≤ vu * (t - b) := mul_le_mul_of_nonneg_left (by linarith) h'
          linarith
        · refine le_trans ?_ (le_max_right _ _)
          have : 0 ≤ vu * (t - b) := mul_nonneg_of_nonpos_of_nonpos h' (by linarith)
          linarith [ho.1]
    · intro y hy
      simp only [List.mem_cons, List.not_mem_nil, or_false] at hy
      rcases hy with rfl | rfl | rfl
      · exact ⟨a, le_rfl, hab.le, Fa⟩
      · exact ⟨ti, hta, htb, Fti⟩
      · exact ⟨b, hab.le, le_rfl, Fb⟩
  · rw [if_neg hcl]
    have hlt := not_le.mp hcl
    have hvu : 0 < vu := by
      by_contra h
      have : 0 ≤ vu * (ti - b) := mul_nonneg_of_nonpos_of_nonpos (not_lt.mp h) (by linarith)
      linarith [ho.1]
    have hvl : vl < 0 := by
      by_contra h
      have : 0 ≤ vl * (ti - a) := mul_nonneg (not_lt.mp h) (by linarith)
      linarith [hi.1]
    have sc : Slopes a b vl vu (fun _ => cl) := by
      have := Slopes.line (a := a) (b := b) (y := cl) (τ := a) hvl.le hvu.le
      simpa using this
    refine ⟨fun t => max (F t) cl, ⟨?_, ?_, sF.max sc, fun t _ _ => le_max_right _ _, fun t h0 h3 => max_le (Fle t h0 h3) (hi.1.trans hi.2)⟩, ?_⟩
    · show max (F a) cl = i
      rw [Fa]; exact max_eq_left hi.1
    · show max (F b) cl = o
      rw [Fb]; exact max_eq_left ho.1
    · intro y hy
      simp only [List.mem_cons, List.not_mem_nil, or_false] at hy
      rcases hy with rfl | rfl | rfl
      · exact ⟨a, le_rfl, hab.le, by show max (F a) cl = _; rw [Fa]; exact max_eq_left hi.1⟩
      · exact ⟨ti, hta, htb, by show max (F ti) y = _; rw [Fti]; exact max_eq_right hlt.le⟩
      · exact ⟨b, hab.le, le_rfl, by show max (F b) cl = _; rw [Fb]; exact max_eq_left ho.1⟩

theorem upperVerts_neg {a b i o cu vl vu y : K} (h : y ∈ upperVerts a b i o cu vl vu) :
    -y ∈ lowerVerts a b (-i) (-o) (-cu) (-vu) (-vl) := by
  unfold upperVerts at h
  unfold lowerVerts
  by_cases hd : vl = vu
  · rw [if_pos hd] at h
    rw [if_pos (by rw [hd])]
    simp only [List.mem_cons, List.not_mem_nil, or_false] at h ⊢
    rcases h with rfl | rfl <;> simp
  rw [if_neg hd] at h
  rw [if_neg (by intro h'; exact hd (neg_injective h').symm)]
  dsimp only at h ⊢
  have e : (-i - -o + -vl * b - -vu * a) / (-vl - -vu) = (o - i + vu * a - vl * b) / (vu - vl) := by congr 1 <;> ring
  rw [e]
  set ti := (o - i + vu * a - vl * b) / (vu - vl)
  by_cases hin : a ≤ ti ∧ ti ≤ b
  · rw [if_pos hin] at h ⊢
    by_cases hc : o + vl * (ti - b) ≤ cu
    · rw [if_pos hc] at h
      rw [if_pos (by linarith)]
      simp only [List.mem_cons, List.not_mem_nil, or_false] at h ⊢
      rcases h with rfl | rfl | rfl
      · simp
      · right; left; ring
      · simp
    · rw [if_neg hc] at h
      rw [if_neg (by intro h'; exact hc (by linarith))]
      simp only [List.mem_cons, List.not_mem_nil, or_false] at h ⊢
      rcases h with rfl | rfl | rfl <;> simp
  · rw [if_neg hin] at h ⊢
    simp only [List.mem_cons, List.not_mem_nil, or_false] at h ⊢
    rcases h with rfl | rfl <;> simp

/-- the vertices of the upper boundary are values of one trajectory -/
theorem upper_best {a b i o cl cu vl vu : K} (hab : a < b) (hv : vl ≤ vu) (h1 : vl * (b - a) ≤ o - i) (h2 : o - i ≤ vu * (b - a))
    (hi : cl ≤ i ∧ i ≤ cu) (ho : cl ≤ o ∧ o ≤ cu) :
    ∃ f, Path a b i o cl cu vl vu f ∧ ∀ y ∈ upperVerts a b i o cu vl vu, ∃ t, a ≤ t ∧ t ≤ b ∧ f t = y := by
  obtain ⟨f, hf, hy⟩ := lower_best (a := a) (b := b) (i := -i) (o := -o) (cl := -cu) (cu := -cl) (vl := -vu) (vu := -vl) hab (by linarith)
    (by nlinarith) (by nlinarith) ⟨by linarith [hi.2], by linarith [hi.1]⟩ ⟨by linarith [ho.2], by linarith [ho.1]⟩
  refine ⟨fun t => -f t, ⟨by simp [hf.start], by simp [hf.stop], ?_, ?_, ?_⟩, ?_⟩
  · have := hf.slopes.neg; simpa using this
  · intro t h0 h3; have := hf.le t h0 h3; show cl ≤ -f t; linarith
  · intro t h0 h3; have := hf.ge t h0 h3; show -f t ≤ cu; linarith
  · intro y hy'
    obtain ⟨t, h0, h3, e⟩ := hy _ (upperVerts_neg hy')
    exact ⟨t, h0, h3, by simp [e]⟩

/-- without the polygon, `min`: both gates are contracted (`p`, `q`: the bounds of the derivative times the length of the slice) -/
theorem noPoly_lower {i1 i2 o1 o2 p q y : K} (hpq : p ≤ q)
    (h1 : i1 + p > o1 ∨ o2 > i2 + q) (h2 : i1 < o1 - q ∨ i2 > o2 - p)
    (ha : max i1 (o1 - q) + min 0 p ≤ y) (hb : max o1 (i1 + p) - max 0 q ≤ y) :
    max i1 (o1 - q) ≤ y ∨ max o1 (i1 + p) ≤ y := by
  rcases h1 with h1 | h1
  · rw [max_eq_left (by linarith : o1 - q ≤ i1)] at ha ⊢
    rw [max_eq_right h1.le] at hb ⊢
    rcases le_total 0 p with h | h
    · rw [min_eq_left h] at ha; left; linarith
    · rw [min_eq_right h] at ha; right; exact ha
  · rcases h2 with h2 | h2
    · rw [max_eq_right h2.le] at ha ⊢
      rw [max_eq_left (by linarith : i1 + p ≤ o1)] at hb ⊢
      rcases le_total 0 q with h | h
      · rw [max_eq_right h] at hb; left; linarith
      · rw [max_eq_left h] at hb; right; linarith
    · linarith

theorem noPoly_upper {i1 i2 o1 o2 p q y : K} (hpq : p ≤ q)
    (h1 : i1 + p > o1 ∨ o2 > i2 + q) (h2 : i1 < o1 - q ∨ i2 > o2 - p)
    (ha : y ≤ min i2 (o2 - p) + max 0 q) (hb : y ≤ min o2 (i2 + q) - min 0 p) :
    y ≤ min i2 (o2 - p) ∨ y ≤ min o2 (i2 + q) := by
  rcases h1 with h1 | h1
  · rcases h2 with h2 | h2
    · linarith
    · rw [min_eq_right h2.le] at ha ⊢
      rw [min_eq_left (by linarith : o2 ≤ i2 + q)] at hb ⊢
      rcases le_total 0 p with h | h
      · rw [min_eq_left h] at hb; right; linarith
      · rw [min_eq_right h] at hb; left; linarith
  · rw [min_eq_left (by linarith : i2 ≤ o2 - p)] at ha ⊢
    rw [min_eq_right h1.le] at hb ⊢
    rcases le_total 0 q with h | h
    · rw [max_eq_right h] at ha; right; exact ha
    · rw [max_eq_left h] at ha; left; linarith

theorem hullPts_le {l : List K} {J : Itv K} (h : ∀ y ∈ l, y ∈ J) : hullPts l ≤ J := by
  induction l with
  | nil => exact bot_le
  | cons a l ih =>
    refine sup_le ?_ (ih fun y hy => h y (List.mem_cons_of_mem _ hy))
    rw [Itv.le_iff]
    intro x hx
    rw [Itv.mem_point] at hx
    subst hx
    exact h _ List.mem_cons_self

/-! ### Exact arithmetic on bounded intervals -/

theorem icc_add {a b c d : K} (h1 : a ≤ b) (h2 : c ≤ d) : Itv.add (Itv.icc a b) (Itv.icc c d) = Itv.icc (a + c) (b + d) := by
  rw [Itv.icc_eq_mk h1, Itv.icc_eq_mk h2]; rfl

theorem icc_neg {a b : K} (h1 : a ≤ b) : Itv.neg (Itv.icc a b) = Itv.icc (-b) (-a) := by
  rw [Itv.icc_eq_mk h1]; rfl

theorem icc_sub {a b c d : K} (h1 : a ≤ b) (h2 : c ≤ d) : Itv.sub (Itv.icc a b) (Itv.icc c d) = Itv.icc (a - d) (b - c) := by
  unfold Itv.sub
  rw [icc_neg h2, icc_add h1 (by linarith), sub_eq_add_neg, sub_eq_add_neg]

theorem icc_mul {a b c d : K} (h1 : a ≤ b) (h2 : c ≤ d) : Itv.mul (Itv.icc a b) (Itv.icc c d) =
    Itv.icc (min (min (a * c) (a * d)) (min (b * c) (b * d))) (max (max (a * c) (a * d)) (max (b * c) (b * d))) := by
  rw [Itv.icc_eq_mk h1, Itv.icc_eq_mk h2]; rfl

theorem point_eq_icc (a : K) : Itv.point a = Itv.icc a a := by
  rw [Itv.icc_eq_mk le_rfl]; rfl

theorem point_mul {c a b : K} (hc : 0 ≤ c) (h : a ≤ b) : Itv.mul (Itv.point c) (Itv.icc a b) = Itv.icc (c * a) (c * b) := by
  have h' : c * a ≤ c * b := mul_le_mul_of_nonneg_left h hc
  rw [point_eq_icc, icc_mul le_rfl h]
  simp [h']

theorem zero_mul {c a b : K} (hc : 0 ≤ c) (h : a ≤ b) : Itv.mul (Itv.icc 0 c) (Itv.icc a b) = Itv.icc (min 0 (c * a)) (max 0 (c * b)) := by
  have h' : c * a ≤ c * b := mul_le_mul_of_nonneg_left h hc
  rw [icc_mul hc h]
  simp [h']

theorem icc_inf {a b c d : K} : Itv.icc a b ⊓ Itv.icc c d = Itv.icc (max a c) (min b d) := by
  apply Itv.ext_mem
  intro x
  rw [Itv.mem_inf, Itv.mem_icc, Itv.mem_icc, Itv.mem_icc, max_le_iff, le_min_iff]
  tauto

theorem eq_icc_of_le {X : Itv K} {a b x : K} (h : X ≤ Itv.icc a b) (hx : x ∈ X) :
    ∃ l u, l ≤ u ∧ X = Itv.icc l u ∧ a ≤ l ∧ u ≤ b := by
  cases X with
  | empty => exact absurd hx (Itv.not_mem_bot x)
  | mk lo hi p =>
    have hm : ∀ y, y ∈ Itv.mk lo hi p → a ≤ y ∧ y ≤ b := fun y hy => by
      rw [← Itv.mem_icc]; exact Itv.mem_of_le h hy
    cases lo with
    | none =>
      have := (hm (min x (a - 1)) ⟨trivial, by
        have := hx.2
        cases hi with
        | none => trivial
        | some u => exact le_trans (min_le_left _ _) this⟩).1
      have := le_trans this (min_le_right _ _)
      linarith
    | some l =>
      cases hi with
      | none =>
        have := (hm (max x (b + 1)) ⟨le_trans hx.1 (le_max_left _ _), trivial⟩).2
        have := le_trans (le_max_right _ _) this
        linarith
      | some u =>
        have hlu : l ≤ u := le_trans hx.1 hx.2
        exact ⟨l, u, hlu, (Itv.icc_eq_mk hlu).symm, (hm l ⟨le_rfl, hlu⟩).1, (hm u ⟨hlu, le_rfl⟩).2⟩

theorem restoreInf_eq {B C : K} {X : Itv K} (h : X ≤ Itv.icc (-C) C) (hC : C < B) : restoreInf B X = X := by
  by_cases he : X = ⊥
  · subst he; rfl
  · have : ∃ x, x ∈ X := by
      by_contra h'
      apply he
      apply Itv.ext_mem
      intro x
      exact ⟨fun hx => absurd ⟨x, hx⟩ h', fun hx => absurd hx (Itv.not_mem_bot x)⟩
    obtain ⟨x, hx⟩ := this
    obtain ⟨l, u, hlu, rfl, h1, h2⟩ := eq_icc_of_le h hx
    rw [Itv.icc_eq_mk hlu]
    show Itv.ofBounds (if some l = some (-B) then none else some l) (if some u = some B then none else some u) = _
    have n1 : ¬ some l = some (-B) := by intro h'; injection h' with h'; linarith
    have n2 : ¬ some u = some B := by intro h'; injection h' with h'; linarith
    rw [if_neg n1, if_neg n2, ← Itv.icc_eq_mk hlu]
    rfl

/-- the bounds of the contracted gates are compatible -/
theorem gates_lower {i1 o1 p q : K} (hpq : p ≤ q) :
    p ≤ max o1 (i1 + p) - max i1 (o1 - q) ∧ max o1 (i1 + p) - max i1 (o1 - q) ≤ q := by
  constructor
  · rcases le_total i1 (o1 - q) with h | h
    · rw [max_eq_right h]; have := le_max_left o1 (i1 + p); linarith
    · rw [max_eq_left h]; have := le_max_right o1 (i1 + p); linarith
  · rcases le_total o1 (i1 + p) with h | h
    · rw [max_eq_right h]; have := le_max_left i1 (o1 - q); linarith
    · rw [max_eq_left h]; have := le_max_right i1 (o1 - q); linarith

theorem gates_upper {i2 o2 p q : K} (hpq : p ≤ q) :
    p ≤ min o2 (i2 + q) - min i2 (o2 - p) ∧ min o2 (i2 + q) - min i2 (o2 - p) ≤ q := by
  constructor
  · rcases le_total o2 (i2 + q) with h | h
    · rw [min_eq_left h]; have := min_le_right i2 (o2 - p); linarith
    · rw [min_eq_right h]; have := min_le_left i2 (o2 - p); linarith
  · rcases le_total i2 (o2 - p) with h | h
    · rw [min_eq_left h]; have := min_le_right o2 (i2 + q); linarith
    · rw [min_eq_right h]; have := min_le_left o2 (i2 + q); linarith

theorem Path.encloses {s : Slice K} {i o cl cu vl vu : K} {f : K → K} (h : Path s.lb s.ub i o cl cu vl vu f)
    (hi : i ∈ s.inG) (ho : o ∈ s.outG) (hc : s.cod = Itv.icc cl cu) : s.Encloses f := by
  refine ⟨by rw [h.start]; exact hi, by rw [h.stop]; exact ho, ?_⟩
  intro t h0 h1
  rw [hc, Itv.mem_icc]
  exact ⟨h.ge t h0.le h1.le, h.le t h0.le h1.le⟩

/-- what a call of `CtcDeriv` on a slice computes, as sets: `dt` times the slopes is between `p` and `q` -/
structure Computed (s r : Slice K) (vl vu : K) : Prop where
  inG : ∀ a, a ∈ r.inG ↔ a ∈ s.inG ∧ ∃ b ∈ s.outG, vl * (s.ub - s.lb) ≤ b - a ∧ b - a ≤ vu * (s.ub - s.lb)
  outG : ∀ b, b ∈ r.outG ↔ b ∈ s.outG ∧ ∃ a ∈ s.inG, vl * (s.ub - s.lb) ≤ b - a ∧ b - a ≤ vu * (s.ub - s.lb)
  cod : ∀ J : Itv K, (∀ f, s.Encloses f → Slopes s.lb s.ub vl vu f → ∀ t, s.lb ≤ t → t ≤ s.ub → f t ∈ J) → r.cod ≤ J
  keeps : ∀ f, s.Encloses f → Slopes s.lb s.ub vl vu f → (Slice.mk s.lb s.ub r.cod r.inG r.outG).Encloses f

theorem le_infOpt' {X Z : Itv K} {o : Option (Itv K)} (h : infOpt X o = Z) : Z ≤ X := h ▸ infOpt_le X o

theorem infOpt_eq {X : Itv K} {o : Option (Itv K)} (h : ∀ c, o = some c → X ≤ c) : infOpt X o = X :=
  le_antisymm (infOpt_le X o) (le_infOpt le_rfl h)

theorem derivSlice_best {B C vl vu : K} {s : Slice K} {p n : Option (Itv K)} (hlt : s.lb < s.ub) (hl : LocalGC p n s)
    (hC : s.cod ≤ Itv.icc (-C) C) (hCB : C < B) (hv : vl ≤ vu) {f0 : K → K} (he : s.Encloses f0)
    (hs0 : Slopes s.lb s.ub vl vu f0) : Computed s (derivSlice (IArith.exact K) B ⊤ (Itv.icc vl vu) p n s) vl vu := by
  have hdt : 0 < s.ub - s.lb := sub_pos.mpr hlt
  -- bounds
  obtain ⟨cl, cu, hcc, ec, hc1, hc2⟩ := eq_icc_of_le hC (Itv.mem_of_le hl.inC he.1)
  obtain ⟨i1, i2, hii, ei, hi1, hi2⟩ := eq_icc_of_le (ec ▸ hl.inC) he.1
  obtain ⟨o1, o2, hoo, eo, ho1, ho2⟩ := eq_icc_of_le (ec ▸ hl.outC) he.2.1
  have hkeep : ∀ f, s.Encloses f → Slopes s.lb s.ub vl vu f → (Slice.mk s.lb s.ub (derivSlice (IArith.exact K) B ⊤ (Itv.icc vl vu) p n s).cod
      (derivSlice (IArith.exact K) B ⊤ (Itv.icc vl vu) p n s).inG (derivSlice (IArith.exact K) B ⊤ (Itv.icc vl vu) p n s).outG).Encloses f := by
    intro f hf hsf
    refine derivSlice_encloses hlt hl hf hsf.toIn ?_
    intro t h0 h1
    have : f t ∈ s.cod := by
      rcases eq_or_lt_of_le h0 with e | h0'
      · exact Itv.mem_of_le hl.inC (e ▸ hf.1)
      rcases eq_or_lt_of_le h1 with e | h1'
      · exact Itv.mem_of_le hl.outC (e ▸ hf.2.1)
      exact hf.2.2 t h0' h1'
    have := Itv.mem_of_le hC this
    rw [Itv.mem_icc] at this
    constructor <;> linarith [this.1, this.2]
  set P := vl * (s.ub - s.lb) with hP
  set Q := vu * (s.ub - s.lb) with hQ
  have hPQ : P ≤ Q := mul_le_mul_of_nonneg_right hv hdt.le
  -- two compatible values are joined by a trajectory
  have join : ∀ a ∈ s.inG, ∀ b ∈ s.outG, P ≤ b - a → b - a ≤ Q → ∃ f, Path s.lb s.ub a b cl cu vl vu f := by
    intro a ha b hb h1 h2
    have ha' := Itv.mem_of_le hl.inC ha
    have hb' := Itv.mem_of_le hl.outC hb
    rw [ec, Itv.mem_icc] at ha' hb'
    exact Path.straight hlt h1 h2 ha' hb'
  -- the contracted gates
  have eing : s.inG ⊓ Itv.sub s.outG (Itv.mul (.point (s.ub - s.lb)) (Itv.icc vl vu)) = Itv.icc (max i1 (o1 - Q)) (min i2 (o2 - P)) := by
    rw [point_mul hdt.le hv, ei, eo, mul_comm _ vl, mul_comm _ vu, ← hP, ← hQ, icc_sub hoo hPQ, icc_inf]
  have eoutg : s.outG ⊓ Itv.add s.inG (Itv.mul (.point (s.ub - s.lb)) (Itv.icc vl vu)) = Itv.icc (max o1 (i1 + P)) (min o2 (i2 + Q)) := by
    rw [point_mul hdt.le hv, ei, eo, mul_comm _ vl, mul_comm _ vu, ← hP, ← hQ, icc_add hii hPQ, icc_inf]
  have ezero : Itv.mul (Itv.icc 0 (s.ub - s.lb)) (Itv.icc vl vu) = Itv.icc (min 0 P) (max 0 Q) := by
    rw [zero_mul hdt.le hv, mul_comm _ vl, mul_comm _ vu]
  have m0 : f0 s.lb ∈ Itv.icc (max i1 (o1 - Q)) (min i2 (o2 - P)) ∧ f0 s.ub ∈ Itv.icc (max o1 (i1 + P)) (min o2 (i2 + Q)) := by
    have a1 := he.1
    have a2 := he.2.1
    rw [ei, Itv.mem_icc] at a1
    rw [eo, Itv.mem_icc] at a2
    have a3 := hs0 s.lb s.ub le_rfl hlt.le le_rfl
    rw [Itv.mem_icc, Itv.mem_icc, max_le_iff, le_min_iff, max_le_iff, le_min_iff]
    exact ⟨⟨⟨a1.1, by linarith [a3.2]⟩, a1.2, by linarith [a3.1]⟩, ⟨a2.1, by linarith [a3.1]⟩, a2.2, by linarith [a3.2]⟩
  have hing := le_trans (Itv.mem_icc.mp m0.1).1 (Itv.mem_icc.mp m0.1).2
  have houtg := le_trans (Itv.mem_icc.mp m0.2).1 (Itv.mem_icc.mp m0.2).2
  set il := max i1 (o1 - Q) with hil
  set iu := min i2 (o2 - P) with hiu
  set ol := max o1 (i1 + P) with hol
  set ou := min o2 (i2 + Q) with hou
  have bil : il ∈ s.inG ∧ iu ∈ s.inG := by
    rw [ei, Itv.mem_icc, Itv.mem_icc]
    exact ⟨⟨le_max_left _ _, hing.trans (min_le_left _ _)⟩, (le_max_left _ _).trans hing, min_le_left _ _⟩
  have bol : ol ∈ s.outG ∧ ou ∈ s.outG := by
    rw [eo, Itv.mem_icc, Itv.mem_icc]
    exact ⟨⟨le_max_left _ _, houtg.trans (min_le_left _ _)⟩, (le_max_left _ _).trans houtg, min_le_left _ _⟩
  have cil : (cl ≤ il ∧ il ≤ cu) ∧ (cl ≤ iu ∧ iu ≤ cu) := by
    rw [← Itv.mem_icc, ← Itv.mem_icc, ← ec]; exact ⟨Itv.mem_of_le hl.inC bil.1, Itv.mem_of_le hl.inC bil.2⟩
  have col : (cl ≤ ol ∧ ol ≤ cu) ∧ (cl ≤ ou ∧ ou ≤ cu) := by
    rw [← Itv.mem_icc, ← Itv.mem_icc, ← ec]; exact ⟨Itv.mem_of_le hl.outC bol.1, Itv.mem_of_le hl.outC bol.2⟩
  have glow := gates_lower (i1 := i1) (o1 := o1) hPQ
  have gup := gates_upper (i2 := i2) (o2 := o2) hPQ
  obtain ⟨fl, pl, vL⟩ := lower_best hlt hv glow.1 glow.2 cil.1 col.1
  obtain ⟨fu, pu, vU⟩ := upper_best hlt hv gup.1 gup.2 cil.2 col.2
  have el := pl.encloses bil.1 bol.1 ec
  have eu := pu.encloses bil.2 bol.2 ec
  -- the gates are at most the contracted ones, and the envelope is at most what contains the trajectories
  have hle : (derivSlice (IArith.exact K) B ⊤ (Itv.icc vl vu) p n s).inG ≤ Itv.icc il iu ∧
      (derivSlice (IArith.exact K) B ⊤ (Itv.icc vl vu) p n s).outG ≤ Itv.icc ol ou ∧
      ∀ J : Itv K, (∀ f, s.Encloses f → Slopes s.lb s.ub vl vu f → ∀ t, s.lb ≤ t → t ≤ s.ub → f t ∈ J) →
        (derivSlice (IArith.exact K) B ⊤ (Itv.icc vl vu) p n s).cod ≤ J := by
    have hR : ¬ (Itv.icc s.lb s.ub).intersects (⊤ : Itv K) = false := by
      have : (Itv.icc s.lb s.ub).intersects (⊤ : Itv K) = true :=
        Itv.intersects_of_mem (x := s.lb) (by rw [Itv.mem_icc]; exact ⟨le_rfl, hlt.le⟩) (Itv.mem_all _)
      rw [this]; simp
    have hbC : ∀ X : Itv K, X ≤ s.cod → X ≤ Itv.icc (-C) C := fun X h => h.trans hC
    have iccIn : Itv.icc il iu ≤ s.inG := by rw [← eing]; exact inf_le_left
    have iccOut : Itv.icc ol ou ≤ s.outG := by rw [← eoutg]; exact inf_le_left
    unfold derivSlice
    rw [if_neg hR]
    simp only [IArith.exact, eing, eoutg, ezero]
    by_cases hopt : s.outG ≤ Itv.icc ol ou ∨ s.inG ≤ Itv.icc il iu
    · rw [if_pos hopt]
      have e1 : s.cod ⊓ Itv.icc (-B) B = s.cod := by
        refine inf_eq_left.mpr (hC.trans ?_)
        rw [Itv.le_iff]; intro x hx; rw [Itv.mem_icc] at hx ⊢; constructor <;> linarith [hx.1, hx.2]
      rw [e1, restoreInf_eq (hbC _ (iccIn.trans hl.inC)) hCB, restoreInf_eq (hbC _ (iccOut.trans hl.outC)) hCB,
        restoreInf_eq (hbC _ inf_le_left) hCB]
      refine ⟨?_, ?_, ?_⟩
      · simp only [Slice.setOutputGate, Slice.setInputGate, Slice.setEnvelope, if_true]
        exact (infOpt_le _ _).trans inf_le_left
      · simp only [Slice.setOutputGate, Slice.setInputGate, Slice.setEnvelope, if_true]
        exact (infOpt_le _ _).trans inf_le_left
      · intro J hJ
        simp only [Slice.setOutputGate, Slice.setInputGate, Slice.setEnvelope, if_true]
        refine inf_le_right.trans ?_
        have x1 : infOpt (Itv.icc il iu ⊓ s.cod) p = Itv.icc il iu := by
          rw [inf_eq_left.mpr (iccIn.trans hl.inC)]
          exact infOpt_eq fun c hc => iccIn.trans (hl.inP c hc)
        have x2 : infOpt (Itv.icc ol ou ⊓ s.cod) n = Itv.icc ol ou := by
          rw [inf_eq_left.mpr (iccOut.trans hl.outC)]
          exact infOpt_eq fun c hc => iccOut.trans (hl.outN c hc)
        unfold polyBox
        dsimp only
        rw [x1, x2, if_neg (Itv.ne_bot_of_mem (Itv.mem_of_le hl.inC he.1)), if_neg (by
          intro h
          have : vu + 1 ∈ Itv.icc vl vu := by rw [h]; exact Itv.mem_all _
          rw [Itv.mem_icc] at this; linarith [this.2])]
        unfold polyHull
        rw [if_neg (by
          rintro (h | h | h)
          · exact Itv.ne_bot_of_mem m0.1 h
          · exact Itv.ne_bot_of_mem m0.2 h
          · exact Itv.ne_bot_of_mem (x := vl) (by rw [Itv.mem_icc]; exact ⟨le_rfl, hv⟩) h)]
        rw [ec, Itv.icc_eq_mk hcc, Itv.icc_eq_mk hing, Itv.icc_eq_mk houtg, Itv.icc_eq_mk hv]
        simp only [Itv.bounds?]
        refine hullPts_le ?_
        intro y hy
        rcases List.mem_append.mp hy with hy | hy
        · obtain ⟨t, h0, h1, rfl⟩ := vL y hy
          exact hJ fl el pl.slopes t h0 h1
        · obtain ⟨t, h0, h1, rfl⟩ := vU y hy
          exact hJ fu eu pu.slopes t h0 h1
    · rw [if_neg hopt]
      refine ⟨?_, ?_, ?_⟩
      · simp only [Slice.setOutputGate, Slice.setInputGate, Slice.setEnvelope, if_true]
        exact (infOpt_le _ _).trans inf_le_left
      · simp only [Slice.setOutputGate, Slice.setInputGate, Slice.setEnvelope, if_true]
        exact (infOpt_le _ _).trans inf_le_left
      · intro J hJ
        simp only [Slice.setOutputGate, Slice.setInputGate, Slice.setEnvelope, if_true]
        have hmm : min 0 P ≤ max 0 Q := (min_le_left _ _).trans (le_max_left _ _)
        rw [icc_add hing hmm, icc_sub houtg hmm, Itv.le_iff]
        intro y hy
        rw [Itv.mem_inf, Itv.mem_inf, Itv.mem_icc, Itv.mem_icc] at hy
        have hopt' := not_or.mp hopt
        have h1 : i1 + P > o1 ∨ o2 > i2 + Q := by
          by_contra h
          push Not at h
          apply hopt'.1
          rw [eo, Itv.le_iff]; intro x hx
          rw [Itv.mem_icc] at hx ⊢
          exact ⟨max_le hx.1 (h.1.trans hx.1), le_min hx.2 (hx.2.trans h.2)⟩
        have h2 : i1 < o1 - Q ∨ i2 > o2 - P := by
          by_contra h
          push Not at h
          apply hopt'.2
          rw [ei, Itv.le_iff]; intro x hx
          rw [Itv.mem_icc] at hx ⊢
          exact ⟨max_le hx.1 (h.1.trans hx.1), le_min hx.2 (hx.2.trans h.2)⟩
        have jl := hJ fl el pl.slopes
        have ju := hJ fu eu pu.slopes
        have ends : il ∈ J ∧ ol ∈ J ∧ iu ∈ J ∧ ou ∈ J := by
          refine ⟨?_, ?_, ?_, ?_⟩
          · have := jl s.lb le_rfl hlt.le; rwa [pl.start] at this
          · have := jl s.ub hlt.le le_rfl; rwa [pl.stop] at this
          · have := ju s.lb le_rfl hlt.le; rwa [pu.start] at this
          · have := ju s.ub hlt.le le_rfl; rwa [pu.stop] at this
        rcases noPoly_lower hPQ h1 h2 hy.1.2.1 hy.2.1 with l | l <;>
          rcases noPoly_upper hPQ h1 h2 hy.1.2.2 hy.2.2 with u | u
        · exact Itv.mem_of_between ends.1 ends.2.2.1 l u
        · exact Itv.mem_of_between ends.1 ends.2.2.2 l u
        · exact Itv.mem_of_between ends.2.1 ends.2.2.1 l u
        · exact Itv.mem_of_between ends.2.1 ends.2.2.2 l u
  refine ⟨?_, ?_, hle.2.2, hkeep⟩
  · intro a
    constructor
    · intro ha
      have ha := Itv.mem_of_le hle.1 ha
      rw [Itv.mem_icc, max_le_iff, le_min_iff] at ha
      refine ⟨by rw [ei, Itv.mem_icc]; exact ⟨ha.1.1, ha.2.1⟩, max o1 (a + P), ?_, ?_, ?_⟩
      · rw [eo, Itv.mem_icc]; exact ⟨le_max_left _ _, max_le hoo (by linarith [ha.2.2])⟩
      · have := le_max_right o1 (a + P); linarith
      · have : max o1 (a + P) ≤ a + Q := max_le (by linarith [ha.1.2]) (by linarith)
        linarith
    · rintro ⟨ha, b, hb, h1, h2⟩
      obtain ⟨f, hf⟩ := join a ha b hb h1 h2
      have := (hkeep f (hf.encloses ha hb ec) hf.slopes).1
      simpa [hf.start] using this
  · intro b
    constructor
    · intro hb
      have hb := Itv.mem_of_le hle.2.1 hb
      rw [Itv.mem_icc, max_le_iff, le_min_iff] at hb
      refine ⟨by rw [eo, Itv.mem_icc]; exact ⟨hb.1.1, hb.2.1⟩, max i1 (b - Q), ?_, ?_, ?_⟩
      · rw [ei, Itv.mem_icc]; exact ⟨le_max_left _ _, max_le hii (by linarith [hb.2.2])⟩
      · have : max i1 (b - Q) ≤ b - P := max_le (by linarith [hb.1.2]) (by linarith)
        linarith
      · have := le_max_right i1 (b - Q); linarith
    · rintro ⟨hb, a, ha, h1, h2⟩
      obtain ⟨f, hf⟩ := join a ha b hb h1 h2
      have := (hkeep f (hf.encloses ha hb ec) hf.slopes).2.1
      simpa [hf.stop] using this

end Codac.Best
