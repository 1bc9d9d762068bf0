import Verif.Geometry.InPolygon
import Verif.Ctc.HullOps

/-!
# Exact operations for `PdcInPolygon` and `SepPolygon`

The best possible operations of intervals, a difference of boxes: an instance of what is assumed of IBEX.
-/

set_option linter.unusedSectionVars false

namespace Codac
namespace InPoly

open Complex (arg)

/-- the middle of an interval, a number of the interval if it is not bounded -/
noncomputable def midR : Itv ℝ → ℝ
  | .empty => 0
  | .mk (some a) (some b) _ => (a + b) / 2
  | .mk (some a) none _ => a + 1
  | .mk none (some b) _ => b - 1
  | .mk none none _ => 0

theorem midR_mem {X : Itv ℝ} (h : X ≠ ⊥) : midR X ∈ X := by
  match X with
  | .empty => exact absurd rfl h
  | .mk (some a) (some b) p =>
    have p' : a ≤ b := p
    exact ⟨show a ≤ (a + b) / 2 by linarith, show (a + b) / 2 ≤ b by linarith⟩
  | .mk (some a) none _ => exact ⟨show a ≤ a + 1 by linarith, trivial⟩
  | .mk none (some b) _ => exact ⟨trivial, show b - 1 ≤ b by linarith⟩
  | .mk none none _ => exact ⟨trivial, trivial⟩

theorem midR_lt {X : Itv ℝ} {l x : ℝ} (h : ∀ z ∈ X, z ≤ l) (hx : x ∈ X) (hl : x < l) : midR X < l := by
  match X with
  | .empty => exact hx.elim
  | .mk (some a) (some b) p =>
    have p' : a ≤ b := p
    have h1 : b ≤ l := h b ⟨p', le_refl b⟩
    have h2 : a ≤ x := hx.1
    show (a + b) / 2 < l
    linarith
  | .mk (some a) none _ =>
    have h1 : a ≤ x := hx.1
    have := h (l + 1) ⟨show a ≤ l + 1 by linarith, trivial⟩
    linarith
  | .mk none (some b) _ =>
    have h1 : b ≤ l := h b ⟨trivial, le_refl b⟩
    show b - 1 < l
    linarith
  | .mk none none _ =>
    have := h (l + 1) ⟨trivial, trivial⟩
    linarith

theorem lt_midR {X : Itv ℝ} {u x : ℝ} (h : ∀ z ∈ X, u ≤ z) (hx : x ∈ X) (hu : u < x) : u < midR X := by
  match X with
  | .empty => exact hx.elim
  | .mk (some a) (some b) p =>
    have p' : a ≤ b := p
    have h1 : u ≤ a := h a ⟨le_refl a, p'⟩
    have h2 : x ≤ b := hx.2
    show u < (a + b) / 2
    linarith
  | .mk (some a) none _ =>
    have h1 : u ≤ a := h a ⟨le_refl a, trivial⟩
    show u < a + 1
    linarith
  | .mk none (some b) _ =>
    have h1 : x ≤ b := hx.2
    have := h (u - 1) ⟨trivial, show u - 1 ≤ b by linarith⟩
    linarith
  | .mk none none _ =>
    have := h (u - 1) ⟨trivial, trivial⟩
    linarith

/-- the exact operations -/
noncomputable def hullOps : Ops where
  S := hullSqr
  div X Y := Itv.hullOf {z | ∃ x y, x ∈ X ∧ y ∈ Y ∧ y ≠ 0 ∧ z = x / y}
  atan2 Y X := Itv.hullOf {z | ∃ x y : ℝ, x ∈ X ∧ y ∈ Y ∧ (x ≠ 0 ∨ y ≠ 0) ∧ z = arg ⟨x, y⟩}
  pi := Itv.point Real.pi
  mid := midR
  div_mem hx hy h := Itv.mem_hullOf ⟨_, _, hx, hy, h, rfl⟩
  atan2_mem hx hy h := Itv.mem_hullOf ⟨_, _, hx, hy, h, rfl⟩
  pi_mem := Itv.mem_point.2 rfl
  mid_mem := midR_mem

/-- numbers of `X` not above `l` -/
noncomputable def upTo (X : Itv ℝ) (l : ℝ) : Itv ℝ := X ⊓ Itv.mk none (some l) trivial

/-- numbers of `X` not below `u` -/
noncomputable def from_ (X : Itv ℝ) (u : ℝ) : Itv ℝ := X ⊓ Itv.mk (some u) none trivial

theorem mem_upTo {X : Itv ℝ} {l z : ℝ} : z ∈ upTo X l ↔ z ∈ X ∧ z ≤ l := by
  unfold upTo
  rw [Itv.mem_inf]
  exact and_congr_right fun _ => ⟨fun h => h.2, fun h => ⟨trivial, h⟩⟩

theorem mem_from {X : Itv ℝ} {u z : ℝ} : z ∈ from_ X u ↔ z ∈ X ∧ u ≤ z := by
  unfold from_
  rw [Itv.mem_inf]
  exact and_congr_right fun _ => ⟨fun h => h.1, fun h => ⟨h, trivial⟩⟩

open Classical in
/-- the parts of `X` below and above `Y`, without those reduced to one number -/
noncomputable def parts (X Y : Itv ℝ) : List (Itv ℝ) :=
  (match Y.lb? with | some l => if ∃ x ∈ X, x < l then [upTo X l] else [] | none => []) ++
  (match Y.ub? with | some u => if ∃ x ∈ X, u < x then [from_ X u] else [] | none => [])

/-- the difference of two boxes -/
noncomputable def cutDiff (x y : Itv ℝ × Itv ℝ) : List (Itv ℝ × Itv ℝ) :=
  if y.1.isEmpty || y.2.isEmpty then [x]
  else (parts x.1 y.1).map (fun p => (p, x.2)) ++ (parts x.2 y.2).map (fun p => (x.1 ⊓ y.1, p))

theorem parts_spec {X Y P : Itv ℝ} (h : P ∈ parts X Y) : P ≤ X ∧
    ((∃ v, (∀ z ∈ P, z ≤ v) ∧ (∀ z ∈ P, z ∈ Y → z = v) ∧ midR P < v) ∨
     (∃ v, (∀ z ∈ P, v ≤ z) ∧ (∀ z ∈ P, z ∈ Y → z = v) ∧ v < midR P)) := by
  match Y with
  | .empty => simp [parts, Itv.lb?, Itv.ub?] at h
  | .mk lb ub p =>
    simp only [parts, Itv.lb?, Itv.ub?, List.mem_append] at h
    rcases h with h | h
    · cases lb with
      | none => simp at h
      | some l =>
        simp only at h
        split at h
        · rename_i hx
          obtain ⟨x, hx, hl⟩ := hx
          obtain rfl := List.mem_singleton.1 h
          refine ⟨inf_le_left, .inl ⟨l, fun z hz => (mem_upTo.1 hz).2, fun z hz hy => le_antisymm (mem_upTo.1 hz).2 hy.1, ?_⟩⟩
          exact midR_lt (fun z hz => (mem_upTo.1 hz).2) (mem_upTo.2 ⟨hx, hl.le⟩) hl
        · cases h
    · cases ub with
      | none => simp at h
      | some u =>
        simp only at h
        split at h
        · rename_i hx
          obtain ⟨x, hx, hl⟩ := hx
          obtain rfl := List.mem_singleton.1 h
          refine ⟨inf_le_left, .inr ⟨u, fun z hz => (mem_from.1 hz).2, fun z hz hy => le_antisymm hy.2 (mem_from.1 hz).2, ?_⟩⟩
          exact lt_midR (fun z hz => (mem_from.1 hz).2) (mem_from.2 ⟨hx, hl.le⟩) hl
        · cases h

theorem parts_cover {X Y : Itv ℝ} (hY : Y ≠ ⊥) {z : ℝ} (hz : z ∈ X) : z ∈ Y ∨ ∃ P ∈ parts X Y, z ∈ P := by
  match Y with
  | .empty => exact absurd rfl hY
  | .mk lb ub p =>
    by_cases h : z ∈ Itv.mk lb ub p
    · exact .inl h
    refine .inr ?_
    rw [Itv.mem_mk, not_and_or] at h
    simp only [parts, Itv.lb?, Itv.ub?]
    rcases h with h | h
    · cases lb with
      | none => exact absurd trivial h
      | some l =>
        have h' : z < l := not_le.1 h
        refine ⟨upTo X l, List.mem_append_left _ ?_, mem_upTo.2 ⟨hz, h'.le⟩⟩
        simp only
        rw [if_pos ⟨z, hz, h'⟩]
        simp
    · cases ub with
      | none => exact absurd trivial h
      | some u =>
        have h' : u < z := not_le.1 h
        refine ⟨from_ X u, List.mem_append_right _ ?_, mem_from.2 ⟨hz, h'.le⟩⟩
        simp only
        rw [if_pos ⟨z, hz, h'⟩]
        simp

theorem cutDiff_spec : DiffSpec hullOps cutDiff := by
  refine ⟨fun x y z hz => ?_, fun x y b hb => ?_, fun x y b hb => ?_⟩
  · unfold cutDiff
    split
    · exact .inr ⟨x, by simp, hz⟩
    · rename_i he
      simp only [Bool.or_eq_true, Itv.isEmpty_iff, not_or] at he
      rcases parts_cover he.1 hz.1 with h1 | ⟨P, hP, h1⟩
      · rcases parts_cover he.2 hz.2 with h2 | ⟨P, hP, h2⟩
        · exact .inl ⟨h1, h2⟩
        · exact .inr ⟨_, List.mem_append_right _ (List.mem_map.2 ⟨P, hP, rfl⟩), Itv.mem_inf.2 ⟨hz.1, h1⟩, h2⟩
      · exact .inr ⟨_, List.mem_append_left _ (List.mem_map.2 ⟨P, hP, rfl⟩), h1, hz.2⟩
  · unfold cutDiff at hb
    split at hb
    · obtain rfl := List.mem_singleton.1 hb
      exact ⟨le_rfl, le_rfl⟩
    · rcases List.mem_append.1 hb with hb | hb
      · obtain ⟨P, hP, rfl⟩ := List.mem_map.1 hb
        exact ⟨(parts_spec hP).1, le_rfl⟩
      · obtain ⟨P, hP, rfl⟩ := List.mem_map.1 hb
        exact ⟨inf_le_left, (parts_spec hP).1⟩
  · unfold cutDiff at hb
    split at hb
    · rename_i he
      simp only [Bool.or_eq_true, Itv.isEmpty_iff] at he
      refine .inl fun z _ hy => ?_
      rcases he with he | he
      · exact Itv.ne_bot_of_mem hy.1 he
      · exact Itv.ne_bot_of_mem hy.2 he
    · refine .inr ?_
      rcases List.mem_append.1 hb with hb | hb
      · obtain ⟨P, hP, rfl⟩ := List.mem_map.1 hb
        rcases (parts_spec hP).2 with ⟨v, h1, h2, h3⟩ | ⟨v, h1, h2, h3⟩
        · exact ⟨fun z => z.re, by simp, v, fun z hz => h1 _ hz.1, fun z hz hy => h2 _ hz.1 hy.1, h3⟩
        · exact ⟨fun z => -z.re, by simp, -v, fun z hz => neg_le_neg (h1 _ hz.1), fun z hz hy => by simp [h2 _ hz.1 hy.1], neg_lt_neg h3⟩
      · obtain ⟨P, hP, rfl⟩ := List.mem_map.1 hb
        rcases (parts_spec hP).2 with ⟨v, h1, h2, h3⟩ | ⟨v, h1, h2, h3⟩
        · exact ⟨fun z => z.im, by simp, v, fun z hz => h1 _ hz.2, fun z hz hy => h2 _ hz.2 hy.2, h3⟩
        · exact ⟨fun z => -z.im, by simp, -v, fun z hz => neg_le_neg (h1 _ hz.2), fun z hz hy => by simp [h2 _ hz.2 hy.2], neg_lt_neg h3⟩

/-- with exact operations the interval of the angles contains at most the sum of the angles -/
theorem theta_exact (segs : List Seg) (z : ℂ) (h : ¬ OnBorder segs z) :
    theta hullOps segs (Itv.point z.re) (Itv.point z.im) = Itv.point (total segs z) := by
  have p2 : ∀ {X Y : Itv ℝ} {x y : ℝ} {f : ℝ → ℝ → ℝ}, X ≤ Itv.point x → Y ≤ Itv.point y →
      Itv.hullOf {w | ∃ a b, a ∈ X ∧ b ∈ Y ∧ w = f a b} ≤ Itv.point (f x y) := by
    intro X Y x y f hX hY
    refine Itv.hullOf_le ?_
    rintro w ⟨a, b, ha, hb, rfl⟩
    rw [Itv.mem_point.1 (Itv.mem_of_le hX ha), Itv.mem_point.1 (Itv.mem_of_le hY hb)]
    exact Itv.mem_point.2 rfl
  have hadd : ∀ {X Y : Itv ℝ} {x y : ℝ}, X ≤ Itv.point x → Y ≤ Itv.point y → hullArith.add X Y ≤ Itv.point (x + y) :=
    fun hX hY => p2 hX hY
  have hsub : ∀ {X Y : Itv ℝ} {x y : ℝ}, X ≤ Itv.point x → Y ≤ Itv.point y → hullArith.sub X Y ≤ Itv.point (x - y) :=
    fun hX hY => p2 hX hY
  have hmul : ∀ {X Y : Itv ℝ} {x y : ℝ}, X ≤ Itv.point x → Y ≤ Itv.point y → hullArith.mul X Y ≤ Itv.point (x * y) :=
    fun hX hY => p2 hX hY
  have hsqr : ∀ {X : Itv ℝ} {x : ℝ}, X ≤ Itv.point x → hullSqr.sqr X ≤ Itv.point (x ^ 2) := by
    intro X x hX
    refine Itv.hullOf_le ?_
    rintro w ⟨a, ha, rfl⟩
    rw [Itv.mem_point.1 (Itv.mem_of_le hX ha)]
    exact Itv.mem_point.2 rfl
  have hsqrt : ∀ {X : Itv ℝ} {x : ℝ}, X ≤ Itv.point x → hullSqr.sqrt X ≤ Itv.point (√x) := by
    intro X x hX
    refine Itv.hullOf_le ?_
    rintro w ⟨a, ha, _, rfl⟩
    rw [Itv.mem_point.1 (Itv.mem_of_le hX ha)]
    exact Itv.mem_point.2 rfl
  have hdiv : ∀ {X Y : Itv ℝ} {x y : ℝ}, X ≤ Itv.point x → Y ≤ Itv.point y → hullOps.div X Y ≤ Itv.point (x / y) := by
    intro X Y x y hX hY
    refine Itv.hullOf_le ?_
    rintro w ⟨a, b, ha, hb, _, rfl⟩
    rw [Itv.mem_point.1 (Itv.mem_of_le hX ha), Itv.mem_point.1 (Itv.mem_of_le hY hb)]
    exact Itv.mem_point.2 rfl
  have hatan : ∀ {X Y : Itv ℝ} {x y : ℝ}, X ≤ Itv.point x → Y ≤ Itv.point y → hullOps.atan2 Y X ≤ Itv.point (arg ⟨x, y⟩) := by
    intro X Y x y hX hY
    refine Itv.hullOf_le ?_
    rintro w ⟨a, b, ha, hb, _, rfl⟩
    rw [Itv.mem_point.1 (Itv.mem_of_le hX ha), Itv.mem_point.1 (Itv.mem_of_le hY hb)]
    exact Itv.mem_point.2 rfl
  have harg : ∀ s : Seg, z ∉ segment ℝ s.a s.b → argument hullOps (Itv.point z.re) (Itv.point z.im) s ≤ Itv.point (angle s z) := by
    intro s hs
    rw [angle_eq s z (ne_a hs) (ne_b hs)]
    have s1 := hsub (le_refl (Itv.point s.a.re)) (le_refl (Itv.point z.re))
    have s2 := hsub (le_refl (Itv.point s.a.im)) (le_refl (Itv.point z.im))
    have s3 := hsub (le_refl (Itv.point s.b.re)) (le_refl (Itv.point z.re))
    have s4 := hsub (le_refl (Itv.point s.b.im)) (le_refl (Itv.point z.im))
    have n := hmul (hsqrt (hadd (hsqr s1) (hsqr s2))) (hsqrt (hadd (hsqr s3) (hsqr s4)))
    exact hatan (hdiv (hadd (hmul s1 s3) (hmul s2 s4)) n) (hdiv (hsub (hmul s1 s4) (hmul s2 s3)) n)
  refine le_antisymm ?_ ?_
  · have key : ∀ (l : List Seg) (th : Itv ℝ) (t : ℝ), th ≤ Itv.point t → (∀ s ∈ l, z ∉ segment ℝ s.a s.b) →
        l.foldl (fun th s => hullOps.S.A.add th (argument hullOps (Itv.point z.re) (Itv.point z.im) s)) th ≤ Itv.point (t + total l z) := by
      intro l
      induction l with
      | nil => intro th t ht _; simpa [total] using ht
      | cons s l ih =>
        intro th t ht hl
        have := ih _ _ (hadd ht (harg s (hl s (by simp)))) fun s' hs' => hl s' (by simp [hs'])
        simp only [total, List.map_cons, List.sum_cons, List.foldl_cons] at this ⊢
        rwa [add_assoc] at this
    have := key segs (Itv.point 0) 0 le_rfl fun s hs hz => h ⟨s, hs, hz⟩
    simpa [theta] using this
  · rw [Itv.le_iff]
    intro t ht
    rw [Itv.mem_point.1 ht]
    exact theta_mem hullOps segs z h

end InPoly
end Codac
