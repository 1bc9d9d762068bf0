import Verif.Geometry.Inter
import Mathlib.Analysis.Convex.Combination
import Mathlib.Algebra.Group.Pointwise.Set.Basic

/-!
# Union, sum and product of polygons: proofs
-/

set_option linter.unusedSectionVars false

namespace Codac.Poly
open Codac.Graham
open scoped Pointwise

variable {K : Type*} [Field K] [LinearOrder K] [IsStrictOrderedRing K]

/-- the box is a point or one of its sides is at least `eps` -/
def Wide (eps : K) (X : TPt K) : Prop := ∀ a b c d, X.1.bounds? = some (a, b) → X.2.bounds? = some (c, d) → (a = b ∧ c = d) ∨ eps ≤ max (b - a) (d - c)

theorem bounds_mem {X : Itv K} {a b : K} (h : X.bounds? = some (a, b)) {x : K} : x ∈ X ↔ a ≤ x ∧ x ≤ b := by
  unfold Itv.bounds? at h
  split at h
  · simp only [Option.some.injEq, Prod.mk.injEq] at h
    obtain ⟨rfl, rfl⟩ := h
    exact Iff.rfl
  · cases h

theorem bounds_le {X : Itv K} {a b : K} (h : X.bounds? = some (a, b)) : a ≤ b := by
  unfold Itv.bounds? at h
  split at h
  · rename_i hle
    simp only [Option.some.injEq, Prod.mk.injEq] at h
    obtain ⟨rfl, rfl⟩ := h
    exact hle
  · cases h

theorem convex_in (X : TPt K) : Convex K {q | In q X} := by
  rw [convex_iff_segment_subset]
  intro y hy y' hy' q hq
  obtain ⟨s, s0, s1, h1, h2⟩ := onSeg_iff_segment.mpr hq
  have aux : ∀ (X : Itv K) (a b : K), a ∈ X → b ∈ X → a + s * (b - a) ∈ X := by
    intro X a b ha hb
    rcases le_total a b with h | h
    · exact Itv.mem_of_between ha hb (by have := mul_nonneg s0 (sub_nonneg.mpr h); linarith)
        (by have := mul_nonneg (sub_nonneg.mpr s1) (sub_nonneg.mpr h); linarith)
    · exact Itv.mem_of_between hb ha (by have := mul_nonneg (sub_nonneg.mpr s1) (sub_nonneg.mpr h); linarith)
        (by have := mul_nonneg s0 (sub_nonneg.mpr h); linarith)
  exact ⟨by rw [h1]; exact aux _ _ _ hy.1 hy'.1, by rw [h2]; exact aux _ _ _ hy.2 hy'.2⟩

/-- a bounded box is the hull of its corners -/
theorem hull_corners {a b c d : K} (hab : a ≤ b) (hcd : c ≤ d) {q : Pt K} :
    q ∈ Hull [(a, c), (a, d), (b, c), (b, d)] ↔ (a ≤ q.1 ∧ q.1 ≤ b) ∧ c ≤ q.2 ∧ q.2 ≤ d := by
  constructor
  · intro h
    obtain ⟨h1, h2, h3, h4⟩ := hull_box (a := a) (b := b) (c := c) (d := d) (by
      intro u hu
      simp only [List.mem_cons, List.not_mem_nil, or_false] at hu
      rcases hu with rfl | rfl | rfl | rfl <;> simp [hab, hcd]) h
    exact ⟨⟨h1, h2⟩, h3, h4⟩
  · rintro ⟨⟨h1, h2⟩, h3, h4⟩
    have seg : ∀ l u x : K, l ≤ x → x ≤ u → ∃ s : K, 0 ≤ s ∧ s ≤ 1 ∧ x = l + s * (u - l) := by
      intro l u x h1 h2
      by_cases h : l = u
      · exact ⟨0, le_rfl, zero_le_one, by rw [zero_mul, add_zero]; linarith⟩
      · have hp : 0 < u - l := sub_pos.mpr (lt_of_le_of_ne (h1.trans h2) h)
        exact ⟨(x - l) / (u - l), div_nonneg (by linarith) hp.le, by rw [div_le_one hp]; linarith, by field_simp; ring⟩
    obtain ⟨s, s0, s1, hs⟩ := seg a b q.1 h1 h2
    obtain ⟨t, t0, t1, ht⟩ := seg c d q.2 h3 h4
    have C := convex_convexHull K {p | p ∈ [(a, c), (a, d), (b, c), (b, d)]}
    have lo : ((q.1, c) : Pt K) ∈ Hull [(a, c), (a, d), (b, c), (b, d)] :=
      mem_of_onSeg C (Hull.mem (p := (a, c)) (by simp)) (Hull.mem (p := (b, c)) (by simp)) ⟨s, s0, s1, hs, by simp⟩
    have hi : ((q.1, d) : Pt K) ∈ Hull [(a, c), (a, d), (b, c), (b, d)] :=
      mem_of_onSeg C (Hull.mem (p := (a, d)) (by simp)) (Hull.mem (p := (b, d)) (by simp)) ⟨s, s0, s1, hs, by simp⟩
    exact mem_of_onSeg C lo hi ⟨t, t0, t1, by simp, ht⟩

theorem hull_congr {l l' : List (Pt K)} (h : ∀ p, p ∈ l ↔ p ∈ l') : Hull l = Hull l' := by
  unfold Hull
  congr 1
  ext p
  exact h p

/-- the points pushed for a thick point: its corners -/
theorem thickPts_hull {eps : K} {c : Pt K} {X : TPt K} {ps : List (Pt K)} (h : thickPts eps c X = some ps) (hw : Wide eps X) {q : Pt K} :
    q ∈ Hull ps ↔ In q X := by
  unfold thickPts at h
  split at h
  · rename_i a b c' d h1 h2
    have hab := bounds_le h1
    have hcd := bounds_le h2
    have key : q ∈ Hull [(a, c'), (a, d), (b, c'), (b, d)] ↔ In q X := by
      rw [hull_corners hab hcd]
      unfold In
      rw [bounds_mem h1, bounds_mem h2]
    by_cases k : max (b - a) (d - c') < eps
    · rw [if_pos k] at h
      rcases hw a b c' d h1 h2 with ⟨e1, e2⟩ | e
      · subst e1; subst e2
        simp only [ite_self, Option.some.injEq] at h
        subst h
        rw [← key, hull_congr (l := [(a, c'), (a, c'), (a, c'), (a, c')]) (l' := [(a, c')]) (by simp)]
      · exact absurd k (not_lt.mpr e)
    · rw [if_neg k] at h
      simp only [Option.some.injEq] at h
      subst h
      rw [← key, hull_congr fun p => mem_removeIdentical]
  · cases h

theorem mapM_flatten {α β : Type*} (f : α → Option (List β)) (l : List α) : ∀ {ls : List (List β)}, l.mapM f = some ls →
    ∀ y, y ∈ ls.flatten ↔ ∃ a ∈ l, ∃ ps, f a = some ps ∧ y ∈ ps := by
  induction l with
  | nil =>
    intro ls h y
    have : ls = [] := by simpa using h.symm
    subst this; simp
  | cons a l ih =>
    intro ls h y
    rw [List.mapM_cons] at h
    cases hf : f a with
    | none => rw [hf] at h; cases h
    | some ps =>
      cases hl : l.mapM f with
      | none => rw [hf, hl] at h; cases h
      | some qs =>
        rw [hf, hl] at h
        have : ls = ps :: qs := by
          have : some (ps :: qs) = some ls := h
          exact (Option.some.inj this).symm
        subst this
        rw [List.flatten_cons, List.mem_append, ih hl y]
        constructor
        · rintro (h | ⟨b, hb, qs, h1, h2⟩)
          · exact ⟨a, by simp, ps, hf, h⟩
          · exact ⟨b, by simp [hb], qs, h1, h2⟩
        · rintro ⟨b, hb, qs, h1, h2⟩
          rcases List.mem_cons.mp hb with rfl | hb
          · rw [hf] at h1; cases h1; exact .inl h2
          · exact .inr ⟨b, hb, qs, h1, h2⟩

theorem mapM_all {α β : Type*} (f : α → Option β) (l : List α) : ∀ {ls : List β}, l.mapM f = some ls → ∀ a ∈ l, ∃ b, f a = some b := by
  induction l with
  | nil => intro ls _ a ha; simp at ha
  | cons x l ih =>
    intro ls h a ha
    rw [List.mapM_cons] at h
    cases hf : f x with
    | none => rw [hf] at h; cases h
    | some b =>
      cases hl : l.mapM f with
      | none => rw [hf, hl] at h; cases h
      | some qs =>
        rcases List.mem_cons.mp ha with rfl | ha
        · exact ⟨b, hf⟩
        · exact ih hl a ha

/-- `ConvexPolygon(vector<ThickPoint>)`: the hull of the boxes, when each box is a point or is not too small -/
theorem ofThick_spec {eps : K} {l : List (TPt K)} {r : List (Pt K)} (h : ofThick eps l = some r) (hw : ∀ X ∈ l, Wide eps X)
    (hne : ∀ X ∈ l, X.1 ≠ ⊥ ∧ X.2 ≠ ⊥) : Hull r = convexHull K {q | ∃ X ∈ l, In q X} := by
  unfold ofThick at h
  rw [if_neg] at h
  · obtain ⟨ls, h1, rfl⟩ := Option.map_eq_some_iff.mp h
    rw [(convexHullPts_poly ls.flatten).2.2]
    apply Set.Subset.antisymm
    · refine convexHull_min (fun y hy => ?_) (convex_convexHull K _)
      obtain ⟨X, hX, ps, h2, h3⟩ := (mapM_flatten _ _ h1 y).mp hy
      exact subset_convexHull K _ ⟨X, hX, (thickPts_hull h2 (hw X hX)).mp (Hull.mem h3)⟩
    · refine convexHull_min ?_ (convex_convexHull K _)
      rintro q ⟨X, hX, hq⟩
      obtain ⟨ps, hps⟩ := mapM_all _ _ h1 X hX
      have := (thickPts_hull hps (hw X hX)).mpr hq
      exact Hull.mono (fun p hp => Hull.mem ((mapM_flatten _ _ h1 p).mpr ⟨X, hX, ps, hps, hp⟩)) this
  · rw [List.any_eq_true]
    rintro ⟨X, hX, hx⟩
    rw [Bool.or_eq_true, Itv.isEmpty_iff, Itv.isEmpty_iff] at hx
    exact hx.elim (hne X hX).1 (hne X hX).2

/-- one empty thick point: an empty polygon -/
theorem ofThick_empty {eps : K} {l : List (TPt K)} {X : TPt K} (hX : X ∈ l) (h : X.1 = ⊥ ∨ X.2 = ⊥) : ofThick eps l = some [] := by
  unfold ofThick
  rw [if_pos]
  rw [List.any_eq_true]
  exact ⟨X, hX, by rw [Bool.or_eq_true, Itv.isEmpty_iff, Itv.isEmpty_iff]; exact h⟩

theorem hull_nil : Hull ([] : List (Pt K)) = ∅ := by
  unfold Hull; simp

/-- the union: the hull of both polygons -/
theorem union_spec {eps : K} (he : 0 < eps) (v w : List (Pt K)) : ∃ ps, union eps v w = some (convexHullPts ps) ∧
    Hull ps = convexHull K (Hull v ∪ Hull w) := by
  refine ⟨v ++ w, by unfold union; rw [← List.map_append]; exact ofThick_points he _, ?_⟩
  apply Set.Subset.antisymm
  · refine convexHull_min (fun p hp => ?_) (convex_convexHull K _)
    apply subset_convexHull K
    rcases List.mem_append.mp hp with h | h
    · exact .inl (Hull.mem h)
    · exact .inr (Hull.mem h)
  · refine convexHull_min ?_ (convex_convexHull K _)
    rintro q (h | h)
    · exact Hull.mono (fun p hp => Hull.mem (List.mem_append_left _ hp)) h
    · exact Hull.mono (fun p hp => Hull.mem (List.mem_append_right _ hp)) h

theorem hull_map {f : Pt K → Pt K} (hf : ∀ p q (s : K), f (p.1 + s * (q.1 - p.1), p.2 + s * (q.2 - p.2)) =
    ((f p).1 + s * ((f q).1 - (f p).1), (f p).2 + s * ((f q).2 - (f p).2))) (v : List (Pt K)) {q : Pt K} (hq : q ∈ Hull v) : f q ∈ Hull (v.map f) := by
  have : Convex K {q | f q ∈ Hull (v.map f)} := by
    rw [convex_iff_segment_subset]
    intro y hy y' hy' q hq
    obtain ⟨s, s0, s1, h1, h2⟩ := onSeg_iff_segment.mpr hq
    have e : q = (y.1 + s * (y'.1 - y.1), y.2 + s * (y'.2 - y.2)) := Prod.ext h1 h2
    rw [e]
    show f _ ∈ Hull (v.map f)
    rw [hf]
    exact mem_of_onSeg (convex_convexHull K _) hy hy' ⟨s, s0, s1, rfl, rfl⟩
  exact convexHull_min (s := {p | p ∈ v}) (t := {q | f q ∈ Hull (v.map f)}) (fun p hp => Hull.mem (List.mem_map_of_mem hp)) this hq

theorem hull_neg (v : List (Pt K)) (q : Pt K) : q ∈ Hull (neg v) ↔ (-q.1, -q.2) ∈ Hull v := by
  have key : ∀ (v : List (Pt K)) {q : Pt K}, q ∈ Hull v → (-q.1, -q.2) ∈ Hull (neg v) := fun v q h =>
    hull_map (f := fun p => (-p.1, -p.2)) (fun p q s => Prod.ext (by dsimp only; ring) (by dsimp only; ring)) v h
  have hnn : neg (neg v) = v := by
    unfold neg
    rw [List.map_map]
    convert List.map_id v using 2
    funext p; simp
  constructor
  · intro h
    have := key _ h
    rwa [hnn] at this
  · intro h
    have := key _ h
    simpa using this

theorem neg_turns {σ : K} {v : List (Pt K)} (h : Turns σ v) : Turns σ (neg v) := by
  intro a b c hs
  unfold neg at hs
  obtain ⟨l, hl, e⟩ := List.sublist_map_iff.mp hs
  match l, e with
  | [x, y, z], e =>
    simp only [List.map_cons, List.map_nil, List.cons.injEq, and_true] at e
    obtain ⟨rfl, rfl, rfl⟩ := e
    have := h _ _ _ hl
    unfold cr at this ⊢
    dsimp only
    convert this using 2
    ring

theorem neg_nodup {v : List (Pt K)} (h : v.Nodup) : (neg v).Nodup :=
  h.map fun p q e => by
    simp only [Prod.mk.injEq, neg_inj] at e
    exact Prod.ext e.1 e.2

theorem add_point_mem {p x : K} {X : Itv K} : x ∈ Itv.add (.point p) X ↔ x - p ∈ X := by
  constructor
  · intro h
    cases X with
    | empty => exact h.elim
    | mk lo hi hle =>
      unfold Itv.add Itv.point at h
      dsimp only at h
      rw [Itv.mem_ofBounds] at h
      obtain ⟨h1, h2⟩ := h
      constructor
      · cases lo with
        | none => trivial
        | some a => have h1 : p + a ≤ x := h1; show a ≤ x - p; linarith
      · cases hi with
        | none => trivial
        | some b => have h2 : x ≤ p + b := h2; show x - p ≤ b; linarith
  · intro h
    have := Itv.mem_add (Itv.mem_point.mpr rfl : p ∈ Itv.point p) h
    convert this using 1
    ring

theorem in_add_point {p q : Pt K} {X : TPt K} : In q (tpt (.add (.point p.1) X.1) (.add (.point p.2) X.2)) ↔ In (q.1 - p.1, q.2 - p.2) X := by
  rw [in_tpt, add_point_mem, add_point_mem]; rfl

/-- a translation keeps the width of an interval -/
theorem add_point_bounds {p a b : K} {X : Itv K} (h : (Itv.add (.point p) X).bounds? = some (a, b)) : X.bounds? = some (a - p, b - p) := by
  cases X with
  | empty => cases h
  | mk lo hi hle =>
    cases lo with
    | none => cases hi <;> simp [Itv.add, Itv.point, Itv.addB, Itv.ofBounds, Itv.bounds?, bLe] at h
    | some l =>
      cases hi with
      | none => simp [Itv.add, Itv.point, Itv.addB, Itv.ofBounds, Itv.bounds?, bLe] at h
      | some u =>
        have hlu : l ≤ u := hle
        have : Itv.add (.point p) (.mk (some l) (some u) hle) = Itv.icc (p + l) (p + u) := rfl
        rw [this, Itv.icc_eq_mk (by linarith)] at h
        simp only [Itv.bounds?, Option.some.injEq, Prod.mk.injEq] at h ⊢
        constructor <;> linarith

theorem tpt_bounds {x y : Itv K} {a b c d : K} (h1 : (tpt x y).1.bounds? = some (a, b)) (h2 : (tpt x y).2.bounds? = some (c, d)) :
    x.bounds? = some (a, b) ∧ y.bounds? = some (c, d) := by
  unfold tpt at h1 h2
  split_ifs at h1 h2
  · cases h1
  · exact ⟨h1, h2⟩

/-- the sum of a polygon and a box that is a point or is not too small: the sums of their points -/
theorem addBox_spec {eps : K} {v r : List (Pt K)} {X : TPt K} (h : addBox eps v X = some r) (hw : Wide eps X) {q : Pt K} :
    q ∈ Hull r ↔ ∃ p ∈ Hull v, In (q.1 - p.1, q.2 - p.2) X := by
  unfold addBox at h
  by_cases hX : ∃ x, In x X
  · obtain ⟨x, hx⟩ := hX
    rw [ofThick_spec h]
    · have e : {q | ∃ Y ∈ v.map fun p => tpt (.add (.point p.1) X.1) (.add (.point p.2) X.2), In q Y} = {p | p ∈ v} + {x | In x X} := by
        ext q
        simp only [List.mem_map, Set.mem_ofPred_eq, Set.mem_add, exists_exists_and_eq_and]
        constructor
        · rintro ⟨p, hp, hq⟩
          exact ⟨p, hp, (q.1 - p.1, q.2 - p.2), in_add_point.mp hq, by ext <;> simp⟩
        · rintro ⟨p, hp, x, hx, rfl⟩
          exact ⟨p, hp, in_add_point.mpr (by simpa using hx)⟩
      rw [e, convexHull_add, (convex_in X).convexHull_eq]
      constructor
      · intro hq
        obtain ⟨p, hp, x, hx, rfl⟩ := Set.mem_add.mp hq
        exact ⟨p, hp, by simpa using hx⟩
      · rintro ⟨p, hp, hx⟩
        exact Set.mem_add.mpr ⟨p, hp, _, hx, by ext <;> simp⟩
    · intro Y hY
      obtain ⟨p, -, rfl⟩ := List.mem_map.mp hY
      intro a b c d h1 h2
      obtain ⟨h1, h2⟩ := tpt_bounds h1 h2
      rcases hw _ _ _ _ (add_point_bounds h1) (add_point_bounds h2) with ⟨k1, k2⟩ | k
      · exact .inl ⟨by linarith, by linarith⟩
      · exact .inr (by simpa using k)
    · intro Y hY
      obtain ⟨p, -, rfl⟩ := List.mem_map.mp hY
      have : In (p.1 + x.1, p.2 + x.2) (tpt (.add (.point p.1) X.1) (.add (.point p.2) X.2)) := in_add_point.mpr (by simpa using hx)
      exact ⟨Itv.ne_bot_of_mem this.1, Itv.ne_bot_of_mem this.2⟩
  · have hempty : Hull r = ∅ := by
      cases v with
      | nil =>
        have : r = convexHullPts [] := by simpa [ofThick] using h.symm
        rw [this, (convexHullPts_poly []).2.2, hull_nil]
      | cons p v =>
        rw [ofThick_empty (X := tpt (.add (.point p.1) X.1) (.add (.point p.2) X.2)) (by simp)] at h
        · cases h; exact hull_nil
        · rcases tpt_cases (.add (.point p.1) X.1) (.add (.point p.2) X.2) with k | ⟨q, k⟩
          · exact .inl (by rw [k]; rfl)
          · exact absurd ⟨_, in_add_point.mp k⟩ hX
    rw [hempty]
    simp only [Set.mem_empty_iff_false, false_iff]
    rintro ⟨p, -, hx⟩
    exact hX ⟨_, hx⟩

/-- the product of a polygon by an interval matrix contains the images of its points by the matrices -/
theorem mulMat_sound {eps : K} {m : TPt K × TPt K} {v r : List (Pt K)} (h : mulMat eps m v = some r)
    (hw : ∀ p ∈ v, Wide eps (tpt (.add (.mul m.1.1 (.point p.1)) (.mul m.1.2 (.point p.2)))
      (.add (.mul m.2.1 (.point p.1)) (.mul m.2.2 (.point p.2))))) {a b c d : K} (ha : a ∈ m.1.1) (hb : b ∈ m.1.2) (hc : c ∈ m.2.1) (hd : d ∈ m.2.2)
    {p : Pt K} (hp : p ∈ Hull v) : (a * p.1 + b * p.2, c * p.1 + d * p.2) ∈ Hull r := by
  have hin : ∀ p : Pt K, In (a * p.1 + b * p.2, c * p.1 + d * p.2) (tpt (.add (.mul m.1.1 (.point p.1)) (.mul m.1.2 (.point p.2)))
      (.add (.mul m.2.1 (.point p.1)) (.mul m.2.2 (.point p.2)))) := fun p => in_tpt.mpr
    ⟨Itv.mem_add (Itv.mem_mul ha (Itv.mem_point.mpr rfl)) (Itv.mem_mul hb (Itv.mem_point.mpr rfl)),
      Itv.mem_add (Itv.mem_mul hc (Itv.mem_point.mpr rfl)) (Itv.mem_mul hd (Itv.mem_point.mpr rfl))⟩
  unfold mulMat at h
  rw [ofThick_spec h]
  · have := hull_map (f := fun p => (a * p.1 + b * p.2, c * p.1 + d * p.2)) (fun p q s => Prod.ext (by dsimp only; ring) (by dsimp only; ring)) v hp
    refine convexHull_mono ?_ this
    intro y hy
    obtain ⟨p, hp, rfl⟩ := List.mem_map.mp hy
    exact ⟨_, List.mem_map_of_mem hp, hin p⟩
  · intro X hX
    obtain ⟨p, hp, rfl⟩ := List.mem_map.mp hX
    exact hw p hp
  · intro X hX
    obtain ⟨p, hp, rfl⟩ := List.mem_map.mp hX
    exact ⟨Itv.ne_bot_of_mem (hin p).1, Itv.ne_bot_of_mem (hin p).2⟩

/-- the polygon of a box -/
theorem ofBox_spec {a b c d : K} (hab : a ≤ b) (hcd : c ≤ d) {q : Pt K} : q ∈ Hull (ofBox a b c d) ↔ (a ≤ q.1 ∧ q.1 ≤ b) ∧ c ≤ q.2 ∧ q.2 ≤ d := by
  unfold ofBox
  rw [(convexHullPts_poly _).2.2, ← hull_corners hab hcd, hull_congr]
  intro p
  simp only [List.mem_cons, List.not_mem_nil, or_false]
  tauto

/-- `intersects` -/
theorem intersects_spec {eps : K} (he : 0 < eps) {σ τ : K} (hσ : σ ≠ 0) (hτ : τ ≠ 0) {v w : List (Pt K)} (hv : Turns σ v)
    (hvn : v.Nodup) (hw : Turns τ w) (hwn : w.Nodup) : ∃ b, intersects eps v w = some b ∧ b ≠ .yes ∧ (b = .no → Hull v ∩ Hull w = ∅) ∧
      (Solid v → Solid w → b = .maybe → (Hull v ∩ Hull w).Nonempty) := by
  obtain ⟨ps, h1, h2, h3⟩ := inter_spec he hσ hτ hv hvn hw hwn
  unfold intersects
  rw [h1]
  refine ⟨if convexHullPts ps = [] then .no else .maybe, rfl, ?_, ?_, ?_⟩
  · split_ifs <;> simp
  · intro hb
    have : convexHullPts ps = [] := by
      by_contra k; rw [if_neg k] at hb; cases hb
    have e := (convexHullPts_poly ps).2.2
    rw [this, hull_nil] at e
    exact Set.subset_empty_iff.mp (by rw [e]; exact h2)
  · intro sv sw hb
    have : convexHullPts ps ≠ [] := by
      intro k; rw [if_pos k] at hb; cases hb
    obtain ⟨y, hy⟩ := List.exists_mem_of_ne_nil _ this
    have e := (convexHullPts_poly ps).2.2
    exact ⟨y, h3 sv sw (e ▸ Hull.mem hy)⟩

theorem mem_neg_iff {x : K} {X : Itv K} : x ∈ X.neg ↔ -x ∈ X := by
  constructor
  · intro h
    cases X with
    | empty => exact h.elim
    | mk lo hi hle =>
      unfold Itv.neg at h
      dsimp only at h
      rw [Itv.mem_ofBounds] at h
      obtain ⟨h1, h2⟩ := h
      constructor
      · cases lo with
        | none => trivial
        | some a => have h2 : x ≤ -a := h2; show a ≤ -x; linarith
      · cases hi with
        | none => trivial
        | some b => have h1 : -b ≤ x := h1; show -x ≤ b; linarith
  · intro h
    have := Itv.mem_neg h
    rwa [neg_neg] at this

theorem neg_bounds {a b : K} {X : Itv K} (h : X.neg.bounds? = some (a, b)) : X.bounds? = some (-b, -a) := by
  cases X with
  | empty => cases h
  | mk lo hi hle =>
    cases lo with
    | none => cases hi <;> simp [Itv.neg, Itv.negB, Itv.ofBounds, Itv.bounds?, bLe] at h
    | some l =>
      cases hi with
      | none => simp [Itv.neg, Itv.negB, Itv.ofBounds, Itv.bounds?, bLe] at h
      | some u =>
        have hlu : l ≤ u := hle
        have : Itv.neg (.mk (some l) (some u) hle) = Itv.icc (-u) (-l) := rfl
        rw [this, Itv.icc_eq_mk (by linarith)] at h
        simp only [Itv.bounds?, Option.some.injEq, Prod.mk.injEq] at h ⊢
        constructor <;> linarith

theorem Wide.neg {eps : K} {X : TPt K} (h : Wide eps X) : Wide eps (X.1.neg, X.2.neg) := by
  intro a b c d h1 h2
  rcases h _ _ _ _ (neg_bounds h1) (neg_bounds h2) with ⟨k1, k2⟩ | k
  · exact .inl ⟨by linarith, by linarith⟩
  · right
    convert k using 2 <;> ring

/-- what is built from thick points is a convex hull computed by the Graham scan -/
theorem ofThick_built {eps : K} {l : List (TPt K)} {r : List (Pt K)} (h : ofThick eps l = some r) : ∃ ps, r = convexHullPts ps := by
  unfold ofThick at h
  split_ifs at h
  · cases h; exact ⟨[], by simp [convexHullPts, removeIdentical]⟩
  · obtain ⟨ls, -, rfl⟩ := Option.map_eq_some_iff.mp h
    exact ⟨_, rfl⟩

/-- `is_subset` -/
theorem isSubset_go (z : K → Itv K) (w : List (Pt K)) (l : List (Pt K)) : ∀ r : BI, r ≠ .no →
    (isSubset.go z w l r = .no ↔ ∃ p ∈ l, contains z w p = .no) ∧ (isSubset.go z w l r = .yes ↔ r = .yes ∧ ∀ p ∈ l, contains z w p = .yes) := by
  induction l with
  | nil => intro r hr; simp [isSubset.go, hr]
  | cons p l ih =>
    intro r hr
    unfold isSubset.go
    dsimp only
    cases hc : contains z w p with
    | no =>
      have : r.and .no = .no := by cases r <;> rfl
      rw [this, if_pos rfl]
      simp [hc]
    | yes =>
      have : r.and .yes = r := by
        cases r with
        | no => exact absurd rfl hr
        | yes => rfl
        | maybe => rfl
      rw [this, if_neg hr]
      refine ⟨by rw [(ih r hr).1]; simp [hc], by rw [(ih r hr).2]; simp [hc]⟩
    | maybe =>
      have : r.and .maybe = .maybe := by
        cases r with
        | no => exact absurd rfl hr
        | yes => rfl
        | maybe => rfl
      rw [this, if_neg (by simp)]
      refine ⟨by rw [(ih _ (by simp)).1]; simp [hc], by rw [(ih _ (by simp)).2]; simp [hc]⟩

end Codac.Poly
