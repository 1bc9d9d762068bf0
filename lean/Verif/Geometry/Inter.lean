import Verif.Geometry.Ops

/-!
# The intersection of two polygons: proofs
-/

set_option linter.unusedSectionVars false

namespace Codac.Poly
open Codac.Graham

variable {K : Type*} [Field K] [LinearOrder K] [IsStrictOrderedRing K]

theorem mem_of_onSeg {C : Set (Pt K)} (hC : Convex K C) {a b q : Pt K} (ha : a ∈ C) (hb : b ∈ C) (h : OnSeg a b q) : q ∈ C :=
  hC.segment_subset ha hb (onSeg_iff_segment.mp h)

theorem mem_of_edge {v : List (Pt K)} {e : Edge K} (h : e ∈ edges v) : e.1 ∈ v ∧ e.2 ∈ v := by
  unfold edges at h
  obtain ⟨h1, h2⟩ := List.of_mem_zip h
  refine ⟨h1, ?_⟩
  rcases List.mem_append.mp h2 with h2 | h2
  · exact List.mem_of_mem_tail h2
  · exact List.mem_of_mem_take h2

/-- what is needed to cover the intersection of two polygons -/
structure Covers (v w : List (Pt K)) (C : Set (Pt K)) : Prop where
  left : ∀ y ∈ v, y ∈ Hull w → y ∈ C
  right : ∀ y ∈ w, y ∈ Hull v → y ∈ C
  cross : ∀ e ∈ edges v, ∀ f ∈ edges w, crossE e f ≠ 0 → ∀ y, OnSeg e.1 e.2 y → OnSeg f.1 f.2 y → y ∈ C

theorem Covers.symm {v w : List (Pt K)} {C : Set (Pt K)} (h : Covers v w C) : Covers w v C :=
  ⟨h.right, h.left, fun e he f hf hc y h1 h2 => h.cross f hf e he (fun k => hc (by unfold crossE at k ⊢; linarith)) y h2 h1⟩

/-- from a point of an edge that is in the other polygon, a point of `C` is met in the direction of the end of the edge -/
theorem Covers.ahead {τ : K} (hτ : τ ≠ 0) {v w : List (Pt K)} {C : Set (Pt K)} (h : Covers v w C) (hw : Turns τ w) (hwn : w.Nodup)
    {a b x : Pt K} (he : (a, b) ∈ edges v ∨ (b, a) ∈ edges v) (hab : a ≠ b) (hx : OnSeg a b x) (hxw : x ∈ Hull w) :
    ∃ t : K, 0 ≤ t ∧ (x.1 + t * (b.1 - a.1), x.2 + t * (b.2 - a.2)) ∈ C := by
  have hav : a ∈ v ∧ b ∈ v := by
    rcases he with he | he
    · exact mem_of_edge he
    · exact (mem_of_edge he).symm
  have hseg : ∀ y, OnSeg a b y → y ∈ Hull v := fun y hy =>
    mem_of_onSeg (convex_convexHull K _) (Hull.mem hav.1) (Hull.mem hav.2) hy
  have hd : b.1 - a.1 ≠ 0 ∨ b.2 - a.2 ≠ 0 := by
    by_contra hc; push Not at hc
    exact hab (Prod.ext (by linarith [hc.1]) (by linarith [hc.2]))
  obtain ⟨t, t0, f, hf, hy⟩ := exit hτ hw hwn hxw (b.1 - a.1) (b.2 - a.2) hd
  obtain ⟨s, s0, s1, e1, e2⟩ := hx
  -- the end `b` is at `1 - s`
  by_cases hts : 1 - s ≤ t
  · -- `b` is in the other polygon
    have hb : b ∈ Hull w := by
      by_cases ht0 : t = 0
      · have : s = 1 := by linarith
        have : b = x := Prod.ext (by rw [e1, this]; ring) (by rw [e2, this]; ring)
        rw [this]; exact hxw
      · have htp : 0 < t := lt_of_le_of_ne t0 (Ne.symm ht0)
        refine mem_of_onSeg (convex_convexHull K _) hxw (edge_in_hull hf hy) ⟨(1 - s) / t, div_nonneg (by linarith) t0, ?_, ?_, ?_⟩
        · rw [div_le_one htp]; exact hts
        · dsimp only; field_simp; rw [e1]; ring
        · dsimp only; field_simp; rw [e2]; ring
    exact ⟨1 - s, by linarith, by
      have := h.left b hav.2 hb
      have e : (x.1 + (1 - s) * (b.1 - a.1), x.2 + (1 - s) * (b.2 - a.2)) = b := Prod.ext (by rw [e1]; ring) (by rw [e2]; ring)
      rw [e]; exact this⟩
  · push Not at hts
    have hon : ∀ r, 0 ≤ r → r ≤ 1 - s → OnSeg a b (x.1 + r * (b.1 - a.1), x.2 + r * (b.2 - a.2)) := fun r r0 r1 =>
      ⟨s + r, by linarith, by linarith, by dsimp only; rw [e1]; ring, by dsimp only; rw [e2]; ring⟩
    have hye := hon t t0 hts.le
    by_cases hc : crossE (a, b) f = 0
    · by_cases hfd : f.1 = f.2
      · -- the other edge is a point
        obtain ⟨r, -, -, y1, y2⟩ := hy
        have : (x.1 + t * (b.1 - a.1), x.2 + t * (b.2 - a.2)) = f.1 := Prod.ext (by rw [y1, hfd]; ring) (by rw [y2, hfd]; ring)
        exact ⟨t, t0, by rw [this]; exact h.right _ (mem_of_edge hf).1 (this ▸ hseg _ hye)⟩
      · -- both edges are on the same line
        have hcol : ∃ g ∈ w, OnSeg f.1 f.2 g ∧ ∃ l : K, 0 ≤ l ∧
            g = (x.1 + (t + l) * (b.1 - a.1), x.2 + (t + l) * (b.2 - a.2)) := by
          obtain ⟨r, r0, r1, y1, y2⟩ := hy
          dsimp only at y1 y2
          have hpar : ∃ m : K, f.2.1 - f.1.1 = m * (b.1 - a.1) ∧ f.2.2 - f.1.2 = m * (b.2 - a.2) := by
            unfold crossE at hc
            dsimp only at hc
            rcases hd with hd | hd
            · refine ⟨(f.2.1 - f.1.1) / (b.1 - a.1), by field_simp, ?_⟩
              field_simp
              linarith
            · refine ⟨(f.2.2 - f.1.2) / (b.2 - a.2), ?_, by field_simp⟩
              field_simp
              linarith
          obtain ⟨m, m1, m2⟩ := hpar
          rcases le_total 0 m with hm | hm
          · refine ⟨f.2, (mem_of_edge hf).2, OnSeg.right _ _, (1 - r) * m, mul_nonneg (by linarith) hm, Prod.ext ?_ ?_⟩
            · dsimp only; linear_combination (1 - r) * m1 - y1
            · dsimp only; linear_combination (1 - r) * m2 - y2
          · refine ⟨f.1, (mem_of_edge hf).1, OnSeg.left _ _, r * (-m), mul_nonneg r0 (by linarith), Prod.ext ?_ ?_⟩
            · dsimp only; linear_combination -r * m1 - y1
            · dsimp only; linear_combination -r * m2 - y2
        obtain ⟨g, hgw, hgf, l, l0, hg⟩ := hcol
        by_cases hl : t + l ≤ 1 - s
        · refine ⟨t + l, by linarith, ?_⟩
          rw [← hg]
          exact h.right g hgw (hg ▸ hseg _ (hon (t + l) (by linarith) hl))
        · push Not at hl
          have hlp : 0 < l := by linarith
          have eb : b = (x.1 + (1 - s) * (b.1 - a.1), x.2 + (1 - s) * (b.2 - a.2)) :=
            Prod.ext (by dsimp only; rw [e1]; ring) (by dsimp only; rw [e2]; ring)
          have hb : b ∈ Hull w := by
            refine mem_of_onSeg (convex_convexHull K _) (edge_in_hull hf hy) (Hull.mem hgw) ⟨(1 - s - t) / l, ?_, ?_, ?_, ?_⟩
            · exact div_nonneg (by linarith) l0
            · rw [div_le_one hlp]; linarith
            · rw [hg]; dsimp only; field_simp; rw [e1]; ring
            · rw [hg]; dsimp only; field_simp; rw [e2]; ring
          exact ⟨1 - s, by linarith, by rw [← eb]; exact h.left b hav.2 hb⟩
    · refine ⟨t, t0, ?_⟩
      rcases he with he | he
      · exact h.cross _ he f hf hc _ hye hy
      · exact h.cross _ he f hf (fun k => hc (by unfold crossE at k ⊢; dsimp only at k ⊢; linarith)) _ hye.symm hy

/-- a point between two points of a convex set -/
theorem between {C : Set (Pt K)} (hC : Convex K C) {x : Pt K} {dx dy t u : K} (t0 : 0 ≤ t) (u0 : 0 ≤ u)
    (h1 : (x.1 + t * dx, x.2 + t * dy) ∈ C) (h2 : (x.1 + u * -dx, x.2 + u * -dy) ∈ C) : x ∈ C := by
  by_cases h : t + u = 0
  · have : t = 0 := by linarith
    rw [this] at h1
    simpa using h1
  · have hp : 0 < t + u := lt_of_le_of_ne (by linarith) (Ne.symm h)
    refine mem_of_onSeg hC h2 h1 ⟨u / (t + u), div_nonneg u0 hp.le, ?_, ?_, ?_⟩
    · rw [div_le_one hp]; linarith
    · dsimp only; field_simp; ring
    · dsimp only; field_simp; ring

/-- a point of an edge that is in the other polygon is covered -/
theorem Covers.border {τ : K} (hτ : τ ≠ 0) {v w : List (Pt K)} {C : Set (Pt K)} (hC : Convex K C) (h : Covers v w C) (hw : Turns τ w) (hwn : w.Nodup)
    {e : Edge K} (he : e ∈ edges v) {x : Pt K} (hx : OnSeg e.1 e.2 x) (hxw : x ∈ Hull w) : x ∈ C := by
  by_cases hd : e.1 = e.2
  · obtain ⟨s, -, -, h1, h2⟩ := hx
    have : x = e.1 := Prod.ext (by rw [h1, hd]; ring) (by rw [h2, hd]; ring)
    subst this
    exact h.left _ (mem_of_edge he).1 hxw
  · obtain ⟨t, t0, h1⟩ := h.ahead hτ hw hwn (a := e.1) (b := e.2) (.inl he) hd hx hxw
    obtain ⟨u, u0, h2⟩ := h.ahead hτ hw hwn (a := e.2) (b := e.1) (.inr he) (Ne.symm hd) hx.symm hxw
    exact between hC t0 u0 h1 (by convert h2 using 4 <;> ring)

/-- a convex set that contains the vertices of each polygon that are in the other one and the crossing points of the edges contains the
intersection of the polygons -/
theorem Covers.all {σ τ : K} (hσ : σ ≠ 0) (hτ : τ ≠ 0) {v w : List (Pt K)} {C : Set (Pt K)} (hC : Convex K C) (h : Covers v w C) (hv : Turns σ v)
    (hvn : v.Nodup) (hw : Turns τ w) (hwn : w.Nodup) {q : Pt K} (h1 : q ∈ Hull v) (h2 : q ∈ Hull w) : q ∈ C := by
  have key : ∀ dx dy : K, (dx ≠ 0 ∨ dy ≠ 0) → ∃ t : K, 0 ≤ t ∧ (q.1 + t * dx, q.2 + t * dy) ∈ C := by
    intro dx dy hd
    obtain ⟨t, t0, e, he, ht⟩ := exit hσ hv hvn h1 dx dy hd
    obtain ⟨u, u0, f, hf, hu⟩ := exit hτ hw hwn h2 dx dy hd
    have mid : ∀ (S : Set (Pt K)), Convex K S → q ∈ S → ∀ t u : K, 0 ≤ t → t ≤ u → (q.1 + u * dx, q.2 + u * dy) ∈ S →
        (q.1 + t * dx, q.2 + t * dy) ∈ S := by
      intro S hS hq t u t0 htu hu
      by_cases hu0 : u = 0
      · have : t = 0 := by linarith
        rw [this]; simpa using hq
      · have hup : 0 < u := lt_of_le_of_ne (by linarith) (Ne.symm hu0)
        refine mem_of_onSeg hS hq hu ⟨t / u, div_nonneg t0 hup.le, ?_, ?_, ?_⟩
        · rw [div_le_one hup]; exact htu
        · dsimp only; field_simp; ring
        · dsimp only; field_simp; ring
    rcases le_total t u with htu | htu
    · exact ⟨t, t0, h.border hτ hC hw hwn he ht (mid _ (convex_convexHull K _) h2 t u t0 htu (edge_in_hull hf hu))⟩
    · exact ⟨u, u0, h.symm.border hσ hC hv hvn hf hu (mid _ (convex_convexHull K _) h1 u t u0 htu (edge_in_hull he ht))⟩
  obtain ⟨t, t0, ht⟩ := key 1 0 (.inl one_ne_zero)
  obtain ⟨u, u0, hu⟩ := key (-1) (-0) (.inl (by norm_num))
  exact between hC t0 u0 ht hu

/-- the points pushed for two edges -/
theorem interPair_spec (e f : Edge K) : ∃ ps : List (Pt K), interPair (fun _ => ⊥) e f = ps.map ofPt ∧
    (∀ y ∈ ps, e.1 ≠ e.2 → f.1 ≠ f.2 → OnSeg e.1 e.2 y ∧ OnSeg f.1 f.2 y) ∧
    (crossE e f ≠ 0 → ∀ y, OnSeg e.1 e.2 y → OnSeg f.1 f.2 y → y ∈ ps) := by
  unfold interPair
  by_cases h0 : interE (fun _ => ⊥) e f = ⊥
  · rw [if_pos h0]
    refine ⟨[], rfl, by simp, fun hc y h1 h2 => ?_⟩
    rcases interE_secant (fun _ => ⊥) hc with ⟨-, k⟩ | ⟨q, -, -, k⟩
    · exact absurd h2 (k y h1)
    · rw [h0] at k
      have : In q (⊥ : TPt K) := by rw [k]; exact in_ofPt.mpr rfl
      exact absurd this not_in_bot
  rw [if_neg h0]
  by_cases hp : parallel (fun _ => ⊥) e f = true
  · rw [if_pos hp]
    refine ⟨_, rfl, ?_, fun hc => ?_⟩
    · intro y hy he hf
      have aux : ∀ (e : Edge K) (p y : Pt K), e.1 ≠ e.2 → y ∈ (if econtains e p then [p] else []) → y = p ∧ OnSeg e.1 e.2 p := by
        intro e p y he hy
        split_ifs at hy with k
        · exact ⟨List.mem_singleton.mp hy, (econtains_iff he).mp k⟩
        · simp at hy
      rw [List.mem_append, List.mem_append, List.mem_append] at hy
      rcases hy with ((hy | hy) | hy) | hy
      · obtain ⟨rfl, k⟩ := aux _ _ _ he hy; exact ⟨k, OnSeg.left _ _⟩
      · obtain ⟨rfl, k⟩ := aux _ _ _ he hy; exact ⟨k, OnSeg.right _ _⟩
      · obtain ⟨rfl, k⟩ := aux _ _ _ hf hy; exact ⟨OnSeg.left _ _, k⟩
      · obtain ⟨rfl, k⟩ := aux _ _ _ hf hy; exact ⟨OnSeg.right _ _, k⟩
    · rw [parallel_secant _ hc] at hp
      cases hp
  · rw [if_neg hp]
    have hc : crossE e f ≠ 0 := fun hc => h0 (interE_parallel hc (by simpa using hp))
    rcases interE_secant (fun _ => ⊥) hc with ⟨k, -⟩ | ⟨q, q1, q2, k⟩
    · exact absurd k h0
    · rw [k]
      refine ⟨[q], rfl, fun y hy _ _ => ?_, fun _ y y1 y2 => ?_⟩
      · rw [List.mem_singleton] at hy; subst hy; exact ⟨q1, q2⟩
      · rcases interE_secant (fun _ => ⊥) hc with ⟨k', -⟩ | ⟨q', -, -, k'⟩
        · exact absurd k' h0
        · have hy : proj (fun _ => ⊥) e f = ofPt y := proj_eq _ hc y1.cr_eq y2.cr_eq
          have hq : proj (fun _ => ⊥) e f = ofPt q := proj_eq _ hc q1.cr_eq q2.cr_eq
          rw [hy] at hq
          have : In y (ofPt q) := hq ▸ in_ofPt.mpr rfl
          rw [in_ofPt.mp this]; simp

/-- the points pushed for two polygons -/
theorem interPts_spec (v w : List (Pt K)) : ∃ ps : List (Pt K), interPts (fun _ => ⊥) v w = ps.map ofPt ∧
    (∀ y ∈ v, contains (fun _ => ⊥) w y ≠ .no → y ∈ ps) ∧ (∀ y ∈ w, contains (fun _ => ⊥) v y ≠ .no → y ∈ ps) ∧
    (∀ e ∈ edges v, ∀ f ∈ edges w, crossE e f ≠ 0 → ∀ y, OnSeg e.1 e.2 y → OnSeg f.1 f.2 y → y ∈ ps) ∧
    (∀ y ∈ ps, (y ∈ v ∧ contains (fun _ => ⊥) w y ≠ .no) ∨ (y ∈ w ∧ contains (fun _ => ⊥) v y ≠ .no) ∨
      ∃ e ∈ edges v, ∃ f ∈ edges w, e.1 ≠ e.2 → f.1 ≠ f.2 → OnSeg e.1 e.2 y ∧ OnSeg f.1 f.2 y) := by
  choose g g1 g2 g3 using interPair_spec (K := K)
  refine ⟨(v.filter fun p => contains (fun _ => ⊥) w p ≠ .no) ++ (w.filter fun p => contains (fun _ => ⊥) v p ≠ .no) ++
    (edges v).flatMap fun e1 => (edges w).flatMap fun e2 => g e1 e2, ?_, ?_, ?_, ?_, ?_⟩
  · unfold interPts
    simp only [g1, List.map_append, List.map_flatMap]
  · intro y hy hc
    simp [hy, hc]
  · intro y hy hc
    simp [hy, hc]
  · intro e he f hf hc y h1 h2
    rw [List.mem_append]
    exact .inr (List.mem_flatMap.mpr ⟨e, he, List.mem_flatMap.mpr ⟨f, hf, g3 e f hc y h1 h2⟩⟩)
  · intro y hy
    rw [List.mem_append, List.mem_append] at hy
    rcases hy with (hy | hy) | hy
    · rw [List.mem_filter, decide_eq_true_eq] at hy; exact .inl hy
    · rw [List.mem_filter, decide_eq_true_eq] at hy; exact .inr (.inl hy)
    · obtain ⟨e, he, hy⟩ := List.mem_flatMap.mp hy
      obtain ⟨f, hf, hy⟩ := List.mem_flatMap.mp hy
      exact .inr (.inr ⟨e, he, f, hf, g2 e f y hy⟩)

theorem thickPts_ofPt {eps : K} (he : 0 < eps) (c p : Pt K) : thickPts eps c (ofPt p) = some [p] := by
  unfold thickPts ofPt
  simp only [Itv.point, Itv.bounds?]
  rw [if_pos (by simpa using he)]
  simp

theorem mapM_some {α β : Type*} (f : α → Option β) (g : α → β) (l : List α) (h : ∀ a ∈ l, f a = some (g a)) : l.mapM f = some (l.map g) := by
  induction l with
  | nil => rfl
  | cons a l ih =>
    rw [List.mapM_cons, h a (by simp), ih fun b hb => h b (by simp [hb])]
    rfl

theorem isEmpty_ofPt (p : Pt K) : ((ofPt p).1.isEmpty || (ofPt p).2.isEmpty) = false := by
  simp [ofPt, Itv.point, Itv.isEmpty]

/-- `ConvexPolygon(vector<ThickPoint>)` for points -/
theorem ofThick_points {eps : K} (he : 0 < eps) (ps : List (Pt K)) : ofThick eps (ps.map ofPt) = some (convexHullPts ps) := by
  unfold ofThick
  rw [if_neg]
  · rw [mapM_some _ (fun X : TPt K => [((X.1.bounds?.getD (0, 0)).1, (X.2.bounds?.getD (0, 0)).1)])]
    · rw [Option.map_some, List.map_map]
      congr 2
      induction ps with
      | nil => rfl
      | cons p l ih => rw [List.map_cons, List.flatten_cons, ih]; rfl
    · intro X hX
      obtain ⟨p, -, rfl⟩ := List.mem_map.mp hX
      rw [thickPts_ofPt he]
      rfl
  · rw [List.any_map, List.any_eq_true]
    rintro ⟨p, -, hp⟩
    rw [Function.comp_apply, isEmpty_ofPt] at hp
    cases hp

/-- the intersection of two polygons: every common point, and nothing else when the vertices of each polygon are not aligned -/
theorem inter_spec {eps : K} (he : 0 < eps) {σ τ : K} (hσ : σ ≠ 0) (hτ : τ ≠ 0) {v w : List (Pt K)} (hv : Turns σ v)
    (hvn : v.Nodup) (hw : Turns τ w) (hwn : w.Nodup) : ∃ ps : List (Pt K), inter eps v w = some (convexHullPts ps) ∧
      Hull v ∩ Hull w ⊆ Hull ps ∧ (Solid v → Solid w → Hull ps ⊆ Hull v ∩ Hull w) := by
  obtain ⟨ps, h0, h1, h2, h3, h4⟩ := interPts_spec v w
  have no : ∀ {τ : K} {w : List (Pt K)} {y : Pt K}, τ ≠ 0 → Turns τ w → w.Nodup → y ∈ Hull w → contains (fun _ => ⊥) w y ≠ .no := by
    intro τ w y hτ hw hwn hy
    rcases contains_of_hull hτ (fun _ => ⊥) hw hwn hy with ⟨-, k⟩ | ⟨-, k⟩ <;> simp [k]
  have yes : ∀ {τ : K} {w : List (Pt K)} {y : Pt K}, τ ≠ 0 → Turns τ w → w.Nodup → Solid w → contains (fun _ => ⊥) w y ≠ .no → y ∈ Hull w := by
    intro τ w y hτ hw hwn hs hy
    by_contra hc
    exact hy (contains_of_not_hull hτ _ hw hwn hs hc)
  refine ⟨ps, by unfold inter; rw [h0]; exact ofThick_points he ps, ?_, ?_⟩
  · rintro q ⟨q1, q2⟩
    refine Covers.all hσ hτ (convex_convexHull K _) ⟨?_, ?_, ?_⟩ hv hvn hw hwn q1 q2
    · exact fun y hy hyw => Hull.mem (h1 y hy (no hτ hw hwn hyw))
    · exact fun y hy hyv => Hull.mem (h2 y hy (no hσ hv hvn hyv))
    · exact fun e he f hf hc y k1 k2 => Hull.mem (h3 e he f hf hc y k1 k2)
  · intro sv sw
    refine convexHull_min ?_ ((convex_convexHull K _).inter (convex_convexHull K _))
    intro y hy
    rcases h4 y hy with ⟨k1, k2⟩ | ⟨k1, k2⟩ | ⟨e, he, f, hf, k⟩
    · exact ⟨Hull.mem k1, yes hτ hw hwn sw k2⟩
    · exact ⟨yes hσ hv hvn sv k2, Hull.mem k1⟩
    · obtain ⟨k1, k2⟩ := k (edge_ne hvn sv he) (edge_ne hwn sw hf)
      exact ⟨edge_in_hull he k1, edge_in_hull hf k2⟩

end Codac.Poly
