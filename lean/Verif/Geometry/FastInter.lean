import Verif.Geometry.PolyInter

/-!
# Proofs on `ThickEdge & IntervalVector` and `ConvexPolygon::fast_intersection`
-/

set_option linter.unusedSectionVars false

namespace Codac.Poly
open Codac.Graham

variable {K : Type*} [Field K] [LinearOrder K] [IsStrictOrderedRing K]

theorem in_of_between {X : TPt K} {q y y' : Pt K} (h : In y X) (h' : In y' X)
    (h1 : (y.1 ≤ q.1 ∧ q.1 ≤ y'.1) ∨ (y'.1 ≤ q.1 ∧ q.1 ≤ y.1)) (h2 : (y.2 ≤ q.2 ∧ q.2 ≤ y'.2) ∨ (y'.2 ≤ q.2 ∧ q.2 ≤ y.2)) : In q X := by
  constructor
  · rcases h1 with ⟨a, b⟩ | ⟨a, b⟩
    · exact Itv.mem_of_between h.1 h'.1 a b
    · exact Itv.mem_of_between h'.1 h.1 a b
  · rcases h2 with ⟨a, b⟩ | ⟨a, b⟩
    · exact Itv.mem_of_between h.2 h'.2 a b
    · exact Itv.mem_of_between h'.2 h.2 a b

theorem foldl_sup_in {ι : Type*} (g : ι → TPt K) (l : List ι) : ∀ (i : TPt K) {q : Pt K}, (In q i → In q (l.foldl (fun i f => i ⊔ g f) i)) ∧
    (∀ f ∈ l, In q (g f) → In q (l.foldl (fun i f => i ⊔ g f) i)) := by
  induction l with
  | nil => intro i q; exact ⟨fun h => h, by simp⟩
  | cons f l ih =>
    intro i q
    refine ⟨fun h => (ih _).1 (in_sup_left h), fun f' hf' h => ?_⟩
    rcases List.mem_cons.mp hf' with rfl | hf'
    · exact (ih _).1 (in_sup_right h)
    · exact (ih _).2 f' hf' h

theorem foldl_sup_le {ι : Type*} (g : ι → TPt K) (l : List ι) (X : TPt K) : ∀ (i : TPt K), i ≤ X → (∀ f ∈ l, g f ≤ X) →
    l.foldl (fun i f => i ⊔ g f) i ≤ X := by
  induction l with
  | nil => intro i h _; exact h
  | cons f l ih =>
    intro i h hl
    exact ih _ (sup_le h (hl f (by simp))) (fun f' hf' => hl f' (List.mem_cons_of_mem _ hf'))

theorem le_of_in {x y : Itv K} {X : TPt K} (h : ∀ q, In q (tpt x y) → In q X) : tpt x y ≤ X := by
  rcases tpt_cases x y with k | ⟨q, k⟩
  · rw [k]; exact bot_le
  · constructor
    · rw [Itv.le_iff]; intro u hu
      exact (h (u, q.2) ⟨hu, k.2⟩).1
    · rw [Itv.le_iff]; intro u hu
      exact (h (q.1, u) ⟨k.1, hu⟩).2

theorem in_of_le {X Y : TPt K} (h : X ≤ Y) {q : Pt K} (hq : In q X) : In q Y := ⟨Itv.mem_of_le h.1 hq.1, Itv.mem_of_le h.2 hq.2⟩

/-- the sides of a box are in the box -/
theorem boxEdges_in {a b c d : K} (hab : a ≤ b) (hcd : c ≤ d) {f : Edge K} (hf : f ∈ boxEdges a b c d) {q : Pt K} (hq : In q (ebox f)) :
    In q (Itv.icc a b, Itv.icc c d) := by
  obtain ⟨h1, h2⟩ := hq
  simp only [boxEdges, List.mem_cons, List.not_mem_nil, or_false] at hf
  rcases hf with rfl | rfl | rfl | rfl <;> simp only [ebox, mem_hull2] at h1 h2 <;> simp only [In, Itv.mem_icc] <;>
    rcases h1 with ⟨h1, h1'⟩ | ⟨h1, h1'⟩ <;> rcases h2 with ⟨h2, h2'⟩ | ⟨h2, h2'⟩ <;>
    exact ⟨⟨by linarith, by linarith⟩, by linarith, by linarith⟩

/-- an edge intersected with a box is in the box -/
theorem edgeBox_le (z : K → Itv K) (e : Edge K) {a b c d : K} (hab : a ≤ b) (hcd : c ≤ d) :
    edgeBox z e a b c d ≤ (Itv.icc a b, Itv.icc c d) := by
  have hin : ∀ p : Pt K, ifIn p ((Itv.icc a b, Itv.icc c d) : TPt K) ≤ (Itv.icc a b, Itv.icc c d) := by
    intro p
    unfold ifIn
    split_ifs with h
    · constructor
      · rw [Itv.le_iff]; intro u hu; rw [Itv.mem_point.mp hu]; exact h.1
      · rw [Itv.le_iff]; intro u hu; rw [Itv.mem_point.mp hu]; exact h.2
    · exact bot_le
  unfold edgeBox
  dsimp only
  split_ifs
  · apply le_of_in
    intro q hq
    rw [in_tpt, Itv.mem_inf, Itv.mem_inf] at hq
    exact ⟨hq.1.1, hq.2.1⟩
  · exact sup_le (hin _) (hin _)
  · apply foldl_sup_le _ _ _ _ (sup_le (hin _) (hin _))
    intro f hf
    apply le_of_in
    intro q hq
    exact boxEdges_in hab hcd hf (interE_in_ebox (z := z) (e := e) (f := f) hq).2

/-- from a point of a box towards a point out of it: a point of a side -/
theorem exit_box {a b c d : K} {q E : Pt K} (hq : In q (Itv.icc a b, Itv.icc c d)) (hE : ¬ In E (Itv.icc a b, Itv.icc c d)) :
    ∃ x, OnSeg q E x ∧ In x (Itv.icc a b, Itv.icc c d) ∧ (x.1 = a ∨ x.1 = b ∨ x.2 = c ∨ x.2 = d) := by
  simp only [In, Itv.mem_icc] at hq hE
  obtain ⟨⟨q1, q2⟩, q3, q4⟩ := hq
  -- the four constraints
  let cs : List (K × K) := [(q.1 - a, E.1 - q.1), (b - q.1, q.1 - E.1), (q.2 - c, E.2 - q.2), (d - q.2, q.2 - E.2)]
  have hneg : ∃ k ∈ cs, k.1 + k.2 < 0 := by
    by_contra hn
    push Not at hn
    apply hE
    have n1 := hn _ (by simp [cs] : (q.1 - a, E.1 - q.1) ∈ cs)
    have n2 := hn _ (by simp [cs] : (b - q.1, q.1 - E.1) ∈ cs)
    have n3 := hn _ (by simp [cs] : (q.2 - c, E.2 - q.2) ∈ cs)
    have n4 := hn _ (by simp [cs] : (d - q.2, q.2 - E.2) ∈ cs)
    simp only at n1 n2 n3 n4
    exact ⟨⟨by linarith, by linarith⟩, by linarith, by linarith⟩
  have hpos : ∀ k ∈ cs, 0 ≤ k.1 := by
    intro k hk
    simp only [cs, List.mem_cons, List.not_mem_nil, or_false] at hk
    rcases hk with rfl | rfl | rfl | rfl <;> simp only <;> linarith
  obtain ⟨k0, hk0, hk0n⟩ := hneg
  obtain ⟨t, t0, ht, k, hk, hkn, hkz⟩ := first_zero cs Prod.fst Prod.snd hpos ⟨k0, hk0, by have := hpos k0 hk0; linarith⟩
  have t1 : t ≤ 1 := by
    have := ht k0 hk0
    have := hpos k0 hk0
    by_contra h
    nlinarith
  have m1 := ht _ (by simp [cs] : (q.1 - a, E.1 - q.1) ∈ cs)
  have m2 := ht _ (by simp [cs] : (b - q.1, q.1 - E.1) ∈ cs)
  have m3 := ht _ (by simp [cs] : (q.2 - c, E.2 - q.2) ∈ cs)
  have m4 := ht _ (by simp [cs] : (d - q.2, q.2 - E.2) ∈ cs)
  simp only at m1 m2 m3 m4
  refine ⟨(q.1 + t * (E.1 - q.1), q.2 + t * (E.2 - q.2)), ⟨t, t0, t1, rfl, rfl⟩, ?_, ?_⟩
  · simp only [In, Itv.mem_icc]
    exact ⟨⟨by linarith, by linarith⟩, by linarith, by linarith⟩
  · simp only [cs, List.mem_cons, List.not_mem_nil, or_false] at hk
    rcases hk with rfl | rfl | rfl | rfl <;> simp only at hkz
    · left; show q.1 + t * (E.1 - q.1) = a; linarith
    · right; left; show q.1 + t * (E.1 - q.1) = b; linarith
    · right; right; left; show q.2 + t * (E.2 - q.2) = c; linarith
    · right; right; right; show q.2 + t * (E.2 - q.2) = d; linarith

/-- a point of a side of a box that is not a point is on a side that is not a point -/
theorem on_side {a b c d : K} (hnp : a < b ∨ c < d) {x : Pt K} (hx : In x (Itv.icc a b, Itv.icc c d))
    (hs : x.1 = a ∨ x.1 = b ∨ x.2 = c ∨ x.2 = d) : ∃ f ∈ boxEdges a b c d, ¬ degen f ∧ (vert f ∨ horiz f) ∧ OnSeg f.1 f.2 x := by
  simp only [In, Itv.mem_icc] at hx
  obtain ⟨⟨x1, x2⟩, x3, x4⟩ := hx
  have hv : ∀ w y1 y2 : K, x.1 = w → y1 ≤ x.2 → x.2 ≤ y2 → OnSeg (w, y1) (w, y2) x := by
    intro w y1 y2 h h1 h2
    apply onSeg_of_ebox (e := ((w, y1), (w, y2)))
    · constructor
      · simp only [ebox, mem_hull2]; exact .inl ⟨h.ge, h.le⟩
      · simp only [ebox, mem_hull2]; exact .inl ⟨h1, h2⟩
    · unfold cr; rw [h]; ring
  have hh : ∀ w y1 y2 : K, x.2 = w → y1 ≤ x.1 → x.1 ≤ y2 → OnSeg (y1, w) (y2, w) x := by
    intro w y1 y2 h h1 h2
    apply onSeg_of_ebox (e := ((y1, w), (y2, w)))
    · constructor
      · simp only [ebox, mem_hull2]; exact .inl ⟨h1, h2⟩
      · simp only [ebox, mem_hull2]; exact .inl ⟨h.ge, h.le⟩
    · unfold cr; rw [h]; ring
  have vR : c < d → x.1 = b → ∃ f ∈ boxEdges a b c d, ¬ degen f ∧ (vert f ∨ horiz f) ∧ OnSeg f.1 f.2 x := fun hcd h =>
    ⟨((b, c), (b, d)), by simp [boxEdges], fun k => hcd.ne (congrArg Prod.snd k), .inl rfl, hv _ _ _ h x3 x4⟩
  have vL : c < d → x.1 = a → ∃ f ∈ boxEdges a b c d, ¬ degen f ∧ (vert f ∨ horiz f) ∧ OnSeg f.1 f.2 x := fun hcd h =>
    ⟨((a, d), (a, c)), by simp [boxEdges], fun k => hcd.ne' (congrArg Prod.snd k), .inl rfl, (hv _ _ _ h x3 x4).symm⟩
  have hB : a < b → x.2 = c → ∃ f ∈ boxEdges a b c d, ¬ degen f ∧ (vert f ∨ horiz f) ∧ OnSeg f.1 f.2 x := fun hab h =>
    ⟨((a, c), (b, c)), by simp [boxEdges], fun k => hab.ne (congrArg Prod.fst k), .inr rfl, hh _ _ _ h x1 x2⟩
  have hT : a < b → x.2 = d → ∃ f ∈ boxEdges a b c d, ¬ degen f ∧ (vert f ∨ horiz f) ∧ OnSeg f.1 f.2 x := fun hab h =>
    ⟨((b, d), (a, d)), by simp [boxEdges], fun k => hab.ne' (congrArg Prod.fst k), .inr rfl, (hh _ _ _ h x1 x2).symm⟩
  rcases lt_or_ge a b with hab | hab
  · rcases lt_or_ge c d with hcd | hcd
    · rcases hs with h | h | h | h
      · exact vL hcd h
      · exact vR hcd h
      · exact hB hab h
      · exact hT hab h
    · exact hB hab (by linarith)
  · exact vR (hnp.resolve_left (not_lt.mpr hab)) (by linarith)

/-- a point of an edge in a box that is not a point is in the computed intersection -/
theorem edgeBox_complete (z : K → Itv K) {e : Edge K} {a b c d : K} (hnp : a < b ∨ c < d) {q : Pt K} (h1 : OnSeg e.1 e.2 q)
    (h2 : In q (Itv.icc a b, Itv.icc c d)) : In q (edgeBox z e a b c d) := by
  unfold edgeBox
  dsimp only
  split_ifs with k1 k2
  · rw [in_tpt, Itv.mem_inf, Itv.mem_inf]
    exact ⟨⟨h2.1, h1.in_ebox.1⟩, h2.2, h1.in_ebox.2⟩
  · have i1 : In e.1 (ifIn e.1 ((Itv.icc a b, Itv.icc c d) : TPt K)) := by
      unfold ifIn; rw [if_pos k2.1]; exact in_ofPt.mpr rfl
    have i2 : In e.2 (ifIn e.2 ((Itv.icc a b, Itv.icc c d) : TPt K)) := by
      unfold ifIn; rw [if_pos k2.2]; exact in_ofPt.mpr rfl
    have hb := h1.in_ebox
    simp only [In, ebox, mem_hull2] at hb
    exact in_of_between (in_sup_left i1) (in_sup_right i2) hb.1 hb.2
  · generalize hI : (boxEdges a b c d).foldl (fun i f => i ⊔ interE z e f) (ifIn e.1 (Itv.icc a b, Itv.icc c d) ⊔ ifIn e.2 (Itv.icc a b, Itv.icc c d)) = I
    -- on each side
    have side : ∀ E : Pt K, OnSeg e.1 e.2 E → (In E (Itv.icc a b, Itv.icc c d) → In E I) → ∃ x, OnSeg q E x ∧ In x I := by
      intro E hE hEI
      by_cases hin : In E (Itv.icc a b, Itv.icc c d)
      · exact ⟨E, OnSeg.right _ _, hEI hin⟩
      · obtain ⟨x, hx, hxb, hxs⟩ := exit_box h2 hin
        refine ⟨x, hx, ?_⟩
        obtain ⟨f, hf, hfd, hfa, hfx⟩ := on_side hnp hxb hxs
        have hxe : OnSeg e.1 e.2 x := by
          rw [onSeg_iff_segment] at *
          exact (convex_segment (𝕜 := K) e.1 e.2).segment_subset h1 hE hx
        rw [← hI]
        exact (foldl_sup_in _ _ _).2 f hf (interE_complete z hfd hfa hxe hfx)
    obtain ⟨x1, s1, i1⟩ := side e.1 (OnSeg.left _ _) (fun h => by
      rw [← hI]; apply (foldl_sup_in _ _ _).1; apply in_sup_left
      unfold ifIn; rw [if_pos ⟨h.1, h.2⟩]; exact in_ofPt.mpr rfl)
    obtain ⟨x2, s2, i2⟩ := side e.2 (OnSeg.right _ _) (fun h => by
      rw [← hI]; apply (foldl_sup_in _ _ _).1; apply in_sup_right
      unfold ifIn; rw [if_pos ⟨h.1, h.2⟩]; exact in_ofPt.mpr rfl)
    obtain ⟨s, s0, s1', qe1, qe2⟩ := h1
    obtain ⟨t1, u1, u1', v1, w1⟩ := s1
    obtain ⟨t2, u2, u2', v2, w2⟩ := s2
    refine in_of_between i1 i2 ?_ ?_
    · have d1 : x1.1 - q.1 = -(t1 * s) * (e.2.1 - e.1.1) := by rw [v1, qe1]; ring
      have d2 : x2.1 - q.1 = (t2 * (1 - s)) * (e.2.1 - e.1.1) := by rw [v2, qe1]; ring
      have p1 : 0 ≤ t1 * s := mul_nonneg u1 s0
      have p2 : 0 ≤ t2 * (1 - s) := mul_nonneg u2 (by linarith)
      rcases le_total e.1.1 e.2.1 with h | h
      · left; constructor <;> nlinarith
      · right; constructor <;> nlinarith
    · have d1 : x1.2 - q.2 = -(t1 * s) * (e.2.2 - e.1.2) := by rw [w1, qe2]; ring
      have d2 : x2.2 - q.2 = (t2 * (1 - s)) * (e.2.2 - e.1.2) := by rw [w2, qe2]; ring
      have p1 : 0 ≤ t1 * s := mul_nonneg u1 s0
      have p2 : 0 ≤ t2 * (1 - s) := mul_nonneg u2 (by linarith)
      rcases le_total e.1.2 e.2.2 with h | h
      · left; constructor <;> nlinarith
      · right; constructor <;> nlinarith

/-- fold on the corners -/
theorem corners_in (P : Pt K → Prop) [DecidablePred P] (l : List (Pt K)) : ∀ (i : TPt K) {q : Pt K},
    (In q i → In q (l.foldl (fun i p => if P p then i ⊔ ofPt p else i) i)) ∧
    (q ∈ l → P q → In q (l.foldl (fun i p => if P p then i ⊔ ofPt p else i) i)) := by
  induction l with
  | nil => intro i q; exact ⟨fun h => h, by simp⟩
  | cons p l ih =>
    intro i q
    refine ⟨fun h => (ih _).1 ?_, fun hq hP => ?_⟩
    · dsimp only
      split_ifs
      · exact in_sup_left h
      · exact h
    · rcases List.mem_cons.mp hq with rfl | hq
      · apply (ih _).1
        dsimp only
        rw [if_pos hP]
        exact in_sup_right (in_ofPt.mpr rfl)
      · exact (ih _).2 hq hP

theorem corners_le (P : Pt K → Prop) [DecidablePred P] (X : TPt K) (l : List (Pt K)) : ∀ (i : TPt K), i ≤ X → (∀ p ∈ l, P p → ofPt p ≤ X) →
    l.foldl (fun i p => if P p then i ⊔ ofPt p else i) i ≤ X := by
  induction l with
  | nil => intro i h _; exact h
  | cons p l ih =>
    intro i h hl
    refine ih _ ?_ (fun f' hf' => hl f' (List.mem_cons_of_mem _ hf'))
    dsimp only
    split_ifs with k
    · exact sup_le h (hl p (by simp) k)
    · exact h

theorem ofPt_le {p : Pt K} {X : TPt K} (h : In p X) : ofPt p ≤ X := by
  constructor
  · rw [Itv.le_iff]; intro u hu; rw [Itv.mem_point.mp hu]; exact h.1
  · rw [Itv.le_iff]; intro u hu; rw [Itv.mem_point.mp hu]; exact h.2

/-- the reduced box: an intersection of a box with the box of a polygon is bounded -/
theorem reduced {v : List (Pt K)} (hv : v ≠ []) (x : TPt K) :
    (tpt (x.1 ⊓ (pbox v).1) (x.2 ⊓ (pbox v).2) = ⊥) ∨ ∃ a b c d : K, ∃ h1 : a ≤ b, ∃ h2 : c ≤ d,
      tpt (x.1 ⊓ (pbox v).1) (x.2 ⊓ (pbox v).2) = (.mk (some a) (some b) h1, .mk (some c) (some d) h2) := by
  obtain ⟨a, b, c, d, h1, h2, hb, -⟩ := pbox_spec hv
  rcases tpt_cases (x.1 ⊓ (pbox v).1) (x.2 ⊓ (pbox v).2) with k | ⟨q, k⟩
  · exact .inl k
  · right
    have hq := in_tpt.mp k
    have e : tpt (x.1 ⊓ (pbox v).1) (x.2 ⊓ (pbox v).2) = (x.1 ⊓ (pbox v).1, x.2 ⊓ (pbox v).2) := by
      unfold tpt
      rw [if_neg]
      rw [Bool.or_eq_true, Itv.isEmpty_iff, Itv.isEmpty_iff, not_or]
      exact ⟨Itv.ne_bot_of_mem hq.1, Itv.ne_bot_of_mem hq.2⟩
    have bd : ∀ (X : Itv K) (l u : K) (h : l ≤ u) (w : K), w ∈ X ⊓ .mk (some l) (some u) h → ∃ l' u' : K, ∃ h' : l' ≤ u',
        X ⊓ .mk (some l) (some u) h = .mk (some l') (some u') h' := by
      intro X l u h w hw
      have hle : X ⊓ .mk (some l) (some u) h ≤ .mk (some l) (some u) h := inf_le_right
      generalize X ⊓ .mk (some l) (some u) h = Y at hw hle
      match Y, hw, hle with
      | .mk (some l') (some u') h', _, _ => exact ⟨l', u', h', rfl⟩
      | .mk none hi h', hw, hle =>
        exfalso
        have hm : min w (l - 1) ∈ Itv.mk none hi h' := by
          refine ⟨trivial, ?_⟩
          have := hw.2
          match hi, this with
          | none, _ => trivial
          | some hi, this => exact le_trans (min_le_left _ _) this
        have h1 : l ≤ min w (l - 1) := (Itv.mem_of_le hle hm).1
        have := le_trans h1 (min_le_right _ _)
        linarith
      | .mk (some l') none h', hw, hle =>
        exfalso
        have hm : max w (u + 1) ∈ Itv.mk (some l') none h' := ⟨le_trans hw.1 (le_max_left _ _), trivial⟩
        have h1 : max w (u + 1) ≤ u := (Itv.mem_of_le hle hm).2
        have := le_trans (le_max_right _ _) h1
        linarith
    rw [e]
    rw [hb] at hq ⊢
    obtain ⟨l1, u1, g1, e1⟩ := bd _ _ _ _ _ hq.1
    obtain ⟨l2, u2, g2, e2⟩ := bd _ _ _ _ _ hq.2
    exact ⟨l1, u1, l2, u2, g1, g2, by rw [← e1, ← e2]⟩

theorem icc_mk {a b : K} (h : a ≤ b) : Itv.icc a b = .mk (some a) (some b) h := Itv.icc_eq_mk h

/-- `fast_intersection` loses no point of the polygon -/
theorem fastInter_sound {σ : K} (hσ : σ ≠ 0) (z : K → Itv K) {v : List (Pt K)} (ht : Turns σ v) (hn : v.Nodup) {x : TPt K} {q : Pt K} (hq : q ∈ Hull v)
    (hx : In q x) : In q (fastInter z v x) := by
  have hv := ne_nil_of_hull hq
  obtain ⟨a0, b0, c0, d0, g1, g2, hb, hm, -⟩ := pbox_spec hv
  have hqb : In q (pbox v) := by
    have := hull_box hm hq
    rw [hb]; exact ⟨⟨this.1, this.2.1⟩, this.2.2.1, this.2.2.2⟩
  have hqr : In q (tpt (x.1 ⊓ (pbox v).1) (x.2 ⊓ (pbox v).2)) := by
    rw [in_tpt, Itv.mem_inf, Itv.mem_inf]; exact ⟨⟨hx.1, hqb.1⟩, hx.2, hqb.2⟩
  rcases reduced hv x with k | ⟨a, b, c, d, h1, h2, hr⟩
  · rw [k] at hqr; exact absurd hqr not_in_bot
  unfold fastInter
  rw [if_neg (by
    rw [not_or, not_or]; exact ⟨hv, Itv.ne_bot_of_mem hx.1, Itv.ne_bot_of_mem hx.2⟩)]
  dsimp only
  rw [hr] at hqr ⊢
  simp only [Itv.bounds?]
  generalize hI : List.foldl (fun i p => if contains z v p ≠ BI.no then i ⊔ ofPt p else i)
    (List.foldl (fun i e => i ⊔ edgeBox z e a b c d) ⊥ (edges v)) [(a, c), (b, c), (b, d), (a, d)] = I
  have hcorner : ∀ p ∈ [(a, c), (b, c), (b, d), (a, d)], p ∈ Hull v → In p I := by
    intro p hp hpH
    rw [← hI]
    apply (corners_in _ _ _).2 hp
    rcases contains_of_hull hσ z ht hn hpH with ⟨-, k⟩ | ⟨-, k⟩ <;> rw [k] <;> simp
  have hbox : In q (Itv.icc a b, Itv.icc c d) := by rw [icc_mk h1, icc_mk h2]; exact hqr
  have hbq := hbox
  simp only [In, Itv.mem_icc] at hbq
  by_cases hnp : a < b ∨ c < d
  swap
  · -- the box is a point
    rw [not_or, not_lt, not_lt] at hnp
    have e : q = (a, c) := Prod.ext (by show q.1 = a; linarith) (by show q.2 = c; linarith)
    exact hcorner q (by rw [e]; simp) hq
  have hedge : ∀ e ∈ edges v, ∀ y, OnSeg e.1 e.2 y → In y (Itv.icc a b, Itv.icc c d) → In y I := by
    intro e he y hy hyb
    rw [← hI]
    apply (corners_in _ _ _).1
    exact (foldl_sup_in (fun e => edgeBox z e a b c d) _ _).2 e he (edgeBox_complete z hnp hy hyb)
  -- in a direction, up to a border of the box
  have reach : ∀ (dx dy T : K) (p : Pt K), (dx ≠ 0 ∨ dy ≠ 0) → 0 ≤ T → p ∈ Hull v → In p (Itv.icc a b, Itv.icc c d) →
      In (p.1 + T * dx, p.2 + T * dy) (Itv.icc a b, Itv.icc c d) →
      (∃ t, 0 ≤ t ∧ t ≤ T ∧ In (p.1 + t * dx, p.2 + t * dy) I) ∨ (p.1 + T * dx, p.2 + T * dy) ∈ Hull v := by
    intro dx dy T p hd hT hp hpb hpT
    obtain ⟨t, t0, e, he, hoe⟩ := exit hσ ht hn hp dx dy hd
    rcases le_or_gt t T with h | h
    · left
      refine ⟨t, t0, h, hedge e he _ hoe ?_⟩
      refine in_of_between hpb hpT ?_ ?_
      · simp only
        rcases le_total 0 dx with k | k
        · left; constructor <;> nlinarith
        · right; constructor <;> nlinarith
      · simp only
        rcases le_total 0 dy with k | k
        · left; constructor <;> nlinarith
        · right; constructor <;> nlinarith
    · right
      refine (convex_convexHull K _).segment_subset hp (edge_in_hull he hoe) (onSeg_iff_segment.mp ?_)
      have tp : 0 < t := lt_of_le_of_lt hT h
      refine ⟨T / t, div_nonneg hT t0, by rw [div_le_one tp]; exact h.le, ?_, ?_⟩ <;> simp only <;> field_simp <;> ring
  have inb : ∀ p1 p2 : K, a ≤ p1 → p1 ≤ b → c ≤ p2 → p2 ≤ d → In (p1, p2) (Itv.icc a b, Itv.icc c d) := by
    intro p1 p2 i1 i2 i3 i4
    simp only [In, Itv.mem_icc]; exact ⟨⟨i1, i2⟩, i3, i4⟩
  obtain ⟨⟨q1, q2⟩, q3, q4⟩ := hbq
  -- to the right, then up
  have right : ∃ y, In y I ∧ q.1 ≤ y.1 := by
    rcases reach 1 0 (b - q.1) q (.inl one_ne_zero) (by linarith) hq hbox (inb _ _ (by linarith) (by linarith) (by linarith) (by linarith)) with
      ⟨t, t0, -, h⟩ | h
    · exact ⟨_, h, by simp only; linarith⟩
    · have e : (q.1 + (b - q.1) * 1, q.2 + (b - q.1) * 0) = ((b, q.2) : Pt K) := Prod.ext (by simp only; ring) (by simp only; ring)
      rw [e] at h
      rcases reach 0 1 (d - q.2) (b, q.2) (.inr one_ne_zero) (by linarith) h (inb _ _ h1 le_rfl q3 q4) (inb _ _ (by simp only; linarith) (by simp only; linarith) (by simp only; linarith) (by simp only; linarith)) with
        ⟨t, t0, -, h⟩ | h
      · exact ⟨_, h, by simp only; linarith⟩
      · have e : ((b, q.2).1 + (d - q.2) * 0, (b, q.2).2 + (d - q.2) * 1) = ((b, d) : Pt K) := Prod.ext (by simp only; ring) (by simp only; ring)
        rw [e] at h
        exact ⟨_, hcorner (b, d) (by simp) h, q2⟩
  have left : ∃ y, In y I ∧ y.1 ≤ q.1 := by
    rcases reach (-1) 0 (q.1 - a) q (.inl (by norm_num)) (by linarith) hq hbox (inb _ _ (by linarith) (by linarith) (by linarith) (by linarith)) with
      ⟨t, t0, -, h⟩ | h
    · exact ⟨_, h, by simp only; linarith⟩
    · have e : (q.1 + (q.1 - a) * -1, q.2 + (q.1 - a) * 0) = ((a, q.2) : Pt K) := Prod.ext (by simp only; ring) (by simp only; ring)
      rw [e] at h
      rcases reach 0 1 (d - q.2) (a, q.2) (.inr one_ne_zero) (by linarith) h (inb _ _ le_rfl h1 q3 q4) (inb _ _ (by simp only; linarith) (by simp only; linarith) (by simp only; linarith) (by simp only; linarith)) with
        ⟨t, t0, -, h⟩ | h
      · exact ⟨_, h, by simp only; linarith⟩
      · have e : ((a, q.2).1 + (d - q.2) * 0, (a, q.2).2 + (d - q.2) * 1) = ((a, d) : Pt K) := Prod.ext (by simp only; ring) (by simp only; ring)
        rw [e] at h
        exact ⟨_, hcorner (a, d) (by simp) h, q1⟩
  have up : ∃ y, In y I ∧ q.2 ≤ y.2 := by
    rcases reach 0 1 (d - q.2) q (.inr one_ne_zero) (by linarith) hq hbox (inb _ _ (by linarith) (by linarith) (by linarith) (by linarith)) with
      ⟨t, t0, -, h⟩ | h
    · exact ⟨_, h, by simp only; linarith⟩
    · have e : (q.1 + (d - q.2) * 0, q.2 + (d - q.2) * 1) = ((q.1, d) : Pt K) := Prod.ext (by simp only; ring) (by simp only; ring)
      rw [e] at h
      rcases reach 1 0 (b - q.1) (q.1, d) (.inl one_ne_zero) (by linarith) h (inb _ _ q1 q2 h2 le_rfl) (inb _ _ (by simp only; linarith) (by simp only; linarith) (by simp only; linarith) (by simp only; linarith)) with
        ⟨t, t0, -, h⟩ | h
      · exact ⟨_, h, by simp only; linarith⟩
      · have e : ((q.1, d).1 + (b - q.1) * 1, (q.1, d).2 + (b - q.1) * 0) = ((b, d) : Pt K) := Prod.ext (by simp only; ring) (by simp only; ring)
        rw [e] at h
        exact ⟨_, hcorner (b, d) (by simp) h, q4⟩
  have down : ∃ y, In y I ∧ y.2 ≤ q.2 := by
    rcases reach 0 (-1) (q.2 - c) q (.inr (by norm_num)) (by linarith) hq hbox (inb _ _ (by linarith) (by linarith) (by linarith) (by linarith)) with
      ⟨t, t0, -, h⟩ | h
    · exact ⟨_, h, by simp only; linarith⟩
    · have e : (q.1 + (q.2 - c) * 0, q.2 + (q.2 - c) * -1) = ((q.1, c) : Pt K) := Prod.ext (by simp only; ring) (by simp only; ring)
      rw [e] at h
      rcases reach 1 0 (b - q.1) (q.1, c) (.inl one_ne_zero) (by linarith) h (inb _ _ q1 q2 le_rfl h2) (inb _ _ (by simp only; linarith) (by simp only; linarith) (by simp only; linarith) (by simp only; linarith)) with
        ⟨t, t0, -, h⟩ | h
      · exact ⟨_, h, by simp only; linarith⟩
      · have e : ((q.1, c).1 + (b - q.1) * 1, (q.1, c).2 + (b - q.1) * 0) = ((b, c) : Pt K) := Prod.ext (by simp only; ring) (by simp only; ring)
        rw [e] at h
        exact ⟨_, hcorner (b, c) (by simp) h, q3⟩
  obtain ⟨yr, ir, r1⟩ := right
  obtain ⟨yl, il, l1⟩ := left
  obtain ⟨yu, iu, u1⟩ := up
  obtain ⟨yd, id, d1⟩ := down
  exact ⟨Itv.mem_of_between il.1 ir.1 l1 r1, Itv.mem_of_between id.2 iu.2 d1 u1⟩

/-- the result is in the box, and in the box of the polygon -/
theorem fastInter_le (z : K → Itv K) (v : List (Pt K)) (x : TPt K) : fastInter z v x ≤ x ∧ fastInter z v x ≤ pbox v := by
  unfold fastInter
  split_ifs with hv
  · exact ⟨bot_le, bot_le⟩
  · rw [not_or, not_or] at hv
    dsimp only
    rcases reduced hv.1 x with k | ⟨a, b, c, d, h1, h2, hr⟩
    · rw [k]; exact ⟨bot_le, bot_le⟩
    · have hsub : (Itv.icc a b, Itv.icc c d) ≤ x ∧ ((Itv.icc a b, Itv.icc c d) : TPt K) ≤ pbox v := by
        rw [icc_mk h1, icc_mk h2, ← hr]
        constructor
        · apply le_of_in; intro q hq
          rw [in_tpt, Itv.mem_inf, Itv.mem_inf] at hq
          exact ⟨hq.1.1, hq.2.1⟩
        · apply le_of_in; intro q hq
          rw [in_tpt, Itv.mem_inf, Itv.mem_inf] at hq
          exact ⟨hq.1.2, hq.2.2⟩
      rw [hr]
      simp only [Itv.bounds?]
      have hle : List.foldl (fun i p => if contains z v p ≠ BI.no then i ⊔ ofPt p else i)
          (List.foldl (fun i e => i ⊔ edgeBox z e a b c d) ⊥ (edges v)) [(a, c), (b, c), (b, d), (a, d)] ≤ (Itv.icc a b, Itv.icc c d) := by
        apply corners_le
        · exact foldl_sup_le _ _ _ _ bot_le (fun e _ => edgeBox_le z e h1 h2)
        · intro p hp _
          apply ofPt_le
          simp only [List.mem_cons, List.not_mem_nil, or_false] at hp
          rcases hp with rfl | rfl | rfl | rfl <;> simp only [In, Itv.mem_icc] <;> exact ⟨⟨by linarith, by linarith⟩, by linarith, by linarith⟩
      exact ⟨le_trans hle hsub.1, le_trans hle hsub.2⟩

/-- an edge that is neither horizontal nor vertical and a side of a box: what is computed only has common points, if `[a]/[0,0]` is empty -/
theorem interE_side {z : K → Itv K} (hz : ∀ a, z a = ⊥) {e f : Edge K} (he : ¬ (vert e ∨ horiz e)) (hf : vert f ∨ horiz f) {q : Pt K}
    (h : In q (interE z e f)) : OnSeg e.1 e.2 q := by
  rw [not_or] at he
  have hed : ¬ degen e := fun k => he.1 (by show e.1.1 = e.2.1; rw [show e.1 = e.2 from k])
  by_cases hfd : degen f
  · exfalso
    unfold interE at h
    rw [in_tpt, Itv.mem_inf, Itv.mem_inf] at h
    have hp := h.1.1.1
    unfold proj at hp
    rw [if_pos ⟨hed, hfd⟩] at hp
    unfold projAux at hp
    rw [if_neg (fun k => hed k.2), if_neg he.1, if_neg he.2] at hp
    have hfd' : f.1 = f.2 := hfd
    have hc : (f.1.1 - f.2.1) * (e.1.2 - e.2.2) - (f.1.2 - f.2.2) * (e.1.1 - e.2.1) = 0 := by rw [hfd']; ring
    simp only [hc, dv, if_true, hz, tpt, Itv.isEmpty_iff, Bool.or_self] at hp
    exact hp
  · by_cases hh : horiz f
    · exact (interE_sound he.2 hh hfd h).1
    · have hv : vert f := hf.resolve_right hh
      obtain ⟨b1, b2⟩ := interE_in_ebox h
      refine onSeg_of_ebox b1 ?_
      have hq1 : q.1 = f.1.1 := by
        have := b2.1
        simp only [ebox, mem_hull2] at this
        have hv' : f.1.1 = f.2.1 := hv
        rcases this with ⟨k1, k2⟩ | ⟨k1, k2⟩ <;> linarith
      unfold interE at h
      rw [in_tpt, Itv.mem_inf, Itv.mem_inf, Itv.mem_inf, Itv.mem_inf] at h
      have hp1 := h.2.1.1
      unfold proj at hp1
      rw [if_neg (fun h => hfd h.2)] at hp1
      unfold projAux at hp1
      rw [if_neg (fun h => hfd h.2), if_pos hv, if_neg hed, if_neg he.1, if_neg he.2] at hp1
      dsimp only at hp1
      have hd : e.2.1 - e.1.1 ≠ 0 := fun h => he.1 (by show e.1.1 = e.2.1; linarith)
      have hq : q.2 = e.1.2 + (e.2.2 - e.1.2) / (e.2.1 - e.1.1) * (f.1.1 - e.1.1) := by
        unfold tpt at hp1
        split_ifs at hp1 with hem
        · exact absurd hp1 (by rw [Itv.bot_eq]; exact fun h => h)
        · exact Itv.mem_point.mp hp1
      unfold cr
      rw [hq, hq1]
      field_simp
      ring

/-- an edge intersected with a box: the smallest box around the points they share -/
theorem edgeBox_least {z : K → Itv K} (hz : ∀ a, z a = ⊥) (e : Edge K) {a b c d : K} (hab : a ≤ b) (hcd : c ≤ d) {X : TPt K}
    (hX : ∀ q, OnSeg e.1 e.2 q → In q (Itv.icc a b, Itv.icc c d) → In q X) : edgeBox z e a b c d ≤ X := by
  have hin : ∀ p : Pt K, OnSeg e.1 e.2 p → ifIn p ((Itv.icc a b, Itv.icc c d) : TPt K) ≤ X := by
    intro p hp
    unfold ifIn
    split_ifs with h
    · exact ofPt_le (hX p hp h)
    · exact bot_le
  unfold edgeBox
  dsimp only
  split_ifs with k1 k2
  · apply le_of_in
    intro q hq
    rw [in_tpt, Itv.mem_inf, Itv.mem_inf] at hq
    refine hX q (onSeg_of_ebox ⟨hq.1.2, hq.2.2⟩ ?_) ⟨hq.1.1, hq.2.1⟩
    have i1 := hq.1.2
    have i2 := hq.2.2
    simp only [ebox, mem_hull2] at i1 i2
    unfold cr
    rcases k1 with k | k
    · have k' : e.1.1 = e.2.1 := k
      have : q.1 = e.1.1 := by rcases i1 with ⟨j1, j2⟩ | ⟨j1, j2⟩ <;> linarith
      rw [this, k']; ring
    · have k' : e.1.2 = e.2.2 := k
      have : q.2 = e.1.2 := by rcases i2 with ⟨j1, j2⟩ | ⟨j1, j2⟩ <;> linarith
      rw [this, k']; ring
  · exact sup_le (hin _ (OnSeg.left _ _)) (hin _ (OnSeg.right _ _))
  · apply foldl_sup_le _ _ _ _ (sup_le (hin _ (OnSeg.left _ _)) (hin _ (OnSeg.right _ _)))
    intro f hf
    apply le_of_in
    intro q hq
    have hf' : vert f ∨ horiz f := by
      simp only [boxEdges, List.mem_cons, List.not_mem_nil, or_false] at hf
      rcases hf with rfl | rfl | rfl | rfl
      · exact .inr rfl
      · exact .inl rfl
      · exact .inr rfl
      · exact .inl rfl
    exact hX q (interE_side hz k1 hf' hq) (boxEdges_in hab hcd hf (interE_in_ebox (z := z) (e := e) (f := f) hq).2)

/-- `fast_intersection` of a polygon whose vertices are not aligned: the smallest box around the common points -/
theorem fastInter_least {σ : K} (hσ : σ ≠ 0) {z : K → Itv K} (hz : ∀ a, z a = ⊥) {v : List (Pt K)} (ht : Turns σ v) (hn : v.Nodup) (hs : Solid v)
    {x X : TPt K} (hX : ∀ q ∈ Hull v, In q x → In q X) : fastInter z v x ≤ X := by
  unfold fastInter
  split_ifs with hv
  · exact bot_le
  · rw [not_or, not_or] at hv
    dsimp only
    rcases reduced hv.1 x with k | ⟨a, b, c, d, h1, h2, hr⟩
    · rw [k]; exact bot_le
    · have hsub : (Itv.icc a b, Itv.icc c d) ≤ x := by
        rw [icc_mk h1, icc_mk h2, ← hr]
        apply le_of_in; intro q hq
        rw [in_tpt, Itv.mem_inf, Itv.mem_inf] at hq
        exact ⟨hq.1.1, hq.2.1⟩
      rw [hr]
      simp only [Itv.bounds?]
      apply corners_le
      · refine foldl_sup_le _ _ _ _ bot_le (fun e he => edgeBox_least hz e h1 h2 (fun q hq hqb => ?_))
        exact hX q (edge_in_hull he hq) (in_of_le hsub hqb)
      · intro p hp hc
        apply ofPt_le
        have hpH : p ∈ Hull v := by
          by_contra hn'
          exact hc (contains_of_not_hull hσ z ht hn hs hn')
        refine hX p hpH (in_of_le hsub ?_)
        simp only [List.mem_cons, List.not_mem_nil, or_false] at hp
        rcases hp with rfl | rfl | rfl | rfl <;> simp only [In, Itv.mem_icc] <;> exact ⟨⟨by linarith, by linarith⟩, by linarith, by linarith⟩

end Codac.Poly
