import Verif.Tube.Envelope
import Mathlib.Data.Rat.Floor

/-!
# C135 — polygon envelope of a tube

Specification: the inside of a closed polygonal line by the even-odd rule: a point is inside when the number of edges above it is odd. An edge from `p` to `q` is
above `(t,y)` when `t` lies in the half-open range of the times of `p` and `q`, and the point of the segment at the time `t` is above `y`.
-/

set_option linter.unusedSectionVars false

namespace Codac.Props
open Codac.Envelope

variable {K : Type*} [Field K] [LinearOrder K] [IsStrictOrderedRing K]

/-- the edges of a closed line -/
def closedEdges (v : List (K × K)) : List ((K × K) × (K × K)) := v.zip (v.tail ++ v.head?.toList)

/-- the edge passes above the point `(t,y)` -/
def Above (t y : K) (e : (K × K) × (K × K)) : Prop :=
  min e.1.1 e.2.1 ≤ t ∧ t < max e.1.1 e.2.1 ∧ y < e.1.2 + (t - e.1.1) * (e.2.2 - e.1.2) / (e.2.1 - e.1.1)

instance (t y : K) (e : (K × K) × (K × K)) : Decidable (Above t y e) := by unfold Above; infer_instance

/-- even-odd rule -/
def InPolygon (v : List (K × K)) (t y : K) : Prop := ((closedEdges v).countP fun e => decide (Above t y e)) % 2 = 1

/-- the number of edges of an open line which pass above -/
def pathAbove (t y : K) : List (K × K) → Nat
  | p :: q :: l => (if Above t y (p, q) then 1 else 0) + pathAbove t y (q :: l)
  | _ => 0

theorem closed_path (t y : K) (p : K × K) (l : List (K × K)) :
    (closedEdges (p :: l)).countP (fun e => decide (Above t y e)) = pathAbove t y (p :: l ++ [p]) := by
  have key : ∀ (l : List (K × K)) (p r : K × K), ((p :: l).zip (l ++ [r])).countP (fun e => decide (Above t y e)) = pathAbove t y (p :: l ++ [r]) := by
    intro l
    induction l with
    | nil => intro p r; simp [pathAbove, List.countP_cons]
    | cons q l ih =>
      intro p r
      have := ih q r
      simp only [List.cons_append] at this ⊢
      rw [List.zip_cons_cons, List.countP_cons, this, pathAbove]
      simp only [decide_eq_true_eq]
      omega
  exact key l p p

theorem above_vert {t y : K} {p q : K × K} (h : p.1 = q.1) : ¬ Above t y (p, q) := by
  rintro ⟨h1, h2, _⟩
  simp only [h, min_self, max_self] at h1 h2
  exact absurd h2 (not_lt.mpr h1)

theorem above_right {t y a b v : K} (hab : a < b) : Above t y ((a, v), (b, v)) ↔ a ≤ t ∧ t < b ∧ y < v := by
  simp only [Above, min_eq_left hab.le, max_eq_right hab.le, sub_self, mul_zero, zero_div, add_zero]

theorem above_left {t y a b v : K} (hab : a < b) : Above t y ((b, v), (a, v)) ↔ a ≤ t ∧ t < b ∧ y < v := by
  simp only [Above, min_eq_right hab.le, max_eq_left hab.le, sub_self, mul_zero, zero_div, add_zero]

/-- contiguous bars from `a` to `b` -/
def BarTiles : K → List (Bar K) → K → Prop
  | a, [], b => a = b
  | a, c :: cs, b => c.lb = a ∧ c.lb < c.ub ∧ c.lo ≤ c.hi ∧ BarTiles c.ub cs b

theorem path_upper (t y : K) : ∀ (bs : List (Bar K)) (a b : K) (p : K × K), BarTiles a bs b → p.1 = a → ∀ R : List (K × K), ∃ q : K × K, q.1 = b ∧
    pathAbove t y (p :: upper bs ++ R) = (bs.countP fun c => decide (c.lb ≤ t ∧ t < c.ub ∧ y < c.hi)) + pathAbove t y (q :: R) := by
  intro bs
  induction bs with
  | nil => intro a b p h hp R; exact ⟨p, hp.trans h, by simp [upper]⟩
  | cons c cs ih =>
    intro a b p ⟨h1, h2, _, h4⟩ hp R
    obtain ⟨q, hq, e⟩ := ih c.ub b (c.ub, c.hi) h4 rfl R
    refine ⟨q, hq, ?_⟩
    have e' : p :: upper (c :: cs) ++ R = p :: (c.lb, c.hi) :: (c.ub, c.hi) :: upper cs ++ R := by simp [upper]
    rw [e']
    simp only [List.cons_append, pathAbove] at e ⊢
    rw [e, if_neg (above_vert (hp.trans h1.symm)), List.countP_cons]
    simp only [above_right h2, decide_eq_true_eq]
    omega

theorem path_lower (t y : K) : ∀ (bs : List (Bar K)) (a b : K) (p : K × K), BarTiles a bs b → p.1 = b → ∀ R : List (K × K), ∃ q : K × K, q.1 = a ∧
    pathAbove t y (p :: lower bs ++ R) = (bs.countP fun c => decide (c.lb ≤ t ∧ t < c.ub ∧ y < c.lo)) + pathAbove t y (q :: R) := by
  intro bs
  induction bs with
  | nil => intro a b p h hp R; exact ⟨p, hp.trans h.symm, by simp [lower]⟩
  | cons c cs ih =>
    intro a b p ⟨h1, h2, _, h4⟩ hp R
    obtain ⟨q, hq, e⟩ := ih c.ub b p h4 hp ((c.ub, c.lo) :: (c.lb, c.lo) :: R)
    refine ⟨(c.lb, c.lo), h1, ?_⟩
    have e' : p :: lower (c :: cs) ++ R = p :: lower cs ++ ((c.ub, c.lo) :: (c.lb, c.lo) :: R) := by simp [lower]
    rw [e', e]
    simp only [pathAbove]
    rw [if_neg (above_vert (by exact hq)), List.countP_cons]
    simp only [above_left h2, decide_eq_true_eq]
    omega

theorem tiles_lt {a b : K} : ∀ {bs : List (Bar K)}, BarTiles a bs b → ∀ c ∈ bs, a ≤ c.lb
  | [], _, c, hc => by simp at hc
  | d :: ds, ⟨h1, h2, _, h4⟩, c, hc => by
    rcases List.mem_cons.mp hc with rfl | hc
    · exact h1.ge
    · exact (h1 ▸ h2.le).trans (tiles_lt h4 c hc)

/-- the numbers of edges of both lines above a point differ by one exactly when the point is in a bar -/
theorem bars_odd (t y : K) : ∀ {bs : List (Bar K)} {a b : K}, BarTiles a bs b →
    (((bs.countP fun c => decide (c.lb ≤ t ∧ t < c.ub ∧ y < c.hi)) + (bs.countP fun c => decide (c.lb ≤ t ∧ t < c.ub ∧ y < c.lo))) % 2 = 1 ↔
      ∃ c ∈ bs, c.lb ≤ t ∧ t < c.ub ∧ c.lo ≤ y ∧ y < c.hi) := by
  intro bs
  induction bs with
  | nil => intro a b _; simp
  | cons c cs ih =>
    intro a b ⟨h1, h2, h3, h4⟩
    have ih := ih h4
    rw [List.countP_cons, List.countP_cons]
    simp only [decide_eq_true_eq, List.mem_cons, exists_eq_or_imp]
    by_cases ht : c.lb ≤ t ∧ t < c.ub
    · have hno : ∀ d ∈ cs, ¬ (d.lb ≤ t) := fun d hd hle => absurd (lt_of_lt_of_le ht.2 (tiles_lt h4 d hd)) (not_lt.mpr hle)
      have z1 : (cs.countP fun c => decide (c.lb ≤ t ∧ t < c.ub ∧ y < c.hi)) = 0 := by
        rw [List.countP_eq_zero]; intro d hd; simp only [decide_eq_true_eq]; exact fun h => hno d hd h.1
      have z2 : (cs.countP fun c => decide (c.lb ≤ t ∧ t < c.ub ∧ y < c.lo)) = 0 := by
        rw [List.countP_eq_zero]; intro d hd; simp only [decide_eq_true_eq]; exact fun h => hno d hd h.1
      have z3 : ¬ ∃ d ∈ cs, d.lb ≤ t ∧ t < d.ub ∧ d.lo ≤ y ∧ y < d.hi := fun ⟨d, hd, h⟩ => hno d hd h.1
      rw [z1, z2]
      simp only [ht.1, ht.2, true_and, z3, or_false]
      by_cases k1 : y < c.lo
      · rw [if_pos k1, if_pos (lt_of_lt_of_le k1 h3)]
        simp [not_le.mpr k1]
      · rw [if_neg k1]
        by_cases k2 : y < c.hi
        · rw [if_pos k2]; simp [not_lt.mp k1, k2]
        · rw [if_neg k2]; simp [k2]
    · have k1 : ¬ (c.lb ≤ t ∧ t < c.ub ∧ y < c.hi) := fun h => ht ⟨h.1, h.2.1⟩
      have k2 : ¬ (c.lb ≤ t ∧ t < c.ub ∧ y < c.lo) := fun h => ht ⟨h.1, h.2.1⟩
      have k3 : ¬ (c.lb ≤ t ∧ t < c.ub ∧ c.lo ≤ y ∧ y < c.hi) := fun h => ht ⟨h.1, h.2.1⟩
      rw [if_neg k1, if_neg k2]
      simp only [add_zero, k3, false_or]
      exact ih

theorem bars_tiles : ∀ {cs : List (Cell K)} {g : Itv K} {a b : K} {bs : List (Bar K)}, Tiles a cs b → bars (slicesFrom g cs) = some bs →
    BarTiles a bs b ∧ bs.length = cs.length ∧ (∀ c : Bar K, c ∈ bs → ∃ s ∈ slicesFrom g cs, s.lb = c.lb ∧ s.ub = c.ub ∧ s.cod = Itv.icc c.lo c.hi) ∧
      ∀ s ∈ slicesFrom g cs, ∃ c ∈ bs, s.lb = c.lb ∧ s.ub = c.ub ∧ s.cod = Itv.icc c.lo c.hi := by
  intro cs
  induction cs with
  | nil =>
    intro g a b bs h hb
    simp only [slicesFrom_nil, bars, Option.some.injEq] at hb
    subst hb
    exact ⟨h, rfl, by simp, by simp⟩
  | cons c cs ih =>
    intro g a b bs ⟨h1, h2, h3⟩ hb
    rw [slicesFrom_cons, bars, Option.bind_eq_some_iff] at hb
    obtain ⟨d, hd, hb⟩ := hb
    rw [Option.map_eq_some_iff] at hb
    obtain ⟨ds, hds, rfl⟩ := hb
    obtain ⟨k1, k2, k3, k4⟩ := ih h3 hds
    have hdb : c.lb = d.lb ∧ c.ub = d.ub ∧ c.cod = Itv.icc d.lo d.hi ∧ d.lo ≤ d.hi := by
      unfold barOf at hd
      simp only at hd
      split at hd
      · rename_i l h p heq
        simp only [Option.some.injEq] at hd
        subst hd
        have hle : l ≤ h := p
        exact ⟨rfl, rfl, by rw [heq, Itv.icc_eq_mk hle], hle⟩
      · cases hd
    obtain ⟨e1, e2, e3, e4⟩ := hdb
    refine ⟨⟨e1 ▸ h1, e1 ▸ e2 ▸ h2, e4, e2 ▸ k1⟩, by simp [k2], ?_, ?_⟩
    · intro x hx
      rw [slicesFrom_cons]
      rcases List.mem_cons.mp hx with rfl | hx
      · exact ⟨_, List.mem_cons_self, e1, e2, e3⟩
      · obtain ⟨s, hs, h⟩ := k3 x hx
        exact ⟨s, List.mem_cons_of_mem _ hs, h⟩
    · intro s hs
      rw [slicesFrom_cons] at hs
      rcases List.mem_cons.mp hs with rfl | hs
      · exact ⟨d, List.mem_cons_self, e1, e2, e3⟩
      · obtain ⟨x, hx, h⟩ := k4 s hs
        exact ⟨x, List.mem_cons_of_mem _ hx, h⟩

/-- C135: the inside of the polygon is the union of the slices (without the right and upper sides, by the even-odd rule) -/
theorem C135_inside {T : Tube K} (hT : T.WF) (hne : T.isEmpty = false) {v : List (K × K)} (h : polygonEnvelope T = some v) (t y : K) :
    InPolygon v t y ↔ ∃ s ∈ T.slices, s.lb ≤ t ∧ t < s.ub ∧ y ∈ s.cod ∧ ∃ z ∈ s.cod, y < z := by
  unfold polygonEnvelope at h
  rw [hne, if_neg (by simp), Option.map_eq_some_iff] at h
  obtain ⟨bs, hb, rfl⟩ := h
  obtain ⟨g1, g2, g3, g4⟩ := bars_tiles hT.tiles hb
  obtain ⟨c, cs, rfl⟩ : ∃ c cs, bs = c :: cs := by
    cases bs with
    | nil => exact absurd (List.length_eq_zero_iff.mp (by simpa using g2.symm)) hT.ne
    | cons c cs => exact ⟨c, cs, rfl⟩
  have hv : upper (c :: cs) ++ lower (c :: cs) = (c.lb, c.hi) :: ((c.ub, c.hi) :: upper cs ++ lower (c :: cs)) := by simp [upper]
  have hp : pathAbove t y ((c.lb, c.hi) :: ((c.ub, c.hi) :: upper cs ++ lower (c :: cs)) ++ [(c.lb, c.hi)]) =
      ((c :: cs).countP fun c => decide (c.lb ≤ t ∧ t < c.ub ∧ y < c.hi)) + ((c :: cs).countP fun c => decide (c.lb ≤ t ∧ t < c.ub ∧ y < c.lo)) := by
    obtain ⟨q, hq, e⟩ := path_upper t y (c :: cs) _ _ (c.lb, c.hi) g1 g1.1 (lower (c :: cs) ++ [(c.lb, c.hi)])
    obtain ⟨q', hq', e'⟩ := path_lower t y (c :: cs) _ _ q g1 hq [(c.lb, c.hi)]
    rw [List.cons_append] at e'
    rw [e'] at e
    have e0 : (c.lb, c.hi) :: upper (c :: cs) ++ (lower (c :: cs) ++ [(c.lb, c.hi)]) =
        (c.lb, c.hi) :: (c.lb, c.hi) :: ((c.ub, c.hi) :: upper cs ++ lower (c :: cs) ++ [(c.lb, c.hi)]) := by simp [upper]
    rw [e0, pathAbove, if_neg (above_vert rfl), pathAbove, if_neg (above_vert (by rw [hq', ← g1.1]))] at e
    simp only [pathAbove, add_zero, zero_add] at e
    exact e
  unfold InPolygon
  rw [hv, closed_path, hp, bars_odd t y g1]
  have hmem : ∀ d : Bar K, (d.lo ≤ y ∧ y < d.hi) ↔ y ∈ Itv.icc d.lo d.hi ∧ ∃ z ∈ Itv.icc d.lo d.hi, y < z := by
    intro d
    constructor
    · rintro ⟨k1, k2⟩
      exact ⟨Itv.mem_icc.mpr ⟨k1, k2.le⟩, d.hi, Itv.mem_icc.mpr ⟨k1.trans k2.le, le_rfl⟩, k2⟩
    · rintro ⟨k1, z, k2, k3⟩
      exact ⟨(Itv.mem_icc.mp k1).1, lt_of_lt_of_le k3 (Itv.mem_icc.mp k2).2⟩
  constructor
  · rintro ⟨d, hd, h1, h2, h3⟩
    obtain ⟨s, hs, e1, e2, e3⟩ := g3 d hd
    exact ⟨s, hs, e1 ▸ h1, e2 ▸ h2, e3 ▸ (hmem d).mp h3⟩
  · rintro ⟨s, hs, h1, h2, h3⟩
    obtain ⟨d, hd, e1, e2, e3⟩ := g4 s hs
    exact ⟨d, hd, e1 ▸ h1, e2 ▸ h2, (hmem d).mpr (e3 ▸ h3)⟩

/-- C135: a trajectory of the tube is inside the polygon, or on the upper side of its slice, at each instant but the last -/
theorem C135_trajectory {T : Tube K} (hT : T.WF) (hg : T.GatesInEnvelopes) (hne : T.isEmpty = false) {v : List (K × K)} (h : polygonEnvelope T = some v)
    {f : K → K} (hf : T.Encloses f) {t : K} (h1 : T.t0 ≤ t) (h2 : t < T.tf) :
    InPolygon v t (f t) ∨ ∃ s ∈ T.slices, s.lb ≤ t ∧ t < s.ub ∧ s.cod.hi? = some (f t) ∧ (s.lb, f t) ∈ v ∧ (s.ub, f t) ∈ v := by
  have hs : ∃ s ∈ T.slices, s.lb ≤ t ∧ t < s.ub := by
    have key : ∀ (cs : List (Cell K)) (g : Itv K) (a b : K), Tiles a cs b → a ≤ t → t < b → ∃ s ∈ slicesFrom g cs, s.lb ≤ t ∧ t < s.ub := by
      intro cs
      induction cs with
      | nil => intro g a b h k1 k2; exact absurd (lt_of_le_of_lt k1 k2) (by rw [show a = b from h]; exact lt_irrefl _)
      | cons c cs ih =>
        intro g a b ⟨e1, e2, e3⟩ k1 k2
        rw [slicesFrom_cons]
        by_cases hc : t < c.ub
        · exact ⟨_, List.mem_cons_self, e1.symm ▸ k1, hc⟩
        · obtain ⟨s, hs, h⟩ := ih c.out c.ub b e3 (not_lt.mp hc) k2
          exact ⟨s, List.mem_cons_of_mem _ hs, h⟩
    exact key T.cells T.g0 T.t0 T.tf hT.tiles h1 h2
  obtain ⟨s, hs, k1, k2⟩ := hs
  have hmem : f t ∈ s.cod := by
    obtain ⟨e1, _, e3⟩ := hf s hs
    rcases k1.eq_or_lt with rfl | k1
    · exact Itv.mem_of_le (hg s hs).1 e1
    · exact e3 t k1 k2
  rw [C135_inside hT hne h]
  by_cases hz : ∃ z ∈ s.cod, f t < z
  · exact .inl ⟨s, hs, k1, k2, hmem, hz⟩
  · refine .inr ⟨s, hs, k1, k2, ?_⟩
    unfold polygonEnvelope at h
    rw [hne, if_neg (by simp), Option.map_eq_some_iff] at h
    obtain ⟨bs, hb, rfl⟩ := h
    obtain ⟨_, _, _, g4⟩ := bars_tiles hT.tiles hb
    obtain ⟨d, hd, e1, e2, e3⟩ := g4 s hs
    rw [e3] at hmem hz ⊢
    have hm := Itv.mem_icc.mp hmem
    have hle : d.lo ≤ d.hi := hm.1.trans hm.2
    have hft : f t = d.hi := by
      by_contra hc
      exact hz ⟨d.hi, Itv.mem_icc.mpr ⟨hle, le_rfl⟩, lt_of_le_of_ne hm.2 hc⟩
    rw [hft, e1, e2]
    refine ⟨by rw [Itv.icc_eq_mk hle]; rfl, ?_, ?_⟩ <;>
    · refine List.mem_append_left _ (List.mem_flatMap.mpr ⟨d, hd, ?_⟩)
      simp

/-- C135: four vertices per slice; none for an empty tube -/
theorem C135_vertices {T : Tube K} (hT : T.WF) {v : List (K × K)} (h : polygonEnvelope T = some v) :
    v.length = if T.isEmpty then 0 else 4 * T.nbSlices := by
  unfold polygonEnvelope at h
  split at h
  · rename_i he
    simp only [Option.some.injEq] at h
    subst h
    rw [if_pos he]; rfl
  · rename_i he
    rw [Option.map_eq_some_iff] at h
    obtain ⟨bs, hb, rfl⟩ := h
    obtain ⟨_, g2, _, _⟩ := bars_tiles hT.tiles hb
    have l1 : ∀ bs : List (Bar K), (upper bs).length = 2 * bs.length := by
      intro bs
      induction bs with
      | nil => rfl
      | cons c cs ih =>
        have : (upper (c :: cs)).length = 2 + (upper cs).length := by simp [upper]; omega
        rw [this, ih, List.length_cons]; omega
    have l2 : ∀ bs : List (Bar K), (lower bs).length = 2 * bs.length := by
      intro bs
      induction bs with
      | nil => rfl
      | cons c cs ih =>
        have : (lower (c :: cs)).length = (lower cs).length + 2 := by simp [lower]
        rw [this, ih, List.length_cons]; omega
    rw [if_neg he, List.length_append, l1, l2, g2, Tube.nbSlices]; omega

/-- C135: when all envelopes are bounded and not empty, the polygon exists -/
theorem C135_bounded {T : Tube K} (hb : ∀ s ∈ T.slices, ∃ l h : K, l ≤ h ∧ s.cod = Itv.icc l h) : ∃ v, polygonEnvelope T = some v := by
  have key : ∀ ss : List (Slice K), (∀ s ∈ ss, ∃ l h : K, l ≤ h ∧ s.cod = Itv.icc l h) → ∃ bs, bars ss = some bs := by
    intro ss
    induction ss with
    | nil => intro _; exact ⟨[], rfl⟩
    | cons s ss ih =>
      intro hs
      obtain ⟨l, h, hle, e⟩ := hs s List.mem_cons_self
      obtain ⟨bs, eb⟩ := ih fun x hx => hs x (List.mem_cons_of_mem _ hx)
      have e' : barOf s = some ⟨s.lb, s.ub, l, h⟩ := by unfold barOf; rw [e, Itv.icc_eq_mk hle]
      exact ⟨_, by rw [bars, e', eb]; rfl⟩
  obtain ⟨bs, e⟩ := key T.slices hb
  unfold polygonEnvelope
  split
  · exact ⟨_, rfl⟩
  · exact ⟨_, by rw [e]; rfl⟩

/-! ## what does not hold, and a concrete case -/

/-- C135: the envelope of a tube with one empty gate has no vertex although its slices are not empty: nothing is enclosed -/
theorem C135_empty_gate_fails : ∃ T : Tube ℚ, T.WF ∧ (∀ s ∈ T.slices, s.cod = Itv.icc 0 1) ∧ polygonEnvelope T = some [] :=
  ⟨⟨0, 2, Itv.icc 0 1, [⟨0, 1, Itv.icc 0 1, .empty⟩, ⟨1, 2, Itv.icc 0 1, Itv.icc 0 1⟩]⟩,
    ⟨by simp, by decide +kernel, by decide +kernel, rfl, by decide +kernel, rfl⟩, by decide +kernel, by decide +kernel⟩

/-- a tube of two slices -/
def twoBars : Tube ℚ := ⟨0, 2, Itv.icc 0 1, [⟨0, 1, Itv.icc 0 1, Itv.icc (1 / 2) 1⟩, ⟨1, 2, Itv.icc (1 / 2) 3, Itv.icc 2 3⟩]⟩

example : polygonEnvelope twoBars = some [(0, 1), (1, 1), (1, 3), (2, 3), (2, 1 / 2), (1, 1 / 2), (1, 0), (0, 0)] ∧ twoBars.isEmpty = false := by decide +kernel

/-- the hypotheses of `C135_trajectory` hold for this tube and a trajectory -/
example : twoBars.WF ∧ twoBars.GatesInEnvelopes ∧ (∃ f : ℚ → ℚ, twoBars.Encloses f) := by
  have hs : twoBars.slices = [⟨0, 1, Itv.icc 0 1, Itv.icc 0 1, Itv.icc (1 / 2) 1⟩, ⟨1, 2, Itv.icc (1 / 2) 3, Itv.icc (1 / 2) 1, Itv.icc 2 3⟩] := rfl
  refine ⟨⟨by simp [twoBars], rfl, by decide +kernel, rfl, by decide +kernel, rfl⟩, ?_, fun t => if t < 2 then 1 else 2, ?_⟩
  · intro s h
    rw [hs] at h
    simp only [List.mem_cons, List.not_mem_nil, or_false] at h
    rcases h with rfl | rfl <;> decide +kernel
  · intro s h
    rw [hs] at h
    simp only [List.mem_cons, List.not_mem_nil, or_false] at h
    rcases h with rfl | rfl
    · refine ⟨by decide +kernel, by decide +kernel, fun t h1 h2 => ?_⟩
      have h2 : t < 1 := h2
      show (if t < 2 then (1 : ℚ) else 2) ∈ Itv.icc 0 1
      rw [if_pos (by linarith)]; decide +kernel
    · refine ⟨by decide +kernel, by decide +kernel, fun t h1 h2 => ?_⟩
      have h2 : t < 2 := h2
      show (if t < 2 then (1 : ℚ) else 2) ∈ Itv.icc (1 / 2) 3
      rw [if_pos h2]; decide +kernel

instance (v : List (ℚ × ℚ)) (t y : ℚ) : Decidable (InPolygon v t y) := by unfold InPolygon; infer_instance

example : InPolygon [((0 : ℚ), (1 : ℚ)), (1, 1), (1, 3), (2, 3), (2, 1 / 2), (1, 1 / 2), (1, 0), (0, 0)] (3 / 2) 2 ∧
    ¬ InPolygon [((0 : ℚ), (1 : ℚ)), (1, 1), (1, 3), (2, 3), (2, 1 / 2), (1, 1 / 2), (1, 0), (0, 0)] (1 / 2) 2 := by decide +kernel

/-- the rule on a triangle -/
example : InPolygon [((0 : ℚ), (0 : ℚ)), (2, 0), (1, 2)] 1 1 ∧ ¬ InPolygon [((0 : ℚ), (0 : ℚ)), (2, 0), (1, 2)] (1 / 4) 1 := by decide +kernel

end Codac.Props
