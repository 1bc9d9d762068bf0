import Verif.Tube.Polygon
import Verif.Tube.Examples
import Verif.Arith

/-!
# Properties of the polygons of slices, of the interpolation and of the inversion with a derivative

Specification vocabulary: a trajectory goes through a slice (`Slice.Encloses`), and its slopes between two instants of the slice are in
the interval `V` (the envelope of the slice of the derivative).
-/

set_option linter.unusedSectionVars false

namespace Codac.Props
open Codac Codac.Graham Codac.Poly

variable {K : Type*} [Field K] [LinearOrder K] [IsStrictOrderedRing K]

/-- the trajectory `f` goes through the slice, with slopes in `V` -/
def GoesThrough (s : Slice K) (V : Itv K) (f : K → K) : Prop :=
  s.Encloses f ∧ ∀ m t, s.lb ≤ m → m < t → t ≤ s.ub → ∃ y ∈ V, f t - f m = y * (t - m)

/-- each value of a gate can be joined to a value of the other gate by a line with a slope in `V` -/
def GatesJoined (s : Slice K) (V : Itv K) : Prop :=
  (∀ y ∈ s.inG, ∃ z ∈ s.outG, ∃ w ∈ V, z - y = w * (s.ub - s.lb)) ∧ ∀ z ∈ s.outG, ∃ y ∈ s.inG, ∃ w ∈ V, z - y = w * (s.ub - s.lb)

/-- an example: the slice [0,2] → [0,4], input gate [1,2], output gate [1,3], derivative [-1,1] -/
def polyS : Slice ℚ := ⟨0, 2, .icc 0 4, .icc 1 2, .icc 1 3⟩

theorem polyS_goes : GoesThrough polyS (.icc (-1) 1) fun t => 1 + t / 2 := by
  refine ⟨⟨by decide +kernel, by decide +kernel, ?_⟩, ?_⟩
  · intro t h0 h1
    have h0 : (0:ℚ) < t := h0
    have h1 : t < (2:ℚ) := h1
    show 1 + t / 2 ∈ Itv.icc (0:ℚ) 4
    rw [Itv.mem_icc]; constructor <;> linarith
  · intro m t _ _ _
    exact ⟨1 / 2, by decide +kernel, by ring⟩

theorem polyS_goes' : GoesThrough polyS (.icc (-1) 1) fun _ => 2 := by
  refine ⟨⟨by decide +kernel, by decide +kernel, ?_⟩, ?_⟩
  · intro t h0 h1
    show (2:ℚ) ∈ Itv.icc (0:ℚ) 4
    decide +kernel
  · intro m t _ _ _
    exact ⟨0, by decide +kernel, by ring⟩

theorem polyS_joined : GatesJoined polyS (.icc (-1) 1) := by
  constructor
  · intro y hy
    have hy : y ∈ Itv.icc (1:ℚ) 2 := hy
    exact ⟨y, by show y ∈ Itv.icc (1:ℚ) 3; rw [Itv.mem_icc] at hy ⊢; exact ⟨hy.1, by linarith⟩, 0, by decide +kernel, by ring⟩
  · intro z hz
    have hz : z ∈ Itv.icc (1:ℚ) 3 := hz
    rw [Itv.mem_icc] at hz
    refine ⟨2 - (3 - z) / 2, ?_, (z - (2 - (3 - z) / 2)) / 2, ?_, ?_⟩
    · show _ ∈ Itv.icc (1:ℚ) 2
      rw [Itv.mem_icc]; constructor <;> linarith
    · rw [Itv.mem_icc]; constructor <;> linarith
    · show _ = _ * ((2:ℚ) - 0)
      ring

/-! ## C73 -/

/-- **C73**: `x.polygon(v)` contains the whole trajectory, whatever the trajectory through the slice whose derivative is in `v`. -/
theorem C73_contains {s : Slice K} {V : Itv K} {v : List (Pt K)} (hlt : s.lb < s.ub) (hgc : s.inG ≤ s.cod ∧ s.outG ≤ s.cod) (h : s.polygon V = some v)
    {f : K → K} (hf : GoesThrough s V f) {t : K} (h0 : s.lb ≤ t) (h1 : t ≤ s.ub) : (t, f t) ∈ Hull v :=
  Slice.polygon_mem hlt hgc h hf.1 hf.2 h0 h1

/-- **C73**: the vertices of the polygon are in convex position (the list always turns in the same direction), without repetition. -/
theorem C73_convex {s : Slice K} {V : Itv K} {v : List (Pt K)} (hlt : s.lb < s.ub) (hgc : s.inG ≤ s.cod ∧ s.outG ≤ s.cod) (h : s.polygon V = some v) :
    (∃ σ : K, σ ≠ 0 ∧ ∀ a b c : Pt K, [a, b, c].Sublist v → 0 ≤ σ * cr a b c) ∧ v.Nodup := Slice.polygon_poly hlt hgc.1 hgc.2 h

/-- **C73**: the model gives the polygon of every slice with non-empty gates, a bounded envelope, and a derivative bounded or unknown. -/
theorem C73_defined {s : Slice K} {V : Itv K} (hgc : s.inG ≤ s.cod ∧ s.outG ≤ s.cod) {f : K → K} (hf : s.Encloses f) {cl cu : K} (hc : s.cod = .icc cl cu)
    (hV : V = ⊤ ∨ ∃ a b, V = .icc a b ∧ a ≤ b) : ∃ v, s.polygon V = some v := by
  have bd : ∀ {X : Itv K} {a b : K}, X = .icc a b → X ≠ ⊥ → X.bounds?.isSome := by
    intro X a b e hX
    by_cases hab : a ≤ b
    · rw [e, Itv.icc_eq_mk hab]; rfl
    · exact absurd (e.trans (Itv.icc_eq_empty (not_le.mp hab))) hX
  refine Slice.polygon_isSome hgc (Itv.ne_bot_of_mem hf.1) (Itv.ne_bot_of_mem hf.2.1) (bd hc ?_) ?_
  · exact Itv.ne_bot_of_mem (Itv.mem_of_le hgc.1 hf.1)
  · rcases hV with h | ⟨a, b, h, hab⟩
    · exact Or.inl h
    · exact Or.inr (bd h (by rw [h]; exact Itv.ne_bot_of_mem (Itv.mem_icc.mpr ⟨le_rfl, hab⟩)))

/-- what the gates give on the bounds -/
theorem joined_bounds {s : Slice K} {V : Itv K} {il iu ol ou vl vu : K} (hlt : s.lb < s.ub) (hj : GatesJoined s V) (hi : s.inG.bounds? = some (il, iu))
    (ho : s.outG.bounds? = some (ol, ou)) (hV : V.bounds? = some (vl, vu)) :
    ol - vu * (s.ub - s.lb) ≤ il ∧ iu ≤ ou - vl * (s.ub - s.lb) ∧ il + vl * (s.ub - s.lb) ≤ ol ∧ ou ≤ iu + vu * (s.ub - s.lb) := by
  obtain ⟨hii, him⟩ := Itv.bounds?_spec hi
  obtain ⟨hoo, hom⟩ := Itv.bounds?_spec ho
  obtain ⟨-, hVm⟩ := Itv.bounds?_spec hV
  have hT : 0 ≤ s.ub - s.lb := (sub_pos.mpr hlt).le
  have lo : ∀ {w}, w ∈ V → vl * (s.ub - s.lb) ≤ w * (s.ub - s.lb) := fun hw => mul_le_mul_of_nonneg_right ((hVm _).mp hw).1 hT
  have up : ∀ {w}, w ∈ V → w * (s.ub - s.lb) ≤ vu * (s.ub - s.lb) := fun hw => mul_le_mul_of_nonneg_right ((hVm _).mp hw).2 hT
  obtain ⟨z1, m1, w1, n1, e1⟩ := hj.1 il ((him _).mpr ⟨le_rfl, hii⟩)
  obtain ⟨z2, m2, w2, n2, e2⟩ := hj.1 iu ((him _).mpr ⟨hii, le_rfl⟩)
  obtain ⟨y3, m3, w3, n3, e3⟩ := hj.2 ol ((hom _).mpr ⟨le_rfl, hoo⟩)
  obtain ⟨y4, m4, w4, n4, e4⟩ := hj.2 ou ((hom _).mpr ⟨hoo, le_rfl⟩)
  rw [hom] at m1 m2
  rw [him] at m3 m4
  refine ⟨?_, ?_, ?_, ?_⟩
  · linarith [up n1]
  · linarith [lo n2]
  · linarith [lo n3]
  · linarith [up n4]

/-- **C73**: with a bounded derivative and gates consistent with it, each point of the polygon is on a trajectory of the slice: the polygon
is the smallest set that contains the trajectories. -/
theorem C73_exact {s : Slice K} {V : Itv K} {v : List (Pt K)} (hlt : s.lb < s.ub) (hgc : s.inG ≤ s.cod ∧ s.outG ≤ s.cod) (hi : s.inG ≠ ⊥) (h : s.polygon V = some v)
    (hV : V ≠ ⊤) (hj : GatesJoined s V) {q : Pt K} (hq : q ∈ Hull v) : (s.lb ≤ q.1 ∧ q.1 ≤ s.ub) ∧ ∃ f, GoesThrough s V f ∧ f q.1 = q.2 := by
  rcases Slice.polygon_cases h with ⟨hb, -⟩ | ⟨cl, cu, -, hT, -⟩ | ⟨cl, cu, il, iu, ol, ou, vl, vu, hc, h1, h2, h3, rfl⟩
  · exact absurd (le_bot_iff.mp (hb ▸ hgc.1)) hi
  · exact absurd hT hV
  · have k1 := Itv.bounds?_le h1 hc hgc.1
    have k2 := Itv.bounds?_le h2 hc hgc.2
    obtain ⟨g1, g2, g3, g4⟩ := joined_bounds hlt hj h1 h2 h3
    obtain ⟨m1, ⟨m2, m3, m4⟩, m5, m6, m7⟩ := slicePts_sub hlt (Itv.bounds?_spec h3).1 k1.1 k2.1 k1.2 k2.2 (Itv.bounds?_spec h1).1 (Itv.bounds?_spec h2).1 g1 g2 g3 g4 hq
    obtain ⟨f, f1, f2, f3⟩ := Slice.reach hgc hc h1 h2 h3 m1.1 m1.2 m2 m3 m4 m5 m6 m7
    exact ⟨m1, f, ⟨f1, f2⟩, f3⟩

example : polyS.lb < polyS.ub ∧ (polyS.inG ≤ polyS.cod ∧ polyS.outG ≤ polyS.cod) ∧ GoesThrough polyS (.icc (-1) 1) (fun t => 1 + t / 2) ∧ GatesJoined polyS (.icc (-1) 1) ∧
    polyS.polygon (.icc (-1) 1) = some [(0, 1), (1, 0), (2, 1), (2, 3), (3 / 2, 7 / 2), (0, 2)] :=
  ⟨by decide +kernel, by decide +kernel, polyS_goes, polyS_joined, by decide +kernel⟩

/-- **C73** does not hold for an empty slice: the polygon should be empty, it is the square `[-9999,9999]²`. -/
theorem C73_empty_fails {s : Slice K} (V : Itv K) (h : s.cod = ⊥) : ∃ v, s.polygon V = some v ∧ ((0, 0) : Pt K) ∈ Hull v := by
  unfold Slice.polygon
  rw [if_pos h]
  refine ⟨_, rfl, ?_⟩
  rw [ofBox_spec (by norm_num) (by norm_num)]
  norm_num

example : (⟨0, 1, ⊥, ⊥, ⊥⟩ : Slice ℚ).cod = ⊥ := rfl

/-! ## C74 -/

/-- **C74** (one slice): `x.interpol(t, v)` contains the values over `t` of the trajectories of the slice. -/
theorem C74_slice {A : IArith K} {s : Slice K} {V t I : Itv K} (hlt : s.lb < s.ub) (hgc : s.inG ≤ s.cod ∧ s.outG ≤ s.cod) (h : s.interpolV A V t = some I)
    {f : K → K} (hf : GoesThrough s V f) {u : K} (hu : u ∈ t) : f u ∈ I := Slice.interpolV_mem hlt hgc hf.1 hf.2 h hu

/-- the polygon has an interior as soon as two trajectories differ -/
theorem polygon_solid {s : Slice K} {V : Itv K} {v : List (Pt K)} (hlt : s.lb < s.ub) (hgc : s.inG ≤ s.cod ∧ s.outG ≤ s.cod) (h : s.polygon V = some v) {f g : K → K}
    (hf : GoesThrough s V f) (hg : GoesThrough s V g) {t : K} (h0 : s.lb ≤ t) (h1 : t ≤ s.ub) (hne : f t ≠ g t) : Solid v := by
  by_contra hs
  have a := C73_contains hlt hgc h hf h0 h1
  have b := C73_contains hlt hgc h hg h0 h1
  have e1 := flat_hull hs a b (C73_contains hlt hgc h hf le_rfl hlt.le)
  have e2 := flat_hull hs a b (C73_contains hlt hgc h hf hlt.le le_rfl)
  simp only [cr, sub_self, zero_mul, zero_sub, neg_eq_zero, mul_eq_zero] at e1 e2
  have hd : g t - f t ≠ 0 := fun e => hne (sub_eq_zero.mp e).symm
  have e1 := e1.resolve_left hd
  have e2 := e2.resolve_left hd
  linarith

/-- **C74** (one slice): over an interval `t = [a,b]` strictly inside the time domain of the slice, with a bounded derivative and gates
consistent with it, `x.interpol(t, v)` is the smallest interval with the values of the trajectories (two trajectories at least). -/
theorem C74_slice_smallest {A : IArith K} {s : Slice K} {V I J : Itv K} {a b : K} (hlt : s.lb < s.ub) (hgc : s.inG ≤ s.cod ∧ s.outG ≤ s.cod) (ha : s.lb ≤ a) (hab : a < b) (hb : b ≤ s.ub)
    (hp : ¬(a = s.lb ∧ b = s.ub)) (hV : V ≠ ⊤) (hj : GatesJoined s V) {f g : K → K} (hf : GoesThrough s V f) (hg : GoesThrough s V g) {t : K} (h0 : s.lb ≤ t) (h1 : t ≤ s.ub) (hne : f t ≠ g t)
    (h : s.interpolV A V (.icc a b) = some I) (hJ : ∀ f, GoesThrough s V f → ∀ u, a ≤ u → u ≤ b → f u ∈ J) : I ≤ J := by
  unfold Slice.interpolV at h
  have hx : exceeds (.icc a b) s.lb s.ub = false := by
    rw [Itv.icc_eq_mk hab.le]
    simp only [exceeds, decide_eq_false_iff_not, not_or, not_lt, gt_iff_lt]
    exact ⟨ha, hb⟩
  rw [if_neg (by rw [hx]; simp)] at h
  rw [if_neg (by
    intro hle
    rw [Itv.le_iff] at hle
    have k1 := Itv.mem_icc.mp (hle s.lb (Itv.mem_icc.mpr ⟨le_rfl, hlt.le⟩))
    have k2 := Itv.mem_icc.mp (hle s.ub (Itv.mem_icc.mpr ⟨hlt.le, le_rfl⟩))
    exact hp ⟨le_antisymm k1.1 ha, le_antisymm hb k2.2⟩)] at h
  have hbd : (Itv.icc a b).bounds? = some (a, b) := by rw [Itv.icc_eq_mk hab.le]; rfl
  rw [hbd] at h
  dsimp only at h
  rw [if_neg hab.ne, Option.map_eq_some_iff] at h
  obtain ⟨v, hv, rfl⟩ := h
  obtain ⟨⟨σ, hσ, ht⟩, hn⟩ := Slice.polygon_poly hlt hgc.1 hgc.2 hv
  have := fastInter_least hσ (z := fun _ => (⊥ : Itv K)) (fun _ => rfl) ht hn (polygon_solid hlt hgc hv hf hg h0 h1 hne)
    (x := tpt (Itv.icc s.lb s.ub ⊓ Itv.icc a b) s.cod) (X := (⊤, J)) (by
      intro q hq hin
      rw [in_tpt, Itv.mem_inf, Itv.mem_icc, Itv.mem_icc] at hin
      obtain ⟨-, f, hf, e⟩ := C73_exact hlt hgc (Itv.ne_bot_of_mem hf.1.1) hv hV hj hq
      exact ⟨Itv.mem_top _, e ▸ hJ f hf q.1 hin.1.2.1 hin.1.2.2⟩)
  exact this.2

/-- **C74** (partial): `x.interpol(t, v)` contains the values over `t` of the trajectories of the tube whose slopes are in `v`, unless `t`
is a single instant at which a slice starts. Missing: that case, see `C74_interpol_fails`. -/
theorem C74_interpol_partial {A : IArith K} {x v : Tube K} (h : x.WF) (hgc : x.GatesInEnvelopes) {a b : K} {J : Itv K} (hJ : x.interpolV A v a b = some J)
    {f : K → K} (hf : x.Encloses f) (hv : v.SlopeIn f) {t : K} (ha : a ≤ t) (hb : t ≤ b) (hdeg : a = b → ∀ s ∈ x.slices, s.lb ≠ a) : f t ∈ J := by
  unfold Tube.interpolV at hJ
  by_cases hc : x.t0 ≤ a ∧ b ≤ x.tf ∧ x.t0 = v.t0 ∧ x.tf = v.tf ∧ x.sameSlicing v = true
  swap
  · rw [if_neg hc] at hJ; cases hJ
  rw [if_pos hc] at hJ
  obtain ⟨c1, c2, -, -, c3⟩ := hc
  rw [sameSlicing_iff] at c3
  obtain ⟨p, hp, k1, k2, k3, k4⟩ := Tube.withDeriv_covers h v c1 c2 ha hb hdeg
  obtain ⟨I, hI, hIJ⟩ := mem_interpolLoop (Tube.withDeriv_sorted h v _) hJ hp k2
  refine Itv.mem_of_le hIJ ?_
  refine Slice.interpolV_mem (Tube.slice_lt h k1) (hgc _ k1) (hf _ k1) (Tube.withDeriv_slope c3 hv hp) hI ?_
  rw [Itv.mem_inf, Itv.mem_icc, Itv.mem_icc]
  exact ⟨⟨ha, hb⟩, k3, k4⟩

/-- the tube and its derivative of the examples: the slice of `polyS` on `[0,2]`, then a slice on `[2,3]` -/
def polyX : Tube ℚ := ⟨0, 3, .icc 1 2, [⟨0, 2, .icc 0 4, .icc 1 3⟩, ⟨2, 3, .icc 0 3, .icc 1 2⟩]⟩
def polyV : Tube ℚ := ⟨0, 3, .icc (-1) 1, [⟨0, 2, .icc (-1) 1, .icc (-1) 1⟩, ⟨2, 3, .icc (-1) 2, .icc (-1) 1⟩]⟩

theorem polyX_wf : polyX.WF := ⟨by simp [polyX], rfl, by norm_num, rfl, by norm_num, rfl⟩

theorem polyX_encl : polyX.Encloses fun _ => 2 := by
  intro s hs
  simp only [Tube.slices, polyX, slicesFrom_cons, List.mem_cons] at hs
  rcases hs with rfl | rfl | hs
  · exact ⟨by decide +kernel, by decide +kernel, fun t _ _ => by show (2:ℚ) ∈ Itv.icc (0:ℚ) 4; decide +kernel⟩
  · exact ⟨by decide +kernel, by decide +kernel, fun t _ _ => by show (2:ℚ) ∈ Itv.icc (0:ℚ) 3; decide +kernel⟩
  · simp [slicesFrom] at hs

theorem polyV_slope : polyV.SlopeIn fun _ => 2 := by
  intro s hs m t _ _ _
  simp only [Tube.slices, polyV, slicesFrom_cons, List.mem_cons] at hs
  rcases hs with rfl | rfl | hs
  · exact ⟨0, by show (0:ℚ) ∈ Itv.icc (-1:ℚ) 1; decide +kernel, by ring⟩
  · exact ⟨0, by show (0:ℚ) ∈ Itv.icc (-1:ℚ) 2; decide +kernel, by ring⟩
  · simp [slicesFrom] at hs

/-- **C74** does not hold in general: the interpolation over a single instant where a slice starts is empty, whatever the tube. -/
theorem C74_interpol_fails {A : IArith K} {x v : Tube K} (h : x.WF) (h0 : x.t0 = v.t0) (h1 : x.tf = v.tf) (hs : x.sameSlicing v = true) {s : Slice K} (hm : s ∈ x.slices) :
    x.interpolV A v s.lb s.lb = some ⊥ := by
  have hb := h.tiles.mem_bounds hm
  have hlt : s.lb < x.tf := lt_of_lt_of_le hb.2.1 hb.2.2
  unfold Tube.interpolV
  rw [if_pos ⟨hb.1, hlt.le, h0, h1, hs⟩]
  have hhead : (seek s.lb x.slices).head? = some s := seek_lb h.tiles hm rfl
  rw [seek_eq_drop, ← Tube.withDeriv_fst x v] at hhead
  generalize x.withDeriv v (timeToIndex s.lb x.slices) = l at hhead ⊢
  cases l with
  | nil => rfl
  | cons p l =>
    simp only [List.map_cons, List.head?_cons, Option.some.injEq] at hhead
    rw [interpolLoop, hhead, if_neg (lt_irrefl _)]

/-- the hypotheses under which the tube functions with a derivative are defined in the model: bounded envelopes, non-empty gates,
derivative bounded or unknown -/
def Bounded (x v : Tube K) : Prop :=
  (∀ s ∈ x.slices, s.cod.bounds?.isSome ∧ s.inG ≠ ⊥ ∧ s.outG ≠ ⊥) ∧ ∀ k, k < x.slices.length → v.codAt k = ⊤ ∨ (v.codAt k).bounds?.isSome

theorem bounded_polygon {x v : Tube K} (hgc : x.GatesInEnvelopes) (hb : Bounded x v) {k : Nat} {p : Slice K × Itv K} (hp : p ∈ x.withDeriv v k) : ∃ w, p.1.polygon p.2 = some w := by
  obtain ⟨i, h1, h2⟩ := Tube.withDeriv_mem hp
  have hm := List.mem_of_getElem? h1
  obtain ⟨b1, b2, b3⟩ := hb.1 _ hm
  refine Slice.polygon_isSome (hgc _ hm) b2 b3 b1 ?_
  rw [h2]
  exact hb.2 i (List.getElem?_eq_some_iff.mp h1).1

/-- **C74**: the interpolation is defined on all the intervals of the time domain. -/
theorem C74_defined {A : IArith K} {x v : Tube K} (hgc : x.GatesInEnvelopes) (h0 : x.t0 = v.t0) (h1 : x.tf = v.tf) (hs : x.sameSlicing v = true) (hb : Bounded x v) {a b : K}
    (ha : x.t0 ≤ a) (hab : a ≤ b) (hbt : b ≤ x.tf) (hwf : x.WF) : ∃ J, x.interpolV A v a b = some J := by
  unfold Tube.interpolV
  rw [if_pos ⟨ha, hbt, h0, h1, hs⟩]
  have key : ∀ p ∈ x.withDeriv v (timeToIndex a x.slices), p.1.lb < b → ∃ I, p.1.interpolV A p.2 (Itv.icc a b ⊓ Itv.icc p.1.lb p.1.ub) = some I := by
    intro p hp hlb
    obtain ⟨w, hw⟩ := bounded_polygon hgc hb hp
    have ham : p.1 ∈ seek a x.slices := by
      rw [seek_eq_drop, ← Tube.withDeriv_fst x v, List.mem_map]; exact ⟨p, hp, rfl⟩
    have hau : a ≤ p.1.ub := by
      obtain ⟨a', g', cs', e1, e2, e3, e4, e5, e6, e7, e8, e9, e10⟩ := seek_suffix (g := x.g0) hwf.tiles hwf.ne ha
      have ham' : p.1 ∈ slicesFrom g' cs' := by rw [← e1]; exact ham
      rcases lt_or_eq_of_le (hab.trans hbt) with hlt | heq
      · exact (e10 hlt _ ham').le
      · -- the last slice
        by_contra hcon
        have hlast := e3.mem_bounds ham'
        obtain ⟨i, hi, -⟩ := Tube.withDeriv_mem hp
        have : seek a x.slices = slicesFrom g' cs' := e1
        obtain ⟨s, ss, q1, q2, q3, q4, q5⟩ := seek_spec (g := x.g0) hwf.tiles hwf.ne ha (le_of_eq heq)
        rw [q1] at e1
        rw [← e1] at ham'
        rcases List.mem_cons.mp ham' with e | e
        · exact hcon (e ▸ q4)
        · have hpw := tiles_pairwise_lb (g := g') e3
          rw [← e1, List.pairwise_cons] at hpw
          have k1 := hwf.tiles.mem_bounds (g := x.g0) q2
          cases cs' with
          | nil => exact e2 rfl
          | cons c cs =>
            obtain ⟨rfl, t2, t3⟩ := e3
            rw [slicesFrom_cons, List.cons.injEq] at e1
            have k2 := t3.mem_bounds (e1.2 ▸ e)
            have k3 : s.ub = c.ub := by rw [e1.1]
            linarith [k2.1, k2.2.1]
    have hlt := Tube.slice_lt hwf (List.mem_of_getElem? (Tube.withDeriv_mem hp).choose_spec.1)
    have e : Itv.icc a b ⊓ Itv.icc p.1.lb p.1.ub = Itv.icc (max a p.1.lb) (min b p.1.ub) := by
      apply Itv.ext_mem
      intro u
      simp only [Itv.mem_inf, Itv.mem_icc, max_le_iff, le_min_iff]
      tauto
    have hmm : max a p.1.lb ≤ min b p.1.ub := max_le (le_min hab hau) (le_min hlb.le hlt.le)
    rw [e]
    unfold Slice.interpolV
    have hbd : (Itv.icc (max a p.1.lb) (min b p.1.ub)).bounds? = some (max a p.1.lb, min b p.1.ub) := by rw [Itv.icc_eq_mk hmm]; rfl
    rw [hbd, hw]
    split_ifs
    · exact ⟨_, rfl⟩
    · exact ⟨_, rfl⟩
    · dsimp only
      split_ifs
      · exact ⟨_, rfl⟩
      · exact ⟨_, rfl⟩
  generalize x.withDeriv v (timeToIndex a x.slices) = l at key
  induction l with
  | nil => exact ⟨⊥, rfl⟩
  | cons p l ih =>
    obtain ⟨J, hJ⟩ := ih fun q hq => key q (List.mem_cons_of_mem _ hq)
    rw [interpolLoop]
    by_cases hlb : p.1.lb < b
    · obtain ⟨I, hI⟩ := key p (by simp) hlb
      rw [if_pos hlb, hI, hJ]
      exact ⟨_, rfl⟩
    · rw [if_neg hlb]; exact ⟨_, rfl⟩

example : polyX.WF ∧ polyX.GatesInEnvelopes ∧ polyX.Encloses (fun _ => 2) ∧ polyV.SlopeIn (fun _ => 2) ∧ polyX.sameSlicing polyV = true ∧
    polyX.interpolV (IArith.exact ℚ) polyV (1 / 2) (5 / 2) = some (.icc 0 (7 / 2)) ∧ polyX.interpolV (IArith.exact ℚ) polyV (1 / 2) (3 / 4) = some (.icc (1 / 4) (11 / 4)) ∧
    polyX.interpolV (IArith.exact ℚ) polyV 2 2 = some ⊥ :=
  ⟨polyX_wf, by unfold Tube.GatesInEnvelopes; decide +kernel, polyX_encl, polyV_slope, by decide +kernel, by decide +kernel, by decide +kernel, by decide +kernel⟩

example : Bounded polyX polyV := by
  refine ⟨by decide +kernel, ?_⟩
  intro k hk
  have hk : k < 2 := hk
  match k, hk with
  | 0, _ => right; rfl
  | 1, _ => right; rfl

/-! ## C75 -/

/-- **C75** (one slice): `x.invert(y, v, search)` contains the instants of `search` at which a trajectory of the slice is in `y`. -/
theorem C75_slice {s : Slice K} {y V search I : Itv K} (hlt : s.lb < s.ub) (hgc : s.inG ≤ s.cod ∧ s.outG ≤ s.cod) (h : s.invertV y V search = some I)
    {f : K → K} (hf : GoesThrough s V f) {u : K} (hu : u ∈ search) (hy : f u ∈ y) : u ∈ I := Slice.invertV_mem hlt hgc hf.1 hf.2 h hu hy

/-- **C75** (one slice): over an interval `[a,b]` of the time domain of the slice, when `y` does not contain the envelope, with a bounded
derivative and gates consistent with it, `x.invert(y, v, [a,b])` is the smallest interval with the instants at which a trajectory is in `y`. -/
theorem C75_slice_smallest {s : Slice K} {y V I J : Itv K} {a b : K} (hlt : s.lb < s.ub) (hgc : s.inG ≤ s.cod ∧ s.outG ≤ s.cod) (ha : s.lb ≤ a) (hab : a < b) (hb : b ≤ s.ub)
    (hy : ¬ s.cod ≤ y) (hV : V ≠ ⊤) (hj : GatesJoined s V) {f g : K → K} (hf : GoesThrough s V f) (hg : GoesThrough s V g) {t : K} (h0 : s.lb ≤ t) (h1 : t ≤ s.ub) (hne : f t ≠ g t)
    (h : s.invertV y V (.icc a b) = some I) (hJ : ∀ f, GoesThrough s V f → ∀ u, a ≤ u → u ≤ b → f u ∈ y → u ∈ J) : I ≤ J := by
  unfold Slice.invertV at h
  have hne' : Itv.icc a b ≠ ⊥ := Itv.ne_bot_of_mem (Itv.mem_icc.mpr ⟨le_rfl, hab.le⟩)
  rw [if_neg (by rw [Itv.isEmpty_iff]; exact hne')] at h
  have hx : exceeds (.icc a b) s.lb s.ub = false := by
    rw [Itv.icc_eq_mk hab.le]
    simp only [exceeds, decide_eq_false_iff_not, not_or, not_lt, gt_iff_lt]
    exact ⟨ha, hb⟩
  have hpt : ∀ c : K, Itv.icc a b ≠ Itv.point c := by
    intro c e
    have k1 : a ∈ Itv.point c := e ▸ Itv.mem_icc.mpr ⟨le_rfl, hab.le⟩
    have k2 : b ∈ Itv.point c := e ▸ Itv.mem_icc.mpr ⟨hab.le, le_rfl⟩
    rw [Itv.mem_point] at k1 k2
    exact hab.ne (k1.trans k2.symm)
  rw [if_neg (by rw [hx]; simp), if_neg (fun k => hy k.2), if_neg (hpt _), if_neg (hpt _), if_neg hV, Option.map_eq_some_iff] at h
  obtain ⟨v, hv, rfl⟩ := h
  obtain ⟨⟨σ, hσ, ht⟩, hn⟩ := Slice.polygon_poly hlt hgc.1 hgc.2 hv
  have := fastInter_least hσ (z := fun _ => (⊥ : Itv K)) (fun _ => rfl) ht hn (polygon_solid hlt hgc hv hf hg h0 h1 hne)
    (x := tpt (Itv.icc a b) y) (X := (J, ⊤)) (by
      intro q hq hin
      rw [in_tpt, Itv.mem_icc] at hin
      obtain ⟨-, f, hf, e⟩ := C73_exact hlt hgc (Itv.ne_bot_of_mem hf.1.1) hv hV hj hq
      exact ⟨hJ f hf q.1 hin.1.1 hin.1.2 (e ▸ hin.2), Itv.mem_top _⟩)
  exact this.1

/-- **C75** (partial): `x.invert(y, v, search)` contains the instants of `search` at which a trajectory of the tube, with slopes in `v`, is in
`y`, unless `search` is a single instant at which a slice starts. Missing: that case, see `C75_invert_fails`. -/
theorem C75_invert_partial {x v : Tube K} (h : x.WF) (hgc : x.GatesInEnvelopes) {y search J : Itv K} (hJ : x.invertV y v search = some J)
    {f : K → K} (hf : x.Encloses f) (hv : v.SlopeIn f) {t : K} (ht : t ∈ search) (hy : f t ∈ y) (hdeg : ∀ s ∈ x.slices, search ≠ Itv.point s.lb) : t ∈ J := by
  unfold Tube.invertV at hJ
  by_cases hc : x.t0 = v.t0 ∧ x.tf = v.tf ∧ x.sameSlicing v = true
  swap
  · rw [if_neg hc] at hJ; cases hJ
  rw [if_pos hc] at hJ
  have c3 := sameSlicing_iff.mp hc.2.2
  match search, ht, hdeg, hJ with
  | .mk (some a) (some b) hab, ht, hdeg, hJ =>
    have ht' : a ≤ t ∧ t ≤ b := ht
    dsimp only at hJ
    split_ifs at hJ with h0
    · rw [← Option.some.inj hJ]; exact Itv.mem_top _
    · push Not at h0
      obtain ⟨p, hp, k1, k2, k3, k4⟩ := Tube.withDeriv_covers h v h0.1 h0.2 ht'.1 ht'.2 (by
        intro e s hs hsa
        apply hdeg s hs
        subst e; subst hsa; rfl)
      obtain ⟨I, hI, hIJ⟩ := mem_invertVLoop (Tube.withDeriv_sorted h v _) hJ hp k2
      refine Itv.mem_of_le hIJ ?_
      refine Slice.invertV_mem (Tube.slice_lt h k1) (hgc _ k1) (hf _ k1) (Tube.withDeriv_slope c3 hv hp) hI ?_ hy
      rw [Itv.mem_inf, Itv.mem_icc, Itv.mem_icc]
      exact ⟨ht', k3, k4⟩
  | .mk none none _, _, _, hJ => rw [← Option.some.inj hJ]; exact Itv.mem_top _
  | .mk none (some _) _, _, _, hJ => rw [← Option.some.inj hJ]; exact Itv.mem_top _
  | .mk (some _) none _, _, _, hJ => rw [← Option.some.inj hJ]; exact Itv.mem_top _

/-- **C75** does not hold in general: the inversion over a single instant where a slice starts is empty, whatever the tube. -/
theorem C75_invert_fails {x v : Tube K} (h : x.WF) (h0 : x.t0 = v.t0) (h1 : x.tf = v.tf) (hs : x.sameSlicing v = true) {s : Slice K} (hm : s ∈ x.slices) (y : Itv K) :
    x.invertV y v (Itv.point s.lb) = some ⊥ := by
  have hb := h.tiles.mem_bounds hm
  have hlt : s.lb < x.tf := lt_of_lt_of_le hb.2.1 hb.2.2
  unfold Tube.invertV
  rw [if_pos ⟨h0, h1, hs⟩]
  simp only [Itv.point]
  rw [if_neg (by push Not; exact ⟨hb.1, hlt.le⟩)]
  have hhead : (seek s.lb x.slices).head? = some s := seek_lb h.tiles hm rfl
  rw [seek_eq_drop, ← Tube.withDeriv_fst x v] at hhead
  generalize x.withDeriv v (timeToIndex s.lb x.slices) = l at hhead ⊢
  cases l with
  | nil => rfl
  | cons p l =>
    simp only [List.map_cons, List.head?_cons, Option.some.injEq] at hhead
    rw [invertVLoop, hhead, if_neg (lt_irrefl _)]

/-- **C75**: the list version of the inversion with a derivative keeps every pre-image. -/
theorem C75_invert_list {x v : Tube K} (h : x.WF) (hgc : x.GatesInEnvelopes) {y search : Itv K} {L : List (Itv K)} (hL : x.invertVList y v search = some L)
    {f : K → K} (hf : x.Encloses f) (hv : v.SlopeIn f) {t : K} (ht : t ∈ search) (hy : f t ∈ y) : ∃ I ∈ L, t ∈ I := by
  unfold Tube.invertVList at hL
  by_cases hc : x.t0 = v.t0 ∧ x.tf = v.tf ∧ x.sameSlicing v = true
  swap
  · rw [if_neg hc] at hL; cases hL
  rw [if_pos hc] at hL
  have c3 := sameSlicing_iff.mp hc.2.2
  have top : ∀ {L : List (Itv K)}, some [⊤] = some L → ∃ I ∈ L, t ∈ I := by
    intro L hL; rw [← Option.some.inj hL]; exact ⟨⊤, by simp, Itv.mem_top _⟩
  match search, ht, hL with
  | .mk (some a) (some b) hab, ht, hL =>
    have ht' : a ≤ t ∧ t ≤ b := ht
    dsimp only at hL
    split_ifs at hL with h0
    · exact top hL
    · push Not at h0
      obtain ⟨p, hp, k1, k2, k3, k4⟩ := Tube.withDeriv_covers' h v h0.1 h0.2 ht'.1 ht'.2
      refine mem_invertVListLoop (Tube.withDeriv_sorted h v _) hL hp k2 fun I hI => ?_
      refine Slice.invertV_mem (Tube.slice_lt h k1) (hgc _ k1) (hf _ k1) (Tube.withDeriv_slope c3 hv hp) hI ?_ hy
      rw [Itv.mem_inf, Itv.mem_icc, Itv.mem_icc]
      exact ⟨ht', k3, k4⟩
  | .mk none none _, _, hL => exact top hL
  | .mk none (some _) _, _, hL => exact top hL
  | .mk (some _) none _, _, hL => exact top hL

/-- **C75**: the returned intervals are not empty. -/
theorem C75_invert_list_nonempty {x v : Tube K} {y search : Itv K} {L : List (Itv K)} (hL : x.invertVList y v search = some L) : ∀ I ∈ L, I ≠ ⊥ := by
  have htop : (⊤ : Itv K) ≠ ⊥ := by intro h; cases h
  have top : ∀ {L : List (Itv K)}, some [⊤] = some L → ∀ I ∈ L, I ≠ ⊥ := by
    intro L hL I hI
    rw [← Option.some.inj hL, List.mem_singleton] at hI
    rw [hI]; exact htop
  unfold Tube.invertVList at hL
  split_ifs at hL
  match search, hL with
  | .empty, hL => rw [← Option.some.inj hL]; simp
  | .mk (some a) (some b) hab, hL =>
    dsimp only at hL
    split_ifs at hL
    · exact top hL
    · exact invertVListLoop_nonempty hL
  | .mk none none _, hL => exact top hL
  | .mk none (some _) _, hL => exact top hL
  | .mk (some _) none _, hL => exact top hL

/-- the inversion of a slice is defined when it has a polygon -/
theorem invertV_isSome {s : Slice K} {y V search : Itv K} {v : List (Pt K)} (h : s.polygon V = some v) : ∃ I, s.invertV y V search = some I := by
  unfold Slice.invertV
  rw [h]
  split_ifs <;> exact ⟨_, rfl⟩

/-- **C75**: the inversions are defined. -/
theorem C75_defined {x v : Tube K} (hgc : x.GatesInEnvelopes) (h0 : x.t0 = v.t0) (h1 : x.tf = v.tf) (hs : x.sameSlicing v = true) (hb : Bounded x v) (y search : Itv K) :
    (∃ J, x.invertV y v search = some J) ∧ ∃ L, x.invertVList y v search = some L := by
  have key : ∀ a, ∀ p ∈ x.withDeriv v (timeToIndex a x.slices), ∀ t, ∃ I, p.1.invertV y p.2 t = some I := by
    intro a p hp t
    obtain ⟨w, hw⟩ := bounded_polygon hgc hb hp
    exact invertV_isSome hw
  have l1 : ∀ a b (l : List (Slice K × Itv K)), (∀ p ∈ l, ∀ t, ∃ I, p.1.invertV y p.2 t = some I) → ∃ J, invertVLoop y a b l = some J := by
    intro a b l hl
    induction l with
    | nil => exact ⟨_, rfl⟩
    | cons p l ih =>
      obtain ⟨J, hJ⟩ := ih fun q hq => hl q (List.mem_cons_of_mem _ hq)
      obtain ⟨I, hI⟩ := hl p (by simp) (Itv.icc a b ⊓ Itv.icc p.1.lb p.1.ub)
      rw [invertVLoop, hI, hJ]
      split_ifs <;> exact ⟨_, rfl⟩
  have l2 : ∀ a b (l : List (Slice K × Itv K)), (∀ p ∈ l, ∀ t, ∃ I, p.1.invertV y p.2 t = some I) → ∀ acc, ∃ J, invertVListLoop y a b acc l = some J := by
    intro a b l hl
    induction l with
    | nil => exact fun acc => ⟨_, rfl⟩
    | cons p l ih =>
      intro acc
      have ih := ih fun q hq => hl q (List.mem_cons_of_mem _ hq)
      obtain ⟨I, hI⟩ := hl p (by simp) (Itv.icc a b ⊓ Itv.icc p.1.lb p.1.ub)
      obtain ⟨J1, hJ1⟩ := ih ⊥
      obtain ⟨J2, hJ2⟩ := ih (acc ⊔ I)
      rw [invertVListLoop, hI]
      simp only [Option.bind_some, hJ1, hJ2]
      split_ifs <;> exact ⟨_, rfl⟩
  unfold Tube.invertV Tube.invertVList
  rw [if_pos ⟨h0, h1, hs⟩, if_pos ⟨h0, h1, hs⟩]
  match search with
  | .empty => exact ⟨⟨_, rfl⟩, _, rfl⟩
  | .mk (some a) (some b) hab =>
    dsimp only
    split_ifs
    · exact ⟨⟨_, rfl⟩, _, rfl⟩
    · exact ⟨l1 _ _ _ (key a), l2 _ _ _ (key a) ⊥⟩
  | .mk none none _ => exact ⟨⟨_, rfl⟩, _, rfl⟩
  | .mk none (some _) _ => exact ⟨⟨_, rfl⟩, _, rfl⟩
  | .mk (some _) none _ => exact ⟨⟨_, rfl⟩, _, rfl⟩

/-- the hypotheses of the theorems on one slice are met, and what is computed -/
example : (0:ℚ) ≤ 1 / 2 ∧ (3 / 4 : ℚ) ≤ 2 ∧ (fun t : ℚ => 1 + t / 2) 1 ≠ 2 ∧ (Itv.icc (-1) 1 : Itv ℚ) ≠ ⊤ ∧ GoesThrough polyS (.icc (-1) 1) (fun t => 1 + t / 2) ∧ GoesThrough polyS (.icc (-1) 1) (fun _ => 2) ∧
    polyS.interpolV (IArith.exact ℚ) (.icc (-1) 1) (.icc (1 / 2) (3 / 4)) = some (.icc (1 / 4) (11 / 4)) ∧ polyS.invertV (.icc 0 (1 / 2)) (.icc (-1) 1) (.icc 0 2) = some (.icc (1 / 2) (3 / 2)) :=
  ⟨by norm_num, by norm_num, by norm_num, by decide +kernel, polyS_goes, polyS_goes', by decide +kernel, by decide +kernel⟩

example : polyX.invertV (.icc 0 (1 / 2)) polyV (.icc 0 3) = some (.icc (1 / 2) (11 / 4)) ∧ polyX.invertVList (.icc 0 (1 / 4)) polyV (.icc 0 3) = some [.icc (3 / 4) (5 / 4)] ∧
    polyX.invertV (.icc 1 2) polyV (.point 2) = some ⊥ ∧ polyX.invertVList (.icc 1 2) polyV (.point 2) = some [.point 2] := by decide +kernel

end Codac.Props
