import Verif.Ctc.EvalItv
import Verif.Props.Eval
import Verif.Props.PolyTube

/-!
# Property C19, over an interval of time with a derivative

A solution is a trajectory `f` of `y` with its derivative `d` in `w`, and an instant `τ` of `t` such that `f τ` is in `z`.
-/

set_option linter.unusedSectionVars false

namespace Codac.Props
open Codac

variable {K : Type*} [Field K] [LinearOrder K] [IsStrictOrderedRing K]

/-- a solution, bounded by `B` as well as its derivative -/
structure EvalSolution (B : K) (t z : Itv K) (y w : Tube K) (f d : K → K) (τ : K) : Prop where
  traj : y.Encloses f
  deriv : w.Encloses d
  slopes : w.SlopeIn f
  inst : τ ∈ t
  dom : y.t0 ≤ τ ∧ τ ≤ y.tf
  val : f τ ∈ z
  boundF : ∀ u, y.t0 ≤ u → u ≤ y.tf → -B ≤ f u ∧ f u ≤ B
  boundD : ∀ u, y.t0 ≤ u → u ≤ y.tf → -B ≤ d u ∧ d u ≤ B
  boundS : ∀ m u, y.t0 ≤ m → m < u → u ≤ y.tf → -B * (u - m) ≤ f u - f m ∧ f u - f m ≤ B * (u - m)

theorem setAt_same {y w : Tube K} (h : SameB y w) (x : Itv K) (t : K) : SameB (y.setAt x t) (w.sample t) := by
  unfold SameB Tube.setAt
  rw [sampleGate_bounds]
  exact sampleCells_sameB h

theorem setAt_ubs {y : Tube K} (h : y.WF) {t : K} (h1 : y.t0 ≤ t) (h2 : t ≤ y.tf) (x : Itv K) {u : K} :
    u ∈ (y.setAt x t).cells.map Cell.ub ↔ u ∈ y.cells.map Cell.ub ∨ (u = t ∧ y.t0 < t) := by
  have := SameB.ubs (T := y.setAt x t) (U := y.sample t) (setAt_same rfl x t)
  rw [this]
  exact mem_ub_sampleCells h.tiles h1 h2

theorem evalInv_set {A : IArith K} {B : K} {f d : K → K} {y w : Tube K} (h : EvalInv B f d y w) {t : K} (h1 : y.t0 ≤ t) (h2 : t ≤ y.tf) :
    EvalInv B f d (y.setAt (y.interpolAt A w t) t) (w.sample t) := by
  obtain ⟨a1, a2, a3, a4⟩ := setAt_inv h.ywf h.ygc h1 h2 (y.interpolAt A w t)
  have h1' : w.t0 ≤ t := h.dom.1 ▸ h1
  have h2' : t ≤ w.tf := h.dom.2 ▸ h2
  exact ⟨a1, a2, sample_wf h.wwf h1' h2', sample_gc h.wgc t, setAt_same h.same _ _, ⟨a3.trans h.dom.1, a4.trans h.dom.2⟩,
    setAt_encloses h.ywf h.ygc h1 h2 h.yf (interpolAt_mem h.ywf h.yf h.same h.wf h1 h2), sample_slope h.wwf h1' h2' h.wf,
    (sample_encloses h.wwf h1' h2').mpr h.wd, by rw [a3, a4]; exact h.bound⟩

theorem derivTube_dom {A : IArith K} {B : K} {R : Itv K} {fw bw : Bool} {x v x' : Tube K} (hx : x.WF) (h : derivTube A B R fw bw x v = some x') :
    x'.t0 = x.t0 ∧ x'.tf = x.tf ∧ SameB x' x := by
  obtain ⟨hs, rfl⟩ := derivTube_eq_some h
  obtain ⟨i1, i2, i3, i4⟩ := foldl_upd_inv (fun k => derivSlice A B R (v.codAt k)) (if fw then List.range x.nbSlices else []) hx
  obtain ⟨j1, j2, j3, j4⟩ := foldl_upd_inv (fun k => derivSlice A B R (v.codAt k)) (if bw then (List.range x.nbSlices).reverse else []) i1
  exact ⟨j2.trans i2, j3.trans i3, j4.trans i4⟩

theorem bounds?_of_bounded {X : Itv K} {l u x y : K} (h : X ≤ Itv.icc l u) (hx : x ∈ X) (hy : y ∈ X) (hxy : x < y) :
    ∃ a b, X.bounds? = some (a, b) ∧ X = Itv.icc a b ∧ a < b ∧ l ≤ a ∧ b ≤ u := by
  cases X with
  | empty => exact absurd hx (by intro h; cases h)
  | mk lo hi hb =>
    have hm : ∀ v, v ∈ Itv.mk lo hi hb → l ≤ v ∧ v ≤ u := fun v hv => Itv.mem_icc.mp (Itv.mem_of_le h hv)
    cases lo with
    | none =>
      exfalso
      have h1 : min x l - 1 ∈ Itv.mk none hi hb := by
        refine ⟨trivial, ?_⟩
        cases hi with
        | none => trivial
        | some c => exact le_trans (le_trans (sub_le_self _ zero_le_one) (min_le_left _ _)) hx.2
      have := (hm _ h1).1
      have h3 := min_le_right x l
      linarith
    | some a =>
      cases hi with
      | none =>
        exfalso
        have h1 : max x u + 1 ∈ Itv.mk (some a) none hb := by
          refine ⟨?_, trivial⟩
          have h2 : a ≤ x := hx.1
          have h3 := le_max_left x u
          show a ≤ max x u + 1
          linarith
        have := (hm _ h1).2
        have h3 := le_max_right x u
        linarith
      | some b =>
        have hab : a ≤ b := hb
        refine ⟨a, b, rfl, (Itv.icc_eq_mk hab).symm, ?_, ?_, ?_⟩
        · have h2 : a ≤ x := hx.1
          have h3 : y ≤ b := hy.2
          linarith
        · exact (hm a ⟨le_rfl, hab⟩).1
        · exact (hm b ⟨hab, le_rfl⟩).2

/-- the main part of the contraction keeps the solutions -/
theorem evalMain_sound {A : IArith K} {B : K} {R : Itv K} {prop pres : Bool} {a b : K} {z : Itv K} {y w : Tube K} {r : Itv K × Itv K × Tube K × Tube K}
    (h : evalMain A B R prop pres a b z y w = some r) (hab : a < b) (h0 : y.t0 ≤ a) (h1 : b ≤ y.tf) {Sol : (K → K) → (K → K) → K → Prop}
    (hS : ∀ f d τ, Sol f d τ → EvalInv B f d y w ∧ a ≤ τ ∧ τ ≤ b ∧ f τ ∈ z)
    (htwo : ∃ f d τ f' d' τ', Sol f d τ ∧ Sol f' d' τ' ∧ τ < τ')
    (hsep : ∀ s ∈ y.slices, a < s.lb → s.lb < b → (∃ f d τ, Sol f d τ ∧ τ ≤ s.lb) ∧ ∃ f d τ, Sol f d τ ∧ s.lb ≤ τ) :
    ∀ f d τ, Sol f d τ → τ ∈ r.1 ∧ f τ ∈ r.2.1 ∧ EvalInv B f d r.2.2.1 r.2.2.2 := by
  obtain ⟨f0, d0, τ0, f1, d1, τ1, hS0, hS1, hlt⟩ := htwo
  unfold evalMain at h
  rw [Option.bind_eq_some_iff] at h
  obtain ⟨ga, hga, h⟩ := h
  rw [Option.bind_eq_some_iff] at h
  obtain ⟨gb, hgb, h⟩ := h
  dsimp only at h
  generalize (if pres then (if ga then [] else [a]) ++ (if gb then [] else [b]) else []) = rm at h
  have hy := (hS f0 d0 τ0 hS0).1.ywf
  have I1 : ∀ f d τ, Sol f d τ → EvalInv B f d (y.setAt (y.interpolAt A w a) a) (w.sample a) := fun f d τ hs => evalInv_set (hS f d τ hs).1 h0 (hab.le.trans h1)
  have u1 : ∀ u, u ∈ (y.setAt (y.interpolAt A w a) a).cells.map Cell.ub ↔ u ∈ y.cells.map Cell.ub ∨ (u = a ∧ y.t0 < a) :=
    fun u => setAt_ubs hy h0 (hab.le.trans h1) _
  have e1 : (y.setAt (y.interpolAt A w a) a).t0 = y.t0 ∧ (y.setAt (y.interpolAt A w a) a).tf = y.tf := sampleGate_dom _ _ _
  generalize y.setAt (y.interpolAt A w a) a = y1 at h I1 u1 e1
  generalize w.sample a = w1 at h I1
  have I2 : ∀ f d τ, Sol f d τ → EvalInv B f d (y1.setAt (y1.interpolAt A w1 b) b) (w1.sample b) := fun f d τ hs =>
    evalInv_set (I1 f d τ hs) (by rw [e1.1]; exact h0.trans hab.le) (by rw [e1.2]; exact h1)
  have u2 : ∀ u, u ∈ (y1.setAt (y1.interpolAt A w1 b) b).cells.map Cell.ub ↔ u ∈ y1.cells.map Cell.ub ∨ (u = b ∧ y1.t0 < b) :=
    fun u => setAt_ubs (I1 f0 d0 τ0 hS0).ywf (by rw [e1.1]; exact h0.trans hab.le) (by rw [e1.2]; exact h1) _
  have e2 : (y1.setAt (y1.interpolAt A w1 b) b).t0 = y1.t0 ∧ (y1.setAt (y1.interpolAt A w1 b) b).tf = y1.tf := sampleGate_dom _ _ _
  generalize y1.setAt (y1.interpolAt A w1 b) b = y2 at h I2 u2 e2
  generalize w1.sample b = w2 at h I2
  rw [e1.1, e1.2] at e2
  have J2 := I2 f0 d0 τ0 hS0
  have sep : ∀ s ∈ y2.slices, a < s.lb → s.lb < b → (∃ f d τ, Sol f d τ ∧ τ ≤ s.lb) ∧ ∃ f d τ, Sol f d τ ∧ s.lb ≤ τ := by
    intro s hs h2 h3
    have hl := tiles_lb J2.ywf.tiles hs
    have hm : s.lb ∈ y.cells.map Cell.ub := by
      rcases hl with hl | hl
      · rw [hl, e2.1] at h2; exact absurd h2 (not_lt.mpr h0)
      · rcases (u2 _).mp hl with hl | ⟨hl, -⟩
        · rcases (u1 _).mp hl with hl | ⟨hl, -⟩
          · exact hl
          · exact absurd h2 (by rw [hl]; exact lt_irrefl _)
        · exact absurd h3 (by rw [hl]; exact lt_irrefl _)
    obtain ⟨s', hs', e⟩ := exists_lb hy (Or.inr hm) (h0.trans h2.le) (h3.trans_le h1)
    rw [← e]
    exact hsep s' hs' (by rw [e]; exact h2) (by rw [e]; exact h3)
  obtain ⟨y3', k0, k1, k2, k3, k4, k5⟩ := evalFronts_spec A (z := z) (a := a) (b := b) J2.ywf J2.ygc J2.same J2.dom hab
    (exists_lb J2.ywf (by
      rcases eq_or_lt_of_le h0 with e | e
      · left; rw [e2.1, e]
      · right; rw [u2, u1]; exact Or.inl (Or.inr ⟨rfl, e⟩)) (by rw [e2.1]; exact h0) (by rw [e2.2]; exact hab.trans_le h1))
    (exists_ub (by rw [u2]; exact Or.inr ⟨rfl, by rw [e1.1]; exact h0.trans_lt hab⟩))
    (Sol := fun f τ => ∃ d, Sol f d τ)
    (fun f τ ⟨d, hs⟩ => ⟨(I2 f d τ hs).yf, (I2 f d τ hs).wf, (hS f d τ hs).2.1, (hS f d τ hs).2.2.1, (hS f d τ hs).2.2.2⟩)
    ⟨f0, τ0, d0, hS0⟩
    (fun s hs h2 h3 => by
      obtain ⟨f, d, τ, hs, hτ⟩ := (sep s hs h2 h3).1
      exact ⟨f, τ, ⟨d, hs⟩, hτ⟩)
    (fun s hs h2 h3 => by
      obtain ⟨f, d, τ, hs, hτ⟩ := (sep s hs h2 h3).2
      exact ⟨f, τ, ⟨d, hs⟩, hτ⟩)
  rw [Option.bind_eq_some_iff] at h
  obtain ⟨y3, e3, h⟩ := h
  rw [k0] at e3
  cases e3
  have I3 : ∀ f d τ, Sol f d τ → EvalInv B f d y3' w2 := fun f d τ hs => by
    have j := I2 f d τ hs
    exact ⟨k1, k2, j.wwf, j.wgc, k3, k4, k5 f τ ⟨d, hs⟩, j.wf, j.wd, by rw [k4.1, k4.2, ← j.dom.1, ← j.dom.2]; exact j.bound⟩
  rw [Option.bind_eq_some_iff] at h
  obtain ⟨y4, e4, h⟩ := h
  have I4 : ∀ f d τ, Sol f d τ → EvalInv B f d y4 w2 := by
    intro f d τ hs
    have j := I3 f d τ hs
    cases prop with
    | false => rw [if_neg (by simp)] at e4; cases e4; exact j
    | true =>
      rw [if_pos rfl] at e4
      obtain ⟨i1, i2, i3⟩ := C18_deriv_sound_partial j.ywf j.ygc e4 j.yf j.wf j.bound
      obtain ⟨d1, d2, d3⟩ := derivTube_dom j.ywf e4
      exact ⟨i1, i2, j.wwf, j.wgc, d3.trans j.same, ⟨d1.trans j.dom.1, d2.trans j.dom.2⟩, i3, j.wf, j.wd, by rw [d1, d2]; exact j.bound⟩
  rw [Option.bind_eq_some_iff] at h
  obtain ⟨I, e5, h⟩ := h
  rw [Option.bind_eq_some_iff] at h
  obtain ⟨z', e6, h⟩ := h
  rw [Option.map_eq_some_iff] at h
  obtain ⟨p, e7, rfl⟩ := h
  have T1 : ∀ f d τ, Sol f d τ → τ ∈ Itv.icc a b ⊓ I := by
    intro f d τ hs
    have j := I4 f d τ hs
    obtain ⟨-, s1, s2, s3⟩ := hS f d τ hs
    refine Itv.mem_inf.mpr ⟨Itv.mem_icc.mpr ⟨s1, s2⟩, ?_⟩
    refine C75_invert_partial j.ywf j.ygc e5 j.yf j.wf (Itv.mem_icc.mpr ⟨s1, s2⟩) s3 ?_
    intro s _ hc
    have m1 : a ∈ Itv.point s.lb := by rw [← hc]; exact Itv.mem_icc.mpr ⟨le_rfl, hab.le⟩
    have m2 : b ∈ Itv.point s.lb := by rw [← hc]; exact Itv.mem_icc.mpr ⟨hab.le, le_rfl⟩
    rw [Itv.mem_point] at m1 m2
    rw [m1, m2] at hab
    exact lt_irrefl _ hab
  intro f d τ hs
  refine ⟨T1 f d τ hs, ?_, evalRemoves_inv rm (I4 f d τ hs) e7⟩
  show f τ ∈ z'
  obtain ⟨a', b', q1, q2, q3, -, -⟩ := bounds?_of_bounded (inf_le_left : Itv.icc a b ⊓ I ≤ Itv.icc a b) (T1 _ _ _ hS0) (T1 _ _ _ hS1) hlt
  unfold evalAgain at e6
  rw [q1] at e6
  dsimp only at e6
  rw [Option.map_eq_some_iff] at e6
  obtain ⟨J, hJ, rfl⟩ := e6
  have j := I4 f d τ hs
  have ht := T1 f d τ hs
  rw [q2, Itv.mem_icc] at ht
  exact Itv.mem_inf.mpr ⟨(hS f d τ hs).2.2.2, C74_interpol_partial j.ywf j.ygc hJ j.yf j.wf ht.1 ht.2 (fun e => absurd e q3.ne)⟩

/-- **C19** (part), for `contract(Interval& t, Interval& z, Tube& y, Tube& w)`: every solution is kept (its instant in `t`, its value in `z`,
its trajectory in `y`, its derivative in `w`), when there are solutions at two different instants and when each bound of a slice that lies
strictly inside the instants kept by the first inversion has a solution before it (or at it) and one after it (or at it).
`C19_eval_interval_fails` shows that the last condition is needed, `C19_eval_interval_point_fails` that the other one is. -/
theorem C19_eval_interval_partial {A : IArith K} {B : K} {R : Itv K} {prop pres : Bool} {t z t' z' : Itv K} {y w y' w' : Tube K} (hy : y.WF) (hyg : y.GatesInEnvelopes)
    (hw : w.WF) (hwg : w.GatesInEnvelopes) (h : evalInterval A B R prop pres t z y w = some (t', z', y', w'))
    (htwo : ∃ f d τ f' d' τ', EvalSolution B t z y w f d τ ∧ EvalSolution B t z y w f' d' τ' ∧ τ < τ')
    (hsep : ∀ I, (clampTube B y).invertV z (clampTube B w) (t ⊓ .icc y.t0 y.tf) = some I → ∀ s ∈ y.slices, ∀ u ∈ t ⊓ .icc y.t0 y.tf ⊓ I, ∀ v ∈ t ⊓ .icc y.t0 y.tf ⊓ I, u < s.lb → s.lb < v →
      (∃ f d τ, EvalSolution B t z y w f d τ ∧ τ ≤ s.lb) ∧ ∃ f d τ, EvalSolution B t z y w f d τ ∧ s.lb ≤ τ)
    {f d : K → K} {τ : K} (hs : EvalSolution B t z y w f d τ) : τ ∈ t' ∧ f τ ∈ z' ∧ y'.Encloses f ∧ w'.Encloses d := by
  obtain ⟨f0, d0, τ0, f1, d1, τ1, hS0, hS1, hlt⟩ := htwo
  unfold evalInterval at h
  by_cases hc : y.t0 = w.t0 ∧ y.tf = w.tf ∧ y.sameSlicing w = true
  swap
  · rw [if_neg hc] at h; cases h
  rw [if_pos hc] at h
  have hsame : SameB y w := sameSlicing_iff.mp hc.2.2
  rw [if_neg (by
    rw [not_isEmpty_of_encloses hy hs.traj hyg, Itv.isEmpty_false_iff.mpr (Itv.ne_bot_of_mem hs.val), Itv.isEmpty_false_iff.mpr (Itv.ne_bot_of_mem hs.inst)]; simp)] at h
  have h : evalInterval.go A B R prop pres t z y w = some (t', z', y', w') := by
    match hb : t.bounds?, h with
    | some (a, b), h =>
      dsimp only at h
      rw [if_neg ?_] at h
      · exact h
      rintro rfl
      have m0 := (Itv.bounds?_spec hb).2 τ0 |>.mp hS0.inst
      have m1 := (Itv.bounds?_spec hb).2 τ1 |>.mp hS1.inst
      linarith [m0.1, m1.2]
    | none, h => exact h
  unfold evalInterval.go at h
  dsimp only at h
  rw [Option.bind_eq_some_iff] at h
  obtain ⟨I, hI, h⟩ := h
  specialize hsep I hI
  have inv : ∀ f d τ, EvalSolution B t z y w f d τ → EvalInv B f d (clampTube B y) (clampTube B w) := by
    intro f d τ hs
    refine ⟨clamp_wf hy, clamp_gc hy hyg, clamp_wf hw, clamp_gc hw hwg, ?_, ⟨hc.1, hc.2.1⟩, clamp_encloses hy hs.traj hs.boundF, clamp_slope hw hs.slopes ?_, clamp_encloses hw hs.deriv ?_, hs.boundF⟩
    · exact (clamp_sameB B y).trans (hsame.trans (clamp_sameB B w).symm)
    · rw [← hc.1, ← hc.2.1]; exact hs.boundS
    · rw [← hc.1, ← hc.2.1]; exact hs.boundD
  have T0 : ∀ f d τ, EvalSolution B t z y w f d τ → τ ∈ t ⊓ .icc y.t0 y.tf := fun f d τ hs => Itv.mem_inf.mpr ⟨hs.inst, Itv.mem_icc.mpr hs.dom⟩
  have T1 : ∀ f d τ, EvalSolution B t z y w f d τ → τ ∈ t ⊓ .icc y.t0 y.tf ⊓ I := by
    intro f d τ hs
    have j := inv f d τ hs
    refine Itv.mem_inf.mpr ⟨T0 f d τ hs, C75_invert_partial j.ywf j.ygc hI j.yf j.wf (T0 f d τ hs) hs.val ?_⟩
    intro s _ he
    have m0 := T0 _ _ _ hS0
    have m1 := T0 _ _ _ hS1
    rw [he, Itv.mem_point] at m0 m1
    rw [m0, m1] at hlt
    exact lt_irrefl _ hlt
  obtain ⟨a, b, q1, q2, q3, q4, q5⟩ := bounds?_of_bounded (inf_le_left.trans inf_le_right : t ⊓ .icc y.t0 y.tf ⊓ I ≤ Itv.icc y.t0 y.tf) (T1 _ _ _ hS0) (T1 _ _ _ hS1) hlt
  rw [q1] at h
  dsimp only at h
  rw [if_neg q3.ne, Option.bind_eq_some_iff] at h
  obtain ⟨J, hJ, h⟩ := h
  have Z1 : ∀ f d τ, EvalSolution B t z y w f d τ → (a ≤ τ ∧ τ ≤ b) ∧ f τ ∈ z ⊓ J := by
    intro f d τ hs
    have j := inv f d τ hs
    have ht := T1 f d τ hs
    rw [q2, Itv.mem_icc] at ht
    exact ⟨ht, Itv.mem_inf.mpr ⟨hs.val, C74_interpol_partial j.ywf j.ygc hJ j.yf j.wf ht.1 ht.2 (fun e => absurd e q3.ne)⟩⟩
  rw [if_neg (by rw [Itv.isEmpty_iff]; exact Itv.ne_bot_of_mem (Z1 f d τ hs).2), Option.map_eq_some_iff] at h
  obtain ⟨r, hr, h⟩ := h
  have main := evalMain_sound hr q3 q4 q5 (Sol := EvalSolution B t z y w) (fun f d τ hs => ⟨inv f d τ hs, (Z1 f d τ hs).1.1, (Z1 f d τ hs).1.2, (Z1 f d τ hs).2⟩)
    ⟨f0, d0, τ0, f1, d1, τ1, hS0, hS1, hlt⟩ (by
      intro s hs' h2 h3
      rw [clamp_slices hy, List.mem_map] at hs'
      obtain ⟨s0, hs0, rfl⟩ := hs'
      refine hsep s0 hs0 a ?_ b ?_ h2 h3
      · rw [q2, Itv.mem_icc]; exact ⟨le_rfl, q3.le⟩
      · rw [q2, Itv.mem_icc]; exact ⟨q3.le, le_rfl⟩) f d τ hs
  obtain ⟨m1, m2, m3⟩ := main
  obtain ⟨n1, n2, n3⟩ := restoreTube_inv (B := B) m3.ywf m3.ygc m3.yf
  unfold evalFinish at h
  rw [if_neg (by
    rw [not_isEmpty_of_encloses n1 n3 n2, Itv.isEmpty_false_iff.mpr (Itv.ne_bot_of_mem m1), Itv.isEmpty_false_iff.mpr (Itv.ne_bot_of_mem m2)]; simp)] at h
  cases h
  exact ⟨m1, m2, n3, m3.wd⟩

/-- `z` is contracted by the evaluation at an instant -/
theorem evalInstant_le {A : IArith K} {B : K} {R : Itv K} {prop pres : Bool} {t : K} {z : Itv K} {y w : Tube K} {r : Itv K × Tube K × Tube K}
    (h : evalInstant A B R prop pres t z y w = some r) : r.1 ≤ z := by
  obtain ⟨-, h⟩ := evalInstant_cases h
  rcases h with ⟨-, rfl⟩ | ⟨y', w', h, -⟩
  · exact bot_le
  · rcases h with ⟨rfl, -⟩ | rfl
    · exact bot_le
    · exact inf_le_left

/-- **C19**: over an interval of time, `t` and `z` are contracted -/
theorem C19_eval_interval_contracts {A : IArith K} {B : K} {R : Itv K} {prop pres : Bool} {t z t' z' : Itv K} {y w y' w' : Tube K}
    (h : evalInterval A B R prop pres t z y w = some (t', z', y', w')) : t' ≤ t ∧ z' ≤ z := by
  have fin : ∀ (t1 z1 : Itv K) (y1 w1 : Tube K), evalFinish t1 z1 y1 w1 = (t', z', y', w') → t1 ≤ t → z1 ≤ z → t' ≤ t ∧ z' ≤ z := by
    intro t1 z1 y1 w1 h h1 h2
    unfold evalFinish at h
    split_ifs at h <;> cases h
    · exact ⟨bot_le, bot_le⟩
    · exact ⟨h1, h2⟩
  have hgo : evalInterval.go A B R prop pres t z y w = some (t', z', y', w') → t' ≤ t ∧ z' ≤ z := by
    intro h
    unfold evalInterval.go at h
    dsimp only at h
    rw [Option.bind_eq_some_iff] at h
    obtain ⟨I, hI, h⟩ := h
    have ht2 : t ⊓ .icc y.t0 y.tf ⊓ I ≤ t := inf_le_left.trans inf_le_left
    match hb : (t ⊓ .icc y.t0 y.tf ⊓ I).bounds?, h with
    | none, h => exact fin _ _ _ _ (Option.some.inj h) ht2 le_rfl
    | some (a, b), h =>
      have hle : Itv.icc a b ≤ t := by
        rw [Itv.le_iff]
        intro x hx
        exact Itv.mem_of_le ht2 (((Itv.bounds?_spec hb).2 x).mpr (Itv.mem_icc.mp hx))
      dsimp only at h
      split_ifs at h with e
      · rw [Option.map_eq_some_iff] at h
        obtain ⟨r, hr, h⟩ := h
        cases h
        exact ⟨ht2, evalInstant_le hr⟩
      · rw [Option.bind_eq_some_iff] at h
        obtain ⟨J, hJ, h⟩ := h
        split_ifs at h with e2
        · exact fin _ _ _ _ (Option.some.inj h) ht2 inf_le_left
        · rw [Option.map_eq_some_iff] at h
          obtain ⟨r, hr, h⟩ := h
          refine fin _ _ _ _ h ?_ ?_
          all_goals
            unfold evalMain at hr
            rw [Option.bind_eq_some_iff] at hr
            obtain ⟨ga, -, hr⟩ := hr
            rw [Option.bind_eq_some_iff] at hr
            obtain ⟨gb, -, hr⟩ := hr
            dsimp only at hr
            rw [Option.bind_eq_some_iff] at hr
            obtain ⟨y3, -, hr⟩ := hr
            rw [Option.bind_eq_some_iff] at hr
            obtain ⟨y4, -, hr⟩ := hr
            rw [Option.bind_eq_some_iff] at hr
            obtain ⟨I', -, hr⟩ := hr
            rw [Option.bind_eq_some_iff] at hr
            obtain ⟨z2, hz2, hr⟩ := hr
            rw [Option.map_eq_some_iff] at hr
            obtain ⟨p, -, rfl⟩ := hr
          · exact inf_le_left.trans hle
          · unfold evalAgain at hz2
            split at hz2
            · rw [← Option.some.inj hz2]; exact inf_le_left
            · rw [Option.map_eq_some_iff] at hz2
              obtain ⟨J', -, rfl⟩ := hz2
              exact inf_le_left.trans inf_le_left
  unfold evalInterval at h
  split_ifs at h with h1 h2
  · cases h; exact ⟨bot_le, bot_le⟩
  · split at h
    · split_ifs at h
      · rw [Option.map_eq_some_iff] at h
        obtain ⟨r, hr, h⟩ := h
        cases h
        exact ⟨le_rfl, evalInstant_le hr⟩
      · exact hgo h
    · exact hgo h

/-! ### A case that meets the hypotheses -/

/-- two slices, values in [-10,10] -/
def evItvY : Tube ℚ := ⟨0, 4, .icc (-10) 10, [⟨0, 2, .icc (-10) 10, .icc (-10) 10⟩, ⟨2, 4, .icc (-10) 10, .icc (-10) 10⟩]⟩

/-- derivative in [-1,1] -/
def evItvW : Tube ℚ := ⟨0, 4, .icc (-1) 1, [⟨0, 2, .icc (-1) 1, .icc (-1) 1⟩, ⟨2, 4, .icc (-1) 1, .icc (-1) 1⟩]⟩

/-- the constant 1/2 is a solution at each instant -/
theorem evItv_solution {τ : ℚ} (h0 : 1 ≤ τ) (h1 : τ ≤ 3) : EvalSolution 1000 (.icc 1 3) (.icc 0 1) evItvY evItvW (fun _ => 1 / 2) (fun _ => 0) τ := by
  refine ⟨?_, ?_, ?_, Itv.mem_icc.mpr ⟨h0, h1⟩, ⟨?_, ?_⟩, by decide +kernel, fun _ _ _ => by norm_num, fun _ _ _ => by norm_num, ?_⟩
  · intro s hs
    simp only [evItvY, Tube.slices, slicesFrom, List.mem_cons, List.not_mem_nil, or_false] at hs
    rcases hs with rfl | rfl <;> exact ⟨by decide +kernel, by decide +kernel, fun _ _ _ => by beta_reduce; decide +kernel⟩
  · intro s hs
    simp only [evItvW, Tube.slices, slicesFrom, List.mem_cons, List.not_mem_nil, or_false] at hs
    rcases hs with rfl | rfl <;> exact ⟨by decide +kernel, by decide +kernel, fun _ _ _ => by beta_reduce; decide +kernel⟩
  · intro s hs m t _ _ _
    refine ⟨0, ?_, by ring⟩
    simp only [evItvW, Tube.slices, slicesFrom, List.mem_cons, List.not_mem_nil, or_false] at hs
    rcases hs with rfl | rfl <;> decide +kernel
  · show (0 : ℚ) ≤ τ; linarith
  · show τ ≤ (4 : ℚ); linarith
  · intro m u _ h _
    constructor <;> linarith

/-- the hypotheses of `C19_eval_interval_partial` hold, and the tube is contracted around the interval of time -/
example : evItvY.WF ∧ evItvY.GatesInEnvelopes ∧ evItvW.WF ∧ evItvW.GatesInEnvelopes ∧
    (∃ f d τ f' d' τ', EvalSolution 1000 (.icc 1 3) (.icc 0 1) evItvY evItvW f d τ ∧ EvalSolution 1000 (.icc 1 3) (.icc 0 1) evItvY evItvW f' d' τ' ∧ τ < τ') ∧
    (∀ I, (clampTube 1000 evItvY).invertV (.icc 0 1) (clampTube 1000 evItvW) (.icc 1 3 ⊓ .icc evItvY.t0 evItvY.tf) = some I → ∀ s ∈ evItvY.slices,
      ∀ u ∈ .icc 1 3 ⊓ .icc evItvY.t0 evItvY.tf ⊓ I, ∀ v ∈ .icc 1 3 ⊓ .icc evItvY.t0 evItvY.tf ⊓ I, u < s.lb → s.lb < v →
      (∃ f d τ, EvalSolution 1000 (.icc 1 3) (.icc 0 1) evItvY evItvW f d τ ∧ τ ≤ s.lb) ∧ ∃ f d τ, EvalSolution 1000 (.icc 1 3) (.icc 0 1) evItvY evItvW f d τ ∧ s.lb ≤ τ) ∧
    evalInterval (IArith.exact ℚ) 1000 ⊤ true true (.icc 1 3) (.icc 0 1) evItvY evItvW = some (.icc 1 3, .icc 0 1,
      ⟨0, 4, .icc (-3) 4, [⟨0, 2, .icc (-3) 4, .icc (-1) 2⟩, ⟨2, 4, .icc (-3) 4, .icc (-3) 4⟩]⟩, evItvW) := by
  refine ⟨⟨by simp [evItvY], by simp [evItvY, Tiles]; norm_num⟩, ?_, ⟨by simp [evItvW], by simp [evItvW, Tiles]; norm_num⟩, ?_, ?_, ?_, by decide +kernel⟩
  · intro s hs
    simp only [evItvY, Tube.slices, slicesFrom, List.mem_cons, List.not_mem_nil, or_false] at hs
    rcases hs with rfl | rfl <;> exact ⟨le_rfl, le_rfl⟩
  · intro s hs
    simp only [evItvW, Tube.slices, slicesFrom, List.mem_cons, List.not_mem_nil, or_false] at hs
    rcases hs with rfl | rfl <;> exact ⟨le_rfl, le_rfl⟩
  · exact ⟨_, _, 1, _, _, 3, evItv_solution (by norm_num) (by norm_num), evItv_solution (by norm_num) (by norm_num), by norm_num⟩
  · intro I _ s _ u hu v hv h1 h2
    have hu' := Itv.mem_icc.mp (Itv.mem_inf.mp (Itv.mem_inf.mp hu).1).1
    have hv' := Itv.mem_icc.mp (Itv.mem_inf.mp (Itv.mem_inf.mp hv).1).1
    have hs : EvalSolution 1000 (.icc 1 3) (.icc 0 1) evItvY evItvW (fun _ => 1 / 2) (fun _ => 0) s.lb := evItv_solution (by linarith) (by linarith)
    exact ⟨⟨_, _, _, hs, le_rfl⟩, ⟨_, _, _, hs, le_rfl⟩⟩

/-! ### Solutions lost -/

/-- three slices; the values reached from `z` at 0 do not meet the gate at 2 -/
def lostY : Tube ℚ := ⟨0, 3, .icc 0 20, [⟨0, 1, .icc (-100) 100, .icc 5 29⟩, ⟨1, 2, .icc (-100) 100, .icc 20 30⟩, ⟨2, 3, .icc (-100) 100, .icc (-1) 1⟩]⟩

def lostW : Tube ℚ := ⟨0, 3, .icc 5 6, [⟨0, 1, .icc 5 6, .icc 5 6⟩, ⟨1, 2, .icc (-9) 6, .icc (-9) (-8)⟩, ⟨2, 3, .icc (-30) (-8), .icc (-30) (-8)⟩]⟩

/-- 20, then 25 at 1 and at 2, then -1/2 at 3 -/
def lostF (t : ℚ) : ℚ := if t ≤ 1 then 20 + 5 * t else if t ≤ 2 then 25 else 25 - 51 / 2 * (t - 2)

def lostD (t : ℚ) : ℚ := if t ≤ 1 then 5 else if t < 2 then 0 else if t = 2 then -17 / 2 else -51 / 2

theorem lost_solution : EvalSolution 1000 (.icc 0 3) (.icc 0 1) lostY lostW lostF lostD (2 + 49 / 51) := by
  refine ⟨?_, ?_, ?_, by decide +kernel, by decide +kernel, by decide +kernel, ?_, ?_, ?_⟩
  · intro s hs
    simp only [lostY, Tube.slices, slicesFrom, List.mem_cons, List.not_mem_nil, or_false] at hs
    rcases hs with rfl | rfl | rfl
    all_goals
      refine ⟨by decide +kernel, by decide +kernel, fun t (h0 : _ < t) (h1 : t < _) => ?_⟩
      show lostF t ∈ Itv.icc (-100) 100
      rw [Itv.mem_icc]
      unfold lostF
      split_ifs <;> constructor <;> linarith
  · intro s hs
    simp only [lostW, Tube.slices, slicesFrom, List.mem_cons, List.not_mem_nil, or_false] at hs
    rcases hs with rfl | rfl | rfl
    · refine ⟨by decide +kernel, by decide +kernel, fun t (h0 : (0:ℚ) < t) (h1 : t < 1) => ?_⟩
      show lostD t ∈ Itv.icc 5 6
      unfold lostD; rw [if_pos h1.le]; decide +kernel
    · refine ⟨by decide +kernel, by decide +kernel, fun t (h0 : (1:ℚ) < t) (h1 : t < 2) => ?_⟩
      show lostD t ∈ Itv.icc (-9) 6
      unfold lostD; rw [if_neg (not_le.mpr h0), if_pos h1]; decide +kernel
    · refine ⟨by decide +kernel, by decide +kernel, fun t (h0 : (2:ℚ) < t) (h1 : t < 3) => ?_⟩
      show lostD t ∈ Itv.icc (-30) (-8)
      unfold lostD; rw [if_neg (by linarith), if_neg (not_lt.mpr h0.le), if_neg h0.ne']; decide +kernel
  · intro s hs
    simp only [lostW, Tube.slices, slicesFrom, List.mem_cons, List.not_mem_nil, or_false] at hs
    rcases hs with rfl | rfl | rfl
    · intro m t (h0 : (0:ℚ) ≤ m) h1 (h2 : t ≤ 1)
      refine ⟨5, by decide +kernel, ?_⟩
      unfold lostF; rw [if_pos h2, if_pos (by linarith)]; ring
    · intro m t (h0 : (1:ℚ) ≤ m) h1 (h2 : t ≤ 2)
      refine ⟨0, by decide +kernel, ?_⟩
      unfold lostF
      rw [if_neg (by linarith : ¬ t ≤ 1), if_pos h2]
      split_ifs
      · rw [show m = 1 by linarith]; norm_num
      · ring
      · linarith
    · intro m t (h0 : (2:ℚ) ≤ m) h1 (h2 : t ≤ 3)
      refine ⟨-51 / 2, by decide +kernel, ?_⟩
      unfold lostF
      rw [if_neg (by linarith : ¬ t ≤ 1), if_neg (by linarith : ¬ t ≤ 2), if_neg (by linarith : ¬ m ≤ 1)]
      split_ifs
      · rw [show m = 2 by linarith]; ring
      · ring
  · intro u (h0 : (0:ℚ) ≤ u) (h1 : u ≤ 3)
    unfold lostF
    split_ifs <;> constructor <;> linarith
  · intro u _ _
    unfold lostD
    split_ifs <;> norm_num
  · intro m u (h0 : (0:ℚ) ≤ m) h1 (h2 : u ≤ 3)
    unfold lostF
    split_ifs <;> constructor <;> linarith

/-- **C19 fails** over an interval of time: the forward front becomes empty at 2 although solutions exist, the gate at 3 is then reduced to
the values of `z` and a solution is lost (with or without propagation) -/
theorem C19_eval_interval_fails : ∃ (y w : Tube ℚ) (t z : Itv ℚ) (f d : ℚ → ℚ) (τ : ℚ), y.WF ∧ y.GatesInEnvelopes ∧ w.WF ∧ w.GatesInEnvelopes ∧
    EvalSolution 1000 t z y w f d τ ∧ ∀ prop, ∃ t' z' y' w', evalInterval (IArith.exact ℚ) 1000 ⊤ prop true t z y w = some (t', z', y', w') ∧ ¬ y'.Encloses f := by
  refine ⟨lostY, lostW, .icc 0 3, .icc 0 1, lostF, lostD, 2 + 49 / 51, ⟨by simp [lostY], by simp [lostY, Tiles]; norm_num⟩, ?_, ⟨by simp [lostW], by simp [lostW, Tiles]; norm_num⟩, ?_, lost_solution, ?_⟩
  · intro s hs
    simp only [lostY, Tube.slices, slicesFrom, List.mem_cons, List.not_mem_nil, or_false] at hs
    rcases hs with rfl | rfl | rfl <;> decide +kernel
  · intro s hs
    simp only [lostW, Tube.slices, slicesFrom, List.mem_cons, List.not_mem_nil, or_false] at hs
    rcases hs with rfl | rfl | rfl <;> decide +kernel
  · have key : ∀ prop, ((evalInterval (IArith.exact ℚ) 1000 ⊤ prop true (.icc 0 3) (.icc 0 1) lostY lostW).map fun r => (r.2.2.1.slices[2]?.map fun s => decide (s.ub = 3 ∧ lostF 3 ∉ s.outG))) = some (some true) := by
      decide +kernel
    intro prop
    have h := key prop
    rw [Option.map_eq_some_iff] at h
    obtain ⟨⟨t', z', y', w'⟩, h1, h2⟩ := h
    refine ⟨t', z', y', w', h1, fun hc => ?_⟩
    rw [Option.map_eq_some_iff] at h2
    obtain ⟨s, hs, h3⟩ := h2
    rw [decide_eq_true_iff] at h3
    have := (hc s (List.mem_of_getElem? hs)).2.1
    rw [h3.1] at this
    exact h3.2 this

/-- one slice, values in [0,4] -/
def pointY : Tube ℚ := ⟨0, 2, .icc 0 4, [⟨0, 2, .icc 0 4, .icc 0 4⟩]⟩

def pointW : Tube ℚ := ⟨0, 2, .icc (-1) 1, [⟨0, 2, .icc (-1) 1, .icc (-1) 1⟩]⟩

/-- **C19 fails** when `t` meets the time domain at its first instant only: `t` and `z` are set empty, although the constant 1 is a solution at
this instant -/
theorem C19_eval_interval_point_fails : ∃ (y w : Tube ℚ) (t z : Itv ℚ) (f d : ℚ → ℚ) (τ : ℚ), y.WF ∧ y.GatesInEnvelopes ∧ w.WF ∧ w.GatesInEnvelopes ∧
    EvalSolution 1000 t z y w f d τ ∧ ∀ prop, ∃ y' w', evalInterval (IArith.exact ℚ) 1000 ⊤ prop true t z y w = some (⊥, ⊥, y', w') := by
  refine ⟨pointY, pointW, .icc (-1) 0, .icc 0 2, fun _ => 1, fun _ => 0, 0, ⟨by simp [pointY], by simp [pointY, Tiles]⟩, ?_, ⟨by simp [pointW], by simp [pointW, Tiles]⟩, ?_, ?_, ?_⟩
  · intro s hs
    simp only [pointY, Tube.slices, slicesFrom, List.mem_cons, List.not_mem_nil, or_false] at hs
    subst hs; exact ⟨le_rfl, le_rfl⟩
  · intro s hs
    simp only [pointW, Tube.slices, slicesFrom, List.mem_cons, List.not_mem_nil, or_false] at hs
    subst hs; exact ⟨le_rfl, le_rfl⟩
  · refine ⟨?_, ?_, ?_, by decide +kernel, by decide +kernel, by decide +kernel, fun _ _ _ => by norm_num, fun _ _ _ => by norm_num, ?_⟩
    · intro s hs
      simp only [pointY, Tube.slices, slicesFrom, List.mem_cons, List.not_mem_nil, or_false] at hs
      subst hs; exact ⟨by decide +kernel, by decide +kernel, fun _ _ _ => by beta_reduce; decide +kernel⟩
    · intro s hs
      simp only [pointW, Tube.slices, slicesFrom, List.mem_cons, List.not_mem_nil, or_false] at hs
      subst hs; exact ⟨by decide +kernel, by decide +kernel, fun _ _ _ => by beta_reduce; decide +kernel⟩
    · intro s hs m t _ _ _
      refine ⟨0, ?_, by ring⟩
      simp only [pointW, Tube.slices, slicesFrom, List.mem_cons, List.not_mem_nil, or_false] at hs
      subst hs; decide +kernel
    · intro m u _ h _
      constructor <;> linarith
  · have key : ∀ prop, ((evalInterval (IArith.exact ℚ) 1000 ⊤ prop true (.icc (-1) 0) (.icc 0 2) pointY pointW).map fun r => decide (r.1 = ⊥ ∧ r.2.1 = ⊥)) = some true := by
      decide +kernel
    intro prop
    have h := key prop
    rw [Option.map_eq_some_iff] at h
    obtain ⟨⟨t', z', y', w'⟩, h1, h2⟩ := h
    rw [decide_eq_true_iff] at h2
    obtain ⟨rfl, rfl⟩ : t' = ⊥ ∧ z' = ⊥ := h2
    exact ⟨y', w', h1⟩

end Codac.Props
