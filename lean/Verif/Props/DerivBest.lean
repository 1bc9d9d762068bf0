import Verif.Ctc.DerivChain
import Verif.Props.Deriv

/-!
# C121: `CtcDeriv` gives the smallest tube

With exact arithmetic, one call of `contract` (forward and backward) leaves nothing to be removed: every value of a gate is the value of
a trajectory of `[x]` whose slopes are in `[v]`, and the envelope of every slice is the smallest interval around these trajectories.
-/

set_option linter.unusedSectionVars false

namespace Codac.Props
open Codac Codac.Ex Codac.Best

section
variable {K : Type*} [Field K] [LinearOrder K] [IsStrictOrderedRing K]

/-- the trajectories `CtcDeriv` is about: in `[x]`, with slopes in `[v]` -/
def DerivSol (x v : Tube K) (f : K → K) : Prop := x.Encloses f ∧ v.SlopeIn f

/-- `x` is bounded, strictly inside `±B` -/
def InsideB (B : K) (x : Tube K) : Prop := ∃ C, C < B ∧ ∀ s ∈ x.slices, s.cod ≤ Itv.icc (-C) C

/-- the envelopes of `v` are bounded, not empty -/
def BoundedV (v : Tube K) : Prop := ∀ s ∈ v.slices, ∃ a b, a ≤ b ∧ s.cod = Itv.icc a b

theorem at_v {x v : Tube K} (hs : SameB x v) {k : Nat} {s : Slice K} (h : x.slices[k]? = some s) :
    ∃ w, v.slices[k]? = some w ∧ w.lb = s.lb ∧ w.ub = s.ub := by
  have := congrArg (·[k]?) hs
  simp only [← Tube.slices_bounds, List.getElem?_map] at this
  rw [h] at this
  cases hw : v.slices[k]? with
  | none => rw [hw] at this; cases this
  | some w =>
    rw [hw] at this
    simp only [Option.map_some, Option.some.injEq, Prod.mk.injEq] at this
    exact ⟨w, rfl, this.1.symm, this.2.symm⟩

/-- the state after both passes: base facts, gates that are joined, smallest envelopes -/
theorem derivTube_chain {B : K} {x v x' : Tube K} (hx : x.WF) (hg : x.GatesInEnvelopes) {C : K} (hCB : C < B)
    (hbd : ∀ s ∈ x.slices, s.cod ≤ Itv.icc (-C) C) (hv : BoundedV v)
    (h : derivTube (IArith.exact K) B ⊤ true true x v = some x') {f0 : K → K} (hf0 : DerivSol x v f0) :
    ∃ vl vu : Nat → K, (∀ (k : Nat) w, v.slices[k]? = some w → w.cod = Itv.icc (vl k) (vu k)) ∧ Base x C vl vu f0 x' ∧
      ∀ (j : Nat) s, x'.slices[j]? = some s → From s (vl j) (vu j) ∧ To s (vl j) (vu j) ∧ Env s (vl j) (vu j) := by
  obtain ⟨hs, rfl⟩ := derivTube_eq_some h
  have hex : ∀ k : Nat, ∃ a b : K, a ≤ b ∧ ∀ w, v.slices[k]? = some w → w.cod = Itv.icc a b := by
    intro k
    cases hw : v.slices[k]? with
    | none => exact ⟨0, 0, le_rfl, fun w h => by cases h⟩
    | some w =>
      obtain ⟨a, b, hab, e⟩ := hv w (List.mem_of_getElem? hw)
      exact ⟨a, b, hab, fun w' h' => by injection h' with h'; subst h'; exact e⟩
  choose vl vu hle hcod using hex
  have hcodAt : ∀ k, k < x.nbSlices → v.codAt k = Itv.icc (vl k) (vu k) := by
    intro k hk
    have hlen : k < x.slices.length := by
      have e := congrArg List.length (Tube.slices_bounds x)
      rw [List.length_map, List.length_map] at e
      rw [e]; exact hk
    obtain ⟨w, hw, -, -⟩ := at_v hs (List.getElem?_eq_getElem hlen)
    simp only [Tube.codAt, hw, Option.map_some, Option.getD_some]
    exact hcod k w hw
  have hb : Base x C vl vu f0 x := by
    refine ⟨hx, hg, rfl, hbd, ?_⟩
    intro k s hk
    refine ⟨hf0.1 s (List.mem_of_getElem? hk), Slopes.ofIn ?_⟩
    obtain ⟨w, hw, e1, e2⟩ := at_v hs hk
    have := hf0.2 w (List.mem_of_getElem? hw)
    intro m t h0 h1 h2
    obtain ⟨y, hy, e⟩ := this m t (by rw [e1]; exact h0) h1 (by rw [e2]; exact h2)
    exact ⟨y, by rw [← hcod k w hw]; exact hy, e⟩
  have hcongr : ∀ (l : List Nat) (T : Tube K), (∀ k ∈ l, k < x.nbSlices) →
      l.foldl (fun T k => T.upd k (derivSlice (IArith.exact K) B ⊤ (v.codAt k))) T =
        l.foldl (fun T k => T.upd k (derivSlice (IArith.exact K) B ⊤ (Itv.icc (vl k) (vu k)))) T := by
    intro l
    induction l with
    | nil => intro T _; rfl
    | cons k l ih =>
      intro T hl
      rw [List.foldl_cons, List.foldl_cons, hcodAt k (hl k (by simp))]
      exact ih _ fun j hj => hl j (List.mem_cons_of_mem _ hj)
  obtain ⟨b1, f1⟩ := forward hCB hb (fun k _ => hle k) x.nbSlices le_rfl
  have hn : ∀ (j : Nat) (s : Slice K) (T : Tube K), SameB T x → T.slices[j]? = some s → j < x.nbSlices := by
    intro j s T hT hj
    have a := (List.getElem?_eq_some_iff.mp hj).1
    have := congrArg List.length hT
    rw [List.length_map, List.length_map] at this
    have e := congrArg List.length (Tube.slices_bounds T)
    rw [List.length_map, List.length_map] at e
    rw [Tube.nbSlices]
    omega
  obtain ⟨b2, f2⟩ := backward hCB (fun k _ => hle k) x.nbSlices le_rfl b1 (fun j s hj => f1 j s (hn j s _ b1.same hj) hj)
    (fun j s hj hs' => absurd (hn j s _ b1.same hs') (by omega))
  refine ⟨vl, vu, fun k w hw => hcod k w hw, ?_, ?_⟩
  · simp only [if_true]
    rw [hcongr _ _ (by simp), hcongr _ _ (by simp)]
    exact b2
  · simp only [if_true]
    rw [hcongr _ _ (by simp), hcongr _ _ (by simp)]
    exact f2

theorem tame_of_le {B C : K} {X : Itv K} (h : X ≤ Itv.icc (-C) C) (hC : C < B) : Tame B X := by
  by_cases he : ∃ y, y ∈ X
  · obtain ⟨y, hy⟩ := he
    obtain ⟨l, u, hlu, rfl, h1, h2⟩ := eq_icc_of_le h hy
    rw [Itv.icc_eq_mk hlu]
    constructor
    · intro c hc
      have : some l = some c := hc
      injection this with this
      rw [← this]; linarith
    · intro c hc
      have : some u = some c := hc
      injection this with this
      rw [← this]; linarith
  · cases X with
    | empty => exact ⟨fun a h => (by cases h), fun a h => (by cases h)⟩
    | mk lo hi p =>
      exfalso
      apply he
      cases lo with
      | none =>
        cases hi with
        | none => exact ⟨0, trivial, trivial⟩
        | some u => exact ⟨u, trivial, le_rfl⟩
      | some l =>
        cases hi with
        | none => exact ⟨l, le_rfl, trivial⟩
        | some u => exact ⟨l, le_rfl, p⟩

/-- the trajectories are the same before and after -/
theorem derivTube_sols {B : K} {x v x' : Tube K} (hx : x.WF) (hg : x.GatesInEnvelopes) (hB : InsideB B x)
    (h : derivTube (IArith.exact K) B ⊤ true true x v = some x') (f : K → K) : DerivSol x' v f ↔ DerivSol x v f := by
  obtain ⟨C, hCB, hbd⟩ := hB
  constructor
  · intro hf
    refine ⟨(C18_deriv_contracts_partial ?_ h).2 f hf.1, hf.2⟩
    intro s hs
    exact ⟨tame_of_le (hbd s hs) hCB, tame_of_le ((hg s hs).1.trans (hbd s hs)) hCB, tame_of_le ((hg s hs).2.trans (hbd s hs)) hCB⟩
  · intro hf
    refine ⟨(C18_deriv_sound_partial hx hg h hf.1 hf.2 ?_).2.2, hf.2⟩
    intro t h0 h1
    have key : ∃ s ∈ x.slices, f t ∈ s.cod := by
      rcases lt_or_eq_of_le h1 with h1' | h1'
      · obtain ⟨s, hs, h2, h3⟩ := hx.tiles.exists_slice (g := x.g0) h0 h1'
        refine ⟨s, hs, ?_⟩
        rcases eq_or_lt_of_le h2 with e | h2'
        · rw [← e]; exact Itv.mem_of_le (hg s hs).1 (hf.1 s hs).1
        · exact (hf.1 s hs).2.2 t h2' h3
      · obtain ⟨s, hs, h2, h3⟩ := hx.tiles.exists_slice' (g := x.g0) (t := t) (by rw [h1']; exact hx.lt) h1
        refine ⟨s, hs, ?_⟩
        rcases eq_or_lt_of_le h3 with e | h3'
        · rw [e]; exact Itv.mem_of_le (hg s hs).2 (hf.1 s hs).2.1
        · exact (hf.1 s hs).2.2 t h2 h3'
    obtain ⟨s, hs, hm⟩ := key
    have := Itv.mem_of_le (hbd s hs) hm
    rw [Itv.mem_icc] at this
    constructor <;> linarith [this.1, this.2]

/-- **C121**: after one call, every value of a gate is the value, at this time, of a trajectory of `[x]` with slopes in `[v]`, and every
interval that contains the values of these trajectories over a slice contains its envelope. -/
theorem C121_smallest {B : K} {x v x' : Tube K} (hx : x.WF) (hg : x.GatesInEnvelopes) (hB : InsideB B x) (hv : BoundedV v)
    (h : derivTube (IArith.exact K) B ⊤ true true x v = some x') (hsol : ∃ f, DerivSol x v f) :
    ∀ s ∈ x'.slices,
      (∀ a ∈ s.inG, ∃ f, DerivSol x v f ∧ f s.lb = a) ∧
      (∀ b ∈ s.outG, ∃ f, DerivSol x v f ∧ f s.ub = b) ∧
      ∀ J : Itv K, (∀ f, DerivSol x v f → ∀ t, s.lb ≤ t → t ≤ s.ub → f t ∈ J) → s.cod ≤ J := by
  obtain ⟨f0, hf0⟩ := hsol
  have hB' := hB
  obtain ⟨C, hCB, hbd⟩ := hB'
  obtain ⟨vl, vu, hcod, hb, hall⟩ := derivTube_chain hx hg hCB hbd hv h hf0
  have hs := (derivTube_eq_some h).1
  -- a trajectory of a slice is a part of a solution
  have key : ∀ (k : Nat) s, x'.slices[k]? = some s → ∀ f, Local s (vl k) (vu k) f →
      ∃ F, DerivSol x v F ∧ ∀ t, s.lb ≤ t → t ≤ s.ub → F t = f t := by
    intro k s hk f hf
    obtain ⟨F, e, hF⟩ := whole hb (fun j s hj => (hall j s hj).1) (fun j s hj => (hall j s hj).2.1) hk hf
    refine ⟨F, (derivTube_sols hx hg hB h F).mp ⟨?_, ?_⟩, e⟩
    · intro s' hs'
      obtain ⟨j, hj⟩ := List.mem_iff_getElem?.mp hs'
      exact (hF j s' hj).1
    · intro w hw
      obtain ⟨j, hj⟩ := List.mem_iff_getElem?.mp hw
      obtain ⟨s', hs', e1, e2⟩ := at_v (hs.symm.trans hb.same.symm) hj
      have := (hF j s' hs').2.toIn
      intro m t h0 h1 h2
      rw [hcod j w hj]
      exact this m t (by rw [e1]; exact h0) h1 (by rw [e2]; exact h2)
  intro s hmem
  obtain ⟨k, hk⟩ := List.mem_iff_getElem?.mp hmem
  obtain ⟨a1, a2, a3⟩ := hall k s hk
  have hlt := hb.lt hk
  refine ⟨?_, ?_, ?_⟩
  · intro a ha
    obtain ⟨b, hbm, h1, h2⟩ := a2 a ha
    obtain ⟨f, hf, fa, -⟩ := join hlt (hb.bd s hmem) (hb.gc s hmem).1 (hb.gc s hmem).2 ha hbm h1 h2
    obtain ⟨F, hF, e⟩ := key k s hk f hf
    exact ⟨F, hF, by rw [e _ le_rfl hlt.le, fa]⟩
  · intro b hbm
    obtain ⟨a, ha, h1, h2⟩ := a1 b hbm
    obtain ⟨f, hf, -, fb⟩ := join hlt (hb.bd s hmem) (hb.gc s hmem).1 (hb.gc s hmem).2 ha hbm h1 h2
    obtain ⟨F, hF, e⟩ := key k s hk f hf
    exact ⟨F, hF, by rw [e _ hlt.le le_rfl, fb]⟩
  · intro J hJ
    refine a3 J ?_
    intro f hf t h0 h1
    obtain ⟨F, hF, e⟩ := key k s hk f hf
    rw [← e t h0 h1]
    exact hJ F hF t h0 h1

theorem cells_eq_of_slices {g g' : Itv K} {cs cs' : List (Cell K)} (h : slicesFrom g cs = slicesFrom g' cs') : cs = cs' := by
  induction cs generalizing g g' cs' with
  | nil =>
    cases cs' with
    | nil => rfl
    | cons c cs' => simp at h
  | cons c cs ih =>
    cases cs' with
    | nil => simp at h
    | cons c' cs' =>
      simp only [slicesFrom_cons, List.cons.injEq] at h
      obtain ⟨h1, h2⟩ := h
      injection h1 with e1 e2 e3 e4 e5
      rw [ih h2]
      cases c; cases c'
      simp only at e1 e2 e3 e5
      subst e1 e2 e3 e5
      rfl

/-- **C121**: a second call changes nothing -/
theorem C121_idempotent {B : K} {x v x' : Tube K} (hx : x.WF) (hg : x.GatesInEnvelopes) (hB : InsideB B x) (hv : BoundedV v)
    (h : derivTube (IArith.exact K) B ⊤ true true x v = some x') (hsol : ∃ f, DerivSol x v f) :
    derivTube (IArith.exact K) B ⊤ true true x' v = some x' := by
  obtain ⟨f0, hf0⟩ := hsol
  have hB' := hB
  obtain ⟨C, hCB, hbd⟩ := hB'
  obtain ⟨vl, vu, hcod, hb, hall⟩ := derivTube_chain hx hg hCB hbd hv h hf0
  have hBx : InsideB B x' := ⟨C, hCB, hb.bd⟩
  have hsv := (derivTube_eq_some h).1
  -- the second call is defined
  have htame : ∀ (y : Tube K), y.GatesInEnvelopes → (∀ s ∈ y.slices, s.cod ≤ Itv.icc (-C) C) →
      ∀ s ∈ y.slices, Tame B s.cod ∧ Tame B s.inG ∧ Tame B s.outG := fun y hy hc s hs =>
    ⟨tame_of_le (hc s hs) hCB, tame_of_le ((hy s hs).1.trans (hc s hs)) hCB, tame_of_le ((hy s hs).2.trans (hc s hs)) hCB⟩
  have hbel := (C18_deriv_contracts_partial (htame x hg hbd) h).1
  have hdef : ∃ x'', derivTube (IArith.exact K) B ⊤ true true x' v = some x'' := by
    unfold derivTube at h
    by_cases hc : x.t0 = v.t0 ∧ x.tf = v.tf ∧ x.sameSlicing v = true
    swap
    · rw [if_neg hc] at h; cases h
    unfold derivTube
    rw [if_pos ⟨hbel.t0.trans hc.1, hbel.tf.trans hc.2.1, sameSlicing_iff.mpr (hb.same.trans hsv)⟩]
    exact ⟨_, rfl⟩
  obtain ⟨x'', h2⟩ := hdef
  obtain ⟨_, _, _, hb2, _⟩ := derivTube_chain hb.wf hb.gc hCB hb.bd hv h2 ((derivTube_sols hx hg hB h f0).mpr hf0)
  have hbel2 := (C18_deriv_contracts_partial (htame x' hb.gc hb.bd) h2).1
  have hmin := C121_smallest hx hg hB hv h ⟨f0, hf0⟩
  have hkeep : ∀ f, DerivSol x v f → x''.Encloses f := fun f hf =>
    ((derivTube_sols hb.wf hb.gc hBx h2 f).mpr ((derivTube_sols hx hg hB h f).mpr hf)).1
  have hsl : x''.slices = x'.slices := by
    apply List.ext_getElem?
    intro k
    have hsame : SameB x'' x' := hb2.same
    cases hk : x'.slices[k]? with
    | none =>
      cases hk2 : x''.slices[k]? with
      | none => rfl
      | some s2 =>
        obtain ⟨w, hw, -⟩ := at_v hsame hk2
        rw [hk] at hw; cases hw
    | some s =>
      obtain ⟨s2, hk2, e1, e2⟩ := at_v hsame.symm hk
      rw [hk2]
      obtain ⟨s', hs', hle⟩ := hbel2.at hk2
      rw [hk] at hs'
      injection hs' with hs'
      subst hs'
      have m2 := List.mem_of_getElem? hk2
      obtain ⟨g1, g2, g3⟩ := hmin s (List.mem_of_getElem? hk)
      have c1 : s.inG ≤ s2.inG := by
        rw [Itv.le_iff]; intro a ha
        obtain ⟨f, hf, rfl⟩ := g1 a ha
        rw [← e1]; exact (hkeep f hf s2 m2).1
      have c2 : s.outG ≤ s2.outG := by
        rw [Itv.le_iff]; intro a ha
        obtain ⟨f, hf, rfl⟩ := g2 a ha
        rw [← e2]; exact (hkeep f hf s2 m2).2.1
      have c3 : s.cod ≤ s2.cod := by
        refine g3 s2.cod ?_
        intro f hf t h0 h1
        have hk := hkeep f hf s2 m2
        rcases eq_or_lt_of_le h0 with e | h0'
        · rw [← e, ← e1]; exact Itv.mem_of_le (hb2.gc s2 m2).1 hk.1
        rcases eq_or_lt_of_le h1 with e | h1'
        · rw [e, ← e2]; exact Itv.mem_of_le (hb2.gc s2 m2).2 hk.2.1
        · exact hk.2.2 t (by rw [e1]; exact h0') (by rw [e2]; exact h1')
      have d1 := le_antisymm hle.inG c1
      have d2 := le_antisymm hle.outG c2
      have d3 := le_antisymm hle.cod c3
      cases s2; cases s
      simp only at e1 e2 d1 d2 d3
      subst e1 e2 d1 d2 d3
      rfl
  rw [h2]
  have hcells := cells_eq_of_slices hsl
  have hg0 : x''.g0 = x'.g0 := by
    cases hc : x'.cells with
    | nil => exact absurd hc hb.wf.ne
    | cons c cs =>
      have e := hsl
      unfold Tube.slices at e
      rw [hcells, hc] at e
      simp only [slicesFrom_cons, List.cons.injEq] at e
      injection e.1
  have ht0 := hbel2.t0
  have htf := hbel2.tf
  cases x''; cases x'
  simp only at hcells hg0 ht0 htf
  subst hcells hg0 ht0 htf
  rfl

/-- **C121**: smaller tubes give smaller results -/
theorem C121_monotone {B : K} {x1 v1 x2 v2 y1 y2 : Tube K} (hx1 : x1.WF) (hg1 : x1.GatesInEnvelopes) (hx2 : x2.WF) (hg2 : x2.GatesInEnvelopes)
    (hB : InsideB B x2) (hv1 : BoundedV v1) (hv2 : BoundedV v2) (hx : x1.Below x2) (hv : v1.Below v2)
    (h1 : derivTube (IArith.exact K) B ⊤ true true x1 v1 = some y1) (h2 : derivTube (IArith.exact K) B ⊤ true true x2 v2 = some y2)
    (hsol : ∃ f, DerivSol x1 v1 f) : y1.Below y2 := by
  obtain ⟨f0, hf0⟩ := hsol
  have hsub : ∀ f, DerivSol x1 v1 f → DerivSol x2 v2 f := by
    intro f hf
    refine ⟨hx.encloses hf.1, fun w hw m t k0 k1 k2 => ?_⟩
    obtain ⟨k, hk⟩ := List.mem_iff_getElem?.mp hw
    have hlen := hv.slices.length_eq
    have hk' : k < v1.slices.length := by rw [hlen]; exact (List.getElem?_eq_some_iff.mp hk).1
    obtain ⟨s0, e0, hb⟩ := hv.at (List.getElem?_eq_getElem hk')
    rw [hk] at e0
    injection e0 with e0
    subst e0
    obtain ⟨y, hy, e⟩ := hf.2 _ (List.getElem_mem hk') m t (by rw [hb.lb]; exact k0) k1 (by rw [hb.ub]; exact k2)
    exact ⟨y, Itv.mem_of_le hb.cod hy, e⟩
  have hB1 : InsideB B x1 := by
    obtain ⟨C, hC, hbd⟩ := hB
    refine ⟨C, hC, fun s hs => ?_⟩
    obtain ⟨k, hk⟩ := List.mem_iff_getElem?.mp hs
    obtain ⟨s0, e0, hb⟩ := hx.at hk
    exact hb.cod.trans (hbd s0 (List.mem_of_getElem? e0))
  have hmin := C121_smallest hx1 hg1 hB1 hv1 h1 ⟨f0, hf0⟩
  have hkeep : ∀ f, DerivSol x1 v1 f → y2.Encloses f := fun f hf => ((derivTube_sols hx2 hg2 hB h2 f).mpr (hsub f hf)).1
  obtain ⟨C1, hC1, hbd1⟩ := hB1
  obtain ⟨_, _, _, b1, _⟩ := derivTube_chain hx1 hg1 hC1 hbd1 hv1 h1 hf0
  obtain ⟨C2, hC2, hbd2⟩ := hB
  obtain ⟨_, _, _, b2, _⟩ := derivTube_chain hx2 hg2 hC2 hbd2 hv2 h2 (hsub f0 hf0)
  have htame : ∀ {C : K} (_ : C < B) (y : Tube K), y.GatesInEnvelopes → (∀ s ∈ y.slices, s.cod ≤ Itv.icc (-C) C) →
      ∀ s ∈ y.slices, Tame B s.cod ∧ Tame B s.inG ∧ Tame B s.outG := fun hCB y hy hc s hs =>
    ⟨tame_of_le (hc s hs) hCB, tame_of_le ((hy s hs).1.trans (hc s hs)) hCB, tame_of_le ((hy s hs).2.trans (hc s hs)) hCB⟩
  have e1 := (C18_deriv_contracts_partial (htame hC1 x1 hg1 hbd1) h1).1
  have e2 := (C18_deriv_contracts_partial (htame hC2 x2 hg2 hbd2) h2).1
  have hsx : SameB x1 x2 := by
    have hmap : ∀ {l1 l2 : List (Slice K)}, List.Forall₂ Slice.Below l1 l2 → l1.map (fun s => (s.lb, s.ub)) = l2.map fun s => (s.lb, s.ub) := by
      intro l1 l2 h
      induction h with
      | nil => rfl
      | cons hb _ ih => rw [List.map_cons, List.map_cons, ih, hb.lb, hb.ub]
    have := hmap hx.slices
    rw [Tube.slices_bounds, Tube.slices_bounds] at this
    exact this
  have hsame : SameB y1 y2 := b1.same.trans (hsx.trans b2.same.symm)
  have hlen : y1.slices.length = y2.slices.length := by
    have a := congrArg List.length (Tube.slices_bounds y1)
    have b := congrArg List.length (Tube.slices_bounds y2)
    have c := congrArg List.length hsame
    simp only [List.length_map] at a b c
    omega
  have hall : List.Forall₂ Slice.Below y1.slices y2.slices := by
    rw [List.forall₂_iff_get]
    refine ⟨hlen, fun k k1 k2 => ?_⟩
    simp only [List.get_eq_getElem]
    obtain ⟨s2, hs2, l1, l2⟩ := at_v hsame (List.getElem?_eq_getElem k1)
    rw [List.getElem?_eq_getElem k2] at hs2
    injection hs2 with hs2
    subst hs2
    have m2 := List.getElem_mem k2
    obtain ⟨g1, g2, g3⟩ := hmin _ (List.getElem_mem k1)
    refine ⟨l1.symm, l2.symm, g3 _ fun f hf t t0 t1 => ?_, Itv.le_iff.mpr fun a ha => ?_, Itv.le_iff.mpr fun a ha => ?_⟩
    · have hk := hkeep f hf _ m2
      rcases eq_or_lt_of_le t0 with e | t0'
      · rw [← e, ← l1]; exact Itv.mem_of_le (b2.gc _ m2).1 hk.1
      rcases eq_or_lt_of_le t1 with e | t1'
      · rw [e, ← l2]; exact Itv.mem_of_le (b2.gc _ m2).2 hk.2.1
      · exact hk.2.2 t (by rw [l1]; exact t0') (by rw [l2]; exact t1')
    · obtain ⟨f, hf, rfl⟩ := g1 a ha
      rw [← l1]; exact (hkeep f hf _ m2).1
    · obtain ⟨f, hf, rfl⟩ := g2 a ha
      rw [← l2]; exact (hkeep f hf _ m2).2.1
  refine ⟨e1.t0.trans (hx.t0.trans e2.t0.symm), e1.tf.trans (hx.tf.trans e2.tf.symm), ?_, hall⟩
  cases c1 : y1.cells with
  | nil => exact absurd c1 b1.wf.ne
  | cons a l =>
    cases c2 : y2.cells with
    | nil => exact absurd c2 b2.wf.ne
    | cons b l' =>
      unfold Tube.slices at hall
      rw [c1, c2, slicesFrom_cons, slicesFrom_cons] at hall
      cases hall with
      | cons hb _ => exact hb.inG
end

/-! ### Concrete cases -/

/-- the hypotheses are met by the tubes of C18 (three slices) and the identity; the contraction is effective on them, see C18 -/
example : derivX.WF ∧ derivX.GatesInEnvelopes ∧ InsideB floatMax derivX ∧ BoundedV derivV ∧ (∃ f, DerivSol derivX derivV f) ∧
    (derivTube (IArith.exact ℚ) floatMax ⊤ true true derivX derivV).isSome = true := by
  refine ⟨⟨by simp [derivX], by simp [derivX, Codac.Tiles]; norm_num⟩, ?_, ⟨10, by norm_num [floatMax], ?_⟩, ?_, ⟨fun t => t, ?_, derivV_slope⟩, by decide +kernel⟩
  · intro s hs
    rcases derivX_slices hs with rfl | rfl | rfl <;> decide +kernel
  · intro s hs
    rcases derivX_slices hs with rfl | rfl | rfl <;> decide +kernel
  · intro s hs
    have : s = ⟨0, 1, I (1/2) 1, I (1/2) 1, I (1/2) 1⟩ ∨ s = ⟨1, 2, I (1/2) 3, I (1/2) 1, I 1 1⟩ ∨
        s = ⟨2, 4, I 0 1, I 1 1, I 0 1⟩ := by
      simpa [derivV, Tube.slices, slicesFrom] using hs
    rcases this with rfl | rfl | rfl
    · exact ⟨1/2, 1, by norm_num, rfl⟩
    · exact ⟨1/2, 3, by norm_num, rfl⟩
    · exact ⟨0, 1, by norm_num, rfl⟩
  · intro s hs
    rcases derivX_slices hs with rfl | rfl | rfl <;> refine ⟨by decide +kernel, by decide +kernel, ?_⟩ <;>
      intro t h1 h2 <;> simp at h1 h2 ⊢ <;> constructor <;> linarith

/-- two slices, only the last gate is known -/
def bestX : Tube ℚ := ⟨0, 2, I (-10) 10, [⟨0, 1, I (-10) 10, I (-10) 10⟩, ⟨1, 2, I (-10) 10, I 0 0⟩]⟩
/-- slopes in `[0,1]` -/
def bestV : Tube ℚ := ⟨0, 2, I 0 1, [⟨0, 1, I 0 1, I 0 1⟩, ⟨1, 2, I 0 1, I 0 1⟩]⟩

/-- the hypotheses of the monotonicity are met by `bestX` and a tube strictly below it; both calls are defined and the zero function is a solution -/
example : ∃ x1 : Tube ℚ, x1.Below bestX ∧ x1 ≠ bestX ∧ x1.GatesInEnvelopes ∧ bestV.Below bestV ∧ DerivSol x1 bestV (fun _ => 0) ∧
    (derivTube (IArith.exact ℚ) floatMax ⊤ true true x1 bestV).isSome = true ∧ (derivTube (IArith.exact ℚ) floatMax ⊤ true true bestX bestV).isSome = true := by
  refine ⟨⟨0, 2, I (-5) (1/2), [⟨0, 1, I (-5) 5, I (-5) 5⟩, ⟨1, 2, I (-10) 10, I 0 0⟩]⟩, ⟨rfl, rfl, by decide +kernel, ?_⟩, by decide +kernel, ?_,
    ⟨rfl, rfl, le_rfl, List.forall₂_same.mpr fun s _ => Slice.Below.refl s⟩, ⟨?_, ?_⟩, by decide +kernel, by decide +kernel⟩
  · refine .cons ⟨rfl, rfl, by decide +kernel, by decide +kernel, by decide +kernel⟩ (.cons ⟨rfl, rfl, by decide +kernel, by decide +kernel, by decide +kernel⟩ .nil)
  · intro s hs
    have : s = ⟨0, 1, I (-5) 5, I (-5) (1/2), I (-5) 5⟩ ∨ s = ⟨1, 2, I (-10) 10, I (-5) 5, I 0 0⟩ := by simpa [Tube.slices, slicesFrom] using hs
    rcases this with rfl | rfl <;> decide +kernel
  · intro s hs
    have : s = ⟨0, 1, I (-5) 5, I (-5) (1/2), I (-5) 5⟩ ∨ s = ⟨1, 2, I (-10) 10, I (-5) 5, I 0 0⟩ := by simpa [Tube.slices, slicesFrom] using hs
    rcases this with rfl | rfl <;> refine ⟨by decide +kernel, by decide +kernel, fun t _ _ => ?_⟩ <;> constructor <;> norm_num
  · intro s hs
    have : s = ⟨0, 1, I 0 1, I 0 1, I 0 1⟩ ∨ s = ⟨1, 2, I 0 1, I 0 1, I 0 1⟩ := by simpa [bestV, Tube.slices, slicesFrom] using hs
    rcases this with rfl | rfl <;> intro m t _ _ _ <;> exact ⟨0, by decide +kernel, by ring⟩

/-- The forward pass alone does not give the smallest tube: the value 10 is left in the first gate, but no trajectory goes from there to
the last gate. -/
theorem C121_forward_fails : ∃ (x v x' : Tube ℚ), x.WF ∧ x.GatesInEnvelopes ∧ InsideB floatMax x ∧ BoundedV v ∧ (∃ f, DerivSol x v f) ∧
    derivTube (IArith.exact ℚ) floatMax ⊤ true false x v = some x' ∧ (10 : ℚ) ∈ x'.g0 ∧ ¬ ∃ f, DerivSol x v f ∧ f x.t0 = 10 := by
  have hsl : ∀ s ∈ bestX.slices, s = ⟨0, 1, I (-10) 10, I (-10) 10, I (-10) 10⟩ ∨ s = ⟨1, 2, I (-10) 10, I (-10) 10, I 0 0⟩ := by
    intro s hs; simpa [bestX, Tube.slices, slicesFrom] using hs
  have hvl : ∀ s ∈ bestV.slices, s = ⟨0, 1, I 0 1, I 0 1, I 0 1⟩ ∨ s = ⟨1, 2, I 0 1, I 0 1, I 0 1⟩ := by
    intro s hs; simpa [bestV, Tube.slices, slicesFrom] using hs
  refine ⟨bestX, bestV, (derivTube (IArith.exact ℚ) floatMax ⊤ true false bestX bestV).getD bestX,
    ⟨by simp [bestX], by simp [bestX, Codac.Tiles]⟩, ?_, ⟨10, by norm_num [floatMax], ?_⟩, ?_, ⟨fun _ => 0, ?_, ?_⟩, by decide +kernel,
    by decide +kernel, ?_⟩
  · intro s hs
    rcases hsl s hs with rfl | rfl <;> decide +kernel
  · intro s hs
    rcases hsl s hs with rfl | rfl <;> decide +kernel
  · intro s hs
    rcases hvl s hs with rfl | rfl <;> exact ⟨0, 1, by norm_num, rfl⟩
  · intro s hs
    rcases hsl s hs with rfl | rfl <;> refine ⟨by decide +kernel, by decide +kernel, ?_⟩ <;> intro t h1 h2 <;> simp
  · intro s hs
    rcases hvl s hs with rfl | rfl <;> intro m t _ _ _ <;> exact ⟨0, by decide +kernel, by ring⟩
  · rintro ⟨f, hf, e⟩
    have h2 : f 2 = 0 := by
      have := (hf.1 ⟨1, 2, I (-10) 10, I (-10) 10, I 0 0⟩ (by simp [bestX, Tube.slices, slicesFrom])).2.1
      have h : (0 : ℚ) ≤ f 2 ∧ f 2 ≤ 0 := this
      exact le_antisymm h.2 h.1
    obtain ⟨y1, hy1, e1⟩ := hf.2 ⟨0, 1, I 0 1, I 0 1, I 0 1⟩ (by simp [bestV, Tube.slices, slicesFrom]) 0 1 le_rfl (by norm_num) le_rfl
    obtain ⟨y2, hy2, e2⟩ := hf.2 ⟨1, 2, I 0 1, I 0 1, I 0 1⟩ (by simp [bestV, Tube.slices, slicesFrom]) 1 2 le_rfl (by norm_num) le_rfl
    have h1 : (0 : ℚ) ≤ y1 ∧ y1 ≤ 1 := hy1
    have h3 : (0 : ℚ) ≤ y2 ∧ y2 ≤ 1 := hy2
    have e' : f 0 = 10 := e
    linarith [h1.1, h3.1]

end Codac.Props
