import Verif.Ctc.LohnerSym
import Verif.Ctc.Picard
import Verif.Ctc.Eval
import Verif.Tube.History

/-!
# `CtcLohner`: contraction of the tubes
-/

set_option linter.unusedSectionVars false

namespace Codac.Loh
open Codac Set

section
variable {K : Type*} [LinearOrder K]

theorem slicesFrom_out (g : Itv K) (cs : List (Cell K)) (k : Nat) : ((slicesFrom g cs)[k]?).map Slice.outG = cs[k]?.map Cell.out := by
  induction cs generalizing g k with
  | nil => simp [slicesFrom]
  | cons c cs ih =>
    cases k with
    | zero => simp [slicesFrom]
    | succ k => simp only [slicesFrom, List.getElem?_cons_succ]; exact ih _ _

theorem updFrom_out_after {u : Setter K} {k k' : Nat} (h : k < k') (p : Option (Itv K)) (g : Itv K) (cs : List (Cell K)) :
    ((updFrom u k p g cs).2[k']?).map Cell.out = cs[k']?.map Cell.out := by
  induction cs generalizing k k' p g with
  | nil => cases k <;> rfl
  | cons c cs ih =>
    cases k' with
    | zero => omega
    | succ k' =>
      cases k with
      | zero => simp [updFrom]
      | succ k =>
        simp only [updFrom, List.getElem?_cons_succ]
        exact ih (by omega) _ _

theorem updFrom_in_before {u : Setter K} {k k' : Nat} (h : k' < k) (p : Option (Itv K)) (g : Itv K) (cs : List (Cell K)) :
    ((slicesFrom (updFrom u k p g cs).1 (updFrom u k p g cs).2)[k']?).map Slice.inG = ((slicesFrom g cs)[k']?).map Slice.inG := by
  induction cs generalizing k k' p g with
  | nil => cases k <;> rfl
  | cons c cs ih =>
    cases k with
    | zero => omega
    | succ k =>
      cases k' with
      | zero => simp [updFrom, slicesFrom]
      | succ k' =>
        simp only [updFrom, slicesFrom, List.getElem?_cons_succ]
        exact ih (by omega) _ _

end

section
variable {K : Type*} [Field K] [LinearOrder K] [IsStrictOrderedRing K]

theorem outAt_upd {T : Tube K} {u : Setter K} {k k' : Nat} (h : k < k') : (T.upd k u).outAt k' = T.outAt k' := by
  unfold Tube.outAt
  congr 1
  unfold Tube.slices
  rw [slicesFrom_out, slicesFrom_out]
  exact updFrom_out_after h _ _ _

theorem inAt_upd {T : Tube K} {u : Setter K} {k k' : Nat} (h : k' < k) : (T.upd k u).inAt k' = T.inAt k' := by
  unfold Tube.inAt
  congr 1
  exact updFrom_in_before h _ _ _

end

variable {n : Nat} {P : Lohner n ℝ} {φ : (Fin n → ℝ) → (Fin n → ℝ)}

/-- `x` is a solution of `x' = φ(x)` on `[t0,tf]` -/
def Sol (φ : (Fin n → ℝ) → (Fin n → ℝ)) (x : ℝ → Fin n → ℝ) (t0 tf : ℝ) : Prop :=
  ∀ t ∈ Icc t0 tf, HasDerivWithinAt x (φ (x t)) (Icc t0 tf) t

/-- instant at which the integration of a slice starts -/
def startT (fwd : Bool) (b : ℝ × ℝ) : ℝ := if fwd then b.1 else b.2

/-- instant at which it ends -/
def endT (fwd : Bool) (b : ℝ × ℝ) : ℝ := if fwd then b.2 else b.1

/-- the instant at the distance `s` of the start -/
def along (fwd : Bool) (b : ℝ × ℝ) (s : ℝ) : ℝ := if fwd then b.1 + s else b.2 - s

theorem Sol.flow {x : ℝ → Fin n → ℝ} {t0 tf : ℝ} (h : Sol φ x t0 tf) {b : ℝ × ℝ} (h1 : t0 ≤ b.1) (h2 : b.2 ≤ tf) (fwd : Bool) :
    Flow φ (if fwd then 1 else -1) (b.2 - b.1) (fun s => x (along fwd b s)) := by
  intro s hs
  cases fwd with
  | true =>
    have hm : b.1 + s ∈ Icc t0 tf := ⟨by linarith [hs.1], by linarith [hs.2]⟩
    have k1 : HasDerivWithinAt (fun s => b.1 + s) (1 : ℝ) (Icc 0 (b.2 - b.1)) s := by
      simpa using (hasDerivWithinAt_id s (Icc 0 (b.2 - b.1))).const_add b.1
    have k2 := HasDerivWithinAt.scomp s (h (b.1 + s) hm) k1 (fun t ht => ⟨by linarith [ht.1], by linarith [ht.2]⟩)
    exact k2
  | false =>
    have hm : b.2 - s ∈ Icc t0 tf := ⟨by linarith [hs.2], by linarith [hs.1]⟩
    have k1 : HasDerivWithinAt (fun s => b.2 - s) (-1 : ℝ) (Icc 0 (b.2 - b.1)) s := by
      simpa using (hasDerivWithinAt_id s (Icc 0 (b.2 - b.1))).const_sub b.2
    have k2 := HasDerivWithinAt.scomp s (h (b.2 - s) hm) k1 (fun t ht => ⟨by linarith [ht.2], by linarith [ht.1]⟩)
    exact k2

/-- gate read at the end of the slice `k` -/
noncomputable def gateAt (fwd : Bool) (T : Tube ℝ) (k : Nat) : Itv ℝ := if fwd then T.outAt k else T.inAt k

/-- state of the algorithm for the value `v` of the solution -/
structure Good (a : Alg n ℝ) (v : Fin n → ℝ) : Prop where
  u : InV v a.u
  c : InV a.uh a.u
  par : InPar a v
  inv : AlgInv a

theorem gateAt_mem {bs : List (ℝ × ℝ)} {T : Tube ℝ} {f : ℝ → ℝ} (h : StInv bs T f) {k : Nat} {b : ℝ × ℝ} (hb : bs[k]? = some b) (fwd : Bool) :
    f (endT fwd b) ∈ gateAt fwd T k := by
  obtain ⟨s, hs, e1, e2, -⟩ := h.at hb
  have := h.encl s (List.mem_of_getElem? hs)
  cases fwd with
  | true =>
    simp only [gateAt, endT, if_true, Tube.outAt, hs, Option.map_some, Option.getD_some]
    rw [← e2]
    exact this.2.1
  | false =>
    simp only [gateAt, endT, Bool.false_eq_true, if_false, Tube.inAt, hs, Option.map_some, Option.getD_some]
    rw [← e1]
    exact this.1

theorem gateAt_mem_start {bs : List (ℝ × ℝ)} {T : Tube ℝ} {f : ℝ → ℝ} (h : StInv bs T f) {k : Nat} {b : ℝ × ℝ} (hb : bs[k]? = some b) (fwd : Bool) :
    f (startT fwd b) ∈ gateAt (!fwd) T k := by
  have := gateAt_mem h hb (!fwd)
  cases fwd <;> exact this

theorem step_sound (hP : Faithful P φ) (ht : Tame P) {bs : List (ℝ × ℝ)} {xs : Fin n → Tube ℝ} {x : ℝ → Fin n → ℝ} {t0 tf : ℝ} (hx : Sol φ x t0 tf)
    (hT : ∀ j, StInv bs (xs j) fun t => x t j) {fwd : Bool} {k : Nat} {b : ℝ × ℝ} (hb : bs[k]? = some b) (hlt : b.1 < b.2) (h0 : t0 ≤ b.1) (hf : b.2 ≤ tf)
    {a : Alg n ℝ} (ha : Good a (x (startT fwd b))) {r : (Fin n → Tube ℝ) × Alg n ℝ} (hr : P.step fwd k b xs a = some r) :
    (∀ j, StInv bs (r.1 j) fun t => x t j) ∧ InV (x (endT fwd b)) r.2.u ∧ (∀ i, Bdd (r.2.u i)) ∧
      (n = 1 ∨ (∀ j, gateAt fwd (xs j) k = ⊤) → Good r.2 (x (endT fwd b))) := by
  unfold Lohner.step at hr
  simp only [Option.map_eq_some_iff] at hr
  obtain ⟨a1, ha1, rfl⟩ := hr
  have hfl := hx.flow h0 hf fwd
  have hσ : (if fwd then (1 : ℝ) else -1) * (if fwd then 1 else -1) = 1 := by cases fwd <;> simp
  have e0 : along fwd b 0 = startT fwd b := by cases fwd <;> simp [along, startT]
  have e1 : along fwd b (b.2 - b.1) = endT fwd b := by cases fwd <;> simp [along, endT]
  have hd : 0 < b.2 - b.1 := by linarith
  obtain ⟨s1, s2, s3⟩ := integrate_sound hP hσ hd hfl (by simpa only [e0] using ha.u) ha.c (by simpa only [e0] using ha.par) ha1
  obtain ⟨i1, i2⟩ := integrate_inv hP ht hd hσ hfl (by simpa only [e0] using ha.u) ha.c (by simpa only [e0] using ha.par) ha.inv ha1
  simp only [e1] at s1 s2
  have hout : InV (x (endT fwd b)) (fun j => if fwd then (xs j).outAt k else (xs j).inAt k) := fun j => gateAt_mem (hT j) hb fwd
  obtain ⟨c1, c2⟩ := contractStep_in hP (a := a1) hout s2
  refine ⟨fun j => ?_, c1, (contractStep_inv ht i1 hout s2).u, fun hcond => ⟨c1, c2, ?_, contractStep_inv ht i1 hout s2⟩⟩
  · refine (hT j).setEnv hb fun t htm => Itv.mem_inf.2 ⟨(hT j).codAt hb htm.1 htm.2, ?_⟩
    have : ∃ s ∈ Icc 0 (b.2 - b.1), along fwd b s = t := by
      cases fwd with
      | true => exact ⟨t - b.1, ⟨by linarith [htm.1], by linarith [htm.2]⟩, by simp [along]⟩
      | false => exact ⟨b.2 - t, ⟨by linarith [htm.2], by linarith [htm.1]⟩, by simp [along]⟩
    obtain ⟨s, hs, rfl⟩ := this
    exact s3 s hs j
  · rcases hcond with rfl | hcond
    · exact contractStep_scalar ht i1 i2 hout s2
    · refine contractStep_free ht i1 i2 (fun j => ?_) s1 s2
      have := hcond j
      unfold gateAt at this
      rw [this]
      exact le_top

theorem loop_sound (hP : Faithful P φ) (ht : Tame P) {bs : List (ℝ × ℝ)} {x : ℝ → Fin n → ℝ} {t0 tf : ℝ} (hx : Sol φ x t0 tf) (fwd : Bool)
    (l : List (Nat × (ℝ × ℝ))) {xs : Fin n → Tube ℝ} (hT : ∀ j, StInv bs (xs j) fun t => x t j)
    (hl : ∀ kb ∈ l, bs[kb.1]? = some kb.2 ∧ kb.2.1 < kb.2.2 ∧ t0 ≤ kb.2.1 ∧ kb.2.2 ≤ tf)
    (hch : l.IsChain fun p q => endT fwd p.2 = startT fwd q.2) (hord : l.Pairwise fun p q => if fwd then p.1 < q.1 else q.1 < p.1)
    (hfree : n = 1 ∨ ∀ kb ∈ l.dropLast, ∀ j, gateAt fwd (xs j) kb.1 = ⊤) {a : Alg n ℝ}
    (ha : ∀ kb, l.head? = some kb → Good a (x (startT fwd kb.2))) {r : (Fin n → Tube ℝ) × Alg n ℝ} (hr : P.loop fwd l xs a = some r) :
    (∀ j, StInv bs (r.1 j) fun t => x t j) ∧ (∀ j, (r.1 j).t0 = (xs j).t0 ∧ (r.1 j).tf = (xs j).tf) ∧
      ∀ kb, l.getLast? = some kb → InV (x (endT fwd kb.2)) r.2.u ∧ ∀ i, Bdd (r.2.u i) := by
  induction l generalizing xs a with
  | nil =>
    rw [Lohner.loop] at hr
    obtain rfl := Option.some.inj hr
    exact ⟨hT, fun _ => ⟨rfl, rfl⟩, fun kb h => by cases h⟩
  | cons kb l ih =>
    rw [Lohner.loop, Option.bind_eq_some_iff] at hr
    obtain ⟨r1, hr1, hr⟩ := hr
    obtain ⟨g1, g2, g3, g4⟩ := hl kb (by simp)
    obtain ⟨s1, s2, s2', s3⟩ := step_sound hP ht hx hT g1 g2 g3 g4 (ha kb rfl) hr1
    have hdom : ∀ j, (r1.1 j).t0 = (xs j).t0 ∧ (r1.1 j).tf = (xs j).tf := by
      unfold Lohner.step at hr1
      simp only [Option.map_eq_some_iff] at hr1
      obtain ⟨_, _, rfl⟩ := hr1
      exact fun j => ⟨rfl, rfl⟩
    cases l with
    | nil =>
      rw [Lohner.loop] at hr
      obtain rfl := Option.some.inj hr
      refine ⟨s1, hdom, fun kb' h => ?_⟩
      obtain rfl := Option.some.inj h
      exact ⟨s2, s2'⟩
    | cons kb' l =>
      have hgood := s3 (by
        rcases hfree with h | h
        · exact Or.inl h
        · exact Or.inr (h kb (by simp)))
      have hgate : ∀ q ∈ kb' :: l, ∀ j, gateAt fwd (r1.1 j) q.1 = gateAt fwd (xs j) q.1 := by
        intro q hq j
        have ho := (List.pairwise_cons.1 hord).1 q hq
        unfold Lohner.step at hr1
        simp only [Option.map_eq_some_iff] at hr1
        obtain ⟨_, _, rfl⟩ := hr1
        cases fwd with
        | true => exact outAt_upd ho
        | false => exact inAt_upd ho
      obtain ⟨t1, t2, t3⟩ := ih s1 (fun q hq => hl q (List.mem_cons_of_mem _ hq)) hch.tail (List.pairwise_cons.1 hord).2 (by
        rcases hfree with h | h
        · exact Or.inl h
        · refine Or.inr fun q hq j => ?_
          rw [hgate q (List.mem_of_mem_dropLast hq) j]
          exact h q (by rw [List.dropLast_cons_of_ne_nil (by simp)]; exact List.mem_cons_of_mem _ hq) j) (by
        intro q hq
        obtain rfl := Option.some.inj hq
        rw [← (List.isChain_cons_cons.1 hch).1]
        exact hgood) hr
      refine ⟨t1, fun j => ⟨(t2 j).1.trans (hdom j).1, (t2 j).2.trans (hdom j).2⟩, fun q hq => t3 q ?_⟩
      rwa [List.getLast?_cons_cons] at hq

/-! ### The slices of a tube -/

theorem tiles_chain {a b : ℝ} {cs : List (Cell ℝ)} (h : Tiles a cs b) : cs.IsChain fun c d => c.ub = d.lb := by
  induction cs generalizing a with
  | nil => exact List.IsChain.nil
  | cons c cs ih =>
    cases cs with
    | nil => exact List.IsChain.singleton _
    | cons d cs =>
      obtain ⟨-, -, h3⟩ := h
      exact List.isChain_cons_cons.2 ⟨h3.1.symm, ih h3⟩

theorem tiles_ends {a b : ℝ} {cs : List (Cell ℝ)} (h : Tiles a cs b) : (∀ c, cs.head? = some c → c.lb = a) ∧ ∀ c, cs.getLast? = some c → c.ub = b := by
  induction cs generalizing a with
  | nil => exact ⟨fun c hc => by simp at hc, fun c hc => by simp at hc⟩
  | cons c cs ih =>
    refine ⟨fun d hd => by obtain rfl := Option.some.inj hd; exact h.1, fun d hd => ?_⟩
    cases cs with
    | nil =>
      obtain rfl := Option.some.inj hd
      exact h.2.2
    | cons e cs =>
      rw [List.getLast?_cons_cons] at hd
      exact (ih h.2.2).2 d hd

theorem indices_getElem? (bs : List (ℝ × ℝ)) (i : Nat) : (Lohner.indices bs)[i]? = bs[i]?.map fun b => (i, b) := by
  unfold Lohner.indices
  rw [List.getElem?_map, List.getElem?_zipIdx]
  cases bs[i]? <;> simp

theorem mem_indices {bs : List (ℝ × ℝ)} {kb : Nat × (ℝ × ℝ)} (h : kb ∈ Lohner.indices bs) : bs[kb.1]? = some kb.2 := by
  obtain ⟨i, hi⟩ := List.getElem?_of_mem h
  rw [indices_getElem?, Option.map_eq_some_iff] at hi
  obtain ⟨b, hb, rfl⟩ := hi
  exact hb

theorem indices_length (bs : List (ℝ × ℝ)) : (Lohner.indices bs).length = bs.length := by simp [Lohner.indices]

/-- properties of the list of indices of the slices of a tube -/
theorem indices_spec {bs : List (ℝ × ℝ)} {T : Tube ℝ} {f : ℝ → ℝ} (h : StInv bs T f) :
    (∀ kb ∈ Lohner.indices bs, bs[kb.1]? = some kb.2 ∧ kb.2.1 < kb.2.2 ∧ T.t0 ≤ kb.2.1 ∧ kb.2.2 ≤ T.tf) ∧
    ((Lohner.indices bs).IsChain fun p q => p.2.2 = q.2.1) ∧ ((Lohner.indices bs).Pairwise fun p q => p.1 < q.1) ∧ bs ≠ [] ∧
    (∀ kb, (Lohner.indices bs).head? = some kb → kb.1 = 0 ∧ kb.2.1 = T.t0) ∧
    (∀ kb, (Lohner.indices bs).getLast? = some kb → kb.1 = bs.length - 1 ∧ kb.2.2 = T.tf) := by
  have hbs : bs = T.cells.map (fun c => (c.lb, c.ub)) := h.bounds.symm
  refine ⟨?_, ?_, ?_, ?_, ?_, ?_⟩
  · intro kb hkb
    have hb := mem_indices hkb
    obtain ⟨s, hs, e1, e2, hlt⟩ := h.at hb
    have := h.wf.tiles.mem_bounds (List.mem_of_getElem? hs)
    exact ⟨hb, by rw [← e1, ← e2]; exact hlt, by rw [← e1]; exact this.1, by rw [← e2]; exact this.2.2⟩
  · rw [List.isChain_iff_getElem]
    intro i hi
    have hc := tiles_chain h.wf.tiles
    rw [List.isChain_iff_getElem] at hc
    have hi' : i + 1 < T.cells.length := by rw [indices_length, hbs, List.length_map] at hi; exact hi
    have := hc i hi'
    have e : ∀ j (hj : j < (Lohner.indices bs).length) (hj' : j < T.cells.length), ((Lohner.indices bs)[j]).2 = (T.cells[j].lb, T.cells[j].ub) := by
      intro j hj hj'
      have h1 : (Lohner.indices bs)[j]? = some (Lohner.indices bs)[j] := List.getElem?_eq_getElem hj
      have h3 : bs[j]? = some (T.cells[j].lb, T.cells[j].ub) := by
        rw [hbs, List.getElem?_map, List.getElem?_eq_getElem hj']; rfl
      rw [indices_getElem?, h3] at h1
      rw [← Option.some.inj h1]
    rw [e i (by omega) (by omega), e (i + 1) hi hi']
    exact this
  · rw [List.pairwise_iff_getElem]
    intro i j hi hj hij
    have e : ∀ j (hj : j < (Lohner.indices bs).length), ((Lohner.indices bs)[j]).1 = j := by
      intro j hj
      have h1 : (Lohner.indices bs)[j]? = some (Lohner.indices bs)[j] := List.getElem?_eq_getElem hj
      rw [indices_getElem?, Option.map_eq_some_iff] at h1
      obtain ⟨b, -, h2⟩ := h1
      rw [← h2]
    rw [e i hi, e j hj]
    exact hij
  · intro e
    rw [hbs, List.map_eq_nil_iff] at e
    exact h.wf.ne e
  · intro kb hkb
    rw [List.head?_eq_getElem?, indices_getElem?, hbs, List.getElem?_map, Option.map_map, Option.map_eq_some_iff] at hkb
    obtain ⟨c, hc, rfl⟩ := hkb
    exact ⟨rfl, (tiles_ends h.wf.tiles).1 c (by rw [List.head?_eq_getElem?]; exact hc)⟩
  · intro kb hkb
    rw [List.getLast?_eq_getElem?, indices_length, indices_getElem?, Option.map_eq_some_iff] at hkb
    obtain ⟨b, hb, rfl⟩ := hkb
    refine ⟨rfl, ?_⟩
    rw [hbs, List.getElem?_map, Option.map_eq_some_iff, List.length_map] at hb
    obtain ⟨c, hc, rfl⟩ := hb
    exact (tiles_ends h.wf.tiles).2 c (by rw [List.getLast?_eq_getElem?]; exact hc)

theorem bdd_of_le {I : Itv ℝ} {a b x : ℝ} (hx : x ∈ I) (h : ∀ w ∈ I, w ∈ Itv.icc a b) : Bdd I := by
  have e : I = I ⊓ Itv.icc a b := (inf_eq_left.2 (Itv.le_iff.2 h)).symm
  rw [e]
  exact Bdd.inf ⟨a, b, le_trans (Itv.mem_icc.1 (h x hx)).1 (Itv.mem_icc.1 (h x hx)).2, rfl⟩ (Itv.mem_inf.2 ⟨hx, h x hx⟩)

theorem init_good (hP : Faithful P φ) (ht : Tame P) {u0 : IV n ℝ} (hb : ∀ i, Bdd (u0 i)) {v : Fin n → ℝ} (hv : InV v u0) : Good (P.init u0) v := by
  refine ⟨hv, fun i => hP.mid_mem _ _ (hv i), ⟨fun i => v i - P.mid (u0 i), fun i => Itv.mem_sub (hv i) (Itv.mem_point.2 rfl), ?_⟩,
    ⟨fun i => ht.subMid (hb i), hb, by simp [Lohner.init]⟩⟩
  simp only [Lohner.init, Matrix.one_mulVec]
  funext i
  simp

theorem setAt_stInv {bs : List (ℝ × ℝ)} {T : Tube ℝ} {f : ℝ → ℝ} (h : StInv bs T f) {t : ℝ} (htt : t = T.t0 ∨ t = T.tf) {y : Itv ℝ} (hy : f t ∈ y) :
    StInv bs (T.setAt y t) f := by
  have hlt := h.wf.lt.le
  have h1 : T.t0 ≤ t := by rcases htt with rfl | rfl; exacts [le_rfl, hlt]
  have h2 : t ≤ T.tf := by rcases htt with rfl | rfl; exacts [hlt, le_rfl]
  refine ⟨sampleGate_wf h.wf h1 h2 y, sampleGate_gc h.gc t y, setAt_encloses h.wf h.gc h1 h2 h.encl hy, ?_⟩
  rw [Tube.setAt, sampleGate_bounds, Tube.sample, sampleCells_eq_self h.wf.tiles ?_]
  · exact h.bounds
  · rcases htt with rfl | rfl
    · exact Or.inl rfl
    · right
      obtain ⟨c, hc⟩ : ∃ c, T.cells.getLast? = some c := by
        cases hg : T.cells.getLast? with
        | none => exact absurd (List.getLast?_eq_none_iff.1 hg) h.wf.ne
        | some c => exact ⟨c, rfl⟩
      rw [List.mem_map]
      exact ⟨c, List.mem_of_getLast? hc, (tiles_ends h.wf.tiles).2 c hc⟩

/-- the last gate after `set(y, tf)` is bounded when `y` is -/
theorem setAt_outAt {bs : List (ℝ × ℝ)} {T : Tube ℝ} {f : ℝ → ℝ} (h : StInv bs T f) {y : Itv ℝ} (hb : Bdd y) (hy : f T.tf ∈ y) :
    Bdd ((T.setAt y T.tf).outAt (bs.length - 1)) := by
  have h' := setAt_stInv h (Or.inr rfl) hy
  obtain ⟨-, -, -, q4, -, q6⟩ := indices_spec h'
  have hdom := sampleGate_dom T T.tf y
  have hlen : bs.length - 1 < bs.length := Nat.sub_lt (List.length_pos_iff.2 q4) one_pos
  obtain ⟨b, hbk⟩ : ∃ b, bs[bs.length - 1]? = some b := ⟨_, List.getElem?_eq_getElem hlen⟩
  have hlast : (Lohner.indices bs).getLast? = some (bs.length - 1, b) := by
    rw [List.getLast?_eq_getElem?, indices_length, indices_getElem?, hbk]; rfl
  have hbtf : b.2 = T.tf := (q6 _ hlast).2.trans hdom.2
  obtain ⟨s, hs, e1, e2, hlt⟩ := h'.at hbk
  have hout : (T.setAt y T.tf).outAt (bs.length - 1) = s.outG := by simp [Tube.outAt, hs]
  have hmem : f T.tf ∈ s.outG := by
    have := (h'.encl s (List.mem_of_getElem? hs)).2.1
    rwa [e2, hbtf] at this
  rw [hout]
  obtain ⟨a, c, hac, rfl⟩ := hb
  refine bdd_of_le (a := a) (b := c) hmem fun w hw => ?_
  have hE : (T.setAt (Itv.icc a c) T.tf).Encloses (Function.update f T.tf w) := by
    intro s' hs'
    have hk := h'.encl s' hs'
    have hg := h'.gc s' hs'
    obtain ⟨i, hi⟩ := List.getElem?_of_mem hs'
    have hbi : bs[i]? = some (s'.lb, s'.ub) := by
      rw [← h'.bounds, ← Tube.slices_bounds, List.getElem?_map, hi]; rfl
    have hil : i < bs.length := (List.getElem?_eq_some_iff.1 hbi).1
    have hmb := h'.wf.tiles.mem_bounds hs'
    rw [show (T.setAt (Itv.icc a c) T.tf).tf = T.tf from hdom.2] at hmb
    have hend : s'.ub = T.tf → s' = s := by
      intro e
      have : i = bs.length - 1 := by
        by_contra hne
        have hi1 : i + 1 < bs.length := by omega
        obtain ⟨s2, hs2, f1, f2, f3⟩ := h'.at (List.getElem?_eq_getElem hi1)
        have hch := (indices_spec h').2.1
        rw [List.isChain_iff_getElem] at hch
        have := hch i (by rw [indices_length]; exact hi1)
        have ee : ∀ j (hj : j < (Lohner.indices bs).length) (hj' : j < bs.length), ((Lohner.indices bs)[j]).2 = bs[j] := by
          intro j hj hj'
          have h1 : (Lohner.indices bs)[j]? = some (Lohner.indices bs)[j] := List.getElem?_eq_getElem hj
          rw [indices_getElem?, List.getElem?_eq_getElem hj'] at h1
          rw [← Option.some.inj h1]
        rw [ee i (by rw [indices_length]; omega) hil, ee (i + 1) (by rw [indices_length]; exact hi1) hi1, ← f1] at this
        have e3 : bs[i] = (s'.lb, s'.ub) := (List.getElem?_eq_some_iff.1 hbi).2
        rw [e3] at this
        have hmb2 := h'.wf.tiles.mem_bounds (List.mem_of_getElem? hs2)
        rw [show (T.setAt (Itv.icc a c) T.tf).tf = T.tf from hdom.2] at hmb2
        simp only at this
        linarith [hmb2.2.2]
      rw [this, hs] at hi
      exact (Option.some.inj hi).symm
    refine ⟨?_, ?_, fun t h1 h2 => ?_⟩
    · rw [Function.update_of_ne (ne_of_lt (by linarith [hmb.2.1, hmb.2.2]) : s'.lb ≠ T.tf)]
      exact hk.1
    · by_cases e : s'.ub = T.tf
      · rw [e, Function.update_self, hend e]
        exact hw
      · rw [Function.update_of_ne e]
        exact hk.2.1
    · rw [Function.update_of_ne (ne_of_lt (by linarith [hmb.2.1, hmb.2.2]) : t ≠ T.tf)]
      exact hk.2.2 t h1 h2
  have := ((sampleGate_encloses h.wf h.wf.lt.le le_rfl).1 hE).1
  simpa using this

/-- one direction; in dimension 1, or with gates that are not used but the last one -/
theorem oneWay_sound (hP : Faithful P φ) (ht : Tame P) {bs : List (ℝ × ℝ)} {xs ys : Fin n → Tube ℝ} {x : ℝ → Fin n → ℝ} {t0 tf : ℝ} (hn : 0 < n)
    (hd : ∀ j, (xs j).t0 = t0 ∧ (xs j).tf = tf) (hx : Sol φ x t0 tf)
    (hT : ∀ j, StInv bs (xs j) fun t => x t j) {fwd : Bool} (hb : ∀ j, Bdd (if fwd then (xs j).inAt 0 else (xs j).outAt (bs.length - 1)))
    (hfree : n = 1 ∨ ∀ k, (if fwd then k + 1 < bs.length else 0 < k ∧ k < bs.length) → ∀ j, gateAt fwd (xs j) k = ⊤)
    (hy : P.oneWay fwd bs xs = some ys) :
    (∀ j, StInv bs (ys j) fun t => x t j) ∧ (∀ j, (ys j).t0 = t0 ∧ (ys j).tf = tf) ∧
      (fwd = true → ∀ j, Bdd ((ys j).outAt (bs.length - 1))) := by
  unfold Lohner.oneWay at hy
  simp only [Option.map_eq_some_iff] at hy
  obtain ⟨r, hr, rfl⟩ := hy
  let j0 : Fin n := ⟨0, hn⟩
  obtain ⟨q1, q2, q3, q4, q5, q6⟩ := indices_spec (hT j0)
  rw [(hd j0).1, (hd j0).2] at q1
  rw [(hd j0).1] at q5
  rw [(hd j0).2] at q6
  have hne : Lohner.indices bs ≠ [] := by
    intro e
    have := congrArg List.length e
    rw [indices_length] at this
    exact q4 (List.length_eq_zero_iff.1 this)
  have hlenpos : 0 < bs.length := List.length_pos_iff.2 q4
  cases fwd with
  | true =>
    have hmain := loop_sound hP ht hx true (Lohner.indices bs) hT q1 q2 q3 (by
      rcases hfree with h | h
      · exact Or.inl h
      · refine Or.inr fun kb hkb j => h kb.1 ?_ j
        obtain ⟨i, hi⟩ := List.getElem?_of_mem hkb
        rw [List.getElem?_dropLast] at hi
        split_ifs at hi with hlt
        rw [indices_getElem?, Option.map_eq_some_iff] at hi
        obtain ⟨b, -, rfl⟩ := hi
        rw [indices_length] at hlt
        simp only [if_true]
        omega) (by
      intro kb hkb
      obtain ⟨e1, e2⟩ := q5 kb hkb
      refine init_good hP ht hb fun j => ?_
      have := gateAt_mem_start (hT j) (q1 kb (List.mem_of_head? hkb)).1 true
      rw [e1] at this
      exact this) hr
    obtain ⟨m1, m2, m3⟩ := hmain
    obtain ⟨kb, hkb⟩ : ∃ kb, (Lohner.indices bs).getLast? = some kb := by
      cases hg : (Lohner.indices bs).getLast? with
      | none => exact absurd (List.getLast?_eq_none_iff.1 hg) hne
      | some c => exact ⟨c, rfl⟩
    obtain ⟨hend, hbd⟩ := m3 kb hkb
    have etf : endT true kb.2 = tf := (q6 kb hkb).2
    rw [etf] at hend
    have hd' : ∀ j, (r.1 j).t0 = t0 ∧ (r.1 j).tf = tf := fun j => ⟨(m2 j).1.trans (hd j).1, (m2 j).2.trans (hd j).2⟩
    refine ⟨fun j => setAt_stInv (m1 j) (Or.inr rfl) ?_, fun j => ?_, fun _ j => setAt_outAt (m1 j) (hbd j) ?_⟩
    · rw [(hd' j).2]
      exact hend j
    · have := sampleGate_dom (r.1 j) (if true then (r.1 j).tf else (r.1 j).t0) (r.2.u j)
      exact ⟨this.1.trans (hd' j).1, this.2.trans (hd' j).2⟩
    · rw [(hd' j).2]
      exact hend j
  | false =>
    have hmain := loop_sound hP ht hx false (Lohner.indices bs).reverse hT (fun kb hkb => q1 kb (List.mem_reverse.1 hkb))
      (List.isChain_reverse.2 (q2.imp fun a b h => h.symm)) (List.pairwise_reverse.2 q3) (by
      rcases hfree with h | h
      · exact Or.inl h
      · refine Or.inr fun kb hkb j => h kb.1 ?_ j
        have hlt : kb.1 < bs.length := by
          have := (q1 kb (List.mem_reverse.1 (List.mem_of_mem_dropLast hkb))).1
          exact (List.getElem?_eq_some_iff.1 this).1
        have hpos : 0 < kb.1 := by
          rw [List.dropLast_reverse] at hkb
          have hkb := List.mem_reverse.1 hkb
          obtain ⟨i, hi⟩ := List.getElem?_of_mem hkb
          rw [List.getElem?_tail, indices_getElem?, Option.map_eq_some_iff] at hi
          obtain ⟨b, -, rfl⟩ := hi
          simp
        exact ⟨hpos, hlt⟩) (by
      intro kb hkb
      rw [List.head?_reverse] at hkb
      obtain ⟨e1, e2⟩ := q6 kb hkb
      refine init_good hP ht hb fun j => ?_
      have := gateAt_mem_start (hT j) (q1 kb (List.mem_of_getLast? hkb)).1 false
      rw [e1] at this
      exact this) hr
    obtain ⟨m1, m2, m3⟩ := hmain
    obtain ⟨kb, hkb⟩ : ∃ kb, (Lohner.indices bs).head? = some kb := by
      cases hg : (Lohner.indices bs).head? with
      | none => exact absurd (List.head?_eq_none_iff.1 hg) hne
      | some c => exact ⟨c, rfl⟩
    obtain ⟨hend, hbd⟩ := m3 kb (by rw [List.getLast?_reverse]; exact hkb)
    have etf : endT false kb.2 = t0 := (q5 kb hkb).2
    rw [etf] at hend
    have hd' : ∀ j, (r.1 j).t0 = t0 ∧ (r.1 j).tf = tf := fun j => ⟨(m2 j).1.trans (hd j).1, (m2 j).2.trans (hd j).2⟩
    refine ⟨fun j => setAt_stInv (m1 j) (Or.inl rfl) ?_, fun j => ?_, fun h => by cases h⟩
    · rw [(hd' j).1]
      exact hend j
    · have := sampleGate_dom (r.1 j) (if false then (r.1 j).tf else (r.1 j).t0) (r.2.u j)
      exact ⟨this.1.trans (hd' j).1, this.2.trans (hd' j).2⟩

end Codac.Loh
