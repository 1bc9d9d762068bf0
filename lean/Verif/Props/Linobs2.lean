import Verif.C2.Linobs
import Verif.Props.Linobs
import Verif.Props.TDomain

/-!
# C118: `CtcLinobs` of codac2 keeps the solutions of linear systems in tubes of polygons
-/

set_option linter.unusedSectionVars false

namespace Codac.Props
open Codac Codac.Lin Codac.Poly Codac.Graham Codac.Lin2

variable {ι : Type*} [DecidableEq ι]

/-- the trajectory goes through the slices and the gates of a tube of polygons -/
def InPolyTube (l : List (PS ℝ)) (x : ℝ → Pt ℝ) : Prop := ∀ s ∈ l, ∀ t, s.lb ≤ t → t ≤ s.ub → x t ∈ Hull s.poly

/-- the polygons are convex: their vertices turn in one direction, without repetition -/
def ConvexTube (l : List (PS ℝ)) : Prop := ∀ s ∈ l, (∃ σ : ℝ, σ ≠ 0 ∧ Turns σ s.poly) ∧ s.poly.Nodup

/-- a solution of `x' = A x + b v` in the tubes: `l` is the tube of the polygons of `x`, the tube `k` of the temporal domain `u` is the domain of `v`. Slices
are no longer than `w`. -/
structure Lin2Solution (A : Mat ℝ) (b : Pt ℝ) (w : ℝ) (k : ι) (u : List (C2.TS ℝ ι ℝ)) (l : List (PS ℝ)) (x : ℝ → Pt ℝ) (v : ℝ → ℝ) : Prop where
  convex : ConvexTube l
  inX : InPolyTube l x
  inU : InTube u k v
  ode : ∀ s ∈ u, s.lb < s.ub → Solves A b (s.lb, s.ub) x v
  short : ∀ s ∈ u, s.ub - s.lb ≤ w

/-- at each end of a slice there is a gate; each slice has one before -/
def GatesDefined (l : List (ℝ × ℝ)) : Prop := ∀ (i : Nat) (s : ℝ × ℝ), l[i]? = some s → (s.1 = s.2 ↔ i % 2 = 0)

variable {A : Mat ℝ} {E F : ℝ → Mat ℝ} {b : Pt ℝ} {eps eps' w t0 tf : ℝ} {edges : Nat} {fwd bwd env : Bool} {k : ι} {u : List (C2.TS ℝ ι ℝ)} {l : List (PS ℝ)} {x : ℝ → Pt ℝ}
  {v : ℝ → ℝ}

theorem lin2_inv (h : Lin2Solution A b w k u l x v) : Inv x l := fun s hs t h1 h2 => ⟨(h.convex s hs).1, (h.convex s hs).2, h.inX s hs t h1 h2⟩

theorem chain_facts : ∀ {u : List (C2.TS ℝ ι ℝ)} {a : ℝ}, C2.Chain a u tf → (∀ s ∈ u, s.lb ≤ s.ub) ∧
    ∀ (i : Nat) (s r : C2.TS ℝ ι ℝ), u[i]? = some s → u[i + 1]? = some r → s.ub = r.lb
  | [], _, _ => by simp
  | [s], _, h => by
    refine ⟨fun r hr => ?_, fun i r q _ hq => by simp at hq⟩
    rw [List.mem_singleton] at hr
    subst hr; exact h.2.1
  | s :: r :: u, a, h => by
    obtain ⟨h1, h2, h3⟩ := h
    obtain ⟨k1, k2⟩ := chain_facts h3
    refine ⟨fun q hq => ?_, fun i q p hq hp => ?_⟩
    · rcases List.mem_cons.1 hq with rfl | hq
      · exact h2
      · exact k1 q hq
    · cases i with
      | zero => cases hq; cases hp; exact h3.1.symm
      | succ i => exact k2 i q p hq hp

theorem same_get (hsame : l.map (fun s => (s.lb, s.ub)) = u.map fun s => (s.lb, s.ub)) {i : Nat} {s : PS ℝ} (hs : l[i]? = some s) :
    ∃ r, u[i]? = some r ∧ r.lb = s.lb ∧ r.ub = s.ub := by
  have := congrArg (fun m => m[i]?) hsame
  simp only [List.getElem?_map, hs, Option.map_some] at this
  obtain ⟨r, h1, h2⟩ := Option.map_eq_some_iff.1 this.symm
  exact ⟨r, h1, (Prod.mk.inj h2).1, (Prod.mk.inj h2).2⟩

theorem lin2_adj (hc : C2.Chain t0 u tf) (hsame : l.map (fun s => (s.lb, s.ub)) = u.map fun s => (s.lb, s.ub)) : Adj l ∧ Ord l := by
  obtain ⟨h1, h2⟩ := chain_facts hc
  refine ⟨fun i s r hs hr => ?_, fun s hs => ?_⟩
  · obtain ⟨s', k1, _, k3⟩ := same_get hsame hs
    obtain ⟨r', k4, k5, _⟩ := same_get hsame hr
    rw [← k3, ← k5]; exact h2 i s' r' k1 k4
  · obtain ⟨i, hi⟩ := List.mem_iff_getElem?.1 hs
    obtain ⟨r, k1, k2, k3⟩ := same_get hsame hi
    rw [← k2, ← k3]; exact h1 r (List.mem_of_getElem? k1)

theorem lin2_flow (hE : IsExp A E) (hF : IsExp ((-A.1.1, -A.1.2), (-A.2.1, -A.2.2)) F) (hEw : HullExp E w) (hFw : HullExp F w) (hc : C2.Chain t0 u tf)
    (hsame : l.map (fun s => (s.lb, s.ub)) = u.map fun s => (s.lb, s.ub)) (h : Lin2Solution A b w k u l x v) (mk : List (TPt ℝ) → Option (List (Pt ℝ))) :
    ∀ (i : Nat) (s : PS ℝ) (su : C2.TS ℝ ι ℝ), l[i]? = some s → ¬ s.IsGate → u[i]? = some su → Flow ⟨mk, eps, E, F, b, edges⟩ (su.val k) (s.lb, s.ub) x ∧ ¬ C2.SliceEmpty k u i := by
  intro i s su hs hg hsu
  have hsm := List.mem_of_getElem? hsu
  obtain ⟨r, hr, e1, e2⟩ := same_get hsame hs
  obtain rfl : r = su := Option.some.inj (hr.symm.trans hsu)
  have hlt : r.lb < r.ub := lt_of_le_of_ne ((chain_facts hc).1 r hsm) (by unfold PS.IsGate at hg; rw [e1, e2]; exact hg)
  refine ⟨?_, fun he => C2.not_encl_of_empty hc he v fun s hs => h.inU s hs⟩
  rw [← e1, ← e2]
  exact flow_of_solves (P := ⟨mk, eps, E, F, b, edges⟩) hE hF hEw hFw (h.short r hsm) hlt (h.ode r hsm hlt) fun t h1 h2 => h.inU r hsm t h1.le h2.le

/-- **C118**: whatever the directions, with or without the computation of the envelopes, the contractor keeps the temporal domain and the solutions. Missing
(false, see below and C87): slices on which an entry of the exponential leaves the interval between its first and last values; runs in which a
thick point smaller than the threshold `eps'` but not reduced to a point is given to the constructor of polygons (`mkChecked` stops there,
otherwise it is the constructor of the code). -/
theorem C118_keeps_partial (hE : IsExp A E) (hF : IsExp ((-A.1.1, -A.1.2), (-A.2.1, -A.2.2)) F) (hEw : HullExp E w) (hFw : HullExp F w) (he : 0 < eps) (hn : 3 ≤ edges)
    (hc : C2.Chain t0 u tf) (hs : Lin2Solution A b w k u l x v) {l' : List (PS ℝ)} (h : Lin2.contract ⟨mkChecked eps', eps, E, F, b, edges⟩ k u fwd bwd env l = some l') :
    Lin2.contract ⟨ofThick eps', eps, E, F, b, edges⟩ k u fwd bwd env l = some l' ∧ l'.map (fun s => (s.lb, s.ub)) = l.map (fun s => (s.lb, s.ub)) ∧ ConvexTube l' ∧ InPolyTube l' x := by
  have hsame : l.map (fun s => (s.lb, s.ub)) = u.map fun s => (s.lb, s.ub) := by
    unfold Lin2.contract at h
    split at h
    · rename_i hh; exact hh.1
    · cases h
  obtain ⟨ha, ho⟩ := lin2_adj hc hsame
  obtain ⟨h1, h2⟩ := contract_inv (P := ⟨mkChecked eps', eps, E, F, b, edges⟩) ⟨mkChecked_sound eps', he, hn⟩ (lin2_inv hs) ha ho (lin2_flow hE hF hEw hFw hc hsame hs _) h
  have ho' := SameB.ord h2 ho
  exact ⟨contract_mono (P := ⟨mkChecked eps', eps, E, F, b, edges⟩) (fun l r hr => mkChecked_le hr) h, h2,
    fun s hs => ⟨(h1 s hs _ le_rfl (ho' s hs)).1, (h1 s hs _ le_rfl (ho' s hs)).2.1⟩, fun s hs t t1 t2 => (h1 s hs t t1 t2).2.2⟩

/-- what `all_gates_defined` tests, when the first element is a gate: gates and slices alternate -/
theorem C118_gates {l : List (ℝ × ℝ)} {s : ℝ × ℝ} (h0 : s.1 = s.2) (hl : l ≠ []) (hlt : s.1 < ((s :: l).getLast (by simp)).2) : allGatesDefined (s :: l) = true ↔ GatesDefined (s :: l) := by
  unfold allGatesDefined
  dsimp only
  rw [decide_eq_false hlt.ne, Bool.false_or, decide_eq_true hl, Bool.true_and, gatesLoop_iff]
  constructor
  · intro h i r hr
    cases i with
    | zero => cases hr; simp [h0]
    | succ i => rw [h i r hr]; omega
  · intro h i r hr
    rw [h (i + 1) r hr]; omega

/-- **C118**: with gates, bounded inputs, for a threshold of thick points that is small enough (it depends on the domains), the contractor ends with a result,
always the same, that keeps the solutions: no assertion fails and no null pointer is used. -/
theorem C118_total_partial (hE : IsExp A E) (hF : IsExp ((-A.1.1, -A.1.2), (-A.2.1, -A.2.2)) F) (hEw : HullExp E w) (hFw : HullExp F w) (he : 0 < eps) (hn : 3 ≤ edges)
    (hc : C2.Chain t0 u tf) (hs : Lin2Solution A b w k u l x v) (hsame : l.map (fun s => (s.lb, s.ub)) = u.map fun s => (s.lb, s.ub)) (hl : 2 ≤ l.length)
    (hg : GatesDefined (l.map fun s => (s.lb, s.ub))) (hB : ∀ s ∈ u, (s.val k).bounds?.isSome) :
    ∃ l' e0, 0 < e0 ∧ ConvexTube l' ∧ InPolyTube l' x ∧ ∀ e, 0 < e → e ≤ e0 → Lin2.contract ⟨ofThick e, eps, E, F, b, edges⟩ k u fwd bwd env l = some l' := by
  obtain ⟨ha, ho⟩ := lin2_adj hc hsame
  have hgate : ∀ (i : Nat) (s : PS ℝ), l[i]? = some s → (s.IsGate ↔ i % 2 = 0) := fun i s hs => hg i (s.lb, s.ub) (by rw [List.getElem?_map, hs]; rfl)
  have hG : Gated l := by
    intro i s hs hns
    have hodd : i % 2 ≠ 0 := fun h => hns ((hgate i s hs).2 h)
    have hi := (List.getElem?_eq_some_iff.1 hs).1
    have hp : l[i - 1]? = some l[i - 1] := List.getElem?_eq_getElem (by omega)
    refine ⟨⟨l[i - 1], ?_, (hgate _ _ hp).2 (by omega)⟩, fun r hr => (hgate _ _ hr).2 (by omega)⟩
    unfold prevOf
    rw [if_neg (by rintro rfl; exact hodd rfl)]
    exact hp
  have hall : allGatesDefined (l.map fun s => (s.lb, s.ub)) = true := by
    match l, hl, hg with
    | s :: r :: l, _, hg =>
      have h0 : s.lb = s.ub := (hg 0 (s.lb, s.ub) rfl).2 rfl
      unfold allGatesDefined
      simp only [List.map_cons]
      rw [Bool.or_eq_true]
      right
      rw [decide_eq_true (by simp), Bool.true_and, gatesLoop_iff]
      intro i q hq
      rw [hg (i + 1) q hq]; omega
  obtain ⟨l', e0, h0, h⟩ := contract_ev (P := ⟨mkChecked 1, eps, E, F, b, edges⟩) (fwd := fwd) (bwd := bwd) (env := env) (fun e _ => ⟨mkChecked_sound e, he, hn⟩) (lin2_inv hs) ha ho hG
    (lin2_flow hE hF hEw hFw hc hsame hs _) hB hsame hall
  obtain ⟨-, -, h3, h4⟩ := C118_keeps_partial hE hF hEw hFw he hn hc hs (h e0 h0 le_rfl)
  exact ⟨l', e0, h0, h3, h4, fun e he1 hle => (C118_keeps_partial hE hF hEw hFw he hn hc hs (h e he1 hle)).1⟩

/-! ### A concrete case: `v = 1`, `x(t) = (t²/2, t)` over `[0,1]`, from `(0,0)` -/

noncomputable def lin2X : List (PS ℝ) := [⟨0, 0, [(0, 0)]⟩, ⟨0, 1, ofBox (-10) 10 (-10) 10⟩, ⟨1, 1, ofBox (-10) 10 (-10) 10⟩]

noncomputable def lin2U : List (C2.TS ℝ Unit ℝ) := [⟨0, 0, fun _ => .point 1⟩, ⟨0, 1, fun _ => .point 1⟩, ⟨1, 1, fun _ => .point 1⟩]

theorem lin2_ex : Lin2Solution ((0, 1), (0, 0)) (0, 1) 1 () lin2U lin2X (fun t => (t ^ 2 / 2, t)) fun _ => 1 where
  convex s hs := by
    have hb := convexHullPts_poly (K := ℝ) [(-10, -10), (10, -10), (10, 10), (-10, 10)]
    simp only [lin2X, List.mem_cons, List.not_mem_nil, or_false] at hs
    rcases hs with rfl | rfl | rfl
    · exact ⟨turns_small (by simp), by simp⟩
    · exact ⟨hb.1, hb.2.1⟩
    · exact ⟨hb.1, hb.2.1⟩
  inX s hs t h0 h1 := by
    simp only [lin2X, List.mem_cons, List.not_mem_nil, or_false] at hs
    rcases hs with rfl | rfl | rfl
    · have : t = 0 := le_antisymm h1 h0
      subst this
      exact Hull.mem (by simp)
    · dsimp only at h0 h1
      exact (ofBox_spec (by norm_num) (by norm_num)).2 ⟨⟨by dsimp only; nlinarith, by dsimp only; nlinarith⟩, by dsimp only; linarith, by dsimp only; linarith⟩
    · have : t = 1 := le_antisymm h1 h0
      subst this
      exact (ofBox_spec (by norm_num) (by norm_num)).2 (by norm_num)
  inU s hs t _ _ := by
    simp only [lin2U, List.mem_cons, List.not_mem_nil, or_false] at hs
    rcases hs with rfl | rfl | rfl <;> exact Itv.mem_point.2 rfl
  ode s _ _ := ⟨by dsimp only; fun_prop, by dsimp only; fun_prop,
    fun t _ _ => by
      have := (hasDerivAt_pow 2 t).div_const 2
      simpa using this,
    fun t _ _ => by simpa using hasDerivAt_id' t⟩
  short s hs := by
    simp only [lin2U, List.mem_cons, List.not_mem_nil, or_false] at hs
    rcases hs with rfl | rfl | rfl <;> norm_num

/-- the hypotheses are met, in both directions and with the envelopes -/
example : ∃ l' e0, 0 < e0 ∧ ConvexTube l' ∧ InPolyTube l' (fun t => (t ^ 2 / 2, t)) ∧ ∀ e, 0 < e → e ≤ e0 →
    Lin2.contract ⟨ofThick e, 1 / 10 ^ 10, fun t => ((1, t), (0, 1)), fun t => ((1, -t), (0, 1)), (0, 1), 15⟩ () lin2U true true true lin2X = some l' :=
  C118_total_partial (t0 := 0) (tf := 1) chain_exp chain_exp_neg (chain_hull 1) (chain_hull_neg 1) (by norm_num) (by norm_num) (by simp [lin2U, C2.Chain]) lin2_ex
    (by simp [lin2U, lin2X]) (by simp [lin2X])
    (fun i s hs => by
      match i, hs with
      | 0, hs => cases hs; simp
      | 1, hs => cases hs; norm_num
      | 2, hs => cases hs; simp
      | i + 3, hs => simp [lin2X] at hs)
    (fun s hs => by
      simp only [lin2U, List.mem_cons, List.not_mem_nil, or_false] at hs
      rcases hs with rfl | rfl | rfl <;> exact bd_point 1)

/-- the test on a domain with all its gates -/
example : allGatesDefined ([(0, 0), (0, 1), (1, 1), (1, 2), (2, 2)] : List (ℝ × ℝ)) = true :=
  (C118_gates rfl (by simp) (by norm_num)).2 fun i s hs => by
    match i, hs with
    | 0, hs => cases hs; simp
    | 1, hs => cases hs; norm_num
    | 2, hs => cases hs; simp
    | 3, hs => cases hs; norm_num
    | 4, hs => cases hs; simp
    | i + 5, hs => simp at hs

/-! ### Defects -/

/-- `x' = y`, `y' = v` with the constants of the code -/
def lin2Run (fwd bwd env : Bool) (u : List (C2.TS ℚ Unit ℚ)) (l : List (PS ℚ)) : Option (List (PS ℚ)) :=
  Lin2.contract (chain (ofThick (1 / 10 ^ 10)) (1 / 10 ^ 10)) () u fwd bwd env l

def lin2Sq (r : ℚ) : List (Pt ℚ) := [(-r, -r), (r, -r), (r, r), (-r, r)]

def lin2In (a b : ℚ) (c : Itv ℚ) : C2.TS ℚ Unit ℚ := ⟨a, b, fun _ => c⟩

/-- `all_gates_defined` accepts a domain without gates: the first element is not tested. The contractor then stops on an assertion. -/
theorem C118_gates_fails : ∃ (u : List (C2.TS ℚ Unit ℚ)) (l : List (PS ℚ)), C2.WF 0 2 u ∧ (∀ s ∈ u, ¬ s.IsGate) ∧ l.map (fun s => (s.lb, s.ub)) = u.map (fun s => (s.lb, s.ub)) ∧
    allGatesDefined (l.map fun s => (s.lb, s.ub)) = true ∧ lin2Run true true true u l = none := by
  refine ⟨[lin2In 0 1 (.point 0), lin2In 1 2 (.point 0)], [⟨0, 1, lin2Sq 1⟩, ⟨1, 2, lin2Sq 1⟩], ⟨by simp, by simp [C2.Chain, lin2In], ?_⟩, ?_, by simp [lin2In], by decide +kernel, by decide +kernel⟩
  · simp [C2.OneGate, C2.TS.IsGate, lin2In]
  · simp [C2.TS.IsGate, lin2In]

/-- the result is not always included in the domain: the polygon of the slice is replaced by the computed envelope -/
theorem C118_contracting_fails : ∃ (u : List (C2.TS ℚ Unit ℚ)) (l l' : List (PS ℚ)), lin2Run true true true u l = some l' ∧ (l[1]?.map PS.poly).getD [] = lin2Sq (1 / 100) ∧
    ((1, 1) : Pt ℚ) ∈ (l'[1]?.map PS.poly).getD [] ∧ ((1, 1) : Pt ℚ) ∉ Hull (lin2Sq (1 / 100)) := by
  refine ⟨[lin2In 0 0 (.icc (-1) 1), lin2In 0 1 (.icc (-1) 1), lin2In 1 1 (.icc (-1) 1)], [⟨0, 0, [(0, 0)]⟩, ⟨0, 1, lin2Sq (1 / 100)⟩, ⟨1, 1, lin2Sq (1 / 100)⟩], ?_⟩
  obtain ⟨l', h1, h2⟩ := Option.map_eq_some_iff.mp (show (lin2Run true true true [lin2In 0 0 (.icc (-1) 1), lin2In 0 1 (.icc (-1) 1), lin2In 1 1 (.icc (-1) 1)]
    [⟨0, 0, [(0, 0)]⟩, ⟨0, 1, lin2Sq (1 / 100)⟩, ⟨1, 1, lin2Sq (1 / 100)⟩]).map (fun l => (l[1]?.map PS.poly).getD []) = some (lin2Sq 1) by decide +kernel)
  refine ⟨l', h1, rfl, by rw [h2]; decide +kernel, fun h => ?_⟩
  have : ((1, 1) : Pt ℚ) ∈ {q : Pt ℚ | q.1 ≤ 1 / 100} := by
    refine convexHull_min (t := {q : Pt ℚ | q.1 ≤ 1 / 100}) ?_ ?_ h
    · intro q hq
      have hq' : q ∈ lin2Sq (1 / 100) := hq
      simp only [lin2Sq, List.mem_cons, List.not_mem_nil, or_false] at hq'
      rcases hq' with rfl | rfl | rfl | rfl <;> norm_num
    · intro y hy z hz s t hs ht hst
      change s * y.1 + t * z.1 ≤ 1 / 100
      change y.1 ≤ 1 / 100 at hy
      change z.1 ≤ 1 / 100 at hz
      nlinarith
  change (1 : ℚ) ≤ 1 / 100 at this
  norm_num at this

/-- **C118** fails with thick points smaller than `1e-10`: from `(0,0)`, with `v` in `[0,1e-11]`, the constant `x = y = v = 0` lies in the tubes and the result is empty. -/
theorem C118_small_fails : ∃ (u : List (C2.TS ℚ Unit ℚ)) (l l' : List (PS ℚ)), InTube u () (fun _ => 0) ∧ (∀ s ∈ l, ((0, 0) : Pt ℚ) ∈ Hull s.poly) ∧
    lin2Run true true true u l = some l' ∧ ∀ s ∈ l', s.poly = [] := by
  refine ⟨[lin2In 0 0 (.icc 0 (1 / 10 ^ 11)), lin2In 0 1 (.icc 0 (1 / 10 ^ 11)), lin2In 1 1 (.icc 0 (1 / 10 ^ 11))],
    [⟨0, 0, [(0, 0)]⟩, ⟨0, 1, lin2Sq 10⟩, ⟨1, 1, lin2Sq 10⟩], ?_⟩
  obtain ⟨l', h1, h2⟩ := Option.map_eq_some_iff.mp (show (lin2Run true true true [lin2In 0 0 (.icc 0 (1 / 10 ^ 11)), lin2In 0 1 (.icc 0 (1 / 10 ^ 11)), lin2In 1 1 (.icc 0 (1 / 10 ^ 11))]
    [⟨0, 0, [(0, 0)]⟩, ⟨0, 1, lin2Sq 10⟩, ⟨1, 1, lin2Sq 10⟩]).map (fun l => l.map PS.poly) = some [[], [], []] by decide +kernel)
  have h0 : ((0, 0) : Pt ℚ) ∈ Hull (lin2Sq 10) := by
    have ha : ((-10, -10) : Pt ℚ) ∈ Hull (lin2Sq 10) := Hull.mem (by simp [lin2Sq])
    have hb : ((10, 10) : Pt ℚ) ∈ Hull (lin2Sq 10) := Hull.mem (by simp [lin2Sq])
    have := (convex_convexHull ℚ _) ha hb (show (0 : ℚ) ≤ 1 / 2 by norm_num) (show (0 : ℚ) ≤ 1 / 2 by norm_num) (by norm_num)
    have e : ((1 / 2 : ℚ) • ((-10, -10) : Pt ℚ) + (1 / 2 : ℚ) • ((10, 10) : Pt ℚ)) = (0, 0) := by
      ext <;> simp
    rw [e] at this
    exact this
  refine ⟨l', fun s hs t _ _ => ?_, fun s hs => ?_, h1, fun s hs => ?_⟩
  · simp only [lin2In, List.mem_cons, List.not_mem_nil, or_false] at hs
    rcases hs with rfl | rfl | rfl <;> exact Itv.mem_icc.2 (by norm_num)
  · simp only [List.mem_cons, List.not_mem_nil, or_false] at hs
    rcases hs with rfl | rfl | rfl
    · exact Hull.mem (by simp)
    · exact h0
    · exact h0
  · have := List.mem_map_of_mem (f := PS.poly) hs
    rw [h2] at this
    simpa using this

end Codac.Props
