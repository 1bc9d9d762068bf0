import Verif.Ctc.Static
import Verif.Ctc.Linobs
import Verif.Tube.EvalMono
import Verif.Tube.TreeIntegral

/-!
# Contractors with a restricted temporal domain: what stays the same

Lemmas on the setters applied to one slice: the values of the tube at the instants out of this slice do not move.
-/

set_option linter.unusedSectionVars false

namespace Codac

variable {K : Type*} [LinearOrder K]

theorem updFrom_slices (u : Setter K) (k : Nat) (p : Option (Itv K)) (g : Itv K) (cs : List (Cell K)) {j : Nat} (hj : j ≠ k) {s : Slice K} (hs : (slicesFrom g cs)[j]? = some s) :
    ∃ s', (slicesFrom (updFrom u k p g cs).1 (updFrom u k p g cs).2)[j]? = some s' ∧ s'.lb = s.lb ∧ s'.ub = s.ub ∧ s'.cod = s.cod ∧
      (j ≠ k + 1 → s'.inG = s.inG) ∧ (j + 1 ≠ k → s'.outG = s.outG) := by
  induction cs generalizing k j p g with
  | nil => simp [slicesFrom] at hs
  | cons c cs ih =>
    cases k with
    | zero =>
      cases j with
      | zero => exact absurd rfl hj
      | succ j =>
        simp only [updFrom, slicesFrom, List.getElem?_cons_succ] at hs ⊢
        cases cs with
        | nil => simp [slicesFrom] at hs
        | cons d ds =>
          cases j with
          | zero =>
            simp only [slicesFrom, List.getElem?_cons_zero, Option.some.injEq] at hs ⊢
            subst hs
            exact ⟨_, rfl, rfl, rfl, rfl, fun h => absurd rfl h, fun _ => rfl⟩
          | succ j =>
            simp only [slicesFrom, List.getElem?_cons_succ] at hs ⊢
            exact ⟨s, hs, rfl, rfl, rfl, fun _ => rfl, fun _ => rfl⟩
    | succ k =>
      cases j with
      | zero =>
        simp only [updFrom, slicesFrom, List.getElem?_cons_zero, Option.some.injEq] at hs ⊢
        subst hs
        refine ⟨_, rfl, rfl, rfl, rfl, fun _ => rfl, fun h => ?_⟩
        cases cs with
        | nil => cases k <;> simp [updFrom]
        | cons d ds =>
          cases k with
          | zero => exact absurd rfl h
          | succ k => rfl
      | succ j =>
        simp only [updFrom, slicesFrom, List.getElem?_cons_succ] at hs ⊢
        obtain ⟨s', h1, h2, h3, h4, h5, h6⟩ := ih k (some c.cod) c.out (by omega) hs
        exact ⟨s', h1, h2, h3, h4, fun h => h5 (by omega), fun h => h6 (by omega)⟩

theorem updFrom_same {u : Setter K} (k : Nat) (p : Option (Itv K)) (g : Itv K) (cs : List (Cell K)) {s : Slice K} (hs : (slicesFrom g cs)[k]? = some s)
    (hu : ∀ p n, u p n s = s) : updFrom u k p g cs = (g, cs) := by
  induction cs generalizing k p g with
  | nil => simp [slicesFrom] at hs
  | cons c cs ih =>
    cases k with
    | zero =>
      simp only [slicesFrom, List.getElem?_cons_zero, Option.some.injEq] at hs
      subst hs
      simp only [updFrom, hu]
    | succ k =>
      simp only [slicesFrom, List.getElem?_cons_succ] at hs
      simp only [updFrom, ih k (some c.cod) c.out hs]

theorem Tube.upd_same {T : Tube K} {u : Setter K} {k : Nat} {s : Slice K} (hs : T.slices[k]? = some s) (hu : ∀ p n, u p n s = s) : T.upd k u = T := by
  unfold Tube.upd
  rw [updFrom_same k none T.g0 T.cells hs hu]

/-- the neighbours touch: the gate between two slices is at their common bound -/
theorem slices_touch {a b : K} {g : Itv K} {cs : List (Cell K)} (h : Tiles a cs b) {k : Nat} {s s' : Slice K} (h1 : (slicesFrom g cs)[k]? = some s) (h2 : (slicesFrom g cs)[k + 1]? = some s') :
    s.ub = s'.lb := by
  induction cs generalizing a g k with
  | nil => simp [slicesFrom] at h1
  | cons c cs ih =>
    obtain ⟨_, _, h3⟩ := h
    simp only [slicesFrom, List.getElem?_cons_succ] at h2
    cases k with
    | zero =>
      simp only [slicesFrom, List.getElem?_cons_zero, Option.some.injEq] at h1
      subst h1
      cases cs with
      | nil => simp [slicesFrom] at h2
      | cons d ds =>
        simp only [slicesFrom, List.getElem?_cons_zero, Option.some.injEq] at h2
        subst h2
        exact h3.1.symm
    | succ k =>
      simp only [slicesFrom, List.getElem?_cons_succ] at h1
      exact ih h3 h1 h2

/-- a setter on a slice does not change the values of the tube at the instants out of this slice -/
theorem Tube.upd_evalAt {T : Tube K} (hT : T.WF) (u : Setter K) {k : Nat} {s : Slice K} (hs : T.slices[k]? = some s) {t : K} (ht : ¬ (s.lb ≤ t ∧ t ≤ s.ub)) :
    (T.upd k u).evalAt t = T.evalAt t := by
  have hT' := upd_wf hT k u
  by_cases hd : T.t0 ≤ t ∧ t ≤ T.tf
  swap
  · unfold Tube.evalAt
    rw [if_neg hd, if_neg (by simpa using hd)]
  obtain ⟨r, hr, h1, h2⟩ := hT.exists_slice hd.1 hd.2
  obtain ⟨j, hj⟩ := List.getElem?_of_mem hr
  have hjk : j ≠ k := by
    rintro rfl
    rw [hj] at hs; injection hs with hs; subst hs
    exact ht ⟨h1, h2⟩
  obtain ⟨r', e1, e2, e3, e4, e5, e6⟩ := updFrom_slices u k none T.g0 T.cells hjk hj
  rw [evalAt_of_slice hT hr h1 h2, evalAt_of_slice hT' (List.mem_of_getElem? e1) (e2 ▸ h1) (e3 ▸ h2), e2, e3, e4]
  by_cases c1 : t = r.lb
  · rw [if_pos c1, if_pos c1]
    refine e5 ?_
    rintro rfl
    have := slices_touch hT.tiles hs hj
    refine ht ⟨?_, ?_⟩
    · rw [c1, ← this]; exact (Tiles.mem_bounds hT.tiles (List.mem_of_getElem? hs)).2.1.le
    · rw [c1, this]
  · rw [if_neg c1, if_neg c1]
    by_cases c2 : t = r.ub
    · rw [if_pos c2, if_pos c2]
      refine e6 ?_
      rintro rfl
      have := slices_touch hT.tiles hj hs
      refine ht ⟨?_, ?_⟩
      · rw [c2, this]
      · rw [c2, this]; exact (Tiles.mem_bounds hT.tiles (List.mem_of_getElem? hs)).2.1.le
    · rw [if_neg c2, if_neg c2]

/-- the instant `t` is in no slice that meets `R` (`bs`: the bounds of the slices) -/
def Apart (R : Itv K) (bs : List (K × K)) (t : K) : Prop := ∀ b ∈ bs, b.1 ≤ t → t ≤ b.2 → (Itv.icc b.1 b.2).intersects R = false

theorem Tube.upd_apart {T : Tube K} (hT : T.WF) {u : Setter K} {k : Nat} {R : Itv K} {bs : List (K × K)} (hb : T.slices.map (fun s => (s.lb, s.ub)) = bs) {t : K} (ht : Apart R bs t)
    {b : K × K} (hk : bs[k]? = some b) (hR : (Itv.icc b.1 b.2).intersects R = true) : (T.upd k u).evalAt t = T.evalAt t := by
  rw [← hb, List.getElem?_map] at hk
  cases hs : T.slices[k]? with
  | none => rw [hs] at hk; cases hk
  | some s =>
    rw [hs, Option.map_some, Option.some.injEq] at hk
    subst hk
    refine Tube.upd_evalAt hT u hs fun h => ?_
    have := ht (s.lb, s.ub) (by rw [← hb]; exact List.mem_map_of_mem (List.mem_of_getElem? hs)) h.1 h.2
    rw [hR] at this; cases this

theorem Tube.upd_slices_bds (T : Tube K) (k : Nat) (u : Setter K) : (T.upd k u).slices.map (fun s => (s.lb, s.ub)) = T.slices.map (fun s => (s.lb, s.ub)) := by
  rw [Tube.slices_bounds, Tube.slices_bounds, upd_bounds]

/-! ### `CtcDeriv` -/

section
variable [Field K] [IsStrictOrderedRing K]

theorem derivLoop_apart {A : IArith K} {B : K} {R : Itv K} {V : Nat → Itv K} {bs : List (K × K)} {t : K} (ht : Apart R bs t) (l : List Nat) :
    ∀ T : Tube K, T.WF → T.slices.map (fun s => (s.lb, s.ub)) = bs →
      (l.foldl (fun T k => T.upd k (derivSlice A B R (V k))) T).evalAt t = T.evalAt t := by
  induction l with
  | nil => intro T _ _; rfl
  | cons k l ih =>
    intro T hT hb
    rw [List.foldl_cons, ih _ (upd_wf hT k _) (by rw [Tube.upd_slices_bds]; exact hb)]
    cases hs : T.slices[k]? with
    | none =>
      rw [upd_out_of_range]
      rw [List.getElem?_eq_none_iff] at hs
      omega
    | some s =>
      cases hR : (Itv.icc s.lb s.ub).intersects R with
      | false =>
        rw [Tube.upd_same hs]
        intro p n
        unfold derivSlice
        rw [if_pos hR]
      | true => exact Tube.upd_apart hT hb ht (b := (s.lb, s.ub)) (by rw [← hb, List.getElem?_map, hs]; rfl) hR

theorem derivTube_apart {A : IArith K} {B : K} {R : Itv K} {fwd bwd : Bool} {x v x' : Tube K} (hx : x.WF) (h : derivTube A B R fwd bwd x v = some x') {t : K}
    (ht : Apart R (x.slices.map fun s => (s.lb, s.ub)) t) : x'.evalAt t = x.evalAt t := by
  unfold derivTube at h
  split at h
  · rw [Option.some.injEq] at h
    subst h
    have h1 : ∀ (l : List Nat) (T : Tube K), T.WF → T.slices.map (fun s => (s.lb, s.ub)) = x.slices.map (fun s => (s.lb, s.ub)) →
        (l.foldl (fun T k => T.upd k (derivSlice A B R (v.codAt k))) T).WF ∧ (l.foldl (fun T k => T.upd k (derivSlice A B R (v.codAt k))) T).slices.map (fun s => (s.lb, s.ub)) = x.slices.map (fun s => (s.lb, s.ub)) := by
      intro l
      induction l with
      | nil => intro T a b; exact ⟨a, b⟩
      | cons k l ih => intro T a b; rw [List.foldl_cons]; exact ih _ (upd_wf a k _) (by rw [Tube.upd_slices_bds]; exact b)
    cases fwd <;> cases bwd <;> dsimp only [if_true, Bool.false_eq_true, if_false]
    · rfl
    · exact derivLoop_apart ht _ _ hx rfl
    · exact derivLoop_apart ht _ _ hx rfl
    · obtain ⟨a, b⟩ := h1 (List.range x.nbSlices) x hx rfl
      refine (derivLoop_apart ht _ _ a b).trans (derivLoop_apart ht _ _ hx rfl)
  · cases h

end

/-! ### `CtcStatic` -/

/-- the same tubes, at the instant `t` -/
def SameAt (t : K) (bs : List (K × K)) (xs ys : List (Tube K)) : Prop :=
  List.Forall₂ (fun x y : Tube K => y.evalAt t = x.evalAt t ∧ y.WF ∧ y.slices.map (fun s => (s.lb, s.ub)) = bs) xs ys

theorem updAll_apart {R : Itv K} {bs : List (K × K)} {t : K} (ht : Apart R bs t) {k : Nat} {b : K × K} (hk : bs[k]? = some b) (hR : (Itv.icc b.1 b.2).intersects R = true)
    {xs ys : List (Tube K)} (h : SameAt t bs xs ys) (us : List (Setter K)) : SameAt t bs xs (updAll k ys us) := by
  induction h generalizing us with
  | nil => cases us <;> exact List.Forall₂.nil
  | cons h1 h2 ih =>
    cases us with
    | nil => exact List.Forall₂.cons h1 h2
    | cons u us =>
      obtain ⟨a, w, e⟩ := h1
      exact List.Forall₂.cons ⟨(Tube.upd_apart w e ht hk hR).trans a, upd_wf w k u, by rw [Tube.upd_slices_bds]; exact e⟩ (ih us)

theorem staticLoop_apart {R : Itv K} {tmp : Bool} {ctc : List (Itv K) → List (Itv K)} {bs : List (K × K)} {t : K} (ht : Apart R bs t) {xs : List (Tube K)} :
    ∀ (l : List (K × K)) (k : Nat) (ys : List (Tube K)), bs.drop k = l → SameAt t bs xs ys → SameAt t bs xs (staticLoop R tmp ctc k l ys) := by
  intro l
  induction l with
  | nil => intro k ys _ h; exact h
  | cons b l ih =>
    intro k ys hl h
    have hk : bs[k]? = some b := by
      have := congrArg List.head? hl
      rwa [List.head?_drop, List.head?_cons] at this
    unfold staticLoop
    refine ih (k + 1) _ ?_ ?_
    · rw [← List.drop_drop, hl]; rfl
    · unfold staticStep
      cases hR : (Itv.icc b.1 b.2).intersects R with
      | false => exact h
      | true =>
        rw [if_pos rfl]
        dsimp only
        split
        · exact updAll_apart ht hk hR (updAll_apart ht hk hR h _) _
        · exact updAll_apart ht hk hR h _

/-! ### `CtcLinobs` -/

section
variable [Field K] [IsStrictOrderedRing K]
open Lin Graham Poly

/-- the tubes of the state are, at the instant `t`, those given -/
def Lin.StSame (t : K) (bs : List (K × K)) (x1 x2 : Tube K) (σ : St K) : Prop :=
  (σ.x1.evalAt t = x1.evalAt t ∧ σ.x1.WF ∧ σ.x1.slices.map (fun s => (s.lb, s.ub)) = bs) ∧ (σ.x2.evalAt t = x2.evalAt t ∧ σ.x2.WF ∧ σ.x2.slices.map (fun s => (s.lb, s.ub)) = bs)

theorem Lin.one_same {R : Itv K} {bs : List (K × K)} {t : K} (ht : Apart R bs t) {k : Nat} {b : K × K} (hk : bs[k]? = some b) (hR : (Itv.icc b.1 b.2).intersects R = true) {x y : Tube K}
    (h : y.evalAt t = x.evalAt t ∧ y.WF ∧ y.slices.map (fun s => (s.lb, s.ub)) = bs) (u : Setter K) :
    (y.upd k u).evalAt t = x.evalAt t ∧ (y.upd k u).WF ∧ (y.upd k u).slices.map (fun s => (s.lb, s.ub)) = bs :=
  ⟨(Tube.upd_apart h.2.1 h.2.2 ht hk hR).trans h.1, upd_wf h.2.1 k u, by rw [Tube.upd_slices_bds]; exact h.2.2⟩

theorem Lin.fwdStep_same {P : Params K} {R : Itv K} {bwd : Bool} {obs : List (K × TPt K)} {u : Tube K} {bs : List (K × K)} {t : K} (ht : Apart R bs t) {k : Nat} {b : K × K} (hk : bs[k]? = some b)
    {x1 x2 : Tube K} {σ σ' : St K} (hσ : StSame t bs x1 x2 σ) (h : fwdStep P R bwd obs u k b σ = some σ') : StSame t bs x1 x2 σ' := by
  unfold fwdStep at h
  split at h
  · rename_i hR
    rw [Option.bind_eq_some_iff] at h
    obtain ⟨p0, _, h⟩ := h
    rw [Option.bind_eq_some_iff] at h
    obtain ⟨p, _, h⟩ := h
    dsimp only at h
    have a := one_same ht hk hR hσ.1 (Slice.setOutputGate (pbox p).1 true)
    have c := one_same ht hk hR hσ.2 (Slice.setOutputGate (pbox p).2 true)
    split at h
    · injection h with h; subst h
      exact ⟨a, c⟩
    · rw [Option.map_eq_some_iff] at h
      obtain ⟨e, _, rfl⟩ := h
      exact ⟨one_same ht hk hR a _, one_same ht hk hR c _⟩
  · injection h with h; subst h; exact hσ

theorem Lin.bwdStep_same {P : Params K} {R : Itv K} {obs : List (K × TPt K)} {u : Tube K} {bs : List (K × K)} {t : K} (ht : Apart R bs t) {k : Nat} {b : K × K} (hk : bs[k]? = some b)
    {x1 x2 : Tube K} {σ σ' : St K} (hσ : StSame t bs x1 x2 σ) (h : bwdStep P R obs u k b σ = some σ') : StSame t bs x1 x2 σ' := by
  unfold bwdStep at h
  split at h
  · rename_i hR
    rw [Option.bind_eq_some_iff] at h
    obtain ⟨p0, _, h⟩ := h
    rw [Option.bind_eq_some_iff] at h
    obtain ⟨p, _, h⟩ := h
    rw [Option.map_eq_some_iff] at h
    obtain ⟨e, _, rfl⟩ := h
    exact ⟨one_same ht hk hR (one_same ht hk hR hσ.1 _) _, one_same ht hk hR (one_same ht hk hR hσ.2 _) _⟩
  · injection h with h; subst h; exact hσ

theorem Lin.drop_head {α : Type*} {bs l : List α} {k : Nat} {b : α} (h : bs.drop k = b :: l) : bs[k]? = some b ∧ bs.drop (k + 1) = l := by
  constructor
  · have := congrArg List.head? h
    rwa [List.head?_drop, List.head?_cons] at this
  · rw [← List.drop_drop, h]; rfl

theorem Lin.fwdLoop_same {P : Params K} {R : Itv K} {bwd : Bool} {obs : List (K × TPt K)} {u : Tube K} {bs : List (K × K)} {t : K} (ht : Apart R bs t) {x1 x2 : Tube K} :
    ∀ (l : List (K × K)) (k : Nat) (σ σ' : St K), bs.drop k = l → StSame t bs x1 x2 σ → fwdLoop P R bwd obs u k l σ = some σ' → StSame t bs x1 x2 σ' := by
  intro l
  induction l with
  | nil => intro k σ σ' _ hσ h; injection h with h; subst h; exact hσ
  | cons b l ih =>
    intro k σ σ' hl hσ h
    obtain ⟨hk, hl'⟩ := drop_head hl
    unfold fwdLoop at h
    rw [Option.bind_eq_some_iff] at h
    obtain ⟨σ1, h1, h2⟩ := h
    exact ih (k + 1) σ1 σ' hl' (fwdStep_same ht hk hσ h1) h2

theorem Lin.bwdLoop_same {P : Params K} {R : Itv K} {obs : List (K × TPt K)} {u : Tube K} {bs : List (K × K)} {t : K} (ht : Apart R bs t) {x1 x2 : Tube K} :
    ∀ (l : List (K × K)) (k : Nat) (σ σ' : St K), bs.drop k = l → StSame t bs x1 x2 σ → bwdLoop P R obs u k l σ = some σ' → StSame t bs x1 x2 σ' := by
  intro l
  induction l with
  | nil => intro k σ σ' _ hσ h; injection h with h; subst h; exact hσ
  | cons b l ih =>
    intro k σ σ' hl hσ h
    obtain ⟨hk, hl'⟩ := drop_head hl
    unfold bwdLoop at h
    rw [Option.bind_eq_some_iff] at h
    obtain ⟨σ1, h1, h2⟩ := h
    exact bwdStep_same ht hk (ih (k + 1) σ σ1 hl' hσ h1) h2

end

end Codac
