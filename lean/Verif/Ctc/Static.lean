import Verif.Ctc.Delay
import Verif.Box

/-!
# `CtcStatic`: a box contractor applied slice by slice on tubes

Source: `src/core/contractors/dyn/codac_CtcStatic.cpp:147-208`. A box is a list of intervals; the static contractor is any
function on boxes.
-/

set_option linter.unusedSectionVars false

namespace Codac

variable {K : Type*} [LinearOrder K]

/-- the `k`-th slice of a tube (default value: not reachable for `k` smaller than the number of slices) -/
def Tube.inGAt (v : Tube K) (k : Nat) : Itv K := (v.slices[k]?.map Slice.inG).getD ⊤
/-- output gate of the `k`-th slice -/
def Tube.outGAt (v : Tube K) (k : Nat) : Itv K := (v.slices[k]?.map Slice.outG).getD ⊤

/-- a box with the time as first component in temporal mode, codac_CtcStatic.cpp:167-177, 191-195 -/
def withTime (tmp : Bool) (t : Itv K) (X : List (Itv K)) : List (Itv K) := if tmp then t :: X else X

/-- the components after the time, codac_CtcStatic.cpp:184-185, 200 -/
def dropTime (tmp : Bool) (X : List (Itv K)) : List (Itv K) := if tmp then X.tail else X

/-- application of setters to the `k`-th slices of the tubes, one per tube (codac_CtcStatic.cpp:182-186, 199-200) -/
def updAll (k : Nat) : List (Tube K) → List (Setter K) → List (Tube K)
  | T :: Ts, u :: us => T.upd k u :: updAll k Ts us
  | Ts, _ => Ts

/-- `set_envelope` then `set_input_gate`, codac_CtcStatic.cpp:184-185 -/
def staticSet (e g : Itv K) : Setter K := fun p n s => Slice.setInputGate g true p n (Slice.setEnvelope e true p n s)

/-- one iteration of the loop of `CtcStatic::contract(Slice**, int)`, codac_CtcStatic.cpp:152-206, for the slices of
index `k` of bounds `b`; `last`: there is no next slice -/
def staticStep (R : Itv K) (tmp : Bool) (ctc : List (Itv K) → List (Itv K)) (k : Nat) (b : K × K) (last : Bool)
    (xs : List (Tube K)) : List (Tube K) :=
  if (Itv.icc b.1 b.2).intersects R then
    let env := dropTime tmp (ctc (withTime tmp (Itv.icc b.1 b.2) (xs.map fun T => T.codAt k)))
    let ing := dropTime tmp (ctc (withTime tmp (Itv.point b.1) (xs.map fun T => T.inGAt k)))
    let xs1 := updAll k xs (List.zipWith staticSet env ing)
    if last then
      let out := dropTime tmp (ctc (withTime tmp (Itv.point b.2) (xs1.map fun T => T.outGAt k)))
      updAll k xs1 (out.map fun g => Slice.setOutputGate g true)
    else xs1
  else xs

/-- the loop over the slices -/
def staticLoop (R : Itv K) (tmp : Bool) (ctc : List (Itv K) → List (Itv K)) :
    Nat → List (K × K) → List (Tube K) → List (Tube K)
  | _, [], xs => xs
  | k, b :: bs, xs => staticLoop R tmp ctc (k + 1) bs (staticStep R tmp ctc k b bs.isEmpty xs)

/-- `CtcStatic::contract` on tubes, codac_CtcStatic.cpp:47-208. The slices of the other tubes are followed in parallel with
those of the first: `none` when the slicings differ (in the code, wrong slices are mixed or a null pointer is followed). -/
def staticContract (R : Itv K) (tmp : Bool) (ctc : List (Itv K) → List (Itv K)) (xs : List (Tube K)) :
    Option (List (Tube K)) :=
  match xs with
  | [] => none
  | x :: l =>
    if l.all (fun y => x.sameSlicing y) then
      some (staticLoop R tmp ctc 0 (x.slices.map fun s => (s.lb, s.ub)) xs)
    else none

/-! ### Proofs -/

/-- the contractor keeps the points of `S` -/
def KeepsPts (S : List K → Prop) (ctc : List (Itv K) → List (Itv K)) : Prop :=
  ∀ X v, InBox v X → S v → InBox v (ctc X)

/-- value of a vector of trajectories, with the time in temporal mode -/
def valueAt (tmp : Bool) (fs : List (K → K)) (t : K) : List K := if tmp then t :: fs.map (· t) else fs.map (· t)

theorem inBox_dropTime {tmp : Bool} {fs : List (K → K)} {t : K} {Y : List (Itv K)} (h : InBox (valueAt tmp fs t) Y) :
    List.Forall₂ (fun f e => f t ∈ e) fs (dropTime tmp Y) := by
  cases tmp with
  | false => simpa [InBox, valueAt, dropTime, List.forall₂_map_left_iff] using h
  | true =>
    cases Y with
    | nil => simp [InBox, valueAt] at h
    | cons I Y =>
      simp only [InBox, valueAt, if_true, List.forall₂_cons, List.forall₂_map_left_iff] at h
      exact h.2

theorem inBox_withTime {tmp : Bool} {fs : List (K → K)} {t : K} {T : Itv K} {Y : List (Itv K)} (hT : t ∈ T)
    (h : List.Forall₂ (fun f e => f t ∈ e) fs Y) : InBox (valueAt tmp fs t) (withTime tmp T Y) := by
  cases tmp with
  | false => simpa [InBox, valueAt, withTime, List.forall₂_map_left_iff] using h
  | true => simpa [InBox, valueAt, withTime, List.forall₂_map_left_iff, hT] using h

theorem forall₂_forall {α β ι : Type*} {P : ι → Prop} {R : ι → α → β → Prop} {l : List α} {m : List β} (h0 : ∃ t, P t)
    (h : ∀ t, P t → List.Forall₂ (R t) l m) : List.Forall₂ (fun a b => ∀ t, P t → R t a b) l m := by
  induction l generalizing m with
  | nil =>
    obtain ⟨t, ht⟩ := h0
    cases h t ht
    exact .nil
  | cons a l ih =>
    cases m with
    | nil => obtain ⟨t, ht⟩ := h0; cases h t ht
    | cons b m =>
      refine .cons (fun t ht => ?_) (ih fun t ht => ?_)
      · exact (List.forall₂_cons.mp (h t ht)).1
      · exact (List.forall₂_cons.mp (h t ht)).2

/-- the invariant for one tube and one trajectory -/
structure StInv (bs : List (K × K)) (T : Tube K) (f : K → K) : Prop where
  wf : T.WF
  gc : T.GatesInEnvelopes
  encl : T.Encloses f
  bounds : T.cells.map (fun c => (c.lb, c.ub)) = bs

theorem StInv.at {bs : List (K × K)} {T : Tube K} {f : K → K} (h : StInv bs T f) {k : Nat} {b : K × K} (hb : bs[k]? = some b) :
    ∃ s, T.slices[k]? = some s ∧ s.lb = b.1 ∧ s.ub = b.2 ∧ s.lb < s.ub := by
  have h1 := h.bounds
  rw [← Tube.slices_bounds] at h1
  rw [← h1, List.getElem?_map] at hb
  cases hs : T.slices[k]? with
  | none => rw [hs] at hb; cases hb
  | some s =>
    rw [hs] at hb
    cases hb
    exact ⟨s, rfl, rfl, rfl, (h.wf.tiles.mem_bounds (List.mem_of_getElem? hs)).2.1⟩

theorem StInv.codAt {bs : List (K × K)} {T : Tube K} {f : K → K} (h : StInv bs T f) {k : Nat} {b : K × K}
    (hb : bs[k]? = some b) {t : K} (h1 : b.1 ≤ t) (h2 : t ≤ b.2) : f t ∈ T.codAt k := by
  obtain ⟨s, hs, e1, e2, -⟩ := h.at hb
  have hm := List.mem_of_getElem? hs
  simp only [Tube.codAt, hs, Option.map_some, Option.getD_some]
  exact (h.encl s hm).mem_cod (h.gc s hm) (e1 ▸ h1) (e2 ▸ h2)

theorem StInv.inGAt {bs : List (K × K)} {T : Tube K} {f : K → K} (h : StInv bs T f) {k : Nat} {b : K × K}
    (hb : bs[k]? = some b) : f b.1 ∈ T.inGAt k := by
  obtain ⟨s, hs, e1, e2, -⟩ := h.at hb
  simp only [Tube.inGAt, hs, Option.map_some, Option.getD_some, ← e1]
  exact (h.encl s (List.mem_of_getElem? hs)).1

theorem StInv.outGAt {bs : List (K × K)} {T : Tube K} {f : K → K} (h : StInv bs T f) {k : Nat} {b : K × K}
    (hb : bs[k]? = some b) : f b.2 ∈ T.outGAt k := by
  obtain ⟨s, hs, e1, e2, -⟩ := h.at hb
  simp only [Tube.outGAt, hs, Option.map_some, Option.getD_some, ← e2]
  exact (h.encl s (List.mem_of_getElem? hs)).2.1

theorem staticSet_gc {e g : Itv K} {p n : Option (Itv K)} {s : Slice K} (h : LocalGC p n s) :
    LocalGC p n (staticSet e g p n s) := by
  refine ⟨?_, ?_, ?_, ?_⟩ <;> simp only [staticSet, Slice.setInputGate, Slice.setEnvelope, if_true]
  · exact le_trans (infOpt_le _ _) inf_le_right
  · exact inf_le_right
  · intro c hc; subst hc; exact inf_le_right
  · intro c hc; exact inf_le_left.trans (h.outN c hc)

theorem setOut_gc {g : Itv K} {p n : Option (Itv K)} {s : Slice K} (h : LocalGC p n s) :
    LocalGC p n (Slice.setOutputGate g true p n s) := by
  refine ⟨?_, ?_, ?_, ?_⟩ <;> simp only [Slice.setOutputGate, if_true]
  · exact h.inC
  · exact le_trans (infOpt_le _ _) inf_le_right
  · exact h.inP
  · intro c hc; subst hc; exact inf_le_right

theorem StInv.set {bs : List (K × K)} {T : Tube K} {f : K → K} (h : StInv bs T f) {k : Nat} {b : K × K}
    (hb : bs[k]? = some b) {e g : Itv K} (he : ∀ t, b.1 ≤ t ∧ t ≤ b.2 → f t ∈ e) (hg : f b.1 ∈ g) :
    StInv bs (T.upd k (staticSet e g)) f := by
  refine ⟨upd_wf h.wf _ _, upd_gc (fun p n s hl => staticSet_gc hl) h.gc, ?_, by rw [upd_bounds]; exact h.bounds⟩
  refine upd_encloses h.wf h.gc ?_ h.encl
  intro p n s hs hl hf
  obtain ⟨s', hs', e1, e2, hlt⟩ := h.at hb
  rw [hs] at hs'
  cases hs'
  rw [← e1] at hg
  have h1 : f s.lb ∈ s.cod := Itv.mem_of_le hl.inC hf.1
  have c1 := he s.lb ⟨e1.ge, by rw [← e2]; exact hlt.le⟩
  have c2 := he s.ub ⟨by rw [← e1]; exact hlt.le, e2.le⟩
  refine ⟨?_, ?_, ?_⟩
  · simp only [staticSet, Slice.setInputGate, Slice.setEnvelope, if_true]
    rw [mem_infOpt]
    simp only [Itv.mem_inf]
    exact ⟨⟨hg, c1⟩, fun c hc => Itv.mem_of_le (hl.inP c hc) hf.1⟩
  · simp only [staticSet, Slice.setInputGate, Slice.setEnvelope, if_true, Itv.mem_inf]
    exact ⟨hf.2.1, c2⟩
  · intro t h0 h2
    simp only [staticSet, Slice.setInputGate, Slice.setEnvelope, if_true]
    exact he t ⟨by rw [← e1]; exact h0.le, by rw [← e2]; exact h2.le⟩

theorem StInv.setOut {bs : List (K × K)} {T : Tube K} {f : K → K} (h : StInv bs T f) {k : Nat} {b : K × K}
    (hb : bs[k]? = some b) {g : Itv K} (hg : f b.2 ∈ g) :
    StInv bs (T.upd k (Slice.setOutputGate g true)) f := by
  refine ⟨upd_wf h.wf _ _, upd_gc (fun p n s hl => setOut_gc hl) h.gc, ?_, by rw [upd_bounds]; exact h.bounds⟩
  refine upd_encloses h.wf h.gc ?_ h.encl
  intro p n s hs hl hf
  obtain ⟨s', hs', e1, e2, hlt⟩ := h.at hb
  rw [hs] at hs'
  cases hs'
  rw [← e2] at hg
  refine ⟨hf.1, ?_, hf.2.2⟩
  simp only [Slice.setOutputGate, if_true]
  rw [mem_infOpt, Itv.mem_inf]
  exact ⟨⟨hg, Itv.mem_of_le hl.outC hf.2.1⟩, fun c hc => Itv.mem_of_le (hl.outN c hc) hf.2.1⟩

theorem updAll_inv {bs : List (K × K)} {k : Nat} {xs : List (Tube K)} {fs : List (K → K)} {us : List (Setter K)}
    (h : List.Forall₂ (StInv bs) xs fs)
    (hu : List.Forall₂ (fun f u => ∀ T, StInv bs T f → StInv bs (T.upd k u) f) fs us) :
    List.Forall₂ (StInv bs) (updAll k xs us) fs := by
  induction h generalizing us with
  | nil => cases hu; exact .nil
  | cons a _ ih =>
    cases hu with
    | cons b hu => exact .cons (b _ a) (ih hu)

theorem forall₂_map_of {α β γ : Type*} {R : α → β → Prop} {S : β → γ → Prop} {g : α → γ} {xs : List α} {fs : List β}
    (h : List.Forall₂ R xs fs) (hg : ∀ a b, R a b → S b (g a)) : List.Forall₂ S fs (xs.map g) := by
  induction h with
  | nil => exact .nil
  | cons a _ ih => exact .cons (hg _ _ a) ih

theorem staticStep_inv {S : List K → Prop} {R : Itv K} {tmp : Bool} {ctc : List (Itv K) → List (Itv K)}
    (hc : KeepsPts S ctc) {bs : List (K × K)} {xs : List (Tube K)} {fs : List (K → K)}
    (h : List.Forall₂ (StInv bs) xs fs) {k : Nat} {b : K × K} (hb : bs[k]? = some b) (hlt : b.1 < b.2) {last : Bool}
    (hS : ∀ t, b.1 ≤ t → t ≤ b.2 → S (valueAt tmp fs t)) :
    List.Forall₂ (StInv bs) (staticStep R tmp ctc k b last xs) fs := by
  unfold staticStep
  by_cases h1 : (Itv.icc b.1 b.2).intersects R = true
  swap
  · rw [if_neg h1]; exact h
  · rw [if_pos h1]
    have k1 : ∀ t, b.1 ≤ t ∧ t ≤ b.2 → List.Forall₂ (fun f e => f t ∈ e) fs
        (dropTime tmp (ctc (withTime tmp (Itv.icc b.1 b.2) (xs.map fun T => T.codAt k)))) := by
      intro t ht
      refine inBox_dropTime (hc _ _ (inBox_withTime (Itv.mem_icc.mpr ht) ?_) (hS t ht.1 ht.2))
      exact forall₂_map_of h fun T f hT => hT.codAt hb ht.1 ht.2
    have k2 : List.Forall₂ (fun f e => f b.1 ∈ e) fs
        (dropTime tmp (ctc (withTime tmp (Itv.point b.1) (xs.map fun T => T.inGAt k)))) := by
      refine inBox_dropTime (hc _ _ (inBox_withTime (by simp) ?_) (hS b.1 le_rfl hlt.le))
      exact forall₂_map_of h fun T f hT => hT.inGAt hb
    have k3 := forall₂_forall ⟨b.1, le_rfl, hlt.le⟩ k1
    have i1 : List.Forall₂ (StInv bs) (updAll k xs (List.zipWith staticSet
        (dropTime tmp (ctc (withTime tmp (Itv.icc b.1 b.2) (xs.map fun T => T.codAt k))))
        (dropTime tmp (ctc (withTime tmp (Itv.point b.1) (xs.map fun T => T.inGAt k)))))) fs := by
      refine updAll_inv h ?_
      clear k1
      revert k2 k3
      generalize dropTime tmp (ctc (withTime tmp (Itv.icc b.1 b.2) (xs.map fun T => T.codAt k))) = env
      generalize dropTime tmp (ctc (withTime tmp (Itv.point b.1) (xs.map fun T => T.inGAt k))) = ing
      intro k2 k3
      clear h hS
      induction k3 generalizing ing with
      | nil => cases k2; exact .nil
      | cons a _ ih =>
        cases k2 with
        | cons c k2 => exact .cons (fun T hT => hT.set hb a c) (ih _ k2)
    dsimp only
    split_ifs
    · refine updAll_inv i1 ?_
      have k4 : List.Forall₂ (fun f e => f b.2 ∈ e) fs (dropTime tmp (ctc (withTime tmp (Itv.point b.2)
          ((updAll k xs (List.zipWith staticSet
        (dropTime tmp (ctc (withTime tmp (Itv.icc b.1 b.2) (xs.map fun T => T.codAt k))))
        (dropTime tmp (ctc (withTime tmp (Itv.point b.1) (xs.map fun T => T.inGAt k)))))).map fun T => T.outGAt k)))) := by
        refine inBox_dropTime (hc _ _ (inBox_withTime (by simp) ?_) (hS b.2 hlt.le le_rfl))
        exact forall₂_map_of i1 fun T f hT => hT.outGAt hb
      revert k4
      generalize dropTime tmp (ctc (withTime tmp (Itv.point b.2) _)) = out
      intro k4
      clear h hS k3 i1 k1 k2
      induction k4 with
      | nil => exact .nil
      | cons a _ ih => exact .cons (fun T hT => hT.setOut hb a) ih
    · exact i1

theorem staticLoop_inv {S : List K → Prop} {R : Itv K} {tmp : Bool} {ctc : List (Itv K) → List (Itv K)}
    (hc : KeepsPts S ctc) {bs : List (K × K)} {fs : List (K → K)} (bs' : List (K × K)) (k : Nat) (hbs : bs.drop k = bs')
    (hlt : ∀ b ∈ bs, b.1 < b.2) (hS : ∀ b ∈ bs, ∀ t, b.1 ≤ t → t ≤ b.2 → S (valueAt tmp fs t)) {xs : List (Tube K)}
    (h : List.Forall₂ (StInv bs) xs fs) : List.Forall₂ (StInv bs) (staticLoop R tmp ctc k bs' xs) fs := by
  induction bs' generalizing k xs with
  | nil => exact h
  | cons b bs' ih =>
    have hb : bs[k]? = some b := by
      rw [← List.head?_drop, hbs]; rfl
    have hm := List.mem_of_getElem? hb
    unfold staticLoop
    refine ih (k + 1) ?_ (staticStep_inv hc h hb (hlt b hm) (hS b hm))
    rw [← List.drop_drop, hbs]; rfl

/-! ### Envelopes and gates after the contraction -/

theorem upd_codAt_ne {T : Tube K} {u : Setter K} {k j : Nat} (h : j ≠ k) : (T.upd k u).codAt j = T.codAt j := by
  have : ∀ (k j : Nat) (p : Option (Itv K)) (g : Itv K) (cs : List (Cell K)), j ≠ k →
      (slicesFrom (updFrom u k p g cs).1 (updFrom u k p g cs).2)[j]?.map Slice.cod = (slicesFrom g cs)[j]?.map Slice.cod := by
    intro k j p g cs hjk
    induction cs generalizing k j p g with
    | nil => simp [updFrom]
    | cons c cs ih =>
      cases k with
      | zero =>
        cases j with
        | zero => exact absurd rfl hjk
        | succ j =>
          simp only [updFrom, slicesFrom_cons, List.getElem?_cons_succ]
          cases cs with
          | nil => simp
          | cons d ds =>
            cases j <;> simp
      | succ k =>
        cases j with
        | zero => simp [updFrom]
        | succ j =>
          simp only [updFrom, slicesFrom_cons, List.getElem?_cons_succ]
          exact ih k j _ _ (fun h => hjk (by rw [h]))
  unfold Tube.codAt
  rw [show (T.upd k u).slices = slicesFrom (updFrom u k none T.g0 T.cells).1 (updFrom u k none T.g0 T.cells).2 from rfl,
    this k j none T.g0 T.cells h]
  rfl

theorem updAll_codAt_ne {k j : Nat} (h : j ≠ k) (xs : List (Tube K)) (us : List (Setter K)) :
    (updAll k xs us).map (fun T => T.codAt j) = xs.map fun T => T.codAt j := by
  fun_induction updAll k xs us with
  | case1 T Ts u us ih => simp [upd_codAt_ne h, ih]
  | case2 => rfl

theorem updAll_length (k : Nat) (xs : List (Tube K)) (us : List (Setter K)) : (updAll k xs us).length = xs.length := by
  fun_induction updAll k xs us with
  | case1 T Ts u us ih => simp [ih]
  | case2 => rfl

/-- the setters applied to the `k`-th slices give the envelopes `env` -/
theorem updAll_codAt {k : Nat} {xs : List (Tube K)} {us : List (Setter K)} {env : List (Itv K)}
    (hk : ∀ T ∈ xs, ∃ s, T.slices[k]? = some s) (hl : env.length = xs.length)
    (hu : List.Forall₂ (fun u e => ∀ p n s, (u p n s).cod = e) us env) :
    (updAll k xs us).map (fun T => T.codAt k) = env := by
  induction xs generalizing us env with
  | nil =>
    have : env = [] := List.length_eq_zero_iff.mp (by simpa using hl)
    subst this; cases hu; rfl
  | cons T Ts ih =>
    cases hu with
    | nil => simp at hl
    | cons a hu =>
      obtain ⟨s, hs⟩ := hk T (by simp)
      obtain ⟨p, n, hx⟩ := upd_at (u := _) hs
      simp only [updAll, List.map_cons, List.cons.injEq]
      refine ⟨?_, ih (fun T hT => hk T (by simp [hT])) (by simpa using hl) hu⟩
      rw [Tube.codAt, hx]
      exact a p n s

theorem zip_staticSet_cod (env ing : List (Itv K)) (h : env.length = ing.length) :
    List.Forall₂ (fun (u : Setter K) e => ∀ p n s, (u p n s).cod = e) (List.zipWith staticSet env ing) env := by
  induction env generalizing ing with
  | nil => exact .nil
  | cons e env ih =>
    cases ing with
    | nil => simp at h
    | cons g ing => exact .cons (fun p n s => rfl) (ih ing (by simpa using h))

theorem dropTime_length {tmp : Bool} {ctc : List (Itv K) → List (Itv K)} (hl : ∀ X, (ctc X).length = X.length) (t : Itv K)
    (X : List (Itv K)) : (dropTime tmp (ctc (withTime tmp t X))).length = X.length := by
  cases tmp <;> simp [dropTime, withTime, hl]

theorem staticStep_codAt_ne {R : Itv K} {tmp : Bool} {ctc : List (Itv K) → List (Itv K)} {k j : Nat} {b : K × K} {last : Bool}
    (h : j ≠ k) (xs : List (Tube K)) :
    (staticStep R tmp ctc k b last xs).map (fun T => T.codAt j) = xs.map fun T => T.codAt j := by
  unfold staticStep
  dsimp only
  split_ifs <;> simp only [updAll_codAt_ne h]

theorem mem_updAll {k : Nat} {xs : List (Tube K)} {us : List (Setter K)} {T : Tube K} (h : T ∈ updAll k xs us) :
    ∃ T0 ∈ xs, T = T0 ∨ ∃ u, T = T0.upd k u := by
  fun_induction updAll k xs us with
  | case1 T0 Ts u us ih =>
    rcases List.mem_cons.mp h with rfl | h
    · exact ⟨T0, by simp, Or.inr ⟨u, rfl⟩⟩
    · obtain ⟨T1, h1, h2⟩ := ih h
      exact ⟨T1, by simp [h1], h2⟩
  | case2 => exact ⟨T, h, Or.inl rfl⟩

theorem updAll_bounds {k : Nat} {bs : List (K × K)} {xs : List (Tube K)} {us : List (Setter K)}
    (hk : ∀ T ∈ xs, T.cells.map (fun c => (c.lb, c.ub)) = bs) :
    ∀ T ∈ updAll k xs us, T.cells.map (fun c => (c.lb, c.ub)) = bs := by
  intro T hT
  obtain ⟨T0, h0, rfl | ⟨u, rfl⟩⟩ := mem_updAll hT
  · exact hk _ h0
  · rw [upd_bounds]; exact hk _ h0

theorem exists_slice_of_bounds {bs : List (K × K)} {T : Tube K} (h : T.cells.map (fun c => (c.lb, c.ub)) = bs) {k : Nat}
    {b : K × K} (hb : bs[k]? = some b) : ∃ s, T.slices[k]? = some s := by
  rw [← Tube.slices_bounds] at h
  rw [← h, List.getElem?_map] at hb
  cases hs : T.slices[k]? with
  | none => rw [hs] at hb; cases hb
  | some s => exact ⟨s, rfl⟩

theorem updAll_out_cod {bs : List (K × K)} {k : Nat} {b : K × K} {ys : List (Tube K)}
    (hb1 : ∀ T ∈ ys, T.cells.map (fun c => (c.lb, c.ub)) = bs) (hb : bs[k]? = some b) (out : List (Itv K)) :
    (updAll k ys (out.map fun g => Slice.setOutputGate g true)).map (fun T => T.codAt k) = ys.map fun T => T.codAt k := by
  induction ys generalizing out with
  | nil => cases out <;> rfl
  | cons T Ts ih =>
    cases out with
    | nil => rfl
    | cons g out =>
      obtain ⟨s, hs⟩ := exists_slice_of_bounds (hb1 T (by simp)) hb
      obtain ⟨p, n, hx⟩ := upd_at (u := Slice.setOutputGate g true) hs
      simp only [List.map_cons, updAll, List.cons.injEq]
      refine ⟨?_, ih (fun T hT => hb1 T (by simp [hT])) out⟩
      rw [Tube.codAt, hx, Tube.codAt, hs]
      rfl

theorem staticStep_codAt_eq {R : Itv K} {tmp : Bool} {ctc : List (Itv K) → List (Itv K)}
    (hl : ∀ X, (ctc X).length = X.length) {bs : List (K × K)} {k : Nat} {b : K × K} {last : Bool} {xs : List (Tube K)}
    (hk : ∀ T ∈ xs, T.cells.map (fun c => (c.lb, c.ub)) = bs) (hb : bs[k]? = some b) :
    (staticStep R tmp ctc k b last xs).map (fun T => T.codAt k) =
      if (Itv.icc b.1 b.2).intersects R then dropTime tmp (ctc (withTime tmp (Itv.icc b.1 b.2) (xs.map fun T => T.codAt k)))
      else xs.map fun T => T.codAt k := by
  unfold staticStep
  by_cases h1 : (Itv.icc b.1 b.2).intersects R = true
  swap
  · rw [if_neg h1, if_neg h1]
  rw [if_pos h1, if_pos h1]
  dsimp only
  have l1 := dropTime_length (tmp := tmp) hl (Itv.icc b.1 b.2) (xs.map fun T => T.codAt k)
  have l2 := dropTime_length (tmp := tmp) hl (Itv.point b.1) (xs.map fun T => T.inGAt k)
  rw [List.length_map] at l1 l2
  have e1 := updAll_codAt (k := k) (xs := xs) (fun T hT => exists_slice_of_bounds (hk T hT) hb) l1
    (zip_staticSet_cod _ (dropTime tmp (ctc (withTime tmp (Itv.point b.1) (xs.map fun T => T.inGAt k)))) (l1.trans l2.symm))
  split_ifs
  · rw [updAll_out_cod (updAll_bounds hk) hb]; exact e1
  · exact e1

theorem staticStep_bounds {R : Itv K} {tmp : Bool} {ctc : List (Itv K) → List (Itv K)} {bs : List (K × K)} {k : Nat}
    {b : K × K} {last : Bool} {xs : List (Tube K)} (hk : ∀ T ∈ xs, T.cells.map (fun c => (c.lb, c.ub)) = bs) :
    ∀ T ∈ staticStep R tmp ctc k b last xs, T.cells.map (fun c => (c.lb, c.ub)) = bs := by
  unfold staticStep
  dsimp only
  split_ifs
  · exact updAll_bounds (updAll_bounds hk)
  · exact updAll_bounds hk
  · exact hk

theorem staticLoop_codAt {R : Itv K} {tmp : Bool} {ctc : List (Itv K) → List (Itv K)}
    (hl : ∀ X, (ctc X).length = X.length) {bs : List (K × K)} (bs' : List (K × K)) (k : Nat) (hbs : bs.drop k = bs')
    {xs : List (Tube K)} (hk : ∀ T ∈ xs, T.cells.map (fun c => (c.lb, c.ub)) = bs) (j : Nat) :
    (j < k → (staticLoop R tmp ctc k bs' xs).map (fun T => T.codAt j) = xs.map fun T => T.codAt j) ∧
    (k ≤ j → ∀ b, bs[j]? = some b → (staticLoop R tmp ctc k bs' xs).map (fun T => T.codAt j) =
      if (Itv.icc b.1 b.2).intersects R then dropTime tmp (ctc (withTime tmp (Itv.icc b.1 b.2) (xs.map fun T => T.codAt j)))
      else xs.map fun T => T.codAt j) := by
  induction bs' generalizing k xs with
  | nil =>
    refine ⟨fun _ => rfl, fun h b hb => ?_⟩
    have h1 := List.drop_eq_nil_iff.mp hbs
    have h2 := (List.getElem?_eq_some_iff.mp hb).1
    omega
  | cons b bs' ih =>
    have hb : bs[k]? = some b := by
      rw [← List.head?_drop, hbs]; rfl
    unfold staticLoop
    have := ih (k + 1) (by rw [← List.drop_drop, hbs]; rfl)
      (staticStep_bounds (R := R) (tmp := tmp) (ctc := ctc) (k := k) (b := b) (last := bs'.isEmpty) hk)
    constructor
    · intro hj
      rw [this.1 (by omega), staticStep_codAt_ne (by omega)]
    · intro hj b' hb'
      rcases eq_or_lt_of_le hj with rfl | hj
      · rw [hb] at hb'
        cases hb'
        rw [this.1 (by omega), staticStep_codAt_eq hl hk hb]
      · rw [this.2 hj b' hb', staticStep_codAt_ne (by omega)]

/-! ### Contraction -/

/-- tubes contracted one by one -/
def AllBelow (xs ys : List (Tube K)) : Prop := List.Forall₂ Tube.Below xs ys

theorem AllBelow.refl (xs : List (Tube K)) : AllBelow xs xs := List.forall₂_same.mpr fun T _ => Tube.Below.refl T

theorem AllBelow.trans {xs ys zs : List (Tube K)} (h : AllBelow xs ys) (h' : AllBelow ys zs) : AllBelow xs zs := by
  unfold AllBelow at *
  induction h generalizing zs with
  | nil => cases h'; exact .nil
  | cons a _ ih =>
    cases h' with
    | cons b h' => exact .cons (a.trans b) (ih h')

theorem boxLe_dropTime {tmp : Bool} {X Y : List (Itv K)} {t : Itv K} (h : BoxLe X (withTime tmp t Y)) :
    BoxLe (dropTime tmp X) Y := by
  cases tmp with
  | false => exact h
  | true =>
    cases h with
    | cons _ h => exact h

theorem updAll_set_below {k : Nat} {xs : List (Tube K)} {env ing : List (Itv K)}
    (h1 : BoxLe env (xs.map fun T => T.codAt k)) (h2 : BoxLe ing (xs.map fun T => T.inGAt k)) :
    AllBelow (updAll k xs (List.zipWith staticSet env ing)) xs := by
  induction xs generalizing env ing with
  | nil => exact .nil
  | cons T Ts ih =>
    cases h1 with
    | cons a h1 =>
      cases h2 with
      | cons b h2 =>
        refine .cons (upd_below ?_ (Tube.Below.refl T)) (ih h1 h2)
        intro p n s s0 hs hb
        simp only [Tube.codAt, Tube.inGAt, hs, Option.map_some, Option.getD_some] at a b
        simp only [staticSet, Slice.setInputGate, Slice.setEnvelope, if_true]
        exact ⟨a, (infOpt_le _ _).trans (inf_le_left.trans b), inf_le_left.trans hb.outG⟩

theorem updAll_out_below {k : Nat} {xs : List (Tube K)} {out : List (Itv K)} (h1 : BoxLe out (xs.map fun T => T.outGAt k)) :
    AllBelow (updAll k xs (out.map fun g => Slice.setOutputGate g true)) xs := by
  induction xs generalizing out with
  | nil => cases h1; exact .nil
  | cons T Ts ih =>
    cases h1 with
    | cons a h1 =>
      refine .cons (upd_below ?_ (Tube.Below.refl T)) (ih h1)
      intro p n s s0 hs hb
      simp only [Tube.outGAt, hs, Option.map_some, Option.getD_some] at a
      simp only [Slice.setOutputGate, if_true]
      exact ⟨hb.cod, hb.inG, (infOpt_le _ _).trans (inf_le_left.trans a)⟩

theorem staticStep_below {R : Itv K} {tmp : Bool} {ctc : List (Itv K) → List (Itv K)} (hc : ∀ X, BoxLe (ctc X) X) {k : Nat}
    {b : K × K} {last : Bool} (xs : List (Tube K)) : AllBelow (staticStep R tmp ctc k b last xs) xs := by
  unfold staticStep
  dsimp only
  split_ifs
  · exact (updAll_out_below (boxLe_dropTime (hc _))).trans (updAll_set_below (boxLe_dropTime (hc _)) (boxLe_dropTime (hc _)))
  · exact updAll_set_below (boxLe_dropTime (hc _)) (boxLe_dropTime (hc _))
  · exact AllBelow.refl xs

theorem staticLoop_below {R : Itv K} {tmp : Bool} {ctc : List (Itv K) → List (Itv K)} (hc : ∀ X, BoxLe (ctc X) X) (k : Nat)
    (bs : List (K × K)) (xs : List (Tube K)) : AllBelow (staticLoop R tmp ctc k bs xs) xs := by
  induction bs generalizing k xs with
  | nil => exact AllBelow.refl xs
  | cons b bs ih => exact (ih _ _).trans (staticStep_below hc xs)

/-! ### Gates after the contraction -/

theorem Tube.Below.inGAt {T T0 : Tube K} (h : T.Below T0) (k : Nat) : T.inGAt k ≤ T0.inGAt k := by
  unfold Tube.inGAt
  have hl := h.slices.length_eq
  cases hs : T.slices[k]? with
  | none =>
    rw [List.getElem?_eq_none_iff.mpr (by rw [← hl]; exact List.getElem?_eq_none_iff.mp hs)]
  | some s =>
    obtain ⟨s0, h0, hb⟩ := h.at hs
    rw [h0]
    exact hb.inG

theorem Tube.Below.outGAt {T T0 : Tube K} (h : T.Below T0) (k : Nat) : T.outGAt k ≤ T0.outGAt k := by
  unfold Tube.outGAt
  have hl := h.slices.length_eq
  cases hs : T.slices[k]? with
  | none =>
    rw [List.getElem?_eq_none_iff.mpr (by rw [← hl]; exact List.getElem?_eq_none_iff.mp hs)]
  | some s =>
    obtain ⟨s0, h0, hb⟩ := h.at hs
    rw [h0]
    exact hb.outG

theorem AllBelow.map {xs ys : List (Tube K)} (h : AllBelow xs ys) {φ : Tube K → Itv K}
    (hφ : ∀ T T0 : Tube K, T.Below T0 → φ T ≤ φ T0) : BoxLe (xs.map φ) (ys.map φ) := by
  unfold AllBelow at h
  induction h with
  | nil => exact .nil
  | cons a _ ih => exact .cons (hφ _ _ a) ih

theorem boxLe_withTime {tmp : Bool} {X Y : List (Itv K)} {t : Itv K} (h : BoxLe X Y) :
    BoxLe (withTime tmp t X) (withTime tmp t Y) := by
  cases tmp with
  | false => exact h
  | true => exact .cons le_rfl h

theorem boxLe_dropTime' {tmp : Bool} {X Y : List (Itv K)} (h : BoxLe X Y) : BoxLe (dropTime tmp X) (dropTime tmp Y) := by
  cases tmp with
  | false => exact h
  | true =>
    cases h with
    | nil => exact .nil
    | cons _ h => exact h

theorem updAll_set_inG {k : Nat} {xs : List (Tube K)} {env ing : List (Itv K)} (hk : ∀ T ∈ xs, ∃ s, T.slices[k]? = some s)
    (h1 : env.length = xs.length) (h2 : ing.length = xs.length) :
    BoxLe ((updAll k xs (List.zipWith staticSet env ing)).map fun T => T.inGAt k) ing := by
  induction xs generalizing env ing with
  | nil =>
    have : ing = [] := List.length_eq_zero_iff.mp (by simpa using h2)
    subst this
    cases env <;> exact .nil
  | cons T Ts ih =>
    cases env with
    | nil => simp at h1
    | cons e env =>
      cases ing with
      | nil => simp at h2
      | cons g ing =>
        refine .cons ?_ (ih (fun T hT => hk T (by simp [hT])) (by simpa using h1) (by simpa using h2))
        obtain ⟨s, hs⟩ := hk T (by simp)
        obtain ⟨p, n, hx⟩ := upd_at (u := staticSet e g) hs
        show (T.upd k (staticSet e g)).inGAt k ≤ g
        rw [Tube.inGAt, hx]
        exact (infOpt_le _ _).trans inf_le_left

theorem updAll_set_outG {k : Nat} {xs : List (Tube K)} {out : List (Itv K)} (hk : ∀ T ∈ xs, ∃ s, T.slices[k]? = some s)
    (h2 : out.length = xs.length) :
    BoxLe ((updAll k xs (out.map fun g => Slice.setOutputGate g true)).map fun T => T.outGAt k) out := by
  induction xs generalizing out with
  | nil =>
    have : out = [] := List.length_eq_zero_iff.mp (by simpa using h2)
    subst this
    exact .nil
  | cons T Ts ih =>
    cases out with
    | nil => simp at h2
    | cons g out =>
      refine .cons ?_ (ih (fun T hT => hk T (by simp [hT])) (by simpa using h2))
      obtain ⟨s, hs⟩ := hk T (by simp)
      obtain ⟨p, n, hx⟩ := upd_at (u := Slice.setOutputGate g true) hs
      show (T.upd k (Slice.setOutputGate g true)).outGAt k ≤ g
      rw [Tube.outGAt, hx]
      exact (infOpt_le _ _).trans inf_le_left

theorem staticStep_gates {R : Itv K} {tmp : Bool} {ctc : List (Itv K) → List (Itv K)} (hc : ∀ X, BoxLe (ctc X) X)
    (hm : ∀ X Y, BoxLe X Y → BoxLe (ctc X) (ctc Y)) {bs : List (K × K)} {k : Nat} {b : K × K} {last : Bool}
    {xs xs0 : List (Tube K)} (h0 : AllBelow xs xs0)
    (hk : ∀ T ∈ xs, T.cells.map (fun c => (c.lb, c.ub)) = bs) (hb : bs[k]? = some b)
    (hR : (Itv.icc b.1 b.2).intersects R = true) :
    BoxLe ((staticStep R tmp ctc k b last xs).map fun T => T.inGAt k)
      (dropTime tmp (ctc (withTime tmp (Itv.point b.1) (xs0.map fun T => T.inGAt k)))) ∧
    (last = true → BoxLe ((staticStep R tmp ctc k b last xs).map fun T => T.outGAt k)
      (dropTime tmp (ctc (withTime tmp (Itv.point b.2) (xs0.map fun T => T.outGAt k))))) := by
  have hl : ∀ X, (ctc X).length = X.length := fun X => (hc X).length_eq
  have l1 := dropTime_length (tmp := tmp) hl (Itv.icc b.1 b.2) (xs.map fun T => T.codAt k)
  have l2 := dropTime_length (tmp := tmp) hl (Itv.point b.1) (xs.map fun T => T.inGAt k)
  rw [List.length_map] at l1 l2
  have hks : ∀ T ∈ xs, ∃ s, T.slices[k]? = some s := fun T hT => exists_slice_of_bounds (hk T hT) hb
  have g1 := updAll_set_inG hks l1 l2
  have g0 : BoxLe (dropTime tmp (ctc (withTime tmp (Itv.point b.1) (xs.map fun T => T.inGAt k))))
      (dropTime tmp (ctc (withTime tmp (Itv.point b.1) (xs0.map fun T => T.inGAt k)))) :=
    boxLe_dropTime' (hm _ _ (boxLe_withTime (h0.map fun T T0 h => h.inGAt k)))
  have bb := updAll_set_below (boxLe_dropTime (tmp := tmp) (t := Itv.icc b.1 b.2) (hc (withTime tmp (Itv.icc b.1 b.2) (xs.map fun T => T.codAt k))))
    (boxLe_dropTime (tmp := tmp) (t := Itv.point b.1) (hc (withTime tmp (Itv.point b.1) (xs.map fun T => T.inGAt k))))
  have hk2 := updAll_bounds (k := k) (us := List.zipWith staticSet
        (dropTime tmp (ctc (withTime tmp (Itv.icc b.1 b.2) (xs.map fun T => T.codAt k))))
        (dropTime tmp (ctc (withTime tmp (Itv.point b.1) (xs.map fun T => T.inGAt k))))) hk
  unfold staticStep
  rw [if_pos hR]
  dsimp only
  revert g1 bb hk2
  generalize updAll k xs (List.zipWith staticSet _ _) = ys
  intro g1 bb hk2
  cases last with
  | false => exact ⟨g1.trans g0, fun h => by cases h⟩
  | true =>
    simp only [if_true]
    have hks2 : ∀ T ∈ ys, ∃ s, T.slices[k]? = some s := fun T hT => exists_slice_of_bounds (hk2 T hT) hb
    have l3 := dropTime_length (tmp := tmp) hl (Itv.point b.2) (ys.map fun T => T.outGAt k)
    rw [List.length_map] at l3
    refine ⟨?_, fun _ => ?_⟩
    · exact ((updAll_out_below (boxLe_dropTime (hc _))).map fun T T0 h => h.inGAt k).trans (g1.trans g0)
    · refine (updAll_set_outG hks2 l3).trans ?_
      exact boxLe_dropTime' (hm _ _ (boxLe_withTime ((bb.trans h0).map fun T T0 h => h.outGAt k)))

theorem staticLoop_gates {R : Itv K} {tmp : Bool} {ctc : List (Itv K) → List (Itv K)} (hc : ∀ X, BoxLe (ctc X) X)
    (hm : ∀ X Y, BoxLe X Y → BoxLe (ctc X) (ctc Y)) {bs : List (K × K)} (bs' : List (K × K)) (k : Nat) (hbs : bs.drop k = bs')
    {xs xs0 : List (Tube K)} (h0 : AllBelow xs xs0) (hk : ∀ T ∈ xs, T.cells.map (fun c => (c.lb, c.ub)) = bs) (j : Nat)
    (hj : k ≤ j) {b : K × K} (hb : bs[j]? = some b) (hR : (Itv.icc b.1 b.2).intersects R = true) :
    BoxLe ((staticLoop R tmp ctc k bs' xs).map fun T => T.inGAt j)
      (dropTime tmp (ctc (withTime tmp (Itv.point b.1) (xs0.map fun T => T.inGAt j)))) ∧
    (j + 1 = bs.length → BoxLe ((staticLoop R tmp ctc k bs' xs).map fun T => T.outGAt j)
      (dropTime tmp (ctc (withTime tmp (Itv.point b.2) (xs0.map fun T => T.outGAt j))))) := by
  induction bs' generalizing k xs with
  | nil =>
    have h1 := List.drop_eq_nil_iff.mp hbs
    have h2 := (List.getElem?_eq_some_iff.mp hb).1
    omega
  | cons b0 bs' ih =>
    have hb0 : bs[k]? = some b0 := by
      rw [← List.head?_drop, hbs]; rfl
    unfold staticLoop
    rcases eq_or_lt_of_le hj with rfl | hj
    · rw [hb] at hb0
      cases hb0
      have g := staticStep_gates (R := R) (tmp := tmp) (last := bs'.isEmpty) hc hm h0 hk hb hR
      have lb := staticLoop_below (R := R) (tmp := tmp) hc (k + 1) bs' (staticStep R tmp ctc k b bs'.isEmpty xs)
      refine ⟨(lb.map fun T T0 h => h.inGAt k).trans g.1, fun he => (lb.map fun T T0 h => h.outGAt k).trans (g.2 ?_)⟩
      have := congrArg List.length hbs
      simp only [List.length_drop, List.length_cons] at this
      rw [List.isEmpty_iff]
      exact List.length_eq_zero_iff.mp (by omega)
    · exact ih (k + 1) (by rw [← List.drop_drop, hbs]; rfl) ((staticStep_below hc xs).trans h0) (staticStep_bounds hk) hj

end Codac
