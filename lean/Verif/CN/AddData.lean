import Verif.Traj.TubeTraj
import Verif.Ctc.Delay
import Verif.Ctc.Static

/-!
# `ContractorNetwork::add_data`

Models `/repo/src/core/cn/codac_Domain.cpp:846-905`. The trigger of the contractors related to the slices (line 900) is not in this model: it only queues them.
-/

set_option linter.unusedSectionVars false

namespace Codac

variable {K : Type*} [Field K] [LinearOrder K]

/-- the tube and the trajectories of the data, `m_traj_lb`, `m_traj_ub` (codac_Domain.h:174) -/
structure DataState (K : Type*) [LinearOrder K] where
  tube : Tube K
  lo : Traj K
  hi : Traj K

/-- `m_traj_lb(tdomain) | m_traj_ub(tdomain)`, codac_Domain.cpp:892. Where a trajectory is not defined (an assert of the code) the empty set. -/
def dataEnv (lo hi : Traj K) (a b : K) : Itv K := ((lo.evalItv (Itv.icc a b)).getD ⊥) ⊔ ((hi.evalItv (Itv.icc a b)).getD ⊥)

/-- the loop of `add_data`, codac_Domain.cpp:890-904; the argument `k + 1` stands for the slice of index `k` -/
def addDataLoop (lo hi : Traj K) : Nat → Tube K → Tube K
  | 0, T => T
  | k + 1, T =>
    match T.slices[k]? with
    | none => T
    | some s =>
      if Itv.icc s.lb s.ub ≤ lo.dom then
        if s.cod ≤ dataEnv lo hi s.lb s.ub then T
        else addDataLoop lo hi k (T.upd k (Slice.setEnvelope (dataEnv lo hi s.lb s.ub)))
      else T

/-- `Domain::add_data(t, [yl,yu])`, codac_Domain.cpp:846-905; `none`: an exception is thrown (line 861) -/
def DataState.add (S : DataState K) (t yl yu : K) : Option (DataState K) :=
  if S.lo.pts = [] then some ⟨S.tube, S.lo.set yl t, S.hi.set yu t⟩
  else
    match S.lo.dom.ub? with
    | none => none  -- not reachable: the domain of a non-empty trajectory is bounded
    | some prev =>
      if t ≤ prev then none
      else
        let lo := S.lo.set yl t
        let hi := S.hi.set yu t
        if prev < S.tube.t0 then some ⟨S.tube, lo, hi⟩
        else if t < S.tube.tf then
          -- `slice(t)->prev_slice()`: the slice of index `k` such that `k + 1` is the index of `slice(t)`; nothing is done if this is the first one
          some ⟨addDataLoop lo hi (timeToIndex t S.tube.slices) S.tube, lo, hi⟩
        else some ⟨addDataLoop lo hi S.tube.nbSlices S.tube, lo, hi⟩

/-- a sequence of data `(t, yl, yu)` -/
def DataState.addAll : List (K × K × K) → DataState K → Option (DataState K)
  | [], S => some S
  | d :: D, S => (S.add d.1 d.2.1 d.2.2).bind (DataState.addAll D)

/-- specification: at each instant covered by the data, `f` is between the piecewise linear functions through the lower bounds and through the upper bounds -/
def FollowsData (D : List (K × K × K)) (f : K → K) : Prop :=
  ∀ t vl vu, Interp (D.map fun d => (d.1, d.2.1)) t vl → Interp (D.map fun d => (d.1, d.2.2)) t vu → vl ≤ f t ∧ f t ≤ vu

variable [IsStrictOrderedRing K]

/-- the interval given by the data contains the functions between the bounds -/
theorem mem_dataEnv {lo hi : Traj K} (h1 : TrajOk lo) (h2 : TrajOk hi) (hd : lo.dom = hi.dom) {f : K → K}
    (hf : ∀ t vl vu, lo.evalAt t = some vl → hi.evalAt t = some vu → vl ≤ f t ∧ f t ≤ vu) {a b : K} (hab : a ≤ b) (hi' : Itv.icc a b ≤ lo.dom) {t : K} (ha : a ≤ t) (hb : t ≤ b) :
    f t ∈ dataEnv lo hi a b := by
  obtain ⟨X, _, _, hX, _, hr, _⟩ := evalItv_range h1 hab hi'
  obtain ⟨Y, _, _, hY, _, hr', _⟩ := evalItv_range h2 hab (hd ▸ hi')
  have ht := Itv.mem_of_le hi' (Itv.mem_icc.mpr ⟨ha, hb⟩)
  obtain ⟨v, hv⟩ := evalAt_some h1 ht
  obtain ⟨w, hw⟩ := evalAt_some h2 (hd ▸ ht)
  unfold dataEnv
  rw [hX, hY]
  obtain ⟨k1, k2⟩ := hf t v w hv hw
  exact Itv.mem_sup_of_between (hr t v ha hb hv) (hr' t w ha hb hw) k1 k2

theorem setEnvelope_gc {e : Itv K} {p n : Option (Itv K)} {s : Slice K} (h : LocalGC p n s) : LocalGC p n (Slice.setEnvelope e true p n s) := by
  unfold Slice.setEnvelope
  exact ⟨inf_le_right, inf_le_right, fun c hc => inf_le_left.trans (h.inP c hc), fun c hc => inf_le_left.trans (h.outN c hc)⟩

theorem addDataLoop_inv (lo hi : Traj K) (k : Nat) {T : Tube K} (hT : T.WF) (hg : T.GatesInEnvelopes) :
    (addDataLoop lo hi k T).WF ∧ (addDataLoop lo hi k T).GatesInEnvelopes ∧ (addDataLoop lo hi k T).t0 = T.t0 ∧ (addDataLoop lo hi k T).tf = T.tf := by
  induction k generalizing T with
  | zero => exact ⟨hT, hg, rfl, rfl⟩
  | succ k ih =>
    rw [addDataLoop]
    cases e : T.slices[k]? with
    | none => exact ⟨hT, hg, rfl, rfl⟩
    | some s =>
      dsimp only
      by_cases c1 : Itv.icc s.lb s.ub ≤ lo.dom
      · rw [if_pos c1]
        by_cases c2 : s.cod ≤ dataEnv lo hi s.lb s.ub
        · rw [if_pos c2]; exact ⟨hT, hg, rfl, rfl⟩
        · rw [if_neg c2]
          exact ih (upd_wf hT k _) (upd_gc (fun p n s h => setEnvelope_gc h) hg)
      · rw [if_neg c1]; exact ⟨hT, hg, rfl, rfl⟩

theorem addDataLoop_sound {lo hi : Traj K} (h1 : TrajOk lo) (h2 : TrajOk hi) (hd : lo.dom = hi.dom) {f : K → K}
    (hf : ∀ t vl vu, lo.evalAt t = some vl → hi.evalAt t = some vu → vl ≤ f t ∧ f t ≤ vu) (k : Nat) {T : Tube K} (hT : T.WF) (hg : T.GatesInEnvelopes) (hfT : T.Encloses f) :
    (addDataLoop lo hi k T).Encloses f := by
  induction k generalizing T with
  | zero => exact hfT
  | succ k ih =>
    rw [addDataLoop]
    cases e : T.slices[k]? with
    | none => exact hfT
    | some s =>
      dsimp only
      by_cases c1 : Itv.icc s.lb s.ub ≤ lo.dom
      · rw [if_pos c1]
        by_cases c2 : s.cod ≤ dataEnv lo hi s.lb s.ub
        · rw [if_pos c2]; exact hfT
        · rw [if_neg c2]
          refine ih (upd_wf hT k _) (upd_gc (fun p n s h => setEnvelope_gc h) hg) ?_
          refine upd_encloses hT hg ?_ hfT
          intro p n s' hs' _ hs'f
          rw [e, Option.some.injEq] at hs'
          subst hs'
          have hlt := (hT.tiles.mem_bounds (List.mem_of_getElem? e)).2.1
          have hm := fun t (ha : s.lb ≤ t) (hb : t ≤ s.ub) => mem_dataEnv h1 h2 hd hf hlt.le c1 ha hb
          exact ⟨Itv.mem_inf.mpr ⟨hs'f.1, hm _ le_rfl hlt.le⟩, Itv.mem_inf.mpr ⟨hs'f.2.1, hm _ hlt.le le_rfl⟩, fun t ha hb => hm t ha.le hb.le⟩
      · rw [if_neg c1]; exact hfT

/-- when each interval of the data is comparable with the envelope, the tube only shrinks -/
theorem addDataLoop_below {lo hi : Traj K} {T0 : Tube K} (hc : ∀ s ∈ T0.slices, Itv.icc s.lb s.ub ≤ lo.dom → dataEnv lo hi s.lb s.ub ≤ s.cod ∨ s.cod ≤ dataEnv lo hi s.lb s.ub) (k : Nat) {T : Tube K}
    (hT : T.Below T0) (hk : ∀ j < k, T.codAt j = T0.codAt j) : (addDataLoop lo hi k T).Below T0 := by
  induction k generalizing T with
  | zero => exact hT
  | succ k ih =>
    rw [addDataLoop]
    cases e : T.slices[k]? with
    | none => exact hT
    | some s =>
      dsimp only
      by_cases c1 : Itv.icc s.lb s.ub ≤ lo.dom
      · rw [if_pos c1]
        by_cases c2 : s.cod ≤ dataEnv lo hi s.lb s.ub
        · rw [if_pos c2]; exact hT
        · rw [if_neg c2]
          obtain ⟨s0, e0, hb⟩ := hT.at e
          have hcod : s.cod = s0.cod := by
            have := hk k (Nat.lt_succ_self k)
            unfold Tube.codAt at this
            rwa [e, e0] at this
          have hle : dataEnv lo hi s.lb s.ub ≤ s0.cod := by
            have := hc s0 (List.mem_of_getElem? e0)
            rw [← hb.lb, ← hb.ub] at this
            rcases this c1 with h | h
            · exact h
            · rw [← hcod] at h; exact absurd h c2
          refine ih (upd_below ?_ hT) ?_
          · intro p n r r0 hr0 hr
            rw [e0, Option.some.injEq] at hr0
            subst hr0
            exact ⟨hle, inf_le_left.trans hr.inG, inf_le_left.trans hr.outG⟩
          · intro j hj
            rw [upd_codAt_ne (by omega)]
            exact hk j (by omega)
      · rw [if_neg c1]; exact hT

/-- when the intervals of the data are in the envelopes of `T0`, the tube stays included in `T0` -/
theorem addDataLoop_below_of {lo hi : Traj K} {T0 : Tube K} (hc : ∀ s ∈ T0.slices, Itv.icc s.lb s.ub ≤ lo.dom → dataEnv lo hi s.lb s.ub ≤ s.cod) (k : Nat) {T : Tube K}
    (hT : T.Below T0) : (addDataLoop lo hi k T).Below T0 := by
  induction k generalizing T with
  | zero => exact hT
  | succ k ih =>
    rw [addDataLoop]
    cases e : T.slices[k]? with
    | none => exact hT
    | some s =>
      dsimp only
      by_cases c1 : Itv.icc s.lb s.ub ≤ lo.dom
      · rw [if_pos c1]
        by_cases c2 : s.cod ≤ dataEnv lo hi s.lb s.ub
        · rw [if_pos c2]; exact hT
        · rw [if_neg c2]
          obtain ⟨s0, e0, hb⟩ := hT.at e
          refine ih (upd_below ?_ hT)
          intro p n r r0 hr0 hr
          have := hc s0 (List.mem_of_getElem? e0)
          rw [← hb.lb, ← hb.ub] at this
          rw [e0, Option.some.injEq] at hr0
          subst hr0
          exact ⟨this c1, inf_le_left.trans hr.inG, inf_le_left.trans hr.outG⟩
      · rw [if_neg c1]; exact hT

/-- the loop does not change the envelopes of the slices after its start -/
theorem addDataLoop_codAt {lo hi : Traj K} (k : Nat) (T : Tube K) {j : Nat} (hj : k ≤ j) : (addDataLoop lo hi k T).codAt j = T.codAt j := by
  induction k generalizing T with
  | zero => rfl
  | succ k ih =>
    rw [addDataLoop]
    cases e : T.slices[k]? with
    | none => rfl
    | some s =>
      dsimp only
      by_cases c1 : Itv.icc s.lb s.ub ≤ lo.dom
      · rw [if_pos c1]
        by_cases c2 : s.cod ≤ dataEnv lo hi s.lb s.ub
        · rw [if_pos c2]
        · rw [if_neg c2, ih _ (by omega), upd_codAt_ne (by omega)]
      · rw [if_neg c1]

/-- the last slice covered by the data -/
theorem addDataLoop_last {lo hi : Traj K} (k : Nat) (T : Tube K) {s : Slice K} (hs : T.slices[k]? = some s) (hd : Itv.icc s.lb s.ub ≤ lo.dom) :
    (addDataLoop lo hi (k + 1) T).codAt k = if s.cod ≤ dataEnv lo hi s.lb s.ub then s.cod else dataEnv lo hi s.lb s.ub := by
  rw [addDataLoop, hs]
  dsimp only
  rw [if_pos hd]
  by_cases c2 : s.cod ≤ dataEnv lo hi s.lb s.ub
  · rw [if_pos c2, if_pos c2]; unfold Tube.codAt; rw [hs]; rfl
  · rw [if_neg c2, if_neg c2, addDataLoop_codAt k _ le_rfl]
    obtain ⟨p, n, h⟩ := upd_at (u := Slice.setEnvelope (dataEnv lo hi s.lb s.ub)) hs
    unfold Tube.codAt
    rw [h]
    rfl

/-! ### Sequences of data -/

theorem Interp.append {l m : List (K × K)} {t v : K} (h : Interp l t v) : Interp (l ++ m) t v := by
  rcases h with h | ⟨l1, p, q, l2, rfl, h⟩
  · exact .inl (List.mem_append_left _ h)
  · exact .inr ⟨l1, p, q, l2 ++ m, by simp, h⟩

theorem FollowsData.left {P D : List (K × K × K)} {f : K → K} (h : FollowsData (P ++ D) f) : FollowsData P f := by
  intro t vl vu h1 h2
  refine h t vl vu ?_ ?_ <;> rw [List.map_append] <;> exact Interp.append ‹_›

theorem setPt_of_gt {l : List (K × K)} {t y : K} (h : ∀ p ∈ l, p.1 < t) : setPt t y l = l ++ [(t, y)] := by
  induction l with
  | nil => rfl
  | cons p l ih =>
    have hp := h p (by simp)
    rw [setPt, if_neg (not_lt.mpr hp.le), if_neg (ne_of_gt hp), ih fun q hq => h q (by simp [hq])]
    rfl

/-- the state after the data `D` -/
structure DataInv (D : List (K × K × K)) (S : DataState K) : Prop where
  lo : TrajOk S.lo
  hi : TrajOk S.hi
  loP : S.lo.pts = D.map fun d => (d.1, d.2.1)
  hiP : S.hi.pts = D.map fun d => (d.1, d.2.2)
  wf : S.tube.WF
  gc : S.tube.GatesInEnvelopes

theorem DataInv.dom {D : List (K × K × K)} {S : DataState K} (h : DataInv D S) : S.lo.dom = S.hi.dom := by
  have h1 := h.lo.dom
  have h2 := h.hi.dom
  rw [h.loP, List.map_map] at h1
  rw [h.hiP, List.map_map] at h2
  exact h1.unique h2

theorem DataInv.mem_le {D : List (K × K × K)} {S : DataState K} (h : DataInv D S) {prev : K} (hp : S.lo.dom.ub? = some prev) : ∀ d ∈ D, d.1 ≤ prev := by
  intro d hd
  have := h.lo.dom.1 d.1 (by rw [h.loP, List.map_map]; exact List.mem_map.mpr ⟨d, hd, rfl⟩)
  cases e : S.lo.dom with
  | empty => rw [e] at this; exact this.elim
  | mk a b p =>
    rw [e] at this hp
    have hb : b = some prev := hp
    subst hb
    exact this.2

/-- the bounds of the data at the instants where the trajectories are defined -/
theorem DataInv.follows {D : List (K × K × K)} {S : DataState K} (h : DataInv D S) {f : K → K} (hf : FollowsData D f) :
    ∀ t vl vu, S.lo.evalAt t = some vl → S.hi.evalAt t = some vu → vl ≤ f t ∧ f t ≤ vu := by
  intro t vl vu h1 h2
  rw [evalAt_iff h.lo, h.loP] at h1
  rw [evalAt_iff h.hi, h.hiP] at h2
  exact hf t vl vu h1 h2

/-- the interval given by the data is in any interval containing the values of the data -/
theorem DataInv.env_le {D : List (K × K × K)} {S : DataState K} (h : DataInv D S) {a b : K} (hab : a ≤ b) (hd : Itv.icc a b ≤ S.lo.dom) {Y : Itv K}
    (hY : ∀ t v, a ≤ t → t ≤ b → Interp (D.map fun d => (d.1, d.2.1)) t v ∨ Interp (D.map fun d => (d.1, d.2.2)) t v → v ∈ Y) : dataEnv S.lo S.hi a b ≤ Y := by
  obtain ⟨X, m, M, hX, rfl, _, ⟨t1, a1, b1, e1⟩, ⟨t2, a2, b2, e2⟩⟩ := evalItv_range h.lo hab hd
  obtain ⟨X', m', M', hX', rfl, _, ⟨t3, a3, b3, e3⟩, ⟨t4, a4, b4, e4⟩⟩ := evalItv_range h.hi hab (h.dom ▸ hd)
  unfold dataEnv
  rw [hX, hX']
  rw [evalAt_iff h.lo, h.loP] at e1 e2
  rw [evalAt_iff h.hi, h.hiP] at e3 e4
  refine sup_le ?_ ?_
  · rw [Option.getD_some, Itv.le_iff]
    intro x hx
    rw [Itv.mem_icc] at hx
    exact Itv.mem_of_between (hY t1 m a1 b1 (.inl e1)) (hY t2 M a2 b2 (.inl e2)) hx.1 hx.2
  · rw [Option.getD_some, Itv.le_iff]
    intro x hx
    rw [Itv.mem_icc] at hx
    exact Itv.mem_of_between (hY t3 m' a3 b3 (.inr e3)) (hY t4 M' a4 b4 (.inr e4)) hx.1 hx.2

theorem DataState.add_inv {D : List (K × K × K)} {S S' : DataState K} (h : DataInv D S) {t yl yu : K} (hS : S.add t yl yu = some S') :
    DataInv (D ++ [(t, yl, yu)]) S' ∧ (∀ d ∈ D, d.1 < t) ∧ S'.tube.t0 = S.tube.t0 ∧ S'.tube.tf = S.tube.tf ∧
      ∀ f, FollowsData (D ++ [(t, yl, yu)]) f → S.tube.Encloses f → S'.tube.Encloses f := by
  unfold DataState.add at hS
  by_cases hp : S.lo.pts = []
  · rw [if_pos hp, Option.some.injEq] at hS
    subst hS
    have hD : D = [] := by rw [h.loP] at hp; exact List.map_eq_nil_iff.mp hp
    subst hD
    refine ⟨⟨h.lo.set _ _, h.hi.set _ _, ?_, ?_, h.wf, h.gc⟩, by simp, rfl, rfl, fun f _ hf => hf⟩
    · rw [set_pts, h.loP]; rfl
    · rw [set_pts, h.hiP]; rfl
  · rw [if_neg hp] at hS
    cases e : S.lo.dom.ub? with
    | none => rw [e] at hS; cases hS
    | some prev =>
      rw [e] at hS
      dsimp only at hS
      by_cases ht : t ≤ prev
      · rw [if_pos ht] at hS; cases hS
      · rw [if_neg ht] at hS
        have hlt : ∀ d ∈ D, d.1 < t := fun d hd => lt_of_le_of_lt (h.mem_le e d hd) (not_le.mp ht)
        have k1 : (S.lo.set yl t).pts = (D ++ [(t, yl, yu)]).map fun d => (d.1, d.2.1) := by
          rw [set_pts, h.loP, setPt_of_gt (fun p hp => by obtain ⟨d, hd, rfl⟩ := List.mem_map.mp hp; exact hlt d hd), List.map_append]; rfl
        have k2 : (S.hi.set yu t).pts = (D ++ [(t, yl, yu)]).map fun d => (d.1, d.2.2) := by
          rw [set_pts, h.hiP, setPt_of_gt (fun p hp => by obtain ⟨d, hd, rfl⟩ := List.mem_map.mp hp; exact hlt d hd), List.map_append]; rfl
        have base : DataInv (D ++ [(t, yl, yu)]) ⟨S.tube, S.lo.set yl t, S.hi.set yu t⟩ := ⟨h.lo.set _ _, h.hi.set _ _, k1, k2, h.wf, h.gc⟩
        have loop : ∀ k, DataInv (D ++ [(t, yl, yu)]) ⟨addDataLoop (S.lo.set yl t) (S.hi.set yu t) k S.tube, S.lo.set yl t, S.hi.set yu t⟩ ∧ (∀ d ∈ D, d.1 < t) ∧
            (addDataLoop (S.lo.set yl t) (S.hi.set yu t) k S.tube).t0 = S.tube.t0 ∧ (addDataLoop (S.lo.set yl t) (S.hi.set yu t) k S.tube).tf = S.tube.tf ∧
            ∀ f, FollowsData (D ++ [(t, yl, yu)]) f → S.tube.Encloses f → (addDataLoop (S.lo.set yl t) (S.hi.set yu t) k S.tube).Encloses f := by
          intro k
          have key := fun (f : K → K) hf => addDataLoop_sound base.lo base.hi base.dom (f := f) hf k h.wf h.gc
          have inv := addDataLoop_inv (S.lo.set yl t) (S.hi.set yu t) k h.wf h.gc
          exact ⟨⟨base.lo, base.hi, k1, k2, inv.1, inv.2.1⟩, hlt, inv.2.2.1, inv.2.2.2, fun f hf => (key f (base.follows hf))⟩
        by_cases c1 : prev < S.tube.t0
        · rw [if_pos c1, Option.some.injEq] at hS
          subst hS
          exact ⟨base, hlt, rfl, rfl, fun f _ hf => hf⟩
        · rw [if_neg c1] at hS
          by_cases c2 : t < S.tube.tf
          · rw [if_pos c2, Option.some.injEq] at hS; subst hS; exact loop _
          · rw [if_neg c2, Option.some.injEq] at hS; subst hS; exact loop _

theorem DataState.add_below {D : List (K × K × K)} {S S' : DataState K} (h : DataInv D S) {t yl yu : K} (hS : S.add t yl yu = some S') {T0 : Tube K} (hT0 : T0.WF) (hb : S.tube.Below T0)
    (hY : ∀ s ∈ T0.slices, ∀ u v, s.lb ≤ u → u ≤ s.ub → Interp ((D ++ [(t, yl, yu)]).map fun d => (d.1, d.2.1)) u v ∨ Interp ((D ++ [(t, yl, yu)]).map fun d => (d.1, d.2.2)) u v → v ∈ s.cod) :
    S'.tube.Below T0 := by
  obtain ⟨inv, _⟩ := DataState.add_inv h hS
  have hc : ∀ s ∈ T0.slices, Itv.icc s.lb s.ub ≤ S'.lo.dom → dataEnv S'.lo S'.hi s.lb s.ub ≤ s.cod := fun s hs hd =>
    inv.env_le (hT0.tiles.mem_bounds hs).2.1.le hd (hY s hs)
  unfold DataState.add at hS
  by_cases hp : S.lo.pts = []
  · rw [if_pos hp, Option.some.injEq] at hS; subst hS; exact hb
  · rw [if_neg hp] at hS
    cases e : S.lo.dom.ub? with
    | none => rw [e] at hS; cases hS
    | some prev =>
      rw [e] at hS
      dsimp only at hS
      by_cases ht : t ≤ prev
      · rw [if_pos ht] at hS; cases hS
      · rw [if_neg ht] at hS
        by_cases c1 : prev < S.tube.t0
        · rw [if_pos c1, Option.some.injEq] at hS; subst hS; exact hb
        · rw [if_neg c1] at hS
          by_cases c2 : t < S.tube.tf
          · rw [if_pos c2, Option.some.injEq] at hS; subst hS; exact addDataLoop_below_of hc _ hb
          · rw [if_neg c2, Option.some.injEq] at hS; subst hS; exact addDataLoop_below_of hc _ hb

theorem DataState.addAll_inv {P D : List (K × K × K)} {S S' : DataState K} (h : DataInv P S) (hS : DataState.addAll D S = some S') :
    DataInv (P ++ D) S' ∧ S'.tube.t0 = S.tube.t0 ∧ S'.tube.tf = S.tube.tf ∧ ∀ f, FollowsData (P ++ D) f → S.tube.Encloses f → S'.tube.Encloses f := by
  induction D generalizing P S with
  | nil =>
    cases hS
    rw [List.append_nil]
    exact ⟨h, rfl, rfl, fun f _ hf => hf⟩
  | cons d D ih =>
    rw [DataState.addAll] at hS
    cases e : S.add d.1 d.2.1 d.2.2 with
    | none => rw [e] at hS; cases hS
    | some S1 =>
      rw [e, Option.bind_some] at hS
      obtain ⟨h1, _, h2, h3, h4⟩ := DataState.add_inv h e
      obtain ⟨i1, i2, i3, i4⟩ := ih h1 hS
      rw [List.append_assoc] at i1 i4
      exact ⟨i1, i2.trans h2, i3.trans h3, fun f hf hT => i4 f hf (h4 f (FollowsData.left (D := D) (by rw [List.append_assoc]; exact hf)) hT)⟩

theorem DataState.addAll_below {P D : List (K × K × K)} {S S' : DataState K} (h : DataInv P S) (hS : DataState.addAll D S = some S') {T0 : Tube K} (hT0 : T0.WF) (hb : S.tube.Below T0)
    (hY : ∀ s ∈ T0.slices, ∀ u v, s.lb ≤ u → u ≤ s.ub → Interp ((P ++ D).map fun d => (d.1, d.2.1)) u v ∨ Interp ((P ++ D).map fun d => (d.1, d.2.2)) u v → v ∈ s.cod) :
    S'.tube.Below T0 := by
  induction D generalizing P S with
  | nil => cases hS; exact hb
  | cons d D ih =>
    rw [DataState.addAll] at hS
    cases e : S.add d.1 d.2.1 d.2.2 with
    | none => rw [e] at hS; cases hS
    | some S1 =>
      rw [e, Option.bind_some] at hS
      obtain ⟨h1, _⟩ := DataState.add_inv h e
      have hE : P ++ d :: D = (P ++ [d]) ++ D := by simp
      rw [hE] at hY
      refine ih h1 hS (DataState.add_below h e hT0 hb ?_) hY
      intro s hs u v hu hv hi
      refine hY s hs u v hu hv ?_
      rw [List.map_append, List.map_append (l₁ := P ++ [d])]
      exact hi.imp Interp.append Interp.append

end Codac
