import Verif.Tube.Tree
import Verif.Tube.History

/-! # The tree synthesis under updates and queries -/

set_option linter.unusedSectionVars false

namespace Codac
section
variable {K : Type*} [Field K] [LinearOrder K] [IsStrictOrderedRing K]

/-- a tube with its synthesis tree -/
structure TState (K : Type*) [LinearOrder K] where
  T : Tube K
  tree : TTree K

/-- the slice of index `k` as read by the leaves -/
def sliceFn (T : Tube K) (k : Nat) : Slice K := (T.slices[k]?).getD ⟨T.t0, T.tf, ⊥, ⊥, ⊥⟩

/-- `Tube::enable_synthesis(BINARY_TREE)`, codac_Tube.cpp:1600-1610 -/
def Tube.withTree (T : Tube K) (h : T.slices ≠ []) : TState K := ⟨T, TTree.build 0 T.slices h⟩

/-- updates of a slice and queries on the tube, with a tree enabled -/
inductive TOp (K : Type*) [LinearOrder K] where
  /-- `slice(k)->set(y)` -/
  | set (k : Nat) (y : Itv K)
  /-- `slice(k)->set_envelope(e, consistency)` -/
  | setEnvelope (k : Nat) (e : Itv K) (consistency : Bool)
  /-- `slice(k)->set_input_gate(g, consistency)` -/
  | setInputGate (k : Nat) (g : Itv K) (consistency : Bool)
  /-- `slice(k)->set_output_gate(g, consistency)` -/
  | setOutputGate (k : Nat) (g : Itv K) (consistency : Bool)
  /-- `codomain()` -/
  | codomain
  /-- `eval()`, the bounds of the whole tube -/
  | bounds
  /-- `operator()([a,b])`, `a < b` -/
  | eval (a b : K)
  /-- `partial_integral([a,b])` -/
  | integral (a b : K)

namespace TState

/-- `codomain()` in tree mode, codac_Tube.cpp:1550-1553 -/
def codomain (st : TState K) : Itv K × TState K :=
  let r := TTree.codomainOf st.tree (TTree.updateValues (sliceFn st.T) st.tree)
  (r.1, if r.2 then { st with tree := TTree.updateValues (sliceFn st.T) st.tree } else st)

/-- `operator()([a,b])` in tree mode, codac_Tube.cpp:654-672 -/
def eval (st : TState K) (a b : K) : Itv K × TState K :=
  let r := TTree.evalItv st.T.evalAt a b st.tree (TTree.updateValues (sliceFn st.T) st.tree)
  (r.1, if r.2 then { st with tree := TTree.updateValues (sliceFn st.T) st.tree } else st)

/-- `eval()` on the whole time domain in tree mode, codac_TubeTreeSynthesis.cpp:163-166 -/
def bounds (st : TState K) : (Itv K × Itv K) × TState K :=
  let r := TTree.bounds (sliceFn st.T) st.tree
  (r.1, { st with tree := r.2 })

/-- `partial_integral([a,b])` in tree mode, codac_Tube.cpp:1395-1398 -/
def integral (A : IArith K) (st : TState K) (a b : K) : (Itv K × Itv K) × TState K :=
  let r := TTree.partialIntegral A st.T.slices st.tree a b
  (r.1, { st with tree := r.2 })

/-- an update of the slice `k` that requests the update of the values and of the integrals -/
def updBoth (st : TState K) (k : Nat) (u : Setter K) : TState K :=
  ⟨st.T.upd k u, TTree.reqIntegrals k (TTree.reqValues k st.tree).1⟩

/-- an update of the slice `k` that requests the update of the values only -/
def updValues (st : TState K) (k : Nat) (u : Setter K) : TState K := ⟨st.T.upd k u, (TTree.reqValues k st.tree).1⟩

/-- one operation: codac_Slice.cpp:443-518 for the updates -/
def step (A : IArith K) (st : TState K) : TOp K → TState K
  | .set k y => st.updBoth k (Slice.set y)
  | .setEnvelope k e c => st.updBoth k (Slice.setEnvelope e c)
  | .setInputGate k g c => st.updValues k (Slice.setInputGate g c)
  | .setOutputGate k g c => st.updValues k (Slice.setOutputGate g c)
  | .codomain => st.codomain.2
  | .bounds => st.bounds.2
  | .eval a b => (st.eval a b).2
  | .integral a b => (st.integral A a b).2

/-- a history of operations -/
def run (A : IArith K) (st : TState K) (ops : List (TOp K)) : TState K := ops.foldl (step A) st

end TState

/-- the updates of the tube alone, in a history -/
def TOp.onTube (T : Tube K) : TOp K → Tube K
  | .set k y => T.upd k (Slice.set y)
  | .setEnvelope k e c => T.upd k (Slice.setEnvelope e c)
  | .setInputGate k g c => T.upd k (Slice.setInputGate g c)
  | .setOutputGate k g c => T.upd k (Slice.setOutputGate g c)
  | _ => T

/-! ### Proofs -/

theorem slicesFrom_getElem? (g : Itv K) (cs : List (Cell K)) (i : Nat) :
    ((slicesFrom g cs)[i]?).map (fun s => (s.lb, s.ub, s.cod)) = (cs[i]?).map (fun c => (c.lb, c.ub, c.cod)) := by
  induction cs generalizing g i with
  | nil => simp
  | cons c cs ih =>
    cases i with
    | zero => simp
    | succ i => simpa using ih c.out i

theorem updFrom_cod_ne (u : Setter K) (k i : Nat) (hne : i ≠ k) (p : Option (Itv K)) (g : Itv K) (cs : List (Cell K)) :
    (((updFrom u k p g cs).2)[i]?).map Cell.cod = (cs[i]?).map Cell.cod := by
  induction cs generalizing k i p g with
  | nil => simp [updFrom]
  | cons c cs ih =>
    cases k with
    | zero =>
      cases i with
      | zero => exact absurd rfl hne
      | succ i => simp [updFrom]
    | succ k =>
      cases i with
      | zero => simp [updFrom]
      | succ i => simpa [updFrom] using ih k i (by omega) (some c.cod) c.out

/-- the current envelopes -/
def codFn (T : Tube K) (k : Nat) : Itv K := (sliceFn T k).cod

theorem codFn_eq (T : Tube K) (k : Nat) : codFn T k = ((T.cells[k]?).map Cell.cod).getD ⊥ := by
  have := slicesFrom_getElem? T.g0 T.cells k
  unfold codFn sliceFn Tube.slices
  revert this
  cases (slicesFrom T.g0 T.cells)[k]? <;> cases T.cells[k]? <;> simp +contextual

theorem codFn_upd {T : Tube K} {k i : Nat} (h : i ≠ k) (u : Setter K) : codFn (T.upd k u) i = codFn T i := by
  rw [codFn_eq, codFn_eq]
  simp only [Tube.upd]
  rw [updFrom_cod_ne u k i h]

theorem codFn_slices {T : Tube K} {i : Nat} {s : Slice K} (h : T.slices[i]? = some s) : codFn T (0 + i) = s.cod := by
  simp [codFn, sliceFn, h]

namespace TTree

theorem Repr.congr {k0 : Nat} {t : TTree K} {ss ss' : List (Slice K)} (h : t.Repr k0 ss)
    (e : ss.map (fun s => (s.lb, s.ub)) = ss'.map (fun s => (s.lb, s.ub))) : t.Repr k0 ss' := by
  induction t generalizing k0 ss ss' with
  | leaf k a b c =>
    obtain ⟨rfl, s, rfl, h1, h2⟩ := h
    cases ss' with
    | nil => simp at e
    | cons s' r =>
      cases r with
      | nil =>
        simp only [List.map_cons, List.map_nil, List.cons.injEq, Prod.mk.injEq, and_true] at e
        exact ⟨rfl, s', rfl, e.1 ▸ h1, e.2 ▸ h2⟩
      | cons _ _ => simp at e
  | node a b n c l r ih1 ih2 =>
    obtain ⟨s1, s2, rfl, n1, n2, r1, r2, hn, hl, hx, hy⟩ := h
    rw [List.map_append] at e
    have hlen : ss'.length = s1.length + s2.length := by
      have := congrArg List.length e
      simpa using this.symm
    have e1 : s1.map (fun s => (s.lb, s.ub)) = (ss'.take s1.length).map (fun s => (s.lb, s.ub)) := by
      rw [List.map_take, ← e, List.take_append_of_le_length (by simp), List.take_of_length_le (by simp)]
    have e2 : s2.map (fun s => (s.lb, s.ub)) = (ss'.drop s1.length).map (fun s => (s.lb, s.ub)) := by
      rw [List.map_drop, ← e]
      have : s1.length = (s1.map (fun s => (s.lb, s.ub))).length := by simp
      conv_rhs => rw [this]
      rw [List.drop_left]
    have l1 : (ss'.take s1.length).length = s1.length := by rw [List.length_take]; omega
    refine ⟨ss'.take s1.length, ss'.drop s1.length, (List.take_append_drop _ _).symm, ?_, ?_, ih1 r1 e1, ?_, ?_, ?_, hx, hy⟩
    · intro h'; rw [h'] at l1; exact n1 (List.length_eq_zero_iff.mp l1.symm)
    · intro h'
      rw [h'] at e2
      simp only [List.map_nil, List.map_eq_nil_iff] at e2
      exact n2 e2
    · rw [l1]; exact ih2 r2 e2
    · rw [hn, hlen, List.length_append]
    · rw [l1]; exact hl

/-- same shape, same cached envelopes and same value flags -/
def VEq : TTree K → TTree K → Prop
  | leaf k a b c, leaf k' a' b' c' => k = k' ∧ a = a' ∧ b = b' ∧ c.cod = c'.cod ∧ c.vneed = c'.vneed
  | node a b n c l r, node a' b' n' c' l' r' =>
    a = a' ∧ b = b' ∧ n = n' ∧ c.cod = c'.cod ∧ c.vneed = c'.vneed ∧ VEq l l' ∧ VEq r r'
  | _, _ => False

theorem VEq.refl (t : TTree K) : VEq t t := by
  induction t with
  | leaf => exact ⟨rfl, rfl, rfl, rfl, rfl⟩
  | node _ _ _ _ _ _ ih1 ih2 => exact ⟨rfl, rfl, rfl, rfl, rfl, ih1, ih2⟩

theorem VEq.shape {t u : TTree K} (h : VEq t u) : SameShape t u := by
  induction t generalizing u with
  | leaf k a b c =>
    cases u with
    | leaf => exact ⟨h.1, h.2.1, h.2.2.1⟩
    | node => exact h.elim
  | node a b n c l r ih1 ih2 =>
    cases u with
    | leaf => exact h.elim
    | node => exact ⟨h.1, h.2.1, h.2.2.1, ih1 h.2.2.2.2.2.1, ih2 h.2.2.2.2.2.2⟩

theorem VEq.vneed {t u : TTree K} (h : VEq t u) : t.cache.vneed = u.cache.vneed := by
  cases t <;> cases u <;> simp_all [VEq, cache]

theorem VEq.trans {t u v : TTree K} (h : VEq t u) (h' : VEq u v) : VEq t v := by
  induction t generalizing u v with
  | leaf k a b c =>
    cases u with
    | leaf => cases v with
      | leaf =>
        obtain ⟨rfl, rfl, rfl, e1, e2⟩ := h; obtain ⟨rfl, rfl, rfl, e3, e4⟩ := h'
        exact ⟨rfl, rfl, rfl, e1.trans e3, e2.trans e4⟩
      | node => exact h'.elim
    | node => exact h.elim
  | node a b n c l r ih1 ih2 =>
    cases u with
    | leaf => exact h.elim
    | node => cases v with
      | leaf => exact h'.elim
      | node =>
        obtain ⟨rfl, rfl, rfl, e1, e2, h1, h2⟩ := h
        obtain ⟨rfl, rfl, rfl, e3, e4, h1', h2'⟩ := h'
        exact ⟨rfl, rfl, rfl, e1.trans e3, e2.trans e4, ih1 h1 h1', ih2 h2 h2'⟩

theorem VEq.fresh {cd : Nat → Itv K} {t u : TTree K} (h : VEq t u) (hf : t.Fresh cd) : u.Fresh cd := by
  induction t generalizing u with
  | leaf k a b c =>
    cases u with
    | leaf => obtain ⟨rfl, _, _, h1, h2⟩ := h; intro hv; rw [← h1]; exact hf (h2.trans hv)
    | node => exact h.elim
  | node a b n c l r ih1 ih2 =>
    cases u with
    | leaf => exact h.elim
    | node a' b' n' c' l' r' =>
      obtain ⟨_, _, _, h1, h2, h3, h4⟩ := h
      obtain ⟨f0, f1, f2⟩ := hf
      refine ⟨fun hv => ?_, ih1 h3 f1, ih2 h4 f2⟩
      obtain ⟨g1, g2, g3⟩ := f0 (h2.trans hv)
      refine ⟨?_, h3.vneed ▸ g2, h4.vneed ▸ g3⟩
      rw [← h1, g1]
      simp only [TTree.hullOf, h3.shape.hullOf cd, h4.shape.hullOf cd]

theorem reqIntegral1_veq (k : Nat) (t : TTree K) : VEq t (reqIntegral1 k t).1 := by
  induction t with
  | leaf k' a b c => simp only [reqIntegral1]; split_ifs <;> exact ⟨rfl, rfl, rfl, rfl, rfl⟩
  | node a b n c l r ih1 ih2 => simp only [reqIntegral1]; split_ifs <;> exact ⟨rfl, rfl, rfl, rfl, rfl, ih1, ih2⟩

theorem reqIntegrals_veq (k : Nat) (t : TTree K) : VEq t (reqIntegrals k t) := by
  unfold reqIntegrals
  split_ifs
  · exact VEq.refl t
  · generalize List.range' k (t.nb - k) = l
    have : ∀ (l : List Nat) (t : TTree K), VEq t (l.foldl (fun t i => (reqIntegral1 i t).1) t) := by
      intro l
      induction l with
      | nil => exact VEq.refl
      | cons i l ih => intro t; exact (reqIntegral1_veq i t).trans (ih _)
    exact this l t

theorem setPrims_veq (ps : List (Itv K × Itv K)) (t : TTree K) : VEq t (setPrims ps t) := by
  induction t with
  | leaf => exact ⟨rfl, rfl, rfl, rfl, rfl⟩
  | node a b n c l r ih1 ih2 => exact ⟨rfl, rfl, rfl, rfl, rfl, ih1, ih2⟩

theorem upPrims_veq (t : TTree K) : VEq t (upPrims t) := by
  induction t with
  | leaf => exact ⟨rfl, rfl, rfl, rfl, rfl⟩
  | node a b n c l r ih1 ih2 =>
    simp only [upPrims]
    split_ifs
    · exact ⟨rfl, rfl, rfl, rfl, rfl, ih1, ih2⟩
    · exact VEq.refl _

theorem updateIntegrals_veq (A : IArith K) (ss : List (Slice K)) (t : TTree K) : VEq t (updateIntegrals A ss t) := by
  unfold updateIntegrals
  split_ifs
  · exact (setPrims_veq _ t).trans (upPrims_veq _)
  · exact VEq.refl t

theorem partialIntegral_veq (A : IArith K) (ss : List (Slice K)) (t : TTree K) (a b : K) :
    VEq t (partialIntegral A ss t a b).2 := by
  unfold partialIntegral
  dsimp only
  split_ifs
  · exact updateIntegrals_veq A ss t
  · exact VEq.refl t

end TTree

/-- what every reachable state satisfies -/
structure TState.Inv (st : TState K) : Prop where
  wf : st.T.WF
  repr : st.tree.Repr 0 st.T.slices
  fresh : st.tree.Fresh (codFn st.T)

theorem withTree_inv {T : Tube K} (h : T.WF) : (T.withTree (slices_ne_nil h)).Inv :=
  ⟨h, TTree.build_repr _ _ _, TTree.build_fresh _ _ _ _⟩

theorem upd_slices_bounds (T : Tube K) (k : Nat) (u : Setter K) :
    T.slices.map (fun s => (s.lb, s.ub)) = (T.upd k u).slices.map (fun s => (s.lb, s.ub)) := by
  rw [Tube.slices_bounds, Tube.slices_bounds, upd_bounds]

theorem updValues_inv {st : TState K} (h : st.Inv) (k : Nat) (u : Setter K) : (st.updValues k u).Inv := by
  obtain ⟨f, s, _, _⟩ := TTree.reqValues_spec (k := k) (cd' := codFn (st.T.upd k u))
    (fun i hi => codFn_upd hi u) h.fresh
  exact ⟨upd_wf h.wf k u, (s.repr h.repr).congr (upd_slices_bounds _ _ _), f⟩

theorem updBoth_inv {st : TState K} (h : st.Inv) (k : Nat) (u : Setter K) : (st.updBoth k u).Inv := by
  have hv := updValues_inv h k u
  have e := TTree.reqIntegrals_veq k (TTree.reqValues k st.tree).1
  exact ⟨hv.wf, e.shape.repr hv.repr, e.fresh hv.fresh⟩

theorem updateValues_inv {st : TState K} (h : st.Inv) :
    (TState.mk st.T (TTree.updateValues (sliceFn st.T) st.tree)).Inv := by
  obtain ⟨f, _, _, s⟩ := TTree.updateValues_spec (sl := sliceFn st.T) (cd := codFn st.T) (fun _ => rfl) h.fresh
  exact ⟨h.wf, s.repr h.repr, f⟩

theorem TState.step_inv {A : IArith K} {st : TState K} (h : st.Inv) (op : TOp K) : (st.step A op).Inv := by
  cases op with
  | set k y => exact updBoth_inv h k _
  | setEnvelope k e c => exact updBoth_inv h k _
  | setInputGate k g c => exact updValues_inv h k _
  | setOutputGate k g c => exact updValues_inv h k _
  | codomain =>
    simp only [step, codomain]
    split_ifs
    · exact updateValues_inv h
    · exact h
  | bounds =>
    simp only [step, bounds, TTree.bounds]
    split_ifs
    · exact updateValues_inv h
    · exact h
  | eval a b =>
    simp only [step, eval]
    split_ifs
    · exact updateValues_inv h
    · exact h
  | integral a b =>
    have e := TTree.partialIntegral_veq A st.T.slices st.tree a b
    exact ⟨h.wf, e.shape.repr h.repr, e.fresh h.fresh⟩

theorem TState.run_inv {A : IArith K} {st : TState K} (h : st.Inv) (ops : List (TOp K)) : (st.run A ops).Inv := by
  induction ops generalizing st with
  | nil => exact h
  | cons op ops ih => exact ih (step_inv h op)

theorem TState.run_T {A : IArith K} (st : TState K) (ops : List (TOp K)) :
    (st.run A ops).T = ops.foldl TOp.onTube st.T := by
  induction ops generalizing st with
  | nil => rfl
  | cons op ops ih =>
    change ((st.step A op).run A ops).T = _
    rw [ih, List.foldl_cons]
    congr 1
    cases op <;> simp only [step, TOp.onTube, updBoth, updValues, codomain, bounds, eval, integral]
    all_goals first | rfl | (split_ifs <;> rfl)

theorem TState.codomain_eq {st : TState K} (h : st.Inv) : st.codomain.1 = st.T.codomain := by
  unfold TState.codomain
  dsimp only
  rw [(TTree.updateValues_upd (sl := sliceFn st.T) (cd := codFn st.T) (fun _ => rfl) h.fresh).cod,
    TTree.hullOf_eq h.repr h.wf.tiles.stiles (fun i s => codFn_slices), Tube.codomain_eq_hullIn h.wf]

theorem TState.eval_eq {st : TState K} (h : st.Inv) {a b : K} (hab : a < b) (h1 : st.T.t0 ≤ a) (h2 : b ≤ st.T.tf) :
    (st.eval a b).1 = st.T.evalItv (.icc a b) := by
  unfold TState.eval
  dsimp only
  rw [TTree.evalItv_eq h.repr h.wf.tiles.stiles (fun i s => codFn_slices)
    (TTree.updateValues_upd (sl := sliceFn st.T) (fun _ => rfl) h.fresh) hab h1 h2, Tube.evalItv_eq_hullIn h.wf hab h1 h2]

end
end Codac
