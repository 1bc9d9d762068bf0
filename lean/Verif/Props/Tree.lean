import Verif.Tube.TreeIntegral
import Verif.Props.Integral

/-!
# Properties C14, C15: the binary-tree synthesis

`T.withTree` is the tube with a freshly built tree; `st.run A ops` the state after the history `ops` of slice updates
and queries, whose effect on the tube alone is `TOp.onTube`.
-/

namespace Codac.Props
open Codac

section
variable {K : Type*} [Field K] [LinearOrder K] [IsStrictOrderedRing K]

/-! ## C14 -/

/-- **C14**, structure: number of slices, access by index and by time, index of an instant: the same through the tree as
in the list of slices. It holds for a fresh tree and after any history. -/
theorem C14_structure {A : IArith K} {T : Tube K} (h : T.WF) (ops : List (TOp K)) :
    let st := (T.withTree (slices_ne_nil h)).run A ops
    st.tree.nb = st.T.nbSlices ∧
    (∀ i, i < st.T.nbSlices → st.T.slices[st.tree.sliceIdx i]? = st.T.sliceAt i) ∧
    (∀ t, st.T.t0 ≤ t → t ≤ st.T.tf → st.T.slices[st.tree.sliceAtTime t]? = st.T.slice t) ∧
    (∀ t, st.T.t0 ≤ t → t ≤ st.T.tf → st.tree.timeToIndex t = timeToIndex t st.T.slices) := by
  intro st
  have hi : st.Inv := TState.run_inv (withTree_inv h) ops
  have ht := hi.wf.tiles.stiles (g := st.T.g0)
  have hlen : st.T.slices.length = st.T.nbSlices := by
    have := congrArg List.length (Tube.slices_bounds st.T)
    simpa [Tube.nbSlices] using this
  refine ⟨hi.repr.nb_eq.trans hlen, ?_, ?_, ?_⟩
  · intro i hlt
    have := TTree.sliceIdx_eq hi.repr (i := i) (by omega)
    rw [this, Nat.zero_add]; rfl
  · intro t h1 h2
    rw [TTree.sliceAtTime_eq hi.repr ht h1 h2, Nat.zero_add, Tube.slice, if_pos ⟨h1, h2⟩, seek_head_eq_index]
  · intro t h1 h2
    exact TTree.timeToIndex_eq hi.repr ht h1 h2

/-- **C14**, values: `codomain()` and `operator()([a,b])` are those of the plain tube. -/
theorem C14_values {T : Tube K} (h : T.WF) :
    (T.withTree (slices_ne_nil h)).codomain.1 = T.codomain ∧
    ∀ a b, a < b → T.t0 ≤ a → b ≤ T.tf →
      ((T.withTree (slices_ne_nil h)).eval a b).1 = T.evalItv (.icc a b) :=
  ⟨TState.codomain_eq (withTree_inv h), fun _ _ h1 h2 h3 => TState.eval_eq (withTree_inv h) h1 h2 h3⟩

/-- **C14**, inversion: the answer through the tree contains every instant of the search interval at which a trajectory
of the tube is in `y`; it holds after any history. -/
theorem C14_invert {A : IArith K} {T : Tube K} (h : T.WF) (ops : List (TOp K)) :
    let st := (T.withTree (slices_ne_nil h)).run A ops
    st.T.GatesInEnvelopes → ∀ f, st.T.Encloses f → ∀ (y S : Itv K), S ≤ .icc st.T.t0 st.T.tf →
      ∀ t ∈ S, f t ∈ y → t ∈ (st.invert y S).1 := by
  intro st hg f hf y S hS t ht hy
  exact TState.invert_mem (TState.run_inv (withTree_inv h) ops) hg hf hS ht hy

/-- **C14**, partial integrals, part: through a fresh tree they enclose the primitives of the signals of the tube, when
the envelopes are bounded and each slice which `[a,b]` covers in part has non null bounds. Without the last condition
this is false: `C14_tree_integral_fails`. -/
theorem C14_tree_integral_partial {A : IArith K} {T : Tube K} (h : T.WF) {F : K → K} (hF : T.SlopeIn F) (h0 : F T.t0 = 0)
    (hbd : ∀ s ∈ T.slices, s.cod.isUnbounded = false) {a b : K}
    (hok : ∀ s ∈ T.slices, s.lb ≤ b → a ≤ s.ub →
      (a ≤ s.lb ∧ s.ub ≤ b) ∨ (s.cod.lb? ≠ some 0 ∧ s.cod.ub? ≠ some 0))
    (ha : T.t0 ≤ a) (hb : b ≤ T.tf) {t : K} (h1 : a ≤ t) (h2 : t ≤ b) :
    (∃ v ∈ ((T.withTree (slices_ne_nil h)).integral A a b).1.1, v ≤ F t) ∧
    ∃ v ∈ ((T.withTree (slices_ne_nil h)).integral A a b).1.2, F t ≤ v :=
  TState.integral_good (TState.withTree_iinv h) hF h0 hbd hok ha hb h1 h2

/-! ## C15 -/

/-- **C15**, values: after any history of updates and queries, the tube is the one obtained by the updates alone, and
`codomain()`, `operator()([a,b])` through the tree are what a fresh tree on the current slices returns, and what the
plain tube returns. -/
theorem C15_values_never_stale {A : IArith K} {T : Tube K} (h : T.WF) (ops : List (TOp K)) :
    let st := (T.withTree (slices_ne_nil h)).run A ops
    ∃ h' : st.T.WF, st.T = ops.foldl TOp.onTube T ∧
    st.codomain.1 = st.T.codomain ∧ st.codomain.1 = (st.T.withTree (slices_ne_nil h')).codomain.1 ∧
    ∀ a b, a < b → st.T.t0 ≤ a → b ≤ st.T.tf →
      (st.eval a b).1 = st.T.evalItv (.icc a b) ∧ (st.eval a b).1 = ((st.T.withTree (slices_ne_nil h')).eval a b).1 := by
  intro st
  have hi : st.Inv := TState.run_inv (withTree_inv h) ops
  refine ⟨hi.wf, TState.run_T _ ops, TState.codomain_eq hi, ?_, fun a b h1 h2 h3 => ⟨TState.eval_eq hi h1 h2 h3, ?_⟩⟩
  · rw [TState.codomain_eq hi, TState.codomain_eq (withTree_inv hi.wf)]; rfl
  · rw [TState.eval_eq hi h1 h2 h3, TState.eval_eq (withTree_inv hi.wf) h1 h2 h3]; rfl

/-- **C15**, partial integrals, part: as long as no value (`codomain()`, evaluation) is read through the tree,
`partial_integral` returns after any history what a fresh tree returns. With value queries this is false:
`C15_integral_fails`. -/
theorem C15_integral_partial {A : IArith K} {T : Tube K} (h : T.WF) (ops : List (TOp K))
    (hops : ∀ op ∈ ops, op.noValueQuery) :
    let st := (T.withTree (slices_ne_nil h)).run A ops
    ∃ h' : st.T.WF, ∀ a b, (st.integral A a b).1 = ((st.T.withTree (slices_ne_nil h')).integral A a b).1 := by
  intro st
  have hi : st.IInv A := TState.run_iinv (TState.withTree_iinv h) hops
  exact ⟨hi.inv.wf, fun a b => TState.integral_eq_fresh hi a b⟩

end

/-! ### Witnesses -/

/-- two slices `[0,1]`, `[1,2]` -/
def treeU : Tube ℚ := ⟨0, 2, Ex.I 1 2, [⟨0, 1, Ex.I 1 2, Ex.I 1 2⟩, ⟨1, 2, Ex.I 1 2, Ex.I 1 2⟩]⟩

theorem treeU_wf : treeU.WF := ⟨by simp [treeU], by simp [treeU, Tiles]⟩

/-- **C14** fails for the partial integrals: envelope `[0,1]` on `[0,2]`, `t` in `[1/2,1]`; through the tree, the lower
component is empty. -/
theorem C14_tree_integral_fails : ∃ (T : Tube ℚ) (h : T.WF) (F : ℚ → ℚ) (a b : ℚ), T.SlopeIn F ∧ F T.t0 = 0 ∧
    T.t0 ≤ a ∧ a ≤ b ∧ b ≤ T.tf ∧
    ((T.withTree (slices_ne_nil h)).integral (IArith.exact ℚ) a b).1.1 = ⊥ ∧
    T.partialIntegral (IArith.exact ℚ) a b = (Ex.I 0 0, Ex.I (1/2) 1) := by
  refine ⟨W, W_wf, fun t => t, 1/2, 1, W_slope, rfl, by decide +kernel, by norm_num, by decide +kernel, ?_, ?_⟩
  · decide +kernel
  · decide +kernel

/-- **C15** fails for the partial integrals: `partial_integral`, then the envelope of the first slice becomes `[3,4]`,
then `codomain()`: the following `partial_integral` returns the former integrals. -/
theorem C15_integral_fails : ∃ (T : Tube ℚ) (h : T.WF) (ops : List (TOp ℚ)) (a b : ℚ),
    let st := (T.withTree (slices_ne_nil h)).run (IArith.exact ℚ) ops
    (st.integral (IArith.exact ℚ) a b).1 = (Ex.I 1 1, Ex.I 2 2) ∧
    st.T.partialIntegral (IArith.exact ℚ) a b = (Ex.I 3 3, Ex.I 4 4) := by
  refine ⟨treeU, treeU_wf, [.integral 1 1, .setEnvelope 0 (Ex.I 3 4) false, .codomain], 1, 1, ?_⟩
  decide +kernel

/-- two slices with envelopes `[1,2]`; the gate between them is `[3/2,2]`, resp. `[1,2]` -/
def treeV : Tube ℚ := ⟨0, 2, Ex.I 1 2, [⟨0, 1, Ex.I 1 2, Ex.I (3/2) 2⟩, ⟨1, 2, Ex.I 1 2, Ex.I 1 2⟩]⟩

theorem treeV_wf : treeV.WF := ⟨by simp [treeV], by simp [treeV, Tiles]⟩

/-- **C15** fails for the bounds (`eval()` on the whole time domain): the gate between the two slices of `treeV` is set to
`[1,2]` through the second slice; the tube is now `treeU`; the first leaf keeps the former bounds of the gate and a lower
bound in `[1,3/2]` is announced, where a fresh tree on `treeU` says `[1,1]`. -/
theorem C15_bounds_fails : ∃ (T T' : Tube ℚ) (h : T.WF) (h' : T'.WF) (ops : List (TOp ℚ)),
    let st := (T.withTree (slices_ne_nil h)).run (IArith.exact ℚ) ops
    st.T = T' ∧ st.bounds.1 = (Ex.I 1 (3/2), Ex.I 2 2) ∧
    (T'.withTree (slices_ne_nil h')).bounds.1 = (Ex.I 1 1, Ex.I 2 2) := by
  refine ⟨treeV, treeU, treeV_wf, treeU_wf, [.bounds, .setInputGate 1 (Ex.I 0 3) true], ?_⟩
  decide +kernel

/-! ### The hypotheses are met -/

example :
    let st := (Ex.T.withTree (slices_ne_nil Ex.T_wf)).run (IArith.exact ℚ) [.codomain, .set 1 (Ex.I 0 7), .eval 0 2, .setInputGate 2 (Ex.I 3 4) true, .integral 1 2];
    (st.codomain.1 = Ex.I 0 7) ∧ (st.eval 0 1).1 = Ex.I 0 2 ∧ st.tree.nb = 3 ∧ (st.invert (Ex.I 6 7) (Ex.I 0 4)).1 = Ex.I 1 2 := by
  decide +kernel

example : ((treeU.withTree (slices_ne_nil treeU_wf)).integral (IArith.exact ℚ) (1/2) (3/2)).1 = (Ex.I (1/2) (3/2), Ex.I 1 3) ∧
    treeU.partialIntegral (IArith.exact ℚ) (1/2) (3/2) = (Ex.I (1/2) (3/2), Ex.I 1 3) := by
  decide +kernel

theorem treeU_slope : treeU.SlopeIn (fun t => t) := by
  intro s hs m t h1 h2 h3
  have : s = ⟨0, 1, Ex.I 1 2, Ex.I 1 2, Ex.I 1 2⟩ ∨ s = ⟨1, 2, Ex.I 1 2, Ex.I 1 2, Ex.I 1 2⟩ := by
    simpa [treeU, Tube.slices, slicesFrom] using hs
  rcases this with rfl | rfl <;> exact ⟨1, by decide +kernel, by ring⟩

example : (∃ v ∈ ((treeU.withTree (slices_ne_nil treeU_wf)).integral (IArith.exact ℚ) (1/2) (3/2)).1.1, v ≤ (1 : ℚ)) ∧
    ∃ v ∈ ((treeU.withTree (slices_ne_nil treeU_wf)).integral (IArith.exact ℚ) (1/2) (3/2)).1.2, (1 : ℚ) ≤ v :=
  C14_tree_integral_partial treeU_wf treeU_slope rfl (by decide +kernel) (by decide +kernel) (by decide +kernel) (by decide +kernel)
    (t := 1) (by norm_num) (by norm_num)

end Codac.Props
