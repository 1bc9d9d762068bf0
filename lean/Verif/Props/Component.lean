import Verif.C2.Component
import Verif.Props.Tube2

/-!
# C128: setting one component of a vector tube of codac2
-/

set_option linter.unusedSectionVars false

namespace Codac.Props
open Codac Codac.C2

variable {τ ι K : Type*} [LinearOrder τ] [LinearOrder K] [DecidableEq ι]

/-- at the gates of the tube, `f` is in the value that the slice following the gate has for the component `k` -/
def AfterGates (l : List (TS τ ι K)) (k : ι) (f : τ → K) : Prop :=
  ∀ (i : Nat) (s s' : TS τ ι K), l[i]? = some s → l[i + 1]? = some s' → s.lb = s.ub → f s.lb ∈ s'.val k

/-- the three ways of setting the component `k` slice by slice: the value `new s` for the slice `s` -/
inductive SetsComp (k : ι) (l : List (TS τ ι K)) : (TS τ ι K → Itv K) → List (TS τ ι K) → Prop
  | value (x : Itv K) : SetsComp k l (fun _ => x) (compSet k x l)
  | comp (j : ι) : SetsComp k l (fun s => s.val j) (compAssign k j l)
  | image (F : Itv K → Itv K) (j : ι) : SetsComp k l (fun s => F (s.val j)) (compRel k F j l)

theorem SetsComp.eq {k : ι} {l l' : List (TS τ ι K)} {new : TS τ ι K → Itv K} (h : SetsComp k l new l') : l' = compLoop k new none l := by
  cases h <;> rfl

/-- **C128**: setting the component `k` changes neither the temporal slices nor the other components -/
theorem C128_others {a b : τ} {k : ι} {l l' : List (TS τ ι K)} {new : TS τ ι K → Itv K} (hw : WF a b l) (h : SetsComp k l new l') :
    WF a b l' ∧ (l'.map fun s => (s.lb, s.ub)) = (l.map fun s => (s.lb, s.ub)) ∧ ∀ k' ≠ k, valuesOf k' l' = valuesOf k' l := by
  have hs : SameOthers k l l' := by rw [h.eq]; exact compLoop_same
  exact ⟨wf_of_same hs hw, hs.1, fun k' hk => hs.2 k' hk⟩

/-- **C128**: every slice that is not a gate gets exactly the value asked; a gate gets a part of it -/
theorem C128_slices {k : ι} {l l' : List (TS τ ι K)} {new : TS τ ι K → Itv K} (h : SetsComp k l new l') {i : Nat} {s : TS τ ι K} (hi : l[i]? = some s) :
    ∃ s', l'[i]? = some s' ∧ s'.lb = s.lb ∧ s'.ub = s.ub ∧ s'.val k ≤ new s ∧ (s.lb ≠ s.ub → s'.val k = new s) := by
  rw [h.eq]
  by_cases hg : s.IsGate
  · obtain ⟨v, hv, hle⟩ := compLoop_le (k := k) (g := new) (p := none) hi
    exact ⟨_, hv, rfl, rfl, by rw [TS.put_val]; exact hle, fun hne => absurd hg hne⟩
  · exact ⟨_, compLoop_slice hi hg, rfl, rfl, by rw [TS.put_val], fun _ => by rw [TS.put_val]⟩

/-- **C128**: the functions of the component afterwards are exactly those that have the values asked, and that, at the gates, are in the *former* value
of the slice following the gate -/
theorem C128_exact {a b : τ} {k : ι} {l l' : List (TS τ ι K)} {new : TS τ ι K → Itv K} (hw : WF a b l) (h : SetsComp k l new l') (f : τ → K) :
    InTube l' k f ↔ (∀ s ∈ l, ∀ t, s.lb ≤ t → t ≤ s.ub → f t ∈ new s) ∧ AfterGates l k f := by
  rw [h.eq]
  have := compLoop_encl (k := k) (g := new) (f := f) (p := none) hw.chain (by simp)
  rw [nextOk_iff] at this
  exact this

/-- **C128**: so the component gets the functions asked and no others when its tube has no gate, or when the new values are included in the old ones -/
theorem C128_asked_partial {a b : τ} {k : ι} {l l' : List (TS τ ι K)} {new : TS τ ι K → Itv K} (hw : WF a b l) (h : SetsComp k l new l')
    (hk : (∀ s ∈ l, s.lb ≠ s.ub) ∨ ∀ s ∈ l, new s ≤ s.val k) (f : τ → K) :
    InTube l' k f ↔ ∀ s ∈ l, ∀ t, s.lb ≤ t → t ≤ s.ub → f t ∈ new s := by
  rw [C128_exact hw h]
  refine ⟨fun h => h.1, fun h1 => ⟨h1, fun i s s' hi hi' hg => ?_⟩⟩
  rcases hk with hk | hk
  · exact absurd hg (hk s (List.mem_of_getElem? hi))
  · have hs' := List.mem_of_getElem? hi'
    have := comp_adjacent hw.chain hi hi'
    refine Itv.mem_of_le (hk s' hs') (h1 s' hs' _ ?_ ?_)
    · rw [← this.1, hg]
    · rw [hg, this.1]; exact this.2

/-- **C128**: doing the same operation twice always gives the component the functions asked -/
theorem C128_twice {a b : τ} {k : ι} {l l1 l2 : List (TS τ ι K)} (hw : WF a b l) (x : Itv K) (h1 : l1 = compSet k x l) (h2 : l2 = compSet k x l1) (f : τ → K) :
    InTube l2 k f ↔ ∀ t, a ≤ t → t ≤ b → f t ∈ x := by
  subst h1 h2
  have s1 : SetsComp k l (fun _ => x) (compSet k x l) := .value x
  obtain ⟨w1, tm, -⟩ := C128_others hw s1
  rw [C128_exact w1 (.value x)]
  constructor
  · rintro ⟨e, -⟩ t ta tb
    obtain ⟨s, hs, q1, q2⟩ := comp_covers w1.chain w1.ne ta tb
    exact e s hs t q1 q2
  · intro e
    have e' : ∀ s ∈ compSet k x l, ∀ t, s.lb ≤ t → t ≤ s.ub → f t ∈ x := by
      intro s hs t t1 t2
      obtain ⟨c1, -, c2⟩ := w1.chain.mem hs
      exact e t (le_trans c1 t1) (le_trans t2 c2)
    refine ⟨e', fun i s s' hi hi' hg => ?_⟩
    have hl : i + 1 < l.length := by
      have := compLoop_length (k := k) (g := fun _ => x) (l := l) (p := none)
      have := (List.getElem?_eq_some_iff.1 hi').1
      simp only [compSet] at this
      omega
    obtain ⟨r', hr', q1, q2, -, q4⟩ := C128_slices s1 (List.getElem?_eq_getElem hl)
    obtain ⟨r, hr, p1, p2, -, -⟩ := C128_slices s1 (List.getElem?_eq_getElem (Nat.lt_of_succ_lt hl))
    rw [hi'] at hr'; cases hr'
    rw [hi] at hr; cases hr
    have hne : s'.lb ≠ s'.ub := by
      intro hg'
      have hp := List.pairwise_iff_getElem.1 w1.gates i (i + 1) (List.getElem?_eq_some_iff.1 hi).1 (List.getElem?_eq_some_iff.1 hi').1 (by omega)
      have a1 := (List.getElem?_eq_some_iff.1 hi).2
      have a2 := (List.getElem?_eq_some_iff.1 hi').2
      rw [a1, a2] at hp
      exact hp ⟨hg, hg', hg.trans (comp_adjacent w1.chain hi hi').1⟩
    rw [q4 (by rw [← q1, ← q2]; exact hne)]
    exact e' s (List.mem_of_getElem? hi) _ (le_refl _) (le_of_eq hg)

/-- **C128**: with `x[k] = F(y[j])`, no image by `φ` of a function of the component `j` is lost when `F` encloses `φ` and `k` contained these images after the gates -/
theorem C128_image {a b : τ} {k j : ι} {l : List (TS τ ι K)} {F : Itv K → Itv K} {φ : K → K} (hw : WF a b l) (hF : ∀ (X : Itv K), ∀ v ∈ X, φ v ∈ F X)
    {f : τ → K} (hf : InTube l j f) (hk : AfterGates l k fun t => φ (f t)) : InTube (compRel k F j l) k fun t => φ (f t) :=
  (C128_exact hw (.image F j) _).2 ⟨fun s hs t t1 t2 => hF _ _ (hf s hs t t1 t2), hk⟩

/-- **C128**: `codomain()` of a component is the smallest interval containing its slices and gates -/
theorem C128_codomain (k : ι) (l : List (TS τ ι K)) (d : Itv K) : compCodomain k l ≤ d ↔ ∀ s ∈ l, s.val k ≤ d := by
  simp [compCodomain, compCodomain_aux]

/-- **C128** fails in general: setting `[2,3]` on a component that was `[0,1]` empties it at the gate -/
theorem C128_set_fails : ∃ (l : List (TS ℚ Unit ℚ)) (x : Itv ℚ), WF 0 2 l ∧ x ≠ ⊥ ∧
    (∀ f, ¬ InTube (compSet () x l) () f) ∧ ∃ f : ℚ → ℚ, ∀ s ∈ l, ∀ t, s.lb ≤ t → t ≤ s.ub → f t ∈ x := by
  refine ⟨twoSlices (Itv.icc 0 1) (Itv.icc 0 1) (Itv.icc 0 1), Itv.icc 2 3, twoSlices_wf _ _ _, by decide +kernel, fun f hf => ?_, fun _ => 2, ?_⟩
  · have h := ((C128_exact (twoSlices_wf _ _ _) (.value (Itv.icc 2 3)) f).1 hf)
    have h1 := h.1 ⟨1, 1, fun _ => Itv.icc 0 1⟩ (by simp [twoSlices]) 1 (le_refl _) (le_refl _)
    have h2 := h.2 1 ⟨1, 1, fun _ => Itv.icc 0 1⟩ ⟨1, 2, fun _ => Itv.icc 0 1⟩ rfl rfl rfl
    rw [Itv.mem_icc] at h1 h2
    linarith [h1.1, h2.2]
  · intro s _ t _ _
    rw [Itv.mem_icc]; norm_num

/-- the values of a gate and of the slice after it need not be coherent afterwards: the gate of `x` keeps nothing of the old value `[0,1]` of the slice -/
example : (compSet () (Itv.icc 2 3) (twoSlices (Itv.icc 0 1) (Itv.icc 0 1) (Itv.icc 0 1))).map (fun s => s.val ()) = [Itv.icc 2 3, ⊥, Itv.icc 2 3] := by decide +kernel

/-- a tube with two components; `x[0] = x[1]` -/
example : (compAssign (0 : Fin 2) 1 [⟨(0 : ℚ), 1, fun i => if i = 0 then Itv.icc (0 : ℚ) 3 else Itv.icc 1 2⟩, ⟨1, 1, fun i => if i = 0 then Itv.icc 0 1 else Itv.icc 1 2⟩,
      ⟨1, 2, fun i => if i = 0 then Itv.icc 0 1 else Itv.icc 1 2⟩]).map (fun s => (s.val 0, s.val 1)) =
    [(Itv.icc 1 2, Itv.icc 1 2), (Itv.icc 1 1, Itv.icc 1 2), (Itv.icc 1 2, Itv.icc 1 2)] := by decide +kernel

/-- a case of `C128_asked_partial` -/
example : ∀ s ∈ twoSlices (Itv.icc 0 3) (Itv.icc 1 3) (Itv.icc 1 4), Itv.icc 2 3 ≤ s.val () := by decide +kernel

end Codac.Props
