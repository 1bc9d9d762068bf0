import Verif.Tube.TreeHistory

/-! # The tree synthesis: inversion and partial integrals -/

set_option linter.unusedSectionVars false

namespace Codac
section
variable {K : Type*} [Field K] [LinearOrder K] [IsStrictOrderedRing K]

/-- `invert(y, S)` in tree mode, codac_Tube.cpp:775-778; the first call of `codomain()` at the root brings the values
up to date, unless the search interval is rejected before -/
def TState.invert (st : TState K) (y S : Itv K) : Itv K × TState K :=
  let tree :=
    if S.isEmpty || exceeds S st.tree.lb st.tree.ub then st.tree
    else if st.tree.cache.vneed then TTree.updateValues (sliceFn st.T) st.tree else st.tree
  (TTree.invert y tree S, { st with tree := tree })

theorem exceeds_of_le {S : Itv K} {x z : K} (hS : S ≤ .icc x z) (hne : S ≠ ⊥) : exceeds S x z = false := by
  revert hne hS
  cases S with
  | empty => intro _ h; exact absurd rfl h
  | mk lo hi p =>
    intro hS _
    by_cases hxz : x ≤ z
    · rw [Itv.icc_eq_mk hxz] at hS
      have h1 : Itv.loLeLo (some x) lo ∧ Itv.hiLeHi hi (some z) := hS
      cases lo with
      | none => exact absurd h1.1 (by simp [Itv.loLeLo])
      | some l =>
        cases hi with
        | none => exact absurd h1.2 (by simp [Itv.hiLeHi])
        | some u =>
          have e1 : x ≤ l := h1.1
          have e2 : u ≤ z := h1.2
          simp [exceeds, e1, e2]
    · rw [Itv.icc_eq_empty (not_le.mp hxz)] at hS
      exact absurd hS (by intro h; exact h)

namespace TTree

/-- the envelope of each slice of the tree is in the hull -/
theorem le_hullOf {cd : Nat → Itv K} {k0 : Nat} {t : TTree K} {ss : List (Slice K)} (h : t.Repr k0 ss)
    (hcd : ∀ i s, ss[i]? = some s → cd (k0 + i) = s.cod) {s : Slice K} (hs : s ∈ ss) : s.cod ≤ t.hullOf cd := by
  induction t generalizing k0 ss with
  | leaf k a b c =>
    obtain ⟨rfl, s', rfl, _, _⟩ := h
    rw [List.mem_singleton] at hs
    subst hs
    have := hcd 0 s rfl
    rw [← this]; exact le_rfl
  | node a b n c l r ih1 ih2 =>
    obtain ⟨s1, s2, rfl, n1, n2, r1, r2, hn, hl, hx, hy⟩ := h
    rw [List.mem_append] at hs
    rcases hs with hs | hs
    · refine le_trans (ih1 r1 (fun i s' hi => hcd i s' ?_) hs) le_sup_left
      rw [List.getElem?_append_left (List.getElem?_eq_some_iff.mp hi).1]; exact hi
    · refine le_trans (ih2 r2 (fun i s' hi => ?_) hs) le_sup_right
      rw [Nat.add_assoc]
      refine hcd _ s' ?_
      rw [List.getElem?_append_right (by omega)]
      simpa using hi

theorem invert_mem {cd : Nat → Itv K} {k0 : Nat} {t : TTree K} {ss : List (Slice K)} {x z : K} (h : t.Repr k0 ss)
    (ht : STiles x ss z) (hcd : ∀ i s, ss[i]? = some s → cd (k0 + i) = s.cod) (hf : t.Fresh cd)
    (hv : t.cache.vneed = false) {y S : Itv K} (hS : S ≤ .icc x z) {τ v : K} (hτ : τ ∈ S) {s : Slice K} (hs : s ∈ ss)
    (h1 : s.lb ≤ τ) (h2 : τ ≤ s.ub) (hv1 : v ∈ s.cod) (hv2 : v ∈ y) : τ ∈ t.invert y S := by
  induction t generalizing k0 ss x z S with
  | leaf k a b c =>
    have hd := h.dom ht
    obtain ⟨rfl, s', rfl, e1, e2⟩ := h
    rw [List.mem_singleton] at hs
    subst hs
    have hne := Itv.ne_bot_of_mem hτ
    have hc : c.cod = s.cod := by
      have := hf hv
      rw [this]; exact hcd 0 s rfl
    simp only [TTree.lb, TTree.ub] at hd
    simp only [invert, Itv.isEmpty_false_iff.mpr hne, hd.1, hd.2, exceeds_of_le hS hne, Bool.false_eq_true, if_false]
    rw [if_pos]
    · exact hτ
    · rw [hc]; exact Itv.intersects_of_mem hv1 hv2
  | node a b n c l r ih1 ih2 =>
    have hd := h.dom ht
    have hrep := h
    obtain ⟨s1, s2, rfl, n1, n2, r1, r2, hn, hl, hx, hy⟩ := h
    have hne := Itv.ne_bot_of_mem hτ
    obtain ⟨hf0, hf1, hf2⟩ := hf
    obtain ⟨g1, g2, g3⟩ := hf0 hv
    simp only [TTree.lb, TTree.ub] at hd
    simp only [invert, Itv.isEmpty_false_iff.mpr hne, hd.1, hd.2, exceeds_of_le hS hne, Bool.false_eq_true, if_false]
    have hc : v ∈ c.cod := by
      rw [g1]; exact Itv.mem_of_le (le_hullOf hrep hcd hs) hv1
    rw [if_pos (Itv.intersects_of_mem hc hv2)]
    split_ifs with hb
    · exact hτ
    · obtain ⟨m, t1, t2⟩ := STiles.append.mp ht
      have d1 := r1.dom t1
      have d2 := r2.dom t2
      rw [List.mem_append] at hs
      rcases hs with hs | hs
      · refine Itv.mem_sup_left (ih1 r1 t1 (fun i s' hi => hcd i s' ?_) hf1 g2 (S := S ⊓ .icc l.lb l.ub) ?_ ?_ hs)
        · rw [List.getElem?_append_left (List.getElem?_eq_some_iff.mp hi).1]; exact hi
        · rw [d1.1, d1.2]; exact inf_le_right
        · rw [Itv.mem_inf, d1.1, d1.2, Itv.mem_icc]
          have := t1.mem_bounds hs
          exact ⟨hτ, this.1.trans h1, h2.trans this.2.2⟩
      · refine Itv.mem_sup_right (ih2 r2 t2 (fun i s' hi => ?_) hf2 g3 (S := S ⊓ .icc r.lb r.ub) ?_ ?_ hs)
        · rw [Nat.add_assoc]
          refine hcd _ s' ?_
          rw [List.getElem?_append_right (by omega)]
          simpa using hi
        · rw [d2.1, d2.2]; exact inf_le_right
        · rw [Itv.mem_inf, d2.1, d2.2, Itv.mem_icc]
          have := t2.mem_bounds hs
          exact ⟨hτ, this.1.trans h1, h2.trans this.2.2⟩

end TTree

theorem TState.invert_inv {st : TState K} (h : st.Inv) (y S : Itv K) : (st.invert y S).2.Inv := by
  unfold TState.invert
  dsimp only
  split_ifs
  · exact h
  · exact updateValues_inv h
  · exact h

theorem TState.invert_mem {st : TState K} (h : st.Inv) (hg : st.T.GatesInEnvelopes) {f : K → K} (hf : st.T.Encloses f)
    {y S : Itv K} (hS : S ≤ .icc st.T.t0 st.T.tf) {t : K} (ht : t ∈ S) (hy : f t ∈ y) : t ∈ (st.invert y S).1 := by
  have hst := h.wf.tiles.stiles (g := st.T.g0)
  have hb := Itv.mem_of_le hS ht
  rw [Itv.mem_icc] at hb
  obtain ⟨s, hs, h1, h2⟩ : ∃ s ∈ st.T.slices, s.lb ≤ t ∧ t ≤ s.ub := by
    obtain ⟨s, ss, e1, e2, e3, e4, e5⟩ := seek_spec (g := st.T.g0) h.wf.tiles h.wf.ne hb.1 hb.2
    exact ⟨s, e2, e3, e4⟩
  have hm : f t ∈ s.cod := (hf s hs).mem_cod (hg s hs) h1 h2
  unfold TState.invert
  dsimp only
  have hu := updateValues_inv h
  obtain ⟨_, hfl, _, _⟩ := TTree.updateValues_spec (sl := sliceFn st.T) (cd := codFn st.T) (fun _ => rfl) h.fresh
  have key : ∀ tr : TTree K, tr.Repr 0 st.T.slices → tr.Fresh (codFn st.T) → tr.cache.vneed = false →
      t ∈ tr.invert y S := fun tr hr hfr hv =>
    TTree.invert_mem hr hst (fun i s => codFn_slices) hfr hv hS ht hs h1 h2 hm hy
  have hne := Itv.ne_bot_of_mem ht
  split_ifs with c1 c2
  · exfalso
    have hd := h.repr.dom hst
    rw [Itv.isEmpty_false_iff.mpr hne, Bool.false_or, hd.1, hd.2, exceeds_of_le hS hne] at c1
    exact absurd c1 (by simp)
  · exact key _ hu.repr hu.fresh hfl
  · exact key _ h.repr h.fresh (by simpa using c2)

/-! ### Partial integrals -/

theorem STiles.timeToIndex {x y t : K} {ss : List (Slice K)} (h : STiles x ss y) (hne : ss ≠ []) (h1 : x ≤ t) (h2 : t ≤ y) :
    ∃ s : Slice K, ss[Codac.timeToIndex t ss]? = some s ∧ s.lb ≤ t ∧ t ≤ s.ub := by
  induction ss generalizing x with
  | nil => exact absurd rfl hne
  | cons s ss ih =>
    cases ss with
    | nil =>
      obtain ⟨rfl, _, e⟩ := h
      refine ⟨s, rfl, h1, ?_⟩
      have : s.ub = y := e
      rw [this]; exact h2
    | cons s' ss =>
      simp only [Codac.timeToIndex]
      split_ifs with hlt
      · exact ⟨s, rfl, h.1.symm ▸ h1, hlt.le⟩
      · exact ih h.2.2 (by simp) (not_lt.mp hlt)

theorem STiles.idx_lt {x y : K} {ss : List (Slice K)} (h : STiles x ss y) {i j : Nat} {s s' : Slice K} (hi : ss[i]? = some s)
    (hj : ss[j]? = some s') (hij : i < j) : s.ub ≤ s'.lb := by
  induction ss generalizing x i j with
  | nil => simp at hi
  | cons r ss ih =>
    obtain ⟨j, rfl⟩ : ∃ m, j = m + 1 := ⟨j - 1, by omega⟩
    cases i with
    | zero =>
      simp only [List.getElem?_cons_zero, Option.some.injEq] at hi
      subst hi
      simp only [List.getElem?_cons_succ] at hj
      exact (h.2.2.mem_bounds (List.mem_of_getElem? hj)).1
    | succ i =>
      simp only [List.getElem?_cons_succ] at hi hj
      exact ih h.2.2 hi hj (by omega)

theorem STiles.exists_idx {x y t : K} {ss : List (Slice K)} (h : STiles x ss y) (hne : ss ≠ []) (h1 : x ≤ t) (h2 : t ≤ y) :
    ∃ (i : Nat) (s : Slice K), ss[i]? = some s ∧ s.lb ≤ t ∧ t ≤ s.ub := by
  obtain ⟨s, e⟩ := h.timeToIndex hne h1 h2
  exact ⟨_, s, e⟩

/-- what a pair of partial integrals must satisfy at the instant `τ` for the primitive `F` -/
def Good (F : K → K) (τ : K) (X : Itv K × Itv K) : Prop := (∃ v ∈ X.1, v ≤ F τ) ∧ ∃ v ∈ X.2, F τ ≤ v

theorem Good.left {F : K → K} {τ : K} {X Y : Itv K × Itv K} (h : Good F τ X) : Good F τ (X.1 ⊔ Y.1, X.2 ⊔ Y.2) := by
  obtain ⟨⟨v, hv, e⟩, w, hw, e'⟩ := h
  exact ⟨⟨v, Itv.mem_sup_left hv, e⟩, w, Itv.mem_sup_left hw, e'⟩

theorem Good.right {F : K → K} {τ : K} {X1 X2 : Itv K} {Y : Itv K × Itv K} (h : Good F τ Y) :
    Good F τ (X1 ⊔ Y.1, X2 ⊔ Y.2) := by
  obtain ⟨⟨v, hv, e⟩, w, hw, e'⟩ := h
  exact ⟨⟨v, Itv.mem_sup_right hv, e⟩, w, Itv.mem_sup_right hw, e'⟩

theorem Good.top (F : K → K) (τ : K) : Good F τ (⊤, ⊤) := ⟨⟨F τ, Itv.mem_top _, le_rfl⟩, F τ, Itv.mem_top _, le_rfl⟩

/-- what the primitive of a leaf must satisfy -/
def LeafGood (F : K → K) (s : Slice K) (p : Itv K × Itv K) : Prop :=
  p = (⊤, ⊤) ∨ ∃ pl pu q r l h L H, p = (.icc pl q, .icc r pu) ∧ pl ≤ q ∧ r ≤ pu ∧ s.cod.lb? = some l ∧ s.cod.ub? = some h ∧
    L ≤ F s.lb ∧ pl ≤ L ∧ pl ≤ L + l * (s.ub - s.lb) ∧ F s.lb ≤ H ∧ H ≤ pu ∧ H + h * (s.ub - s.lb) ≤ pu

namespace TTree

/-- below the chord -/
theorem chord_le {p L l d u : K} (h1 : p ≤ L) (h2 : p ≤ L + l * d) (hu : 0 ≤ u) (hud : u ≤ d) : p ≤ L + l * u := by
  rcases le_total 0 l with hl | hl
  · nlinarith [mul_nonneg hl hu]
  · nlinarith [mul_nonneg (neg_nonneg.mpr hl) (sub_nonneg.mpr hud)]

theorem le_chord {p L l d u : K} (h1 : L ≤ p) (h2 : L + l * d ≤ p) (hu : 0 ≤ u) (hud : u ≤ d) : L + l * u ≤ p := by
  rcases le_total 0 l with hl | hl
  · nlinarith [mul_nonneg hl (sub_nonneg.mpr hud)]
  · nlinarith [mul_nonneg (neg_nonneg.mpr hl) hu]

theorem leafGood_good {F : K → K} {s : Slice K} {p : Itv K × Itv K} (h : LeafGood F s p) (hF : s.SlopeIn F)
    {τ : K} (h1 : s.lb ≤ τ) (h2 : τ ≤ s.ub) : Good F τ p := by
  rcases h with rfl | ⟨pl, pu, q, r, l, h, L, H, rfl, hq, hr, hl, hh, e1, e2, e3, e4, e5, e6⟩
  · exact Good.top F τ
  · have hs := slope_le hF le_rfl h1 h2
    have k1 := hs.1 l hl
    have k2 := hs.2 h hh
    have c1 := chord_le (u := τ - s.lb) e2 e3 (sub_nonneg.mpr h1) (sub_le_sub_right h2 _)
    have c2 := le_chord (u := τ - s.lb) e5 e6 (sub_nonneg.mpr h1) (sub_le_sub_right h2 _)
    refine ⟨⟨pl, ?_, by linarith⟩, pu, ?_, by linarith⟩
    · rw [Itv.mem_icc]; exact ⟨le_rfl, hq⟩
    · rw [Itv.mem_icc]; exact ⟨hr, le_rfl⟩

theorem leafPrims_length (A : IArith K) (sum : Itv K) (ss : List (Slice K)) : (leafPrims A sum ss).length = ss.length := by
  induction ss generalizing sum with
  | nil => rfl
  | cons s ss ih => simp [leafPrims, ih]

theorem leafPrims_good {A : IArith K} {F : K → K} {ss : List (Slice K)} : ∀ {x y : K} {sum : Itv K}, STiles x ss y →
    (∀ s ∈ ss, s.SlopeIn F) → (∀ s ∈ ss, s.cod ≠ ⊥) → (∀ s ∈ ss, s.cod.isUnbounded = false) → Good F x (sum, sum) →
    ∀ {i : Nat} {s : Slice K}, ss[i]? = some s → ∃ p, (leafPrims A sum ss)[i]? = some p ∧ LeafGood F s p := by
  induction ss with
  | nil => intro x y sum _ _ _ _ _ i s hi; simp at hi
  | cons s ss ih =>
    intro x y sum ht hF hne hbd hg i s' hi
    obtain ⟨rfl, h1, h2⟩ := ht
    simp only [List.mem_cons, forall_eq_or_imp] at hF hne hbd
    obtain ⟨l, h, plh, hc⟩ := Itv.bounds_of_bounded (Itv.isEmpty_false_iff.mpr hne.1) hbd.1
    have hlb : s.cod.lb? = some l := by rw [hc]; rfl
    have hub : s.cod.ub? = some h := by rw [hc]; rfl
    have hl : l ∈ s.cod := by rw [hc]; exact ⟨le_rfl, plh⟩
    have hh : h ∈ s.cod := by rw [hc]; exact ⟨plh, le_rfl⟩
    obtain ⟨⟨L, hL, eL⟩, H, hH, eH⟩ := hg
    have hd : 0 ≤ s.ub - s.lb := sub_nonneg.mpr h1.le
    have hsl := slope_le hF.1 le_rfl h1.le le_rfl
    cases i with
    | zero =>
      simp only [List.getElem?_cons_zero, Option.some.injEq] at hi
      subst hi
      refine ⟨_, by rw [leafPrims]; rfl, ?_⟩
      have m0 : (0 : K) ∈ Itv.icc 0 (s.ub - s.lb) := by rw [Itv.mem_icc]; exact ⟨le_rfl, hd⟩
      have m1 : s.ub - s.lb ∈ Itv.icc 0 (s.ub - s.lb) := by rw [Itv.mem_icc]; exact ⟨hd, le_rfl⟩
      have a1 := A.add_mem hL (A.mul_mem hl m0)
      have a2 := A.add_mem hL (A.mul_mem hl m1)
      have a3 := A.add_mem hH (A.mul_mem hh m0)
      have a4 := A.add_mem hH (A.mul_mem hh m1)
      revert a1 a2 a3 a4
      generalize hX : A.add sum (A.mul s.cod (Itv.icc 0 (s.ub - s.lb))) = X
      intro a1 a2 a3 a4
      simp only [hc]
      cases X with
      | empty => exact absurd a1 (Itv.not_mem_empty _)
      | mk lo hi pp =>
        cases lo with
        | none => exact Or.inl rfl
        | some i =>
          cases hi with
          | none => exact Or.inl rfl
          | some j =>
            refine Or.inr ⟨i, j, _, _, l, h, L, H, rfl, ?_, ?_, hlb, hub, eL, ?_, a2.1, eH, ?_, a4.2⟩
            · have := abs_nonneg (l * (s.ub - s.lb)); linarith
            · have := abs_nonneg (h * (s.ub - s.lb)); linarith
            · have := a1.1
              change i ≤ _ at this
              simpa using this
            · have := a3.2
              change _ ≤ j at this
              simpa using this
    | succ i =>
      simp only [List.getElem?_cons_succ] at hi
      have hg' : Good F s.ub (A.add sum (A.mul s.cod (.point (s.ub - s.lb))), A.add sum (A.mul s.cod (.point (s.ub - s.lb)))) := by
        have m1 : s.ub - s.lb ∈ Itv.point (s.ub - s.lb) := by simp
        have k1 := hsl.1 l hlb
        have k2 := hsl.2 h hub
        exact ⟨⟨_, A.add_mem hL (A.mul_mem hl m1), by linarith⟩, _, A.add_mem hH (A.mul_mem hh m1), by linarith⟩
      obtain ⟨p, hp, hgd⟩ := ih h2 hF.2 hne.2 hbd.2 hg' hi
      exact ⟨p, by rw [leafPrims]; exact hp, hgd⟩

/-- the cached primitives are those of the leaves, and their unions -/
def PrimsOf (ps : List (Itv K × Itv K)) : TTree K → Prop
  | leaf k _ _ c => ps[k]? = some c.prim
  | node _ _ _ c l r => c.prim = (l.cache.prim.1 ⊔ r.cache.prim.1, l.cache.prim.2 ⊔ r.cache.prim.2) ∧ PrimsOf ps l ∧ PrimsOf ps r

/-- all value flags are raised -/
def AllV : TTree K → Prop
  | leaf _ _ _ c => c.vneed = true
  | node _ _ _ c l r => c.vneed = true ∧ AllV l ∧ AllV r

theorem AllV.root {t : TTree K} (h : t.AllV) : t.cache.vneed = true := by
  cases t with
  | leaf => exact h
  | node => exact h.1

/-- the ancestors of a node flagged for the integrals are flagged -/
def IMono : TTree K → Prop
  | leaf _ _ _ _ => True
  | node _ _ _ c l r => (c.ineed = false → l.cache.ineed = false ∧ r.cache.ineed = false) ∧ IMono l ∧ IMono r

theorem up_set_spec {ps : List (Itv K × Itv K)} {k0 : Nat} {t : TTree K} {ss : List (Slice K)} (h : t.Repr k0 ss)
    (hps : k0 + ss.length ≤ ps.length) (hv : t.AllV) :
    (upPrims (setPrims ps t)).PrimsOf ps ∧ (upPrims (setPrims ps t)).cache.ineed = false ∧
      (upPrims (setPrims ps t)).IMono ∧ (upPrims (setPrims ps t)).AllV := by
  induction t generalizing k0 ss with
  | leaf k a b c =>
    obtain ⟨rfl, s, rfl, _, _⟩ := h
    refine ⟨?_, rfl, trivial, hv⟩
    simp only [List.length_cons, List.length_nil, Nat.zero_add] at hps
    simp only [setPrims, upPrims, PrimsOf]
    rw [List.getElem?_eq_getElem (by omega)]
    rfl
  | node a b n c l r ih1 ih2 =>
    obtain ⟨s1, s2, rfl, n1, n2, r1, r2, hn, hl, hx, hy⟩ := h
    obtain ⟨hv0, hv1, hv2⟩ := hv
    rw [List.length_append] at hps
    obtain ⟨p1, i1, m1, v1⟩ := ih1 r1 (by omega) hv1
    obtain ⟨p2, i2, m2, v2⟩ := ih2 r2 (by omega) hv2
    simp only [setPrims, upPrims, hv0, if_true]
    exact ⟨⟨rfl, p1, p2⟩, rfl, ⟨fun _ => ⟨i1, i2⟩, m1, m2⟩, rfl, v1, v2⟩

theorem leafPrim_eq {ps : List (Itv K × Itv K)} {k0 : Nat} {t : TTree K} {ss : List (Slice K)} (h : t.Repr k0 ss)
    (hp : t.PrimsOf ps) {i : Nat} (hi : i < ss.length) : ps[k0 + i]? = some (leafPrim i t) := by
  induction t generalizing k0 ss i with
  | leaf k a b c =>
    obtain ⟨rfl, s, rfl, _, _⟩ := h
    simp only [List.length_cons, List.length_nil, Nat.zero_add, Nat.lt_one_iff] at hi
    subst hi
    exact hp
  | node a b n c l r ih1 ih2 =>
    obtain ⟨s1, s2, rfl, n1, n2, r1, r2, hn, hl, hx, hy⟩ := h
    rw [List.length_append] at hi
    simp only [leafPrim]
    split_ifs with hlt
    · exact ih1 r1 hp.2.1 (by omega)
    · have := ih2 r2 hp.2.2 (i := i - (n + 1) / 2) (by omega)
      rw [← this]
      congr 1; omega

/-- each node's primitive is good on its whole domain -/
theorem node_good {ps : List (Itv K × Itv K)} {F : K → K} {k0 : Nat} {t : TTree K} {ss : List (Slice K)} {x y : K}
    (h : t.Repr k0 ss) (ht : STiles x ss y) (hp : t.PrimsOf ps) (hF : ∀ s ∈ ss, s.SlopeIn F)
    (hg : ∀ i s, ss[i]? = some s → ∃ p, ps[k0 + i]? = some p ∧ LeafGood F s p) {τ : K} (h1 : x ≤ τ) (h2 : τ ≤ y) :
    Good F τ t.cache.prim := by
  induction t generalizing k0 ss x y with
  | leaf k a b c =>
    obtain ⟨rfl, s, rfl, _, _⟩ := h
    obtain ⟨p, hp1, hp2⟩ := hg 0 s rfl
    obtain ⟨rfl, _, e⟩ := ht
    have e' : s.ub = y := e
    have : p = c.prim := by
      have h3 : ps[k]? = some c.prim := hp
      rw [Nat.add_zero, h3] at hp1
      exact (Option.some.inj hp1).symm
    subst this
    exact leafGood_good hp2 (hF s (by simp)) h1 (e' ▸ h2)
  | node a b n c l r ih1 ih2 =>
    obtain ⟨s1, s2, rfl, n1, n2, r1, r2, hn, hl, hx, hy⟩ := h
    obtain ⟨m, t1, t2⟩ := STiles.append.mp ht
    obtain ⟨p0, p1, p2⟩ := hp
    change Good F τ c.prim
    rw [p0]
    rcases le_total τ m with hm | hm
    · refine Good.left (ih1 r1 t1 p1 (fun s hs => hF s (by simp [hs])) (fun i s hi => hg i s ?_) h1 hm)
      rw [List.getElem?_append_left (List.getElem?_eq_some_iff.mp hi).1]; exact hi
    · refine Good.right (ih2 r2 t2 p2 (fun s hs => hF s (by simp [hs])) (fun i s hi => ?_) hm h2)
      rw [Nat.add_assoc]
      refine hg _ s ?_
      rw [List.getElem?_append_right (by omega)]
      simpa using hi

theorem primBounds_good {ps : List (Itv K × Itv K)} {F : K → K} {k0 : Nat} {t : TTree K} {ss : List (Slice K)} {x y : K}
    (h : t.Repr k0 ss) (ht : STiles x ss y) (hp : t.PrimsOf ps) (hF : ∀ s ∈ ss, s.SlopeIn F)
    (hg : ∀ i s, ss[i]? = some s → ∃ p, ps[k0 + i]? = some p ∧ LeafGood F s p) {a b τ : K} {s : Slice K} (hs : s ∈ ss)
    (ha : a ≤ s.lb) (hb : s.ub ≤ b) (h1 : s.lb ≤ τ) (h2 : τ ≤ s.ub) : Good F τ (primBounds a b t) := by
  have hsb := ht.mem_bounds hs
  induction t generalizing k0 ss x y a b with
  | leaf k u w c =>
    have hd := h.dom ht
    have hn := node_good h ht hp hF hg (hsb.1.trans h1) (h2.trans hsb.2.2)
    simp only [TTree.lb, TTree.ub] at hd
    simp only [primBounds]
    rw [if_pos]
    · exact hn
    · rw [hd.1, hd.2]
      exact max_le (le_min (ha.trans (hsb.2.1.le.trans hb)) (ha.trans (hsb.2.1.le.trans hsb.2.2)))
        (le_min (hsb.1.trans (hsb.2.1.le.trans hb)) (hsb.1.trans (hsb.2.1.le.trans hsb.2.2)))
  | node u w n c l r ih1 ih2 =>
    have hd := h.dom ht
    have hng := node_good h ht hp hF hg (hsb.1.trans h1) (h2.trans hsb.2.2)
    obtain ⟨s1, s2, rfl, n1, n2, r1, r2, hn, hl, hx, hy⟩ := h
    obtain ⟨m, t1, t2⟩ := STiles.append.mp ht
    obtain ⟨p0, p1, p2⟩ := hp
    simp only [TTree.lb, TTree.ub] at hd
    have d1 := r1.dom t1
    have d2 := r2.dom t2
    rw [List.mem_append] at hs
    simp only [primBounds, hd.1, hd.2, d1.1, d1.2, d2.1, d2.2]
    rw [if_pos]
    · split_ifs with c1 c2 c3 c4
      · exact hng
      -- both intersections degenerate: impossible
      · exfalso
        rcases hs with hs | hs
        · have hb1 := t1.mem_bounds hs
          exact absurd (le_trans (le_min (le_min hb hsb.2.2) hb1.2.2) (c2.1.trans (max_le (max_le ha hsb.1) hb1.1)))
            (not_le.mpr hsb.2.1)
        · have hb1 := t2.mem_bounds hs
          exact absurd (le_trans (le_min (le_min hb hsb.2.2) hb1.2.2) (c2.2.trans (max_le (max_le ha hsb.1) hb1.1)))
            (not_le.mpr hsb.2.1)
      all_goals
        have L : s ∈ s1 → Good F τ (primBounds (max (max a x) x) (min (min b y) m) l) := by
          intro hs
          have hb1 := t1.mem_bounds hs
          refine ih1 r1 t1 p1 (fun s hs => hF s (by simp [hs])) (fun i s hi => hg i s ?_) hs
            (max_le (max_le ha hsb.1) hb1.1) (le_min (le_min hb hsb.2.2) hb1.2.2) hb1
          rw [List.getElem?_append_left (List.getElem?_eq_some_iff.mp hi).1]; exact hi
        have R : s ∈ s2 → Good F τ (primBounds (max (max a x) m) (min (min b y) y) r) := by
          intro hs
          have hb1 := t2.mem_bounds hs
          refine ih2 r2 t2 p2 (fun s hs => hF s (by simp [hs])) (fun i s hi => ?_) hs
            (max_le (max_le ha hsb.1) hb1.1) (le_min (le_min hb hsb.2.2) hb1.2.2) hb1
          rw [Nat.add_assoc]
          refine hg _ s ?_
          rw [List.getElem?_append_right (by omega)]
          simpa using hi
      · rcases hs with hs | hs
        · exfalso
          have hb1 := t1.mem_bounds hs
          exact absurd (le_trans (le_min (le_min hb hsb.2.2) hb1.2.2) (c3.trans (max_le (max_le ha hsb.1) hb1.1)))
            (not_le.mpr hsb.2.1)
        · exact R hs
      · rcases hs with hs | hs
        · exact L hs
        · exfalso
          have hb1 := t2.mem_bounds hs
          exact absurd (le_trans (le_min (le_min hb hsb.2.2) hb1.2.2) (c4.trans (max_le (max_le ha hsb.1) hb1.1)))
            (not_le.mpr hsb.2.1)
      · rcases hs with hs | hs
        · exact Good.left (L hs)
        · exact Good.right (R hs)
    · exact max_le (le_min (ha.trans (hsb.2.1.le.trans hb)) (ha.trans (hsb.2.1.le.trans hsb.2.2)))
        (le_min (hsb.1.trans (hsb.2.1.le.trans hb)) (hsb.1.trans (hsb.2.1.le.trans hsb.2.2)))

/-- the slice is fully covered by `[a,b]`, or its bounds are not null -/
def CoverOK (a b : K) (s : Slice K) : Prop := (a ≤ s.lb ∧ s.ub ≤ b) ∨ (s.cod.lb? ≠ some 0 ∧ s.cod.ub? ≠ some 0)

theorem partA_good {F : K → K} {s : Slice K} {p : Itv K × Itv K} (h : LeafGood F s p) (hF : s.SlopeIn F) {a b : K}
    (ha : s.lb ≤ a) (hok : CoverOK a b s) {τ : K} (h1 : a ≤ τ) (h2 : τ ≤ min b s.ub) :
    Good F τ (partA a b s p) := by
  have hτ := h2.trans (min_le_right _ _)
  unfold partA
  split_ifs with hc
  · exact leafGood_good h hF (ha.trans h1) hτ
  · have hok := hok.resolve_left hc
    rcases h with rfl | ⟨pl, pu, q, r, l, h, L, H, rfl, hq, hr, hl, hh, e1, e2, e3, e4, e5, e6⟩
    · exact Good.top F τ
    · have hs := slope_le hF le_rfl (ha.trans h1) hτ
      have k1 := hs.1 l hl
      have k2 := hs.2 h hh
      have n1 : l ≠ 0 := fun e => hok.1 (e ▸ hl)
      have n2 : h ≠ 0 := fun e => hok.2 (e ▸ hh)
      rw [Itv.icc_eq_mk hq, Itv.icc_eq_mk hr, hl, hh]
      dsimp only [Itv.lb?, Itv.ub?]
      refine ⟨?_, ?_⟩ <;> dsimp only
      · split_ifs with c1 c2
        · refine ⟨pl - l * (s.ub - τ), ?_, by linarith⟩
          rw [Itv.mem_icc]
          constructor <;> nlinarith
        · refine ⟨pl + l * (τ - s.lb), ?_, by linarith⟩
          rw [Itv.mem_icc]
          constructor <;> nlinarith
        · exact absurd (le_antisymm (not_lt.mp c2) (not_lt.mp c1)) n1
      · split_ifs with c1 c2
        · refine ⟨pu + h * (τ - s.lb), ?_, by linarith⟩
          rw [Itv.mem_icc]
          constructor <;> nlinarith
        · refine ⟨pu - h * (s.ub - τ), ?_, by linarith⟩
          rw [Itv.mem_icc]
          constructor <;> nlinarith
        · exact absurd (le_antisymm (not_lt.mp c2) (not_lt.mp c1)) n2

theorem partC_good {F : K → K} {s : Slice K} {p : Itv K × Itv K} (h : LeafGood F s p) (hF : s.SlopeIn F) {b : K}
    (hok : s.ub ≤ b ∨ (s.cod.lb? ≠ some 0 ∧ s.cod.ub? ≠ some 0)) {τ : K} (h1 : s.lb ≤ τ) (h2 : τ ≤ b) (hτ : τ ≤ s.ub) :
    Good F τ (partC b s p) := by
  unfold partC
  split_ifs with hc
  · exact leafGood_good h hF h1 hτ
  · have hok := hok.resolve_left hc
    rcases h with rfl | ⟨pl, pu, q, r, l, h, L, H, rfl, hq, hr, hl, hh, e1, e2, e3, e4, e5, e6⟩
    · exact Good.top F τ
    · have hs := slope_le hF le_rfl h1 hτ
      have k1 := hs.1 l hl
      have k2 := hs.2 h hh
      have n1 : l ≠ 0 := fun e => hok.1 (e ▸ hl)
      have n2 : h ≠ 0 := fun e => hok.2 (e ▸ hh)
      rw [Itv.icc_eq_mk hq, Itv.icc_eq_mk hr, hl, hh]
      dsimp only [Itv.lb?, Itv.ub?]
      refine ⟨?_, ?_⟩ <;> dsimp only
      · split_ifs with c1 c2
        · refine ⟨pl - l * (s.ub - τ), ?_, by linarith⟩
          rw [Itv.mem_icc]
          constructor <;> nlinarith
        · refine ⟨pl + l * (τ - s.lb), ?_, by linarith⟩
          rw [Itv.mem_icc]
          constructor <;> nlinarith
        · exact absurd (le_antisymm (not_lt.mp c2) (not_lt.mp c1)) n1
      · split_ifs with c1 c2
        · refine ⟨pu + h * (τ - s.lb), ?_, by linarith⟩
          rw [Itv.mem_icc]
          constructor <;> nlinarith
        · refine ⟨pu - h * (s.ub - τ), ?_, by linarith⟩
          rw [Itv.mem_icc]
          constructor <;> nlinarith
        · exact absurd (le_antisymm (not_lt.mp c2) (not_lt.mp c1)) n2

theorem leafGood_not_empty {F : K → K} {s : Slice K} {p : Itv K × Itv K} (h : LeafGood F s p) :
    (p.1.isEmpty || p.2.isEmpty) = false := by
  rcases h with rfl | ⟨pl, pu, q, r, l, h, L, H, rfl, hq, hr, _⟩
  · rfl
  · rw [Itv.icc_eq_mk hq, Itv.icc_eq_mk hr]; rfl

theorem checkPrim_good {F : K → K} {s : Slice K} {p k : Itv K × Itv K} (h : LeafGood F s p) {τ : K} (hk : Good F τ k) :
    Good F τ (checkPrim p k) := by
  unfold checkPrim
  rw [leafGood_not_empty h]
  simp only [Bool.false_eq_true, if_false]
  split_ifs
  · exact Good.top F τ
  · exact hk

theorem integralAns_good {ps : List (Itv K × Itv K)} {F : K → K} {t : TTree K} {ss : List (Slice K)} {x y : K}
    (h : t.Repr 0 ss) (ht : STiles x ss y) (hp : t.PrimsOf ps) (hF : ∀ s ∈ ss, s.SlopeIn F)
    (hg : ∀ (i : Nat) s, ss[i]? = some s → ∃ p, ps[i]? = some p ∧ LeafGood F s p) {a b τ : K}
    (hok : ∀ s ∈ ss, s.lb ≤ b → a ≤ s.ub → CoverOK a b s)
    (ha : x ≤ a) (hb : b ≤ y) (h1 : a ≤ τ) (h2 : τ ≤ b) : Good F τ (integralAns ss t a b) := by
  have hab := h1.trans h2
  have hg0 : ∀ i s, ss[i]? = some s → ∃ p, ps[0 + i]? = some p ∧ LeafGood F s p := by
    intro i s hi; rw [Nat.zero_add]; exact hg i s hi
  obtain ⟨sa, ea, la, ua⟩ := ht.timeToIndex h.ne ha (hab.trans hb)
  obtain ⟨sb, eb, lb, ub⟩ := ht.timeToIndex h.ne (ha.trans hab) hb
  rw [← timeToIndex_eq h ht ha (hab.trans hb)] at ea
  rw [← timeToIndex_eq h ht (ha.trans hab) hb] at eb
  have ma := List.mem_of_getElem? ea
  have mb := List.mem_of_getElem? eb
  have leaf : ∀ {i : Nat} {s : Slice K}, ss[i]? = some s → LeafGood F s (leafPrim i t) := by
    intro i s hi
    obtain ⟨p, hp1, hp2⟩ := hg i s hi
    have := leafPrim_eq h hp (List.getElem?_eq_some_iff.mp hi).1
    rw [Nat.zero_add, hp1] at this
    rw [← Option.some.inj this]; exact hp2
  have oka := hok sa ma (la.trans hab) ua
  have okb := hok sb mb lb (hab.trans ub)
  unfold integralAns
  dsimp only
  rw [ea, eb]
  dsimp only
  refine checkPrim_good (leaf ea) ?_
  split_ifs with hk hk
  · have : sa = sb := by rw [hk] at ea; exact Option.some.inj (ea.symm.trans eb)
    subst this
    exact partA_good (leaf ea) (hF sa ma) la oka h1 (le_min h2 (h2.trans ub))
  all_goals
    refine checkPrim_good (leaf eb) ?_
    rcases le_or_gt τ sa.ub with hτ | hτ
    · exact Good.left (Good.left (partA_good (leaf ea) (hF sa ma) la oka h1 (le_min h2 hτ)))
    · rcases le_or_gt sb.lb τ with hτ' | hτ'
      · exact Good.right (partC_good (leaf eb) (hF sb mb) (okb.imp_left And.right) hτ' h2 (h2.trans ub))
      · obtain ⟨i, s, hi, l1, l2⟩ := ht.exists_idx h.ne (ha.trans h1) (h2.trans hb)
        have i1 : timeToIndex a t < i := by
          by_contra hc
          rcases eq_or_lt_of_le (not_lt.mp hc) with e | hlt
          · rw [e, ea] at hi
            rw [← Option.some.inj hi] at l2
            exact absurd l2 (not_le.mpr hτ)
          · exact absurd (l2.trans (ht.idx_lt hi ea hlt)) (not_le.mpr (lt_of_le_of_lt (ht.mem_bounds ma).2.1.le hτ))
        have i2 : i < timeToIndex b t := by
          by_contra hc
          rcases eq_or_lt_of_le (not_lt.mp hc) with e | hlt
          · rw [← e, eb] at hi
            rw [← Option.some.inj hi] at l1
            exact absurd l1 (not_le.mpr hτ')
          · exact absurd ((ht.idx_lt eb hi hlt).trans l1) (not_le.mpr (hτ'.trans (ht.mem_bounds mb).2.1))
        first
        | exact absurd (show timeToIndex a t + 1 < timeToIndex b t by omega) hk
        | (refine Good.left (Good.right ?_)
           exact primBounds_good h ht hp hF hg0 (List.mem_of_getElem? hi) (ht.idx_lt ea hi i1) (ht.idx_lt hi eb i2) l1 l2)

/-! ### histories -/

/-- same primitives, same shape -/
def PEq : TTree K → TTree K → Prop
  | leaf k a b c, leaf k' a' b' c' => k = k' ∧ a = a' ∧ b = b' ∧ c.prim = c'.prim
  | node a b n c l r, node a' b' n' c' l' r' => a = a' ∧ b = b' ∧ n = n' ∧ c.prim = c'.prim ∧ PEq l l' ∧ PEq r r'
  | _, _ => False

theorem PEq.prim {t u : TTree K} (h : PEq t u) : t.cache.prim = u.cache.prim := by
  cases t <;> cases u <;> simp_all [PEq, cache]

theorem PEq.dom {t u : TTree K} (h : PEq t u) : t.lb = u.lb ∧ t.ub = u.ub ∧ t.nb = u.nb := by
  cases t <;> cases u <;> simp_all [PEq, TTree.lb, TTree.ub, TTree.nb]

theorem PEq.of_prims {ps : List (Itv K × Itv K)} {k0 : Nat} {t u : TTree K} {ss : List (Slice K)} (h : t.Repr k0 ss)
    (h' : u.Repr k0 ss) (hp : t.PrimsOf ps) (hp' : u.PrimsOf ps) : PEq t u := by
  induction t generalizing k0 ss u with
  | leaf k a b c =>
    obtain ⟨rfl, s, rfl, e1, e2⟩ := h
    cases u with
    | leaf k' a' b' c' =>
      obtain ⟨rfl, s', e, e3, e4⟩ := h'
      have : s = s' := by simpa using e
      subst this
      have hq : ps[k']? = some c.prim := hp
      have hq' : ps[k']? = some c'.prim := hp'
      exact ⟨rfl, e1.symm.trans e3, e2.symm.trans e4, Option.some.inj (hq.symm.trans hq')⟩
    | node a' b' n' c' l' r' =>
      exfalso
      obtain ⟨s1, s2, e, n1, n2, _⟩ := h'
      have := congrArg List.length e
      have l1 := List.length_pos_of_ne_nil n1
      have l2 := List.length_pos_of_ne_nil n2
      simp only [List.length_cons, List.length_nil, List.length_append] at this
      omega
  | node a b n c l r ih1 ih2 =>
    obtain ⟨s1, s2, rfl, n1, n2, r1, r2, hn, hl, hx, hy⟩ := h
    cases u with
    | leaf k' a' b' c' =>
      exfalso
      obtain ⟨_, s', e, _⟩ := h'
      have := congrArg List.length e
      have l1 := List.length_pos_of_ne_nil n1
      have l2 := List.length_pos_of_ne_nil n2
      simp only [List.length_cons, List.length_nil, List.length_append] at this
      omega
    | node a' b' n' c' l' r' =>
      obtain ⟨s1', s2', e, n1', n2', r1', r2', hn', hl', hx', hy'⟩ := h'
      have hnn : n = n' := by rw [hn, hn']
      have hlen : s1.length = s1'.length := by rw [hl, hl', hnn]
      obtain ⟨rfl, rfl⟩ := List.append_inj e hlen
      have q1 := ih1 r1 r1' hp.2.1 hp'.2.1
      have q2 := ih2 r2 r2' hp.2.2 hp'.2.2
      refine ⟨?_, ?_, hnn, ?_, q1, q2⟩
      · rw [hx, hx', q1.dom.1, q2.dom.1]
      · rw [hy, hy', q1.dom.2.1, q2.dom.2.1]
      · rw [hp.1, hp'.1, q1.prim, q2.prim]

theorem PEq.timeToIndex {t u : TTree K} (h : PEq t u) (x : K) : timeToIndex x t = timeToIndex x u := by
  induction t generalizing u with
  | leaf k a b c =>
    cases u with
    | leaf => obtain ⟨rfl, rfl, rfl, _⟩ := h; rfl
    | node => exact h.elim
  | node a b n c l r ih1 ih2 =>
    cases u with
    | leaf => exact h.elim
    | node =>
      obtain ⟨rfl, rfl, rfl, _, q1, q2⟩ := h
      simp only [TTree.timeToIndex, ih1 q1, ih2 q2, q1.dom.2.1, q1.dom.2.2]

theorem PEq.leafPrim {t u : TTree K} (h : PEq t u) (i : Nat) : leafPrim i t = leafPrim i u := by
  induction t generalizing u i with
  | leaf k a b c =>
    cases u with
    | leaf => exact h.2.2.2
    | node => exact h.elim
  | node a b n c l r ih1 ih2 =>
    cases u with
    | leaf => exact h.elim
    | node =>
      obtain ⟨rfl, rfl, rfl, _, q1, q2⟩ := h
      simp only [TTree.leafPrim, ih1 q1, ih2 q2]

theorem PEq.primBounds {t u : TTree K} (h : PEq t u) (a b : K) : primBounds a b t = primBounds a b u := by
  induction t generalizing u a b with
  | leaf k x y c =>
    cases u with
    | leaf => obtain ⟨rfl, rfl, rfl, e⟩ := h; simp only [TTree.primBounds, e]
    | node => exact h.elim
  | node x y n c l r ih1 ih2 =>
    cases u with
    | leaf => exact h.elim
    | node =>
      obtain ⟨rfl, rfl, rfl, e, q1, q2⟩ := h
      simp only [TTree.primBounds, ih1 q1, ih2 q2, e, q1.dom.1, q1.dom.2.1, q2.dom.1, q2.dom.2.1, q1.prim, q2.prim]

theorem PEq.ans {t u : TTree K} (h : PEq t u) (ss : List (Slice K)) (a b : K) : integralAns ss t a b = integralAns ss u a b := by
  simp only [integralAns, h.timeToIndex, h.leafPrim, h.primBounds]

theorem reqValues_allV {t : TTree K} (h : t.AllV) (k : Nat) : reqValues k t = (t, false) := by
  induction t with
  | leaf k' a b c =>
    have h : c.vneed = true := h
    simp only [reqValues, h, if_true]
    split_ifs <;> rfl
  | node a b n c l r ih1 ih2 =>
    obtain ⟨h0, h1, h2⟩ := h
    simp only [reqValues, ih1 h1, ih2 h2, Bool.or_self, Bool.false_and, Bool.false_eq_true, if_false]

theorem reqIntegral1_allV {t : TTree K} (h : t.AllV) (k : Nat) : (reqIntegral1 k t).1.AllV := by
  induction t with
  | leaf k' a b c => simp only [reqIntegral1]; split_ifs <;> exact h
  | node a b n c l r ih1 ih2 =>
    obtain ⟨h0, h1, h2⟩ := h
    simp only [reqIntegral1]; split_ifs <;> exact ⟨h0, ih1 h1, ih2 h2⟩

/-- effect of one notification on the flags -/
theorem reqIntegral1_spec {t : TTree K} (h : t.IMono) (k : Nat) :
    (reqIntegral1 k t).1.IMono ∧ (t.cache.ineed = true → (reqIntegral1 k t).1.cache.ineed = true) ∧
      ((reqIntegral1 k t).2 = false → (reqIntegral1 k t).1.cache.ineed = t.cache.ineed) ∧
      ((reqIntegral1 k t).2 = true → (reqIntegral1 k t).1.cache.ineed = true) := by
  induction t with
  | leaf k' a b c => simp only [reqIntegral1]; split_ifs <;> simp_all [IMono, cache]
  | node a b n c l r ih1 ih2 =>
    obtain ⟨h0, h1, h2⟩ := h
    obtain ⟨m1, u1, v1, w1⟩ := ih1 h1
    obtain ⟨m2, u2, v2, w2⟩ := ih2 h2
    simp only [reqIntegral1]
    split_ifs with hc
    · exact ⟨⟨by simp, m1, m2⟩, fun _ => rfl, by simp, fun _ => rfl⟩
    · refine ⟨⟨fun hi => ?_, m1, m2⟩, fun h => h, fun _ => rfl, by simp⟩
      rw [hi] at hc
      simp only [Bool.not_false, Bool.and_true, Bool.or_eq_true, not_or, Bool.not_eq_true] at hc
      exact ⟨(v1 hc.1).trans (h0 hi).1, (v2 hc.2).trans (h0 hi).2⟩

theorem foldReq_spec (l : List Nat) {t : TTree K} (h : t.IMono) (hv : t.AllV) :
    (l.foldl (fun t i => (reqIntegral1 i t).1) t).IMono ∧ (l.foldl (fun t i => (reqIntegral1 i t).1) t).AllV ∧
      (t.cache.ineed = true → (l.foldl (fun t i => (reqIntegral1 i t).1) t).cache.ineed = true) := by
  induction l generalizing t with
  | nil => exact ⟨h, hv, fun h => h⟩
  | cons i l ih =>
    have s := reqIntegral1_spec h i
    obtain ⟨a, b, c⟩ := ih s.1 (reqIntegral1_allV hv i)
    exact ⟨a, b, fun hi => c (s.2.1 hi)⟩

/-- an unflagged root has no flagged leaf -/
theorem leafIneed_root {t : TTree K} (h : t.IMono) {k : Nat} (hk : leafIneed k t = true) : t.cache.ineed = true := by
  induction t with
  | leaf k' a b c =>
    simp only [leafIneed] at hk
    split_ifs at hk
    exact hk
  | node a b n c l r ih1 ih2 =>
    obtain ⟨h0, h1, h2⟩ := h
    by_contra hc
    have hc' : c.ineed = false := by simpa [cache] using hc
    have := h0 hc'
    simp only [leafIneed, Bool.or_eq_true] at hk
    rcases hk with hk | hk
    · rw [ih1 h1 hk] at this; exact absurd this.1 (by simp)
    · rw [ih2 h2 hk] at this; exact absurd this.2 (by simp)

/-- the notification of an unflagged leaf of the tree raises the flag of the root -/
theorem reqIntegral1_root {k0 : Nat} {t : TTree K} {ss : List (Slice K)} (hr : t.Repr k0 ss) (h : t.IMono) {k : Nat}
    (h1 : k0 ≤ k) (h2 : k < k0 + ss.length) (hk : leafIneed k t = false) :
    (reqIntegral1 k t).1.cache.ineed = true ∧ (t.cache.ineed = false → (reqIntegral1 k t).2 = true) := by
  induction t generalizing k0 ss with
  | leaf k' a b c =>
    obtain ⟨rfl, s, rfl, _⟩ := hr
    simp only [List.length_cons, List.length_nil, Nat.zero_add] at h2
    have : k = k' := by omega
    subst this
    simp only [leafIneed, if_true] at hk
    simp [reqIntegral1, hk, cache]
  | node a b n c l r ih1 ih2 =>
    obtain ⟨s1, s2, rfl, n1, n2, r1, r2, hn, hl, hx, hy⟩ := hr
    obtain ⟨m0, m1, m2⟩ := h
    rw [List.length_append] at h2
    simp only [leafIneed, Bool.or_eq_false_iff] at hk
    cases hi : c.ineed with
    | true =>
      refine ⟨?_, fun h => ?_⟩
      · simp only [reqIntegral1, hi, Bool.not_true, Bool.and_false, Bool.false_eq_true, if_false]
        exact hi
      · rw [show (node a b n c l r).cache.ineed = c.ineed from rfl, hi] at h
        exact absurd h (by simp)
    | false =>
      have hc := m0 hi
      have key : ((reqIntegral1 k l).2 || (reqIntegral1 k r).2) = true := by
        rw [Bool.or_eq_true]
        by_cases hlt : k < k0 + s1.length
        · exact Or.inl ((ih1 r1 m1 h1 hlt hk.1).2 hc.1)
        · exact Or.inr ((ih2 r2 m2 (not_lt.mp hlt) (by omega) hk.2).2 hc.2)
      simp [reqIntegral1, hi, key, cache]

theorem reqIntegrals_spec {t : TTree K} {ss : List (Slice K)} (hr : t.Repr 0 ss) (h : t.IMono) (hv : t.AllV) (k : Nat) :
    (reqIntegrals k t).IMono ∧ (reqIntegrals k t).AllV ∧
      (k < ss.length → (reqIntegrals k t).cache.ineed = true) ∧
      (¬ k < ss.length → reqIntegrals k t = t) := by
  unfold reqIntegrals
  split_ifs with hk
  · exact ⟨h, hv, fun _ => leafIneed_root h hk, fun _ => rfl⟩
  · have hk' : leafIneed k t = false := by simpa using hk
    obtain ⟨a, b, c⟩ := foldReq_spec (List.range' k (t.nb - k)) h hv
    refine ⟨a, b, fun hlt => ?_, fun hge => ?_⟩
    · obtain ⟨m, hm⟩ : ∃ m, t.nb - k = m + 1 := ⟨t.nb - k - 1, by have := hr.nb_eq; omega⟩
      rw [hm, List.range'_succ, List.foldl_cons]
      exact (foldReq_spec _ (reqIntegral1_spec h k).1 (reqIntegral1_allV hv k)).2.2
        (reqIntegral1_root hr h (Nat.zero_le _) (by omega) hk').1
    · have : t.nb - k = 0 := by have := hr.nb_eq; omega
      rw [this]; rfl

theorem build_flags (k0 : Nat) (ss : List (Slice K)) (h : ss ≠ []) :
    (build k0 ss h).AllV ∧ (build k0 ss h).IMono ∧ (build k0 ss h).cache.ineed = true := by
  fun_induction build k0 ss h with
  | case1 k0 ss h hn => exact ⟨rfl, trivial, rfl⟩
  | case2 k0 ss h hn m l r ih1 ih2 => exact ⟨⟨rfl, ih1.1, ih2.1⟩, ⟨fun h => absurd h (by simp [initCache]), ih1.2.1, ih2.2.1⟩, rfl⟩

end TTree

/-- the operation does not read the cached values -/
def TOp.noValueQuery : TOp K → Prop
  | .codomain => False
  | .bounds => False
  | .eval _ _ => False
  | _ => True

/-- what holds as long as no value has been read -/
structure TState.IInv (A : IArith K) (st : TState K) : Prop where
  inv : st.Inv
  allV : st.tree.AllV
  mono : st.tree.IMono
  prims : st.tree.cache.ineed = false → st.tree.PrimsOf (TTree.leafPrims A (.point 0) st.T.slices)

theorem leafPrims_congr (A : IArith K) {ss ss' : List (Slice K)}
    (h : ss.map (fun s => (s.lb, s.ub, s.cod)) = ss'.map (fun s => (s.lb, s.ub, s.cod))) (sum : Itv K) :
    TTree.leafPrims A sum ss = TTree.leafPrims A sum ss' := by
  induction ss generalizing ss' sum with
  | nil =>
    cases ss' with
    | nil => rfl
    | cons _ _ => simp at h
  | cons s ss ih =>
    cases ss' with
    | nil => simp at h
    | cons s' ss' =>
      simp only [List.map_cons, List.cons.injEq, Prod.mk.injEq] at h
      obtain ⟨⟨e1, e2, e3⟩, h⟩ := h
      simp only [TTree.leafPrims, e1, e2, e3, ih h]

/-- a setter that keeps the envelope of its slice does not change the envelopes of the tube -/
theorem upd_slices_cod {T : Tube K} {k : Nat} {u : Setter K} (hu : ∀ p n s, (u p n s).cod = s.cod) :
    T.slices.map (fun s => (s.lb, s.ub, s.cod)) = (T.upd k u).slices.map (fun s => (s.lb, s.ub, s.cod)) := by
  have hcell : ∀ (g : Itv K) (cs : List (Cell K)),
      (slicesFrom g cs).map (fun s => (s.lb, s.ub, s.cod)) = cs.map (fun c => (c.lb, c.ub, c.cod)) := by
    intro g cs
    induction cs generalizing g with
    | nil => rfl
    | cons c cs ih => simp [ih]
  have hupd : ∀ (cs : List (Cell K)) (k : Nat) (p : Option (Itv K)) (g : Itv K),
      (updFrom u k p g cs).2.map (fun c => (c.lb, c.ub, c.cod)) = cs.map (fun c => (c.lb, c.ub, c.cod)) := by
    intro cs
    induction cs with
    | nil => intro k p g; simp [updFrom]
    | cons c cs ih =>
      intro k p g
      cases k with
      | zero => simp [updFrom, hu]
      | succ k => simp [updFrom, ih]
  unfold Tube.slices
  rw [hcell, hcell]
  exact (hupd _ _ _ _).symm

theorem upd_out_of_range {T : Tube K} {k : Nat} (u : Setter K) (hk : ¬ k < T.slices.length) : T.upd k u = T := by
  have hupd : ∀ (cs : List (Cell K)) (k : Nat) (p : Option (Itv K)) (g : Itv K), ¬ k < cs.length →
      updFrom u k p g cs = (g, cs) := by
    intro cs
    induction cs with
    | nil => intro k p g _; cases k <;> rfl
    | cons c cs ih =>
      intro k p g hk
      cases k with
      | zero => simp at hk
      | succ k =>
        simp only [List.length_cons, Nat.add_lt_add_iff_right] at hk
        simp [updFrom, ih k _ _ hk]
  have hlen : T.slices.length = T.cells.length := by
    have := congrArg List.length (Tube.slices_bounds T)
    simpa using this
  rw [hlen] at hk
  unfold Tube.upd
  rw [hupd _ _ _ _ hk]

theorem TState.withTree_iinv {A : IArith K} {T : Tube K} (h : T.WF) : (T.withTree (slices_ne_nil h)).IInv A := by
  obtain ⟨a, b, c⟩ := TTree.build_flags 0 T.slices (slices_ne_nil h)
  refine ⟨withTree_inv h, a, b, fun hi => ?_⟩
  rw [show (T.withTree (slices_ne_nil h)).tree.cache.ineed = true from c] at hi
  exact absurd hi (by simp)

theorem TState.updBoth_iinv {A : IArith K} {st : TState K} (h : st.IInv A) (k : Nat) (u : Setter K) :
    (st.updBoth k u).IInv A := by
  have hi := updBoth_inv h.inv k u
  have e : (TTree.reqValues k st.tree).1 = st.tree := by rw [TTree.reqValues_allV h.allV]
  obtain ⟨m, v, r1, r2⟩ := TTree.reqIntegrals_spec h.inv.repr h.mono h.allV k
  refine ⟨hi, ?_, ?_, ?_⟩
  · change (TTree.reqIntegrals k (TTree.reqValues k st.tree).1).AllV
    rw [e]; exact v
  · change (TTree.reqIntegrals k (TTree.reqValues k st.tree).1).IMono
    rw [e]; exact m
  · change (TTree.reqIntegrals k (TTree.reqValues k st.tree).1).cache.ineed = false →
      (TTree.reqIntegrals k (TTree.reqValues k st.tree).1).PrimsOf (TTree.leafPrims A (.point 0) (st.T.upd k u).slices)
    rw [e]
    intro hf
    by_cases hk : k < st.T.slices.length
    · rw [r1 hk] at hf; exact absurd hf (by simp)
    · rw [r2 hk] at hf ⊢
      rw [upd_out_of_range u hk]
      exact h.prims hf

theorem TState.updValues_iinv {A : IArith K} {st : TState K} (h : st.IInv A) (k : Nat) {u : Setter K}
    (hu : ∀ p n s, (u p n s).cod = s.cod) : (st.updValues k u).IInv A := by
  have hi := updValues_inv h.inv k u
  have e : (TTree.reqValues k st.tree).1 = st.tree := by rw [TTree.reqValues_allV h.allV]
  refine ⟨hi, ?_, ?_, ?_⟩
  · change (TTree.reqValues k st.tree).1.AllV
    rw [e]; exact h.allV
  · change (TTree.reqValues k st.tree).1.IMono
    rw [e]; exact h.mono
  · change (TTree.reqValues k st.tree).1.cache.ineed = false →
      (TTree.reqValues k st.tree).1.PrimsOf (TTree.leafPrims A (.point 0) (st.T.upd k u).slices)
    rw [e, ← leafPrims_congr A (upd_slices_cod hu)]
    exact h.prims

/-- after `update_integrals` the primitives are those of the current slices -/
theorem updateIntegrals_spec {A : IArith K} {st : TState K} (h : st.IInv A) :
    (TTree.updateIntegrals A st.T.slices st.tree).PrimsOf (TTree.leafPrims A (.point 0) st.T.slices) ∧
    (TTree.updateIntegrals A st.T.slices st.tree).IMono ∧ (TTree.updateIntegrals A st.T.slices st.tree).AllV := by
  unfold TTree.updateIntegrals
  rw [if_pos h.allV.root]
  obtain ⟨p, _, m, v⟩ := TTree.up_set_spec (ps := TTree.leafPrims A (.point 0) st.T.slices) h.inv.repr
    (by rw [TTree.leafPrims_length]; omega) h.allV
  exact ⟨p, m, v⟩

/-- the tree used for the answer -/
theorem TState.integral_tree {A : IArith K} {st : TState K} (h : st.IInv A) (a b : K) :
    ∃ tr : TTree K, (st.integral A a b).2.tree = tr ∧ (st.integral A a b).1 = TTree.integralAns st.T.slices tr a b ∧
      tr.Repr 0 st.T.slices ∧ tr.PrimsOf (TTree.leafPrims A (.point 0) st.T.slices) ∧ tr.IMono ∧ tr.AllV := by
  have hs := updateIntegrals_spec h
  have hv := TTree.updateIntegrals_veq A st.T.slices st.tree
  refine ⟨_, rfl, rfl, ?_⟩
  simp only [TState.integral, TTree.partialIntegral]
  split_ifs with hi
  · exact ⟨hv.shape.repr h.inv.repr, hs.1, hs.2.1, hs.2.2⟩
  · exact ⟨h.inv.repr, h.prims (by simpa using hi), h.mono, h.allV⟩

theorem TState.step_iinv {A : IArith K} {st : TState K} (h : st.IInv A) {op : TOp K} (hop : op.noValueQuery) :
    (st.step A op).IInv A := by
  cases op with
  | set k y => exact updBoth_iinv h k _
  | setEnvelope k e c => exact updBoth_iinv h k _
  | setInputGate k g c =>
    refine updValues_iinv h k (fun p n s => ?_)
    cases c <;> rfl
  | setOutputGate k g c =>
    refine updValues_iinv h k (fun p n s => ?_)
    cases c <;> rfl
  | codomain => exact hop.elim
  | bounds => exact hop.elim
  | eval a b => exact hop.elim
  | integral a b =>
    obtain ⟨tr, e, _, r, p, m, v⟩ := integral_tree h a b
    refine ⟨step_inv h.inv (.integral a b), ?_, ?_, fun _ => ?_⟩
    · change (st.integral A a b).2.tree.AllV
      rw [e]; exact v
    · change (st.integral A a b).2.tree.IMono
      rw [e]; exact m
    · change (st.integral A a b).2.tree.PrimsOf (TTree.leafPrims A (.point 0) st.T.slices)
      rw [e]; exact p

theorem TState.run_iinv {A : IArith K} {st : TState K} (h : st.IInv A) {ops : List (TOp K)}
    (hops : ∀ op ∈ ops, op.noValueQuery) : (st.run A ops).IInv A := by
  induction ops generalizing st with
  | nil => exact h
  | cons op ops ih =>
    rw [List.forall_mem_cons] at hops
    exact ih (step_iinv h hops.1) hops.2

theorem TState.integral_eq_fresh {A : IArith K} {st : TState K} (h : st.IInv A) (a b : K) :
    (st.integral A a b).1 = ((st.T.withTree (slices_ne_nil h.inv.wf)).integral A a b).1 := by
  obtain ⟨t1, _, e1, r1, p1, _⟩ := integral_tree h a b
  obtain ⟨t2, _, e2, r2, p2, _⟩ := integral_tree (withTree_iinv (A := A) h.inv.wf) a b
  rw [e1, e2]
  exact (TTree.PEq.of_prims r1 r2 p1 p2).ans _ a b

theorem TState.integral_good {A : IArith K} {st : TState K} (h : st.IInv A) {F : K → K} (hF : st.T.SlopeIn F)
    (h0 : F st.T.t0 = 0) (hbd : ∀ s ∈ st.T.slices, s.cod.isUnbounded = false) {a b : K}
    (hok : ∀ s ∈ st.T.slices, s.lb ≤ b → a ≤ s.ub → TTree.CoverOK a b s)
    (ha : st.T.t0 ≤ a) (hb : b ≤ st.T.tf) {τ : K} (h1 : a ≤ τ) (h2 : τ ≤ b) : Good F τ (st.integral A a b).1 := by
  obtain ⟨tr, _, e, r, p, _⟩ := integral_tree h a b
  rw [e]
  have ht := h.inv.wf.tiles.stiles (g := st.T.g0)
  have hne := slope_ne_bot h.inv.wf hF
  refine TTree.integralAns_good r ht p hF (fun i s hi => ?_) hok ha hb h1 h2
  exact TTree.leafPrims_good ht hF hne hbd ⟨⟨0, by simp, h0.ge⟩, 0, by simp, h0.le⟩ hi

end
end Codac
