import Verif.Tube.Integral

/-! # Exactness of the partial integrals with exact arithmetic -/

set_option linter.unusedSectionVars false

namespace Codac
variable {K : Type*} [Field K] [LinearOrder K] [IsStrictOrderedRing K]

theorem Itv.add_point (x y : K) : Itv.add (.point x) (.point y) = .point (x + y) := by
  change Itv.icc (x + y) (x + y) = _
  rw [Itv.icc_eq_mk le_rfl]; rfl

theorem Itv.add_point_mul_le {v d c : K} {X : Itv K} (hd : 0 ≤ d) (h1 : v ∈ X) (h2 : v + d * c ∈ X) :
    Itv.add (.point v) (Itv.mul (.icc 0 d) (.point c)) ≤ X := by
  rw [Itv.icc_eq_mk hd]
  have : Itv.mul (.mk (some 0) (some d) hd) (.point c) = Itv.icc (min 0 (d * c)) (max 0 (d * c)) := by
    change Itv.icc (min (min (0 * c) (0 * c)) (min (d * c) (d * c))) (max (max (0 * c) (0 * c)) (max (d * c) (d * c))) = _
    simp
  rw [this, Itv.icc_eq_mk (min_le_max)]
  change Itv.icc (v + min 0 (d * c)) (v + max 0 (d * c)) ≤ X
  rcases le_total 0 (d * c) with h | h
  · rw [min_eq_left h, max_eq_right h]
    exact Itv.icc_le (by simpa using h1) h2
  · rw [min_eq_right h, max_eq_left h]
    exact Itv.icc_le h2 (by simpa using h1)

/-- what one component is included in, when the slices before `x` have been visited; `L` is the primitive it follows -/
def PiExact (a x : K) (L : K → K) (X : Itv K) (st : Itv K × Itv K) : Prop :=
  (x ≤ a → st.1 = .point (L x)) ∧ (a < x → st.1 ≤ X ∧ st.2 = .point (L x))

theorem Itv.point_le {x : K} {X : Itv K} (h : x ∈ X) : Itv.point x ≤ X := by
  have := Itv.icc_le h h
  rwa [Itv.icc_eq_mk le_rfl] at this

theorem piExact_step {a b x y c : K} {L : K → K} {X : Itv K} {st : Itv K × Itv K}
    (hxy : x < y) (hxb : x < b) (hab : a ≤ b)
    (hL : ∀ m t, x ≤ m → m ≤ t → t ≤ y → L m + (t - m) * c = L t)
    (hX : ∀ t, a ≤ t → t ≤ b → L t ∈ X)
    (hi : PiExact a x L X st) :
    (x ≤ a → min y a = b → (piCertain (IArith.exact K) (min y a - x) c st).1 ≤ X) ∧
    (¬ (x ≤ a ∧ min y a = b) →
      PiExact a (min y b) L X
        (if a ≤ y then piUncertain (IArith.exact K) (min y b - max x a) c
            (if x ≤ a then piCertain (IArith.exact K) (min y a - x) c st else st)
          else (if x ≤ a then piCertain (IArith.exact K) (min y a - x) c st else st))) := by
  have hcert : x ≤ a → piCertain (IArith.exact K) (min y a - x) c st = (.point (L (min y a)), .point (L (min y a))) := by
    intro hxa
    have e : (IArith.exact K).add st.1 (.point ((min y a - x) * c)) = .point (L (min y a)) := by
      rw [hi.1 hxa]
      change Itv.add (.point (L x)) (.point ((min y a - x) * c)) = _
      rw [Itv.add_point, hL x (min y a) le_rfl (le_min hxy.le hxa) (min_le_left _ _)]
    rw [piCertain, e]
  refine ⟨fun hxa e => ?_, fun hret => ?_⟩
  · rw [hcert hxa, e]; exact Itv.point_le (hX b hab le_rfl)
  · by_cases hay : a ≤ y
    · rw [if_pos hay]
      have hm1 : max x a ≤ min y b := max_le (le_min hxy.le hxb.le) (le_min hay hab)
      have hmid : ∃ st1, (if x ≤ a then piCertain (IArith.exact K) (min y a - x) c st else st) = st1 ∧
          st1.1 ≤ X ∧ st1.2 = .point (L (max x a)) := by
        refine ⟨_, rfl, ?_⟩
        by_cases hxa : x ≤ a
        · rw [if_pos hxa, hcert hxa, min_eq_right hay, max_eq_right hxa]
          exact ⟨Itv.point_le (hX a le_rfl hab), rfl⟩
        · rw [if_neg hxa, max_eq_left (not_le.mp hxa).le]
          exact hi.2 (not_le.mp hxa)
      obtain ⟨st1, e1, e2, e3⟩ := hmid
      rw [e1]
      have hend := hL (max x a) (min y b) (le_max_left _ _) hm1 (min_le_left _ _)
      have hle : (piUncertain (IArith.exact K) (min y b - max x a) c st1).1 ≤ X := by
        refine sup_le e2 ?_
        rw [e3]
        refine Itv.add_point_mul_le (sub_nonneg.mpr hm1) (hX _ (le_max_right _ _) (hm1.trans (min_le_right _ _))) ?_
        rw [hend]
        exact hX _ (le_min hay hab) (min_le_right _ _)
      have hu : (piUncertain (IArith.exact K) (min y b - max x a) c st1).2 = .point (L (min y b)) := by
        change Itv.add st1.2 _ = _
        rw [e3, Itv.add_point, hend]
      refine ⟨fun h => ?_, fun _ => ⟨hle, hu⟩⟩
      -- `min y b ≤ a`: here `a = y` (the case `a = b` has returned)
      have hya : min y b = a := le_antisymm h (le_min hay hab)
      have hxa : x ≤ a := by rw [← hya]; exact le_min hxy.le hxb.le
      have hyx : max x a = a := max_eq_right hxa
      rw [if_pos hxa, hcert hxa, min_eq_right hay] at e1
      subst e1
      rw [hya, hyx, sub_self]
      change Itv.point (L a) ⊔ Itv.add (.point (L a)) (Itv.mul (.icc 0 0) (.point c)) = _
      have : Itv.add (.point (L a)) (Itv.mul (.icc 0 0) (.point c)) ≤ .point (L a) :=
        Itv.add_point_mul_le le_rfl (by simp) (by simp)
      exact sup_eq_left.mpr this
    · rw [if_neg hay]
      have hya := not_le.mp hay
      have hxa : x ≤ a := (hxy.trans hya).le
      rw [if_pos hxa, hcert hxa, min_eq_left hya.le, min_eq_left (hya.le.trans hab)]
      exact ⟨fun _ => rfl, fun h => absurd h (not_lt.mpr hya.le)⟩

theorem piLoop_exact {a b tf : K} (hab : a ≤ b) (hbf : b ≤ tf) {L U : K → K} {X Y : Itv K}
    (hX : ∀ t, a ≤ t → t ≤ b → L t ∈ X) (hY : ∀ t, a ≤ t → t ≤ b → U t ∈ Y) {cs : List (Cell K)} :
    ∀ {x : K} {g : Itv K} {st₁ st₂ : Itv K × Itv K}, Tiles x cs tf →
    (∀ s ∈ slicesFrom g cs, s.lb < b → s.cod.isUnbounded = false) →
    (∀ s ∈ slicesFrom g cs, ∀ c, s.cod.lb? = some c → ∀ m t, s.lb ≤ m → m ≤ t → t ≤ s.ub → L m + (t - m) * c = L t) →
    (∀ s ∈ slicesFrom g cs, ∀ c, s.cod.ub? = some c → ∀ m t, s.lb ≤ m → m ≤ t → t ≤ s.ub → U m + (t - m) * c = U t) →
    PiExact a (min x b) L X st₁ → PiExact a (min x b) U Y st₂ →
    (piLoop (IArith.exact K) a b (slicesFrom g cs) st₁ st₂).1 ≤ X ∧
    (piLoop (IArith.exact K) a b (slicesFrom g cs) st₁ st₂).2 ≤ Y := by
  have hend : ∀ {x : K} {L : K → K} {X : Itv K} {st : Itv K × Itv K}, (∀ t, a ≤ t → t ≤ b → L t ∈ X) → b ≤ x →
      PiExact a (min x b) L X st → st.1 ≤ X := by
    intro x L X st hX hx hi
    rw [min_eq_right hx] at hi
    rcases eq_or_lt_of_le hab with e | h
    · rw [hi.1 e.ge]; exact Itv.point_le (hX b hab le_rfl)
    · exact (hi.2 h).1
  induction cs with
  | nil =>
    intro x g st₁ st₂ ht _ _ _ i1 i2
    have hx : b ≤ x := by rw [show x = tf from ht]; exact hbf
    have k1 := hend hX hx i1
    have k2 := hend hY hx i2
    exact ⟨k1, k2⟩
  | cons c cs ih =>
    intro x g st₁ st₂ ht hne H1 H2 i1 i2
    obtain ⟨rfl, h3, h4⟩ := ht
    simp only [slicesFrom_cons, List.mem_cons, forall_eq_or_imp] at hne H1 H2
    obtain ⟨hne0, hne⟩ := hne
    obtain ⟨H10, H1⟩ := H1
    obtain ⟨H20, H2⟩ := H2
    simp only [slicesFrom_cons, piLoop]
    by_cases hxb : c.lb < b
    · rw [if_pos hxb]
      rw [min_eq_left hxb.le] at i1 i2
      have hne0 := hne0 hxb
      revert hne0 H10 H20
      cases hc : c.cod with
      | empty => intro _ _ _; exact ⟨bot_le, bot_le⟩
      | mk lo hi hlh =>
        cases lo with
        | none => intro _ _ h; cases hi <;> simp [Itv.isUnbounded] at h
        | some l =>
          cases hi with
          | none => intro _ _ h; simp [Itv.isUnbounded] at h
          | some h =>
            intro H10 H20 _
            have s1 := piExact_step h3 hxb hab (H10 l rfl) hX i1
            have s2 := piExact_step h3 hxb hab (H20 h rfl) hY i2
            dsimp only
            by_cases hr : c.lb ≤ a ∧ min c.ub a = b
            · rw [if_pos hr, if_pos hr.1, if_pos hr.1]
              exact ⟨s1.1 hr.1 hr.2, s2.1 hr.1 hr.2⟩
            · rw [if_neg hr]
              exact ih h4 hne H1 H2 (s1.2 hr) (s2.2 hr)
    · rw [if_neg hxb]
      have k1 := hend hX (not_lt.mp hxb) i1
      have k2 := hend hY (not_lt.mp hxb) i2
      exact ⟨k1, k2⟩

theorem prim_lower_step {T : Tube K} (h : T.WF) : ∀ s ∈ T.slices, ∀ c, s.cod.lb? = some c → ∀ m t, s.lb ≤ m → m ≤ t →
    t ≤ s.ub → lowerPrimitive T.slices m + (t - m) * c = lowerPrimitive T.slices t := by
  intro s hs c hc m t h1 h2 h3
  have := prim_slope (σ := fun s => s.cod.lb?.getD 0) (g := T.g0) h.tiles s hs m t h1 h2 h3
  change lowerPrimitive T.slices t - lowerPrimitive T.slices m = _ at this
  rw [hc, Option.getD_some] at this
  linear_combination -this

theorem prim_upper_step {T : Tube K} (h : T.WF) : ∀ s ∈ T.slices, ∀ c, s.cod.ub? = some c → ∀ m t, s.lb ≤ m → m ≤ t →
    t ≤ s.ub → upperPrimitive T.slices m + (t - m) * c = upperPrimitive T.slices t := by
  intro s hs c hc m t h1 h2 h3
  have := prim_slope (σ := fun s => s.cod.ub?.getD 0) (g := T.g0) h.tiles s hs m t h1 h2 h3
  change upperPrimitive T.slices t - upperPrimitive T.slices m = _ at this
  rw [hc, Option.getD_some] at this
  linear_combination -this

theorem partialIntegral_exact {T : Tube K} (h : T.WF) {a b : K} (ha : T.t0 ≤ a) (hab : a ≤ b) (hb : b ≤ T.tf)
    (hbd : ∀ s ∈ T.slices, s.lb < b → s.cod.isUnbounded = false) {X Y : Itv K}
    (hX : ∀ t, a ≤ t → t ≤ b → lowerPrimitive T.slices t ∈ X)
    (hY : ∀ t, a ≤ t → t ≤ b → upperPrimitive T.slices t ∈ Y) :
    (T.partialIntegral (IArith.exact K) a b).1 ≤ X ∧ (T.partialIntegral (IArith.exact K) a b).2 ≤ Y := by
  have hm : min T.t0 b = T.t0 := min_eq_left (ha.trans hab)
  refine piLoop_exact hab hb hX hY h.tiles hbd (prim_lower_step h) (prim_upper_step h) ?_ ?_
  · rw [hm]
    refine ⟨fun _ => ?_, fun h => absurd h (not_lt.mpr ha)⟩
    rw [show lowerPrimitive T.slices T.t0 = 0 from prim_start (σ := fun s => s.cod.lb?.getD 0) h.tiles]
  · rw [hm]
    refine ⟨fun _ => ?_, fun h => absurd h (not_lt.mpr ha)⟩
    rw [show upperPrimitive T.slices T.t0 = 0 from prim_start (σ := fun s => s.cod.ub?.getD 0) h.tiles]

end Codac
