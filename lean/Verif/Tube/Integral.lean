import Verif.Tube.Eval
import Verif.Arith
import Mathlib.Tactic.Linarith
import Mathlib.Tactic.Ring
import Mathlib.Tactic.LinearCombination
import Mathlib.Algebra.BigOperators.Group.List.Basic

/-!
# Integrals of tubes

Source: `src/core/domains/tube/codac_Tube.cpp:1340-1462`.
-/

set_option linter.unusedSectionVars false

namespace Codac
variable {K : Type*} [Field K] [LinearOrder K] [IsStrictOrderedRing K]

/-! ### Model -/

/-- codac_Tube.cpp:1422-1424, one of the two components `(p_integ, p_integ_uncertain)`: the slice part of length
`d` before `[t]`. The product `diam * lb` of two doubles is taken exact. -/
def piCertain (A : IArith K) (d c : K) (st : Itv K × Itv K) : Itv K × Itv K :=
  (A.add st.1 (.point (d * c)), A.add st.1 (.point (d * c)))

/-- codac_Tube.cpp:1435-1443, one component: the slice part of length `d` inside `[t]` -/
def piUncertain (A : IArith K) (d c : K) (st : Itv K × Itv K) : Itv K × Itv K :=
  (st.1 ⊔ A.add st.2 (A.mul (.icc 0 d) (.point c)), A.add st.2 (.point (d * c)))

/-- codac_Tube.cpp:1409-1447: the loop for `[t] = [a,b]`; `f` and `g` hold the lower and the upper component. The
intersection of line 1419 is nonempty iff `slice.lb ≤ a`, the one of line 1432 iff `a ≤ slice.ub` (as
`slice.lb < b`). -/
def piLoop (A : IArith K) (a b : K) : List (Slice K) → Itv K × Itv K → Itv K × Itv K → Itv K × Itv K
  | [], f, g => (f.1, g.1)
  | s :: ss, f, g =>
    if s.lb < b then
      match s.cod with
      | .empty => (⊥, ⊥)
      | .mk (some l) (some h) _ =>
        let f1 := if s.lb ≤ a then piCertain A (min s.ub a - s.lb) l f else f
        let g1 := if s.lb ≤ a then piCertain A (min s.ub a - s.lb) h g else g
        if s.lb ≤ a ∧ min s.ub a = b then (f1.1, g1.1)
        else
          let f2 := if a ≤ s.ub then piUncertain A (min s.ub b - max s.lb a) l f1 else f1
          let g2 := if a ≤ s.ub then piUncertain A (min s.ub b - max s.lb a) h g1 else g1
          piLoop A a b ss f2 g2
      | _ => (⊤, ⊤)
    else (f.1, g.1)

/-- `Tube::partial_integral([a,b])`, codac_Tube.cpp:1389-1452 (mode without synthesis) -/
def Tube.partialIntegral (A : IArith K) (T : Tube K) (a b : K) : Itv K × Itv K :=
  piLoop A a b T.slices (.point 0, .point 0) (.point 0, .point 0)

/-- `Interval(lb) | ub` of codac_Tube.cpp:1358 and 1385 (an infinite bound, which would be an overflow, gives the
whole line) -/
def hullOpt (l h : Option K) : Itv K :=
  match l, h with
  | some l, some h => .point l ⊔ .point h
  | _, _ => ⊤

/-- `Tube::integral([a,b])`, codac_Tube.cpp:1346-1359 -/
def Tube.integral (A : IArith K) (T : Tube K) (a b : K) : Itv K :=
  let p := T.partialIntegral A a b
  if p.1.isEmpty || p.2.isEmpty then ⊥
  else if p.1.isUnbounded || p.2.isUnbounded then ⊤
  else hullOpt p.1.lb? p.2.ub?

/-- `Tube::integral([a1,b1],[a2,b2])`, codac_Tube.cpp:1361-1387 -/
def Tube.integral2 (A : IArith K) (T : Tube K) (a1 b1 a2 b2 : K) : Itv K :=
  let p := T.partialIntegral A a1 b1
  let q := T.partialIntegral A a2 b2
  if p.1.isEmpty || p.2.isEmpty || q.1.isEmpty || q.2.isEmpty then ⊥
  else if p.1.isUnbounded || p.2.isUnbounded || q.1.isUnbounded || q.2.isUnbounded then ⊤
  else hullOpt (A.sub q.1 p.1).lb? (A.sub q.2 p.2).ub?

/-- `Tube::partial_integral([a1,b1],[a2,b2])`, codac_Tube.cpp:1454-1462 -/
def Tube.partialIntegral2 (A : IArith K) (T : Tube K) (a1 b1 a2 b2 : K) : Itv K × Itv K :=
  let p := T.partialIntegral A a1 b1
  let q := T.partialIntegral A a2 b2
  (A.sub q.1 p.1, A.sub q.2 p.2)

/-! ### Specification -/

/-- between any two instants of the slice, the mean slope of `F` is in the envelope of the slice -/
def Slice.SlopeIn (s : Slice K) (F : K → K) : Prop :=
  ∀ m t, s.lb ≤ m → m < t → t ≤ s.ub → ∃ y ∈ s.cod, F t - F m = y * (t - m)

/-- `F` is a primitive of some signal of the tube: on each slice, its slopes are in the envelope -/
def Tube.SlopeIn (T : Tube K) (F : K → K) : Prop := ∀ s ∈ T.slices, s.SlopeIn F

/-- the function null at `t0` whose slope is constant on each slice, equal to the lower bound of the envelope
(0 if there is none): the smallest primitive -/
def lowerPrimitive (ss : List (Slice K)) (t : K) : K :=
  (ss.map fun s => (s.cod.lb?.getD 0) * (max s.lb (min t s.ub) - s.lb)).sum

/-- the function null at `t0` whose slope is constant on each slice, equal to the upper bound of the envelope -/
def upperPrimitive (ss : List (Slice K)) (t : K) : K :=
  (ss.map fun s => (s.cod.ub?.getD 0) * (max s.lb (min t s.ub) - s.lb)).sum

/-! ### Proofs -/

/-- what one component of the loop knows when the slices before `x` have been visited -/
def PiInv (a x : K) (ρ : K → K → Prop) (st : Itv K × Itv K) : Prop :=
  (x ≤ a → ∃ v ∈ st.1, ρ v x) ∧
  (a < x → (∀ t, a ≤ t → t ≤ x → ∃ v ∈ st.1, ρ v t) ∧ ∃ v ∈ st.2, ρ v x)

theorem mem_point_mul {A : IArith K} {d c v : K} {X : Itv K} (h : v ∈ X) : v + d * c ∈ A.add X (.point (d * c)) :=
  A.add_mem h (by simp)

theorem piInv_step {A : IArith K} {a b x y c : K} {ρ : K → K → Prop} {st : Itv K × Itv K}
    (hxy : x < y) (hxb : x < b) (hab : a ≤ b)
    (hρ : ∀ m t, x ≤ m → m ≤ t → t ≤ y → ∀ v, ρ v m → ρ (v + (t - m) * c) t)
    (hi : PiInv a x ρ st) :
    (x ≤ a → min y a = b → ∃ v ∈ (piCertain A (min y a - x) c st).1, ρ v b) ∧
    (¬ (x ≤ a ∧ min y a = b) →
      PiInv a (min y b) ρ
        (if a ≤ y then piUncertain A (min y b - max x a) c
            (if x ≤ a then piCertain A (min y a - x) c st else st)
          else (if x ≤ a then piCertain A (min y a - x) c st else st))) := by
  have hcert : x ≤ a → (∃ v ∈ (piCertain A (min y a - x) c st).1, ρ v (min y a)) := by
    intro hxa
    obtain ⟨v, hv, hr⟩ := hi.1 hxa
    exact ⟨_, mem_point_mul hv, hρ x (min y a) le_rfl (le_min hxy.le hxa) (min_le_left _ _) v hr⟩
  refine ⟨fun hxa e => e ▸ hcert hxa, fun hret => ?_⟩
  by_cases hay : a ≤ y
  · rw [if_pos hay]
    -- state after the first part: it covers `[a, max x a]` and knows `max x a`
    have hmid : ∃ st1, (if x ≤ a then piCertain A (min y a - x) c st else st) = st1 ∧
        (∀ t, a ≤ t → t ≤ max x a → ∃ v ∈ st1.1, ρ v t) ∧ ∃ v ∈ st1.2, ρ v (max x a) := by
      refine ⟨_, rfl, ?_⟩
      by_cases hxa : x ≤ a
      · rw [if_pos hxa, max_eq_right hxa]
        have := hcert hxa
        rw [min_eq_right hay] at this ⊢
        refine ⟨fun t h1 h2 => ?_, this⟩
        rw [le_antisymm h2 h1]; exact this
      · rw [if_neg hxa, max_eq_left (not_le.mp hxa).le]
        exact hi.2 (not_le.mp hxa)
    obtain ⟨st1, e1, hc, w, hw, hwr⟩ := hmid
    rw [e1]
    have hm1 : max x a ≤ min y b := max_le (le_min hxy.le hxb.le) (le_min hay hab)
    have hxm : x ≤ max x a := le_max_left _ _
    have hcov : ∀ t, a ≤ t → t ≤ min y b → ∃ v ∈ (piUncertain A (min y b - max x a) c st1).1, ρ v t := by
      intro t h1 h2
      rcases le_total t (max x a) with h3 | h3
      · obtain ⟨v, hv, hr⟩ := hc t h1 h3
        exact ⟨v, Itv.mem_sup_left hv, hr⟩
      · refine ⟨w + (t - max x a) * c, Itv.mem_sup_right (A.add_mem hw (A.mul_mem ?_ (by simp))),
          hρ _ _ hxm h3 (le_trans h2 (min_le_left _ _)) w hwr⟩
        rw [Itv.mem_icc]
        exact ⟨sub_nonneg.mpr h3, sub_le_sub_right h2 _⟩
    refine ⟨fun h => ?_, fun h => ⟨hcov, ?_⟩⟩
    · exact hcov _ (le_min hay hab) le_rfl
    · exact ⟨_, mem_point_mul hw, hρ _ _ hxm hm1 (min_le_left _ _) w hwr⟩
  · rw [if_neg hay]
    have hya := not_le.mp hay
    have hxa : x ≤ a := (hxy.trans hya).le
    have hyb : min y b = y := min_eq_left (hya.le.trans hab)
    rw [if_pos hxa, hyb]
    have := hcert hxa
    rw [min_eq_left hya.le] at this ⊢
    exact ⟨fun _ => this, fun h => absurd h (not_lt.mpr hya.le)⟩

theorem piLoop_spec {A : IArith K} {a b tf : K} (hab : a ≤ b) (hbf : b ≤ tf) {ρ₁ ρ₂ : K → K → Prop}
    (e1 : ∀ t, ∃ v, ρ₁ v t) (e2 : ∀ t, ∃ v, ρ₂ v t) {cs : List (Cell K)} :
    ∀ {x : K} {g : Itv K} {st₁ st₂ : Itv K × Itv K}, Tiles x cs tf →
    (∀ s ∈ slicesFrom g cs, s.lb < b → s.cod ≠ ⊥) →
    (∀ s ∈ slicesFrom g cs, ∀ c, s.cod.lb? = some c → ∀ m t, s.lb ≤ m → m ≤ t → t ≤ s.ub → ∀ v, ρ₁ v m →
      ρ₁ (v + (t - m) * c) t) →
    (∀ s ∈ slicesFrom g cs, ∀ c, s.cod.ub? = some c → ∀ m t, s.lb ≤ m → m ≤ t → t ≤ s.ub → ∀ v, ρ₂ v m →
      ρ₂ (v + (t - m) * c) t) →
    PiInv a (min x b) ρ₁ st₁ → PiInv a (min x b) ρ₂ st₂ →
    ∀ t, a ≤ t → t ≤ b →
      (∃ v ∈ (piLoop A a b (slicesFrom g cs) st₁ st₂).1, ρ₁ v t) ∧
      (∃ v ∈ (piLoop A a b (slicesFrom g cs) st₁ st₂).2, ρ₂ v t) := by
  have hend : ∀ {x : K} {ρ : K → K → Prop} {st : Itv K × Itv K}, b ≤ x → PiInv a (min x b) ρ st →
      ∀ t, a ≤ t → t ≤ b → ∃ v ∈ st.1, ρ v t := by
    intro x ρ st hx hi t h1 h2
    rw [min_eq_right hx] at hi
    rcases eq_or_lt_of_le hab with e | h
    · have := hi.1 e.ge
      rwa [← le_antisymm h2 (e ▸ h1)] at this
    · exact (hi.2 h).1 t h1 h2
  induction cs with
  | nil =>
    intro x g st₁ st₂ ht _ _ _ i1 i2 t h1 h2
    have hx : b ≤ x := by rw [show x = tf from ht]; exact hbf
    exact ⟨hend hx i1 t h1 h2, hend hx i2 t h1 h2⟩
  | cons c cs ih =>
    intro x g st₁ st₂ ht hne H1 H2 i1 i2 t h1 h2
    obtain ⟨rfl, h3, h4⟩ := ht
    simp only [slicesFrom_cons, List.mem_cons, forall_eq_or_imp] at hne H1 H2
    obtain ⟨hne0, hne⟩ := hne
    obtain ⟨H10, H1⟩ := H1
    obtain ⟨H20, H2⟩ := H2
    simp only [slicesFrom_cons, piLoop]
    by_cases hxb : c.lb < b
    · rw [if_pos hxb]
      rw [min_eq_left hxb.le] at i1 i2
      have hne0 := hne0 hxb
      revert hne0 H10 H20
      cases hc : c.cod with
      | empty => intro _ _ h; exact absurd rfl h
      | mk lo hi hlh =>
        cases lo with
        | none => intro _ _ _; exact ⟨(e1 t).imp fun v hv => ⟨Itv.mem_top v, hv⟩, (e2 t).imp fun v hv => ⟨Itv.mem_top v, hv⟩⟩
        | some l =>
          cases hi with
          | none => intro _ _ _; exact ⟨(e1 t).imp fun v hv => ⟨Itv.mem_top v, hv⟩, (e2 t).imp fun v hv => ⟨Itv.mem_top v, hv⟩⟩
          | some h =>
            intro H10 H20 _
            have s1 := piInv_step (A := A) h3 hxb hab (H10 l rfl) i1
            have s2 := piInv_step (A := A) h3 hxb hab (H20 h rfl) i2
            dsimp only
            by_cases hr : c.lb ≤ a ∧ min c.ub a = b
            · have e : a = b := le_antisymm hab (by rw [← hr.2]; exact min_le_right _ _)
              have et : t = b := le_antisymm h2 (e ▸ h1)
              rw [if_pos hr, if_pos hr.1, if_pos hr.1, et]
              exact ⟨s1.1 hr.1 hr.2, s2.1 hr.1 hr.2⟩
            · rw [if_neg hr]
              exact ih h4 hne H1 H2 (s1.2 hr) (s2.2 hr) t h1 h2
    · rw [if_neg hxb]
      exact ⟨hend (not_lt.mp hxb) i1 t h1 h2, hend (not_lt.mp hxb) i2 t h1 h2⟩

/-- an unbounded envelope before `b` makes the answer the whole line -/
theorem piLoop_unbounded {A : IArith K} {a b tf : K} {cs : List (Cell K)} :
    ∀ {x : K} {g : Itv K} {st₁ st₂ : Itv K × Itv K}, Tiles x cs tf →
    (∀ s ∈ slicesFrom g cs, s.lb < b → s.cod ≠ ⊥) →
    (∃ s ∈ slicesFrom g cs, s.lb < b ∧ s.cod.isUnbounded = true) →
    piLoop A a b (slicesFrom g cs) st₁ st₂ = (⊤, ⊤) := by
  induction cs with
  | nil => rintro x g st₁ st₂ ht _ ⟨s, hs, _⟩; simp at hs
  | cons c cs ih =>
    rintro x g st₁ st₂ ht hne ⟨s, hs, hsb, hsu⟩
    obtain ⟨rfl, h3, h4⟩ := ht
    simp only [slicesFrom_cons, List.mem_cons, forall_eq_or_imp] at hne
    rw [slicesFrom_cons, List.mem_cons] at hs
    have hxb : c.lb < b := by
      rcases hs with rfl | hs
      · exact hsb
      · exact lt_of_lt_of_le h3 (h4.mem_bounds hs).1 |>.trans hsb
    simp only [slicesFrom_cons, piLoop]
    rw [if_pos hxb]
    have hne0 := hne.1 hxb
    have hs' : c.cod.isUnbounded = true ∨ s ∈ slicesFrom c.out cs := by
      rcases hs with rfl | hs
      · exact Or.inl hsu
      · exact Or.inr hs
    revert hne0 hs'
    cases hc : c.cod with
    | empty => intro h; exact absurd rfl h
    | mk lo hi hlh =>
      cases lo with
      | none => intros; rfl
      | some l =>
        cases hi with
        | none => intros; rfl
        | some h =>
          intro _ hs'
          rcases hs' with h | hs'
          · simp [Itv.isUnbounded] at h
          · dsimp only
            by_cases hr : c.lb ≤ a ∧ min c.ub a = b
            · exfalso
              have : b ≤ c.ub := by rw [← hr.2]; exact min_le_left _ _
              exact absurd (lt_of_lt_of_le hsb (this.trans (h4.mem_bounds hs').1)) (lt_irrefl _)
            · rw [if_neg hr]
              exact ih h4 hne.2 ⟨s, hs', hsb, hsu⟩

/-- slopes of the sum defining the extreme primitives -/
theorem prim_slope {σ : Slice K → K} {b : K} {cs : List (Cell K)} : ∀ {a : K} {g : Itv K}, Tiles a cs b →
    ∀ s ∈ slicesFrom g cs, ∀ m t, s.lb ≤ m → m ≤ t → t ≤ s.ub →
    ((slicesFrom g cs).map fun s => σ s * (max s.lb (min t s.ub) - s.lb)).sum -
      ((slicesFrom g cs).map fun s => σ s * (max s.lb (min m s.ub) - s.lb)).sum = σ s * (t - m) := by
  induction cs with
  | nil => intro a g _ s hs; simp at hs
  | cons c cs ih =>
    intro a g ht s hs m t h1 h2 h3
    obtain ⟨rfl, h4, h5⟩ := ht
    simp only [slicesFrom_cons, List.map_cons, List.sum_cons]
    rw [slicesFrom_cons, List.mem_cons] at hs
    rcases hs with rfl | hs
    · -- the following slices contribute nothing
      have hz : ∀ r, r ≤ c.ub → ((slicesFrom c.out cs).map fun s => σ s * (max s.lb (min r s.ub) - s.lb)).sum = 0 := by
        intro r hr
        apply List.sum_eq_zero
        intro z hz
        obtain ⟨s', hs', rfl⟩ := List.mem_map.mp hz
        have hb := h5.mem_bounds hs'
        rw [max_eq_left (le_trans (min_le_left _ _) (hr.trans hb.1)), sub_self, mul_zero]
      dsimp only at h1 h3 ⊢
      rw [hz t h3, hz m (h2.trans h3), min_eq_left h3, min_eq_left (h2.trans h3), max_eq_right h1,
        max_eq_right (h1.trans h2)]
      ring
    · have hb := h5.mem_bounds hs
      have e := ih h5 s hs m t h1 h2 h3
      have hm : c.ub ≤ m := hb.1.trans h1
      rw [min_eq_right hm, min_eq_right (hm.trans h2)]
      linear_combination e

theorem prim_start {σ : Slice K → K} {b : K} {cs : List (Cell K)} {a : K} {g : Itv K} (ht : Tiles a cs b) :
    ((slicesFrom g cs).map fun s => σ s * (max s.lb (min a s.ub) - s.lb)).sum = 0 := by
  apply List.sum_eq_zero
  intro z hz
  obtain ⟨s', hs', rfl⟩ := List.mem_map.mp hz
  have hb := ht.mem_bounds hs'
  rw [max_eq_left (le_trans (min_le_left _ _) hb.1), sub_self, mul_zero]

/-- a function monotone on each slice before `B` is monotone up to `B` -/
theorem mono_of_slices {G : K → K} {B b : K} {cs : List (Cell K)} : ∀ {a : K} {g : Itv K}, Tiles a cs b →
    (∀ s ∈ slicesFrom g cs, s.lb < B → ∀ m t, s.lb ≤ m → m ≤ t → t ≤ s.ub → G m ≤ G t) →
    ∀ m t, a ≤ m → m ≤ t → t ≤ b → t ≤ B → G m ≤ G t := by
  induction cs with
  | nil =>
    intro a g ht _ m t h1 h2 h3 _
    have e : a = b := ht
    have : m = t := le_antisymm h2 (h3.trans (e ▸ h1))
    rw [this]
  | cons c cs ih =>
    intro a g ht H m t h1 h2 h3 h4
    obtain ⟨rfl, h5, h6⟩ := ht
    simp only [slicesFrom_cons, List.mem_cons, forall_eq_or_imp] at H
    rcases eq_or_lt_of_le h2 with e | hlt
    · rw [e]
    · have hB : c.lb < B := lt_of_le_of_lt h1 (lt_of_lt_of_le hlt h4)
      rcases le_total t c.ub with h7 | h7
      · exact H.1 hB m t h1 h2 h7
      · rcases le_total m c.ub with h8 | h8
        · exact (H.1 hB m c.ub h1 h8 le_rfl).trans (ih h6 H.2 c.ub t le_rfl h7 h3 h4)
        · exact ih h6 H.2 m t h8 h2 h3 h4

theorem slope_le {s : Slice K} {F : K → K} (h : s.SlopeIn F) {m t : K} (h1 : s.lb ≤ m) (h2 : m ≤ t) (h3 : t ≤ s.ub) :
    (∀ c, s.cod.lb? = some c → (t - m) * c ≤ F t - F m) ∧ (∀ c, s.cod.ub? = some c → F t - F m ≤ (t - m) * c) := by
  rcases eq_or_lt_of_le h2 with e | hlt
  · subst e; simp
  · obtain ⟨y, hy, e⟩ := h m t h1 hlt h3
    have hp : 0 ≤ t - m := sub_nonneg.mpr h2
    rw [e, mul_comm y]
    revert hy
    cases s.cod with
    | empty => intro hy; exact absurd hy (Itv.not_mem_empty y)
    | mk lo hi hlh =>
      intro hy
      obtain ⟨hl, hh⟩ := hy
      constructor
      · intro c hc
        have : lo = some c := hc
        subst this
        exact mul_le_mul_of_nonneg_left hl hp
      · intro c hc
        have : hi = some c := hc
        subst this
        exact mul_le_mul_of_nonneg_left hh hp

theorem slope_ne_bot {T : Tube K} (h : T.WF) {F : K → K} (hF : T.SlopeIn F) : ∀ s ∈ T.slices, s.cod ≠ ⊥ := by
  intro s hs
  obtain ⟨y, hy, _⟩ := hF s hs s.lb s.ub le_rfl (h.tiles.mem_bounds hs).2.1 le_rfl
  exact Itv.ne_bot_of_mem hy

theorem partialIntegral_encloses {A : IArith K} {T : Tube K} (h : T.WF) {F : K → K} (hF : T.SlopeIn F)
    (h0 : F T.t0 = 0) {a b : K} (ha : T.t0 ≤ a) (hab : a ≤ b) (hb : b ≤ T.tf) {t : K} (h1 : a ≤ t) (h2 : t ≤ b) :
    (∃ v ∈ (T.partialIntegral A a b).1, v ≤ F t) ∧ (∃ v ∈ (T.partialIntegral A a b).2, F t ≤ v) := by
  have hm : min T.t0 b = T.t0 := min_eq_left (ha.trans hab)
  refine piLoop_spec (ρ₁ := fun v t => v ≤ F t) (ρ₂ := fun v t => F t ≤ v) hab hb (fun t => ⟨F t, le_rfl⟩)
    (fun t => ⟨F t, le_rfl⟩) h.tiles (fun s hs _ => slope_ne_bot h hF s hs) ?_ ?_ ?_ ?_ t h1 h2
  · intro s hs c hc m t h1 h2 h3 v hv
    have := (slope_le (hF s hs) h1 h2 h3).1 c hc
    linarith
  · intro s hs c hc m t h1 h2 h3 v hv
    have := (slope_le (hF s hs) h1 h2 h3).2 c hc
    linarith
  · rw [hm]
    refine ⟨fun _ => ⟨0, by simp, h0.ge⟩, fun h => absurd h (not_lt.mpr ha)⟩
  · rw [hm]
    refine ⟨fun _ => ⟨0, by simp, h0.le⟩, fun h => absurd h (not_lt.mpr ha)⟩

/-- the extreme primitives are in the partial integrals -/
theorem partialIntegral_prim {A : IArith K} {T : Tube K} (h : T.WF) (hne : ∀ s ∈ T.slices, s.cod ≠ ⊥)
    {a b : K} (ha : T.t0 ≤ a) (hab : a ≤ b) (hb : b ≤ T.tf) {t : K} (h1 : a ≤ t) (h2 : t ≤ b) :
    lowerPrimitive T.slices t ∈ (T.partialIntegral A a b).1 ∧ upperPrimitive T.slices t ∈ (T.partialIntegral A a b).2 := by
  have hm : min T.t0 b = T.t0 := min_eq_left (ha.trans hab)
  have := piLoop_spec (A := A) (ρ₁ := fun v t => v = lowerPrimitive T.slices t)
    (ρ₂ := fun v t => v = upperPrimitive T.slices t) hab hb (fun t => ⟨_, rfl⟩)
    (fun t => ⟨_, rfl⟩) (g := T.g0) (st₁ := (.point 0, .point 0)) (st₂ := (.point 0, .point 0)) h.tiles
    (fun s hs _ => hne s hs) ?_ ?_ ?_ ?_ t h1 h2
  · obtain ⟨⟨v, hv, e⟩, ⟨w, hw, e'⟩⟩ := this
    subst e; subst e'
    exact ⟨hv, hw⟩
  · intro s hs c hc m t h1 h2 h3 v hv
    have := prim_slope (σ := fun s => s.cod.lb?.getD 0) (g := T.g0) h.tiles s hs m t h1 h2 h3
    rw [hv]
    change lowerPrimitive T.slices t - lowerPrimitive T.slices m = _ at this
    rw [hc, Option.getD_some] at this
    linear_combination -this
  · intro s hs c hc m t h1 h2 h3 v hv
    have := prim_slope (σ := fun s => s.cod.ub?.getD 0) (g := T.g0) h.tiles s hs m t h1 h2 h3
    rw [hv]
    change upperPrimitive T.slices t - upperPrimitive T.slices m = _ at this
    rw [hc, Option.getD_some] at this
    linear_combination -this
  · rw [hm]
    refine ⟨fun _ => ⟨0, by simp, (prim_start (σ := fun s => s.cod.lb?.getD 0) h.tiles).symm⟩,
      fun h => absurd h (not_lt.mpr ha)⟩
  · rw [hm]
    refine ⟨fun _ => ⟨0, by simp, (prim_start (σ := fun s => s.cod.ub?.getD 0) h.tiles).symm⟩,
      fun h => absurd h (not_lt.mpr ha)⟩

theorem partialIntegral_unbounded {A : IArith K} {T : Tube K} (h : T.WF) (hne : ∀ s ∈ T.slices, s.cod ≠ ⊥) {a b : K}
    (hu : ∃ s ∈ T.slices, s.lb < b ∧ s.cod.isUnbounded = true) : T.partialIntegral A a b = (⊤, ⊤) :=
  piLoop_unbounded h.tiles (fun s hs _ => hne s hs) hu

/-- bounds of a bounded interval -/
theorem Itv.bounds_of_bounded {X : Itv K} (h1 : X.isEmpty = false) (h2 : X.isUnbounded = false) :
    ∃ l h p, X = .mk (some l) (some h) p := by
  match X, h1, h2 with
  | .mk (some l) (some h) p, _, _ => exact ⟨l, h, p, rfl⟩

theorem integral_mem {A : IArith K} {T : Tube K} (h : T.WF) {F : K → K} (hF : T.SlopeIn F)
    (h0 : F T.t0 = 0) {a b : K} (ha : T.t0 ≤ a) (hab : a ≤ b) (hb : b ≤ T.tf) {t : K} (h1 : a ≤ t) (h2 : t ≤ b) :
    F t ∈ T.integral A a b := by
  obtain ⟨⟨v, hv, e⟩, ⟨w, hw, e'⟩⟩ := partialIntegral_encloses (A := A) h hF h0 ha hab hb h1 h2
  unfold Tube.integral
  have n1 := Itv.isEmpty_false_iff.mpr (Itv.ne_bot_of_mem hv)
  have n2 := Itv.isEmpty_false_iff.mpr (Itv.ne_bot_of_mem hw)
  simp only [n1, n2, Bool.or_self, Bool.false_eq_true, if_false]
  split_ifs with hu
  · simp
  · simp only [Bool.or_eq_true, not_or, Bool.not_eq_true] at hu
    obtain ⟨l, u, p, hp⟩ := Itv.bounds_of_bounded n1 hu.1
    obtain ⟨l', u', p', hp'⟩ := Itv.bounds_of_bounded n2 hu.2
    rw [hp] at hv ⊢; rw [hp'] at hw ⊢
    exact Itv.mem_sup_of_between (a := l) (b := u') (by simp) (by simp) (hv.1.trans e) (e'.trans hw.2)

theorem sub_lb {A : IArith K} {X Y : Itv K} {x y l : K} (hx : x ∈ X) (hy : y ∈ Y) (h : (A.sub X Y).lb? = some l) :
    l ≤ x - y := by
  have := A.sub_mem hx hy
  revert h this
  cases A.sub X Y with
  | empty => intro h; exact absurd h (by simp [Itv.lb?])
  | mk lo hi p =>
    intro h hm
    have : lo = some l := h
    subst this; exact hm.1

theorem sub_ub {A : IArith K} {X Y : Itv K} {x y l : K} (hx : x ∈ X) (hy : y ∈ Y) (h : (A.sub X Y).ub? = some l) :
    x - y ≤ l := by
  have := A.sub_mem hx hy
  revert h this
  cases A.sub X Y with
  | empty => intro h; exact absurd h (by simp [Itv.ub?])
  | mk lo hi p =>
    intro h hm
    have : hi = some l := h
    subst this; exact hm.2

theorem integral2_mem {A : IArith K} {T : Tube K} (h : T.WF) {F : K → K} (hF : T.SlopeIn F)
    {a1 b1 a2 b2 : K} (ha : T.t0 ≤ a1) (hab1 : a1 ≤ b1) (hb1 : b1 ≤ T.tf) (ha2 : T.t0 ≤ a2) (hab2 : a2 ≤ b2) (hb : b2 ≤ T.tf)
    {t1 t2 : K} (h1 : a1 ≤ t1) (h2 : t1 ≤ b1) (h3 : a2 ≤ t2) (h4 : t2 ≤ b2) (ht : t1 ≤ t2) :
    F t2 - F t1 ∈ T.integral2 A a1 b1 a2 b2 := by
  have hne := slope_ne_bot h hF
  obtain ⟨m1, m1'⟩ := partialIntegral_prim (A := A) h hne ha hab1 hb1 h1 h2
  obtain ⟨m2, m2'⟩ := partialIntegral_prim (A := A) h hne ha2 hab2 hb h3 h4
  unfold Tube.integral2
  have n1 := Itv.isEmpty_false_iff.mpr (Itv.ne_bot_of_mem m1)
  have n2 := Itv.isEmpty_false_iff.mpr (Itv.ne_bot_of_mem m1')
  have n3 := Itv.isEmpty_false_iff.mpr (Itv.ne_bot_of_mem m2)
  have n4 := Itv.isEmpty_false_iff.mpr (Itv.ne_bot_of_mem m2')
  simp only [n1, n2, n3, n4, Bool.or_self, Bool.false_eq_true, if_false]
  split_ifs with hu
  · simp
  · simp only [Bool.or_eq_true, not_or, Bool.not_eq_true] at hu
    -- no unbounded envelope before `b2`
    have hbd : ∀ s ∈ T.slices, s.lb < b2 → s.cod.isUnbounded = false := by
      intro s hs hlt
      by_contra hc
      rw [Bool.not_eq_false] at hc
      have := partialIntegral_unbounded (A := A) (a := a2) h hne ⟨s, hs, hlt, hc⟩
      rw [this] at hu
      exact absurd hu.2 (by simp [Itv.isUnbounded, Itv.top_eq, Itv.all])
    have hlow : lowerPrimitive T.slices t2 - lowerPrimitive T.slices t1 ≤ F t2 - F t1 := by
      have := mono_of_slices (G := fun t => F t - lowerPrimitive T.slices t) (B := b2) (g := T.g0) h.tiles ?_ t1 t2
        (ha.trans h1) ht (h4.trans hb) h4
      · linarith
      · intro s hs hlt m t e1 e2 e3
        obtain ⟨l, u, p, hp⟩ := Itv.bounds_of_bounded (Itv.isEmpty_false_iff.mpr (hne s hs)) (hbd s hs hlt)
        have := (slope_le (hF s hs) e1 e2 e3).1 l (by rw [hp]; rfl)
        have e := prim_slope (σ := fun s => s.cod.lb?.getD 0) (g := T.g0) h.tiles s hs m t e1 e2 e3
        change lowerPrimitive T.slices t - lowerPrimitive T.slices m = _ at e
        simp only [hp, Itv.lb?, Option.getD_some] at e
        linarith
    have hupp : F t2 - F t1 ≤ upperPrimitive T.slices t2 - upperPrimitive T.slices t1 := by
      have := mono_of_slices (G := fun t => upperPrimitive T.slices t - F t) (B := b2) (g := T.g0) h.tiles ?_ t1 t2
        (ha.trans h1) ht (h4.trans hb) h4
      · linarith
      · intro s hs hlt m t e1 e2 e3
        obtain ⟨l, u, p, hp⟩ := Itv.bounds_of_bounded (Itv.isEmpty_false_iff.mpr (hne s hs)) (hbd s hs hlt)
        have := (slope_le (hF s hs) e1 e2 e3).2 u (by rw [hp]; rfl)
        have e := prim_slope (σ := fun s => s.cod.ub?.getD 0) (g := T.g0) h.tiles s hs m t e1 e2 e3
        change upperPrimitive T.slices t - upperPrimitive T.slices m = _ at e
        simp only [hp, Itv.ub?, Option.getD_some] at e
        linarith
    unfold hullOpt
    split
    · rename_i l u hl hr
      have k1 := sub_lb m2 m1 hl
      have k2 := sub_ub m2' m1' hr
      exact Itv.mem_sup_of_between (a := l) (b := u) (by simp) (by simp) (k1.trans hlow) (hupp.trans k2)
    · simp

end Codac
