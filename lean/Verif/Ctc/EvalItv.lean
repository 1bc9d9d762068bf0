import Verif.Ctc.EvalItvModel
import Verif.Tube.Polygon

/-!
# `CtcEval` over an interval of time: the fronts keep the solutions

A solution is a trajectory `f` with an instant `τ`, such that `f τ` is in `z`.
-/

set_option linter.unusedSectionVars false

namespace Codac
variable {K : Type*} [Field K] [LinearOrder K] [IsStrictOrderedRing K]

/-- `F` is a front for the value `p` of a gate: when `p` is on one side of `F`, no value of `z` is on this side -/
def FrontOk (z F : Itv K) (p : K) : Prop :=
  ((∀ x ∈ F, x < p) → ∀ ζ ∈ z, ∃ x ∈ F, ζ ≤ x) ∧ ((∀ x ∈ F, p < x) → ∀ ζ ∈ z, ∃ x ∈ F, x ≤ ζ)

theorem frontOk_inf {z H G : Itv K} (hz : z ≤ H) (hne : H ⊓ G ≠ ⊥) {p : K} (hp : p ∈ G) : FrontOk z (H ⊓ G) p := by
  obtain ⟨x, hx⟩ := Itv.exists_mem hne
  have hx' := Itv.mem_inf.mp hx
  constructor
  · intro h ζ hζ
    rcases le_or_gt ζ x with h1 | h1
    · exact ⟨x, hx, h1⟩
    · rcases le_or_gt ζ p with h2 | h2
      · exact ⟨ζ, Itv.mem_inf.mpr ⟨Itv.mem_of_le hz hζ, Itv.mem_of_between hx'.2 hp h1.le h2⟩, le_rfl⟩
      · exact absurd (h p (Itv.mem_inf.mpr ⟨Itv.mem_of_between hx'.1 (Itv.mem_of_le hz hζ) (h x hx).le h2.le, hp⟩)) (lt_irrefl _)
  · intro h ζ hζ
    rcases le_or_gt x ζ with h1 | h1
    · exact ⟨x, hx, h1⟩
    · rcases le_or_gt p ζ with h2 | h2
      · exact ⟨ζ, Itv.mem_inf.mpr ⟨Itv.mem_of_le hz hζ, Itv.mem_of_between hp hx'.2 h2 h1.le⟩, le_rfl⟩
      · exact absurd (h p (Itv.mem_inf.mpr ⟨Itv.mem_of_between (Itv.mem_of_le hz hζ) hx'.1 h2.le (h x hx).le, hp⟩)) (lt_irrefl _)

/-- the first front -/
theorem firstFront_ok {g z : Itv K} (hz : z ≠ ⊥) {p : K} (hp : p ∈ g) :
    firstFront g z ≠ ⊥ ∧ FrontOk z (firstFront g z) p ∧ (p ∈ z → p ∈ firstFront g z) := by
  unfold firstFront
  by_cases he : (g ⊓ z).isEmpty = true
  swap
  · rw [if_neg he]
    have hne : g ⊓ z ≠ ⊥ := by rw [Itv.isEmpty_iff] at he; exact he
    refine ⟨hne, ?_, fun h => Itv.mem_inf.mpr ⟨hp, h⟩⟩
    rw [inf_comm]
    rw [inf_comm] at hne
    exact frontOk_inf le_rfl hne hp
  rw [if_pos he]
  rw [Itv.isEmpty_iff] at he
  have hno : ∀ x, x ∈ g → x ∈ z → False := fun x h1 h2 => Itv.ne_bot_of_mem (Itv.mem_inf.mpr ⟨h1, h2⟩) he
  by_cases hlt : g.ubLtLb z = true
  · rw [if_pos hlt]
    match g, z, hlt with
    | .mk lo (some b) h1, .mk (some a) hi h2, hlt =>
      have hlt : b < a := by simpa [Itv.ubLtLb] using hlt
      have hpb : p ≤ b := hp.2
      show Itv.point a ≠ ⊥ ∧ FrontOk _ (Itv.point a) p ∧ _
      refine ⟨Itv.ne_bot_of_mem (x := a) (by simp), ⟨?_, ?_⟩, ?_⟩
      · intro h
        have := h a (by simp)
        linarith
      · intro _ ζ hζ
        exact ⟨a, by simp, hζ.1⟩
      · intro h; exact absurd h (fun h => hno p hp h)
  · rw [if_neg hlt]
    match g, z, hlt, hp, hz, hno with
    | g, .empty, _, _, hz, _ => exact absurd rfl hz
    | .empty, _, _, hp, _, _ => exact absurd hp (by intro h; cases h)
    | .mk lo hi h1, .mk lo' none h2, hlt, hp, _, hno =>
      exfalso
      match lo', hi, h2, h1, hlt, hp, hno with
      | none, _, _, _, _, hp, hno => exact hno p hp ⟨trivial, trivial⟩
      | some a, none, _, _, _, hp, hno =>
        refine hno (max p a) ⟨?_, trivial⟩ ⟨le_max_right _ _, trivial⟩
        cases lo with
        | none => trivial
        | some c => exact le_trans hp.1 (le_max_left _ _)
      | some a, some b, _, h1, hlt, hp, hno =>
        have hlt : a ≤ b := by simpa [Itv.ubLtLb] using hlt
        refine hno b ⟨?_, le_rfl⟩ ⟨hlt, trivial⟩
        cases lo with
        | none => trivial
        | some c => exact le_trans hp.1 hp.2
    | .mk lo hi h1, .mk lo' (some u) h2, hlt, hp, hz, hno =>
      show Itv.point u ≠ ⊥ ∧ FrontOk _ (Itv.point u) p ∧ _
      refine ⟨Itv.ne_bot_of_mem (x := u) (by simp), ⟨?_, ?_⟩, fun h => absurd h (fun h => hno p hp h)⟩
      · intro _ ζ hζ
        exact ⟨u, by simp, hζ.2⟩
      · intro h
        have hpu := h u (by simp)
        -- `p < u` and `p` is not in `z`: `p` is below `z`
        exfalso
        match lo', h2, hlt, hno with
        | none, _, _, hno => exact hno p hp ⟨trivial, hpu.le⟩
        | some a, h2, hlt, hno =>
          have hau : a ≤ u := h2
          have hpa : p < a := by
            by_contra hc
            exact hno p hp ⟨not_lt.mp hc, hpu.le⟩
          cases hi with
          | none =>
            refine hno a ⟨?_, trivial⟩ ⟨le_rfl, hau⟩
            cases lo with
            | none => trivial
            | some c => exact le_trans hp.1 hpa.le
          | some b =>
            have hlt : a ≤ b := by simpa [Itv.ubLtLb] using hlt
            refine hno a ⟨?_, hlt⟩ ⟨le_rfl, hau⟩
            cases lo with
            | none => trivial
            | some c => exact le_trans hp.1 hpa.le

/-- one step of a front: `p` moves to `o` with the speed `v`, and `o` is reached from the value `ζ` of `z` with the speed `v2` -/
theorem front_step {z F H V : Itv K} {e δ p o ζ v v2 : K} (hF : F ≠ ⊥) (hH : ∀ x ∈ F, ∀ v ∈ V, x + e * v ∈ H) (hz : z ≤ H) (hQ : FrontOk z F p)
    (hv : v ∈ V) (hv2 : v2 ∈ V) (hζ : ζ ∈ z) (ho : o = p + e * v) (ho2 : o = ζ + δ * v2)
    (hδ : (0 ≤ δ * v2 ∧ δ * v2 ≤ e * v2) ∨ (e * v2 ≤ δ * v2 ∧ δ * v2 ≤ 0)) : o ∈ H := by
  by_cases hp : p ∈ F
  · rw [ho]; exact hH p hp v hv
  obtain ⟨x0, hx0⟩ := Itv.exists_mem hF
  have hζH := Itv.mem_of_le hz hζ
  rcases lt_trichotomy x0 p with h | h | h
  · -- above
    have hab : ∀ x ∈ F, x < p := by
      intro x hx
      by_contra hc
      exact hp (Itv.mem_of_between hx0 hx h.le (not_lt.mp hc))
    obtain ⟨x, hx, hx2⟩ := hQ.1 hab ζ hζ
    have l1 : x0 + e * v ≤ o := by rw [ho]; linarith
    have m1 := hH x0 hx0 v hv
    rcases hδ with ⟨-, h2⟩ | ⟨-, h2⟩
    · exact Itv.mem_of_between m1 (hH x hx v2 hv2) l1 (by rw [ho2]; linarith)
    · exact Itv.mem_of_between m1 hζH l1 (by rw [ho2]; linarith)
  · exact absurd (h ▸ hx0) hp
  · have hab : ∀ x ∈ F, p < x := by
      intro x hx
      by_contra hc
      exact hp (Itv.mem_of_between hx hx0 (not_lt.mp hc) h.le)
    obtain ⟨x, hx, hx2⟩ := hQ.2 hab ζ hζ
    have l1 : o ≤ x0 + e * v := by rw [ho]; linarith
    have m1 := hH x0 hx0 v hv
    rcases hδ with ⟨h2, -⟩ | ⟨h2, -⟩
    · exact Itv.mem_of_between hζH m1 (by rw [ho2]; linarith) l1
    · exact Itv.mem_of_between (hH x hx v2 hv2) m1 (by rw [ho2]; linarith) l1

section
variable {z : Itv K} {tm : ℕ → K} {V : ℕ → Itv K} {n : ℕ} {Sol : (K → K) → K → Prop}

/-- the forward front at the `k`-th bound contains the values of the solutions that have been in `z` before -/
def FwdOk (Sol : (K → K) → K → Prop) (tm : ℕ → K) (k : ℕ) (F : Itv K) : Prop := ∀ f τ, Sol f τ → τ ≤ tm k → f (tm k) ∈ F

/-- the backward front at the `k`-th bound contains the values of the solutions that will be in `z` after -/
def BwdOk (Sol : (K → K) → K → Prop) (tm : ℕ → K) (k : ℕ) (F : Itv K) : Prop := ∀ f τ, Sol f τ → tm k ≤ τ → f (tm k) ∈ F

/-- what is known of the solutions: values in `z`, slopes in `V` on each slice -/
structure SolOk (z : Itv K) (tm : ℕ → K) (V : ℕ → Itv K) (n : ℕ) (Sol : (K → K) → K → Prop) : Prop where
  lt : ∀ k < n, tm k < tm (k + 1)
  val : ∀ f τ, Sol f τ → f τ ∈ z
  slope : ∀ f τ, Sol f τ → ∀ k < n, ∀ m t, tm k ≤ m → m < t → t ≤ tm (k + 1) → ∃ v ∈ V k, f t - f m = v * (t - m)

theorem between_mul {δ e v : K} (h0 : 0 ≤ δ) (h1 : δ ≤ e) : (0 ≤ δ * v ∧ δ * v ≤ e * v) ∨ (e * v ≤ δ * v ∧ δ * v ≤ 0) := by
  rcases le_total 0 v with h | h
  · exact Or.inl ⟨mul_nonneg h0 h, mul_le_mul_of_nonneg_right h1 h⟩
  · exact Or.inr ⟨mul_le_mul_of_nonpos_right h1 h, mul_nonpos_of_nonneg_of_nonpos h0 h⟩

theorem fwd_step (A : IArith K) (h : SolOk z tm V n Sol) {k : ℕ} (hk : k < n) {F : Itv K} (hP : FwdOk Sol tm k F) (hQ : ∀ f τ, Sol f τ → FrontOk z F (f (tm k)))
    (hF : F ≠ ⊥) {f : K → K} {τ : K} (hs : Sol f τ) (hτ : τ ≤ tm (k + 1)) :
    f (tm (k + 1)) ∈ A.add F (A.mul (.point (tm (k + 1) - tm k)) (V k)) ⊔ z := by
  have hH : ∀ x ∈ F, ∀ v ∈ V k, x + (tm (k + 1) - tm k) * v ∈ A.add F (A.mul (.point (tm (k + 1) - tm k)) (V k)) ⊔ z :=
    fun x hx v hv => Itv.mem_sup_left (A.add_mem hx (A.mul_mem (by simp) hv))
  obtain ⟨v, hv, e⟩ := h.slope f τ hs k hk (tm k) (tm (k + 1)) le_rfl (h.lt k hk) le_rfl
  have e' : f (tm (k + 1)) = f (tm k) + (tm (k + 1) - tm k) * v := by rw [← sub_eq_iff_eq_add', e, mul_comm]
  rcases le_or_gt τ (tm k) with h1 | h1
  · rw [e']; exact hH _ (hP f τ hs h1) v hv
  rcases eq_or_lt_of_le hτ with h2 | h2
  · rw [← h2]; exact Itv.mem_sup_right (h.val f τ hs)
  obtain ⟨v2, hv2, e2⟩ := h.slope f τ hs k hk τ (tm (k + 1)) h1.le h2 le_rfl
  refine front_step hF hH le_sup_right (hQ f τ hs) hv hv2 (h.val f τ hs) e' (δ := tm (k + 1) - τ) ?_ (between_mul (by linarith) (by linarith))
  rw [← sub_eq_iff_eq_add', e2, mul_comm]

theorem bwd_step (A : IArith K) (h : SolOk z tm V n Sol) {k : ℕ} (hk : k < n) {F : Itv K} (hP : BwdOk Sol tm (k + 1) F)
    (hQ : ∀ f τ, Sol f τ → FrontOk z F (f (tm (k + 1)))) (hF : F ≠ ⊥) {f : K → K} {τ : K} (hs : Sol f τ) (hτ : tm k ≤ τ) :
    f (tm k) ∈ A.sub F (A.mul (.point (tm (k + 1) - tm k)) (V k)) ⊔ z := by
  have hH : ∀ x ∈ F, ∀ v ∈ V k, x + (-(tm (k + 1) - tm k)) * v ∈ A.sub F (A.mul (.point (tm (k + 1) - tm k)) (V k)) ⊔ z := by
    intro x hx v hv
    have := A.sub_mem hx (A.mul_mem (X := .point (tm (k + 1) - tm k)) (x := tm (k + 1) - tm k) (by simp) hv)
    rw [neg_mul, ← sub_eq_add_neg]
    exact Itv.mem_sup_left this
  obtain ⟨v, hv, e⟩ := h.slope f τ hs k hk (tm k) (tm (k + 1)) le_rfl (h.lt k hk) le_rfl
  have e' : f (tm k) = f (tm (k + 1)) + (-(tm (k + 1) - tm k)) * v := by linear_combination -e
  rcases le_or_gt (tm (k + 1)) τ with h1 | h1
  · rw [e']; exact hH _ (hP f τ hs h1) v hv
  rcases eq_or_lt_of_le hτ with h2 | h2
  · rw [h2]; exact Itv.mem_sup_right (h.val f τ hs)
  obtain ⟨v2, hv2, e2⟩ := h.slope f τ hs k hk (tm k) τ le_rfl h2 h1.le
  refine front_step hF hH le_sup_right (hQ f τ hs) hv hv2 (h.val f τ hs) e' (δ := -(τ - tm k)) ?_ ?_
  · linear_combination -e2
  · rcases between_mul (v := v2) (show 0 ≤ τ - tm k by linarith) (show τ - tm k ≤ tm (k + 1) - tm k by linarith) with ⟨h3, h4⟩ | ⟨h3, h4⟩
    · right; constructor <;> linarith
    · left; constructor <;> linarith

/-- `gs` lists, from the `k`-th bound down to the `i`-th one, intervals that satisfy `P` -/
inductive Desc (P : ℕ → Itv K → Prop) (i : ℕ) : ℕ → List (Itv K) → Prop
  | base {F} : P i F → Desc P i i [F]
  | step {k F gs} : P (k + 1) F → Desc P i k gs → Desc P i (k + 1) (F :: gs)

theorem Desc.le {P : ℕ → Itv K → Prop} {i k : ℕ} {gs : List (Itv K)} (h : Desc P i k gs) : i ≤ k := by
  induction h with
  | base _ => exact le_rfl
  | step _ _ ih => omega

theorem Desc.head {P : ℕ → Itv K → Prop} {i k : ℕ} {gs : List (Itv K)} (h : Desc P i k gs) : ∃ F gs', gs = F :: gs' ∧ P k F := by
  cases h with
  | base h => exact ⟨_, _, rfl, h⟩
  | step h _ => exact ⟨_, _, rfl, h⟩

theorem Desc.tail {P : ℕ → Itv K → Prop} {i k : ℕ} {gs : List (Itv K)} (h : Desc P i (k + 1) gs) (hi : i ≤ k) : Desc P i k gs.tail := by
  cases h with
  | base h => omega
  | step _ h => exact h

theorem fwdFronts_spec (A : IArith K) (h : SolOk z tm V n Sol) {b : K} {i : ℕ} (hex : ∀ j, i < j → j ≤ n → ∃ f τ, Sol f τ ∧ τ ≤ tm j) (l : List (Slice K × Itv K))
    {k : ℕ} (hl : k + l.length = n) (hp : ∀ j p, l[j]? = some p → p.1.lb = tm (k + j) ∧ p.1.ub = tm (k + j + 1) ∧ p.2 = V (k + j) ∧ ∀ f τ, Sol f τ → f p.1.ub ∈ p.1.outG)
    {F : Itv K} {gs : List (Itv K)} (hgs : Desc (FwdOk Sol tm) i k gs) (hF : F ≠ ⊥) (hP : FwdOk Sol tm k F) (hQ : ∀ f τ, Sol f τ → FrontOk z F (f (tm k))) :
    ∃ m, Desc (FwdOk Sol tm) i m (fwdFronts A z b F gs l) ∧ k ≤ m ∧ m ≤ n ∧ (∀ j, k ≤ j → j < m → tm j < b) ∧ (m = n ∨ b ≤ tm m) := by
  induction l generalizing k F gs with
  | nil => exact ⟨k, hgs, le_rfl, by simp at hl; omega, fun j h1 h2 => by omega, Or.inl (by simpa using hl)⟩
  | cons p l ih =>
    obtain ⟨p1, p2, p3, p4⟩ := hp 0 p rfl
    rw [Nat.add_zero] at p1 p2 p3
    rw [List.length_cons] at hl
    have hkn : k < n := by omega
    rw [fwdFronts]
    by_cases hb : p.1.lb < b
    swap
    · rw [if_neg hb]
      refine ⟨k, hgs, le_rfl, hkn.le, fun j h1 h2 => by omega, Or.inr ?_⟩
      rw [← p1]; exact not_lt.mp hb
    rw [if_pos hb]
    have step : FwdOk Sol tm (k + 1) ((A.add F (A.mul (.point (p.1.ub - p.1.lb)) p.2) ⊔ z) ⊓ p.1.outG) := by
      intro f τ hs hτ
      rw [p1, p2, p3]
      refine Itv.mem_inf.mpr ⟨fwd_step A h hkn hP hQ hF hs hτ, ?_⟩
      have := p4 f τ hs
      rwa [p2] at this
    have hne : (A.add F (A.mul (.point (p.1.ub - p.1.lb)) p.2) ⊔ z) ⊓ p.1.outG ≠ ⊥ := by
      obtain ⟨f, τ, hs, hτ⟩ := hex (k + 1) (by have := hgs.le; omega) (by omega)
      exact Itv.ne_bot_of_mem (step f τ hs hτ)
    obtain ⟨m, m1, m2, m3, m4, m5⟩ := ih (k := k + 1) (by omega) (fun j q hq => by
        have := hp (j + 1) q (by simpa using hq)
        rw [show k + 1 + j = k + (j + 1) by omega]
        exact this) (Desc.step step hgs) hne step (fun f τ hs => frontOk_inf le_sup_right hne (by
          have := p4 f τ hs
          rwa [p2] at this))
    refine ⟨m, m1, by omega, m3, ?_, m5⟩
    intro j h1 h2
    rcases Nat.eq_or_lt_of_le h1 with rfl | h1
    · rw [← p1]; exact hb
    · exact m4 j h1 h2

/-- what the tube must satisfy during the backward loop -/
structure BwdInv (tm : ℕ → K) (n : ℕ) (Sol : (K → K) → K → Prop) (w y : Tube K) : Prop where
  wf : y.WF
  gc : y.GatesInEnvelopes
  same : SameB y w
  dom : y.t0 = w.t0 ∧ y.tf = w.tf
  nb : y.slices.length = n
  bds : ∀ k s, y.slices[k]? = some s → s.lb = tm k ∧ s.ub = tm (k + 1)
  enc : ∀ f τ, Sol f τ → y.Encloses f

theorem BwdInv.upd {w y : Tube K} (h : BwdInv tm n Sol w y) (k : ℕ) {u : Setter K} (hgc : ∀ p n s, LocalGC p n s → LocalGC p n (u p n s))
    (hu : ∀ f τ, Sol f τ → ∀ p n s, y.slices[k]? = some s → LocalGC p n s → s.Encloses f → (Slice.mk s.lb s.ub (u p n s).cod (u p n s).inG (u p n s).outG).Encloses f) :
    BwdInv tm n Sol w (y.upd k u) := by
  have hb : (y.upd k u).slices.map (fun s => (s.lb, s.ub)) = y.slices.map (fun s => (s.lb, s.ub)) := by
    rw [Tube.slices_bounds, Tube.slices_bounds, upd_bounds]
  refine ⟨upd_wf h.wf _ _, upd_gc hgc h.gc, (upd_bounds y k u).trans h.same, h.dom, ?_, ?_, fun f τ hs => upd_encloses h.wf h.gc (hu f τ hs) (h.enc f τ hs)⟩
  · have := congrArg List.length hb
    simpa [h.nb] using this
  · intro j s hs
    have e : ((y.upd k u).slices.map (fun s => (s.lb, s.ub)))[j]? = some (s.lb, s.ub) := by rw [List.getElem?_map, hs]; rfl
    rw [hb, List.getElem?_map, Option.map_eq_some_iff] at e
    obtain ⟨s', e1, e2⟩ := e
    have := h.bds j s' e1
    rw [Prod.mk.injEq] at e2
    rwa [e2.1, e2.2] at this

theorem setInputGate_encloses {g : Itv K} {p n : Option (Itv K)} {s : Slice K} {f : K → K} (hl : LocalGC p n s) (he : s.Encloses f) (hg : f s.lb ∈ g) :
    (Slice.mk s.lb s.ub (Slice.setInputGate g true p n s).cod (Slice.setInputGate g true p n s).inG (Slice.setInputGate g true p n s).outG).Encloses f := by
  refine ⟨?_, he.2.1, he.2.2⟩
  show f s.lb ∈ infOpt (g ⊓ s.cod) p
  rw [mem_infOpt, Itv.mem_inf]
  exact ⟨⟨hg, Itv.mem_of_le hl.inC he.1⟩, fun c hc => Itv.mem_of_le (hl.inP c hc) he.1⟩

theorem setOutputGate_encloses {g : Itv K} {p n : Option (Itv K)} {s : Slice K} {f : K → K} (hl : LocalGC p n s) (he : s.Encloses f) (hg : f s.ub ∈ g) :
    (Slice.mk s.lb s.ub (Slice.setOutputGate g true p n s).cod (Slice.setOutputGate g true p n s).inG (Slice.setOutputGate g true p n s).outG).Encloses f := by
  refine ⟨he.1, ?_, he.2.2⟩
  show f s.ub ∈ infOpt (g ⊓ s.cod) n
  rw [mem_infOpt, Itv.mem_inf]
  exact ⟨⟨hg, Itv.mem_of_le hl.outC he.2.1⟩, fun c hc => Itv.mem_of_le (hl.outN c hc) he.2.1⟩

theorem derivGates_gc {A : IArith K} {V : Itv K} {p n : Option (Itv K)} {s : Slice K} (hg : LocalGC p n s) : LocalGC p n (derivGates A V p n s) := by
  unfold derivGates
  exact Slice.setInputGate_gc _ (Slice.setOutputGate_gc _ hg)

theorem SolOk.mono (h : SolOk z tm V n Sol) {j k : ℕ} (hjk : j < k) (hk : k ≤ n) : tm j < tm k := by
  induction k with
  | zero => omega
  | succ k ih =>
    have := h.lt k (by omega)
    rcases Nat.lt_or_ge j k with h1 | h1
    · exact (ih h1 (by omega)).trans this
    · rwa [show j = k by omega]

theorem bwdFronts_spec (A : IArith K) {w : Tube K} (h : SolOk z tm w.codAt n Sol) {i : ℕ} (k : ℕ) (hex : ∀ j, i ≤ j → j < k → ∃ f τ, Sol f τ ∧ tm j ≤ τ)
    (hk : k ≤ n) {gs : List (Itv K)} {F : Itv K} {y : Tube K} (hgs : Desc (FwdOk Sol tm) i k gs) (hF : F ≠ ⊥) (hP : BwdOk Sol tm k F)
    (hQ : ∀ f τ, Sol f τ → FrontOk z F (f (tm k))) (hy : BwdInv tm n Sol w y) :
    ∃ y', bwdFronts A z (tm i) w k gs F y = some y' ∧ BwdInv tm n Sol w y' := by
  induction k generalizing gs F y with
  | zero => exact ⟨y, rfl, hy⟩
  | succ k ih =>
    obtain ⟨s, hs⟩ : ∃ s, y.slices[k]? = some s := ⟨_, List.getElem?_eq_getElem (by rw [hy.nb]; omega)⟩
    obtain ⟨b1, b2⟩ := hy.bds k s hs
    rw [bwdFronts, hs]
    dsimp only
    by_cases ha : tm i ≤ s.lb
    swap
    · rw [if_neg ha]; exact ⟨y, rfl, hy⟩
    rw [if_pos ha]
    have hik : i ≤ k := by
      by_contra hc
      have := h.mono (show k < i by omega) (by have := hgs.le; omega)
      rw [b1] at ha
      exact absurd this (not_lt.mpr ha)
    have ht := hgs.tail hik
    obtain ⟨g, gs', e1, hg⟩ := ht.head
    rw [e1]
    dsimp only
    have hmem : s ∈ y.slices := List.mem_of_getElem? hs
    have step : BwdOk Sol tm k ((A.sub F (A.mul (.point (s.ub - s.lb)) (w.codAt k)) ⊔ z) ⊓ s.inG) := by
      intro f τ hf hτ
      rw [b1, b2]
      refine Itv.mem_inf.mpr ⟨bwd_step A h (by omega) hP hQ hF hf hτ, ?_⟩
      rw [← b1]; exact (hy.enc f τ hf s hmem).1
    have hne : (A.sub F (A.mul (.point (s.ub - s.lb)) (w.codAt k)) ⊔ z) ⊓ s.inG ≠ ⊥ := by
      obtain ⟨f, τ, hf, hτ⟩ := hex k hik (by omega)
      exact Itv.ne_bot_of_mem (step f τ hf hτ)
    have hok : ∀ f τ, Sol f τ → FrontOk z ((A.sub F (A.mul (.point (s.ub - s.lb)) (w.codAt k)) ⊔ z) ⊓ s.inG) (f (tm k)) := by
      intro f τ hf
      refine frontOk_inf le_sup_right hne ?_
      rw [← b1]; exact (hy.enc f τ hf s hmem).1
    generalize (A.sub F (A.mul (.point (s.ub - s.lb)) (w.codAt k)) ⊔ z) ⊓ s.inG = F' at step hne hok ⊢
    rw [e1] at ht
    have i1 : BwdInv tm n Sol w (y.upd k (Slice.setInputGate (g ⊔ F') true)) := by
      refine hy.upd k (fun p n s hl => Slice.setInputGate_gc _ hl) ?_
      intro f τ hf p n' s' hs' hl he
      rw [hs] at hs'
      cases hs'
      refine setInputGate_encloses hl he ?_
      rw [b1]
      rcases le_total τ (tm k) with h1 | h1
      · exact Itv.mem_sup_left (hg f τ hf h1)
      · exact Itv.mem_sup_right (step f τ hf h1)
    refine ih (fun j h1 h2 => hex j h1 (by omega)) (by omega) ht hne step hok (i1.upd k (fun p n s hl => derivGates_gc hl) ?_)
    intro f τ hf p n' s' hs' hl he
    obtain ⟨c1, c2⟩ := i1.bds k s' hs'
    refine derivGates_encloses ?_ hl he ?_
    · rw [c1, c2]; exact h.lt k (by omega)
    · rw [c1, c2]; exact h.slope f τ hf k (by omega)

end

theorem takeWhile_eq_take {α : Type*} {p : α → Bool} {l : List α} {m : ℕ} (h1 : ∀ j x, j < m → l[j]? = some x → p x = true)
    (h2 : ∀ x, l[m]? = some x → p x = false) : l.takeWhile p = l.take m := by
  induction l generalizing m with
  | nil => simp
  | cons a l ih =>
    cases m with
    | zero =>
      rw [List.takeWhile_cons, h2 a rfl]; rfl
    | succ m =>
      rw [List.takeWhile_cons, h1 0 a (by omega) rfl, List.take_succ_cons, if_pos rfl]
      rw [ih (m := m) (fun j x hj hx => h1 (j + 1) x (by omega) (by simpa using hx)) (fun x hx => h2 x (by simpa using hx))]

/-- the bounds of the slices: the lower bound of the `k`-th slice, and the end of the time domain after the last one -/
def timeOf (y : Tube K) (k : ℕ) : K := (y.slices[k]?.map Slice.lb).getD y.tf

theorem tiles_next {a b : K} {g : Itv K} {cs : List (Cell K)} (h : Tiles a cs b) {k : ℕ} {s : Slice K} (hs : (slicesFrom g cs)[k]? = some s) :
    s.ub = ((slicesFrom g cs)[k + 1]?.map Slice.lb).getD b := by
  induction cs generalizing a g k with
  | nil => simp [slicesFrom] at hs
  | cons c cs ih =>
    obtain ⟨h1, h2, h3⟩ := h
    cases k with
    | succ k => exact ih h3 hs
    | zero =>
      cases hs
      cases cs with
      | nil => exact h3
      | cons c' cs => exact h3.1.symm

theorem timeOf_bds {y : Tube K} (h : y.WF) : ∀ k s, y.slices[k]? = some s → s.lb = timeOf y k ∧ s.ub = timeOf y (k + 1) := by
  intro k s hs
  refine ⟨?_, tiles_next h.tiles hs⟩
  unfold timeOf; rw [hs]; rfl

/-- **the fronts keep the solutions**, when each bound of a slice strictly between `a` and `b` has a solution before it and one after it -/
theorem evalFronts_spec (A : IArith K) {z : Itv K} {a b : K} {y w : Tube K} (hy : y.WF) (hg : y.GatesInEnvelopes) (hs : SameB y w) (hd : y.t0 = w.t0 ∧ y.tf = w.tf) (hab : a < b)
    (ha : ∃ s ∈ y.slices, s.lb = a) (hb : ∃ s ∈ y.slices, s.ub = b) {Sol : (K → K) → K → Prop}
    (hS : ∀ f τ, Sol f τ → y.Encloses f ∧ w.SlopeIn f ∧ a ≤ τ ∧ τ ≤ b ∧ f τ ∈ z) (hne : ∃ f τ, Sol f τ)
    (hbef : ∀ s ∈ y.slices, a < s.lb → s.lb < b → ∃ f τ, Sol f τ ∧ τ ≤ s.lb) (haft : ∀ s ∈ y.slices, a < s.lb → s.lb < b → ∃ f τ, Sol f τ ∧ s.lb ≤ τ) :
    ∃ y', evalFronts A z a b y w = some y' ∧ y'.WF ∧ y'.GatesInEnvelopes ∧ SameB y' w ∧ (y'.t0 = w.t0 ∧ y'.tf = w.tf) ∧ ∀ f τ, Sol f τ → y'.Encloses f := by
  have bds := timeOf_bds hy
  generalize timeOf y = tm at bds
  obtain ⟨f0, τ0, hS0⟩ := hne
  have hz : z ≠ ⊥ := Itv.ne_bot_of_mem (hS f0 τ0 hS0).2.2.2.2
  have hsol : SolOk z tm w.codAt y.slices.length Sol := by
    refine ⟨?_, fun f τ h => (hS f τ h).2.2.2.2, ?_⟩
    · intro k hk
      have := bds k _ (List.getElem?_eq_getElem hk)
      rw [← this.1, ← this.2]
      exact Tube.slice_lt hy (List.getElem_mem hk)
    · intro f τ h k hk
      refine codAt_slope (hS f τ h).2.1 ?_
      have := bds k _ (List.getElem?_eq_getElem hk)
      rw [← hs, ← Tube.slices_bounds, List.getElem?_map, List.getElem?_eq_getElem hk, ← this.1, ← this.2]; rfl
  have hinv : BwdInv tm y.slices.length Sol w y := ⟨hy, hg, hs, hd, rfl, bds, fun f τ h => (hS f τ h).1⟩
  obtain ⟨sa, hsa, ea⟩ := ha
  obtain ⟨sb, hsb, eb⟩ := hb
  have hhead : y.slices[timeToIndex a y.slices]? = some sa := by
    rw [← seek_head_getElem]; exact seek_lb hy.tiles hsa ea
  unfold evalFronts
  generalize timeToIndex a y.slices = i at hhead
  have hti : tm i = a := by rw [← ea, (bds i sa hhead).1]
  obtain ⟨r, hr, er⟩ := List.getElem_of_mem hsb
  have hrb : tm (r + 1) = b := by
    rw [← eb, ← er, (bds r _ (List.getElem?_eq_getElem hr)).2]
  have hin : i < y.slices.length := (List.getElem?_eq_some_iff.mp hhead).1
  -- the list of slices
  have hl : ∀ j p, (y.withDeriv w i)[j]? = some p → y.slices[i + j]? = some p.1 ∧ p.2 = w.codAt (i + j) := by
    intro j p hp
    unfold Tube.withDeriv at hp
    rw [List.getElem?_map, List.getElem?_drop, List.getElem?_zipIdx, Option.map_map, Option.map_eq_some_iff] at hp
    obtain ⟨q, hq, rfl⟩ := hp
    exact ⟨hq, by simp⟩
  have hlen : i + (y.withDeriv w i).length = y.slices.length := by
    have := congrArg List.length (Tube.withDeriv_fst y w i)
    rw [List.length_map, List.length_drop] at this
    omega
  have hh : (y.withDeriv w i).head? = some (sa, w.codAt i) := by
    rw [List.head?_eq_getElem?]
    obtain ⟨q, hq⟩ : ∃ q, (y.withDeriv w i)[0]? = some q := ⟨_, List.getElem?_eq_getElem (by omega)⟩
    obtain ⟨h1, h2⟩ := hl 0 q hq
    rw [Nat.add_zero] at h1 h2
    rw [hq, ← h2]
    rw [hhead] at h1
    cases h1; rfl
  have hf0 : ∀ f τ, Sol f τ → f (tm i) ∈ sa.inG := fun f τ h => by rw [hti, ← ea]; exact ((hS f τ h).1 sa hsa).1
  have hex : ∀ j, i < j → j ≤ y.slices.length → ∃ f τ, Sol f τ ∧ τ ≤ tm j := by
    intro j h1 h2
    have h3 := hsol.mono h1 h2
    rcases lt_or_ge (tm j) b with h4 | h4
    · have hjn : j < y.slices.length := by
        by_contra hc
        have : j = y.slices.length := by omega
        subst this
        rcases Nat.eq_or_lt_of_le hr with e | e
        · rw [← e] at h4; rw [Nat.succ_eq_add_one, hrb] at h4; exact lt_irrefl _ h4
        · have := hsol.mono e le_rfl
          rw [Nat.succ_eq_add_one, hrb] at this
          exact lt_asymm this h4
      have := bds j _ (List.getElem?_eq_getElem hjn)
      have := hbef _ (List.getElem_mem hjn) (by rw [this.1, ← hti]; exact h3) (by rw [this.1]; exact h4)
      rwa [(bds j _ (List.getElem?_eq_getElem hjn)).1] at this
    · exact ⟨f0, τ0, hS0, (hS f0 τ0 hS0).2.2.2.1.trans h4⟩
  obtain ⟨F1, F2, F3⟩ := firstFront_ok hz (hf0 f0 τ0 hS0)
  have hF0 : FwdOk Sol tm i (firstFront sa.inG z) := by
    intro f τ h hτ
    have e : τ = tm i := le_antisymm hτ (by rw [hti]; exact (hS f τ h).2.2.1)
    have := (hS f τ h).2.2.2.2
    rw [e] at this
    exact (firstFront_ok hz (hf0 f τ h)).2.2 this
  obtain ⟨m, m1, m2, m3, m4, m5⟩ := fwdFronts_spec A hsol (b := b) hex (y.withDeriv w i) hlen (fun j p hp => by
      obtain ⟨h1, h2⟩ := hl j p hp
      have := bds _ _ h1
      exact ⟨this.1, this.2, h2, fun f τ h => ((hS f τ h).1 _ (List.mem_of_getElem? h1)).2.1⟩) (Desc.base hF0) F1 hF0
      (fun f τ h => (firstFront_ok hz (hf0 f τ h)).2.1)
  have hmr : m = r + 1 := by
    by_contra hc
    rcases Nat.lt_or_gt_of_ne hc with h1 | h1
    · rcases m5 with h2 | h2
      · omega
      · have := hsol.mono h1 hr
        rw [hrb] at this
        exact absurd this (not_lt.mpr h2)
    · by_cases hir : i ≤ r + 1
      · have := m4 (r + 1) hir h1
        rw [hrb] at this; exact lt_irrefl _ this
      · have := hsol.mono (show r + 1 < i by omega) hin.le
        rw [hrb, hti] at this
        exact lt_asymm this hab
  subst hmr
  have htw : (y.slices.takeWhile fun s => decide (s.lb < b)) = y.slices.take (r + 1) := by
    refine takeWhile_eq_take ?_ ?_
    · intro j x hj hx
      rw [decide_eq_true_iff, (bds j x hx).1, ← hrb]
      exact hsol.mono hj hr
    · intro x hx
      rw [decide_eq_false_iff_not, (bds _ x hx).1, hrb]; exact lt_irrefl _
  have hlast : (y.slices.take (r + 1)).getLast? = some sb := by
    rw [List.getLast?_eq_getElem?, List.length_take, Nat.min_eq_left hr, List.getElem?_take_of_lt (by omega), Nat.succ_sub_one,
      List.getElem?_eq_getElem hr, er]
  have hklen : (y.slices.take (r + 1)).length - 1 = r := by
    rw [List.length_take, Nat.min_eq_left hr]; omega
  dsimp only
  rw [htw, hh, hlast, hklen]
  dsimp only
  generalize fwdFronts A z b (firstFront sa.inG z) [firstFront sa.inG z] (y.withDeriv w i) = gs at m1
  obtain ⟨g, gs', rfl, hgf⟩ := m1.head
  rw [List.headD_cons]
  have hfe : ∀ f τ, Sol f τ → f (tm (r + 1)) ∈ sb.outG := fun f τ h => by rw [hrb, ← eb]; exact ((hS f τ h).1 sb hsb).2.1
  obtain ⟨G1, -, -⟩ := firstFront_ok hz (hfe f0 τ0 hS0)
  have hrs : y.slices[r]? = some sb := by rw [List.getElem?_eq_getElem hr, er]
  have i1 : BwdInv tm y.slices.length Sol w (y.upd r (Slice.setOutputGate (g ⊔ firstFront sb.outG z) true)) := by
    refine hinv.upd r (fun p n s hl => Slice.setOutputGate_gc _ hl) ?_
    intro f τ hf p n' s' hs' hl he
    rw [hrs] at hs'
    cases hs'
    refine setOutputGate_encloses hl he (Itv.mem_sup_left ?_)
    rw [eb, ← hrb]
    exact hgf f τ hf (by rw [hrb]; exact (hS f τ hf).2.2.2.1)
  have haft' : ∀ j, i ≤ j → j < r + 1 → ∃ f τ, Sol f τ ∧ tm j ≤ τ := by
    intro j h1 h2
    rcases Nat.eq_or_lt_of_le h1 with rfl | h1
    · exact ⟨f0, τ0, hS0, by rw [hti]; exact (hS f0 τ0 hS0).2.2.1⟩
    have hjn : j < y.slices.length := by omega
    have e := (bds j _ (List.getElem?_eq_getElem hjn)).1
    have := haft _ (List.getElem_mem hjn) (by rw [e, ← hti]; exact hsol.mono h1 hjn.le) (by rw [e, ← hrb]; exact hsol.mono h2 hr)
    rwa [e] at this
  have := bwdFronts_spec A hsol (r + 1) haft' hr m1 G1 ?_ (fun f τ h => (firstFront_ok hz (hfe f τ h)).2.1) i1
  · obtain ⟨y', e1, e2⟩ := this
    rw [hti] at e1
    exact ⟨y', e1, e2.wf, e2.gc, e2.same, e2.dom, e2.enc⟩
  · intro f τ h hτ
    have e : τ = tm (r + 1) := le_antisymm (by rw [hrb]; exact (hS f τ h).2.2.2.1) hτ
    have := (hS f τ h).2.2.2.2
    rw [e] at this
    exact (firstFront_ok hz (hfe f τ h)).2.2 this

/-! ### Bounds of slices -/

theorem tiles_lb {a b : K} {g : Itv K} {cs : List (Cell K)} (h : Tiles a cs b) {s : Slice K} (hs : s ∈ slicesFrom g cs) : s.lb = a ∨ s.lb ∈ cs.map Cell.ub := by
  induction cs generalizing a g with
  | nil => simp [slicesFrom] at hs
  | cons c cs ih =>
    obtain ⟨h1, h2, h3⟩ := h
    rw [slicesFrom, List.mem_cons] at hs
    rcases hs with rfl | hs
    · exact Or.inl h1
    · rcases ih h3 hs with h | h
      · right; rw [h]; simp
      · right; simp [h]

theorem exists_ub {T : Tube K} {c : K} (hc : c ∈ T.cells.map Cell.ub) : ∃ s ∈ T.slices, s.ub = c := by
  have := congrArg (List.map Prod.snd) T.slices_bounds
  rw [List.map_map, List.map_map] at this
  have e : T.slices.map Slice.ub = T.cells.map Cell.ub := this
  rw [← e, List.mem_map] at hc
  exact hc

theorem ub_mem {T : Tube K} {s : Slice K} (hs : s ∈ T.slices) : s.ub ∈ T.cells.map Cell.ub := by
  have := congrArg (List.map Prod.snd) T.slices_bounds
  rw [List.map_map, List.map_map] at this
  have e : T.slices.map Slice.ub = T.cells.map Cell.ub := this
  rw [← e]
  exact List.mem_map_of_mem hs

theorem exists_lb {T : Tube K} (h : T.WF) {c : K} (hc : c = T.t0 ∨ c ∈ T.cells.map Cell.ub) (h0 : T.t0 ≤ c) (h1 : c < T.tf) : ∃ s ∈ T.slices, s.lb = c := by
  obtain ⟨s, hs, h2, h3⟩ := h.tiles.exists_slice (g := T.g0) h0 h1
  rcases eq_or_lt_of_le h2 with e | h2
  · exact ⟨s, hs, e⟩
  exfalso
  rcases hc with rfl | hc
  · exact absurd h2 (not_lt.mpr (h.tiles.mem_bounds hs).1)
  · obtain ⟨s', hs', e⟩ := exists_ub hc
    exact h.tiles.no_interior_ub hs hs' (by rw [e]; exact h2) (by rw [e]; exact h3)

/-- the bounds of the slices of two tubes with the same slicing -/
theorem SameB.ubs {T U : Tube K} (h : SameB T U) : T.cells.map Cell.ub = U.cells.map Cell.ub := by
  have := congrArg (List.map Prod.snd) h
  simpa [Function.comp_def] using this

/-! ### Removing a gate -/

theorem removeFrom_slope {c : K} {g : Itv K} {cs : List (Cell K)} {r : Itv K × List (Cell K)} (h : removeFrom c g cs = some r) {a b : K} (ht : Tiles a cs b) {f : K → K}
    (hf : AllSl (fun s => s.SlopeIn f) g cs) : AllSl (fun s => s.SlopeIn f) r.1 r.2 := by
  fun_induction removeFrom c g cs generalizing r a with
  | case1 g c1 c2 cs e =>
    cases h
    obtain ⟨-, h2, h3, h4, h5⟩ := ht
    rw [allSl_cons, allSl_cons] at hf
    obtain ⟨f1, f2, f3⟩ := hf
    rw [allSl_cons]
    refine ⟨?_, f3⟩
    intro m t hm hmt htu
    have hm : c1.lb ≤ m := hm
    have htu : t ≤ c2.ub := htu
    show ∃ y ∈ c1.cod ⊔ c2.cod, f t - f m = y * (t - m)
    rcases le_or_gt t c1.ub with k1 | k1
    · obtain ⟨y, hy, e⟩ := f1 m t hm hmt k1
      exact ⟨y, Itv.mem_sup_left hy, e⟩
    rcases le_or_gt c1.ub m with k2 | k2
    · obtain ⟨y, hy, e⟩ := f2 m t (by show c2.lb ≤ m; rw [h3]; exact k2) hmt htu
      exact ⟨y, Itv.mem_sup_right hy, e⟩
    obtain ⟨y1, hy1, e1⟩ := f1 m c1.ub hm k2 le_rfl
    obtain ⟨y2, hy2, e2⟩ := f2 c1.ub t (by show c2.lb ≤ _; rw [h3]) k1 htu
    have hpos : 0 < t - m := by linarith
    refine ⟨(y1 * (c1.ub - m) + y2 * (t - c1.ub)) / (t - m), ?_, by field_simp; linarith⟩
    have hp1 : 0 < c1.ub - m := by linarith
    have hp2 : 0 < t - c1.ub := by linarith
    have m1 : y1 ∈ c1.cod ⊔ c2.cod := Itv.mem_sup_left hy1
    have m2 : y2 ∈ c1.cod ⊔ c2.cod := Itv.mem_sup_right hy2
    rcases le_total y1 y2 with hy | hy
    · refine Itv.mem_of_between m1 m2 ?_ ?_
      · rw [le_div_iff₀ hpos]; nlinarith
      · rw [div_le_iff₀ hpos]; nlinarith
    · refine Itv.mem_of_between m2 m1 ?_ ?_
      · rw [le_div_iff₀ hpos]; nlinarith
      · rw [div_le_iff₀ hpos]; nlinarith
  | case2 g c1 c2 cs e ih =>
    rw [Option.map_eq_some_iff] at h
    obtain ⟨r', hr, rfl⟩ := h
    rw [allSl_cons] at hf
    rw [allSl_cons]
    exact ⟨hf.1, ih hr ht.2.2 hf.2⟩
  | case3 => cases h

/-- what is kept at each step of the contraction of `y` and `w` -/
structure EvalInv (B : K) (f d : K → K) (y w : Tube K) : Prop where
  ywf : y.WF
  ygc : y.GatesInEnvelopes
  wwf : w.WF
  wgc : w.GatesInEnvelopes
  same : SameB y w
  dom : y.t0 = w.t0 ∧ y.tf = w.tf
  yf : y.Encloses f
  wf : w.SlopeIn f
  wd : w.Encloses d
  bound : ∀ u, y.t0 ≤ u → u ≤ y.tf → -B ≤ f u ∧ f u ≤ B

theorem EvalInv.upd_deriv {A : IArith K} {B : K} {R : Itv K} {f d : K → K} {y w : Tube K} (h : EvalInv B f d y w) (k : ℕ) : EvalInv B f d (y.upd k (derivSlice A B R (w.codAt k))) w :=
  ⟨upd_wf h.ywf _ _, upd_gc (fun _ _ _ hl => derivSlice_gc hl) h.ygc, h.wwf, h.wgc, (upd_bounds _ _ _).trans h.same, h.dom,
    upd_deriv_encloses h.ywf h.ygc h.same h.yf h.wf h.bound k, h.wf, h.wd, h.bound⟩

theorem EvalInv.remove {B : K} {f d : K → K} {y w y' w' : Tube K} (h : EvalInv B f d y w) {c : K} (hy : y.removeGate c = some y') (hw : w.removeGate c = some w') :
    EvalInv B f d y' w' := by
  unfold Tube.removeGate at hy hw
  rw [Option.map_eq_some_iff] at hy hw
  obtain ⟨r, hr, rfl⟩ := hy
  obtain ⟨q, hq, rfl⟩ := hw
  obtain ⟨i1, -, -, i4, i5, i6⟩ := removeFrom_spec hr h.ywf.tiles h.ygc
  obtain ⟨j1, -, -, j4, j5, j6⟩ := removeFrom_spec hq h.wwf.tiles h.wgc
  refine ⟨⟨i1.ne_nil h.ywf.lt, i1⟩, i4, ⟨j1.ne_nil h.wwf.lt, j1⟩, j4, ?_, h.dom, (i6 f h.yf).1, removeFrom_slope hq h.wwf.tiles h.wf, (j6 d h.wd).1, h.bound⟩
  have i1' : Tiles w.t0 r.2 y.tf := by rw [← h.dom.1]; exact i1
  refine i1'.bounds_ext_mem j1 fun u => ?_
  rw [i5 u, j5 u, h.same.ubs]

theorem evalRemove_inv {A : IArith K} {B c : K} {f d : K → K} {y w : Tube K} (h : EvalInv B f d y w) {r : Tube K × Tube K} (hr : evalRemove A B c y w = some r) :
    EvalInv B f d r.1 r.2 := by
  unfold evalRemove at hr
  dsimp only at hr
  rw [Option.bind_eq_some_iff] at hr
  obtain ⟨y3, h1, h2⟩ := hr
  rw [Option.map_eq_some_iff] at h2
  obtain ⟨w3, h3, rfl⟩ := h2
  refine EvalInv.remove ?_ h1 h3
  split_ifs
  · exact (h.upd_deriv _).upd_deriv _
  · exact h.upd_deriv _

theorem evalRemoves_inv {A : IArith K} {B : K} {f d : K → K} (l : List K) {y w : Tube K} (h : EvalInv B f d y w) {r : Tube K × Tube K} (hr : evalRemoves A B l y w = some r) :
    EvalInv B f d r.1 r.2 := by
  induction l generalizing y w with
  | nil => cases hr; exact h
  | cons c l ih =>
    rw [evalRemoves, Option.bind_eq_some_iff] at hr
    obtain ⟨p, h1, h2⟩ := hr
    exact ih (evalRemove_inv h h1) h2

/-! ### Infinite bounds -/

theorem restoreSlice_gc {B : K} {p n : Option (Itv K)} {s : Slice K} (hl : LocalGC p n s) : LocalGC p n (restoreSlice B p n s) := by
  unfold restoreSlice
  exact Slice.setOutputGate_gc _ (Slice.setInputGate_gc _ (Slice.setEnvelope_gc _ hl))

theorem restoreSlice_encloses {B : K} {p n : Option (Itv K)} {s : Slice K} {f : K → K} (hl : LocalGC p n s) (he : s.Encloses f) :
    (Slice.mk s.lb s.ub (restoreSlice B p n s).cod (restoreSlice B p n s).inG (restoreSlice B p n s).outG).Encloses f := by
  have h1 : (Slice.mk s.lb s.ub (Slice.setEnvelope (restoreInf B s.cod) true p n s).cod (Slice.setEnvelope (restoreInf B s.cod) true p n s).inG
      (Slice.setEnvelope (restoreInf B s.cod) true p n s).outG).Encloses f := by
    refine ⟨?_, ?_, fun t h0 h1 => le_restoreInf (he.2.2 t h0 h1)⟩
    · exact Itv.mem_inf.mpr ⟨he.1, le_restoreInf (Itv.mem_of_le hl.inC he.1)⟩
    · exact Itv.mem_inf.mpr ⟨he.2.1, le_restoreInf (Itv.mem_of_le hl.outC he.2.1)⟩
  have g1 := Slice.setEnvelope_gc (restoreInf B s.cod) hl
  have h2 := setInputGate_encloses (g := restoreInf B (Slice.setEnvelope (restoreInf B s.cod) true p n s).inG) g1 h1 (le_restoreInf h1.1)
  have g2 := Slice.setInputGate_gc (restoreInf B (Slice.setEnvelope (restoreInf B s.cod) true p n s).inG) g1
  exact setOutputGate_encloses g2 h2 (le_restoreInf h2.2.1)

theorem restoreTube_inv {B : K} {y : Tube K} (h : y.WF) (hg : y.GatesInEnvelopes) {f : K → K} (hf : y.Encloses f) :
    (restoreTube B y).WF ∧ (restoreTube B y).GatesInEnvelopes ∧ (restoreTube B y).Encloses f := by
  unfold restoreTube
  refine ⟨(foldl_upd_inv (fun _ => restoreSlice B) _ h).1, foldl_upd_gc (fun _ => restoreSlice B) (fun _ _ _ _ hl => restoreSlice_gc hl) _ hg, ?_⟩
  exact foldl_upd_encloses (us := fun _ => restoreSlice B) (fun _ _ _ _ hl => restoreSlice_gc hl) (fun k p n s _ _ hl he => restoreSlice_encloses hl he) _ h hg rfl hf

/-! ### The bounded tubes -/

theorem clamp_wf {B : K} {y : Tube K} (h : y.WF) : (clampTube B y).WF := map_wf h _

theorem clamp_gc {B : K} {y : Tube K} (h : y.WF) (hg : y.GatesInEnvelopes) : (clampTube B y).GatesInEnvelopes := map_gc h hg fun _ _ hX => inf_le_inf_right _ hX

theorem clamp_slices {B : K} {y : Tube K} (h : y.WF) : (clampTube B y).slices = y.slices.map fun s => ⟨s.lb, s.ub, s.cod ⊓ .icc (-B) B, s.inG ⊓ .icc (-B) B, s.outG ⊓ .icc (-B) B⟩ :=
  mapWith_slices _ _ h

theorem clamp_sameB (B : K) (y : Tube K) : SameB (clampTube B y) y := by
  unfold SameB clampTube Tube.map Tube.mapWith
  simp

theorem clamp_encloses {B : K} {y : Tube K} (h : y.WF) {f : K → K} (hf : y.Encloses f) (hB : ∀ u, y.t0 ≤ u → u ≤ y.tf → -B ≤ f u ∧ f u ≤ B) : (clampTube B y).Encloses f := by
  refine mapWith_encloses h ?_ ?_ hf
  · intro s hs t h0 h1 h2
    have := h.tiles.mem_bounds hs
    exact Itv.mem_inf.mpr ⟨h2, Itv.mem_icc.mpr (hB t (this.1.trans h0.le) (h1.le.trans this.2.2))⟩
  · intro t X h0 h1 h2
    exact Itv.mem_inf.mpr ⟨h2, Itv.mem_icc.mpr (hB t h0 h1)⟩

theorem clamp_slope {B : K} {w : Tube K} (h : w.WF) {f : K → K} (hf : w.SlopeIn f) (hB : ∀ m t, w.t0 ≤ m → m < t → t ≤ w.tf → -B * (t - m) ≤ f t - f m ∧ f t - f m ≤ B * (t - m)) :
    (clampTube B w).SlopeIn f := by
  intro s hs
  rw [clamp_slices h, List.mem_map] at hs
  obtain ⟨s0, hs0, rfl⟩ := hs
  intro m t h0 h1 h2
  obtain ⟨v, hv, e⟩ := hf s0 hs0 m t h0 h1 h2
  have hb := h.tiles.mem_bounds hs0
  have := hB m t (hb.1.trans h0) h1 (h2.trans hb.2.2)
  rw [e] at this
  have hp : 0 < t - m := sub_pos.mpr h1
  exact ⟨v, Itv.mem_inf.mpr ⟨hv, Itv.mem_icc.mpr ⟨le_of_mul_le_mul_right this.1 hp, le_of_mul_le_mul_right this.2 hp⟩⟩, e⟩

end Codac
