import Verif.Ctc.PicardModel
import Verif.Tube.IntegralExact
import Verif.Tube.EvalMono
import Mathlib.Analysis.Calculus.Deriv.MeanValue
import Mathlib.Topology.Order.IntermediateValue

/-! # `CtcPicard`: the enclosure found by the loop contains the solutions -/

set_option linter.unusedSectionVars false

namespace Codac
open Set Topology

/-! ### Intervals as closed sets of reals -/

theorem Itv.isClosed (I : Itv ℝ) : IsClosed {x : ℝ | x ∈ I} := by
  match I with
  | .empty => convert isClosed_empty; ext x; simp [Itv.not_mem_empty]
  | .mk none none _ => convert isClosed_univ; ext x; simp only [mem_ofPred_eq, mem_univ, iff_true]; exact ⟨trivial, trivial⟩
  | .mk (some a) none _ =>
    convert isClosed_Ici (a := a); ext x
    exact ⟨fun h => h.1, fun h => ⟨h, trivial⟩⟩
  | .mk none (some b) _ =>
    convert isClosed_Iic (a := b); ext x
    exact ⟨fun h => h.2, fun h => ⟨trivial, h⟩⟩
  | .mk (some a) (some b) _ =>
    convert isClosed_Icc (a := a) (b := b); ext x
    exact ⟨fun h => ⟨h.1, h.2⟩, fun h => ⟨h.1, h.2⟩⟩

theorem Itv.interior_nhds {E G : Itv ℝ} (h : E.interiorSubset G = true) {y : ℝ} (hy : y ∈ E) : {x | x ∈ G} ∈ 𝓝 y := by
  match E, G, h, hy with
  | .mk lo hi _, .mk lo' hi' _, h, hy =>
    simp only [Itv.interiorSubset, Bool.and_eq_true] at h
    have h1 : ∀ᶠ x in 𝓝 y, loLe lo' x := by
      cases lo' with
      | none => exact Filter.Eventually.of_forall fun _ => trivial
      | some a' =>
        cases lo with
        | none => exact absurd h.1 (by simp [loInterior])
        | some a =>
          have h3 : a' < a := by simpa [loInterior] using h.1
          have : a' < y := lt_of_lt_of_le h3 hy.1
          exact (lt_mem_nhds this).mono fun x hx => le_of_lt hx
    have h2 : ∀ᶠ x in 𝓝 y, leHi x hi' := by
      cases hi' with
      | none => exact Filter.Eventually.of_forall fun _ => trivial
      | some a' =>
        cases hi with
        | none => exact absurd h.2 (by simp [hiInterior])
        | some a =>
          have h3 : a < a' := by simpa [hiInterior] using h.2
          have : y < a' := lt_of_le_of_lt hy.2 h3
          exact (gt_mem_nhds this).mono fun x hx => le_of_lt hx
    filter_upwards [h1, h2] with x c1 c2
    exact ⟨c1, c2⟩

/-! ### The continuity argument -/

/-- value of the trajectories -/
def vals (fs : List (ℝ → ℝ)) (t : ℝ) : List ℝ := fs.map (· t)

theorem vals_closed {fs : List (ℝ → ℝ)} {a b : ℝ} (hc : ∀ f ∈ fs, ContinuousOn f (Icc a b)) (G : List (Itv ℝ)) :
    IsClosed ({t | InBox (vals fs t) G} ∩ Icc a b) := by
  induction fs generalizing G with
  | nil =>
    by_cases h : InBox ([] : List ℝ) G
    · convert isClosed_Icc (a := a) (b := b)
      ext t; simp [vals, h]
    · convert isClosed_empty
      ext t; simp [vals, h]
  | cons f fs ih =>
    cases G with
    | nil =>
      convert isClosed_empty
      ext t
      simp only [mem_inter_iff, mem_ofPred_eq, mem_empty_iff_false, iff_false, not_and]
      intro h; cases h
    | cons I G =>
      have h1 := (hc f (by simp)).preimage_isClosed_of_isClosed isClosed_Icc I.isClosed
      have h2 := ih (fun f hf => hc f (by simp [hf])) G
      have h3 : ({t | InBox (vals (f :: fs) t) (I :: G)} ∩ Icc a b) =
          (Icc a b ∩ f ⁻¹' {x | x ∈ I}) ∩ ({t | InBox (vals fs t) G} ∩ Icc a b) := by
        ext t
        simp only [mem_inter_iff, mem_ofPred_eq, vals, List.map_cons, InBox, List.forall₂_cons, mem_preimage]
        tauto
      rw [h3]
      exact h1.inter h2

theorem vals_nhds {fs : List (ℝ → ℝ)} {a b t : ℝ} (hc : ∀ f ∈ fs, ContinuousOn f (Icc a b)) (ht : t ∈ Icc a b)
    {E G : List (Itv ℝ)} (hE : InBox (vals fs t) E) (hG : List.Forall₂ (fun e g => Itv.interiorSubset e g = true) E G) :
    ∀ᶠ r in 𝓝[Icc a b] t, InBox (vals fs r) G := by
  induction fs generalizing E G with
  | nil =>
    cases hE; cases hG
    exact Filter.Eventually.of_forall fun _ => .nil
  | cons f fs ih =>
    cases hE with
    | cons h1 hE =>
      cases hG with
      | cons h2 hG =>
        have c1 := (hc f (by simp) t ht).eventually (Itv.interior_nhds h2 h1)
        have c2 := ih (fun f hf => hc f (by simp [hf])) hE hG
        filter_upwards [c1, c2] with r k1 k2
        exact .cons k1 k2

/-- continuous induction: trajectories which are in `E ⊂ int G` as long as they have been in `G` never leave `E` -/
theorem picard_core {fs : List (ℝ → ℝ)} {a b : ℝ} (hc : ∀ f ∈ fs, ContinuousOn f (Icc a b)) {E G : List (Itv ℝ)}
    (hG : List.Forall₂ (fun e g => Itv.interiorSubset e g = true) E G)
    (hE : ∀ t ∈ Icc a b, (∀ s, a ≤ s → s < t → InBox (vals fs s) G) → InBox (vals fs t) E) :
    ∀ t ∈ Icc a b, InBox (vals fs t) E := by
  have sub : ∀ t, InBox (vals fs t) E → InBox (vals fs t) G := by
    intro t
    generalize vals fs t = v
    intro h
    clear hE
    unfold InBox at *
    induction h generalizing G with
    | nil => cases hG; exact .nil
    | cons h1 _ ih =>
      cases hG with
      | cons h2 hG => exact .cons (show _ ∈ {x | x ∈ _} from mem_of_mem_nhds (Itv.interior_nhds h2 h1)) (ih hG)
  rcases lt_or_ge b a with hab | hab
  · intro t ht; exact absurd (le_trans ht.1 ht.2) (not_le.mpr hab)
  have key : Icc a b ⊆ {t | InBox (vals fs t) G} := by
    refine IsClosed.Icc_subset_of_forall_mem_nhdsGT_of_Icc_subset (vals_closed hc G) ?_ ?_
    · exact sub a (hE a ⟨le_rfl, hab⟩ fun s h1 h2 => absurd h1 (not_le.mpr h2))
    · intro t ht hs
      have h1 : InBox (vals fs t) E := hE t ⟨ht.1, ht.2.le⟩ fun s h1 h2 => hs ⟨h1, h2.le⟩
      have h2 := vals_nhds hc ⟨ht.1, ht.2.le⟩ h1 hG
      have h3 : ∀ᶠ r in 𝓝[>] t, r ∈ Icc a b := by
        have : ∀ᶠ r in 𝓝[>] t, r < b := by
          filter_upwards [nhdsWithin_le_nhds (gt_mem_nhds ht.2)] with r hr using hr
        filter_upwards [this, self_mem_nhdsWithin] with r h4 h5
        exact ⟨le_trans ht.1 (le_of_lt h5), h4.le⟩
      have h4 : 𝓝[>] t ≤ 𝓝[Icc a b] t := by
        refine le_inf nhdsWithin_le_nhds ?_
        rw [Filter.le_principal_iff]
        exact h3
      exact h4 h2
  intro t ht
  exact hE t ht fun s h1 h2 => key ⟨h1, le_trans h2.le ht.2⟩

/-! ### Solutions -/

/-- `fs` is continuous on the slice `[a,b]` and its derivative inside is `φ(t, fs(t))` -/
structure SolvesOn (φ : List ℝ → List ℝ) (fs : List (ℝ → ℝ)) (a b : ℝ) : Prop where
  cont : ∀ f ∈ fs, ContinuousOn f (Icc a b)
  deriv : ∀ t, a < t → t < b → List.Forall₂ (fun f d => HasDerivAt f d t) fs (φ (t :: vals fs t))

/-- what is assumed on the interval extension given by IBEX: inclusion, `n` components for `n+1` variables, and an evaluation is empty on all its components or
on none -/
structure Extension (φ : List ℝ → List ℝ) (F : List (Itv ℝ) → List (Itv ℝ)) : Prop where
  incl : ∀ X v, InBox v X → InBox (φ v) (F X)
  dim : ∀ t X, (F (t :: X)).length = X.length
  empty : ∀ X, ∀ I ∈ F X, ∀ J ∈ F X, I = ⊥ → J = ⊥

theorem inBox_iff {v : List ℝ} {X : List (Itv ℝ)} :
    InBox v X ↔ v.length = X.length ∧ ∀ (i : Nat) x I, v[i]? = some x → X[i]? = some I → x ∈ I := by
  unfold InBox
  rw [List.forall₂_iff_get]
  constructor
  · rintro ⟨h1, h2⟩
    refine ⟨h1, fun i x I hx hI => ?_⟩
    obtain ⟨c1, rfl⟩ := List.getElem?_eq_some_iff.mp hx
    obtain ⟨c2, rfl⟩ := List.getElem?_eq_some_iff.mp hI
    exact h2 i c1 c2
  · rintro ⟨h1, h2⟩
    refine ⟨h1, fun i c1 c2 => ?_⟩
    exact h2 i _ _ (List.getElem?_eq_getElem c1) (List.getElem?_eq_getElem c2)

theorem forall₂_getElem? {α β : Type*} {R : α → β → Prop} {l : List α} {m : List β} (h : List.Forall₂ R l m) {i : Nat} {a : α}
    {b : β} (ha : l[i]? = some a) (hb : m[i]? = some b) : R a b := by
  induction h generalizing i with
  | nil => simp at ha
  | cons h _ ih =>
    cases i with
    | zero => simp at ha hb; subst ha hb; exact h
    | succ i => exact ih (by simpa using ha) (by simpa using hb)

variable {P : Picard ℝ} {φ : List ℝ → List ℝ}

theorem inBox_inf {v : List ℝ} {G init : List (Itv ℝ)} (h1 : InBox v G) (h2 : InBox v init) :
    InBox v (List.zipWith (· ⊓ ·) G init) := by
  unfold InBox at *
  induction h1 generalizing init with
  | nil => cases h2; exact .nil
  | cons a _ ih =>
    cases h2 with
    | cons b h2 => exact .cons (Itv.mem_inf.mpr ⟨a, b⟩) (ih h2)

/-- a value of component `i` obtained from the starting value and a slope in the `i`-th component of the evaluation -/
theorem mem_enclosure {t : Itv ℝ} {init x0 G : List (Itv ℝ)} {h : Itv ℝ} {vs : List ℝ}
    (hlen : vs.length = x0.length) (hF : (P.F (t :: List.zipWith (· ⊓ ·) G init)).length = x0.length)
    (hv : ∀ (i : Nat) v I Y, vs[i]? = some v → x0[i]? = some I → (P.F (t :: List.zipWith (· ⊓ ·) G init))[i]? = some Y →
      ∃ v0 ∈ I, ∃ d ∈ h, ∃ y ∈ Y, v = v0 + d * y) :
    InBox vs (P.enclosure t init x0 h G) := by
  rw [inBox_iff]
  refine ⟨?_, ?_⟩
  · simp [Picard.enclosure, hF, hlen]
  · intro i v E hi hE
    unfold Picard.enclosure at hE
    rw [List.getElem?_zipWith] at hE
    cases hI : x0[i]? with
    | none => rw [hI] at hE; simp at hE
    | some I =>
      cases hY : (P.F (t :: List.zipWith (· ⊓ ·) G init))[i]? with
      | none => rw [hI, List.getElem?_map, hY] at hE; simp at hE
      | some Y =>
        rw [hI, List.getElem?_map, hY] at hE
        simp only [Option.map_some, Option.some.injEq] at hE
        subst hE
        obtain ⟨v0, h0, d, hd, y, hy, rfl⟩ := hv i v I Y hi hI hY
        exact P.A.add_mem h0 (P.A.mul_mem hd hy)

/-- the arithmetic propagates the empty set (IBEX) -/
structure EmptyArith (A : IArith ℝ) : Prop where
  add_bot : ∀ X, A.add X ⊥ = ⊥
  mul_bot : ∀ X, A.mul X ⊥ = ⊥

/-- when the enclosure is not empty, the evaluation has no empty component -/
theorem eval_nonempty (hA : EmptyArith P.A) (hF : Extension φ P.F) {t : Itv ℝ} {init x0 G : List (Itv ℝ)} {h : Itv ℝ}
    (hlen : (P.F (t :: List.zipWith (· ⊓ ·) G init)).length = x0.length)
    (hne : Picard.boxEmpty (P.enclosure t init x0 h G) = false) :
    ∀ Y ∈ P.F (t :: List.zipWith (· ⊓ ·) G init), ∃ y, y ∈ Y := by
  intro Y hY
  refine Itv.exists_mem ?_
  rintro rfl
  generalize hFX : P.F (t :: List.zipWith (· ⊓ ·) G init) = FX at *
  cases FX with
  | nil => simp at hY
  | cons Y0 FX =>
    have h0 : Y0 = ⊥ := by
      have := hF.empty (t :: List.zipWith (· ⊓ ·) G init) ⊥ (by rw [hFX]; exact hY) Y0 (by rw [hFX]; simp) rfl
      exact this
    cases x0 with
    | nil => simp at hlen
    | cons I x0 =>
      simp only [Picard.enclosure, hFX, List.map_cons, List.zipWith_cons_cons, Picard.boxEmpty, h0, hA.mul_bot, hA.add_bot] at hne
      cases hne

/-- slope of component `i` between two instants of the slice -/
theorem solves_slope {fs : List (ℝ → ℝ)} {a b : ℝ} (hs : SolvesOn φ fs a b) {i : Nat} {f : ℝ → ℝ} (hf : fs[i]? = some f)
    {u v : ℝ} (hu : a ≤ u) (huv : u < v) (hv : v ≤ b) :
    ∃ ξ, u < ξ ∧ ξ < v ∧ ∃ d, (φ (ξ :: vals fs ξ))[i]? = some d ∧ f v - f u = (v - u) * d := by
  have hm := List.mem_of_getElem? hf
  have hd : ∀ x, a < x → x < b → ∃ d, (φ (x :: vals fs x))[i]? = some d ∧ HasDerivAt f d x := by
    intro x h1 h2
    have h3 := hs.deriv x h1 h2
    have hl := h3.length_eq
    have hi := (List.getElem?_eq_some_iff.mp hf).1
    have h4 : (φ (x :: vals fs x))[i]? = some ((φ (x :: vals fs x))[i]'(by omega)) := List.getElem?_eq_getElem (by omega)
    exact ⟨_, h4, forall₂_getElem? h3 hf h4⟩
  obtain ⟨ξ, hξ, he⟩ := exists_hasDerivAt_eq_slope f (deriv f) huv
    ((hs.cont f hm).mono (Icc_subset_Icc hu hv))
    (fun x hx => by
      obtain ⟨d, -, h⟩ := hd x (lt_of_le_of_lt hu hx.1) (lt_of_lt_of_le hx.2 hv)
      exact h.differentiableAt.hasDerivAt)
  obtain ⟨d, h1, h2⟩ := hd ξ (lt_of_le_of_lt hu hξ.1) (lt_of_lt_of_le hξ.2 hv)
  refine ⟨ξ, hξ.1, hξ.2, d, h1, ?_⟩
  rw [h2.deriv] at he
  have : v - u ≠ 0 := sub_ne_zero.mpr huv.ne'
  rw [he, mul_div_cancel₀ _ this]

theorem inBox_getElem? {v : List ℝ} {X : List (Itv ℝ)} (h : InBox v X) {i : Nat} {x : ℝ} {I : Itv ℝ} (hx : v[i]? = some x)
    (hI : X[i]? = some I) : x ∈ I := forall₂_getElem? h hx hI

theorem vals_getElem? {fs : List (ℝ → ℝ)} {t : ℝ} {i : Nat} {v : ℝ} (h : (vals fs t)[i]? = some v) :
    ∃ f, fs[i]? = some f ∧ v = f t := by
  unfold vals at h
  rw [List.getElem?_map, Option.map_eq_some_iff] at h
  obtain ⟨f, h1, h2⟩ := h
  exact ⟨f, h1, h2.symm⟩

theorem vals_length (fs : List (ℝ → ℝ)) (t : ℝ) : (vals fs t).length = fs.length := by simp [vals]

theorem getElem?_vals {fs : List (ℝ → ℝ)} (t : ℝ) {i : Nat} {f : ℝ → ℝ} (h : fs[i]? = some f) :
    (vals fs t)[i]? = some (f t) := by
  unfold vals
  rw [List.getElem?_map, h]
  rfl

section
variable (hA : EmptyArith P.A) (hF : Extension φ P.F) {fs : List (ℝ → ℝ)} {a b : ℝ}
include hA hF

theorem enclosure_sound_fwd (hs : SolvesOn φ fs a b) {init x0 G : List (Itv ℝ)}
    (h0 : InBox (vals fs a) x0) (hi : ∀ t ∈ Icc a b, InBox (vals fs t) init) (hGl : G.length = fs.length)
    (hne : Picard.boxEmpty (P.enclosure (.icc a b) init x0 (.icc 0 (b - a)) G) = false)
    (hG : List.Forall₂ (fun e g => Itv.interiorSubset e g = true) (P.enclosure (.icc a b) init x0 (.icc 0 (b - a)) G) G) :
    ∀ t ∈ Icc a b, InBox (vals fs t) (P.enclosure (.icc a b) init x0 (.icc 0 (b - a)) G) := by
  rcases lt_or_ge b a with hab | hab
  · intro t ht; exact absurd (le_trans ht.1 ht.2) (not_le.mpr hab)
  have hil : init.length = fs.length := by rw [← (hi a ⟨le_rfl, hab⟩).length_eq, vals_length]
  have h0l : x0.length = fs.length := by rw [← h0.length_eq, vals_length]
  have hFl : (P.F (.icc a b :: List.zipWith (· ⊓ ·) G init)).length = x0.length := by
    rw [hF.dim, List.length_zipWith, hGl, hil, h0l, min_self]
  refine picard_core hs.cont hG ?_
  intro t ht hbefore
  refine mem_enclosure (by rw [vals_length, h0l]) hFl ?_
  intro i v I Y hv hI hY
  obtain ⟨f, hf, rfl⟩ := vals_getElem? hv
  have hfa : f a ∈ I := inBox_getElem? h0 (getElem?_vals a hf) hI
  rcases eq_or_lt_of_le ht.1 with e | hlt
  · obtain ⟨y, hy⟩ := eval_nonempty hA hF hFl hne Y (List.mem_of_getElem? hY)
    exact ⟨f a, hfa, 0, Itv.mem_icc.mpr ⟨le_rfl, sub_nonneg.mpr hab⟩, y, hy, by rw [← e]; ring⟩
  · obtain ⟨ξ, c1, c2, d, c3, c4⟩ := solves_slope hs hf le_rfl hlt ht.2
    have hξ : ξ ∈ Icc a b := ⟨c1.le, le_trans c2.le ht.2⟩
    have hin : InBox (ξ :: vals fs ξ) (.icc a b :: List.zipWith (· ⊓ ·) G init) :=
      .cons (Itv.mem_icc.mpr ⟨hξ.1, hξ.2⟩) (inBox_inf (hbefore ξ c1.le c2) (hi ξ hξ))
    refine ⟨f a, hfa, t - a, Itv.mem_icc.mpr ⟨by linarith, by linarith [ht.2]⟩, d, ?_, by linarith⟩
    exact inBox_getElem? (hF.incl _ _ hin) c3 hY

theorem enclosure_sound_bwd (hs : SolvesOn φ fs a b) {init x0 G : List (Itv ℝ)}
    (h0 : InBox (vals fs b) x0) (hi : ∀ t ∈ Icc a b, InBox (vals fs t) init) (hGl : G.length = fs.length)
    (hne : Picard.boxEmpty (P.enclosure (.icc a b) init x0 (.icc (-(b - a)) 0) G) = false)
    (hG : List.Forall₂ (fun e g => Itv.interiorSubset e g = true) (P.enclosure (.icc a b) init x0 (.icc (-(b - a)) 0) G) G) :
    ∀ t ∈ Icc a b, InBox (vals fs t) (P.enclosure (.icc a b) init x0 (.icc (-(b - a)) 0) G) := by
  rcases lt_or_ge b a with hab | hab
  · intro t ht; exact absurd (le_trans ht.1 ht.2) (not_le.mpr hab)
  have hil : init.length = fs.length := by rw [← (hi a ⟨le_rfl, hab⟩).length_eq, vals_length]
  have h0l : x0.length = fs.length := by rw [← h0.length_eq, vals_length]
  have hFl : (P.F (.icc a b :: List.zipWith (· ⊓ ·) G init)).length = x0.length := by
    rw [hF.dim, List.length_zipWith, hGl, hil, h0l, min_self]
  have hrev : ∀ s, vals (fs.map fun f s => f (a + b - s)) s = vals fs (a + b - s) := by
    intro s; simp [vals]
  have key := picard_core (fs := fs.map fun f s => f (a + b - s)) (a := a) (b := b) (E := P.enclosure (.icc a b) init x0 (.icc (-(b - a)) 0) G) (G := G)
    (by
      intro g hg
      rw [List.mem_map] at hg
      obtain ⟨f, hf, rfl⟩ := hg
      refine (hs.cont f hf).comp (by fun_prop) ?_
      intro s hs
      exact ⟨by linarith [hs.2], by linarith [hs.1]⟩) hG (by
    intro t' ht' hbefore
    rw [hrev]
    obtain ⟨t, rfl⟩ : ∃ t, t' = a + b - t := ⟨a + b - t', by ring⟩
    have ht : t ∈ Icc a b := ⟨by linarith [ht'.2], by linarith [ht'.1]⟩
    rw [show a + b - (a + b - t) = t by ring]
    have hafter : ∀ s, t < s → s ≤ b → InBox (vals fs s) G := by
      intro s h1 h2
      have := hbefore (a + b - s) (by linarith) (by linarith)
      rw [hrev, show a + b - (a + b - s) = s by ring] at this
      exact this
    refine mem_enclosure (by rw [vals_length, h0l]) hFl ?_
    intro i v I Y hv hI hY
    obtain ⟨f, hf, rfl⟩ := vals_getElem? hv
    have hfa : f b ∈ I := inBox_getElem? h0 (getElem?_vals b hf) hI
    rcases eq_or_lt_of_le ht.2 with e | hlt
    · obtain ⟨y, hy⟩ := eval_nonempty hA hF hFl hne Y (List.mem_of_getElem? hY)
      exact ⟨f b, hfa, 0, Itv.mem_icc.mpr ⟨by linarith, le_rfl⟩, y, hy, by rw [e]; ring⟩
    · obtain ⟨ξ, c1, c2, d, c3, c4⟩ := solves_slope hs hf ht.1 hlt le_rfl
      have hξ : ξ ∈ Icc a b := ⟨le_trans ht.1 c1.le, c2.le⟩
      have hin : InBox (ξ :: vals fs ξ) (.icc a b :: List.zipWith (· ⊓ ·) G init) :=
        .cons (Itv.mem_icc.mpr ⟨hξ.1, hξ.2⟩) (inBox_inf (hafter ξ c1 c2.le) (hi ξ hξ))
      refine ⟨f b, hfa, -(b - t), Itv.mem_icc.mpr ⟨by linarith [ht.1], by linarith⟩, d, ?_, by linarith⟩
      exact inBox_getElem? (hF.incl _ _ hin) c3 hY)
  intro t ht
  have := key (a + b - t) ⟨by linarith [ht.2], by linarith [ht.1]⟩
  rw [hrev, show a + b - (a + b - t) = t by ring] at this
  exact this

/-- the starting instant and the steps of the propagation -/
theorem picardLoop_sound (fwd : Bool) (hs : SolvesOn φ fs a b) {init x0 : List (Itv ℝ)}
    (h0 : InBox (vals fs (if fwd then a else b)) x0) (hi : ∀ t ∈ Icc a b, InBox (vals fs t) init) (n : Nat)
    {E0 E : List (Itv ℝ)} (hE0 : E0.length = fs.length)
    (h : P.loop (.icc a b) init x0 (if fwd then .icc 0 (b - a) else .icc (-(b - a)) 0) n E0 = some (some E)) :
    ∀ t ∈ Icc a b, InBox (vals fs t) E := by
  induction n generalizing E0 with
  | zero => cases h
  | succ n ih =>
    unfold Picard.loop at h
    dsimp only at h
    rcases lt_or_ge b a with hab | hab
    · intro t ht; exact absurd (le_trans ht.1 ht.2) (not_le.mpr hab)
    have hil : init.length = fs.length := by rw [← (hi a ⟨le_rfl, hab⟩).length_eq, vals_length]
    have h0l : x0.length = fs.length := by rw [← h0.length_eq, vals_length]
    have hel : (P.enclosure (.icc a b) init x0 (if fwd then .icc 0 (b - a) else .icc (-(b - a)) 0) (E0.map P.inflate)).length
        = fs.length := by
      simp only [Picard.enclosure, List.length_zipWith, List.length_map, h0l, hF.dim, hE0, hil, min_self]
    generalize hX : P.enclosure (.icc a b) init x0 (if fwd then .icc 0 (b - a) else .icc (-(b - a)) 0) (E0.map P.inflate) = X at h hel
    by_cases h1 : (P.unb X || Picard.boxEmpty X || Picard.boxEmpty (E0.map P.inflate)) = true
    · rw [if_pos h1] at h; cases h
    rw [if_neg h1] at h
    by_cases h2 : (List.zipWith Itv.interiorSubset X (E0.map P.inflate)).all id = true
    swap
    · rw [if_neg h2] at h; exact ih hel h
    rw [if_pos h2] at h
    obtain rfl : X = E := Option.some.inj (Option.some.inj h)
    have hne : Picard.boxEmpty X = false := by
      simp only [Bool.or_eq_true, not_or, Bool.not_eq_true] at h1
      exact h1.1.2
    have hG : List.Forall₂ (fun e g => Itv.interiorSubset e g = true) X (E0.map P.inflate) := by
      have hl : X.length = (E0.map P.inflate).length := by rw [hel, List.length_map, hE0]
      revert h2 hl
      generalize E0.map P.inflate = Y
      intro h2 hl
      clear h1 hel h hne hX ih
      induction X generalizing Y with
      | nil => cases Y with
        | nil => exact .nil
        | cons => simp at hl
      | cons x X ih =>
        cases Y with
        | nil => simp at hl
        | cons y Y =>
          simp only [List.zipWith_cons_cons, List.all_cons, id, Bool.and_eq_true] at h2
          exact .cons h2.1 (ih Y h2.2 (by simpa using hl))
    rw [← hX] at hne hG ⊢
    cases fwd with
    | true => exact enclosure_sound_fwd hA hF hs h0 hi (by simp [hE0]) hne hG
    | false => exact enclosure_sound_bwd hA hF hs h0 hi (by simp [hE0]) hne hG

end

/-! ### Tubes -/

theorem SolvesOn.mono {fs : List (ℝ → ℝ)} {a b a' b' : ℝ} (h : SolvesOn φ fs a b) (h1 : a ≤ a') (h2 : b' ≤ b) :
    SolvesOn φ fs a' b' :=
  ⟨fun f hf => (h.cont f hf).mono (Icc_subset_Icc h1 h2), fun t c1 c2 => h.deriv t (lt_of_le_of_lt h1 c1) (lt_of_lt_of_le c2 h2)⟩

/-- invariant of the contractor: time domain `d`, common slicing `bs`, enclosed trajectories `fs` which solve the equation on
each slice -/
structure PInv (φ : List ℝ → List ℝ) (d : ℝ × ℝ) (bs : List (ℝ × ℝ)) (xs : List (Tube ℝ)) (fs : List (ℝ → ℝ)) : Prop where
  dom : ∀ T ∈ xs, T.t0 = d.1 ∧ T.tf = d.2
  st : List.Forall₂ (StInv bs) xs fs
  sol : ∀ b ∈ bs, b.1 < b.2 ∧ SolvesOn φ fs b.1 b.2

theorem forall₂_vals {bs : List (ℝ × ℝ)} {xs : List (Tube ℝ)} {fs : List (ℝ → ℝ)} (h : List.Forall₂ (StInv bs) xs fs) {t : ℝ}
    {g : Tube ℝ → Itv ℝ} (hg : ∀ T f, StInv bs T f → f t ∈ g T) : InBox (vals fs t) (xs.map g) := by
  unfold InBox vals
  induction h with
  | nil => exact .nil
  | cons a _ ih => exact .cons (hg _ _ a) ih

theorem updAll_dom {k : Nat} {D : ℝ × ℝ} {xs : List (Tube ℝ)} {us : List (Setter ℝ)} (h : ∀ T ∈ xs, T.t0 = D.1 ∧ T.tf = D.2) :
    ∀ T ∈ updAll k xs us, T.t0 = D.1 ∧ T.tf = D.2 := by
  intro T hT
  obtain ⟨T0, h0, rfl | ⟨u, rfl⟩⟩ := mem_updAll hT
  · exact h _ h0
  · exact h T0 h0

theorem setEnv_gc {e : Itv ℝ} {p n : Option (Itv ℝ)} {s : Slice ℝ} (h : LocalGC p n s) :
    LocalGC p n (Slice.setEnvelope e true p n s) := by
  refine ⟨?_, ?_, ?_, ?_⟩ <;> simp only [Slice.setEnvelope, if_true]
  · exact inf_le_right
  · exact inf_le_right
  · intro c hc; exact inf_le_left.trans (h.inP c hc)
  · intro c hc; exact inf_le_left.trans (h.outN c hc)

theorem StInv.setEnv {bs : List (ℝ × ℝ)} {T : Tube ℝ} {f : ℝ → ℝ} (h : StInv bs T f) {k : Nat} {b : ℝ × ℝ}
    (hb : bs[k]? = some b) {e : Itv ℝ} (he : ∀ t, t ∈ Icc b.1 b.2 → f t ∈ e) : StInv bs (T.upd k (Slice.setEnvelope e true)) f := by
  refine ⟨upd_wf h.wf _ _, upd_gc (fun p n s hl => setEnv_gc hl) h.gc, ?_, by rw [upd_bounds]; exact h.bounds⟩
  refine upd_encloses h.wf h.gc ?_ h.encl
  intro p n s hs hl hf
  obtain ⟨s', hs', e1, e2, hlt⟩ := h.at hb
  rw [hs] at hs'
  cases hs'
  rw [← e1, ← e2] at he
  refine ⟨?_, ?_, ?_⟩
  · simp only [Slice.setEnvelope, if_true, Itv.mem_inf]
    exact ⟨hf.1, he _ ⟨le_rfl, hlt.le⟩⟩
  · simp only [Slice.setEnvelope, if_true, Itv.mem_inf]
    exact ⟨hf.2.1, he _ ⟨hlt.le, le_rfl⟩⟩
  · intro t h0 h2
    simp only [Slice.setEnvelope, if_true]
    exact he t ⟨h0.le, h2.le⟩

theorem gateSet_gc {fwd : Bool} {d : ℝ} {y : Itv ℝ} {p n : Option (Itv ℝ)} {s : Slice ℝ} (h : LocalGC p n s) :
    LocalGC p n (P.gateSet fwd d y p n s) := by
  unfold Picard.gateSet
  cases fwd with
  | true => exact setOut_gc h
  | false =>
    refine ⟨?_, ?_, ?_, ?_⟩ <;> simp only [Bool.false_eq_true, if_false, Slice.setInputGate, if_true]
    · exact le_trans (infOpt_le _ _) inf_le_right
    · exact h.outC
    · intro c hc; subst hc; exact inf_le_right
    · exact h.outN

theorem StInv.gateSet {bs : List (ℝ × ℝ)} {T : Tube ℝ} {f : ℝ → ℝ} (h : StInv bs T f) {k : Nat} {b : ℝ × ℝ}
    (hb : bs[k]? = some b) {fwd : Bool} {y : Itv ℝ} (hy : ∃ d ∈ y, f b.2 - f b.1 = (b.2 - b.1) * d) :
    StInv bs (T.upd k (P.gateSet fwd (b.2 - b.1) y)) f := by
  refine ⟨upd_wf h.wf _ _, upd_gc (fun p n s hl => gateSet_gc hl) h.gc, ?_, by rw [upd_bounds]; exact h.bounds⟩
  refine upd_encloses h.wf h.gc ?_ h.encl
  intro p n s hs hl hf
  obtain ⟨s', hs', e1, e2, hlt⟩ := h.at hb
  rw [hs] at hs'
  cases hs'
  obtain ⟨d, hd, he⟩ := hy
  rw [← e1, ← e2] at he ⊢
  have hm := P.A.mul_mem (x := s.ub - s.lb) (y := d) (X := .point (s.ub - s.lb)) (Itv.mem_point.mpr rfl) hd
  have hc : ∀ t, s.lb ≤ t → t ≤ s.ub → f t ∈ s.cod := fun t c1 c2 => hf.mem_cod ⟨hl.inC, hl.outC⟩ c1 c2
  cases fwd with
  | true =>
    refine ⟨hf.1, ?_, fun t c1 c2 => hf.2.2 t c1 c2⟩
    have h1 := P.A.add_mem hf.1 hm
    rw [show f s.lb + (s.ub - s.lb) * d = f s.ub by linarith] at h1
    simp only [Picard.gateSet, if_true, Slice.setOutputGate]
    refine mem_infOpt.mpr ⟨Itv.mem_inf.mpr ⟨Itv.mem_inf.mpr ⟨hf.2.1, h1⟩, hc _ hlt.le le_rfl⟩, ?_⟩
    intro c hcn
    exact Itv.mem_of_le (hl.outN c hcn) hf.2.1
  | false =>
    refine ⟨?_, hf.2.1, fun t c1 c2 => hf.2.2 t c1 c2⟩
    have h1 := P.A.sub_mem hf.2.1 hm
    rw [show f s.ub - (s.ub - s.lb) * d = f s.lb by linarith] at h1
    simp only [Picard.gateSet, Bool.false_eq_true, if_false, Slice.setInputGate, if_true]
    refine mem_infOpt.mpr ⟨Itv.mem_inf.mpr ⟨Itv.mem_inf.mpr ⟨hf.1, h1⟩, hc _ le_rfl hlt.le⟩, ?_⟩
    intro c hcn
    exact Itv.mem_of_le (hl.inP c hcn) hf.1

section
variable (hA : EmptyArith P.A) (hF : Extension φ P.F) {fs : List (ℝ → ℝ)} {D : ℝ × ℝ} {bs : List (ℝ × ℝ)}
include hA hF

theorem guess_inv {fuel : Nat} {fwd : Bool} {k : Nat} {b : ℝ × ℝ} {xs ys : List (Tube ℝ)} (hb : bs[k]? = some b)
    (h : PInv φ D bs xs fs) (hy : P.guess fuel fwd k b xs = some ys) : PInv φ D bs ys fs := by
  unfold Picard.guess at hy
  by_cases h1 : xs.any Tube.isEmpty = true
  · rw [if_pos h1] at hy; cases hy; exact h
  rw [if_neg h1] at hy
  rw [Option.map_eq_some_iff] at hy
  obtain ⟨r, hr, rfl⟩ := hy
  cases r with
  | none => exact h
  | some E =>
    have hbm := List.mem_of_getElem? hb
    have hs := h.sol b hbm
    have hl := h.st.length_eq
    have hcod : ∀ t ∈ Icc b.1 b.2, InBox (vals fs t) (xs.map fun T => T.codAt k) := fun t ht =>
      forall₂_vals h.st fun T f hT => hT.codAt hb ht.1 ht.2
    have h0 : ∀ t, InBox (vals fs t) (xs.map fun T => T.evalAt t) := fun t =>
      forall₂_vals h.st fun T f hT => evalAt_mem hT.wf hT.encl t
    have key := picardLoop_sound hA hF fwd (a := b.1) (b := b.2) hs.2 (h0 (if fwd then b.1 else b.2)) hcod fuel
      (by simp [hl]) hr
    refine ⟨updAll_dom h.dom, updAll_inv h.st ?_, h.sol⟩
    have key2 := forall₂_forall (ι := ℝ) (P := fun t => t ∈ Icc b.1 b.2) (R := fun t (f : ℝ → ℝ) e => f t ∈ e) (l := fs)
      (m := List.zipWith (· ⊓ ·) (xs.map fun T => T.codAt k) E) ⟨b.1, ⟨le_rfl, hs.1.le⟩⟩
      (by
        intro t ht
        have := inBox_inf (hcod t ht) (key t ht)
        unfold InBox vals at this
        rwa [List.forall₂_map_left_iff] at this)
    have e : List.zipWith (fun i e => Slice.setEnvelope (i ⊓ e) true) (xs.map fun T => T.codAt k) E =
        (List.zipWith (· ⊓ ·) (xs.map fun T => T.codAt k) E).map fun e => Slice.setEnvelope e true := by
      rw [List.map_zipWith]
    show List.Forall₂ _ fs (List.zipWith (fun i e => Slice.setEnvelope (i ⊓ e) true) (xs.map fun T => T.codAt k) E)
    rw [e, List.forall₂_map_right_iff]
    exact key2.imp fun f e he T hT => hT.setEnv hb he

theorem kth_inv {fuel : Nat} {fwd : Bool} {k : Nat} {b : ℝ × ℝ} {xs ys : List (Tube ℝ)} (hb : bs[k]? = some b)
    (h : PInv φ D bs xs fs) (hy : P.kth fuel fwd k b xs = some ys) : PInv φ D bs ys fs := by
  unfold Picard.kth at hy
  split_ifs at hy with h1
  · cases hy; exact h
  rw [Option.map_eq_some_iff] at hy
  obtain ⟨zs, hz, rfl⟩ := hy
  have hz := guess_inv hA hF hb h hz
  refine ⟨updAll_dom hz.dom, updAll_inv hz.st ?_, h.sol⟩
  rw [List.forall₂_map_right_iff]
  have hs := h.sol b (List.mem_of_getElem? hb)
  have hcod : ∀ t ∈ Icc b.1 b.2, InBox (vals fs t) (zs.map fun T => T.codAt k) := fun t ht =>
    forall₂_vals hz.st fun T f hT => hT.codAt hb ht.1 ht.2
  have hl := hz.st.length_eq
  rw [List.forall₂_iff_get]
  refine ⟨by rw [hF.dim, List.length_map, hl], ?_⟩
  intro i c1 c2 T hT
  refine hT.gateSet hb ?_
  obtain ⟨ξ, d1, d2, d, d3, d4⟩ := solves_slope hs.2 (List.getElem?_eq_getElem c1) le_rfl hs.1 le_rfl
  refine ⟨d, ?_, d4⟩
  have hin := hF.incl (.icc b.1 b.2 :: zs.map fun T : Tube ℝ => T.codAt k) (ξ :: vals fs ξ)
    (List.Forall₂.cons (Itv.mem_icc.mpr ⟨d1.le, d2.le⟩) (hcod ξ ⟨d1.le, d2.le⟩))
  exact inBox_getElem? hin d3 (List.getElem?_eq_getElem c2)

end

/-- bounds of the slices after sampling, from those before -/
theorem sample_bounds_sub {t a b : ℝ} {cs : List (Cell ℝ)} (ht : Tiles a cs b) (h1 : a ≤ t) (h2 : t ≤ b) {p : ℝ × ℝ}
    (hp : p ∈ (sampleCells t cs).map fun c => (c.lb, c.ub)) :
    p.1 < p.2 ∧ ∃ q ∈ cs.map (fun c => (c.lb, c.ub)), q.1 ≤ p.1 ∧ p.2 ≤ q.2 := by
  have keep : ∀ (cs : List (Cell ℝ)) (a b : ℝ), Tiles a cs b → ∀ p ∈ cs.map (fun c => (c.lb, c.ub)), p.1 < p.2 := by
    intro cs
    induction cs with
    | nil => simp
    | cons c cs ih =>
      rintro a b ⟨rfl, h3, h4⟩ p hp
      rcases List.mem_cons.mp hp with rfl | hp
      · exact h3
      · exact ih _ _ h4 p hp
  induction cs generalizing a with
  | nil => simp [sampleCells] at hp
  | cons c cs ih =>
    obtain ⟨rfl, h3, h4⟩ := ht
    have hk : p ∈ (c :: cs).map (fun c => (c.lb, c.ub)) →
        p.1 < p.2 ∧ ∃ q ∈ (c :: cs).map (fun c => (c.lb, c.ub)), q.1 ≤ p.1 ∧ p.2 ≤ q.2 := fun h =>
      ⟨keep _ _ _ (show Tiles c.lb (c :: cs) b from ⟨rfl, h3, h4⟩) p h, p, h, le_rfl, le_rfl⟩
    unfold sampleCells at hp
    by_cases e1 : t < c.ub ∨ cs = []
    · rw [if_pos e1] at hp
      by_cases e2 : c.lb = t ∨ c.ub = t
      · rw [if_pos e2] at hp; exact hk hp
      · rw [if_neg e2] at hp
        push Not at e2
        have hlt : c.lb < t := lt_of_le_of_ne h1 e2.1
        have htu : t < c.ub := by
          rcases e1 with e | e
          · exact e
          · subst e
            have : c.ub = b := h4
            exact lt_of_le_of_ne (this ▸ h2) (Ne.symm e2.2)
        simp only [List.map_cons, List.mem_cons] at hp
        rcases hp with rfl | rfl | hp
        · exact ⟨hlt, (c.lb, c.ub), by simp, le_rfl, htu.le⟩
        · exact ⟨htu, (c.lb, c.ub), by simp, hlt.le, le_rfl⟩
        · exact hk (by simp only [List.map_cons, List.mem_cons]; exact Or.inr hp)
    · rw [if_neg e1] at hp
      rcases List.mem_cons.mp hp with rfl | hp
      · exact hk (by simp)
      · push Not at e1
        obtain ⟨c1, q, hq, c2⟩ := ih h4 e1.1 hp
        exact ⟨c1, q, by simp only [List.map_cons, List.mem_cons]; exact Or.inr hq, c2⟩

/-- sampling at an instant of the slices `k` keeps the invariant -/
theorem PInv.sample {D : ℝ × ℝ} {bs : List (ℝ × ℝ)} {xs : List (Tube ℝ)} {fs : List (ℝ → ℝ)} (h : PInv φ D bs xs fs) {k : Nat} {b : ℝ × ℝ}
    (hb : bs[k]? = some b) {t : ℝ} (h1 : b.1 ≤ t) (h2 : t ≤ b.2) : ∃ bs', PInv φ D bs' (xs.map fun T => T.sample t) fs := by
  cases hx : xs with
  | nil =>
    rw [hx] at h
    exact ⟨[], by simp, by have := h.st; cases this; exact .nil, by simp⟩
  | cons T0 Ts =>
    rw [← hx]
    have hin : ∀ T f, StInv bs T f → T.t0 ≤ t ∧ t ≤ T.tf := by
      intro T f hT
      obtain ⟨s, hs, e1, e2, -⟩ := hT.at hb
      have := hT.wf.tiles.mem_bounds (List.mem_of_getElem? hs)
      exact ⟨this.1.trans (e1 ▸ h1), le_trans (e2 ▸ h2) this.2.2⟩
    refine ⟨(T0.sample t).cells.map fun c => (c.lb, c.ub), ?_, ?_, ?_⟩
    · intro T hT
      rw [List.mem_map] at hT
      obtain ⟨T1, h3, rfl⟩ := hT
      exact h.dom T1 h3
    · rw [List.forall₂_map_left_iff]
      have hT0 : T0.cells.map (fun c => (c.lb, c.ub)) = bs := by
        have := h.st
        rw [hx] at this
        cases this with
        | cons a _ => exact a.bounds
      refine h.st.imp fun T f hT => ?_
      obtain ⟨c1, c2⟩ := hin T f hT
      exact ⟨sample_wf hT.wf c1 c2, sample_gc hT.gc t, (sample_encloses hT.wf c1 c2).mpr hT.encl,
        sample_bounds_congr (hT.bounds.trans hT0.symm)⟩
    · intro p hp
      have := h.st
      rw [hx] at this
      cases this with
      | @cons _ f _ _ hT _ =>
        obtain ⟨c1, c2⟩ := hin T0 f hT
        obtain ⟨d1, q, hq, d2, d3⟩ := sample_bounds_sub hT.wf.tiles c1 c2 hp
        rw [hT.bounds] at hq
        exact ⟨d1, (h.sol q hq).2.mono d2 d3⟩

theorem PInv.boundsAt {D : ℝ × ℝ} {bs : List (ℝ × ℝ)} {xs : List (Tube ℝ)} {fs : List (ℝ → ℝ)} (h : PInv φ D bs xs fs) {k : Nat} {b : ℝ × ℝ}
    (hb : Picard.boundsAt k xs = some b) : bs[k]? = some b := by
  unfold Picard.boundsAt at hb
  have hst := h.st
  cases hst with
  | nil => simp at hb
  | cons a _ =>
    simp only [List.head?_cons, Option.bind_some] at hb
    rw [← a.bounds, ← Tube.slices_bounds, List.getElem?_map]
    exact hb

theorem restore_all {D : ℝ × ℝ} {bs bs' : List (ℝ × ℝ)} {xs zs : List (Tube ℝ)} {fs : List (ℝ → ℝ)}
    (hxd : ∀ T ∈ xs, T.t0 = D.1 ∧ T.tf = D.2) (hx : List.Forall₂ (StInv bs) xs fs)
    (hzd : ∀ T ∈ zs, T.t0 = D.1 ∧ T.tf = D.2) (hz : List.Forall₂ (StInv bs') zs fs) :
    List.Forall₂ (StInv bs) (Picard.restoreSlicing xs zs) fs ∧ ∀ T ∈ Picard.restoreSlicing xs zs, T.t0 = D.1 ∧ T.tf = D.2 := by
  unfold Picard.restoreSlicing
  induction hx generalizing zs with
  | nil => cases hz; exact ⟨.nil, by simp⟩
  | @cons x f xs fs a _ ih =>
    cases hz with
    | @cons z _ zs _ c hz =>
      obtain ⟨i1, i2⟩ := ih (fun T hT => hxd T (by simp [hT])) (fun T hT => hzd T (by simp [hT])) hz
      have hx := hxd x (by simp)
      have hz := hzd z (by simp)
      have he := setEmpty_dom a.wf
      have e0 : x.setEmpty.t0 = z.t0 := by rw [he.1, hx.1, hz.1]
      have e1 : x.setEmpty.tf = z.tf := by rw [he.2, hx.2, hz.2]
      have hd : (x.setEmpty.opAssign (· ⊔ ·) z).t0 = D.1 ∧ (x.setEmpty.opAssign (· ⊔ ·) z).tf = D.2 := by
        have : ∀ φ : Itv ℝ → Itv ℝ → Itv ℝ, (x.setEmpty.opAssign φ z).t0 = x.setEmpty.t0 ∧ (x.setEmpty.opAssign φ z).tf = x.setEmpty.tf := by
          intro φ; unfold Tube.opAssign; split_ifs <;> exact ⟨rfl, rfl⟩
        rw [(this _).1, (this _).2, he.1, he.2]; exact hx
      refine ⟨.cons ⟨opAssign_wf (setEmpty_wf a.wf), ?_, ?_, ?_⟩ i1, ?_⟩
      · exact opAssign_gc (setEmpty_wf a.wf) c.wf e0 e1 (fun h1 h2 => sup_le_sup h1 h2) (setEmpty_gc a.wf) c.gc
      · exact Props.C08_union_assign (setEmpty_wf a.wf) c.wf c.gc e0 e1 (Or.inr c.encl)
      · rw [opAssign_bounds, setEmpty_bounds a.wf]; exact a.bounds
      · intro T hT
        rw [List.zipWith_cons_cons, List.mem_cons] at hT
        rcases hT with rfl | hT
        · exact hd
        · exact i2 T hT

section
variable (hA : EmptyArith P.A) (hF : Extension φ P.F) {fs : List (ℝ → ℝ)} {D : ℝ × ℝ}
include hA hF

theorem fwdLoop_inv (pf n k : Nat) {bs : List (ℝ × ℝ)} {xs ys : List (Tube ℝ)} (h : PInv φ D bs xs fs)
    (hy : P.fwdLoop pf n k xs = some ys) : ∃ bs', PInv φ D bs' ys fs := by
  induction n generalizing k bs xs with
  | zero => cases hy
  | succ n ih =>
    unfold Picard.fwdLoop at hy
    cases hb : Picard.boundsAt k xs with
    | none => rw [hb] at hy; cases hy; exact ⟨bs, h⟩
    | some b =>
      rw [hb] at hy
      have hbk := h.boundsAt hb
      have hlt := (h.sol b (List.mem_of_getElem? hbk)).1
      dsimp only at hy
      by_cases h1 : P.unb (xs.map fun T => T.codAt k) = true
      swap
      · rw [if_neg h1] at hy; exact ih _ h hy
      rw [if_pos h1, Option.bind_eq_some_iff] at hy
      obtain ⟨zs, hz, hy⟩ := hy
      have hz := kth_inv hA hF hbk h hz
      by_cases h2 : P.mustSample k b zs = true
      · rw [if_pos h2] at hy
        obtain ⟨bs', hs⟩ := hz.sample hbk (t := (b.1 + b.2) / 2) (by linarith) (by linarith)
        exact ih _ hs hy
      · rw [if_neg h2] at hy; exact ih _ hz hy

theorem bwdLoop_inv (pf n k : Nat) {bs : List (ℝ × ℝ)} {xs ys : List (Tube ℝ)} (h : PInv φ D bs xs fs)
    (hy : P.bwdLoop pf n k xs = some ys) : ∃ bs', PInv φ D bs' ys fs := by
  induction n generalizing k bs xs with
  | zero => cases hy
  | succ n ih =>
    cases k with
    | zero => cases hy; exact ⟨bs, h⟩
    | succ k =>
      unfold Picard.bwdLoop at hy
      cases hb : Picard.boundsAt k xs with
      | none => rw [hb] at hy; cases hy
      | some b =>
        rw [hb] at hy
        have hbk := h.boundsAt hb
        have hlt := (h.sol b (List.mem_of_getElem? hbk)).1
        dsimp only at hy
        by_cases h1 : P.unb (xs.map fun T => T.codAt k) = true
        swap
        · rw [if_neg h1] at hy; exact ih _ h hy
        rw [if_pos h1, Option.bind_eq_some_iff] at hy
        obtain ⟨zs, hz, hy⟩ := hy
        have hz := kth_inv hA hF hbk h hz
        by_cases h2 : P.mustSample k b zs = true
        · rw [if_pos h2] at hy
          obtain ⟨bs', hs⟩ := hz.sample hbk (t := (b.1 + b.2) / 2) (by linarith) (by linarith)
          exact ih _ hs hy
        · rw [if_neg h2] at hy; exact ih _ hz hy

theorem oneWay_inv {pf n : Nat} {preserve fwd : Bool} {bs : List (ℝ × ℝ)} {xs ys : List (Tube ℝ)} (h : PInv φ D bs xs fs)
    (hy : P.oneWay pf n preserve fwd xs = some ys) : ∃ bs', PInv φ D bs' ys fs ∧ (preserve = true → bs' = bs) := by
  unfold Picard.oneWay at hy
  by_cases h1 : xs.any Tube.isEmpty = true
  · rw [if_pos h1] at hy; cases hy; exact ⟨bs, h, fun _ => rfl⟩
  rw [if_neg h1, Option.map_eq_some_iff] at hy
  obtain ⟨zs, hz, rfl⟩ := hy
  have hz : ∃ bs', PInv φ D bs' zs fs := by
    cases fwd with
    | true => exact fwdLoop_inv hA hF pf n 0 h hz
    | false => exact bwdLoop_inv hA hF pf n _ h hz
  cases preserve with
  | false => obtain ⟨bs', hz⟩ := hz; exact ⟨bs', hz, by simp⟩
  | true =>
    obtain ⟨bs', hz⟩ := hz
    refine ⟨bs, ?_, fun _ => rfl⟩
    rw [if_pos rfl]
    unfold Picard.restoreSlicing
    have := restore_all h.dom h.st hz.dom hz.st
    exact ⟨this.2, this.1, h.sol⟩

theorem both_inv {pf n : Nat} {preserve : Bool} {bs : List (ℝ × ℝ)} {xs ys : List (Tube ℝ)} (h : PInv φ D bs xs fs)
    (hy : P.both pf n preserve xs = some ys) : ∃ bs', PInv φ D bs' ys fs ∧ (preserve = true → bs' = bs) := by
  unfold Picard.both at hy
  by_cases h1 : xs.any Tube.isEmpty = true
  · rw [if_pos h1] at hy; cases hy; exact ⟨bs, h, fun _ => rfl⟩
  rw [if_neg h1, Option.bind_eq_some_iff] at hy
  obtain ⟨zs, hz, hy⟩ := hy
  obtain ⟨b1, c1, c2⟩ := oneWay_inv hA hF h hz
  obtain ⟨b2, d1, d2⟩ := oneWay_inv hA hF c1 hy
  exact ⟨b2, d1, fun e => (d2 e).trans (c2 e)⟩

end

end Codac
