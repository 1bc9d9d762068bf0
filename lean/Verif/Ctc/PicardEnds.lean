import Verif.Ctc.PicardContract
import Mathlib.Data.Finset.Card
import Mathlib.Data.Finset.Filter
import Mathlib.Algebra.Order.Archimedean.Basic

/-! # `CtcPicard`: end of the loops -/

set_option linter.unusedSectionVars false

namespace Codac
variable {K : Type*} [Field K] [LinearOrder K] [IsStrictOrderedRing K]

/-- what is needed of the function, of the arithmetic and of the parameters for the guesses to grow -/
structure Picard.Regular (P : Picard K) (n : Nat) : Prop where
  len : ∀ X : List (Itv K), X.length = n + 1 → (P.F X).length = n
  mono : ∀ X Y : List (Itv K), List.Forall₂ (· ≤ ·) X Y → List.Forall₂ (· ≤ ·) (P.F X) (P.F Y)
  empty : ∀ X, X.length = n + 1 → ∀ Y ∈ P.F X, ∀ Z ∈ P.F X, Y = ⊥ → Z = ⊥
  add_bot : ∀ X, P.A.add X ⊥ = ⊥
  mul_bot : ∀ X, P.A.mul X ⊥ = ⊥
  mid : ∀ I : Itv K, I ≠ ⊥ → I.isUnbounded = false → P.mid I ∈ I
  delta : 1 ≤ P.delta
  eps : 0 < P.eps
  infl : ∀ I J : Itv K, I ≠ ⊥ → J.isUnbounded = false → I ≤ J → P.inflate I ≤ P.inflate J

namespace PicardEnds
variable {P : Picard K} {n : Nat}

theorem bounded_le {I J : Itv K} (h : I ≤ J) (hJ : J.isUnbounded = false) : I.isUnbounded = false := by
  match I, J, h with
  | .empty, _, _ => rfl
  | .mk (some _) (some _) _, _, _ => rfl
  | .mk none _ _, .mk (some _) _ _, h => exact h.1.elim
  | .mk none _ _, .mk none _ _, _ => simp [Itv.isUnbounded] at hJ
  | .mk (some _) none _, .mk _ (some _) _, h => exact h.2.elim
  | .mk (some _) none _, .mk (some _) none _, _ => simp [Itv.isUnbounded] at hJ
  | .mk (some _) none _, .mk none none _, _ => simp [Itv.isUnbounded] at hJ

/-- the guess contains the enclosure and a margin of `eps` -/
theorem inflate_margin (h : P.Regular n) {a b : K} (hab : a ≤ b) :
    (∃ p ∈ P.inflate (.mk (some a) (some b) hab), p ≤ a - P.eps) ∧ ∃ q ∈ P.inflate (.mk (some a) (some b) hab), b + P.eps ≤ q := by
  have hm := h.mid (.mk (some a) (some b) hab) (by rintro ⟨⟩) rfl
  generalize hI : Itv.mk (some a) (some b) hab = I at *
  have ha : a ∈ I := by rw [← hI]; exact ⟨le_refl a, hab⟩
  have hb : b ∈ I := by rw [← hI]; exact ⟨hab, le_refl b⟩
  have e0 := h.eps.le
  have key : ∀ x ∈ I, ∀ e, -P.eps ≤ e → e ≤ P.eps → P.mid I + P.delta * (x - P.mid I) + e ∈ P.inflate I := by
    intro x hx e h1 h2
    exact P.A.add_mem (P.A.add_mem (Itv.mem_point.mpr rfl) (P.A.mul_mem (Itv.mem_point.mpr rfl) (P.A.sub_mem hx (Itv.mem_point.mpr rfl))))
      (Itv.mem_icc.mpr ⟨h1, h2⟩)
  have hma : a ≤ P.mid I ∧ P.mid I ≤ b := by rw [← hI] at hm ⊢; exact hm
  have hd := h.delta
  constructor
  · refine ⟨_, key a ha (-P.eps) (le_refl _) (by linarith), ?_⟩
    nlinarith [mul_nonneg (sub_nonneg.mpr hd) (sub_nonneg.mpr hma.1)]
  · refine ⟨_, key b hb P.eps (by linarith) (le_refl _), ?_⟩
    nlinarith [mul_nonneg (sub_nonneg.mpr hd) (sub_nonneg.mpr hma.2)]

/-- a bounded interval within a margin smaller than `eps` is in the interior of the guess -/
theorem interior_inflate (h : P.Regular n) {a b a' b' : K} (hab : a ≤ b) (hab' : a' ≤ b') (h1 : a - P.eps < a') (h2 : b' < b + P.eps) :
    Itv.interiorSubset (.mk (some a') (some b') hab') (P.inflate (.mk (some a) (some b) hab)) = true := by
  obtain ⟨⟨p, hp, c1⟩, ⟨q, hq, c2⟩⟩ := inflate_margin h hab
  match P.inflate (.mk (some a) (some b) hab), hp, hq with
  | .mk lo hi _, hp, hq =>
    simp only [Itv.interiorSubset, Bool.and_eq_true]
    constructor
    · cases lo with
      | none => rfl
      | some l =>
        have : l ≤ p := hp.1
        simp only [loInterior, decide_eq_true_eq]
        linarith
    · cases hi with
      | none => rfl
      | some u =>
        have : q ≤ u := hq.2
        simp only [hiInterior, decide_eq_true_eq]
        linarith

section
variable (P) (n)
/-- the enclosure computed from `E` -/
def next (t : Itv K) (init x0 : List (Itv K)) (h : Itv K) (E : List (Itv K)) : List (Itv K) :=
  P.enclosure t init x0 h (E.map P.inflate)

/-- the enclosures met by the loop -/
def Met (t : Itv K) (init x0 : List (Itv K)) (h : Itv K) (E : List (Itv K)) : Prop :=
  E.length = n ∧ (∀ I ∈ E, I ≠ ⊥) ∧ (E = x0 ∨ ((∀ I ∈ E, I.isUnbounded = false) ∧
    ∃ D, List.Forall₂ (· ≤ ·) D E ∧ (∀ I ∈ D, I ≠ ⊥) ∧ E = next P t init x0 h D))
end

section
variable {t : Itv K} {init x0 : List (Itv K)} {h : Itv K}

theorem zipInf_mono {G G' : List (Itv K)} (hG : List.Forall₂ (· ≤ ·) G G') (init : List (Itv K)) :
    List.Forall₂ (· ≤ ·) (List.zipWith (· ⊓ ·) G init) (List.zipWith (· ⊓ ·) G' init) := by
  induction hG generalizing init with
  | nil => exact .nil
  | cons a _ ih =>
    cases init with
    | nil => exact .nil
    | cons I init => exact .cons (inf_le_inf_right I a) (ih init)

theorem zipAdd_mono {V V' : List (Itv K)} (hV : List.Forall₂ (· ≤ ·) V V') (x0 : List (Itv K)) (h : Itv K) :
    List.Forall₂ (· ≤ ·) (List.zipWith P.A.add x0 (V.map (P.A.mul h))) (List.zipWith P.A.add x0 (V'.map (P.A.mul h))) := by
  induction hV generalizing x0 with
  | nil => cases x0 <;> exact .nil
  | cons a _ ih =>
    cases x0 with
    | nil => exact .nil
    | cons I x0 => exact .cons (P.A.add_mono (le_refl _) (P.A.mul_mono (le_refl _) a)) (ih x0)

theorem next_mono (hr : P.Regular n) {D E : List (Itv K)} (hD : ∀ I ∈ D, I ≠ ⊥) (hE : ∀ I ∈ E, I.isUnbounded = false)
    (hl : List.Forall₂ (· ≤ ·) D E) : List.Forall₂ (· ≤ ·) (next P t init x0 h D) (next P t init x0 h E) := by
  have key : List.Forall₂ (· ≤ ·) (D.map P.inflate) (E.map P.inflate) := by
    rw [List.forall₂_map_left_iff, List.forall₂_map_right_iff]
    induction hl with
    | nil => exact .nil
    | cons a _ ih =>
      exact .cons (hr.infl _ _ (hD _ (by simp)) (hE _ (by simp)) a) (ih (fun I hI => hD I (by simp [hI])) (fun I hI => hE I (by simp [hI])))
  exact zipAdd_mono (hr.mono _ _ (.cons (le_refl _) (zipInf_mono key init))) x0 h

theorem zipAdd_extends (h0 : (0 : K) ∈ h) {V : List (Itv K)} (hl : V.length = x0.length) (hx : ∀ I ∈ x0, I ≠ ⊥) (hV : ∀ J ∈ V, J ≠ ⊥) :
    List.Forall₂ (· ≤ ·) x0 (List.zipWith P.A.add x0 (V.map (P.A.mul h))) := by
  induction x0 generalizing V with
  | nil => cases V <;> exact .nil
  | cons I x0 ih =>
    cases V with
    | nil => simp at hl
    | cons J V =>
      refine .cons ?_ (ih (by simpa using hl) (fun I hI => hx I (by simp [hI])) (fun I hI => hV I (by simp [hI])))
      rw [Itv.le_iff]
      intro x hxI
      obtain ⟨y, hy⟩ := Itv.exists_mem (hV J (by simp))
      have := P.A.add_mem hxI (P.A.mul_mem h0 hy)
      simpa using this

/-- when the loop goes on, the enclosures grow -/
theorem met_next (hr : P.Regular n) (h0 : (0 : K) ∈ h) (hi : init.length = n) (hx : x0.length = n) (hxn : ∀ I ∈ x0, I ≠ ⊥)
    {E : List (Itv K)} (hE : Met P n t init x0 h E)
    (hc : (P.unb (next P t init x0 h E) || Picard.boxEmpty (next P t init x0 h E) || Picard.boxEmpty (E.map P.inflate)) = false) :
    List.Forall₂ (· ≤ ·) E (next P t init x0 h E) ∧ Met P n t init x0 h (next P t init x0 h E) ∧
      (∀ I ∈ next P t init x0 h E, I.isUnbounded = false) ∧ (∀ I ∈ E, I.isUnbounded = false) ∧ ∀ I ∈ x0, I.isUnbounded = false := by
  rw [Bool.or_eq_false_iff, Bool.or_eq_false_iff] at hc
  obtain ⟨⟨hu, hb⟩, -⟩ := hc
  have hlF : (P.F (t :: List.zipWith (· ⊓ ·) (E.map P.inflate) init)).length = n := by
    apply hr.len
    simp [hE.1, hi]
  have hFne : ∀ J ∈ P.F (t :: List.zipWith (· ⊓ ·) (E.map P.inflate) init), J ≠ ⊥ := by
    intro J hJ e
    generalize hFX : P.F (t :: List.zipWith (· ⊓ ·) (E.map P.inflate) init) = FX at *
    cases FX with
    | nil => simp at hJ
    | cons J0 FX =>
      have e0 : J0 = ⊥ := hr.empty (t :: List.zipWith (· ⊓ ·) (E.map P.inflate) init) (by simp [hE.1, hi]) J (by rw [hFX]; exact hJ) J0 (by rw [hFX]; simp) e
      cases x0 with
      | nil => simp at hx; simp [← hx] at hlF
      | cons I x0 =>
        simp only [next, Picard.enclosure, hFX, List.map_cons, List.zipWith_cons_cons, Picard.boxEmpty, e0, hr.mul_bot, hr.add_bot] at hb
        cases hb
  have hx0 : List.Forall₂ (· ≤ ·) x0 (next P t init x0 h E) := zipAdd_extends h0 (hlF.trans hx.symm) hxn hFne
  have hbd : ∀ I ∈ next P t init x0 h E, I.isUnbounded = false := by
    intro I hI
    unfold Picard.unb at hu
    rw [List.any_eq_false] at hu
    have := hu I hI
    rw [Bool.or_eq_true, not_or] at this
    exact Bool.eq_false_iff.mpr this.1
  have hle : List.Forall₂ (· ≤ ·) E (next P t init x0 h E) := by
    rcases hE.2.2 with rfl | ⟨hEb, D, h1, h2, h3⟩
    · exact hx0
    · conv_lhs => rw [h3]
      exact next_mono hr h2 hEb h1
  have hbdE : ∀ {A B : List (Itv K)}, List.Forall₂ (· ≤ ·) A B → (∀ I ∈ B, I.isUnbounded = false) → ∀ I ∈ A, I.isUnbounded = false := by
    intro A B hAB hB
    induction hAB with
    | nil => simp
    | cons a _ ih =>
      intro I hI
      rcases List.mem_cons.mp hI with rfl | hI
      · exact bounded_le a (hB _ (by simp))
      · exact ih (fun I hI => hB I (by simp [hI])) I hI
  have hne : ∀ {A B : List (Itv K)}, List.Forall₂ (· ≤ ·) A B → (∀ I ∈ A, I ≠ ⊥) → ∀ I ∈ B, I ≠ ⊥ := by
    intro A B hAB hA
    induction hAB with
    | nil => simp
    | cons a _ ih =>
      intro I hI
      rcases List.mem_cons.mp hI with rfl | hI
      · intro e
        rw [e, le_bot_iff] at a
        exact hA _ (by simp) a
      · exact ih (fun I hI => hA I (by simp [hI])) I hI
  exact ⟨hle, ⟨by rw [← hle.length_eq]; exact hE.1, hne hle hE.2.1, Or.inr ⟨hbd, E, hle, hE.2.1, rfl⟩⟩, hbd, hbdE hle hbd, hbdE hx0 hbd⟩

/-- the loop ends when a measure decreases at each iteration after which it goes on -/
theorem loop_ends (μ : List (Itv K) → Nat) (I : List (Itv K) → Prop)
    (hs : ∀ E, I E → (P.unb (next P t init x0 h E) || Picard.boxEmpty (next P t init x0 h E) || Picard.boxEmpty (E.map P.inflate)) = false →
      (List.zipWith Itv.interiorSubset (next P t init x0 h E) (E.map P.inflate)).all id = false →
      I (next P t init x0 h E) ∧ μ (next P t init x0 h E) < μ E) (N : Nat) (E : List (Itv K)) (hI : I E) (hN : μ E < N) :
    ∃ r, P.loop t init x0 h N E = some r := by
  induction N generalizing E with
  | zero => omega
  | succ N ih =>
    unfold Picard.loop
    dsimp only
    rw [show P.enclosure t init x0 h (E.map P.inflate) = next P t init x0 h E from rfl]
    by_cases h1 : (P.unb (next P t init x0 h E) || Picard.boxEmpty (next P t init x0 h E) || Picard.boxEmpty (E.map P.inflate)) = true
    · rw [if_pos h1]; exact ⟨_, rfl⟩
    · rw [if_neg h1]
      by_cases h2 : (List.zipWith Itv.interiorSubset (next P t init x0 h E) (E.map P.inflate)).all id = true
      · rw [if_pos h2]; exact ⟨_, rfl⟩
      · rw [if_neg h2]
        obtain ⟨c1, c2⟩ := hs E hI (Bool.eq_false_iff.mpr h1) (Bool.eq_false_iff.mpr h2)
        exact ih _ c1 (by omega)

end

/-! ### Machine numbers -/

/-- number of elements of `R` out of the interval -/
def outside (R : Finset K) : Itv K → Nat
  | .mk (some a) (some b) _ => (R.filter (· < a)).card + (R.filter (b < ·)).card
  | _ => 0

theorem outside_le (R : Finset K) (I : Itv K) : outside R I ≤ 2 * R.card := by
  match I with
  | .mk (some a) (some b) _ =>
    have h1 := Finset.card_filter_le R (· < a)
    have h2 := Finset.card_filter_le R (b < ·)
    simp only [outside]
    omega
  | .empty => simp [outside]
  | .mk none _ _ => simp [outside]
  | .mk (some _) none _ => simp [outside]

theorem outside_lt {R : Finset K} {I J : Itv K} (h : I ≤ J) (hI : I ≠ ⊥) (hJ : J.isUnbounded = false) (hR : ∀ v, J.lb? = some v ∨ J.ub? = some v → v ∈ R) :
    outside R J ≤ outside R I ∧ (I ≠ J → outside R J < outside R I) := by
  have hIb := bounded_le h hJ
  obtain ⟨a, b, p, rfl⟩ := Itv.bounds_of_bounded (Itv.isEmpty_false_iff.mpr hI) hIb
  match J, h, hJ, hR with
  | .mk (some a') (some b') p', h, _, hR =>
    have h1 : a' ≤ a := h.1
    have h2 : b ≤ b' := h.2
    have ha' : a' ∈ R := hR a' (Or.inl rfl)
    have hb' : b' ∈ R := hR b' (Or.inr rfl)
    have s1 : R.filter (· < a') ⊆ R.filter (· < a) := fun x hx => by
      simp only [Finset.mem_filter] at hx ⊢; exact ⟨hx.1, lt_of_lt_of_le hx.2 h1⟩
    have s2 : R.filter (b' < ·) ⊆ R.filter (b < ·) := fun x hx => by
      simp only [Finset.mem_filter] at hx ⊢; exact ⟨hx.1, lt_of_le_of_lt h2 hx.2⟩
    have c1 := Finset.card_le_card s1
    have c2 := Finset.card_le_card s2
    simp only [outside]
    refine ⟨by omega, fun hne => ?_⟩
    rcases lt_or_eq_of_le h1 with l | e
    · have : (R.filter (· < a')).card < (R.filter (· < a)).card := Finset.card_lt_card
        (Finset.ssubset_iff_of_subset s1 |>.mpr ⟨a', by simp [ha', l], by simp⟩)
      omega
    · rcases lt_or_eq_of_le h2 with l | e'
      · have : (R.filter (b' < ·)).card < (R.filter (b < ·)).card := Finset.card_lt_card
          (Finset.ssubset_iff_of_subset s2 |>.mpr ⟨b', by simp [hb', l], by simp⟩)
        omega
      · exact absurd (by subst e e'; rfl) hne

/-- the same for a box -/
def outsideB (R : Finset K) (E : List (Itv K)) : Nat := (E.map (outside R)).sum

theorem outsideB_le (R : Finset K) (E : List (Itv K)) : outsideB R E ≤ 2 * R.card * E.length := by
  induction E with
  | nil => simp [outsideB]
  | cons I E ih =>
    have := outside_le R I
    simp only [outsideB, List.map_cons, List.sum_cons, List.length_cons] at *
    rw [Nat.mul_add]
    omega

theorem outsideB_lt {R : Finset K} {E E' : List (Itv K)} (h : List.Forall₂ (· ≤ ·) E E') (hE : ∀ I ∈ E, I ≠ ⊥)
    (hb : ∀ I ∈ E', I.isUnbounded = false) (hR : ∀ J ∈ E', ∀ v, J.lb? = some v ∨ J.ub? = some v → v ∈ R) :
    outsideB R E' ≤ outsideB R E ∧ (E ≠ E' → outsideB R E' < outsideB R E) := by
  induction h with
  | nil => simp
  | @cons I J E E' a _ ih =>
    obtain ⟨c1, c2⟩ := outside_lt (R := R) a (hE _ (by simp)) (hb _ (by simp)) (hR _ (by simp))
    obtain ⟨d1, d2⟩ := ih (fun I hI => hE I (by simp [hI])) (fun I hI => hb I (by simp [hI])) (fun I hI => hR I (by simp [hI]))
    simp only [outsideB, List.map_cons, List.sum_cons] at *
    refine ⟨by omega, fun hne => ?_⟩
    by_cases e : I = J
    · have : E ≠ E' := fun e' => hne (by rw [e, e'])
      have := d2 this
      omega
    · have := c2 e
      omega

theorem all_interior (hr : P.Regular n) {E : List (Itv K)} (hE : ∀ I ∈ E, I ≠ ⊥) (hb : ∀ I ∈ E, I.isUnbounded = false) :
    (List.zipWith Itv.interiorSubset E (E.map P.inflate)).all id = true := by
  induction E with
  | nil => rfl
  | cons I E ih =>
    obtain ⟨a, b, p, rfl⟩ := Itv.bounds_of_bounded (Itv.isEmpty_false_iff.mpr (hE I (by simp))) (hb I (by simp))
    have e := hr.eps
    simp only [List.map_cons, List.zipWith_cons_cons, List.all_cons, id, Bool.and_eq_true]
    exact ⟨interior_inflate hr p p (by linarith) (by linarith), ih (fun I hI => hE I (by simp [hI])) (fun I hI => hb I (by simp [hI]))⟩

theorem mem_zipWith {α β γ : Type*} {f : α → β → γ} {l : List α} {m : List β} {c : γ} (h : c ∈ List.zipWith f l m) : ∃ a b, c = f a b := by
  induction l generalizing m with
  | nil => simp at h
  | cons a l ih =>
    cases m with
    | nil => simp at h
    | cons b m =>
      rw [List.zipWith_cons_cons, List.mem_cons] at h
      rcases h with rfl | h
      · exact ⟨a, b, rfl⟩
      · exact ih h

/-- with an arithmetic whose results have their bounds in a finite set of numbers -/
theorem loop_machine (hr : P.Regular n) {R : Finset K} (hR : ∀ X Y v, (P.A.add X Y).lb? = some v ∨ (P.A.add X Y).ub? = some v → v ∈ R)
    {t : Itv K} {init x0 : List (Itv K)} {h : Itv K} (h0 : (0 : K) ∈ h) (hi : init.length = n) (hx : x0.length = n)
    (hxn : ∀ I ∈ x0, I ≠ ⊥) {N : Nat} (hN : 2 * R.card * n < N) : ∃ r, P.loop t init x0 h N x0 = some r := by
  refine loop_ends (outsideB R) (Met P n t init x0 h) ?_ N x0 ⟨hx, hxn, Or.inl rfl⟩ (lt_of_le_of_lt (outsideB_le R x0) (by rw [hx]; exact hN))
  intro E hE hc hs
  obtain ⟨c1, c2, c3, c4, -⟩ := met_next hr h0 hi hx hxn hE hc
  refine ⟨c2, (outsideB_lt c1 hE.2.1 c3 ?_).2 ?_⟩
  · intro J hJ v hv
    obtain ⟨A, B, rfl⟩ := mem_zipWith hJ
    exact hR A B v hv
  · intro e
    rw [← e, all_interior hr hE.2.1 c4] at hs
    cases hs

/-! ### Exact arithmetic -/

/-- sum of the widths of bounded intervals -/
def span : List (Itv K) → K
  | [] => 0
  | .mk (some a) (some b) _ :: E => (b - a) + span E
  | _ :: E => span E

theorem span_grows (hr : P.Regular n) {E E' : List (Itv K)} (h : List.Forall₂ (· ≤ ·) E E') (hE : ∀ I ∈ E, I ≠ ⊥)
    (hb : ∀ I ∈ E', I.isUnbounded = false) : span E ≤ span E' ∧
      ((List.zipWith Itv.interiorSubset E' (E.map P.inflate)).all id = false → span E + P.eps ≤ span E') := by
  induction h with
  | nil => simp
  | @cons I J E E' a _ ih =>
    obtain ⟨d1, d2⟩ := ih (fun I hI => hE I (by simp [hI])) (fun I hI => hb I (by simp [hI]))
    have hIb := bounded_le a (hb J (by simp))
    obtain ⟨l, u, p, rfl⟩ := Itv.bounds_of_bounded (Itv.isEmpty_false_iff.mpr (hE I (by simp))) hIb
    match J, a, hb J (by simp) with
    | .mk (some l') (some u') p', a, _ =>
      have a1 : l' ≤ l := a.1
      have a2 : u ≤ u' := a.2
      simp only [span]
      refine ⟨by linarith, fun hs => ?_⟩
      simp only [List.map_cons, List.zipWith_cons_cons, List.all_cons, id, Bool.and_eq_false_iff] at hs
      rcases hs with hs | hs
      · by_cases c1 : l - P.eps < l'
        · by_cases c2 : u' < u + P.eps
          · rw [interior_inflate hr p p' c1 c2] at hs
            cases hs
          · push Not at c2
            linarith
        · push Not at c1
          linarith
      · have := d2 hs
        linarith

/-- the enclosure is within `c` of `x0` -/
def Near0 (c : K) (x0 E : List (Itv K)) : Prop := List.Forall₂ (fun I J => J ≤ Itv.add I (.icc (-c) c)) x0 E

theorem span_near {c : K} (hc : 0 ≤ c) {x0 E : List (Itv K)} (h : Near0 c x0 E) (hx : ∀ I ∈ x0, I ≠ ⊥ ∧ I.isUnbounded = false) (hE : ∀ I ∈ E, I ≠ ⊥) :
    span E ≤ span x0 + 2 * x0.length * c := by
  unfold Near0 at h
  induction h with
  | nil => simp [span]
  | @cons I J x0 E a _ ih =>
    have ih := ih (fun I hI => hx I (by simp [hI])) (fun I hI => hE I (by simp [hI]))
    have hI := hx I (by simp)
    obtain ⟨l, u, p, rfl⟩ := Itv.bounds_of_bounded (Itv.isEmpty_false_iff.mpr hI.1) hI.2
    have p0 : l ≤ u := p
    have e : Itv.add (.mk (some l) (some u) p) (.icc (-c) c) = .mk (some (l + -c)) (some (u + c)) (show l + -c ≤ u + c by linarith) := by
      rw [Itv.icc_eq_mk (show -c ≤ c by linarith)]
      exact dif_pos (show bLe (some (l + -c)) (some (u + c)) from (by show l + -c ≤ u + c; linarith))
    rw [e] at a
    obtain ⟨l', u', p', rfl⟩ := Itv.bounds_of_bounded (Itv.isEmpty_false_iff.mpr (hE J (by simp))) (bounded_le a rfl)
    have a1 : l + -c ≤ l' := a.1
    have a2 : u' ≤ u + c := a.2
    simp only [span, List.length_cons]
    push_cast
    linarith

/-- with exact sums and products, `f` bounded by `m` and a step of at most `d`: the number of iterations is bounded by `2 n d m / eps + 1` -/
theorem loop_exact (hr : P.Regular n) (hA : P.A.add = Itv.add) (hM : P.A.mul = Itv.mul) {m d : K} (hm : 0 ≤ m) (hd : 0 ≤ d)
    (hF : ∀ X, ∀ J ∈ P.F X, J ≤ .icc (-m) m) {t : Itv K} {init x0 : List (Itv K)} {h : Itv K} (h0 : (0 : K) ∈ h) (hh : h ≤ .icc (-d) d)
    (hi : init.length = n) (hx : x0.length = n) (hxn : ∀ I ∈ x0, I ≠ ⊥) {N : Nat} (hN : 2 * n * (d * m) < N * P.eps) :
    ∃ r, P.loop t init x0 h N x0 = some r := by
  have hc : 0 ≤ d * m := mul_nonneg hd hm
  have hmul : ∀ J : Itv K, J ≤ .icc (-m) m → Itv.mul h J ≤ .icc (-(d * m)) (d * m) := by
    intro J hJ
    refine le_trans (Itv.mul_mono hh hJ) ?_
    rw [Itv.icc_eq_mk (show -d ≤ d by linarith), Itv.icc_eq_mk (show -m ≤ m by linarith)]
    simp only [Itv.mul]
    have q1 : -d * -m = d * m := by ring
    have q2 : -d * m = -(d * m) := by ring
    have q3 : d * -m = -(d * m) := by ring
    rw [q1, q2, q3]
    refine Itv.icc_le ?_ ?_ <;> rw [Itv.mem_icc]
    · constructor
      · refine le_min (le_min ?_ ?_) (le_min ?_ ?_) <;> linarith
      · refine le_trans (min_le_left _ _) (le_trans (min_le_left _ _) ?_); linarith
    · constructor
      · refine le_trans ?_ (le_max_left _ _); refine le_trans ?_ (le_max_left _ _); linarith
      · refine max_le (max_le ?_ ?_) (max_le ?_ ?_) <;> linarith
  have hnear : ∀ E, E.length = n → Near0 (d * m) x0 (next P t init x0 h E) := by
    intro E hE
    have hlF : (P.F (t :: List.zipWith (· ⊓ ·) (E.map P.inflate) init)).length = x0.length := by
      rw [hx]
      exact hr.len _ (by simp [hE, hi])
    unfold next Picard.enclosure Near0
    have hFJ := hF (t :: List.zipWith (· ⊓ ·) (E.map P.inflate) init)
    generalize P.F (t :: List.zipWith (· ⊓ ·) (E.map P.inflate) init) = V at *
    clear hx hxn hi
    induction x0 generalizing V with
    | nil => exact .nil
    | cons I x0 ih =>
      cases V with
      | nil => simp at hlF
      | cons J V =>
        refine .cons ?_ (ih V (by simpa using hlF) (fun J hJ => hFJ J (by simp [hJ])))
        rw [hA, hM]
        exact Itv.add_mono (le_refl _) (hmul J (hFJ J (by simp)))
  have main : ∀ (N : Nat) (E : List (Itv K)), Met P n t init x0 h E → (E = x0 ∨ Near0 (d * m) x0 E) →
      2 * n * (d * m) < span E - span x0 + N * P.eps → ((∀ I ∈ x0, I.isUnbounded = false) ∨ (E = x0 ∧ 0 < N)) → ∃ r, P.loop t init x0 h N E = some r := by
    intro N
    induction N with
    | zero =>
      intro E hE hn hlt hb
      exfalso
      rcases hb with hb | ⟨-, hb⟩
      · rcases hn with rfl | hn
        · have h2 : (0 : K) ≤ 2 * n * (d * m) := by positivity
          simp at hlt
          linarith
        · have := span_near hc hn (fun I hI => ⟨hxn I hI, hb I hI⟩) hE.2.1
          rw [hx] at this
          simp at hlt
          linarith
      · omega
    | succ N ih =>
      intro E hE hn hlt _
      unfold Picard.loop
      dsimp only
      rw [show P.enclosure t init x0 h (E.map P.inflate) = next P t init x0 h E from rfl]
      by_cases h1 : (P.unb (next P t init x0 h E) || Picard.boxEmpty (next P t init x0 h E) || Picard.boxEmpty (E.map P.inflate)) = true
      · rw [if_pos h1]; exact ⟨_, rfl⟩
      rw [if_neg h1]
      by_cases h2 : (List.zipWith Itv.interiorSubset (next P t init x0 h E) (E.map P.inflate)).all id = true
      · rw [if_pos h2]; exact ⟨_, rfl⟩
      rw [if_neg h2]
      obtain ⟨c1, c2, c3, -, c5⟩ := met_next hr h0 hi hx hxn hE (Bool.eq_false_iff.mpr h1)
      have hg := (span_grows hr c1 hE.2.1 c3).2 (Bool.eq_false_iff.mpr h2)
      refine ih _ c2 (Or.inr (hnear E hE.1)) ?_ (Or.inl c5)
      push_cast at hlt
      linarith
  refine main N x0 ⟨hx, hxn, Or.inl rfl⟩ (Or.inl rfl) (by simpa using hN) (Or.inr ⟨rfl, ?_⟩)
  rcases Nat.eq_zero_or_pos N with rfl | hp
  · exfalso
    have h2 : (0 : K) ≤ 2 * n * (d * m) := by positivity
    simp at hN
    linarith
  · exact hp

/-- the inflation of a bounded interval with exact arithmetic -/
theorem inflate_exact (hA : P.A = IArith.exact K) (hd : 0 ≤ P.delta) (he : 0 ≤ P.eps) {a b : K} (hab : a ≤ b) {c : K}
    (hm : P.mid (.mk (some a) (some b) hab) = c) :
    ∃ p, P.inflate (.mk (some a) (some b) hab) = .mk (some (c + P.delta * (a - c) - P.eps)) (some (c + P.delta * (b - c) + P.eps)) p := by
  have h1 : P.delta * (a - c) ≤ P.delta * (b - c) := mul_le_mul_of_nonneg_left (by linarith) hd
  refine ⟨show _ ≤ _ by linarith, ?_⟩
  have e1 : Itv.sub (.mk (some a) (some b) hab) (.point c) = .mk (some (a - c)) (some (b - c)) (show a - c ≤ b - c by linarith) := by
    have : Itv.neg (.point c) = .point (-c) := dif_pos (le_refl (-c))
    unfold Itv.sub
    rw [this]
    simp only [Itv.point, Itv.add, Itv.addB, Itv.ofBounds, ← sub_eq_add_neg]
    exact dif_pos (show a - c ≤ b - c by linarith)
  have e2 : Itv.mul (.point P.delta) (.mk (some (a - c)) (some (b - c)) (show a - c ≤ b - c by linarith)) =
      .mk (some (P.delta * (a - c))) (some (P.delta * (b - c))) h1 := by
    simp only [Itv.point, Itv.mul, min_self, max_self, min_eq_left h1, max_eq_right h1]
    exact Itv.icc_eq_mk h1
  unfold Picard.inflate
  rw [hm, hA]
  show Itv.add (Itv.add (.point c) (Itv.mul (.point P.delta) (Itv.sub _ _))) _ = _
  rw [e1, e2, Itv.icc_eq_mk (show -P.eps ≤ P.eps by linarith)]
  have e3 : Itv.add (.point c) (.mk (some (P.delta * (a - c))) (some (P.delta * (b - c))) h1) =
      .mk (some (c + P.delta * (a - c))) (some (c + P.delta * (b - c))) (show _ ≤ _ by linarith) :=
    dif_pos (show c + P.delta * (a - c) ≤ c + P.delta * (b - c) by linarith)
  rw [e3]
  simp only [Itv.add, Itv.addB, ← sub_eq_add_neg]
  exact dif_pos (show c + P.delta * (a - c) - P.eps ≤ c + P.delta * (b - c) + P.eps by linarith)

/-- exact arithmetic and midpoint: the guess of a larger enclosure is larger -/
theorem inflate_mono_exact (hA : P.A = IArith.exact K) (hd : 1 ≤ P.delta) (he : 0 ≤ P.eps)
    (hm : ∀ a b hab, P.mid (.mk (some a) (some b) hab) = (a + b) / 2) {I J : Itv K} (hI : I ≠ ⊥) (hJ : J.isUnbounded = false) (h : I ≤ J) :
    P.inflate I ≤ P.inflate J := by
  obtain ⟨a, b, p, rfl⟩ := Itv.bounds_of_bounded (Itv.isEmpty_false_iff.mpr hI) (bounded_le h hJ)
  match J, h, hJ with
  | .mk (some a') (some b') p', h, _ =>
    have h1 : a' ≤ a := h.1
    have h2 : b ≤ b' := h.2
    obtain ⟨q, e⟩ := inflate_exact hA (by linarith) he p (hm a b p)
    obtain ⟨q', e'⟩ := inflate_exact hA (by linarith) he p' (hm a' b' p')
    rw [e, e']
    have k1 := mul_le_mul_of_nonneg_left h1 (sub_nonneg.mpr hd)
    have k2 := mul_le_mul_of_nonneg_left h2 (sub_nonneg.mpr hd)
    have k3 := mul_le_mul_of_nonneg_left h1 (show 0 ≤ P.delta + 1 by linarith)
    have k4 := mul_le_mul_of_nonneg_left h2 (show 0 ≤ P.delta + 1 by linarith)
    constructor
    · show (a' + b') / 2 + P.delta * (a' - (a' + b') / 2) - P.eps ≤ (a + b) / 2 + P.delta * (a - (a + b) / 2) - P.eps
      linarith
    · show (a + b) / 2 + P.delta * (b - (a + b) / 2) + P.eps ≤ (a' + b') / 2 + P.delta * (b' - (a' + b') / 2) + P.eps
      linarith

/-! ### The loops over the slices -/

theorem inG_ne {g : Itv K} {cs : List (Cell K)} (hg : g ≠ ⊥) (hc : ∀ s ∈ slicesFrom g cs, s.outG ≠ ⊥) : ∀ s ∈ slicesFrom g cs, s.inG ≠ ⊥ := by
  induction cs generalizing g with
  | nil => simp
  | cons c cs ih =>
    rw [slicesFrom_cons] at hc ⊢
    intro s hs
    rcases List.mem_cons.mp hs with rfl | hs
    · exact hg
    · exact ih (hc _ (List.mem_cons_self ..)) (fun s hs => hc s (List.mem_cons_of_mem _ hs)) s hs

/-- all the Picard loops started on non-empty boxes of `n` components with a step of at most `d` end within `pf` iterations -/
def InnerEnds (P : Picard K) (n : Nat) (d : K) (pf : Nat) : Prop :=
  ∀ (t h : Itv K) (init x0 : List (Itv K)), (0 : K) ∈ h → h ≤ .icc (-d) d → init.length = n → x0.length = n → (∀ I ∈ x0, I ≠ ⊥) →
    ∃ r, P.loop t init x0 h pf x0 = some r

theorem kth_ends {d : K} {pf : Nat} (hin : InnerEnds P n d pf) {bs : List (K × K)} {xs xs0 : List (Tube K)} (hw : WInv bs xs xs0) (hn : xs.length = n)
    {k : Nat} {b : K × K} (hb : bs[k]? = some b) (hlt : b.1 < b.2) (hd : b.2 - b.1 ≤ d) (fwd : Bool) : ∃ ys, P.kth pf fwd k b xs = some ys := by
  unfold Picard.kth
  by_cases h1 : xs.any Tube.isEmpty = true
  · rw [if_pos h1]; exact ⟨_, rfl⟩
  rw [if_neg h1]
  have hg : ∃ ys, P.guess pf fwd k b xs = some ys := by
    unfold Picard.guess
    rw [if_neg h1]
    dsimp only
    have hh : (0 : K) ∈ (if fwd then Itv.icc 0 (b.2 - b.1) else Itv.icc (-(b.2 - b.1)) 0) ∧
        (if fwd then Itv.icc 0 (b.2 - b.1) else Itv.icc (-(b.2 - b.1)) 0) ≤ .icc (-d) d := by
      cases fwd with
      | true =>
        rw [if_pos rfl]
        refine ⟨Itv.mem_icc.mpr ⟨le_refl _, by linarith⟩, Itv.icc_le (Itv.mem_icc.mpr ⟨by linarith, by linarith⟩) (Itv.mem_icc.mpr ⟨by linarith, by linarith⟩)⟩
      | false =>
        rw [if_neg (by simp)]
        refine ⟨Itv.mem_icc.mpr ⟨by linarith, le_refl _⟩, Itv.icc_le (Itv.mem_icc.mpr ⟨by linarith, by linarith⟩) (Itv.mem_icc.mpr ⟨by linarith, by linarith⟩)⟩
    have hx : ∀ I ∈ xs.map (fun T => T.evalAt (if fwd then b.1 else b.2)), I ≠ ⊥ := by
      intro I hI
      rw [List.mem_map] at hI
      obtain ⟨T, hT, rfl⟩ := hI
      have hTe : T.isEmpty = false := by
        by_contra hc
        exact h1 (List.any_eq_true.mpr ⟨T, hT, by simpa using hc⟩)
      obtain ⟨i, hi, rfl⟩ := List.getElem_of_mem hT
      have hTw := hw.get hi (by rw [← hw.length_eq]; exact hi)
      simp only [List.get_eq_getElem] at hTw
      have hbT := hTw.2.1
      obtain ⟨s, hs⟩ := exists_slice_of_bounds hbT hb
      rw [← Tube.slices_bounds] at hbT
      have hsb : (s.lb, s.ub) = b := by
        have : (xs[i].slices.map fun s => (s.lb, s.ub))[k]? = some (s.lb, s.ub) := by rw [List.getElem?_map, hs]; rfl
        rw [hbT, hb] at this
        exact (Option.some.inj this).symm
      have hsm := List.mem_of_getElem? hs
      unfold Tube.isEmpty at hTe
      rw [Bool.or_eq_false_iff, List.any_eq_false] at hTe
      have ho : ∀ s ∈ xs[i].slices, s.outG ≠ ⊥ := by
        intro s hs e
        have := hTe.2 s hs
        rw [Bool.or_eq_true, not_or] at this
        exact this.2 (Itv.isEmpty_iff.mpr e)
      cases fwd with
      | true =>
        rw [if_pos rfl, ← hsb, Tube.evalAt_lb hTw.1 hsm]
        exact inG_ne (Itv.isEmpty_false_iff.mp hTe.1) ho s hsm
      | false =>
        rw [if_neg (by simp), ← hsb, Tube.evalAt_ub hTw.1 hsm]
        exact ho s hsm
    obtain ⟨r, hr⟩ := hin (.icc b.1 b.2) _ (xs.map fun T => T.codAt k) _ hh.1 hh.2 (by simp [hn]) (by simp [hn]) hx
    rw [hr]
    exact ⟨_, rfl⟩
  obtain ⟨ys, hy⟩ := hg
  rw [hy]
  exact ⟨_, rfl⟩

/-- bounds of the slices after sampling strictly inside the slice `k` -/
theorem sample_bounds_at {t a e : K} {cs : List (Cell K)} (ht : Tiles a cs e) {k : Nat} {b : K × K}
    (hb : (cs.map fun c => (c.lb, c.ub))[k]? = some b) (h1 : b.1 < t) (h2 : t < b.2) :
    (sampleCells t cs).map (fun c => (c.lb, c.ub)) =
      (cs.map fun c => (c.lb, c.ub)).take k ++ (b.1, t) :: (t, b.2) :: (cs.map fun c => (c.lb, c.ub)).drop (k + 1) := by
  induction cs generalizing a k with
  | nil => simp at hb
  | cons c cs ih =>
    obtain ⟨rfl, h3, h4⟩ := ht
    cases k with
    | zero =>
      simp only [List.map_cons, List.getElem?_cons_zero, Option.some.injEq] at hb
      subst hb
      unfold sampleCells
      rw [if_pos (Or.inl h2), if_neg (by rintro (e | e); exacts [h1.ne e, h2.ne' e])]
      simp
    | succ k =>
      simp only [List.map_cons, List.getElem?_cons_succ] at hb
      have hge : c.ub ≤ b.1 := by
        have hm := List.mem_of_getElem? hb
        rw [← slicesFrom_bounds ⊤, List.mem_map] at hm
        obtain ⟨s, hs, rfl⟩ := hm
        exact (h4.mem_bounds hs).1
      have hne : cs ≠ [] := by rintro rfl; simp at hb
      unfold sampleCells
      rw [if_neg (by rintro (e | e); exacts [absurd (hge.trans h1.le) (not_le.mpr e), hne e])]
      simp only [List.map_cons, List.take_succ_cons, List.drop_succ_cons, List.cons_append]
      rw [ih h4 hb]

section
variable (θ : K)
/-- number of iterations spent on a slice of width `d`, at most -/
def weight (d : K) : K := max 1 (4 * d / θ - 1)

/-- the same for several slices -/
def load (bs : List (K × K)) : K := (bs.map fun b => weight θ (b.2 - b.1)).sum
end

variable {θ : K}

theorem weight_one (d : K) : 1 ≤ weight θ d := le_max_left ..

theorem weight_half (hθ : 0 < θ) {d : K} (h : θ < d) : 2 * weight θ (d / 2) + 1 ≤ weight θ d := by
  have e : weight θ (d / 2) = 4 * (d / 2) / θ - 1 := by
    refine max_eq_right ?_
    have : 2 ≤ 4 * (d / 2) / θ := by rw [le_div_iff₀ hθ]; linarith
    linarith
  have e' : 4 * d / θ - 1 ≤ weight θ d := le_max_right ..
  rw [e]
  have : 4 * (d / 2) / θ = 4 * d / θ / 2 := by ring
  rw [this]
  linarith

@[simp] theorem load_append (l m : List (K × K)) : load θ (l ++ m) = load θ l + load θ m := by simp [load]
@[simp] theorem load_cons (b : K × K) (l : List (K × K)) : load θ (b :: l) = weight θ (b.2 - b.1) + load θ l := by simp [load]
@[simp] theorem load_nil : load θ [] = 0 := rfl

theorem length_le_load (l : List (K × K)) : (l.length : K) ≤ load θ l := by
  induction l with
  | nil => simp
  | cons b l ih =>
    have := weight_one (θ := θ) (b.2 - b.1)
    simp only [List.length_cons, load_cons]
    push_cast
    linarith

theorem load_nonneg (l : List (K × K)) : 0 ≤ load θ l := le_trans (Nat.cast_nonneg _) (length_le_load l)

theorem load_drop {bs : List (K × K)} {k : Nat} {b : K × K} (hb : bs[k]? = some b) :
    load θ (bs.drop k) = weight θ (b.2 - b.1) + load θ (bs.drop (k + 1)) := by
  obtain ⟨h1, rfl⟩ := List.getElem?_eq_some_iff.mp hb
  rw [List.drop_eq_getElem_cons h1, load_cons]

theorem load_take {bs : List (K × K)} {k : Nat} {b : K × K} (hb : bs[k]? = some b) :
    load θ (bs.take (k + 1)) = load θ (bs.take k) + weight θ (b.2 - b.1) := by
  rw [List.take_add_one, hb]
  simp

theorem load_split {bs : List (K × K)} {k : Nat} {b : K × K} (hb : bs[k]? = some b) :
    load θ bs = load θ (bs.take k) + weight θ (b.2 - b.1) + load θ (bs.drop (k + 1)) := by
  conv_lhs => rw [← List.take_append_drop k bs]
  rw [load_append, load_drop hb]
  ring

theorem load_start {a e : K} {cs : List (Cell K)} (hθ : 0 < θ) (ht : Tiles a cs e) :
    load θ (cs.map fun c => (c.lb, c.ub)) ≤ cs.length + 4 * (e - a) / θ := by
  induction cs generalizing a with
  | nil =>
    have : a = e := ht
    subst this
    simp
  | cons c cs ih =>
    obtain ⟨rfl, h3, h4⟩ := ht
    have := ih h4
    have hw : weight θ (c.ub - c.lb) ≤ 1 + 4 * (c.ub - c.lb) / θ := by
      have : 0 ≤ 4 * (c.ub - c.lb) / θ := div_nonneg (by linarith) hθ.le
      exact max_le (by linarith) (by linarith)
    have e1 : 4 * (e - c.lb) / θ = 4 * (c.ub - c.lb) / θ + 4 * (e - c.ub) / θ := by ring
    simp only [List.map_cons, load_cons, List.length_cons]
    push_cast
    rw [e1]
    linarith

/-- sampling in the middle of the slice `k` -/
theorem WInv.sampleMid {bs : List (K × K)} {xs xs0 : List (Tube K)} (h : WInv bs xs xs0) {k : Nat} {b : K × K} (hb : bs[k]? = some b)
    (hlt : b.1 < b.2) (hne : xs ≠ []) : WInv (bs.take k ++ (b.1, (b.1 + b.2) / 2) :: ((b.1 + b.2) / 2, b.2) :: bs.drop (k + 1))
      (xs.map fun T => T.sample ((b.1 + b.2) / 2)) xs0 := by
  obtain ⟨bs', h'⟩ := Codac.WInv.sample h hb (t := (b.1 + b.2) / 2) (by linarith) (by linarith)
  have : bs' = bs.take k ++ (b.1, (b.1 + b.2) / 2) :: ((b.1 + b.2) / 2, b.2) :: bs.drop (k + 1) := by
    unfold WInv at h h'
    cases h with
    | nil => exact absurd rfl hne
    | @cons T T0 Ts Ts0 a _ =>
      cases h' with
      | cons a' _ =>
        rw [← a'.2.1]
        show (sampleCells _ T.cells).map _ = _
        rw [sample_bounds_at a.1.tiles (by rw [a.2.1]; exact hb) (by linarith) (by linarith), a.2.1]
  rw [← this]
  exact h'

theorem mustSample_width {k : Nat} {b : K × K} {T : Tube K} {xs : List (Tube K)} (h : P.mustSample k b (T :: xs) = true) :
    (T.tf - T.t0) / 500 < b.2 - b.1 := by
  unfold Picard.mustSample at h
  rw [Bool.and_eq_true] at h
  simpa using h.2

/-- domain of the tubes -/
def Over (D : K) (xs : List (Tube K)) : Prop := ∀ T ∈ xs, T.tf - T.t0 = D

theorem over_of {D : K} {bs : List (K × K)} {xs xs0 : List (Tube K)} (hw : WInv bs xs xs0) (ho : Over D xs0) : Over D xs := by
  intro T hT
  obtain ⟨i, hi, rfl⟩ := List.getElem_of_mem hT
  have hi' : i < xs0.length := by rw [← hw.length_eq]; exact hi
  have := (hw.get hi hi').2.2
  simp only [List.get_eq_getElem] at this
  rw [this.t0, this.tf]
  exact ho _ (List.getElem_mem hi')

theorem width_le {D : K} {bs : List (K × K)} {xs xs0 : List (Tube K)} (hw : WInv bs xs xs0) (ho : Over D xs) (hne : xs ≠ []) {k : Nat} {b : K × K}
    (hb : bs[k]? = some b) : b.2 - b.1 ≤ D := by
  unfold WInv at hw
  cases hw with
  | nil => exact absurd rfl hne
  | @cons T T0 Ts Ts0 a _ =>
    have hm := List.mem_of_getElem? hb
    rw [← a.2.1, ← Tube.slices_bounds, List.mem_map] at hm
    obtain ⟨s, hs, rfl⟩ := hm
    have h1 := a.1.tiles.mem_bounds hs
    have h2 := ho T (by simp)
    show s.ub - s.lb ≤ D
    linarith [h1.1, h1.2.2]

variable {D : K} {pf : Nat}

theorem fwdLoop_ends (hD : 0 < D) (hin : InnerEnds P n D pf) {xs0 : List (Tube K)} (ho : Over D xs0) (hn0 : xs0.length = n) (hne0 : xs0 ≠ []) (N k : Nat)
    {bs : List (K × K)} {xs : List (Tube K)} (hw : WInv bs xs xs0) (hN : load (D / 500) (bs.drop k) < N) :
    ∃ bs' ys, P.fwdLoop pf N k xs = some ys ∧ WInv bs' ys xs0 ∧ load (D / 500) bs' ≤ load (D / 500) bs := by
  induction N generalizing k bs xs with
  | zero =>
    exfalso
    have := load_nonneg (θ := D / 500) (bs.drop k)
    push_cast at hN
    linarith
  | succ N ih =>
    unfold Picard.fwdLoop
    have hne : xs ≠ [] := by
      intro e
      have := hw.length_eq
      rw [e] at this
      exact hne0 (List.length_eq_zero_iff.mp this.symm)
    cases hb : Picard.boundsAt k xs with
    | none => exact ⟨bs, xs, rfl, hw, le_refl _⟩
    | some b =>
      dsimp only
      obtain ⟨hbk, hlt⟩ := Codac.WInv.boundsAt hw hb
      have hdr := load_drop (θ := D / 500) hbk
      have hw1 := weight_one (θ := D / 500) (b.2 - b.1)
      push_cast at hN
      have hnext : load (D / 500) (bs.drop (k + 1)) < N := by linarith
      by_cases h1 : P.unb (xs.map fun T => T.codAt k) = true
      swap
      · rw [if_neg h1]; exact ih _ hw hnext
      rw [if_pos h1]
      obtain ⟨ys, hy⟩ := kth_ends hin hw (hw.length_eq.trans hn0) hbk hlt (width_le hw (over_of hw ho) hne hbk) true
      rw [hy, Option.bind_some]
      have hwy := kth_within hw hy
      by_cases h2 : P.mustSample k b ys = true
      swap
      · rw [if_neg h2]; exact ih _ hwy hnext
      rw [if_pos h2]
      have hney : ys ≠ [] := by
        intro e
        have := hwy.length_eq
        rw [e] at this
        exact hne0 (List.length_eq_zero_iff.mp this.symm)
      have hws := WInv.sampleMid hwy hbk hlt hney
      have hwid : D / 500 < b.2 - b.1 := by
        cases ys with
        | nil => exact absurd rfl hney
        | cons T ys =>
          have := mustSample_width h2
          rw [over_of hwy ho T (by simp)] at this
          exact this
      have hhalf := weight_half (θ := D / 500) (by positivity) hwid
      have hk : k ≤ bs.length := by
        have := (List.getElem?_eq_some_iff.mp hbk).1
        omega
      have e1 : (b.1 + b.2) / 2 - b.1 = (b.2 - b.1) / 2 := by ring
      have e2 : b.2 - (b.1 + b.2) / 2 = (b.2 - b.1) / 2 := by ring
      obtain ⟨bs', zs, c1, c2, c3⟩ := ih k hws (by
        rw [List.drop_append_of_le_length (by simp [hk]), List.drop_eq_nil_of_le (by simp), List.nil_append, load_cons, load_cons]
        dsimp only
        rw [e1, e2]
        linarith)
      refine ⟨bs', zs, c1, c2, le_trans c3 ?_⟩
      rw [load_split hbk, load_append, load_cons, load_cons]
      dsimp only
      rw [e1, e2]
      linarith

theorem bwdLoop_ends (hD : 0 < D) (hin : InnerEnds P n D pf) {xs0 : List (Tube K)} (ho : Over D xs0) (hn0 : xs0.length = n) (hne0 : xs0 ≠ []) (N k : Nat)
    {bs : List (K × K)} {xs : List (Tube K)} (hw : WInv bs xs xs0) (hk : k ≤ bs.length) (hN : load (D / 500) (bs.take k) < N) :
    ∃ bs' ys, P.bwdLoop pf N k xs = some ys ∧ WInv bs' ys xs0 ∧ load (D / 500) bs' ≤ load (D / 500) bs := by
  induction N generalizing k bs xs with
  | zero =>
    exfalso
    have := load_nonneg (θ := D / 500) (bs.take k)
    push_cast at hN
    linarith
  | succ N ih =>
    have hne : xs ≠ [] := by
      intro e
      have := hw.length_eq
      rw [e] at this
      exact hne0 (List.length_eq_zero_iff.mp this.symm)
    cases k with
    | zero => exact ⟨bs, xs, rfl, hw, le_refl _⟩
    | succ k =>
      unfold Picard.bwdLoop
      have hbs : ∃ b, bs[k]? = some b := ⟨_, List.getElem?_eq_getElem (by omega)⟩
      obtain ⟨b, hbk⟩ := hbs
      have hba : Picard.boundsAt k xs = some b := by
        unfold Picard.boundsAt
        have hw' := hw
        unfold WInv at hw'
        cases hw' with
        | nil => exact absurd rfl hne
        | @cons T _ _ _ a _ =>
          simp only [List.head?_cons, Option.bind_some]
          rw [← List.getElem?_map, Tube.slices_bounds, a.2.1]
          exact hbk
      have hlt := (Codac.WInv.boundsAt hw hba).2
      rw [hba]
      dsimp only
      have htk := load_take (θ := D / 500) hbk
      have hw1 := weight_one (θ := D / 500) (b.2 - b.1)
      push_cast at hN
      have hnext : load (D / 500) (bs.take k) < N := by linarith
      by_cases h1 : P.unb (xs.map fun T => T.codAt k) = true
      swap
      · rw [if_neg h1]; exact ih _ hw (by omega) hnext
      rw [if_pos h1]
      obtain ⟨ys, hy⟩ := kth_ends hin hw (hw.length_eq.trans hn0) hbk hlt (width_le hw (over_of hw ho) hne hbk) false
      rw [hy, Option.bind_some]
      have hwy := kth_within hw hy
      by_cases h2 : P.mustSample k b ys = true
      swap
      · rw [if_neg h2]; exact ih _ hwy (by omega) hnext
      rw [if_pos h2]
      have hney : ys ≠ [] := by
        intro e
        have := hwy.length_eq
        rw [e] at this
        exact hne0 (List.length_eq_zero_iff.mp this.symm)
      have hws := WInv.sampleMid hwy hbk hlt hney
      have hwid : D / 500 < b.2 - b.1 := by
        cases ys with
        | nil => exact absurd rfl hney
        | cons T ys =>
          have := mustSample_width h2
          rw [over_of hwy ho T (by simp)] at this
          exact this
      have hhalf := weight_half (θ := D / 500) (by positivity) hwid
      have e1 : (b.1 + b.2) / 2 - b.1 = (b.2 - b.1) / 2 := by ring
      have e2 : b.2 - (b.1 + b.2) / 2 = (b.2 - b.1) / 2 := by ring
      have hlen : (bs.take k).length = k := by simp; omega
      obtain ⟨bs', zs, c1, c2, c3⟩ := ih (k + 2) hws (by simp; omega) (by
        rw [List.take_append, hlen, List.take_of_length_le (by omega), show k + 2 - k = 2 by omega]
        simp only [List.take_succ_cons, List.take_zero, load_append, load_cons, load_nil, e1, e2]
        linarith)
      refine ⟨bs', zs, c1, c2, le_trans c3 ?_⟩
      rw [load_split hbk, load_append, load_cons, load_cons]
      dsimp only
      rw [e1, e2]
      linarith

/-- one direction -/
theorem oneWay_ends (hD : 0 < D) (hin : InnerEnds P n D pf) {xs0 : List (Tube K)} (ho : Over D xs0) (hn0 : xs0.length = n) (hne0 : xs0 ≠ []) {N : Nat}
    {bs : List (K × K)} {xs : List (Tube K)} (hw : WInv bs xs xs0) (hN : load (D / 500) bs < N) (preserve fwd : Bool) :
    ∃ bs' ys, P.oneWay pf N preserve fwd xs = some ys ∧ WInv bs' ys xs0 ∧ load (D / 500) bs' ≤ load (D / 500) bs := by
  unfold Picard.oneWay
  by_cases h1 : xs.any Tube.isEmpty = true
  · rw [if_pos h1]; exact ⟨bs, xs, rfl, hw, le_refl _⟩
  rw [if_neg h1]
  have hself := hw.self
  have hos := over_of hw ho
  have hns : xs.length = n := hw.length_eq.trans hn0
  have hnes : xs ≠ [] := by
    intro e
    have := hw.length_eq
    rw [e] at this
    exact hne0 (List.length_eq_zero_iff.mp this.symm)
  have fin : ∀ zs bs', WInv bs' zs xs → load (D / 500) bs' ≤ load (D / 500) bs →
      ∃ bs' ys, Option.map (fun ys => if preserve = true then Picard.restoreSlicing xs ys else ys) (some zs) = some ys ∧ WInv bs' ys xs0 ∧
        load (D / 500) bs' ≤ load (D / 500) bs := by
    intro zs bs' c2 c3
    cases preserve with
    | false => exact ⟨bs', zs, rfl, c2.trans hw, c3⟩
    | true => exact ⟨bs, _, rfl, restore_within_all hw c2, le_refl _⟩
  cases fwd with
  | true =>
    rw [if_pos rfl]
    obtain ⟨bs', zs, e, c2, c3⟩ := fwdLoop_ends hD hin hos hns hnes N 0 hself (by simpa using hN)
    rw [e]
    exact fin zs bs' c2 c3
  | false =>
    rw [if_neg (by simp)]
    obtain ⟨T, Ts, rfl⟩ : ∃ T Ts, xs = T :: Ts := by
      cases xs with
      | nil => exact absurd rfl hnes
      | cons T Ts => exact ⟨T, Ts, rfl⟩
    have hl : T.nbSlices = bs.length := by
      have hw' := hw
      unfold WInv at hw'
      cases hw' with
      | cons a _ => rw [← a.2.1]; simp [Tube.nbSlices]
    obtain ⟨bs', zs, e, c2, c3⟩ := bwdLoop_ends hD hin hos hns hnes N bs.length hself (le_refl _) (by rw [List.take_length]; exact hN)
    simp only [List.head?_cons]
    rw [hl, e]
    exact fin zs bs' c2 c3

theorem both_ends (hD : 0 < D) (hin : InnerEnds P n D pf) {xs : List (Tube K)} (ho : Over D xs) (hn : xs.length = n) (hne : xs ≠ []) {N : Nat}
    {bs : List (K × K)} (hw : WInv bs xs xs) (hN : load (D / 500) bs < N) (preserve : Bool) :
    ∃ bs' ys, P.both pf N preserve xs = some ys ∧ WInv bs' ys xs ∧ load (D / 500) bs' ≤ load (D / 500) bs := by
  unfold Picard.both
  by_cases h1 : xs.any Tube.isEmpty = true
  · rw [if_pos h1]; exact ⟨bs, xs, rfl, hw, le_refl _⟩
  rw [if_neg h1]
  obtain ⟨b1, y1, e1, w1, l1⟩ := oneWay_ends hD hin ho hn hne hw hN preserve true
  rw [e1, Option.bind_some]
  obtain ⟨b2, y2, e2, w2, l2⟩ := oneWay_ends hD hin ho hn hne w1 (lt_of_le_of_lt l1 hN) preserve false
  exact ⟨b2, y2, e2, w2, l2.trans l1⟩

end PicardEnds
end Codac
