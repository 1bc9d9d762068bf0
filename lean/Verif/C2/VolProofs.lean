import Verif.C2.PavProofs

/-!
# Volumes of the boxes and pavings of codac2: proofs
-/

set_option linter.unusedSectionVars false

namespace Codac.Pav2

open Codac.Bx

/-- all the components are bounded -/
def BoundedBox (X : Box ℝ) : Prop := ∀ I ∈ X, I.isUnbounded = false

theorem width_pos {I : Itv ℝ} (h0 : I.isEmpty = false) (hu : I.isUnbounded = false) (hd : I.isDegenerated = false) : 0 < width I := by
  match I, h0, hu, hd with
  | .mk (some a) (some b) h, _, _, hd =>
    have hab : a ≤ b := h
    simp only [Itv.isDegenerated, decide_eq_false_iff_not] at hd
    have : a < b := lt_of_le_of_ne hab hd
    simp [width, this]

theorem width_nonneg {I : Itv ℝ} : 0 ≤ width I := by
  match I with
  | .empty => exact le_rfl
  | .mk (some a) (some b) h => exact sub_nonneg.mpr h
  | .mk none _ _ => exact le_rfl
  | .mk (some _) none _ => exact le_rfl

theorem width_deg {I : Itv ℝ} (hd : I.isDegenerated = true) : width I = 0 := by
  match I, hd with
  | .empty, _ => rfl
  | .mk (some a) (some b) h, hd =>
    simp only [Itv.isDegenerated, decide_eq_true_eq] at hd
    subst hd
    simp [width]
  | .mk none _ _, _ => rfl
  | .mk (some _) none _, _ => rfl

theorem volLoop_eq {X : Box ℝ} : ∀ {v : ℝ}, Bx.isEmpty X = false → BoundedBox X → volLoop X v = some (Real.exp v * (X.map width).prod) := by
  induction X with
  | nil => intro v _ _; simp [volLoop]
  | cons I X ih =>
    intro v h0 hb
    rw [isEmpty_cons, Bool.or_eq_false_iff] at h0
    unfold volLoop
    rw [if_neg (by simp [hb I (by simp)])]
    by_cases hd : I.isDegenerated = true
    · rw [if_pos hd]; simp [width_deg hd]
    · rw [if_neg hd, ih h0.2 fun J hJ => hb J (List.mem_cons_of_mem _ hJ), Real.exp_add,
        Real.exp_log (width_pos h0.1 (hb I (by simp)) (by simpa using hd))]
      simp [mul_assoc]

/-- the volume of a bounded box that is not empty is the product of the widths -/
theorem volume_eq_prod {X : Box ℝ} (h0 : Bx.isEmpty X = false) (hb : BoundedBox X) : volume X = some (X.map width).prod := by
  unfold volume
  rw [if_neg (by simp [h0]), volLoop_eq h0 hb]
  simp

theorem prod_zero_of_empty {X : Box ℝ} (h : Bx.isEmpty X = true) : (X.map width).prod = 0 := by
  unfold Bx.isEmpty at h
  rw [List.any_eq_true] at h
  obtain ⟨I, hI, he⟩ := h
  rw [List.prod_eq_zero_iff, List.mem_map]
  exact ⟨I, hI, by rw [Itv.isEmpty_iff.mp he]; rfl⟩

/-- with the empty boxes -/
theorem volume_prod {X : Box ℝ} (hb : BoundedBox X) : volume X = some (X.map width).prod := by
  by_cases h : Bx.isEmpty X = true
  · unfold volume
    rw [if_pos h, prod_zero_of_empty h]
  · exact volume_eq_prod (by simpa using h) hb

/-- the volume is infinite exactly when a component is unbounded and no component before it is degenerated -/
theorem volume_none_iff {X : Box ℝ} (h0 : Bx.isEmpty X = false) :
    volume X = none ↔ ∃ (k : Nat) (I : Itv ℝ), X[k]? = some I ∧ I.isUnbounded = true ∧ ∀ j < k, ∀ J, X[j]? = some J → J.isDegenerated = false := by
  unfold volume
  rw [if_neg (by simp [h0])]
  generalize (0 : ℝ) = v
  induction X generalizing v with
  | nil => simp [volLoop]
  | cons I X ih =>
    rw [isEmpty_cons, Bool.or_eq_false_iff] at h0
    unfold volLoop
    by_cases hu : I.isUnbounded = true
    · rw [if_pos hu]
      exact ⟨fun _ => ⟨0, I, rfl, hu, fun j hj => absurd hj (by omega)⟩, fun _ => rfl⟩
    · rw [if_neg hu]
      by_cases hd : I.isDegenerated = true
      · rw [if_pos hd]
        refine ⟨fun h => (by simp at h), ?_⟩
        rintro ⟨k, J, hk, hJ, hall⟩
        cases k with
        | zero => simp at hk; subst hk; exact absurd hJ hu
        | succ k => have := hall 0 (by omega) I rfl; simp [hd] at this
      · rw [if_neg hd, ih h0.2]
        constructor
        · rintro ⟨k, J, hk, hJ, hall⟩
          refine ⟨k + 1, J, by simpa using hk, hJ, fun j hj L hL => ?_⟩
          cases j with
          | zero => simp at hL; subst hL; simpa using hd
          | succ j => exact hall j (by omega) L (by simpa using hL)
        · rintro ⟨k, J, hk, hJ, hall⟩
          cases k with
          | zero => simp at hk; subst hk; exact absurd hJ hu
          | succ k => exact ⟨k, J, by simpa using hk, hJ, fun j hj L hL => hall (j + 1) (by omega) L (by simpa using hL)⟩

theorem width_mono {I J : Itv ℝ} (h : I ≤ J) (hJ : J.isUnbounded = false) : width I ≤ width J := by
  match I, J, h, hJ with
  | .empty, J, _, _ => exact width_nonneg
  | .mk (some a) (some b) p, .mk (some c) (some d) q, h, _ =>
    have h1 : a ∈ Itv.mk (some c) (some d) q := Itv.mem_of_le h ⟨le_rfl, p⟩
    have h2 : b ∈ Itv.mk (some c) (some d) q := Itv.mem_of_le h ⟨p, le_rfl⟩
    exact sub_le_sub h2.2 h1.1
  | .mk none hi p, J, _, _ => exact width_nonneg
  | .mk (some _) none p, J, _, _ => exact width_nonneg

theorem bounded_of_le {I J : Itv ℝ} (h : I ≤ J) (hJ : J.isUnbounded = false) : I.isUnbounded = false := by
  match I, J, h, hJ with
  | .empty, _, _, _ => rfl
  | .mk (some a) (some b) p, _, _, _ => rfl
  | .mk lo none p, .mk (some c) (some d) q, h, _ =>
    exfalso
    obtain ⟨x, hx⟩ := Itv.exists_mem (X := Itv.mk lo none p) (by intro e; cases e)
    have h2 : max x (d + 1) ∈ Itv.mk lo none p := by
      refine ⟨?_, trivial⟩
      cases lo with
      | none => trivial
      | some a => exact le_trans hx.1 (le_max_left _ _)
    have h3 : max x (d + 1) ≤ d := (Itv.mem_of_le h h2).2
    linarith [le_max_right x (d + 1)]
  | .mk none hi p, .mk (some c) (some d) q, h, _ =>
    exfalso
    obtain ⟨x, hx⟩ := Itv.exists_mem (X := Itv.mk none hi p) (by intro e; cases e)
    have h2 : min x (c - 1) ∈ Itv.mk none hi p := by
      refine ⟨trivial, ?_⟩
      cases hi with
      | none => trivial
      | some a => exact le_trans (min_le_left _ _) hx.2
    have h3 : c ≤ min x (c - 1) := (Itv.mem_of_le h h2).1
    linarith [min_le_right x (c - 1)]
  | .mk lo hi p, .empty, h, _ =>
    exfalso
    obtain ⟨x, hx⟩ := Itv.exists_mem (X := Itv.mk lo hi p) (by intro e; cases e)
    exact Itv.not_mem_bot _ (Itv.mem_of_le h hx)

theorem boundedBox_of_le {X Y : Box ℝ} (h : BoxLe X Y) (hY : BoundedBox Y) : BoundedBox X := by
  unfold BoxLe at h
  induction h with
  | nil => exact hY
  | cons h1 _ ih =>
    intro I hI
    rcases List.mem_cons.mp hI with rfl | hI
    · exact bounded_of_le h1 (hY _ (by simp))
    · exact ih (fun J hJ => hY J (List.mem_cons_of_mem _ hJ)) I hI

theorem prod_nonneg_box (X : Box ℝ) : 0 ≤ (X.map width).prod := by
  apply List.prod_nonneg
  intro a ha
  obtain ⟨I, -, rfl⟩ := List.mem_map.mp ha
  exact width_nonneg

theorem prod_mono_box {X Y : Box ℝ} (h : BoxLe X Y) (hY : BoundedBox Y) : (X.map width).prod ≤ (Y.map width).prod := by
  unfold BoxLe at h
  induction h with
  | nil => exact le_rfl
  | @cons a b X Y h1 _ ih =>
    simp only [List.map_cons, List.prod_cons]
    exact mul_le_mul (width_mono h1 (hY _ (by simp))) (ih fun J hJ => hY J (List.mem_cons_of_mem _ hJ)) (prod_nonneg_box _) width_nonneg

theorem prod_set_add {l : List ℝ} {i : Nat} (hi : i < l.length) (a b : ℝ) : (l.set i a).prod + (l.set i b).prod = (l.set i (a + b)).prod := by
  induction l generalizing i with
  | nil => simp at hi
  | cons x l ih =>
    cases i with
    | zero => simp [add_mul]
    | succ i => simp only [List.set_cons_succ, List.prod_cons, ← mul_add, ih (by simpa using hi)]

/-- the widths of the two parts of an interval -/
theorem width_parts {I : Itv ℝ} {m : ℝ} (hu : I.isUnbounded = false) (hm : m ∈ I) :
    width (I ⊓ Itv.mk none (some m) trivial) + width (I ⊓ Itv.mk (some m) none trivial) = width I := by
  match I, hu, hm with
  | .mk (some a) (some b) h, _, hm =>
    have h1 : a ≤ m := hm.1
    have h2 : m ≤ b := hm.2
    have e1 : Itv.mk (some a) (some b) h ⊓ Itv.mk none (some m) trivial = Itv.mk (some a) (some m) h1 := by
      apply Itv.ext_mem
      intro x
      rw [Itv.mem_inf]
      exact ⟨fun hx => ⟨hx.1.1, hx.2.2⟩, fun hx => ⟨⟨hx.1, le_trans hx.2 h2⟩, trivial, hx.2⟩⟩
    have e2 : Itv.mk (some a) (some b) h ⊓ Itv.mk (some m) none trivial = Itv.mk (some m) (some b) h2 := by
      apply Itv.ext_mem
      intro x
      rw [Itv.mem_inf]
      exact ⟨fun hx => ⟨hx.2.1, hx.1.2⟩, fun hx => ⟨⟨le_trans h1 hx.1, hx.2⟩, hx.1, trivial⟩⟩
    rw [e1, e2]
    simp [width]

theorem bisect_le {c : Cut ℝ} {X A B : Box ℝ} (h : Bx.bisect c X = some (A, B)) : BoxLe A X ∧ BoxLe B X := by
  obtain ⟨i, I, -, hI, -, -, -, -, -, hA, hB⟩ := bisect_spec h
  have key : ∀ J : Itv ℝ, J ≤ I → BoxLe (X.set i J) X := by
    intro J hJ
    clear h hA hB
    induction X generalizing i with
    | nil => exact .nil
    | cons L X ih =>
      cases i with
      | zero => simp at hI; subst hI; exact .cons hJ (BoxLe.refl _)
      | succ i => exact .cons le_rfl (ih i (by simpa using hI))
  exact ⟨hA ▸ key _ inf_le_left, hB ▸ key _ inf_le_left⟩

/-- the volumes of the two parts -/
theorem volume_bisect {c : Cut ℝ} (hc : c.Ok) {X A B : Box ℝ} (hb : BoundedBox X) (h : Bx.bisect c X = some (A, B)) :
    (A.map width).prod + (B.map width).prod = (X.map width).prod := by
  obtain ⟨i, I, -, hI, hbis, -, -, -, -, hA, hB⟩ := bisect_spec h
  obtain ⟨a, b, ha, hb', h1, h2⟩ := hc I hbis
  have hm : c.at' I ∈ I := Itv.mem_of_between ha hb' h1.le h2.le
  have hi := (List.getElem?_eq_some_iff.mp hI).1
  rw [hA, hB, List.map_set, List.map_set, prod_set_add (by simpa using hi), width_parts (hb I (List.mem_of_getElem? hI)) hm, ← List.map_set, set_self hI]

namespace Pav

/-- all the boxes of the leaves are bounded -/
def Bounded : Pav ℝ → Prop
  | leaf x => BoundedBox x
  | node _ l r => l.Bounded ∧ r.Bounded

/-- the sum of the products of the widths, over the leaves -/
noncomputable def sumVol : Pav ℝ → ℝ
  | leaf x => (x.map width).prod
  | node _ l r => l.sumVol + r.sumVol

theorem vol_eq {p : Pav ℝ} (h : p.Bounded) : p.vol = some p.sumVol := by
  induction p with
  | leaf x => exact volume_prod h
  | node x l r h1 h2 => simp [vol, h1 h.1, h2 h.2, addVol, sumVol]

/-- a change at a path keeps a relation between the volumes -/
theorem change_vol {R : ℝ → ℝ → Prop} (hr : ∀ a b c, R a b → R (a + c) (b + c)) {f : Pav ℝ → Option (Pav ℝ)}
    (hf : ∀ p p', p.Bounded → f p = some p' → p'.Bounded ∧ R p'.sumVol p.sumVol) {p : Pav ℝ} : ∀ {path : List Bool} {p' : Pav ℝ}, p.Bounded → p.change f path = some p' →
    p'.Bounded ∧ R p'.sumVol p.sumVol := by
  induction p with
  | leaf x =>
    intro path p' hp h
    cases path with
    | nil => exact hf _ _ hp h
    | cons => simp [change] at h
  | node x l r h1 h2 =>
    intro path p' hp h
    cases path with
    | nil => exact hf _ _ hp h
    | cons d path =>
      simp only [change] at h
      split_ifs at h
      · obtain ⟨r', hr1, rfl⟩ := Option.map_eq_some_iff.mp h
        obtain ⟨k1, k2⟩ := h2 hp.2 hr1
        refine ⟨⟨hp.1, k1⟩, ?_⟩
        have := hr _ _ l.sumVol k2
        simpa [sumVol, add_comm] using this
      · obtain ⟨l', hl, rfl⟩ := Option.map_eq_some_iff.mp h
        obtain ⟨k1, k2⟩ := h1 hp.1 hl
        exact ⟨⟨k1, hp.2⟩, hr _ _ _ k2⟩

end Pav

theorem bisectHere_vol {c : Cut ℝ} (hc : c.Ok) {p p' : Pav ℝ} (hb : p.Bounded) (h : Pav.bisectHere c p = some p') : p'.Bounded ∧ p'.sumVol = p.sumVol := by
  obtain ⟨x, A, B, rfl, rfl, hAB⟩ := bisectHere_spec h
  obtain ⟨h1, h2⟩ := bisect_le hAB
  exact ⟨⟨boundedBox_of_le h1 hb, boundedBox_of_le h2 hb⟩, volume_bisect hc hb hAB⟩

theorem contractHere_vol {f : Box ℝ → Box ℝ} (hf : ∀ X, BoxLe (f X) X) {p p' : Pav ℝ} (hb : p.Bounded) (h : Pav.contractHere f p = some p') : p'.Bounded ∧ p'.sumVol ≤ p.sumVol := by
  cases p with
  | leaf x =>
    simp only [Pav.contractHere, Option.some.injEq] at h
    subst h
    exact ⟨boundedBox_of_le (hf x) hb, prod_mono_box (hf x) hb⟩
  | node => cases h

end Codac.Pav2
