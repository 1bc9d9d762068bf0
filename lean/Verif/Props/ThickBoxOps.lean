import Verif.Thick.BoxOps
import Verif.Props.Thick
import Verif.Geometry.Inter

/-!
# C158: operations on thick boxes
-/

set_option linter.unusedSectionVars false

namespace Codac.Props
open Codac

variable {K : Type*} [Field K] [LinearOrder K] [IsStrictOrderedRing K]

theorem thick_interLoop {cap : K} {n : Nat} : ∀ {T U res : ThickBox K} {l m : List (K × K)}, (∀ t ∈ T, t.Ok) → (∀ u ∈ U, u.Ok) →
    (∀ p ∈ T.zip U, ∀ b ∈ ThickItv.minItv p.1.ub p.2.ub, b ≤ cap) → ThickBox.Member T l → ThickBox.Member U m →
    List.Forall₂ (fun p q => max p.1 q.1 ≤ min p.2 q.2) l m →
    ∃ V, ThickBox.interLoop cap n T U res = some (res ++ V) ∧ ThickBox.Member V (List.zipWith (fun p q => (max p.1 q.1, min p.2 q.2)) l m)
  | [], [], res, [], [], _, _, _, _, _, _ => ⟨[], by simp [ThickBox.interLoop], trivial⟩
  | [], [], _, _ :: _, _, _, _, _, h, _, _ => h.elim
  | [], [], _, [], _ :: _, _, _, _, _, h, _ => h.elim
  | [], _ :: _, _, [], [], _, _, _, _, h, _ => h.elim
  | [], _ :: _, _, _ :: _, _, _, _, _, h, _, _ => h.elim
  | _ :: _, [], _, _, _ :: _, _, _, _, _, h, _ => h.elim
  | _ :: _, _, _, [], _, _, _, _, h, _, _ => h.elim
  | [], _ :: _, _, [], _ :: _, _, _, _, _, _, h => by cases h
  | _ :: _, _, _, _ :: _, [], _, _, _, _, _, h => by cases h
  | t :: T, u :: U, res, p :: l, q :: m, hT, hU, hc, hm, hu, hx => by
    cases hx with
    | cons h1 h2 =>
      have k := C43_inter_partial (cap := cap) (hT t (by simp)) (hU u (by simp)) (hc (t, u) (by simp)) hm.1 hu.1 h1
      have ne : (ThickItv.inter cap t u).isEmpty = false := by
        unfold ThickItv.isEmpty
        rw [Itv.isEmpty_false_iff.mpr (Itv.ne_bot_of_mem k.1)]
        rfl
      obtain ⟨V, e, hV⟩ := thick_interLoop (cap := cap) (n := n) (T := T) (U := U) (res := res ++ [ThickItv.inter cap t u]) (fun x hx => hT x (by simp [hx]))
        (fun x hx => hU x (by simp [hx])) (fun x hx => hc x (by simp [hx])) hm.2 hu.2 h2
      exact ⟨ThickItv.inter cap t u :: V, by rw [ThickBox.interLoop, if_neg (by simp [ne]), e]; simp, k, hV⟩

theorem thick_empty_iff : ∀ {T : ThickBox K}, T.isEmpty = true ↔ ∃ t ∈ T, t.lb = ⊥ ∧ t.ub = ⊥
  | [] => by simp [ThickBox.isEmpty]
  | t :: T => by
    rw [ThickBox.isEmpty]
    have e : t.isEmpty = true ↔ t.lb = ⊥ ∧ t.ub = ⊥ := by simp [ThickItv.isEmpty]
    by_cases h : t.isEmpty = true
    · rw [if_pos h]
      exact ⟨fun _ => ⟨t, by simp, e.mp h⟩, fun _ => rfl⟩
    · rw [if_neg h, thick_empty_iff]
      constructor
      · rintro ⟨x, hx, hh⟩; exact ⟨x, by simp [hx], hh⟩
      · rintro ⟨x, hx, hh⟩
        rcases List.mem_cons.mp hx with rfl | hx
        · exact absurd (e.mpr hh) h
        · exact ⟨x, hx, hh⟩

/-- **C158**, `is_empty`: true exactly when the thick box has no member -/
theorem C158_empty {T : ThickBox K} (hT : ∀ t ∈ T, t.Ok) : T.isEmpty = true ↔ ∀ l, ¬ ThickBox.Member T l := by
  rw [thick_empty_iff]
  constructor
  · rintro ⟨t, ht, h1, _⟩ l hm
    induction T generalizing l with
    | nil => cases ht
    | cons s T ih =>
      cases l with
      | nil => exact hm
      | cons p l =>
        rcases List.mem_cons.mp ht with rfl | ht
        · have := hm.1.1
          rw [h1] at this
          exact this
        · exact ih (fun x hx => hT x (by simp [hx])) ht l hm.2
  · intro h
    by_contra hn
    push Not at hn
    apply absurd h
    push Not
    clear h
    induction T with
    | nil => exact ⟨[], trivial⟩
    | cons s T ih =>
      obtain ⟨l, hl⟩ := ih (fun x hx => hT x (by simp [hx])) fun x hx => hn x (by simp [hx])
      rcases hT s (by simp) with e | c
      · exact absurd (by rw [e]) (hn s (by simp) (by rw [e]))
      · obtain ⟨b, hb⟩ := Itv.exists_mem c.ne.2
        obtain ⟨a, ha, hab⟩ := c.complete.2 b hb
        exact ⟨(a, b) :: l, ⟨ha, hb, hab⟩, hl⟩

/-- **C158**, intersection: the intersections of the members of the two thick boxes are members of the result, when the upper bounds are not above the constant of the code (`1e10`); hence a result which is empty says that the members do not meet. Missing: larger upper bounds, see `C158_inter_fails` -/
theorem C158_inter_partial {cap : K} {T U : ThickBox K} (hT : ∀ t ∈ T, t.Ok) (hU : ∀ u ∈ U, u.Ok)
    (hc : ∀ p ∈ T.zip U, ∀ b ∈ ThickItv.minItv p.1.ub p.2.ub, b ≤ cap) {l m : List (K × K)} (hm : ThickBox.Member T l) (hu : ThickBox.Member U m)
    (hx : List.Forall₂ (fun p q => max p.1 q.1 ≤ min p.2 q.2) l m) :
    ∃ V, T.inter cap U = some V ∧ ThickBox.Member V (List.zipWith (fun p q => (max p.1 q.1, min p.2 q.2)) l m) := by
  obtain ⟨V, e, hV⟩ := thick_interLoop (n := T.length) (res := []) hT hU hc hm hu hx
  exact ⟨V, e, hV⟩

theorem thick_interLoop_empty {cap : K} {n : Nat} : ∀ {T U res : ThickBox K}, T.length = U.length → (∃ p ∈ T.zip U, (ThickItv.inter cap p.1 p.2).isEmpty = true) →
    ThickBox.interLoop cap n T U res = some (ThickBox.ofBox (List.replicate n ⊥))
  | [], _, _, _, h => by simp at h
  | _ :: _, [], _, hl, _ => by simp at hl
  | t :: T, u :: U, res, hl, h => by
    rw [ThickBox.interLoop]
    by_cases e : (ThickItv.inter cap t u).isEmpty = true
    · rw [if_pos e]
    · rw [if_neg e]
      refine thick_interLoop_empty (by simpa using hl) ?_
      obtain ⟨p, hp, hpe⟩ := h
      rw [List.zip_cons_cons, List.mem_cons] at hp
      rcases hp with rfl | hp
      · exact absurd hpe e
      · exact ⟨p, hp, hpe⟩

/-- **C158**, intersection: as soon as the intersection is empty along one dimension, all the components of the result are empty -/
theorem C158_inter_empty {cap : K} {T U : ThickBox K} (hl : T.length = U.length) (h : ∃ p ∈ T.zip U, (ThickItv.inter cap p.1 p.2).isEmpty = true) :
    ∃ V, T.inter cap U = some V ∧ V.length = T.length ∧ V.isEmpty = true ∧ ∀ t ∈ V, t.lb = ⊥ ∧ t.ub = ⊥ := by
  refine ⟨_, thick_interLoop_empty hl h, by simp [ThickBox.ofBox], ?_, ?_⟩
  · obtain ⟨p, hp, -⟩ := h
    have hpos : T.length ≠ 0 := fun h0 => by
      rw [List.length_eq_zero_iff.mp h0] at hp
      simp at hp
    refine thick_empty_iff.mpr ⟨ThickItv.ofItv ⊥, ?_, rfl, rfl⟩
    simp [ThickBox.ofBox, hpos]
  · intro t ht
    simp only [ThickBox.ofBox, List.map_replicate, List.mem_replicate] at ht
    rw [ht.2]
    exact ⟨rfl, rfl⟩

/-- **C158**, `subset_ext`: the flag is true exactly when no component is empty, and then each point of the box is in all the members -/
theorem C158_subset {T : ThickBox K} (hT : ∀ t ∈ T, t.Ok) :
    (T.subsetExt.2 = true ↔ ∀ I ∈ T.subsetExt.1, I ≠ ⊥) ∧
    ∀ x l, InBox x T.subsetExt.1 → ThickBox.Member T l → List.Forall₂ (fun y p => p.1 ≤ y ∧ y ≤ p.2) x l := by
  constructor
  · unfold ThickBox.subsetExt
    dsimp only
    have aux : ∀ (L : ThickBox K) (s : Bool), L.foldl (fun s t => s && !t.subset.isEmpty) s = true ↔ s = true ∧ ∀ t ∈ L, t.subset ≠ ⊥ := by
      intro L
      induction L with
      | nil => intro s; simp
      | cons t L ih => intro s; rw [List.foldl_cons, ih]; simp [and_assoc]
    rw [aux]
    simp
  · unfold ThickBox.subsetExt
    dsimp only
    induction T with
    | nil =>
      intro x l hx hm
      cases hx
      cases l with
      | nil => exact .nil
      | cons => exact hm.elim
    | cons t T ih =>
      intro x l hx hm
      cases hx with
      | cons h1 h2 =>
        cases l with
        | nil => exact hm.elim
        | cons p l =>
          exact .cons ((C43_superset_subset (hT t (by simp)) _).2 h1 _ _ hm.1) (ih (fun s hs => hT s (by simp [hs])) _ _ h2 hm.2)

theorem thick_inner {t : ThickItv K} (h : ThickItv.Checked t.lb t.ub) : ∃ I s, ThickBox.innerItv t = some (I, s) ∧ I ≠ ⊥ ∧ (s = true ↔ t.subset = ⊥) ∧
    (s = false → ∀ x ∈ I, ∀ a b, t.Member a b → a ≤ x ∧ x ≤ b) ∧ (s = true → ∀ x, x ∈ I ↔ t.Member x x) := by
  unfold ThickBox.innerItv
  by_cases e : t.subset.isEmpty = true
  · rw [if_pos e]
    obtain ⟨L, U⟩ := t
    match L, U, h with
    | .mk a b p, .mk c d q, h =>
      have key : ∀ x, x ∈ Itv.ofBounds (Itv.maxLo a c) (Itv.minHi b d) ↔ ThickItv.Member ⟨.mk a b p, .mk c d q⟩ x x := fun x => by
        rw [Itv.mem_ofBounds, Itv.loLe_maxLo, Itv.leHi_minHi]
        unfold ThickItv.Member
        dsimp only
        rw [Itv.mem_mk, Itv.mem_mk]
        constructor
        · rintro ⟨⟨h1, h2⟩, h3, h4⟩; exact ⟨⟨h1, h3⟩, ⟨h2, h4⟩, le_refl x⟩
        · rintro ⟨⟨h1, h3⟩, ⟨h2, h4⟩, _⟩; exact ⟨⟨h1, h2⟩, h3, h4⟩
      refine ⟨_, true, rfl, ?_, ⟨fun _ => Itv.isEmpty_iff.mp e, fun _ => rfl⟩, (by intro hh; cases hh), fun _ => key⟩
      suffices hx : ∃ x, ThickItv.Member ⟨.mk a b p, .mk c d q⟩ x x by
        obtain ⟨x, hx⟩ := hx
        exact Itv.ne_bot_of_mem ((key x).mpr hx)
      obtain ⟨hbd, hac⟩ := h
      have hs : ∀ y z, b = some y → c = some z → z ≤ y := by
        intro y z h1 h2
        subst h1; subst h2
        by_contra hn
        rw [not_le] at hn
        simp [ThickItv.subset, Itv.ub?, Itv.lb?, hn, Itv.icc_eq_mk hn.le, Itv.isEmpty] at e
      cases b with
      | none =>
        cases d with
        | some d => exact absurd hbd (by simp [Itv.hiLeHi])
        | none =>
          cases c with
          | none =>
            cases a with
            | none => exact ⟨0, ⟨trivial, trivial⟩, ⟨trivial, trivial⟩, le_refl _⟩
            | some a => exact absurd hac (by simp [Itv.loLeLo])
          | some c =>
            refine ⟨c, ⟨?_, trivial⟩, ⟨le_refl c, trivial⟩, le_refl _⟩
            cases a with
            | none => trivial
            | some a => exact hac
      | some b =>
        have hb1 : loLe a b := by
          cases a with
          | none => trivial
          | some a => exact p
        have hb2 : leHi b d := by
          cases d with
          | none => trivial
          | some d => exact hbd
        have hb3 : loLe c b := by
          cases c with
          | none => trivial
          | some c => exact hs b c rfl rfl
        exact ⟨b, ⟨hb1, le_refl b⟩, ⟨hb3, hb2⟩, le_refl _⟩
  · rw [if_neg e]
    have e' : t.subset ≠ ⊥ := fun hh => e (Itv.isEmpty_iff.mpr hh)
    exact ⟨_, false, rfl, e', ⟨(by intro hh; cases hh), fun hh => absurd hh e'⟩, fun _ x hx a b hm => (C43_superset_subset (.inr h) x).2 hx a b hm, (by intro hh; cases hh)⟩

/-- **C158**, `inner_box` of thick intervals which are not empty: no component is empty. A component without flag holds numbers which are in all the members. A component with a flag is given exactly when the subset is empty: it holds the numbers `x` such that `[x,x]` is a member -/
theorem C158_inner {T : ThickBox K} (hT : ∀ t ∈ T, ThickItv.Checked t.lb t.ub) :
    ∃ R, T.innerBox = some R ∧ List.Forall₂ (fun t (r : Itv K × Bool) => r.1 ≠ ⊥ ∧ (r.2 = true ↔ t.subset = ⊥) ∧
      (r.2 = false → ∀ x ∈ r.1, ∀ a b, t.Member a b → a ≤ x ∧ x ≤ b) ∧ (r.2 = true → ∀ x, x ∈ r.1 ↔ t.Member x x)) T R := by
  unfold ThickBox.innerBox
  induction T with
  | nil => exact ⟨[], rfl, .nil⟩
  | cons t T ih =>
    obtain ⟨R, e, h⟩ := ih fun s hs => hT s (by simp [hs])
    obtain ⟨I, s, e', h'⟩ := thick_inner (hT t (by simp))
    exact ⟨(I, s) :: R, by rw [List.mapM_cons, e', e]; rfl, .cons h' h⟩

theorem thick_ofBoxes : ∀ {L U : Box K} {l : List (K × K)}, List.Forall₂ (fun I J => ThickItv.Checked I J) L U →
    (ThickBox.Member (ThickBox.ofBoxes L U) l ↔ InBox (l.map Prod.fst) L ∧ InBox (l.map Prod.snd) U ∧ ∀ p ∈ l, p.1 ≤ p.2)
  | _, _, [], .nil => ⟨fun _ => ⟨.nil, .nil, by simp⟩, fun _ => trivial⟩
  | _, _, p :: l, .nil => ⟨fun h => h.elim, fun h => by cases h.1⟩
  | _, _, [], .cons _ _ => ⟨fun h => h.elim, fun h => by cases h.1⟩
  | I :: L, J :: U, p :: l, .cons h1 h2 => by
    have e : ThickBox.ofBoxes (I :: L) (J :: U) = ⟨I, J⟩ :: ThickBox.ofBoxes L U := by
      unfold ThickBox.ofBoxes
      rw [List.zipWith_cons_cons]
      unfold ThickItv.ofItvs
      rw [if_pos h1]
    rw [e]
    constructor
    · rintro ⟨⟨a1, a2, a3⟩, hm⟩
      obtain ⟨b1, b2, b3⟩ := (thick_ofBoxes h2).mp hm
      exact ⟨.cons a1 b1, .cons a2 b2, by simpa using ⟨a3, fun a b hab => b3 (a, b) hab⟩⟩
    · rintro ⟨b1, b2, b3⟩
      cases b1 with
      | cons a1 b1 =>
        cases b2 with
        | cons a2 b2 => exact ⟨⟨a1, a2, b3 p (by simp)⟩, (thick_ofBoxes h2).mpr ⟨b1, b2, fun q hq => b3 q (by simp [hq])⟩⟩

/-- **C158**, construction from the boxes of the two corners: the members are the boxes with a lower corner in the first one and an upper corner in the second one, when the bounds of the second one are above those of the first one. Missing: other bounds, see `C158_corners_fails` -/
theorem C158_corners_partial {L U : Box K} (h : List.Forall₂ (fun I J => ThickItv.Checked I J) L U) (l : List (K × K)) :
    ThickBox.Member (ThickBox.ofBoxes L U) l ↔ InBox (l.map Prod.fst) L ∧ InBox (l.map Prod.snd) U ∧ ∀ p ∈ l, p.1 ≤ p.2 := thick_ofBoxes h

/-- **C158**, `lb` and `ub`: the boxes given at the construction; the lower corners of the members are in the first one, their upper corners in the second one -/
theorem C158_lb_ub : ∀ {L U : Box K}, List.Forall₂ (fun I J => ThickItv.Checked I J) L U → (ThickBox.ofBoxes L U).lbBox = L ∧ (ThickBox.ofBoxes L U).ubBox = U
  | _, _, .nil => ⟨rfl, rfl⟩
  | I :: L, J :: U, .cons h1 h2 => by
    have k := C158_lb_ub h2
    have e : ThickItv.ofItvs I J = ⟨I, J⟩ := by unfold ThickItv.ofItvs; rw [if_pos h1]
    unfold ThickBox.ofBoxes ThickBox.lbBox ThickBox.ubBox at k ⊢
    rw [List.zipWith_cons_cons, List.map_cons, List.map_cons, k.1, k.2, e]
    exact ⟨rfl, rfl⟩

/-- **C158** fails for other corners: `[0,1]` has its bounds in `[0,5]` and `[1,2]` but the thick box is empty -/
theorem C158_corners_fails : (ThickBox.ofBoxes [Itv.icc (0 : ℚ) 5] [Itv.icc 1 2]).isEmpty = true ∧ (0 : ℚ) ∈ Itv.icc (0 : ℚ) 5 ∧ (1 : ℚ) ∈ Itv.icc (1 : ℚ) 2 := by
  decide +kernel

/-- **C158** fails for the intersection: with an upper bound above `1e10`, the intersection of a thick box with itself is empty -/
theorem C158_inter_fails : ∃ T : ThickBox ℚ, ThickBox.Member T [(0, 2 * 10 ^ 10)] ∧ ∃ V, T.inter (10 ^ 10) T = some V ∧ V.isEmpty = true :=
  ⟨[ThickItv.ofItv (Itv.icc 0 (2 * 10 ^ 10))], ⟨by unfold ThickItv.Member; decide +kernel, trivial⟩, [⟨⊥, ⊥⟩], by decide +kernel⟩

/-- **C158** fails for the flag of `subset_ext`: the header says that it is true when a component is empty; it is false -/
theorem C158_flag_fails : ∃ T : ThickBox ℚ, ThickBox.Member T [(0, 3)] ∧ (∃ I ∈ T.subsetExt.1, I = ⊥) ∧ T.subsetExt.2 = false :=
  ⟨[ThickItv.ofItvs (Itv.icc 0 2) (Itv.icc 1 3)], ⟨by unfold ThickItv.Member; decide +kernel, trivial⟩, ⟨⊥, by decide +kernel, rfl⟩, by decide +kernel⟩

/-- hypotheses of `C158_*` met -/
example : ThickItv.Checked (Itv.icc (0 : ℚ) 1) (Itv.icc 4 5) ∧
    ThickBox.inter (10 ^ 10) [ThickItv.ofItvs (Itv.icc (0 : ℚ) 1) (Itv.icc 4 5)] [ThickItv.ofItvs (Itv.icc 2 3) (Itv.icc 6 7)] = some [ThickItv.ofItvs (Itv.icc 2 3) (Itv.icc 4 5)] ∧
    ThickBox.subsetExt [ThickItv.ofItvs (Itv.icc (0 : ℚ) 1) (Itv.icc 4 5)] = ([Itv.icc 1 4], true) ∧
    ThickBox.innerBox [ThickItv.ofItvs (Itv.icc (0 : ℚ) 1) (Itv.icc 4 5), ThickItv.ofItvs (Itv.icc 0 2) (Itv.icc 1 3)] = some [(Itv.icc 1 4, false), (Itv.icc 1 2, true)] ∧
    (ThickBox.inter (10 ^ 10) [ThickItv.ofItvs (Itv.icc (0 : ℚ) 1) (Itv.icc 4 5)] [ThickItv.ofItvs (Itv.icc 6 7) (Itv.icc 8 9)]) = some [⟨⊥, ⊥⟩] := by
  decide +kernel

end Codac.Props
