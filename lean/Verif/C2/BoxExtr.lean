import Verif.C2.BoxProofs
import Mathlib.Tactic.Linarith
import Mathlib.Tactic.Tauto

/-!
# The boxes of codac2: selection of a component, bisection — proofs
-/

set_option linter.unusedSectionVars false

namespace Codac.Bx

variable {K : Type*} [Field K] [LinearOrder K] [IsStrictOrderedRing K]

/-- the test of the first loop -/
def betterW (min : Bool) (a b : K) : Prop := if min then a < b else a > b

/-- the test of the second loop -/
def betterR (min : Bool) (a b : K) : Prop := if min then a > b else a < b

/-- where a half line starts, once turned towards `+oo` -/
def reach (I : Itv K) : K := match I with
  | .mk none (some u) _ => -u
  | .mk (some l) none _ => l
  | _ => 0

/-- a half line -/
def isHalf (I : Itv K) : Bool := match I with
  | .mk none (some _) _ => true
  | .mk (some _) none _ => true
  | _ => false

theorem betterW_irrefl {min : Bool} {a : K} : ¬ betterW min a a := by cases min <;> simp [betterW]
theorem betterR_irrefl {min : Bool} {a : K} : ¬ betterR min a a := by cases min <;> simp [betterR]
theorem betterW_not {min : Bool} {a b : K} (h : betterW min a b) : ¬ betterW min b a := by cases min <;> simp_all [betterW, le_of_lt]
theorem betterR_not {min : Bool} {a b : K} (h : betterR min a b) : ¬ betterR min b a := by cases min <;> simp_all [betterR, le_of_lt]
theorem betterW_of {min : Bool} {a b c : K} (h : betterW min a b) (h' : ¬ betterW min c b) : betterW min a c := by
  cases min <;> simp_all [betterW] <;> linarith
theorem betterR_of {min : Bool} {a b c : K} (h : betterR min a b) (h' : ¬ betterR min c b) : betterR min a c := by
  cases min <;> simp_all [betterR] <;> linarith

theorem scan1_spec (min : Bool) (X : Box K) : ∀ (i : Nat) (d : Option K) (sel : Option Nat) (unb : Bool), (min = true ∨ ∀ I ∈ X, I.isUnbounded = false) →
    ∃ sel', scan1 min X i d sel unb = (sel', unb || X.any Itv.isUnbounded, i + X.length) ∧
    ((sel' = sel ∧ ∀ I ∈ X, I.isUnbounded = false → ∃ w, d = some w ∧ ¬ betterW min (width I) w) ∨
     ∃ k I, X[k]? = some I ∧ sel' = some (i + k) ∧ I.isUnbounded = false ∧ (∀ w, d = some w → betterW min (width I) w) ∧
      (∀ J ∈ X, J.isUnbounded = false → ¬ betterW min (width J) (width I)) ∧
      ∀ j < k, ∀ J, X[j]? = some J → J.isUnbounded = false → betterW min (width I) (width J)) := by
  induction X with
  | nil => intro i d sel unb _; exact ⟨sel, by simp [scan1], .inl ⟨rfl, by simp⟩⟩
  | cons I X ih =>
    intro i d sel unb h
    have hX : min = true ∨ ∀ I ∈ X, I.isUnbounded = false := h.imp id fun h J hJ => h J (List.mem_cons_of_mem _ hJ)
    unfold scan1
    by_cases hu : I.isUnbounded = true
    · have hm : min = true := by
        rcases h with h | h
        · exact h
        · rw [h I List.mem_cons_self] at hu; simp at hu
      rw [if_pos hu, if_neg (by simp [hm])]
      obtain ⟨sel', e, hs⟩ := ih (i + 1) d sel true hX
      refine ⟨sel', by rw [e]; simp [hu]; omega, ?_⟩
      rcases hs with ⟨hs, hw⟩ | ⟨k, I', hk, hs, hb, hd, hm', hf⟩
      · exact .inl ⟨hs, fun J hJ hJb => by
          rcases List.mem_cons.mp hJ with rfl | hJ
          · rw [hu] at hJb; simp at hJb
          · exact hw J hJ hJb⟩
      · refine .inr ⟨k + 1, I', by simpa using hk, by rw [hs]; congr 1; omega, hb, hd, fun J hJ hJb => ?_, fun j hj J hJ hJb => ?_⟩
        · rcases List.mem_cons.mp hJ with rfl | hJ
          · rw [hu] at hJb; simp at hJb
          · exact hm' J hJ hJb
        · cases j with
          | zero => simp at hJ; subst hJ; rw [hu] at hJb; simp at hJb
          | succ j => exact hf j (by omega) J (by simpa using hJ) hJb
    · have hu' : I.isUnbounded = false := by simpa using hu
      rw [if_neg hu]
      have ht : testW min d (width I) = true ↔ ∀ w, d = some w → betterW min (width I) w := by
        cases d with
        | none => simp [testW]
        | some w => cases min <;> simp [betterW, testW]
      by_cases hc : ∀ w, d = some w → betterW min (width I) w
      · rw [if_pos (ht.mpr hc)]
        obtain ⟨sel', e, hs⟩ := ih (i + 1) (some (width I)) (some i) unb hX
        refine ⟨sel', by rw [e]; simp [hu']; omega, .inr ?_⟩
        rcases hs with ⟨hs, hw⟩ | ⟨k, I', hk, hs, hb, hd, hm', hf⟩
        · refine ⟨0, I, rfl, hs, hu', hc, fun J hJ hJb => ?_, fun j hj => absurd hj (by omega)⟩
          rcases List.mem_cons.mp hJ with rfl | hJ
          · exact betterW_irrefl
          · obtain ⟨w, hw1, hw2⟩ := hw J hJ hJb
            cases hw1
            exact hw2
        · have hbI := hd _ rfl
          refine ⟨k + 1, I', by simpa using hk, by rw [hs]; congr 1; omega, hb, fun w hw => ?_, fun J hJ hJb => ?_, fun j hj J hJ hJb => ?_⟩
          · exact betterW_of hbI fun hn => betterW_not (hc w hw) hn
          · rcases List.mem_cons.mp hJ with rfl | hJ
            · exact betterW_not hbI
            · exact hm' J hJ hJb
          · cases j with
            | zero => simp at hJ; subst hJ; exact hbI
            | succ j => exact hf j (by omega) J (by simpa using hJ) hJb
      · rw [if_neg (fun h => hc (ht.mp h))]
        push Not at hc
        obtain ⟨w0, rfl, hw0⟩ := hc
        obtain ⟨sel', e, hs⟩ := ih (i + 1) (some w0) sel unb hX
        refine ⟨sel', by rw [e]; simp [hu']; omega, ?_⟩
        rcases hs with ⟨hs, hw⟩ | ⟨k, I', hk, hs, hb, hd, hm', hf⟩
        · exact .inl ⟨hs, fun J hJ hJb => by
            rcases List.mem_cons.mp hJ with rfl | hJ
            · exact ⟨w0, rfl, hw0⟩
            · exact hw J hJ hJb⟩
        · have hb0 : betterW min (width I') (width I) := betterW_of (hd w0 rfl) hw0
          refine .inr ⟨k + 1, I', by simpa using hk, by rw [hs]; congr 1; omega, hb, hd, fun J hJ hJb => ?_, fun j hj J hJ hJb => ?_⟩
          · rcases List.mem_cons.mp hJ with rfl | hJ
            · exact betterW_not hb0
            · exact hm' J hJ hJb
          · cases j with
            | zero => simp at hJ; subst hJ; exact hb0
            | succ j => exact hf j (by omega) J (by simpa using hJ) hJb

/-- the first loop stops at the first unbounded component when the largest one is sought -/
theorem scan1_break (X : Box K) : ∀ (i : Nat) (d : Option K) (sel : Option Nat) (unb : Bool), (∃ I ∈ X, I.isUnbounded = true) →
    ∃ sel' k I, scan1 false X i d sel unb = (sel', true, i + k) ∧ X[k]? = some I ∧ I.isUnbounded = true ∧ ∀ j < k, ∀ J, X[j]? = some J → J.isUnbounded = false := by
  induction X with
  | nil => intro i d sel unb h; simp at h
  | cons I X ih =>
    intro i d sel unb h
    unfold scan1
    by_cases hu : I.isUnbounded = true
    · rw [if_pos hu, if_pos (by simp)]
      exact ⟨sel, 0, I, rfl, rfl, hu, fun j hj => absurd hj (by omega)⟩
    · rw [if_neg hu]
      have h' : ∃ I ∈ X, I.isUnbounded = true := by
        obtain ⟨J, hJ, hJu⟩ := h
        rcases List.mem_cons.mp hJ with rfl | hJ
        · exact absurd hJu hu
        · exact ⟨J, hJ, hJu⟩
      have key : ∀ d sel, ∃ sel' k J, scan1 false X (i + 1) d sel unb = (sel', true, i + k) ∧ (I :: X)[k]? = some J ∧ J.isUnbounded = true ∧
          ∀ j < k, ∀ J, (I :: X)[j]? = some J → J.isUnbounded = false := by
        intro d sel
        obtain ⟨sel', k, J, e, hk, hJ, hf⟩ := ih (i + 1) d sel unb h'
        refine ⟨sel', k + 1, J, by rw [e]; congr 2; omega, by simpa using hk, hJ, fun j hj L hL => ?_⟩
        cases j with
        | zero => simp at hL; subst hL; simpa using hu
        | succ j => exact hf j (by omega) L (by simpa using hL)
      by_cases hc : testW false d (width I) = true
      · rw [if_pos hc]; exact key _ _
      · rw [if_neg hc]; exact key _ _

theorem scan2_spec (min : Bool) (X : Box K) : ∀ (i : Nat) (pt : Option K) (sel : Nat), (min = true ∨ ∀ I ∈ X, I ≠ ⊤) →
    (scan2 min X i pt sel = sel ∧ ∀ I ∈ X, isHalf I = true → ∃ p, pt = some p ∧ ¬ betterR min (reach I) p) ∨
    ∃ k I, X[k]? = some I ∧ scan2 min X i pt sel = i + k ∧ isHalf I = true ∧ (∀ p, pt = some p → betterR min (reach I) p) ∧
      ∀ J ∈ X, isHalf J = true → ¬ betterR min (reach J) (reach I) := by
  induction X with
  | nil => intro i pt sel _; exact .inl ⟨rfl, by simp⟩
  | cons I X ih =>
    intro i pt sel h
    have hX : min = true ∨ ∀ I ∈ X, I ≠ ⊤ := h.imp id fun h J hJ => h J (List.mem_cons_of_mem _ hJ)
    have skip : ∀ (e : scan2 min (I :: X) i pt sel = scan2 min X (i + 1) pt sel), (isHalf I = true → ∃ p, pt = some p ∧ ¬ betterR min (reach I) p) →
        (scan2 min (I :: X) i pt sel = sel ∧ ∀ J ∈ I :: X, isHalf J = true → ∃ p, pt = some p ∧ ¬ betterR min (reach J) p) ∨
        ∃ k J, (I :: X)[k]? = some J ∧ scan2 min (I :: X) i pt sel = i + k ∧ isHalf J = true ∧ (∀ p, pt = some p → betterR min (reach J) p) ∧
          ∀ L ∈ I :: X, isHalf L = true → ¬ betterR min (reach L) (reach J) := by
      intro e hI
      rw [e]
      rcases ih (i + 1) pt sel hX with ⟨h1, h2⟩ | ⟨k, J, hk, h1, h2, h3, h4⟩
      · refine .inl ⟨h1, fun J hJ hJh => ?_⟩
        rcases List.mem_cons.mp hJ with rfl | hJ
        · exact hI hJh
        · exact h2 J hJ hJh
      · refine .inr ⟨k + 1, J, by simpa using hk, by rw [h1]; omega, h2, h3, fun L hL hLh => ?_⟩
        rcases List.mem_cons.mp hL with rfl | hL
        · obtain ⟨p, hp, hn⟩ := hI hLh
          exact betterR_not (betterR_of (h3 p hp) hn)
        · exact h4 L hL hLh
    have take : (scan2 min (I :: X) i pt sel = scan2 min X (i + 1) (some (reach I)) i) → isHalf I = true → (∀ p, pt = some p → betterR min (reach I) p) →
        ∃ k J, (I :: X)[k]? = some J ∧ scan2 min (I :: X) i pt sel = i + k ∧ isHalf J = true ∧ (∀ p, pt = some p → betterR min (reach J) p) ∧
          ∀ L ∈ I :: X, isHalf L = true → ¬ betterR min (reach L) (reach J) := by
      intro e hh hp
      rw [e]
      rcases ih (i + 1) (some (reach I)) i hX with ⟨h1, h2⟩ | ⟨k, J, hk, h1, h2, h3, h4⟩
      · refine ⟨0, I, rfl, h1, hh, hp, fun L hL hLh => ?_⟩
        rcases List.mem_cons.mp hL with rfl | hL
        · exact betterR_irrefl
        · obtain ⟨p, hp, hn⟩ := h2 L hL hLh
          cases hp
          exact hn
      · have hb := h3 _ rfl
        refine ⟨k + 1, J, by simpa using hk, by rw [h1]; omega, h2, fun p hp' => betterR_of hb fun hn => betterR_not (hp p hp') hn, fun L hL hLh => ?_⟩
        rcases List.mem_cons.mp hL with rfl | hL
        · exact betterR_not hb
        · exact h4 L hL hLh
    have test : ∀ a : K, testR min pt a = true ↔ ∀ p, pt = some p → betterR min a p := by
      intro a
      cases pt with
      | none => simp [testR]
      | some w => cases min <;> simp [betterR, testR]
    match I, skip, take with
    | .empty, skip, _ => exact skip rfl (by simp [isHalf])
    | .mk (some a) (some b) _, skip, _ => exact skip rfl (by simp [isHalf])
    | .mk none none _, skip, _ =>
      have hm : min = true := by
        rcases h with h | h
        · exact h
        · exact absurd rfl (h _ List.mem_cons_self)
      exact skip (by simp [scan2, hm]) (by simp [isHalf])
    | .mk none (some u) _, skip, take =>
      by_cases hc : ∀ p, pt = some p → betterR min (-u) p
      · exact .inr (take (by rw [scan2, if_pos ((test (-u)).mpr hc)]; rfl) rfl hc)
      · refine skip (by rw [scan2, if_neg (fun h => hc ((test (-u)).mp h))]) fun _ => ?_
        push Not at hc
        exact hc
    | .mk (some l) none _, skip, take =>
      by_cases hc : ∀ p, pt = some p → betterR min l p
      · exact .inr (take (by rw [scan2, if_pos ((test l).mpr hc)]; rfl) rfl hc)
      · refine skip (by rw [scan2, if_neg (fun h => hc ((test l).mp h))]) fun _ => ?_
        push Not at hc
        exact hc

/-- the second loop stops at the first whole line when the largest component is sought -/
theorem scan2_top (X : Box K) : ∀ (i : Nat) (pt : Option K) (sel : Nat), ⊤ ∈ X → ∃ k, X[k]? = some ⊤ ∧ scan2 false X i pt sel = i + k := by
  induction X with
  | nil => intro i pt sel h; simp at h
  | cons I X ih =>
    intro i pt sel h
    by_cases hI : I = ⊤
    · subst hI
      exact ⟨0, rfl, rfl⟩
    · have hX : ⊤ ∈ X := by
        rcases List.mem_cons.mp h with h | h
        · exact absurd h.symm hI
        · exact h
      have key : ∀ pt sel, ∃ k, (I :: X)[k]? = some ⊤ ∧ scan2 false X (i + 1) pt sel = i + k := by
        intro pt sel
        obtain ⟨k, hk, e⟩ := ih (i + 1) pt sel hX
        exact ⟨k + 1, by simpa using hk, by rw [e]; omega⟩
      match I, hI with
      | .empty, _ => exact key _ _
      | .mk (some a) (some b) _, _ => exact key _ _
      | .mk none none _, hI => exact absurd rfl hI
      | .mk none (some u) _, _ =>
        rw [scan2]
        split_ifs
        · exact key _ _
        · exact key _ _
      | .mk (some l) none _, _ =>
        rw [scan2]
        split_ifs
        · exact key _ _
        · exact key _ _

theorem half_or_top {I : Itv K} (h : I.isUnbounded = true) : isHalf I = true ∨ I = ⊤ := by
  match I, h with
  | .mk none none _, _ => exact .inr rfl
  | .mk none (some u) _, _ => exact .inl rfl
  | .mk (some l) none _, _ => exact .inl rfl

theorem unbounded_of_half {I : Itv K} (h : isHalf I = true) : I.isUnbounded = true := by
  match I, h with
  | .mk none (some u) _, _ => rfl
  | .mk (some l) none _, _ => rfl

theorem largest_bounded {X : Box K} (h0 : isEmpty X = false) (hne : X ≠ []) (hb : ∀ I ∈ X, I.isUnbounded = false) :
    ∃ i I, largestIndex X = some i ∧ X[i]? = some I ∧ (∀ J ∈ X, width J ≤ width I) ∧ ∀ j < i, ∀ J, X[j]? = some J → width J < width I := by
  obtain ⟨sel', e, hs⟩ := scan1_spec false X 0 none none false (.inr hb)
  have hu : X.any Itv.isUnbounded = false := by
    rw [List.any_eq_false]; intro I hI; simp [hb I hI]
  rw [hu] at e
  rcases hs with ⟨-, hw⟩ | ⟨k, I, hk, hs, -, -, hm, hf⟩
  · obtain ⟨I, hI⟩ := List.exists_mem_of_ne_nil X hne
    obtain ⟨w, hw, -⟩ := hw I hI (hb I hI)
    cases hw
  · refine ⟨k, I, ?_, hk, fun J hJ => ?_, fun j hj J hJ => ?_⟩
    · unfold largestIndex extrIndex
      rw [if_neg (by simp [h0]), e]
      simp [hs]
    · simpa [betterW] using hm J hJ (hb J hJ)
    · simpa [betterW] using hf j hj J hJ (hb J (List.mem_of_getElem? hJ))

theorem largest_unbounded {X : Box K} (h0 : isEmpty X = false) (hb : ∃ I ∈ X, I.isUnbounded = true) :
    ∃ i I, largestIndex X = some i ∧ X[i]? = some I ∧ I.isUnbounded = true ∧ (⊤ ∈ X → I = ⊤) ∧ (⊤ ∉ X → ∀ J ∈ X, J.isUnbounded = true → reach I ≤ reach J) := by
  obtain ⟨sel', k, I, e, hk, hI, hf⟩ := scan1_break X 0 none none false hb
  have hidx : largestIndex X = some (scan2 false (X.drop k) k none k) := by
    unfold largestIndex extrIndex
    rw [if_neg (by simp [h0]), e]
    simp
  have hdrop : ∀ {J : Itv K}, J ∈ X → J.isUnbounded = true → J ∈ X.drop k := by
    intro J hJ hJu
    obtain ⟨j, hj⟩ := List.getElem?_of_mem hJ
    have hkj : k ≤ j := by
      by_contra hlt
      rw [hf j (by omega) J hj] at hJu
      simp at hJu
    refine List.mem_of_getElem? (i := j - k) ?_
    rw [List.getElem?_drop, show k + (j - k) = j by omega, hj]
  by_cases ht : ⊤ ∈ X
  · obtain ⟨m, hm, e2⟩ := scan2_top (X.drop k) k none k (hdrop ht rfl)
    rw [List.getElem?_drop] at hm
    exact ⟨k + m, ⊤, by rw [hidx, e2], hm, rfl, fun _ => rfl, fun h => absurd ht h⟩
  · have hnt : ∀ J ∈ X.drop k, J ≠ ⊤ := fun J hJ e => ht (e ▸ List.mem_of_mem_drop hJ)
    have hIk : I ∈ X.drop k := hdrop (List.mem_of_getElem? hk) hI
    rcases scan2_spec false (X.drop k) k none k (.inr hnt) with ⟨-, h2⟩ | ⟨m, J, hm, h1, h2, -, h4⟩
    · obtain ⟨p, hp, -⟩ := h2 I hIk ((half_or_top hI).resolve_right (hnt I hIk))
      cases hp
    · rw [List.getElem?_drop] at hm
      refine ⟨k + m, J, by rw [hidx, h1], hm, unbounded_of_half h2, fun h => absurd h ht, fun _ L hL hLu => ?_⟩
      have hL' := hdrop hL hLu
      simpa [betterR] using h4 L hL' ((half_or_top hLu).resolve_right (hnt L hL'))

theorem thinnest_bounded {X : Box K} (h0 : isEmpty X = false) (hb : ∃ I ∈ X, I.isUnbounded = false) :
    ∃ i I, thinnestIndex X = some i ∧ X[i]? = some I ∧ I.isUnbounded = false ∧ (∀ J ∈ X, J.isUnbounded = false → width I ≤ width J) ∧
      ∀ j < i, ∀ J, X[j]? = some J → J.isUnbounded = false → width I < width J := by
  obtain ⟨sel', e, hs⟩ := scan1_spec true X 0 none none false (.inl rfl)
  rcases hs with ⟨-, hw⟩ | ⟨k, I, hk, hs, hI, -, hm, hf⟩
  · obtain ⟨I, hI, hIb⟩ := hb
    obtain ⟨w, hw, -⟩ := hw I hI hIb
    cases hw
  · refine ⟨k, I, ?_, hk, hI, fun J hJ hJb => ?_, fun j hj J hJ hJb => ?_⟩
    · unfold thinnestIndex extrIndex
      rw [if_neg (by simp [h0]), e]
      simp [hs]
    · simpa [betterW] using hm J hJ hJb
    · simpa [betterW] using hf j hj J hJ hJb

theorem thinnest_unbounded {X : Box K} (h0 : isEmpty X = false) (hne : X ≠ []) (hb : ∀ I ∈ X, I.isUnbounded = true) :
    ∃ i I, thinnestIndex X = some i ∧ X[i]? = some I ∧ ((∃ J ∈ X, J ≠ ⊤) → I ≠ ⊤ ∧ ∀ J ∈ X, J ≠ ⊤ → reach J ≤ reach I) := by
  obtain ⟨sel', e, hs⟩ := scan1_spec true X 0 none none false (.inl rfl)
  have hu : X.any Itv.isUnbounded = true := by
    obtain ⟨I, hI⟩ := List.exists_mem_of_ne_nil X hne
    exact List.any_eq_true.mpr ⟨I, hI, hb I hI⟩
  rw [hu] at e
  have hsel : sel' = none := by
    rcases hs with ⟨hs, -⟩ | ⟨k, I, hk, -, hI, -⟩
    · exact hs
    · rw [hb I (List.mem_of_getElem? hk)] at hI; simp at hI
  have hidx : thinnestIndex X = some (scan2 true X 0 none 0) := by
    unfold thinnestIndex extrIndex
    rw [if_neg (by simp [h0]), e, hsel]
    simp
  rcases scan2_spec true X 0 none 0 (.inl rfl) with ⟨h1, h2⟩ | ⟨m, J, hm, h1, h2, -, h4⟩
  · obtain ⟨I, hI⟩ : ∃ I, X[0]? = some I := by
      cases X with
      | nil => exact absurd rfl hne
      | cons I X => exact ⟨I, rfl⟩
    refine ⟨0, I, by rw [hidx, h1], hI, ?_⟩
    rintro ⟨J, hJ, hJt⟩
    obtain ⟨p, hp, -⟩ := h2 J hJ ((half_or_top (hb J hJ)).resolve_right hJt)
    cases hp
  · refine ⟨m, J, by rw [hidx, h1, Nat.zero_add], hm, fun _ => ⟨?_, fun L hL hLt => ?_⟩⟩
    · rintro rfl
      simp [isHalf, Itv.top_eq, Itv.all] at h2
    · simpa [betterR] using h4 L hL ((half_or_top (hb L hL)).resolve_right hLt)

/-! ### Bisection -/

theorem inBox_set {X : Box K} {i : Nat} {I J : Itv K} (hI : X[i]? = some I) {v : List K} :
    InBox v (X.set i J) ↔ (v.length = X.length ∧ (∀ (j : Nat) (x : K) (L : Itv K), j ≠ i → v[j]? = some x → X[j]? = some L → x ∈ L) ∧ ∀ x, v[i]? = some x → x ∈ J) := by
  induction X generalizing i v with
  | nil => simp at hI
  | cons L X ih =>
    cases i with
    | zero =>
      cases v with
      | nil => simp [InBox]
      | cons x v =>
        simp only [List.set_cons_zero, InBox, List.forall₂_cons, List.length_cons, Nat.add_right_cancel_iff, List.getElem?_cons_zero, Option.some.injEq, forall_eq']
        constructor
        · rintro ⟨h1, h2⟩
          refine ⟨h2.length_eq, fun j y M hj hy hM => ?_, h1⟩
          cases j with
          | zero => exact absurd rfl hj
          | succ j =>
            simp only [List.getElem?_cons_succ] at hy hM
            exact List.forall₂_iff_get.mp h2 |>.2 j (List.getElem?_eq_some_iff.mp hy).1 (List.getElem?_eq_some_iff.mp hM).1 |> fun h => by
              obtain ⟨a, rfl⟩ := List.getElem?_eq_some_iff.mp hy
              obtain ⟨b, rfl⟩ := List.getElem?_eq_some_iff.mp hM
              exact h
        · rintro ⟨h1, h2, h3⟩
          refine ⟨h3, List.forall₂_iff_get.mpr ⟨h1, fun j a b => ?_⟩⟩
          exact h2 (j + 1) _ _ (by omega) (List.getElem?_eq_getElem (Nat.succ_lt_succ a)) (List.getElem?_eq_getElem (Nat.succ_lt_succ b))
    | succ i =>
      cases v with
      | nil => simp [InBox]
      | cons x v =>
        have := ih (i := i) (v := v) (by simpa using hI)
        simp only [List.set_cons_succ, InBox, List.forall₂_cons, List.length_cons, Nat.add_right_cancel_iff, List.getElem?_cons_succ] at this ⊢
        rw [this]
        constructor
        · rintro ⟨h1, h2, h3, h4⟩
          refine ⟨h2, fun j y M hj hy hM => ?_, h4⟩
          cases j with
          | zero => simp at hy hM; subst hy hM; exact h1
          | succ j => exact h3 j y M (by omega) (by simpa using hy) (by simpa using hM)
        · rintro ⟨h2, h3, h4⟩
          exact ⟨h3 0 x L (by omega) rfl rfl, h2, fun j y M hj hy hM => h3 (j + 1) y M (by omega) (by simpa using hy) (by simpa using hM), h4⟩

theorem set_self {X : Box K} {i : Nat} {I : Itv K} (hI : X[i]? = some I) : X.set i I = X := by
  obtain ⟨h, rfl⟩ := List.getElem?_eq_some_iff.mp hI
  exact List.set_getElem_self h

/-- the cut of IBEX is strictly inside the intervals that can be bisected -/
def Cut.Ok (c : Cut K) : Prop := ∀ I, c.bis I = true → ∃ a b, a ∈ I ∧ b ∈ I ∧ a < c.at' I ∧ c.at' I < b

theorem bisect_spec {c : Cut K} {X A B : Box K} (h : bisect c X = some (A, B)) :
    ∃ i I, largestIndex X = some i ∧ X[i]? = some I ∧ c.bis I = true ∧ A.length = X.length ∧ B.length = X.length ∧
      (∀ v, InBox v A ↔ InBox v X ∧ ∀ x, v[i]? = some x → x ≤ c.at' I) ∧ (∀ v, InBox v B ↔ InBox v X ∧ ∀ x, v[i]? = some x → c.at' I ≤ x) ∧
      A = X.set i (I ⊓ Itv.mk none (some (c.at' I)) trivial) ∧ B = X.set i (I ⊓ Itv.mk (some (c.at' I)) none trivial) := by
  unfold bisect at h
  obtain ⟨i, hi, h⟩ := Option.bind_eq_some_iff.mp h
  obtain ⟨I, hI, h⟩ := Option.bind_eq_some_iff.mp h
  by_cases hb : c.bis I = true
  · rw [if_pos hb] at h
    cases h
    have key : ∀ (J : Itv K) (v : List K), InBox v (X.set i (I ⊓ J)) ↔ InBox v X ∧ ∀ x, v[i]? = some x → x ∈ J := by
      intro J v
      conv_rhs => rw [← set_self hI]
      rw [inBox_set hI, inBox_set hI]
      constructor
      · rintro ⟨h1, h2, h3⟩
        exact ⟨⟨h1, h2, fun x hx => (Itv.mem_inf.mp (h3 x hx)).1⟩, fun x hx => (Itv.mem_inf.mp (h3 x hx)).2⟩
      · rintro ⟨⟨h1, h2, h3⟩, h4⟩
        exact ⟨h1, h2, fun x hx => Itv.mem_inf.mpr ⟨h3 x hx, h4 x hx⟩⟩
    refine ⟨i, I, hi, hI, hb, by simp, by simp, fun v => ?_, fun v => ?_, rfl, rfl⟩
    · rw [key]
      exact and_congr_right fun _ => forall₂_congr fun x _ => ⟨fun h => h.2, fun h => ⟨trivial, h⟩⟩
    · rw [key]
      exact and_congr_right fun _ => forall₂_congr fun x _ => ⟨fun h => h.1, fun h => ⟨h, trivial⟩⟩
  · rw [if_neg hb] at h
    cases h

end Codac.Bx
