import Verif.Sivia.Model
import Mathlib.Tactic.Linarith

/-!
# SIVIA: loop invariants, cover and classification
-/

set_option linter.unusedSectionVars false

namespace Codac

variable {K : Type*} [Field K] [LinearOrder K] [IsStrictOrderedRing K]

namespace Sivia

/-- a point in one of the boxes of a list -/
def InSome (v : List K) (l : List (Box K)) : Prop := ∃ P ∈ l, InBox v P

theorem InSome.append_left {v : List K} {l : List (Box K)} (h : InSome v l) (m : List (Box K)) : InSome v (l ++ m) := by
  obtain ⟨P, hP, h⟩ := h; exact ⟨P, List.mem_append_left _ hP, h⟩
theorem InSome.append_right {v : List K} {l : List (Box K)} (h : InSome v l) (m : List (Box K)) : InSome v (m ++ l) := by
  obtain ⟨P, hP, h⟩ := h; exact ⟨P, List.mem_append_right _ hP, h⟩
theorem InSome.reverse {v : List K} {l : List (Box K)} (h : InSome v l) : InSome v l.reverse := by
  obtain ⟨P, hP, h⟩ := h; exact ⟨P, List.mem_reverse.mpr hP, h⟩

section loop
variable {step : Box K → Step K} {small : Box K → Bool} {split : Box K → List (Box K)}

/-- predicates on the boxes of the stack and of the results -/
theorem loop_all {Q Pi Po Pu : Box K → Prop}
    (hi : ∀ X, Q X → ∀ P ∈ (step X).inn, Pi P) (ho : ∀ X, Q X → ∀ P ∈ (step X).out, Po P)
    (hu : ∀ X Z, Q X → (step X).rem = some Z → small Z = true → Pu Z)
    (hq : ∀ X Z, Q X → (step X).rem = some Z → small Z = false → ∀ P ∈ split Z, Q P)
    {n : Nat} {q : List (Box K)} {r r' : SivRes K} (h : loop step small split n q r = some r')
    (hQ : ∀ X ∈ q, Q X) (h1 : ∀ P ∈ r.inn, Pi P) (h2 : ∀ P ∈ r.out, Po P) (h3 : ∀ P ∈ r.unk, Pu P) :
    (∀ P ∈ r'.inn, Pi P) ∧ (∀ P ∈ r'.out, Po P) ∧ (∀ P ∈ r'.unk, Pu P) := by
  induction n generalizing q r with
  | zero =>
    cases q with
    | nil => simp only [loop, Option.some.injEq] at h; subst h; exact ⟨h1, h2, h3⟩
    | cons X q => simp [loop] at h
  | succ n ih =>
    cases q with
    | nil => simp only [loop, Option.some.injEq] at h; subst h; exact ⟨h1, h2, h3⟩
    | cons X q =>
      have hX : Q X := hQ X (by simp)
      have hQ' : ∀ Y ∈ q, Q Y := fun Y hY => hQ Y (List.mem_cons_of_mem _ hY)
      have h1' : ∀ P ∈ (step X).inn.reverse ++ r.inn, Pi P := by
        intro P hP
        rcases List.mem_append.mp hP with hP | hP
        · exact hi X hX P (List.mem_reverse.mp hP)
        · exact h1 P hP
      have h2' : ∀ P ∈ (step X).out.reverse ++ r.out, Po P := by
        intro P hP
        rcases List.mem_append.mp hP with hP | hP
        · exact ho X hX P (List.mem_reverse.mp hP)
        · exact h2 P hP
      rw [loop] at h
      dsimp only at h
      cases hr : (step X).rem with
      | none => rw [hr] at h; exact ih h hQ' h1' h2' h3
      | some Z =>
        rw [hr] at h
        dsimp only at h
        cases hs : small Z with
        | true =>
          rw [hs, if_pos rfl] at h
          refine ih h hQ' h1' h2' ?_
          intro P hP
          rcases List.mem_cons.mp hP with rfl | hP
          · exact hu X _ hX hr hs
          · exact h3 P hP
        | false =>
          rw [hs, if_neg (by simp)] at h
          refine ih h ?_ h1' h2' h3
          intro P hP
          rcases List.mem_append.mp hP with hP | hP
          · exact hQ' P hP
          · exact hq X Z hX hr hs P hP

/-- a point which is, for each box of the stack containing it, either in the results of the box or in its remaining part, ends in the
results; `wi`, `wo`: which of the lists `IN`, `OUT` are allowed -/
theorem loop_cover {Q : Box K → Prop} {wi wo : Prop} {v : List K}
    (hs : ∀ X, Q X → InBox v X → (wi ∧ InSome v (step X).inn) ∨ (wo ∧ InSome v (step X).out) ∨ ∃ Z, (step X).rem = some Z ∧ InBox v Z)
    (hsp : ∀ X Z, Q X → (step X).rem = some Z → InBox v Z → InSome v (split Z))
    (hq : ∀ X Z, Q X → (step X).rem = some Z → small Z = false → ∀ P ∈ split Z, Q P)
    {n : Nat} {q : List (Box K)} {r r' : SivRes K} (h : loop step small split n q r = some r') (hQ : ∀ X ∈ q, Q X)
    (hv : InSome v q ∨ (wi ∧ InSome v r.inn) ∨ (wo ∧ InSome v r.out) ∨ InSome v r.unk) :
    (wi ∧ InSome v r'.inn) ∨ (wo ∧ InSome v r'.out) ∨ InSome v r'.unk := by
  induction n generalizing q r with
  | zero =>
    cases q with
    | nil =>
      simp only [loop, Option.some.injEq] at h; subst h
      rcases hv with hv | hv
      · obtain ⟨P, hP, _⟩ := hv; simp at hP
      · exact hv
    | cons X q => simp [loop] at h
  | succ n ih =>
    cases q with
    | nil =>
      simp only [loop, Option.some.injEq] at h; subst h
      rcases hv with hv | hv
      · obtain ⟨P, hP, _⟩ := hv; simp at hP
      · exact hv
    | cons X q =>
      have hX : Q X := hQ X (by simp)
      have hQ' : ∀ Y ∈ q, Q Y := fun Y hY => hQ Y (List.mem_cons_of_mem _ hY)
      -- where the point is after the step
      have key : InSome v q ∨ (wi ∧ InSome v ((step X).inn.reverse ++ r.inn)) ∨ (wo ∧ InSome v ((step X).out.reverse ++ r.out)) ∨
          InSome v r.unk ∨ ∃ Z, (step X).rem = some Z ∧ InBox v Z := by
        rcases hv with ⟨P, hP, hv⟩ | ⟨hw, hv⟩ | ⟨hw, hv⟩ | hv
        · rcases List.mem_cons.mp hP with rfl | hP
          · rcases hs _ hX hv with ⟨hw, h⟩ | ⟨hw, h⟩ | h
            · exact .inr (.inl ⟨hw, h.reverse.append_left _⟩)
            · exact .inr (.inr (.inl ⟨hw, h.reverse.append_left _⟩))
            · exact .inr (.inr (.inr (.inr h)))
          · exact .inl ⟨P, hP, hv⟩
        · exact .inr (.inl ⟨hw, hv.append_right _⟩)
        · exact .inr (.inr (.inl ⟨hw, hv.append_right _⟩))
        · exact .inr (.inr (.inr (.inl hv)))
      rw [loop] at h
      dsimp only at h
      cases hr : (step X).rem with
      | none =>
        rw [hr] at h
        refine ih h hQ' ?_
        rcases key with k | k | k | k | ⟨Z, hZ, _⟩
        · exact .inl k
        · exact .inr (.inl k)
        · exact .inr (.inr (.inl k))
        · exact .inr (.inr (.inr k))
        · rw [hr] at hZ; cases hZ
      | some Z =>
        rw [hr] at h
        dsimp only at h
        cases hsm : small Z with
        | true =>
          rw [hsm, if_pos rfl] at h
          refine ih h hQ' ?_
          rcases key with k | k | k | k | ⟨Z', hZ', hin⟩
          · exact .inl k
          · exact .inr (.inl k)
          · exact .inr (.inr (.inl k))
          · obtain ⟨P, hP, k⟩ := k
            exact .inr (.inr (.inr ⟨P, List.mem_cons_of_mem _ hP, k⟩))
          · rw [hr, Option.some.injEq] at hZ'; subst hZ'
            exact .inr (.inr (.inr ⟨Z, by simp, hin⟩))
        | false =>
          rw [hsm, if_neg (by simp)] at h
          refine ih h ?_ ?_
          · intro P hP
            rcases List.mem_append.mp hP with hP | hP
            · exact hQ' P hP
            · exact hq X Z hX hr hsm P hP
          · rcases key with k | k | k | k | ⟨Z', hZ', hin⟩
            · exact .inl (k.append_left _)
            · exact .inr (.inl k)
            · exact .inr (.inr (.inl k))
            · exact .inr (.inr (.inr k))
            · rw [hr, Option.some.injEq] at hZ'; subst hZ'
              exact .inl ((hsp X Z hX hr hin).append_right _)

/-- more iterations do not change the result -/
theorem loop_mono {n m : Nat} (hnm : n ≤ m) {q : List (Box K)} {r r' : SivRes K} (h : loop step small split n q r = some r') :
    loop step small split m q r = some r' := by
  induction n generalizing m q r with
  | zero =>
    cases q with
    | nil => cases m <;> simpa [loop] using h
    | cons X q => simp [loop] at h
  | succ n ih =>
    obtain ⟨m, rfl⟩ := Nat.exists_eq_add_of_le' (Nat.one_le_iff_ne_zero.mpr (by omega : m ≠ 0))
    cases q with
    | nil => simpa [loop] using h
    | cons X q =>
      rw [loop] at h ⊢
      dsimp only at h ⊢
      cases hr : (step X).rem with
      | none => rw [hr] at h; exact ih (by omega) h
      | some Z =>
        rw [hr] at h
        dsimp only at h ⊢
        cases hsm : small Z with
        | true => rw [hsm, if_pos rfl] at h; rw [if_pos rfl]; exact ih (by omega) h
        | false => rw [hsm, if_neg (by simp)] at h; rw [if_neg (by simp)]; exact ih (by omega) h

/-- termination, from a weight of the boxes which decreases at each bisection -/
theorem loop_total {Q : Box K → Prop} {rank : Box K → Nat}
    (hq : ∀ X Z, Q X → (step X).rem = some Z → small Z = false →
      ∃ A B, split Z = [A, B] ∧ Q A ∧ Q B ∧ rank A < rank X ∧ rank B < rank X)
    {n : Nat} {q : List (Box K)} {r : SivRes K} (hQ : ∀ X ∈ q, Q X)
    (hn : (q.map fun X => 2 ^ (rank X + 1) - 1).sum ≤ n) : ∃ r', loop step small split n q r = some r' := by
  induction n generalizing q r with
  | zero =>
    cases q with
    | nil => exact ⟨r, rfl⟩
    | cons X q =>
      exfalso
      simp only [List.map_cons, List.sum_cons] at hn
      have : 2 ^ 1 ≤ 2 ^ (rank X + 1) := Nat.pow_le_pow_right (by norm_num) (by omega)
      omega
  | succ n ih =>
    cases q with
    | nil => exact ⟨r, rfl⟩
    | cons X q =>
      have hX : Q X := hQ X (by simp)
      have hQ' : ∀ Y ∈ q, Q Y := fun Y hY => hQ Y (List.mem_cons_of_mem _ hY)
      simp only [List.map_cons, List.sum_cons] at hn
      have h2 : 2 ^ 1 ≤ 2 ^ (rank X + 1) := Nat.pow_le_pow_right (by norm_num) (by omega)
      rw [loop]
      dsimp only
      cases hr : (step X).rem with
      | none => exact ih hQ' (by omega)
      | some Z =>
        dsimp only
        cases hsm : small Z with
        | true => rw [if_pos rfl]; exact ih hQ' (by omega)
        | false =>
          rw [if_neg (by simp)]
          obtain ⟨A, B, hAB, hA, hB, rA, rB⟩ := hq X Z hX hr hsm
          rw [hAB]
          refine ih ?_ ?_
          · intro P hP
            rcases List.mem_append.mp hP with hP | hP
            · exact hQ' P hP
            · simp only [List.mem_cons, List.not_mem_nil, or_false] at hP
              rcases hP with rfl | rfl
              · exact hA
              · exact hB
          · simp only [List.map_append, List.sum_append, List.map_cons, List.map_nil, List.sum_cons, List.sum_nil, Nat.add_zero]
            have ha : 2 ^ (rank A + 1) ≤ 2 ^ rank X := Nat.pow_le_pow_right (by norm_num) (by omega)
            have hb : 2 ^ (rank B + 1) ≤ 2 ^ rank X := Nat.pow_le_pow_right (by norm_num) (by omega)
            have hp : 1 ≤ 2 ^ (rank A + 1) := Nat.one_le_two_pow
            have hp' : 1 ≤ 2 ^ (rank B + 1) := Nat.one_le_two_pow
            rw [pow_succ] at hn h2
            omega

end loop

/-! ### Bisection of the first components -/

theorem boxLe_take {X Y : Box K} (h : BoxLe X Y) (n : Nat) : BoxLe (X.take n) (Y.take n) := List.forall₂_take n h
theorem boxLe_drop {X Y : Box K} (h : BoxLe X Y) (n : Nat) : BoxLe (X.drop n) (Y.drop n) := List.forall₂_drop n h

theorem splitXY_le {bis : Box K → Box K × Box K} (hb : IsBis bis) {x0 y0 Z : Box K} (h0 : x0 ≠ []) (hZ : BoxLe Z (x0 ++ y0)) :
    ∀ P ∈ splitXY bis x0.length y0 Z, BoxLe P (x0 ++ y0) := by
  have ht : BoxLe (Z.take x0.length) x0 := by simpa using boxLe_take hZ x0.length
  have hne : Z.take x0.length ≠ [] := by
    intro h; rw [h] at ht; cases ht; exact h0 rfl
  intro P hP
  simp only [splitXY, List.mem_cons, List.not_mem_nil, or_false] at hP
  rcases hP with rfl | rfl
  · exact ((hb.le₁ _ hne).trans ht).append (BoxLe.refl _)
  · exact ((hb.le₂ _ hne).trans ht).append (BoxLe.refl _)

theorem splitXY_cover {bis : Box K → Box K × Box K} (hb : IsBis bis) {x0 y0 Z : Box K} (h0 : x0 ≠ []) (hZ : BoxLe Z (x0 ++ y0))
    {v : List K} (hv : InBox v Z) : InSome v (splitXY bis x0.length y0 Z) := by
  have ht : BoxLe (Z.take x0.length) x0 := by simpa using boxLe_take hZ x0.length
  have hd : BoxLe (Z.drop x0.length) y0 := by simpa using boxLe_drop hZ x0.length
  have hne : Z.take x0.length ≠ [] := by
    intro h; rw [h] at ht; cases ht; exact h0 rfl
  rw [← List.take_append_drop x0.length Z] at hv
  obtain ⟨h1, h2⟩ := inBox_split hv
  rw [← List.take_append_drop (Z.take x0.length).length v]
  rcases hb.cover _ _ hne h1 with h | h
  · exact ⟨_, by simp [splitXY], h.append (h2.of_le hd)⟩
  · exact ⟨_, by simp [splitXY], h.append (h2.of_le hd)⟩

/-! ### Interior -/

end Sivia

theorem Itv.InInt.of_le {a : K} {I J : Itv K} (h : I.InInt a) (hle : I ≤ J) : J.InInt a := by
  cases I with
  | empty => exact h.elim
  | mk lo hi p =>
    cases J with
    | empty => exact (Itv.not_mk_le_empty hle).elim
    | mk lo' hi' p' =>
      rw [Itv.le_mk_mk] at hle
      obtain ⟨h1, h2⟩ := hle
      constructor
      · intro l hl
        subst hl
        cases lo with
        | none => simp [Itv.loLeLo] at h1
        | some m => exact lt_of_le_of_lt h1 (h.1 m rfl)
      · intro l hl
        subst hl
        cases hi with
        | none => simp [Itv.hiLeHi] at h2
        | some m => exact lt_of_lt_of_le (h.2 m rfl) h2

theorem Itv.InInt.mem {a : K} {I : Itv K} (h : I.InInt a) : a ∈ I := by
  cases I with
  | empty => exact h.elim
  | mk lo hi p =>
    constructor
    · cases lo with
      | none => trivial
      | some l => exact (h.1 l rfl).le
    · cases hi with
      | none => trivial
      | some l => exact (h.2 l rfl).le

theorem InInterior.of_le {v : List K} {X Y : Box K} (h : InInterior v X) (hle : BoxLe X Y) : InInterior v Y := by
  unfold InInterior BoxLe at *
  induction h generalizing Y with
  | nil => cases hle; exact .nil
  | cons h1 _ ih =>
    cases hle with
    | cons h2 h3 => exact .cons (h1.of_le h2) (ih h3)

theorem InInterior.inBox {v : List K} {X : Box K} (h : InInterior v X) : InBox v X := List.Forall₂.imp (fun _ _ h => h.mem) h

/-! ### Two boxes covering a box meet -/

theorem Itv.meet_of_cover {I J L : Itv K} (hJ : J ≠ ⊥) (hL : L ≠ ⊥) (hJI : J ≤ I) (hLI : L ≤ I)
    (hc : ∀ t ∈ I, t ∈ J ∨ t ∈ L) : ∃ t, t ∈ J ∧ t ∈ L := by
  by_contra hno
  push Not at hno
  obtain ⟨a, ha⟩ := Itv.exists_mem hJ
  obtain ⟨b, hb⟩ := Itv.exists_mem hL
  -- symmetric in J and L
  have key : ∀ {J L : Itv K} {a b : K}, a ∈ J → b ∈ L → a < b → J ≤ I → L ≤ I → (∀ t ∈ I, t ∈ J ∨ t ∈ L) →
      (∀ t, t ∈ J → ¬ t ∈ L) → False := by
    intro J L a b ha hb hab hJI hLI hc hno
    cases J with
    | empty => exact ha.elim
    | mk lo hi p =>
      cases L with
      | empty => exact hb.elim
      | mk lo' hi' p' =>
        have haL := hno a ha
        have hbJ : ¬ b ∈ Itv.mk lo hi p := fun h => hno b h hb
        cases hi with
        | none =>
          refine hbJ ⟨?_, trivial⟩
          cases lo with
          | none => trivial
          | some l => exact le_trans ha.1 hab.le
        | some h =>
          have hbh : h < b := by
            by_contra hle
            refine hbJ ⟨?_, not_lt.mp hle⟩
            cases lo with
            | none => trivial
            | some l => exact le_trans ha.1 hab.le
          cases lo' with
          | none =>
            refine haL ⟨trivial, ?_⟩
            cases hi' with
            | none => trivial
            | some l => exact le_trans hab.le hb.2
          | some l =>
            have hal : a < l := by
              by_contra hle
              refine haL ⟨not_lt.mp hle, ?_⟩
              cases hi' with
              | none => trivial
              | some l => exact le_trans hab.le hb.2
            have hhl : h < l := by
              by_contra hle
              refine hno l ⟨?_, not_lt.mp hle⟩ ⟨le_refl _, ?_⟩
              · cases lo with
                | none => trivial
                | some l => exact le_trans ha.1 hal.le
              · cases hi' with
                | none => trivial
                | some l' => exact le_trans hb.1 hb.2
            obtain ⟨m, h1, h2⟩ := exists_between hhl
            have hm : m ∈ I := Itv.mem_of_between (Itv.mem_of_le hJI ha) (Itv.mem_of_le hLI hb)
              (le_trans ha.2 h1.le) (le_trans h2.le hb.1)
            rcases hc m hm with h | h
            · exact absurd h.2 (not_le.mpr h1)
            · exact absurd h.1 (not_le.mpr h2)
  rcases lt_trichotomy a b with h | h | h
  · exact key ha hb h hJI hLI hc hno
  · subst h; exact hno a ha hb
  · exact key hb ha h hLI hJI (fun t ht => (hc t ht).symm) (fun t h1 h2 => hno t h2 h1)

theorem exists_inBox {X : Box K} (h : ∀ I ∈ X, I ≠ ⊥) : ∃ v, InBox v X := by
  induction X with
  | nil => exact ⟨[], .nil⟩
  | cons I X ih =>
    obtain ⟨a, ha⟩ := Itv.exists_mem (h I (by simp))
    obtain ⟨v, hv⟩ := ih fun J hJ => h J (List.mem_cons_of_mem _ hJ)
    exact ⟨a :: v, .cons ha hv⟩

/-- two non-empty closed boxes covering a box have a common point -/
theorem exists_common {X A B : Box K} (hA : BoxLe A X) (hB : BoxLe B X) (hAn : ∀ I ∈ A, I ≠ ⊥) (hBn : ∀ I ∈ B, I ≠ ⊥)
    (hc : ∀ v, InBox v X → InBox v A ∨ InBox v B) : ∃ v, InBox v A ∧ InBox v B := by
  unfold BoxLe at hA hB
  induction hA generalizing B with
  | nil => cases hB; exact ⟨[], .nil, .nil⟩
  | @cons J I A' X' hJI hA' ih =>
    cases hB with
    | @cons L _ B' _ hLI hB' =>
      have hJ : J ≠ ⊥ := hAn J (by simp)
      have hL : L ≠ ⊥ := hBn L (by simp)
      have hAn' : ∀ I ∈ A', I ≠ ⊥ := fun I hI => hAn I (List.mem_cons_of_mem _ hI)
      have hBn' : ∀ I ∈ B', I ≠ ⊥ := fun I hI => hBn I (List.mem_cons_of_mem _ hI)
      have hcons : ∀ {t : K} {v : List K} {T : Itv K} {V : Box K}, InBox (t :: v) (T :: V) ↔ t ∈ T ∧ InBox v V := by
        intro t v T V; simp [InBox]
      obtain ⟨w, hw1, hw2⟩ : ∃ v, InBox v A' ∧ InBox v B' := by
        refine ih hB' hAn' hBn' fun v hv => ?_
        obtain ⟨t, ht⟩ := Itv.exists_mem hJ
        rcases hc (t :: v) (hcons.mpr ⟨Itv.mem_of_le hJI ht, hv⟩) with h | h
        · exact .inl (hcons.mp h).2
        · exact .inr (hcons.mp h).2
      have hwX : InBox w X' := hw1.of_le hA'
      obtain ⟨t, h1, h2⟩ := Itv.meet_of_cover hJ hL hJI hLI (fun t ht => by
        rcases hc (t :: w) (hcons.mpr ⟨ht, hwX⟩) with h | h
        · exact .inl (hcons.mp h).1
        · exact .inr (hcons.mp h).1)
      exact ⟨t :: w, hcons.mpr ⟨h1, hw1⟩, hcons.mpr ⟨h2, hw2⟩⟩

end Codac
