import Verif.Thick.Boolean
import Verif.Arith
import Verif.Box
import Mathlib.Tactic.Linarith

/-!
# Thick intervals and thick boxes

Models `/repo/src/unsupported/thickset/codac_ThickInterval.h` and `codac_ThickBox_impl.hpp`.
Differences of intervals are exact here (only their sign matters); the bounds of the empty interval are not numbers, so that any comparison with them is false.
-/

set_option linter.unusedSectionVars false

namespace Codac

variable {K : Type*} [Field K] [LinearOrder K] [IsStrictOrderedRing K]

/-- the test `(X - Y).ub() <= 0` used throughout codac_ThickInterval.h:156-178 -/
def diffNonpos (X Y : Itv K) : Bool :=
  match (Itv.sub X Y).ub? with
  | some u => decide (u ≤ 0)
  | none => false

/-- `ThickInterval`, codac_ThickInterval.h:28-138: an interval for the lower bound and an interval for the upper bound -/
structure ThickItv (K : Type*) [LinearOrder K] where
  lb : Itv K
  ub : Itv K
  deriving DecidableEq

namespace ThickItv

/-- the condition of `CHECK_THICKINTERVAL`, codac_ThickInterval.h:21-26, negated -/
def Checked (l u : Itv K) : Prop :=
  match l, u with
  | .mk a b _, .mk c d _ => Itv.hiLeHi b d ∧ Itv.loLeLo a c
  | _, _ => False

instance (l u : Itv K) : Decidable (Checked l u) := by unfold Checked; split <;> infer_instance

/-- `ThickInterval(lb, ub)`, codac_ThickInterval.h:146-148 -/
def ofItvs (l u : Itv K) : ThickItv K := if Checked l u then ⟨l, u⟩ else ⟨⊥, ⊥⟩

/-- an `Interval` made of one bound: empty for an infinite one (IBEX) -/
def bound : Option K → Itv K
  | some x => Itv.point x
  | none => ⊥

/-- `ThickInterval(bounds)`, codac_ThickInterval.h:150-151 -/
def ofItv (y : Itv K) : ThickItv K := ofItvs (bound y.lb?) (bound y.ub?)

/-- `intersects`, codac_ThickInterval.h:156-160 -/
def intersects (T U : ThickItv K) : Bool := diffNonpos U.lb T.ub && diffNonpos T.lb U.ub

/-- `is_disjoint`, codac_ThickInterval.h:162-166 -/
def isDisjoint (T U : ThickItv K) : Bool := diffNonpos T.ub U.lb && diffNonpos U.ub T.lb

/-- `is_not_subset`, codac_ThickInterval.h:168-172 -/
def isNotSubset (T U : ThickItv K) : Bool := diffNonpos T.lb U.lb || diffNonpos U.ub T.ub

/-- `is_subset`, codac_ThickInterval.h:174-178 -/
def isSubset (T U : ThickItv K) : Bool := diffNonpos U.lb T.lb && diffNonpos T.ub U.ub

/-- `is_empty`, codac_ThickInterval.h:187-189 -/
def isEmpty (T : ThickItv K) : Bool := T.lb.isEmpty && T.ub.isEmpty

/-- `superset`, codac_ThickInterval.h:191-193 -/
def superset (T : ThickItv K) : Itv K :=
  match T.lb, T.ub with
  | .mk a _ _, .mk _ d _ => Itv.ofBounds a d
  | _, _ => ⊥

/-- `subset`, codac_ThickInterval.h:195-199 -/
def subset (T : ThickItv K) : Itv K :=
  match T.lb.ub?, T.ub.lb? with
  | some a, some b => if a < b then Itv.icc a b else ⊥
  | _, _ => ⊥

/-- `ibex::max` of two intervals -/
def maxItv (X Y : Itv K) : Itv K :=
  match X, Y with
  | .mk a b _, .mk c d _ => Itv.ofBounds (Itv.maxLo a c) (Itv.maxHi b d)
  | _, _ => ⊥

/-- `ibex::min` of two intervals -/
def minItv (X Y : Itv K) : Itv K :=
  match X, Y with
  | .mk a b _, .mk c d _ => Itv.ofBounds (Itv.minLo a c) (Itv.minHi b d)
  | _, _ => ⊥

/-- `inter`, `&`, codac_ThickInterval.h:202-215; `cap` is the constant `1e10` of line 208 -/
def inter (cap : K) (T U : ThickItv K) : ThickItv K :=
  if (T.superset ⊓ U.superset).isEmpty = false then
    let l := maxItv T.lb U.lb
    let u := minItv T.ub U.ub
    ofItvs (l ⊓ Itv.ofBounds none u.ub?) (u ⊓ Itv.ofBounds l.lb? (some cap))
  else ofItvs ⊥ ⊥

/-- `is_inside`, codac_ThickInterval.h:217-230 -/
def isInside (T : ThickItv K) (y : Itv K) : TB :=
  if T.superset ≤ y then .in_
  else if (T.superset ⊓ y).isEmpty then .out
  else
    let b1 := T.intersects (ofItv y)
    let b2 := T.isNotSubset (ofItv y)
    if b1 && b2 then .maybe
    else if !b1 && b2 then .maybeOut
    else if !b2 && b1 then .maybeIn
    else .unk

/-- specification: `[a, b]` is a member of the thick interval -/
def Member (T : ThickItv K) (a b : K) : Prop := a ∈ T.lb ∧ b ∈ T.ub ∧ a ≤ b

/-- the thick intervals which the constructors give: both bounds empty, or checked -/
def Ok (T : ThickItv K) : Prop := T = ⟨⊥, ⊥⟩ ∨ Checked T.lb T.ub

theorem ok_ofItvs (l u : Itv K) : (ofItvs l u).Ok := by
  unfold ofItvs
  by_cases h : Checked l u
  · rw [if_pos h]; exact .inr h
  · rw [if_neg h]; exact .inl rfl

theorem checked_of_member {T : ThickItv K} (h : T.Ok) {a b : K} (hm : T.Member a b) : Checked T.lb T.ub := by
  rcases h with rfl | h
  · exact absurd hm.1 (fun h => h)
  · exact h

end ThickItv

theorem diffNonpos_iff {X Y : Itv K} (hX : X ≠ ⊥) (hY : Y ≠ ⊥) : diffNonpos X Y = true ↔ ∀ x ∈ X, ∀ y ∈ Y, x ≤ y := by
  constructor
  · intro h x hx y hy
    have hm := Itv.mem_sub hx hy
    unfold diffNonpos at h
    generalize Itv.sub X Y = Z at h hm
    cases Z with
    | empty => exact absurd hm (fun h => h)
    | mk l u p =>
      cases u with
      | none => simp [Itv.ub?] at h
      | some u =>
        simp only [Itv.ub?, decide_eq_true_iff] at h
        have h2 : x - y ≤ u := hm.2
        linarith
  · intro h
    cases X with
    | empty => exact absurd rfl hX
    | mk a b p =>
      cases Y with
      | empty => exact absurd rfl hY
      | mk c d q =>
        obtain ⟨x0, hx0⟩ := Itv.exists_mem hX
        obtain ⟨y0, hy0⟩ := Itv.exists_mem hY
        cases b with
        | none =>
          have : max x0 (y0 + 1) ∈ (Itv.mk a none p : Itv K) := by
            refine ⟨?_, trivial⟩
            cases a with
            | none => trivial
            | some a => exact le_trans hx0.1 (le_max_left _ _)
          have h1 := h _ this y0 hy0
          have := le_max_right x0 (y0 + 1)
          linarith
        | some b =>
          have hb : b ∈ (Itv.mk a (some b) p : Itv K) := by
            refine ⟨?_, le_refl b⟩
            cases a with
            | none => trivial
            | some a => exact p
          cases c with
          | none =>
            have : min y0 (b - 1) ∈ (Itv.mk none d q : Itv K) := by
              refine ⟨trivial, ?_⟩
              cases d with
              | none => trivial
              | some d => exact le_trans (min_le_left _ _) hy0.2
            have h1 := h _ hb _ this
            have := min_le_right y0 (b - 1)
            linarith
          | some c =>
            have hc : c ∈ (Itv.mk (some c) d q : Itv K) := by
              refine ⟨le_refl c, ?_⟩
              cases d with
              | none => trivial
              | some d => exact q
            have hbc := h _ hb _ hc
            have key : (Itv.sub (Itv.mk a (some b) p) (Itv.mk (some c) d q)).ub? = some (b + -c) := by
              have hle : bLe (Itv.negB d) (some (-c)) := by
                cases d with
                | none => trivial
                | some d => exact neg_le_neg q
              unfold Itv.sub Itv.neg
              have e1 : Itv.ofBounds (Itv.negB d) (Itv.negB (some c)) = Itv.mk (Itv.negB d) (some (-c)) hle := dif_pos hle
              simp only [e1]
              unfold Itv.add
              have hle2 : bLe (Itv.addB a (Itv.negB d)) (some (b + -c)) := by
                cases a with
                | none => trivial
                | some a =>
                  cases d with
                  | none => trivial
                  | some d => exact add_le_add p (neg_le_neg q)
              have e2 : Itv.ofBounds (Itv.addB a (Itv.negB d)) (Itv.addB (some b) (some (-c))) = Itv.mk (Itv.addB a (Itv.negB d)) (some (b + -c)) hle2 := dif_pos hle2
              simp only [e2, Itv.ub?]
            unfold diffNonpos
            rw [key]
            simp only [decide_eq_true_iff]
            linarith

namespace ThickItv

theorem Checked.ne {l u : Itv K} (h : Checked l u) : l ≠ ⊥ ∧ u ≠ ⊥ := by
  cases l <;> cases u <;> simp_all [Checked, Itv.bot_eq]

/-- every possible lower bound can be completed into a member, and so can every possible upper bound -/
theorem Checked.complete {l u : Itv K} (h : Checked l u) :
    (∀ a ∈ l, ∃ b ∈ u, a ≤ b) ∧ ∀ b ∈ u, ∃ a ∈ l, a ≤ b := by
  cases l with
  | empty => exact h.elim
  | mk a b p =>
    cases u with
    | empty => exact h.elim
    | mk c d q =>
      obtain ⟨h1, h2⟩ := h
      constructor
      · intro x hx
        cases d with
        | none =>
          obtain ⟨y, hy⟩ := Itv.exists_mem (X := Itv.mk c none q) (by simp [Itv.bot_eq])
          refine ⟨max x y, ⟨?_, trivial⟩, le_max_left _ _⟩
          cases c with
          | none => trivial
          | some c => exact le_trans hy.1 (le_max_right _ _)
        | some d =>
          refine ⟨d, ⟨?_, le_refl d⟩, ?_⟩
          · cases c with
            | none => trivial
            | some c => exact q
          · cases b with
            | none => exact h1.elim
            | some b => exact le_trans hx.2 h1
      · intro y hy
        cases a with
        | none =>
          obtain ⟨x, hx⟩ := Itv.exists_mem (X := Itv.mk none b p) (by simp [Itv.bot_eq])
          refine ⟨min x y, ⟨trivial, ?_⟩, min_le_right _ _⟩
          cases b with
          | none => trivial
          | some b => exact le_trans (min_le_left _ _) hx.2
        | some a =>
          refine ⟨a, ⟨le_refl a, ?_⟩, ?_⟩
          · cases b with
            | none => trivial
            | some b => exact p
          · cases c with
            | none => exact h2.elim
            | some c => exact le_trans h2 hy.1

theorem loLe_trans {a : Option K} {x y : K} (h : loLe a x) (hxy : x ≤ y) : loLe a y := by
  cases a with
  | none => trivial
  | some a => exact le_trans h hxy

theorem leHi_trans {b : Option K} {x y : K} (h : leHi y b) (hxy : x ≤ y) : leHi x b := by
  cases b with
  | none => trivial
  | some b => exact le_trans hxy h

theorem mem_maxItv {X Y : Itv K} {x y : K} (hx : x ∈ X) (hy : y ∈ Y) : max x y ∈ maxItv X Y := by
  cases X with
  | empty => exact hx.elim
  | mk a b p =>
    cases Y with
    | empty => exact hy.elim
    | mk c d q =>
      obtain ⟨h1, h2⟩ := hx
      obtain ⟨h3, h4⟩ := hy
      unfold maxItv
      rw [Itv.mem_ofBounds]
      constructor
      · cases a with
        | none => exact ThickItv.loLe_trans h3 (le_max_right _ _)
        | some a =>
          cases c with
          | none => exact le_trans h1 (le_max_left _ _)
          | some c => exact max_le_max h1 h3
      · cases b with
        | none => trivial
        | some b =>
          cases d with
          | none => trivial
          | some d => exact max_le_max h2 h4

theorem mem_minItv {X Y : Itv K} {x y : K} (hx : x ∈ X) (hy : y ∈ Y) : min x y ∈ minItv X Y := by
  cases X with
  | empty => exact hx.elim
  | mk a b p =>
    cases Y with
    | empty => exact hy.elim
    | mk c d q =>
      obtain ⟨h1, h2⟩ := hx
      obtain ⟨h3, h4⟩ := hy
      unfold minItv
      rw [Itv.mem_ofBounds]
      constructor
      · cases a with
        | none => trivial
        | some a =>
          cases c with
          | none => trivial
          | some c => exact min_le_min h1 h3
      · cases b with
        | none => exact ThickItv.leHi_trans h4 (min_le_right _ _)
        | some b =>
          cases d with
          | none => exact le_trans (min_le_left _ _) h2
          | some d => exact min_le_min h2 h4

theorem mem_superset {T : ThickItv K} {x : K} (h : Checked T.lb T.ub) : x ∈ T.superset ↔ ∃ a b, T.Member a b ∧ a ≤ x ∧ x ≤ b := by
  constructor
  · intro hx
    have h' := h.complete
    unfold superset at hx
    unfold Member
    generalize T.lb = L at *
    generalize T.ub = U at *
    cases L with
    | empty => exact h.elim
    | mk a b p =>
      cases U with
      | empty => exact h.elim
      | mk c d q =>
        rw [Itv.mem_ofBounds] at hx
        -- a lower bound below x
        have e1 : ∃ a0 ∈ (Itv.mk a b p : Itv K), a0 ≤ x := by
          cases a with
          | none =>
            obtain ⟨z, hz⟩ := Itv.exists_mem (X := Itv.mk none b p) (by simp [Itv.bot_eq])
            refine ⟨min z x, ⟨trivial, ?_⟩, min_le_right _ _⟩
            cases b with
            | none => trivial
            | some b => exact le_trans (min_le_left _ _) hz.2
          | some a =>
            refine ⟨a, ⟨le_refl a, ?_⟩, hx.1⟩
            cases b with
            | none => trivial
            | some b => exact p
        have e2 : ∃ b0 ∈ (Itv.mk c d q : Itv K), x ≤ b0 := by
          cases d with
          | none =>
            obtain ⟨z, hz⟩ := Itv.exists_mem (X := Itv.mk c none q) (by simp [Itv.bot_eq])
            refine ⟨max z x, ⟨?_, trivial⟩, le_max_right _ _⟩
            cases c with
            | none => trivial
            | some c => exact le_trans hz.1 (le_max_left _ _)
          | some d =>
            refine ⟨d, ⟨?_, le_refl d⟩, hx.2⟩
            cases c with
            | none => trivial
            | some c => exact q
        obtain ⟨a0, ha, ha'⟩ := e1
        obtain ⟨b0, hb, hb'⟩ := e2
        exact ⟨a0, b0, ⟨ha, hb, ha'.trans hb'⟩, ha', hb'⟩
  · rintro ⟨a0, b0, ⟨ha, hb, hab⟩, h1, h2⟩
    unfold superset
    generalize T.lb = L at *
    generalize T.ub = U at *
    cases L with
    | empty => exact h.elim
    | mk a b p =>
      cases U with
      | empty => exact h.elim
      | mk c d q =>
        rw [Itv.mem_ofBounds]
        constructor
        · cases a with
          | none => trivial
          | some a => exact le_trans ha.1 h1
        · cases d with
          | none => trivial
          | some d => exact le_trans h2 hb.2

theorem mem_lbHi {X : Itv K} {x : K} (h : x ∈ X) : leHi x X.ub? := by
  cases X with
  | empty => exact h.elim
  | mk a b p => exact h.2

theorem mem_ubLo {X : Itv K} {x : K} (h : x ∈ X) : loLe X.lb? x := by
  cases X with
  | empty => exact h.elim
  | mk a b p => exact h.1

theorem exists_ge {X : Itv K} {d : K} (h : X.ub? = some d) : d ∈ X := by
  cases X with
  | empty => cases h
  | mk a b p =>
    simp only [Itv.ub?] at h
    subst h
    refine ⟨?_, le_refl d⟩
    cases a with
    | none => trivial
    | some a => exact p

theorem exists_le {X : Itv K} {y : K} (hX : X ≠ ⊥) (h : loLe X.lb? y) : ∃ a ∈ X, a ≤ y := by
  obtain ⟨x, hx⟩ := Itv.exists_mem hX
  cases X with
  | empty => exact hx.elim
  | mk a b p =>
    cases a with
    | none => exact ⟨min x y, ⟨trivial, leHi_trans hx.2 (min_le_left _ _)⟩, min_le_right _ _⟩
    | some a =>
      refine ⟨a, ⟨le_refl a, ?_⟩, h⟩
      cases b with
      | none => trivial
      | some b => exact p

theorem checked_of {l u : Itv K} (hl : l ≠ ⊥) (hu : u ≠ ⊥) (h1 : ∀ a ∈ l, ∃ b ∈ u, a ≤ b) (h2 : ∀ b ∈ u, ∃ a ∈ l, a ≤ b) : Checked l u := by
  cases l with
  | empty => exact absurd rfl hl
  | mk a b p =>
    cases u with
    | empty => exact absurd rfl hu
    | mk c d q =>
      constructor
      · cases d with
        | none => trivial
        | some d =>
          cases b with
          | none =>
            obtain ⟨x, hx⟩ := Itv.exists_mem hl
            obtain ⟨y, hy, hxy⟩ := h1 (max x (d + 1)) ⟨loLe_trans hx.1 (le_max_left _ _), trivial⟩
            have h3 : y ≤ d := hy.2
            have := le_max_right x (d + 1)
            linarith
          | some b =>
            obtain ⟨y, hy, hxy⟩ := h1 b (exists_ge rfl)
            exact hxy.trans hy.2
      · cases a with
        | none => trivial
        | some a =>
          cases c with
          | none =>
            obtain ⟨x, hx⟩ := Itv.exists_mem hu
            obtain ⟨y, hy, hxy⟩ := h2 (min x (a - 1)) ⟨trivial, leHi_trans hx.2 (min_le_left _ _)⟩
            have h3 : a ≤ y := hy.1
            have := min_le_right x (a - 1)
            linarith
          | some c =>
            have hc : c ∈ (Itv.mk (some c) d q : Itv K) := by
              refine ⟨le_refl c, ?_⟩
              cases d with
              | none => trivial
              | some d => exact q
            obtain ⟨y, hy, hxy⟩ := h2 c hc
            exact le_trans hy.1 hxy

/-- the bounds computed by `inter` pass the check of the constructor as soon as they contain a member, when no upper bound is above the cap -/
theorem checked_inter_aux {X Y : Itv K} {cap x y : K} (hx : x ∈ X) (hy : y ∈ Y) (hxy : x ≤ y) (hc : ∀ b ∈ Y, b ≤ cap) :
    Checked (X ⊓ Itv.ofBounds none Y.ub?) (Y ⊓ Itv.ofBounds X.lb? (some cap)) := by
  have hX := Itv.ne_bot_of_mem hx
  have hY := Itv.ne_bot_of_mem hy
  have m1 : ∀ a, a ∈ X ⊓ Itv.ofBounds none Y.ub? ↔ a ∈ X ∧ leHi a Y.ub? := by
    intro a; rw [Itv.mem_inf, Itv.mem_ofBounds]; exact and_congr_right fun _ => ⟨fun h => h.2, fun h => ⟨trivial, h⟩⟩
  have m2 : ∀ b, b ∈ Y ⊓ Itv.ofBounds X.lb? (some cap) ↔ b ∈ Y ∧ loLe X.lb? b := by
    intro b; rw [Itv.mem_inf, Itv.mem_ofBounds]; exact and_congr_right fun h0 => ⟨fun h => h.1, fun h => ⟨h, hc b h0⟩⟩
  have hxY : leHi x Y.ub? := leHi_trans (mem_lbHi hy) hxy
  have hyX : loLe X.lb? y := loLe_trans (mem_ubLo hx) hxy
  refine checked_of (Itv.ne_bot_of_mem ((m1 x).mpr ⟨hx, hxY⟩)) (Itv.ne_bot_of_mem ((m2 y).mpr ⟨hy, hyX⟩)) ?_ ?_
  · intro a ha
    rw [m1] at ha
    cases hd : Y.ub? with
    | none =>
      exfalso
      cases Y with
      | empty => exact hy
      | mk c d q =>
        simp only [Itv.ub?] at hd
        subst hd
        have := hc (max y (cap + 1)) ⟨loLe_trans hy.1 (le_max_left _ _), trivial⟩
        have := le_max_right y (cap + 1)
        linarith
    | some d =>
      have hdm := exists_ge hd
      rw [hd] at ha
      refine ⟨d, (m2 d).mpr ⟨hdm, loLe_trans (mem_ubLo ha.1) ha.2⟩, ha.2⟩
  · intro b hb
    rw [m2] at hb
    obtain ⟨a, ha, hab⟩ := exists_le hX hb.2
    exact ⟨a, (m1 a).mpr ⟨ha, leHi_trans (mem_lbHi hb.1) hab⟩, hab⟩

end ThickItv

end Codac
