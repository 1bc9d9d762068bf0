import Mathlib.Order.Lattice
import Mathlib.Order.BoundedOrder.Basic
import Mathlib.Algebra.Order.Field.Basic
import Mathlib.Tactic.Linarith
import Mathlib.Tactic.Ring
import Mathlib.Tactic.NormNum
import Mathlib.Tactic.Order

/-!
# Intervals

Model of the IBEX `Interval` values manipulated by codac (`ibex::Interval`, used throughout
`/repo/src/core`, re-exported by `src/core/domains/interval/codac_Interval.h`).

IBEX is an external library: the *set* operations (`&`, `|`, `is_subset`, `intersects`, ...) are
exact on machine numbers (they only compare and select bounds), so they are modelled exactly, over an
arbitrary linearly ordered type `K` of numbers.  The *arithmetic* operations are rounded outward, they
are modelled in `Verif.Arith` as parameters having the inclusion property.

An interval is either empty, or has a lower bound in `K ∪ {-∞}` and an upper bound in `K ∪ {+∞}`
(`none` is the infinite bound) with lower bound ≤ upper bound.
-/

namespace Codac

/-- lower bound `lo` (`none` = -∞) is below the number `x` -/
def loLe {K : Type*} [LE K] (lo : Option K) (x : K) : Prop :=
  match lo with
  | none => True
  | some a => a ≤ x

/-- number `x` is below the upper bound `hi` (`none` = +∞) -/
def leHi {K : Type*} [LE K] (x : K) (hi : Option K) : Prop :=
  match hi with
  | none => True
  | some b => x ≤ b

/-- lower bound `lo` (`none` = -∞) is below upper bound `hi` (`none` = +∞) -/
def bLe {K : Type*} [LE K] (lo hi : Option K) : Prop :=
  match lo, hi with
  | some a, some b => a ≤ b
  | _, _ => True

section
variable {K : Type*} [LinearOrder K]

instance (lo : Option K) (x : K) : Decidable (loLe lo x) := by
  unfold loLe; split <;> infer_instance
instance (x : K) (hi : Option K) : Decidable (leHi x hi) := by
  unfold leHi; split <;> infer_instance
instance (lo hi : Option K) : Decidable (bLe lo hi) := by
  unfold bLe; split <;> infer_instance

@[simp] theorem loLe_none (x : K) : loLe none x := trivial
@[simp] theorem loLe_some (a x : K) : loLe (some a) x ↔ a ≤ x := Iff.rfl
@[simp] theorem leHi_none (x : K) : leHi x none := trivial
@[simp] theorem leHi_some (b x : K) : leHi x (some b) ↔ x ≤ b := Iff.rfl
@[simp] theorem bLe_none_left (h : Option K) : bLe none h := by unfold bLe; cases h <;> trivial
@[simp] theorem bLe_none_right (l : Option K) : bLe l none := by unfold bLe; cases l <;> trivial
@[simp] theorem bLe_some (a b : K) : bLe (some a) (some b) ↔ a ≤ b := Iff.rfl
end

/-- `ibex::Interval`: empty, or `[lo,hi]` with `lo ≤ hi`, infinite bounds being `none`. -/
inductive Itv (K : Type*) [LinearOrder K] where
  | empty : Itv K
  | mk (lo hi : Option K) (h : bLe lo hi) : Itv K

namespace Itv
variable {K : Type*} [LinearOrder K]

/-- decidable equality (`Interval::operator==`): both empty, or same bounds -/
instance : DecidableEq (Itv K) := fun X Y =>
  match X, Y with
  | empty, empty => isTrue rfl
  | empty, mk .. => isFalse (by intro h; cases h)
  | mk .., empty => isFalse (by intro h; cases h)
  | mk l h p, mk l' h' p' =>
    if e : l = l' ∧ h = h' then isTrue (by obtain ⟨rfl, rfl⟩ := e; rfl)
    else isFalse (by intro q; cases q; exact e ⟨rfl, rfl⟩)

/-- `x` is a point of the interval (`Interval::contains`) -/
def Mem (X : Itv K) (x : K) : Prop :=
  match X with
  | empty => False
  | mk lo hi _ => loLe lo x ∧ leHi x hi

instance : Membership K (Itv K) := ⟨Mem⟩

instance (x : K) (X : Itv K) : Decidable (x ∈ X) := by
  change Decidable (Mem X x); unfold Mem; split <;> infer_instance

@[simp] theorem not_mem_empty (x : K) : ¬ x ∈ (empty : Itv K) := fun h => h
@[simp] theorem mem_mk {x : K} {lo hi h} : x ∈ (mk lo hi h : Itv K) ↔ loLe lo x ∧ leHi x hi := Iff.rfl

/-- `Interval::ALL_REALS` -/
def all : Itv K := mk none none trivial
@[simp] theorem mem_all (x : K) : x ∈ (all : Itv K) := ⟨trivial, trivial⟩

/-- `Interval(lb,ub)` with possibly infinite bounds: empty when `lb > ub` -/
def ofBounds (lo hi : Option K) : Itv K := if h : bLe lo hi then mk lo hi h else empty

/-- `Interval(a,b)`, finite bounds -/
def icc (a b : K) : Itv K := ofBounds (some a) (some b)

/-- `Interval(x)`, the degenerate interval -/
def point (x : K) : Itv K := mk (some x) (some x) (le_refl x)

theorem mem_ofBounds {lo hi : Option K} {x : K} : x ∈ ofBounds lo hi ↔ loLe lo x ∧ leHi x hi := by
  unfold ofBounds
  split
  · exact Iff.rfl
  · rename_i h
    constructor
    · intro h'; exact absurd h' (not_mem_empty x)
    · rintro ⟨h1, h2⟩
      exfalso; apply h
      cases lo <;> cases hi <;> simp_all
      exact le_trans h1 h2

@[simp] theorem mem_icc {a b x : K} : x ∈ icc a b ↔ a ≤ x ∧ x ≤ b := by
  simp [icc, mem_ofBounds]
@[simp] theorem mem_point {a x : K} : x ∈ point a ↔ x = a := by
  change (a ≤ x ∧ x ≤ a) ↔ x = a
  exact ⟨fun ⟨h1, h2⟩ => le_antisymm h2 h1, fun h => h ▸ ⟨le_refl _, le_refl _⟩⟩

theorem icc_eq_mk {a b : K} (h : a ≤ b) : icc a b = mk (some a) (some b) h := dif_pos h
theorem icc_eq_empty {a b : K} (h : b < a) : icc a b = empty := dif_neg (not_le.mpr h)

/-- `Interval::is_empty` -/
def isEmpty (X : Itv K) : Bool := match X with | empty => true | mk .. => false

/-- the larger of two lower bounds -/
def maxLo (a b : Option K) : Option K :=
  match a, b with
  | none, b => b
  | a, none => a
  | some x, some y => some (max x y)

/-- the smaller of two upper bounds -/
def minHi (a b : Option K) : Option K :=
  match a, b with
  | none, b => b
  | a, none => a
  | some x, some y => some (min x y)

/-- the smaller of two lower bounds -/
def minLo (a b : Option K) : Option K :=
  match a, b with
  | some x, some y => some (min x y)
  | _, _ => none

/-- the larger of two upper bounds -/
def maxHi (a b : Option K) : Option K :=
  match a, b with
  | some x, some y => some (max x y)
  | _, _ => none

@[simp] theorem loLe_maxLo {a b : Option K} {x : K} : loLe (maxLo a b) x ↔ loLe a x ∧ loLe b x := by
  cases a <;> cases b <;> simp [maxLo]
@[simp] theorem leHi_minHi {a b : Option K} {x : K} : leHi x (minHi a b) ↔ leHi x a ∧ leHi x b := by
  cases a <;> cases b <;> simp [minHi]
@[simp] theorem loLe_minLo {a b : Option K} {x : K} : loLe (minLo a b) x ↔ loLe a x ∨ loLe b x := by
  cases a <;> cases b <;> simp [minLo]
@[simp] theorem leHi_maxHi {a b : Option K} {x : K} : leHi x (maxHi a b) ↔ leHi x a ∨ leHi x b := by
  cases a <;> cases b <;> simp [maxHi]

/-- `Interval::operator&` -/
def inter (X Y : Itv K) : Itv K :=
  match X, Y with
  | mk l h _, mk l' h' _ => ofBounds (maxLo l l') (minHi h h')
  | _, _ => empty

theorem bLe_hull {l h l' h' : Option K} (p : bLe l h) (_ : bLe l' h') : bLe (minLo l l') (maxHi h h') := by
  cases l <;> cases h <;> cases l' <;> cases h' <;> simp_all [minLo, maxHi]

/-- `Interval::operator|` (interval hull of the union) -/
def hull (X Y : Itv K) : Itv K :=
  match X, Y with
  | empty, Y => Y
  | X, empty => X
  | mk l h p, mk l' h' p' => mk (minLo l l') (maxHi h h') (bLe_hull p p')

/-- order on lower bounds: `l` is at the left of `l'` -/
def loLeLo (l l' : Option K) : Prop :=
  match l, l' with
  | none, _ => True
  | some _, none => False
  | some a, some b => a ≤ b

/-- order on upper bounds -/
def hiLeHi (h h' : Option K) : Prop :=
  match h, h' with
  | _, none => True
  | none, some _ => False
  | some a, some b => a ≤ b

instance (l l' : Option K) : Decidable (loLeLo l l') := by unfold loLeLo; split <;> infer_instance
instance (l l' : Option K) : Decidable (hiLeHi l l') := by unfold hiLeHi; split <;> infer_instance

/-- `Interval::is_subset`: comparison of the bounds -/
def Subset (X Y : Itv K) : Prop :=
  match X, Y with
  | empty, _ => True
  | mk .., empty => False
  | mk l h _, mk l' h' _ => loLeLo l' l ∧ hiLeHi h h'

instance (X Y : Itv K) : Decidable (Subset X Y) := by unfold Subset; split <;> infer_instance

/-- intervals are ordered by `is_subset`, `⊓` is `operator&`, `⊔` is `operator|` -/
instance : LE (Itv K) := ⟨Subset⟩
instance : DecidableLE (Itv K) := fun X Y => inferInstanceAs (Decidable (Subset X Y))

theorem le_def {X Y : Itv K} : X ≤ Y ↔ Subset X Y := Iff.rfl

theorem mem_of_le {X Y : Itv K} (h : X ≤ Y) {x : K} (hx : x ∈ X) : x ∈ Y := by
  rw [le_def] at h
  match X, Y, h, hx with
  | mk l u _, mk l' u' _, h, hx =>
    simp only [Subset] at h
    simp only [mem_mk] at *
    obtain ⟨h1, h2⟩ := h
    refine ⟨?_, ?_⟩
    · cases l <;> cases l' <;> simp_all [loLeLo]
      exact le_trans h1 hx.1
    · cases u <;> cases u' <;> simp_all [hiLeHi]
      exact le_trans hx.2 h2

theorem le_mk_mk {l h l' h' : Option K} {p p'} :
    (mk l h p : Itv K) ≤ mk l' h' p' ↔ loLeLo l' l ∧ hiLeHi h h' := Iff.rfl
theorem empty_le (X : Itv K) : (empty : Itv K) ≤ X := trivial
theorem not_mk_le_empty {l h : Option K} {p} : ¬ (mk l h p : Itv K) ≤ empty := fun h => h

instance : Lattice (Itv K) where
  le := (· ≤ ·)
  le_refl X := by
    cases X with
    | empty => trivial
    | mk l h p => cases l <;> cases h <;> simp [le_def, Subset, loLeLo, hiLeHi]
  le_trans X Y Z h1 h2 := by
    match X, Y, Z, h1, h2 with
    | empty, _, _, _, _ => exact empty_le _
    | mk l h _, mk l' h' _, mk l'' h'' _, ⟨h1, h2⟩, ⟨h3, h4⟩ =>
      constructor
      · cases l <;> cases l' <;> cases l'' <;> simp_all [loLeLo]; exact le_trans h3 h1
      · cases h <;> cases h' <;> cases h'' <;> simp_all [hiLeHi]; exact le_trans h2 h4
  le_antisymm X Y h1 h2 := by
    match X, Y, h1, h2 with
    | empty, empty, _, _ => rfl
    | mk l h _, mk l' h' _, ⟨h1, h2⟩, ⟨h3, h4⟩ =>
      have e1 : l = l' := by cases l <;> cases l' <;> simp_all [loLeLo]; exact le_antisymm h3 h1
      have e2 : h = h' := by cases h <;> cases h' <;> simp_all [hiLeHi]; exact le_antisymm h2 h4
      subst e1 e2; rfl
  sup := hull
  le_sup_left X Y := by
    cases X <;> cases Y <;> simp only [hull, le_def, Subset]
    · rename_i l h _; cases l <;> cases h <;> simp [loLeLo, hiLeHi]
    · rename_i l h _ l' h' _
      cases l <;> cases h <;> cases l' <;> cases h' <;> simp [loLeLo, hiLeHi, minLo, maxHi]
  le_sup_right X Y := by
    cases X <;> cases Y <;> simp only [hull, le_def, Subset]
    · rename_i l h _; cases l <;> cases h <;> simp [loLeLo, hiLeHi]
    · rename_i l h _ l' h' _
      cases l <;> cases h <;> cases l' <;> cases h' <;> simp [loLeLo, hiLeHi, minLo, maxHi]
  sup_le X Y Z h1 h2 := by
    match X, Y, Z, h1, h2 with
    | empty, _, _, _, h2 => exact h2
    | mk .., empty, _, h1, _ => exact h1
    | mk l h _, mk l' h' _, mk l'' h'' _, ⟨h1, h2⟩, ⟨h3, h4⟩ =>
      constructor
      · cases l <;> cases l' <;> cases l'' <;> simp_all [loLeLo, minLo]
      · cases h <;> cases h' <;> cases h'' <;> simp_all [hiLeHi, maxHi]
  inf := inter
  inf_le_left X Y := by
    match X, Y with
    | empty, _ => exact empty_le _
    | mk .., empty => exact empty_le _
    | mk l h _, mk l' h' _ =>
      simp only [inter, ofBounds]
      split
      · rw [le_mk_mk]
        cases l <;> cases h <;> cases l' <;> cases h' <;> simp [loLeLo, hiLeHi, maxLo, minHi]
      · exact empty_le _
  inf_le_right X Y := by
    match X, Y with
    | empty, _ => exact empty_le _
    | mk .., empty => exact empty_le _
    | mk l h _, mk l' h' _ =>
      simp only [inter, ofBounds]
      split
      · rw [le_mk_mk]
        cases l <;> cases h <;> cases l' <;> cases h' <;> simp [loLeLo, hiLeHi, maxLo, minHi]
      · exact empty_le _
  le_inf X Y Z h1 h2 := by
    match X, Y, Z, h1, h2 with
    | empty, _, _, _, _ => exact empty_le _
    | mk l h p, mk l' h' _, mk l'' h'' _, ⟨h1, h2⟩, ⟨h3, h4⟩ =>
      have hb : bLe (maxLo l' l'') (minHi h' h'') := by
        cases l <;> cases l' <;> cases l'' <;> cases h <;> cases h' <;> cases h'' <;>
          simp_all [loLeLo, hiLeHi, maxLo, minHi]
        all_goals (try constructor)
        all_goals order
      simp only [inter]
      rw [ofBounds, dif_pos hb, le_mk_mk]
      constructor
      · cases l <;> cases l' <;> cases l'' <;> simp_all [loLeLo, maxLo]
      · cases h <;> cases h' <;> cases h'' <;> simp_all [hiLeHi, minHi]

instance : BoundedOrder (Itv K) where
  bot := empty
  bot_le _ := trivial
  top := all
  le_top X := by
    cases X with
    | empty => trivial
    | mk l h _ => cases l <;> cases h <;> simp [le_def, Subset, all, loLeLo, hiLeHi]

theorem bot_eq : (⊥ : Itv K) = empty := rfl
theorem top_eq : (⊤ : Itv K) = all := rfl

@[simp] theorem isEmpty_iff {X : Itv K} : X.isEmpty = true ↔ X = ⊥ := by
  cases X <;> simp [isEmpty, bot_eq]

@[simp] theorem isEmpty_false_iff {X : Itv K} : X.isEmpty = false ↔ X ≠ ⊥ := by
  cases X <;> simp [isEmpty, bot_eq]

theorem sup_eq (X Y : Itv K) : X ⊔ Y = hull X Y := rfl
theorem inf_eq (X Y : Itv K) : X ⊓ Y = inter X Y := rfl

@[simp] theorem not_mem_bot (x : K) : ¬ x ∈ (⊥ : Itv K) := fun h => h
@[simp] theorem mem_top (x : K) : x ∈ (⊤ : Itv K) := ⟨trivial, trivial⟩

@[simp] theorem mem_inf {X Y : Itv K} {x : K} : x ∈ X ⊓ Y ↔ x ∈ X ∧ x ∈ Y := by
  rw [inf_eq]
  cases X <;> cases Y <;> simp only [inter, not_mem_empty, mem_mk, mem_ofBounds, loLe_maxLo,
    leHi_minHi, false_and, and_false]
  tauto

theorem mem_sup_left {X Y : Itv K} {x : K} (h : x ∈ X) : x ∈ X ⊔ Y := mem_of_le le_sup_left h
theorem mem_sup_right {X Y : Itv K} {x : K} (h : x ∈ Y) : x ∈ X ⊔ Y := mem_of_le le_sup_right h

theorem ne_bot_of_mem {X : Itv K} {x : K} (h : x ∈ X) : X ≠ ⊥ := by
  rintro rfl; exact h

/-- intervals are convex -/
theorem mem_of_between {X : Itv K} {a b x : K} (ha : a ∈ X) (hb : b ∈ X) (h1 : a ≤ x) (h2 : x ≤ b) :
    x ∈ X := by
  cases X with
  | empty => exact ha.elim
  | mk l h p =>
    refine ⟨?_, ?_⟩
    · have := ha.1; cases l <;> simp_all; exact le_trans this h1
    · have := hb.2; cases h <;> simp_all; exact le_trans h2 this

/-- hull: everything between a point of `X` and a point of `Y` -/
theorem mem_sup_of_between {X Y : Itv K} {a b x : K} (ha : a ∈ X) (hb : b ∈ Y) (h1 : a ≤ x)
    (h2 : x ≤ b) : x ∈ X ⊔ Y := mem_of_between (mem_sup_left ha) (mem_sup_right hb) h1 h2

/-- a nonempty interval has a point -/
theorem exists_mem [Nonempty K] [NoMinOrder K] [NoMaxOrder K] {X : Itv K} (h : X ≠ ⊥) : ∃ x, x ∈ X := by
  cases X with
  | empty => exact absurd rfl h
  | mk l u p =>
    cases l with
    | some a => exact ⟨a, le_refl a, by cases u <;> trivial⟩
    | none =>
      cases u with
      | some b => exact ⟨b, trivial, le_refl b⟩
      | none => exact ⟨Classical.arbitrary K, trivial, trivial⟩

/-- `is_subset` is inclusion of the sets of points -/
theorem le_iff [Nonempty K] [NoMinOrder K] [NoMaxOrder K] {X Y : Itv K} : X ≤ Y ↔ ∀ x ∈ X, x ∈ Y := by
  constructor
  · intro h x hx; exact mem_of_le h hx
  · intro h
    cases X with
    | empty => exact empty_le _
    | mk l u p =>
      cases Y with
      | empty =>
        obtain ⟨x, hx⟩ := exists_mem (X := mk l u p) (by intro h; cases h)
        exact (h x hx).elim
      | mk l' u' p' =>
        rw [le_mk_mk]
        constructor
        · cases l' with
          | none => trivial
          | some a' =>
            cases l with
            | none =>
              -- find a point of X below a'
              exfalso
              cases u with
              | none =>
                obtain ⟨z, hz⟩ := exists_lt a'
                exact absurd (h z ⟨trivial, trivial⟩).1 (not_le.mpr hz)
              | some b =>
                obtain ⟨z, hz⟩ := exists_lt (min a' b)
                have := (h z ⟨trivial, le_of_lt (lt_of_lt_of_le hz (min_le_right _ _))⟩).1
                exact absurd this (not_le.mpr (lt_of_lt_of_le hz (min_le_left _ _)))
            | some a =>
              have := (h a ⟨le_refl a, by cases u <;> trivial⟩).1
              exact this
        · cases u' with
          | none => cases u <;> trivial
          | some b' =>
            cases u with
            | none =>
              exfalso
              cases l with
              | none =>
                obtain ⟨z, hz⟩ := exists_gt b'
                exact absurd (h z ⟨trivial, trivial⟩).2 (not_le.mpr hz)
              | some a =>
                obtain ⟨z, hz⟩ := exists_gt (max b' a)
                have := (h z ⟨le_of_lt (lt_of_le_of_lt (le_max_right _ _) hz), trivial⟩).2
                exact absurd this (not_le.mpr (lt_of_le_of_lt (le_max_left _ _) hz))
            | some b =>
              have := (h b ⟨by cases l <;> trivial, le_refl b⟩).2
              exact this

theorem ext_mem [Nonempty K] [NoMinOrder K] [NoMaxOrder K] {X Y : Itv K} (h : ∀ x, x ∈ X ↔ x ∈ Y) :
    X = Y := le_antisymm (le_iff.mpr fun x hx => (h x).mp hx) (le_iff.mpr fun x hx => (h x).mpr hx)

theorem eq_bot_iff_mem [Nonempty K] [NoMinOrder K] [NoMaxOrder K] {X : Itv K} : X = ⊥ ↔ ∀ x, ¬ x ∈ X := by
  constructor
  · rintro rfl x hx; exact hx
  · intro h; by_contra h'; obtain ⟨x, hx⟩ := exists_mem h'; exact h x hx

/-- `Interval::is_degenerated`: empty (IBEX: yes) or a single point -/
def isDegenerated (X : Itv K) : Bool :=
  match X with
  | empty => true
  | mk (some a) (some b) _ => decide (a = b)
  | _ => false

/-- `Interval::is_unbounded` (false for the empty set) -/
def isUnbounded (X : Itv K) : Bool :=
  match X with
  | empty => false
  | mk (some _) (some _) _ => false
  | _ => true

/-- `Interval::intersects` -/
def intersects (X Y : Itv K) : Bool := !(X ⊓ Y).isEmpty

theorem intersects_iff [Nonempty K] [NoMinOrder K] [NoMaxOrder K] {X Y : Itv K} :
    X.intersects Y = true ↔ ∃ x, x ∈ X ∧ x ∈ Y := by
  simp only [intersects, Bool.not_eq_true', isEmpty_false_iff]
  constructor
  · intro h; obtain ⟨x, hx⟩ := exists_mem h; exact ⟨x, mem_inf.mp hx⟩
  · rintro ⟨x, hx⟩; exact ne_bot_of_mem (mem_inf.mpr hx)

theorem intersects_of_mem {X Y : Itv K} {x : K} (h1 : x ∈ X) (h2 : x ∈ Y) : X.intersects Y = true := by
  simp only [intersects, Bool.not_eq_true', isEmpty_false_iff]
  exact ne_bot_of_mem (mem_inf.mpr ⟨h1, h2⟩)

/-- `Interval::lb()` when finite -/
def lb? (X : Itv K) : Option K := match X with | empty => none | mk l _ _ => l
/-- `Interval::ub()` when finite -/
def ub? (X : Itv K) : Option K := match X with | empty => none | mk _ h _ => h

end Itv
end Codac
