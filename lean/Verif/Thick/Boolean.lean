import Mathlib.Data.List.Basic
import Mathlib.Order.Lattice.Nat

/-!
# Thick booleans and combinations of thick tests

Models `/repo/src/unsupported/thickset/codac_ThickBoolean.h` and the list combinators of `codac_ThickTest.cpp`.

A thick set is given by a subset and a superset; a point has one of three values: in the subset (`yes`), in the superset only (`maybe`), outside the superset (`no`).
A thick boolean is a set of values, its members.
-/

namespace Codac

/-- value of a point for a thick set -/
inductive V3 | no | maybe | yes
  deriving DecidableEq

namespace V3

/-- three-valued conjunction: the minimum for `no < maybe < yes` -/
def and : V3 → V3 → V3
  | no, _ => no
  | _, no => no
  | maybe, _ => maybe
  | _, maybe => maybe
  | yes, yes => yes

/-- three-valued disjunction: the maximum -/
def or : V3 → V3 → V3
  | yes, _ => yes
  | _, yes => yes
  | maybe, _ => maybe
  | _, maybe => maybe
  | no, no => no

/-- three-valued negation -/
def not : V3 → V3
  | no => yes
  | maybe => maybe
  | yes => no

/-- value from the membership of the subset and of the superset -/
def of (sub sup : Bool) : V3 := if sub then yes else if sup then maybe else no

end V3

/-- `enum class ThickBoolean`, codac_ThickBoolean.h:18-26 -/
inductive TB | out | in_ | maybe | maybeOut | maybeIn | unk | empty
  deriving DecidableEq

namespace TB

/-- the members of a thick boolean, from the comments of codac_ThickBoolean.h:19-25 -/
def has : TB → V3 → Bool
  | out, .no => true
  | in_, .yes => true
  | maybe, .maybe => true
  | maybeOut, .no => true
  | maybeOut, .maybe => true
  | maybeIn, .maybe => true
  | maybeIn, .yes => true
  | unk, _ => true
  | _, _ => false

/-- `opAnd`, `&&`, codac_ThickBoolean.h:96-109 -/
def opAnd (x y : TB) : TB :=
  if x = empty ∨ y = empty then empty
  else if x = out ∨ y = out then out
  else if x = unk ∨ y = unk then unk
  else if x = maybeOut ∨ y = maybeOut then maybeOut
  else if x = maybe ∨ y = maybe then maybe
  else if x = maybeIn ∨ y = maybeIn then maybeIn
  else if x = y then x
  else in_

/-- `(int) x` for the six values which index the tables, codac_ThickBoolean.h:18-26 -/
def idx : TB → Nat
  | out => 0
  | in_ => 1
  | maybe => 2
  | maybeOut => 3
  | maybeIn => 4
  | unk => 5
  | empty => 6

/-- `table[(int) x][(int) y]`; `empty` stands for an access out of the table, which the callers never do -/
def look (t : List (List TB)) (x y : TB) : TB := ((t[x.idx]?.getD [])[y.idx]?).getD empty

/-- `table_or`, codac_ThickBoolean.h:114-121 -/
def tableOr : List (List TB) :=
  [[out, in_, maybe, maybeOut, maybeIn, unk],
   [in_, in_, in_, in_, in_, in_],
   [maybe, in_, maybe, maybe, maybeIn, maybeIn],
   [maybeOut, in_, maybe, maybeOut, maybeIn, unk],
   [maybeIn, in_, maybeIn, maybeIn, maybeIn, maybeIn],
   [unk, in_, maybeIn, unk, maybeIn, unk]]

/-- `opOr`, `||`, codac_ThickBoolean.h:123-141 -/
def opOr (x y : TB) : TB := if x = empty ∨ y = empty then empty else look tableOr x y

/-- `table_Inter`, codac_ThickBoolean.h:154-161 -/
def tableInter : List (List TB) :=
  [[out, empty, out, out, empty, out],
   [empty, in_, in_, empty, in_, in_],
   [out, in_, maybe, maybeOut, maybeIn, unk],
   [out, empty, maybeOut, maybeOut, unk, unk],
   [empty, in_, maybeIn, unk, maybeIn, unk],
   [out, in_, unk, unk, unk, unk]]

/-- `opInter`, `&`, codac_ThickBoolean.h:175-182 -/
def opInter (x y : TB) : TB := if x = empty ∨ y = empty then empty else look tableInter x y

/-- `table_Union`, codac_ThickBoolean.h:186-193 -/
def tableUnion : List (List TB) :=
  [[out, unk, maybeOut, maybeOut, unk, unk],
   [unk, in_, maybeIn, unk, maybeIn, unk],
   [maybeOut, maybeIn, maybe, maybeOut, maybeIn, unk],
   [maybeOut, unk, maybeOut, maybeOut, unk, unk],
   [unk, maybeIn, maybeIn, unk, maybeIn, unk],
   [unk, unk, unk, unk, unk, unk]]

/-- `opUnion`, `|`, codac_ThickBoolean.h:196-204 -/
def opUnion (x y : TB) : TB := if x = empty then y else if y = empty then x else look tableUnion x y

/-- `table_ThickInter`, codac_ThickBoolean.h:208-215 -/
def tableThickInter : List (List TB) :=
  [[out, empty, empty, out, out, out],
   [empty, in_, empty, in_, in_, in_],
   [empty, empty, maybe, maybe, maybe, maybe],
   [empty, in_, maybe, maybeOut, maybe, maybeOut],
   [empty, in_, maybe, maybe, maybeIn, maybeIn],
   [empty, in_, maybe, maybeOut, maybeIn, unk]]

/-- `opThickInter`, codac_ThickBoolean.h:218-222 -/
def opThickInter (x y : TB) : TB := if x = empty then y else if y = empty then x else look tableThickInter x y

/-- `opNot`, codac_ThickBoolean.h:240-246 -/
def opNot (x : TB) : TB :=
  if x = in_ then out else if x = out then in_ else if x = maybeIn then maybeOut else if x = maybeOut then maybeIn else x

/-- `opUpper`, codac_ThickBoolean.h:248-252 -/
def opUpper (x : TB) : TB := if x = maybeIn ∨ x = maybe then in_ else if x = maybeOut then unk else x

/-- `opLower`, codac_ThickBoolean.h:254-258 -/
def opLower (x : TB) : TB := if x = maybeOut ∨ x = maybe then out else if x = maybeIn then unk else x

/-- `opInner`, codac_ThickBoolean.h:260-264 -/
def opInner (x : TB) : TB := if x = maybeOut ∨ x = out then maybe else x

/-- `opRestrict`, codac_ThickBoolean.h:266-268 -/
def opRestrict (x y : TB) : TB := opAnd x (opNot y)

/-- `opXor`, codac_ThickBoolean.h:284-288 -/
def opXor (x y : TB) : TB := opUnion (opRestrict x y) (opRestrict y x)

/-- `opSupSub`, codac_ThickBoolean.h:297-317 -/
def opSupSub (i o : TB) : TB :=
  match i, o with
  | out, out => out
  | out, in_ => maybe
  | out, unk => maybeOut
  | in_, out => empty
  | in_, in_ => in_
  | in_, unk => in_
  | unk, out => out
  | unk, in_ => maybeIn
  | unk, unk => unk
  | _, _ => opUnion i o

/-- `is_singleton`, codac_ThickBoolean.h:225-227 -/
def isSingleton (b : TB) : Bool := decide (b = in_ ∨ b = out ∨ b = maybe ∨ b = empty)

/-- `can_be_inside`, codac_ThickBoolean.h:231-233 -/
def canBeInside (b : TB) : Bool := decide (b = in_ ∨ b = maybeIn ∨ b = maybe)

/-- `can_be_outside`, codac_ThickBoolean.h:235-237 -/
def canBeOutside (b : TB) : Bool := decide (b = out ∨ b = maybeOut ∨ b = maybe)

end TB

/-- two integer intervals, the counters `sum_lb` and `sum_ub` (interval sums of small integers are exact) -/
structure TSum where
  lbLo : Nat
  lbHi : Nat
  ubLo : Nat
  ubHi : Nat
  deriving DecidableEq

/-- one iteration of the loop of `thickBooleanSum`, codac_ThickBoolean.h:324-344, and of `ThickQInter::test`, codac_ThickTest.cpp:57-77 -/
def TSum.add (s : TSum) : TB → TSum
  | .in_ => ⟨s.lbLo + 1, s.lbHi + 1, s.ubLo + 1, s.ubHi + 1⟩
  | .maybe => ⟨s.lbLo, s.lbHi, s.ubLo + 1, s.ubHi + 1⟩
  | .maybeOut => ⟨s.lbLo, s.lbHi, s.ubLo, s.ubHi + 1⟩
  | .maybeIn => ⟨s.lbLo, s.lbHi + 1, s.ubLo + 1, s.ubHi + 1⟩
  | .unk => ⟨s.lbLo, s.lbHi + 1, s.ubLo, s.ubHi + 1⟩
  | .out => s
  | .empty => s

/-- `thickBooleanSum`, codac_ThickBoolean.h:321-346 -/
def thickBooleanSum (l : List TB) : TSum := l.foldl TSum.add ⟨0, 0, 0, 0⟩

/-- `ThickQInter::test` on the results of the tests, codac_ThickTest.cpp:53-108 -/
def qInterTest (q : Nat) (l : List TB) : TB :=
  let s := thickBooleanSum l
  let lo := min s.lbLo s.ubLo
  let hi := max s.lbHi s.ubHi
  let b1 := decide (q ≤ s.ubLo)
  let b2 := decide (s.lbHi < q)
  if q ≤ lo ∧ hi ≤ 1000 then .in_
  else if hi + 1 ≤ q then .out
  else if b1 && !b2 then .maybeIn
  else if !b1 && b2 then .maybeOut
  else if b1 && b2 then .maybe
  else .unk

/-- a thick test: `ThickTest::test`, codac_ThickTest.h:27-34 -/
abbrev ThickTest (β : Type*) := β → TB

/-- `ThickAnd::test`, codac_ThickTest.cpp:111-118; `none`: the list is empty (`list[0]` does not exist) -/
def thickAnd {β : Type*} (l : List (ThickTest β)) (box : β) : Option TB :=
  match l with
  | [] => none
  | t :: l => some (l.foldl (fun b t => b.opAnd (t box)) (t box))

/-- `ThickInter::test`, codac_ThickTest.cpp:120-127 -/
def thickInter {β : Type*} (l : List (ThickTest β)) (box : β) : Option TB :=
  match l with
  | [] => none
  | t :: l => some (l.foldl (fun b t => b.opInter (t box)) (t box))

/-- the loop of `ThickOr::test`, codac_ThickTest.cpp:131-134, with its early exit -/
def thickOrLoop {β : Type*} (box : β) : TB → List (ThickTest β) → TB
  | b, [] => b
  | b, t :: l =>
    let b' := b.opOr (t box)
    if b' = .in_ then b' else thickOrLoop box b' l

/-- `ThickOr::test`, codac_ThickTest.cpp:129-136 -/
def thickOr {β : Type*} (l : List (ThickTest β)) (box : β) : Option TB :=
  match l with
  | [] => none
  | t :: l => some (thickOrLoop box (t box) l)

/-- `ThickQInter::test`, codac_ThickTest.cpp:53-108 -/
def thickQInter {β : Type*} (q : Nat) (l : List (ThickTest β)) (box : β) : TB := qInterTest q (l.map fun t => t box)

/-! ### lemmas -/

theorem TB.and_sound {x y : TB} {a b : V3} (ha : x.has a = true) (hb : y.has b = true) : (x.opAnd y).has (a.and b) = true := by
  revert ha hb; cases x <;> cases y <;> cases a <;> cases b <;> decide

theorem TB.or_sound {x y : TB} {a b : V3} (ha : x.has a = true) (hb : y.has b = true) : (x.opOr y).has (a.or b) = true := by
  revert ha hb; cases x <;> cases y <;> cases a <;> cases b <;> decide

theorem TB.inter_sound {x y : TB} {a : V3} (ha : x.has a = true) (hb : y.has a = true) : (x.opInter y).has a = true := by
  revert ha hb; cases x <;> cases y <;> cases a <;> decide

theorem TB.union_left {x y : TB} {a : V3} (ha : x.has a = true) : (x.opUnion y).has a = true := by
  revert ha; cases x <;> cases y <;> cases a <;> decide

theorem TB.union_right {x y : TB} {a : V3} (ha : y.has a = true) : (x.opUnion y).has a = true := by
  revert ha; cases x <;> cases y <;> cases a <;> decide

theorem TB.not_sound {x : TB} {a : V3} (ha : x.has a = true) : (x.opNot).has a.not = true := by
  revert ha; cases x <;> cases a <;> decide

theorem TB.yes_or {b : V3} : V3.yes.or b = .yes := by cases b <;> rfl

theorem V3.or_assoc (a b c : V3) : (a.or b).or c = a.or (b.or c) := by cases a <;> cases b <;> cases c <;> rfl

theorem V3.and_assoc (a b c : V3) : (a.and b).and c = a.and (b.and c) := by cases a <;> cases b <;> cases c <;> rfl

theorem V3.and_of (a b c d : Bool) (h1 : a = true → b = true) (h2 : c = true → d = true) : (V3.of a b).and (V3.of c d) = V3.of (a && c) (b && d) := by
  revert h1 h2; cases a <;> cases b <;> cases c <;> cases d <;> decide

theorem V3.or_of (a b c d : Bool) (h1 : a = true → b = true) (h2 : c = true → d = true) : (V3.of a b).or (V3.of c d) = V3.of (a || c) (b || d) := by
  revert h1 h2; cases a <;> cases b <;> cases c <;> cases d <;> decide

theorem foldAnd_sound {β : Type*} (box : β) (l : List (ThickTest β × V3)) (hl : ∀ p ∈ l, (p.1 box).has p.2 = true) (b : TB) (v : V3) (hb : b.has v = true) :
    ((l.map Prod.fst).foldl (fun b t => b.opAnd (t box)) b).has ((l.map Prod.snd).foldl V3.and v) = true := by
  induction l generalizing b v with
  | nil => exact hb
  | cons p l ih => exact ih (fun q hq => hl q (by simp [hq])) _ _ (TB.and_sound hb (hl p (by simp)))

theorem foldInter_sound {β : Type*} (box : β) (v : V3) (l : List (ThickTest β)) (hl : ∀ t ∈ l, (t box).has v = true) (b : TB) (hb : b.has v = true) :
    (l.foldl (fun b t => b.opInter (t box)) b).has v = true := by
  induction l generalizing b with
  | nil => exact hb
  | cons p l ih => exact ih (fun q hq => hl q (by simp [hq])) _ (TB.inter_sound hb (hl p (by simp)))

theorem foldOr_yes (l : List V3) : l.foldl V3.or .yes = .yes := by
  induction l with
  | nil => rfl
  | cons a l ih => rw [List.foldl_cons, TB.yes_or, ih]

theorem orLoop_sound {β : Type*} (box : β) (l : List (ThickTest β × V3)) (hl : ∀ p ∈ l, (p.1 box).has p.2 = true) (b : TB) (v : V3) (hb : b.has v = true) :
    (thickOrLoop box b (l.map Prod.fst)).has ((l.map Prod.snd).foldl V3.or v) = true := by
  induction l generalizing b v with
  | nil => exact hb
  | cons p l ih =>
    have h1 := TB.or_sound hb (hl p (by simp))
    simp only [List.map_cons, thickOrLoop, List.foldl_cons]
    by_cases hc : b.opOr (p.1 box) = .in_
    · rw [if_pos hc]
      rw [hc] at h1 ⊢
      have : v.or p.2 = .yes := by
        revert h1; cases v.or p.2 <;> simp [TB.has]
      rw [this, foldOr_yes]; rfl
    · rw [if_neg hc]
      exact ih (fun q hq => hl q (by simp [hq])) _ _ h1

theorem sum_sound (l : List (TB × V3)) (hl : ∀ p ∈ l, p.1.has p.2 = true) (s : TSum) (n m : Nat) (h1 : s.lbLo ≤ n) (h2 : n ≤ s.lbHi) (h3 : s.ubLo ≤ m) (h4 : m ≤ s.ubHi)
    (hw : s.lbLo ≤ s.ubLo) (hw' : s.lbHi ≤ s.ubHi) :
    ((l.map Prod.fst).foldl TSum.add s).lbLo ≤ n + (l.map Prod.snd).countP (fun v => decide (v = .yes)) ∧
    n + (l.map Prod.snd).countP (fun v => decide (v = .yes)) ≤ ((l.map Prod.fst).foldl TSum.add s).lbHi ∧
    ((l.map Prod.fst).foldl TSum.add s).ubLo ≤ m + (l.map Prod.snd).countP (fun v => decide (v ≠ .no)) ∧
    m + (l.map Prod.snd).countP (fun v => decide (v ≠ .no)) ≤ ((l.map Prod.fst).foldl TSum.add s).ubHi ∧
    ((l.map Prod.fst).foldl TSum.add s).lbLo ≤ ((l.map Prod.fst).foldl TSum.add s).ubLo ∧
    ((l.map Prod.fst).foldl TSum.add s).lbHi ≤ ((l.map Prod.fst).foldl TSum.add s).ubHi := by
  induction l generalizing s n m with
  | nil => simp [h1, h2, h3, h4, hw, hw']
  | cons p l ih =>
    obtain ⟨b, v⟩ := p
    have hb := hl (b, v) (by simp)
    have := ih (fun q hq => hl q (by simp [hq])) (s.add b) (n + if v = .yes then 1 else 0) (m + if v ≠ .no then 1 else 0)
    simp only [List.map_cons, List.foldl_cons, List.countP_cons]
    have h := this ?_ ?_ ?_ ?_ ?_ ?_
    · simp only [decide_eq_true_iff]
      refine ⟨?_, ?_, ?_, ?_, h.2.2.2.2⟩ <;> omega
    all_goals
      revert hb
      cases b <;> cases v <;> simp [TB.has, TSum.add] <;> omega

end Codac
