import Verif.C2.BoxProofs

/-!
# `SepProj`: the separator of a projection

Sources: `src/core/separators/codac_SepProj.cpp`, `codac_SepProj.h`. The boxes and their operations are those of IBEX; the operations `is_empty`, `==`, `&`, `|`,
`is_subset` of IBEX are those of `Verif/C2/BoxModel.lean` (for IBEX, whose boxes have either no empty component or only empty ones, the meaning is the same). The separator
of the product, the difference of boxes, the middle and the bisection are parameters. A failing `assert` and the call of `exit` give `none`: the code is modelled as
compiled with assertions.
-/

set_option linter.unusedSectionVars false

namespace Codac.Proj
open Codac.Bx

section model

variable {K : Type*} [LinearOrder K]

/-- what `SepProj` receives or takes from IBEX -/
structure Ops (K : Type*) [LinearOrder K] where
  /-- `sep.separate(XinFull, XoutFull)`, from the same box: the inner and the outer result -/
  sep : Box K → Box K × Box K
  /-- `IntervalVector::diff` (IBEX) -/
  diff : Box K → Box K → List (Box K)
  /-- `y.mid()` (IBEX) -/
  mid : Box K → Box K
  /-- `bsc->bisect(y)` (IBEX, `LargestFirst`); `none`: `NoBisectableVariableException` -/
  bisect : Box K → Option (Box K × Box K)
  /-- `x.is_flat() || x.max_diam() < prec || y.max_diam() < 0.1*x.max_diam()`, codac_SepProj.cpp:265 -/
  small : Box K → Box K → Bool

/-- `ImpactStatus`, codac_SepProj.h:31-35: the boxes of the first contraction, `none` while there is no contraction -/
structure Impact (K : Type*) [LinearOrder K] where
  cin : Option (List (Box K))
  cout : Option (List (Box K))

/-- `setCinFlags`, codac_SepProj.h:93-100 -/
def setCin (O : Ops K) (im : Impact K) (xin x0 : Box K) : Impact K :=
  if im.cin.isNone && !beq xin x0 then ⟨some (O.diff x0 xin), im.cout⟩ else im

/-- `setCoutFlags`, codac_SepProj.h:102-109 -/
def setCout (O : Ops K) (im : Impact K) (xout x0 : Box K) : Impact K :=
  if im.cout.isNone && !beq xout x0 then ⟨im.cin, some (O.diff x0 xout)⟩ else im

/-- the constructor of `ImpactStatus`, codac_SepProj.h:43-53 -/
def impact0 (O : Ops K) (xin xout : Box K) : Impact K :=
  if !beq xin xout then setCout O (setCin O ⟨none, none⟩ xin (hull xin xout)) xout (hull xin xout) else ⟨none, none⟩

/-- `x |= boxes[i]` for all `i` -/
def addBoxes (x : Box K) (l : List (Box K)) : Box K := l.foldl hull x

/-- `reconstrut_v2`, codac_SepProj.h:120-172 -/
def reconstruct (im : Impact K) (xin xout x0 : Box K) : Option (Box K × Box K) :=
  if isEmpty xout && im.cout.isSome && im.cin.isSome then some (x0, xout)
  else if !isEmpty xin && !isEmpty xout then
    some (match im.cout with | none => xin | some l => if im.cin.isNone then x0 else addBoxes xin l,
      match im.cin with | none => xout | some l => if im.cout.isNone then x0 else addBoxes xout l)
  else if isEmpty xin && im.cin.isSome then
    some (xin, match im.cin with | none => xout | some l => if im.cout.isNone then x0 else addBoxes xout l)
  else if isEmpty xout && im.cout.isSome then
    some (match im.cout with | none => xin | some l => if im.cin.isNone then x0 else addBoxes xin l, xout)
  else none

/-- the result of `process`: the two boxes, the impacts and the returned value -/
structure PRes (K : Type*) [LinearOrder K] where
  xin : Box K
  xout : Box K
  im : Impact K
  stop : Bool

/-- `SepProj::process`, codac_SepProj.cpp:50-114 -/
def process (O : Ops K) (xin xout y : Box K) (im : Impact K) (usePoint : Bool) : Option (PRes K) :=
  if beq xin xout then
    let x := inter xin xout
    if isEmpty x then some ⟨xin, xout, im, true⟩
    else
      let r := O.sep (x ++ y)
      if !beq (hull r.1 r.2) (x ++ y) then none
      else if isEmpty r.1 && isEmpty r.2 then none
      else if isEmpty r.1 || !beq y (r.1.drop xin.length) then
        some ⟨setEmpty xin, xout, setCin O im (setEmpty xin) x, true⟩
      else
        let xi := r.1.take xin.length
        let im1 := setCin O im xi x
        if isEmpty r.2 then some ⟨xi, setEmpty xout, if usePoint then im1 else setCout O im1 (setEmpty xout) x, true⟩
        else
          let xo := r.2.take xin.length
          some ⟨xi, xo, if usePoint then im1 else setCout O im1 xo x, false⟩
  else none

/-- `SepProj::fixpoint`, codac_SepProj.cpp:137-190: the loop stops after its first iteration (`break`, line 177); the box `x_out_mid` of the second call of
`process` is not used afterwards -/
def fixpoint (O : Ops K) (xin xout y : Box K) : Option (Box K × Box K) :=
  let x0 := hull xin xout
  let a := inter xin xout
  let b := inter xout a
  (process O a b y (impact0 O xin xout) false).bind fun r1 =>
  (if r1.stop then some r1 else (process O r1.xin (inter b r1.xin) (O.mid y) r1.im true).map fun r2 => ⟨r2.xin, r1.xout, r2.im, r2.stop⟩).bind fun r =>
  (reconstruct r.im r.xin r.xout x0).bind fun s =>
  if beq (hull s.1 s.2) x0 then some s else none

/-- `complementaryUnion`, codac_SepProj.cpp:117-135 -/
def compUnion (O : Ops K) (x y x0 : Box K) : Option (Box K) :=
  if beq x x0 then some x
  else
    let x := addBoxes x (O.diff x0 y)
    if beq (hull x y) x0 then some x else none

/-- the loop of `SepProj::separate`, codac_SepProj.cpp:219-282. The first result `none`: more iterations are needed; `some none`: an assertion fails -/
def loop (O : Ops K) (x0 : Box K) : Nat → List (Box K × Box K) → Box K → Box K → Option (Option (Box K × Box K))
  | _, [], xin, xres => some (some (xin, xres))
  | 0, _ :: _, _, _ => none
  | k + 1, (xo, y) :: q, xin, xres =>
    if isSubset xo xres then loop O x0 k q xin xres
    else
      match compUnion O xo xin x0 with
      | none => some none
      | some xo1 =>
        if !beq (hull xin xo1) x0 then some none
        else
          match fixpoint O xin xo1 y with
          | none => some none
          | some s =>
            if isEmpty s.2 then loop O x0 k q s.1 xres
            else if !beq (hull s.1 s.2) x0 then some none
            else if isEmpty (inter s.1 s.2) || O.small (inter s.1 s.2) y || isEmpty y then loop O x0 k q s.1 (hull xres s.2)
            else if !isSubset s.2 xres then
              match O.bisect y with
              | some c => loop O x0 k (q ++ [(s.2, c.1), (s.2, c.2)]) s.1 xres
              | none => loop O x0 k q s.1 xres
            else loop O x0 k q s.1 xres

/-- `SepProj::separate`, codac_SepProj.cpp:203-287, from two equal boxes `x0` (asserted line 208), with at most `fuel` iterations: the inner and the outer box -/
def separate (O : Ops K) (yInit : Box K) (fuel : Nat) (x0 : Box K) : Option (Option (Box K × Box K)) :=
  loop O x0 fuel [(x0, yInit)] x0 (List.replicate x0.length ⊥)

/-! ### Specification of the parameters -/

/-- the assumed behaviour of the parameters, for a set `S` of the space of dimension `n + m`, the first `n` components being the projected ones -/
structure Valid (O : Ops K) (n m : Nat) (S : List K → Prop) : Prop where
  /-- the separator keeps the points of the set in the outer box, the other ones in the inner box, and adds no point -/
  sep_len : ∀ B, B.length = n + m → (O.sep B).1.length = n + m ∧ (O.sep B).2.length = n + m
  sep_le : ∀ B, B.length = n + m → ∀ v, InBox v (O.sep B).1 ∨ InBox v (O.sep B).2 → InBox v B
  sep_out : ∀ B, B.length = n + m → ∀ v, InBox v B → S v → InBox v (O.sep B).2
  sep_in : ∀ B, B.length = n + m → ∀ v, InBox v B → ¬ S v → InBox v (O.sep B).1
  /-- the difference covers the points removed, and stays in every box that contains these points -/
  diff_len : ∀ X Y, X.length = n → Y.length = n → ∀ D ∈ O.diff X Y, D.length = n
  diff_cover : ∀ X Y, X.length = n → Y.length = n → ∀ v, InBox v X → ¬ InBox v Y → ∃ D ∈ O.diff X Y, InBox v D
  diff_least : ∀ X Y Z, X.length = n → Y.length = n → Z.length = n → (∀ v, InBox v X → ¬ InBox v Y → InBox v Z) →
    ∀ D ∈ O.diff X Y, ∀ v, InBox v D → InBox v Z
  /-- the middle of a non-empty box is in the box -/
  mid_len : ∀ Y, Y.length = m → (O.mid Y).length = m
  mid_mem : ∀ Y, Y.length = m → isEmpty Y = false → isEmpty (O.mid Y) = false ∧ ∀ v, InBox v (O.mid Y) → InBox v Y
  /-- a bisection covers the box with two non-empty parts of it -/
  bisect_len : ∀ Y c, Y.length = m → O.bisect Y = some c → c.1.length = m ∧ c.2.length = m
  bisect_ne : ∀ Y c, Y.length = m → isEmpty Y = false → O.bisect Y = some c → isEmpty c.1 = false ∧ isEmpty c.2 = false
  bisect_le : ∀ Y c, Y.length = m → O.bisect Y = some c → ∀ v, InBox v c.1 ∨ InBox v c.2 → InBox v Y
  bisect_cover : ∀ Y c, Y.length = m → O.bisect Y = some c → ∀ v, InBox v Y → InBox v c.1 ∨ InBox v c.2

end model

/-! ### Boxes -/

section boxes

variable {K : Type*} [LinearOrder K]

theorem inBox_append_iff {q w : List K} {X Y : Box K} (h : q.length = X.length) : InBox (q ++ w) (X ++ Y) ↔ InBox q X ∧ InBox w Y := by
  induction X generalizing q with
  | nil =>
    obtain rfl : q = [] := List.length_eq_zero_iff.mp h
    simp [InBox]
  | cons I X ih =>
    cases q with
    | nil => simp at h
    | cons a q =>
      have := ih (q := q) (by simpa using h)
      unfold InBox at *
      simp only [List.cons_append, List.forall₂_cons, this, and_assoc]

theorem inBox_split {q w : List K} {R : Box K} {n : Nat} (hq : q.length = n) (hR : n ≤ R.length) :
    InBox (q ++ w) R ↔ InBox q (R.take n) ∧ InBox w (R.drop n) := by
  conv_lhs => rw [← List.take_append_drop n R]
  exact inBox_append_iff (by simp [hq, hR])

theorem addBoxes_length {n : Nat} {l : List (Box K)} {X : Box K} (hX : X.length = n) (hl : ∀ D ∈ l, D.length = n) : (addBoxes X l).length = n := by
  induction l generalizing X with
  | nil => exact hX
  | cons D l ih =>
    exact ih (X := hull X D) (by rw [hull_length (by rw [hX, hl D (by simp)])]; exact hX) (fun E hE => hl E (by simp [hE]))

theorem addBoxes_mem {n : Nat} {l : List (Box K)} {X : Box K} (hX : X.length = n) (hl : ∀ D ∈ l, D.length = n) {v : List K}
    (h : InBox v X ∨ ∃ D ∈ l, InBox v D) : InBox v (addBoxes X l) := by
  induction l generalizing X with
  | nil => rcases h with h | ⟨_, hD, _⟩ <;> [exact h; simp at hD]
  | cons D l ih =>
    have hD := hl D (by simp)
    refine ih (X := hull X D) (by rw [hull_length (by rw [hX, hD])]; exact hX) (fun E hE => hl E (by simp [hE])) ?_
    rcases h with h | ⟨E, hE, h⟩
    · exact .inl (mem_hull (by rw [hX, hD]) (.inl h))
    · rcases List.mem_cons.mp hE with rfl | hE
      · exact .inl (mem_hull (by rw [hX, hD]) (.inr h))
      · exact .inr ⟨E, hE, h⟩

theorem addBoxes_le [Nonempty K] [NoMinOrder K] [NoMaxOrder K] {l : List (Box K)} {X Z : Box K} (h1 : ∀ v, InBox v X → InBox v Z)
    (h2 : ∀ D ∈ l, ∀ v, InBox v D → InBox v Z) {v : List K} (h : InBox v (addBoxes X l)) : InBox v Z := by
  induction l generalizing X with
  | nil => exact h1 v h
  | cons D l ih =>
    exact ih (X := hull X D) (fun v hv => hull_least h1 (h2 D (by simp)) hv) (fun E hE => h2 E (by simp [hE])) h

theorem isEmpty_setEmpty {X : Box K} (h : 0 < X.length) : isEmpty (setEmpty X) = true := by
  cases X with
  | nil => simp at h
  | cons I X => simp [setEmpty, isEmpty]

end boxes

/-! ### The proofs -/

variable {K : Type*} [LinearOrder K] [Nonempty K] [NoMinOrder K] [NoMaxOrder K]
variable {O : Ops K} {n m : Nat} {S : List K → Prop}

/-- the inner contractor keeps the point `p` with all the parameters of `Y` -/
def Keeps (O : Ops K) (Y : Box K) (p : List K) : Prop := ∀ B w, InBox w Y → InBox (p ++ w) B → InBox (p ++ w) (O.sep B).1

theorem setCin_cases (O : Ops K) (im : Impact K) (xin x0 : Box K) :
    (setCin O im xin x0 = im ∧ (im.cin.isSome = true ∨ beq xin x0 = true)) ∨
    (im.cin = none ∧ beq xin x0 = false ∧ setCin O im xin x0 = ⟨some (O.diff x0 xin), im.cout⟩) := by
  unfold setCin
  cases h : im.cin <;> cases h' : beq xin x0 <;> simp

theorem setCout_cases (O : Ops K) (im : Impact K) (xout x0 : Box K) :
    (setCout O im xout x0 = im ∧ (im.cout.isSome = true ∨ beq xout x0 = true)) ∨
    (im.cout = none ∧ beq xout x0 = false ∧ setCout O im xout x0 = ⟨im.cin, some (O.diff x0 xout)⟩) := by
  unfold setCout
  cases h : im.cout <;> cases h' : beq xout x0 <;> simp

/-- what a call of `process` does -/
structure PSpec (O : Ops K) (n : Nat) (S : List K → Prop) (xin xout y : Box K) (im : Impact K) (r : PRes K) : Prop where
  len_in : r.xin.length = n
  len_out : r.xout.length = n
  le_out : ∀ v, InBox v r.xout → InBox v xin
  le_in : ∀ v, InBox v r.xin → InBox v xin
  same : ∀ v, InBox v xin ↔ InBox v xout
  removed : ∀ v, InBox v xin → ¬ InBox v r.xin → (∃ w, InBox w y ∧ S (v ++ w)) ∧ InBox v r.xout
  outer : ∀ v, InBox v xin → ∀ w, InBox w y → S (v ++ w) → InBox v r.xout
  kept : ∀ v Y, (∀ w, InBox w y → InBox w Y) → Keeps O Y v → InBox v xin → InBox v r.xin
  cin_len : (∀ l, im.cin = some l → ∀ D ∈ l, D.length = n) → ∀ l, r.im.cin = some l → ∀ D ∈ l, D.length = n
  cin_old : ∀ l, im.cin = some l → r.im.cin = some l
  cin_new : ∀ l, r.im.cin = some l → im.cin = some l ∨ ∀ D ∈ l, ∀ v, InBox v D → InBox v xin
  cout_len : (∀ l, im.cout = some l → ∀ D ∈ l, D.length = n) → ∀ l, r.im.cout = some l → ∀ D ∈ l, D.length = n
  cout_old : ∀ l, im.cout = some l → r.im.cout = some l

/-- the impacts after `process` -/
theorem impact_spec (V : Valid O n m S) {im : Impact K} {x xi xo : Box K} (hx : x.length = n) (hi : xi.length = n) (ho : xo.length = n) (pt : Bool) :
    let im' := if pt then setCin O im xi x else setCout O (setCin O im xi x) xo x
    ((∀ l, im.cin = some l → ∀ D ∈ l, D.length = n) → ∀ l, im'.cin = some l → ∀ D ∈ l, D.length = n) ∧
    (∀ l, im.cin = some l → im'.cin = some l) ∧
    (∀ l, im'.cin = some l → im.cin = some l ∨ ∀ D ∈ l, ∀ v, InBox v D → InBox v x) ∧
    ((∀ l, im.cout = some l → ∀ D ∈ l, D.length = n) → ∀ l, im'.cout = some l → ∀ D ∈ l, D.length = n) ∧
    (∀ l, im.cout = some l → im'.cout = some l) := by
  intro im'
  have h1 : im'.cin = (setCin O im xi x).cin := by
    change (if pt then setCin O im xi x else setCout O (setCin O im xi x) xo x).cin = _
    cases pt
    · rcases setCout_cases O (setCin O im xi x) xo x with h | h
      · simp [h.1]
      · simp [h.2.2]
    · rfl
  have h2 : im'.cout = im.cout ∨ (im.cout = none ∧ im'.cout = some (O.diff x xo)) := by
    have h3 : (setCin O im xi x).cout = im.cout := by
      rcases setCin_cases O im xi x with h | h
      · rw [h.1]
      · rw [h.2.2]
    change (if pt then setCin O im xi x else setCout O (setCin O im xi x) xo x).cout = _ ∨ _ ∧ (if pt then setCin O im xi x else setCout O (setCin O im xi x) xo x).cout = _
    cases pt
    · rcases setCout_cases O (setCin O im xi x) xo x with h | h
      · left; simp [h.1, h3]
      · right; simp [h.2.2, ← h3, h.1]
    · left; simp [h3]
  have h4 : im'.cin = im.cin ∨ (im.cin = none ∧ im'.cin = some (O.diff x xi)) := by
    rw [h1]
    rcases setCin_cases O im xi x with h | h
    · left; rw [h.1]
    · right; exact ⟨h.1, by rw [h.2.2]⟩
  refine ⟨?_, ?_, ?_, ?_, ?_⟩
  · intro h l hl
    rcases h4 with h4 | h4
    · exact h l (by rw [← h4]; exact hl)
    · obtain rfl : O.diff x xi = l := Option.some.inj (h4.2.symm.trans hl)
      exact V.diff_len x xi hx hi
  · intro l hl
    rcases h4 with h4 | h4
    · rw [h4]; exact hl
    · rw [h4.1] at hl; cases hl
  · intro l hl
    rcases h4 with h4 | h4
    · left; rw [← h4]; exact hl
    · right
      obtain rfl : O.diff x xi = l := Option.some.inj (h4.2.symm.trans hl)
      exact V.diff_least x xi x hx hi hx fun v hv _ => hv
  · intro h l hl
    rcases h2 with h2 | h2
    · exact h l (by rw [← h2]; exact hl)
    · obtain rfl : O.diff x xo = l := Option.some.inj (h2.2.symm.trans hl)
      exact V.diff_len x xo hx ho
  · intro l hl
    rcases h2 with h2 | h2
    · rw [h2]; exact hl
    · rw [h2.1] at hl; cases hl

theorem process_spec (V : Valid O n m S) (hn : 0 < n) {xin xout y : Box K} {im : Impact K} {pt : Bool} {r : PRes K} (hi : xin.length = n) (ho : xout.length = n)
    (hy : y.length = m) (hne : isEmpty y = false) (h : process O xin xout y im pt = some r) : PSpec O n S xin xout y im r := by
  unfold process at h
  by_cases e : beq xin xout
  swap
  · rw [if_neg e] at h; cases h
  rw [if_pos e] at h
  have same := (beq_iff (by rw [hi, ho])).mp e
  have hx : (inter xin xout).length = n := by rw [inter_length (by rw [hi, ho])]; exact hi
  have mx : ∀ v, InBox v (inter xin xout) ↔ InBox v xin := fun v => by
    rw [mem_inter (by rw [hi, ho]), ← same v]; exact and_self_iff
  simp only [] at h
  by_cases e0 : isEmpty (inter xin xout)
  · rw [if_pos e0] at h
    obtain rfl := Option.some.inj h
    have no : ∀ v, ¬ InBox v xin := fun v hv => not_mem_of_isEmpty e0 ((mx v).mpr hv)
    exact ⟨hi, ho, fun v hv => (same v).mpr hv, fun v hv => hv, same, fun v hv => absurd hv (no v), fun v hv => absurd hv (no v), fun v Y _ _ hv => hv,
      fun h => h, fun l h => h, fun l h => .inl h, fun h => h, fun l h => h⟩
  rw [if_neg e0] at h
  set x := inter xin xout with hxd
  have hB : (x ++ y).length = n + m := by rw [List.length_append, hx, hy]
  by_cases e1 : beq (hull (O.sep (x ++ y)).1 (O.sep (x ++ y)).2) (x ++ y)
  swap
  · rw [if_pos (by simpa using e1)] at h; cases h
  rw [if_neg (by simpa using e1)] at h
  by_cases e2 : isEmpty (O.sep (x ++ y)).1 && isEmpty (O.sep (x ++ y)).2
  · rw [if_pos e2] at h; cases h
  rw [if_neg e2] at h
  obtain ⟨l1, l2⟩ := V.sep_len _ hB
  set r1 := (O.sep (x ++ y)).1 with hr1
  set r2 := (O.sep (x ++ y)).2 with hr2
  obtain ⟨w0, hw0⟩ := exists_inBox hne
  have hvl : ∀ v, InBox v xin → v.length = n := fun v hv => by rw [hv.length, hi]
  have prod : ∀ v w, InBox v xin → InBox w y → InBox (v ++ w) (x ++ y) := fun v w hv hw =>
    (inBox_append_iff (by rw [hvl v hv, hx])).mpr ⟨(mx v).mpr hv, hw⟩
  have not_in : ∀ v w, InBox v xin → InBox w y → ¬ InBox (v ++ w) r1 → S (v ++ w) := fun v w hv hw hnot => by
    by_contra hS
    exact hnot (V.sep_in _ hB _ (prod v w hv hw) hS)
  have kept1 : ∀ v Y, (∀ w, InBox w y → InBox w Y) → Keeps O Y v → InBox v xin → ∀ w, InBox w y → InBox (v ++ w) r1 := fun v Y hY hk hv w hw =>
    hk _ w (hY w hw) (prod v w hv hw)
  have fst_le : ∀ v R, R.length = n + m → isEmpty R = false → (∀ u, InBox u R → InBox u (x ++ y)) → InBox v (R.take n) → InBox v xin := by
    intro v R hR hRe hle hv
    obtain ⟨u, hu⟩ := exists_inBox hRe
    have hul : u.length = n + m := by rw [hu.length, hR]
    have hu' : InBox (u.take n ++ u.drop n) R := by rw [List.take_append_drop]; exact hu
    rw [inBox_split (n := n) (by simp [hul]) (by omega)] at hu'
    have hvn : v.length = n := by rw [hv.length]; simp [hR]
    have := hle _ ((inBox_split hvn (by omega)).mpr ⟨hv, hu'.2⟩)
    rw [inBox_append_iff (by rw [hvn, hx])] at this
    exact (mx v).mp this.1
  by_cases e3 : isEmpty r1 || !beq y (r1.drop xin.length)
  · rw [if_pos e3] at h
    obtain rfl := Option.some.inj h
    have hse : (setEmpty xin).length = n := by simp [setEmpty, hi]
    have noSE : ∀ v, ¬ InBox v (setEmpty xin) := fun v => not_mem_of_isEmpty (isEmpty_setEmpty (by omega))
    -- a parameter that the inner box has lost
    have lost : ∃ w, InBox w y ∧ ∀ v, InBox v xin → ¬ InBox (v ++ w) r1 := by
      by_cases er : isEmpty r1
      · exact ⟨w0, hw0, fun v _ => not_mem_of_isEmpty er⟩
      · have hb : beq y (r1.drop n) = false := by rw [hi] at e3; simpa [er] using e3
        have hlen : y.length = (r1.drop n).length := by rw [hy, List.length_drop, l1]; omega
        have hnot : ¬ ∀ w, InBox w y ↔ InBox w (r1.drop n) := fun hall => by
          rw [(beq_iff hlen).mpr hall] at hb; cases hb
        obtain ⟨u, hu⟩ := exists_inBox (X := r1) (by simpa using er)
        have hul : u.length = n + m := by rw [hu.length, l1]
        have hu' : InBox (u.take n ++ u.drop n) r1 := by rw [List.take_append_drop]; exact hu
        rw [inBox_split (n := n) (by simp [hul]) (by omega)] at hu'
        by_contra hall
        push Not at hall
        refine hnot fun w => ⟨fun hw => ?_, fun hw => ?_⟩
        · obtain ⟨v, hv, hvw⟩ := hall w hw
          exact ((inBox_split (hvl v hv) (by omega)).mp hvw).2
        · have := V.sep_le _ hB _ (.inl ((inBox_split (n := n) (R := r1) (by simp [hul]) (by omega)).mpr ⟨hu'.1, hw⟩))
          exact ((inBox_append_iff (by simp [hul, hx])).mp this).2
    obtain ⟨w, hw, hlost⟩ := lost
    obtain ⟨i1, i2, i3, i4, i5⟩ := impact_spec V (im := im) hx hse ho true
    simp only [if_true] at i1 i2 i3 i4 i5
    refine ⟨hse, ho, fun v hv => (same v).mpr hv, fun v hv => absurd hv (noSE v), same, ?_, fun v hv _ _ _ => (same v).mp hv, ?_, i1, i2,
      fun l hl => (i3 l hl).imp_right fun h D hD v hv => (mx v).mp (h D hD v hv), i4, i5⟩
    · intro v hv _
      exact ⟨⟨w, hw, not_in v w hv hw (hlost v hv)⟩, (same v).mp hv⟩
    · intro v Y hY hk hv
      exact absurd (kept1 v Y hY hk hv w hw) (hlost v hv)
  rw [if_neg e3] at h
  rw [Bool.not_eq_true, Bool.or_eq_false_iff] at e3
  have htk : (r1.take xin.length).length = n := by rw [hi, List.length_take, l1]; omega
  have inRem : ∀ v, InBox v xin → ¬ InBox v (r1.take xin.length) → S (v ++ w0) := fun v hv hnot => by
    refine not_in v w0 hv hw0 fun hin => hnot ?_
    rw [hi]
    exact ((inBox_split (hvl v hv) (by omega)).mp hin).1
  have inKept : ∀ v Y, (∀ w, InBox w y → InBox w Y) → Keeps O Y v → InBox v xin → InBox v (r1.take xin.length) := fun v Y hY hk hv => by
    rw [hi]
    exact ((inBox_split (hvl v hv) (by omega)).mp (kept1 v Y hY hk hv w0 hw0)).1
  have inLe : ∀ v, InBox v (r1.take xin.length) → InBox v xin := fun v hv => by
    rw [hi] at hv
    exact fst_le v r1 l1 e3.1 (fun u hu => V.sep_le _ hB u (.inl hu)) hv
  have out2 : ∀ v w, InBox v xin → InBox w y → S (v ++ w) → InBox (v ++ w) r2 := fun v w hv hw hS => V.sep_out _ hB _ (prod v w hv hw) hS
  by_cases e4 : isEmpty r2
  · rw [if_pos e4] at h
    obtain rfl := Option.some.inj h
    have hso : (setEmpty xout).length = n := by simp [setEmpty, ho]
    obtain ⟨i1, i2, i3, i4, i5⟩ := impact_spec V (im := im) hx htk hso pt
    have absd : ∀ v w, InBox v xin → InBox w y → S (v ++ w) → False := fun v w hv hw hS => not_mem_of_isEmpty e4 (out2 v w hv hw hS)
    refine ⟨htk, hso, fun v hv => absurd hv (not_mem_of_isEmpty (isEmpty_setEmpty (by omega))), inLe, same, ?_, ?_, inKept, i1, i2,
      fun l hl => (i3 l hl).imp_right fun h D hD v hv => (mx v).mp (h D hD v hv), i4, i5⟩
    · intro v hv hnot
      exact absurd (inRem v hv hnot) (absd v w0 hv hw0)
    · intro v hv w hw hS
      exact absurd hS (absd v w hv hw)
  · rw [if_neg e4] at h
    obtain rfl := Option.some.inj h
    have hto : (r2.take xin.length).length = n := by rw [hi, List.length_take, l2]; omega
    obtain ⟨i1, i2, i3, i4, i5⟩ := impact_spec V (im := im) hx htk hto pt
    have outK : ∀ v w, InBox v xin → InBox w y → S (v ++ w) → InBox v (r2.take xin.length) := fun v w hv hw hS => by
      rw [hi]
      exact ((inBox_split (hvl v hv) (by omega)).mp (out2 v w hv hw hS)).1
    refine ⟨htk, hto, fun v hv => ?_, inLe, same, ?_, fun v hv w hw hS => outK v w hv hw hS, inKept, i1, i2,
      fun l hl => (i3 l hl).imp_right fun h D hD v hv => (mx v).mp (h D hD v hv), i4, i5⟩
    · change InBox v (r2.take xin.length) at hv
      rw [hi] at hv
      exact fst_le v r2 l2 (by simpa using e4) (fun u hu => V.sep_le _ hB u (.inr hu)) hv
    · intro v hv hnot
      exact ⟨⟨w0, hw0, inRem v hv hnot⟩, outK v w0 hv hw0 (inRem v hv hnot)⟩

/-- what `reconstrut_v2` does -/
theorem reconstruct_spec {im : Impact K} {xin xout x0 : Box K} {s : Box K × Box K} (hi : xin.length = n) (ho : xout.length = n) (h0 : x0.length = n)
    (hcin : ∀ l, im.cin = some l → ∀ D ∈ l, D.length = n) (hcout : ∀ l, im.cout = some l → ∀ D ∈ l, D.length = n)
    (le_in : ∀ v, InBox v xin → InBox v x0) (le_out : ∀ v, InBox v xout → InBox v x0)
    (h : reconstruct im xin xout x0 = some s) :
    s.1.length = n ∧ s.2.length = n ∧ (∀ v, InBox v xin → InBox v s.1) ∧ (∀ v, InBox v xout → InBox v s.2) ∧
    (∀ l, im.cin = some l → ∀ D ∈ l, ∀ v, InBox v D → InBox v x0 → InBox v s.1 ∨ InBox v s.2) ∧
    (∀ l, im.cout = some l → ∀ D ∈ l, ∀ v, InBox v D → InBox v x0 → InBox v s.1 ∨
      ∃ k, im.cin = some k ∧ isEmpty s.1 = true ∧ s.2 = addBoxes xout k) := by
  have addIn : ∀ l, im.cout = some l → (if im.cin.isNone then x0 else addBoxes xin l).length = n ∧
      (∀ v, InBox v xin → InBox v (if im.cin.isNone then x0 else addBoxes xin l)) ∧
      (∀ D ∈ l, ∀ v, InBox v D → InBox v x0 → InBox v (if im.cin.isNone then x0 else addBoxes xin l)) := by
    intro l hl
    by_cases e : im.cin.isNone
    · rw [if_pos e]; exact ⟨h0, le_in, fun _ _ _ _ h => h⟩
    · rw [if_neg e]
      exact ⟨addBoxes_length hi (hcout l hl), fun v hv => addBoxes_mem hi (hcout l hl) (.inl hv),
        fun D hD v hv _ => addBoxes_mem hi (hcout l hl) (.inr ⟨D, hD, hv⟩)⟩
  have addOut : ∀ l, im.cin = some l → (if im.cout.isNone then x0 else addBoxes xout l).length = n ∧
      (∀ v, InBox v xout → InBox v (if im.cout.isNone then x0 else addBoxes xout l)) ∧
      (∀ D ∈ l, ∀ v, InBox v D → InBox v x0 → InBox v (if im.cout.isNone then x0 else addBoxes xout l)) := by
    intro l hl
    by_cases e : im.cout.isNone
    · rw [if_pos e]; exact ⟨h0, le_out, fun _ _ _ _ h => h⟩
    · rw [if_neg e]
      exact ⟨addBoxes_length ho (hcin l hl), fun v hv => addBoxes_mem ho (hcin l hl) (.inl hv),
        fun D hD v hv _ => addBoxes_mem ho (hcin l hl) (.inr ⟨D, hD, hv⟩)⟩
  unfold reconstruct at h
  by_cases a1 : isEmpty xout && im.cout.isSome && im.cin.isSome
  · rw [if_pos a1] at h
    obtain rfl := Option.some.inj h
    exact ⟨h0, ho, le_in, fun v hv => hv, fun _ _ _ _ _ _ hv => .inl hv, fun _ _ _ _ _ _ hv => .inl hv⟩
  rw [if_neg a1] at h
  by_cases a2 : !isEmpty xin && !isEmpty xout
  · rw [if_pos a2] at h
    obtain rfl := Option.some.inj h
    cases hc : im.cin with
    | none =>
      cases hd : im.cout with
      | none => exact ⟨hi, ho, fun v hv => hv, fun v hv => hv, fun l hl => by simp at hl, fun l hl => by simp at hl⟩
      | some l =>
        obtain ⟨b1, b2, b3⟩ := addIn l hd
        rw [hc] at b1 b2 b3
        refine ⟨b1, ho, b2, fun v hv => hv, fun l hl => by simp at hl, ?_⟩
        intro l' hl'
        obtain rfl := Option.some.inj hl'
        exact fun D hD v hv h => .inl (b3 D hD v hv h)
    | some k =>
      obtain ⟨c1, c2, c3⟩ := addOut k hc
      cases hd : im.cout with
      | none =>
        rw [hd] at c1 c2 c3
        refine ⟨hi, c1, fun v hv => hv, c2, ?_, fun l hl => by simp at hl⟩
        intro l' hl'
        obtain rfl := Option.some.inj hl'
        exact fun D hD v hv h => .inr (c3 D hD v hv h)
      | some l =>
        obtain ⟨b1, b2, b3⟩ := addIn l hd
        rw [hc] at b1 b2 b3
        rw [hd] at c1 c2 c3
        refine ⟨b1, c1, b2, c2, ?_, ?_⟩
        · intro l' hl'
          obtain rfl := Option.some.inj hl'
          exact fun D hD v hv h => .inr (c3 D hD v hv h)
        · intro l' hl'
          obtain rfl := Option.some.inj hl'
          exact fun D hD v hv h => .inl (b3 D hD v hv h)
  rw [if_neg a2] at h
  by_cases a3 : isEmpty xin && im.cin.isSome
  · rw [if_pos a3] at h
    obtain rfl := Option.some.inj h
    rw [Bool.and_eq_true] at a3
    obtain ⟨k, hc⟩ := Option.isSome_iff_exists.mp a3.2
    obtain ⟨c1, c2, c3⟩ := addOut k hc
    rw [hc]
    refine ⟨hi, c1, fun v hv => hv, c2, ?_, ?_⟩
    · intro l' hl'
      obtain rfl := Option.some.inj hl'
      exact fun D hD v hv h => .inr (c3 D hD v hv h)
    · intro l hl D hD v hv h
      exact .inr ⟨k, rfl, a3.1, by simp [hl]⟩
  rw [if_neg a3] at h
  by_cases a4 : isEmpty xout && im.cout.isSome
  · rw [if_pos a4] at h
    obtain rfl := Option.some.inj h
    rw [Bool.and_eq_true] at a4
    obtain ⟨l, hd⟩ := Option.isSome_iff_exists.mp a4.2
    obtain ⟨b1, b2, b3⟩ := addIn l hd
    rw [hd]
    refine ⟨b1, ho, b2, fun v hv => hv, ?_, ?_⟩
    · intro k hk
      exact absurd (by simp [a4.1, a4.2, hk]) a1
    · intro l' hl'
      obtain rfl := Option.some.inj hl'
      exact fun D hD v hv h => .inl (b3 D hD v hv h)
  · rw [if_neg a4] at h; cases h

/-- the impacts at the beginning of `fixpoint` -/
theorem impact0_spec (V : Valid O n m S) {xin xout : Box K} (hi : xin.length = n) (ho : xout.length = n)
    (cov : ∀ v, InBox v (hull xin xout) → InBox v xin ∨ InBox v xout) :
    (∀ l, (impact0 O xin xout).cin = some l → (∀ D ∈ l, D.length = n) ∧ ∀ D ∈ l, ∀ v, InBox v D → InBox v xout) ∧
    (∀ l, (impact0 O xin xout).cout = some l → ∀ D ∈ l, D.length = n) ∧
    (∀ v, InBox v xout → ¬ InBox v xin → ∃ l, (impact0 O xin xout).cin = some l ∧ ∃ D ∈ l, InBox v D) ∧
    (∀ v, InBox v xin → ¬ InBox v xout → ∃ l, (impact0 O xin xout).cout = some l ∧ ∃ D ∈ l, InBox v D) := by
  have hX : (hull xin xout).length = n := by rw [hull_length (by rw [hi, ho])]; exact hi
  have inX : ∀ v, InBox v xin ∨ InBox v xout → InBox v (hull xin xout) := fun v hv => mem_hull (by rw [hi, ho]) hv
  unfold impact0
  by_cases e : beq xin xout
  · rw [if_neg (by simp [e])]
    have same := (beq_iff (by rw [hi, ho])).mp e
    exact ⟨fun l hl => by simp at hl, fun l hl => by simp at hl, fun v h1 h2 => absurd ((same v).mpr h1) h2, fun v h1 h2 => absurd ((same v).mp h1) h2⟩
  rw [if_pos (by simpa using e)]
  have c1 : (setCin O ⟨none, none⟩ xin (hull xin xout)).cin = none ∧ (∀ v, InBox v (hull xin xout) → InBox v xin) ∨
      (setCin O ⟨none, none⟩ xin (hull xin xout)).cin = some (O.diff (hull xin xout) xin) := by
    rcases setCin_cases O ⟨none, none⟩ xin (hull xin xout) with h | h
    · left
      rw [h.1]
      refine ⟨rfl, fun v => ((beq_iff (by rw [hi, hX])).mp (h.2.resolve_left (by simp)) v).mpr⟩
    · right; rw [h.2.2]
  have c2 : (setCin O ⟨none, none⟩ xin (hull xin xout)).cout = none := by
    rcases setCin_cases O ⟨none, none⟩ xin (hull xin xout) with h | h
    · rw [h.1]
    · rw [h.2.2]
  have c3 : (setCout O (setCin O ⟨none, none⟩ xin (hull xin xout)) xout (hull xin xout)).cin = (setCin O ⟨none, none⟩ xin (hull xin xout)).cin := by
    rcases setCout_cases O (setCin O ⟨none, none⟩ xin (hull xin xout)) xout (hull xin xout) with h | h
    · rw [h.1]
    · rw [h.2.2]
  have c4 : (setCout O (setCin O ⟨none, none⟩ xin (hull xin xout)) xout (hull xin xout)).cout = none ∧ (∀ v, InBox v (hull xin xout) → InBox v xout) ∨
      (setCout O (setCin O ⟨none, none⟩ xin (hull xin xout)) xout (hull xin xout)).cout = some (O.diff (hull xin xout) xout) := by
    rcases setCout_cases O (setCin O ⟨none, none⟩ xin (hull xin xout)) xout (hull xin xout) with h | h
    · left
      rw [h.1]
      exact ⟨c2, fun v => ((beq_iff (by rw [ho, hX])).mp (h.2.resolve_left (by simp [c2])) v).mpr⟩
    · right; rw [h.2.2]
  rw [c3]
  refine ⟨?_, ?_, ?_, ?_⟩
  · intro l hl
    rcases c1 with c1 | c1
    · rw [c1.1] at hl; cases hl
    · obtain rfl := Option.some.inj (c1.symm.trans hl)
      exact ⟨V.diff_len _ _ hX hi, V.diff_least _ _ _ hX hi ho fun v hv hnot => (cov v hv).resolve_left hnot⟩
  · intro l hl
    rcases c4 with c4 | c4
    · rw [c4.1] at hl; cases hl
    · obtain rfl := Option.some.inj (c4.symm.trans hl)
      exact V.diff_len _ _ hX ho
  · intro v h1 h2
    rcases c1 with c1 | c1
    · exact absurd (c1.2 v (inX v (.inr h1))) h2
    · exact ⟨_, c1, V.diff_cover _ _ hX hi v (inX v (.inr h1)) h2⟩
  · intro v h1 h2
    rcases c4 with c4 | c4
    · exact absurd (c4.2 v (inX v (.inl h1))) h2
    · exact ⟨_, c4, V.diff_cover _ _ hX ho v (inX v (.inl h1)) h2⟩

/-- what the calls of `process` in `fixpoint` do -/
structure FSpec (O : Ops K) (n : Nat) (S : List K → Prop) (xin xout y : Box K) (im : Impact K) (r : PRes K) : Prop where
  len_in : r.xin.length = n
  len_out : r.xout.length = n
  le_out : ∀ v, InBox v r.xout → InBox v xin ∧ InBox v xout
  le_in : ∀ v, InBox v r.xin → InBox v xin ∧ InBox v xout
  removed : ∀ v, InBox v xin → InBox v xout → ¬ InBox v r.xin → (∃ w, InBox w y ∧ S (v ++ w)) ∧ InBox v r.xout
  outer : ∀ v, InBox v xin → InBox v xout → ∀ w, InBox w y → S (v ++ w) → InBox v r.xout
  kept : ∀ v Y, (∀ w, InBox w y → InBox w Y) → Keeps O Y v → InBox v xin → InBox v xout → InBox v r.xin
  cin_len : (∀ l, im.cin = some l → ∀ D ∈ l, D.length = n) → ∀ l, r.im.cin = some l → ∀ D ∈ l, D.length = n
  cin_old : ∀ l, im.cin = some l → r.im.cin = some l
  cin_new : ∀ l, r.im.cin = some l → im.cin = some l ∨ ∀ D ∈ l, ∀ v, InBox v D → InBox v xout
  cout_len : (∀ l, im.cout = some l → ∀ D ∈ l, D.length = n) → ∀ l, r.im.cout = some l → ∀ D ∈ l, D.length = n
  cout_old : ∀ l, im.cout = some l → r.im.cout = some l

theorem two_spec (V : Valid O n m S) (hn : 0 < n) {xin xout y : Box K} {im : Impact K} {r1 r : PRes K} (hi : xin.length = n) (ho : xout.length = n)
    (hy : y.length = m) (hne : isEmpty y = false) (h1 : process O (inter xin xout) (inter xout (inter xin xout)) y im false = some r1)
    (h : (if r1.stop then some r1 else (process O r1.xin (inter (inter xout (inter xin xout)) r1.xin) (O.mid y) r1.im true).map
      fun r2 => (⟨r2.xin, r1.xout, r2.im, r2.stop⟩ : PRes K)) = some r) :
    FSpec O n S xin xout y im r := by
  have la : (inter xin xout).length = n := by rw [inter_length (by rw [hi, ho])]; exact hi
  have lb : (inter xout (inter xin xout)).length = n := by rw [inter_length (by rw [ho, la])]; exact ho
  have ma : ∀ v, InBox v (inter xin xout) ↔ InBox v xin ∧ InBox v xout := fun v => mem_inter (by rw [hi, ho])
  have P1 := process_spec V hn la lb hy hne h1
  by_cases e : r1.stop
  · rw [if_pos e] at h
    obtain rfl := Option.some.inj h
    exact ⟨P1.len_in, P1.len_out, fun v hv => (ma v).mp (P1.le_out v hv), fun v hv => (ma v).mp (P1.le_in v hv),
      fun v a b hnot => P1.removed v ((ma v).mpr ⟨a, b⟩) hnot, fun v a b => P1.outer v ((ma v).mpr ⟨a, b⟩), fun v Y hY hk a b => P1.kept v Y hY hk ((ma v).mpr ⟨a, b⟩),
      P1.cin_len, P1.cin_old, fun l hl => (P1.cin_new l hl).imp_right fun h D hD v hv => ((ma v).mp (h D hD v hv)).2, P1.cout_len, P1.cout_old⟩
  rw [if_neg e] at h
  obtain ⟨r2, h2, rfl⟩ := Option.map_eq_some_iff.mp h
  obtain ⟨mne, mle⟩ := V.mid_mem y hy hne
  have P2 := process_spec V hn P1.len_in (by rw [inter_length (by rw [lb, P1.len_in])]; exact lb) (V.mid_len y hy) mne h2
  refine ⟨P2.len_in, P1.len_out, fun v hv => (ma v).mp (P1.le_out v hv), fun v hv => (ma v).mp (P1.le_in v (P2.le_in v hv)), ?_,
    fun v a b => P1.outer v ((ma v).mpr ⟨a, b⟩), ?_, fun h => P2.cin_len (P1.cin_len h), fun l hl => P2.cin_old l (P1.cin_old l hl), ?_,
    fun h => P2.cout_len (P1.cout_len h), fun l hl => P2.cout_old l (P1.cout_old l hl)⟩
  · intro v a b hnot
    by_cases hv : InBox v r1.xin
    · obtain ⟨⟨w, hw, hS⟩, _⟩ := P2.removed v hv hnot
      exact ⟨⟨w, mle w hw, hS⟩, P1.outer v ((ma v).mpr ⟨a, b⟩) w (mle w hw) hS⟩
    · exact P1.removed v ((ma v).mpr ⟨a, b⟩) hv
  · intro v Y hY hk a b
    exact P2.kept v Y (fun w hw => hY w (mle w hw)) hk (P1.kept v Y hY hk ((ma v).mpr ⟨a, b⟩))
  · intro l hl
    rcases P2.cin_new l hl with h | h
    · exact (P1.cin_new l h).imp_right fun h D hD v hv => ((ma v).mp (h D hD v hv)).2
    · exact .inr fun D hD v hv => ((ma v).mp (P1.le_in v (h D hD v hv))).2

/-- what `fixpoint` does -/
theorem fixpoint_spec (V : Valid O n m S) (hn : 0 < n) {xin xout y : Box K} {s : Box K × Box K} (hi : xin.length = n) (ho : xout.length = n)
    (hy : y.length = m) (hne : isEmpty y = false) (cov : ∀ v, InBox v (hull xin xout) → InBox v xin ∨ InBox v xout)
    (h : fixpoint O xin xout y = some s) :
    s.1.length = n ∧ s.2.length = n ∧
    (∀ v, InBox v s.1 ∨ InBox v s.2 → InBox v (hull xin xout)) ∧
    (∀ v, InBox v (hull xin xout) → ¬ InBox v s.1 → ¬ InBox v xin ∨ ∃ w, InBox w y ∧ S (v ++ w)) ∧
    (∀ v, InBox v (hull xin xout) → InBox v s.1 ∨ InBox v s.2) ∧
    (∀ v Y, (∀ u, InBox u y → InBox u Y) → Keeps O Y v → InBox v xin → InBox v s.1) ∧
    (∀ v w, InBox v xin → InBox v xout → InBox w y → S (v ++ w) → InBox v s.2) := by
  unfold fixpoint at h
  obtain ⟨r1, h1, h⟩ := Option.bind_eq_some_iff.mp h
  obtain ⟨r, h2, h⟩ := Option.bind_eq_some_iff.mp h
  obtain ⟨s', h3, h⟩ := Option.bind_eq_some_iff.mp h
  by_cases e : beq (hull s'.1 s'.2) (hull xin xout)
  swap
  · rw [if_neg e] at h; cases h
  rw [if_pos e] at h
  obtain rfl := Option.some.inj h
  have hX : (hull xin xout).length = n := by rw [hull_length (by rw [hi, ho])]; exact hi
  have inX : ∀ v, InBox v xin ∨ InBox v xout → InBox v (hull xin xout) := fun v hv => mem_hull (by rw [hi, ho]) hv
  have F := two_spec V hn hi ho hy hne h1 h2
  obtain ⟨z1, z2, z3, z4⟩ := impact0_spec V hi ho cov
  obtain ⟨l1, l2, g1, g2, g3, g4⟩ := reconstruct_spec F.len_in F.len_out hX (F.cin_len fun l hl => (z1 l hl).1) (F.cout_len z2)
    (fun v hv => inX v (.inl (F.le_in v hv).1)) (fun v hv => inX v (.inl (F.le_out v hv).1)) h3
  have same := (beq_iff (by rw [hull_length (by rw [l1, l2]), l1, hX])).mp e
  have inS : ∀ v, InBox v s'.1 ∨ InBox v s'.2 → InBox v (hull xin xout) := fun v hv => (same v).mp (mem_hull (by rw [l1, l2]) hv)
  -- a point of the inner box only is kept in the inner box
  have only : ∀ v, InBox v xin → ¬ InBox v xout → InBox v s'.1 := by
    intro v hv hnot
    obtain ⟨l, hl, D, hD, hvD⟩ := z4 v hv hnot
    rcases g4 l (F.cout_old l hl) D hD v hvD (inX v (.inl hv)) with h | ⟨k, hk, he, hs⟩
    · exact h
    · exfalso
      have hv2 : InBox v (hull s'.1 s'.2) := (same v).mpr (inX v (.inl hv))
      refine hnot (hull_least (Z := xout) (fun u hu => absurd hu (not_mem_of_isEmpty he)) (fun u hu => ?_) hv2)
      rw [hs] at hu
      refine addBoxes_le (fun u hu => (F.le_out u hu).2) (fun D hD u hu => ?_) hu
      rcases F.cin_new k hk with h | h
      · exact (z1 k h).2 D hD u hu
      · exact h D hD u hu
  refine ⟨l1, l2, inS, ?_, ?_, ?_, fun v w a b hw hS => g2 v (F.outer v a b w hw hS)⟩
  · intro v hv hnot
    by_cases h1 : InBox v xin
    · right
      have h2 : InBox v xout := by
        by_contra h2
        exact hnot (only v h1 h2)
      exact (F.removed v h1 h2 fun h => hnot (g1 v h)).1
    · exact .inl h1
  · intro v hv
    by_cases h1 : InBox v xin
    · by_cases h2 : InBox v xout
      · by_cases h3 : InBox v r.xin
        · exact .inl (g1 v h3)
        · exact .inr (g2 v (F.removed v h1 h2 h3).2)
      · exact .inl (only v h1 h2)
    · obtain ⟨l, hl, D, hD, hvD⟩ := z3 v ((cov v hv).resolve_left h1) h1
      exact g3 l (F.cin_old l hl) D hD v hvD hv
  · intro v Y hY hk a
    by_cases b : InBox v xout
    · exact g1 v (F.kept v Y hY hk a b)
    · exact only v a b

theorem compUnion_spec (V : Valid O n m S) {x y x0 z : Box K} (hx : x.length = n) (hy : y.length = n) (h0 : x0.length = n) (h : compUnion O x y x0 = some z) :
    z.length = n ∧ (∀ v, InBox v x → InBox v z) ∧ ∀ v, InBox v x0 → InBox v y ∨ InBox v z := by
  unfold compUnion at h
  by_cases e : beq x x0
  · rw [if_pos e] at h
    obtain rfl := Option.some.inj h
    exact ⟨hx, fun v hv => hv, fun v hv => .inr (((beq_iff (by rw [hx, h0])).mp e v).mpr hv)⟩
  rw [if_neg e] at h
  simp only [] at h
  by_cases e2 : beq (hull (addBoxes x (O.diff x0 y)) y) x0
  · rw [if_pos e2] at h
    obtain rfl := Option.some.inj h
    have hd := V.diff_len x0 y h0 hy
    refine ⟨addBoxes_length hx hd, fun v hv => addBoxes_mem hx hd (.inl hv), fun v hv => ?_⟩
    by_cases h1 : InBox v y
    · exact .inl h1
    · exact .inr (addBoxes_mem hx hd (.inr (V.diff_cover x0 y h0 hy v hv h1)))
  · rw [if_neg e2] at h; cases h

/-- the state of the loop of `separate` -/
structure LInv (O : Ops K) (n m : Nat) (S : List K → Prop) (Y x0 : Box K) (q : List (Box K × Box K)) (xin xres : Box K) : Prop where
  len_in : xin.length = n
  len_res : xres.length = n
  le_in : ∀ v, InBox v xin → InBox v x0
  le_res : ∀ v, InBox v xres → InBox v x0
  items : ∀ e ∈ q, e.1.length = n ∧ e.2.length = m ∧ isEmpty e.2 = false ∧ (∀ w, InBox w e.2 → InBox w Y) ∧ ∀ v, InBox v e.1 → InBox v x0
  inner : ∀ v, InBox v x0 → ¬ InBox v xin → ∃ w, InBox w Y ∧ S (v ++ w)

/-- the point `v` is in the inner box, in the outer box, or still to be processed -/
def Cov (q : List (Box K × Box K)) (xin xres : Box K) (v : List K) : Prop := InBox v xin ∨ InBox v xres ∨ ∃ e ∈ q, InBox v e.1

/-- the point `v` with the parameter `w` is in the inner box, and in the outer box or still to be processed -/
def Hold (q : List (Box K × Box K)) (xin xres : Box K) (v w : List K) : Prop := InBox v xin ∧ (InBox v xres ∨ ∃ e ∈ q, InBox v e.1 ∧ InBox w e.2)

theorem loop_spec (V : Valid O n m S) (hn : 0 < n) {Y x0 : Box K} (h0 : x0.length = n) (k : Nat) : ∀ (q : List (Box K × Box K)) (xin xres : Box K) (s : Box K × Box K), LInv O n m S Y x0 q xin xres → loop O x0 k q xin xres = some (some s) →
      LInv O n m S Y x0 [] s.1 s.2 ∧ ((∀ x y, y.length = m → O.small x y = false → isEmpty y = false → O.bisect y ≠ none) →
      (∀ v, InBox v x0 → Cov q xin xres v → Cov [] s.1 s.2 v) ∧
      (∀ v w, InBox v x0 → Keeps O Y v → S (v ++ w) → Hold q xin xres v w → Hold [] s.1 s.2 v w)) := by
  induction k with
  | zero =>
    intro q xin xres s I h
    cases q with
    | nil => rw [loop] at h; obtain rfl := Option.some.inj (Option.some.inj h); exact ⟨I, fun _ => ⟨fun _ _ h => h, fun _ _ _ _ _ h => h⟩⟩
    | cons e q => rw [loop] at h; cases h
  | succ k ih =>
    intro q xin xres s I h
    cases q with
    | nil => rw [loop] at h; obtain rfl := Option.some.inj (Option.some.inj h); exact ⟨I, fun _ => ⟨fun _ _ h => h, fun _ _ _ _ _ h => h⟩⟩
    | cons e q =>
      obtain ⟨xo, y⟩ := e
      obtain ⟨i1, i2, i3, i4, i5⟩ := I.items (xo, y) (by simp)
      simp only [] at i1 i2 i3 i4 i5
      have rest : ∀ e ∈ q, e.1.length = n ∧ e.2.length = m ∧ isEmpty e.2 = false ∧ (∀ w, InBox w e.2 → InBox w Y) ∧ ∀ v, InBox v e.1 → InBox v x0 :=
        fun e he => I.items e (by simp [he])
      rw [loop] at h
      by_cases e1 : isSubset xo xres
      · rw [if_pos e1] at h
        have hs := (isSubset_iff (by rw [i1, I.len_res])).mp e1
        obtain ⟨J, c⟩ := ih q xin xres s ⟨I.len_in, I.len_res, I.le_in, I.le_res, rest, I.inner⟩ h
        refine ⟨J, fun hb => ⟨fun v hv hc => (c hb).1 v hv ?_, fun v w hv hk hS hc => (c hb).2 v w hv hk hS ⟨hc.1, ?_⟩⟩⟩
        · rcases hc with hc | hc | ⟨e, he, hc⟩
          · exact .inl hc
          · exact .inr (.inl hc)
          · rcases List.mem_cons.mp he with rfl | he
            · exact .inr (.inl (hs v hc))
            · exact .inr (.inr ⟨e, he, hc⟩)
        · rcases hc.2 with hc | ⟨e, he, hc⟩
          · exact .inl hc
          · rcases List.mem_cons.mp he with rfl | he
            · exact .inl (hs v hc.1)
            · exact .inr ⟨e, he, hc⟩
      rw [if_neg e1] at h
      cases hcu : compUnion O xo xin x0 with
      | none => rw [hcu] at h; simp at h
      | some xo1 =>
        obtain ⟨u1, u2, u3⟩ := compUnion_spec V i1 I.len_in h0 hcu
        rw [hcu] at h
        simp only [] at h
        by_cases e2 : beq (hull xin xo1) x0
        swap
        · rw [if_pos (by simpa using e2)] at h; simp at h
        rw [if_neg (by simpa using e2)] at h
        have same := (beq_iff (by rw [hull_length (by rw [I.len_in, u1]), I.len_in, h0])).mp e2
        cases hf : fixpoint O xin xo1 y with
        | none => rw [hf] at h; simp at h
        | some t =>
          rw [hf] at h
          simp only [] at h
          obtain ⟨f1, f2, f3, f4, f5, f6, f7⟩ := fixpoint_spec V hn I.len_in u1 i2 i3 (fun v hv => u3 v ((same v).mp hv)) hf
          have le1 : ∀ v, InBox v t.1 → InBox v x0 := fun v hv => (same v).mp (f3 v (.inl hv))
          have le2 : ∀ v, InBox v t.2 → InBox v x0 := fun v hv => (same v).mp (f3 v (.inr hv))
          have inn : ∀ v, InBox v x0 → ¬ InBox v t.1 → ∃ w, InBox w Y ∧ S (v ++ w) := by
            intro v hv hnot
            rcases f4 v ((same v).mpr hv) hnot with h | ⟨w, hw, hS⟩
            · exact I.inner v hv h
            · exact ⟨w, i4 w hw, hS⟩
          have cv : ∀ v, InBox v x0 → InBox v t.1 ∨ InBox v t.2 := fun v hv => f5 v ((same v).mpr hv)
          have stay : ∀ v, Keeps O Y v → InBox v xin → InBox v t.1 := fun v hk hin => f6 v Y i4 hk hin
          -- the next call of the loop, without the item
          have go : ∀ (q' : List (Box K × Box K)) (xr : Box K), xr.length = n → (∀ v, InBox v xres → InBox v xr) → (∀ v, InBox v xr → InBox v x0) →
              (∀ e ∈ q, e ∈ q') →
              (∀ e ∈ q', e.1.length = n ∧ e.2.length = m ∧ isEmpty e.2 = false ∧ (∀ w, InBox w e.2 → InBox w Y) ∧ ∀ v, InBox v e.1 → InBox v x0) →
              ((∀ x y, y.length = m → O.small x y = false → isEmpty y = false → O.bisect y ≠ none) → (∀ v, InBox v t.2 → InBox v xr ∨ ∃ e ∈ q', InBox v e.1) ∧
                (∀ v w, InBox v t.2 → InBox w y → InBox v xr ∨ ∃ e ∈ q', InBox v e.1 ∧ InBox w e.2)) →
              loop O x0 k q' t.1 xr = some (some s) →
              LInv O n m S Y x0 [] s.1 s.2 ∧ ((∀ x y, y.length = m → O.small x y = false → isEmpty y = false → O.bisect y ≠ none) →
              (∀ v, InBox v x0 → Cov ((xo, y) :: q) xin xres v → Cov [] s.1 s.2 v) ∧
              (∀ v w, InBox v x0 → Keeps O Y v → S (v ++ w) → Hold ((xo, y) :: q) xin xres v w → Hold [] s.1 s.2 v w)) := by
            intro q' xr hr hle hr0 hq hq' hch hl
            obtain ⟨J, c⟩ := ih q' t.1 xr s ⟨f1, hr, le1, hr0, hq', inn⟩ hl
            refine ⟨J, fun hb => ⟨fun v hv _ => (c hb).1 v hv ?_, fun v w hv hk hS hc => (c hb).2 v w hv hk hS ⟨stay v hk hc.1, ?_⟩⟩⟩
            · rcases cv v hv with h | h
              · exact .inl h
              · exact .inr ((hch hb).1 v h)
            · rcases hc.2 with h | ⟨e, he, h⟩
              · exact .inl (hle v h)
              · rcases List.mem_cons.mp he with rfl | he
                · exact (hch hb).2 v w (f7 v w hc.1 (u2 v h.1) h.2 hS) h.2
                · exact .inr ⟨e, hq e he, h⟩
          by_cases e3 : isEmpty t.2
          · rw [if_pos e3] at h
            exact go q xres I.len_res (fun _ h => h) I.le_res (fun _ h => h) rest (fun _ => ⟨fun v hv => absurd hv (not_mem_of_isEmpty e3),
              fun v w hv => absurd hv (not_mem_of_isEmpty e3)⟩) h
          rw [if_neg e3] at h
          by_cases e4 : beq (hull t.1 t.2) x0
          swap
          · rw [if_pos (by simpa using e4)] at h; simp at h
          rw [if_neg (by simpa using e4)] at h
          by_cases e5 : isEmpty (inter t.1 t.2) || O.small (inter t.1 t.2) y || isEmpty y
          · rw [if_pos e5] at h
            have hl : xres.length = t.2.length := by rw [I.len_res, f2]
            exact go q (hull xres t.2) (by rw [hull_length hl, I.len_res]) (fun v hv => mem_hull hl (.inl hv)) (fun v hv => hull_least I.le_res le2 hv) (fun _ h => h) rest
              (fun _ => ⟨fun v hv => .inl (mem_hull hl (.inr hv)), fun v w hv _ => .inl (mem_hull hl (.inr hv))⟩) h
          rw [if_neg e5] at h
          by_cases e6 : isSubset t.2 xres
          · rw [if_neg (by simp [e6])] at h
            have hs := (isSubset_iff (by rw [f2, I.len_res])).mp e6
            exact go q xres I.len_res (fun _ h => h) I.le_res (fun _ h => h) rest (fun _ => ⟨fun v hv => .inl (hs v hv), fun v w hv _ => .inl (hs v hv)⟩) h
          rw [if_pos (by simpa using e6)] at h
          cases hb : O.bisect y with
          | none =>
            simp only [Bool.or_eq_true, not_or, Bool.not_eq_true] at e5
            rw [hb] at h
            exact go q xres I.len_res (fun _ h => h) I.le_res (fun _ h => h) rest (fun hbis => absurd hb (hbis _ _ i2 e5.1.2 e5.2)) h
          | some c =>
            rw [hb] at h
            simp only [] at h
            obtain ⟨b1, b2⟩ := V.bisect_len y c i2 hb
            obtain ⟨n1, n2⟩ := V.bisect_ne y c i2 i3 hb
            refine go (q ++ [(t.2, c.1), (t.2, c.2)]) xres I.len_res (fun _ h => h) I.le_res (fun e he => by simp [he]) ?_ (fun _ => ⟨?_, ?_⟩) h
            · intro e he
              rcases List.mem_append.mp he with he | he
              · exact rest e he
              · rcases List.mem_cons.mp he with rfl | he
                · exact ⟨f2, b1, n1, fun w hw => i4 w (V.bisect_le y c i2 hb w (.inl hw)), le2⟩
                · obtain rfl := List.mem_singleton.mp he
                  exact ⟨f2, b2, n2, fun w hw => i4 w (V.bisect_le y c i2 hb w (.inr hw)), le2⟩
            · intro v hv
              exact .inr ⟨(t.2, c.1), by simp, hv⟩
            · intro v w hv hw
              rcases V.bisect_cover y c i2 hb w hw with h | h
              · exact .inr ⟨(t.2, c.1), by simp, hv, h⟩
              · exact .inr ⟨(t.2, c.2), by simp, hv, h⟩

/-- the loop stops: each item costs at most `2^(rank + 1) - 1` iterations, when the bisections decrease a rank -/
theorem loop_stops {rk : Box K → Nat} {P : Box K → Prop} {x0 : Box K}
    (hrk : ∀ x y c, P y → O.small x y = false → O.bisect y = some c → P c.1 ∧ P c.2 ∧ rk c.1 < rk y ∧ rk c.2 < rk y)
    (k : Nat) : ∀ (q : List (Box K × Box K)) (xin xres : Box K), (∀ e ∈ q, P e.2) → (q.map fun e => 2 ^ (rk e.2 + 1) - 1).sum ≤ k → loop O x0 k q xin xres ≠ none := by
  induction k with
  | zero =>
    intro q xin xres hP h
    cases q with
    | nil => simp [loop]
    | cons e q =>
      exfalso
      have := Nat.one_lt_two_pow (n := rk e.2 + 1) (by omega)
      simp only [List.map_cons, List.sum_cons] at h
      omega
  | succ k ih =>
    intro q xin xres hP h
    cases q with
    | nil => simp [loop]
    | cons e q =>
      obtain ⟨xo, y⟩ := e
      have hPq : ∀ e ∈ q, P e.2 := fun e he => hP e (by simp [he])
      have h2 := Nat.one_lt_two_pow (n := rk y + 1) (by omega)
      simp only [List.map_cons, List.sum_cons] at h
      have hq : (q.map fun e => 2 ^ (rk e.2 + 1) - 1).sum ≤ k := by omega
      rw [loop]
      by_cases e1 : isSubset xo xres
      · rw [if_pos e1]; exact ih _ _ _ hPq hq
      rw [if_neg e1]
      cases compUnion O xo xin x0 with
      | none => simp
      | some xo1 =>
        simp only []
        by_cases e2 : beq (hull xin xo1) x0
        swap
        · rw [if_pos (by simpa using e2)]; simp
        rw [if_neg (by simpa using e2)]
        cases fixpoint O xin xo1 y with
        | none => simp
        | some t =>
          simp only []
          by_cases e3 : isEmpty t.2
          · rw [if_pos e3]; exact ih _ _ _ hPq hq
          rw [if_neg e3]
          by_cases e4 : beq (hull t.1 t.2) x0
          swap
          · rw [if_pos (by simpa using e4)]; simp
          rw [if_neg (by simpa using e4)]
          by_cases e5 : isEmpty (inter t.1 t.2) || O.small (inter t.1 t.2) y || isEmpty y
          · rw [if_pos e5]; exact ih _ _ _ hPq hq
          rw [if_neg e5]
          by_cases e6 : isSubset t.2 xres
          · rw [if_neg (by simp [e6])]; exact ih _ _ _ hPq hq
          rw [if_pos (by simpa using e6)]
          cases hb : O.bisect y with
          | none => exact ih _ _ _ hPq hq
          | some c =>
            simp only [Bool.or_eq_true, not_or, Bool.not_eq_true] at e5
            obtain ⟨p1, p2, r1, r2⟩ := hrk _ y c (hP (xo, y) (by simp)) e5.1.2 hb
            refine ih _ _ _ ?_ ?_
            · intro e he
              rcases List.mem_append.mp he with he | he
              · exact hPq e he
              · rcases List.mem_cons.mp he with rfl | he
                · exact p1
                · obtain rfl := List.mem_singleton.mp he
                  exact p2
            simp only [List.map_append, List.sum_append, List.map_cons, List.sum_cons, List.map_nil, List.sum_nil]
            have a1 : 2 ^ (rk c.1 + 1) ≤ 2 ^ rk y := Nat.pow_le_pow_right (by omega) r1
            have a2 : 2 ^ (rk c.2 + 1) ≤ 2 ^ rk y := Nat.pow_le_pow_right (by omega) r2
            have a3 : 2 ^ (rk y + 1) = 2 * 2 ^ rk y := by rw [pow_succ]; ring
            omega

end Codac.Proj
