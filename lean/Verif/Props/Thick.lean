import Verif.Thick.Disk
import Mathlib.Data.Rat.Floor

/-! # Thick sets: C41 (thick booleans), C42 (combinations of thick tests), C43 (thick intervals and boxes), C56 (thick disks) -/

set_option linter.unusedSectionVars false

namespace Codac.Props

/-! ### C41 -/

/-- C41: `&&`, `||`, `!` on thick booleans contain the three-valued operation on all members, `&` contains the common members and `|` all members -/
theorem C41_logic (x y : TB) (a b : V3) :
    (x.has a = true → y.has b = true → (x.opAnd y).has (a.and b) = true) ∧ (x.has a = true → y.has b = true → (x.opOr y).has (a.or b) = true) ∧
      (x.has a = true → x.opNot.has a.not = true) ∧ (x.has a = true → y.has a = true → (x.opInter y).has a = true) ∧
      (x.has a = true ∨ y.has a = true → (x.opUnion y).has a = true) :=
  ⟨TB.and_sound, TB.or_sound, TB.not_sound, TB.inter_sound, fun h => h.elim TB.union_left TB.union_right⟩

/-- C41: `||` and `!` are exact: each member of the result comes from members of the operands. For `&&` one case is not: `[0,1] && [?]` is `[0,1]` (codac_ThickBoolean.h:99) -/
theorem C41_exact (x y : TB) (c : V3) :
    ((x.opOr y).has c = true → ∃ a b, x.has a = true ∧ y.has b = true ∧ a.or b = c) ∧
      (x.opNot.has c = true → ∃ a, x.has a = true ∧ a.not = c) ∧
      ((x.opAnd y).has c = true → (∃ a b, x.has a = true ∧ y.has b = true ∧ a.and b = c) ∨ (x = .unk ∧ (y = .maybe ∨ y = .maybeOut)) ∨ (y = .unk ∧ (x = .maybe ∨ x = .maybeOut))) := by
  have hE : ∀ p : V3 → Prop, (∃ a, p a) ↔ p .no ∨ p .maybe ∨ p .yes := fun p =>
    ⟨fun ⟨a, h⟩ => by cases a <;> simp [h], fun h => by rcases h with h | h | h <;> exact ⟨_, h⟩⟩
  simp only [hE]
  refine ⟨?_, ?_, ?_⟩
  · cases x <;> cases y <;> cases c <;> decide
  · cases x <;> cases c <;> decide
  · cases x <;> cases y <;> cases c <;> decide

/-- C41: the four operators are commutative -/
theorem C41_commutative (x y : TB) : x.opAnd y = y.opAnd x ∧ x.opOr y = y.opOr x ∧ x.opInter y = y.opInter x ∧ x.opUnion y = y.opUnion x := by
  cases x <;> cases y <;> decide

/-- C41: the other unary operations and the exclusive or -/
theorem C41_others (x y : TB) (a b : V3) (ha : x.has a = true) (hb : y.has b = true) :
    x.opUpper.has (if a = .maybe then .yes else a) = true ∧ x.opLower.has (if a = .maybe then .no else a) = true ∧ x.opInner.has (if a = .no then .maybe else a) = true ∧
      (x.opRestrict y).has (a.and b.not) = true ∧ (x.opXor y).has ((a.and b.not).or (b.and a.not)) = true := by
  revert ha hb; cases x <;> cases y <;> cases a <;> cases b <;> decide

/-- C41: `opSupSub` combines a test of the subset and a test of the superset -/
theorem C41_sup_sub (i o : TB) (sub sup : Bool) (h : sub = true → sup = true) (hi : i = .in_ ∨ i = .out ∨ i = .unk) (ho : o = .in_ ∨ o = .out ∨ o = .unk)
    (h1 : i.has (V3.of sub sub) = true) (h2 : o.has (V3.of sup sup) = true) : (TB.opSupSub i o).has (V3.of sub sup) = true := by
  revert h h1 h2
  rcases hi with rfl | rfl | rfl <;> rcases ho with rfl | rfl | rfl <;> cases sub <;> cases sup <;> decide

/-- C41 fails for `opThickInter`: it is not commutative and loses common members -/
theorem C41_thick_inter_fails : (∃ x y : TB, x.opThickInter y ≠ y.opThickInter x) ∧
    ∃ (x y : TB) (a : V3), x.has a = true ∧ y.has a = true ∧ (x.opThickInter y).has a = false := ⟨⟨.out, .unk, by decide⟩, .unk, .out, .no, by decide⟩

example : TB.has .maybeIn .yes = true ∧ TB.has .maybeOut .no = true ∧ TB.opAnd .maybeIn .maybeOut = .maybeOut := by decide

/-! ### C42 -/

/-- a thick set: membership of its subset and of its superset -/
structure ThickSet (α : Type*) where
  sub : α → Bool
  sup : α → Bool
  incl : ∀ x, sub x = true → sup x = true

/-- value of a point -/
def ThickSet.val {α : Type*} (S : ThickSet α) (x : α) : V3 := V3.of (S.sub x) (S.sup x)

/-- the test is sound for the thick set: its result on a box has the values of all the points of the box -/
def SoundTest {α β : Type*} (mem : α → β → Prop) (S : ThickSet α) (t : ThickTest β) : Prop := ∀ box x, mem x box → (t box).has (S.val x) = true

variable {α β : Type*} {mem : α → β → Prop}

theorem foldAnd_val (x : α) (l : List (ThickSet α)) (a b : Bool) (h : a = true → b = true) :
    (l.map fun S => S.val x).foldl V3.and (V3.of a b) = V3.of (a && l.all fun S => S.sub x) (b && l.all fun S => S.sup x) := by
  induction l generalizing a b with
  | nil => simp
  | cons S l ih =>
    rw [List.map_cons, List.foldl_cons, ThickSet.val, V3.and_of _ _ _ _ h (S.incl x), ih]
    · simp [Bool.and_assoc]
    · intro h1
      rw [Bool.and_eq_true] at h1 ⊢
      exact ⟨h h1.1, S.incl x h1.2⟩

theorem foldOr_val (x : α) (l : List (ThickSet α)) (a b : Bool) (h : a = true → b = true) :
    (l.map fun S => S.val x).foldl V3.or (V3.of a b) = V3.of (a || l.any fun S => S.sub x) (b || l.any fun S => S.sup x) := by
  induction l generalizing a b with
  | nil => simp
  | cons S l ih =>
    rw [List.map_cons, List.foldl_cons, ThickSet.val, V3.or_of _ _ _ _ h (S.incl x), ih]
    · simp [Bool.or_assoc]
    · intro h1
      rw [Bool.or_eq_true] at h1 ⊢
      exact h1.imp h (S.incl x)

/-- C42: `ThickAnd` over any non-empty list of sound tests is sound for the intersection of the thick sets -/
theorem C42_and (l : List (ThickTest β × ThickSet α)) (hne : l ≠ []) (hl : ∀ p ∈ l, SoundTest mem p.2 p.1) {box : β} {x : α} (hx : mem x box) :
    ∃ r, thickAnd (l.map Prod.fst) box = some r ∧ r.has (V3.of ((l.map Prod.snd).all fun S => S.sub x) ((l.map Prod.snd).all fun S => S.sup x)) = true := by
  cases l with
  | nil => exact absurd rfl hne
  | cons p l =>
    refine ⟨_, rfl, ?_⟩
    have := foldAnd_sound box (l.map fun q => (q.1, q.2.val x)) (by
      intro q hq
      obtain ⟨q', hq', rfl⟩ := List.mem_map.mp hq
      exact hl q' (by simp [hq']) box x hx) (p.1 box) (p.2.val x) (hl p (by simp) box x hx)
    rw [List.map_map, List.map_map] at this
    have e : (l.map (Prod.snd ∘ fun q => (q.1, q.2.val x))) = (l.map Prod.snd).map fun S => S.val x := by rw [List.map_map]; rfl
    rw [e, ThickSet.val, foldAnd_val x _ _ _ (p.2.incl x)] at this
    exact this

/-- C42: `ThickOr` over any non-empty list of sound tests is sound for the union -/
theorem C42_or (l : List (ThickTest β × ThickSet α)) (hne : l ≠ []) (hl : ∀ p ∈ l, SoundTest mem p.2 p.1) {box : β} {x : α} (hx : mem x box) :
    ∃ r, thickOr (l.map Prod.fst) box = some r ∧ r.has (V3.of ((l.map Prod.snd).any fun S => S.sub x) ((l.map Prod.snd).any fun S => S.sup x)) = true := by
  cases l with
  | nil => exact absurd rfl hne
  | cons p l =>
    refine ⟨_, rfl, ?_⟩
    have := orLoop_sound box (l.map fun q => (q.1, q.2.val x)) (by
      intro q hq
      obtain ⟨q', hq', rfl⟩ := List.mem_map.mp hq
      exact hl q' (by simp [hq']) box x hx) (p.1 box) (p.2.val x) (hl p (by simp) box x hx)
    rw [List.map_map, List.map_map] at this
    have e : (l.map (Prod.snd ∘ fun q => (q.1, q.2.val x))) = (l.map Prod.snd).map fun S => S.val x := by rw [List.map_map]; rfl
    rw [e, ThickSet.val, foldOr_val x _ _ _ (p.2.incl x)] at this
    exact this

/-- C42: `ThickInter` of several sound tests of the same thick set is sound for it -/
theorem C42_inter (S : ThickSet α) (l : List (ThickTest β)) (hne : l ≠ []) (hl : ∀ t ∈ l, SoundTest mem S t) {box : β} {x : α} (hx : mem x box) :
    ∃ r, thickInter l box = some r ∧ r.has (S.val x) = true := by
  cases l with
  | nil => exact absurd rfl hne
  | cons t l => exact ⟨_, rfl, foldInter_sound box _ l (fun u hu => hl u (by simp [hu]) box x hx) _ (hl t (by simp) box x hx)⟩

/-- C42: `ThickQInter` over any list of sound tests is sound for the q-intersection: the points in at least `q` of the subsets, in at least `q` of the supersets -/
theorem C42_qinter (q : Nat) (l : List (ThickTest β × ThickSet α)) (hl : ∀ p ∈ l, SoundTest mem p.2 p.1) {box : β} {x : α} (hx : mem x box) :
    (thickQInter q (l.map Prod.fst) box).has
      (V3.of (decide (q ≤ (l.map Prod.snd).countP fun S => S.sub x)) (decide (q ≤ (l.map Prod.snd).countP fun S => S.sup x))) = true := by
  have h := sum_sound (l.map fun p => (p.1 box, p.2.val x)) (by
    intro p hp
    obtain ⟨p', hp', rfl⟩ := List.mem_map.mp hp
    exact hl p' hp' box x hx) ⟨0, 0, 0, 0⟩ 0 0 le_rfl le_rfl le_rfl le_rfl le_rfl le_rfl
  rw [List.map_map, List.map_map] at h
  have e1 : (l.map (Prod.fst ∘ fun p => (p.1 box, p.2.val x))) = (l.map Prod.fst).map fun t => t box := by rw [List.map_map]; rfl
  have e2 : (l.map (Prod.snd ∘ fun p => (p.1 box, p.2.val x))) = (l.map Prod.snd).map fun S => S.val x := by rw [List.map_map]; rfl
  have e3 : ((l.map Prod.snd).map fun S => S.val x).countP (fun v => decide (v = .yes)) = (l.map Prod.snd).countP fun S => S.sub x := by
    rw [List.countP_map]
    congr 1
    funext S
    have := S.incl x
    simp only [Function.comp, ThickSet.val, V3.of]
    by_cases hs : S.sub x = true <;> by_cases hp : S.sup x = true <;> simp_all
  have e4 : ((l.map Prod.snd).map fun S => S.val x).countP (fun v => decide (v ≠ .no)) = (l.map Prod.snd).countP fun S => S.sup x := by
    rw [List.countP_map]
    congr 1
    funext S
    have := S.incl x
    simp only [Function.comp, ThickSet.val, V3.of]
    by_cases hs : S.sub x = true <;> by_cases hp : S.sup x = true <;> simp_all
  rw [e1, e2, e3, e4] at h
  unfold thickQInter qInterTest
  have hcs : (l.map Prod.snd).countP (fun S => S.sub x) ≤ (l.map Prod.snd).countP fun S => S.sup x := List.countP_mono_left fun S _ => S.incl x
  change _ ∧ _ at h
  have e5 : List.foldl TSum.add ⟨0, 0, 0, 0⟩ ((l.map Prod.fst).map fun t => t box) = thickBooleanSum ((l.map Prod.fst).map fun t => t box) := rfl
  rw [e5] at h
  generalize thickBooleanSum ((l.map Prod.fst).map fun t => t box) = s at *
  generalize (l.map Prod.snd).countP (fun S => S.sub x) = n at *
  generalize (l.map Prod.snd).countP (fun S => S.sup x) = m at *
  obtain ⟨h1, h2, h3, h4, h5, h6⟩ := h
  dsimp only
  rw [min_eq_left h5, max_eq_right h6]
  by_cases c1 : q ≤ s.lbLo ∧ s.ubHi ≤ 1000
  · rw [if_pos c1]
    have : q ≤ n := by omega
    simp [V3.of, this, TB.has]
  rw [if_neg c1]
  by_cases c2 : s.ubHi + 1 ≤ q
  · rw [if_pos c2]
    have k1 : ¬ q ≤ n := by omega
    have k2 : ¬ q ≤ m := by omega
    simp [V3.of, k1, k2, TB.has]
  rw [if_neg c2]
  by_cases c3 : q ≤ s.ubLo <;> by_cases c4 : s.lbHi < q <;> simp only [c3, c4, decide_true, decide_false, Bool.and_true, Bool.and_false, Bool.not_true, Bool.not_false, if_true]
  · have k1 : ¬ q ≤ n := by omega
    have k2 : q ≤ m := by omega
    simp [V3.of, k1, k2, TB.has]
  · have k2 : q ≤ m := by omega
    by_cases k1 : q ≤ n <;> simp [V3.of, k1, k2, TB.has]
  · have k1 : ¬ q ≤ n := by omega
    by_cases k2 : q ≤ m <;> simp [V3.of, k1, k2, TB.has]
  · simp [TB.has]

/-- C42: more precisely, the counters of `thickBooleanSum` enclose the numbers of subsets and supersets containing a point -/
theorem C42_sum (l : List (TB × V3)) (hl : ∀ p ∈ l, p.1.has p.2 = true) :
    (thickBooleanSum (l.map Prod.fst)).lbLo ≤ (l.map Prod.snd).countP (fun v => decide (v = .yes)) ∧
    (l.map Prod.snd).countP (fun v => decide (v = .yes)) ≤ (thickBooleanSum (l.map Prod.fst)).lbHi ∧
    (thickBooleanSum (l.map Prod.fst)).ubLo ≤ (l.map Prod.snd).countP (fun v => decide (v ≠ .no)) ∧
    (l.map Prod.snd).countP (fun v => decide (v ≠ .no)) ≤ (thickBooleanSum (l.map Prod.fst)).ubHi := by
  have := sum_sound l hl ⟨0, 0, 0, 0⟩ 0 0 le_rfl le_rfl le_rfl le_rfl le_rfl le_rfl
  simp only [Nat.zero_add] at this
  exact ⟨this.1, this.2.1, this.2.2.1, this.2.2.2.1⟩

/-- C42: and the four counters are the best ones: each is reached, for the results of tests which are not empty -/
theorem C42_sum_reached (l : List TB) (hl : ∀ b ∈ l, b ≠ .empty) :
    (∃ c : List V3, List.Forall₂ (fun b v => TB.has b v = true) l c ∧ c.countP (fun v => decide (v = .yes)) = (thickBooleanSum l).lbLo) ∧
    (∃ c : List V3, List.Forall₂ (fun b v => TB.has b v = true) l c ∧ c.countP (fun v => decide (v = .yes)) = (thickBooleanSum l).lbHi) ∧
    (∃ c : List V3, List.Forall₂ (fun b v => TB.has b v = true) l c ∧ c.countP (fun v => decide (v ≠ .no)) = (thickBooleanSum l).ubLo) ∧
    ∃ c : List V3, List.Forall₂ (fun b v => TB.has b v = true) l c ∧ c.countP (fun v => decide (v ≠ .no)) = (thickBooleanSum l).ubHi := by
  have key : ∀ (g : TB → V3) (f : V3 → Bool) (π : TSum → Nat), (∀ b, b ≠ .empty → b.has (g b) = true ∧ ∀ s, π (TSum.add s b) = π s + if f (g b) then 1 else 0) →
      π ⟨0, 0, 0, 0⟩ = 0 → ∃ c : List V3, List.Forall₂ (fun b v => TB.has b v = true) l c ∧ c.countP f = π (thickBooleanSum l) := by
    intro g f π hg h0
    refine ⟨l.map g, ?_, ?_⟩
    · rw [List.forall₂_map_right_iff, List.forall₂_same]
      exact fun b hb => (hg b (hl b hb)).1
    · have : ∀ (s : TSum), π (l.foldl TSum.add s) = π s + (l.map g).countP f := by
        clear h0
        induction l with
        | nil => intro s; rfl
        | cons b l ih =>
          intro s
          rw [List.foldl_cons, ih (fun c hc => hl c (by simp [hc])), (hg b (hl b (by simp))).2 s, List.map_cons, List.countP_cons]
          omega
      unfold thickBooleanSum
      rw [this, h0, Nat.zero_add]
  refine ⟨key (fun b => match b with | .in_ => .yes | .maybe => .maybe | .maybeOut => .no | .maybeIn => .maybe | .unk => .no | .out => .no | .empty => .no) _ TSum.lbLo ?_ rfl,
    key (fun b => match b with | .in_ => .yes | .maybe => .maybe | .maybeOut => .no | .maybeIn => .yes | .unk => .yes | .out => .no | .empty => .no) _ TSum.lbHi ?_ rfl,
    key (fun b => match b with | .in_ => .yes | .maybe => .maybe | .maybeOut => .no | .maybeIn => .maybe | .unk => .no | .out => .no | .empty => .no) _ TSum.ubLo ?_ rfl,
    key (fun b => match b with | .in_ => .yes | .maybe => .maybe | .maybeOut => .maybe | .maybeIn => .yes | .unk => .yes | .out => .no | .empty => .no) _ TSum.ubHi ?_ rfl⟩ <;>
  · intro b hb
    cases b <;> first | exact absurd rfl hb | exact ⟨rfl, fun s => by simp [TSum.add]⟩

/-- a thick set of numbers and a sound test on intervals: the numbers from 2 to 3, perhaps from 1 to 4 -/
def thickEx : ThickSet ℚ := ⟨fun x => decide (2 ≤ x ∧ x ≤ 3), fun x => decide (1 ≤ x ∧ x ≤ 4), fun x h => by
  simp only [decide_eq_true_iff] at h ⊢; exact ⟨by linarith [h.1], by linarith [h.2]⟩⟩

/-- the test of `thickEx` -/
def thickExTest : ThickTest (Itv ℚ) := fun X => if X ≤ Itv.icc 2 3 then .in_ else if (X ⊓ Itv.icc 1 4).isEmpty then .out else .unk

theorem thickEx_sound : SoundTest (fun (x : ℚ) (X : Itv ℚ) => x ∈ X) thickEx thickExTest := by
  intro X x hx
  unfold thickExTest
  by_cases h1 : X ≤ Itv.icc 2 3
  · have h2 := Itv.mem_icc.mp (Itv.mem_of_le h1 hx)
    rw [if_pos h1]
    simp [ThickSet.val, thickEx, V3.of, h2, TB.has]
  · rw [if_neg h1]
    by_cases h3 : (X ⊓ Itv.icc 1 4).isEmpty = true
    · rw [if_pos h3]
      have h4 : ¬ (1 ≤ x ∧ x ≤ 4) := fun h => Itv.ne_bot_of_mem (Itv.mem_inf.mpr ⟨hx, Itv.mem_icc.mpr h⟩) (Itv.isEmpty_iff.mp h3)
      have h5 : ¬ (2 ≤ x ∧ x ≤ 3) := fun h => h4 ⟨by linarith [h.1], by linarith [h.2]⟩
      simp only [ThickSet.val, thickEx, V3.of, h4, h5, decide_false, TB.has]; rfl
    · rw [if_neg h3]; rfl

example : thickAnd [thickExTest, thickExTest] (Itv.icc 2 3) = some .in_ ∧ thickQInter 2 [thickExTest, thickExTest] (Itv.icc 5 6) = .out := by decide +kernel

/-! ### C43 -/

variable {K : Type*} [Field K] [LinearOrder K] [IsStrictOrderedRing K]

/-- C43: `intersects` is true exactly when every member of the one meets every member of the other; `is_subset` exactly when every member of the one is a subset of
every member of the other. For thick intervals built by the constructors, not empty. -/
theorem C43_intersects_subset {T U : ThickItv K} (hT : T.Ok) (hU : U.Ok) (neT : T.isEmpty = false) (neU : U.isEmpty = false) :
    (T.intersects U = true ↔ ∀ a b c d, T.Member a b → U.Member c d → ∃ x, (a ≤ x ∧ x ≤ b) ∧ c ≤ x ∧ x ≤ d) ∧
    (T.isSubset U = true ↔ ∀ a b c d, T.Member a b → U.Member c d → ∀ x, a ≤ x → x ≤ b → c ≤ x ∧ x ≤ d) := by
  have cT : ThickItv.Checked T.lb T.ub := hT.resolve_left (by rintro rfl; simp [ThickItv.isEmpty, Itv.isEmpty] at neT)
  have cU : ThickItv.Checked U.lb U.ub := hU.resolve_left (by rintro rfl; simp [ThickItv.isEmpty, Itv.isEmpty] at neU)
  obtain ⟨t1, t2⟩ := cT.ne
  obtain ⟨u1, u2⟩ := cU.ne
  constructor
  · unfold ThickItv.intersects
    rw [Bool.and_eq_true, diffNonpos_iff u1 t2, diffNonpos_iff t1 u2]
    constructor
    · rintro ⟨h1, h2⟩ a b c d ⟨ha, hb, hab⟩ ⟨hc, hd, hcd⟩
      exact ⟨max a c, ⟨le_max_left _ _, max_le hab (h1 c hc b hb)⟩, le_max_right _ _, max_le (h2 a ha d hd) hcd⟩
    · intro h
      constructor
      · intro c hc b hb
        obtain ⟨a, ha, hab⟩ := cT.complete.2 b hb
        obtain ⟨d, hd, hcd⟩ := cU.complete.1 c hc
        obtain ⟨x, ⟨_, x2⟩, x3, _⟩ := h a b c d ⟨ha, hb, hab⟩ ⟨hc, hd, hcd⟩
        exact x3.trans x2
      · intro a ha d hd
        obtain ⟨b, hb, hab⟩ := cT.complete.1 a ha
        obtain ⟨c, hc, hcd⟩ := cU.complete.2 d hd
        obtain ⟨x, ⟨x1, _⟩, _, x4⟩ := h a b c d ⟨ha, hb, hab⟩ ⟨hc, hd, hcd⟩
        exact x1.trans x4
  · unfold ThickItv.isSubset
    rw [Bool.and_eq_true, diffNonpos_iff u1 t1, diffNonpos_iff t2 u2]
    constructor
    · rintro ⟨h1, h2⟩ a b c d ⟨ha, hb, hab⟩ ⟨hc, hd, hcd⟩ x h3 h4
      exact ⟨(h1 c hc a ha).trans h3, h4.trans (h2 b hb d hd)⟩
    · intro h
      constructor
      · intro c hc a ha
        obtain ⟨b, hb, hab⟩ := cT.complete.1 a ha
        obtain ⟨d, hd, hcd⟩ := cU.complete.1 c hc
        exact (h a b c d ⟨ha, hb, hab⟩ ⟨hc, hd, hcd⟩ a le_rfl hab).1
      · intro b hb d hd
        obtain ⟨a, ha, hab⟩ := cT.complete.2 b hb
        obtain ⟨c, hc, hcd⟩ := cU.complete.2 d hd
        exact (h a b c d ⟨ha, hb, hab⟩ ⟨hc, hd, hcd⟩ b hab le_rfl).2

/-- C43: the superset is the union of the members; the subset is a set of points common to all members -/
theorem C43_superset_subset {T : ThickItv K} (hT : T.Ok) (x : K) :
    (x ∈ T.superset ↔ ∃ a b, T.Member a b ∧ a ≤ x ∧ x ≤ b) ∧ (x ∈ T.subset → ∀ a b, T.Member a b → a ≤ x ∧ x ≤ b) := by
  constructor
  · rcases hT with rfl | h
    · exact ⟨fun h => h.elim, fun ⟨a, b, h, _⟩ => h.1.elim⟩
    · exact ThickItv.mem_superset h
  · intro hx a b hm
    have h1 := ThickItv.mem_lbHi hm.1
    have h2 := ThickItv.mem_ubLo hm.2.1
    unfold ThickItv.subset at hx
    cases e1 : T.lb.ub? with
    | none => rw [e1] at hx; exact hx.elim
    | some l =>
      cases e2 : T.ub.lb? with
      | none => rw [e1, e2] at hx; exact hx.elim
      | some u =>
        rw [e1] at h1 hx
        rw [e2] at h2 hx
        dsimp only at hx
        by_cases c : l < u
        · rw [if_pos c, Itv.mem_icc] at hx
          exact ⟨le_trans h1 hx.1, le_trans hx.2 h2⟩
        · rw [if_neg c] at hx; exact hx.elim

/-- C43 (partial): a true `is_not_subset` says that no member of the one is in the interior of a member of the other. Missing: members which share a bound, see
`C43_not_subset_fails`. -/
theorem C43_not_subset_partial {T U : ThickItv K} (h : T.isNotSubset U = true) {a b c d : K} (hm : T.Member a b) (hu : U.Member c d) : ¬ (c < a ∧ b < d) := by
  rintro ⟨h1, h2⟩
  unfold ThickItv.isNotSubset at h
  rw [Bool.or_eq_true] at h
  rcases h with h | h
  · exact absurd ((diffNonpos_iff (Itv.ne_bot_of_mem hm.1) (Itv.ne_bot_of_mem hu.1)).mp h a hm.1 c hu.1) (not_le.mpr h1)
  · exact absurd ((diffNonpos_iff (Itv.ne_bot_of_mem hu.2.1) (Itv.ne_bot_of_mem hm.2.1)).mp h d hu.2.1 b hm.2.1) (not_le.mpr h2)

/-- C43 fails for `is_not_subset`: `[0,1]` is said not to be a subset of itself -/
theorem C43_not_subset_fails : (ThickItv.ofItv (Itv.icc (0 : ℚ) 1)).isNotSubset (ThickItv.ofItv (Itv.icc 0 1)) = true ∧
    (ThickItv.ofItv (Itv.icc (0 : ℚ) 1)).isSubset (ThickItv.ofItv (Itv.icc 0 1)) = true := by decide +kernel

/-- C43 fails for `is_disjoint`: on non-empty thick intervals, whenever it is true no pair of members is disjoint; and it is false on disjoint thick intervals -/
theorem C43_is_disjoint_fails :
    (∀ (T U : ThickItv K), T.isDisjoint U = true → ∀ a b c d, T.Member a b → U.Member c d → ∃ x, (a ≤ x ∧ x ≤ b) ∧ c ≤ x ∧ x ≤ d) ∧
    (ThickItv.ofItv (Itv.icc (0 : ℚ) 0)).isDisjoint (ThickItv.ofItv (Itv.icc 0 0)) = true ∧
    (ThickItv.ofItv (Itv.icc (0 : ℚ) 1)).isDisjoint (ThickItv.ofItv (Itv.icc 2 3)) = false := by
  refine ⟨?_, by decide +kernel, by decide +kernel⟩
  intro T U h a b c d hm hu
  unfold ThickItv.isDisjoint at h
  rw [Bool.and_eq_true] at h
  have h1 := (diffNonpos_iff (Itv.ne_bot_of_mem hm.2.1) (Itv.ne_bot_of_mem hu.1)).mp h.1 b hm.2.1 c hu.1
  have h2 := (diffNonpos_iff (Itv.ne_bot_of_mem hu.2.1) (Itv.ne_bot_of_mem hm.1)).mp h.2 d hu.2.1 a hm.1
  have := hm.2.2
  have := hu.2.2
  exact ⟨a, ⟨le_rfl, hm.2.2⟩, by linarith, by linarith⟩

/-- C43 (partial): the intersection contains all the pairwise intersections of the members, when the upper bounds are not above the constant of the code (`1e10`). Missing:
larger upper bounds, see `C43_inter_fails`. -/
theorem C43_inter_partial {cap : K} {T U : ThickItv K} (hT : T.Ok) (hU : U.Ok) (hcap : ∀ b ∈ ThickItv.minItv T.ub U.ub, b ≤ cap) {a b c d : K} (hm : T.Member a b) (hu : U.Member c d)
    (hx : max a c ≤ min b d) : (ThickItv.inter cap T U).Member (max a c) (min b d) := by
  have k1 := ThickItv.mem_maxItv hm.1 hu.1
  have k2 := ThickItv.mem_minItv hm.2.1 hu.2.1
  have s1 : max a c ∈ T.superset := ThickItv.superset_mem hT hm (le_max_left _ _) (hx.trans (min_le_left _ _))
  have s2 : max a c ∈ U.superset := ThickItv.superset_mem hU hu (le_max_right _ _) (hx.trans (min_le_right _ _))
  have hne : (T.superset ⊓ U.superset).isEmpty = false := Itv.isEmpty_false_iff.mpr (Itv.ne_bot_of_mem (Itv.mem_inf.mpr ⟨s1, s2⟩))
  unfold ThickItv.inter
  rw [if_pos hne]
  dsimp only
  unfold ThickItv.ofItvs
  rw [if_pos (ThickItv.checked_inter_aux k1 k2 hx hcap)]
  refine ⟨Itv.mem_inf.mpr ⟨k1, Itv.mem_ofBounds.mpr ⟨trivial, ?_⟩⟩, Itv.mem_inf.mpr ⟨k2, Itv.mem_ofBounds.mpr ⟨?_, hcap _ k2⟩⟩, hx⟩
  · exact ThickItv.leHi_trans (ThickItv.mem_lbHi k2) hx
  · exact ThickItv.loLe_trans (ThickItv.mem_ubLo k1) hx

/-- C43 fails for the intersection: with an upper bound above `1e10`, the intersection of a thick interval with itself is empty -/
theorem C43_inter_fails : (ThickItv.inter (10 ^ 10) (ThickItv.ofItv (Itv.icc (0 : ℚ) (2 * 10 ^ 10))) (ThickItv.ofItv (Itv.icc 0 (2 * 10 ^ 10)))).isEmpty = true ∧
    (ThickItv.ofItv (Itv.icc (0 : ℚ) (2 * 10 ^ 10))).isEmpty = false := by decide +kernel

/-- C43 (partial): `is_inside` (thick boxes, hence thick intervals in dimension one) is sound: the value of each member box (`yes`: in `y`, `no`: disjoint from `y`, `maybe`
otherwise) is in the result, for members having no bound in common with `y`. Missing: members touching the boundary of `y`, see `C43_is_inside_fails`. -/
theorem C43_is_inside_partial {T : ThickBox K} (hT : ∀ t ∈ T, t.Ok) {y : Box K} (hl : T.length = y.length) {l : List (K × K)} (hm : ThickBox.Member T l) (ht : noTouch l y)
    [Decidable (boundsIn l y)] [Decidable (boundsMeet l y)] : (T.isInside y).has (V3.of (decide (boundsIn l y)) (decide (boundsMeet l y))) = true := by
  obtain ⟨h1, h2⟩ := ThickBox.superset_in hT hm
  have hss : boundsIn l y → boundsMeet l y := by
    intro h
    clear ht h1 hm hl
    induction h with
    | nil => exact .nil
    | cons h3 h4 ih => exact .cons ⟨_, le_rfl, h2 _ (by simp), h3.1⟩ (ih fun p hp => h2 p (by simp [hp]))
  unfold ThickBox.isInside
  by_cases c1 : ThickBox.boxSubset T.superset y = true
  · rw [if_pos c1]
    have := ThickBox.boxSubset_sound h1 h2 c1
    simp [V3.of, this, TB.has]
  rw [if_neg c1]
  by_cases c2 : ThickBox.boxDisjoint T.superset y = true
  · rw [if_pos c2]
    have k := ThickBox.boxDisjoint_sound h1 h2 c2
    have k' : ¬ boundsIn l y := fun h => k (hss h)
    simp [V3.of, k, k', TB.has]
  rw [if_neg c2]
  dsimp only
  have hb1 : T.intersects y = true → boundsMeet l y := fun h => ThickBox.intersects_sound hl h hm
  have hb2 : T.isNotSubset y = true → ¬ boundsIn l y := fun h => ThickBox.notSubset_sound h hm ht
  cases e1 : T.intersects y <;> cases e2 : T.isNotSubset y
  · rfl
  · have := hb2 e2
    by_cases k : boundsMeet l y <;> simp [V3.of, this, k, TB.has]
  · have := hb1 e1
    by_cases k : boundsIn l y <;> simp [V3.of, this, k, TB.has]
  · simp [V3.of, hb1 e1, hb2 e2, TB.has]

/-- C43: `ThickInterval::is_inside(y)` answers `IN` exactly when every member is a subset of `y`, and `OUT` exactly when every member is disjoint from `y` (and not
`IN`, for an empty thick interval) -/
theorem C43_interval_is_inside {T : ThickItv K} (hT : T.Ok) (y : Itv K) :
    (T.isInside y = .in_ ↔ ∀ a b, T.Member a b → ∀ x, a ≤ x → x ≤ b → x ∈ y) ∧
    (T.isEmpty = false → (T.isInside y = .out ↔ ∀ a b, T.Member a b → ∀ x, a ≤ x → x ≤ b → x ∉ y)) := by
  have hin : T.superset ≤ y ↔ ∀ a b, T.Member a b → ∀ x, a ≤ x → x ≤ b → x ∈ y := by
    rw [Itv.le_iff]
    exact ⟨fun h a b hm x h1 h2 => h x ((C43_superset_subset hT x).1.mpr ⟨a, b, hm, h1, h2⟩), fun h x hx => by
      obtain ⟨a, b, hm, h1, h2⟩ := (C43_superset_subset hT x).1.mp hx
      exact h a b hm x h1 h2⟩
  have hout : (T.superset ⊓ y).isEmpty = true ↔ ∀ a b, T.Member a b → ∀ x, a ≤ x → x ≤ b → x ∉ y := by
    rw [Itv.isEmpty_iff]
    constructor
    · intro h a b hm x h1 h2 hy
      exact Itv.ne_bot_of_mem (Itv.mem_inf.mpr ⟨(C43_superset_subset hT x).1.mpr ⟨a, b, hm, h1, h2⟩, hy⟩) h
    · intro h
      by_contra hne
      obtain ⟨x, hx⟩ := Itv.exists_mem hne
      obtain ⟨h1, h2⟩ := Itv.mem_inf.mp hx
      obtain ⟨a, b, hm, h3, h4⟩ := (C43_superset_subset hT x).1.mp h1
      exact h a b hm x h3 h4 h2
  have hrest : ∀ b1 b2 : Bool, (if b1 && b2 then TB.maybe else if !b1 && b2 then .maybeOut else if !b2 && b1 then .maybeIn else .unk) ≠ TB.in_ ∧
      (if b1 && b2 then TB.maybe else if !b1 && b2 then .maybeOut else if !b2 && b1 then .maybeIn else .unk) ≠ TB.out := by decide
  rw [← hin, ← hout]
  unfold ThickItv.isInside
  dsimp only
  constructor
  · by_cases c1 : T.superset ≤ y
    · simp [c1]
    · rw [if_neg c1]
      by_cases c2 : (T.superset ⊓ y).isEmpty = true
      · simp [c2, c1]
      · rw [if_neg c2]
        exact ⟨fun h => absurd h (hrest _ _).1, fun h => absurd h c1⟩
  · intro hne
    by_cases c1 : T.superset ≤ y
    · rw [if_pos c1]
      refine ⟨fun h => (by cases h), fun h => ?_⟩
      have cT : ThickItv.Checked T.lb T.ub := hT.resolve_left (by rintro rfl; simp [ThickItv.isEmpty, Itv.isEmpty] at hne)
      obtain ⟨a, ha⟩ := Itv.exists_mem cT.ne.1
      obtain ⟨b, hb, hab⟩ := cT.complete.1 a ha
      exact absurd (hin.mp c1 a b ⟨ha, hb, hab⟩ a le_rfl hab) (hout.mp h a b ⟨ha, hb, hab⟩ a le_rfl hab)
    · rw [if_neg c1]
      by_cases c2 : (T.superset ⊓ y).isEmpty = true
      · simp [c2]
      · rw [if_neg c2]
        exact ⟨fun h => absurd h (hrest _ _).2, fun h => absurd h c2⟩

example : (ThickItv.ofItvs (Itv.icc (0 : ℚ) 1) (Itv.icc 2 3)).isInside (Itv.icc 0 3) = .in_ ∧ (ThickItv.ofItvs (Itv.icc (0 : ℚ) 1) (Itv.icc 2 3)).isInside (Itv.icc 4 5) = .out := by
  decide +kernel

/-- C43 fails for `is_inside`: lower bound `0`, upper bound in `[1,3]`, `y = [0,2]`. The answer is `MAYBE` only, although the member `[0,1]` is in `y`. -/
theorem C43_is_inside_fails : ThickBox.isInside [ThickItv.ofItvs (Itv.icc (0 : ℚ) 0) (Itv.icc 1 3)] [Itv.icc 0 2] = .maybe ∧
    ThickBox.Member [ThickItv.ofItvs (Itv.icc (0 : ℚ) 0) (Itv.icc 1 3)] [(0, 1)] ∧ boundsIn [((0 : ℚ), (1 : ℚ))] [Itv.icc 0 2] := by
  refine ⟨by decide +kernel, ⟨⟨by decide +kernel, by decide +kernel, by decide +kernel⟩, trivial⟩, .cons ⟨by decide +kernel, by decide +kernel⟩ .nil⟩

/-- C43 fails for `ThickBox::is_subset(ThickBox)`: it is always false -/
theorem C43_box_subset_fails (T U : ThickBox K) : T.isSubsetThick U = false := by
  unfold ThickBox.isSubsetThick
  generalize T.zip U = l
  induction l with
  | nil => rfl
  | cons p l ih => simpa using ih

/-- C43: `ThickBox::intersects` with a box: when true, every member box meets it; `is_subset`: when true, every member box is in it -/
theorem C43_box_intersects {T : ThickBox K} {y : Box K} (hl : T.length = y.length) (h : T.intersects y = true) {l : List (K × K)} (hm : ThickBox.Member T l) :
    ∃ v, InBox v y ∧ List.Forall₂ (fun p x => p.1 ≤ x ∧ x ≤ p.2) l v := by
  have := ThickBox.intersects_sound hl h hm
  clear hl h hm
  induction this with
  | nil => exact ⟨[], .nil, .nil⟩
  | cons h1 h2 ih =>
    obtain ⟨v, v1, v2⟩ := ih
    obtain ⟨x, x1, x2, x3⟩ := h1
    exact ⟨x :: v, .cons x3 v1, .cons ⟨x1, x2⟩ v2⟩

/-- a thick interval meeting the hypotheses, with members -/
example : (ThickItv.ofItvs (Itv.icc (0 : ℚ) 1) (Itv.icc 2 3)).isEmpty = false ∧ (ThickItv.ofItvs (Itv.icc (0 : ℚ) 1) (Itv.icc 2 3)).Member 1 2 ∧
    (ThickItv.ofItvs (Itv.icc (0 : ℚ) 1) (Itv.icc 2 3)).intersects (ThickItv.ofItv (Itv.icc 1 5)) = true ∧ (ThickItv.ofItvs (Itv.icc (0 : ℚ) 1) (Itv.icc 2 3)).subset = Itv.icc 1 2 ∧
    ThickBox.isInside [ThickItv.ofItvs (Itv.icc (0 : ℚ) 1) (Itv.icc 2 3)] [Itv.icc 1 5] = .maybe ∧
    (ThickItv.ofItvs (Itv.icc (0 : ℚ) 1) (Itv.icc 2 3)).Member (1/2) 2 := by
  refine ⟨by decide +kernel, ⟨by decide +kernel, by decide +kernel, by decide +kernel⟩, by decide +kernel, by decide +kernel, by decide +kernel, ⟨by decide +kernel, by decide +kernel, by decide +kernel⟩⟩

/-! ### C56 -/

open Classical in
/-- C56 (partial): the test of a thick disk of outer radius at least one is sound: for each point of the box, its value (in the disk of radius `p` whatever the centre;
in the disk of radius `q` for some centre) is in the result. Missing: radii less than one, see `C56_disk_fails`. -/
theorem C56_disk_partial (O : DiskOps ℝ) {a b c d p q : ℝ} (hab : a ≤ b) (hcd : c ≤ d) (hp : 0 ≤ p) (hpq : p ≤ q) (hq : 1 ≤ q) {X0 X1 : Itv ℝ} {x y : ℝ} (hx : x ∈ X0) (hy : y ∈ X1) :
    ((ThickDisk.ofRadii O a b c d p q).test O X0 X1).has (V3.of
      (decide (∀ m n, a ≤ m → m ≤ b → c ≤ n → n ≤ d → (x - m) ^ 2 + (y - n) ^ 2 ≤ p ^ 2))
      (decide (∃ m n, (a ≤ m ∧ m ≤ b ∧ c ≤ n ∧ n ≤ d) ∧ (x - m) ^ 2 + (y - n) ^ 2 ≤ q ^ 2))) = true := by
  have key := disk_core O (ThickDisk.ofRadii O a b c d p q) hab hcd (sq_nonneg q) ⟨le_rfl, pow_le_pow_left₀ hp hpq 2⟩ hx hy (by
    rintro h ⟨m, n, ⟨h1, h2, h3, h4⟩, _, h5⟩
    change (x - m) ^ 2 + (y - n) ^ 2 ≤ q ^ 2 at h5
    have hq2 : q ^ 2 ≤ (q ^ 2) ^ 2 := by
      have : (1 : ℝ) ≤ q ^ 2 := by nlinarith
      nlinarith
    have gx := abs_le_of_sq_le_sq' (show (x - m) ^ 2 ≤ (q ^ 2) ^ 2 by nlinarith [sq_nonneg (y - n)]) (sq_nonneg q)
    have gy := abs_le_of_sq_le_sq' (show (y - n) ^ 2 ≤ (q ^ 2) ^ 2 by nlinarith [sq_nonneg (x - m)]) (sq_nonneg q)
    have k1 : x ∈ (ThickDisk.ofRadii O a b c d p q).box0 := by
      have := O.A.add_mem (Itv.mem_icc.mpr ⟨h1, h2⟩) (Itv.mem_icc.mpr (show -q ^ 2 ≤ x - m ∧ x - m ≤ q ^ 2 from gx))
      rwa [add_sub_cancel] at this
    have k2 : y ∈ (ThickDisk.ofRadii O a b c d p q).box1 := by
      have := O.A.add_mem (Itv.mem_icc.mpr ⟨h3, h4⟩) (Itv.mem_icc.mpr (show -q ^ 2 ≤ y - n ∧ y - n ≤ q ^ 2 from gy))
      rwa [add_sub_cancel] at this
    rw [Bool.or_eq_true] at h
    rcases h with h | h
    · exact Itv.ne_bot_of_mem (Itv.mem_inf.mpr ⟨hx, k1⟩) (Itv.isEmpty_iff.mp h)
    · exact Itv.ne_bot_of_mem (Itv.mem_inf.mpr ⟨hy, k2⟩) (Itv.isEmpty_iff.mp h))
  have e1 : (ThickDisk.ofRadii O a b c d p q).InSub x y ↔ ∀ m n, a ≤ m → m ≤ b → c ≤ n → n ≤ d → (x - m) ^ 2 + (y - n) ^ 2 ≤ p ^ 2 :=
    ⟨fun h m n h1 h2 h3 h4 => (h m n h1 h2 h3 h4).2, fun h m n h1 h2 h3 h4 => ⟨by change (0 : ℝ) ≤ _; positivity, h m n h1 h2 h3 h4⟩⟩
  have e2 : (ThickDisk.ofRadii O a b c d p q).InSup x y ↔ ∃ m n, (a ≤ m ∧ m ≤ b ∧ c ≤ n ∧ n ≤ d) ∧ (x - m) ^ 2 + (y - n) ^ 2 ≤ q ^ 2 :=
    ⟨fun ⟨m, n, h1, h2⟩ => ⟨m, n, h1, h2.2⟩, fun ⟨m, n, h1, h2⟩ => ⟨m, n, h1, by change (0 : ℝ) ≤ _; positivity, h2⟩⟩
  rw [decide_eq_decide.mpr e1, decide_eq_decide.mpr e2] at key
  exact key

/-- exact interval arithmetic with a coarse square and sign -/
def diskOps (K : Type*) [Field K] [LinearOrder K] [IsStrictOrderedRing K] : DiskOps K where
  A := IArith.exact K
  sqr X := (IArith.exact K).mul X X
  sign _ := Itv.icc (-1) 1
  sqr_mem h := by rw [pow_two]; exact (IArith.exact K).mul_mem h h
  sign_mem {X x} h := by
    rw [Itv.mem_icc]
    have := zero_le_one (α := K)
    split
    · exact ⟨by linarith, le_rfl⟩
    · split
      · exact ⟨by linarith, by linarith⟩
      · exact ⟨le_rfl, by linarith⟩

/-- C56 fails for small radii, whatever the arithmetic: the bounding box uses the squared radius. The point `(2/5, 0)` is in the disk of centre `0` and radius `1/2`; the test says `OUT`. Stated for
the exact addition. -/
theorem C56_disk_fails : (ThickDisk.ofRadii (diskOps ℚ) 0 0 0 0 (1/2) (1/2)).test (diskOps ℚ) (Itv.point (2/5)) (Itv.point 0) = .out ∧
    (ThickDisk.ofRadii (diskOps ℚ) 0 0 0 0 (1/2) (1/2)).InSub (2/5) 0 := by
  refine ⟨by decide +kernel, ?_⟩
  intro m n h1 h2 h3 h4
  have e1 : m = 0 := le_antisymm h2 h1
  have e2 : n = 0 := le_antisymm h4 h3
  subst e1 e2
  refine ⟨?_, ?_⟩ <;> norm_num [ThickDisk.ofRadii]

/-- C56 fails after `setParams`: the bounding box is the one of the former centre -/
theorem C56_set_params_fails : ((ThickDisk.ofRadii (diskOps ℚ) 0 0 0 0 1 1).setParams 10 10 10 10).test (diskOps ℚ) (Itv.point 10) (Itv.point 10) = .out ∧
    ((ThickDisk.ofRadii (diskOps ℚ) 0 0 0 0 1 1).setParams 10 10 10 10).InSub 10 10 := by
  refine ⟨by decide +kernel, ?_⟩
  intro m n h1 h2 h3 h4
  have e1 : m = 10 := le_antisymm h2 h1
  have e2 : n = 10 := le_antisymm h4 h3
  subst e1 e2
  refine ⟨?_, ?_⟩ <;> norm_num [ThickDisk.setParams, ThickDisk.ofRadii]

example : (ThickDisk.ofRadii (diskOps ℚ) 0 0 0 0 2 3).test (diskOps ℚ) (Itv.point 1) (Itv.point 1) = .in_ ∧
    (ThickDisk.ofRadii (diskOps ℚ) 0 0 0 0 2 3).test (diskOps ℚ) (Itv.point 20) (Itv.point 4) = .out := by decide +kernel

end Codac.Props
