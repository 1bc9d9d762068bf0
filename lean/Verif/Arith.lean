import Verif.Interval

/-!
# Interval arithmetic

codac calls IBEX for interval arithmetic (`ibex::Interval` operators, outward rounded). IBEX is not part of
`/repo`: it is modelled as a parameter `A : IArith K`, constrained only by the inclusion property and by inclusion
isotonicity, both documented by IBEX.  `exact` is an instance, used in examples and counterexamples.
-/

namespace Codac

/-- what is assumed of the IBEX operators `+`, `-`, `*` on intervals -/
structure IArith (K : Type*) [Field K] [LinearOrder K] where
  add : Itv K → Itv K → Itv K
  sub : Itv K → Itv K → Itv K
  mul : Itv K → Itv K → Itv K
  add_mem : ∀ {X Y : Itv K} {x y : K}, x ∈ X → y ∈ Y → x + y ∈ add X Y
  sub_mem : ∀ {X Y : Itv K} {x y : K}, x ∈ X → y ∈ Y → x - y ∈ sub X Y
  mul_mem : ∀ {X Y : Itv K} {x y : K}, x ∈ X → y ∈ Y → x * y ∈ mul X Y
  add_mono : ∀ {X X' Y Y' : Itv K}, X ≤ X' → Y ≤ Y' → add X Y ≤ add X' Y'
  sub_mono : ∀ {X X' Y Y' : Itv K}, X ≤ X' → Y ≤ Y' → sub X Y ≤ sub X' Y'
  mul_mono : ∀ {X X' Y Y' : Itv K}, X ≤ X' → Y ≤ Y' → mul X Y ≤ mul X' Y'
  /-- the product of an infinite number (`double`) by the interval `[0,0]`: `[0,0]` (true) or the empty set (false, what IBEX is
  taken to return). No property is assumed. -/
  infZero : Bool := false

namespace Itv
variable {K : Type*} [Field K] [LinearOrder K]

/-- sum of two bounds, infinite as soon as one is -/
def addB (a b : Option K) : Option K :=
  match a, b with
  | some x, some y => some (x + y)
  | _, _ => none

/-- opposite of a bound -/
def negB (a : Option K) : Option K := a.map (fun x => -x)

variable [IsStrictOrderedRing K]

/-- exact sum -/
def add (X Y : Itv K) : Itv K :=
  match X, Y with
  | mk l h _, mk l' h' _ => ofBounds (addB l l') (addB h h')
  | _, _ => empty

/-- exact opposite -/
def neg (X : Itv K) : Itv K :=
  match X with
  | mk l h _ => ofBounds (negB h) (negB l)
  | empty => empty

/-- exact difference -/
def sub (X Y : Itv K) : Itv K := add X (neg Y)

/-- product: exact on bounded intervals; `[0,0]` or the whole line when an operand is unbounded (an outer
approximation) -/
def mul (X Y : Itv K) : Itv K :=
  match X, Y with
  | empty, _ => empty
  | _, empty => empty
  | mk (some a) (some b) _, mk (some c) (some d) _ =>
    icc (min (min (a * c) (a * d)) (min (b * c) (b * d))) (max (max (a * c) (a * d)) (max (b * c) (b * d)))
  | X, Y => if X = point 0 ∨ Y = point 0 then point 0 else all

theorem mem_add {X Y : Itv K} {x y : K} (hx : x ∈ X) (hy : y ∈ Y) : x + y ∈ add X Y := by
  match X, Y, hx, hy with
  | mk l h _, mk l' h' _, hx, hy =>
    simp only [add, mem_ofBounds]
    constructor
    · cases l <;> cases l' <;> simp_all [addB]; exact add_le_add hx.1 hy.1
    · cases h <;> cases h' <;> simp_all [addB]; exact add_le_add hx.2 hy.2

theorem mem_neg {X : Itv K} {x : K} (hx : x ∈ X) : -x ∈ neg X := by
  match X, hx with
  | mk l h _, hx =>
    simp only [neg, mem_ofBounds]
    constructor
    · cases h <;> simp_all [negB]
    · cases l <;> simp_all [negB]

theorem mem_sub {X Y : Itv K} {x y : K} (hx : x ∈ X) (hy : y ∈ Y) : x - y ∈ sub X Y := by
  rw [sub_eq_add_neg]; exact mem_add hx (mem_neg hy)

/-- a product is between the products of the bounds -/
theorem mul_bounds {a b c d x y : K} (h1 : a ≤ x) (h2 : x ≤ b) (h3 : c ≤ y) (h4 : y ≤ d) :
    min (min (a * c) (a * d)) (min (b * c) (b * d)) ≤ x * y ∧
      x * y ≤ max (max (a * c) (a * d)) (max (b * c) (b * d)) := by
  constructor
  · rcases le_total 0 y with hy | hy
    · -- a*y ≤ x*y
      have e1 : a * y ≤ x * y := mul_le_mul_of_nonneg_right h1 hy
      rcases le_total 0 a with ha | ha
      · exact le_trans (le_trans (min_le_left _ _) (min_le_left _ _)) (le_trans (mul_le_mul_of_nonneg_left h3 ha) e1)
      · exact le_trans (le_trans (min_le_left _ _) (min_le_right _ _)) (le_trans (mul_le_mul_of_nonpos_left h4 ha) e1)
    · have e1 : b * y ≤ x * y := mul_le_mul_of_nonpos_right h2 hy
      rcases le_total 0 b with hb | hb
      · exact le_trans (le_trans (min_le_right _ _) (min_le_left _ _)) (le_trans (mul_le_mul_of_nonneg_left h3 hb) e1)
      · exact le_trans (le_trans (min_le_right _ _) (min_le_right _ _)) (le_trans (mul_le_mul_of_nonpos_left h4 hb) e1)
  · rcases le_total 0 y with hy | hy
    · have e1 : x * y ≤ b * y := mul_le_mul_of_nonneg_right h2 hy
      rcases le_total 0 b with hb | hb
      · exact le_trans (le_trans e1 (mul_le_mul_of_nonneg_left h4 hb)) (le_trans (le_max_right _ _) (le_max_right _ _))
      · exact le_trans (le_trans e1 (mul_le_mul_of_nonpos_left h3 hb)) (le_trans (le_max_left _ _) (le_max_right _ _))
    · have e1 : x * y ≤ a * y := mul_le_mul_of_nonpos_right h1 hy
      rcases le_total 0 a with ha | ha
      · exact le_trans (le_trans e1 (mul_le_mul_of_nonneg_left h4 ha)) (le_trans (le_max_right _ _) (le_max_left _ _))
      · exact le_trans (le_trans e1 (mul_le_mul_of_nonpos_left h3 ha)) (le_trans (le_max_left _ _) (le_max_left _ _))

theorem mem_mul {X Y : Itv K} {x y : K} (hx : x ∈ X) (hy : y ∈ Y) : x * y ∈ mul X Y := by
  unfold mul
  split
  · exact hx.elim
  · exact hy.elim
  · rw [mem_icc]
    exact mul_bounds hx.1 hx.2 hy.1 hy.2
  · split_ifs with h
    · rcases h with h | h
      · subst h; rw [mem_point] at *; subst hx; simp
      · subst h; rw [mem_point] at *; subst hy; simp
    · exact mem_all _

omit [IsStrictOrderedRing K] in
theorem eq_of_mem_mul_cases {X Y : Itv K} (hX : X ≠ ⊥) (hY : Y ≠ ⊥) :
    (∃ a b c d h h', X = mk (some a) (some b) h ∧ Y = mk (some c) (some d) h' ) ∨
    mul X Y = if X = point 0 ∨ Y = point 0 then point 0 else all := by
  unfold mul
  split
  · exact absurd rfl hX
  · exact absurd rfl hY
  · exact Or.inl ⟨_, _, _, _, _, _, rfl, rfl⟩
  · exact Or.inr rfl

theorem add_mono {X X' Y Y' : Itv K} (h1 : X ≤ X') (h2 : Y ≤ Y') : add X Y ≤ add X' Y' := by
  match X, Y, X', Y', h1, h2 with
  | empty, _, _, _, _, _ => exact empty_le _
  | mk .., empty, _, _, _, _ => exact empty_le _
  | mk l h p, mk l' h' p', mk m n q, mk m' n' q', ⟨h1, h2⟩, ⟨h3, h4⟩ =>
    have hb : bLe (addB l l') (addB h h') := by
      cases l <;> cases h <;> cases l' <;> cases h' <;> simp_all [addB]; exact add_le_add p p'
    have hb' : bLe (addB m m') (addB n n') := by
      cases m <;> cases n <;> cases m' <;> cases n' <;> simp_all [addB]; exact add_le_add q q'
    simp only [add, ofBounds, dif_pos hb, dif_pos hb', le_mk_mk]
    constructor
    · cases l <;> cases l' <;> cases m <;> cases m' <;> simp_all [loLeLo, addB]; exact add_le_add h1 h3
    · cases h <;> cases h' <;> cases n <;> cases n' <;> simp_all [hiLeHi, addB]; exact add_le_add h2 h4

theorem neg_mono {X X' : Itv K} (h1 : X ≤ X') : neg X ≤ neg X' := by
  match X, X', h1 with
  | empty, _, _ => exact empty_le _
  | mk l h p, mk m n q, ⟨h1, h2⟩ =>
    have hb : bLe (negB h) (negB l) := by
      cases l <;> cases h <;> simp_all [negB]
    have hb' : bLe (negB n) (negB m) := by
      cases m <;> cases n <;> simp_all [negB]
    simp only [neg, ofBounds, dif_pos hb, dif_pos hb', le_mk_mk]
    constructor
    · cases h <;> cases n <;> simp_all [loLeLo, hiLeHi, negB]
    · cases l <;> cases m <;> simp_all [loLeLo, hiLeHi, negB]

theorem sub_mono {X X' Y Y' : Itv K} (h1 : X ≤ X') (h2 : Y ≤ Y') : sub X Y ≤ sub X' Y' :=
  add_mono h1 (neg_mono h2)

omit [Field K] [IsStrictOrderedRing K] in
theorem icc_le {a b : K} {X : Itv K} (ha : a ∈ X) (hb : b ∈ X) : icc a b ≤ X := by
  by_cases h : a ≤ b
  · rw [icc_eq_mk h]
    match X, ha, hb with
    | mk l u p, ha, hb =>
      show loLeLo l (some a) ∧ hiLeHi (some b) u
      constructor
      · cases l <;> simp_all [loLeLo]
      · cases u <;> simp_all [hiLeHi]
  · rw [icc_eq_empty (not_le.mp h)]; exact empty_le _

theorem mul_mono {X X' Y Y' : Itv K} (h1 : X ≤ X') (h2 : Y ≤ Y') : mul X Y ≤ mul X' Y' := by
  by_cases hX : X = ⊥
  · subst hX; exact empty_le _
  by_cases hY : Y = ⊥
  · subst hY; cases X <;> exact empty_le _
  rcases eq_of_mem_mul_cases hX hY with ⟨a, b, c, d, h, h', rfl, rfl⟩ | e
  · have ma : a ∈ X' := mem_of_le h1 ⟨le_refl _, h⟩
    have mb : b ∈ X' := mem_of_le h1 ⟨h, le_refl _⟩
    have mc : c ∈ Y' := mem_of_le h2 ⟨le_refl _, h'⟩
    have md : d ∈ Y' := mem_of_le h2 ⟨h', le_refl _⟩
    have k1 := mem_mul ma mc
    have k2 := mem_mul ma md
    have k3 := mem_mul mb mc
    have k4 := mem_mul mb md
    apply icc_le
    · rcases min_choice (min (a * c) (a * d)) (min (b * c) (b * d)) with e | e <;> rw [e]
      · rcases min_choice (a * c) (a * d) with e | e <;> rw [e] <;> assumption
      · rcases min_choice (b * c) (b * d) with e | e <;> rw [e] <;> assumption
    · rcases max_choice (max (a * c) (a * d)) (max (b * c) (b * d)) with e | e <;> rw [e]
      · rcases max_choice (a * c) (a * d) with e | e <;> rw [e] <;> assumption
      · rcases max_choice (b * c) (b * d) with e | e <;> rw [e] <;> assumption
  · rw [e]
    split_ifs with h0
    · -- 0 belongs to the result
      obtain ⟨x, hx⟩ := exists_mem hX
      obtain ⟨y, hy⟩ := exists_mem hY
      have hz : (0:K) ∈ mul X' Y' := by
        rcases h0 with h0 | h0
        · have : x = 0 := by rw [h0] at hx; simpa using hx
          have h3 := mem_mul (mem_of_le h1 hx) (mem_of_le h2 hy)
          rw [this, zero_mul] at h3; exact h3
        · have : y = 0 := by rw [h0] at hy; simpa using hy
          have h3 := mem_mul (mem_of_le h1 hx) (mem_of_le h2 hy)
          rw [this, mul_zero] at h3; exact h3
      have : (point (0:K)) = icc 0 0 := (icc_eq_mk (le_refl 0)).symm
      rw [this]; exact icc_le hz hz
    · -- X or Y is unbounded and none is {0}: so are X', Y'
      push Not at h0
      have hX' : X' ≠ ⊥ := by rintro rfl; exact hX (le_bot_iff.mp h1)
      have hY' : Y' ≠ ⊥ := by rintro rfl; exact hY (le_bot_iff.mp h2)
      have hne : ∀ {Z Z' : Itv K}, Z ≤ Z' → Z ≠ ⊥ → Z ≠ point 0 → Z' ≠ point 0 := by
        intro Z Z' hle hb hp he
        apply hp
        subst he
        obtain ⟨z, hz⟩ := exists_mem hb
        apply ext_mem
        intro x
        constructor
        · intro hx; exact mem_of_le hle hx
        · intro hx
          have := mem_of_le hle hz
          rw [mem_point] at hx this
          rw [hx, ← this]; exact hz
      rcases eq_of_mem_mul_cases hX' hY' with ⟨a, b, c, d, h, h', rfl, rfl⟩ | e'
      · exfalso
        -- then X and Y are bounded
        rw [if_neg (by push Not; exact h0)] at e
        match X, Y, h1, h2, e with
        | mk (some _) (some _) _, mk (some _) (some _) _, _, _, e =>
          simp only [mul] at e
          rw [icc, ofBounds] at e
          split_ifs at e <;> cases e
        | mk none _ _, _, h1, _, _ => exact h1.1
        | mk (some _) none _, _, h1, _, _ => exact h1.2
        | mk (some _) (some _) _, mk none _ _, _, h2, _ => exact h2.1
        | mk (some _) (some _) _, mk (some _) none _, _, h2, _ => exact h2.2
        | empty, _, _, _, _ => exact hX rfl
        | mk .., empty, _, _, _ => exact hY rfl
      · rw [e', if_neg]
        push Not
        exact ⟨hne h1 hX h0.1, hne h2 hY h0.2⟩

end Itv

/-- exact arithmetic: an instance of the assumptions -/
def IArith.exact (K : Type*) [Field K] [LinearOrder K] [IsStrictOrderedRing K] : IArith K where
  add := Itv.add
  sub := Itv.sub
  mul := Itv.mul
  add_mem := Itv.mem_add
  sub_mem := Itv.mem_sub
  mul_mem := Itv.mem_mul
  add_mono := Itv.add_mono
  sub_mono := Itv.sub_mono
  mul_mono := Itv.mul_mono

end Codac
