import Verif.Ctc.PicardEnds
import Verif.Props.Picard
import Mathlib.Data.Rat.Floor
import Mathlib.Data.Int.Interval

/-!
# C52: `CtcPicard::contract` ends

`none` stands for a computation which needs more iterations than allowed: `pf` for each Picard loop (codac_CtcPicard.cpp:232-266), `N` for
each loop over the slices (codac_CtcPicard.cpp:101-124 and 128-145). What is needed of IBEX and of the parameters is `Picard.Regular P n`,
for `n` components:

* the evaluation of the function is inclusion monotone, gives `n` components, all empty or none;
* sums and products with the empty set are empty;
* the midpoint of a bounded interval is in this interval;
* `delta ≥ 1` (the default value is 1.1; `C22_small_delta_fails` is the case `delta < 1`) and `eps > 0`;
* the guess of a larger enclosure is larger (proved for exact arithmetic, `C52_guess_monotone`).
-/

set_option linter.unusedSectionVars false

namespace Codac.Props
open Codac Codac.Ex Codac.PicardEnds

section
variable {K : Type*} [Field K] [LinearOrder K] [IsStrictOrderedRing K] {P : Picard K}

/-- `n` tubes of the same slices over `[a,b]` -/
structure SameSlicing (n : Nat) (a b : K) (xs : List (Tube K)) (m : Nat) : Prop where
  pos : 0 < n
  len : xs.length = n
  wf : ∀ T ∈ xs, T.WF ∧ T.t0 = a ∧ T.tf = b ∧ T.nbSlices = m
  slices : ∀ T ∈ xs, ∀ T' ∈ xs, T.slices.map (fun s => (s.lb, s.ub)) = T'.slices.map fun s => (s.lb, s.ub)

theorem SameSlicing.winv {n m : Nat} {a b : K} {xs : List (Tube K)} (h : SameSlicing n a b xs m) :
    ∃ bs, WInv bs xs xs ∧ bs.length = m ∧ PicardEnds.load ((b - a) / 500) bs < (m + 2001 : Nat) ∧ 0 < b - a := by
  cases hx : xs with
  | nil => have := h.len; have := h.pos; simp [hx] at *; omega
  | cons T Ts =>
    rw [← hx]
    have hT := h.wf T (by simp [hx])
    have hab : a < b := by
      have := hT.1.tiles.le
      obtain ⟨c, cs, hc⟩ : ∃ c cs, T.cells = c :: cs := by
        cases hcs : T.cells with
        | nil => exact absurd hcs hT.1.ne
        | cons c cs => exact ⟨c, cs, rfl⟩
      have ht := hT.1.tiles
      rw [hc] at ht
      obtain ⟨e1, e2, e3⟩ := ht
      have := e3.le
      rw [← hT.2.1, ← hT.2.2.1]
      linarith
    refine ⟨T.cells.map fun c => (c.lb, c.ub), ?_, ?_, ?_, by linarith⟩
    · unfold WInv
      rw [List.forall₂_same]
      intro T' hT'
      refine ⟨(h.wf T' hT').1, ?_, Tube.Within.refl _⟩
      rw [← Tube.slices_bounds, ← Tube.slices_bounds]
      exact h.slices T' hT' T (by simp [hx])
    · rw [List.length_map]; exact hT.2.2.2
    · refine lt_of_le_of_lt (load_start (by linarith) hT.1.tiles) ?_
      have e0 : b - a ≠ 0 := by linarith
      have e : 4 * (T.tf - T.t0) / ((b - a) / 500) = 2000 := by
        rw [hT.2.1, hT.2.2.1]
        field_simp
        norm_num
      rw [e, show T.cells.length = m from hT.2.2.2]
      push_cast
      linarith

theorem SameSlicing.over {n m : Nat} {a b : K} {xs : List (Tube K)} (h : SameSlicing n a b xs m) : PicardEnds.Over (b - a) xs := by
  intro T hT
  rw [(h.wf T hT).2.1, (h.wf T hT).2.2.1]

theorem SameSlicing.ne {n m : Nat} {a b : K} {xs : List (Tube K)} (h : SameSlicing n a b xs m) : xs ≠ [] := by
  rintro rfl
  have := h.len
  have := h.pos
  simp at *
  omega

theorem ends_of_inner {n m pf : Nat} {a b : K} {xs : List (Tube K)} (h : SameSlicing n a b xs m) (hin : InnerEnds P n (b - a) pf)
    (preserve : Bool) : ∃ ys, P.both pf (m + 2001) preserve xs = some ys ∧ ∀ T ∈ ys, T.nbSlices ≤ m + 2000 := by
  obtain ⟨bs, h1, -, h2, h3⟩ := h.winv
  obtain ⟨bs', ys, c1, c2, c3⟩ := both_ends h3 hin h.over h.len h.ne h1 h2 preserve
  refine ⟨ys, c1, fun T hT => ?_⟩
  obtain ⟨i, hi, rfl⟩ := List.getElem_of_mem hT
  have hT := c2.get hi (by rw [← c2.length_eq]; exact hi)
  simp only [List.get_eq_getElem] at hT
  have hl : (bs'.length : K) < (m + 2001 : Nat) := lt_of_le_of_lt (length_le_load (θ := (b - a) / 500) bs') (lt_of_le_of_lt c3 h2)
  rw [Nat.cast_lt] at hl
  have : ys[i].nbSlices = bs'.length := by rw [← hT.2.1]; simp [Tube.nbSlices]
  omega

/-- **C52**, the loops over the slices: when all the Picard loops end (within `pf` iterations), `contract(TubeVector&, FORWARD | BACKWARD)` ends;
each loop over the slices has at most 2000 iterations more than there are slices, and a tube has at most 2000 more slices at the end. -/
theorem C52_slices {n m pf : Nat} {a b : K} {xs : List (Tube K)} (h : SameSlicing n a b xs m)
    (hin : ∀ (t h : Itv K) (init x0 : List (Itv K)), (0 : K) ∈ h → h ≤ .icc (-(b - a)) (b - a) → init.length = n → x0.length = n →
      (∀ I ∈ x0, I ≠ ⊥) → P.loop t init x0 h pf x0 ≠ none) (preserve : Bool) :
    ∃ ys, P.both pf (m + 2001) preserve xs = some ys ∧ ∀ T ∈ ys, T.nbSlices ≤ m + 2000 :=
  ends_of_inner h (fun t h init x0 c1 c2 c3 c4 c5 => Option.ne_none_iff_exists'.mp (hin t h init x0 c1 c2 c3 c4 c5)) preserve

/-- **C52**, machine numbers: when the bounds of the sums are in a finite set of numbers `R` (or infinite), `contract` ends for all tubes, whatever the
function: a Picard loop has at most `2 |R| n + 1` iterations. -/
theorem C52_machine_partial {n m : Nat} {a b : K} {xs : List (Tube K)} (h : SameSlicing n a b xs m) (hr : P.Regular n) (R : Finset K)
    (hR : ∀ X Y v, (P.A.add X Y).lb? = some v ∨ (P.A.add X Y).ub? = some v → v ∈ R) (preserve : Bool) :
    ∃ ys, P.both (2 * R.card * n + 1) (m + 2001) preserve xs = some ys ∧ ∀ T ∈ ys, T.nbSlices ≤ m + 2000 :=
  ends_of_inner h (fun _ _ _ _ c1 _ c3 c4 c5 => loop_machine hr hR c1 c3 c4 c5 (by omega)) preserve

/-- **C52**, exact arithmetic: for a bounded function (`|f| ≤ M`), a Picard loop has at most `2 n (b - a) M / eps + 1` iterations and `contract` ends. -/
theorem C52_bounded {n m pf : Nat} {a b : K} {xs : List (Tube K)} (h : SameSlicing n a b xs m) (hr : P.Regular n) (hA : P.A = IArith.exact K)
    {M : K} (hM : 0 ≤ M) (hF : ∀ X, ∀ J ∈ P.F X, ∀ y ∈ J, -M ≤ y ∧ y ≤ M) (hpf : 2 * n * ((b - a) * M) < pf * P.eps) (preserve : Bool) :
    ∃ ys, P.both pf (m + 2001) preserve xs = some ys ∧ ∀ T ∈ ys, T.nbSlices ≤ m + 2000 := by
  obtain ⟨-, -, -, -, hd⟩ := h.winv
  refine ends_of_inner h (fun t hh init x0 c1 c2 c3 c4 c5 => ?_) preserve
  exact loop_exact hr (by rw [hA]; rfl) (by rw [hA]; rfl) hM hd.le (fun X J hJ => Itv.le_iff.mpr fun y hy => Itv.mem_icc.mpr (hF X J hJ y hy))
    c1 c2 c3 c4 c5 hpf

/-- **C52**, such a number of iterations exists over the rationals and the reals. -/
theorem C52_bounded_exists [Archimedean K] {n m : Nat} {a b : K} {xs : List (Tube K)} (h : SameSlicing n a b xs m) (hr : P.Regular n)
    (hA : P.A = IArith.exact K) {M : K} (hM : 0 ≤ M) (hF : ∀ X, ∀ J ∈ P.F X, ∀ y ∈ J, -M ≤ y ∧ y ≤ M) (preserve : Bool) :
    ∃ pf N, ∃ ys, P.both pf N preserve xs = some ys := by
  obtain ⟨pf, hpf⟩ := exists_nat_gt (2 * n * ((b - a) * M) / P.eps)
  rw [div_lt_iff₀ hr.eps] at hpf
  obtain ⟨ys, hy, -⟩ := C52_bounded h hr hA hM hF hpf preserve
  exact ⟨pf, _, ys, hy⟩

/-- **C52**, the hypothesis on the guess holds for exact arithmetic and midpoint when `delta ≥ 1`. -/
theorem C52_guess_monotone (hA : P.A = IArith.exact K) (hd : 1 ≤ P.delta) (he : 0 ≤ P.eps)
    (hm : ∀ a b hab, P.mid (.mk (some a) (some b) hab) = (a + b) / 2) {I J : Itv K} (hI : I ≠ ⊥) (hJ : J.isUnbounded = false) (h : I ≤ J) :
    P.inflate I ≤ P.inflate J := inflate_mono_exact hA hd he hm hI hJ h

/-- **C52**, the enclosures of a Picard loop grow: as long as the loop goes on, each one contains the previous one. -/
theorem C52_enclosures_grow {n : Nat} (hr : P.Regular n) {t h : Itv K} {init x0 : List (Itv K)} (h0 : (0 : K) ∈ h) (hi : init.length = n)
    (hx : x0.length = n) (hxn : ∀ I ∈ x0, I ≠ ⊥) {E : Nat → List (Itv K)} (hE0 : E 0 = x0)
    (hE : ∀ i, E (i + 1) = P.enclosure t init x0 h ((E i).map P.inflate)) {N : Nat}
    (hgo : ∀ i < N, (P.unb (E (i + 1)) || Picard.boxEmpty (E (i + 1)) || Picard.boxEmpty ((E i).map P.inflate)) = false) {i : Nat} (hiN : i < N) :
    List.Forall₂ (· ≤ ·) (E i) (E (i + 1)) := by
  have key : ∀ i ≤ N, Met P n t init x0 h (E i) := by
    intro i
    induction i with
    | zero => intro _; rw [hE0]; exact ⟨hx, hxn, Or.inl rfl⟩
    | succ i ih =>
      intro hle
      have := hgo i (by omega)
      rw [hE i] at this ⊢
      exact (met_next hr h0 hi hx hxn (ih (by omega)) this).2.1
  have := hgo i hiN
  rw [hE i] at this ⊢
  exact (met_next hr h0 hi hx hxn (key i hiN.le) this).1

end

/-! ### Concrete cases -/

theorem picardMid_mk (a b : ℚ) (hab) : picardMid (.mk (some a) (some b) hab) = (a + b) / 2 := rfl

/-- `x' ∈ [-1,1]` with exact arithmetic and the default value of `delta` -/
def picardIncl : Picard ℚ where
  A := IArith.exact ℚ
  F := fun X => X.tail.map fun _ => I (-1) 1
  mid := picardMid
  delta := 11 / 10
  eps := 1 / 1000
  big := I (-99999) 99999

theorem add_bot_exact {K : Type*} [Field K] [LinearOrder K] [IsStrictOrderedRing K] (X : Itv K) : Itv.add X ⊥ = ⊥ := by cases X <;> rfl
theorem mul_bot_exact {K : Type*} [Field K] [LinearOrder K] [IsStrictOrderedRing K] (X : Itv K) : Itv.mul X ⊥ = ⊥ := by cases X <;> rfl

theorem picardMid_mem {I : Itv ℚ} (h : I ≠ ⊥) (hu : I.isUnbounded = false) : picardMid I ∈ I := by
  obtain ⟨a, b, p, rfl⟩ := Itv.bounds_of_bounded (Itv.isEmpty_false_iff.mpr h) hu
  have p0 : a ≤ b := p
  rw [picardMid_mk]
  exact ⟨show a ≤ (a + b) / 2 by linarith, show (a + b) / 2 ≤ b by linarith⟩

theorem picardIncl_regular (n : Nat) : picardIncl.Regular n where
  len := fun X hX => by simp [picardIncl, hX]
  mono := fun X Y h => by
    have : ∀ A B : List (Itv ℚ), List.Forall₂ (· ≤ ·) A B → List.Forall₂ (· ≤ ·) (A.map fun _ => I (-1) 1) (B.map fun _ => I (-1) 1) := by
      intro A B hAB
      induction hAB with
      | nil => exact .nil
      | cons _ _ ih => exact .cons (le_refl _) ih
    cases h with
    | nil => exact .nil
    | cons _ h => exact this _ _ h
  empty := fun X _ Y hY Z hZ e => by
    simp only [picardIncl, List.mem_map] at hY
    obtain ⟨_, _, rfl⟩ := hY
    exact absurd e (by decide +kernel)
  add_bot := add_bot_exact
  mul_bot := mul_bot_exact
  mid := fun _ => picardMid_mem
  delta := by norm_num [picardIncl]
  eps := by norm_num [picardIncl]
  infl := fun _ _ h1 h2 h3 => inflate_mono_exact (P := picardIncl) rfl (by norm_num [picardIncl]) (by norm_num [picardIncl]) picardMid_mk h1 h2 h3

theorem picardY_slicing : SameSlicing 2 0 1 [picardY, picardY] 1 where
  pos := by decide
  len := rfl
  wf := by
    intro T hT
    have : T = picardY := by simpa using hT
    subst this
    exact ⟨⟨by decide +kernel, ⟨rfl, by decide +kernel, rfl⟩⟩, rfl, rfl, rfl⟩
  slices := by
    intro T hT T' hT'
    have e : T = picardY := by simpa using hT
    have e' : T' = picardY := by simpa using hT'
    rw [e, e']

/-- the hypotheses of `C52_bounded` are met: two unbounded tubes for `x' ∈ [-1,1]` -/
example : ∃ ys, picardIncl.both 4001 2002 true [picardY, picardY] = some ys ∧ ∀ T ∈ ys, T.nbSlices ≤ 2001 :=
  C52_bounded picardY_slicing (picardIncl_regular 2) rfl (M := 1) (by norm_num)
    (fun X J hJ y hy => by
      simp only [picardIncl, List.mem_map] at hJ
      obtain ⟨_, _, rfl⟩ := hJ
      exact Itv.mem_icc.mp hy) (by norm_num [picardIncl]) true

/-- numbers of the machine of the example: the integers of `[-N,N]`; a bound out of range becomes infinite -/
def gridOut (N : ℤ) : Itv ℚ → Itv ℚ
  | .empty => .empty
  | .mk lo hi _ => .ofBounds (lo.bind fun l => if ⌊l⌋ < -N then none else some ((min N ⌊l⌋ : ℤ) : ℚ))
      (hi.bind fun u => if N < ⌈u⌉ then none else some ((max (-N) ⌈u⌉ : ℤ) : ℚ))

theorem gridOut_ge (N : ℤ) {X : Itv ℚ} {x : ℚ} (h : x ∈ X) : x ∈ gridOut N X := by
  match X, h with
  | .mk lo hi _, h =>
    unfold gridOut
    rw [Itv.mem_ofBounds]
    constructor
    · cases lo with
      | none => trivial
      | some l =>
        have hl : l ≤ x := h.1
        simp only [Option.bind_some]
        split_ifs
        · trivial
        · have : ((min N ⌊l⌋ : ℤ) : ℚ) ≤ (⌊l⌋ : ℚ) := by exact_mod_cast min_le_right _ _
          exact this.trans ((Int.floor_le l).trans hl)
    · cases hi with
      | none => trivial
      | some u =>
        have hu : x ≤ u := h.2
        simp only [Option.bind_some]
        split_ifs
        · trivial
        · have : (⌈u⌉ : ℚ) ≤ ((max (-N) ⌈u⌉ : ℤ) : ℚ) := by exact_mod_cast le_max_right _ _
          exact (hu.trans (Int.le_ceil u)).trans this

theorem gridOut_mono (N : ℤ) {X Y : Itv ℚ} (h : X ≤ Y) : gridOut N X ≤ gridOut N Y := by
  match X, Y, h with
  | .empty, _, _ => exact Itv.empty_le _
  | .mk lo hi p, .mk lo' hi' p', ⟨h1, h2⟩ =>
    rw [Itv.le_iff]
    intro x hx
    unfold gridOut at *
    rw [Itv.mem_ofBounds] at *
    constructor
    · cases lo' with
      | none => trivial
      | some l' =>
        cases lo with
        | none => exact h1.elim
        | some l =>
          have h1 : l' ≤ l := h1
          have hf := Int.floor_mono h1
          simp only [Option.bind_some] at hx ⊢
          split_ifs with c
          · trivial
          · rw [if_neg (by omega)] at hx
            have h3 : ((min N ⌊l⌋ : ℤ) : ℚ) ≤ x := hx.1
            have : ((min N ⌊l'⌋ : ℤ) : ℚ) ≤ ((min N ⌊l⌋ : ℤ) : ℚ) := by exact_mod_cast min_le_min_left N hf
            exact this.trans h3
    · cases hi' with
      | none => trivial
      | some u' =>
        cases hi with
        | none => exact h2.elim
        | some u =>
          have h2 : u ≤ u' := h2
          have hf := Int.ceil_mono h2
          simp only [Option.bind_some] at hx ⊢
          split_ifs with c
          · trivial
          · rw [if_neg (show ¬ N < ⌈u⌉ by omega)] at hx
            have h3 : x ≤ ((max (-N) ⌈u⌉ : ℤ) : ℚ) := hx.2
            have : ((max (-N) ⌈u⌉ : ℤ) : ℚ) ≤ ((max (-N) ⌈u'⌉ : ℤ) : ℚ) := by exact_mod_cast max_le_max_left (-N) hf
            exact h3.trans this

/-- an arithmetic whose sums are rounded outward on this grid -/
def gridArith (N : ℤ) : IArith ℚ where
  add := fun X Y => gridOut N (Itv.add X Y)
  sub := Itv.sub
  mul := Itv.mul
  add_mem := fun h1 h2 => gridOut_ge N (Itv.mem_add h1 h2)
  sub_mem := Itv.mem_sub
  mul_mem := Itv.mem_mul
  add_mono := fun h1 h2 => gridOut_mono N (Itv.add_mono h1 h2)
  sub_mono := Itv.sub_mono
  mul_mono := Itv.mul_mono

/-- `x' = x` on this machine -/
def picardGrid (N : ℤ) : Picard ℚ where
  A := gridArith N
  F := fun X => X.tail
  mid := picardMid
  delta := 1
  eps := 1
  big := I (-99999) 99999

/-- with `delta = 1` the centre disappears -/
theorem recentre {a b c : ℚ} (hab : a ≤ b) :
    Itv.add (.point c) (Itv.mul (.point 1) (Itv.sub (.mk (some a) (some b) hab) (.point c))) = .mk (some a) (some b) hab := by
  refine Itv.ext_mem fun x => ?_
  have e1 : Itv.sub (.mk (some a) (some b) hab) (.point c) = .mk (some (a - c)) (some (b - c)) (show a - c ≤ b - c by linarith) := by
    have : Itv.neg (.point c) = .point (-c) := dif_pos (le_refl (-c))
    unfold Itv.sub
    rw [this]
    simp only [Itv.point, Itv.add, Itv.addB, Itv.ofBounds, ← sub_eq_add_neg]
    exact dif_pos (show a - c ≤ b - c by linarith)
  have h1 : a - c ≤ b - c := by linarith
  rw [e1]
  simp only [Itv.point, Itv.mul, one_mul, min_self, max_self, min_eq_left h1, max_eq_right h1, Itv.icc_eq_mk h1, Itv.add, Itv.addB, Itv.mem_ofBounds,
    loLe_some, leHi_some, add_sub_cancel]
  exact Iff.rfl

theorem picardGrid_regular (N : ℤ) : (picardGrid N).Regular 1 where
  len := fun X hX => by simp [picardGrid, hX]
  mono := fun X Y h => by
    cases h with
    | nil => exact .nil
    | cons _ h => exact h
  empty := fun X hX Y hY Z hZ e => by
    match X, hX with
    | [A, B], _ =>
      simp only [picardGrid, List.tail_cons, List.mem_singleton] at hY hZ
      rw [hZ, ← hY, e]
  add_bot := fun X => by show gridOut N (Itv.add X ⊥) = ⊥; rw [add_bot_exact]; rfl
  mul_bot := mul_bot_exact
  mid := fun _ => picardMid_mem
  delta := le_refl _
  eps := by norm_num [picardGrid]
  infl := fun A B h1 h2 h3 => by
    obtain ⟨b, b', q, rfl⟩ := Itv.bounds_of_bounded (Itv.isEmpty_false_iff.mpr (by rintro rfl; exact h1 (le_bot_iff.mp h3))) h2
    obtain ⟨a, a', p, rfl⟩ := Itv.bounds_of_bounded (Itv.isEmpty_false_iff.mpr h1) (bounded_le h3 rfl)
    have e : ∀ (l u : ℚ) (p : l ≤ u), (picardGrid N).inflate (.mk (some l) (some u) p) =
        gridOut N (Itv.add (gridOut N (.mk (some l) (some u) p)) (.icc (-1) 1)) := by
      intro l u p
      show gridOut N (Itv.add (gridOut N (Itv.add (.point _) (Itv.mul (.point 1) (Itv.sub _ (.point _))))) (.icc (-1) 1)) = _
      rw [recentre]
    rw [e a a' p, e b b' q]
    exact gridOut_mono N (Itv.add_mono (gridOut_mono N h3) (le_refl _))

/-- the hypotheses of `C52_machine_partial` are met: the enclosures of `x' = x`, which do not converge on this slice, overflow -/
example : ∃ ys, (picardGrid 1000).both (2 * ((Finset.Icc (-1000 : ℤ) 1000).image fun i : ℤ => (i : ℚ)).card * 1 + 1) 2002 false [picardY] = some ys ∧
    ∀ T ∈ ys, T.nbSlices ≤ 2001 := by
  refine C52_machine_partial (a := 0) (b := 1) (n := 1) (m := 1) ⟨by decide, rfl, ?_, ?_⟩ (picardGrid_regular 1000) _ ?_ false
  · intro T hT
    have : T = picardY := by simpa using hT
    subst this
    exact ⟨⟨by decide +kernel, ⟨rfl, by decide +kernel, rfl⟩⟩, rfl, rfl, rfl⟩
  · intro T hT T' hT'
    have e : T = picardY := by simpa using hT
    have e' : T' = picardY := by simpa using hT'
    rw [e, e']
  · intro X Y v hv
    have key : ∀ Z : Itv ℚ, (gridOut 1000 Z).lb? = some v ∨ (gridOut 1000 Z).ub? = some v → v ∈ (Finset.Icc (-1000 : ℤ) 1000).image fun i : ℤ => (i : ℚ) := by
      intro Z hZ
      rw [Finset.mem_image]
      match Z, hZ with
      | .empty, hZ => rcases hZ with h | h <;> cases h
      | .mk lo hi _, hZ =>
        unfold gridOut Itv.ofBounds at hZ
        dsimp only at hZ
        split_ifs at hZ
        · rcases hZ with h | h
          · simp only [Itv.lb?] at h
            cases lo with
            | none => cases h
            | some l =>
              simp only [Option.bind_some] at h
              split_ifs at h with c
              cases h
              exact ⟨_, by rw [Finset.mem_Icc]; omega, rfl⟩
          · simp only [Itv.ub?] at h
            cases hi with
            | none => cases h
            | some u =>
              simp only [Option.bind_some] at h
              split_ifs at h with c
              cases h
              exact ⟨_, by rw [Finset.mem_Icc]; omega, rfl⟩
        · rcases hZ with h | h <;> cases h
    exact key _ hv

/-! ### Without bound on the numbers -/

/-- one slice `[0,2]`, unbounded, starting at `[1,1]` -/
def picardLong : Tube ℚ := ⟨0, 2, I 1 1, [⟨0, 2, ⊤, ⊤⟩]⟩

theorem picardExp_grows (n : Nat) (b : ℚ) (hb : 1 ≤ b) :
    (picardExp 1).loop (I 0 2) [⊤] [I 1 1] (I 0 (2 - 0)) n [I 1 b] = none := by
  induction n generalizing b with
  | zero => rfl
  | succ n ih =>
    have hinf : (picardExp 1).inflate (I 1 b) = I (1 - 1/1000) (b + 1/1000) := by
      have h1 : (1 : ℚ) - 1/1000 ≤ b + 1/1000 := by linarith
      show (picardExp 1).inflate (Itv.icc 1 b) = Itv.icc _ _
      rw [Itv.icc_eq_mk hb, Itv.icc_eq_mk h1]
      obtain ⟨p, e⟩ := inflate_exact (P := picardExp 1) rfl (by norm_num [picardExp]) (by norm_num [picardExp]) hb (picardMid_mk 1 b hb)
      rw [e]
      simp only [picardExp]
      congr 2 <;> ring
    have hE : (picardExp 1).enclosure (I 0 2) [⊤] [I 1 1] (I 0 (2 - 0)) [I (1 - 1/1000) (b + 1/1000)] = [I 1 (1 + 2 * (b + 1/1000))] := by
      have h1 : (1 : ℚ) - 1/1000 ≤ b + 1/1000 := by linarith
      have h2 : (0 : ℚ) ≤ 2 * (b + 1/1000) := by linarith
      have h3 : (1 : ℚ) ≤ 1 + 2 * (b + 1/1000) := by linarith
      have hm : Itv.mul (Itv.icc 0 2) (Itv.icc (1 - 1/1000) (b + 1/1000)) = Itv.icc 0 (2 * (b + 1/1000)) := by
        rw [Itv.icc_eq_mk (show (0:ℚ) ≤ 2 by norm_num), Itv.icc_eq_mk h1]
        simp only [Itv.mul, zero_mul, min_self, max_self]
        have k1 : (2 : ℚ) * (1 - 1/1000) ≤ 2 * (b + 1/1000) := by linarith
        rw [min_eq_left k1, max_eq_right k1, max_eq_right h2, min_eq_left (by norm_num)]
      have ha : Itv.add (Itv.icc 1 1) (Itv.icc 0 (2 * (b + 1/1000))) = Itv.icc 1 (1 + 2 * (b + 1/1000)) := by
        rw [Itv.icc_eq_mk (le_refl (1:ℚ)), Itv.icc_eq_mk h2, Itv.icc_eq_mk h3]
        simp only [Itv.add, Itv.addB, add_zero]
        exact dif_pos h3
      unfold Picard.enclosure
      show [Itv.add (Itv.icc 1 1) (Itv.mul (Itv.icc 0 (2 - 0)) (Itv.icc (1 - 1/1000) (b + 1/1000) ⊓ ⊤))] = _
      rw [inf_top_eq, sub_zero, hm, ha]
    have h3 : (1 : ℚ) ≤ 1 + 2 * (b + 1/1000) := by linarith
    have h1 : (1 : ℚ) - 1/1000 ≤ b + 1/1000 := by linarith
    unfold Picard.loop
    dsimp only
    rw [List.map_cons, List.map_nil, hinf, hE]
    have c1 : ((picardExp 1).unb [I 1 (1 + 2 * (b + 1/1000))] || Picard.boxEmpty [I 1 (1 + 2 * (b + 1/1000))] ||
        Picard.boxEmpty [I (1 - 1/1000) (b + 1/1000)]) = false := by
      have e1 : I 1 (1 + 2 * (b + 1/1000)) = Itv.mk (some 1) (some (1 + 2 * (b + 1/1000))) h3 := Itv.icc_eq_mk h3
      have e2 : I (1 - 1/1000) (b + 1/1000) = Itv.mk (some (1 - 1/1000)) (some (b + 1/1000)) h1 := Itv.icc_eq_mk h1
      rw [e1, e2]
      have e3 : Itv.mk (some 1) (some (1 + 2 * (b + 1/1000))) h3 ≠ (picardExp 1).big := by
        have : (picardExp 1).big = Itv.mk (some (-99999)) (some 99999) (show (-99999 : ℚ) ≤ 99999 by norm_num) := by decide +kernel
        rw [this]
        intro e
        injection e with e _
        injection e with e
        norm_num at e
      unfold Picard.unb
      simp only [List.any_cons, List.any_nil, Picard.boxEmpty, Itv.isUnbounded, Itv.isEmpty, decide_eq_false e3]
      rfl
    have c2 : (List.zipWith Itv.interiorSubset [I 1 (1 + 2 * (b + 1/1000))] [I (1 - 1/1000) (b + 1/1000)]).all id = false := by
      have e1 : I 1 (1 + 2 * (b + 1/1000)) = Itv.mk (some 1) (some (1 + 2 * (b + 1/1000))) h3 := Itv.icc_eq_mk h3
      have e2 : I (1 - 1/1000) (b + 1/1000) = Itv.mk (some (1 - 1/1000)) (some (b + 1/1000)) h1 := Itv.icc_eq_mk h1
      rw [e1, e2]
      have : ¬ (1 + 2 * (b + 1/1000) < b + 1/1000) := by linarith
      simp only [List.zipWith_cons_cons, List.zipWith_nil_left, List.all_cons, id, Itv.interiorSubset, hiInterior, decide_eq_false this, Bool.and_false, Bool.false_and]
    rw [c1, c2]
    exact ih _ h3

/-- **C52**, what `C52_bounded` excludes: for `x' = x` on a slice of width 2 the enclosures grow for ever. Without bound on the numbers the loop does
not end, and with doubles only the overflow ends it (`C52_machine_partial`): the code has no other limit on the number of iterations. -/
theorem C52_unbounded_fails (pf n : Nat) (preserve : Bool) : (picardExp 1).both pf n preserve [picardLong] = none := by
  have hg : (picardExp 1).guess pf true 0 (0, 2) [picardLong] = none := by
    unfold Picard.guess
    have h1 : [picardLong].any Tube.isEmpty = false := by decide +kernel
    rw [h1]
    have h2 : [picardLong].map (fun T => T.codAt 0) = [⊤] := by decide +kernel
    have h3 : [picardLong].map (fun T => T.evalAt (if true = true then (0, (2 : ℚ)).1 else (0, (2 : ℚ)).2)) = [I 1 1] := by
      decide +kernel
    rw [if_neg (by simp)]
    dsimp only
    dsimp only at h3
    rw [h2, h3, if_pos rfl, picardExp_grows pf 1 (le_refl 1)]
    rfl
  have hl : (picardExp 1).fwdLoop pf n 0 [picardLong] = none := by
    cases n with
    | zero => rfl
    | succ n =>
      unfold Picard.fwdLoop
      have h1 : Picard.boundsAt 0 [picardLong] = some (0, 2) := by decide +kernel
      have h2 : (picardExp 1).unb ([picardLong].map fun T => T.codAt 0) = true := by decide +kernel
      rw [h1]
      dsimp only
      rw [if_pos h2]
      unfold Picard.kth
      rw [if_neg (by decide +kernel), hg]
      rfl
  unfold Picard.both
  rw [if_neg (by decide +kernel)]
  unfold Picard.oneWay
  rw [if_neg (by decide +kernel), if_pos rfl, hl]
  rfl

end Codac.Props
