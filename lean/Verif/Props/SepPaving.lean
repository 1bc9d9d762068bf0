import Verif.Paving.SepPavingProofs
import Mathlib.Tactic.NormNum
import Mathlib.Tactic.FinCases
import Mathlib.Tactic.Ring
import Mathlib.Tactic.Linarith
import Mathlib.Algebra.Order.Archimedean.Basic

/-!
# C102: pavings of separators (`SepPaving`)

A paving of a set `S` answers YES, NO, MAYBE or EMPTY for a point. The paving is also used as a separator, is made simpler with
`Reunite`, and combined with other separators.
-/

set_option linter.unusedSectionVars false

namespace Codac.Props
open Codac.SPav

variable {K : Type*} [Field K] [LinearOrder K] [IsStrictOrderedRing K]

/-- the answers of the paving agree with the set -/
def Agrees (S : List K → Prop) (t : PNode K) : Prop := ∀ p, (isInside t p = .yes → S p) ∧ (isInside t p = .no → ¬ S p)

/-- no point of the box has the answer EMPTY -/
def Answers (B : Box K) (t : PNode K) : Prop := ∀ p, InBox p B → isInside t p ≠ .empty

/-- each component is bounded, of width at most `eps` -/
def AtMost (eps : K) (X : Box K) : Prop := ∀ I ∈ X, ∀ a ∈ I, ∀ b ∈ I, b - a ≤ eps

/-- `F` separates `S` from its complement: there is a point of `F` on each segment from a point of `S` to a point which is not in `S` -/
def Frontier (n : Nat) (S F : List K → Prop) : Prop :=
  ∀ p q : List K, p.length = n → q.length = n → S p → ¬ S q → ∃ c, 0 ≤ c ∧ c ≤ 1 ∧ F (List.zipWith (fun a b => a + c * (b - a)) p q)

/-- the separator keeps the points of `F` in its two boxes -/
def KeepsBoth (n : Nat) (F : List K → Prop) (s : Box K → Box K → Box K × Box K) : Prop :=
  ∀ X Y v, X.length = n → Y.length = n → InBox v X → InBox v Y → F v → InBox v (s X Y).1 ∧ InBox v (s X Y).2

/-- calls of `Sivia` on the same paving, each with its separator, its precision and its number of levels -/
def sivias (bis : Box K → Box K × Box K) : List ((Box K → Box K → Box K × Box K) × K × Nat) → PNode K → Option (PNode K)
  | [], t => some t
  | c :: L, t => (sivia c.1 bis c.2.1 c.2.2 t).bind (sivias bis L)

/-- a call of `Sivia_ops`: intersection or union, separator, precision, number of levels -/
structure OpCall (K : Type*) [LinearOrder K] where
  inter : Bool
  s : Box K → Box K → Box K × Box K
  eps : K
  fuel : Nat

/-- calls of `Sivia_ops` (`operator&=`, `operator|=`), all of them with the flag of `ops` -/
def opCalls (bis : Box K → Box K × Box K) : List (OpCall K) → PNode K → Option (PNode K × Bool)
  | [], t => some (t, true)
  | c :: L, t => (ops c.s bis c.eps c.inter c.fuel t).bind fun r => (opCalls bis L r.1).map fun r' => (r'.1, r.2 && r'.2)

/-- the set after these calls, each one with the set of its separator -/
def setAfter : List (Bool × (List K → Prop)) → (List K → Prop) → (List K → Prop)
  | [], A => A
  | (true, S) :: L, A => setAfter L fun p => A p ∧ S p
  | (false, S) :: L, A => setAfter L fun p => A p ∨ S p

theorem keeps_of_isSep {n : Nat} {S : List K → Prop} {s : Box K → Box K → Box K × Box K} (h : IsSep n S s) :
    Keeps n S (fun p => ¬ S p) s := ⟨h.le_in, h.le_out, h.keeps_in, h.keeps_out⟩

theorem keeps_of_both {n : Nat} {S F : List K → Prop} {s : Box K → Box K → Box K × Box K} (h : IsSep n S s) (hF : KeepsBoth n F s) :
    Keeps n (fun p => S p ∨ F p) (fun p => ¬ S p ∨ F p) s where
  le_in := h.le_in
  le_out := h.le_out
  keeps_in X Y v hX hY h1 h2 hv := hv.elim (h.keeps_in X Y v hX hY h1 h2) fun h => (hF X Y v hX hY h1 h2 h).1
  keeps_out X Y v hX hY h1 h2 hv := hv.elim (h.keeps_out X Y v hX hY h1 h2) fun h => (hF X Y v hX hY h1 h2 h).2

theorem agrees_of_good {n : Nat} {S : List K → Prop} {t : PNode K} (h : Good n S (fun p => ¬ S p) t) : Agrees S t :=
  fun p => ⟨fun e => not_not.1 ((isInside_sound h p).1 e), (isInside_sound h p).2⟩

theorem answers_of_base {n : Nat} {P Q : List K → Prop} (hPQ : ∀ p, P p ∨ Q p) {B : Box K} {t : PNode K} (h : Base n P Q B t.inn t.out) :
    Answers B t := fun p hp => isInside_ne_empty ((hPQ p).elim (fun hP => .inr ((h.keep p hp).1 hP)) fun hQ => .inl ((h.keep p hp).2 hQ))

theorem atMost_of {eps : K} {X : Box K} (h : maxDiamGt eps X = false) : AtMost eps X := by
  intro I hI a ha b hb
  unfold maxDiamGt at h
  rw [Bool.not_eq_false', List.all_eq_true] at h
  have h := h I hI
  match I, h, ha, hb with
  | .mk (some l) (some u) _, h, ha, hb =>
    simp only [diamLe, decide_eq_true_eq] at h
    have h1 : l ≤ a := ha.1
    have h2 : b ≤ u := hb.2
    linarith
  | .empty, _, ha, _ => exact ha.elim
  | .mk none _ _, h, _, _ => simp [diamLe] at h
  | .mk (some _) none _, h, _, _ => simp [diamLe] at h

/-- The paving of a box with a separator of `S`: the answers YES and NO are right, every point of the box has an answer, and MAYBE is
given only in boxes of width at most `eps`. -/
theorem C102_sivia {n : Nat} (hn : 0 < n) {S : List K → Prop} {s : Box K → Box K → Box K × Box K} (hs : IsSep n S s)
    {bis : Box K → Box K × Box K} (hb : IsBis bis) {eps : K} {fuel : Nat} {B : Box K} (hB : B.length = n) {t : PNode K}
    (h : build s bis eps fuel B = some t) :
    Agrees S t ∧ Answers B t ∧ ∀ p, isInside t p = .maybe → ∃ X : Box K, InBox p X ∧ AtMost eps X ∧ BoxLe X B := by
  obtain ⟨h1, h2⟩ := build_strong hn (keeps_of_isSep hs) hb hB h
  have hPQ : ∀ p, S p ∨ ¬ S p := fun p => em _
  refine ⟨agrees_of_good h1.sound.good, answers_of_base hPQ h1.base, fun p hp => ?_⟩
  obtain ⟨b, hbl, hb1, hb2⟩ := isInside_maybe hPQ h1 hp
  have key : ∀ (t : PNode K) (B : Box K), Strong n S (fun p => ¬ S p) B t → ∀ b ∈ leaves t, BoxLe b.1 B ∧ BoxLe b.2 B := by
    intro t
    induction t with
    | leaf i o =>
      intro B h b hb
      simp only [leaves, List.mem_cons, List.not_mem_nil, or_false] at hb
      subst hb
      exact ⟨Base.le_in h, Base.le_out h⟩
    | node i o l r ihl ihr =>
      intro B h b hb
      obtain ⟨_, B1, B2, l1, l2, _, s1, s2⟩ := h
      simp only [leaves, List.mem_append] at hb
      rcases hb with hb | hb
      · exact ⟨(ihl B1 s1 b hb).1.trans l1, (ihl B1 s1 b hb).2.trans l1⟩
      · exact ⟨(ihr B2 s2 b hb).1.trans l2, (ihr B2 s2 b hb).2.trans l2⟩
  have hk := key t B h1 b hbl
  have hl : b.1.length = b.2.length := hk.1.length.trans hk.2.length.symm
  have hmem : InBox p (b.1.inter b.2) := (inBox_inter hl).2 ⟨hb1, hb2⟩
  refine ⟨b.1.inter b.2, hmem, atMost_of ?_, (inter_le_left hl).trans hk.1⟩
  exact (h2 b hbl).resolve_left (by simp [hmem.not_isEmpty])

/-- The paving is finished after a finite number of bisections, for a bounded box and `eps > 0`; so is a new call of `Sivia` on any
paving with bounded boxes. -/
theorem C102_terminates [Archimedean K] {n : Nat} (hn : 0 < n) {S : List K → Prop} {s : Box K → Box K → Box K × Box K} (hs : IsSep n S s)
    {bis : Box K → Box K × Box K} (hb : IsBis bis) {c : K} (hl : IsLargestFirst c bis) (hc0 : 0 ≤ c) (hc1 : c < 1) {eps : K}
    (he : 0 < eps) :
    (∀ B : Box K, B.length = n → (∀ I ∈ B, I.isUnbounded = false) → ∃ N, ∀ fuel, N ≤ fuel → ∃ t, build s bis eps fuel B = some t) ∧
    ∀ t : PNode K, BoundedTree n t → ∃ N, ∀ fuel, N ≤ fuel → ∃ t', sivia s bis eps fuel t = some t' :=
  ⟨fun B hB hu => sivia_terminates hn hs.le_in hs.le_out hb hl hc0 hc1 he (t := .leaf B B) ⟨⟨hB, hB⟩, hu⟩,
    fun _ ht => sivia_terminates hn hs.le_in hs.le_out hb hl hc0 hc1 he ht⟩

/-- More calls of `Sivia`, with other separators of the same set: the answers YES and NO are still right. -/
theorem C102_again {n : Nat} (hn : 0 < n) {S : List K → Prop} {s : Box K → Box K → Box K × Box K} (hs : IsSep n S s)
    {bis : Box K → Box K × Box K} (hb : IsBis bis) {eps : K} {fuel : Nat} {B : Box K} (hB : B.length = n) {t t' : PNode K}
    (h : build s bis eps fuel B = some t) {L : List ((Box K → Box K → Box K × Box K) × K × Nat)} (hL : ∀ c ∈ L, IsSep n S c.1)
    (h' : sivias bis L t = some t') : Agrees S t' := by
  have h1 := (build_strong hn (keeps_of_isSep hs) hb hB h).1.sound.good
  clear h
  refine agrees_of_good (n := n) ?_
  induction L generalizing t with
  | nil => cases h'; exact h1
  | cons c L ih =>
    simp only [sivias, Option.bind_eq_some_iff] at h'
    obtain ⟨t1, e1, e2⟩ := h'
    exact ih (fun c hc => hL c (List.mem_cons_of_mem _ hc)) e2 (sivia_good hn (keeps_of_isSep (hL c (by simp))) hb h1 e1)

/-- `Reunite` once after the paving: the answers YES and NO are right, and every point of the box has an answer. -/
theorem C102_reunite {n : Nat} (hn : 0 < n) {S : List K → Prop} {s : Box K → Box K → Box K × Box K} (hs : IsSep n S s)
    {bis : Box K → Box K × Box K} (hb : IsBis bis) {diff : Box K → Box K → List (Box K)} (hd : DiffOk n diff) {eps : K} {fuel : Nat}
    {B : Box K} (hB : B.length = n) {t : PNode K} (h : build s bis eps fuel B = some t) :
    Agrees S (reunite diff t) ∧ Answers B (reunite diff t) := by
  obtain ⟨h1, _, h3⟩ := reunite_ok hd (build_strong hn (keeps_of_isSep hs) hb hB h).1
  exact ⟨agrees_of_good h1.good, answers_of_base (fun p => em _) h3⟩

/-- The paving used as a separator, once made or after one `Reunite`, on a box inside the paving given for `x_in` and `x_out`: no point
of the set is lost from `x_out` and no other one from `x_in`. Missing: it is limited to separators that keep the frontier in both boxes
(`C102_frontier_fails`), to boxes inside the paving (`C102_outside_fails`), the same for `x_in` and `x_out` (`C102_two_boxes_fails`),
and when the hull of the undecided parts is not flat (`C102_flat_fails`). -/
theorem C102_separate_partial {n : Nat} (hn : 0 < n) {S F : List K → Prop} {s : Box K → Box K → Box K × Box K} (hs : IsSep n S s)
    (hF : Frontier n S F) (hsF : KeepsBoth n F s) {bis : Box K → Box K × Box K} (hb : IsBis bis) {diff : Box K → Box K → List (Box K)}
    (hd : DiffOk n diff) {mid : Box K → List K} (hm : MidOk n diff mid) {eps : K} {fuel : Nat} {B : Box K} (hB : B.length = n)
    {t t' : PNode K} (h : build s bis eps fuel B = some t) (ht' : t' = t ∨ t' = reunite diff t) {X : Box K} (hX : BoxLe X B)
    (hX' : Solid X) (hflat : ∀ xb, border t' X = some xb → xb.isEmpty = true ∨ Solid xb) :
    ∃ r, separate diff mid t' X X = some r ∧ BoxLe r.1 X ∧ BoxLe r.2 X ∧
      ∀ v, InBox v X → (S v → InBox v r.2) ∧ (¬ S v → InBox v r.1) ∧ (F v → InBox v r.1 ∧ InBox v r.2) := by
  have hst := (build_strong hn (keeps_of_both hs hsF) hb hB h).1
  have hPQ : ∀ p, (S p ∨ F p) ∨ (¬ S p ∨ F p) := fun p => (em (S p)).elim (fun h => .inl (.inl h)) fun h => .inr (.inl h)
  have hmeet : Meets n (fun p => S p ∨ F p) (fun p => ¬ S p ∨ F p) := by
    intro p q lp lq hp hq
    have hl : p.length = q.length := lp.trans lq.symm
    have z : seg 0 p q = p := by
      rw [seg_flip, sub_zero, seg_one hl.symm]
    by_cases fp : F p
    · exact ⟨0, le_rfl, zero_le_one, by rw [z]; exact .inr fp, by rw [z]; exact .inr fp⟩
    by_cases fq : F q
    · exact ⟨1, zero_le_one, le_rfl, .inr ((seg_one hl).symm ▸ fq), .inr ((seg_one hl).symm ▸ fq)⟩
    obtain ⟨c, h0, h1, hc⟩ := hF p q lp lq (hp.resolve_right fp) (hq.resolve_right fq)
    exact ⟨c, h0, h1, .inr hc, .inr hc⟩
  have key : Sound n (fun p => S p ∨ F p) (fun p => ¬ S p ∨ F p) t' ∧ Cov (fun p => S p ∨ F p) (fun p => ¬ S p ∨ F p) t' ∧
      Base n (fun p => S p ∨ F p) (fun p => ¬ S p ∨ F p) B t'.inn t'.out := by
    rcases ht' with rfl | rfl
    · exact ⟨hst.sound, hst.cov, hst.base⟩
    · exact reunite_ok hd hst
  obtain ⟨r, e, r1, r2, r3⟩ := separate_ok hPQ hmeet hd hm key.1 key.2.1 key.2.2 hX hX' hflat
  exact ⟨r, e, r1, r2, fun v hv => ⟨fun h => (r3 v hv).1 (.inl h), fun h => (r3 v hv).2 (.inl h),
    fun h => ⟨(r3 v hv).2 (.inr h), (r3 v hv).1 (.inr h)⟩⟩⟩

/-- Unions and intersections with other sets, after the paving and possibly `Reunite`: the answers YES and NO are right for the resulting
set and every point of the box has an answer. Missing: the flag excludes the cases where a flat box is emptied (`C102_ops_flat_fails`)
and where the width of a node is exactly `eps` (`C102_ops_eps_fails`). -/
theorem C102_ops_partial {n : Nat} (hn : 0 < n) {A : List K → Prop} {s : Box K → Box K → Box K × Box K} (hs : IsSep n A s)
    {bis : Box K → Box K × Box K} (hb : IsBis bis) {diff : Box K → Box K → List (Box K)} (hd : DiffOk n diff) {eps : K} {fuel : Nat}
    {B : Box K} (hB : B.length = n) {t t' t'' : PNode K} (h : build s bis eps fuel B = some t) (ht' : t' = t ∨ t' = reunite diff t)
    {L : List (OpCall K × (List K → Prop))} (hL : ∀ c ∈ L, IsSep n c.2 c.1.s)
    (h' : opCalls bis (L.map (·.1)) t' = some (t'', true)) :
    Agrees (setAfter (L.map fun c => (c.1.inter, c.2)) A) t'' ∧ Answers B t'' := by
  have key : Sound n A (fun p => ¬ A p) t' ∧ ∀ p, InBox p B → InBox p t'.inn ∨ InBox p t'.out := by
    have hst := (build_strong hn (keeps_of_isSep hs) hb hB h).1
    have k2 : ∀ t : PNode K, Base n A (fun p => ¬ A p) B t.inn t.out → ∀ p, InBox p B → InBox p t.inn ∨ InBox p t.out :=
      fun t h p hp => (em (A p)).elim (fun hA => .inr ((h.keep p hp).1 hA)) fun hA => .inl ((h.keep p hp).2 hA)
    rcases ht' with rfl | rfl
    · exact ⟨hst.sound, k2 _ hst.base⟩
    · have := reunite_ok hd hst
      exact ⟨this.1, k2 _ this.2.2⟩
  clear h ht' hs
  obtain ⟨h1, h2⟩ := key
  induction L generalizing t' A with
  | nil =>
    simp only [List.map_nil, opCalls, Option.some.injEq, Prod.mk.injEq, and_true] at h'
    subst h'
    exact ⟨agrees_of_good h1.good, fun p hp => isInside_ne_empty (h2 p hp)⟩
  | cons c L ih =>
    simp only [List.map_cons, opCalls, Option.bind_eq_some_iff, Option.map_eq_some_iff, Prod.mk.injEq, Bool.and_eq_true] at h'
    obtain ⟨⟨t1, f1⟩, e1, ⟨t2, f2⟩, e2, e3, rfl, rfl⟩ := h'
    subst e3
    have hd' := h1.dims
    have := ops_sound hn (keeps_of_isSep (hL c (by simp))) hb h1 e1
    have hL' : ∀ d ∈ L, IsSep n d.2 d.1.s := fun d hd => hL d (List.mem_cons_of_mem _ hd)
    have hroot : ∀ p, InBox p B → InBox p (t'.inn.hull t'.out) := fun p hp =>
      (h2 p hp).elim (InBox.hull_left (hd'.1.trans hd'.2.symm)) (InBox.hull_right (hd'.1.trans hd'.2.symm))
    obtain ⟨⟨inter, cs, ce, cf⟩, S⟩ := c
    cases inter
    · have eQ : opsQ false (fun p => ¬ A p) (fun p => ¬ S p) = fun p => ¬ (A p ∨ S p) := by
        funext p; simp [opsQ]
      have eP : opsP false A S = fun p => A p ∨ S p := by
        funext p; simp [opsP]
      simp only [eP, eQ] at this
      refine ih (A := fun p => A p ∨ S p) hL' e2 this.1 fun p hp => ?_
      by_cases hA : A p ∨ S p
      · exact .inr ((this.2 p (hroot p hp)).1 hA)
      · exact .inl ((this.2 p (hroot p hp)).2 hA)
    · have eQ : opsQ true (fun p => ¬ A p) (fun p => ¬ S p) = fun p => ¬ (A p ∧ S p) := by
        funext p; simp only [opsQ, if_true]; exact propext not_and_or.symm
      have eP : opsP true A S = fun p => A p ∧ S p := by
        funext p; simp [opsP]
      simp only [eP, eQ] at this
      refine ih (A := fun p => A p ∧ S p) hL' e2 this.1 fun p hp => ?_
      by_cases hA : A p ∧ S p
      · exact .inr ((this.2 p (hroot p hp)).1 hA)
      · exact .inl ((this.2 p (hroot p hp)).2 hA)

/-! ### Separators on the line -/

/-- the points at most `c` -/
def below (c : ℚ) (p : List ℚ) : Prop := ∀ x ∈ p, x ≤ c

/-- a separator of the numbers at most `c`, with a margin `w` on both sides -/
def sepBelow (c w : ℚ) (X Y : Box ℚ) : Box ℚ × Box ℚ :=
  (X.map (· ⊓ Itv.ofBounds (some (c - w)) none), Y.map (· ⊓ Itv.ofBounds none (some (c + w))))

/-- one dimension -/
theorem line_of_length {K : Type*} [LinearOrder K] {X : Box K} (h : X.length = 1) : ∃ I, X = [I] := List.length_eq_one_iff.1 h

theorem inLine_iff {K : Type*} [LinearOrder K] {v : List K} {I : Itv K} : InBox v [I] ↔ ∃ a, v = [a] ∧ a ∈ I := by
  constructor
  · intro h
    cases h with
    | cons h1 h2 => cases h2; exact ⟨_, rfl, h1⟩
  · rintro ⟨a, rfl, h⟩
    exact .cons h .nil

theorem sepBelow_isSep (c : ℚ) {w : ℚ} (hw : 0 ≤ w) : IsSep 1 (below c) (sepBelow c w) where
  le_in X Y hX hY := by
    obtain ⟨I, rfl⟩ := line_of_length hX
    exact .cons inf_le_left .nil
  le_out X Y hX hY := by
    obtain ⟨I, rfl⟩ := line_of_length hY
    exact .cons inf_le_left .nil
  keeps_in X Y v hX hY h1 h2 hv := by
    obtain ⟨I, rfl⟩ := line_of_length hX
    obtain ⟨a, rfl, ha⟩ := inLine_iff.1 h1
    simp only [below, List.mem_cons, List.not_mem_nil, or_false, forall_eq, not_le] at hv
    exact inLine_iff.2 ⟨a, rfl, Itv.mem_inf.2 ⟨ha, mem_ofBounds_above.2 (by linarith)⟩⟩
  keeps_out X Y v hX hY h1 h2 hv := by
    obtain ⟨I, rfl⟩ := line_of_length hY
    obtain ⟨a, rfl, ha⟩ := inLine_iff.1 h2
    simp only [below, List.mem_cons, List.not_mem_nil, or_false, forall_eq] at hv
    exact inLine_iff.2 ⟨a, rfl, Itv.mem_inf.2 ⟨ha, mem_ofBounds_below.2 (by linarith)⟩⟩

theorem sepBelow_both (c : ℚ) {w : ℚ} (hw : 0 ≤ w) : KeepsBoth 1 (fun p => p = [c]) (sepBelow c w) := by
  rintro X Y v hX hY h1 h2 rfl
  obtain ⟨I, rfl⟩ := line_of_length hX
  obtain ⟨J, rfl⟩ := line_of_length hY
  obtain ⟨a, e, ha⟩ := inLine_iff.1 h1
  obtain ⟨b, e', hb⟩ := inLine_iff.1 h2
  cases e; cases e'
  exact ⟨inLine_iff.2 ⟨c, rfl, Itv.mem_inf.2 ⟨ha, mem_ofBounds_above.2 (by linarith)⟩⟩,
    inLine_iff.2 ⟨c, rfl, Itv.mem_inf.2 ⟨hb, mem_ofBounds_below.2 (by linarith)⟩⟩⟩

/-- the bisection of IBEX in the middle -/
def halfLine : Box ℚ → Box ℚ × Box ℚ := largestFirst (1 / 2)

/-- the interval `[a, b]` -/
def line (a b : ℚ) : Box ℚ := [Itv.icc a b]

/-- the answers of an optional paving -/
def ask (t : Option (PNode ℚ)) (p : List ℚ) : Option Ans := t.map (isInside · p)

/-- is the point in the new `x_in`, in the new `x_out`? -/
def keeps (t : Option (PNode ℚ)) (X Y : Box ℚ) (p : List ℚ) : Option (Bool × Bool) :=
  t.bind fun t => (separate boxDiff midBox t X Y).map fun r => (contains r.1 p, contains r.2 p)

/-- a paving of the numbers at most 0 in `[-4, 4]`, of several levels -/
def pavBelow : Option (PNode ℚ) := build (sepBelow 0 1) halfLine (1 / 2) 6 (line (-4) 4)

example : (ask pavBelow [-2], ask pavBelow [3], ask pavBelow [1 / 8], ask (pavBelow.map (reunite boxDiff)) [-2]) =
    (some .yes, some .no, some .maybe, some .yes) := by decide +kernel

/-- the hypotheses of `C102_separate_partial` are met: two bounds of the new `x_in` and `x_out` of `[-3, 2]` -/
example : IsSep 1 (below 0) (sepBelow 0 1) ∧ KeepsBoth 1 (fun p => p = [0]) (sepBelow 0 1) ∧ IsBis halfLine ∧
    DiffOk 1 (boxDiff (K := ℚ)) ∧ MidOk 1 (boxDiff (K := ℚ)) midBox ∧ pavBelow.isSome = true ∧
    (pavBelow.bind fun t => (border t (line (-3) 2)).map fun xb => xb.any Itv.isDegenerated) = some false ∧
    keeps pavBelow (line (-3) 2) (line (-3) 2) [-2] = some (false, true) ∧
    keeps pavBelow (line (-3) 2) (line (-3) 2) [3 / 2] = some (true, false) := by
  refine ⟨sepBelow_isSep 0 (by norm_num), sepBelow_both 0 (by norm_num), largestFirst_isBis _, boxDiff_ok 1, boxDiff_mid 1, ?_⟩
  decide +kernel

/-- the point 0 is on each segment from a number at most 0 to a positive number -/
example : Frontier 1 (below 0) (fun p => p = [0]) := by
  intro p q hp hq h h'
  obtain ⟨a, rfl⟩ := List.length_eq_one_iff.1 hp
  obtain ⟨b, rfl⟩ := List.length_eq_one_iff.1 hq
  simp only [below, List.mem_cons, List.not_mem_nil, or_false, forall_eq, not_le] at h h'
  have hd : 0 < b - a := by linarith
  refine ⟨-a / (b - a), div_nonneg (by linarith) hd.le, (div_le_one hd).2 (by linarith), ?_⟩
  simp only [List.zipWith_cons_cons, List.zipWith_nil_right, List.cons.injEq, and_true]
  field_simp
  ring

/-- a separator with the same two boxes, for any set -/
def sepMeet (X Y : Box ℚ) : Box ℚ × Box ℚ := (X.inter Y, X.inter Y)

theorem sepMeet_isSep (n : Nat) (S : List ℚ → Prop) : IsSep n S sepMeet where
  le_in _ _ hX hY := inter_le_left (hX.trans hY.symm)
  le_out _ _ hX hY := inter_le_right (hX.trans hY.symm)
  keeps_in _ _ _ hX hY h1 h2 _ := (inBox_inter (hX.trans hY.symm)).2 ⟨h1, h2⟩
  keeps_out _ _ _ hX hY h1 h2 _ := (inBox_inter (hX.trans hY.symm)).2 ⟨h1, h2⟩

/-- A second call of `Sivia` can forget answers: a point of the box, with the answer YES after the first call, has the answer EMPTY. -/
theorem C102_again_fails : IsSep 1 (below 0) (sepBelow 0 1) ∧ IsSep 1 (below 0) sepMeet ∧
    ask pavBelow [-2] = some .yes ∧ ask (pavBelow.bind fun t => sivia sepMeet halfLine (1 / 2) 6 t) [-2] = some .empty :=
  ⟨sepBelow_isSep 0 (by norm_num), sepMeet_isSep 1 _, by decide +kernel, by decide +kernel⟩

/-- With an exact separator the undecided part is the point 0: the difference of boxes is the whole box, which is classified with its
middle. The point -1/4 of the set is lost from `x_out`. -/
theorem C102_flat_fails : IsSep 1 (below 0) (sepBelow 0 0) ∧ KeepsBoth 1 (fun p => p = [0]) (sepBelow 0 0) ∧ below 0 [-1 / 4] ∧
    contains (line (-1 / 2) 1) [-1 / 4] = true ∧ Box.isSubset (line (-1 / 2) 1) (line (-1) 1) = true ∧
    keeps (build (sepBelow 0 0) halfLine (1 / 8) 6 (line (-1) 1)) (line (-1 / 2) 1) (line (-1 / 2) 1) [-1 / 4] = some (true, false) :=
  ⟨sepBelow_isSep 0 le_rfl, sepBelow_both 0 le_rfl, by norm_num [below], by decide +kernel, by decide +kernel, by decide +kernel⟩

/-- a separator of the numbers at most 0: exact for `x_out`, `x_in` is only emptied when the box is in the set -/
def sepTest (X Y : Box ℚ) : Box ℚ × Box ℚ :=
  (if X.all (fun I => decide (I ≤ Itv.ofBounds none (some 0))) then X.setEmpty else X, Y.map (· ⊓ Itv.ofBounds none (some 0)))

theorem sepTest_isSep : IsSep 1 (below 0) sepTest where
  le_in X Y hX hY := by
    unfold sepTest
    simp only
    split
    · exact setEmpty_le X
    · exact BoxLe.refl X
  le_out X Y hX hY := by
    obtain ⟨I, rfl⟩ := line_of_length hY
    exact .cons inf_le_left .nil
  keeps_in X Y v hX hY h1 h2 hv := by
    obtain ⟨I, rfl⟩ := line_of_length hX
    obtain ⟨a, rfl, ha⟩ := inLine_iff.1 h1
    simp only [below, List.mem_cons, List.not_mem_nil, or_false, forall_eq, not_le] at hv
    unfold sepTest
    simp only [List.all_cons, List.all_nil, Bool.and_true, decide_eq_true_eq]
    rw [if_neg]
    · exact h1
    · intro hI
      exact absurd (mem_ofBounds_below.1 (Itv.mem_of_le hI ha)) (not_le.2 hv)
  keeps_out X Y v hX hY h1 h2 hv := by
    obtain ⟨I, rfl⟩ := line_of_length hY
    obtain ⟨a, rfl, ha⟩ := inLine_iff.1 h2
    simp only [below, List.mem_cons, List.not_mem_nil, or_false, forall_eq] at hv
    exact inLine_iff.2 ⟨a, rfl, Itv.mem_inf.2 ⟨ha, mem_ofBounds_below.2 hv⟩⟩

/-- With a separator that does not keep the frontier, a paving can have no undecided part: the whole box is classified with its middle
and the point -1/4 of the set is lost from `x_out`, although the paving answers YES for it. -/
theorem C102_frontier_fails : IsSep 1 (below 0) sepTest ∧ below 0 [-1 / 4] ∧
    ask (build sepTest halfLine (1 / 8) 6 (line (-1) 1)) [-1 / 4] = some .yes ∧
    keeps (build sepTest halfLine (1 / 8) 6 (line (-1) 1)) (line (-1 / 2) 1) (line (-1 / 2) 1) [-1 / 4] = some (true, false) :=
  ⟨sepTest_isSep, by norm_num [below], by decide +kernel, by decide +kernel⟩

/-- A box larger than the paving: the middle of a removed part is out of the paving, the answer EMPTY is taken as NO for the whole part.
The point -2 of the set, in the paving and with the answer YES, is lost from `x_out`. -/
theorem C102_outside_fails : IsSep 1 (below 0) (sepBelow 0 1) ∧ below 0 [-2] ∧ contains (line (-4) 4) [-2] = true ∧
    ask pavBelow [-2] = some .yes ∧ keeps pavBelow (line (-20) 1) (line (-20) 1) [-2] = some (true, false) :=
  ⟨sepBelow_isSep 0 (by norm_num), by norm_num [below], by decide +kernel, by decide +kernel, by decide +kernel⟩

/-- With different boxes for `x_in` and `x_out` (inside the paving): the point -11/8 of the set, in both boxes, is lost from `x_out`, and
`x_in` gets the point 2 which it did not contain. -/
theorem C102_two_boxes_fails : IsSep 1 (below 0) (sepBelow 0 1) ∧ below 0 [-11 / 8] ∧ contains (line (-3 / 2) (-5 / 4)) [-11 / 8] = true ∧
    contains (line (-3 / 2) 4) [-11 / 8] = true ∧ contains (line (-3 / 2) (-5 / 4)) [2] = false ∧
    keeps pavBelow (line (-3 / 2) (-5 / 4)) (line (-3 / 2) 4) [-11 / 8] = some (true, false) ∧
    keeps pavBelow (line (-3 / 2) (-5 / 4)) (line (-3 / 2) 4) [2] = some (true, false) :=
  ⟨sepBelow_isSep 0 (by norm_num), by norm_num [below], by decide +kernel, by decide +kernel, by decide +kernel, by decide +kernel,
    by decide +kernel⟩

/-! ### Unions and intersections -/

/-- a separator of a single number -/
def sepOne (c : ℚ) (X Y : Box ℚ) : Box ℚ × Box ℚ := (X, Y.map (· ⊓ Itv.point c))

theorem sepOne_isSep (c : ℚ) : IsSep 1 (fun p => p = [c]) (sepOne c) where
  le_in X Y hX hY := BoxLe.refl X
  le_out X Y hX hY := by
    obtain ⟨I, rfl⟩ := line_of_length hY
    exact .cons inf_le_left .nil
  keeps_in X Y v hX hY h1 h2 _ := h1
  keeps_out X Y v hX hY h1 h2 hv := by
    obtain ⟨I, rfl⟩ := line_of_length hY
    obtain ⟨a, rfl, ha⟩ := inLine_iff.1 h2
    cases hv
    exact inLine_iff.2 ⟨c, rfl, Itv.mem_inf.2 ⟨ha, Itv.mem_point.2 rfl⟩⟩

/-- The union of the paving of `{3}` and of the set `{0}`: the flat box is emptied and the paving answers NO for the point 3. -/
theorem C102_ops_flat_fails : IsSep 1 (fun p => p = [3]) (sepOne 3) ∧ IsSep 1 (fun p => p = [0]) (sepOne 0) ∧
    ((build (sepOne 3) halfLine 1 6 (line 0 4)).bind fun t => (ops (sepOne 0) halfLine 1 false 6 t).map fun r => (isInside r.1 [3], r.2)) =
      some (.no, false) :=
  ⟨sepOne_isSep 3, sepOne_isSep 0, by decide +kernel⟩

/-- a separator of the numbers at most 0, exact but on the box `[-4, 4]` -/
def sepTwo (X Y : Box ℚ) : Box ℚ × Box ℚ := if X = line (-4) 4 then sepBelow 0 1 X Y else sepBelow 0 0 X Y

theorem sepTwo_isSep : IsSep 1 (below 0) sepTwo := by
  have h0 := sepBelow_isSep 0 (w := 0) le_rfl
  have h1 := sepBelow_isSep 0 (w := 1) (by norm_num)
  refine ⟨fun X Y hX hY => ?_, fun X Y hX hY => ?_, fun X Y v hX hY a b c => ?_, fun X Y v hX hY a b c => ?_⟩ <;> unfold sepTwo <;> split
  · exact h1.le_in X Y hX hY
  · exact h0.le_in X Y hX hY
  · exact h1.le_out X Y hX hY
  · exact h0.le_out X Y hX hY
  · exact h1.keeps_in X Y v hX hY a b c
  · exact h0.keeps_in X Y v hX hY a b c
  · exact h1.keeps_out X Y v hX hY a b c
  · exact h0.keeps_out X Y v hX hY a b c

/-- The intersection of the paving of the numbers at most 0 with the numbers at most -1/2, when the undecided part has width `eps`: the
old children are kept and the paving answers YES for -1/4. -/
theorem C102_ops_eps_fails : IsSep 1 (below 0) sepTwo ∧ IsSep 1 (below (-1 / 2)) (sepBelow (-1 / 2) (3 / 2)) ∧ ¬ below (-1 / 2) [-1 / 4] ∧
    ((build sepTwo halfLine 1 6 (line (-4) 4)).bind fun t =>
      (ops (sepBelow (-1 / 2) (3 / 2)) halfLine 3 true 6 t).map fun r => (isInside r.1 [-1 / 4], r.2)) = some (.yes, false) :=
  ⟨sepTwo_isSep, sepBelow_isSep _ (by norm_num), by norm_num [below], by decide +kernel⟩

/-- an exact separator of the numbers at least `c` -/
def sepAbove (c : ℚ) (X Y : Box ℚ) : Box ℚ × Box ℚ :=
  (X.map (· ⊓ Itv.ofBounds none (some c)), Y.map (· ⊓ Itv.ofBounds (some c) none))

/-- the numbers at least `c` -/
def above (c : ℚ) (p : List ℚ) : Prop := ∀ x ∈ p, c ≤ x

theorem sepAbove_isSep (c : ℚ) : IsSep 1 (above c) (sepAbove c) where
  le_in X Y hX hY := by
    obtain ⟨I, rfl⟩ := line_of_length hX
    exact .cons inf_le_left .nil
  le_out X Y hX hY := by
    obtain ⟨I, rfl⟩ := line_of_length hY
    exact .cons inf_le_left .nil
  keeps_in X Y v hX hY h1 h2 hv := by
    obtain ⟨I, rfl⟩ := line_of_length hX
    obtain ⟨a, rfl, ha⟩ := inLine_iff.1 h1
    simp only [above, List.mem_cons, List.not_mem_nil, or_false, forall_eq, not_le] at hv
    exact inLine_iff.2 ⟨a, rfl, Itv.mem_inf.2 ⟨ha, mem_ofBounds_below.2 hv.le⟩⟩
  keeps_out X Y v hX hY h1 h2 hv := by
    obtain ⟨I, rfl⟩ := line_of_length hY
    obtain ⟨a, rfl, ha⟩ := inLine_iff.1 h2
    simp only [above, List.mem_cons, List.not_mem_nil, or_false, forall_eq] at hv
    exact inLine_iff.2 ⟨a, rfl, Itv.mem_inf.2 ⟨ha, mem_ofBounds_above.2 hv⟩⟩

/-- the union of the numbers at most 1 and of the numbers at least 6, in `[0, 8]` -/
def pavUnion : Option (PNode ℚ × Bool) := (build (sepBelow 1 1) halfLine 1 6 (line 0 8)).bind fun t => ops (sepAbove 6) halfLine 1 false 6 t

/-- the hypotheses of `C102_ops_partial` are met -/
example : IsSep 1 (below 1) (sepBelow 1 1) ∧ IsSep 1 (above 6) (sepAbove 6) ∧ pavUnion.map (·.2) = some true ∧
    (ask (pavUnion.map (·.1)) [7], ask (pavUnion.map (·.1)) [3], ask (pavUnion.map (·.1)) [1 / 2]) =
      (some .yes, some .maybe, some .maybe) :=
  ⟨sepBelow_isSep 1 (by norm_num), sepAbove_isSep 6, by decide +kernel, by decide +kernel⟩

/-- After a union the children do not cover the undecided part (`bisect_around` does nothing): the paving loses points as a separator.
The point 11/2, out of both sets, is lost from `x_in`. -/
theorem C102_ops_separate_fails : IsSep 1 (below 1) (sepBelow 1 1) ∧ IsSep 1 (above 6) (sepAbove 6) ∧ pavUnion.map (·.2) = some true ∧
    ¬ below 1 [11 / 2] ∧ ¬ above 6 [11 / 2] ∧ keeps (pavUnion.map (·.1)) (line 5 8) (line 5 8) [11 / 2] = some (false, true) :=
  ⟨sepBelow_isSep 1 (by norm_num), sepAbove_isSep 6, by decide +kernel, by norm_num [below], by norm_num [above], by decide +kernel⟩

/-! ### A second `Reunite` -/

/-- the rectangle `[a, b] × [c, d]` -/
def rect2 (a b c d : ℚ) : Box ℚ := [Itv.icc a b, Itv.icc c d]

/-- a set of the plane -/
def twoSet (p : List ℚ) : Prop :=
  ∃ x y, p = [x, y] ∧ (2 < y ∨ (1 ≤ y ∧ (x ≤ 6 ∨ (x ≤ 7 ∧ 3 / 2 ≤ y))))

/-- a separator of this set, contracting five boxes only -/
def twoSep (X Y : Box ℚ) : Box ℚ × Box ℚ :=
  if X = Y then
    if X = rect2 0 8 0 4 then (rect2 0 8 0 2, rect2 0 8 1 4)
    else if X = rect2 0 4 1 2 then (Box.empty 2, X)
    else if X = rect2 4 8 1 2 then (rect2 6 8 1 2, rect2 4 7 1 2)
    else if X = rect2 6 (13 / 2) 1 2 then (rect2 6 (13 / 2) 1 (3 / 2), X)
    else if X = rect2 (13 / 2) 7 1 2 then (rect2 (13 / 2) 7 1 (3 / 2), X)
    else (X, Y)
  else (X, Y)

theorem inBox_rect2 {v : List ℚ} {a b c d : ℚ} : InBox v (rect2 a b c d) ↔ ∃ x y, v = [x, y] ∧ (a ≤ x ∧ x ≤ b) ∧ c ≤ y ∧ y ≤ d := by
  unfold rect2
  constructor
  · intro h
    cases h with
    | cons h1 h2 =>
      cases h2 with
      | cons h2 h3 => cases h3; exact ⟨_, _, rfl, Itv.mem_icc.1 h1, Itv.mem_icc.1 h2⟩
  · rintro ⟨x, y, rfl, h1, h2⟩
    exact .cons (Itv.mem_icc.2 h1) (.cons (Itv.mem_icc.2 h2) .nil)

theorem twoSep_isSep : IsSep 2 twoSet twoSep where
  le_in X Y hX hY := by
    unfold twoSep
    split_ifs with e0 e1 e2 e3 e4 e5
    · rw [e1]; unfold BoxLe; decide +kernel
    · rw [e2]; unfold BoxLe; decide +kernel
    · rw [e3]; unfold BoxLe; decide +kernel
    · rw [e4]; unfold BoxLe; decide +kernel
    · rw [e5]; unfold BoxLe; decide +kernel
    · exact BoxLe.refl _
    · exact BoxLe.refl _
  le_out X Y hX hY := by
    unfold twoSep
    split_ifs with e0 e1 e2 e3 e4 e5
    · rw [← e0, e1]; unfold BoxLe; decide +kernel
    · rw [e0]; exact BoxLe.refl _
    · rw [← e0, e3]; unfold BoxLe; decide +kernel
    · rw [e0]; exact BoxLe.refl _
    · rw [e0]; exact BoxLe.refl _
    · exact BoxLe.refl _
    · exact BoxLe.refl _
  keeps_in X Y v hX hY h1 h2 hv := by
    unfold twoSep
    have key : ∀ x y, v = [x, y] → ¬ (2 < y ∨ (1 ≤ y ∧ (x ≤ 6 ∨ (x ≤ 7 ∧ 3 / 2 ≤ y)))) := fun x y e h => hv ⟨x, y, e, h⟩
    split_ifs with e0 e1 e2 e3 e4 e5
    · rw [e1, inBox_rect2] at h1
      obtain ⟨x, y, rfl, ha, hb⟩ := h1
      have := key x y rfl
      push Not at this
      exact inBox_rect2.2 ⟨x, y, rfl, ha, hb.1, this.1⟩
    · rw [e2, inBox_rect2] at h1
      obtain ⟨x, y, rfl, ha, hb⟩ := h1
      exact absurd (.inr ⟨hb.1, .inl (by linarith)⟩) (key x y rfl)
    · rw [e3, inBox_rect2] at h1
      obtain ⟨x, y, rfl, ha, hb⟩ := h1
      have := key x y rfl
      push Not at this
      exact inBox_rect2.2 ⟨x, y, rfl, ⟨(this.2 hb.1).1.le, ha.2⟩, hb⟩
    · rw [e4, inBox_rect2] at h1
      obtain ⟨x, y, rfl, ha, hb⟩ := h1
      have := key x y rfl
      push Not at this
      exact inBox_rect2.2 ⟨x, y, rfl, ha, hb.1, ((this.2 hb.1).2 (by linarith)).le⟩
    · rw [e5, inBox_rect2] at h1
      obtain ⟨x, y, rfl, ha, hb⟩ := h1
      have := key x y rfl
      push Not at this
      exact inBox_rect2.2 ⟨x, y, rfl, ha, hb.1, ((this.2 hb.1).2 (by linarith)).le⟩
    · exact h1
    · exact h1
  keeps_out X Y v hX hY h1 h2 hv := by
    obtain ⟨x, y, rfl, hv⟩ := hv
    unfold twoSep
    split_ifs with e0 e1 e2 e3 e4 e5
    · rw [e1, inBox_rect2] at h1
      obtain ⟨x', y', e, ha, hb⟩ := h1
      cases e
      refine inBox_rect2.2 ⟨x, y, rfl, ha, ?_, hb.2⟩
      rcases hv with h | h
      · linarith
      · exact h.1
    · exact h1
    · rw [e3, inBox_rect2] at h1
      obtain ⟨x', y', e, ha, hb⟩ := h1
      cases e
      refine inBox_rect2.2 ⟨x, y, rfl, ⟨ha.1, ?_⟩, hb⟩
      rcases hv with h | ⟨_, h | h⟩ <;> linarith
    · exact h1
    · exact h1
    · exact h2
    · exact h2

/-- the paving of this set in `[0, 8] × [0, 4]` -/
def pavTwo : Option (PNode ℚ) := build twoSep halfLine (3 / 4) 6 (rect2 0 8 0 4)

/-- A second call of `Reunite` gives wrong answers: the point (15/2, 9/5), which is not in the set, has the answer NO, then YES. -/
theorem C102_reunite_fails : IsSep 2 twoSet twoSep ∧ DiffOk 2 (boxDiff (K := ℚ)) ∧ ¬ twoSet [15 / 2, 9 / 5] ∧
    ask pavTwo [15 / 2, 9 / 5] = some .no ∧
    ask (pavTwo.map fun t => reunite boxDiff (reunite boxDiff t)) [15 / 2, 9 / 5] = some .yes := by
  refine ⟨twoSep_isSep, boxDiff_ok 2, ?_, by decide +kernel, by decide +kernel⟩
  rintro ⟨x, y, e, h⟩
  cases e
  norm_num at h

end Codac.Props
