import Verif.Thick.FastSivia
import Verif.Thick.PavingProofs

/-!
# Proofs for `FastSivia`
-/

set_option linter.unusedSectionVars false

namespace Codac.TPav

open SPav TNode

section
variable {K : Type*} [Field K] [LinearOrder K] [IsStrictOrderedRing K]

theorem at?_all {P : Box K → TB → Prop} {t n : TNode K} {p : List Bool} (h : All P t) (e : t.at? p = some n) : All P n := by
  induction p generalizing t with
  | nil => cases t <;> (obtain rfl := Option.some.inj e; exact h)
  | cons d p ih =>
    cases t with
    | leaf b v => cases e
    | node b v l r => cases d with
      | false => exact ih h.2.1 e
      | true => exact ih h.2.2 e

theorem at?_regular {k : Nat} {t n : TNode K} {p : List Bool} (h : Regular k t) (e : t.at? p = some n) : Regular k n ∧ BoxLe n.box t.box := by
  induction p generalizing t with
  | nil => cases t <;> (obtain rfl := Option.some.inj e; exact ⟨h, BoxLe.refl _⟩)
  | cons d p ih =>
    cases t with
    | leaf b v => cases e
    | node b v l r => cases d with
      | false => exact ⟨(ih h.2.2.1 e).1, (ih h.2.2.1 e).2.trans h.2.1.le.1⟩
      | true => exact ⟨(ih h.2.2.2 e).1, (ih h.2.2.2 e).2.trans h.2.1.le.2⟩

theorem put_all {P : Box K → TB → Prop} {t s : TNode K} {p : List Bool} (h : All P t) (hs : All P s) : All P (t.put p s) := by
  induction p generalizing t with
  | nil => cases t <;> exact hs
  | cons d p ih =>
    cases t with
    | leaf b v => exact h
    | node b v l r => cases d with
      | false => exact ⟨h.1, ih h.2.1, h.2.2⟩
      | true => exact ⟨h.1, h.2.1, ih h.2.2⟩

theorem put_box {t n s : TNode K} {p : List Bool} (e : t.at? p = some n) (hb : s.box = n.box) : (t.put p s).box = t.box := by
  cases p with
  | nil => cases t <;> (obtain rfl := Option.some.inj e; exact hb)
  | cons d p =>
    cases t with
    | leaf b v => rfl
    | node b v l r => cases d <;> rfl

theorem put_regular {k : Nat} {t n s : TNode K} {p : List Bool} (h : Regular k t) (e : t.at? p = some n) (hs : Regular k s) (hb : s.box = n.box) :
    Regular k (t.put p s) := by
  induction p generalizing t with
  | nil => cases t <;> exact hs
  | cons d p ih =>
    cases t with
    | leaf b v => exact h
    | node b v l r => cases d with
      | false =>
        have e' : l.at? p = some n := e
        exact ⟨h.1, by rw [put_box e' hb]; exact h.2.1, ih h.2.2.1 e', h.2.2.2⟩
      | true =>
        have e' : r.at? p = some n := e
        exact ⟨h.1, by rw [put_box e' hb]; exact h.2.1, h.2.2.1, ih h.2.2.2 e'⟩

/-- the leaves of the new node are leaves of the tree -/
theorem put_leaves {t n s : TNode K} {p : List Bool} (e : t.at? p = some n) {q : Box K × TB} (hq : q ∈ s.leaves) : q ∈ (t.put p s).leaves := by
  induction p generalizing t with
  | nil => cases t <;> exact hq
  | cons d p ih =>
    cases t with
    | leaf b v => cases e
    | node b v l r => cases d with
      | false => exact List.mem_append_left _ (ih e)
      | true => exact List.mem_append_right _ (ih e)

/-- the leaves are those of the tree or of the new node -/
theorem leaves_put {t s : TNode K} {p : List Bool} {q : Box K × TB} (hq : q ∈ (t.put p s).leaves) : q ∈ t.leaves ∨ q ∈ s.leaves := by
  induction p generalizing t with
  | nil => cases t <;> exact .inr hq
  | cons d p ih =>
    cases t with
    | leaf b v => exact .inl hq
    | node b v l r => cases d with
      | false => exact (List.mem_append.1 hq).elim (fun h => (ih h).imp_left (List.mem_append_left _)) fun h => .inl (List.mem_append_right _ h)
      | true => exact (List.mem_append.1 hq).elim (fun h => .inl (List.mem_append_left _ h)) fun h => (ih h).imp_left (List.mem_append_right _)

/-- the same leaves when the new node has the same -/
theorem put_leaves_eq {t n s : TNode K} {p : List Bool} (e : t.at? p = some n) (hs : s.leaves = n.leaves) : (t.put p s).leaves = t.leaves := by
  induction p generalizing t with
  | nil => cases t <;> (obtain rfl := Option.some.inj e; exact hs)
  | cons d p ih =>
    cases t with
    | leaf b v => cases e
    | node b v l r => cases d with
      | false => exact congrArg (· ++ r.leaves) (ih (t := l) e)
      | true => exact congrArg (l.leaves ++ ·) (ih (t := r) e)

/-- the label of a node is right, or is the one of a node which has not been tested -/
def Lab (S : List K → V3) (b : Box K) (v : TB) : Prop := v = .maybe ∨ ∀ x, InBox x b → v.has (S x) = true

theorem inter_maybe (w : TB) : TB.opInter .maybe w = w := by cases w <;> rfl

theorem lab_inter {S : List K → V3} {test : Box K → TB} (ht : RightTest S test) {b : Box K} {v : TB} (h : Lab S b v) :
    ∀ x, InBox x b → (TB.opInter v (test b)).has (S x) = true := by
  intro x hx
  rcases h with rfl | h
  · rw [inter_maybe]; exact ht b x hx
  · exact TB.inter_sound (h x hx) (ht b x hx)

theorem Lab.of_le {S : List K → V3} {b c : Box K} {v : TB} (h : Lab S b v) (hc : BoxLe c b) : Lab S c v :=
  h.imp_right fun h x hx => h x (hx.of_le hc)

/-- the tree when the loop ends: the labels are right or not tested, but for the one which has stopped the loop -/
def Fast (k : Nat) (S : List K → V3) (X : Box K) (t' : TNode K) : Prop :=
  (t'.box = X ∧ Regular k t' ∧ All (Lab S) t') ∨
    ∃ t p m x, t.box = X ∧ Regular k t ∧ All (Lab S) t ∧ t.at? p = some m ∧ t' = t.put p (m.setValue .in_) ∧ InBox x m.box ∧ S x = .yes

theorem setValue_box (m : TNode K) (w : TB) : (m.setValue w).box = m.box := by cases m <;> rfl

theorem setValue_regular {k : Nat} {m : TNode K} (h : Regular k m) (w : TB) : Regular k (m.setValue w) := by cases m <;> exact h

theorem cutWith_box (bis : Box K → Box K × Box K) (m : TNode K) (w : TB) : (m.cutWith bis w).box = m.box := by cases m <;> rfl

theorem cutWith_regular {k : Nat} {bis : Box K → Box K × Box K} {m : TNode K} (h : Regular k m) (hc : IsCut m.box (bis m.box).1 (bis m.box).2) (w : TB) :
    Regular k (m.cutWith bis w) := by
  cases m with
  | leaf b v =>
    have hs := hc.solid h.2.2
    exact ⟨h, hc, ⟨hc.le.1.length.trans h.1, bnd_of_le hc.le.1 h.2.1, hs.1⟩, ⟨hc.le.2.length.trans h.1, bnd_of_le hc.le.2 h.2.1, hs.2⟩⟩
  | node b v l r => exact h

theorem cutWith_lab {S : List K → V3} {bis : Box K → Box K × Box K} {m : TNode K} (h : All (Lab S) m) (hc : IsCut m.box (bis m.box).1 (bis m.box).2)
    {w : TB} (hw : Lab S m.box w) : All (Lab S) (m.cutWith bis w) := by
  cases m with
  | leaf b v => exact ⟨hw, Lab.of_le h hc.le.1, Lab.of_le h hc.le.2⟩
  | node b v l r => exact ⟨hw, h.2.1, h.2.2⟩

theorem fastSivLoop_ok {k : Nat} {S : List K → V3} {test : Box K → TB} (ht : RightTest S test) {mid : Box K → List K}
    (hmid : ∀ b, b.length = k → Bnd b → Solid b → InBox (mid b) b) {bis : Box K → Box K × Box K} {eps : K} (hbis : Cuts eps bis) {fuel : Nat}
    {L : List (List Bool)} {t t' : TNode K} (hr : Regular k t) (hS : All (Lab S) t) (h : fastSivLoop test mid bis eps TB.opInter fuel L t = some t') :
    Fast k S t.box t' := by
  induction fuel generalizing L t with
  | zero =>
    cases L with
    | nil => obtain rfl := Option.some.inj h; exact .inl ⟨rfl, hr, hS⟩
    | cons p L => cases h
  | succ fuel ih =>
    cases L with
    | nil => obtain rfl := Option.some.inj h; exact .inl ⟨rfl, hr, hS⟩
    | cons p L =>
      rw [fastSivLoop] at h
      cases e : t.at? p with
      | none => rw [e] at h; cases h
      | some m =>
        rw [e] at h
        simp only [Option.bind_some] at h
        obtain ⟨hm, _⟩ := at?_regular hr e
        have hl := at?_all hS e
        have hv := lab_inter ht hl.root
        split at h
        · rename_i hs
          obtain rfl := Option.some.inj h
          have hx := hmid m.box hm.root.1 hm.root.2.1 hm.root.2.2
          refine .inr ⟨t, p, m, mid m.box, rfl, hr, hS, e, rfl, hx, eq_yes ?_⟩
          unfold stopsAt at hs
          rw [Bool.or_eq_true, decide_eq_true_eq, decide_eq_true_eq] at hs
          rcases hs with hs | hs
          · rw [← hs]; exact hv _ hx
          · rw [← hs]; exact ht _ _ (inBox_points _)
        · split at h
          · rename_i hg
            have hc := hbis m.box hm.root.2.1 (goOn_diam hg)
            have := ih (put_regular hr e (cutWith_regular hm hc _) (cutWith_box bis m _)) (put_all hS (cutWith_lab hl hc (.inr hv))) h
            rwa [put_box e (cutWith_box bis m _)] at this
          · have := ih (put_regular (s := leaf m.box (TB.opInter m.value (test m.box))) hr e hm.root rfl) (put_all hS (Or.inr hv)) h
            rwa [put_box (s := leaf m.box (TB.opInter m.value (test m.box))) e rfl] at this

/-! ### `check_empty` -/

theorem reunite_out {t : TNode K} (h : t.reunite.value = .out ∨ t.reunite.value = .empty) : ∀ q ∈ t.leaves, q.2 = .out ∨ q.2 = .empty := by
  induction t with
  | leaf b v =>
    intro q hq
    simp only [TNode.leaves, List.mem_cons, List.not_mem_nil, or_false] at hq
    subst hq
    exact h
  | node b v l r ihl ihr =>
    rcases reunite_node b v l r with ⟨bl, br, w, e1, e2, e⟩ | e
    · rw [e] at h
      rw [e1] at ihl
      rw [e2] at ihr
      exact fun q hq => (List.mem_append.1 hq).elim (ihl h q) (ihr h q)
    · rw [e] at h
      have key : ∀ x y : TB, (x.opUnion y = .out ∨ x.opUnion y = .empty) → (x = .out ∨ x = .empty) ∧ (y = .out ∨ y = .empty) := by
        intro x y; cases x <;> cases y <;> decide
      have := key _ _ h
      exact fun q hq => (List.mem_append.1 hq).elim (ihl this.1 q) (ihr this.2 q)

theorem reunite_leaf_val {t : TNode K} {b : Box K} {w : TB} (h : (b, w) ∈ t.reunite.leaves) : ∃ c, (c, w) ∈ t.leaves := by
  induction t generalizing b with
  | leaf b' v => exact ⟨b, h⟩
  | node b' v l r ihl ihr =>
    rcases reunite_node b' v l r with ⟨bl, br, w', e1, e2, e⟩ | e
    · rw [e] at h
      simp only [TNode.leaves, List.mem_cons, List.not_mem_nil, or_false, Prod.mk.injEq] at h
      obtain ⟨_, rfl⟩ := h
      rw [e1] at ihl
      obtain ⟨c, hc⟩ := ihl (b := bl) (by simp [TNode.leaves])
      exact ⟨c, List.mem_append_left _ hc⟩
    · rw [e] at h
      rcases List.mem_append.1 h with h | h
      · obtain ⟨c, hc⟩ := ihl h
        exact ⟨c, List.mem_append_left _ hc⟩
      · obtain ⟨c, hc⟩ := ihr h
        exact ⟨c, List.mem_append_right _ hc⟩

theorem hasIn_mem {t : TNode K} (h : t.hasIn = true) : ∃ b, (b, TB.in_) ∈ t.leaves := by
  induction t with
  | leaf b v =>
    rw [hasIn, decide_eq_true_eq] at h
    subst h
    exact ⟨b, by simp [TNode.leaves]⟩
  | node b v l r ihl ihr =>
    rw [hasIn, Bool.or_eq_true] at h
    rcases h with h | h
    · obtain ⟨b, hb⟩ := ihl h
      exact ⟨b, List.mem_append_left _ hb⟩
    · obtain ⟨b, hb⟩ := ihr h
      exact ⟨b, List.mem_append_right _ hb⟩

theorem lab_out {k : Nat} {S : List K → V3} {t : TNode K} (hr : Regular k t) (hS : All (Lab S) t) (h : ∀ q ∈ t.leaves, q.2 = .out ∨ q.2 = .empty)
    {x : List K} (hx : InBox x t.box) : S x = .no := by
  obtain ⟨q, hq, hxq⟩ := regular_cover hr hx
  rcases all_leaves hS hq with hl | hl
  · rcases h q hq with h | h <;> rw [h] at hl <;> cases hl
  · have := hl x hxq
    rcases h q hq with h | h
    · rw [h] at this; exact eq_no this
    · rw [h] at this; revert this; cases S x <;> simp [TB.has]

theorem lab_in {k : Nat} {S : List K → V3} {t : TNode K} (hr : Regular k t) (hS : All (Lab S) t) {b : Box K} (h : (b, TB.in_) ∈ t.leaves) :
    ∃ x, InBox x t.box ∧ S x = .yes := by
  have hx := (midBox_interior (regular_leaf_solid hr h)).inBox
  refine ⟨midBox b, hx.of_le (regular_leaf_le hr h), ?_⟩
  rcases all_leaves hS h with hl | hl
  · cases hl
  · exact eq_yes (hl _ hx)

theorem fast_checkEmpty {k : Nat} {S : List K → V3} {X : Box K} {t' : TNode K} (h : Fast k S X t') :
    (t'.checkEmpty = .out → ∀ x, InBox x X → S x = .no) ∧ (t'.checkEmpty = .in_ → ∃ x, InBox x X ∧ S x = .yes) := by
  have hout : t'.checkEmpty = .out → ∀ q ∈ t'.leaves, q.2 = .out ∨ q.2 = .empty := by
    intro hc
    unfold TNode.checkEmpty at hc
    split at hc
    · rename_i he
      unfold TNode.isEmpty at he
      rw [decide_eq_true_eq] at he
      exact reunite_out (.inl he)
    · split at hc <;> cases hc
  have hin : t'.checkEmpty = .in_ → ∃ b, (b, TB.in_) ∈ t'.leaves := by
    intro hc
    unfold TNode.checkEmpty at hc
    split at hc
    · cases hc
    · split at hc
      · rename_i hi
        obtain ⟨b, hb⟩ := hasIn_mem hi
        exact reunite_leaf_val hb
      · cases hc
  rcases h with ⟨rfl, hr, hS⟩ | ⟨t, p, m, x, rfl, hr, hS, e, rfl, hx, hy⟩
  · refine ⟨fun hc x hx => lab_out hr hS (hout hc) hx, fun hc => ?_⟩
    obtain ⟨b, hb⟩ := hin hc
    exact lab_in hr hS hb
  · refine ⟨fun hc y hy' => ?_, fun _ => ⟨x, hx.of_le (at?_regular hr e).2, hy⟩⟩
    have ho := hout hc
    cases m with
    | leaf b v =>
      have := ho _ (put_leaves (s := leaf b .in_) (q := (b, .in_)) e (by simp [TNode.leaves]))
      rcases this with h | h <;> cases h
    | node b v l r =>
      rw [put_leaves_eq (s := (node b v l r).setValue .in_) e rfl] at ho
      exact lab_out hr hS ho hy'

/-! ### the loop ends -/

open Sivia in
/-- a bound on the number of iterations for the nodes under a node -/
noncomputable def wt [Archimedean K] (c eps : K) : TNode K → Nat
  | leaf b _ => 2 ^ (boxRank c eps b + 1) - 1
  | node _ _ l r => 1 + wt c eps l + wt c eps r

/-- the bound for the nodes of the queue -/
noncomputable def wtQueue [Archimedean K] (c eps : K) (t : TNode K) (L : List (List Bool)) : Nat :=
  (L.map fun p => ((t.at? p).map (wt c eps)).getD 0).sum

theorem wt_pos [Archimedean K] (c eps : K) (t : TNode K) : 0 < wt c eps t := by
  cases t with
  | leaf b v =>
    rw [wt]
    have : 2 ^ 1 ≤ 2 ^ (Sivia.boxRank c eps b + 1) := Nat.pow_le_pow_right (by omega) (by omega)
    omega
  | node b v l r => rw [wt]; omega

theorem at?_put {t n s : TNode K} {p : List Bool} (e : t.at? p = some n) (q : List Bool) : (t.put p s).at? (p ++ q) = s.at? q := by
  induction p generalizing t with
  | nil => cases t <;> rfl
  | cons d p ih =>
    cases t with
    | leaf b v => cases e
    | node b v l r => cases d with
      | false => exact ih (t := l) e
      | true => exact ih (t := r) e

/-- a path which does not go through the changed node gives the same node -/
theorem at?_put_ne {t s : TNode K} {p q : List Bool} (h1 : ¬ p <+: q) (h2 : ¬ q <+: p) : (t.put p s).at? q = t.at? q := by
  induction p generalizing t q with
  | nil => exact absurd List.nil_prefix h1
  | cons d p ih =>
    cases q with
    | nil => exact absurd List.nil_prefix h2
    | cons c q =>
      cases t with
      | leaf b v => rfl
      | node b v l r =>
        have hp : c = d → ¬ p <+: q ∧ ¬ q <+: p := by
          rintro rfl
          exact ⟨fun h => h1 (List.cons_prefix_cons.2 ⟨rfl, h⟩), fun h => h2 (List.cons_prefix_cons.2 ⟨rfl, h⟩)⟩
        cases d <;> cases c
        · exact ih (t := l) (hp rfl).1 (hp rfl).2
        · rfl
        · rfl
        · exact ih (t := r) (hp rfl).1 (hp rfl).2

/-- no path of the queue goes through another -/
def Apart (L : List (List Bool)) : Prop := L.Pairwise fun p q => ¬ p <+: q ∧ ¬ q <+: p

theorem apart_cut {p : List Bool} {L : List (List Bool)} (h : Apart (p :: L)) : Apart (L ++ [p ++ [false], p ++ [true]]) := by
  obtain ⟨h1, h2⟩ := List.pairwise_cons.1 h
  have key : ∀ q ∈ L, ∀ d, ¬ q <+: p ++ [d] ∧ ¬ p ++ [d] <+: q := by
    intro q hq d
    refine ⟨fun h => ?_, fun h => (h1 q hq).1 ((List.prefix_append p [d]).trans h)⟩
    rcases List.prefix_concat_iff.1 h with h | h
    · exact (h1 q hq).1 (h ▸ List.prefix_append p [d])
    · exact (h1 q hq).2 h
  refine List.pairwise_append.2 ⟨h2, ?_, fun q hq r hr => ?_⟩
  · refine List.pairwise_cons.2 ⟨fun r hr => ?_, List.pairwise_singleton _ _⟩
    simp only [List.mem_cons, List.not_mem_nil, or_false] at hr
    subst hr
    constructor <;> intro h <;> simp [List.prefix_append_right_inj] at h
  · simp only [List.mem_cons, List.not_mem_nil, or_false] at hr
    rcases hr with rfl | rfl
    · exact key q hq false
    · exact key q hq true

theorem wtQueue_put [Archimedean K] (c eps : K) {t s : TNode K} {p : List Bool} {L : List (List Bool)} (h : Apart (p :: L)) :
    wtQueue c eps (t.put p s) L = wtQueue c eps t L := by
  unfold wtQueue
  congr 1
  refine List.map_congr_left fun q hq => ?_
  have := (List.pairwise_cons.1 h).1 q hq
  rw [at?_put_ne this.1 this.2]

open Sivia in
theorem fastSivLoop_terminates [Archimedean K] {k : Nat} (test : Box K → TB) (mid : Box K → List K)
    {bis : Box K → Box K × Box K} (hb : IsBis bis) {c : K} (hl : IsLargestFirst c bis) (hc0 : 0 ≤ c) (hc1 : c < 1) {eps : K} (he : 0 < eps)
    (hbis : Cuts eps bis) (op : TB → TB → TB) {fuel : Nat} {L : List (List Bool)} {t : TNode K} (hr : Regular k t) (hL : Apart L)
    (hin : ∀ p ∈ L, ∃ n, t.at? p = some n) (hf : wtQueue c eps t L ≤ fuel) : ∃ t', fastSivLoop test mid bis eps op fuel L t = some t' := by
  induction fuel generalizing L t with
  | zero =>
    cases L with
    | nil => exact ⟨t, rfl⟩
    | cons p L =>
      obtain ⟨n, e⟩ := hin p (by simp)
      have := wt_pos c eps n
      simp only [wtQueue, List.map_cons, List.sum_cons, e, Option.map_some, Option.getD_some] at hf
      omega
  | succ fuel ih =>
    cases L with
    | nil => exact ⟨t, rfl⟩
    | cons p L =>
      obtain ⟨m, e⟩ := hin p (by simp)
      rw [fastSivLoop, e]
      simp only [Option.bind_some]
      obtain ⟨hm, _⟩ := at?_regular hr e
      have hpos := wt_pos c eps m
      have hf' : wt c eps m + wtQueue c eps t L ≤ fuel + 1 := by
        have h := hf
        simp only [wtQueue, List.map_cons, List.sum_cons, e, Option.map_some, Option.getD_some] at h
        exact h
      have old : ∀ (s : TNode K), ∀ q ∈ L, ∃ n, (t.put p s).at? q = some n := by
        intro s q hq
        have := (List.pairwise_cons.1 hL).1 q hq
        rw [at?_put_ne this.1 this.2]
        exact hin q (List.mem_cons_of_mem _ hq)
      split
      · exact ⟨_, rfl⟩
      · split
        · rename_i hg
          have hc := hbis m.box hm.root.2.1 (goOn_diam hg)
          have hcut : ∃ l r w, m.cutWith bis (op m.value (test m.box)) = node m.box w l r ∧ wt c eps l + wt c eps r + 1 ≤ wt c eps m := by
            cases m with
            | leaf b v =>
              refine ⟨_, _, _, rfl, ?_⟩
              have hbi : Bnd b := hm.2.1
              obtain ⟨r1, r2⟩ := boxRank_bis hb hl hc0 hc1 he hbi (maxDiamLt_false (goOn_diam hg))
              have p1 : 2 ^ (boxRank c eps (bis b).1 + 1) ≤ 2 ^ boxRank c eps b := Nat.pow_le_pow_right (by omega) r1
              have p2 : 2 ^ (boxRank c eps (bis b).2 + 1) ≤ 2 ^ boxRank c eps b := Nat.pow_le_pow_right (by omega) r2
              have p3 : 2 ^ (boxRank c eps b + 1) = 2 * 2 ^ boxRank c eps b := by rw [Nat.pow_succ]; omega
              have q1 : 0 < 2 ^ (boxRank c eps (bis b).1 + 1) := Nat.pow_pos (by omega)
              have q2 : 0 < 2 ^ (boxRank c eps (bis b).2 + 1) := Nat.pow_pos (by omega)
              simp only [wt]
              omega
            | node b v l r => exact ⟨l, r, _, rfl, by rw [wt]; omega⟩
          obtain ⟨l, r, w, ec, hw⟩ := hcut
          have hreg := put_regular hr e (cutWith_regular hm hc (op m.value (test m.box))) (cutWith_box bis m _)
          rw [ec] at hreg ⊢
          have el : (t.put p (node m.box w l r)).at? (p ++ [false]) = some l := by
            rw [at?_put e]; cases l <;> rfl
          have er : (t.put p (node m.box w l r)).at? (p ++ [true]) = some r := by
            rw [at?_put e]; cases r <;> rfl
          refine ih hreg (apart_cut hL) (fun q hq => ?_) ?_
          · rcases List.mem_append.1 hq with hq | hq
            · exact old _ q hq
            · simp only [List.mem_cons, List.not_mem_nil, or_false] at hq
              rcases hq with rfl | rfl
              · exact ⟨l, el⟩
              · exact ⟨r, er⟩
          · have hq := wtQueue_put c eps (t := t) (s := node m.box w l r) hL
            unfold wtQueue at hq hf' ⊢
            rw [List.map_append, List.sum_append, hq]
            simp only [List.map_cons, List.map_nil, List.sum_cons, List.sum_nil, el, er, Option.map_some, Option.getD_some]
            omega
        · refine ih (put_regular (s := leaf m.box _) hr e hm.root rfl) (List.pairwise_cons.1 hL).2 (old _) ?_
          rw [wtQueue_put c eps hL]
          omega

end

end Codac.TPav
