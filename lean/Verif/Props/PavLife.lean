import Verif.Paving.Life
import Mathlib.Data.List.Nodup

/-!
# C148: nodes of pavings: copies, moves, assignments, destruction; files of `PSetNode`
-/

set_option linter.unusedSectionVars false

namespace Codac.Props
open Codac.PavLife

section memory
variable {V : Type*}

/-- a binary tree of values -/
inductive VTree (V : Type*) where
  | nil
  | node (v : V) (l r : VTree V)

/-- the number of levels -/
def VTree.levels : VTree V → Nat
  | .nil => 0
  | .node _ l r => 1 + max l.levels r.levels

/-- the pointer `p` gives, in the memory `m`, the tree `t`, whose nodes are at the addresses `L` -/
def PtsTo (m : Mem V) : VTree V → Option Nat → List Nat → Prop
  | .nil, p, L => p = none ∧ L = []
  | .node v l r, p, L => ∃ a o L1 L2, p = some a ∧ m.cell a = some o ∧ o.val = v ∧ PtsTo m l o.left L1 ∧ PtsTo m r o.right L2 ∧ L = a :: (L1 ++ L2)

/-- the object `o` is the root of the tree `t`, whose other nodes are at the addresses `L`, all different -/
def IsTree (m : Mem V) (o : Obj V) (t : VTree V) (L : List Nat) : Prop :=
  ∃ l r L1 L2, t = .node o.val l r ∧ PtsTo m l o.left L1 ∧ PtsTo m r o.right L2 ∧ L = L1 ++ L2 ∧ L.Nodup

/-- nothing is alive at the addresses not given yet -/
def Fresh (m : Mem V) : Prop := ∀ b, m.next ≤ b → m.cell b = none

theorem ptsTo_congr {m m' : Mem V} : ∀ {t : VTree V} {p : Option Nat} {L : List Nat}, PtsTo m t p L → (∀ b ∈ L, m'.cell b = m.cell b) → PtsTo m' t p L
  | .nil, _, _, h, _ => h
  | .node v l r, p, L, h, hb => by
    obtain ⟨a, o, L1, L2, rfl, h1, h2, h3, h4, rfl⟩ := h
    exact ⟨a, o, L1, L2, rfl, by rw [hb a (by simp)]; exact h1, h2, ptsTo_congr h3 fun b hb' => hb b (by simp [hb']), ptsTo_congr h4 fun b hb' => hb b (by simp [hb']), rfl⟩

theorem ptsTo_alive {m : Mem V} : ∀ {t : VTree V} {p : Option Nat} {L : List Nat}, PtsTo m t p L → ∀ b ∈ L, m.cell b ≠ none
  | .nil, _, _, h, b, hb => by rw [h.2] at hb; cases hb
  | .node v l r, p, L, h, b, hb => by
    obtain ⟨a, o, L1, L2, rfl, h1, h2, h3, h4, rfl⟩ := h
    simp only [List.mem_cons, List.mem_append] at hb
    rcases hb with rfl | hb | hb
    · rw [h1]; simp
    · exact ptsTo_alive h3 b hb
    · exact ptsTo_alive h4 b hb

theorem del_spec {fuel : Nat} {m : Mem V} {t : VTree V} {p : Option Nat} {L : List Nat} (h : PtsTo m t p L) (hn : L.Nodup) (hf : t.levels ≤ fuel) :
    ∃ m', del fuel m p = some m' ∧ m'.next = m.next ∧ ∀ b, m'.cell b = if b ∈ L then none else m.cell b := by
  induction t generalizing fuel m p L with
  | nil => obtain ⟨rfl, rfl⟩ := h; exact ⟨m, by cases fuel <;> rfl, rfl, by simp⟩
  | node v l r ihl ihr =>
    obtain ⟨a, o, L1, L2, rfl, h1, h2, h3, h4, rfl⟩ := h
    rw [List.nodup_cons, List.nodup_append] at hn
    obtain ⟨na, n1, n2, nd⟩ := hn
    cases fuel with
    | zero => simp [VTree.levels] at hf
    | succ fuel =>
      simp only [VTree.levels] at hf
      obtain ⟨m1, e1, s1, c1⟩ := ihl h3 n1 (by omega : l.levels ≤ fuel)
      obtain ⟨m2, e2, s2, c2⟩ := ihr (ptsTo_congr (m' := m1) h4 fun b hb => by rw [c1, if_neg fun hb' => nd b hb' b hb rfl]) n2 (by omega : r.levels ≤ fuel)
      refine ⟨free m2 a, by rw [del, h1, Option.bind_some, e1, Option.bind_some, e2]; rfl, by rw [show (free m2 a).next = m2.next from rfl, s2, s1], fun b => ?_⟩
      show (if b = a then none else m2.cell b) = _
      rw [c2, c1]
      by_cases hb : b = a
      · simp [hb]
      · by_cases b2 : b ∈ L2 <;> by_cases b1 : b ∈ L1 <;> simp [hb, b1, b2]

theorem copyPtr_spec {fuel : Nat} {m : Mem V} {t : VTree V} {p : Option Nat} {L : List Nat} (hm : Fresh m) (h : PtsTo m t p L) (hf : t.levels ≤ fuel) :
    ∃ m' q L', copyPtr fuel m p = some (m', q) ∧ PtsTo m' t q L' ∧ L'.Nodup ∧ (∀ b ∈ L', m.next ≤ b ∧ b < m'.next) ∧ m.next ≤ m'.next ∧
      (∀ b, b ∉ L' → m'.cell b = m.cell b) ∧ Fresh m' := by
  induction t generalizing fuel m p L with
  | nil => obtain ⟨rfl, rfl⟩ := h; exact ⟨m, none, [], by cases fuel <;> rfl, ⟨rfl, rfl⟩, by simp, by simp, le_rfl, by simp, hm⟩
  | node v l r ihl ihr =>
    obtain ⟨a, o, L1, L2, rfl, h1, h2, h3, h4, rfl⟩ := h
    cases fuel with
    | zero => simp [VTree.levels] at hf
    | succ fuel =>
      simp only [VTree.levels] at hf
      obtain ⟨m1, q1, M1, e1, p1, n1, r1, s1, c1, f1⟩ := ihl hm h3 (by omega : l.levels ≤ fuel)
      have old : ∀ b, m.cell b ≠ none → b < m.next := fun b hb => by
        by_contra hc; exact hb (hm b (not_lt.mp hc))
      obtain ⟨m2, q2, M2, e2, p2, n2, r2, s2, c2, f2⟩ := ihr f1 (ptsTo_congr (m' := m1) h4 fun b hb => c1 b fun hb' => by
        have := old b (ptsTo_alive h4 b hb)
        have := (r1 b hb').1
        omega) (by omega : r.levels ≤ fuel)
      have hlt : ∀ b ∈ M1 ++ M2, m.next ≤ b ∧ b < m2.next := fun b hb => by
        rcases List.mem_append.mp hb with hb | hb
        · have := r1 b hb; omega
        · have := r2 b hb; omega
      have ca : ∀ b, b ≠ m2.next → (alloc m2 ⟨o.val, q1, q2⟩).1.cell b = m2.cell b := fun b hb => if_neg hb
      refine ⟨(alloc m2 ⟨o.val, q1, q2⟩).1, some m2.next, m2.next :: (M1 ++ M2), ?_, ⟨m2.next, ⟨o.val, q1, q2⟩, M1, M2, rfl, if_pos rfl, h2, ?_, ?_, rfl⟩, ?_, ?_, ?_, ?_, ?_⟩
      · rw [copyPtr, h1, Option.bind_some, e1, Option.bind_some, e2]; rfl
      · refine ptsTo_congr (ptsTo_congr (m' := m2) p1 fun b hb => c2 b fun hb' => ?_) fun b hb => ca b ?_
        · have := r1 b hb; have := r2 b hb'; omega
        · have := hlt b (by simp [hb]); omega
      · exact ptsTo_congr p2 fun b hb => ca b (by have := hlt b (by simp [hb]); omega)
      · rw [List.nodup_cons, List.nodup_append]
        refine ⟨fun hc => by have := hlt _ hc; omega, n1, n2, fun b hb c hc e => ?_⟩
        have := r1 b hb; have := r2 c hc; omega
      · intro b hb
        show m.next ≤ b ∧ b < m2.next + 1
        rcases List.mem_cons.mp hb with rfl | hb
        · omega
        · have := hlt b hb; omega
      · show m.next ≤ m2.next + 1; omega
      · intro b hb
        simp only [List.mem_cons, List.mem_append, not_or] at hb
        rw [ca b hb.1, c2 b hb.2.2, c1 b hb.2.1]
      · intro b hb
        have hb : m2.next + 1 ≤ b := hb
        rw [ca b (by omega)]
        exact f2 b (by omega)

/-- **C148**: the destruction of a paving deletes its nodes, each once, and nothing else -/
theorem C148_destroy {fuel : Nat} {m : Mem V} {o : Obj V} {t : VTree V} {L : List Nat} (h : IsTree m o t L) (hf : t.levels ≤ fuel) :
    ∃ m', destroy fuel m o = some m' ∧ m'.next = m.next ∧ ∀ b, m'.cell b = if b ∈ L then none else m.cell b := by
  obtain ⟨l, r, L1, L2, rfl, h1, h2, rfl, hn⟩ := h
  simp only [VTree.levels] at hf
  rw [List.nodup_append] at hn
  obtain ⟨n1, n2, nd⟩ := hn
  obtain ⟨m1, e1, s1, c1⟩ := del_spec h1 n1 (by omega : l.levels ≤ fuel)
  obtain ⟨m2, e2, s2, c2⟩ := del_spec (ptsTo_congr (m' := m1) h2 fun b hb => by rw [c1, if_neg fun hb' => nd b hb' b hb rfl]) n2 (by omega : r.levels ≤ fuel)
  refine ⟨m2, by rw [destroy, e1, Option.bind_some, e2], s2.trans s1, fun b => ?_⟩
  rw [c2, c1]
  by_cases b2 : b ∈ L2 <;> by_cases b1 : b ∈ L1 <;> simp [b1, b2]

/-- **C148**: the copy of a paving is the same tree, made of other nodes; the paving copied is as before, and the two can be destroyed -/
theorem C148_copy {fuel : Nat} {m : Mem V} (hm : Fresh m) {o : Obj V} {t : VTree V} {L : List Nat} (h : IsTree m o t L) (hf : t.levels ≤ fuel) :
    ∃ m' o' L', copy fuel m o = some (m', o') ∧ Fresh m' ∧ IsTree m' o' t L' ∧ IsTree m' o t L ∧ (∀ b ∈ L', m.cell b = none) ∧ (∀ b, b ∉ L' → m'.cell b = m.cell b) ∧
      (∃ m1 m2, destroy fuel m' o = some m1 ∧ destroy fuel m1 o' = some m2 ∧ ∀ b, m2.cell b = if b ∈ L then none else m.cell b) ∧
      ∃ m1, destroy fuel m' o' = some m1 ∧ m1.cell = m.cell := by
  have hh := h
  obtain ⟨l, r, L1, L2, rfl, h1, h2, rfl, hn⟩ := hh
  have hf' := hf
  simp only [VTree.levels] at hf'
  have old : ∀ b, m.cell b ≠ none → b < m.next := fun b hb => by
    by_contra hc; exact hb (hm b (not_lt.mp hc))
  obtain ⟨m1, q1, M1, e1, p1, n1, r1, s1, c1, f1⟩ := copyPtr_spec hm h1 (by omega : l.levels ≤ fuel)
  obtain ⟨m2, q2, M2, e2, p2, n2, r2, s2, c2, f2⟩ := copyPtr_spec f1 (ptsTo_congr (m' := m1) h2 fun b hb => c1 b fun hb' => by
    have := old b (ptsTo_alive h2 b hb)
    have := (r1 b hb').1
    omega) (by omega : r.levels ≤ fuel)
  have new : ∀ b ∈ M1 ++ M2, m.next ≤ b := fun b hb => by
    rcases List.mem_append.mp hb with hb | hb
    · exact (r1 b hb).1
    · have := r2 b hb; omega
  have same : ∀ b, b ∉ M1 ++ M2 → m2.cell b = m.cell b := fun b hb => by
    simp only [List.mem_append, not_or] at hb
    rw [c2 b hb.2, c1 b hb.1]
  have alive : ∀ b ∈ L1 ++ L2, b < m.next := fun b hb => by
    rcases List.mem_append.mp hb with hb | hb
    · exact old b (ptsTo_alive h1 b hb)
    · exact old b (ptsTo_alive h2 b hb)
  have keep : ∀ b ∈ L1 ++ L2, m2.cell b = m.cell b := fun b hb => same b fun hb' => by
    have := new b hb'; have := alive b hb; omega
  have hc : IsTree m2 ⟨o.val, q1, q2⟩ (.node o.val l r) (M1 ++ M2) := by
    refine ⟨l, r, M1, M2, rfl, ptsTo_congr p1 fun b hb => c2 b fun hb' => ?_, p2, rfl, ?_⟩
    · have := r1 b hb; have := r2 b hb'; omega
    · rw [List.nodup_append]
      refine ⟨n1, n2, fun b hb c hc e => ?_⟩
      have := r1 b hb; have := r2 c hc; omega
  have ho : IsTree m2 o (.node o.val l r) (L1 ++ L2) := ⟨l, r, L1, L2, rfl, ptsTo_congr h1 fun b hb => keep b (by simp [hb]), ptsTo_congr h2 fun b hb => keep b (by simp [hb]), rfl, hn⟩
  refine ⟨m2, ⟨o.val, q1, q2⟩, M1 ++ M2, ?_, f2, hc, ho, fun b hb => hm b (new b hb), same, ?_, ?_⟩
  · rw [copy, e1, Option.bind_some, e2]; rfl
  · obtain ⟨m3, d1, -, d2⟩ := C148_destroy ho hf
    have hc' : IsTree m3 ⟨o.val, q1, q2⟩ (.node o.val l r) (M1 ++ M2) := by
      obtain ⟨l', r', A1, A2, k1, k2, k3, k4, k5⟩ := hc
      have : ∀ b ∈ M1 ++ M2, m3.cell b = m2.cell b := fun b hb => by
        rw [d2, if_neg fun hb' => by have := new b hb; have := alive b hb'; omega]
      exact ⟨l', r', A1, A2, k1, ptsTo_congr k2 fun b hb => this b (by rw [k4]; simp [hb]), ptsTo_congr k3 fun b hb => this b (by rw [k4]; simp [hb]), k4, k5⟩
    obtain ⟨m4, d3, -, d4⟩ := C148_destroy hc' hf
    refine ⟨m3, m4, d1, d3, fun b => ?_⟩
    rw [d4, d2]
    by_cases hb : b ∈ M1 ++ M2
    · rw [if_pos hb, if_neg fun hb' => by have := new b hb; have := alive b hb'; omega, hm b (new b hb)]
    · rw [if_neg hb]
      by_cases hb' : b ∈ L1 ++ L2
      · rw [if_pos hb', if_pos hb']
      · rw [if_neg hb', if_neg hb', same b hb]
  · obtain ⟨m3, d1, -, d2⟩ := C148_destroy hc hf
    refine ⟨m3, d1, funext fun b => ?_⟩
    rw [d2]
    by_cases hb : b ∈ M1 ++ M2
    · rw [if_pos hb, hm b (new b hb)]
    · rw [if_neg hb, same b hb]

/-- **C148**: the move constructor gives the tree to the new object; the destruction of the former one deletes nothing -/
theorem C148_move {m : Mem V} {o : Obj V} {t : VTree V} {L : List Nat} (h : IsTree m o t L) (fuel : Nat) :
    IsTree m (move o).1 t L ∧ destroy fuel m (move o).2 = some m :=
  ⟨h, by cases fuel <;> rfl⟩

/-- **C148** does not hold for the assignment: after `x = std::move(y)`, or `x = f()` with a paving that is not a leaf, the destruction of `y` (or of the temporary) deletes
the nodes of `x`: the destruction of `x` deletes them again -/
theorem C148_assign_fails {fuel : Nat} {m : Mem V} {x y : Obj V} {t : VTree V} {L : List Nat} (h : IsTree m y t L) (hf : t.levels ≤ fuel) (hl : L ≠ []) :
    ∃ m', destroy fuel m (assign x y).2 = some m' ∧ (∀ b ∈ L, m'.cell b = none) ∧ destroy fuel m' (assign x y).1 = none := by
  obtain ⟨m', e1, -, e2⟩ := C148_destroy h hf
  refine ⟨m', e1, fun b hb => by rw [e2, if_pos hb], ?_⟩
  obtain ⟨l, r, L1, L2, rfl, h1, h2, rfl, hn⟩ := h
  have dead : ∀ a, m'.cell a = none → del fuel m' (some a) = none := fun a ha => by
    cases fuel with
    | zero => rfl
    | succ fuel => rw [del, ha]; rfl
  have root : ∀ {t : VTree V} {p : Option Nat} {M : List Nat}, PtsTo m t p M → p = none ∧ M = [] ∨ ∃ a, p = some a ∧ a ∈ M := by
    intro t p M h
    cases t with
    | nil => exact .inl h
    | node v l r =>
      obtain ⟨a, o, M1, M2, rfl, -, -, -, -, rfl⟩ := h
      exact .inr ⟨a, rfl, by simp⟩
  show (del fuel m' y.left).bind (fun m => del fuel m y.right) = none
  rcases root h1 with ⟨k1, k2⟩ | ⟨a, k1, k2⟩
  · rcases root h2 with ⟨k3, k4⟩ | ⟨a, k3, k4⟩
    · exact absurd (by rw [k2, k4]; rfl) hl
    · rw [k1, k3, show del fuel m' none = some m' by cases fuel <;> rfl, Option.bind_some]
      exact dead a (by rw [e2, if_pos (by simp [k4])])
  · rw [k1, dead a (by rw [e2, if_pos (by simp [k2])])]
    rfl

/-- **C148** does not hold for the assignment: the former nodes of `x` are never deleted -/
theorem C148_assign_leak_fails (fuel : Nat) (m : Mem V) (x : Obj V) (v : V) :
    destroy fuel m (assign x ⟨v, none, none⟩).1 = some m ∧ destroy fuel m (assign x ⟨v, none, none⟩).2 = some m := by
  constructor <;> cases fuel <;> rfl

/-- a paving of three nodes: the root is a local variable, its children are at the addresses 0 and 1 -/
def threeNodes : Mem Nat := ⟨2, fun b => if b = 0 then some ⟨10, none, none⟩ else if b = 1 then some ⟨11, none, none⟩ else none⟩

theorem threeNodes_tree : IsTree threeNodes ⟨9, some 0, some 1⟩ (.node 9 (.node 10 .nil .nil) (.node 11 .nil .nil)) [0, 1] :=
  ⟨_, _, [0], [1], rfl, ⟨0, ⟨10, none, none⟩, [], [], rfl, rfl, rfl, ⟨rfl, rfl⟩, ⟨rfl, rfl⟩, rfl⟩, ⟨1, ⟨11, none, none⟩, [], [], rfl, rfl, rfl, ⟨rfl, rfl⟩, ⟨rfl, rfl⟩, rfl⟩, rfl, by decide⟩

example : Fresh threeNodes := fun b hb => by
  have hb : 2 ≤ b := hb
  simp only [threeNodes]
  rw [if_neg (by omega), if_neg (by omega)]

example : ∃ m', destroy 2 threeNodes (assign ⟨8, none, none⟩ ⟨9, some 0, some 1⟩).2 = some m' ∧ (∀ b ∈ [0, 1], m'.cell b = none) ∧
    destroy 2 m' (assign ⟨8, none, none⟩ ⟨9, some 0, some 1⟩).1 = none :=
  C148_assign_fails threeNodes_tree le_rfl (by simp)

end memory

/-! ### Files -/

section file
variable {K : Type*} [LinearOrder K]
open SPav

/-- the two boxes of every node have the same number of components -/
def SameSizes : PNode K → Prop
  | .leaf i o => i.length = o.length
  | .node i o l r => i.length = o.length ∧ SameSizes l ∧ SameSizes r

theorem itv_of_dbl {I J : Itv K} (h1 : lbD I = lbD J) (h2 : ubD I = ubD J) : I = J := by
  cases I with
  | empty =>
    cases J with
    | empty => rfl
    | mk lo hi h => cases lo <;> simp [lbD] at h1
  | mk lo hi h =>
    cases J with
    | empty => cases lo <;> simp [lbD] at h1
    | mk lo' hi' h' =>
      have e1 : lo = lo' := by cases lo <;> cases lo' <;> simp_all [lbD]
      have e2 : hi = hi' := by cases hi <;> cases hi' <;> simp_all [ubD]
      subst e1; subst e2; rfl

theorem boxToks_inj {X Y : Box K} {r r' : List (PTok K)} (hl : X.length = Y.length) (h : boxToks X ++ r = boxToks Y ++ r') : X = Y ∧ r = r' := by
  induction X generalizing Y with
  | nil =>
    cases Y with
    | nil => exact ⟨rfl, h⟩
    | cons J Y => simp at hl
  | cons I X ih =>
    cases Y with
    | nil => simp at hl
    | cons J Y =>
      simp only [boxToks, List.flatMap_cons, List.cons_append, List.nil_append, List.cons.injEq, PTok.dbl.injEq] at h
      obtain ⟨h1, h2, h3⟩ := h
      obtain ⟨e1, e2⟩ := ih (by simpa using hl) h3
      exact ⟨by rw [itv_of_dbl h1 h2, e1], e2⟩

theorem nodeToks_inj {i o i' o' : Box K} {c c' : Bool} {r r' : List (PTok K)} (h1 : i.length = o.length) (h2 : i'.length = o'.length)
    (h : nodeToks i o c ++ r = nodeToks i' o' c' ++ r') : i = i' ∧ o = o' ∧ c = c' ∧ r = r' := by
  unfold nodeToks at h
  rw [List.take_of_length_le h1.le, List.take_of_length_le h2.le] at h
  simp only [List.cons_append, List.append_assoc, List.cons.injEq, PTok.int.injEq] at h
  obtain ⟨e1, e2⟩ := h
  obtain ⟨rfl, e3⟩ := boxToks_inj e1 e2
  obtain ⟨rfl, e4⟩ := boxToks_inj (h1.trans h2.symm) e3
  simp only [List.nil_append, List.cons.injEq, PTok.bool.injEq] at e4
  exact ⟨rfl, rfl, e4.1, e4.2⟩

/-- **C148**: the file written by `save` determines the paving: two pavings whose files begin in the same way are the same (all the bounds of the two boxes of the nodes, the empty
and unbounded ones included, and the structure of the tree can be found again) -/
theorem C148_save {t t' : PNode K} (h : SameSizes t) (h' : SameSizes t') {r r' : List (PTok K)} (e : save t ++ r = save t' ++ r') : t = t' ∧ r = r' := by
  induction t generalizing t' r r' with
  | leaf i o =>
    cases t' with
    | leaf i' o' =>
      obtain ⟨rfl, rfl, -, e4⟩ := nodeToks_inj h h' e
      exact ⟨rfl, e4⟩
    | node i' o' l' r'' =>
      simp only [save, List.append_assoc] at e
      obtain ⟨-, -, e3, -⟩ := nodeToks_inj h h'.1 e
      cases e3
  | node i o l r0 ihl ihr =>
    cases t' with
    | leaf i' o' =>
      simp only [save, List.append_assoc] at e
      obtain ⟨-, -, e3, -⟩ := nodeToks_inj h.1 h' e
      cases e3
    | node i' o' l' r'' =>
      simp only [save, List.append_assoc] at e
      obtain ⟨rfl, rfl, -, e4⟩ := nodeToks_inj h.1 h'.1 e
      obtain ⟨rfl, e5⟩ := ihl h.2.1 h'.2.1 e4
      obtain ⟨rfl, e6⟩ := ihr h.2.2 h'.2.2 e5
      exact ⟨rfl, e6⟩

/-- **C148** does not hold for `load`: no paving with a component is read back, the bounds are written over the pointers -/
theorem C148_load_fails {t : PNode K} (h : t.out ≠ []) (fuel : Nat) (r : List (PTok K)) : load fuel (save t ++ r) = none := by
  have hl : ¬ 2 * t.out.length * 8 ≤ 8 := by
    have := List.length_pos_iff.mpr h
    omega
  cases fuel with
  | zero => rfl
  | succ fuel =>
    cases t with
    | leaf i o => exact if_neg hl
    | node i o l r0 => exact if_neg hl

/-- a paving of three nodes -/
example : SameSizes (.node [Itv.icc 0 2] [⊤] (.leaf [⊥] [Itv.icc 0 1]) (.leaf [Itv.icc 1 2] [⊥]) : PNode ℚ) ∧
    PNode.out (.node [Itv.icc 0 2] [⊤] (.leaf [⊥] [Itv.icc 0 1]) (.leaf [Itv.icc 1 2] [⊥]) : PNode ℚ) ≠ [] := by
  simp [SameSizes, PNode.out]

end file

end Codac.Props
