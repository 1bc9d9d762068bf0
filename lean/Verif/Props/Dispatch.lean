import Verif.CN.Dispatch
import Mathlib.Tactic.Basic
import Mathlib.Tactic.Push

/-!
# C125: a dynamic contractor given a list of domains, directly or in a network
-/

namespace Codac.Props

open Codac.Built

/-- the types of the domains are the given ones -/
def Typed (ts : List Ty) (ds : List Ref) : Prop := ds.map Ref.ty = ts

/-- `CtcDeriv`: "Tube, Tube", "TubeVector, TubeVector", "Slice, Slice[, Slice, Slice..]" (the first half of the slices, then their derivatives) -/
inductive DerivDoms : List Ref → Prop
  | tubes {ds} : Typed [.tube, .tube] ds → DerivDoms ds
  | vecs {ds} : Typed [.tubeVec, .tubeVec] ds → DerivDoms ds
  | slices {xs vs} : xs ≠ [] → xs.length = vs.length → (∀ d ∈ xs ++ vs, d.ty = .slice) → DerivDoms (xs ++ vs)

/-- `CtcEval`: "Interval, Interval, Tube[, Tube]", "Interval, IntervalVector, TubeVector[, TubeVector]" -/
def EvalDoms (ds : List Ref) : Prop :=
  Typed [.interval, .interval, .tube] ds ∨ Typed [.interval, .interval, .tube, .tube] ds ∨
    Typed [.interval, .vec, .tubeVec] ds ∨ Typed [.interval, .vec, .tubeVec, .tubeVec] ds

/-- `CtcDelay`: "Interval, Tube, Tube", "Interval, TubeVector, TubeVector" -/
def DelayDoms (ds : List Ref) : Prop := Typed [.interval, .tube, .tube] ds ∨ Typed [.interval, .tubeVec, .tubeVec] ds

/-- `CtcPicard`, `CtcLohner`, `CtcStatic`: "Tube", "TubeVector" -/
def OneDoms (ds : List Ref) : Prop := Typed [.tube] ds ∨ Typed [.tubeVec] ds

/-- With two tubes or two tube vectors `CtcDeriv` makes one call, on these. -/
theorem C125_deriv_tubes {ds : List Ref} (h : Typed [.tube, .tube] ds ∨ Typed [.tubeVec, .tubeVec] ds) : derivDisp ds = .done [ds] := by
  unfold Typed at h
  match ds, h with
  | [], h => simp at h
  | [_], h => simp at h
  | [x, v], h =>
    simp only [List.map_cons, List.map_nil, List.cons.injEq, and_true] at h
    rcases h with ⟨h1, h2⟩ | ⟨h1, h2⟩ <;> simp [derivDisp, h1, h2]
  | _ :: _ :: _ :: _, h => simp at h

/-- With slices it makes one call for each slice of the first half, with the slice of the same rank in the second half. -/
theorem C125_deriv_slices {xs vs : List Ref} (h0 : xs ≠ []) (hl : xs.length = vs.length) (hs : ∀ d ∈ xs ++ vs, d.ty = .slice) :
    derivDisp (xs ++ vs) = .done ((xs.zip vs).map fun p => [p.1, p.2]) := by
  obtain ⟨x, xs', rfl⟩ := List.exists_cons_of_ne_nil h0
  have hx : x.ty = .slice := hs x (by simp)
  have e : ((x :: xs') ++ vs).length = (x :: xs').length + (x :: xs').length := by rw [List.length_append, ← hl]
  have e2 : ((x :: xs') ++ vs).length / 2 = (x :: xs').length := by omega
  show (if x.ty = .slice then _ else _) = _
  rw [if_pos hx, if_neg (by show ¬ ((x :: xs') ++ vs).length % 2 ≠ 0; omega)]
  show derivPairs ((x :: xs') ++ vs) (((x :: xs') ++ vs).length / 2) 0 (((x :: xs') ++ vs).length / 2) [] = _
  rw [e2, derivPairs_done _ _ _ _ _ (by omega) e.symm hs]
  simp only [List.drop_zero, List.nil_append, List.take_left', List.drop_left', List.take_length]
  rw [hl, List.take_length]

/-- Any other list of at least two domains makes it throw. -/
theorem C125_deriv_refuses_partial {ds : List Ref} (h2 : 2 ≤ ds.length) (h : ¬ DerivDoms ds) : ∃ calls, derivDisp ds = .thrown calls := by
  match ds, h2, h with
  | x :: v :: rest, _, h =>
    by_cases hx : x.ty = .slice
    · show ∃ calls, (if x.ty = .slice then _ else _) = _
      rw [if_pos hx]
      by_cases hm : (x :: v :: rest).length % 2 ≠ 0
      · rw [if_pos hm]; exact ⟨_, rfl⟩
      · rw [if_neg hm]
        set ds := x :: v :: rest with hds
        have hl : ds.length / 2 + ds.length / 2 = ds.length := by omega
        refine derivPairs_thrown ds _ hl _ 0 [] (by omega) ?_
        by_contra hc
        push Not at hc
        apply h
        have key : ∀ d ∈ ds, d.ty = .slice := by
          intro d hd
          obtain ⟨j, hj, rfl⟩ := List.mem_iff_getElem.1 hd
          by_cases hjh : j < ds.length / 2
          · exact hc j (Nat.zero_le _) hjh _ (Or.inl (List.getElem?_eq_getElem hj))
          · refine hc (j - ds.length / 2) (Nat.zero_le _) (by omega) _ (Or.inr ?_)
            rw [Nat.sub_add_cancel (by omega)]
            exact List.getElem?_eq_getElem hj
        rw [← List.take_append_drop (ds.length / 2) ds]
        refine .slices ?_ ?_ ?_
        · intro e
          have := congrArg List.length e
          rw [List.length_take, List.length_nil] at this
          omega
        · simp; omega
        · rw [List.take_append_drop]; exact key
    · show ∃ calls, (if x.ty = .slice then _ else _) = _
      rw [if_neg hx]
      by_cases hx' : x.ty = .tube ∨ x.ty = .tubeVec
      · rw [if_pos hx']
        show ∃ calls, (if v.ty = x.ty then _ else _) = _
        by_cases hv : v.ty = x.ty
        · rw [if_pos hv]
          by_cases hr : rest = []
          · exfalso
            subst hr
            rcases hx' with e | e
            · exact h (.tubes (by simp [Typed, hv, e]))
            · exact h (.vecs (by simp [Typed, hv, e]))
          · rw [if_pos (by simp [hr])]; exact ⟨_, rfl⟩
        · rw [if_neg hv]; exact ⟨_, rfl⟩
      · rw [if_neg hx']; exact ⟨_, rfl⟩

/-- With less than two domains it may read outside of the vector instead of throwing, and this does not happen with two or more. -/
theorem C125_deriv_short_fails (a : Nat) (ss : List Nat) (ts : List (Nat × List Nat)) :
    derivDisp [] = .undef ∧ derivDisp [.tube a ss] = .undef ∧ derivDisp [.tubeVec a ts] = .undef := ⟨rfl, rfl, rfl⟩

/-- The exception may come after some slices were already contracted. -/
theorem C125_deriv_late_fails :
    derivDisp [.slice 1, .slice 2, .slice 3, .tube 4 [5]] = .thrown [[.slice 1, .slice 3]] := rfl

/-- The exception comes before any contraction if the first domain is not a slice. -/
theorem C125_deriv_clean {x : Ref} {rest : List Ref} (hx : x.ty ≠ .slice) {calls : List (List Ref)}
    (h : derivDisp (x :: rest) = .thrown calls) : calls = [] := by
  change (if x.ty = .slice then _ else _) = _ at h
  rw [if_neg hx] at h
  by_cases hx' : x.ty = .tube ∨ x.ty = .tubeVec
  · rw [if_pos hx'] at h
    cases rest with
    | nil => simp at h
    | cons v l =>
      simp only at h
      split_ifs at h <;> simp_all
  · rw [if_neg hx'] at h
    simpa using h.symm

/-- `CtcEval` makes one call, on all its domains, for the documented lists, and throws before any contraction for any other non-empty one. -/
theorem C125_eval {ds : List Ref} (h0 : ds ≠ []) :
    (EvalDoms ds → evalDisp ds = .done [ds]) ∧ (¬ EvalDoms ds → evalDisp ds = .thrown []) := by
  match ds, h0 with
  | [t], _ => constructor <;> simp [EvalDoms, Typed, evalDisp]
  | [t, z], _ => constructor <;> simp [EvalDoms, Typed, evalDisp]
  | [t, z, y], _ =>
    simp only [EvalDoms, Typed, evalDisp, List.map_cons, List.map_nil, List.cons.injEq, and_true]
    constructor <;> intro h <;> cases ht : t.ty <;> cases hz : z.ty <;> cases hy : y.ty <;> simp_all
  | [t, z, y, w], _ =>
    simp only [EvalDoms, Typed, evalDisp, List.map_cons, List.map_nil, List.cons.injEq, and_true]
    constructor <;> intro h <;> cases ht : t.ty <;> cases hz : z.ty <;> cases hy : y.ty <;> cases hw : w.ty <;> simp_all
  | t :: _ :: _ :: _ :: _ :: _, _ => constructor <;> simp [EvalDoms, Typed, evalDisp]

theorem C125_eval_empty_fails : evalDisp [] = .undef := rfl

/-- The other contractors make one call for the documented lists, and throw before any contraction for any other list. -/
theorem C125_others (ds : List Ref) :
    ((DelayDoms ds → delayDisp ds = .done [ds]) ∧ (¬ DelayDoms ds → delayDisp ds = .thrown [])) ∧
    ((OneDoms ds → oneDisp ds = .done [ds]) ∧ (¬ OneDoms ds → oneDisp ds = .thrown [])) ∧
    ((Typed [.tube, .tube, .tube] ds → chainDisp ds = .done [ds]) ∧ (¬ Typed [.tube, .tube, .tube] ds → chainDisp ds = .thrown [])) ∧
    ((Typed [.tubeVec, .tube] ds → linobsDisp ds = .done [ds]) ∧ (¬ Typed [.tubeVec, .tube] ds → linobsDisp ds = .thrown [])) := by
  match ds with
  | [] => simp [DelayDoms, OneDoms, Typed, delayDisp, oneDisp, chainDisp, linobsDisp]
  | [x] =>
    simp only [DelayDoms, OneDoms, Typed, delayDisp, oneDisp, chainDisp, linobsDisp, List.map_cons, List.map_nil, List.cons.injEq, and_true]
    cases hx : x.ty <;> simp
  | [x, u] =>
    simp only [DelayDoms, OneDoms, Typed, delayDisp, oneDisp, chainDisp, linobsDisp, List.map_cons, List.map_nil, List.cons.injEq, and_true]
    cases hx : x.ty <;> cases hu : u.ty <;> simp
  | [x, u, w] =>
    simp only [DelayDoms, OneDoms, Typed, delayDisp, oneDisp, chainDisp, linobsDisp, List.map_cons, List.map_nil, List.cons.injEq, and_true]
    cases hx : x.ty <;> cases hu : u.ty <;> cases hw : w.ty <;> simp
  | _ :: _ :: _ :: _ :: _ => simp [DelayDoms, OneDoms, Typed, delayDisp, oneDisp, chainDisp, linobsDisp]

/-- the slice of rank `k` of each component -/
def sliceRow (k : Nat) (ts : List (Nat × List Nat)) : Option (List Nat) := ts.mapM fun t => t.2[k]?

/-- In a network, `CtcDeriv` on two tube vectors of the same size and with `n` slices: a contractor by slice, which relates each component with the component of
the same rank of the derivative. -/
theorem C125_network_deriv_partial {a b n : Nat} {xs vs : List (Nat × List Nat)} (h0 : xs ≠ []) (hl : xs.length = vs.length)
    (hx : ∀ t ∈ xs, t.2.length = n) (hv : ∀ t ∈ vs, t.2.length = n) :
    ∃ rows, rowsOf false [.tubeVec a xs, .tubeVec b vs] = some rows ∧ rows.length = n ∧
      ∀ k, k < n → ∃ row rx rv, rows[k]? = some row ∧ sliceRow k xs = some rx ∧ sliceRow k vs = some rv ∧
        derivDisp row = .done ((rx.zip rv).map fun p => [.slice p.1, .slice p.2]) := by
  obtain ⟨x, xs', rfl⟩ := List.exists_cons_of_ne_nil h0
  have pick : ∀ (k : Nat), k < n → ∀ ts : List (Nat × List Nat), (∀ t ∈ ts, t.2.length = n) →
      ∃ r, sliceRow k ts = some r ∧ r.length = ts.length ∧ (ts.mapM fun t => t.2[k]?.map Ref.slice) = some (r.map Ref.slice) := by
    intro k hk ts
    induction ts with
    | nil => intro _; exact ⟨[], rfl, rfl, rfl⟩
    | cons t ts ih =>
      intro ht
      obtain ⟨r, h1, h2, h3⟩ := ih fun t' ht' => ht t' (List.mem_cons_of_mem _ ht')
      have hlt : k < t.2.length := by rw [ht t (List.mem_cons_self)]; exact hk
      refine ⟨t.2[k] :: r, ?_, by simp [h2], ?_⟩
      · unfold sliceRow at h1 ⊢
        rw [List.mapM_cons, List.getElem?_eq_getElem hlt, h1]; rfl
      · rw [List.mapM_cons, List.getElem?_eq_getElem hlt, h3]; rfl
  have hn : x.2.length = n := hx x (List.mem_cons_self)
  have hss : sameSlicing none [.tubeVec a (x :: xs'), .tubeVec b vs] = true := by
    simp only [sameSlicing, Ref.slices?, List.head?_cons, Option.map_some, Bool.and_true, List.all_eq_true, beq_iff_eq]
    intro t ht; rw [hv t ht, hn]
  have hrows : ∀ (k : Nat), k < n → ∃ rx rv, sliceRow k (x :: xs') = some rx ∧ sliceRow k vs = some rv ∧ rx.length = (x :: xs').length ∧
      rv.length = vs.length ∧ (([.tubeVec a (x :: xs'), .tubeVec b vs] : List Ref).mapM (dynPick k)).map List.flatten =
        some (rx.map Ref.slice ++ rv.map Ref.slice) := by
    intro k hk
    obtain ⟨rx, h1, h2, h3⟩ := pick k hk _ hx
    obtain ⟨rv, h4, h5, h6⟩ := pick k hk _ hv
    refine ⟨rx, rv, h1, h4, h2, h5, ?_⟩
    rw [List.mapM_cons, List.mapM_cons]
    simp only [dynPick]
    rw [h3, h6]
    simp
  have hall : ∀ l : List Nat, (∀ k ∈ l, k < n) →
      ∃ rows, (l.mapM fun k => (([.tubeVec a (x :: xs'), .tubeVec b vs] : List Ref).mapM (dynPick k)).map List.flatten) = some rows ∧
        rows.length = l.length ∧ ∀ i k : Nat, l[i]? = some k → ∃ row rx rv, rows[i]? = some row ∧ sliceRow k (x :: xs') = some rx ∧ sliceRow k vs = some rv ∧
        rx.length = (x :: xs').length ∧ rv.length = vs.length ∧ row = rx.map Ref.slice ++ rv.map Ref.slice := by
    intro l
    induction l with
    | nil => intro _; exact ⟨[], rfl, rfl, by simp⟩
    | cons k l ih =>
      intro hk
      obtain ⟨rows, h1, h2, h3⟩ := ih fun k' hk' => hk k' (List.mem_cons_of_mem _ hk')
      obtain ⟨rx, rv, g1, g2, g3, g4, g5⟩ := hrows k (hk k (List.mem_cons_self))
      refine ⟨(rx.map Ref.slice ++ rv.map Ref.slice) :: rows, ?_, by simp [h2], ?_⟩
      · rw [List.mapM_cons, g5, h1]; rfl
      · intro i k' hi
        cases i with
        | zero =>
          simp only [List.getElem?_cons_zero, Option.some.injEq] at hi
          subst hi
          exact ⟨_, rx, rv, rfl, g1, g2, g3, g4, rfl⟩
        | succ i =>
          simp only [List.getElem?_cons_succ] at hi ⊢
          exact h3 i k' hi
  obtain ⟨rows, h1, h2, h3⟩ := hall (List.range n) (fun k hk => List.mem_range.1 hk)
  refine ⟨rows, ?_, by simpa using h2, ?_⟩
  · unfold rowsOf
    rw [if_pos ⟨rfl, by simp [isSlice]⟩, if_neg (by simp [isTube, hss])]
    unfold dynRows
    simpa [Ref.slices?, hn] using h1
  · intro k hk
    obtain ⟨row, rx, rv, g1, g2, g3, g4, g5, rfl⟩ := h3 k k (by simp [hk])
    refine ⟨_, rx, rv, g1, g2, g3, ?_⟩
    rw [C125_deriv_slices]
    · rw [List.zip_map, List.map_map]; rfl
    · intro e
      have := congrArg List.length e
      simp [g4] at this
    · simp [g4, g5, hl]
    · intro d hd
      simp only [List.mem_append, List.mem_map] at hd
      rcases hd with ⟨_, _, rfl⟩ | ⟨_, _, rfl⟩ <;> rfl

/-- the hypotheses are met: two components, two slices -/
example : rowsOf false [.tubeVec 1 [(10, [11, 12]), (20, [21, 22])], .tubeVec 2 [(30, [31, 32]), (40, [41, 42])]] =
      some [[.slice 11, .slice 21, .slice 31, .slice 41], [.slice 12, .slice 22, .slice 32, .slice 42]] ∧
    derivDisp [.slice 12, .slice 22, .slice 32, .slice 42] = .done [[.slice 12, .slice 32], [.slice 22, .slice 42]] := ⟨rfl, rfl⟩

/-- The sizes and types are not compared: with a tube and a tube vector of size three (not a documented list, refused out of the network),
the tube is contracted with the SECOND component as its derivative, and the first component with the third one. -/
theorem C125_network_sizes_fails :
    rowsOf false [.tube 1 [11], .tubeVec 2 [(20, [21]), (30, [31]), (40, [41])]] = some [[.slice 11, .slice 21, .slice 31, .slice 41]] ∧
    derivDisp [.slice 11, .slice 21, .slice 31, .slice 41] = .done [[.slice 11, .slice 31], [.slice 21, .slice 41]] ∧
    derivDisp [.tube 1 [11], .tubeVec 2 [(20, [21]), (30, [31]), (40, [41])]] = .thrown [] := ⟨rfl, rfl, rfl⟩

/-- `CtcStatic` (without time, so not inter-temporal) added to a network with a tube, a documented list: its contractors all throw when the network runs them. -/
theorem C125_static_fails {a : Nat} {ss : List Nat} :
    ∃ rows, rowsOf false [.tube a ss] = some rows ∧ rows.length = ss.length ∧ ∀ row ∈ rows, oneDisp row = .thrown [] := by
  have hall : ∀ l : List Nat, (∀ k ∈ l, k < ss.length) →
      ∃ rows, (l.mapM fun k => (([.tube a ss] : List Ref).mapM (dynPick k)).map List.flatten) = some rows ∧
        rows.length = l.length ∧ ∀ row ∈ rows, oneDisp row = .thrown [] := by
    intro l
    induction l with
    | nil => intro _; exact ⟨[], rfl, rfl, by simp⟩
    | cons k l ih =>
      intro hk
      obtain ⟨rows, h1, h2, h3⟩ := ih fun k' hk' => hk k' (List.mem_cons_of_mem _ hk')
      have hlt := hk k (List.mem_cons_self)
      refine ⟨[.slice ss[k]] :: rows, ?_, by simp [h2], ?_⟩
      · rw [List.mapM_cons, h1, List.mapM_cons]
        simp only [dynPick]
        rw [List.getElem?_eq_getElem hlt]
        rfl
      · intro row hr
        rcases List.mem_cons.1 hr with rfl | hr
        · rfl
        · exact h3 row hr
  obtain ⟨rows, h1, h2, h3⟩ := hall (List.range ss.length) (fun k hk => List.mem_range.1 hk)
  refine ⟨rows, ?_, by simpa using h2, h3⟩
  unfold rowsOf
  rw [if_pos ⟨rfl, by simp [isSlice]⟩, if_neg (by simp [isTube, sameSlicing])]
  unfold dynRows
  simpa [Ref.slices?] using h1

example : DerivDoms [.slice 1, .slice 2, .slice 3, .slice 4] :=
  .slices (xs := [.slice 1, .slice 2]) (vs := [.slice 3, .slice 4]) (by simp) rfl (by simp [Ref.ty])

example : ¬ DerivDoms [.slice 1, .slice 2, .slice 3] := by
  intro h
  generalize e : ([.slice 1, .slice 2, .slice 3] : List Ref) = ds at h
  cases h with
  | tubes h => subst e; simp [Typed] at h
  | vecs h => subst e; simp [Typed] at h
  | @slices xs vs _ hl _ =>
    have := congrArg List.length e
    simp only [List.length_cons, List.length_nil, List.length_append] at this
    omega

example : EvalDoms [.interval 1 1, .interval 2 2, .tube 3 [4]] ∧ ¬ EvalDoms [.interval 1 1, .tube 3 [4]] := by
  constructor <;> simp [EvalDoms, Typed, Ref.ty]

end Codac.Props
