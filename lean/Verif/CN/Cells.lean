import Verif.CN.Fix
import Verif.Interval

set_option linter.unusedSectionVars false

/-!
# Contractor network: domains, volumes and contractors over a memory of intervals

The memory is a function from cells to intervals. A plain interval domain is one cell, a box is a list of cells, a slice
is made of three cells (envelope and gates) and knows the envelopes of its neighbours. A gate shared by two slices is one
cell, a component of a box is a cell of this box.
-/

namespace Codac.CN
open Codac

section
variable {K : Type*} [LinearOrder K]

abbrev Mem (K : Type*) [LinearOrder K] := Nat → Itv K

/-- a `Slice` in memory: time domain, cells of the envelope and of the gates, envelopes of the neighbours -/
structure SliceRef (K : Type*) where
  lb : K
  ub : K
  env : Nat
  inG : Nat
  outG : Nat
  prev : Option Nat
  next : Option Nat

/-- the domains an IBEX contractor is attached to, after the decomposition made by `ContractorNetwork::add`,
codac_ContractorNetwork.cpp:199-253 -/
inductive Leaf (K : Type*)
  | interval (c : Nat)
  | slice (r : SliceRef K)

/-- the cell read in the `j`-th pass, codac_Contractor.cpp:236-282 -/
def Leaf.cell (j : Nat) : Leaf K → Nat
  | .interval c => c
  | .slice r => if j = 0 then r.env else if j = 1 then r.inG else r.outG

/-- intersection with an optional cell -/
def infCell (m : Mem K) (X : Itv K) : Option Nat → Itv K
  | none => X
  | some c => X ⊓ m c

/-- the value `v` written in the `j`-th pass, codac_Contractor.cpp:293-338; the setters of a slice are
codac_Slice.cpp:470-517 -/
def Leaf.write (j : Nat) (m : Mem K) (l : Leaf K) (v : Itv K) : Mem K :=
  match l with
  | .interval c => Function.update m c v
  | .slice r =>
    if j = 0 then
      let m1 := Function.update m r.env v
      let m2 := Function.update m1 r.inG (m1 r.inG ⊓ v)
      Function.update m2 r.outG (m2 r.outG ⊓ v)
    else if j = 1 then Function.update m r.inG (infCell m (v ⊓ m r.env) r.prev)
    else Function.update m r.outG (infCell m (v ⊓ m r.env) r.next)

/-- the updates of the domains, in order -/
def writeAll (j : Nat) : List (Leaf K × Itv K) → Mem K → Mem K
  | [], m => m
  | p :: ps, m => writeAll j ps (p.1.write j m p.2)

/-- one pass on heterogeneous components, codac_Contractor.cpp:231-340 -/
def ibexPass (f : List (Itv K) → List (Itv K)) (ls : List (Leaf K)) (j : Nat) (m : Mem K) : Mem K :=
  writeAll j (ls.zip (f (ls.map fun l => m (l.cell j)))) m

def Leaf.isSlice : Leaf K → Bool
  | .interval _ => false
  | .slice _ => true

/-- `Contractor::contract` for a `T_IBEX` contractor `f`, codac_Contractor.cpp:211-346: three passes if there is a slice -/
def ibexContract (f : List (Itv K) → List (Itv K)) (ls : List (Leaf K)) (m : Mem K) : Mem K :=
  let m0 := ibexPass f ls 0 m
  if ls.any Leaf.isSlice then ibexPass f ls 2 (ibexPass f ls 1 m0) else m0

/-- `T_EQUALITY` on two intervals, codac_Contractor.cpp:370-376 -/
def equalityContract (a b : Nat) (m : Mem K) : Mem K :=
  let i := m a ⊓ m b
  Function.update (Function.update m a i) b i

/-! ### Solutions -/

/-- `req c` are the values the cell `c` has to contain for the solution under consideration: one value for an interval
variable, the values of the signal on a slice for its envelope, its value at the end of the slice for a gate -/
def Enc (req : Nat → K → Prop) (m : Mem K) : Prop := ∀ c x, req c x → x ∈ m c

/-- the values of the gates are values of the signals of the adjacent slices -/
def SliceRef.Ok (req : Nat → K → Prop) (r : SliceRef K) : Prop :=
  (∀ x, req r.inG x → req r.env x) ∧ (∀ x, req r.outG x → req r.env x) ∧
  (∀ c, r.prev = some c → ∀ x, req r.inG x → req c x) ∧ (∀ c, r.next = some c → ∀ x, req r.outG x → req c x)

def Leaf.Ok (req : Nat → K → Prop) : Leaf K → Prop
  | .interval _ => True
  | .slice r => r.Ok req

/-- every required value of the cells `cs` takes part in a tuple of the constraint `R` made of required values -/
def Supported (R : List K → Prop) (req : Nat → K → Prop) (cs : List Nat) : Prop :=
  ∀ (i : Nat) (c : Nat) (x : K), cs[i]? = some c → req c x → ∃ xs, R xs ∧ List.Forall₂ (fun x c => req c x) xs cs ∧ xs[i]? = some x

/-- an IBEX contractor: the result has as many components, is a subset, and keeps the tuples of the constraint -/
structure IsCtc (R : List K → Prop) (f : List (Itv K) → List (Itv K)) : Prop where
  sub : ∀ b, List.Forall₂ (· ≤ ·) (f b) b
  keep : ∀ b xs, R xs → List.Forall₂ (fun x X => x ∈ X) xs b → List.Forall₂ (fun x X => x ∈ X) xs (f b)

/-! ### Proofs -/

theorem enc_update {req : Nat → K → Prop} {m : Mem K} (h : Enc req m) {c : Nat} {v : Itv K} (hv : ∀ x, req c x → x ∈ v) :
    Enc req (Function.update m c v) := by
  intro d x hx
  by_cases e : d = c
  · subst e; rw [Function.update_self]; exact hv x hx
  · rw [Function.update_of_ne e]; exact h d x hx

theorem mem_infCell {m : Mem K} {X : Itv K} {o : Option Nat} {x : K} (hx : x ∈ X) (ho : ∀ c, o = some c → x ∈ m c) :
    x ∈ infCell m X o := by
  cases o with
  | none => exact hx
  | some c => exact Itv.mem_inf.mpr ⟨hx, ho c rfl⟩

theorem Leaf.write_enc {req : Nat → K → Prop} {j : Nat} {m : Mem K} (h : Enc req m) {l : Leaf K} (hl : l.Ok req)
    {v : Itv K} (hv : ∀ x, req (l.cell j) x → x ∈ v) : Enc req (l.write j m v) := by
  cases l with
  | interval c => exact enc_update h hv
  | slice r =>
    have hr : r.Ok req := hl
    unfold Leaf.write
    unfold Leaf.cell at hv
    by_cases e0 : j = 0
    · simp only [e0, if_true] at hv ⊢
      have h1 := enc_update h hv
      have h2 := enc_update h1 (c := r.inG) (v := Function.update m r.env v r.inG ⊓ v)
        fun x hx => Itv.mem_inf.mpr ⟨h1 _ x hx, hv x (hr.1 x hx)⟩
      exact enc_update h2 fun x hx => Itv.mem_inf.mpr ⟨h2 _ x hx, hv x (hr.2.1 x hx)⟩
    · by_cases e1 : j = 1
      · simp only [e1, one_ne_zero, if_false, if_true] at hv ⊢
        refine enc_update h fun x hx => mem_infCell (Itv.mem_inf.mpr ⟨hv x hx, h _ x (hr.1 x hx)⟩) ?_
        intro c hc; exact h c x (hr.2.2.1 c hc x hx)
      · simp only [e0, e1, if_false] at hv ⊢
        refine enc_update h fun x hx => mem_infCell (Itv.mem_inf.mpr ⟨hv x hx, h _ x (hr.2.1 x hx)⟩) ?_
        intro c hc; exact h c x (hr.2.2.2 c hc x hx)

theorem writeAll_enc {req : Nat → K → Prop} {j : Nat} {ps : List (Leaf K × Itv K)} {m : Mem K} (h : Enc req m)
    (hp : ∀ p ∈ ps, p.1.Ok req ∧ ∀ x, req (p.1.cell j) x → x ∈ p.2) : Enc req (writeAll j ps m) := by
  induction ps generalizing m with
  | nil => exact h
  | cons p ps ih =>
    have := hp p (by simp)
    exact ih (Leaf.write_enc h this.1 this.2) fun q hq => hp q (by simp [hq])

theorem ibexPass_enc {R : List K → Prop} {f : List (Itv K) → List (Itv K)} (hf : IsCtc R f) {req : Nat → K → Prop}
    {ls : List (Leaf K)} (hl : ∀ l ∈ ls, l.Ok req) {j : Nat} (hs : Supported R req (ls.map (Leaf.cell j))) {m : Mem K}
    (h : Enc req m) : Enc req (ibexPass f ls j m) := by
  unfold ibexPass
  apply writeAll_enc h
  intro p hp
  refine ⟨hl p.1 (List.of_mem_zip hp).1, fun x hx => ?_⟩
  obtain ⟨i, hi⟩ := List.mem_iff_getElem?.mp hp
  rw [List.getElem?_zip_eq_some] at hi
  obtain ⟨xs, h1, h2, h3⟩ := hs i (p.1.cell j) x (by rw [List.getElem?_map, hi.1]; rfl) hx
  have h4 : List.Forall₂ (fun x X => x ∈ X) xs (ls.map fun l => m (l.cell j)) := by
    rw [List.forall₂_map_right_iff] at h2 ⊢
    exact h2.imp fun a l ha => h _ a ha
  have h5 := hf.keep _ xs h1 h4
  rw [List.forall₂_iff_get] at h5
  obtain ⟨hlen, h5⟩ := h5
  obtain ⟨hi1, hi2⟩ := List.getElem?_eq_some_iff.mp hi.2
  obtain ⟨hi3, hi4⟩ := List.getElem?_eq_some_iff.mp h3
  have := h5 i hi3 hi1
  simp only [List.get_eq_getElem] at this
  rw [hi2, hi4] at this
  exact this

/-- an IBEX contractor in a network keeps every solution -/
theorem ibexContract_enc {R : List K → Prop} {f : List (Itv K) → List (Itv K)} (hf : IsCtc R f) {req : Nat → K → Prop}
    {ls : List (Leaf K)} (hl : ∀ l ∈ ls, l.Ok req) (hs : ∀ j < 3, Supported R req (ls.map (Leaf.cell j))) {m : Mem K}
    (h : Enc req m) : Enc req (ibexContract f ls m) := by
  unfold ibexContract
  have h0 := ibexPass_enc hf hl (hs 0 (by decide)) h
  dsimp only
  split_ifs
  · exact ibexPass_enc hf hl (hs 2 (by decide)) (ibexPass_enc hf hl (hs 1 (by decide)) h0)
  · exact h0

theorem equalityContract_enc {req : Nat → K → Prop} {a b : Nat} (hab : ∀ x, req a x ↔ req b x) {m : Mem K}
    (h : Enc req m) : Enc req (equalityContract a b m) := by
  have key : ∀ x, req a x → x ∈ m a ⊓ m b := fun x hx => Itv.mem_inf.mpr ⟨h a x hx, h b x ((hab x).mp hx)⟩
  exact enc_update (enc_update h key) fun x hx => key x ((hab x).mpr hx)

/-! contraction -/

theorem Leaf.write_le {j : Nat} {m m0 : Mem K} (h : m ≤ m0) (l : Leaf K) {v : Itv K} (hv : v ≤ m0 (l.cell j)) :
    l.write j m v ≤ m0 := by
  have upd : ∀ (m' : Mem K) c w, m' ≤ m0 → w ≤ m0 c → Function.update m' c w ≤ m0 := by
    intro m' c w h' hw d
    by_cases e : d = c
    · subst e; rw [Function.update_self]; exact hw
    · rw [Function.update_of_ne e]; exact h' d
  have hinf : ∀ X o, infCell m X o ≤ X := by
    intro X o; cases o <;> simp [infCell]
  cases l with
  | interval c => exact upd m c v h hv
  | slice r =>
    unfold Leaf.write
    unfold Leaf.cell at hv
    by_cases e0 : j = 0
    · simp only [e0, if_true] at hv ⊢
      have h1 := upd m r.env v h hv
      have h2 := upd _ r.inG (Function.update m r.env v r.inG ⊓ v) h1 (le_trans inf_le_left (h1 _))
      exact upd _ r.outG _ h2 (le_trans inf_le_left (h2 _))
    · by_cases e1 : j = 1
      · simp only [e1, one_ne_zero, if_false, if_true] at hv ⊢
        exact upd _ _ _ h (le_trans (hinf _ _) (le_trans inf_le_left hv))
      · simp only [e0, e1, if_false] at hv ⊢
        exact upd _ _ _ h (le_trans (hinf _ _) (le_trans inf_le_left hv))

theorem writeAll_le {j : Nat} {ps : List (Leaf K × Itv K)} {m m0 : Mem K} (h : m ≤ m0)
    (hp : ∀ p ∈ ps, p.2 ≤ m0 (p.1.cell j)) : writeAll j ps m ≤ m0 := by
  induction ps generalizing m with
  | nil => exact h
  | cons p ps ih => exact ih (Leaf.write_le h p.1 (hp p (by simp))) fun q hq => hp q (by simp [hq])

theorem ibexPass_le {f : List (Itv K) → List (Itv K)} (hf : ∀ b, List.Forall₂ (· ≤ ·) (f b) b)
    (ls : List (Leaf K)) (j : Nat) (m : Mem K) : ibexPass f ls j m ≤ m := by
  unfold ibexPass
  apply writeAll_le le_rfl
  intro p hp
  obtain ⟨i, hi⟩ := List.mem_iff_getElem?.mp hp
  rw [List.getElem?_zip_eq_some] at hi
  have h5 := hf (ls.map fun l => m (l.cell j))
  rw [List.forall₂_iff_get] at h5
  obtain ⟨hlen, h5⟩ := h5
  obtain ⟨hi1, hi2⟩ := List.getElem?_eq_some_iff.mp hi.2
  obtain ⟨hi3, hi4⟩ := List.getElem?_eq_some_iff.mp hi.1
  have := h5 i hi1 (by rw [List.length_map]; exact hi3)
  simp only [List.get_eq_getElem, List.getElem_map] at this
  rw [hi2, hi4] at this
  exact this

theorem ibexContract_le {f : List (Itv K) → List (Itv K)} (hf : ∀ b, List.Forall₂ (· ≤ ·) (f b) b)
    (ls : List (Leaf K)) (m : Mem K) : ibexContract f ls m ≤ m := by
  unfold ibexContract
  dsimp only
  split_ifs
  · exact le_trans (ibexPass_le hf ls 2 _) (le_trans (ibexPass_le hf ls 1 _) (ibexPass_le hf ls 0 m))
  · exact ibexPass_le hf ls 0 m

theorem equalityContract_le (a b : Nat) (m : Mem K) : equalityContract a b m ≤ m := by
  intro c
  unfold equalityContract
  dsimp only
  by_cases e : c = b
  · subst e; rw [Function.update_self]; exact inf_le_right
  · rw [Function.update_of_ne e]
    by_cases e' : c = a
    · subst e'; rw [Function.update_self]; exact inf_le_left
    · rw [Function.update_of_ne e']

end

/-! ### Volumes -/

section
variable {K : Type*} [Field K] [LinearOrder K] [IsStrictOrderedRing K]

/-- a volume: `none` is `+∞` -/
abbrev Vol (K : Type*) := Option K

/-- volume of a `T_INTERVAL` domain, codac_Domain.cpp:508-516 -/
def volInterval (X : Itv K) : Vol K :=
  match X with
  | .empty => some 0
  | .mk (some a) (some b) _ => some (b - a)
  | _ => some 999999

/-- `ibex::Interval::diam`: 0 for the empty set, `+∞` for an unbounded interval -/
def diam (X : Itv K) : Vol K :=
  match X with
  | .empty => some 0
  | .mk (some a) (some b) _ => some (b - a)
  | _ => none

def addVol (a b : Vol K) : Vol K := match a, b with
  | some x, some y => some (x + y)
  | _, _ => none

/-- `ibex::IntervalVector::volume` (IBEX: 0 if empty, infinite if a component is unbounded, otherwise the product of the
diameters) -/
def volBox (Xs : List (Itv K)) : Vol K :=
  if Xs.any Itv.isEmpty then some 0
  else Xs.foldr (fun X v => match diam X, v with | some x, some y => some (x * y) | _, _ => none) (some 1)

/-- volume of a `T_SLICE` domain, codac_Domain.cpp:521-542 and codac_Slice.cpp:139-142 -/
def volSlice (dt : K) (cod i o : Itv K) : Vol K :=
  addVol (addVol ((diam cod).map (dt * ·)) (volInterval i)) (volInterval o)

/-- `current/saved < 1 - ratio` in IEEE arithmetic (volumes are not negative, a saved volume is `-1` when unset):
`∞/∞` and `0/0` are NaN, and a comparison with NaN is false -/
def dropVol (r : K) (cur saved : Vol K) : Bool :=
  match cur, saved with
  | none, none => false
  | some _, none => decide (0 < 1 - r)
  | none, some s => decide (s < 0)
  | some v, some s => if s = 0 then false else decide (v / s < 1 - r)

end

end Codac.CN
