import Verif.Serialize.Model
import Verif.Tube.Fold
import Verif.Tube.History
import Verif.Traj.Basic
import Mathlib.Tactic.IntervalCases

/-! # Binary files: reading what has been written -/

set_option linter.unusedSectionVars false

namespace Codac.Ser

/-! ### Bytes -/

@[simp] theorem length_putLE (w n : Nat) : (putLE w n).length = w := by
  induction w generalizing n with
  | zero => rfl
  | succ w ih => simp [putLE, ih]

theorem valLE_putLE (w n : Nat) : valLE (putLE w n) = n % 256 ^ w := by
  induction w generalizing n with
  | zero => simp [putLE, valLE, Nat.mod_one]
  | succ w ih =>
    have e : (UInt8.ofNat n).toNat = n % 256 := by simp
    simp only [putLE, valLE, ih, e]
    rw [Nat.pow_succ, Nat.mul_comm (256 ^ w) 256, Nat.mod_mul]

@[simp] theorem length_putS (w : Nat) (z : Int) : (putS w z).length = w := length_putLE ..

theorem valLE_lt (l : List UInt8) : valLE l < 256 ^ l.length := by
  induction l with
  | nil => simp [valLE]
  | cons b l ih =>
    simp only [valLE, List.length_cons, pow_succ]
    have := b.toNat_lt
    omega

/-! ### Readers -/

/-- the reader `p` finds `a` back in the bytes `bs`, whatever follows, and leaves what follows -/
def RT {α : Type} (p : Rd α) (bs : List UInt8) (a : α) : Prop := ∀ rest, p (bs ++ rest) = some (a, rest)

theorem RT.pure {α : Type} (a : α) : RT (Pure.pure a) [] a := fun _ => rfl

theorem RT.bind {α β : Type} {p : Rd α} {q : α → Rd β} {b₁ b₂ : List UInt8} {a : α} {b : β} (h₁ : RT p b₁ a)
    (h₂ : RT (q a) b₂ b) : RT (p >>= q) (b₁ ++ b₂) b := by
  intro rest
  rw [List.append_assoc]
  change (p (b₁ ++ (b₂ ++ rest))).bind (fun r => q r.1 r.2) = _
  rw [h₁]
  exact h₂ rest

theorem RT.map {α β : Type} {p : Rd α} {f : α → β} {b₁ : List UInt8} {a : α} (h₁ : RT p b₁ a) :
    RT (p >>= fun a => Pure.pure (f a)) b₁ (f a) := by
  have := h₁.bind (RT.pure (f a)) (q := fun a => Pure.pure (f a))
  rwa [List.append_nil] at this

theorem rt_take (bs : List UInt8) : RT (take bs.length) bs bs := by
  intro rest
  simp [take]

theorem signed_id {w : Nat} {z : Int} (hw : 0 < w) (h1 : -(256 ^ w / 2 : Nat) ≤ z) (h2 : z < (256 ^ w / 2 : Nat)) :
    signed w (z % (256 ^ w : Nat)).toNat = z := by
  unfold signed
  obtain ⟨m, hm⟩ : ∃ m, 256 ^ w = 2 * m := by
    obtain ⟨w, rfl⟩ := Nat.exists_eq_add_of_lt hw
    exact ⟨128 * 256 ^ (0 + w), by rw [pow_succ]; ring⟩
  rw [hm] at h1 h2 ⊢
  rw [Nat.mul_div_cancel_left m (by norm_num)] at h1 h2 ⊢
  have hpos : 0 < m := by
    rcases Nat.eq_zero_or_pos m with h | h
    · subst h; push_cast at h1 h2; omega
    · exact h
  by_cases hz : 0 ≤ z
  · have e : z % ((2 * m : Nat) : Int) = z := Int.emod_eq_of_lt hz (by push_cast; omega)
    rw [e, Nat.mod_eq_of_lt (by omega), if_pos (by omega)]
    omega
  · have e : z % ((2 * m : Nat) : Int) = z + ((2 * m : Nat) : Int) := by
      rw [← Int.add_emod_right]
      exact Int.emod_eq_of_lt (by push_cast; omega) (by push_cast; omega)
    rw [e, Nat.mod_eq_of_lt (by omega), if_neg (by omega)]
    omega

theorem rt_getS {w : Nat} {z : Int} (hw : 0 < w) (h1 : -(256 ^ w / 2 : Nat) ≤ z) (h2 : z < (256 ^ w / 2 : Nat)) :
    RT (getS w) (putS w z) z := by
  have h := rt_take (putS w z)
  rw [length_putS] at h
  have := h.map (f := fun l => signed w (valLE l))
  have e : signed w (valLE (putS w z)) = z := by
    unfold putS
    rw [valLE_putLE]
    have := signed_id hw h1 h2
    have hb : (z % ((256 ^ w : Nat) : Int)).toNat < 256 ^ w := by
      have := Int.emod_lt_of_pos z (b := ((256 ^ w : Nat) : Int)) (by positivity)
      omega
    rw [Nat.mod_eq_of_lt hb]
    exact this
  rw [e] at this
  exact this

theorem signed_small {w n : Nat} (h : n < 256 ^ w / 2) : signed w n = n := by
  unfold signed
  have : n < 256 ^ w := by omega
  rw [Nat.mod_eq_of_lt this, if_pos h]

theorem signed_range {w : Nat} (n : Nat) (hw : 0 < w) :
    -(256 ^ w / 2 : Nat) ≤ signed w n ∧ signed w n < (256 ^ w / 2 : Nat) := by
  obtain ⟨m, hm⟩ : ∃ m, 256 ^ w = 2 * m := by
    obtain ⟨w, rfl⟩ := Nat.exists_eq_add_of_lt hw
    exact ⟨128 * 256 ^ (0 + w), by rw [pow_succ]; ring⟩
  unfold signed
  rw [hm, Nat.mul_div_cancel_left m (by norm_num)]
  have hpos : 0 < 2 * m := by rw [← hm]; positivity
  have := Nat.mod_lt n hpos
  split_ifs <;> omega

theorem rt_size (w n : Nat) (hw : 0 < w) : RT (getS w) (putS w (signed w n)) (signed w n) :=
  rt_getS hw (signed_range n hw).1 (signed_range n hw).2

theorem rt_readN {α : Type} {p : Rd α} {put : α → List UInt8} :
    ∀ (l : List α), (∀ a ∈ l, RT p (put a) a) → RT (readN p l.length) (l.flatMap put) l
  | [], _ => RT.pure []
  | a :: l, h => by
    rw [List.flatMap_cons]
    exact (h a (by simp)).bind (RT.map (f := fun l => a :: l) (rt_readN l fun b hb => h b (List.mem_cons_of_mem _ hb)))

section
variable {K : Type} [LinearOrder K] (C : Codec K)

theorem rt_getD (d : Dbl K) : RT (getD C) (C.enc d) d := by
  have h := rt_take (C.enc d)
  rw [C.len] at h
  have := h.bind (q := fun l => match C.dec l with
    | some d => Pure.pure d
    | none => stop) (b₂ := []) (b := d) (by rw [C.dec_enc]; exact RT.pure d)
  rwa [List.append_nil] at this

theorem rt_getF (x : K) : RT (getF C) (C.enc (.fin x)) x := by
  have := (rt_getD C (.fin x)).bind (q := fun d => match d with
    | .fin x => Pure.pure x
    | _ => stop) (RT.pure x)
  rwa [List.append_nil] at this

theorem itvOf_bounds {lo hi : Option K} (h : bLe lo hi) : itvOf (lbD lo) (ubD hi) = .mk lo hi h := by
  cases lo <;> cases hi <;> simp only [lbD, ubD, itvOf, Itv.ofBounds] <;> rw [dif_pos h]

variable [Zero K]

theorem rt_itv (X : Itv K) : RT (getItv C) (putItv C X) X := by
  have tag : ∀ z : Int, 0 ≤ z → z ≤ 4 → RT (getS 4) (putS 4 z) z := fun z h1 h2 =>
    rt_getS (by norm_num) (by norm_num; omega) (by norm_num; omega)
  have simple : ∀ (z : Int), 0 ≤ z → z ≤ 4 → ∀ {q : Int → Rd (Itv K)}, RT (q z) [] X →
      RT (getS 4 >>= q) (putS 4 z) X := by
    intro z h1 h2 q h
    have := (tag z h1 h2).bind h
    rwa [List.append_nil] at this
  unfold putItv
  by_cases h1 : X = ⊥
  · rw [if_pos h1]
    refine simple 1 (by norm_num) (by norm_num) ?_
    rw [if_pos rfl, h1]; exact RT.pure _
  rw [if_neg h1]
  by_cases h2 : X = ⊤
  · rw [if_pos h2]
    refine simple 2 (by norm_num) (by norm_num) ?_
    rw [if_neg (by norm_num), if_pos rfl, h2]; exact RT.pure _
  rw [if_neg h2]
  by_cases h3 : X = Itv.ofBounds (some 0) none
  · rw [if_pos h3]
    refine simple 3 (by norm_num) (by norm_num) ?_
    rw [if_neg (by norm_num), if_neg (by norm_num), if_pos rfl, h3]; exact RT.pure _
  rw [if_neg h3]
  by_cases h4 : X = Itv.ofBounds none (some 0)
  · rw [if_pos h4]
    refine simple 4 (by norm_num) (by norm_num) ?_
    rw [if_neg (by norm_num), if_neg (by norm_num), if_neg (by norm_num), if_pos rfl, h4]; exact RT.pure _
  rw [if_neg h4]
  cases X with
  | empty => exact absurd rfl h1
  | mk lo hi h =>
    refine (tag 0 (by norm_num) (by norm_num)).bind ?_
    rw [if_neg (by norm_num), if_neg (by norm_num), if_neg (by norm_num), if_neg (by norm_num), if_pos rfl]
    refine (rt_getD C _).bind ?_
    have := RT.map (f := fun ub => itvOf (lbD lo) ub) (rt_getD C (ubD hi))
    rw [itvOf_bounds h] at this
    exact this

/-- what is read back of a box whose size, once converted to a `short int`, is positive -/
theorem rt_box_take (B : List (Itv K)) (h : 1 ≤ signed 2 B.length) :
    RT (getBox C) (putBox C B) (B.take (signed 2 B.length).toNat) := by
  refine (rt_size 2 B.length (by norm_num)).bind ?_
  rw [if_neg (by omega)]
  have hl : (B.take (signed 2 B.length).toNat).length = (signed 2 B.length).toNat := by
    rw [List.length_take, min_eq_left]
    unfold signed
    have := Nat.mod_le B.length (256 ^ 2)
    split_ifs <;> omega
  have := rt_readN (p := getItv C) (put := putItv C) (B.take (signed 2 B.length).toNat) (fun X _ => rt_itv C X)
  rwa [hl] at this

theorem rt_box (B : List (Itv K)) (h1 : 1 ≤ B.length) (h2 : B.length < 2 ^ 15) : RT (getBox C) (putBox C B) B := by
  have e : signed 2 B.length = B.length := signed_small (by norm_num; omega)
  have := rt_box_take C B (by rw [e]; exact_mod_cast h1)
  rw [e] at this
  simpa using this

/-! ### Trajectories -/

theorem rt_pt (p : K × K) : RT (getPt C) (C.enc (.fin p.1) ++ C.enc (.fin p.2)) p :=
  (rt_getF C p.1).bind (RT.map (f := fun y => (p.1, y)) (rt_getF C p.2))

/-- the trajectory built from points, in their order -/
def ofPts (l : List (K × K)) : Traj K := l.foldl (fun x p => Traj.set x p.2 p.1) Traj.empty

theorem rt_traj (x : Traj K) (h : x.pts.length < 2 ^ 31) : RT (getTraj C) (putTraj C x) (ofPts x.pts) := by
  refine (rt_getS (w := 2) (z := 2) (by norm_num) (by norm_num) (by norm_num)).bind ?_
  rw [if_neg (by simp)]
  refine (rt_size 4 x.pts.length (by norm_num)).bind ?_
  rw [signed_small (w := 4) (by norm_num; omega)]
  refine RT.map (f := fun l => ofPts l) ?_
  simpa using rt_readN (p := getPt C) (put := fun p => C.enc (.fin p.1) ++ C.enc (.fin p.2)) x.pts (fun p _ => rt_pt C p)

end

section
variable {K : Type*} [LinearOrder K]

theorem setPt_append {t y : K} : ∀ {l : List (K × K)}, (∀ p ∈ l, p.1 < t) → setPt t y l = l ++ [(t, y)]
  | [], _ => rfl
  | p :: l, h => by
    have hp := h p (by simp)
    rw [setPt, if_neg (not_lt.mpr hp.le), if_neg hp.ne', setPt_append fun q hq => h q (List.mem_cons_of_mem _ hq)]
    rfl

theorem lookupPt_none {t : K} : ∀ {l : List (K × K)}, (∀ p ∈ l, p.1 < t) → lookupPt t l = none
  | [], _ => rfl
  | p :: l, h => by
    rw [lookupPt, if_neg (h p (by simp)).ne, lookupPt_none fun q hq => h q (List.mem_cons_of_mem _ hq)]

theorem foldl_set_sorted (l : List (K × K)) (x : Traj K) (h : (x.pts ++ l).Pairwise fun p q => p.1 < q.1) :
    l.foldl (fun x p => Traj.set x p.2 p.1) x =
      ⟨x.pts ++ l, (l.map Prod.fst).foldl (fun acc v => acc ⊔ Itv.point v) x.dom,
        (l.map Prod.snd).foldl (fun acc v => acc ⊔ Itv.point v) x.cod⟩ := by
  induction l generalizing x with
  | nil => simp
  | cons p l ih =>
    have hlt : ∀ q ∈ x.pts, q.1 < p.1 := by
      rw [List.pairwise_append] at h
      exact fun q hq => h.2.2 q hq p (by simp)
    have e : Traj.set x p.2 p.1 = ⟨x.pts ++ [p], x.dom ⊔ Itv.point p.1, x.cod ⊔ Itv.point p.2⟩ := by
      unfold Traj.set
      simp only [lookupPt_none hlt, setPt_append hlt]
      rfl
    rw [List.foldl_cons, e, ih _ (by simpa using h)]
    simp

/-- the points of an ordered map are found back, with the exact hulls of times and values -/
theorem ofPts_sorted {l : List (K × K)} (h : l.Pairwise fun p q => p.1 < q.1) :
    l.foldl (fun x p => Traj.set x p.2 p.1) (Traj.empty : Traj K) = ⟨l, hullOf (l.map Prod.fst), hullOf (l.map Prod.snd)⟩ := by
  rw [foldl_set_sorted l _ (by simpa [Traj.empty] using h)]
  simp [Traj.empty, hullOf]

/-! ### Tubes -/

/-- same bounds and same envelopes -/
def SameSkel : List (Cell K) → List (Cell K) → Prop :=
  List.Forall₂ fun c d => c.lb = d.lb ∧ c.ub = d.ub ∧ c.cod = d.cod

/-- same bounds -/
def SameBds : List (Cell K) → List (Cell K) → Prop := List.Forall₂ fun c d => c.lb = d.lb ∧ c.ub = d.ub

theorem fwd_setCod (v : Nat → Itv K) {cs cs' : List (Cell K)} (h : SameBds cs' cs) :
    ∀ (j : Nat) (p : Option (Itv K)) (g : Itv K), (∀ i (hi : i < cs.length), v (j + i) = cs[i].cod) →
      SameSkel (fwd (fun k => Slice.set (v k)) j p g cs').2 cs := by
  induction h with
  | nil => intro j p g _; exact List.Forall₂.nil
  | @cons c' c cs' cs hc h ih =>
    intro j p g hv
    simp only [fwd, Slice.set]
    refine List.Forall₂.cons ⟨hc.1, hc.2, hv 0 (by simp)⟩ (ih _ _ _ fun i hi => ?_)
    have := hv (i + 1) (by simpa using hi)
    rw [← Nat.add_assoc, Nat.add_right_comm] at this
    simpa using this

/-- each output gate intersected with the envelopes around it -/
def clipCells : List (Cell K) → List (Cell K)
  | [] => []
  | c :: cs => { c with out := infOpt (c.out ⊓ c.cod) (cs.head?.map Cell.cod) } :: clipCells cs

theorem clipCells_eq {cs : List (Cell K)} {g : Itv K} (hg : ∀ s ∈ slicesFrom g cs, s.inG ≤ s.cod ∧ s.outG ≤ s.cod) :
    clipCells cs = cs := by
  induction cs generalizing g with
  | nil => rfl
  | cons c cs ih =>
    have hg' : ∀ s ∈ slicesFrom c.out cs, s.inG ≤ s.cod ∧ s.outG ≤ s.cod := fun s hs => hg s (by simp [hs])
    have hout : c.out ≤ c.cod := (hg ⟨c.lb, c.ub, c.cod, g, c.out⟩ (by simp)).2
    have hnext : infOpt (c.out ⊓ c.cod) (cs.head?.map Cell.cod) = c.out := by
      rw [inf_eq_left.mpr hout]
      cases cs with
      | nil => rfl
      | cons d ds =>
        simp only [List.head?_cons, Option.map_some, infOpt]
        exact inf_eq_left.mpr (hg' ⟨d.lb, d.ub, d.cod, c.out, d.out⟩ (by simp)).1
    rw [clipCells, hnext, ih hg']

theorem fwd_setOut (w : Nat → Itv K) {cs cs' : List (Cell K)} (h : SameSkel cs' cs) :
    ∀ (j : Nat) (p : Option (Itv K)) (g : Itv K), (∀ i (hi : i < cs.length), w (j + i) = cs[i].out) →
      fwd (fun k => Slice.setOutputGate (w k)) j p g cs' = (g, clipCells cs) := by
  induction h with
  | nil => intro j p g _; rfl
  | @cons c' c cs' cs hc h ih =>
    intro j p g hw
    have hw0 : w j = c.out := hw 0 (by simp)
    have hhead : cs'.head?.map Cell.cod = cs.head?.map Cell.cod := by
      cases h with
      | nil => rfl
      | @cons d' d ds' ds hd hds => simp [hd.2.2]
    have hrec := fun g => ih (j + 1) (some c'.cod) g (fun i hi => by
      have := hw (i + 1) (by simpa using hi)
      rw [← Nat.add_assoc, Nat.add_right_comm] at this
      simpa using this)
    simp only [fwd, Slice.setOutputGate, if_true, hrec, hhead, clipCells]
    rcases c with ⟨a, b, e, f⟩
    obtain ⟨rfl, rfl, rfl⟩ := hc
    rw [hw0]

theorem clipCells_getElem? (cs : List (Cell K)) (i : Nat) :
    (clipCells cs)[i]? = cs[i]?.map fun c => { c with out := infOpt (c.out ⊓ c.cod) (cs[i + 1]?.map Cell.cod) } := by
  induction cs generalizing i with
  | nil => rfl
  | cons c cs ih =>
    cases i with
    | zero => cases cs <;> simp [clipCells]
    | succ i => simp [clipCells, ih]

end

section
variable {K : Type} [LinearOrder K] (C : Codec K)

theorem rt_cells : ∀ (cs : List (Cell K)) (a b : K), Tiles a cs b →
    RT (getCells C cs.length a) (cs.flatMap fun c => C.enc (.fin c.ub)) (cs.map fun c => ⟨c.lb, c.ub, ⊤, ⊤⟩)
  | [], _, _, _ => RT.pure []
  | c :: cs, a, b, h => by
    obtain ⟨rfl, hlt, ht⟩ := h
    rw [List.flatMap_cons]
    refine (rt_getF C c.ub).bind ?_
    rw [if_pos hlt]
    exact RT.map (f := fun l => (⟨c.lb, c.ub, ⊤, ⊤⟩ : Cell K) :: l) (rt_cells cs c.ub b ht)

/-- the instants written by `serialize_Tube`: the lower bound of each slice, then the end, are the start then the upper bounds -/
theorem times_eq (g : Itv K) : ∀ (cs : List (Cell K)) (a b : K), Tiles a cs b →
    ((slicesFrom g cs).flatMap fun s => C.enc (.fin s.lb)) ++ C.enc (.fin b) =
      C.enc (.fin a) ++ cs.flatMap fun c => C.enc (.fin c.ub)
  | [], a, b, h => by
    have : a = b := h
    simp [slicesFrom, this]
  | c :: cs, a, b, h => by
    obtain ⟨rfl, hlt, ht⟩ := h
    have := times_eq c.out cs c.ub b ht
    simp only [slicesFrom, List.flatMap_cons, List.append_assoc]
    rw [this]

theorem tiles_last {K : Type*} [LinearOrder K] : ∀ (cs : List (Cell K)) (a b : K), Tiles a cs b →
    (cs.getLast?.map Cell.ub).getD a = b
  | [], _, _, h => h
  | [c], a, b, h => by
    obtain ⟨_, _, h⟩ := h
    exact h
  | c :: d :: cs, a, b, h => by
    obtain ⟨rfl, _, ht⟩ := h
    have := tiles_last (d :: cs) c.ub b ht
    rw [List.getLast?_cons_cons]
    cases hl : (d :: cs).getLast? with
    | none => simp at hl
    | some e => rw [hl] at this; exact this

theorem slices_cod {K : Type*} [LinearOrder K] (g : Itv K) (cs : List (Cell K)) :
    (slicesFrom g cs).map Slice.cod = cs.map Cell.cod := by
  induction cs generalizing g with
  | nil => rfl
  | cons c cs ih => simp [ih]

theorem slices_out {K : Type*} [LinearOrder K] (g : Itv K) (cs : List (Cell K)) :
    (slicesFrom g cs).map Slice.outG = cs.map Cell.out := by
  induction cs generalizing g with
  | nil => rfl
  | cons c cs ih => simp [ih]

variable [Zero K]

/-- what `deserialize_Tube` builds from the time bounds, codomains and gates found in the file -/
def rebuild {K : Type*} [LinearOrder K] (lb : K) (cells : List (Cell K)) (vals : List (Itv K)) (gate : Itv K)
    (gates : List (Itv K)) : Tube K :=
  let T₀ : Tube K := ⟨lb, (cells.getLast?.map Cell.ub).getD lb, ⊤, cells⟩
  let T₁ := (List.range T₀.nbSlices).foldl (fun T k => T.upd k (Slice.set (vals.getD k ⊤))) T₀
  let T₂ := T₁.upd 0 (Slice.setInputGate gate)
  (List.range T₂.nbSlices).foldl (fun T k => T.upd k (Slice.setOutputGate (gates.getD k ⊤))) T₂

theorem rt_tube_rebuild {T : Tube K} (hT : T.WF) (h : T.nbSlices < 2 ^ 31) :
    RT (getTube C) (putTube C T)
      (rebuild T.t0 (T.cells.map fun c => ⟨c.lb, c.ub, ⊤, ⊤⟩) (T.cells.map Cell.cod) T.g0 (T.cells.map Cell.out)) := by
  have hpos : 0 < T.nbSlices := List.length_pos_iff.mpr hT.ne
  refine (rt_getS (w := 2) (z := 2) (by norm_num) (by norm_num) (by norm_num)).bind ?_
  rw [if_neg (by simp)]
  refine (rt_size 4 T.nbSlices (by norm_num)).bind ?_
  rw [signed_small (w := 4) (by norm_num; omega), if_neg (by omega)]
  rw [← List.append_assoc, Tube.slices, times_eq C T.g0 T.cells T.t0 T.tf hT.tiles, List.append_assoc]
  refine (rt_getF C T.t0).bind ?_
  have hn : ((T.nbSlices : Nat) : Int).toNat = T.cells.length := by simp [Tube.nbSlices]
  rw [hn]
  refine (rt_cells C T.cells T.t0 T.tf hT.tiles).bind ?_
  have hc := rt_readN (p := getItv C) (put := putItv C) (T.cells.map Cell.cod) (fun X _ => rt_itv C X)
  have ho := rt_readN (p := getItv C) (put := putItv C) (T.cells.map Cell.out) (fun X _ => rt_itv C X)
  rw [List.length_map] at hc ho
  rw [← slices_cod T.g0, List.flatMap_map] at hc
  rw [← slices_out T.g0, List.flatMap_map] at ho
  refine hc.bind ?_
  refine (rt_itv C T.g0).bind ?_
  rw [slices_cod, slices_out] at *
  exact RT.map (f := fun gates => rebuild T.t0 (T.cells.map fun c => ⟨c.lb, c.ub, ⊤, ⊤⟩) (T.cells.map Cell.cod) T.g0 gates) ho

/-- the tube whose gates are intersected with the envelopes around them -/
def clip {K : Type*} [LinearOrder K] (T : Tube K) : Tube K :=
  { T with g0 := infOpt T.g0 (T.cells.head?.map Cell.cod), cells := clipCells T.cells }

theorem rebuild_clip {K : Type*} [LinearOrder K] {T : Tube K} (hT : T.WF) :
    rebuild T.t0 (T.cells.map fun c => ⟨c.lb, c.ub, ⊤, ⊤⟩) (T.cells.map Cell.cod) T.g0 (T.cells.map Cell.out) = clip T := by
  obtain ⟨t0, tf, g0, cells⟩ := T
  have hlast : ((cells.map fun c => (⟨c.lb, c.ub, ⊤, ⊤⟩ : Cell K)).getLast?.map Cell.ub).getD t0 = tf := by
    rw [List.getLast?_map, Option.map_map]
    exact tiles_last cells t0 tf hT.tiles
  unfold rebuild
  dsimp only
  rw [hlast]
  rw [foldl_upd_range (fun k => Slice.set ((cells.map Cell.cod).getD k ⊤))]
  have hsk := fwd_setCod (fun k => (cells.map Cell.cod).getD k ⊤) (cs := cells)
    (cs' := cells.map fun c => ⟨c.lb, c.ub, ⊤, ⊤⟩) (by
      unfold SameBds
      rw [List.forall₂_map_left_iff]
      exact List.forall₂_same.mpr fun _ _ => ⟨rfl, rfl⟩) 0 none ⊤ (fun i hi => by simp [hi])
  generalize fwd (fun k => Slice.set ((cells.map Cell.cod).getD k ⊤)) 0 none ⊤
    (cells.map fun c => (⟨c.lb, c.ub, ⊤, ⊤⟩ : Cell K)) = r at *
  obtain ⟨g1, cs1⟩ := r
  dsimp only at hsk ⊢
  rw [foldl_upd_range (fun k => Slice.setOutputGate ((cells.map Cell.out).getD k ⊤))]
  cases cells with
  | nil => exact absurd rfl hT.ne
  | cons c cs =>
    cases hsk with
    | @cons c' _ cs' _ hc hcs =>
      simp only [Tube.upd, updFrom, Slice.setInputGate, if_true, infOpt]
      rw [hc.2.2]
      rw [fwd_setOut (fun k => ((c :: cs).map Cell.out).getD k ⊤) (cs := c :: cs)
        (List.Forall₂.cons (by exact ⟨hc.1, hc.2.1, rfl⟩) hcs) 0 none (g0 ⊓ c.cod) (fun i hi => by
          rw [Nat.zero_add, List.getD_eq_getElem?_getD, List.getElem?_map, List.getElem?_eq_getElem hi]; rfl)]
      rfl

theorem clip_eq {K : Type*} [LinearOrder K] {T : Tube K} (hg : T.GatesInEnvelopes) : clip T = T := by
  obtain ⟨t0, tf, g0, cells⟩ := T
  unfold clip
  dsimp only
  rw [clipCells_eq hg]
  cases cells with
  | nil => rfl
  | cons c cs =>
    have hin : g0 ≤ c.cod := (hg ⟨c.lb, c.ub, c.cod, g0, c.out⟩ (by simp [Tube.slices])).1
    simp only [List.head?_cons, Option.map_some, infOpt, inf_eq_left.mpr hin]

theorem rt_tube_clip {T : Tube K} (hT : T.WF) (h : T.nbSlices < 2 ^ 31) : RT (getTube C) (putTube C T) (clip T) := by
  have := rt_tube_rebuild C hT h
  rwa [rebuild_clip hT] at this

theorem rt_tube {T : Tube K} (hT : T.WF) (hg : T.GatesInEnvelopes) (h : T.nbSlices < 2 ^ 31) :
    RT (getTube C) (putTube C T) T := by
  have := rt_tube_clip C hT h
  rwa [clip_eq hg] at this

theorem rt_list {α : Type} {p : Rd α} {put : α → List UInt8} (l : List α) (hl : l.length < 2 ^ 15)
    (h : ∀ a ∈ l, RT p (put a) a) :
    RT (getS 2 >>= fun size => if size < 0 then stop else readN p size.toNat)
      (putS 2 (signed 2 l.length) ++ (l.take (signed 2 l.length).toNat).flatMap put) l := by
  refine (rt_size 2 l.length (by norm_num)).bind ?_
  rw [signed_small (w := 2) (by norm_num; omega), if_neg (by omega)]
  simpa using rt_readN l h

theorem rt_tubes {Ts : List (Tube K)} (h : Ts.length < 2 ^ 15)
    (hT : ∀ T ∈ Ts, T.WF ∧ T.GatesInEnvelopes ∧ T.nbSlices < 2 ^ 31) : RT (getTubes C) (putTubes C Ts) Ts :=
  rt_list Ts h fun T h => rt_tube C (hT T h).1 (hT T h).2.1 (hT T h).2.2

theorem rt_traj_eq {x : Traj K} (h1 : SortedPts x.pts) (h2 : IsHull x.dom (x.pts.map Prod.fst))
    (h3 : IsHull x.cod (x.pts.map Prod.snd)) (h : x.pts.length < 2 ^ 31) : RT (getTraj C) (putTraj C x) x := by
  have := rt_traj C x h
  have e : ofPts x.pts = x := by
    unfold ofPts
    rw [ofPts_sorted h1, (isHull_hullOf _).unique h2, (isHull_hullOf _).unique h3]
  rwa [e] at this

theorem rt_trajs {xs : List (Traj K)} (h : xs.length < 2 ^ 15)
    (hx : ∀ x ∈ xs, SortedPts x.pts ∧ IsHull x.dom (x.pts.map Prod.fst) ∧ IsHull x.cod (x.pts.map Prod.snd) ∧
      x.pts.length < 2 ^ 31) : RT (getTrajs C) (putTrajs C xs) xs :=
  rt_list xs h fun x h => rt_traj_eq C (hx x h).1 (hx x h).2.1 (hx x h).2.2.1 (hx x h).2.2.2

theorem getCells_tiles : ∀ (n : Nat) (lb : K) (s s' : List UInt8) (cs : List (Cell K)),
    getCells C n lb s = some (cs, s') → cs.length = n ∧ Tiles lb cs ((cs.getLast?.map Cell.ub).getD lb) ∧
      ∀ c ∈ cs, c.cod = ⊤ ∧ c.out = ⊤ := by
  intro n
  induction n with
  | zero =>
    intro lb s s' cs h
    have : cs = [] := by
      have h' : some (([] : List (Cell K)), s) = some (cs, s') := h
      cases h'; rfl
    subst this
    exact ⟨rfl, rfl, by simp⟩
  | succ n ih =>
    intro lb s s' cs h
    have h' : (getF C s).bind (fun r => (if lb < r.1 then (getCells C n r.1 >>= fun cs => Pure.pure
      ((⟨lb, r.1, ⊤, ⊤⟩ : Cell K) :: cs)) else stop : Rd (List (Cell K))) r.2) = some (cs, s') := h
    obtain ⟨⟨ub, s1⟩, _, h2⟩ := Option.bind_eq_some_iff.mp h'
    by_cases hlt : lb < ub
    · rw [if_pos hlt] at h2
      have h3 : (getCells C n ub s1).bind (fun r => some ((⟨lb, ub, ⊤, ⊤⟩ : Cell K) :: r.1, r.2)) = some (cs, s') := h2
      obtain ⟨⟨cs1, s2⟩, h4, h5⟩ := Option.bind_eq_some_iff.mp h3
      cases h5
      obtain ⟨i1, i2, i3⟩ := ih ub s1 s2 cs1 h4
      refine ⟨by simp [i1], ⟨rfl, hlt, ?_⟩, ?_⟩
      · cases cs1 with
        | nil => exact rfl
        | cons d ds =>
          rw [List.getLast?_cons_cons]
          cases hl : (d :: ds).getLast? with
          | none => simp at hl
          | some e => rw [hl] at i2; exact i2
      · intro c hc
        rcases List.mem_cons.mp hc with rfl | hc
        · exact ⟨rfl, rfl⟩
        · exact i3 c hc
    · rw [if_neg hlt] at h2
      cases h2

theorem rebuild_inv {K : Type*} [LinearOrder K] {lb : K} {cells : List (Cell K)} (vals : List (Itv K)) (gate : Itv K)
    (gates : List (Itv K)) (hne : cells ≠ []) (ht : Tiles lb cells ((cells.getLast?.map Cell.ub).getD lb))
    (htop : ∀ c ∈ cells, c.cod = ⊤) :
    (rebuild lb cells vals gate gates).WF ∧ (rebuild lb cells vals gate gates).GatesInEnvelopes := by
  unfold rebuild
  dsimp only
  have w0 : (⟨lb, (cells.getLast?.map Cell.ub).getD lb, ⊤, cells⟩ : Tube K).WF := ⟨hne, ht⟩
  have g0 : (⟨lb, (cells.getLast?.map Cell.ub).getD lb, ⊤, cells⟩ : Tube K).GatesInEnvelopes := by
    intro s hs
    have : s.cod ∈ cells.map Cell.cod := by
      rw [← slices_cod ⊤]
      exact List.mem_map_of_mem hs
    obtain ⟨c, hc, e⟩ := List.mem_map.mp this
    rw [← e, htop c hc]
    exact ⟨le_top, le_top⟩
  have w1 := (foldl_upd_inv (fun k => Slice.set (vals.getD k ⊤))
    (List.range (⟨lb, (cells.getLast?.map Cell.ub).getD lb, ⊤, cells⟩ : Tube K).nbSlices) w0).1
  have g1 := foldl_upd_gc (fun k => Slice.set (vals.getD k ⊤)) (fun k p n s _ => Slice.set_gc _ p n s)
    (List.range (⟨lb, (cells.getLast?.map Cell.ub).getD lb, ⊤, cells⟩ : Tube K).nbSlices) g0
  have w2 := upd_wf w1 0 (Slice.setInputGate gate)
  have g2 := upd_gc (k := 0) (fun _ _ _ h => Slice.setInputGate_gc gate h) g1
  exact ⟨(foldl_upd_inv (fun k => Slice.setOutputGate (gates.getD k ⊤)) _ w2).1,
    foldl_upd_gc (fun k => Slice.setOutputGate (gates.getD k ⊤)) (fun k _ _ _ h => Slice.setOutputGate_gc _ h) _ g2⟩

theorem bind_some {α β : Type} {p : Rd α} {q : α → Rd β} {s s' : List UInt8} {b : β} (h : (p >>= q) s = some (b, s')) :
    ∃ a s1, p s = some (a, s1) ∧ q a s1 = some (b, s') := by
  have h' : (p s).bind (fun r => q r.1 r.2) = some (b, s') := h
  obtain ⟨⟨a, s1⟩, h1, h2⟩ := Option.bind_eq_some_iff.mp h'
  exact ⟨a, s1, h1, h2⟩

/-- whatever the bytes, a tube that is read without error is well formed and its gates are consistent -/
theorem getTube_inv {bs rest : List UInt8} {T : Tube K} (h : getTube C bs = some (T, rest)) : T.WF ∧ T.GatesInEnvelopes := by
  unfold getTube at h
  obtain ⟨version, s1, -, h⟩ := bind_some h
  by_cases hv : version ≠ 2
  · rw [if_pos hv] at h; cases h
  rw [if_neg hv] at h
  obtain ⟨n, s2, -, h⟩ := bind_some h
  by_cases hn : n < 1
  · rw [if_pos hn] at h; cases h
  rw [if_neg hn] at h
  obtain ⟨lb, s3, -, h⟩ := bind_some h
  obtain ⟨cells, s4, hc, h⟩ := bind_some h
  obtain ⟨vals, s5, -, h⟩ := bind_some h
  obtain ⟨gate, s6, -, h⟩ := bind_some h
  obtain ⟨gates, s7, -, h⟩ := bind_some h
  obtain ⟨i1, i2, i3⟩ := getCells_tiles C _ _ _ _ _ hc
  have e : some (rebuild lb cells vals gate gates, s7) = some (T, rest) := h
  cases e
  refine rebuild_inv vals gate gates ?_ i2 fun c hc => (i3 c hc).1
  rintro rfl
  simp at i1
  omega

end

/-! ### IEEE-754 -/

theorem ulps_lt_succ (m : Nat) : ulps m < ulps (m + 1) := by
  unfold ulps
  have hp : 0 < 2 ^ (m / 2 ^ 52 - 1) := Nat.two_pow_pos _
  by_cases hw : (m + 1) % 2 ^ 52 = 0
  · have hd : (m + 1) / 2 ^ 52 = m / 2 ^ 52 + 1 := by omega
    have hm : m % 2 ^ 52 = 2 ^ 52 - 1 := by omega
    rw [hw, hd, hm, if_neg (Nat.succ_ne_zero (m / 2 ^ 52))]
    by_cases h0 : m / 2 ^ 52 = 0
    · rw [if_pos h0, h0]; norm_num
    · rw [if_neg h0]
      have e : m / 2 ^ 52 + 1 - 1 = (m / 2 ^ 52 - 1) + 1 := by omega
      rw [e, pow_succ]
      have : (2 ^ 52 + (2 ^ 52 - 1)) * 2 ^ (m / 2 ^ 52 - 1) < (2 ^ 52 + 2 ^ 52) * 2 ^ (m / 2 ^ 52 - 1) :=
        Nat.mul_lt_mul_of_pos_right (by norm_num) hp
      calc _ < _ := this
        _ = _ := by ring
  · have hd : (m + 1) / 2 ^ 52 = m / 2 ^ 52 := by omega
    have hm : (m + 1) % 2 ^ 52 = m % 2 ^ 52 + 1 := by omega
    rw [hd, hm]
    by_cases h0 : m / 2 ^ 52 = 0
    · rw [if_pos h0, if_pos h0]; omega
    · rw [if_neg h0, if_neg h0]
      exact Nat.mul_lt_mul_of_pos_right (by omega) hp

theorem ulps_strictMono : StrictMono ulps := strictMono_nat_of_lt_succ ulps_lt_succ

/-- the order of the ranks is the order of the values -/
theorem Double.value_strictMono : StrictMono Double.value := by
  rintro ⟨a, ha⟩ ⟨b, hb⟩ h
  have h' : a < b := h
  unfold Double.value
  dsimp only
  have z : ulps 0 = 0 := by decide
  by_cases h1 : 0 ≤ a
  · rw [if_pos h1, if_pos (by omega)]
    exact_mod_cast ulps_strictMono (by omega : a.natAbs < b.natAbs)
  · rw [if_neg h1]
    have pa : 0 < ulps a.natAbs := by
      rw [← z]; exact ulps_strictMono (by omega)
    by_cases h2 : 0 ≤ b
    · rw [if_pos h2]; omega
    · rw [if_neg h2]
      have := ulps_strictMono (by omega : b.natAbs < a.natAbs)
      omega

theorem ieeeBits_lt (d : Dbl Double) : ieeeBits d < 256 ^ 8 := by
  cases d with
  | ninf => simp only [ieeeBits, infRank]; norm_num
  | pinf => simp only [ieeeBits, infRank]; norm_num
  | fin z =>
    have := z.2
    simp only [ieeeBits, infRank] at *
    split_ifs <;> omega

theorem ieeeOf_bits (d : Dbl Double) : ieeeOf (ieeeBits d) = some d := by
  cases d with
  | ninf =>
    have e : ieeeBits .ninf % 2 ^ 63 = infRank := by simp only [ieeeBits, infRank]; norm_num
    unfold ieeeOf
    rw [dif_neg (by rw [e]; exact lt_irrefl _), if_pos e, if_neg (by simp only [ieeeBits, infRank]; norm_num)]
  | pinf =>
    have e : ieeeBits .pinf % 2 ^ 63 = infRank := by simp only [ieeeBits, infRank]; norm_num
    unfold ieeeOf
    rw [dif_neg (by rw [e]; exact lt_irrefl _), if_pos e, if_pos (by simp only [ieeeBits, infRank]; norm_num)]
  | fin z =>
    obtain ⟨z, hz⟩ := z
    have hz' : z.natAbs < 2 ^ 63 := lt_trans hz (by unfold infRank; norm_num)
    have e : ieeeBits (.fin ⟨z, hz⟩) % 2 ^ 63 = z.natAbs := by
      simp only [ieeeBits]
      split_ifs <;> omega
    unfold ieeeOf
    rw [dif_pos (by rw [e]; exact hz)]
    congr 2
    by_cases h0 : 0 ≤ z
    · rw [if_pos (by simp only [ieeeBits, h0, if_true]; exact hz')]
      apply Subtype.ext
      dsimp only
      rw [e]; omega
    · rw [if_neg (by simp only [ieeeBits, h0, if_false]; omega)]
      apply Subtype.ext
      dsimp only
      rw [e]; omega

/-- the representation of the IEEE-754 doubles: 64 bits, little endian -/
def ieee : Codec Double where
  enc d := putLE 8 (ieeeBits d)
  dec l := ieeeOf (valLE l)
  len _ := length_putLE ..
  dec_enc d := by rw [valLE_putLE, Nat.mod_eq_of_lt (ieeeBits_lt d), ieeeOf_bits]

end Codac.Ser
