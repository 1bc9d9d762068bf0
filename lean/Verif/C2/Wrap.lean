import Verif.C2.Convert
import Verif.Ctc.Deriv
import Verif.Ctc.LinobsModel
import Mathlib.Data.List.Perm.Basic

/-!
# Contractors on the tubes of codac2 (codac_CtcDeriv.cpp, codac_CtcChain.cpp)

The tubes are converted to tubes of codac, contracted, converted back and intersected with the given tubes. The intersection fails on an assertion
unless both tubes have the same slices and the same gates.
-/

set_option linter.unusedSectionVars false

namespace Codac.C2

section model
variable {ι K : Type*} [LinearOrder K] [DecidableEq ι]

/-- the temporal intervals compared by `TDomain::are_same`, codac2_TDomain.cpp:248-261 -/
def spans (l : List (TS K ι K)) : List (K × K) := l.map fun s => (s.lb, s.ub)

/-- `x &= codac2::to_codac2(_x)` for the tube `k`, codac_CtcDeriv.cpp:125, codac_CtcChain.cpp:65-66; `none`: the assertion of `operator&=` on the
temporal domains, codac2_Tube.h:367 -/
def meetBack (k : ι) (T : Tube K) (l : List (TS K ι K)) : Option (List (TS K ι K)) :=
  (toC2 T T).bind fun m => if spans m = spans l then some (interTube k (m.map fun s => s.val ()) l) else none

/-- `CtcDeriv::contract(x, v, t_propa)` for tubes of codac2, codac_CtcDeriv.cpp:120-126: `x` is the tube `kx` of the temporal domain `l`, `v` is the
tube `kv` of the temporal domain `u` (the same one or another). The result is the temporal domain of `x`; `v` is not modified. -/
def derivC2 [Field K] [IsStrictOrderedRing K] (A : IArith K) (B : K) (R : Itv K) (fw bw : Bool) (kx : ι) (l : List (TS K ι K)) (kv : ι) (u : List (TS K ι K)) :
    Option (List (TS K ι K)) :=
  (toC1 kx l).bind fun X => (toC1 kv u).bind fun V => (derivTube A B R fw bw X V).bind fun X' => meetBack kx X' l

/-- `CtcChain::contract(x, v, a, t_propa)` for tubes of codac2, codac_CtcChain.cpp:58-67: the three tubes `kx`, `kv`, `ka` are on the same temporal
domain object `l`, so that the assertion of line 60 holds -/
def chainC2 [Field K] [IsStrictOrderedRing K] (P : Lin.Params K) (R C : Itv K) (fwd bwd : Bool) (kx kv ka : ι) (l : List (TS K ι K)) :
    Option (List (TS K ι K)) :=
  (toC1 kx l).bind fun X => (toC1 kv l).bind fun V => (toC1 ka l).bind fun A =>
    (Lin.linobs P R C fwd bwd [] X V A).bind fun σ => (meetBack kx σ.x1 l).bind fun l1 => meetBack kv σ.x2 l1

end model

variable {ι K : Type*} [LinearOrder K] [DecidableEq ι]

/-- a gate at each bound of each slice -/
def Full (l : List (TS K ι K)) : Prop := ∀ s ∈ l, GateAt l s.lb ∧ GateAt l s.ub

/-! ### The temporal domains with all their gates are given by their gates -/

theorem gateAt_spans {l : List (TS K ι K)} {t : K} : GateAt l t ↔ (t, t) ∈ spans l := by
  rw [spans, List.mem_map]
  constructor
  · rintro ⟨s, hs, hg, e⟩
    have hg : s.lb = s.ub := hg
    exact ⟨s, hs, by rw [← hg, e]⟩
  · rintro ⟨s, hs, e⟩
    obtain ⟨e1, e2⟩ := Prod.mk.injEq _ _ _ _ ▸ e
    exact ⟨s, hs, e1.trans e2.symm, e1⟩

theorem full_spans {l : List (TS K ι K)} : Full l ↔ ∀ p ∈ spans l, (p.1, p.1) ∈ spans l ∧ (p.2, p.2) ∈ spans l := by
  unfold Full
  simp only [gateAt_spans]
  constructor
  · intro h p hp
    obtain ⟨s, hs, rfl⟩ := List.mem_map.mp hp
    exact h s hs
  · intro h s hs
    exact h (s.lb, s.ub) (List.mem_map.mpr ⟨s, hs, rfl⟩)

/-- after a gate, a slice starts, unless the gate is at the end of the domain -/
theorem WF.after_gate {a b p : K} {l : List (TS K ι K)} (h : WF a b l) (hg : GateAt l p) (hp : p < b) : ∃ s ∈ l, s.lb = p ∧ p < s.ub := by
  obtain ⟨g, hgl, hgg, hgp⟩ := hg
  have hgg : g.lb = g.ub := hgg
  obtain ⟨l1, l2, rfl⟩ := List.append_of_mem hgl
  obtain ⟨c, -, -, -, h4⟩ := Chain.append.mp h.chain
  cases l2 with
  | nil =>
    have h4 : g.ub = b := h4
    rw [← hgg, hgp] at h4
    exact absurd h4 hp.ne
  | cons s l2 =>
    obtain ⟨e1, e2, -⟩ := h4
    have hsp : s.lb = p := by rw [e1, ← hgg, hgp]
    refine ⟨s, by simp, hsp, lt_of_le_of_ne (hsp ▸ e2) fun e => ?_⟩
    have := h.gates
    rw [OneGate, List.pairwise_append] at this
    exact (List.pairwise_cons.mp this.2.1).1 s (by simp) ⟨hgg, hsp.trans e, hgp.trans hsp.symm⟩

theorem Full.mem_spans {a b : K} {l : List (TS K ι K)} (h : WF a b l) (hf : Full l) {p q : K} :
    (p, q) ∈ spans l ↔ (p = q ∧ GateAt l p) ∨ (p < q ∧ GateAt l p ∧ GateAt l q ∧ ∀ t, GateAt l t → t ≤ p ∨ q ≤ t) := by
  constructor
  · intro hm
    obtain ⟨s, hs, e⟩ := List.mem_map.mp hm
    obtain ⟨rfl, rfl⟩ := Prod.mk.injEq _ _ _ _ ▸ e
    rcases (h.chain.mem hs).2.1.eq_or_lt with e | e
    · exact .inl ⟨e, (hf s hs).1⟩
    · exact .inr ⟨e, (hf s hs).1, (hf s hs).2, fun t ht => h.chain.gate_out hs ht⟩
  · rintro (⟨rfl, hg⟩ | ⟨hpq, hp, hq, hn⟩)
    · exact gateAt_spans.mp hg
    · have hqb : q ≤ b := by
        obtain ⟨g, hg, -, rfl⟩ := hq
        exact (h.chain.mem hg).2.1.trans (h.chain.mem hg).2.2
      obtain ⟨s, hs, e1, e2⟩ := h.after_gate hp (hpq.trans_le hqb)
      have h1 : q ≤ s.ub := (hn _ (hf s hs).2).resolve_left (not_le.mpr e2)
      have h2 : s.ub ≤ q := (h.chain.gate_out hs hq).resolve_left (by rw [e1]; exact not_le.mpr hpq)
      exact List.mem_map.mpr ⟨s, hs, by rw [e1, le_antisymm h2 h1]⟩

theorem WF.spans_pairwise {a b : K} {l : List (TS K ι K)} (h : WF a b l) : (spans l).Pairwise fun p q => p.2 ≤ q.1 ∧ p ≠ q := by
  have h1 : l.Pairwise fun s r => s.ub ≤ r.lb := by
    have hc := h.chain
    clear h
    induction l generalizing a with
    | nil => exact List.Pairwise.nil
    | cons s l ih => exact List.pairwise_cons.mpr ⟨fun r hr => (hc.2.2.mem hr).1, ih hc.2.2⟩
  rw [spans, List.pairwise_map]
  refine (h1.and h.gates).imp_of_mem ?_
  rintro s r hs hr ⟨h2, h3⟩
  refine ⟨h2, fun e => h3 ?_⟩
  obtain ⟨e1, e2⟩ := Prod.mk.injEq _ _ _ _ ▸ e
  have hs' : s.lb = s.ub := le_antisymm (h.chain.mem hs).2.1 (h2.trans e1.ge)
  exact ⟨hs', e1.symm.trans (hs'.trans e2), e1⟩

theorem spans_le {a b : K} {l : List (TS K ι K)} (h : WF a b l) : ∀ p ∈ spans l, p.1 ≤ p.2 := by
  intro p hp
  obtain ⟨s, hs, rfl⟩ := List.mem_map.mp hp
  exact (h.chain.mem hs).2.1

theorem spans_eq {ι' : Type*} [DecidableEq ι'] {a b a' b' : K} {l : List (TS K ι K)} {m : List (TS K ι' K)} (h : WF a b l) (h' : WF a' b' m) (hf : Full l) (hf' : Full m)
    (hg : ∀ t, GateAt l t ↔ GateAt m t) : spans l = spans m := by
  have p1 := h.spans_pairwise
  have p2 := h'.spans_pairwise
  have hperm : (spans l).Perm (spans m) := by
    refine (List.perm_ext_iff_of_nodup (p1.imp fun h => h.2) (p2.imp fun h => h.2)).mpr ?_
    rintro ⟨p, q⟩
    rw [hf.mem_spans h, hf'.mem_spans h']
    simp only [hg]
  refine List.Perm.eq_of_pairwise (le := fun p q => p.2 ≤ q.1 ∧ p ≠ q) ?_ p1 p2 hperm
  rintro p q hp hq ⟨h1, -⟩ ⟨h2, -⟩
  have k1 := spans_le h p hp
  have k2 := spans_le h' q hq
  have e : p.1 = p.2 := le_antisymm k1 (h1.trans (k2.trans h2))
  have e' : q.1 = q.2 := le_antisymm k2 (h2.trans (k1.trans h1))
  exact Prod.ext (le_antisymm (k1.trans h1) (k2.trans h2)) (le_antisymm (h1.trans k2) (h2.trans k1))

/-! ### The gates of `to_codac2` -/

/-- `u` is a bound of a slice -/
def IsBound (l : List (TS K ι K)) (u : K) : Prop := ∃ s ∈ l, s.lb = u ∨ s.ub = u

theorem cut_bounds {l : List (TS K ι K)} {i : Nat} {s : TS K ι K} {t u : K} (hi : l[i]? = some s) (h : IsBound (cut l i s t) u) : u = t ∨ IsBound l u := by
  obtain ⟨r, hr, hu⟩ := h
  unfold cut at hr
  rcases List.mem_append.mp hr with hr | hr
  · exact .inr ⟨r, List.mem_of_mem_take hr, hu⟩
  · rcases List.mem_cons.mp hr with rfl | hr
    · rcases hu with hu | hu
      · exact .inr ⟨s, List.mem_of_getElem? hi, .inl hu⟩
      · exact .inl hu.symm
    · rcases List.mem_cons.mp hr with rfl | hr
      · rcases hu with hu | hu
        · exact .inl hu.symm
        · exact .inr ⟨s, List.mem_of_getElem? hi, .inr hu⟩
      · exact .inr ⟨r, List.mem_of_mem_drop hr, hu⟩

theorem sampleBody_bounds {l l' : List (TS K ι K)} {t u : K} {g ag : Bool} {i : Nat} (e : sampleBody l t g = some (l', i, ag)) (h : IsBound l' u) :
    u = t ∨ IsBound l u := by
  unfold sampleBody at e
  cases hf : l.head? with
  | none => rw [hf] at e; cases e
  | some f =>
    cases hl : l.getLast? with
    | none => rw [hf, hl] at e; cases e
    | some z =>
      rw [hf, hl] at e
      dsimp only at e
      have hfm : f ∈ l := List.mem_of_mem_head? hf
      have hzm : z ∈ l := List.mem_of_getLast? hl
      by_cases h1 : t ≤ f.lb
      · rw [if_pos h1] at e
        by_cases h2 : f.IsGate ∧ f.lb = t
        · rw [if_pos h2] at e; cases e; exact .inr h
        · rw [if_neg h2] at e; cases e
          obtain ⟨r, hr, hu⟩ := h
          rcases List.mem_cons.mp hr with rfl | hr
          · rcases hu with hu | hu
            · exact .inl hu.symm
            · exact .inr ⟨f, hfm, .inl hu⟩
          · exact .inr ⟨r, hr, hu⟩
      · rw [if_neg h1] at e
        by_cases h2 : z.ub < t
        · rw [if_pos h2] at e; cases e
          obtain ⟨r, hr, hu⟩ := h
          rcases List.mem_append.mp hr with hr | hr
          · exact .inr ⟨r, hr, hu⟩
          · rw [List.mem_singleton.mp hr] at hu
            rcases hu with hu | hu
            · exact .inr ⟨z, hzm, .inr hu⟩
            · exact .inl hu.symm
        · rw [if_neg h2] at e
          cases hs : l[iter t l]? with
          | none => rw [hs] at e; cases e
          | some s =>
            rw [hs] at e
            dsimp only at e
            by_cases h3 : s.IsGate ∨ (g = false ∧ (s.lb = t ∨ t = z.ub))
            · rw [if_pos h3] at e; cases e; exact .inr h
            · rw [if_neg h3] at e
              by_cases h4 : s.lb = t
              · rw [if_pos h4] at e; cases e; exact cut_bounds hs h
              · rw [if_neg h4] at e; cases e; exact cut_bounds hs h

theorem sampleN_bounds {t u : K} : ∀ (n : Nat) {l l' : List (TS K ι K)} {g : Bool} {i : Nat}, sampleN n l t g = some (l', i) → IsBound l' u →
    u = t ∨ IsBound l u
  | 0, _, _, _, _, e, _ => by cases e
  | n + 1, l, l', g, i, e, h => by
    unfold sampleN at e
    cases hb : sampleBody l t g with
    | none => rw [hb] at e; cases e
    | some r =>
      obtain ⟨l1, j, ag⟩ := r
      rw [hb] at e
      dsimp only at e
      cases ag with
      | false =>
        rw [if_neg (by simp)] at e; cases e
        exact sampleBody_bounds hb h
      | true =>
        rw [if_pos rfl] at e
        rcases sampleN_bounds n e h with h | h
        · exact .inl h
        · exact sampleBody_bounds hb h

theorem sampleGates_bounds {u : K} (ts : List K) {l l' : List (TS K ι K)} (e : sampleGates l ts = some l') (h : IsBound l' u) : u ∈ ts ∨ IsBound l u := by
  induction ts generalizing l with
  | nil => cases e; exact .inr h
  | cons t ts ih =>
    rw [sampleGates, Option.bind_eq_some_iff] at e
    obtain ⟨r, e1, e2⟩ := e
    rcases ih e2 with h | h
    · exact .inl (by simp [h])
    · rcases sampleN_bounds 3 e1 h with h | h
      · exact .inl (by simp [h])
      · exact .inr h

theorem SameOthers.spans {k : ι} {l l' : List (TS K ι K)} (h : SameOthers k l l') : spans l' = spans l := h.1

/-- `to_codac2` gives a domain with all its gates -/
theorem toC2_full {D T : Tube K} (hD : D.WF) {l : List (TS K Unit K)} (h : toC2 D T = some l) : Full l := by
  rw [toC2, Option.map_eq_some_iff] at h
  obtain ⟨m, e, rfl⟩ := h
  have hsame : SameOthers () m (assignTube () (m.map fun s => T.evalItv (Itv.icc s.lb s.ub)) m) := foldl_set_same _ m
  rw [full_spans, hsame.spans, ← full_spans]
  obtain ⟨s0, hs0, hs0'⟩ : ∃ s ∈ D.slices, s.lb = D.t0 := by
    have := hD.ne
    have ht := hD.tiles
    rw [Tube.slices]
    cases hc : D.cells with
    | nil => exact absurd hc this
    | cons c cs =>
      rw [hc] at ht
      exact ⟨_, by rw [slicesFrom_cons]; exact List.mem_cons_self, ht.1⟩
  have hlt : D.t0 ≤ D.tf := by
    obtain ⟨b1, b2, b3⟩ := hD.tiles.mem_bounds hs0
    exact b1.trans (b2.le.trans b3)
  obtain ⟨l', e', -, -, g1, -⟩ := sampleGates_spec (l := [(⟨D.t0, D.tf, fun _ => ⊤⟩ : TS K Unit K)])
    ⟨by simp, ⟨rfl, hlt, rfl⟩, List.pairwise_singleton _ _⟩ (D.slices.map Slice.lb ++ [D.tf]) (by
    intro t ht
    rcases List.mem_append.mp ht with ht | ht
    · obtain ⟨s, hs, rfl⟩ := List.mem_map.mp ht
      obtain ⟨b1, b2, b3⟩ := hD.tiles.mem_bounds hs
      exact ⟨b1, b2.le.trans b3⟩
    · rw [List.mem_singleton.mp ht]; exact ⟨hlt, le_refl _⟩)
  rw [e, Option.some.injEq] at e'
  subst e'
  have key : ∀ u, IsBound m u → GateAt m u := by
    intro u hu
    apply g1
    rcases sampleGates_bounds _ e hu with h | ⟨s, hs, h⟩
    · exact h
    · rw [List.mem_singleton.mp hs] at h
      rcases h with h | h
      · have h : D.t0 = u := h
        exact List.mem_append.mpr (.inl (List.mem_map.mpr ⟨s0, hs0, hs0'.trans h⟩))
      · have h : D.tf = u := h
        simp [h]
  exact fun s hs => ⟨key _ ⟨s, hs, .inl rfl⟩, key _ ⟨s, hs, .inr rfl⟩⟩

/-! ### The intersection with the converted tube -/

/-- the intersection only removes trajectories, of this tube only -/
theorem meetBack_le {k : ι} {T : Tube K} {l l' : List (TS K ι K)} {a b : K} (h : WF a b l) (e : meetBack k T l = some l') :
    SameOthers k l l' ∧ ∀ f, Encl l' k f → Encl l k f := by
  rw [meetBack, Option.bind_eq_some_iff] at e
  obtain ⟨m, e1, e2⟩ := e
  by_cases hs : spans m = spans l
  swap
  · rw [if_neg hs] at e2; cases e2
  rw [if_pos hs] at e2
  cases e2
  have hlen : m.length = l.length := by
    have := congrArg List.length hs
    simpa [spans] using this
  exact ⟨foldl_set_same _ l, fun f hf => ((interTube_encl h.chain (by rw [List.length_map, hlen])).mp hf).1⟩

/-- when the intersection is done: all the gates were there; the trajectories are those of both tubes; the rest is not changed -/
theorem meetBack_some {k : ι} {T : Tube K} {l l' : List (TS K ι K)} {a b : K} (h : WF a b l) (hT : T.WF) (hg : T.GatesInEnvelopes)
    (e : meetBack k T l = some l') :
    Full l ∧ SameOthers k l l' ∧ ∀ f, Encl l' k f ↔ Encl l k f ∧ T.Encloses f := by
  rw [meetBack, Option.bind_eq_some_iff] at e
  obtain ⟨m, e1, e2⟩ := e
  by_cases hs : spans m = spans l
  swap
  · rw [if_neg hs] at e2; cases e2
  rw [if_pos hs] at e2
  cases e2
  obtain ⟨m', e1', w, h1, h2, -⟩ := toC2_spec hT hT hg rfl rfl
  rw [e1, Option.some.injEq] at e1'
  subst e1'
  refine ⟨?_, foldl_set_same _ l, fun f => ?_⟩
  · have := toC2_full hT e1
    rw [full_spans, hs, ← full_spans] at this
    exact this
  · have hlen : m.length = l.length := by
      have := congrArg List.length hs
      simpa [spans] using this
    rw [interTube_encl h.chain (by rw [List.length_map, hlen])]
    refine and_congr_right fun _ => ?_
    have hT' : T.Encloses f ↔ Encl m () f := by
      rw [encl_iff]
      exact ⟨h1 f, h2 (fun s hs => ⟨s, hs, rfl⟩) f⟩
    rw [hT']
    have hb : ∀ (i : Nat) (s : TS K ι K) (r : TS K Unit K), l[i]? = some s → m[i]? = some r → s.lb = r.lb ∧ s.ub = r.ub := by
      intro i s r hi hr
      have := congrArg (fun x => x[i]?) hs
      simp only [spans, List.getElem?_map, hi, hr, Option.map_some, Option.some.injEq, Prod.mk.injEq] at this
      exact ⟨this.1.symm, this.2.symm⟩
    constructor
    · intro hv r hr t t1 t2
      obtain ⟨i, hi⟩ := List.mem_iff_getElem?.mp hr
      have hil : i < l.length := by rw [← hlen]; exact (List.getElem?_eq_some_iff.mp hi).1
      obtain ⟨b1, b2⟩ := hb i _ r (List.getElem?_eq_getElem hil) hi
      exact hv i _ (r.val ()) (List.getElem?_eq_getElem hil) (by rw [List.getElem?_map, hi]; rfl) t (b1.le.trans t1) (t2.trans b2.ge)
    · intro hv i s y hi hy t t1 t2
      rw [List.getElem?_map, Option.map_eq_some_iff] at hy
      obtain ⟨r, hr, rfl⟩ := hy
      obtain ⟨b1, b2⟩ := hb i s r hi hr
      exact hv r (List.mem_of_getElem? hr) t (b1.ge.trans t1) (t2.trans b2.le)

/-- with all the gates, the intersection is done -/
theorem meetBack_total {k : ι} {T : Tube K} {l : List (TS K ι K)} {a b : K} (h : WF a b l) (hT : T.WF) (hg : T.GatesInEnvelopes) (hf : Full l)
    (h1 : T.tf = b) (hs : T.slices.map (fun s => (s.lb, s.ub)) = spans (deleteGates l)) : ∃ l', meetBack k T l = some l' := by
  obtain ⟨m, e, w, -, -, hgm⟩ := toC2_spec hT hT hg rfl rfl
  have hbl : ∀ t, (∃ s ∈ T.slices, s.lb = t) ↔ ∃ s ∈ l, s.lb = t ∧ t < s.ub := by
    intro t
    have h2 : (∃ s ∈ T.slices, s.lb = t) ↔ ∃ p ∈ T.slices.map (fun s => (s.lb, s.ub)), p.1 = t := by simp
    rw [h2, hs]
    constructor
    · rintro ⟨p, hp, rfl⟩
      obtain ⟨s, hsl, rfl⟩ := List.mem_map.mp hp
      rw [deleteGates, List.mem_filter] at hsl
      have hn : ¬ s.lb = s.ub := by
        intro e
        have := hsl.2
        rw [decide_eq_true (show s.IsGate from e)] at this
        cases this
      exact ⟨s, hsl.1, rfl, lt_of_le_of_ne (h.chain.mem hsl.1).2.1 hn⟩
    · rintro ⟨s, hsl, rfl, hlt⟩
      refine ⟨(s.lb, s.ub), List.mem_map.mpr ⟨s, ?_, rfl⟩, rfl⟩
      rw [deleteGates, List.mem_filter]
      exact ⟨hsl, by simp [TS.IsGate, hlt.ne]⟩
  have hgates : ∀ t, GateAt m t ↔ GateAt l t := by
    intro t
    rw [hgm, hbl, h1]
    constructor
    · rintro (rfl | ⟨s, hsl, rfl, -⟩)
      · obtain ⟨z, hz⟩ : ∃ e, l.getLast? = some e := ⟨_, List.getLast?_eq_some_getLast h.ne⟩
        have := (hf z (List.mem_of_getLast? hz)).2
        rwa [h.chain.last hz] at this
      · exact (hf s hsl).1
    · intro ht
      have htb : t ≤ b := by
        obtain ⟨g, hg, -, rfl⟩ := ht
        exact (h.chain.mem hg).2.1.trans (h.chain.mem hg).2.2
      rcases htb.eq_or_lt with e | e
      · exact .inl e
      · exact .inr (h.after_gate ht e)
  have := spans_eq w h (toC2_full hT e) hf hgates
  exact ⟨_, by rw [meetBack, e, Option.bind_some, if_pos this]⟩

end Codac.C2
