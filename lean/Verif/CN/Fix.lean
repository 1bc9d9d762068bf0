import Verif.CN.Sound

set_option linter.unusedSectionVars false

/-!
# The end of a propagation is a fixed point

`val d m` is the value of the domain `d` in the memory `m`; several domains may depend on the same part of the memory.
The invariant uses a ghost: `seen d`, the value of `d` when its volume was last saved.
-/

namespace Codac.CN

variable {D C M W V : Type*} [DecidableEq D] [DecidableEq C] [PartialOrder V]

/-- `d` is touched by the contractor `c` run on `m`: it is one of its domains, or it is linked by a contractor to a changed
touched domain (a slice, its tube, the tube vector of this tube) -/
inductive Touched (G : Graph D C M W) (val : D → M → V) (c : C) (m : M) : D → Prop
  | base {d} : d ∈ G.doms c → Touched G val c m d
  | via {d e k} : Touched G val c m e → val e (G.apply c m) ≠ val e m → k ∈ G.ctcs e → d ∈ G.doms k →
      Touched G val c m d

/-- what is required from a network: `P` is a property of the memory kept by the contractors -/
structure Regular (all : List C) (G : Graph D C M W) (val : D → M → V) (P : M → Prop) : Prop where
  nosub : ∀ c ∈ all, G.kind c ≠ .subnet
  /-- a contractor is registered in its domains, and only there -/
  reg : ∀ c ∈ all, ∀ d ∈ G.doms c, c ∈ G.ctcs d
  keep : ∀ c ∈ all, ∀ m, P m → P (G.apply c m)
  /-- contractors contract -/
  contr : ∀ c ∈ all, ∀ m, P m → ∀ d, val d (G.apply c m) ≤ val d m
  idem : ∀ c ∈ all, ∀ m, P m → G.apply c (G.apply c m) = G.apply c m
  /-- whether a contractor has something to do depends on its domains only -/
  loc : ∀ c ∈ all, ∀ m m', P m → P m' → (∀ d ∈ G.doms c, val d m' = val d m) → G.apply c m = m → G.apply c m' = m'
  /-- what a contractor changes is in its domains, or linked to them -/
  touch : ∀ c ∈ all, ∀ m, P m → ∀ d, val d (G.apply c m) ≠ val d m → Touched G val c m d
  /-- the test on the volumes sees every change -/
  faith : ∀ d m m', P m → P m' → val d m' < val d m → G.drop (G.vol d m') (G.vol d m) = true

/-- `d` will be checked: it is in `L` (to be checked in the current iteration), or is a domain of a queued contractor, or is
linked by a contractor to a changed domain that will be checked -/
inductive Pend (G : Graph D C M W) (val : D → M → V) (s : State D C M W) (seen : D → V) (L : List D) : D → Prop
  | here {d} : d ∈ L → Pend G val s seen L d
  | now {d c} : c ∈ s.queue → d ∈ G.doms c → Pend G val s seen L d
  | via {d e k} : Pend G val s seen L e → val e s.mem ≠ seen e → k ∈ G.ctcs e → d ∈ G.doms k → Pend G val s seen L d

/-- the invariant of the propagation; `cur` is the contractor of the current iteration -/
structure FInv (all : List C) (G : Graph D C M W) (val : D → M → V) (P : M → Prop) (s : State D C M W) (seen : D → V)
    (L : List D) (cur : Option C) : Prop where
  q : QInv all G s
  p : P s.mem
  /-- the ghost is the value of a former memory, whose volume is the saved one -/
  sav : ∀ d, ∃ m, P m ∧ val d m = seen d ∧ s.saved d = G.vol d m
  le : ∀ d, val d s.mem ≤ seen d
  stab : ∀ c ∈ all, c ∉ s.queue → G.apply c s.mem = s.mem ∨ ∃ d ∈ G.doms c, val d s.mem ≠ seen d
  pend : ∀ d, val d s.mem ≠ seen d → Pend G val s seen L d
  chk : ∀ c, cur = some c → c ∈ all ∧ G.apply c s.mem = s.mem ∧ ∀ d ∈ G.doms c, d ∈ L ∨ val d s.mem = seen d

/-- one check -/
theorem triggerOne_finv {all : List C} {G : Graph D C M W} {val : D → M → V} {P : M → Prop} (hR : Regular all G val P)
    {s : State D C M W} {seen : D → V} {d : D} {L : List D} {cur : Option C}
    (h : FInv all G val P s seen (d :: L) cur) :
    FInv all G val P (triggerOne G cur s d) (Function.update seen d (val d s.mem)) L cur := by
  obtain ⟨t1, t2, t3, t4, -⟩ := triggerOne_spec G cur s d
  have hdrop : val d s.mem ≠ seen d → G.drop (G.vol d s.mem) (s.saved d) = true := by
    intro hne
    obtain ⟨m, hm, e1, e2⟩ := h.sav d
    rw [e2]
    exact hR.faith d m s.mem hm h.p (e1 ▸ lt_of_le_of_ne (h.le d) hne)
  have hst : ∀ x, val x s.mem ≠ Function.update seen d (val d s.mem) x ↔ (x ≠ d ∧ val x s.mem ≠ seen x) := by
    intro x
    by_cases e : x = d
    · subst e; simp
    · rw [Function.update_of_ne e]; simp [e]
  refine ⟨triggerOne_qinv cur h.q d, by rw [t1]; exact h.p, ?_, ?_, ?_, ?_, ?_⟩
  · intro x
    rw [t2]
    by_cases e : x = d
    · subst e; refine ⟨s.mem, h.p, by simp, by simp⟩
    · rw [Function.update_of_ne e, Function.update_of_ne e]; exact h.sav x
  · intro x
    rw [t1]
    by_cases e : x = d
    · subst e; simp
    · rw [Function.update_of_ne e]; exact h.le x
  · intro c hc hcq
    rw [t1]
    have hcq' : c ∉ s.queue := fun hx => hcq ((t4 c).mpr (Or.inl hx))
    rcases h.stab c hc hcq' with hs | ⟨x, hx, hne⟩
    · exact Or.inl hs
    by_cases e : x = d
    · subst e
      by_cases hcur : some c = cur
      · exact Or.inl ((h.chk c hcur.symm).2.1)
      · exfalso
        apply hcq
        rw [t4 c]
        right
        refine ⟨hdrop hne, hR.reg c hc x hx, hcur, ?_⟩
        by_contra ha
        exact hcq' (h.q.que c hc (hR.nosub c hc) (by simpa using ha))
    · exact Or.inr ⟨x, hx, (hst x).mpr ⟨e, hne⟩⟩
  · intro x hx
    rw [t1, hst x] at hx
    have key : ∀ y, Pend G val s seen (d :: L) y → y ≠ d ∧ val y s.mem ≠ seen y →
        Pend G val (triggerOne G cur s d) (Function.update seen d (val d s.mem)) L y := by
      intro y hy
      induction hy with
      | here hin =>
        intro hy
        rcases List.mem_cons.mp hin with hin | hin
        · exact absurd hin hy.1
        · exact .here hin
      | now hc hd => intro _; exact .now ((t4 _).mpr (Or.inl hc)) hd
      | @via y e k _ hne hk hd ih =>
        intro hy
        by_cases he : e = d
        · subst he
          by_cases hcur : some k = cur
          · have := (h.chk k hcur.symm).2.2 y hd
            rcases this with this | this
            · rcases List.mem_cons.mp this with this | this
              · exact absurd this hy.1
              · exact .here this
            · exact absurd this hy.2
          · refine .now (c := k) ?_ hd
            rw [t4 k]
            by_cases ha : s.active k = true
            · exact Or.inl (h.q.que k (h.q.ctcs e k hk) (hR.nosub k (h.q.ctcs e k hk)) ha)
            · exact Or.inr ⟨hdrop hne, hk, hcur, by simpa using ha⟩
        · refine .via (ih ⟨he, hne⟩) ?_ hk hd
          rw [t1]; exact (hst e).mpr ⟨he, hne⟩
    exact key x (h.pend x hx.2) hx
  · intro c hc
    rw [t1]
    obtain ⟨h1, h2, h3⟩ := h.chk c hc
    refine ⟨h1, h2, fun x hx => ?_⟩
    by_cases e : x = d
    · subst e; right; simp
    · rw [Function.update_of_ne e]
      rcases h3 x hx with h3 | h3
      · rcases List.mem_cons.mp h3 with h3 | h3
        · exact absurd h3 e
        · exact Or.inl h3
      · exact Or.inr h3

theorem foldl_triggerOne_finv {all : List C} {G : Graph D C M W} {val : D → M → V} {P : M → Prop}
    (hR : Regular all G val P) {L : List D} {s : State D C M W} {seen : D → V} {cur : Option C}
    (h : FInv all G val P s seen L cur) : ∃ seen', FInv all G val P (L.foldl (triggerOne G cur) s) seen' [] cur ∧
      ((∀ d, val d s.mem ≠ seen d → d ∈ L) → ∀ d, val d (L.foldl (triggerOne G cur) s).mem = seen' d) := by
  induction L generalizing s seen with
  | nil =>
    refine ⟨seen, h, fun h' d => ?_⟩
    by_contra hne; simpa using h' d hne
  | cons d L ih =>
    obtain ⟨seen', h1, h2⟩ := ih (triggerOne_finv hR h)
    refine ⟨seen', h1, fun h' => h2 fun x hx => ?_⟩
    rw [(triggerOne_spec G cur s d).1] at hx
    by_cases e : x = d
    · subst e; simp at hx
    · rw [Function.update_of_ne e] at hx
      rcases List.mem_cons.mp (h' x hx) with h3 | h3
      · exact absurd h3 e
      · exact h3

/-- the domains do not share memory: a contractor changes its domains only -/
def Disjoint' (all : List C) (G : Graph D C M W) (val : D → M → V) (P : M → Prop) : Prop :=
  ∀ c ∈ all, ∀ m, P m → ∀ d, val d (G.apply c m) ≠ val d m → d ∈ G.doms c

/-- one iteration of the propagation -/
theorem step_finv {all : List C} {G : Graph D C M W} {val : D → M → V} {P : M → Prop} (hR : Regular all G val P)
    {s : State D C M W} {seen : D → V} (h : FInv all G val P s seen [] none) :
    ∃ seen', FInv all G val P (step G s) seen' [] none ∧
      (Disjoint' all G val P → (∀ d, val d s.mem = seen d) → ∀ d, val d (step G s).mem = seen' d) := by
  unfold step
  split
  · exact ⟨seen, h, fun _ h' => h'⟩
  · rename_i c q hq
    have hc : c ∈ all := h.q.known c (by rw [hq]; simp)
    rw [if_neg (hR.nosub c hc), foldl_trigger_eq]
    have hn : (c :: q).Nodup := hq ▸ h.q.nodup
    rw [List.nodup_cons] at hn
    have hq' : ∀ x ∈ q, x ∈ s.queue := fun x hx => by rw [hq]; exact List.mem_cons_of_mem _ hx
    have hlt : ∀ d, val d s.mem ≠ seen d → val d (G.apply c s.mem) ≠ seen d := by
      intro d hne e
      apply hne
      exact le_antisymm (h.le d) (e ▸ hR.contr c hc s.mem h.p d)
    have hch : ∀ d, val d (G.apply c s.mem) ≠ val d s.mem → val d (G.apply c s.mem) ≠ seen d := by
      intro d hne e
      apply hne
      exact le_antisymm (hR.contr c hc s.mem h.p d) (e ▸ h.le d)
    have hL : ∀ d ∈ G.doms c, d ∈ (G.doms c).flatMap (fun d => d :: G.comps d) := by
      intro d hd; rw [List.mem_flatMap]; exact ⟨d, hd, by simp⟩
    have key : FInv all G val P
        { s with mem := G.apply c s.mem, queue := q, active := Function.update s.active c false } seen
        ((G.doms c).flatMap (fun d => d :: G.comps d)) (some c) := by
      refine ⟨?_, hR.keep c hc _ h.p, h.sav, ?_, ?_, ?_, ?_⟩
      · refine ⟨hn.2, fun x hx => h.q.known x (hq' x hx), ?_, ?_, h.q.ctcs⟩
        · intro x hx
          have e : x ≠ c := fun e => hn.1 (e ▸ hx)
          simp only [Function.update_of_ne e]
          exact h.q.act x (hq' x hx)
        · intro x hx hkx ha
          by_cases e : x = c
          · subst e; simp at ha
          · simp only [Function.update_of_ne e] at ha
            have := h.q.que x hx hkx ha
            rw [hq, List.mem_cons] at this
            rcases this with h4 | this
            · exact absurd h4 e
            · exact this
      · intro d; exact le_trans (hR.contr c hc s.mem h.p d) (h.le d)
      · intro x hx hxq
        by_cases e : x = c
        · subst e; left; exact hR.idem x hc s.mem h.p
        · have hxq' : x ∉ s.queue := by
            rw [hq, List.mem_cons, not_or]; exact ⟨e, hxq⟩
          rcases h.stab x hx hxq' with hs | ⟨d, hd, hne⟩
          · by_cases hall : ∀ d ∈ G.doms x, val d (G.apply c s.mem) = val d s.mem
            · left; exact hR.loc x hx s.mem _ h.p (hR.keep c hc _ h.p) hall hs
            · push Not at hall
              obtain ⟨d, hd, hne⟩ := hall
              exact Or.inr ⟨d, hd, hch d hne⟩
          · exact Or.inr ⟨d, hd, hlt d hne⟩
      · intro d hd
        have old : ∀ y, Pend G val s seen [] y → Pend G val
            { s with mem := G.apply c s.mem, queue := q, active := Function.update s.active c false } seen
            ((G.doms c).flatMap (fun d => d :: G.comps d)) y := by
          intro y hy
          induction hy with
          | here hin => simp at hin
          | @now y k hk hdk =>
            rw [hq, List.mem_cons] at hk
            rcases hk with hk | hk
            · exact .here (hL y (hk ▸ hdk))
            · exact .now hk hdk
          | via _ hne hk hd ih => exact .via ih (hlt _ hne) hk hd
        by_cases hne : val d s.mem = seen d
        · have ht := hR.touch c hc s.mem h.p d (by rw [hne]; exact hd)
          have new : ∀ y, Touched G val c s.mem y → Pend G val
              { s with mem := G.apply c s.mem, queue := q, active := Function.update s.active c false } seen
              ((G.doms c).flatMap (fun d => d :: G.comps d)) y := by
            intro y hy
            induction hy with
            | base hin => exact .here (hL _ hin)
            | via _ hne hk hd ih => exact .via ih (hch _ hne) hk hd
          exact new d ht
        · exact old d (h.pend d hne)
      · intro x hx
        cases hx
        exact ⟨hc, hR.idem c hc s.mem h.p, fun d hd => Or.inl (hL d hd)⟩
    obtain ⟨seen', h', h''⟩ := foldl_triggerOne_finv hR key
    refine ⟨seen', ⟨h'.q, h'.p, h'.sav, h'.le, h'.stab, h'.pend, by simp⟩, fun hd hs => h'' fun x hx => ?_⟩
    exact hL x (hd c hc s.mem h.p x (by rw [hs x]; exact hx))

theorem steps_finv {all : List C} {G : Graph D C M W} {val : D → M → V} {P : M → Prop} (hR : Regular all G val P) (n : Nat)
    {s : State D C M W} {seen : D → V} (h : FInv all G val P s seen [] none) :
    ∃ seen', FInv all G val P (steps G n s) seen' [] none ∧
      (Disjoint' all G val P → (∀ d, val d s.mem = seen d) → ∀ d, val d (steps G n s).mem = seen' d) := by
  induction n generalizing s seen with
  | zero => exact ⟨seen, h, fun _ h' => h'⟩
  | succ n ih =>
    obtain ⟨seen', h', h2⟩ := step_finv hR h
    obtain ⟨seen2, h3, h4⟩ := ih h'
    exact ⟨seen2, h3, fun hd hs => h4 hd (h2 hd hs)⟩

/-- `contract()` from a state where the contractors out of the queue have nothing to do -/
theorem contract_finv {all : List C} {G : Graph D C M W} {val : D → M → V} {P : M → Prop} (hR : Regular all G val P) (n : Nat)
    {s : State D C M W} (hq : QInv all G s) (hp : P s.mem)
    (hs : ∀ c ∈ all, c ∉ s.queue → G.apply c s.mem = s.mem) :
    ∃ seen, FInv all G val P (contract G n s) seen [] none ∧
      (Disjoint' all G val P → ∀ d, val d (contract G n s).mem = seen d) := by
  have key : FInv all G val P (refresh G s) (fun d => val d s.mem) [] none :=
    ⟨⟨hq.nodup, hq.known, hq.act, hq.que, hq.ctcs⟩, hp, fun d => ⟨s.mem, hp, rfl, rfl⟩, fun d => le_rfl,
      fun c hc hcq => Or.inl (hs c hc hcq), fun d hd => absurd rfl hd, by simp⟩
  obtain ⟨seen, h1, h2⟩ := steps_finv hR n key
  exact ⟨seen, h1, fun hd => h2 hd fun d => rfl⟩

/-- with an empty queue, nothing remains to be done -/
theorem finv_end {all : List C} {G : Graph D C M W} {val : D → M → V} {P : M → Prop} {s : State D C M W} {seen : D → V}
    (h : FInv all G val P s seen [] none) (he : s.queue = []) : ∀ c ∈ all, G.apply c s.mem = s.mem := by
  have hno : ∀ y, ¬ Pend G val s seen [] y := by
    intro y hy
    induction hy with
    | here hin => simp at hin
    | now hc _ => rw [he] at hc; simp at hc
    | via _ _ _ _ ih => exact ih
  have hns : ∀ d, val d s.mem = seen d := fun d => by
    by_contra hne; exact hno d (h.pend d hne)
  intro c hc
  rcases h.stab c hc (by rw [he]; simp) with hs | ⟨d, _, hne⟩
  · exact hs
  · exact absurd (hns d) hne

/-- without shared memory, every changed domain is checked in the iteration that changed it: the contractors out of the
queue have nothing to do, at any iteration -/
theorem finv_resume {all : List C} {G : Graph D C M W} {val : D → M → V} {P : M → Prop} {s : State D C M W} {seen : D → V}
    (h : FInv all G val P s seen [] none) (hs : ∀ d, val d s.mem = seen d) :
    ∀ c ∈ all, c ∉ s.queue → G.apply c s.mem = s.mem := by
  intro c hc hq
  rcases h.stab c hc hq with h' | ⟨d, _, hne⟩
  · exact h'
  · exact absurd (hs d) hne

end Codac.CN
