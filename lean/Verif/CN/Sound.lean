import Verif.CN.Queue

set_option linter.unusedSectionVars false

/-! # Preservation of the solutions, and of any property of the memory, by the histories of a network -/

namespace Codac.CN

variable {D C M W : Type*} [DecidableEq D] [DecidableEq C]

theorem foldl_triggerOne_mem (G : Graph D C M W) (avoid : Option C) (ds : List D) (s : State D C M W) :
    (ds.foldl (triggerOne G avoid) s).mem = s.mem := by
  induction ds generalizing s with
  | nil => rfl
  | cons d ds ih => rw [List.foldl_cons, ih, (triggerOne_spec G avoid s d).1]

theorem step_mem (G : Graph D C M W) (s : State D C M W) :
    (step G s).mem = s.mem ∨ ∃ c ∈ s.queue, (step G s).mem = G.apply c s.mem := by
  unfold step
  split
  · exact Or.inl rfl
  · rename_i c q hq
    refine Or.inr ⟨c, by rw [hq]; simp, ?_⟩
    split_ifs
    · rfl
    · rw [foldl_trigger_eq, foldl_triggerOne_mem]

/-- a property of the memory kept by all the contractors is kept by the propagation -/
theorem steps_mem {P : M → Prop} {all : List C} {G : Graph D C M W} (hP : ∀ c ∈ all, ∀ m, P m → P (G.apply c m)) (n : Nat)
    {s : State D C M W} (hq : QInv all G s) (h : P s.mem) : P (steps G n s).mem := by
  induction n generalizing s with
  | zero => exact h
  | succ n ih =>
    apply ih (step_qinv hq)
    rcases step_mem G s with e | ⟨c, hc, e⟩
    · rw [e]; exact h
    · rw [e]; exact hP c (hq.known c hc) _ h

theorem foldl_apply_mem {P : M → Prop} {G : Graph D C M W} {cs : List C}
    (hP : ∀ c ∈ cs, ∀ m, P m → P (G.apply c m)) {m : M} (h : P m) : P (cs.foldl (fun m c => G.apply c m) m) := by
  induction cs generalizing m with
  | nil => exact h
  | cons c cs ih => exact ih (fun x hx => hP x (by simp [hx])) (hP c (by simp) m h)

theorem orderedMode_mem {P : M → Prop} {all : List C} {G : Graph D C M W}
    (hP : ∀ c ∈ all, ∀ m, P m → P (G.apply c m)) (n : Nat) {s : State D C M W} (hq : ∀ c ∈ s.queue, c ∈ all) (h : P s.mem) :
    P (orderedMode G n s).mem := by
  induction n generalizing s with
  | zero => exact h
  | succ n ih =>
    show P (orderedMode G n (orderedPass G s)).mem
    apply ih (s := orderedPass G s) hq
    apply foldl_apply_mem (fun c hc => hP c (hq c (List.mem_of_mem_tail hc)))
    exact foldl_apply_mem (fun c hc => hP c (hq c (List.mem_reverse.mp hc))) h

theorem resetInterm_mem {P : M → Prop} {G : Graph D C M W} {f : D → M → M} {interm : List D}
    (hf : ∀ d ∈ interm, ∀ m, P m → P (f d m)) (unset : W) (all : List C) {s : State D C M W} (h : P s.mem) :
    P (resetInterm G f unset interm all s).mem := by
  unfold resetInterm triggerAll
  show P (List.foldl _ s interm).mem
  induction interm generalizing s with
  | nil => exact h
  | cons d ds ih =>
    rw [List.foldl_cons]
    apply ih (fun x hx => hf x (by simp [hx]))
    unfold trigger
    rw [foldl_triggerOne_mem]
    exact hf d (by simp) _ h

/-- every contractor of the operations keeps the property, as well as every reset -/
def Op.Keeps (P : M → Prop) : Op D C M → Prop
  | .add _ _ _ f => ∀ m, P m → P (f m)
  | .reset interm f => ∀ d ∈ interm, ∀ m, P m → P (f d m)
  | _ => True

theorem run_mem {P : M → Prop} (unset : W) {N : Net D C M W} (hN : NetInv N)
    (hG : ∀ c ∈ N.all, ∀ m, P m → P (N.G.apply c m)) {o : Op D C M} (ho : o.Keeps P) (h : P N.s.mem) :
    P (o.run unset N).s.mem ∧ ∀ c ∈ (o.run unset N).all, ∀ m, P m → P ((o.run unset N).G.apply c m) := by
  cases o with
  | contract n =>
    exact ⟨steps_mem hG n (s := refresh N.G N.s) ⟨hN.q.nodup, hN.q.known, hN.q.act, hN.q.que, hN.q.ctcs⟩ h, hG⟩
  | ordered n => exact ⟨orderedMode_mem hG n hN.q.known h, hG⟩
  | triggerAll => exact ⟨h, hG⟩
  | reset interm f => exact ⟨resetInterm_mem ho unset N.all h, hG⟩
  | add c ds k f =>
    simp only [Op.run]
    split_ifs with hc
    · exact ⟨h, hG⟩
    · refine ⟨h, ?_⟩
      intro x hx m hm
      show P (Function.update N.G.apply c f x m)
      by_cases e : x = c
      · subst e; rw [Function.update_self]; exact ho m hm
      · rw [Function.update_of_ne e]
        rcases List.mem_cons.mp hx with hx | hx
        · exact absurd hx e
        · exact hG x hx m hm

theorem runOps_mem {P : M → Prop} (unset : W) (os : List (Op D C M)) {N : Net D C M W} (hN : NetInv N)
    (hG : ∀ c ∈ N.all, ∀ m, P m → P (N.G.apply c m)) (hos : ∀ o ∈ os, o.Keeps P) (h : P N.s.mem) :
    P (runOps unset os N).s.mem := by
  induction os generalizing N with
  | nil => exact h
  | cons o os ih =>
    obtain ⟨h1, h2⟩ := run_mem unset hN hG (hos o (by simp)) h
    exact ih (run_inv unset hN o) h2 (fun o' ho' => hos o' (by simp [ho'])) h1

end Codac.CN
