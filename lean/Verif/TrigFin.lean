import Verif.TrigMul

set_option autoImplicit false
set_option linter.unusedSectionVars false
set_option linter.unusedSimpArgs false
set_option linter.unusedVariables false

/-!
# contractTrigFctPowers for given results with the temporary symbols, helpers for C76
-/

namespace Tsym

namespace TrigProd

open Expr

variable {D : Type} [Flt D] [LawfulFlt D] {cfg : Cfg D}

/-- The part of contractTrigFctPowers after the simplification with the temporary symbols. -/
def finish (E : Eng D) (arg : Expr D) (ss sc : Sym) (res : List (Expr D)) : M D (List (Expr D)) :=
  match res with
  | [] => M.err .ub
  | r :: rs => do
    let last := (r :: rs).getLast (by simp)
    let b ← (if rs.length = 1 then M.whenTrue (M.withinM [(ss, Expr.fn .sin arg), (sc, Expr.fn .cos arg)] (do
      let m ← E.minus last.exp
      pure (isEqual r.exp m))) else pure false)
    if b then contractToTan E r last (.sym ss) (.sym sc) arg
    else do
      let l1 ← M.withinM [(sc, Expr.fn .cos arg)] (do
        let s ← E.trigCreate .sin arg
        substList E (.sym ss) s (r :: rs))
      let c ← E.trigCreate .cos arg
      let l2 ← substList E (.sym sc) c l1
      match l2 with
      | [] => M.err .ub
      | a :: l =>
        let b := (a :: l).getLast (by simp)
        if doPermute a b then do
          M.logIf (l.length != 1) .fail
          pure [b, a]
        else pure (a :: l)

theorem contractTrig_eq (E : Eng D) (f1 f2 : Expr D) : contractTrigFctPowers E f1 f2 = (do
  let arg ← trigArg f1
  let ps ← trigSign E .sin arg
  let pc ← trigSign E .cos arg
  let used := f1.tmpIds ++ f2.tmpIds
  let ks := E.cfg.fresh used
  let kc := E.cfg.fresh (ks :: used)
  let ss : Sym := ⟨.tmp ks, ps⟩
  let sc : Sym := ⟨.tmp kc, pc⟩
  let res ← M.withinM [(ss, Expr.fn .sin arg), (sc, Expr.fn .cos arg)] (do
    let r1 ← trigFunctionPowerReplacement E f1 (.sym ss) (.sym sc)
    let r2 ← trigFunctionPowerReplacement E f2 (.sym ss) (.sym sc)
    simplTwoFactors E r1 r2)
  finish E arg ss sc res) := rfl

theorem tot_minus_num {p : ℚ} (hp : p ≠ 0) : Tot cfg (fun E => E.minus (num (.rat p))) (num (.rat (-p)) : Expr D) := by
  unfold Eng.minus
  rw [mOne_rat]
  have := tot_num_num (D := D) (cfg := cfg) (p := -1) (q := p) (by norm_num) hp
  rw [neg_one_mul] at this
  exact tot_prod this

theorem TA.tot_sign {x : Expr D} (hx : TA cfg x) {f : Fn} (hf : f = .sin ∨ f = .cos) : Tot cfg (fun E => trigSign E f x) false := by
  unfold trigSign
  refine tot_whenTrue (tot_bind (tot_trig (hx.trig f)) (tot_isPos (hx.pos ?_)))
  rcases hf with rfl | rfl
  · exact .inl rfl
  · exact .inr (.inl rfl)

section

variable {x : Expr D} (hx : TA cfg x) {ss sc : Sym} {ks kc : ℕ} (hks : ks ∉ x.tmpIds) (hkc : kc ∉ x.tmpIds) (hne : ks ≠ kc)
  (hss : ss = ⟨.tmp ks, false⟩) (hsc : sc = ⟨.tmp kc, false⟩)

include hne hss hsc in
theorem sym_ne : (.sym ss : Expr D) ≠ .sym sc := by
  subst hss hsc; simpa using hne

/-- Both substitutions of a power of the first symbol. -/
theorem sub_s (hx : TA cfg x) (s : Sym) (f : Fn) (hf : Tr f) (p : ℚ) :
    Tot cfg (fun E => E.subst (.sym s) (.fn f x) (Tower.power s p)) (tp f x p) := tot_subst (hx.subst_power hf s p)

theorem tot_two {α β : Type} {f : Eng D → α → M D β} {a a' : α} {b b' : β} (h : Tot cfg (fun E => f E a) b)
    (h' : Tot cfg (fun E => f E a') b') : Tot cfg (fun E => M.mapL (f E) [a, a']) [b, b'] := by
  simp only [M.mapL]
  exact tot_bind h (tot_bind (tot_bind h' (tot_bind (tot_pure _) (tot_pure _))) (tot_pure _))

theorem tot_oneL {α β : Type} {f : Eng D → α → M D β} {a : α} {b : β} (h : Tot cfg (fun E => f E a) b) :
    Tot cfg (fun E => M.mapL (f E) [a]) [b] := by
  simp only [M.mapL]
  exact tot_bind h (tot_bind (tot_pure _) (tot_pure _))

include hx in
/-- One element. -/
theorem tot_finish_one {e e1 e2 : Expr D} (h1 : Tot cfg (fun E => subst E (.sym ss) (.fn .sin x) e) e1)
    (h2 : Tot cfg (fun E => subst E (.sym sc) (.fn .cos x) e1) e2) (hi : doPermute e2 e2 = false) :
    Tot cfg (fun E => finish E x ss sc [e]) [e2] := by
  simp only [finish, List.length_nil, zero_ne_one, if_false]
  refine tot_bind (tot_pure _) ?_
  simp only [Bool.false_eq_true, if_false]
  refine tot_bind (a := [e1]) (tot_within (tot_bind (tot_trig (hx.trig _)) (tot_oneL (tot_subst h1)))) ?_
  refine tot_bind (tot_trig (hx.trig _)) (tot_bind (a := [e2]) (tot_oneL (tot_subst h2)) ?_)
  simp only [List.getLast_singleton, hi, Bool.false_eq_true, if_false]
  exact tot_pure _

include hx in
/-- Two elements, if the exponents are not opposite. -/
theorem tot_finish_two {e f e1 f1 e2 f2 : Expr D} {p q : ℚ} (he : e.exp = .num (.rat p)) (hf : f.exp = .num (.rat q)) (hq : q ≠ 0) (hpq : p ≠ -q)
    (h1 : Tot cfg (fun E => subst E (.sym ss) (.fn .sin x) e) e1) (h1' : Tot cfg (fun E => subst E (.sym ss) (.fn .sin x) f) f1)
    (h2 : Tot cfg (fun E => subst E (.sym sc) (.fn .cos x) e1) e2) (h2' : Tot cfg (fun E => subst E (.sym sc) (.fn .cos x) f1) f2) :
    Tot cfg (fun E => finish E x ss sc [e, f]) (ordered e2 f2) := by
  simp only [finish, List.length_singleton, if_true]
  refine tot_bind (a := false) (tot_whenTrue (tot_within ?_)) ?_
  · simp only [List.getLast_cons (List.cons_ne_nil _ _), List.getLast_singleton, hf, he]
    refine tot_bind (tot_minus_num hq) ?_
    have : isEqual (num (.rat p)) (num (.rat (-q)) : Expr D) = false := isEqual_ne (exact_ratE _) (exact_ratE _) (by
      simp only [ne_eq, Expr.num.injEq, Number.rat.injEq]; exact hpq)
    simp only [this]
    exact tot_pure _
  simp only [Bool.false_eq_true, if_false]
  refine tot_bind (a := [e1, f1]) (tot_within (tot_bind (tot_trig (hx.trig _)) (tot_two (tot_subst h1) (tot_subst h1')))) ?_
  refine tot_bind (tot_trig (hx.trig _)) (tot_bind (a := [e2, f2]) (tot_two (tot_subst h2) (tot_subst h2')) ?_)
  simp only [List.getLast_cons (List.cons_ne_nil _ _), List.getLast_singleton, ordered]
  split
  · exact tot_bind (tot_logIf rfl) (tot_pure _)
  · exact tot_pure _

include hx hne hss hsc in
/-- Two elements with opposite exponents. -/
theorem rs_finish_tan {S : Asg → Prop} {e f : Expr D} {p : ℚ} (he : e.exp = .num (.rat p)) (hf : f.exp = .num (.rat (-p))) (hp : p ≠ 0)
    (hb : (e.base = .sym ss ∧ f.base = .sym sc) ∨ (e.base = .sym sc ∧ f.base = .sym ss) ∨
      ((∀ σ, ¬ S σ) ∧ (e.base = .sym ss ∨ e.base = .sym sc) ∧ (f.base = .sym ss ∨ f.base = .sym sc)))
    (hS : ∀ σ, S σ → Cond.holds σ (.nz (.fn .cos x))) :
    Rs cfg S (fun E => finish E x ss sc [e, f]) [tp .tan x (if isEqual e.base (.sym sc) then -p else p)] := by
  simp only [finish, List.length_singleton, if_true]
  have hp' : -p ≠ 0 := by simpa using hp
  refine rs_bind (a := true) (Tot.rs (tot_whenTrue (tot_within ?_))) ?_
  · simp only [List.getLast_cons (List.cons_ne_nil _ _), List.getLast_singleton, hf, he]
    refine tot_bind (tot_minus_num hp') ?_
    simp only [neg_neg, isEqual_refl (exact_ratE p)]
    exact tot_pure _
  simp only [if_true, contractToTan, List.getLast_cons (List.cons_ne_nil _ _), List.getLast_singleton, he]
  have hsn := sym_ne (D := D) hne hss hsc
  have n1 : isEqual (.sym ss : Expr D) (.sym sc) = false := isEqual_ne (exact_sym _) (exact_sym _) hsn
  have n2 : isEqual (.sym sc : Expr D) (.sym ss) = false := isEqual_ne (exact_sym _) (exact_sym _) hsn.symm
  refine rs_bind (a := .num (.rat (if isEqual e.base (.sym sc) then -p else p))) (Tot.rs ?_) ?_
  · cases isEqual e.base (.sym sc)
    · simp only [Bool.false_eq_true, if_false]; exact tot_pure _
    · simp only [if_true]; exact tot_minus_num hp
  refine rs_bind (a := ()) ?_ (rs_bind (a := ()) ?_ (rs_bind (Tot.rs (tot_trig (hx.trig _)))
    (rs_bind (Tot.rs (Tsym.tot_pow (hx.tot_pow (.inr (.inr rfl)) _))) (Tot.rs (tot_pure _)))))
  · rcases hb with ⟨h1, h2⟩ | ⟨h1, h2⟩ | ⟨h, _⟩
    · simp only [h1, h2, isEqual_refl (exact_sym _), n1, n2, Bool.and_self, Bool.or_true, Bool.not_true]
      exact Tot.rs (tot_logIf rfl)
    · simp only [h1, h2, isEqual_refl (exact_sym _), n1, n2, Bool.and_self, Bool.true_or, Bool.not_true]
      exact Tot.rs (tot_logIf rfl)
    · exact rs_emits fun c _ σ hσ => absurd hσ (h σ)
  · exact rs_emits fun c hc σ hσ => by
      rw [List.mem_singleton.1 hc]
      exact .inr (hS σ hσ)

end

end TrigProd

end Tsym
