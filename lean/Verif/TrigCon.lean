import Verif.TrigFin

set_option autoImplicit false
set_option linter.unusedSectionVars false
set_option linter.unusedSimpArgs false
set_option linter.unusedVariables false

/-!
# Results of contractTrigFctPowers, helpers for C76
-/

namespace Tsym

namespace TrigProd

open Expr

variable {D : Type} [Flt D] [LawfulFlt D] {cfg : Cfg D}

theorem eng_cfg (n : ℕ) : (eng cfg n).cfg = cfg := by
  induction n with
  | zero => rfl
  | succ n ih => exact ih

theorem Rs.congr {S : Asg → Prop} {α : Type} {f g : Eng D → M D α} {a : α} (h : Rs cfg S f a) (e : ∀ n, g (eng cfg n) = f (eng cfg n)) :
    Rs cfg S g a := by
  obtain ⟨N, cs, h1, hN⟩ := h
  exact ⟨N, cs, h1, fun n hn => by rw [e]; exact hN n hn⟩

/-- The simplification with the temporary symbols. -/
def front (E : Eng D) (f1 f2 : Expr D) (ss sc : Sym) : M D (List (Expr D)) := do
  let r1 ← trigFunctionPowerReplacement E f1 (.sym ss) (.sym sc)
  let r2 ← trigFunctionPowerReplacement E f2 (.sym ss) (.sym sc)
  simplTwoFactors E r1 r2

section

variable {x : Expr D} {f g : Fn} {p q : ℚ}

theorem rs_contractTrig (hc : cfg.Ok) (hx : TA cfg x) (hp : p ≠ 0) (hq : q ≠ 0) {S : Asg → Prop} {out : List (Expr D)}
    (h : ∀ (ks kc : ℕ) (ss sc : Sym), ks ∉ x.tmpIds → kc ∉ x.tmpIds → ks ≠ kc → ss = ⟨.tmp ks, false⟩ → sc = ⟨.tmp kc, false⟩ →
      ∃ res, Tot cfg (fun E => front E (tp f x p) (tp g x q) ss sc) res ∧ Rs cfg S (fun E => finish E x ss sc res) out) :
    Rs cfg S (fun E => contractTrigFctPowers E (tp f x p) (tp g x q)) out := by
  have hu : (tp f x p).tmpIds ++ (tp g x q).tmpIds = x.tmpIds ++ x.tmpIds := by rw [tp_tmpIds hp, tp_tmpIds hq]
  have h1 := hc.fresh (x.tmpIds ++ x.tmpIds)
  have h2 := hc.fresh (cfg.fresh (x.tmpIds ++ x.tmpIds) :: (x.tmpIds ++ x.tmpIds))
  simp only [List.mem_append, or_self] at h1
  simp only [List.mem_cons, List.mem_append, or_self, not_or] at h2
  obtain ⟨res, r1, r2⟩ := h _ _ _ _ h1 h2.2 (Ne.symm h2.1) rfl rfl
  have ha : trigArg (tp f x p) = pure x := by unfold trigArg; rw [tp_base hp]; rfl
  refine Rs.congr (f := fun E => (do
    let arg ← trigArg (tp f x p)
    let ps ← trigSign E .sin arg
    let pc ← trigSign E .cos arg
    let used := x.tmpIds ++ x.tmpIds
    let ks := cfg.fresh used
    let kc := cfg.fresh (ks :: used)
    let ss : Sym := ⟨.tmp ks, ps⟩
    let sc : Sym := ⟨.tmp kc, pc⟩
    let res ← M.withinM [(ss, Expr.fn .sin arg), (sc, Expr.fn .cos arg)] (front E (tp f x p) (tp g x q) ss sc)
    finish E arg ss sc res)) ?_ (fun n => by rw [contractTrig_eq]; simp only [eng_cfg, hu]; rfl)
  rw [ha]
  refine rs_bind (Tot.rs (tot_pure x)) (rs_bind (Tot.rs (hx.tot_sign (.inl rfl))) (rs_bind (Tot.rs (hx.tot_sign (.inr rfl))) ?_))
  exact rs_bind (Tot.rs (tot_within r1)) r2

theorem repl_sin (hp : p ≠ 0) (ss sc : Sym) :
    Tot cfg (fun E => trigFunctionPowerReplacement E (tp .sin x p) (.sym ss) (.sym sc)) (Tower.power ss p) := by
  simp only [trigFunctionPowerReplacement, tp_base hp, tp_exp hp]
  exact tot_pow (Tower.tot_power ss p)

theorem repl_cos (hp : p ≠ 0) (ss sc : Sym) :
    Tot cfg (fun E => trigFunctionPowerReplacement E (tp .cos x p) (.sym ss) (.sym sc)) (Tower.power sc p) := by
  simp only [trigFunctionPowerReplacement, tp_base hp, tp_exp hp]
  exact tot_pow (Tower.tot_power sc p)

theorem power_base {s : Sym} (h : p ≠ 0) : (Tower.power s p : Expr D).base = .sym s := by
  rcases Tower.power_cases (D := D) s h with ⟨e, _⟩ | ⟨e, _⟩ <;> rw [e] <;> rfl
theorem power_exp {s : Sym} (h : p ≠ 0) : (Tower.power s p : Expr D).exp = .num (.rat p) := by
  rcases Tower.power_cases (D := D) s h with ⟨e, rfl⟩ | ⟨e, _⟩ <;> rw [e]
  · simp only [Expr.exp]; exact one_eq
  · rfl

/-- Powers of different symbols. -/
theorem tot_two_syms {s t : Sym} (hst : (.sym s : Expr D) ≠ .sym t) (hp : p ≠ 0) (hq : q ≠ 0) :
    Tot cfg (fun E => simplTwoFactors E (Tower.power s p : Expr D) (Tower.power t q)) (ordered (Tower.power s p) (Tower.power t q)) := by
  have np : ∀ {s} {p : ℚ}, p ≠ 0 → (Tower.power s p : Expr D).isProduct = false := by
    intro s p h; rcases Tower.power_cases (D := D) s h with ⟨e, rfl⟩ | ⟨e, _⟩ <;> rw [e] <;> rfl
  have no : ∀ {s} {p : ℚ}, p ≠ 0 → (Tower.power s p : Expr D).isOne = false := by
    intro s p h; rcases Tower.power_cases (D := D) s h with ⟨e, rfl⟩ | ⟨e, _⟩ <;> rw [e] <;> rfl
  have nc : ∀ {s} {p : ℚ}, p ≠ 0 → (Tower.power s p : Expr D).isConst = false := by
    intro s p h; rcases Tower.power_cases (D := D) s h with ⟨e, rfl⟩ | ⟨e, _⟩ <;> rw [e] <;> simp [Expr.isConst]
  simp only [simplTwoFactors, np hp, np hq, Bool.or_self, Bool.false_eq_true, if_false, simplTwoFactorsWithoutProduct, no hp, no hq, nc hp,
    Bool.false_and, haveEqualBases, power_base hp, power_base hq, isEqual_ne (exact_sym s) (exact_sym t) hst]
  exact tot_pure _

section fin

variable (hx : TA cfg x) {ss sc : Sym} {ks kc : ℕ} (hks : ks ∉ x.tmpIds) (hkc : kc ∉ x.tmpIds) (hne : ks ≠ kc)
  (hss : ss = ⟨.tmp ks, false⟩) (hsc : sc = ⟨.tmp kc, false⟩)

theorem tSin : Tr .sin := .inl rfl
theorem tCos : Tr .cos := .inr (.inl rfl)
theorem tTan : Tr .tan := .inr (.inr rfl)

include hx hkc hsc in
theorem sub_sin (u : ℚ) : Tot cfg (fun E => subst E (.sym ss) (.fn .sin x) (Tower.power ss u)) (tp .sin x u) ∧
    Tot cfg (fun E => subst E (.sym sc) (.fn .cos x) (tp .sin x u)) (tp .sin x u) := by
  refine ⟨hx.subst_power tSin ss u, ?_⟩
  rw [hsc]
  exact hx.subst_tp tSin hkc false _ u

include hx hne hss hsc in
theorem sub_cos (u : ℚ) : Tot cfg (fun E => subst E (.sym ss) (.fn .sin x) (Tower.power sc u)) (Tower.power sc u) ∧
    Tot cfg (fun E => subst E (.sym sc) (.fn .cos x) (Tower.power sc u)) (tp .cos x u) :=
  ⟨subst_power_other (sym_ne hne hss hsc).symm _ u, hx.subst_power tCos sc u⟩

theorem tp_irrefl (hx : TA cfg x) (u : ℚ) : doPermute (tp f x u) (tp f x u) = false := by
  by_cases hu : u = 0
  · subst hu
    simp only [tp, if_true]
    exact (Qf.good_ratE 1).irrefl
  · exact (hx.tp_good f hu).irrefl

include hx hkc hsc in
theorem fin_sin (u : ℚ) : Tot cfg (fun E => finish E x ss sc [Tower.power ss u]) [tp .sin x u] :=
  tot_finish_one hx (sub_sin hx hkc hsc u).1 (sub_sin (ss := ss) hx hkc hsc u).2 (tp_irrefl hx u)

include hx hne hss hsc in
theorem fin_cos (u : ℚ) : Tot cfg (fun E => finish E x ss sc [Tower.power sc u]) [tp .cos x u] :=
  tot_finish_one hx (sub_cos hx hne hss hsc u).1 (sub_cos hx hne hss hsc u).2 (tp_irrefl hx u)

/-- The result for a power of the sine and a power of the cosine. -/
def pair (x : Expr D) (u v : ℚ) : List (Expr D) := if u = -v then [tp .tan x u] else [tp .cos x v, tp .sin x u]

include hx hkc hne hss hsc in
theorem fin_pair {S : Asg → Prop} (hS : ∀ σ, S σ → Cond.holds σ (.nz (.fn .cos x))) {u v : ℚ} (hu : u ≠ 0) (hv : v ≠ 0) {l : List (Expr D)}
    (hl : l = [Tower.power ss u, Tower.power sc v] ∨ l = [Tower.power sc v, Tower.power ss u]) :
    Rs cfg S (fun E => finish E x ss sc l) (pair x u v) := by
  have n1 : isEqual (.sym ss : Expr D) (.sym sc) = false := isEqual_ne (exact_sym _) (exact_sym _) (sym_ne hne hss hsc)
  have s1 := sub_sin hx hkc hsc u (ss := ss)
  have s2 := sub_cos hx hne hss hsc v
  unfold pair
  by_cases h : u = -v
  · have hv' : v = -u := by rw [h, neg_neg]
    rw [if_pos h]
    clear h
    subst hv'
    rcases hl with rfl | rfl
    · have := rs_finish_tan hx hne hss hsc (power_exp (D := D) (s := ss) hu) (power_exp (D := D) (s := sc) hv) hu
        (.inl ⟨power_base hu, power_base hv⟩) hS
      simpa only [power_base hu, n1, Bool.false_eq_true, if_false, neg_neg] using this
    · have := rs_finish_tan hx hne hss hsc (p := -u) (power_exp (D := D) (s := sc) hv) (by rw [neg_neg]; exact power_exp (D := D) (s := ss) hu) hv
        (.inr (.inl ⟨power_base hv, power_base hu⟩)) hS
      simpa only [power_base hv, isEqual_refl (exact_sym sc), if_true, neg_neg] using this
  · have ho := hx.order hv hu
    simp only [h, if_false]
    rcases hl with rfl | rfl
    · have := tot_finish_two hx (power_exp (D := D) (s := ss) hu) (power_exp (D := D) (s := sc) hv) hv h s1.1 s2.1 s1.2 s2.2
      simp only [ordered, ho.2, if_true] at this
      exact Tot.rs this
    · have := tot_finish_two hx (power_exp (D := D) (s := sc) hv) (power_exp (D := D) (s := ss) hu) hu (fun e => h (by rw [e, neg_neg])) s2.1 s1.1 s2.2 s1.2
      simp only [ordered, ho.1, Bool.false_eq_true, if_false] at this
      exact Tot.rs this

end fin

/-- The result for two powers of the sine, or of the cosine; `e` is the sign of the exponent of the tangent, if the rule is applied
to powers for which it is not made. -/
def same (f : Fn) (x : Expr D) (e p q : ℚ) : List (Expr D) :=
  if p.isInt = false ∧ q.isInt = false ∧ (p + q).isInt = true then
    (if p = -q then [tp .tan x (e * p)] else ordered (tp f x p) (tp f x q))
  else [tp f x (p + q)]

theorem kept_iff {s : Sym} (hs : s.positive = false) : Tower.Kept s p q ↔ (p.isInt = false ∧ q.isInt = false ∧ (p + q).isInt = true) := by
  unfold Tower.Kept; simp [hs]

theorem con_sin_sin (hc : cfg.Ok) (hx : TA cfg x) (hp : p ≠ 0) (hq : q ≠ 0) {S : Asg → Prop}
    (hS : (∀ σ, ¬ S σ) ∨ ¬ (p.isInt = false ∧ p = -q)) :
    Rs cfg S (fun E => contractTrigFctPowers E (tp .sin x p) (tp .sin x q)) (same .sin x 1 p q) := by
  refine rs_contractTrig hc hx hp hq fun ks kc ss sc hks hkc hne hss hsc => ⟨_, (show Tot cfg (fun E => front E _ _ ss sc) _ from
      tot_bind (repl_sin hp ss sc) (tot_bind (repl_sin hq ss sc) (Tower.tot_two_powers ss hp hq))), ?_⟩
  · simp only [kept_iff (show ss.positive = false by rw [hss])]
    unfold same
    have n1 : isEqual (.sym ss : Expr D) (.sym sc) = false := isEqual_ne (exact_sym _) (exact_sym _) (sym_ne hne hss hsc)
    by_cases h : p.isInt = false ∧ q.isInt = false ∧ (p + q).isInt = true
    · simp only [h, and_self, if_true]
      by_cases h2 : p = -q
      · have hS' : ∀ σ, ¬ S σ := hS.resolve_right (fun h' => h' ⟨h.1, h2⟩)
        have hv' : q = -p := by rw [h2, neg_neg]
        rw [if_pos h2, one_mul]
        clear h2 hS h
        subst hv'
        have := rs_finish_tan hx hne hss hsc (S := S) (power_exp (D := D) (s := ss) hp) (power_exp (D := D) (s := ss) hq) hp
          (.inr (.inr ⟨hS', .inl (power_base hp), .inl (power_base hq)⟩)) (fun σ hσ => absurd hσ (hS' σ))
        simpa only [power_base hp, n1, Bool.false_eq_true, if_false] using this
      · simp only [h2, if_false]
        exact Tot.rs (tot_finish_two hx (power_exp hp) (power_exp hq) hq h2 (sub_sin hx hkc hsc p).1 (sub_sin hx hkc hsc q).1
          (sub_sin (ss := ss) hx hkc hsc p).2 (sub_sin (ss := ss) hx hkc hsc q).2)
    · simp only [h, if_false]
      exact Tot.rs (fin_sin hx hkc hsc _)

theorem con_cos_cos (hc : cfg.Ok) (hx : TA cfg x) (hp : p ≠ 0) (hq : q ≠ 0) {S : Asg → Prop}
    (hS : (∀ σ, ¬ S σ) ∨ ¬ (p.isInt = false ∧ p = -q)) :
    Rs cfg S (fun E => contractTrigFctPowers E (tp .cos x p) (tp .cos x q)) (same .cos x (-1) p q) := by
  refine rs_contractTrig hc hx hp hq fun ks kc ss sc hks hkc hne hss hsc => ⟨_, (show Tot cfg (fun E => front E _ _ ss sc) _ from
      tot_bind (repl_cos hp ss sc) (tot_bind (repl_cos hq ss sc) (Tower.tot_two_powers sc hp hq))), ?_⟩
  · simp only [kept_iff (show sc.positive = false by rw [hsc])]
    unfold same
    by_cases h : p.isInt = false ∧ q.isInt = false ∧ (p + q).isInt = true
    · simp only [h, and_self, if_true]
      by_cases h2 : p = -q
      · have hS' : ∀ σ, ¬ S σ := hS.resolve_right (fun h' => h' ⟨h.1, h2⟩)
        have hv' : q = -p := by rw [h2, neg_neg]
        rw [if_pos h2, neg_one_mul]
        clear h2 hS h
        subst hv'
        have := rs_finish_tan hx hne hss hsc (S := S) (power_exp (D := D) (s := sc) hp) (power_exp (D := D) (s := sc) hq) hp
          (.inr (.inr ⟨hS', .inr (power_base hp), .inr (power_base hq)⟩)) (fun σ hσ => absurd hσ (hS' σ))
        simpa only [power_base hp, isEqual_refl (exact_sym sc), if_true] using this
      · simp only [h2, if_false]
        exact Tot.rs (tot_finish_two hx (power_exp hp) (power_exp hq) hq h2 (sub_cos hx hne hss hsc p).1 (sub_cos hx hne hss hsc q).1
          (sub_cos hx hne hss hsc p).2 (sub_cos hx hne hss hsc q).2)
    · simp only [h, if_false]
      exact Tot.rs (fin_cos hx hne hss hsc _)

theorem con_sin_cos (hc : cfg.Ok) (hx : TA cfg x) (hp : p ≠ 0) (hq : q ≠ 0) {S : Asg → Prop} (hS : ∀ σ, S σ → Cond.holds σ (.nz (.fn .cos x))) :
    Rs cfg S (fun E => contractTrigFctPowers E (tp .sin x p) (tp .cos x q)) (pair x p q) := by
  refine rs_contractTrig hc hx hp hq fun ks kc ss sc hks hkc hne hss hsc => ⟨_, (show Tot cfg (fun E => front E _ _ ss sc) _ from
      tot_bind (repl_sin hp ss sc) (tot_bind (repl_cos hq ss sc) (tot_two_syms (sym_ne hne hss hsc) hp hq))), ?_⟩
  · refine fin_pair hx hkc hne hss hsc hS hp hq ?_
    unfold ordered; split
    · exact .inr rfl
    · exact .inl rfl

theorem con_cos_sin (hc : cfg.Ok) (hx : TA cfg x) (hp : p ≠ 0) (hq : q ≠ 0) {S : Asg → Prop} (hS : ∀ σ, S σ → Cond.holds σ (.nz (.fn .cos x))) :
    Rs cfg S (fun E => contractTrigFctPowers E (tp .cos x p) (tp .sin x q)) (pair x q p) := by
  refine rs_contractTrig hc hx hp hq fun ks kc ss sc hks hkc hne hss hsc => ⟨_, (show Tot cfg (fun E => front E _ _ ss sc) _ from
      tot_bind (repl_cos hp ss sc) (tot_bind (repl_sin hq ss sc) (tot_two_syms (sym_ne hne hss hsc).symm hp hq))), ?_⟩
  · refine fin_pair hx hkc hne hss hsc hS hq hp ?_
    unfold ordered; split
    · exact .inl rfl
    · exact .inr rfl

end

end TrigProd

end Tsym
