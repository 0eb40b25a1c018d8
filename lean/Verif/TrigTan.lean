import Verif.TrigCon

set_option autoImplicit false
set_option linter.unusedSectionVars false
set_option linter.unusedSimpArgs false
set_option linter.unusedVariables false

/-!
# contractTrigFctPowers with integer exponents and the tangent, helpers for C76
-/

namespace Tsym

namespace TrigProd

open Expr Qf

variable {D : Type} [Flt D] [LawfulFlt D] {cfg : Cfg D}

section

variable {x : Expr D} {f g : Fn} {p q u v : ℚ}

theorem fac_power {s : Sym} (h : p ≠ 0) : Qf.fac (.sym s, p) = (Tower.power s p : Expr D) := by
  simp only [Qf.fac, Tower.power, h, if_false]

theorem qf {s : Sym} (hs : s.id.Ok) (hp : p.den = 1) (h : p ≠ 0) : Qf.QF cfg (.sym s, p) := ⟨Qf.qb_sym hs, .inl hp, h⟩

/-- The lists of factors with two given bases. -/
theorem can_pair {s t : Sym} (hs : s.id.Ok) (ht : t.id.Ok) (hst : (.sym s : Expr D) ≠ .sym t) (hp : p.den = 1) (h : p ≠ 0) (hq : q.den = 1) (h' : q ≠ 0) :
    Qf.Can cfg [(.sym s, p), (.sym t, q)] ∨ Qf.Can cfg [(.sym t, q), (.sym s, p)] := by
  have g1 := (Qf.qb_sym (D := D) (cfg := cfg) hs).good
  have g2 := (Qf.qb_sym (D := D) (cfg := cfg) ht).good
  cases hl : L (.sym s : Expr D) (.sym t)
  · right
    have := g1.total g2 hl hst
    exact Qf.Can.mk_cons (qf ht hq h') (Qf.Can.single (qf hs hp h)) (by intro g hg; rw [List.mem_singleton.1 hg]; exact this)
  · left
    exact Qf.Can.mk_cons (qf hs hp h) (Qf.Can.single (qf ht hq h')) (by intro g hg; rw [List.mem_singleton.1 hg]; exact hl)

theorem can_cases {s t : Sym} (hs : s.id.Ok) (ht : t.id.Ok) (hst : (.sym s : Expr D) ≠ .sym t) {R : List (Expr D × ℚ)} (hR : Qf.Can cfg R)
    (hu : u.den = 1) (hv : v.den = 1) (hc : Qf.cnt R = Finsupp.single (.sym s) u + Finsupp.single (.sym t) v) :
    (u = 0 ∧ v = 0 ∧ R = []) ∨ (u ≠ 0 ∧ v = 0 ∧ R = [(.sym s, u)]) ∨ (u = 0 ∧ v ≠ 0 ∧ R = [(.sym t, v)]) ∨
    (u ≠ 0 ∧ v ≠ 0 ∧ (R = [(.sym s, u), (.sym t, v)] ∨ R = [(.sym t, v), (.sym s, u)])) := by
  by_cases h1 : u = 0
  · by_cases h2 : v = 0
    · exact .inl ⟨h1, h2, hR.ext Qf.Can.nil (by rw [hc, h1, h2]; simp)⟩
    · exact .inr (.inr (.inl ⟨h1, h2, hR.ext (Qf.Can.single (qf ht hv h2)) (by rw [hc, h1]; simp)⟩))
  · by_cases h2 : v = 0
    · exact .inr (.inl ⟨h1, h2, hR.ext (Qf.Can.single (qf hs hu h1)) (by rw [hc, h2]; simp)⟩)
    · refine .inr (.inr (.inr ⟨h1, h2, ?_⟩))
      rcases can_pair (cfg := cfg) hs ht hst hu h1 hv h2 with h | h
      · exact .inl (hR.ext h (by rw [hc]; simp))
      · exact .inr (hR.ext h (by rw [hc]; simp [add_comm]))

/-- The exponents of sine and cosine. -/
def es : Fn → ℚ → ℚ
  | .cos, _ => 0
  | _, p => p

/-- The exponents of sine and cosine. -/
def ec : Fn → ℚ → ℚ
  | .sin, _ => 0
  | .cos, p => p
  | _, p => -p

theorem tot_quot (hc : cfg.Ok) {s t : Sym} (hs : s.id.Ok) (ht : t.id.Ok) (hst : (.sym s : Expr D) ≠ .sym t) :
    ∃ R, Qf.Can cfg R ∧ Qf.cnt R = Finsupp.single (.sym s) 1 + Finsupp.single (.sym t) (-1) ∧
      Tot cfg (fun E => prodCreate E [.sym s, .pow (.sym t) mOne]) (Qf.mexpr 1 R) := by
  obtain ⟨R, h1, h2, -⟩ := Qf.tot_prodCreate (D := D) hc (cfg := cfg) (Ms := [(1, [(.sym s, 1)]), (1, [(.sym t, -1)])]) (by
    intro m hm
    simp only [List.mem_cons, List.not_mem_nil, or_false] at hm
    rcases hm with rfl | rfl
    · exact ⟨one_ne_zero, Qf.QFs.single (qf hs rfl one_ne_zero)⟩
    · exact ⟨one_ne_zero, Qf.QFs.single (qf ht rfl (by norm_num))⟩) (by simp)
  refine ⟨R, h1.can, by rw [h1.cnt]; simp, ?_⟩
  have e1 : Qf.mexpr 1 [(.sym s, (1 : ℚ))] = (.sym s : Expr D) := by simp [Qf.mexpr, Qf.rl_one, prodOf, Qf.fac]
  have e2 : Qf.mexpr 1 [(.sym t, (-1 : ℚ))] = (.pow (.sym t) mOne : Expr D) := by
    rw [mOne_rat]; simp only [Qf.mexpr, Qf.rl_one, prodOf, Qf.fac, List.map_cons, List.map_nil]
    rw [if_neg (by norm_num)]
  have := h2 (by simp [Qf.Nx])
  simp only [List.map_cons, List.map_nil, e1, e2, List.prod_cons, List.prod_nil, mul_one] at this
  exact this

theorem den_neg (hp : p.den = 1) : (-p).den = 1 := by simpa using hp

/-- The powers, in the temporary symbols. -/
theorem repl_all (hc : cfg.Ok) (hf : Tr f) (hp : p ≠ 0) (hpd : p.den = 1) {ss sc : Sym} (hs : ss.id.Ok) (ht : sc.id.Ok)
    (hst : (.sym ss : Expr D) ≠ .sym sc) :
    ∃ P, Qf.Can cfg P ∧ Qf.cnt P = Finsupp.single (.sym ss) (es f p) + Finsupp.single (.sym sc) (ec f p) ∧ P ≠ [] ∧
      (f = .tan → (Qf.mexpr 1 P).isProduct = true) ∧
      Tot cfg (fun E => trigFunctionPowerReplacement E (tp f x p) (.sym ss) (.sym sc)) (Qf.mexpr 1 P) := by
  have em : ∀ {s : Sym}, Qf.mexpr 1 [(.sym s, p)] = (Tower.power s p : Expr D) := by
    intro s; simp only [Qf.mexpr, Qf.rl_one, prodOf, List.map_cons, List.map_nil, fac_power hp]
  rcases hf with rfl | rfl | rfl
  · exact ⟨[(.sym ss, p)], Qf.Can.single (qf hs hpd hp), by simp [es, ec], by simp, by simp, by rw [em]; exact repl_sin hp ss sc⟩
  · exact ⟨[(.sym sc, p)], Qf.Can.single (qf ht hpd hp), by simp [es, ec], by simp, by simp, by rw [em]; exact repl_cos hp ss sc⟩
  · obtain ⟨R, hR, hcnt, hT⟩ := tot_quot (D := D) hc hs ht hst
    have hR' := can_cases hs ht hst hR rfl rfl hcnt
    simp only [one_ne_zero, false_and, ne_eq, not_false_eq_true, true_and, neg_eq_zero, false_or] at hR'
    have hq : Tot cfg (fun E => powCreate E (Qf.mexpr 1 R) (num (.rat p))) (Qf.mexpr 1 (Qf.sc p R)) := by
      by_cases h1 : p = 1
      · subst h1
        rw [Qf.sc_one]
        have e2 : (num (.rat 1) : Expr D).isZero = false := by rw [isZero_ratE]; simp
        have e3 : (num (.rat 1) : Expr D).isOne = true := by rw [isOne_ratE]; simp
        have hne : R ≠ [] := by rcases hR' with rfl | rfl <;> simp
        simp only [powCreate, show (num (.rat 1) : Expr D).isUndefined = false from rfl, Qf.mexpr_isUndefined hR.facs, Bool.or_self, Bool.false_eq_true, if_false,
          e2, Qf.mexpr_isOne hR.facs hne, Qf.mexpr_isZero one_ne_zero hR.facs, e3, if_true]
        exact tot_pure _
      · refine (Qf.tot_pow_term hc one_ne_zero one_ne_zero hR (by simp [Qf.Nx]) hp h1 (.inl ⟨hpd, ?_⟩) (Tower.tot_one_pow p) (fun _ => rfl)).1 (by simp [Qf.Nx])
        intro f hf
        left
        rcases hR' with rfl | rfl <;> simp only [List.mem_cons, List.not_mem_nil, or_false] at hf <;> rcases hf with rfl | rfl <;> rfl
    have hcan : Qf.Can cfg (Qf.sc p R) := by
      refine Qf.Can.sc hR hp fun f hf => .inl ⟨?_, hpd⟩
      rcases hR' with rfl | rfl <;> simp only [List.mem_cons, List.not_mem_nil, or_false] at hf <;> rcases hf with rfl | rfl <;> rfl
    refine ⟨Qf.sc p R, hcan, ?_, ?_, ?_, ?_⟩
    · rcases hR' with rfl | rfl <;> simp [Qf.sc, es, ec, add_comm]
    · rcases hR' with rfl | rfl <;> simp [Qf.sc]
    · intro _
      rcases hR' with rfl | rfl <;> simp [Qf.sc, Qf.mexpr, Qf.rl_one, prodOf, Expr.isProduct]
    · simp only [trigFunctionPowerReplacement, tp_base hp, tp_exp hp]
      exact tot_bind (tot_oneOver_sym sc) (tot_bind (tot_prod hT) (tot_pow hq))

/-- Two powers, one of them of the tangent. -/
theorem tot_front (hc : cfg.Ok) (hf : Tr f) (hg : Tr g) (ht : f = .tan ∨ g = .tan) (hp : p ≠ 0) (hpd : p.den = 1) (hq : q ≠ 0) (hqd : q.den = 1)
    {ss sc : Sym} (hs : ss.id.Ok) (hs' : sc.id.Ok) (hst : (.sym ss : Expr D) ≠ .sym sc) :
    ∃ R, Qf.Can cfg R ∧ Qf.cnt R = Finsupp.single (.sym ss) (es f p + es g q) + Finsupp.single (.sym sc) (ec f p + ec g q) ∧
      Tot cfg (fun E => front E (tp f x p) (tp g x q) ss sc) (R.map Qf.fac) := by
  obtain ⟨P, p1, p2, p3, p4, p5⟩ := repl_all (x := x) hc hf hp hpd hs hs' hst
  obtain ⟨Q, q1, q2, q3, q4, q5⟩ := repl_all (x := x) hc hg hq hqd hs hs' hst
  obtain ⟨m1, m2, -⟩ := Qf.mergeF_can p1 q1
  refine ⟨Qf.mergeF P Q, m1, ?_, ?_⟩
  · rw [m2, p2, q2, Finsupp.single_add, Finsupp.single_add]; abel
  · unfold front
    refine tot_bind p5 (tot_bind q5 ?_)
    have h : ((Qf.mexpr 1 P).isProduct || (Qf.mexpr 1 Q).isProduct) = true := by
      rcases ht with h | h
      · rw [p4 h]; rfl
      · rw [q4 h, Bool.or_true]
    simp only [simplTwoFactors, h, if_true, Qf.factors_mexpr p1.facs, Qf.factors_mexpr q1.facs, Qf.rl1, p3, q3, and_false, if_false, Qf.rl_one]
    exact tot_mergeProd (Qf.tot_mergeProd_fac p1.facs q1.facs)

/-- The result for exponents of sine and cosine. -/
def out (x : Expr D) (u v : ℚ) : List (Expr D) :=
  if v = 0 then [tp .sin x u] else if u = 0 then [tp .cos x v] else pair x u v

theorem es_den (f : Fn) (hp : p.den = 1) : (es f p).den = 1 := by cases f <;> simp [es, hp]
theorem ec_den (f : Fn) (hp : p.den = 1) : (ec f p).den = 1 := by cases f <;> simp [ec, hp]

theorem den_add (hp : p.den = 1) (hq : q.den = 1) : (p + q).den = 1 := by
  rw [← Rat.coe_int_num_of_den_eq_one hp, ← Rat.coe_int_num_of_den_eq_one hq, ← Int.cast_add]; exact Rat.den_intCast _

theorem con_tan (hc : cfg.Ok) (hx : TA cfg x) (hf : Tr f) (hg : Tr g) (ht : f = .tan ∨ g = .tan) (hp : p ≠ 0) (hpd : p.den = 1) (hq : q ≠ 0)
    (hqd : q.den = 1) (hu : u = es f p + es g q) (hv : v = ec f p + ec g q) (h0 : ¬ (u = 0 ∧ v = 0))
    {S : Asg → Prop} (hS : ∀ σ, S σ → Cond.holds σ (.nz (.fn .cos x))) :
    Rs cfg S (fun E => contractTrigFctPowers E (tp f x p) (tp g x q)) (out x u v) := by
  refine rs_contractTrig hc hx hp hq fun ks kc ss sc hks hkc hne hss hsc => ?_
  have hs : ss.id.Ok := by rw [hss]; trivial
  have hs' : sc.id.Ok := by rw [hsc]; trivial
  have hst := sym_ne (D := D) hne hss hsc
  obtain ⟨R, r1, r2, r3⟩ := tot_front (x := x) hc hf hg ht hp hpd hq hqd hs hs' hst
  refine ⟨R.map Qf.fac, r3, ?_⟩
  rw [← hu, ← hv] at r2
  have hud : u.den = 1 := by rw [hu]; exact den_add (es_den f hpd) (es_den g hqd)
  have hvd : v.den = 1 := by rw [hv]; exact den_add (ec_den f hpd) (ec_den g hqd)
  unfold out
  rcases can_cases hs hs' hst r1 hud hvd r2 with ⟨h1, h2, rfl⟩ | ⟨h1, h2, rfl⟩ | ⟨h1, h2, rfl⟩ | ⟨h1, h2, h3⟩
  · exact absurd ⟨h1, h2⟩ h0
  · simp only [h2, if_true, List.map_cons, List.map_nil, fac_power h1]
    exact Tot.rs (fin_sin hx hkc hsc u)
  · simp only [h1, h2, if_true, if_false, List.map_cons, List.map_nil, fac_power h2]
    exact Tot.rs (fin_cos hx hne hss hsc v)
  · simp only [h1, h2, if_false]
    refine fin_pair hx hkc hne hss hsc hS h1 h2 ?_
    rcases h3 with rfl | rfl
    · left; simp only [List.map_cons, List.map_nil, fac_power h1, fac_power h2]
    · right; simp only [List.map_cons, List.map_nil, fac_power h1, fac_power h2]

/-- Everything cancels: the list is empty, and its first element is used. -/
theorem con_ub (hc : cfg.Ok) (hx : TA cfg x) (hp : p ≠ 0) (hpd : p.den = 1) :
    LinE.Out cfg (fun E => contractTrigFctPowers E (tp .tan x p) (tp .tan x (-p))) (.error .ub) := by
  have hq : -p ≠ 0 := by simpa using hp
  have hqd : (-p).den = 1 := den_neg hpd
  have hu : (tp .tan x p).tmpIds ++ (tp .tan x (-p)).tmpIds = x.tmpIds ++ x.tmpIds := by rw [tp_tmpIds hp, tp_tmpIds hq]
  have h2 := hc.fresh (cfg.fresh (x.tmpIds ++ x.tmpIds) :: (x.tmpIds ++ x.tmpIds))
  simp only [List.mem_cons, List.mem_append, or_self, not_or] at h2
  have ha : trigArg (tp .tan x p) = pure x := by unfold trigArg; rw [tp_base hp]; rfl
  suffices h : LinE.Out cfg (fun E => (do
    let arg ← trigArg (tp .tan x p)
    let ps ← trigSign E .sin arg
    let pc ← trigSign E .cos arg
    let used := x.tmpIds ++ x.tmpIds
    let ks := cfg.fresh used
    let kc := cfg.fresh (ks :: used)
    let ss : Sym := ⟨.tmp ks, ps⟩
    let sc : Sym := ⟨.tmp kc, pc⟩
    let res ← M.withinM [(ss, Expr.fn .sin arg), (sc, Expr.fn .cos arg)] (front E (tp .tan x p) (tp .tan x (-p)) ss sc)
    finish E arg ss sc res)) (.error .ub) by
    obtain ⟨N, hN⟩ := h
    refine ⟨N, fun n hn => ?_⟩
    rw [← hN n hn]
    simp only [contractTrig_eq, eng_cfg, hu]
    rfl
  rw [ha]
  refine LinE.out_bind_ok (LinE.out_pure x) (LinE.out_bind_ok (.of_tot (hx.tot_sign (.inl rfl))) (LinE.out_bind_ok (.of_tot (hx.tot_sign (.inr rfl))) ?_))
  dsimp only
  generalize hks : cfg.fresh (x.tmpIds ++ x.tmpIds) = ks at *
  generalize hkc : cfg.fresh (ks :: (x.tmpIds ++ x.tmpIds)) = kc at *
  have hst := sym_ne (D := D) (Ne.symm h2.1) (ss := ⟨.tmp ks, false⟩) (sc := ⟨.tmp kc, false⟩) rfl rfl
  have hs : (⟨.tmp ks, false⟩ : Sym).id.Ok := trivial
  have hs' : (⟨.tmp kc, false⟩ : Sym).id.Ok := trivial
  obtain ⟨R, r1, r2, r3⟩ := tot_front (x := x) hc tTan tTan (.inl rfl) hp hpd hq hqd hs hs' hst
  have : R = [] := r1.ext Qf.Can.nil (by rw [r2]; simp [es, ec])
  subst this
  refine LinE.out_bind_ok (.of_tot (tot_within r3)) ?_
  exact ⟨0, fun _ _ => rfl⟩

end

end TrigProd

end Tsym
