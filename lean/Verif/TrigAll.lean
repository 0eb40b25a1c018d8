import Verif.TrigTan

set_option autoImplicit false
set_option linter.unusedSectionVars false
set_option linter.unusedSimpArgs false
set_option linter.unusedVariables false

/-!
# Products of two powers of trigonometric functions, helpers for C76
-/

namespace Tsym

namespace TrigProd

open Expr

variable {D : Type} [Flt D] [LawfulFlt D] {cfg : Cfg D}

section

variable {x : Expr D} {f g : Fn} {p q u v : ℚ}

theorem contractable (hf : Tr f) (hp : p ≠ 0) : isContractableTrigFctPower (tp f x p) = pure true := by
  have e : (M.lift (numEval (.num (.rat p) : Expr D)) : M D _) = pure (some (.rat p)) := by rw [numEval_rat]; rfl
  unfold isContractableTrigFctPower
  rw [tp_base hp, tp_exp hp, e]
  rcases hf with rfl | rfl | rfl <;> rfl

theorem check (hx : TA cfg x) (hf : Tr f) (hg : Tr g) (hp : p ≠ 0) (hq : q ≠ 0) : areContractableTrigFctPowers (tp f x p) (tp g x q) = pure true := by
  unfold areContractableTrigFctPowers
  rw [contractable hf hp, contractable hg hq, tp_base hp, tp_base hq]
  have e : isEqual x x = true := isEqual_refl hx.good.exact
  simp only [operands]
  change (pure (isEqual x x) : M D Bool) = _
  rw [e]

/-- Powers of sine and cosine stay next to each other. -/
theorem tot_cos_sin (hx : TA cfg x) (hp : p ≠ 0) (hq : q ≠ 0) :
    Tot cfg (fun E => simplTwoFactors E (tp .cos x p) (tp .sin x q)) [tp .cos x p, tp .sin x q] := by
  have ne : isEqual (.fn .cos x : Expr D) (.fn .sin x) = false := isEqual_ne (hx.fn_good _).exact (hx.fn_good _).exact (by simp)
  have ho := hx.order hp hq
  simp only [simplTwoFactors, tp_isProduct hp, tp_isProduct hq, Bool.or_self, Bool.false_eq_true, if_false, simplTwoFactorsWithoutProduct, tp_isOne hp,
    tp_isOne hq, tp_isConst hp, Bool.false_and, haveEqualBases, tp_base hp, tp_base hq, ne, ordered, ho.1]
  exact tot_pure _

/-- Powers of one function with exponents that are not added. -/
theorem tot_kept (hx : TA cfg x) (hf : Tr f) (hp : p ≠ 0) (hq : q ≠ 0) (hpi : p.isInt = false) (hqi : q.isInt = false) (hpq : (p + q).isInt = true) :
    Tot cfg (fun E => simplTwoFactors E (tp f x p) (tp f x q)) [tp f x p, tp f x q] := by
  have he : isEqual (.fn f x : Expr D) (.fn f x) = true := isEqual_refl (hx.fn_good f).exact
  simp only [simplTwoFactors, tp_isProduct hp, tp_isProduct hq, Bool.or_self, Bool.false_eq_true, if_false, simplTwoFactorsWithoutProduct, tp_isOne hp,
    tp_isOne hq, tp_isConst hp, Bool.false_and, haveEqualBases, tp_base hp, tp_base hq, he, if_true, simplTwoEqualBases, tp_exp hp, tp_exp hq]
  refine tot_bind (tot_sum_num (cfg := cfg) p q) ?_
  refine tot_bind (tot_silent (tot_isPos (hx.pos hf))) ?_
  simp only [Bool.false_eq_true, if_false]
  refine tot_bind (tot_silent (tot_isNeg (hx.neg hf))) ?_
  have fr : ∀ p : ℚ, isFractionNumeric (num (.rat p) : Expr D) = .ok (!p.isInt) := by
    intro p
    simp only [isFractionNumeric, numEval_rat, bind, Except.bind, Tower.isFrac_rat]; rfl
  simp only [Bool.false_eq_true, if_false]
  refine tot_bind (a := true) ?_ (by simp only [if_true]; exact tot_pure _)
  refine tot_bind (tot_lift (fr p)) ?_
  simp only [hpi, Bool.not_false, if_true]
  refine tot_bind (tot_lift (fr q)) ?_
  simp only [hqi, Bool.not_false, if_true]
  have := tot_lift (cfg := cfg) (Qf.isInteger_rat (D := D) (p + q))
  have e : decide ((p + q).den = 1) = true := by simpa [Rat.isInt] using hpq
  rwa [e] at this

section prod

variable {a b : Expr D} {S : Asg → Prop}

theorem rs_prodSimplify {l : List (Expr D)} {r} (h : Rs cfg S (fun E => simplProd E l) r) : Rs cfg S (fun E => E.prodSimplify l) r :=
  rs_succ (fun _ => rfl) h

theorem tot_extract_two (ha : a.isProduct = false) (hb : b.isProduct = false) : Tot cfg (fun E => extractProducts E [a, b]) [a, b] := by
  have := tot_extract (cfg := cfg) (u := [a, b]) (by
    intro l hl
    simp only [List.mem_cons, List.not_mem_nil, or_false] at hl
    rcases hl with rfl | rfl
    · simp [isProduct] at ha
    · simp [isProduct] at hb)
  have fa : factors a = [a] := by cases a <;> first | rfl | simp [isProduct] at ha
  have fb : factors b = [b] := by cases b <;> first | rfl | simp [isProduct] at hb
  simpa [fa, fb] using this

/-- Two factors become one. -/
theorem rs_prod_one (hc : cfg.Ok) (hp : p ≠ 0) (hq : q ≠ 0) {r : Expr D} (hr : GItem r)
    (h : Rs cfg S (fun E => contract E areContractableTrigFctPowers (contractTrigFctPowers E) [tp f x p, tp g x q]) [r]) :
    Rs cfg S (fun E => prodCreate E [tp f x p, tp g x q]) r := by
  simp only [prodCreate, List.any_cons, List.any_nil, tp_isUndefined hp, tp_isUndefined hq, tp_isZero hp, tp_isZero hq, Bool.or_self, Bool.false_eq_true,
    if_false]
  refine rs_bind (a := [r]) (rs_prodSimplify ?_) (by simp only; exact Tot.rs (tot_pure _))
  unfold simplProd
  refine rs_bind (Tot.rs (tot_extract_two (tp_isProduct hp) (tp_isProduct hq))) (rs_bind h ?_)
  simp only
  obtain ⟨P, hP, ht⟩ := tot_prepare_gen (cfg := cfg) hc (l := [r]) (by simpa using hr)
  refine Tot.rs ?_
  rcases hr with ⟨c, rfl⟩ | ⟨h1, h2, h3⟩
  · have hP0 : P = [] := by simpa [isNumeric] using hP
    subst hP0
    simp only [qs, or_true, if_true] at ht
    refine tot_bind ht ?_
    simp only [qOf, List.map_cons, List.map_nil, List.prod_cons, List.prod_nil, mul_one]
    exact tot_pure _
  · have hP0 : P = [r] := by simpa [h1] using hP
    subst hP0
    have hq1 : qs [r] = 1 := by cases r <;> simp_all [qs, qOf, isNumeric]
    simp only [hq1, ne_eq, not_true_eq_false, List.cons_ne_nil, or_self, if_false] at ht
    exact tot_bind ht (tot_pure _)

/-- Two factors stay two factors. -/
theorem rs_prod_two (hp : p ≠ 0) (hq : q ≠ 0) {r t : Expr D} (hr : r.isConst = false) (ht : t.isConst = false)
    (h : Rs cfg S (fun E => contract E areContractableTrigFctPowers (contractTrigFctPowers E) [tp f x p, tp g x q]) [r, t])
    (h' : Tot cfg (fun E => simplTwoFactors E r t) [r, t]) :
    Rs cfg S (fun E => prodCreate E [tp f x p, tp g x q]) (.prod [r, t]) := by
  simp only [prodCreate, List.any_cons, List.any_nil, tp_isUndefined hp, tp_isUndefined hq, tp_isZero hp, tp_isZero hq, Bool.or_self, Bool.false_eq_true,
    if_false]
  refine rs_bind (a := [r, t]) (rs_prodSimplify ?_) ?_
  · unfold simplProd
    refine rs_bind (Tot.rs (tot_extract_two (tp_isProduct hp) (tp_isProduct hq))) (rs_bind h ?_)
    exact Tot.rs h'
  · have hn : needsExpansion [r, t] = false := by
      simp [needsExpansion, constElements, hr, ht]
    simp only [hn, Bool.false_eq_true, if_false]
    exact Tot.rs (tot_pure _)

/-- The product with a list of factors. -/
def mk : List (Expr D) → Expr D
  | [r] => r
  | l => .prod l

theorem tp_item' (hf : Tr f) (p : ℚ) : GItem (tp f x p) := by
  by_cases h : p = 0
  · subst h; exact .inl ⟨1, by simp [tp]⟩
  · exact tp_item h

/-- The two factors that stay. -/
theorem rs_pair (hc : cfg.Ok) (hx : TA cfg x) (hf : Tr f) (hg : Tr g) (hp : p ≠ 0) (hq : q ≠ 0) {f' g' : Fn} (hf' : Tr f') (hg' : Tr g') (hu : u ≠ 0) (hv : v ≠ 0)
    (h1 : Rs cfg S (fun E => contractTrigFctPowers E (tp f x p) (tp g x q)) [tp f' x u, tp g' x v])
    (h2 : Rs cfg S (fun E => contractTrigFctPowers E (tp f' x u) (tp g' x v)) [tp f' x u, tp g' x v])
    (h3 : Tot cfg (fun E => simplTwoFactors E (tp f' x u) (tp g' x v)) [tp f' x u, tp g' x v]) :
    Rs cfg S (fun E => prodCreate E [tp f x p, tp g x q]) (.prod [tp f' x u, tp g' x v]) := by
  refine rs_prod_two hp hq (tp_isConst hu) (tp_isConst hv) ?_ h3
  by_cases he : tp f' x u = tp f x p ∧ tp g' x v = tp g x q
  · rw [he.1, he.2] at h2 ⊢
    exact rs_contract_same (check hx hf hg hp hq) (hx.exact f hp) (hx.exact g hq) h2
  · refine rs_contract_two (check hx hf hg hp hq) (hx.exact f' hu) (hx.exact g' hv) ?_ h1 (check hx hf' hg' hu hv) h2
    rw [areEqual_pair, Bool.eq_false_iff]
    intro h
    rw [Bool.and_eq_true] at h
    apply he
    constructor
    · by_contra hne; rw [isEqual_ne (hx.exact f' hu) (hx.exact f hp) hne] at h; simp at h
    · by_contra hne; rw [isEqual_ne (hx.exact g' hv) (hx.exact g hq) hne] at h; simp at h

end prod

/-- The result of contractTrigFctPowers for integer exponents. -/
theorem con_all (hc : cfg.Ok) (hx : TA cfg x) (hf : Tr f) (hg : Tr g) (hp : p ≠ 0) (hpd : p.den = 1) (hq : q ≠ 0) (hqd : q.den = 1)
    (hu : u = es f p + es g q) (hv : v = ec f p + ec g q) (h0 : f = .tan → g = .tan → p + q ≠ 0)
    {S : Asg → Prop} (hS : ∀ σ, S σ → Cond.holds σ (.nz (.fn .cos x))) :
    Rs cfg S (fun E => contractTrigFctPowers E (tp f x p) (tp g x q)) (out x u v) := by
  have hpi : p.isInt = true := by simp [Rat.isInt, hpd]
  have ht : ∀ {f : Fn} {r}, f = .tan → (tp f x r = tp .tan x r) := by rintro f r rfl; rfl
  by_cases h : f = .tan ∨ g = .tan
  · refine con_tan hc hx hf hg h hp hpd hq hqd hu hv ?_ hS
    rintro ⟨h1, h2⟩
    rw [h1] at hu; rw [h2] at hv
    rcases hf with rfl | rfl | rfl <;> rcases hg with rfl | rfl | rfl <;> simp only [es, ec] at hu hv
    all_goals first
      | (simp at h; done)
      | (apply h0 rfl rfl; linarith)
      | (apply hp; linarith)
  · rcases hf with rfl | rfl | rfl <;> rcases hg with rfl | rfl | rfl <;> simp only [es, ec, add_zero, zero_add] at hu hv <;> first | (simp at h; done) | skip
    all_goals subst hu; subst hv
    · have := con_sin_sin (q := q) hc hx hp hq (S := S) (.inr (by simp [hpi]))
      simpa [same, hpi, out] using this
    · have := con_sin_cos hc hx hp hq hS
      simpa only [out, hp, hq, if_false] using this
    · have := con_cos_sin hc hx hp hq hS
      simpa only [out, hp, hq, if_false] using this
    · have := con_cos_cos (q := q) hc hx hp hq (S := S) (.inr (by simp [hpi]))
      have e : out x 0 (p + q) = [tp .cos x (p + q)] := by
        unfold out
        by_cases h : p + q = 0
        · simp [h, tp]
        · simp [h]
      rw [e]
      simpa [same, hpi] using this

/-- The product of two powers with integer exponents. -/
theorem rs_mul_int (hc : cfg.Ok) (hx : TA cfg x) (hf : Tr f) (hg : Tr g) (hp : p ≠ 0) (hpd : p.den = 1) (hq : q ≠ 0) (hqd : q.den = 1)
    (hu : u = es f p + es g q) (hv : v = ec f p + ec g q) (h0 : f = .tan → g = .tan → p + q ≠ 0)
    {S : Asg → Prop} (hS : ∀ σ, S σ → Cond.holds σ (.nz (.fn .cos x))) :
    Rs cfg S (fun E => prodCreate E [tp f x p, tp g x q]) (mk (out x u v)) := by
  have h := con_all hc hx hf hg hp hpd hq hqd hu hv h0 hS
  have one : ∀ {f' : Fn} {w : ℚ}, Tr f' → Rs cfg S (fun E => contractTrigFctPowers E (tp f x p) (tp g x q)) [tp f' x w] →
      Rs cfg S (fun E => prodCreate E [tp f x p, tp g x q]) (tp f' x w) := fun ht h =>
    rs_prod_one hc hp hq (tp_item' ht _) (rs_contract_one (check hx hf hg hp hq) h)
  unfold out pair at h ⊢
  by_cases h1 : v = 0
  · simp only [h1, if_true, mk] at h ⊢; exact one tSin h
  by_cases h2 : u = 0
  · simp only [h1, h2, if_true, if_false, mk] at h ⊢; exact one tCos h
  by_cases h3 : u = -v
  · simp only [h1, h2, h3, if_true, if_false, mk] at h ⊢
    have h4 : -v ≠ 0 := by simpa using h1
    simp only [neg_eq_zero, h1, if_false] at h ⊢; exact one tTan h
  · simp only [h1, h2, h3, if_true, if_false, mk] at h ⊢
    refine rs_pair hc hx hf hg hp hq tCos tSin h1 h2 h ?_ (tot_cos_sin hx h1 h2)
    have := con_cos_sin hc hx h1 h2 hS
    simpa only [pair, h3, if_false] using this

/-- Sine and cosine with rational exponents. -/
theorem rs_mul_sin_cos (hc : cfg.Ok) (hx : TA cfg x) (hp : p ≠ 0) (hq : q ≠ 0) {S : Asg → Prop} (hS : ∀ σ, S σ → Cond.holds σ (.nz (.fn .cos x))) :
    Rs cfg S (fun E => prodCreate E [tp .sin x p, tp .cos x q]) (mk (pair x p q)) ∧
    Rs cfg S (fun E => prodCreate E [tp .cos x q, tp .sin x p]) (mk (pair x p q)) := by
  have h := con_sin_cos hc hx hp hq hS
  have h' := con_cos_sin hc hx hq hp hS
  unfold pair at h h' ⊢
  by_cases h3 : p = -q
  · simp only [h3, if_true, mk] at h h' ⊢
    have hq' : -q ≠ 0 := by simpa using hq
    exact ⟨rs_prod_one hc hq' hq (tp_item' tTan _) (rs_contract_one (check hx tSin tCos hq' hq) h),
      rs_prod_one hc hq hq' (tp_item' tTan _) (rs_contract_one (check hx tCos tSin hq hq') h')⟩
  · simp only [h3, if_false, mk] at h h' ⊢
    exact ⟨rs_pair hc hx tSin tCos hp hq tCos tSin hq hp h h' (tot_cos_sin hx hq hp), rs_pair hc hx tCos tSin hq hp tCos tSin hq hp h' h' (tot_cos_sin hx hq hp)⟩

/-- Two powers of sine, or of cosine. -/
theorem rs_mul_same (hc : cfg.Ok) (hx : TA cfg x) (hp : p ≠ 0) (hq : q ≠ 0) {S : Asg → Prop} {e : ℚ} (hf : f = .sin ∧ e = 1 ∨ f = .cos ∧ e = -1)
    (hS : (∀ σ, ¬ S σ) ∨ ¬ (p.isInt = false ∧ p = -q)) :
    Rs cfg S (fun E => prodCreate E [tp f x p, tp f x q]) (mk (same f x e p q)) := by
  have ht : Tr f := by rcases hf with ⟨rfl, _⟩ | ⟨rfl, _⟩; exacts [tSin, tCos]
  have h : ∀ {p q : ℚ}, p ≠ 0 → q ≠ 0 → ((∀ σ, ¬ S σ) ∨ ¬ (p.isInt = false ∧ p = -q)) →
      Rs cfg S (fun E => contractTrigFctPowers E (tp f x p) (tp f x q)) (same f x e p q) := by
    intro p q hp hq hS
    rcases hf with ⟨rfl, rfl⟩ | ⟨rfl, rfl⟩
    · exact con_sin_sin hc hx hp hq hS
    · exact con_cos_cos hc hx hp hq hS
  have h1 := h hp hq hS
  have one : ∀ {f' : Fn} {w : ℚ}, Tr f' → Rs cfg S (fun E => contractTrigFctPowers E (tp f x p) (tp f x q)) [tp f' x w] →
      Rs cfg S (fun E => prodCreate E [tp f x p, tp f x q]) (tp f' x w) := fun hh h =>
    rs_prod_one hc hp hq (tp_item' hh _) (rs_contract_one (check hx ht ht hp hq) h)
  by_cases hk : p.isInt = false ∧ q.isInt = false ∧ (p + q).isInt = true
  · by_cases h2 : p = -q
    · have e1 : same f x e p q = [tp .tan x (e * p)] := by rw [same, if_pos hk, if_pos h2]
      rw [e1] at h1 ⊢
      exact one tTan h1
    · have e1 : same f x e p q = ordered (tp f x p) (tp f x q) := by rw [same, if_pos hk, if_neg h2]
      rw [e1] at h1 ⊢
      have h2' : q ≠ -p := fun hh => h2 (by rw [hh, neg_neg])
      have hk' : q.isInt = false ∧ p.isInt = false ∧ (q + p).isInt = true := ⟨hk.2.1, hk.1, by rw [add_comm]; exact hk.2.2⟩
      unfold ordered at h1 ⊢
      rw [hx.order_same f hp hq] at h1 ⊢
      by_cases h3 : q < p
      · simp only [h3, decide_true, if_true] at h1 ⊢
        have h4 := h hq hp (.inr fun hh => h2' hh.2)
        rw [same, if_pos hk', if_neg h2', ordered, hx.order_same f hq hp] at h4
        simp only [not_lt.2 h3.le, decide_false, Bool.false_eq_true, if_false] at h4
        exact rs_pair hc hx ht ht hp hq ht ht hq hp h1 h4 (tot_kept hx ht hq hp hk'.1 hk'.2.1 hk'.2.2)
      · simp only [h3, decide_false, Bool.false_eq_true, if_false] at h1 ⊢
        exact rs_pair hc hx ht ht hp hq ht ht hp hq h1 h1 (tot_kept hx ht hp hq hk.1 hk.2.1 hk.2.2)
  · have e1 : same f x e p q = [tp f x (p + q)] := by rw [same, if_neg hk]
    rw [e1] at h1 ⊢
    exact one ht h1

/-- The tangent times its inverse. -/
theorem out_mul_ub (hc : cfg.Ok) (hx : TA cfg x) (hp : p ≠ 0) (hpd : p.den = 1) :
    LinE.Out cfg (fun E => prodCreate E [tp .tan x p, tp .tan x (-p)]) (.error .ub) := by
  have hq : -p ≠ 0 := by simpa using hp
  simp only [prodCreate, List.any_cons, List.any_nil, tp_isUndefined hp, tp_isUndefined hq, tp_isZero hp, tp_isZero hq, Bool.or_self, Bool.false_eq_true,
    if_false]
  have err : ∀ {α β : Type} {f : Eng D → M D α} {g : Eng D → α → M D β}, LinE.Out cfg f (.error .ub) →
      LinE.Out cfg (fun E => f E >>= g E) (.error .ub) := by
    rintro α β f g ⟨N, hN⟩
    refine ⟨N, fun n hn => ?_⟩
    have := hN n hn
    dsimp only
    cases hfn : f (eng cfg n) with
    | error e => rw [hfn] at this; cases this; rfl
    | ok a => rw [hfn] at this; cases this
  refine err ?_
  suffices h : LinE.Out cfg (fun E => simplProd E [tp .tan x p, tp .tan x (-p)]) (.error .ub) by
    obtain ⟨N, hN⟩ := h
    refine ⟨N + 1, fun n hn => ?_⟩
    obtain ⟨m, rfl⟩ : ∃ m, n = m + 1 := ⟨n - 1, by omega⟩
    exact hN m (by omega)
  unfold simplProd
  refine LinE.out_bind_ok (.of_tot (tot_extract_two (tp_isProduct hp) (tp_isProduct hq))) (err ?_)
  unfold contractTrigonometrics contract
  simp only [contractStart]
  obtain ⟨N, hN⟩ := con_ub hc hx hp hpd
  refine ⟨N + 1, fun n hn => ?_⟩
  have hc1 : ∃ e, contractTrigFctPowers (eng cfg n) (tp .tan x p) (tp .tan x (-p)) = .error e ∧ e = .ub := by
    have := hN n (by omega)
    dsimp only at this
    cases hfn : contractTrigFctPowers (eng cfg n) (tp .tan x p) (tp .tan x (-p)) with
    | error e => rw [hfn] at this; exact ⟨e, rfl, by cases this; rfl⟩
    | ok a => rw [hfn] at this; cases this
  obtain ⟨e, h1, rfl⟩ := hc1
  obtain ⟨m, hm⟩ : ∃ m, (eng cfg n).steps = m + 1 := ⟨(eng cfg n).steps - 1, by rw [eng_steps]; omega⟩
  dsimp only
  rw [hm]
  simp only [M.loop, contractStep, check hx tTan tTan hp hq]
  have e : ∀ {β : Type} (g : Bool → M D β), ((pure true : M D Bool) >>= g) = g true := by
    intro β g
    change M.bind _ _ = _
    unfold M.bind
    cases hg : g true with
    | error e => simp [pure, M.pure, hg]; rfl
    | ok a => simp [pure, M.pure, hg]; rfl
  rw [e]
  simp only [if_true]
  rw [h1]
  rfl

end

end TrigProd

end Tsym
