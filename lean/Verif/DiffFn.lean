import Verif.Pyth
import Verif.TrigMul
import Verif.ArcThm

set_option autoImplicit false
set_option linter.unusedSectionVars false
set_option linter.unusedSimpArgs false
set_option linter.unusedVariables false

/-!
# Derivatives of functions of a symbol, helpers for C82
-/

namespace Tsym

namespace Dfn

open Expr TrigProd Arc

variable {D : Type} [Flt D] [LawfulFlt D] {cfg : Cfg D}

/-- A factor that is neither a number nor a product. -/
structure At (x : Expr D) : Prop where
  undef : x.isUndefined = false
  zero : x.isZero = false
  one : x.isOne = false
  prod : x.isProduct = false
  const : x.isConst = false
  sum : x.isSum = false
  item : GItem x
  pr : ∀ n : Number D, areContractableTrigFctPowers x (.num n) = pure false
  perm : ∀ n : Number D, doPermute (.num n) x = false
  base : ∀ n : Number D, isEqual (.num n) x.base = false
  base' : ∀ n : Number D, isEqual x.base (.num n) = false
  num : x.isNumeric = false

theorem one_num : (one : Expr D) = .num 1 := rfl

theorem o1 : (one : Expr D).isZero = false := by rw [one_eq, isZero_ratE]; decide

theorem tot_one_right {x : Expr D} (h3 : x.isUndefined = false) (h4 : x.isZero = false) (h5 : x.isOne = false) (h6 : x.isProduct = false)
    (h7 : areContractableTrigFctPowers x (one : Expr D) = pure false) : Tot cfg (fun E => prodCreate E [x, one]) x := by
  have h1 : [x, one].any isUndefined = false := by simp only [List.any_cons, List.any_nil, h3]; rfl
  have h2 : [x, one].any Expr.isZero = false := by simp only [List.any_cons, List.any_nil, h4, o1]; rfl
  simp only [prodCreate, h1, h2, Bool.false_eq_true, if_false]
  refine tot_bind (a := [x]) (tot_prodSimplify ?_) (tot_pure _)
  unfold simplProd
  refine tot_bind (tot_extract_two h6 rfl) (tot_bind (a := [x, one]) (tot_contract_pw ?_) ?_)
  · simp only [List.pairwise_cons, List.mem_singleton, forall_eq, List.not_mem_nil, false_implies, implies_true, List.Pairwise.nil, and_true]
    exact h7
  · simp only [simplTwoFactors, h6, show (one : Expr D).isProduct = false from rfl, Bool.or_self, Bool.false_eq_true, if_false, simplTwoFactorsWithoutProduct, h5,
      show (one : Expr D).isOne = true from isOne_one, if_true]
    exact tot_pure _

theorem tot_x_one {x : Expr D} (hx : At x) : Tot cfg (fun E => prodCreate E [x, one]) x := tot_one_right hx.undef hx.zero hx.one hx.prod (hx.pr 1)

theorem tot_sum_one (l : List (Expr D)) : Tot cfg (fun E => prodCreate E [.sum l, one]) (.sum l) := tot_one_right rfl rfl rfl rfl rfl

theorem two_factors {x : Expr D} (hx : At x) {a : ℚ} (ha : a ≠ 1) : Tot cfg (fun E => simplTwoFactors E (num (.rat a)) x) [num (.rat a), x] := by
  have o : (num (.rat a) : Expr D).isOne = false := by rw [isOne_ratE]; simpa using ha
  simp only [simplTwoFactors, hx.prod, show (num (.rat a) : Expr D).isProduct = false from rfl, Bool.or_self, Bool.false_eq_true, if_false, simplTwoFactorsWithoutProduct, hx.one, o,
    hx.const, Bool.and_false, haveEqualBases, show isEqual (num (.rat a) : Expr D).base x.base = false from hx.base _, ordered, hx.perm]
  exact tot_pure _

theorem need {x : Expr D} (hx : At x) (a : ℚ) : needsExpansion [num (.rat a), x] = false := by
  have h : (num (.rat a) : Expr D).isConst = true := rfl
  have h' : (num (.rat a) : Expr D).isSum = false := rfl
  simp [needsExpansion, constElements, nonConstElements, hx.const, hx.sum, h, h', List.filter_cons]

theorem tot_num_x {x : Expr D} (hx : At x) {a : ℚ} (h0 : a ≠ 0) (ha : a ≠ 1) : Tot cfg (fun E => prodCreate E [num (.rat a), x]) (.prod [num (.rat a), x]) := by
  have h1 : [num (.rat a), x].any isUndefined = false := by simp only [List.any_cons, List.any_nil, hx.undef]; rfl
  have h2 : [num (.rat a), x].any Expr.isZero = false := by simp only [List.any_cons, List.any_nil, hx.zero, isZero_ratE, h0]; rfl
  simp only [prodCreate, h1, h2, Bool.false_eq_true, if_false]
  refine tot_bind (a := [num (.rat a), x]) (tot_prodSimplify ?_) ?_
  · unfold simplProd
    refine tot_bind (tot_extract_two rfl hx.prod) (tot_bind (a := [num (.rat a), x]) (tot_contract_pw ?_) (two_factors hx ha))
    simp only [List.pairwise_cons, List.mem_singleton, forall_eq, List.not_mem_nil, false_implies, implies_true, List.Pairwise.nil, and_true]
    exact num_trig_pair _ _
  · simp only [need hx, Bool.false_eq_true, if_false]; exact tot_pure _

theorem factors_at {x : Expr D} (hx : x.isProduct = false) : factors x = [x] := by
  cases x <;> first | rfl | simp [isProduct] at hx

/-- A multiple times one. -/
theorem tot_prod_one (hc : cfg.Ok) {x : Expr D} (hx : At x) {a : ℚ} (h0 : a ≠ 0) (ha : a ≠ 1) :
    Tot cfg (fun E => prodCreate E [.prod [num (.rat a), x], one]) (.prod [num (.rat a), x]) := by
  have h1 : [.prod [num (.rat a), x], one].any isUndefined = false := rfl
  have h2 : [.prod [num (.rat a), x], one].any Expr.isZero = false := by simp only [List.any_cons, List.any_nil, o1]; rfl
  simp only [prodCreate, h1, h2, Bool.false_eq_true, if_false]
  refine tot_bind (a := [num (.rat a), x]) (tot_prodSimplify ?_) ?_
  · unfold simplProd
    refine tot_bind (a := [num (.rat a), x, one]) ?_ (tot_bind (a := [num (.rat a), x, one]) (tot_contract_pw ?_) ?_)
    · have := tot_extract (cfg := cfg) (u := [.prod [num (.rat a), x], one]) (by
        intro l hl
        simp only [List.mem_cons, List.not_mem_nil, or_false, Expr.prod.injEq] at hl
        rcases hl with rfl | h
        · intro m hm
          simp only [List.mem_cons, List.not_mem_nil, or_false] at hm
          rcases hm with h | h
          · subst h; rfl
          · subst h; exact hx.prod
        · cases h)
      exact this
    · simp only [List.pairwise_cons, List.mem_cons, forall_eq_or_imp, List.not_mem_nil, false_implies, implies_true, List.Pairwise.nil, and_true]
      exact ⟨⟨num_trig_pair _ _, num_trig_pair _ _⟩, hx.pr 1⟩
    · obtain ⟨P, p1, p2⟩ := tot_prepare_gen hc (cfg := cfg) (l := [num (.rat a), x, one]) (by
        simp only [List.mem_cons, List.not_mem_nil, or_false, forall_eq_or_imp, forall_eq]
        exact ⟨.inl ⟨_, rfl⟩, hx.item, .inl ⟨1, one_eq⟩⟩)
      have hf : ([num (.rat a), x, one] : List (Expr D)).filter (fun e => !e.isNumeric) = [x] := by
        rw [List.filter_cons_of_neg (by simp [isNumeric]), List.filter_cons_of_pos (by simp [hx.num]), List.filter_cons_of_neg (by simp [one_eq, isNumeric]), List.filter_nil]
      rw [hf] at p1
      have hP := List.perm_singleton.1 p1
      have hq : qs ([num (.rat a), x, one] : List (Expr D)) = a := by
        have : qOf x = 1 := by
          have := hx.num
          cases x <;> first | rfl | simp [isNumeric] at this
        have h2 : qOf (num (.rat a) : Expr D) = a := rfl
        have h3 : qOf (one : Expr D) = 1 := by rw [one_eq]; rfl
        simp [qs, this, h2, h3]
      rw [hq, hP, if_pos (.inl ha)] at p2
      refine tot_bind p2 ?_
      exact two_factors hx ha
  · simp only [need hx, Bool.false_eq_true, if_false]; exact tot_pure _

theorem tot_oneOver_one : Tot cfg (fun E => E.oneOver (one : Expr D)) one := by
  unfold Eng.oneOver
  refine tot_pow ?_
  have e2 : (mOne : Expr D).isZero = false := by rw [mOne_rat, isZero_ratE]; decide +kernel
  simp only [powCreate, show (mOne : Expr D).isUndefined = false from rfl, show (one : Expr D).isUndefined = false from rfl, Bool.or_self, Bool.false_eq_true, if_false, e2,
    show (one : Expr D).isOne = true from isOne_one, Bool.or_true, if_true]
  exact tot_pure _

/-- A quotient with the denominator one. -/
theorem tot_evalFrac {x : Expr D} (h : Tot cfg (fun E => prodCreate E [x, one]) x) : Tot cfg (fun E => evalFrac E ⟨x, one⟩) x := by
  unfold evalFrac
  exact tot_bind tot_oneOver_one (tot_prod h)

/-! ## Functions of a symbol -/

variable {s : Sym}

/-- All functions but the logarithm. -/
theorem at_fn (f : Fn) (s : Sym) : At (.fn f (.sym s) : Expr D) where
  undef := rfl
  zero := rfl
  one := rfl
  prod := rfl
  const := by simp [Expr.isConst]
  sum := rfl
  item := GItem.fn f _
  pr n := by
    cases f <;> rfl
  perm n := by rw [doPermute_eq]; rfl
  base n := rfl
  base' n := rfl
  num := rfl

theorem at_sym (s : Sym) : At (.sym s : Expr D) where
  undef := rfl
  zero := rfl
  one := rfl
  prod := rfl
  const := by simp [Expr.isConst]
  sum := rfl
  item := .inr ⟨rfl, by simp [isContractableConst, isConst], rfl⟩
  pr n := rfl
  perm n := by rw [doPermute_eq]; rfl
  base n := rfl
  base' n := rfl
  num := rfl

theorem at_rt {W : Expr D} {p : Bool} (h : GW cfg W p) (q : ℚ) : At (rt W q) where
  undef := rfl
  zero := rfl
  one := rfl
  prod := rfl
  const := (h.fc q).const
  sum := rfl
  item := .inr ⟨rfl, by have := (h.fc q).const; simp only [isContractableConst, this]; rfl, by obtain ⟨l, rfl⟩ := h.sum; rfl⟩
  pr n := (h.fc q).check _
  perm n := by rw [doPermute_eq]; rfl
  base n := by obtain ⟨l, rfl⟩ := h.sum; rfl
  base' n := by obtain ⟨l, rfl⟩ := h.sum; rfl
  num := rfl

theorem exact_fn (f : Fn) (s : Sym) : Exact (.fn f (.sym s) : Expr D) := exact_of_op (by simp) (by simp) (by simpa [operands] using exact_sym s)

/-- The symbol for the function. -/
def fsym (cfg : Cfg D) (f : Fn) (s : Sym) (p : Bool) (A : List Nat) : Sym := ⟨.tmp (cfg.fresh (A ++ (.fn f (.sym s) : Expr D).tmpIds)), p⟩

theorem fsym_ne (hc : cfg.Ok) (f : Fn) (s : Sym) (p : Bool) (A : List Nat) : s ≠ fsym cfg f s p A := by
  intro e
  have := hc.fresh (A ++ (.fn f (.sym s) : Expr D).tmpIds)
  simp only [List.mem_append, not_or] at this
  refine this.2 ?_
  refine mem_tmpIds _ s (.op (o := .sym s) (show Expr.sym s ∈ [Expr.sym s] by simp) .refl) _ ?_
  have : s.id = .tmp (cfg.fresh (A ++ (.fn f (.sym s) : Expr D).tmpIds)) := congrArg Sym.id e
  simp [Sym.tmpId, this]

theorem tot_trig_s (hs : s.id.Ok) (f : Fn) : Tot cfg (fun E => E.trigCreate f (.sym s)) (.fn f (.sym s) : Expr D) := tot_trig ((TA.sym hs).trig f)

theorem tot_pos_fn {f : Fn} (hf : f = .sin ∨ f = .cos ∨ f = .tan) : Tot cfg (fun E => isPos E (.fn f (.sym s) : Expr D)) false := by
  have : ∀ E : Eng D, isPos E (.fn f (.sym s)) = evalIsPos (.fn f (.sym s)) := by rcases hf with rfl | rfl | rfl <;> (intro E; rfl)
  simp only [this, evalIsPos]
  exact tot_bind (tot_lift (Pyth.numEval_fn (by simp [numEval, pure, Except.pure]) f)) (tot_pure _)

theorem tot_neg_fn {f : Fn} (hf : f = .sin ∨ f = .cos ∨ f = .tan) : Tot cfg (fun E => isNeg E (.fn f (.sym s) : Expr D)) false := by
  have : ∀ E : Eng D, isNeg E (.fn f (.sym s)) = evalIsNeg (.fn f (.sym s)) := by rcases hf with rfl | rfl | rfl <;> (intro E; rfl)
  simp only [this, evalIsNeg]
  exact tot_bind (tot_lift (Pyth.numEval_fn (by simp [numEval, pure, Except.pure]) f)) (tot_pure _)

theorem tot_normal_sym (hc : cfg.Ok) (hs : s.id.Ok) : Tot cfg (fun E => E.normal (.sym s)) (.sym s : Expr D) :=
  tot_normal_one hc (EP.sym hs) fun m => tot_normalFrac_ep hc (EP.sym hs) (dv_sym s) m

/-- The quotient for a function. -/
theorem frac_fn (hc : cfg.Ok) (hs : s.id.Ok) {f : Fn} (hf : f = .sin ∨ f = .cos ∨ f = .tan) (A : List Nat) :
    Tot cfg (fun E => E.normalFrac (.fn f (.sym s)) ⟨[], A⟩) (⟨.sym (fsym cfg f s false A), one⟩, ⟨[(.fn f (.sym s), fsym cfg f s false A)], A⟩) := by
  refine tot_succ (fun _ => rfl) (f := fun E => normalFrac E (.fn f (.sym s)) ⟨[], A⟩) ?_
  have : ∀ E : Eng D, normalFrac E (.fn f (.sym s)) ⟨[], A⟩ = (do
    let a' ← E.normal (.sym s)
    let x ← E.trigCreate f a'
    let t ← getTmp E x ⟨[], A⟩
    pure (⟨t.1, one⟩, t.2)) := by rcases hf with rfl | rfl | rfl <;> (intro E; rfl)
  simp only [this]
  refine tot_bind (tot_normal_sym hc hs) (tot_bind (tot_trig_s hs f) (tot_bind (a := (.sym (fsym cfg f s false A), ⟨[(.fn f (.sym s), fsym cfg f s false A)], A⟩)) ?_ (tot_pure _)))
  unfold Tsym.getTmp
  simp only [SMap.lookup, List.find?_nil]
  refine tot_bind (tot_whenTrue (tot_isPos (tot_pos_fn hf))) ?_
  exact ⟨0, fun n _ => by simp only [eng_cfg', SMap.used, List.flatMap_nil, List.append_nil]; rfl⟩

/-- The function does not change if a symbol that does not occur is replaced. -/
theorem subst_fn (hs : s.id.Ok) {f : Fn} (hf : f ≠ .log) {t : Sym} (h : s ≠ t) (r : Expr D) :
    Tot cfg (fun E => subst E (.sym t) r (.fn f (.sym s))) (.fn f (.sym s)) := by
  have : ∀ E : Eng D, subst E (.sym t) r (.fn f (.sym s)) = (do
    let a' ← E.subst (.sym t) r (.sym s)
    E.trigCreate f a') := by cases f <;> first | exact absurd rfl hf | (intro E; rfl)
  simp only [this]
  exact tot_bind (tot_subst (subst_sym_ne h r)) (tot_trig_s hs f)

/-- Two rounds of replacing. -/
theorem tot_back_two (hc : cfg.Ok) {r e e' : Expr D} {t : Sym} (h1 : Tot cfg (fun E => subst E (.sym t) r e) e') (h2 : Tot cfg (fun E => subst E (.sym t) r e') e')
    (hne : isEqual e' e = false) (hu : e'.isUndefined = false) (hx : Exact e') : Tot cfg (fun E => replaceBack E [(r, t)] e) e' := by
  unfold replaceBack
  refine tot_loop (.next _ e' (tot_bind (tot_pass hc h1) ?_) (.done _ (tot_bind (a := e') (tot_pass hc h2) ?_)))
  · simp only [hu, hne, Bool.not_false, Bool.false_eq_true, if_false, if_true]
    exact tot_pure _
  · simp only [hu, (isEqual_eq _ hx _ hx).2 rfl, Bool.not_true, Bool.false_eq_true, if_false]
    exact tot_pure _

theorem back_one (hc : cfg.Ok) (r : Expr D) (t : Sym) : Tot cfg (fun E => replaceBack E [(r, t)] one) one :=
  tot_back hc (by rw [one_eq]; exact exact_ratE 1) rfl (by rw [one_eq]; exact subst_num _ _ _)

/-- The normal form of a function. -/
theorem normal_fn (hc : cfg.Ok) (hs : s.id.Ok) {f : Fn} (hf : f = .sin ∨ f = .cos ∨ f = .tan) :
    Tot cfg (fun E => E.normal (.fn f (.sym s))) (.fn f (.sym s) : Expr D) := by
  have hl : f ≠ .log := by rcases hf with rfl | rfl | rfl <;> decide
  refine tot_succ (fun _ => rfl) (f := fun E => normal E (.fn f (.sym s))) ?_
  unfold normal
  refine tot_bind (tot_capture (frac_fn hc hs hf _)) (tot_bind (tot_capture (tot_back_two hc (subst_self _ _) (subst_fn hs hl (fsym_ne hc f s _ _) _) rfl rfl (exact_fn f s)))
    (tot_bind (tot_capture (back_one hc _ _)) (tot_bind tot_emit (tot_evalFrac (tot_x_one (at_fn f s))))))

/-- Expansion of a multiple. -/
theorem zero_prod {x : Expr D} (hx : At x) (hp : Tot cfg (fun E => expand E x) x) {a : ℚ} (h0 : a ≠ 0) (ha : a ≠ 1) :
    Tot cfg (fun E => expandsToZero E (.prod [num (.rat a), x])) false := by
  unfold expandsToZero
  refine tot_whenTrue (tot_bind (a := .prod [num (.rat a), x]) (tot_expand ?_) (tot_pure _))
  simp only [expand]
  refine tot_succ (fun _ => rfl) (f := fun E => expandAsProduct E [num (.rat a), x]) ?_
  unfold expandAsProduct
  refine tot_bind (a := ([num (.rat a), x], [])) ?_ ?_
  · simp only [defScalarAndSums]
    refine tot_bind (tot_expand (tot_pure _)) (tot_bind (tot_bind (tot_expand hp) (tot_bind (tot_pure _) (tot_pure _))) ?_)
    simp only [hx.sum, show (num (.rat a) : Expr D).isSum = false from rfl, Bool.false_eq_true, if_false]
    exact tot_pure _
  · simp only [List.isEmpty_cons, Bool.false_eq_true, if_false]
    exact tot_bind (tot_prod (tot_num_x hx h0 ha)) (tot_pure _)

theorem substList_two {x r a b a' b' : Expr D} (h1 : Tot cfg (fun E => subst E x r a) a') (h2 : Tot cfg (fun E => subst E x r b) b') :
    Tot cfg (fun E => substList E x r [a, b]) [a', b'] := by
  simp only [substList]
  exact tot_bind (tot_subst h1) (tot_bind (tot_bind (tot_subst h2) (tot_bind (tot_pure _) (tot_pure _))) (tot_pure _))

theorem exact_prod {x : Expr D} (a : ℚ) (h : Exact x) : Exact (.prod [num (.rat a), x]) :=
  exact_of_op (by simp) (by simp) (by simpa [operands] using ⟨exact_ratE a, h⟩)

theorem mOne_ne0 : (-1 : ℚ) ≠ 0 := by norm_num
theorem mOne_ne1 : (-1 : ℚ) ≠ 1 := by norm_num

theorem frac_mOne (m : SMap D) : Tot cfg (fun E => E.normalFrac (num (.rat (-1))) m) (⟨num (.rat (-1)), one⟩, m) := by
  have := tot_normalFrac_num (D := D) (cfg := cfg) (-1) m
  simp only [fr, show (-1 : ℚ).num = -1 by decide +kernel, show (-1 : ℚ).den = 1 by decide +kernel] at this
  simpa [Expr.int, one_eq] using this

theorem tot_one_one (hc : cfg.Ok) : Tot cfg (fun E => E.prodCreate [one, one]) (one : Expr D) := by
  have := tot_prod_nums hc (cfg := cfg) (D := D) 1 1
  rwa [mul_one, ← one_eq] at this

/-- The normal form of the opposite of a function. -/
theorem normal_minus (hc : cfg.Ok) (hs : s.id.Ok) {f : Fn} (hf : f = .sin ∨ f = .cos ∨ f = .tan) :
    Tot cfg (fun E => E.normal (.prod [num (.rat (-1)), .fn f (.sym s)])) (.prod [num (.rat (-1)), .fn f (.sym s)] : Expr D) := by
  have hl : f ≠ .log := by rcases hf with rfl | rfl | rfl <;> decide
  refine tot_succ (fun _ => rfl) (f := fun E => normal E (.prod [num (.rat (-1)), .fn f (.sym s)])) ?_
  unfold normal
  generalize hA : (Expr.prod [num (.rat (-1)), .fn f (.sym s)] : Expr D).tmpIds = A
  refine tot_bind (tot_capture (a := (⟨.prod [num (.rat (-1)), .sym (fsym cfg f s false A)], one⟩, ⟨[(.fn f (.sym s), fsym cfg f s false A)], A⟩)) ?_)
    (tot_bind (tot_capture (tot_back_two hc (e' := .prod [num (.rat (-1)), .fn f (.sym s)]) ?_ ?_ ?_ rfl (exact_prod _ (exact_fn f s))))
      (tot_bind (tot_capture (back_one hc _ _)) (tot_bind tot_emit (tot_evalFrac (tot_prod_one hc (at_fn f s) mOne_ne0 mOne_ne1)))))
  · refine tot_succ (fun _ => rfl) (f := fun E => normalFrac E (.prod [num (.rat (-1)), .fn f (.sym s)]) ⟨[], A⟩) ?_
    simp only [normalFrac]
    refine tot_bind (zero_prod (at_fn f s) (tot_pure _) mOne_ne0 mOne_ne1) ?_
    simp only [Bool.false_eq_true, if_false]
    refine tot_bind (a := ([⟨num (.rat (-1)), one⟩, ⟨.sym (fsym cfg f s false A), one⟩], ⟨[(.fn f (.sym s), fsym cfg f s false A)], A⟩)) ?_ ?_
    · simp only [normalOperands]
      exact tot_bind (frac_mOne _) (tot_bind (tot_bind (frac_fn hc hs hf A) (tot_bind (tot_pure _) (tot_pure _))) (tot_pure _))
    · simp only [List.map_cons, List.map_nil]
      refine tot_bind (tot_prod (tot_num_x (at_sym _) mOne_ne0 mOne_ne1)) (tot_bind (tot_one_one hc) ?_)
      simp only [cancel, show (one : Expr D).isOne = true from isOne_one, if_true]
      exact tot_bind (tot_pure _) (tot_pure _)
  · have : isEqual (.prod [num (.rat (-1)), .sym (fsym cfg f s false A)]) (.sym (fsym cfg f s false A) : Expr D) = false := rfl
    simp only [Tsym.subst, this, Bool.false_eq_true, if_false]
    exact tot_bind (substList_two (subst_num _ _ _) (subst_self _ _)) (tot_prod (tot_num_x (at_fn f s) mOne_ne0 mOne_ne1))
  · have : isEqual (.prod [num (.rat (-1)), .fn f (.sym s)]) (.sym (fsym cfg f s false A) : Expr D) = false := rfl
    simp only [Tsym.subst, this, Bool.false_eq_true, if_false]
    exact tot_bind (substList_two (subst_num _ _ _) (subst_fn hs hl (fsym_ne hc f s _ _) _)) (tot_prod (tot_num_x (at_fn f s) mOne_ne0 mOne_ne1))
  · rw [Bool.eq_false_iff]; intro h
    have := (isEqual_eq _ (exact_prod _ (exact_fn f s)) _ (exact_prod _ (exact_sym _))).1 h
    simp at this

/-! ## The derivative of the tangent -/

/-- The square of a function. -/
abbrev fq (f : Fn) (s : Sym) : Expr D := .pow (.fn f (.sym s)) (.num (.rat 2))

theorem tot_fq {f : Fn} (hf : f = .sin ∨ f = .cos ∨ f = .tan) : Tot cfg (fun E => powCreate E (.fn f (.sym s)) (num (.rat 2))) (fq f s : Expr D) := by
  have e2 : (num (.rat 2) : Expr D).isZero = false := by rw [isZero_ratE]; decide
  have e3 : (num (.rat 2) : Expr D).isOne = false := by rw [isOne_ratE]; decide
  simp only [powCreate, show (num (.rat 2) : Expr D).isUndefined = false from rfl, show (fn f (.sym s) : Expr D).isUndefined = false from rfl, Bool.or_self, Bool.false_eq_true, if_false, e2,
    show (fn f (.sym s) : Expr D).isOne = false from rfl, show (fn f (.sym s) : Expr D).isZero = false from rfl, e3, powCreateNonTrivial]
  refine tot_bind (a := (.fn f (.sym s), num (.rat 2))) (tot_simplPow ?_) ?_
  · unfold Tsym.simplPow
    refine tot_bind (Qf.tot_noComplex (tot_neg_fn hf) (.inr rfl)) ?_
    simp only [Bool.false_eq_true, if_false]; exact tot_pure _
  simp only [e3, show (fn f (.sym s) : Expr D).isOne = false from rfl, Bool.false_eq_true, if_false]
  exact tot_pure _

theorem tot_one_fq (f : Fn) : Tot cfg (fun E => sumCreate E [one, fq f s]) (.sum [one, fq f s] : Expr D) := by
  have := Pyth.tot_num_sum (cfg := cfg) (x := (.sym s : Expr D)) (p := 1) (a := 1) one_ne_zero one_ne_zero f
  simp only [Pyth.tm, one_ne_zero, if_false, if_true] at this
  rw [one_eq]; exact this

theorem exact_fq (f : Fn) (s : Sym) : Exact (fq f s : Expr D) := exact_of_op (by simp) (by simp) (by simpa [operands] using ⟨exact_fn f s, exact_ratE 2⟩)

theorem frac_fq (hc : cfg.Ok) (hs : s.id.Ok) {f : Fn} (hf : f = .sin ∨ f = .cos ∨ f = .tan) (A : List Nat) :
    Tot cfg (fun E => E.normalFrac (fq f s) ⟨[], A⟩) (⟨sq (fsym cfg f s false A), one⟩, ⟨[(.fn f (.sym s), fsym cfg f s false A)], A⟩) := by
  refine tot_succ (fun _ => rfl) (f := fun E => normalFrac E (fq f s) ⟨[], A⟩) ?_
  simp only [normalFrac, normalPow]
  have hn : Tot cfg (fun E => E.normal (num (.rat 2))) (num (.rat 2) : Expr D) := by
    have := tot_normal_int hc (cfg := cfg) (D := D) 2
    simpa [Expr.int] using this
  refine tot_bind (frac_fn hc hs hf A) (tot_bind hn (tot_bind (a := false) ?_ ?_))
  · unfold isBaseOrExpUndefined
    simp only [show ∀ t, (Expr.sym t : Expr D).isUndefined = false from fun _ => rfl, show (one : Expr D).isUndefined = false from rfl, o1, Bool.or_self, Bool.false_eq_true, if_false]
    refine tot_bind (a := false) ?_ (tot_pure _)
    unfold expandsToZero
    refine tot_whenTrue (tot_bind (tot_expand (tot_expand_ep hc (by rw [one_eq]; exact EP.num 1))) ?_)
    simp only [o1]; exact tot_pure _
  simp only [Bool.false_eq_true, if_false, numEval_rat]
  refine tot_bind (tot_lift rfl) ?_
  have hi : (Number.rat 2 : Number D).isInt = true := by simpa using Number.rat_isInt (D := D) 2
  have ha : (Number.rat 2 : Number D).abs = .rat 2 := by
    unfold Number.abs; rw [show (Number.rat 2 : Number D).lt 0 = false by rw [Number.zero_def, lt_rat]; decide +kernel]
    rfl
  have hg : Number.lt 0 (Number.rat 2 : Number D) = true := by rw [Number.zero_def, lt_rat]; decide +kernel
  simp only [hi, if_true, normalIntegerExp, ha, hg]
  refine tot_bind (tot_bind (a := sq (fsym cfg f s false A)) ?_ (tot_bind (a := one) (tot_pow ?_) (tot_pure _))) (tot_pure _)
  · have := tot_square (cfg := cfg) (D := D) (fsym cfg f s false A)
    unfold square at this
    rwa [two_rat] at this
  · have e2 : (num (.rat 2) : Expr D).isZero = false := by rw [isZero_ratE]; simp
    simp only [powCreate, rat_isUndefined, show (one : Expr D).isUndefined = false from rfl, Bool.or_self, Bool.false_eq_true, if_false, e2,
      show (one : Expr D).isOne = true from isOne_one, Bool.or_true, if_true]
    exact tot_pure _

theorem sum_Wp (hc : cfg.Ok) {t : Sym} (ht : t.id.Ok) : Tot cfg (fun E => sumCreate E [one, sq t]) (Wp t : Expr D) := by
  have e1 : EP (one : Expr D) := by rw [one_eq]; exact EP.num 1
  obtain ⟨r, r1, r2, r3⟩ := tot_sum_ep hc (cfg := cfg) (es := [one, sq t]) (by simp) (by simp [e1, ep_sq ht])
  have : r = Wp t := r2.unique (ep_Wp ht) (by
    rw [r3, poly_Wp]; simp only [List.map_cons, List.map_nil, List.sum_cons, List.sum_nil, poly_sq]; rw [one_eq, poly_ratE]; simp)
  rw [← this]; exact r1

theorem frac_one (m : SMap D) : Tot cfg (fun E => E.normalFrac one m) (⟨(one : Expr D), one⟩, m) := by
  have := tot_normalFrac_num (D := D) (cfg := cfg) 1 m
  simp only [fr, show (1 : ℚ).num = 1 by decide +kernel, show (1 : ℚ).den = 1 by decide +kernel] at this
  simpa [Expr.int, one_eq] using this

theorem expand_fq {f : Fn} (hf : f = .sin ∨ f = .cos ∨ f = .tan) : Tot cfg (fun E => expand E (fq f s)) (fq f s : Expr D) := by
  simp only [expand]
  refine tot_bind (tot_lift (Qf.isInteger_rat _)) ?_
  rw [show decide ((2 : ℚ).den = 1) = true by decide +kernel]
  simp only [if_true]
  exact tot_pow (tot_fq hf)

/-- The normal form of one plus the square of a function. -/
theorem normal_one_fq (hc : cfg.Ok) (hs : s.id.Ok) {f : Fn} (hf : f = .sin ∨ f = .cos ∨ f = .tan) :
    Tot cfg (fun E => E.normal (.sum [one, fq f s])) (.sum [one, fq f s] : Expr D) := by
  have hl : f ≠ .log := by rcases hf with rfl | rfl | rfl <;> decide
  have ex : Exact (.sum [one, fq f s] : Expr D) := exact_of_op (by simp) (by simp) (by
    simp only [operands, List.mem_cons, List.not_mem_nil, or_false, forall_eq_or_imp, forall_eq]
    exact ⟨by rw [one_eq]; exact exact_ratE 1, exact_fq f s⟩)
  have sn : ∀ (t : Sym) (r : Expr D), Tot cfg (fun E => subst E (.sym t) r one) one := fun t r => by rw [one_eq]; exact subst_num _ _ _
  refine tot_succ (fun _ => rfl) (f := fun E => normal E (.sum [one, fq f s])) ?_
  unfold normal
  generalize hA : (Expr.sum [one, fq f s] : Expr D).tmpIds = A
  have htO : (fsym cfg f s false A).id.Ok := trivial
  refine tot_bind (tot_capture (a := (⟨Wp (fsym cfg f s false A), one⟩, ⟨[(.fn f (.sym s), fsym cfg f s false A)], A⟩)) ?_)
    (tot_bind (tot_capture (tot_back_two hc (e' := .sum [one, fq f s]) ?_ ?_ ?_ rfl ex))
      (tot_bind (tot_capture (back_one hc _ _)) (tot_bind tot_emit (tot_evalFrac (tot_sum_one _)))))
  · refine tot_succ (fun _ => rfl) (f := fun E => normalFrac E (.sum [one, fq f s]) ⟨[], A⟩) ?_
    simp only [normalFrac]
    refine tot_bind (a := false) ?_ ?_
    · unfold expandsToZero
      refine tot_whenTrue (tot_bind (a := .sum [one, fq f s]) (tot_expand ?_) (tot_pure _))
      simp only [expand]
      refine tot_bind (a := [one, fq f s]) ?_ (tot_sum (tot_one_fq f))
      simp only [M.mapL]
      exact tot_bind (tot_expand (tot_pure _)) (tot_bind (tot_bind (tot_expand (expand_fq hf)) (tot_bind (tot_pure _) (tot_pure _))) (tot_pure _))
    simp only [Bool.false_eq_true, if_false]
    refine tot_bind (a := ([⟨one, one⟩, ⟨sq (fsym cfg f s false A), one⟩], ⟨[(.fn f (.sym s), fsym cfg f s false A)], A⟩)) ?_ ?_
    · simp only [normalOperands]
      exact tot_bind (frac_one _) (tot_bind (tot_bind (frac_fq hc hs hf A) (tot_bind (tot_pure _) (tot_pure _))) (tot_pure _))
    · refine tot_bind (a := ⟨Wp (fsym cfg f s false A), one⟩) ?_ (tot_pure _)
      simp only [toCommonDenom, M.foldL]
      refine tot_bind (a := ⟨Wp (fsym cfg f s false A), one⟩) (tot_bind ?_ (tot_pure _)) ?_
      · have : isEqual (one : Expr D) one = true := by rw [one_eq]; exact (isEqual_eq _ (exact_ratE 1) _ (exact_ratE 1)).2 rfl
        simp only [addFrac, this, if_true]
        exact tot_bind (tot_sum (sum_Wp hc htO)) (tot_pure _)
      · simp only [cancel, show (one : Expr D).isOne = true from isOne_one, if_true]
        exact tot_pure _
  · have : isEqual (Wp (fsym cfg f s false A)) (.sym (fsym cfg f s false A) : Expr D) = false := rfl
    have h2 : isEqual (sq (fsym cfg f s false A)) (.sym (fsym cfg f s false A) : Expr D) = false := rfl
    simp only [Wp] at this ⊢
    simp only [Tsym.subst, this, Bool.false_eq_true, if_false]
    refine tot_bind (substList_two (sn _ _) (b' := fq f s) ?_) (tot_sum (tot_one_fq f))
    simp only [Tsym.subst, h2, Bool.false_eq_true, if_false]
    exact tot_bind (tot_subst (subst_self _ _)) (tot_bind (tot_subst (subst_num _ _ _)) (tot_pow (tot_fq hf)))
  · have : isEqual (.sum [one, fq f s]) (.sym (fsym cfg f s false A) : Expr D) = false := rfl
    have h2 : isEqual (fq f s) (.sym (fsym cfg f s false A) : Expr D) = false := rfl
    simp only [Tsym.subst, this, Bool.false_eq_true, if_false]
    refine tot_bind (substList_two (sn _ _) (b' := fq f s) ?_) (tot_sum (tot_one_fq f))
    simp only [Tsym.subst, h2, Bool.false_eq_true, if_false]
    exact tot_bind (tot_subst (subst_fn hs hl (fsym_ne hc f s _ _) _)) (tot_bind (tot_subst (subst_num _ _ _)) (tot_pow (tot_fq hf)))
  · rw [Bool.eq_false_iff]; intro h
    have := (isEqual_eq _ ex _ (ep_Wp htO).exact).1 h
    simp [Wp] at this

/-! ## The derivatives of the inverse functions -/

theorem normal_neg_root (hc : cfg.Ok) {W : Expr D} {p : Bool} (h : GW cfg W p) : Tot cfg (fun E => E.normal (rt W (-1 / 2))) (rt W (-1 / 2)) := by
  have hmi : Tot cfg (fun E => E.oneOver (rt W (1 / 2))) (rt W (-1 / 2)) := by
    have := tot_pow (h.inv hc)
    rwa [← mOne_rat] at this
  refine tot_succ (fun _ => rfl) (f := fun E => normal E (rt W (-1 / 2))) ?_
  unfold normal
  refine tot_bind (tot_capture (h.frac_neg hc _)) (tot_bind (tot_capture (back_one hc _ _)) (tot_bind (tot_capture (h.back_t hc _)) (tot_bind tot_emit ?_)))
  unfold evalFrac
  exact tot_bind hmi (tot_prod (tot_one (.inl ⟨rfl, rfl⟩) (h.fc _)))

theorem content_mOne : integerContent (num (.rat (-1)) : Expr D) = .ok (.rat 1) := by
  have : (Number.rat (-1) : Number D).abs = .rat 1 := by
    unfold Number.abs; rw [show (Number.rat (-1) : Number D).lt 0 = true by rw [Number.zero_def, lt_rat]; decide +kernel]
    simp only [if_true, Number.neg]; congr 1
  have hi : (Number.rat 1 : Number D).isInt = true := by simpa using Number.rat_isInt (D := D) 1
  show Except.ok (if (Number.rat (-1) : Number D).abs.isInt then (Number.rat (-1) : Number D).abs else 1) = _
  rw [this, hi]; rfl

theorem tot_gcd_mOne (hc : cfg.Ok) {t : Sym} (ht : t.id.Ok) : Tot cfg (fun E => E.gcd (num (.rat (-1))) (.sym t)) (one : Expr D) := by
  have es : EP (num (.rat (-1)) : Expr D) := EP.num _
  have et := EP.sym (D := D) ht
  have pt : poly (.sym t : Expr D) ≠ 0 := by rw [poly_symE]; exact MvPolynomial.X_ne_zero _
  have ds : ∀ x, ((poly (num (.rat (-1)) : Expr D)).degreeOf x : ℤ) < intMax := fun x => by
    rw [poly_ratE, MvPolynomial.degreeOf_C]; decide
  obtain ⟨L, l1, l2, l3, l4⟩ := tot_listOfSymbols hc es et ds (deg_sym t)
  have hok := isPolyInputValid_ep es et pt (fun x => (ds x).le) fun x => (deg_sym (D := D) t x).le
  refine tot_succ (fun _ => rfl) (f := fun E => polyGcd E (num (.rat (-1))) (.sym t)) ?_
  unfold polyGcd
  refine tot_bind (tot_lift hok) ?_
  simp only [if_true]
  refine tot_bind l1 (tot_succ (fun _ => rfl) (f := fun E => gcdL E (num (.rat (-1))) (.sym t) (L.map .sym)) ?_)
  unfold gcdL
  refine tot_bind (tot_expand (tot_expand_ep hc es)) (tot_bind (tot_expand (tot_expand_ep hc et)) ?_)
  have hL : ((L.map .sym : List (Expr D)).isEmpty && !((num (.rat (-1)) : Expr D).isNumeric && (.sym t : Expr D).isNumeric)) = false := by
    rw [Bool.and_eq_false_iff]
    left
    by_cases hl : L = []
    · have := (l3 t (by simp [hl])).2
      rw [poly_symE, MvPolynomial.degreeOf_X] at this
      simp at this
    · simpa using hl
  simp only [hL, Bool.false_eq_true, if_false]
  refine tot_bind (a := some (.int 1)) ?_ (by
    have := tot_normalizeGcd_int hc (D := D) (cfg := cfg) L (z := 1) one_ne_zero
    rw [← int_one]; exact this)
  unfold gcdRaw
  have hq : isEqual (num (.rat (-1))) (.sym t : Expr D) = false := rfl
  have hcs : haveCommonSymbol (num (.rat (-1))) (.sym t : Expr D) (L.map .sym) = false := by
    unfold haveCommonSymbol
    rw [List.any_map, List.any_eq_false]
    intro x _
    simp [has, isEqual]
  have z1 : (num (.rat (-1)) : Expr D).isZero = false := by rw [isZero_ratE]; decide +kernel
  have z2 : (num (.rat (-1)) : Expr D).isOne = false := by rw [isOne_ratE]; decide +kernel
  simp only [z1, z2, show (Expr.sym t : Expr D).isOne = false from rfl, Bool.or_self, Bool.false_eq_true, if_false,
    show (Expr.sym t : Expr D).isZero = false from rfl, Bool.and_self, hq, hcs, Bool.not_false, if_true]
  refine tot_bind (a := (.int 1 : Expr D)) ?_ (tot_pure _)
  unfold integerContent2
  refine tot_bind (tot_lift content_mOne) (tot_bind (tot_lift (content_sym t)) ?_)
  have : (Number.rat 1 : Number D).isInt = true := by simpa using Number.rat_isInt (D := D) 1
  simp only [this, Bool.not_true, Bool.or_self, Bool.false_eq_true, if_false, Number.numerator]
  exact tot_pure _

theorem rs_divide_mOne (hc : cfg.Ok) : Rs cfg Tt (fun E => E.divide (num (.rat (-1))) (one : Expr D)) (num (.rat (-1)), zero) := by
  have es : EP (num (.rat (-1)) : Expr D) := EP.num _
  obtain ⟨q, q1, q2, q3⟩ := rts_divide_int hc (cfg := cfg) es (by rw [poly_ratE]; simp) (fun x => by rw [poly_ratE, MvPolynomial.degreeOf_C]; decide) one_ne_zero numOk_one
  have : q = num (.rat (-1)) := q2.unique es (by rw [q3]; simp)
  rw [this, int_one] at q1
  exact q1.rs

theorem rs_cancel_mOne (hc : cfg.Ok) {t : Sym} (ht : t.id.Ok) :
    Rs cfg Tt (fun E => cancel E ⟨num (.rat (-1)), .sym t⟩) (⟨num (.rat (-1)), .sym t⟩ : Frac D) := by
  have et := EP.sym (D := D) ht
  have z1 : (num (.rat (-1)) : Expr D).isZero = false := by rw [isZero_ratE]; decide +kernel
  unfold cancel
  simp only [z1, show (Expr.sym t : Expr D).isOne = false from rfl, Bool.false_eq_true, if_false]
  refine rs_bind (a := false) (Tot.rs ?_) ?_
  · unfold expandsToZero
    exact tot_whenTrue (tot_bind (tot_expand (tot_expand_ep hc et)) (tot_pure _))
  · simp only [Bool.false_eq_true, if_false, cancelNonTrivial]
    refine rs_bind (tot_silent (tot_gcd_mOne hc ht)).rs (rs_bind (rs_divide_one hc ht) (rs_bind (rs_divide_mOne hc) (rs_bind (a := ()) ?_ ?_)))
    · exact rs_log fun σ _ => ⟨1, by rw [one_eq]; simp [den], by norm_num⟩
    · have hz : (zero : Expr D).isZero = true := by rw [zero_eq, isZero_ratE]; decide
      simp only [hz, Bool.and_self, Bool.not_true]
      exact rs_bind (a := ()) (tot_logIf rfl).rs (tot_pure _).rs

theorem tot_mOne_one (hc : cfg.Ok) : Tot cfg (fun E => E.prodCreate [num (.rat (-1)), one]) (num (.rat (-1)) : Expr D) := by
  have := tot_prod_nums hc (cfg := cfg) (D := D) (-1) 1
  rwa [mul_one, ← one_eq] at this

/-- The normal form of the opposite of an inverse root. -/
theorem normal_minus_root (hc : cfg.Ok) {W : Expr D} {p : Bool} (h : GW cfg W p) :
    Rs cfg Tt (fun E => E.normal (.prod [num (.rat (-1)), rt W (-1 / 2)])) (.prod [num (.rat (-1)), rt W (-1 / 2)]) := by
  have hmi : Tot cfg (fun E => E.oneOver (rt W (1 / 2))) (rt W (-1 / 2)) := by
    have := tot_pow (h.inv hc)
    rwa [← mOne_rat] at this
  refine rs_succ (fun _ => rfl) (f := fun E => normal E (.prod [num (.rat (-1)), rt W (-1 / 2)])) ?_
  unfold normal
  generalize hA : (Expr.prod [num (.rat (-1)), rt W (-1 / 2)] : Expr D).tmpIds = A
  have htO : (tsym cfg W p A).id.Ok := trivial
  have hfr : Rs cfg Tt (fun E => E.normalFrac (.prod [num (.rat (-1)), rt W (-1 / 2)]) ⟨[], A⟩)
      (⟨num (.rat (-1)), .sym (tsym cfg W p A)⟩, ⟨[(rt W (1 / 2), tsym cfg W p A)], A⟩) := by
    refine rs_succ (fun _ => rfl) (f := fun E => normalFrac E (.prod [num (.rat (-1)), rt W (-1 / 2)]) ⟨[], A⟩) ?_
    simp only [normalFrac]
    refine rs_bind (zero_prod (at_rt h _) (expand_rt _ (by decide +kernel)) mOne_ne0 mOne_ne1).rs ?_
    simp only [Bool.false_eq_true, if_false]
    refine rs_bind (a := ([⟨num (.rat (-1)), one⟩, ⟨one, .sym (tsym cfg W p A)⟩], ⟨[(rt W (1 / 2), tsym cfg W p A)], A⟩)) (Tot.rs ?_) ?_
    · simp only [normalOperands]
      exact tot_bind (frac_mOne _) (tot_bind (tot_bind (h.frac_neg hc A) (tot_bind (tot_pure _) (tot_pure _))) (tot_pure _))
    · simp only [List.map_cons, List.map_nil]
      exact rs_bind (tot_mOne_one hc).rs (rs_bind (tot_prod (tot_one (.inl ⟨rfl, rfl⟩) (fc_sym _))).rs (rs_bind (rs_cancel_mOne hc htO) (tot_pure _).rs))
  obtain ⟨cs, h1, h2⟩ := rs_capture hfr
  refine rs_bind h2.rs (rs_bind (tot_capture (tot_back hc (e := num (.rat (-1))) (exact_ratE _) rfl (subst_num _ _ _))).rs (rs_bind (tot_capture (h.back_t hc A)).rs
    (rs_bind (rs_emit_within h1 _) (Tot.rs ?_))))
  unfold evalFrac
  exact tot_bind hmi (tot_prod (tot_num_x (at_rt h _) mOne_ne0 mOne_ne1))

/-- The normal form of the inverse. -/
theorem normal_inv (hc : cfg.Ok) {W : Expr D} {p : Bool} (h : GW cfg W p) : Tot cfg (fun E => E.normal (rt W (-1))) (rt W (-1)) := by
  refine tot_succ (fun _ => rfl) (f := fun E => normal E (rt W (-1))) ?_
  unfold normal
  generalize (rt W (-1)).tmpIds = A
  have hn : Tot cfg (fun E => E.normal (num (.rat (-1)))) (num (.rat (-1)) : Expr D) := by
    have := tot_normal_int hc (cfg := cfg) (D := D) (-1)
    simpa [Expr.int] using this
  have hfr : Tot cfg (fun E => E.normalFrac (rt W (-1)) ⟨[], A⟩) (⟨one, W⟩, ⟨[], A⟩) := by
    refine tot_succ (fun _ => rfl) (f := fun E => normalFrac E (rt W (-1)) ⟨[], A⟩) ?_
    simp only [normalFrac, normalPow]
    refine tot_bind (tot_normalFrac_ep hc h.ep h.dv _) (tot_bind hn (tot_bind (h.defined hc _) ?_))
    simp only [Bool.false_eq_true, if_false, numEval_rat]
    refine tot_bind (tot_lift rfl) ?_
    have hi : (Number.rat (-1) : Number D).isInt = true := by simpa using Number.rat_isInt (D := D) (-1)
    have ha : (Number.rat (-1) : Number D).abs = .rat 1 := by
      unfold Number.abs; rw [show (Number.rat (-1) : Number D).lt 0 = true by rw [Number.zero_def, lt_rat]; decide +kernel]
      simp only [if_true, Number.neg]; congr 1
    have hl : (Number.rat (-1) : Number D).lt 0 = true := by rw [Number.zero_def, lt_rat]; decide +kernel
    have hg : Number.lt 0 (Number.rat (-1) : Number D) = false := by rw [Number.zero_def, lt_rat]; decide +kernel
    simp only [hi, if_true, normalIntegerExp, ha, hl, hg, Bool.false_eq_true, if_false]
    have e2 : (num (.rat 1) : Expr D).isZero = false := by rw [isZero_ratE]; simp
    have e3 : (num (.rat 1) : Expr D).isOne = true := by rw [isOne_ratE]; simp
    refine tot_bind (tot_bind (a := W) (tot_pow ?_) (tot_bind (a := one) (tot_pow ?_) (tot_pure _))) (tot_pure _)
    · obtain ⟨l, rfl⟩ := h.sum
      simp only [powCreate, rat_isUndefined, show (Expr.sum l).isUndefined = false from rfl, Bool.or_self, Bool.false_eq_true, if_false, e2,
        show (Expr.sum l).isOne = false from rfl, show (Expr.sum l).isZero = false from rfl, e3, if_true]
      exact tot_pure _
    · simp only [powCreate, rat_isUndefined, show (one : Expr D).isUndefined = false from rfl, Bool.or_self, Bool.false_eq_true, if_false, e2,
        show (one : Expr D).isOne = true from isOne_one, Bool.or_true, if_true]
      exact tot_pure _
  have hmi : Tot cfg (fun E => E.oneOver W) (rt W (-1)) := by
    unfold Eng.oneOver; rw [mOne_rat]
    exact tot_pow (h.pow (by norm_num) (by norm_num))
  refine tot_bind (tot_capture hfr) (tot_bind (tot_capture (tot_replaceBack hc (by rw [one_eq]; exact EP.num 1))) (tot_bind (tot_capture (tot_replaceBack hc h.ep)) (tot_bind tot_emit ?_)))
  unfold evalFrac
  exact tot_bind hmi (tot_prod (tot_one (.inl ⟨rfl, rfl⟩) (h.fc _)))

/-! ## Derivatives -/

/-- The derivatives with respect to the argument. -/
def tab (s : Sym) : Fn → Expr D
  | .sin => .fn .cos (.sym s)
  | .cos => .prod [num (.rat (-1)), .fn .sin (.sym s)]
  | .tan => .sum [one, fq .tan s]
  | .asin => rt (Wm s) (-1 / 2)
  | .acos => .prod [num (.rat (-1)), rt (Wm s) (-1 / 2)]
  | .atan => rt (Wp s) (-1)
  | .log => .pow (.sym s) (.num (.rat (-1)))

theorem tot_Wm (hc : cfg.Ok) (hs : s.id.Ok) : ∃ m, Tot cfg (fun E => E.minus (sq s : Expr D)) m ∧ Tot cfg (fun E => sumCreate E [one, m]) (Wm s) := by
  obtain ⟨m, m1, m2, m3⟩ := tot_minus_sq hc (cfg := cfg) (D := D) hs
  have e1 : EP (one : Expr D) := by rw [one_eq]; exact EP.num 1
  obtain ⟨r, r1, r2, r3⟩ := tot_sum_ep hc (cfg := cfg) (es := [one, m]) (by simp) (by simp [e1, m2])
  have : r = Wm s := r2.unique (ep_Wm hs) (by
    rw [r3, poly_Wm]; simp only [List.map_cons, List.map_nil, List.sum_cons, List.sum_nil, m3]; rw [one_eq, poly_ratE]; simp; ring)
  subst this
  exact ⟨m, m1, r1⟩

theorem tot_inner (hc : cfg.Ok) (hs : s.id.Ok) (f : Fn) (hf : f ≠ .log) : Tot cfg (fun E => innerDiff E f (.sym s)) (tab s f : Expr D) := by
  obtain ⟨m, m1, m2⟩ := tot_Wm hc (cfg := cfg) (D := D) hs
  cases f <;> simp only [innerDiff, tab]
  · exact absurd rfl hf
  · exact tot_trig_s hs .cos
  · refine tot_bind (tot_trig_s hs .sin) ?_
    unfold Eng.minus
    rw [mOne_rat]
    exact tot_prod (tot_num_x (at_fn _ _) mOne_ne0 mOne_ne1)
  · refine tot_bind (tot_trig_s hs .tan) (tot_bind (a := fq .tan s) ?_ (tot_sum (tot_one_fq _)))
    unfold square
    rw [two_rat]; exact tot_pow (tot_fq (by simp))
  · refine tot_bind (tot_square s) (tot_bind m1 (tot_bind (tot_sum m2) (tot_pow ?_)))
    exact (gw_Wm hc hs).pow (by norm_num) (by norm_num)
  · refine tot_bind (tot_square s) (tot_bind m1 (tot_bind (tot_sum m2) (tot_bind (tot_pow ((gw_Wm hc hs).pow (by norm_num) (by norm_num))) ?_)))
    unfold Eng.minus
    rw [mOne_rat]
    exact tot_prod (tot_num_x (at_rt (gw_Wm hc hs) _) mOne_ne0 mOne_ne1)
  · refine tot_bind (tot_square s) (tot_bind (tot_sum (sum_Wp hc hs)) ?_)
    unfold Eng.oneOver; rw [mOne_rat]
    exact tot_pow ((gw_Wp hc hs).pow (by norm_num) (by norm_num))

theorem diff_self : Tot cfg (fun E => E.diff (.sym s) (.sym s)) (one : Expr D) := by
  refine tot_diff ?_
  simp only [diff, show isEqual (.sym s) (.sym s : Expr D) = true by simp [isEqual], if_true]
  exact tot_pure _

theorem diff_other {t : Sym} (h : t ≠ s) : Tot cfg (fun E => E.diff (.sym s) (.sym t)) (zero : Expr D) := by
  refine tot_diff ?_
  have : isEqual (.sym t) (.sym s : Expr D) = false := by simpa [isEqual] using h
  simp only [diff, this, Bool.false_eq_true, if_false]
  exact tot_pure _

theorem diff_fn (f : Fn) (hf : f ≠ .log) (x a : Expr D) (E : Eng D) : diff E x (.fn f a) = diffTrig E x a (innerDiff E f a) := by
  cases f <;> first | rfl | exact absurd rfl hf

theorem tot_oneOver_s : Tot cfg (fun E => E.oneOver (.sym s)) (.pow (.sym s) (.num (.rat (-1))) : Expr D) := by
  have := tot_pow (Tower.tot_power (cfg := cfg) (D := D) s (-1))
  rw [show (Tower.power s (-1) : Expr D) = .pow (.sym s) (.num (.rat (-1))) by simp only [Tower.power]; norm_num] at this
  unfold Eng.oneOver; rwa [mOne_rat]

/-- The derivative of a function of the symbol. -/
theorem rs_diff (hc : cfg.Ok) (hs : s.id.Ok) (f : Fn) : Rs cfg Tt (fun E => E.diff (.sym s) (.fn f (.sym s))) (tab s f : Expr D) := by
  refine rs_succ (fun _ => rfl) (f := fun E => diff E (.sym s) (.fn f (.sym s))) ?_
  by_cases hf : f = .log
  · subst hf
    simp only [diff, tab]
    exact (tot_bind tot_oneOver_s (tot_bind diff_self (tot_prod (tot_one (.inr ⟨rfl, rfl⟩) (fc_symInv s))))).rs
  · simp only [diff_fn f hf, diffTrig]
    refine rs_bind diff_self.rs (rs_bind (tot_inner hc hs f hf).rs ?_)
    cases f <;> simp only [tab]
    · exact absurd rfl hf
    · exact (tot_bind (tot_prod (tot_x_one (at_fn _ _))) (normal_fn hc hs (by simp))).rs
    · exact (tot_bind (tot_prod (tot_prod_one hc (at_fn _ _) mOne_ne0 mOne_ne1)) (normal_minus hc hs (by simp))).rs
    · exact (tot_bind (tot_prod (tot_sum_one _)) (normal_one_fq hc hs (by simp))).rs
    · exact (tot_bind (tot_prod (tot_x_one (at_rt (gw_Wm hc hs) _))) (normal_neg_root hc (gw_Wm hc hs))).rs
    · exact rs_bind (tot_prod (tot_prod_one hc (at_rt (gw_Wm hc hs) _) mOne_ne0 mOne_ne1)).rs (normal_minus_root hc (gw_Wm hc hs))
    · exact (tot_bind (tot_prod (tot_x_one (at_rt (gw_Wp hc hs) _))) (normal_inv hc (gw_Wp hc hs))).rs

/-- No conditions but for the arc cosine. -/
theorem tot_diff_of (hc : cfg.Ok) (hs : s.id.Ok) (f : Fn) (hf : f ≠ .acos) : Tot cfg (fun E => E.diff (.sym s) (.fn f (.sym s))) (tab s f : Expr D) := by
  refine tot_succ (fun _ => rfl) (f := fun E => diff E (.sym s) (.fn f (.sym s))) ?_
  by_cases hf' : f = .log
  · subst hf'
    simp only [diff, tab]
    exact tot_bind tot_oneOver_s (tot_bind diff_self (tot_prod (tot_one (.inr ⟨rfl, rfl⟩) (fc_symInv s))))
  · simp only [diff_fn f hf', diffTrig]
    refine tot_bind diff_self (tot_bind (tot_inner hc hs f hf') ?_)
    cases f <;> simp only [tab]
    · exact absurd rfl hf'
    · exact tot_bind (tot_prod (tot_x_one (at_fn _ _))) (normal_fn hc hs (by simp))
    · exact tot_bind (tot_prod (tot_prod_one hc (at_fn _ _) mOne_ne0 mOne_ne1)) (normal_minus hc hs (by simp))
    · exact tot_bind (tot_prod (tot_sum_one _)) (normal_one_fq hc hs (by simp))
    · exact tot_bind (tot_prod (tot_x_one (at_rt (gw_Wm hc hs) _))) (normal_neg_root hc (gw_Wm hc hs))
    · exact absurd rfl hf
    · exact tot_bind (tot_prod (tot_x_one (at_rt (gw_Wp hc hs) _))) (normal_inv hc (gw_Wp hc hs))

theorem tot_times_zero {x : Expr D} (h : x.isUndefined = false) : Tot cfg (fun E => E.prodCreate [x, zero]) (zero : Expr D) := by
  refine tot_prod ?_
  have h1 : [x, zero].any isUndefined = false := by simp only [List.any_cons, List.any_nil, h]; rfl
  have h2 : [x, zero].any Expr.isZero = true := by
    have : (zero : Expr D).isZero = true := by rw [zero_eq, isZero_ratE]; decide
    simp [this]
  simp only [prodCreate, h1, h2, Bool.false_eq_true, if_false, if_true]
  exact tot_pure _

theorem tab_undef (f : Fn) (s : Sym) : (tab s f : Expr D).isUndefined = false := by cases f <;> rfl

/-- The derivative of a function of another symbol. -/
theorem tot_diff_zero (hc : cfg.Ok) {t : Sym} (ht : t.id.Ok) (h : t ≠ s) (f : Fn) : Tot cfg (fun E => E.diff (.sym s) (.fn f (.sym t))) (zero : Expr D) := by
  refine tot_succ (fun _ => rfl) (f := fun E => diff E (.sym s) (.fn f (.sym t))) ?_
  by_cases hf : f = .log
  · subst hf
    simp only [diff]
    exact tot_bind tot_oneOver_s (tot_bind (diff_other h) (tot_times_zero rfl))
  · simp only [diff_fn f hf, diffTrig]
    refine tot_bind (diff_other h) (tot_bind (tot_inner hc ht f hf) (tot_bind (tot_times_zero (tab_undef f t)) ?_))
    have := tot_normal_int hc (cfg := cfg) (D := D) 0
    simpa [Expr.int, zero_eq] using this

/-! ## The exponential function -/

/-- The exponential function of a symbol. -/
abbrev ex (s : Sym) : Expr D := .pow (.cst .e) (.sym s)

theorem log_e : Tot cfg (fun E => E.logCreate (.cst .e)) (one : Expr D) := by
  refine tot_log ?_
  unfold logCreate
  refine tot_bind (a := false) ?_ ?_
  · simp only [isInvalidArg, show (cst .e : Expr D).isUndefined = false from rfl, show (cst .e : Expr D).isZero = false from rfl, show (cst .e : Expr D).isPower = false from rfl,
      Bool.or_self, Bool.false_and, Bool.false_eq_true, if_false]
    refine tot_whenTrue (tot_bind (a := false) (tot_isNeg (tot_pure _)) ?_)
    simp only [Bool.false_eq_true, if_false, evalsTo]
    refine tot_bind (tot_lift (a := some (.ofDouble Flt.e)) rfl) ?_
    have : (Number.ofDouble Flt.e : Number D).eqv 0 = false := by
      rw [Number.eqv_false, Number.val_ofDouble, LawfulFlt.e, Number.val_zero]; exact (Real.exp_pos 1).ne'
    simp only [this]
    exact tot_pure _
  · simp only [Bool.false_eq_true, if_false, show (cst .e : Expr D).isOne = false from rfl, show isEqual (cst .e) (cst .e : Expr D) = true from rfl, if_true]
    exact tot_pure _

theorem tot_inv_e : Tot cfg (fun E => E.oneOver (.cst .e)) (.pow (.cst .e) (.num (.rat (-1))) : Expr D) := by
  unfold Eng.oneOver
  rw [mOne_rat]
  refine tot_pow ?_
  have e2 : (num (.rat (-1)) : Expr D).isZero = false := by rw [isZero_ratE]; decide +kernel
  have e3 : (num (.rat (-1)) : Expr D).isOne = false := by rw [isOne_ratE]; decide +kernel
  simp only [powCreate, rat_isUndefined, show (cst .e : Expr D).isUndefined = false from rfl, Bool.or_self, Bool.false_eq_true, if_false, e2,
    show (cst .e : Expr D).isOne = false from rfl, show (cst .e : Expr D).isZero = false from rfl, e3, powCreateNonTrivial]
  refine tot_bind (a := (.cst .e, num (.rat (-1)))) (tot_simplPow ?_) ?_
  · unfold Tsym.simplPow
    refine tot_bind (Qf.tot_noComplex (tot_pure _) (.inr rfl)) ?_
    simp only [Bool.false_eq_true, if_false, simplifyConstantBase, show (num (.rat (-1)) : Expr D).isFunction = false from rfl, Bool.and_false]; exact tot_pure _
  simp only [e3, show (cst .e : Expr D).isOne = false from rfl, Bool.false_eq_true, if_false]
  exact tot_pure _

theorem at_ex (s : Sym) : At (ex s : Expr D) where
  undef := rfl
  zero := rfl
  one := rfl
  prod := rfl
  const := by simp [Expr.isConst]
  sum := rfl
  item := .inr ⟨rfl, by simp [isContractableConst, isConst], rfl⟩
  pr n := rfl
  perm n := by rw [doPermute_eq]; rfl
  base n := rfl
  base' n := rfl
  num := rfl

theorem zz : (zero : Expr D).isZero = true := by rw [zero_eq, isZero_ratE]; decide

theorem tot_three_zero {x y : Expr D} (hx : x.isUndefined = false) (hy : y.isUndefined = false) : Tot cfg (fun E => E.prodCreate [x, y, zero]) (zero : Expr D) := by
  refine tot_prod ?_
  have h1 : [x, y, zero].any isUndefined = false := by simp only [List.any_cons, List.any_nil, hx, hy]; rfl
  have h2 : [x, y, zero].any Expr.isZero = true := by simp [zz]
  simp only [prodCreate, h1, h2, Bool.false_eq_true, if_false, if_true]
  exact tot_pure _

theorem tot_sum_nums (hc : cfg.Ok) (a b : ℚ) : Tot cfg (fun E => E.sumCreate [num (.rat a), num (.rat b)]) (num (.rat (a + b)) : Expr D) := by
  obtain ⟨r, r1, r2, r3⟩ := tot_sum_ep hc (cfg := cfg) (D := D) (es := [num (.rat a), num (.rat b)]) (by simp) (by simp [EP.num])
  have : r = num (.rat (a + b)) := r2.unique (EP.num _) (by
    rw [r3, poly_ratE]; simp only [List.map_cons, List.map_nil, List.sum_cons, List.sum_nil, poly_ratE]; simp)
  rw [← this]; exact tot_sum r1

theorem diff_cst (c : Cst) : Tot cfg (fun E => E.diff (.sym s) (.cst c)) (zero : Expr D) := tot_diff (by simp only [diff]; exact tot_pure _)

theorem tot_diff_ex (hc : cfg.Ok) : Tot cfg (fun E => E.diff (.sym s) (ex s)) (ex s : Expr D) := by
  refine tot_succ (fun _ => rfl) (f := fun E => diff E (.sym s) (ex s)) ?_
  simp only [diff]
  refine tot_bind log_e (tot_bind diff_self (tot_bind (tot_one_one hc) (tot_bind tot_inv_e (tot_bind (diff_cst .e) (tot_bind (tot_three_zero rfl rfl) (tot_bind (a := one) ?_
    (tot_prod (tot_x_one (at_ex s)))))))))
  have := tot_sum_nums hc (cfg := cfg) (D := D) 1 0
  rwa [add_zero, ← one_eq, ← zero_eq] at this

theorem tot_diff_ex_zero (hc : cfg.Ok) {t : Sym} (h : t ≠ s) : Tot cfg (fun E => E.diff (.sym s) (ex t)) (zero : Expr D) := by
  refine tot_succ (fun _ => rfl) (f := fun E => diff E (.sym s) (ex t)) ?_
  simp only [diff]
  refine tot_bind log_e (tot_bind (diff_other h) (tot_bind (tot_times_zero rfl) (tot_bind tot_inv_e (tot_bind (diff_cst .e) (tot_bind (tot_three_zero rfl rfl) (tot_bind (a := zero) ?_
    (tot_times_zero rfl)))))))
  have := tot_sum_nums hc (cfg := cfg) (D := D) 0 0
  rwa [add_zero, ← zero_eq] at this

end Dfn

end Tsym
