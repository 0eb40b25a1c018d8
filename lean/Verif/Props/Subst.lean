import Verif.SubstPoly
import Verif.Props.PolyPow
import Verif.Props.Symbols
import Verif.Props.Signs

set_option autoImplicit false
set_option linter.unusedSectionVars false

/-!
# C66: substitution in polynomial expressions

`subst(e, x, r)` for expressions `e` and `r` that come from numbers and symbols by the four operations and
natural powers (the trees of C52). Powers of numbers are computed, so the limit for primes must be less
than 324, and the exponents in `e` less than 2^29.
-/

namespace Tsym

open Expr

/-! ## Specification -/

namespace QTree

/-- The tree with another one in the places of a symbol. -/
def replace (t : QTree) (x : Sym) (u : QTree) : QTree :=
  match t with
  | rat q => rat q
  | var s => if s = x then u else var s
  | neg t => neg (t.replace x u)
  | add t v => add (t.replace x u) (v.replace x u)
  | sub t v => sub (t.replace x u) (v.replace x u)
  | mul t v => mul (t.replace x u) (v.replace x u)
  | div t q => div (t.replace x u) q
  | pow t k => pow (t.replace x u) k

end QTree

/-! ## Proofs -/

theorem QTree.val_replace (σ : Asg) (x : Sym) (u t : QTree) :
    (t.replace x u).val σ = t.val (Function.update σ x (u.val σ)) := by
  induction t with
  | rat q => rfl
  | var s =>
    by_cases h : s = x
    · subst h; simp [QTree.replace, QTree.val]
    · simp [QTree.replace, QTree.val, h]
  | neg t h => simp [QTree.replace, QTree.val, h]
  | add t v h1 h2 => simp [QTree.replace, QTree.val, h1, h2]
  | sub t v h1 h2 => simp [QTree.replace, QTree.val, h1, h2]
  | mul t v h1 h2 => simp [QTree.replace, QTree.val, h1, h2]
  | div t q h => simp [QTree.replace, QTree.val, h]
  | pow t k h => simp [QTree.replace, QTree.val, h]

theorem QTree.replace_ok {max : ℤ} (x : Sym) {u t : QTree} (ht : t.Ok max) (hu : u.Ok max) : (t.replace x u).Ok max := by
  induction t with
  | rat q => trivial
  | var s =>
    by_cases h : s = x
    · simpa [QTree.replace, h] using hu
    · simpa [QTree.replace, h] using ht
  | neg t h => exact h ht
  | add t v h1 h2 => exact ⟨h1 ht.1, h2 ht.2⟩
  | sub t v h1 h2 => exact ⟨h1 ht.1, h2 ht.2⟩
  | mul t v h1 h2 => exact ⟨h1 ht.1, h2 ht.2⟩
  | div t q h => exact ⟨h ht.1, ht.2⟩
  | pow t k h => exact ⟨h ht.1, ht.2⟩

theorem QTree.poly_replace (x : Sym) (u t : QTree) : (t.replace x u).poly = psubst x u.poly t.poly := by
  refine pval_inj fun σ _ => ?_
  rw [pval_psubst, ← QTree.val_eq, ← QTree.val_eq, ← QTree.val_eq, QTree.val_replace]

section

variable {D : Type} [Flt D] [LawfulFlt D] {cfg : Cfg D}

/-- The facts about a result that are needed below. -/
theorem QTree.result (hc : cfg.Ok) {t : QTree} (h : t.Ok cfg.maxPrime) {e : Expr D} (he : Gives cfg (fun E => t.run E) e) :
    Pol cfg e ∧ Tsym.poly e = t.poly := by
  obtain ⟨e', he', pe, qe⟩ := t.tot (D := D) hc h
  have := Gives.tot_unique he he'
  subst this
  exact ⟨pe, qe⟩

theorem Pol.subOk {e : Expr D} (h : Pol cfg e) (hk : ∀ (b : Expr D) (k : ℕ), Occurs (.pow b (.int k)) e → k < 2 ^ 29) : SubOk e :=
  ⟨h.allOk, h.names, hk⟩

open Lean.Order in
theorem apiSubst_mono (e x r : Expr D) : monotone fun E : Eng D => Api.subst E e x r := by
  unfold Api.subst; repeat' monotonicity

open Lean.Order in
theorem substExpand_mono (e x r : Expr D) : monotone fun E : Eng D => (do
    let f ← Api.subst E e x r
    Api.expand E f : M D (Expr D)) := by
  refine monotone_bind (m := M D) _ _ (apiSubst_mono e x r) (monotone_of_monotone_apply _ fun a => ?_)
  unfold Api.expand; repeat' monotonicity

/-! ## C66 -/

/-- C66. Substitution in a polynomial expression always returns, without conditions. The value of the result is
that of the expression when the symbol has the value of the replacement. -/
theorem C66_value (hc : cfg.Ok) (hm : cfg.maxPrime < 324) (t u : QTree) (ht : t.Ok cfg.maxPrime) (hu : u.Ok cfg.maxPrime)
    (x : Sym) (e r : Expr D) (he : Gives cfg (fun E => t.run E) e) (hr : Gives cfg (fun E => u.run E) r)
    (hk : ∀ (b : Expr D) (k : ℕ), Occurs (.pow b (.int k)) e → k < 2 ^ 29) :
    ∃ f, Gives cfg (fun E => Api.subst E e (.sym x) r) f ∧
      (∀ σ : Asg, den σ f = some (t.val (Function.update σ x (u.val σ)))) ∧ ∀ y, Occurs y f → ShapeOk y := by
  obtain ⟨pe, qe⟩ := QTree.result hc ht he
  obtain ⟨pr, qr⟩ := QTree.result hc hu hr
  obtain ⟨f, hf, pf, qf⟩ := tot_subst_pol hc hm x pr e pe.polyE (pe.subOk hk)
  refine ⟨f, (tot_subst hf).gives (apiSubst_mono _ _ _), fun σ => ?_, fun y hy => pf.allOk y hy⟩
  rw [den_poly f pf.polyE, qf, pval_psubst, qr, qe, ← QTree.val_eq, ← QTree.val_eq]

/-- C66. The expansion of the result is the very expression that one gets by expanding the expression that
has been built with the replacement in the places of the symbol. -/
theorem C66_expanded (hc : cfg.Ok) (hm : cfg.maxPrime < 324) (t u : QTree) (ht : t.Ok cfg.maxPrime) (hu : u.Ok cfg.maxPrime)
    (x : Sym) (e r : Expr D) (he : Gives cfg (fun E => t.run E) e) (hr : Gives cfg (fun E => u.run E) r)
    (hk : ∀ (b : Expr D) (k : ℕ), Occurs (.pow b (.int k)) e → k < 2 ^ 29) :
    ∃ g, Gives cfg (fun E => (do
        let f ← Api.subst E e (.sym x) r
        Api.expand E f : M D (Expr D))) g ∧
      Gives cfg (fun E => (t.replace x u).expanded E) g ∧ Expanded g := by
  obtain ⟨pe, qe⟩ := QTree.result hc ht he
  obtain ⟨pr, qr⟩ := QTree.result hc hu hr
  obtain ⟨f, hf, pf, qf⟩ := tot_subst_pol hc hm x pr e pe.polyE (pe.subOk hk)
  obtain ⟨g, hg, eg, qg⟩ := tot_expand_pol hc pf
  obtain ⟨g', hg', eg', qg'⟩ := (t.replace x u).tot_expanded (D := D) hc (QTree.replace_ok x ht hu)
  have : g = g' := eg.unique eg' (by rw [qg, qf, qr, qe, qg', QTree.poly_replace])
  subst this
  exact ⟨g, (tot_bind (tot_subst hf) (tot_expand hg)).gives (substExpand_mono _ _ _),
    hg'.gives (QTree.expanded_mono _), eg.expanded⟩

/-- C66. If a number takes the place of the only symbol, the result is a number, the exact value of the
polynomial. -/
theorem C66_evaluate (hc : cfg.Ok) (hm : cfg.maxPrime < 324) (t : QTree) (ht : t.Ok cfg.maxPrime) (x : Sym) (q : ℚ) (e : Expr D)
    (he : Gives cfg (fun E => t.run E) e) (h1 : ∀ s : Sym, Occurs (.sym s) e → s = x)
    (hk : ∀ (b : Expr D) (k : ℕ), Occurs (.pow b (.int k)) e → k < 2 ^ 29) :
    ∃ v : ℚ, Gives cfg (fun E => Api.subst E e (.sym x) (.num (.rat q))) (.num (.rat v)) ∧
      ∀ σ : Asg, σ x = q → t.val σ = v := by
  obtain ⟨pe, qe⟩ := QTree.result hc ht he
  obtain ⟨f, hf, pf, qf⟩ := tot_subst_pol hc hm x (Pol.rat q) e pe.polyE (pe.subOk hk)
  have hg := (tot_subst hf).gives (apiSubst_mono e (.sym x) (.num (.rat q)))
  obtain ⟨n, hn⟩ := tot_subst hf
  have hr : Api.subst (eng cfg n) e (.sym x) (.num (.rat q)) = .ok (f, []) := hn n le_rfl
  have hq : ∀ s : Sym, ¬ Occurs (.sym s) (.num (.rat q) : Expr D) := by
    intro s hs
    rcases occurs_iff.1 hs with hs | ⟨o, ho, _⟩
    · cases hs
    · simp [operands] at ho
  obtain ⟨v, rfl⟩ := pf.num_of_no_symbol fun s hs => by
    have h2 := C11_subst_removes cfg hc n e (.num (.rat q)) x (hq x) f [] hr
    obtain ⟨a, ha, ho⟩ := C14_no_new_symbols cfg hc n (.subst e (.sym x) (.num (.rat q))) f [] hr s hs
    simp only [Call.sources, List.mem_cons, List.not_mem_nil, or_false] at ha
    rcases ha with rfl | rfl
    · rw [h1 s ho] at hs; exact h2 hs
    · exact hq s ho
  refine ⟨v, hg, fun σ hσ => ?_⟩
  have h3 : pval σ (Tsym.poly (.num (.rat v) : Expr D)) = pval (Function.update σ x (pval σ (Tsym.poly (.num (.rat q) : Expr D)))) t.poly := by
    rw [qf, pval_psubst, qe]
  simp only [poly_ratE] at h3
  have h4 : pval σ (MvPolynomial.C q) = (q : ℝ) := by simp [pval]
  have h5 : pval σ (MvPolynomial.C v) = (v : ℝ) := by simp [pval]
  rw [h4, h5, ← hσ, Function.update_eq_self, ← QTree.val_eq] at h3
  exact h3.symm

end

/-! ## Examples -/

namespace SubstPolyEx

open ExprEx PolyEx2

/-- (a + b)^2*3/2 - a -/
def t : QTree := .sub (.div (.mul (.pow (.add (.var sa) (.var sb)) 2) (.rat 3)) 2) (.var sa)

/-- 1 - 2*a -/
def u : QTree := .sub (.rat 1) (.mul (.rat 2) (.var sa))

/-- The expression of the first tree. -/
def e : Expr Hyb := sum [prod [int (-1), a], prod [.num (.rat (3 / 2)), pow (sum [a, b]) (int 2)]]

/-- The expression of the second tree. -/
def r : Expr Hyb := sum [int 1, prod [int (-2), a]]

theorem ok : t.Ok 323 ∧ u.Ok 323 := by
  simp only [t, u, QTree.Ok, sa, sb, SymId.Ok]
  norm_num
  decide

theorem e_gives : Gives (Cfg.std 323) (fun E : Eng Hyb => t.run E) e := by
  obtain ⟨x, hx, _⟩ := C52_value (D := Hyb) (Cfg.std_ok 323) t ok.1
  have h : t.run (eng (Cfg.std 323) 30) = .ok (e, []) := by krfl
  rcases hx.2 30 with h1 | h1
  · cases h.symm.trans h1
  · cases h.symm.trans h1; exact hx

theorem r_gives : Gives (Cfg.std 323) (fun E : Eng Hyb => u.run E) r := by
  obtain ⟨x, hx, _⟩ := C52_value (D := Hyb) (Cfg.std_ok 323) u ok.2
  have h : u.run (eng (Cfg.std 323) 30) = .ok (r, []) := by krfl
  rcases hx.2 30 with h1 | h1
  · cases h.symm.trans h1
  · cases h.symm.trans h1; exact hx

theorem pow_num {y x : Expr Hyb} {n : Number Hyb} : ¬ Occurs (.pow y x) (.num n) := by
  intro h
  rcases occurs_iff.1 h with h | ⟨o, ho, _⟩
  · cases h
  · simp [operands] at ho

theorem pow_sym {y x : Expr Hyb} {s : Sym} : ¬ Occurs (.pow y x) (.sym s) := by
  intro h
  rcases occurs_iff.1 h with h | ⟨o, ho, _⟩
  · cases h
  · simp [operands] at ho

theorem e_exps (y : Expr Hyb) (k : ℕ) (h : Occurs (.pow y (.int k)) e) : k < 2 ^ 29 := by
  rcases occurs_iff.1 h with h | ⟨o, ho, h⟩
  · cases h
  simp only [e, operands, List.mem_cons, List.not_mem_nil, or_false] at ho
  rcases ho with rfl | rfl
  · rcases occurs_iff.1 h with h | ⟨o, ho, h⟩
    · cases h
    simp only [operands, List.mem_cons, List.not_mem_nil, or_false] at ho
    rcases ho with rfl | rfl
    exacts [absurd h pow_num, absurd h pow_sym]
  · rcases occurs_iff.1 h with h | ⟨o, ho, h⟩
    · cases h
    simp only [operands, List.mem_cons, List.not_mem_nil, or_false] at ho
    rcases ho with rfl | rfl
    · exact absurd h pow_num
    rcases occurs_iff.1 h with h | ⟨o, ho, h⟩
    · simp only [Expr.pow.injEq, int, Expr.num.injEq, Number.rat.injEq] at h
      have : (k : ℚ) = 2 := by simpa using h.2
      have : k = 2 := by exact_mod_cast this
      omega
    simp only [operands, List.mem_cons, List.not_mem_nil, or_false] at ho
    rcases ho with rfl | rfl
    · rcases occurs_iff.1 h with h | ⟨o, ho, h⟩
      · cases h
      simp only [operands, List.mem_cons, List.not_mem_nil, or_false] at ho
      rcases ho with rfl | rfl
      exacts [absurd h pow_sym, absurd h pow_sym]
    · exact absurd h pow_num

/-- The hypotheses of C66, with `b` replaced by `1 - 2*a`. -/
example := C66_expanded (Cfg.std_ok 323) (by decide) t u ok.1 ok.2 sb e r e_gives r_gives e_exps

/-- The substitution. -/
example : Api.subst (eng (Cfg.std 323) 30) e b r = .ok (sum [prod [int (-1), a],
    prod [.num (.rat (3 / 2)), pow (sum [int 1, prod [int (-1), a]]) (int 2)]], []) := by krfl

/-- Two numbers, one after the other. -/
example : (do
    let f ← Api.subst (eng (Cfg.std 323) 30) e b (int 1)
    Api.subst (eng (Cfg.std 323) 30) f a (.num (.rat (1 / 3))) : M Hyb (Expr Hyb)) = .ok (.num (.rat (7 / 3)), []) := by krfl

end SubstPolyEx

end Tsym
