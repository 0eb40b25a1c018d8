import Verif.PolyTree
import Verif.Props.Cache
import Verif.Props.Values
import Mathlib.Algebra.MvPolynomial.Funext

set_option autoImplicit false
set_option linter.unusedSectionVars false
set_option linter.unusedSimpArgs false
set_option linter.unusedVariables false

/-!
# C47 – C49: polynomials

For expressions built from rational numbers and symbols with the operators `+`, `-`, `*` and powers of
symbols with natural exponents, the library always gives a result, without any condition, the result has
the right value, it is in the expected shape, and `expand` decides whether two of them are the same
function.
-/

namespace Tsym

open Expr

/-! ## Specification -/

/-- What a user writes: numbers, symbols, powers of symbols, and the operators. -/
inductive PTree
  | rat (q : ℚ)
  | var (s : Sym)
  | pow (s : Sym) (k : ℕ)
  | neg (t : PTree)
  | add (t u : PTree)
  | sub (t u : PTree)
  | mul (t u : PTree)

namespace PTree

/-- The value of the tree. -/
noncomputable def val (σ : Asg) : PTree → ℝ
  | rat q => q
  | var s => σ s
  | pow s k => σ s ^ k
  | neg t => - t.val σ
  | add t u => t.val σ + u.val σ
  | sub t u => t.val σ - u.val σ
  | mul t u => t.val σ * u.val σ

/-- The symbols have names that do not look like the ones of temporary symbols. -/
def Ok : PTree → Prop
  | rat _ => True
  | var s => s.id.Ok
  | pow s _ => s.id.Ok
  | neg t => t.Ok
  | add t u => t.Ok ∧ u.Ok
  | sub t u => t.Ok ∧ u.Ok
  | mul t u => t.Ok ∧ u.Ok

variable {D : Type} [Flt D]

/-- The calls of the library. -/
def run (E : Eng D) : PTree → M D (Expr D)
  | rat q => pure (.num (.rat q))
  | var s => pure (.sym s)
  | pow s k => Api.pow E (.sym s) (.int k)
  | neg t => do
    let a ← t.run E
    Api.neg E a
  | add t u => do
    let a ← t.run E
    let b ← u.run E
    Api.add E a b
  | sub t u => do
    let a ← t.run E
    let b ← u.run E
    Api.sub E a b
  | mul t u => do
    let a ← t.run E
    let b ← u.run E
    Api.mul E a b

end PTree

/-- The call returns `a`, under no conditions: with all depths of calls from some depth on, and with
smaller depths it does nothing else but stop at the bound. -/
def Gives {D : Type} [Flt D] (cfg : Cfg D) (f : Eng D → M D (Expr D)) (a : Expr D) : Prop :=
  (∃ N, ∀ n, N ≤ n → f (eng cfg n) = .ok (a, [])) ∧ ∀ n, f (eng cfg n) = .error .fuel ∨ f (eng cfg n) = .ok (a, [])

/-- The expansion of the expression of a tree. -/
def PTree.expanded {D : Type} [Flt D] (t : PTree) (E : Eng D) : M D (Expr D) := do
  let e ← t.run E
  Api.expand E e

/-- A symbol or a power of a symbol with an exponent from two on. -/
inductive SymPower {D : Type} [Flt D] : Expr D → Prop
  | sym (s : Sym) : SymPower (.sym s)
  | pow (s : Sym) (k : ℕ) : 2 ≤ k → SymPower (.pow (.sym s) (.int k))

/-- A number, a power of a symbol, or a product of such: at most one number, different from one, in front. -/
inductive Monomial {D : Type} [Flt D] : Expr D → Prop
  | num (q : ℚ) : Monomial (.num (.rat q))
  | power {e : Expr D} : SymPower e → Monomial e
  | prod {l : List (Expr D)} : 2 ≤ l.length → (∀ e ∈ l, SymPower e) → Monomial (.prod l)
  | scaled {q : ℚ} {l : List (Expr D)} : q ≠ 1 → l ≠ [] → (∀ e ∈ l, SymPower e) → Monomial (.prod (.num (.rat q) :: l))

/-- A monomial or a sum of at least two. -/
inductive Expanded {D : Type} [Flt D] : Expr D → Prop
  | mono {e : Expr D} : Monomial e → Expanded e
  | sum {l : List (Expr D)} : 2 ≤ l.length → (∀ e ∈ l, Monomial e) → Expanded (.sum l)

/-- The shape of C16 for one expression: a sum has at least two operands, none of them a sum, zero or
Undefined; a product has at least two operands, none of them a product, zero, one or Undefined; base and
exponent of a power are neither zero, nor one, nor Undefined. -/
def ShapeOk {D : Type} [Flt D] : Expr D → Prop
  | .sum l => 2 ≤ l.length ∧ ∀ e ∈ l, e ≠ .undef ∧ e ≠ .num (.rat 0) ∧ ∀ m, e ≠ .sum m
  | .prod l => 2 ≤ l.length ∧ ∀ e ∈ l, e ≠ .undef ∧ e ≠ .num (.rat 0) ∧ e ≠ .num (.rat 1) ∧ ∀ m, e ≠ .prod m
  | .pow b x => (b ≠ .undef ∧ b ≠ .num (.rat 0) ∧ b ≠ .num (.rat 1)) ∧ x ≠ .undef ∧ x ≠ .num (.rat 0) ∧ x ≠ .num (.rat 1)
  | _ => True

/-! ## The polynomial of a tree -/

/-- The polynomial of a tree. -/
noncomputable def PTree.poly : PTree → MvPolynomial Sym ℚ
  | .rat q => MvPolynomial.C q
  | .var s => MvPolynomial.X s
  | .pow s k => MvPolynomial.X s ^ k
  | .neg t => - t.poly
  | .add t u => t.poly + u.poly
  | .sub t u => t.poly - u.poly
  | .mul t u => t.poly * u.poly

theorem PTree.val_eq (σ : Asg) (t : PTree) : t.val σ = pval σ t.poly := by
  unfold pval
  induction t with
  | rat q => simp [PTree.val, PTree.poly]
  | var s => simp [PTree.val, PTree.poly]
  | pow s k => simp [PTree.val, PTree.poly]
  | neg t h => simp [PTree.val, PTree.poly, h]
  | add t u h1 h2 => simp [PTree.val, PTree.poly, h1, h2]
  | sub t u h1 h2 => simp [PTree.val, PTree.poly, h1, h2]
  | mul t u h1 h2 => simp [PTree.val, PTree.poly, h1, h2]

/-- Polynomials with the same values are the same, also if positive symbols have positive values only. -/
theorem pval_inj {p q : MvPolynomial Sym ℚ} (h : ∀ σ : Asg, σ.Respects → pval σ p = pval σ q) : p = q := by
  refine MvPolynomial.funext_set (fun _ => Set.Ici (0 : ℚ)) (fun _ => Set.Ici_infinite 0) fun x hx => ?_
  have h1 := h (fun s => (x s : ℝ)) (fun s _ => by
    have := hx s (Set.mem_univ s)
    have h0 : (0 : ℚ) ≤ x s := this
    show (0 : ℝ) ≤ (x s : ℝ)
    exact_mod_cast h0)
  have key : ∀ p : MvPolynomial Sym ℚ, pval (fun s => (x s : ℝ)) p = ((MvPolynomial.eval x p : ℚ) : ℝ) := by
    intro p
    unfold pval
    induction p using MvPolynomial.induction_on with
    | C a => simp
    | add p q hp hq => simp [hp, hq]
    | mul_X p s hp => simp [hp]
  rw [key, key] at h1
  exact_mod_cast h1

section

variable {D : Type} [Flt D] [ExactLt D] {cfg : Cfg D}

theorem Pol.mOne : Pol cfg (Expr.mOne : Expr D) := by
  have : (Expr.mOne : Expr D) = .num (.rat (-1)) := by simp [Expr.mOne]
  rw [this]; exact Pol.rat _

theorem poly_mOne : poly (mOne : Expr D) = -1 := by
  have : (mOne : Expr D) = .num (.rat (-1)) := by simp [Expr.mOne]
  rw [this, poly_ratE]; simp

theorem tot_minus_pol (hc : cfg.Ok) {e : Expr D} (h : Pol cfg e) :
    ∃ r, Tot cfg (fun E => E.minus e) r ∧ Pol cfg r ∧ poly r = - poly e := by
  obtain ⟨r, hr, h1, h2⟩ := tot_prod_pol hc (es := [mOne, e]) (by simp) (by
    intro x hx
    rcases List.mem_cons.1 hx with rfl | hx
    · exact Pol.mOne
    · rw [List.mem_singleton.1 hx]; exact h)
  refine ⟨r, ?_, h1, by rw [h2]; simp [poly_mOne]⟩
  simp only [Eng.minus]
  exact tot_prod hr

/-- The calls for a tree. -/
theorem PTree.tot (hc : cfg.Ok) (t : PTree) (h : t.Ok) :
    ∃ e, Tot cfg (fun E => t.run E) e ∧ Pol cfg e ∧ Tsym.poly e = t.poly := by
  induction t with
  | rat q => exact ⟨_, tot_pure _, Pol.rat q, by simp [PTree.poly, poly_ratE]⟩
  | var s => exact ⟨_, tot_pure _, Pol.sym h, by simp [PTree.poly, Tsym.poly]⟩
  | pow s k =>
    match k with
    | 0 =>
      refine ⟨one, tot_pow ?_, ?_, by simp [PTree.poly, one_eq, poly_ratE]⟩
      · have e2 : (int (0 : ℕ) : Expr D).isZero = true := by rw [isZero_int]; simp
        have e1 : (int (0 : ℕ) : Expr D).isUndefined = false := rfl
        have e3 : (Expr.sym s : Expr D).isUndefined = false := rfl
        simp only [powCreate, e1, e2, e3, Bool.or_self, Bool.true_or, Bool.false_eq_true, if_false, if_true]
        exact tot_pure _
      · rw [one_eq]; exact Pol.rat 1
    | 1 =>
      refine ⟨.sym s, tot_pow ?_, Pol.sym h, by simp [PTree.poly, Tsym.poly]⟩
      have e2 : (int (1 : ℕ) : Expr D).isZero = false := by rw [isZero_int]; simp
      have e4 : (int (1 : ℕ) : Expr D).isOne = true := by rw [isOne_int]; simp
      have e1 : (int (1 : ℕ) : Expr D).isUndefined = false := rfl
      have e3 : (Expr.sym s : Expr D).isUndefined = false := rfl
      have e5 : (Expr.sym s : Expr D).isOne = false := rfl
      have e6 : (Expr.sym s : Expr D).isZero = false := rfl
      simp only [powCreate, e1, e2, e3, e4, e5, e6, Bool.or_self, Bool.true_or, Bool.false_eq_true, if_false, if_true]
      exact tot_pure _
    | k + 2 =>
      refine ⟨_, tot_pow (tot_powCreate (pbase_sym s) (k := k + 2) (by omega)), ?_, ?_⟩
      · have := (EP.symFac (D := D) (x := (s, k + 2)) ⟨h, by simp⟩).pol (cfg := cfg)
        exact this
      · have hf : PFac cfg ((.sym s : Expr D), k + 2) := ⟨pbase_sym s, by simp⟩
        rw [hf.poly]; simp [PTree.poly, Tsym.poly]
  | neg t ih =>
    obtain ⟨e, he, pe, qe⟩ := ih h
    obtain ⟨r, hr, pr, qr⟩ := tot_minus_pol hc pe
    exact ⟨r, tot_bind he hr, pr, by rw [qr, qe, PTree.poly]⟩
  | add t u ih1 ih2 =>
    obtain ⟨e, he, pe, qe⟩ := ih1 h.1
    obtain ⟨f, hf, pf, qf⟩ := ih2 h.2
    obtain ⟨r, hr, pr, qr⟩ := tot_sum_pol hc (es := [e, f]) (by simp) (by simpa using ⟨pe, pf⟩)
    exact ⟨r, tot_bind he (tot_bind hf (tot_sum hr)), pr, by rw [qr]; simp [qe, qf, PTree.poly]⟩
  | sub t u ih1 ih2 =>
    obtain ⟨e, he, pe, qe⟩ := ih1 h.1
    obtain ⟨f, hf, pf, qf⟩ := ih2 h.2
    obtain ⟨g, hg, pg, qg⟩ := tot_minus_pol hc pf
    obtain ⟨r, hr, pr, qr⟩ := tot_sum_pol hc (es := [e, g]) (by simp) (by simpa using ⟨pe, pg⟩)
    exact ⟨r, tot_bind he (tot_bind hf (tot_bind hg (tot_sum hr))), pr, by
      rw [qr]; simp [qe, qf, qg, PTree.poly, sub_eq_add_neg]⟩
  | mul t u ih1 ih2 =>
    obtain ⟨e, he, pe, qe⟩ := ih1 h.1
    obtain ⟨f, hf, pf, qf⟩ := ih2 h.2
    obtain ⟨r, hr, pr, qr⟩ := tot_prod_pol hc (es := [e, f]) (by simp) (by simpa using ⟨pe, pf⟩)
    exact ⟨r, tot_bind he (tot_bind hf (tot_prod hr)), pr, by rw [qr]; simp [qe, qf, PTree.poly]⟩

/-! ## Shapes -/

/-- Every expression inside has the shape. -/
def AllOk (e : Expr D) : Prop := ∀ x, Occurs x e → ShapeOk x

theorem AllOk.mk {e : Expr D} (h : ShapeOk e) (ho : ∀ o ∈ operands e, AllOk o) : AllOk e := by
  intro x hx
  rcases occurs_iff.1 hx with rfl | ⟨o, h1, h2⟩
  · exact h
  · exact ho o h1 x h2

theorem AllOk.num (n : Number D) : AllOk (.num n) := AllOk.mk trivial (by simp [operands])
theorem AllOk.sym (s : Sym) : AllOk (.sym s : Expr D) := AllOk.mk trivial (by simp [operands])

theorem AllOk.fac {b : Expr D} {k : ℕ} (hf : PFac cfg (b, k)) (h : AllOk b) : AllOk (Tsym.fac (b, k)) := by
  have hb : PFac cfg (b, 1) := ⟨hf.base, le_refl _⟩
  by_cases h1 : k = 1
  · simpa [Tsym.fac, h1] using h
  · have hk : 2 ≤ k := by have : 1 ≤ k := hf.one_le; omega
    have e : Tsym.fac (b, k) = .pow b (.int k) := by simp [Tsym.fac, h1]
    rw [e]
    refine AllOk.mk ⟨⟨?_, ?_, ?_⟩, ?_, ?_, ?_⟩ ?_
    · rintro rfl; exact absurd hb.isUndefined (by simp [Tsym.fac, isUndefined])
    · exact hb.ne_num _
    · exact hb.ne_num _
    · simp [int]
    · intro e; simp [int] at e; omega
    · intro e; simp [int] at e; omega
    · intro o ho
      simp only [operands, List.mem_cons, List.not_mem_nil, or_false] at ho
      rcases ho with rfl | rfl
      exacts [h, AllOk.num _]

theorem AllOk.mexpr {q : ℚ} {P : List (Expr D × ℕ)} (hq : q ≠ 0) (hP : PFacs cfg P) (h : ∀ f ∈ P, AllOk (Tsym.fac f)) :
    AllOk (mexpr q P) := by
  rcases mexpr_cases q P with ⟨rfl, e⟩ | ⟨f, rfl, _, e⟩ | ⟨h2, h3, e⟩
  · rw [e]; exact AllOk.num _
  · rw [e]; exact h f (by simp)
  · rw [e]
    have hm : ∀ x ∈ rl q P, (x = .num (.rat q) ∧ q ≠ 1) ∨ ∃ f ∈ P, x = Tsym.fac f := by
      intro x hx
      unfold rl at hx
      rcases List.mem_append.1 hx with hx | hx
      · split at hx
        · simp at hx
        · rename_i h1; exact .inl ⟨List.mem_singleton.1 hx, h1⟩
      · obtain ⟨f, hf, rfl⟩ := List.mem_map.1 hx
        exact .inr ⟨f, hf, rfl⟩
    refine AllOk.mk ⟨?_, ?_⟩ ?_
    · exact h3
    · intro x hx
      rcases hm x hx with ⟨rfl, h1⟩ | ⟨f, hf, rfl⟩
      · refine ⟨by simp, ?_, ?_, by simp⟩
        · simpa using hq
        · simpa using h1
      · refine ⟨?_, (hP f hf).ne_num _, (hP f hf).ne_num _, ?_⟩
        · intro e; have := (hP f hf).isUndefined; rw [e] at this; cases this
        · intro m e; have := (hP f hf).isProduct; rw [e] at this; cases this
    · intro x hx
      rcases hm x hx with ⟨rfl, _⟩ | ⟨f, hf, rfl⟩
      exacts [AllOk.num _, h f hf]

theorem SL.allOk_sum {B : Expr D → Prop} {L : List (Mono D)} (hL : SL cfg B L) (h2 : 2 ≤ L.length) (h : ∀ m ∈ L, AllOk (em m)) :
    AllOk (.sum (L.map em)) := by
  refine AllOk.mk ⟨by simpa using h2, ?_⟩ ?_
  · intro x hx
    obtain ⟨m, hm, rfl⟩ := List.mem_map.1 hx
    have s := hL.sm m hm
    refine ⟨?_, ?_, ?_⟩
    · intro e; have := mexpr_isUndefined (q := m.1) s.facs; unfold em at e; rw [e] at this; cases this
    · intro e; have := mexpr_isZero s.ne s.facs; unfold em at e; rw [e, isZero_ratE] at this; simp at this
    · intro l e; have := s.isSum; unfold em at e; rw [e] at this; cases this
  · intro x hx
    obtain ⟨m, hm, rfl⟩ := List.mem_map.1 hx
    exact h m hm

theorem XB.allOk {b : Expr D} (h : XB cfg b) : AllOk b := by
  induction h with
  | sym s _ => exact AllOk.sym s
  | sum L hL h2 hb ih =>
    refine hL.allOk_sum h2 fun m hm => ?_
    have s := hL.sm m hm
    exact AllOk.mexpr s.ne s.facs fun f hf => AllOk.fac (s.facs f hf) (ih m hm f hf)

theorem Pol.allOk {e : Expr D} (h : Pol cfg e) : AllOk e := by
  rcases h.cases with rfl | ⟨q, P, hq, hP, hb, rfl⟩
  · rw [zero_eq]; exact AllOk.num _
  · exact AllOk.mexpr hq hP fun f hf => AllOk.fac (hP f hf) (hb f hf).allOk

theorem symPower_symFac {x : Sym × ℕ} (h : 1 ≤ x.2) : SymPower (fac ((.sym x.1 : Expr D), x.2)) := by
  by_cases h1 : x.2 = 1
  · have : fac ((.sym x.1 : Expr D), x.2) = .sym x.1 := by simp [fac, h1]
    rw [this]; exact .sym _
  · have : fac ((.sym x.1 : Expr D), x.2) = .pow (.sym x.1) (.int x.2) := by simp [fac, h1]
    rw [this]; exact .pow _ _ (by omega)

theorem IsKey.monomial {m : Mono D} {K : Key} (h : IsKey m.2 K) : Monomial (em m) := by
  have hp : ∀ e ∈ m.2.map fac, SymPower e := by
    intro e he
    obtain ⟨f, hf, rfl⟩ := List.mem_map.1 he
    rw [h.2.2] at hf
    obtain ⟨x, hx, rfl⟩ := List.mem_map.1 hf
    exact symPower_symFac (h.1 x hx).2
  unfold em
  rcases mexpr_cases m.1 m.2 with ⟨_, e⟩ | ⟨f, hf, _, e⟩ | ⟨h2, h3, e⟩
  · rw [e]; exact .num _
  · rw [e]; exact .power (hp _ (by rw [hf]; simp))
  · rw [e]
    by_cases h1 : m.1 = 1
    · rw [h1, rl_one] at h3 ⊢
      exact .prod h3 hp
    · rw [rl_ne h1]; exact .scaled h1 (by simpa using h2) hp

theorem EP.expanded {e : Expr D} (h : EP e) : Expanded e := by
  rcases h.cases with rfl | ⟨m, K, _, hK, rfl⟩ | ⟨L, hL, h2, rfl⟩
  · rw [zero_eq]; exact .mono (.num _)
  · exact .mono hK.monomial
  · refine .sum (by simpa using h2) ?_
    intro e he
    obtain ⟨m, hm, rfl⟩ := List.mem_map.1 he
    obtain ⟨K, hK⟩ := hL.ks.key m hm
    exact hK.monomial

/-! ## Outcomes -/

theorem Tot.gives {f : Eng D → M D (Expr D)} {a : Expr D} (h : Tot cfg f a) (hm : Lean.Order.monotone f) : Gives cfg f a := by
  refine ⟨h, fun n => ?_⟩
  obtain ⟨N, hN⟩ := h
  have h1 := hm _ _ (eng_le cfg (Nat.le_max_left n N))
  rw [hN _ (Nat.le_max_right n N)] at h1
  exact h1

open Lean.Order in
theorem PTree.run_mono (t : PTree) : monotone fun E : Eng D => t.run E := by
  induction t with
  | rat q => simp only [PTree.run]; monotonicity
  | var s => simp only [PTree.run]; monotonicity
  | pow s k => simp only [PTree.run, Api.pow]; repeat' monotonicity
  | neg t h =>
    simp only [PTree.run, Api.neg]
    refine monotone_bind (m := M D) _ _ h (monotone_of_monotone_apply _ fun a => ?_)
    repeat' monotonicity
  | add t u h1 h2 =>
    simp only [PTree.run, Api.add]
    refine monotone_bind (m := M D) _ _ h1 (monotone_of_monotone_apply _ fun a => ?_)
    refine monotone_bind (m := M D) _ _ h2 (monotone_of_monotone_apply _ fun b => ?_)
    repeat' monotonicity
  | sub t u h1 h2 =>
    simp only [PTree.run, Api.sub]
    refine monotone_bind (m := M D) _ _ h1 (monotone_of_monotone_apply _ fun a => ?_)
    refine monotone_bind (m := M D) _ _ h2 (monotone_of_monotone_apply _ fun b => ?_)
    repeat' monotonicity
  | mul t u h1 h2 =>
    simp only [PTree.run, Api.mul]
    refine monotone_bind (m := M D) _ _ h1 (monotone_of_monotone_apply _ fun a => ?_)
    refine monotone_bind (m := M D) _ _ h2 (monotone_of_monotone_apply _ fun b => ?_)
    repeat' monotonicity

open Lean.Order in
theorem PTree.expanded_mono (t : PTree) : monotone fun E : Eng D => t.expanded E := by
  simp only [PTree.expanded, Api.expand]
  refine monotone_bind (m := M D) _ _ t.run_mono (monotone_of_monotone_apply _ fun a => ?_)
  repeat' monotonicity

open Lean.Order in
theorem apiAdd_mono (a b : Expr D) : monotone fun E : Eng D => Api.add E a b := by
  simp only [Api.add]; repeat' monotonicity

open Lean.Order in
theorem apiPow_mono (a b : Expr D) : monotone fun E : Eng D => Api.pow E a b := by
  simp only [Api.pow]; repeat' monotonicity

open Lean.Order in
theorem apiExpand_mono (a : Expr D) : monotone fun E : Eng D => Api.expand E a := by
  simp only [Api.expand]; repeat' monotonicity

theorem PTree.tot_expanded (hc : cfg.Ok) (t : PTree) (h : t.Ok) :
    ∃ r, Tot cfg (fun E => t.expanded E) r ∧ EP r ∧ Tsym.poly r = t.poly := by
  obtain ⟨e, he, pe, qe⟩ := t.tot hc h
  obtain ⟨r, hr, pr, qr⟩ := tot_expand_pol hc pe
  exact ⟨r, tot_bind he (tot_expand hr), pr, by rw [qr, qe]⟩

theorem Gives.unique {f : Eng D → M D (Expr D)} {a b : Expr D} (h : Gives cfg f a) (h' : Gives cfg f b) : a = b :=
  Tot.unique h.1 h'.1

end

/-! ## C47 -/

section

variable {D : Type} [Flt D] [LawfulFlt D] {cfg : Cfg D}

/-- C47. A polynomial expression always has a result, that result has the value of the expression for
all values of the symbols, and nothing is assumed about them. -/
theorem C47_value (hc : cfg.Ok) (t : PTree) (h : t.Ok) :
    ∃ e, Gives cfg (fun E => t.run E) e ∧ ∀ σ : Asg, den σ e = some (t.val σ) := by
  obtain ⟨e, he, pe, qe⟩ := t.tot hc h
  exact ⟨e, he.gives t.run_mono, fun σ => by rw [den_poly e pe.polyE, qe, t.val_eq]⟩

/-- C47 for powers: where a polynomial expression is a sum, it can be raised to any power from two on. -/
theorem C47_power (hc : cfg.Ok) (t : PTree) (h : t.Ok) (l : List (Expr D)) (hl : Gives cfg (fun E => t.run E) (.sum l))
    (k : ℕ) (hk : 2 ≤ k) :
    Gives cfg (fun E => Api.pow E (.sum l) (.int k)) (.pow (.sum l) (.int k)) ∧
    (∀ σ : Asg, den σ (.pow (.sum l) (.int k) : Expr D) = some (t.val σ ^ k)) ∧
    ∃ r, Gives cfg (fun E => Api.expand E (.pow (.sum l) (.int k))) r ∧ Expanded r ∧
      ∀ σ : Asg, den σ r = some (t.val σ ^ k) := by
  obtain ⟨e, he, pe, qe⟩ := t.tot hc h
  have : e = .sum l := he.unique hl.1
  subst this
  obtain ⟨L, hL, e⟩ := pe
  match L, hL, e with
  | [], _, e => cases e
  | [m], hL, e =>
    have := hL.cons.1.isSum
    have e' : (Expr.sum l : Expr D) = mexpr m.1 m.2 := e
    rw [← e'] at this; cases this
  | m :: n :: L, hL, e =>
    have hx : XB cfg (.sum l : Expr D) := by
      rw [e]; exact .sum _ (hL.mono fun _ _ _ _ => trivial) (by simp) fun m hm => (hL.sm m hm).base
    have hf : fac ((.sum l : Expr D), k) = .pow (.sum l) (.int k) := by simp [fac, show k ≠ 1 by omega]
    have hP : PFac cfg ((.sum l : Expr D), k) := ⟨hx.pbase, by simp; omega⟩
    have hp : ∀ σ : Asg, pval σ (poly (.pow (.sum l) (.int k) : Expr D)) = t.val σ ^ k := by
      intro σ
      rw [← hf, hP.poly, t.val_eq, ← qe]
      simp [pval]
    obtain ⟨r, hr, er, pr⟩ := hx.xe hc k (by omega)
    rw [hf] at hr pr
    refine ⟨?_, ?_, r, ?_, er.expanded, ?_⟩
    · rw [← hf]; exact Tot.gives (tot_pow (tot_powCreate hx.pbase hk)) (apiPow_mono _ _)
    · intro σ; rw [den_poly _ (by rw [← hf]; exact hP.polyE), hp]
    · exact Tot.gives (tot_expand hr) (apiExpand_mono _)
    · intro σ; rw [den_poly _ er.polyE, pr, hp]

/-- C16 for polynomial expressions: all expressions in the result have the shape. Missing: other
expressions, where it is false (`ShapeEx.C16_false_nested`). -/
theorem C16_polynomial_partial (hc : cfg.Ok) (t : PTree) (h : t.Ok) (e : Expr D) (he : Gives cfg (fun E => t.run E) e)
    (x : Expr D) (hx : Occurs x e) : ShapeOk x := by
  obtain ⟨e', he', pe, _⟩ := t.tot hc h
  have : e' = e := he'.unique he.1
  subst this
  exact pe.allOk x hx

/-! ## C48 -/

/-- C48. The expansion of a polynomial expression is a sum of monomials with the same value. -/
theorem C48_expanded (hc : cfg.Ok) (t : PTree) (h : t.Ok) :
    ∃ r, Gives cfg (fun E => t.expanded E) r ∧ Expanded r ∧ ∀ σ : Asg, den σ r = some (t.val σ) := by
  obtain ⟨r, hr, er, qr⟩ := t.tot_expanded (D := D) hc h
  exact ⟨r, hr.gives t.expanded_mono, er.expanded, fun σ => by rw [den_poly r er.polyE, qr, t.val_eq]⟩

/-- C48. Two polynomial expressions have equal expansions if and only if they have the same value for all
values of the symbols. -/
theorem C48_identity (hc : cfg.Ok) (t u : PTree) (ht : t.Ok) (hu : u.Ok) (r s : Expr D)
    (hr : Gives cfg (fun E => t.expanded E) r) (hs : Gives cfg (fun E => u.expanded E) s) :
    isEqual r s = true ↔ ∀ σ : Asg, σ.Respects → t.val σ = u.val σ := by
  obtain ⟨r', hr', er, qr⟩ := t.tot_expanded (D := D) hc ht
  obtain ⟨s', hs', es, qs⟩ := u.tot_expanded (D := D) hc hu
  have e1 : r' = r := hr'.unique hr.1
  have e2 : s' = s := hs'.unique hs.1
  subst e1 e2
  rw [isEqual_eq _ (isPolyE_exact _ er.polyE) _ (isPolyE_exact _ es.polyE)]
  constructor
  · intro e σ _
    rw [t.val_eq, u.val_eq, ← qr, ← qs, e]
  · intro hv
    refine er.unique es ?_
    rw [qr, qs]
    exact pval_inj fun σ hσ => by rw [← t.val_eq, ← u.val_eq, hv σ hσ]

/-- C48. The expansion of the difference of two polynomial expressions is zero if and only if they have the
same value for all values of the symbols. -/
theorem C48_difference (hc : cfg.Ok) (t u : PTree) (ht : t.Ok) (hu : u.Ok) (r : Expr D)
    (hr : Gives cfg (fun E => (PTree.sub t u).expanded E) r) :
    isEqual r (.num (.rat 0)) = true ↔ ∀ σ : Asg, σ.Respects → t.val σ = u.val σ := by
  have h0 : Gives cfg (fun E => (PTree.rat 0).expanded E) (.num (.rat 0) : Expr D) :=
    Tot.gives (tot_bind (tot_pure _) (tot_expand (by simp only [expand]; exact tot_pure _))) (PTree.expanded_mono _)
  rw [C48_identity hc (.sub t u) (.rat 0) ⟨ht, hu⟩ trivial r _ hr h0]
  refine forall_congr' fun σ => forall_congr' fun _ => ?_
  simp [PTree.val, sub_eq_zero]

/-- C48. An expansion does not change if it is expanded again. -/
theorem C48_idempotent (hc : cfg.Ok) (t : PTree) (ht : t.Ok) (r : Expr D) (hr : Gives cfg (fun E => t.expanded E) r) :
    Gives cfg (fun E => Api.expand E r) r := by
  obtain ⟨r', hr', er, qr⟩ := t.tot_expanded (D := D) hc ht
  have e1 : r' = r := hr'.unique hr.1
  subst e1
  exact Tot.gives (tot_expand (tot_expand_ep hc er)) (apiExpand_mono _)

/-! ## C49 -/

/-- C49. The sum of two expanded polynomials does not depend on the order, and it is expanded again. -/
theorem C49_add_comm (hc : cfg.Ok) (t u : PTree) (ht : t.Ok) (hu : u.Ok) (r s : Expr D)
    (hr : Gives cfg (fun E => t.expanded E) r) (hs : Gives cfg (fun E => u.expanded E) s) :
    ∃ w, Gives cfg (fun E => Api.add E r s) w ∧ Gives cfg (fun E => Api.add E s r) w ∧
      Gives cfg (fun E => (PTree.add t u).expanded E) w := by
  obtain ⟨r', hr', er, qr⟩ := t.tot_expanded (D := D) hc ht
  obtain ⟨s', hs', es, qs⟩ := u.tot_expanded (D := D) hc hu
  have e1 : r' = r := hr'.unique hr.1
  have e2 : s' = s := hs'.unique hs.1
  subst e1 e2
  obtain ⟨w, hw, ew, qw⟩ := tot_sum_ep hc (es := [r', s']) (by simp) (by simpa using ⟨er, es⟩)
  obtain ⟨w', hw', ew', qw'⟩ := tot_sum_ep hc (es := [s', r']) (by simp) (by simpa using ⟨es, er⟩)
  obtain ⟨w2, hw2, ew2, qw2⟩ := (PTree.add t u).tot_expanded (D := D) hc ⟨ht, hu⟩
  have e1 : w' = w := ew'.unique ew (by rw [qw, qw']; simp [add_comm])
  have e2 : w2 = w := ew2.unique ew (by rw [qw, qw2]; simp [PTree.poly, qr, qs])
  subst e1 e2
  exact ⟨_, Tot.gives (tot_sum hw) (apiAdd_mono _ _), Tot.gives (tot_sum hw') (apiAdd_mono _ _),
    hw2.gives (PTree.expanded_mono _)⟩

/-- C49. Rearranging a polynomial expression by the laws of commutative rings does not change its
expansion: here any two trees of which the values agree as polynomials. In particular operands of `+` and
`*` can be exchanged. Missing for C31: expressions that are not expanded, and others. -/
theorem C31_polynomial_partial (hc : cfg.Ok) (t u : PTree) (ht : t.Ok) (hu : u.Ok) :
    ∃ r s, Gives cfg (fun E => (PTree.add t u).expanded E) r ∧ Gives cfg (fun E => (PTree.add u t).expanded E) r ∧
      Gives cfg (fun E => (PTree.mul t u).expanded E) s ∧ Gives cfg (fun E => (PTree.mul u t).expanded E) (s : Expr D) := by
  obtain ⟨r, hr, er, qr⟩ := (PTree.add t u).tot_expanded (D := D) hc ⟨ht, hu⟩
  obtain ⟨r', hr', er', qr'⟩ := (PTree.add u t).tot_expanded (D := D) hc ⟨hu, ht⟩
  obtain ⟨s, hs, es, qs⟩ := (PTree.mul t u).tot_expanded (D := D) hc ⟨ht, hu⟩
  obtain ⟨s', hs', es', qs'⟩ := (PTree.mul u t).tot_expanded (D := D) hc ⟨hu, ht⟩
  have e1 : r' = r := er'.unique er (by rw [qr, qr']; simp [PTree.poly, add_comm])
  have e2 : s' = s := es'.unique es (by rw [qs, qs']; simp [PTree.poly, mul_comm])
  subst e1 e2
  exact ⟨_, _, hr.gives (PTree.expanded_mono _), hr'.gives (PTree.expanded_mono _), hs.gives (PTree.expanded_mono _),
    hs'.gives (PTree.expanded_mono _)⟩

end

/-! ## Examples -/

namespace PolyEx2

open ExprEx SymEx

/-- The symbol a. -/
def sa : Sym := ⟨.named ⟨['a'], [], []⟩, false⟩
/-- The symbol b. -/
def sb : Sym := ⟨.named ⟨['b'], [], []⟩, false⟩

/-- (a + b)*(a - b)*2 -/
def t1 : PTree := .mul (.mul (.add (.var sa) (.var sb)) (.sub (.var sa) (.var sb))) (.rat 2)
/-- 2*a^2 - 2*b^2 -/
def t2 : PTree := .sub (.mul (.rat 2) (.pow sa 2)) (.mul (.rat 2) (.pow sb 2))

theorem t1_ok : t1.Ok := by
  simp only [t1, PTree.Ok, sa, sb, SymId.Ok, Name.value]; decide
theorem t2_ok : t2.Ok := by
  simp only [t2, PTree.Ok, sa, sb, SymId.Ok, Name.value]; decide

/-- The products stay as they are written ... -/
example : t1.run lib = .ok (prod [int 2, sum [a, b], sum [a, prod [int (-1), b]]], []) := by krfl
/-- ... and the expansion is the difference of the squares. -/
example : t1.expanded lib = .ok (sum [prod [int 2, pow a (int 2)], prod [int (-2), pow b (int 2)]], []) := by krfl
example : t2.expanded lib = .ok (sum [prod [int 2, pow a (int 2)], prod [int (-2), pow b (int 2)]], []) := by krfl

/-- What C48 says here. -/
example : ∀ σ : Asg, σ.Respects → t1.val σ = t2.val σ := by
  intro σ _; simp [t1, t2, PTree.val]; ring

/-- C48 the other way round: the expansion of a difference that is not zero. -/
example : (PTree.sub t1 (.var sa)).expanded lib =
    .ok (sum [prod [int (-1), a], prod [int 2, pow a (int 2)], prod [int (-2), pow b (int 2)]], []) := by krfl

/-- The hypothesis of C47_power. -/
example : (PTree.add (.var sa) (.var sb)).run lib = .ok (sum [a, b], []) := by krfl
example : Gives (Cfg.std 1000) (fun E => (PTree.add (.var sa) (.var sb)).run E) (sum [a, b]) := by
  obtain ⟨e, he, _⟩ := C47_value (D := Hyb) (Cfg.std_ok 1000) (PTree.add (.var sa) (.var sb))
    (by simp only [PTree.Ok, sa, sb, SymId.Ok, Name.value]; decide)
  have h : (PTree.add (.var sa) (.var sb)).run (eng (Cfg.std 1000) 30) = .ok (sum [a, b], []) := by krfl
  rcases he.2 30 with h1 | h1
  · cases h.symm.trans h1
  · cases h.symm.trans h1; exact he

end PolyEx2

end Tsym
