import Verif.PowPoly
import Verif.Props.Polynomials

set_option autoImplicit false
set_option linter.unusedSectionVars false
set_option linter.unusedSimpArgs false
set_option linter.unusedVariables false

/-!
# Helper lemmas: substitution in polynomial expressions
-/

namespace Tsym

open Expr

variable {D : Type} [Flt D] [ExactLt D] {cfg : Cfg D}

/-- Sub-expressions of sub-expressions. -/
theorem occurs_trans' {x y z : Expr D} (h : Occurs x y) (h' : Occurs y z) : Occurs x z := by
  induction h' with
  | refl => exact h
  | op ho _ ih => exact .op ho ih

/-- The polynomial with another polynomial for a symbol. -/
noncomputable def psubst (x : Sym) (r p : MvPolynomial Sym ℚ) : MvPolynomial Sym ℚ :=
  MvPolynomial.aeval (fun t => if t = x then r else MvPolynomial.X t) p

theorem pval_psubst (σ : Asg) (x : Sym) (r p : MvPolynomial Sym ℚ) :
    pval σ (psubst x r p) = pval (Function.update σ x (pval σ r)) p := by
  unfold psubst pval
  induction p using MvPolynomial.induction_on with
  | C a => simp
  | add p q h1 h2 => simp only [map_add, h1, h2]
  | mul_X p t h =>
    simp only [map_mul, h, MvPolynomial.aeval_X]
    congr 1
    by_cases ht : t = x
    · subst ht; simp
    · simp [ht, Function.update_of_ne ht]

/-- The symbols that occur are allowed ones, the exponents are not too large, lists have operands. -/
structure SubOk (e : Expr D) : Prop where
  shape : ∀ x, Occurs x e → ShapeOk x
  names : ∀ s : Sym, Occurs (.sym s) e → s.id.Ok
  exps : ∀ (b : Expr D) (k : ℕ), Occurs (.pow b (.int k)) e → k < 2 ^ 29

theorem SubOk.op {e o : Expr D} (h : SubOk e) (ho : o ∈ operands e) : SubOk o :=
  ⟨fun x hx => h.shape x (.op ho hx), fun s hs => h.names s (.op ho hs), fun b k hk => h.exps b k (.op ho hk)⟩

theorem forall2_poly_sum {f : MvPolynomial Sym ℚ →+* MvPolynomial Sym ℚ} {l m : List (Expr D)}
    (h : List.Forall₂ (fun a b => Pol cfg b ∧ poly b = f (poly a)) l m) :
    (∀ b ∈ m, Pol cfg b) ∧ (m.map poly).sum = f (l.map poly).sum ∧ (m.map poly).prod = f (l.map poly).prod ∧
      m.length = l.length := by
  induction h with
  | nil => simp
  | cons h _ ih =>
    obtain ⟨h1, h2, h3, h4⟩ := ih
    refine ⟨?_, ?_, ?_, by simp [h4]⟩
    · intro b hb
      rcases List.mem_cons.1 hb with rfl | hb
      exacts [h.1, h1 b hb]
    · simp [h2, h.2]
    · simp [h3, h.2]

theorem tot_subst_pol (hc : cfg.Ok) (hm : cfg.maxPrime < 324) (x : Sym) {r : Expr D} (hr : Pol cfg r) (e : Expr D)
    (hp : isPolyE e = true) (h : SubOk e) :
    ∃ f, Tot cfg (fun E => subst E (.sym x) r e) f ∧ Pol cfg f ∧ poly f = psubst x (poly r) (poly e) := by
  induction e using opInd with
  | h e ih =>
    have list : ∀ l : List (Expr D), operands e = l → isPolyL l = true → ∃ m, Tot cfg (fun E => substList E (.sym x) r l) m ∧
        List.Forall₂ (fun a b => Pol cfg b ∧ poly b = (MvPolynomial.aeval (fun t => if t = x then poly r else MvPolynomial.X t) :
          MvPolynomial Sym ℚ →ₐ[ℚ] MvPolynomial Sym ℚ).toRingHom (poly a)) l m := by
      intro l hl hpl
      refine tot_mapL_ex (cfg := cfg) (f := fun E a => E.subst (.sym x) r a) fun a ha => ?_
      obtain ⟨f, hf, pf, qf⟩ := ih a (by rw [hl]; exact ha) (isPolyL_iff.1 hpl a ha) (h.op (by rw [hl]; exact ha))
      exact ⟨f, tot_subst hf, pf, qf⟩
    match e, hp with
    | .num (.rat q), _ =>
      refine ⟨.num (.rat q), ?_, Pol.rat q, by simp [psubst, poly]⟩
      simp only [subst, isEqual, Bool.false_eq_true, if_false]
      exact tot_pure _
    | .sym s, _ =>
      simp only [subst, isEqual, decide_eq_true_eq]
      by_cases hs : s = x
      · subst hs
        exact ⟨r, by simp only [if_true]; exact tot_pure _, hr, by simp [psubst, poly]⟩
      · exact ⟨.sym s, by simp only [hs, if_false]; exact tot_pure _, Pol.sym (h.names s .refl), by simp [psubst, poly, hs]⟩
    | .sum l, hp =>
      obtain ⟨m, hm1, hm2⟩ := list l rfl (by simpa [isPolyE] using hp)
      obtain ⟨h1, h2, _, h4⟩ := forall2_poly_sum hm2
      have hl := (h.shape _ .refl : ShapeOk (.sum l)).1
      obtain ⟨f, hf, pf, qf⟩ := tot_sum_pol hc (es := m) (by rintro rfl; simp at h4; omega) h1
      refine ⟨f, ?_, pf, ?_⟩
      · simp only [subst, isEqual, Bool.false_eq_true, if_false]
        exact tot_bind hm1 (tot_sum hf)
      · rw [qf, h2, poly, polySum_eq]; rfl
    | .prod l, hp =>
      obtain ⟨m, hm1, hm2⟩ := list l rfl (by simpa [isPolyE] using hp)
      obtain ⟨h1, _, h3, h4⟩ := forall2_poly_sum hm2
      have hl := (h.shape _ .refl : ShapeOk (.prod l)).1
      obtain ⟨f, hf, pf, qf⟩ := tot_prod_pol hc (es := m) (by rintro rfl; simp at h4; omega) h1
      refine ⟨f, ?_, pf, ?_⟩
      · simp only [subst, isEqual, Bool.false_eq_true, if_false]
        exact tot_bind hm1 (tot_prod hf)
      · rw [qf, h3, poly, polyProd_eq]; rfl
    | .pow b (.num (.rat q)), hp =>
      simp only [isPolyE, Bool.and_eq_true, decide_eq_true_eq] at hp
      obtain ⟨hb, hd, h1⟩ := hp
      obtain ⟨k, rfl⟩ : ∃ k : ℕ, q = k := ⟨q.num.toNat, by
        have h2 : ((q.num.toNat : ℤ) : ℚ) = (q.num : ℚ) := by rw [Int.toNat_of_nonneg (by omega)]
        have h3 : (q.num : ℚ) = q := by
          conv_rhs => rw [← Rat.num_div_den q, hd]
          simp
        rw [← h3, ← h2]; norm_cast⟩
      have hk : k < 2 ^ 29 := h.exps b k (by simpa [int] using Occurs.refl)
      obtain ⟨b', hb', pb, qb⟩ := ih b (by simp [operands]) hb (h.op (by simp [operands]))
      obtain ⟨f, hf, pf, qf⟩ := tot_pow_pol hc pb (k := k) (by
        have h4 : (k : ℤ) < 2 ^ 29 := by exact_mod_cast hk
        unfold Number.unsignedMax; omega) (coefOk_small hm b')
      refine ⟨f, ?_, pf, ?_⟩
      · have e1 : isEqual (.pow b (.num (.rat (k : ℚ))) : Expr D) (.sym x) = false := rfl
        simp only [subst, e1, Bool.false_eq_true, if_false]
        refine tot_bind (tot_subst hb') (tot_bind (a := .num (.rat (k : ℚ))) (tot_subst ?_) (tot_pow ?_))
        · simp only [subst, isEqual, Bool.false_eq_true, if_false]; exact tot_pure _
        · simpa [int] using hf
      · rw [qf, qb]; simp [psubst, poly]

/-- The symbols of such an expression are the allowed ones. -/
theorem names_fac {f : Expr D × ℕ} (h : ∀ s : Sym, Occurs (.sym s) f.1 → s.id.Ok) : ∀ s : Sym, Occurs (.sym s) (fac f) → s.id.Ok := by
  intro s hs
  unfold fac at hs
  split at hs
  · exact h s hs
  · rcases occurs_iff.1 hs with hs | ⟨o, ho, hs⟩
    · cases hs
    · simp only [operands, List.mem_cons, List.not_mem_nil, or_false] at ho
      rcases ho with rfl | rfl
      · exact h s hs
      · rcases occurs_iff.1 hs with hs | ⟨o, ho, _⟩
        · cases hs
        · simp [int, operands] at ho

theorem names_mexpr {q : ℚ} {P : List (Expr D × ℕ)} (h : ∀ f ∈ P, ∀ s : Sym, Occurs (.sym s) f.1 → s.id.Ok) :
    ∀ s : Sym, Occurs (.sym s) (mexpr q P) → s.id.Ok := by
  intro s hs
  have hn : ∀ n : Number D, ¬ Occurs (.sym s) (.num n : Expr D) := by
    intro n hs
    rcases occurs_iff.1 hs with hs | ⟨o, ho, _⟩
    · cases hs
    · simp [operands] at ho
  rcases mexpr_cases q P with ⟨rfl, e⟩ | ⟨f, rfl, _, e⟩ | ⟨h2, h3, e⟩
  · rw [e] at hs; exact absurd hs (hn _)
  · rw [e] at hs; exact names_fac (h f (by simp)) s hs
  · rw [e] at hs
    rcases occurs_iff.1 hs with hs | ⟨o, ho, hs⟩
    · cases hs
    · simp only [operands] at ho
      unfold rl at ho
      rcases List.mem_append.1 ho with ho | ho
      · split at ho
        · simp at ho
        · rw [List.mem_singleton.1 ho] at hs; exact absurd hs (hn _)
      · obtain ⟨f, hf, rfl⟩ := List.mem_map.1 ho
        exact names_fac (h f hf) s hs

theorem XB.names {b : Expr D} (h : XB cfg b) : ∀ s : Sym, Occurs (.sym s) b → s.id.Ok := by
  induction h with
  | sym t ht =>
    intro s hs
    rcases occurs_iff.1 hs with hs | ⟨o, ho, _⟩
    · cases hs; exact ht
    · simp [operands] at ho
  | sum L hL h2 hb ih =>
    intro s hs
    rcases occurs_iff.1 hs with hs | ⟨o, ho, hs⟩
    · cases hs
    · simp only [operands] at ho
      obtain ⟨m, hm, rfl⟩ := List.mem_map.1 ho
      exact names_mexpr (fun f hf => ih m hm f hf) s hs

theorem Pol.names {e : Expr D} (h : Pol cfg e) : ∀ s : Sym, Occurs (.sym s) e → s.id.Ok := by
  rcases h.cases with rfl | ⟨q, P, hq, hP, hb, rfl⟩
  · intro s hs
    rcases occurs_iff.1 hs with hs | ⟨o, ho, _⟩
    · cases hs
    · rw [zero_eq] at ho; simp [operands] at ho
  · exact names_mexpr fun f hf => (hb f hf).names

/-- A base has a symbol. -/
theorem occurs_mexpr {x : Expr D} {q : ℚ} {P : List (Expr D × ℕ)} {f : Expr D × ℕ} (hf : f ∈ P) (h : Occurs x f.1) :
    Occurs x (mexpr q P) := by
  have hfac : Occurs x (fac f) := by
    unfold fac
    split
    · exact h
    · exact .op (by simp [operands]) h
  rcases mexpr_cases q P with ⟨rfl, e⟩ | ⟨g, rfl, _, e⟩ | ⟨h2, h3, e⟩
  · simp at hf
  · rw [e, ← List.mem_singleton.1 hf]; exact hfac
  · rw [e]
    refine .op (o := fac f) ?_ hfac
    simp only [operands, rl]
    exact List.mem_append.2 (.inr (List.mem_map.2 ⟨f, hf, rfl⟩))

theorem XB.symbol {b : Expr D} (h : XB cfg b) : ∃ s : Sym, Occurs (.sym s) b := by
  induction h with
  | sym t ht => exact ⟨t, .refl⟩
  | sum L hL h2 hb ih =>
    match L, h2 with
    | m :: n :: L, _ =>
      have := hL.tail n (by simp)
      obtain ⟨f, hf⟩ := List.exists_mem_of_ne_nil _ this
      obtain ⟨s, hs⟩ := ih n (by simp) f hf
      exact ⟨s, .op (o := em n) (by simp [operands]) (occurs_mexpr hf hs)⟩

theorem Pol.num_of_no_symbol {e : Expr D} (h : Pol cfg e) (hs : ∀ s : Sym, ¬ Occurs (.sym s) e) : ∃ q : ℚ, e = .num (.rat q) := by
  rcases h.cases with rfl | ⟨q, P, hq, hP, hb, rfl⟩
  · exact ⟨0, by rw [zero_eq]⟩
  · rcases P with _ | ⟨f, P⟩
    · rcases mexpr_cases (D := D) q [] with ⟨_, e⟩ | ⟨g, h1, _, _⟩ | ⟨h2, _, _⟩
      · exact ⟨q, e⟩
      · cases h1
      · exact absurd rfl h2
    · obtain ⟨s, h1⟩ := (hb f (by simp)).symbol
      exact absurd (occurs_mexpr (by simp) h1) (hs s)

end Tsym
