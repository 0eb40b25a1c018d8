import Verif.ArcThm

set_option autoImplicit false
set_option linter.unusedSectionVars false
set_option linter.unusedSimpArgs false
set_option linter.unusedVariables false

/-!
# Functions of the angle of two symbols, helpers for C79
-/

namespace Tsym

namespace Arc

open Expr TrigProd

variable {D : Type} [Flt D] [LawfulFlt D] {cfg : Cfg D} {a b : Sym}

/-- The sum of the squares, in order. -/
def Wq (a b : Sym) : Expr D := .sum [sq a, sq b]

theorem keyLt_sq (h : symLt a b = true) : keyLt [(a, 2)] [(b, 2)] = true := by
  simp [keyLt, lexK, facLt, h]

theorem el_sq (ha : a.id.Ok) (hb : b.id.Ok) (h : symLt a b = true) : EL ([(1, Key.facs [(a, 2)]), (1, Key.facs [(b, 2)])] : List (Mono D)) := by
  refine ⟨by simp, ⟨?_, ?_⟩⟩
  · intro m hm
    simp only [List.mem_cons, List.not_mem_nil, or_false] at hm
    rcases hm with rfl | rfl
    exacts [⟨_, key_sq ha⟩, ⟨_, key_sq hb⟩]
  · simp only [List.pairwise_cons, List.mem_singleton, forall_eq, List.not_mem_nil, false_implies, implies_true, List.Pairwise.nil, and_true]
    intro K K' h h'
    have e1 : K = [(a, 2)] := Key.facs_inj (D := D) (h.2.2.symm.trans rfl)
    have e2 : K' = [(b, 2)] := Key.facs_inj (D := D) (h'.2.2.symm.trans rfl)
    subst e1 e2
    exact keyLt_sq ‹_›

theorem ep_Wq (ha : a.id.Ok) (hb : b.id.Ok) (h : symLt a b = true) : EP (Wq a b : Expr D) := ⟨_, el_sq ha hb h, by
  simp [Wq, em, mexpr, rl, prodOf, Key.facs, sumOf, fac, Expr.int]⟩

theorem poly_Wq (a b : Sym) : poly (Wq a b : Expr D) = MvPolynomial.X a ^ 2 + MvPolynomial.X b ^ 2 := by
  rw [Wq, poly_sum]; simp [poly_sq]

theorem coeff_Wq (d : Sym →₀ ℕ) : MvPolynomial.coeff d (MvPolynomial.X a ^ 2 + MvPolynomial.X b ^ 2 : MvPolynomial Sym ℚ) =
    (if d = Finsupp.single a 2 then 1 else 0) + if d = Finsupp.single b 2 then 1 else 0 := by
  rw [MvPolynomial.coeff_add, MvPolynomial.coeff_X_pow, MvPolynomial.coeff_X_pow]
  simp only [eq_comm]

theorem gw_Wq (hc : cfg.Ok) (ha : a.id.Ok) (hb : b.id.Ok) (h : symLt a b = true) : GW cfg (Wq a b) true := by
  have hp := poly_Wq (D := D) a b
  obtain ⟨p, h1, h2⟩ := GW.of_ep hc (ep_Wq (D := D) ha hb h) rfl (by
    rw [hp]; intro f; rw [coeff_Wq]
    exact ⟨(if f = Finsupp.single a 2 then 1 else 0) + if f = Finsupp.single b 2 then 1 else 0, by push_cast; ring⟩) (by
    intro h
    have := (h (Finsupp.single a 2) (by rw [MvPolynomial.mem_support_iff, hp, coeff_Wq]; simp; split_ifs <;> norm_num)).1
    rw [hp, coeff_Wq] at this
    simp only [if_true] at this
    split_ifs at this <;> norm_num at this)
  have : p = true := h2.2 (by
    intro d hd
    rw [MvPolynomial.mem_support_iff, hp, coeff_Wq] at hd
    rw [hp, coeff_Wq]
    refine ⟨by split_ifs at hd ⊢ <;> simp_all, ?_⟩
    intro t
    by_cases e0 : d = Finsupp.single a 2
    · subst e0; intro _; right; rw [Finsupp.single_apply]; split <;> decide
    · by_cases e1 : d = Finsupp.single b 2
      · subst e1; intro _; right
        rw [Finsupp.single_apply]; split <;> decide
      · simp [e0, e1] at hd)
  rw [← this]; exact h1

theorem perm_sq_lt (h : symLt a b = true) : doPermute (sq b : Expr D) (.sym a) = true := by
  have hne : a ≠ b := by rintro rfl; rw [symLt_irrefl] at h; cases h
  rw [doPermute_eq]
  have h1 : isEqual (.sym b : Expr D) (.sym a) = false := isEqual_ne (exact_sym _) (exact_sym _) (by simpa using hne.symm)
  simp only [permStep, permSame, permDiff, h1, Bool.not_false, if_true]
  rw [doPermute_eq]
  simp only [permStep, permSame]
  exact h

theorem perm_Wq (h : symLt a b = true) {s : Sym} (hs : s = a ∨ s = b) : doPermute (Wq a b : Expr D) (.sym s) = true := by
  have : doPermute (sq b : Expr D) (.sym s) = true := by
    rcases hs with rfl | rfl
    exacts [perm_sq_lt h, perm_sq _]
  rw [doPermute_eq]
  simp only [Wq, permStep, permSame, permDiff, permLast, List.getLast?_cons_cons, List.getLast?_singleton, show isEqual (sq b : Expr D) (.sym s) = false from rfl,
    Bool.false_eq_true, if_false, this]

theorem tot_root_Wq (hc : cfg.Ok) (ha : a.id.Ok) (hb : b.id.Ok) (h : symLt a b = true) {y x : Sym} (hyx : y = a ∧ x = b ∨ y = b ∧ x = a) : Tot cfg (fun E => do
    let s1 ← square E (.sym y)
    let s2 ← square E (.sym x)
    let r ← E.sumCreate [s1, s2]
    E.sqrt r) (rt (Wq a b) (1 / 2) : Expr D) := by
  have hy : y.id.Ok := by rcases hyx with ⟨rfl, rfl⟩ | ⟨rfl, rfl⟩ <;> assumption
  have hx : x.id.Ok := by rcases hyx with ⟨rfl, rfl⟩ | ⟨rfl, rfl⟩ <;> assumption
  obtain ⟨r, r1, r2, r3⟩ := tot_sum_ep hc (cfg := cfg) (es := [sq y, sq x]) (by simp) (by simp [ep_sq hy, ep_sq hx])
  have : r = Wq a b := r2.unique (ep_Wq ha hb h) (by
    rw [r3, poly_Wq]; simp only [List.map_cons, List.map_nil, List.sum_cons, List.sum_nil, poly_sq]
    rcases hyx with ⟨rfl, rfl⟩ | ⟨rfl, rfl⟩ <;> ring)
  subst this
  refine tot_bind (tot_square y) (tot_bind (tot_square x) (tot_bind (tot_sum r1) ?_))
  unfold Eng.sqrt
  rw [half_rat]
  exact tot_pow ((gw_Wq hc ha hb h).pow (by norm_num) (by norm_num))

/-- Sine and cosine of the angle, and the arc functions. -/
theorem rs_angle (hc : cfg.Ok) (ha : a.id.Ok) (hb : b.id.Ok) (h : symLt a b = true) {y x : Sym} (hyx : y = a ∧ x = b ∨ y = b ∧ x = a)
    {f : Fn} {r : Expr D} (hr : f = .sin ∧ r = .prod [.sym y, rt (Wq a b) (-1 / 2)] ∨ f = .cos ∧ r = .prod [.sym x, rt (Wq a b) (-1 / 2)] ∨
      f ≠ .sin ∧ f ≠ .cos ∧ f ≠ .tan ∧ r = .fn f (.atan2 (.sym y) (.sym x))) :
    Rs cfg Tt (fun E => trigCreate E f (.atan2 (.sym y) (.sym x))) r := by
  have hy : y.id.Ok := by rcases hyx with ⟨rfl, rfl⟩ | ⟨rfl, rfl⟩ <;> assumption
  have hx : x.id.Ok := by rcases hyx with ⟨rfl, rfl⟩ | ⟨rfl, rfl⟩ <;> assumption
  have e : ∀ E : Eng D, trigCreate E f (.atan2 (.sym y) (.sym x)) = createFromTrigoNoInverse E f none (.atan2 (.sym y) (.sym x)) (.sym y) (.sym x) := by
    intro E
    rcases hr with ⟨rfl, -⟩ | ⟨rfl, -⟩ | ⟨-, -, h3, -⟩
    · rfl
    · rfl
    · cases f <;> first | rfl | exact absurd rfl h3
  simp only [e]
  unfold createFromTrigoNoInverse
  refine rs_bind (tot_capture (tot_aux1 hc hy)).rs (rs_bind (tot_capture (tot_aux2 hc hy)).rs (rs_bind (tot_capture (tot_root_Wq hc ha hb h hyx)).rs ?_))
  have g := gw_Wq hc (cfg := cfg) ha hb h
  have oy : ordered (.sym y) (rt (Wq a b : Expr D) (-1 / 2)) = [_, rt (Wq a b) (-1 / 2)] := ordered_over ⟨_, rfl⟩ (perm_Wq h (by tauto)) (-1 / 2)
  have ox : ordered (.sym x) (rt (Wq a b : Expr D) (-1 / 2)) = [_, rt (Wq a b) (-1 / 2)] := ordered_over ⟨_, rfl⟩ (perm_Wq h (by tauto)) (-1 / 2)
  rcases hr with ⟨rfl, rfl⟩ | ⟨rfl, rfl⟩ | ⟨h1, h2, h3, rfl⟩
  · exact rs_bind tot_emit.rs (by rw [← oy]; exact g.over hc hy)
  · exact rs_bind tot_emit.rs (by rw [← ox]; exact g.over hc hx)
  · cases f <;> first | exact absurd rfl h1 | exact absurd rfl h2 | exact absurd rfl h3 | exact (tot_pure _).rs

theorem perm_inv (h : symLt a b = true) : ordered (.sym a) (.pow (.sym b) (.num (.rat (-1))) : Expr D) = [.sym a, .pow (.sym b) (.num (.rat (-1)))] ∧
    ordered (.sym b) (.pow (.sym a) (.num (.rat (-1))) : Expr D) = [.pow (.sym a) (.num (.rat (-1))), .sym b] := by
  have hne : a ≠ b := by rintro rfl; rw [symLt_irrefl] at h; cases h
  have h1 : isEqual (.sym a : Expr D) (.sym b) = false := isEqual_ne (exact_sym _) (exact_sym _) (by simpa using hne)
  have h2 : isEqual (.sym b : Expr D) (.sym a) = false := isEqual_ne (exact_sym _) (exact_sym _) (by simpa using hne.symm)
  have p1 : doPermute (.sym b : Expr D) (.sym a) = true := by
    rw [doPermute_eq]; simp only [permStep, permSame]; exact h
  constructor
  · have : doPermute (.sym a) (.pow (.sym b) (.num (.rat (-1))) : Expr D) = false := by
      rw [doPermute_eq]
      simp only [permStep, permSame, permDiff, h2, Bool.not_false, if_true, p1, Bool.not_true]
    simp only [ordered, this, Bool.false_eq_true, if_false]
  · have : doPermute (.sym b) (.pow (.sym a) (.num (.rat (-1))) : Expr D) = true := by
      have p2 : doPermute (.sym a : Expr D) (.sym b) = false := by
        rw [doPermute_eq]; simp only [permStep, permSame]; exact symLt_asymm h
      rw [doPermute_eq]
      simp only [permStep, permSame, permDiff, h1, Bool.not_false, if_true, p2, Bool.not_false]
    simp only [ordered, this, if_true]

/-- The tangent of the angle. -/
theorem tot_tan_angle {y x : Sym} (hne : y ≠ x) :
    Tot cfg (fun E => trigCreate E .tan (.atan2 (.sym y) (.sym x))) (.prod (ordered (.sym y) (.pow (.sym x) (.num (.rat (-1))))) : Expr D) := by
  have h1 : isEqual (.sym y : Expr D) (.sym x) = false := isEqual_ne (exact_sym _) (exact_sym _) (by simpa using hne)
  have h2 : isEqual (.sym x : Expr D) (.sym y) = false := isEqual_ne (exact_sym _) (exact_sym _) (by simpa using hne.symm)
  have hpw : Tot cfg (fun E => E.oneOver (.sym x)) (.pow (.sym x) (.num (.rat (-1))) : Expr D) := by
    unfold Eng.oneOver; rw [mOne_rat]
    have := tot_pow (Tower.tot_power (cfg := cfg) (D := D) x (-1))
    rwa [show (Tower.power x (-1) : Expr D) = .pow (.sym x) (.num (.rat (-1))) by simp only [Tower.power]; norm_num] at this
  show Tot cfg (fun E => atan2ArgEval E (.sym y) (.sym x)) _
  unfold atan2ArgEval
  exact tot_bind hpw (tot_prod (tot_two (fc_sym y) (fc_symInv x) h1 h2))

/-- The angle of two symbols. -/
theorem tot_angle (y x : Sym) : Tot cfg (fun E => atan2Create E (.sym y) (.sym x)) (.atan2 (.sym y) (.sym x) : Expr D) := by
  unfold atan2Create
  simp only [show ∀ s : Sym, (Expr.sym s : Expr D).isUndefined = false from fun _ => rfl, Bool.or_self, Bool.false_eq_true, if_false]
  exact tot_bind (a := none) (tot_lift (by simp [numEval, pure, Except.pure])) (tot_bind (a := none) (tot_lift (by simp [numEval, pure, Except.pure])) (tot_pure _))

end Arc

end Tsym
