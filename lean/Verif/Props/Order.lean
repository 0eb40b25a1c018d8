import Verif.OrderTrans
import Verif.Props.Exprs

set_option autoImplicit false

/-!
# The order of operands: C30, second part
-/

namespace Tsym

open Expr

variable {D : Type} [Flt D] [LawfulFlt D]

/-- C30, transitivity: if `a` is put before `b` and `b` before `c`, then `a` is put before `c`
(`doPermute l r` asks for putting `r` before `l`). For expressions without floating point numbers,
Undefined and atan2, whose sums and products have at least two operands and whose powers do not have
the exponent one. Missing: atan2, for which the claim is false, and floating point numbers. -/
theorem C30_transitive_partial (a b c : Expr D) (ha : Orderable a ∧ Exact a ∧ Wide a ∧ NoFirst a)
    (hb : Orderable b ∧ Exact b ∧ Wide b ∧ NoFirst b) (hc : Orderable c ∧ Exact c ∧ Wide c ∧ NoFirst c)
    (h1 : doPermute b a = true) (h2 : doPermute c b = true) : doPermute c a = true :=
  Expr.Good.trans ⟨ha.1, ha.2.1, ha.2.2.1, ha.2.2.2⟩ ⟨hb.1, hb.2.1, hb.2.2.1, hb.2.2.2⟩ ⟨hc.1, hc.2.1, hc.2.2.1, hc.2.2.2⟩ h1 h2

/-- C30, the order of operands is unique: two lists of such operands in which no operand must be
exchanged with a later one, and that have the same operands, are the same list. -/
theorem C30_unique_partial (l m : List (Expr D)) (hl : ∀ a ∈ l, Orderable a ∧ Exact a ∧ Wide a ∧ NoFirst a)
    (hp : l.Perm m) (sl : l.Pairwise fun x y => doPermute x y = false)
    (sm : m.Pairwise fun x y => doPermute x y = false) : l = m := by
  have g : ∀ a ∈ l, Expr.Good a := fun a h => ⟨(hl a h).1, (hl a h).2.1, (hl a h).2.2.1, (hl a h).2.2.2⟩
  refine hp.eq_of_pairwise (le := fun x y => doPermute x y = false) ?_ sl sm
  intro x y hx hy h1 h2
  by_contra hne
  have := (g x hx).total (g y (hp.mem_iff.2 hy)) h2 hne
  rw [show L y x = doPermute x y from rfl, h1] at this
  cases this

namespace OrderEx

open ExprEx

theorem good_a : Expr.Good a :=
  .of_ops (by simp [a]) (by simp [a]) (by rintro s h; cases h; simp [SymId.Ok, tmpPrefix]) (by simp [a]) (by simp [a]) (by simp [a]) (by simp [a, operands])

theorem good_b : Expr.Good b :=
  .of_ops (by simp [b]) (by simp [b]) (by rintro s h; cases h; simp [SymId.Ok, tmpPrefix]) (by simp [b]) (by simp [b]) (by simp [b]) (by simp [b, operands])

theorem good_num (q : ℚ) : Expr.Good (num (.rat q) : Expr Hyb) :=
  .of_ops (by simp) (by simp) (by simp) (by simp) (by simp) (by simp) (by simp [operands])

/-- sin(a)^(1/2). -/
noncomputable def p1 : Expr Hyb := pow (fn .sin a) (num (.rat (1 / 2)))

theorem good_p1 : Expr.Good p1 := by
  refine .of_ops (by simp [p1]) (by simp [p1]) (by simp [p1]) (by simp [p1]) (by simp [p1]) (by simp [p1, one]) ?_
  intro o ho
  simp only [p1, operands, List.mem_cons, List.not_mem_nil, or_false] at ho
  rcases ho with rfl | rfl
  · refine .of_ops (by simp) (by simp) (by simp) (by simp) (by simp) (by simp) ?_
    intro o ho
    simp only [operands, List.mem_cons, List.not_mem_nil, or_false] at ho
    subst ho
    exact good_a
  · exact good_num _

/-- 2*a*b. -/
noncomputable def p2 : Expr Hyb := prod [num (.rat 2), a, b]

theorem good_p2 : Expr.Good p2 := by
  refine .of_ops (by simp [p2]) (by simp [p2]) (by simp [p2]) (by simp [p2]) (by simp [p2]) (by simp [p2]) ?_
  intro o ho
  simp only [p2, operands, List.mem_cons, List.not_mem_nil, or_false] at ho
  rcases ho with rfl | rfl | rfl
  · exact good_num _
  · exact good_a
  · exact good_b

/-- C30_transitive_partial: the hypotheses are met by a, 2*a*b and sin(a)^(1/2), in this order. -/
example : doPermute p2 a = true ∧ doPermute p1 p2 = true ∧ doPermute p1 a = true := by
  have h1 : doPermute p2 a = true := by krfl
  have h2 : doPermute p1 p2 = true := by krfl
  refine ⟨h1, h2, C30_transitive_partial a p2 p1 ?_ ?_ ?_ h1 h2⟩
  · exact ⟨good_a.ord, good_a.exact, good_a.wide, good_a.nf⟩
  · exact ⟨good_p2.ord, good_p2.exact, good_p2.wide, good_p2.nf⟩
  · exact ⟨good_p1.ord, good_p1.exact, good_p1.wide, good_p1.nf⟩

/-- C30_unique_partial: the list a, 2*a*b, sin(a)^(1/2) is in order, and is the only one of its
permutations that is. -/
example (m : List (Expr Hyb)) (hp : [a, p2, p1].Perm m) (hm : m.Pairwise fun x y => doPermute x y = false) : m = [a, p2, p1] := by
  refine (C30_unique_partial [a, p2, p1] m ?_ hp ?_ hm).symm
  · intro x hx
    simp only [List.mem_cons, List.not_mem_nil, or_false] at hx
    rcases hx with rfl | rfl | rfl
    · exact ⟨good_a.ord, good_a.exact, good_a.wide, good_a.nf⟩
    · exact ⟨good_p2.ord, good_p2.exact, good_p2.wide, good_p2.nf⟩
    · exact ⟨good_p1.ord, good_p1.exact, good_p1.wide, good_p1.nf⟩
  · have h1 : doPermute a p2 = false := by krfl
    have h2 : doPermute a p1 = false := by krfl
    have h3 : doPermute p2 p1 = false := by krfl
    simp [h1, h2, h3]

end OrderEx

end Tsym
