import Verif.SymsApi
import Verif.Props.Exprs

set_option autoImplicit false
set_option linter.unusedSectionVars false

/-!
# Properties of symbols: C11, C14

The results hold for every floating point unit, every order in which hash maps are traversed, every
numbering of temporary symbols and every bound `n` for the depth of calls: whenever the call returns
an expression, the statement holds for it.
-/

namespace Tsym

open Expr

variable {D : Type} [Flt D]

/-- A call of a function of the library that returns an expression. -/
inductive Call (D : Type) where
  | add (a b : Expr D) | sub (a b : Expr D) | neg (a : Expr D) | mul (a b : Expr D) | div (a b : Expr D)
  | pow (b e : Expr D) | sqrt (b : Expr D) | log (a : Expr D) | trig (f : Fn) (a : Expr D)
  | atan2 (y x : Expr D) | expand (a : Expr D) | simplify (a : Expr D) | normal (a : Expr D)
  | numerator (a : Expr D) | denominator (a : Expr D) | diff (a x : Expr D)
  | subst (a orig repl : Expr D)

/-- The arguments whose symbols may be in the result. -/
def Call.sources : Call D → List (Expr D)
  | add a b | sub a b | mul a b | div a b | pow a b | atan2 a b => [a, b]
  | neg a | sqrt a | log a | trig _ a | expand a | simplify a | normal a | numerator a | denominator a =>
    [a]
  | diff a _ => [a]
  | subst a _ repl => [a, repl]

/-- The function that is called. -/
def Call.run (E : Eng D) : Call D → M D (Expr D)
  | add a b => Api.add E a b
  | sub a b => Api.sub E a b
  | neg a => Api.neg E a
  | mul a b => Api.mul E a b
  | div a b => Api.div E a b
  | pow b e => Api.pow E b e
  | sqrt b => Api.sqrt E b
  | log a => Api.log E a
  | trig f a => Api.trig E f a
  | atan2 y x => Api.atan2 E y x
  | expand a => Api.expand E a
  | simplify a => Api.simplify E a
  | normal a => E.normal a
  | numerator a => Api.numerator E a
  | denominator a => Api.denominator E a
  | diff a x => Api.diff E a x
  | subst a orig repl => Api.subst E a orig repl

theorem Call.run_sy {E : Eng D} (hE : Syms E) {S : Sym → Prop} (c : Call D)
    (h : ∀ a ∈ c.sources, Within S a) : Sy S (c.run E) := by
  cases c <;> simp only [Call.sources, List.forall_mem_cons, List.not_mem_nil, false_imp_iff,
    implies_true, and_true] at h <;> simp only [Call.run]
  case add a b => exact hE.sum (by simp [h.1, h.2])
  case sub a b =>
    exact Sy.bind (minus_sy hE h.2) fun m hm => hE.sum (by simp_all)
  case neg a => exact minus_sy hE h
  case mul a b => exact hE.prod (by simp [h.1, h.2])
  case div a b => exact Sy.bind (hE.pow h.2 (by simp)) fun m hm => hE.prod (by simp_all)
  case pow b e => exact hE.pow h.1 h.2
  case sqrt b => exact hE.pow h (by simp)
  case log a => exact hE.log h
  case trig f a => exact hE.trig h
  case atan2 y x => exact hE.atan2 h.1 h.2
  case expand a => exact hE.expand h
  case simplify a => exact Api.simplify_sy hE h
  case normal a => exact hE.normal h
  case numerator a =>
    exact Sy.bind (Api.normalToFraction_sy hE h) fun f hf => Sy.pure hf.1
  case denominator a =>
    exact Sy.bind (Api.normalToFraction_sy hE h) fun f hf => Sy.pure hf.2
  case diff a x =>
    unfold Api.diff
    split
    · exact hE.diff h
    · exact Sy.pure (by simp)
  case subst a orig repl => exact hE.subst h.2 h.1

/-- C14. Every symbol in the result of a call occurs in one of the arguments. In particular no
temporary symbol leaks. -/
theorem C14_no_new_symbols (cfg : Cfg D) (hcfg : cfg.Ok) (n : Nat) (c : Call D) (r : Expr D)
    (cs : List (Cond D)) (hr : c.run (eng cfg n) = .ok (r, cs)) (s : Sym) (hs : Occurs (.sym s) r) :
    ∃ a ∈ c.sources, Occurs (.sym s) a :=
  Call.run_sy (S := fun s => ∃ a ∈ c.sources, Occurs (.sym s) a) (syms_eng hcfg n) c
    (fun a ha _ hs => ⟨a, ha, hs⟩) r cs hr (fun _ _ => trivial) s hs

/-- C11. The result of subst(a, x, t) does not contain the symbol x, unless t does. -/
theorem C11_subst_removes (cfg : Cfg D) (hcfg : cfg.Ok) (n : Nat) (a t : Expr D) (x : Sym)
    (ht : ¬ Occurs (.sym x) t) (r : Expr D) (cs : List (Cond D))
    (hr : Api.subst (eng cfg n) a (.sym x) t = .ok (r, cs)) : ¬ Occurs (.sym x) r := by
  have h : Within (fun s => s ≠ x) r := by
    refine (syms_eng hcfg n).substSym (S := fun s => s ≠ x) (e := a) ?_ ?_ r cs hr fun _ _ => trivial
    · intro s _
      by_cases h : s = x
      · exact .inr h
      · exact .inl h
    · rintro _ s hs rfl
      exact ht hs
  exact fun hx => h x hx rfl

/-- C11 with the query `has` of the library. -/
theorem C11_subst_removes_has (cfg : Cfg D) (hcfg : cfg.Ok) (n : Nat) (a t : Expr D) (x : Sym)
    (ht : has (.sym x) t = false) (r : Expr D) (cs : List (Cond D))
    (hr : Api.subst (eng cfg n) a (.sym x) t = .ok (r, cs)) : has (.sym x) r = false := by
  rw [Bool.eq_false_iff, ne_eq, has_sym_iff] at ht ⊢
  exact C11_subst_removes cfg hcfg n a t x ht r cs hr

namespace SymEx

open ExprEx

/-- The library with at most thirty nested calls. -/
noncomputable def lib : Eng Hyb := eng (Cfg.std 1000) 30

/-- C11 and C14 on an example: replacing b in a + 2*b by a gives 3*a. -/
example : Api.subst lib (sum [a, prod [int 2, b]]) b a = .ok (prod [int 3, a], []) := by krfl

/-- C14: temporary symbols are used inside, for sin(a)/cos(a) = tan(a). -/
example : ∃ cs, Api.div lib (fn .sin a) (fn .cos a) = .ok (fn .tan a, cs) := M.val_some (by krfl)

/-- C14: temporary symbols are used inside, to normalise 1/a + 1/sin(b). -/
example : ∃ cs, lib.normal (sum [pow a (int (-1)), pow (fn .sin b) (int (-1))]) =
    .ok (prod [pow a (int (-1)), pow (fn .sin b) (int (-1)), sum [a, fn .sin b]], cs) :=
  M.val_some (by krfl)

end SymEx

end Tsym
