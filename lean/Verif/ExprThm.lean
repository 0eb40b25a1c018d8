import Verif.Den
import Verif.Order
import Verif.NumberThm

set_option autoImplicit false
set_option linter.unusedSectionVars false
set_option linter.unusedSimpArgs false

/-!
# Sub-expressions, equality, hashing and order: lemmas
-/

namespace Tsym

namespace Expr

variable {D : Type} [Flt D]

/-- Specification: `x` is a sub-expression of `e` (possibly `e` itself). -/
inductive Occurs (x : Expr D) : Expr D → Prop
  | refl : Occurs x x
  | op {o e : Expr D} : o ∈ operands e → Occurs x o → Occurs x e

/-- Specification: no Undefined and no floating point number anywhere. -/
def Exact (e : Expr D) : Prop := ∀ x, Occurs x e → x ≠ undef ∧ ∀ d, x ≠ num (.dbl d)

/-- Induction over expressions with the induction hypothesis for all operands. -/
theorem opInd {P : Expr D → Prop} (h : ∀ e, (∀ o ∈ operands e, P o) → P e) (e : Expr D) : P e := by
  induction e using ind with
  | num n => exact h _ (by simp [operands])
  | sym s => exact h _ (by simp [operands])
  | cst c => exact h _ (by simp [operands])
  | undef => exact h _ (by simp [operands])
  | sum l ih => exact h _ (by simpa [operands] using ih)
  | prod l ih => exact h _ (by simpa [operands] using ih)
  | pow b e hb he => exact h _ (by simpa [operands] using ⟨hb, he⟩)
  | fn f a ha => exact h _ (by simpa [operands] using ha)
  | atan2 y x hy hx => exact h _ (by simpa [operands] using ⟨hy, hx⟩)

theorem occurs_iff {x e : Expr D} : Occurs x e ↔ x = e ∨ ∃ o ∈ operands e, Occurs x o := by
  constructor
  · intro h
    cases h with
    | refl => exact .inl rfl
    | op ho h => exact .inr ⟨_, ho, h⟩
  · rintro (rfl | ⟨o, ho, h⟩)
    · exact .refl
    · exact .op ho h

theorem Exact.op {o e : Expr D} (h : Exact e) (ho : o ∈ operands e) : Exact o :=
  fun x hx => h x (.op ho hx)

theorem areEqual_eq {l m : List (Expr D)}
    (ih : ∀ a ∈ l, Exact a → ∀ b, Exact b → (isEqual a b = true ↔ a = b))
    (hl : ∀ a ∈ l, Exact a) (hm : ∀ b ∈ m, Exact b) : areEqual l m = true ↔ l = m := by
  induction l generalizing m with
  | nil => cases m <;> simp [areEqual]
  | cons a l ihl =>
    cases m with
    | nil => simp [areEqual]
    | cons b m =>
      simp only [areEqual, Bool.and_eq_true, List.cons.injEq]
      rw [ih a (by simp) (hl a (by simp)) b (hm b (by simp)),
        ihl (fun x hx => ih x (by simp [hx])) (fun x hx => hl x (by simp [hx]))
          (fun x hx => hm x (by simp [hx]))]

/-- On exact expressions the equality test of the library is equality of trees. -/
theorem isEqual_eq (a : Expr D) : Exact a → ∀ b, Exact b → (isEqual a b = true ↔ a = b) := by
  induction a using opInd with
  | h a ih =>
    intro ha b hb
    have hao : ∀ o ∈ operands a, Exact o := fun o ho => ha.op ho
    have hbo : ∀ o ∈ operands b, Exact o := fun o ho => hb.op ho
    have hau : a ≠ undef := (ha _ .refl).1
    have had := (ha _ .refl).2
    have hbd := (hb _ .refl).2
    clear ha hb
    cases a with
    | undef => exact absurd rfl hau
    | num m =>
      cases b with
      | num n =>
        cases m with
        | dbl d => exact absurd rfl (had d)
        | rat p =>
          cases n with
          | dbl d => exact absurd rfl (hbd d)
          | rat q => simp only [isEqual, Number.eqv_rat]; simp
      | _ => simp [isEqual]
    | sum l =>
      cases b with
      | sum m => simp only [isEqual, sum.injEq]; exact areEqual_eq ih hao hbo
      | _ => simp [isEqual]
    | prod l =>
      cases b with
      | prod m => simp only [isEqual, prod.injEq]; exact areEqual_eq ih hao hbo
      | _ => simp [isEqual]
    | sym s => cases b <;> simp [isEqual]
    | cst c => cases b <;> simp [isEqual]
    | pow p q =>
      simp only [operands, List.mem_cons, List.not_mem_nil, or_false, forall_eq_or_imp,
        forall_eq] at ih hao
      cases b <;> simp only [operands, List.mem_cons, List.not_mem_nil, or_false, forall_eq_or_imp,
        forall_eq] at hbo <;> simp only [isEqual, reduceCtorEq, Bool.false_eq_true]
      simp [ih.1 hao.1 _ hbo.1, ih.2 hao.2 _ hbo.2]
    | fn f x =>
      simp only [operands, List.mem_cons, List.not_mem_nil, or_false, forall_eq] at ih hao
      cases b <;> simp only [operands, List.mem_cons, List.not_mem_nil, or_false, forall_eq_or_imp,
        forall_eq] at hbo <;> simp only [isEqual, reduceCtorEq, Bool.false_eq_true]
      simp [ih hao _ hbo]
    | atan2 p q =>
      simp only [operands, List.mem_cons, List.not_mem_nil, or_false, forall_eq_or_imp,
        forall_eq] at ih hao
      cases b <;> simp only [operands, List.mem_cons, List.not_mem_nil, or_false, forall_eq_or_imp,
        forall_eq] at hbo <;> simp only [isEqual, reduceCtorEq, Bool.false_eq_true]
      simp [ih.1 hao.1 _ hbo.1, ih.2 hao.2 _ hbo.2]

theorem hashes_eq_map (H : Hasher D) (l : List (Expr D)) : hashes H l = l.map (hashPtr H) := by
  induction l with
  | nil => rfl
  | cons a l ih => simp [hashes, ih]

theorem hashPtr_eq (H : Hasher D) (e : Expr D) :
    hashPtr H e = H.list [H.str (typeStr e), hash H e] := by
  cases e <;> simp [hashPtr, hash]

end Expr

section

variable {D : Type} [Flt D] [LawfulFlt D]

open Expr

theorem areEqual_denSum {σ : Asg} {l m : List (Expr D)}
    (ih : ∀ a ∈ l, ∀ b, isEqual a b = true → den σ a = den σ b) (h : areEqual l m = true) :
    denSum σ l = denSum σ m := by
  induction l generalizing m with
  | nil => cases m <;> simp_all [areEqual]
  | cons a l ihl =>
    cases m with
    | nil => simp [areEqual] at h
    | cons b m =>
      simp only [areEqual, Bool.and_eq_true] at h
      simp only [denSum]
      rw [ih a (by simp) b h.1, ihl (fun x hx => ih x (by simp [hx])) h.2]

theorem areEqual_denProd {σ : Asg} {l m : List (Expr D)}
    (ih : ∀ a ∈ l, ∀ b, isEqual a b = true → den σ a = den σ b) (h : areEqual l m = true) :
    denProd σ l = denProd σ m := by
  induction l generalizing m with
  | nil => cases m <;> simp_all [areEqual]
  | cons a l ihl =>
    cases m with
    | nil => simp [areEqual] at h
    | cons b m =>
      simp only [areEqual, Bool.and_eq_true] at h
      simp only [denProd]
      rw [ih a (by simp) b h.1, ihl (fun x hx => ih x (by simp [hx])) h.2]

/-- Equal expressions have equal values. -/
theorem isEqual_den (σ : Asg) (a : Expr D) : ∀ b, isEqual a b = true → den σ a = den σ b := by
  induction a using opInd with
  | h a ih =>
    intro b h
    cases a <;> cases b <;>
      simp_all only [operands, List.mem_cons, List.not_mem_nil, or_false, forall_eq_or_imp,
        forall_eq, isEqual, reduceCtorEq, Bool.false_eq_true, Bool.and_eq_true, decide_eq_true_eq,
        IsEmpty.forall_iff, implies_true]
    case num.num m n => rw [Number.eqv_iff] at h; simp [den, h]
    case sum.sum l m => simp only [den]; exact areEqual_denSum ih h
    case prod.prod l m => simp only [den]; exact areEqual_denProd ih h
    case pow.pow b e c f => simp only [den]; rw [ih.1 c h.1, ih.2 f h.2]
    case fn.fn f a g b => simp only [den]; rw [ih b h.2]
    case atan2.atan2 y x z w => simp only [den]; rw [ih.1 z h.1, ih.2 w h.2]

end

end Tsym
