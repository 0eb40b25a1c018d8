import Verif.PolyFac
import Mathlib.Algebra.Group.Pi.Basic
import Mathlib.Algebra.BigOperators.Group.List.Lemmas

set_option autoImplicit false
set_option linter.unusedSectionVars false
set_option linter.unusedSimpArgs false
set_option linter.unusedVariables false

/-!
# Products of numbers and factors
-/

namespace Tsym

open Expr

variable {D : Type} [Flt D] {cfg : Cfg D}

/-! ## The product of factors, in any commutative monoid -/

/-- The product of the factors when the bases have the values `φ`. -/
def pv {A : Type} [CommMonoid A] (φ : Expr D → A) (P : List (Expr D × ℕ)) : A := (P.map fun f => φ f.1 ^ f.2).prod

/-- The same product, whatever the values of the bases are. -/
def Same (P Q : List (Expr D × ℕ)) : Prop := ∀ (A : Type) [CommMonoid A] (φ : Expr D → A), pv φ P = pv φ Q

theorem Same.refl (P : List (Expr D × ℕ)) : Same P P := fun _ _ _ => rfl
theorem Same.symm {P Q : List (Expr D × ℕ)} (h : Same P Q) : Same Q P := fun A _ φ => (h A φ).symm
theorem Same.trans {P Q R : List (Expr D × ℕ)} (h : Same P Q) (h' : Same Q R) : Same P R :=
  fun A _ φ => (h A φ).trans (h' A φ)

section pv

variable {A : Type} [CommMonoid A] (φ : Expr D → A)

@[simp] theorem pv_nil : pv φ [] = 1 := rfl
@[simp] theorem pv_cons (f : Expr D × ℕ) (P : List (Expr D × ℕ)) : pv φ (f :: P) = φ f.1 ^ f.2 * pv φ P := by simp [pv]
theorem pv_append (P Q : List (Expr D × ℕ)) : pv φ (P ++ Q) = pv φ P * pv φ Q := by simp [pv]
theorem pv_perm {P Q : List (Expr D × ℕ)} (h : P.Perm Q) : pv φ P = pv φ Q := (h.map _).prod_eq

theorem pv_mergeF {P Q : List (Expr D × ℕ)} (hP : PFacs cfg P) (hQ : PFacs cfg Q) :
    pv φ (mergeF P Q) = pv φ P * pv φ Q := by
  induction hn : P.length + Q.length using Nat.strong_induction_on generalizing P Q with
  | _ n ih =>
  match P, Q with
  | [], Q => simp [mergeF]
  | f :: P, [] => simp [mergeF]
  | f :: P, g :: Q =>
    obtain ⟨hf, hP'⟩ := hP.cons
    obtain ⟨hg, hQ'⟩ := hQ.cons
    simp only [List.length_cons] at hn
    unfold mergeF
    split
    · rename_i h
      rw [isEqual_eq _ hf.base.exact _ hg.base.exact] at h
      rw [pv_cons, ih _ (by omega) hP' hQ' rfl, pv_cons, pv_cons, h, pow_add]
      simp only [mul_assoc, mul_left_comm, mul_comm]
    · split
      · rw [pv_cons, ih (P := f :: P) (Q := Q) _ (by simp only [List.length_cons]; omega) hP hQ' rfl, pv_cons, pv_cons]
        simp only [mul_assoc, mul_left_comm, mul_comm]
      · rw [pv_cons, ih (P := P) (Q := g :: Q) _ (by simp only [List.length_cons]; omega) hP' hQ rfl, pv_cons, pv_cons]
        simp only [mul_assoc, mul_left_comm, mul_comm]

end pv

theorem PFacs.mergeF {P Q : List (Expr D × ℕ)} (hP : PFacs cfg P) (hQ : PFacs cfg Q) : PFacs cfg (mergeF P Q) := by
  induction hn : P.length + Q.length using Nat.strong_induction_on generalizing P Q with
  | _ n ih =>
  match P, Q with
  | [], Q => simpa [Tsym.mergeF] using hQ
  | f :: P, [] => simpa [Tsym.mergeF] using hP
  | f :: P, g :: Q =>
    obtain ⟨hf, hP'⟩ := hP.cons
    obtain ⟨hg, hQ'⟩ := hQ.cons
    simp only [List.length_cons] at hn
    unfold Tsym.mergeF
    split
    · intro x hx
      rcases List.mem_cons.1 hx with rfl | hx
      · exact hf.add hg
      · exact ih _ (by omega) hP' hQ' rfl x hx
    · split
      · intro x hx
        rcases List.mem_cons.1 hx with rfl | hx
        · exact hg
        · exact ih (P := f :: P) (Q := Q) _ (by simp only [List.length_cons]; omega) hP hQ' rfl x hx
      · intro x hx
        rcases List.mem_cons.1 hx with rfl | hx
        · exact hf
        · exact ih (P := P) (Q := g :: Q) _ (by simp only [List.length_cons]; omega) hP' hQ rfl x hx

/-! ## Loops that change nothing -/

theorem tot_extract {u : List (Expr D)} (h : ∀ l, Expr.prod l ∈ u → ∀ x ∈ l, x.isProduct = false) :
    Tot cfg (fun E => extractProducts E u) (u.flatMap factors) := by
  unfold extractProducts
  refine tot_loop (f := fun (_ : Eng D) (u : List (Expr D)) => (pure (match extractFirst u with
    | none => Sum.inr u
    | some u' => Sum.inl u') : M D (List (Expr D) ⊕ List (Expr D)))) ?_
  have noProd : ∀ u : List (Expr D), (∀ x ∈ u, x.isProduct = false) → extractFirst u = none ∧ u.flatMap factors = u := by
    intro u
    induction u with
    | nil => intro _; exact ⟨rfl, rfl⟩
    | cons x u ih =>
      intro hx
      obtain ⟨h1, h2⟩ := ih fun y hy => hx y (by simp [hy])
      have h3 := hx x (by simp)
      cases x <;> simp_all [extractFirst, factors, Expr.isProduct]
  induction hn : (u.filter fun x => x.isProduct).length using Nat.strong_induction_on generalizing u with
  | _ n ih =>
  rcases hu : extractFirst u with _ | u'
  · have : ∀ x ∈ u, x.isProduct = false := by
      clear ih h hn
      induction u with
      | nil => simp
      | cons y u ih =>
        cases y <;> simp_all [extractFirst, Expr.isProduct]
    rw [(noProd u this).2]
    refine .done _ ?_
    simp only [hu]
    exact tot_pure _
  · have : ∃ a l b, u = a ++ .prod l :: b ∧ u' = a ++ (l ++ b) := by
      clear ih h hn
      induction u generalizing u' with
      | nil => simp [extractFirst] at hu
      | cons y u ih =>
        by_cases hy : ∃ l, y = .prod l
        · obtain ⟨l, rfl⟩ := hy
          simp only [extractFirst, Option.some.injEq] at hu
          exact ⟨[], l, u, rfl, by simp [← hu]⟩
        · have : extractFirst (y :: u) = (extractFirst u).map (y :: ·) := by
            cases y <;> simp_all [extractFirst]
          rw [this] at hu
          obtain ⟨v, hv, rfl⟩ := Option.map_eq_some_iff.1 hu
          obtain ⟨a, l, b, h1, h2⟩ := ih v hv
          exact ⟨y :: a, l, b, by simp [h1], by simp [h2]⟩
    obtain ⟨a, l, b, rfl, rfl⟩ := this
    have hl := h l (by simp)
    refine .next _ (a ++ (l ++ b)) ?_ ?_
    · simp only [hu]
      exact tot_pure _
    · have e : (a ++ .prod l :: b).flatMap factors = (a ++ (l ++ b)).flatMap factors := by
        simp only [List.flatMap_append, List.flatMap_cons]
        rw [(noProd l hl).2]
        rfl
      rw [e]
      refine ih _ ?_ ?_ rfl
      · rw [← hn]
        have : l.filter (fun x => x.isProduct) = [] := by
          rw [List.filter_eq_nil_iff]
          intro x hx
          simp [hl x hx]
        simp only [List.filter_append, List.filter_cons, this, List.length_append, List.nil_append]
        simp [Expr.isProduct]
      · intro m hm
        simp only [List.mem_append] at hm
        rcases hm with hm | hm | hm
        · exact h m (by simp [hm])
        · have := hl _ hm; simp [Expr.isProduct] at this
        · exact h m (by simp [hm])

theorem tot_contract {check : Expr D → Expr D → M D Bool} {simpl : Eng D → Expr D → Expr D → M D (List (Expr D))}
    {u : List (Expr D)} (h : ∀ x ∈ u, ∀ y ∈ u, check x y = pure false) :
    Tot cfg (fun E => contract E check (simpl E) u) u := by
  unfold contract
  match u with
  | [] => exact tot_pure _
  | x :: l =>
    simp only [contractStart]
    refine tot_loop (f := fun E => contractStep check (simpl E)) ?_
    suffices key : ∀ (a b : ℕ) (pre mid rest : List (Expr D)) (x : Expr D) (u : List (Expr D)),
        (∀ x ∈ u, ∀ y ∈ u, check x y = pure false) →
        pre ++ x :: (mid ++ rest) = u → mid.length + rest.length = a → rest.length = b →
        Rounds cfg (fun E => contractStep check (simpl E)) u ⟨pre, x, mid, rest, false, false⟩ by
      exact key _ _ [] [] l x _ h rfl rfl rfl
    intro a
    induction a using Nat.strong_induction_on with
    | _ a iha =>
    intro b
    induction b with
    | zero =>
      intro pre mid rest x u h hu ha hb
      obtain rfl := List.length_eq_zero_iff.1 hb
      match mid with
      | [] =>
        refine .done _ ?_
        simp only [contractStep, Bool.false_eq_true, if_false]
        rw [← hu]
        exact tot_pure _
      | m :: ms =>
        refine .next _ ⟨pre ++ [x], m, [], ms, false, false⟩ ?_ ?_
        · simp only [contractStep, Bool.false_eq_true, if_false]
          exact tot_pure _
        · refine iha ms.length ?_ ms.length (pre ++ [x]) [] ms m u h ?_ (by simp) rfl
          · simp at ha; omega
          · simpa using hu
    | succ b ihb =>
      intro pre mid rest x u h hu ha hb
      match rest with
      | y :: rest =>
        refine .next _ ⟨pre, x, mid ++ [y], rest, false, false⟩ ?_ ?_
        · simp only [contractStep]
          rw [h x (by rw [← hu]; simp) y (by rw [← hu]; simp)]
          exact tot_bind (tot_pure false) (tot_pure _)
        · refine ihb pre (mid ++ [y]) rest x u h (by simpa using hu) ?_ (by simpa using hb)
          simp at ha ⊢; omega

theorem tot_contractConst {u : List (Expr D)} (h : ∀ (i j : ℕ) (x y : Expr D), i ≠ j → u[i]? = some x → u[j]? = some y →
    (isContractableConst x && isContractableConst y) = false) :
    Tot cfg (fun E => contractConst E u) u := by
  unfold contractConst
  refine tot_loop (f := fun E => contractConstStep E) ?_
  suffices key : ∀ (a b i j : ℕ), u.length - i = a → u.length - j = b → Rounds cfg (fun E => contractConstStep E) u (u, i, j) by
    exact key _ _ 0 0 rfl rfl
  intro a
  induction a with
  | zero =>
    intro b i j hi hj
    refine .done _ ?_
    have : u[i]? = none := List.getElem?_eq_none (by omega)
    simp only [contractConstStep, this]
    exact tot_pure _
  | succ a iha =>
    intro b
    induction b with
    | zero =>
      intro i j hi hj
      have h1 : u[j]? = none := List.getElem?_eq_none (by omega)
      have h2 : u[i]? = some u[i] := List.getElem?_eq_getElem (by omega)
      refine .next _ (u, i + 1, i + 1) ?_ ?_
      · simp only [contractConstStep, h1, h2]
        exact tot_pure _
      · exact iha _ _ _ (by omega) rfl
    | succ b ihb =>
      intro i j hi hj
      have h1 : u[j]? = some u[j] := List.getElem?_eq_getElem (by omega)
      have h2 : u[i]? = some u[i] := List.getElem?_eq_getElem (by omega)
      refine .next _ (u, i, j + 1) ?_ (ihb _ _ hi (by omega))
      by_cases hij : i = j
      · simp only [contractConstStep, h1, h2, hij, if_true]
        exact tot_pure _
      · simp only [contractConstStep, h1, h2, hij, if_false, h i j _ _ hij h2 h1, Bool.false_eq_true]
        exact tot_pure _

end Tsym
