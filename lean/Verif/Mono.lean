import Verif.Engine
import Verif.Api

set_option autoImplicit false
set_option linter.unusedSectionVars false

/-!
# More depth does not change a result

The order on computations: a computation that ran out of depth is below every other one, and
different results are not related. All functions of the model are monotone for this order.
-/

namespace Tsym

open Lean.Order

variable {D : Type}

/-- `m` ran out of depth, or both are the same. -/
instance M.instOrder {α : Type} : Lean.Order.PartialOrder (M D α) where
  rel m m' := m = Except.error .fuel ∨ m = m'
  rel_refl := .inr rfl
  rel_trans := by
    rintro x y z (h | rfl) h2
    · exact .inl h
    · exact h2
  rel_antisymm := by
    rintro x y (h | rfl) (h2 | h2)
    · exact h.trans h2.symm
    · exact h2.symm
    · rfl
    · rfl

theorem M.rel_iff {α : Type} (m m' : M D α) : m ⊑ m' ↔ m = Except.error .fuel ∨ m = m' := Iff.rfl

instance M.instMonoBind : MonoBind (M D) where
  bind_mono_left h := by
    rcases h with rfl | rfl
    · exact .inl rfl
    · exact .inr rfl
  bind_mono_right {α β a f₁ f₂} h := by
    rcases a with e | ⟨a, cs⟩
    · exact .inr rfl
    · show M.bind _ _ ⊑ M.bind _ _
      rcases h a with h | h
      · refine .inl ?_
        simp only [M.bind, h]; rfl
      · refine .inr ?_
        simp only [M.bind, h]

section

variable {γ : Type} [Lean.Order.PartialOrder γ]

@[partial_fixpoint_monotone]
theorem M.mono_capture {α : Type} (m : γ → M D α) (h : monotone m) :
    monotone fun x => M.capture (m x) := by
  intro x y hxy
  rcases h x y hxy with h | h
  · exact .inl (by simp only [h, M.capture]; rfl)
  · exact .inr (by simp only [h])

@[partial_fixpoint_monotone]
theorem M.mono_silent {α : Type} (m : γ → M D α) (h : monotone m) :
    monotone fun x => M.silent (m x) := by
  unfold M.silent; repeat' monotonicity
  exact h

@[partial_fixpoint_monotone]
theorem M.mono_whenTrue (m : γ → M D Bool) (h : monotone m) :
    monotone fun x => M.whenTrue (m x) := by
  unfold M.whenTrue; repeat' monotonicity
  exact h

@[partial_fixpoint_monotone]
theorem M.mono_withinM {α : Type} (mp : List (Sym × Expr D)) (m : γ → M D α) (h : monotone m) :
    monotone fun x => M.withinM mp (m x) := by
  unfold M.withinM; repeat' monotonicity
  exact h

theorem M.loop_le {S R : Type} (n m : Nat) (f g : S → M D (S ⊕ R)) (hnm : n ≤ m) (h : ∀ s, f s ⊑ g s)
    (s : S) : M.loop n f s ⊑ M.loop m g s := by
  induction n generalizing m s with
  | zero => exact .inl rfl
  | succ n ih =>
    obtain ⟨m, rfl⟩ : ∃ k, m = k + 1 := ⟨m - 1, by omega⟩
    simp only [M.loop]
    refine Lean.Order.PartialOrder.rel_trans (MonoBind.bind_mono_left (h s)) ?_
    refine MonoBind.bind_mono_right fun r => ?_
    rcases r with s' | r
    · exact ih m (by omega) s'
    · exact .inr rfl

@[partial_fixpoint_monotone]
theorem M.mono_mapL {α β : Type} (f : γ → α → M D β) (l : List α) (h : monotone f) :
    monotone fun x => M.mapL (f x) l := by
  induction l with
  | nil => unfold M.mapL; repeat' monotonicity
  | cons a l ih =>
    unfold M.mapL
    repeat' monotonicity
    · exact monotone_apply a f h
    · exact ih

@[partial_fixpoint_monotone]
theorem M.mono_foldL {α β : Type} (f : γ → β → α → M D β) (b : β) (l : List α) (h : monotone f) :
    monotone fun x => M.foldL (f x) b l := by
  induction l generalizing b with
  | nil => unfold M.foldL; repeat' monotonicity
  | cons a l ih =>
    unfold M.foldL
    apply monotone_bind
    · exact monotone_apply a _ (monotone_apply b f h)
    · apply monotone_of_monotone_apply
      intro b'
      exact ih b'

@[partial_fixpoint_monotone]
theorem M.mono_ite {α : Type} (c : Prop) (inst : γ → Decidable c) (f g : γ → M D α) (hf : monotone f)
    (hg : monotone g) : monotone fun x => @ite _ c (inst x) (f x) (g x) := by
  intro x y hxy
  by_cases h : c
  · simp only [if_pos h]; exact hf x y hxy
  · simp only [if_neg h]; exact hg x y hxy

end

/-- The order on the functions of the library. -/
structure Eng.Le (E F : Eng D) : Prop where
  steps : E.steps ≤ F.steps
  cfg : E.cfg = F.cfg
  sumCreate : E.sumCreate ⊑ F.sumCreate
  prodCreate : E.prodCreate ⊑ F.prodCreate
  powCreate : E.powCreate ⊑ F.powCreate
  logCreate : E.logCreate ⊑ F.logCreate
  trigCreate : E.trigCreate ⊑ F.trigCreate
  atan2Create : E.atan2Create ⊑ F.atan2Create
  isPos : E.isPos ⊑ F.isPos
  isNeg : E.isNeg ⊑ F.isNeg
  expand : E.expand ⊑ F.expand
  expandAsProduct : E.expandAsProduct ⊑ F.expandAsProduct
  subst : E.subst ⊑ F.subst
  normal : E.normal ⊑ F.normal
  normalFrac : E.normalFrac ⊑ F.normalFrac
  coeff : E.coeff ⊑ F.coeff
  simplSum : E.simplSum ⊑ F.simplSum
  sumSimplify : E.sumSimplify ⊑ F.sumSimplify
  prodSimplify : E.prodSimplify ⊑ F.prodSimplify
  divide : E.divide ⊑ F.divide
  gcd : E.gcd ⊑ F.gcd
  mergeSum : E.mergeSum ⊑ F.mergeSum
  simplProd : E.simplProd ⊑ F.simplProd
  mergeProd : E.mergeProd ⊑ F.mergeProd
  simplPow : E.simplPow ⊑ F.simplPow
  divideL : E.divideL ⊑ F.divideL
  gcdL : E.gcdL ⊑ F.gcdL
  diff : E.diff ⊑ F.diff

instance Eng.instOrder : Lean.Order.PartialOrder (Eng D) where
  rel := Eng.Le
  rel_refl := by
    intro E
    constructor <;> first | exact Nat.le_refl _ | rfl | exact Lean.Order.PartialOrder.rel_refl
  rel_trans := by
    intro E F G h1 h2
    cases h1; cases h2
    constructor <;> first
      | exact Nat.le_trans ‹_› ‹_› | exact Eq.trans ‹_› ‹_›
      | exact Lean.Order.PartialOrder.rel_trans ‹_› ‹_›
  rel_antisymm := by
    intro E F h1 h2
    cases E; cases F
    have a := Nat.le_antisymm h1.steps h2.steps
    have b := h1.cfg
    have c1 := Lean.Order.PartialOrder.rel_antisymm h1.sumCreate h2.sumCreate
    have c2 := Lean.Order.PartialOrder.rel_antisymm h1.prodCreate h2.prodCreate
    have c3 := Lean.Order.PartialOrder.rel_antisymm h1.powCreate h2.powCreate
    have c4 := Lean.Order.PartialOrder.rel_antisymm h1.logCreate h2.logCreate
    have c5 := Lean.Order.PartialOrder.rel_antisymm h1.trigCreate h2.trigCreate
    have c6 := Lean.Order.PartialOrder.rel_antisymm h1.atan2Create h2.atan2Create
    have c7 := Lean.Order.PartialOrder.rel_antisymm h1.isPos h2.isPos
    have c8 := Lean.Order.PartialOrder.rel_antisymm h1.isNeg h2.isNeg
    have c9 := Lean.Order.PartialOrder.rel_antisymm h1.expand h2.expand
    have c10 := Lean.Order.PartialOrder.rel_antisymm h1.expandAsProduct h2.expandAsProduct
    have c11 := Lean.Order.PartialOrder.rel_antisymm h1.subst h2.subst
    have c12 := Lean.Order.PartialOrder.rel_antisymm h1.normal h2.normal
    have c13 := Lean.Order.PartialOrder.rel_antisymm h1.normalFrac h2.normalFrac
    have c14 := Lean.Order.PartialOrder.rel_antisymm h1.coeff h2.coeff
    have c15 := Lean.Order.PartialOrder.rel_antisymm h1.simplSum h2.simplSum
    have c16 := Lean.Order.PartialOrder.rel_antisymm h1.mergeSum h2.mergeSum
    have c17 := Lean.Order.PartialOrder.rel_antisymm h1.simplProd h2.simplProd
    have c18 := Lean.Order.PartialOrder.rel_antisymm h1.mergeProd h2.mergeProd
    have c19 := Lean.Order.PartialOrder.rel_antisymm h1.simplPow h2.simplPow
    have c20 := Lean.Order.PartialOrder.rel_antisymm h1.divideL h2.divideL
    have c21 := Lean.Order.PartialOrder.rel_antisymm h1.gcdL h2.gcdL
    have c22 := Lean.Order.PartialOrder.rel_antisymm h1.diff h2.diff
    have c23 := Lean.Order.PartialOrder.rel_antisymm h1.sumSimplify h2.sumSimplify
    have c24 := Lean.Order.PartialOrder.rel_antisymm h1.prodSimplify h2.prodSimplify
    have c25 := Lean.Order.PartialOrder.rel_antisymm h1.divide h2.divide
    have c26 := Lean.Order.PartialOrder.rel_antisymm h1.gcd h2.gcd
    simp only at c23 c24 c25 c26 a b c1 c2 c3 c4 c5 c6 c7 c8 c9 c10 c11 c12 c13 c14 c15 c16 c17 c18 c19 c20 c21 c22
    subst_vars
    rfl

/-- `monotone_def f (args) : fun E => f E args`: the function is monotone. The theorem is stated for
any monotone argument, so that the tactic `monotonicity` can use it. -/
syntax "monotone_def " ident (ppSpace bracketedBinder)* " : " term (" := " term)? : command

macro_rules
  | `(monotone_def $n:ident $bs* : $f := $p) => do
    let t := Lean.mkIdent (n.getId.appendAfter "_mono")
    `(@[partial_fixpoint_monotone]
      theorem $t $bs* {γ : Type} [Lean.Order.PartialOrder γ] (F : γ → Eng _) (hF : monotone F) :
        monotone (fun x => $f (F x)) :=
        fun x y h => (show monotone $f from $p) (F x) (F y) (hF x y h))
  | `(monotone_def $n:ident $bs* : $f) =>
    `(monotone_def $n $bs* : $f := by unfold $n; repeat' monotonicity)

namespace Eng

monotone_def sumCreate (a) : fun E : Eng D => E.sumCreate a := fun _ _ h => h.sumCreate a
monotone_def prodCreate (a) : fun E : Eng D => E.prodCreate a := fun _ _ h => h.prodCreate a
monotone_def powCreate (a b) : fun E : Eng D => E.powCreate a b := fun _ _ h => h.powCreate a b
monotone_def logCreate (a) : fun E : Eng D => E.logCreate a := fun _ _ h => h.logCreate a
monotone_def trigCreate (a b) : fun E : Eng D => E.trigCreate a b := fun _ _ h => h.trigCreate a b
monotone_def atan2Create (a b) : fun E : Eng D => E.atan2Create a b := fun _ _ h => h.atan2Create a b
monotone_def isPos (a) : fun E : Eng D => E.isPos a := fun _ _ h => h.isPos a
monotone_def isNeg (a) : fun E : Eng D => E.isNeg a := fun _ _ h => h.isNeg a
monotone_def expand (a) : fun E : Eng D => E.expand a := fun _ _ h => h.expand a
monotone_def expandAsProduct (a) : fun E : Eng D => E.expandAsProduct a := fun _ _ h => h.expandAsProduct a
monotone_def subst (a b c) : fun E : Eng D => E.subst a b c := fun _ _ h => h.subst a b c
monotone_def normal (a) : fun E : Eng D => E.normal a := fun _ _ h => h.normal a
monotone_def normalFrac (a b) : fun E : Eng D => E.normalFrac a b := fun _ _ h => h.normalFrac a b
monotone_def coeff (a b c) : fun E : Eng D => E.coeff a b c := fun _ _ h => h.coeff a b c
monotone_def simplSum (a) : fun E : Eng D => E.simplSum a := fun _ _ h => h.simplSum a
monotone_def sumSimplify (a) : fun E : Eng D => E.sumSimplify a := fun _ _ h => h.sumSimplify a
monotone_def prodSimplify (a) : fun E : Eng D => E.prodSimplify a := fun _ _ h => h.prodSimplify a
monotone_def divide (a b) : fun E : Eng D => E.divide a b := fun _ _ h => h.divide a b
monotone_def gcd (a b) : fun E : Eng D => E.gcd a b := fun _ _ h => h.gcd a b
monotone_def mergeSum (a b) : fun E : Eng D => E.mergeSum a b := fun _ _ h => h.mergeSum a b
monotone_def simplProd (a) : fun E : Eng D => E.simplProd a := fun _ _ h => h.simplProd a
monotone_def mergeProd (a b) : fun E : Eng D => E.mergeProd a b := fun _ _ h => h.mergeProd a b
monotone_def simplPow (a b) : fun E : Eng D => E.simplPow a b := fun _ _ h => h.simplPow a b
monotone_def divideL (a b c) : fun E : Eng D => E.divideL a b c := fun _ _ h => h.divideL a b c
monotone_def gcdL (a b c) : fun E : Eng D => E.gcdL a b c := fun _ _ h => h.gcdL a b c
monotone_def diff (a b) : fun E : Eng D => E.diff a b := fun _ _ h => h.diff a b

@[partial_fixpoint_monotone]
theorem mono_loop {γ : Type} [Lean.Order.PartialOrder γ] {S R : Type} (G : γ → Eng D) (f : γ → S → M D (S ⊕ R))
    (s : S) (hG : monotone G) (h : monotone f) : monotone fun x => M.loop (G x).steps (f x) s :=
  fun x y hxy => M.loop_le _ _ _ _ (hG x y hxy).steps (fun s => h x y hxy s) s

/-- The same functions with other settings. -/
def withCfg (E : Eng D) (c : Cfg D) : Eng D := { E with cfg := c }

theorem withCfg_cfg (E : Eng D) (c : Cfg D) : (E.withCfg c).cfg = c := rfl

monotone_def withCfg (c) : fun E : Eng D => E.withCfg c := fun _ _ h => { h with cfg := rfl }

/-- A function that also reads the settings. -/
theorem mono_cfg {β : Type} [Lean.Order.PartialOrder β] (f : Eng D → β)
    (h : ∀ c, monotone fun E : Eng D => f (E.withCfg c)) : monotone f := by
  intro E F hEF
  have hc := hEF.cfg
  have := h E.cfg E F hEF
  have h2 : F.withCfg E.cfg = F := by rw [hc]; rfl
  simp only [h2] at this
  exact this

end Eng

variable [Flt D]

open Expr

/-- As `monotonicity`, also for partial applications. -/
syntax "mono_step" : tactic
macro_rules
  | `(tactic| mono_step) =>
    `(tactic| first | monotonicity | (apply monotone_of_monotone_apply; intro _))

monotone_def Eng.minus (e) : fun E : Eng D => E.minus e
monotone_def Eng.oneOver (e) : fun E : Eng D => E.oneOver e
monotone_def Eng.sqrt (e) : fun E : Eng D => E.sqrt e
monotone_def nonNumericTerm (a0) : fun E : Eng D => nonNumericTerm E a0
monotone_def constTerm (a0) : fun E : Eng D => constTerm E a0
monotone_def nonConstTerm (a0) : fun E : Eng D => nonConstTerm E a0
monotone_def haveEqualNonConstTerms (a0 a1) : fun E : Eng D => haveEqualNonConstTerms E a0 a1
monotone_def simplEqualNonConstTerms (a0 a1) : fun E : Eng D => simplEqualNonConstTerms E a0 a1
monotone_def haveEqualNonNumericTerms (a0 a1) : fun E : Eng D => haveEqualNonNumericTerms E a0 a1
monotone_def simplEqualNonNumericTerms (a0 a1) : fun E : Eng D => simplEqualNonNumericTerms E a0 a1
monotone_def haveEqualFirstOperands (a0 a1) : fun E : Eng D => haveEqualFirstOperands E a0 a1
monotone_def haveContractableSinCos (a0 a1) : fun E : Eng D => haveContractableSinCos E a0 a1
monotone_def simplTwoOther (a0 a1) : fun E : Eng D => simplTwoOther E a0 a1
monotone_def simplTwoSummandsWithoutSum (a0 a1) : fun E : Eng D => simplTwoSummandsWithoutSum E a0 a1
monotone_def simplTwoSummands (a0 a1) : fun E : Eng D => simplTwoSummands E a0 a1
monotone_def mergeSum (a0 a1) : fun E : Eng D => mergeSum E a0 a1
monotone_def simplSum (a0) : fun E : Eng D => simplSum E a0
monotone_def sumCreate (a0) : fun E : Eng D => sumCreate E a0
monotone_def simplNumAndNumPowN (a0 a1 a2) : fun E : Eng D => simplNumAndNumPowN E a0 a1 a2 := by
  apply Eng.mono_cfg; intro c; unfold simplNumAndNumPowN; simp only [Eng.withCfg_cfg]; repeat' mono_step
monotone_def simplNumAndConst (a0 a1) : fun E : Eng D => simplNumAndConst E a0 a1
monotone_def simplTwoEqualBases (a0 a1) : fun E : Eng D => simplTwoEqualBases E a0 a1
monotone_def simplTwoEqualExp (a0 a1) : fun E : Eng D => simplTwoEqualExp E a0 a1
monotone_def areNumPowersWithZeroSumExp (a0 a1) : fun E : Eng D => areNumPowersWithZeroSumExp E a0 a1
monotone_def simplTwoZeroSumExp (a0 a1) : fun E : Eng D => simplTwoZeroSumExp E a0 a1
monotone_def simplTwoEqualExpDenom (a0 a1) : fun E : Eng D => simplTwoEqualExpDenom E a0 a1 := by
  apply Eng.mono_cfg; intro c; unfold simplTwoEqualExpDenom; simp only [Eng.withCfg_cfg]; repeat' mono_step
monotone_def simplTwoConst (a0 a1) : fun E : Eng D => simplTwoConst E a0 a1
monotone_def simplTwoFactorsWithoutProduct (a0 a1) : fun E : Eng D => simplTwoFactorsWithoutProduct E a0 a1
monotone_def simplTwoFactors (a0 a1) : fun E : Eng D => simplTwoFactors E a0 a1
monotone_def mergeProd (a0 a1) : fun E : Eng D => mergeProd E a0 a1
monotone_def extractProducts (a0) : fun E : Eng D => extractProducts E a0
monotone_def trigSign (a0 a1) : fun E : Eng D => trigSign E a0 a1
monotone_def trigFunctionPowerReplacement (a0 a1 a2) : fun E : Eng D => trigFunctionPowerReplacement E a0 a1 a2
monotone_def substList (a0 a1 a2) : fun E : Eng D => substList E a0 a1 a2 := by unfold substList; repeat' mono_step
monotone_def contractToTan (a0 a1 a2 a3 a4) : fun E : Eng D => contractToTan E a0 a1 a2 a3 a4
monotone_def contractTrigFctPowers (a0 a1) : fun E : Eng D => contractTrigFctPowers E a0 a1 := by
  apply Eng.mono_cfg; intro c; unfold contractTrigFctPowers; simp only [Eng.withCfg_cfg]; repeat' mono_step
@[partial_fixpoint_monotone]
theorem contractStep_mono {γ : Type} [Lean.Order.PartialOrder γ] (f : γ → Expr D → Expr D → M D Bool)
    (g : γ → Expr D → Expr D → M D (List (Expr D))) (s : ContractState D) (hf : monotone f)
    (hg : monotone g) : monotone fun x => contractStep (f x) (g x) s := by
  unfold contractStep
  repeat' monotonicity
  · exact monotone_apply _ _ (monotone_apply _ _ hf)
  · exact monotone_apply _ _ (monotone_apply _ _ hg)

@[partial_fixpoint_monotone]
theorem contract_mono {γ : Type} [Lean.Order.PartialOrder γ] (F : γ → Eng D)
    (f : γ → Expr D → Expr D → M D Bool)
    (g : γ → Expr D → Expr D → M D (List (Expr D))) (l : List (Expr D)) (hF : monotone F) (hf : monotone f)
    (hg : monotone g) : monotone fun x => contract (F x) (f x) (g x) l := by
  unfold contract
  split
  · monotonicity
  · refine Eng.mono_loop F _ _ hF (monotone_of_monotone_apply _ fun s => ?_)
    exact contractStep_mono f g s hf hg

monotone_def contractTrigonometrics (a0) : fun E : Eng D => contractTrigonometrics E a0 := by unfold contractTrigonometrics; repeat' mono_step
monotone_def contractConstStep (a0) : fun E : Eng D => contractConstStep E a0 := by
  apply Eng.mono_cfg; intro c; unfold contractConstStep; simp only [Eng.withCfg_cfg]; repeat' mono_step
monotone_def contractConst (a0) : fun E : Eng D => contractConst E a0
monotone_def prepareConst (a0) : fun E : Eng D => prepareConst E a0 := by
  apply Eng.mono_cfg; intro c; unfold prepareConst; simp only [Eng.withCfg_cfg]; repeat' mono_step
monotone_def simplPreparedFactors (a0) : fun E : Eng D => simplPreparedFactors E a0
monotone_def simplProd (a0) : fun E : Eng D => simplProd E a0
monotone_def prodCreate (a0) : fun E : Eng D => prodCreate E a0
monotone_def doesInvolveComplexNumbers (a0 a1) : fun E : Eng D => doesInvolveComplexNumbers E a0 a1
monotone_def simplifyNumericPower (a0 a1) : fun E : Eng D => simplifyNumericPower E a0 a1 := by
  apply Eng.mono_cfg; intro c; unfold simplifyNumericPower; simp only [Eng.withCfg_cfg]; repeat' mono_step
monotone_def doContractExpFirst (a0 a1 a2) : fun E : Eng D => doContractExpFirst E a0 a1 a2
monotone_def doesChangeSign (a0 a1) : fun E : Eng D => doesChangeSign E a0 a1
monotone_def newPowerBase (a0 a1 a2) : fun E : Eng D => newPowerBase E a0 a1 a2
monotone_def simplifyPowerBase (a0 a1 a2) : fun E : Eng D => simplifyPowerBase E a0 a1 a2
monotone_def splitFactors (a0 a1 a2) : fun E : Eng D => splitFactors E a0 a1 a2 := by
  induction a2 with
  | nil => unfold splitFactors; repeat' mono_step
  | cons a l ih => unfold splitFactors; repeat' (first | exact ih | apply ih | mono_step)
monotone_def simplifyProductBase (a0 a1) : fun E : Eng D => simplifyProductBase E a0 a1
monotone_def simplifyConstantBase (a0 a1) : fun E : Eng D => simplifyConstantBase E a0 a1
monotone_def simplPow (a0 a1) : fun E : Eng D => simplPow E a0 a1
monotone_def powCreateNonTrivial (a0 a1) : fun E : Eng D => powCreateNonTrivial E a0 a1
monotone_def powCreate (a0 a1) : fun E : Eng D => powCreate E a0 a1
monotone_def isInvalidArg (a0) : fun E : Eng D => isInvalidArg E a0
monotone_def logCreate (a0) : fun E : Eng D => logCreate E a0
monotone_def signOfSymbolicParts (a0 a1) : fun E : Eng D => signOfSymbolicParts E a0 a1 := by
  induction a1 generalizing a0 with
  | nil => unfold signOfSymbolicParts; repeat' mono_step
  | cons a l ih => unfold signOfSymbolicParts; repeat' (first | exact ih | apply ih | mono_step)
monotone_def signOfSum (a0) : fun E : Eng D => signOfSum E a0
monotone_def signOfProduct (a0 a1) : fun E : Eng D => signOfProduct E a0 a1 := by
  induction a1 generalizing a0 with
  | nil => unfold signOfProduct; repeat' mono_step
  | cons a l ih => unfold signOfProduct; repeat' (first | exact ih | apply ih | mono_step)
monotone_def isPos (a0) : fun E : Eng D => isPos E a0
monotone_def isNeg (a0) : fun E : Eng D => isNeg E a0
monotone_def timesPi (a0) : fun E : Eng D => timesPi E a0
monotone_def minus2 (a0 a1) : fun E : Eng D => minus2 E a0 a1
@[partial_fixpoint_monotone]
theorem NumTrigo.entry_mono {γ : Type} [Lean.Order.PartialOrder γ] (k v : γ → M D (Expr D))
    (hk : monotone k) (hv : monotone v) : monotone fun x => NumTrigo.entry (k x) (v x) := by
  unfold NumTrigo.entry
  repeat' monotonicity
  · exact hk
  · exact hv

monotone_def NumTrigo.sineTable : fun E : Eng D => NumTrigo.sineTable E := by
  unfold NumTrigo.sineTable; simp only [M.mapL]; repeat' mono_step
monotone_def NumTrigo.tanTable : fun E : Eng D => NumTrigo.tanTable E := by
  unfold NumTrigo.tanTable; simp only [M.mapL]; repeat' mono_step
monotone_def NumTrigo.adjustUp (a0 a1) : fun E : Eng D => NumTrigo.adjustUp E a0 a1
monotone_def NumTrigo.adjustDown (a0 a1) : fun E : Eng D => NumTrigo.adjustDown E a0 a1
monotone_def NumTrigo.adjustArgRange (a0) : fun E : Eng D => NumTrigo.adjustArgRange E a0
monotone_def NumTrigo.getQuadrant (a0) : fun E : Eng D => NumTrigo.getQuadrant E a0
monotone_def NumTrigo.shiftDown (a0 a1 a2) : fun E : Eng D => NumTrigo.shiftDown E a0 a1 a2 := by
  induction a1 generalizing a2 with
  | zero => unfold NumTrigo.shiftDown; repeat' mono_step
  | succ n ih => unfold NumTrigo.shiftDown; repeat' (first | exact ih | apply ih | mono_step)
monotone_def NumTrigo.shiftToFirstQuadrant (a0 a1) : fun E : Eng D => NumTrigo.shiftToFirstQuadrant E a0 a1
monotone_def NumTrigo.timesSign (a0 a1) : fun E : Eng D => NumTrigo.timesSign E a0 a1
monotone_def NumTrigo.compNumericalSin (a0 a1) : fun E : Eng D => NumTrigo.compNumericalSin E a0 a1
monotone_def NumTrigo.sin (a0 a1) : fun E : Eng D => NumTrigo.sin E a0 a1
monotone_def NumTrigo.cos (a0 a1) : fun E : Eng D => NumTrigo.cos E a0 a1
monotone_def NumTrigo.prepare (a0) : fun E : Eng D => NumTrigo.prepare E a0
monotone_def NumTrigo.simplSin (a0) : fun E : Eng D => NumTrigo.simplSin E a0
monotone_def NumTrigo.simplCos (a0) : fun E : Eng D => NumTrigo.simplCos E a0
monotone_def NumTrigo.tanViaSinCos (a0) : fun E : Eng D => NumTrigo.tanViaSinCos E a0 := by unfold NumTrigo.tanViaSinCos; repeat' mono_step
monotone_def NumTrigo.tan (a0 a1) : fun E : Eng D => NumTrigo.tan E a0 a1
monotone_def NumTrigo.simplTan (a0) : fun E : Eng D => NumTrigo.simplTan E a0
monotone_def NumTrigo.prepareInverse (a0) : fun E : Eng D => NumTrigo.prepareInverse E a0
monotone_def NumTrigo.asin (a0 a1 a2) : fun E : Eng D => NumTrigo.asin E a0 a1 a2
monotone_def NumTrigo.simplAsin (a0) : fun E : Eng D => NumTrigo.simplAsin E a0
monotone_def NumTrigo.acosFromAsinResult (a0) : fun E : Eng D => NumTrigo.acosFromAsinResult E a0
monotone_def NumTrigo.simplAcos (a0) : fun E : Eng D => NumTrigo.simplAcos E a0
monotone_def NumTrigo.simplAtan (a0) : fun E : Eng D => NumTrigo.simplAtan E a0
monotone_def NumTrigo.simplify (a0 a1) : fun E : Eng D => NumTrigo.simplify E a0 a1 := by unfold NumTrigo.simplify; repeat' mono_step
monotone_def square (a0) : fun E : Eng D => square E a0
monotone_def atan2ArgEval (a0 a1) : fun E : Eng D => atan2ArgEval E a0 a1
monotone_def evalFrac (a0) : fun E : Eng D => evalFrac E a0
monotone_def haveAllNegativePrefactors (a0) : fun E : Eng D => haveAllNegativePrefactors E a0 := by
  induction a0 with
  | nil => unfold haveAllNegativePrefactors; repeat' mono_step
  | cons a l ih => unfold haveAllNegativePrefactors; repeat' (first | exact ih | apply ih | mono_step)
monotone_def doesSymmetryApply (a0) : fun E : Eng D => doesSymmetryApply E a0
monotone_def createBySymmetry (a0 a1) : fun E : Eng D => createBySymmetry E a0 a1
monotone_def createNumericallyBySymmetry (a0 a1) : fun E : Eng D => createNumericallyBySymmetry E a0 a1
monotone_def createNumerically (a0 a1) : fun E : Eng D => createNumerically E a0 a1
monotone_def shiftBelow (a0 a1) : fun E : Eng D => shiftBelow E a0 a1
monotone_def shiftAbove (a0 a1) : fun E : Eng D => shiftAbove E a0 a1
monotone_def interval (a0) : fun E : Eng D => interval E a0
monotone_def shiftArgIntoRange (a0 a1) : fun E : Eng D => shiftArgIntoRange E a0 a1
monotone_def normalOfFrac (a0 a1) : fun E : Eng D => normalOfFrac E a0 a1
monotone_def createFromTrigoNoInverse (a0 a1 a2 a3 a4) : fun E : Eng D => createFromTrigoNoInverse E a0 a1 a2 a3 a4
monotone_def createFromTrigo (a0 a1 a2) : fun E : Eng D => createFromTrigo E a0 a1 a2
monotone_def trigCreate (a0 a1) : fun E : Eng D => trigCreate E a0 a1
monotone_def shiftAtanUp (a0 a1) : fun E : Eng D => shiftAtanUp E a0 a1
monotone_def shiftAtanDown (a0 a1) : fun E : Eng D => shiftAtanDown E a0 a1
monotone_def shiftAtanResultIntoRange (a0 a1) : fun E : Eng D => shiftAtanResultIntoRange E a0 a1
monotone_def simplAtan2 (a0 a1 a2 a3 a4) : fun E : Eng D => simplAtan2 E a0 a1 a2 a3 a4
monotone_def createAtan2Numerically (a0 a1 a2 a3) : fun E : Eng D => createAtan2Numerically E a0 a1 a2 a3
monotone_def atan2Create (a0 a1) : fun E : Eng D => atan2Create E a0 a1
monotone_def defScalarAndSums (a0) : fun E : Eng D => defScalarAndSums E a0 := by
  induction a0 with
  | nil => unfold defScalarAndSums; repeat' mono_step
  | cons a l ih => unfold defScalarAndSums; repeat' (first | exact ih | apply ih | mono_step)
monotone_def expandSums (a0 a1) : fun E : Eng D => expandSums E a0 a1 := by
  induction a1 generalizing a0 with
  | nil => unfold expandSums; repeat' mono_step
  | cons a l ih => unfold expandSums; repeat' (first | exact ih | apply ih | mono_step)
monotone_def expandScalarSum (a0 a1) : fun E : Eng D => expandScalarSum E a0 a1
monotone_def expandAsProduct (a0) : fun E : Eng D => expandAsProduct E a0
monotone_def expandSumBaseIntExp (a0 a1) : fun E : Eng D => expandSumBaseIntExp E a0 a1
monotone_def expand (a0) : fun E : Eng D => expand E a0
monotone_def subst (a0 a1 a2) : fun E : Eng D => subst E a0 a1 a2
monotone_def coeff (a0 a1 a2) : fun E : Eng D => coeff E a0 a1 a2
monotone_def leadingCoeff (a0 a1) : fun E : Eng D => leadingCoeff E a0 a1
monotone_def innerDiff (a0 a1) : fun E : Eng D => innerDiff E a0 a1
@[partial_fixpoint_monotone]
theorem diffTrig_mono {γ : Type} [Lean.Order.PartialOrder γ] (x arg : Expr D) (F : γ → Eng D)
    (m : γ → M D (Expr D)) (hF : monotone F) (hm : monotone m) :
    monotone fun y => diffTrig (F y) x arg (m y) := by
  unfold diffTrig
  repeat' mono_step
  all_goals first | exact hF | exact hm

monotone_def diffProd (a0 a1 a2) : fun E : Eng D => diffProd E a0 a1 a2 := by
  induction a2 generalizing a1 with
  | nil => unfold diffProd; repeat' mono_step
  | cons a l ih => unfold diffProd; repeat' (first | exact ih | apply ih | mono_step)
monotone_def diff (a0 a1) : fun E : Eng D => diff E a0 a1 := by unfold diff; repeat' mono_step
monotone_def diffTop (a0 a1) : fun E : Eng D => diffTop E a0 a1
monotone_def listOfSymbols (a0 a1) : fun E : Eng D => listOfSymbols E a0 a1 := by
  apply Eng.mono_cfg; intro c; unfold listOfSymbols; simp only [Eng.withCfg_cfg]; repeat' mono_step
monotone_def divideEmptyList (a0 a1) : fun E : Eng D => divideEmptyList E a0 a1
monotone_def divideStep (a0 a1 a2 a3 a4) : fun E : Eng D => divideStep E a0 a1 a2 a3 a4
monotone_def divideNonEmpty (a0 a1 a2 a3) : fun E : Eng D => divideNonEmpty E a0 a1 a2 a3 := by unfold divideNonEmpty; repeat' mono_step
monotone_def divideL (a0 a1 a2) : fun E : Eng D => divideL E a0 a1 a2
monotone_def polyDivide (a0 a1) : fun E : Eng D => polyDivide E a0 a1
monotone_def pseudoDivideStep (a0 a1 a2 a3 a4 a5) : fun E : Eng D => pseudoDivideStep E a0 a1 a2 a3 a4 a5
monotone_def pseudoDivideChecked (a0 a1 a2 a3) : fun E : Eng D => pseudoDivideChecked E a0 a1 a2 a3 := by unfold pseudoDivideChecked; repeat' mono_step
monotone_def pseudoDivideImpl (a0 a1 a2 a3) : fun E : Eng D => pseudoDivideImpl E a0 a1 a2 a3
monotone_def pseudoRemainder (a0 a1 a2) : fun E : Eng D => pseudoRemainder E a0 a1 a2
monotone_def normalizationFactor (a0 a1) : fun E : Eng D => normalizationFactor E a0 a1 := by
  induction a0 generalizing a1 with
  | nil => unfold normalizationFactor; repeat' mono_step
  | cons a l ih => unfold normalizationFactor; repeat' (first | exact ih | apply ih | mono_step)
monotone_def normalizeGcd (a0 a1) : fun E : Eng D => normalizeGcd E a0 a1
monotone_def polyGcd (a0 a1) : fun E : Eng D => polyGcd E a0 a1
monotone_def contentLoop (a0 a1 a2 a3 a4) : fun E : Eng D => contentLoop E a0 a1 a2 a3 a4 := by
  induction a2 generalizing a3 a4 with
  | zero => unfold contentLoop; repeat' mono_step
  | succ n ih => unfold contentLoop; repeat' (first | exact ih | apply ih | mono_step)
monotone_def polyContent (a0 a1) : fun E : Eng D => polyContent E a0 a1
monotone_def subresStep (a0 a1 a2 a3) : fun E : Eng D => subresStep E a0 a1 a2 a3
monotone_def subresGcd (a0 a1 a2 a3) : fun E : Eng D => subresGcd E a0 a1 a2 a3 := by unfold subresGcd; repeat' mono_step
monotone_def gcdAlgo (a0 a1 a2) : fun E : Eng D => gcdAlgo E a0 a1 a2
monotone_def gcdViaAlgo (a0 a1 a2) : fun E : Eng D => gcdViaAlgo E a0 a1 a2
monotone_def gcdRaw (a0 a1 a2 a3 a4) : fun E : Eng D => gcdRaw E a0 a1 a2 a3 a4
monotone_def gcdL (a0 a1 a2) : fun E : Eng D => gcdL E a0 a1 a2
monotone_def getTmp (a0 a1) : fun E : Eng D => getTmp E a0 a1 := by
  apply Eng.mono_cfg; intro c; unfold getTmp; simp only [Eng.withCfg_cfg]; repeat' mono_step
monotone_def replacePass (a0 a1) : fun E : Eng D => replacePass E a0 a1 := by
  apply Eng.mono_cfg; intro c; unfold replacePass; simp only [Eng.withCfg_cfg]; repeat' mono_step
monotone_def replaceBack (a0 a1) : fun E : Eng D => replaceBack E a0 a1
monotone_def expandsToZero (a0) : fun E : Eng D => expandsToZero E a0
monotone_def cancelNonTrivial (a0) : fun E : Eng D => cancelNonTrivial E a0
monotone_def cancel (a0) : fun E : Eng D => cancel E a0
monotone_def addFrac (a0 a1) : fun E : Eng D => addFrac E a0 a1
monotone_def toCommonDenom (a0) : fun E : Eng D => toCommonDenom E a0 := by
  induction a0 with
  | nil => unfold toCommonDenom; repeat' mono_step
  | cons a l ih => unfold toCommonDenom; repeat' (first | exact ih | apply ih | mono_step)
monotone_def normalOperands (a0 a1) : fun E : Eng D => normalOperands E a0 a1 := by
  induction a0 generalizing a1 with
  | nil => unfold normalOperands; repeat' mono_step
  | cons a l ih => unfold normalOperands; repeat' (first | exact ih | apply ih | mono_step)
monotone_def evaluatePow (a0 a1 a2) : fun E : Eng D => evaluatePow E a0 a1 a2
monotone_def isBaseOrExpUndefined (a0 a1) : fun E : Eng D => isBaseOrExpUndefined E a0 a1
monotone_def normalIntegerExp (a0 a1) : fun E : Eng D => normalIntegerExp E a0 a1
monotone_def normalNumEvalExp (a0 a1 a2 a3) : fun E : Eng D => normalNumEvalExp E a0 a1 a2 a3
monotone_def normalPow (a0 a1 a2) : fun E : Eng D => normalPow E a0 a1 a2
monotone_def normalFrac (a0 a1) : fun E : Eng D => normalFrac E a0 a1
monotone_def normal (a0) : fun E : Eng D => normal E a0
monotone_def Api.add (a0 a1) : fun E : Eng D => Api.add E a0 a1
monotone_def Api.neg (a0) : fun E : Eng D => Api.neg E a0
monotone_def Api.sub (a0 a1) : fun E : Eng D => Api.sub E a0 a1
monotone_def Api.mul (a0 a1) : fun E : Eng D => Api.mul E a0 a1
monotone_def Api.div (a0 a1) : fun E : Eng D => Api.div E a0 a1
monotone_def Api.pow (a0 a1) : fun E : Eng D => Api.pow E a0 a1
monotone_def Api.sqrt (a0) : fun E : Eng D => Api.sqrt E a0
monotone_def Api.log (a0) : fun E : Eng D => Api.log E a0
monotone_def Api.trig (a0 a1) : fun E : Eng D => Api.trig E a0 a1
monotone_def Api.atan2 (a0 a1) : fun E : Eng D => Api.atan2 E a0 a1
monotone_def Api.subst (a0 a1 a2) : fun E : Eng D => Api.subst E a0 a1 a2
monotone_def Api.expand (a0) : fun E : Eng D => Api.expand E a0
monotone_def Api.diff (a0 a1) : fun E : Eng D => Api.diff E a0 a1
monotone_def Api.isPositive (a0) : fun E : Eng D => Api.isPositive E a0
monotone_def Api.isNegative (a0) : fun E : Eng D => Api.isNegative E a0
monotone_def Api.normalLoop (a0 a1) : fun E : Eng D => Api.normalLoop E a0 a1
monotone_def Api.simplify (a0) : fun E : Eng D => Api.simplify E a0
monotone_def Api.normalToFraction (a0) : fun E : Eng D => Api.normalToFraction E a0
monotone_def Api.numerator (a0) : fun E : Eng D => Api.numerator E a0
monotone_def Api.denominator (a0) : fun E : Eng D => Api.denominator E a0

variable (cfg : Cfg D)

theorem engStep_mono : monotone (engStep : Eng D → Eng D) := by
  intro E F h
  constructor
  · exact Nat.succ_le_succ h.steps
  · exact h.cfg
  all_goals simp only [engStep]
  · exact fun a => sumCreate_mono a id monotone_id E F h
  · exact fun a => prodCreate_mono a id monotone_id E F h
  · exact fun a b => powCreate_mono a b id monotone_id E F h
  · exact fun a => logCreate_mono a id monotone_id E F h
  · exact fun a b => trigCreate_mono a b id monotone_id E F h
  · exact fun a b => atan2Create_mono a b id monotone_id E F h
  · exact fun a => isPos_mono a id monotone_id E F h
  · exact fun a => isNeg_mono a id monotone_id E F h
  · exact fun a => expand_mono a id monotone_id E F h
  · exact fun a => expandAsProduct_mono a id monotone_id E F h
  · exact fun a b c => subst_mono a b c id monotone_id E F h
  · exact fun a => normal_mono a id monotone_id E F h
  · exact fun a b => normalFrac_mono a b id monotone_id E F h
  · exact fun a b c => coeff_mono a b c id monotone_id E F h
  · exact fun a => simplSum_mono a id monotone_id E F h
  · exact fun a => simplSum_mono a id monotone_id E F h
  · exact fun a => simplProd_mono a id monotone_id E F h
  · exact fun a b => polyDivide_mono a b id monotone_id E F h
  · exact fun a b => polyGcd_mono a b id monotone_id E F h
  · exact fun a b => mergeSum_mono a b id monotone_id E F h
  · exact fun a => simplProd_mono a id monotone_id E F h
  · exact fun a b => mergeProd_mono a b id monotone_id E F h
  · exact fun a b => simplPow_mono a b id monotone_id E F h
  · exact fun a b c => divideL_mono a b c id monotone_id E F h
  · exact fun a b c => gcdL_mono a b c id monotone_id E F h
  · exact fun a b => diff_mono a b id monotone_id E F h

theorem eng0_le (E : Eng D) : eng0 E.cfg ⊑ E := by
  constructor
  · exact Nat.zero_le _
  · rfl
  all_goals intros; first | exact .inl rfl | (intro; exact .inl rfl) | (intro _ _; exact .inl rfl) | (intro _ _ _; exact .inl rfl)

theorem eng_cfg (n : Nat) : (eng cfg n).cfg = cfg := by
  induction n with
  | zero => rfl
  | succ n ih => exact ih

theorem eng_succ_le (n : Nat) : eng cfg n ⊑ eng cfg (n + 1) := by
  induction n with
  | zero => exact eng0_le (engStep (eng0 cfg))
  | succ n ih => exact engStep_mono _ _ ih

/-- The functions with more depth give the same results. -/
theorem eng_le {n m : Nat} (h : n ≤ m) : eng cfg n ⊑ eng cfg m := by
  induction h with
  | refl => exact Lean.Order.PartialOrder.rel_refl
  | step _ ih => exact Lean.Order.PartialOrder.rel_trans ih (eng_succ_le cfg _)

end Tsym
