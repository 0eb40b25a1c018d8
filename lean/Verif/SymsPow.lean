import Verif.SymsProd

set_option autoImplicit false
set_option linter.unusedSectionVars false
set_option linter.unusedSimpArgs false

/-!
# Symbols of results: powers, logarithms and trigonometric functions
-/

namespace Tsym

open Expr HasSyms

variable {D : Type} [Flt D] {E : Eng D} {S : Sym → Prop}

theorem simplifyNumericPower_sy (hE : Syms E) {b e : Number D} :
    Sy S (simplifyNumericPower E b e) := by
  unfold simplifyNumericPower
  sy

macro_rules | `(tactic| sy_rule) => `(tactic| with_reducible apply simplifyNumericPower_sy (by assumption))

theorem newPowerBase_sy (hE : Syms E) {b e1 e2 : Expr D} (hb : Within S b) :
    Sy S (newPowerBase E b e1 e2) := by
  unfold newPowerBase
  sy

macro_rules | `(tactic| sy_rule) => `(tactic| with_reducible apply newPowerBase_sy (by assumption))

theorem simplifyPowerBase_sy (hE : Syms E) {b e1 e2 : Expr D} (hb : Within S b) (h1 : Within S e1)
    (h2 : Within S e2) : Sy S (simplifyPowerBase E b e1 e2) := by
  unfold simplifyPowerBase
  sy

macro_rules | `(tactic| sy_rule) => `(tactic| with_reducible apply simplifyPowerBase_sy (by assumption))

theorem splitFactors_sy (hE : Syms E) {all : Bool} {e : Expr D} (he : Within S e) {l : List (Expr D)}
    (hl : ws S l) : Sy S (splitFactors E all e l) := by
  induction l with
  | nil => unfold splitFactors; sy
  | cons a l ih =>
    unfold splitFactors
    have := ih (by simp_all)
    sy

macro_rules | `(tactic| sy_rule) => `(tactic| with_reducible apply splitFactors_sy (by assumption))

theorem simplifyProductBase_sy (hE : Syms E) {l : List (Expr D)} {e : Expr D} (hl : ws S l)
    (he : Within S e) : Sy S (simplifyProductBase E l e) := by
  unfold simplifyProductBase
  sy

macro_rules | `(tactic| sy_rule) => `(tactic| with_reducible apply simplifyProductBase_sy (by assumption))

theorem simplifyConstantBase_sy (hE : Syms E) {c : Cst} {e : Expr D} (he : Within S e) :
    Sy S (simplifyConstantBase E c e) := by
  unfold simplifyConstantBase
  have := within_operands he
  sy

macro_rules | `(tactic| sy_rule) => `(tactic| with_reducible apply simplifyConstantBase_sy (by assumption))

theorem simplPow_sy (hE : Syms E) {b e : Expr D} (hb : Within S b) (he : Within S e) :
    Sy S (simplPow E b e) := by
  unfold simplPow
  sy

theorem powCreate_sy (hE : Syms E) {b e : Expr D} (hb : Within S b) (he : Within S e) :
    Sy S (powCreate E b e) := by
  unfold powCreate powCreateNonTrivial
  sy

theorem logCreate_sy (hE : Syms E) {a : Expr D} (ha : Within S a) : Sy S (logCreate E a) := by
  unfold logCreate
  sy

theorem timesPi_sy (hE : Syms E) {q : ℚ} : Sy S (timesPi E q) := by
  unfold timesPi
  sy

macro_rules | `(tactic| sy_rule) => `(tactic| with_reducible apply timesPi_sy (by assumption))

theorem minus2_sy (hE : Syms E) {a b : Expr D} (ha : Within S a) (hb : Within S b) :
    Sy S (minus2 E a b) := by
  unfold minus2
  sy

macro_rules | `(tactic| sy_rule) => `(tactic| with_reducible apply minus2_sy (by assumption))

namespace NumTrigo

theorem entry_sy {k v : M D (Expr D)} (hk : Sy S k) (hv : Sy S v) : Sy S (entry k v) := by
  unfold entry
  sy

macro_rules | `(tactic| sy_rule) => `(tactic| with_reducible apply entry_sy)

theorem sineTable_sy (hE : Syms E) : Sy S (sineTable E) := by
  unfold sineTable
  refine Sy.mapL ?_
  simp only [List.forall_mem_cons]
  repeat' apply And.intro
  all_goals sy

macro_rules | `(tactic| sy_rule) => `(tactic| with_reducible apply sineTable_sy (by assumption))

theorem tanTable_sy (hE : Syms E) : Sy S (tanTable E) := by
  unfold tanTable
  refine Sy.mapL ?_
  simp only [List.forall_mem_cons]
  repeat' apply And.intro
  all_goals sy

macro_rules | `(tactic| sy_rule) => `(tactic| with_reducible apply tanTable_sy (by assumption))

theorem getValueNumEval_sy {n : Number D} {l : List (Entry D)} (h : ws S l) :
    Sy S (getValueNumEval n l) := by
  induction l with
  | nil => unfold getValueNumEval; sy
  | cons a l ih =>
    unfold getValueNumEval
    have := ih (by simp_all)
    sy

macro_rules | `(tactic| sy_rule) => `(tactic| with_reducible apply getValueNumEval_sy)

theorem getValue_sy {e : Expr D} {l : List (Entry D)} (h : ws S l) : Sy S (getValue e l) := by
  unfold getValue
  split
  · rename_i t ht
    have := h t (List.mem_of_find?_eq_some ht)
    sy
  · sy

macro_rules | `(tactic| sy_rule) => `(tactic| with_reducible apply getValue_sy)

theorem getKey_sy {e : Expr D} {n : Option (Number D)} {l : List (Entry D)} (h : ws S l) :
    Sy S (getKey e n l) := by
  induction l with
  | nil => unfold getKey; sy
  | cons a l ih =>
    unfold getKey
    have := ih (by simp_all)
    sy
    all_goals sy

macro_rules | `(tactic| sy_rule) => `(tactic| with_reducible apply getKey_sy)

theorem adjustUp_sy (hE : Syms E) {t a : Expr D} (ht : Within S t) (ha : Within S a) :
    Sy S (adjustUp E t a) := by
  unfold adjustUp
  sy

macro_rules | `(tactic| sy_rule) => `(tactic| with_reducible apply adjustUp_sy (by assumption))

theorem adjustDown_sy (hE : Syms E) {t a : Expr D} (ht : Within S t) (ha : Within S a) :
    Sy S (adjustDown E t a) := by
  unfold adjustDown
  sy

macro_rules | `(tactic| sy_rule) => `(tactic| with_reducible apply adjustDown_sy (by assumption))

theorem adjustArgRange_sy (hE : Syms E) {a : Expr D} (ha : Within S a) :
    Sy S (adjustArgRange E a) := by
  unfold adjustArgRange
  sy

macro_rules | `(tactic| sy_rule) => `(tactic| with_reducible apply adjustArgRange_sy (by assumption))

theorem shiftDown_sy (hE : Syms E) {p : Expr D} (hp : Within S p) (n : Nat) :
    ∀ {a : Expr D}, Within S a → Sy S (shiftDown E p n a) := by
  induction n with
  | zero => intro a ha; unfold shiftDown; sy
  | succ n ih =>
    intro a ha
    unfold shiftDown
    refine Sy.bind (minus_sy hE hp) fun m hm => ?_
    refine Sy.bind (hE.sum (by simp_all)) fun b hb => ih hb

macro_rules | `(tactic| sy_rule) => `(tactic| with_reducible apply shiftDown_sy (by assumption))

theorem shiftToFirstQuadrant_sy (hE : Syms E) {q : Nat} {a : Expr D} (ha : Within S a) :
    Sy S (shiftToFirstQuadrant E q a) := by
  unfold shiftToFirstQuadrant
  sy

macro_rules | `(tactic| sy_rule) => `(tactic| with_reducible apply shiftToFirstQuadrant_sy (by assumption))

theorem timesSign_sy (hE : Syms E) {n : ℤ} {a : Expr D} (ha : Within S a) :
    Sy S (timesSign E n a) := by
  unfold timesSign
  sy

macro_rules | `(tactic| sy_rule) => `(tactic| with_reducible apply timesSign_sy (by assumption))

theorem compNumericalSin_sy (hE : Syms E) {n : ℤ} {a : Expr D} (ha : Within S a) :
    Sy S (compNumericalSin E n a) := by
  unfold compNumericalSin
  sy

macro_rules | `(tactic| sy_rule) => `(tactic| with_reducible apply compNumericalSin_sy (by assumption))

theorem sin_sy (hE : Syms E) {o a : Expr D} (ha : Within S a) : Sy S (sin E o a) := by
  unfold sin
  sy

macro_rules | `(tactic| sy_rule) => `(tactic| with_reducible apply sin_sy (by assumption))

theorem cos_sy (hE : Syms E) {o a : Expr D} (ha : Within S a) : Sy S (cos E o a) := by
  unfold cos
  sy

macro_rules | `(tactic| sy_rule) => `(tactic| with_reducible apply cos_sy (by assumption))

theorem prepare_sy (hE : Syms E) {a : Expr D} (ha : Within S a) : Sy S (prepare E a) := by
  unfold prepare
  sy

macro_rules | `(tactic| sy_rule) => `(tactic| with_reducible apply prepare_sy (by assumption))

theorem simplSin_sy (hE : Syms E) {a : Expr D} (ha : Within S a) : Sy S (simplSin E a) := by
  unfold simplSin
  sy

macro_rules | `(tactic| sy_rule) => `(tactic| with_reducible apply simplSin_sy (by assumption))

theorem simplCos_sy (hE : Syms E) {a : Expr D} (ha : Within S a) : Sy S (simplCos E a) := by
  unfold simplCos
  sy

macro_rules | `(tactic| sy_rule) => `(tactic| with_reducible apply simplCos_sy (by assumption))

theorem tanViaSinCos_sy (hE : Syms E) {a : Expr D} (ha : Within S a) : Sy S (tanViaSinCos E a) := by
  unfold tanViaSinCos
  sy

macro_rules | `(tactic| sy_rule) => `(tactic| with_reducible apply tanViaSinCos_sy (by assumption))

theorem tan_sy (hE : Syms E) {o a : Expr D} (ho : Within S o) : Sy S (tan E o a) := by
  unfold tan
  sy

macro_rules | `(tactic| sy_rule) => `(tactic| with_reducible apply tan_sy (by assumption))

theorem simplTan_sy (hE : Syms E) {a : Expr D} (ha : Within S a) : Sy S (simplTan E a) := by
  unfold simplTan
  sy

macro_rules | `(tactic| sy_rule) => `(tactic| with_reducible apply simplTan_sy (by assumption))

theorem prepareInverse_sy (hE : Syms E) {a : Expr D} (ha : Within S a) :
    Sy S (prepareInverse E a) := by
  unfold prepareInverse
  sy

macro_rules | `(tactic| sy_rule) => `(tactic| with_reducible apply prepareInverse_sy (by assumption))

theorem asin_sy (hE : Syms E) {o a : Expr D} {n : ℤ} : Sy S (asin E o n a) := by
  unfold asin
  sy

macro_rules | `(tactic| sy_rule) => `(tactic| with_reducible apply asin_sy (by assumption))

theorem simplAsin_sy (hE : Syms E) {a : Expr D} (ha : Within S a) : Sy S (simplAsin E a) := by
  unfold simplAsin
  sy

macro_rules | `(tactic| sy_rule) => `(tactic| with_reducible apply simplAsin_sy (by assumption))

theorem acosFromAsinResult_sy (hE : Syms E) {a : Expr D} (ha : Within S a) :
    Sy S (acosFromAsinResult E a) := by
  unfold acosFromAsinResult
  sy

macro_rules | `(tactic| sy_rule) => `(tactic| with_reducible apply acosFromAsinResult_sy (by assumption))

theorem simplAcos_sy (hE : Syms E) {a : Expr D} (ha : Within S a) : Sy S (simplAcos E a) := by
  unfold simplAcos
  sy

macro_rules | `(tactic| sy_rule) => `(tactic| with_reducible apply simplAcos_sy (by assumption))

theorem simplAtan_sy (hE : Syms E) {a : Expr D} (ha : Within S a) : Sy S (simplAtan E a) := by
  unfold simplAtan
  sy

macro_rules | `(tactic| sy_rule) => `(tactic| with_reducible apply simplAtan_sy (by assumption))

theorem simplify_sy (hE : Syms E) {f : Fn} {a : Expr D} (ha : Within S a) : Sy S (simplify E f a) := by
  unfold simplify
  sy

macro_rules | `(tactic| sy_rule) => `(tactic| with_reducible apply simplify_sy (by assumption))

end NumTrigo

theorem square_sy (hE : Syms E) {a : Expr D} (ha : Within S a) : Sy S (square E a) := by
  unfold square
  sy

macro_rules | `(tactic| sy_rule) => `(tactic| with_reducible apply square_sy (by assumption))

theorem atan2ArgEval_sy (hE : Syms E) {y x : Expr D} (hy : Within S y) (hx : Within S x) :
    Sy S (atan2ArgEval E y x) := by
  unfold atan2ArgEval
  sy

macro_rules | `(tactic| sy_rule) => `(tactic| with_reducible apply atan2ArgEval_sy (by assumption))

theorem evalFrac_sy (hE : Syms E) {f : Frac D} (hf : ws S f) : Sy S (evalFrac E f) := by
  unfold evalFrac
  sy

macro_rules | `(tactic| sy_rule) => `(tactic| with_reducible apply evalFrac_sy (by assumption))

theorem createBySymmetry_sy (hE : Syms E) {f : Fn} {a : Expr D} (ha : Within S a) :
    Sy S (createBySymmetry E f a) := by
  unfold createBySymmetry
  sy

macro_rules | `(tactic| sy_rule) => `(tactic| with_reducible apply createBySymmetry_sy (by assumption))

theorem createNumericallyBySymmetry_sy (hE : Syms E) {f : Fn} {a : Expr D} (ha : Within S a) :
    Sy S (createNumericallyBySymmetry E f a) := by
  unfold createNumericallyBySymmetry
  sy

macro_rules
  | `(tactic| sy_rule) =>
    `(tactic| with_reducible apply createNumericallyBySymmetry_sy (by assumption))

theorem createNumerically_sy (hE : Syms E) {f : Fn} {a : Expr D} (ha : Within S a) :
    Sy S (createNumerically E f a) := by
  unfold createNumerically
  sy

macro_rules | `(tactic| sy_rule) => `(tactic| with_reducible apply createNumerically_sy (by assumption))

theorem shiftBelow_sy (hE : Syms E) {u a : Expr D} (ha : Within S a) : Sy S (shiftBelow E u a) := by
  unfold shiftBelow
  sy

macro_rules | `(tactic| sy_rule) => `(tactic| with_reducible apply shiftBelow_sy (by assumption))

theorem shiftAbove_sy (hE : Syms E) {u a : Expr D} (ha : Within S a) : Sy S (shiftAbove E u a) := by
  unfold shiftAbove
  sy

macro_rules | `(tactic| sy_rule) => `(tactic| with_reducible apply shiftAbove_sy (by assumption))

theorem interval_sy (hE : Syms E) {f : Fn} : Sy S (interval E f) := by
  unfold interval
  sy

macro_rules | `(tactic| sy_rule) => `(tactic| with_reducible apply interval_sy (by assumption))

theorem shiftArgIntoRange_sy (hE : Syms E) {f : Fn} {a : Expr D} (ha : Within S a) :
    Sy S (shiftArgIntoRange E f a) := by
  unfold shiftArgIntoRange
  sy

macro_rules | `(tactic| sy_rule) => `(tactic| with_reducible apply shiftArgIntoRange_sy (by assumption))

theorem normalOfFrac_sy (hE : Syms E) {a b : Expr D} (ha : Within S a) (hb : Within S b) :
    Sy S (normalOfFrac E a b) := by
  unfold normalOfFrac
  sy

macro_rules | `(tactic| sy_rule) => `(tactic| with_reducible apply normalOfFrac_sy (by assumption))

theorem createFromTrigoNoInverse_sy (hE : Syms E) {f : Fn} {g : Option Fn} {o a b : Expr D}
    (ho : Within S o) (ha : Within S a) (hb : Within S b) :
    Sy S (createFromTrigoNoInverse E f g o a b) := by
  unfold createFromTrigoNoInverse
  sy

macro_rules
  | `(tactic| sy_rule) =>
    `(tactic| with_reducible apply createFromTrigoNoInverse_sy (by assumption))

theorem createFromTrigo_sy (hE : Syms E) {f g : Fn} {a : Expr D} (ha : Within S a) :
    Sy S (createFromTrigo E f g a) := by
  unfold createFromTrigo
  sy

macro_rules | `(tactic| sy_rule) => `(tactic| with_reducible apply createFromTrigo_sy (by assumption))

theorem trigCreate_sy (hE : Syms E) {f : Fn} {a : Expr D} (ha : Within S a) :
    Sy S (trigCreate E f a) := by
  unfold trigCreate
  sy

theorem shiftAtanUp_sy (hE : Syms E) {i a : Expr D} (hi : Within S i) (ha : Within S a) :
    Sy S (shiftAtanUp E i a) := by
  unfold shiftAtanUp
  sy

macro_rules | `(tactic| sy_rule) => `(tactic| with_reducible apply shiftAtanUp_sy (by assumption))

theorem shiftAtanDown_sy (hE : Syms E) {i a : Expr D} (hi : Within S i) (ha : Within S a) :
    Sy S (shiftAtanDown E i a) := by
  unfold shiftAtanDown
  sy

macro_rules | `(tactic| sy_rule) => `(tactic| with_reducible apply shiftAtanDown_sy (by assumption))

theorem shiftAtanResultIntoRange_sy (hE : Syms E) {a b : Expr D} (ha : Within S a)
    (hb : Within S b) : Sy S (shiftAtanResultIntoRange E a b) := by
  unfold shiftAtanResultIntoRange
  sy

macro_rules
  | `(tactic| sy_rule) =>
    `(tactic| with_reducible apply shiftAtanResultIntoRange_sy (by assumption))

theorem simplAtan2_sy (hE : Syms E) {y x i : Expr D} {m n : Number D} (hy : Within S y)
    (hx : Within S x) (hi : Within S i) : Sy S (simplAtan2 E y x m n i) := by
  unfold simplAtan2
  sy

macro_rules | `(tactic| sy_rule) => `(tactic| with_reducible apply simplAtan2_sy (by assumption))

theorem createAtan2Numerically_sy (hE : Syms E) {y x : Expr D} {m n : Number D} (hy : Within S y)
    (hx : Within S x) : Sy S (createAtan2Numerically E m n y x) := by
  unfold createAtan2Numerically
  sy

macro_rules | `(tactic| sy_rule) => `(tactic| with_reducible apply createAtan2Numerically_sy (by assumption))

theorem atan2Create_sy (hE : Syms E) {y x : Expr D} (hy : Within S y) (hx : Within S x) :
    Sy S (atan2Create E y x) := by
  unfold atan2Create
  sy

end Tsym
