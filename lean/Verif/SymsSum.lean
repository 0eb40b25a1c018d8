import Verif.Syms

set_option autoImplicit false
set_option linter.unusedSectionVars false
set_option linter.unusedSimpArgs false

/-!
# Symbols of results: sums
-/

namespace Tsym

open Expr HasSyms

variable {D : Type} [Flt D] {E : Eng D} {S : Sym → Prop}

theorem constElements_sub {l : List (Expr D)} (h : ∀ x ∈ l, Within S x) :
    ∀ x ∈ constElements l, Within S x :=
  fun x hx => h x (List.mem_of_mem_filter hx)

theorem nonConstElements_sub {l : List (Expr D)} (h : ∀ x ∈ l, Within S x) :
    ∀ x ∈ nonConstElements l, Within S x :=
  fun x hx => h x (List.mem_of_mem_filter hx)

theorem numericTerm_sy {e : Expr D} (h : Within S e) : Sy S (numericTerm e) := by
  unfold numericTerm
  sy

macro_rules | `(tactic| sy_rule) => `(tactic| with_reducible apply numericTerm_sy)

theorem nonNumericTerm_sy (hE : Syms E) {e : Expr D} (h : Within S e) : Sy S (nonNumericTerm E e) := by
  unfold nonNumericTerm
  sy

macro_rules | `(tactic| sy_rule) => `(tactic| with_reducible apply nonNumericTerm_sy (by assumption))

theorem constTerm_sy (hE : Syms E) {e : Expr D} (h : Within S e) : Sy S (constTerm E e) := by
  unfold constTerm
  sy
  exact constElements_sub h

macro_rules | `(tactic| sy_rule) => `(tactic| with_reducible apply constTerm_sy (by assumption))

theorem nonConstTerm_sy (hE : Syms E) {e : Expr D} (h : Within S e) : Sy S (nonConstTerm E e) := by
  unfold nonConstTerm
  sy
  exact nonConstElements_sub h

macro_rules | `(tactic| sy_rule) => `(tactic| with_reducible apply nonConstTerm_sy (by assumption))

theorem ordered_ws {a b : Expr D} (ha : Within S a) (hb : Within S b) : ∀ x ∈ ordered a b, Within S x := by
  unfold ordered
  split <;> simp_all

theorem addNumerics_ws {a b : Number D} : ∀ x ∈ addNumerics a b, Within S x := by
  unfold addNumerics
  split <;> simp_all

theorem summands_ws {e : Expr D} (h : Within S e) : ∀ x ∈ summands e, Within S x := by
  unfold summands
  split <;> simp_all

theorem simplEqualNonConstTerms_sy (hE : Syms E) {a b : Expr D} (ha : Within S a) (hb : Within S b) :
    Sy S (simplEqualNonConstTerms E a b) := by
  unfold simplEqualNonConstTerms
  sy
  exact ordered_ws ha hb

theorem simplEqualNonNumericTerms_sy (hE : Syms E) {a b : Expr D} (ha : Within S a)
    (hb : Within S b) : Sy S (simplEqualNonNumericTerms E a b) := by
  unfold simplEqualNonNumericTerms
  sy

theorem simplTwoOther_sy (hE : Syms E) {a b : Expr D} (ha : Within S a) (hb : Within S b) :
    Sy S (simplTwoOther E a b) := by
  unfold simplTwoOther
  have h1 := simplEqualNonConstTerms_sy hE ha hb
  have h2 := simplEqualNonNumericTerms_sy hE ha hb
  sy
  exact ordered_ws ha hb

theorem simplTwoSummands_sy (hE : Syms E) {a b : Expr D} (ha : Within S a) (hb : Within S b) :
    Sy S (simplTwoSummands E a b) := by
  unfold simplTwoSummands simplTwoSummandsWithoutSum
  sy
  · exact summands_ws ha
  · exact summands_ws hb
  · exact addNumerics_ws
  · exact simplTwoOther_sy hE ha hb

macro_rules | `(tactic| sy_rule) => `(tactic| with_reducible apply simplTwoSummands_sy (by assumption))

theorem mergeSum_sy (hE : Syms E) {l m : List (Expr D)} (hl : ws S l) (hm : ws S m) :
    Sy S (mergeSum E l m) := by
  unfold mergeSum
  sy

theorem simplSum_sy (hE : Syms E) {l : List (Expr D)} (hl : ws S l) : Sy S (simplSum E l) := by
  unfold simplSum
  sy
  exact summands_ws hl.1

theorem sumCreate_sy (hE : Syms E) {l : List (Expr D)} (hl : ws S l) : Sy S (sumCreate E l) := by
  unfold sumCreate
  sy

end Tsym
