import Verif.SymsPow

set_option autoImplicit false
set_option linter.unusedSectionVars false
set_option linter.unusedSimpArgs false

/-!
# Symbols of results: expansion, substitution, derivatives, polynomials
-/

namespace Tsym

open Expr HasSyms

variable {D : Type} [Flt D] {E : Eng D} {S : Sym → Prop}

theorem defScalarAndSums_sy (hE : Syms E) {l : List (Expr D)} (h : ws S l) :
    Sy S (defScalarAndSums E l) := by
  induction l with
  | nil => unfold defScalarAndSums; sy
  | cons a l ih =>
    unfold defScalarAndSums
    have := ih (by simp_all)
    sy

macro_rules | `(tactic| sy_rule) => `(tactic| with_reducible apply defScalarAndSums_sy (by assumption))

theorem expandSums_sy (hE : Syms E) {l : List (Expr D)} :
    ∀ {a : Expr D}, Within S a → ws S l → Sy S (expandSums E a l) := by
  induction l with
  | nil => intro a ha h; unfold expandSums; sy
  | cons b l ih =>
    intro a ha h
    unfold expandSums
    have h1 := within_operands ha
    refine Sy.bind Sy.unit fun _ _ => ?_
    refine Sy.bind (Sy.mapL fun x hx => ?_) fun r hr => ?_
    · have := h1 x hx
      sy
    · exact Sy.bind (hE.sum hr) fun s hs => ih hs (by simp_all)

macro_rules | `(tactic| sy_rule) => `(tactic| with_reducible apply expandSums_sy (by assumption))

theorem expandScalarSum_sy (hE : Syms E) {a : Expr D} {l : List (Expr D)} (ha : Within S a)
    (h : ws S l) : Sy S (expandScalarSum E a l) := by
  unfold expandScalarSum
  sy

macro_rules | `(tactic| sy_rule) => `(tactic| with_reducible apply expandScalarSum_sy (by assumption))

theorem expandAsProduct_sy (hE : Syms E) {l : List (Expr D)} (h : ws S l) :
    Sy S (expandAsProduct E l) := by
  unfold expandAsProduct
  sy

theorem expandSumBaseIntExp_sy (hE : Syms E) {b e : Expr D} (hb : Within S b) :
    Sy S (expandSumBaseIntExp E b e) := by
  unfold expandSumBaseIntExp
  sy

macro_rules | `(tactic| sy_rule) => `(tactic| with_reducible apply expandSumBaseIntExp_sy (by assumption))

theorem expand_sy (hE : Syms E) {a : Expr D} (ha : Within S a) : Sy S (expand E a) := by
  unfold expand
  sy

theorem subst_sy (hE : Syms E) {x r e : Expr D} (hr : Within S r) (he : Within S e) :
    Sy S (subst E x r e) := by
  unfold subst substList
  sy

/-- What `substSym` needs to know about a part of an expression. -/
def SubstOk (S : Sym → Prop) (t : Sym) (r e : Expr D) : Prop :=
  Within (fun s => S s ∨ s = t) e ∧ (Occurs (.sym t) e → Within S r)

theorem SubstOk.op {t : Sym} {r e o : Expr D} (h : SubstOk S t r e) (ho : o ∈ operands e) :
    SubstOk S t r o :=
  ⟨fun s hs => h.1 s (.op ho hs), fun hs => h.2 (.op ho hs)⟩

theorem SubstOk.list_sy (hE : Syms E) {t : Sym} {r e : Expr D} (h : SubstOk S t r e) :
    Sy S (substList E (.sym t) r e.operands) :=
  Sy.mapL fun _ ho => hE.substSym (h.op ho).1 (h.op ho).2

theorem substSym_sy (hE : Syms E) {t : Sym} {r e : Expr D} (h1 : Within (fun s => S s ∨ s = t) e)
    (h2 : Occurs (.sym t) e → Within S r) : Sy S (subst E (.sym t) r e) := by
  have h : SubstOk S t r e := ⟨h1, h2⟩
  have ho : ∀ o ∈ operands e, Sy S (E.subst (.sym t) r o) :=
    fun o ho => hE.substSym (h.op ho).1 (h.op ho).2
  have hl := h.list_sy hE
  cases e <;> simp only [operands, List.forall_mem_cons] at ho hl <;> unfold subst
  case num n => simp [isEqual]; sy
  case sym s =>
    refine Sy.pure ?_
    by_cases hs : s = t
    · subst hs
      simpa [isEqual] using h2 .refl
    · simp only [within_sym] at h1
      simpa [isEqual, hs] using h1.resolve_right hs
  case cst c => simp [isEqual]; sy
  case undef => simp [isUndefined]; sy
  case sum l => simp [isEqual]; sy
  case prod l => simp [isEqual]; sy
  case pow b e =>
    obtain ⟨ho1, ho2, -⟩ := ho
    simp [isEqual]; sy
  case fn f a =>
    obtain ⟨ho1, -⟩ := ho
    cases f <;> simp [isEqual] <;> sy
  case atan2 y x =>
    obtain ⟨ho1, ho2, -⟩ := ho
    simp [isEqual]; sy

theorem removeFirst_ws {p : Expr D} {l : List (Expr D)} (h : ∀ x ∈ l, Within S x) :
    ∀ r, removeFirst p l = some r → ∀ x ∈ r, Within S x := by
  induction l with
  | nil => simp [removeFirst]
  | cons a l ih =>
    intro r hr
    unfold removeFirst at hr
    split at hr
    · simp only [Option.some.injEq] at hr
      subst hr
      simp_all
    · simp only [Option.map_eq_some_iff] at hr
      obtain ⟨r', h1, rfl⟩ := hr
      have := ih (fun x hx => h x (by simp [hx])) r' h1
      simp_all

theorem coeff_sy (hE : Syms E) {x a : Expr D} {n : ℤ} (ha : Within S a) : Sy S (coeff E x n a) := by
  unfold coeff
  split
  · sy
  · rename_i l
    split
    · sy
    · split
      · sy
      · refine wp_bind (P := fun _ => True) wp_true fun p _ => ?_
        split
        · rename_i m hm
          exact hE.prod (removeFirst_ws (by simpa using ha) m hm)
        · exact Sy.pure (by simp)
  · split
    · sy
    · refine wp_bind (P := fun _ => True) wp_true fun p _ => ?_
      show Sy S _
      sy
  · sy

theorem leadingCoeff_sy (hE : Syms E) {x a : Expr D} (ha : Within S a) : Sy S (leadingCoeff E x a) := by
  unfold leadingCoeff
  sy

macro_rules | `(tactic| sy_rule) => `(tactic| with_reducible apply leadingCoeff_sy (by assumption))

theorem innerDiff_sy (hE : Syms E) {f : Fn} {a : Expr D} (ha : Within S a) :
    Sy S (innerDiff E f a) := by
  unfold innerDiff
  sy

macro_rules | `(tactic| sy_rule) => `(tactic| with_reducible apply innerDiff_sy (by assumption))

theorem diffTrig_sy (hE : Syms E) {x a : Expr D} {i : M D (Expr D)} (ha : Within S a)
    (hi : Sy S i) : Sy S (diffTrig E x a i) := by
  unfold diffTrig
  sy

macro_rules | `(tactic| sy_rule) => `(tactic| with_reducible apply diffTrig_sy (by assumption))

theorem diffProd_sy (hE : Syms E) {x : Expr D} {l : List (Expr D)} : ∀ {b : List (Expr D)}, ws S b →
    ws S l → Sy S (diffProd E x b l) := by
  induction l with
  | nil => intro b hb hl; unfold diffProd; sy
  | cons a l ih =>
    intro b hb hl
    unfold diffProd
    have := ih (b := b ++ [a]) (by simp_all [or_imp, forall_and]) (by simp_all)
    sy

macro_rules | `(tactic| sy_rule) => `(tactic| with_reducible apply diffProd_sy (by assumption))

theorem diff_sy (hE : Syms E) {x a : Expr D} (ha : Within S a) : Sy S (diff E x a) := by
  unfold diff
  sy

/-! ## Polynomials -/

theorem addIfNotAlreadyStored_ws {l : List (Expr D)} {s : Expr D} (hl : ∀ x ∈ l, Within S x)
    (hs : Within S s) : ∀ x ∈ addIfNotAlreadyStored l s, Within S x := by
  unfold addIfNotAlreadyStored
  split <;> simp_all [or_imp, forall_and]

theorem addSymbolsList_ws {l : List (Expr D)} (h : ∀ x ∈ l, Within S x)
    (ih : ∀ a ∈ l, ∀ acc : List (Expr D), (∀ x ∈ acc, Within S x) → Within S a →
      ∀ x ∈ addSymbols acc a, Within S x) :
    ∀ acc : List (Expr D), (∀ x ∈ acc, Within S x) → ∀ x ∈ addSymbolsList acc l, Within S x := by
  induction l with
  | nil => intro acc hacc; simpa [addSymbolsList] using hacc
  | cons a l ihl =>
    intro acc hacc
    unfold addSymbolsList
    refine ihl (fun x hx => h x (by simp [hx])) (fun x hx => ih x (by simp [hx])) _ ?_
    exact ih a (by simp) acc hacc (h a (by simp))

theorem addSymbols_ws (a : Expr D) : ∀ acc : List (Expr D), (∀ x ∈ acc, Within S x) → Within S a →
    ∀ x ∈ addSymbols acc a, Within S x := by
  induction a using Expr.ind with
  | sym s => intro acc h hs; unfold addSymbols; exact addIfNotAlreadyStored_ws h hs
  | sum l ih => intro acc h hs; unfold addSymbols; exact addSymbolsList_ws (by simpa using hs) ih acc h
  | prod l ih => intro acc h hs; unfold addSymbols; exact addSymbolsList_ws (by simpa using hs) ih acc h
  | pow b e ihb ihe => intro acc h hs; unfold addSymbols; exact ihb acc h (by simp_all)
  | _ => intro acc h hs; unfold addSymbols; exact h

theorem listOfSymbols_sy (hE : Syms E) {u v : Expr D} (hu : Within S u) (hv : Within S v) :
    Sy S (listOfSymbols E u v) := by
  unfold listOfSymbols
  refine Sy.bind Sy.unit fun _ _ => Sy.pure ?_
  intro x hx
  exact addSymbols_ws v _ (addSymbols_ws u [] (by simp) hu) hv x ((hE.ok.sort _ _).mem_iff.1 hx)

macro_rules | `(tactic| sy_rule) => `(tactic| with_reducible apply listOfSymbols_sy (by assumption))

theorem divideEmptyList_sy (hE : Syms E) {u v : Expr D} (hu : Within S u) (hv : Within S v) :
    Sy S (divideEmptyList E u v) := by
  unfold divideEmptyList
  sy

macro_rules | `(tactic| sy_rule) => `(tactic| with_reducible apply divideEmptyList_sy (by assumption))

theorem divideStep_sy (hE : Syms E) {v x : Expr D} {n : ℤ} {R : List (Expr D)}
    {s : Expr D × Expr D × ℤ} (hv : Within S v) (hx : Within S x) (hR : ws S R) (hs : ws S s) :
    Sy S (divideStep E v x n R s) := by
  unfold divideStep
  sy

macro_rules | `(tactic| sy_rule) => `(tactic| with_reducible apply divideStep_sy (by assumption))

theorem divideNonEmpty_sy (hE : Syms E) {u v x : Expr D} {R : List (Expr D)} (hu : Within S u)
    (hv : Within S v) (hx : Within S x) (hR : ws S R) : Sy S (divideNonEmpty E u v x R) := by
  unfold divideNonEmpty
  sy

macro_rules | `(tactic| sy_rule) => `(tactic| with_reducible apply divideNonEmpty_sy (by assumption))

theorem divideL_sy (hE : Syms E) {u v : Expr D} {L : List (Expr D)} (hu : Within S u)
    (hv : Within S v) (hL : ws S L) : Sy S (divideL E u v L) := by
  unfold divideL
  sy

theorem polyDivide_sy (hE : Syms E) {u v : Expr D} (hu : Within S u) (hv : Within S v) :
    Sy S (polyDivide E u v) := by
  unfold polyDivide
  sy

macro_rules | `(tactic| sy_rule) => `(tactic| with_reducible apply polyDivide_sy (by assumption))

theorem pseudoDivideStep_sy (hE : Syms E) {v x lv : Expr D} {n : ℤ} {c : Bool}
    {s : Expr D × Expr D × ℤ × ℤ} (hv : Within S v) (hx : Within S x) (hl : Within S lv)
    (hs : ws S s) : Sy S (pseudoDivideStep E v x lv n c s) := by
  unfold pseudoDivideStep
  sy

macro_rules | `(tactic| sy_rule) => `(tactic| with_reducible apply pseudoDivideStep_sy (by assumption))

theorem pseudoDivideChecked_sy (hE : Syms E) {u v x : Expr D} {c : Bool} (hu : Within S u)
    (hv : Within S v) (hx : Within S x) : Sy S (pseudoDivideChecked E u v x c) := by
  unfold pseudoDivideChecked
  sy

macro_rules | `(tactic| sy_rule) => `(tactic| with_reducible apply pseudoDivideChecked_sy (by assumption))

theorem pseudoDivideImpl_sy (hE : Syms E) {u v x : Expr D} {c : Bool} (hu : Within S u)
    (hv : Within S v) (hx : Within S x) : Sy S (pseudoDivideImpl E u v x c) := by
  unfold pseudoDivideImpl
  sy

macro_rules | `(tactic| sy_rule) => `(tactic| with_reducible apply pseudoDivideImpl_sy (by assumption))

theorem pseudoRemainder_sy (hE : Syms E) {u v x : Expr D} (hu : Within S u)
    (hv : Within S v) (hx : Within S x) : Sy S (pseudoRemainder E u v x) := by
  unfold pseudoRemainder
  sy

macro_rules | `(tactic| sy_rule) => `(tactic| with_reducible apply pseudoRemainder_sy (by assumption))

theorem computeNumerics_sy {u v : Number D} : Sy S (computeNumerics u v) := by
  unfold computeNumerics
  sy

macro_rules | `(tactic| sy_rule) => `(tactic| with_reducible apply computeNumerics_sy)

theorem integerContent2_sy {u v : Expr D} : Sy S (integerContent2 u v) := by
  unfold integerContent2
  sy

macro_rules | `(tactic| sy_rule) => `(tactic| with_reducible apply integerContent2_sy)

theorem normalizeGcd_sy (hE : Syms E) {r : Expr D} {L : List (Expr D)} (hr : Within S r) :
    Sy S (normalizeGcd E r L) := by
  unfold normalizeGcd
  sy

macro_rules | `(tactic| sy_rule) => `(tactic| with_reducible apply normalizeGcd_sy (by assumption))

theorem polyGcd_sy (hE : Syms E) {u v : Expr D} (hu : Within S u) (hv : Within S v) :
    Sy S (polyGcd E u v) := by
  unfold polyGcd
  sy

macro_rules | `(tactic| sy_rule) => `(tactic| with_reducible apply polyGcd_sy (by assumption))

theorem contentLoop_sy (hE : Syms E) {e x : Expr D} (he : Within S e) (n : Nat) :
    ∀ {i : ℤ} {acc : Expr D}, Within S acc → Sy S (contentLoop E e x n i acc) := by
  induction n with
  | zero => intro i acc h; unfold contentLoop; sy
  | succ n ih =>
    intro i acc h
    unfold contentLoop
    refine Sy.bind (hE.coeff he) fun c hc => ?_
    exact Sy.bind (polyGcd_sy hE hc h) fun g hg => ih hg

macro_rules | `(tactic| sy_rule) => `(tactic| with_reducible apply contentLoop_sy (by assumption))

theorem polyContent_sy (hE : Syms E) {p x : Expr D} (hp : Within S p) : Sy S (polyContent E p x) := by
  unfold polyContent
  sy

macro_rules | `(tactic| sy_rule) => `(tactic| with_reducible apply polyContent_sy (by assumption))

theorem subresStep_sy (hE : Syms E) {x : Expr D} {L R : List (Expr D)} {s : SubresState D}
    (hx : Within S x) (hL : ws S L) (hR : ws S R) (hs : ws S s) : Sy S (subresStep E x L R s) := by
  unfold subresStep
  sy

macro_rules | `(tactic| sy_rule) => `(tactic| with_reducible apply subresStep_sy (by assumption))

theorem subresGcd_sy (hE : Syms E) {u v x : Expr D} {R : List (Expr D)} (hu : Within S u)
    (hv : Within S v) (hx : Within S x) (hR : ws S R) : Sy S (subresGcd E u v x R) := by
  unfold subresGcd
  sy

macro_rules | `(tactic| sy_rule) => `(tactic| with_reducible apply subresGcd_sy (by assumption))

theorem gcdAlgo_sy (hE : Syms E) {u v : Expr D} {L : List (Expr D)} (hu : Within S u)
    (hv : Within S v) (hL : ws S L) : Sy S (gcdAlgo E u v L) := by
  unfold gcdAlgo
  sy

macro_rules | `(tactic| sy_rule) => `(tactic| with_reducible apply gcdAlgo_sy (by assumption))

theorem gcdViaAlgo_sy (hE : Syms E) {u v : Expr D} {L : List (Expr D)} (hu : Within S u)
    (hv : Within S v) (hL : ws S L) : Sy S (gcdViaAlgo E u v L) := by
  unfold gcdViaAlgo
  sy

macro_rules | `(tactic| sy_rule) => `(tactic| with_reducible apply gcdViaAlgo_sy (by assumption))

theorem gcdL_sy (hE : Syms E) {u v : Expr D} {L : List (Expr D)} (hu : Within S u)
    (hv : Within S v) (hL : ws S L) : Sy S (gcdL E u v L) := by
  unfold gcdL gcdRaw
  sy

end Tsym
