import Verif.OrderThm
import Verif.NumEvalThm
import Verif.Query
import Verif.Hyb
import Verif.Krfl

set_option autoImplicit false
set_option linter.unusedSectionVars false

/-!
# Properties of expressions: C28, C29, C30, C32, C40, C45
-/

namespace Tsym

open Expr

section any
variable {D : Type} [Flt D]

/-! ## C28 -/

/-- C28. On expressions without Undefined and floating point numbers, `==` is reflexive, symmetric
and transitive, and two expressions are equal only if they are the same tree. Holds for any floating
point unit. -/
theorem C28_equivalence (a b c : Expr D) (ha : Exact a) (hb : Exact b) (hc : Exact c) :
    isEqual a a = true ∧ (isEqual a b = true → isEqual b a = true) ∧
    (isEqual a b = true → isEqual b c = true → isEqual a c = true) ∧
    (isEqual a b = true ↔ a = b) := by
  rw [isEqual_eq a ha a ha, isEqual_eq a ha b hb, isEqual_eq b hb a ha, isEqual_eq b hb c hc,
    isEqual_eq a ha c hc]
  exact ⟨rfl, Eq.symm, Eq.trans, Iff.rfl⟩

/-- C28, Undefined: it is not equal to anything. -/
theorem C28_undefined (a : Expr D) : isEqual undef a = false ∧ isEqual a undef = false := by
  constructor
  · simp [isEqual]
  · cases a <;> simp [isEqual]

/-! ## C29 -/

/-- C29. Equal expressions without floating point numbers have equal hashes, whatever the hash
functions for strings and numbers and the combination of hashes are. -/
theorem C29_hash_partial (H : Hasher D) (a b : Expr D) (ha : Exact a) (hb : Exact b)
    (h : isEqual a b = true) : hash H a = hash H b ∧ hashPtr H a = hashPtr H b := by
  rw [isEqual_eq a ha b hb] at h
  subst h
  exact ⟨rfl, rfl⟩

/-! ## C32 -/

theorem hasAny_iff {x : Expr D} {l : List (Expr D)} : hasAny x l = true ↔ ∃ a ∈ l, has x a = true := by
  induction l with
  | nil => simp [hasAny]
  | cons a l ih => simp [hasAny, ih]

theorem has_sym_iff (s : Sym) (e : Expr D) : has (sym s) e = true ↔ Occurs (sym s) e := by
  induction e using opInd with
  | h e ih =>
    rw [occurs_iff]
    cases e with
    | num n => simp [has, isEqual, operands]
    | sym t => simp [has, isEqual, operands, eq_comm]
    | cst c => simp [has, isEqual, operands]
    | undef => simp [has, operands]
    | sum l =>
      simp only [operands] at ih ⊢
      simp only [has, isEqual, Bool.false_or, hasAny_iff, reduceCtorEq, false_or]
      exact ⟨fun ⟨a, ha, h⟩ => ⟨a, ha, (ih a ha).1 h⟩, fun ⟨a, ha, h⟩ => ⟨a, ha, (ih a ha).2 h⟩⟩
    | prod l =>
      simp only [operands] at ih ⊢
      simp only [has, isEqual, Bool.false_or, hasAny_iff, reduceCtorEq, false_or]
      exact ⟨fun ⟨a, ha, h⟩ => ⟨a, ha, (ih a ha).1 h⟩, fun ⟨a, ha, h⟩ => ⟨a, ha, (ih a ha).2 h⟩⟩
    | pow b e =>
      simp only [operands, List.mem_cons, List.not_mem_nil, or_false, forall_eq_or_imp,
        forall_eq] at ih
      simp [has, isEqual, operands, ih.1, ih.2]
    | fn f a =>
      simp only [operands, List.mem_cons, List.not_mem_nil, or_false, forall_eq] at ih
      simp [has, isEqual, operands, ih]
    | atan2 y x =>
      simp only [operands, List.mem_cons, List.not_mem_nil, or_false, forall_eq_or_imp,
        forall_eq] at ih
      simp [has, isEqual, operands, ih.1, ih.2]

/-- What a call of collectSymbols does with the list. -/
def CollectOk (e : Expr D) (acc res : List (Expr D)) : Prop :=
  (∀ x, x ∈ res ↔ x ∈ acc ∨ ∃ s, x = sym s ∧ Occurs (sym s) e)

theorem insertSymbol_spec (s : Sym) {acc : List (Expr D)} (hacc : ∀ x ∈ acc, ∃ t, x = sym t)
    (hnd : acc.Nodup) :
    (∀ x, x ∈ insertSymbol (sym s) acc ↔ x ∈ acc ∨ x = sym s) ∧ (insertSymbol (sym s) acc).Nodup := by
  unfold insertSymbol
  have key : (acc.any (fun x => isEqual x (sym s)) = true) ↔ (sym s : Expr D) ∈ acc := by
    simp only [List.any_eq_true]
    constructor
    · rintro ⟨x, hx, h⟩
      obtain ⟨t, rfl⟩ := hacc x hx
      simp only [isEqual, decide_eq_true_eq] at h
      subst h; exact hx
    · intro h; exact ⟨_, h, by simp [isEqual]⟩
  split
  · rename_i h
    rw [key] at h
    refine ⟨fun x => ⟨.inl, ?_⟩, hnd⟩
    rintro (hx | rfl)
    · exact hx
    · exact h
  · rename_i h
    rw [key] at h
    refine ⟨fun x => by simp, ?_⟩
    rw [List.nodup_append]
    refine ⟨hnd, by simp, ?_⟩
    intro x hx y hy
    simp only [List.mem_singleton] at hy
    subst hy
    rintro rfl
    exact h hx

theorem collectSymbolsList_spec {l : List (Expr D)}
    (ih : ∀ a ∈ l, ∀ acc : List (Expr D), (∀ x ∈ acc, ∃ t, x = sym t) → acc.Nodup →
      CollectOk a acc (collectSymbolsAux a acc) ∧ (collectSymbolsAux a acc).Nodup) :
    ∀ acc : List (Expr D), (∀ x ∈ acc, ∃ t, x = sym t) → acc.Nodup →
      (∀ x, x ∈ collectSymbolsList l acc ↔
        x ∈ acc ∨ ∃ s, x = sym s ∧ ∃ a ∈ l, Occurs (sym s) a) ∧
      (collectSymbolsList l acc).Nodup := by
  induction l with
  | nil => intro acc _ hnd; simp [collectSymbolsList, hnd]
  | cons a l ihl =>
    intro acc hacc hnd
    obtain ⟨h1, h2⟩ := ih a (by simp) acc hacc hnd
    have hacc' : ∀ x ∈ collectSymbolsAux a acc, ∃ t, x = sym t := by
      intro x hx
      rcases (h1 x).1 hx with h | ⟨s, rfl, _⟩
      · exact hacc x h
      · exact ⟨s, rfl⟩
    obtain ⟨h3, h4⟩ := ihl (fun b hb => ih b (by simp [hb])) _ hacc' h2
    refine ⟨fun x => ?_, h4⟩
    simp only [collectSymbolsList]
    rw [h3 x, h1 x]
    constructor
    · rintro ((h | ⟨s, rfl, h⟩) | ⟨s, rfl, b, hb, h⟩)
      · exact .inl h
      · exact .inr ⟨s, rfl, a, by simp, h⟩
      · exact .inr ⟨s, rfl, b, by simp [hb], h⟩
    · rintro (h | ⟨s, rfl, b, hb, h⟩)
      · exact .inl (.inl h)
      · rcases List.mem_cons.mp hb with rfl | hb
        · exact .inl (.inr ⟨s, rfl, h⟩)
        · exact .inr ⟨s, rfl, b, hb, h⟩

theorem collectSymbolsAux_spec (e : Expr D) : ∀ acc : List (Expr D), (∀ x ∈ acc, ∃ t, x = sym t) →
    acc.Nodup → CollectOk e acc (collectSymbolsAux e acc) ∧ (collectSymbolsAux e acc).Nodup := by
  induction e using opInd with
  | h e ih =>
    intro acc hacc hnd
    have two : ∀ a b : Expr D, operands e = [a, b] →
        collectSymbolsAux e acc = collectSymbolsList [a, b] acc → (∀ s, e ≠ sym s) →
        CollectOk e acc (collectSymbolsAux e acc) ∧ (collectSymbolsAux e acc).Nodup := by
      intro a b ho hc hs
      rw [ho] at ih
      rw [hc]
      have := collectSymbolsList_spec ih acc hacc hnd
      refine ⟨fun x => ?_, this.2⟩
      rw [this.1 x]
      simp only [occurs_iff (e := e), ho]
      constructor
      · rintro (h | ⟨s, hx, h⟩)
        · exact .inl h
        · exact .inr ⟨s, hx, .inr h⟩
      · rintro (h | ⟨s, hx, h | h⟩)
        · exact .inl h
        · exact absurd h.symm (hs s)
        · exact .inr ⟨s, hx, h⟩
    cases e with
    | sym t =>
      have := insertSymbol_spec t hacc hnd
      simp only [collectSymbolsAux]
      refine ⟨fun x => ?_, this.2⟩
      rw [this.1 x]
      simp only [occurs_iff (e := (sym t : Expr D)), operands, List.not_mem_nil, false_and,
        exists_false, or_false, sym.injEq]
      constructor
      · rintro (h | h)
        · exact .inl h
        · exact .inr ⟨t, h, rfl⟩
      · rintro (h | ⟨s, hx, rfl⟩)
        · exact .inl h
        · exact .inr hx
    | num n => exact ⟨fun x => by simp [collectSymbolsAux, occurs_iff (e := (num n : Expr D)), operands], hnd⟩
    | cst n => exact ⟨fun x => by simp [collectSymbolsAux, occurs_iff (e := (cst n : Expr D)), operands], hnd⟩
    | undef => exact ⟨fun x => by simp [collectSymbolsAux, occurs_iff (e := (undef : Expr D)), operands], hnd⟩
    | sum l =>
      have := collectSymbolsList_spec ih acc hacc hnd
      refine ⟨fun x => ?_, this.2⟩
      simp only [collectSymbolsAux, occurs_iff (e := sum l), operands, reduceCtorEq, false_or] at this ⊢
      exact this.1 x
    | prod l =>
      have := collectSymbolsList_spec ih acc hacc hnd
      refine ⟨fun x => ?_, this.2⟩
      simp only [collectSymbolsAux, occurs_iff (e := prod l), operands, reduceCtorEq, false_or] at this ⊢
      exact this.1 x
    | pow b e => exact two b e rfl (by simp [collectSymbolsAux, collectSymbolsList]) (by simp)
    | atan2 y x => exact two y x rfl (by simp [collectSymbolsAux, collectSymbolsList]) (by simp)
    | fn f a =>
      have := ih a (by simp [operands]) acc hacc hnd
      simp only [collectSymbolsAux]
      refine ⟨fun x => ?_, this.2⟩
      rw [this.1 x]
      simp [occurs_iff (e := fn f a), operands]

/-- C32. collectSymbols lists exactly the symbols that occur in the expression, each of them once,
and `has` is true for exactly these symbols. Holds for any expression and any floating point unit. -/
theorem C32_symbols (e : Expr D) :
    (∀ x, x ∈ collectSymbols e ↔ ∃ s, x = sym s ∧ Occurs (sym s) e) ∧
    (collectSymbols e).Nodup ∧ (∀ s, has (sym s) e = true ↔ Occurs (sym s) e) := by
  have := collectSymbolsAux_spec e [] (by simp) (by simp)
  refine ⟨fun x => ?_, this.2, fun s => has_sym_iff s e⟩
  have h := this.1 x
  simpa [collectSymbols] using h

end any

/-! ## C28 values, C30, C40, C45: with an exact floating point unit -/

section lawful
variable {D : Type} [Flt D] [LawfulFlt D]

/-- C28, values: equal expressions have equal values under all assignments. -/
theorem C28_value (a b : Expr D) (h : isEqual a b = true) (σ : Asg) : den σ a = den σ b :=
  isEqual_den σ a b h

/-- C30. Without atan2 two different expressions are ordered in exactly one way, and equal
expressions are not ordered. -/
theorem C30_order_partial (a b : Expr D) (ha : Orderable a) (hb : Orderable b) :
    (isEqual a b = false → (doPermute a b = true ∧ doPermute b a = false) ∨
      (doPermute a b = false ∧ doPermute b a = true)) ∧
    (isEqual a b = true → doPermute a b = false ∧ doPermute b a = false) := by
  rcases trich a b ha hb with ⟨h1, -, h3, h4⟩ | ⟨h1, -, h3⟩
  · simp [h1, h3, h4]
  · rw [h1, h3]
    cases doPermute b a <;> simp

/-- C45. If numericEval gives a number for an expression that has a value, it is that value. -/
theorem C45_value (σ : Asg) (e : Expr D) (n : Number D) (v : ℝ) (h : numEval e = .ok (some n))
    (hv : den σ e = some v) : n.val = v := numEval_val σ e n v h hv

/-- C45, conversion to double: the value of the double is the value of the expression. -/
theorem C45_toDouble (σ : Asg) (e : Expr D) (d : D) (v : ℝ) (h : Expr.toDouble e = .ok d)
    (hv : den σ e = some v) : LawfulFlt.val d = v := by
  simp only [Expr.toDouble, Except.bind_ok] at h
  obtain ⟨n, hn, h⟩ := h
  cases n with
  | none => simp at h
  | some n =>
    simp only [Except.pure_ok] at h
    subst h
    rw [Number.val_toDouble, numEval_val σ e n v hn hv]

/-- C45, integer and fraction tests. -/
theorem C45_isInteger (σ : Asg) (e : Expr D) (v : ℝ) (h : isInteger e = .ok true)
    (hv : den σ e = some v) : ∃ n : ℤ, v = n := by
  simp only [isInteger, Except.bind_ok] at h
  obtain ⟨n, hn, h⟩ := h
  cases n with
  | none => simp [Except.pure_ok] at h
  | some n =>
    simp only [Except.pure_ok] at h
    exact ⟨n.numerator, by rw [← numEval_val σ e n v hn hv, Number.val_of_isInt n h]⟩

/-- C40. The conversion to int returns the value of the expression, if it has one, and it is in the
range of `int`. -/
theorem C40_int (σ : Asg) (e : Expr D) (n : ℤ) (v : ℝ) (h : toInt e = .ok n)
    (hv : den σ e = some v) : v = n ∧ intMin ≤ n ∧ n ≤ intMax := by
  simp only [toInt, isInteger, Except.bind_ok] at h
  obtain ⟨i, ⟨m, hm, h1⟩, h⟩ := h
  cases m with
  | none =>
    simp only [Except.pure_ok] at h1
    subst h1; simp at h
  | some m =>
    simp only [Except.pure_ok] at h1
    subst h1
    cases hi : m.isInt with
    | false => simp [hi] at h
    | true =>
      simp only [hi, Bool.not_true, Bool.false_eq_true, if_false, Except.bind_ok] at h
      obtain ⟨m', hm', h⟩ := h
      rw [hm] at hm'
      obtain rfl : some m = m' := by simpa using hm'
      simp only at h
      split at h
      · simp at h
      · rename_i hr
        simp only [Except.pure_ok] at h
        subst h
        push Not at hr
        exact ⟨by rw [← numEval_val σ e m v hm hv, Number.val_of_isInt m hi], by simpa using hr⟩

end lawful

section any
variable {D : Type} [Flt D]

/-- C40, the other outcomes: if numericEval gives a number that is not an integer, or none, the
conversion throws std::domain_error; if it gives an integer outside the range of `int`,
std::overflow_error; otherwise the conversion succeeds. -/
theorem C40_throws (e : Expr D) (o : Option (Number D)) (h : numEval e = .ok o) :
    (∀ n, o = some n → n.isInt = true →
      toInt e = if intMin ≤ n.numerator ∧ n.numerator ≤ intMax then .ok n.numerator
        else .error .overflow) ∧
    ((∀ n, o = some n → n.isInt = false) → toInt e = .error .domain) := by
  constructor
  · rintro n rfl hi
    simp only [toInt, isInteger, h, bind, Except.bind, pure, Except.pure, hi]
    split_ifs <;> first | rfl | (exfalso; simp_all)
  · intro hn
    cases o with
    | none => simp [toInt, isInteger, h, bind, Except.bind, pure, Except.pure]
    | some n => simp [toInt, isInteger, h, bind, Except.bind, pure, Except.pure, hn n rfl]

end any

/-! ## Examples and witnesses -/

namespace ExprEx

/-- Symbols a, b. -/
def a : Expr Hyb := sym ⟨.named ⟨['a'], [], []⟩, false⟩
/-- The symbol b. -/
def b : Expr Hyb := sym ⟨.named ⟨['b'], [], []⟩, false⟩

/-- An exact, orderable expression: 2*a + sin(b)^(1/3). -/
def e1 : Expr Hyb := sum [prod [int 2, a], pow (fn .sin b) (num (.rat (1 / 3)))]

theorem exact_of {e : Expr Hyb} (h1 : e ≠ undef) (h2 : ∀ d, e ≠ num (.dbl d))
    (h : ∀ o ∈ operands e, Exact o) : Exact e := by
  intro x hx
  rw [occurs_iff] at hx
  rcases hx with rfl | ⟨o, ho, hx⟩
  · exact ⟨h1, h2⟩
  · exact h o ho x hx

theorem e1_exact : Exact e1 := by
  apply exact_of <;> simp [e1, operands, a, b, int] <;> constructor <;> apply exact_of <;>
    simp [operands] <;> constructor <;> apply exact_of <;> simp [operands]
  apply exact_of <;> simp [operands]

theorem orderable_of {e : Expr Hyb} (h1 : e ≠ undef) (h2 : ∀ u v, e ≠ atan2 u v)
    (h3 : ∀ s, e = sym s → s.id.Ok) (h : ∀ o ∈ operands e, Orderable o) : Orderable e := by
  intro x hx
  rw [occurs_iff] at hx
  rcases hx with rfl | ⟨o, ho, hx⟩
  · exact ⟨h1, h2, h3⟩
  · exact h o ho x hx

theorem a_ok : (⟨['a'], [], []⟩ : Name).value ≠ [] ∧ ¬ tmpPrefix <+: ['a'] := by decide

theorem e1_orderable : Orderable e1 := by
  apply orderable_of <;> simp [e1, operands, a, b, int] <;> constructor <;> apply orderable_of <;>
    simp [operands] <;> constructor <;> apply orderable_of <;> simp [operands, SymId.Ok, tmpPrefix]
  apply orderable_of <;> simp [operands, SymId.Ok, tmpPrefix]

example : isEqual e1 e1 = true := by krfl

/-- C30: the hypotheses are met by 2*a + sin(b)^(1/3) and by a; the order is not trivial. -/
example : doPermute e1 a = true ∧ doPermute a e1 = false := ⟨by krfl, by krfl⟩

/-- C32 on an example. -/
example : collectSymbols (sum [prod [int 2, a], pow b a] : Expr Hyb) = [a, b] := by krfl

/-- C40 and C45: an expression with a fractional exponent that is an integer: 3*9^(1/2). -/
noncomputable def nine : Expr Hyb := prod [int 3, pow (int 9) (num (.rat (1 / 2)))]
example : numEval nine = .ok (some (.rat 9)) := by krfl
example : toInt nine = .ok 9 := by krfl
example : toInt (int 2147483648 : Expr Hyb) = .error .overflow := by krfl
example : toInt (num (.rat (1 / 2)) : Expr Hyb) = .error .domain := by krfl
example (σ : Asg) : den σ (prod [int 3, int 3] : Expr Hyb) = some 9 := by
  simp [den, denProd, int]; norm_num

/-- C30 is false in general: atan2(y, a) and atan2(y, b) are different and not ordered either way,
although a and b are. -/
theorem C30_false :
    let l : Expr Hyb := atan2 b a
    let r : Expr Hyb := atan2 b b
    isEqual l r = false ∧ doPermute l r = false ∧ doPermute r l = false ∧
      doPermute a b = false ∧ doPermute b a = true :=
  ⟨by krfl, by krfl, by krfl, by krfl, by krfl⟩

/-- C30 is false in general, the other part: products that contain such functions are ordered both
ways, i.e. each is put behind the other. -/
theorem C30_false_both_ways :
    let l : Expr Hyb := prod [a, atan2 b a]
    let r : Expr Hyb := prod [a, atan2 b b]
    isEqual l r = false ∧ doPermute l r = true ∧ doPermute r l = true :=
  ⟨by krfl, by krfl, by krfl⟩

/-- A hash that tells different numerators apart. -/
def hasher : Hasher Hyb where
  combine s x := 31 * s + x
  str _ := 0
  bool _ := 0
  dbl _ := 0
  int n := n.natAbs
  enm n := n

/-- C29 is false with floating point numbers: the fraction 1/3 and the double with the same value are
equal, but their hashes differ. -/
theorem C29_false :
    let x : Expr Hyb := num (.rat (1 / 3))
    let y : Expr Hyb := num (.dbl (.q (1 / 3)))
    isEqual x y = true ∧ hash hasher x ≠ hash hasher y := by
  have h1 : hash hasher (num (.rat (1 / 3)) : Expr Hyb) = 94 := by krfl
  have h2 : hash hasher (num (.dbl (.q (1 / 3))) : Expr Hyb) = 31 := by krfl
  refine ⟨by krfl, ?_⟩
  rw [h1, h2]; decide

end ExprEx

end Tsym
