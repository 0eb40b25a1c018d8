import Verif.Printer
import Verif.TreeDen
import Verif.SoundApi
import Verif.Props.Parser

set_option autoImplicit false
set_option linter.unusedSectionVars false
set_option linter.unusedSimpArgs false

/-!
# The text of an expression has the value of the expression
-/

namespace Tsym

open Expr

variable {D : Type} [Flt D] [LawfulFlt D]

/-! ## Digits -/

theorem digit_lt {n : Nat} (h : n < 10) : isDigitC (digit n) = true ∧ (digit n).toNat - 48 = n ∧
    (digit n = '0' → n = 0) := by
  have : ∀ n : Fin 10, isDigitC (digit n) = true ∧ (digit n).toNat - 48 = n ∧ (digit n = '0' → n.1 = 0) := by decide
  exact this ⟨n, h⟩

theorem decVal_append (s : Str) (c : Char) : decVal (s ++ [c]) = 10 * decVal s + (c.toNat - 48) := by
  simp [decVal]

theorem natStrAux_spec (k n : Nat) (h : n ≤ k) : Digits1 (natStrAux k n) ∧ decVal (natStrAux k n) = n ∧
    (0 < n → (natStrAux k n).head? ≠ some '0') := by
  induction k generalizing n with
  | zero =>
    obtain rfl : n = 0 := by omega
    refine ⟨⟨by simp [natStrAux], by decide⟩, by decide, by omega⟩
  | succ k ih =>
    unfold natStrAux
    by_cases hn : n < 10
    · rw [if_pos hn]
      obtain ⟨h1, h2, h3⟩ := digit_lt hn
      refine ⟨⟨by simp, by simpa using h1⟩, by simp [decVal, h2], fun h0 he => ?_⟩
      have := h3 (by simpa using he)
      omega
    · rw [if_neg hn]
      obtain ⟨h1, h2, h3⟩ := ih (n / 10) (by omega)
      obtain ⟨d1, d2, -⟩ := digit_lt (n := n % 10) (by omega)
      refine ⟨⟨by simp, ?_⟩, ?_, fun _ => ?_⟩
      · intro c hc
        rcases List.mem_append.1 hc with hc | hc
        · exact h1.2 c hc
        · simp at hc; rw [hc]; exact d1
      · rw [decVal_append, h2, d2]; omega
      · have := h3 (by omega)
        cases hs : natStrAux k (n / 10) with
        | nil => exact absurd hs h1.1
        | cons c r => rw [hs] at this; simpa using this

theorem natStr_digits (n : Nat) : Digits1 (natStr n) := (natStrAux_spec n n (Nat.le_refl _)).1

theorem natStr_val (n : Nat) : decVal (natStr n) = n := (natStrAux_spec n n (Nat.le_refl _)).2.1

theorem natStr_noZero (n : Nat) : NoZero (natStr n) := by
  intro h
  rcases Nat.eq_zero_or_pos n with rfl | hn
  · rfl
  · exact absurd h ((natStrAux_spec n n (Nat.le_refl _)).2.2 hn)

/-! ## Texts with a value -/

section

variable (conv : Str → Option D) (ρ : Name → ℝ) (P : Name → Prop)

/-- The string is a text of a category with a value. All names satisfy `P`. -/
def Reads (c : Cat) (v : ℝ) (s : Str) : Prop :=
  ∃ t, Parses conv c s t ∧ t.den ρ = some v ∧ t.All P NoZero ∧ Ascii s

end

variable {conv : Str → Option D} {ρ : Name → ℝ} {P : Name → Prop}

theorem Ascii.append {s t : Str} (h1 : Ascii s) (h2 : Ascii t) : Ascii (s ++ t) := fun c hc =>
  (List.mem_append.1 hc).elim (h1 c) (h2 c)

theorem Ascii.cons {c : Char} {t : Str} (h1 : c.toNat < 128) (h2 : Ascii t) : Ascii (c :: t) := fun x hx =>
  (List.mem_cons.1 hx).elim (fun h => h ▸ h1) (h2 x)

theorem Parses.lift {c c' : Cat} {s : Str} {t : Tree D} (h : Parses conv c s t) (hc : c.rank ≤ c'.rank) :
    Parses conv c' s t := by
  cases c <;> cases c' <;> simp [Cat.rank] at hc <;>
  first
    | exact h
    | exact .summand h
    | exact .summand (.signed h)
    | exact .summand (.signed (.factor h))
    | exact .summand (.signed (.factor (.operand h)))
    | exact .signed h
    | exact .signed (.factor h)
    | exact .signed (.factor (.operand h))
    | exact .factor h
    | exact .factor (.operand h)
    | exact .operand h

theorem Spaces.append {u w : Str} (h1 : Spaces u) (h2 : Spaces w) : Spaces (u ++ w) := fun c hc =>
  (List.mem_append.1 hc).elim (h1 c) (h2 c)

/-- White space may precede a text. -/
theorem Parses.space {c : Cat} {s : Str} {t : Tree D} (h : Parses conv c s t) {u : Str} (hu : Spaces u) :
    Parses conv c (u ++ s) t := by
  induction h with
  | pi h1 h2 => rw [← List.append_assoc]; exact .pi (hu.append h1) h2
  | euler h1 h2 => rw [← List.append_assoc]; exact .euler (hu.append h1) h2
  | symbol h1 h2 => rw [← List.append_assoc]; exact .symbol (hu.append h1) h2
  | symbolSub h1 h2 h3 => simp only [← List.append_assoc]; exact .symbolSub (hu.append h1) h2 h3
  | symbolBraces h1 h2 h3 h4 =>
    simp only [← List.append_assoc]; exact .symbolBraces (hu.append h1) h2 h3 h4
  | double h1 h2 h3 => rw [← List.append_assoc]; exact .double (hu.append h1) h2 h3
  | integer h1 h2 => rw [← List.append_assoc]; exact .integer (hu.append h1) h2
  | function h1 h2 h3 h4 h5 =>
    simp only [← List.append_assoc]; exact .function (hu.append h1) h2 h3 h4 h5
  | atan2 h1 h2 h3 h4 h5 h6 h7 =>
    simp only [← List.append_assoc]; exact .atan2 (hu.append h1) h2 h3 h4 h5 h6 h7
  | parens h1 h2 h3 => simp only [← List.append_assoc]; exact .parens (hu.append h1) h2 h3
  | operand _ ih => exact .operand ih
  | power _ h2 h3 ih => simp only [← List.append_assoc]; exact .power ih h2 h3
  | factor _ ih => exact .factor ih
  | minus h1 h2 => rw [← List.append_assoc]; exact .minus (hu.append h1) h2
  | signed _ ih => exact .signed ih
  | times _ h2 h3 ih => simp only [← List.append_assoc]; exact .times ih h2 h3
  | over _ h2 h3 ih => simp only [← List.append_assoc]; exact .over ih h2 h3
  | summand _ ih => exact .summand ih
  | plusSummand h1 h2 => rw [← List.append_assoc]; exact .plusSummand (hu.append h1) h2
  | plus _ h2 h3 ih => simp only [← List.append_assoc]; exact .plus ih h2 h3
  | minusSummand _ h2 h3 ih => simp only [← List.append_assoc]; exact .minusSummand ih h2 h3

theorem spaces_one : Spaces [' '] := by
  intro c hc
  simp at hc
  subst hc
  decide

theorem spaces_none : Spaces [] := fun c hc => by cases hc

namespace Reads

variable {c c' : Cat} {s s' : Str} {x y v : ℝ}

theorem lift (h : Reads conv ρ P c v s) (hc : c.rank ≤ c'.rank) : Reads conv ρ P c' v s := by
  obtain ⟨t, h1, h2⟩ := h
  exact ⟨t, h1.lift hc, h2⟩

theorem parens (h : Reads conv ρ P c v s) : Reads conv ρ P .operand v (Printer.parens s) := by
  obtain ⟨t, h1, h2, h3, h4⟩ := h
  refine ⟨t, ?_, h2, h3, ?_⟩
  · have := Parses.parens (w := []) (w2 := []) spaces_none (h1.lift (c' := .expression) (by cases c <;> simp [Cat.rank]))
      spaces_none
    simpa [Printer.parens] using this
  · exact .append (.cons (by decide) h4) (.cons (by decide) fun c hc => by cases hc)

theorem add (h : Reads conv ρ P .expression x s) (h' : Reads conv ρ P .summand y s') :
    Reads conv ρ P .expression (x + y) (s ++ (' ' :: '+' :: ' ' :: s')) := by
  obtain ⟨t, h1, h2, h3, h4⟩ := h
  obtain ⟨t', h1', h2', h3', h4'⟩ := h'
  refine ⟨.add t t', ?_, by simp [Tree.den, h2, h2'], ⟨h3, h3'⟩, ?_⟩
  · have := Parses.plus h1 spaces_one (h1'.space spaces_one)
    simpa using this
  · exact h4.append (.cons (by decide) (.cons (by decide) (.cons (by decide) h4')))

theorem sub (h : Reads conv ρ P .expression x s) (h' : Reads conv ρ P .summand y s') :
    Reads conv ρ P .expression (x - y) (s ++ (' ' :: '-' :: ' ' :: s')) := by
  obtain ⟨t, h1, h2, h3, h4⟩ := h
  obtain ⟨t', h1', h2', h3', h4'⟩ := h'
  refine ⟨.sub t t', ?_, by simp [Tree.den, h2, h2'], ⟨h3, h3'⟩, ?_⟩
  · have := Parses.minusSummand h1 spaces_one (h1'.space spaces_one)
    simpa using this
  · exact h4.append (.cons (by decide) (.cons (by decide) (.cons (by decide) h4')))

theorem mul (h : Reads conv ρ P .summand x s) (h' : Reads conv ρ P .signed y s') :
    Reads conv ρ P .summand (x * y) (s ++ '*' :: s') := by
  obtain ⟨t, h1, h2, h3, h4⟩ := h
  obtain ⟨t', h1', h2', h3', h4'⟩ := h'
  refine ⟨.mul t t', ?_, by simp [Tree.den, h2, h2'], ⟨h3, h3'⟩, ?_⟩
  · have := Parses.times h1 spaces_none h1'
    simpa using this
  · exact h4.append (.cons (by decide) h4')

theorem div (h : Reads conv ρ P .summand x s) (h' : Reads conv ρ P .signed y s') (hy : y ≠ 0) :
    Reads conv ρ P .summand (x / y) (s ++ '/' :: s') := by
  obtain ⟨t, h1, h2, h3, h4⟩ := h
  obtain ⟨t', h1', h2', h3', h4'⟩ := h'
  refine ⟨.div t t', ?_, by simp [Tree.den, h2, h2', hy], ⟨h3, h3'⟩, ?_⟩
  · have := Parses.over h1 spaces_none h1'
    simpa using this
  · exact h4.append (.cons (by decide) h4')

theorem neg (h : Reads conv ρ P .factor x s) : Reads conv ρ P .signed (-x) ('-' :: s) := by
  obtain ⟨t, h1, h2, h3, h4⟩ := h
  exact ⟨.neg t, .minus (w := []) spaces_none h1, by simp [Tree.den, h2], h3, .cons (by decide) h4⟩

theorem pow (h : Reads conv ρ P .operand x s) (h' : Reads conv ρ P .factor y s') (hv : Spec.pow x y = some v) :
    Reads conv ρ P .factor v (s ++ '^' :: s') := by
  obtain ⟨t, h1, h2, h3, h4⟩ := h
  obtain ⟨t', h1', h2', h3', h4'⟩ := h'
  refine ⟨.pow t t', ?_, by simp [Tree.den, h2, h2', hv], ⟨h3, h3'⟩, ?_⟩
  · have := Parses.power h1 spaces_none h1'
    simpa using this
  · exact h4.append (.cons (by decide) h4')

theorem nat (n : Nat) : Reads conv ρ P .operand n (natStr n) := by
  refine ⟨.int (natStr n), .integer (w := []) spaces_none (natStr_digits n), by simp [Tree.den, natStr_val],
    natStr_noZero n, fun c hc => alnum_ascii ?_⟩
  simp [isAlnumC, (natStr_digits n).2 c hc]

theorem one : Reads conv ρ P .operand 1 ['1'] := by
  simpa [natStr, natStrAux, digit] using nat (conv := conv) (ρ := ρ) (P := P) 1

theorem fn (f : PFct) {p : Str} (hp : p = f.text) (h : Reads conv ρ P c x s) (hv : f.den x = some v) :
    Reads conv ρ P .operand v (p ++ Printer.parens s) := by
  obtain ⟨t, h1, h2, h3, h4⟩ := h
  subst hp
  refine ⟨.fn f t, ?_, by simp [Tree.den, h2, hv], h3, ?_⟩
  · have := Parses.function (w := []) (w1 := []) (w2 := []) (p := f.text) (f := f) spaces_none (by cases f <;> decide)
      spaces_none (h1.lift (c' := .expression) (by cases c <;> simp [Cat.rank])) spaces_none
    simpa [Printer.parens] using this
  · refine .append (by cases f <;> (unfold Ascii; decide)) ?_
    exact .append (.cons (by decide) h4) (.cons (by decide) fun c hc => by cases hc)

theorem atan2 (h : Reads conv ρ P c y s) (h' : Reads conv ρ P c' x s') (hv : Spec.atan2 y x = some v) :
    Reads conv ρ P .operand v (['a', 't', 'a', 'n', '2'] ++ Printer.parens (s ++ ',' :: ' ' :: s')) := by
  obtain ⟨t, h1, h2, h3, h4⟩ := h
  obtain ⟨t', h1', h2', h3', h4'⟩ := h'
  refine ⟨.atan2 t t', ?_, by simp [Tree.den, h2, h2', hv], ⟨h3, h3'⟩, ?_⟩
  · have := Parses.atan2 (w := []) (w1 := []) (w2 := []) (w3 := []) (p := ['a', 't', 'a', 'n', '2']) spaces_none
      (by decide) spaces_none (h1.lift (c' := .expression) (by cases c <;> simp [Cat.rank])) spaces_none
      ((h1'.lift (c' := .expression) (by cases c' <;> simp [Cat.rank])).space spaces_one) spaces_none
    simpa [Printer.parens] using this
  · refine .append (by unfold Ascii; decide) ?_
    exact .append (.cons (by decide) (h4.append (.cons (by decide) (.cons (by decide) h4'))))
      (.cons (by decide) fun c hc => by cases hc)

theorem symbol {n : Name} (h : n.Legal) (hP : P n) : Reads conv ρ P .operand (ρ n) n.concat := by
  refine ⟨.sym n, ?_, rfl, hP, (concat_text conv h).2⟩
  obtain ⟨v, sub, sup⟩ := n
  obtain ⟨h1, h2, rfl⟩ := h
  match sub with
  | [] =>
    have := Parses.symbol (conv := conv) (w := []) spaces_none h1
    simpa [Name.concat, Name.braces] using this
  | [c] =>
    have := Parses.symbolSub (conv := conv) (w := []) spaces_none h1 (h2 c (by simp))
    simpa [Name.concat, Name.braces] using this
  | c :: d :: r =>
    have := Parses.symbolBraces (conv := conv) (w := []) spaces_none h1 (u := c :: d :: r) (by simp) h2
    simpa [Name.concat, Name.braces] using this

end Reads

/-! ## The functions of the printer -/

namespace Printer

variable {o : Opt D} {E : Eng D} {σ : Asg} {S : Sym → Prop} {top : Expr D → M D Str}

theorem need_wp {c : Cat} {e : Expr D} : wp (Cond.holds σ) (need o c e) fun _ => (cat o e).rank ≤ c.rank := by
  refine wp_logIf fun h => ?_
  by_contra hn
  exact h (by simpa using hn)

theorem neg_wp (hE : Sound E) (hσ : σ.Respects) {e : Expr D} {x : ℝ} (hw : Within S e) (h : den σ e = some x) :
    wp (Cond.holds σ) (E.minus e) fun r => Within S r ∧ den σ r = some (-x) :=
  wp_and (wp_of_true (hE.syms.prod (by simpa using hw))) (minus_vl hE hσ h)

theorem isNeg_val {e : Expr D} {x : ℝ} (h : isNegativeNumeric e = true) (hx : den σ e = some x) : x < 0 := by
  unfold isNegativeNumeric at h
  split at h
  · simp only [den, Option.some.injEq] at hx
    have := (Number.lt_iff _ _).1 h
    simpa [hx] using this
  · cases h

/-- The inverse of a power with negative exponent. -/
theorem inv_wp (hE : Sound E) (hσ : σ.Respects) {b e : Expr D} {x y v : ℝ} (hb : Within S b) (he : Within S e)
    (h : isNegativeNumeric e = true) (hx : den σ b = some x) (hy : den σ e = some y) (hv : Spec.pow x y = some v) :
    wp (Cond.holds σ) (do let m ← E.minus e; E.powCreate b m) fun r =>
      Within S r ∧ v ≠ 0 ∧ den σ r = some v⁻¹ := by
  have hy0 := isNeg_val h hy
  have hx0 : x ≠ 0 := by
    rintro rfl
    have := (Spec.zero_pow_of hv).2
    linarith
  refine wp_bind (neg_wp hE hσ he hy) fun m hm => ?_
  have h1 : wp (Cond.holds σ) (E.powCreate b m) fun r => Within S r ∧ den σ r = some v⁻¹ :=
    wp_and (wp_of_true (hE.syms.pow hb hm.1)) (hE.pow hσ hx hm.2 (Spec.pow_neg hv hx0))
  exact wp_mono h1 fun r hr => ⟨hr.1, Spec.pow_ne_zero hv hx0, hr.2⟩

section

variable (hE : Sound E) (hσ : σ.Respects) (ho : o.unicode = false)
  (hS : ∀ s, S s → ∃ n, s.id = .named n ∧ n.Legal ∧ P n ∧ σ s = ρ n)
  (htop : ∀ {e v}, Within S e → den σ e = some v → wp (Cond.holds σ) (top e) (Reads conv ρ P (cat o e) v))

include htop

theorem powerBase_wp {b : Expr D} {x : ℝ} (hb : Within S b) (hx : den σ b = some x) :
    wp (Cond.holds σ) (powerBase o top b) (Reads conv ρ P .operand x) := by
  unfold powerBase
  refine wp_bind wp_true fun sc _ => wp_bind (htop hb hx) fun s hs => wp_ite (fun _ => ?_) fun _ => wp_pure hs.parens
  exact wp_bind need_wp fun _ h => wp_pure (hs.lift h)

omit htop in
theorem scalarExp_cat {e : Expr D} (h : isScalarExp e = true) : (cat o e).rank ≤ Cat.rank .factor := by
  unfold isScalarExp at h
  unfold cat
  split at h <;> simp [Cat.rank] at *
  rename_i n
  cases n with
  | dbl d => simp [Number.isInt, Number.isRational] at h
  | rat q =>
    have h1 : q.den = 1 := by
      have := h.1
      simp [Number.isInt, Number.isRational, Number.denominator] at this
      exact this
    have h2 : ¬ q < 0 := by
      have := (Number.lt_iff _ _).1 h.2
      simp at this
      exact not_lt.2 this.le
    simp [h1, h2]

theorem powerExponent_wp {e : Expr D} {x y v : ℝ} (he : Within S e) (hy : den σ e = some y)
    (hv : Spec.pow x y = some v) :
    wp (Cond.holds σ) (powerExponent top e) fun t => ∀ s, Reads conv ρ P .operand x s →
      Reads conv ρ P .factor v (s ++ t) := by
  unfold powerExponent
  refine wp_ite (fun h1 => wp_pure fun s hs => ?_) fun _ => wp_bind (htop he hy) fun t ht =>
    wp_ite (fun h => wp_pure fun s hs => ?_) fun _ => wp_pure fun s hs => ?_
  · have : y = 1 := by
      unfold isOne at h1
      split at h1
      · simp only [den, Option.some.injEq] at hy
        have := (Number.eqv_iff _ _).1 h1
        simpa [hy] using this
      · cases h1
    subst this
    rw [Spec.pow_one, Option.some.injEq] at hv
    subst hv
    simpa using hs.lift (c' := .factor) (by simp [Cat.rank])
  · exact hs.pow (ht.lift (scalarExp_cat h)) hv
  · exact hs.pow (ht.parens.lift (by simp [Cat.rank])) hv

include hE hσ

theorem powerNeg_wp {b e : Expr D} {x y v : ℝ} (hb : Within S b) (he : Within S e)
    (h : isNegativeNumeric e = true) (hx : den σ b = some x) (hy : den σ e = some y) (hv : Spec.pow x y = some v) :
    wp (Cond.holds σ) (powerNeg o E top b e) (Reads conv ρ P .summand v) := by
  unfold powerNeg
  refine wp_bind wp_true fun sc _ => ?_
  rw [← bind_assoc]
  refine wp_bind (inv_wp hE hσ hb he h hx hy hv) fun d hd => wp_bind (htop hd.1 hd.2.2) fun s hs => ?_
  have h1 : Reads conv ρ P .summand 1 ['1'] := Reads.one.lift (by simp [Cat.rank])
  have e1 : v = 1 / v⁻¹ := by simp
  refine wp_ite (fun _ => wp_bind need_wp fun _ hn => wp_pure ?_) fun _ => wp_pure ?_ <;> rw [e1]
  · exact h1.div (hs.lift hn) (inv_ne_zero hd.2.1)
  · exact h1.div (hs.parens.lift (by simp [Cat.rank])) (inv_ne_zero hd.2.1)

theorem power_wp {b e : Expr D} {v : ℝ} (hw : Within S (.pow b e)) (hv : den σ (.pow b e) = some v) :
    wp (Cond.holds σ) (power o E top b e) (Reads conv ρ P (cat o (.pow b e)) v) := by
  obtain ⟨hb, he⟩ := (within_pow _ _).1 hw
  obtain ⟨x, y, hx, hy, hv⟩ := den_pow.1 hv
  unfold power cat
  by_cases h1 : e.isEqual .half = true
  · simp only [h1, if_true]
    refine wp_bind (htop hb hx) fun s hs => wp_pure ?_
    have hy2 : y = 1 / 2 := by
      cases e <;> simp [isEqual, half] at h1
      simp only [den, Option.some.injEq] at hy
      have := (Number.eqv_iff _ _).1 h1
      simpa [hy] using this
    subst hy2
    have hx0 : 0 ≤ x := by
      rcases Spec.pow_iff.1 hv with ⟨h | h | ⟨h, n, hn⟩, -⟩
      · exact h.le
      · exact h.1.ge
      · exfalso
        have : (1 : ℝ) = 2 * n := by linarith
        have : (1 : ℤ) = 2 * n := by exact_mod_cast this
        omega
    rw [Spec.pow_half hx0, Option.some.injEq] at hv
    exact hs.fn .sqrt rfl (by simp [PFct.den, hx0, hv])
  · simp only [h1]
    by_cases h2 : isNegativeNumeric e = true ∧ o.fractions = true
    · simp only [h2, Bool.and_self, if_true]
      exact powerNeg_wp hE hσ htop hb he h2.1 hx hy hv
    · have : (isNegativeNumeric e && o.fractions) = false := by
        rw [Bool.eq_false_iff]
        simpa using h2
      simp only [this]
      exact wp_bind (powerBase_wp htop hb hx) fun s hs => wp_bind (powerExponent_wp htop he hy hv) fun t ht =>
        wp_pure (ht s hs)

theorem sumLoop_wp {l : List (Expr D)} {y : ℝ} (hw : ∀ e ∈ l, Within S e) (hy : denSum σ l = some y) :
    wp (Cond.holds σ) (sumLoop o E top l) fun t => ∀ x s, Reads conv ρ P .expression x s →
      Reads conv ρ P .expression (x + y) (s ++ t) := by
  induction l generalizing y with
  | nil =>
    simp only [denSum, Option.some.injEq] at hy
    subst hy
    exact wp_pure fun x s hs => by simpa using hs
  | cons a l ih =>
    obtain ⟨u, w, hu, hw', rfl⟩ := denSum_cons.1 hy
    have ih := ih (fun e he => hw e (by simp [he])) hw'
    have ha := hw a (by simp)
    unfold sumLoop
    refine wp_ite (fun _ => wp_bind (neg_wp hE hσ ha hu) fun m hm => wp_bind need_wp fun _ hn =>
      wp_bind (htop hm.1 hm.2) fun s hs => wp_bind ih fun t ht => wp_pure fun x r hr => ?_)
      fun _ => wp_bind need_wp fun _ hn => wp_bind (htop ha hu) fun s hs => wp_bind ih fun t ht =>
        wp_pure fun x r hr => ?_
    · have := ht _ _ (hr.sub (hs.lift hn))
      simpa [add_assoc, sub_eq_add_neg] using this
    · have := ht _ _ (hr.add (hs.lift hn))
      simpa [add_assoc] using this

theorem sum_wp {l : List (Expr D)} {v : ℝ} (hw : ∀ e ∈ l, Within S e) (hv : denSum σ l = some v) :
    wp (Cond.holds σ) (sum o E top l) (Reads conv ρ P .expression v) := by
  cases l with
  | nil => exact wp_err
  | cons a l =>
    obtain ⟨x, y, hx, hy, rfl⟩ := denSum_cons.1 hv
    exact wp_bind (htop (hw a (by simp)) hx) fun s hs =>
      wp_bind (sumLoop_wp hE hσ htop (fun e he => hw e (by simp [he])) hy) fun t ht =>
        wp_pure (ht _ _ (hs.lift (by cases cat o a <;> simp [Cat.rank])))

omit hE hσ in
theorem factor_wp {c : Cat} {f : Expr D} {x : ℝ} (hf : Within S f) (hx : den σ f = some x) :
    wp (Cond.holds σ) (factor o top c f) (Reads conv ρ P c x) := by
  unfold factor
  refine wp_bind (htop hf hx) fun s hs => wp_ite (fun _ => wp_pure ?_) fun _ => wp_bind need_wp fun _ hn =>
    wp_pure (hs.lift hn)
  exact hs.parens.lift (by simp [Cat.rank])

omit hE hσ in
theorem factors_wp {l : List (Expr D)} {y : ℝ} (hw : ∀ e ∈ l, Within S e) (hy : denProd σ l = some y) :
    wp (Cond.holds σ) (factors o top l) fun t => ∀ x s, Reads conv ρ P .summand x s →
      Reads conv ρ P .summand (x * y) (s ++ t) := by
  induction l generalizing y with
  | nil =>
    simp only [denProd, Option.some.injEq] at hy
    subst hy
    exact wp_pure fun x s hs => by simpa using hs
  | cons a l ih =>
    obtain ⟨u, w, hu, hw', rfl⟩ := denProd_cons.1 hy
    have ih := ih (fun e he => hw e (by simp [he])) hw'
    refine wp_bind (factor_wp htop (hw a (by simp)) hu) fun s hs => wp_bind ih fun t ht => wp_pure fun x r hr => ?_
    have := ht _ _ (hr.mul hs)
    simpa [mul_assoc] using this

omit htop hE hσ in
theorem isOne_val {e : Expr D} {y : ℝ} (h1 : e.isOne = true) (hy : den σ e = some y) : y = 1 := by
  unfold isOne at h1
  split at h1
  · simp only [den, Option.some.injEq] at hy
    have := (Number.eqv_iff _ _).1 h1
    simpa [hy] using this
  · cases h1

omit htop hE hσ in
variable (o) in
/-- A list with one element is printed as this element, others are products. -/
def catL (l : List (Expr D)) : Cat := match l with | [f] => cat o f | _ => .summand

theorem productPlain_wp {l : List (Expr D)} {v : ℝ} (hw : ∀ e ∈ l, Within S e) (hv : denProd σ l = some v) :
    wp (Cond.holds σ) (productPlain o E top l)
      (Reads conv ρ P (catL o l) v) := by
  match l with
  | [] => exact wp_err
  | [f] =>
    rw [denProd_one] at hv
    exact htop (hw f (by simp)) hv
  | f :: g :: l =>
    obtain ⟨x, y', hx, hy', rfl⟩ := denProd_cons.1 hv
    obtain ⟨y, z, hy, hz, rfl⟩ := denProd_cons.1 hy'
    have hf := hw f (by simp)
    have hg := hw g (by simp)
    have hl : ∀ e ∈ l, Within S e := fun e he => hw e (by simp [he])
    refine wp_bind (neg_wp hE hσ hf hx) fun m hm => wp_ite (fun h1 => ?_) fun _ => wp_ite (fun h2 => ?_) fun _ => ?_
    · have : -x = 1 := isOne_val h1 hm.2
      refine wp_bind (factor_wp htop hg hy) fun s hs => wp_bind (factors_wp htop hl hz) fun t ht => wp_pure ?_
      have := ht _ _ (hs.neg.lift (c' := .summand) (by simp [Cat.rank]))
      rw [show x * (y * z) = -y * z by rw [show x = -1 by linarith]; ring]
      simpa [catL] using this
    · have : x = 1 := isOne_val h2 hx
      refine wp_bind (factor_wp htop hg hy) fun s hs => wp_bind (factors_wp htop hl hz) fun t ht => wp_pure ?_
      have := ht _ _ hs
      rw [show x * (y * z) = y * z by rw [show x = 1 by assumption]; ring]
      simpa [catL] using this
    · exact wp_bind (factor_wp htop hf hx) fun s hs => wp_bind (factors_wp htop (fun e he => hw e (by simp [he])) hy')
        fun t ht => wp_pure (ht _ _ hs)

omit htop in
theorem fracLoop_wp {l : List (Expr D)} {v : ℝ} (hw : ∀ e ∈ l, Within S e) (hv : denProd σ l = some v) :
    wp (Cond.holds σ) (fracLoop E l) fun r => (∀ e ∈ r.1, Within S e) ∧ (∀ e ∈ r.2, Within S e) ∧
      ∃ x y, denProd σ r.1 = some x ∧ denProd σ r.2 = some y ∧ y ≠ 0 ∧ v = x / y := by
  induction l generalizing v with
  | nil =>
    simp only [denProd, Option.some.injEq] at hv
    exact wp_pure ⟨by simp, by simp, 1, 1, rfl, rfl, one_ne_zero, by simp [← hv]⟩
  | cons f l ih =>
    obtain ⟨u, w, hu, hw', rfl⟩ := denProd_cons.1 hv
    have ih := ih (fun e he => hw e (by simp [he])) hw'
    have hf := hw f (by simp)
    unfold fracLoop
    refine wp_ite (fun h => ?_) fun _ => ?_
    · obtain ⟨x, y, hx, hy, hv⟩ : ∃ x y, den σ f.base = some x ∧ den σ f.exp = some y ∧ Spec.pow x y = some u := by
        cases f with
        | pow b e => exact den_pow.1 hu
        | _ =>
          have h0 := isNeg_val (σ := σ) h (x := 1) (by simp [Expr.exp, Expr.one, den])
          linarith
      rw [← bind_assoc]
      refine wp_bind (inv_wp hE hσ (within_base hf) (within_exp hf) h hx hy hv) fun d hd => wp_bind ih fun r hr => wp_pure ?_
      obtain ⟨h1, h2, a, b, ha, hb, hb0, rfl⟩ := hr
      refine ⟨h1, ?_, a, u⁻¹ * b, ha, denProd_cons.2 ⟨_, _, hd.2.2, hb, rfl⟩, mul_ne_zero (inv_ne_zero hd.2.1) hb0, ?_⟩
      · intro e he
        rcases List.mem_cons.1 he with rfl | he
        · exact hd.1
        · exact h2 e he
      · have := hd.2.1
        field_simp
    · refine wp_bind ih fun r hr => wp_pure ?_
      obtain ⟨h1, h2, a, b, ha, hb, hb0, rfl⟩ := hr
      refine ⟨?_, h2, u * a, b, denProd_cons.2 ⟨_, _, hu, ha, rfl⟩, hb, hb0, by ring⟩
      intro e he
      rcases List.mem_cons.1 he with rfl | he
      · exact hf
      · exact h1 e he

omit htop in
theorem productFrac_wp {l : List (Expr D)} {v : ℝ} (hw : ∀ e ∈ l, Within S e) (hv : denProd σ l = some v) :
    wp (Cond.holds σ) (productFrac E l) fun r => (∀ e ∈ r.1, Within S e) ∧ (∀ e ∈ r.2, Within S e) ∧
      ∃ x y, denProd σ r.1 = some x ∧ denProd σ r.2 = some y ∧ y ≠ 0 ∧ v = x / y := by
  unfold productFrac
  refine wp_bind (fracLoop_wp hE hσ hw hv) fun r hr => ?_
  split
  · rename_i n num d d' denom e1 e2
    rw [e1, e2] at hr
    obtain ⟨h1, h2, a, b, ha, hb, hb0, rfl⟩ := hr
    refine wp_bind (P := fun _ => n.isDouble = false) (wp_logIf fun h => ?_) fun _ hn => wp_pure ?_
    · by_contra hn
      exact h (by simpa using hn)
    · obtain ⟨x, y, hx, hy, rfl⟩ := denProd_cons.1 ha
      cases n with
      | dbl d => cases hn
      | rat q =>
        simp only [den, Option.some.injEq, Number.val_rat] at hx
        subst hx
        have hq : (q.den : ℝ) ≠ 0 := by exact_mod_cast q.den_ne_zero
        refine ⟨?_, ?_, q.num * y, q.den * b, denProd_cons.2 ⟨_, _, by simp [den, Expr.int, Number.numerator], hy, rfl⟩,
          denProd_cons.2 ⟨_, _, by simp [den, Expr.int, Number.denominator], hb, rfl⟩, mul_ne_zero hq hb0, ?_⟩
        · intro e he
          rcases List.mem_cons.1 he with rfl | he
          · simp
          · exact h1 e (by simp [he])
        · intro e he
          rcases List.mem_cons.1 he with rfl | he
          · simp
          · exact h2 e he
        · rw [Rat.cast_def q]
          field_simp
  · exact wp_pure hr

theorem numerator_wp (hf : o.fractions = true) {l : List (Expr D)} {v : ℝ} (hw : ∀ e ∈ l, Within S e)
    (hv : denProd σ l = some v) : wp (Cond.holds σ) (numerator o E top l) (Reads conv ρ P .summand v) := by
  have h := productPlain_wp hE hσ htop hw hv
  match l with
  | [] =>
    simp only [denProd, Option.some.injEq] at hv
    subst hv
    exact wp_pure (Reads.one.lift (by simp [Cat.rank]))
  | [f] =>
    rw [denProd_one] at hv
    refine wp_ite (fun _ => wp_bind (htop (hw f (by simp)) hv) fun s hs => wp_pure ?_) fun hp => ?_
    · exact hs.parens.lift (by simp [Cat.rank])
    · refine wp_mono h fun s hs => hs.lift ?_
      unfold catL cat
      cases f with
      | sum l => simp [precedence] at hp
      | num n => cases n <;> simp <;> (repeat' split) <;> simp [Cat.rank]
      | _ => simp [hf] <;> (repeat' split) <;> simp [Cat.rank]
  | f :: g :: l => exact h

theorem composite_wp {l : List (Expr D)} {y : ℝ} (hw : ∀ e ∈ l, Within S e) (hy : denProd σ l = some y) (hy0 : y ≠ 0) :
    wp (Cond.holds σ) (composite E top l) fun t => ∀ x s, Reads conv ρ P .summand x s →
      Reads conv ρ P .summand (x / y) (s ++ t) := by
  have h1 : wp (Cond.holds σ) (E.prodCreate l) fun r => Within S r ∧ den σ r = some y :=
    wp_and (wp_of_true (hE.syms.prod (by simpa using hw))) (hE.prod hσ hy)
  exact wp_bind h1 fun p hp => wp_bind (htop hp.1 hp.2) fun s hs => wp_pure fun x r hr =>
    hr.div (hs.parens.lift (by simp [Cat.rank])) hy0

theorem denominator_wp {l : List (Expr D)} {y : ℝ} (hw : ∀ e ∈ l, Within S e) (hy : denProd σ l = some y) (hy0 : y ≠ 0) :
    wp (Cond.holds σ) (denominator o E top l) fun t => ∀ x s, Reads conv ρ P .summand x s →
      Reads conv ρ P .summand (x / y) (s ++ t) := by
  have h := composite_wp hE hσ htop hw hy hy0
  match l with
  | [] =>
    simp only [denProd, Option.some.injEq] at hy
    subst hy
    exact wp_pure fun x s hs => by simpa using hs
  | [f] =>
    refine wp_ite (fun _ => ?_) fun _ => h
    rw [denProd_one] at hy
    exact wp_bind need_wp fun _ hn => wp_bind (htop (hw f (by simp)) hy) fun s hs => wp_pure fun x r hr =>
      hr.div (hs.lift hn) hy0
  | f :: g :: l => exact h

theorem product_wp {l : List (Expr D)} {v : ℝ} (hw : ∀ e ∈ l, Within S e) (hv : denProd σ l = some v) :
    wp (Cond.holds σ) (product o E top l) (Reads conv ρ P (cat o (.prod l)) v) := by
  unfold product
  by_cases hf : o.fractions = true
  · simp only [hf, if_true, cat, Bool.true_or]
    refine wp_bind (productFrac_wp hE hσ hw hv) fun r hr => ?_
    obtain ⟨h1, h2, a, b, ha, hb, hb0, rfl⟩ := hr
    exact wp_bind (numerator_wp hE hσ htop hf h1 ha) fun s hs => wp_bind (denominator_wp hE hσ htop h2 hb hb0)
      fun t ht => wp_pure (ht _ _ hs)
  · simp only [hf, cat]
    refine wp_mono (productPlain_wp hE hσ htop hw hv) fun s hs => hs.lift ?_
    match l with
    | [] => simp [Cat.rank, catL]
    | [f] => simp only [catL, List.length_singleton, hf]; cases cat o f <;> simp [Cat.rank]
    | f :: g :: l => simp [Cat.rank, catL]

omit hE hσ htop in
theorem intText_reads (q : ℚ) (hq : q.den = 1) :
    Reads conv ρ P (if q < 0 then .signed else .operand) q (intText q.num) := by
  have hv : (q : ℝ) = q.num := by
    rw [Rat.cast_def q, hq]
    simp
  unfold intText
  by_cases h : q < 0
  · have hn : q.num < 0 := Rat.num_neg.2 h
    simp only [h, hn, if_true]
    have := (Reads.nat (conv := conv) (ρ := ρ) (P := P) q.num.natAbs).lift (c' := .factor) (by simp [Cat.rank])
    have := this.neg
    rw [hv]
    have e : ((q.num.natAbs : ℕ) : ℝ) = -(q.num : ℝ) := by
      have : ((q.num.natAbs : ℤ)) = - q.num := by omega
      rw [← Int.cast_natCast (R := ℝ), this]
      try simp
    rw [e, neg_neg] at this
    exact this
  · have hn : ¬ q.num < 0 := fun hn => h (Rat.num_neg.1 hn)
    simp only [h, hn, if_false]
    have := Reads.nat (conv := conv) (ρ := ρ) (P := P) q.num.natAbs
    have e : ((q.num.natAbs : ℕ) : ℝ) = (q.num : ℝ) := by
      have : ((q.num.natAbs : ℤ)) = q.num := by omega
      rw [← Int.cast_natCast (R := ℝ), this]
      try simp
    rw [hv, ← e]
    exact this

omit hE hσ htop in
theorem number_wp (n : Number D) :
    wp (Cond.holds σ) (number o n) (Reads conv ρ P (cat o (.num n)) n.val) := by
  cases n with
  | dbl d => exact wp_bind (wp_log (Q := fun _ => False) fun h => h) fun _ h => h.elim
  | rat q =>
    refine wp_pure ?_
    simp only [cat, Number.val_rat]
    by_cases hq : q.den = 1
    · simp only [hq, if_true]
      exact intText_reads q hq
    · simp only [hq, if_false]
      have h1 := intText_reads (conv := conv) (ρ := ρ) (P := P) (q.num : ℚ) (by simp)
      have h2 := (Reads.nat (conv := conv) (ρ := ρ) (P := P) q.den).lift (c' := .signed) (by simp [Cat.rank])
      have h0 : (q.den : ℝ) ≠ 0 := by exact_mod_cast q.den_ne_zero
      have := (h1.lift (c' := .summand) (by split <;> simp [Cat.rank])).div h2 h0
      rw [Rat.cast_def q]
      simpa using this

include ho hS

theorem step_wp {e : Expr D} {v : ℝ} (hw : Within S e) (hv : den σ e = some v) :
    wp (Cond.holds σ) (step o E top e) (Reads conv ρ P (cat o e) v) := by
  cases e with
  | num n =>
    simp only [den, Option.some.injEq] at hv
    subst hv
    exact number_wp n
  | sym s =>
    simp only [den, Option.some.injEq] at hv
    obtain ⟨n, hn, hl, hP, hr⟩ := hS s ((within_sym s).1 hw)
    refine wp_pure ?_
    simp only [symbolText, ho, hn, SymId.name, cat]
    rw [← hv, hr]
    exact Reads.symbol hl hP
  | cst c =>
    simp only [den, Option.some.injEq] at hv
    cases c with
    | e => exact wp_bind (wp_logIf (Q := fun _ => False) fun h => h rfl) fun _ h => h.elim
    | pi =>
      refine wp_bind wp_true fun _ _ => wp_pure ?_
      refine ⟨.pi, ?_, by simp [Tree.den, ← hv, Spec.cst], trivial, ?_⟩
      · simp only [symbolText, ho]
        exact .pi (w := []) (p := ['p', 'i']) spaces_none (by decide)
      · simp only [symbolText, ho]
        unfold Ascii
        decide
  | undef => simp [den] at hv
  | sum l => exact sum_wp hE hσ htop ((within_sum l).1 hw) hv
  | prod l => exact product_wp hE hσ htop ((within_prod l).1 hw) hv
  | pow b e => exact power_wp hE hσ htop hw hv
  | fn f a =>
    obtain ⟨x, hx, hf⟩ := den_fn.1 hv
    refine wp_bind (htop ((within_fn _ _).1 hw) hx) fun s hs => wp_pure ?_
    simp only [symbolText, ho, cat]
    cases f
    · exact hs.fn .log rfl hf
    · exact hs.fn .sin rfl hf
    · exact hs.fn .cos rfl hf
    · exact hs.fn .tan rfl hf
    · exact hs.fn .asin rfl hf
    · exact hs.fn .acos rfl hf
    · exact hs.fn .atan rfl hf
  | atan2 y x =>
    obtain ⟨h1, h2⟩ := (within_atan2 _ _).1 hw
    simp only [den, Option.bind_eq_some_iff] at hv
    obtain ⟨u, hu, w, hw', hv⟩ := hv
    refine wp_bind (htop h1 hu) fun s hs => wp_bind (htop h2 hw') fun t ht => wp_pure ?_
    simp only [symbolText, ho, cat]
    exact hs.atan2 ht hv

end

theorem toplevel_wp (hE : Sound E) (hσ : σ.Respects) (ho : o.unicode = false)
    (hS : ∀ s, S s → ∃ n, s.id = .named n ∧ n.Legal ∧ P n ∧ σ s = ρ n) (n : Nat) {e : Expr D} {v : ℝ}
    (hw : Within S e) (hv : den σ e = some v) :
    wp (Cond.holds σ) (toplevel o E n e) (Reads conv ρ P (cat o e) v) := by
  induction n generalizing e v with
  | zero => exact wp_err
  | succ n ih => exact step_wp hE hσ ho hS (fun hw hv => ih hw hv) hw hv

end Printer

end Tsym
