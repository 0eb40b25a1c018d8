import Verif.PrinterThm
import Verif.Props.Values

set_option autoImplicit false
set_option linter.unusedSectionVars false

/-!
# C36: the printed text denotes the expression; C33: the value of a text

`Tree.den` (Verif/TreeDen.lean) is the value of a text by the usual rules of precedence, which are the
grammar (Verif/Grammar.lean).
-/

namespace Tsym

open Expr

variable {D : Type} [Flt D] [LawfulFlt D] {cfg : Cfg D} {n m : Nat} {σ τ : Asg} {ρ : Name → ℝ}
  {conv : Str → Option D}

/-! ## C33: the value of the expression that is read -/

theorem Tree.eval_vl {E : Eng D} (hE : Sound E) (hσ : σ.Respects) (hρ : ∀ n, σ ⟨.named n, false⟩ = ρ n)
    (t : Tree D) {v : ℝ} (h : t.den ρ = some v) : Vl σ (t.eval E fun s => .ok (decVal s)) v := by
  induction t generalizing v with
  | pi => simp only [den, Option.some.injEq] at h; subst h; exact wp_pure rfl
  | e => simp only [den, Option.some.injEq] at h; subst h; exact wp_pure rfl
  | sym n => simp only [den, Option.some.injEq] at h; subst h; exact wp_pure (by simp [Tsym.den, hρ])
  | dbl d => simp only [den, Option.some.injEq] at h; subst h; exact wp_pure (by simp [Tsym.den])
  | int s =>
    simp only [den, Option.some.injEq] at h
    subst h
    refine wp_bind (P := fun k => k = decVal s) (wp_lift fun a ha => ?_) fun k hk => wp_pure ?_
    · cases ha; rfl
    · subst hk; simp [Tsym.den]
  | fn f a ih =>
    simp only [den, Option.bind_eq_some_iff] at h
    obtain ⟨x, hx, hv⟩ := h
    refine wp_bind (ih hx) fun y hy => ?_
    cases f
    case log => exact hE.log hσ hy hv
    case sqrt =>
      simp only [PFct.den] at hv
      split at hv
      · rename_i h0
        exact hE.pow hσ hy den_half (by rw [Spec.pow_half h0, hv])
      · cases hv
    all_goals exact hE.trig hσ (by simp) hy hv
  | atan2 a b iha ihb =>
    simp only [den, Option.bind_eq_some_iff] at h
    obtain ⟨x, hx, y, hy, hv⟩ := h
    exact wp_bind (iha hx) fun p hp => wp_bind (ihb hy) fun q hq => hE.atan2 hσ hp hq hv
  | pow a b iha ihb =>
    simp only [den, Option.bind_eq_some_iff] at h
    obtain ⟨x, hx, y, hy, hv⟩ := h
    exact wp_bind (iha hx) fun p hp => wp_bind (ihb hy) fun q hq => hE.pow hσ hp hq hv
  | neg a ih =>
    simp only [den, Option.bind_eq_some_iff, Option.some.injEq] at h
    obtain ⟨x, hx, rfl⟩ := h
    exact wp_bind (ih hx) fun p hp => minus_vl hE hσ hp
  | mul a b iha ihb =>
    simp only [den, Option.bind_eq_some_iff, Option.some.injEq] at h
    obtain ⟨x, hx, y, hy, rfl⟩ := h
    exact wp_bind (iha hx) fun p hp => wp_bind (ihb hy) fun q hq => hE.prod hσ (denProd_two hp hq)
  | div a b iha ihb =>
    simp only [den, Option.bind_eq_some_iff] at h
    obtain ⟨x, hx, y, hy, hv⟩ := h
    split at hv
    · cases hv
    · rename_i h0
      simp only [Option.some.injEq] at hv
      subst hv
      refine wp_bind (iha hx) fun p hp => wp_bind (ihb hy) fun q hq => ?_
      rw [div_eq_mul_inv]
      exact wp_bind (oneOver_vl hE hσ hq h0) fun r hr => hE.prod hσ (denProd_two hp hr)
  | add a b iha ihb =>
    simp only [den, Option.bind_eq_some_iff, Option.some.injEq] at h
    obtain ⟨x, hx, y, hy, rfl⟩ := h
    exact wp_bind (iha hx) fun p hp => wp_bind (ihb hy) fun q hq => hE.sum hσ (denSum_two hp hq)
  | sub a b iha ihb =>
    simp only [den, Option.bind_eq_some_iff, Option.some.injEq] at h
    obtain ⟨x, hx, y, hy, rfl⟩ := h
    refine wp_bind (iha hx) fun p hp => wp_bind (ihb hy) fun q hq => ?_
    rw [sub_eq_add_neg]
    exact wp_bind (minus_vl hE hσ hq) fun r hr => hE.sum hσ (denSum_two hp hr)

/-- C33: a text of the language whose names do not begin with "pi" or "euler" and whose integers have no
superfluous zeros is accepted when the calculations end, and the result has the value of the text where
the conditions hold. -/
theorem C33_value_partial (hcfg : cfg.Ok) (hσ : σ.Respects) (hρ : ∀ n, σ ⟨.named n, false⟩ = ρ n)
    {s : Str} {t : Tree D} (ha : Ascii s) (h : IsText conv s t) (hp : t.All Name.Plain NoZero) {v : ℝ}
    (hv : t.den ρ = some v) (r : Option (Expr D)) (cs : List (Cond D))
    (hr : Api.parse (eng cfg n) conv s = .ok (r, cs)) :
    ∃ w, r = some w ∧ ((∀ c ∈ cs, c.holds σ) → den σ w = some v) := by
  rw [C33_decimal_partial _ conv ha h hp] at hr
  obtain ⟨w, c1, c2, h1, h2, rfl⟩ := M.bind_ok.1 hr
  cases h2
  exact ⟨w, rfl, fun hc => Tree.eval_vl (sound_eng hcfg n) hσ hρ t hv w c1 h1 fun c hcm => hc c (by simp [hcm])⟩

/-! ## C36 -/

/-- C36: the printed text, read with the usual rules of precedence, has the value of the expression, where
all recorded conditions hold. In particular, the text contains no double and no constant e, and all
parentheses that are needed are there (see Verif/Printer.lean, and the witnesses below). -/
theorem C36_print_partial (hcfg : cfg.Ok) (hσ : σ.Respects) (e : Expr D) (v : ℝ) (hv : den σ e = some v)
    (hn : ∀ s, Occurs (.sym s) e → ∃ n, s.id = .named n ∧ n.Legal ∧ σ s = ρ n) (dbl : D → Str) (s : Str)
    (cs : List (Cond D)) (hs : Api.print (eng cfg n) false dbl e = .ok (s, cs)) (hc : ∀ c ∈ cs, c.holds σ) :
    Ascii s ∧ ∃ t, IsText conv s t ∧ t.den ρ = some v := by
  obtain ⟨t, h1, h2, -, h4⟩ := Printer.toplevel_wp (conv := conv) (P := fun _ => True) (sound_eng hcfg n) hσ rfl
    (S := fun s => Occurs (.sym s) e) (fun s hs => by
      obtain ⟨n, h1, h2, h3⟩ := hn s hs
      exact ⟨n, h1, h2, trivial, h3⟩) _ (fun s hs => hs) hv s cs hs hc
  exact ⟨h4, t, ⟨s, [], by simp, spaces_none, h1.lift (by cases Printer.cat _ e <;> simp [Cat.rank])⟩, h2⟩

/-- C36 for the debug text, where powers are not written as fractions. -/
theorem C36_debug_partial (hcfg : cfg.Ok) (hσ : σ.Respects) (e : Expr D) (v : ℝ) (hv : den σ e = some v)
    (hn : ∀ s, Occurs (.sym s) e → ∃ n, s.id = .named n ∧ n.Legal ∧ σ s = ρ n) (dbl : D → Str) (s : Str)
    (cs : List (Cond D)) (hs : Api.printDebug (eng cfg n) false dbl e = .ok (s, cs)) (hc : ∀ c ∈ cs, c.holds σ) :
    Ascii s ∧ ∃ t, IsText conv s t ∧ t.den ρ = some v := by
  obtain ⟨t, h1, h2, -, h4⟩ := Printer.toplevel_wp (conv := conv) (P := fun _ => True) (sound_eng hcfg n) hσ rfl
    (S := fun s => Occurs (.sym s) e) (fun s hs => by
      obtain ⟨n, h1, h2, h3⟩ := hn s hs
      exact ⟨n, h1, h2, trivial, h3⟩) _ (fun s hs => hs) hv s cs hs hc
  exact ⟨h4, t, ⟨s, [], by simp, spaces_none, h1.lift (by cases Printer.cat _ e <;> simp [Cat.rank])⟩, h2⟩

/-- C36 and C33: an expression is printed and the text is read again. The text is accepted when the
calculations end, and the new expression has the same value where the conditions hold. Symbols lose their
sign, so the value is taken under an assignment `τ` with the same values for the names. -/
theorem C36_roundtrip_partial (hcfg : cfg.Ok) (hσ : σ.Respects) (hτ : τ.Respects) (e : Expr D) (v : ℝ)
    (hv : den σ e = some v)
    (hn : ∀ s, Occurs (.sym s) e → ∃ n, s.id = .named n ∧ n.Legal ∧ n.Plain ∧ σ s = τ ⟨.named n, false⟩)
    (dbl : D → Str) (s : Str) (cs ds : List (Cond D)) (r : Option (Expr D))
    (hs : Api.print (eng cfg n) false dbl e = .ok (s, cs)) (hc : ∀ c ∈ cs, c.holds σ)
    (hr : Api.parse (eng cfg m) conv s = .ok (r, ds)) :
    ∃ w, r = some w ∧ ((∀ c ∈ ds, c.holds τ) → den τ w = some v) := by
  obtain ⟨t, h1, h2, h3, h4⟩ := Printer.toplevel_wp (conv := conv) (P := Name.Plain)
    (ρ := fun n => τ ⟨.named n, false⟩) (sound_eng hcfg n) hσ rfl
    (S := fun s => Occurs (.sym s) e) (fun s hs => by
      obtain ⟨n, h1, h2, h3, h4⟩ := hn s hs
      exact ⟨n, h1, h2, h3, h4⟩) _ (fun s hs => hs) hv s cs hs hc
  exact C33_value_partial hcfg hτ (fun _ => rfl) h4
    ⟨s, [], by simp, spaces_none, h1.lift (by cases Printer.cat _ e <;> simp [Cat.rank])⟩ h3 h2 r ds hr

/-! ## Examples and counterexamples -/

namespace PrinterEx

open SymEx ExprEx ValueEx ParserEx

/-- The text for doubles, which does not matter here. -/
def noText : Hyb → Str := fun _ => ['?']

/-- (a + b)^2/(3*a*b^2) - sqrt(2)*sin(a) -/
def e1 : Expr Hyb := sum [prod [ratE (1 / 3), pow a (int (-1)), pow b (int (-2)), pow (sum [a, b]) (int 2)],
  prod [int (-1), pow (int 2) (ratE (1 / 2)), fn .sin a]]

/-- C36 on an example: no conditions are recorded. -/
example : Api.print lib false noText e1 =
    .ok ("(a + b)^2/(3*a*b^2) - sqrt(2)*sin(a)".toList, []) := by krfl

example : Api.printDebug lib false noText e1 =
    .ok ("1/3*a^(-1)*b^(-2)*(a + b)^2 - sqrt(2)*sin(a)".toList, []) := by krfl

theorem legal_letter {c : Char} (hc : isAlphaC c = true) : (ParserEx.name c).Legal :=
  ⟨letter hc, by simp [ParserEx.name], rfl⟩

theorem e1_symbols (s : Sym) (hs : Occurs (.sym s) e1) :
    ∃ n, s.id = .named n ∧ n.Legal ∧ n.Plain ∧ (all 3) s = 3 := by
  have h : Within (fun s : Sym => ∃ n, s.id = .named n ∧ n.Legal ∧ n.Plain ∧ (all 3) s = 3) e1 := by
    have h1 : ∀ c : Char, isAlphaC c = true → ∃ n, (⟨.named (ParserEx.name c), false⟩ : Sym).id = .named n ∧ n.Legal ∧ n.Plain ∧
        (all 3) ⟨.named (ParserEx.name c), false⟩ = 3 := fun c hc => ⟨_, rfl, legal_letter hc, plain_letter c, rfl⟩
    have ha := h1 'a' (by decide)
    have hb := h1 'b' (by decide)
    simp only [e1, within_sum, within_prod, List.mem_cons, List.not_mem_nil, or_false, forall_eq_or_imp, forall_eq,
      within_int, within_pow, within_fn, within_ratE, and_self, true_and, and_true, ExprEx.a, ExprEx.b, within_sym]
    exact ⟨⟨ha, hb, ha, hb⟩, ha⟩
  exact h s hs

theorem e1_value : ∃ v, den (all 3) e1 = some v := by
  have h1 : Spec.pow 2 (((1 / 2 : ℚ) : ℝ)) = some (2 ^ (((1 / 2 : ℚ) : ℝ))) := Spec.pow_pos' (by norm_num)
  have h2 : Spec.pow 3 ((-1 : ℤ) : ℝ) = some (3 ^ ((-1 : ℤ) : ℝ)) := Spec.pow_pos' (by norm_num)
  have h3 : Spec.pow 3 ((-2 : ℤ) : ℝ) = some (3 ^ ((-2 : ℤ) : ℝ)) := Spec.pow_pos' (by norm_num)
  have h4 : Spec.pow (3 + (3 + 0)) 2 = some ((3 + (3 + 0)) ^ (2 : ℝ)) := Spec.pow_pos' (by norm_num)
  exact ⟨_, by
    simp only [e1, den_sum, den_prod, denSum, denProd, den, den_a, den_b, den_int, den_ratE, Spec.fn, all,
      Option.bind_some, Int.cast_ofNat, h1, h2, h3, h4]
    rfl⟩

/-- C36 on the example: the text has the value of the expression. -/
example : ∃ t, IsText noDbl "(a + b)^2/(3*a*b^2) - sqrt(2)*sin(a)".toList t ∧
    t.den (fun _ => 3) = den (all 3) e1 := by
  obtain ⟨v, hv⟩ := e1_value
  obtain ⟨-, t, h1, h2⟩ := C36_print_partial (cfg := Cfg.std 1000) (n := 30) (ρ := fun _ => 3) (conv := noDbl) (Cfg.std_ok _)
    (all_respects (by norm_num)) e1 v hv (fun s hs => by
      obtain ⟨n, h1, h2, -, h4⟩ := e1_symbols s hs
      exact ⟨n, h1, h2, h4⟩) noText
    "(a + b)^2/(3*a*b^2) - sqrt(2)*sin(a)".toList [] (by krfl) (by simp)
  exact ⟨t, h1, by rw [h2, hv]⟩

/-- The text of the example is read back; the expression is the same. -/
example : (∃ cs, Api.parse lib noDbl "(a + b)^2/(3*a*b^2) - sqrt(2)*sin(a)".toList = .ok (some e1, cs)) ∧
    ∀ s, Occurs (.sym s) e1 → ∃ n, s.id = .named n ∧ n.Legal ∧ n.Plain ∧ (all 3) s = (all 3) ⟨.named n, false⟩ :=
  ⟨M.val_some (by krfl), fun s hs => by
    obtain ⟨n, h1, h2, h3, h4⟩ := e1_symbols s hs
    exact ⟨n, h1, h2, h3, h4⟩⟩

/-- C36 is false for the constant e: its text reads as the symbol e. -/
theorem C36_false_e : Api.print lib false noText (.cst .e) = .ok (['e'], [.fail]) ∧
    IsText noDbl ['e'] (.sym (ParserEx.name 'e')) ∧
    (Tree.sym (ParserEx.name 'e') : Tree Hyb).den (fun _ => 3) ≠ den (all 3) (.cst .e : Expr Hyb) := by
  refine ⟨by krfl, ⟨['e'], [], rfl, spaces_nil, .summand (.signed (.factor (.operand (operandLetter (by decide)))))⟩, ?_⟩
  simp only [Tree.den, den, Spec.cst, ne_eq, Option.some.injEq]
  have := Real.exp_one_lt_d9
  intro h
  linarith

/-- C36 is false for Undefined: its text reads as a symbol. -/
theorem C36_false_undefined : Api.print lib false noText .undef = .ok ("Undefined".toList, []) ∧
    IsText noDbl "Undefined".toList (.sym ⟨"Undefined".toList, [], []⟩) ∧
    (Tree.sym ⟨"Undefined".toList, [], []⟩ : Tree Hyb).den (fun _ => 3) ≠ den (all 3) (.undef : Expr Hyb) := by
  refine ⟨by krfl, ⟨_, [], (List.append_nil _).symm, spaces_nil, .summand (.signed (.factor (.operand
    (.symbol (w := []) spaces_nil ⟨⟨'U', "ndefined".toList, rfl, by decide, by decide⟩, by decide, by decide⟩))))⟩, ?_⟩
  simp [Tree.den, den]

/-- The library when primes up to 5 are considered for the resolution of roots. -/
noncomputable def lib5 : Eng Hyb := eng (Cfg.std 5) 30

/-- (1 + sqrt(49))^a -/
def e2 : Expr Hyb := pow (sum [int 1, pow (int 49) (ratE (1 / 2))]) a

/-- The expression is the result of calls of the library. -/
example : ∃ cs, (do
    let s ← Api.sqrt lib5 (int 49)
    let t ← Api.add lib5 (int 1) s
    Api.pow lib5 t a) = .ok (e2, cs) := M.val_some (by krfl)

/-- The tree of 1 + (sqrt(49)^a). -/
def t2 : Tree Hyb := .add (.int ['1']) (.pow (.fn .sqrt (.int ['4', '9'])) (.sym (ParserEx.name 'a')))

/-- C36 is false where the numeric base of a power is composed, but has an integer value: the parentheses
are missing. (With the standard setting, 1 + sqrt(10007^2) is such a base.) -/
theorem C36_false_base : (∃ cs, Api.print lib5 false noText e2 = .ok ("1 + sqrt(49)^a".toList, cs)) ∧
    IsText noDbl "1 + sqrt(49)^a".toList t2 ∧ t2.den (fun _ => 2) = some 50 ∧ den (all 2) e2 = some 64 := by
  have h49 : Real.sqrt 49 = 7 := by
    rw [show (49 : ℝ) = 7 ^ 2 by norm_num]
    exact Real.sqrt_sq (by norm_num)
  refine ⟨M.val_some (by krfl), ?_, ?_, ?_⟩
  · have h1 : Parses noDbl .operand ['4', '9'] (.int ['4', '9']) :=
      .integer (w := []) spaces_nil ⟨by decide, by decide⟩
    have h2 : Parses noDbl .operand " sqrt(49)".toList (.fn .sqrt (.int ['4', '9'])) :=
      .function (w := [' ']) (p := "sqrt".toList) (w1 := []) (w2 := []) spaces_one (by decide) spaces_nil
        (.summand (.signed (.factor (.operand h1)))) spaces_nil
    have h3 : Parses noDbl .operand ['1'] (.int ['1']) := .integer (w := []) spaces_nil ⟨by decide, by decide⟩
    exact ⟨_, [], (List.append_nil _).symm, spaces_nil, .plus (p := ['1']) (w := [' ']) (.summand (.signed (.factor (.operand h3))))
      spaces_one (.signed (.factor (.power h2 spaces_nil (.operand (operandLetter (by decide))))))⟩
  · have e1 : decVal ['1'] = 1 := by decide
    have e2 : decVal ['4', '9'] = 49 := by decide
    simp only [t2, Tree.den, PFct.den, e1, e2, Option.bind_some, Nat.cast_ofNat, Nat.cast_one]
    rw [if_pos (by norm_num), Option.bind_some, h49, Spec.pow_two', Option.bind_some]
    norm_num
  · have h : Spec.pow ((49 : ℤ) : ℝ) ((1 / 2 : ℚ) : ℝ) = some 7 := by
      have := Spec.pow_half (x := 49) (by norm_num)
      rw [h49] at this
      push_cast
      exact this
    simp only [e2, den, den_sum, denSum, den_int, den_ratE, den_a, all, Option.bind_some, h]
    rw [Spec.pow_two']
    norm_num

/-- 1/3 as a double, over a*b. -/
def e3 : Expr Hyb := prod [num (.dbl (.q (1 / 3))), pow a (int (-1)), pow b (int (-1))]

/-- The expression is the result of calls of the library. -/
example : ∃ cs, (do
    let s ← Api.mul lib a b
    Api.div lib (num (.dbl (.q (1 / 3)))) s) = .ok (e3, cs) := M.val_some (by krfl)

/-- C36 is false for a double with two denominators: the numerator is printed as 0. -/
theorem C36_false_double : (∃ cs, Api.print lib false noText e3 = .ok ("0/(a*b)".toList, cs)) ∧
    (∃ t, IsText noDbl "0/(a*b)".toList t ∧ t.den (fun _ => 3) = some 0) ∧ den (all 3) e3 = some (1 / 27) := by
  refine ⟨M.val_some (by krfl), ⟨.div (.int ['0']) (.mul (.sym (ParserEx.name 'a')) (.sym (ParserEx.name 'b'))), ?_, ?_⟩, ?_⟩
  · have h1 : Parses noDbl .summand ['0'] (.int ['0']) :=
      .signed (.factor (.operand (.integer (w := []) spaces_nil ⟨by decide, by decide⟩)))
    have h2 : ∀ c : Char, isAlphaC c = true → Parses noDbl .signed [c] (.sym (ParserEx.name c)) := fun c hc =>
      .factor (.operand (operandLetter hc))
    have h3 : Parses noDbl .signed "(a*b)".toList (.mul (.sym (ParserEx.name 'a')) (.sym (ParserEx.name 'b'))) :=
      .factor (.operand (.parens (w := []) (w2 := []) spaces_nil (.summand (.times (w := []) (.signed (h2 'a' (by decide))) spaces_nil
        (h2 'b' (by decide)))) spaces_nil))
    exact ⟨_, [], (List.append_nil _).symm, spaces_nil, .summand (.over (p := ['0']) (w := []) h1 spaces_nil h3)⟩
  · have e1 : decVal ['0'] = 0 := by decide
    simp [Tree.den, e1]
  · have h : Spec.pow 3 ((-1 : ℤ) : ℝ) = some 3⁻¹ := by
      have := Spec.pow_neg_one (x := 3) (by norm_num)
      push_cast
      exact this
    simp only [e3, den_prod, denProd, den, den_int, den_a, den_b, all, Option.bind_some, h, Number.val_dbl, Option.some.injEq]
    show (((1 / 3 : ℚ) : ℝ)) * (3⁻¹ * (3⁻¹ * 1)) = 1 / 27
    norm_num

end PrinterEx

end Tsym
