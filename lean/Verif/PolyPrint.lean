import Verif.PrinterThm
import Verif.NormalPoly

set_option autoImplicit false
set_option linter.unusedSectionVars false
set_option linter.unusedSimpArgs false
set_option linter.unusedVariables false

/-!
# The text of an expanded polynomial is read as the polynomial
-/

namespace Tsym

open Expr

variable {D : Type} [Flt D] [LawfulFlt D] {cfg : Cfg D} {conv : Str → Option D}

/-! ## Texts that are read as an expression -/

/-- The string is a text of a category, and the calls of the library that it stands for give the expression. -/
def Rd (cfg : Cfg D) (conv : Str → Option D) (c : Cat) (x : Expr D) (s : Str) : Prop :=
  ∃ t, Parses conv c s t ∧ Tot cfg (fun E => t.eval E fun s => .ok (decVal s)) x ∧ t.All Name.Plain NoZero ∧ Ascii s

/-- Two expressions with a sum. -/
theorem tot_add_ep (hc : cfg.Ok) {x y z : Expr D} (hx : EP x) (hy : EP y) (hz : EP z) (h : poly z = poly x + poly y) :
    Tot cfg (fun E => Api.add E x y) z := by
  obtain ⟨r, r1, r2, r3⟩ := tot_sum_ep hc (cfg := cfg) (es := [x, y]) (by simp) (by simpa using ⟨hx, hy⟩)
  have : r = z := r2.unique hz (by rw [r3, h]; simp)
  rw [← this]; exact tot_sum r1

theorem tot_mul_em (hc : cfg.Ok) {x y z : Expr D} (hx : EM x) (hy : EM y) (hz : EM z) (h : poly z = poly x * poly y) :
    Tot cfg (fun E => Api.mul E x y) z := by
  obtain ⟨r, r1, r2, r3⟩ := tot_prod_em hc (cfg := cfg) (A := [x, y]) (by simp) (by simpa using ⟨hx, hy⟩)
  have : r = z := r2.1.unique hz.1 (by rw [r3, h]; simp)
  rw [← this]; exact tot_prod r1

theorem tot_minus_em (hc : cfg.Ok) {x z : Expr D} (hx : EM x) (hz : EM z) (h : poly z = - poly x) :
    Tot cfg (fun E => E.minus x) z := by
  refine tot_mul_em hc (x := mOne) (by rw [mOne_rat]; exact EM.num _) hx hz ?_
  rw [h, mOne_rat, poly_ratE]; simp

/-- The negative of a monomial. -/
theorem em_neg {m : Mono D} {K : Key} (hk : IsKey m.2 K) : poly (em (-m.1, m.2)) = - poly (em m) := by
  have hk' : IsKey ((-m.1, m.2) : Mono D).2 K := hk
  rw [hk'.poly, hk.poly, ← map_neg]

namespace Rd

variable {c c' : Cat} {s s' : Str} {x y z : Expr D}

theorem lift (h : Rd cfg conv c x s) (hc : c.rank ≤ c'.rank) : Rd cfg conv c' x s := by
  obtain ⟨t, h1, h2⟩ := h
  exact ⟨t, h1.lift hc, h2⟩

theorem add (hc : cfg.Ok) (h : Rd cfg conv .expression x s) (h' : Rd cfg conv .summand y s') (hx : EP x) (hy : EP y) (hz : EP z)
    (hp : poly z = poly x + poly y) : Rd cfg conv .expression z (s ++ (' ' :: '+' :: ' ' :: s')) := by
  obtain ⟨t, h1, h2, h3, h4⟩ := h
  obtain ⟨t', h1', h2', h3', h4'⟩ := h'
  refine ⟨.add t t', ?_, tot_bind h2 (tot_bind h2' (tot_add_ep hc hx hy hz hp)), ⟨h3, h3'⟩, ?_⟩
  · have := Parses.plus h1 spaces_one (h1'.space spaces_one)
    simpa using this
  · exact h4.append (.cons (by decide) (.cons (by decide) (.cons (by decide) h4')))

theorem sub (hc : cfg.Ok) (h : Rd cfg conv .expression x s) (h' : Rd cfg conv .summand y s') (hx : EP x) (hy : EM y) {w : Expr D} (hw : EM w)
    (hyw : poly w = - poly y) (hz : EP z) (hp : poly z = poly x - poly y) : Rd cfg conv .expression z (s ++ (' ' :: '-' :: ' ' :: s')) := by
  obtain ⟨t, h1, h2, h3, h4⟩ := h
  obtain ⟨t', h1', h2', h3', h4'⟩ := h'
  refine ⟨.sub t t', ?_, tot_bind h2 (tot_bind h2' (tot_bind (tot_minus_em hc hy hw hyw) (tot_add_ep hc hx hw.1 hz ?_))), ⟨h3, h3'⟩, ?_⟩
  · have := Parses.minusSummand h1 spaces_one (h1'.space spaces_one)
    simpa using this
  · rw [hp, hyw, sub_eq_add_neg]
  · exact h4.append (.cons (by decide) (.cons (by decide) (.cons (by decide) h4')))

theorem mul (hc : cfg.Ok) (h : Rd cfg conv .summand x s) (h' : Rd cfg conv .signed y s') (hx : EM x) (hy : EM y) (hz : EM z)
    (hp : poly z = poly x * poly y) : Rd cfg conv .summand z (s ++ '*' :: s') := by
  obtain ⟨t, h1, h2, h3, h4⟩ := h
  obtain ⟨t', h1', h2', h3', h4'⟩ := h'
  refine ⟨.mul t t', ?_, tot_bind h2 (tot_bind h2' (tot_mul_em hc hx hy hz hp)), ⟨h3, h3'⟩, ?_⟩
  · have := Parses.times h1 spaces_none h1'
    simpa using this
  · exact h4.append (.cons (by decide) h4')

theorem neg (hc : cfg.Ok) (h : Rd cfg conv .factor x s) (hx : EM x) (hz : EM z) (hp : poly z = - poly x) :
    Rd cfg conv .signed z ('-' :: s) := by
  obtain ⟨t, h1, h2, h3, h4⟩ := h
  exact ⟨.neg t, .minus (w := []) spaces_none h1, tot_bind h2 (tot_minus_em hc hx hz hp), h3, .cons (by decide) h4⟩

theorem nat (n : ℕ) : Rd cfg conv .operand (.num (.rat n)) (natStr n) := by
  refine ⟨.int (natStr n), .integer (w := []) spaces_none (natStr_digits n), ?_, natStr_noZero n, fun c hc => alnum_ascii ?_⟩
  · refine tot_bind (tot_lift rfl) ?_
    rw [natStr_val]; exact tot_pure _
  · simp [isAlnumC, (natStr_digits n).2 c hc]

theorem int (hc : cfg.Ok) (n : ℤ) : Rd cfg conv .signed (.num (.rat n)) (Printer.intText n) := by
  unfold Printer.intText
  split
  · rename_i h
    refine (Rd.nat n.natAbs).lift (c' := .factor) (by simp [Cat.rank]) |>.neg hc (EM.num _) (EM.num _) ?_
    rw [poly_ratE, poly_ratE, ← map_neg]
    congr 1
    have : (n.natAbs : ℤ) = - n := by omega
    have : ((n.natAbs : ℤ) : ℚ) = - (n : ℚ) := by exact_mod_cast this
    rw [Int.cast_natCast] at this
    rw [this, neg_neg]
  · rename_i h
    have : (n.natAbs : ℤ) = n := by omega
    have h2 : (n : ℚ) = (n.natAbs : ℚ) := by rw [← Int.cast_natCast, this]
    rw [h2]
    exact (Rd.nat n.natAbs).lift (by simp [Cat.rank])

theorem frac (hc : cfg.Ok) {n : ℤ} {d : ℕ} (hd : d ≠ 0) (hok : NumOk cfg.maxPrime ((d : ℤ) : ℚ)) :
    Rd cfg conv .summand (.num (.rat (n / d : ℚ))) (Printer.intText n ++ '/' :: natStr d) := by
  obtain ⟨t, h1, h2, h3, h4⟩ := (Rd.int (conv := conv) hc n).lift (c' := .summand) (by simp [Cat.rank])
  obtain ⟨t', h1', h2', h3', h4'⟩ := (Rd.nat (cfg := cfg) (conv := conv) d).lift (c' := .signed) (by simp [Cat.rank])
  refine ⟨.div t t', ?_, tot_bind h2 (tot_bind h2' ?_), ⟨h3, h3'⟩, ?_⟩
  · have := Parses.over h1 spaces_none h1'
    simpa using this
  · have h5 := tot_oneOver_num (D := D) hc (d := d) (by exact_mod_cast hd) hok
    have h6 := tot_prod_nums (D := D) hc n ((d : ℤ) : ℚ)⁻¹
    rw [div_eq_mul_inv]
    exact tot_bind h5 h6
  · exact h4.append (.cons (by decide) h4')

theorem symbol {n : Name} (h : n.Legal) (hP : n.Plain) : Rd cfg conv .operand (.sym ⟨.named n, false⟩) n.concat := by
  refine ⟨.sym n, ?_, tot_pure _, hP, (concat_text conv h).2⟩
  obtain ⟨v, sub, sup⟩ := n
  obtain ⟨h1, h2, rfl⟩ := h
  match sub with
  | [] =>
    have := Parses.symbol (conv := conv) (w := []) spaces_none h1
    simpa [Name.concat, Name.braces] using this
  | [c] =>
    have := Parses.symbolSub (conv := conv) (w := []) spaces_none h1 (h2 c (by simp))
    simpa [Name.concat, Name.braces] using this
  | c :: d :: r =>
    have := Parses.symbolBraces (conv := conv) (w := []) spaces_none h1 (u := c :: d :: r) (by simp) h2
    simpa [Name.concat, Name.braces] using this

theorem pow {n : Name} (h : n.Legal) (hP : n.Plain) {k : ℕ} (hk : 2 ≤ k) :
    Rd cfg conv .factor (symFac (⟨.named n, false⟩, k)) (n.concat ++ '^' :: natStr k) := by
  obtain ⟨t, h1, h2, h3, h4⟩ := Rd.symbol (cfg := cfg) (conv := conv) h hP
  obtain ⟨t', h1', h2', h3', h4'⟩ := (Rd.nat (cfg := cfg) (conv := conv) k).lift (c' := .factor) (by simp [Cat.rank])
  refine ⟨.pow t t', ?_, tot_bind h2 (tot_bind h2' ?_), ⟨h3, h3'⟩, ?_⟩
  · have := Parses.power h1 spaces_none h1'
    simpa using this
  · have := tot_powSym (cfg := cfg) (D := D) ⟨.named n, false⟩ k
    unfold symPow at this
    rw [if_neg (by omega)] at this
    refine tot_pow ?_
    simpa [Expr.int] using this
  · exact h4.append (.cons (by decide) h4')

end Rd

/-! ## The printer -/

/-- A symbol whose text is read as the symbol. -/
def PSym (s : Sym) : Prop := ∃ n, s = ⟨.named n, false⟩ ∧ n.Legal ∧ n.Plain

/-- A coefficient whose text is read as the number. -/
def DOk (max : ℤ) (q : ℚ) : Prop := max < 324 ∨ FourFree q.den

namespace Printer

variable {o : Opt D}

/-- The text of an expression. -/
def TP (cfg : Cfg D) (o : Opt D) (e : Expr D) (s : Str) : Prop := ∀ j, Tot cfg (fun E => toplevel o E (E.steps - j) e) s

theorem eng_steps (n : ℕ) : (eng cfg n).steps = n := by
  induction n with
  | zero => rfl
  | succ n ih => show (eng cfg n).steps + 1 = n + 1; rw [ih]

theorem TP.of_step {e : Expr D} {s : Str} (h : ∀ j, Tot cfg (fun E => step o E (toplevel o E (E.steps - j)) e) s) : TP cfg o e s := by
  intro j
  obtain ⟨N, hN⟩ := h (j + 1)
  refine ⟨max N (j + 1), fun n hn => ?_⟩
  rw [← hN n (by omega)]
  have : (eng cfg n).steps - j = ((eng cfg n).steps - (j + 1)) + 1 := by rw [eng_steps]; omega
  simp only [this]
  rfl

/-- The expression has a text, which is read as the expression. -/
def PT (cfg : Cfg D) (conv : Str → Option D) (o : Opt D) (e : Expr D) : Prop := ∃ s, TP cfg o e s ∧ Rd cfg conv (cat o e) e s

theorem tot_need {c : Cat} {e : Expr D} (h : (cat o e).rank ≤ c.rank) : Tot cfg (fun _ => need o c e) () := by
  unfold need
  have : decide (c.rank < (cat o e).rank) = false := by simpa using h
  rw [this]
  exact ⟨0, fun _ _ => rfl⟩

theorem pt_num (hc : cfg.Ok) {q : ℚ} (hq : DOk cfg.maxPrime q) : PT cfg conv o (.num (.rat q)) := by
  refine ⟨_, TP.of_step fun j => tot_pure _, ?_⟩
  simp only [cat]
  by_cases hd : q.den = 1
  · have e1 : q = (q.num : ℚ) := by rw [Rat.coe_int_num_of_den_eq_one hd]
    rw [if_pos hd, if_pos hd]
    split
    · have := Rd.int (conv := conv) hc q.num
      rwa [← e1] at this
    · rename_i hn
      have h0 : ¬ q.num < 0 := by rwa [Rat.num_neg]
      unfold intText
      rw [if_neg h0]
      have := Rd.nat (cfg := cfg) (conv := conv) q.num.natAbs
      have h2 : (q.num.natAbs : ℤ) = q.num := by omega
      have h3 : q = (q.num.natAbs : ℚ) := by rw [← Int.cast_natCast, h2]; exact e1
      rwa [← h3] at this
  · rw [if_neg hd, if_neg hd]
    have h1 : NumOk cfg.maxPrime ((q.den : ℤ) : ℚ) := by
      rcases hq with h | h
      · exact .inl h
      · refine .inr ⟨by simpa using h, fun p hp hd => ?_⟩
        simp only [Rat.den_intCast] at hd
        have := Nat.le_of_dvd (by omega) hd
        have := hp.two_le
        have : 2 ^ 4 ≤ p ^ 4 := Nat.pow_le_pow_left this 4
        omega
    have := Rd.frac (conv := conv) hc (n := q.num) q.den_ne_zero h1
    rwa [Rat.num_div_den] at this

theorem int_not_half (k : ℕ) : (Expr.int (k : ℤ) : Expr D).isEqual .half = false := by
  simp only [Expr.int, Expr.half, isEqual]
  rw [Bool.eq_false_iff]
  intro h
  have := (Number.eqv_iff _ _).1 h
  simp only [Number.val_rat] at this
  push_cast at this
  have h2 : (k : ℝ) * 2 = 1 := by rw [this]; norm_num
  have h3 : k * 2 = 1 := by exact_mod_cast h2
  omega

theorem int_not_neg (k : ℕ) : isNegativeNumeric (Expr.int (k : ℤ) : Expr D) = false := by
  unfold isNegativeNumeric Expr.int
  rw [Bool.eq_false_iff]
  intro h
  have := (Number.lt_iff _ _).1 h
  simp at this
  have h2 : (0 : ℝ) ≤ k := Nat.cast_nonneg k
  linarith

theorem cat_symFac {x : Sym × ℕ} : (cat o (symFac x : Expr D)).rank ≤ Cat.rank .factor := by
  unfold symFac fac
  split
  · simp [cat, Cat.rank]
  · simp [cat, int_not_half, int_not_neg, Cat.rank]

theorem prec_symFac {x : Sym × ℕ} : ¬ precedence (symFac x : Expr D) < 2 := by
  unfold symFac fac
  split <;> simp [precedence]

theorem pt_symFac (ho : o.unicode = false) {x : Sym × ℕ} (hs : PSym x.1) (hk : 1 ≤ x.2) : PT cfg conv o (symFac x) := by
  obtain ⟨s, k⟩ := x
  obtain ⟨n, rfl, h1, h2⟩ := hs
  simp only at hk
  have hsym : TP cfg o (.sym ⟨.named n, false⟩) n.concat := by
    refine TP.of_step fun j => ?_
    simp only [step, symbolText, ho]
    exact tot_pure _
  by_cases h : k = 1
  · subst h
    exact ⟨_, hsym, Rd.symbol h1 h2⟩
  · have he : (symFac (⟨.named n, false⟩, k) : Expr D) = .pow (.sym ⟨.named n, false⟩) (.int k) := by simp [symFac, fac, h]
    have hcat : cat o (.pow (.sym ⟨.named n, false⟩) (.int k)) = .factor := by simp [cat, int_not_half, int_not_neg]
    have hint : TP cfg o (.int k) (natStr k) := by
      refine TP.of_step fun j => ?_
      have : number o (.rat ((k : ℤ) : ℚ)) = (pure (natStr k) : M D Str) := by
        have : ¬ (k : ℤ) < 0 := by omega
        simp [number, intText, this]
      simp only [step, Expr.int, this]
      exact tot_pure _
    refine ⟨n.concat ++ '^' :: natStr k, ?_, ?_⟩
    · rw [he]
      refine TP.of_step fun j => ?_
      have ho1 : (Expr.int (k : ℤ) : Expr D).isOne = false := by
        simp only [Expr.int, isOne_ratE]
        rw [decide_eq_false_iff_not]
        intro e
        have : k = 1 := by exact_mod_cast e
        exact h this
      have hsc : isScalarExp (Expr.int (k : ℤ) : Expr D) = true := by
        have : (Number.rat ((k : ℤ) : ℚ) : Number D).isInt = true := by simp [Number.isInt, Number.isRational, Number.denominator]
        have h2 : Number.lt 0 (Number.rat ((k : ℤ) : ℚ) : Number D) = true := by
          rw [Number.lt_iff]
          simp
          omega
        simp only [isScalarExp, Expr.int, this, h2, Bool.and_self]
      simp only [step, power, int_not_half, int_not_neg, Bool.false_and, Bool.false_eq_true, if_false, powerBase, powerExponent, ho1, hsc,
        if_true, isScalarBase, isSymbol, Bool.true_or]
      refine tot_bind (tot_bind (tot_pure true) (tot_bind (hsym j) ?_)) (tot_bind (a := '^' :: natStr k) (tot_bind (hint j) (tot_pure _)) (tot_pure _))
      simp only [if_true]
      exact tot_bind (tot_need (by simp [cat, Cat.rank])) (tot_pure _)
    · rw [he, hcat, ← he]
      exact Rd.pow h1 h2 (by omega)

/-- The loop for factors. -/
theorem tot_factors (hc : cfg.Ok) (ho : o.unicode = false) {K : Key} (hK : K.Ok) (hs : ∀ x ∈ K, PSym x.1) :
    ∃ t, (∀ j, Tot cfg (fun E => factors o (toplevel o E (E.steps - j)) (K.map symFac)) t) ∧
      ∀ (x z : Expr D) (s : Str), EM x → Rd cfg conv .summand x s → EM z → poly z = poly x * ((K.map symFac).map (poly (D := D))).prod →
        Rd cfg conv .summand z (s ++ t) := by
  induction K with
  | nil =>
    refine ⟨[], fun j => tot_pure _, fun x z s hx hr hz hp => ?_⟩
    have : z = x := hz.1.unique hx.1 (by simpa using hp)
    subst this
    simpa using hr
  | cons y K ih =>
    obtain ⟨t, h1, h2⟩ := ih (fun x hx => hK x (by simp [hx])) fun x hx => hs x (by simp [hx])
    have hy := hK y (by simp)
    obtain ⟨u, u1, u2⟩ := pt_symFac (cfg := cfg) (conv := conv) ho (hs y (by simp)) hy.2
    refine ⟨'*' :: u ++ t, fun j => ?_, fun x z s hx hr hz hp => ?_⟩
    · simp only [List.map_cons, factors, factor, prec_symFac, if_false]
      exact tot_bind (tot_bind (u1 j) (tot_bind (tot_need (cat_symFac.trans (by simp [Cat.rank]))) (tot_pure _)))
        (tot_bind (h1 j) (tot_pure _))
    · obtain ⟨r, r1, r2, r3⟩ := tot_prod_em hc (cfg := cfg) (A := [x, symFac y]) (by simp) (by simpa using ⟨hx, EM.symFac hy⟩)
      have h3 : poly r = poly x * poly (symFac y : Expr D) := by rw [r3]; simp
      have h4 : Rd cfg conv .summand r (s ++ '*' :: u) :=
        hr.mul hc (u2.lift (cat_symFac.trans (by simp [Cat.rank]))) hx (EM.symFac hy) r2 h3
      have := h2 r z _ r2 h4 hz (by rw [hp, h3]; simp [mul_assoc])
      simpa using this

theorem symFac_exp (x : Sym × ℕ) : isNegativeNumeric (symFac x : Expr D).exp = false := by
  unfold symFac fac
  split
  · have := int_not_neg (D := D) 1
    simpa [Expr.exp, Expr.one, Expr.int] using this
  · exact int_not_neg _

theorem tot_fracLoop {l : List (Expr D)} (h : ∀ f ∈ l, isNegativeNumeric f.exp = false) : Tot cfg (fun E => fracLoop E l) (l, []) := by
  induction l with
  | nil => exact tot_pure _
  | cons f l ih =>
    simp only [fracLoop, h f (by simp), Bool.false_eq_true, if_false]
    exact tot_bind (ih fun g hg => h g (by simp [hg])) (tot_pure _)

theorem tot_product {l : List (Expr D)} (h : ∀ f ∈ l, isNegativeNumeric f.exp = false) (hl : 2 ≤ l.length) {s : Str} {j : ℕ}
    (hp : Tot cfg (fun E => productPlain o E (toplevel o E (E.steps - j)) l) s) :
    Tot cfg (fun E => product o E (toplevel o E (E.steps - j)) l) s := by
  unfold product
  split
  · have h1 : Tot cfg (fun E => productFrac E l) (l, []) := by
      refine tot_bind (tot_fracLoop h) ?_
      match l, hl with
      | f :: g :: l, _ =>
        cases f <;> exact tot_pure _
    refine tot_bind h1 (tot_bind (a := s) ?_ (tot_bind (a := []) (tot_pure _) ?_))
    · match l, hl with
      | f :: g :: l, _ => exact hp
    · rw [List.append_nil]; exact tot_pure _
  · exact hp

theorem rl_exp (q : ℚ) (K : Key) : ∀ f ∈ (rl q K.facs : List (Expr D)), isNegativeNumeric f.exp = false := by
  intro f hf
  unfold rl at hf
  rw [Key.facs_map] at hf
  rcases List.mem_append.1 hf with hf | hf
  · split at hf
    · cases hf
    · rw [List.mem_singleton.1 hf]
      have := int_not_neg (D := D) 1
      simpa [Expr.exp, Expr.one, Expr.int] using this
  · obtain ⟨x, _, rfl⟩ := List.mem_map.1 hf
    exact symFac_exp x

theorem symFac_em (x : Sym × ℕ) : (symFac x : Expr D) = em (1, Key.facs [x]) := by
  simp [em, mexpr, rl_one, Key.facs, prodOf, symFac]

theorem isKey_one {x : Sym × ℕ} (hx : x.1.id.Ok ∧ 1 ≤ x.2) : IsKey (Key.facs [x] : List (Expr D × ℕ)) [x] :=
  ⟨by simpa [Key.Ok] using hx, by simp [Key.Sorted], rfl⟩

theorem tot_minus_symFac (hc : cfg.Ok) {x : Sym × ℕ} (hx : x.1.id.Ok ∧ 1 ≤ x.2) :
    Tot cfg (fun E => E.minus (symFac x)) (em (-1, Key.facs [x]) : Expr D) := by
  refine tot_minus_em hc (EM.symFac hx) (EM.mono (m := (-1, Key.facs [x])) (K := [x]) (by norm_num) (isKey_one hx)) ?_
  rw [symFac_em]
  exact em_neg (m := (1, Key.facs [x])) (isKey_one hx)

theorem symFac_isOne {x : Sym × ℕ} : (symFac x : Expr D).isOne = false := by
  unfold symFac fac; split <;> rfl

/-- The text of a monomial. -/
theorem pt_em (hc : cfg.Ok) (ho : o.unicode = false) {m : Mono D} {K : Key} (hm : m.1 ≠ 0) (hk : IsKey m.2 K) (hq : DOk cfg.maxPrime m.1)
    (hs : ∀ x ∈ K, PSym x.1) : PT cfg conv o (em m) := by
  obtain ⟨q, P⟩ := m
  simp only at hm hk hq
  have hEM : EM (em (q, P) : Expr D) := EM.mono (m := (q, P)) hm hk
  have hpoly : poly (em (q, P) : Expr D) = MvPolynomial.C q * ((K.map symFac).map (poly (D := D))).prod := by
    rw [hk.poly (m := (q, P)), ← Key.facs_map, ← polyProd_eq, polyProd_facs hk.1.pfacs (cfg := cfg), Key.pv_poly, MvPolynomial.C_mul_monomial, mul_one]
  obtain ⟨hK1, hK2, rfl⟩ := hk
  rcases mexpr_cases q (K.facs : List (Expr D × ℕ)) with ⟨h0, e⟩ | ⟨f, h1, rfl, e⟩ | ⟨h1, h2, e⟩
  · unfold em; rw [e]; exact pt_num hc hq
  · obtain ⟨x, rfl, rfl⟩ := facs_single h1
    unfold em; rw [e]; exact pt_symFac ho (hs x (by simp)) (hK1 x (by simp)).2
  · have hcat : cat o (em (q, K.facs) : Expr D) = .summand := by
      unfold em; rw [e]
      simp only [cat]
      rw [if_pos]
      simp
      right; omega
    suffices h : ∃ s, (∀ j, Tot cfg (fun E => productPlain o E (toplevel o E (E.steps - j)) (rl q K.facs)) s) ∧ Rd cfg conv .summand (em (q, K.facs)) s by
      obtain ⟨s, s1, s2⟩ := h
      refine ⟨s, ?_, by rw [hcat]; exact s2⟩
      unfold em; rw [e]
      exact TP.of_step fun j => tot_product (rl_exp q K) h2 (s1 j)
    by_cases hq1 : q = 1
    · subst hq1
      rw [rl_one, Key.facs_map]
      match K, hK1, hK2, hs, hEM, hpoly, h2 with
      | [x], _, _, _, _, _, h2 => rw [rl_one] at h2; simp [Key.facs] at h2
      | x :: y :: K, hK1, hK2, hs, hEM, hpoly, _ =>
        have hx := hK1 x (by simp)
        obtain ⟨u, u1, u2⟩ := pt_symFac (cfg := cfg) (conv := conv) ho (hs x (by simp)) hx.2
        obtain ⟨t, t1, t2⟩ := tot_factors (conv := conv) hc ho (K := y :: K) (fun z hz => hK1 z (by simp only [List.mem_cons] at hz ⊢; tauto)) fun z hz => hs z (by simp only [List.mem_cons] at hz ⊢; tauto)
        refine ⟨u ++ t, fun j => ?_, t2 _ _ _ (EM.symFac hx) (u2.lift (cat_symFac.trans (by simp [Cat.rank]))) hEM ?_⟩
        · simp only [List.map_cons, productPlain]
          refine tot_bind (tot_minus_symFac hc hx) ?_
          have h3 : (em (-1, Key.facs [x]) : Expr D).isOne = false := mexpr_isOne (cfg := cfg) (isKey_one hx).pfacs (by simp [Key.facs])
          simp only [h3, symFac_isOne, Bool.false_eq_true, if_false, factor, prec_symFac]
          exact tot_bind (tot_bind (u1 j) (tot_bind (tot_need (cat_symFac.trans (by simp [Cat.rank]))) (tot_pure _)))
            (tot_bind (t1 j) (tot_pure _))
        · rw [hpoly]; simp
    · rw [rl_ne hq1, Key.facs_map]
      match K, hK1, hK2, hs, hEM, hpoly, h1 with
      | [], _, _, _, _, _, h1 => exact absurd rfl h1
      | y :: K, hK1, hK2, hs, hEM, hpoly, _ =>
        have hy := hK1 y (by simp)
        have hneg : Tot cfg (fun E => E.minus (.num (.rat q))) (.num (.rat (-q)) : Expr D) :=
          tot_minus_em hc (EM.num _) (EM.num _) (by rw [poly_ratE, poly_ratE, map_neg])
        by_cases hqm : q = -1
        · subst hqm
          obtain ⟨u, u1, u2⟩ := pt_symFac (cfg := cfg) (conv := conv) ho (hs y (by simp)) hy.2
          obtain ⟨t, t1, t2⟩ := tot_factors (conv := conv) hc ho (K := K) (fun z hz => hK1 z (by simp [hz])) fun z hz => hs z (by simp [hz])
          have hEy : EM (em (-1, Key.facs [y]) : Expr D) := EM.mono (m := (-1, Key.facs [y])) (K := [y]) (by norm_num) (isKey_one hy)
          have hpy : poly (em (-1, Key.facs [y]) : Expr D) = - poly (symFac y : Expr D) := by
            rw [symFac_em]; exact em_neg (m := (1, Key.facs [y])) (isKey_one hy)
          have hn := ((u2.lift (c' := .factor) cat_symFac).neg hc (EM.symFac hy) hEy hpy).lift (c' := .summand) (by simp [Cat.rank])
          refine ⟨'-' :: u ++ t, fun j => ?_, t2 _ _ _ hEy hn hEM ?_⟩
          · simp only [List.map_cons, productPlain]
            refine tot_bind hneg ?_
            have h3 : (.num (.rat (- -1)) : Expr D).isOne = true := by rw [isOne_ratE]; norm_num
            simp only [h3, if_true, factor, prec_symFac, if_false]
            exact tot_bind (tot_bind (u1 j) (tot_bind (tot_need cat_symFac) (tot_pure _))) (tot_bind (t1 j) (tot_pure _))
          · rw [hpoly, hpy]; simp
        · obtain ⟨u, u1, u2⟩ := pt_num (conv := conv) (o := o) hc hq
          obtain ⟨t, t1, t2⟩ := tot_factors (conv := conv) hc ho (K := y :: K) hK1 hs
          have hr : (cat o (.num (.rat q) : Expr D)).rank ≤ Cat.rank .summand := by
            simp only [cat]
            split
            · split <;> simp [Cat.rank]
            · simp [Cat.rank]
          refine ⟨u ++ t, fun j => ?_, t2 _ _ _ (EM.num q) (u2.lift hr) hEM ?_⟩
          · simp only [List.map_cons, productPlain]
            refine tot_bind hneg ?_
            have h3 : (.num (.rat (-q)) : Expr D).isOne = false := by
              rw [isOne_ratE, decide_eq_false_iff_not]
              intro e; exact hqm (by rw [← neg_neg q, e])
            have h4 : (.num (.rat q) : Expr D).isOne = false := by rw [isOne_ratE, decide_eq_false_iff_not]; exact hq1
            have h5 : ¬ precedence (.num (.rat q) : Expr D) < 2 := by simp [precedence]
            simp only [h3, h4, h5, Bool.false_eq_true, if_false, factor]
            exact tot_bind (tot_bind (u1 j) (tot_bind (tot_need hr) (tot_pure _))) (tot_bind (t1 j) (tot_pure _))
          · rw [hpoly, poly_ratE]

theorem cat_em {m : Mono D} {K : Key} (hk : IsKey m.2 K) : (cat o (em m : Expr D)).rank ≤ Cat.rank .summand := by
  obtain ⟨q, P⟩ := m
  obtain ⟨hK1, hK2, h⟩ := hk
  simp only at h
  subst h
  unfold em
  rcases mexpr_cases q (K.facs : List (Expr D × ℕ)) with ⟨h0, e⟩ | ⟨f, h1, rfl, e⟩ | ⟨h1, h2, e⟩
  · rw [e]
    simp only [cat]
    split
    · split <;> simp [Cat.rank]
    · simp [Cat.rank]
  · obtain ⟨x, rfl, rfl⟩ := facs_single h1
    rw [e]
    exact cat_symFac.trans (by simp [Cat.rank])
  · rw [e]
    simp only [cat]
    rw [if_pos]
    simp
    right; omega

theorem dOk_neg {max : ℤ} {q : ℚ} (h : DOk max q) : DOk max (-q) := by
  unfold DOk at h ⊢
  rwa [Rat.neg_den]

/-- What is needed of the monomials. -/
structure MOk (max : ℤ) (m : Mono D) : Prop where
  ne : m.1 ≠ 0
  coeff : DOk max m.1
  key : ∃ K, IsKey m.2 K ∧ ∀ x ∈ K, PSym x.1

theorem MOk.pt (hc : cfg.Ok) (ho : o.unicode = false) {m : Mono D} (h : MOk cfg.maxPrime m) : PT cfg conv o (em m) := by
  obtain ⟨K, h1, h2⟩ := h.key
  exact pt_em hc ho h.ne h1 h.coeff h2

theorem MOk.em {max : ℤ} {m : Mono D} (h : MOk max m) : EM (em m) := by
  obtain ⟨K, h1, h2⟩ := h.key
  exact EM.mono h.ne h1

theorem MOk.neg {max : ℤ} {m : Mono D} (h : MOk max m) : MOk max ((-m.1, m.2) : Mono D) :=
  ⟨neg_ne_zero.2 h.ne, dOk_neg h.coeff, h.key⟩

theorem MOk.poly_neg {max : ℤ} {m : Mono D} (h : MOk max m) : poly (Tsym.em (-m.1, m.2)) = - poly (Tsym.em m) := by
  obtain ⟨K, h1, h2⟩ := h.key
  exact em_neg h1

theorem MOk.cat {max : ℤ} {m : Mono D} (h : MOk max m) : (cat o (Tsym.em m : Expr D)).rank ≤ Cat.rank .summand := by
  obtain ⟨K, h1, h2⟩ := h.key
  exact cat_em h1

/-- The loop for summands. -/
theorem tot_sumLoop (hc : cfg.Ok) (ho : o.unicode = false) {L : List (Mono D)} (hL : ∀ m ∈ L, MOk cfg.maxPrime m) :
    ∃ t, (∀ j, Tot cfg (fun E => sumLoop o E (toplevel o E (E.steps - j)) (L.map em)) t) ∧
      ∀ (x z : Expr D) (s : Str), EP x → Rd cfg conv .expression x s → EP z → poly z = poly x + ((L.map em).map (poly (D := D))).sum →
        Rd cfg conv .expression z (s ++ t) := by
  induction L with
  | nil =>
    refine ⟨[], fun j => tot_pure _, fun x z s hx hr hz hp => ?_⟩
    have : z = x := hz.unique hx (by simpa using hp)
    subst this
    simpa using hr
  | cons m L ih =>
    obtain ⟨t, h1, h2⟩ := ih fun x hx => hL x (by simp [hx])
    have hm := hL m (by simp)
    by_cases hn : isNegProduct (em m) = true
    · obtain ⟨u, u1, u2⟩ := hm.neg.pt (conv := conv) (o := o) hc ho
      refine ⟨' ' :: '-' :: ' ' :: u ++ t, fun j => ?_, fun x z s hx hr hz hp => ?_⟩
      · simp only [List.map_cons, sumLoop, hn, if_true]
        exact tot_bind (tot_minus_em hc hm.em hm.neg.em hm.poly_neg) (tot_bind (tot_need hm.neg.cat) (tot_bind (u1 j) (tot_bind (h1 j) (tot_pure _))))
      · obtain ⟨r, r1, r2, r3⟩ := tot_sum_ep hc (cfg := cfg) (es := [x, em m]) (by simp) (by simpa using ⟨hx, hm.em.1⟩)
        have h3 : poly r = poly x + poly (em m) := by rw [r3]; simp
        have h4 : Rd cfg conv .expression r (s ++ (' ' :: '-' :: ' ' :: u)) :=
          hr.sub hc (u2.lift hm.neg.cat) hx hm.neg.em hm.em (by rw [hm.poly_neg, neg_neg]) r2 (by rw [h3, hm.poly_neg, sub_neg_eq_add])
        have := h2 r z _ r2 h4 hz (by rw [hp, h3]; simp [add_assoc])
        simpa using this
    · obtain ⟨u, u1, u2⟩ := hm.pt (conv := conv) (o := o) hc ho
      refine ⟨' ' :: '+' :: ' ' :: u ++ t, fun j => ?_, fun x z s hx hr hz hp => ?_⟩
      · simp only [List.map_cons, sumLoop, hn, if_false]
        exact tot_bind (tot_need hm.cat) (tot_bind (u1 j) (tot_bind (h1 j) (tot_pure _)))
      · obtain ⟨r, r1, r2, r3⟩ := tot_sum_ep hc (cfg := cfg) (es := [x, em m]) (by simp) (by simpa using ⟨hx, hm.em.1⟩)
        have h3 : poly r = poly x + poly (em m) := by rw [r3]; simp
        have h4 : Rd cfg conv .expression r (s ++ (' ' :: '+' :: ' ' :: u)) := hr.add hc (u2.lift hm.cat) hx hm.em.1 r2 h3
        have := h2 r z _ r2 h4 hz (by rw [hp, h3]; simp [add_assoc])
        simpa using this

theorem mOk_of_poly {L : List (Mono D)} (hL : EL L) {max : ℤ} (hv : ∀ s ∈ (psum L).vars, PSym s) (hq : ∀ f, (psum L).coeff f ≠ 0 → DOk max ((psum L).coeff f)) :
    ∀ m ∈ L, MOk max m := by
  intro m hm
  obtain ⟨K, hK⟩ := hL.ks.key m hm
  obtain ⟨h1, h2⟩ := (hL.coeff hK).1 hm
  refine ⟨h2, ?_, K, hK, fun x hx => hv _ ?_⟩
  · have := hq K.fs (by rw [h1]; exact h2)
    rwa [h1] at this
  · rw [MvPolynomial.mem_vars_iff_mem_support]
    refine ⟨K.fs, by rw [MvPolynomial.mem_support_iff, h1]; exact h2, ?_⟩
    rw [Finsupp.mem_support_iff, Key.fs_count]
    have := (hK.2.1.count hK.1 x).1 hx
    have h3 := (hK.1 x hx).2
    omega

/-- The text of an expanded polynomial. -/
theorem pt_ep (hc : cfg.Ok) (ho : o.unicode = false) {e : Expr D} (he : EP e) (hv : ∀ s ∈ (poly e).vars, PSym s)
    (hq : ∀ f, (poly e).coeff f ≠ 0 → DOk cfg.maxPrime ((poly e).coeff f)) : PT cfg conv o e := by
  obtain ⟨L, hL, rfl⟩ := he
  rw [sumOf_poly] at hv hq
  have hm := mOk_of_poly hL hv hq
  match L, hL, hm with
  | [], _, _ =>
    have : (sumOf (([] : List (Mono D)).map Tsym.em)) = .num (.rat 0) := zero_eq
    rw [this]
    refine pt_num hc (.inr fun p hp hd => ?_)
    have := Nat.le_of_dvd (by simp) hd
    have h2 := hp.two_le
    have h3 : 2 ^ 4 ≤ p ^ 4 := Nat.pow_le_pow_left h2 4
    simp at this
    omega
  | [m], _, hm => exact (hm m (by simp)).pt hc ho
  | m :: n :: L, hL, hm =>
    have h0 := hm m (by simp)
    obtain ⟨u, u1, u2⟩ := h0.pt (conv := conv) (o := o) hc ho
    obtain ⟨t, t1, t2⟩ := tot_sumLoop (conv := conv) (o := o) hc ho (L := n :: L) fun x hx => hm x (by simp only [List.mem_cons] at hx ⊢; tauto)
    refine ⟨u ++ t, TP.of_step fun j => tot_bind (u1 j) (tot_bind (t1 j) (tot_pure _)), ?_⟩
    refine t2 _ _ _ h0.em.1 (u2.lift (h0.cat.trans (by simp [Cat.rank]))) ⟨_, hL, rfl⟩ ?_
    rw [sumOf_poly, psum_cons, List.map_map]
    rfl

end Printer

end Tsym
