import Verif.PolyPrint
import Verif.PrintMono
import Verif.Props.Printer
import Verif.Props.NormalPoly

set_option autoImplicit false
set_option linter.unusedSectionVars false

/-!
# C68: the text of an expanded polynomial is read as the same polynomial

C36 says that a text has the value of the expression when all goes well. For expanded polynomials all goes well: a text
always exists, and the parser makes the very same expression of it.
-/

namespace Tsym

open Expr

/-! ## Specification -/

/-- A call always ends with this result, at every sufficient depth of the recursion, and never with another one. No
conditions are recorded. -/
def Yields {D : Type} [Flt D] {α : Type} (cfg : Cfg D) (f : Eng D → M D α) (a : α) : Prop :=
  (∃ N, ∀ n, N ≤ n → f (eng cfg n) = .ok (a, [])) ∧ ∀ n, f (eng cfg n) = .error .fuel ∨ f (eng cfg n) = .ok (a, [])

/-- A symbol that the parser can make: it has a name of the documented form, not beginning with "pi" or "euler" (C33), and
it is not marked as positive. -/
def Readable (s : Sym) : Prop := ∃ n, s = ⟨.named n, false⟩ ∧ n.Legal ∧ n.Plain

/-! ## Proofs -/

section

variable {D : Type} [Flt D] [LawfulFlt D] {cfg : Cfg D} {conv : Str → Option D}

theorem Tot.yields {α : Type} {f : Eng D → M D α} {a : α} (h : Tot cfg f a) (hm : Lean.Order.monotone f) : Yields cfg f a := by
  refine ⟨h, fun n => ?_⟩
  obtain ⟨N, hN⟩ := h
  have h1 := hm _ _ (eng_le cfg (Nat.le_max_left n N))
  rw [hN _ (Nat.le_max_right n N)] at h1
  exact h1

theorem Yields.unique {α : Type} {f : Eng D → M D α} {a b : α} (h : Yields cfg f a) (h' : Yields cfg f b) : a = b := by
  obtain ⟨N, hN⟩ := h.1
  obtain ⟨N', hN'⟩ := h'.1
  have h1 := (hN (max N N') (Nat.le_max_left _ _)).symm.trans (hN' _ (Nat.le_max_right _ _))
  injection h1 with h1
  exact (Prod.ext_iff.1 h1).1

open Lean.Order in
theorem PFct.call_mono (f : PFct) (x : Expr D) : monotone fun E : Eng D => f.call E x := by
  cases f <;> simp only [PFct.call] <;> repeat' monotonicity

open Lean.Order in
theorem Tree.eval_mono (read : Str → Except Err ℕ) (t : Tree D) : monotone fun E : Eng D => t.eval E read := by
  induction t with
  | pi | e | sym | dbl | int => simp only [Tree.eval]; repeat' monotonicity
  | fn f a ih =>
    simp only [Tree.eval]
    exact monotone_bind (m := M D) _ _ ih (monotone_of_monotone_apply _ fun x => f.call_mono x)
  | neg a ih =>
    simp only [Tree.eval]
    refine monotone_bind (m := M D) _ _ ih (monotone_of_monotone_apply _ fun x => ?_)
    repeat' monotonicity
  | atan2 a b ih1 ih2 | pow a b ih1 ih2 | mul a b ih1 ih2 | div a b ih1 ih2 | add a b ih1 ih2 | sub a b ih1 ih2 =>
    simp only [Tree.eval]
    refine monotone_bind (m := M D) _ _ ih1 (monotone_of_monotone_apply _ fun x => ?_)
    refine monotone_bind (m := M D) _ _ ih2 (monotone_of_monotone_apply _ fun y => ?_)
    repeat' monotonicity

theorem Rd.parse {c : Cat} {x : Expr D} {s : Str} (h : Rd cfg conv c x s) : Yields cfg (fun E => Api.parse E conv s) (some x) := by
  obtain ⟨t, h1, h2, h3, h4⟩ := h
  have ht : IsText conv s t := ⟨s, [], by simp, spaces_none, h1.lift (by cases c <;> simp [Cat.rank])⟩
  have e : (fun E : Eng D => Api.parse E conv s) = fun E => (do let v ← t.eval E fun s => .ok (decVal s); pure (some v)) :=
    funext fun E => C33_decimal_partial E conv h4 ht h3
  rw [e]
  refine Tot.yields (tot_bind h2 (tot_pure _)) ?_
  exact Lean.Order.monotone_bind (m := M D) _ _ (Tree.eval_mono _ t) (Lean.Order.monotone_of_monotone_apply _ fun x => Lean.Order.monotone_const _)

theorem pt_qtree (hc : cfg.Ok) {t : QTree} (ht : t.Ok cfg.maxPrime) {r : Expr D} (hr : Gives cfg (fun E => t.expanded E) r)
    (hn : ∀ s ∈ t.poly.vars, Readable s) (hd : ExactDens cfg.maxPrime t.poly) {o : Printer.Opt D} (ho : o.unicode = false) : Printer.PT cfg conv o r := by
  obtain ⟨h1, h2⟩ := QTree.ep hc ht hr
  refine Printer.pt_ep hc ho h1 (by rw [h2]; exact hn) fun f _ => ?_
  rw [h2]
  rcases hd with h | h
  · exact .inl h
  · exact .inr fun p hp => h f p hp

/-! ## C68 -/

/-- C68. An expanded polynomial whose symbols are readable is printed, whatever the text for doubles is. No parentheses are
missing, and the parser makes the same expression of the text. -/
theorem C68_roundtrip (hc : cfg.Ok) (t : QTree) (ht : t.Ok cfg.maxPrime) (r : Expr D) (hr : Gives cfg (fun E => t.expanded E) r)
    (hn : ∀ s ∈ t.poly.vars, Readable s) (hd : ExactDens cfg.maxPrime t.poly) (dbl : D → Str) (conv : Str → Option D) :
    ∃ s, Yields cfg (fun E => Api.print E false dbl r) s ∧ Yields cfg (fun E => Api.parse E conv s) (some r) := by
  obtain ⟨s, h1, h2⟩ := pt_qtree (conv := conv) hc ht hr hn hd (o := ⟨true, false, dbl⟩) rfl
  exact ⟨s, Tot.yields (h1 0) (Api.print_mono false dbl r), h2.parse⟩

/-- C68 for the debug text. -/
theorem C68_debug (hc : cfg.Ok) (t : QTree) (ht : t.Ok cfg.maxPrime) (r : Expr D) (hr : Gives cfg (fun E => t.expanded E) r)
    (hn : ∀ s ∈ t.poly.vars, Readable s) (hd : ExactDens cfg.maxPrime t.poly) (dbl : D → Str) (conv : Str → Option D) :
    ∃ s, Yields cfg (fun E => Api.printDebug E false dbl r) s ∧ Yields cfg (fun E => Api.parse E conv s) (some r) := by
  obtain ⟨s, h1, h2⟩ := pt_qtree (conv := conv) hc ht hr hn hd (o := ⟨false, false, dbl⟩) rfl
  exact ⟨s, Tot.yields (h1 0) (Api.printDebug_mono false dbl r), h2.parse⟩

/-- C68. Two such polynomials have the same text if and only if they have the same value for all values of the symbols. -/
theorem C68_same_text (hc : cfg.Ok) (t u : QTree) (ht : t.Ok cfg.maxPrime) (hu : u.Ok cfg.maxPrime) (r w : Expr D)
    (hr : Gives cfg (fun E => t.expanded E) r) (hw : Gives cfg (fun E => u.expanded E) w)
    (hn : ∀ s ∈ t.poly.vars, Readable s) (hm : ∀ s ∈ u.poly.vars, Readable s) (hd : ExactDens cfg.maxPrime t.poly)
    (he : ExactDens cfg.maxPrime u.poly) (dbl : D → Str) (a b : Str)
    (ha : Yields cfg (fun E => Api.print E false dbl r) a) (hb : Yields cfg (fun E => Api.print E false dbl w) b) :
    a = b ↔ ∀ σ : Asg, σ.Respects → t.val σ = u.val σ := by
  obtain ⟨a', a1, a2⟩ := C68_roundtrip hc t ht r hr hn hd dbl (fun _ => none)
  obtain ⟨b', b1, b2⟩ := C68_roundtrip hc u hu w hw hm he dbl (fun _ => none)
  obtain rfl := a1.unique ha
  obtain rfl := b1.unique hb
  obtain ⟨er, pr⟩ := QTree.ep hc ht hr
  have hid := C52_identity hc t u ht hu r w hr hw
  constructor
  · rintro rfl
    have : r = w := Option.some.inj (a2.unique b2)
    subst this
    exact hid.1 (isEqual_refl (isPolyE_exact _ er.polyE))
  · intro h
    obtain ⟨ew, pw⟩ := QTree.ep hc hu hw
    have h2 := hid.2 h
    have : r = w := by
      have h3 := (isEqual_eq r (isPolyE_exact _ er.polyE) w (isPolyE_exact _ ew.polyE)).1 h2
      exact h3
    subst this
    exact ha.unique hb

end

/-! ## Examples and counterexamples -/

namespace RoundTripEx

open ExprEx ParserEx PrinterEx

open PolyEx2 (sa sb)

/-- (a - b)^2 - 2/3*a*b - a^3 - 1/2 -/
def t1 : QTree := .sub (.sub (.sub (.pow (.sub (.var sa) (.var sb)) 2) (.mul (.div (.mul (.rat 2) (.var sa)) 3) (.var sb))) (.pow (.var sa) 3)) (.rat (1 / 2))

theorem t1_ok : t1.Ok 323 := by
  simp only [t1, QTree.Ok, sa, sb, SymId.Ok]
  refine ⟨⟨⟨⟨⟨?_, ?_⟩, by norm_num, by norm_num⟩, ⟨⟨trivial, ?_⟩, by norm_num, .inl (by norm_num)⟩, ?_⟩, ?_, by norm_num, by norm_num⟩, trivial⟩ <;> decide

theorem readable_letter {c : Char} (hc : isAlphaC c = true) : Readable ⟨.named (ParserEx.name c), false⟩ :=
  ⟨_, rfl, legal_letter hc, plain_letter c⟩

theorem t1_vars : ∀ s ∈ t1.poly.vars, Readable s := by
  classical
  have h : t1.poly.vars ⊆ {sa, sb} := by
    have ha : (MvPolynomial.X sa : MvPolynomial Sym ℚ).vars ⊆ {sa, sb} := by rw [MvPolynomial.vars_X]; simp
    have hb : (MvPolynomial.X sb : MvPolynomial Sym ℚ).vars ⊆ {sa, sb} := by rw [MvPolynomial.vars_X]; simp
    have hq : ∀ q : ℚ, (MvPolynomial.C q : MvPolynomial Sym ℚ).vars ⊆ {sa, sb} := fun q => by rw [MvPolynomial.vars_C]; simp
    have hs : ∀ p q : MvPolynomial Sym ℚ, p.vars ⊆ {sa, sb} → q.vars ⊆ {sa, sb} → (p - q).vars ⊆ {sa, sb} := fun p q h1 h2 =>
      (MvPolynomial.vars_sub_subset _).trans (Finset.union_subset h1 h2)
    have hm : ∀ p q : MvPolynomial Sym ℚ, p.vars ⊆ {sa, sb} → q.vars ⊆ {sa, sb} → (p * q).vars ⊆ {sa, sb} := fun p q h1 h2 =>
      (MvPolynomial.vars_mul _ _).trans (Finset.union_subset h1 h2)
    have hp : ∀ (p : MvPolynomial Sym ℚ) (k : ℕ), p.vars ⊆ {sa, sb} → (p ^ k).vars ⊆ {sa, sb} := fun p k h1 =>
      (MvPolynomial.vars_pow _ _).trans h1
    simp only [t1, QTree.poly]
    exact hs _ _ (hs _ _ (hs _ _ (hp _ _ (hs _ _ ha hb)) (hm _ _ (hm _ _ (hm _ _ (hq _) ha) (hq _)) hb)) (hp _ _ ha)) (hq _)
  intro s hs
  have := h hs
  simp only [Finset.mem_insert, Finset.mem_singleton] at this
  rcases this with rfl | rfl
  · exact readable_letter (c := 'a') (by decide)
  · exact readable_letter (c := 'b') (by decide)

/-- The expanded polynomial. -/
def r1 : Expr Hyb := sum [.num (.rat (-1 / 2)), pow a (int 2), prod [int (-1), pow a (int 3)], prod [.num (.rat (-8 / 3)), a, b], pow b (int 2)]

theorem t1_expanded : t1.expanded (eng (Cfg.std 323) 40) = .ok (r1, []) := by krfl

theorem t1_gives : Gives (Cfg.std 323) (fun E => t1.expanded E) r1 := by
  obtain ⟨r, hr, -⟩ := C52_expanded (D := Hyb) (Cfg.std_ok 323) t1 t1_ok
  have e : r = r1 := by
    have h := t1_expanded.symm.trans (hr.2 40 |>.resolve_left fun h => by cases t1_expanded.symm.trans h)
    injection h with h
    exact (Prod.ext_iff.1 h).1.symm
  rw [← e]; exact hr

/-- The hypotheses of the theorems are met, and this is the text. -/
example : ExactDens (Cfg.std 323 : Cfg Hyb).maxPrime t1.poly ∧
    Api.print (eng (Cfg.std 323) 40) false noText r1 = .ok ("-1/2 + a^2 - a^3 - 8/3*a*b + b^2".toList, []) := ⟨.inl (by decide), by krfl⟩

/-- The text is read as the polynomial, at every sufficient depth. -/
example : ∃ s, Yields (Cfg.std 323) (fun E => Api.print E false noText r1) s ∧ Yields (Cfg.std 323) (fun E => Api.parse E noDbl s) (some r1) :=
  C68_roundtrip (Cfg.std_ok 323) t1 t1_ok _ t1_gives t1_vars (.inl (by decide)) noText noDbl

/-- The condition about the denominators is needed: with the default limit the text of a/324 is read as a/36. -/
theorem C68_false_limit : Api.print (eng (Cfg.std 1000) 40) false noText (prod [.num (.rat (1 / 324)), a] : Expr Hyb) = .ok ("1/324*a".toList, []) ∧
    ∃ cs, Api.parse (eng (Cfg.std 1000) 40) noDbl "1/324*a".toList = .ok (some (prod [.num (.rat (1 / 36)), a]), cs) :=
  ⟨by krfl, M.val_some (by krfl)⟩

/-- The condition about the sign is needed: the text of a positive symbol is read as the symbol without a sign. -/
theorem C68_false_positive : Api.print (eng (Cfg.std 323) 40) false noText (.sym ⟨.named (ParserEx.name 'a'), true⟩ : Expr Hyb) = .ok (['a'], []) ∧
    Api.parse (eng (Cfg.std 323) 40) noDbl ['a'] = .ok (some (.sym ⟨.named (ParserEx.name 'a'), false⟩), []) :=
  ⟨by krfl, by krfl⟩

/-- The condition about the beginning of the name is needed: the symbol "pia" has a legal name, but its text is not accepted. -/
theorem C68_false_name : (⟨['p', 'i', 'a'], [], []⟩ : Name).Legal ∧
    Api.print (eng (Cfg.std 323) 40) false noText (.sym ⟨.named ⟨['p', 'i', 'a'], [], []⟩, false⟩ : Expr Hyb) = .ok (['p', 'i', 'a'], []) ∧
    Api.parse (eng (Cfg.std 323) 40) noDbl ['p', 'i', 'a'] = .ok ((none : Option (Expr Hyb)), []) :=
  ⟨⟨⟨⟨'p', ['i', 'a'], rfl, by decide, by decide⟩, by decide, by decide⟩, by simp, rfl⟩, by krfl, by krfl⟩

end RoundTripEx

end Tsym
