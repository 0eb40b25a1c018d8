import Verif.SurdPrint

set_option autoImplicit false
set_option linter.unusedSectionVars false
set_option linter.unusedSimpArgs false

/-!
# C94: texts of sums of square roots

The text of a sum of multiples of square roots is read as the same expression, and so two computations with square roots have the same text
exactly if they have the same value.
-/

namespace Tsym

/-! ## Specification -/

/-- The numbers before the roots whose text is read right: with a limit for primes below 324, or if no prime is four times in a denominator. -/
def Surds.ExactDens (max : ℤ) (L : List (ℚ × ℕ)) : Prop := max < 324 ∨ ∀ m ∈ L, ∀ p : ℕ, p.Prime → ¬ p ^ 4 ∣ m.1.den

/-! ## Proofs -/

namespace Surds

variable {D : Type} [Flt D] [LawfulFlt D] {cfg : Cfg D}

theorem ExactDens.dOk {max : ℤ} {L : List (ℚ × ℕ)} (h : ExactDens max L) : ∀ m ∈ L, DOk max m.1 := fun m hm => by
  rcases h with h | h
  · exact .inl h
  · exact .inr (h m hm)

theorem Int.exactDens {L : List (ℚ × ℕ)} (h : Int L) (max : ℤ) : ExactDens max L := .inr fun m hm p hp hd => by
  rw [h.int m hm, Nat.dvd_one] at hd
  have := Nat.pow_le_pow_left hp.two_le 4
  omega

end Surds

section

open Expr Surds

variable {D : Type} [Flt D] [LawfulFlt D] {cfg : Cfg D}

/-! ## C94 -/

/-- C94. A sum of multiples of square roots is printed, whatever the text for doubles is. No parentheses are missing, and the parser makes the same
expression of the text. -/
theorem C94_roundtrip (hc : cfg.Ok) (L : List (ℚ × ℕ)) (hL : Ok L) (hd : Surds.ExactDens cfg.maxPrime L) (dbl : D → Str) (conv : Str → Option D) :
    ∃ s, Yields cfg (fun E => Api.print E false dbl (expr L : Expr D)) s ∧ Yields cfg (fun E => Api.parse E conv s) (some (expr L : Expr D)) := by
  obtain ⟨s, h1, h2⟩ := Sd.pt_sum (D := D) (conv := conv) (o := ⟨true, false, dbl⟩) hc hL.sl hd.dOk
  rw [← expr_eq] at h1 h2
  exact ⟨s, Tot.yields (h1 0) (Api.print_mono false dbl _), h2.parse⟩

/-- C94 for the debug text. -/
theorem C94_debug (hc : cfg.Ok) (L : List (ℚ × ℕ)) (hL : Ok L) (hd : Surds.ExactDens cfg.maxPrime L) (dbl : D → Str) (conv : Str → Option D) :
    ∃ s, Yields cfg (fun E => Api.printDebug E false dbl (expr L : Expr D)) s ∧ Yields cfg (fun E => Api.parse E conv s) (some (expr L : Expr D)) := by
  obtain ⟨s, h1, h2⟩ := Sd.pt_sum (D := D) (conv := conv) (o := ⟨false, false, dbl⟩) hc hL.sl hd.dOk
  rw [← expr_eq] at h1 h2
  exact ⟨s, Tot.yields (h1 0) (Api.printDebug_mono false dbl _), h2.parse⟩

/-- C94. Two sums have the same text exactly if they have the same value. -/
theorem C94_same_text (hc : cfg.Ok) (L M : List (ℚ × ℕ)) (hL : Ok L) (hM : Ok M) (hd : Surds.ExactDens cfg.maxPrime L) (he : Surds.ExactDens cfg.maxPrime M)
    (dbl : D → Str) (a b : Str) (ha : Yields cfg (fun E => Api.print E false dbl (expr L : Expr D)) a)
    (hb : Yields cfg (fun E => Api.print E false dbl (expr M : Expr D)) b) : a = b ↔ value L = value M := by
  obtain ⟨a', a1, a2⟩ := C94_roundtrip (D := D) hc L hL hd dbl (fun _ => none)
  obtain ⟨b', b1, b2⟩ := C94_roundtrip (D := D) hc M hM he dbl (fun _ => none)
  obtain rfl := a1.unique ha
  obtain rfl := b1.unique hb
  rw [← (C89_equal (D := D) L M hL hM).1]
  constructor
  · rintro rfl; exact Option.some.inj (a2.unique b2)
  · intro e; rw [e] at ha; exact ha.unique hb

/-- C94. Two computations as in C92 end with texts, these are the same exactly if the values are, and the parser makes the results of them. -/
theorem C94_run (hc : cfg.Ok) (hub : cfg.strictUb = false) (P : ℕ) (hP0 : 0 < P) (hmax : ((P * P : ℕ) : ℤ) ≤ cfg.maxPrime) (t u : Surds.Tree)
    (ht : t.Below P) (hu : u.Below P) (dbl : D → Str) (conv : Str → Option D) :
    ∃ (r w : Expr D) (a b : Str), Gives cfg (fun E => t.run E) r ∧ Gives cfg (fun E => u.run E) w ∧
      Yields cfg (fun E => Api.print E false dbl r) a ∧ Yields cfg (fun E => Api.print E false dbl w) b ∧
      Yields cfg (fun E => Api.parse E conv a) (some r) ∧ Yields cfg (fun E => Api.parse E conv b) (some w) ∧ (a = b ↔ t.val = u.val) := by
  obtain ⟨R, hR, _, v, _, g⟩ := C92_run (D := D) hc hub P hP0 hmax t ht
  obtain ⟨S, hS, _, w, _, g'⟩ := C92_run (D := D) hc hub P hP0 hmax u hu
  obtain ⟨a, a1, a2⟩ := C94_roundtrip (D := D) hc R hR.ok (hR.exactDens _) dbl conv
  obtain ⟨b, b1, b2⟩ := C94_roundtrip (D := D) hc S hS.ok (hS.exactDens _) dbl conv
  exact ⟨_, _, a, b, g, g', a1, b1, a2, b2, by rw [C94_same_text hc R S hR.ok hS.ok (hR.exactDens _) (hS.exactDens _) dbl a b a1 b1, v, w]⟩

end

/-! ## Examples -/

/-- `C94_roundtrip`: -1/2 - 2*√3 - √5 + √7. -/
example : Surds.Ok [(-1 / 2, 1), (-2, 3), (-1, 5), (1, 7)] ∧ Surds.ExactDens 1000 [(-1 / 2, 1), (-2, 3), (-1, 5), (1, 7)] := by
  have h3 : Squarefree 3 := Nat.prime_three.squarefree
  have h5 : Squarefree 5 := Nat.prime_five.squarefree
  have h7 : Squarefree 7 := (by decide : Nat.Prime 7).squarefree
  refine ⟨⟨?_, ?_, ?_, ?_⟩, .inr ?_⟩
  · norm_num
  · simp [h3, h5, h7]
  · simp
  · simp
  · intro m hm p hp hd
    have h16 := Nat.pow_le_pow_left hp.two_le 4
    have hm2 : m.1.den ≤ 2 := by
      simp only [List.mem_cons, List.not_mem_nil, or_false] at hm
      rcases hm with rfl | rfl | rfl | rfl <;> decide +kernel
    have := Nat.le_of_dvd m.1.den_pos hd
    omega

example : Api.print (eng (Cfg.std 1000) 60 : Eng Hyb) false (fun _ => []) (Surds.expr [(-1 / 2, 1), (-2, 3), (-1, 5), (1, 7)]) =
    .ok ("-1/2 - 2*sqrt(3) - sqrt(5) + sqrt(7)".toList, []) := by krfl

example : Api.parse (eng (Cfg.std 1000) 60 : Eng Hyb) (fun _ => none) "-1/2 - 2*sqrt(3) - sqrt(5) + sqrt(7)".toList =
    .ok (some (Surds.expr [(-1 / 2, 1), (-2, 3), (-1, 5), (1, 7)]), []) := by krfl

/-- The condition about the denominators is needed: with the default limit the text of √5/324 is read as √5/36. -/
theorem C94_false_limit : Api.print (eng (Cfg.std 1000) 60 : Eng Hyb) false (fun _ => []) (Surds.expr [(1 / 324, 5)]) = .ok ("1/324*sqrt(5)".toList, []) ∧
    ∃ cs, Api.parse (eng (Cfg.std 1000) 60 : Eng Hyb) (fun _ => none) "1/324*sqrt(5)".toList = .ok (some (Surds.expr [(1 / 36, 5)]), cs) :=
  ⟨by krfl, M.val_some (by krfl)⟩

end Tsym
