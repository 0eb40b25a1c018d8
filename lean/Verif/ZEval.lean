import Verif.ZRat
import Mathlib.LinearAlgebra.LinearIndependent.Basic
import Mathlib.Algebra.Order.Positive.Field

/-!
# Values of expanded Laurent polynomials

At positive values of the symbols a product of powers is a character of the group of assignments. By
Dedekind's theorem different characters are linearly independent, so that an expanded Laurent polynomial
is determined by its values.
-/

set_option autoImplicit false
set_option linter.unusedSectionVars false
set_option linter.unusedSimpArgs false
set_option linter.unusedVariables false

namespace Tsym
namespace Zf

open Expr
open scoped Classical

/-- Positive values of all symbols. -/
abbrev Pos := Sym → {x : ℝ // 0 < x}

/-- The assignment. -/
def Pos.asg (g : Pos) : Asg := fun s => (g s : ℝ)

theorem Pos.ne (g : Pos) (s : Sym) : g.asg s ≠ 0 := (g s).2.ne'
theorem Pos.respects (g : Pos) : g.asg.Respects := fun s _ => (g s).2.le

/-- Laurent polynomials in the symbols. -/
abbrev Ls := AddMonoidAlgebra ℚ (Sym →₀ ℤ)

/-- The value of a product of powers. -/
noncomputable def chi (c : Sym →₀ ℤ) : Pos →* ℝ where
  toFun g := c.prod fun s k => g.asg s ^ k
  map_one' := by simp [Pos.asg]
  map_mul' g h := by
    rw [← Finsupp.prod_mul]
    refine Finsupp.prod_congr fun s _ => ?_
    rw [← mul_zpow]; rfl

theorem chi_apply (c : Sym →₀ ℤ) (g : Pos) : chi c g = c.prod fun s k => g.asg s ^ k := rfl

theorem chi_add (c d : Sym →₀ ℤ) (g : Pos) : chi (c + d) g = chi c g * chi d g := by
  simp only [chi_apply]
  exact Finsupp.prod_add_index' (fun s => zpow_zero _) fun s j k => zpow_add₀ (g.ne s) j k

theorem chi_zero (g : Pos) : chi 0 g = 1 := by simp [chi_apply]

theorem chi_single (s : Sym) (k : ℤ) (g : Pos) : chi (Finsupp.single s k) g = g.asg s ^ k := by
  rw [chi_apply, Finsupp.prod_single_index (zpow_zero _)]

theorem chi_inj : Function.Injective chi := by
  intro c d h
  ext s
  let g : Pos := Function.update 1 s ⟨2, two_pos⟩
  have key : ∀ c : Sym →₀ ℤ, chi c g = 2 ^ c s := by
    intro c
    rw [chi_apply, Finsupp.prod_eq_single s]
    · simp [Pos.asg, g]
    · intro b hb hne
      simp [Pos.asg, g, hne]
    · intro; exact zpow_zero _
  have := key c
  rw [h, key d] at this
  exact (zpow_right_injective₀ (by norm_num : (0 : ℝ) < 2) (by norm_num) this).symm

/-- The value of a Laurent polynomial. -/
noncomputable def ev (g : Pos) : Ls →ₐ[ℚ] ℝ :=
  AddMonoidAlgebra.lift ℚ ℝ (Sym →₀ ℤ) { toFun := fun c => chi c.toAdd g, map_one' := chi_zero g, map_mul' := fun c d => chi_add _ _ g }

theorem ev_single (g : Pos) (c : Sym →₀ ℤ) (q : ℚ) : ev g (AddMonoidAlgebra.single c q) = q * chi c g := by
  rw [ev, AddMonoidAlgebra.lift_single]
  rw [Rat.smul_def]; rfl

theorem ev_inj {p q : Ls} (h : ∀ g : Pos, ev g p = ev g q) : p = q := by
  have li : LinearIndependent ℝ (fun c : Sym →₀ ℤ => (chi c : Pos → ℝ)) :=
    (linearIndependent_monoidHom Pos ℝ).comp chi chi_inj
  have li' : LinearIndependent ℚ (fun c : Sym →₀ ℤ => (chi c : Pos → ℝ)) := li.restrict_scalars (by
    intro a b h
    simpa [Rat.smul_def] using h)
  have hc : p.coeff = q.coeff := by
    refine li' ?_
    funext g
    have := h g
    simpa only [ev, AddMonoidAlgebra.lift_apply, Finsupp.linearCombination_apply, Finsupp.sum_apply', Finsupp.sum,
      Finset.sum_apply, Pi.smul_apply, MonoidHom.coe_mk, OneHom.coe_mk, toAdd_ofAdd] using this
  exact AddMonoidAlgebra.coeff_injective hc

variable {D : Type} [Flt D] [LawfulFlt D] {cfg : Cfg D} {σ : Asg}

theorem den_prodOf (l : List (Expr D)) : den σ (prodOf l) = denProd σ l := by
  match l with
  | [] => simp [prodOf, denProd]
  | [x] =>
    simp only [prodOf, denProd, Option.bind_some, mul_one]
    cases den σ x <;> rfl
  | x :: y :: l => rfl

theorem den_sumOf (l : List (Expr D)) : den σ (sumOf l) = denSum σ l := by
  match l with
  | [] => simp [sumOf, denSum]
  | [x] =>
    simp only [sumOf, denSum, Option.bind_some, add_zero]
    cases den σ x <;> rfl
  | x :: y :: l => rfl

/-- The exponents of the symbols. -/
noncomputable def cs (P : List (Expr D × ℤ)) : Sym →₀ ℤ :=
  (P.map fun f => match f.1 with | .sym s => Finsupp.single s f.2 | _ => 0).sum

/-- The Laurent polynomial of a list of summands. -/
noncomputable def qv (L : List (Mo D)) : Ls := (L.map fun m => AddMonoidAlgebra.single (cs m.2) m.1).sum

theorem cnt_cs {P : List (Expr D × ℤ)} (h : Sb P) : cnt P = (cs P).mapDomain Expr.sym := by
  induction P with
  | nil => simp [cs]
  | cons f P ih =>
    obtain ⟨s, hs⟩ := h f (by simp)
    rw [cnt_cons, ih h.cons.2]
    simp only [cs, List.map_cons, List.sum_cons, hs, Finsupp.mapDomain_add, Finsupp.mapDomain_single]

theorem den_fac_sym (g : Pos) {f : Expr D × ℤ} {s : Sym} (hs : f.1 = .sym s) : den g.asg (fac f) = some (g.asg s ^ f.2) := by
  unfold fac
  split
  · rename_i h; rw [hs, h, zpow_one]; rfl
  · rw [hs]
    exact den_pow.2 ⟨_, _, rfl, den_int _, Spec.pow_int _ (g.ne s)⟩

theorem den_facs (g : Pos) {P : List (Expr D × ℤ)} (h : Sb P) : denProd g.asg (P.map fac) = some (chi (cs P) g) := by
  induction P with
  | nil => simp [cs, denProd, chi_zero]
  | cons f P ih =>
    obtain ⟨s, hs⟩ := h f (by simp)
    refine denProd_cons.2 ⟨_, _, den_fac_sym g hs, ih h.cons.2, ?_⟩
    simp only [cs, List.map_cons, List.sum_cons, hs, chi_add, chi_single]

theorem den_em (g : Pos) {m : Mo D} (h : Sb m.2) : den g.asg (em m) = some (ev g (AddMonoidAlgebra.single (cs m.2) m.1)) := by
  rw [em, mexpr, den_prodOf, ev_single]
  by_cases hq : m.1 = 1
  · rw [hq, rl_one, den_facs g h]; simp
  · rw [rl_ne hq]
    exact denProd_cons.2 ⟨_, _, rfl, den_facs g h, rfl⟩

theorem den_qv (g : Pos) {L : List (Mo D)} (h : ∀ m ∈ L, Sb m.2) : den g.asg (sumOf (L.map em)) = some (ev g (qv L)) := by
  rw [den_sumOf]
  induction L with
  | nil => simp [qv, denSum]
  | cons m L ih =>
    refine denSum_cons.2 ⟨_, _, den_em g (h m (by simp)), ih fun n hn => h n (by simp [hn]), ?_⟩
    simp only [qv, List.map_cons, List.sum_cons, map_add]

theorem rv_qv {L : List (Mo D)} (h : ∀ m ∈ L, Sb m.2) : rv L = AddMonoidAlgebra.mapDomain (Finsupp.mapDomain Expr.sym) (qv L) := by
  induction L with
  | nil => simp [qv]
  | cons m L ih =>
    rw [rv_cons, ih fun n hn => h n (by simp [hn]), cnt_cs (h m (by simp))]
    simp only [qv, List.map_cons, List.sum_cons, AddMonoidAlgebra.mapDomain_add, AddMonoidAlgebra.mapDomain_single]

/-- Expanded Laurent polynomials with the same Laurent polynomial are the same. -/
theorem EL.qv_inj {L M : List (Mo D)} (hL : EL cfg Sb L) (hM : EL cfg Sb M) (h : qv L = qv M) :
    (sumOf (L.map em) : Expr D) = sumOf (M.map em) := by
  refine EP.unique ⟨L, hL, rfl⟩ ⟨M, hM, rfl⟩ ?_
  rw [lv_sumOf hL.sl, lv_sumOf hM.sl, rv_qv hL.sb, rv_qv hM.sb, h]

theorem Tm.xe (hc : cfg.Ok) {e : Expr D} (h : Tm cfg (LF cfg) e) : XE cfg e := by
  rcases h with rfl | ⟨m, h1, h2, h3, h4, rfl⟩
  · exact EP.zero.xe hc
  · exact XE.mexpr hc fun f hf => (h4 f hf).xe hc (h2.facs f hf).ne

end Zf
end Tsym
